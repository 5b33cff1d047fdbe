import Verif.Proofs.Reload
import Verif.Proofs.Near
/-!
# Systems that differ in the numbering of the rows and a little in the numbers
-/
set_option linter.unusedSectionVars false

namespace Verif.Proofs
open Verif.Model Verif.Spec Verif.Props Finset Verif.Proofs.IDict

variable {K : Type} [Field K] [LinearOrder K] [IsStrictOrderedRing K]

/-- the same states, state-action pairs, transitions and labels, and probabilities that differ by at most `η` -/
structure Rounded (η : K) (M L : Sys K) : Prop where
  N : L.N = M.N
  C : L.C = M.C
  pair : ∀ s a, (∃ r < L.C, ((s, a), r) ∈ L.idx) ↔ ∃ r < M.C, ((s, a), r) ∈ M.idx
  close : ∀ s a r r', ((s, a), r) ∈ M.idx → ((s, a), r') ∈ L.idx → ∀ t, |M.P.get r t - L.P.get r' t| ≤ η
  supp : ∀ s a r r', ((s, a), r) ∈ M.idx → ((s, a), r') ∈ L.idx → ∀ t, 0 < L.P.get r' t ↔ 0 < M.P.get r t
  lab : ∀ l s, Has L.labS.d l s ↔ Has M.labS.d l s

/-- the matrix with the stored entries replaced -/
def refill (P : Dok K) (f : Nat → Nat → K) : Dok K := ⟨P.rows, P.cols, P.items.map fun e => (e.1, f e.1.1 e.1.2)⟩

open Classical in
theorem get_refill (P : Dok K) (f : Nat → Nat → K) (i j : Nat) :
    (refill P f).get i j = if ∃ p, ((i, j), p) ∈ P.items then f i j else 0 := by
  unfold Dok.get refill
  simp only
  induction P.items with
  | nil => simp [Dict.get?]
  | cons e l ih =>
    obtain ⟨k, p⟩ := e
    simp only [List.map_cons, Dict.get?] at ih ⊢
    by_cases hk : k = (i, j)
    · subst hk
      rw [if_pos rfl, if_pos ⟨p, List.mem_cons_self⟩]
      rfl
    · rw [if_neg hk, ih]
      congr 1
      simp only [List.mem_cons, Prod.mk.injEq, eq_iff_iff]
      constructor
      · rintro ⟨q, h⟩; exact ⟨q, .inr h⟩
      · rintro ⟨q, ⟨h, -⟩ | h⟩
        · exact absurd h.symm hk
        · exact ⟨q, h⟩

open Classical in
/-- between the two there is a system that differs from the one only in the numbers and from the other only in the numbering -/
theorem Rounded.between {η : K} {M L : Sys K} (h : Rounded η M L) (hM : M.WF) (hL : L.WF) (hη : 0 ≤ η) :
    ∃ M' : Sys K, M'.WF ∧ Renumbered M M' ∧ L.Near η M' := by
  have hf : ∀ r' < L.C, ∃ s a r, ((s, a), r') ∈ L.idx ∧ ((s, a), r) ∈ M.idx ∧ r < M.C := by
    intro r' hr'
    obtain ⟨s, a, hi, -⟩ := WF.cover hL hr'
    obtain ⟨r, hr, hm⟩ := (h.pair s a).1 ⟨r', hr', hi⟩
    exact ⟨s, a, r, hi, hm, hr⟩
  choose! s a r h1 h2 h3 using hf
  set f : Nat → Nat → K := fun r' t => M.P.get (r r') t with hf
  have hget : ∀ i < L.C, ∀ j, (refill L.P f).get i j = M.P.get (r i) j := by
    intro i hi j
    rw [get_refill]
    split
    · rfl
    · rename_i hn
      symm
      by_contra hne
      have : 0 < M.P.get (r i) j := lt_of_le_of_ne (WF.get_nonneg hM _ _) (Ne.symm hne)
      exact hn ((WF.get_pos_iff hL).1 ((h.supp _ _ _ _ (h2 i hi) (h1 i hi) j).2 this))
  have hout : ∀ i j, ¬ i < L.C → (refill L.P f).get i j = 0 ∧ L.P.get i j = 0 := by
    intro i j hi
    have hn : ¬ ∃ p, ((i, j), p) ∈ L.P.items := fun ⟨p, hp⟩ => hi (hL.range _ _ _ hp).1
    refine ⟨by rw [get_refill, if_neg hn], ?_⟩
    by_contra hne
    exact hn ⟨_, mem_of_get_ne hne⟩
  have hsupp : ∀ i j, 0 < (refill L.P f).get i j ↔ 0 < L.P.get i j := by
    intro i j
    by_cases hi : i < L.C
    · rw [hget i hi]; exact (h.supp _ _ _ _ (h2 i hi) (h1 i hi) j).symm
    · rw [(hout i j hi).1, (hout i j hi).2]
  obtain ⟨g, hg⟩ := build_ok (n := L.N) (inv := invGet? L.idx) (refill L.P f).items (Graph.empty L.N) (by
    rintro ⟨⟨i, j⟩, p⟩ he
    obtain ⟨⟨k, q⟩, hq, e⟩ := List.mem_map.1 he
    cases e
    exact (build_spec _ _ _ hL.graph).2.2.2 ((i, j), q) hq)
  have hkeys : (refill L.P f).items.map Prod.fst = L.P.items.map Prod.fst := by
    unfold refill; rw [List.map_map]; rfl
  have hw : Sys.WF ⟨L.dtmc, refill L.P f, L.idx, L.labA, L.labS, L.rew, g⟩ := by
    refine ⟨?_, ?_, ?_, ?_, hL.keys, hL.vals, hg⟩
    · show ((refill L.P f).items.map Prod.fst).Nodup
      rw [hkeys]; exact hL.nodup
    · intro i j p he
      obtain ⟨⟨k, q⟩, hq, e⟩ := List.mem_map.1 he
      cases e
      exact hL.range _ _ _ hq
    · intro i j p he
      obtain ⟨⟨⟨i', j'⟩, q⟩, hq, e⟩ := List.mem_map.1 he
      cases e
      have hi := (hL.range _ _ _ hq).1
      exact (h.supp _ _ _ _ (h2 _ hi) (h1 _ hi) _).1 ((WF.get_pos_iff hL).2 ⟨_, hq⟩)
    · intro i hi
      show ∑ j ∈ range L.N, (refill L.P f).get i j = 1
      have hi' : i < L.C := hi
      simp only [hget i hi']
      rw [h.N]
      exact hM.sum _ (h3 i hi')
  refine ⟨_, hw, ⟨h.N, h.C, h.pair, ?_, h.lab⟩, ⟨rfl, rfl, rfl, rfl, hsupp, ?_⟩⟩
  · intro s' a' r1 r' e1 e2 t
    show (refill L.P f).get r' t = _
    have e2 : ((s', a'), r') ∈ L.idx := e2
    by_cases hr' : r' < L.C
    · rw [hget r' hr']
      have := WF.idx_inj hL (h1 r' hr') e2
      have e3 : (s r', a r') = (s', a') := this
      have e4 := h2 r' hr'
      rw [e3] at e4
      have g1 := Dict.get?_of_mem hM.keys e4
      rw [Dict.get?_of_mem hM.keys e1] at g1
      rw [Option.some.inj g1]
    · rw [(hout r' t hr').1]
      by_contra hne
      have hp : 0 < M.P.get r1 t := lt_of_le_of_ne (WF.get_nonneg hM _ _) (fun e => hne e)
      have := (h.supp _ _ _ _ e1 e2 t).2 hp
      rw [(hout r' t hr').2] at this
      exact lt_irrefl _ this
  · intro i j
    show |(refill L.P f).get i j - _| ≤ _
    by_cases hi : i < L.C
    · rw [hget i hi]; exact h.close _ _ _ _ (h2 i hi) (h1 i hi) j
    · rw [(hout i j hi).1, (hout i j hi).2]; simpa using hη

end Verif.Proofs
