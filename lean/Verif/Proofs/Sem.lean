import Verif.Spec.Sem
import Verif.Props.System
import Verif.Props.Graph
import Verif.Props.Mec
import Mathlib.Data.Fintype.BigOperators
import Mathlib.Data.List.GetD
import Mathlib.Algebra.Field.Basic
import Mathlib.Algebra.GroupWithZero.Units.Lemmas
/-! # Facts about well-formed systems -/
set_option linter.unusedSectionVars false

namespace Verif.Proofs
open Verif.Model Verif.Spec Verif.Props

variable {K : Type} [Field K] [LinearOrder K] [IsStrictOrderedRing K]

/-- a transition with positive probability -/
def Edge (M : Sys K) (u v : Nat) : Prop := ∃ a i, ((u, a), i) ∈ M.idx ∧ i < M.C ∧ 0 < M.P.get i v

theorem phi_strict (φ : K →+*o ℝ) : StrictMono φ :=
  (OrderHomClass.mono φ).strictMono_of_injective
    ((injective_iff_map_eq_zero φ).2 fun _ hx => (map_eq_zero φ).1 hx)

theorem phi_pos (φ : K →+*o ℝ) {x : K} : 0 < φ x ↔ 0 < x := by
  rw [← map_zero φ, (phi_strict φ).lt_iff_lt]

theorem phi_nonneg (φ : K →+*o ℝ) {x : K} : 0 ≤ φ x ↔ 0 ≤ x := by
  rw [← map_zero φ, (phi_strict φ).le_iff_le]

namespace WF
variable {M : Sys K} (h : M.WF)
include h

theorem get_pos_iff {i j : Nat} : 0 < M.P.get i j ↔ ∃ p, ((i, j), p) ∈ M.P.items := by
  constructor
  · intro hp; exact ⟨_, mem_of_get_ne hp.ne'⟩
  · rintro ⟨p, hp⟩
    rw [get_of_mem h.nodup hp]; exact h.pos i j p hp

theorem get_nonneg (i j : Nat) : 0 ≤ M.P.get i j := by
  by_contra hc
  push Not at hc
  have := h.pos _ _ _ (mem_of_get_ne hc.ne)
  exact absurd this (not_lt.2 hc.le)

theorem get_range {i j : Nat} (hp : 0 < M.P.get i j) : i < M.C ∧ j < M.N := by
  obtain ⟨p, hp⟩ := (get_pos_iff h).1 hp
  exact h.range i j p hp

theorem exists_pos {i : Nat} (hi : i < M.C) : ∃ j < M.N, 0 < M.P.get i j := by
  by_contra hc
  push Not at hc
  have := h.sum i hi
  rw [Finset.sum_eq_zero fun j hj => le_antisymm (hc j (Finset.mem_range.1 hj)) (get_nonneg h i j)] at this
  exact zero_ne_one this

theorem cover {i : Nat} (hi : i < M.C) : ∃ s a, ((s, a), i) ∈ M.idx ∧ s < M.N := by
  obtain ⟨j, _, hp⟩ := exists_pos h hi
  obtain ⟨p, hp⟩ := (get_pos_iff h).1 hp
  obtain ⟨s, a, h1, h2, _⟩ := (build_spec _ _ _ h.graph).2.2.2 _ hp
  exact ⟨s, a, mem_of_invGet? h1, h2⟩

theorem idx_inj {sa sa' : Nat × Nat} {i : Nat} (h1 : (sa, i) ∈ M.idx) (h2 : (sa', i) ∈ M.idx) : sa = sa' := by
  have := List.inj_on_of_nodup_map h.vals h1 h2 rfl
  simpa using this

theorem idx_inj' {sa : Nat × Nat} {i i' : Nat} (h1 : (sa, i) ∈ M.idx) (h2 : (sa, i') ∈ M.idx) : i = i' := by
  have := List.inj_on_of_nodup_map h.keys h1 h2 rfl
  simpa using this

theorem state_lt {s a i : Nat} (hm : ((s, a), i) ∈ M.idx) (hi : i < M.C) : s < M.N := by
  obtain ⟨s', a', h1, h2⟩ := cover h hi
  have := idx_inj h hm h1
  simp only [Prod.mk.injEq] at this
  omega

theorem matTr_iff {s a d : Nat} : MatTr (invGet? M.idx) M.P.items s a d ↔
    ∃ i, ((s, a), i) ∈ M.idx ∧ i < M.C ∧ 0 < M.P.get i d := by
  constructor
  · rintro ⟨i, p, h1, h2⟩
    exact ⟨i, mem_of_invGet? h1, (h.range _ _ _ h2).1, (get_pos_iff h).2 ⟨p, h2⟩⟩
  · rintro ⟨i, h1, -, h2⟩
    obtain ⟨p, hp⟩ := (get_pos_iff h).1 h2
    exact ⟨i, p, (invGet?_iff h.vals).2 h1, hp⟩

theorem edge_lt {u v : Nat} (he : Edge M u v) : u < M.N ∧ v < M.N := by
  obtain ⟨a, i, h1, h2, h3⟩ := he
  exact ⟨state_lt h h1 h2, (get_range h h3).2⟩

theorem edge_iff {u v : Nat} : Edge M u v ↔ ∃ i a p, invGet? M.idx i = some (u, a) ∧ ((i, v), p) ∈ M.P.items := by
  constructor
  · rintro ⟨a, i, h1, h2, h3⟩
    obtain ⟨p, hp⟩ := (get_pos_iff h).1 h3
    exact ⟨i, a, p, (invGet?_iff h.vals).2 h1, hp⟩
  · rintro ⟨i, a, p, h1, h2⟩
    exact ⟨a, i, mem_of_invGet? h1, (h.range _ _ _ h2).1, (get_pos_iff h).2 ⟨p, h2⟩⟩

/-- specification of `reachable_mask` for a well-formed system -/
theorem mask_fwd {F B : List Nat} (hF : F ≠ []) (hnd : F.Nodup) (hFn : ∀ x ∈ F, x < M.N) :
    ∃ mask, M.reachableMask F true B = .ok mask ∧ mask.length = M.N ∧
      ∀ x, mask.getD x false = true ↔ ReachAvoid (Edge M) {x | x ∈ F} {x | x ∈ B} x := by
  obtain ⟨mask, h1, h2, h3⟩ := C05_reachable h.graph (B := B) true hF hnd hFn
  refine ⟨mask, ?_, h2, ?_⟩
  · simp only [Sys.reachableMask]; rw [if_pos hFn, h1]
  · intro x
    have e : (fun u v => if true = true then ∃ i a p, invGet? M.idx i = some (u, a) ∧ ((i, v), p) ∈ M.P.items
            else ∃ i a p, invGet? M.idx i = some (v, a) ∧ ((i, u), p) ∈ M.P.items) = Edge M := by
      funext u v; simp only [if_true]; exact propext (edge_iff h).symm
    rw [e] at h3
    by_cases hx : x < mask.length
    · rw [List.getD_eq_getElem _ _ hx]; exact h3 x hx
    · rw [List.getD_eq_default _ _ (by omega)]
      refine iff_of_false (by simp) ?_
      rintro ⟨f, hf, hr⟩
      apply hx
      rw [h2]
      rcases hr.cases_tail with rfl | ⟨y, _, _, he⟩
      · exact hFn _ hf
      · exact (edge_lt h he).2

theorem mask_bwd {F B : List Nat} (hF : F ≠ []) (hnd : F.Nodup) (hFn : ∀ x ∈ F, x < M.N) :
    ∃ mask, M.reachableMask F false B = .ok mask ∧ mask.length = M.N ∧
      ∀ x, mask.getD x false = true ↔ ReachAvoid (fun u v => Edge M v u) {x | x ∈ F} {x | x ∈ B} x := by
  obtain ⟨mask, h1, h2, h3⟩ := C05_reachable h.graph (B := B) false hF hnd hFn
  refine ⟨mask, ?_, h2, ?_⟩
  · simp only [Sys.reachableMask]; rw [if_pos hFn, h1]
  · intro x
    have e : (fun u v => if false = true then ∃ i a p, invGet? M.idx i = some (u, a) ∧ ((i, v), p) ∈ M.P.items
            else ∃ i a p, invGet? M.idx i = some (v, a) ∧ ((i, u), p) ∈ M.P.items) = fun u v => Edge M v u := by
      funext u v; simp only [Bool.false_eq_true, if_false]; exact propext (edge_iff h).symm
    rw [e] at h3
    by_cases hx : x < mask.length
    · rw [List.getD_eq_getElem _ _ hx]; exact h3 x hx
    · rw [List.getD_eq_default _ _ (by omega)]
      refine iff_of_false (by simp) ?_
      rintro ⟨f, hf, hr⟩
      apply hx
      rw [h2]
      rcases hr.cases_tail with rfl | ⟨y, _, _, he⟩
      · exact hFn _ hf
      · exact (edge_lt h he).1

theorem successors_mem {s d a : Nat} {p : K} : (d, a, p) ∈ M.graph.successors s ↔
    ∃ i, ((s, a), i) ∈ M.idx ∧ ((i, d), p) ∈ M.P.items := by
  have hinv : ∀ i j sa, invGet? M.idx i = some sa → invGet? M.idx j = some sa → i = j := by
    intro i j sa h1 h2
    exact idx_inj' h (mem_of_invGet? h1) (mem_of_invGet? h2)
  rw [(C04_neighbours h.nodup hinv h.graph).1 s d a p none]
  simp [invGet?_iff h.vals]

theorem valid (φ : K →+*o ℝ) (ht : M.Total) : (M.toMDP φ).Valid where
  rows_nonempty s := by
    obtain ⟨a, i, h1, h2⟩ := ht s.1 s.2
    exact ⟨⟨i, h2⟩, by simp only [Sys.toMDP, Finset.mem_filter, Finset.mem_univ, true_and]; exact ⟨a, h1⟩⟩
  nonneg s r _ t := (phi_nonneg φ).2 (get_nonneg h _ _)
  sum_one s r _ := by
    simp only [Sys.toMDP]
    rw [← map_sum, Fin.sum_univ_eq_sum_range (fun t => M.P.get r.1 t), h.sum _ r.2, map_one]

theorem mem_rows {φ : K →+*o ℝ} {s : Fin M.N} {i : Fin M.C} :
    i ∈ (M.toMDP φ).rows s ↔ ∃ a, ((s.1, a), i.1) ∈ M.idx := by
  simp [Sys.toMDP]

end WF

/-- a constructor call with exact row sums and no stored zeros yields a well-formed system -/
theorem wf_of_make {dtmc : Bool} {P : Dok K} (hP : InShape P) {idx : Dict (Nat × Nat) Nat}
    (hk : (idx.map Prod.fst).Nodup) {labA : IDict String (Nat × Nat)} {labS : IDict String Nat}
    {rew : Option (List K)} {M : Sys K} (hM : Sys.make dtmc P idx labA labS rew = .ok M)
    (hpos : ∀ e ∈ P.items, e.2 ≠ 0)
    (hsum : ∀ i < P.rows, ∑ j ∈ Finset.range P.cols, P.get i j = 1) : M.WF := by
  obtain ⟨hv, hc, g, hg, rfl⟩ := (make_iff hk).1 hM
  obtain ⟨-, h2, -⟩ := (checkCorrectness_iff P rew).1 hc
  exact ⟨hP.nodup, hP.range, fun i j p hp => lt_of_le_of_ne (h2 _ hp).1 (Ne.symm (hpos _ hp)), hsum, hk, hv, hg⟩

end Verif.Proofs
