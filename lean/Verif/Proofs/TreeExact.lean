import Verif.Proofs.TreeComplete
/-! # The tree algorithm on a path of parts: the result is the size of a smallest set -/
set_option linter.unusedSectionVars false

namespace Verif.Proofs.Tree
open Verif.Model Verif.Model.TreeDecomp Verif.Theory Finset

variable {K : Type} [Field K] [LinearOrder K] [IsStrictOrderedRing K]
variable {c : Chain K} {φ : K →+* ℝ} {parts : List (List Nat)} {order : List Nat}
variable {lin : Nat → (Nat → K) → (Nat → K) → Nat → K} {hull : Nat → Dict Nat (List (List K)) → List (Nat × List K)}
variable {ub : Nat} {thr : K}

theorem Ctx.root (H : Ctx c φ parts order) : ∃ m p, order.length = m + 1 ∧ order[m]? = some p ∧ order.getLast? = some p ∧
    inputs c parts p = [c.init] ∧ ∀ v < c.n, pos parts order v ≤ m := by
  obtain ⟨p, hp, -⟩ := H.path.init
  have hl := pos_init H.path H.init
  refine ⟨pos parts order c.init, p, hl.symm, ?_, hp, ?_, fun v hv => ?_⟩
  · rw [List.getLast?_eq_getElem?] at hp
    rw [← hp]
    congr 1
    omega
  · refine inputs_root H.path hp H.init
  · have := pos_lt H.path hv
    omega

/-- the set behind the result -/
theorem Ctx.exact_sound (H : Ctx c φ parts order) (hl : LinOK lin) (hh : HullOK φ hull) {k : Nat}
    (h : minWitnesses lin c parts hull order thr ub = .ok k) :
    ∃ T ⊆ range c.n, ∃ x, T.card = k ∧ k ≤ ub ∧ Chain.Val c.n (Q φ c) (gain φ c) T x ∧ φ thr ≤ x c.init := by
  obtain ⟨m, p, h1, h2, h3, h4, -⟩ := H.root
  unfold minWitnesses at h
  split at h
  · simp only [bind, Except.bind] at h
    split at h
    · cases h
    · rename_i d hd
      rw [h3] at h
      simp only at h
      split at h
      · cases h
      · rename_i k' hk
        cases h
        obtain ⟨r, hr0, hr1⟩ := points_seq H.path hd
        have hget : d.get? p = some (r m) := by
          cases m with
          | zero => exact (hr0 p h2).2
          | succ m => exact (hr1 m p h2).2
        rw [hget] at hk
        have hmem := List.min?_mem hk
        obtain ⟨q, hq, rfl⟩ := List.mem_map.1 hmem
        obtain ⟨T, x, hT⟩ := H.sound hl hh (j := order.length) (fun p _ hp => (hr0 p hp).1) (fun i p _ hp => (hr1 i p hp).1) m (by omega) p h2 q hq
        refine ⟨T, hT.sub, x, hT.card, hT.ub, hT.val, ?_⟩
        have := hT.thr
        rw [h4] at this
        simpa using this
  · cases h

/-- no set with the required value is smaller -/
theorem Ctx.exact_min (H : Ctx c φ parts order) (hl : LinOK lin) (hh : HullOK φ hull) (hthr : 0 < φ thr) {k : Nat}
    (h : minWitnesses lin c parts hull order thr ub = .ok k) {W : Finset Nat} (hW : W ⊆ range c.n) {x : Nat → ℝ}
    (hx : Chain.Val c.n (Q φ c) (gain φ c) W x) (hv : φ thr ≤ x c.init) : k ≤ W.card := by
  obtain ⟨-, -, -, -, hkub, -⟩ := H.exact_sound hl hh h
  by_cases hub : W.card ≤ ub
  swap
  · omega
  obtain ⟨U, hUW, x', hU⟩ := H.trim hthr hW hx hv
  obtain ⟨Y, y1, -, y3⟩ := Chain.exists_visits H.ok hU.sub hU.init
  have hY : Chain.Flow (Q φ c) U c.init Y := ⟨y1, y3⟩
  obtain ⟨m, p, h1, h2, h3, h4, -⟩ := H.root
  unfold minWitnesses at h
  split at h
  · simp only [bind, Except.bind] at h
    split at h
    · cases h
    · rename_i d hd
      rw [h3] at h
      simp only at h
      split at h
      · cases h
      · rename_i k' hk
        cases h
        obtain ⟨r, hr0, hr1⟩ := points_seq H.path hd
        have hget : d.get? p = some (r m) := by
          cases m with
          | zero => exact (hr0 p h2).2
          | succ m => exact (hr1 m p h2).2
        rw [hget] at hk
        obtain ⟨q, hq, hqs, -⟩ := H.complete hl hh hthr hU hY ((card_le_card hUW).trans hub) (j := order.length)
          (fun p _ hp => (hr0 p hp).1) (fun i p _ hp => (hr1 i p hp).1) m (by omega) p h2
        have hle : k ≤ q.states := (List.min?_eq_some_iff.1 hk).2 _ (List.mem_map_of_mem (f := Pt.states) hq)
        exact hle.trans (hqs.trans ((card_le_card (filter_subset _ _)).trans (card_le_card hUW)))
  · cases h

/-- if there is a set within the bound, a number is returned or a key is missing -/
theorem Ctx.exact_returns (H : Ctx c φ parts order) (hl : LinOK lin) (hh : HullOK φ hull) (hthr : 0 < φ thr)
    (hin : ∀ v < c.n, v ≠ c.init → ∃ u < c.n, c.edge u v = true)
    (hout : ∀ v < c.n, 0 < c.toTarget v ∨ ∃ w < c.n, c.edge v w = true) {W : Finset Nat} (hW : W ⊆ range c.n) {x : Nat → ℝ}
    (hx : Chain.Val c.n (Q φ c) (gain φ c) W x) (hv : φ thr ≤ x c.init) (hub : W.card ≤ ub) :
    OkOrKey (minWitnesses lin c parts hull order thr ub) := by
  obtain ⟨U, hUW, x', hU⟩ := H.trim hthr hW hx hv
  obtain ⟨Y, y1, -, y3⟩ := Chain.exists_visits H.ok hU.sub hU.init
  have hY : Chain.Flow (Q φ c) U c.init Y := ⟨y1, y3⟩
  have hUub := (card_le_card hUW).trans hub
  obtain ⟨m, p, h1, h2, h3, h4, -⟩ := H.root
  unfold minWitnesses
  rw [if_pos H.path.states]
  rcases H.parts_return hl hh hthr hU hY hUub hin hout order.length le_rfl with ⟨d, r, e1, e2, e3, e4⟩ | e
  · rw [List.take_length] at e1
    obtain ⟨q, hq, -⟩ := H.complete hl hh hthr hU hY hUub e3 e4 m (by omega) p h2
    simp only [bind, Except.bind, e1, h3, e2 m p (by omega) h2, Option.getD_some]
    cases hm : ((r m).map Pt.states).min? with
    | none =>
      rw [List.min?_eq_none_iff, List.map_eq_nil_iff] at hm
      rw [hm] at hq
      cases hq
    | some k => exact Or.inl ⟨k, rfl⟩
  · rw [List.take_length] at e
    right
    simp only [bind, Except.bind, e]

end Verif.Proofs.Tree
