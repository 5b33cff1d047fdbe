import Verif.Proofs.Cert
import Verif.Theory.Tol
/-! # The certificate inequalities in terms of the core -/
set_option linter.unusedSectionVars false

namespace Verif.Proofs.RFOK
open Verif.Model Verif.Spec Verif.Props Verif.Theory Finset Verif.Proofs

variable {K : Type} [Field K] [LinearOrder K] [IsStrictOrderedRing K]
variable {rf : RF K} (h : RFOK rf) (φ : K →+*o ℝ)

/-- a vector of the code as a function on states -/
def vec (φ : K →+*o ℝ) (v : Nat → K) (s : Fin rf.N) : ℝ := φ (v s.1)
def vecY (φ : K →+*o ℝ) (y : Nat → K) (_ : Fin rf.N) (r : Fin rf.C) : ℝ := φ (y r.1)

include h

theorem zrow_eq (v : Nat → K) {i : Fin rf.C} {s : Fin rf.N} (hi : i ∈ (core h φ).rows s) :
    φ (rf.b i.1) - φ (zrow rf v i.1) = (core h φ).step (vec φ v) s i - vec φ v s := by
  rw [mem_rows] at hi
  have e : zrow rf v i.1 = v s.1 - ∑ j ∈ range rf.N, rf.P i.1 j * v j := by
    unfold zrow RF.A
    simp only [sub_mul, Finset.sum_sub_distrib, hi]
    congr 1
    rw [Finset.sum_eq_single s.1]
    · simp
    · intro j _ hj; simp [Ne.symm hj]
    · intro hn; exact absurd (Finset.mem_range.2 s.2) hn
  rw [e, map_sub, map_sum, ← Fin.sum_univ_eq_sum_range (fun j => φ (rf.P i.1 j * v j))]
  simp only [map_mul, Core.step, vec]
  show _ = φ (rf.b i.1) + ∑ t : Fin rf.N, φ (rf.P i.1 t.1) * φ (v t.1) - _
  ring

theorem sum_rows (f : Fin rf.C → ℝ) : ∑ s, ∑ r ∈ (core h φ).rows s, f r = ∑ r, f r := by
  simp only [core, Finset.sum_filter]
  rw [Finset.sum_comm]
  refine Finset.sum_congr rfl fun r _ => ?_
  obtain ⟨s, hs, e⟩ := exists_rowState h r.2
  rw [Finset.sum_eq_single ⟨s, hs⟩]
  · simp [e]
  · intro t _ ht
    rw [if_neg]
    rw [e]
    intro hc
    exact ht (Fin.ext (by simpa using hc.symm))
  · simp

theorem yrow_eq (y : Nat → K) (j : Fin rf.N) :
    φ (yrow rf y j.1) = (core h φ).bal (vecY φ y) j := by
  unfold yrow Core.bal
  have e := sum_rows h φ (fun r => φ (y r.1) * φ (rf.P r.1 j.1))
  have e' : ∑ s, ∑ r ∈ (core h φ).rows s, vecY φ y s r * (core h φ).Q s r j
      = ∑ r : Fin rf.C, φ (y r.1) * φ (rf.P r.1 j.1) := e
  rw [e']
  simp only [core, Finset.sum_filter, vecY]
  rw [map_sum, ← Fin.sum_univ_eq_sum_range (fun i => φ (rf.A i j.1 * y i)), ← Finset.sum_sub_distrib]
  refine Finset.sum_congr rfl fun r _ => ?_
  rw [map_mul]
  unfold RF.A
  by_cases hc : rf.rowState r.1 = some j.1
  · simp only [hc, if_true, map_sub, map_one]; ring
  · simp only [hc, if_false, map_sub, map_zero]; ring

theorem ygain_eq (y : Nat → K) : φ (ygain rf y) = (core h φ).gain (vecY φ y) := by
  unfold ygain Core.gain
  have := sum_rows h φ (fun r => φ (y r.1) * φ (rf.b r.1))
  rw [map_sum, ← Fin.sum_univ_eq_sum_range (fun i => φ (rf.b i * y i))]
  refine Eq.trans ?_ this.symm
  exact Finset.sum_congr rfl fun r _ => by rw [map_mul, mul_comm]

theorem isSome_rowState {i : Nat} (hi : i < rf.C) : (rf.rowState i).isSome := by
  obtain ⟨s, _, e⟩ := exists_rowState h hi
  rw [e]; rfl

omit h in
theorem delta_eq (hi : rf.initial < rf.N) (j : Fin rf.N) :
    φ (rf.delta j.1) = if j = ⟨rf.initial, hi⟩ then 1 else 0 := by
  unfold RF.delta
  by_cases hc : j.1 = rf.initial
  · have : j = ⟨rf.initial, hi⟩ := Fin.ext hc
    subst this; simp
  · have : j ≠ ⟨rf.initial, hi⟩ := fun e => hc (by rw [e])
    simp [hc, this]

/-- rows inequality `A z <= b + tol` -/
theorem zrow_le_iff (v : Nat → K) (tol : K) : (∀ i < rf.C, zrow rf v i - tol ≤ rf.b i) ↔
    ∀ s, ∀ r ∈ (core h φ).rows s, vec φ v s ≤ (core h φ).step (vec φ v) s r + φ tol := by
  constructor
  · intro hh s r hr
    have h1 := zrow_eq h φ v hr
    have h2 := OrderHomClass.mono φ (hh r.1 r.2)
    rw [map_sub] at h2
    linarith
  · intro hh i hi
    obtain ⟨s, hs, e⟩ := exists_rowState h hi
    have hr : (⟨i, hi⟩ : Fin rf.C) ∈ (core h φ).rows ⟨s, hs⟩ := (mem_rows h φ).2 e
    have h1 := zrow_eq h φ v hr
    have h2 := hh _ _ hr
    rw [← (phi_strict φ).le_iff_le, map_sub]
    simp only at h1
    linarith

theorem zrow_ge_iff (v : Nat → K) (tol : K) : (∀ i < rf.C, rf.b i ≤ zrow rf v i + tol) ↔
    ∀ s, ∀ r ∈ (core h φ).rows s, (core h φ).step (vec φ v) s r ≤ vec φ v s + φ tol := by
  constructor
  · intro hh s r hr
    have h1 := zrow_eq h φ v hr
    have h2 := OrderHomClass.mono φ (hh r.1 r.2)
    rw [map_add] at h2
    linarith
  · intro hh i hi
    obtain ⟨s, hs, e⟩ := exists_rowState h hi
    have hr : (⟨i, hi⟩ : Fin rf.C) ∈ (core h φ).rows ⟨s, hs⟩ := (mem_rows h φ).2 e
    have h1 := zrow_eq h φ v hr
    have h2 := hh _ _ hr
    rw [← (phi_strict φ).le_iff_le, map_add]
    simp only at h1
    linarith

theorem yrow_le_iff (hi : rf.initial < rf.N) (y : Nat → K) (tol : K) :
    (∀ j < rf.N, yrow rf y j - tol ≤ rf.delta j) ↔
    ∀ t, (core h φ).bal (vecY φ y) t ≤ (if t = ⟨rf.initial, hi⟩ then 1 else 0) + φ tol := by
  constructor
  · intro hh t
    have h2 := OrderHomClass.mono φ (hh t.1 t.2)
    rw [map_sub, delta_eq φ hi, yrow_eq h φ] at h2
    linarith
  · intro hh j hj
    have h2 := hh ⟨j, hj⟩
    rw [← yrow_eq h φ, ← delta_eq φ hi] at h2
    rw [← (phi_strict φ).le_iff_le, map_sub]
    simp only at h2
    linarith

theorem yrow_ge_iff (hi : rf.initial < rf.N) (y : Nat → K) (tol : K) :
    (∀ j < rf.N, rf.delta j ≤ yrow rf y j + tol) ↔
    ∀ t, (if t = ⟨rf.initial, hi⟩ then 1 else 0) ≤ (core h φ).bal (vecY φ y) t + φ tol := by
  constructor
  · intro hh t
    have h2 := OrderHomClass.mono φ (hh t.1 t.2)
    rw [map_add, delta_eq φ hi, yrow_eq h φ] at h2
    linarith
  · intro hh j hj
    have h2 := hh ⟨j, hj⟩
    rw [← yrow_eq h φ, ← delta_eq φ hi] at h2
    rw [← (phi_strict φ).le_iff_le, map_add]
    simp only at h2
    linarith

end Verif.Proofs.RFOK

namespace Verif.Proofs
open Verif.Model
variable {K : Type} [Field K] [LinearOrder K] [IsStrictOrderedRing K]

/-- fields of a constructed reachability form -/
theorem make_fields {ρ : Graph.Rnd} {M : Sys K} {il tl fl : String} {ig : Bool} {rf : RF K}
    (hm : RF.make ρ M il tl fl ig = .ok rf) :
    rf.sys = M ∧ rf.initL = il ∧ rf.targetL = tl ∧ rf.failL = fl ∧
      (ig = false → M.assertConsistency il tl fl = .ok ()) := by
  have aux : ∀ (is : List Nat) (x : Except Err (RF K)),
      (do
        let init ← match is with
          | [] => .error .stopIteration
          | s :: _ => .ok s
        let d1 ← delInv M.idx (M.C - 2)
        let d2 ← delInv d1 (M.C - 1)
        if ∀ i < M.C - 2, (invGet? d2 i).isSome then
          if ∀ i < M.C - 2, ∀ sa, invGet? d2 i = some sa → sa.1 < M.N - 2 then
            match M.graph.maximalEndComponents ρ with
            | none => .error .indexError
            | some (mec, proper, cnt) => .ok ⟨M, init, il, tl, fl, d2, mec, proper, cnt⟩
          else .error .indexError
        else .error .keyError) = x → x = .ok rf → rf.sys = M ∧ rf.initL = il ∧ rf.targetL = tl ∧ rf.failL = fl := by
    intro is x hx hxr
    subst hx
    simp only [bind, Except.bind] at hxr
    cases is with
    | nil => cases hxr
    | cons i is =>
      simp only at hxr
      split at hxr
      · cases hxr
      split at hxr
      · cases hxr
      split at hxr
      swap
      · cases hxr
      split at hxr
      swap
      · cases hxr
      split at hxr
      · cases hxr
      cases hxr
      exact ⟨rfl, rfl, rfl, rfl⟩
  unfold RF.make at hm
  cases ig with
  | true =>
    simp only [if_true] at hm
    cases hl : M.statesByLabel il with
    | error e => rw [hl] at hm; cases hm
    | ok is =>
      rw [hl] at hm
      obtain ⟨a, b, c, d⟩ := aux is _ rfl hm
      exact ⟨a, b, c, d, by simp⟩
  | false =>
    simp only [Bool.false_eq_true, if_false] at hm
    cases hc : M.assertConsistency il tl fl with
    | error e => rw [hc] at hm; cases hm
    | ok u =>
      rw [hc] at hm
      cases hl : M.statesByLabel il with
      | error e => rw [hl] at hm; cases hm
      | ok is =>
        rw [hl] at hm
        obtain ⟨a, b, c, d⟩ := aux is _ rfl hm
        exact ⟨a, b, c, d, fun _ => rfl⟩

end Verif.Proofs
