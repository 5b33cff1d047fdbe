import Verif.Model.RewCert
import Verif.Proofs.RewardLP
import Verif.Proofs.Cert
/-! # `check_farkas_certificate` on a reward form, spelled out -/
set_option linter.unusedSectionVars false

namespace Verif.Proofs
open Verif.Model Verif.Spec Verif.Props Verif.Theory Finset

variable {K : Type} [Field K] [LinearOrder K] [IsStrictOrderedRing K] {x : RRF K} {strict : Bool} {t tol : K} {v : List K}

theorem rcheck_min_ge :
    x.check .min (if strict then .gt else .ge) t v tol = .ok true ↔
      (0 ≤ t ∧ t ≤ 1) ∧ x.rf.initial < x.rf.N ∧ v.length = x.rf.N ∧
      (∀ i < x.rf.C, zrow x.rf (fun j => v.getD j 0) i - tol ≤ x.rew.getD i 0) ∧
      t - tol ≤ v.getD x.rf.initial 0 ∧ (strict = true → t - tol < v.getD x.rf.initial 0) := by
  unfold RRF.check
  by_cases ht : 0 ≤ t ∧ t ≤ 1
  swap
  · rw [if_neg ht]; exact iff_of_false (by simp) fun h => ht h.1
  rw [if_pos ht]
  have hset : x.constraintSet .min (if strict then .gt else .ge) t = x.farkZ t := by cases strict <;> rfl
  have hle : ∀ n, RRF.ecLoop .min (if strict = true then Sense.gt else .ge) n = .ok () := fun n => by
    unfold RRF.ecLoop; rw [if_neg]; cases strict <;> simp [Sense.isLe]
  rw [hset]
  by_cases hi : x.rf.initial < x.rf.N
  swap
  · unfold RRF.farkZ RRF.N; rw [if_neg hi]
    exact iff_of_false (by simp [bind, Except.bind]) fun h => hi h.2.1
  obtain ⟨m, rhs, hz⟩ := rfarkZ_some t hi
  obtain ⟨-, e1, e2, -, e3⟩ := rfarkZ_rows hz
  obtain ⟨e3, e4, e5⟩ := e3 fun j => v.getD j 0
  simp only [hz, bind, Except.bind, hle]
  by_cases hl : v.length = m.cols
  swap
  · rw [if_neg hl]; exact iff_of_false (by simp) fun h => hl (by rw [e2]; exact h.2.2.1)
  rw [if_pos hl]
  have hrows : (∀ i < m.rows, (m.dot v).getD i 0 - tol ≤ rhs.getD i 0) ↔
      (∀ i < x.rf.C, zrow x.rf (fun j => v.getD j 0) i - tol ≤ x.rew.getD i 0) ∧ t - tol ≤ v.getD x.rf.initial 0 := by
    rw [e1, forall_lt_succ', dot_getD (by omega), e4, e5]
    refine and_congr (forall₂_congr fun i hi => by rw [dot_getD (by omega), (e3 i hi).1, (e3 i hi).2]) ?_
    constructor <;> intro h <;> linarith
  have hlen := hl.trans e2
  cases strict
  · simp only [Bool.false_eq_true, if_false, Except.ok.injEq, decide_eq_true_eq, hrows]
    tauto
  · have hlast : (m.dot v).getD (m.rows - 1) 0 - tol < rhs.getD (m.rows - 1) 0 ↔ t - tol < v.getD x.rf.initial 0 := by
      rw [e1, Nat.add_sub_cancel, dot_getD (by omega), e4, e5]
      constructor <;> intro h <;> linarith
    simp only [if_true, Except.ok.injEq, decide_eq_true_eq, hrows, hlast]
    tauto

theorem rcheck_max_le :
    x.check .max (if strict then .lt else .le) t v tol = .ok true ↔
      (0 ≤ t ∧ t ≤ 1) ∧ x.rf.initial < x.rf.N ∧ v.length = x.rf.N ∧
      (∀ i < x.rf.C, x.rew.getD i 0 ≤ zrow x.rf (fun j => v.getD j 0) i + tol) ∧
      v.getD x.rf.initial 0 ≤ t + tol ∧ (strict = true → v.getD x.rf.initial 0 < t + tol) := by
  unfold RRF.check
  by_cases ht : 0 ≤ t ∧ t ≤ 1
  swap
  · rw [if_neg ht]; exact iff_of_false (by simp) fun h => ht h.1
  rw [if_pos ht]
  have hset : x.constraintSet .max (if strict then .lt else .le) t = x.farkZ t := by cases strict <;> rfl
  have hle : ∀ n s, RRF.ecLoop .max s n = .ok () := fun n s => by unfold RRF.ecLoop; rw [if_neg]; simp
  rw [hset]
  by_cases hi : x.rf.initial < x.rf.N
  swap
  · unfold RRF.farkZ RRF.N; rw [if_neg hi]
    exact iff_of_false (by simp [bind, Except.bind]) fun h => hi h.2.1
  obtain ⟨m, rhs, hz⟩ := rfarkZ_some t hi
  obtain ⟨-, e1, e2, -, e3⟩ := rfarkZ_rows hz
  obtain ⟨e3, e4, e5⟩ := e3 fun j => v.getD j 0
  simp only [hz, bind, Except.bind, hle]
  by_cases hl : v.length = m.cols
  swap
  · rw [if_neg hl]; exact iff_of_false (by simp) fun h => hl (by rw [e2]; exact h.2.2.1)
  rw [if_pos hl]
  have hrows : (∀ i < m.rows, rhs.getD i 0 ≤ (m.dot v).getD i 0 + tol) ↔
      (∀ i < x.rf.C, x.rew.getD i 0 ≤ zrow x.rf (fun j => v.getD j 0) i + tol) ∧ v.getD x.rf.initial 0 ≤ t + tol := by
    rw [e1, forall_lt_succ', dot_getD (by omega), e4, e5]
    refine and_congr (forall₂_congr fun i hi => by rw [dot_getD (by omega), (e3 i hi).1, (e3 i hi).2]) ?_
    constructor <;> intro h <;> linarith
  have hlen := hl.trans e2
  cases strict
  · simp only [Bool.false_eq_true, if_false, Except.ok.injEq, decide_eq_true_eq, hrows]
    tauto
  · have hlast : rhs.getD (m.rows - 1) 0 < (m.dot v).getD (m.rows - 1) 0 + tol ↔ v.getD x.rf.initial 0 < t + tol := by
      rw [e1, Nat.add_sub_cancel, dot_getD (by omega), e4, e5]
      constructor <;> intro h <;> linarith
    simp only [if_true, Except.ok.injEq, decide_eq_true_eq, hrows, hlast]
    tauto

theorem rcheck_max_ge (hlr : x.rew.length = x.rf.C) :
    x.check .max (if strict then .gt else .ge) t v tol = .ok true ↔
      (0 ≤ t ∧ t ≤ 1) ∧ x.rf.initial < x.rf.N ∧ v.length = x.rf.C ∧
      (∀ j < x.rf.N, yrow x.rf (fun i => v.getD i 0) j - tol ≤ x.rf.delta j) ∧
      t - tol ≤ rgain x (fun i => v.getD i 0) ∧ (strict = true → t - tol < rgain x (fun i => v.getD i 0)) := by
  unfold RRF.check
  by_cases ht : 0 ≤ t ∧ t ≤ 1
  swap
  · rw [if_neg ht]; exact iff_of_false (by simp) fun h => ht h.1
  rw [if_pos ht]
  have hset : x.constraintSet .max (if strict then .gt else .ge) t = x.farkY t := by cases strict <;> rfl
  have hle : ∀ n s, RRF.ecLoop .max s n = .ok () := fun n s => by unfold RRF.ecLoop; rw [if_neg]; simp
  rw [hset]
  by_cases hi : x.rf.initial < x.rf.N
  swap
  · unfold RRF.farkY RRF.N; rw [if_neg hi]
    exact iff_of_false (by simp [bind, Except.bind]) fun h => hi h.2.1
  obtain ⟨m, rhs, hz⟩ := rfarkY_some t hi hlr
  obtain ⟨-, e1, e2, -, e3⟩ := rfarkY_rows hz
  obtain ⟨e3, e4, e5⟩ := e3 fun j => v.getD j 0
  simp only [hz, bind, Except.bind, hle]
  by_cases hl : v.length = m.cols
  swap
  · rw [if_neg hl]; exact iff_of_false (by simp) fun h => hl (by rw [e2]; exact h.2.2.1)
  rw [if_pos hl]
  have hrows : (∀ i < m.rows, (m.dot v).getD i 0 - tol ≤ rhs.getD i 0) ↔
      (∀ j < x.rf.N, yrow x.rf (fun i => v.getD i 0) j - tol ≤ x.rf.delta j) ∧ t - tol ≤ rgain x (fun i => v.getD i 0) := by
    rw [e1, forall_lt_succ', dot_getD (by omega), e4, e5]
    refine and_congr (forall₂_congr fun i hi => by rw [dot_getD (by omega), (e3 i hi).1, (e3 i hi).2]) ?_
    constructor <;> intro h <;> linarith
  have hlen := hl.trans e2
  cases strict
  · simp only [Bool.false_eq_true, if_false, Except.ok.injEq, decide_eq_true_eq, hrows]
    tauto
  · have hlast : (m.dot v).getD (m.rows - 1) 0 - tol < rhs.getD (m.rows - 1) 0 ↔ t - tol < rgain x (fun i => v.getD i 0) := by
      rw [e1, Nat.add_sub_cancel, dot_getD (by omega), e4, e5]
      constructor <;> intro h <;> linarith
    simp only [if_true, Except.ok.injEq, decide_eq_true_eq, hrows, hlast]
    tauto

end Verif.Proofs
