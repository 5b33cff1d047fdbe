import Verif.Proofs.Double
import Verif.Props.Robust
/-!
# C95: certificates checked with rounded arithmetic

`Arith.check` is `check_farkas_certificate` with every sum, difference and product rounded; `check` is the same with exact
numbers.  `ord` is the order in which scipy visits the stored entries; it depends on the matrix.
-/
set_option linter.unusedSectionVars false

namespace Verif.Props
open Verif.Model Verif.Spec Verif.Proofs Verif.Theory Finset

variable {K : Type} [Field K] [LinearOrder K] [IsStrictOrderedRing K]
variable {ar : Arith K} {u ν : K} {rf : RF K} {ord : Nat → List Nat} {mode : Mode} {sense : Sense} {t tol : K} {v : List K}

theorem check_mono {tol' : K} (h : tol ≤ tol') (hc : check rf mode sense t v tol = .ok true) :
    check rf mode sense t v tol' = .ok true := by
  rw [check_iff] at hc ⊢
  obtain ⟨ht, m, rhs, h1, h2, h3, h4⟩ := hc
  have hn : 0 < m.rows := by
    have hz : ∀ {m rhs}, rf.farkZ t = .ok (m, rhs) → 0 < m.rows := by
      intro m rhs h
      unfold RF.farkZ at h
      split at h <;> cases h
      exact Nat.succ_pos _
    have hy : ∀ {m rhs}, rf.farkY t = .ok (m, rhs) → 0 < m.rows := by
      intro m rhs h
      unfold RF.farkY at h
      split at h <;> cases h
      exact Nat.succ_pos _
    cases mode <;> cases sense <;> first | exact hz h1 | exact hy h1
  exact ⟨ht, m, rhs, h1, h2, h3, cond_mono hn (fun i _ => by linarith) (fun i _ => by linarith) h4⟩

theorem abs_dot_le {m : Mat K} {i : Nat} (hi : i < m.rows) (h1 : ∀ i j, |m.at_ i j| ≤ 1) (hv : v.length = m.cols) :
    |(m.dot v).getD i 0| ≤ (v.map fun x => |x|).sum := by
  rw [dot_getD hi, ← hv, ← sum_abs_eq]
  refine (Finset.abs_sum_le_sum_abs _ _).trans (Finset.sum_le_sum fun j _ => ?_)
  rw [abs_mul]
  exact mul_le_of_le_one_left (abs_nonneg _) (h1 i j)

/-- both directions at once: acceptance with `tol` on the rounded side lies between acceptance with `tol - e` and
`tol + e` on the exact side -/
theorem flcheck_between (h : Rounds ar u ν) (hP : ∀ i j, 0 ≤ rf.P i j ∧ rf.P i j ≤ 1)
    (hb : ∀ i, 0 ≤ rf.b i ∧ rf.b i ≤ 1)
    (ho : ∀ m rhs, ar.constraintSet rf mode sense t = .ok (m, rhs) → Visits m ord) :
    (ar.check ord rf mode sense t v tol = .ok true →
      check rf mode sense t v (tol + flErr u ν v.length (v.map fun x => |x|).sum tol) = .ok true) ∧
    (check rf mode sense t v (tol - flErr u ν v.length (v.map fun x => |x|).sum tol) = .ok true →
      ar.check ord rf mode sense t v tol = .ok true) := by
  have hV : 0 ≤ (v.map fun x => |x|).sum := by rw [← sum_abs_eq]; exact Finset.sum_nonneg fun _ _ => abs_nonneg _
  rcases constraintSet_fl h hP hb mode sense t with ⟨e, he1, he2⟩ | ⟨m, m', rhs, e1, e2, hr, hc, hn, h1, h2⟩
  · simp only [check_iff, flcheck_iff, he1, he2]
    simp
  · have key : v.length = m.cols → ∀ i < m.rows,
        |ar.fl ((ar.dot m' ord v).getD i 0 - tol) - ((m.dot v).getD i 0 - tol)| ≤
          flErr u ν v.length (v.map fun x => |x|).sum tol ∧
        |ar.fl ((ar.dot m' ord v).getD i 0 + tol) - ((m.dot v).getD i 0 + tol)| ≤
          flErr u ν v.length (v.map fun x => |x|).sum tol := by
      intro hl i hi
      exact flErr_row h (dot_err h (ho m' rhs e1) hr hc hi (fun j _ => h1 i j) (fun j _ => h2 i j) hl)
        (abs_dot_le hi h1 hl) hV
    constructor
    · intro hk
      rw [flcheck_iff] at hk
      rw [check_iff]
      obtain ⟨ht, m0, rhs0, h3, h4, h5, h6⟩ := hk
      rw [e1] at h3
      cases h3
      have hl : v.length = m.cols := h4.trans hc
      refine ⟨ht, m, rhs, e2, hl, hc ▸ h5, ?_⟩
      rw [hr] at h6
      refine cond_mono hn (fun i hi => ?_) (fun i hi => ?_) h6
      · have := (abs_le.1 (key hl i hi).1).1; linarith
      · have := (abs_le.1 (key hl i hi).2).2; linarith
    · intro hk
      rw [check_iff] at hk
      rw [flcheck_iff]
      obtain ⟨ht, m0, rhs0, h3, h4, h5, h6⟩ := hk
      rw [e2] at h3
      cases h3
      refine ⟨ht, m', rhs, e1, h4.trans hc.symm, hc ▸ h5, ?_⟩
      rw [hr]
      refine cond_mono hn (fun i hi => ?_) (fun i hi => ?_) h6
      · have := (abs_le.1 (key h4 i hi).1).2; linarith
      · have := (abs_le.1 (key h4 i hi).2).1; linarith

/-- **C95.** Whatever the rounded check accepts, the exact one accepts with the tolerance raised by the bound for the
rounding errors: relative error `u` and absolute error `ν` for each operation, `D` the length of the vector. -/
theorem C95_sound (h : Rounds ar u ν) (hP : ∀ i j, 0 ≤ rf.P i j ∧ rf.P i j ≤ 1)
    (hb : ∀ i, 0 ≤ rf.b i ∧ rf.b i ≤ 1)
    (ho : ∀ m rhs, ar.constraintSet rf mode sense t = .ok (m, rhs) → Visits m ord)
    (hc : ar.check ord rf mode sense t v tol = .ok true) :
    check rf mode sense t v (tol + (((1 + u + ν) ^ (v.length + 3) - 1) * ((v.map fun x => |x|).sum + |tol|) +
      (2 * v.length + 1) * (1 + u + ν) ^ (v.length + 1) * ν)) = .ok true :=
  (flcheck_between h hP hb ho).1 hc

/-- **C95 (no certificate is lost).** Whatever the exact check accepts with the tolerance lowered by that bound, the
rounded one accepts. -/
theorem C95_complete (h : Rounds ar u ν) (hP : ∀ i j, 0 ≤ rf.P i j ∧ rf.P i j ≤ 1)
    (hb : ∀ i, 0 ≤ rf.b i ∧ rf.b i ≤ 1)
    (ho : ∀ m rhs, ar.constraintSet rf mode sense t = .ok (m, rhs) → Visits m ord)
    (hc : check rf mode sense t v (tol - (((1 + u + ν) ^ (v.length + 3) - 1) * ((v.map fun x => |x|).sum + |tol|) +
      (2 * v.length + 1) * (1 + u + ν) ^ (v.length + 1) * ν)) = .ok true) :
    ar.check ord rf mode sense t v tol = .ok true :=
  (flcheck_between h hP hb ho).2 hc

section
variable [FloorRing K]

/-- **C95 (double precision).** For vectors with up to `2^20` entries the tolerance changes by at most `2^-32` times one
plus the absolute sum of the vector plus the tolerance. -/
theorem C95_double (fma : Bool) (hP : ∀ i j, 0 ≤ rf.P i j ∧ rf.P i j ≤ 1) (hb : ∀ i, 0 ≤ rf.b i ∧ rf.b i ≤ 1)
    (ho : ∀ m rhs, (⟨double, fma⟩ : Arith K).constraintSet rf mode sense t = .ok (m, rhs) → Visits m ord)
    (hl : v.length ≤ 2 ^ 20) :
    ((⟨double, fma⟩ : Arith K).check ord rf mode sense t v tol = .ok true →
      check rf mode sense t v (tol + 1 / 2 ^ 32 * (1 + (v.map fun x => |x|).sum + |tol|)) = .ok true) ∧
    (check rf mode sense t v (tol - 1 / 2 ^ 32 * (1 + (v.map fun x => |x|).sum + |tol|)) = .ok true →
      (⟨double, fma⟩ : Arith K).check ord rf mode sense t v tol = .ok true) := by
  have hV : 0 ≤ (v.map fun x => |x|).sum := by rw [← sum_abs_eq]; exact Finset.sum_nonneg fun _ _ => abs_nonneg _
  have he := flErr_double (tol := tol) hl hV
  obtain ⟨h1, h2⟩ := flcheck_between (v := v) (tol := tol) (rounds_double fma) hP hb ho
  exact ⟨fun h => check_mono (by linarith) (h1 h), fun h => h2 (check_mono (by linarith) h)⟩

/-- **C95 (row sums).** If the constructor accepts the sum of a row computed in double precision, the exact sum is within
`10^-9` of one (rows with up to `2^20` entries, none negative). -/
theorem C95_row_sum (fma : Bool) {es : List K} (hn : es.length ≤ 2 ^ 20) (hnn : ∀ p ∈ es, 0 ≤ p)
    (h : (⟨double, fma⟩ : Arith K).rowOk es) : |es.sum - 1| ≤ 1 / 10 ^ 9 :=
  rowOk_double hn hnn h

variable {ρ : Graph.Rnd} {M : Sys K} {il tl fl : String}

theorem make_rows_pos (hrf : RF.make ρ M il tl fl false = .ok rf) : 0 < M.C := by
  by_contra hc
  have h0 : M.C = 0 := by omega
  have hc := (make_fields hrf).2.2.2.2 rfl
  unfold Sys.assertConsistency at hc
  split at hc
  · cases hc
  simp only [bind, Except.bind] at hc
  iterate 3 (split at hc; · cases hc)
  split at hc
  · cases hc
  rename_i hab
  unfold Sys.checkAbsorbing at hab
  split at hab
  · split at hab
    · split at hab
      · cases hab
      · split at hab
        · rename_i hcc; rw [h0] at hcc; omega
        · cases hab
    · cases hab
  · cases hab

theorem row_length (hs : M.Stored) (i : Nat) : ((M.P.items.filter fun e => e.1.1 = i).map Prod.snd).length ≤ M.N := by
  rw [List.length_map]
  have h1 : ((M.P.items.filter fun e => e.1.1 = i).map fun e => e.1.2).Nodup := by
    have h := (List.Nodup.of_map _ hs.nodup).filter fun e => decide (e.1.1 = i)
    refine h.map_on fun a ha b hb hab => ?_
    have ha' := List.mem_filter.1 ha
    have hb' := List.mem_filter.1 hb
    have e1 : a.1 = b.1 := Prod.ext ((of_decide_eq_true ha'.2).trans (of_decide_eq_true hb'.2).symm) hab
    exact List.inj_on_of_nodup_map hs.nodup ha'.1 hb'.1 e1
  have h2 : ((M.P.items.filter fun e => e.1.1 = i).map fun e => e.1.2).toFinset ⊆ range M.N := by
    intro j hj
    simp only [List.mem_toFinset, List.mem_map, List.mem_filter] at hj
    obtain ⟨⟨⟨a, b⟩, p⟩, ⟨he, -⟩, rfl⟩ := hj
    exact Finset.mem_range.2 (hs.range _ _ _ he).2
  have := Finset.card_le_card h2
  rw [List.toFinset_card_of_nodup h1, card_range, List.length_map] at this
  exact this

/-- **C95 (from the constructor to the verdict, double precision).** `M` is a system with stored probabilities in `(0, 1]`
whose rows pass the check of the constructor computed in double precision, with at most `2^20` states and rows.  Dividing
each row by its exact sum changes no number by more than `10^-9` and gives a system with exact probabilities; everything
`check_farkas_certificate`, computed in double precision, accepts for `M` holds for that system up to the stated
error. -/
theorem C95_accepted (fma : Bool) (hs : M.Stored) (h1 : ∀ e ∈ M.P.items, e.2 ≤ 1) (hN : M.N ≤ 2 ^ 20) (hC : M.C ≤ 2 ^ 20)
    (hrow : ∀ i < M.C, ∃ es, es.Perm ((M.P.items.filter fun e => e.1.1 = i).map Prod.snd) ∧
      (⟨double, fma⟩ : Arith K).rowOk es)
    (hrf : RF.make ρ M il tl fl false = .ok rf) (φ : K →+*o ℝ) {i : Nat} (hi : i ∈ M.labelled il)
    {ε : K} (hε : 0 < ε) (hmin : ∀ i < M.C, ∀ j < M.N, 0 < M.P.get i j → ε ≤ M.P.get i j) :
    ∃ M' : Sys K, M'.WF ∧ M.Near (1 / 10 ^ 9) M' ∧
      (∀ i < M.C, ∀ j, M'.P.get i j = M.P.get i j / ∑ k ∈ range M.N, M.P.get i k) ∧
      ∀ (ord : Mode → Sense → Nat → List Nat) (tol t : K) (v : List K), 0 ≤ tol →
        (∀ mode sense m rhs, (⟨double, fma⟩ : Arith K).constraintSet rf mode sense t = .ok (m, rhs) →
          Visits m (ord mode sense)) →
        (let V := (v.map fun x => |x|).sum
        let acc := fun mode sense => (⟨double, fma⟩ : Arith K).check (ord mode sense) rf mode sense t v tol = .ok true
        let err := φ ((tol + 1 / 2 ^ 32 * (1 + V + tol) + 1 / 10 ^ 9 * (1 + V)) *
          (1 + M.N / (ε / (1 + 1 / 10 ^ 9)) ^ M.N))
        (acc .min .ge → φ t ≤ M'.prMin φ (M.labelled tl) i + err) ∧
        (acc .min .gt → φ t < M'.prMin φ (M.labelled tl) i + err) ∧
        (acc .max .le → M'.prMax φ (M.labelled tl) i ≤ φ t + err) ∧
        (acc .max .lt → M'.prMax φ (M.labelled tl) i < φ t + err)) ∧
        ((∀ x ∈ v, 0 ≤ x) →
          let acc := fun mode sense => (⟨double, fma⟩ : Arith K).check (ord mode sense) rf mode sense t v tol = .ok true
          let err := φ (tol + 1 / 2 ^ 32 * (1 + v.sum + tol) + 1 / 10 ^ 9 * (1 + v.sum)) * M.N
          (acc .max .ge → φ t ≤ M'.prMax φ (M.labelled tl) i + err) ∧
          (acc .max .gt → φ t < M'.prMax φ (M.labelled tl) i + err) ∧
          (acc .min .le → M'.prMin φ (M.labelled tl) i ≤ φ t + err) ∧
          (acc .min .lt → M'.prMin φ (M.labelled tl) i < φ t + err)) := by
  have hnn : ∀ i j, 0 ≤ M.P.get i j := by
    intro i j
    by_contra hc
    push Not at hc
    exact absurd (hs.pos _ _ _ (mem_of_get_ne hc.ne)) (not_lt.2 hc.le)
  have hle : ∀ i j, M.P.get i j ≤ 1 := by
    intro i j
    by_contra hc
    push Not at hc
    exact absurd (h1 _ (mem_of_get_ne (by linarith : M.P.get i j > 0).ne')) (not_le.2 hc)
  have hsum : ∀ i < M.C, |∑ j ∈ range M.N, M.P.get i j - 1| ≤ 1 / 10 ^ 9 := by
    intro i hi
    obtain ⟨es, hp, hr⟩ := hrow i hi
    have := C95_row_sum fma (es := es) (by rw [hp.length_eq]; exact (row_length hs i).trans hN) (fun p hpm => by
      have := hp.subset hpm
      obtain ⟨⟨⟨a, b⟩, q⟩, hq, rfl⟩ := List.mem_map.1 this
      exact (hs.pos _ _ _ (List.mem_filter.1 hq).1).le) hr
    rw [hp.sum_eq] at this
    have e : M.P.rowSum i = ∑ j ∈ range M.N, M.P.get i j :=
      rowSum_eq hs.nodup (fun e he => (hs.range e.1.1 e.1.2 e.2 he).2) i
    rw [← e]
    exact this
  have hC0 := make_rows_pos hrf
  obtain ⟨M', hw, hn, -, -, -, hdiv⟩ := C87_neighbour hs (by norm_num) hsum hC0
  have em := (make_fields hrf).1
  have hP : ∀ i j, 0 ≤ rf.P i j ∧ rf.P i j ≤ 1 := fun i j => by unfold RF.P; rw [em]; exact ⟨hnn i j, hle i j⟩
  have hb : ∀ i, 0 ≤ rf.b i ∧ rf.b i ≤ 1 := fun i => by unfold RF.b; rw [em]; exact ⟨hnn i _, hle i _⟩
  refine ⟨M', hw, hn, hdiv, fun ord tol t v htol ho => ?_⟩
  have hlen : ∀ {mode sense}, (⟨double, fma⟩ : Arith K).check (ord mode sense) rf mode sense t v tol = .ok true → v.length ≤ 2 ^ 20 := by
    intro mode sense hc
    rw [flcheck_iff] at hc
    obtain ⟨-, m, rhs, h3, h4, -⟩ := hc
    have hz : ∀ {m rhs}, (⟨double, fma⟩ : Arith K).farkZ rf t = .ok (m, rhs) → m.cols ≤ 2 ^ 20 := by
      intro m rhs h
      unfold Arith.farkZ at h
      split at h <;> cases h
      show rf.N ≤ _
      unfold RF.N; rw [em]; omega
    have hy : ∀ {m rhs}, (⟨double, fma⟩ : Arith K).farkY rf t = .ok (m, rhs) → m.cols ≤ 2 ^ 20 := by
      intro m rhs h
      unfold Arith.farkY at h
      split at h <;> cases h
      show rf.C ≤ _
      unfold RF.C; rw [em]; omega
    rw [h4]
    cases mode <;> cases sense <;> first | exact hz h3 | exact hy h3
  have acc : ∀ {mode sense}, (⟨double, fma⟩ : Arith K).check (ord mode sense) rf mode sense t v tol = .ok true →
      check rf mode sense t v (tol + 1 / 2 ^ 32 * (1 + (v.map fun x => |x|).sum + tol)) = .ok true := by
    intro mode sense hc
    have := (C95_double fma hP hb (ho mode sense) (hlen hc)).1 hc
    rwa [abs_of_nonneg htol] at this
  have hV : 0 ≤ (v.map fun x => |x|).sum := by rw [← sum_abs_eq]; exact Finset.sum_nonneg fun _ _ => abs_nonneg _
  have htol' : 0 ≤ tol + 1 / 2 ^ 32 * (1 + (v.map fun x => |x|).sum + tol) := by positivity
  constructor
  · have key := C87_bounds_z (t := t) hs hw hn hrf φ (ε := ε / (1 + 1 / 10 ^ 9)) (div_pos hε (by norm_num)) (fun k hk j hj hp => by
      rw [hn.rows] at hk
      rw [hn.cols] at hj
      have hp := (hn.supp k j).1 hp
      rw [hdiv k hk j]
      have hle := (abs_le.1 (hsum k hk)).2
      have hge := (abs_le.1 (hsum k hk)).1
      exact div_le_div₀ hp.le (hmin k hk j hj hp) (by norm_num at hge; linarith) (by linarith)) htol' hi (z := v)
    exact ⟨fun h => key.1 (acc h), fun h => key.2.1 (acc h), fun h => key.2.2.1 (acc h), fun h => key.2.2.2 (acc h)⟩
  · intro hv
    have e : (v.map fun x => |x|).sum = v.sum := by
      congr 1
      conv_rhs => rw [← List.map_id v]
      exact List.map_congr_left fun x hx => abs_of_nonneg (hv x hx)
    rw [e] at acc htol'
    have key := C87_bounds_y (t := t) hs hw hn hrf φ htol' hv hi
    exact ⟨fun h => key.1 (acc h), fun h => key.2.1 (acc h), fun h => key.2.2.1 (acc h), fun h => key.2.2.2 (acc h)⟩

end

/-! ### rounding cannot be neglected -/

/-- a loop with probability `2^-54`: in double precision `1 - 2^-54` is 1 -/
def tinyP : Dok ℚ := ⟨3, 3, [((0, 0), 1 / 2 ^ 54), ((0, 1), 1 / 2), ((0, 2), 1 / 2 - 1 / 2 ^ 54), ((1, 1), 1), ((2, 2), 1)]⟩

def tinySys : Sys ℚ := mkSys tinyP thirdIdx thirdLab

theorem tiny_wf : tinySys.WF :=
  mkSys_wf (by decide +kernel) (by decide +kernel) (by decide +kernel) (by decide) (by decide) (by decide +kernel)

/-- the columns in ascending order -/
def ascending (_ : Nat) : List Nat := [0]

example : double (1 - 1 / 2 ^ 54 : ℚ) = 1 := by decide +kernel
example : double (1 / 10 : ℚ) = 3602879701896397 / 36028797018963968 := by decide +kernel

/-- **C95 (the error cannot be dropped).** For a system whose numbers are machine numbers and whose rows sum to one exactly,
`check_farkas_certificate` with tolerance 0, computed in double precision, accepts a certificate for `Pr_max <= 1/2`,
although the probability is greater; the exact check rejects it. -/
theorem C95_rounding : ∃ (M : Sys ℚ) (rf : RF ℚ), M.WF ∧ RF.make exRnd M "init" "goal" "fail" false = .ok rf ∧
    (∀ e ∈ M.P.items, double e.2 = e.2) ∧ 0 ∈ M.labelled "init" ∧
    (∀ fma, (⟨double, fma⟩ : Arith ℚ).check ascending rf .max .le (1 / 2) [1 / 2] 0 = .ok true) ∧
    check rf .max .le (1 / 2) [1 / 2] 0 = .ok false ∧
    ∀ φ : ℚ →+*o ℝ, φ (1 / 2) < M.prMax φ (M.labelled "goal") 0 := by
  obtain ⟨rf, h1, h2⟩ := exists_of_ok_and (x := RF.make exRnd tinySys "init" "goal" "fail" false)
    (p := fun rf => yes ((⟨double, true⟩ : Arith ℚ).check ascending rf .max .le (1 / 2) [1 / 2] 0) &&
      yes ((⟨double, false⟩ : Arith ℚ).check ascending rf .max .le (1 / 2) [1 / 2] 0) &&
      (match check rf .max .le (1 / 2) [1 / 2] 0 with | .ok b => !b | _ => false) &&
      yes (check rf .max .gt (1 / 2) [1 / (1 - 1 / 2 ^ 54)] 0)) (by decide +kernel)
  simp only [Bool.and_eq_true, yes_iff] at h2
  obtain ⟨⟨⟨h3, h4⟩, h5⟩, h6⟩ := h2
  have hi : 0 ∈ tinySys.labelled "init" := ⟨[0], rfl, by simp⟩
  refine ⟨tinySys, rf, tiny_wf, h1, by decide +kernel, hi, fun fma => by cases fma <;> assumption, ?_, fun φ => ?_⟩
  · split at h5
    · rename_i b hb; rw [hb]; cases b <;> simp_all
    · cases h5
  · exact C22_max_gt_sound_partial tiny_wf h1 φ (by simp only [List.mem_singleton, forall_eq]; norm_num) h6 hi

def thirdSys : Sys ℚ := mkSys thirdP thirdIdx thirdLab

theorem third_stored : thirdSys.Stored where
  nodup := third_inShape.nodup
  range := third_inShape.range
  pos := fun i j p h => by
    have : ∀ e ∈ thirdP.items, 0 < e.2 := by decide +kernel
    exact this _ h
  keys := by decide
  vals := by decide
  graph := by
    have h : (Graph.build thirdP.cols (invGet? thirdIdx) thirdP.items (Graph.empty thirdP.cols)).isOk = true := by
      decide +kernel
    show Graph.build thirdP.cols (invGet? thirdIdx) thirdP.items (Graph.empty thirdP.cols) = .ok (mkSys _ _ _).graph
    unfold mkSys
    simp only
    cases hb : Graph.build thirdP.cols (invGet? thirdIdx) thirdP.items (Graph.empty thirdP.cols) with
    | ok g => rfl
    | error e => rw [hb] at h; cases h

/-- the hypotheses of `C95_accepted` are met by a system whose rows do not sum to one -/
example : ∃ (M : Sys ℚ) (rf : RF ℚ) (ord : Mode → Sense → Nat → List Nat), M.Stored ∧ (∀ e ∈ M.P.items, e.2 ≤ 1) ∧
    M.N ≤ 2 ^ 20 ∧ M.C ≤ 2 ^ 20 ∧
    (∀ i < M.C, ∃ es, es.Perm ((M.P.items.filter fun e => e.1.1 = i).map Prod.snd) ∧
      (⟨double, false⟩ : Arith ℚ).rowOk es) ∧
    RF.make exRnd M "init" "goal" "fail" false = .ok rf ∧ 0 ∈ M.labelled "init" ∧
    (∀ i < M.C, ∀ j < M.N, 0 < M.P.get i j → 1 / 4 ≤ M.P.get i j) ∧
    (∀ mode sense m rhs, (⟨double, false⟩ : Arith ℚ).constraintSet rf mode sense (1 / 3) = .ok (m, rhs) →
      Visits m (ord mode sense)) ∧
    (⟨double, false⟩ : Arith ℚ).check (ord .min .ge) rf .min .ge (1 / 3) [1 / 3] (1 / 10 ^ 8) = .ok true := by
  obtain ⟨rf, h1, h2⟩ := exists_of_ok_and (x := RF.make exRnd thirdSys "init" "goal" "fail" false)
    (p := fun rf => yes ((⟨double, false⟩ : Arith ℚ).check ascending rf .min .ge (1 / 3) [1 / 3] (1 / 10 ^ 8)))
    (by decide +kernel)
  rw [yes_iff] at h2
  have em := (make_fields h1).1
  have eN : rf.N = 1 := by unfold RF.N; rw [em]; rfl
  have eC : rf.C = 1 := by unfold RF.C; rw [em]; rfl
  refine ⟨thirdSys, rf, fun _ _ => ascending, third_stored, by decide +kernel, by decide, by decide, ?_, h1,
    ⟨[0], rfl, by simp⟩, by decide +kernel, ?_, h2⟩
  · intro i hi
    refine ⟨_, List.Perm.refl _, ?_⟩
    have hi : i < 3 := hi
    unfold Arith.rowOk
    interval_cases i <;> decide +kernel
  · intro mode sense m rhs h
    have hv : m.cols = 1 → Visits m ascending := fun hc =>
      ⟨fun _ _ => by simp [ascending], fun _ _ j hj => by simp [ascending] at hj; omega,
        fun _ _ j hj _ => by simp [ascending]; omega⟩
    have hz : ∀ {m rhs}, (⟨double, false⟩ : Arith ℚ).farkZ rf (1 / 3) = .ok (m, rhs) → m.cols = 1 := by
      intro m rhs h
      unfold Arith.farkZ at h
      split at h <;> cases h
      exact eN
    have hy : ∀ {m rhs}, (⟨double, false⟩ : Arith ℚ).farkY rf (1 / 3) = .ok (m, rhs) → m.cols = 1 := by
      intro m rhs h
      unfold Arith.farkY at h
      split at h <;> cases h
      exact eC
    cases mode <;> cases sense <;> first | exact hv (hz h) | exact hv (hy h)

end Verif.Props
