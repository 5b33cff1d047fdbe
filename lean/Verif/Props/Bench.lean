import Verif.Model.Bench
import Mathlib.Tactic.Linarith
import Mathlib.Tactic.NormNum
import Mathlib.Tactic.FieldSimp
import Mathlib.Algebra.Order.Floor.Semiring
import Mathlib.Data.Rat.Floor
/-!
# C53, C63, C64: benchmark runs

What `benchmarks.run` records for an arbitrary method, which thresholds it visits and when `benchmarks.render` can plot
the result.
-/

namespace Verif.Props
open Verif.Model Verif.Model.Bench

set_option linter.unusedSectionVars false

variable {K : Type} [Field K] [LinearOrder K] [IsStrictOrderedRing K] [FloorRing K]

/-- the number a result is recorded as -/
def recorded (r : Res K) : K := if r.status = .success then r.value else -1

/-- a list of results that does not end a benchmark: none is infeasible, and with `stop_on_timeout` all are successes -/
def Goes (stop : Bool) (rs : List (Res K)) : Prop :=
  ∀ r ∈ rs, r.status ≠ .infeasible ∧ (stop = true → r.status = .success)

/-- entry `e` reports all results of its threshold -/
def Complete (stop : Bool) (method : K → List (Res K)) (e : Entry K) : Prop :=
  Goes stop (method e.threshold) ∧ e.value = (method e.threshold).map recorded

/-- entry `e` reports the results of its threshold up to the first one that is no success, recorded as `-1` -/
def TimedOut (method : K → List (Res K)) (e : Entry K) : Prop :=
  ∃ pre r post, method e.threshold = pre ++ r :: post ∧ (∀ q ∈ pre, q.status = .success) ∧ r.status = .other ∧
    e.value = pre.map Res.value ++ [-1]

/-- the results contain an infeasible one, reached before anything else ends the benchmark -/
def Infeasible (stop : Bool) (rs : List (Res K)) : Prop :=
  ∃ pre r post, rs = pre ++ r :: post ∧ Goes stop pre ∧ r.status = .infeasible

/-- what the inner loop does, said without the loop -/
def InnerOk (stop : Bool) (rs : List (Res K)) (vs : List K) (n : Nat) : Out K → Prop
  | .finished vs' n' => Goes stop rs ∧ vs' = vs ++ rs.map recorded ∧ n' = n + rs.length
  | .infeasible => Infeasible stop rs
  | .stopped vs' n' => stop = true ∧ ∃ pre r post, rs = pre ++ r :: post ∧ (∀ q ∈ pre, q.status = .success) ∧
      r.status = .other ∧ vs' = vs ++ (pre.map Res.value ++ [-1]) ∧ n' = n + (pre.length + 1)

theorem innerOk_cons {stop : Bool} {r : Res K} {rs : List (Res K)} {vs : List K} {n : Nat} {o : Out K}
    (h1 : r.status ≠ .infeasible) (h2 : stop = true → r.status = .success)
    (h : InnerOk stop rs (vs ++ [recorded r]) (n + 1) o) : InnerOk stop (r :: rs) vs n o := by
  have hg : ∀ pre, Goes stop pre → Goes stop (r :: pre) := by
    intro pre hp q hq
    rcases List.mem_cons.1 hq with rfl | hq
    · exact ⟨h1, h2⟩
    · exact hp q hq
  cases o with
  | finished vs' n' =>
    obtain ⟨a, b, c⟩ := h
    exact ⟨hg _ a, by simp [b], by simp [c]; omega⟩
  | infeasible =>
    obtain ⟨pre, q, post, a, b, c⟩ := h
    exact ⟨r :: pre, q, post, by simp [a], hg _ b, c⟩
  | stopped vs' n' =>
    obtain ⟨a, pre, q, post, b, c, d, e, f⟩ := h
    refine ⟨a, r :: pre, q, post, by simp [b], ?_, d, ?_, ?_⟩
    · intro q hq
      rcases List.mem_cons.1 hq with rfl | hq
      · exact h2 a
      · exact c q hq
    · simp [e, recorded, h2 a]
    · simp only [f, List.length_cons]; omega

theorem inner_ok (stop : Bool) (rs : List (Res K)) : ∀ vs n, InnerOk stop rs vs n (inner stop rs vs n) := by
  induction rs with
  | nil => intro vs n; simp [inner, InnerOk, Goes]
  | cons r rs ih =>
    intro vs n
    unfold inner
    split
    · next hs =>
      split
      · next hi => exact ⟨[], r, rs, rfl, by simp [Goes], hi⟩
      · next hi =>
        have ho : r.status = .other := by
          cases h : r.status <;> simp_all
        split
        · next hst => exact ⟨hst, [], r, rs, rfl, by simp, ho, by simp, by simp⟩
        · next hst =>
          apply innerOk_cons hi (fun h => absurd h hst)
          have : recorded r = -1 := by simp [recorded, hs]
          rw [this]
          exact ih _ _
    · next hs =>
      have hs : r.status = .success := by simpa using hs
      apply innerOk_cons (by simp [hs]) (fun _ => hs)
      have : recorded r = r.value := by simp [recorded, hs]
      rw [this]
      exact ih _ _

/-- how a benchmark ends -/
inductive Ending (stop : Bool) (method : K → List (Res K)) (ts : List K) (d : List (Entry K)) : Prop
  /-- all thresholds are recorded -/
  | all (len : d.length = ts.length) (complete : ∀ e ∈ d, Complete stop method e)
  /-- the next threshold is infeasible, it is not recorded -/
  | infeasible (t : K) (next : ts[d.length]? = some t) (inf : Infeasible stop (method t))
      (complete : ∀ e ∈ d, Complete stop method e)
  /-- the last recorded threshold ended with a timeout -/
  | timeout (init : List (Entry K)) (last : Entry K) (eq : d = init ++ [last]) (st : stop = true)
      (complete : ∀ e ∈ init, Complete stop method e) (tmo : TimedOut method last)

theorem outer_spec (stop : Bool) (method : K → List (Res K)) (ts : List K) (data : List (Entry K)) :
    ∃ d, outer stop method ts data = data ++ d ∧ d.map Entry.threshold <+: ts ∧ (∀ e ∈ d, e.times = e.value.length) ∧
      Ending stop method ts d := by
  induction ts generalizing data with
  | nil => exact ⟨[], by simp [outer], by simp, by simp, .all rfl (by simp)⟩
  | cons t ts ih =>
    have hin := inner_ok stop (method t) [] 0
    unfold outer
    split
    · next h =>
      rw [h] at hin
      exact ⟨[], by simp, by simp, by simp, .infeasible t (by simp) hin (by simp)⟩
    · next vs n h =>
      rw [h] at hin
      obtain ⟨a, pre, q, post, b, c, d, e, f⟩ := hin
      refine ⟨[⟨t, vs, n⟩], by simp, by simp, by simp [e, f], .timeout [] ⟨t, vs, n⟩ (by simp) a (by simp)
        ⟨pre, q, post, b, c, d, by simpa using e⟩⟩
    · next vs n h =>
      rw [h] at hin
      obtain ⟨a, b, c⟩ := hin
      obtain ⟨d, d1, d2, d3, d4⟩ := ih (data ++ [⟨t, vs, n⟩])
      have hc : Complete stop method ⟨t, vs, n⟩ := ⟨a, by simpa using b⟩
      have hcc : ∀ l : List (Entry K), (∀ e ∈ l, Complete stop method e) →
          ∀ e ∈ (⟨t, vs, n⟩ : Entry K) :: l, Complete stop method e := by
        intro l hl e he
        rcases List.mem_cons.1 he with rfl | he
        · exact hc
        · exact hl e he
      refine ⟨⟨t, vs, n⟩ :: d, by simp [d1], by simpa using d2, ?_, ?_⟩
      · intro e he
        rcases List.mem_cons.1 he with rfl | he
        · simp [b, c]
        · exact d3 e he
      · cases d4 with
        | all len complete => exact .all (by simp [len]) (hcc _ complete)
        | infeasible t' next inf complete => exact .infeasible t' (by simpa using next) inf (hcc _ complete)
        | timeout init last eq st complete tmo => exact .timeout (_ :: init) last (by simp [eq]) st (hcc _ complete) tmo

/-- **C53.** For every method, `run` records a prefix of its thresholds, each with as many times as values, and it stops for
one of the three documented reasons: all thresholds are recorded with all their results, the next threshold is
infeasible, or — only with `stop_on_timeout` — the last recorded one timed out and ends with `-1`. -/
theorem C53_run (stop : Bool) (method : K → List (Res K)) (fromThr toThr step : K) :
    (run stop method fromThr toThr step).map Entry.threshold <+: thresholds fromThr toThr step ∧
    (∀ e ∈ run stop method fromThr toThr step, e.times = e.value.length) ∧
    Ending stop method (thresholds fromThr toThr step) (run stop method fromThr toThr step) := by
  obtain ⟨d, d1, d2, d3, d4⟩ := outer_spec stop method (thresholds fromThr toThr step) []
  have : run stop method fromThr toThr step = d := by simpa [run] using d1
  rw [this]
  exact ⟨d2, d3, d4⟩

theorem arange_sorted {start stop step : K} (h : 0 < step) : (arange start stop step).Pairwise (· < ·) := by
  unfold arange
  rw [List.pairwise_map]
  refine (List.pairwise_lt_range).imp ?_
  intro i j hij
  have : (i : K) < j := by exact_mod_cast hij
  have := mul_lt_mul_of_pos_right this h
  linarith

/-- **C53 (order).** The recorded thresholds increase strictly. -/
theorem C53_increasing (stop : Bool) (method : K → List (Res K)) (fromThr toThr step : K) (h : 0 < step) :
    ((run stop method fromThr toThr step).map Entry.threshold).Pairwise (· < ·) :=
  (arange_sorted h).sublist (C53_run stop method fromThr toThr step).1.sublist

/-- **C53 (no early stop).** If no result of any visited threshold is infeasible or a timeout, every threshold is recorded
with the values of all its results. -/
theorem C53_success (stop : Bool) (method : K → List (Res K)) (fromThr toThr step : K)
    (h : ∀ t ∈ thresholds fromThr toThr step, ∀ r ∈ method t, r.status = .success) :
    (run stop method fromThr toThr step).map (fun e => (e.threshold, e.value)) =
      (thresholds fromThr toThr step).map fun t => (t, (method t).map Res.value) := by
  obtain ⟨h1, _, h3⟩ := C53_run stop method fromThr toThr step
  generalize run stop method fromThr toThr step = d at *
  generalize thresholds fromThr toThr step = ts at *
  cases h3 with
  | all len complete =>
    have e1 : d.map Entry.threshold = ts := h1.eq_of_length (by simpa using len)
    rw [← e1, List.map_map]
    apply List.map_congr_left
    intro e he
    simp only [Function.comp, Prod.mk.injEq, true_and]
    rw [(complete e he).2]
    apply List.map_congr_left
    intro r hr
    have := h e.threshold (by rw [← e1]; exact List.mem_map_of_mem he) r hr
    simp [recorded, this]
  | infeasible t next inf complete =>
    obtain ⟨pre, r, post, a, _, c⟩ := inf
    have := h t (List.mem_of_getElem? next) r (by simp [a])
    rw [this] at c
    cases c
  | timeout init last eq st complete tmo =>
    obtain ⟨pre, r, post, a, _, c, _⟩ := tmo
    have := h last.threshold (h1.subset (by simp [eq])) r (by simp [a])
    rw [this] at c
    cases c

/-- **C53 (several methods).** With lists of methods and modes there is one data set for every pair, in the order of
`itertools.product`. -/
theorem C53_many {Me Mo : Type} (stop : Bool) (solve : Me → Mo → K → List (Res K)) (methods : List Me) (modes : List Mo)
    (fromThr toThr step : K) :
    (runMany stop solve methods modes fromThr toThr step).length = methods.length * modes.length ∧
    ∀ i j me mo, methods[i]? = some me → modes[j]? = some mo →
      (runMany stop solve methods modes fromThr toThr step)[i * modes.length + j]? =
        some (run stop (solve me mo) fromThr toThr step) := by
  unfold runMany
  rw [List.length_map]
  induction methods with
  | nil => simp
  | cons m ms ih =>
    refine ⟨?_, ?_⟩
    · rw [List.flatMap_cons, List.length_append, ih.1]
      simp only [List.length_map, List.length_cons]
      ring
    · intro i j me mo hi hj
      have hjl : j < modes.length := (List.getElem?_eq_some_iff.1 hj).1
      rw [List.flatMap_cons, List.map_append]
      cases i with
      | zero =>
        simp only [List.getElem?_cons_zero, Option.some.injEq] at hi
        subst hi
        rw [List.getElem?_append_left (by simpa using hjl)]
        simp [hj]
      | succ i =>
        rw [List.getElem?_append_right (by simp; nlinarith)]
        have := ih.2 i j me mo (by simpa using hi) hj
        rw [← this]
        congr 1
        simp only [List.length_map]
        have : (i + 1) * modes.length = i * modes.length + modes.length := by ring
        omega

/-! ## the thresholds -/

/-- **C63.** The visited thresholds are exactly the numbers `from_thr + i·step` that are below `1` and below
`to_thr + step`. -/
theorem C63_grid_partial (fromThr toThr step : K) (h : 0 < step) (t : K) :
    t ∈ thresholds fromThr toThr step ↔ (∃ i : Nat, t = fromThr + i * step) ∧ t < 1 ∧ t < toThr + step := by
  unfold thresholds arange
  rw [List.mem_map]
  have key : ∀ i : Nat, i ∈ List.range ⌈(min 1 (toThr + step) - fromThr) / step⌉₊ ↔
      fromThr + i * step < 1 ∧ fromThr + i * step < toThr + step := by
    intro i
    rw [List.mem_range, Nat.lt_ceil, lt_div_iff₀ h, ← lt_min_iff]
    constructor <;> intro h <;> linarith
  constructor
  · rintro ⟨i, hi, rfl⟩
    exact ⟨⟨i, rfl⟩, (key i).1 hi⟩
  · rintro ⟨⟨i, rfl⟩, hi⟩
    exact ⟨i, (key i).2 hi, rfl⟩

/-- **C63 (aligned grids).** If `to_thr` is below `1` and a multiple of the step away from `from_thr`, the thresholds are
those between `from_thr` and `to_thr`, both included. -/
theorem C63_aligned_partial (fromThr step : K) (n : Nat) (h : 0 < step) (h1 : fromThr + n * step < 1) (t : K) :
    t ∈ thresholds fromThr (fromThr + n * step) step ↔ ∃ i : Nat, i ≤ n ∧ t = fromThr + i * step := by
  rw [C63_grid_partial _ _ _ h]
  constructor
  · rintro ⟨⟨i, rfl⟩, _, h3⟩
    refine ⟨i, ?_, rfl⟩
    have : (i : K) * step < (n + 1 : ℕ) * step := by push_cast; linarith
    have := lt_of_mul_lt_mul_right this h.le
    have : i < n + 1 := by exact_mod_cast this
    omega
  · rintro ⟨i, hi, rfl⟩
    have : (i : K) ≤ n := by exact_mod_cast hi
    have := mul_le_mul_of_nonneg_right this h.le
    exact ⟨⟨i, rfl⟩, by linarith, by linarith⟩

example : (1 : ℚ) / 10 + (3 : ℕ) * (1 / 10) < 1 := by norm_num

/-- **C63 is false for the default `to_thr = 1`**: the greatest threshold is never run, whatever `from_thr` and `step`. -/
theorem C63_one_false (fromThr step : K) (h : 0 < step) : (1 : K) ∉ thresholds fromThr 1 step := by
  rw [C63_grid_partial _ _ _ h]
  rintro ⟨_, h1, _⟩
  exact lt_irrefl _ h1

/-- **C63 is false**: with `from_thr = 0.1`, `to_thr = 0.35`, `step = 0.1` the threshold `0.4` is run although it is greater
than `to_thr`. -/
theorem C63_false : ((2 : ℚ) / 5) ∈ thresholds (1 / 10 : ℚ) (7 / 20) (1 / 10) ∧ (7 / 20 : ℚ) < 2 / 5 := by
  refine ⟨(C63_grid_partial _ _ _ (by norm_num) _).2 ⟨⟨3, by norm_num⟩, by norm_num, by norm_num⟩, by norm_num⟩

/-! ## plotting -/

theorem mapM_ok {α β : Type} {f : α → Except Err β} {g : α → β} {l : List α} (h : ∀ a ∈ l, f a = .ok (g a)) :
    l.mapM f = .ok (l.map g) := by
  induction l with
  | nil => rfl
  | cons a l ih =>
    rw [List.mapM_cons, h a (by simp), ih (fun b hb => h b (by simp [hb]))]
    rfl

theorem mapM_error {α β : Type} {f : α → Except Err β} {e : Err} {l : List α} (h : ∀ a ∈ l, ∀ e', f a = .error e' → e' = e)
    {a : α} (ha : a ∈ l) (h' : f a = .error e) : l.mapM f = .error e := by
  induction l with
  | nil => simp at ha
  | cons b l ih =>
    rw [List.mapM_cons]
    cases hb : f b with
    | error e' => rw [h b (by simp) e' hb]; rfl
    | ok y =>
      have hal : a ∈ l := by
        rcases List.mem_cons.1 ha with rfl | h
        · rw [hb] at h'; cases h'
        · exact h
      rw [ih (fun c hc => h c (by simp [hc])) hal]
      rfl

/-- **C64.** A run whose entries have the same number of results (at least one) is plotted with one curve per result
number, showing the recorded values at their thresholds. -/
theorem C64_states_partial (timeoutVal : Option K) (data : List (Entry K)) (n : Nat) (hn : 0 < n) (hne : data ≠ [])
    (h : ∀ e ∈ data, e.value.length = n) :
    renderStates false false timeoutVal data = .ok ((List.range n).map fun idx =>
      data.map fun e => (e.threshold, shown timeoutVal (e.value.getD idx 0))) := by
  obtain ⟨e0, ds, rfl⟩ := List.exists_cons_of_ne_nil hne
  have hl : e0.value.length = n := h e0 (by simp)
  have hany : (e0 :: ds).any (fun e => e.value.isEmpty) = false := by
    rw [List.any_eq_false]
    intro e he hemp
    have := h e he
    rw [List.isEmpty_iff] at hemp
    simp [hemp] at this
    omega
  unfold renderStates
  simp only [at?, List.getElem?_cons_zero, bind, Except.bind, hl, hany, Bool.false_and, Bool.not_false,
    List.filter_true, Bool.false_eq_true, if_false]
  apply mapM_ok
  intro idx hidx
  rw [List.mem_range] at hidx
  unfold series
  apply mapM_ok
  intro e he
  have : idx < e.value.length := by rw [h e he]; exact hidx
  simp [at?, this, bind, Except.bind]

/-- **C64 (last results).** In the mode `laststates-thr` only the last result is plotted. -/
theorem C64_laststates_partial (timeoutVal : Option K) (data : List (Entry K)) (n : Nat) (hne : data ≠ [])
    (h : ∀ e ∈ data, e.value.length = n + 1) :
    renderStates true false timeoutVal data = .ok [data.map fun e => (e.threshold, shown timeoutVal (e.value.getD n 0))] := by
  obtain ⟨e0, ds, rfl⟩ := List.exists_cons_of_ne_nil hne
  have hl : e0.value.length = n + 1 := h e0 (by simp)
  have hany : (e0 :: ds).any (fun e => e.value.isEmpty) = false := by
    rw [List.any_eq_false]
    intro e he hemp
    have := h e he
    rw [List.isEmpty_iff] at hemp
    simp [hemp] at this
  have hf : (List.range (n + 1)).filter (fun idx => !(true && idx != n + 1 - 1)) = [n] := by
    rw [List.range_succ, List.filter_append]
    have : (List.range n).filter (fun idx => !(true && idx != n + 1 - 1)) = [] := by
      rw [List.filter_eq_nil_iff]
      intro a ha
      rw [List.mem_range] at ha
      simp
      omega
    rw [this]
    simp
  unfold renderStates
  simp only [at?, List.getElem?_cons_zero, bind, Except.bind, hl, hany, hf, Bool.false_eq_true, if_false]
  have : series false timeoutVal (e0 :: ds) n =
      .ok ((e0 :: ds).map fun e => (e.threshold, shown timeoutVal (e.value.getD n 0))) := by
    unfold series
    apply mapM_ok
    intro e he
    have : n < e.value.length := by rw [h e he]; omega
    simp [at?, this, bind, Except.bind]
  rw [List.mapM_cons, this]
  rfl

/-- **C64 (a run with nothing recorded).** If the first threshold is infeasible, plotting raises `IndexError`. -/
theorem C64_empty (last normalize : Bool) (timeoutVal : Option K) :
    renderStates last normalize timeoutVal ([] : List (Entry K)) = .error .indexError := rfl

/-- **C64 (a run ended by a timeout).** If some entry has fewer values than the first one (and all have one), plotting raises
`IndexError`, in both modes. -/
theorem C64_short (last normalize : Bool) (timeoutVal : Option K) (e0 : Entry K) (ds : List (Entry K)) (e : Entry K)
    (he : e ∈ ds) (hlt : e.value.length < e0.value.length) (hne : ∀ e ∈ e0 :: ds, e.value ≠ []) :
    renderStates last normalize timeoutVal (e0 :: ds) = .error .indexError := by
  have hany : (e0 :: ds).any (fun e => e.value.isEmpty) = false := by
    rw [List.any_eq_false]
    intro e he hemp
    rw [List.isEmpty_iff] at hemp
    exact hne e he hemp
  have only : ∀ idx, ∀ e', series normalize timeoutVal (e0 :: ds) idx = .error e' → e' = .indexError := by
    intro idx e' h
    unfold series at h
    by_cases hall : ∀ x ∈ e0 :: ds, idx < x.value.length
    · exfalso
      rw [mapM_ok (g := fun x => (x.threshold, if normalize then shown timeoutVal (x.value.getD idx 0) / 1000
        else shown timeoutVal (x.value.getD idx 0)))] at h
      · cases h
      · intro x hx
        have := hall x hx
        simp [at?, this, bind, Except.bind]
    · push Not at hall
      obtain ⟨x, hx, hxl⟩ := hall
      rw [mapM_error (e := .indexError) _ hx] at h
      · cases h; rfl
      · simp [at?, hxl, bind, Except.bind]
      · intro a _ e' h
        unfold at? at h
        cases hh : a.value[idx]? with
        | some y => simp [hh, bind, Except.bind] at h
        | none => simp [hh, bind, Except.bind] at h; exact h.symm
  unfold renderStates
  simp only [at?, List.getElem?_cons_zero, bind, Except.bind, hany, Bool.false_eq_true, if_false]
  apply mapM_error (a := e0.value.length - 1)
  · intro a _ e' h
    exact only a e' h
  · rw [List.mem_filter, List.mem_range]
    refine ⟨by omega, by simp⟩
  · unfold series
    apply mapM_error (a := e)
    · intro a _ e' h
      unfold at? at h
      cases hh : a.value[e0.value.length - 1]? with
      | some y => simp [hh, bind, Except.bind] at h
      | none => simp [hh, bind, Except.bind] at h; exact h.symm
    · simp [he]
    · have : e.value.length ≤ e0.value.length - 1 := by omega
      simp [at?, this, bind, Except.bind]

/-- a heuristic with three iterations: all succeed below one half, the second times out from one half on -/
def exMethod (t : ℚ) : List (Res ℚ) :=
  if t < 1 / 2 then [⟨.success, 5⟩, ⟨.success, 4⟩, ⟨.success, 4⟩] else [⟨.success, 7⟩, ⟨.other, 0⟩]

/-- the run of `exMethod` for the thresholds `1/4, 1/2, 3/4` stops at `1/2` -/
theorem exRun : (run true exMethod (1 / 4) (3 / 4) (1 / 4)).map (fun e => (e.threshold, e.value)) =
    [(1 / 4, [5, 4, 4]), (1 / 2, [7, -1])] := by decide +kernel

/-- **C64 is false**: the run of `exMethod` with the default `stop_on_timeout` cannot be plotted. -/
theorem C64_false (last normalize : Bool) (timeoutVal : Option ℚ) :
    renderStates last normalize timeoutVal (run true exMethod (1 / 4) (3 / 4) (1 / 4)) = .error .indexError := by
  have h := exRun
  generalize run true exMethod (1 / 4) (3 / 4) (1 / 4) = d at h
  have hl : d.length = 2 := by simpa using congrArg List.length h
  obtain ⟨e0, e1, rfl⟩ := List.length_eq_two.1 hl
  simp only [List.map_cons, List.map_nil, List.cons.injEq, Prod.mk.injEq, and_true] at h
  obtain ⟨⟨_, h0⟩, _, h1⟩ := h
  apply C64_short (e := e1)
  · simp
  · simp [h0, h1]
  · simp [h0, h1]

end Verif.Props
