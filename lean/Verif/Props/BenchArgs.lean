import Verif.Model.BenchArgs
import Verif.Props.Bench
/-! # C93, C94: the arguments of benchmark runs, and plots of times -/
namespace Verif.Props
open Verif.Model Verif.Model.Bench

set_option linter.unusedSectionVars false

variable {K : Type} [Field K] [LinearOrder K] [IsStrictOrderedRing K] [FloorRing K]

theorem solveiter_ok {reward : Bool} (solve : String → K → List (Res K)) {m : String} (hm : m = "min" ∨ m = "max") {t : K}
    (h0 : 0 ≤ t) (h1 : t ≤ 1) : solveiter reward solve (.one m) t = .ok (solve m t) := by
  unfold solveiter
  rw [if_pos h0, if_pos (Or.inr h1)]
  simp only
  rw [if_pos (by simpa using hm)]

theorem outer_checked (stop : Bool) {f : K → Except Err (List (Res K))} {g : K → List (Res K)} {ts : List K}
    (h : ∀ t ∈ ts, f t = .ok (g t)) (data : List (Entry K)) :
    outerChecked stop f ts data = .ok (outer stop g ts data) := by
  induction ts generalizing data with
  | nil => rfl
  | cons t ts ih =>
    unfold outerChecked outer
    rw [h t (by simp)]
    simp only [bind, Except.bind]
    cases inner stop (g t) [] 0 with
    | infeasible => rfl
    | stopped vs n => rfl
    | finished vs n => exact ih (fun t ht => h t (by simp [ht])) _

theorem thresholds_range {fromThr toThr step t : K} (hs : 0 < step) (ht : t ∈ thresholds fromThr toThr step) :
    fromThr ≤ t ∧ t ≤ 1 := by
  unfold thresholds arange at ht
  obtain ⟨i, hi, rfl⟩ := List.mem_map.1 ht
  rw [List.mem_range, Nat.lt_ceil, lt_div_iff₀ hs] at hi
  constructor
  · have : (0 : K) ≤ i * step := by positivity
    linarith
  · have := min_le_left (1 : K) (toThr + step)
    linarith

theorem thresholds_head {fromThr toThr step : K} (hs : 0 < step) (hlt : fromThr < min 1 (toThr + step)) :
    ∃ ts, thresholds fromThr toThr step = fromThr :: ts := by
  unfold thresholds arange
  have h0 : 0 < ⌈(min 1 (toThr + step) - fromThr) / step⌉₊ := Nat.ceil_pos.2 (div_pos (by linarith) hs)
  obtain ⟨n, hn⟩ := Nat.exists_eq_succ_of_ne_zero h0.ne'
  rw [hn, List.range_succ_eq_map]
  exact ⟨_, by simp; rfl⟩

theorem thresholds_nil {fromThr toThr step : K} (hs : 0 < step) (hlt : ¬ fromThr < min 1 (toThr + step)) :
    thresholds fromThr toThr step = [] := by
  unfold thresholds arange
  rw [Nat.ceil_eq_zero.2 (div_nonpos_of_nonpos_of_nonneg (by linarith) hs.le)]
  rfl

theorem runOne_iff (stop reward : Bool) (solve : String → K → List (Res K)) (mode : ModeArg) (fromThr toThr : K)
    {step : K} (hs : 0 < step) :
    (∃ d, runOne stop reward solve mode fromThr toThr step = .ok d) ↔
      (fromThr < min 1 (toThr + step) → 0 ≤ fromThr ∧ ∃ m, mode = .one m ∧ (m = "min" ∨ m = "max")) := by
  unfold runOne
  by_cases hlt : fromThr < min 1 (toThr + step)
  · constructor
    · rintro ⟨d, h⟩ _
      obtain ⟨ts, hts⟩ := thresholds_head hs hlt
      rw [hts] at h
      unfold outerChecked solveiter at h
      by_cases h0 : 0 ≤ fromThr
      · refine ⟨h0, ?_⟩
        rw [if_pos h0] at h
        split at h
        · cases mode with
          | many ms => simp only [bind, Except.bind] at h; cases h
          | one m =>
            simp only at h
            split at h
            · rename_i hm
              exact ⟨m, rfl, by simpa using hm⟩
            · simp only [bind, Except.bind] at h; cases h
        · simp only [bind, Except.bind] at h; cases h
      · rw [if_neg h0] at h
        simp only [bind, Except.bind] at h; cases h
    · intro h
      obtain ⟨h0, m, rfl, hm⟩ := h hlt
      exact ⟨_, outer_checked stop (g := solve m) (fun t ht =>
        have := thresholds_range hs ht
        solveiter_ok solve hm (h0.trans this.1) this.2) []⟩
  · rw [thresholds_nil hs hlt]
    exact ⟨fun _ h => absurd h hlt, fun _ => ⟨[], rfl⟩⟩

theorem runOne_bad (stop reward : Bool) (solve : String → K → List (Res K)) {mode : ModeArg} {fromThr toThr step : K}
    (hs : 0 < step) (hlt : fromThr < min 1 (toThr + step)) (hm : ∀ m, mode = .one m → m ≠ "min" ∧ m ≠ "max") :
    runOne stop reward solve mode fromThr toThr step = .error .assertion := by
  obtain ⟨ts, hts⟩ := thresholds_head hs hlt
  have he : solveiter reward solve mode fromThr = .error .assertion := by
    unfold solveiter
    split
    · split
      · cases mode with
        | many ms => rfl
        | one m =>
          simp only
          rw [if_neg (by simpa using hm m rfl)]
      · rfl
    · rfl
  unfold runOne
  rw [hts]
  unfold outerChecked
  rw [he]
  rfl

theorem runOne_run (stop reward : Bool) (solve : String → K → List (Res K)) {m : String} (hm : m = "min" ∨ m = "max")
    {fromThr toThr step : K} (hs : 0 < step) (h0 : 0 ≤ fromThr) :
    runOne stop reward solve (.one m) fromThr toThr step = .ok (run stop (solve m) fromThr toThr step) :=
  outer_checked stop (fun _ ht =>
    have := thresholds_range hs ht
    solveiter_ok solve hm (h0.trans this.1) this.2) []

/-- **C93 (one method, one mode).** The run of `C53_run` is returned. -/
theorem C93_one (stop reward : Bool) (solve : String → K → List (Res K)) {m : String} (hm : m = "min" ∨ m = "max")
    {fromThr toThr step : K} (hs : 0 < step) (h0 : 0 ≤ fromThr) :
    runOne stop reward solve (.one m) fromThr toThr step = .ok (run stop (solve m) fromThr toThr step) :=
  runOne_run stop reward solve hm hs h0

/-- **C93 (lists of methods and of modes).** There is one data set for every pair, in the order of
`itertools.product`. -/
theorem C93_lists_partial (stop reward : Bool) (methods : List (String → K → List (Res K))) {ms : List String}
    (hm : ∀ m ∈ ms, m = "min" ∨ m = "max") {fromThr toThr step : K} (hs : 0 < step) (h0 : 0 ≤ fromThr) :
    ∃ d, runList stop reward methods (.many ms) fromThr toThr step = .ok d ∧ d.length = methods.length * ms.length ∧
      ∀ i j me m, methods[i]? = some me → ms[j]? = some m →
        d[i * ms.length + j]? = some (run stop (me m) fromThr toThr step) := by
  have key : ∀ l : List ((String → K → List (Res K)) × String), (∀ x ∈ l, x.2 = "min" ∨ x.2 = "max") →
      (l.mapM fun x => runOne stop reward x.1 (.one x.2) fromThr toThr step) =
        .ok (l.map fun x => run stop (x.1 x.2) fromThr toThr step) := by
    intro l
    induction l with
    | nil => intro _; rfl
    | cons x l ih =>
      intro h
      rw [List.mapM_cons, runOne_run stop reward x.1 (h x (by simp)) hs h0]
      simp only [bind, Except.bind, ih fun y hy => h y (by simp [hy])]
      rfl
  have := C53_many stop (fun (me : String → K → List (Res K)) (mo : String) => me mo) methods ms fromThr toThr step
  refine ⟨_, key _ ?_, this⟩
  intro x hx
  simp only [ModeArg.items, List.mem_flatMap, List.mem_map] at hx
  obtain ⟨me, -, mo, hmo, rfl⟩ := hx
  exact hm mo hmo

/-- **C93 is false** for a list of methods with one mode, and for one method with a list of modes: whenever there is a
threshold to visit, the call raises `AssertionError`. -/
theorem C93_false (stop reward : Bool) {fromThr toThr step : K} (hs : 0 < step) (hlt : fromThr < min 1 (toThr + step)) :
    (∀ (methods : List (String → K → List (Res K))) m, methods ≠ [] → m = "min" ∨ m = "max" →
      runList stop reward methods (.one m) fromThr toThr step = .error .assertion) ∧
    ∀ (solve : String → K → List (Res K)) ms,
      runOne stop reward solve (.many ms) fromThr toThr step = .error .assertion := by
  constructor
  · intro methods m hne hm
    obtain ⟨me, l, rfl⟩ := List.exists_cons_of_ne_nil hne
    have hitems : ∃ c cs, (ModeArg.one m).items = String.singleton c :: cs ∧ String.singleton c ≠ "min" ∧
        String.singleton c ≠ "max" := by
      rcases hm with rfl | rfl
      · exact ⟨'m', [String.singleton 'i', String.singleton 'n'], by decide, by decide, by decide⟩
      · exact ⟨'m', [String.singleton 'a', String.singleton 'x'], by decide, by decide, by decide⟩
    obtain ⟨c, cs, hc, h1, h2⟩ := hitems
    unfold runList
    rw [hc]
    simp only [List.flatMap_cons, List.map_cons, List.cons_append]
    rw [List.mapM_cons, runOne_bad stop reward me hs hlt]
    · rfl
    · intro m' hm'
      cases hm'
      exact ⟨h1, h2⟩
  · intro solve ms
    exact runOne_bad stop reward solve hs hlt (by simp)

/-- **C93 (negative thresholds).** A call with one method returns exactly if there is no threshold to visit, or the first
one is not negative and the mode is one of the two. -/
theorem C93_returns_iff (stop reward : Bool) (solve : String → K → List (Res K)) (mode : ModeArg) (fromThr toThr : K)
    {step : K} (hs : 0 < step) :
    (∃ d, runOne stop reward solve mode fromThr toThr step = .ok d) ↔
      (fromThr < min 1 (toThr + step) → 0 ≤ fromThr ∧ ∃ m, mode = .one m ∧ (m = "min" ∨ m = "max")) :=
  runOne_iff stop reward solve mode fromThr toThr hs

/-- the default thresholds, two methods and the mode `"min"` -/
example (f : String → ℚ → List (Res ℚ)) :
    runList true false [f, f] (.one "min") (1/1000) 1 (1/1000) = .error .assertion :=
  (C93_false true false (by norm_num) (by norm_num)).1 _ _ (by simp) (Or.inl rfl)

/-- ... and the list `["min"]` -/
example : (match runList true false [fun _ t => [⟨.success, t * 10⟩], fun _ _ => [⟨.infeasible, 0⟩]] (.many ["min", "max"])
      (1/4 : ℚ) (1/2) (1/4) with
    | .ok d => d.map fun r => r.map fun e => (e.threshold, e.value)
    | .error _ => []) = [[(1/4, [5/2]), (1/2, [5])], [(1/4, [5/2]), (1/2, [5])], [], []] := by decide +kernel

/-! ### C94 -/

/-- **C94 is false**: recorded times are never negative, so `timeout_val` has no effect on plots of times. -/
theorem C94_false (v v' : Option K) (cap : Bool) {data : List (K × List K)} (h : ∀ e ∈ data, ∀ t ∈ e.2, 0 ≤ t) :
    renderTimes v cap data = renderTimes v' cap data := by
  have key : ∀ l : List (K × List K), (∀ e ∈ l, ∀ t ∈ e.2, 0 ≤ t) →
      l.mapM (timePoint v cap) = l.mapM (timePoint v' cap) := by
    intro l
    induction l with
    | nil => intro _; rfl
    | cons e l ih =>
      intro hl
      rw [List.mapM_cons, List.mapM_cons, ih (fun e he => hl e (by simp [he]))]
      have : timePoint v cap e = timePoint v' cap e := by
        unfold timePoint
        cases hg : e.2.getLast? with
        | none => rfl
        | some t =>
          have ht : 0 ≤ t := hl e (by simp) t (List.mem_of_getLast? hg)
          have : ∀ v, shownTime v cap t = if 0 ≤ t ∧ t ≤ 1 ∧ cap = true then 1 else t := by
            intro v
            unfold shownTime
            rw [if_neg (by linarith)]
          simp only [this]
      rw [this]
  unfold renderTimes
  rw [key data h]

/-- **C94 (what is plotted).** For recorded times, a point for every threshold: the time of its last result, where times
of at most one second are shown as one second if `cap_times_below_onesec` is set; it is an error if an entry
has no result, or if there is no entry. -/
theorem C94_points_partial (v : Option K) (cap : Bool) {data : List (K × List K)} (h : ∀ e ∈ data, ∀ t ∈ e.2, 0 ≤ t)
    (pts : List (K × K)) :
    renderTimes v cap data = .ok pts ↔ data ≠ [] ∧ List.Forall₂ (fun e p => ∃ ts t, e.2 = ts ++ [t] ∧ p.1 = e.1 ∧
      p.2 = if cap = true then max 1 t else t) data pts := by
  have key : ∀ (l : List (K × List K)), (∀ e ∈ l, ∀ t ∈ e.2, 0 ≤ t) → ∀ pts : List (K × K),
      l.mapM (timePoint v cap) = .ok pts ↔
      List.Forall₂ (fun e p => ∃ ts t, e.2 = ts ++ [t] ∧ p.1 = e.1 ∧ p.2 = if cap = true then max 1 t else t) l pts := by
    intro l
    induction l with
    | nil =>
      intro _ pts
      constructor
      · intro h; cases h; exact .nil
      · intro h; cases h; rfl
    | cons e l ih =>
      intro hl pts
      have ih := ih (fun e he => hl e (by simp [he]))
      rw [List.mapM_cons]
      unfold timePoint at ih ⊢
      rcases List.eq_nil_or_concat e.2 with hn | ⟨ts, t, hn⟩
      · rw [hn]
        simp only [List.getLast?_nil, bind, Except.bind]
        constructor
        · intro h; cases h
        · intro h
          cases h with
          | cons h1 _ =>
            obtain ⟨ts, t, h2, -⟩ := h1
            rw [hn] at h2
            simp at h2
      · rw [List.concat_eq_append] at hn
        have ht : 0 ≤ t := hl e (by simp) t (by simp [hn])
        have hsh : shownTime v cap t = if cap = true then max 1 t else t := by
          unfold shownTime
          rw [if_neg (by linarith)]
          simp only
          cases cap with
          | false => simp
          | true =>
            simp only [ht, true_and, and_true, if_true]
            split
            · rename_i h1; rw [max_eq_left h1]
            · rename_i h1; rw [max_eq_right (le_of_not_ge h1)]
        rw [hn]
        simp only [List.getLast?_append_of_ne_nil _ (show [t] ≠ [] by simp), List.getLast?_singleton, bind, Except.bind]
        rw [hsh]
        constructor
        · intro h
          split at h
          · cases h
          rename_i ps hps
          cases h
          exact .cons ⟨ts, t, hn, rfl, rfl⟩ ((ih ps).1 hps)
        · intro h
          cases h with
          | @cons _ p _ ps h1 h2 =>
            obtain ⟨ts', t', h3, h4, h5⟩ := h1
            rw [hn] at h3
            obtain ⟨-, h6⟩ := List.append_inj' h3 rfl
            cases h6
            rw [(ih ps).2 h2]
            obtain ⟨p1, p2⟩ := p
            simp only at h4 h5
            rw [h4, h5]
            rfl
  unfold renderTimes
  by_cases hd : data.length = 0
  · rw [if_pos hd]
    constructor
    · intro h; cases h
    · intro h; exact absurd (List.length_eq_zero_iff.1 hd) h.1
  · rw [if_neg hd, key data h pts]
    have : data ≠ [] := fun h => hd (by simp [h])
    simp [this]

/-- a run with a timeout after 600 seconds at the second threshold: plotted at 600, not at 1000 -/
example : (match renderTimes (some 1000) true [((1/10 : ℚ), [1/2]), (2/10, [3, 600])] with
    | .ok p => p
    | .error _ => []) = [(1/10, 1), (2/10, 600)] := by decide +kernel

end Verif.Props
