import Verif.Model.Cli
import Verif.Proofs.ReduceFile
import Verif.Props.CertExist
import Verif.Props.Check
import Verif.Props.Reload
/-!
# C75: `switss certify`

The theorems are about the contents of the files given to the command.  Numbers of the `.tra` file are read
exactly (see DESIGN.md); the constructor accepts rows whose sum is one up to nine decimals, so that for a file
whose numbers have at most nine decimals rows sum to one exactly (`C75_nine_decimals`).
-/
set_option linter.unusedSectionVars false

namespace Verif.Props
open Verif.Model Verif.Model.Cli Verif.Spec Verif.Proofs Verif.Proofs.IDict Verif.Proofs.IOTra Finset

variable {K : Type} [Field K] [LinearOrder K] [IsStrictOrderedRing K]
variable {ρ : Graph.Rnd} {M : Sys K} {il tl fl : String} {rf : RF K} {kind : Kind} {lab tra : List Char}

/-- rows sum to one exactly -/
def ExactRows (M : Sys K) : Prop := ∀ r < M.C, ∑ t ∈ range M.N, M.P.get r t = 1

theorem certifyLoop_get {mode : Option String} {tol : K} : ∀ {is : List (Instance K)} {k : Nat} {b : Bool},
    (certifyLoop rf mode tol is).1[k]? = some b → ∃ x m md, is[k]? = some x ∧ mode = some m ∧ modeOf m = some md ∧
      check rf md .ge x.threshold x.certificate tol = .ok b := by
  intro is
  induction is with
  | nil => intro k b h; simp [certifyLoop] at h
  | cons x is ih =>
    intro k b h
    unfold certifyLoop at h
    cases mode with
    | none => simp at h
    | some m =>
      simp only at h
      cases hm : modeOf m with
      | none => simp [hm] at h
      | some md =>
        simp only [hm] at h
        cases hc : check rf md .ge x.threshold x.certificate tol with
        | error e => simp [hc] at h
        | ok b' =>
          simp only [hc] at h
          cases k with
          | zero =>
            simp only [List.getElem?_cons_zero, Option.some.injEq] at h
            subst h
            exact ⟨x, m, md, rfl, rfl, hm, hc⟩
          | succ k =>
            simp only [List.getElem?_cons_succ] at h
            obtain ⟨y, m', md', h1, h2, h3, h4⟩ := ih h
            exact ⟨y, m', md', h1, h2, h3, h4⟩

theorem modeOf_some {m : String} {md : Mode} (h : modeOf m = some md) : (m = "min" ∧ md = .min) ∨ (m = "max" ∧ md = .max) := by
  unfold modeOf at h
  split at h
  · left; simp_all
  · split at h
    · right; simp_all
    · cases h

theorem modeOf_min : modeOf "min" = some .min := rfl
theorem modeOf_max : modeOf "max" = some .max := rfl

/-- how many verdicts the loop prints and how it ends, if the check fails with `AssertionError` only -/
theorem certifyLoop_shape {m : String} {md : Mode} (hm : modeOf m = some md) {tol : K} {Good : Instance K → Prop} [DecidablePred Good]
    (h1 : ∀ x, Good x → ∃ b, check rf md .ge x.threshold x.certificate tol = .ok b)
    (h2 : ∀ x, ¬ Good x → check rf md .ge x.threshold x.certificate tol = .error .assertion) :
    ∀ is : List (Instance K), (certifyLoop rf (some m) tol is).1.length = (is.takeWhile fun x => decide (Good x)).length ∧
      (certifyLoop rf (some m) tol is).2 = if ∀ x ∈ is, Good x then .done else .raised .assertion := by
  intro is
  induction is with
  | nil => simp [certifyLoop]
  | cons x is ih =>
    by_cases hg : Good x
    · obtain ⟨b, hb⟩ := h1 x hg
      simp only [certifyLoop, hm, hb, List.length_cons, List.takeWhile_cons, hg, decide_true, if_true]
      refine ⟨by rw [ih.1], ?_⟩
      rw [ih.2]
      simp [hg]
    · simp only [certifyLoop, hm, h2 x hg, List.takeWhile_cons, hg, decide_false]
      simp [hg, Exit.of]

variable [FloorRing K]

/-- **C75.** If the numbers of a `.tra` file have at most nine decimals, rows of the loaded model sum to one
exactly. -/
theorem C75_nine_decimals (h : loadModel kind lab tra = .ok M) (h9 : ∀ r t, ∃ n : Nat, M.P.get r t = n / 10 ^ 9) :
    ExactRows M := (loadModel_spec h).sum h9

/-- the run of `certify` once the model is accepted -/
theorem certify_eq (h : loadModel kind lab tra = .ok M) (hrf : RF.make ρ M il tl fl false = .ok rf) (f : CertFile K) (tol : K) :
    certify ρ kind lab tra il tl fl (some f) tol = certifyLoop rf f.mode tol f.instances := by
  unfold certify
  rw [h]
  simp only [hrf]

/-- a verdict is printed only if the model is accepted -/
theorem certify_rf {f : CertFile K} {tol : K} {k : Nat} {b : Bool} (h : loadModel kind lab tra = .ok M)
    (hk : (certify ρ kind lab tra il tl fl (some f) tol).1[k]? = some b) :
    ∃ rf, RF.make ρ M il tl fl false = .ok rf ∧ (certifyLoop rf f.mode tol f.instances).1[k]? = some b := by
  unfold certify at hk
  rw [h] at hk
  simp only at hk
  cases hrf : RF.make ρ M il tl fl false with
  | error e => rw [hrf] at hk; simp at hk
  | ok rf => rw [hrf] at hk; exact ⟨rf, rfl, hk⟩

/-- **C75 (partial: in mode max only for non-negative certificates).** Whenever `switss certify -tol 0` prints "VALID"
for the `k`-th certificate of a file, the file has a mode "min" or "max" and the minimal or maximal probability of
reaching the target from the initial state is at least the threshold stored with this certificate. -/
theorem C75_certify_sound_partial (h : loadModel kind lab tra = .ok M) (hx : ExactRows M) (φ : K →+*o ℝ) {f : CertFile K} {k : Nat}
    (hk : (certify ρ kind lab tra il tl fl (some f) 0).1[k]? = some true) {i : Nat} (hi : i ∈ M.labelled il) :
    ∃ c, f.instances[k]? = some c ∧
      (f.mode = some "min" ∧ φ c.threshold ≤ M.prMin φ (M.labelled tl) i ∨
       f.mode = some "max" ∧ ((∀ y ∈ c.certificate, 0 ≤ y) → φ c.threshold ≤ M.prMax φ (M.labelled tl) i)) := by
  have hM := (loadModel_spec h).wf_of_sum hx
  obtain ⟨rf, hrf, hk⟩ := certify_rf h hk
  obtain ⟨c, m, md, h1, h2, h3, h4⟩ := certifyLoop_get hk
  refine ⟨c, h1, ?_⟩
  rcases modeOf_some h3 with ⟨rfl, rfl⟩ | ⟨rfl, rfl⟩
  · exact Or.inl ⟨h2, C20_min_ge_sound hM hrf φ h4 hi⟩
  · exact Or.inr ⟨h2, fun hy => C22_max_ge_sound_partial hM hrf φ hy h4 hi⟩

/-- **C75 (tolerance).** If no positive probability of the model is below `ε`, the bounds printed with tolerance `tol`
hold up to `tol * (1 + N / ε ^ N)`, where `N` is the number of states; in mode max (non-negative certificates) up to
`tol * N`. -/
theorem C75_certify_tolerance_partial (h : loadModel kind lab tra = .ok M) (hx : ExactRows M) (φ : K →+*o ℝ) {ε : K} (hε : 0 < ε)
    (hmin : ∀ i < M.C, ∀ j < M.N, 0 < M.P.get i j → ε ≤ M.P.get i j) {f : CertFile K} {tol : K} {k : Nat} (htol : 0 ≤ tol)
    (hk : (certify ρ kind lab tra il tl fl (some f) tol).1[k]? = some true) {i : Nat} (hi : i ∈ M.labelled il) :
    ∃ c, f.instances[k]? = some c ∧
      (f.mode = some "min" ∧ φ c.threshold ≤ M.prMin φ (M.labelled tl) i + φ (tol * (1 + M.N / ε ^ M.N)) ∨
       f.mode = some "max" ∧ ((∀ y ∈ c.certificate, 0 ≤ y) → φ c.threshold ≤ M.prMax φ (M.labelled tl) i + φ tol * M.N)) := by
  have hM := (loadModel_spec h).wf_of_sum hx
  obtain ⟨rf, hrf, hk⟩ := certify_rf h hk
  obtain ⟨c, m, md, h1, h2, h3, h4⟩ := certifyLoop_get hk
  refine ⟨c, h1, ?_⟩
  rcases modeOf_some h3 with ⟨rfl, rfl⟩ | ⟨rfl, rfl⟩
  · exact Or.inl ⟨h2, (C26_tolerance_z_partial hM hrf φ hε hmin htol hi).1 h4⟩
  · exact Or.inr ⟨h2, fun hy => (C26_tolerance_y_partial hM hrf φ htol hy hi).1 h4⟩

open Classical in
/-- **C75.** For an accepted model and a file with mode "min" or "max", `certify` prints one verdict for every
instance up to the first one with a threshold outside `[0,1]` or a certificate of wrong length; there it stops with
`AssertionError`, otherwise it ends normally. -/
theorem C75_certify_verdicts (h : loadModel kind lab tra = .ok M) (hx : ExactRows M) (hrf : RF.make ρ M il tl fl false = .ok rf)
    {i : Nat} (hi : i ∈ M.labelled il) (hit : i ∉ M.labelled tl) {f : CertFile K} (tol : K) (n : Nat)
    (hn : f.mode = some "min" ∧ n = M.N - 2 ∨ f.mode = some "max" ∧ n = M.C - 2) :
    (certify ρ kind lab tra il tl fl (some f) tol).1.length =
      (f.instances.takeWhile fun c => decide (0 ≤ c.threshold ∧ c.threshold ≤ 1 ∧ c.certificate.length = n)).length ∧
    (certify ρ kind lab tra il tl fl (some f) tol).2 =
      if ∀ c ∈ f.instances, 0 ≤ c.threshold ∧ c.threshold ≤ 1 ∧ c.certificate.length = n then .done else .raised .assertion := by
  have hM := (loadModel_spec h).wf_of_sum hx
  rw [certify_eq h hrf]
  rcases hn with ⟨hm, rfl⟩ | ⟨hm, rfl⟩
  · rw [hm]
    refine certifyLoop_shape (md := .min) rfl (Good := fun c => 0 ≤ c.threshold ∧ c.threshold ≤ 1 ∧ c.certificate.length = M.N - 2)
      (fun c hc => ?_) (fun c hc => ?_) _
    · exact (C68_exceptions hM hrf hi hit .min .ge _ tol _).2.2 ⟨⟨hc.1, hc.2.1⟩, hc.2.2⟩
    · refine (C68_exceptions hM hrf hi hit .min .ge _ tol _).1.2 ?_
      by_contra hcon
      push Not at hcon
      exact hc ⟨hcon.1.1, hcon.1.2, hcon.2⟩
  · rw [hm]
    refine certifyLoop_shape (md := .max) rfl (Good := fun c => 0 ≤ c.threshold ∧ c.threshold ≤ 1 ∧ c.certificate.length = M.C - 2)
      (fun c hc => ?_) (fun c hc => ?_) _
    · exact (C68_exceptions hM hrf hi hit .max .ge _ tol _).2.2 ⟨⟨hc.1, hc.2.1⟩, hc.2.2⟩
    · refine (C68_exceptions hM hrf hi hit .max .ge _ tol _).1.2 ?_
      by_contra hcon
      push Not at hcon
      exact hc ⟨hcon.1.1, hcon.1.2, hcon.2⟩

/-- **C75.** A verdict in mode "min" is "VALID" exactly for the vectors of the polytope of `Pr_min >= t`, up to the
tolerance, that vanish on end components. -/
theorem C75_certify_min (h : loadModel kind lab tra = .ok M) (hx : ExactRows M) (hrf : RF.make ρ M il tl fl false = .ok rf)
    {i : Nat} (hi : i ∈ M.labelled il) (hit : i ∉ M.labelled tl) {f : CertFile K} {tol : K} (hm : f.mode = some "min")
    {k : Nat} {b : Bool} (hk : (certify ρ kind lab tra il tl fl (some f) tol).1[k]? = some b) :
    ∃ c, f.instances[k]? = some c ∧ (b = true ↔
      (∀ s < M.N - 2, (∃ E, IsEC M E ∧ s ∈ E) → c.certificate.getD s 0 = 0) ∧
      (∀ s a r, ((s, a), r) ∈ M.idx → r < M.C - 2 →
        c.certificate.getD s 0 - ∑ j ∈ range (M.N - 2), M.P.get r j * c.certificate.getD j 0 ≤ M.P.get r (M.N - 2) + tol) ∧
      c.threshold - tol ≤ c.certificate.getD i 0) := by
  have hM := (loadModel_spec h).wf_of_sum hx
  rw [certify_eq h hrf] at hk
  obtain ⟨c, m, md, h1, h2, h3, h4⟩ := certifyLoop_get hk
  refine ⟨c, h1, ?_⟩
  rcases modeOf_some h3 with ⟨rfl, rfl⟩ | ⟨rfl, rfl⟩
  · have := C68_min_ge hM hrf hi hit false (t := c.threshold) (tol := tol) (v := c.certificate)
    have hr := (C68_exceptions hM hrf hi hit .min .ge c.threshold tol c.certificate).2.1 ⟨b, h4⟩
    simp only [Bool.false_eq_true, if_false, h4, Except.ok.injEq] at this
    rw [this]
    exact ⟨fun hh => ⟨hh.2.2.1, hh.2.2.2.1, hh.2.2.2.2⟩, fun hh => ⟨hr.1, hr.2, hh.1, hh.2.1, hh.2.2⟩⟩
  · simp [hm] at h2

open Classical in
/-- **C75.** A verdict in mode "max" is "VALID" exactly for the vectors of the polytope of `Pr_max >= t`, up to the
tolerance; the sign of the entries is not tested. -/
theorem C75_certify_max (h : loadModel kind lab tra = .ok M) (hx : ExactRows M) (hrf : RF.make ρ M il tl fl false = .ok rf)
    {i : Nat} (hi : i ∈ M.labelled il) (hit : i ∉ M.labelled tl) {f : CertFile K} {tol : K} (hm : f.mode = some "max")
    {k : Nat} {b : Bool} (hk : (certify ρ kind lab tra il tl fl (some f) tol).1[k]? = some b) :
    ∃ c, f.instances[k]? = some c ∧ (b = true ↔
      (∀ s < M.N - 2, ∑ r ∈ (range (M.C - 2)).filter (fun r => ∃ a, ((s, a), r) ∈ M.idx), c.certificate.getD r 0
          - ∑ r ∈ range (M.C - 2), M.P.get r s * c.certificate.getD r 0 ≤ (if s = i then 1 else 0) + tol) ∧
      c.threshold - tol ≤ ∑ r ∈ range (M.C - 2), M.P.get r (M.N - 2) * c.certificate.getD r 0) := by
  have hM := (loadModel_spec h).wf_of_sum hx
  rw [certify_eq h hrf] at hk
  obtain ⟨c, m, md, h1, h2, h3, h4⟩ := certifyLoop_get hk
  refine ⟨c, h1, ?_⟩
  rcases modeOf_some h3 with ⟨rfl, rfl⟩ | ⟨rfl, rfl⟩
  · simp [hm] at h2
  · have := C68_max_ge hM hrf hi hit false (t := c.threshold) (tol := tol) (v := c.certificate)
    have hr := (C68_exceptions hM hrf hi hit .max .ge c.threshold tol c.certificate).2.1 ⟨b, h4⟩
    simp only [Bool.false_eq_true, if_false, h4, Except.ok.injEq] at this
    rw [this]
    exact ⟨fun hh => ⟨hh.2.2.1, hh.2.2.2⟩, fun hh => ⟨hr.1, hr.2, hh.1, hh.2⟩⟩

/-- **C75 is false for the files `minimize` describes.** The object stored under "method" has no entry "mode", and
without it `certify` ends with `KeyError` before the first verdict. -/
theorem C75_mode_false (h : loadModel kind lab tra = .ok M) (hrf : RF.make ρ M il tl fl false = .ok rf) (tol : K)
    {is : List (Instance K)} (hne : is ≠ []) :
    certify ρ kind lab tra il tl fl (some ⟨none, is⟩) tol = ([], .raised .keyError) := by
  rw [certify_eq h hrf]
  cases is with
  | nil => exact absurd rfl hne
  | cons c is => rfl

/-- **C75 (completeness).** Every true bound has a certificate that `certify -tol 0` calls "VALID". -/
theorem C75_certify_complete (φ : K →+*o ℝ) (h : loadModel kind lab tra = .ok M) (hx : ExactRows M)
    (hrf : RF.make ρ M il tl fl false = .ok rf) {i : Nat} (hi : i ∈ M.labelled il) (hit : i ∉ M.labelled tl)
    {t : K} (h0 : 0 ≤ t) (h1 : t ≤ 1) (k : Nat) :
    (φ t ≤ M.prMin φ (M.labelled tl) i → ∃ z, certify ρ kind lab tra il tl fl (some ⟨some "min", [⟨k, t, z⟩]⟩) 0 = ([true], .done)) ∧
    (φ t ≤ M.prMax φ (M.labelled tl) i → ∃ y, (∀ x ∈ y, 0 ≤ x) ∧
      certify ρ kind lab tra il tl fl (some ⟨some "max", [⟨k, t, y⟩]⟩) 0 = ([true], .done)) := by
  have hM := (loadModel_spec h).wf_of_sum hx
  constructor
  · intro hb
    obtain ⟨z, -, hz⟩ := (C24_min_complete hM hrf φ h0 h1 hi hit).1 hb
    refine ⟨z, ?_⟩
    rw [certify_eq h hrf]
    simp [certifyLoop, modeOf_min, hz]
  · intro hb
    obtain ⟨y, hy, hz⟩ := (C25_max_complete hM hrf φ h0 h1 hi hit).1 hb
    refine ⟨y, hy, ?_⟩
    rw [certify_eq h hrf]
    simp [certifyLoop, modeOf_max, hz]

/-! ### files -/

/-- numbers with at most nine decimals -/
def nineTest (P : Dok ℚ) : Bool := P.items.all fun e => decide ((e.2 * 10 ^ 9).den = 1 ∧ 0 ≤ (e.2 * 10 ^ 9).num)

theorem nine_of_test {P : Dok ℚ} (h : nineTest P = true) (r t : Nat) : ∃ n : Nat, P.get r t = n / 10 ^ 9 := by
  by_cases h0 : P.get r t = 0
  · exact ⟨0, by simp [h0]⟩
  · have := List.all_eq_true.1 h _ (mem_of_get_ne h0)
    obtain ⟨h1, h2⟩ := of_decide_eq_true this
    simp only at h1 h2
    refine ⟨(P.get r t * 10 ^ 9).num.toNat, ?_⟩
    have h3 : ((P.get r t * 10 ^ 9).num : ℚ) = P.get r t * 10 ^ 9 := Rat.coe_int_num_of_den_eq_one h1
    have h4 : (((P.get r t * 10 ^ 9).num.toNat : Int) : ℚ) = (P.get r t * 10 ^ 9).num := by rw [Int.toNat_of_nonneg h2]
    rw [Int.cast_natCast] at h4
    rw [h4, h3]
    field_simp

/-- label file: initial state 0, target 1, fail 2 -/
def cliLab : List Char := "0=\"init\" 1=\"goal\" 2=\"fail\"\n0: 0\n1: 1\n2: 2\n".toList

/-- an MDP: the first action of the initial state reaches the target with probability 1/2, the second one fails -/
def cliTra : List Char := "3 4 5\n0 0 1 0.5\n0 0 2 0.5\n0 1 2 1\n1 0 1 1\n2 0 2 1\n".toList

/-- a chain that stays in its initial state with probability 0.99998 -/
def cliLoop : List Char := "3 5\n0 0 0.99998\n0 1 0.00001\n0 2 0.00001\n1 1 1\n2 2 1\n".toList

/-- evaluate `certify` on files together with bounds on the probabilities that come from a second check -/
def cliTest (kind : Kind) (tra : List Char) (p : Sys ℚ → RF ℚ → Bool) : Bool :=
  match loadModel (K := ℚ) kind cliLab tra with
  | .error _ => false
  | .ok M =>
    match RF.make exRnd M "init" "goal" "fail" false with
    | .error _ => false
    | .ok rf => nineTest M.P && decide (M.statesByLabel "init" = .ok [0]) && p M rf

theorem cliTest_spec {kind : Kind} {tra : List Char} {p : Sys ℚ → RF ℚ → Bool} (h : cliTest kind tra p = true) :
    ∃ M rf, loadModel kind cliLab tra = .ok M ∧ ExactRows M ∧ M.WF ∧ RF.make exRnd M "init" "goal" "fail" false = .ok rf ∧
      0 ∈ M.labelled "init" ∧ p M rf = true := by
  unfold cliTest at h
  cases hM : loadModel (K := ℚ) kind cliLab tra with
  | error e => rw [hM] at h; cases h
  | ok M =>
    rw [hM] at h
    simp only at h
    cases hrf : RF.make exRnd M "init" "goal" "fail" false with
    | error e => rw [hrf] at h; cases h
    | ok rf =>
      rw [hrf] at h
      simp only [Bool.and_eq_true, decide_eq_true_eq] at h
      have hx := C75_nine_decimals hM (nine_of_test h.1.1)
      exact ⟨M, rf, rfl, hx, (loadModel_spec hM).wf_of_sum hx, hrf, ⟨[0], h.1.2, by simp⟩, h.2⟩

/-- **C75 is false for certificates with negative entries.** `certify -tol 0` prints "VALID" for threshold 1 although
the maximal probability is at most 1/2. -/
theorem C75_negative_false : ∃ (M : Sys ℚ) (f : CertFile ℚ), loadModel .mdp cliLab cliTra = .ok M ∧ ExactRows M ∧
    f.mode = some "max" ∧ f.instances.map (fun c => c.threshold) = [1] ∧
    certify exRnd .mdp cliLab cliTra "init" "goal" "fail" (some f) 0 = ([true], .done) ∧
    0 ∈ M.labelled "init" ∧ ∀ φ : ℚ →+*o ℝ, M.prMax φ (M.labelled "goal") 0 ≤ 1 / 2 := by
  obtain ⟨M, rf, h1, h2, h3, h4, h5, h6⟩ := cliTest_spec (kind := .mdp) (tra := cliTra)
    (p := fun _ rf => yes (check rf .max .ge 1 [2, -1] 0) && yes (check rf .max .le (1/2) [1/2] 0)) (by decide +kernel)
  simp only [Bool.and_eq_true, yes_iff] at h6
  refine ⟨M, ⟨some "max", [⟨0, 1, [2, -1]⟩]⟩, h1, h2, rfl, rfl, ?_, h5, fun φ => ?_⟩
  · rw [certify_eq h1 h4]
    simp only [certifyLoop, modeOf_max, h6.1]
  · have := C21_max_le_sound h3 h4 φ h6.2 h5
    simpa using this

/-- **C75 is false with the default tolerance `1e-5`.** `certify` prints "VALID" for threshold 1 although the
probability is at most 1/2. -/
theorem C75_tolerance_false : ∃ (M : Sys ℚ) (f : CertFile ℚ), loadModel .dtmc cliLab cliLoop = .ok M ∧ ExactRows M ∧
    f.mode = some "min" ∧ f.instances.map (fun c => c.threshold) = [1] ∧
    certify exRnd .dtmc cliLab cliLoop "init" "goal" "fail" (some f) (1 / 10 ^ 5) = ([true], .done) ∧
    0 ∈ M.labelled "init" ∧ ∀ φ : ℚ →+*o ℝ, M.prMax φ (M.labelled "goal") 0 ≤ 1 / 2 := by
  obtain ⟨M, rf, h1, h2, h3, h4, h5, h6⟩ := cliTest_spec (kind := .dtmc) (tra := cliLoop)
    (p := fun _ rf => yes (check rf .min .ge 1 [1] (1 / 10 ^ 5)) && yes (check rf .max .le (1/2) [1/2] 0)) (by decide +kernel)
  simp only [Bool.and_eq_true, yes_iff] at h6
  refine ⟨M, ⟨some "min", [⟨0, 1, [1]⟩]⟩, h1, h2, rfl, rfl, ?_, h5, fun φ => ?_⟩
  · rw [certify_eq h1 h4]
    simp only [certifyLoop, modeOf_min, h6.1]
  · have := C21_max_le_sound h3 h4 φ h6.2 h5
    simpa using this

/-- the hypotheses are met: a valid and an invalid certificate for the MDP -/
example : ∃ M : Sys ℚ, loadModel .mdp cliLab cliTra = .ok M ∧ ExactRows M ∧ 0 ∈ M.labelled "init" ∧ 0 ∉ M.labelled "goal" ∧
    certify (K := ℚ) exRnd .mdp cliLab cliTra "init" "goal" "fail" (some ⟨some "max", [⟨0, 1/2, [1, 0]⟩, ⟨1, 3/4, [1, 0]⟩]⟩) 0 =
      ([true, false], .done) := by
  obtain ⟨M, rf, h1, h2, h3, h4, h5, h6⟩ := cliTest_spec (kind := .mdp) (tra := cliTra)
    (p := fun M rf => decide (M.statesByLabel "goal" = .ok [1]) &&
      decide (certifyLoop rf (some "max") 0 [⟨0, 1/2, [1, 0]⟩, ⟨1, 3/4, [1, 0]⟩] = ([true, false], .done))) (by decide +kernel)
  simp only [Bool.and_eq_true, decide_eq_true_eq] at h6
  refine ⟨M, h1, h2, h5, ?_, by rw [certify_eq h1 h4]; exact h6.2⟩
  rintro ⟨l, hl, hm⟩
  rw [h6.1] at hl
  cases hl
  simp at hm

end Verif.Props
