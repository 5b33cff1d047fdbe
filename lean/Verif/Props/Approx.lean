import Verif.Proofs.Approx
import Verif.Theory.TolCut
import Verif.Props.QSHeur
import Verif.Props.TreeAlgo
import Verif.Proofs.ReduceFile
/-!
# C100: solvers that answer up to a tolerance

C38–C43 assume solvers that do not lie.  milp.py:71-80 and 357-363 run the back ends with tolerances of 1e-9; here the
answers are only correct up to `ε` (`Answer.Approx`).
-/
set_option linter.unusedSectionVars false

namespace Verif.Props
open Verif.Model Verif.Model.Milp Verif.Spec Verif.Proofs Verif.Theory Verif.Proofs.IDict Finset

variable {K : Type} [Field K] [LinearOrder K] [IsStrictOrderedRing K]
variable {ρ ρ' : Graph.Rnd} {M : Sys K} {il tl fl : String} {rf : RF K} {mode : Mode} {t : K}

/-- no positive probability of the system is below `p` -/
def MinProb (M : Sys K) (p : K) : Prop := ∀ i < M.C, ∀ j < M.N, 0 < M.P.get i j → p ≤ M.P.get i j

/-- by which factor an error in the constraints grows -/
def tolFactor (M : Sys K) (p : K) : Mode → K
  | .min => 1 + M.N / p ^ M.N
  | .max => M.N + 2 * M.C

theorem tolFactor_nonneg {p : K} (hp : 0 < p) : 0 ≤ tolFactor M p mode := by
  cases mode <;> simp only [tolFactor] <;> positivity

theorem core_gap (hM : M.WF) (hrf : RF.make ρ M il tl fl false = .ok rf) (φ : K →+*o ℝ) {p : K} (hp : 0 < p) (hmin : MinProb M p) :
    0 < φ p ∧ φ p ≤ 1 ∧
    (∀ s, ∀ r ∈ ((rfok_built hM hrf).core φ).rows s, ∀ u, 0 < ((rfok_built hM hrf).core φ).Q s r u →
      φ p ≤ ((rfok_built hM hrf).core φ).Q s r u) ∧
    (∀ s, ∀ r ∈ ((rfok_built hM hrf).core φ).rows s, ∑ u, ((rfok_built hM hrf).core φ).Q s r u = 1 ∨
      ∑ u, ((rfok_built hM hrf).core φ).Q s r u ≤ 1 - φ p) ∧
    Fintype.card (Fin rf.N) < M.N := by
  have h := rfok_built hM hrf
  obtain rfl := (make_fields hrf).1
  have hN := h.hN
  have hC := h.hC
  refine ⟨by simpa using phi_strict φ hp, ?_, ?_, ?_, ?_⟩
  · have := hmin (rf.sys.C - 2) (by omega) (rf.sys.N - 2) (by omega) (by rw [h.goalP]; exact one_pos)
    rw [h.goalP] at this
    simpa using OrderHomClass.mono φ this
  · intro s r _ u hq
    have hq : 0 < φ (rf.P r.1 u.1) := hq
    have hq' : 0 < rf.P r.1 u.1 := (phi_strict φ).lt_iff_lt.1 (by rwa [map_zero])
    exact OrderHomClass.mono φ (hmin _ (RFOK.lt_C r.2) _ (by have := u.2; unfold RF.N at this; omega) hq')
  · intro s r _
    have e := RFOK.row_sum h φ (RFOK.lt_C r.2)
    have g0 : 0 ≤ rf.b r.1 := RFOK.b_nonneg h _
    have f0 := WF.get_nonneg h.wf r.1 (rf.sys.N - 1)
    have g0' := (phi_nonneg φ).2 g0
    have f0' := (phi_nonneg φ).2 f0
    show ∑ u : Fin rf.N, φ (rf.P r.1 u.1) = 1 ∨ ∑ u : Fin rf.N, φ (rf.P r.1 u.1) ≤ 1 - φ p
    rcases g0.eq_or_lt with hg | hg
    · rcases f0.eq_or_lt with hf | hf
      · left
        rw [← hg, ← hf, map_zero] at e
        linarith
      · right
        have := OrderHomClass.mono φ (hmin _ (RFOK.lt_C r.2) _ (by omega) hf)
        linarith
    · right
      have := OrderHomClass.mono φ (hmin r.1 (RFOK.lt_C r.2) (rf.sys.N - 2) (by omega) hg)
      have e' : φ (rf.b r.1) = φ (rf.sys.P.get r.1 (rf.sys.N - 2)) := rfl
      linarith
  · rw [Fintype.card_fin]; unfold RF.N; omega

/-- the entries of the vector that belong to states outside `U` -/
def SmallOutside (rf : RF K) (mode : Mode) (x : Nat → K) (e : K) (U : Nat → Prop) : Prop :=
  match mode with
  | .min => ∀ s < rf.N, ¬ U s → x s ≤ e
  | .max => ∀ i < rf.C, ∀ s, rf.rowState i = some s → ¬ U s → x i ≤ e

/-- a point that meets the constraints up to `ε` shows a probability inside every set outside of which it is small -/
theorem cut_of_tol (hM : M.WF) (hrf : RF.make ρ M il tl fl false = .ok rf) (φ : K →+*o ℝ) {p : K} (hp : 0 < p) (hmin : MinProb M p)
    {A : Mat K} {b : List K} (hA : rf.farkConstraints t mode = .ok (A, b)) {ε e : K} (hε : 0 ≤ ε) (he : ε ≤ e) {x : Nat → K}
    {ub : Option (List K)} {groups : List (List Nat)} {relaxed : Bool}
    (hx : InPolyTol rf.form mode ε A b ub groups relaxed x) {U : Nat → Prop} (hU : SmallOutside rf mode x e U) :
    ∃ hin : rf.initial < rf.N,
      φ t ≤ cutVal (rfok_built hM hrf) φ mode U ⟨rf.initial, hin⟩ + φ (ε + e * tolFactor M p mode) := by
  have h := rfok_built hM hrf
  obtain ⟨q0, q1, q2, q3, q4⟩ := core_gap hM hrf φ hp hmin
  have hmono := OrderHomClass.mono φ he
  have hε' : 0 ≤ φ ε := (phi_nonneg φ).2 hε
  have he' : 0 ≤ φ e := hε'.trans hmono
  cases mode with
  | min =>
    obtain ⟨hin, e1, e2, -, e3⟩ := farkZ_rows hA
    obtain ⟨e4, e5, e6⟩ := e3 x
    refine ⟨hin, ?_⟩
    have hz := (h.zrow_le_iff φ x ε).1 fun i hi => by
      have := hx.rows i (by omega)
      rw [(e4 i hi).1, (e4 i hi).2] at this
      linarith
    have key := Core.cert_le_cut_Vmin_tol (U := {s : Fin rf.N | U s.1}) (h.sub φ) q0 q1 q2 q3 q4 he'
      (z := RFOK.vec (rf := rf) φ x) (fun s r hr => (hz s r hr).trans (by linarith))
      (fun s hs => (OrderHomClass.mono φ (hx.ec rfl s.1 s.2 ((h.inEC_iff φ s).1 hs))).trans hmono)
      (fun s hs => OrderHomClass.mono φ (hU s.1 s.2 hs)) ⟨rf.initial, hin⟩
    have hlast := hx.rows rf.C (by omega)
    rw [e5, e6] at hlast
    have h3 := OrderHomClass.mono φ (show t ≤ x rf.initial + ε by linarith)
    rw [map_add] at h3
    have eW : φ (ε + e * tolFactor M p .min) = φ ε + φ e * (1 + M.N / φ p ^ M.N) := by
      simp only [tolFactor, map_add, map_mul, map_one, map_div₀, map_pow, map_natCast]
    rw [eW]
    simp only [cutVal]
    have h4 : φ (x rf.initial) = RFOK.vec (rf := rf) φ x ⟨rf.initial, hin⟩ := rfl
    linarith
  | max =>
    obtain ⟨hin, e1, e2, -, e3⟩ := farkY_rows hA
    obtain ⟨e4, e5, e6⟩ := e3 x
    refine ⟨hin, ?_⟩
    have hb := (h.yrow_le_iff φ hin x ε).1 fun i hi => by
      have := hx.rows i (by omega)
      rw [(e4 i hi).1, (e4 i hi).2] at this
      linarith
    have key := Core.gain_le_cut_Vmax_tol (U := {s : Fin rf.N | U s.1}) (h.sub φ) he' (y := RFOK.vecY (rf := rf) φ x)
      (fun s r _ => by
        have := OrderHomClass.mono φ (hx.nonneg r.1 r.2)
        rw [map_neg] at this
        show -φ e ≤ φ (x r.1)
        linarith)
      (fun s r hr hs => OrderHomClass.mono φ (hU r.1 r.2 s.1 ((h.mem_rows φ).1 hr) hs))
      (i := ⟨rf.initial, hin⟩) (fun s => (hb s).trans (by linarith))
    rw [← RFOK.ygain_eq] at key
    have hlast := hx.rows rf.N (by omega)
    rw [e5, e6] at hlast
    have h3 := OrderHomClass.mono φ (show t ≤ ygain rf x + ε by linarith)
    rw [map_add] at h3
    have hcard : ∑ s, (((h.core φ).rows s).card : ℝ) = rf.C := by
      have := h.sum_rows φ fun _ => (1 : ℝ)
      simpa using this
    rw [hcard, Fintype.card_fin] at key
    have eW : φ (ε + e * tolFactor M p .max) = φ ε + φ e * (M.N + 2 * M.C) := by
      simp only [tolFactor, map_add, map_mul, map_natCast, map_ofNat]
    rw [eW]
    simp only [cutVal]
    have hNC : (rf.N : ℝ) + 2 * rf.C ≤ M.N + 2 * M.C := by
      have hN : rf.N ≤ M.N := by rw [← (make_fields hrf).1]; unfold RF.N; omega
      have hC : rf.C ≤ M.C := by rw [← (make_fields hrf).1]; unfold RF.C; omega
      have hN : (rf.N : ℝ) ≤ M.N := by exact_mod_cast hN
      have hC : (rf.C : ℝ) ≤ M.C := by exact_mod_cast hC
      linarith
    have := mul_le_mul_of_nonneg_left hNC he'
    linarith

/-- the reported subsystem, from a point that meets the constraints up to `ε` -/
theorem sub_of_tol (hM : M.WF) (hL : LabelMap M.labS) (hrf : RF.make ρ M il tl fl false = .ok rf) (φ : K →+*o ℝ) {p : K} (hp : 0 < p)
    (hmin : MinProb M p) {A : Mat K} {b : List K} (hA : rf.farkConstraints t mode = .ok (A, b)) {ε : K} (hε : 0 ≤ ε) {v : List K}
    {ub : Option (List K)} {groups : List (List Nat)} {relaxed : Bool}
    (hx : InPolyTol rf.form mode ε A b ub groups relaxed (fun j => v.getD j 0)) (hlen : rf.form.certSize mode ≤ v.length)
    {ig : Bool} {w : Subsystem K} (hw : Subsystem.make rf (v.take (rf.form.certSize mode)) mode ig = .ok w)
    {res : Subsystem.Result K} (hres : w.subsys ρ' = .ok res) {n : Nat} (hn : n ∈ res.rf.sys.labelled il) :
    φ t ≤ res.rf.sys.pr φ mode (res.rf.sys.labelled tl) n + φ (ε * (1 + tolFactor M p mode)) := by
  have h := rfok_built hM hrf
  have e0 := (make_fields hrf).1
  have hl : (v.take (rf.form.certSize mode)).length = rf.form.certSize mode := by rw [List.length_take]; omega
  obtain ⟨ks, k1, k2, -⟩ := C47_construction hM hL hrf hw hres
  have hk : Naming M mode (v.take (rf.form.certSize mode)) ks := ⟨k1, k2⟩
  obtain ⟨hin', v1, v2⟩ := sub_values hM hL hrf hw hres φ hk (sub_initial hM hL hrf hw hres hn hk)
  obtain ⟨hin, key⟩ := cut_of_tol hM hrf φ hp hmin hA hε le_rfl hx (U := Selected M mode (v.take (rf.form.certSize mode))) (by
    have hsel : ∀ s, Selected M mode (v.take (rf.form.certSize mode)) s ↔
        selF rf mode (fun j => (v.take (rf.form.certSize mode)).getD j 0) s := fun s => by rw [← e0]; exact (selF_iff h hl s).symm
    unfold SmallOutside
    cases mode with
    | min =>
      intro s hs hU
      rw [hsel] at hU
      by_contra hlt
      push Not at hlt
      refine hU ⟨hs, ?_⟩
      have := take_getD (v := v) (k := rf.form.certSize .min) s hs
      simp only at hlt ⊢
      rw [this]
      exact hε.trans_lt hlt
    | max =>
      intro i hi s hr hU
      rw [hsel] at hU
      by_contra hlt
      push Not at hlt
      refine hU ⟨i, hi, hr, ?_⟩
      have := take_getD (v := v) (k := rf.form.certSize .max) i hi
      simp only at hlt ⊢
      rw [this]
      exact hε.trans_lt hlt)
  rw [show ε * (1 + tolFactor M p mode) = ε + ε * tolFactor M p mode by ring]
  refine key.trans (le_of_eq ?_)
  congr 1
  unfold cutVal Model.Sys.pr
  cases mode with
  | min => exact v1.symm
  | max => exact v2.symm

/-- the shape of `construct_MILP`, without assumptions on the solver of the bounds -/
theorem construct_parts {σ : Type} {f : Form σ K} {labels : Option (List String)} {relaxed : Bool} {be : Backend}
    {lpSolver : Milp K → Answer K} {m : Milp K} {ind : List (Nat × List Nat)}
    (h : constructMILP f lpSolver t mode labels relaxed none be = .ok (some (m, ind))) :
    ∃ A b ub, f.fark t mode = .ok (A, b) ∧ chooseBounds f lpSolver mode A b none = .ok (some ub) ∧
      buildMILP f mode labels relaxed be A b ub = .ok (m, ind) := by
  unfold constructMILP at h
  simp only [bind, Except.bind] at h
  split at h
  · cases h
  rename_i Ab hAb
  obtain ⟨A, b⟩ := Ab
  simp only at h
  split at h
  · cases h
  rename_i o ho
  cases o with
  | none => cases h
  | some ub =>
    simp only at h
    split at h
    · cases h
    rename_i r hr
    cases h
    exact ⟨A, b, ub, hAb, ho, hr⟩

section
variable {lpSolver solver : Milp K → Answer K} {labels : Option (List String)} {be : Backend}
  {r : ProblemResult (Subsystem K) K} {ε p : K}

/-- **C100 (partial, `MILPExact`).** The solvers may violate every bound, constraint and integrality condition by `ε`.  The
subsystem that a success reports then has, whenever it can be built, a probability of at least the threshold minus
`ε * (1 + tolFactor)`.  No assumption on the solver that computes the bounds. -/
theorem C100_probability_exact_partial (hM : M.WF) (hL : LabelMap M.labS) (hrf : RF.make ρ M il tl fl false = .ok rf)
    (hε : 0 ≤ ε) (hs : ∀ m, (solver m).Approx ε m) (hp : 0 < p) (hmin : MinProb M p)
    (hr : r ∈ (solveIter rf.form t (milpExact rf.form lpSolver solver t mode labels be)).1) (hst : r.status = .success) :
    ∃ (cert : List K) (x : Subsystem K) (v : K), r = ⟨.success, some x, some v, some cert⟩ ∧
      Subsystem.make rf cert mode false = .ok x ∧
      ∀ (ρ' : Graph.Rnd) (res : Subsystem.Result K), x.subsys ρ' = .ok res → ∀ (φ : K →+*o ℝ), ∀ n ∈ res.rf.sys.labelled il,
        φ t ≤ res.rf.sys.pr φ mode (res.rf.sys.labelled tl) n + φ (ε * (1 + tolFactor M p mode)) := by
  obtain ⟨hr, h0, h1⟩ := solveIter_mem hr
  obtain ⟨m, ind, w, hc, ho, hw, rfl⟩ := exact_success hr hst
  obtain ⟨A, b, ub, g1, -, g2⟩ := construct_parts hc
  obtain ⟨groups, -, -, b3, b4⟩ := built_tol (fark_cols g1) g2
  refine ⟨_, w, _, rfl, hw, fun ρ' res hres φ n hn => ?_⟩
  exact sub_of_tol hM hL hrf φ hp hmin g1 hε (b4 ε _ ((hs m).feasible ho)) (by rw [(hs m).length ho, b3]; omega) hw hres hn

/-- **C100 (partial, `QSHeur`).** The same for every success of `QSHeur`, with any initial objective and updater. -/
theorem C100_probability_qs_partial {solver : Nat → Milp K → Answer K} {n : Nat} {ini : List (Nat × List Nat) → Except Err (List (Nat × K))}
    {upd : List (Nat × List Nat) → Updater K}
    (hM : M.WF) (hL : LabelMap M.labS) (hrf : RF.make ρ M il tl fl false = .ok rf)
    (hε : 0 ≤ ε) (hs : ∀ k m, (solver k m).Approx ε m) (hp : 0 < p) (hmin : MinProb M p)
    (hr : r ∈ (solveIter rf.form t (qsHeur rf.form lpSolver solver n ini upd t mode labels be)).1) (hst : r.status = .success) :
    ∃ (cert : List K) (x : Subsystem K) (v : K), r = ⟨.success, some x, some v, some cert⟩ ∧
      Subsystem.make rf cert mode false = .ok x ∧
      ∀ (ρ' : Graph.Rnd) (res : Subsystem.Result K), x.subsys ρ' = .ok res → ∀ (φ : K →+*o ℝ), ∀ n ∈ res.rf.sys.labelled il,
        φ t ≤ res.rf.sys.pr φ mode (res.rf.sys.labelled tl) n + φ (ε * (1 + tolFactor M p mode)) := by
  obtain ⟨-, ⟨-, rfl⟩ | ⟨m, ind, obj, hc, -, hr⟩⟩ := qs_run hr
  · cases hst
  obtain ⟨A, b, ub, g1, -, g2⟩ := construct_parts hc
  obtain ⟨groups, -, b2, b3, b4⟩ := built_tol (fark_cols g1) g2
  obtain ⟨v, v1, v2, w, hw, rfl⟩ := qsLoop_tol hs n m obj b2 rfl (fun x hx => b4 ε x hx) r hr hst
  refine ⟨_, w, _, rfl, hw, fun ρ' res hres φ n hn => ?_⟩
  exact sub_of_tol hM hL hrf φ hp hmin g1 hε v2 (by rw [v1, b3]; omega) hw hres hn

end

/-! ### the reported value -/

/-- the number of indicator variables is at most this -/
def groupBound (M : Sys K) : Option (List String) → Nat
  | none => M.N
  | some ls => ls.length

theorem groups_length (h : RFOK rf) {labels : Option (List String)} {groups : List (List Nat)}
    (hg : groupsFromLabels rf.form mode labels (decide (mode = .max ∧ false = false)) = .ok groups) :
    groups.length ≤ groupBound rf.sys labels := by
  have hmap : ∀ {α : Type} [DecidableEq α] {e : Except Err (Dict α (List Nat))}, e.map (·.map Prod.snd) = .ok groups →
      ∃ d, e = .ok d ∧ groups.length = (Dict.keys d).length := by
    intro α _ e he
    cases e with
    | error e => cases he
    | ok d => cases he; exact ⟨d, rfl, by simp [Dict.keys]⟩
  have hle : ∀ {l ls : List String}, l.Nodup → (∀ x ∈ l, x ∈ ls) → l.length ≤ ls.length := fun h1 h2 => (h1.subperm h2).length_le
  cases labels with
  | none =>
    unfold groupBound
    cases mode with
    | min => cases hg; simp [Form.certSize, RF.form]
    | max =>
      simp only [groupsFromLabels, decide_true, if_true, and_self] at hg
      obtain ⟨d, hd, e⟩ := hmap hg
      obtain ⟨g1, g2⟩ := groupsByState_spec hd
      have hfull : Full d := by
        refine foldlM_inv (I := fun _ d => Full d) _ [] _ _ (fun _ i d d' _ hd' hs => ?_) (by intro k g hk; simp [Dict.get?] at hk) hd
        rw [show rf.form.hasIdx = true from rfl, if_pos rfl] at hs
        split at hs
        · cases hs
        · cases hs; exact full_addTo hd' _ _
      rw [e]
      have : (Dict.keys d).length ≤ (List.range rf.N).length := by
        refine (g1.1.subperm fun s hs => List.mem_range.2 ?_).length_le
        obtain ⟨⟨k, g⟩, hm, rfl⟩ := List.mem_map.1 hs
        have hget := (Dict.get?_iff_mem g1.1).2 hm
        obtain ⟨i, hi⟩ := List.exists_mem_of_ne_nil _ (hfull _ _ hget)
        obtain ⟨h1, a, h2⟩ := (g2 k i).1 (by unfold Has; rw [hget]; exact hi)
        have hr : rf.rowState i = some k := by
          unfold RF.rowState
          rw [show invGet? rf.idx i = some (k, a) from h2]
          rfl
        obtain ⟨a', ha'⟩ := (h.rowState_iff h1).1 hr
        exact h.state_lt h1 ha'
      rw [List.length_range] at this
      unfold RF.N at this
      show _ ≤ rf.sys.N
      omega
  | some ls =>
    unfold groupBound
    cases mode with
    | min =>
      obtain ⟨d, hd, e⟩ := hmap (e := groupsMin rf.form ls) hg
      obtain ⟨g1, g2, -⟩ := groupsMin_spec hd
      rw [e]
      exact hle g1 fun l hl => (g2 l).1 hl
    | max =>
      obtain ⟨d, hd, e⟩ := hmap (e := groupsMax rf.form ls) hg
      obtain ⟨g1, g2⟩ := groupsMax_spec h.wf.keys h.wf.vals hd
      have hfull : Full d := by
        refine foldlM_inv (I := fun _ d => Full d) _ [] _ _ (fun _ l d d' _ hd' hs => ?_) (by intro k g hk; simp [Dict.get?] at hk) hd
        simp only [bind, Except.bind] at hs
        split at hs
        · cases hs
        refine foldlM_inv (I := fun _ d => Full d) _ [] _ _ (fun _ s d d' _ hd' hs => ?_) hd' hs
        split at hs
        · cases hs
        split at hs
        · cases hs
        refine foldlM_inv (I := fun _ d => Full d) _ [] _ _ (fun _ a d d' _ hd' hs => ?_) hd' hs
        split at hs
        · cases hs
        · cases hs; exact full_addTo hd' _ _
      rw [e]
      refine hle g1.1 fun l hl => ?_
      obtain ⟨⟨k, g⟩, hm, rfl⟩ := List.mem_map.1 hl
      have hget := (Dict.get?_iff_mem g1.1).2 hm
      obtain ⟨i, hi⟩ := List.exists_mem_of_ne_nil _ (hfull _ _ hget)
      exact ((g2 k i).1 (by unfold Has; rw [hget]; exact hi)).1

/-- a bound for the coefficients of the indicators -/
def gateBound (M : Sys K) (p : K) : Mode → K
  | .min => 1
  | .max => M.N / p ^ M.N

/-- a computed bound is at most the sum over some point -/
theorem upper_le_total {A : Mat K} {b : List K} {solver : Milp K → Answer K} (hb : A.rows ≤ b.length) (hs : ∀ lp, (solver lp).Sound lp)
    {u : List K} (h : computeUpperBounds solver A b = .ok (.optimal, u)) :
    ∃ x, InFark A b x ∧ ∀ j < A.cols, u.getD j 0 ≤ ∑ i ∈ range A.cols, x i := by
  obtain ⟨lp, h1, h2, h3, h4, h5⟩ := upperBoundLP_ok hb
  unfold computeUpperBounds at h
  rw [h1] at h
  simp only [bind, Except.bind] at h
  have hst : (solver lp).status = .optimal := by
    split at h
    · cases h
    · split at h
      · simp only [Except.ok.injEq, Prod.mk.injEq] at h; exact h.1
      · simp only [Except.ok.injEq, Prod.mk.injEq] at h; exact h.1
  obtain ⟨o1, o2, o3⟩ := (hs lp).optimal hst
  have ho := (h5 _).1 o1.1
  rw [if_neg (by rw [hst]; decide)] at h
  refine ⟨_, ⟨ho.2, ho.1⟩, fun j hj => ?_⟩
  split at h
  · simp only [Except.ok.injEq, Prod.mk.injEq] at h
    obtain ⟨-, rfl⟩ := h
    exact single_le_sum (f := fun j => (solver lp).vec.getD j 0) (fun i hi => ho.2 i (mem_range.1 hi)) (mem_range.2 hj)
  · simp only [Except.ok.injEq, Prod.mk.injEq] at h
    obtain ⟨-, rfl⟩ := h
    rw [List.getD_eq_getElem _ _ (by simpa using hj), List.getElem_replicate, o3, h4]

/-- in min mode no bounds are computed -/
theorem construct_min_lp {labels : Option (List String)} {relaxed : Bool} {be : Backend} (lpSolver lpSolver' : Milp K → Answer K) :
    constructMILP rf.form lpSolver t .min labels relaxed none be = constructMILP rf.form lpSolver' t .min labels relaxed none be := by
  have e : ∀ (lp : Milp K → Answer K) (A : Mat K) (b : List K),
      chooseBounds rf.form lp .min A b none = .ok (some (some (List.replicate (rf.form.certSize .min) 1))) :=
    fun _ _ _ => if_pos ⟨rfl, rfl, rfl⟩
  unfold constructMILP
  simp only [e]

section
variable {lpSolver solver : Milp K → Answer K} {labels : Option (List String)} {be : Backend}
  {r : ProblemResult (Subsystem K) K} {ε p : K}

/-- the solver of the bounds may be taken to be sound -/
theorem sound_lp {relaxed : Bool} (hlp : mode = .max → ∀ lp, (lpSolver lp).Sound lp) :
    ∃ lp' : Milp K → Answer K, (∀ lp, (lp' lp).Sound lp) ∧
      constructMILP rf.form lpSolver t mode labels relaxed none be = constructMILP rf.form lp' t mode labels relaxed none be := by
  cases mode with
  | max => exact ⟨lpSolver, hlp rfl, rfl⟩
  | min =>
    obtain ⟨lp', h⟩ := exists_exact K
    exact ⟨lp', fun lp => (h lp).toSound, construct_min_lp _ _⟩

theorem exact_built_tol (hM : M.WF) (hrf : RF.make ρ M il tl fl false = .ok rf) (φ : K →+*o ℝ) (hp : 0 < p) (hmin : MinProb M p)
    (hlp : ∀ lp, (lpSolver lp).Sound lp) {m : Milp K} {ind : List (Nat × List Nat)}
    (h : constructMILP rf.form lpSolver t mode labels false none be = .ok (some (m, ind))) :
    ∃ A b u groups, rf.farkConstraints t mode = .ok (A, b) ∧ A.cols = rf.form.certSize mode ∧
      groupsFromLabels rf.form mode labels (decide (mode = .max ∧ false = false)) = .ok groups ∧
      Built rf.form mode false A b (some u) groups m ind ∧ (∀ g ∈ groups, ∀ w ∈ g, w < rf.form.certSize mode) ∧
      ((mode = .min ∧ u = List.replicate (rf.form.certSize mode) 1) ∨
        ∀ x, InFark A b x → ∀ j < rf.form.certSize mode, x j ≤ u.getD j 0) ∧
      (∀ j < rf.form.certSize mode, 0 ≤ u.getD j 0 ∧ u.getD j 0 ≤ gateBound M p mode) ∧
      ∀ (ε : K) (x : Nat → K), m.FeasibleTol ε x → InPolyTol rf.form mode ε A b (some u) groups false x := by
  obtain ⟨A, b, ub, groups, h1, h2, h3, h4, h5, h6⟩ := construct_inv (rf_fark hM hrf) hlp h
  obtain ⟨A', b', ub', h1', h2', hb⟩ := construct_parts h
  rw [h1] at h1'
  cases h1'
  rw [h2] at h2'
  cases h2'
  obtain ⟨groups', h3', -, -, htol⟩ := built_tol (fark_cols h1) hb
  rw [h3] at h3'
  cases h3'
  have hub : ∃ u, ub = some u := by
    cases ub with
    | some u => exact ⟨u, rfl⟩
    | none =>
      exfalso
      cases mode with
      | max => exact h4 ⟨rfl, rfl, rfl⟩
      | min =>
        unfold chooseBounds at h2
        rw [if_pos ⟨rfl, rfl, rfl⟩] at h2
        cases h2
  obtain ⟨u, rfl⟩ := hub
  obtain ⟨h7, h8⟩ := h6 u rfl
  refine ⟨A, b, u, groups, h1, fark_cols h1, h3, h5, fun g hg w hw => ?_, h8.imp_left fun g => ⟨g.1, g.2.2⟩, fun j hj => ?_, htol⟩
  · have := h5.bound u rfl g hg w hw
    omega
  · cases mode with
    | min =>
      unfold chooseBounds at h2
      rw [if_pos ⟨rfl, rfl, rfl⟩] at h2
      cases h2
      rw [List.getD_eq_getElem _ _ (by simpa using hj), List.getElem_replicate]
      exact ⟨zero_le_one, le_rfl⟩
    | max =>
      unfold chooseBounds at h2
      rw [if_neg (by simp)] at h2
      split at h2
      swap
      · cases h2
      rename_i hec
      simp only [bind, Except.bind] at h2
      split at h2
      · cases h2
      rename_i q hq
      obtain ⟨st, u'⟩ := q
      cases st <;> simp only [Except.ok.injEq, Option.some.injEq, reduceCtorEq] at h2
      subst h2
      have hF : rf.farkConstraints t .max = .ok (A, b) := h1
      have hok := rfok_built hM hrf
      obtain ⟨x, hx, hle⟩ := upper_le_total (rf_fark hM hrf A b h1).2.1 hlp hq
      have hcols := fark_cols hF
      obtain ⟨f1, f2, f3⟩ := rf_fark hM hrf A b h1
      refine ⟨(hx.nonneg j (by rw [hcols]; exact hj)).trans ((C37_bounds f2 f3 hlp hq).2.2 x hx j (by rw [hcols]; exact hj)), ?_⟩
      refine (hle j (by rw [hcols]; exact hj)).trans ?_
      obtain ⟨hin, e1, e2, -, e3⟩ := farkY_rows hF
      obtain ⟨e4, -, -⟩ := e3 x
      obtain ⟨q0, q1, q2, q3, q4⟩ := core_gap hM hrf φ hp hmin
      have hbal := (hok.yrow_le_iff φ hin x 0).1 fun i hi => by
        have := hx.rows i (by omega)
        rw [(e4 i hi).1, (e4 i hi).2] at this
        linarith
      have key := Core.flow_le (hok.sub φ) (hok.transient_of_ecFree φ hec) q0 q1 q2 q3 q4 (y := RFOK.vecY (rf := rf) φ x)
        (fun s r _ => (phi_nonneg φ).2 (hx.nonneg r.1 (by rw [e2]; exact r.2))) (i := ⟨rf.initial, hin⟩)
        (fun s => by simpa using hbal s)
      rw [← (phi_strict φ).le_iff_le, e2, map_sum, Finset.sum_range]
      have e5 : ∑ s, ∑ r ∈ (hok.core φ).rows s, RFOK.vecY (rf := rf) φ x s r = ∑ i : Fin rf.C, φ (x i.1) :=
        hok.sum_rows φ fun r => φ (x r.1)
      rw [e5] at key
      simpa only [gateBound, map_div₀, map_pow, map_natCast] using key

end

/-- a set of states whose restriction has a value is a witness -/
theorem witness_of_cut (hM : M.WF) (hL : LabelMap M.labS) (hrf : RF.make ρ M il tl fl false = .ok rf)
    (hlS : M.labS.dflt = true ∨ ∀ s < M.N, ∃ l, s ∈ M.labelled l) (hA : LabelMap M.labA) (hlA : M.labA.dflt = true)
    (hd : M.dtmc = true → ∀ s a i, ((s, a), i) ∈ M.idx → a = 0) {φ : K →+*o ℝ} (ht : 0 < t)
    {U : Nat → Prop} {hin : rf.initial < rf.N} (hU : φ t ≤ cutVal (rfok_built hM hrf) φ mode U ⟨rf.initial, hin⟩)
    (labels : Option (List String)) (hUN : ∀ s, U s → s < rf.N) : Witness rf il tl φ mode t labels (cost M labels U) := by
  classical
  obtain ⟨eM, ei, -⟩ := make_fields hrf
  have hok := rfok_built hM hrf
  have hlive := rflive_built hM hrf
  have ht' : 0 < φ t := by simpa using phi_strict φ ht
  let T : Finset Nat := (range rf.N).filter U
  have hT : T ⊆ range rf.N := filter_subset _ _
  have hTU : ∀ s, s ∈ T ↔ U s := fun s => by
    simp only [T, mem_filter, mem_range]
    exact ⟨fun g => g.2, fun g => ⟨hUN s g, g⟩⟩
  have hinit : rf.initial ∈ T := by
    rw [hTU]
    by_contra hn
    have : cutVal hok φ mode U ⟨rf.initial, hin⟩ ≤ 0 := by
      unfold cutVal
      cases mode with
      | min => exact ((Core.cut_Vmin_cert (hok.sub φ) {s : Fin rf.N | U s.1}).2.2.1 ⟨rf.initial, hin⟩ hn).le
      | max => exact (Core.cut_Vmax_out (hok.sub φ) hn).le
    linarith
  obtain ⟨y, hy⟩ : ∃ y, Subsystem.make rf (indicator rf.N T) .min true = .ok y := by
    unfold Subsystem.make indicator
    simp only [List.length_map, List.length_range]
    exact ⟨_, if_pos (by unfold RF.N; rfl)⟩
  obtain ⟨res, hr⟩ := (C47_returns (ρ' := ρ) hM hL hrf hy hlS hA hlA hd).2 (by
    intro i hi
    rw [initial_eq hM hrf hi]
    exact (selected_indicator hT _).2 hinit)
  obtain ⟨ks, k1, k2, -, -, -, -, -, -, -, -, -, -, k5, -⟩ := C47_construction hM hL hrf hy hr
  have hk : Naming M .min (indicator rf.N T) ks := ⟨k1, k2⟩
  obtain ⟨n, hn, e⟩ := List.mem_iff_getElem.1 ((k2 rf.initial).2 ((selected_indicator hT _).2 hinit))
  have hn' : ks[n]? = some rf.initial := by rw [List.getElem?_eq_getElem hn, e]
  have hl : rf.initial ∈ M.labelled il := by
    have := hlive.initLab
    rw [eM, ei] at this
    rw [labelled_of_single this]
    rfl
  obtain ⟨hs, v1, v2⟩ := sub_values hM hL hrf hy hr φ hk hn'
  have hset : {s : Fin rf.N | Selected M .min (indicator rf.N T : List K) s.1} = {s | U s.1} :=
    Set.ext fun s => (selected_indicator (M := M) hT s.1).trans (hTU s.1)
  refine ⟨indicator rf.N T, .min, true, y, ρ, res, n, hy, hr, (k5 il n).2 (Or.inl ⟨_, hn', hl⟩), ?_, ?_⟩
  · unfold Model.Sys.pr
    rw [hset] at v1 v2
    cases mode with
    | min => simp only; rw [v1]; exact hU
    | max => simp only; rw [v2]; exact hU
  · rw [cost_sub hM hL hrf hy hr]
    exact cost_congr _ _ fun s => (selected_indicator hT s).trans (hTU s)

section
variable {lpSolver solver : Milp K → Answer K} {labels : Option (List String)} {be : Backend}
  {r : ProblemResult (Subsystem K) K} {ε p : K}

/-- the loss in the threshold -/
def tolLoss (M : Sys K) (p ε : K) (mode : Mode) : K := ε + ε * (1 + gateBound M p mode) * tolFactor M p mode

theorem exact_value_cut (hM : M.WF) (hrf : RF.make ρ M il tl fl false = .ok rf) (φ : K →+*o ℝ)
    (hε : 0 ≤ ε) (hlp : mode = .max → ∀ lp, (lpSolver lp).Sound lp) (hs : ∀ m, (solver m).Approx ε m) (hp : 0 < p) (hmin : MinProb M p)
    (hG : ε * (groupBound M labels + 1) < 1)
    (hr : r ∈ (solveIter rf.form t (milpExact rf.form lpSolver solver t mode labels be)).1) (hst : r.status = .success) :
    ∃ (v : K) (k : Nat), r.value = some v ∧ |v - k| ≤ ε * groupBound M labels ∧
      (∀ (U : Nat → Prop) (hin : rf.initial < rf.N), φ t ≤ cutVal (rfok_built hM hrf) φ mode U ⟨rf.initial, hin⟩ → k ≤ cost M labels U) ∧
      ∃ (U : Nat → Prop) (hin : rf.initial < rf.N), (∀ s, U s → s < rf.N) ∧ cost M labels U ≤ k ∧
        φ t ≤ cutVal (rfok_built hM hrf) φ mode U ⟨rf.initial, hin⟩ + φ (tolLoss M p ε mode) := by
  classical
  obtain ⟨hr, h0, h1⟩ := solveIter_mem hr
  have h := rfok_built hM hrf
  have e0 := (make_fields hrf).1
  obtain ⟨m, ind, w, hc, ho, hw, rfl⟩ := exact_success hr hst
  obtain ⟨lp', hlp', elp⟩ := sound_lp (rf := rf) (t := t) (labels := labels) (be := be) (relaxed := false) hlp
  rw [elp] at hc
  obtain ⟨A, b, u, groups, g1, g2, g3, g4, g5, g6, g7, g8⟩ := exact_built_tol hM hrf φ hp hmin hlp' hc
  have hlen : groups.length ≤ groupBound M labels := by rw [← e0]; exact groups_length h g3
  have hlen' : (groups.length : K) ≤ groupBound M labels := by exact_mod_cast hlen
  have P := g8 ε _ ((hs m).feasible ho)
  set x : Nat → K := fun j => (solver m).vec.getD j 0 with hx
  set n := rf.form.certSize mode with hn
  let k := ((range groups.length).filter fun k => 1 / 2 ≤ x (n + k)).card
  have hhalf : 0 < groups.length → ε < 1 / 2 := by
    intro hpos
    have : (1 : K) ≤ groups.length := by exact_mod_cast hpos
    have := mul_le_mul_of_nonneg_left (show (2 : K) ≤ groupBound M labels + 1 by linarith) hε
    linarith
  have hind : ∀ k < groups.length, |x (n + k) - if 1 / 2 ≤ x (n + k) then 1 else 0| ≤ ε ∧ (¬ 1 / 2 ≤ x (n + k) → |x (n + k)| ≤ ε) := by
    intro k hk
    have hh := hhalf (by omega)
    rcases P.ind rfl k hk with g | g
    · have : ¬ 1 / 2 ≤ x (n + k) := fun g' => by
        have := (abs_le.1 g).2
        linarith
      rw [if_neg this, sub_zero]
      exact ⟨g, fun _ => g⟩
    · have : 1 / 2 ≤ x (n + k) := by
        have := (abs_le.1 g).1
        linarith
      rw [if_pos this]
      exact ⟨g, fun g' => absurd this g'⟩
  have hval : |(solver m).value - k| ≤ ε * groupBound M labels := by
    rw [(hs m).value ho, g4.obj, show (k : K) = ∑ k ∈ range groups.length, if 1 / 2 ≤ x (n + k) then 1 else 0 by
      simp only [k]; rw [card_filter, Nat.cast_sum]; exact sum_congr rfl fun k _ => by split <;> simp, ← sum_sub_distrib]
    refine (abs_sum_le_sum_abs _ _).trans ((sum_le_sum fun k hk => (hind k (mem_range.1 hk)).1).trans ?_)
    rw [sum_const, card_range, nsmul_eq_mul, mul_comm]
    exact mul_le_mul_of_nonneg_left hlen' hε
  refine ⟨_, k, rfl, hval, fun U hin hU => ?_, ?_⟩
  · obtain ⟨y, hy, -, hsel⟩ := poly_of_cut hM hrf g1 g6 hU
    have hb := (hs m).best ho _ (complete_feasible g2 g4 g5 hy)
    rw [g4.maximize] at hb
    simp only [Bool.false_eq_true, if_false] at hb
    rw [g4.obj, complete_obj] at hb
    have hcost : usedGroups groups y ≤ cost M labels U := by
      rw [used_eq_cost h g3 g5, e0]
      exact cost_mono _ _ hsel
    have hcost' : (usedGroups groups y : K) ≤ cost M labels U := by exact_mod_cast hcost
    have h2 := (abs_le.1 hval).1
    have : (k : K) < cost M labels U + 1 := by
      rw [mul_add, mul_one] at hG
      linarith
    exact Nat.lt_succ_iff.1 (by exact_mod_cast this)
  · let bad : Nat → Prop := fun j => ∃ k < groups.length, ¬ 1 / 2 ≤ x (n + k) ∧ j ∈ groups.getD k []
    let x1 : Nat → K := fun j => if bad j then 0 else max (x j) 0
    have hused : usedGroups groups x1 ≤ k := by
      unfold usedGroups
      refine card_le_card fun k hk => ?_
      rw [mem_filter] at hk ⊢
      refine ⟨hk.1, ?_⟩
      by_contra hlt
      obtain ⟨j, hj, hpos⟩ := hk.2
      have : bad j := ⟨k, mem_range.1 hk.1, hlt, hj⟩
      simp only [x1, if_pos this] at hpos
      exact lt_irrefl _ hpos
    have hB : 0 ≤ gateBound M p mode := by
      cases mode <;> simp only [gateBound] <;> positivity
    have hee : ε ≤ ε * (1 + gateBound M p mode) := by
      have := mul_nonneg hε hB
      linarith
    have hsmall : ∀ j < n, ¬ 0 < x1 j → x j ≤ ε * (1 + gateBound M p mode) := by
      intro j hj hx1
      by_cases hbad : bad j
      · obtain ⟨k, hk, hlt, hm⟩ := hbad
        have hg : groups[k]? = some (groups.getD k []) := by
          rw [List.getD_eq_getElem _ _ hk]; exact List.getElem?_eq_getElem hk
        have h1 := P.link k _ hg j hm hj
        have h2 := abs_le.1 ((hind k hk).2 hlt)
        have h3 : ubAt (some u) j = u.getD j 0 := rfl
        obtain ⟨h4, h5⟩ := g7 j hj
        have h6 := mul_le_mul_of_nonneg_left h2.2 h4
        have h7 := mul_le_mul_of_nonneg_right h5 hε
        rw [h3] at h1
        linarith
      · simp only [x1, if_neg hbad, lt_max_iff, lt_irrefl, or_false, not_lt] at hx1
        exact hx1.trans (hε.trans hee)
    obtain ⟨hin, key⟩ := cut_of_tol hM hrf φ hp hmin g1 hε hee P (U := selF rf mode x1) (by
      unfold SmallOutside
      cases mode with
      | min => exact fun s hs hU => hsmall s hs fun hpos => hU ⟨hs, hpos⟩
      | max => exact fun i hi s hr hU => hsmall i hi fun hpos => hU ⟨i, hi, hr, hpos⟩)
    refine ⟨selF rf mode x1, hin, fun s hs => ?_, ?_, key⟩
    · cases mode with
      | min => exact hs.1
      | max =>
        obtain ⟨i, hi, hr, -⟩ := hs
        obtain ⟨a, ha⟩ := (h.rowState_iff hi).1 hr
        exact h.state_lt hi ha
    · rw [← e0, ← used_eq_cost h g3 g5]
      exact hused

/-- **C100 (partial, the reported value).** With solvers that are correct up to `ε`, `ε * (groups + 1) < 1` (in max mode the
solver of the bounds is exact): the value of a success is, up to `ε` per group, a whole number `k`; no subsystem with at
least the demanded probability is smaller than `k`; and some subsystem of size at most `k` has at least the demanded
probability up to `tolLoss`. -/
theorem C100_value_partial (hM : M.WF) (hL : LabelMap M.labS) (hrf : RF.make ρ M il tl fl false = .ok rf) (φ : K →+*o ℝ)
    (hlS : M.labS.dflt = true ∨ ∀ s < M.N, ∃ l, s ∈ M.labelled l) (hA : LabelMap M.labA) (hlA : M.labA.dflt = true)
    (hd : M.dtmc = true → ∀ s a i, ((s, a), i) ∈ M.idx → a = 0)
    (hε : 0 ≤ ε) (hlp : mode = .max → ∀ lp, (lpSolver lp).Sound lp) (hs : ∀ m, (solver m).Approx ε m) (hp : 0 < p) (hmin : MinProb M p)
    (hG : ε * (groupBound M labels + 1) < 1)
    (hr : r ∈ (solveIter rf.form t (milpExact rf.form lpSolver solver t mode labels be)).1) (hst : r.status = .success) :
    ∃ (v : K) (k : Nat), r.value = some v ∧ |v - k| ≤ ε * groupBound M labels ∧
      (∀ k', Witness rf il tl φ mode t labels k' → k ≤ k') ∧
      (tolLoss M p ε mode < t → ∃ k₁ ≤ k, Witness rf il tl φ mode (t - tolLoss M p ε mode) labels k₁) := by
  obtain ⟨v, k, h1, h2, h3, U, hin, h4, h5, h6⟩ := exact_value_cut hM hrf φ hε hlp hs hp hmin hG hr hst
  refine ⟨v, k, h1, h2, fun k' hw => ?_, fun hlt => ⟨_, h5, ?_⟩⟩
  · obtain ⟨U', hin', rfl, hU'⟩ := witness_cut hM hL hrf hw
    exact h3 U' hin' hU'
  · refine witness_of_cut hM hL hrf hlS hA hlA hd (sub_pos.2 hlt) (hin := hin) ?_ labels h4
    rw [map_sub]
    linarith

/-- **C100 (infeasible).** If the run reports `infeasible`, no subsystem has the demanded probability - the tolerance of the
solver makes no difference here.  In max mode the solver of the bounds must be exact (`C100_infeasible_false`). -/
theorem C100_infeasible (hM : M.WF) (hL : LabelMap M.labS) (hrf : RF.make ρ M il tl fl false = .ok rf) (φ : K →+*o ℝ)
    (hlp : mode = .max → ∀ lp, (lpSolver lp).Sound lp) (hs : ∀ m, (solver m).Approx ε m)
    (hr : r ∈ (solveIter rf.form t (milpExact rf.form lpSolver solver t mode labels be)).1)
    (hst : r.status = .failed .infeasible) (k : Nat) : ¬ Witness rf il tl φ mode t labels k := by
  intro hw
  obtain ⟨U, hin, -, hU⟩ := witness_cut hM hL hrf hw
  obtain ⟨hr, h0, h1⟩ := solveIter_mem hr
  obtain ⟨lp', hlp', elp⟩ := sound_lp (rf := rf) (t := t) (labels := labels) (be := be) (relaxed := false) hlp
  rcases exact_infeasible hr hst with hc | ⟨m, ind, hc, hi⟩
  · rw [elp] at hc
    obtain ⟨A, b, g1, -, -, g2⟩ := construct_none (fun A b hA => (rf_fark hM hrf A b hA).2.1) hlp' hc
    by_cases hm : mode = .min
    · obtain ⟨x, -, hx, -⟩ := poly_of_cut hM hrf (u := List.replicate (rf.form.certSize mode) 1) g1 (Or.inl ⟨hm, rfl⟩) hU
      exact g2 x hx
    · obtain ⟨x, -, hx, -⟩ := poly_of_cut hM hrf (u := []) g1 (Or.inr fun x hx => absurd hx (g2 x)) hU
      exact g2 x hx
  · rw [elp] at hc
    obtain ⟨A, b, u, groups, g1, g2, g3, g4, g5, g6⟩ := exact_built hM hrf hlp' hc
    obtain ⟨x, hx, -, -⟩ := poly_of_cut hM hrf g1 g6 hU
    exact (hs m).infeasible hi _ (complete_feasible g2 g4 g5 hx)

end

/-! ### what a tolerance of 1e-9 can do -/

section
deriving instance DecidableEq for Var
deriving instance DecidableEq for Constr
deriving instance DecidableEq for Milp

/-- a solver that gives `ans` for `m0` and is exact otherwise -/
theorem exists_approx {ε : ℚ} (hε : 0 ≤ ε) {m0 : Milp ℚ} {ans : Answer ℚ} (h : ans.Approx ε m0) :
    ∃ solver : Milp ℚ → Answer ℚ, (∀ m, (solver m).Approx ε m) ∧ solver m0 = ans := by
  classical
  obtain ⟨ex, hex⟩ := exists_exact ℚ
  refine ⟨fun m => if m = m0 then ans else ex m, fun m => ?_, if_pos rfl⟩
  by_cases hm : m = m0
  · subst hm; simpa using h
  · simp only [if_neg hm]; exact (hex m).toSound.approx hε

/-- state 0 loops with probability 1 - 1e-9 and reaches the target with probability 1e-15 in one step -/
def tolP : Dok ℚ := ⟨3, 3, [((0, 0), 1 - 1/10^9), ((0, 1), 1/10^15), ((0, 2), 1/10^9 - 1/10^15), ((1, 1), 1), ((2, 2), 1)]⟩
def tolEx : Sys ℚ := mkSys tolP loopI (IDict.mk' [("init", [0]), ("goal", [1]), ("fail", [2])] true)

theorem tolEx_wf : tolEx.WF := by
  refine mkSys_wf (by simp [tolP]) ?_ ?_ (by simp [loopI]) (by simp [loopI]) (by decide +kernel)
  · intro e he
    simp only [tolP, List.mem_cons, List.not_mem_nil, or_false] at he
    rcases he with rfl | rfl | rfl | rfl | rfl <;> norm_num [tolP]
  · intro i hi
    have hi : i < 3 := hi
    show ∑ j ∈ Finset.range 3, _ = 1
    interval_cases i <;> simp [Finset.sum_range_succ, tolP, Dok.get, Dict.get?]

theorem tolEx_labS : LabelMap tolEx.labS :=
  ⟨id, [("init", [0]), ("goal", [1]), ("fail", [2])], true, [], fun _ => List.Perm.refl _,
    isPyDict_of (by decide +kernel) (by decide +kernel), rfl⟩

/-- the problem for threshold 1 -/
def tolMilp : Milp ℚ where
  be := .pulp
  maximize := false
  vars := [⟨.real, some 0, some 1⟩, ⟨.binary, some 0, some 1⟩]
  obj := some [(0, 0), (1, 1)]
  cons := [(0, ⟨[(0, 1/10^9)], .le, 1/10^15⟩), (1, ⟨[(0, -1)], .le, -1⟩), (2, ⟨[(0, 1), (1, -1)], .le, 0⟩)]
  ncon := 3

/-- does `construct_MILP` give this problem? -/
def gives (m0 : Milp ℚ) (rf : RF ℚ) (t : ℚ) : Bool :=
  match constructMILP rf.form (fun _ => ⟨.notsolved, [], 0⟩) t .min none false none .pulp with
  | .ok (some (m, _)) => decide (m = m0)
  | _ => false

theorem gives_iff {m0 : Milp ℚ} {rf : RF ℚ} {t : ℚ} (h : gives m0 rf t = true) (lp : Milp ℚ → Answer ℚ) :
    ∃ ind, constructMILP rf.form lp t .min none false none .pulp = .ok (some (m0, ind)) := by
  unfold gives at h
  rw [construct_min_lp lp fun _ => ⟨.notsolved, [], 0⟩]
  split at h
  · rename_i m ind e
    rw [decide_eq_true_eq] at h
    subst h
    exact ⟨ind, e⟩
  · cases h

/-- no run with an exact problem without points has a witness -/
theorem no_witness {M : Sys ℚ} {rf : RF ℚ} {t : ℚ} {m : Milp ℚ} {ind : List (Nat × List Nat)} {lp : Milp ℚ → Answer ℚ}
    (hM : M.WF) (hL : LabelMap M.labS) (hrf : RF.make ρ M il tl fl false = .ok rf)
    (hc : constructMILP rf.form lp t .min none false none .pulp = .ok (some (m, ind))) {φ : ℚ →+*o ℝ} {k : Nat}
    (hw : Witness rf il tl φ .min t none k) : ∃ x, m.Feasible x ∧ m.objVal x ≤ k := by
  obtain ⟨U, hin, rfl, hU⟩ := witness_cut hM hL hrf hw
  obtain ⟨lp', hlp', elp⟩ := sound_lp (rf := rf) (t := t) (labels := none) (be := .pulp) (relaxed := false) (mode := .min)
    (lpSolver := lp) (fun g => nomatch g)
  rw [elp] at hc
  obtain ⟨A, b, u, groups, g1, g2, g3, g4, g5, g6⟩ := exact_built hM hrf hlp' hc
  obtain ⟨y, hy, -, hsel⟩ := poly_of_cut hM hrf g1 g6 hU
  refine ⟨_, complete_feasible g2 g4 g5 hy, ?_⟩
  rw [g4.obj, complete_obj, used_eq_cost (rfok_built hM hrf) g3 g5, (make_fields hrf).1]
  exact_mod_cast cost_mono _ _ hsel

/-- **C100 (false as it stands: the probability).** With answers that are correct up to 1e-9 - the tolerance of milp.py - `MILPExact` may
report a subsystem for the threshold 1 although the probability is at most one in a million, in the whole system and in
every subsystem. -/
theorem C100_probability_false : ∃ (rf : RF ℚ) (solver : Milp ℚ → Answer ℚ) (r : ProblemResult (Subsystem ℚ) ℚ),
    RF.make exRnd tolEx "init" "goal" "fail" false = .ok rf ∧ (∀ m, (solver m).Approx (1/10^9) m) ∧
    r ∈ (solveIter rf.form 1 (milpExact rf.form solver solver 1 .min none .pulp)).1 ∧ r.status = .success ∧
    tolEx.prMin ratR (tolEx.labelled "goal") 0 ≤ 1/10^6 ∧ ∀ k, ¬ Witness rf "init" "goal" ratR .min 1 none k := by
  obtain ⟨rf, hrf, hp⟩ := exists_of_ok_and (x := RF.make exRnd tolEx "init" "goal" "fail" false)
    (p := fun rf => gives tolMilp rf 1 && yes (check rf .min .le (1/10^6) [10^9] 0) && decide (rf.form.certSize .min = 1)) (by decide +kernel)
  rw [Bool.and_eq_true, Bool.and_eq_true, yes_iff, decide_eq_true_eq] at hp
  obtain ⟨⟨h1, h2⟩, h3⟩ := hp
  have hno : ∀ x, ¬ tolMilp.Feasible x := by
    rintro x ⟨-, h⟩
    have a := h (0, ⟨[(0, 1/10^9)], .le, 1/10^15⟩) (by simp [tolMilp])
    have b := h (1, ⟨[(0, -1)], .le, -1⟩) (by simp [tolMilp])
    simp only [Constr.sat, CSense.holds, evalE, List.map_cons, List.map_nil, List.sum_cons, List.sum_nil] at a b
    linarith
  obtain ⟨solver, hs, e⟩ := exists_approx (ε := 1/10^9) (by norm_num) (m0 := tolMilp) (ans := ⟨.optimal, [1, 1], 1⟩)
    { feasible := fun _ => by
        refine ⟨fun i v hi => ?_, fun c hc => ?_⟩
        · match i, hi with
          | 0, hi => cases hi; norm_num [Var.okTol]
          | 1, hi => cases hi; norm_num [Var.okTol]
        · simp only [tolMilp, List.mem_cons, List.not_mem_nil, or_false] at hc
          rcases hc with rfl | rfl | rfl <;> norm_num [Constr.satTol, CSense.holdsTol, evalE]
      length := fun _ => rfl
      value := fun _ => by norm_num [tolMilp, objVal, evalE]
      best := fun _ x hx => absurd hx (hno x)
      infeasible := fun _ => hno
      unbounded := fun g => nomatch g }
  obtain ⟨ind, hc⟩ := gives_iff h1 solver
  obtain ⟨w, hw⟩ : ∃ w, rf.form.mkSub ([1, 1].take (rf.form.certSize .min)) .min = .ok w := by
    rw [h3]
    exact ⟨_, if_pos h3.symm⟩
  refine ⟨rf, solver, ⟨.success, some w, some 1, some ([1, 1].take (rf.form.certSize .min))⟩, hrf, hs, ?_, rfl, ?_, fun k hk => ?_⟩
  · have e1 : milpExact rf.form solver solver 1 .min none .pulp =
        ([⟨.success, some w, some 1, some ([1, 1].take (rf.form.certSize .min))⟩], none) := by
      unfold milpExact
      simp only [hc, e, if_true, hw]
    rw [e1]
    unfold solveIter
    rw [if_pos zero_le_one, if_pos fun _ => le_rfl]
    exact List.mem_singleton.2 rfl
  · have := C23_min_le_sound_partial tolEx_wf hrf ratR (by intro x hx; rw [List.mem_singleton] at hx; subst hx; positivity) h2
      (i := 0) ⟨[0], by decide +kernel, by simp⟩
    simpa using this
  · obtain ⟨x, hx, -⟩ := no_witness tolEx_wf tolEx_labS hrf hc hk
    exact hno x hx

/-- state 0 reaches the target directly with probability 1/2, and with probability 1/2 state 1, which reaches it with
probability 1e-9 -/
def valP : Dok ℚ := ⟨4, 4, [((0, 1), 1/2), ((0, 2), 1/2), ((1, 2), 1/10^9), ((1, 3), 1 - 1/10^9), ((2, 2), 1), ((3, 3), 1)]⟩
def valI : Dict (Nat × Nat) Nat := [((0, 0), 0), ((1, 0), 1), ((2, 0), 2), ((3, 0), 3)]
def valEx : Sys ℚ := mkSys valP valI (IDict.mk' [("init", [0]), ("goal", [2]), ("fail", [3])] true)

theorem valEx_wf : valEx.WF := by
  refine mkSys_wf (by simp [valP]) ?_ ?_ (by simp [valI]) (by simp [valI]) (by decide +kernel)
  · intro e he
    simp only [valP, List.mem_cons, List.not_mem_nil, or_false] at he
    rcases he with rfl | rfl | rfl | rfl | rfl | rfl <;> norm_num [valP]
  · intro i hi
    have hi : i < 4 := hi
    show ∑ j ∈ Finset.range 4, _ = 1
    interval_cases i <;> simp [Finset.sum_range_succ, valP, Dok.get, Dict.get?]; norm_num

theorem valEx_labS : LabelMap valEx.labS :=
  ⟨id, [("init", [0]), ("goal", [2]), ("fail", [3])], true, [], fun _ => List.Perm.refl _,
    isPyDict_of (by decide +kernel) (by decide +kernel), rfl⟩

/-- the threshold -/
def valT : ℚ := 1/2 + 1/(2 * 10^9)

def valMilp : Milp ℚ where
  be := .pulp
  maximize := false
  vars := [⟨.real, some 0, some 1⟩, ⟨.real, some 0, some 1⟩, ⟨.binary, some 0, some 1⟩, ⟨.binary, some 0, some 1⟩]
  obj := some [(0, 0), (1, 0), (2, 1), (3, 1)]
  cons := [(0, ⟨[(0, 1), (1, -1/2)], .le, 1/2⟩), (1, ⟨[(1, 1)], .le, 1/10^9⟩), (2, ⟨[(0, -1)], .le, -valT⟩),
    (3, ⟨[(0, 1), (2, -1)], .le, 0⟩), (4, ⟨[(1, 1), (3, -1)], .le, 0⟩)]
  ncon := 5

/-- **C100 (false as it stands: the value).** With the same tolerance `MILPExact` may report the value 1 for a subsystem that has two
states, where every subsystem for the threshold has at least two. -/
theorem C100_value_false : ∃ (rf : RF ℚ) (solver : Milp ℚ → Answer ℚ) (x : Subsystem ℚ),
    RF.make exRnd valEx "init" "goal" "fail" false = .ok rf ∧ (∀ m, (solver m).Approx (1/10^9) m) ∧
    solveIter rf.form valT (milpExact rf.form solver solver valT .min none .pulp) =
      ([⟨.success, some x, some 1, some [valT, 1/10^9]⟩], none) ∧
    (∀ (ρ' : Graph.Rnd) (res : Subsystem.Result ℚ), x.subsys ρ' = .ok res → res.rf.sys.N - 2 = 2) ∧
    ∀ k, Witness rf "init" "goal" ratR .min valT none k → 2 ≤ k := by
  obtain ⟨rf, hrf, hp⟩ := exists_of_ok_and (x := RF.make exRnd valEx "init" "goal" "fail" false)
    (p := fun rf => gives valMilp rf valT && decide (rf.form.certSize .min = 2)) (by decide +kernel)
  rw [Bool.and_eq_true, decide_eq_true_eq] at hp
  obtain ⟨h1, h3⟩ := hp
  have hfe : ∀ x, valMilp.Feasible x → x 2 = 1 ∧ x 3 = 1 := by
    rintro x ⟨h0, h⟩
    have a := h (0, ⟨[(0, 1), (1, -1/2)], .le, 1/2⟩) (by simp [valMilp])
    have c := h (2, ⟨[(0, -1)], .le, -valT⟩) (by simp [valMilp])
    have d := h (3, ⟨[(0, 1), (2, -1)], .le, 0⟩) (by simp [valMilp])
    have f := h (4, ⟨[(1, 1), (3, -1)], .le, 0⟩) (by simp [valMilp])
    have g2 := (h0 2 _ rfl).2.2
    have g3 := (h0 3 _ rfl).2.2
    simp only [Constr.sat, CSense.holds, evalE, List.map_cons, List.map_nil, List.sum_cons, List.sum_nil, valT] at a c d f g2 g3
    refine ⟨g2.resolve_left fun g => ?_, g3.resolve_left fun g => ?_⟩
    · rw [g] at d; linarith
    · rw [g] at f; linarith
  have hobj : ∀ x, valMilp.objVal x = x 2 + x 3 := by
    intro x
    simp [valMilp, objVal, evalE]
  obtain ⟨solver, hs, e⟩ := exists_approx (ε := 1/10^9) (by norm_num) (m0 := valMilp) (ans := ⟨.optimal, [valT, 1/10^9, 1, 0], 1⟩)
    { feasible := fun _ => by
        refine ⟨fun i v hi => ?_, fun c hc => ?_⟩
        · match i, hi with
          | 0, hi => cases hi; norm_num [Var.okTol, valT]
          | 1, hi => cases hi; norm_num [Var.okTol]
          | 2, hi => cases hi; norm_num [Var.okTol]
          | 3, hi => cases hi; norm_num [Var.okTol]
        · simp only [valMilp, List.mem_cons, List.not_mem_nil, or_false] at hc
          rcases hc with rfl | rfl | rfl | rfl | rfl <;> norm_num [Constr.satTol, CSense.holdsTol, evalE, valT]
      length := fun _ => rfl
      value := fun _ => by rw [hobj]; norm_num
      best := fun _ x hx => by
        obtain ⟨g2, g3⟩ := hfe x hx
        rw [hobj, g2, g3]
        norm_num [valMilp]
      infeasible := fun g => nomatch g
      unbounded := fun g => nomatch g }
  obtain ⟨ind, hc⟩ := gives_iff h1 solver
  have ht : ([valT, 1/10^9, 1, 0] : List ℚ).take (rf.form.certSize .min) = [valT, 1/10^9] := by rw [h3]; rfl
  have hmk : ∀ c : List ℚ, c.length = 2 → ∃ w, Subsystem.make rf c .min false = .ok w := by
    intro c hcl
    exact ⟨_, if_pos (hcl.trans h3.symm)⟩
  obtain ⟨w, hw⟩ := hmk [valT, 1/10^9] rfl
  have hw' : rf.form.mkSub [valT, 1/10^9] .min = .ok w := by rw [← hw]; simp only [RF.form]
  refine ⟨rf, solver, w, hrf, hs, ?_, fun ρ' res hres => ?_, fun k hk => ?_⟩
  · unfold solveIter
    rw [if_pos (by norm_num [valT]), if_pos fun _ => by norm_num [valT]]
    unfold milpExact
    simp only [hc, e, if_true, ht, hw']
  · obtain ⟨ks, k1, k2, k3, k4, -⟩ := C47_construction valEx_wf valEx_labS hrf hw hres
    have h0 : (0 : Nat) ∈ ks := (k2 0).2 ⟨valT, rfl, by norm_num [valT]⟩
    have h1 : (1 : Nat) ∈ ks := (k2 1).2 ⟨1/10^9, rfl, by norm_num⟩
    have hsub : ∀ s ∈ ks, s < 2 := k3
    have : ks.toFinset = {0, 1} := by
      ext s
      simp only [List.mem_toFinset, mem_insert, mem_singleton]
      refine ⟨fun g => by have := hsub s g; omega, ?_⟩
      rintro (rfl | rfl)
      · exact h0
      · exact h1
    have hcard := List.toFinset_card_of_nodup (k1.imp fun h => h.ne)
    rw [this] at hcard
    simp at hcard
    omega
  · obtain ⟨x, hx, hle⟩ := no_witness valEx_wf valEx_labS hrf hc hk
    obtain ⟨g2, g3⟩ := hfe x hx
    rw [hobj, g2, g3] at hle
    have : (2 : ℚ) ≤ k := by linarith
    exact_mod_cast this

/-- state 0 moves to the target -/
def infP : Dok ℚ := ⟨3, 3, [((0, 1), 1), ((1, 1), 1), ((2, 2), 1)]⟩
def infEx : Sys ℚ := mkSys infP loopI (IDict.mk' [("init", [0]), ("goal", [1]), ("fail", [2])] true)

theorem infEx_wf : infEx.WF := by
  refine mkSys_wf (by simp [infP]) ?_ ?_ (by simp [loopI]) (by simp [loopI]) (by decide +kernel)
  · intro e he
    simp only [infP, List.mem_cons, List.not_mem_nil, or_false] at he
    rcases he with rfl | rfl | rfl <;> norm_num [infP]
  · intro i hi
    have hi : i < 3 := hi
    show ∑ j ∈ Finset.range 3, _ = 1
    interval_cases i <;> simp [Finset.sum_range_succ, infP, Dok.get, Dict.get?]

theorem infEx_labS : LabelMap infEx.labS :=
  ⟨id, [("init", [0]), ("goal", [1]), ("fail", [2])], true, [], fun _ => List.Perm.refl _,
    isPyDict_of (by decide +kernel) (by decide +kernel), rfl⟩

/-- the bound that the solver returns -/
def infU : ℚ := 1 - 1/10^9

/-- the problem for the bounds -/
def infLp : Milp ℚ where
  be := .pulp
  maximize := true
  vars := [⟨.real, none, none⟩]
  obj := some [(0, 1)]
  cons := [(0, ⟨[(0, 1)], .le, 1⟩), (1, ⟨[(0, -1)], .le, -1⟩), (2, ⟨[(0, 1)], .ge, 0⟩)]
  ncon := 3

/-- the problem with these bounds -/
def infMilp : Milp ℚ where
  be := .pulp
  maximize := false
  vars := [⟨.real, some 0, some infU⟩, ⟨.binary, some 0, some 1⟩]
  obj := some [(0, 0), (1, 1)]
  cons := [(0, ⟨[(0, 1)], .le, 1⟩), (1, ⟨[(0, -1)], .le, -1⟩), (2, ⟨[(0, 1), (1, -infU)], .le, 0⟩)]
  ncon := 3

/-- do the two problems arise in this order? -/
def infTest (rf : RF ℚ) : Bool :=
  match rf.farkConstraints 1 .max with
  | .ok (A, b) =>
    (match upperBoundLP A b with
      | .ok lp => decide (lp = infLp)
      | _ => false) &&
    (match buildMILP rf.form .max none false .pulp A b (some [infU]) with
      | .ok (m, _) => decide (m = infMilp)
      | _ => false) && decide (A.cols = 1 ∧ A.rows = 2 ∧ A.at_ 0 0 = 1 ∧ A.at_ 1 0 = -1 ∧ b = [1, -1])
  | _ => false

/-- can the subsystem of the certificate 1 be built, with state 0 as initial state? -/
def infSub (rf : RF ℚ) : Bool :=
  match Subsystem.make rf [1] .max false with
  | .ok x =>
    match x.subsys exRnd with
    | .ok res =>
      match res.rf.sys.labS.getItem "init" with
      | .ok ss => decide (0 ∈ ss)
      | _ => false
    | _ => false
  | _ => false

/-- **C100 (false as it stands: infeasible, max).** In max mode `MILPExact` first asks a solver for bounds on the variables.  If that
answer is only correct up to 1e-9, the bounds may cut off every solution: the second solver answers `infeasible`, which is
right for the problem it was given, although a subsystem for the threshold exists. -/
theorem C100_infeasible_false : ∃ (rf : RF ℚ) (solver : Milp ℚ → Answer ℚ) (r : ProblemResult (Subsystem ℚ) ℚ),
    RF.make exRnd infEx "init" "goal" "fail" false = .ok rf ∧ (∀ m, (solver m).Approx (1/10^9) m) ∧
    solveIter rf.form 1 (milpExact rf.form solver solver 1 .max none .pulp) = ([r], none) ∧ r.status = .failed .infeasible ∧
    ∃ k, Witness rf "init" "goal" ratR .max 1 none k := by
  obtain ⟨rf, hrf, hp⟩ := exists_of_ok_and (x := RF.make exRnd infEx "init" "goal" "fail" false)
    (p := fun rf => infTest rf && infSub rf && rf.isEcFree && decide (rf.form.certSize .max = 1)) (by decide +kernel)
  simp only [Bool.and_eq_true, decide_eq_true_eq] at hp
  obtain ⟨⟨⟨h1, h2⟩, h3⟩, h4⟩ := hp
  unfold infTest at h1
  split at h1
  swap
  · cases h1
  rename_i A b hA
  simp only [Bool.and_eq_true, decide_eq_true_eq] at h1
  obtain ⟨⟨g1, g2⟩, a1, a2, a3, a4, rfl⟩ := h1
  split at g1
  swap
  · cases g1
  rename_i lp hlp
  rw [decide_eq_true_eq] at g1
  subst g1
  split at g2
  swap
  · cases g2
  rename_i m ind hm
  rw [decide_eq_true_eq] at g2
  subst g2
  have hno : ∀ x, ¬ infMilp.Feasible x := by
    rintro x ⟨h0, h⟩
    have a := (h0 0 _ rfl).2.1 infU rfl
    have b := h (1, ⟨[(0, -1)], .le, -1⟩) (by simp [infMilp])
    simp only [Constr.sat, CSense.holds, evalE, List.map_cons, List.map_nil, List.sum_cons, List.sum_nil, infU] at a b
    linarith
  obtain ⟨s1, hs1, e1⟩ := exists_approx (ε := 1/10^9) (by norm_num) (m0 := infLp) (ans := ⟨.optimal, [infU], infU⟩)
    { feasible := fun _ => by
        refine ⟨fun i v hi => ?_, fun c hc => ?_⟩
        · match i, hi with
          | 0, hi => cases hi; exact ⟨fun _ g => (nomatch g), fun _ g => (nomatch g), trivial⟩
        · simp only [infLp, List.mem_cons, List.not_mem_nil, or_false] at hc
          rcases hc with rfl | rfl | rfl <;> norm_num [Constr.satTol, CSense.holdsTol, evalE, infU]
      length := fun _ => rfl
      value := fun _ => by norm_num [infLp, objVal, evalE]
      best := fun _ x hx => by
        have a := hx.2 (0, ⟨[(0, 1)], .le, 1⟩) (by simp [infLp])
        simp only [Constr.sat, CSense.holds, evalE, List.map_cons, List.map_nil, List.sum_cons, List.sum_nil] at a
        rw [if_pos (show infLp.maximize = true from rfl)]
        have e : infLp.objVal x = x 0 := by simp [infLp, objVal, evalE]
        rw [e]
        show x 0 ≤ infU + 1/10^9
        unfold infU
        linarith
      infeasible := fun g => nomatch g
      unbounded := fun g => nomatch g }
  classical
  let solver : Milp ℚ → Answer ℚ := fun m => if m = infMilp then ⟨.infeasible, [], 0⟩ else s1 m
  have hs : ∀ m, (solver m).Approx (1/10^9) m := by
    intro m
    by_cases hm : m = infMilp
    · subst hm
      simp only [solver, if_true]
      exact ⟨fun g => (nomatch g), fun g => (nomatch g), fun g => (nomatch g), fun g => (nomatch g), fun _ => hno, fun g => (nomatch g)⟩
    · simp only [solver, if_neg hm]; exact hs1 m
  have e2 : solver infLp = ⟨.optimal, [infU], infU⟩ := by
    simp only [solver, if_neg (show infLp ≠ infMilp from fun h => by have := congrArg Milp.maximize h; cases this), e1]
  have e3 : solver infMilp = ⟨.infeasible, [], 0⟩ := if_pos rfl
  have hc : constructMILP rf.form solver 1 .max none false none .pulp = .ok (some (infMilp, ind)) := by
    have hcb : chooseBounds rf.form solver .max A [1, -1] none = .ok (some (some [infU])) := by
      unfold chooseBounds
      rw [if_neg (by simp), if_pos (show rf.form.isEcFree = true from h3)]
      unfold computeUpperBounds
      simp only [hlp, bind, Except.bind, e2]
      simp [a1, a2]
    unfold constructMILP
    rw [show rf.form.fark 1 .max = .ok (A, [1, -1]) from hA]
    simp only [bind, Except.bind, hcb, hm]
  obtain ⟨r, hr, hst⟩ : ∃ r, solveIter rf.form 1 (milpExact rf.form solver solver 1 .max none .pulp) = ([r], none) ∧
      r.status = .failed .infeasible := by
    unfold solveIter
    rw [if_pos zero_le_one, if_pos fun _ => le_rfl]
    unfold milpExact
    simp only [hc, e3]
    exact ⟨_, rfl, rfl⟩
  refine ⟨rf, solver, r, hrf, hs, hr, hst, ?_⟩
  unfold infSub at h2
  split at h2
  swap
  · cases h2
  rename_i w hw
  split at h2
  swap
  · cases h2
  rename_i res hres
  split at h2
  swap
  · cases h2
  rename_i ss hss
  rw [decide_eq_true_eq] at h2
  have h2 : 0 ∈ res.rf.sys.labelled "init" := ⟨ss, hss, h2⟩
  refine ⟨_, [1], .max, false, w, exRnd, res, 0, hw, hres, h2, ?_, rfl⟩
  have hmin : MinProb infEx 1 := by
    intro i hi j hj hpos
    have hi : i < 3 := hi
    have hj : j < 3 := hj
    revert hpos
    interval_cases i <;> interval_cases j <;> simp [infEx, mkSys, infP, Dok.get, Dict.get?]
  have := sub_of_tol (ε := 0) (v := [1]) (ub := none) (groups := []) (relaxed := true) infEx_wf infEx_labS hrf ratR one_pos hmin hA le_rfl
    { nonneg := fun j hj => by
        rw [h4] at hj
        interval_cases j
        simp
      ec := fun g => nomatch g
      rows := fun i hi => by
        rw [a2] at hi
        rw [a1]
        interval_cases i <;> simp [a3, a4]
      ind := fun g => nomatch g
      link := fun k g hg => by simp at hg } (by rw [h4]; simp) (by rw [h4]; exact hw) hres h2
  simpa using this

/-! ### the hypotheses are met -/

theorem exactEx_minProb : MinProb exactEx (1/4) := by
  intro i hi j hj hpos
  have hi : i < 3 := hi
  have hj : j < 3 := hj
  revert hpos
  interval_cases i <;> interval_cases j <;> simp [exactEx, mkSys, loopP, Dok.get, Dict.get?] <;> norm_num

/-- Runs with solvers that are correct up to 1e-9 succeed, and the losses are small: the hypotheses of `C100_probability_exact_partial`,
`C100_probability_qs_partial` and `C100_value_partial`, with conclusions that are not empty. -/
example : ∃ (rf : RF ℚ) (solver : Milp ℚ → Answer ℚ) (r : ProblemResult (Subsystem ℚ) ℚ),
    RF.make exRnd exactEx "init" "goal" "fail" false = .ok rf ∧ (∀ m, (solver m).Approx (1/10^9) m) ∧ MinProb exactEx (1/4) ∧
    (1/10^9 : ℚ) * (groupBound exactEx none + 1) < 1 ∧
    r ∈ (solveIter rf.form (1/4) (milpExact rf.form solver solver (1/4) .min none .pulp)).1 ∧ r.status = .success ∧
    (∃ r' ∈ (solveIter rf.form (1/4) (qsHeur rf.form solver (fun _ => solver) 3 allOnes (inverseResultUpdater fun _ => 1)
      (1/4) .min none .pulp)).1, r'.status = .success) ∧
    (∀ mode, (1/10^9 : ℚ) * (1 + tolFactor exactEx (1/4) mode) < 1/10^5 ∧ tolLoss exactEx (1/4) (1/10^9) mode < 1/10^5) := by
  obtain ⟨rf, hrf, hg⟩ := exists_of_ok_and (x := RF.make exRnd exactEx "init" "goal" "fail" false)
    (p := fun rf => gives ⟨.pulp, false, [⟨.real, some 0, some 1⟩, ⟨.binary, some 0, some 1⟩], some [(0, 0), (1, 1)],
      [(0, ⟨[(0, 1/2)], .le, 1/4⟩), (1, ⟨[(0, -1)], .le, -1/4⟩), (2, ⟨[(0, 1), (1, -1)], .le, 0⟩)], 3⟩ rf (1/4)) (by decide +kernel)
  obtain ⟨solver, hs⟩ := exists_exact ℚ
  obtain ⟨ind, hc⟩ := gives_iff hg solver
  obtain ⟨r, hr, hst⟩ := exact_complete (labels := none) (mode := .min) (t := 1/4) exactEx_wf hrf hs hs (by norm_num) exactEx_init
    (fun ls g => nomatch g) (fun g => nomatch g)
  have hmem : r ∈ (solveIter rf.form (1/4) (milpExact rf.form solver solver (1/4) .min none .pulp)).1 := by
    rw [hr]; exact List.mem_singleton.2 rfl
  have hsucc : r.status = .success := by
    refine hst.resolve_right fun h => ?_
    rcases exact_infeasible (solveIter_mem hmem).1 h with g | ⟨m, ind', g, hi⟩
    · rw [hc] at g; cases g
    · rw [hc] at g
      cases g
      refine (hs _).infeasible hi (fun j => if j = 0 then 1/4 else 1) ⟨fun i v hi => ?_, fun c hc => ?_⟩
      · match i, hi with
        | 0, hi => cases hi; norm_num [Var.ok]
        | 1, hi => cases hi; norm_num [Var.ok]
      · simp only [List.mem_cons, List.not_mem_nil, or_false] at hc
        rcases hc with rfl | rfl | rfl <;> norm_num [Constr.sat, CSense.holds, evalE]
  have hd : exactEx.dtmc = true → ∀ s a i, ((s, a), i) ∈ exactEx.idx → a = 0 := fun g => by cases g
  refine ⟨rf, solver, r, hrf, fun m => (hs m).toSound.approx (by norm_num), exactEx_minProb, ?_, hmem, hsucc, ?_, ?_⟩
  · norm_num [groupBound, exactEx, mkSys, loopP, Sys.N]
  · obtain ⟨r1, hr1, hw⟩ := C38_feasible_iff (t := 1/4) exactEx_wf exactEx_labS hrf ratR (Or.inl rfl) exactEx_labA rfl hd hs hs (by norm_num) exactEx_init
    rw [hr] at hr1
    cases hr1
    obtain ⟨r', h1, -, h2⟩ := C41_feasible_iff (n := 3) (t := 1/4) (mode := .min) (upd := inverseResultUpdater fun _ => 1) exactEx_wf exactEx_labS hrf ratR
      (Or.inl rfl) exactEx_labA rfl hd hs (fun _ => hs) (by norm_num) (by norm_num)
      exactEx_init (fun ls h => nomatch h : LabelsOK exactEx none) (fun _ => one_pos) (Or.inl rfl) (Or.inl rfl)
    refine ⟨r', ?_, h2.2 (hw.1 hsucc)⟩
    unfold solveLast at h1
    split at h1
    · cases h1
    · split at h1
      · cases h1
      · rename_i g
        cases h1
        exact List.mem_of_getLast? g
  · intro mode
    cases mode <;> norm_num [tolLoss, tolFactor, gateBound, exactEx, mkSys, loopP, Sys.N, Sys.C]

end

end Verif.Props
