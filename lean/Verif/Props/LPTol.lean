import Verif.Proofs.LPTol
import Verif.Props.LP
import Verif.Props.Approx
/-!
# C103: `pr_min`, `pr_max`, `max_z_state_action` and `max_y_state_action` with solvers that answer up to a tolerance

C28–C32 describe these functions for a solver that answers with an optimal solution.  Here the answers are only correct up
to `ε` (`Answer.Approx`, Spec/Approx.lean).
-/
set_option linter.unusedSectionVars false

namespace Verif.Props
open Verif.Model Verif.Model.Milp Verif.Proofs Verif.Theory Finset

section
variable {K : Type} [Field K] [LinearOrder K] [IsStrictOrderedRing K]
variable {ρ : Graph.Rnd} {M : Sys K} {il tl fl : String} {rf : RF K}

/-- how far the vectors of `pr_min` and `pr_max` may be from the probabilities if no positive probability of the system is
below `p` -/
def lpTol (M : Sys K) (p ε : K) : K := ε * (1 + M.N * (1 + M.N / p ^ M.N))

theorem phi_close (φ : K →+*o ℝ) {a b d : K} (h : |a - b| ≤ d) : |φ a - φ b| ≤ φ d := by
  obtain ⟨h1, h2⟩ := abs_le.1 h
  have h1 := OrderHomClass.mono φ h1
  have h2 := OrderHomClass.mono φ h2
  rw [map_neg, map_sub] at h1
  rw [map_sub] at h2
  exact abs_le.2 ⟨h1, h2⟩

theorem close_tol (hrf : RF.make ρ M il tl fl false = .ok rf) {p ε : K} (hp : 0 < p) (hε : 0 ≤ ε) {a b : K}
    (h : |a - b| ≤ ε + rf.N * (ε * (1 + M.N / p ^ M.N))) : |a - b| ≤ lpTol M p ε := by
  refine h.trans ?_
  have hN : (rf.N : K) ≤ M.N := by
    have : rf.N ≤ M.N := by rw [← (make_fields hrf).1]; unfold RF.N; omega
    exact_mod_cast this
  have h0 : 0 ≤ ε * (1 + M.N / p ^ M.N) := by positivity
  have := mul_le_mul_of_nonneg_right hN h0
  unfold lpTol
  linarith

/-- **C103 (partial, `pr_min`).** The program is built; a solver that is correct up to `ε` can neither call it infeasible nor
unbounded, and if it answers "optimal" then the vector has an entry for every state, which differs from the minimal probability by at most
`lpTol M p ε`, where `p` is a lower bound of the positive probabilities. -/
theorem C103_pr_min_partial (hM : M.WF) (hrf : RF.make ρ M il tl fl false = .ok rf) (φ : K →+*o ℝ)
    {i : Nat} (hi : i ∈ M.labelled il) (hit : i ∉ M.labelled tl) {p ε : K} (hp : 0 < p) (hmin : MinProb M p) (hε : 0 ≤ ε) :
    ∃ lp, rf.maxZLP = .ok lp ∧ ∀ a : Answer K, a.Approx ε lp → a.status ≠ .infeasible ∧ a.status ≠ .unbounded ∧
      (a.status = .optimal → a.vec.length = M.N - 2 ∧
        ∀ s < M.N - 2, |φ (a.vec.getD s 0) - M.prMin φ (M.labelled tl) s| ≤ φ (lpTol M p ε)) := by
  have h := rfok_built hM hrf
  have hin := initial_lt hM hrf hi hit
  have e0 : rf.N = M.N - 2 := by rw [← (make_fields hrf).1]; rfl
  obtain ⟨lp, h1, ⟨v, hv⟩, hV⟩ := C28_pr_min hM hrf φ hi hit
  have hV := hV v hv
  obtain ⟨lp', h1', hmax, hobj, -⟩ := maxZLP_ok hin
  rw [h1] at h1'
  cases h1'
  refine ⟨lp, h1, fun a ha => ⟨fun hs => ha.infeasible hs v hv.1, fun hs => ?_, fun hs => ⟨?_, fun s hsN => ?_⟩⟩⟩
  · obtain ⟨x, hx, hB⟩ := ha.unbounded hs (lp.objVal v + 1)
    have := hv.2 x hx
    rw [hmax, if_pos rfl] at this hB
    linarith
  · rw [ha.length hs, ← e0]
    obtain ⟨m, rhs, hz⟩ := farkZ_some (0 : K) hin
    simp only [RF.maxZLP, hz, bind, Except.bind] at h1
    split at h1
    · cases h1
    rename_i lp0 h0
    obtain ⟨k0, -, k2, -⟩ := fromCoefficients_inv h0
    rw [addConstraints_vars _ k0 h1, k2, (farkZ_rows hz).2.2.1]
  · obtain ⟨r1, -, r3, -⟩ := maxZLP_tol h1 (ha.feasible hs)
    obtain ⟨q0, q1, q2, q3, q4⟩ := core_gap hM hrf φ hp hmin
    have hz := (h.zrow_le_iff φ (fun j => a.vec.getD j 0) ε).1 fun k hk => by linarith [r1 k hk]
    have hle : ∀ s < rf.N, a.vec.getD s 0 ≤ v s + ε * (1 + M.N / p ^ M.N) := by
      intro s hsr
      have key := Core.cert_le_cut_Vmin_tol (U := Set.univ) (h.sub φ) q0 q1 q2 q3 q4 ((phi_nonneg φ).2 hε)
        (z := RFOK.vec (rf := rf) φ fun j => a.vec.getD j 0) hz
        (fun s hs => OrderHomClass.mono φ (r3 s.1 s.2 ((h.inEC_iff φ s).1 hs))) (fun s hs => absurd (Set.mem_univ s) hs) ⟨s, hsr⟩
      rw [cut_univ, ← prMin_core hM hrf φ ⟨s, hsr⟩, ← hV s (by omega)] at key
      rw [← (phi_strict φ).le_iff_le]
      simp only [map_add, map_mul, map_one, map_div₀, map_pow, map_natCast]
      exact key
    have hsum := ha.best hs v hv.1
    rw [hmax, if_pos rfl, ha.value hs, hobj, hobj] at hsum
    rw [← hV s hsN]
    exact phi_close φ (close_tol hrf hp hε (close_of_sum (by positivity) hε hle hsum s (by omega)))

/-- **C103 (partial, `pr_max`).** The same for `pr_max` and the maximal probabilities. -/
theorem C103_pr_max_partial (hM : M.WF) (hrf : RF.make ρ M il tl fl false = .ok rf) (φ : K →+*o ℝ)
    {i : Nat} (hi : i ∈ M.labelled il) (hit : i ∉ M.labelled tl) {p ε : K} (hp : 0 < p) (hmin : MinProb M p) (hε : 0 ≤ ε) :
    ∃ lp, rf.prMaxLP = .ok lp ∧ ∀ a : Answer K, a.Approx ε lp → a.status ≠ .infeasible ∧ a.status ≠ .unbounded ∧
      (a.status = .optimal → a.vec.length = M.N - 2 ∧
        ∀ s < M.N - 2, |φ (a.vec.getD s 0) - M.prMax φ (M.labelled tl) s| ≤ φ (lpTol M p ε)) := by
  have h := rfok_built hM hrf
  have hin := initial_lt hM hrf hi hit
  have e0 : rf.N = M.N - 2 := by rw [← (make_fields hrf).1]; rfl
  obtain ⟨lp, h1, ⟨v, hv⟩, hV⟩ := C29_pr_max hM hrf φ hi hit
  have hV := hV v hv
  obtain ⟨lp', h1', hmax, hobj, -⟩ := prMaxLP_ok hin
  rw [h1] at h1'
  cases h1'
  refine ⟨lp, h1, fun a ha => ⟨fun hs => ha.infeasible hs v hv.1, fun hs => ?_, fun hs => ⟨?_, fun s hsN => ?_⟩⟩⟩
  · obtain ⟨x, hx, hB⟩ := ha.unbounded hs (lp.objVal v - 1)
    have := hv.2 x hx
    rw [hmax, if_neg (by simp)] at this hB
    linarith
  · rw [ha.length hs, ← e0]
    obtain ⟨m, rhs, hz⟩ := farkZ_some (1 : K) hin
    simp only [RF.prMaxLP, hz, bind, Except.bind] at h1
    split at h1
    · cases h1
    rename_i lp0 h0
    obtain ⟨k0, -, k2, -⟩ := fromCoefficients_inv h0
    rw [addConstraints_vars _ k0 h1, k2, (farkZ_rows hz).2.2.1]
  · obtain ⟨r1, -, -⟩ := prMaxLP_tol h1 (ha.feasible hs)
    obtain ⟨q0, q1, q2, q3, q4⟩ := core_gap hM hrf φ hp hmin
    have hz := (h.zrow_ge_iff φ (fun j => a.vec.getD j 0) ε).1 r1
    have hle : ∀ s < rf.N, v s ≤ a.vec.getD s 0 + ε * (1 + M.N / p ^ M.N) := by
      intro s hsr
      obtain ⟨w, -, w1, w2⟩ := Core.exists_tol_max (h.sub φ) q0 q1 q2 q3 q4 (RFOK.live' φ (rflive_built hM hrf))
      have key := w2 (φ ε) (RFOK.vec (rf := rf) φ fun j => a.vec.getD j 0) ((phi_nonneg φ).2 hε) hz ⟨s, hsr⟩
      rw [← prMax_core hM hrf φ ⟨s, hsr⟩, ← hV s (by omega)] at key
      rw [← (phi_strict φ).le_iff_le]
      simp only [map_add, map_mul, map_one, map_div₀, map_pow, map_natCast]
      have h2 := mul_le_mul_of_nonneg_left (w1 ⟨s, hsr⟩) ((phi_nonneg φ).2 hε)
      have h3 := (phi_nonneg φ).2 hε
      have h4 : RFOK.vec (rf := rf) φ (fun j => a.vec.getD j 0) ⟨s, hsr⟩ = φ (a.vec.getD s 0) := rfl
      rw [h4] at key
      linarith
    have hsum := ha.best hs v hv.1
    rw [hmax, if_neg (by simp), ha.value hs, hobj, hobj] at hsum
    rw [← hV s hsN]
    refine phi_close φ (close_tol hrf hp hε ?_)
    rw [abs_sub_comm]
    exact close_of_sum (by positivity) hε hle hsum s (by omega)

/-- **C103 (partial, `max_z_state_action`).** The one-step lookahead is off by no more than the vector it is computed from. -/
theorem C103_max_z_state_action_partial (hM : M.WF) (hrf : RF.make ρ M il tl fl false = .ok rf) (φ : K →+*o ℝ)
    {i : Nat} (hi : i ∈ M.labelled il) (hit : i ∉ M.labelled tl) {p ε : K} (hp : 0 < p) (hmin : MinProb M p) (hε : 0 ≤ ε)
    {lp : Milp K} (hlp : rf.maxZLP = .ok lp) {a : Answer K} (ha : a.Approx ε lp) (hs : a.status = .optimal) :
    ∀ k < M.C - 2, |φ (rf.maxZStateAction (fun j => a.vec.getD j 0) k) - (φ (M.P.get k (M.N - 2)) +
      ∑ d ∈ range (M.N - 2), φ (M.P.get k d) * M.prMin φ (M.labelled tl) d)| ≤ φ (lpTol M p ε) := by
  intro k hk
  obtain ⟨lp', h1, h2⟩ := C103_pr_min_partial hM hrf φ hi hit hp hmin hε
  rw [hlp] at h1
  cases h1
  obtain ⟨-, h3⟩ := (h2 a ha).2.2 hs
  have h := rfok_built hM hrf
  have e0 := (make_fields hrf).1
  subst e0
  have e : φ (rf.maxZStateAction (fun j => a.vec.getD j 0) k) - (φ (rf.sys.P.get k (rf.sys.N - 2)) +
      ∑ d ∈ range (rf.sys.N - 2), φ (rf.sys.P.get k d) * rf.sys.prMin φ (rf.sys.labelled tl) d) =
      ∑ d ∈ range (rf.sys.N - 2), φ (rf.sys.P.get k d) * (φ (a.vec.getD d 0) - rf.sys.prMin φ (rf.sys.labelled tl) d) := by
    unfold RF.maxZStateAction
    rw [list_sum_range, map_add, map_sum]
    simp only [mul_sub, Finset.sum_sub_distrib, map_mul]
    show (∑ d ∈ range (rf.sys.N - 2), φ (rf.sys.P.get k d) * φ (a.vec.getD d 0)) + φ (rf.sys.P.get k (rf.sys.N - 2)) - _ = _
    ring
  have hd0 : 0 ≤ φ (lpTol rf.sys p ε) := (phi_nonneg φ).2 (by unfold lpTol; positivity)
  rw [e]
  calc _ ≤ ∑ d ∈ range (rf.sys.N - 2), φ (rf.sys.P.get k d) * φ (lpTol rf.sys p ε) := by
        refine (Finset.abs_sum_le_sum_abs _ _).trans (Finset.sum_le_sum fun d hd => ?_)
        rw [abs_mul, abs_of_nonneg ((phi_nonneg φ).2 (WF.get_nonneg h.wf k d))]
        exact mul_le_mul_of_nonneg_left (h3 d (Finset.mem_range.1 hd)) ((phi_nonneg φ).2 (WF.get_nonneg h.wf k d))
    _ ≤ 1 * φ (lpTol rf.sys p ε) := by
        rw [← Finset.sum_mul]
        refine mul_le_mul_of_nonneg_right ?_ hd0
        have e1 := RFOK.row_sum h φ (RFOK.lt_C (rf := rf) (i := k) hk)
        have g1 := (phi_nonneg φ).2 (RFOK.b_nonneg h k)
        have g2 := (phi_nonneg φ).2 (WF.get_nonneg h.wf k (rf.sys.N - 1))
        rw [sum_fin_range]
        have e2 : ∑ u : Fin (rf.sys.N - 2), φ (rf.sys.P.get k u.1) = ∑ u : Fin rf.N, φ (rf.P k u.1) := rfl
        rw [e2]
        linarith
    _ = _ := one_mul _

/-- **C103 (`max_y_state_action`).** The program is built; a solver that is correct up to `ε` can neither call it infeasible nor
unbounded, and if it answers "optimal" then no entry is below `-ε` and the flow into the target differs from the maximal
probability by at most `ε * (M.N + 2 * M.C)` - whatever the probabilities are. -/
theorem C103_max_y (hM : M.WF) (hrf : RF.make ρ M il tl fl false = .ok rf) (φ : K →+*o ℝ)
    {i : Nat} (hi : i ∈ M.labelled il) (hit : i ∉ M.labelled tl) {ε : K} (hε : 0 ≤ ε) :
    ∃ lp, rf.maxYLP = .ok lp ∧ ∀ a : Answer K, a.Approx ε lp → a.status ≠ .infeasible ∧ a.status ≠ .unbounded ∧
      (a.status = .optimal → a.vec.length = M.C - 2 ∧ (∀ k < M.C - 2, -ε ≤ a.vec.getD k 0) ∧
        |φ (∑ k ∈ range (M.C - 2), M.P.get k (M.N - 2) * a.vec.getD k 0) - M.prMax φ (M.labelled tl) i| ≤ φ (ε * (M.N + 2 * M.C))) := by
  have h := rfok_built hM hrf
  have hin := initial_lt hM hrf hi hit
  obtain ⟨lp, h1, ⟨v, hv⟩, hV⟩ := C30_max_y hM hrf φ hi hit
  obtain ⟨-, hV⟩ := hV v hv
  obtain ⟨lp', h1', hmax, hobj, -⟩ := maxYLP_ok hin
  rw [h1] at h1'
  cases h1'
  have e0 := (make_fields hrf).1
  refine ⟨lp, h1, fun a ha => ⟨fun hs => ha.infeasible hs v hv.1, fun hs => ?_, fun hs => ?_⟩⟩
  · obtain ⟨x, hx, hB⟩ := ha.unbounded hs (lp.objVal v + 1)
    have := hv.2 x hx
    rw [hmax, if_pos rfl] at this hB
    linarith
  obtain ⟨r1, r2⟩ := maxYLP_tol h1 (ha.feasible hs)
  refine ⟨?_, fun k hk => r2 k (by rw [RF.C, e0]; exact hk), ?_⟩
  · rw [ha.length hs]
    obtain ⟨m, rhs, hz⟩ := farkY_some (0 : K) hin
    simp only [RF.maxYLP, hz, bind, Except.bind] at h1
    split at h1
    · cases h1
    rename_i lp0 h0
    obtain ⟨k0, -, k2, -⟩ := fromCoefficients_inv h0
    rw [addConstraints_vars _ k0 h1, k2, (farkY_rows hz).2.2.1, RF.C, e0]
  · have hb := (h.yrow_le_iff φ hin (fun j => a.vec.getD j 0) ε).1 fun j hj => by linarith [r1 j hj]
    have key := Core.gain_le_cut_Vmax_tol (U := Set.univ) (h.sub φ) ((phi_nonneg φ).2 hε)
      (y := RFOK.vecY (rf := rf) φ fun j => a.vec.getD j 0)
      (fun s r _ => by
        have := OrderHomClass.mono φ (r2 r.1 r.2)
        rwa [map_neg] at this)
      (fun s r _ hs => absurd (Set.mem_univ s) hs) (i := ⟨rf.initial, hin⟩) hb
    have hcard : ∑ s, (((h.core φ).rows s).card : ℝ) = rf.C := by
      have := h.sum_rows φ fun _ => (1 : ℝ)
      simpa using this
    have e := prMax_core hM hrf φ ⟨rf.initial, hin⟩
    simp only at e
    have ei := initial_eq hM hrf hi
    rw [← RFOK.ygain_eq, hcard, Fintype.card_fin, cut_univ, ← e, ← ei] at key
    have hsum := ha.best hs v hv.1
    rw [hmax, if_pos rfl, ha.value hs, hobj, hobj] at hsum
    have hsum := OrderHomClass.mono φ hsum
    rw [map_add] at hsum
    subst e0
    have e1 : φ (ygain rf v) = φ (∑ k ∈ range (rf.sys.C - 2), rf.sys.P.get k (rf.sys.N - 2) * v k) := rfl
    rw [e1, hV] at hsum
    have e2 : φ (∑ k ∈ range (rf.sys.C - 2), rf.sys.P.get k (rf.sys.N - 2) * a.vec.getD k 0) = φ (ygain rf fun j => a.vec.getD j 0) := rfl
    rw [e2]
    have hε' := (phi_nonneg φ).2 hε
    have eW : φ (ε * (rf.sys.N + 2 * rf.sys.C)) = φ ε * (rf.sys.N + 2 * rf.sys.C) := by
      simp only [map_add, map_mul, map_natCast, map_ofNat]
    have hN : rf.N + 2 ≤ rf.sys.N := by have := h.hN; unfold RF.N; omega
    have hC : rf.C ≤ rf.sys.C := by unfold RF.C; omega
    have hN : (rf.N : ℝ) + 2 ≤ rf.sys.N := by exact_mod_cast hN
    have hC : (rf.C : ℝ) ≤ rf.sys.C := by exact_mod_cast hC
    have hC0 : (0 : ℝ) ≤ rf.sys.C := Nat.cast_nonneg _
    have hN0 : (0 : ℝ) ≤ rf.N := Nat.cast_nonneg _
    rw [eW, abs_le]
    constructor <;> nlinarith
end

/-! ### the size of the error -/

/-- state 0 loops with probability 1 - 2e-9 and reaches the target and the fail state with probability 1e-9 in one step -/
def halfP : Dok ℚ := ⟨3, 3, [((0, 0), 1 - 2/10^9), ((0, 1), 1/10^9), ((0, 2), 1/10^9), ((1, 1), 1), ((2, 2), 1)]⟩
def halfEx : Sys ℚ := mkSys halfP loopI (IDict.mk' [("init", [0]), ("goal", [1]), ("fail", [2])] true)

theorem halfEx_wf : halfEx.WF := by
  refine mkSys_wf (by simp [halfP]) ?_ ?_ (by simp [loopI]) (by simp [loopI]) (by decide +kernel)
  · intro e he
    simp only [halfP, List.mem_cons, List.not_mem_nil, or_false] at he
    rcases he with rfl | rfl | rfl | rfl | rfl <;> norm_num [halfP]
  · intro i hi
    have hi : i < 3 := hi
    show ∑ j ∈ Finset.range 3, _ = 1
    interval_cases i <;> simp [Finset.sum_range_succ, halfP, Dok.get, Dict.get?]; norm_num

/-- the program of `pr_min` -/
def slowMin : Milp ℚ where
  be := .pulp
  maximize := true
  vars := [⟨.real, none, none⟩]
  obj := some [(0, 1)]
  cons := [(0, ⟨[(0, 2/10^9)], .le, 1/10^9⟩), (1, ⟨[(0, -1)], .le, 0⟩), (2, ⟨[(0, 1)], .ge, 0⟩), (3, ⟨[(0, 1)], .le, 1⟩)]
  ncon := 4

/-- the program of `pr_max` -/
def slowMax : Milp ℚ where
  be := .pulp
  maximize := false
  vars := [⟨.real, none, none⟩]
  obj := some [(0, 1)]
  cons := [(0, ⟨[(0, 2/10^9)], .ge, 1/10^9⟩), (1, ⟨[(0, -1)], .ge, -1⟩), (2, ⟨[(0, 1)], .ge, 0⟩), (3, ⟨[(0, 1)], .le, 1⟩)]
  ncon := 4

def isLP (e : Except Err (Milp ℚ)) (m : Milp ℚ) : Bool :=
  match e with
  | .ok m' => decide (m' = m)
  | .error _ => false

theorem isLP_iff {e : Except Err (Milp ℚ)} {m : Milp ℚ} (h : isLP e m = true) : e = .ok m := by
  unfold isLP at h
  split at h
  · rw [decide_eq_true_eq] at h; rw [h]
  · cases h

theorem slowMin_feasible (x : Nat → ℚ) : slowMin.Feasible x ↔ 0 ≤ x 0 ∧ x 0 ≤ 1/2 := by
  constructor
  · rintro ⟨-, h⟩
    have a := h (0, ⟨[(0, 2/10^9)], .le, 1/10^9⟩) (by simp [slowMin])
    have b := h (2, ⟨[(0, 1)], .ge, 0⟩) (by simp [slowMin])
    simp only [Constr.sat, CSense.holds, evalE, List.map_cons, List.map_nil, List.sum_cons, List.sum_nil] at a b
    constructor <;> linarith
  · rintro ⟨h0, h1⟩
    refine ⟨fun i v hi => ?_, fun c hc => ?_⟩
    · match i, hi with
      | 0, hi => cases hi; simp [Var.ok]
    · simp only [slowMin, List.mem_cons, List.not_mem_nil, or_false] at hc
      rcases hc with rfl | rfl | rfl | rfl <;> simp only [Constr.sat, CSense.holds, evalE, List.map_cons, List.map_nil,
        List.sum_cons, List.sum_nil] <;> linarith

theorem slowMax_feasible (x : Nat → ℚ) : slowMax.Feasible x ↔ 1/2 ≤ x 0 ∧ x 0 ≤ 1 := by
  constructor
  · rintro ⟨-, h⟩
    have a := h (0, ⟨[(0, 2/10^9)], .ge, 1/10^9⟩) (by simp [slowMax])
    have b := h (3, ⟨[(0, 1)], .le, 1⟩) (by simp [slowMax])
    simp only [Constr.sat, CSense.holds, evalE, List.map_cons, List.map_nil, List.sum_cons, List.sum_nil] at a b
    constructor <;> linarith
  · rintro ⟨h0, h1⟩
    refine ⟨fun i v hi => ?_, fun c hc => ?_⟩
    · match i, hi with
      | 0, hi => cases hi; simp [Var.ok]
    · simp only [slowMax, List.mem_cons, List.not_mem_nil, or_false] at hc
      rcases hc with rfl | rfl | rfl | rfl <;> simp only [Constr.sat, CSense.holds, evalE, List.map_cons, List.map_nil,
        List.sum_cons, List.sum_nil] <;> linarith

theorem slow_obj (x : Nat → ℚ) : slowMin.objVal x = x 0 ∧ slowMax.objVal x = x 0 := by
  constructor <;> simp [objVal, slowMin, slowMax, evalE]

theorem slowMin_opt : slowMin.Optimal fun j => if j = 0 then 1/2 else 0 :=
  ⟨(slowMin_feasible _).2 (by norm_num), fun x hx => by
    rw [show slowMin.maximize = true from rfl, if_pos rfl, (slow_obj _).1, (slow_obj _).1]
    exact ((slowMin_feasible x).1 hx).2⟩

theorem slowMax_opt : slowMax.Optimal fun j => if j = 0 then 1/2 else 0 :=
  ⟨(slowMax_feasible _).2 (by norm_num), fun x hx => by
    rw [show slowMax.maximize = false from rfl, if_neg (by simp), (slow_obj _).2, (slow_obj _).2]
    exact ((slowMax_feasible x).1 hx).1⟩

theorem slow_make : ∃ rf, RF.make exRnd halfEx "init" "goal" "fail" false = .ok rf ∧ rf.maxZLP = .ok slowMin ∧
    rf.prMaxLP = .ok slowMax := by
  obtain ⟨rf, hrf, hp⟩ := exists_of_ok_and (x := RF.make exRnd halfEx "init" "goal" "fail" false)
    (p := fun rf => isLP rf.maxZLP slowMin && isLP rf.prMaxLP slowMax) (by decide +kernel)
  rw [Bool.and_eq_true] at hp
  exact ⟨rf, hrf, isLP_iff hp.1, isLP_iff hp.2⟩

theorem slow_init : 0 ∈ halfEx.labelled "init" := ⟨[0], by decide +kernel, by simp⟩

theorem slow_goal : 0 ∉ halfEx.labelled "goal" := by
  rintro ⟨ss, h1, h2⟩
  have : halfEx.statesByLabel "goal" = .ok [1] := by decide +kernel
  rw [this] at h1
  cases h1
  simp at h2

theorem slow_minProb : MinProb halfEx (1/10^9) := by
  intro i hi j hj
  have hi : i < 3 := hi
  have hj : j < 3 := hj
  show 0 < halfP.get i j → 1/10^9 ≤ halfP.get i j
  interval_cases i <;> interval_cases j <;> simp [halfP, Dok.get, Dict.get?] <;> norm_num

/-- the hypotheses can be met, and then the bounds say something: with answers that are correct up to 1e-40 the entries of both
vectors are within 1e-10 of one half -/
example : ∃ (rf : RF ℚ) (lmin lmax : Milp ℚ) (solver : Milp ℚ → Answer ℚ), RF.make exRnd halfEx "init" "goal" "fail" false = .ok rf ∧
    rf.maxZLP = .ok lmin ∧ rf.prMaxLP = .ok lmax ∧ (∀ m, (solver m).Approx (1/10^40) m) ∧
    (solver lmin).status = .optimal ∧ (solver lmax).status = .optimal ∧
    |ratR ((solver lmin).vec.getD 0 0) - halfEx.prMin ratR (halfEx.labelled "goal") 0| ≤ 1/10^10 ∧
    |ratR ((solver lmax).vec.getD 0 0) - halfEx.prMax ratR (halfEx.labelled "goal") 0| ≤ 1/10^10 := by
  obtain ⟨rf, hrf, g1, g2⟩ := slow_make
  obtain ⟨ex, hex⟩ := exists_exact ℚ
  obtain ⟨lmin, e1, h1⟩ := C103_pr_min_partial halfEx_wf hrf ratR slow_init slow_goal (p := 1/10^9) (ε := 1/10^40) (by norm_num)
    slow_minProb (by norm_num)
  obtain ⟨lmax, e2, h2⟩ := C103_pr_max_partial halfEx_wf hrf ratR slow_init slow_goal (p := 1/10^9) (ε := 1/10^40) (by norm_num)
    slow_minProb (by norm_num)
  have hs : ∀ m, (ex m).Approx (1/10^40) m := fun m => (hex m).toSound.approx (by norm_num)
  rw [g1] at e1; cases e1
  rw [g2] at e2; cases e2
  have hz : ∀ j : Nat, 1 ≤ j → (if j = 0 then (1/2 : ℚ) else 0) = 0 := fun j hj => if_neg (by omega)
  have s1 := (hex slowMin).optimal' ⟨_, slowMin_opt, hz⟩
  have s2 := (hex slowMax).optimal' ⟨_, slowMax_opt, hz⟩
  have hb : ratR (lpTol halfEx (1/10^9) (1/10^40)) ≤ 1/10^10 := by
    have : halfEx.N = 3 := by decide +kernel
    unfold lpTol
    rw [this]
    norm_num
  exact ⟨rf, slowMin, slowMax, ex, hrf, g1, g2, hs, s1, s2, (((h1 _ (hs _)).2.2 s1).2 0 (by decide +kernel)).trans hb,
    (((h2 _ (hs _)).2.2 s2).2 0 (by decide +kernel)).trans hb⟩

/-- the program of `max_y_state_action` -/
def slowY : Milp ℚ where
  be := .pulp
  maximize := true
  vars := [⟨.real, none, none⟩]
  obj := some [(0, 1/10^9)]
  cons := [(0, ⟨[(0, 2/10^9)], .le, 1⟩), (1, ⟨[(0, -1/10^9)], .le, 0⟩), (2, ⟨[(0, 1)], .ge, 0⟩)]
  ncon := 3

/-- `max_y_state_action` does not suffer from the slow loop: an answer that is not exact, but correct up to 1e-9 -/
example : ∃ rf, RF.make exRnd halfEx "init" "goal" "fail" false = .ok rf ∧ rf.maxYLP = .ok slowY ∧
    (⟨.optimal, [5 * 10^8 + 1/4], 1/2 + 1/(4 * 10^9)⟩ : Answer ℚ).Approx (1/10^9) slowY ∧
    |ratR ((5 * 10^8 + 1/4) / 10^9) - halfEx.prMax ratR (halfEx.labelled "goal") 0| ≤ 9/10^9 := by
  obtain ⟨rf, hrf, hp⟩ := exists_of_ok_and (x := RF.make exRnd halfEx "init" "goal" "fail" false)
    (p := fun rf => isLP rf.maxYLP slowY) (by decide +kernel)
  have hy := isLP_iff hp
  have hA : (⟨.optimal, [5 * 10^8 + 1/4], 1/2 + 1/(4 * 10^9)⟩ : Answer ℚ).Approx (1/10^9) slowY :=
    { feasible := fun _ => by
        refine ⟨fun i v hi => ?_, fun c hc => ?_⟩
        · match i, hi with
          | 0, hi => cases hi; exact ⟨fun l h => (nomatch h), fun l h => (nomatch h), trivial⟩
        · simp only [slowY, List.mem_cons, List.not_mem_nil, or_false] at hc
          rcases hc with rfl | rfl | rfl <;> norm_num [Constr.satTol, CSense.holdsTol, evalE]
      length := fun _ => rfl
      value := fun _ => by norm_num [slowY, objVal, evalE]
      best := fun _ x hx => by
        have a := hx.2 (0, ⟨[(0, 2/10^9)], .le, 1⟩) (by simp [slowY])
        simp only [Constr.sat, CSense.holds, evalE, List.map_cons, List.map_nil, List.sum_cons, List.sum_nil] at a
        simp only [slowY, objVal, evalE, Option.getD_some, List.map_cons, List.map_nil, List.sum_cons, List.sum_nil, if_true]
        linarith
      infeasible := fun g => nomatch g
      unbounded := fun g => nomatch g }
  obtain ⟨lp, e, h⟩ := C103_max_y halfEx_wf hrf ratR slow_init slow_goal (ε := 1/10^9) (by norm_num)
  rw [hy] at e
  cases e
  refine ⟨rf, hrf, hy, hA, ?_⟩
  have := ((h _ hA).2.2 rfl).2.2
  have hN : halfEx.N = 3 := by decide +kernel
  have hC : halfEx.C = 3 := by decide +kernel
  have e1 : halfEx.P.get 0 1 = 1/10^9 := by decide +kernel
  rw [hN, hC, show 3 - 2 = 1 from rfl, Finset.sum_range_one, e1] at this
  norm_num at this ⊢
  exact this

/-- **C103 (false as it stands).** A chain whose state reaches the target with probability one half, and a solver whose answers are correct up
to 1e-9, the tolerance of milp.py: `pr_min` may give 1 for that state and `pr_max` may give 0. -/
theorem C103_false : ∃ (rf : RF ℚ) (lmin lmax : Milp ℚ) (solver : Milp ℚ → Answer ℚ),
    RF.make exRnd halfEx "init" "goal" "fail" false = .ok rf ∧ rf.maxZLP = .ok lmin ∧ rf.prMaxLP = .ok lmax ∧
    (∀ m, (solver m).Approx (1/10^9) m) ∧ (solver lmin).status = .optimal ∧ (solver lmax).status = .optimal ∧
    halfEx.prMin ratR (halfEx.labelled "goal") 0 = 1/2 ∧ halfEx.prMax ratR (halfEx.labelled "goal") 0 = 1/2 ∧
    (solver lmin).vec = [1] ∧ (solver lmax).vec = [0] := by
  classical
  obtain ⟨rf, hrf, hmin, hmax⟩ := slow_make
  have hi := slow_init
  have hit := slow_goal
  have hneq : slowMax ≠ slowMin := by decide +kernel
  obtain ⟨ex, hex⟩ := exists_exact ℚ
  have hA : (⟨.optimal, [1], 1⟩ : Answer ℚ).Approx (1/10^9) slowMin :=
    { feasible := fun _ => by
        refine ⟨fun i v hi => ?_, fun c hc => ?_⟩
        · match i, hi with
          | 0, hi => cases hi; exact ⟨fun l h => (nomatch h), fun l h => (nomatch h), trivial⟩
        · simp only [slowMin, List.mem_cons, List.not_mem_nil, or_false] at hc
          rcases hc with rfl | rfl | rfl | rfl <;> norm_num [Constr.satTol, CSense.holdsTol, evalE]
      length := fun _ => rfl
      value := fun _ => by rw [(slow_obj _).1]; rfl
      best := fun _ x hx => by
        have := ((slowMin_feasible x).1 hx).2
        rw [(slow_obj x).1, show slowMin.maximize = true from rfl, if_pos rfl]
        show x 0 ≤ 1 + 1/10^9
        linarith
      infeasible := fun g => nomatch g
      unbounded := fun g => nomatch g }
  have hB : (⟨.optimal, [0], 0⟩ : Answer ℚ).Approx (1/10^9) slowMax :=
    { feasible := fun _ => by
        refine ⟨fun i v hi => ?_, fun c hc => ?_⟩
        · match i, hi with
          | 0, hi => cases hi; exact ⟨fun l h => (nomatch h), fun l h => (nomatch h), trivial⟩
        · simp only [slowMax, List.mem_cons, List.not_mem_nil, or_false] at hc
          rcases hc with rfl | rfl | rfl | rfl <;> norm_num [Constr.satTol, CSense.holdsTol, evalE]
      length := fun _ => rfl
      value := fun _ => by rw [(slow_obj _).2]; rfl
      best := fun _ x hx => by
        have := ((slowMax_feasible x).1 hx).1
        rw [(slow_obj x).2, show slowMax.maximize = false from rfl, if_neg (by simp)]
        show 0 ≤ x 0 + 1/10^9
        linarith
      infeasible := fun g => nomatch g
      unbounded := fun g => nomatch g }
  refine ⟨rf, slowMin, slowMax, fun m => if m = slowMin then ⟨.optimal, [1], 1⟩ else if m = slowMax then ⟨.optimal, [0], 0⟩ else ex m,
    hrf, hmin, hmax, fun m => ?_, by simp, by simp [hneq], ?_, ?_, by simp, by simp [hneq]⟩
  · by_cases h1 : m = slowMin
    · subst h1; simpa using hA
    · by_cases h2 : m = slowMax
      · subst h2; simpa [h1] using hB
      · simp only [if_neg h1, if_neg h2]; exact (hex m).toSound.approx (by norm_num)
  · obtain ⟨lp, e, -, h2⟩ := C28_pr_min halfEx_wf hrf ratR hi hit
    rw [hmin] at e
    cases e
    have := h2 _ slowMin_opt 0 (by decide +kernel)
    rw [← this]
    simp
  · obtain ⟨lp, e, -, h2⟩ := C29_pr_max halfEx_wf hrf ratR hi hit
    rw [hmax] at e
    cases e
    have := h2 _ slowMax_opt 0 (by decide +kernel)
    rw [← this]
    simp

end Verif.Props
