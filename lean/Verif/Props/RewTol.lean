import Verif.Proofs.RewTol
import Verif.Props.Reward
import Verif.Props.LPTol
/-!
# C112: `rew_min`, `rew_max`, `max_z_state_action` and `max_y_state_action` of reward forms with solvers that answer up to a tolerance

C50 describes these functions for a solver that answers with an optimal solution.  Here the answers are only correct up
to `ε` (`Answer.Approx`, Spec/Approx.lean).
-/
set_option linter.unusedSectionVars false

namespace Verif.Props
open Verif.Model Verif.Model.Milp Verif.Spec Verif.Proofs Verif.Theory Finset

section
variable {K : Type} [Field K] [LinearOrder K] [IsStrictOrderedRing K]
variable {M : Sys K} {ρ ρ' : Graph.Rnd} {il tl : String} {res : RRF.Result K}

/-- how far the vectors of `rew_min` and `rew_max` may be from the expected rewards if no positive probability of the
system is below `p`; the rewards do not matter -/
def rewTol (M : Sys K) (p ε : K) : K := ε * (1 + M.N * (M.N / p ^ M.N))

theorem close_rewTol {N : Nat} {p ε : K} (hp : 0 < p) (hε : 0 ≤ ε) {M : Sys K} (hN : N ≤ M.N) {a b : K}
    (h : |a - b| ≤ ε + N * (ε * (M.N / p ^ M.N))) : |a - b| ≤ rewTol M p ε := by
  refine h.trans ?_
  have hN : (N : K) ≤ M.N := by exact_mod_cast hN
  have h0 : 0 ≤ ε * (M.N / p ^ M.N) := by positivity
  have := mul_le_mul_of_nonneg_right hN h0
  unfold rewTol
  linarith

/-- **C112 (`rew_min`).** The program is built; a solver that is correct up to `ε` can neither call it infeasible nor
unbounded, and if it answers "optimal" then the vector has an entry for every state, which differs from the minimal expected
reward by at most `rewTol`, where `p` is a lower bound of the positive probabilities. -/
theorem C112_rew_min (hM : RewardInput M) (h : RRF.reduce ρ ρ' M il tl = .ok res) (φ : K →+*o ℝ) {p ε : K} (hp : 0 < p)
    (hmin : MinProb res.rrf.rf.sys p) (hε : 0 ≤ ε) :
    ∃ lp, res.rrf.maxZLP = .ok lp ∧ ∀ a : Answer K, a.Approx ε lp → a.status ≠ .infeasible ∧ a.status ≠ .unbounded ∧
      (a.status = .optimal → a.vec.length = res.rrf.rf.sys.N - 2 ∧ ∀ s < res.rrf.rf.sys.N - 2,
        |φ (a.vec.getD s 0) - res.rrf.rf.sys.rewMin φ (res.rrf.rf.sys.labelled "rf_target") s| ≤
          φ (rewTol res.rrf.rf.sys p ε)) := by
  have b := rew_built hM h
  obtain ⟨lp, h1, ⟨v, hv⟩, hV⟩ := C50_rew_min hM h φ
  have hV := hV v hv
  obtain ⟨lp', h1', hmax, hobj, -⟩ := rmaxZLP_ok b.init
  rw [h1] at h1'
  cases h1'
  refine ⟨lp, h1, fun a ha => ⟨fun hs => ha.infeasible hs v hv.1, fun hs => ?_, fun hs => ⟨?_, fun s hsN => ?_⟩⟩⟩
  · obtain ⟨x, hx, hB⟩ := ha.unbounded hs (lp.objVal v + 1)
    have := hv.2 x hx
    rw [hmax, if_pos rfl] at this hB
    linarith
  · rw [ha.length hs, (rmaxZLP_tol h1 (ha.feasible hs)).2.2]
    rfl
  · obtain ⟨r1, -, -⟩ := rmaxZLP_tol h1 (ha.feasible hs)
    obtain ⟨B, hB⟩ := b.ok.exists_bound φ
    obtain ⟨w, w0, w1, w2⟩ := b.ok.exists_w φ hp hmin
    have hle : ∀ s < res.rrf.rf.N, a.vec.getD s 0 ≤ v s + ε * (res.rrf.rf.sys.N / p ^ res.rrf.rf.sys.N) := by
      intro s hsr
      have key := Core.le_Vmin_transient_tol (b.ok.qsub φ) (b.ok.transient φ) hB w2 ((phi_nonneg φ).2 hε)
        (z := RFOK.vec (rf := res.rrf.rf) φ fun j => a.vec.getD j 0) (b.ok.zrow_le_tol φ r1) ⟨s, hsr⟩
      rw [← b.rewMin_eq φ ⟨s, hsr⟩, ← hV s hsr] at key
      have h2 := mul_le_mul_of_nonneg_left (w1 ⟨s, hsr⟩) ((phi_nonneg φ).2 hε)
      rw [← (phi_strict φ).le_iff_le, map_add, map_mul]
      exact key.trans (by linarith)
    have hsum := ha.best hs v hv.1
    rw [hmax, if_pos rfl, ha.value hs, hobj, hobj] at hsum
    rw [← hV s hsN]
    exact phi_close φ (close_rewTol hp hε (by unfold RF.N; omega) (close_of_sum (by positivity) hε hle hsum s hsN))

/-- **C112 (`rew_max`).** The same for `rew_max` and the maximal expected rewards. -/
theorem C112_rew_max (hM : RewardInput M) (h : RRF.reduce ρ ρ' M il tl = .ok res) (φ : K →+*o ℝ) {p ε : K} (hp : 0 < p)
    (hmin : MinProb res.rrf.rf.sys p) (hε : 0 ≤ ε) :
    ∃ lp, res.rrf.rewMaxLP = .ok lp ∧ ∀ a : Answer K, a.Approx ε lp → a.status ≠ .infeasible ∧ a.status ≠ .unbounded ∧
      (a.status = .optimal → a.vec.length = res.rrf.rf.sys.N - 2 ∧ ∀ s < res.rrf.rf.sys.N - 2,
        |φ (a.vec.getD s 0) - res.rrf.rf.sys.rewMax φ (res.rrf.rf.sys.labelled "rf_target") s| ≤
          φ (rewTol res.rrf.rf.sys p ε)) := by
  have b := rew_built hM h
  obtain ⟨lp, h1, ⟨v, hv⟩, hV⟩ := C50_rew_max hM h φ
  have hV := hV v hv
  obtain ⟨lp', h1', hmax, hobj, -⟩ := rewMaxLP_ok b.ok.len
  rw [h1] at h1'
  cases h1'
  refine ⟨lp, h1, fun a ha => ⟨fun hs => ha.infeasible hs v hv.1, fun hs => ?_, fun hs => ⟨?_, fun s hsN => ?_⟩⟩⟩
  · obtain ⟨x, hx, hB⟩ := ha.unbounded hs (lp.objVal v - 1)
    have := hv.2 x hx
    rw [hmax, if_neg (by simp)] at this hB
    linarith
  · rw [ha.length hs, (rewMaxLP_tol h1 (ha.feasible hs)).2.2]
    rfl
  · obtain ⟨r1, -, -⟩ := rewMaxLP_tol h1 (ha.feasible hs)
    obtain ⟨B, hB⟩ := b.ok.exists_bound φ
    obtain ⟨w, w0, w1, w2⟩ := b.ok.exists_w φ hp hmin
    have hle : ∀ s < res.rrf.rf.N, v s ≤ a.vec.getD s 0 + ε * (res.rrf.rf.sys.N / p ^ res.rrf.rf.sys.N) := by
      intro s hsr
      have key := Core.Vmax_le_transient_tol (b.ok.qsub φ) (b.ok.transient φ) hB w2 ((phi_nonneg φ).2 hε)
        (z := RFOK.vec (rf := res.rrf.rf) φ fun j => a.vec.getD j 0) (b.ok.zrow_ge_tol φ r1) ⟨s, hsr⟩
      rw [← b.rewMax_eq φ ⟨s, hsr⟩, ← hV s hsr] at key
      have h2 := mul_le_mul_of_nonneg_left (w1 ⟨s, hsr⟩) ((phi_nonneg φ).2 hε)
      have h4 : RFOK.vec (rf := res.rrf.rf) φ (fun j => a.vec.getD j 0) ⟨s, hsr⟩ = φ (a.vec.getD s 0) := rfl
      rw [h4] at key
      rw [← (phi_strict φ).le_iff_le, map_add, map_mul]
      exact key.trans (by linarith)
    have hsum := ha.best hs v hv.1
    rw [hmax, if_neg (by simp), ha.value hs, hobj, hobj] at hsum
    rw [← hV s hsN]
    refine phi_close φ (close_rewTol hp hε (N := res.rrf.rf.N) (by unfold RF.N; omega) ?_)
    rw [abs_sub_comm]
    exact close_of_sum (by positivity) hε hle hsum s hsN

/-- **C112 (`max_z_state_action`).** The one-step lookahead is off by no more than the vector it is computed from. -/
theorem C112_max_z_state_action (hM : RewardInput M) (h : RRF.reduce ρ ρ' M il tl = .ok res) (φ : K →+*o ℝ) {p ε : K}
    (hp : 0 < p) (hmin : MinProb res.rrf.rf.sys p) (hε : 0 ≤ ε) {lp : Milp K} (hlp : res.rrf.maxZLP = .ok lp)
    {a : Answer K} (ha : a.Approx ε lp) (hs : a.status = .optimal) :
    ∀ k < res.rrf.rf.sys.C - 2, |φ (res.rrf.maxZStateAction (fun j => a.vec.getD j 0) k) -
      (res.rrf.rf.sys.rewardAt φ k + ∑ d ∈ range (res.rrf.rf.sys.N - 2), φ (res.rrf.rf.sys.P.get k d) *
        res.rrf.rf.sys.rewMin φ (res.rrf.rf.sys.labelled "rf_target") d)| ≤ φ (rewTol res.rrf.rf.sys p ε) := by
  intro k hk
  have b := rew_built hM h
  obtain ⟨lp', h1, h2⟩ := C112_rew_min hM h φ hp hmin hε
  rw [hlp] at h1
  cases h1
  obtain ⟨-, h3⟩ := (h2 a ha).2.2 hs
  have ho := b.ok.ok
  have e : φ (res.rrf.maxZStateAction (fun j => a.vec.getD j 0) k) -
      (res.rrf.rf.sys.rewardAt φ k + ∑ d ∈ range (res.rrf.rf.sys.N - 2), φ (res.rrf.rf.sys.P.get k d) *
        res.rrf.rf.sys.rewMin φ (res.rrf.rf.sys.labelled "rf_target") d) =
      ∑ d ∈ range (res.rrf.rf.sys.N - 2), φ (res.rrf.rf.sys.P.get k d) * (φ (a.vec.getD d 0) -
        res.rrf.rf.sys.rewMin φ (res.rrf.rf.sys.labelled "rf_target") d) := by
    unfold RRF.maxZStateAction
    rw [list_sum_range, add_comm, ← b.rew_at φ hk, map_add, map_sum]
    simp only [mul_sub, Finset.sum_sub_distrib, map_mul]
    show φ (res.rrf.rew.getD k 0) + (∑ d ∈ range (res.rrf.rf.sys.N - 2), φ (res.rrf.rf.sys.P.get k d) * φ (a.vec.getD d 0)) - _ = _
    ring
  have hd0 : 0 ≤ φ (rewTol res.rrf.rf.sys p ε) := (phi_nonneg φ).2 (by unfold rewTol; positivity)
  rw [e]
  calc _ ≤ ∑ d ∈ range (res.rrf.rf.sys.N - 2), φ (res.rrf.rf.sys.P.get k d) * φ (rewTol res.rrf.rf.sys p ε) := by
        refine (Finset.abs_sum_le_sum_abs _ _).trans (Finset.sum_le_sum fun d hd => ?_)
        rw [abs_mul, abs_of_nonneg ((phi_nonneg φ).2 (WF.get_nonneg ho.wf k d))]
        exact mul_le_mul_of_nonneg_left (h3 d (Finset.mem_range.1 hd)) ((phi_nonneg φ).2 (WF.get_nonneg ho.wf k d))
    _ ≤ 1 * φ (rewTol res.rrf.rf.sys p ε) := by
        rw [← Finset.sum_mul]
        refine mul_le_mul_of_nonneg_right ?_ hd0
        have e1 := RFOK.row_sum ho φ (RFOK.lt_C (rf := res.rrf.rf) (i := k) hk)
        have g1 := (phi_nonneg φ).2 (RFOK.b_nonneg ho k)
        have g2 := (phi_nonneg φ).2 (WF.get_nonneg ho.wf k (res.rrf.rf.sys.N - 1))
        rw [sum_fin_range]
        have e2 : ∑ u : Fin (res.rrf.rf.sys.N - 2), φ (res.rrf.rf.sys.P.get k u.1) =
          ∑ u : Fin res.rrf.rf.N, φ (res.rrf.rf.P k u.1) := rfl
        rw [e2]
        linarith
    _ = _ := one_mul _

/-- **C112 (`max_y_state_action`).** The program is built; a solver that is correct up to `ε` can neither call it infeasible nor
unbounded, and if it answers "optimal" then no entry is below `-ε` and the reward collected by the flow differs from the maximal
expected reward of the initial state by at most `ε * (1 + (N + C) * B)`, where `B` bounds the maximal expected rewards of all states. -/
theorem C112_max_y (hM : RewardInput M) (h : RRF.reduce ρ ρ' M il tl = .ok res) (φ : K →+*o ℝ) {ε : K} (hε : 0 ≤ ε) {B : ℝ}
    (hB : ∀ s < res.rrf.rf.sys.N - 2, res.rrf.rf.sys.rewMax φ (res.rrf.rf.sys.labelled "rf_target") s ≤ B) :
    ∃ i lp, res.rrf.rf.sys.statesByLabel il = .ok [i] ∧ res.rrf.maxYLP = .ok lp ∧ ∀ a : Answer K, a.Approx ε lp →
      a.status ≠ .infeasible ∧ a.status ≠ .unbounded ∧
      (a.status = .optimal → a.vec.length = res.rrf.rf.sys.C - 2 ∧ (∀ k < res.rrf.rf.sys.C - 2, -ε ≤ a.vec.getD k 0) ∧
        |∑ k ∈ range (res.rrf.rf.sys.C - 2), res.rrf.rf.sys.rewardAt φ k * φ (a.vec.getD k 0) -
          res.rrf.rf.sys.rewMax φ (res.rrf.rf.sys.labelled "rf_target") i| ≤
            φ ε * (1 + (res.rrf.rf.sys.N + res.rrf.rf.sys.C) * B)) := by
  have b := rew_built hM h
  obtain ⟨i, lp, hi, h1, ⟨v, hv⟩, hV⟩ := C50_max_y hM h φ
  obtain ⟨-, hV⟩ := hV v hv
  rw [b.initL] at hi
  cases hi
  obtain ⟨lp', h1', hmax, hobj, -⟩ := rmaxYLP_ok b.init b.ok.len
  rw [h1] at h1'
  cases h1'
  refine ⟨_, lp, b.initL, h1, fun a ha => ⟨fun hs => ha.infeasible hs v hv.1, fun hs => ?_, fun hs => ?_⟩⟩
  · obtain ⟨x, hx, hB⟩ := ha.unbounded hs (lp.objVal v + 1)
    have := hv.2 x hx
    rw [hmax, if_pos rfl] at this hB
    linarith
  obtain ⟨r1, r2, r3⟩ := rmaxYLP_tol h1 (ha.feasible hs)
  refine ⟨by rw [ha.length hs, r3]; rfl, r2, ?_⟩
  have hsumR : ∀ y : Nat → K, φ (rgain res.rrf y) =
      ∑ k ∈ range (res.rrf.rf.sys.C - 2), res.rrf.rf.sys.rewardAt φ k * φ (y k) := by
    intro y
    unfold rgain
    rw [map_sum]
    exact Finset.sum_congr rfl fun k hk => by rw [map_mul, b.rew_at φ (Finset.mem_range.1 hk)]
  obtain ⟨B', hB'⟩ := b.ok.exists_bound φ
  have hb := (RFOK.yrow_le_iff b.ok.ok φ b.init (fun j => a.vec.getD j 0) ε).1 fun j hj => by linarith [r1 j hj]
  have key := Core.gain_le_Vmax_tol (b.ok.qsub φ).toOK hB' ((phi_nonneg φ).2 hε)
    (y := RFOK.vecY (rf := res.rrf.rf) φ fun j => a.vec.getD j 0)
    (fun s r _ => by
      have := OrderHomClass.mono φ (r2 r.1 r.2)
      rwa [map_neg] at this) (i := ⟨res.rrf.rf.initial, b.init⟩) hb (B := B)
    (fun s => by rw [← b.rewMax_eq φ s]; exact hB s.1 s.2)
  have hcard : ∑ s, (((b.ok.core φ).rows s).card : ℝ) = res.rrf.rf.C := by
    simp only [b.ok.rows_eq]
    have := b.ok.ok.sum_rows φ fun _ => (1 : ℝ)
    simpa using this
  have e := b.rewMax_eq φ ⟨_, b.init⟩
  simp only at e
  rw [← b.ok.rgain_eq, hcard, Fintype.card_fin, hsumR, ← e] at key
  have hsum := ha.best hs v hv.1
  rw [hmax, if_pos rfl, ha.value hs, hobj, hobj] at hsum
  have hsum := OrderHomClass.mono φ hsum
  rw [map_add, hsumR, hsumR, hV] at hsum
  have hε' := (phi_nonneg φ).2 hε
  have hB0 : 0 ≤ B := le_trans (by rw [e]; exact Core.Vmax_nonneg (b.ok.qsub φ).toOK hB' _) (hB _ b.init)
  have hN : (res.rrf.rf.N : ℝ) ≤ res.rrf.rf.sys.N := by exact_mod_cast (show res.rrf.rf.N ≤ res.rrf.rf.sys.N by unfold RF.N; omega)
  have hC : (res.rrf.rf.C : ℝ) ≤ res.rrf.rf.sys.C := by exact_mod_cast (show res.rrf.rf.C ≤ res.rrf.rf.sys.C by unfold RF.C; omega)
  have h5 : φ ε * ((res.rrf.rf.N : ℝ) + res.rrf.rf.C) * B ≤ φ ε * (res.rrf.rf.sys.N + res.rrf.rf.sys.C) * B :=
    mul_le_mul_of_nonneg_right (mul_le_mul_of_nonneg_left (add_le_add hN hC) hε') hB0
  have h6 : 0 ≤ φ ε * ((res.rrf.rf.sys.N : ℝ) + res.rrf.rf.sys.C) * B := by positivity
  rw [abs_le]
  constructor <;> linarith
end

/-! ### the size of the error -/

/-- state 0 loops and goes to the target state 1 with probability 1e-9 in each step; each step earns 1e-9 -/
def slowRewP : Dok ℚ := ⟨2, 2, [((0, 0), 1 - 1/10^9), ((0, 1), 1/10^9), ((1, 1), 1)]⟩
def slowRewI : Dict (Nat × Nat) Nat := [((0, 0), 0), ((1, 0), 1)]
def slowRew : Sys ℚ :=
  { mkSys slowRewP slowRewI (IDict.mk' [("start", [0]), ("goal", [1])] true) with rew := some [1/10^9, 0] }

theorem slowRew_input : RewardInput slowRew where
  wf :=
    have w : (mkSys slowRewP slowRewI (IDict.mk' [("start", [0]), ("goal", [1])] true)).WF := by
      refine mkSys_wf (by simp [slowRewP]) ?_ ?_ (by simp [slowRewI]) (by simp [slowRewI]) (by decide +kernel)
      · intro e he
        simp only [slowRewP, List.mem_cons, List.not_mem_nil, or_false] at he
        rcases he with rfl | rfl | rfl <;> norm_num [slowRewP]
      · intro i hi
        have hi : i < 2 := hi
        show ∑ j ∈ Finset.range 2, _ = 1
        interval_cases i <;> simp [Finset.sum_range_succ, slowRewP, Dok.get, Dict.get?]
    ⟨w.nodup, w.range, w.pos, w.sum, w.keys, w.vals, w.graph⟩
  total := by
    intro s hs
    have hs : s < 2 := hs
    have : ∀ s < 2, ∃ e ∈ slowRewI, e.1.1 = s ∧ e.2 < 2 := by decide +kernel
    obtain ⟨⟨⟨s', a⟩, i⟩, h1, rfl, h2⟩ := this s hs
    exact ⟨a, i, h1, h2⟩
  labS := ⟨id, [("start", [0]), ("goal", [1])], true, [], fun _ => List.Perm.refl _,
    isPyDict_of (by decide +kernel) (by decide +kernel), rfl⟩
  labA := ⟨id, [], true, [], fun _ => List.Perm.refl _, isPyDict_of (by decide +kernel) (by decide +kernel), rfl⟩
  rew r hr := by
    have hr : some [1/10^9, 0] = some r := hr
    cases hr
    refine ⟨rfl, ?_⟩
    intro x hx
    simp only [List.mem_cons, List.not_mem_nil, or_false] at hx
    rcases hx with rfl | rfl <;> norm_num

/-- the program of `rew_min` -/
def slowRewMin : Milp ℚ where
  be := .pulp
  maximize := true
  vars := [⟨.real, none, none⟩, ⟨.real, none, none⟩]
  obj := some [(0, 1), (1, 1)]
  cons := [(0, ⟨[(0, 1/10^9), (1, -1/10^9)], .le, 1/10^9⟩), (1, ⟨[(1, 1)], .le, 0⟩), (2, ⟨[(0, -1)], .le, 0⟩),
    (3, ⟨[(0, 1)], .ge, 0⟩), (4, ⟨[(1, 1)], .ge, 0⟩)]
  ncon := 5

/-- the program of `rew_max` -/
def slowRewMax : Milp ℚ where
  be := .pulp
  maximize := false
  vars := [⟨.real, none, none⟩, ⟨.real, none, none⟩]
  obj := some [(0, 1), (1, 1)]
  cons := [(0, ⟨[(0, 1/10^9), (1, -1/10^9)], .ge, 1/10^9⟩), (1, ⟨[(1, 1)], .ge, 0⟩),
    (2, ⟨[(0, 1)], .ge, 0⟩), (3, ⟨[(1, 1)], .ge, 0⟩)]
  ncon := 4

theorem slowRewMin_feasible (x : Nat → ℚ) : slowRewMin.Feasible x ↔ 0 ≤ x 0 ∧ x 0 ≤ 1 ∧ x 1 = 0 := by
  constructor
  · rintro ⟨-, h⟩
    have a := h (0, ⟨[(0, 1/10^9), (1, -1/10^9)], .le, 1/10^9⟩) (by simp [slowRewMin])
    have b := h (1, ⟨[(1, 1)], .le, 0⟩) (by simp [slowRewMin])
    have c := h (3, ⟨[(0, 1)], .ge, 0⟩) (by simp [slowRewMin])
    have d := h (4, ⟨[(1, 1)], .ge, 0⟩) (by simp [slowRewMin])
    simp only [Constr.sat, CSense.holds, evalE, List.map_cons, List.map_nil, List.sum_cons, List.sum_nil] at a b c d
    refine ⟨by linarith, by linarith, by linarith⟩
  · rintro ⟨h0, h1, h2⟩
    refine ⟨fun i v hi => ?_, fun c hc => ?_⟩
    · match i, hi with
      | 0, hi => cases hi; simp [Var.ok]
      | 1, hi => cases hi; simp [Var.ok]
    · simp only [slowRewMin, List.mem_cons, List.not_mem_nil, or_false] at hc
      rcases hc with rfl | rfl | rfl | rfl | rfl <;> simp only [Constr.sat, CSense.holds, evalE, List.map_cons, List.map_nil,
        List.sum_cons, List.sum_nil, h2] <;> linarith

theorem slowRewMax_feasible (x : Nat → ℚ) : slowRewMax.Feasible x ↔ 1 + x 1 ≤ x 0 ∧ 0 ≤ x 1 := by
  constructor
  · rintro ⟨-, h⟩
    have a := h (0, ⟨[(0, 1/10^9), (1, -1/10^9)], .ge, 1/10^9⟩) (by simp [slowRewMax])
    have b := h (1, ⟨[(1, 1)], .ge, 0⟩) (by simp [slowRewMax])
    simp only [Constr.sat, CSense.holds, evalE, List.map_cons, List.map_nil, List.sum_cons, List.sum_nil] at a b
    refine ⟨by linarith, by linarith⟩
  · rintro ⟨h0, h1⟩
    refine ⟨fun i v hi => ?_, fun c hc => ?_⟩
    · match i, hi with
      | 0, hi => cases hi; simp [Var.ok]
      | 1, hi => cases hi; simp [Var.ok]
    · simp only [slowRewMax, List.mem_cons, List.not_mem_nil, or_false] at hc
      rcases hc with rfl | rfl | rfl | rfl <;> simp only [Constr.sat, CSense.holds, evalE, List.map_cons, List.map_nil,
        List.sum_cons, List.sum_nil] <;> linarith

theorem slowRew_obj (x : Nat → ℚ) : slowRewMin.objVal x = x 0 + x 1 ∧ slowRewMax.objVal x = x 0 + x 1 := by
  constructor <;> simp [objVal, slowRewMin, slowRewMax, evalE]

theorem slowRewMin_opt : slowRewMin.Optimal fun j => if j = 0 then 1 else 0 :=
  ⟨(slowRewMin_feasible _).2 (by norm_num), fun x hx => by
    rw [show slowRewMin.maximize = true from rfl, if_pos rfl, (slowRew_obj _).1, (slowRew_obj _).1]
    obtain ⟨-, h1, h2⟩ := (slowRewMin_feasible x).1 hx
    rw [h2]
    simpa using h1⟩

theorem slowRewMax_opt : slowRewMax.Optimal fun j => if j = 0 then 1 else 0 :=
  ⟨(slowRewMax_feasible _).2 (by norm_num), fun x hx => by
    rw [show slowRewMax.maximize = false from rfl, if_neg (by simp), (slowRew_obj _).2, (slowRew_obj _).2]
    obtain ⟨h1, h2⟩ := (slowRewMax_feasible x).1 hx
    have : (if (0 : Nat) = 0 then (1 : ℚ) else 0) + (if (1 : Nat) = 0 then 1 else 0) = 1 := by norm_num
    rw [this]
    linarith⟩

theorem slowRew_make : ∃ res, RRF.reduce exRnd exRnd slowRew "start" "goal" = .ok res ∧ res.rrf.maxZLP = .ok slowRewMin ∧
    res.rrf.rewMaxLP = .ok slowRewMax ∧ res.cols.get? 0 = some 0 ∧ res.rrf.rf.sys.N = 4 ∧ res.rrf.rf.sys.C = 4 ∧
    ∀ i < 4, ∀ j < 4, 0 < res.rrf.rf.sys.P.get i j → 1/10^9 ≤ res.rrf.rf.sys.P.get i j := by
  obtain ⟨res, h, hp⟩ := exists_of_ok_and (x := RRF.reduce exRnd exRnd slowRew "start" "goal")
    (p := fun res => isLP res.rrf.maxZLP slowRewMin && isLP res.rrf.rewMaxLP slowRewMax && decide (res.cols.get? 0 = some 0) &&
      decide (res.rrf.rf.sys.N = 4) && decide (res.rrf.rf.sys.C = 4) &&
      (List.range 4).all fun i => (List.range 4).all fun j =>
        decide (0 < res.rrf.rf.sys.P.get i j → 1/10^9 ≤ res.rrf.rf.sys.P.get i j)) (by decide +kernel)
  simp only [Bool.and_eq_true, decide_eq_true_eq, List.all_eq_true, List.mem_range] at hp
  obtain ⟨⟨⟨⟨⟨h1, h2⟩, h3⟩, h4⟩, h5⟩, h6⟩ := hp
  exact ⟨res, h, isLP_iff h1, isLP_iff h2, h3, h4, h5, h6⟩

/-- the hypotheses can be met, and then the bounds say something: with answers that are correct up to 1e-60 the expected rewards
are met up to 1e-20 -/
example : ∃ (res : RRF.Result ℚ) (lmin lmax : Milp ℚ) (solver : Milp ℚ → Answer ℚ),
    RRF.reduce exRnd exRnd slowRew "start" "goal" = .ok res ∧ res.rrf.maxZLP = .ok lmin ∧ res.rrf.rewMaxLP = .ok lmax ∧
    (∀ m, (solver m).Approx (1/10^60) m) ∧ (solver lmin).status = .optimal ∧ (solver lmax).status = .optimal ∧
    |ratR ((solver lmin).vec.getD 0 0) - res.rrf.rf.sys.rewMin ratR (res.rrf.rf.sys.labelled "rf_target") 0| ≤ 1/10^20 ∧
    |ratR ((solver lmax).vec.getD 0 0) - res.rrf.rf.sys.rewMax ratR (res.rrf.rf.sys.labelled "rf_target") 0| ≤ 1/10^20 := by
  obtain ⟨res, h, g1, g2, -, hN, hC, hP⟩ := slowRew_make
  obtain ⟨ex, hex⟩ := exists_exact ℚ
  have hm : MinProb res.rrf.rf.sys (1/10^9) := by
    unfold MinProb
    rw [hN, hC]
    exact hP
  obtain ⟨lmin, e1, h1⟩ := C112_rew_min slowRew_input h ratR (p := 1/10^9) (ε := 1/10^60) (by norm_num) hm (by norm_num)
  obtain ⟨lmax, e2, h2⟩ := C112_rew_max slowRew_input h ratR (p := 1/10^9) (ε := 1/10^60) (by norm_num) hm (by norm_num)
  have hs : ∀ m, (ex m).Approx (1/10^60) m := fun m => (hex m).toSound.approx (by norm_num)
  rw [g1] at e1; cases e1
  rw [g2] at e2; cases e2
  have hz : ∀ j : Nat, 2 ≤ j → (if j = 0 then (1 : ℚ) else 0) = 0 := fun j hj => if_neg (by omega)
  have s1 := (hex slowRewMin).optimal' ⟨_, slowRewMin_opt, hz⟩
  have s2 := (hex slowRewMax).optimal' ⟨_, slowRewMax_opt, hz⟩
  have hb : ratR (rewTol res.rrf.rf.sys (1/10^9) (1/10^60)) ≤ 1/10^20 := by
    unfold rewTol
    rw [hN]
    norm_num
  exact ⟨res, slowRewMin, slowRewMax, ex, h, g1, g2, hs, s1, s2,
    (((h1 _ (hs _)).2.2 s1).2 0 (by rw [hN]; norm_num)).trans hb, (((h2 _ (hs _)).2.2 s2).2 0 (by rw [hN]; norm_num)).trans hb⟩

/-- the bound of `C112_max_y` applies to the same form -/
example : ∃ (res : RRF.Result ℚ) (B : ℝ), RRF.reduce exRnd exRnd slowRew "start" "goal" = .ok res ∧
    (∀ s < res.rrf.rf.sys.N - 2, res.rrf.rf.sys.rewMax ratR (res.rrf.rf.sys.labelled "rf_target") s ≤ B) ∧ B = 1 := by
  obtain ⟨res, h, -, g2, -, hN, -⟩ := slowRew_make
  obtain ⟨lp, e, -, h2⟩ := C50_rew_max slowRew_input h ratR
  rw [g2] at e
  cases e
  refine ⟨res, 1, h, fun s hs => ?_, rfl⟩
  rw [← h2 _ slowRewMax_opt s hs]
  split <;> simp

/-- **C112 (the factor is needed).** A chain whose expected reward is 1, and a solver whose answers are correct up to 1e-9, the
tolerance of milp.py: `rew_min` may give 2 for the initial state and `rew_max` may give 0. -/
theorem C112_scale : ∃ (res : RRF.Result ℚ) (lmin lmax : Milp ℚ) (solver : Milp ℚ → Answer ℚ), RewardInput slowRew ∧
    RRF.reduce exRnd exRnd slowRew "start" "goal" = .ok res ∧ res.cols.get? 0 = some 0 ∧
    res.rrf.maxZLP = .ok lmin ∧ res.rrf.rewMaxLP = .ok lmax ∧
    (∀ m, (solver m).Approx (1/10^9) m) ∧ (solver lmin).status = .optimal ∧ (solver lmax).status = .optimal ∧
    res.rrf.rf.sys.rewMin ratR (res.rrf.rf.sys.labelled "rf_target") 0 = 1 ∧
    res.rrf.rf.sys.rewMax ratR (res.rrf.rf.sys.labelled "rf_target") 0 = 1 ∧
    (solver lmin).vec = [2, 0] ∧ (solver lmax).vec = [0, 0] := by
  classical
  obtain ⟨res, h, hmin, hmax, hcol, hN, -⟩ := slowRew_make
  have hneq : slowRewMax ≠ slowRewMin := by decide +kernel
  obtain ⟨ex, hex⟩ := exists_exact ℚ
  have hA : (⟨.optimal, [2, 0], 2⟩ : Answer ℚ).Approx (1/10^9) slowRewMin :=
    { feasible := fun _ => by
        refine ⟨fun i v hi => ?_, fun c hc => ?_⟩
        · match i, hi with
          | 0, hi => cases hi; exact ⟨fun l h => (nomatch h), fun l h => (nomatch h), trivial⟩
          | 1, hi => cases hi; exact ⟨fun l h => (nomatch h), fun l h => (nomatch h), trivial⟩
        · simp only [slowRewMin, List.mem_cons, List.not_mem_nil, or_false] at hc
          rcases hc with rfl | rfl | rfl | rfl | rfl <;> norm_num [Constr.satTol, CSense.holdsTol, evalE]
      length := fun _ => rfl
      value := fun _ => by rw [(slowRew_obj _).1]; simp
      best := fun _ x hx => by
        obtain ⟨-, h1, h2⟩ := (slowRewMin_feasible x).1 hx
        rw [(slowRew_obj x).1, show slowRewMin.maximize = true from rfl, if_pos rfl]
        show x 0 + x 1 ≤ 2 + 1/10^9
        linarith
      infeasible := fun g => nomatch g
      unbounded := fun g => nomatch g }
  have hB : (⟨.optimal, [0, 0], 0⟩ : Answer ℚ).Approx (1/10^9) slowRewMax :=
    { feasible := fun _ => by
        refine ⟨fun i v hi => ?_, fun c hc => ?_⟩
        · match i, hi with
          | 0, hi => cases hi; exact ⟨fun l h => (nomatch h), fun l h => (nomatch h), trivial⟩
          | 1, hi => cases hi; exact ⟨fun l h => (nomatch h), fun l h => (nomatch h), trivial⟩
        · simp only [slowRewMax, List.mem_cons, List.not_mem_nil, or_false] at hc
          rcases hc with rfl | rfl | rfl | rfl <;> norm_num [Constr.satTol, CSense.holdsTol, evalE]
      length := fun _ => rfl
      value := fun _ => by rw [(slowRew_obj _).2]; simp
      best := fun _ x hx => by
        obtain ⟨h1, h2⟩ := (slowRewMax_feasible x).1 hx
        rw [(slowRew_obj x).2, show slowRewMax.maximize = false from rfl, if_neg (by simp)]
        show 0 ≤ x 0 + x 1 + 1/10^9
        linarith
      infeasible := fun g => nomatch g
      unbounded := fun g => nomatch g }
  refine ⟨res, slowRewMin, slowRewMax,
    fun m => if m = slowRewMin then ⟨.optimal, [2, 0], 2⟩ else if m = slowRewMax then ⟨.optimal, [0, 0], 0⟩ else ex m,
    slowRew_input, h, hcol, hmin, hmax, fun m => ?_, by simp, by simp [hneq], ?_, ?_, by simp, by simp [hneq]⟩
  · by_cases h1 : m = slowRewMin
    · subst h1; simpa using hA
    · by_cases h2 : m = slowRewMax
      · subst h2; simpa [h1] using hB
      · simp only [if_neg h1, if_neg h2]; exact (hex m).toSound.approx (by norm_num)
  · obtain ⟨lp, e, -, h2⟩ := C50_rew_min slowRew_input h ratR
    rw [hmin] at e
    cases e
    rw [← h2 _ slowRewMin_opt 0 (by rw [hN]; norm_num)]
    simp
  · obtain ⟨lp, e, -, h2⟩ := C50_rew_max slowRew_input h ratR
    rw [hmax] at e
    cases e
    rw [← h2 _ slowRewMax_opt 0 (by rw [hN]; norm_num)]
    simp

end Verif.Props
