import Verif.Proofs.Single
import Verif.Props.TreeAlgo
/-!
# C99: conversions to single precision

`successors` and `predecessors` report probabilities that went through a C `float`, and the tree algorithm compares with
a threshold that went through a C `float`.  The assumptions about the chain and the external routines are those of C66.
-/
set_option linter.unusedSectionVars false
set_option exponentiation.threshold 2000

namespace Verif.Props
open Verif.Model Verif.Model.TreeDecomp Verif.Proofs Verif.Proofs.Tree Verif.Theory Finset

section
variable {K : Type} [Field K] [LinearOrder K] [IsStrictOrderedRing K] [FloorRing K]
variable {ρ : Graph.Rnd} {M : Sys K} {il tl fl : String} {rf : RF K} {mode : Mode} {t : K} {φ : K →+*o ℝ}
variable {lin : Nat → (Nat → K) → (Nat → K) → Nat → K} {hull : Nat → Dict Nat (List (List K)) → List (Nat × List K)}
variable {parts : List (List Nat)} {order : List Nat} {ub : Nat}

/-- `q` is reported for the number `p`: they differ by at most `2^-24` times `p` (by at most `2^-150` if `p` is below
`2^-126`), `q` is not negative, and it is zero only if `p` is at most `2^-150` -/
def Reported (p q : K) : Prop :=
  |q - p| ≤ max (1 / 2 ^ 24 * p) (1 / 2 ^ 150) ∧ 0 ≤ q ∧ (q = 0 ↔ p ≤ 1 / 2 ^ 150) ∧
    (q = p ↔ ∃ (m : Nat) (e : Int), m < 2 ^ 24 ∧ -149 ≤ e ∧ p = m * 2 ^ e)

theorem reported_single {p : K} (hp : 0 ≤ p) : Reported p (single p) :=
  ⟨single_close hp, single_nonneg hp, single_eq_zero_iff hp, single_eq_iff hp⟩

/-- **C04 with the declared types.** In every system `successors(s)` and `predecessors(d)` return, with each transition
once and nothing else; the reported probability is the stored one rounded to single precision. -/
theorem C04_single (hM : M.WF) :
    (∀ s, ∃ l, M.successors32 s = .ok l ∧ (l.map fun x => (x.1, x.2.1)).Nodup ∧
      ∀ d a q, (d, a, q) ∈ l ↔ ∃ i, ((s, a), i) ∈ M.idx ∧ 0 < M.P.get i d ∧ q = single (M.P.get i d)) ∧
    (∀ d, ∃ l, M.predecessors32 d = .ok l ∧ (l.map fun x => (x.1, x.2.1)).Nodup ∧
      ∀ s a q, (s, a, q) ∈ l ↔ ∃ i, ((s, a), i) ∈ M.idx ∧ 0 < M.P.get i d ∧ q = single (M.P.get i d)) := by
  obtain ⟨g, hg, h1, h2⟩ := build32_eq hM.graph
  have hinv : ∀ i j sa, invGet? M.idx i = some sa → invGet? M.idx j = some sa → i = j := by
    intro i j sa h1 h2
    exact WF.idx_inj' hM (mem_of_invGet? h1) (mem_of_invGet? h2)
  obtain ⟨c1, c2, c3, -⟩ := C04_neighbours hM.nodup hinv hM.graph
  have hget : ∀ {i d p}, ((i, d), p) ∈ M.P.items → M.P.get i d = p := by
    intro i d p hp
    unfold Dok.get
    rw [Dict.get?_of_mem hM.nodup hp]
    rfl
  have hpos : ∀ {i d}, 0 < M.P.get i d ↔ ∃ p, ((i, d), p) ∈ M.P.items := WF.get_pos_iff hM
  have nd : ∀ (l : List (Nat × Nat × K)), l.Nodup → (∀ x a p q, (x, a, p) ∈ l → (x, a, q) ∈ l → p = q) →
      ((l.map fun t => (t.1, t.2.1, single t.2.2)).map fun x : Nat × Nat × K => (x.1, x.2.1)).Nodup := by
    intro l hl hf
    rw [List.map_map]
    refine List.Nodup.map_on ?_ hl
    rintro ⟨x, a, p⟩ hx ⟨y, b, q⟩ hy he
    simp only [Function.comp_apply, Prod.mk.injEq] at he
    obtain ⟨rfl, rfl⟩ := he
    rw [hf x a p q hx hy]
  have fin : ∀ (l : List (Nat × Nat × K)) (inI : Nat → Nat → Nat → K → Prop), l.Nodup →
      (∀ x a p, (x, a, p) ∈ l ↔ ∃ i, inI x a i p) →
      (∀ x a i j p q, inI x a i p → inI x a j q → p = q ∧ i = j) →
      ((l.map fun t => (t.1, t.2.1, single t.2.2)).map fun x : Nat × Nat × K => (x.1, x.2.1)).Nodup ∧
      ∀ x a q, (x, a, q) ∈ (l.map fun t => (t.1, t.2.1, single t.2.2)) ↔ ∃ i p, inI x a i p ∧ q = single p := by
    intro l inI hl hm hf
    refine ⟨nd l hl fun x a p q h1 h2 => ?_, fun x a q => ⟨fun hq => ?_, ?_⟩⟩
    · obtain ⟨i, h1⟩ := (hm x a p).1 h1
      obtain ⟨j, h2⟩ := (hm x a q).1 h2
      exact (hf x a i j p q h1 h2).1
    · obtain ⟨⟨x', a', p⟩, h3, h4⟩ := List.mem_map.1 hq
      simp only [Prod.mk.injEq] at h4
      obtain ⟨rfl, rfl, rfl⟩ := h4
      obtain ⟨i, hi⟩ := (hm _ _ _).1 h3
      exact ⟨i, p, hi, rfl⟩
    · rintro ⟨i, p, hi, rfl⟩
      exact List.mem_map.2 ⟨(x, a, p), (hm _ _ _).2 ⟨i, hi⟩, rfl⟩
  have flt : ∀ l : List (Nat × Nat × K), (l.filter fun t => (none : Option Nat).isNone || (none : Option Nat) == some t.2.1) = l := by
    intro l; simp
  have uni : ∀ {s a i j}, ((s, a), i) ∈ M.idx → ((s, a), j) ∈ M.idx → i = j := fun h3 h4 => WF.idx_inj' hM h3 h4
  constructor
  · intro s
    obtain ⟨f1, f2⟩ := fin (M.graph.succ s) (fun d a i p => ((s, a), i) ∈ M.idx ∧ ((i, d), p) ∈ M.P.items) (by
        have := (c3 s none).1
        unfold Graph.successors at this
        rwa [flt] at this) (by
        intro d a p
        have := c1 s d a p none
        unfold Graph.successors at this
        rw [flt] at this
        rw [this]
        simp [invGet?_iff hM.vals]) (by
        rintro d a i j p q ⟨h3, h4⟩ ⟨h5, h6⟩
        obtain rfl := uni h3 h5
        exact ⟨(hget h4).symm.trans (hget h6), rfl⟩)
    refine ⟨_, ?_, f1, fun d a q => ?_⟩
    · unfold Sys.successors32
      rw [hg]
      simp only [bind, Except.bind, Graph.successors]
      rw [flt, h1]
    · rw [f2]
      refine exists_congr fun i => ⟨?_, ?_⟩
      · rintro ⟨p, ⟨h3, h4⟩, rfl⟩
        exact ⟨h3, hpos.2 ⟨p, h4⟩, by rw [hget h4]⟩
      · rintro ⟨h3, h4, rfl⟩
        obtain ⟨p, hp⟩ := hpos.1 h4
        exact ⟨p, ⟨h3, hp⟩, by rw [hget hp]⟩
  · intro d
    obtain ⟨f1, f2⟩ := fin (M.graph.pred d) (fun s a i p => ((s, a), i) ∈ M.idx ∧ ((i, d), p) ∈ M.P.items) (by
        have := (c3 d none).2
        unfold Graph.predecessors at this
        rwa [flt] at this) (by
        intro s a p
        have := c2 s d a p none
        unfold Graph.predecessors at this
        rw [flt] at this
        rw [this]
        simp [invGet?_iff hM.vals]) (by
        rintro s a i j p q ⟨h3, h4⟩ ⟨h5, h6⟩
        obtain rfl := uni h3 h5
        exact ⟨(hget h4).symm.trans (hget h6), rfl⟩)
    refine ⟨_, ?_, f1, fun s a q => ?_⟩
    · unfold Sys.predecessors32
      rw [hg]
      simp only [bind, Except.bind, Graph.predecessors]
      rw [flt, h2]
    · rw [f2]
      refine exists_congr fun i => ⟨?_, ?_⟩
      · rintro ⟨p, ⟨h3, h4⟩, rfl⟩
        exact ⟨h3, hpos.2 ⟨p, h4⟩, by rw [hget h4]⟩
      · rintro ⟨h3, h4, rfl⟩
        obtain ⟨p, hp⟩ := hpos.1 h4
        exact ⟨p, ⟨h3, hp⟩, by rw [hget hp]⟩

/-- **C99 (neighbours).** The probability that `successors(s)` and `predecessors(d)` report for a transition is the stored
one exactly if that has at most 24 significant bits (and is a multiple of `2^-149`), it differs by at most the `2^-24`-th
part, and it is zero for transitions of probability up to `2^-150`. -/
theorem C99_neighbours_partial (hM : M.WF) :
    (∀ s, ∃ l, M.successors32 s = .ok l ∧
      (∀ d a, (∃ q, (d, a, q) ∈ l) ↔ ∃ i, ((s, a), i) ∈ M.idx ∧ 0 < M.P.get i d) ∧
      ∀ d a q i, (d, a, q) ∈ l → ((s, a), i) ∈ M.idx → Reported (M.P.get i d) q) ∧
    (∀ d, ∃ l, M.predecessors32 d = .ok l ∧
      (∀ s a, (∃ q, (s, a, q) ∈ l) ↔ ∃ i, ((s, a), i) ∈ M.idx ∧ 0 < M.P.get i d) ∧
      ∀ s a q i, (s, a, q) ∈ l → ((s, a), i) ∈ M.idx → Reported (M.P.get i d) q) := by
  refine ⟨fun s => ?_, fun d => ?_⟩
  · obtain ⟨l, h1, -, h2⟩ := (C04_single hM).1 s
    refine ⟨l, h1, fun d a => ⟨?_, ?_⟩, fun d a q i hq hi => ?_⟩
    · rintro ⟨q, hq⟩
      obtain ⟨i, h3, h4, -⟩ := (h2 d a q).1 hq
      exact ⟨i, h3, h4⟩
    · rintro ⟨i, h3, h4⟩
      exact ⟨_, (h2 d a _).2 ⟨i, h3, h4, rfl⟩⟩
    · obtain ⟨j, h3, h4, rfl⟩ := (h2 d a q).1 hq
      obtain rfl := WF.idx_inj' hM hi h3
      exact reported_single h4.le
  · obtain ⟨l, h1, -, h2⟩ := (C04_single hM).2 d
    refine ⟨l, h1, fun s a => ⟨?_, ?_⟩, fun s a q i hq hi => ?_⟩
    · rintro ⟨q, hq⟩
      obtain ⟨i, h3, h4, -⟩ := (h2 s a q).1 hq
      exact ⟨i, h3, h4⟩
    · rintro ⟨i, h3, h4⟩
      exact ⟨_, (h2 s a _).2 ⟨i, h3, h4, rfl⟩⟩
    · obtain ⟨j, h3, h4, rfl⟩ := (h2 s a q).1 hq
      obtain rfl := WF.idx_inj' hM hi h3
      exact reported_single h4.le

theorem Witness.mono {t t' : K} {labels : Option (List String)} {k : Nat} (h : Witness rf il tl φ mode t labels k) (ht : t' ≤ t) :
    Witness rf il tl φ mode t' labels k := by
  obtain ⟨cert, mode', ig, x, ρ, res, n, h1, h2, h3, h4, h5⟩ := h
  exact ⟨cert, mode', ig, x, ρ, res, n, h1, h2, h3, ((phi_strict φ).monotone ht).trans h4, h5⟩

/-- **C99 (threshold).** On the chains and partitions of C66, with a threshold above `2^-150`: a returned number `k` is the
size of a subsystem with probability at least `t·(1 - 2^-24)` (less `2^-150` for thresholds below `2^-126`), and no subsystem with fewer
states has probability `t·(1 + 2^-24)`.  For thresholds with at most 24 significant bits the number is exact. -/
theorem C99_threshold_partial (hM : M.WF) (hL : LabelMap M.labS) (hrf : RF.make ρ M il tl fl false = .ok rf) (hidx : RowsAreStates M)
    (hlS : M.labS.dflt = true ∨ ∀ s < M.N, ∃ l, s ∈ M.labelled l) (hA : LabelMap M.labA) (hlA : M.labA.dflt = true)
    (H : TreeOK rf.chain parts order) (hl : LinOK lin) (hh : HullOK (φ : K →+* ℝ) hull) (ht : 1 / 2 ^ 150 < t) {k : Nat}
    (h : minWitnesses32 lin rf.chain parts hull order t ub = .ok k) :
    k ≤ ub ∧ Witness rf il tl φ mode (t - max (1 / 2 ^ 24 * t) (1 / 2 ^ 150)) none k ∧
    (∀ k', Witness rf il tl φ mode (t + max (1 / 2 ^ 24 * t) (1 / 2 ^ 150)) none k' → k ≤ k') ∧
    ((∃ (m : Nat) (e : Int), m < 2 ^ 24 ∧ -149 ≤ e ∧ t = m * 2 ^ e) →
      Witness rf il tl φ mode t none k ∧ ∀ k', Witness rf il tl φ mode t none k' → k ≤ k') := by
  have ht0 : 0 ≤ t := le_trans (by positivity) ht.le
  have hs : 0 < single t := lt_of_le_of_ne (single_nonneg ht0) fun e => absurd ((single_eq_zero_iff ht0).1 e.symm) (not_le.2 ht)
  obtain ⟨h1, h2, h3⟩ := C66_path_partial (mode := mode) hM hL hrf hidx hlS hA hlA H hl hh hs h
  have hc := abs_le.1 (single_close ht0)
  refine ⟨h2, h1.mono (by linarith [hc.1]), fun k' hw => h3 k' (hw.mono (by linarith [hc.2])), fun he => ?_⟩
  have e := (single_eq_iff ht0).2 he
  rw [e] at h1 h3
  exact ⟨h1, h3⟩

/-- ... and a number or a `KeyError` is the outcome if some subsystem within the bound has probability `t·(1 + 2^-24)` -/
theorem C99_returns_partial (hM : M.WF) (hL : LabelMap M.labS) (hrf : RF.make ρ M il tl fl false = .ok rf) (hidx : RowsAreStates M)
    (H : TreeOK rf.chain parts order) (hl : LinOK lin) (hh : HullOK (φ : K →+* ℝ) hull) (ht : 1 / 2 ^ 150 < t) {k : Nat}
    (hw : Witness rf il tl φ mode (t + max (1 / 2 ^ 24 * t) (1 / 2 ^ 150)) none k) (hk : k ≤ ub) :
    (∃ k, minWitnesses32 lin rf.chain parts hull order t ub = .ok k) ∨
      minWitnesses32 lin rf.chain parts hull order t ub = .error .keyError := by
  have ht0 : 0 ≤ t := le_trans (by positivity) ht.le
  have hs : 0 < single t := lt_of_le_of_ne (single_nonneg ht0) fun e => absurd ((single_eq_zero_iff ht0).1 e.symm) (not_le.2 ht)
  have hc := abs_le.1 (single_close ht0)
  exact C66_returns_partial hM hL hrf hidx H hl hh hs (hw.mono (by linarith [hc.2])) hk

end

/-! ### the deviations occur -/

/-- one state; the goal is reached with probability `p` -/
def coinSys (p : ℚ) : Sys ℚ := treeSys 1 [((0, 1), p), ((0, 2), 1 - p)]

theorem coin_witness {p t : ℚ} {rf : RF ℚ} (h : TreeEx (coinSys p) rf) (h1 : (treeChain (coinSys p)).P 0 0 = 0)
    (h2 : (treeChain (coinSys p)).toTarget 0 = p) (ht : 0 < t) (φ : ℚ →+*o ℝ) (mode : Mode) :
    (t ≤ p → Witness rf "init" "goal" φ mode t none 1) ∧ ∀ k, Witness rf "init" "goal" φ mode t none k → t ≤ p := by
  have hN : rf.N = 1 := by
    have : rf.chain.n = 1 := by rw [h.chain]; rfl
    exact this
  have hini : rf.initial = 0 := by
    have : rf.chain.init = 0 := by rw [h.chain]; rfl
    exact this
  have hq : ∀ s t, Q (φ : ℚ →+* ℝ) rf.chain s t = ((treeChain (coinSys p)).P s t : ℝ) := by
    intro s t; unfold Q; rw [h.chain]; simp
  have hg : ∀ s, gain (φ : ℚ →+* ℝ) rf.chain s = ((treeChain (coinSys p)).toTarget s : ℝ) := by
    intro s; unfold gain; rw [h.chain]; simp
  constructor
  · intro htp
    have := witness_of_val (φ := φ) (t := t) h.wf h.lS h.make h.rows (Or.inl h.dS) h.lA h.dA (T := {0}) (x := fun s => if s = 0 then (p : ℝ) else 0)
      (by rw [hN]; simp) ⟨fun s hs => if_neg (by simpa using hs), fun s hs => by
        have hs : s = 0 := by simpa using hs
        subst hs
        rw [sum_singleton, hq, hg, h1, h2]
        simp⟩ (by simpa using ht) (by rw [hini]; simpa using htp) mode
    simpa using this
  · intro k hw
    obtain ⟨W, hW, x, -, hx, hv⟩ := val_of_witness h.wf h.lS h.make h.rows hw
    rw [hini] at hv
    have hx0 : x 0 ≤ (p : ℝ) := by
      by_cases h0 : 0 ∈ W
      · rw [hx.eq 0 h0, hg, h2]
        have : ∑ t ∈ W, Q (φ : ℚ →+* ℝ) rf.chain 0 t * x t = 0 := by
          refine sum_eq_zero fun t ht => ?_
          have : t = 0 := by
            have := hW ht
            rw [hN] at this
            simpa using this
          rw [this, hq, h1]
          simp
        rw [this, add_zero]
      · have h3 := hx.out 0 h0
        rw [h3] at hv
        have : (t : ℝ) ≤ 0 := by simpa using hv
        have : (0 : ℝ) < t := by exact_mod_cast ht
        linarith
    have : (t : ℝ) ≤ x 0 := by simpa using hv
    exact_mod_cast this.trans hx0

/-- the python number `0.1` -/
def tenth : ℚ := 3602879701896397 / 36028797018963968

/-- the python number `0.7` -/
def seven : ℚ := 3152519739159347 / 4503599627370496

example : double (1 / 10 : ℚ) = tenth ∧ double (7 / 10 : ℚ) = seven := by decide +kernel

/-- **C99 (negative).** The threshold `0.1` is taken as `0.10000000149…`: on a chain that reaches the goal with
probability `0.1` the tree algorithm raises `ValueError`, although the state itself is a subsystem with this probability. -/
theorem C99_missed_false : ∃ (M : Sys ℚ) (rf : RF ℚ), M.WF ∧ RowsAreStates M ∧ RF.make exRnd M "init" "goal" "fail" false = .ok rf ∧
    TreeOK rf.chain [[0]] [0] ∧ LinOK (cramer (K := ℚ)) ∧ (∀ φ : ℚ →+* ℝ, HullOK φ (keepAll (K := ℚ))) ∧ double (1 / 10 : ℚ) = tenth ∧
    minWitnesses32 cramer rf.chain [[0]] keepAll [0] tenth 1 = .error .valueError ∧
    (∀ (φ : ℚ →+*o ℝ) mode, Witness rf "init" "goal" φ mode tenth none 1) ∧
    solveLast (treeAlgo (σ := Unit) true (some ((1 : Nat) : ℚ)) (.error .keyError) (.error .keyError)
      fun _ => (minWitnesses32 cramer rf.chain [[0]] keepAll [0] tenth 1).map Nat.cast) = .error .valueError := by
  obtain ⟨rf, h⟩ : ∃ rf, TreeEx (coinSys tenth) rf :=
    treeEx (by decide +kernel) (by decide +kernel) (by decide +kernel) (by decide +kernel) (by decide +kernel)
  have hr : minWitnesses32 cramer rf.chain [[0]] keepAll [0] tenth 1 = .error .valueError := by
    rw [h.chain]; decide +kernel
  refine ⟨coinSys tenth, rf, h.wf, h.rows, h.make, ?_, cramer_ok, keepAll_ok, by decide +kernel, hr, fun φ mode => ?_, ?_⟩
  · rw [h.chain]; exact treeCheck'_sound (by decide +kernel) (by decide +kernel)
  · exact (coin_witness h (by decide +kernel) (by decide +kernel) (by decide +kernel) φ mode).1 le_rfl
  · rw [hr]
    rfl

/-- **C99 (negative).** The threshold `0.7` is taken as `0.69999998…`: on a chain that reaches the goal with
probability `0.69999999` only, the tree algorithm reports a subsystem with one state. -/
theorem C99_low_false : ∃ (M : Sys ℚ) (rf : RF ℚ), M.WF ∧ RowsAreStates M ∧ RF.make exRnd M "init" "goal" "fail" false = .ok rf ∧
    TreeOK rf.chain [[0]] [0] ∧ LinOK (cramer (K := ℚ)) ∧ (∀ φ : ℚ →+* ℝ, HullOK φ (keepAll (K := ℚ))) ∧ double (7 / 10 : ℚ) = seven ∧
    minWitnesses32 cramer rf.chain [[0]] keepAll [0] seven 1 = .ok 1 ∧
    (∀ (φ : ℚ →+*o ℝ) mode k, ¬ Witness rf "init" "goal" φ mode seven none k) ∧
    solveLast (treeAlgo (σ := Unit) true (some ((1 : Nat) : ℚ)) (.error .keyError) (.error .keyError)
      fun _ => (minWitnesses32 cramer rf.chain [[0]] keepAll [0] seven 1).map Nat.cast) = .ok ⟨.success, none, some 1, none⟩ := by
  obtain ⟨rf, h⟩ : ∃ rf, TreeEx (coinSys (69999999 / 100000000)) rf :=
    treeEx (by decide +kernel) (by decide +kernel) (by decide +kernel) (by decide +kernel) (by decide +kernel)
  have hr : minWitnesses32 cramer rf.chain [[0]] keepAll [0] seven 1 = .ok 1 := by
    rw [h.chain]; decide +kernel
  refine ⟨_, rf, h.wf, h.rows, h.make, ?_, cramer_ok, keepAll_ok, by decide +kernel, hr, fun φ mode k hw => ?_, ?_⟩
  · rw [h.chain]; exact treeCheck'_sound (by decide +kernel) (by decide +kernel)
  · have := (coin_witness h (by decide +kernel) (by decide +kernel) (by decide +kernel) φ mode).2 k hw
    exact absurd this (by decide +kernel)
  · exact (C49_tree_partial _ 1 _ _ _ (by rw [hr]; simp [Except.map]) (by norm_num)).2

/-- a transition with probability `0.1` and one with probability `2^-150` -/
def dustSys : Sys ℚ := treeSys 4 [((0, 1), tenth), ((0, 2), 1 / 4), ((0, 3), 1 / 4 - tenth), ((0, 4), 1 / 4), ((0, 5), 1 / 4), ((1, 0), 1 / 2 ^ 150), ((1, 2), 1 - 1 / 2 ^ 53),
    ((1, 3), 1 / 2 ^ 53 - 1 / 2 ^ 106), ((1, 4), 1 / 2 ^ 106 - 1 / 2 ^ 150), ((2, 4), 1), ((3, 4), 1)]

theorem ok_getD {α : Type} {x : Except Err α} (h : x.isOk = true) (d : α) : x = .ok (x.toOption.getD d) := by
  cases x with
  | error e => cases h
  | ok a => rfl

/-- **C99 (negative).** `successors` reports `0.10000000149…` for a transition with probability `0.1`, and zero for the
transition with probability `2^-150`; all stored probabilities are double precision numbers and sum up to one. -/
theorem C99_neighbours_false : ∃ M : Sys ℚ, M.WF ∧ (∀ e ∈ M.P.items, double e.2 = e.2) ∧
    M.P.get 0 1 = tenth ∧ M.P.get 1 0 = 1 / 2 ^ 150 ∧
    (∃ l, M.successors32 0 = .ok l ∧ (1, 0, 13421773 / 134217728) ∈ l ∧ (13421773 / 134217728 : ℚ) ≠ tenth) ∧
    (∃ l, M.successors32 1 = .ok l ∧ (0, 0, 0) ∈ l) := by
  obtain ⟨rf, h⟩ : ∃ rf, TreeEx dustSys rf :=
    treeEx (by decide +kernel) (by decide +kernel) (by decide +kernel) (by decide +kernel) (by decide +kernel)
  refine ⟨dustSys, h.wf, by decide +kernel, by decide +kernel, by decide +kernel, ⟨_, ok_getD (by decide +kernel) [], by decide +kernel, by decide +kernel⟩,
    ⟨_, ok_getD (by decide +kernel) [], by decide +kernel⟩⟩

/-- the hypotheses of `C99_neighbours_partial` hold for a system with rounded probabilities -/
example : ∃ M : Sys ℚ, M.WF ∧ ∃ l, M.successors32 0 = .ok l ∧ l ≠ [] := by
  obtain ⟨M, h, -, -, -, ⟨l, hl, hm, -⟩, -⟩ := C99_neighbours_false
  exact ⟨M, h, l, hl, fun e => by simp [e] at hm⟩

/-- the hypotheses of `C99_threshold_partial` and `C99_returns_partial` hold with a threshold that is rounded -/
example : ∃ (M : Sys ℚ) (rf : RF ℚ), TreeEx M rf ∧ TreeOK rf.chain [[0]] [0] ∧ (1 : ℚ) / 2 ^ 150 < tenth ∧ single tenth ≠ tenth ∧
    minWitnesses32 cramer rf.chain [[0]] keepAll [0] tenth 1 = .ok 1 ∧
    ∀ (φ : ℚ →+*o ℝ) mode, Witness rf "init" "goal" φ mode (tenth + max (1 / 2 ^ 24 * tenth) (1 / 2 ^ 150)) none 1 := by
  obtain ⟨rf, h⟩ : ∃ rf, TreeEx (coinSys (1 / 2)) rf :=
    treeEx (by decide +kernel) (by decide +kernel) (by decide +kernel) (by decide +kernel) (by decide +kernel)
  refine ⟨_, rf, h, ?_, by decide +kernel, by decide +kernel, ?_, fun φ mode => ?_⟩
  · rw [h.chain]; exact treeCheck'_sound (by decide +kernel) (by decide +kernel)
  · rw [h.chain]; decide +kernel
  · exact (coin_witness h (by decide +kernel) (by decide +kernel) (by decide +kernel) φ mode).1 (by decide +kernel)

end Verif.Props
