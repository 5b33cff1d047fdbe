import Verif.Props.RFInfo
import Verif.Props.Reward
/-!
# C72, C73: which systems `ReachabilityForm` and `RewardReachabilityForm` accept
-/
set_option linter.unusedSectionVars false

namespace Verif.Props
open Verif.Model Verif.Spec Verif.Proofs Verif.Theory

variable {K : Type} [Field K] [LinearOrder K] [IsStrictOrderedRing K]
variable {ρ : Graph.Rnd} {M : Sys K} {il tl fl : String}

/-- `s` is absorbing: row `r` is its only row and leads back to it with probability one -/
structure Absorbs (M : Sys K) (s r : Nat) : Prop where
  row : ∃ a, ((s, a), r) ∈ M.idx
  only : ∀ a i, ((s, a), i) ∈ M.idx → i < M.C → i = r
  loop : M.P.get r s = 1

/-- What the documentation asks of a system in reachability form. -/
structure Consistent (M : Sys K) (il tl fl : String) (i : Nat) : Prop where
  distinct : il ≠ tl ∧ il ≠ fl ∧ tl ≠ fl
  size : 2 ≤ M.N ∧ 2 ≤ M.C
  init : M.labelled il = {i}
  target : M.labelled tl = {M.N - 2}
  fail : M.labelled fl = {M.N - 1}
  goalAbs : Absorbs M (M.N - 2) (M.C - 2)
  failAbs : Absorbs M (M.N - 1) (M.C - 1)
  reach : ∀ s < M.N, s ≠ M.N - 1 → Relation.ReflTransGen (Edge M) i s
  live : ∀ s < M.N, s ≠ M.N - 1 → Relation.ReflTransGen (Edge M) s (M.N - 2)

theorem Absorbs.stuck (hM : M.WF) {s r : Nat} (h : Absorbs M s r) (hs : s < M.N) :
    ∀ x, Relation.ReflTransGen (Edge M) s x → x = s := by
  intro x hx
  induction hx with
  | refl => rfl
  | tail _ he ih =>
    subst ih
    obtain ⟨a'', i, e1, e2, e3⟩ := he
    obtain rfl := h.only _ _ e1 e2
    by_contra hne
    have hsum := hM.sum _ e2
    have hlt := (WF.get_range hM e3).2
    have := Finset.sum_le_sum_of_subset_of_nonneg (f := fun j => M.P.get i j)
      (Finset.insert_subset (Finset.mem_range.2 hs)
        (Finset.singleton_subset_iff.2 (Finset.mem_range.2 hlt)))
      (fun j _ _ => WF.get_nonneg hM _ j)
    rw [hsum, Finset.sum_pair (Ne.symm hne), h.loop] at this
    linarith

theorem statesByLabel_of_labelled (hS : LabelMap M.labS) {l : String} {s : Nat} (h : M.labelled l = {s}) :
    M.statesByLabel l = .ok [s] :=
  statesByLabel_single hS.inv fun x => by rw [← labelled_iff, h]; rfl

/-- **C72.** `ReachabilityForm(system, il, tl, fl)` is accepted exactly if the labels are different, each is carried by
one state, target and fail are the last two states, absorbing and with the last two rows, every state except fail
is reachable from the initial one, and every state except fail reaches the target. -/
theorem C72_accepts_iff (hM : M.WF) (hS : LabelMap M.labS) (hlab : ∀ s ∈ M.labelled il, s < M.N) :
    (∃ rf, RF.make ρ M il tl fl false = .ok rf) ↔ ∃ i, Consistent M il tl fl i := by
  constructor
  · rintro ⟨rf, hrf⟩
    have hc := (make_fields hrf).2.2.2.2 rfl
    obtain ⟨i, hi, ht, hf, hN, hC, hiN, hr, hr', hro, hro', hp, hp', hlive, hreach⟩ := assertConsistency_ok hM hc
    refine ⟨i, ?_, ⟨hN, hC⟩, labelled_of_single hi, labelled_of_single ht, labelled_of_single hf, ⟨hr, hro, hp⟩,
      ⟨hr', hro', hp'⟩, hreach, hlive⟩
    unfold Sys.assertConsistency at hc
    split at hc
    · cases hc
    · tauto
  · rintro ⟨i, h⟩
    obtain ⟨a, ha⟩ := h.goalAbs.row
    obtain ⟨a', ha'⟩ := h.failAbs.row
    have hN := h.size.1
    refine make_total hM (assertConsistency_of hM h.distinct (statesByLabel_of_labelled hS h.init)
      (statesByLabel_of_labelled hS h.target) (statesByLabel_of_labelled hS h.fail) hN h.size.2
      (hlab i (by rw [h.init]; rfl)) ha ha' h.goalAbs.only h.failAbs.only h.goalAbs.loop h.failAbs.loop h.live h.reach ?_) false
    intro hx
    have := h.failAbs.stuck hM (by omega) _ hx
    omega

theorem checkAbsorbing_cases (hM : M.WF) (s off : Nat) :
    M.checkAbsorbing s off = .ok () ∨ M.checkAbsorbing s off = .error .assertion := by
  unfold Sys.checkAbsorbing
  split
  · rename_i t a p hs
    split
    · rename_i hts
      have hmem : (t, a, p) ∈ M.graph.successors s := by rw [hs]; simp
      obtain ⟨i, h1, -⟩ := (WF.successors_mem hM).1 hmem
      subst hts
      rw [Dict.get?_of_mem hM.keys h1]
      simp only
      split
      · exact .inl rfl
      · exact .inr rfl
    · exact .inr rfl
  · exact .inr rfl

theorem uniqueState_cases {l : String} (h : ∃ ss, M.statesByLabel l = .ok ss) :
    (∃ s, M.uniqueState l = .ok s ∧ s ∈ M.labelled l) ∨ M.uniqueState l = .error .assertion := by
  obtain ⟨ss, h⟩ := h
  unfold Sys.uniqueState
  rw [h]
  split
  · rename_i e; cases e
  · rename_i s e
    cases e
    exact .inl ⟨s, rfl, [s], h, by simp⟩
  · exact .inr rfl

/-- **C72.** A system that does not have these properties is rejected with `AssertionError`, provided that the label map
knows the three labels (a map with default sets, as after loading a file, knows all). -/
theorem C72_rejects (hM : M.WF) (hS : LabelMap M.labS) (hlab : ∀ l s, s ∈ M.labelled l → s < M.N)
    (hil : ∃ ss, M.statesByLabel il = .ok ss) (htl : ∃ ss, M.statesByLabel tl = .ok ss)
    (hfl : ∃ ss, M.statesByLabel fl = .ok ss) (h : ∀ i, ¬ Consistent M il tl fl i) :
    RF.make ρ M il tl fl false = .error .assertion := by
  have hne : ¬ ∃ rf, RF.make ρ M il tl fl false = .ok rf := by
    rw [C72_accepts_iff hM hS fun s hs => hlab _ s hs]
    push Not
    exact h
  have hc : M.assertConsistency il tl fl ≠ .ok () := fun hc => hne (make_total hM hc false)
  have : M.assertConsistency il tl fl = .error .assertion := by
    by_contra hx
    unfold Sys.assertConsistency at hc hx
    split at hc
    · rename_i hd; rw [if_pos hd] at hx; exact hx rfl
    rename_i hd
    rw [if_neg hd] at hx
    simp only [bind, Except.bind] at hc hx
    rcases uniqueState_cases hil with ⟨i, e1, m1⟩ | e1
    swap
    · rw [e1] at hx; exact hx rfl
    rcases uniqueState_cases htl with ⟨t, e2, m2⟩ | e2
    swap
    · rw [e1, e2] at hx; exact hx rfl
    rcases uniqueState_cases hfl with ⟨f, e3, m3⟩ | e3
    swap
    · rw [e1, e2, e3] at hx; exact hx rfl
    rw [e1, e2, e3] at hx hc
    simp only at hx hc
    rcases checkAbsorbing_cases hM t 2 with e4 | e4
    swap
    · rw [e4] at hx; exact hx rfl
    rcases checkAbsorbing_cases hM f 1 with e5 | e5
    swap
    · rw [e4, e5] at hx; exact hx rfl
    obtain ⟨m, hm1, -, -⟩ := WF.mask_fwd hM (F := [i]) (B := []) (by simp) (by simp) (by simpa using hlab _ _ m1)
    obtain ⟨m', hm2, -, -⟩ := WF.mask_bwd hM (F := [t]) (B := []) (by simp) (by simp) (by simpa using hlab _ _ m2)
    rw [e4, e5, hm1, hm2] at hx hc
    simp only at hx hc
    split at hx
    · rename_i h1
      rw [if_pos h1] at hc
      split at hx
      · rename_i h2
        rw [if_pos h2] at hc
        exact hc rfl
      · exact hx rfl
    · exact hx rfl
  simp only [RF.make, Bool.false_eq_true, if_false, bind, Except.bind, this]

/-- **C72.** With different labels, the first of which the map does not know, the constructor raises `KeyError`. -/
theorem C72_unknown_label (hd : il ≠ tl ∧ il ≠ fl ∧ tl ≠ fl) (hdf : M.labS.dflt = false)
    (h : M.labS.d.get? il = none) : RF.make ρ M il tl fl false = .error .keyError := by
  have e : M.statesByLabel il = .error .keyError := by
    unfold Sys.statesByLabel IDict.getItem
    rw [h, hdf]
    rfl
  have : M.assertConsistency il tl fl = .error .keyError := by
    unfold Sys.assertConsistency
    rw [if_neg (by tauto)]
    simp only [bind, Except.bind, Sys.uniqueState, e]
  simp only [RF.make, Bool.false_eq_true, if_false, bind, Except.bind, this]

/-! ### C73 -/

/-- What the checks of `RewardReachabilityForm` are documented to ask of a system. -/
structure RewConsistent (M : Sys K) (il tl : String) (i : Nat) : Prop where
  rewards : M.rew ≠ none
  distinct : il ≠ tl
  size : 1 ≤ M.N ∧ 1 ≤ M.C
  init : M.labelled il = {i}
  target : M.labelled tl = {M.N - 1}
  goalAbs : Absorbs M (M.N - 1) (M.C - 1)
  reach : ∀ s < M.N, Relation.ReflTransGen (Edge M) i s
  live : ∀ s < M.N, Relation.ReflTransGen (Edge M) s (M.N - 1)
  noEC : ∀ E, IsEC M E → E = {M.N - 1}

/-- an end component stays within the states reachable from any of its states -/
theorem IsEC.reach {E : Set Nat} (hE : IsEC M E) {x y : Nat} (hx : x ∈ E) (hy : y ∈ E) :
    Relation.ReflTransGen (Edge M) x y := by
  obtain ⟨act, h⟩ := hE
  refine Relation.ReflTransGen.mono ?_ _ _ (h.conn x hx y hy)
  rintro u v ⟨-, a, -, i, h1, h2, h3⟩
  exact ⟨a, i, h1, h2, h3⟩

/-- an absorbing state is an end component -/
theorem Absorbs.isEC (hM : M.WF) {s r : Nat} (h : Absorbs M s r) (hr : r < M.C) (hs : s < M.N) : IsEC M {s} := by
  obtain ⟨a, ha⟩ := h.row
  have h1 : ActTo M s a s := ⟨r, ha, hr, by rw [h.loop]; exact one_pos⟩
  refine ⟨fun _ => {a}, ⟨⟨s, rfl⟩, fun x _ => ⟨a, rfl⟩, ?_, ?_, ?_⟩⟩
  · rintro x rfl b rfl
    exact ⟨x, h1⟩
  · rintro x rfl b rfl d ⟨i, e1, e2, e3⟩
    exact h.stuck hM hs d (Relation.ReflTransGen.single ⟨b, i, e1, e2, e3⟩)
  · rintro x rfl y rfl
    exact Relation.ReflTransGen.refl

theorem count_one {n : Nat} {p : Nat → Bool} {c : Nat} (hc : c < n) (hp : p c = true) :
    ((List.range n).filter p).length = 1 ↔ ∀ d < n, p d = true → d = c := by
  have hmem : ∀ d, d ∈ (List.range n).filter p ↔ d < n ∧ p d = true := by intro d; simp
  constructor
  · intro h d hd hpd
    obtain ⟨x, hx⟩ := List.length_eq_one_iff.1 h
    have h1 := (hmem d).2 ⟨hd, hpd⟩
    have h2 := (hmem c).2 ⟨hc, hp⟩
    rw [hx] at h1 h2
    simp only [List.mem_singleton] at h1 h2
    rw [h1, h2]
  · intro h
    have hnd : ((List.range n).filter p).Nodup := List.nodup_range.filter _
    have : (List.range n).filter p = [c] := eq_singleton hnd fun d => by
      rw [hmem]
      exact ⟨fun ⟨h1, h2⟩ => h d h1 h2, by rintro rfl; exact ⟨hc, hp⟩⟩
    rw [this]; rfl

/-- the test on the end components -/
theorem ec_test (hM : M.WF) {r : Nat} (hN : 0 < M.N) (hr : r < M.C) (habs : Absorbs M (M.N - 1) r)
    (hlive : ∀ s < M.N, Relation.ReflTransGen (Edge M) s (M.N - 1)) (ρ : Graph.Rnd) :
    ∃ R, M.graph.maximalEndComponents ρ = some R ∧
      ((properCount R = 1 ∧ R.2.1 (R.1 (M.N - 1)) = true) ↔ ∀ E, IsEC M E → E = {M.N - 1}) := by
  obtain ⟨mecs, proper, cnt, h1, h2, h3, h4⟩ := C07_mec hM.graph hN ρ
  have hact : ∀ x < M.N, ∃ a d, MatTr (invGet? M.idx) M.P.items x a d := by
    intro x hx
    rw [matTr_eq hM]
    rcases (hlive x hx).cases_head with h | ⟨y, ⟨a, i, e1, e2, e3⟩, -⟩
    · subst h
      obtain ⟨a, ha⟩ := habs.row
      exact ⟨a, M.N - 1, r, ha, hr, by rw [habs.loop]; exact one_pos⟩
    · exact ⟨a, y, i, e1, e2, e3⟩
  have h5 : ∀ x < M.N, (proper (mecs x) = true ↔ ∃ E, IsEC M E ∧ x ∈ E) := fun x hx => by
    have := C08_proper hM.graph ρ hact h1 hx
    rw [matTr_eq hM] at this
    rw [this]
    exact ⟨fun ⟨E, act, e1, e2⟩ => ⟨E, ⟨act, e1⟩, e2⟩, fun ⟨E, ⟨act, e1⟩, e2⟩ => ⟨E, act, e1, e2⟩⟩
  have hg : M.N - 1 < M.N := by omega
  have hEC := habs.isEC hM hr hg
  have hpg : proper (mecs (M.N - 1)) = true := (h5 _ hg).2 ⟨_, hEC, rfl⟩
  refine ⟨(mecs, proper, cnt), h1, ?_⟩
  have hcnt : properCount (mecs, proper, cnt) = ((List.range cnt).filter proper).length := rfl
  rw [hcnt, count_one (h3 _ hg) hpg]
  constructor
  · rintro ⟨hall, -⟩ E hE
    have hsub : ∀ x ∈ E, x = M.N - 1 := by
      intro x hx
      obtain ⟨act, hact'⟩ := id hE
      obtain ⟨a, ha⟩ := hact'.act_nonempty x hx
      obtain ⟨d, i, e1, e2, e3⟩ := hact'.avail x hx a ha
      have hxN := WF.state_lt hM e1 e2
      by_contra hne
      have := hall _ (h3 x hxN) ((h5 x hxN).2 ⟨E, hE, hx⟩)
      rw [h2 x hxN _ hg hne, matTr_eq hM] at this
      obtain ⟨E', act', hE', hx', hy'⟩ := this
      exact hne (habs.stuck hM hg _ (IsEC.reach ⟨act', hE'⟩ hy' hx'))
    refine Set.Subset.antisymm (fun x hx => hsub x hx) ?_
    rintro x rfl
    obtain ⟨act, hact'⟩ := id hE
    obtain ⟨y, hy⟩ := hact'.nonempty
    rwa [← hsub y hy]
  · intro hall
    refine ⟨fun d hd hp => ?_, hpg⟩
    obtain ⟨x, hx, rfl⟩ := h4 d hd
    obtain ⟨E, hE, hxE⟩ := (h5 x hx).1 hp
    rw [hall E hE] at hxE
    rw [Set.mem_singleton_iff] at hxE
    rw [hxE]

/-- **C73.** `assert_system_consistency` accepts exactly the systems with rewards that are in reward reachability form:
different labels, each carried by one state, the last state is the target, absorbing and with the last row, every
state is reachable and reaches the target, and the target is the only end component.  Everything else is rejected
with `AssertionError`. -/
theorem C73_accepts_iff (hM : M.WF) (hS : LabelMap M.labS) (hlab : ∀ l s, s ∈ M.labelled l → s < M.N)
    (hil : ∃ ss, M.statesByLabel il = .ok ss) (htl : ∃ ss, M.statesByLabel tl = .ok ss) :
    ((∃ i, RewConsistent M il tl i) ∧ RRF.assertSystem ρ M il tl = .ok ()) ∨
    ((∀ i, ¬ RewConsistent M il tl i) ∧ RRF.assertSystem ρ M il tl = .error .assertion) := by
  unfold RRF.assertSystem
  cases hrew : M.rew with
  | none => exact .inr ⟨fun i h => h.rewards hrew, rfl⟩
  | some v =>
    simp only
    split
    · rename_i hd; exact .inr ⟨fun i h => h.distinct hd, rfl⟩
    rename_i hd
    simp only [bind, Except.bind]
    rcases uniqueState_cases hil with ⟨i, e1, m1⟩ | e1
    swap
    · refine .inr ⟨fun i h => ?_, by rw [e1]⟩
      rw [uniqueState_of (statesByLabel_of_labelled hS h.init)] at e1
      cases e1
    rcases uniqueState_cases htl with ⟨t, e2, m2⟩ | e2
    swap
    · refine .inr ⟨fun i h => ?_, by rw [e1, e2]⟩
      rw [uniqueState_of (statesByLabel_of_labelled hS h.target)] at e2
      cases e2
    rw [e1, e2]
    simp only
    have hi' : ∀ j, RewConsistent M il tl j → j = i := fun j h => by
      rw [h.init] at m1; exact m1.symm
    rcases checkAbsorbing_cases hM t 1 with e4 | e4
    swap
    · refine .inr ⟨fun i h => ?_, by rw [e4]⟩
      have : t = M.N - 1 := by rw [h.target] at m2; exact m2
      subst this
      obtain ⟨a, ha⟩ := h.goalAbs.row
      have := h.size
      rw [checkAbsorbing_of hM (by decide) (by omega) (r := M.C - 1) (by omega) ha h.goalAbs.only h.goalAbs.loop] at e4
      cases e4
    obtain ⟨hN, r, a, hr, hm, ho, hl⟩ := checkAbsorbing_ok hM (by decide) e4
    obtain rfl : t = M.N - 1 := by omega
    obtain rfl : r = M.C - 1 := by omega
    have hiN := hlab _ _ m1
    have htN := hlab _ _ m2
    obtain ⟨m, hm1, -, hs1⟩ := WF.mask_fwd hM (F := [i]) (B := []) (by simp) (by simp) (by simpa using hiN)
    obtain ⟨m', hm2, -, hs2⟩ := WF.mask_bwd hM (F := [M.N - 1]) (B := []) (by simp) (by simp) (by simpa using htN)
    rw [e4, hm1, hm2]
    simp only
    split
    swap
    · rename_i h1
      refine .inr ⟨fun j h => h1 fun x hx => ?_, rfl⟩
      rw [hs1, reachAvoid_nil]
      have := hi' j h
      subst this
      exact h.reach x hx
    rename_i h1
    split
    swap
    · rename_i h2
      refine .inr ⟨fun j h => h2 fun x hx => ?_, rfl⟩
      rw [hs2, reachAvoid_nil]
      exact Relation.reflTransGen_swap.2 (h.live x hx)
    rename_i h2
    have hlive : ∀ s < M.N, Relation.ReflTransGen (Edge M) s (M.N - 1) := fun s hs => by
      have := h2 s hs
      rw [hs2, reachAvoid_nil] at this
      exact Relation.reflTransGen_swap.1 this
    have hreach : ∀ s < M.N, Relation.ReflTransGen (Edge M) i s := fun s hs => by
      have := h1 s hs
      rwa [hs1, reachAvoid_nil] at this
    have habs : Absorbs M (M.N - 1) (M.C - 1) := ⟨⟨a, hm⟩, ho, hl⟩
    obtain ⟨R, hR, hiff⟩ := ec_test hM (by omega) (by omega) habs hlive ρ
    rw [hR]
    simp only
    split
    · rename_i h3
      refine .inl ⟨⟨i, by rw [hrew]; simp, hd, by omega, ?_, ?_, habs, hreach, hlive, hiff.1 h3⟩, rfl⟩
      · exact labelled_of_single (uniqueState_ok e1)
      · exact labelled_of_single (uniqueState_ok e2)
    · rename_i h3
      exact .inr ⟨fun j h => h3 (hiff.2 h.noEC), rfl⟩

/-- **C52.** `fromsystem` raises `AttributeError` on every system that passes the checks, and `AssertionError` on
every other. -/
theorem C52_raises (hM : M.WF) (hS : LabelMap M.labS) (hlab : ∀ l s, s ∈ M.labelled l → s < M.N)
    (hil : ∃ ss, M.statesByLabel il = .ok ss) (htl : ∃ ss, M.statesByLabel tl = .ok ss) :
    ((∃ i, RewConsistent M il tl i) ∧ RRF.fromSystem ρ M il tl false = .error .attributeError) ∨
    ((∀ i, ¬ RewConsistent M il tl i) ∧ RRF.fromSystem ρ M il tl false = .error .assertion) := by
  rcases C73_accepts_iff (ρ := ρ) hM hS hlab hil htl with ⟨h1, h2⟩ | ⟨h1, h2⟩
  · exact .inl ⟨h1, by simp [RRF.fromSystem, h2, bind, Except.bind]⟩
  · exact .inr ⟨h1, by simp [RRF.fromSystem, h2, bind, Except.bind]⟩

/-! ### Examples -/

theorem exSys_labels : LabelMap (exSys ℚ).labS ∧ ∀ l s, s ∈ (exSys ℚ).labelled l → s < (exSys ℚ).N := by
  constructor
  · exact ⟨id, [("init", [0]), ("goal", [2]), ("fail", [3])], true, [], fun _ => List.Perm.refl _,
      isPyDict_of (by decide +kernel) (by decide +kernel), rfl⟩
  · rintro l s ⟨ss, h1, h2⟩
    have h1 : (IDict.mk' [("init", [0]), ("goal", [2]), ("fail", [3])] true : IDict String Nat).getItem l = .ok ss := h1
    show s < 4
    simp only [IDict.getItem, IDict.mk', Dict.get?] at h1
    split_ifs at h1 <;> simp at h1 <;> subst h1 <;> simp at h2 <;> omega

/-- a system that has the properties -/
example : ∃ i, Consistent (exSys ℚ) "init" "goal" "fail" i :=
  (C72_accepts_iff (ρ := exRnd) (exSys_wf ℚ) exSys_labels.1 fun s => exSys_labels.2 _ s).1 ⟨_, exRF_rat⟩

/-- with other labels it does not have them, and the form is rejected -/
example : RF.make exRnd (exSys ℚ) "goal" "init" "fail" false = .error .assertion :=
  C72_rejects (exSys_wf ℚ) exSys_labels.1 exSys_labels.2 ⟨[2], rfl⟩ ⟨[0], rfl⟩ ⟨[3], rfl⟩ fun i h => by
    have : (0 : Nat) ∈ (exSys ℚ).labelled "init" := ⟨[0], rfl, by simp⟩
    rw [h.target] at this
    exact absurd this (by decide)

example : RF.make exRnd { exSys ℚ with labS := IDict.mk' [("goal", [2]), ("fail", [3])] } "init" "goal" "fail" false =
    .error .keyError := C72_unknown_label (by decide) rfl (by decide)

theorem rwSys_labels (c : ℚ) : ∀ l s, s ∈ (rwSys c).labelled l → s < (rwSys c).N := by
  rintro l s ⟨ss, h1, h2⟩
  have h1 : (IDict.mk' [("start", [0]), ("goal", [2])] true : IDict String Nat).getItem l = .ok ss := h1
  show s < 3
  simp only [IDict.getItem, IDict.mk', Dict.get?] at h1
  split_ifs at h1 <;> simp at h1 <;> subst h1 <;> simp at h2 <;> omega

/-- a system in reward reachability form, on which `fromsystem` raises -/
example : (∃ i, RewConsistent (rwSys 0) "start" "goal" i) ∧
    RRF.fromSystem exRnd (rwSys 0) "start" "goal" false = .error .attributeError := by
  have h : RRF.assertSystem exRnd (rwSys 0) "start" "goal" = .ok () := by decide +kernel
  rcases C52_raises (ρ := exRnd) (il := "start") (tl := "goal") (rwSys_wf 0) (rwSys_input le_rfl).labS (rwSys_labels 0)
    ⟨[0], rwSys_start 0⟩ ⟨[2], by show (mkSys rwP rwI (IDict.mk' [("start", [0]), ("goal", [2])] true)).statesByLabel "goal" = .ok [2]; decide +kernel⟩ with h1 | ⟨-, h2⟩
  · exact h1
  · simp [RRF.fromSystem, h, bind, Except.bind] at h2

end Verif.Props
