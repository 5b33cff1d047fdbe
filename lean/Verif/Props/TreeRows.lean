import Verif.Props.TreeAlgo
import Verif.Props.Original
/-!
# C66: which Markov chains the tree algorithm understands

The tree algorithm uses the numbers of rows and states interchangeably.  `reduce` always numbers them alike for a Markov chain,
but a chain may be built with any assignment of rows to states.
-/
set_option linter.unusedSectionVars false

namespace Verif.Props
open Verif.Model Verif.Model.Reduce Verif.Model.TreeDecomp Verif.Proofs.Tree Verif.Spec Verif.Proofs Verif.Theory Finset

section
variable {α β γ δ : Type} [DecidableEq α] [DecidableEq β] [DecidableEq γ] [DecidableEq δ]

theorem set_map {f : α → γ} (hf : f.Injective) (g : β → δ) (d : Dict α β) (k : α) (v : β) :
    Dict.set (d.map fun e => (f e.1, g e.2)) (f k) (g v) = (Dict.set d k v).map fun e => (f e.1, g e.2) := by
  induction d with
  | nil => simp [Dict.set]
  | cons e d ih => 
    simp only [List.map_cons, Dict.set, hf.eq_iff]
    split <;> simp_all

theorem invGet_map {f : α → γ} {g : β → δ} (hg : g.Injective) (d : Dict α β) (v : β) :
    invGet? (d.map fun e => (f e.1, g e.2)) (g v) = (invGet? d v).map f := by
  unfold invGet?
  rw [List.find?_map]
  simp only [Function.comp_def, hg.eq_iff, Option.map_map]

theorem bput_map {f : α → γ} {g : β → δ} (hf : f.Injective) (hg : g.Injective) (d : Dict α β) (k : α) (v : β) :
    bput (d.map fun e => (f e.1, g e.2)) (f k) (g v) = (bput d k v).map (List.map fun e => (f e.1, g e.2)) := by
  unfold bput
  rw [invGet_map hg, set_map hf]
  cases invGet? d v with
  | none => rfl
  | some k' =>
    simp only [Option.map_some, hf.eq_iff]
    split <;> rfl

end

variable {K : Type} [Field K] [LinearOrder K] [IsStrictOrderedRing K]
variable {ρ : Graph.Rnd} {M : Sys K} {il tl ntl nfl : String} {res : Reduce.Result K}

/-- without actions other than 0 the two maps built by `reduce` list the same states in the same order -/
theorem maps_rows {mask : List Bool} (hd : ∀ s a i, ((s, a), i) ∈ M.idx → a = 0) {cols : Dict Nat Nat} {rows : Dict (Nat × Nat) (Nat × Nat)}
    (h : maps M mask = .ok (cols, rows)) : rows = cols.map fun e => ((e.1, 0), (e.2, 0)) := by
  unfold maps at h
  simp only [bind, Except.bind] at h
  split at h
  · cases h
  rename_i st hst
  cases h
  refine foldlM_inv (I := fun _ st => st.rows = st.cols.map fun e => ((e.1, 0), (e.2, 0))) _ [] _ _ (fun pre i st st' _ hI hs => ?_) rfl hst
  unfold mapStep at hs
  split at hs
  · cases hs
  rename_i s a hi
  obtain rfl : a = 0 := hd s a i (mem_of_invGet? hi)
  split at hs
  · cases hs
  · cases hs; exact hI
  generalize hst1 : (if st.map.has s = true then st else { st with map := st.map.set s st.next, next := st.next + 1 } : MapState) = st1 at hs
  have hI1 : st1.rows = st1.cols.map fun e => ((e.1, 0), (e.2, 0)) := by
    rw [← hst1]; split <;> exact hI
  dsimp only at hs
  split at hs
  · cases hs
  rename_i idx _
  have hb := bput_map (f := fun s : Nat => (s, 0)) (g := fun s : Nat => (s, 0)) (fun _ _ e => (Prod.mk.inj e).1) (fun _ _ e => (Prod.mk.inj e).1)
    st1.cols s idx
  rw [← hI1] at hb
  simp only [bind, Except.bind, hb] at hs
  cases hc : bput st1.cols s idx with
  | error e => rw [hc] at hs; cases hs
  | ok c =>
    rw [hc] at hs
    cases hs
    rfl

/-- **C66 (reduced chains).** In the form that `reduce` makes from a Markov chain, whatever rows its states have, row and state
numbers agree. -/
theorem C66_reduced_rows (hM : Input M) (h : M.reduce ρ il tl ntl nfl = .ok res) (hd : ∀ s a i, ((s, a), i) ∈ M.idx → a = 0) :
    RowsAreStates res.rf.sys := by
  obtain ⟨T, i0, mask, hR, hrf⟩ := reduce_spec hM.wf hM.labS.inv hM.labA.inv h
  have hrows : res.rows = res.cols.map fun e => ((e.1, 0), (e.2, 0)) := by
    unfold Sys.reduce at h
    simp only [bind, Except.bind] at h
    repeat' split at h
    all_goals first
      | cases h; done
      | skip
    all_goals (cases h; exact maps_rows hd (by assumption))
  have hlen : res.rows.length = res.cols.length := by rw [hrows, List.length_map]
  intro s a k hk
  rcases (hR.red.idx s a k).1 hk with ⟨o, ho⟩ | ⟨rfl, rfl, rfl⟩ | ⟨rfl, rfl, rfl⟩
  · rw [hrows, List.getElem?_map, Option.map_eq_some_iff] at ho
    obtain ⟨e, h1, h2⟩ := ho
    simp only [Prod.mk.injEq] at h2
    obtain ⟨-, rfl, rfl⟩ := h2
    refine ⟨rfl, ?_⟩
    have h3 := congrArg (·[k]?) hR.red.maps.vals
    simp only [List.getElem?_map, h1, Option.map_some] at h3
    obtain ⟨h4, h5⟩ := List.getElem?_eq_some_iff.1 h3.symm
    rw [List.getElem_range] at h5
    exact h5
  · exact ⟨rfl, hlen⟩
  · exact ⟨rfl, by rw [hlen]⟩

variable {lin : Nat → (Nat → K) → (Nat → K) → Nat → K} {hull : Nat → Dict Nat (List (List K)) → List (Nat × List K)}
variable {parts : List (List Nat)} {order : List Nat} {ub : Nat} {t : K} {φ : K →+*o ℝ}

/-- **C66 (original chain).** Let a Markov chain - with any assignment of rows to states - be reduced, and let the tree algorithm
return a number for the reduced form and a path of parts as in `C66_path_partial`.  Then the number is the least size of a set of
states of the original chain through which a target state is reached with at least the required probability. -/
theorem C66_original_partial (hM : Input M) (hne : ntl ≠ nfl) (h : M.reduce ρ il tl ntl nfl = .ok res)
    (hd : ∀ s a i, ((s, a), i) ∈ M.idx → a = 0) {i : Nat} (hi : i ∈ M.labelled il)
    (H : TreeOK res.rf.chain parts order) (hl : LinOK lin) (hh : HullOK (φ : K →+* ℝ) hull) (ht : 0 < t) {k : Nat}
    (hk : minWitnesses lin res.rf.chain parts hull order t ub = .ok k) (mode : Mode) :
    (∃ A : Finset Nat, A.card = k ∧ φ t ≤ M.prWithin φ mode A (M.labelled tl) i) ∧
    ∀ A : Finset Nat, φ t ≤ M.prWithin φ mode A (M.labelled tl) i → k ≤ A.card := by
  classical
  have hidx := C66_reduced_rows hM h hd
  obtain ⟨hI, -, -, -, hrf⟩ := C13_reduce_again hM hne h
  obtain ⟨hi1, hi2⟩ := reduced_initial hM hne h hi
  have hlive := rflive_built hI.wf hrf
  have hctx := chain_ctx hlive hidx φ H
  have ht' : 0 < φ t := (phi_pos φ).2 ht
  obtain ⟨T, hT, x, rfl, -, hx, hv⟩ := hctx.exact_sound hl hh hk
  have hmin : ∀ A : Finset Nat, φ t ≤ M.prWithin φ mode A (M.labelled tl) i → T.card ≤ A.card := by
    intro A hA
    obtain ⟨W, hW⟩ : ∃ W : Finset Nat, ∀ s', s' ∈ W ↔ s' < res.rf.N ∧ ∃ s ∈ (A : Set Nat), res.cols.get? s = some s' :=
      ⟨(range res.rf.N).filter fun s' => ∃ s ∈ (A : Set Nat), res.cols.get? s = some s', fun s' => by simp only [mem_filter, mem_range]⟩
    have hWN : W ⊆ range res.rf.N := fun s hs => mem_range.2 ((hW s).1 hs).1
    have hc := cost_image_le hM hne h none A
    unfold cost size at hc
    simp only at hc
    refine le_trans (hctx.exact_min hl hh ht' hk hWN (cutVal_val hlive.toRFOK hidx φ mode W hWN) ?_)
      (le_trans (card_le_card fun s hs => by simp only [mem_filter, mem_range]; exact (hW s).1 hs) hc)
    have := reduced_within (mode := mode) hM h φ hlive.toRFOK (A := (A : Set Nat)) (U := (· ∈ W)) (fun d d' hd' => by
        rw [hW, image_iff hM h A d d' hd', and_iff_right]
        exact ((C16_reduce_maps hM h).2.1 d').2 ⟨d, hd'⟩) hi1 hi2
    rw [← this] at hA
    show φ t ≤ if hs : res.rf.initial < res.rf.N then _ else _
    rw [dif_pos hi2]
    exact hA
  refine ⟨⟨originF M res (· ∈ T), ?_, ?_⟩, hmin⟩
  · have hw : φ t ≤ M.prWithin φ mode (originF M res (· ∈ T)) (M.labelled tl) i := by
      rw [coe_originF hM h, ← reduced_within (mode := mode) hM h φ hlive.toRFOK (origin_iff res (· ∈ T)) hi1 hi2,
        cutVal_of_val hlive hidx mode hT hx]
      exact hv
    refine le_antisymm ?_ (hmin _ hw)
    have := size_origin_le hM hne h none (· ∈ T)
    unfold cost size at this
    simp only at this
    exact this.trans (card_le_card fun s hs => by simp only [mem_filter] at hs; exact hs.2)
  · rw [coe_originF hM h, ← reduced_within (mode := mode) hM h φ hlive.toRFOK (origin_iff res (· ∈ T)) hi1 hi2,
      cutVal_of_val hlive hidx mode hT hx]
    exact hv

/-! ### chains that are not reduced -/

/-- 0 goes to 1 and 2, 1 to the target or fail, 2 to the target; the row of state 1 is 2 and the row of state 2 is 1 -/
def crossSys : Sys ℚ :=
  mkSys ⟨5, 5, [((0, 1), 3/4), ((0, 2), 1/4), ((1, 3), 1), ((2, 3), 1/2), ((2, 4), 1/2), ((3, 3), 1), ((4, 4), 1)]⟩
    [((0, 0), 0), ((1, 0), 2), ((2, 0), 1), ((3, 0), 3), ((4, 0), 4)]
    (IDict.mk' [("init", [0]), ("goal", [3]), ("fail", [4])] true)

theorem crossSys_wf : crossSys.WF :=
  mkSys_wf (by decide +kernel) (by decide +kernel) (by decide +kernel) (by decide +kernel) (by decide +kernel) (by decide +kernel)

/-- **C66** is false for a Markov chain with other rows: a number is returned although no subsystem, not even the whole chain,
reaches the target with the required probability. -/
theorem C66_rows_false : ∃ (M : Sys ℚ) (rf : RF ℚ), M.WF ∧ (∀ s a i, ((s, a), i) ∈ M.idx → a = 0) ∧
    RF.make exRnd M "init" "goal" "fail" false = .ok rf ∧ TreeOK rf.chain [[0, 1, 2]] [0] ∧ LinOK (cramer (K := ℚ)) ∧
    minWitnesses cramer rf.chain [[0, 1, 2]] keepAll [0] (7/8) 3 = .ok 3 ∧
    ∀ (φ : ℚ →+*o ℝ) mode k, ¬ Witness rf "init" "goal" φ mode (7/8) none k := by
  obtain ⟨rf, hrf, h0⟩ : ∃ rf, RF.make exRnd crossSys "init" "goal" "fail" false = .ok rf ∧
      (yes (check rf .max .le (5/8) [5/8, 1/2, 1] 0) && decide (rf.initial = 0)) = true :=
    exists_of_ok_and (by decide +kernel)
  rw [Bool.and_eq_true, decide_eq_true_iff] at h0
  obtain ⟨h1, h2⟩ := h0
  have hL : LabelMap crossSys.labS := ⟨id, [("init", [0]), ("goal", [3]), ("fail", [4])], true, [], fun _ => List.Perm.refl _,
    isPyDict_of (by decide +kernel) (by decide +kernel), rfl⟩
  have hc : rf.chain = treeChain crossSys := by
    obtain ⟨e, -⟩ := make_fields hrf
    unfold RF.chain treeChain RF.N RF.C RF.P RF.b
    rw [e, h2]
  refine ⟨crossSys, rf, crossSys_wf, ?_, hrf, ?_, cramer_ok, ?_, ?_⟩
  · have : ∀ e ∈ crossSys.idx, e.1.2 = 0 := by decide +kernel
    exact fun s a i h => this _ h
  · rw [hc]; exact treeCheck'_sound (by decide +kernel) (by decide +kernel)
  · rw [hc]; decide +kernel
  · rintro φ mode k ⟨v, mode', ig, y, ρ, res, n, g1, g2, g3, g4, -⟩
    have hi : 0 ∈ crossSys.labelled "init" := ⟨[0], by decide +kernel, by simp⟩
    obtain ⟨ks, k1, k2, -⟩ := C47_construction crossSys_wf hL hrf g1 g2
    have hk : Naming crossSys mode' v ks := ⟨k1, k2⟩
    have hn := sub_initial crossSys_wf hL hrf g1 g2 g3 hk
    rw [h2] at hn
    obtain ⟨c1, c2⟩ := C46_le crossSys_wf hL hrf g1 g2 φ hk hn
    have c3 := C21_max_le_sound crossSys_wf hrf φ (yes_iff.1 h1) hi
    have c4 : crossSys.prMin φ (crossSys.labelled "goal") 0 ≤ crossSys.prMax φ (crossSys.labelled "goal") 0 := by
      have hN : 0 < rf.N := by
        have : rf.chain.n = 3 := by rw [hc]; rfl
        have h3 : rf.N = 3 := this
        omega
      rw [prMin_core crossSys_wf hrf φ ⟨0, hN⟩, prMax_core crossSys_wf hrf φ ⟨0, hN⟩]
      exact Core.Vmin_le_Vmax ((rfok_built crossSys_wf hrf).sub φ).toOK ((rfok_built crossSys_wf hrf).sub φ).bound _
    have c5 : φ (5/8) < φ (7/8) := phi_strict φ (by norm_num)
    unfold Model.Sys.pr at g4
    cases mode with
    | min => simp only at g4; linarith
    | max => simp only at g4; linarith

/-- the hypotheses of `C66_original_partial` are met by this chain: for its reduced form the answer is right -/
example : ∃ res, Input crossSys ∧ crossSys.reduce exRnd "init" "goal" "target" "sink" = .ok res ∧
    (∀ s a i, ((s, a), i) ∈ crossSys.idx → a = 0) ∧ 0 ∈ crossSys.labelled "init" ∧
    TreeOK res.rf.chain [[0, 1, 2, 3]] [0] ∧ LinOK (cramer (K := ℚ)) ∧
    minWitnesses cramer res.rf.chain [[0, 1, 2, 3]] keepAll [0] (5/8) 4 = .ok 4 := by
  obtain ⟨res, hres, h2⟩ : ∃ res, crossSys.reduce exRnd "init" "goal" "target" "sink" = .ok res ∧
      (treeCheck res.rf.chain [[0, 1, 2, 3]] [0] && (treeCheck' res.rf.chain [[0, 1, 2, 3]] [0] &&
        decide (minWitnesses cramer res.rf.chain [[0, 1, 2, 3]] keepAll [0] (5/8) 4 = .ok 4))) = true :=
    exists_of_ok_and (by decide +kernel)
  rw [Bool.and_eq_true, Bool.and_eq_true, decide_eq_true_iff] at h2
  refine ⟨res, ⟨crossSys_wf, ?_, ?_, labelMap_empty⟩, hres, ?_, ⟨[0], by decide +kernel, by simp⟩, treeCheck'_sound h2.1 h2.2.1, cramer_ok, h2.2.2⟩
  · intro s hs
    have hs : s < 5 := hs
    have : ∀ s < 5, ∃ e ∈ crossSys.idx, e.1.1 = s ∧ e.2 < crossSys.C := by decide +kernel
    obtain ⟨⟨⟨s', a⟩, i⟩, h1, rfl, h2⟩ := this s hs
    exact ⟨a, i, h1, h2⟩
  · exact ⟨id, [("init", [0]), ("goal", [3]), ("fail", [4])], true, [], fun _ => List.Perm.refl _,
      isPyDict_of (by decide +kernel) (by decide +kernel), rfl⟩
  · have : ∀ e ∈ crossSys.idx, e.1.2 = 0 := by decide +kernel
    exact fun s a i h => this _ h

end Verif.Props
