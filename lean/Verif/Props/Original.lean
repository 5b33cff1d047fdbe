import Verif.Proofs.Within
import Verif.Props.QSHeur
/-!
# C86: what results computed for a reduced model say about the original model

`M` is a model, `res` the answer of `reduce`.  A set of states of the reduced model is translated back with the state
map that `reduce` returns.  `M.prWithin φ mode A T i` is the minimal (maximal) probability, in the original model, of
reaching `T` from `i` through states of `A` only.
-/
set_option linter.unusedSectionVars false

namespace Verif.Props
open Verif.Model Verif.Spec Verif.Proofs Verif.Theory Verif.Proofs.IDict Finset

variable {K : Type} [Field K] [LinearOrder K] [IsStrictOrderedRing K]
variable {ρ ρ' : Graph.Rnd} {M : Sys K} {il tl ntl nfl : String} {res : Reduce.Result K} {mode : Mode}

/-! ### the notion itself -/

/-- reaching the target through arbitrary states is reaching the target -/
theorem prWithin_univ (hM : M.WF) (ht : M.Total) (φ : K →+*o ℝ) (T : Set Nat) (s : Nat) :
    M.prWithin φ .min Set.univ T s = M.prMin φ T s ∧ M.prWithin φ .max Set.univ T s = M.prMax φ T s := by
  classical
  by_cases hs : s < M.N
  · have hF : ∀ t : Fin M.N, t ∈ (univ.filter fun t : Fin M.N => t.1 ∈ T) ↔ t.1 ∈ T := by simp
    obtain ⟨h1, h2⟩ := sys_prWithin_eq (A := Set.univ) φ (WF.valid hM φ ht) hF ⟨s, hs⟩
    have e : (Core.ofMDP (M.toMDP φ) (WF.valid hM φ ht) (univ.filter fun t : Fin M.N => t.1 ∈ T)).cut {t | t.1 ∈ (Set.univ : Set Nat)} =
        Core.ofMDP (M.toMDP φ) (WF.valid hM φ ht) (univ.filter fun t : Fin M.N => t.1 ∈ T) := by
      unfold Core.cut
      simp
    simp only at h1 h2
    rw [h1, h2, e, ← sys_prMin_eq φ (WF.valid hM φ ht) hF ⟨s, hs⟩, ← sys_prMax_eq φ (WF.valid hM φ ht) hF ⟨s, hs⟩]
    exact ⟨rfl, rfl⟩
  · simp [Sys.prWithin, Sys.prMin, Sys.prMax, hs]

/-- more states, more probability -/
theorem prWithin_mono (hM : M.WF) (ht : M.Total) (φ : K →+*o ℝ) {A B : Set Nat} (hAB : A ⊆ B) (T : Set Nat) (s : Nat) :
    M.prWithin φ mode A T s ≤ M.prWithin φ mode B T s := by
  classical
  by_cases hs : s < M.N
  · have hF : ∀ t : Fin M.N, t ∈ (univ.filter fun t : Fin M.N => t.1 ∈ T) ↔ t.1 ∈ T := by simp
    obtain ⟨h1, h2⟩ := sys_prWithin_eq (A := A) φ (WF.valid hM φ ht) hF ⟨s, hs⟩
    obtain ⟨h3, h4⟩ := sys_prWithin_eq (A := B) φ (WF.valid hM φ ht) hF ⟨s, hs⟩
    have hsub := Bridge.sub (WF.valid hM φ ht) (univ.filter fun t : Fin M.N => t.1 ∈ T)
    simp only at h1 h2 h3 h4
    cases mode with
    | min => rw [h1, h3]; exact Core.cut_Vmin_mono hsub (fun t ht => hAB ht) _
    | max => rw [h2, h4]; exact Core.cut_Vmax_mono hsub (fun t ht => hAB ht) _
  · simp [Sys.prWithin, hs]

/-! ### translating sets of states -/

/-- the states of the original model whose image satisfies `U` -/
def Origin (res : Reduce.Result K) (U : Nat → Prop) : Set Nat := {s | ∃ s', res.cols.get? s = some s' ∧ U s'}

/-- the size of a set of states of the original model: the number of states, or of the given labels that occur on them -/
noncomputable def size (M : Sys K) (labels : Option (List String)) (A : Finset Nat) : Nat := by
  classical
  exact match labels with
  | none => A.card
  | some ls => (ls.toFinset.filter fun l => ∃ s ∈ A, s ∈ M.labelled l).card

/-- **C13**, **C45.** The reduced system is an input to everything that follows: it is well-formed, every state has an
action, its label maps are dictionaries with default, a chain has the action 0 only, and building the reachability
form from it with the checks gives the same form. -/
theorem C13_reduce_again (hM : Input M) (hne : ntl ≠ nfl) (h : M.reduce ρ il tl ntl nfl = .ok res) :
    Input res.rf.sys ∧ res.rf.sys.labS.dflt = true ∧ res.rf.sys.labA.dflt = true ∧
    (res.rf.sys.dtmc = true → ∀ s a i, ((s, a), i) ∈ res.rf.sys.idx → a = 0) ∧
    RF.make ρ res.rf.sys il ntl nfl false = .ok res.rf := by
  obtain ⟨T, i0, mask, hR, hrf⟩ := reduce_spec hM.wf hM.labS.inv hM.labA.inv h
  obtain ⟨i', hi'⟩ := hR.init_kept hrf
  have hc := hR.consistent hM.wf hM.total hne hi'
  have hml : ∀ {α β : Type} [DecidableEq α] [DecidableEq β] {x : IDict α β}, Inv x → x.i = none → LabelMap x := by
    intro α β _ _ x hx hi
    refine ⟨id, x.d, x.dflt, [], fun _ => List.Perm.refl _, ⟨hx.ok.1, fun p hp => hx.ok.2 p.1 p.2 (Dict.get?_of_mem hx.ok.1 hp)⟩, ?_⟩
    obtain ⟨d, i, f⟩ := x
    subst hi
    rfl
  rw [make_false_of_true hc] at hrf
  exact ⟨⟨hR.red.wf, (rfok_built hR.red.wf hrf).total, hml hR.red.labI hR.red.noInv, hml hR.red.labAI hR.red.noInvA⟩, hR.red.labSd, hR.red.labAd,
    fun hd s a i hi => hR.red.act0 hd _ hi, hrf⟩

/-- the restriction of the reduced form to `U` and the original model within `A` -/
theorem reduced_within (hM : Input M) (h : M.reduce ρ il tl ntl nfl = .ok res) (φ : K →+*o ℝ)
    (ho : RFOK res.rf) {A : Set Nat} {U : Nat → Prop} (hU : ∀ d d', res.cols.get? d = some d' → (U d' ↔ d ∈ A))
    {s s' : Nat} (hs : res.cols.get? s = some s') (h' : s' < res.rf.N) :
    cutVal ho φ mode U ⟨s', h'⟩ = M.prWithin φ mode A (M.labelled tl) s := by
  obtain ⟨T, i0, mask, hR, hrf⟩ := reduce_spec hM.wf hM.labS.inv hM.labA.inv h
  obtain ⟨h1, h2⟩ := hR.prWithin_eq hM.wf hM.total ho φ (Dict.mem_of_get? hs) h' (A := A) (U := U)
    fun d d' hd => hU d d' (Dict.get?_of_mem hR.red.maps.nd hd)
  cases mode with
  | min => exact h1
  | max => exact h2

/-- the initial state of the original model is mapped to the initial state of the form -/
theorem reduced_initial (hM : Input M) (hne : ntl ≠ nfl) (h : M.reduce ρ il tl ntl nfl = .ok res) {i : Nat}
    (hi : i ∈ M.labelled il) : res.cols.get? i = some res.rf.initial ∧ res.rf.initial < res.rf.N := by
  obtain ⟨T, i0, mask, hR, hrf⟩ := reduce_spec hM.wf hM.labS.inv hM.labA.inv h
  obtain ⟨i', hi'⟩ := hR.init_kept hrf
  have hi0 : i = i0 := by simpa using (mem_T hR.hi i).2 hi
  subst hi0
  have hil : i' ∈ res.rf.sys.labelled il := by
    rw [← mem_T ((hR.labels hne).2.2.2.2 i' hi')]; simp
  have e := initial_eq (C13_reduce_again hM hne h).1.wf (C13_reduce_again hM hne h).2.2.2.2 hil
  have hlt := hR.red.maps.col_lt hi'
  have hN := hR.red.hN
  rw [← e]
  exact ⟨Dict.get?_of_mem hR.red.maps.nd hi', by unfold RF.N; omega⟩

theorem origin_iff (res : Reduce.Result K) (U : Nat → Prop) :
    ∀ d d', res.cols.get? d = some d' → (U d' ↔ d ∈ Origin res U) := by
  intro d d' hd
  constructor
  · intro hu; exact ⟨d', hd, hu⟩
  · rintro ⟨d'', h1, h2⟩
    rw [hd] at h1
    cases h1
    exact h2

theorem image_iff (hM : Input M) (h : M.reduce ρ il tl ntl nfl = .ok res) (A : Set Nat) :
    ∀ d d', res.cols.get? d = some d' → ((∃ s ∈ A, res.cols.get? s = some d') ↔ d ∈ A) := by
  intro d d' hd
  constructor
  · rintro ⟨s, h1, h2⟩
    rwa [(C16_reduce_maps hM h).2.2.1 _ _ _ hd h2]
  · intro hA; exact ⟨d, hA, hd⟩

/-- the image of a set of states is not larger than the set -/
theorem cost_image_le (hM : Input M) (hne : ntl ≠ nfl) (h : M.reduce ρ il tl ntl nfl = .ok res) (labels : Option (List String))
    (A : Finset Nat) : cost res.rf.sys labels (fun s' => ∃ s ∈ (A : Set Nat), res.cols.get? s = some s') ≤ size M labels A := by
  classical
  unfold cost size
  cases labels with
  | none =>
    simp only
    refine le_trans (card_le_card (t := (A.image fun s => (res.cols.get? s).getD 0)) fun s' hs => ?_) card_image_le
    simp only [mem_filter] at hs
    obtain ⟨-, s, h1, h2⟩ := hs
    rw [mem_image]
    exact ⟨s, by simpa using h1, by rw [h2]; rfl⟩
  | some ls =>
    simp only
    refine card_le_card fun l hl => ?_
    rw [mem_filter] at hl ⊢
    obtain ⟨h1, s', h2, s, h3, h4⟩ := hl
    exact ⟨h1, s, by simpa using h3, ((C17_reduce_labels hM hne h).1 s s' h4 l).2 h2⟩

open Classical in
/-- the origin of a set of states, as a finite set -/
noncomputable def originF (M : Sys K) (res : Reduce.Result K) (U : Nat → Prop) : Finset Nat := (range M.N).filter (· ∈ Origin res U)

theorem coe_originF (hM : Input M) (h : M.reduce ρ il tl ntl nfl = .ok res) (U : Nat → Prop) :
    (originF M res U : Set Nat) = Origin res U := by
  classical
  obtain ⟨T, i0, mask, hR, -⟩ := reduce_spec hM.wf hM.labS.inv hM.labA.inv h
  ext s
  unfold originF
  simp only [coe_filter, mem_range, Set.mem_ofPred_eq]
  refine ⟨fun g => g.2, fun g => ⟨?_, g⟩⟩
  obtain ⟨s', g1, -⟩ := g
  exact hR.red.maps.col_state_lt hM.wf (Dict.mem_of_get? g1)

theorem size_origin_le (hM : Input M) (hne : ntl ≠ nfl) (h : M.reduce ρ il tl ntl nfl = .ok res) (labels : Option (List String))
    (U : Nat → Prop) : size M labels (originF M res U) ≤ cost res.rf.sys labels U := by
  classical
  have hmem : ∀ s, s ∈ originF M res U → s ∈ Origin res U := fun s hs => by
    rw [← coe_originF hM h U]; exact mem_coe.2 hs
  unfold cost size
  cases labels with
  | none =>
    simp only
    refine card_le_card_of_injOn (fun s => (res.cols.get? s).getD 0) (fun s hs => ?_) (fun s₁ h1 s₂ h2 e => ?_)
    · obtain ⟨s', g1, g2⟩ := hmem s hs
      simp only [g1, Option.getD_some, coe_filter, mem_range, Set.mem_ofPred_eq]
      exact ⟨((C16_reduce_maps hM h).2.1 s').2 ⟨s, g1⟩, g2⟩
    · obtain ⟨s1', g1, -⟩ := hmem s₁ (mem_coe.1 h1)
      obtain ⟨s2', g2, -⟩ := hmem s₂ (mem_coe.1 h2)
      simp only [g1, g2, Option.getD_some] at e
      subst e
      exact (C16_reduce_maps hM h).2.2.1 _ _ _ g1 g2
  | some ls =>
    simp only
    refine card_le_card fun l hl => ?_
    rw [mem_filter] at hl ⊢
    obtain ⟨h1, s, h2, h3⟩ := hl
    obtain ⟨s', g1, g2⟩ := hmem s h2
    exact ⟨h1, s', ((C17_reduce_labels hM hne h).1 s s' g1 l).1 h3, g2⟩

/-! ### C86 -/

/-- **C86.** The extremal probability of reaching the target in a subsystem of the reduced model - made from any vector
of either kind - is the extremal probability, in the original model, of reaching the old targets through states that
are selected. -/
theorem C86_subsystem (hM : Input M) (hne : ntl ≠ nfl) (h : M.reduce ρ il tl ntl nfl = .ok res) (φ : K →+*o ℝ)
    {v : List K} {mode' : Mode} {ig : Bool} {x : Subsystem K} {sub : Subsystem.Result K}
    (hx : Subsystem.make res.rf v mode' ig = .ok x) (hr : x.subsys ρ' = .ok sub)
    {i n : Nat} (hi : i ∈ M.labelled il) (hn : n ∈ sub.rf.sys.labelled il) :
    sub.rf.sys.pr φ mode (sub.rf.sys.labelled ntl) n =
      M.prWithin φ mode (Origin res (Selected res.rf.sys mode' v)) (M.labelled tl) i := by
  obtain ⟨hI, -, -, -, hrf⟩ := C13_reduce_again hM hne h
  obtain ⟨ks, k1, k2, -⟩ := C47_construction hI.wf hI.labS hrf hx hr
  have hk : Naming res.rf.sys mode' v ks := ⟨k1, k2⟩
  obtain ⟨hs, v1, v2⟩ := sub_values hI.wf hI.labS hrf hx hr φ hk (sub_initial hI.wf hI.labS hrf hx hr hn hk)
  obtain ⟨hi1, -⟩ := reduced_initial hM hne h hi
  have := reduced_within (mode := mode) hM h φ (rfok_built hI.wf hrf) (origin_iff res (Selected res.rf.sys mode' v)) hi1 hs
  rw [← this]
  unfold Model.Sys.pr
  cases mode with
  | min => exact v1
  | max => exact v2

/-- **C86.** A certificate accepted for the reduced model (for `max`: non-negative) selects states through which the
targets of the original model are reached with the certified probability. -/
theorem C86_certificate (hM : Input M) (hne : ntl ≠ nfl) (h : M.reduce ρ il tl ntl nfl = .ok res) (φ : K →+*o ℝ)
    {t : K} {v : List K} {i : Nat} (hi : i ∈ M.labelled il) (hv : mode = .max → ∀ x ∈ v, 0 ≤ x) :
    (check res.rf mode .ge t v 0 = .ok true →
      φ t ≤ M.prWithin φ mode (Origin res (Selected res.rf.sys mode v)) (M.labelled tl) i) ∧
    (check res.rf mode .gt t v 0 = .ok true →
      φ t < M.prWithin φ mode (Origin res (Selected res.rf.sys mode v)) (M.labelled tl) i) := by
  obtain ⟨hI, -, -, -, hrf⟩ := C13_reduce_again hM hne h
  obtain ⟨hi1, hi2⟩ := reduced_initial hM hne h hi
  rw [← reduced_within (mode := mode) hM h φ (rfok_built hI.wf hrf) (origin_iff res (Selected res.rf.sys mode v)) hi1 hi2]
  cases mode with
  | min =>
    exact ⟨fun hc => (support_min hI.wf hrf φ (strict := false) hc).2.1, fun hc => (support_min hI.wf hrf φ (strict := true) hc).2.2 rfl⟩
  | max =>
    exact ⟨fun hc => (support_max hI.wf hrf φ (strict := false) (hv rfl) hc).2.1,
      fun hc => (support_max hI.wf hrf φ (strict := true) (hv rfl) hc).2.2 rfl⟩

variable {t : K} {lpSolver solver : Milp K → Answer K} {labels : Option (List String)} {be : Backend}
  {r : ProblemResult (Subsystem K) K}

/-- **C86.** A success of `MILPExact` on the reduced model gives a smallest set of states (or a set with the fewest labels)
of the original model through which the targets are reached with probability at least `t`; "infeasible" means that
they are not reached with probability `t` through any set of states. -/
theorem C86_exact (hM : Input M) (hne : ntl ≠ nfl) (h : M.reduce ρ il tl ntl nfl = .ok res) (φ : K →+*o ℝ)
    (hlp : ∀ lp, (lpSolver lp).Sound lp) (hs : ∀ m, (solver m).Sound m) {i : Nat} (hi : i ∈ M.labelled il)
    (hr : r ∈ (solveIter res.rf.form t (milpExact res.rf.form lpSolver solver t mode labels be)).1) :
    (r.status = .success → ∃ (cert : List K) (k : Nat) (A : Finset Nat), r.cert = some cert ∧ r.value = some (k : K) ∧
      (∀ s, s ∈ A ↔ ∃ s', res.cols.get? s = some s' ∧ Selected res.rf.sys mode cert s') ∧ size M labels A = k ∧
      φ t ≤ M.prWithin φ mode A (M.labelled tl) i ∧
      ∀ A' : Finset Nat, φ t ≤ M.prWithin φ mode A' (M.labelled tl) i → k ≤ size M labels A') ∧
    (r.status = .failed .infeasible → ∀ A : Set Nat, M.prWithin φ mode A (M.labelled tl) i < φ t) := by
  obtain ⟨hI, -, -, -, hrf⟩ := C13_reduce_again hM hne h
  obtain ⟨hi1, hi2⟩ := reduced_initial hM hne h hi
  obtain ⟨m1, m2⟩ := exact_minimal_cut hI.wf hrf φ hlp hs hr
  refine ⟨fun hst => ?_, fun hst A => ?_⟩
  · obtain ⟨cert, x, k, rfl, g1, g2, g3, g4, g5⟩ := exact_sound hI.wf hI.labS hrf hlp hs hr hst
    obtain ⟨k', e, hmin⟩ := m1 hst
    have : k = k' := by simpa using e
    subst this
    have hb := (C86_certificate hM hne h φ hi (fun _ => g3)).1 g2
    rw [← coe_originF hM h] at hb
    have hall : ∀ A' : Finset Nat, φ t ≤ M.prWithin φ mode A' (M.labelled tl) i → k ≤ size M labels A' := fun A' hA' =>
      le_trans (hmin _ hi2 (by rw [reduced_within hM h φ _ (image_iff hM h A') hi1 hi2]; exact hA'))
        (cost_image_le hM hne h labels A')
    refine ⟨cert, k, originF M res (Selected res.rf.sys mode cert), rfl, rfl, fun s => ?_, ?_, hb, hall⟩
    · rw [← mem_coe, coe_originF hM h]; rfl
    · exact le_antisymm (by rw [g4]; exact size_origin_le hM hne h labels _) (hall _ hb)
  · by_contra hn
    exact m2 hst _ hi2 (by rw [reduced_within hM h φ _ (image_iff hM h A) hi1 hi2]; exact not_lt.1 hn)

theorem labelsOK_reduced (hM : Input M) (hne : ntl ≠ nfl) (h : M.reduce ρ il tl ntl nfl = .ok res)
    (hl : ∀ ls, labels = some ls → ntl ∉ ls ∧ nfl ∉ ls) : LabelsOK res.rf.sys labels := by
  obtain ⟨-, hd, -⟩ := C13_reduce_again hM hne h
  obtain ⟨-, l1, l2, -⟩ := C17_reduce_labels hM hne h
  obtain ⟨T, i0, mask, hR, hrf⟩ := reduce_spec hM.wf hM.labS.inv hM.labA.inv h
  have hN := hR.red.hN
  rintro ls e l hm
  constructor
  · unfold Model.Sys.statesByLabel IDict.getItem
    split
    · rw [if_pos hd]; exact ⟨_, rfl⟩
    · exact ⟨_, rfl⟩
  · intro s hs
    rcases (hR.red.labS l s).1 (labelled_iff.1 hs) with ⟨s0, h1, -⟩ | ⟨h1, -⟩ | ⟨h1, -⟩
    · have := hR.red.maps.col_lt h1
      omega
    · exact absurd (h1 ▸ hm) (hl ls e).1
    · exact absurd (h1 ▸ hm) (hl ls e).2

/-- **C86.** A success of `QSHeur` on the reduced model gives a set of states of the original model through which the
targets are reached with probability at least `t`, and whose size is at most the reported value. -/
theorem C86_heuristic {solver : Nat → Milp K → Answer K} {n : Nat} {ini : List (Nat × List Nat) → Except Err (List (Nat × K))}
    {upd : List (Nat × List Nat) → Updater K}
    (hM : Input M) (hne : ntl ≠ nfl) (h : M.reduce ρ il tl ntl nfl = .ok res) (φ : K →+*o ℝ)
    (hlp : ∀ lp, (lpSolver lp).Sound lp) (hs : ∀ k m, (solver k m).Sound m) {i : Nat} (hi : i ∈ M.labelled il)
    (hl : ∀ ls, labels = some ls → ntl ∉ ls ∧ nfl ∉ ls)
    (hr : r ∈ (solveIter res.rf.form t (qsHeur res.rf.form lpSolver solver n ini upd t mode labels be)).1)
    (hst : r.status = .success) :
    ∃ (cert : List K) (k : Nat) (A : Finset Nat), r.cert = some cert ∧ r.value = some (k : K) ∧
      (∀ s, s ∈ A ↔ ∃ s', res.cols.get? s = some s' ∧ Selected res.rf.sys mode cert s') ∧ size M labels A ≤ k ∧
      φ t ≤ M.prWithin φ mode A (M.labelled tl) i := by
  obtain ⟨hI, -, -, -, hrf⟩ := C13_reduce_again hM hne h
  obtain ⟨cert, x, k, rfl, g1, g2, g3, -, g4, -⟩ := C41_sound hI.wf hI.labS hrf hlp hs hr hst
  have hb := (C86_certificate hM hne h φ hi (fun _ => g3)).1 g2
  rw [← coe_originF hM h] at hb
  refine ⟨cert, k, originF M res (Selected res.rf.sys mode cert), rfl, rfl, fun s => ?_, ?_, hb⟩
  · rw [← mem_coe, coe_originF hM h]; rfl
  · exact le_trans (size_origin_le hM hne h labels _) (g4 (labelsOK_reduced hM hne h hl))

/-- **C86.** If `QSHeur` with its own weights reports "infeasible", the targets of the original model are not reached with
probability `t` through any set of states. -/
theorem C86_heuristic_infeasible {solver : Nat → Milp K → Answer K} {n : Nat} {ini : List (Nat × List Nat) → Except Err (List (Nat × K))}
    {upd : List (Nat × List Nat) → Updater K}
    (hM : Input M) (hne : ntl ≠ nfl) (h : M.reduce ρ il tl ntl nfl = .ok res) (φ : K →+*o ℝ)
    (hlp : ∀ lp, (lpSolver lp).Sound lp) (hs : ∀ k m, (solver k m).Sound m) {i : Nat} (hi : i ∈ M.labelled il)
    (hl : ∀ ls, labels = some ls → ntl ∉ ls ∧ nfl ∉ ls)
    {w : Nat → K} (hw : ∀ i, 0 < w i) (hini : LibInit w ini) (hu : LibUpdater w upd)
    (hr : r ∈ (solveIter res.rf.form t (qsHeur res.rf.form lpSolver solver n ini upd t mode labels be)).1)
    (hst : r.status = .failed .infeasible) (A : Set Nat) : M.prWithin φ mode A (M.labelled tl) i < φ t := by
  obtain ⟨hI, -, -, -, hrf⟩ := C13_reduce_again hM hne h
  obtain ⟨hi1, hi2⟩ := reduced_initial hM hne h hi
  by_contra hn
  exact qs_infeasible_cut hI.wf hrf φ hlp hs (labelsOK_reduced hM hne h hl) hw hini hu hr hst _ hi2
    (by rw [reduced_within hM h φ _ (image_iff hM h A) hi1 hi2]; exact not_lt.1 hn)

/-- **C86.** With solvers that solve every problem `MILPExact` on the reduced model gives one answer, and it is a success
exactly if the minimal (maximal) probability of the original model is at least `t`.  For `max` the reduced model must
not have proper end components. -/
theorem C86_decides (hM : Input M) (hne : ntl ≠ nfl) (h : M.reduce ρ il tl ntl nfl = .ok res) (φ : K →+*o ℝ)
    (hlp : ∀ lp, (lpSolver lp).Exact lp) (hs : ∀ m, (solver m).Exact m) (ht : 0 ≤ t ∧ t ≤ 1) {i : Nat} (hi : i ∈ M.labelled il)
    (hl : ∀ ls, labels = some ls → ntl ∉ ls ∧ nfl ∉ ls) (he : mode = .max → res.rf.isEcFree = true) :
    ∃ r, solveIter res.rf.form t (milpExact res.rf.form lpSolver solver t mode labels .pulp) = ([r], none) ∧
      (r.status = .success ↔ φ t ≤ M.pr φ mode (M.labelled tl) i) ∧
      (r.status = .failed .infeasible ↔ M.pr φ mode (M.labelled tl) i < φ t) := by
  obtain ⟨hI, -, -, -, hrf⟩ := C13_reduce_again hM hne h
  obtain ⟨-, i', c1, c2, c3, -⟩ := C13_reduce_consistent hM hne h
  obtain ⟨r, hr, hst⟩ := exact_complete (labels := labels) hI.wf hrf hlp hs ht (fun j hj hj' => by
    obtain ⟨ss, d1, d2⟩ := hj
    obtain ⟨ss', d1', d2'⟩ := hj'
    rw [c1] at d1; rw [c3] at d1'
    cases d1; cases d1'
    rw [List.mem_singleton] at d2 d2'
    omega) (labelsOK_reduced hM hne h hl) (fun g => ⟨⟨φ⟩, he g⟩)
  have hm : r ∈ (solveIter res.rf.form t (milpExact res.rf.form lpSolver solver t mode labels .pulp)).1 := by rw [hr]; simp
  obtain ⟨s1, s2⟩ := C86_exact hM hne h φ (fun lp => (hlp lp).toSound) (fun m => (hs m).toSound) hi hm
  have eU : M.prWithin φ mode Set.univ (M.labelled tl) i = M.pr φ mode (M.labelled tl) i := by
    unfold Model.Sys.pr
    cases mode with
    | min => exact (prWithin_univ hM.wf hM.total φ _ _).1
    | max => exact (prWithin_univ hM.wf hM.total φ _ _).2
  have k1 : r.status = .success → φ t ≤ M.pr φ mode (M.labelled tl) i := by
    intro g
    obtain ⟨cert, k, A, -, -, -, -, hA, -⟩ := s1 g
    rw [← eU]
    exact le_trans hA (prWithin_mono hM.wf hM.total φ (Set.subset_univ _) _ _)
  have k2 : r.status = .failed .infeasible → M.pr φ mode (M.labelled tl) i < φ t := by
    intro g
    rw [← eU]
    exact s2 g _
  refine ⟨r, hr, ⟨k1, fun g => hst.resolve_right fun g' => absurd g (not_le.2 (k2 g'))⟩,
    ⟨k2, fun g => hst.resolve_left fun g' => absurd (k1 g') (not_le.2 g)⟩⟩

/-! ### the hypotheses are met

`redSys`: from 0, action 0 leads to 1 and to the target 3; 1 leads to 0 and to the target 2. -/

/-- a certificate for 1/2 that selects 0 and 3: already through these two states the target is reached with
probability 1/2 -/
example (φ : ℚ →+*o ℝ) : φ (1/2) ≤ redSys.prWithin φ .max {0, 3} (redSys.labelled "goal") 0 := by
  obtain ⟨res, h, h1, h2⟩ : ∃ res, redSys.reduce exRnd "start" "goal" "target" "fail" = .ok res ∧
      (res.cols = [(0, 0), (1, 1), (2, 2), (3, 3)] ∧ res.rf.sys.idx = [((0, 0), 0), ((0, 1), 1), ((1, 0), 2), ((2, 0), 3), ((3, 0), 4), ((4, 0), 5), ((5, 0), 6)] ∧
        check res.rf .max .ge (1/2) [1, 0, 0, 0, 1/2] 0 = .ok true) := by
    obtain ⟨r, h1, h2⟩ := exists_of_ok_and (x := redSys.reduce exRnd "start" "goal" "target" "fail")
      (p := fun res => decide (res.cols = [(0, 0), (1, 1), (2, 2), (3, 3)]) &&
        decide (res.rf.sys.idx = [((0, 0), 0), ((0, 1), 1), ((1, 0), 2), ((2, 0), 3), ((3, 0), 4), ((4, 0), 5), ((5, 0), 6)]) &&
        yes (check res.rf .max .ge (1/2) [1, 0, 0, 0, 1/2] 0)) (by decide +kernel)
    simp only [Bool.and_eq_true, decide_eq_true_eq, yes_iff] at h2
    exact ⟨r, h1, h2.1.1, h2.1.2, h2.2⟩
  have := (C86_certificate redSys_input (by decide) h φ (i := 0) ⟨[0], by decide +kernel, by decide⟩ (mode := .max) (t := 1/2)
    (v := [1, 0, 0, 0, 1/2]) (fun _ => by decide +kernel)).1 h2.2
  refine le_trans this (prWithin_mono redSys_input.wf redSys_input.total φ ?_ _ _)
  rintro s ⟨s', g1, a, i, c, g2, g3, g4⟩
  rw [h1] at g1
  rw [h2.1] at g2
  have hm := Dict.mem_of_get? g1
  simp only [List.mem_cons, Prod.mk.injEq, List.not_mem_nil, or_false] at hm g2
  have hc : ∀ i, i ≠ 0 → i ≠ 4 → ([1, 0, 0, 0, 1/2] : List ℚ)[i]? = some c → False := by
    intro i h0 h4 hi
    match i, h0, h4, hi with
    | 1, _, _, hi => simp only [List.getElem?_cons_succ, List.getElem?_cons_zero, Option.some.injEq] at hi; rw [← hi] at g4; exact lt_irrefl _ g4
    | 2, _, _, hi => simp only [List.getElem?_cons_succ, List.getElem?_cons_zero, Option.some.injEq] at hi; rw [← hi] at g4; exact lt_irrefl _ g4
    | 3, _, _, hi => simp only [List.getElem?_cons_succ, List.getElem?_cons_zero, Option.some.injEq] at hi; rw [← hi] at g4; exact lt_irrefl _ g4
    | n + 5, _, _, hi => simp at hi
  by_cases i0 : i = 0
  · subst i0; left; omega
  by_cases i4 : i = 4
  · subst i4; right; show s = 3; omega
  exact (hc i i0 i4 g3).elim

/-- with exact solvers the exact method decides, for the model itself, whether the minimal probability is at least 1/4 -/
example : ∃ res, redSys.reduce exRnd "start" "goal" "target" "fail" = .ok res ∧ ∃ solver, (∀ m, (solver m : Answer ℚ).Exact m) ∧
    ∃ r, solveIter res.rf.form (1/4 : ℚ) (milpExact res.rf.form solver solver (1/4) .min (some ["odd"]) .pulp) = ([r], none) ∧
      (r.status = .success ↔ ratR (1/4) ≤ redSys.pr ratR .min (redSys.labelled "goal") 0) := by
  obtain ⟨res, h, -⟩ := redSys_ok
  obtain ⟨solver, hs⟩ := exists_exact ℚ
  obtain ⟨r, h1, h2, -⟩ := C86_decides (mode := .min) (t := (1/4 : ℚ)) (labels := some ["odd"]) redSys_input (by decide) h ratR hs hs
    (by norm_num) (i := 0) ⟨[0], by decide +kernel, by decide⟩ (by rintro ls ⟨⟩; decide) (fun g => nomatch g)
  exact ⟨res, h, solver, hs, r, h1, h2⟩

end Verif.Props
