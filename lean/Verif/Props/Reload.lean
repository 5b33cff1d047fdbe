import Verif.Proofs.Reload
import Verif.Props.Subsystem
/-!
# C70: saving a reachability form and loading it again

`ReachabilityForm(system, il, tl, fl)` demands that the rows of target and fail are the last two.
`MDP.from_file` numbers the rows in the order in which the file mentions them, and `save` writes the entries
in the order in which they are stored.  So the loaded system is accepted iff the stored entries mention
the row of target after all other rows but that of fail, and the row of fail last.
-/
set_option linter.unusedSectionVars false

namespace Verif.Props
open Verif.Model Verif.Spec Verif.Proofs Verif.Proofs.IDict Verif.Proofs.IOTra Finset

variable {K : Type} [Field K] [LinearOrder K] [IsStrictOrderedRing K]

/-- position of the first stored entry of row `r` -/
def firstRow (M : Sys K) (r : Nat) : Nat := (M.P.items.map fun e => e.1.1).idxOf r

/-- the row of target is mentioned after all rows of other states, the row of fail after that -/
def TargetFailLast (M : Sys K) : Prop :=
  (∀ r < M.C - 2, firstRow M r < firstRow M (M.C - 2)) ∧ firstRow M (M.C - 2) < firstRow M (M.C - 1)

theorem firstAt_eq {M : Sys K} (h : M.WF) (r : Nat) : firstAt M r = firstRow M r := by
  unfold firstAt firstRow; rw [filter_pos h]

theorem row_mentioned {M : Sys K} (h : M.WF) {r : Nat} (hr : r < M.C) : r ∈ M.P.items.map fun e => e.1.1 := by
  by_contra hno
  have h0 : ∀ t, M.P.get r t = 0 := by
    intro t
    by_contra hne
    exact hno (List.mem_map.2 ⟨_, mem_of_get_ne hne, rfl⟩)
  have := h.sum r hr
  simp [h0] at this

/-- the ranks of the last two rows -/
theorem ranks_iff {n : Nat} (hn : 2 ≤ n) (f : Nat → Nat) :
    (((range n).filter fun j => f j < f (n - 2)).card = n - 2 ∧
      ((range n).filter fun j => f j < f (n - 1)).card = n - 1) ↔
    (∀ r < n - 2, f r < f (n - 2)) ∧ f (n - 2) < f (n - 1) := by
  have c1 : ((range n).erase (n - 1)).card = n - 1 := by
    rw [card_erase_of_mem (mem_range.2 (by omega)), card_range]
  constructor
  · rintro ⟨h1, h2⟩
    have e2 : ((range n).filter fun j => f j < f (n - 1)) = (range n).erase (n - 1) := by
      apply eq_of_subset_of_card_le
      · intro j hj
        rw [mem_filter] at hj
        rw [mem_erase]
        exact ⟨by rintro rfl; exact lt_irrefl _ hj.2, hj.1⟩
      · rw [c1, h2]
    have h3 : f (n - 2) < f (n - 1) := by
      have : n - 2 ∈ (range n).erase (n - 1) := by rw [mem_erase, mem_range]; omega
      rw [← e2, mem_filter] at this
      exact this.2
    have e1 : ((range n).filter fun j => f j < f (n - 2)) = range (n - 2) := by
      apply eq_of_subset_of_card_le
      · intro j hj
        rw [mem_filter, mem_range] at hj
        rw [mem_range]
        by_contra hge
        rcases (show j = n - 2 ∨ j = n - 1 by omega) with rfl | rfl
        · exact lt_irrefl _ hj.2
        · exact lt_asymm hj.2 h3
      · rw [card_range, h1]
    refine ⟨fun r hr => ?_, h3⟩
    have : r ∈ range (n - 2) := mem_range.2 hr
    rw [← e1, mem_filter] at this
    exact this.2
  · rintro ⟨h1, h2⟩
    constructor
    · have : ((range n).filter fun j => f j < f (n - 2)) = range (n - 2) := by
        ext j
        rw [mem_filter, mem_range, mem_range]
        constructor
        · rintro ⟨hj, hlt⟩
          by_contra hge
          rcases (show j = n - 2 ∨ j = n - 1 by omega) with rfl | rfl
          · exact lt_irrefl _ hlt
          · exact lt_asymm hlt h2
        · exact fun hj => ⟨by omega, h1 j hj⟩
      rw [this, card_range]
    · have : ((range n).filter fun j => f j < f (n - 1)) = range (n - 1) := by
        ext j
        rw [mem_filter, mem_range, mem_range]
        constructor
        · rintro ⟨hj, hlt⟩
          by_contra hge
          obtain rfl : j = n - 1 := by omega
          exact lt_irrefl _ hlt
        · intro hj
          refine ⟨by omega, ?_⟩
          rcases (show j < n - 2 ∨ j = n - 2 by omega) with h | rfl
          · exact (h1 j h).trans h2
          · exact h2
      rw [this, card_range]

variable {ρ ρ' : Graph.Rnd} {M : Sys K} {il tl fl : String} {rf : RF K}

theorem renumbered_initial {M' : Sys K} (hM : M.WF) (hM' : M'.WF) (h : Renumbered M M')
    (hrf : RF.make ρ M il tl fl false = .ok rf) {rf' : RF K} (hrf' : RF.make ρ' M' il tl fl false = .ok rf') :
    rf'.initial = rf.initial := by
  refine initial_eq hM hrf ?_
  rw [← h.labelled il]
  have := (rflive_built hM' hrf').initLab
  obtain ⟨e, eil, -⟩ := make_fields hrf'
  rw [e, eil] at this
  exact ⟨_, this, by simp⟩

theorem renumbered_values {M' : Sys K} (hM : M.WF) (hM' : M'.WF) (h : Renumbered M M')
    (hrf : RF.make ρ M il tl fl false = .ok rf) (φ : K →+*o ℝ) (s : Nat) :
    M'.prMin φ (M'.labelled tl) s = M.prMin φ (M.labelled tl) s ∧
      M'.prMax φ (M'.labelled tl) s = M.prMax φ (M.labelled tl) s := by
  have ht : M.Total := by
    have := (rflive_built hM hrf).total
    rwa [(make_fields hrf).1] at this
  rw [h.labelled]
  exact ⟨h.prMin hM hM' ht φ _ _, h.prMax hM hM' ht φ _ _⟩

variable [FloorRing K]

/-- core of `C70_reload_mdp` -/
theorem reload_mdp {π : List Nat → List Nat} {π' : List String → List String} (hπ : ∀ l, (π l).Perm l)
    (hπ' : ∀ l, (π' l).Perm l) (hM : M.WF) (hL : Inv M.labS)
    (hc : ∀ l ∈ M.labS.d.map Prod.fst, CleanName l) (h6 : ∀ r t, ∃ n : Nat, M.P.get r t = n / 10 ^ 6)
    (hrf : RF.make ρ M il tl fl false = .ok rf) :
    ∃ lab tra M', M.saveLab π π' = .ok lab ∧ M.saveTraMDP = .ok tra ∧ Sys.fromFileMDP lab tra = .ok M' ∧ M'.WF ∧ Renumbered M M' ∧
      (TargetFailLast M → ∃ rf', RF.make ρ' M' il tl fl false = .ok rf' ∧ rf'.initial = rf.initial ∧
        ∀ (φ : K →+*o ℝ) s, M'.prMin φ (M'.labelled tl) s = M.prMin φ (M.labelled tl) s ∧
          M'.prMax φ (M'.labelled tl) s = M.prMax φ (M.labelled tl) s) ∧
      (¬ TargetFailLast M → RF.make ρ' M' il tl fl false = .error .assertion) := by
  have hsix : ∀ r t x, IsSix (M.P.get r t) x → x = M.P.get r t := by
    intro r t x hx
    obtain ⟨n, hn⟩ := h6 r t
    rw [hn] at hx ⊢
    exact isSix_unique hx isSix_self
  obtain ⟨lab, tra, a1, a2, a3, -, a5⟩ := mdp_reload (M := { M with rew := none }) hπ hπ' (table_of_wf hM) hL hc
  obtain ⟨M', hM'⟩ := a3.2 (by
    intro r hr R hR
    have := hM.sum r hr
    rw [← this]
    exact sum_congr rfl fun t _ => hsix r t _ (hR t))
  obtain ⟨⟨hW, hI⟩, -, b2, b3, -, -, b6, b7, b8, b9, b10, b11⟩ := a5 M' hM'
  have b2 : M'.N = M.N := b2
  have b3 : M'.C = M.C := b3
  have b9 : ∀ s a, (s, a) ∈ M'.idx.map Prod.fst ↔ ∃ r < M.C, ((s, a), r) ∈ M.idx := b9
  have b11 : ∀ s a r, ((s, a), r) ∈ M.idx → r < M.C →
      M'.idx.get? (s, a) = some ((range M.C).filter fun r' => firstAt M r' < firstAt M r).card := b11
  have hlt : ∀ s a r, ((s, a), r) ∈ M'.idx → r < M'.C := by
    intro s a r hm
    have : r ∈ M'.idx.map Prod.snd := List.mem_map.2 ⟨_, hm, rfl⟩
    rw [b7] at this
    rw [b3]; exact List.mem_range.1 this
  have hren : Renumbered M M' := by
    refine ⟨b2, b3, fun s a => ?_, fun s a r r' h1 h2 t => ?_, fun l s => ?_⟩
    · rw [← b9]
      constructor
      · rintro ⟨r, -, h⟩; exact List.mem_map.2 ⟨_, h, rfl⟩
      · intro h
        obtain ⟨⟨sa, r⟩, h1, rfl⟩ := List.mem_map.1 h
        exact ⟨r, hlt _ _ _ h1, h1⟩
    · have h3 : IsSix (prob { M with rew := none } s a t) (prob M' s a t) := b10 s a t
      unfold prob at h3
      have e1 : M.idx.get? (s, a) = some r := Dict.get?_of_mem hM.keys h1
      have e2 : M'.idx.get? (s, a) = some r' := Dict.get?_of_mem hW.keys h2
      simp only [e1, e2] at h3
      exact hsix _ _ _ h3
    · have := b6.2 l s
      rw [sees_iff, sees_iff] at this
      exact this
  have hcons := (make_fields hrf).2.2.2.2 rfl
  obtain ⟨i, -, -, -, hN, hC, -, ⟨a, hr⟩, ⟨a', hr'⟩, hro, hro', -⟩ := assertConsistency_ok hM hcons
  obtain ⟨k1, k2⟩ := assertConsistency_renumbered hM hW hI hren hcons
  have only : ∀ s b r a0, ((s, a0), r) ∈ M.idx → r < M.C → (∀ b' j, ((s, b'), j) ∈ M.idx → j < M.C → j = r) →
      ∀ k, ((s, b), k) ∈ M'.idx → k = ((range M.C).filter fun r' => firstRow M r' < firstRow M r).card := by
    intro s b r a0 h1 h2 h3 k hk
    obtain ⟨r2, h4, h5⟩ := (b9 s b).1 (List.mem_map.2 ⟨_, hk, rfl⟩)
    obtain rfl := h3 _ _ h5 h4
    have := b11 s b r2 h5 h4
    rw [Dict.get?_of_mem hW.keys hk] at this
    simp only [firstAt_eq hM] at this
    exact Option.some.inj this
  have there : ∀ s a r, ((s, a), r) ∈ M.idx → r < M.C →
      ((s, a), ((range M.C).filter fun r' => firstRow M r' < firstRow M r).card) ∈ M'.idx := by
    intro s a r h1 h2
    have := b11 s a r h1 h2
    simp only [firstAt_eq hM] at this
    exact Dict.mem_of_get? this
  have hrank := ranks_iff hC (firstRow M)
  have key : ((∃ a, ((M.N - 2, a), M.C - 2) ∈ M'.idx) ∧ ∃ a, ((M.N - 1, a), M.C - 1) ∈ M'.idx) ↔ TargetFailLast M := by
    refine Iff.trans ?_ hrank
    constructor
    · rintro ⟨⟨b, h1⟩, ⟨b', h2⟩⟩
      exact ⟨(only _ _ _ a hr (by omega) hro _ h1).symm, (only _ _ _ a' hr' (by omega) hro' _ h2).symm⟩
    · rintro ⟨h1, h2⟩
      have g1 := there _ _ _ hr (by omega)
      have g2 := there _ _ _ hr' (by omega)
      rw [h1] at g1
      rw [h2] at g2
      exact ⟨⟨a, g1⟩, ⟨a', g2⟩⟩
  refine ⟨lab, tra, M', a1, a2, hM', hW, hren, fun hl => ?_, fun hl => ?_⟩
  · obtain ⟨rf', hrf'⟩ := make_total (ρ := ρ') hW (k1 (key.2 hl)) false
    exact ⟨rf', hrf', renumbered_initial hM hW hren hrf hrf',
      fun φ s => renumbered_values hM hW hren hrf φ s⟩
  · unfold RF.make
    rw [k2 (fun h => hl (key.1 h))]
    rfl

/-- **C70, MDPs.** Let `M` be an MDP whose probabilities have at most six decimals, accepted by
`ReachabilityForm`.  It can be saved and loaded.  If the stored entries mention the rows of target and fail
last, the loaded MDP is accepted with the same labels, and the form has the same initial state and the same
minimal and maximal probabilities of reaching the target from every state.  Otherwise
`ReachabilityForm` raises `AssertionError` for the loaded MDP. -/
theorem C70_reload_mdp_partial {π : List Nat → List Nat} {π' : List String → List String} (hπ : ∀ l, (π l).Perm l)
    (hπ' : ∀ l, (π' l).Perm l) (hM : M.WF) (hL : LabelMap M.labS)
    (hc : ∀ l ∈ M.labS.d.map Prod.fst, CleanName l) (h6 : ∀ r t, ∃ n : Nat, M.P.get r t = n / 10 ^ 6)
    (hrf : RF.make ρ M il tl fl false = .ok rf) :
    ∃ lab tra M', M.saveLab π π' = .ok lab ∧ M.saveTraMDP = .ok tra ∧ Sys.fromFileMDP lab tra = .ok M' ∧ M'.WF ∧
      (TargetFailLast M → ∃ rf', RF.make ρ' M' il tl fl false = .ok rf' ∧ rf'.initial = rf.initial ∧
        ∀ (φ : K →+*o ℝ) s, M'.prMin φ (M'.labelled tl) s = M.prMin φ (M.labelled tl) s ∧
          M'.prMax φ (M'.labelled tl) s = M.prMax φ (M.labelled tl) s) ∧
      (¬ TargetFailLast M → RF.make ρ' M' il tl fl false = .error .assertion) := by
  obtain ⟨lab, tra, M', a1, a2, a3, a4, -, a5⟩ := reload_mdp (ρ' := ρ') hπ hπ' hM hL.inv hc h6 hrf
  exact ⟨lab, tra, M', a1, a2, a3, a4, a5⟩

/-- core of `C70_reload_dtmc` -/
theorem reload_dtmc {π : List Nat → List Nat} {π' : List String → List String} (hπ : ∀ l, (π l).Perm l)
    (hπ' : ∀ l, (π' l).Perm l) (hM : M.WF) (hL : Inv M.labS) (hsq : M.C = M.N)
    (ha : ∀ s a i, ((s, a), i) ∈ M.idx → a = 0)
    (hc : ∀ l ∈ M.labS.d.map Prod.fst, CleanName l) (h6 : ∀ r t, ∃ n : Nat, M.P.get r t = n / 10 ^ 6)
    (hrf : RF.make ρ M il tl fl false = .ok rf) :
    ∃ lab tra M' rf', M.saveLab π π' = .ok lab ∧ M.saveTraDTMC = .ok tra ∧ Sys.fromFileDTMC lab tra = .ok M' ∧ M'.WF ∧ Renumbered M M' ∧
      RF.make ρ' M' il tl fl false = .ok rf' ∧ rf'.initial = rf.initial ∧
        ∀ (φ : K →+*o ℝ) s, M'.prMin φ (M'.labelled tl) s = M.prMin φ (M.labelled tl) s ∧
          M'.prMax φ (M'.labelled tl) s = M.prMax φ (M.labelled tl) s := by
  have hsix : ∀ r t x, IsSix (M.P.get r t) x → x = M.P.get r t := by
    intro r t x hx
    obtain ⟨n, hn⟩ := h6 r t
    rw [hn] at hx ⊢
    exact isSix_unique hx isSix_self
  obtain ⟨lab, tra, a1, a2, a3, -, a5⟩ := dtmc_reload (M := { M with rew := none }) hπ hπ' (table_of_wf hM) hsq ha hL hc
  obtain ⟨M', hM'⟩ := a3.2 (by
    intro r hr R hR
    have := hM.sum r hr
    rw [← this]
    exact sum_congr rfl fun t _ => hsix r t _ (hR t))
  obtain ⟨⟨hW, hI, b3, b7⟩, -, b2, -, b6, b10⟩ := a5 M' hM'
  have b2 : M'.N = M.N := b2
  have b3 : M'.C = M.C := b3.trans hsq.symm
  have b7 : M'.idx = (List.range M.N).map fun i => ((i, 0), i) := b7
  have hmem : ∀ s a r, ((s, a), r) ∈ M'.idx ↔ s < M.N ∧ a = 0 ∧ r = s := by
    intro s a r
    rw [b7, List.mem_map]
    constructor
    · rintro ⟨i, hi, he⟩
      simp only [Prod.mk.injEq] at he
      obtain ⟨⟨rfl, rfl⟩, rfl⟩ := he
      exact ⟨List.mem_range.1 hi, rfl, rfl⟩
    · rintro ⟨h1, rfl, rfl⟩
      exact ⟨r, List.mem_range.2 h1, rfl⟩
  have hcons := (make_fields hrf).2.2.2.2 rfl
  have ht : M.Total := by
    have := (rflive_built hM hrf).total
    rwa [(make_fields hrf).1] at this
  have hren : Renumbered M M' := by
    refine ⟨b2, b3, fun s a => ?_, fun s a r r' h1 h2 t => ?_, fun l s => ?_⟩
    · constructor
      · rintro ⟨r, -, h⟩
        obtain ⟨h1, rfl, rfl⟩ := (hmem _ _ _).1 h
        obtain ⟨a, r, h2, h3⟩ := ht _ h1
        obtain rfl := ha _ _ _ h2
        exact ⟨r, h3, h2⟩
      · rintro ⟨r, h1, h2⟩
        have hs := WF.state_lt hM h2 h1
        exact ⟨s, by rw [b3, hsq]; exact hs, (hmem _ _ _).2 ⟨hs, ha _ _ _ h2, rfl⟩⟩
    · obtain ⟨hs, rfl, rfl⟩ := (hmem _ _ _).1 h2
      have h3 : IsSix (prob { M with rew := none } r' 0 t) (prob M' r' 0 t) := b10 r' hs t
      unfold prob at h3
      have e1 : M.idx.get? (r', 0) = some r := Dict.get?_of_mem hM.keys h1
      have e2 : M'.idx.get? (r', 0) = some r' := Dict.get?_of_mem hW.keys h2
      simp only [e1, e2] at h3
      exact hsix _ _ _ h3
    · have := b6.2 l s
      rw [sees_iff, sees_iff] at this
      exact this
  obtain ⟨i, -, -, -, hN, hC, -⟩ := assertConsistency_ok hM hcons
  obtain ⟨rf', hrf'⟩ := make_total (ρ := ρ') hW ((assertConsistency_renumbered hM hW hI hren hcons).1
    ⟨⟨0, (hmem _ _ _).2 ⟨by omega, rfl, by omega⟩⟩, ⟨0, (hmem _ _ _).2 ⟨by omega, rfl, by omega⟩⟩⟩) false
  exact ⟨lab, tra, M', rf', a1, a2, hM', hW, hren, hrf', renumbered_initial hM hW hren hrf hrf',
    fun φ s => renumbered_values hM hW hren hrf φ s⟩

/-- **C70, DTMCs.** A DTMC whose probabilities have at most six decimals and which `ReachabilityForm`
accepts is accepted after saving and loading, with the same initial state and the same probabilities of
reaching the target. -/
theorem C70_reload_dtmc {π : List Nat → List Nat} {π' : List String → List String} (hπ : ∀ l, (π l).Perm l)
    (hπ' : ∀ l, (π' l).Perm l) (hM : M.WF) (hL : LabelMap M.labS) (hsq : M.C = M.N)
    (ha : ∀ s a i, ((s, a), i) ∈ M.idx → a = 0)
    (hc : ∀ l ∈ M.labS.d.map Prod.fst, CleanName l) (h6 : ∀ r t, ∃ n : Nat, M.P.get r t = n / 10 ^ 6)
    (hrf : RF.make ρ M il tl fl false = .ok rf) :
    ∃ lab tra M' rf', M.saveLab π π' = .ok lab ∧ M.saveTraDTMC = .ok tra ∧ Sys.fromFileDTMC lab tra = .ok M' ∧ M'.WF ∧
      RF.make ρ' M' il tl fl false = .ok rf' ∧ rf'.initial = rf.initial ∧
        ∀ (φ : K →+*o ℝ) s, M'.prMin φ (M'.labelled tl) s = M.prMin φ (M.labelled tl) s ∧
          M'.prMax φ (M'.labelled tl) s = M.prMax φ (M.labelled tl) s := by
  obtain ⟨lab, tra, M', rf', a1, a2, a3, a4, -, a5⟩ := reload_dtmc (ρ' := ρ') hπ hπ' hM hL.inv hsq ha hc h6 hrf
  exact ⟨lab, tra, M', rf', a1, a2, a3, a4, a5⟩

/-- core of `C70_reload_reduced` -/
theorem reload_reduced {π : List Nat → List Nat} {π' : List String → List String} (hπ : ∀ l, (π l).Perm l)
    (hπ' : ∀ l, (π' l).Perm l) {ntl nfl : String} {res : Reduce.Result K} (hM : Input M) (hne : ntl ≠ nfl)
    (h : M.reduce ρ il tl ntl nfl = .ok res) (hc : ∀ l ∈ res.rf.sys.labS.d.map Prod.fst, CleanName l)
    (h6 : ∀ r t, ∃ n : Nat, res.rf.sys.P.get r t = n / 10 ^ 6) :
    ∃ lab tra M' rf', res.rf.sys.saveLab π π' = .ok lab ∧ res.rf.sys.saveTraMDP = .ok tra ∧
      Sys.fromFileMDP lab tra = .ok M' ∧ M'.WF ∧ Renumbered res.rf.sys M' ∧ RF.make ρ' M' il ntl nfl false = .ok rf' ∧ rf'.initial = res.rf.initial ∧
      ∀ (φ : K →+*o ℝ) s s', res.cols.get? s = some s' →
        M'.prMin φ (M'.labelled ntl) s' = M.prMin φ (M.labelled tl) s ∧
        M'.prMax φ (M'.labelled ntl) s' = M.prMax φ (M.labelled tl) s := by
  obtain ⟨T, i0, mask, hR, hrf⟩ := reduce_spec hM.wf hM.labS.inv hM.labA.inv h
  obtain ⟨i', hi'⟩ := hR.init_kept hrf
  have hcons := hR.consistent hM.wf hM.total hne hi'
  have hrf := hrf
  rw [make_false_of_true hcons] at hrf
  have hlast : TargetFailLast res.rf.sys := by
    obtain ⟨l, h1, h2⟩ := hR.red.last
    have eC := hR.red.hC
    have e1 : res.rf.sys.C - 2 = res.rows.length := by omega
    have e2 : res.rf.sys.C - 1 = res.rows.length + 1 := by omega
    have hn : ∀ k, res.rows.length ≤ k → k ∉ l.map fun e => e.1.1 := by
      intro k hk hm
      obtain ⟨e, he, rfl⟩ := List.mem_map.1 hm
      exact absurd (h2 e he) (by omega)
    have f1 : firstRow res.rf.sys res.rows.length = l.length := by
      unfold firstRow
      rw [h1, List.map_append, List.idxOf_append_of_notMem (hn _ le_rfl)]
      simp
    have f2 : firstRow res.rf.sys (res.rows.length + 1) = l.length + 1 := by
      unfold firstRow
      rw [h1, List.map_append, List.idxOf_append_of_notMem (hn _ (by omega))]
      simp
    refine ⟨fun r hr => ?_, by rw [e1, e2, f1, f2]; omega⟩
    rw [e1, f1]
    have hm := row_mentioned hR.red.wf (r := r) (by omega)
    rw [h1, List.map_append, List.mem_append] at hm
    rcases hm with hm | hm
    · unfold firstRow
      rw [h1, List.map_append, List.idxOf_append_of_mem hm]
      simpa using List.idxOf_lt_length_of_mem hm
    · simp at hm; omega
  obtain ⟨lab, tra, M', a1, a2, a3, aw, ar, a4, -⟩ := reload_mdp (ρ' := ρ') hπ hπ' hR.red.wf hR.red.labI hc h6 hrf
  obtain ⟨rf', b1, b2, b3⟩ := a4 hlast
  refine ⟨lab, tra, M', rf', a1, a2, a3, aw, ar, b1, b2, fun φ s s' hs => ?_⟩
  obtain ⟨c1, c2⟩ := C14_reduce_probabilities hM hne h φ hs
  rw [(b3 φ s').1, (b3 φ s').2]
  exact ⟨c1, c2⟩

/-- **C70, `reduce`.** The form that `reduce` makes from an MDP is accepted after saving and loading, and
the loaded form has, for every state that `reduce` keeps, the probabilities of the original MDP. -/
theorem C70_reload_reduced {π : List Nat → List Nat} {π' : List String → List String} (hπ : ∀ l, (π l).Perm l)
    (hπ' : ∀ l, (π' l).Perm l) {ntl nfl : String} {res : Reduce.Result K} (hM : Input M) (hne : ntl ≠ nfl)
    (h : M.reduce ρ il tl ntl nfl = .ok res) (hc : ∀ l ∈ res.rf.sys.labS.d.map Prod.fst, CleanName l)
    (h6 : ∀ r t, ∃ n : Nat, res.rf.sys.P.get r t = n / 10 ^ 6) :
    ∃ lab tra M' rf', res.rf.sys.saveLab π π' = .ok lab ∧ res.rf.sys.saveTraMDP = .ok tra ∧
      Sys.fromFileMDP lab tra = .ok M' ∧ M'.WF ∧ RF.make ρ' M' il ntl nfl false = .ok rf' ∧ rf'.initial = res.rf.initial ∧
      ∀ (φ : K →+*o ℝ) s s', res.cols.get? s = some s' →
        M'.prMin φ (M'.labelled ntl) s' = M.prMin φ (M.labelled tl) s ∧
        M'.prMax φ (M'.labelled ntl) s' = M.prMax φ (M.labelled tl) s := by
  obtain ⟨lab, tra, M', rf', a1, a2, a3, a4, -, a5⟩ := reload_reduced (ρ' := ρ') hπ hπ' hM hne h hc h6
  exact ⟨lab, tra, M', rf', a1, a2, a3, a4, a5⟩

/-- **C70 is false for subsystems**: `Subsystem.subsys` stores the entry of the fail row first, so after
saving and loading, the form of *every* subsystem of an MDP is rejected with `AssertionError`, although the
subsystem itself passed the consistency checks. -/
theorem C70_subsystem_false {π : List Nat → List Nat} {π' : List String → List String} (hπ : ∀ l, (π l).Perm l)
    (hπ' : ∀ l, (π' l).Perm l) {cert : List K} {mode : Mode} {ig : Bool} {x : Subsystem K} {res : Subsystem.Result K}
    {ρ'' : Graph.Rnd} (hM : M.WF) (hL : LabelMap M.labS) (hrf : RF.make ρ M il tl fl false = .ok rf)
    (hx : Subsystem.make rf cert mode ig = .ok x) (hr : x.subsys ρ' = .ok res)
    (hcons : res.rf.sys.assertConsistency il tl fl = .ok ())
    (hc : ∀ l ∈ res.rf.sys.labS.d.map Prod.fst, CleanName l)
    (h6 : ∀ r t, ∃ n : Nat, res.rf.sys.P.get r t = n / 10 ^ 6) :
    ∃ (lab tra : List Char) (M' : Sys K), res.rf.sys.saveLab π π' = .ok lab ∧ res.rf.sys.saveTraMDP = .ok tra ∧
      Sys.fromFileMDP lab tra = .ok M' ∧ RF.make ρ'' M' il tl fl false = .error .assertion := by
  obtain ⟨e0, e1, e2, e3, -⟩ := make_fields hrf
  have h := rfok_built hM hrf
  subst e0 e1 e2 e3
  obtain ⟨m, hml, hms, hS, hmk, -⟩ := subsys_spec h hL.inv hx hr
  have hmk' : RF.make ρ' res.rf.sys rf.initL rf.targetL rf.failL false = .ok res.rf := by
    cases ig
    · exact hmk
    · rw [← make_false_of_true hcons]; exact hmk
  obtain ⟨lab, tra, M', a1, a2, a3, -, -, -, a4⟩ := reload_mdp (ρ' := ρ'') hπ hπ' hS.wf hS.labI hc h6 hmk'
  refine ⟨lab, tra, M', a1, a2, a3, a4 ?_⟩
  rintro ⟨-, hlt⟩
  obtain ⟨l, hl⟩ := hS.first
  have : firstRow res.rf.sys (res.rf.sys.C - 1) = 0 := by
    unfold firstRow
    rw [hl, hS.hC]
    simp
  omega

/-! ### Examples -/

def sixTest (P : Dok ℚ) : Bool := P.items.all fun e => decide ((e.2 * 10 ^ 6).den = 1 ∧ 0 ≤ (e.2 * 10 ^ 6).num)

theorem six_of_test {P : Dok ℚ} (h : sixTest P = true) (r t : Nat) : ∃ n : Nat, P.get r t = n / 10 ^ 6 := by
  by_cases h0 : P.get r t = 0
  · exact ⟨0, by simp [h0]⟩
  · have := List.all_eq_true.1 h _ (mem_of_get_ne h0)
    obtain ⟨h1, h2⟩ := of_decide_eq_true this
    simp only at h1 h2
    refine ⟨(P.get r t * 10 ^ 6).num.toNat, ?_⟩
    rw [eq_div_iff (by norm_num)]
    conv_lhs => rw [← Rat.num_div_den (P.get r t * 10 ^ 6), h1]
    rw [Nat.cast_one, div_one]
    have := Int.toNat_of_nonneg h2
    exact_mod_cast this.symm

def cleanTest (M : Sys ℚ) : Bool := (M.labS.d.map Prod.fst).all fun l => l.toList.all fun c => decide (c ≠ '"' ∧ c ≠ '\n' ∧ c ≠ '\r')

theorem clean_of_test {M : Sys ℚ} (h : cleanTest M = true) : ∀ l ∈ M.labS.d.map Prod.fst, CleanName l := by
  intro l hl c hc
  exact of_decide_eq_true (List.all_eq_true.1 (List.all_eq_true.1 h l hl) c hc)

/-- an MDP with two actions in state 2, loaded again with the same values -/
example : ∃ rf lab tra M' rf', RF.make exRnd subEx "init" "goal" "fail" false = .ok rf ∧
    subEx.saveLab id id = .ok lab ∧ subEx.saveTraMDP = .ok tra ∧ Sys.fromFileMDP lab tra = .ok M' ∧
    RF.make exRnd M' "init" "goal" "fail" false = .ok rf' ∧
    ∀ (φ : ℚ →+*o ℝ), M'.prMin φ (M'.labelled "goal") 0 = subEx.prMin φ (subEx.labelled "goal") 0 := by
  obtain ⟨rf, h1, -⟩ := exists_of_ok_and (x := RF.make exRnd subEx "init" "goal" "fail" false) (p := fun _ => true)
    (by decide +kernel)
  obtain ⟨lab, tra, M', a1, a2, a3, -, a4, -⟩ := C70_reload_mdp_partial (ρ' := exRnd) (π := id) (π' := id) (fun _ => .refl _)
    (fun _ => .refl _) subEx_wf subEx_labS (clean_of_test (by decide +kernel)) (six_of_test (by decide +kernel)) h1
  have hl : (∀ r < subEx.C - 2, firstRow subEx r < firstRow subEx (subEx.C - 2)) ∧
    firstRow subEx (subEx.C - 2) < firstRow subEx (subEx.C - 1) := by decide +kernel
  obtain ⟨rf', b1, b2, b3⟩ := a4 hl
  exact ⟨rf, lab, tra, M', rf', h1, a1, a2, a3, b1, fun φ => (b3 φ 0).1⟩

/-- the form that `reduce` makes of the same MDP -/
example : ∃ res lab tra M' rf', subEx.reduce exRnd "init" "goal" "t" "f" = .ok res ∧
    res.rf.sys.saveLab id id = .ok lab ∧ res.rf.sys.saveTraMDP = .ok tra ∧ Sys.fromFileMDP lab tra = .ok M' ∧
    RF.make exRnd M' "init" "t" "f" false = .ok rf' ∧
    ∀ (φ : ℚ →+*o ℝ), M'.prMin φ (M'.labelled "t") 0 = subEx.prMin φ (subEx.labelled "goal") 0 := by
  obtain ⟨res, h1, h2⟩ := exists_of_ok_and (x := subEx.reduce exRnd "init" "goal" "t" "f")
    (p := fun res => sixTest res.rf.sys.P && cleanTest res.rf.sys && decide (res.cols.get? 0 = some 0)) (by decide +kernel)
  simp only [Bool.and_eq_true, decide_eq_true_eq] at h2
  have hin : Input subEx := ⟨subEx_wf, by
    intro s hs
    have hs : s < 5 := hs
    have : ∀ s < 5, ∃ e ∈ subEx.idx, e.1.1 = s ∧ e.2 < subEx.C := by decide +kernel
    obtain ⟨⟨⟨s', a⟩, i⟩, h1, rfl, h2⟩ := this s hs
    exact ⟨a, i, h1, h2⟩, subEx_labS, subEx_labA⟩
  obtain ⟨lab, tra, M', rf', a1, a2, a3, -, a4, -, a6⟩ := C70_reload_reduced (ρ' := exRnd) (π := id) (π' := id) (fun _ => .refl _)
    (fun _ => .refl _) hin (by decide) h1 (clean_of_test h2.1.2) (six_of_test h2.1.1)
  exact ⟨res, lab, tra, M', rf', h1, a1, a2, a3, a4, fun φ => (a6 φ 0 0 h2.2).1⟩

/-- the subsystem of states 0, 1 and 2 of the same MDP passes all checks and is rejected when loaded -/
example : ∃ rf x res lab tra M', RF.make exRnd subEx "init" "goal" "fail" false = .ok rf ∧
    Subsystem.make rf [1/2, 1/4, 1/4] .min false = .ok x ∧ x.subsys exRnd = .ok res ∧
    res.rf.sys.saveLab id id = .ok lab ∧ res.rf.sys.saveTraMDP = .ok tra ∧ Sys.fromFileMDP (K := ℚ) lab tra = .ok M' ∧
    RF.make exRnd M' "init" "goal" "fail" false = .error .assertion := by
  obtain ⟨rf, x, h1, -, h3, h4⟩ := subTest_true (cert := [1/2, 1/4, 1/4]) (mode := .min) (ig := false) (p := fun _ => true)
    (q := fun r => match r with
      | .ok r => sixTest r.rf.sys.P && cleanTest r.rf.sys && (r.rf.sys.assertConsistency "init" "goal" "fail").isOk
      | _ => false) (by decide +kernel)
  cases hr : x.subsys exRnd with
  | error e => rw [hr] at h4; cases h4
  | ok res =>
    rw [hr] at h4
    simp only [Bool.and_eq_true] at h4
    obtain ⟨⟨h5, h6⟩, h7⟩ := h4
    have hc : res.rf.sys.assertConsistency "init" "goal" "fail" = .ok () := by
      cases h : res.rf.sys.assertConsistency "init" "goal" "fail" with
      | error e => rw [h] at h7; cases h7
      | ok u => rfl
    obtain ⟨lab, tra, M', a1, a2, a3, a4⟩ := C70_subsystem_false (ρ'' := exRnd) (π := id) (π' := id) (fun _ => .refl _)
      (fun _ => .refl _) subEx_wf subEx_labS h1 h3 hr hc (clean_of_test h6) (six_of_test h5)
    exact ⟨rf, x, res, lab, tra, M', h1, h3, hr, a1, a2, a3, a4⟩

/-- a chain whose index permutes the rows of states 0 and 1 -/
def reD : Sys ℚ :=
  { mkSys ⟨4, 4, [((3, 3), 1), ((0, 0), 1/4), ((0, 2), 3/4), ((2, 2), 1), ((1, 1), 1/2), ((1, 3), 1/2)]⟩
      [((1, 0), 0), ((0, 0), 1), ((2, 0), 2), ((3, 0), 3)]
      (IDict.mk' [("init", [0]), ("goal", [2]), ("fail", [3])] true) with dtmc := true }

example : ∃ rf lab tra M' rf', RF.make exRnd reD "init" "goal" "fail" false = .ok rf ∧
    reD.saveLab id id = .ok lab ∧ reD.saveTraDTMC = .ok tra ∧ Sys.fromFileDTMC lab tra = .ok M' ∧
    RF.make exRnd M' "init" "goal" "fail" false = .ok rf' ∧
    ∀ (φ : ℚ →+*o ℝ), M'.prMin φ (M'.labelled "goal") 1 = reD.prMin φ (reD.labelled "goal") 1 := by
  obtain ⟨rf, h1, -⟩ := exists_of_ok_and (x := RF.make exRnd reD "init" "goal" "fail" false) (p := fun _ => true)
    (by decide +kernel)
  have w : (mkSys reD.P reD.idx reD.labS).WF :=
    mkSys_wf (by decide +kernel) (by decide +kernel) (by decide +kernel) (by decide +kernel) (by decide +kernel) (by decide +kernel)
  have hl : LabelMap reD.labS := ⟨id, [("init", [0]), ("goal", [2]), ("fail", [3])], true, [], fun _ => List.Perm.refl _,
    isPyDict_of (by decide +kernel) (by decide +kernel), rfl⟩
  have ha : ∀ e ∈ reD.idx, e.1.2 = 0 := by decide +kernel
  obtain ⟨lab, tra, M', rf', a1, a2, a3, -, a4, -, a6⟩ := C70_reload_dtmc (ρ' := exRnd) (π := id) (π' := id) (fun _ => .refl _)
    (fun _ => .refl _) (M := reD) ⟨w.nodup, w.range, w.pos, w.sum, w.keys, w.vals, w.graph⟩ hl rfl
    (fun s a i h => ha _ h) (clean_of_test (by decide +kernel)) (six_of_test (by decide +kernel)) h1
  exact ⟨rf, lab, tra, M', rf', h1, a1, a2, a3, a4, fun φ => (a6 φ 1).1⟩

end Verif.Props
