import Verif.Proofs.Groups
import Verif.Proofs.RFSem
import Verif.Proofs.ReduceRF
/-! what the groups of `groups_from_labels` count -/
set_option linter.unusedSectionVars false
namespace Verif.Proofs
open Verif.Model Verif.Model.Milp Verif.Spec Verif.Proofs.IDict Finset

variable {K : Type} [Field K] [LinearOrder K] [IsStrictOrderedRing K] {σ : Type}

theorem usedGroups_cons (g : List Nat) (gs : List (List Nat)) (x : Nat → K) :
    usedGroups (g :: gs) x = (if ∃ w ∈ g, 0 < x w then 1 else 0) + usedGroups gs x := by
  unfold usedGroups
  rw [card_filter, card_filter, List.length_cons, sum_range_succ']
  simp only [List.getD_cons_succ, List.getD_cons_zero]
  rw [add_comm]

open Classical in
theorem usedGroups_dict {α : Type} [DecidableEq α] {d : Dict α (List Nat)} (hd : (Dict.keys d).Nodup) (x : Nat → K) :
    usedGroups (d.map Prod.snd) x = ((Dict.keys d).toFinset.filter fun k => ∃ w, Has d k w ∧ 0 < x w).card := by
  induction d with
  | nil => simp [usedGroups, Dict.keys]
  | cons p d ih =>
    obtain ⟨k, g⟩ := p
    have hk : k ∉ Dict.keys d := by
      simp only [Dict.keys, List.map_cons, List.nodup_cons] at hd
      exact hd.1
    have hd' : (Dict.keys d).Nodup := by
      simp only [Dict.keys, List.map_cons, List.nodup_cons] at hd
      exact hd.2
    have e1 : (Dict.keys ((k, g) :: d)).toFinset = insert k (Dict.keys d).toFinset := by simp [Dict.keys]
    have e2 : ((Dict.keys d).toFinset.filter fun k' => ∃ w, Has ((k, g) :: d) k' w ∧ 0 < x w) =
        (Dict.keys d).toFinset.filter fun k => ∃ w, Has d k w ∧ 0 < x w := by
      refine filter_congr fun k' hk' => ?_
      have : k ≠ k' := fun e => hk (e ▸ List.mem_toFinset.1 hk')
      simp only [Has, Dict.get?, if_neg this]
    have e3 : (∃ w, Has ((k, g) :: d) k w ∧ 0 < x w) ↔ ∃ w ∈ g, 0 < x w := by
      simp [Has, Dict.get?]
    rw [List.map_cons, usedGroups_cons, ih hd', e1, filter_insert, e2]
    split
    · rename_i h
      rw [if_pos (e3.2 h), card_insert_of_notMem, add_comm]
      simp [hk]
    · rename_i h
      rw [if_neg (fun g => h (e3.1 g)), Nat.zero_add]

theorem usedGroups_single (n : Nat) (x : Nat → K) :
    usedGroups ((List.range n).map fun i => [i]) x = ((range n).filter fun i => 0 < x i).card := by
  unfold usedGroups
  simp only [List.length_map, List.length_range]
  refine congrArg _ (filter_congr fun k hk => ?_)
  have : ((List.range n).map fun i => [i]).getD k [] = [k] := by
    rw [List.getD_eq_getElem _ _ (by simpa using hk)]; simp
  rw [this]
  simp

/-! ### the dictionaries -/

theorem groupsByState_spec {f : Form σ K} {d : Dict Nat (List Nat)} (h : groupsByState f = .ok d) :
    SetsOK d ∧ ∀ s i, Has d s i ↔ i < f.certSize .max ∧ ∃ a, invGet? f.idx i = some (s, a) := by
  have key : ∀ (l : List Nat) (d0 d : Dict Nat (List Nat)), l.foldlM (fun d i =>
      if f.hasIdx then
        match invGet? f.idx i with
        | none => Except.error Err.keyError
        | some (s, _) => .ok (IDict.addTo d s i)
      else .error .attributeError) d0 = .ok d → SetsOK d0 →
      SetsOK d ∧ ∀ s i, Has d s i ↔ Has d0 s i ∨ (i ∈ l ∧ ∃ a, invGet? f.idx i = some (s, a)) := by
    intro l
    induction l with
    | nil => intro d0 d h h0; cases h; exact ⟨h0, by simp⟩
    | cons j l ih =>
      intro d0 d h h0
      rw [List.foldlM_cons] at h
      simp only [bind, Except.bind] at h
      cases hx : f.hasIdx with
      | false => simp [hx] at h
      | true =>
      cases hj : invGet? f.idx j with
      | none => simp [hx, hj] at h
      | some p =>
        obtain ⟨s, a⟩ := p
        rw [if_pos hx, hj] at h
        dsimp only at h
        obtain ⟨g1, g2⟩ := ih _ _ h (ok_addTo h0 _ _)
        refine ⟨g1, fun s' i => ?_⟩
        rw [g2, has_addTo, List.mem_cons]
        constructor
        · rintro ((⟨rfl, rfl⟩ | g) | ⟨g, ha⟩)
          · exact Or.inr ⟨Or.inl rfl, a, hj⟩
          · exact Or.inl g
          · exact Or.inr ⟨Or.inr g, ha⟩
        · rintro (g | ⟨rfl | g, ha⟩)
          · exact Or.inl (Or.inr g)
          · obtain ⟨a', ha⟩ := ha
            rw [hj] at ha
            cases ha
            exact Or.inl (Or.inl ⟨rfl, rfl⟩)
          · exact Or.inr ⟨g, ha⟩
  obtain ⟨g1, g2⟩ := key _ _ _ h ⟨by simp [Dict.keys], by simp [Dict.get?]⟩
  refine ⟨g1, fun s i => ?_⟩
  rw [g2, List.mem_range]
  simp [Has, Dict.get?]

theorem statesByLabel_mem {M : Sys K} {l : String} {ss : List Nat} (h : M.statesByLabel l = .ok ss) (s : Nat) :
    s ∈ ss ↔ s ∈ M.labelled l := by
  rw [labelled_iff, ← has_of_statesByLabel h]

theorem groupsMin_spec {f : Form σ K} {ls : List String} {d : Dict String (List Nat)} (h : groupsMin f ls = .ok d) :
    (Dict.keys d).Nodup ∧ (∀ l, l ∈ Dict.keys d ↔ l ∈ ls) ∧ ∀ l s, Has d l s ↔ l ∈ ls ∧ s ∈ f.sys.labelled l := by
  have key : ∀ (ls : List String) (d0 d : Dict String (List Nat)), ls.foldlM (fun d l => do
      let ss ← f.sys.statesByLabel l
      .ok (d.set l ss)) d0 = .ok d → (Dict.keys d0).Nodup →
      (Dict.keys d).Nodup ∧ (∀ l, l ∈ Dict.keys d ↔ l ∈ Dict.keys d0 ∨ l ∈ ls) ∧
        ∀ l s, Has d l s ↔ (l ∉ ls ∧ Has d0 l s) ∨ l ∈ ls ∧ s ∈ f.sys.labelled l := by
    intro ls
    induction ls with
    | nil => intro d0 d h h0; cases h; exact ⟨h0, by simp, by simp⟩
    | cons l ls ih =>
      intro d0 d h h0
      rw [List.foldlM_cons] at h
      simp only [bind, Except.bind] at h
      cases hl : f.sys.statesByLabel l with
      | error e => simp [hl] at h
      | ok ss =>
        simp only [hl] at h
        obtain ⟨g1, g2, g3⟩ := ih _ _ h (Dict.nodup_set h0 _ _)
        refine ⟨g1, fun l' => ?_, fun l' s => ?_⟩
        · rw [g2, Dict.mem_keys_set, List.mem_cons]; tauto
        · rw [g3, List.mem_cons]
          have : Has (d0.set l ss) l' s ↔ (l' = l ∧ s ∈ f.sys.labelled l) ∨ (l' ≠ l ∧ Has d0 l' s) := by
            unfold Has
            rw [Dict.get?_set]
            by_cases e : l = l'
            · subst e
              simp [statesByLabel_mem hl]
            · simp [e, Ne.symm e]
          rw [this]
          by_cases e : l' = l
          · subst e; tauto
          · tauto
  obtain ⟨g1, g2, g3⟩ := key _ _ _ h (by simp [Dict.keys])
  refine ⟨g1, fun l => by rw [g2]; simp [Dict.keys], fun l s => ?_⟩
  rw [g3]
  simp [Has, Dict.get?]

theorem actionsByState_spec {M : Sys K} {x : IDict Nat Nat} (h : M.actionsByState = .ok x) :
    x.dflt = false ∧ ∀ s a, Has x.d s a ↔ ∃ i < M.C, invGet? M.idx i = some (s, a) := by
  have key : ∀ (l : List Nat) (d0 d : IDict Nat Nat), l.foldlM (fun d i =>
      match invGet? M.idx i with
      | none => Except.error Err.keyError
      | some (s, a) => .ok (d.add s a)) d0 = .ok d →
      d.dflt = d0.dflt ∧ ∀ s a, Has d.d s a ↔ Has d0.d s a ∨ ∃ i ∈ l, invGet? M.idx i = some (s, a) := by
    intro l
    induction l with
    | nil => intro d0 d h; cases h; exact ⟨rfl, by simp⟩
    | cons j l ih =>
      intro d0 d h
      rw [List.foldlM_cons] at h
      simp only [bind, Except.bind] at h
      cases hj : invGet? M.idx j with
      | none => simp [hj] at h
      | some p =>
        obtain ⟨s, a⟩ := p
        simp only [hj] at h
        obtain ⟨g1, g2⟩ := ih _ _ h
        refine ⟨g1, fun s' a' => ?_⟩
        rw [g2]
        simp only [Model.IDict.add, has_addTo, List.mem_cons, exists_eq_or_imp, hj, Option.some.injEq, Prod.mk.injEq]
        constructor
        · rintro ((⟨rfl, rfl⟩ | g) | g)
          · exact Or.inr (Or.inl ⟨rfl, rfl⟩)
          · exact Or.inl g
          · exact Or.inr (Or.inr g)
        · rintro (g | ⟨rfl, rfl⟩ | g)
          · exact Or.inl (Or.inr g)
          · exact Or.inl (Or.inl ⟨rfl, rfl⟩)
          · exact Or.inr g
  obtain ⟨g1, g2⟩ := key _ _ _ h
  refine ⟨g1, fun s a => ?_⟩
  rw [g2]
  simp [Has, Dict.get?, IDict.mk']

theorem groupsMax_spec {f : Form σ K} {ls : List String} {d : Dict String (List Nat)} (hk : (f.sys.idx.map Prod.fst).Nodup)
    (hv : (f.sys.idx.map Prod.snd).Nodup) (h : groupsMax f ls = .ok d) :
    SetsOK d ∧ ∀ l i, Has d l i ↔ l ∈ ls ∧ i < f.sys.C ∧ ∃ s a, s ∈ f.sys.labelled l ∧ ((s, a), i) ∈ f.sys.idx := by
  -- one state
  have inner : ∀ (l : String) (s : Nat) (as : List Nat) (d0 d : Dict String (List Nat)),
      as.foldlM (fun d a =>
        match f.sys.idx.get? (s, a) with
        | none => Except.error Err.keyError
        | some i => .ok (IDict.addTo d l i)) d0 = .ok d → SetsOK d0 →
      SetsOK d ∧ ∀ l' i, Has d l' i ↔ Has d0 l' i ∨ (l' = l ∧ ∃ a ∈ as, ((s, a), i) ∈ f.sys.idx) := by
    intro l s as
    induction as with
    | nil => intro d0 d h h0; cases h; exact ⟨h0, by simp⟩
    | cons a as ih =>
      intro d0 d h h0
      rw [List.foldlM_cons] at h
      simp only [bind, Except.bind] at h
      cases hj : f.sys.idx.get? (s, a) with
      | none => simp [hj] at h
      | some j =>
        simp only [hj] at h
        obtain ⟨g1, g2⟩ := ih _ _ h (ok_addTo h0 _ _)
        refine ⟨g1, fun l' i => ?_⟩
        have hji : ∀ i, ((s, a), i) ∈ f.sys.idx ↔ i = j := fun i => by
          rw [← Dict.get?_iff_mem hk, hj]; simp [eq_comm]
        rw [g2, has_addTo]
        simp only [List.mem_cons, exists_eq_or_imp, hji]
        tauto
  have middle : ∀ (l : String) (ss : List Nat) (d0 d : Dict String (List Nat)),
      ss.foldlM (fun d s => do
        let abs ← f.sys.actionsByState
        let as ← abs.getItem s
        as.foldlM (fun d a =>
          match f.sys.idx.get? (s, a) with
          | none => Except.error Err.keyError
          | some i => .ok (IDict.addTo d l i)) d) d0 = .ok d → SetsOK d0 →
      SetsOK d ∧ ∀ l' i, Has d l' i ↔ Has d0 l' i ∨
        (l' = l ∧ i < f.sys.C ∧ ∃ s a, s ∈ ss ∧ ((s, a), i) ∈ f.sys.idx) := by
    intro l ss
    induction ss with
    | nil => intro d0 d h h0; cases h; exact ⟨h0, by simp⟩
    | cons s ss ih =>
      intro d0 d h h0
      rw [List.foldlM_cons] at h
      simp only [bind, Except.bind] at h
      split at h
      · cases h
      rename_i d1 hd1
      split at hd1
      · cases hd1
      rename_i abs habs
      split at hd1
      · cases hd1
      rename_i as has
      obtain ⟨g1, g2⟩ := inner l s as d0 d1 hd1 h0
      obtain ⟨g3, g4⟩ := ih _ _ h g1
      obtain ⟨a1, a2⟩ := actionsByState_spec habs
      have has' : ∀ a, a ∈ as ↔ ∃ i < f.sys.C, ((s, a), i) ∈ f.sys.idx := by
        intro a
        have : a ∈ as ↔ Has abs.d s a := by
          unfold Model.IDict.getItem at has
          unfold Has
          split at has
          · rw [a1] at has; cases has
          · rename_i t ht; cases has; rw [ht]; rfl
        rw [this, a2]
        constructor
        · rintro ⟨i, hi, g⟩; exact ⟨i, hi, (invGet?_iff hv).1 g⟩
        · rintro ⟨i, hi, g⟩; exact ⟨i, hi, (invGet?_iff hv).2 g⟩
      refine ⟨g3, fun l' i => ?_⟩
      rw [g4, g2]
      constructor
      · rintro ((g | ⟨rfl, a, ha, hm⟩) | ⟨rfl, hi, s', a, hs', hm⟩)
        · exact Or.inl g
        · obtain ⟨i', hi', hm'⟩ := (has' a).1 ha
          have : i' = i := by
            have e1 := (Dict.get?_iff_mem hk).2 hm
            rw [(Dict.get?_iff_mem hk).2 hm'] at e1
            exact Option.some.inj e1
          subst this
          exact Or.inr ⟨rfl, hi', s, a, by simp, hm⟩
        · exact Or.inr ⟨rfl, hi, s', a, by simp [hs'], hm⟩
      · rintro (g | ⟨rfl, hi, s', a, hs', hm⟩)
        · exact Or.inl (Or.inl g)
        · rcases List.mem_cons.1 hs' with rfl | hs'
          · exact Or.inl (Or.inr ⟨rfl, a, (has' a).2 ⟨i, hi, hm⟩, hm⟩)
          · exact Or.inr ⟨rfl, hi, s', a, hs', hm⟩
  have outer : ∀ (ls : List String) (d0 d : Dict String (List Nat)), ls.foldlM (fun d l => do
      let ss ← f.sys.statesByLabel l
      ss.foldlM (fun d s => do
        let abs ← f.sys.actionsByState
        let as ← abs.getItem s
        as.foldlM (fun d a =>
          match f.sys.idx.get? (s, a) with
          | none => Except.error Err.keyError
          | some i => .ok (IDict.addTo d l i)) d) d) d0 = .ok d → SetsOK d0 →
      SetsOK d ∧ ∀ l i, Has d l i ↔ Has d0 l i ∨
        (l ∈ ls ∧ i < f.sys.C ∧ ∃ s a, s ∈ f.sys.labelled l ∧ ((s, a), i) ∈ f.sys.idx) := by
    intro ls
    induction ls with
    | nil => intro d0 d h h0; cases h; exact ⟨h0, by simp⟩
    | cons l ls ih =>
      intro d0 d h h0
      rw [List.foldlM_cons] at h
      simp only [bind, Except.bind] at h
      split at h
      · cases h
      rename_i d1 hd1
      split at hd1
      · cases hd1
      rename_i ss hss
      obtain ⟨g1, g2⟩ := middle l ss d0 d1 hd1 h0
      obtain ⟨g3, g4⟩ := ih _ _ h g1
      refine ⟨g3, fun l' i => ?_⟩
      rw [g4, g2]
      simp only [statesByLabel_mem hss, List.mem_cons]
      constructor
      · rintro ((g | ⟨rfl, g⟩) | ⟨g, g'⟩)
        · exact Or.inl g
        · exact Or.inr ⟨Or.inl rfl, g⟩
        · exact Or.inr ⟨Or.inr g, g'⟩
      · rintro (g | ⟨rfl | g, g'⟩)
        · exact Or.inl (Or.inl g)
        · exact Or.inl (Or.inr ⟨rfl, g'⟩)
        · exact Or.inr ⟨g, g'⟩
  obtain ⟨g1, g2⟩ := outer _ _ _ h ⟨by simp [Dict.keys], by simp [Dict.get?]⟩
  refine ⟨g1, fun l i => ?_⟩
  rw [g2]
  simp [Has, Dict.get?]

end Verif.Proofs
