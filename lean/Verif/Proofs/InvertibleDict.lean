import Verif.Model.InvertibleDict
import Mathlib.Tactic.Tauto
/-! helper lemmas for `InvertibleDict` -/
namespace Verif.Proofs.IDict
open Verif.Spec Verif.Model Verif.Model.IDict

variable {α β : Type} [DecidableEq α] [DecidableEq β]

/-- membership of `v` in the set stored at `k` -/
def Has {α β : Type} [DecidableEq α] (d : Dict α (List β)) (k : α) (v : β) : Prop :=
  v ∈ (d.get? k).getD []

def SetsOK {α β : Type} [DecidableEq α] (d : Dict α (List β)) : Prop :=
  (Dict.keys d).Nodup ∧ ∀ k s, d.get? k = some s → s.Nodup

theorem has_addTo (d : Dict α (List β)) (k k' : α) (v v' : β) :
    Has (addTo d k v) k' v' ↔ (k' = k ∧ v' = v) ∨ Has d k' v' := by
  unfold Has addTo
  rw [Dict.get?_set]
  by_cases h : k = k'
  · subst h
    simp [mem_sadd]
  · simp [h, Ne.symm h]

theorem ok_addTo {d : Dict α (List β)} (h : SetsOK d) (k : α) (v : β) : SetsOK (addTo d k v) := by
  refine ⟨Dict.nodup_set h.1 _ _, fun k' s hs => ?_⟩
  unfold addTo at hs
  rw [Dict.get?_set] at hs
  by_cases hk : k = k'
  · rw [if_pos hk] at hs
    cases hs
    apply nodup_sadd
    cases hg : d.get? k with
    | none => simp
    | some t => simpa using h.2 k t hg
  · rw [if_neg hk] at hs
    exact h.2 k' s hs

theorem has_foldl_inner (l : List β) (i : Dict β (List α)) (k0 k : α) (v : β) :
    Has (l.foldl (fun i v => addTo i v k0) i) v k ↔ (k = k0 ∧ v ∈ l) ∨ Has i v k := by
  induction l generalizing i with
  | nil => simp
  | cons a l ih =>
    simp only [List.foldl_cons, ih, has_addTo, List.mem_cons]
    tauto

theorem ok_foldl_inner (l : List β) {i : Dict β (List α)} (h : SetsOK i) (k0 : α) :
    SetsOK (l.foldl (fun i v => addTo i v k0) i) := by
  induction l generalizing i with
  | nil => exact h
  | cons a l ih => exact ih (ok_addTo h _ _)

theorem has_invert {π : List β → List β} (hπ : ∀ l, (π l).Perm l) {d : Dict α (List β)}
    (hd : (Dict.keys d).Nodup) (k : α) (v : β) : Has (invert π d) v k ↔ Has d k v := by
  have key : ∀ (d : Dict α (List β)) (i : Dict β (List α)), 
      Has (d.foldl (fun i kv => (π kv.2).foldl (fun i v => addTo i v kv.1) i) i) v k ↔
        (∃ s, (k, s) ∈ d ∧ v ∈ s) ∨ Has i v k := by
    intro d
    induction d with
    | nil => intro i; simp
    | cons p d ih =>
      intro i
      obtain ⟨a, s⟩ := p
      simp only [List.foldl_cons, ih, has_foldl_inner, (hπ s).mem_iff]
      simp only [List.mem_cons, Prod.mk.injEq]
      constructor
      · rintro (⟨t, ht, hv⟩ | ⟨rfl, hv⟩ | h)
        · exact Or.inl ⟨t, Or.inr ht, hv⟩
        · exact Or.inl ⟨s, Or.inl ⟨rfl, rfl⟩, hv⟩
        · exact Or.inr h
      · rintro (⟨t, ⟨rfl, rfl⟩ | ht, hv⟩ | h)
        · exact Or.inr (Or.inl ⟨rfl, hv⟩)
        · exact Or.inl ⟨t, ht, hv⟩
        · exact Or.inr (Or.inr h)
  unfold invert
  rw [key]
  unfold Has
  constructor
  · rintro (⟨s, hs, hv⟩ | h)
    · rw [Dict.get?_of_mem hd hs]; exact hv
    · simp [Dict.get?] at h
  · intro h
    left
    cases hg : d.get? k with
    | none => simp [hg] at h
    | some s => exact ⟨s, Dict.mem_of_get? hg, by simpa [hg] using h⟩

theorem ok_invert (π : List β → List β) (d : Dict α (List β)) : SetsOK (invert π d) := by
  unfold invert
  have : ∀ (i : Dict β (List α)), SetsOK i →
      SetsOK (d.foldl (fun i kv => (π kv.2).foldl (fun i v => addTo i v kv.1) i) i) := by
    induction d with
    | nil => intro i h; exact h
    | cons p d ih => intro i h; exact ih _ (ok_foldl_inner _ h _)
  exact this [] ⟨by simp [Dict.keys], by simp [Dict.get?]⟩

/-- the invariant of an `InvertibleDict` -/
structure Inv (x : IDict α β) : Prop where
  ok : SetsOK x.d
  oki : ∀ i, x.i = some i → SetsOK i
  conv : ∀ i, x.i = some i → ∀ k v, Has x.d k v ↔ Has i v k

theorem Inv.add {x : IDict α β} (h : Inv x) (k : α) (v : β) : Inv (x.add k v) := by
  refine ⟨ok_addTo h.ok _ _, ?_, ?_⟩
  · intro i hi
    simp only [Model.IDict.add, Option.map_eq_some_iff] at hi
    obtain ⟨j, hj, rfl⟩ := hi
    exact ok_addTo (h.oki j hj) _ _
  · intro i hi k' v'
    simp only [Model.IDict.add, Option.map_eq_some_iff] at hi
    obtain ⟨j, hj, rfl⟩ := hi
    simp only [Model.IDict.add, has_addTo, h.conv j hj]
    tauto

theorem has_erase {d : Dict α (List β)} (h : SetsOK d) {k : α} {v : β} {s : List β}
    (hs : d.get? k = some s) (k' : α) (v' : β) :
    Has (d.set k (s.erase v)) k' v' ↔ Has d k' v' ∧ ¬ (k' = k ∧ v' = v) := by
  unfold Has
  rw [Dict.get?_set]
  by_cases hk : k = k'
  · subst hk
    have := h.2 k s hs
    simp [hs, this.mem_erase_iff]; tauto
  · simp [hk, Ne.symm hk]

theorem ok_erase {d : Dict α (List β)} (h : SetsOK d) {k : α} {v : β} {s : List β}
    (hs : d.get? k = some s) : SetsOK (d.set k (s.erase v)) := by
  refine ⟨Dict.nodup_set h.1 _ _, fun k' t ht => ?_⟩
  rw [Dict.get?_set] at ht
  by_cases hk : k = k'
  · rw [if_pos hk] at ht; cases ht; exact (h.2 k s hs).erase v
  · rw [if_neg hk] at ht; exact h.2 k' t ht

/-- complete behaviour of `remove` under the invariant -/
theorem remove_spec {x : IDict α β} (h : Inv x) (k : α) (v : β) :
    (Has x.d k v → (x.remove k v).1 = .ok () ∧ Inv (x.remove k v).2 ∧
      (∀ k' v', Has (x.remove k v).2.d k' v' ↔ Has x.d k' v' ∧ ¬ (k' = k ∧ v' = v))
      ∧ (x.remove k v).2.dflt = x.dflt ∧ ((x.remove k v).2.i.isSome ↔ x.i.isSome)) ∧
    (¬ Has x.d k v → x.remove k v = (.error .assertion, x)) := by
  obtain ⟨d, i, df⟩ := x
  constructor
  · intro hv
    cases hs : d.get? k with
    | none => simp [Has, hs] at hv
    | some s =>
      have hvs : v ∈ s := by simpa [Has, hs] using hv
      cases i with
      | none =>
        simp only [Model.IDict.remove, hs, hvs, if_true]
        refine ⟨trivial, ⟨ok_erase h.ok hs, by simp, by simp⟩, ?_, trivial, by simp⟩
        intro k' v'; exact has_erase h.ok hs k' v'
      | some i =>
        have hc := (h.conv i rfl k v).1 hv
        cases ht : i.get? v with
        | none => simp [Has, ht] at hc
        | some t =>
          have hkt : k ∈ t := by simpa [Has, ht] using hc
          simp only [Model.IDict.remove, hs, hvs, ht, hkt, if_true]
          refine ⟨trivial, ⟨ok_erase h.ok hs, ?_, ?_⟩, ?_, by simp⟩
          · intro j hj; cases hj; exact ok_erase (h.oki i rfl) ht
          · intro j hj k' v'; cases hj
            rw [has_erase h.ok hs, has_erase (h.oki i rfl) ht, h.conv i rfl]
            tauto
          · intro k' v'; exact has_erase h.ok hs k' v'
  · intro hv
    cases hs : d.get? k with
    | none => simp [Model.IDict.remove, hs]
    | some s =>
      have hvs : v ∉ s := by simpa [Has, hs] using hv
      simp [Model.IDict.remove, hs, hvs]

theorem Inv.force {π : List β → List β} (hπ : ∀ l, (π l).Perm l) {x : IDict α β} (h : Inv x) :
    Inv (x.force π) ∧ (x.force π).d = x.d ∧ (x.force π).dflt = x.dflt ∧
      ∃ i, (x.force π).i = some i := by
  obtain ⟨d, i, df⟩ := x
  cases i with
  | none =>
    refine ⟨⟨h.ok, ?_, ?_⟩, rfl, rfl, ⟨_, rfl⟩⟩
    · intro i hi; simp only [Model.IDict.force, Option.some.injEq] at hi; subst hi
      exact ok_invert π d
    · intro i hi k v; simp only [Model.IDict.force, Option.some.injEq] at hi; subst hi
      exact (has_invert hπ h.ok.1 k v).symm
  | some i => exact ⟨h, rfl, rfl, ⟨i, rfl⟩⟩

theorem Inv.flip {x : IDict α β} (h : Inv x) {i} (hi : x.i = some i) :
    Inv x.flip ∧ x.flip.d = i ∧ x.flip.i = some x.d := by
  obtain ⟨d, j, df⟩ := x
  cases hi
  refine ⟨⟨h.oki i rfl, ?_, ?_⟩, rfl, rfl⟩
  · intro j hj; cases hj; exact h.ok
  · intro j hj k v; cases hj; exact (h.conv i rfl v k).symm

/-- the relation represented by the object -/
def rel (x : IDict α β) : Set (α × β) := {p | Has x.d p.1 p.2}

theorem step_spec {π : List β → List β} (hπ : ∀ l, (π l).Perm l) {x : IDict α β} (h : Inv x)
    (o : MapOp α β) : Inv (x.step π o).2 ∧ ((x.step π o).1.toBool, rel (x.step π o).2) =
      relStep (rel x) o ∧ (x.step π o).2.dflt = x.dflt := by
  cases o with
  | add k v =>
    refine ⟨h.add k v, ?_, rfl⟩
    simp only [Model.IDict.step, relStep, Except.toBool, Prod.mk.injEq, true_and]
    ext ⟨k', v'⟩
    simp [rel, Model.IDict.add, has_addTo]
  | remove k v =>
    obtain ⟨h1, h2⟩ := remove_spec h k v
    by_cases hv : Has x.d k v
    · obtain ⟨a, b, c, e, _⟩ := h1 hv
      refine ⟨b, ?_, e⟩
      have : (k, v) ∈ rel x := hv
      simp only [Model.IDict.step, relStep, this, if_true, a, Except.toBool, Prod.mk.injEq, true_and]
      ext ⟨k', v'⟩
      simp [rel, c]
    · rw [show x.step π (.remove k v) = x.remove k v from rfl, h2 hv]
      refine ⟨h, ?_, rfl⟩
      have : (k, v) ∉ rel x := hv
      simp [relStep, this, Except.toBool]
  | inv =>
    obtain ⟨a, b, c, _⟩ := h.force hπ
    refine ⟨a, ?_, c⟩
    simp [Model.IDict.step, relStep, Except.toBool, rel, b]
  | invAdd v k =>
    obtain ⟨a, b, c, i, hi⟩ := h.force hπ
    obtain ⟨fa, fb, fc⟩ := a.flip hi
    have g := fa.add v k
    have hgi : ((x.force π).flip.add v k).i = some (addTo (x.force π).d k v) := by
      simp [Model.IDict.add, fc]
    obtain ⟨ga, gb, gc⟩ := g.flip hgi
    refine ⟨ga, ?_, ?_⟩
    · simp only [Model.IDict.step, relStep, Except.toBool, Prod.mk.injEq, true_and]
      ext ⟨k', v'⟩
      simp [rel, gb, has_addTo, b]
    · show ((x.force π).flip.add v k).flip.dflt = _
      rw [show ∀ y : IDict β α, y.flip.dflt = y.dflt from fun y => by
        unfold Model.IDict.flip; cases y.i <;> rfl]
      show (x.force π).flip.dflt = _
      rw [show ∀ y : IDict α β, y.flip.dflt = y.dflt from fun y => by
        unfold Model.IDict.flip; cases y.i <;> rfl, c]
  | invRemove v k =>
    obtain ⟨a, b, c, i, hi⟩ := h.force hπ
    obtain ⟨fa, fb, fc⟩ := a.flip hi
    obtain ⟨h1, h2⟩ := remove_spec fa v k
    have hcv : Has (x.force π).flip.d v k ↔ Has x.d k v := by
      rw [fb, ← a.conv i hi, b]
    have fd : ∀ y : IDict α β, y.flip.dflt = y.dflt := fun y => by
        unfold Model.IDict.flip; cases y.i <;> rfl
    have fd' : ∀ y : IDict β α, y.flip.dflt = y.dflt := fun y => by
        unfold Model.IDict.flip; cases y.i <;> rfl
    by_cases hv : Has x.d k v
    · obtain ⟨r1, r2, r3, r4, r5⟩ := h1 (hcv.2 hv)
      have : ∃ j, ((x.force π).flip.remove v k).2.i = some j := by
        rw [← Option.isSome_iff_exists, r5, fc]; rfl
      obtain ⟨j, hj⟩ := this
      obtain ⟨ga, gb, gc⟩ := r2.flip hj
      refine ⟨ga, ?_, ?_⟩
      · have hm : (k, v) ∈ rel x := hv
        simp only [Model.IDict.step, relStep, hm, if_true, r1, Except.toBool, Prod.mk.injEq, true_and]
        ext ⟨k', v'⟩
        simp only [rel, Set.mem_ofPred_eq, gb, Set.mem_sdiff, Set.mem_singleton_iff, Prod.mk.injEq]
        rw [← r2.conv j hj v' k', r3, fb, ← a.conv i hi, b]
        tauto
      · show ((x.force π).flip.remove v k).2.flip.dflt = _
        rw [fd', r4, fd, c]
    · have e := h2 (fun hc => hv (hcv.1 hc))
      have es : x.step π (.invRemove v k) = (.error .assertion, (x.force π).flip.flip) := by
        simp only [Model.IDict.step, e]
      obtain ⟨ga, gb, gc⟩ := fa.flip fc
      rw [es]
      refine ⟨ga, ?_, ?_⟩
      · have hm : (k, v) ∉ rel x := hv
        have hv' : ¬ Has x.d k v := hv
        simp [relStep, hv', Except.toBool, rel, gb, b]
      · show (x.force π).flip.flip.dflt = _
        rw [fd', fd, c]

theorem run_spec {π : List β → List β} (hπ : ∀ l, (π l).Perm l) {x : IDict α β} (h : Inv x)
    (os : List (MapOp α β)) : Inv (x.run π os).2 ∧ ((x.run π os).1, rel (x.run π os).2) =
      relRun (rel x) os ∧ (x.run π os).2.dflt = x.dflt := by
  induction os generalizing x with
  | nil => exact ⟨h, rfl, rfl⟩
  | cons o os ih =>
    obtain ⟨a, b, c⟩ := step_spec hπ h o
    obtain ⟨e, f, g⟩ := ih a
    refine ⟨e, ?_, g.trans c⟩
    simp only [Model.IDict.run, relRun]
    rw [← b, ← f]

end Verif.Proofs.IDict
