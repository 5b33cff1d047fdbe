import Verif.Proofs.Aliasing
import Verif.Props.InvertibleDict
/-!
# C58: the caller's dictionary of label sets

`h` is the memory with all set objects, `c` the caller's dictionary, whose values are references.
The dictionary itself is copied by the constructor; the sets are shared.
-/
set_option linter.unusedSectionVars false
namespace Verif.Props
open Verif.Spec Verif.Model Verif.Model.Alias Verif.Proofs.IDict Verif.Proofs.Alias

variable {α β : Type} [DecidableEq α] [DecidableEq β]

/-- a caller's dictionary: distinct labels, each with its own set object (a set without duplicates) -/
structure CallerDict (h : Heap β) (c : Dict α Nat) : Prop where
  keys : (c.map Prod.fst).Nodup
  own : (c.map Prod.snd).Nodup
  alive : ∀ e ∈ c, ∃ s, h[e.2]? = some s ∧ s.Nodup

/-- `v in c[k]` for the caller, in memory `h` -/
def callerHas (h : Heap β) (c : Dict α Nat) (k : α) (v : β) : Prop :=
  ∃ a s, (k, a) ∈ c ∧ h[a]? = some s ∧ v ∈ s

theorem CallerDict.toOwn {h : Heap β} {c : Dict α Nat} (hc : CallerDict h c) : Own h c :=
  ⟨hc.keys, hc.own, fun e he => by
    obtain ⟨s, hs, -⟩ := hc.alive e he
    exact (List.getElem?_eq_some_iff.1 hs).1⟩

theorem CallerDict.isPyDict {h : Heap β} {c : Dict α Nat} (hc : CallerDict h c) : IsPyDict (deref h c) := by
  refine ⟨by have := keys_deref h c; unfold Dict.keys at this; rw [this]; exact hc.keys, fun p hp => ?_⟩
  obtain ⟨e, he, rfl⟩ := List.mem_map.1 hp
  obtain ⟨s, hs, hn⟩ := hc.alive e he
  simp only [cell, hs, Option.getD_some]; exact hn

theorem callerHas_iff {h : Heap β} {c : Dict α Nat} (hk : (c.map Prod.fst).Nodup) {k : α} {v : β} :
    callerHas h c k v ↔ Has (deref h c) k v := by
  unfold callerHas Has
  rw [get?_deref]
  constructor
  · rintro ⟨a, s, h1, h2, h3⟩
    rw [Dict.get?_of_mem hk h1]
    simp only [Option.map_some, Option.getD_some, cell, h2]; exact h3
  · intro hv
    cases hg : c.get? k with
    | none => simp [hg] at hv
    | some a =>
      simp only [hg, Option.map_some, Option.getD_some, cell] at hv
      cases hs : h[a]? with
      | none => simp [hs] at hv
      | some s => exact ⟨a, s, Dict.mem_of_get? hg, hs, by simpa [hs] using hv⟩

/-- what the caller sees after a history on the object, in terms of the object -/
theorem caller_after {h : Heap β} {c : Dict α Nat} (hc : CallerDict h c) (π : List β → List β) (dflt : Bool)
    (os : List (MapOp α β)) (k : α) (v : β) :
    callerHas (run π h (Obj.new c dflt) os).2.1 c k v ↔
      k ∈ c.map Prod.fst ∧ Has ((IDict.mk' (deref h c) dflt).run π os).2.d k v := by
  obtain ⟨h1, -, h3⟩ := run_seen π os (x := Obj.new c dflt) hc.toOwn
  have e : ((Obj.new c dflt : Obj α β).seen h) = IDict.mk' (deref h c) dflt := rfl
  rw [e] at h3
  rw [callerHas_iff hc.keys, ← h3]
  unfold Has Obj.seen
  simp only [get?_deref]
  constructor
  · intro hv
    cases hg : c.get? k with
    | none => simp [hg] at hv
    | some a =>
      refine ⟨List.mem_map.2 ⟨_, Dict.mem_of_get? hg, rfl⟩, ?_⟩
      rw [run_keep π os (x := Obj.new c dflt) hg]
      rw [hg] at hv; exact hv
  · rintro ⟨hk, hv⟩
    obtain ⟨a, hg⟩ := Option.isSome_iff_exists.1 (Dict.get?_isSome.2 hk)
    rw [run_keep π os (x := Obj.new c dflt) hg] at hv
    rw [hg]; exact hv

/-- **C58 (the object alone).** As long as only calls on the object write to its sets, sharing is
invisible: the results of all calls and everything the object shows are those of an object with its own
copy of the sets. -/
theorem C58_single {h : Heap β} {c : Dict α Nat} (hc : CallerDict h c) (π : List β → List β) (dflt : Bool)
    (os : List (MapOp α β)) :
    (run π h (Obj.new c dflt) os).1 = ((IDict.mk' (deref h c) dflt).run π os).1 ∧
      (run π h (Obj.new c dflt) os).2.2.seen (run π h (Obj.new c dflt) os).2.1 =
        ((IDict.mk' (deref h c) dflt).run π os).2 := by
  obtain ⟨-, h2, h3⟩ := run_seen π os (x := Obj.new c dflt) hc.toOwn
  exact ⟨h2, h3⟩

/-- **C58 (what the caller sees).** After any history of additions and removals on the model, from either
side, the caller's set of a label of the dictionary is the model's set of this label. -/
theorem C58_shared {h : Heap β} {c : Dict α Nat} (hc : CallerDict h c) (π : List β → List β) (dflt : Bool)
    (os : List (MapOp α β)) (k : α) (hk : k ∈ c.map Prod.fst) (v : β) :
    callerHas (run π h (Obj.new c dflt) os).2.1 c k v ↔
      sees ((run π h (Obj.new c dflt) os).2.2.seen (run π h (Obj.new c dflt) os).2.1) k v := by
  rw [caller_after hc, sees_iff, (C58_single hc π dflt os).2]
  exact and_iff_right hk

/-- the labels added by a history of `add_label` calls -/
def adds (l : List (α × β)) : List (MapOp α β) := l.map fun e => .add e.1 e.2

theorem has_adds (π : List β → List β) (l : List (α × β)) (x : IDict α β) (k : α) (v : β) :
    Has (x.run π (adds l)).2.d k v ↔ (k, v) ∈ l ∨ Has x.d k v := by
  induction l generalizing x with
  | nil => simp [adds, IDict.run]
  | cons e l ih =>
    have : (x.run π (adds (e :: l))).2 = ((x.add e.1 e.2).run π (adds l)).2 := rfl
    rw [this, ih]
    simp only [IDict.add, has_addTo, List.mem_cons, Prod.ext_iff]
    tauto

/-- **C58 (exactly what changes).** After the calls `add_label(s, l)` for the pairs `(l, s)` of a list, the
caller's dictionary contains `s` under `l` iff it did before or `l` is one of its labels and `(l, s)` was
added. -/
theorem C58_adds {h : Heap β} {c : Dict α Nat} (hc : CallerDict h c) (π : List β → List β) (dflt : Bool)
    (l : List (α × β)) (k : α) (v : β) :
    callerHas (run π h (Obj.new c dflt) (adds l)).2.1 c k v ↔
      callerHas h c k v ∨ k ∈ c.map Prod.fst ∧ (k, v) ∈ l := by
  rw [caller_after hc, has_adds, callerHas_iff hc.keys]
  have : Has (deref h c) k v → k ∈ c.map Prod.fst := by
    intro hv
    rw [← callerHas_iff hc.keys] at hv
    obtain ⟨a, s, h1, -⟩ := hv
    exact List.mem_map.2 ⟨_, h1, rfl⟩
  simp only [IDict.mk']
  tauto

/-- **C58 (partial).** A history of `add_label` calls leaves the caller's sets unchanged exactly if each
call names a label that is not in the dictionary or a state that already has the label.  Missing for the
claim: all other histories change them, see also `C58_false`. -/
theorem C58_unchanged_partial {h : Heap β} {c : Dict α Nat} (hc : CallerDict h c) (π : List β → List β) (dflt : Bool)
    (l : List (α × β)) :
    (∀ k v, callerHas (run π h (Obj.new c dflt) (adds l)).2.1 c k v ↔ callerHas h c k v) ↔
      ∀ e ∈ l, e.1 ∉ c.map Prod.fst ∨ callerHas h c e.1 e.2 := by
  simp only [C58_adds hc]
  constructor
  · intro hh e he
    by_cases hk : e.1 ∈ c.map Prod.fst
    · exact Or.inr ((hh e.1 e.2).1 (Or.inr ⟨hk, he⟩))
    · exact Or.inl hk
  · intro hh k v
    constructor
    · rintro (hv | ⟨hk, hl⟩)
      · exact hv
      · rcases hh _ hl with h' | h'
        · exact absurd hk h'
        · exact h'
    · exact Or.inl

/-- the caller's `{"goal": {0}, "init": {1}}` -/
def memEx : Heap Nat := [[0], [1]]
def callEx : Dict String Nat := [("goal", 0), ("init", 1)]

example : CallerDict memEx callEx := by
  refine ⟨by decide, by decide, ?_⟩
  intro e he
  simp only [callEx, List.mem_cons, List.mem_nil_iff, or_false] at he
  rcases he with rfl | rfl
  · exact ⟨[0], by decide, by decide⟩
  · exact ⟨[1], by decide, by decide⟩

/-- **C58 is false**: `add_label(1, "goal")` on a model built from `{"goal": {0}, "init": {1}}` puts state 1
into the caller's set. -/
theorem C58_false : ¬ callerHas memEx callEx "goal" 1 ∧
    callerHas (run id memEx (Obj.new callEx true) [.add "goal" 1]).2.1 callEx "goal" 1 := by
  constructor
  · rintro ⟨a, s, h1, h2, h3⟩
    simp only [callEx, List.mem_cons, Prod.mk.injEq, List.mem_nil_iff, or_false] at h1
    rcases h1 with ⟨-, rfl⟩ | ⟨h1, -⟩
    · simp only [memEx, List.getElem?_cons_zero, Option.some.injEq] at h2
      subst h2; simp at h3
    · exact absurd h1 (by decide)
  · exact ⟨0, [0, 1], by decide, by decide, by decide⟩

/-- **C58 (two models).** If two models are built from the same dictionary, a label added to a state of
the first one (which did not have it) appears in `states_by_label` of the second one; if the second one's
`labels_by_state` was used before, it does not show the label, so that its two views contradict each
other. -/
theorem C58_two_models {π : List β → List β} (hπ : ∀ l, (π l).Perm l) {h : Heap β} {c : Dict α Nat}
    (hc : CallerDict h c) (d1 d2 : Bool) {k : α} (hk : k ∈ c.map Prod.fst) {v : β} (hv : ¬ callerHas h c k v) :
    let m2 := (step π h (Obj.new c d2) .inv).2.2
    let h' := (step π h (Obj.new c d1) (.add k v)).2.1
    sees (m2.seen h') k v ∧ ¬ sees (m2.seen h').flip v k := by
  intro m2 h'
  rw [sees_iff, sees_iff]
  constructor
  · have := (C58_adds hc π d1 [(k, v)] k v).2 (Or.inr ⟨hk, by simp⟩)
    rw [callerHas_iff hc.keys] at this
    exact this
  · intro hh
    have h1 : Has (IDict.invert π (deref h c)) v k := hh
    rw [has_invert hπ hc.isPyDict.1, ← callerHas_iff hc.keys] at h1
    exact hv h1

end Verif.Props
