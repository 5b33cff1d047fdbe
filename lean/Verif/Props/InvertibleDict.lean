import Verif.Proofs.InvertibleDict
/-! # C01, C02: label maps -/
set_option linter.unusedSectionVars false
namespace Verif.Props
open Verif.Spec Verif.Model Verif.Proofs.IDict

variable {α β : Type} [DecidableEq α] [DecidableEq β]

/-- a python `dict` of python `set`s: distinct keys, sets without duplicates -/
def IsPyDict {α β : Type} (d : Dict α (List β)) : Prop :=
  (d.map Prod.fst).Nodup ∧ ∀ p ∈ d, p.2.Nodup

theorem inv_of_isPyDict {d : Dict α (List β)} (h : IsPyDict d) (dflt : Bool) :
    Inv (IDict.mk' d dflt) :=
  ⟨⟨h.1, fun _ _ hk => h.2 _ (Dict.mem_of_get? hk)⟩, by simp [IDict.mk'], by simp [IDict.mk']⟩

/-- the pairs of a dictionary of sets -/
def pairs {α β : Type} (d : Dict α (List β)) : Set (α × β) := {p | ∃ s, (p.1, s) ∈ d ∧ p.2 ∈ s}

theorem rel_mk' {d : Dict α (List β)} (h : IsPyDict d) (dflt : Bool) :
    rel (IDict.mk' d dflt) = pairs d := by
  ext ⟨k, v⟩
  simp only [rel, Has, IDict.mk', pairs, Set.mem_ofPred_eq]
  constructor
  · intro hv
    cases hg : d.get? k with
    | none => simp [hg] at hv
    | some s => exact ⟨s, Dict.mem_of_get? hg, by simpa [hg] using hv⟩
  · rintro ⟨s, hs, hv⟩
    rw [Dict.get?_of_mem h.1 hs]; exact hv

/-- what a caller sees: `v in x[k]` (an exception means no) -/
def sees (x : IDict α β) (k : α) (v : β) : Prop := ∃ s, x.getItem k = .ok s ∧ v ∈ s

theorem sees_iff {x : IDict α β} {k : α} {v : β} : sees x k v ↔ Has x.d k v := by
  unfold sees Has IDict.getItem
  cases x.d.get? k with
  | none => by_cases h : x.dflt <;> simp [h]
  | some s => simp

/-- **C01.** After any history of calls on either side, for any iteration order of the sets, the
success or failure of every call is the one of the plain relation, membership seen through the
object is the relation, membership seen through `.inv` is the converse relation, and `.inv.inv` is
the object itself. -/
theorem C01_invertible {π : List β → List β} (hπ : ∀ l, (π l).Perm l) {d : Dict α (List β)}
    (hd : IsPyDict d) (dflt : Bool) (os : List (MapOp α β)) :
    let r := (IDict.mk' d dflt).run π os
    let spec := relRun (pairs d) os
    r.1 = spec.1 ∧
    (∀ k v, sees r.2 k v ↔ (k, v) ∈ spec.2) ∧
    (∀ k v, sees (r.2.force π).flip v k ↔ (k, v) ∈ spec.2) ∧
    (r.2.force π).flip.flip = r.2.force π := by
  obtain ⟨h1, h2, _⟩ := run_spec hπ (inv_of_isPyDict hd dflt) os
  rw [rel_mk' hd] at h2
  have hr : ∀ k v, Has ((IDict.mk' d dflt).run π os).2.d k v ↔ (k, v) ∈ (relRun (pairs d) os).2 := by
    intro k v; rw [← h2]; rfl
  obtain ⟨a, b, c, i, hi⟩ := h1.force hπ
  obtain ⟨fa, fb, fc⟩ := a.flip hi
  refine ⟨by rw [← h2], fun k v => by rw [sees_iff, hr], fun k v => ?_, ?_⟩
  · rw [sees_iff, fb, ← a.conv i hi, b, hr]
  · generalize (((IDict.mk' d dflt).run π os).2.force π) = y at hi
    obtain ⟨yd, yi, yf⟩ := y
    cases hi
    rfl

/-- the hypotheses of C01 hold for a map with two labels and a history using both sides, among it a
failing call -/
example : IsPyDict [("a", [1, 2]), ("b", [2])] ∧ 
    ((IDict.mk' [("a", [1, 2]), ("b", [2])] true).run id
      [.remove "a" 1, .inv, .invAdd 7 "c", .remove "a" 1, .invRemove 2 "b"]).1
      = [true, true, true, false, true] := by
  refine ⟨⟨by decide, by decide⟩, by decide⟩

/-- **C02.** In every reachable state: `add` adds exactly its pair, `remove` fails exactly when the
pair is absent (leaving the object unchanged) and else deletes exactly it; reading a key that was
never used gives the empty set for default maps and `KeyError` otherwise. -/
theorem C02_effects {π : List β → List β} (hπ : ∀ l, (π l).Perm l) {d : Dict α (List β)}
    (hd : IsPyDict d) (dflt : Bool) (os : List (MapOp α β)) (k : α) (v : β) :
    let x := ((IDict.mk' d dflt).run π os).2
    (∀ k' v', sees (x.add k v) k' v' ↔ (k', v') = (k, v) ∨ sees x k' v') ∧
    ((∃ e, (x.remove k v).1 = .error e) ↔ ¬ sees x k v) ∧
    (¬ sees x k v → (x.remove k v).2 = x) ∧
    (sees x k v → ∀ k' v', sees (x.remove k v).2 k' v' ↔ sees x k' v' ∧ (k', v') ≠ (k, v)) ∧
    (k ∉ x.d.keys → x.getItem k = if dflt then .ok [] else .error .keyError) ∧
    (k ∈ x.d.keys → ∃ s, x.getItem k = .ok s) := by
  obtain ⟨h1, h2, h3⟩ := run_spec hπ (inv_of_isPyDict hd dflt) os
  generalize ((IDict.mk' d dflt).run π os).2 = x at *
  have hf : x.dflt = dflt := h3
  obtain ⟨r1, r2⟩ := remove_spec h1 k v
  refine ⟨fun k' v' => ?_, ?_, fun hn => ?_, fun hs k' v' => ?_, fun hk => ?_, fun hk => ?_⟩
  · simp only [sees_iff, IDict.add, has_addTo, Prod.mk.injEq]
  · rw [sees_iff]
    by_cases hv : Has x.d k v
    · simp [hv, (r1 hv).1]
    · simp [hv, r2 hv]
  · rw [r2 (fun hc => hn (sees_iff.2 hc))]
  · rw [sees_iff] at hs
    simp only [sees_iff, (r1 hs).2.2.1, ne_eq, Prod.mk.injEq]
  · have := Dict.get?_eq_none.2 hk
    simp [IDict.getItem, this, hf]
  · have := Dict.get?_isSome.2 hk
    obtain ⟨s, hs⟩ := Option.isSome_iff_exists.1 this
    exact ⟨s, by simp [IDict.getItem, hs]⟩

end Verif.Props
