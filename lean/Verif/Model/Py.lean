import Mathlib.Data.List.Nodup
import Mathlib.Data.List.Perm.Basic
import Mathlib.Data.List.Basic
/-!
# Python values used by the model

Dictionaries are association lists in insertion order, sets are duplicate-free lists.
-/

namespace Verif.Model

/-- python exceptions; `outside` is none: the code goes on with a value that the model does not represent -/
inductive Err
  | assertion | keyError | typeError | attributeError | stopIteration | valueError | indexError
  | zeroDivision | nameError | unboundLocal | outside
  deriving DecidableEq, Repr

/-- python `dict`: association list in insertion order -/
abbrev Dict (α β : Type) := List (α × β)

namespace Dict
variable {α β : Type} [DecidableEq α]

/-- `d.get(k)` -/
def get? : Dict α β → α → Option β
  | [], _ => none
  | (k', v) :: d, k => if k' = k then some v else get? d k

/-- `d[k] = v`: overwrite in place, else append -/
def set : Dict α β → α → β → Dict α β
  | [], k, v => [(k, v)]
  | (k', v') :: d, k, v => if k' = k then (k, v) :: d else (k', v') :: set d k v

/-- `d.keys()` -/
def keys (d : Dict α β) : List α := d.map Prod.fst

/-- `k in d` -/
def has (d : Dict α β) (k : α) : Bool := (get? d k).isSome

/-- `del d[k]` -/
def del : Dict α β → α → Dict α β
  | [], _ => []
  | (k', v') :: d, k => if k' = k then d else (k', v') :: del d k

theorem get?_set (d : Dict α β) (k k' : α) (v : β) :
    get? (set d k v) k' = if k = k' then some v else get? d k' := by
  induction d with
  | nil => simp [set, get?]
  | cons p d ih =>
    obtain ⟨a, b⟩ := p
    by_cases h : a = k
    · subst h
      by_cases h2 : a = k' <;> simp [set, get?, h2]
    · by_cases h2 : a = k'
      · subst h2
        simp [set, get?, h, Ne.symm h]
      · simp [set, get?, h, h2, ih]

theorem get?_set_self (d : Dict α β) (k : α) (v : β) : get? (set d k v) k = some v := by
  simp [get?_set]

theorem mem_of_get? {d : Dict α β} {k : α} {v : β} (h : get? d k = some v) : (k, v) ∈ d := by
  induction d with
  | nil => simp [get?] at h
  | cons p d ih =>
    obtain ⟨a, b⟩ := p
    by_cases h2 : a = k
    · subst h2; simp [get?] at h; simp [h]
    · simp only [get?, h2, if_false] at h; exact List.mem_cons_of_mem _ (ih h)

theorem get?_eq_none {d : Dict α β} {k : α} : get? d k = none ↔ k ∉ keys d := by
  induction d with
  | nil => simp [get?, keys]
  | cons p d ih =>
    obtain ⟨a, b⟩ := p
    by_cases h2 : a = k
    · subst h2; simp [get?, keys]
    · simp only [get?, h2, if_false, ih]; simp [keys, Ne.symm h2]

theorem get?_isSome {d : Dict α β} {k : α} : (get? d k).isSome ↔ k ∈ keys d := by
  rw [← not_iff_not, ← get?_eq_none]; simp

theorem get?_of_mem {d : Dict α β} (hn : (keys d).Nodup) {k : α} {v : β} (h : (k, v) ∈ d) :
    get? d k = some v := by
  induction d with
  | nil => simp at h
  | cons p d ih =>
    obtain ⟨a, b⟩ := p
    simp only [keys, List.map_cons, List.nodup_cons] at hn
    rcases List.mem_cons.1 h with h | h
    · cases h; simp [get?]
    · have : a ≠ k := by
        rintro rfl
        exact hn.1 (List.mem_map.2 ⟨(a, v), h, rfl⟩)
      simp only [get?, this, if_false]
      exact ih hn.2 h

theorem get?_iff_mem {d : Dict α β} (hn : (keys d).Nodup) {k : α} {v : β} :
    get? d k = some v ↔ (k, v) ∈ d := ⟨mem_of_get?, get?_of_mem hn⟩

theorem mem_keys_set {d : Dict α β} {k k' : α} {v : β} :
    k' ∈ keys (set d k v) ↔ k' = k ∨ k' ∈ keys d := by
  rw [← get?_isSome, ← get?_isSome, get?_set]
  by_cases h : k = k'
  · simp [h]
  · simp [h, Ne.symm h]

theorem keys_set_of_mem {d : Dict α β} {k : α} {v : β} (h : k ∈ keys d) :
    keys (set d k v) = keys d := by
  induction d with
  | nil => simp [keys] at h
  | cons p d ih =>
    obtain ⟨a, b⟩ := p
    by_cases h2 : a = k
    · subst h2; simp [set, keys]
    · have : k ∈ keys d := by
        simp only [keys, List.map_cons, List.mem_cons] at h
        rcases h with h | h
        · exact absurd h.symm h2
        · exact h
      have := ih this
      simp only [keys] at this
      simp [set, h2, keys, this]

theorem set_of_not_mem {d : Dict α β} {k : α} {v : β} (h : k ∉ keys d) :
    set d k v = d ++ [(k, v)] := by
  induction d with
  | nil => simp [set]
  | cons p d ih =>
    obtain ⟨a, b⟩ := p
    have h2 : a ≠ k := by rintro rfl; simp [keys] at h
    have : k ∉ keys d := fun hc => h (by simp only [keys, List.map_cons]; exact List.mem_cons_of_mem _ hc)
    simp [set, h2, ih this]

theorem keys_set_of_not_mem {d : Dict α β} {k : α} {v : β} (h : k ∉ keys d) :
    keys (set d k v) = keys d ++ [k] := by
  rw [set_of_not_mem h]; simp [keys]

theorem nodup_set {d : Dict α β} (hn : (keys d).Nodup) (k : α) (v : β) :
    (keys (set d k v)).Nodup := by
  by_cases h : k ∈ keys d
  · rw [keys_set_of_mem h]; exact hn
  · rw [keys_set_of_not_mem h]
    exact List.Nodup.append hn (by simp) (by simpa using h)

end Dict

/-- `s.add(x)` on a set -/
def sadd {β : Type} [DecidableEq β] (l : List β) (x : β) : List β := if x ∈ l then l else l ++ [x]

theorem mem_sadd {β : Type} [DecidableEq β] {l : List β} {x y : β} :
    y ∈ sadd l x ↔ y = x ∨ y ∈ l := by
  unfold sadd
  split
  · rename_i h
    constructor
    · exact Or.inr
    · rintro (rfl | h')
      · exact h
      · exact h'
  · simp [or_comm]

theorem nodup_sadd {β : Type} [DecidableEq β] {l : List β} (h : l.Nodup) (x : β) :
    (sadd l x).Nodup := by
  unfold sadd
  split
  · exact h
  · rename_i hx
    exact List.Nodup.append h (by simp) (by simpa using hx)

end Verif.Model
