import Verif.Model.Aliasing
import Verif.Proofs.InvertibleDict
/-!
# References and values
-/
set_option linter.unusedSectionVars false
namespace Verif.Proofs.Alias
open Verif.Model Verif.Model.Alias Verif.Spec
variable {α β : Type} [DecidableEq α] [DecidableEq β]

/-- every label has its own set object -/
structure Own (h : Heap β) (c : Dict α Nat) : Prop where
  keys : (Dict.keys c).Nodup
  addr : (c.map Prod.snd).Nodup
  lt : ∀ e ∈ c, e.2 < h.length

theorem cell_set (h : Heap β) (a b : Nat) (s : List β) (ha : a < h.length) :
    cell (h.set a s) b = if a = b then s else cell h b := by
  unfold cell
  rw [List.getElem?_set]
  split
  · simp [ha]
  · rfl

theorem cell_append (h : Heap β) (s : List β) (b : Nat) (hb : b < h.length) : cell (h ++ [s]) b = cell h b := by
  unfold cell; rw [List.getElem?_append_left hb]

theorem cell_new (h : Heap β) (s : List β) : cell (h ++ [s]) h.length = s := by
  unfold cell; simp

theorem keys_deref (h : Heap β) (c : Dict α Nat) : Dict.keys (deref h c) = Dict.keys c := by
  simp [deref, Dict.keys]

theorem get?_deref (h : Heap β) (c : Dict α Nat) (k : α) : (deref h c).get? k = (c.get? k).map (cell h) := by
  induction c with
  | nil => rfl
  | cons e c ih =>
    obtain ⟨a, b⟩ := e
    simp only [deref, List.map_cons, Dict.get?] at ih ⊢
    split
    · rfl
    · exact ih

/-- writing a set object changes exactly the entries holding it -/
theorem deref_set {h : Heap β} {c : Dict α Nat} (hc : Own h c) {k : α} {a : Nat} (hk : c.get? k = some a)
    (s : List β) : deref (h.set a s) c = (deref h c).set k s := by
  have ha : a < h.length := hc.lt _ (Dict.mem_of_get? hk)
  induction c with
  | nil => simp [Dict.get?] at hk
  | cons e c ih =>
    obtain ⟨k', b⟩ := e
    have hk' := hc.keys
    have had := hc.addr
    simp only [Dict.keys, List.map_cons, List.nodup_cons] at hk' had
    simp only [Dict.get?] at hk
    split at hk
    · rename_i e; cases hk; subst e
      simp only [deref, List.map_cons, Dict.set, if_true, cell_set _ _ _ _ ha]
      congr 1
      apply List.map_congr_left
      intro e he
      rw [if_neg]
      rintro rfl
      exact had.1 (List.mem_map_of_mem he)
    · rename_i hne
      have hab : a ≠ b := by
        rintro rfl
        exact had.1 (List.mem_map_of_mem (f := Prod.snd) (Dict.mem_of_get? hk))
      have := ih ⟨hk'.2, had.2, fun e he => hc.lt e (by simp [he])⟩ hk
      simp only [deref, List.map_cons, Dict.set, hne, if_false, cell_set _ _ _ _ ha, hab] at this ⊢
      rw [this]

theorem deref_append {h : Heap β} {c : Dict α Nat} (hc : ∀ e ∈ c, e.2 < h.length) (s : List β) :
    deref (h ++ [s]) c = deref h c := by
  apply List.map_congr_left
  intro e he
  rw [cell_append _ _ _ (hc e he)]

theorem own_addRef {h : Heap β} {c : Dict α Nat} (hc : Own h c) (k : α) (v : β) :
    Own (addRef h c k v).1 (addRef h c k v).2 ∧
      deref (addRef h c k v).1 (addRef h c k v).2 = IDict.addTo (deref h c) k v := by
  unfold addRef IDict.addTo
  rw [get?_deref]
  cases hk : c.get? k with
  | none =>
    have hn := Dict.get?_eq_none.1 hk
    have hn' : k ∉ Dict.keys (deref h c) := by rwa [keys_deref]
    simp only [Option.map_none, Option.getD_none]
    rw [Dict.set_of_not_mem hn, Dict.set_of_not_mem hn']
    refine ⟨⟨?_, ?_, ?_⟩, ?_⟩
    · rw [← Dict.set_of_not_mem hn]; exact Dict.nodup_set hc.keys _ _
    · rw [List.map_append]
      refine List.Nodup.append hc.addr (by simp) ?_
      intro a ha hb
      simp only [List.map_cons, List.map_nil, List.mem_singleton] at hb
      obtain ⟨e, he, rfl⟩ := List.mem_map.1 ha
      have := hc.lt e he
      omega
    · intro e he
      simp only [List.length_append, List.length_singleton]
      rcases List.mem_append.1 he with he | he
      · have := hc.lt e he; omega
      · simp only [List.mem_singleton] at he; subst he; simp
    · have := deref_append hc.lt [v]
      unfold deref at this ⊢
      rw [List.map_append, this]
      simp [cell_new, sadd]
  | some a =>
    simp only [Option.map_some, Option.getD_some]
    refine ⟨⟨hc.keys, hc.addr, ?_⟩, deref_set hc hk _⟩
    intro e he
    simp only [List.length_set]
    exact hc.lt e he

theorem own_set {h : Heap β} {c : Dict α Nat} (hc : Own h c) (a : Nat) (s : List β) : Own (h.set a s) c :=
  ⟨hc.keys, hc.addr, fun e he => by rw [List.length_set]; exact hc.lt e he⟩

theorem step_seen (π : List β → List β) {h : Heap β} {x : Obj α β} (hx : Own h x.d) (o : MapOp α β) :
    Own (step π h x o).2.1 (step π h x o).2.2.d ∧
      (step π h x o).1 = ((x.seen h).step π o).1 ∧
      (step π h x o).2.2.seen (step π h x o).2.1 = ((x.seen h).step π o).2 := by
  cases o with
  | add k v =>
    obtain ⟨h1, h2⟩ := own_addRef hx k v
    refine ⟨h1, rfl, ?_⟩
    simp only [step, Obj.seen, IDict.step, IDict.add]
    rw [h2]
  | inv =>
    refine ⟨hx, rfl, ?_⟩
    simp only [step, Obj.seen, IDict.step, IDict.force]
    cases x.i <;> rfl
  | invAdd v k =>
    obtain ⟨h1, h2⟩ := own_addRef hx k v
    refine ⟨h1, rfl, ?_⟩
    simp only [step, Obj.seen, IDict.step, IDict.force]
    rw [h2]
    cases x.i <;> rfl
  | remove k v =>
    simp only [step, IDict.step, IDict.remove, Obj.seen, get?_deref]
    cases hk : x.d.get? k with
    | none => exact ⟨hx, (by first | rfl | trivial), rfl⟩
    | some a =>
      simp only [Option.map_some]
      by_cases hv : v ∈ cell h a
      · simp only [hv, if_true]
        have e := deref_set hx hk ((cell h a).erase v)
        have ho := own_set hx a ((cell h a).erase v)
        cases hi : x.i with
        | none => exact ⟨ho, (by first | rfl | trivial), by rw [e, hi]⟩
        | some i =>
          simp only
          cases hg : i.get? v with
          | none => exact ⟨ho, (by first | rfl | trivial), by rw [e, hi]⟩
          | some t =>
            simp only
            split
            · exact ⟨ho, (by first | rfl | trivial), by rw [e]⟩
            · exact ⟨ho, (by first | rfl | trivial), by rw [e, hi]⟩
      · simp only [hv, if_false]
        exact ⟨hx, (by first | rfl | trivial), (by first | rfl | trivial)⟩
  | invRemove v k =>
    have key : ∀ i, x.i.getD (IDict.invert π (deref h x.d)) = i →
        ((x.seen h).force π).flip = ⟨i, some (deref h x.d), x.dflt⟩ := by
      intro i hi
      unfold IDict.force Obj.seen
      cases hh : x.i with
      | none => rw [hh] at hi; simp only [Option.getD_none] at hi; subst hi; rfl
      | some j => rw [hh] at hi; simp only [Option.getD_some] at hi; subst hi; rfl
    generalize hi : x.i.getD (IDict.invert π (deref h x.d)) = i at key
    simp only [step, IDict.step, key i rfl, IDict.remove, hi]
    cases hg : i.get? v with
    | none => exact ⟨hx, (by first | rfl | trivial), rfl⟩
    | some t =>
      simp only
      by_cases hk : k ∈ t
      · simp only [hk, if_true, get?_deref]
        cases hd : x.d.get? k with
        | none => exact ⟨hx, (by first | rfl | trivial), rfl⟩
        | some a =>
          simp only [Option.map_some]
          by_cases hv : v ∈ cell h a
          · simp only [hv, if_true]
            refine ⟨own_set hx _ _, (by first | rfl | trivial), ?_⟩
            simp only [Obj.seen, IDict.flip, deref_set hx hd]
          · simp only [hv, if_false]
            exact ⟨hx, (by first | rfl | trivial), rfl⟩
      · simp only [hk, if_false]
        exact ⟨hx, (by first | rfl | trivial), rfl⟩

theorem run_seen (π : List β → List β) (os : List (MapOp α β)) {h : Heap β} {x : Obj α β} (hx : Own h x.d) :
    Own (run π h x os).2.1 (run π h x os).2.2.d ∧ (run π h x os).1 = ((x.seen h).run π os).1 ∧
      (run π h x os).2.2.seen (run π h x os).2.1 = ((x.seen h).run π os).2 := by
  induction os generalizing h x with
  | nil => exact ⟨hx, rfl, rfl⟩
  | cons o os ih =>
    obtain ⟨a, b, c⟩ := step_seen π hx o
    obtain ⟨a', b', c'⟩ := ih a
    simp only [run, IDict.run]
    rw [c] at b' c'
    exact ⟨a', by rw [b, b'], c'⟩

/-- the references of the labels present at the start stay, and their sets are those seen by the object -/
theorem step_keep (π : List β → List β) {h : Heap β} {x : Obj α β} (o : MapOp α β) {k : α} {a : Nat}
    (hk : x.d.get? k = some a) : (step π h x o).2.2.d.get? k = some a := by
  have key : ∀ k' v, (addRef h x.d k' v).2.get? k = some a := by
    intro k' v
    unfold addRef
    cases hk' : x.d.get? k' with
    | none =>
      rw [Dict.get?_set, if_neg]
      · exact hk
      · rintro rfl; rw [hk] at hk'; cases hk'
    | some b => exact hk
  cases o with
  | add k' v => exact key k' v
  | inv => exact hk
  | invAdd v k' => exact key k' v
  | remove k' v =>
    simp only [step]
    repeat' split
    all_goals exact hk
  | invRemove v k' =>
    simp only [step]
    repeat' split
    all_goals exact hk

theorem run_keep (π : List β → List β) (os : List (MapOp α β)) {h : Heap β} {x : Obj α β} {k : α} {a : Nat}
    (hk : x.d.get? k = some a) : (run π h x os).2.2.d.get? k = some a := by
  induction os generalizing h x with
  | nil => exact hk
  | cons o os ih => exact ih (step_keep π o hk)

end Verif.Proofs.Alias
