import Verif.Proofs.Treap
/-! # C03: treaps are sets -/
namespace Verif.Props
open Verif.Model Verif.Proofs

variable {α : Type} [LinearOrder α]

/-- **C03.** For every insertion sequence and every sequence of random heap keys: membership is
membership in the inserted keys, the size field is the number of distinct keys, and `treap_to_arr`
lists exactly the inserted keys, each once (so it writes exactly `size` array cells). -/
theorem C03_treap_set (xs : List (α × Int)) :
    let t := Treap.addAll Treap.nil xs
    (∀ x, t.mem x = true ↔ x ∈ xs.map Prod.fst) ∧
    t.size = (xs.map Prod.fst).toFinset.card ∧
    (∀ x, x ∈ t.toList ↔ x ∈ xs.map Prod.fst) ∧ t.toList.Nodup ∧ t.toList.length = t.size := by
  obtain ⟨a, b⟩ := addAll_spec (t := (Treap.nil : Treap α)) trivial xs
  have hb : ∀ x, x ∈ (Treap.addAll Treap.nil xs).toList ↔ x ∈ xs.map Prod.fst := fun x => by
    rw [b]; simp [Treap.toList]
  refine ⟨fun x => by rw [a.mem_iff, hb], ?_, hb, a.nodup, a.size_eq.symm⟩
  rw [a.size_eq, ← List.toFinset_card_of_nodup a.nodup]
  congr 1
  ext x
  simp only [List.mem_toFinset, hb]

/-- duplicate keys with a larger heap key than everything above them: the old node is replaced -/
example : (Treap.addAll Treap.nil [((3 : Int), 5), (1, 2), (7, 1), (1, 9)]).size = 3 ∧
    (Treap.addAll Treap.nil [((3 : Int), 5), (1, 2), (7, 1), (1, 9)]).toList = [1, 3, 7] := by
  decide

/-- inserting does not lose or invent keys in any treap reached by insertions -/
theorem C03_insert (xs : List (α × Int)) (x : α) (h : Int) :
    ∀ y, ((Treap.addAll Treap.nil xs).insert x h).mem y = true ↔
      y = x ∨ (Treap.addAll Treap.nil xs).mem y = true := by
  obtain ⟨a, _⟩ := addAll_spec (t := (Treap.nil : Treap α)) trivial xs
  obtain ⟨c, d⟩ := insert_spec a x h
  intro y
  rw [c.mem_iff, d, a.mem_iff]

end Verif.Props
