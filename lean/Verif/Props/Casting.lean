import Verif.Model.Casting
import Verif.Props.System
/-! # C74: matrices given as lists -/
set_option linter.unusedSectionVars false
namespace Verif.Props
open Verif.Model Verif.Spec Verif.Proofs

variable {K : Type} [Field K] [LinearOrder K] [IsStrictOrderedRing K]

theorem ofDense_mem {a : List (List K)} {i j : Nat} {v : K} :
    ((i, j), v) ∈ (Dok.ofDense a).items ↔ ∃ r, a[i]? = some r ∧ r[j]? = some v ∧ v ≠ 0 := by
  simp only [Dok.ofDense, List.mem_flatMap, List.mem_map, List.mem_filter, Prod.mk.injEq, decide_eq_true_eq]
  constructor
  · rintro ⟨⟨r, i'⟩, h1, ⟨w, j'⟩, ⟨h2, h3⟩, ⟨rfl, rfl⟩, rfl⟩
    exact ⟨r, List.mem_zipIdx_iff_getElem?.1 h1, List.mem_zipIdx_iff_getElem?.1 h2, h3⟩
  · rintro ⟨r, h1, h2, h3⟩
    exact ⟨(r, i), List.mem_zipIdx_iff_getElem?.2 h1, (v, j), ⟨List.mem_zipIdx_iff_getElem?.2 h2, h3⟩, ⟨rfl, rfl⟩, rfl⟩

theorem zipIdx_snd_nodup {α : Type} (l : List α) : (l.zipIdx.map Prod.snd).Nodup := by
  rw [List.zipIdx_map_snd]; exact List.nodup_range' 

theorem ofDense_nodup (a : List (List K)) : ((Dok.ofDense a).items.map Prod.fst).Nodup := by
  unfold Dok.ofDense
  simp only [List.map_flatMap, List.map_map]
  rw [List.nodup_flatMap]
  constructor
  · rintro ⟨r, i⟩ -
    have h1 : ((r.zipIdx.filter fun e => decide (e.1 ≠ 0)).map Prod.snd).Nodup :=
      (List.filter_sublist.map Prod.snd).nodup (zipIdx_snd_nodup r)
    have h2 := h1.map (f := fun j => (i, j)) (fun x y h => by simpa using h)
    simpa [List.map_map, Function.comp_def] using h2
  · have := zipIdx_snd_nodup a
    rw [List.Nodup, List.pairwise_map] at this
    refine this.imp fun {x y} hxy => ?_
    rw [Function.onFun, List.disjoint_left]
    intro z hz hz'
    simp only [List.mem_map, Function.comp] at hz hz'
    obtain ⟨e, -, rfl⟩ := hz
    obtain ⟨e', -, h⟩ := hz'
    simp only [Prod.mk.injEq] at h
    exact hxy h.1.symm

theorem ofDense_get {a : List (List K)} {i j : Nat} : (Dok.ofDense a).get i j = ((a[i]?.bind (·[j]?)).getD 0) := by
  cases h : (a[i]?.bind (·[j]?)) with
  | none =>
    unfold Dok.get
    cases h' : (Dok.ofDense a).items.get? (i, j) with
    | none => rfl
    | some w =>
      obtain ⟨r, h1, h2, -⟩ := ofDense_mem.1 (Dict.mem_of_get? h')
      simp [h1, h2] at h
  | some v =>
    obtain ⟨r, h1, h2⟩ := Option.bind_eq_some_iff.1 h
    by_cases hv : v = 0
    · unfold Dok.get
      cases h' : (Dok.ofDense a).items.get? (i, j) with
      | none => simp [hv]
      | some w =>
        obtain ⟨r', h1', h2', h3⟩ := ofDense_mem.1 (Dict.mem_of_get? h')
        rw [h1] at h1'; cases h1'
        have h2 : r[j]? = some v := h2
        rw [h2] at h2'; cases h2'
        exact absurd hv h3
    · exact get_of_mem (ofDense_nodup a) (ofDense_mem.2 ⟨r, h1, h2, hv⟩)

/-- **C74.** A non-empty rectangular list of lists is turned into the matrix with its shape and entries; no zero is
stored, no entry twice, all within the shape. -/
theorem C74_dense {a : List (List K)} {n : Nat} (hne : a ≠ []) (hrect : ∀ r ∈ a, r.length = n) :
    ∃ m, castDok (.dense a) = .ok m ∧ m.rows = a.length ∧ m.cols = n ∧
      (∀ i j, m.get i j = ((a[i]?.bind (·[j]?)).getD 0)) ∧ (m.items.map Prod.fst).Nodup ∧
      ∀ i j v, ((i, j), v) ∈ m.items ↔ i < a.length ∧ j < n ∧ v = m.get i j ∧ v ≠ 0 := by
  refine ⟨Dok.ofDense a, ?_, rfl, ?_, fun i j => ofDense_get, ofDense_nodup a, fun i j v => ?_⟩
  · simp only [castDok]
    rw [if_pos fun r hr r' hr' => (hrect r hr).trans (hrect r' hr').symm, if_neg hne]
  · cases a with
    | nil => exact absurd rfl hne
    | cons r a => exact hrect r (by simp)
  · rw [ofDense_mem, ofDense_get]
    constructor
    · rintro ⟨r, h1, h2, h3⟩
      have := hrect r (List.mem_of_getElem? h1)
      refine ⟨(List.getElem?_eq_some_iff.1 h1).1, ?_, by simp [h1, h2], h3⟩
      rw [← this]; exact (List.getElem?_eq_some_iff.1 h2).1
    · rintro ⟨h1, h2, h3, h4⟩
      have hj : j < a[i].length := by rw [hrect _ (List.getElem_mem h1)]; exact h2
      refine ⟨a[i], List.getElem?_eq_getElem h1, ?_, h4⟩
      rw [h3, List.getElem?_eq_getElem h1]
      simp [hj]

/-- **C74.** A list of numbers becomes a single column. -/
theorem C74_vector {v : List K} (hne : v ≠ []) :
    ∃ m, castDok (.vec v) = .ok m ∧ m.rows = v.length ∧ m.cols = 1 ∧ ∀ i, m.get i 0 = v.getD i 0 := by
  obtain ⟨x, l, rfl⟩ := List.exists_cons_of_ne_nil hne
  refine ⟨Dok.ofDense ((x :: l).map fun x => [x]), by simp [castDok], by simp [Dok.ofDense], rfl, fun i => ?_⟩
  rw [ofDense_get, List.getElem?_map, List.getD_eq_getElem?_getD]
  cases (x :: l)[i]? <;> rfl

/-- **C74.** A sparse matrix is taken as it is; lists of different lengths are rejected. -/
theorem C74_other (m : Dok K) (a : List (List K)) : castDok (.sparse m) = .ok m ∧
    (¬ (∀ r ∈ a, ∀ r' ∈ a, r.length = r'.length) → castDok (.dense a) = .error .valueError) :=
  ⟨rfl, fun h => by simp only [castDok]; rw [if_neg h]⟩

/-- **C74.** A sparse matrix without stored zeros and the list of its rows lead to the same stored entries. -/
theorem C74_same_system {a : List (List K)} {n : Nat} (hne : a ≠ []) (hrect : ∀ r ∈ a, r.length = n) {P : Dok K}
    (hP : P.rows = a.length ∧ P.cols = n) (hnd : (P.items.map Prod.fst).Nodup) (hnz : ∀ e ∈ P.items, e.2 ≠ 0)
    (hin : ∀ i j v, ((i, j), v) ∈ P.items → i < P.rows ∧ j < P.cols)
    (hget : ∀ i < a.length, ∀ j < n, P.get i j = ((a[i]?.bind (·[j]?)).getD 0)) :
    ∃ m, castDok (.dense a) = .ok m ∧ m.rows = P.rows ∧ m.cols = P.cols ∧ m.items.Perm P.items := by
  obtain ⟨m, h1, h2, h3, h4, h5, h6⟩ := C74_dense hne hrect
  refine ⟨m, h1, h2.trans hP.1.symm, h3.trans hP.2.symm, ?_⟩
  rw [List.perm_ext_iff_of_nodup (List.Nodup.of_map _ h5) (List.Nodup.of_map _ hnd)]
  rintro ⟨⟨i, j⟩, v⟩
  rw [h6]
  constructor
  · rintro ⟨g1, g2, g3, g4⟩
    rw [g3, h4, ← hget i g1 j g2]
    refine mem_of_get_ne ?_
    rw [hget i g1 j g2, ← h4, ← g3]
    exact g4
  · intro h
    obtain ⟨g1, g2⟩ := hin i j v h
    rw [hP.1] at g1
    rw [hP.2] at g2
    refine ⟨g1, g2, ?_, hnz _ h⟩
    rw [h4, ← hget i g1 j g2, get_of_mem hnd h]

theorem sum_getD (r : List K) : ∑ j ∈ Finset.range r.length, (r[j]?).getD 0 = r.sum := by
  induction r with
  | nil => simp
  | cons x r ih =>
    rw [List.length_cons, Finset.sum_range_succ', List.sum_cons]
    simp only [List.getElem?_cons_succ, List.getElem?_cons_zero, Option.getD_some]
    rw [ih, add_comm]

/-- **C74.** `MDP(P, index, ...)` with a list of lists is accepted exactly if every inner list sums to one (up to nine
decimals) and has entries in `[0,1]`, rewards are non-negative and the index covers the rows; the system then has
these probabilities. -/
theorem C74_mdp_from_lists {a : List (List K)} {n : Nat} (hne : a ≠ []) (hrect : ∀ r ∈ a, r.length = n)
    {idx : Dict (Nat × Nat) Nat} (hk : (idx.map Prod.fst).Nodup) (labA : IDict String (Nat × Nat)) (labS : IDict String Nat)
    (rew : Option (List K)) :
    ∃ m, castDok (.dense a) = .ok m ∧
      ((∃ M, Sys.makeMDP m idx labA labS rew = .ok M) ↔
        (∀ r ∈ a, |r.sum - 1| ≤ 1 / (2 * 10 ^ 9)) ∧ (∀ r ∈ a, ∀ x ∈ r, 0 ≤ x ∧ x ≤ 1) ∧
        (∀ v, rew = some v → ∀ i < a.length, ∃ x, v[i]? = some x ∧ 0 ≤ x) ∧
        (∀ e ∈ idx, ∀ e' ∈ idx, e.2 = e'.2 → e = e') ∧ ∀ i < a.length, ∃ s b, ((s, b), i) ∈ idx ∧ s < n) ∧
      ∀ M, Sys.makeMDP m idx labA labS rew = .ok M → ∀ i j, M.P.get i j = ((a[i]?.bind (·[j]?)).getD 0) := by
  obtain ⟨m, h1, h2, h3, h4, h5, h6⟩ := C74_dense hne hrect
  refine ⟨m, h1, ?_, fun M hM i j => by rw [(C09_mdp_content hk hM).1, h4]⟩
  have hin : InShape m := ⟨h5, fun i j p hp => by
    obtain ⟨g1, g2, -⟩ := (h6 i j p).1 hp
    rw [h2, h3]; exact ⟨g1, g2⟩⟩
  rw [C09_mdp hin hk]
  have hrow : ∀ i (hi : i < a.length) j, m.get i j = (a[i][j]?).getD 0 := fun i hi j => by
    rw [h4, List.getElem?_eq_getElem hi]; rfl
  have hsum : ∀ i (hi : i < a.length), ∑ j ∈ Finset.range n, m.get i j = a[i].sum := fun i hi => by
    rw [← sum_getD, hrect _ (List.getElem_mem hi)]
    exact Finset.sum_congr rfl fun j _ => hrow i hi j
  constructor
  · rintro ⟨g, gi⟩
    refine ⟨fun r hr => ?_, fun r hr x hx => ?_, fun v hv i hi => g.rew v hv i (by rw [h2]; exact hi), gi.inj, fun i hi => ?_⟩
    · obtain ⟨i, hi, rfl⟩ := List.getElem_of_mem hr
      have := g.sum i (by rw [h2]; exact hi)
      rwa [h3, hsum i hi] at this
    · obtain ⟨i, hi, rfl⟩ := List.getElem_of_mem hr
      obtain ⟨j, hj, rfl⟩ := List.getElem_of_mem hx
      have := g.entry i (by rw [h2]; exact hi) j (by rw [h3, ← hrect _ (List.getElem_mem hi)]; exact hj)
      rw [hrow i hi, List.getElem?_eq_getElem hj] at this
      exact this
    · have := gi.cover i (by rw [h2]; exact hi)
      rwa [h3] at this
  · rintro ⟨g1, g2, g3, g4, g5⟩
    refine ⟨⟨fun i hi => ?_, fun i hi j hj => ?_, fun v hv i hi => g3 v hv i (by rwa [h2] at hi)⟩, g4, fun i hi => ?_⟩
    · rw [h2] at hi
      rw [h3, hsum i hi]
      exact g1 _ (List.getElem_mem hi)
    · rw [h2] at hi
      rw [h3, ← hrect _ (List.getElem_mem hi)] at hj
      rw [hrow i hi, List.getElem?_eq_getElem hj]
      exact g2 _ (List.getElem_mem hi) _ (List.getElem_mem hj)
    · rw [h2] at hi
      rw [h3]
      exact g5 i hi

example : ∃ m, castDok (.dense [[1/2, 1/2], [0, 1]] : MatArg ℚ) = .ok m ∧ m.rows = 2 ∧ m.cols = 2 ∧ m.get 0 1 = 1/2 ∧ m.get 1 0 = 0 := by
  obtain ⟨m, h1, h2, h3, h4, -⟩ := C74_dense (K := ℚ) (a := [[1/2, 1/2], [0, 1]]) (n := 2) (by simp) (by simp)
  exact ⟨m, h1, h2, h3, by rw [h4]; rfl, by rw [h4]; rfl⟩

/-- a vector with two entries is no square matrix: the constructor of chains raises -/
example : ∃ m, castDok (.vec [1/2, 1/2] : MatArg ℚ) = .ok m ∧ m.rows = 2 ∧ m.cols = 1 := by
  obtain ⟨m, h1, h2, h3, -⟩ := C74_vector (K := ℚ) (v := [1/2, 1/2]) (by simp)
  exact ⟨m, h1, h2, h3⟩

end Verif.Props
