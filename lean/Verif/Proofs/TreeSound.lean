import Verif.Proofs.TreeLocal
/-!
# The tree algorithm: every point belongs to a set of states
-/
set_option linter.unusedSectionVars false

namespace Verif.Proofs.Tree
open Verif.Model Verif.Model.TreeDecomp Finset
open Verif.Theory

variable {K : Type} [Field K] [LinearOrder K] {c : Chain K} {φ : K →+* ℝ} {parts : List (List Nat)} {order : List Nat}
  {lin : Nat → (Nat → K) → (Nat → K) → Nat → K} {hull : Nat → Dict Nat (List (List K)) → List (Nat × List K)} {ub : Nat} {thr : K}

/-- the gain of a state -/
noncomputable def gain (φ : K →+* ℝ) (c : Chain K) (s : Nat) : ℝ := φ (c.toTarget s)

theorem Ctx.gain0 (H : Ctx c φ parts order) (s : Nat) : 0 ≤ gain φ c s := by
  unfold gain; rw [← map_zero φ]; exact H.mono.monotone (H.tgt0 s)

theorem Ctx.val_nonneg (H : Ctx c φ parts order) {T : Finset Nat} (hT : T ⊆ range c.n) {x : Nat → ℝ}
    (hx : Chain.Val c.n (Q φ c) (gain φ c) T x) (s : Nat) : 0 ≤ x s := by
  by_cases hs : s ∈ T
  · refine Chain.compare H.ok (U := T) (b := gain φ c) (x := fun _ => 0) (y := x) (fun s _ h => by rw [hx.out s h])
      (fun s _ _ => by simpa using H.gain0 s) (fun s hs' _ => ?_) s (Finset.mem_range.1 (hT hs))
    rw [hx.eq s hs', add_le_add_iff_left]
    exact (Finset.sum_subset hT fun t _ ht => by rw [hx.out t ht, mul_zero]).ge
  · rw [hx.out s hs]

/-- A combination of points of the next part (or the empty one) belongs to the set `T`. -/
structure Src (φ : K →+* ℝ) (c : Chain K) (parts : List (List Nat)) (order : List Nat) (i : Nat) (cur : Pt K) (T : Finset Nat) (x : Nat → ℝ) : Prop where
  sub : T ⊆ range c.n
  lt : ∀ s ∈ T, pos parts order s < i
  card : T.card = cur.states
  val : Chain.Val c.n (Q φ c) (gain φ c) T x
  get : ∀ o ∈ outs c parts order i, ∃ k, Dict.get? cur.probs o = some k ∧ φ k = x o

theorem Ctx.rhs_eq (H : Ctx c φ parts order) {i p : Nat} (hp : order[i]? = some p) {cur : Pt K} {x : Nat → ℝ} (h0 : ∀ s, 0 ≤ x s)
    (hx : ∀ o ∈ outs c parts order i, ∃ k, Dict.get? cur.probs o = some k ∧ φ k = x o) (o : Nat) (ho : o ∈ outs c parts order i) :
    φ (rhs c parts p cur o) = x o := by
  obtain ⟨k, h1, h2⟩ := hx o ho
  obtain ⟨g1, g2, g3⟩ := mem_outs.1 ho
  have hv := (mem_view_pos H.path hp g1).2 (Or.inr ⟨g2, g3⟩)
  unfold rhs stateProb
  rw [if_pos ((isOut_iff H.path hp hv).2 g2), h1, Option.getD_some, if_pos, h2]
  rw [← H.mono.le_iff_le, map_zero, h2]
  exact h0 o

/-- gluing the solution of a part to the values of the next one -/
theorem Ctx.glue (H : Ctx c φ parts order) {i : Nat} {S T : Finset Nat} (hS : S ⊆ range c.n) (hSi : ∀ s ∈ S, pos parts order s = i)
    (hT : T ⊆ range c.n) (hTi : ∀ s ∈ T, pos parts order s < i) {x y : Nat → ℝ} (hx : Chain.Val c.n (Q φ c) (gain φ c) T x)
    (hy : LocVal φ c parts order i S x y) :
    Chain.Val c.n (Q φ c) (gain φ c) (T ∪ S) (fun s => if pos parts order s = i then y s else x s) := by
  have hdisj : Disjoint T S := by
    rw [Finset.disjoint_left]
    intro s h1 h2
    have := hTi s h1
    have := hSi s h2
    omega
  have eT : ∀ s, ∑ t ∈ T, Q φ c s t * (if pos parts order t = i then y t else x t) = ∑ t ∈ T, Q φ c s t * x t := fun s =>
    Finset.sum_congr rfl fun t ht => by rw [if_neg (hTi t ht).ne]
  have eS : ∀ s, ∑ t ∈ S, Q φ c s t * (if pos parts order t = i then y t else x t) = ∑ t ∈ S, Q φ c s t * y t := fun s =>
    Finset.sum_congr rfl fun t ht => by rw [if_pos (hSi t ht)]
  refine ⟨fun s hs => ?_, fun s hs => ?_⟩
  · rw [Finset.mem_union, not_or] at hs
    split
    · rename_i h; exact hy.out s h hs.2
    · exact hx.out s hs.1
  · rw [Finset.sum_union hdisj, eT, eS]
    rcases Finset.mem_union.1 hs with h | h
    · have hsn := Finset.mem_range.1 (hT h)
      rw [if_neg (hTi s h).ne, hx.eq s h]
      have : ∑ t ∈ S, Q φ c s t * y t = 0 := by
        refine Finset.sum_eq_zero fun t ht => ?_
        have htn := Finset.mem_range.1 (hS ht)
        rw [H.Qzero hsn htn, zero_mul]
        intro he
        have := edge_pos H.path hsn htn he
        have := hTi s h
        have := hSi t ht
        omega
      rw [this, add_zero]
    · have hsn := Finset.mem_range.1 (hS h)
      have hsi := hSi s h
      rw [if_pos hsi, hy.eq s h, ← add_assoc]
      congr 2
      -- from this part, only the interface of the next one can be reached
      have e1 : ∑ o ∈ outs c parts order i, Q φ c s o * x o = ∑ o ∈ outs c parts order i ∩ T, Q φ c s o * x o := by
        refine (Finset.sum_subset Finset.inter_subset_left fun o ho hno => ?_).symm
        rw [hx.out o (fun h => hno (Finset.mem_inter.2 ⟨ho, h⟩)), mul_zero]
      rw [e1]
      refine Finset.sum_subset Finset.inter_subset_right fun t ht hnt => ?_
      have htn := Finset.mem_range.1 (hT ht)
      rw [H.Qzero hsn htn, zero_mul]
      intro he
      have h1 := edge_pos H.path hsn htn he
      have h2 := hTi t ht
      refine hnt (Finset.mem_inter.2 ⟨mem_outs.2 ⟨htn, by omega, ?_⟩, ht⟩)
      exact (interface_iff H.path htn).2 ⟨s, hsn, he, by omega⟩

/-- A point of a part belongs to a set of states of this part and the following ones. -/
structure Pos (φ : K →+* ℝ) (c : Chain K) (parts : List (List Nat)) (order : List Nat) (ub : Nat) (thr : K) (i p : Nat) (q : Pt K) (T : Finset Nat) (x : Nat → ℝ) : Prop where
  sub : T ⊆ range c.n
  le : ∀ s ∈ T, pos parts order s ≤ i
  card : T.card = q.states
  ub : q.states ≤ ub
  val : Chain.Val c.n (Q φ c) (gain φ c) T x
  get : ∀ o ∈ inputs c parts p, ∃ k, Dict.get? q.probs o = some k ∧ φ k = x o
  thr : φ thr ≤ ∑ o ∈ (inputs c parts p).toFinset, x o

theorem get?_zip_map {α : Type} (f : Nat → α) : ∀ {l : List Nat} {o : Nat}, o ∈ l → Dict.get? (l.zip (l.map f)) o = some (f o)
  | [], _, h => absurd h List.not_mem_nil
  | a :: l, o, h => by
    simp only [List.map_cons, List.zip_cons_cons, Dict.get?]
    by_cases e : a = o
    · rw [if_pos e, e]
    · rw [if_neg e]
      exact get?_zip_map f (by rcases List.mem_cons.1 h with h | h; exact absurd h.symm e; exact h)

theorem Ctx.outs_inputs (H : Ctx c φ parts order) {i p o : Nat} (hp : order[i]? = some p) (ho : o ∈ outs c parts order (i + 1)) :
    o ∈ inputs c parts p := by
  obtain ⟨h1, h2, h3⟩ := mem_outs.1 ho
  exact (mem_inputs H.path hp H.init).2 ⟨h1, by omega, Or.inl h3⟩

/-- the points that one part keeps -/
theorem Ctx.sound_part [IsStrictOrderedRing K] (H : Ctx c φ parts order) (hl : LinOK lin) (hh : HullOK φ hull) {i p : Nat} (hp : order[i]? = some p)
    {pts : List (List (Pt K))} {curs : List (Pt K)}
    (hpts : ∀ states, handle lin c parts p states ub thr pts = .ok (curs.filterMap (newPoint lin c parts p states ub thr)))
    (hsrc : ∀ cur ∈ curs, ∃ T x, Src φ c parts order i cur T x) {r : List (Pt K)}
    (hr : solvePart lin c parts hull p ub thr pts = .ok r) : ∀ q ∈ r, ∃ T x, Pos φ c parts order ub thr i p q T x := by
  obtain ⟨d, kept, hd, hk, rfl⟩ := solvePart_ok lin c parts hull hr
  have hlen : ∀ k v, InD d k v → v.length = (inputs c parts p).length := by
    intro k v hv
    obtain ⟨a, -, states, new, -, -, q, -, -, rfl⟩ := hd.only k v hv
    simp [vec]
  obtain ⟨hk1, -⟩ := prune_ok (hull := hull) (φ := φ) H.mono hh hlen hk
  intro q hq
  obtain ⟨⟨k, v⟩, he, rfl⟩ := List.mem_map.1 hq
  obtain ⟨a, ha, states, new, hch, hnew, q, hq', rfl, rfl⟩ := hd.only k v (hk1 k v he)
  rw [hpts states] at hnew
  cases hnew
  obtain ⟨cur, hcur, hnp⟩ := List.mem_filterMap.1 hq'
  obtain ⟨rfl, hsat⟩ := chosen_sat ha hch
  have hx := ((formula_iff c parts p _).1 hsat).2.2.2
  obtain ⟨T, x, hsrc⟩ := hsrc cur hcur
  have h0 := H.val_nonneg hsrc.sub hsrc.val
  obtain ⟨y, hy, hspec, -⟩ := newPoint_spec (lin := lin) (ub := ub) (thr := thr) hl H hp hx cur x
    (H.rhs_eq hp h0 hsrc.get)
  obtain ⟨e1, e2, e3, e4⟩ := hspec q hnp
  have hS : sel c parts order i (asFun a) ⊆ range c.n := fun s hs => Finset.mem_range.2 (mem_sel.1 hs).1
  have hSi : ∀ s ∈ sel c parts order i (asFun a), pos parts order s = i := fun s hs => (mem_sel.1 hs).2.1
  have hin : ∀ o ∈ inputs c parts p, pos parts order o = i := fun o ho => ((mem_inputs H.path hp H.init).1 ho).2.1
  refine ⟨T ∪ sel c parts order i (asFun a), fun s => if pos parts order s = i then y s else x s,
    Finset.union_subset hsrc.sub hS, ?_, ?_, e2, H.glue hS hSi hsrc.sub hsrc.lt hsrc.val hy, ?_, ?_⟩
  · intro s hs
    rcases Finset.mem_union.1 hs with h | h
    · exact (hsrc.lt s h).le
    · exact (hSi s h).le
  · rw [Finset.card_union_of_disjoint, hsrc.card, e1, Nat.add_comm]
    rw [Finset.disjoint_left]
    intro s h1 h2
    have := hsrc.lt s h1
    have := hSi s h2
    omega
  · intro o ho
    refine ⟨(Dict.get? q.probs o).getD 0, get?_zip_map _ ho, ?_⟩
    rw [if_pos (hin o ho)]
    exact e3 o ho
  · refine e4.trans (le_of_eq (Finset.sum_congr rfl fun o ho => ?_))
    rw [if_pos (hin o (List.mem_toFinset.1 ho))]

/-- every point of every part belongs to a set of states -/
theorem Ctx.sound [IsStrictOrderedRing K] (H : Ctx c φ parts order) (hl : LinOK lin) (hh : HullOK φ hull)
    {r : Nat → List (Pt K)} {j : Nat} (h0 : ∀ p, 0 < j → order[0]? = some p → solvePart lin c parts hull p ub thr [] = .ok (r 0))
    (h1 : ∀ i p, i + 1 < j → order[i + 1]? = some p → solvePart lin c parts hull p ub thr [r i] = .ok (r (i + 1))) (i : Nat) :
    i < j → ∀ p, order[i]? = some p → ∀ q ∈ r i, ∃ T x, Pos φ c parts order ub thr i p q T x := by
  induction i with
  | zero =>
    intro hj p hp
    refine H.sound_part hl hh hp (curs := [⟨0, []⟩]) (fun states => handle_nil lin c parts p states ub thr) ?_ (h0 p hj hp)
    intro cur hcur
    rw [List.mem_singleton] at hcur
    subst hcur
    refine ⟨∅, fun _ => 0, by simp, by simp, by simp, ⟨fun _ _ => rfl, by simp⟩, fun o ho => ?_⟩
    have := (mem_outs.1 ho).2.1
    omega
  | succ i ih =>
    intro hj p hp
    refine H.sound_part hl hh hp (curs := r i) (fun states => handle_one lin c parts p states ub thr (r i)) ?_ (h1 i p hj hp)
    intro cur hcur
    have hi := (List.getElem?_eq_some_iff.1 hp).1
    have hq : order[i]? = some order[i] := List.getElem?_eq_getElem (by omega)
    obtain ⟨T, x, hT⟩ := ih (by omega) _ hq cur hcur
    exact ⟨T, x, hT.sub, fun s hs => Nat.lt_succ_of_le (hT.le s hs), hT.card, hT.val, fun o ho => hT.get o (H.outs_inputs hq ho)⟩

end Verif.Proofs.Tree
