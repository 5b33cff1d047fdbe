import Verif.Proofs.TreePoints
import Verif.Theory.Chain
/-!
# The tree algorithm: the linear system of a part
-/
set_option linter.unusedSectionVars false

namespace Verif.Proofs.Tree
open Verif.Model Verif.Model.TreeDecomp Finset
open Verif.Theory

variable {K : Type} [Field K] [LinearOrder K]

/-- What is assumed of the linear solver: a regular system (stored column by column) is solved. -/
def LinOK (lin : Nat → (Nat → K) → (Nat → K) → Nat → K) : Prop :=
  ∀ n arr b, (∀ z : Nat → K, (∀ j < n, ∑ i ∈ range n, arr (n * i + j) * z i = 0) → ∀ i < n, z i = 0) →
    ∀ j < n, ∑ i ∈ range n, arr (n * i + j) * lin n arr b i = b j

theorem sum_getD {α : Type} [AddCommMonoid α] {l : List Nat} (hl : l.Nodup) (F : Nat → α) :
    ∑ i ∈ range l.length, F (l.getD i 0) = ∑ t ∈ l.toFinset, F t := by
  have hinj : Set.InjOn (fun i => l.getD i 0) (range l.length : Set Nat) := by
    intro a ha b hb h
    have ha := Finset.mem_range.1 (Finset.mem_coe.1 ha)
    have hb := Finset.mem_range.1 (Finset.mem_coe.1 hb)
    simp only [List.getD_eq_getElem _ _ ha, List.getD_eq_getElem _ _ hb] at h
    exact (hl.getElem_inj_iff).1 h
  have himg : (range l.length).image (fun i => l.getD i 0) = l.toFinset := by
    ext t
    simp only [Finset.mem_image, Finset.mem_range, List.mem_toFinset]
    constructor
    · rintro ⟨i, hi, rfl⟩
      rw [List.getD_eq_getElem _ _ hi]
      exact List.getElem_mem hi
    · intro ht
      obtain ⟨i, hi, rfl⟩ := List.mem_iff_getElem.1 ht
      exact ⟨i, hi, List.getD_eq_getElem _ _ hi⟩
  rw [← himg, Finset.sum_image hinj]

variable {c : Chain K} (φ : K →+* ℝ)

/-- the transition probabilities as real numbers -/
noncomputable def Q (φ : K →+* ℝ) (c : Chain K) (s t : Nat) : ℝ := φ (c.P s t)

theorem sysArr_eq {states : List Nat} {i j : Nat} (hj : j < states.length) :
    sysArr c states (states.length * i + j) = (if i = j then 1 else 0) - c.P (states.getD j 0) (states.getD i 0) := by
  have h1 : (states.length * i + j) / states.length = i := by
    rw [Nat.mul_add_div (by omega), Nat.div_eq_of_lt hj, Nat.add_zero]
  have h2 : (states.length * i + j) % states.length = j := by
    rw [Nat.mul_add_mod, Nat.mod_eq_of_lt hj]
  unfold sysArr
  simp only
  rw [h1, h2]
  split
  · rename_i h; rw [h]
  · rw [zero_sub]

theorem row_eq {states : List Nat} {j : Nat} (hj : j < states.length) (z : Nat → K) :
    ∑ i ∈ range states.length, sysArr c states (states.length * i + j) * z i =
      z j - ∑ i ∈ range states.length, c.P (states.getD j 0) (states.getD i 0) * z i := by
  rw [Finset.sum_congr rfl fun i _ => by rw [sysArr_eq hj, sub_mul], Finset.sum_sub_distrib]
  congr 1
  rw [Finset.sum_congr rfl fun i _ => by rw [ite_mul, one_mul, zero_mul], Finset.sum_ite_eq' , if_pos (Finset.mem_range.2 hj)]

/-- the entry of a state in the solution -/
noncomputable def sol (φ : K →+* ℝ) (states : List Nat) (z : Nat → K) (s : Nat) : ℝ :=
  if s ∈ states then φ (z (states.idxOf s)) else 0

theorem sol_getD {states : List Nat} (hn : states.Nodup) (z : Nat → K) {i : Nat} (hi : i < states.length) :
    sol φ states z (states.getD i 0) = φ (z i) := by
  rw [List.getD_eq_getElem _ _ hi]
  unfold sol
  rw [if_pos (List.getElem_mem hi), hn.idxOf_getElem]

theorem sol_sum {states : List Nat} (hn : states.Nodup) (z : Nat → K) (s : Nat) :
    φ (∑ i ∈ range states.length, c.P s (states.getD i 0) * z i) = ∑ t ∈ states.toFinset, Q φ c s t * sol φ states z t := by
  rw [← sum_getD hn (fun t => Q φ c s t * sol φ states z t), map_sum]
  refine Finset.sum_congr rfl fun i hi => ?_
  rw [map_mul, sol_getD φ hn z (Finset.mem_range.1 hi)]
  rfl

variable {lin : Nat → (Nat → K) → (Nat → K) → Nat → K}

/-- the solver's answer satisfies the equations of the states -/
theorem local_solution (hφ : StrictMono φ) (hl : LinOK lin) (hok : Chain.OK c.n (Q φ c)) {states : List Nat} (hn : states.Nodup)
    (hs : ∀ s ∈ states, s < c.n) (b : Nat → K) : ∀ s ∈ states,
      sol φ states (lin states.length (sysArr c states) fun j => b (states.getD j 0)) s = φ (b s) +
        ∑ t ∈ states.toFinset, Q φ c s t * sol φ states (lin states.length (sysArr c states) fun j => b (states.getD j 0)) t := by
  have hreg := hl states.length (sysArr c states) (fun j => b (states.getD j 0)) (by
    intro z hz i hi
    have h1 : ∀ j < states.length, z j = ∑ i ∈ range states.length, c.P (states.getD j 0) (states.getD i 0) * z i := fun j hj => by
      have := hz j hj
      rw [row_eq hj] at this
      exact sub_eq_zero.1 this
    have hsub : states.toFinset ⊆ range c.n := fun s hs' => Finset.mem_range.2 (hs s (List.mem_toFinset.1 hs'))
    have e := Chain.unique hok (U := states.toFinset) (b := fun _ => 0) (x := sol φ states z) (y := fun _ => 0)
      (fun s _ hs' => by unfold sol; rw [if_neg (fun h => hs' (List.mem_toFinset.2 h))]) (fun s hs' _ => by
        obtain ⟨j, hj, rfl⟩ := List.mem_iff_getElem.1 (List.mem_toFinset.1 hs')
        rw [← List.getD_eq_getElem _ 0 hj, sol_getD φ hn z hj, h1 j hj, sol_sum φ hn, zero_add]
        refine Finset.sum_subset hsub fun t _ ht => ?_
        unfold sol
        rw [if_neg (fun h => ht (List.mem_toFinset.2 h)), mul_zero]) (fun s _ _ => by simp)
      (states.getD i 0) (by rw [List.getD_eq_getElem _ _ hi]; exact hs _ (List.getElem_mem hi))
    rw [sol_getD φ hn z hi] at e
    exact hφ.injective (by rw [e, map_zero]))
  intro s hs'
  obtain ⟨j, hj, rfl⟩ := List.mem_iff_getElem.1 hs'
  have := hreg j hj
  rw [row_eq hj] at this
  rw [← List.getD_eq_getElem _ 0 hj, sol_getD φ hn _ hj, ← this, map_sub, sol_sum φ hn]
  ring

/-! ### the whole setting -/

variable (c) in
/-- the assumptions on the chain and its parts -/
structure Ctx (φ : K →+* ℝ) (parts : List (List Nat)) (order : List Nat) : Prop where
  path : PathPartition c parts order
  mono : StrictMono φ
  ok : Chain.OK c.n (Q φ c)
  edge : ∀ u < c.n, ∀ v < c.n, 0 < c.P u v → c.edge u v = true
  tgt0 : ∀ s, 0 ≤ c.toTarget s
  leaf : ∀ s < c.n, 0 < c.toTarget s → pos parts order s = 0
  init : c.init < c.n
  sep : ∀ u < c.n, ∀ v < c.n, c.edge u v = true → isInterface c parts u = true → isInterface c parts v = true →
    label parts u ≠ label parts v

variable {φ} {parts : List (List Nat)} {order : List Nat}

theorem Ctx.Qpos (H : Ctx c φ parts order) {u v : Nat} (hu : u < c.n) (hv : v < c.n) (h : 0 < Q φ c u v) : c.edge u v = true :=
  H.edge u hu v hv (H.mono.lt_iff_lt.1 (by rw [map_zero]; exact h))

theorem Ctx.Qzero (H : Ctx c φ parts order) {u v : Nat} (hu : u < c.n) (hv : v < c.n) (h : c.edge u v ≠ true) : Q φ c u v = 0 :=
  le_antisymm (not_lt.1 fun h' => h (H.Qpos hu hv h')) (H.ok.Q0 u v)

theorem Ctx.pathQ (H : Ctx c φ parts order) : Chain.Path c.n (Q φ c) (pos parts order) :=
  ⟨fun _ hs _ ht h => edge_pos H.path hs ht (H.Qpos hs ht h)⟩

/-- the interface of the next part -/
def outs (c : Chain K) (parts : List (List Nat)) (order : List Nat) (i : Nat) : Finset Nat :=
  (range c.n).filter fun o => pos parts order o + 1 = i ∧ isInterface c parts o = true

theorem mem_outs {i o : Nat} : o ∈ outs c parts order i ↔ o < c.n ∧ pos parts order o + 1 = i ∧ isInterface c parts o = true := by
  unfold outs; rw [Finset.mem_filter, Finset.mem_range]

/-- The solution of one part: `S` the chosen states, `u` the values at the interface of the next part. -/
structure LocVal (φ : K →+* ℝ) (c : Chain K) (parts : List (List Nat)) (order : List Nat) (i : Nat) (S : Finset Nat) (u y : Nat → ℝ) : Prop where
  out : ∀ s, pos parts order s = i → s ∉ S → y s = 0
  eq : ∀ s ∈ S, y s = (φ (c.toTarget s) + ∑ o ∈ outs c parts order i, Q φ c s o * u o) + ∑ t ∈ S, Q φ c s t * y t

variable {ub : Nat} {thr : K}

theorem zipIdx_sol {states : List Nat} (hn : states.Nodup) (z : Nat → K) {e : Nat × Nat} (he : e ∈ states.zipIdx) :
    φ (z e.2) = sol φ states z e.1 := by
  obtain ⟨s, i⟩ := e
  have h := List.mem_zipIdx he
  have hi : i < states.length := by omega
  have h3 : s = states[i] := by simpa using h.2.2
  subst h3
  rw [← List.getD_eq_getElem _ 0 hi, sol_getD φ hn z hi]

theorem probs_get {states : List Nat} (hn : states.Nodup) (z : Nat → K) (f : Nat → Bool) {o : Nat} (ho : f o = true) :
    φ ((Dict.get? ((states.zipIdx.filter fun e => f e.1).map fun e => (e.1, z e.2)) o).getD 0) = sol φ states z o := by
  cases hg : Dict.get? ((states.zipIdx.filter fun e => f e.1).map fun e => (e.1, z e.2)) o with
  | some k =>
    have := Dict.mem_of_get? hg
    obtain ⟨e, he, h⟩ := List.mem_map.1 this
    simp only [Prod.mk.injEq] at h
    obtain ⟨rfl, rfl⟩ := h
    exact zipIdx_sol hn z (List.mem_filter.1 he).1
  | none =>
    rw [Option.getD_none, map_zero]
    unfold sol
    rw [if_neg]
    intro hs
    obtain ⟨i, hi, rfl⟩ := List.mem_iff_getElem.1 hs
    have hm : (states[i], i) ∈ states.zipIdx := by
      rw [List.mem_zipIdx_iff_getElem?]
      simp [List.getElem?_eq_getElem hi]
    have := Dict.get?_eq_none.1 hg
    apply this
    unfold Dict.keys
    rw [List.map_map]
    exact List.mem_map.2 ⟨(states[i], i), List.mem_filter.2 ⟨hm, ho⟩, rfl⟩

theorem probs_sum {states : List Nat} (hn : states.Nodup) (z : Nat → K) (f : Nat → Bool) :
    φ ((((states.zipIdx.filter fun e => f e.1).map fun e => (e.1, z e.2)).map Prod.snd).sum) =
      ∑ o ∈ (states.filter f).toFinset, sol φ states z o := by
  have h1 : (((states.zipIdx.filter fun e => f e.1).map fun e => (e.1, z e.2)).map Prod.snd).map φ =
      (states.filter f).map (sol φ states z) := by
    rw [List.map_map, List.map_map]
    have h2 : states.filter f = (states.zipIdx.filter fun e => f e.1).map Prod.fst := by
      conv_lhs => rw [← List.zipIdx_map_fst 0 states, List.filter_map]
      rfl
    rw [h2, List.map_map]
    refine List.map_congr_left fun e he => ?_
    exact zipIdx_sol hn z (List.mem_filter.1 he).1
  rw [map_list_sum, h1, List.sum_toFinset _ (hn.filter _)]

/-- the set of chosen states of the part -/
def sel (c : Chain K) (parts : List (List Nat)) (order : List Nat) (i : Nat) (x : Nat → Bool) : Finset Nat :=
  (range c.n).filter fun s => pos parts order s = i ∧ x s = true

theorem mem_sel {i s : Nat} {x : Nat → Bool} : s ∈ sel c parts order i x ↔ s < c.n ∧ pos parts order s = i ∧ x s = true := by
  unfold sel; rw [Finset.mem_filter, Finset.mem_range]

theorem Ctx.states_eq (H : Ctx c φ parts order) {i p : Nat} (hp : order[i]? = some p) {x : Nat → Bool}
    (hx : ∀ v ∈ view c parts p, isOut c parts p v = true → x v = true) :
    ((view c parts p).filter x).toFinset = sel c parts order i x ∪ outs c parts order i := by
  ext s
  rw [List.mem_toFinset, List.mem_filter, Finset.mem_union, mem_sel, mem_outs]
  constructor
  · rintro ⟨h1, h2⟩
    have hn := ((mem_view H.path).1 h1).1
    rcases (mem_view_pos H.path hp hn).1 h1 with h | h
    · exact Or.inl ⟨hn, h, h2⟩
    · exact Or.inr ⟨hn, h⟩
  · rintro (⟨h1, h2, h3⟩ | ⟨h1, h2, h3⟩)
    · exact ⟨(mem_view_pos H.path hp h1).2 (Or.inl h2), h3⟩
    · have hv := (mem_view_pos H.path hp h1).2 (Or.inr ⟨h2, h3⟩)
      exact ⟨hv, hx s hv ((isOut_iff H.path hp hv).2 h2)⟩

/-- what `newPoint` computes -/
theorem newPoint_spec (hl : LinOK lin) (H : Ctx c φ parts order) {i p : Nat} (hp : order[i]? = some p) {x : Nat → Bool}
    (hx : ∀ v ∈ view c parts p, isOut c parts p v = true → x v = true) (cur : Pt K) (u : Nat → ℝ)
    (hu : ∀ o ∈ outs c parts order i, φ (rhs c parts p cur o) = u o) :
    ∃ y : Nat → ℝ, LocVal φ c parts order i (sel c parts order i x) u y ∧
      (∀ q, newPoint lin c parts p ((view c parts p).filter x) ub thr cur = some q →
        q.states = (sel c parts order i x).card + cur.states ∧ q.states ≤ ub ∧
        (∀ o ∈ inputs c parts p, φ ((Dict.get? q.probs o).getD 0) = y o) ∧ φ thr ≤ ∑ o ∈ (inputs c parts p).toFinset, y o) ∧
      ((sel c parts order i x).card + cur.states + minDist c parts p ((view c parts p).filter x) ≤ ub →
        φ thr ≤ ∑ o ∈ (inputs c parts p).toFinset, y o →
        ∃ q, newPoint lin c parts p ((view c parts p).filter x) ub thr cur = some q) := by
  set states := (view c parts p).filter x with hst
  have hn : states.Nodup := (view_nodup H.path).filter _
  have hlt : ∀ s ∈ states, s < c.n := fun s hs => ((mem_view H.path).1 (List.mem_filter.1 hs).1).1
  set X := lin states.length (sysArr c states) (fun j => rhs c parts p cur (states.getD j 0)) with hX
  have hloc := local_solution φ H.mono hl H.ok hn hlt (rhs c parts p cur)
  rw [← hX] at hloc
  set y := sol φ states X with hy
  have hset := H.states_eq hp hx
  rw [← hst] at hset
  have hdisj : Disjoint (sel c parts order i x) (outs c parts order i) := by
    rw [Finset.disjoint_left]
    intro o h1 h2
    have := (mem_sel.1 h1).2.1
    have := (mem_outs.1 h2).2.1
    omega
  have hsmem : ∀ {s}, s ∈ sel c parts order i x → s ∈ states := fun hs =>
    List.mem_toFinset.1 (by rw [hset]; exact Finset.mem_union_left _ hs)
  have homem : ∀ {s}, s ∈ outs c parts order i → s ∈ states := fun hs =>
    List.mem_toFinset.1 (by rw [hset]; exact Finset.mem_union_right _ hs)
  -- values at the interface
  have hout : ∀ o ∈ outs c parts order i, y o = u o := by
    intro o ho
    obtain ⟨h1, h2, h3⟩ := mem_outs.1 ho
    rw [hloc o (homem ho), hu o ho]
    have : ∑ t ∈ states.toFinset, Q φ c o t * y t = 0 := by
      refine Finset.sum_eq_zero fun t ht => ?_
      have ht' := List.mem_toFinset.1 ht
      have htn := hlt t ht'
      rw [H.Qzero h1 htn, zero_mul]
      intro he
      have hpos := edge_pos H.path h1 htn he
      rw [hset] at ht
      rcases Finset.mem_union.1 ht with g | g
      · have := (mem_sel.1 g).2.1
        omega
      · obtain ⟨g1, g2, g3⟩ := mem_outs.1 g
        exact H.sep o h1 t htn he h3 g3 ((pos_eq_iff H.path h1 htn).1 (by omega))
    rw [this, add_zero]
  -- what is summed at the inputs
  have hin : ∀ o ∈ inputs c parts p, isIn c parts p o = true := fun o ho => (List.mem_filter.1 ho).2
  have hsum : ∑ o ∈ (states.filter (isIn c parts p)).toFinset, y o = ∑ o ∈ (inputs c parts p).toFinset, y o := by
    refine Finset.sum_subset (fun o ho => ?_) fun o ho hno => ?_
    · rw [List.mem_toFinset, List.mem_filter] at ho
      rw [List.mem_toFinset]
      exact List.mem_filter.2 ⟨(List.mem_filter.1 ho.1).1, ho.2⟩
    · rw [hy]; unfold sol
      rw [if_neg]
      intro h
      exact hno (List.mem_toFinset.2 (List.mem_filter.2 ⟨h, hin o (List.mem_toFinset.1 ho)⟩))
  have htot : (states.filter fun s => !isOut c parts p s).length = (sel c parts order i x).card := by
    rw [← List.toFinset_card_of_nodup (hn.filter _)]
    congr 1
    ext s
    rw [List.mem_toFinset, List.mem_filter, Bool.not_eq_true', mem_sel]
    constructor
    · rintro ⟨h1, h2⟩
      have hv := (List.mem_filter.1 h1).1
      have hsn := hlt s h1
      refine ⟨hsn, ?_, (List.mem_filter.1 h1).2⟩
      rcases (mem_view_pos H.path hp hsn).1 hv with h | h
      · exact h
      · rw [(isOut_iff H.path hp hv).2 h.1] at h2; cases h2
    · rintro h
      have hs := hsmem (mem_sel.2 h)
      refine ⟨hs, ?_⟩
      rw [← Bool.not_eq_true, isOut_iff H.path hp (List.mem_filter.1 hs).1]
      omega
  refine ⟨y, ⟨fun s hs hns => ?_, fun s hs => ?_⟩, ?_, ?_⟩
  · rw [hy]; unfold sol
    rw [if_neg]
    intro h
    exact hns (mem_sel.2 ⟨hlt s h, hs, (List.mem_filter.1 h).2⟩)
  · obtain ⟨h1, h2, h3⟩ := mem_sel.1 hs
    have hou : ∑ o ∈ outs c parts order i, Q φ c s o * y o = ∑ o ∈ outs c parts order i, Q φ c s o * u o :=
      Finset.sum_congr rfl fun o ho => by rw [hout o ho]
    rw [hloc s (hsmem hs), hset, Finset.sum_union hdisj, hou]
    have hr : rhs c parts p cur s = c.toTarget s := by
      unfold rhs
      have hv := (List.mem_filter.1 (hsmem hs)).1
      rw [if_neg (by rw [isOut_iff H.path hp hv]; omega)]
      split
      · rfl
      · rename_i ht
        refine le_antisymm (H.tgt0 s) (not_lt.1 fun h => ht ((isTarget_iff H.path hp).2 (Or.inl h)))
    rw [hr]
    ring
  · intro q hq
    unfold newPoint at hq
    simp only at hq
    rw [← hX, htot] at hq
    split at hq
    · cases hq
    · rename_i hle
      split at hq
      · cases hq
      · rename_i hthr
        cases hq
        refine ⟨rfl, ?_, fun o ho => probs_get hn X _ (hin o ho), ?_⟩
        · simp only
          omega
        · have h1 := H.mono.monotone (not_lt.1 hthr)
          rw [probs_sum hn X (isIn c parts p)] at h1
          rw [← hsum]
          exact h1
  · intro h1 h2
    unfold newPoint
    simp only
    rw [← hX, htot, if_neg (by omega), if_neg]
    · exact ⟨_, rfl⟩
    · rw [not_lt, ← H.mono.le_iff_le, probs_sum hn X (isIn c parts p), ← hy, hsum]
      exact h2

end Verif.Proofs.Tree
