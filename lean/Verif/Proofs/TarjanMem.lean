import Verif.Proofs.GraphMem
import Verif.Proofs.Tarjan
import Mathlib.Data.List.Dedup
import Mathlib.Algebra.BigOperators.Group.Finset.Basic
import Mathlib.Algebra.BigOperators.Ring.Finset
/-!
# `strongly_connected_components` in memory
-/

namespace Verif.Proofs.Sep
open Verif.Model Verif.Model.Mem

variable {K α β : Type}

/-! ### Keys added more than once -/

/-- entries of a list that have occurred before -/
def lost (xs : List Nat) : Nat := xs.length - xs.dedup.length

theorem dedup_length_le (xs : List Nat) : xs.dedup.length ≤ xs.length := (List.dedup_sublist xs).length_le

theorem dedup_length_eq_card (xs : List Nat) : xs.dedup.length = xs.toFinset.card := by
  rw [List.card_toFinset]

theorem lost_snoc (xs : List Nat) (x : Nat) : lost (xs ++ [x]) = lost xs + hit (decide (x ∈ xs)) := by
  have h1 := dedup_length_le xs
  have h2 := dedup_length_le (xs ++ [x])
  have e : (xs ++ [x]).dedup.length = xs.dedup.length + if x ∈ xs then 0 else 1 := by
    rw [dedup_length_eq_card, dedup_length_eq_card]
    have : (xs ++ [x]).toFinset = insert x xs.toFinset := by
      ext y; simp
    rw [this]
    split
    · rw [Finset.insert_eq_of_mem (by simpa using ‹x ∈ xs›)]; rfl
    · rw [Finset.card_insert_of_notMem (by simpa using ‹x ∉ xs›)]
  unfold lost hit
  rw [e, List.length_append, List.length_singleton]
  rw [e, List.length_append, List.length_singleton] at h2
  by_cases hx : x ∈ xs
  · simp only [hx, if_true, decide_true] at h2 ⊢; omega
  · simp only [hx, if_false, decide_false] at h2 ⊢; simp

theorem lost_nodup {xs : List Nat} (h : xs.Nodup) : lost xs = 0 := by
  rw [lost, List.dedup_eq_self.2 h]; omega

theorem addAll_append (t : Treap Nat) (xs ys : List (Nat × Int)) : t.addAll (xs ++ ys) = (t.addAll xs).addAll ys := by
  induction xs generalizing t with
  | nil => rfl
  | cons x xs ih => obtain ⟨x, h⟩ := x; exact ih _

theorem mkTreap_snoc (h : Nat → Int) (xs : List Nat) (x : Nat) :
    Graph.mkTreap h (xs ++ [x]) = (Graph.mkTreap h xs).insert x (h xs.length) := by
  unfold Graph.mkTreap
  rw [List.zipIdx_append, List.map_append, addAll_append]
  simp [Treap.addAll]

theorem mkTreap_mem (h : Nat → Int) (xs : List Nat) (x : Nat) : (Graph.mkTreap h xs).mem x = decide (x ∈ xs) := by
  rw [Bool.eq_iff_iff, mem_mkTreap]; simp

theorem mkTreap_length (h : Nat → Int) (xs : List Nat) : (Graph.mkTreap h xs).toList.length = xs.dedup.length := by
  obtain ⟨hok, hm⟩ := mkTreap_spec h xs
  rw [dedup_length_eq_card, ← List.toFinset_card_of_nodup hok.nodup]
  congr 1
  ext y
  simp [hm]

theorem mkTreap_length_le (h : Nat → Int) (xs : List Nat) : (Graph.mkTreap h xs).toList.length ≤ xs.length := by
  rw [mkTreap_length]; exact dedup_length_le xs

theorem mkTreap_nil (h : Nat → Int) : Graph.mkTreap h ([] : List Nat) = .nil := rfl

/-- one more key for a treap built from a list -/
theorem triple_addSnoc (fuel : Nat) (p : Ptr) (h : Nat → Int) (xs : List Nat) (x : Nat) (hf : xs.length ≤ fuel) :
    Triple (tr p (Graph.mkTreap h xs) ∗ junk (lost xs) : HProp K) (addToTreap fuel p x (h xs.length)) fun q =>
      tr q (Graph.mkTreap h (xs ++ [x])) ∗ junk (lost (xs ++ [x])) := by
  refine (triple_addToTreap fuel p (Graph.mkTreap h xs) x (h xs.length)
    ((mkTreap_length_le h xs).trans hf)).last (junk (lost xs)) rfl fun q => ?_
  rw [mkTreap_snoc, lost_snoc, mkTreap_mem, star_assoc]
  refine Imp.star Imp.rfl ?_
  rw [star_comm]
  exact junk_add _ _

theorem triple_badLoop {P : HProp K} {p pT : Ptr} {l : List (Nat × Nat × K)} (hP : HasSaps P p l) (T : Treap Nat)
    (h : Nat → Int) (fuel : Nat) (hT : T.toList.length ≤ fuel) (hl : l.length ≤ fuel) (m j : Nat) (hm : j + m = l.length)
    (xs : List Nat) (hx : xs.length ≤ j) (q : Ptr) :
    Triple (P ∗ tr pT T ∗ tr q (Graph.mkTreap h xs) ∗ junk (lost xs)) (badLoop fuel p pT h m j xs.length q) fun r =>
      P ∗ tr pT T ∗ tr r (Graph.mkTreap h (xs ++ ((l.drop j).filter fun t => !T.mem t.1).map fun t => t.2.1)) ∗
        junk (lost (xs ++ ((l.drop j).filter fun t => !T.mem t.1).map fun t => t.2.1)) := by
  induction m generalizing j xs q with
  | zero =>
    rw [List.drop_eq_nil_of_le (by omega)]
    simp only [List.filter_nil, List.map_nil, List.append_nil]
    exact Triple.pure Imp.rfl
  | succ m ih =>
    have hj : j < l.length := by omega
    unfold badLoop
    refine Triple.loadSap hP.left (List.getElem?_eq_getElem hj) ?_
    refine (triple_inTreap fuel pT T l[j].1 hT).step (P ∗ tr q (Graph.mkTreap h xs) ∗ junk (lost xs)) (by sep) fun b => ?_
    rw [star_assoc]
    refine Triple.of_lift fun hb => ?_
    rw [List.drop_eq_getElem_cons hj]
    cases hb' : T.mem l[j].1 with
    | true =>
      rw [if_pos (by rw [hb, hb'])]
      rw [List.filter_cons_of_neg (by simp [hb'])]
      exact (ih (j + 1) (by omega) xs (by omega) q).pre (Imp.of_eq (by sep))
    | false =>
      rw [if_neg (by rw [hb, hb']; simp)]
      rw [List.filter_cons_of_pos (by simp [hb'])]
      refine (triple_addSnoc fuel q h xs l[j].2.1 (by omega)).step (P ∗ tr pT T) (by sep) fun q' => ?_
      have := ih (j + 1) (by omega) (xs ++ [l[j].2.1]) (by simp; omega) q'
      rw [List.length_append, List.length_singleton] at this
      refine (this.pre (Imp.of_eq (by sep))).post fun r => ?_
      rw [List.map_cons, List.append_assoc, List.singleton_append]
      exact Imp.rfl

/-! ### Tarjan's data in memory -/

/-- the fields of a node; lowlink and onstack are written when it is visited -/
def tcell (st : Graph.TState) (x : Nat) : TCell :=
  ⟨some (st.idx x), (st.idx x).map fun _ => st.low x, (st.idx x).map fun _ => st.on x⟩

/-- the array `tnodes` -/
def tnA (tn n : Nat) (st : Graph.TState) : HProp K := pts tn (tarjanA.blk ((List.range n).map fun x => some (tcell st x)))

/-- the array `sccs` -/
def scA (a n : Nat) (f : Nat → Nat) : HProp K := pts a (intA.blk ((List.range n).map fun x => some (f x)))

/-- blocks lost so far: `d x` for each visited node -/
def leak (n : Nat) (d : Nat → Nat) (st : Graph.TState) : Nat := ∑ x ∈ Finset.range n, if st.idx x = none then 0 else d x

/-- the memory that `strongconnect` changes -/
def tst (tn sc n : Nat) (d : Nat → Nat) (st : Graph.TState) (q : Ptr) : HProp K :=
  tnA tn n st ∗ scA sc n st.sccs ∗ stk q st.stack ∗ junk (leak n d st)

theorem has_tnA (tn n : Nat) (st : Graph.TState) :
    Has (tnA tn n st : HProp K) tn (tarjanA.blk ((List.range n).map fun x => some (tcell st x))) := Has.pts _ _

theorem has_scA (a n : Nat) (f : Nat → Nat) :
    Has (scA a n f : HProp K) a (intA.blk ((List.range n).map fun x => some (f x))) := Has.pts _ _

theorem triple_storeT (tn n : Nat) (st st' : Graph.TState) (v : Nat) (hv : v < n) (c : TCell)
    (h : ∀ x, tcell st' x = if x = v then c else tcell st x) :
    Triple (tnA tn n st : HProp K) (store tarjanA (some tn) v c) fun _ => tnA tn n st' := by
  refine (triple_store (A := tarjanA) (a := tn) (i := v) c (by simpa using hv)).post fun _ => ?_
  rw [map_range_set, tnA]
  refine Imp.of_eq ?_
  congr 3
  funext x
  rw [h]
  by_cases hx : x = v
  · subst hx; simp
  · simp [hx]

theorem triple_storeS (a n : Nat) (f : Nat → Nat) (v : Nat) (hv : v < n) (c : Nat) :
    Triple (scA a n f : HProp K) (store intA (some a) v c) fun _ => scA a n (Function.update f v c) := by
  refine (triple_store (A := intA) (a := a) (i := v) c (by simpa using hv)).post fun _ => ?_
  rw [map_range_set, scA]
  refine Imp.of_eq ?_
  congr 3
  funext x
  by_cases hx : x = v
  · subst hx; simp
  · simp [hx]

theorem Triple.loadT {P : HProp K} {tn n : Nat} {st : Graph.TState} {v : Nat} {m : TCell → M K β} {Q : β → HProp K}
    (h : Has P tn (tarjanA.blk ((List.range n).map fun x => some (tcell st x)))) (hv : v < n)
    (h' : Triple P (m (tcell st v)) Q) : Triple P (Mem.load tarjanA (some tn) v >>= m) Q :=
  Triple.load h (map_range_get (fun x => some (tcell st x)) hv) h'

theorem Triple.loadS {P : HProp K} {a n : Nat} {f : Nat → Nat} {v : Nat} {m : Nat → M K β} {Q : β → HProp K}
    (h : Has P a (intA.blk ((List.range n).map fun x => some (f x)))) (hv : v < n)
    (h' : Triple P (m (f v)) Q) : Triple P (Mem.load intA (some a) v >>= m) Q :=
  Triple.load h (map_range_get (fun x => some (f x)) hv) h'

theorem Triple.known {P : HProp K} {o : Option α} {v : α} {m : α → M K β} {Q : β → HProp K} (h : o = some v)
    (h' : Triple P (m v) Q) : Triple P (Mem.known o >>= m) Q := by
  subst h
  exact Triple.bind (R := fun r => lift (r = v) ∗ P) (Triple.pure (Imp.lift_intro rfl Imp.rfl))
    fun r => Triple.of_lift fun hr => by subst hr; exact h'

/-! ### Facts about the functions -/

/-- nodes on the stack are visited -/
structure SInv (n : Nat) (st : Graph.TState) : Prop where
  nodup : st.stack.Nodup
  lt : ∀ x ∈ st.stack, x < n
  vis : ∀ x ∈ st.stack, st.idx x ≠ none

/-- what a call of `strongconnect` leaves -/
structure SPost (n : Nat) (st st' : Graph.TState) : Prop where
  inv : SInv n st'
  stack : ∃ X, st'.stack = X ++ st.stack
  mono : ∀ x, st.idx x ≠ none → st'.idx x ≠ none

theorem SPost.refl {n : Nat} {st : Graph.TState} (h : SInv n st) : SPost n st st := ⟨h, ⟨[], rfl⟩, fun _ h => h⟩

theorem SPost.trans {n : Nat} {a b c : Graph.TState} (h : SPost n a b) (h' : SPost n b c) : SPost n a c := by
  obtain ⟨X, hX⟩ := h.stack
  obtain ⟨Y, hY⟩ := h'.stack
  exact ⟨h'.inv, ⟨Y ++ X, by rw [hY, hX, List.append_assoc]⟩, fun x hx => h'.mono x (h.mono x hx)⟩

theorem popTo_low (v : Nat) (l : List Nat) (st : Graph.TState) : (Graph.popTo v l st).low = st.low := by
  induction l generalizing st with
  | nil => rfl
  | cons w l ih => rw [Graph.popTo]; split; · rfl
                   · rw [ih]

theorem popTo_cnt (v : Nat) (l : List Nat) (st : Graph.TState) : (Graph.popTo v l st).cnt = st.cnt := by
  induction l generalizing st with
  | nil => rfl
  | cons w l ih => rw [Graph.popTo]; split; · rfl
                   · rw [ih]

theorem popTo_i (v : Nat) (l : List Nat) (st : Graph.TState) : (Graph.popTo v l st).i = st.i := by
  induction l generalizing st with
  | nil => rfl
  | cons w l ih => rw [Graph.popTo]; split; · rfl
                   · rw [ih]

/-- the recursive step for successor `w` of `v` -/
def sstep (rec : Nat → Graph.TState → Graph.TState) (v : Nat) (st : Graph.TState) (w : Nat) : Graph.TState :=
  match st.idx w with
  | none =>
    let st' := rec w st
    { st' with low := Function.update st'.low v (min (st'.low v) (st'.low w)) }
  | some k => if st.on w then { st with low := Function.update st.low v (min (st.low v) k) } else st

theorem strongconnect_eq (adj : Nat → List Nat) (fuel v : Nat) (st : Graph.TState) :
    Graph.strongconnect adj (fuel + 1) v st =
      Graph.closeNode v ((adj v).foldl (sstep (Graph.strongconnect adj fuel) v) (Graph.openNode v st)) := rfl

theorem SInv.openNode {n : Nat} {st : Graph.TState} (h : SInv n st) {v : Nat} (hv : v < n) (h0 : st.idx v = none) :
    SInv n (Graph.openNode v st) := by
  refine ⟨?_, ?_, ?_⟩
  · refine List.nodup_cons.2 ⟨fun hm => h.vis v hm h0, h.nodup⟩
  · intro x hx
    rcases List.mem_cons.1 hx with rfl | hx
    · exact hv
    · exact h.lt x hx
  · intro x hx
    simp only [Graph.openNode]
    by_cases e : x = v
    · subst e; simp
    · rw [Function.update_of_ne e]
      rcases List.mem_cons.1 hx with rfl | hx
      · exact absurd rfl e
      · exact h.vis x hx

theorem openNode_mono {st : Graph.TState} {v : Nat} (x : Nat) (hx : st.idx x ≠ none) : (Graph.openNode v st).idx x ≠ none := by
  simp only [Graph.openNode]
  by_cases e : x = v
  · subst e; simp
  · rwa [Function.update_of_ne e]

theorem sstep_post {n : Nat} {rec : Nat → Graph.TState → Graph.TState} {v w : Nat} {st : Graph.TState} (h : SInv n st)
    (hr : st.idx w = none → SPost n st (rec w st)) : SPost n st (sstep rec v st w) := by
  unfold sstep
  cases hw : st.idx w with
  | none =>
    have := hr hw
    exact ⟨⟨this.inv.nodup, this.inv.lt, this.inv.vis⟩, this.stack, this.mono⟩
  | some k =>
    dsimp only
    split
    · exact ⟨⟨h.nodup, h.lt, h.vis⟩, ⟨[], rfl⟩, fun _ hx => hx⟩
    · exact SPost.refl h

theorem closeNode_SPost {n : Nat} {st0 st : Graph.TState} {v : Nat} (X : List Nat) (hX : st.stack = X ++ v :: st0.stack)
    (h : SInv n st) (hm : ∀ x, st0.idx x ≠ none → st.idx x ≠ none) : SPost n st0 (Graph.closeNode v st) := by
  unfold Graph.closeNode
  split
  · have hnd := h.nodup
    rw [hX] at hnd
    have hvX : v ∉ X := by
      intro hv
      exact (List.disjoint_of_nodup_append hnd) hv (by simp)
    have e := popTo_spec v X st0.stack hvX st
    rw [← hX] at e
    dsimp only
    rw [e]
    refine ⟨⟨?_, ?_, ?_⟩, ⟨[], rfl⟩, hm⟩
    · exact (List.nodup_cons.1 (List.Nodup.of_append_right hnd)).2
    · intro x hx; exact h.lt x (by rw [hX]; simp only [List.mem_append, List.mem_cons]; exact Or.inr (Or.inr hx))
    · intro x hx; exact h.vis x (by rw [hX]; simp only [List.mem_append, List.mem_cons]; exact Or.inr (Or.inr hx))
  · exact ⟨h, ⟨X ++ [v], by rw [hX, List.append_assoc]; rfl⟩, hm⟩

theorem fold_post {n : Nat} {rec : Nat → Graph.TState → Graph.TState} (v : Nat) (ws : List Nat) (hws : ∀ w ∈ ws, w < n)
    (hr : ∀ w st, w < n → SInv n st → st.idx w = none → SPost n st (rec w st)) (st : Graph.TState) (h : SInv n st) :
    SPost n st (ws.foldl (sstep rec v) st) := by
  induction ws generalizing st with
  | nil => exact SPost.refl h
  | cons w ws ih =>
    rw [List.foldl_cons]
    have h1 := sstep_post (v := v) (w := w) h fun h0 => hr w st (hws w (by simp)) h h0
    exact h1.trans (ih (fun w hw => hws w (by simp [hw])) _ h1.inv)

theorem strongconnect_SPost {n : Nat} {adj : Nat → List Nat} (hadj : ∀ x < n, ∀ y ∈ adj x, y < n) (fuel : Nat) :
    ∀ v st, v < n → SInv n st → st.idx v = none → SPost n st (Graph.strongconnect adj fuel v st) := by
  induction fuel with
  | zero => intro v st _ h _; exact SPost.refl h
  | succ fuel ih =>
    intro v st hv h h0
    rw [strongconnect_eq]
    have h1 := fold_post (rec := Graph.strongconnect adj fuel) v (adj v) (hadj v hv) ih _ (h.openNode hv h0)
    obtain ⟨X, hX⟩ := h1.stack
    exact closeNode_SPost X hX h1.inv fun x hx => h1.mono x (openNode_mono x hx)

theorem SInv.length {n : Nat} {st : Graph.TState} (h : SInv n st) : st.stack.length ≤ n := by
  rw [← List.toFinset_card_of_nodup h.nodup]
  have : st.stack.toFinset ⊆ Finset.range n := by
    intro x hx
    rw [List.mem_toFinset] at hx
    exact Finset.mem_range.2 (h.lt x hx)
  simpa using Finset.card_le_card this

theorem leak_congr {n : Nat} {d : Nat → Nat} {st st' : Graph.TState} (h : st.idx = st'.idx) :
    leak n d st = leak n d st' := by rw [leak, leak, h]

theorem leak_open {n : Nat} {d : Nat → Nat} {st : Graph.TState} {v : Nat} (hv : v < n) (h0 : st.idx v = none) :
    leak n d (Graph.openNode v st) = leak n d st + d v := by
  unfold leak
  rw [← Finset.add_sum_erase _ _ (Finset.mem_range.2 hv), ← Finset.add_sum_erase _ _ (Finset.mem_range.2 hv)]
  rw [if_pos h0, if_neg (by simp [Graph.openNode])]
  have : ∑ x ∈ (Finset.range n).erase v, (if (Graph.openNode v st).idx x = none then 0 else d x) =
      ∑ x ∈ (Finset.range n).erase v, (if st.idx x = none then 0 else d x) := by
    refine Finset.sum_congr rfl fun x hx => ?_
    rw [Finset.mem_erase] at hx
    simp [Graph.openNode, hx.1]
  rw [this]
  omega

/-! ### The parts of `strongconnect` -/

theorem triple_popLoop (tn sc n : Nat) (v : Nat) (L : List Nat) (hv : v ∈ L) (fuel : Nat) (hf : L.length ≤ fuel)
    (st : Graph.TState) (hL : ∀ x ∈ L, x < n ∧ st.idx x ≠ none) (q : Ptr) :
    Triple (tnA tn n st ∗ scA sc n st.sccs ∗ stk q L : HProp K) (popLoop tn sc st.cnt v fuel q) fun r =>
      tnA tn n (Graph.popTo v L st) ∗ scA sc n (Graph.popTo v L st).sccs ∗ stk r (Graph.popTo v L st).stack := by
  induction L generalizing fuel st q with
  | nil => cases hv
  | cons w L ih =>
    obtain ⟨fuel, rfl⟩ : ∃ k, fuel = k + 1 := ⟨fuel - 1, by simp at hf; omega⟩
    obtain ⟨hw, hwi⟩ := hL w (by simp)
    obtain ⟨k, hk⟩ := Option.ne_none_iff_exists'.1 hwi
    unfold popLoop
    refine (triple_pop q L w).step (tnA tn n st ∗ scA sc n st.sccs) (by sep) fun r => ?_
    rw [star_assoc]
    refine Triple.of_lift fun hr => ?_
    obtain ⟨r1, r2⟩ := r
    dsimp only at hr
    subst hr
    dsimp only
    refine Triple.loadT (st := st) (has_tnA tn n st).left.right hw ?_
    refine (triple_storeT tn n st { st with on := Function.update st.on r2 false } r2 hw
      { tcell st r2 with on := some false } (fun x => ?_)).step (stk r1 L ∗ scA sc n st.sccs) (by sep) fun _ => ?_
    · by_cases hx : x = r2
      · subst hx; simp [tcell, hk]
      · simp [tcell, hx]
    refine (triple_storeS sc n st.sccs r2 hw st.cnt).step
      (stk r1 L ∗ tnA tn n { st with on := Function.update st.on r2 false }) (by sep) fun _ => ?_
    rw [Graph.popTo]
    by_cases hwv : r2 = v
    · rw [if_pos hwv, if_pos hwv]
      refine Triple.pure (Imp.of_eq ?_)
      have e : (tnA tn n { st with on := Function.update st.on r2 false } : HProp K) =
        tnA tn n { st with
          stack := L
          on := Function.update st.on r2 false
          sccs := Function.update st.sccs r2 st.cnt } := rfl
      rw [e]
      ac_rfl
    · rw [if_neg hwv, if_neg hwv]
      have hv' : v ∈ L := by
        rcases List.mem_cons.1 hv with h | h
        · exact absurd h.symm hwv
        · exact h
      refine (ih hv' fuel (by simpa using hf) { st with
          stack := L
          on := Function.update st.on r2 false
          sccs := Function.update st.sccs r2 st.cnt } (fun x hx => hL x (by simp [hx])) r1).pre (Imp.of_eq ?_)
      have e : (tnA tn n { st with on := Function.update st.on r2 false } : HProp K) =
        tnA tn n { st with
          stack := L
          on := Function.update st.on r2 false
          sccs := Function.update st.sccs r2 st.cnt } := rfl
      rw [e]
      ac_rfl

/-- the loop over the successors -/
theorem triple_succLoop {G : HProp K} {p pb : Ptr} {l : List (Nat × Nat × K)} (hG : HasSaps G p l) (tn sc n : Nat)
    (d : Nat → Nat) (bad : Treap Nat) (fuel : Nat) (hb : bad.toList.length ≤ fuel) (hl : ∀ t ∈ l, t.1 < n) (v : Nat)
    (hv : v < n) (rec : Nat → Graph.TState → Graph.TState) (recM : Nat → Ret → M K Ret) (ok : Graph.TState → Prop)
    (hok : ∀ st st', ok st → SPost n st st' → ok st')
    (hrec : ∀ w st q, w < n → SInv n st → st.idx w = none → ok st →
      SPost n st (rec w st) ∧ (rec w st).idx w ≠ none ∧
      Triple (G ∗ tst tn sc n d st q) (recM w ⟨st.i, st.cnt, q⟩) fun r =>
        lift (r.i = (rec w st).i ∧ r.cnt = (rec w st).cnt) ∗ G ∗ tst tn sc n d (rec w st) r.st)
    (m j : Nat) (hm : j + m = l.length) (st : Graph.TState) (hi : SInv n st) (hvs : st.idx v ≠ none) (h0 : ok st) (q : Ptr) :
    Triple (G ∗ tr pb bad ∗ tst tn sc n d st q) (succLoop fuel recM p pb tn v m j ⟨st.i, st.cnt, q⟩) fun r =>
      lift (r.i = ((((l.drop j).filter fun t => !bad.mem t.2.1).map Prod.fst).foldl (sstep rec v) st).i ∧
        r.cnt = ((((l.drop j).filter fun t => !bad.mem t.2.1).map Prod.fst).foldl (sstep rec v) st).cnt) ∗
      G ∗ tr pb bad ∗
        tst tn sc n d ((((l.drop j).filter fun t => !bad.mem t.2.1).map Prod.fst).foldl (sstep rec v) st) r.st := by
  induction m generalizing j st q with
  | zero =>
    rw [List.drop_eq_nil_of_le (by omega)]
    exact Triple.pure (Imp.lift_intro ⟨rfl, rfl⟩ Imp.rfl)
  | succ m ih =>
    have hj : j < l.length := by omega
    have hw := hl _ (List.getElem_mem hj)
    unfold succLoop
    refine Triple.loadSap hG.left (List.getElem?_eq_getElem hj) ?_
    refine (triple_inTreap fuel pb bad l[j].2.1 hb).step (G ∗ tst tn sc n d st q) (by sep) fun b => ?_
    rw [star_assoc]
    refine Triple.of_lift fun hb => ?_
    rw [List.drop_eq_getElem_cons hj]
    cases hb' : bad.mem l[j].2.1 with
    | true =>
      rw [if_pos (by rw [hb, hb'])]
      rw [List.filter_cons_of_neg (by simp [hb'])]
      exact (ih (j + 1) (by omega) st hi hvs h0 q).pre (Imp.of_eq (by sep))
    | false =>
      rw [if_neg (by rw [hb, hb']; simp)]
      rw [List.filter_cons_of_pos (by simp [hb']), List.map_cons, List.foldl_cons]
      generalize hwn : l[j].1 = w at *
      refine Triple.loadT (st := st) (has_tnA tn n st).left.right.right hw ?_
      refine Triple.known (v := st.idx w) rfl ?_
      cases hix : st.idx w with
      | none =>
        obtain ⟨hpost, hvis, htr⟩ := hrec w st q hw hi hix h0
        have hvs' : (rec w st).idx v ≠ none := hpost.mono v hvs
        obtain ⟨kv, hkv⟩ := Option.ne_none_iff_exists'.1 hvs'
        obtain ⟨kw, hkw⟩ := Option.ne_none_iff_exists'.1 hvis
        have hss : sstep rec v st w = { rec w st with
          low := Function.update (rec w st).low v (min ((rec w st).low v) ((rec w st).low w)) } := by
          simp only [sstep, hix]
        dsimp only
        refine htr.step (tr pb bad) (by sep) fun r => ?_
        rw [star_assoc]
        refine Triple.of_lift fun hr => ?_
        obtain ⟨ri, rc, rs⟩ := r
        obtain ⟨h1, h2⟩ := hr
        dsimp only at h1 h2
        subst h1 h2
        dsimp only
        refine Triple.loadT (st := rec w st) (has_tnA tn n _).left.right.left hv ?_
        refine Triple.known (v := (rec w st).low v) (by simp [tcell, hkv]) ?_
        refine Triple.loadT (st := rec w st) (has_tnA tn n _).left.right.left hw ?_
        refine Triple.known (v := (rec w st).low w) (by simp [tcell, hkw]) ?_
        refine (triple_storeT tn n (rec w st) (sstep rec v st w) v hv _ (fun x => ?_)).step
          (G ∗ tr pb bad ∗ scA sc n (rec w st).sccs ∗ stk rs (rec w st).stack ∗ junk (leak n d (rec w st)))
          (by unfold tst; sep) fun _ => ?_
        · rw [hss]
          by_cases hx : x = v
          · subst hx; simp [tcell, hkv]
          · simp [tcell, hx]
        have hi' : SPost n st (sstep rec v st w) := sstep_post hi fun _ => hpost
        have := ih (j + 1) (by omega) (sstep rec v st w) hi'.inv (hi'.mono v hvs) (hok _ _ h0 hi') rs
        rw [show (sstep rec v st w).i = (rec w st).i by rw [hss],
          show (sstep rec v st w).cnt = (rec w st).cnt by rw [hss]] at this
        refine this.pre (Imp.of_eq ?_)
        rw [tst, leak_congr (n := n) (d := d) (show (sstep rec v st w).idx = (rec w st).idx by rw [hss]),
          show (sstep rec v st w).sccs = (rec w st).sccs by rw [hss],
          show (sstep rec v st w).stack = (rec w st).stack by rw [hss]]
        ac_rfl
      | some k =>
        dsimp only
        refine Triple.known (v := st.on w) (by simp [tcell, hix]) ?_
        by_cases hon : st.on w = true
        · rw [if_pos hon]
          obtain ⟨kv, hkv⟩ := Option.ne_none_iff_exists'.1 hvs
          have hss : sstep rec v st w = { st with low := Function.update st.low v (min (st.low v) k) } := by
            simp only [sstep, hix, hon, if_true]
          refine Triple.loadT (st := st) (has_tnA tn n _).left.right.right hv ?_
          refine Triple.known (v := st.low v) (by simp [tcell, hkv]) ?_
          refine (triple_storeT tn n st (sstep rec v st w) v hv _ (fun x => ?_)).step
            (G ∗ tr pb bad ∗ scA sc n st.sccs ∗ stk q st.stack ∗ junk (leak n d st))
            (by unfold tst; sep) fun _ => ?_
          · rw [hss]
            by_cases hx : x = v
            · subst hx; simp [tcell, hkv]
            · simp [tcell, hx]
          have hi' : SPost n st (sstep rec v st w) := sstep_post hi fun h => by rw [hix] at h; cases h
          have := ih (j + 1) (by omega) (sstep rec v st w) hi'.inv (hi'.mono v hvs) (hok _ _ h0 hi') q
          rw [show (sstep rec v st w).i = st.i by rw [hss],
            show (sstep rec v st w).cnt = st.cnt by rw [hss]] at this
          refine this.pre (Imp.of_eq ?_)
          rw [tst, leak_congr (n := n) (d := d) (show (sstep rec v st w).idx = st.idx by rw [hss]),
            show (sstep rec v st w).sccs = st.sccs by rw [hss],
            show (sstep rec v st w).stack = st.stack by rw [hss]]
          ac_rfl
        · rw [if_neg hon]
          have hss : sstep rec v st w = st := by simp only [sstep, hix]; rw [if_neg hon]
          rw [hss]
          exact (ih (j + 1) (by omega) st hi hvs h0 q).pre (Imp.of_eq (by sep))

theorem closeNode_idx (v : Nat) (st : Graph.TState) : (Graph.closeNode v st).idx = st.idx := by
  simp only [Graph.closeNode]
  split
  · exact popTo_idx v _ st
  · rfl

theorem strongconnect_vis_self {n : Nat} {adj : Nat → List Nat} (hadj : ∀ x < n, ∀ y ∈ adj x, y < n) (d v : Nat)
    (st : Graph.TState) (hv : v < n) (h : SInv n st) (h0 : st.idx v = none) :
    (Graph.strongconnect adj (d + 1) v st).idx v ≠ none := by
  rw [strongconnect_eq, closeNode_idx]
  refine (fold_post (rec := Graph.strongconnect adj d) v (adj v) (hadj v hv) (strongconnect_SPost hadj d) _
    (h.openNode hv h0)).mono v ?_
  simp [Graph.openNode]

theorem unvis_pos {n : Nat} {st : Graph.TState} {v : Nat} (hv : v < n) (h0 : st.idx v = none) : 0 < unvis n st :=
  Finset.card_pos.2 ⟨v, by simp [hv, h0]⟩

/-- actions of `v` that leave the treap, one entry for each successor outside -/
def badList (g : Graph K) (T : Treap Nat) (v : Nat) : List Nat :=
  ((g.succ v).filter fun t => !T.mem t.1).map fun t => t.2.1

theorem adj_lt {g : Graph K} {n : Nat} (hg : ∀ x < n, ∀ t ∈ g.succ x, t.1 < n) (T : Treap Nat) (h : Nat → Nat → Int) :
    ∀ x < n, ∀ y ∈ g.adj T (h x) x, y < n := by
  intro x hx y hy
  obtain ⟨t, ht, rfl⟩ := List.mem_map.1 hy
  exact hg x hx t (List.mem_filter.1 ht).1

theorem badList_length (g : Graph K) (T : Treap Nat) (v : Nat) : (badList g T v).length ≤ (g.succ v).length := by
  rw [badList, List.length_map]; exact List.length_filter_le _ _

theorem triple_strongconnect (base : Nat) (pp sp : Nat → Ptr) (g : Graph K) (hg : ∀ x < g.n, ∀ t ∈ g.succ x, t.1 < g.n)
    (pT : Ptr) (T : Treap Nat) (h : Nat → Nat → Int) (tn sc fuel : Nat) (hT : T.toList.length ≤ fuel)
    (hs : ∀ x < g.n, (g.succ x).length ≤ fuel) (hn : g.n ≤ fuel) (d : Nat) :
    ∀ v st q, v < g.n → SInv g.n st → st.idx v = none → unvis g.n st ≤ d →
      Triple ((grP base pp sp g ∗ tr pT T) ∗ tst tn sc g.n (fun x => lost (badList g T x)) st q)
        (strongconnect fuel ⟨some base, g.n⟩ pT h tn sc d v ⟨st.i, st.cnt, q⟩) fun r =>
        lift (r.i = (Graph.strongconnect (fun v => g.adj T (h v) v) d v st).i ∧
          r.cnt = (Graph.strongconnect (fun v => g.adj T (h v) v) d v st).cnt) ∗ (grP base pp sp g ∗ tr pT T) ∗
          tst tn sc g.n (fun x => lost (badList g T x)) (Graph.strongconnect (fun v => g.adj T (h v) v) d v st) r.st := by
  have hadj := adj_lt hg T h
  induction d with
  | zero =>
    intro v st q hv _ h0 hu
    have := unvis_pos hv h0
    omega
  | succ d ih =>
    intro v st q hv hi h0 hu
    have hio := hi.openNode hv h0
    have huo : unvis g.n (Graph.openNode v st) ≤ d := by
      have := unvis_lt (n := g.n) (st := st) (st' := Graph.openNode v st) (fun x hx => openNode_mono x hx) hv h0
        (by simp [Graph.openNode])
      omega
    unfold strongconnect
    dsimp only
    refine (triple_storeT tn g.n st (Graph.openNode v st) v hv ⟨some (some st.i), some st.i, some true⟩ (fun x => ?_)).step
      ((grP base pp sp g ∗ tr pT T) ∗ scA sc g.n st.sccs ∗ stk q st.stack ∗ junk (leak g.n (fun x => lost (badList g T x)) st))
      (by unfold tst; sep) fun _ => ?_
    · by_cases hx : x = v
      · subst hx; simp [tcell, Graph.openNode]
      · simp [tcell, Graph.openNode, hx]
    refine (triple_push q st.stack v).step ((grP base pp sp g ∗ tr pT T) ∗ tnA tn g.n (Graph.openNode v st) ∗
      scA sc g.n st.sccs ∗ junk (leak g.n (fun x => lost (badList g T x)) st)) (by sep) fun q1 => ?_
    refine Triple.load (has_nodes base pp sp g).left.left.right (nodesL_get pp sp hv) ?_
    dsimp only [nodeOf]
    have hbad := triple_badLoop (pT := pT) (has_succ base pp sp hv) T (h v) fuel hT (hs v hv) (g.succ v).length 0 (by omega) []
      (by simp) none
    rw [List.drop_zero, List.nil_append, mkTreap_nil, tr_none, lost_nodup (by simp), junk_zero, star_emp, star_emp] at hbad
    refine hbad.step (stk q1 (v :: st.stack) ∗ tnA tn g.n (Graph.openNode v st) ∗
      scA sc g.n st.sccs ∗ junk (leak g.n (fun x => lost (badList g T x)) st)) (by sep) fun pb => ?_
    have hjunk : Imp ((grP base pp sp g ∗ tr pT T ∗ tr pb (Graph.mkTreap (h v) (badList g T v)) ∗ junk (lost (badList g T v))) ∗
        stk q1 (v :: st.stack) ∗ tnA tn g.n (Graph.openNode v st) ∗
        scA sc g.n st.sccs ∗ junk (leak g.n (fun x => lost (badList g T x)) st))
        ((grP base pp sp g ∗ tr pT T) ∗ tr pb (Graph.mkTreap (h v) (badList g T v)) ∗
          tst tn sc g.n (fun x => lost (badList g T x)) (Graph.openNode v st) q1) := by
      refine Imp.trans (Imp.of_eq (Q := (grP base pp sp g ∗ tr pT T ∗ tr pb (Graph.mkTreap (h v) (badList g T v)) ∗
        stk q1 (v :: st.stack) ∗ tnA tn g.n (Graph.openNode v st) ∗
        scA sc g.n st.sccs) ∗ (junk (leak g.n (fun x => lost (badList g T x)) st) ∗ junk (lost (badList g T v)))) (by sep))
        ((Imp.star Imp.rfl (junk_add _ _)).trans (Imp.of_eq ?_))
      rw [tst, leak_open hv h0]
      show _ = ((grP base pp sp g ∗ tr pT T) ∗ tr pb (Graph.mkTreap (h v) (badList g T v)) ∗
        tnA tn g.n (Graph.openNode v st) ∗ scA sc g.n st.sccs ∗ stk q1 (v :: st.stack) ∗ _)
      sep
    refine Triple.pre ?_ hjunk
    have hbl : (Graph.mkTreap (h v) (badList g T v)).toList.length ≤ fuel :=
      (mkTreap_length_le _ _).trans ((badList_length g T v).trans (hs v hv))
    have hloop := triple_succLoop (pb := pb) (G := grP base pp sp g ∗ tr pT T) (has_succ base pp sp hv).left tn sc g.n
      (fun x => lost (badList g T x)) (Graph.mkTreap (h v) (badList g T v)) fuel hbl (hg v hv) v hv
      (Graph.strongconnect (fun v => g.adj T (h v) v) d) (strongconnect fuel ⟨some base, g.n⟩ pT h tn sc d)
      (fun st => unvis g.n st ≤ d) (fun a b ha hb => (unvis_mono hb.mono).trans ha)
      (fun w st q hw hi h0 hu => ⟨strongconnect_SPost hadj d w st hw hi h0, by
        obtain ⟨e, rfl⟩ : ∃ e, d = e + 1 := ⟨d - 1, by have := unvis_pos hw h0; omega⟩
        exact strongconnect_vis_self hadj e w st hw hi h0, ih w st q hw hi h0 hu⟩)
      (g.succ v).length 0 (by omega) (Graph.openNode v st) hio (by simp [Graph.openNode]) huo q1
    rw [List.drop_zero] at hloop
    have hF : (((g.succ v).filter fun t => !(Graph.mkTreap (h v) (badList g T v)).mem t.2.1).map Prod.fst) =
      g.adj T (h v) v := rfl
    rw [hF] at hloop
    have hpost := fold_post (rec := Graph.strongconnect (fun v => g.adj T (h v) v) d) v (g.adj T (h v) v) (hadj v hv)
      (strongconnect_SPost hadj d) _ hio
    rw [strongconnect_eq]
    revert hloop hpost
    generalize (g.adj T (h v) v).foldl (sstep (Graph.strongconnect (fun v => g.adj T (h v) v) d) v) (Graph.openNode v st) = S
    intro hloop hpost
    refine hloop.bind fun r => Triple.of_lift fun hr => ?_
    obtain ⟨ri, rc, rs⟩ := r
    obtain ⟨h1, h2⟩ := hr
    dsimp only at h1 h2
    subst h1 h2
    dsimp only
    have hvS : S.idx v ≠ none := hpost.mono v (by simp [Graph.openNode])
    obtain ⟨kv, hkv⟩ := Option.ne_none_iff_exists'.1 hvS
    obtain ⟨X, hX⟩ := hpost.stack
    have hvin : v ∈ S.stack := by rw [hX]; simp [Graph.openNode]
    refine Triple.loadT (st := S) (has_tnA tn g.n S).left.right.right hv ?_
    refine Triple.known (v := S.low v) (by simp [tcell, hkv]) ?_
    refine Triple.known (v := S.idx v) rfl ?_
    unfold Graph.closeNode
    by_cases hroot : some (S.low v) = S.idx v
    · rw [if_pos hroot, if_pos hroot]
      refine (triple_popLoop tn sc g.n v S.stack hvin fuel (hpost.inv.length.trans hn) S
        (fun x hx => ⟨hpost.inv.lt x hx, hpost.inv.vis x hx⟩) rs).step
        ((grP base pp sp g ∗ tr pT T) ∗ tr pb (Graph.mkTreap (h v) (badList g T v)) ∗
          junk (leak g.n (fun x => lost (badList g T x)) S)) (by unfold tst; sep) fun q2 => ?_
      refine (triple_freeTreap fuel pb _ hbl).step ((grP base pp sp g ∗ tr pT T) ∗
        junk (leak g.n (fun x => lost (badList g T x)) S) ∗ tnA tn g.n (Graph.popTo v S.stack S) ∗
        scA sc g.n (Graph.popTo v S.stack S).sccs ∗ stk q2 (Graph.popTo v S.stack S).stack) (by sep) fun _ => ?_
      rw [emp_star]
      refine Triple.pure (Imp.lift_intro ⟨?_, ?_⟩ (Imp.of_eq ?_))
      · dsimp only; rw [popTo_i]
      · dsimp only; rw [popTo_cnt]
      · unfold tst
        dsimp only
        rw [leak_congr (n := g.n) (st := { Graph.popTo v S.stack S with cnt := (Graph.popTo v S.stack S).cnt + 1 }) (st' := S)
          (popTo_idx v _ S)]
        have e : (tnA tn g.n (Graph.popTo v S.stack S) : HProp K) =
          tnA tn g.n { Graph.popTo v S.stack S with cnt := (Graph.popTo v S.stack S).cnt + 1 } := rfl
        rw [e]
        ac_rfl
    · rw [if_neg hroot, if_neg hroot]
      refine (triple_freeTreap fuel pb _ hbl).step ((grP base pp sp g ∗ tr pT T) ∗
        tst tn sc g.n (fun x => lost (badList g T x)) S rs) (by sep) fun _ => ?_
      rw [emp_star]
      exact Triple.pure (Imp.lift_intro ⟨rfl, rfl⟩ Imp.rfl)

end Verif.Proofs.Sep
