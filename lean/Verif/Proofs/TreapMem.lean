import Verif.Model.TreapMem
import Verif.Model.Treap
import Verif.Proofs.Sep
/-!
# Treaps and stacks in memory

The pointer code of treaps.pyx and stack.pyx computes the functions of `Model/Treap`, without undefined operations; the
blocks it loses are counted.
-/

namespace Verif.Proofs.Sep
open Verif.Model Verif.Model.Mem

variable {K α β : Type}

theorem ex_star' {ι : Type} (P : ι → HProp K) (F : HProp K) : (F ∗ ex P) = ex fun i => F ∗ P i := by
  rw [star_comm, ex_star]
  congr 1
  funext i
  rw [star_comm]

/-- the pointer `p` is the root of the treap `t`, which uses the memory alone -/
def tr : Ptr → Treap Nat → HProp K
  | p, .nil => lift (p = none)
  | p, .node k h n l r => ex fun a => ex fun pl => ex fun pr =>
      lift (p = some a) ∗ pts a (.tnode k h n pl pr) ∗ tr pl l ∗ tr pr r

theorem tr_none : (tr none .nil : HProp K) = emp := lift_of rfl

theorem Triple.tr_nil {p : Ptr} {R : HProp K} {c : M K α} {Q : α → HProp K} (h : p = none → Triple R c Q) :
    Triple (tr p .nil ∗ R) c Q := Triple.of_lift h

theorem Triple.tr_node {p : Ptr} {k n : Nat} {hk : Int} {l r : Treap Nat} {R : HProp K} {c : M K α} {Q : α → HProp K}
    (h : ∀ a pl pr, p = some a → Triple (pts a (.tnode k hk n pl pr) ∗ tr pl l ∗ tr pr r ∗ R) c Q) :
    Triple (tr p (.node k hk n l r) ∗ R) c Q := by
  simp only [tr, ex_star, star_assoc]
  exact Triple.of_ex fun a => Triple.of_ex fun pl => Triple.of_ex fun pr => Triple.of_lift fun hp => h a pl pr hp

theorem imp_tr_node {a k n : Nat} {hk : Int} {pl pr : Ptr} {l r : Treap Nat} :
    Imp (pts a (.tnode k hk n pl pr) ∗ tr pl l ∗ tr pr r : HProp K) (tr (some a) (.node k hk n l r)) := by
  simp only [tr]
  exact Imp.ex_intro a (Imp.ex_intro pl (Imp.ex_intro pr (Imp.lift_intro rfl Imp.rfl)))

theorem Triple.readT {P : HProp K} {a k n : Nat} {hk : Int} {l r : Ptr} {f : TN → M K β} {Q : β → HProp K}
    (h : Has P a (.tnode k hk n l r)) (h' : Triple P (f ⟨k, hk, n, l, r⟩) Q) :
    Triple P (Mem.readT (some a) >>= f) Q := by
  have : Triple P (Mem.readT (some a)) fun t => lift (t = ⟨k, hk, n, l, r⟩) ∗ P := by
    unfold Mem.readT
    refine Triple.read h ?_
    exact Triple.pure (Imp.lift_intro rfl Imp.rfl)
  exact this.bind fun t => Triple.of_lift fun ht => by subst ht; exact h'

theorem triple_writeT (a : Nat) (b : Block K) (t : TN) :
    Triple (pts a b) (writeT (some a) t) fun _ => pts a (.tnode t.key t.heap t.size t.left t.right) :=
  triple_write _ _ _

/-- the assertion is as it should be, up to order -/
macro "sep" : tactic => `(tactic| ((try dsimp only) <;> first | rfl | ac_rfl))

theorem triple_sizeT (p : Ptr) (t : Treap Nat) :
    Triple (tr p t : HProp K) (sizeT p) fun r => lift (r = t.size) ∗ tr p t := by
  rw [← star_emp (tr p t)]
  cases t with
  | nil =>
    refine Triple.tr_nil fun hp => ?_
    subst hp
    refine Triple.pure ?_
    rw [tr_none]
    exact Imp.lift_intro rfl (Imp.of_eq (star_emp _).symm)
  | node k hk n l r =>
    refine Triple.tr_node fun a pl pr hp => ?_
    subst hp
    unfold sizeT
    refine Triple.readT (by has) ?_
    refine Triple.pure (Imp.lift_intro rfl ?_)
    rw [star_emp, star_emp]
    exact imp_tr_node

theorem triple_updateSize (a k n : Nat) (hk : Int) (pl pr : Ptr) (l r : Treap Nat) :
    Triple (pts a (.tnode k hk n pl pr) ∗ tr pl l ∗ tr pr r : HProp K) (updateSize (some a)) fun _ =>
      tr (some a) (Treap.mkNode k hk l r) := by
  unfold updateSize
  refine Triple.readT (by has) ?_
  refine (triple_sizeT pr r).step (pts a (.tnode k hk n pl pr) ∗ tr pl l) (by sep) fun s => ?_
  rw [star_assoc]
  refine Triple.of_lift fun hs => ?_
  refine (triple_sizeT pl l).step (pts a (.tnode k hk n pl pr) ∗ tr pr r) (by sep) fun s' => ?_
  rw [star_assoc]
  refine Triple.of_lift fun hs' => ?_
  subst hs; subst hs'
  refine (triple_writeT a _ _).last (tr pl l ∗ tr pr r) (by sep) fun _ => ?_
  exact imp_tr_node

theorem triple_inTreap (fuel : Nat) (p : Ptr) (t : Treap Nat) (x : Nat) (hf : t.toList.length ≤ fuel) :
    Triple (tr p t : HProp K) (inTreap fuel p x) fun r => lift (r = t.mem x) ∗ tr p t := by
  induction fuel generalizing p t with
  | zero =>
    cases t with
    | nil =>
      rw [← star_emp (tr p .nil)]
      refine Triple.tr_nil fun hp => ?_
      subst hp
      unfold inTreap
      refine Triple.pure ?_
      rw [tr_none]
      exact Imp.lift_intro rfl (Imp.of_eq (star_emp _).symm)
    | node k hk n l r => simp [Treap.toList] at hf
  | succ fuel ih =>
    cases t with
    | nil =>
      rw [← star_emp (tr p .nil)]
      refine Triple.tr_nil fun hp => ?_
      subst hp
      unfold inTreap
      refine Triple.pure ?_
      rw [tr_none]
      exact Imp.lift_intro rfl (Imp.of_eq (star_emp _).symm)
    | node k hk n l r =>
      simp only [Treap.toList, List.length_cons, List.length_append] at hf
      rw [← star_emp (tr p (.node k hk n l r))]
      refine Triple.tr_node fun a pl pr hp => ?_
      subst hp
      unfold inTreap
      refine Triple.readT (by has) ?_
      simp only [Treap.mem, star_emp]
      split
      · exact Triple.pure (Imp.lift_intro rfl imp_tr_node)
      · split
        · refine (ih pl l (by omega)).last (pts a (.tnode k hk n pl pr) ∗ tr pr r) (by sep) fun b => ?_
          rw [star_assoc]
          refine Imp.of_lift fun hb => Imp.lift_intro hb ?_
          exact (Imp.of_eq (by sep)).trans imp_tr_node
        · refine (ih pr r (by omega)).last (pts a (.tnode k hk n pl pr) ∗ tr pl l) (by sep) fun b => ?_
          rw [star_assoc]
          refine Imp.of_lift fun hb => Imp.lift_intro hb ?_
          exact (Imp.of_eq (by sep)).trans imp_tr_node

/-- 1 if the key is there -/
def hit (b : Bool) : Nat := if b then 1 else 0

theorem triple_splitTreap (fuel : Nat) (p : Ptr) (t : Treap Nat) (x : Nat) (hf : t.toList.length ≤ fuel) :
    Triple (tr p t : HProp K) (splitTreap fuel p x) fun r =>
      tr r.1 (t.split x).1 ∗ tr r.2 (t.split x).2 ∗ junk (hit (t.mem x)) := by
  have hnil : ∀ p fuel, Triple (tr p .nil : HProp K) (splitTreap fuel p x) fun r =>
      tr r.1 (Treap.split .nil x).1 ∗ tr r.2 (Treap.split .nil x).2 ∗ junk (hit (Treap.mem .nil x)) := by
    intro p fuel
    rw [← star_emp (tr p .nil)]
    refine Triple.tr_nil fun hp => ?_
    subst hp
    have : splitTreap fuel none x = (Pure.pure (none, none) : M K (Ptr × Ptr)) := by
      cases fuel <;> rfl
    rw [this]
    refine Triple.pure ?_
    simp only [Treap.split, Treap.mem, hit, Bool.false_eq_true, if_false, junk_zero, tr_none, emp_star]
    exact Imp.rfl
  induction fuel generalizing p t with
  | zero =>
    cases t with
    | nil => exact hnil p 0
    | node k hk n l r => simp [Treap.toList] at hf
  | succ fuel ih =>
    cases t with
    | nil => exact hnil p _
    | node k hk n l r =>
      simp only [Treap.toList, List.length_cons, List.length_append] at hf
      rw [← star_emp (tr p (.node k hk n l r))]
      refine Triple.tr_node fun a pl pr hp => ?_
      subst hp
      unfold splitTreap
      refine Triple.readT (by has) ?_
      simp only [Treap.mem, Treap.split, star_emp]
      split
      · refine Triple.pure ?_
        refine (Imp.star (junk_pts a _) Imp.rfl).trans (Imp.of_eq ?_)
        simp only [hit, if_true]
        sep
      · split
        · refine (ih pl l (by omega)).step (pts a (.tnode k hk n pl pr) ∗ tr pr r) (by sep) fun q => ?_
          simp only [star_assoc]
          refine Triple.readT (by has) ?_
          refine (triple_writeT a _ _).step (tr q.1 (l.split x).1 ∗ tr q.2 (l.split x).2 ∗ junk (hit (l.mem x)) ∗ tr pr r)
            (by sep) fun _ => ?_
          refine (triple_updateSize a k n hk q.2 pr (l.split x).2 r).step
            (tr q.1 (l.split x).1 ∗ junk (hit (l.mem x))) (by sep) fun _ => ?_
          exact Triple.pure (Imp.of_eq (by sep))
        · refine (ih pr r (by omega)).step (pts a (.tnode k hk n pl pr) ∗ tr pl l) (by sep) fun q => ?_
          simp only [star_assoc]
          refine Triple.readT (by has) ?_
          refine (triple_writeT a _ _).step (tr q.1 (r.split x).1 ∗ tr q.2 (r.split x).2 ∗ junk (hit (r.mem x)) ∗ tr pl l)
            (by sep) fun _ => ?_
          refine (triple_updateSize a k n hk pl q.1 l (r.split x).1).step
            (tr q.2 (r.split x).2 ∗ junk (hit (r.mem x))) (by sep) fun _ => ?_
          exact Triple.pure (Imp.of_eq (by sep))

theorem tr_some_nil {a : Nat} {R : HProp K} {h : Part K} (hh : (tr (some a) .nil ∗ R) h) : False := by
  have := (lift_star.1 hh).1
  cases this

theorem triple_insertT (fuel : Nat) (p : Ptr) (t : Treap Nat) (x : Nat) (hx : Int) (new : Nat)
    (hf : t.toList.length ≤ fuel) :
    Triple (tr p t ∗ pts new (.tnode x hx 1 none none) : HProp K) (insertT fuel p new) fun q =>
      tr q (t.insert x hx) ∗ junk (hit (t.mem x)) := by
  have hnil : ∀ p fuel, Triple (tr p .nil ∗ pts new (.tnode x hx 1 none none) : HProp K) (insertT fuel p new) fun q =>
      tr q (Treap.insert .nil x hx) ∗ junk (hit (Treap.mem .nil x)) := by
    intro p fuel
    refine Triple.tr_nil fun hp => ?_
    subst hp
    have : insertT fuel none new = (Pure.pure (some new) : M K Ptr) := by cases fuel <;> rfl
    rw [this]
    refine Triple.pure ?_
    simp only [Treap.insert, Treap.mem, hit, Bool.false_eq_true, if_false, junk_zero, star_emp]
    refine Imp.trans (Imp.of_eq ?_) (imp_tr_node (pl := none) (pr := none))
    simp only [tr_none, star_emp]
  induction fuel generalizing p t with
  | zero =>
    cases t with
    | nil => exact hnil p 0
    | node k hk n l r => simp [Treap.toList] at hf
  | succ fuel ih =>
    cases t with
    | nil => exact hnil p _
    | node k hk n l r =>
      have hf' := hf
      simp only [Treap.toList, List.length_cons, List.length_append] at hf
      refine Triple.tr_node fun a pl pr hp => ?_
      subst hp
      unfold insertT
      refine Triple.readT (by has) ?_
      refine Triple.readT (by has) ?_
      simp only [Treap.mem, Treap.insert]
      by_cases hkx : k = x
      · rw [if_pos hkx, if_pos hkx, if_pos hkx.symm]
        refine Triple.pure ?_
        refine Imp.trans (Imp.of_eq ?_) (Imp.star (imp_tr_node (pl := pl) (pr := pr)) (junk_pts new (.tnode x hx 1 none none)))
        sep
      · rw [if_neg hkx, if_neg hkx, if_neg (Ne.symm hkx)]
        by_cases hh : hk > hx
        · rw [if_pos hh, if_pos hh]
          by_cases hlt : k > x
          · rw [if_pos hlt, if_pos hlt, if_pos hlt]
            refine (ih pl l (by omega)).step (pts a (.tnode k hk n pl pr) ∗ tr pr r) (by sep) fun q => ?_
            simp only [star_assoc]
            refine Triple.readT (by has) ?_
            refine (triple_writeT a _ _).step (tr q (l.insert x hx) ∗ junk (hit (l.mem x)) ∗ tr pr r) (by sep) fun _ => ?_
            refine (triple_updateSize a k n hk q pr (l.insert x hx) r).step (junk (hit (l.mem x))) (by sep) fun _ => ?_
            exact Triple.pure (Imp.of_eq (by sep))
          · rw [if_neg hlt, if_neg hlt, if_neg hlt]
            refine (ih pr r (by omega)).step (pts a (.tnode k hk n pl pr) ∗ tr pl l) (by sep) fun q => ?_
            simp only [star_assoc]
            refine Triple.readT (by has) ?_
            refine (triple_writeT a _ _).step (tr q (r.insert x hx) ∗ junk (hit (r.mem x)) ∗ tr pl l) (by sep) fun _ => ?_
            refine (triple_updateSize a k n hk pl q l (r.insert x hx)).step (junk (hit (r.mem x))) (by sep) fun _ => ?_
            exact Triple.pure (Imp.of_eq (by sep))
        · rw [if_neg hh, if_neg hh]
          have hs := triple_splitTreap (K := K) (fuel + 1) (some a) (.node k hk n l r) x hf'
          refine Triple.step (hs.pre imp_tr_node) (pts new (.tnode x hx 1 none none)) (by sep) fun q => ?_
          have hm : Treap.mem (.node k hk n l r) x = if x < k then l.mem x else r.mem x := by
            rw [Treap.mem, if_neg (Ne.symm hkx)]
          rw [hm]
          generalize Treap.split (.node k hk n l r) x = sp
          simp only [star_assoc]
          refine Triple.readT (by has) ?_
          refine (triple_writeT new _ _).step
            (tr q.1 sp.1 ∗ tr q.2 sp.2 ∗ junk (hit (if x < k then l.mem x else r.mem x))) (by sep) fun _ => ?_
          refine Triple.readT (by has) ?_
          refine (triple_writeT new _ _).step
            (tr q.1 sp.1 ∗ tr q.2 sp.2 ∗ junk (hit (if x < k then l.mem x else r.mem x))) (by sep) fun _ => ?_
          refine (triple_updateSize new x 1 hx q.1 q.2 sp.1 sp.2).step
            (junk (hit (if x < k then l.mem x else r.mem x))) (by sep) fun _ => ?_
          exact Triple.pure Imp.rfl

/-- a key that is there already costs a block -/
theorem triple_addToTreap (fuel : Nat) (p : Ptr) (t : Treap Nat) (x : Nat) (hx : Int) (hf : t.toList.length ≤ fuel) :
    Triple (tr p t : HProp K) (addToTreap fuel p x hx) fun q => tr q (t.insert x hx) ∗ junk (hit (t.mem x)) := by
  unfold addToTreap
  refine Triple.alloc fun new => ?_
  rw [star_comm]
  exact triple_insertT fuel p t x hx new hf

theorem triple_freeTreap (fuel : Nat) (p : Ptr) (t : Treap Nat) (hf : t.toList.length ≤ fuel) :
    Triple (tr p t : HProp K) (freeTreap fuel p) fun _ => emp := by
  have hnil : ∀ p fuel, Triple (tr p .nil : HProp K) (freeTreap fuel p) fun _ => emp := by
    intro p fuel
    rw [← star_emp (tr p .nil)]
    refine Triple.tr_nil fun hp => ?_
    subst hp
    have : freeTreap fuel none = (Pure.pure () : M K Unit) := by cases fuel <;> rfl
    rw [this]
    exact Triple.pure Imp.rfl
  induction fuel generalizing p t with
  | zero =>
    cases t with
    | nil => exact hnil p 0
    | node k hk n l r => simp [Treap.toList] at hf
  | succ fuel ih =>
    cases t with
    | nil => exact hnil p _
    | node k hk n l r =>
      simp only [Treap.toList, List.length_cons, List.length_append] at hf
      rw [← star_emp (tr p (.node k hk n l r))]
      refine Triple.tr_node fun a pl pr hp => ?_
      subst hp
      unfold freeTreap
      refine Triple.readT (by has) ?_
      rw [star_emp]
      refine (ih pl l (by omega)).step (pts a (.tnode k hk n pl pr) ∗ tr pr r) (by sep) fun _ => ?_
      rw [emp_star]
      refine Triple.readT (by has) ?_
      refine (ih pr r (by omega)).step (pts a (.tnode k hk n pl pr)) (by sep) fun _ => ?_
      rw [emp_star]
      exact triple_free _ _

/-- entries written one after the other from number `i` on -/
def put {γ : Type} (l : List (Option γ)) (i : Nat) : List γ → List (Option γ)
  | [] => l
  | x :: xs => put (l.set i (some x)) (i + 1) xs

theorem put_length {γ : Type} (l : List (Option γ)) (i : Nat) (xs : List γ) : (put l i xs).length = l.length := by
  induction xs generalizing l i with
  | nil => rfl
  | cons x xs ih => rw [put, ih, List.length_set]

theorem put_append {γ : Type} (l : List (Option γ)) (i : Nat) (xs ys : List γ) :
    put l i (xs ++ ys) = put (put l i xs) (i + xs.length) ys := by
  induction xs generalizing l i with
  | nil => rfl
  | cons x xs ih =>
    rw [List.cons_append, put, ih, put, List.length_cons]
    congr 1
    omega

theorem put_get {γ : Type} (l : List (Option γ)) (i : Nat) (xs : List γ) (j : Nat) (h : i + xs.length ≤ l.length) :
    (put l i xs)[j]? = if i ≤ j ∧ j < i + xs.length then (xs[j - i]?).map some else l[j]? := by
  induction xs generalizing l i with
  | nil => rw [put, if_neg (by simp only [List.length_nil]; omega)]
  | cons x xs ih =>
    simp only [List.length_cons] at h ⊢
    rw [put, ih _ _ (by rw [List.length_set]; omega)]
    by_cases hj : i + 1 ≤ j ∧ j < i + 1 + xs.length
    · rw [if_pos hj, if_pos (by omega)]
      have : j - i = (j - (i + 1)) + 1 := by omega
      rw [this, List.getElem?_cons_succ]
    · rw [if_neg hj]
      by_cases hij : i = j
      · subst hij
        rw [if_pos (by omega), List.getElem?_set_self (by omega)]
        simp
      · rw [if_neg (by omega), List.getElem?_set_ne hij]

theorem put_all {γ : Type} (xs : List γ) (n : Nat) (h : xs.length = n) :
    put (List.replicate n none) 0 xs = xs.map some := by
  apply List.ext_getElem?
  intro j
  rw [put_get _ _ _ _ (by rw [List.length_replicate]; omega)]
  by_cases hj : j < xs.length
  · rw [if_pos (by omega)]; simp
  · rw [if_neg (by omega), List.getElem?_replicate, if_neg (by omega)]
    symm
    rw [List.getElem?_eq_none]
    rw [List.length_map]; omega

theorem triple_fillArray (fuel : Nat) (p : Ptr) (t : Treap Nat) (arr idx : Nat) (l : List (Option Nat))
    (hf : t.toList.length ≤ fuel) (hl : idx + t.toList.length ≤ l.length) :
    Triple (tr p t ∗ pts arr (intA.blk l) : HProp K) (fillArray fuel p arr idx) fun r =>
      lift (r = idx + t.toList.length) ∗ tr p t ∗ pts arr (intA.blk (put l idx t.toList)) := by
  have hnil : ∀ p fuel idx l, Triple (tr p .nil ∗ pts arr (intA.blk l) : HProp K) (fillArray fuel p arr idx) fun r =>
      lift (r = idx + (Treap.toList (.nil : Treap Nat)).length) ∗ tr p .nil ∗
        pts arr (intA.blk (put l idx (Treap.toList (.nil : Treap Nat)))) := by
    intro p fuel idx l
    refine Triple.tr_nil fun hp => ?_
    subst hp
    have : fillArray fuel none arr idx = (Pure.pure idx : M K Nat) := by cases fuel <;> rfl
    rw [this]
    refine Triple.pure (Imp.lift_intro (by simp [Treap.toList]) ?_)
    rw [tr_none, emp_star]
    exact Imp.rfl
  induction fuel generalizing p t idx l with
  | zero =>
    cases t with
    | nil => exact hnil p 0 idx l
    | node k hk n l r => simp [Treap.toList] at hf
  | succ fuel ih =>
    cases t with
    | nil => exact hnil p _ idx l
    | node k hk n tl r =>
      simp only [Treap.toList, List.length_cons, List.length_append] at hf hl ⊢
      refine Triple.tr_node fun a pl pr hp => ?_
      subst hp
      unfold fillArray
      refine Triple.readT (by has) ?_
      refine (triple_store (A := intA) (a := arr) (i := idx) (l := l) k (by omega)).step
        (pts a (.tnode k hk n pl pr) ∗ tr pl tl ∗ tr pr r) (by sep) fun _ => ?_
      refine (ih pl tl (idx + 1) (l.set idx (some k)) (by omega) (by rw [List.length_set]; omega)).step
        (pts a (.tnode k hk n pl pr) ∗ tr pr r) (by sep) fun q => ?_
      simp only [star_assoc]
      refine Triple.of_lift fun hq => ?_
      subst hq
      refine Triple.readT (by has) ?_
      refine (ih pr r (idx + 1 + tl.toList.length) (put (l.set idx (some k)) (idx + 1) tl.toList) (by omega) (by rw [put_length, List.length_set]; omega)).last
        (pts a (.tnode k hk n pl pr) ∗ tr pl tl) (by sep) fun q => ?_
      rw [star_assoc]
      refine Imp.of_lift fun hq => Imp.lift_intro (by omega) ?_
      rw [put, put_append]
      refine Imp.trans (Imp.of_eq ?_) (Imp.star (imp_tr_node (pl := pl) (pr := pr) (l := tl) (r := r)) Imp.rfl)
      sep

/-! ### Stacks -/

/-- the pointer is the top of a stack with these entries -/
def stk : Ptr → List Nat → HProp K
  | p, [] => lift (p = none)
  | p, x :: l => ex fun a => ex fun b => lift (p = some a) ∗ pts a (.cell x b) ∗ stk b l

theorem stk_none : (stk none [] : HProp K) = emp := lift_of rfl

theorem Triple.stk_nil {p : Ptr} {R : HProp K} {c : M K α} {Q : α → HProp K} (h : p = none → Triple R c Q) :
    Triple (stk p [] ∗ R) c Q := Triple.of_lift h

theorem Triple.stk_cons {p : Ptr} {x : Nat} {l : List Nat} {R : HProp K} {c : M K α} {Q : α → HProp K}
    (h : ∀ a b, p = some a → Triple (pts a (.cell x b) ∗ stk b l ∗ R) c Q) : Triple (stk p (x :: l) ∗ R) c Q := by
  simp only [stk, ex_star, star_assoc]
  exact Triple.of_ex fun a => Triple.of_ex fun b => Triple.of_lift fun hp => h a b hp

theorem triple_push (p : Ptr) (l : List Nat) (x : Nat) :
    Triple (stk p l : HProp K) (push p x) fun q => stk q (x :: l) := by
  unfold push
  refine Triple.alloc fun a => Triple.pure ?_
  simp only [stk]
  exact Imp.ex_intro a (Imp.ex_intro p (Imp.lift_intro rfl Imp.rfl))

theorem triple_pop (p : Ptr) (l : List Nat) (x : Nat) :
    Triple (stk p (x :: l) : HProp K) (pop p) fun q => lift (q.2 = x) ∗ stk q.1 l := by
  rw [← star_emp (stk p (x :: l))]
  refine Triple.stk_cons fun a b hp => ?_
  subst hp
  rw [star_emp]
  unfold pop
  refine Triple.read (by has) ?_
  refine (triple_free a _).step (stk b l) rfl fun _ => ?_
  rw [emp_star]
  exact Triple.pure (Imp.lift_intro rfl Imp.rfl)

theorem triple_freeStack (fuel : Nat) (p : Ptr) (l : List Nat) (hf : l.length ≤ fuel) :
    Triple (stk p l : HProp K) (freeStack fuel p) fun _ => emp := by
  have hnil : ∀ p fuel, Triple (stk p [] : HProp K) (freeStack fuel p) fun _ => emp := by
    intro p fuel
    rw [← star_emp (stk p [])]
    refine Triple.stk_nil fun hp => ?_
    subst hp
    have : freeStack fuel none = (Pure.pure () : M K Unit) := by cases fuel <;> rfl
    rw [this]
    exact Triple.pure Imp.rfl
  induction fuel generalizing p l with
  | zero =>
    cases l with
    | nil => exact hnil p 0
    | cons x l => simp at hf
  | succ fuel ih =>
    cases l with
    | nil => exact hnil p _
    | cons x l =>
      rw [← star_emp (stk p (x :: l))]
      refine Triple.stk_cons fun a b hp => ?_
      subst hp
      rw [star_emp]
      unfold freeStack
      refine Triple.read (by has) ?_
      refine (triple_free a _).step (stk b l) rfl fun _ => ?_
      rw [emp_star]
      exact ih b l (by simpa using hf)

/-- the pointer is the top of a stack with these treaps -/
def tstk : Ptr → List (Treap Nat) → HProp K
  | p, [] => lift (p = none)
  | p, t :: l => ex fun a => ex fun q => ex fun b => lift (p = some a) ∗ pts a (.tcell q b) ∗ tr q t ∗ tstk b l

theorem tstk_none : (tstk none [] : HProp K) = emp := lift_of rfl

theorem Triple.tstk_nil {p : Ptr} {R : HProp K} {c : M K α} {Q : α → HProp K} (h : p = none → Triple R c Q) :
    Triple (tstk p [] ∗ R) c Q := Triple.of_lift h

theorem Triple.tstk_cons {p : Ptr} {t : Treap Nat} {l : List (Treap Nat)} {R : HProp K} {c : M K α} {Q : α → HProp K}
    (h : ∀ a q b, p = some a → Triple (pts a (.tcell q b) ∗ tr q t ∗ tstk b l ∗ R) c Q) :
    Triple (tstk p (t :: l) ∗ R) c Q := by
  simp only [tstk, ex_star, star_assoc]
  exact Triple.of_ex fun a => Triple.of_ex fun q => Triple.of_ex fun b => Triple.of_lift fun hp => h a q b hp

theorem triple_tsPush (p q : Ptr) (l : List (Treap Nat)) (t : Treap Nat) :
    Triple (tstk p l ∗ tr q t : HProp K) (tsPush p q) fun r => tstk r (t :: l) := by
  unfold tsPush
  refine Triple.alloc fun a => Triple.pure ?_
  simp only [tstk]
  exact Imp.ex_intro a (Imp.ex_intro q (Imp.ex_intro p (Imp.lift_intro rfl (Imp.of_eq (by sep)))))

theorem triple_tsPop (p : Ptr) (l : List (Treap Nat)) (t : Treap Nat) :
    Triple (tstk p (t :: l) : HProp K) (tsPop p) fun r => tr r.2 t ∗ tstk r.1 l := by
  rw [← star_emp (tstk p (t :: l))]
  refine Triple.tstk_cons fun a q b hp => ?_
  subst hp
  rw [star_emp]
  unfold tsPop
  refine Triple.read (by has) ?_
  refine (triple_free a _).step (tr q t ∗ tstk b l) rfl fun _ => ?_
  rw [emp_star]
  exact Triple.pure Imp.rfl

theorem triple_freeTStack_none (fuel : Nat) : Triple (tstk none [] : HProp K) (freeTStack fuel none) fun _ => emp := by
  have : freeTStack fuel none = (Pure.pure () : M K Unit) := by cases fuel <;> rfl
  rw [this, tstk_none]
  exact Triple.pure Imp.rfl

end Verif.Proofs.Sep
