import Verif.Proofs.GraphMem
/-!
# `reachable` in memory
-/

namespace Verif.Proofs.Sep
open Verif.Model Verif.Model.Mem

variable {K α β : Type}

/-- an array of `n` truth values -/
def bArr (a n : Nat) (f : Nat → Bool) : HProp K := pts a (intA.blk ((List.range n).map fun i => some (hit (f i))))

theorem has_bArr (a n : Nat) (f : Nat → Bool) :
    Has (bArr a n f : HProp K) a (intA.blk ((List.range n).map fun i => some (hit (f i)))) := Has.pts _ _

theorem triple_storeB (a n : Nat) (f : Nat → Bool) (i : Nat) (hi : i < n) (b : Bool) :
    Triple (bArr a n f : HProp K) (store intA (some a) i (hit b)) fun _ => bArr a n (Function.update f i b) := by
  refine (triple_store (A := intA) (a := a) (i := i) (hit b) (by simpa using hi)).post fun _ => ?_
  rw [map_range_set, bArr]
  refine Imp.of_eq ?_
  congr 3
  funext j
  by_cases hj : j = i
  · subst hj; simp
  · simp [hj]

theorem triple_freeB (a n : Nat) (f : Nat → Bool) : Triple (bArr a n f : HProp K) (free (some a)) fun _ => emp :=
  triple_free _ _

/-- the value of entry `i` is known -/
theorem Triple.loadB {P : HProp K} {a n : Nat} {f : Nat → Bool} {i : Nat} {m : Nat → M K β} {Q : β → HProp K}
    (h : Has P a (intA.blk ((List.range n).map fun i => some (hit (f i))))) (hi : i < n)
    (h' : Triple P (m (hit (f i))) Q) : Triple P (Mem.load intA (some a) i >>= m) Q :=
  Triple.load h (map_range_get (fun i => some (hit (f i))) hi) h'

theorem triple_initMasks (a b c : Nat) (m i : Nat) (l1 l2 l3 : List (Option Nat)) (h1 : i + m ≤ l1.length)
    (h2 : i + m ≤ l2.length) (h3 : i + m ≤ l3.length) :
    Triple (pts a (intA.blk l1) ∗ pts b (intA.blk l2) ∗ pts c (intA.blk l3) : HProp K) (initMasks a b c m i) fun _ =>
      pts a (intA.blk (put l1 i (List.replicate m 0))) ∗ pts b (intA.blk (put l2 i (List.replicate m 0))) ∗
        pts c (intA.blk (put l3 i (List.replicate m 0))) := by
  induction m generalizing i l1 l2 l3 with
  | zero => exact Triple.pure Imp.rfl
  | succ m ih =>
    unfold initMasks
    refine (triple_store (A := intA) (a := a) (i := i) (l := l1) 0 (by omega)).step
      (pts b (intA.blk l2) ∗ pts c (intA.blk l3)) (by sep) fun _ => ?_
    refine (triple_store (A := intA) (a := b) (i := i) (l := l2) 0 (by omega)).step
      (pts a (intA.blk (l1.set i (some 0))) ∗ pts c (intA.blk l3)) (by sep) fun _ => ?_
    refine (triple_store (A := intA) (a := c) (i := i) (l := l3) 0 (by omega)).step
      (pts a (intA.blk (l1.set i (some 0))) ∗ pts b (intA.blk (l2.set i (some 0)))) (by sep) fun _ => ?_
    refine ((ih (i + 1) (l1.set i (some 0)) (l2.set i (some 0)) (l3.set i (some 0)) (by rw [List.length_set]; omega)
      (by rw [List.length_set]; omega) (by rw [List.length_set]; omega)).pre (Imp.of_eq (by sep))).post fun _ => ?_
    exact Imp.rfl

theorem put_zero (n : Nat) : put (List.replicate n none) 0 (List.replicate n 0) =
    (List.range n).map fun _ => some (hit false) := by
  rw [put_all _ n (by simp)]
  apply List.ext_getElem?
  intro j
  by_cases hj : j < n
  · simp [hj, hit]
  · rw [List.getElem?_eq_none (by simp; omega), List.getElem?_eq_none (by simp; omega)]

theorem triple_pushFrom (ins n : Nat) (vs : List Nat) (hv : ∀ v ∈ vs, v < n) (p : Ptr) (st : Graph.RState) :
    Triple (bArr ins n st.instack ∗ stk p st.stack : HProp K) (pushFrom ins (vs.map Int.ofNat) p) fun q =>
      bArr ins n (Graph.initStack vs st).instack ∗ stk q (Graph.initStack vs st).stack := by
  induction vs generalizing p st with
  | nil => exact Triple.pure Imp.rfl
  | cons v vs ih =>
    rw [List.map_cons]
    unfold pushFrom
    refine (triple_storeB ins n st.instack v (hv v (by simp)) true).step _ rfl fun _ => ?_
    refine (triple_push p st.stack v).step (bArr ins n (Function.update st.instack v true)) (by sep) fun q => ?_
    rw [star_comm]
    exact ih (fun v hv' => hv v (by simp [hv'])) q
      { st with stack := v :: st.stack, instack := Function.update st.instack v true }

theorem triple_setBlock (blk n : Nat) (vs : List Nat) (hv : ∀ v ∈ vs, v < n) (f : Nat → Bool) :
    Triple (bArr blk n f : HProp K) (setBlock blk (vs.map Int.ofNat)) fun _ =>
      bArr blk n fun i => f i || decide (i ∈ vs) := by
  induction vs generalizing f with
  | nil => refine Triple.pure (Imp.of_eq ?_); simp
  | cons v vs ih =>
    rw [List.map_cons]
    unfold setBlock
    refine (triple_storeB blk n f v (hv v (by simp)) true).bind fun _ => ?_
    refine (ih (fun v hv' => hv v (by simp [hv'])) _).post fun _ => Imp.of_eq ?_
    congr 1
    funext i
    by_cases hi : i = v
    · subst hi; simp
    · simp [hi]

theorem pushNeighbours_mark (ws : List Nat) (st : Graph.RState) : (Graph.pushNeighbours ws st).mark = st.mark := by
  induction ws generalizing st with
  | nil => rfl
  | cons w ws ih =>
    unfold Graph.pushNeighbours
    split
    · exact ih _
    · exact ih _

theorem pushNeighbours_lt {n : Nat} (ws : List Nat) (st : Graph.RState) (hw : ∀ w ∈ ws, w < n)
    (hs : ∀ x ∈ st.stack, x < n) : ∀ x ∈ (Graph.pushNeighbours ws st).stack, x < n := by
  induction ws generalizing st with
  | nil => exact hs
  | cons w ws ih =>
    unfold Graph.pushNeighbours
    split
    · refine ih _ (fun x hx => hw x (by simp [hx])) fun x hx => ?_
      rcases List.mem_cons.1 hx with rfl | hx
      · exact hw x (by simp)
      · exact hs x hx
    · exact ih _ (fun x hx => hw x (by simp [hx])) hs

theorem hit_eq_zero (b : Bool) : hit b = 0 ↔ b = false := by cases b <;> simp [hit]

theorem triple_pushNbrs {P : HProp K} {p : Ptr} {l : List (Nat × Nat × K)} (h : HasSaps P p l) (mask ins n : Nat)
    (hl : ∀ t ∈ l, t.1 < n) (m j : Nat) (hm : j + m = l.length) (q : Ptr) (st : Graph.RState) :
    Triple (P ∗ bArr mask n st.mark ∗ bArr ins n st.instack ∗ stk q st.stack) (pushNbrs mask ins p m j q) fun r =>
      P ∗ bArr mask n st.mark ∗ bArr ins n (Graph.pushNeighbours ((l.drop j).map Prod.fst) st).instack ∗
        stk r (Graph.pushNeighbours ((l.drop j).map Prod.fst) st).stack := by
  induction m generalizing j q st with
  | zero =>
    rw [List.drop_eq_nil_of_le (by omega)]
    exact Triple.pure Imp.rfl
  | succ m ih =>
    have hj : j < l.length := by omega
    have ht := hl _ (List.getElem_mem hj)
    unfold pushNbrs
    refine Triple.loadSap h.left (List.getElem?_eq_getElem hj) ?_
    rw [List.drop_eq_getElem_cons hj, List.map_cons]
    refine Triple.loadB (f := st.mark) (has_bArr mask n st.mark).left.right ht ?_
    simp only [Graph.pushNeighbours, hit_eq_zero]
    by_cases h1 : st.mark l[j].1 = false
    · rw [if_pos h1]
      refine Triple.loadB (f := st.instack) (has_bArr ins n st.instack).left.right.right ht ?_
      by_cases h2 : st.instack l[j].1 = false
      · rw [if_pos ((hit_eq_zero _).2 h2), if_pos (by simp [h1, h2])]
        refine (triple_storeB ins n st.instack l[j].1 ht true).step
          (P ∗ bArr mask n st.mark ∗ stk q st.stack) (by sep) fun _ => ?_
        refine (triple_push q st.stack l[j].1).step
          (P ∗ bArr mask n st.mark ∗ bArr ins n (Function.update st.instack l[j].1 true)) (by sep) fun r => ?_
        refine (ih (j + 1) (by omega) r { st with
          stack := l[j].1 :: st.stack
          instack := Function.update st.instack l[j].1 true }).pre (Imp.of_eq (by sep))
      · rw [if_neg (by rw [hit_eq_zero]; exact h2), if_neg (by simp [h2])]
        exact ih (j + 1) (by omega) q st
    · rw [if_neg h1, if_neg (by simp [h1])]
      exact ih (j + 1) (by omega) q st

theorem triple_reachLoop (a : Nat) (pp sp : Nat → Ptr) (g : Graph K) (fwd : Bool) (mask ins blk : Nat)
    (block : Nat → Bool) (hn : ∀ x < g.n, ∀ t ∈ (if fwd then g.succ x else g.pred x), t.1 < g.n) (fuel : Nat)
    (st : Graph.RState) (hs : ∀ x ∈ st.stack, x < g.n) (mk : Nat → Bool)
    (hr : Graph.reachLoop (fun v => (if fwd then g.succ v else g.pred v).map Prod.fst) block fuel st = some mk) (q : Ptr) :
    Triple (grP a pp sp g ∗ bArr mask g.n st.mark ∗ bArr ins g.n st.instack ∗ bArr blk g.n block ∗ stk q st.stack)
      (reachLoop ⟨some a, g.n⟩ fwd mask ins blk fuel q) fun r =>
      ex fun i => lift (r = none) ∗ grP a pp sp g ∗ bArr mask g.n mk ∗ bArr ins g.n i ∗ bArr blk g.n block := by
  induction fuel generalizing st q with
  | zero =>
    obtain ⟨stack, instack, mark⟩ := st
    cases stack with
    | cons v stack => simp [Graph.reachLoop] at hr
    | nil =>
      simp only [Graph.reachLoop, Option.some.injEq] at hr
      subst hr
      rw [show (grP a pp sp g ∗ bArr mask g.n mark ∗ bArr ins g.n instack ∗ bArr blk g.n block ∗ stk q []) =
        (stk q [] ∗ grP a pp sp g ∗ bArr mask g.n mark ∗ bArr ins g.n instack ∗ bArr blk g.n block) by ac_rfl]
      refine Triple.stk_nil fun hq => ?_
      subst hq
      unfold reachLoop
      exact Triple.pure (Imp.ex_intro instack (Imp.lift_intro rfl Imp.rfl))
  | succ fuel ih =>
    obtain ⟨stack, instack, mark⟩ := st
    cases stack with
    | nil =>
      simp only [Graph.reachLoop, Option.some.injEq] at hr
      subst hr
      rw [show (grP a pp sp g ∗ bArr mask g.n mark ∗ bArr ins g.n instack ∗ bArr blk g.n block ∗ stk q []) =
        (stk q [] ∗ grP a pp sp g ∗ bArr mask g.n mark ∗ bArr ins g.n instack ∗ bArr blk g.n block) by ac_rfl]
      refine Triple.stk_nil fun hq => ?_
      subst hq
      unfold reachLoop
      exact Triple.pure (Imp.ex_intro instack (Imp.lift_intro rfl Imp.rfl))
    | cons v stack =>
      simp only [Graph.reachLoop] at hr
      have hv : v < g.n := hs v (by simp)
      have hs' : ∀ x ∈ stack, x < g.n := fun x hx => hs x (by simp [hx])
      dsimp only
      cases q with
      | none =>
        refine Triple.of_false fun k hk => ?_
        rw [show (grP a pp sp g ∗ bArr mask g.n mark ∗ bArr ins g.n instack ∗ bArr blk g.n block ∗ stk none (v :: stack)) =
          (stk none (v :: stack) ∗ grP a pp sp g ∗ bArr mask g.n mark ∗ bArr ins g.n instack ∗ bArr blk g.n block) by
          ac_rfl] at hk
        simp only [stk, ex_star, star_assoc] at hk
        obtain ⟨a', b', hk⟩ := hk
        have := (lift_star.1 hk).1
        cases this
      | some q =>
        unfold reachLoop
        refine (triple_pop (some q) stack v).step
          (grP a pp sp g ∗ bArr mask g.n mark ∗ bArr ins g.n instack ∗ bArr blk g.n block) (by sep) fun r => ?_
        rw [star_assoc]
        refine Triple.of_lift fun hr2 => ?_
        obtain ⟨r1, r2⟩ := r
        dsimp only at hr2
        subst hr2
        dsimp only
        refine (triple_storeB ins g.n instack r2 hv false).step
          (stk r1 stack ∗ grP a pp sp g ∗ bArr mask g.n mark ∗ bArr blk g.n block) (by sep) fun _ => ?_
        refine (triple_storeB mask g.n mark r2 hv true).step
          (stk r1 stack ∗ grP a pp sp g ∗ bArr ins g.n (Function.update instack r2 false) ∗ bArr blk g.n block) (by sep)
          fun _ => ?_
        refine Triple.loadB (f := block) (has_bArr blk g.n block).right.right.right.right hv ?_
        by_cases hb : block r2 = false
        · rw [if_pos ((hit_eq_zero _).2 hb)]
          rw [if_neg (by simp [hb])] at hr
          refine Triple.load (has_nodes a pp sp g).left.right.right (nodesL_get pp sp hv) ?_
          have key : ∀ (p : Ptr) (l : List (Nat × Nat × K)), HasSaps (grP a pp sp g) p l → (∀ t ∈ l, t.1 < g.n) →
              (if fwd then g.succ r2 else g.pred r2) = l →
              Triple (bArr mask g.n (Function.update mark r2 true) ∗ stk r1 stack ∗ grP a pp sp g ∗
                bArr ins g.n (Function.update instack r2 false) ∗ bArr blk g.n block)
                (pushNbrs mask ins p l.length 0 r1 >>= fun st => reachLoop ⟨some a, g.n⟩ fwd mask ins blk fuel st)
                fun r => ex fun i => lift (r = none) ∗ grP a pp sp g ∗ bArr mask g.n mk ∗ bArr ins g.n i ∗
                  bArr blk g.n block := by
            intro p l hp hl hpl
            refine (triple_pushNbrs hp mask ins g.n hl l.length 0 (by omega) r1
              ⟨stack, Function.update instack r2 false, Function.update mark r2 true⟩).step (bArr blk g.n block)
              (by sep) fun st => ?_
            rw [List.drop_zero]
            rw [hpl] at hr
            refine (ih _ ?_ hr st).pre (Imp.of_eq ?_)
            · refine pushNeighbours_lt _ _ (fun w hw => ?_) hs'
              obtain ⟨t, ht, rfl⟩ := List.mem_map.1 hw
              exact hl t ht
            · rw [pushNeighbours_mark]
              ac_rfl
          have hl := hn r2 hv
          cases fwd with
          | true =>
            rw [if_pos rfl] at *
            exact key (sp r2) (g.succ r2) (has_succ a pp sp hv) hl rfl
          | false =>
            rw [if_neg (by simp)] at *
            exact key (pp r2) (g.pred r2) (has_pred a pp sp hv) hl rfl
        · rw [if_neg (by rw [hit_eq_zero]; exact hb)]
          rw [if_pos (by simpa using hb)] at hr
          exact (ih _ hs' hr r1).pre (Imp.of_eq (by sep))

theorem triple_collect {P : HProp K} {a n : Nat} {f : Nat → Bool}
    (h : Has P a (intA.blk ((List.range n).map fun i => some (hit (f i))))) (m i : Nat) (hm : i + m = n) :
    Triple P (collect a m i) fun r => lift (r = (List.range' i m).map fun j => hit (f j)) ∗ P := by
  induction m generalizing i with
  | zero => exact Triple.pure (Imp.lift_intro rfl Imp.rfl)
  | succ m ih =>
    unfold collect
    refine Triple.loadB (f := f) h (by omega) ?_
    refine (ih (i + 1) (by omega)).bind fun r => Triple.of_lift fun hr => ?_
    refine Triple.pure (Imp.lift_intro ?_ Imp.rfl)
    rw [hr, List.range'_succ, List.map_cons]

/-- more steps do not change the result -/
theorem reachLoop_mono (nbr : Nat → List Nat) (block : Nat → Bool) (n m : Nat) (h : n ≤ m) (st : Graph.RState)
    (mk : Nat → Bool) (hr : Graph.reachLoop nbr block n st = some mk) : Graph.reachLoop nbr block m st = some mk := by
  induction n generalizing m st with
  | zero =>
    obtain ⟨stack, instack, mark⟩ := st
    cases stack with
    | nil => cases m <;> simpa [Graph.reachLoop] using hr
    | cons v stack => simp [Graph.reachLoop] at hr
  | succ n ih =>
    obtain ⟨stack, instack, mark⟩ := st
    obtain ⟨m, rfl⟩ : ∃ k, m = k + 1 := ⟨m - 1, by omega⟩
    cases stack with
    | nil => simpa [Graph.reachLoop] using hr
    | cons v stack =>
      simp only [Graph.reachLoop] at hr ⊢
      exact ih m (by omega) _ hr

/-- the search has a defined result, gives back all its memory and computes `Graph.reachable` -/
theorem triple_reachable (c : GraphC) (g : Graph K) (fwd : Bool) (F B : List Nat) (hF : F ≠ []) (hFn : ∀ x ∈ F, x < g.n)
    (hBn : ∀ x ∈ B, x < g.n) (hn : ∀ x < g.n, ∀ t ∈ (if fwd then g.succ x else g.pred x), t.1 < g.n)
    (mask : List Bool) (hr : g.reachable F fwd B = .ok (some mask)) (fuel : Nat) (hf : g.n ≤ fuel) :
    Triple (gr c g) (reachable fuel c (F.map Int.ofNat) fwd (B.map Int.ofNat)) fun r =>
      lift (r = .ok (mask.map hit)) ∗ gr c g := by
  have hpos : F.length > 0 := List.length_pos_iff.2 hF
  rw [← star_emp (gr c g)]
  refine Triple.gr fun base pp sp hc => ?_
  subst hc
  rw [star_emp, star_emp]
  simp only [Graph.reachable, hpos, if_true] at hr
  cases hm : Graph.reachLoop (fun v => (if fwd then g.succ v else g.pred v).map Prod.fst) (fun v => decide (v ∈ B)) g.n
    (Graph.initStack F ⟨[], fun _ => false, fun _ => false⟩) with
  | none => rw [hm] at hr; simp at hr
  | some mk =>
    rw [hm] at hr
    simp only [Option.map_some, Except.ok.injEq, Option.some.injEq] at hr
    have hm' := reachLoop_mono _ _ g.n fuel hf _ _ hm
    unfold reachable
    rw [if_pos (by simpa using hpos)]
    refine Triple.allocArr fun m => Triple.allocArr fun i => Triple.allocArr fun b => ?_
    refine (triple_initMasks m i b g.n 0 (List.replicate g.n none) (List.replicate g.n none) (List.replicate g.n none)
      (by simp) (by simp) (by simp)).step (grP base pp sp g) (by sep) fun _ => ?_
    rw [put_zero]
    have e : ∀ x, (pts x (intA.blk ((List.range g.n).map fun _ => some (hit false))) : HProp K) =
      bArr x g.n fun _ => false := fun x => rfl
    simp only [e]
    refine (triple_pushFrom i g.n F hFn none ⟨[], fun _ => false, fun _ => false⟩).step
      (bArr m g.n (fun _ => false) ∗ bArr b g.n (fun _ => false) ∗ grP base pp sp g) ?_ fun st => ?_
    · rw [stk_none, star_emp]
      ac_rfl
    refine (triple_setBlock b g.n B hBn fun _ => false).step
      (bArr m g.n (fun _ => false) ∗ grP base pp sp g ∗
        bArr i g.n (Graph.initStack F ⟨[], fun _ => false, fun _ => false⟩).instack ∗
        stk st (Graph.initStack F ⟨[], fun _ => false, fun _ => false⟩).stack) (by sep) fun _ => ?_
    simp only [Bool.false_or]
    have hst := initStack_spec F ⟨[], fun _ => false, fun _ => false⟩
    have hloop := triple_reachLoop base pp sp g fwd m i b (fun v => decide (v ∈ B)) hn fuel
      (Graph.initStack F ⟨[], fun _ => false, fun _ => false⟩)
      (fun x hx => by rw [hst.1] at hx; simp at hx; exact hFn x hx) mk hm' st
    rw [hst.2.2.1] at hloop
    refine (hloop.pre (Imp.of_eq (by sep))).bind fun st' => ?_
    refine Triple.of_ex fun i' => Triple.of_lift fun hs => ?_
    subst hs
    refine (triple_collect (has_bArr m g.n mk).left.right g.n 0 (by omega)).bind fun ret => Triple.of_lift fun hret => ?_
    refine (triple_freeB b g.n fun v => decide (v ∈ B)).step (grP base pp sp g ∗ bArr m g.n mk ∗ bArr i g.n i') (by sep) fun _ => ?_
    rw [emp_star]
    refine (triple_freeB m g.n mk).step (grP base pp sp g ∗ bArr i g.n i') (by sep) fun _ => ?_
    rw [emp_star]
    refine (triple_freeB i g.n i').step (grP base pp sp g) (by sep) fun _ => ?_
    rw [emp_star]
    have : freeStack fuel none = (Pure.pure () : M K Unit) := by cases fuel <;> rfl
    rw [this]
    refine Triple.bind (R := fun _ => grP base pp sp g) (Triple.pure Imp.rfl) fun _ => ?_
    refine Triple.pure (Imp.lift_intro ?_ imp_gr)
    rw [hret, ← hr, List.map_map, List.range_eq_range']
    rfl

end Verif.Proofs.Sep
