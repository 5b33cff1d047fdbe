import Verif.Proofs.MecMem
/-!
# `maximal_end_components` in memory: the flags and the whole method
-/

namespace Verif.Proofs.Sep
open Verif.Model Verif.Model.Mem

variable {K α β : Type}

theorem triple_actLoop {P : HProp K} {p : Ptr} {l : List (Nat × Nat × K)} (hP : HasSaps P p l) (v : Nat)
    (h h' : Nat → Int) (fuel : Nat) (hl : l.length ≤ fuel) (m j : Nat) (hm : j + m = l.length)
    (xs ys : List Nat) (hx : xs.length ≤ j) (hy : ys.length ≤ j) (pa pn : Ptr) :
    Triple (P ∗ (tr pa (Graph.mkTreap h xs) ∗ junk (lost xs)) ∗ tr pn (Graph.mkTreap h' ys) ∗ junk (lost ys))
      (actLoop fuel p v h h' m j xs.length ys.length pa pn) fun r => P ∗
        (tr r.1 (Graph.mkTreap h (xs ++ (l.drop j).map fun t => t.2.1)) ∗ junk (lost (xs ++ (l.drop j).map fun t => t.2.1))) ∗
        tr r.2 (Graph.mkTreap h' (ys ++ ((l.drop j).filter fun t => t.1 ≠ v).map fun t => t.2.1)) ∗
        junk (lost (ys ++ ((l.drop j).filter fun t => t.1 ≠ v).map fun t => t.2.1)) := by
  induction m generalizing j xs ys pa pn with
  | zero =>
    rw [List.drop_eq_nil_of_le (by omega)]
    simp only [List.filter_nil, List.map_nil, List.append_nil]
    exact Triple.pure Imp.rfl
  | succ m ih =>
    have hj : j < l.length := by omega
    unfold actLoop
    refine Triple.loadSap hP.left (List.getElem?_eq_getElem hj) ?_
    refine (triple_addSnoc fuel pa h xs l[j].2.1 (by omega)).step (P ∗ tr pn (Graph.mkTreap h' ys) ∗ junk (lost ys)) (by sep)
      fun pa' => ?_
    rw [List.drop_eq_getElem_cons hj]
    by_cases hv : l[j].1 ≠ v
    · rw [if_pos hv, List.filter_cons_of_pos (by simpa using hv)]
      refine (triple_addSnoc fuel pn h' ys l[j].2.1 (by omega)).step
        (P ∗ tr pa' (Graph.mkTreap h (xs ++ [l[j].2.1])) ∗ junk (lost (xs ++ [l[j].2.1]))) (by sep) fun pn' => ?_
      have := ih (j + 1) (by omega) (xs ++ [l[j].2.1]) (ys ++ [l[j].2.1]) (by simp; omega) (by simp; omega) pa' pn'
      simp only [List.length_append, List.length_singleton] at this
      refine (this.pre (Imp.of_eq (by sep))).post fun r => ?_
      simp only [List.map_cons, List.append_assoc, List.singleton_append]
      exact Imp.rfl
    · rw [if_neg hv, List.filter_cons_of_neg (by simpa using hv)]
      have := ih (j + 1) (by omega) (xs ++ [l[j].2.1]) ys (by simp; omega) (by omega) pa' pn
      simp only [List.length_append, List.length_singleton] at this
      refine (this.pre (Imp.of_eq (by sep))).post fun r => ?_
      simp only [List.map_cons, List.append_assoc, List.singleton_append]
      exact Imp.rfl

theorem triple_actTest (pa pn : Ptr) (A N : Treap Nat) (hAN : A = .nil → N = .nil) :
    Triple (tr pa A ∗ tr pn N : HProp K) (actTest pa pn) fun r =>
      lift (r = true ↔ N = .nil ∨ N.size ≠ A.size) ∗ tr pa A ∗ tr pn N := by
  rw [star_comm (tr pa A)]
  cases N with
  | nil =>
    refine Triple.tr_nil fun hp => ?_
    subst hp
    rw [tr_none, emp_star]
    exact Triple.pure (Imp.lift_intro (by simp) Imp.rfl)
  | node k hk n l r =>
    cases pn with
    | none =>
      refine Triple.of_false fun h hh => ?_
      obtain ⟨f, _, _, _, ⟨a, pl, pr, hx⟩, _⟩ := hh
      have := (lift_star.1 hx).1
      cases this
    | some a =>
      unfold actTest
      refine readT_tr (by simp) fun u hu => ?_
      rw [star_comm]
      refine readT_tr (fun hA => by have := hAN hA; cases this) fun w hw => ?_
      refine Triple.pure (Imp.lift_intro ?_ Imp.rfl)
      rw [hu, hw]
      simp

/-- blocks lost when a state is tested -/
def actLost (g : Graph K) (v : Nat) : Nat :=
  lost ((g.succ v).map fun t => t.2.1) + lost (((g.succ v).filter fun t => t.1 ≠ v).map fun t => t.2.1)

theorem singletonProper_iff (g : Graph K) (ρ : Graph.Rnd) (v : Nat) : g.singletonProper ρ v = true ↔
    Graph.mkTreap (ρ.act' v) (((g.succ v).filter fun t => t.1 ≠ v).map fun t => t.2.1) = .nil ∨
      (Graph.mkTreap (ρ.act' v) (((g.succ v).filter fun t => t.1 ≠ v).map fun t => t.2.1)).size ≠
        (Graph.mkTreap (ρ.act v) ((g.succ v).map fun t => t.2.1)).size := by
  unfold Graph.singletonProper
  dsimp only
  generalize Graph.mkTreap (ρ.act' v) (((g.succ v).filter fun t => t.1 ≠ v).map fun t => t.2.1) = N
  cases N with
  | nil => simp
  | node k hk n l r =>
    show decide (n ≠ _) = true ↔ _
    rw [decide_eq_true_iff]
    constructor
    · exact fun h => Or.inr h
    · rintro (h | h)
      · cases h
      · exact h

/-- the step of the last loop -/
def pstep (g : Graph K) (ρ : Graph.Rnd) (S : List Nat) (ret : Nat → Nat) (pm : Nat → Bool) (v : Nat) : Nat → Bool :=
  if !(Graph.mkTreap ρ.singles S).mem (ret v) then Function.update pm (ret v) true
  else if g.singletonProper ρ v then Function.update pm (ret v) true else pm

theorem junk_of (i j k : Nat) (h : i + j = k) : Imp (junk i ∗ junk j : HProp K) (junk k) := by
  subst h; exact junk_add i j

theorem triple_properLoop (base : Nat) (pp sp : Nat → Ptr) (g : Graph K) (ρ : Graph.Rnd) (fuel : Nat)
    (hs : ∀ x < g.n, (g.succ x).length ≤ fuel) (S : List Nat) (hS : S.length ≤ fuel) (ret : Nat → Nat) (cnt : Nat)
    (hret : ∀ x < g.n, ret x < cnt) (sing : Ptr) (m i : Nat) (hm : i + m = g.n) (pm : Nat → Bool) :
    Triple (grP base pp sp g ∗ tr sing (Graph.mkTreap ρ.singles S))
      (properLoop fuel ⟨some base, g.n⟩ ρ ret cnt sing m i pm) fun r =>
        lift (r = (List.range' i m).foldl (pstep g ρ S ret) pm) ∗ grP base pp sp g ∗ tr sing (Graph.mkTreap ρ.singles S) ∗
          junk ((List.range' i m).map fun v => if ret v ∈ S then actLost g v else 0).sum := by
  induction m generalizing i pm with
  | zero =>
    refine Triple.pure (Imp.lift_intro rfl (Imp.of_eq ?_))
    simp only [List.range', List.map_nil, List.sum_nil, junk_zero, star_emp]
  | succ m ih =>
    have hi : i < g.n := by omega
    unfold properLoop
    refine (triple_inTreap fuel sing _ (ret i) ((mkTreap_length_le _ _).trans hS)).step (grP base pp sp g) (by sep) fun b => ?_
    rw [star_assoc]
    refine Triple.of_lift fun hb => ?_
    rw [List.range'_succ, List.foldl_cons, List.map_cons, List.sum_cons]
    rw [mkTreap_mem] at hb
    by_cases hmem : ret i ∈ S
    · rw [if_neg (by rw [hb]; simpa using hmem), if_pos hmem]
      refine Triple.load (has_nodes base pp sp g).right (nodesL_get pp sp hi) ?_
      dsimp only [nodeOf]
      have hact := triple_actLoop (has_succ base pp sp hi) i (ρ.act i) (ρ.act' i) fuel (hs i hi) (g.succ i).length 0 (by omega)
        [] [] (by simp) (by simp) none none
      simp only [List.drop_zero, List.nil_append, mkTreap_nil, tr_none, lost_nodup List.nodup_nil, junk_zero, star_emp] at hact
      refine hact.step (tr sing (Graph.mkTreap ρ.singles S)) (by sep) fun q => ?_
      have hAN : Graph.mkTreap (ρ.act i) ((g.succ i).map fun t => t.2.1) = .nil →
          Graph.mkTreap (ρ.act' i) (((g.succ i).filter fun t => t.1 ≠ i).map fun t => t.2.1) = .nil := by
        intro hA
        by_contra hN
        obtain ⟨x, hx⟩ := mem_of_ne_nil hN
        rw [(mkTreap_spec _ _).2, List.mem_map] at hx
        obtain ⟨t, ht, rfl⟩ := hx
        refine ne_nil_of_mem (((mkTreap_spec (ρ.act i) ((g.succ i).map fun t => t.2.1)).2 t.2.1).2 ?_) hA
        exact List.mem_map.2 ⟨t, (List.mem_filter.1 ht).1, rfl⟩
      have hA := (mkTreap_length_le (ρ.act i) ((g.succ i).map fun t => t.2.1)).trans
        (by rw [List.length_map]; exact hs i hi : _ ≤ fuel)
      have hN := (mkTreap_length_le (ρ.act' i) (((g.succ i).filter fun t => t.1 ≠ i).map fun t => t.2.1)).trans
        (by rw [List.length_map]; exact (List.length_filter_le _ _).trans (hs i hi) : _ ≤ fuel)
      have hsp := singletonProper_iff g ρ i
      have hlost : actLost g i = lost ((g.succ i).map fun t => t.2.1) +
        lost (((g.succ i).filter fun t => t.1 ≠ i).map fun t => t.2.1) := rfl
      have hstep : pstep g ρ S ret pm i = if g.singletonProper ρ i then Function.update pm (ret i) true else pm := by
        rw [pstep, mkTreap_mem]
        simp [hmem]
      revert hAN hA hN hsp hlost
      generalize Graph.mkTreap (ρ.act i) ((g.succ i).map fun t => t.2.1) = A
      generalize Graph.mkTreap (ρ.act' i) (((g.succ i).filter fun t => t.1 ≠ i).map fun t => t.2.1) = N
      generalize lost ((g.succ i).map fun t => t.2.1) = la
      generalize lost (((g.succ i).filter fun t => t.1 ≠ i).map fun t => t.2.1) = ln
      intro hAN hA hN hsp hlost
      refine (triple_actTest q.1 q.2 A N hAN).step (grP base pp sp g ∗ junk la ∗ junk ln ∗ tr sing (Graph.mkTreap ρ.singles S)) (by sep)
        fun b' => ?_
      rw [star_assoc]
      refine Triple.of_lift fun hb' => ?_
      rw [← hsp] at hb'
      have key : ∀ pm', Triple ((tr q.1 A ∗ tr q.2 N) ∗ grP base pp sp g ∗ junk la ∗ junk ln ∗ tr sing (Graph.mkTreap ρ.singles S))
          (do
            freeTreap fuel q.2
            freeTreap fuel q.1
            properLoop fuel ⟨some base, g.n⟩ ρ ret cnt sing m (i + 1) pm') fun r =>
          lift (r = (List.range' (i + 1) m).foldl (pstep g ρ S ret) pm') ∗ grP base pp sp g ∗
            tr sing (Graph.mkTreap ρ.singles S) ∗
            junk (actLost g i + ((List.range' (i + 1) m).map fun v => if ret v ∈ S then actLost g v else 0).sum) := by
        intro pm'
        refine (triple_freeTreap fuel q.2 N hN).step (tr q.1 A ∗ grP base pp sp g ∗ junk la ∗ junk ln ∗
          tr sing (Graph.mkTreap ρ.singles S)) (by sep) fun _ => ?_
        rw [emp_star]
        refine (triple_freeTreap fuel q.1 A hA).step (grP base pp sp g ∗ junk la ∗ junk ln ∗
          tr sing (Graph.mkTreap ρ.singles S)) (by sep) fun _ => ?_
        rw [emp_star]
        refine (ih (i + 1) (by omega) pm').last (junk la ∗ junk ln) (by sep) fun r => ?_
        rw [star_assoc]
        refine Imp.of_lift fun hr => Imp.lift_intro hr ?_
        refine Imp.trans (Imp.of_eq (Q := (grP base pp sp g ∗ tr sing (Graph.mkTreap ρ.singles S)) ∗
          ((junk la ∗ junk ln) ∗ junk ((List.range' (i + 1) m).map fun v => if ret v ∈ S then actLost g v else 0).sum)) (by sep)) ?_
        refine Imp.trans (Imp.star Imp.rfl ((Imp.star (junk_of _ _ _ hlost.symm) Imp.rfl).trans (junk_add _ _))) (Imp.of_eq (by sep))
      rw [hstep]
      by_cases hp : g.singletonProper ρ i = true
      · rw [if_pos (hb'.2 hp), if_pos (hret i hi), if_pos hp]
        exact key _
      · rw [if_neg (fun h => hp (hb'.1 h)), if_neg hp]
        exact key _
    · rw [if_pos (by rw [hb]; simpa using hmem), if_pos (hret i hi), if_neg hmem, Nat.zero_add]
      have hstep : pstep g ρ S ret pm i = Function.update pm (ret i) true := by
        rw [pstep, mkTreap_mem]; simp [hmem]
      rw [hstep]
      exact (ih (i + 1) (by omega) _).pre (Imp.of_eq (by sep))

/-- blocks lost by a call of `maximal_end_components` -/
def callLost (g : Graph K) (ρ : Graph.Rnd) (st : Graph.MState) : Nat :=
  (mecLost g ρ (2 * g.n + 1) ⟨[Graph.mkTreap ρ.top (List.range g.n)], fun _ => 0, 0, [], 0⟩ - 1) +
    ((List.range g.n).map fun v => if st.ret v ∈ st.singles then actLost g v else 0).sum

theorem mecLost_singles (g : Graph K) (ρ : Graph.Rnd) (k : Nat) : ∀ st st', Graph.mecLoop g ρ k st = some st' →
    st'.singles.length ≤ st.singles.length + k := by
  induction k with
  | zero =>
    rintro ⟨work, ret, cnt, singles, tid⟩ st' h
    cases work with
    | nil => simp only [Graph.mecLoop, Option.some.injEq] at h; subst h; simp
    | cons T work => simp [Graph.mecLoop] at h
  | succ k ih =>
    rintro ⟨work, ret, cnt, singles, tid⟩ st' h
    cases work with
    | nil => simp only [Graph.mecLoop, Option.some.injEq] at h; subst h; simp
    | cons T work =>
      rw [mecLoop_succ] at h
      have := ih _ _ h
      unfold mnext at this
      split at this
      · dsimp only at this ⊢
        split at this
        · rw [List.length_append, List.length_singleton] at this; omega
        · omega
      · dsimp only at this ⊢; omega

theorem mecLoop_mono (g : Graph K) (ρ : Graph.Rnd) (k : Nat) : ∀ st st', Graph.mecLoop g ρ k st = some st' →
    Graph.mecLoop g ρ (k + 1) st = some st' := by
  induction k with
  | zero =>
    rintro ⟨work, ret, cnt, singles, tid⟩ st' h
    cases work with
    | nil => exact h
    | cons T work => simp [Graph.mecLoop] at h
  | succ k ih =>
    rintro ⟨work, ret, cnt, singles, tid⟩ st' h
    cases work with
    | nil => exact h
    | cons T work =>
      rw [mecLoop_succ] at h ⊢
      exact ih _ _ h

theorem init_WOk (g : Graph K) (ρ : Graph.Rnd) (hn : 0 < g.n) :
    WOk g.n ⟨[Graph.mkTreap ρ.top (List.range g.n)], fun _ => 0, 0, [], 0⟩ := by
  obtain ⟨h1, h2⟩ := mkTreap_spec ρ.top (List.range g.n)
  refine ⟨fun T hT => ?_, by simp, by simp⟩
  simp only [List.mem_singleton] at hT
  subst hT
  exact ⟨h1, ne_nil_of_mem ((h2 0).2 (by simpa using hn)), fun x hx => by simpa using (h2 x).1 hx⟩

/-- with at least one node the method has a defined result, which is that of `Graph.maximalEndComponents`, and exactly
the counted blocks are lost -/
theorem triple_mec (c : GraphC) (g : Graph K) (ρ : Graph.Rnd) (hn : 0 < g.n) (hg : ∀ x t, t ∈ g.succ x → t.1 < g.n)
    (fuel : Nat) (hs : ∀ x < g.n, (g.succ x).length ≤ fuel) (hf : 2 * g.n + 1 ≤ fuel) :
    ∃ st, Graph.mecLoop g ρ (2 * g.n + 1) ⟨[Graph.mkTreap ρ.top (List.range g.n)], fun _ => 0, 0, [], 0⟩ = some st ∧
      MInv g st ∧ st.work = [] ∧
      Triple (gr c g) (maximalEndComponents fuel c ρ) fun r =>
        lift (g.maximalEndComponents ρ = some r) ∗ gr c g ∗ junk (callLost g ρ st) := by
  obtain ⟨h1, h2⟩ := init_MInv g ρ hn
  obtain ⟨st, hst, hinv, hwork⟩ := mecLoop_spec g ρ hg (2 * g.n + 1) _ h1 (h2.trans (Nat.le_succ _))
  refine ⟨st, hst, hinv, hwork, ?_⟩
  have hst' : Graph.mecLoop g ρ (2 * g.n) ⟨[Graph.mkTreap ρ.top (List.range g.n)], fun _ => 0, 0, [], 0⟩ = some st := by
    obtain ⟨st2, hst2, -, -⟩ := mecLoop_spec g ρ hg (2 * g.n) _ h1 h2
    rw [mecLoop_mono g ρ _ _ _ hst2, Option.some.injEq] at hst
    rw [hst2, hst]
  have hret : ∀ x < g.n, st.ret x < st.cnt := fun x hx => hinv.lt x ⟨hx, by simp [hwork]⟩
  have hsing : st.singles.length ≤ fuel := by
    have := mecLost_singles g ρ _ _ _ hst
    simp at this; omega
  rw [← star_emp (gr c g)]
  refine Triple.gr fun base pp sp hc => ?_
  subst hc
  rw [star_emp, star_emp]
  unfold maximalEndComponents
  dsimp only
  refine Triple.allocArr fun sc => ?_
  have hadd := triple_addNodes (K := K) fuel ρ.top g.n 0 (by omega) none
  rw [List.range_zero, mkTreap_nil, tr_none, Nat.zero_add] at hadd
  refine hadd.step (pts sc (intA.blk (List.replicate g.n none)) ∗ grP base pp sp g) (emp_star _).symm fun pT => ?_
  refine (triple_tsPush none pT [] _).step (pts sc (intA.blk (List.replicate g.n none)) ∗ grP base pp sp g)
    (by rw [tstk_none, emp_star]) fun ts => ?_
  have hloop := triple_mecLoop base pp sp g hg ρ sc fuel hs (by omega) st (2 * g.n + 1) _ ts none none (init_WOk g ρ hn)
    (by simp; omega) hst
  dsimp only at hloop
  rw [List.length_nil] at hloop
  refine (hloop.pre ?_).bind fun s => ?_
  · refine Imp.trans (Imp.star Imp.rfl (Imp.star (imp_raw (n := g.n) (by simp)) Imp.rfl)) (Imp.of_eq ?_)
    unfold mst own
    rw [mkTreap_nil, tr_none, star_emp, star_emp]
    sep
  unfold mpost
  refine Triple.of_ex fun j => Triple.of_lift fun hp => ?_
  obtain ⟨hr, hc, hts, hj, harr⟩ := hp
  have harr' := harr (by simp)
  have hj' : j = mecLost g ρ (2 * g.n + 1) ⟨[Graph.mkTreap ρ.top (List.range g.n)], fun _ => 0, 0, [], 0⟩ - 1 := by
    obtain ⟨a, ha⟩ := Option.ne_none_iff_exists'.1 harr'
    rw [ha] at hj
    simp only [cntp] at hj
    omega
  rw [hr, hc, hts]
  refine (triple_freeOwn s.arr).step (grP base pp sp g ∗ raw sc g.n ∗ tr s.sing (Graph.mkTreap ρ.singles st.singles) ∗ junk j)
    (by sep) fun _ => ?_
  rw [emp_star]
  have e1 : freeTStack fuel none = (Pure.pure () : M K Unit) := by cases fuel <;> rfl
  rw [e1]
  refine Triple.bind (R := fun _ => grP base pp sp g ∗ raw sc g.n ∗ tr s.sing (Graph.mkTreap ρ.singles st.singles) ∗ junk j)
    (Triple.pure Imp.rfl) fun _ => ?_
  rw [show (grP base pp sp g ∗ raw sc g.n ∗ tr s.sing (Graph.mkTreap ρ.singles st.singles) ∗ junk j) =
    (raw sc g.n ∗ grP base pp sp g ∗ tr s.sing (Graph.mkTreap ρ.singles st.singles) ∗ junk j) by sep]
  refine Triple.raw fun l hl => ?_
  refine (triple_free sc _).step (grP base pp sp g ∗ tr s.sing (Graph.mkTreap ρ.singles st.singles) ∗ junk j) rfl fun _ => ?_
  rw [emp_star]
  refine (triple_properLoop base pp sp g ρ fuel hs st.singles hsing st.ret st.cnt hret s.sing g.n 0 (by omega) fun _ => false).step
    (junk j) (by sep) fun pm => ?_
  rw [star_assoc]
  refine Triple.of_lift fun hpm => ?_
  refine (triple_freeTreap fuel s.sing _ ((mkTreap_length_le _ _).trans hsing)).step (grP base pp sp g ∗ junk j ∗
    junk ((List.range' 0 g.n).map fun v => if st.ret v ∈ st.singles then actLost g v else 0).sum) (by sep) fun _ => ?_
  rw [emp_star]
  refine Triple.pure (Imp.lift_intro ?_ ?_)
  · rw [Graph.maximalEndComponents, hst', Option.map_some, hpm, ← List.range_eq_range']
    rfl
  · refine Imp.star imp_gr (junk_of _ _ _ ?_)
    rw [callLost, hj', ← List.range_eq_range']

end Verif.Proofs.Sep
