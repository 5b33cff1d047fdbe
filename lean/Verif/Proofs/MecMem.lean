import Verif.Proofs.SccMem
import Verif.Proofs.Mec
/-!
# `maximal_end_components` in memory
-/

namespace Verif.Proofs.Sep
open Verif.Model Verif.Model.Mem

variable {K α β : Type}

/-! ### Small loops -/

theorem triple_addNodes (fuel : Nat) (h : Nat → Int) (m i : Nat) (hf : i + m ≤ fuel) (p : Ptr) :
    Triple (tr p (Graph.mkTreap h (List.range i)) : HProp K) (addNodes fuel h m i p) fun q =>
      tr q (Graph.mkTreap h (List.range (i + m))) := by
  induction m generalizing i p with
  | zero => exact Triple.pure Imp.rfl
  | succ m ih =>
    unfold addNodes
    have := triple_addSnoc (K := K) fuel p h (List.range i) i (by rw [List.length_range]; omega)
    rw [List.length_range, ← List.range_succ, lost_nodup List.nodup_range, lost_nodup List.nodup_range, junk_zero, star_emp] at this
    refine this.bind fun q => ?_
    rw [star_emp]
    have := ih (i + 1) (by omega) q
    rw [show i + 1 + m = i + (m + 1) by omega] at this
    exact this

theorem triple_assignLoop {P : HProp K} {arr : Nat} {xs : List Nat} (hP : Has P arr (intA.blk (xs.map some))) (n cnt : Nat)
    (hx : ∀ x ∈ xs, x < n) (m j : Nat) (hm : j + m = xs.length) (ret : Nat → Nat) :
    Triple P (assignLoop n arr cnt m j ret) fun r =>
      lift (r = (xs.drop j).foldl (fun ret v => Function.update ret v cnt) ret) ∗ P := by
  induction m generalizing j ret with
  | zero =>
    rw [List.drop_eq_nil_of_le (by omega)]
    exact Triple.pure (Imp.lift_intro rfl Imp.rfl)
  | succ m ih =>
    have hj : j < xs.length := by omega
    unfold assignLoop
    refine Triple.load (v := xs[j]) hP (by simp [hj]) ?_
    rw [if_pos (hx _ (List.getElem_mem hj)), List.drop_eq_getElem_cons hj, List.foldl_cons]
    exact ih (j + 1) (by omega) _

theorem triple_nullLoop (a : Nat) (m i : Nat) (l : List (Option Ptr)) (h : i + m ≤ l.length) :
    Triple (pts a (ptrA.blk l) : HProp K) (nullLoop a m i) fun _ => pts a (ptrA.blk (put l i (List.replicate m none))) := by
  induction m generalizing i l with
  | zero => exact Triple.pure Imp.rfl
  | succ m ih =>
    unfold nullLoop
    refine (triple_store (A := ptrA) (l := l) _ (by omega)).bind fun _ => ?_
    exact ih (i + 1) _ (by rw [List.length_set]; omega)

theorem all_emp {ι : Type} (l : List ι) : all (fun _ => (emp : HProp K)) l = emp := by
  induction l with
  | nil => rfl
  | cons x l ih => rw [all, ih, emp_star]

/-- the array `new_treaps` and the treaps it points to -/
def tarr (new cc : Nat) (h : Nat → Nat → Int) (P : Nat → Ptr) (ys : Nat → List Nat) : HProp K :=
  pts new (ptrA.blk ((List.range cc).map fun i => some (P i))) ∗
    all (fun i => tr (P i) (Graph.mkTreap (h i) (ys i))) (List.range cc)

theorem triple_addAt (new cc : Nat) (h : Nat → Nat → Int) (P : Nat → Ptr) (ys : Nat → List Nat) (c x fuel : Nat) (hc : c < cc)
    (hf : (ys c).length ≤ fuel) (hnd : (ys c ++ [x]).Nodup) (k : Nat) (hk : k = (ys c).length) (R : HProp K)
    (m : M K β) (Q : β → HProp K)
    (hm : ∀ P', Triple (tarr new cc h P' (Function.update ys c (ys c ++ [x])) ∗ R) m Q) :
    Triple (tarr new cc h P ys ∗ R) (do
      let q ← load ptrA (some new) c
      let q ← addToTreap fuel q x (h c k)
      store ptrA (some new) c q
      m) Q := by
  subst hk
  have hadd := triple_addSnoc (K := K) fuel (P c) (h c) (ys c) x hf
  rw [lost_nodup hnd, lost_nodup (List.Nodup.of_append_left hnd), junk_zero, star_emp] at hadd
  refine Triple.load (v := P c) ((Has.pts _ _).left.left) (map_range_get (fun i => some (P i)) hc) ?_
  have hmem : c ∈ List.range cc := List.mem_range.2 hc
  rw [tarr, all_erase _ hmem]
  refine hadd.step (pts new (ptrA.blk ((List.range cc).map fun i => some (P i))) ∗
    all (fun i => tr (P i) (Graph.mkTreap (h i) (ys i))) ((List.range cc).erase c) ∗ R) (by sep) fun q => ?_
  rw [star_emp]
  refine (triple_store (A := ptrA) (a := new) (i := c) (l := (List.range cc).map fun i => some (P i)) q (by simpa using hc)).step
    (tr q (Graph.mkTreap (h c) (ys c ++ [x])) ∗
      all (fun i => tr (P i) (Graph.mkTreap (h i) (ys i))) ((List.range cc).erase c) ∗ R) (by sep) fun _ => ?_
  refine (hm (Function.update P c q)).pre (Imp.of_eq ?_)
  rw [tarr, all_erase _ hmem, map_range_set]
  have e1 : Function.update (fun i => some (P i)) c (some q) = fun i => some (Function.update P c q i) := by
    funext i
    by_cases hi : i = c
    · subst hi; simp
    · simp [hi]
  have e2 : all (fun i => tr (P i) (Graph.mkTreap (h i) (ys i))) ((List.range cc).erase c) =
      (all (fun i => tr (Function.update P c q i) (Graph.mkTreap (h i) (Function.update ys c (ys c ++ [x]) i)))
        ((List.range cc).erase c) : HProp K) := by
    refine all_congr fun i hi => ?_
    have : i ≠ c := by
      rintro rfl
      exact (List.nodup_range.not_mem_erase) hi
    rw [Function.update_of_ne this, Function.update_of_ne this]
  rw [e1, e2, Function.update_self, Function.update_self]
  ac_rfl

theorem triple_distribute (arr sc new n cc fuel : Nat) (h : Nat → Nat → Int) (xs : List Nat) (f : Nat → Nat)
    (hx : ∀ x ∈ xs, x < n ∧ 1 ≤ f x ∧ f x ≤ cc) (hf : xs.length ≤ fuel) (m j : Nat) (hm : j + m = xs.length)
    (P : Nat → Ptr) (ys : Nat → List Nat) (hy : ∀ i, (ys i).length ≤ j)
    (hnd : ∀ i, (ys i ++ (xs.drop j).filter fun v => f v - 1 = i).Nodup) (cs : Nat → Nat) (hcs : ∀ i, cs i = (ys i).length) :
    Triple (tarr new cc h P ys ∗ pts arr (intA.blk (xs.map some)) ∗ scA sc n f : HProp K)
      (distribute fuel arr sc new h m j cs) fun _ => ex fun P' =>
        tarr new cc h P' (fun i => ys i ++ (xs.drop j).filter fun v => f v - 1 = i) ∗ pts arr (intA.blk (xs.map some)) ∗
          scA sc n f := by
  induction m generalizing j P ys cs with
  | zero =>
    rw [List.drop_eq_nil_of_le (by omega)]
    simp only [List.filter_nil, List.append_nil]
    exact Triple.pure (Imp.ex_intro P Imp.rfl)
  | succ m ih =>
    have hj : j < xs.length := by omega
    obtain ⟨hxn, h1, h2⟩ := hx _ (List.getElem_mem hj)
    have hfun : (fun i => ys i ++ (xs.drop j).filter fun v => f v - 1 = i) = fun i =>
        Function.update ys (f xs[j] - 1) (ys (f xs[j] - 1) ++ [xs[j]]) i ++ (xs.drop (j + 1)).filter fun v => f v - 1 = i := by
      funext i
      rw [List.drop_eq_getElem_cons hj]
      by_cases hi : i = f xs[j] - 1
      · subst hi
        rw [List.filter_cons_of_pos (by simp), Function.update_self, List.append_assoc, List.singleton_append]
      · rw [List.filter_cons_of_neg (by simpa using fun h => hi h.symm), Function.update_of_ne hi]
    have hndc := hnd (f xs[j] - 1)
    rw [congrFun hfun] at hndc
    rw [Function.update_self] at hndc
    unfold distribute
    refine Triple.load (v := xs[j]) (Has.pts _ _).left.right (by simp [hj]) ?_
    refine Triple.loadS (f := f) (has_scA sc n f).right.right hxn ?_
    rw [if_neg (by omega)]
    refine triple_addAt new cc h P ys (f xs[j] - 1) xs[j] fuel (by omega) ((hy _).trans (by omega))
      (List.Nodup.of_append_left hndc) _ (hcs _) _ _ _ fun P' => ?_
    rw [hfun]
    refine ih (j + 1) (by omega) P' _ (fun i => ?_) (fun i => ?_) _ (fun i => ?_)
    · by_cases hi : i = f xs[j] - 1
      · subst hi; rw [Function.update_self, List.length_append]; have := hy (f xs[j] - 1); simp; omega
      · rw [Function.update_of_ne hi]; have := hy i; omega
    · have := hnd i
      rw [congrFun hfun] at this
      exact this
    · by_cases hi : i = f xs[j] - 1
      · subst hi; rw [Function.update_self, Function.update_self, hcs]; simp
      · rw [Function.update_of_ne hi, Function.update_of_ne hi, hcs]

theorem triple_pushLoop (new cc : Nat) (P : Nat → Ptr) (t : Nat → Treap Nat) (m j : Nat) (hm : j + m = cc)
    (l : List (Treap Nat)) (ts : Ptr) :
    Triple (pts new (ptrA.blk ((List.range cc).map fun i => some (P i))) ∗
        all (fun i => tr (P i) (t i)) (List.range' j m) ∗ tstk ts l : HProp K)
      (pushLoop new m j ts) fun r => pts new (ptrA.blk ((List.range cc).map fun i => some (P i))) ∗
        tstk r (((List.range' j m).map t).reverse ++ l) := by
  induction m generalizing j l ts with
  | zero =>
    refine Triple.pure ?_
    simp only [List.range', all, emp_star, List.map_nil, List.reverse_nil, List.nil_append]
    exact Imp.rfl
  | succ m ih =>
    unfold pushLoop
    refine Triple.load (v := P j) (Has.pts _ _).left (map_range_get (fun i => some (P i)) (by omega)) ?_
    rw [List.range'_succ, all]
    refine (triple_tsPush ts (P j) l (t j)).step (pts new (ptrA.blk ((List.range cc).map fun i => some (P i))) ∗
      all (fun i => tr (P i) (t i)) (List.range' (j + 1) m)) (by sep) fun r => ?_
    refine ((ih (j + 1) (by omega) (t j :: l) r).pre (Imp.of_eq (by sep))).post fun r' => ?_
    rw [List.map_cons, List.reverse_cons, List.append_assoc, List.singleton_append]
    exact Imp.rfl

/-! ### The work list -/

/-- the state after one round -/
def mnext (g : Graph K) (ρ : Graph.Rnd) (T : Treap Nat) (work : List (Treap Nat)) (ret : Nat → Nat) (cnt : Nat)
    (singles : List Nat) (tid : Nat) : Graph.MState :=
  if (g.sccOf T (ρ.bad tid) (ρ.low0 tid) (ρ.on0 tid)).2 = 1 then
    ⟨work, T.toList.foldl (fun ret v => Function.update ret v cnt) ret, cnt + 1,
      (if T.size = 1 then singles ++ [cnt] else singles), tid + 1⟩
  else
    ⟨((List.range (g.sccOf T (ρ.bad tid) (ρ.low0 tid) (ρ.on0 tid)).2).map fun j =>
        Graph.component T.toList (g.sccOf T (ρ.bad tid) (ρ.low0 tid) (ρ.on0 tid)).1 (ρ.comp (tid + j)) j).reverse ++ work,
      ret, cnt, singles, tid + (g.sccOf T (ρ.bad tid) (ρ.low0 tid) (ρ.on0 tid)).2 + 1⟩

theorem mecLoop_succ (g : Graph K) (ρ : Graph.Rnd) (k : Nat) (T : Treap Nat) (work : List (Treap Nat)) (ret : Nat → Nat)
    (cnt : Nat) (singles : List Nat) (tid : Nat) :
    Graph.mecLoop g ρ (k + 1) ⟨T :: work, ret, cnt, singles, tid⟩ =
      Graph.mecLoop g ρ k (mnext g ρ T work ret cnt singles tid) := by
  rw [Graph.mecLoop, mnext]
  dsimp only
  split <;> rfl

/-- arrays requested and blocks lost in the remaining rounds -/
def mecLost (g : Graph K) (ρ : Graph.Rnd) : Nat → Graph.MState → Nat
  | _, ⟨[], _, _, _, _⟩ => 0
  | 0, _ => 0
  | k + 1, ⟨T :: work, ret, cnt, singles, tid⟩ => 1 + sccLost g T + mecLost g ρ k (mnext g ρ T work ret cnt singles tid)

/-- what is known about the state -/
structure WOk (n : Nat) (st : Graph.MState) : Prop where
  work : ∀ T ∈ st.work, TreapOK T ∧ T ≠ .nil ∧ ∀ x ∈ T.toList, x < n
  nodup : st.singles.Nodup
  lt : ∀ x ∈ st.singles, x < st.cnt

theorem mem_of_ne_nil {T : Treap Nat} (h : T ≠ .nil) : ∃ x, x ∈ T.toList := by
  cases T with
  | nil => exact absurd rfl h
  | node k hk n l r => exact ⟨k, by simp [Treap.toList]⟩

theorem ne_nil_of_mem {T : Treap Nat} {x : Nat} (h : x ∈ T.toList) : T ≠ .nil := by
  rintro rfl; cases h

theorem WOk.next {g : Graph K} (hg : ∀ x t, t ∈ g.succ x → t.1 < g.n) (ρ : Graph.Rnd) {T : Treap Nat} {work : List (Treap Nat)}
    {ret : Nat → Nat} {cnt : Nat} {singles : List Nat} {tid : Nat} (h : WOk g.n ⟨T :: work, ret, cnt, singles, tid⟩) :
    WOk g.n (mnext g ρ T work ret cnt singles tid) := by
  obtain ⟨hok, hne, hlt⟩ := h.work T (by simp)
  obtain ⟨-, -, hused⟩ := sccOf_spec g hok hlt hg (ρ.bad tid) (ρ.low0 tid) (ρ.on0 tid)
  unfold mnext
  split
  · refine ⟨fun T' hT' => h.work T' (by simp [hT']), ?_, ?_⟩
    · dsimp only
      split
      · refine List.nodup_append.2 ⟨h.nodup, by simp, ?_⟩
        intro a ha b hb
        simp only [List.mem_singleton] at hb
        subst hb
        have := h.lt a ha
        dsimp only at this
        omega
      · exact h.nodup
    · intro x hx
      dsimp only at hx ⊢
      split at hx
      · rcases List.mem_append.1 hx with hx | hx
        · have := h.lt x hx; dsimp only at this; omega
        · simp only [List.mem_singleton] at hx; omega
      · have := h.lt x hx; dsimp only at this; omega
  · refine ⟨fun T' hT' => ?_, h.nodup, h.lt⟩
    dsimp only at hT'
    rcases List.mem_append.1 hT' with hT' | hT'
    · rw [List.mem_reverse, List.mem_map] at hT'
      obtain ⟨j, hj, rfl⟩ := hT'
      rw [List.mem_range] at hj
      obtain ⟨x, hx, hxj⟩ := hused (j + 1) (by omega) (by omega)
      refine ⟨(mkTreap_spec _ _).1, ne_nil_of_mem ((mem_component _ _ _ _ _).2 ⟨hx, ?_⟩), fun y hy => ?_⟩
      · rw [hxj]; rfl
      · exact hlt y ((mem_component _ _ _ _ _).1 hy).1
    · exact h.work T' (by simp [hT'])

/-- 1 for a pointer to a block -/
def cntp : Ptr → Nat
  | none => 0
  | some _ => 1

/-- the block of a pointer -/
def own : Ptr → HProp K
  | none => emp
  | some a => ex fun b => pts a b

theorem own_junk (p : Ptr) : Imp (own p : HProp K) (junk (cntp p)) := by
  cases p with
  | none => rw [own, cntp, junk_zero]; exact Imp.rfl
  | some a => exact Imp.of_ex fun b => junk_pts a b

theorem triple_freeOwn (p : Ptr) : Triple (own p : HProp K) (free p) fun _ => emp := by
  cases p with
  | none => exact Triple.pure Imp.rfl
  | some a => exact Triple.of_ex fun b => triple_free a b

/-- an array of integers -/
def raw (a n : Nat) : HProp K := ex fun l => lift (l.length = n) ∗ pts a (intA.blk l)

theorem imp_raw {a n : Nat} {l : List (Option Nat)} (h : l.length = n) : Imp (pts a (intA.blk l) : HProp K) (raw a n) :=
  Imp.ex_intro l (Imp.lift_intro h Imp.rfl)

theorem imp_raw_scA {a n : Nat} {f : Nat → Nat} : Imp (scA a n f : HProp K) (raw a n) := imp_raw (by simp)

theorem Triple.raw {a n : Nat} {R : HProp K} {c : M K α} {Q : α → HProp K}
    (h : ∀ l, l.length = n → Triple (pts a (intA.blk l) ∗ R) c Q) : Triple (raw a n ∗ R) c Q := by
  simp only [Sep.raw, ex_star, star_assoc]
  exact Triple.of_ex fun l => Triple.of_lift fun hl => h l hl

theorem WOk.length_le {n : Nat} {T : Treap Nat} (hok : TreapOK T) (hlt : ∀ x ∈ T.toList, x < n) : T.toList.length ≤ n := by
  rw [← List.toFinset_card_of_nodup hok.nodup]
  have : T.toList.toFinset ⊆ Finset.range n := fun x hx => Finset.mem_range.2 (hlt x (List.mem_toFinset.1 hx))
  simpa using Finset.card_le_card this

/-- the memory of the work list -/
def mst (base : Nat) (pp sp : Nat → Ptr) (g : Graph K) (sc : Nat) (ρ : Graph.Rnd) (st : Graph.MState) (ts sing arr : Ptr) : HProp K :=
  grP base pp sp g ∗ raw sc g.n ∗ tstk ts st.work ∗ tr sing (Graph.mkTreap ρ.singles st.singles) ∗ own arr

/-- what the loop leaves -/
def mpost (base : Nat) (pp sp : Nat → Ptr) (g : Graph K) (sc : Nat) (ρ : Graph.Rnd) (st' : Graph.MState) (c : Nat) (any : Prop)
    (s : MecS) : HProp K :=
  ex fun j => lift (s.ret = st'.ret ∧ s.cnt = st'.cnt ∧ s.ts = none ∧ j + cntp s.arr = c ∧ (any → s.arr ≠ none)) ∗
    grP base pp sp g ∗ raw sc g.n ∗ tr s.sing (Graph.mkTreap ρ.singles st'.singles) ∗ own s.arr ∗ junk j

theorem mpost_add (base : Nat) (pp sp : Nat → Ptr) (g : Graph K) (sc : Nat) (ρ : Graph.Rnd) (st' : Graph.MState)
    (c i c' : Nat) (any any' : Prop) (h : c' = i + c) (h' : any' → any) (s : MecS) :
    Imp (mpost base pp sp g sc ρ st' c any s ∗ junk i) (mpost base pp sp g sc ρ st' c' any' s) := by
  unfold mpost
  rw [ex_star]
  refine Imp.of_ex fun j => ?_
  rw [star_assoc]
  refine Imp.of_lift fun hl => Imp.ex_intro (j + i) (Imp.lift_intro ⟨hl.1, hl.2.1, hl.2.2.1, by omega, fun a => hl.2.2.2.2 (h' a)⟩ ?_)
  refine Imp.trans (Imp.of_eq (Q := (grP base pp sp g ∗ raw sc g.n ∗ tr s.sing (Graph.mkTreap ρ.singles st'.singles) ∗
    own s.arr) ∗ junk j ∗ junk i) (by sep)) ((Imp.star Imp.rfl (junk_add _ _)).trans (Imp.of_eq (by sep)))

theorem triple_mecLoop (base : Nat) (pp sp : Nat → Ptr) (g : Graph K) (hg : ∀ x t, t ∈ g.succ x → t.1 < g.n) (ρ : Graph.Rnd)
    (sc fuel : Nat) (hs : ∀ x < g.n, (g.succ x).length ≤ fuel) (hn : g.n ≤ fuel) (st' : Graph.MState) (k : Nat) :
    ∀ st ts sing arr, WOk g.n st → st.singles.length + k ≤ fuel → Graph.mecLoop g ρ k st = some st' →
      Triple (mst base pp sp g sc ρ st ts sing arr)
        (mecLoop fuel ⟨some base, g.n⟩ ρ sc k ⟨ts, arr, st.ret, st.cnt, sing, st.singles.length, st.tid⟩)
        (mpost base pp sp g sc ρ st' (cntp arr + mecLost g ρ k st) (st.work ≠ [] ∨ arr ≠ none)) := by
  have hnil : ∀ k ret cnt singles tid ts sing arr, Graph.mecLoop g ρ k ⟨[], ret, cnt, singles, tid⟩ = some st' →
      Triple (mst base pp sp g sc ρ ⟨[], ret, cnt, singles, tid⟩ ts sing arr)
        (mecLoop fuel ⟨some base, g.n⟩ ρ sc k ⟨ts, arr, ret, cnt, sing, singles.length, tid⟩)
        (mpost base pp sp g sc ρ st' (cntp arr + mecLost g ρ k ⟨[], ret, cnt, singles, tid⟩)
          (([] : List (Treap Nat)) ≠ [] ∨ arr ≠ none)) := by
    intro k ret cnt singles tid ts sing arr hr
    have e : some st' = some ⟨[], ret, cnt, singles, tid⟩ := by rw [← hr]; cases k <;> rfl
    rw [Option.some.injEq] at e
    subst e
    have e2 : mecLost g ρ k ⟨[], ret, cnt, singles, tid⟩ = 0 := by cases k <;> rfl
    rw [e2]
    rw [show mst base pp sp g sc ρ ⟨[], ret, cnt, singles, tid⟩ ts sing arr = (tstk ts [] ∗ grP base pp sp g ∗ raw sc g.n ∗
      tr sing (Graph.mkTreap ρ.singles singles) ∗ own arr) by unfold mst; sep]
    refine Triple.tstk_nil fun hts => ?_
    subst hts
    have e3 : mecLoop fuel ⟨some base, g.n⟩ ρ sc k ⟨none, arr, ret, cnt, sing, singles.length, tid⟩ =
        (Pure.pure ⟨none, arr, ret, cnt, sing, singles.length, tid⟩ : M K MecS) := by cases k <;> rfl
    rw [e3]
    refine Triple.pure (Imp.ex_intro 0 (Imp.lift_intro ⟨rfl, rfl, rfl, by simp, by simp⟩ (Imp.of_eq ?_)))
    rw [junk_zero, star_emp]
  induction k with
  | zero =>
    rintro ⟨work, ret, cnt, singles, tid⟩ ts sing arr hw hf hr
    cases work with
    | nil => exact hnil 0 ret cnt singles tid ts sing arr hr
    | cons T work => simp [Graph.mecLoop] at hr
  | succ k ih =>
    rintro ⟨work, ret, cnt, singles, tid⟩ ts sing arr hw hf hr
    cases work with
    | nil => exact hnil _ ret cnt singles tid ts sing arr hr
    | cons T work =>
    rw [mecLoop_succ] at hr
    have hw' := hw.next hg ρ
    obtain ⟨hok, hne, hlt⟩ := hw.work T (by simp)
    have hTl := WOk.length_le hok hlt
    obtain ⟨-, hrange, -⟩ := sccOf_spec g hok hlt hg (ρ.bad tid) (ρ.low0 tid) (ρ.on0 tid)
    dsimp only at hf ⊢
    cases ts with
    | none =>
      refine Triple.of_false fun h hh => ?_
      rw [show mst base pp sp g sc ρ ⟨T :: work, ret, cnt, singles, tid⟩ none sing arr = (tstk none (T :: work) ∗
        grP base pp sp g ∗ raw sc g.n ∗ tr sing (Graph.mkTreap ρ.singles singles) ∗ own arr) by unfold mst; sep] at hh
      obtain ⟨f, _, _, _, ⟨a, q, b, hx⟩, _⟩ := hh
      have := (lift_star.1 hx).1
      cases this
    | some p =>
    unfold mecLoop
    dsimp only
    refine (triple_tsPop (some p) work T).step (grP base pp sp g ∗ raw sc g.n ∗ tr sing (Graph.mkTreap ρ.singles singles) ∗
      own arr) (by unfold mst; sep) fun q => ?_
    obtain ⟨ts1, pT⟩ := q
    dsimp only
    rw [star_assoc]
    refine readT_tr hne fun u hu => ?_
    rw [hu, hok.size_eq]
    refine Triple.allocArr fun a => ?_
    refine (triple_fillArray fuel pT T a 0 (List.replicate T.toList.length none) (hTl.trans hn) (by simp)).step
      (grP base pp sp g ∗ raw sc g.n ∗ tr sing (Graph.mkTreap ρ.singles singles) ∗ own arr ∗ tstk ts1 work) (by sep) fun _ => ?_
    rw [star_assoc]
    refine Triple.of_lift fun _ => ?_
    rw [put_all _ _ rfl]
    rw [show ((tr pT T ∗ pts a (intA.blk (T.toList.map some))) ∗ grP base pp sp g ∗ raw sc g.n ∗
      tr sing (Graph.mkTreap ρ.singles singles) ∗ own arr ∗ tstk ts1 work) = (raw sc g.n ∗ tr pT T ∗
      pts a (intA.blk (T.toList.map some)) ∗ grP base pp sp g ∗
      tr sing (Graph.mkTreap ρ.singles singles) ∗ own arr ∗ tstk ts1 work) by sep]
    refine Triple.raw fun l hl => ?_
    refine (triple_sccM base pp sp g (fun x _ t ht => hg x t ht) pT T hne hok hlt (ρ.bad tid) (ρ.low0 tid) (ρ.on0 tid) sc fuel hs hn l hl).step
      (pts a (intA.blk (T.toList.map some)) ∗ tr sing (Graph.mkTreap ρ.singles singles) ∗ own arr ∗ tstk ts1 work)
      (by sep) fun cc => ?_
    rw [star_assoc]
    refine Triple.of_lift fun hcc => ?_
    subst hcc
    have hlost : mecLost g ρ (k + 1) ⟨T :: work, ret, cnt, singles, tid⟩ =
      1 + sccLost g T + mecLost g ρ k (mnext g ρ T work ret cnt singles tid) := rfl
    rw [hlost]
    unfold mnext at hw' hr ⊢
    by_cases hc1 : (g.sccOf T (ρ.bad tid) (ρ.low0 tid) (ρ.on0 tid)).2 = 1
    · rw [if_pos hc1] at hw' hr ⊢
      rw [if_pos hc1]
      refine (triple_assignLoop (xs := T.toList) (Has.pts _ _).left.right g.n cnt hlt T.toList.length 0 (by omega) ret).bind fun r => ?_
      refine Triple.of_lift fun hr' => ?_
      rw [List.drop_zero] at hr'
      subst hr'
      rw [← hok.size_eq]
      have hjunk : Imp (own arr ∗ junk (sccLost g T) : HProp K) (junk (cntp arr + sccLost g T)) :=
        (Imp.star (own_junk arr) Imp.rfl).trans (junk_add _ _)
      by_cases hsz : T.size = 1
      · rw [if_pos hsz] at hw' hr ⊢
        rw [if_pos hsz]
        have hadd := triple_addSnoc (K := K) fuel sing ρ.singles singles cnt (by omega)
        rw [lost_nodup hw'.nodup, lost_nodup hw.nodup, junk_zero, star_emp] at hadd
        refine hadd.step (grP base pp sp g ∗ tr pT T ∗ scA sc g.n (g.sccOf T (ρ.bad tid) (ρ.low0 tid) (ρ.on0 tid)).1 ∗
          junk (sccLost g T) ∗ pts a (intA.blk (T.toList.map some)) ∗ own arr ∗ tstk ts1 work) (by sep) fun sing' => ?_
        rw [star_emp]
        refine (triple_freeTreap fuel pT T (hTl.trans hn)).step (tr sing' (Graph.mkTreap ρ.singles (singles ++ [cnt])) ∗
          grP base pp sp g ∗ scA sc g.n (g.sccOf T (ρ.bad tid) (ρ.low0 tid) (ρ.on0 tid)).1 ∗
          junk (sccLost g T) ∗ pts a (intA.blk (T.toList.map some)) ∗ own arr ∗ tstk ts1 work) (by sep) fun _ => ?_
        rw [emp_star]
        have := ih ⟨work, T.toList.foldl (fun ret v => Function.update ret v cnt) ret, cnt + 1, singles ++ [cnt], tid + 1⟩
          ts1 sing' (some a) hw' (by simp; omega) hr
        dsimp only at this
        rw [List.length_append, List.length_singleton] at this
        refine (this.frame (junk (cntp arr + sccLost g T))).conseq ?_ fun s => ?_
        · refine Imp.trans (Imp.of_eq (Q := (grP base pp sp g ∗ tstk ts1 work ∗ tr sing' (Graph.mkTreap ρ.singles (singles ++ [cnt]))) ∗
            scA sc g.n (g.sccOf T (ρ.bad tid) (ρ.low0 tid) (ρ.on0 tid)).1 ∗ pts a (intA.blk (T.toList.map some)) ∗
            own arr ∗ junk (sccLost g T)) (by sep)) ?_
          refine Imp.trans (Imp.star Imp.rfl (Imp.star imp_raw_scA (Imp.star (Imp.ex_intro _ Imp.rfl) hjunk))) (Imp.of_eq ?_)
          unfold mst
          show _ = ((grP base pp sp g ∗ raw sc g.n ∗ tstk ts1 work ∗ tr sing' (Graph.mkTreap ρ.singles (singles ++ [cnt])) ∗
            ex fun b => pts a b) ∗ _)
          sep
        · refine mpost_add _ _ _ _ _ _ _ _ _ _ _ _ ?_ (fun _ => by simp) s
          simp only [cntp]; omega
      · rw [if_neg hsz] at hw' hr ⊢
        rw [if_neg hsz]
        refine (triple_freeTreap fuel pT T (hTl.trans hn)).step (tr sing (Graph.mkTreap ρ.singles singles) ∗
          grP base pp sp g ∗ scA sc g.n (g.sccOf T (ρ.bad tid) (ρ.low0 tid) (ρ.on0 tid)).1 ∗
          junk (sccLost g T) ∗ pts a (intA.blk (T.toList.map some)) ∗ own arr ∗ tstk ts1 work) (by sep) fun _ => ?_
        rw [emp_star]
        have := ih ⟨work, T.toList.foldl (fun ret v => Function.update ret v cnt) ret, cnt + 1, singles, tid + 1⟩
          ts1 sing (some a) hw' (by dsimp only; omega) hr
        dsimp only at this
        refine (this.frame (junk (cntp arr + sccLost g T))).conseq ?_ fun s => ?_
        · refine Imp.trans (Imp.of_eq (Q := (grP base pp sp g ∗ tstk ts1 work ∗ tr sing (Graph.mkTreap ρ.singles singles)) ∗
            scA sc g.n (g.sccOf T (ρ.bad tid) (ρ.low0 tid) (ρ.on0 tid)).1 ∗ pts a (intA.blk (T.toList.map some)) ∗
            own arr ∗ junk (sccLost g T)) (by sep)) ?_
          refine Imp.trans (Imp.star Imp.rfl (Imp.star imp_raw_scA (Imp.star (Imp.ex_intro _ Imp.rfl) hjunk))) (Imp.of_eq ?_)
          unfold mst
          show _ = ((grP base pp sp g ∗ raw sc g.n ∗ tstk ts1 work ∗ tr sing (Graph.mkTreap ρ.singles singles) ∗
            ex fun b => pts a b) ∗ _)
          sep
        · refine mpost_add _ _ _ _ _ _ _ _ _ _ _ _ ?_ (fun _ => by simp) s
          simp only [cntp]; omega
    · rw [if_neg hc1] at hw' hr ⊢
      rw [if_neg hc1]
      revert hw' hr hrange
      generalize (g.sccOf T (ρ.bad tid) (ρ.low0 tid) (ρ.on0 tid)).2 = cc
      generalize (g.sccOf T (ρ.bad tid) (ρ.low0 tid) (ρ.on0 tid)).1 = f
      intro hr hw' hrange
      refine Triple.allocArr fun new => ?_
      refine (triple_nullLoop new cc 0 (List.replicate cc none) (by simp)).step
        (grP base pp sp g ∗ tr pT T ∗ scA sc g.n f ∗
          junk (sccLost g T) ∗ pts a (intA.blk (T.toList.map some)) ∗ tr sing (Graph.mkTreap ρ.singles singles) ∗
          own arr ∗ tstk ts1 work) (by sep) fun _ => ?_
      rw [put_const _ _ _ (by simp)]
      have hstart : (pts new (ptrA.blk ((List.range cc).map fun _ => some none)) : HProp K) =
          tarr new cc (fun j => ρ.comp (tid + j)) (fun _ => none) fun _ => [] := by
        unfold tarr
        simp only [mkTreap_nil, tr_none, all_emp, star_emp]
      rw [hstart]
      refine (triple_distribute a sc new g.n cc fuel (fun j => ρ.comp (tid + j)) T.toList f
        (fun x hx => ⟨hlt x hx, hrange x hx⟩) (hTl.trans hn) T.toList.length 0 (by omega) (fun _ => none) (fun _ => [])
        (by simp) (fun i => by rw [List.drop_zero, List.nil_append]; exact hok.nodup.filter _) (fun _ => 0) (by simp)).step
        (grP base pp sp g ∗ tr pT T ∗ junk (sccLost g T) ∗ tr sing (Graph.mkTreap ρ.singles singles) ∗ own arr ∗ tstk ts1 work)
        (by sep) fun _ => ?_
      rw [ex_star]
      refine Triple.of_ex fun P => ?_
      rw [List.drop_zero]
      simp only [List.nil_append]
      have hcomp : (all (fun i => tr (P i) (Graph.component T.toList f (ρ.comp (tid + i)) i)) (List.range' 0 cc) : HProp K) =
        all (fun i => tr (P i) (Graph.mkTreap (ρ.comp (tid + i)) (T.toList.filter fun v => f v - 1 = i))) (List.range cc) := by
        rw [List.range_eq_range']; rfl
      refine (triple_pushLoop new cc P (fun j => Graph.component T.toList f (ρ.comp (tid + j)) j) cc 0 (by omega) work ts1).step
        (pts a (intA.blk (T.toList.map some)) ∗ scA sc g.n f ∗ grP base pp sp g ∗ tr pT T ∗ junk (sccLost g T) ∗
          tr sing (Graph.mkTreap ρ.singles singles) ∗ own arr)
        (by rw [hcomp]; unfold tarr; sep) fun ts2 => ?_
      rw [← List.range_eq_range']
      refine (triple_freeTreap fuel pT T (hTl.trans hn)).step
        ((pts new (ptrA.blk ((List.range cc).map fun i => some (P i))) ∗
          tstk ts2 (((List.range cc).map fun j => Graph.component T.toList f (ρ.comp (tid + j)) j).reverse ++ work)) ∗
          pts a (intA.blk (T.toList.map some)) ∗ scA sc g.n f ∗ grP base pp sp g ∗ junk (sccLost g T) ∗
          tr sing (Graph.mkTreap ρ.singles singles) ∗ own arr) (by sep) fun _ => ?_
      rw [emp_star]
      refine (triple_free new (ptrA.blk ((List.range cc).map fun i => some (P i)))).step
        (tstk ts2 (((List.range cc).map fun j => Graph.component T.toList f (ρ.comp (tid + j)) j).reverse ++ work) ∗
          pts a (intA.blk (T.toList.map some)) ∗ scA sc g.n f ∗ grP base pp sp g ∗ junk (sccLost g T) ∗
          tr sing (Graph.mkTreap ρ.singles singles) ∗ own arr) (by sep) fun _ => ?_
      rw [emp_star]
      have hjunk : Imp (own arr ∗ junk (sccLost g T) : HProp K) (junk (cntp arr + sccLost g T)) :=
        (Imp.star (own_junk arr) Imp.rfl).trans (junk_add _ _)
      have := ih ⟨((List.range cc).map fun j => Graph.component T.toList f (ρ.comp (tid + j)) j).reverse ++ work, ret, cnt,
        singles, tid + cc + 1⟩ ts2 sing (some a) hw' (by dsimp only; omega) hr
      dsimp only at this
      refine (this.frame (junk (cntp arr + sccLost g T))).conseq ?_ fun s => ?_
      · refine Imp.trans (Imp.of_eq (Q := (grP base pp sp g ∗
          tstk ts2 (((List.range cc).map fun j => Graph.component T.toList f (ρ.comp (tid + j)) j).reverse ++ work) ∗
          tr sing (Graph.mkTreap ρ.singles singles)) ∗
          scA sc g.n f ∗ pts a (intA.blk (T.toList.map some)) ∗ own arr ∗ junk (sccLost g T)) (by sep)) ?_
        refine Imp.trans (Imp.star Imp.rfl (Imp.star imp_raw_scA (Imp.star (Imp.ex_intro _ Imp.rfl) hjunk))) (Imp.of_eq ?_)
        unfold mst
        show _ = ((grP base pp sp g ∗ raw sc g.n ∗
          tstk ts2 (((List.range cc).map fun j => Graph.component T.toList f (ρ.comp (tid + j)) j).reverse ++ work) ∗
          tr sing (Graph.mkTreap ρ.singles singles) ∗ ex fun b => pts a b) ∗ _)
        sep
      · refine mpost_add _ _ _ _ _ _ _ _ _ _ _ _ ?_ (fun _ => by simp) s
        simp only [cntp]; omega

end Verif.Proofs.Sep
