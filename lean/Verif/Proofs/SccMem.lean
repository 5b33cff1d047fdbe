import Verif.Proofs.TarjanMem
import Mathlib.Algebra.BigOperators.Group.List.Basic
/-!
# `strongly_connected_components` in memory: the outer loops
-/

namespace Verif.Proofs.Sep
open Verif.Model Verif.Model.Mem

variable {K α β : Type}

theorem put_const {γ : Type} (l : List (Option γ)) (n : Nat) (v : γ) (h : l.length = n) :
    put l 0 (List.replicate n v) = (List.range n).map fun _ => some v := by
  apply List.ext_getElem?
  intro j
  rw [put_get _ _ _ _ (by simp [h])]
  by_cases hj : j < n
  · rw [if_pos (by simpa using hj)]; simp [hj]
  · rw [if_neg (by simpa using hj), List.getElem?_eq_none (by omega), List.getElem?_eq_none (by simp; omega)]

theorem triple_zeroLoop (a : Nat) (m i : Nat) (l : List (Option Nat)) (h : i + m ≤ l.length) :
    Triple (pts a (intA.blk l) : HProp K) (zeroLoop a m i) fun _ => pts a (intA.blk (put l i (List.replicate m 0))) := by
  induction m generalizing i l with
  | zero => exact Triple.pure Imp.rfl
  | succ m ih =>
    unfold zeroLoop
    refine (triple_store (A := intA) (l := l) _ (by omega)).bind fun _ => ?_
    exact ih (i + 1) _ (by rw [List.length_set]; omega)

theorem triple_indexLoop (a : Nat) (m i : Nat) (l : List (Option TCell)) (h : i + m ≤ l.length) :
    Triple (pts a (tarjanA.blk l) : HProp K) (indexLoop a m i) fun _ =>
      pts a (tarjanA.blk (put l i (List.replicate m ⟨some none, none, none⟩))) := by
  induction m generalizing i l with
  | zero => exact Triple.pure Imp.rfl
  | succ m ih =>
    unfold indexLoop
    refine (triple_store (A := tarjanA) (l := l) _ (by omega)).bind fun _ => ?_
    exact ih (i + 1) _ (by rw [List.length_set]; omega)

/-- the step of the outer loop -/
def rstep (adj : Nat → List Nat) (n : Nat) (st : Graph.TState) (r : Nat) : Graph.TState :=
  match st.idx r with
  | none => Graph.strongconnect adj (n + 1) r st
  | some _ => st

theorem unvis_le (n : Nat) (st : Graph.TState) : unvis n st ≤ n := by
  refine (Finset.card_le_card (Finset.filter_subset _ _)).trans ?_
  simp

theorem triple_rootLoop (base : Nat) (pp sp : Nat → Ptr) (g : Graph K) (hg : ∀ x < g.n, ∀ t ∈ g.succ x, t.1 < g.n)
    (pT : Ptr) (T : Treap Nat) (h : Nat → Nat → Int) (tn sc arr fuel : Nat) (hT : T.toList.length ≤ fuel)
    (hs : ∀ x < g.n, (g.succ x).length ≤ fuel) (hn : g.n ≤ fuel) (xs : List Nat) (hx : ∀ x ∈ xs, x < g.n)
    (m j : Nat) (hm : j + m = xs.length) (st : Graph.TState) (hi : SInv g.n st) (q : Ptr) :
    Triple (pts arr (intA.blk (xs.map some)) ∗ (grP base pp sp g ∗ tr pT T) ∗
        tst tn sc g.n (fun x => lost (badList g T x)) st q)
      (rootLoop fuel ⟨some base, g.n⟩ pT h tn sc arr m j ⟨st.i, st.cnt, q⟩) fun r =>
      lift (r.i = ((xs.drop j).foldl (rstep (fun v => g.adj T (h v) v) g.n) st).i ∧
        r.cnt = ((xs.drop j).foldl (rstep (fun v => g.adj T (h v) v) g.n) st).cnt) ∗
      pts arr (intA.blk (xs.map some)) ∗ (grP base pp sp g ∗ tr pT T) ∗
        tst tn sc g.n (fun x => lost (badList g T x)) ((xs.drop j).foldl (rstep (fun v => g.adj T (h v) v) g.n) st) r.st := by
  induction m generalizing j st q with
  | zero =>
    rw [List.drop_eq_nil_of_le (by omega)]
    exact Triple.pure (Imp.lift_intro ⟨rfl, rfl⟩ Imp.rfl)
  | succ m ih =>
    have hj : j < xs.length := by omega
    have hr := hx _ (List.getElem_mem hj)
    unfold rootLoop
    refine Triple.load (v := xs[j]) (Has.pts _ _).left (by simp [hj]) ?_
    rw [List.drop_eq_getElem_cons hj, List.foldl_cons]
    generalize xs[j] = r at *
    refine Triple.loadT (st := st) (has_tnA tn g.n st).left.right.right hr ?_
    refine Triple.known (v := st.idx r) rfl ?_
    cases hir : st.idx r with
    | none =>
      dsimp only
      have e : rstep (fun v => g.adj T (h v) v) g.n st r = Graph.strongconnect (fun v => g.adj T (h v) v) (g.n + 1) r st := by
        simp only [rstep, hir]
      rw [e]
      have hp := strongconnect_SPost (adj_lt hg T h) (g.n + 1) r st hr hi hir
      refine (triple_strongconnect base pp sp g hg pT T h tn sc fuel hT hs hn (g.n + 1) r st q hr hi hir
        ((unvis_le _ _).trans (Nat.le_succ _))).step (pts arr (intA.blk (xs.map some))) (by sep) fun s => ?_
      rw [star_assoc]
      refine Triple.of_lift fun hs' => ?_
      obtain ⟨ri, rc, rs⟩ := s
      obtain ⟨h1, h2⟩ := hs'
      dsimp only at h1 h2
      subst h1 h2
      exact (ih (j + 1) (by omega) _ hp.inv rs).pre (Imp.of_eq (by sep))
    | some k =>
      dsimp only
      have e : rstep (fun v => g.adj T (h v) v) g.n st r = st := by simp only [rstep, hir]
      rw [e]
      exact ih (j + 1) (by omega) st hi q

/-- blocks lost by one call of `strongly_connected_components` -/
def sccLost (g : Graph K) (T : Treap Nat) : Nat := (T.toList.map fun x => lost (badList g T x)).sum

theorem leak_eq {n : Nat} {T : Treap Nat} (hT : TreapOK T) (hTn : ∀ x ∈ T.toList, x < n) (d : Nat → Nat)
    {st : Graph.TState} (h1 : ∀ x ∈ T.toList, st.idx x ≠ none) (h2 : ∀ x, st.idx x ≠ none → x ∈ T.toList) :
    leak n d st = (T.toList.map d).sum := by
  rw [← List.sum_toFinset d hT.nodup, leak, ← Finset.sum_filter_not_add_sum_filter (Finset.range n) fun x => st.idx x = none]
  have e0 : ∑ x ∈ (Finset.range n).filter (fun x => st.idx x = none), (if st.idx x = none then 0 else d x) = 0 := by
    refine Finset.sum_eq_zero fun x hx => ?_
    rw [if_pos (Finset.mem_filter.1 hx).2]
  rw [e0, Nat.add_zero]
  have e1 : (Finset.range n).filter (fun x => ¬ st.idx x = none) = T.toList.toFinset := by
    ext x
    simp only [Finset.mem_filter, Finset.mem_range, List.mem_toFinset]
    exact ⟨fun h => h2 x h.2, fun h => ⟨hTn x h, h1 x h⟩⟩
  rw [e1]
  refine Finset.sum_congr rfl fun x hx => ?_
  rw [if_neg (h1 x (List.mem_toFinset.1 hx))]

theorem readT_tr {p : Ptr} {t : Treap Nat} (ht : t ≠ .nil) {R : HProp K} {f : TN → M K β} {Q : β → HProp K}
    (h : ∀ u : TN, u.size = t.size → Triple (tr p t ∗ R) (f u) Q) : Triple (tr p t ∗ R) (Mem.readT p >>= f) Q := by
  cases t with
  | nil => exact absurd rfl ht
  | node k hk n l r =>
    refine Triple.tr_node fun a pl pr hp => ?_
    subst hp
    refine Triple.readT (by has) ?_
    refine (h ⟨k, hk, n, pl, pr⟩ rfl).pre ?_
    refine Imp.trans (Imp.of_eq ?_) (Imp.star (imp_tr_node (pl := pl) (pr := pr)) Imp.rfl)
    simp only [star_assoc]

theorem triple_sccM (base : Nat) (pp sp : Nat → Ptr) (g : Graph K) (hg : ∀ x < g.n, ∀ t ∈ g.succ x, t.1 < g.n)
    (pT : Ptr) (T : Treap Nat) (hne : T ≠ .nil) (hT : TreapOK T) (hTn : ∀ x ∈ T.toList, x < g.n) (h : Nat → Nat → Int)
    (low0 : Nat → Nat) (on0 : Nat → Bool) (sc fuel : Nat)
    (hs : ∀ x < g.n, (g.succ x).length ≤ fuel) (hn : g.n ≤ fuel) (l : List (Option Nat)) (hl : l.length = g.n) :
    Triple (grP base pp sp g ∗ tr pT T ∗ pts sc (intA.blk l)) (sccM fuel ⟨some base, g.n⟩ pT h sc) fun r =>
      lift (r = (g.sccOf T h low0 on0).2) ∗ grP base pp sp g ∗ tr pT T ∗ scA sc g.n (g.sccOf T h low0 on0).1 ∗
        junk (sccLost g T) := by
  have hlen : T.toList.length ≤ fuel := by
    refine le_trans ?_ hn
    rw [← List.toFinset_card_of_nodup hT.nodup]
    have : T.toList.toFinset ⊆ Finset.range g.n := fun x hx => Finset.mem_range.2 (hTn x (List.mem_toFinset.1 hx))
    simpa using Finset.card_le_card this
  have hadj := adj_lt hg T h
  have hspec0 := sccLoop_spec hadj (g.n + 1) (by omega) T.toList hTn _ (init_TI (adj := fun v => g.adj T (h v) v) low0 on0)
  have hspec : TI (fun v => g.adj T (h v) v) (fun _ => False) (T.toList.foldl (rstep (fun v => g.adj T (h v) v) g.n)
      ⟨fun _ => none, low0, on0, [], 0, fun _ => 0, 1⟩) ∧ ∀ x ∈ T.toList, (T.toList.foldl
      (rstep (fun v => g.adj T (h v) v) g.n) ⟨fun _ => none, low0, on0, [], 0, fun _ => 0, 1⟩).idx x ≠ none :=
    ⟨hspec0.1, hspec0.2.1⟩
  have hvis : ∀ x, (T.toList.foldl (rstep (fun v => g.adj T (h v) v) g.n)
      ⟨fun _ => none, low0, on0, [], 0, fun _ => 0, 1⟩).idx x ≠ none → x ∈ T.toList :=
    sccLoop_vis (adj := fun v => g.adj T (h v) v) (V := fun x => x ∈ T.toList)
    (fun x y _ hy => by
      obtain ⟨a, hd, hall⟩ := (mem_adj g hT (h x) x y).1 hy
      exact hall y hd) (g.n + 1) T.toList (fun _ hx => hx) ⟨fun _ => none, low0, on0, [], 0, fun _ => 0, 1⟩ (by simp)
  have hscc : g.sccOf T h low0 on0 =
      ((T.toList.foldl (rstep (fun v => g.adj T (h v) v) g.n) ⟨fun _ => none, low0, on0, [], 0, fun _ => 0, 1⟩).sccs,
        (T.toList.foldl (rstep (fun v => g.adj T (h v) v) g.n) ⟨fun _ => none, low0, on0, [], 0, fun _ => 0, 1⟩).cnt - 1) := rfl
  unfold sccM
  rw [show (grP base pp sp g ∗ tr pT T ∗ pts sc (intA.blk l)) = (tr pT T ∗ grP base pp sp g ∗ pts sc (intA.blk l)) by sep]
  refine readT_tr hne fun u hu => ?_
  rw [hT.size_eq] at hu
  rw [hu]
  refine Triple.allocArr fun arr => ?_
  refine (triple_fillArray fuel pT T arr 0 (List.replicate T.toList.length none) hlen (by simp)).step
    (grP base pp sp g ∗ pts sc (intA.blk l)) (by sep) fun _ => ?_
  rw [star_assoc]
  refine Triple.of_lift fun _ => ?_
  rw [put_all _ _ rfl]
  refine (triple_zeroLoop sc g.n 0 l (by omega)).step (grP base pp sp g ∗ tr pT T ∗ pts arr (intA.blk (T.toList.map some)))
    (by sep) fun _ => ?_
  rw [put_const _ _ _ hl]
  refine Triple.allocArr fun tn => ?_
  refine (triple_indexLoop tn g.n 0 (List.replicate g.n none) (by simp)).step
    (pts sc (intA.blk ((List.range g.n).map fun _ => some 0)) ∗ grP base pp sp g ∗ tr pT T ∗
      pts arr (intA.blk (T.toList.map some))) (by sep) fun _ => ?_
  rw [put_const _ _ _ (by simp)]
  have hroot := triple_rootLoop base pp sp g hg pT T h tn sc arr fuel hlen hs hn T.toList hTn T.toList.length 0 (by omega)
    ⟨fun _ => none, low0, on0, [], 0, fun _ => 0, 1⟩ ⟨by simp, by simp, by simp⟩ none
  rw [List.drop_zero] at hroot
  have hpre : (tst tn sc g.n (fun x => lost (badList g T x)) ⟨fun _ => none, low0, on0, [], 0, fun _ => 0, 1⟩ none : HProp K) =
      (pts tn (tarjanA.blk ((List.range g.n).map fun _ => some ⟨some none, none, none⟩)) ∗
        pts sc (intA.blk ((List.range g.n).map fun _ => some 0))) := by
    have : leak g.n (fun x => lost (badList g T x)) ⟨fun _ => none, low0, on0, [], 0, fun _ => 0, 1⟩ = 0 := by
      simp [leak]
    rw [tst, this, junk_zero, stk_none, star_emp, star_emp]
    rfl
  rw [hpre] at hroot
  rw [hscc]
  revert hroot hspec hvis
  generalize T.toList.foldl (rstep (fun v => g.adj T (h v) v) g.n) ⟨fun _ => none, low0, on0, [], 0, fun _ => 0, 1⟩ = S
  intro hspec hvis hroot
  obtain ⟨hTI, hall⟩ := hspec
  have hstk : S.stack = [] := by
    rw [List.eq_nil_iff_forall_not_mem]
    intro x hx
    obtain ⟨g, hg, _⟩ := hTI.back x hx
    exact hg
  refine (hroot.pre (Imp.of_eq (by sep))).bind fun s => Triple.of_lift fun hr => ?_
  obtain ⟨si, scn, ss⟩ := s
  obtain ⟨h1, h2⟩ := hr
  dsimp only at h1 h2
  subst h1 h2
  dsimp only
  rw [tst, hstk, leak_eq hT hTn _ hall hvis]
  refine (triple_free tn _).step (pts arr (intA.blk (T.toList.map some)) ∗ (grP base pp sp g ∗ tr pT T) ∗
    scA sc g.n S.sccs ∗ stk ss [] ∗ junk (T.toList.map fun x => lost (badList g T x)).sum) (by unfold tnA; sep) fun _ => ?_
  rw [emp_star]
  refine (triple_free arr _).step ((grP base pp sp g ∗ tr pT T) ∗
    scA sc g.n S.sccs ∗ stk ss [] ∗ junk (T.toList.map fun x => lost (badList g T x)).sum) rfl fun _ => ?_
  rw [emp_star]
  refine (triple_freeStack fuel ss [] (by simp)).step ((grP base pp sp g ∗ tr pT T) ∗
    scA sc g.n S.sccs ∗ junk (T.toList.map fun x => lost (badList g T x)).sum) (by sep) fun _ => ?_
  rw [emp_star]
  exact Triple.pure (Imp.lift_intro rfl (Imp.of_eq (by unfold sccLost; sep)))

end Verif.Proofs.Sep
