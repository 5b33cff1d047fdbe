import Verif.Proofs.Tarjan
/-! maximal end components -/
set_option linter.unusedSectionVars false
set_option linter.unusedVariables false
namespace Verif.Proofs
open Verif.Model Verif.Model.Graph Verif.Spec

variable {K : Type}

/-- no longer in a set of the work list -/
def Fin' (n : Nat) (st : MState) (x : Nat) : Prop := x < n ∧ ∀ T ∈ st.work, x ∉ T.toList

structure MInv (g : Graph K) (st : MState) : Prop where
  ok : ∀ T ∈ st.work, TreapOK T ∧ T.toList ≠ [] ∧ ∀ x ∈ T.toList, x < g.n
  disj : st.work.Pairwise fun T T' => ∀ x ∈ T.toList, x ∉ T'.toList
  ec : ∀ E act, GraphEC (gtr g) E act → E ⊆ {x | x < g.n} →
    (∃ T ∈ st.work, E ⊆ {x | x ∈ T.toList}) ∨ (∃ c, ∀ x ∈ E, Fin' g.n st x ∧ st.ret x = c)
  lt : ∀ x, Fin' g.n st x → st.ret x < st.cnt
  used : ∀ c < st.cnt, ∃ x, Fin' g.n st x ∧ st.ret x = c
  conn : ∀ x y, Fin' g.n st x → Fin' g.n st y → st.ret x = st.ret y →
    Relation.ReflTransGen (StayEdge (gtr g) {z | Fin' g.n st z ∧ st.ret z = st.ret x}) x y
  single : ∀ c, c ∈ st.singles → c < st.cnt ∧
    ∀ x y, Fin' g.n st x → Fin' g.n st y → st.ret x = c → st.ret y = c → x = y
  multi : ∀ c < st.cnt, c ∉ st.singles → ∃ x y, Fin' g.n st x ∧ Fin' g.n st y ∧ st.ret x = c ∧
    st.ret y = c ∧ x ≠ y

def weight (work : List (Treap Nat)) : Nat := (work.map fun T => 2 * T.toList.length - 1).sum

theorem foldl_update (arr : List Nat) (c : Nat) (ret : Nat → Nat) (x : Nat) :
    arr.foldl (fun ret v => Function.update ret v c) ret x = if x ∈ arr then c else ret x := by
  induction arr generalizing ret with
  | nil => simp
  | cons v arr ih =>
    rw [List.foldl_cons, ih]
    by_cases h : x ∈ arr
    · simp [h]
    · by_cases e : x = v
      · subst e; simp
      · simp [h, e, Function.update_of_ne e]

theorem sum_filter_length (arr : List Nat) (f : Nat → Nat) (cc : Nat) (h : ∀ v ∈ arr, f v < cc) :
    ((List.range cc).map fun j => (arr.filter fun v => f v = j).length).sum = arr.length := by
  induction arr with
  | nil => simp
  | cons v arr ih =>
    have h1 : ∀ j, ((v :: arr).filter fun v => f v = j).length =
        (if f v = j then 1 else 0) + (arr.filter fun v => f v = j).length := by
      intro j
      by_cases e : f v = j
      · simp [List.filter_cons, e]; omega
      · simp [List.filter_cons, e]
    simp only [h1]
    have h2 : ∀ l : List Nat, (l.map fun j => (if f v = j then 1 else 0) +
        (arr.filter fun v => f v = j).length).sum =
        (l.map fun j => if f v = j then 1 else 0).sum +
        (l.map fun j => (arr.filter fun v => f v = j).length).sum := by
      intro l
      induction l with
      | nil => simp
      | cons j l ihl => simp only [List.map_cons, List.sum_cons, ihl]; omega
    rw [h2, ih fun v hv => h v (by simp [hv])]
    have h3 : ∀ n k : Nat, ((List.range n).map fun j => if k = j then 1 else 0).sum =
        if k < n then 1 else 0 := by
      intro n k
      induction n with
      | zero => simp
      | succ n ihn =>
        rw [List.range_succ, List.map_append, List.sum_append, ihn]
        simp only [List.map_cons, List.map_nil, List.sum_cons, List.sum_nil]
        split_ifs <;> omega
    rw [h3, if_pos (h v (by simp))]
    simp; omega

theorem mem_component (arr : List Nat) (sccs : Nat → Nat) (h : Nat → Int) (j x : Nat) :
    x ∈ (component arr sccs h j).toList ↔ x ∈ arr ∧ sccs x - 1 = j := by
  rw [component, (mkTreap_spec h _).2]; simp

theorem component_length {arr : List Nat} (hnd : arr.Nodup) (sccs : Nat → Nat) (h : Nat → Int) (j : Nat) :
    (component arr sccs h j).toList.length = (arr.filter fun v => sccs v - 1 = j).length := by
  have h1 := (mkTreap_spec h (arr.filter fun v => sccs v - 1 = j))
  have : (component arr sccs h j).toList.Perm (arr.filter fun v => sccs v - 1 = j) :=
    (List.perm_ext_iff_of_nodup h1.1.nodup (hnd.filter _)).2 fun x => h1.2 x
  exact this.length_eq

theorem mecLoop_spec (g : Graph K) (ρ : Rnd) (hg : ∀ x t, t ∈ g.succ x → t.1 < g.n) (fuel : Nat) :
    ∀ st : MState, MInv g st → weight st.work ≤ fuel →
      ∃ st', mecLoop g ρ fuel st = some st' ∧ MInv g st' ∧ st'.work = [] := by
  induction fuel with
  | zero =>
    rintro ⟨work, ret, cnt, singles, tid⟩ h hw
    cases work with
    | nil => exact ⟨_, rfl, h, rfl⟩
    | cons T work =>
      exfalso
      have := (h.ok T (by simp)).2.1
      have := List.length_pos_iff.2 this
      simp only [weight, List.map_cons, List.sum_cons] at hw
      omega
  | succ fuel ih =>
    rintro ⟨work, ret, cnt, singles, tid⟩ h hw
    cases work with
    | nil => exact ⟨_, rfl, h, rfl⟩
    | cons T work =>
      obtain ⟨hT, hne, hTn⟩ := h.ok T (by simp)
      have hpos := List.length_pos_iff.2 hne
      have hdisj := h.disj
      rw [List.pairwise_cons] at hdisj
      obtain ⟨s1, s2, s3⟩ := sccOf_spec g hT hTn hg (ρ.bad tid) (ρ.low0 tid) (ρ.on0 tid)
      set r := g.sccOf T (ρ.bad tid) (ρ.low0 tid) (ρ.on0 tid) with hr
      have hstep : mecLoop g ρ (fuel + 1) ⟨T :: work, ret, cnt, singles, tid⟩ =
        if r.2 = 1 then
          mecLoop g ρ fuel
            ⟨work, T.toList.foldl (fun ret v => Function.update ret v cnt) ret, cnt + 1,
              (if T.size = 1 then singles ++ [cnt] else singles), tid + 1⟩
        else
          mecLoop g ρ fuel
            ⟨((List.range r.2).map fun j => component T.toList r.1 (ρ.comp (tid + j)) j).reverse ++ work,
              ret, cnt, singles, tid + r.2 + 1⟩ := rfl
      rw [hstep]
      have hfin0 : ∀ x, Fin' g.n ⟨T :: work, ret, cnt, singles, tid⟩ x ↔
          x < g.n ∧ x ∉ T.toList ∧ ∀ T' ∈ work, x ∉ T'.toList := by
        intro x; simp [Fin']
      by_cases hcc : r.2 = 1
      · rw [if_pos hcc]
        set st1 : MState := ⟨work, T.toList.foldl (fun ret v => Function.update ret v cnt) ret, cnt + 1,
              (if T.size = 1 then singles ++ [cnt] else singles), tid + 1⟩ with hst1
        have hret : ∀ x, st1.ret x = if x ∈ T.toList then cnt else ret x := fun x =>
          foldl_update _ _ _ _
        have hfin : ∀ x, Fin' g.n st1 x ↔ Fin' g.n ⟨T :: work, ret, cnt, singles, tid⟩ x ∨ x ∈ T.toList := by
          intro x
          rw [hfin0]
          simp only [Fin', hst1]
          constructor
          · rintro ⟨h1, h2⟩
            by_cases h3 : x ∈ T.toList
            · exact Or.inr h3
            · exact Or.inl ⟨h1, h3, h2⟩
          · rintro (⟨h1, _, h2⟩ | h3)
            · exact ⟨h1, h2⟩
            · exact ⟨hTn x h3, fun T' hT' => hdisj.1 T' hT' x h3⟩
        have hold : ∀ x, Fin' g.n ⟨T :: work, ret, cnt, singles, tid⟩ x →
            st1.ret x = ret x ∧ ret x < cnt := by
          intro x hx
          have h1 := ((hfin0 x).1 hx).2.1
          rw [hret, if_neg h1]
          exact ⟨rfl, h.lt x hx⟩
        have hnew : ∀ x, x ∈ T.toList → st1.ret x = cnt := fun x hx => by rw [hret, if_pos hx]
        have hclass : {z | Fin' g.n st1 z ∧ st1.ret z = cnt} = {z | z ∈ T.toList} := by
          ext z
          simp only [Set.mem_ofPred_eq]
          constructor
          · rintro ⟨h1, h2⟩
            rcases (hfin z).1 h1 with h1 | h1
            · have := hold z h1; omega
            · exact h1
          · exact fun hz => ⟨(hfin z).2 (Or.inr hz), hnew z hz⟩
        have hclass' : ∀ c < cnt, {z | Fin' g.n st1 z ∧ st1.ret z = c} =
            {z | Fin' g.n ⟨T :: work, ret, cnt, singles, tid⟩ z ∧ ret z = c} := by
          intro c hc
          ext z
          simp only [Set.mem_ofPred_eq]
          constructor
          · rintro ⟨h1, h2⟩
            rcases (hfin z).1 h1 with h1 | h1
            · exact ⟨h1, by rw [← (hold z h1).1, h2]⟩
            · have := hnew z h1; omega
          · rintro ⟨h1, h2⟩
            exact ⟨(hfin z).2 (Or.inl h1), by rw [(hold z h1).1, h2]⟩
        have hsize : T.size = T.toList.length := hT.size_eq
        refine ih st1 ?_ ?_
        · refine ⟨fun T' hT' => h.ok T' (by simp [hst1] at hT'; simp [hT']), hdisj.2, ?_, ?_, ?_, ?_, ?_, ?_⟩
          · intro E act hE hEn
            rcases h.ec E act hE hEn with ⟨T', hT', hsub⟩ | ⟨c, hc⟩
            · rcases List.mem_cons.1 hT' with rfl | hT'
              · exact Or.inr ⟨cnt, fun x hx => ⟨(hfin x).2 (Or.inr (hsub hx)), hnew x (hsub hx)⟩⟩
              · exact Or.inl ⟨T', hT', hsub⟩
            · exact Or.inr ⟨c, fun x hx => ⟨(hfin x).2 (Or.inl (hc x hx).1), by
                rw [(hold x (hc x hx).1).1]; exact (hc x hx).2⟩⟩
          · intro x hx
            show st1.ret x < cnt + 1
            rcases (hfin x).1 hx with hx | hx
            · have := hold x hx; omega
            · rw [hnew x hx]; omega
          · intro c hc
            by_cases e : c = cnt
            · subst e
              obtain ⟨x, hx⟩ := List.exists_mem_of_ne_nil _ hne
              exact ⟨x, (hfin x).2 (Or.inr hx), hnew x hx⟩
            · have hc' : c < cnt := by simp only [hst1] at hc; omega
              obtain ⟨x, hx, hxc⟩ := h.used c hc'
              exact ⟨x, (hfin x).2 (Or.inl hx), by rw [(hold x hx).1]; exact hxc⟩
          · intro x y hx hy hxy
            rcases (hfin x).1 hx with hx' | hx'
            · rw [(hold x hx').1, hclass' _ (hold x hx').2]
              refine h.conn x y hx' ?_ ?_
              · rcases (hfin y).1 hy with hy' | hy'
                · exact hy'
                · have := hold x hx'; have := hnew y hy'; omega
              · rcases (hfin y).1 hy with hy' | hy'
                · rw [(hold x hx').1, (hold y hy').1] at hxy; exact hxy
                · have := hold x hx'; have := hnew y hy'; omega
            · rw [hnew x hx', hclass]
              have hy' : y ∈ T.toList := by
                rcases (hfin y).1 hy with hy' | hy'
                · have := hold y hy'; have := hnew x hx'; omega
                · exact hy'
              have h1 := s2 x hx'
              have h2 := s2 y hy'
              exact ((s1 x hx' y hy').1 (by omega)).1
          · intro c hc
            have hc2 : c ∈ singles ∨ (c = cnt ∧ T.size = 1) := by
              simp only [hst1] at hc
              split at hc
              · rename_i e
                simp only [List.mem_append, List.mem_singleton] at hc
                exact hc.imp id fun h => ⟨h, e⟩
              · exact Or.inl hc
            rcases hc2 with hc2 | ⟨rfl, hs⟩
            · obtain ⟨h1, h2⟩ := h.single c hc2
              simp only at h1
              refine ⟨by simp only [hst1]; omega, fun x y hx hy hxc hyc => ?_⟩
              have hx' : x ∈ {z | Fin' g.n st1 z ∧ st1.ret z = c} := ⟨hx, hxc⟩
              have hy' : y ∈ {z | Fin' g.n st1 z ∧ st1.ret z = c} := ⟨hy, hyc⟩
              rw [hclass' c h1] at hx' hy'
              exact h2 x y hx'.1 hy'.1 hx'.2 hy'.2
            · refine ⟨by simp [hst1], fun x y hx hy hxc hyc => ?_⟩
              have hx' : x ∈ {z | Fin' g.n st1 z ∧ st1.ret z = c} := ⟨hx, hxc⟩
              have hy' : y ∈ {z | Fin' g.n st1 z ∧ st1.ret z = c} := ⟨hy, hyc⟩
              rw [hclass] at hx' hy'
              simp only [Set.mem_ofPred_eq] at hx' hy'
              obtain ⟨z, hz⟩ := List.length_eq_one_iff.1 (hsize.symm.trans hs)
              rw [hz] at hx' hy'
              simp at hx' hy'
              rw [hx', hy']
          · intro c hc hcs
            by_cases e : c = cnt
            · subst e
              have hs : T.toList.length ≠ 1 := by
                intro hh
                apply hcs
                simp only [hst1]
                rw [if_pos (hsize.trans hh)]; simp
              have h2 : 2 ≤ T.toList.length := by omega
              obtain ⟨x, y, l, hl⟩ : ∃ x y l, T.toList = x :: y :: l := by
                match hh : T.toList, h2 with
                | x :: y :: l, _ => exact ⟨x, y, l, rfl⟩
              have hnd := hT.nodup
              rw [hl] at hnd
              refine ⟨x, y, (hfin x).2 (Or.inr (by simp [hl])), (hfin y).2 (Or.inr (by simp [hl])),
                hnew x (by simp [hl]), hnew y (by simp [hl]), ?_⟩
              rintro rfl
              simp at hnd
            · have hc' : c < cnt := by simp only [hst1] at hc; omega
              obtain ⟨x, y, hx, hy, hxc, hyc, hne⟩ := h.multi c hc' (by
                intro hh; apply hcs
                simp only [hst1]
                split
                · simp only at hh; simp [hh]
                · exact hh)
              exact ⟨x, y, (hfin x).2 (Or.inl hx), (hfin y).2 (Or.inl hy),
                by rw [(hold x hx).1]; exact hxc, by rw [(hold y hy).1]; exact hyc, hne⟩
        · simp only [weight, List.map_cons, List.sum_cons] at hw
          simp only [hst1, weight]; omega
      · rw [if_neg hcc]
        set comps := (List.range r.2).map fun j => component T.toList r.1 (ρ.comp (tid + j)) j with hcomps
        set st1 : MState := ⟨comps.reverse ++ work, ret, cnt, singles, tid + r.2 + 1⟩ with hst1
        have hmem : ∀ x, (∃ C ∈ comps, x ∈ C.toList) ↔ x ∈ T.toList := by
          intro x
          simp only [hcomps, List.mem_map, List.mem_range]
          constructor
          · rintro ⟨C, ⟨j, hj, rfl⟩, hx⟩
            exact ((mem_component _ _ _ _ _).1 hx).1
          · intro hx
            have := s2 x hx
            exact ⟨_, ⟨r.1 x - 1, by omega, rfl⟩, (mem_component _ _ _ _ _).2 ⟨hx, rfl⟩⟩
        have hfin : ∀ x, Fin' g.n st1 x ↔ Fin' g.n ⟨T :: work, ret, cnt, singles, tid⟩ x := by
          intro x
          rw [hfin0]
          simp only [Fin', hst1, List.mem_append, List.mem_reverse]
          constructor
          · rintro ⟨h1, h2⟩
            refine ⟨h1, fun hx => ?_, fun T' hT' => h2 T' (Or.inr hT')⟩
            obtain ⟨C, hC, hxC⟩ := (hmem x).2 hx
            exact h2 C (Or.inl hC) hxC
          · rintro ⟨h1, h2, h3⟩
            refine ⟨h1, fun C hC hxC => ?_⟩
            rcases hC with hC | hC
            · exact h2 ((hmem x).1 ⟨C, hC, hxC⟩)
            · exact h3 C hC hxC
        have hfinS : ∀ c, {z | Fin' g.n st1 z ∧ ret z = c} =
            {z | Fin' g.n ⟨T :: work, ret, cnt, singles, tid⟩ z ∧ ret z = c} := by
          intro c; ext z; simp only [Set.mem_ofPred_eq, hfin]
        have hcompdisj : comps.Pairwise fun A B => ∀ x ∈ A.toList, x ∉ B.toList := by
          rw [hcomps, List.pairwise_map]
          refine (List.pairwise_lt_range (n := r.2)).imp ?_
          intro i j hij x hx hx'
          rw [mem_component] at hx hx'
          omega
        have hcc2 : 2 ≤ r.2 := by
          obtain ⟨x, hx⟩ := List.exists_mem_of_ne_nil _ hne
          have := s2 x hx; omega
        refine ih st1 ?_ ?_
        · refine ⟨?_, ?_, ?_, ?_, ?_, ?_, ?_, ?_⟩
          · intro C hC
            simp only [hst1, List.mem_append, List.mem_reverse] at hC
            rcases hC with hC | hC
            · have hC' := hC
              simp only [hcomps, List.mem_map, List.mem_range] at hC
              obtain ⟨j, hj, rfl⟩ := hC
              refine ⟨(mkTreap_spec _ _).1, ?_, fun x hx => hTn x ((hmem x).1 ⟨_, hC', hx⟩)⟩
              obtain ⟨x, hx, e⟩ := s3 (j + 1) (by omega) (by omega)
              intro hnil
              have : x ∈ (component T.toList r.1 (ρ.comp (tid + j)) j).toList :=
                (mem_component _ _ _ _ _).2 ⟨hx, by omega⟩
              rw [hnil] at this; simp at this
            · exact h.ok C (by simp [hC])
          · simp only [hst1]
            rw [List.pairwise_append]
            refine ⟨?_, hdisj.2, ?_⟩
            · rw [List.pairwise_reverse]
              exact hcompdisj.imp fun hh x hx hx' => hh x hx' hx
            · intro C hC T' hT' x hx
              rw [List.mem_reverse] at hC
              exact hdisj.1 T' hT' x ((hmem x).1 ⟨C, hC, hx⟩)
          · intro E act hE hEn
            rcases h.ec E act hE hEn with ⟨T', hT', hsub⟩ | ⟨c, hc⟩
            · left
              rcases List.mem_cons.1 hT' with rfl | hT'
              · -- the end component lies inside one strongly connected component
                obtain ⟨x0, hx0⟩ := hE.nonempty
                have hpath : ∀ x y, x ∈ E → y ∈ E →
                    Relation.ReflTransGen (StayEdge (gtr g) {x | x ∈ T'.toList}) x y := by
                  intro x y hx hy
                  refine Relation.ReflTransGen.mono ?_ _ _ (hE.conn x hx y hy)
                  rintro u v ⟨hu, a, ha, hav⟩
                  exact ⟨a, hav, fun w hw => hsub (hE.closed u hu a ha w hw)⟩
                have heq : ∀ x ∈ E, r.1 x = r.1 x0 := fun x hx =>
                  (s1 x (hsub hx) x0 (hsub hx0)).2 ⟨hpath x x0 hx hx0, hpath x0 x hx0 hx⟩
                have hb := s2 x0 (hsub hx0)
                refine ⟨component T'.toList r.1 (ρ.comp (tid + (r.1 x0 - 1))) (r.1 x0 - 1), ?_, ?_⟩
                · simp only [hst1, List.mem_append, List.mem_reverse, hcomps, List.mem_map,
                    List.mem_range]
                  exact Or.inl ⟨r.1 x0 - 1, by omega, rfl⟩
                · intro x hx
                  exact (mem_component _ _ _ _ _).2 ⟨hsub hx, by rw [heq x hx]⟩
              · exact ⟨T', by simp [hst1, hT'], hsub⟩
            · exact Or.inr ⟨c, fun x hx => ⟨(hfin x).2 (hc x hx).1, (hc x hx).2⟩⟩
          · intro x hx; exact h.lt x ((hfin x).1 hx)
          · intro c hc
            obtain ⟨x, hx, e⟩ := h.used c hc
            exact ⟨x, (hfin x).2 hx, e⟩
          · intro x y hx hy hxy
            have := h.conn x y ((hfin x).1 hx) ((hfin y).1 hy) hxy
            rw [← hfinS] at this
            exact this
          · intro c hc
            obtain ⟨h1, h2⟩ := h.single c hc
            exact ⟨h1, fun x y hx hy => h2 x y ((hfin x).1 hx) ((hfin y).1 hy)⟩
          · intro c hc hcs
            obtain ⟨x, y, hx, hy, r⟩ := h.multi c hc hcs
            exact ⟨x, y, (hfin x).2 hx, (hfin y).2 hy, r⟩
        · have hlen : (comps.map fun C => C.toList.length).sum = T.toList.length := by
            rw [hcomps, List.map_map]
            rw [← sum_filter_length T.toList (fun v => r.1 v - 1) r.2
              (fun v hv => by have := s2 v hv; omega)]
            congr 1
            refine List.map_congr_left fun j _ => ?_
            exact component_length hT.nodup _ _ _
          have hposC : ∀ C ∈ comps, 1 ≤ C.toList.length := by
            intro C hC
            simp only [hcomps, List.mem_map, List.mem_range] at hC
            obtain ⟨j, hj, rfl⟩ := hC
            obtain ⟨x, hx, e⟩ := s3 (j + 1) (by omega) (by omega)
            have : x ∈ (component T.toList r.1 (ρ.comp (tid + j)) j).toList :=
              (mem_component _ _ _ _ _).2 ⟨hx, by omega⟩
            exact List.length_pos_of_mem this
          have hwsum : ∀ l : List (Treap Nat), (∀ C ∈ l, 1 ≤ C.toList.length) →
              weight l + l.length = 2 * (l.map fun C => C.toList.length).sum := by
            intro l hl
            induction l with
            | nil => simp [weight]
            | cons C l ihl =>
              have h1 := ihl fun C hC => hl C (by simp [hC])
              have h2 := hl C (by simp)
              simp only [weight, List.map_cons, List.sum_cons, List.length_cons] at h1 ⊢
              omega
          have h1 := hwsum comps hposC
          have h2 : comps.length = r.2 := by simp [hcomps]
          have h3 : weight (comps.reverse ++ work) = weight comps + weight work := by
            simp only [weight, List.map_append, List.sum_append, List.map_reverse, List.sum_reverse]
          show weight (comps.reverse ++ work) ≤ fuel
          rw [h3]
          have h4 : weight (T :: work) = (2 * T.toList.length - 1) + weight work := by
            simp [weight]
          simp only at hw
          omega

theorem init_MInv (g : Graph K) (ρ : Rnd) (hn : 0 < g.n) :
    MInv g ⟨[mkTreap ρ.top (List.range g.n)], fun _ => 0, 0, [], 0⟩ ∧
    weight [mkTreap ρ.top (List.range g.n)] ≤ 2 * g.n := by
  obtain ⟨h1, h2⟩ := mkTreap_spec ρ.top (List.range g.n)
  have hnofin : ∀ x, ¬ Fin' g.n ⟨[mkTreap ρ.top (List.range g.n)], fun _ => 0, 0, [], 0⟩ x := by
    rintro x ⟨hx, hh⟩
    exact hh _ (by simp) ((h2 x).2 (by simp [hx]))
  refine ⟨⟨?_, by simp, ?_, fun x hx => (hnofin x hx).elim, by simp, fun x y hx => (hnofin x hx).elim,
    by simp, by simp⟩, ?_⟩
  · intro T hT
    simp only [List.mem_singleton] at hT
    subst hT
    refine ⟨h1, ?_, fun x hx => by simpa using (h2 x).1 hx⟩
    intro hnil
    have := (h2 0).2 (by simp [hn])
    rw [hnil] at this; simp at this
  · intro E act hE hEn
    refine Or.inl ⟨_, by simp, fun x hx => (h2 x).2 (by simpa using hEn hx)⟩
  · have : (mkTreap ρ.top (List.range g.n)).toList.Perm (List.range g.n) :=
      (List.perm_ext_iff_of_nodup h1.nodup List.nodup_range).2 h2
    simp only [weight, List.map_cons, List.map_nil, List.sum_cons, List.sum_nil, this.length_eq,
      List.length_range]
    omega

theorem properMecs_spec (g : Graph K) (ρ : Rnd) (st : MState) (c : Nat) :
    g.properMecs ρ st c = true ↔
      ∃ v < g.n, st.ret v = c ∧ (c ∉ st.singles ∨ g.singletonProper ρ v = true) := by
  have key : ∀ (l : List Nat) (pm : Nat → Bool),
      (l.foldl (fun pm v =>
        if !(mkTreap ρ.singles st.singles).mem (st.ret v) then Function.update pm (st.ret v) true
        else if g.singletonProper ρ v then Function.update pm (st.ret v) true else pm) pm) c = true ↔
      pm c = true ∨ ∃ v ∈ l, st.ret v = c ∧ (c ∉ st.singles ∨ g.singletonProper ρ v = true) := by
    intro l
    induction l with
    | nil => simp
    | cons v l ih =>
      intro pm
      rw [List.foldl_cons, ih]
      have hm : (!(mkTreap ρ.singles st.singles).mem (st.ret v)) = true ↔ st.ret v ∉ st.singles := by
        rw [Bool.not_eq_true', ← Bool.not_eq_true, mem_mkTreap]
      have hu : (if (!(mkTreap ρ.singles st.singles).mem (st.ret v)) = true then
            Function.update pm (st.ret v) true
          else if g.singletonProper ρ v = true then Function.update pm (st.ret v) true else pm) c = true ↔
          pm c = true ∨ (st.ret v = c ∧ (c ∉ st.singles ∨ g.singletonProper ρ v = true)) := by
        by_cases e : c = st.ret v
        · subst e
          by_cases h1 : st.ret v ∈ st.singles
          · rw [if_neg (by rw [hm]; simpa using h1)]
            by_cases h2 : g.singletonProper ρ v = true
            · simp [h2]
            · simp [h1, h2]
          · rw [if_pos (hm.2 h1)]; simp [h1]
        · have e' : ¬ st.ret v = c := fun h => e h.symm
          simp only [e', false_and, or_false]
          split_ifs <;> simp [Function.update_of_ne e]
      rw [hu]
      constructor
      · rintro ((h | h) | ⟨w, hw, h⟩)
        · exact Or.inl h
        · exact Or.inr ⟨v, by simp, h⟩
        · exact Or.inr ⟨w, by simp [hw], h⟩
      · rintro (h | ⟨w, hw, h⟩)
        · exact Or.inl (Or.inl h)
        · rcases List.mem_cons.1 hw with rfl | hw
          · exact Or.inl (Or.inr h)
          · exact Or.inr ⟨w, hw, h⟩
  have := key (List.range g.n) (fun _ => false)
  simpa [properMecs] using this

/-- a singleton is reported proper iff some action only loops, or there is no action at all -/
theorem singletonProper_spec (g : Graph K) (ρ : Rnd) (v : Nat) :
    g.singletonProper ρ v = true ↔
      (∃ a, (∃ d, gtr g v a d) ∧ ∀ d, gtr g v a d → d = v) ∨ ∀ a d, ¬ gtr g v a d := by
  obtain ⟨a1, a2⟩ := mkTreap_spec (ρ.act v) ((g.succ v).map fun t => t.2.1)
  obtain ⟨b1, b2⟩ := mkTreap_spec (ρ.act' v) (((g.succ v).filter fun t => t.1 ≠ v).map fun t => t.2.1)
  set all := mkTreap (ρ.act v) ((g.succ v).map fun t => t.2.1) with hall
  set non := mkTreap (ρ.act' v) (((g.succ v).filter fun t => t.1 ≠ v).map fun t => t.2.1) with hnon
  have hA : ∀ a, a ∈ all.toList ↔ ∃ d, gtr g v a d := by
    intro a; rw [a2]
    simp only [List.mem_map, gtr]
    constructor
    · rintro ⟨⟨d, a', p⟩, h, rfl⟩; exact ⟨d, p, h⟩
    · rintro ⟨d, p, h⟩; exact ⟨_, h, rfl⟩
  have hN : ∀ a, a ∈ non.toList ↔ ∃ d, gtr g v a d ∧ d ≠ v := by
    intro a; rw [b2]
    simp only [List.mem_map, List.mem_filter, decide_eq_true_eq, gtr]
    constructor
    · rintro ⟨⟨d, a', p⟩, ⟨h, hne⟩, rfl⟩; exact ⟨d, ⟨p, h⟩, hne⟩
    · rintro ⟨d, ⟨p, h⟩, hne⟩; exact ⟨_, ⟨h, hne⟩, rfl⟩
  have hsub : non.toList ⊆ all.toList := by
    intro a ha
    obtain ⟨d, h, _⟩ := (hN a).1 ha
    exact (hA a).2 ⟨d, h⟩
  have hsize : non.size = all.size ↔ ∀ a, a ∈ all.toList → a ∈ non.toList := by
    rw [b1.size_eq, a1.size_eq]
    constructor
    · intro hl a ha
      have hp : non.toList.Subperm all.toList := List.subperm_of_subset b1.nodup hsub
      exact (hp.perm_of_length_le (by omega)).mem_iff.2 ha
    · intro hh
      exact ((List.perm_ext_iff_of_nodup b1.nodup a1.nodup).2 fun a => ⟨fun h => hsub h, hh a⟩).length_eq
  have hdef : g.singletonProper ρ v = true ↔ non = .nil ∨ non.size ≠ all.size := by
    have hd : ∀ t : Treap Nat, (match t with
      | .nil => true
      | .node _ _ sz _ _ => decide (sz ≠ all.size)) = true ↔ t = .nil ∨ t.size ≠ all.size := by
      intro t
      cases t with
      | nil => simp
      | node k p sz l r =>
        have : (Treap.node k p sz l r).size = sz := rfl
        rw [this]; simp
    exact hd non
  have hnil : non = .nil ↔ ∀ a, a ∉ non.toList := by
    cases hn : non with
    | nil => simp [Treap.toList]
    | node k p sz l r =>
      refine iff_of_false (by simp) ?_
      intro h
      exact h k (by simp [Treap.toList])
  rw [hdef, hnil, Ne, hsize]
  constructor
  · rintro (h | h)
    · by_cases hall' : ∃ a d, gtr g v a d
      · obtain ⟨a, d, hd⟩ := hall'
        left
        refine ⟨a, ⟨d, hd⟩, fun d' hd' => ?_⟩
        by_contra hne
        exact h a ((hN a).2 ⟨d', hd', hne⟩)
      · right; push Not at hall'; exact hall'
    · push Not at h
      obtain ⟨a, ha, hna⟩ := h
      left
      refine ⟨a, (hA a).1 ha, fun d hd => ?_⟩
      by_contra hne
      exact hna ((hN a).2 ⟨d, hd, hne⟩)
  · rintro (⟨a, ha, hall'⟩ | h)
    · right
      intro hh
      obtain ⟨d, hd, hne⟩ := (hN a).1 (hh a ((hA a).2 ha))
      exact hne (hall' d hd)
    · left
      intro a ha
      obtain ⟨d, hd, _⟩ := (hN a).1 ha
      exact h a d hd

/-- result of `maximal_end_components` on a graph with at least one node -/
theorem mec_spec (g : Graph K) (ρ : Rnd) (hn : 0 < g.n) (hg : ∀ x t, t ∈ g.succ x → t.1 < g.n) :
    ∃ ret pm cnt, g.maximalEndComponents ρ = some (ret, pm, cnt) ∧
      (∀ x < g.n, ∀ y < g.n, x ≠ y → (ret x = ret y ↔
        ∃ E act, GraphEC (gtr g) E act ∧ E ⊆ {x | x < g.n} ∧ x ∈ E ∧ y ∈ E)) ∧
      (∀ x < g.n, ret x < cnt) ∧ (∀ c < cnt, ∃ x < g.n, ret x = c) ∧
      (∀ x < g.n, (pm (ret x) = true ↔
        (∃ E act, GraphEC (gtr g) E act ∧ E ⊆ {x | x < g.n} ∧ x ∈ E) ∨ ∀ a d, ¬ gtr g x a d)) := by
  obtain ⟨h1, h2⟩ := init_MInv g ρ hn
  obtain ⟨st, hst, h, hwork⟩ := mecLoop_spec g ρ hg (2 * g.n) _ h1 h2
  have hfin : ∀ x, Fin' g.n st x ↔ x < g.n := by intro x; simp [Fin', hwork]
  have hsame : ∀ x < g.n, ∀ y < g.n, x ≠ y → (st.ret x = st.ret y ↔
      ∃ E act, GraphEC (gtr g) E act ∧ E ⊆ {x | x < g.n} ∧ x ∈ E ∧ y ∈ E) := by
    intro x hx y hy hne
    constructor
    · intro he
      set C := {z | Fin' g.n st z ∧ st.ret z = st.ret x} with hC
      have hconn : ∀ u ∈ C, ∀ w ∈ C, Relation.ReflTransGen (StayEdge (gtr g) C) u w := by
        intro u hu w hw
        have := h.conn u w hu.1 hw.1 (hu.2.trans hw.2.symm)
        rw [hu.2] at this
        exact this
      have hxC : x ∈ C := ⟨(hfin x).2 hx, rfl⟩
      have hyC : y ∈ C := ⟨(hfin y).2 hy, he.symm⟩
      refine ⟨C, fun u => {a | (∃ d, gtr g u a d) ∧ ∀ w, gtr g u a w → w ∈ C}, ⟨⟨x, hxC⟩, ?_, ?_, ?_, ?_⟩,
        fun z hz => (hfin z).1 hz.1, hxC, hyC⟩
      · intro u hu
        obtain ⟨w, hw, huw⟩ : ∃ w ∈ C, u ≠ w := by
          by_cases e : u = x
          · exact ⟨y, hyC, e ▸ hne⟩
          · exact ⟨x, hxC, e⟩
        rcases Relation.ReflTransGen.cases_head (hconn u hu w hw) with e | ⟨z, ⟨a, ha, hall⟩, _⟩
        · exact absurd e huw
        · exact ⟨a, ⟨z, ha⟩, hall⟩
      · exact fun u _ a ha => ha.1
      · exact fun u _ a ha d hd => ha.2 d hd
      · intro u hu w hw
        have hp := hconn u hu w hw
        have : ∀ w, Relation.ReflTransGen (StayEdge (gtr g) C) u w →
            w ∈ C ∧ Relation.ReflTransGen (fun u v => u ∈ C ∧ ∃ a ∈ {a | (∃ d, gtr g u a d) ∧
              ∀ w, gtr g u a w → w ∈ C}, gtr g u a v) u w := by
          intro w hp
          induction hp with
          | refl => exact ⟨hu, Relation.ReflTransGen.refl⟩
          | tail _ e ih =>
            obtain ⟨a, ha, hall⟩ := e
            exact ⟨hall _ ha, ih.2.tail ⟨ih.1, a, ⟨⟨_, ha⟩, hall⟩, ha⟩⟩
        exact (this w hp).2
    · rintro ⟨E, act, hE, hEn, hxE, hyE⟩
      rcases h.ec E act hE hEn with ⟨T, hT, _⟩ | ⟨c, hc⟩
      · rw [hwork] at hT; simp at hT
      · rw [(hc x hxE).2, (hc y hyE).2]
  refine ⟨st.ret, g.properMecs ρ st, st.cnt, ?_, hsame, fun x hx => h.lt x ((hfin x).2 hx), ?_, ?_⟩
  · rw [maximalEndComponents, hst]; rfl
  · intro c hc
    obtain ⟨x, hx, e⟩ := h.used c hc
    exact ⟨x, (hfin x).1 hx, e⟩
  · intro x hx
    rw [properMecs_spec]
    constructor
    · rintro ⟨v, hv, hvc, hprop⟩
      by_cases hs : st.ret x ∈ st.singles
      · have hvx : v = x := (h.single _ hs).2 v x ((hfin v).2 hv) ((hfin x).2 hx) hvc rfl
        subst hvx
        rcases hprop with hp | hp
        · exact absurd hs hp
        · rcases (singletonProper_spec g ρ v).1 hp with ⟨a, ⟨d, hd⟩, hall⟩ | hno
          · left
            have hself : gtr g v a v := by have := hall d hd; rwa [this] at hd
            refine ⟨{v}, fun _ => {a}, ⟨⟨v, rfl⟩, fun _ _ => ⟨a, rfl⟩, ?_, ?_, ?_⟩, ?_, rfl⟩
            · rintro s rfl b rfl; exact ⟨_, hself⟩
            · rintro s rfl b rfl d hd; exact hall d hd
            · rintro s rfl t rfl; exact Relation.ReflTransGen.refl
            · rintro s rfl; exact hx
          · exact Or.inr hno
      · left
        obtain ⟨u, w, hu, hw, huc, hwc, hne⟩ := h.multi _ (h.lt x ((hfin x).2 hx)) hs
        obtain ⟨y, hy, hyc, hyne⟩ : ∃ y, y < g.n ∧ st.ret y = st.ret x ∧ x ≠ y := by
          by_cases e : x = u
          · exact ⟨w, (hfin w).1 hw, hwc, e ▸ hne⟩
          · exact ⟨u, (hfin u).1 hu, huc, e⟩
        obtain ⟨E, act, hE, hEn, hxE, _⟩ := (hsame x hx y hy hyne).1 hyc.symm
        exact ⟨E, act, hE, hEn, hxE⟩
    · intro hh
      refine ⟨x, hx, rfl, ?_⟩
      by_cases hs : st.ret x ∈ st.singles
      · right
        rw [singletonProper_spec]
        rcases hh with ⟨E, act, hE, hEn, hxE⟩ | hno
        · left
          have hEx : ∀ y ∈ E, y = x := by
            intro y hy
            by_contra hne
            have := (hsame x hx y (hEn hy) (Ne.symm hne)).2 ⟨E, act, hE, hEn, hxE, hy⟩
            exact hne ((h.single _ hs).2 y x ((hfin y).2 (hEn hy)) ((hfin x).2 hx) this.symm rfl)
          obtain ⟨a, ha⟩ := hE.act_nonempty x hxE
          exact ⟨a, hE.avail x hxE a ha, fun d hd => hEx d (hE.closed x hxE a ha d hd)⟩
        · exact Or.inr hno
      · exact Or.inl hs

end Verif.Proofs
