import Verif.Proofs.Depth
import Verif.Proofs.RowsSys
import Verif.Props.Accept
import Verif.Props.SystemGraph
/-!
# C101: nested calls when end components are computed

`ReachabilityForm(system, …)` computes the end components of the system (reachability_form.py:55), by functions that call
themselves once per state on a path of the search (graph.pyx:116).  Each active call occupies a part of the C stack.
-/
set_option linter.unusedSectionVars false

namespace Verif.Props
open Verif.Model Verif.Spec Verif.Proofs

variable {K : Type} [Field K] [LinearOrder K] [IsStrictOrderedRing K]

/-- the largest number of transitions of a state of the matrix -/
def branching (P : Dok K) (idx : Dict (Nat × Nat) Nat) (A : Nat) : Prop :=
  ∀ s < P.cols, ((P.items.filter fun e => (invGet? idx e.1.1).map Prod.fst = some s).length) ≤ A

theorem succ_length {n : Nat} {idx : Dict (Nat × Nat) Nat} {items : List ((Nat × Nat) × K)} {g : Graph K}
    (hg : Graph.build n (invGet? idx) items (Graph.empty n) = .ok g) (s : Nat) :
    (g.succ s).length = (items.filter fun e => (invGet? idx e.1.1).map Prod.fst = some s).length := by
  rw [(build_spec _ _ _ hg).2.1 s]
  simp only [Graph.empty, List.nil_append]
  rw [List.length_filterMap_eq_countP, List.countP_eq_length_filter]
  refine congrArg List.length (List.filter_congr fun e _ => ?_)
  unfold outOf
  cases invGet? idx e.1.1 with
  | none => simp
  | some sa =>
    obtain ⟨s', a⟩ := sa
    by_cases e : s' = s
    · simp [e]
    · simp [e]

/-- **C101 (partial).** For every constructed system with a state, `maximal_end_components` answers as with an unlimited stack
as soon as there is room for `N + max N A + 1` nested calls, `N` the number of states and `A` the largest number of transitions of a state. -/
theorem C101_enough_partial {P : Dok K} {M : Sys K} {idx : Dict (Nat × Nat) Nat} (hk : (idx.map Prod.fst).Nodup)
    (h : Constructed P M idx) (hn : 0 < P.cols) {A : Nat} (hA : branching P idx A) (ρ : Graph.Rnd) :
    ∃ res d, M.graph.maximalEndComponents ρ = some res ∧ M.graph.maximalEndComponentsD ρ = some (res, d) ∧
      d ≤ P.cols + max P.cols A + 1 := by
  obtain ⟨hMP, hi, hv, hg⟩ := h.facts hk
  have hN : M.N = P.cols := by simp only [Sys.N, hMP]
  obtain ⟨mecs, proper, cnt, h1, -, h2, h3⟩ := C07_system hk h hn ρ
  have hmap := maximalEndComponentsD_map M.graph ρ
  rw [h1] at hmap
  obtain ⟨⟨res, d⟩, h4, h5⟩ := Option.map_eq_some_iff.1 hmap
  simp only at h5
  subst h5
  refine ⟨_, d, h1, h4, ?_⟩
  obtain ⟨e1, e2, -⟩ := build_range hg
  have hcnt : cnt ≤ M.graph.n := by
    rw [e1, hN]
    choose f hf using h3
    have : Function.Injective fun c : Fin cnt => (⟨f c c.2, (hf c c.2).1⟩ : Fin P.cols) := by
      intro a b hab
      have : f a a.2 = f b b.2 := congrArg Fin.val hab
      ext
      rw [← (hf a a.2).2, ← (hf b b.2).2, this]
    simpa using Fintype.card_le_of_injective _ this
  have := maximalEndComponentsD_le (fun x _ t ht => e2 x t ht) ρ (q := ((mecs, proper, cnt), d)) hcnt h4
  have hdeg : degBound M.graph ≤ A := by
    unfold degBound
    rw [maxD_le]
    intro x hx
    obtain ⟨s, hs, rfl⟩ := List.mem_map.1 hx
    rw [List.mem_range, e1, hN] at hs
    refine le_trans ?_ (hA s hs)
    exact (succ_length hg s).le
  rw [e1, hN] at this
  simp only at this
  omega

/-! ### A chain that needs as many calls as it has states -/

/-- `n` states in a circle; the last leaves the circle for the target with probability 1/2 -/
def ring (n i : Nat) : List (Nat × ℚ) :=
  if i + 1 < n then [(i + 1, 1)] else if i + 1 = n then [(0, 1/2), (n, 1/2)] else [(i, 1)]

theorem ring_good {n : Nat} (hn : 0 < n) : GoodRows (n + 2) (ring n) := by
  refine ⟨fun i hi => ?_, fun i hi e he => ?_, fun i hi e he => ?_, fun i hi => ?_⟩
  · unfold ring; split
    · simp
    · split
      · simp; omega
      · simp
  · unfold ring at he
    split at he
    · simp only [List.mem_singleton] at he; subst he; simp only; omega
    · split at he
      · simp only [List.mem_cons, List.not_mem_nil, or_false] at he
        rcases he with rfl | rfl <;> simp only <;> omega
      · simp only [List.mem_singleton] at he; subst he; exact hi
  · unfold ring at he
    split at he
    · simp only [List.mem_singleton] at he; subst he; norm_num
    · split at he
      · simp only [List.mem_cons, List.not_mem_nil, or_false] at he
        rcases he with rfl | rfl <;> norm_num
      · simp only [List.mem_singleton] at he; subst he; norm_num
  · unfold ring; split
    · simp
    · split
      · simp; norm_num
      · simp

theorem dfold_mono {rec : Nat → Graph.TState → Graph.TState × Nat} (v : Nat) (ws : List Nat) (q : Graph.TState × Nat) :
    q.2 ≤ (ws.foldl (dstep rec v) q).2 := by
  induction ws generalizing q with
  | nil => exact le_rfl
  | cons w ws ih =>
    rw [List.foldl_cons]
    refine le_trans ?_ (ih _)
    unfold dstep
    cases q.1.idx w with
    | none => exact le_max_left _ _
    | some k => exact le_rfl

/-- along a path of unvisited states whose next state is always asked first, the calls are nested -/
theorem deep {adj : Nat → List Nat} {loc : Nat → Nat} (k : Nat) : ∀ (fuel : Nat) (f : Nat → Nat) (st : Graph.TState), k ≤ fuel →
    (∀ j, j + 1 < k → ∃ rest, adj (f j) = f (j + 1) :: rest) → (∀ i < k, ∀ j < k, f i = f j → i = j) →
    (∀ j < k, st.idx (f j) = none) → k ≤ (Graph.strongconnectD adj loc fuel (f 0) st).2 := by
  induction k with
  | zero => intros; exact Nat.zero_le _
  | succ k ih =>
    intro fuel f st hf hadj hinj hst
    obtain ⟨fuel, rfl⟩ : ∃ m, fuel = m + 1 := ⟨fuel - 1, by omega⟩
    rw [strongconnectD_eq]
    simp only
    refine Nat.succ_le_succ ?_
    by_cases hk : k = 0
    · omega
    obtain ⟨rest, hr⟩ := hadj 0 (by omega)
    rw [hr, List.foldl_cons]
    refine le_trans ?_ (dfold_mono _ _ _)
    have hidx : ∀ j < k, (Graph.openNode (f 0) st).idx (f (j + 1)) = none := by
      intro j hj
      simp only [Graph.openNode]
      rw [Function.update_of_ne, hst (j + 1) (by omega)]
      intro e
      have := hinj _ (by omega) _ (by omega) e
      omega
    have := ih fuel (fun j => f (j + 1)) (Graph.openNode (f 0) st) (by omega) (fun j hj => hadj (j + 1) (by omega))
      (fun i hi j hj e => by have := hinj _ (by omega) _ (by omega) e; omega) hidx
    unfold dstep
    simp only [hidx 0 (by omega)]
    exact this.trans (le_max_right _ _)

theorem rfolds_mono {adj : Nat → List Nat} {loc : Nat → Nat} {n : Nat} (rs : List Nat) (q : Graph.TState × Nat) :
    q.2 ≤ (rs.foldl (rfold adj loc n) q).2 := by
  induction rs generalizing q with
  | nil => exact le_rfl
  | cons r rs ih =>
    rw [List.foldl_cons]
    refine le_trans ?_ (ih _)
    unfold rfold
    cases q.1.idx r with
    | none => exact le_max_left _ _
    | some k => exact le_rfl

/-- whatever the order of the roots: the first one in the circle starts a search through the whole circle -/
theorem roots_deep {adj : Nat → List Nat} {loc : Nat → Nat} {n m : Nat} (hnm : n ≤ m) (hn : 0 < n)
    (hadj : ∀ i < n, ∃ rest, adj i = ((i + 1) % n) :: rest) {V : Nat → Prop} (hV : ∀ x, V x → n ≤ x)
    (hout : ∀ x y, V x → y ∈ adj x → V y) (rs : List Nat) (hrs : ∃ r ∈ rs, r < n) (hrV : ∀ r ∈ rs, r < n ∨ V r)
    (q : Graph.TState × Nat) (hq : ∀ x, q.1.idx x ≠ none → V x) :
    n ≤ (rs.foldl (rfold adj loc m) q).2 := by
  induction rs generalizing q with
  | nil => obtain ⟨r, hr, -⟩ := hrs; cases hr
  | cons r rs ih =>
    rw [List.foldl_cons]
    by_cases hr : r < n
    · refine le_trans ?_ (rfolds_mono rs _)
      have h0 : q.1.idx r = none := by
        by_contra hc
        exact absurd (hV r (hq r hc)) (by omega)
      unfold rfold
      rw [h0]
      refine le_trans ?_ (le_max_right _ _)
      have := deep (adj := adj) (loc := loc) n (m + 1) (fun j => (r + j) % n) q.1 (by omega) (fun j _ => by
          obtain ⟨rest, h⟩ := hadj ((r + j) % n) (Nat.mod_lt _ hn)
          refine ⟨rest, ?_⟩
          rw [h, Nat.mod_add_mod, ← add_assoc]) (fun i hi j hj e => by
          have e : (r + i) ≡ (r + j) [MOD n] := e
          exact Nat.ModEq.eq_of_lt_of_lt (Nat.ModEq.add_left_cancel' r e) hi hj) (fun j _ => by
          by_contra hc
          exact absurd (hV _ (hq _ hc)) (by have := Nat.mod_lt (r + j) hn; omega))
      simp only [Nat.add_zero, Nat.mod_eq_of_lt hr] at this
      exact this
    · refine ih ?_ (fun r hr => hrV r (by simp [hr])) _ ?_
      · obtain ⟨r', h1, h2⟩ := hrs
        rcases List.mem_cons.1 h1 with rfl | h1
        · exact absurd h2 hr
        · exact ⟨r', h1, h2⟩
      · unfold rfold
        cases q.1.idx r with
        | none =>
          simp only [strongconnectD_fst]
          exact strongconnect_vis (V := V) hout _ r q.1 ((hrV r (by simp)).resolve_left hr) hq
        | some _ => exact hq

theorem mecLoopD_ge {g : Graph K} {ρ : Graph.Rnd} (fuel : Nat) : ∀ s d q, g.mecLoopD ρ fuel s d = some q → d ≤ q.2 := by
  induction fuel with
  | zero =>
    rintro ⟨_ | ⟨T, work⟩, ret, cnt, singles, tid⟩ d q h
    · simp only [Graph.mecLoopD, Option.some.injEq] at h
      subst h; exact le_rfl
    · simp [Graph.mecLoopD] at h
  | succ fuel ih =>
    rintro ⟨_ | ⟨T, work⟩, ret, cnt, singles, tid⟩ d q h
    · simp only [Graph.mecLoopD, Option.some.injEq] at h
      subst h; exact le_rfl
    · simp only [Graph.mecLoopD] at h
      split at h
      · exact le_trans (le_maxD (by simp)) (ih _ _ _ h)
      · exact le_trans (le_maxD (by simp)) (ih _ _ _ h)

/-- the first round is counted -/
theorem mecD_ge_first {g : Graph K} {ρ : Graph.Rnd} (hn : 0 < g.n) {q : ((Nat → Nat) × (Nat → Bool) × Nat) × Nat}
    (h : g.maximalEndComponentsD ρ = some q) :
    (g.sccOfD (Graph.mkTreap ρ.top (List.range g.n)) (ρ.bad 0) (ρ.low0 0) (ρ.on0 0)).2 ≤ q.2 := by
  unfold Graph.maximalEndComponentsD at h
  obtain ⟨⟨s, d⟩, hs, rfl⟩ := Option.map_eq_some_iff.1 h
  simp only
  refine le_trans ?_ (le_maxD (List.mem_cons_self))
  obtain ⟨m, hm⟩ : ∃ m, 2 * g.n = m + 1 := ⟨2 * g.n - 1, by omega⟩
  rw [hm] at hs
  simp only [Graph.mecLoopD] at hs
  split at hs
  · obtain ⟨-, rfl⟩ := Prod.mk.inj (Option.some.inj hs)
    exact le_maxD (by simp)
  · exact le_trans (le_maxD (by simp)) (mecLoopD_ge _ _ _ _ hs)

/-- labels of the example -/
def ringLabels (n : Nat) : IDict String Nat := IDict.mk' [("init", [0]), ("goal", [n]), ("fail", [n + 1])] false

/-- **C101 is false:** for every number `D` there is a Markov chain with `D + 3` states that the constructors accept, for which
the construction of the reachability form needs more than `D` nested calls, whatever random numbers are drawn: no size of the
C stack is enough for all systems. -/
theorem C101_false (D : Nat) : ∃ (P : Dok ℚ) (M : Sys ℚ), P.rows = D + 3 ∧ P.cols = D + 3 ∧ branching P (Sys.dtmcIndex P.rows) 2 ∧
    Sys.makeDTMC P (ringLabels (D + 1)) none none = .ok M ∧ M.WF ∧
    ∀ ρ : Graph.Rnd, (∃ rf, RF.make ρ M "init" "goal" "fail" false = .ok rf) ∧
      ∃ res d, M.graph.maximalEndComponentsD ρ = some (res, d) ∧ D < d := by
  obtain ⟨M, hM, hwf, hP, hidx, hlab, hn, hsucc⟩ := rows_make (ring_good (n := D + 1) (by omega)) (ringLabels (D + 1))
  have hMN : M.N = D + 3 := by simp only [Sys.N, hP]
  have hMC : M.C = D + 3 := by simp only [Sys.C, hP]
  refine ⟨_, M, rfl, rfl, ?_, hM, hwf, fun ρ => ⟨?_, ?_⟩⟩
  · intro s hs
    have := succ_length hwf.graph s
    rw [hP, hidx] at this
    refine this.symm.le.trans ?_
    rw [hsucc s hs]
    unfold ring
    split
    · simp
    · split <;> simp
  · have hl : LabelMap M.labS := ⟨id, [("init", [0]), ("goal", [D + 1]), ("fail", [D + 1 + 1])], false, [], fun _ => List.Perm.refl _,
      ⟨by simp, by simp⟩, hlab⟩
    have hst : ∀ l s, (ringLabels (D + 1)).getItem l = .ok [s] → M.labelled l = {s} := fun l s h =>
      labelled_of_single (by rw [Sys.statesByLabel, hlab]; exact h)
    have hi : M.labelled "init" = {0} := hst _ _ rfl
    have hget : ∀ s < D + 3, ∀ e ∈ ring (D + 1) s, M.P.get s e.1 = e.2 := fun s hs e he => by
      rw [Dok.get, (Dict.get?_iff_mem (v := e.2) hwf.nodup).2 (by rw [hP]; exact mem_rowsItems.2 ⟨hs, he⟩)]
      rfl
    have hedge : ∀ s < D + 3, ∀ e ∈ ring (D + 1) s, Edge M s e.1 := fun s hs e he =>
      ⟨0, s, by rw [hidx]; exact mem_dtmcIndex.2 ⟨rfl, rfl, hs⟩, by rw [hMC]; exact hs, by
        rw [hget s hs e he]; exact (ring_good (by omega)).pos s hs e he⟩
    have hnext : ∀ s, s + 1 < D + 1 → Edge M s (s + 1) := fun s hs => hedge s (by omega) (s + 1, 1) (by rw [ring, if_pos hs]; simp)
    have hgoal : Edge M D (D + 1) := hedge D (by omega) (D + 1, 1/2) (by rw [ring, if_neg (by omega), if_pos rfl]; simp)
    have habs : ∀ s, D + 1 ≤ s → s < D + 3 → Absorbs M s s := fun s h1 h2 =>
      ⟨⟨0, by rw [hidx]; exact mem_dtmcIndex.2 ⟨rfl, rfl, h2⟩⟩, fun a i h _ => by
        rw [hidx] at h; exact (mem_dtmcIndex.1 h).1.symm, by
        exact hget s h2 (s, 1) (by rw [ring, if_neg (by omega), if_neg (by omega)]; simp)⟩
    have hfrom : ∀ s ≤ D, Relation.ReflTransGen (Edge M) 0 s := by
      intro s hs
      induction s with
      | zero => exact .refl
      | succ s ih => exact (ih (by omega)).tail (hnext s (by omega))
    have hto : ∀ k s, s + k = D → Relation.ReflTransGen (Edge M) s (D + 1) := by
      intro k
      induction k with
      | zero => intro s hs; rw [Nat.add_zero] at hs; subst hs; exact .single hgoal
      | succ k ih => intro s hs; exact .head (hnext s (by omega)) (ih (s + 1) (by omega))
    refine (C72_accepts_iff hwf hl (fun s hs => ?_)).2 ⟨0, ⟨by decide, by omega, hi, ?_, ?_, ?_, ?_, ?_, ?_⟩⟩
    · rw [hi] at hs
      rw [hMN, show s = 0 from hs]; omega
    · rw [hMN]; exact hst _ _ rfl
    · rw [hMN]; exact hst _ _ rfl
    · rw [hMN, hMC]; exact habs _ (by omega) (by omega)
    · rw [hMN, hMC]; exact habs _ (by omega) (by omega)
    · intro s hs hne
      rw [hMN] at hs hne
      rcases Nat.lt_or_ge s (D + 1) with h | h
      · exact hfrom s (by omega)
      · obtain rfl : s = D + 1 := by omega
        exact (hfrom D le_rfl).tail hgoal
    · intro s hs hne
      rw [hMN] at hs hne ⊢
      rcases Nat.lt_or_ge s (D + 1) with h | h
      · exact hto (D - s) s (by omega)
      · obtain rfl : s = D + 1 := by omega
        exact .refl
  · obtain ⟨mecs, proper, cnt, h1, -⟩ := C07_mec hwf.graph (by rw [hMN]; omega) ρ
    have hmap := maximalEndComponentsD_map M.graph ρ
    rw [h1] at hmap
    obtain ⟨⟨res, d⟩, h4, -⟩ := Option.map_eq_some_iff.1 hmap
    refine ⟨res, d, h4, ?_⟩
    refine lt_of_lt_of_le ?_ (mecD_ge_first (by omega) h4)
    set T := Graph.mkTreap ρ.top (List.range M.graph.n) with hT
    have hadj : ∀ h : Nat → Int, ∀ v < D + 3, M.graph.adj T h v = (ring (D + 1) v).map Prod.fst := by
      intro h v hv
      have hb : ∀ a, (Graph.badActions (M.graph.succ v) T h).mem a = false := by
        intro a
        rw [Bool.eq_false_iff, Ne, Graph.badActions, mem_mkTreap]
        intro hm
        obtain ⟨t, ht, -⟩ := List.mem_map.1 hm
        obtain ⟨ht, hc⟩ := List.mem_filter.1 ht
        rw [hsucc v hv] at ht
        obtain ⟨e, he, rfl⟩ := List.mem_map.1 ht
        have hlt := (ring_good (n := D + 1) (by omega)).range v hv e he
        have : T.mem e.1 = true := by rw [hT, mem_mkTreap, hn]; exact List.mem_range.2 hlt
        simp only [this] at hc
        cases hc
      unfold Graph.adj
      rw [List.filter_eq_self.2 (fun t _ => by rw [hb]; rfl), hsucc v hv, List.map_map]
      rfl
    have := roots_deep (adj := fun v => M.graph.adj T (ρ.bad 0 v) v) (loc := fun v => M.graph.localD T (ρ.bad 0 v) v)
      (n := D + 1) (m := M.graph.n) (by omega) (by omega) (fun i hi => by
        rw [hadj _ i (by omega)]
        by_cases h : i + 1 < D + 1
        · exact ⟨[], by rw [ring, if_pos h, Nat.mod_eq_of_lt h]; rfl⟩
        · obtain rfl : i = D := by omega
          exact ⟨[i + 1], by rw [ring, if_neg h, if_pos rfl, Nat.mod_self]; rfl⟩)
      (V := fun x => D + 1 ≤ x ∧ x < D + 3) (fun x hx => hx.1) (fun x y hx hy => by
        rw [hadj _ x hx.2, ring, if_neg (by omega), if_neg (by omega)] at hy
        simp only [List.map_cons, List.map_nil, List.mem_singleton] at hy
        rw [hy]; exact hx)
      T.toList ⟨0, by rw [hT, (mkTreap_spec _ _).2, List.mem_range]; omega, by omega⟩ (fun r hr => by
        rw [hT, (mkTreap_spec _ _).2, List.mem_range] at hr
        by_cases h : r < D + 1
        · exact .inl h
        · exact .inr ⟨by omega, by omega⟩)
      (⟨fun _ => none, ρ.low0 0, ρ.on0 0, [], 0, fun _ => 0, 1⟩, T.walkD) (by simp)
    exact this

/-- the hypotheses of `C101_enough_partial` are met: the ring with three states -/
example : ∃ (P : Dok ℚ) (M : Sys ℚ), Constructed P M (Sys.dtmcIndex P.rows) ∧ 0 < P.cols ∧ branching P (Sys.dtmcIndex P.rows) 2 := by
  obtain ⟨P, M, h1, h2, h3, h4, -⟩ := C101_false 2
  exact ⟨P, M, .dtmcDefault _ _ h4, by omega, h3⟩

end Verif.Props
