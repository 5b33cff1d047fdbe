import Verif.Model.Depth
import Verif.Proofs.SccMem
import Verif.Proofs.Mec
/-! # Nested calls of the graph functions: erasing the counter, bounds -/
namespace Verif.Proofs
open Verif.Model

set_option linter.unusedSectionVars false

namespace TreapD
variable {α : Type} [LinearOrder α]

theorem memD_le (t : Treap α) (x : α) : t.memD x ≤ t.toList.length + 1 := by
  induction t with
  | nil => simp [Treap.memD]
  | node k h n l r ihl ihr =>
    simp only [Treap.memD, Treap.toList, List.length_cons, List.length_append]
    split
    · omega
    · split <;> omega

theorem splitD_le (t : Treap α) (x : α) : t.splitD x ≤ t.toList.length + 1 := by
  induction t with
  | nil => simp [Treap.splitD]
  | node k h n l r ihl ihr =>
    simp only [Treap.splitD, Treap.toList, List.length_cons, List.length_append]
    split
    · omega
    · split <;> omega

theorem insertD_le (t : Treap α) (x : α) (hx : Int) : t.insertD x hx ≤ t.toList.length + 2 := by
  induction t with
  | nil => simp [Treap.insertD]
  | node k h n l r ihl ihr =>
    simp only [Treap.insertD, Treap.toList, List.length_cons, List.length_append]
    split
    · omega
    · split
      · split <;> omega
      · have := splitD_le (Treap.node k h n l r) x
        simp only [Treap.toList, List.length_cons, List.length_append] at this
        omega

theorem walkD_le (t : Treap α) : t.walkD ≤ t.toList.length + 1 := by
  induction t with
  | nil => simp [Treap.walkD]
  | node k h n l r ihl ihr =>
    simp only [Treap.walkD, Treap.toList, List.length_cons, List.length_append]
    omega

theorem split_length (t : Treap α) (x : α) :
    (t.split x).1.toList.length + (t.split x).2.toList.length ≤ t.toList.length := by
  induction t with
  | nil => simp [Treap.split, Treap.toList]
  | node k h n l r ihl ihr =>
    simp only [Treap.split]
    split
    · simp only [Treap.toList, List.length_cons, List.length_append]; omega
    · split
      · simp only [Treap.mkNode, Treap.toList, List.length_cons, List.length_append]; omega
      · simp only [Treap.mkNode, Treap.toList, List.length_cons, List.length_append]; omega

theorem insert_length (t : Treap α) (x : α) (hx : Int) : (t.insert x hx).toList.length ≤ t.toList.length + 1 := by
  induction t with
  | nil => simp [Treap.insert, Treap.toList]
  | node k h n l r ihl ihr =>
    simp only [Treap.insert]
    split
    · simp
    · split
      · split <;> simp only [Treap.mkNode, Treap.toList, List.length_cons, List.length_append] <;> omega
      · have := split_length (Treap.node k h n l r) x
        simp only [Treap.mkNode, Treap.toList, List.length_cons, List.length_append] at this ⊢
        omega

theorem addAllD_le (t : Treap α) (xs : List (α × Int)) : t.addAllD xs ≤ t.toList.length + xs.length + 1 := by
  induction xs generalizing t with
  | nil => simp [Treap.addAllD]
  | cons p xs ih =>
    obtain ⟨x, h⟩ := p
    simp only [Treap.addAllD, List.length_cons]
    have h1 := insertD_le t x h
    have h2 := ih (t.insert x h)
    have h3 := insert_length t x h
    omega

theorem addAll_length (t : Treap α) (xs : List (α × Int)) : (t.addAll xs).toList.length ≤ t.toList.length + xs.length := by
  induction xs generalizing t with
  | nil => simp [Treap.addAll]
  | cons p xs ih =>
    obtain ⟨x, h⟩ := p
    simp only [Treap.addAll, List.length_cons]
    have h2 := ih (t.insert x h)
    have h3 := insert_length t x h
    omega

theorem mkT_length (h : Nat → Int) (xs : List α) : (Graph.mkTreap h xs).toList.length ≤ xs.length := by
  have := addAll_length (Treap.nil) (xs.zipIdx.map fun p => (p.1, h p.2))
  simpa [Graph.mkTreap, Treap.toList] using this

theorem mkTreapD_le (h : Nat → Int) (xs : List α) : Graph.mkTreapD h xs ≤ xs.length + 1 := by
  have := addAllD_le (Treap.nil) (xs.zipIdx.map fun p => (p.1, h p.2))
  simpa [Graph.mkTreapD, Treap.toList] using this

end TreapD

open TreapD Verif.Proofs.Sep

theorem maxD_le {xs : List Nat} {b : Nat} : Graph.maxD xs ≤ b ↔ ∀ x ∈ xs, x ≤ b := by
  induction xs with
  | nil => simp [Graph.maxD]
  | cons x xs ih =>
    simp only [Graph.maxD, List.foldr_cons, List.mem_cons, forall_eq_or_imp] at ih ⊢
    rw [← ih, max_le_iff]

theorem le_maxD {xs : List Nat} {x : Nat} (h : x ∈ xs) : x ≤ Graph.maxD xs := maxD_le.1 le_rfl x h

/-! ### `strongconnect` -/

variable {K : Type} {adj : Nat → List Nat} {loc : Nat → Nat}

/-- one step of the loop over the successors -/
def dstep (rec : Nat → Graph.TState → Graph.TState × Nat) (v : Nat) (q : Graph.TState × Nat) (w : Nat) : Graph.TState × Nat :=
  match q.1.idx w with
  | none =>
    let r := rec w q.1
    ({ r.1 with low := Function.update r.1.low v (min (r.1.low v) (r.1.low w)) }, max q.2 r.2)
  | some k =>
    (if q.1.on w then { q.1 with low := Function.update q.1.low v (min (q.1.low v) k) } else q.1, q.2)

theorem strongconnectD_eq (fuel v : Nat) (st : Graph.TState) :
    Graph.strongconnectD adj loc (fuel + 1) v st =
      (Graph.closeNode v ((adj v).foldl (dstep (Graph.strongconnectD adj loc fuel) v) (Graph.openNode v st, loc v)).1,
        ((adj v).foldl (dstep (Graph.strongconnectD adj loc fuel) v) (Graph.openNode v st, loc v)).2 + 1) := rfl

theorem dstep_fst (rec : Nat → Graph.TState → Graph.TState × Nat) (v : Nat) (q : Graph.TState × Nat) (w : Nat) :
    (dstep rec v q w).1 = sstep (fun w st => (rec w st).1) v q.1 w := by
  unfold dstep sstep
  cases q.1.idx w <;> rfl

theorem dfold_fst (rec : Nat → Graph.TState → Graph.TState × Nat) (v : Nat) (ws : List Nat) (q : Graph.TState × Nat) :
    (ws.foldl (dstep rec v) q).1 = ws.foldl (sstep (fun w st => (rec w st).1) v) q.1 := by
  induction ws generalizing q with
  | nil => rfl
  | cons w ws ih => rw [List.foldl_cons, List.foldl_cons, ih, dstep_fst]

/-- without the counter it is the function of `Model/Graph` -/
theorem strongconnectD_fst (fuel : Nat) : ∀ v st,
    (Graph.strongconnectD adj loc fuel v st).1 = Graph.strongconnect adj fuel v st := by
  induction fuel with
  | zero => intro v st; rfl
  | succ fuel ih =>
    intro v st
    rw [strongconnectD_eq, strongconnect_eq]
    simp only [dfold_fst]
    congr 2
    funext st w
    unfold sstep
    cases st.idx w with
    | none => simp only [ih]
    | some k => rfl

/-- the states below `n` that were not visited -/
def fresh (n : Nat) (st : Graph.TState) : Nat := ((Finset.range n).filter fun x => st.idx x = none).card

theorem fresh_mono {n : Nat} {st st' : Graph.TState} (h : ∀ x, st.idx x ≠ none → st'.idx x ≠ none) : fresh n st' ≤ fresh n st := by
  refine Finset.card_le_card fun x hx => ?_
  rw [Finset.mem_filter] at hx ⊢
  exact ⟨hx.1, by_contra fun hc => h x hc hx.2⟩

theorem fresh_open {n : Nat} {st : Graph.TState} {v : Nat} (hv : v < n) (h0 : st.idx v = none) :
    fresh n (Graph.openNode v st) + 1 ≤ fresh n st := by
  refine Finset.card_lt_card ⟨fun x hx => ?_, fun hs => ?_⟩
  · rw [Finset.mem_filter] at hx ⊢
    exact ⟨hx.1, by_contra fun hc => openNode_mono x hc hx.2⟩
  · have := (Finset.mem_filter.1 (hs (Finset.mem_filter.2 ⟨Finset.mem_range.2 hv, h0⟩))).2
    simp [Graph.openNode] at this

theorem fresh_le (n : Nat) (st : Graph.TState) : fresh n st ≤ n :=
  (Finset.card_filter_le _ _).trans (by simp)

theorem dfold_le {n B : Nat} {rec : Nat → Graph.TState → Graph.TState × Nat} (v : Nat) (ws : List Nat) (hws : ∀ w ∈ ws, w < n)
    (hp : ∀ w st, w < n → SInv n st → st.idx w = none → SPost n st (rec w st).1)
    (hr : ∀ w st, w < n → SInv n st → st.idx w = none → (rec w st).2 ≤ fresh n st + B)
    {m : Nat} (q : Graph.TState × Nat) (hq : q.2 ≤ m + B) (hm : fresh n q.1 ≤ m) (h : SInv n q.1) :
    (ws.foldl (dstep rec v) q).2 ≤ m + B := by
  induction ws generalizing q with
  | nil => exact hq
  | cons w ws ih =>
    rw [List.foldl_cons]
    have h1 := sstep_post (rec := fun w st => (rec w st).1) (v := v) (w := w) h fun h0 => hp w q.1 (hws w (by simp)) h h0
    rw [← dstep_fst rec] at h1
    refine ih (fun w hw => hws w (by simp [hw])) _ ?_ ((fresh_mono h1.mono).trans hm) h1.inv
    unfold dstep
    cases e : q.1.idx w with
    | none => exact max_le hq ((hr w q.1 (hws w (by simp)) h e).trans (by omega))
    | some k => exact hq

/-- nested calls: at most one per state not yet visited -/
theorem strongconnectD_le {n B : Nat} (hadj : ∀ x < n, ∀ y ∈ adj x, y < n) (hl : ∀ x < n, loc x ≤ B) (fuel : Nat) :
    ∀ v st, v < n → SInv n st → st.idx v = none → (Graph.strongconnectD adj loc fuel v st).2 ≤ fresh n st + B := by
  induction fuel with
  | zero => intro v st _ _ _; exact Nat.zero_le _
  | succ fuel ih =>
    intro v st hv h h0
    rw [strongconnectD_eq]
    have h1 := fresh_open hv h0
    have := dfold_le (B := B) (rec := Graph.strongconnectD adj loc fuel) v (adj v) (hadj v hv)
      (fun w st hw hi h0 => by rw [strongconnectD_fst]; exact strongconnect_SPost hadj fuel w st hw hi h0) ih
      (m := fresh n st - 1) (Graph.openNode v st, loc v) (by have := hl v hv; simp only; omega) (by simp only; omega) (h.openNode hv h0)
    simp only
    omega

/-! ### the rounds -/

/-- the start of `strongly_connected_components` -/
def rfold (adj : Nat → List Nat) (loc : Nat → Nat) (n : Nat) (q : Graph.TState × Nat) (r : Nat) : Graph.TState × Nat :=
  match q.1.idx r with
  | none =>
    let s := Graph.strongconnectD adj loc (n + 1) r q.1
    (s.1, max q.2 s.2)
  | some _ => q

theorem rfold_fst (n : Nat) (q : Graph.TState × Nat) (r : Nat) : (rfold adj loc n q r).1 = rstep adj n q.1 r := by
  unfold rfold rstep
  cases q.1.idx r with
  | none => simp only [strongconnectD_fst]
  | some _ => rfl

theorem rfolds_fst (n : Nat) (rs : List Nat) (q : Graph.TState × Nat) :
    (rs.foldl (rfold adj loc n) q).1 = rs.foldl (rstep adj n) q.1 := by
  induction rs generalizing q with
  | nil => rfl
  | cons r rs ih => rw [List.foldl_cons, List.foldl_cons, ih, rfold_fst]

theorem sccOfD_eq (g : Graph K) (T : Treap Nat) (h : Nat → Nat → Int) (low0 : Nat → Nat) (on0 : Nat → Bool) :
    (g.sccOfD T h low0 on0).1 = g.sccOf T h low0 on0 := by
  have := rfolds_fst (adj := fun v => g.adj T (h v) v) (loc := fun v => g.localD T (h v) v) g.n T.toList
    (⟨fun _ => none, low0, on0, [], 0, fun _ => 0, 1⟩, T.walkD)
  have e1 : (g.sccOfD T h low0 on0).1 =
    ((T.toList.foldl (rfold (fun v => g.adj T (h v) v) (fun v => g.localD T (h v) v) g.n)
      (⟨fun _ => none, low0, on0, [], 0, fun _ => 0, 1⟩, T.walkD)).1.sccs,
    (T.toList.foldl (rfold (fun v => g.adj T (h v) v) (fun v => g.localD T (h v) v) g.n)
      (⟨fun _ => none, low0, on0, [], 0, fun _ => 0, 1⟩, T.walkD)).1.cnt - 1) := rfl
  rw [e1, this]
  rfl

theorem rfolds_le {n B : Nat} (hadj : ∀ x < n, ∀ y ∈ adj x, y < n) (hl : ∀ x < n, loc x ≤ B) (rs : List Nat) (hrs : ∀ r ∈ rs, r < n)
    (q : Graph.TState × Nat) (hq : q.2 ≤ n + B) (h : SInv n q.1) : (rs.foldl (rfold adj loc n) q).2 ≤ n + B := by
  induction rs generalizing q with
  | nil => exact hq
  | cons r rs ih =>
    rw [List.foldl_cons]
    refine ih (fun r hr => hrs r (by simp [hr])) _ ?_ ?_
    · unfold rfold
      cases e : q.1.idx r with
      | none =>
        refine max_le hq ((strongconnectD_le hadj hl _ r q.1 (hrs r (by simp)) h e).trans ?_)
        have := fresh_le n q.1
        omega
      | some _ => exact hq
    · rw [rfold_fst]
      unfold rstep
      cases e : q.1.idx r with
      | none => exact (strongconnect_SPost hadj _ r q.1 (hrs r (by simp)) h e).inv
      | some _ => exact h

/-- the largest number of transitions of a state -/
def degBound (g : Graph K) : Nat := Graph.maxD ((List.range g.n).map fun v => (g.succ v).length)

theorem deg_le (g : Graph K) {v : Nat} (hv : v < g.n) : (g.succ v).length ≤ degBound g :=
  le_maxD (List.mem_map_of_mem (List.mem_range.2 hv))

theorem localD_le (g : Graph K) (T : Treap Nat) (h : Nat → Int) {v : Nat} (hv : v < g.n) (hT : T.toList.length ≤ g.n) :
    g.localD T h v ≤ max g.n (degBound g) + 1 := by
  have hd := deg_le g hv
  have hb : (Graph.badActions (g.succ v) T h).toList.length ≤ (g.succ v).length := by
    refine (mkT_length _ _).trans ?_
    simpa using List.length_filter_le _ (g.succ v)
  unfold Graph.localD
  rw [maxD_le]
  simp only [List.mem_cons, List.not_mem_nil, or_false, forall_eq_or_imp, forall_eq]
  refine ⟨maxD_le.2 ?_, ?_, maxD_le.2 ?_, ?_⟩
  · intro x hx
    obtain ⟨t, -, rfl⟩ := List.mem_map.1 hx
    have := memD_le T t.1
    omega
  · refine (mkTreapD_le _ _).trans ?_
    have := List.length_filter_le (fun t : Nat × Nat × K => !T.mem t.1) (g.succ v)
    simp only [List.length_map]
    omega
  · intro x hx
    obtain ⟨t, -, rfl⟩ := List.mem_map.1 hx
    have := memD_le (Graph.badActions (g.succ v) T h) t.2.1
    omega
  · have := walkD_le (Graph.badActions (g.succ v) T h)
    omega

/-- a round on a treap of states -/
theorem sccOfD_le {g : Graph K} (hg : ∀ x < g.n, ∀ t ∈ g.succ x, t.1 < g.n) {T : Treap Nat} (hT : ∀ x ∈ T.toList, x < g.n)
    (hl : T.toList.length ≤ g.n) (h : Nat → Nat → Int) (low0 : Nat → Nat) (on0 : Nat → Bool) :
    (g.sccOfD T h low0 on0).2 ≤ g.n + (max g.n (degBound g) + 1) := by
  refine rfolds_le (adj := fun v => g.adj T (h v) v) (loc := fun v => g.localD T (h v) v) (adj_lt hg T h)
    (fun x hx => localD_le g T (h x) hx hl) T.toList hT _ ?_ ⟨by simp, by simp, by simp⟩
  have := walkD_le T
  simp only
  omega

theorem mecLoopD_map (g : Graph K) (ρ : Graph.Rnd) (fuel : Nat) : ∀ s d,
    (g.mecLoopD ρ fuel s d).map Prod.fst = g.mecLoop ρ fuel s := by
  induction fuel with
  | zero =>
    rintro ⟨_ | ⟨T, work⟩, ret, cnt, singles, tid⟩ d
    · simp [Graph.mecLoopD, Graph.mecLoop]
    · simp [Graph.mecLoopD, Graph.mecLoop]
  | succ fuel ih =>
    rintro ⟨_ | ⟨T, work⟩, ret, cnt, singles, tid⟩ d
    · simp [Graph.mecLoopD, Graph.mecLoop]
    · simp only [Graph.mecLoopD, Graph.mecLoop, sccOfD_eq]
      split
      · rw [ih]
      · rw [ih]

/-- without the counter it is the function of `Model/Graph` -/
theorem maximalEndComponentsD_map (g : Graph K) (ρ : Graph.Rnd) :
    (g.maximalEndComponentsD ρ).map Prod.fst = g.maximalEndComponents ρ := by
  unfold Graph.maximalEndComponentsD Graph.maximalEndComponents
  rw [← mecLoopD_map g ρ _ _ (Graph.mkTreapD ρ.top (List.range g.n)), Option.map_map, Option.map_map]
  rfl

theorem mecLoopD_le {g : Graph K} (hg : ∀ x < g.n, ∀ t ∈ g.succ x, t.1 < g.n) (ρ : Graph.Rnd) {B : Nat}
    (hB : g.n + (max g.n (degBound g) + 1) ≤ B) (fuel : Nat) : ∀ s d,
    (∀ T ∈ s.work, (∀ x ∈ T.toList, x < g.n) ∧ T.toList.length ≤ g.n) → d ≤ B → s.singles.length ≤ s.cnt →
    ∀ q, g.mecLoopD ρ fuel s d = some q → q.2 ≤ B ∧ q.1.singles.length ≤ q.1.cnt := by
  induction fuel with
  | zero =>
    rintro ⟨_ | ⟨T, work⟩, ret, cnt, singles, tid⟩ d _ hd hs q h
    · simp only [Graph.mecLoopD, Option.some.injEq] at h
      subst h; exact ⟨hd, hs⟩
    · simp [Graph.mecLoopD] at h
  | succ fuel ih =>
    rintro ⟨_ | ⟨T, work⟩, ret, cnt, singles, tid⟩ d hw hd hs q h
    · simp only [Graph.mecLoopD, Option.some.injEq] at h
      subst h; exact ⟨hd, hs⟩
    · obtain ⟨hT, hl⟩ := hw T (by simp)
      have hscc := sccOfD_le hg hT hl (ρ.bad tid) (ρ.low0 tid) (ρ.on0 tid)
      have hwalk := walkD_le T
      simp only [Graph.mecLoopD] at h
      split at h
      · refine ih _ _ (fun T' hT' => hw T' (by simp [hT'])) ?_ ?_ q h
        · rw [maxD_le]
          simp only [List.mem_cons, List.not_mem_nil, or_false, forall_eq_or_imp, forall_eq]
          omega
        · dsimp only
          dsimp only at hs
          split
          · simp only [List.length_append, List.length_cons, List.length_nil]; omega
          · omega
      · refine ih _ _ ?_ ?_ (by exact hs) q h
        · intro T' hT'
          rcases List.mem_append.1 hT' with hT' | hT'
          · rw [List.mem_reverse, List.mem_map] at hT'
            obtain ⟨j, -, rfl⟩ := hT'
            constructor
            · intro x hx
              rw [Graph.component, (mkTreap_spec _ _).2] at hx
              exact hT x (List.mem_filter.1 hx).1
            · refine (mkT_length _ _).trans ((List.length_filter_le _ _).trans hl)
          · exact hw T' (by simp [hT'])
        · rw [maxD_le]
          simp only [List.mem_cons, List.not_mem_nil, or_false, forall_eq_or_imp, forall_eq]
          refine ⟨hd, by omega, by omega, maxD_le.2 fun x hx => ?_⟩
          obtain ⟨j, -, rfl⟩ := List.mem_map.1 hx
          have h1 := mkTreapD_le (ρ.comp (tid + j)) (T.toList.filter fun v => (g.sccOfD T (ρ.bad tid) (ρ.low0 tid) (ρ.on0 tid)).1.1 v - 1 = j)
          have h2 := List.length_filter_le (fun v => decide ((g.sccOfD T (ρ.bad tid) (ρ.low0 tid) (ρ.on0 tid)).1.1 v - 1 = j)) T.toList
          unfold Graph.componentD
          omega

/-- **Upper bound.** At most `n + max n A + 1` calls are active at the same time, where `A` is the largest number of transitions
of a state. -/
theorem maximalEndComponentsD_le {g : Graph K} (hg : ∀ x < g.n, ∀ t ∈ g.succ x, t.1 < g.n) (ρ : Graph.Rnd)
    {q : ((Nat → Nat) × (Nat → Bool) × Nat) × Nat} (hcnt : q.1.2.2 ≤ g.n) (h : g.maximalEndComponentsD ρ = some q) :
    q.2 ≤ g.n + max g.n (degBound g) + 1 := by
  unfold Graph.maximalEndComponentsD at h
  obtain ⟨⟨s, d⟩, hs, rfl⟩ := Option.map_eq_some_iff.1 h
  have h0 := mkTreapD_le ρ.top (List.range g.n)
  rw [List.length_range] at h0
  obtain ⟨h1, h2⟩ := mecLoopD_le hg ρ (B := g.n + max g.n (degBound g) + 1) (by omega) _ _ _ (by
    intro T hT
    rw [List.mem_singleton] at hT
    subst hT
    refine ⟨fun x hx => ?_, ?_⟩
    · rw [(mkTreap_spec _ _).2, List.mem_range] at hx; exact hx
    · simpa using mkT_length ρ.top (List.range g.n)) (by omega) (by simp) _ hs
  simp only at h1 h2 hcnt ⊢
  have h3 := mkT_length ρ.singles s.singles
  rw [maxD_le]
  simp only [List.mem_cons, List.not_mem_nil, or_false, forall_eq_or_imp, forall_eq]
  refine ⟨h1, ?_, ?_, maxD_le.2 fun x hx => ?_⟩
  · have := mkTreapD_le ρ.singles s.singles
    omega
  · have := walkD_le (Graph.mkTreap ρ.singles s.singles)
    omega
  · obtain ⟨v, hv, rfl⟩ := List.mem_map.1 hx
    rw [List.mem_range] at hv
    have hd := deg_le g hv
    rw [maxD_le]
    simp only [List.mem_cons, List.not_mem_nil, or_false, forall_eq_or_imp, forall_eq]
    constructor
    · have := memD_le (Graph.mkTreap ρ.singles s.singles) (s.ret v)
      omega
    · split
      · unfold Graph.singletonD
        rw [maxD_le]
        simp only [List.mem_cons, List.not_mem_nil, or_false, forall_eq_or_imp, forall_eq]
        have e1 := mkTreapD_le (ρ.act v) ((g.succ v).map fun t => t.2.1)
        have e2 := mkTreapD_le (ρ.act' v) (((g.succ v).filter fun t => t.1 ≠ v).map fun t => t.2.1)
        have e3 := walkD_le (Graph.mkTreap (ρ.act v) ((g.succ v).map fun t => t.2.1))
        have e4 := walkD_le (Graph.mkTreap (ρ.act' v) (((g.succ v).filter fun t => t.1 ≠ v).map fun t => t.2.1))
        have e5 := mkT_length (ρ.act v) ((g.succ v).map fun t => t.2.1)
        have e6 := mkT_length (ρ.act' v) (((g.succ v).filter fun t => t.1 ≠ v).map fun t => t.2.1)
        have e7 := List.length_filter_le (fun t : Nat × Nat × K => decide (t.1 ≠ v)) (g.succ v)
        simp only [List.length_map] at e1 e2 e5 e6
        omega
      · omega

end Verif.Proofs
