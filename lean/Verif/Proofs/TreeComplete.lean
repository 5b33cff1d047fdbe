import Verif.Proofs.TreeSound
/-!
# The tree algorithm: no smaller set of states is missed
-/
set_option linter.unusedSectionVars false

namespace Verif.Proofs.Tree
open Verif.Model Verif.Model.TreeDecomp Finset
open Verif.Theory

variable {K : Type} [Field K] [LinearOrder K] {c : Chain K} {φ : K →+* ℝ} {parts : List (List Nat)} {order : List Nat}
  {lin : Nat → (Nat → K) → (Nat → K) → Nat → K} {hull : Nat → Dict Nat (List (List K)) → List (Nat × List K)} {ub : Nat} {thr : K}

/-! ### walks and distances -/

/-- a walk of `k` steps from the initial state inside `T` -/
def walkIn (c : Chain K) (T : Finset Nat) : Nat → Nat → Prop
  | 0, v => v = c.init ∧ v ∈ T
  | k + 1, v => v ∈ T ∧ ∃ u, walkIn c T k u ∧ c.edge u v = true

theorem walkIn_mem {T : Finset Nat} : ∀ {k v : Nat}, walkIn c T k v → v ∈ T
  | 0, _, h => h.2
  | _ + 1, _, h => h.1

theorem walkIn_walk {T : Finset Nat} (hT : T ⊆ range c.n) : ∀ {k v : Nat}, walkIn c T k v → walk c k v = true
  | 0, v, h => by unfold walk; rw [h.1]; simp
  | k + 1, v, h => by
    obtain ⟨-, u, h1, h2⟩ := h
    unfold walk
    rw [List.any_eq_true]
    exact ⟨u, List.mem_range.2 (Finset.mem_range.1 (hT (walkIn_mem h1))), by rw [walkIn_walk hT h1, h2]; rfl⟩

/-- a shortest walk visits every state once -/
theorem walkIn_short {T : Finset Nat} {v k : Nat} (h : walkIn c T k v) : ∃ k' < T.card, walkIn c T k' v := by
  classical
  let D : Nat → Nat := fun u => if hu : ∃ k, walkIn c T k u then Nat.find hu else 0
  have hD : ∀ u, (∃ k, walkIn c T k u) → walkIn c T (D u) u := by
    intro u hu
    simp only [D, dif_pos hu]
    exact Nat.find_spec hu
  have hD' : ∀ u k, walkIn c T k u → D u ≤ k := by
    intro u k hu
    have : ∃ k, walkIn c T k u := ⟨k, hu⟩
    simp only [D, dif_pos this]
    exact Nat.find_min' this hu
  -- every smaller distance occurs
  have key : ∀ d j, j + d = D v → ∃ u, (∃ k, walkIn c T k u) ∧ D u = j := by
    intro d
    induction d with
    | zero => intro j hj; exact ⟨v, ⟨k, h⟩, by omega⟩
    | succ d ih =>
      intro j hj
      obtain ⟨u, hu, hDu⟩ := ih (j + 1) (by omega)
      have h1 := hD u hu
      rw [hDu] at h1
      obtain ⟨h2, u', h3, h4⟩ := h1
      refine ⟨u', ⟨j, h3⟩, ?_⟩
      have h5 := hD' u' j h3
      have h6 := hD u' ⟨j, h3⟩
      have h7 := hD' u (D u' + 1) ⟨h2, u', h6, h4⟩
      omega
  refine ⟨D v, ?_, hD v ⟨k, h⟩⟩
  have hsub : range (D v + 1) ⊆ T.image D := by
    intro j hj
    rw [Finset.mem_range] at hj
    obtain ⟨u, ⟨k, hu⟩, hDu⟩ := key (D v - j) j (by omega)
    exact Finset.mem_image.2 ⟨u, walkIn_mem hu, hDu⟩
  have := (Finset.card_le_card hsub).trans Finset.card_image_le
  rw [Finset.card_range] at this
  omega

theorem dist_le {k v : Nat} (hk : k < c.n) (h : walk c k v = true) : dist c v ≤ k := by
  unfold TreeDecomp.dist
  cases hf : (List.range c.n).find? fun k => walk c k v with
  | none =>
    rw [List.find?_eq_none] at hf
    exact absurd h (hf k (List.mem_range.2 hk))
  | some m =>
    rw [List.find?_range_eq_some] at hf
    rw [Option.getD_some]
    by_contra hlt
    have := hf.2.2 k (by omega)
    rw [h] at this
    cases this

theorem foldl_min_le {f : Nat → Nat} : ∀ {l : List Nat} {m : Nat}, l.foldl (fun m s => min m (f s)) m ≤ m ∧ ∀ s ∈ l, l.foldl (fun m s => min m (f s)) m ≤ f s
  | [], m => by simp
  | a :: l, m => by
    obtain ⟨h1, h2⟩ := foldl_min_le (f := f) (l := l) (m := min m (f a))
    rw [List.foldl_cons]
    refine ⟨h1.trans (Nat.min_le_left _ _), fun s hs => ?_⟩
    rcases List.mem_cons.1 hs with rfl | hs
    · exact h1.trans (Nat.min_le_right _ _)
    · exact h2 s hs

/-! ### a trimmed witness -/

/-- A set of states with value at least the threshold; every state is reachable inside the set and has positive value. -/
structure Wit (φ : K →+* ℝ) (c : Chain K) (thr : K) (U : Finset Nat) (x : Nat → ℝ) : Prop where
  sub : U ⊆ range c.n
  val : Chain.Val c.n (Q φ c) (gain φ c) U x
  pos : ∀ s ∈ U, 0 < x s
  reach : ∀ s ∈ U, ∃ k, walkIn c U k s
  thr : φ thr ≤ x c.init
  init : c.init ∈ U

/-- every set with value at least the threshold can be trimmed -/
theorem Ctx.trim (H : Ctx c φ parts order) (hthr : 0 < φ thr) {W : Finset Nat} (hW : W ⊆ range c.n) {x : Nat → ℝ}
    (hx : Chain.Val c.n (Q φ c) (gain φ c) W x) (hv : φ thr ≤ x c.init) :
    ∃ U ⊆ W, ∃ x', Wit φ c thr U x' := by
  classical
  have h0 := H.val_nonneg hW hx
  let P := W.filter fun s => 0 < x s
  let U := P.filter fun s => ∃ k, walkIn c P k s
  have hPW : P ⊆ W := Finset.filter_subset _ _
  have hUP : U ⊆ P := Finset.filter_subset _ _
  have hUW : U ⊆ W := hUP.trans hPW
  have hip : c.init ∈ P := Finset.mem_filter.2 ⟨by
    by_contra h
    rw [hx.out _ h] at hv
    linarith, by linarith⟩
  have hiU : c.init ∈ U := Finset.mem_filter.2 ⟨hip, 0, rfl, hip⟩
  have hre : ∀ k s, walkIn c P k s → walkIn c U k s := by
    intro k
    induction k with
    | zero => intro s hs; exact ⟨hs.1, by rw [hs.1]; exact hiU⟩
    | succ k ih =>
      intro s hs
      exact ⟨Finset.mem_filter.2 ⟨hs.1, k + 1, hs⟩, by obtain ⟨u, h1, h2⟩ := hs.2; exact ⟨u, ih u h1, h2⟩⟩
  refine ⟨U, hUW, fun s => if s ∈ U then x s else 0, hUW.trans hW, ⟨fun s hs => if_neg hs, fun s hs => ?_⟩, ?_, ?_, ?_, hiU⟩
  · rw [if_pos hs, hx.eq s (hUW hs)]
    congr 1
    have e : ∑ t ∈ U, Q φ c s t * (if t ∈ U then x t else 0) = ∑ t ∈ U, Q φ c s t * x t :=
      Finset.sum_congr rfl fun t ht => by rw [if_pos ht]
    rw [e]
    refine (Finset.sum_subset hUW fun t ht hnt => ?_).symm
    by_cases hxt : 0 < x t
    · have htP : t ∈ P := Finset.mem_filter.2 ⟨ht, hxt⟩
      rw [H.Qzero (Finset.mem_range.1 (hW (hUW hs))) (Finset.mem_range.1 (hW ht)), zero_mul]
      intro he
      obtain ⟨k, hk⟩ := (Finset.mem_filter.1 hs).2
      exact hnt (Finset.mem_filter.2 ⟨htP, k + 1, htP, s, hk, he⟩)
    · rw [le_antisymm (not_lt.1 hxt) (h0 t), mul_zero]
  · intro s hs
    simp only [if_pos hs]
    exact (Finset.mem_filter.1 (hUP hs)).2
  · intro s hs
    obtain ⟨k, hk⟩ := (Finset.mem_filter.1 hs).2
    exact ⟨k, hre k s hk⟩
  · simp only [if_pos hiU]
    exact hv

/-! ### the choice for a part -/

/-- the states of the set in the part, and all states of the next interface -/
def choice (parts : List (List Nat)) (order : List Nat) (U : Finset Nat) (i s : Nat) : Bool :=
  decide (pos parts order s = i ∧ s ∈ U) || decide (pos parts order s + 1 = i)

theorem choice_iff {U : Finset Nat} {i s : Nat} : choice parts order U i s = true ↔ (pos parts order s = i ∧ s ∈ U) ∨ pos parts order s + 1 = i := by
  unfold choice; rw [Bool.or_eq_true, decide_eq_true_iff, decide_eq_true_iff]

theorem sel_choice {U : Finset Nat} (hU : U ⊆ range c.n) {i : Nat} :
    sel c parts order i (choice parts order U i) = Chain.at' (pos parts order) U i := by
  ext s
  rw [mem_sel, choice_iff, Chain.mem_at]
  constructor
  · rintro ⟨h1, h2, h3 | h3⟩
    · exact ⟨h3.2, h2⟩
    · omega
  · rintro ⟨h1, h2⟩
    exact ⟨Finset.mem_range.1 (hU h1), h2, Or.inl ⟨h2, h1⟩⟩

variable {U : Finset Nat} {x : Nat → ℝ} {Y : Nat → ℝ}

theorem Ctx.pos_le (H : Ctx c φ parts order) {s : Nat} (hs : s < c.n) : pos parts order s ≤ pos parts order c.init := by
  have h1 := pos_lt H.path hs
  have h2 := pos_init H.path H.init
  omega

/-- a state with positive entry weight is an input of its part; it is the initial state or entered from the previous part -/
theorem Ctx.w_pos (H : Ctx c φ parts order) (hW : Wit φ c thr U x) {s : Nat} (hs : s < c.n)
    (hw : 0 < Chain.w (Q φ c) (pos parts order) U c.init Y s) :
    s = c.init ∨ ∃ t ∈ U, pos parts order t = pos parts order s + 1 ∧ c.edge t s = true := by
  by_contra hcon
  push Not at hcon
  refine absurd hw (not_lt.2 (le_of_eq ?_))
  unfold Chain.w
  rw [if_neg hcon.1, zero_add]
  refine Finset.sum_eq_zero fun t ht => ?_
  obtain ⟨h1, h2⟩ := Chain.mem_at.1 ht
  rw [H.Qzero (Finset.mem_range.1 (hW.sub h1)) hs (hcon.2 t h1 h2), mul_zero]

/-- the value passes through every part -/
theorem Ctx.value_part (H : Ctx c φ parts order) (hW : Wit φ c thr U x) (hY : Chain.Flow (Q φ c) U c.init Y) {i : Nat}
    (hi : i ≤ pos parts order c.init) :
    ∑ s ∈ Chain.at' (pos parts order) U i, Chain.w (Q φ c) (pos parts order) U c.init Y s * x s = x c.init := by
  refine Chain.w_value H.ok H.pathQ hW.sub hY rfl hW.init (fun s hs => H.pos_le (Finset.mem_range.1 (hW.sub hs))) (fun s hs hp => ?_) hW.val
    (pos parts order c.init - i) i (by omega)
  unfold gain
  have : c.toTarget s = 0 := le_antisymm (not_lt.1 fun h => hp (H.leaf s (Finset.mem_range.1 (hW.sub hs)) h)) (H.tgt0 s)
  rw [this, map_zero]

theorem Ctx.exists_entry (H : Ctx c φ parts order) (hthr : 0 < φ thr) (hW : Wit φ c thr U x) (hY : Chain.Flow (Q φ c) U c.init Y) {i : Nat}
    (hi : i ≤ pos parts order c.init) :
    ∃ s ∈ U, pos parts order s = i ∧ 0 < Chain.w (Q φ c) (pos parts order) U c.init Y s := by
  by_contra hcon
  push Not at hcon
  have h1 := H.value_part hW hY hi
  have h2 : ∑ s ∈ Chain.at' (pos parts order) U i, Chain.w (Q φ c) (pos parts order) U c.init Y s * x s = 0 := by
    refine Finset.sum_eq_zero fun s hs => ?_
    obtain ⟨g1, g2⟩ := Chain.mem_at.1 hs
    rw [le_antisymm (hcon s g1 g2) (Chain.w_nonneg H.ok hY s), zero_mul]
  rw [h2] at h1
  have := hW.thr
  linarith

/-- the choice satisfies the formula -/
theorem Ctx.formula_choice (H : Ctx c φ parts order) (hthr : 0 < φ thr) (hW : Wit φ c thr U x) (hY : Chain.Flow (Q φ c) U c.init Y) {i p : Nat}
    (hp : order[i]? = some p) : formula c parts p (choice parts order U i) = true := by
  have hpl := pos_init H.path H.init
  have hil := (List.getElem?_eq_some_iff.1 hp).1
  have hUn : ∀ {s}, s ∈ U → s < c.n := fun hs => Finset.mem_range.1 (hW.sub hs)
  have hview : ∀ {s}, s ∈ U → pos parts order s = i → s ∈ view c parts p := fun hs h => (mem_view_pos H.path hp (hUn hs)).2 (Or.inl h)
  have hin : ∀ {s t}, s < c.n → t < c.n → c.edge t s = true → pos parts order t = pos parts order s + 1 → isInterface c parts s = true :=
    fun hs ht he hpt => (interface_iff H.path hs).2 ⟨_, ht, he, hpt⟩
  rw [formula_iff]
  refine ⟨fun v hv => ?_, ?_, ?_, fun v hv ho => ?_⟩
  · have hvn := ((mem_view H.path).1 hv).1
    by_cases ho : isOut c parts p v = true
    · exact Or.inl ho
    right
    rw [isOut_iff H.path hp hv] at ho
    by_cases hc : choice parts order U i v = true
    swap
    · rw [Bool.not_eq_true] at hc
      exact ⟨Or.inr (Or.inl hc), Or.inr (Or.inl hc)⟩
    obtain ⟨hpv, hvU⟩ : pos parts order v = i ∧ v ∈ U := by
      rcases choice_iff.1 hc with h | h
      · exact h
      · exact absurd h ho
    constructor
    · by_cases ht : isTarget c parts p v = true
      · exact Or.inl ht
      right; right
      have hg : gain φ c v = 0 := by
        unfold gain
        rw [le_antisymm (not_lt.1 fun h => ht ((isTarget_iff H.path hp).2 (Or.inl h))) (H.tgt0 v), map_zero]
      have hxv := hW.pos v hvU
      rw [hW.val.eq v hvU, hg, zero_add] at hxv
      obtain ⟨t, htU, ht0⟩ : ∃ t ∈ U, 0 < Q φ c v t * x t := by
        by_contra hcon
        push Not at hcon
        exact absurd hxv (not_lt.2 (Finset.sum_nonpos hcon))
      have hQ : 0 < Q φ c v t := by
        by_contra h
        rw [le_antisymm (not_lt.1 h) (H.ok.Q0 v t), zero_mul] at ht0
        exact lt_irrefl _ ht0
      have he := H.Qpos hvn (hUn htU) hQ
      rcases edge_pos H.path hvn (hUn htU) he with h | h
      · exact ⟨t, (mem_outNb H.path).2 ⟨hview htU (by omega), he⟩, choice_iff.2 (Or.inl ⟨by omega, htU⟩)⟩
      · exact absurd ((isTarget_iff H.path hp).2 (Or.inr ⟨t, hUn htU, he, hin (hUn htU) hvn he h, by omega⟩)) ht
    · by_cases hi : isIn c parts p v = true
      · exact Or.inl hi
      right; right
      rw [isIn_iff H.path hp hv H.init] at hi
      obtain ⟨k, hk⟩ := hW.reach v hvU
      cases k with
      | zero => exact absurd ⟨hpv, Or.inr hk.1⟩ hi
      | succ k =>
        obtain ⟨-, u, hu, he⟩ := hk
        have huU := walkIn_mem hu
        rcases edge_pos H.path (hUn huU) hvn he with h | h
        · exact ⟨u, (mem_inNb H.path).2 ⟨hview huU (by omega), he⟩, choice_iff.2 (Or.inl ⟨by omega, huU⟩)⟩
        · exact absurd ⟨hpv, Or.inl (hin hvn (hUn huU) he h)⟩ hi
  · obtain ⟨s, hsU, hsi, hw⟩ := H.exists_entry hthr hW hY (i := i) (by omega)
    refine ⟨s, hview hsU hsi, (isIn_iff H.path hp (hview hsU hsi) H.init).2 ⟨hsi, ?_⟩, choice_iff.2 (Or.inl ⟨hsi, hsU⟩)⟩
    rcases H.w_pos hW (hUn hsU) hw with h | ⟨t, htU, h1, h2⟩
    · exact Or.inr h
    · exact Or.inl (hin (hUn hsU) (hUn htU) h2 h1)
  · cases i with
    | zero =>
      have h1 := Chain.gain_value H.ok H.pathQ hW.sub hY rfl hW.init (fun s hs => H.pos_le (hUn hs)) (g := gain φ c) (x := x) (fun s hs hp => by
        unfold gain
        have : c.toTarget s = 0 := le_antisymm (not_lt.1 fun h => hp (H.leaf s (hUn hs) h)) (H.tgt0 s)
        rw [this, map_zero]) hW.val
      obtain ⟨s, hs, hgs⟩ : ∃ s ∈ Chain.at' (pos parts order) U 0, 0 < Y s * gain φ c s := by
        by_contra hcon
        push Not at hcon
        have := Finset.sum_nonpos hcon
        have := hW.thr
        linarith
      obtain ⟨hsU, hs0⟩ := Chain.mem_at.1 hs
      refine ⟨s, hview hsU hs0, (isTarget_iff H.path hp).2 (Or.inl ?_), choice_iff.2 (Or.inl ⟨hs0, hsU⟩)⟩
      by_contra h
      unfold gain at hgs
      rw [le_antisymm (not_lt.1 h) (H.tgt0 s), map_zero, mul_zero] at hgs
      exact lt_irrefl _ hgs
    | succ i =>
      obtain ⟨o, hoU, hoi, hw⟩ := H.exists_entry hthr hW hY (i := i) (by omega)
      rcases H.w_pos hW (hUn hoU) hw with h | ⟨t, htU, h1, h2⟩
      · subst h; omega
      · refine ⟨t, hview htU (by omega), (isTarget_iff H.path hp).2 (Or.inr ⟨o, hUn hoU, h2, hin (hUn hoU) (hUn htU) h2 h1, by omega⟩),
          choice_iff.2 (Or.inl ⟨by omega, htU⟩)⟩
  · rw [isOut_iff H.path hp hv] at ho
    exact choice_iff.2 (Or.inr ho)

/-- the distance bound: an entry of the part can be reached through the previous parts -/
theorem Ctx.minDist_le (H : Ctx c φ parts order) (hthr : 0 < φ thr) (hW : Wit φ c thr U x) (hY : Chain.Flow (Q φ c) U c.init Y) {i p : Nat}
    (hp : order[i]? = some p) :
    minDist c parts p ((view c parts p).filter (choice parts order U i)) ≤ (U.filter fun s => i < pos parts order s).card := by
  have hpl := pos_init H.path H.init
  have hil := (List.getElem?_eq_some_iff.1 hp).1
  have hUn : ∀ {s}, s ∈ U → s < c.n := fun hs => Finset.mem_range.1 (hW.sub hs)
  obtain ⟨s, hsU, hsi, hw⟩ := H.exists_entry hthr hW hY (i := i) (by omega)
  have hsv : s ∈ view c parts p := (mem_view_pos H.path hp (hUn hsU)).2 (Or.inl hsi)
  have key : isIn c parts p s = true ∧ dist c s ≤ (U.filter fun s => i < pos parts order s).card := by
    rcases H.w_pos hW (hUn hsU) hw with h | ⟨t, htU, h1, h2⟩
    · refine ⟨(isIn_iff H.path hp hsv H.init).2 ⟨hsi, Or.inr h⟩, ?_⟩
      exact (dist_le (k := 0) (by have := hUn hsU; omega) (by unfold walk; rw [h]; simp)).trans (Nat.zero_le _)
    · refine ⟨(isIn_iff H.path hp hsv H.init).2 ⟨hsi, Or.inl ((interface_iff H.path (hUn hsU)).2 ⟨t, hUn htU, h2, h1⟩)⟩, ?_⟩
      obtain ⟨k, hk⟩ := hW.reach t htU
      have hre : ∀ k t, walkIn c U k t → i < pos parts order t → walkIn c (U.filter fun s => i < pos parts order s) k t := by
        intro k
        induction k with
        | zero => intro t ht hi; exact ⟨ht.1, Finset.mem_filter.2 ⟨ht.2, hi⟩⟩
        | succ k ih =>
          intro t ht hi
          obtain ⟨g1, u, g2, g3⟩ := ht
          refine ⟨Finset.mem_filter.2 ⟨g1, hi⟩, u, ih u g2 ?_, g3⟩
          have := edge_pos H.path (hUn (walkIn_mem g2)) (hUn g1) g3
          omega
      obtain ⟨k', hk', hw'⟩ := walkIn_short (hre k t hk (by omega))
      have hws : walk c (k' + 1) s = true := by
        unfold walk
        rw [List.any_eq_true]
        refine ⟨t, List.mem_range.2 (hUn htU), ?_⟩
        rw [walkIn_walk ((Finset.filter_subset _ _).trans hW.sub) hw', h2]; rfl
      have hcard : (U.filter fun s => i < pos parts order s).card + 1 ≤ c.n := by
        have : insert s (U.filter fun s => i < pos parts order s) ⊆ range c.n := by
          intro v hv
          rcases Finset.mem_insert.1 hv with rfl | hv
          · exact hW.sub hsU
          · exact hW.sub (Finset.mem_filter.1 hv).1
        have h3 := Finset.card_le_card this
        rwa [Finset.card_insert_of_notMem (by rw [Finset.mem_filter]; omega), Finset.card_range] at h3
      have := dist_le (c := c) (k := k' + 1) (by omega) hws
      omega
  have hmem : s ∈ ((view c parts p).filter (choice parts order U i)).filter (isIn c parts p) :=
    List.mem_filter.2 ⟨List.mem_filter.2 ⟨hsv, choice_iff.2 (Or.inl ⟨hsi, hsU⟩)⟩, key.1⟩
  exact ((foldl_min_le (f := dist c)).2 s hmem).trans key.2

/-- the claim for one part: a kept point of at most the size of the set so far, with weighted value at least the threshold -/
def Has (φ : K →+* ℝ) (c : Chain K) (parts : List (List Nat)) (order : List Nat) (thr : K) (U : Finset Nat) (Y : Nat → ℝ) (i p : Nat) (q : Pt K) : Prop :=
  q.states ≤ (U.filter fun s => pos parts order s ≤ i).card ∧
  ∃ v : Nat → K, (∀ o ∈ inputs c parts p, Dict.get? q.probs o = some (v o)) ∧
    φ thr ≤ ∑ o ∈ (inputs c parts p).toFinset, Chain.w (Q φ c) (pos parts order) U c.init Y o * φ (v o)

theorem dot_map {l : List Nat} (hl : l.Nodup) (w : Nat → ℝ) (f : Nat → K) :
    dot φ (fun j => w (l.getD j 0)) (l.map f) = ∑ o ∈ l.toFinset, w o * φ (f o) := by
  rw [← sum_getD hl fun o => w o * φ (f o)]
  unfold dot
  rw [List.length_map]
  refine Finset.sum_congr rfl fun j hj => ?_
  have hj := Finset.mem_range.1 hj
  simp only [List.getD_eq_getElem _ _ hj, List.getD_eq_getElem _ _ (show j < (l.map f).length by simpa using hj), List.getElem_map]

/-- one part -/
theorem Ctx.complete_part [IsStrictOrderedRing K] (H : Ctx c φ parts order) (hl : LinOK lin) (hh : HullOK φ hull) (hthr : 0 < φ thr)
    (hW : Wit φ c thr U x) (hY : Chain.Flow (Q φ c) U c.init Y) (hub : U.card ≤ ub) {i p : Nat} (hp : order[i]? = some p)
    {pts : List (List (Pt K))} {curs : List (Pt K)}
    (hpts : ∀ states, handle lin c parts p states ub thr pts = .ok (curs.filterMap (newPoint lin c parts p states ub thr)))
    {cur : Pt K} (hcur : cur ∈ curs) {u : Nat → ℝ} (hu0 : ∀ o, 0 ≤ u o)
    (hu : ∀ o ∈ outs c parts order i, ∃ k, Dict.get? cur.probs o = some k ∧ φ k = u o)
    (hst : cur.states ≤ (U.filter fun s => pos parts order s < i).card)
    (hval : φ thr ≤ ∑ s ∈ Chain.at' (pos parts order) U i, Y s * (gain φ c s + ∑ o ∈ outs c parts order i, Q φ c s o * u o))
    {d : Dict Nat (List (List K))} (hd : PartOK lin c parts p ub thr pts d) :
    ∃ k v, InD d k v ∧ v.length = (inputs c parts p).length ∧ k ≤ (U.filter fun s => pos parts order s ≤ i).card ∧
      φ thr ≤ dot φ (fun j => Chain.w (Q φ c) (pos parts order) U c.init Y ((inputs c parts p).getD j 0)) v := by
  have hUn : ∀ {s}, s ∈ U → s < c.n := fun hs => Finset.mem_range.1 (hW.sub hs)
  have hform := H.formula_choice hthr hW hY hp
  have hx := ((formula_iff c parts p _).1 hform).2.2.2
  obtain ⟨a, ha, hch⟩ := exists_pick (formula_dep c parts p) (fun a ha => by
    obtain ⟨states, new, h, -⟩ := hd.all a ha; exact ⟨states, h⟩) hform
  obtain ⟨y, hy, hq1, hq2⟩ := newPoint_spec (lin := lin) (ub := ub) (thr := thr) hl H hp hx cur u (H.rhs_eq hp hu0 hu)
  rw [sel_choice hW.sub] at hy hq1 hq2
  have hatn : ∀ {s}, s ∈ Chain.at' (pos parts order) U i → s < c.n := fun hs => hUn (Chain.mem_at.1 hs).1
  have hats : Chain.at' (pos parts order) U i ⊆ range c.n := fun s hs => Finset.mem_range.2 (hatn hs)
  -- the local values are non-negative
  have hy0 : ∀ s < c.n, pos parts order s = i → 0 ≤ y s := by
    intro s hs hsi
    have hbc : ∀ s, 0 ≤ gain φ c s + ∑ o ∈ outs c parts order i, Q φ c s o * u o := fun s =>
      add_nonneg (H.gain0 s) (Finset.sum_nonneg fun o _ => mul_nonneg (H.ok.Q0 s o) (hu0 o))
    have := Chain.compare H.ok (U := Chain.at' (pos parts order) U i) (b := fun s => gain φ c s + ∑ o ∈ outs c parts order i, Q φ c s o * u o)
      (x := fun _ => 0) (y := fun s => if s ∈ Chain.at' (pos parts order) U i then y s else 0) (fun s _ h => by simp only [if_neg h]; exact le_rfl)
      (fun s _ _ => by simpa using hbc s) (fun s hs' _ => by
        simp only [if_pos hs']
        rw [hy.eq s hs']
        refine add_le_add le_rfl (le_of_eq ?_)
        rw [← Finset.sum_subset hats fun t _ ht => by rw [if_neg ht, mul_zero]]
        exact Finset.sum_congr rfl fun t ht => by rw [if_pos ht]) s hs
    by_cases h : s ∈ Chain.at' (pos parts order) U i
    · rwa [if_pos h] at this
    · rw [hy.out s hsi h]
  -- the weighted value at the inputs
  have hin : ∀ {o}, o ∈ (inputs c parts p).toFinset → o < c.n ∧ pos parts order o = i := fun ho => by
    have := (mem_inputs H.path hp H.init).1 (List.mem_toFinset.1 ho)
    exact ⟨this.1, this.2.1⟩
  have hpl := pos_init H.path H.init
  have hil := (List.getElem?_eq_some_iff.1 hp).1
  have hws : φ thr ≤ ∑ o ∈ (inputs c parts p).toFinset, Chain.w (Q φ c) (pos parts order) U c.init Y o * y o := by
    have h1 := Chain.exchange H.ok H.pathQ hW.sub hY (k := i) (x := y) (c := fun s => gain φ c s + ∑ o ∈ outs c parts order i, Q φ c s o * u o)
      (fun s hs => hy.eq s hs)
    rw [← h1] at hval
    refine hval.trans (le_of_eq ?_)
    have e1 : ∑ s ∈ Chain.at' (pos parts order) U i, Chain.w (Q φ c) (pos parts order) U c.init Y s * y s =
        ∑ s ∈ Chain.at' (pos parts order) U i ∪ (inputs c parts p).toFinset, Chain.w (Q φ c) (pos parts order) U c.init Y s * y s := by
      refine Finset.sum_subset Finset.subset_union_left fun o ho hno => ?_
      rcases Finset.mem_union.1 ho with h | h
      · exact absurd h hno
      · rw [hy.out o (hin h).2 hno, mul_zero]
    have e2 : ∑ s ∈ (inputs c parts p).toFinset, Chain.w (Q φ c) (pos parts order) U c.init Y s * y s =
        ∑ s ∈ Chain.at' (pos parts order) U i ∪ (inputs c parts p).toFinset, Chain.w (Q φ c) (pos parts order) U c.init Y s * y s := by
      refine Finset.sum_subset Finset.subset_union_right fun s hs hns => ?_
      rcases Finset.mem_union.1 hs with h | h
      · obtain ⟨hsU, hsi⟩ := Chain.mem_at.1 h
        by_cases hw : 0 < Chain.w (Q φ c) (pos parts order) U c.init Y s
        · refine absurd (List.mem_toFinset.2 ((mem_inputs H.path hp H.init).2 ⟨hUn hsU, hsi, ?_⟩)) hns
          rcases H.w_pos hW (hUn hsU) hw with g | ⟨t, htU, g1, g2⟩
          · exact Or.inr g
          · exact Or.inl ((interface_iff H.path (hUn hsU)).2 ⟨t, hUn htU, g2, g1⟩)
        · rw [le_antisymm (not_lt.1 hw) (Chain.w_nonneg H.ok hY s), zero_mul]
      · exact absurd h hns
    rw [e1, e2]
  have hsum : φ thr ≤ ∑ o ∈ (inputs c parts p).toFinset, y o := by
    refine hws.trans (Finset.sum_le_sum fun o ho => ?_)
    obtain ⟨h1, h2⟩ := hin ho
    have hw1 := Chain.w_le_one H.ok H.pathQ hW.sub hY rfl (fun s hs => H.pos_le (hUn hs)) h1 (H.pos_le h1)
    have := mul_le_mul_of_nonneg_right hw1 (hy0 o h1 h2)
    rwa [one_mul] at this
  -- sizes
  have hle : (U.filter fun s => pos parts order s ≤ i).card = (Chain.at' (pos parts order) U i).card + (U.filter fun s => pos parts order s < i).card := by
    rw [← Finset.card_union_of_disjoint]
    · congr 1
      ext s
      rw [Finset.mem_union, Finset.mem_filter, Finset.mem_filter, Chain.mem_at]
      constructor
      · rintro ⟨h1, h2⟩
        rcases Nat.lt_or_eq_of_le h2 with h | h
        · exact Or.inr ⟨h1, h⟩
        · exact Or.inl ⟨h1, h⟩
      · rintro (⟨h1, h2⟩ | ⟨h1, h2⟩)
        · exact ⟨h1, h2.le⟩
        · exact ⟨h1, h2.le⟩
    · rw [Finset.disjoint_left]
      intro s h1 h2
      have := (Chain.mem_at.1 h1).2
      have := (Finset.mem_filter.1 h2).2
      omega
  have htot : (U.filter fun s => pos parts order s ≤ i).card + (U.filter fun s => i < pos parts order s).card = U.card := by
    rw [← Finset.card_union_of_disjoint]
    · congr 1
      ext s
      rw [Finset.mem_union, Finset.mem_filter, Finset.mem_filter]
      have := Nat.lt_or_ge i (pos parts order s)
      tauto
    · rw [Finset.disjoint_left]
      intro s h1 h2
      have := (Finset.mem_filter.1 h1).2
      have := (Finset.mem_filter.1 h2).2
      omega
  have hmd := H.minDist_le hthr hW hY hp
  obtain ⟨q, hq⟩ := hq2 (by omega) hsum
  obtain ⟨g1, -, g3, -⟩ := hq1 q hq
  obtain ⟨states, new, k1, k2, k3⟩ := hd.all a ha
  rw [hch] at k1
  cases k1
  rw [hpts] at k2
  cases k2
  have hqD := k3 q (List.mem_filterMap.2 ⟨cur, hcur, hq⟩)
  refine ⟨q.states, _, hqD, by simp [vec], by omega, ?_⟩
  unfold vec
  rw [dot_map (inputs_nodup H.path)]
  refine hws.trans (le_of_eq (Finset.sum_congr rfl fun o ho => ?_))
  rw [g3 o (List.mem_toFinset.1 ho)]

/-- the kept points -/
theorem Ctx.complete_kept [IsStrictOrderedRing K] (H : Ctx c φ parts order) (hh : HullOK φ hull) (hthr : 0 < φ thr)
    (hY : Chain.Flow (Q φ c) U c.init Y) {i p : Nat} {pts : List (List (Pt K))} {d : Dict Nat (List (List K))}
    (hd : PartOK lin c parts p ub thr pts d) {kept : List (Nat × List K)} (hk : prune hull (inputs c parts p).length d = .ok kept)
    (h : ∃ k v, InD d k v ∧ v.length = (inputs c parts p).length ∧ k ≤ (U.filter fun s => pos parts order s ≤ i).card ∧
      φ thr ≤ dot φ (fun j => Chain.w (Q φ c) (pos parts order) U c.init Y ((inputs c parts p).getD j 0)) v) :
    ∃ q ∈ kept.map fun e => (⟨e.1, (inputs c parts p).zip e.2⟩ : Pt K), Has φ c parts order thr U Y i p q := by
  have hvec : ∀ k v, InD d k v → ∃ q, v = vec (inputs c parts p) q := by
    intro k v hv
    obtain ⟨a, -, states, new, -, -, q, -, -, rfl⟩ := hd.only k v hv
    exact ⟨q, rfl⟩
  obtain ⟨hk1, hk2⟩ := prune_ok (hull := hull) (φ := φ) H.mono hh (fun k v hv => by
    obtain ⟨q, rfl⟩ := hvec k v hv; simp [vec]) hk
  obtain ⟨k, v, h1, h2, h3, h4⟩ := h
  obtain ⟨k', v', g1, g2, g3⟩ := hk2 _ (fun j => Chain.w_nonneg H.ok hY _) k v h1 (lt_of_lt_of_le hthr h4)
  obtain ⟨q, rfl⟩ := hvec k' v' (hk1 k' v' g1)
  refine ⟨⟨k', (inputs c parts p).zip (vec (inputs c parts p) q)⟩, List.mem_map.2 ⟨_, g1, rfl⟩, g2.trans h3,
    fun o => (Dict.get? q.probs o).getD 0, fun o ho => get?_zip_map _ ho, ?_⟩
  have := h4.trans g3
  unfold vec at this
  rwa [dot_map (inputs_nodup H.path)] at this

/-- what the points of the next part give for this one -/
theorem Ctx.has_next (H : Ctx c φ parts order) (hW : Wit φ c thr U x) {i p q' : Nat} (hp : order[i]? = some p) (hp' : order[i + 1]? = some q')
    {q : Pt K} (hq : Has φ c parts order thr U Y i p q) {T : Finset Nat} {z : Nat → ℝ} (hT : Pos φ c parts order ub thr i p q T z) :
    (∀ o ∈ outs c parts order (i + 1), ∃ k, Dict.get? q.probs o = some k ∧ φ k = z o) ∧
    q.states ≤ (U.filter fun s => pos parts order s < i + 1).card ∧
    φ thr ≤ ∑ s ∈ Chain.at' (pos parts order) U (i + 1), Y s * (gain φ c s + ∑ o ∈ outs c parts order (i + 1), Q φ c s o * z o) := by
  have hUn : ∀ {s}, s ∈ U → s < c.n := fun hs => Finset.mem_range.1 (hW.sub hs)
  obtain ⟨h1, v, h2, h3⟩ := hq
  have hz : ∀ o ∈ inputs c parts p, φ (v o) = z o := by
    intro o ho
    obtain ⟨k, e1, e2⟩ := hT.get o ho
    rw [h2 o ho] at e1
    cases e1
    exact e2
  refine ⟨fun o ho => hT.get o (H.outs_inputs hp ho), by simpa [Nat.lt_succ_iff] using h1, ?_⟩
  have hpl := pos_init H.path H.init
  have hil := (List.getElem?_eq_some_iff.1 hp').1
  have hio : (inputs c parts p).toFinset = outs c parts order (i + 1) := by
    ext o
    rw [List.mem_toFinset, mem_inputs H.path hp H.init, mem_outs]
    constructor
    · rintro ⟨a, b, d | d⟩
      · exact ⟨a, by omega, d⟩
      · subst d; omega
    · rintro ⟨a, b, d⟩
      exact ⟨a, by omega, Or.inl d⟩
  rw [hio] at h3
  have e := Chain.w_next (Q := Q φ c) (pos := pos parts order) (U := U) (i := c.init) (Y := Y) (k := i) (O := outs c parts order (i + 1))
    (fun o ho => ⟨by have := (mem_outs.1 ho).2.1; omega, by rintro rfl; have := (mem_outs.1 ho).2.1; omega⟩) z
  have e2 : ∑ o ∈ outs c parts order (i + 1), Chain.w (Q φ c) (pos parts order) U c.init Y o * φ (v o) =
      ∑ o ∈ outs c parts order (i + 1), Chain.w (Q φ c) (pos parts order) U c.init Y o * z o :=
    Finset.sum_congr rfl fun o ho => by rw [hz o (by rw [← List.mem_toFinset, hio]; exact ho)]
  rw [e2, e] at h3
  refine h3.trans (le_of_eq (Finset.sum_congr rfl fun s hs => ?_))
  obtain ⟨hsU, hsi⟩ := Chain.mem_at.1 hs
  have : gain φ c s = 0 := by
    unfold gain
    rw [le_antisymm (not_lt.1 fun h => by have := H.leaf s (hUn hsU) h; omega) (H.tgt0 s), map_zero]
  rw [this, zero_add]

/-- the start at the last part -/
theorem Ctx.has_zero (H : Ctx c φ parts order) (hW : Wit φ c thr U x) (hY : Chain.Flow (Q φ c) U c.init Y) :
    φ thr ≤ ∑ s ∈ Chain.at' (pos parts order) U 0, Y s * (gain φ c s + ∑ o ∈ outs c parts order 0, Q φ c s o * 0) := by
  have hUn : ∀ {s}, s ∈ U → s < c.n := fun hs => Finset.mem_range.1 (hW.sub hs)
  have h1 := Chain.gain_value H.ok H.pathQ hW.sub hY rfl hW.init (fun s hs => H.pos_le (hUn hs)) (g := gain φ c) (x := x) (fun s hs hp => by
    unfold gain
    have : c.toTarget s = 0 := le_antisymm (not_lt.1 fun h => hp (H.leaf s (hUn hs) h)) (H.tgt0 s)
    rw [this, map_zero]) hW.val
  simp only [mul_zero, Finset.sum_const_zero, add_zero]
  rw [h1]
  exact hW.thr

/-- every part keeps a point for the witness -/
theorem Ctx.complete [IsStrictOrderedRing K] (H : Ctx c φ parts order) (hl : LinOK lin) (hh : HullOK φ hull) (hthr : 0 < φ thr)
    (hW : Wit φ c thr U x) (hY : Chain.Flow (Q φ c) U c.init Y) (hub : U.card ≤ ub)
    {r : Nat → List (Pt K)} {j : Nat} (h0 : ∀ p, 0 < j → order[0]? = some p → solvePart lin c parts hull p ub thr [] = .ok (r 0))
    (h1 : ∀ i p, i + 1 < j → order[i + 1]? = some p → solvePart lin c parts hull p ub thr [r i] = .ok (r (i + 1))) (i : Nat) :
    i < j → ∀ p, order[i]? = some p → ∃ q ∈ r i, Has φ c parts order thr U Y i p q := by
  induction i with
  | zero =>
    intro hj p hp
    obtain ⟨d, kept, hd, hk, hr⟩ := solvePart_ok lin c parts hull (h0 p hj hp)
    rw [hr]
    refine H.complete_kept hh hthr hY hd hk (H.complete_part hl hh hthr hW hY hub hp (curs := [⟨0, []⟩])
      (fun states => handle_nil lin c parts p states ub thr) (cur := ⟨0, []⟩) (by simp) (u := fun _ => 0) (fun _ => le_rfl) (fun o ho => ?_)
      (Nat.zero_le _) (H.has_zero hW hY) hd)
    have := (mem_outs.1 ho).2.1
    omega
  | succ i ih =>
    intro hj p hp
    have hi := (List.getElem?_eq_some_iff.1 hp).1
    have hq : order[i]? = some order[i] := List.getElem?_eq_getElem (by omega)
    obtain ⟨q, hqr, hqh⟩ := ih (by omega) _ hq
    obtain ⟨T, z, hT⟩ := H.sound hl hh h0 h1 i (by omega) _ hq q hqr
    obtain ⟨g1, g2, g3⟩ := H.has_next hW hq hp hqh hT
    obtain ⟨d, kept, hd, hk, hr⟩ := solvePart_ok lin c parts hull (h1 i p hj hp)
    rw [hr]
    exact H.complete_kept hh hthr hY hd hk (H.complete_part hl hh hthr hW hY hub hp (curs := r i)
      (fun states => handle_one lin c parts p states ub thr (r i)) hqr (u := z) (H.val_nonneg hT.sub hT.val) g1 g2 g3 hd)

/-! ### the algorithm returns -/

/-- a value, or a `KeyError` -/
def OkOrKey {α : Type} (e : Except Err α) : Prop := (∃ a, e = .ok a) ∨ e = .error .keyError

theorem foldlM_okOrKey {α β : Type} {f : β → α → Except Err β} : ∀ (l : List α) (b : β), (∀ b, ∀ a ∈ l, OkOrKey (f b a)) → OkOrKey (l.foldlM f b)
  | [], b, _ => Or.inl ⟨b, rfl⟩
  | a :: l, b, h => by
    rw [List.foldlM_cons]
    rcases h b a List.mem_cons_self with ⟨b', e⟩ | e
    · rw [e]
      exact foldlM_okOrKey l b' fun b a ha => h b a (List.mem_cons_of_mem _ ha)
    · rw [e]
      exact Or.inr rfl

/-- no empty disjunctions, if every state can be left and entered -/
theorem Ctx.syntaxOk (H : Ctx c φ parts order) (hthr : 0 < φ thr) (hW : Wit φ c thr U x) (hY : Chain.Flow (Q φ c) U c.init Y)
    (hin : ∀ v < c.n, v ≠ c.init → ∃ u < c.n, c.edge u v = true)
    (hout : ∀ v < c.n, 0 < c.toTarget v ∨ ∃ w < c.n, c.edge v w = true) {i p : Nat} (hp : order[i]? = some p) :
    TreeDecomp.syntaxOk c parts p = true := by
  obtain ⟨-, ⟨v1, a1, a2, -⟩, ⟨v2, b1, b2, -⟩, -⟩ := (formula_iff c parts p _).1 (H.formula_choice hthr hW hY hp)
  unfold TreeDecomp.syntaxOk
  simp only [Bool.and_eq_true, List.all_eq_true, List.any_eq_true, Bool.or_eq_true, Bool.not_eq_true', List.isEmpty_eq_false_iff_exists_mem]
  refine ⟨⟨fun v hv => ?_, v1, a1, a2⟩, v2, b1, b2⟩
  have hvn := ((mem_view H.path).1 hv).1
  by_cases ho : isOut c parts p v = true
  · exact Or.inl ho
  have hpv : pos parts order v = i := by
    rw [isOut_iff H.path hp hv] at ho
    rcases (mem_view_pos H.path hp hvn).1 hv with h | h
    · exact h
    · exact absurd h.1 ho
  refine Or.inr ⟨?_, ?_⟩
  · rcases hout v hvn with h | ⟨w, hw, he⟩
    · exact Or.inl ((isTarget_iff H.path hp).2 (Or.inl h))
    · right
      refine ⟨w, (mem_outNb H.path).2 ⟨(mem_view_pos H.path hp hw).2 ?_, he⟩⟩
      rcases edge_pos H.path hvn hw he with h | h
      · exact Or.inl (by omega)
      · exact Or.inr ⟨by omega, (interface_iff H.path hw).2 ⟨v, hvn, he, h⟩⟩
  · by_cases hvi : v = c.init
    · exact Or.inl ((isIn_iff H.path hp hv H.init).2 ⟨hpv, Or.inr hvi⟩)
    · obtain ⟨u, hu, he⟩ := hin v hvn hvi
      rcases edge_pos H.path hu hvn he with h | h
      · exact Or.inr ⟨u, (mem_inNb H.path).2 ⟨(mem_view_pos H.path hp hu).2 (Or.inl (by omega)), he⟩⟩
      · exact Or.inl ((isIn_iff H.path hp hv H.init).2 ⟨hpv, Or.inl ((interface_iff H.path hvn).2 ⟨u, hu, he, h⟩)⟩)

theorem Ctx.part_returns [IsStrictOrderedRing K] (H : Ctx c φ parts order) (hl : LinOK lin) (hh : HullOK φ hull) (hthr : 0 < φ thr)
    (hW : Wit φ c thr U x) (hY : Chain.Flow (Q φ c) U c.init Y) (hub : U.card ≤ ub)
    (hin : ∀ v < c.n, v ≠ c.init → ∃ u < c.n, c.edge u v = true)
    (hout : ∀ v < c.n, 0 < c.toTarget v ∨ ∃ w < c.n, c.edge v w = true) {i p : Nat} (hp : order[i]? = some p)
    {pts : List (List (Pt K))} {curs : List (Pt K)}
    (hpts : ∀ states, handle lin c parts p states ub thr pts = .ok (curs.filterMap (newPoint lin c parts p states ub thr)))
    {cur : Pt K} (hcur : cur ∈ curs) {u : Nat → ℝ} (hu0 : ∀ o, 0 ≤ u o)
    (hu : ∀ o ∈ outs c parts order i, ∃ k, Dict.get? cur.probs o = some k ∧ φ k = u o)
    (hst : cur.states ≤ (U.filter fun s => pos parts order s < i).card)
    (hval : φ thr ≤ ∑ s ∈ Chain.at' (pos parts order) U i, Y s * (gain φ c s + ∑ o ∈ outs c parts order i, Q φ c s o * u o)) :
    OkOrKey (solvePart lin c parts hull p ub thr pts) := by
  unfold solvePart
  rw [if_pos (H.syntaxOk hthr hW hY hin hout hp)]
  have hfold := foldlM_okOrKey (f := fun (d : Dict Nat (List (List K))) a => do
      let states ← chosen (view c parts p) a
      let new ← handle lin c parts p states ub thr pts
      Except.ok (addPoints (inputs c parts p) d new)) (pick (view c parts p) (formula c parts p)) [] (by
    intro d a _
    unfold chosen
    split
    · simp only [bind, Except.bind, hpts]
      exact Or.inl ⟨_, rfl⟩
    · exact Or.inr rfl)
  rcases hfold with ⟨d, hd⟩ | hd
  · obtain ⟨-, g2, g3⟩ := fold_points lin c parts _ _ _ hd
    have hPart : PartOK lin c parts p ub thr pts d := ⟨g2, fun k v hv => by
      rcases g3 k v hv with ⟨l, hl, -⟩ | h'
      · cases hl
      · exact h'⟩
    obtain ⟨k, v, hv, -⟩ := H.complete_part hl hh hthr hW hY hub hp hpts hcur hu0 hu hst hval hPart
    simp only [bind, Except.bind] at hd ⊢
    rw [hd]
    simp only
    have hne : d.isEmpty = false := by
      obtain ⟨l, hl, -⟩ := hv
      cases d with
      | nil => cases hl
      | cons _ _ => rfl
    have hpr : ∃ kept, prune hull (inputs c parts p).length d = .ok kept := by
      unfold prune
      split
      · exact ⟨_, rfl⟩
      · rw [hne]; exact ⟨_, rfl⟩
    obtain ⟨kept, hk⟩ := hpr
    rw [hk]
    exact Or.inl ⟨_, rfl⟩
  · simp only [bind, Except.bind] at hd ⊢
    rw [hd]
    exact Or.inr rfl

/-- the loop over the parts -/
theorem Ctx.parts_return [IsStrictOrderedRing K] (H : Ctx c φ parts order) (hl : LinOK lin) (hh : HullOK φ hull) (hthr : 0 < φ thr)
    (hW : Wit φ c thr U x) (hY : Chain.Flow (Q φ c) U c.init Y) (hub : U.card ≤ ub)
    (hin : ∀ v < c.n, v ≠ c.init → ∃ u < c.n, c.edge u v = true)
    (hout : ∀ v < c.n, 0 < c.toTarget v ∨ ∃ w < c.n, c.edge v w = true) (j : Nat) (hj : j ≤ order.length) :
    (∃ (d : Dict Nat (List (Pt K))) (r : Nat → List (Pt K)), solveParts lin c parts hull ub thr (order.take j) = .ok d ∧ (∀ i p, i < j → order[i]? = some p → d.get? p = some (r i)) ∧
      (∀ p, 0 < j → order[0]? = some p → solvePart lin c parts hull p ub thr [] = .ok (r 0)) ∧
      ∀ i p, i + 1 < j → order[i + 1]? = some p → solvePart lin c parts hull p ub thr [r i] = .ok (r (i + 1))) ∨
    solveParts lin c parts hull ub thr (order.take j) = .error .keyError := by
  induction j with
  | zero =>
    exact Or.inl ⟨[], fun _ => [], rfl, fun _ _ h => absurd h (Nat.not_lt_zero _), fun _ h => absurd h (lt_irrefl _),
      fun _ _ h => absurd h (Nat.not_lt_zero _)⟩
  | succ j ih =>
    have hjl : j < order.length := by omega
    have hp : order[j]? = some order[j] := List.getElem?_eq_getElem hjl
    have htake : order.take (j + 1) = order.take j ++ [order[j]] := (List.take_append_getElem hjl).symm
    rcases ih (by omega) with ⟨d, r, e1, e2, e3, e4⟩ | e
    · have hpts : ∃ pts, (∀ f : Nat → Except Err (List (Pt K)), (∀ q l, d.get? q = some l → f q = .ok l) →
            (sucs c parts order[j]).mapM f = .ok pts) ∧ OkOrKey (solvePart lin c parts hull order[j] ub thr pts) ∧
          ((j = 0 ∧ pts = []) ∨ ∃ i, j = i + 1 ∧ pts = [r i]) := by
        cases j with
        | zero =>
          refine ⟨[], fun f _ => by rw [sucs_zero H.path hp]; rfl, ?_, Or.inl ⟨rfl, rfl⟩⟩
          refine H.part_returns hl hh hthr hW hY hub hin hout hp (curs := [⟨0, []⟩]) (fun states => handle_nil lin c parts _ states ub thr)
            (cur := ⟨0, []⟩) (by simp) (u := fun _ => 0) (fun _ => le_rfl) (fun o ho => ?_) (Nat.zero_le _) (H.has_zero hW hY)
          have := (mem_outs.1 ho).2.1
          omega
        | succ i =>
          have hq : order[i]? = some order[i] := List.getElem?_eq_getElem (by omega)
          refine ⟨[r i], ?_, ?_, Or.inr ⟨i, rfl, rfl⟩⟩
          · intro f hf
            rw [sucs_succ H.path hq hp]
            simp only [List.mapM_cons, List.mapM_nil, hf _ _ (e2 i _ (by omega) hq)]
            rfl
          · obtain ⟨q, hqr, hqh⟩ := H.complete hl hh hthr hW hY hub e3 e4 i (by omega) _ hq
            obtain ⟨T, z, hT⟩ := H.sound hl hh e3 e4 i (by omega) _ hq q hqr
            obtain ⟨g1, g2, g3⟩ := H.has_next hW hq hp hqh hT
            exact H.part_returns hl hh hthr hW hY hub hin hout hp (curs := r i) (fun states => handle_one lin c parts _ states ub thr (r i))
              hqr (u := z) (H.val_nonneg hT.sub hT.val) g1 g2 g3
      obtain ⟨pts, h1, h2, h3⟩ := hpts
      have hstep : ∀ y, solvePart lin c parts hull order[j] ub thr pts = y → solveParts lin c parts hull ub thr (order.take (j + 1)) =
          (match y with | .ok r => .ok (d.set order[j] r) | .error e => .error e) := by
        intro y hy
        unfold solveParts at e1 ⊢
        rw [htake, List.foldlM_append, e1]
        simp only [bind, Except.bind, List.foldlM_cons, List.foldlM_nil]
        rw [h1 _ fun q l hq => by rw [hq]]
        simp only [hy]
        cases y <;> rfl
      rcases h2 with ⟨y, hy⟩ | hy
      · left
        have hpne : ∀ i p, i < j → order[i]? = some p → order[j] ≠ p := by
          rintro i p hi h' rfl
          have := order_idx H.path h' hp
          omega
        refine ⟨d.set order[j] y, Function.update r j y, hstep _ hy, fun i p hi hpi => ?_, fun p _ hp0 => ?_, fun i p hi hpi => ?_⟩
        · rw [get?_set]
          by_cases hij : i = j
          · subst hij
            rw [hp] at hpi
            rw [if_pos (Option.some.inj hpi), Function.update_self]
          · rw [if_neg (hpne i p (by omega) hpi), Function.update_of_ne hij]
            exact e2 i p (by omega) hpi
        · by_cases hj0 : j = 0
          · subst hj0
            rw [hp] at hp0
            cases hp0
            rcases h3 with ⟨-, rfl⟩ | ⟨i, hi, -⟩
            · rw [Function.update_self]; exact hy
            · omega
          · rw [Function.update_of_ne (Ne.symm hj0)]
            exact e3 p (by omega) hp0
        · by_cases hij : i + 1 = j
          · subst hij
            rw [hp] at hpi
            cases hpi
            rcases h3 with ⟨hi, -⟩ | ⟨i', hi, rfl⟩
            · omega
            · have : i' = i := by omega
              subst this
              rw [Function.update_self, Function.update_of_ne (by omega)]
              exact hy
          · rw [Function.update_of_ne hij, Function.update_of_ne (by omega)]
            exact e4 i p (by omega) hpi
      · exact Or.inr (hstep _ hy)
    · right
      unfold solveParts at e ⊢
      rw [htake, List.foldlM_append, e]
      rfl

end Verif.Proofs.Tree
