import Verif.Theory.Transient
import Mathlib.Data.Fintype.Card
import Mathlib.Algebra.BigOperators.Fin
/-!
# Transient Markov chains on an initial segment of the naturals

Comparison principle, visits, and the decomposition of a chain along a path of parts: every transition stays in its
part or goes to the next one.
-/
set_option linter.unusedSectionVars false

namespace Verif.Theory.Chain
open Verif.Spec Finset

/-- sub-stochastic, and nowhere closed -/
structure OK (n : ℕ) (Q : ℕ → ℕ → ℝ) : Prop where
  Q0 : ∀ s t, 0 ≤ Q s t
  sum : ∀ s < n, ∑ t ∈ range n, Q s t ≤ 1
  trans : ∀ B ⊆ range n, B.Nonempty → ¬ ∀ s ∈ B, ∑ t ∈ B, Q s t = 1

variable {n : ℕ} {Q : ℕ → ℕ → ℝ}

/-- the chain as a core with one row per state -/
noncomputable def core (n : ℕ) (Q : ℕ → ℕ → ℝ) (b : ℕ → ℝ) : Core (Fin n) Unit where
  rows _ := {()}
  ne _ := ⟨(), by simp⟩
  g s _ := b s.1
  Q s _ t := Q s.1 t.1

theorem sum_fin (f : ℕ → ℝ) : ∑ t : Fin n, f t.1 = ∑ t ∈ range n, f t := (Finset.sum_range f).symm

theorem sum_map (B : Finset (Fin n)) (f : ℕ → ℝ) : ∑ t ∈ B.map Fin.valEmbedding, f t = ∑ t ∈ B, f t.1 := by
  rw [Finset.sum_map]; rfl

theorem core_trans (h : OK n Q) (B : Finset (Fin n)) (hB : B.Nonempty) : ¬ ∀ s ∈ B, ∑ t ∈ B, Q s.1 t.1 = 1 := by
  intro hcl
  refine h.trans (B.map Fin.valEmbedding) ?_ (hB.map) ?_
  · intro s hs
    obtain ⟨a, -, rfl⟩ := Finset.mem_map.1 hs
    exact Finset.mem_range.2 a.2
  · intro s hs
    obtain ⟨a, ha, rfl⟩ := Finset.mem_map.1 hs
    rw [sum_map]
    exact hcl a ha

theorem core_qsub (h : OK n Q) {b : ℕ → ℝ} (hb : ∀ s, 0 ≤ b s) : (core n Q b).QSub where
  g0 s _ _ := hb s.1
  Q0 s _ _ t := h.Q0 _ _
  sumQ s _ _ := by
    show ∑ t : Fin n, Q s.1 t.1 ≤ 1
    rw [sum_fin]
    exact h.sum s.1 s.2

/-- comparison principle with boundary values outside `U` -/
theorem compare (h : OK n Q) {U : Finset ℕ} {b x y : ℕ → ℝ} (ho : ∀ s < n, s ∉ U → x s ≤ y s)
    (hx : ∀ s ∈ U, s < n → x s ≤ b s + ∑ t ∈ range n, Q s t * x t)
    (hy : ∀ s ∈ U, s < n → b s + ∑ t ∈ range n, Q s t * y t ≤ y s) (s : ℕ) (hs : s < n) : x s ≤ y s := by
  -- gains are irrelevant for the comparison: move them into the solutions
  have key : ∀ s : Fin n, (fun s : Fin n => x s.1 - y s.1) s ≤ (fun _ => (0 : ℝ)) s := by
    refine Core.le_of_compare (M := core n Q fun _ => 0) (core_qsub h fun _ => le_rfl) (f := fun _ => ()) (fun _ => by simp [core])
      (fun B hB _ => core_trans h B hB) (fun s hs' => ?_) (fun s _ => ?_)
    · have hU : s.1 ∈ U := by
        by_contra hU
        have := ho s.1 s.2 hU
        have hs' : 0 < x s.1 - y s.1 := hs'
        linarith
      have h1 := hx s.1 hU s.2
      have h2 := hy s.1 hU s.2
      show x s.1 - y s.1 ≤ 0 + ∑ t : Fin n, Q s.1 t.1 * (x t.1 - y t.1)
      rw [sum_fin (fun t => Q s.1 t * (x t - y t))]
      have : ∑ t ∈ range n, Q s.1 t * (x t - y t) = ∑ t ∈ range n, Q s.1 t * x t - ∑ t ∈ range n, Q s.1 t * y t := by
        rw [← Finset.sum_sub_distrib]
        exact Finset.sum_congr rfl fun _ _ => by ring
      rw [this]
      linarith
    · show 0 + ∑ t : Fin n, Q s.1 t.1 * 0 ≤ (0 : ℝ)
      simp
  have := key ⟨s, hs⟩
  simp only at this
  linarith

/-- solutions are unique -/
theorem unique (h : OK n Q) {U : Finset ℕ} {b x y : ℕ → ℝ} (ho : ∀ s < n, s ∉ U → x s = y s)
    (hx : ∀ s ∈ U, s < n → x s = b s + ∑ t ∈ range n, Q s t * x t)
    (hy : ∀ s ∈ U, s < n → y s = b s + ∑ t ∈ range n, Q s t * y t) (s : ℕ) (hs : s < n) : x s = y s :=
  le_antisymm
    (compare h (fun s hs hU => (ho s hs hU).le) (fun s hU hs => (hx s hU hs).le) (fun s hU hs => (hy s hU hs).ge) s hs)
    (compare h (fun s hs hU => (ho s hs hU).ge) (fun s hU hs => (hy s hU hs).le) (fun s hU hs => (hx s hU hs).ge) s hs)

/-- visits to the states of `U` from `i` -/
theorem exists_visits (h : OK n Q) {U : Finset ℕ} (hU : U ⊆ range n) {i : ℕ} (hi : i ∈ U) :
    ∃ Y : ℕ → ℝ, (∀ s, 0 ≤ Y s) ∧ (∀ s, s ∉ U → Y s = 0) ∧
      ∀ t ∈ U, Y t = (if t = i then 1 else 0) + ∑ s ∈ U, Y s * Q s t := by
  classical
  have hin : i < n := Finset.mem_range.1 (hU hi)
  obtain ⟨Y, h1, h2, h3⟩ := Core.exists_visits_on (M := core n Q fun _ => 0) (core_qsub h fun _ => le_rfl) (f := fun _ => ())
    (fun _ => by simp [core]) (univ.filter fun s : Fin n => s.1 ∈ U) (fun B _ hB => core_trans h B hB) (i := ⟨i, hin⟩)
    (by simpa using hi)
  refine ⟨fun s => if hs : s < n then Y ⟨s, hs⟩ else 0, fun s => ?_, fun s hs => ?_, fun t ht => ?_⟩
  · by_cases hs : s < n
    · simp only [dif_pos hs]; exact h1 _
    · simp only [dif_neg hs]; exact le_rfl
  · by_cases hs' : s < n
    · simp only [dif_pos hs']; exact h2 _ (by simpa using hs)
    · simp only [dif_neg hs']
  · have htn : t < n := Finset.mem_range.1 (hU ht)
    simp only [dif_pos htn]
    rw [h3 ⟨t, htn⟩ (by simpa using ht)]
    simp only [Fin.mk.injEq]
    congr 1
    have e : ∑ s : Fin n, Y s * (core n Q fun _ => 0).Q s () ⟨t, htn⟩ =
        ∑ s : Fin n, (fun s : ℕ => (if hs : s < n then Y ⟨s, hs⟩ else 0) * Q s t) s.1 :=
      Finset.sum_congr rfl fun s _ => by simp [core]
    rw [e, sum_fin (fun s : ℕ => (if hs : s < n then Y ⟨s, hs⟩ else 0) * Q s t)]
    refine (Finset.sum_subset hU fun s hs hsU => ?_).symm
    rw [dif_pos (Finset.mem_range.1 hs), h2 _ (by simpa using hsU), zero_mul]

/-! ### parts along a path -/

/-- the values of the states in `U`, where leaving `U` loses -/
structure Val (n : ℕ) (Q : ℕ → ℕ → ℝ) (g : ℕ → ℝ) (U : Finset ℕ) (x : ℕ → ℝ) : Prop where
  out : ∀ s, s ∉ U → x s = 0
  eq : ∀ s ∈ U, x s = g s + ∑ t ∈ U, Q s t * x t

/-- `pos` numbers the parts backwards along the path -/
structure Path (n : ℕ) (Q : ℕ → ℕ → ℝ) (pos : ℕ → ℕ) : Prop where
  step : ∀ s < n, ∀ t < n, 0 < Q s t → pos s = pos t ∨ pos s = pos t + 1

structure Flow (Q : ℕ → ℕ → ℝ) (U : Finset ℕ) (i : ℕ) (Y : ℕ → ℝ) : Prop where
  nonneg : ∀ s, 0 ≤ Y s
  eq : ∀ t ∈ U, Y t = (if t = i then 1 else 0) + ∑ s ∈ U, Y s * Q s t

variable {pos : ℕ → ℕ} {U : Finset ℕ} {i : ℕ} {Y : ℕ → ℝ}

/-- the part of `U` at position `k` -/
def at' (pos : ℕ → ℕ) (U : Finset ℕ) (k : ℕ) : Finset ℕ := U.filter fun s => pos s = k

theorem mem_at {k s : ℕ} : s ∈ at' pos U k ↔ s ∈ U ∧ pos s = k := Finset.mem_filter

/-- expected number of entries from the previous part -/
noncomputable def w (Q : ℕ → ℕ → ℝ) (pos : ℕ → ℕ) (U : Finset ℕ) (i : ℕ) (Y : ℕ → ℝ) (o : ℕ) : ℝ :=
  (if o = i then 1 else 0) + ∑ s ∈ at' pos U (pos o + 1), Y s * Q s o

theorem w_nonneg (h : OK n Q) (hY : Flow Q U i Y) (o : ℕ) : 0 ≤ w Q pos U i Y o := by
  unfold w
  refine add_nonneg ?_ (Finset.sum_nonneg fun s _ => mul_nonneg (hY.nonneg s) (h.Q0 s o))
  split <;> norm_num

theorem flow_split (h : OK n Q) (hp : Path n Q pos) (hU : U ⊆ range n) (hY : Flow Q U i Y) {t : ℕ} (ht : t ∈ U) :
    Y t = w Q pos U i Y t + ∑ s ∈ at' pos U (pos t), Y s * Q s t := by
  have hn : ∀ {s}, s ∈ U → s < n := fun hs => Finset.mem_range.1 (hU hs)
  rw [hY.eq t ht, w, add_assoc]
  congr 1
  rw [← Finset.sum_filter_add_sum_filter_not U fun s => pos s = pos t + 1]
  congr 1
  have : ∀ s ∈ U.filter (fun s => ¬ pos s = pos t + 1), s ∉ at' pos U (pos t) → Y s * Q s t = 0 := by
    intro s hs hn'
    rw [Finset.mem_filter] at hs
    have h0 : ¬ 0 < Q s t := by
      intro hq
      rcases hp.step s (hn hs.1) t (hn ht) hq with e | e
      · exact hn' (mem_at.2 ⟨hs.1, e⟩)
      · exact hs.2 e
    rw [le_antisymm (not_lt.1 h0) (h.Q0 s t), mul_zero]
  refine (Finset.sum_subset (fun s hs => ?_) this).symm
  rw [mem_at] at hs
  rw [Finset.mem_filter]
  exact ⟨hs.1, by omega⟩

/-- moving the entry weights through one part -/
theorem exchange (h : OK n Q) (hp : Path n Q pos) (hU : U ⊆ range n) (hY : Flow Q U i Y) {k : ℕ} {x c : ℕ → ℝ}
    (hx : ∀ s ∈ at' pos U k, x s = c s + ∑ t ∈ at' pos U k, Q s t * x t) :
    ∑ s ∈ at' pos U k, w Q pos U i Y s * x s = ∑ s ∈ at' pos U k, Y s * c s := by
  have e1 : ∀ s ∈ at' pos U k, w Q pos U i Y s * x s = Y s * x s - ∑ t ∈ at' pos U k, Y t * Q t s * x s := by
    intro s hs
    have h1 := flow_split h hp hU hY (mem_at.1 hs).1
    rw [(mem_at.1 hs).2] at h1
    have : w Q pos U i Y s = Y s - ∑ t ∈ at' pos U k, Y t * Q t s := by linarith
    rw [this, sub_mul, Finset.sum_mul]
  have e2 : ∀ s ∈ at' pos U k, Y s * c s = Y s * x s - ∑ t ∈ at' pos U k, Y s * Q s t * x t := by
    intro s hs
    have : c s = x s - ∑ t ∈ at' pos U k, Q s t * x t := by linarith [hx s hs]
    rw [this, mul_sub, Finset.mul_sum]
    congr 1
    exact Finset.sum_congr rfl fun t _ => by ring
  rw [Finset.sum_congr rfl e1, Finset.sum_congr rfl e2, Finset.sum_sub_distrib, Finset.sum_sub_distrib]
  congr 1
  rw [Finset.sum_comm]

/-- the weights of the next part -/
theorem w_next {k : ℕ} {O : Finset ℕ} (hO : ∀ o ∈ O, pos o = k ∧ o ≠ i) (u : ℕ → ℝ) :
    ∑ o ∈ O, w Q pos U i Y o * u o = ∑ s ∈ at' pos U (k + 1), Y s * ∑ o ∈ O, Q s o * u o := by
  simp only [Finset.mul_sum]
  rw [Finset.sum_comm]
  refine Finset.sum_congr rfl fun o ho => ?_
  obtain ⟨rfl, h2⟩ := hO o ho
  rw [w, if_neg h2, zero_add, Finset.sum_mul]
  exact Finset.sum_congr rfl fun s _ => by ring

variable {m : ℕ}

/-- total entry weight at most one -/
theorem w_mass (h : OK n Q) (hp : Path n Q pos) (hU : U ⊆ range n) (hY : Flow Q U i Y) (hi : pos i = m) (hm : ∀ s ∈ U, pos s ≤ m)
    (d : ℕ) : ∀ k, k + d = m → ∀ O ⊆ range n, (∀ o ∈ O, pos o = k) → ∑ o ∈ O, w Q pos U i Y o ≤ 1 := by
  induction d with
  | zero =>
    intro k hk O _ hO
    have : ∀ o ∈ O, w Q pos U i Y o = if o = i then 1 else 0 := by
      intro o ho
      rw [w]
      have : at' pos U (pos o + 1) = ∅ := by
        rw [Finset.eq_empty_iff_forall_notMem]
        intro s hs
        have h1 := mem_at.1 hs
        have := hm s h1.1
        have := hO o ho
        omega
      rw [this, Finset.sum_empty, add_zero]
    rw [Finset.sum_congr rfl this, Finset.sum_ite_eq']
    split <;> norm_num
  | succ d ih =>
    intro k hk O hOn hO
    have hOi : ∀ o ∈ O, pos o = k ∧ o ≠ i := fun o ho => ⟨hO o ho, by rintro rfl; have := hO o ho; omega⟩
    have e := w_next (Q := Q) (U := U) (Y := Y) hOi fun _ => 1
    simp only [mul_one] at e
    rw [e]
    have e2 := exchange h hp hU hY (k := k + 1) (x := fun _ => 1) (c := fun s => 1 - ∑ t ∈ at' pos U (k + 1), Q s t)
      (fun s _ => by simp)
    simp only [mul_one] at e2
    refine le_trans ?_ (ih (k + 1) (by omega) (at' pos U (k + 1)) (fun s hs => hU (mem_at.1 hs).1) fun s hs => (mem_at.1 hs).2)
    rw [e2]
    refine Finset.sum_le_sum fun s hs => mul_le_mul_of_nonneg_left ?_ (hY.nonneg s)
    have hd : Disjoint O (at' pos U (k + 1)) := by
      rw [Finset.disjoint_left]
      intro o h1 h2
      have := hO o h1
      have := (mem_at.1 h2).2
      omega
    have h1 : ∑ t ∈ O ∪ at' pos U (k + 1), Q s t ≤ ∑ t ∈ range n, Q s t :=
      Finset.sum_le_sum_of_subset_of_nonneg (Finset.union_subset hOn fun t ht => hU (mem_at.1 ht).1) fun t _ _ => h.Q0 s t
    rw [Finset.sum_union hd] at h1
    have := h.sum s (Finset.mem_range.1 (hU (mem_at.1 hs).1))
    linarith

theorem w_le_one (h : OK n Q) (hp : Path n Q pos) (hU : U ⊆ range n) (hY : Flow Q U i Y) (hi : pos i = m) (hm : ∀ s ∈ U, pos s ≤ m)
    {o : ℕ} (ho : o < n) (hle : pos o ≤ m) : w Q pos U i Y o ≤ 1 := by
  have := w_mass h hp hU hY hi hm (m - pos o) (pos o) (by omega) {o} (by simpa using ho) (by simp)
  simpa using this

/-- sums over `U` seen from a state at position `k` -/
theorem sum_U_split (h : OK n Q) (hp : Path n Q pos) (hU : U ⊆ range n) {s : ℕ} (hs : s < n) {k : ℕ} (hk : pos s = k + 1) (x : ℕ → ℝ) :
    ∑ t ∈ U, Q s t * x t = ∑ t ∈ at' pos U k, Q s t * x t + ∑ t ∈ at' pos U (k + 1), Q s t * x t := by
  have hd : Disjoint (at' pos U k) (at' pos U (k + 1)) := by
    rw [Finset.disjoint_left]
    intro o h1 h2
    have := (mem_at.1 h1).2
    have := (mem_at.1 h2).2
    omega
  rw [← Finset.sum_union hd]
  refine (Finset.sum_subset (fun t ht => ?_) fun t ht hn => ?_).symm
  · rcases Finset.mem_union.1 ht with g | g <;> exact (mem_at.1 g).1
  · have h0 : ¬ 0 < Q s t := by
      intro hq
      apply hn
      rcases hp.step s hs t (Finset.mem_range.1 (hU ht)) hq with e | e
      · exact Finset.mem_union_right _ (mem_at.2 ⟨ht, by omega⟩)
      · exact Finset.mem_union_left _ (mem_at.2 ⟨ht, by omega⟩)
    rw [le_antisymm (not_lt.1 h0) (h.Q0 s t), zero_mul]

/-- at the last position nothing follows -/
theorem sum_U_last (h : OK n Q) (hp : Path n Q pos) (hU : U ⊆ range n) {s : ℕ} (hs : s < n) (hk : pos s = 0) (x : ℕ → ℝ) :
    ∑ t ∈ U, Q s t * x t = ∑ t ∈ at' pos U 0, Q s t * x t := by
  refine (Finset.sum_subset (fun t ht => (mem_at.1 ht).1) fun t ht hn => ?_).symm
  have h0 : ¬ 0 < Q s t := by
    intro hq
    apply hn
    rcases hp.step s hs t (Finset.mem_range.1 (hU ht)) hq with e | e
    · exact mem_at.2 ⟨ht, by omega⟩
    · omega
  rw [le_antisymm (not_lt.1 h0) (h.Q0 s t), zero_mul]

/-- the value of the initial state, seen from any part -/
theorem w_value (h : OK n Q) (hp : Path n Q pos) (hU : U ⊆ range n) (hY : Flow Q U i Y) (hi : pos i = m) (hiU : i ∈ U)
    (hm : ∀ s ∈ U, pos s ≤ m) {g x : ℕ → ℝ} (hg : ∀ s ∈ U, pos s ≠ 0 → g s = 0) (hx : Val n Q g U x) (d : ℕ) :
    ∀ k, k + d = m → ∑ s ∈ at' pos U k, w Q pos U i Y s * x s = x i := by
  induction d with
  | zero =>
    intro k hk
    have : ∀ o ∈ at' pos U k, w Q pos U i Y o * x o = if o = i then x o else 0 := by
      intro o ho
      rw [w]
      have : at' pos U (pos o + 1) = ∅ := by
        rw [Finset.eq_empty_iff_forall_notMem]
        intro s hs
        have h1 := mem_at.1 hs
        have := hm s h1.1
        have := (mem_at.1 ho).2
        omega
      rw [this, Finset.sum_empty, add_zero]
      split <;> simp
    rw [Finset.sum_congr rfl this, Finset.sum_ite_eq', if_pos (mem_at.2 ⟨hiU, by omega⟩)]
  | succ d ih =>
    intro k hk
    have hO : ∀ o ∈ at' pos U k, pos o = k ∧ o ≠ i := fun o ho => ⟨(mem_at.1 ho).2, by rintro rfl; have := (mem_at.1 ho).2; omega⟩
    rw [w_next hO, ← ih (k + 1) (by omega)]
    refine (exchange h hp hU hY fun s hs => ?_).symm
    obtain ⟨hs1, hs2⟩ := mem_at.1 hs
    rw [hx.eq s hs1, hg s hs1 (by omega), zero_add, sum_U_split h hp hU (Finset.mem_range.1 (hU hs1)) hs2]

/-- the value of the initial state is the gain in the last part -/
theorem gain_value (h : OK n Q) (hp : Path n Q pos) (hU : U ⊆ range n) (hY : Flow Q U i Y) (hi : pos i = m) (hiU : i ∈ U)
    (hm : ∀ s ∈ U, pos s ≤ m) {g x : ℕ → ℝ} (hg : ∀ s ∈ U, pos s ≠ 0 → g s = 0) (hx : Val n Q g U x) :
    ∑ s ∈ at' pos U 0, Y s * g s = x i := by
  rw [← w_value h hp hU hY hi hiU hm hg hx m 0 (by omega)]
  refine (exchange h hp hU hY fun s hs => ?_).symm
  obtain ⟨hs1, hs2⟩ := mem_at.1 hs
  rw [hx.eq s hs1, sum_U_last h hp hU (Finset.mem_range.1 (hU hs1)) hs2]

end Verif.Theory.Chain
