import Verif.Theory.Core
import Mathlib.Data.Finset.Card
import Mathlib.Tactic.NormNum
/-!
# Closed sets, end components, transience, and Farkas certificates on a `Core`
-/

set_option linter.unusedSectionVars false

namespace Verif.Theory
open Verif.Spec Finset Filter Topology

variable {S R : Type} [Fintype S]

namespace Core

/-- sub-stochastic core -/
structure Sub (M : Core S R) : Prop extends M.OK where
  sub : ∀ s, ∀ r ∈ M.rows s, M.g s r + ∑ t, M.Q s r t ≤ 1

variable {M : Core S R}

theorem Sub.bound (h : M.Sub) : M.Bound (fun _ => 1) where
  nonneg _ := zero_le_one
  pre s r hr := by simpa [step] using h.sub s r hr

theorem Sub.sumQ_le (h : M.Sub) {s : S} {r : R} (hr : r ∈ M.rows s) : ∑ t, M.Q s r t ≤ 1 := by
  have := h.sub s r hr
  have := h.g0 s r hr
  linarith

theorem Sub.Vmax_le_one (h : M.Sub) (s : S) : M.Vmax s ≤ 1 :=
  Vmax_le_pre h.toOK h.bound.nonneg h.bound.pre s

theorem Sub.Vmin_le_one (h : M.Sub) (s : S) : M.Vmin s ≤ 1 :=
  le_trans (Vmin_le_Vmax h.toOK h.bound s) (h.Vmax_le_one s)

/-- if a weighted average of values `≤ D` over a sub-distribution is at least `D > 0`, then the
distribution has full mass and its support is inside `{d = D}`. -/
theorem avg_max_principle {q d : S → ℝ} {D : ℝ} (hD : 0 < D) (hq : ∀ t, 0 ≤ q t)
    (hs : ∑ t, q t ≤ 1) (hd : ∀ t, d t ≤ D) (h : D ≤ ∑ t, q t * d t) :
    ∑ t, q t = 1 ∧ ∀ t, 0 < q t → d t = D := by
  have h1 : ∑ t, q t * d t ≤ ∑ t, q t * D :=
    Finset.sum_le_sum fun t _ => mul_le_mul_of_nonneg_left (hd t) (hq t)
  have h2 : ∑ t, q t * D = (∑ t, q t) * D := by rw [Finset.sum_mul]
  have h3 : ∑ t, q t = 1 := by
    refine le_antisymm hs ?_
    by_contra hlt
    push Not at hlt
    have : (∑ t, q t) * D < 1 * D := mul_lt_mul_of_pos_right hlt hD
    linarith
  refine ⟨h3, fun t ht => ?_⟩
  by_contra hne
  have hlt : d t < D := lt_of_le_of_ne (hd t) hne
  have : ∑ t, q t * d t < ∑ t, q t * D :=
    Finset.sum_lt_sum (fun t _ => mul_le_mul_of_nonneg_left (hd t) (hq t))
      ⟨t, Finset.mem_univ t, mul_lt_mul_of_pos_left hlt ht⟩
  rw [h2, h3] at this
  linarith

/-- mass `1` inside `B` -/
theorem sum_eq_one_of_support [DecidableEq S] {q : S → ℝ} (hq : ∀ t, 0 ≤ q t) (hs : ∑ t, q t = 1)
    {B : Finset S} (h : ∀ t, 0 < q t → t ∈ B) : ∑ t ∈ B, q t = 1 := by
  rw [← hs]
  refine Finset.sum_subset (Finset.subset_univ B) fun t _ ht => ?_
  by_contra hne
  exact ht (h t (lt_of_le_of_ne (hq t) (Ne.symm hne)))

theorem support_of_sum_eq_one [DecidableEq S] {q : S → ℝ} (hq : ∀ t, 0 ≤ q t) (hs : ∑ t, q t ≤ 1)
    {B : Finset S} (h : ∑ t ∈ B, q t = 1) : ∑ t, q t = 1 ∧ ∀ t, 0 < q t → t ∈ B := by
  have hle : ∑ t ∈ B, q t ≤ ∑ t, q t :=
    Finset.sum_le_sum_of_subset_of_nonneg (Finset.subset_univ B) fun t _ _ => hq t
  refine ⟨le_antisymm hs (h ▸ hle), fun t ht => ?_⟩
  by_contra hnot
  have : ∑ t ∈ B, q t < ∑ t, q t :=
    Finset.sum_lt_sum_of_subset (Finset.subset_univ B) (Finset.mem_univ t) hnot ht fun t _ _ => hq t
  linarith

/-- `B` is closed under the choice `f`: full probability mass stays inside. -/
def Closed (M : Core S R) (f : S → R) (B : Finset S) : Prop :=
  ∀ s ∈ B, f s ∈ M.rows s ∧ ∑ t ∈ B, M.Q s (f s) t = 1

/-- end component of a core: mass one stays inside, strongly connected -/
structure IsEC (M : Core S R) (E : Set S) (A : S → Set R) : Prop where
  nonempty : E.Nonempty
  act : ∀ s ∈ E, (A s).Nonempty
  avail : ∀ s ∈ E, ∀ r ∈ A s, r ∈ M.rows s
  full : ∀ s ∈ E, ∀ r ∈ A s, ∑ t, M.Q s r t = 1
  closed : ∀ s ∈ E, ∀ r ∈ A s, ∀ t, 0 < M.Q s r t → t ∈ E
  conn : ∀ s ∈ E, ∀ t ∈ E,
    Relation.ReflTransGen (fun u v => u ∈ E ∧ ∃ r ∈ A u, 0 < M.Q u r v) s t

def InEC (M : Core S R) (s : S) : Prop := ∃ E A, M.IsEC E A ∧ s ∈ E

theorem exists_EC_of_closed [DecidableEq S] (h : M.Sub) (f : S → R) (B : Finset S)
    (hB : B.Nonempty) (hc : M.Closed f B) : ∃ s ∈ B, M.InEC s := by
  classical
  induction hn : B.card using Nat.strong_induction_on generalizing B with
  | _ n ih =>
  by_cases hmin : ∃ B' ⊂ B, B'.Nonempty ∧ M.Closed f B'
  · obtain ⟨B', hsub, hne, hcl⟩ := hmin
    obtain ⟨s, hs, he⟩ := ih B'.card (hn ▸ Finset.card_lt_card hsub) B' hne hcl rfl
    exact ⟨s, hsub.1 hs, he⟩
  · push Not at hmin
    obtain ⟨s0, hs0⟩ := hB
    have supp : ∀ s ∈ B, ∑ t, M.Q s (f s) t = 1 ∧ ∀ t, 0 < M.Q s (f s) t → t ∈ B := fun s hs =>
      support_of_sum_eq_one (h.Q0 s _ (hc s hs).1) (h.sumQ_le (hc s hs).1) (hc s hs).2
    let rel : S → S → Prop := fun u v => u ∈ (B : Set S) ∧ ∃ r ∈ ({f u} : Set R), 0 < M.Q u r v
    refine ⟨s0, hs0, (B : Set S), fun s => {f s}, ?_, hs0⟩
    refine ⟨⟨s0, hs0⟩, fun s _ => ⟨f s, rfl⟩, ?_, ?_, ?_, ?_⟩
    · rintro s hs r rfl; exact (hc s hs).1
    · rintro s hs r rfl; exact (supp s hs).1
    · rintro s hs r rfl t ht; exact (supp s hs).2 t ht
    · intro s hs t ht
      let B' := B.filter fun t => Relation.ReflTransGen rel s t
      have hsB' : s ∈ B' := Finset.mem_filter.2 ⟨hs, Relation.ReflTransGen.refl⟩
      have hcl : M.Closed f B' := by
        intro u hu
        obtain ⟨huB, hur⟩ := Finset.mem_filter.1 hu
        refine ⟨(hc u huB).1, sum_eq_one_of_support (h.Q0 u _ (hc u huB).1) (supp u huB).1 ?_⟩
        intro v hv
        exact Finset.mem_filter.2 ⟨(supp u huB).2 v hv,
          hur.tail ⟨huB, f u, rfl, hv⟩⟩
      have : ¬ B' ⊂ B := fun hss => hmin B' hss ⟨s, hsB'⟩ hcl
      have heq : B' = B := by
        by_contra hne
        exact this (Finset.ssubset_iff_subset_ne.2 ⟨Finset.filter_subset _ _, hne⟩)
      have htB' : t ∈ B' := by rw [heq]; exact ht
      exact (Finset.mem_filter.1 htB').2

/-- states of end components have minimal value zero -/
theorem Vmin_eq_zero_of_InEC (h : M.Sub) {s : S} (he : M.InEC s) : M.Vmin s = 0 := by
  classical
  obtain ⟨E, A, hE, hs⟩ := he
  refine le_antisymm ?_ (Vmin_nonneg h.toOK h.bound s)
  have := Vmin_le_pre h.toOK (x := fun t => if t ∈ E then 0 else 1)
    (fun t => by split <;> norm_num) ?_ s
  · simpa [hs] using this
  · intro t
    by_cases ht : t ∈ E
    · obtain ⟨r, hr⟩ := hE.act t ht
      have hav := hE.avail t ht r hr
      refine ⟨r, hav, ?_⟩
      have hg : M.g t r = 0 := by
        have h1 := h.sub t r hav
        have h2 := h.g0 t r hav
        rw [hE.full t ht r hr] at h1
        linarith
      have hsum : ∑ u, M.Q t r u * (if u ∈ E then (0 : ℝ) else 1) = 0 := by
        refine Finset.sum_eq_zero fun u _ => ?_
        by_cases hu : u ∈ E
        · simp [hu]
        · have : ¬ 0 < M.Q t r u := fun hp => hu (hE.closed t ht r hr u hp)
          have := le_antisymm (not_lt.1 this) (h.Q0 t r hav u)
          simp [this]
      simp only [step, hg, ht, hsum, if_true]; norm_num
    · obtain ⟨r, hr⟩ := M.ne t
      refine ⟨r, hr, ?_⟩
      simp only [ht, if_false]
      refine le_trans (step_mono h.toOK (y := fun _ => 1) (fun u => ?_) hr) (h.bound.pre t r hr)
      split <;> norm_num

/-- **min, ≥**: a vector below all its lookaheads and non-positive on end components is below the
minimal value. -/
theorem le_Vmin_of_cert (h : M.Sub) {z : S → ℝ} (hz : ∀ s, ∀ r ∈ M.rows s, z s ≤ M.step z s r)
    (hec : ∀ s, M.InEC s → z s ≤ 0) (s : S) : z s ≤ M.Vmin s := by
  classical
  by_contra hcon
  push Not at hcon
  choose f hf hfx using exists_step_Vmin h.toOK h.bound
  let d : S → ℝ := fun s => z s - M.Vmin s
  obtain ⟨m, -, hm⟩ := Finset.exists_max_image Finset.univ d ⟨s, Finset.mem_univ s⟩
  have hD : 0 < d m := lt_of_lt_of_le (by simp only [d]; linarith) (hm s (Finset.mem_univ s))
  let B : Finset S := Finset.univ.filter fun t => d t = d m
  have hB : B.Nonempty := ⟨m, by simp [B]⟩
  have hcl : M.Closed f B := by
    intro t ht
    have htD : d t = d m := (Finset.mem_filter.1 ht).2
    have key : d m ≤ ∑ u, M.Q t (f t) u * d u := by
      have h1 := hz t (f t) (hf t)
      have h2 := hfx t
      simp only [step] at h1 h2
      have h3 : ∑ u, M.Q t (f t) u * d u =
          ∑ u, M.Q t (f t) u * z u - ∑ u, M.Q t (f t) u * M.Vmin u := by
        rw [← Finset.sum_sub_distrib]
        exact Finset.sum_congr rfl fun u _ => by simp only [d]; ring
      rw [h3, ← htD]
      simp only [d]
      linarith
    obtain ⟨h1, h2⟩ := avg_max_principle hD (h.Q0 t _ (hf t)) (h.sumQ_le (hf t))
      (fun u => hm u (Finset.mem_univ u)) key
    exact ⟨hf t, sum_eq_one_of_support (h.Q0 t _ (hf t)) h1 fun u hu => by simp [B, h2 u hu]⟩
  obtain ⟨e, heB, heE⟩ := exists_EC_of_closed h f B hB hcl
  have h1 : d e = d m := (Finset.mem_filter.1 heB).2
  have h2 := hec e heE
  have h3 := Vmin_nonneg h.toOK h.bound e
  simp only [d] at h1 hD
  linarith

/-- some state of every nonempty set that is closed under all rows has a row with a gain -/
def Live (M : Core S R) : Prop :=
  ∀ B : Finset S, B.Nonempty → (∀ s ∈ B, ∀ r ∈ M.rows s, ∀ t, 0 < M.Q s r t → t ∈ B) →
    ∃ s ∈ B, ∃ r ∈ M.rows s, 0 < M.g s r

/-- **max, ≤**: a vector above all its lookaheads is non-negative in a live core -/
theorem nonneg_of_super (h : M.Sub) (hl : M.Live) {z : S → ℝ}
    (hz : ∀ s, ∀ r ∈ M.rows s, M.step z s r ≤ z s) (s : S) : 0 ≤ z s := by
  classical
  by_contra hcon
  push Not at hcon
  obtain ⟨m, -, hm⟩ := Finset.exists_min_image Finset.univ z ⟨s, Finset.mem_univ s⟩
  have hD : 0 < - z m := by have := hm s (Finset.mem_univ s); linarith
  let B : Finset S := Finset.univ.filter fun t => z t = z m
  have key : ∀ t ∈ B, ∀ r ∈ M.rows t, - z m ≤ ∑ u, M.Q t r u * (- z u) := by
    intro t ht r hr
    have htD : z t = z m := (Finset.mem_filter.1 ht).2
    have h1 := hz t r hr
    have h2 := h.g0 t r hr
    simp only [step] at h1
    have h3 : ∑ u, M.Q t r u * (- z u) = - ∑ u, M.Q t r u * z u := by
      rw [← Finset.sum_neg_distrib]; exact Finset.sum_congr rfl fun u _ => by ring
    rw [h3]; linarith
  have key2 : ∀ t ∈ B, ∀ r ∈ M.rows t, ∑ u, M.Q t r u = 1 ∧ ∀ u, 0 < M.Q t r u → u ∈ B := by
    intro t ht r hr
    obtain ⟨h1, h2⟩ := avg_max_principle hD (h.Q0 t _ hr) (h.sumQ_le hr)
      (fun u => neg_le_neg (hm u (Finset.mem_univ u))) (key t ht r hr)
    exact ⟨h1, fun u hu => by simp [B, neg_inj.1 (h2 u hu)]⟩
  obtain ⟨t, ht, r, hr, hg⟩ := hl B ⟨m, by simp [B]⟩ fun s hs r hr => (key2 s hs r hr).2
  have := h.sub t r hr
  rw [(key2 t ht r hr).1] at this
  linarith

theorem Vmax_le_of_cert (h : M.Sub) (hl : M.Live) {z : S → ℝ}
    (hz : ∀ s, ∀ r ∈ M.rows s, M.step z s r ≤ z s) (s : S) : M.Vmax s ≤ z s :=
  Vmax_le_pre h.toOK (nonneg_of_super h hl hz) hz s

/-! ### dual certificates -/

/-- expected flow balance of `y` at `t`: outflow minus inflow -/
noncomputable def bal (M : Core S R) (y : S → R → ℝ) (t : S) : ℝ :=
  ∑ r ∈ M.rows t, y t r - ∑ s, ∑ r ∈ M.rows s, y s r * M.Q s r t

/-- weighted gain -/
noncomputable def gain (M : Core S R) (y : S → R → ℝ) : ℝ := ∑ s, ∑ r ∈ M.rows s, y s r * M.g s r

theorem duality (M : Core S R) (y : S → R → ℝ) (x : S → ℝ) :
    ∑ s, ∑ r ∈ M.rows s, y s r * (x s - M.step x s r) = ∑ t, x t * M.bal y t - M.gain y := by
  have e1 : ∑ t, x t * M.bal y t =
      ∑ s, ∑ r ∈ M.rows s, y s r * x s - ∑ s, ∑ r ∈ M.rows s, y s r * ∑ t, M.Q s r t * x t := by
    simp only [bal, mul_sub, Finset.sum_sub_distrib]
    congr 1
    · refine Finset.sum_congr rfl fun s _ => ?_
      rw [Finset.mul_sum]
      exact Finset.sum_congr rfl fun r _ => by ring
    · simp only [Finset.mul_sum]
      rw [Finset.sum_comm]
      refine Finset.sum_congr rfl fun s _ => ?_
      rw [Finset.sum_comm]
      refine Finset.sum_congr rfl fun r _ => Finset.sum_congr rfl fun t _ => by ring
  rw [e1, gain, ← Finset.sum_sub_distrib, ← Finset.sum_sub_distrib]
  refine Finset.sum_congr rfl fun s _ => ?_
  rw [← Finset.sum_sub_distrib, ← Finset.sum_sub_distrib]
  refine Finset.sum_congr rfl fun r _ => ?_
  simp only [step]; ring

variable [DecidableEq S]

/-- **max, ≥** -/
theorem gain_le_Vmax {B : S → ℝ} (ok : M.OK) (b : M.Bound B) {y : S → R → ℝ}
    (hy : ∀ s, ∀ r ∈ M.rows s, 0 ≤ y s r) {i : S}
    (hbal : ∀ t, M.bal y t ≤ if t = i then 1 else 0) : M.gain y ≤ M.Vmax i := by
  have h1 : 0 ≤ ∑ s, ∑ r ∈ M.rows s, y s r * (M.Vmax s - M.step M.Vmax s r) :=
    Finset.sum_nonneg fun s _ => Finset.sum_nonneg fun r hr =>
      mul_nonneg (hy s r hr) (sub_nonneg.2 (step_Vmax_le ok b hr))
  rw [duality] at h1
  have h2 : ∑ t, M.Vmax t * M.bal y t ≤ ∑ t, M.Vmax t * (if t = i then 1 else 0) :=
    Finset.sum_le_sum fun t _ => mul_le_mul_of_nonneg_left (hbal t) (Vmax_nonneg ok b t)
  simp at h2
  linarith

/-- **min, ≤** -/
theorem Vmin_le_gain {B : S → ℝ} (ok : M.OK) (b : M.Bound B) {y : S → R → ℝ}
    (hy : ∀ s, ∀ r ∈ M.rows s, 0 ≤ y s r) {i : S}
    (hbal : ∀ t, (if t = i then 1 else 0) ≤ M.bal y t) : M.Vmin i ≤ M.gain y := by
  have h1 : ∑ s, ∑ r ∈ M.rows s, y s r * (M.Vmin s - M.step M.Vmin s r) ≤ 0 :=
    Finset.sum_nonpos fun s _ => Finset.sum_nonpos fun r hr =>
      mul_nonpos_of_nonneg_of_nonpos (hy s r hr) (sub_nonpos.2 (Vmin_le_step ok b hr))
  rw [duality] at h1
  have h2 : ∑ t, M.Vmin t * (if t = i then 1 else 0) ≤ ∑ t, M.Vmin t * M.bal y t :=
    Finset.sum_le_sum fun t _ => mul_le_mul_of_nonneg_left (hbal t) (Vmin_nonneg ok b t)
  simp at h2
  linarith

end Core
end Verif.Theory
