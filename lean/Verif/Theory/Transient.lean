import Verif.Theory.Farkas
import Mathlib.Algebra.BigOperators.Field
/-!
# Transient cores: bounded expected number of steps, dual completeness, memoryless optimality
-/
set_option linter.unusedSectionVars false

namespace Verif.Theory
open Verif.Spec Finset Filter Topology

variable {S R : Type} [Fintype S] [DecidableEq S]

namespace Core
variable {M : Core S R}

structure QSub (M : Core S R) : Prop extends M.OK where
  sumQ : ∀ s, ∀ r ∈ M.rows s, ∑ t, M.Q s r t ≤ 1

theorem Sub.qsub (h : M.Sub) : M.QSub := ⟨h.toOK, fun _ _ hr => h.sumQ_le hr⟩

/-- no nonempty set of states in which one can stay forever with probability 1 -/
def Transient (M : Core S R) : Prop :=
  ∀ B : Finset S, B.Nonempty → ¬ ∀ s ∈ B, ∃ r ∈ M.rows s, ∑ t ∈ B, M.Q s r t = 1

theorem transient_of_no_EC (h : M.Sub) (hn : ∀ s, ¬ M.InEC s) : M.Transient := by
  intro B hB hcl
  classical
  have : ∀ s, ∃ r, s ∈ B → r ∈ M.rows s ∧ ∑ t ∈ B, M.Q s r t = 1 := by
    intro s
    by_cases hs : s ∈ B
    · obtain ⟨r, hr⟩ := hcl s hs; exact ⟨r, fun _ => hr⟩
    · obtain ⟨r, _⟩ := M.ne s; exact ⟨r, fun h => absurd h hs⟩
  choose f hf using this
  obtain ⟨s, _, he⟩ := exists_EC_of_closed h f B hB hf
  exact hn s he

theorem no_EC_of_transient (ok : M.OK) (h : M.Transient) (s : S) : ¬ M.InEC s := by
  classical
  rintro ⟨E, A, hE, hs⟩
  refine h (Finset.univ.filter fun t => t ∈ E) ⟨s, by simpa using hs⟩ fun t ht => ?_
  have htE : t ∈ E := by simpa using ht
  obtain ⟨r, hr⟩ := hE.act t htE
  refine ⟨r, hE.avail t htE r hr, ?_⟩
  refine sum_eq_one_of_support (ok.Q0 t r (hE.avail t htE r hr)) (hE.full t htE r hr) ?_
  intro u hu
  simpa using hE.closed t htE r hr u hu

/-- the probability of surviving `n` steps, maximised -/
noncomputable def surv (M : Core S R) : ℕ → S → ℝ
  | 0, _ => 1
  | n + 1, s => (M.rows s).sup' (M.ne s) fun r => ∑ t, M.Q s r t * surv M n t

theorem surv_nonneg (ok : M.OK) (n : ℕ) (s : S) : 0 ≤ M.surv n s := by
  induction n generalizing s with
  | zero => simp [surv]
  | succ n ih =>
    obtain ⟨r, hr⟩ := M.ne s
    refine le_trans ?_ (Finset.le_sup' (fun r => ∑ t, M.Q s r t * surv M n t) hr)
    exact Finset.sum_nonneg fun t _ => mul_nonneg (ok.Q0 s r hr t) (ih t)

theorem surv_le_one (h : M.QSub) (n : ℕ) (s : S) : M.surv n s ≤ 1 := by
  induction n generalizing s with
  | zero => simp [surv]
  | succ n ih =>
    refine Finset.sup'_le _ _ fun r hr => ?_
    refine le_trans (Finset.sum_le_sum fun t _ =>
      mul_le_of_le_one_right (h.Q0 s r hr t) (ih t)) (h.sumQ s r hr)

/-- after more steps than there are states one has left with positive probability -/
theorem surv_lt_one (h : M.QSub) (ht : M.Transient) {n : ℕ} (hn : Fintype.card S < n) (s : S) : M.surv n s < 1 := by
  classical
  let B : ℕ → Finset S := fun n => Finset.univ.filter fun s => M.surv n s = 1
  -- step characterisation
  have hstep : ∀ n, ∀ s ∈ B (n + 1), ∃ r ∈ M.rows s, ∑ t ∈ B n, M.Q s r t = 1 := by
    intro n s hs
    have hs1 : M.surv (n + 1) s = 1 := (Finset.mem_filter.1 hs).2
    obtain ⟨r, hr, hmax⟩ := Finset.exists_mem_eq_sup' (M.ne s)
      (fun r => ∑ t, M.Q s r t * surv M n t)
    have e : ∑ t, M.Q s r t * surv M n t = 1 := by rw [← hmax]; exact hs1
    refine ⟨r, hr, ?_⟩
    obtain ⟨h1, h2⟩ := avg_max_principle zero_lt_one (h.Q0 s r hr) (h.sumQ s r hr)
      (surv_le_one h n) e.ge
    exact sum_eq_one_of_support (h.Q0 s r hr) h1 fun t ht => by simp [B, h2 t ht]
  have hanti1 : ∀ n s, M.surv (n + 1) s ≤ M.surv n s := by
    intro n
    induction n with
    | zero => intro s; simpa [surv] using surv_le_one h 1 s
    | succ n ih =>
      intro s
      refine Finset.sup'_le _ _ fun r hr => ?_
      refine le_trans (Finset.sum_le_sum fun t _ => mul_le_mul_of_nonneg_left (ih t) (h.Q0 s r hr t))
        (Finset.le_sup' (fun r => ∑ t, M.Q s r t * surv M n t) hr)
  have hsub : ∀ n, B (n + 1) ⊆ B n := by
    intro n s hs
    have hs1 : M.surv (n + 1) s = 1 := (Finset.mem_filter.1 hs).2
    have : 1 ≤ M.surv n s := hs1 ▸ hanti1 n s
    simp [B, le_antisymm (surv_le_one h n s) this]
  have hstrict : ∀ n, B n ≠ ∅ → (B (n + 1)).card < (B n).card := by
    intro n hne
    refine Finset.card_lt_card (Finset.ssubset_iff_subset_ne.2 ⟨hsub n, fun heq => ?_⟩)
    refine ht (B n) (Finset.nonempty_iff_ne_empty.2 hne) fun s hs => ?_
    exact hstep n s (heq ▸ hs)
  have hcard : ∀ n, B n ≠ ∅ → (B n).card + n ≤ Fintype.card S := by
    intro n
    induction n with
    | zero => intro _; simpa using Finset.card_le_univ (B 0)
    | succ n ih =>
      intro hne
      have hne' : B n ≠ ∅ := fun h0 => hne (Finset.subset_empty.1 (h0 ▸ hsub n))
      have := hstrict n hne'
      have := ih hne'
      omega
  have hemp : B n = ∅ := by
    by_contra hne
    have := hcard _ hne
    omega
  refine lt_of_le_of_ne (surv_le_one h _ s) fun heq => ?_
  have : s ∈ B n := by simp [B, heq]
  rw [hemp] at this
  simp at this

/-- the probability of surviving `n` steps is one or bounded away from one -/
theorem surv_gap (h : M.QSub) {ε : ℝ} (h0 : 0 < ε) (h1 : ε ≤ 1) (hQ : ∀ s, ∀ r ∈ M.rows s, ∀ t, 0 < M.Q s r t → ε ≤ M.Q s r t)
    (hd : ∀ s, ∀ r ∈ M.rows s, ∑ t, M.Q s r t = 1 ∨ ∑ t, M.Q s r t ≤ 1 - ε) (n : ℕ) (s : S) :
    M.surv n s = 1 ∨ M.surv n s ≤ 1 - ε ^ n := by
  induction n generalizing s with
  | zero => exact Or.inl rfl
  | succ n ih =>
    obtain ⟨r, hr, hmax⟩ := Finset.exists_mem_eq_sup' (M.ne s) (fun r => ∑ t, M.Q s r t * surv M n t)
    have e : M.surv (n + 1) s = ∑ t, M.Q s r t * surv M n t := hmax
    have hle : ∀ t, M.Q s r t * M.surv n t ≤ M.Q s r t := fun t =>
      mul_le_of_le_one_right (h.Q0 s r hr t) (surv_le_one h n t)
    rcases hd s r hr with h2 | h2
    · by_cases hall : ∀ t, 0 < M.Q s r t → M.surv n t = 1
      · left
        rw [e, ← h2]
        refine Finset.sum_congr rfl fun t _ => ?_
        rcases (h.Q0 s r hr t).eq_or_lt with hq | hq
        · rw [← hq, zero_mul]
        · rw [hall t hq, mul_one]
      · push Not at hall
        obtain ⟨t, hq, hne⟩ := hall
        right
        have h3 := (ih t).resolve_left hne
        have h4 := hQ s r hr t hq
        have h5 : ∑ u, (M.Q s r u - M.Q s r u * M.surv n u) ≥ M.Q s r t - M.Q s r t * M.surv n t :=
          Finset.single_le_sum (f := fun u => M.Q s r u - M.Q s r u * M.surv n u)
            (fun u _ => sub_nonneg.2 (hle u)) (Finset.mem_univ t)
        rw [Finset.sum_sub_distrib, h2, ← e] at h5
        have h6 : ε * ε ^ n ≤ M.Q s r t * (1 - M.surv n t) :=
          mul_le_mul h4 (by linarith) (pow_nonneg h0.le n) hq.le
        rw [pow_succ']
        linarith
    · right
      have h3 : M.surv (n + 1) s ≤ ∑ t, M.Q s r t := e ▸ Finset.sum_le_sum fun t _ => hle t
      have h4 : ε ^ (n + 1) ≤ ε := by
        rw [pow_succ']
        exact mul_le_of_le_one_right h0.le (pow_le_one₀ h0.le h1)
      linarith

/-- a bound for the expected number of steps -/
theorem exists_w_le (h : M.QSub) {n : ℕ} {c : ℝ} (hc : 0 < c) (hm : ∀ s, M.surv n s ≤ 1 - c) :
    ∃ w : S → ℝ, (∀ s, 0 ≤ w s) ∧ (∀ s, w s ≤ n / c) ∧ ∀ s, ∀ r ∈ M.rows s, 1 + ∑ t, M.Q s r t * w t ≤ w s := by
  let v : S → ℝ := fun s => ∑ k ∈ Finset.range n, M.surv k s
  have hv0 : ∀ s, 0 ≤ v s := fun s => Finset.sum_nonneg fun k _ => surv_nonneg h.toOK k s
  have hvn : ∀ s, v s ≤ n := fun s => by
    refine le_trans (Finset.sum_le_sum (g := fun _ => 1) fun k _ => surv_le_one h k s) ?_
    simp
  refine ⟨fun s => v s / c, fun s => div_nonneg (hv0 s) hc.le, fun s => div_le_div_of_nonneg_right (hvn s) hc.le,
    fun s r hr => ?_⟩
  have h1 : ∑ t, M.Q s r t * v t ≤ v s - c := by
    have e1 : ∑ t, M.Q s r t * v t =
        ∑ k ∈ Finset.range n, ∑ t, M.Q s r t * M.surv k t := by
      simp only [v, Finset.mul_sum]
      rw [Finset.sum_comm]
    have e2 : ∑ k ∈ Finset.range n, ∑ t, M.Q s r t * M.surv k t ≤
        ∑ k ∈ Finset.range n, M.surv (k + 1) s :=
      Finset.sum_le_sum fun k _ => Finset.le_sup' (fun r => ∑ t, M.Q s r t * surv M k t) hr
    have e3 : ∑ k ∈ Finset.range n, M.surv (k + 1) s = v s + M.surv n s - 1 := by
      have := Finset.sum_range_succ' (fun k => M.surv k s) n
      rw [Finset.sum_range_succ] at this
      simp only [surv] at this ⊢
      simp only [v]
      linarith
    have e4 := hm s
    linarith
  have e5 : ∑ t, M.Q s r t * (v t / c) = (∑ t, M.Q s r t * v t) / c := by
    rw [Finset.sum_div]; exact Finset.sum_congr rfl fun t _ => by ring
  rw [e5]
  rw [← sub_nonneg]
  have : v s / c - (1 + (∑ t, M.Q s r t * v t) / c) = (v s - c - ∑ t, M.Q s r t * v t) / c := by
    field_simp
    try ring
  rw [this]
  exact div_nonneg (by linarith) hc.le

/-- in a transient core the expected number of steps is bounded -/
theorem exists_w (h : M.QSub) (ht : M.Transient) :
    ∃ w : S → ℝ, (∀ s, 0 ≤ w s) ∧ ∀ s, ∀ r ∈ M.rows s, 1 + ∑ t, M.Q s r t * w t ≤ w s := by
  rcases isEmpty_or_nonempty S with he | hne
  · exact ⟨fun _ => 0, fun s => he.elim s, fun s => he.elim s⟩
  have hn := surv_lt_one h ht (Nat.lt_succ_self (Fintype.card S))
  obtain ⟨m, -, hm⟩ := Finset.exists_max_image Finset.univ (M.surv (Fintype.card S + 1)) Finset.univ_nonempty
  obtain ⟨w, h1, -, h2⟩ := exists_w_le h (c := 1 - M.surv (Fintype.card S + 1) m) (by have := hn m; linarith)
    (fun s => by have := hm s (Finset.mem_univ s); linarith)
  exact ⟨w, h1, h2⟩

/-- an explicit bound for the expected number of steps -/
theorem exists_w_eps (h : M.QSub) (ht : M.Transient) {ε : ℝ} (h0 : 0 < ε) (h1 : ε ≤ 1)
    (hQ : ∀ s, ∀ r ∈ M.rows s, ∀ t, 0 < M.Q s r t → ε ≤ M.Q s r t)
    (hd : ∀ s, ∀ r ∈ M.rows s, ∑ t, M.Q s r t = 1 ∨ ∑ t, M.Q s r t ≤ 1 - ε) {n : ℕ} (hn : Fintype.card S < n) :
    ∃ w : S → ℝ, (∀ s, 0 ≤ w s) ∧ (∀ s, w s ≤ n / ε ^ n) ∧ ∀ s, ∀ r ∈ M.rows s, 1 + ∑ t, M.Q s r t * w t ≤ w s :=
  exists_w_le h (pow_pos h0 n) fun s => (surv_gap h h0 h1 hQ hd n s).resolve_left (surv_lt_one h ht hn s).ne

/-- comparison principle along a choice that does not stay anywhere forever -/
theorem le_of_compare (h : M.QSub) {f : S → R} (hf : ∀ s, f s ∈ M.rows s) {x y : S → ℝ}
    (htr : ∀ B : Finset S, B.Nonempty → (∀ s ∈ B, y s < x s) →
      ¬ ∀ s ∈ B, ∑ t ∈ B, M.Q s (f s) t = 1)
    (hx : ∀ s, y s < x s → x s ≤ M.step x s (f s)) (hy : ∀ s, y s < x s → M.step y s (f s) ≤ y s)
    (s : S) : x s ≤ y s := by
  classical
  by_contra hcon
  push Not at hcon
  let d : S → ℝ := fun s => x s - y s
  obtain ⟨m, -, hm⟩ := Finset.exists_max_image Finset.univ d ⟨s, Finset.mem_univ s⟩
  have hD : 0 < d m := lt_of_lt_of_le (by simp only [d]; linarith) (hm s (Finset.mem_univ s))
  let B : Finset S := Finset.univ.filter fun t => d t = d m
  have hpos : ∀ t ∈ B, y t < x t := by
    intro t ht
    have htD : d t = d m := (Finset.mem_filter.1 ht).2
    simp only [d] at htD hD
    linarith
  refine htr B ⟨m, by simp [B]⟩ hpos fun t ht => ?_
  have htD : d t = d m := (Finset.mem_filter.1 ht).2
  have key : d m ≤ ∑ u, M.Q t (f t) u * d u := by
    have h1 := hx t (hpos t ht)
    have h2 := hy t (hpos t ht)
    simp only [step] at h1 h2
    have h3 : ∑ u, M.Q t (f t) u * d u =
        ∑ u, M.Q t (f t) u * x u - ∑ u, M.Q t (f t) u * y u := by
      rw [← Finset.sum_sub_distrib]
      exact Finset.sum_congr rfl fun u _ => by simp only [d]; ring
    rw [h3, ← htD]
    simp only [d]
    linarith
  obtain ⟨h1, h2⟩ := avg_max_principle hD (h.Q0 t _ (hf t)) (h.sumQ _ _ (hf t))
    (fun u => hm u (Finset.mem_univ u)) key
  exact sum_eq_one_of_support (h.Q0 t _ (hf t)) h1 fun u hu => by simp [B, h2 u hu]

theorem Transient.choice (ht : M.Transient) {f : S → R} (hf : ∀ s, f s ∈ M.rows s)
    {B : Finset S} (hB : B.Nonempty) : ¬ ∀ s ∈ B, ∑ t ∈ B, M.Q s (f s) t = 1 :=
  fun hcl => ht B hB fun s hs => ⟨f s, hf s, hcl s hs⟩

/-- in a transient core every vector below all its lookaheads is below the minimal value -/
theorem le_Vmin_of_transient (h : M.QSub) (ht : M.Transient) {B : S → ℝ} (b : M.Bound B) {z : S → ℝ}
    (hz : ∀ s, ∀ r ∈ M.rows s, z s ≤ M.step z s r) (s : S) : z s ≤ M.Vmin s := by
  choose f hf hfx using exists_step_Vmin h.toOK b
  exact le_of_compare h hf (fun B hB _ => ht.choice hf hB) (fun s _ => hz s _ (hf s))
    (fun s _ => (hfx s).le) s

/-- in a transient core every vector above all its lookaheads is above the maximal value -/
theorem Vmax_le_of_transient (h : M.QSub) (ht : M.Transient) {B : S → ℝ} (b : M.Bound B) {z : S → ℝ}
    (hz : ∀ s, ∀ r ∈ M.rows s, M.step z s r ≤ z s) (s : S) : M.Vmax s ≤ z s := by
  choose f hf hfx using exists_step_Vmax h.toOK b
  exact le_of_compare h hf (fun B hB _ => ht.choice hf hB) (fun s _ => (hfx s).ge)
    (fun s _ => hz s _ (hf s)) s

/-! ### expected visits -/

/-- the flow equation `Y = δ_i + Y q` of a transient chain has a non-negative solution -/
theorem exists_visits {q : S → S → ℝ} (hq : ∀ s t, 0 ≤ q s t) {w : S → ℝ} (hw0 : ∀ s, 0 ≤ w s)
    (hw : ∀ s, 1 + ∑ t, q s t * w t ≤ w s) (i : S) :
    ∃ Y : S → ℝ, (∀ s, 0 ≤ Y s) ∧ ∀ t, Y t = (if t = i then 1 else 0) + ∑ s, Y s * q s t := by
  let u : ℕ → S → ℝ := fun n => Nat.rec (fun t => if t = i then 1 else 0)
    (fun _ v t => ∑ s, v s * q s t) n
  have u0 : ∀ t, u 0 t = if t = i then 1 else 0 := fun t => rfl
  have us : ∀ n t, u (n + 1) t = ∑ s, u n s * q s t := fun n t => rfl
  have hu : ∀ n t, 0 ≤ u n t := by
    intro n
    induction n with
    | zero => intro t; rw [u0]; split <;> norm_num
    | succ n ih =>
      intro t; rw [us]; exact Finset.sum_nonneg fun s _ => mul_nonneg (ih s) (hq s t)
  let Y : ℕ → S → ℝ := fun n t => ∑ k ∈ Finset.range n, u k t
  have hY0 : ∀ n t, 0 ≤ Y n t := fun n t => Finset.sum_nonneg fun k _ => hu k t
  have hYs : ∀ n t, Y (n + 1) t = (if t = i then 1 else 0) + ∑ s, Y n s * q s t := by
    intro n t
    simp only [Y]
    rw [Finset.sum_range_succ']
    have : ∑ s, (∑ k ∈ Finset.range n, u k s) * q s t = ∑ k ∈ Finset.range n, u (k + 1) t := by
      simp only [Finset.sum_mul, us]
      rw [Finset.sum_comm]
    rw [this, u0]; ring
  have hdec : ∀ n, ∑ s, u n s ≤ ∑ s, u n s * w s - ∑ s, u (n + 1) s * w s := by
    intro n
    have e : ∑ s, u (n + 1) s * w s = ∑ s, u n s * ∑ t, q s t * w t := by
      simp only [us, Finset.sum_mul, Finset.mul_sum]
      rw [Finset.sum_comm]
      exact Finset.sum_congr rfl fun s _ => Finset.sum_congr rfl fun t _ => by ring
    rw [e, ← Finset.sum_sub_distrib]
    refine Finset.sum_le_sum fun s _ => ?_
    have := mul_le_mul_of_nonneg_left (hw s) (hu n s)
    linarith
  have htel : ∀ n, ∑ s, Y n s ≤ w i - ∑ s, u n s * w s := by
    intro n
    induction n with
    | zero => simp [Y, u0]
    | succ n ih =>
      have e : ∑ s, Y (n + 1) s = ∑ s, Y n s + ∑ s, u n s := by
        rw [← Finset.sum_add_distrib]
        exact Finset.sum_congr rfl fun s _ => Finset.sum_range_succ _ _
      have := hdec n
      rw [e]; linarith
  have hbd : ∀ n t, Y n t ≤ w i := by
    intro n t
    have h1 := htel n
    have h2 : 0 ≤ ∑ s, u n s * w s := Finset.sum_nonneg fun s _ => mul_nonneg (hu n s) (hw0 s)
    have h3 : Y n t ≤ ∑ s, Y n s :=
      Finset.single_le_sum (fun s _ => hY0 n s) (Finset.mem_univ t)
    linarith
  have hmono : ∀ t, Monotone fun n => Y n t := fun t => monotone_nat_of_le_succ fun n => by
    simp only [Y]; rw [Finset.sum_range_succ]; have := hu n t; linarith
  have hlim : ∀ t, Tendsto (fun n => Y n t) atTop (𝓝 (⨆ n, Y n t)) := fun t =>
    tendsto_atTop_ciSup (hmono t) ⟨w i, by rintro _ ⟨n, rfl⟩; exact hbd n t⟩
  refine ⟨fun t => ⨆ n, Y n t, fun t => ?_, fun t => ?_⟩
  · exact ge_of_tendsto' (hlim t) fun n => hY0 n t
  · have h1 : Tendsto (fun n => Y (n + 1) t) atTop (𝓝 (⨆ n, Y n t)) :=
      (hlim t).comp (tendsto_add_atTop_nat 1)
    have h2 : Tendsto (fun n => (if t = i then (1 : ℝ) else 0) + ∑ s, Y n s * q s t) atTop
        (𝓝 ((if t = i then 1 else 0) + ∑ s, (⨆ n, Y n s) * q s t)) :=
      Tendsto.add tendsto_const_nhds
        (tendsto_finsetSum _ fun s _ => Tendsto.mul_const _ (hlim s))
    refine tendsto_nhds_unique h1 ?_
    simpa only [hYs] using h2

/-- visits along the choice `f`, restricted to `U` -/
theorem exists_visits_on (h : M.QSub) {f : S → R} (hf : ∀ s, f s ∈ M.rows s) (U : Finset S)
    (htr : ∀ B ⊆ U, B.Nonempty → ¬ ∀ s ∈ B, ∑ t ∈ B, M.Q s (f s) t = 1) {i : S} (hi : i ∈ U) :
    ∃ Y : S → ℝ, (∀ s, 0 ≤ Y s) ∧ (∀ s, s ∉ U → Y s = 0) ∧
      ∀ t ∈ U, Y t = (if t = i then 1 else 0) + ∑ s, Y s * M.Q s (f s) t := by
  classical
  let M' : Core S R :=
    { rows := fun s => {f s}, ne := fun s => ⟨f s, by simp⟩, g := fun _ _ => 0
      Q := fun s _ t => if s ∈ U ∧ t ∈ U then M.Q s (f s) t else 0 }
  have hM' : M'.QSub :=
    { g0 := fun _ _ _ => le_rfl
      Q0 := fun s r _ t => by
        simp only [M']; split
        · exact h.Q0 s _ (hf s) t
        · exact le_rfl
      sumQ := fun s r _ => by
        refine le_trans (Finset.sum_le_sum fun t _ => ?_) (h.sumQ s _ (hf s))
        simp only [M']; split
        · exact le_rfl
        · exact h.Q0 s _ (hf s) t }
  have htr' : M'.Transient := by
    intro B hB hcl
    have hBU : B ⊆ U := by
      intro s hs
      by_contra hsU
      obtain ⟨r, _, hr⟩ := hcl s hs
      simp [M', hsU] at hr
    refine htr B hBU hB fun s hs => ?_
    obtain ⟨r, _, hr⟩ := hcl s hs
    rw [← hr]
    refine Finset.sum_congr rfl fun t ht => ?_
    simp [M', hBU hs, hBU ht]
  obtain ⟨w, hw0, hw⟩ := exists_w hM' htr'
  let q : S → S → ℝ := fun s t => if s ∈ U ∧ t ∈ U then M.Q s (f s) t else 0
  obtain ⟨Y, hY0, hY⟩ := exists_visits (q := q)
    (fun s t => hM'.Q0 s (f s) (by simp [M']) t) hw0 (fun s => hw s (f s) (by simp [M'])) i
  have hYU : ∀ s, s ∉ U → Y s = 0 := by
    intro s hs
    rw [hY s]
    have hne : s ≠ i := fun h => hs (h ▸ hi)
    simp [hne, q, hs]
  refine ⟨Y, hY0, hYU, fun t ht => ?_⟩
  rw [hY t]
  congr 1
  refine Finset.sum_congr rfl fun s _ => ?_
  by_cases hs : s ∈ U
  · simp [q, hs, ht]
  · simp [hYU s hs]

variable [DecidableEq R]

/-- the flow concentrated on the choice `f` -/
noncomputable def flow (f : S → R) (Y : S → ℝ) : S → R → ℝ := fun s r => if r = f s then Y s else 0

theorem flow_nonneg {f : S → R} {Y : S → ℝ} (hY : ∀ s, 0 ≤ Y s) (s : S) (r : R) :
    0 ≤ flow f Y s r := by unfold flow; split; exacts [hY s, le_rfl]

theorem flow_sum {f : S → R} (hf : ∀ s, f s ∈ M.rows s) (Y : S → ℝ) (s : S) (F : R → ℝ) :
    ∑ r ∈ M.rows s, flow f Y s r * F r = Y s * F (f s) := by
  unfold flow
  rw [Finset.sum_eq_single (f s)]
  · simp
  · intro r _ hr; simp [hr]
  · intro hn; exact absurd (hf s) hn

theorem bal_flow {f : S → R} (hf : ∀ s, f s ∈ M.rows s) (Y : S → ℝ) (t : S) :
    M.bal (flow f Y) t = Y t - ∑ s, Y s * M.Q s (f s) t := by
  unfold bal
  congr 1
  · simpa using flow_sum hf Y t (fun _ => 1)
  · exact Finset.sum_congr rfl fun s _ => flow_sum hf Y s fun r => M.Q s r t

theorem gain_flow {f : S → R} (hf : ∀ s, f s ∈ M.rows s) (Y : S → ℝ) :
    M.gain (flow f Y) = ∑ s, Y s * M.g s (f s) :=
  Finset.sum_congr rfl fun s _ => flow_sum hf Y s fun r => M.g s r

/-- **completeness of dual certificates for min, ≤** in transient cores -/
theorem exists_dual_min (h : M.QSub) (ht : M.Transient) {B : S → ℝ} (b : M.Bound B) (i : S) :
    ∃ y : S → R → ℝ, (∀ s r, 0 ≤ y s r) ∧ (∀ t, M.bal y t = if t = i then 1 else 0) ∧
      M.gain y = M.Vmin i := by
  choose f hf hfx using exists_step_Vmin h.toOK b
  obtain ⟨Y, hY0, -, hY⟩ := exists_visits_on h hf Finset.univ
    (fun B _ hB => ht.choice hf hB) (Finset.mem_univ i)
  have hbal : ∀ t, M.bal (flow f Y) t = if t = i then 1 else 0 := fun t => by
    rw [bal_flow hf]; have := hY t (Finset.mem_univ t); linarith
  refine ⟨flow f Y, flow_nonneg hY0, hbal, ?_⟩
  have hd := duality M (flow f Y) M.Vmin
  have e : ∑ s, ∑ r ∈ M.rows s, flow f Y s r * (M.Vmin s - M.step M.Vmin s r) = 0 :=
    Finset.sum_eq_zero fun s _ => by
      rw [flow_sum hf Y s fun r => M.Vmin s - M.step M.Vmin s r, hfx s]; simp
  rw [e] at hd
  simp only [hbal] at hd
  simp at hd
  linarith

/-! ### memoryless optimal choices for the maximum -/

theorem exists_opt_max (h : M.Sub) :
    ∃ f : S → R, (∀ s, f s ∈ M.rows s) ∧ (∀ s, M.step M.Vmax s (f s) = M.Vmax s) ∧
      ∀ B : Finset S, B.Nonempty → (∀ s ∈ B, 0 < M.Vmax s) →
        ¬ ∀ s ∈ B, ∑ t ∈ B, M.Q s (f s) t = 1 := by
  classical
  let x := M.Vmax
  have hx0 : ∀ s, 0 ≤ x s := Vmax_nonneg h.toOK h.bound
  have hxle : ∀ s, ∀ r ∈ M.rows s, M.step x s r ≤ x s := fun s r hr => step_Vmax_le h.toOK h.bound hr
  -- levels
  let W : ℕ → Set S := fun n => Nat.rec (motive := fun _ => Set S) ∅ (fun _ V => {s | ∃ r ∈ M.rows s, M.step x s r = x s ∧
    (0 < M.g s r ∨ ∃ t ∈ V, 0 < M.Q s r t)}) n
  have W0 : W 0 = ∅ := rfl
  have Ws : ∀ n s, s ∈ W (n + 1) ↔ ∃ r ∈ M.rows s, M.step x s r = x s ∧
    (0 < M.g s r ∨ ∃ t ∈ W n, 0 < M.Q s r t) := fun n s => Iff.rfl
  let U : Finset S := Finset.univ.filter fun s => 0 < x s ∧ ∀ n, s ∉ W n
  have hU : U = ∅ := by
    by_contra hne
    -- a uniform gap for rows that are not optimal
    have hgap : ∃ ε : ℝ, 0 < ε ∧ ε ≤ 1 ∧ ∀ s, ∀ r ∈ M.rows s, M.step x s r ≠ x s →
        M.step x s r + ε ≤ x s := by
      have key : ∀ T : Finset S, ∃ ε : ℝ, 0 < ε ∧ ε ≤ 1 ∧ ∀ s ∈ T, ∀ r ∈ M.rows s,
          M.step x s r ≠ x s → M.step x s r + ε ≤ x s := by
        intro T
        induction T using Finset.induction_on with
        | empty => exact ⟨1, one_pos, le_rfl, by simp⟩
        | insert s T hs ih =>
          obtain ⟨ε, h0, h1, hε⟩ := ih
          have key2 : ∀ A : Finset R, A ⊆ M.rows s → ∃ δ : ℝ, 0 < δ ∧ δ ≤ 1 ∧ ∀ r ∈ A,
              M.step x s r ≠ x s → M.step x s r + δ ≤ x s := by
            intro A
            induction A using Finset.induction_on with
            | empty => intro _; exact ⟨1, one_pos, le_rfl, by simp⟩
            | insert r A hr ih2 =>
              intro hsub
              obtain ⟨δ, d0, d1, hδ⟩ := ih2 fun r' hr' => hsub (Finset.mem_insert_of_mem hr')
              by_cases heq : M.step x s r = x s
              · refine ⟨δ, d0, d1, fun r' hr' hne' => ?_⟩
                rcases Finset.mem_insert.1 hr' with rfl | hr'
                · exact absurd heq hne'
                · exact hδ r' hr' hne'
              · have hlt : M.step x s r < x s :=
                  lt_of_le_of_ne (hxle s r (hsub (Finset.mem_insert_self r A))) heq
                refine ⟨min δ (x s - M.step x s r), lt_min d0 (by linarith),
                  le_trans (min_le_left _ _) d1, fun r' hr' hne' => ?_⟩
                rcases Finset.mem_insert.1 hr' with rfl | hr'
                · have := min_le_right δ (x s - M.step x s r'); linarith
                · have := hδ r' hr' hne'
                  have := min_le_left δ (x s - M.step x s r); linarith
          obtain ⟨δ, d0, d1, hδ⟩ := key2 _ le_rfl
          refine ⟨min ε δ, lt_min h0 d0, le_trans (min_le_left _ _) h1, ?_⟩
          intro s' hs' r hr hne'
          rcases Finset.mem_insert.1 hs' with rfl | hs'
          · have := hδ r hr hne'; have := min_le_right ε δ; linarith
          · have := hε s' hs' r hr hne'; have := min_le_left ε δ; linarith
      obtain ⟨ε, h0, h1, hε⟩ := key Finset.univ
      exact ⟨ε, h0, h1, fun s => hε s (Finset.mem_univ s)⟩
    obtain ⟨ε, e0, e1, hε⟩ := hgap
    let x' : S → ℝ := fun s => if s ∈ U then (1 - ε) * x s else x s
    have hx'0 : ∀ s, 0 ≤ x' s := by
      intro s; simp only [x']; split
      · exact mul_nonneg (by linarith) (hx0 s)
      · exact hx0 s
    have hx'x : ∀ s, x' s ≤ x s := by
      intro s; simp only [x']; split
      · have := hx0 s; nlinarith
      · exact le_rfl
    have hpre : ∀ s, ∀ r ∈ M.rows s, M.step x' s r ≤ x' s := by
      intro s r hr
      by_cases hs : s ∈ U
      · have hx's : x' s = (1 - ε) * x s := by simp [x', hs]
        have hsU := (Finset.mem_filter.1 hs).2
        by_cases hopt : M.step x s r = x s
        · have hno : ∀ n, ¬ (0 < M.g s r ∨ ∃ t ∈ W n, 0 < M.Q s r t) := fun n hc =>
            hsU.2 (n + 1) ((Ws n s).2 ⟨r, hr, hopt, hc⟩)
          have hg : M.g s r = 0 :=
            le_antisymm (not_lt.1 fun hc => hno 0 (Or.inl hc)) (h.g0 s r hr)
          have hterm : ∀ t, M.Q s r t * x' t = (1 - ε) * (M.Q s r t * x t) := by
            intro t
            by_cases htU : t ∈ U
            · simp only [x', htU, if_true]; ring
            · by_cases hq : 0 < M.Q s r t
              · have hxt : x t = 0 := by
                  by_contra hxt
                  have hpos : 0 < x t := lt_of_le_of_ne (hx0 t) (Ne.symm hxt)
                  apply htU
                  refine Finset.mem_filter.2 ⟨Finset.mem_univ t, hpos, fun n hn => ?_⟩
                  exact hno n (Or.inr ⟨t, hn, hq⟩)
                simp [x', htU, hxt]
              · have : M.Q s r t = 0 := le_antisymm (not_lt.1 hq) (h.Q0 s r hr t)
                simp [this]
          have : M.step x' s r = (1 - ε) * M.step x s r := by
            simp only [step, hg, zero_add, hterm, ← Finset.mul_sum]
          rw [this, hopt, hx's]
        · have h1 := hε s r hr hopt
          have h2 := step_mono h.toOK hx'x hr
          have h3 : x s ≤ 1 := h.Vmax_le_one s
          rw [hx's]
          nlinarith
      · have hx's : x' s = x s := by simp [x', hs]
        rw [hx's]
        exact le_trans (step_mono h.toOK hx'x hr) (hxle s r hr)
    obtain ⟨s, hs⟩ := Finset.nonempty_iff_ne_empty.2 hne
    have h1 : x s ≤ x' s := Vmax_le_pre h.toOK hx'0 hpre s
    have h2 : 0 < x s := (Finset.mem_filter.1 hs).2.1
    have h3 : x' s = (1 - ε) * x s := by simp [x', hs]
    rw [h3] at h1
    nlinarith
  have hW : ∀ s, 0 < x s → ∃ n, s ∈ W n := by
    intro s hs
    by_contra hcon
    push Not at hcon
    have : s ∈ U := Finset.mem_filter.2 ⟨Finset.mem_univ s, hs, hcon⟩
    rw [hU] at this
    simp at this
  -- rank and choice
  have hch : ∀ s, ∃ r ∈ M.rows s, M.step x s r = x s ∧ ∀ (hs : 0 < x s),
      0 < M.g s r ∨ ∃ t, (∃ m, t ∈ W m ∧ m < Nat.find (hW s hs)) ∧ 0 < M.Q s r t := by
    intro s
    by_cases hs : 0 < x s
    · have hn := Nat.find_spec (hW s hs)
      obtain ⟨k, hk⟩ : ∃ k, Nat.find (hW s hs) = k + 1 := by
        cases hc : Nat.find (hW s hs) with
        | zero => rw [hc, W0] at hn; simp at hn
        | succ k => exact ⟨k, rfl⟩
      rw [hk] at hn
      obtain ⟨r, hr, ho, hp⟩ := (Ws k s).1 hn
      refine ⟨r, hr, ho, fun _ => ?_⟩
      rcases hp with hp | ⟨t, ht, hq⟩
      · exact Or.inl hp
      · exact Or.inr ⟨t, ⟨k, ht, by rw [hk]; omega⟩, hq⟩
    · obtain ⟨r, hr, ho⟩ := exists_step_Vmax h.toOK h.bound s
      exact ⟨r, hr, ho, fun h => absurd h hs⟩
  choose f hf hfo hfp using hch
  refine ⟨f, hf, hfo, ?_⟩
  intro B hB hpos hcl
  let rank : S → ℕ := fun s => if hs : 0 < x s then Nat.find (hW s hs) else 0
  obtain ⟨m, hmB, hmin⟩ := Finset.exists_min_image B rank hB
  have hxm := hpos m hmB
  obtain ⟨hfull, hsupp⟩ := support_of_sum_eq_one (h.Q0 m _ (hf m)) (h.sumQ_le (hf m)) (hcl m hmB)
  rcases hfp m hxm with hg | ⟨t, ⟨k, htk, hlt⟩, hq⟩
  · have := h.sub m (f m) (hf m)
    rw [hfull] at this
    linarith
  · have htB := hsupp t hq
    have h1 := hmin t htB
    have hxt := hpos t htB
    have e1 : rank t = Nat.find (hW t hxt) := by simp only [rank]; rw [dif_pos hxt]
    have e2 : rank m = Nat.find (hW m hxm) := by simp only [rank]; rw [dif_pos hxm]
    rw [e1, e2] at h1
    have h2 : Nat.find (hW t hxt) ≤ k := Nat.find_min' _ htk
    omega

/-- the limit value of a memoryless choice satisfies its linear equation -/
theorem tot_det_eq {B : S → ℝ} (ok : M.OK) (b : M.Bound B) {f : S → R} (hf : ∀ s, f s ∈ M.rows s)
    (s : S) : M.tot (detSched f) s = M.step (M.tot (detSched f)) s (f s) := by
  have hσ := detSched_isSched hf
  -- the value does not depend on the history
  have hh : ∀ n h h' s, M.val (detSched f) n h s = M.val (detSched f) n h' s := by
    intro n
    induction n with
    | zero => intros; rfl
    | succ n ih =>
      intro h h' s
      have e1 := val_det_succ (M := M) (f := fun _ => f) (fun _ => hf) n h s
      have e2 := val_det_succ (M := M) (f := fun _ => f) (fun _ => hf) n h' s
      unfold detSched at ih ⊢
      rw [e1, e2]
      congr 1
      funext t
      exact ih _ _ t
  have hlim : ∀ t, Tendsto (fun n => M.val (detSched f) n [] t) atTop (𝓝 (M.tot (detSched f) t)) :=
    fun t => tendsto_atTop_ciSup (val_mono ok hσ [] t) (bdd_val ok b hσ [] t)
  have h1 := (hlim s).comp (tendsto_add_atTop_nat 1)
  have h2 := tendsto_step (M := M) hlim s (f s)
  refine tendsto_nhds_unique h1 (h2.congr fun n => ?_)
  have e1 := val_det_succ (M := M) (f := fun _ => f) (fun _ => hf) n [] s
  show _ = M.val (detSched f) (n + 1) [] s
  unfold detSched at hh ⊢
  rw [e1]
  congr 1
  funext t
  exact hh n [] _ t

/-- the maximum is attained by a memoryless deterministic scheduler -/
theorem exists_det_tot_eq_Vmax (h : M.Sub) :
    ∃ f : S → R, (∀ s, f s ∈ M.rows s) ∧ ∀ s, M.tot (detSched f) s = M.Vmax s := by
  obtain ⟨f, hf, hfo, htr⟩ := exists_opt_max h
  have hσ := detSched_isSched (M := M) hf
  refine ⟨f, hf, fun s => le_antisymm (tot_le_Vmax h.toOK h.bound hσ s) ?_⟩
  have hv0 : ∀ s, 0 ≤ M.tot (detSched f) s := fun s =>
    le_trans (Vmin_nonneg h.toOK h.bound s) (Vmin_le_tot h.toOK h.bound hσ s)
  refine le_of_compare h.qsub hf (fun B hB hp => htr B hB fun s hs => ?_) (fun s _ => (hfo s).ge)
    (fun s _ => (tot_det_eq h.toOK h.bound hf s).ge) s
  exact lt_of_le_of_lt (hv0 s) (hp s hs)

/-- **completeness of dual certificates for max, ≥** -/
theorem exists_dual_max (h : M.Sub) (i : S) :
    ∃ y : S → R → ℝ, (∀ s r, 0 ≤ y s r) ∧ (∀ t, M.bal y t ≤ if t = i then 1 else 0) ∧
      M.gain y = M.Vmax i ∧ (∀ s r, y s r ≠ 0 → 0 < M.Vmax s) := by
  classical
  by_cases hi : 0 < M.Vmax i
  · obtain ⟨f, hf, hfo, htr⟩ := exists_opt_max h
    let U : Finset S := Finset.univ.filter fun s => 0 < M.Vmax s
    have hUx : ∀ s, s ∉ U → M.Vmax s = 0 := fun s hs =>
      le_antisymm (not_lt.1 fun hc => hs (by simp [U, hc])) (Vmax_nonneg h.toOK h.bound s)
    obtain ⟨Y, hY0, hYU, hY⟩ := exists_visits_on h.qsub hf U
      (fun B hB hne => htr B hne fun s hs => (Finset.mem_filter.1 (hB hs)).2)
      (i := i) (by simp [U, hi])
    have hbU : ∀ t ∈ U, M.bal (flow f Y) t = if t = i then 1 else 0 := fun t ht => by
      rw [bal_flow hf]; have := hY t ht; linarith
    refine ⟨flow f Y, flow_nonneg hY0, fun t => ?_, ?_, ?_⟩
    · by_cases ht : t ∈ U
      · exact (hbU t ht).le
      · rw [bal_flow hf, hYU t ht]
        have h1 : 0 ≤ ∑ s, Y s * M.Q s (f s) t :=
          Finset.sum_nonneg fun s _ => mul_nonneg (hY0 s) (h.Q0 s _ (hf s) t)
        have h2 : (0 : ℝ) ≤ if t = i then 1 else 0 := by split <;> norm_num
        linarith
    · have hd := duality M (flow f Y) M.Vmax
      have e : ∑ s, ∑ r ∈ M.rows s, flow f Y s r * (M.Vmax s - M.step M.Vmax s r) = 0 :=
        Finset.sum_eq_zero fun s _ => by
          rw [flow_sum hf Y s fun r => M.Vmax s - M.step M.Vmax s r, hfo s]; simp
      have e2 : ∑ t, M.Vmax t * M.bal (flow f Y) t = M.Vmax i := by
        have : ∀ t, M.Vmax t * M.bal (flow f Y) t = M.Vmax t * (if t = i then 1 else 0) := by
          intro t
          by_cases ht : t ∈ U
          · rw [hbU t ht]
          · simp [hUx t ht]
        simp [this]
      rw [e, e2] at hd
      linarith
    · intro s r hne
      by_contra hcon
      apply hne
      have : s ∉ U := fun hs => hcon (Finset.mem_filter.1 hs).2
      simp [flow, hYU s this]
  · have hi0 : M.Vmax i = 0 := le_antisymm (not_lt.1 hi) (Vmax_nonneg h.toOK h.bound i)
    refine ⟨fun _ _ => 0, fun _ _ => le_rfl, fun t => ?_, ?_, by simp⟩
    · simp only [bal]; simp; split <;> norm_num
    · simp [gain, hi0]

end Core
end Verif.Theory
