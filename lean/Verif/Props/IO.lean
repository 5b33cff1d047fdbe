import Verif.Proofs.IORound
import Verif.Props.InvertibleDict
import Verif.Props.ExampleTools
import Verif.Proofs.TextSpec
import Verif.Proofs.Sem
/-!
# C10, C11, C12, C59: files

`prob M s a t` is the probability a user reads for the transition from `s` with action `a` to `t`.
Numbers are printed with six decimals (`%f`), so that in general a saved model is not the loaded one.
-/
set_option linter.unusedSectionVars false
namespace Verif.Props
open Verif.Model Verif.Model.Text Verif.Proofs Verif.Proofs.Text Verif.Proofs.IOLab Verif.Proofs.IOTra Finset
open Verif.Spec (MapOp Lines Fields IsNat IsInt IsIndex IsNumber)

/-! ## C12: label files -/

/-- no quote and no line break: the label names for which writing and reading agree -/
def CleanName (l : String) : Prop := ∀ c ∈ l.toList, c ≠ '"' ∧ c ≠ '\n' ∧ c ≠ '\r'

theorem cleanName_iff {l : String} : CleanName l ↔ Clean l := by
  constructor
  · intro h
    exact ⟨fun hc => (h _ hc).1 rfl, fun hc => (h _ hc).2.1 rfl, fun hc => (h _ hc).2.2 rfl⟩
  · rintro ⟨h1, h2, h3⟩ c hc
    exact ⟨by rintro rfl; exact h1 hc, by rintro rfl; exact h2 hc, by rintro rfl; exact h3 hc⟩

variable {K : Type} [Field K] [LinearOrder K]

/-- **C12.** For every label map after any history of changes whose label names contain neither quotes
nor line breaks, and for any iteration order of the sets: the label file is written, and reading it
gives the same labels in the same order (also those without a state), for every label the same states,
for every state the same labels, an entry for exactly the states with a label, and the number `i` for
the `i`-th label. -/
theorem C12_roundtrip_partial {π : List Nat → List Nat} {π' : List String → List String} (hπ : ∀ l, (π l).Perm l)
    (hπ' : ∀ l, (π' l).Perm l) {d : Dict String (List Nat)} (hd : IsPyDict d) (dflt : Bool)
    (os : List (MapOp String Nat)) {M : Sys K} (hM : M.labS = ((IDict.mk' d dflt).run π os).2)
    (hc : ∀ l ∈ M.labS.d.map Prod.fst, CleanName l) :
    ∃ text sbl lbs ids, M.saveLab π π' = .ok text ∧ parseLabelFile text = .ok ((sbl, lbs), ids) ∧
      IsPyDict sbl ∧ IsPyDict lbs ∧ sbl.map Prod.fst = M.labS.d.map Prod.fst ∧
      (∀ l s, (l, s) ∈ pairs sbl ↔ sees M.labS l s) ∧
      (∀ l s, (s, l) ∈ pairs lbs ↔ sees M.labS l s) ∧
      (∀ s, s ∈ lbs.map Prod.fst ↔ ∃ l, sees M.labS l s) ∧
      (∀ i, ids.get? i = (M.labS.d.map Prod.fst)[i]?) := by
  obtain ⟨hI, -, -⟩ := IDict.run_spec hπ (inv_of_isPyDict hd dflt) os
  rw [← hM] at hI
  obtain ⟨text, r, ids, h1, h2, h3, h4, h5, h6, h7, h8, h9⟩ :=
    roundtrip_lab hπ hπ' hI fun l hl => cleanName_iff.1 (hc l hl)
  have hpy : ∀ {α β : Type} [DecidableEq α] [DecidableEq β] {x : Dict α (List β)}, IDict.SetsOK x → IsPyDict x := by
    intro α β _ _ x hx
    exact ⟨hx.1, fun p hp => hx.2 p.1 p.2 (Dict.get?_of_mem hx.1 hp)⟩
  have hpairs : ∀ {α β : Type} [DecidableEq α] [DecidableEq β] {x : Dict α (List β)}, IDict.SetsOK x →
      ∀ k v, (k, v) ∈ pairs x ↔ IDict.Has x k v := by
    intro α β _ _ x hx k v
    have := rel_mk' (hpy hx) false
    rw [← this]; rfl
  refine ⟨text, r.1, r.2, ids, h1, h2, hpy h4, hpy h5, h3, fun l s => ?_, fun l s => ?_, fun s => ?_, h9⟩
  · rw [hpairs h4, h6, sees_iff]
  · rw [hpairs h5, h7, sees_iff]
  · simp only [sees_iff]; exact h8 s

/-- **C12 (why names must be clean).** A label name with a quote or a line break is never read back, from
whatever file: reading fails or gives other labels. -/
theorem C12_unclean {text : List Char} {sbl : Dict String (List Nat)} {lbs : Dict Nat (List String)}
    {ids : Dict Nat String} (h : parseLabelFile text = .ok ((sbl, lbs), ids)) :
    ∀ l ∈ sbl.map Prod.fst, CleanName l :=
  fun l hl => cleanName_iff.2 (parse_clean h l hl)

/-- two labels, one without a state and one with a space in its name -/
def labEx : Sys ℚ := ⟨false, ⟨0, 0, []⟩, [], IDict.mk' [] true,
  ((IDict.mk' [("init", [2, 0]), ("is done", []), ("c1", [2])] true).run id [.add "c1" 10, .remove "init" 0]).2, none,
  Graph.empty 0⟩

/-- the hypotheses hold for it, and the file is the expected one -/
example : IsPyDict [("init", [2, 0]), ("is done", []), ("c1", [2])] ∧
    (∀ l ∈ labEx.labS.d.map Prod.fst, CleanName l) ∧
    labEx.saveLab id id = .ok "0=\"init\" 1=\"is done\" 2=\"c1\"\n2: 0 2\n10: 2\n".toList := by
  refine ⟨⟨by decide, by decide⟩, ?_, by decide +kernel⟩
  intro l hl
  have : ∀ l ∈ labEx.labS.d.map Prod.fst, ∀ c ∈ l.toList, c ≠ '"' ∧ c ≠ '\n' ∧ c ≠ '\r' := by decide +kernel
  exact this l hl

/-- a label with a quote -/
def labBad : Sys ℚ := ⟨false, ⟨0, 0, []⟩, [], IDict.mk' [] true,
  IDict.mk' [("a\"b", [0]), ("c", [1])] true, none, Graph.empty 0⟩

/-- **C12 is false without the condition**: the file of a model with the label `a"b` is read without an
error, but the label is now `a`. -/
theorem C12_false : ∃ text, labBad.saveLab id id = .ok text ∧ ∃ r, parseLabelFile text = .ok r ∧
    r.1.1.map Prod.fst = ["a", "c"] ∧ labBad.labS.d.map Prod.fst = ["a\"b", "c"] := by
  refine ⟨"0=\"a\"b\" 1=\"c\"\n0: 0\n1: 1\n".toList, by decide +kernel, ?_⟩
  obtain ⟨r, h1, h2⟩ := exists_of_ok_and
    (x := parseLabelFile "0=\"a\"b\" 1=\"c\"\n0: 0\n1: 1\n".toList)
    (p := fun r => decide (r.1.1.map Prod.fst = ["a", "c"])) (by decide +kernel)
  exact ⟨r, h1, of_decide_eq_true h2, by decide +kernel⟩

/-! ## numbers -/

variable [IsStrictOrderedRing K]

/-- `x` is `p` rounded to six decimals, ties to even -/
def IsSix (p x : K) : Prop :=
  ∃ n : Nat, x = n / 10 ^ 6 ∧ (|x - p| < 1 / (2 * 10 ^ 6) ∨ |x - p| = 1 / (2 * 10 ^ 6) ∧ n % 2 = 0)

theorem isSix_unique {p x y : K} (hx : IsSix p x) (hy : IsSix p y) : x = y := by
  obtain ⟨n, rfl, hn⟩ := hx
  obtain ⟨m, rfl, hm⟩ := hy
  have key : ∀ n m : Nat, n < m → (|(n : K) / 10 ^ 6 - p| < 1 / (2 * 10 ^ 6) ∨ |(n : K) / 10 ^ 6 - p| = 1 / (2 * 10 ^ 6) ∧ n % 2 = 0) →
      (|(m : K) / 10 ^ 6 - p| < 1 / (2 * 10 ^ 6) ∨ |(m : K) / 10 ^ 6 - p| = 1 / (2 * 10 ^ 6) ∧ m % 2 = 0) → False := by
    intro n m hlt hn hm
    have h1 : (n : K) + 1 ≤ m := by exact_mod_cast hlt
    have hd : (n : K) / 10 ^ 6 + 1 / 10 ^ 6 ≤ (m : K) / 10 ^ 6 := by
      rw [← add_div]; exact div_le_div_of_nonneg_right h1 (by positivity)
    have half : (1 : K) / (2 * 10 ^ 6) + 1 / (2 * 10 ^ 6) = 1 / 10 ^ 6 := by norm_num
    have an : |(n : K) / 10 ^ 6 - p| ≤ 1 / (2 * 10 ^ 6) := by rcases hn with h | h; exacts [h.le, h.1.le]
    have am : |(m : K) / 10 ^ 6 - p| ≤ 1 / (2 * 10 ^ 6) := by rcases hm with h | h; exacts [h.le, h.1.le]
    have bn := (abs_le.1 an).1
    have bm := (abs_le.1 am).2
    rcases hn with hn | hn
    · have := (abs_lt.1 hn).1; linarith
    · rcases hm with hm | hm
      · have := (abs_lt.1 hm).2; linarith
      · have e : (n : K) / 10 ^ 6 + 1 / 10 ^ 6 = (m : K) / 10 ^ 6 := by linarith
        have : (n : K) + 1 = m := by
          rw [← add_div, div_left_inj' (by positivity)] at e; exact e
        have : n + 1 = m := by exact_mod_cast this
        omega
  rcases lt_trichotomy n m with h | h | h
  · exact (key n m h hn hm).elim
  · rw [h]
  · exact (key m n h hm hn).elim

theorem isSix_self {n : Nat} : IsSix ((n : K) / 10 ^ 6) ((n : K) / 10 ^ 6) :=
  ⟨n, rfl, Or.inl (by simp)⟩

variable [FloorRing K]

theorem isSix_rnd {p : K} (h0 : 0 ≤ p) : IsSix p (rnd p) := by
  refine ⟨roundEven (p * 10 ^ 6), rfl, ?_⟩
  have e : rnd p - p = ((roundEven (p * 10 ^ 6) : K) - p * 10 ^ 6) / 10 ^ 6 := by
    unfold rnd; field_simp
  have hx : 0 ≤ p * 10 ^ 6 := by positivity
  have hlt : |(roundEven (p * 10 ^ 6) : K) - p * 10 ^ 6| < 1 / 2 ∨
      |(roundEven (p * 10 ^ 6) : K) - p * 10 ^ 6| = 1 / 2 ∧ roundEven (p * 10 ^ 6) % 2 = 0 := by
    generalize p * 10 ^ 6 = x at hx
    have h1 := Nat.floor_le hx
    have h2 := Nat.lt_floor_add_one x
    unfold roundEven
    simp only
    split_ifs with a b c
    · left; rw [abs_lt]; constructor <;> linarith
    · left; push_cast; rw [abs_lt]; constructor <;> linarith
    · right
      have : x - ⌊x⌋₊ = 1 / 2 := le_antisymm (not_lt.1 b) (not_lt.1 a)
      refine ⟨?_, c⟩
      rw [← abs_neg, show -((⌊x⌋₊ : K) - x) = 1 / 2 by linarith, abs_of_pos (by norm_num)]
    · right
      have : x - ⌊x⌋₊ = 1 / 2 := le_antisymm (not_lt.1 b) (not_lt.1 a)
      refine ⟨?_, by omega⟩
      push_cast
      rw [show (⌊x⌋₊ : K) + 1 - x = 1 / 2 by linarith, abs_of_pos (by norm_num)]
  have h6 : (0 : K) < 10 ^ 6 := by positivity
  have eq : (1 : K) / (2 * 10 ^ 6) = 1 / 2 / 10 ^ 6 := by norm_num
  rw [e, abs_div, abs_of_pos h6, eq]
  rcases hlt with h | ⟨h, h'⟩
  · left; exact (div_lt_div_iff_of_pos_right h6).2 h
  · right; rw [h]; exact ⟨rfl, h'⟩

theorem isSix_iff {p x : K} (h0 : 0 ≤ p) : IsSix p x ↔ x = rnd p :=
  ⟨fun h => isSix_unique h (isSix_rnd h0), fun h => h ▸ isSix_rnd h0⟩

/-! ## C10: DTMC files -/

/-- the probability of the transition from `s` with action `a` to `t` -/
def prob (M : Sys K) (s a t : Nat) : K :=
  match M.idx.get? (s, a) with
  | some r => M.P.get r t
  | none => 0

/-- the rounded probabilities of every row sum to one -/
def RowsSurvive (M : Sys K) : Prop :=
  ∀ r < M.C, ∀ R : Nat → K, (∀ t, IsSix (M.P.get r t) (R t)) → ∑ t ∈ range M.N, R t = 1

theorem rowsSurvive_iff {M : Sys K} (h : Table M) :
    RowsSurvive M ↔ ∀ r < M.C, ∑ t ∈ range M.N, rnd (M.P.get r t) = 1 := by
  constructor
  · intro hs r hr
    exact hs r hr _ fun t => isSix_rnd (h.entry_nonneg r t)
  · intro hs r hr R hR
    rw [← hs r hr]
    exact sum_congr rfl fun t _ => (isSix_iff (h.entry_nonneg r t)).1 (hR t)

/-- the loaded model shows the same labels -/
def SameLabels (M M' : Sys K) : Prop :=
  M'.labS.d.map Prod.fst = M.labS.d.map Prod.fst ∧ ∀ l s, sees M'.labS l s ↔ sees M.labS l s

/-- a DTMC with the given data, changed afterwards by label additions and removals -/
def MadeDTMC (M : Sys K) (π : List Nat → List Nat) : Prop :=
  ∃ (P : Dok K) (d : Dict String (List Nat)) (idx : Option (Dict (Nat × Nat) Nat)) (rew : Option (List K))
    (M0 : Sys K) (os : List (MapOp String Nat)),
    InShape P ∧ IsPyDict d ∧ (∀ i, idx = some i → (i.map Prod.fst).Nodup) ∧
    Sys.makeDTMC P (IDict.mk' d true) idx rew = .ok M0 ∧
    M = { M0 with labS := ((IDict.mk' d true).run π os).2 }

theorem MadeDTMC.table {M : Sys K} {π : List Nat → List Nat} (h : MadeDTMC M π) :
    Table M ∧ M.P.rows = M.P.cols ∧ ∀ s a i, ((s, a), i) ∈ M.idx → a = 0 := by
  obtain ⟨P, d, idx, rew, M0, os, hP, hd, hi, hM, rfl⟩ := h
  unfold Sys.makeDTMC at hM
  split at hM
  · rename_i hsq
    split at hM
    · have hk : (Dict.keys (Sys.dtmcIndex P.rows)).Nodup := by
        simp only [Dict.keys, Sys.dtmcIndex, List.map_map]
        refine (List.nodup_map_iff_inj_on List.nodup_range).2 fun x _ y _ h => ?_
        simpa using h
      obtain ⟨t, e1, e2, -⟩ := table_of_make hP hk hM
      refine ⟨⟨t.shape, t.keys, t.vals, t.good, t.cover⟩, by simp only [e1]; exact hsq, ?_⟩
      intro s a i hm
      simp only [e2, Sys.dtmcIndex, List.mem_map, Prod.mk.injEq] at hm
      obtain ⟨_, _, ⟨_, h⟩, _⟩ := hm
      exact h.symm
    · rename_i i
      split at hM
      · rename_i hz
        obtain ⟨t, e1, e2, -⟩ := table_of_make hP (hi _ rfl) hM
        refine ⟨⟨t.shape, t.keys, t.vals, t.good, t.cover⟩, by simp only [e1]; exact hsq, ?_⟩
        intro s a j hm
        simp only [e2] at hm
        exact hz _ hm
      · cases hM
  · cases hM

theorem MadeDTMC.lab {M : Sys K} {π : List Nat → List Nat} (h : MadeDTMC M π) :
    ∃ d os, IsPyDict d ∧ M.labS = ((IDict.mk' d true).run π os).2 := by
  obtain ⟨P, d, idx, rew, M0, os, hP, hd, hi, hM, rfl⟩ := h
  exact ⟨d, os, hd, rfl⟩

theorem _root_.Verif.Proofs.IOTra.Table.row_of_state {M : Sys K} (h : Table M) (hsq : M.P.rows = M.P.cols)
    (ha : ∀ s a i, ((s, a), i) ∈ M.idx → a = 0) {s : Nat} (hs : s < M.P.cols) :
    ∃ i < M.P.rows, ((s, 0), i) ∈ M.idx := by
  classical
  choose! f a hf using h.cover
  have hinj : Set.InjOn f (range M.P.rows : Finset Nat) := by
    intro i hi j hj hij
    simp only [coe_range, Set.mem_Iio] at hi hj
    have e1 := (hf i hi).1
    have e2 := (hf j hj).1
    have z1 := ha _ _ _ e1
    have z2 := ha _ _ _ e2
    rw [z1] at e1
    rw [z2, ← hij] at e2
    have a1 := Dict.get?_of_mem h.keys e1
    have a2 := Dict.get?_of_mem h.keys e2
    rw [a1] at a2; exact Option.some.inj a2
  have himg : (range M.P.rows).image f = range M.P.cols := by
    apply eq_of_subset_of_card_le
    · intro x hx
      obtain ⟨i, hi, rfl⟩ := mem_image.1 hx
      exact mem_range.2 (hf i (mem_range.1 hi)).2
    · rw [card_image_of_injOn hinj, card_range, card_range, hsq]
  have : s ∈ (range M.P.rows).image f := by rw [himg]; exact mem_range.2 hs
  obtain ⟨i, hi, rfl⟩ := mem_image.1 this
  have hi := mem_range.1 hi
  refine ⟨i, hi, ?_⟩
  have e1 := (hf i hi).1
  rwa [ha _ _ _ e1] at e1

/-- saving and loading a DTMC, for any table and label map -/
theorem dtmc_reload {π : List Nat → List Nat} {π' : List String → List String} (hπ : ∀ l, (π l).Perm l)
    (hπ' : ∀ l, (π' l).Perm l) {M : Sys K} (hT : Table M) (hsq : M.P.rows = M.P.cols)
    (ha : ∀ s a i, ((s, a), i) ∈ M.idx → a = 0) (hI : IDict.Inv M.labS)
    (hc : ∀ l ∈ M.labS.d.map Prod.fst, CleanName l) :
    ∃ lab tra, M.saveLab π π' = .ok lab ∧ M.saveTraDTMC = .ok tra ∧
      ((∃ M' : Sys K, Sys.fromFileDTMC lab tra = .ok M') ↔ RowsSurvive M) ∧
      (¬ RowsSurvive M → Sys.fromFileDTMC (K := K) lab tra = .error .assertion) ∧
      ∀ M' : Sys K, Sys.fromFileDTMC lab tra = .ok M' →
        (M'.WF ∧ IDict.Inv M'.labS ∧ M'.C = M.N ∧ M'.idx = (List.range M.N).map fun i => ((i, 0), i)) ∧
        M'.dtmc = true ∧ M'.N = M.N ∧ M'.rew = none ∧ SameLabels M M' ∧
        ∀ s < M.N, ∀ t, IsSix (prob M s 0 t) (prob M' s 0 t) := by
  obtain ⟨text, r, ids, h1, h2, h3, h4, -, h6, -, -, -⟩ :=
    roundtrip_lab hπ hπ' hI fun l hl => cleanName_iff.1 (hc l hl)
  obtain ⟨tra, Q, q1, q2, q3, q4, q5, q6⟩ := roundtrip_dtmc hT hsq ha
  have hQ := q3.inShape
  have hQsq : Q.rows = Q.cols := by rw [q4, q5]
  have hff : Sys.fromFileDTMC (K := K) text tra = Sys.makeDTMC Q (IDict.mk' r.1 true) none none := by
    unfold Sys.fromFileDTMC
    rw [h2, q2]; rfl
  have hmk : Sys.makeDTMC Q (IDict.mk' r.1 true) none none =
      Sys.make true Q (Sys.dtmcIndex Q.rows) (IDict.mk' [] true) (IDict.mk' r.1 true) none := by
    unfold Sys.makeDTMC; rw [if_pos hQsq]
  have hk : (Dict.keys (Sys.dtmcIndex Q.rows)).Nodup := by
    simp only [Dict.keys, Sys.dtmcIndex, List.map_map]
    refine (List.nodup_map_iff_inj_on List.nodup_range).2 fun x _ y _ h => ?_
    simpa using h
  have hv : ((Sys.dtmcIndex Q.rows).map Prod.snd).Nodup := by
    simp only [Sys.dtmcIndex, List.map_map]
    exact (List.nodup_map_iff_inj_on List.nodup_range).2 fun x _ y _ h => h
  -- row sums
  have hrow : ∀ s < M.P.cols, ∃ i < M.P.rows, ((s, 0), i) ∈ M.idx ∧ ∀ t, Q.get s t = rnd (M.P.get i t) := by
    intro s hs
    obtain ⟨i, hi, hm⟩ := hT.row_of_state hsq ha hs
    exact ⟨i, hi, hm, q6 s i hm hi⟩
  have hsum : RowsSurvive M ↔ ∀ s < Q.rows, |∑ t ∈ range Q.cols, Q.get s t - 1| ≤ 1 / (2 * 10 ^ 9) := by
    rw [rowsSurvive_iff hT]
    constructor
    · intro h s hs
      obtain ⟨i, hi, hm, hg⟩ := hrow s (by rw [← q4]; exact hs)
      have := h i hi
      rw [q5]
      simp only [hg]
      rw [sum_rnd_one]; exact this
    · intro h i hi
      obtain ⟨s, a, hm, hs⟩ := hT.cover i hi
      rw [ha _ _ _ hm] at hm
      have := h s (by rw [q4]; exact hs)
      rw [q5] at this
      simp only [q6 s i hm hi] at this
      rwa [sum_rnd_one] at this
  refine ⟨text, tra, h1, q1, ?_, ?_, ?_⟩
  · rw [hff, C09_dtmc_default hQ, hsum]
    constructor
    · rintro ⟨-, h⟩; exact h.sum
    · intro h
      refine ⟨hQsq, h, fun s hs t ht => ?_, by simp⟩
      obtain ⟨i, hi, hm, hg⟩ := hrow s (by rw [← q4]; exact hs)
      have := hT.good.entry i hi t (by rw [← q5]; exact ht)
      rw [hg]
      exact ⟨rnd_nonneg _, rnd_le_one this.1 this.2⟩
  · intro hn
    rw [hsum] at hn
    push Not at hn
    obtain ⟨s, hs, hne⟩ := hn
    rw [hff, hmk]
    exact make_assert hQ hk hv _ _ _ hs (not_le.2 hne)
  · intro M' hM'
    rw [hff, hmk] at hM'
    obtain ⟨-, e1, e2, -, e4, e5, e6⟩ := table_of_make hQ hk hM'
    refine ⟨⟨wf_of_make hQ hk hM' (fun e he => (q3.2 e he).2.2) fun j hj => ?_, by rw [e4]; exact ⟨h4, by simp [IDict.mk'], by simp [IDict.mk']⟩,
      by show M'.P.rows = M.P.cols; rw [e1, q4], by rw [e2, q4]; rfl⟩, e6, by show M'.P.cols = M.P.cols; rw [e1, q5], e5, ⟨?_, fun l s => ?_⟩, fun s hs t => ?_⟩
    · obtain ⟨i, hi, hm, hg⟩ := hrow j (by rw [← q4]; exact hj)
      have hs : RowsSurvive M := hsum.2 (((C09_dtmc_default hQ _ _).1 ⟨M', by rw [hmk]; exact hM'⟩).2.sum)
      rw [q5]
      simp only [hg]
      exact (rowsSurvive_iff hT).1 hs i hi
    · rw [e4]; exact h3
    · rw [sees_iff, sees_iff, e4]; exact h6 l s
    · obtain ⟨i, hi, hm, hg⟩ := hrow s hs
      have p1 : prob M s 0 t = M.P.get i t := by
        unfold prob; rw [Dict.get?_of_mem hT.keys hm]
      have p2 : prob M' s 0 t = Q.get s t := by
        unfold prob
        rw [e1, e2, Dict.get?_of_mem hk (v := s)]
        exact List.mem_map.2 ⟨s, List.mem_range.2 (by rw [q4]; exact hs), rfl⟩
      rw [p1, p2, hg]
      exact isSix_rnd (hT.entry_nonneg i t)

/-- **C10.** Saving a DTMC always works.  Loading the two files succeeds exactly if the probabilities of
every row, each rounded to six decimals, sum to one; otherwise it raises `AssertionError`.  A loaded DTMC
has the same states and labels, every probability is the original one rounded to six decimals, and
rewards are lost. -/
theorem C10_rounded {π : List Nat → List Nat} {π' : List String → List String} (hπ : ∀ l, (π l).Perm l)
    (hπ' : ∀ l, (π' l).Perm l) {M : Sys K} (hM : MadeDTMC M π)
    (hc : ∀ l ∈ M.labS.d.map Prod.fst, CleanName l) :
    ∃ lab tra, M.saveLab π π' = .ok lab ∧ M.saveTraDTMC = .ok tra ∧
      ((∃ M' : Sys K, Sys.fromFileDTMC lab tra = .ok M') ↔ RowsSurvive M) ∧
      (¬ RowsSurvive M → Sys.fromFileDTMC (K := K) lab tra = .error .assertion) ∧
      ∀ M' : Sys K, Sys.fromFileDTMC lab tra = .ok M' →
        M'.dtmc = true ∧ M'.N = M.N ∧ M'.rew = none ∧ SameLabels M M' ∧
        ∀ s < M.N, ∀ t, IsSix (prob M s 0 t) (prob M' s 0 t) := by
  obtain ⟨hT, hsq, ha⟩ := hM.table
  obtain ⟨d, os, hd, hlab⟩ := hM.lab
  obtain ⟨hI, -, -⟩ := IDict.run_spec hπ (inv_of_isPyDict hd true) os
  rw [← hlab] at hI
  obtain ⟨lab, tra, a1, a2, a3, a4, a5⟩ := dtmc_reload hπ hπ' hT hsq ha hI hc
  exact ⟨lab, tra, a1, a2, a3, a4, fun M' hM' => (a5 M' hM').2⟩

/-- **C10 (partial).** If all probabilities are multiples of `10^-6` and rows sum to one exactly, saving
and loading a DTMC gives a DTMC with the same states, labels and probabilities.  Missing for the claim:
other probabilities, see `C10_false`; label names with quotes or line breaks, see `C12_false`. -/
theorem C10_roundtrip_partial {π : List Nat → List Nat} {π' : List String → List String} (hπ : ∀ l, (π l).Perm l)
    (hπ' : ∀ l, (π' l).Perm l) {M : Sys K} (hM : MadeDTMC M π)
    (hc : ∀ l ∈ M.labS.d.map Prod.fst, CleanName l)
    (h6 : ∀ r t, ∃ n : Nat, M.P.get r t = n / 10 ^ 6)
    (h1 : ∀ r < M.C, ∑ t ∈ range M.N, M.P.get r t = 1) :
    ∃ lab tra M', M.saveLab π π' = .ok lab ∧ M.saveTraDTMC = .ok tra ∧ Sys.fromFileDTMC lab tra = .ok M' ∧
      M'.N = M.N ∧ SameLabels M M' ∧ ∀ s < M.N, ∀ t, prob M' s 0 t = prob M s 0 t := by
  have hsix : ∀ r t x, IsSix (M.P.get r t) x → x = M.P.get r t := by
    intro r t x hx
    obtain ⟨n, hn⟩ := h6 r t
    rw [hn] at hx ⊢
    exact isSix_unique hx isSix_self
  obtain ⟨lab, tra, a1, a2, a3, -, a5⟩ := C10_rounded hπ hπ' hM hc
  obtain ⟨M', hM'⟩ := a3.2 (by
    intro r hr R hR
    rw [← h1 r hr]
    exact sum_congr rfl fun t _ => hsix r t _ (hR t))
  obtain ⟨-, b2, -, b4, b5⟩ := a5 M' hM'
  refine ⟨lab, tra, M', a1, a2, hM', b2, b4, fun s hs t => ?_⟩
  have := b5 s hs t
  unfold prob at this ⊢
  split at this
  · rename_i r' hr'
    exact hsix _ _ _ this
  · rename_i hr'
    have h0 : IsSix (0 : K) 0 := ⟨0, by simp, Or.inl (by simp)⟩
    exact isSix_unique this h0

/-! ## C11: MDP files -/

/-- an MDP with the given data, changed afterwards by label additions and removals -/
def MadeMDP (M : Sys K) (π : List Nat → List Nat) : Prop :=
  ∃ (P : Dok K) (d : Dict String (List Nat)) (labA : IDict String (Nat × Nat)) (idx : Dict (Nat × Nat) Nat)
    (rew : Option (List K)) (M0 : Sys K) (os : List (MapOp String Nat)),
    InShape P ∧ IsPyDict d ∧ (idx.map Prod.fst).Nodup ∧
    Sys.makeMDP P idx labA (IDict.mk' d true) rew = .ok M0 ∧
    M = { M0 with labS := ((IDict.mk' d true).run π os).2 }

theorem MadeMDP.table {M : Sys K} {π : List Nat → List Nat} (h : MadeMDP M π) : Table M := by
  obtain ⟨P, d, labA, idx, rew, M0, os, hP, hd, hi, hM, rfl⟩ := h
  obtain ⟨t, -⟩ := table_of_make hP hi hM
  exact ⟨t.shape, t.keys, t.vals, t.good, t.cover⟩

/-- saving and loading an MDP, for any table and label map -/
theorem mdp_reload {π : List Nat → List Nat} {π' : List String → List String} (hπ : ∀ l, (π l).Perm l)
    (hπ' : ∀ l, (π' l).Perm l) {M : Sys K} (hT : Table M) (hI : IDict.Inv M.labS)
    (hc : ∀ l ∈ M.labS.d.map Prod.fst, CleanName l) :
    ∃ lab tra, M.saveLab π π' = .ok lab ∧ M.saveTraMDP = .ok tra ∧
      ((∃ M' : Sys K, Sys.fromFileMDP lab tra = .ok M') ↔ RowsSurvive M) ∧
      (¬ RowsSurvive M → Sys.fromFileMDP (K := K) lab tra = .error .assertion) ∧
      ∀ M' : Sys K, Sys.fromFileMDP lab tra = .ok M' →
        (M'.WF ∧ IDict.Inv M'.labS) ∧ M'.dtmc = false ∧ M'.N = M.N ∧ M'.C = M.C ∧ M'.rew = none ∧ M'.labA = IDict.mk' [] true ∧
        SameLabels M M' ∧
        M'.idx.map Prod.snd = List.range M.C ∧ (M'.idx.map Prod.fst).Nodup ∧
        (∀ s a, (s, a) ∈ M'.idx.map Prod.fst ↔ ∃ r < M.C, ((s, a), r) ∈ M.idx) ∧
        (∀ s a t, IsSix (prob M s a t) (prob M' s a t)) ∧
        ∀ s a r, ((s, a), r) ∈ M.idx → r < M.C →
          M'.idx.get? (s, a) = some ((range M.C).filter fun r' => firstAt M r' < firstAt M r).card := by
  obtain ⟨text, r, ids, h1, h2, h3, h4, -, h6, -, -, -⟩ :=
    roundtrip_lab hπ hπ' hI fun l hl => cleanName_iff.1 (hc l hl)
  obtain ⟨tra, x, q1, q2, q3, q4, q5, q6, q7, q8, q9, q10, q11⟩ := roundtrip_mdp hT
  have hQ := q3.inShape
  have hv : (x.idx.map Prod.snd).Nodup := by rw [q7]; exact List.nodup_range
  have hff : Sys.fromFileMDP (K := K) text tra =
      Sys.makeMDP x.P x.idx (IDict.mk' x.labA true) (IDict.mk' r.1 true) none := by
    unfold Sys.fromFileMDP
    rw [h2, q2]; rfl
  -- rows
  have hrow : ∀ j < x.P.rows, ∃ sa i, x.idx.get? sa = some j ∧ (sa, i) ∈ M.idx ∧ i < M.P.rows ∧
      ∀ t, x.P.get j t = rnd (M.P.get i t) := by
    intro j hj
    have : j ∈ x.idx.map Prod.snd := by rw [q7]; exact List.mem_range.2 (by rw [← q4]; exact hj)
    obtain ⟨⟨sa, j'⟩, hm, rfl⟩ := List.mem_map.1 this
    have hg := Dict.get?_of_mem q6 hm
    obtain ⟨i, hi, hmi⟩ := (q9 sa).1 (by rw [← Dict.get?_isSome, hg]; rfl)
    exact ⟨sa, i, hg, hmi, hi, (q10 sa j' i hg hmi).2⟩
  have hrow' : ∀ i < M.P.rows, ∃ sa j, x.idx.get? sa = some j ∧ (sa, i) ∈ M.idx ∧ j < x.P.rows ∧
      ∀ t, x.P.get j t = rnd (M.P.get i t) := by
    intro i hi
    obtain ⟨s, a, hm, hs⟩ := hT.cover i hi
    obtain ⟨j, hj⟩ := Option.isSome_iff_exists.1 (Dict.get?_isSome.2 ((q9 (s, a)).2 ⟨i, hi, hm⟩))
    have hjr : j ∈ x.idx.map Prod.snd := List.mem_map.2 ⟨_, Dict.mem_of_get? hj, rfl⟩
    rw [q7, ← q4] at hjr
    exact ⟨(s, a), j, hj, hm, List.mem_range.1 hjr, (q10 _ j i hj hm).2⟩
  have hsum : RowsSurvive M ↔ ∀ s < x.P.rows, |∑ t ∈ range x.P.cols, x.P.get s t - 1| ≤ 1 / (2 * 10 ^ 9) := by
    rw [rowsSurvive_iff hT]
    constructor
    · intro h j hj
      obtain ⟨sa, i, _, _, hi, hg⟩ := hrow j hj
      have := h i hi
      rw [q5]
      simp only [hg]
      rw [sum_rnd_one]; exact this
    · intro h i hi
      obtain ⟨sa, j, _, _, hj, hg⟩ := hrow' i hi
      have := h j hj
      rw [q5] at this
      simp only [hg] at this
      rwa [sum_rnd_one] at this
  refine ⟨text, tra, h1, q1, ?_, ?_, ?_⟩
  · rw [hff, C09_mdp hQ q6, hsum]
    constructor
    · rintro ⟨h, -⟩; exact h.sum
    · intro h
      refine ⟨⟨h, fun j hj t ht => ?_, by simp⟩, fun e he e' he' hee => ?_, fun j hj => ?_⟩
      · obtain ⟨sa, i, _, _, hi, hg⟩ := hrow j hj
        have := hT.good.entry i hi t (by rw [← q5]; exact ht)
        rw [hg]
        exact ⟨rnd_nonneg _, rnd_le_one this.1 this.2⟩
      · exact List.inj_on_of_nodup_map hv he he' hee
      · obtain ⟨sa, i, hg, hm, hi, -⟩ := hrow j hj
        obtain ⟨s, a, hm', hs⟩ := hT.cover i hi
        have := List.inj_on_of_nodup_map hT.vals hm hm' rfl
        simp only [Prod.mk.injEq] at this
        obtain ⟨rfl, -⟩ := this
        exact ⟨s, a, Dict.mem_of_get? hg, by rw [q5]; exact hs⟩
  · intro hn
    rw [hsum] at hn
    push Not at hn
    obtain ⟨s, hs, hne⟩ := hn
    rw [hff]
    exact make_assert hQ q6 hv _ _ _ hs (not_le.2 hne)
  · intro M' hM'
    rw [hff] at hM'
    obtain ⟨-, e1, e2, e3, e4, e5, e6⟩ := table_of_make hQ q6 hM'
    refine ⟨⟨wf_of_make hQ q6 hM' (fun e he => (q3.2 e he).2.2) fun j hj => ?_, by rw [e4]; exact ⟨h4, by simp [IDict.mk'], by simp [IDict.mk']⟩⟩,
      e6, by show M'.P.cols = M.P.cols; rw [e1, q5], by show M'.P.rows = M.P.rows; rw [e1, q4], e5,
      by rw [e3, q8], ⟨by rw [e4]; exact h3, fun l s => ?_⟩, by rw [e2]; exact q7, by rw [e2]; exact q6,
      fun s a => by rw [e2]; exact q9 (s, a), fun s a t => ?_, fun s a r hm hr => by rw [e2]; exact q11 (s, a) r hm hr⟩
    · obtain ⟨sa, i, _, _, hi, hg⟩ := hrow j hj
      have hs : RowsSurvive M := hsum.2 (((C09_mdp hQ q6 _ _ _).1 ⟨M', hM'⟩).1.sum)
      rw [q5]
      simp only [hg]
      exact (rowsSurvive_iff hT).1 hs i hi
    · rw [sees_iff, sees_iff, e4]; exact h6 l s
    · unfold prob
      rw [e1, e2]
      have h0 : IsSix (0 : K) 0 := ⟨0, by simp, Or.inl (by simp)⟩
      cases hg : x.idx.get? (s, a) with
      | some j =>
        obtain ⟨i, hi, hm⟩ := (q9 (s, a)).1 (by rw [← Dict.get?_isSome, hg]; rfl)
        rw [Dict.get?_of_mem hT.keys hm]
        simp only
        rw [(q10 _ j i hg hm).2 t]
        exact isSix_rnd (hT.entry_nonneg i t)
      | none =>
        cases hg' : M.idx.get? (s, a) with
        | none => exact h0
        | some i =>
          have hi : ¬ i < M.P.rows := fun hi =>
            Dict.get?_eq_none.1 hg ((q9 (s, a)).2 ⟨i, hi, Dict.mem_of_get? hg'⟩)
          have : M.P.get i t = 0 := get_eq_zero fun p hp => hi (hT.shape.range _ _ _ hp).1
          simp only [this]
          exact h0

/-- **C11.** Saving an MDP always works.  Loading the two files succeeds exactly if the probabilities of
every row, each rounded to six decimals, sum to one; otherwise it raises `AssertionError`.  A loaded MDP
has the same states, labels, number of rows and state-action pairs; its index is a bijection between
these pairs and the rows; every probability is the original one rounded to six decimals; rewards and
action labels are lost.  The rows are numbered anew in the order in which their first positive stored
entry (`firstAt`) occurs in the original matrix. -/
theorem C11_rounded {π : List Nat → List Nat} {π' : List String → List String} (hπ : ∀ l, (π l).Perm l)
    (hπ' : ∀ l, (π' l).Perm l) {M : Sys K} (hM : MadeMDP M π)
    (hc : ∀ l ∈ M.labS.d.map Prod.fst, CleanName l) :
    ∃ lab tra, M.saveLab π π' = .ok lab ∧ M.saveTraMDP = .ok tra ∧
      ((∃ M' : Sys K, Sys.fromFileMDP lab tra = .ok M') ↔ RowsSurvive M) ∧
      (¬ RowsSurvive M → Sys.fromFileMDP (K := K) lab tra = .error .assertion) ∧
      ∀ M' : Sys K, Sys.fromFileMDP lab tra = .ok M' →
        M'.dtmc = false ∧ M'.N = M.N ∧ M'.C = M.C ∧ M'.rew = none ∧ M'.labA = IDict.mk' [] true ∧
        SameLabels M M' ∧
        M'.idx.map Prod.snd = List.range M.C ∧ (M'.idx.map Prod.fst).Nodup ∧
        (∀ s a, (s, a) ∈ M'.idx.map Prod.fst ↔ ∃ r < M.C, ((s, a), r) ∈ M.idx) ∧
        (∀ s a t, IsSix (prob M s a t) (prob M' s a t)) ∧
        ∀ s a r, ((s, a), r) ∈ M.idx → r < M.C →
          M'.idx.get? (s, a) = some ((range M.C).filter fun r' => firstAt M r' < firstAt M r).card := by
  obtain ⟨hI, -⟩ : IDict.Inv M.labS ∧ True := by
    obtain ⟨P, d, labA, idx, rew, M0, os, hP, hd, hi, hM, rfl⟩ := hM
    exact ⟨(IDict.run_spec hπ (inv_of_isPyDict hd true) os).1, trivial⟩
  obtain ⟨lab, tra, a1, a2, a3, a4, a5⟩ := mdp_reload hπ hπ' hM.table hI hc
  exact ⟨lab, tra, a1, a2, a3, a4, fun M' hM' => (a5 M' hM').2⟩

/-- **C11 (partial).** If all probabilities are multiples of `10^-6` and rows sum to one exactly, saving
and loading an MDP gives an MDP with the same states, labels and probabilities, and an index that is a
bijection onto the rows.  Missing for the claim: other probabilities, see `C11_false`; label names with
quotes or line breaks, see `C12_false`. -/
theorem C11_roundtrip_partial {π : List Nat → List Nat} {π' : List String → List String} (hπ : ∀ l, (π l).Perm l)
    (hπ' : ∀ l, (π' l).Perm l) {M : Sys K} (hM : MadeMDP M π)
    (hc : ∀ l ∈ M.labS.d.map Prod.fst, CleanName l)
    (h6 : ∀ r t, ∃ n : Nat, M.P.get r t = n / 10 ^ 6)
    (h1 : ∀ r < M.C, ∑ t ∈ range M.N, M.P.get r t = 1) :
    ∃ lab tra M', M.saveLab π π' = .ok lab ∧ M.saveTraMDP = .ok tra ∧ Sys.fromFileMDP lab tra = .ok M' ∧
      M'.N = M.N ∧ M'.C = M.C ∧ SameLabels M M' ∧
      M'.idx.map Prod.snd = List.range M.C ∧ (M'.idx.map Prod.fst).Nodup ∧
      ∀ s a t, prob M' s a t = prob M s a t := by
  have hsix : ∀ r t x, IsSix (M.P.get r t) x → x = M.P.get r t := by
    intro r t x hx
    obtain ⟨n, hn⟩ := h6 r t
    rw [hn] at hx ⊢
    exact isSix_unique hx isSix_self
  obtain ⟨lab, tra, a1, a2, a3, -, a5⟩ := C11_rounded hπ hπ' hM hc
  obtain ⟨M', hM'⟩ := a3.2 (by
    intro r hr R hR
    rw [← h1 r hr]
    exact sum_congr rfl fun t _ => hsix r t _ (hR t))
  obtain ⟨-, b2, b3, -, -, b6, b7, b8, -, b9, -⟩ := a5 M' hM'
  refine ⟨lab, tra, M', a1, a2, hM', b2, b3, b6, b7, b8, fun s a t => ?_⟩
  have := b9 s a t
  unfold prob at this ⊢
  split at this
  · exact hsix _ _ _ this
  · have h0 : IsSix (0 : K) 0 := ⟨0, by simp, Or.inl (by simp)⟩
    exact isSix_unique this h0

/-! ## Examples for C10 and C11 -/

/-- a DTMC whose index permutes the rows, and a label added later -/
def ioD : Dok ℚ := ⟨2, 2, [((0, 0), 1), ((1, 0), 1/4), ((1, 1), 3/4)]⟩
def ioDI : Dict (Nat × Nat) Nat := [((1, 0), 0), ((0, 0), 1)]

example : ∃ M : Sys ℚ, MadeDTMC M id ∧ (∀ l ∈ M.labS.d.map Prod.fst, CleanName l) ∧
    (∀ r t, ∃ n : Nat, M.P.get r t = n / 10 ^ 6) ∧ (∀ r < M.C, ∑ t ∈ range M.N, M.P.get r t = 1) := by
  obtain ⟨M0, h1, h2⟩ := exists_of_ok_and (x := Sys.makeDTMC ioD (IDict.mk' [("init", [0])] true) (some ioDI) none)
    (p := fun M => decide (M.P.items = ioD.items ∧ M.P.rows = 2 ∧ M.P.cols = 2)) (by decide +kernel)
  have h2 := of_decide_eq_true h2
  have hP : M0.P = ioD := by
    have := h2
    cases h : M0.P with
    | mk r c i => rw [h] at this; simp only at this; obtain ⟨rfl, rfl, rfl⟩ := this; rfl
  refine ⟨_, ⟨ioD, [("init", [0])], some ioDI, none, M0, [.add "done" 1], ⟨by decide, ?_⟩, ⟨by decide, by decide⟩, ?_,
    h1, rfl⟩, ?_, ?_, ?_⟩
  · intro i j p h
    simp only [ioD, List.mem_cons, Prod.mk.injEq, List.mem_nil_iff, or_false] at h
    rcases h with ⟨⟨rfl, rfl⟩, -⟩ | ⟨⟨rfl, rfl⟩, -⟩ | ⟨⟨rfl, rfl⟩, -⟩ <;> decide
  · intro i hi; cases hi; decide
  · intro l hl
    have : ∀ l ∈ (((IDict.mk' [("init", [0])] true).run id [.add "done" 1]).2 : IDict String Nat).d.map Prod.fst,
        ∀ c ∈ l.toList, c ≠ '"' ∧ c ≠ '\n' ∧ c ≠ '\r' := by decide +kernel
    exact this l hl
  · intro r t
    simp only [hP]
    unfold Dok.get
    cases h : ioD.items.get? (r, t) with
    | none => exact ⟨0, by simp⟩
    | some p =>
      have := Dict.mem_of_get? h
      simp only [ioD, List.mem_cons, Prod.mk.injEq, List.mem_nil_iff, or_false] at this
      rcases this with ⟨-, rfl⟩ | ⟨-, rfl⟩ | ⟨-, rfl⟩
      · exact ⟨1000000, by norm_num⟩
      · exact ⟨250000, by norm_num⟩
      · exact ⟨750000, by norm_num⟩
  · have : ∀ r < 2, ∑ t ∈ range 2, ioD.get r t = 1 := by decide +kernel
    intro r hr
    simp only [Sys.N, Sys.C, hP] at hr ⊢
    exact this r hr

/-- a chain whose first state has three equally likely successors -/
def thirds : Dok ℚ := ⟨3, 3, [((0, 0), 1/3), ((0, 1), 1/3), ((0, 2), 1/3), ((1, 1), 1), ((2, 2), 1)]⟩

/-- save a model and load the files -/
def reloadD (M : Sys ℚ) : Except Err (Sys ℚ) := do
  let lab ← M.saveLab id id
  let tra ← M.saveTraDTMC
  Sys.fromFileDTMC lab tra

def reloadM (M : Sys ℚ) : Except Err (Sys ℚ) := do
  let lab ← M.saveLab id id
  let tra ← M.saveTraMDP
  Sys.fromFileMDP lab tra

/-- **C10 is false**: a DTMC with three probabilities 1/3 is saved, but loading the files raises
`AssertionError`. -/
theorem C10_false : ∃ M : Sys ℚ, Sys.makeDTMC thirds (IDict.mk' [("init", [0])] true) none none = .ok M ∧
    (∃ lab tra, M.saveLab id id = .ok lab ∧ M.saveTraDTMC = .ok tra) ∧
    (match reloadD M with | .error e => e = .assertion | .ok _ => False) := by
  obtain ⟨M, h1, h2⟩ := exists_of_ok_and (x := Sys.makeDTMC thirds (IDict.mk' [("init", [0])] true) none none)
    (p := fun M => (M.saveLab id id).isOk && M.saveTraDTMC.isOk &&
      (match reloadD M with | .error e => decide (e = .assertion) | .ok _ => false)) (by decide +kernel)
  simp only [Bool.and_eq_true] at h2
  obtain ⟨⟨a, b⟩, c⟩ := h2
  obtain ⟨lab, hl⟩ := exists_of_ok a
  obtain ⟨tra, ht⟩ := exists_of_ok b
  refine ⟨M, h1, ⟨lab, tra, hl, ht⟩, ?_⟩
  revert c
  cases reloadD M with
  | ok _ => intro c; cases c
  | error e => intro c; exact of_decide_eq_true c

/-- **C11 is false**: an MDP with three probabilities 1/3 is saved, but loading the files raises
`AssertionError`. -/
theorem C11_false : ∃ M : Sys ℚ, Sys.makeMDP thirds [((0, 0), 0), ((1, 0), 1), ((2, 5), 2)] (IDict.mk' [] true)
      (IDict.mk' [("init", [0])] true) none = .ok M ∧
    (∃ lab tra, M.saveLab id id = .ok lab ∧ M.saveTraMDP = .ok tra) ∧
    (match reloadM M with | .error e => e = .assertion | .ok _ => False) := by
  obtain ⟨M, h1, h2⟩ := exists_of_ok_and (x := Sys.makeMDP thirds [((0, 0), 0), ((1, 0), 1), ((2, 5), 2)]
    (IDict.mk' [] true) (IDict.mk' [("init", [0])] true) none)
    (p := fun M => (M.saveLab id id).isOk && M.saveTraMDP.isOk &&
      (match reloadM M with | .error e => decide (e = .assertion) | .ok _ => false)) (by decide +kernel)
  simp only [Bool.and_eq_true] at h2
  obtain ⟨⟨a, b⟩, c⟩ := h2
  obtain ⟨lab, hl⟩ := exists_of_ok a
  obtain ⟨tra, ht⟩ := exists_of_ok b
  refine ⟨M, h1, ⟨lab, tra, hl, ht⟩, ?_⟩
  revert c
  cases reloadM M with
  | ok _ => intro c; cases c
  | error e => intro c; exact of_decide_eq_true c

/-- an MDP whose rows are numbered in another order than the file's -/
example : ∃ M : Sys ℚ, MadeMDP M id ∧ (∀ l ∈ M.labS.d.map Prod.fst, CleanName l) ∧
    (∀ r t, ∃ n : Nat, M.P.get r t = n / 10 ^ 6) ∧ (∀ r < M.C, ∑ t ∈ range M.N, M.P.get r t = 1) := by
  obtain ⟨M0, h1, h2⟩ := exists_of_ok_and (x := Sys.makeMDP exDok exIdx (IDict.mk' [("go", [(0, 1)])] true)
      (IDict.mk' [("i", [0])] true) none)
    (p := fun M => decide (M.P.items = exDok.items ∧ M.P.rows = 3 ∧ M.P.cols = 2)) (by decide +kernel)
  have h2 := of_decide_eq_true h2
  have hP : M0.P = exDok := by
    have := h2
    cases h : M0.P with
    | mk r c i => rw [h] at this; simp only at this; obtain ⟨rfl, rfl, rfl⟩ := this; rfl
  refine ⟨_, ⟨exDok, [("i", [0])], IDict.mk' [("go", [(0, 1)])] true, exIdx, none, M0, [.add "done" 1],
    ⟨by decide, ?_⟩, ⟨by decide, by decide⟩, by decide, h1, rfl⟩, ?_, ?_, ?_⟩
  · intro i j p h
    simp only [exDok, List.mem_cons, Prod.mk.injEq, List.mem_nil_iff, or_false] at h
    rcases h with ⟨⟨rfl, rfl⟩, -⟩ | ⟨⟨rfl, rfl⟩, -⟩ | ⟨⟨rfl, rfl⟩, -⟩ | ⟨⟨rfl, rfl⟩, -⟩ <;> decide
  · intro l hl
    have : ∀ l ∈ (((IDict.mk' [("i", [0])] true).run id [.add "done" 1]).2 : IDict String Nat).d.map Prod.fst,
        ∀ c ∈ l.toList, c ≠ '"' ∧ c ≠ '\n' ∧ c ≠ '\r' := by decide +kernel
    exact this l hl
  · intro r t
    simp only [hP]
    unfold Dok.get
    cases h : exDok.items.get? (r, t) with
    | none => exact ⟨0, by simp⟩
    | some p =>
      have := Dict.mem_of_get? h
      simp only [exDok, List.mem_cons, Prod.mk.injEq, List.mem_nil_iff, or_false] at this
      rcases this with ⟨-, rfl⟩ | ⟨-, rfl⟩ | ⟨-, rfl⟩ | ⟨-, rfl⟩
      · exact ⟨500000, by norm_num⟩
      · exact ⟨500000, by norm_num⟩
      · exact ⟨1000000, by norm_num⟩
      · exact ⟨1000000, by norm_num⟩
  · have : ∀ r < 3, ∑ t ∈ range 2, exDok.get r t = 1 := by decide +kernel
    intro r hr
    simp only [Sys.N, Sys.C, hP] at hr ⊢
    exact this r hr

/-! ## C59: what loading an MDP transition file does -/

/-- the content of a transition line: `source action destination probability [label]`; a negative destination counts from
the end of the `n` states -/
def IsTra (n : Nat) (line : List Char) (x : Tra) : Prop :=
  ∃ f1 f2 f3 f4 r, Fields line (f1 :: f2 :: f3 :: f4 :: r) ∧ IsInt f1 x.s ∧ IsInt f2 x.a ∧ IsIndex n f3 x.t ∧
    IsNumber f4 x.p ∧
    ((∃ l, r = [l] ∧ x.lab = some (String.ofList l)) ∨ r.length ≠ 1 ∧ x.lab = none)

theorem isTra_iff {n : Nat} {line : List Char} {x : Tra} : IsTra n line x ↔ Reads n line x := by
  unfold IsTra Reads
  have hl : ∀ r : List (List Char), ((∃ l, r = [l] ∧ x.lab = some (String.ofList l)) ∨ r.length ≠ 1 ∧ x.lab = none) ↔
      x.lab = labOf r := by
    intro r
    rcases r with _ | ⟨a, _ | ⟨b, r⟩⟩
    · simp [labOf]
    · simp [labOf]
    · simp [labOf]
  simp only [fields_iff, isInt_iff, isIndex_iff, isNumber_iff, hl]
  constructor
  · rintro ⟨f1, f2, f3, f4, r, h1, h2, h3, ⟨i, h4⟩, h5⟩
    exact ⟨f1, f2, f3, f4, r, i, h1, h2, h3, h4, h5⟩
  · rintro ⟨f1, f2, f3, f4, r, i, h1, h2, h3, h4, h5⟩
    exact ⟨f1, f2, f3, f4, r, h1, h2, h3, ⟨i, h4⟩, h5⟩

/-- the two numbers of the header line: states and rows -/
def IsHead (line : List Char) (n c : Nat) : Prop :=
  ∃ f1 f2 r, Fields line (f1 :: f2 :: r) ∧ IsInt f1 n ∧ IsInt f2 c

theorem loadMDP_iff_head {text : List Char} {x : Sys.Loaded K} :
    Sys.loadMDP text = .ok x ↔ ∃ h ls n c, Lines text (h :: ls) ∧ IsHead h n c ∧
      ls.foldlM Sys.loadLineMDP (⟨⟨c, n, []⟩, [], [], 0⟩ : Sys.Loaded K) = .ok x := by
  unfold Sys.loadMDP IsHead
  simp only [lines_iff, fields_iff, isInt_iff]
  constructor
  · intro h
    split at h
    · cases h
    · rename_i hd ls hl
      split at h
      · rename_i a b r hs
        simp only [bind, Except.bind] at h
        split at h
        · cases h
        · rename_i n hn
          split at h
          · cases h
          · rename_i c hc
            split at h
            · cases h
            · rename_i c' hc'
              split at h
              · cases h
              · rename_i n' hn'
                rw [size_iff.1 hn'] at hn
                rw [size_iff.1 hc'] at hc
                exact ⟨hd, ls, n', c', hl, ⟨a, b, r, hs, hn, hc⟩, h⟩
      · simp only [bind, Except.bind] at h; split at h <;> cases h
      · cases h
  · rintro ⟨hd, ls, n, c, hl, ⟨a, b, r, hs, hn, hc⟩, h⟩
    rw [hl]
    simp only [hs, hn, hc, bind, Except.bind, size_nat]
    exact h

/-- **C59.** Whenever an MDP transition file is loaded: its first line gives the numbers of states and of
rows, each further line is `source action destination probability [label]`, where a negative destination counts
from the end of the states; the pairs (source, action)
are numbered consecutively from 0 in the order of their first appearance; the entry of a pair's row for a
destination is the probability of the last line for this transition, and 0 without such a line; rows
without a pair are zero; the label of a line is attached to its pair. -/
theorem C59_load {text : List Char} {x : Sys.Loaded K} (h : Sys.loadMDP text = .ok x) :
    ∃ hd ls n c ts, Lines text (hd :: ls) ∧ IsHead hd n c ∧ List.Forall₂ (IsTra n) ls ts ∧
      x.P.rows = c ∧ x.P.cols = n ∧ InShape x.P ∧
      -- the pairs, numbered by first appearance
      (∀ s a, (s, a) ∈ x.idx.map Prod.fst ↔ ∃ y ∈ ts, y.s = s ∧ y.a = a) ∧
      x.idx.map Prod.snd = List.range x.idx.length ∧ (x.idx.map Prod.fst).Nodup ∧
      (∀ l1 y l2, ts = l1 ++ y :: l2 → (∀ z ∈ l1, (z.s, z.a) ≠ (y.s, y.a)) →
        ((y.s, y.a), (l1.map fun z => (z.s, z.a)).toFinset.card) ∈ x.idx) ∧
      -- the entries
      (∀ s a r, ((s, a), r) ∈ x.idx → ∀ t, (∀ y ∈ ts, ¬ (y.s = s ∧ y.a = a ∧ y.t = t)) → x.P.get r t = 0) ∧
      (∀ l1 y l2, ts = l1 ++ y :: l2 → (∀ z ∈ l2, ¬ (z.s = y.s ∧ z.a = y.a ∧ z.t = y.t)) →
        ∀ r, ((y.s, y.a), r) ∈ x.idx → x.P.get r y.t = (y.p : K)) ∧
      (∀ r, x.idx.length ≤ r → ∀ t, x.P.get r t = 0) ∧
      -- the labels
      (∀ l s a, (l, (s, a)) ∈ pairs x.labA ↔ ∃ y ∈ ts, y.s = s ∧ y.a = a ∧ y.lab = some l) := by
  obtain ⟨hd, ls, n, c, h1, h2, h3⟩ := loadMDP_iff_head.1 h
  obtain ⟨ts, h4, hI⟩ := loadLines_inv ls [] _ _ (linv_nil c n) h3
  rw [List.nil_append] at hI
  refine ⟨hd, ls, n, c, ts, h1, h2, ?_, hI.rows, hI.cols, hI.fit.inShape, fun s a => ?_, hI.vals, hI.keys,
    fun l1 y l2 e hz => ?_, fun s a r hr t hn => ?_, fun l1 y l2 e hz r hr => ?_, hI.zero, fun l s a => ?_⟩
  · exact h4.imp fun _ _ => isTra_iff.2
  · rw [show ((s, a) ∈ x.idx.map Prod.fst) ↔ (s, a) ∈ Dict.keys x.idx from Iff.rfl, hI.mem]
    simp only [Prod.mk.injEq]
  · exact Dict.mem_of_get? (hI.first l1 y l2 e hz)
  · rw [hI.get _ r (Dict.get?_of_mem hI.keys hr), lastVal_of_not_mem]
    · exact Rat.cast_zero
    · intro y hy hc
      simp only [Prod.mk.injEq] at hc
      exact hn y hy ⟨hc.1.1, hc.1.2, hc.2⟩
  · rw [hI.get _ r (Dict.get?_of_mem hI.keys hr), e, lastVal_last]
    intro z hz' hc
    simp only [Prod.mk.injEq] at hc
    exact hz z hz' ⟨hc.1.1, hc.1.2, hc.2⟩
  · have : (l, (s, a)) ∈ pairs x.labA ↔ IDict.Has x.labA l (s, a) := by
      rw [← rel_mk' ⟨hI.labsOK.1, fun p hp => hI.labsOK.2 p.1 p.2 (Dict.get?_of_mem hI.labsOK.1 hp)⟩ false]
      rfl
    rw [this, hI.labs]
    simp only [Prod.mk.injEq, and_assoc]

/-- **C59 (which files are accepted).** A transition file is loaded exactly if its first line starts with
two numbers `n` and `c`, all other lines are of the form above with destinations below `n`, and there
are at most `c` different pairs. -/
theorem C59_accepts {text : List Char} : (∃ x : Sys.Loaded K, Sys.loadMDP text = .ok x) ↔
    ∃ hd ls n c ts, Lines text (hd :: ls) ∧ IsHead hd n c ∧ List.Forall₂ (IsTra n) ls ts ∧
      (∀ y ∈ ts, y.t < n) ∧ (ts.map fun y => (y.s, y.a)).toFinset.card ≤ c := by
  constructor
  · rintro ⟨x, h⟩
    obtain ⟨hd, ls, n, c, h1, h2, h3⟩ := loadMDP_iff_head.1 h
    obtain ⟨ts, h4, hI⟩ := loadLines_inv ls [] _ _ (linv_nil c n) h3
    rw [List.nil_append] at hI
    exact ⟨hd, ls, n, c, ts, h1, h2, h4.imp fun _ _ => isTra_iff.2, hI.dst, hI.length ▸ hI.le⟩
  · rintro ⟨hd, ls, n, c, ts, h1, h2, h4, h5, h6⟩
    obtain ⟨x, h7, -⟩ := loadLines_ok (K := K) ls ts [] _ (linv_nil c n) (h4.imp fun _ _ => isTra_iff.1) h5 (by simpa using h6)
    exact ⟨x, loadMDP_iff_head.2 ⟨hd, ls, n, c, h1, h2, h7⟩⟩

/-- a file with a repeated line, labels and an exponent -/
def traEx : List Char := "2 3 4\n1 0 1 0.25\r\n0 0 1 .5 go\n1 0 1 1e0\n0 1 0 1 stay\n0 0 0 +0.5".toList

example : ∃ x : Sys.Loaded ℚ, Sys.loadMDP traEx = .ok x ∧
    x.idx = [((1, 0), 0), ((0, 0), 1), ((0, 1), 2)] ∧ x.P.get 0 1 = 1 ∧ x.P.get 1 0 = 1/2 ∧
    x.labA = [("go", [(0, 0)]), ("stay", [(0, 1)])] := by
  obtain ⟨x, h1, h2⟩ := exists_of_ok_and (x := Sys.loadMDP (K := ℚ) traEx)
    (p := fun x => decide (x.idx = [((1, 0), 0), ((0, 0), 1), ((0, 1), 2)] ∧ x.P.get 0 1 = 1 ∧ x.P.get 1 0 = 1/2 ∧
      x.labA = [("go", [(0, 0)]), ("stay", [(0, 1)])])) (by decide +kernel)
  exact ⟨x, h1, of_decide_eq_true h2⟩

end Verif.Props
