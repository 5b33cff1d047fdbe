import Verif.Proofs.IOLab
import Verif.Proofs.RFOK
import Verif.Props.System
import Mathlib.Algebra.BigOperators.Field
import Mathlib.Tactic.Positivity
/-! helper lemmas: transition files -/
set_option linter.unusedSectionVars false
namespace Verif.Proofs.IOTra
open Verif.Model Verif.Model.Text Verif.Proofs Verif.Proofs.Text Verif.Proofs.IOLab Verif.Props

variable {K : Type} [Field K] [LinearOrder K] [IsStrictOrderedRing K]

/-! ## reading and writing at positions -/

/-- the position `s` of `n` is denoted by `i`: negative numbers count from the end -/
def Denotes (n : Nat) (i : Int) (s : Nat) : Prop := 0 ≤ i ∧ (s : Int) = i ∨ i < 0 ∧ (s : Int) = i + n

theorem denotes_nat (n s : Nat) : Denotes n s s := .inl ⟨by omega, rfl⟩

theorem wrap_denotes {n : Nat} {i : Int} {s : Nat} (h : Denotes n i s) : Sys.wrap n i = s := by
  unfold Sys.wrap
  rcases h with ⟨h1, h2⟩ | ⟨h1, h2⟩
  · rw [if_neg (by omega)]; omega
  · rw [if_pos h1]; omega

theorem range_denotes {n : Nat} {i : Int} {s : Nat} (h : Denotes n i s) : (-(n : Int) ≤ i ∧ i < n) ↔ s < n := by
  rcases h with ⟨h1, h2⟩ | ⟨h1, h2⟩ <;> omega

theorem denotes_exists {n : Nat} {i : Int} (h : -(n : Int) ≤ i) : ∃ s, Denotes n i s := by
  by_cases h0 : 0 ≤ i
  · exact ⟨i.toNat, .inl ⟨h0, by omega⟩⟩
  · exact ⟨(i + n).toNat, .inr ⟨by omega, by omega⟩⟩

theorem store_denotes₂ {P : Dok K} {i j : Int} {s t : Nat} (hi : Denotes P.rows i s) (hj : Denotes P.cols j t) (p : ℚ) :
    Sys.store P i j p = if s < P.rows ∧ t < P.cols then .ok (P.set s t (p : K)) else .error .indexError := by
  unfold Sys.store
  have h1 := range_denotes hi
  have h2 := range_denotes hj
  rw [wrap_denotes hi, wrap_denotes hj]
  by_cases h : s < P.rows ∧ t < P.cols
  · rw [if_pos h, if_pos ⟨(h1.2 h.1).1, (h1.2 h.1).2, h2.2 h.2⟩]
  · rw [if_neg h, if_neg]
    rintro ⟨k1, k2, k3⟩
    exact h ⟨h1.1 ⟨k1, k2⟩, h2.1 k3⟩

theorem store_nat (P : Dok K) (i j : Nat) (p : ℚ) :
    Sys.store P i j p = if i < P.rows ∧ j < P.cols then .ok (P.set i j (p : K)) else .error .indexError :=
  store_denotes₂ (denotes_nat _ _) (denotes_nat _ _) p

theorem store_denotes {P : Dok K} {j : Int} {t : Nat} (hj : Denotes P.cols j t) (i : Nat) (p : ℚ) :
    Sys.store P i j p = Sys.store P i t p := by
  rw [store_denotes₂ (denotes_nat _ i) hj, store_nat]

theorem denotes_of_store {P Q : Dok K} {i j : Int} {p : ℚ} (h : Sys.store P i j p = .ok Q) :
    ∃ t, Denotes P.cols j t := by
  unfold Sys.store at h
  split at h
  · rename_i hb; exact denotes_exists hb.2.2.1
  · cases h

theorem denotes_of_store' {P Q : Dok K} {i j : Int} {p : ℚ} (h : Sys.store P i j p = .ok Q) :
    ∃ t, Denotes P.rows i t := by
  unfold Sys.store at h
  split at h
  · rename_i hb; exact denotes_exists hb.1
  · cases h

theorem size_nat (n : Nat) : Sys.size n = .ok n := by
  unfold Sys.size; rw [if_pos (by omega)]; simp

theorem size_iff {i : Int} {n : Nat} : Sys.size i = .ok n ↔ i = n := by
  unfold Sys.size
  split
  · rw [Except.ok.injEq]; omega
  · constructor
    · intro h; cases h
    · intro h; omega

/-! ## storing entries -/

/-- one entry per position, inside the shape, and no stored zeros -/
def Fit (P : Dok K) : Prop :=
  (Dict.keys P.items).Nodup ∧ ∀ e ∈ P.items, e.1.1 < P.rows ∧ e.1.2 < P.cols ∧ e.2 ≠ 0

theorem Fit.inShape {P : Dok K} (h : Fit P) : InShape P := ⟨h.1, fun i j p he => ⟨(h.2 _ he).1, (h.2 _ he).2.1⟩⟩

theorem fit_set {P : Dok K} (h : Fit P) {i j : Nat} (hi : i < P.rows) (hj : j < P.cols) (v : K) :
    Fit (P.set i j v) := by
  unfold Dok.set
  split
  · exact ⟨((del_sublist _ _).map Prod.fst).nodup h.1, fun e he => h.2 e ((mem_del h.1).1 he).1⟩
  · rename_i hv
    refine ⟨Dict.nodup_set h.1 _ _, fun e he => ?_⟩
    have hg := Dict.get?_of_mem (Dict.nodup_set h.1 (i, j) v) (k := e.1) (v := e.2) he
    rw [Dict.get?_set] at hg
    split at hg
    · rename_i he1
      rw [← he1]; exact ⟨hi, hj, by rw [← Option.some.inj hg]; exact hv⟩
    · exact h.2 _ (Dict.mem_of_get? hg)

theorem get_set {P : Dok K} (h : Fit P) (i j : Nat) (v : K) (i' j' : Nat) :
    (P.set i j v).get i' j' = if (i, j) = (i', j') then v else P.get i' j' := by
  unfold Dok.set Dok.get
  split
  · rename_i hv
    have hn : (Dict.keys (P.items.del (i, j))).Nodup := ((del_sublist _ _).map Prod.fst).nodup h.1
    split
    · rename_i he
      rw [Dict.get?_eq_none.2]
      · simp [hv]
      · intro hc
        obtain ⟨e, he1, he2⟩ := List.mem_map.1 hc
        exact ((mem_del h.1).1 he1).2 (by rw [he2, he])
    · rename_i he
      congr 1
      cases hg : P.items.get? (i', j') with
      | none =>
        rw [Dict.get?_eq_none] at hg ⊢
        exact fun hc => hg (((del_sublist _ _).map Prod.fst).mem hc)
      | some w => exact Dict.get?_of_mem hn ((mem_del h.1).2 ⟨Dict.mem_of_get? hg, fun h => he h.symm⟩)
  · simp only [Dict.get?_set]
    split <;> rfl

theorem set_shape (P : Dok K) (i j : Nat) (v : K) : (P.set i j v).rows = P.rows ∧ (P.set i j v).cols = P.cols := by
  unfold Dok.set; split <;> exact ⟨rfl, rfl⟩

theorem get_out {P : Dok K} (h : Fit P) {i j : Nat} (ho : ¬ (i < P.rows ∧ j < P.cols)) : P.get i j = 0 :=
  get_eq_zero fun p hp => ho ⟨(h.2 _ hp).1, (h.2 _ hp).2.1⟩

variable [FloorRing K]

/-! ## rounded numbers -/

/-- the number read back after printing `p` -/
def rnd (p : K) : K := (roundEven (p * 10 ^ 6) : K) / 10 ^ 6

theorem cast_rnd (p : K) : (((roundEven (p * 10 ^ 6) : ℚ) / 10 ^ 6 : ℚ) : K) = rnd p := by
  unfold rnd; push_cast; rfl

theorem rnd_nonneg (p : K) : 0 ≤ rnd p := by unfold rnd; positivity

theorem rnd_zero : rnd (0 : K) = 0 := by
  unfold rnd
  have := roundEven_natCast (K := K) 0
  simp only [Nat.cast_zero] at this
  rw [zero_mul, this]; simp

theorem rnd_le_one {p : K} (h0 : 0 ≤ p) (h1 : p ≤ 1) : rnd p ≤ 1 := by
  unfold rnd
  have h : roundEven (p * 10 ^ 6) ≤ 10 ^ 6 := roundEven_le (by positivity) (by push_cast; linarith)
  have h' : (roundEven (p * 10 ^ 6) : K) ≤ 10 ^ 6 := by exact_mod_cast h
  rw [div_le_one (by positivity)]; exact h'

theorem rnd_close {p : K} (h0 : 0 ≤ p) : |rnd p - p| ≤ 1 / (2 * 10 ^ 6) := by
  have h := roundEven_close (x := p * 10 ^ 6) (by positivity)
  have e : rnd p - p = ((roundEven (p * 10 ^ 6) : K) - p * 10 ^ 6) / 10 ^ 6 := by
    unfold rnd; field_simp
  rw [e, abs_div, abs_of_pos (show (0 : K) < 10 ^ 6 by positivity), div_le_iff₀ (by positivity)]
  refine h.trans (le_of_eq ?_)
  norm_num

/-- sums of rounded numbers are one up to the tolerance only if they are exactly one -/
theorem sum_rnd_one {ι : Type} (s : Finset ι) (f : ι → K) :
    |∑ x ∈ s, rnd (f x) - 1| ≤ 1 / (2 * 10 ^ 9) ↔ ∑ x ∈ s, rnd (f x) = 1 := by
  have e : ∑ x ∈ s, rnd (f x) = ((∑ x ∈ s, roundEven (f x * 10 ^ 6) : Nat) : K) / 10 ^ 6 := by
    unfold rnd; rw [← Finset.sum_div]; push_cast; rfl
  rw [e]
  generalize (∑ x ∈ s, roundEven (f x * 10 ^ 6) : Nat) = m
  constructor
  · intro h
    have hm : m = 10 ^ 6 := by
      rw [abs_le] at h
      obtain ⟨h1, h2⟩ := h
      have a : (m : K) / 10 ^ 6 * 10 ^ 6 = m := by field_simp
      have h1' : (m : K) > 10 ^ 6 - 1 := by
        rw [← a]
        have : (m : K) / 10 ^ 6 ≥ 1 - 1 / (2 * 10 ^ 9) := by linarith
        have := mul_le_mul_of_nonneg_right this (show (0 : K) ≤ 10 ^ 6 by positivity)
        refine lt_of_lt_of_le ?_ this
        norm_num
      have h2' : (m : K) < 10 ^ 6 + 1 := by
        rw [← a]
        have : (m : K) / 10 ^ 6 ≤ 1 + 1 / (2 * 10 ^ 9) := by linarith
        have := mul_le_mul_of_nonneg_right this (show (0 : K) ≤ 10 ^ 6 by positivity)
        refine lt_of_le_of_lt this ?_
        norm_num
      have b1 : ((10 ^ 6 - 1 : Nat) : K) < m := by push_cast; norm_num at h1' ⊢; exact h1'
      have b2 : (m : K) < ((10 ^ 6 + 1 : Nat) : K) := by push_cast; norm_num at h2' ⊢; exact h2'
      have c1 := Nat.cast_lt.1 b1
      have c2 := Nat.cast_lt.1 b2
      omega
    subst hm
    push_cast
    norm_num
  · intro h
    rw [h]; simp

/-! ## DTMC -/

/-- a line of the transition file of a DTMC without the final newline -/
def lineD (t : Nat × Nat × K) : List Char := fmtD t.1 ++ ' ' :: fmtD t.2.1 ++ ' ' :: fmtF t.2.2

theorem split_lineD {t : Nat × Nat × K} (h : 0 ≤ t.2.2) :
    split (lineD t ++ ['\n']) = [fmtD t.1, fmtD t.2.1, fmtF t.2.2] := by
  have e : lineD t ++ ['\n'] = fmtD t.1 ++ ' ' :: (fmtD t.2.1 ++ ' ' :: (fmtF t.2.2 ++ '\n' :: [])) := by
    simp [lineD]
  rw [e, split_word (fmtD_word _) (fmtD_ne _) (by decide), split_word (fmtD_word _) (fmtD_ne _) (by decide),
    split_word (fmtF_word h) (fmtF_ne _) (by decide)]
  rfl

theorem fmtD_plain {n : Nat} {c : Char} (hc : c.isDigit = false) : c ∉ fmtD n := by
  intro h
  rw [fmtD_digit h] at hc; cases hc

theorem fmtF_plain {p : K} (hp : 0 ≤ p) {c : Char} (hc : isSpace c = true) : c ∉ fmtF p := by
  intro h
  rw [fmtF_word hp c h] at hc; cases hc

theorem lineD_plain {t : Nat × Nat × K} (h : 0 ≤ t.2.2) : '\n' ∉ lineD t ∧ '\r' ∉ lineD t := by
  simp only [lineD, List.mem_append, List.mem_cons, not_or]
  exact ⟨⟨⟨fmtD_plain (by decide), by decide, fmtD_plain (by decide)⟩, by decide, fmtF_plain h (by decide)⟩,
    ⟨⟨fmtD_plain (by decide), by decide, fmtD_plain (by decide)⟩, by decide, fmtF_plain h (by decide)⟩⟩

/-- reading the lines stores the rounded numbers -/
theorem loadD_lines (ts : List (Nat × Nat × K)) (P : Dok K) (hP : Fit P)
    (h1 : ∀ t ∈ ts, 0 ≤ t.2.2 ∧ t.1 < P.rows ∧ t.2.1 < P.cols)
    (h2 : (ts.map fun t => (t.1, t.2.1)).Nodup) :
    ∃ Q : Dok K, (ts.map fun t => lineD t ++ ['\n']).foldlM Sys.loadLineDTMC P = .ok Q ∧ Fit Q ∧
      Q.rows = P.rows ∧ Q.cols = P.cols ∧
      (∀ t ∈ ts, Q.get t.1 t.2.1 = rnd t.2.2) ∧
      (∀ i j, (∀ p, (i, j, p) ∉ ts) → Q.get i j = P.get i j) := by
  induction ts generalizing P with
  | nil => exact ⟨P, rfl, hP, rfl, rfl, by simp, by simp⟩
  | cons t ts ih =>
    have ht := h1 t (by simp)
    have hl : Sys.loadLineDTMC P (lineD t ++ ['\n']) = .ok (P.set t.1 t.2.1 (rnd t.2.2)) := by
      unfold Sys.loadLineDTMC
      rw [split_lineD ht.1]
      simp only [pyInt_fmtD, pyFloat_fmtF ht.1, bind, Except.bind, store_nat, ht.2.1, ht.2.2, and_self,
        if_true, cast_rnd]
    have hs := set_shape P t.1 t.2.1 (rnd t.2.2)
    have h2' := List.nodup_cons.1 h2
    obtain ⟨Q, q1, q2, q3, q4, q5, q6⟩ := ih _ (fit_set hP ht.2.1 ht.2.2 (rnd t.2.2)) (by
      intro x hx
      rw [hs.1, hs.2]; exact h1 x (by simp [hx])) h2'.2
    refine ⟨Q, ?_, q2, q3.trans hs.1, q4.trans hs.2, ?_, ?_⟩
    · simp only [List.map_cons, List.foldlM_cons, hl]
      exact q1
    · intro x hx
      rcases List.mem_cons.1 hx with rfl | hx
      · rw [q6, get_set hP, if_pos rfl]
        intro p hp
        exact h2'.1 (List.mem_map.2 ⟨_, hp, rfl⟩)
      · exact q5 x hx
    · intro i j hij
      rw [q6 i j fun p hp => hij p (by simp [hp]), get_set hP, if_neg]
      intro he
      simp only [Prod.mk.injEq] at he
      apply hij t.2.2
      rw [← he.1, ← he.2]; simp

theorem loadD_header (n m : Nat) : Sys.loadLineDTMC (K := K) (Dok.zero 1 1) (fmtD n ++ ' ' :: fmtD m ++ ['\n']) =
    .ok ⟨n, n, []⟩ := by
  have e : fmtD n ++ ' ' :: fmtD m ++ ['\n'] = fmtD n ++ ' ' :: (fmtD m ++ '\n' :: []) := by simp
  unfold Sys.loadLineDTMC
  rw [e, split_word (fmtD_word _) (fmtD_ne _) (by decide), split_word (fmtD_word _) (fmtD_ne _) (by decide)]
  simp only [split, splitWith, if_true, pyInt_fmtD, bind, Except.bind, size_nat, Dok.resize, Dok.zero, List.filter_nil]

theorem loadDTMC_saved (n m : Nat) (ts : List (Nat × Nat × K))
    (h1 : ∀ t ∈ ts, 0 ≤ t.2.2 ∧ t.1 < n ∧ t.2.1 < n) (h2 : (ts.map fun t => (t.1, t.2.1)).Nodup) :
    ∃ Q : Dok K, Sys.loadDTMC (fmtD n ++ ' ' :: fmtD m ++ '\n' :: (ts.map fun t => lineD t ++ ['\n']).flatten) = .ok Q ∧
      Fit Q ∧ Q.rows = n ∧ Q.cols = n ∧
      (∀ t ∈ ts, Q.get t.1 t.2.1 = rnd t.2.2) ∧ (∀ i j, (∀ p, (i, j, p) ∉ ts) → Q.get i j = 0) := by
  have hrl := readLines_text (h := fmtD n ++ ' ' :: fmtD m) (ls := ts.map lineD)
    (by simp only [List.mem_append, List.mem_cons, not_or]
        exact ⟨fmtD_plain (by decide), by decide, fmtD_plain (by decide)⟩)
    (by simp only [List.mem_append, List.mem_cons, not_or]
        exact ⟨fmtD_plain (by decide), by decide, fmtD_plain (by decide)⟩)
    (by intro l hl
        obtain ⟨t, ht, rfl⟩ := List.mem_map.1 hl
        exact lineD_plain (h1 t ht).1)
  rw [List.map_map] at hrl
  simp only [Function.comp_def] at hrl
  obtain ⟨Q, q1, q2, q3, q4, q5, q6⟩ := loadD_lines ts (⟨n, n, []⟩ : Dok K) ⟨by simp [Dict.keys], by simp⟩ h1 h2
  refine ⟨Q, ?_, q2, q3, q4, q5, fun i j h => ?_⟩
  · unfold Sys.loadDTMC
    rw [hrl, List.foldlM_cons, loadD_header]
    exact q1
  · rw [q6 i j h]; simp [Dok.get, Dict.get?]

/-! ## MDP -/

/-- what a line of an MDP transition file says -/
structure Tra where
  s : Nat
  a : Nat
  t : Nat
  p : ℚ
  lab : Option String

/-- the label of a line is its fifth field, if that is the last one -/
def labOf (r : List (List Char)) : Option String := match r with | [l] => some (String.ofList l) | _ => none

/-- `label_to_actions` after a line -/
def withLab (d : Dict String (List (Nat × Nat))) (r : List (List Char)) (sa : Nat × Nat) :
    Dict String (List (Nat × Nat)) := match r with | [l] => IDict.addTo d (String.ofList l) sa | _ => d

theorem withLab_eq (d : Dict String (List (Nat × Nat))) (r : List (List Char)) (sa : Nat × Nat) :
    withLab d r sa = match labOf r with | some l => IDict.addTo d l sa | none => d := by
  rcases r with _ | ⟨a, _ | ⟨b, r⟩⟩ <;> rfl

/-- the fields of a line: at least four, a fifth one is the label if there are exactly five -/
def Reads (N : Nat) (line : List Char) (x : Tra) : Prop :=
  ∃ f1 f2 f3 f4 r i, split line = f1 :: f2 :: f3 :: f4 :: r ∧ pyInt f1 = .ok (x.s : Int) ∧ pyInt f2 = .ok (x.a : Int) ∧
    (pyInt f3 = .ok i ∧ Denotes N i x.t) ∧ pyFloat f4 = .ok x.p ∧
    x.lab = labOf r

/-- the probability given by the last line for a transition, 0 without one -/
def lastVal (ts : List Tra) (sa : Nat × Nat) (t : Nat) : ℚ :=
  ts.foldl (fun v x => if (x.s, x.a) = sa ∧ x.t = t then x.p else v) 0

theorem lastVal_append (ts : List Tra) (x : Tra) (sa : Nat × Nat) (t : Nat) :
    lastVal (ts ++ [x]) sa t = if (x.s, x.a) = sa ∧ x.t = t then x.p else lastVal ts sa t := by
  simp [lastVal]

theorem lastVal_of_not_mem {ts : List Tra} {sa : Nat × Nat} {t : Nat}
    (h : ∀ x ∈ ts, ¬ ((x.s, x.a) = sa ∧ x.t = t)) : lastVal ts sa t = 0 := by
  induction ts using List.reverseRecOn with
  | nil => rfl
  | append_singleton ts x ih =>
    rw [lastVal_append, if_neg (h x (by simp)), ih fun y hy => h y (by simp [hy])]

theorem lastVal_last {l1 l2 : List Tra} {x : Tra} 
    (h : ∀ y ∈ l2, ¬ ((y.s, y.a) = (x.s, x.a) ∧ y.t = x.t)) :
    lastVal (l1 ++ x :: l2) (x.s, x.a) x.t = x.p := by
  induction l2 using List.reverseRecOn with
  | nil => rw [lastVal_append, if_pos ⟨rfl, rfl⟩]
  | append_singleton l2 y ih =>
    rw [← List.cons_append, ← List.append_assoc, lastVal_append, if_neg (h y (by simp)),
      ih fun z hz => h z (by simp [hz])]

/-- state after reading the lines `ts` -/
structure LInv (C N : Nat) (ts : List Tra) (x : Sys.Loaded K) : Prop where
  rows : x.P.rows = C
  cols : x.P.cols = N
  fit : Fit x.P
  next : x.next = x.idx.length
  vals : x.idx.map Prod.snd = List.range x.idx.length
  keys : (Dict.keys x.idx).Nodup
  mem : ∀ sa, sa ∈ Dict.keys x.idx ↔ ∃ y ∈ ts, (y.s, y.a) = sa
  first : ∀ l1 y l2, ts = l1 ++ y :: l2 → (∀ z ∈ l1, (z.s, z.a) ≠ (y.s, y.a)) →
    x.idx.get? (y.s, y.a) = some (l1.map fun z => (z.s, z.a)).toFinset.card
  get : ∀ sa r, x.idx.get? sa = some r → ∀ t, x.P.get r t = (lastVal ts sa t : K)
  zero : ∀ r, x.idx.length ≤ r → ∀ t, x.P.get r t = 0
  labs : ∀ l sa, IDict.Has x.labA l sa ↔ ∃ y ∈ ts, (y.s, y.a) = sa ∧ y.lab = some l
  labsOK : IDict.SetsOK x.labA
  le : x.idx.length ≤ C
  dst : ∀ y ∈ ts, y.t < N

theorem LInv.lt {C N : Nat} {ts : List Tra} {x : Sys.Loaded K} (h : LInv C N ts x) {sa : Nat × Nat} {r : Nat}
    (hr : x.idx.get? sa = some r) : r < x.idx.length := by
  have := List.mem_map_of_mem (f := Prod.snd) (Dict.mem_of_get? hr)
  rw [h.vals] at this
  exact List.mem_range.1 this

theorem LInv.inj {C N : Nat} {ts : List Tra} {x : Sys.Loaded K} (h : LInv C N ts x) {sa sa' : Nat × Nat} {r : Nat}
    (hr : x.idx.get? sa = some r) (hr' : x.idx.get? sa' = some r) : sa = sa' := by
  have hv : (x.idx.map Prod.snd).Nodup := by rw [h.vals]; exact List.nodup_range
  have := List.inj_on_of_nodup_map hv (Dict.mem_of_get? hr) (Dict.mem_of_get? hr') rfl
  exact (Prod.mk.injEq .. ▸ this).1

theorem LInv.length {C N : Nat} {ts : List Tra} {x : Sys.Loaded K} (h : LInv C N ts x) :
    x.idx.length = (ts.map fun z => (z.s, z.a)).toFinset.card := by
  have : (Dict.keys x.idx).toFinset = (ts.map fun z => (z.s, z.a)).toFinset := by
    ext sa
    simp only [List.mem_toFinset, h.mem, List.mem_map]
  rw [← this, List.toFinset_card_of_nodup h.keys]; simp [Dict.keys]

theorem linv_nil (C N : Nat) : LInv C N [] (⟨⟨C, N, []⟩, [], [], 0⟩ : Sys.Loaded K) where
  rows := rfl
  cols := rfl
  fit := ⟨by simp [Dict.keys], by simp⟩
  next := rfl
  vals := rfl
  keys := by simp [Dict.keys]
  mem := by simp [Dict.keys]
  first := by intro l1 y l2 h; simp at h
  get := by intro sa r h; simp [Dict.get?] at h
  zero := by intro r _ t; simp [Dok.get, Dict.get?]
  labs := by intro l sa; simp [IDict.Has, Dict.get?]
  labsOK := ⟨by simp [Dict.keys], by simp [Dict.get?]⟩
  le := Nat.zero_le _
  dst := by simp

/-- reading a line: accepted iff the destination and the (new) row are in range -/
theorem loadLine_step {C N : Nat} {ts : List Tra} {x : Sys.Loaded K} (h : LInv C N ts x) {line : List Char}
    {y : Tra} (hy : Reads N line y) :
    (y.t < N ∧ (y.s, y.a) ∈ Dict.keys x.idx ∨ y.t < N ∧ x.idx.length < C →
      ∃ x', Sys.loadLineMDP x line = .ok x' ∧ LInv C N (ts ++ [y]) x') ∧
    (¬ (y.t < N ∧ (y.s, y.a) ∈ Dict.keys x.idx ∨ y.t < N ∧ x.idx.length < C) →
      Sys.loadLineMDP x line = .error .indexError) := by
  obtain ⟨f1, f2, f3, f4, r, j, hs, h1, h2, ⟨h3, hj⟩, h4, h5⟩ := hy
  have hst' : ∀ i : Nat, Sys.store x.P i j y.p = Sys.store x.P i y.t y.p := fun i => store_denotes (h.cols ▸ hj) i y.p
  obtain ⟨lab, hL⟩ : ∃ lab, withLab x.labA r (y.s, y.a) = lab := ⟨_, rfl⟩
  have hlab : (∀ l sa, IDict.Has lab l sa ↔ ∃ z ∈ ts ++ [y], (z.s, z.a) = sa ∧ z.lab = some l) ∧
        IDict.SetsOK lab := by
    rw [withLab_eq, ← h5] at hL
    subst hL
    cases hyl : y.lab with
    | some l0 =>
      refine ⟨fun l sa => ?_, IDict.ok_addTo h.labsOK _ _⟩
      simp only [IDict.has_addTo, h.labs, List.mem_append, List.mem_singleton]
      constructor
      · rintro (⟨rfl, rfl⟩ | ⟨z, hz, h⟩)
        · exact ⟨y, Or.inr rfl, rfl, hyl⟩
        · exact ⟨z, Or.inl hz, h⟩
      · rintro ⟨z, hz | rfl, ha, hb⟩
        · exact Or.inr ⟨z, hz, ha, hb⟩
        · rw [hyl] at hb
          exact Or.inl ⟨(Option.some.inj hb).symm, ha.symm⟩
    | none =>
      refine ⟨fun l sa => ?_, h.labsOK⟩
      simp only [h.labs]
      constructor
      · rintro ⟨z, hz, h⟩; exact ⟨z, by simp [hz], h⟩
      · rintro ⟨z, hz, ha, hb⟩
        rcases List.mem_append.1 hz with hz | hz
        · exact ⟨z, hz, ha, hb⟩
        · simp only [List.mem_singleton] at hz
          subst hz
          rw [hyl] at hb; cases hb
  obtain ⟨hl1, hl2⟩ := hlab
  have hline : Sys.loadLineMDP x line = (match x.idx.get? (y.s, y.a) with
    | some i => do
      let P ← Sys.store x.P i y.t y.p
      .ok { x with P := P, labA := lab }
    | none => do
      let P ← Sys.store x.P x.next y.t y.p
      .ok ⟨P, x.idx.set (y.s, y.a) x.next, lab, x.next + 1⟩) := by
    unfold Sys.loadLineMDP
    rw [hs]
    have hneg : ¬ ((y.s : Int) < 0 ∨ (y.a : Int) < 0) := by omega
    simp only [h1, h2, h3, h4, bind, Except.bind, ← hL, withLab, hst', if_neg hneg, Int.toNat_natCast]
    rfl
  have hpre : ∀ l1 z l2, ts ++ [y] = l1 ++ z :: l2 → (∀ w ∈ l1, (w.s, w.a) ≠ (z.s, z.a)) →
      (∃ l2', ts = l1 ++ z :: l2') ∨ (z = y ∧ l1 = ts) := by
    intro l1 z l2 he _
    rcases List.eq_nil_or_concat l2 with rfl | ⟨l2', w, rfl⟩
    · have := List.append_inj' he rfl
      right; exact ⟨by simpa using this.2.symm, this.1.symm⟩
    · left
      rw [List.concat_eq_append, ← List.cons_append, ← List.append_assoc] at he
      exact ⟨l2', (List.append_inj' he rfl).1⟩
  cases hg : x.idx.get? (y.s, y.a) with
  | some i =>
    have hk : (y.s, y.a) ∈ Dict.keys x.idx := by rw [← Dict.get?_isSome, hg]; rfl
    have hi := h.lt hg
    have hiC : i < x.P.rows := by rw [h.rows]; exact lt_of_lt_of_le hi h.le
    rw [hline, hg]
    constructor
    · intro hor
      have hdst : y.t < N := by rcases hor with h | h <;> exact h.1
      have hd : y.t < x.P.cols := by rw [h.cols]; exact hdst
      have hst : Sys.store x.P i y.t y.p = .ok (x.P.set i y.t (y.p : K)) := by
        rw [store_nat, if_pos ⟨hiC, hd⟩]
      refine ⟨{ x with P := x.P.set i y.t (y.p : K), labA := lab }, by simp [hst, bind, Except.bind], ?_⟩
      have hsh := set_shape x.P i y.t (y.p : K)
      exact {
        rows := hsh.1.trans h.rows
        cols := hsh.2.trans h.cols
        fit := fit_set h.fit hiC hd _
        next := h.next
        vals := h.vals
        keys := h.keys
        mem := by
          intro sa
          simp only [h.mem, List.mem_append, List.mem_singleton]
          constructor
          · rintro ⟨z, hz, e⟩; exact ⟨z, Or.inl hz, e⟩
          · rintro ⟨z, hz | rfl, e⟩
            · exact ⟨z, hz, e⟩
            · rw [← e]; exact (h.mem _).1 hk
        first := by
          intro l1 z l2 he hz
          rcases hpre l1 z l2 he hz with ⟨l2', e⟩ | ⟨rfl, rfl⟩
          · exact h.first l1 z l2' e hz
          · obtain ⟨w, hw, e⟩ := (h.mem _).1 hk
            exact absurd e (hz w hw)
        get := by
          intro sa r hr t
          simp only at hr ⊢
          rw [get_set h.fit, lastVal_append, h.get sa r hr]
          by_cases hc : (y.s, y.a) = sa ∧ y.t = t
          · obtain ⟨rfl, rfl⟩ := hc
            rw [hg] at hr; cases hr
            simp
          · rw [if_neg hc, if_neg]
            intro he
            simp only [Prod.mk.injEq] at he
            refine hc ⟨?_, he.2⟩
            rw [← he.1] at hr
            exact h.inj hg hr
        zero := by
          intro r hr t
          simp only at hr ⊢
          rw [get_set h.fit, h.zero r hr, if_neg]
          simp only [Prod.mk.injEq, not_and]
          omega
        labs := hl1
        labsOK := hl2
        le := h.le
        dst := by
          intro z hz
          rcases List.mem_append.1 hz with hz | hz
          · exact h.dst z hz
          · simp only [List.mem_singleton] at hz; subst hz; exact hdst }
    · intro hno
      have hd : ¬ y.t < N := fun hd => hno (Or.inl ⟨hd, hk⟩)
      have hst : Sys.store x.P i y.t y.p = .error .indexError := by
        rw [store_nat, if_neg]; rw [h.cols]; exact fun hc => hd hc.2
      simp [hst, bind, Except.bind]
  | none =>
    have hk : (y.s, y.a) ∉ Dict.keys x.idx := Dict.get?_eq_none.1 hg
    rw [hline, hg]
    have hsetidx := Dict.set_of_not_mem (v := x.next) hk
    constructor
    · intro hor
      have hor : y.t < N ∧ x.idx.length < C := by
        rcases hor with h | h
        · exact absurd h.2 hk
        · exact h
      have hdst := hor.1
      have hd : y.t < x.P.cols := by rw [h.cols]; exact hdst
      have hiC : x.next < x.P.rows := by rw [h.rows, h.next]; exact hor.2
      have hst : Sys.store x.P x.next y.t y.p = .ok (x.P.set x.next y.t (y.p : K)) := by
        rw [store_nat, if_pos ⟨hiC, hd⟩]
      refine ⟨⟨x.P.set x.next y.t (y.p : K), x.idx.set (y.s, y.a) x.next, lab, x.next + 1⟩,
        by simp [hst, bind, Except.bind], ?_⟩
      have hsh := set_shape x.P x.next y.t (y.p : K)
      exact {
        rows := hsh.1.trans h.rows
        cols := hsh.2.trans h.cols
        fit := fit_set h.fit hiC hd _
        next := by
          show x.next + 1 = (x.idx.set (y.s, y.a) x.next).length
          rw [hsetidx, List.length_append, h.next]; rfl
        vals := by
          show (x.idx.set (y.s, y.a) x.next).map Prod.snd = List.range (x.idx.set (y.s, y.a) x.next).length
          rw [hsetidx, List.length_append, List.map_append, h.vals]
          simp [List.range_succ, h.next]
        keys := Dict.nodup_set h.keys _ _
        mem := by
          intro sa
          simp only [Dict.mem_keys_set, h.mem, List.mem_append, List.mem_singleton]
          constructor
          · rintro (rfl | ⟨z, hz, e⟩)
            · exact ⟨y, Or.inr rfl, rfl⟩
            · exact ⟨z, Or.inl hz, e⟩
          · rintro ⟨z, hz | rfl, e⟩
            · exact Or.inr ⟨z, hz, e⟩
            · exact Or.inl e.symm
        first := by
          intro l1 z l2 he hz
          simp only [Dict.get?_set]
          rcases hpre l1 z l2 he hz with ⟨l2', e⟩ | ⟨rfl, rfl⟩
          · rw [if_neg]
            · exact h.first l1 z l2' e hz
            · intro e2
              exact hk ((h.mem _).2 ⟨z, by rw [e]; simp, e2.symm⟩)
          · rw [if_pos rfl, h.next, h.length]
        get := by
          intro sa r hr t
          simp only [Dict.get?_set] at hr ⊢
          rw [get_set h.fit, lastVal_append]
          split at hr
          · rename_i e
            subst e
            cases hr
            by_cases ht : y.t = t
            · subst ht; simp
            · rw [if_neg (by simp [ht]), if_neg (by simp [ht])]
              rw [h.zero _ (by rw [h.next]), lastVal_of_not_mem]
              · simp
              · rintro z hz ⟨e, -⟩
                exact hk ((h.mem _).2 ⟨z, hz, e⟩)
          · rename_i e
            have := h.lt hr
            rw [if_neg (by rw [h.next]; simp only [Prod.mk.injEq, not_and]; omega),
              if_neg (fun hc => e hc.1), h.get sa r hr]
        zero := by
          intro r hr t
          have hr : x.idx.length + 1 ≤ r := by
            have hr : (x.idx.set (y.s, y.a) x.next).length ≤ r := hr
            rw [hsetidx, List.length_append] at hr; exact hr
          simp only
          rw [get_set h.fit, h.zero r (by omega), if_neg]
          simp only [Prod.mk.injEq, not_and, h.next]
          omega
        labs := hl1
        labsOK := hl2
        le := by
          show (x.idx.set (y.s, y.a) x.next).length ≤ C
          rw [hsetidx, List.length_append]; exact hor.2
        dst := by
          intro z hz
          rcases List.mem_append.1 hz with hz | hz
          · exact h.dst z hz
          · simp only [List.mem_singleton] at hz; subst hz; exact hdst }
    · intro hno
      have hst : Sys.store x.P x.next y.t y.p = .error .indexError := by
        rw [store_nat, if_neg]; rw [h.cols, h.rows, h.next]
        exact fun hc => hno (Or.inr ⟨hc.2, hc.1⟩)
      simp [hst, bind, Except.bind]

/-- a line that is accepted has readable fields -/
theorem reads_of_ok {x x' : Sys.Loaded K} {line : List Char} (h : Sys.loadLineMDP x line = .ok x') :
    ∃ y, Reads x.P.cols line y := by
  unfold Sys.loadLineMDP at h
  split at h
  · rename_i a b c d r hs
    simp only [bind, Except.bind] at h
    split at h
    · cases h
    · rename_i s hs1
      split at h
      · cases h
      · rename_i act ha1
        split at h
        · cases h
        · rename_i t ht1
          split at h
          · cases h
          · rename_i p hp1
            split at h
            · cases h
            · rename_i hn
              have hk : ∃ (i : Nat) (Q : Dok K), Sys.store x.P i t p = .ok Q := by
                split at h
                · rename_i i _
                  split at h
                  · cases h
                  · rename_i Q hQ; exact ⟨i, Q, hQ⟩
                · split at h
                  · cases h
                  · rename_i Q hQ; exact ⟨x.next, Q, hQ⟩
              obtain ⟨i, Q, hQ⟩ := hk
              obtain ⟨k, hk⟩ := denotes_of_store hQ
              exact ⟨⟨s.toNat, act.toNat, k, p, _⟩, a, b, c, d, r, t, hs, by rw [hs1]; congr 1; simp only; omega,
                by rw [ha1]; congr 1; simp only; omega, ⟨ht1, hk⟩, hp1, rfl⟩
  · simp only [bind, Except.bind] at h; split at h <;> cases h
  · simp only [bind, Except.bind] at h
    split at h
    · cases h
    · split at h <;> cases h
  · simp only [bind, Except.bind] at h
    split at h
    · cases h
    · split at h
      · cases h
      · split at h <;> cases h
  · cases h

theorem loadLines_inv {C N : Nat} (ls : List (List Char)) (ts : List Tra) (x x' : Sys.Loaded K)
    (h : LInv C N ts x) (hl : ls.foldlM Sys.loadLineMDP x = .ok x') :
    ∃ ys, List.Forall₂ (Reads N) ls ys ∧ LInv C N (ts ++ ys) x' := by
  induction ls generalizing ts x with
  | nil => cases hl; exact ⟨[], .nil, by simpa using h⟩
  | cons l ls ih =>
    simp only [List.foldlM_cons, bind, Except.bind] at hl
    split at hl
    · cases hl
    · rename_i x1 h1
      obtain ⟨y, hy⟩ := reads_of_ok h1
      rw [h.cols] at hy
      obtain ⟨sa, sb⟩ := loadLine_step h hy
      by_cases hc : y.t < N ∧ (y.s, y.a) ∈ Dict.keys x.idx ∨ y.t < N ∧ x.idx.length < C
      · obtain ⟨x2, e, hI⟩ := sa hc
        rw [h1] at e; cases e
        obtain ⟨ys, hys, hI'⟩ := ih _ _ hI hl
        exact ⟨y :: ys, .cons hy hys, by simpa using hI'⟩
      · rw [sb hc] at h1; cases h1

theorem loadLines_ok {C N : Nat} (ls : List (List Char)) (ys ts : List Tra) (x : Sys.Loaded K)
    (h : LInv C N ts x) (hr : List.Forall₂ (Reads N) ls ys) (hd : ∀ y ∈ ys, y.t < N)
    (hC : ((ts ++ ys).map fun z => (z.s, z.a)).toFinset.card ≤ C) :
    ∃ x', ls.foldlM Sys.loadLineMDP x = .ok x' ∧ LInv C N (ts ++ ys) x' := by
  induction hr generalizing ts x with
  | nil => exact ⟨x, rfl, by simpa using h⟩
  | @cons l y ls ys hy hys ih =>
    have hc : y.t < N ∧ (y.s, y.a) ∈ Dict.keys x.idx ∨ y.t < N ∧ x.idx.length < C := by
      by_cases hk : (y.s, y.a) ∈ Dict.keys x.idx
      · exact Or.inl ⟨hd y (by simp), hk⟩
      · right
        refine ⟨hd y (by simp), lt_of_lt_of_le ?_ hC⟩
        rw [h.length]
        apply Finset.card_lt_card
        rw [Finset.ssubset_iff_of_subset]
        · refine ⟨(y.s, y.a), by simp, ?_⟩
          rw [List.mem_toFinset]
          intro hm
          obtain ⟨z, hz, e⟩ := List.mem_map.1 hm
          exact hk ((h.mem _).2 ⟨z, hz, e⟩)
        · intro sa hsa
          simp only [List.mem_toFinset, List.map_append, List.mem_append] at hsa ⊢
          exact Or.inl hsa
    obtain ⟨x1, e, hI⟩ := (loadLine_step h hy).1 hc
    obtain ⟨x', e', hI'⟩ := ih (ts ++ [y]) x1 hI (fun z hz => hd z (by simp [hz])) (by simpa using hC)
    refine ⟨x', ?_, by simpa using hI'⟩
    simp only [List.foldlM_cons, e]
    exact e'

end Verif.Proofs.IOTra
