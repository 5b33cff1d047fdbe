import Verif.Props.FromFile
/-!
# C84: the exceptions raised for malformed transition files
-/
set_option linter.unusedSectionVars false
namespace Verif.Props
open Verif.Model Verif.Model.Text Verif.Proofs Verif.Proofs.Text Verif.Proofs.IOLab Verif.Proofs.IOTra Finset
open Verif.Spec (Lines Fields IsNat IsInt IsIndex IsNumber IsSign Trim)

variable {K : Type} [Field K] [LinearOrder K] [IsStrictOrderedRing K]

/-- a word which python's `int` rejects: ASCII characters, not an integer.  (With other characters it may be one: there are digits in
other alphabets.) -/
def NotInt (w : List Char) : Prop := (∀ c ∈ w, c.toNat < 128) ∧ ∀ i, ¬ IsInt w i

/-- one of the words `inf`, `infinity`, `nan`, with a sign or not, in any case -/
def Special (w : List Char) : Prop :=
  ∃ sg v s, w = sg ++ s ∧ IsSign sg v ∧ s.map Char.toLower ∈ ["inf".toList, "infinity".toList, "nan".toList]

/-- a word which python's `float` rejects: ASCII characters, not a number in decimal notation, not a special word -/
def NotFloat (w : List Char) : Prop := (∀ c ∈ w, c.toNat < 128) ∧ (∀ q, ¬ IsNumber w q) ∧ ∀ u, Trim w u → ¬ Special u

/-- `Raises kinds ws e`: words are expected whose kinds are given (`true`: an integer, `false`: a decimal number); the
first that is missing gives `IndexError`, the first of another kind `ValueError` -/
inductive Raises : List Bool → List (List Char) → Err → Prop
  | missing {k : Bool} {ks : List Bool} : Raises (k :: ks) [] .indexError
  | int {ks : List Bool} {w : List Char} {ws : List (List Char)} : NotInt w → Raises (true :: ks) (w :: ws) .valueError
  | float {ks : List Bool} {w : List Char} {ws : List (List Char)} : NotFloat w → Raises (false :: ks) (w :: ws) .valueError
  | nextInt {ks : List Bool} {w : List Char} {ws : List (List Char)} {e : Err} {i : Int} : IsInt w i → Raises ks ws e →
      Raises (true :: ks) (w :: ws) e
  | nextFloat {ks : List Bool} {w : List Char} {ws : List (List Char)} {e : Err} {q : ℚ} : IsNumber w q → Raises ks ws e →
      Raises (false :: ks) (w :: ws) e

theorem pyInt_notInt {w : List Char} (h : NotInt w) : pyInt w = .error .valueError :=
  pyInt_error h.1 fun i hi => h.2 i (isInt_iff.2 hi)

theorem pyFloat_notFloat {w : List Char} (h : NotFloat w) : pyFloat w = .error .valueError :=
  Text.pyFloat_error h.1 (fun hs => by
    obtain ⟨sg, v, k1, k2, -⟩ := isSign_sign (strip w)
    exact h.2.2 _ (trim_iff.2 rfl) ⟨sg, v, _, k1, k2, hs⟩) fun q hq => h.2.1 q (isNumber_iff.2 hq)

theorem loadLineMDP_raises {x : Sys.Loaded K} {line : List Char} {ws : List (List Char)} (hf : Fields line ws) {e : Err}
    (h : Raises [true, true, true, false] ws e) : Sys.loadLineMDP x line = .error e := by
  rw [fields_iff] at hf
  unfold Sys.loadLineMDP
  rw [hf]
  cases h with
  | missing => rfl
  | int h1 =>
    rename_i w ws
    rcases ws with _ | ⟨b, _ | ⟨c, _ | ⟨d, r⟩⟩⟩ <;> simp [pyInt_notInt h1, bind, Except.bind]
  | nextInt h1 h =>
    rw [isInt_iff] at h1
    cases h with
    | missing => simp [h1, bind, Except.bind]
    | int h2 =>
      rename_i ws
      rcases ws with _ | ⟨c, _ | ⟨d, r⟩⟩ <;> simp [h1, pyInt_notInt h2, bind, Except.bind]
    | nextInt h2 h =>
      rw [isInt_iff] at h2
      cases h with
      | missing => simp [h1, h2, bind, Except.bind]
      | int h3 =>
        rename_i ws
        rcases ws with _ | ⟨d, r⟩ <;> simp [h1, h2, pyInt_notInt h3, bind, Except.bind]
      | nextInt h3 h =>
        rw [isInt_iff] at h3
        cases h with
        | missing => simp [h1, h2, h3, bind, Except.bind]
        | float h4 => simp [h1, h2, h3, pyFloat_notFloat h4, bind, Except.bind]
        | nextFloat h4 h => cases h

/-- **C84 (MDP, first line).** The empty file, and a first line with a missing, malformed or negative number of states or choices. -/
theorem C84_mdp_header : (Sys.loadMDP [] : Except Err (Sys.Loaded K)) = .error .indexError ∧
    (∀ text hd ls ws e, Lines text (hd :: ls) → Fields hd ws → Raises [true, true] ws e →
      (Sys.loadMDP text : Except Err (Sys.Loaded K)) = .error e) ∧
    ∀ text hd ls f1 f2 r i j, Lines text (hd :: ls) → Fields hd (f1 :: f2 :: r) → IsInt f1 i → IsInt f2 j → i < 0 ∨ j < 0 →
      (Sys.loadMDP text : Except Err (Sys.Loaded K)) = .error .valueError := by
  refine ⟨rfl, fun text hd ls ws e h1 h2 h => ?_, fun text hd ls f1 f2 r i j h1 h2 h3 h4 h => ?_⟩
  swap
  · rw [lines_iff] at h1
    rw [fields_iff] at h2
    rw [isInt_iff] at h3 h4
    unfold Sys.loadMDP Sys.size
    simp only [h1, h2, h3, h4, bind, Except.bind]
    by_cases hj : 0 ≤ j
    · rw [if_pos hj, if_neg (by omega)]
    · rw [if_neg hj]
  rw [lines_iff] at h1
  rw [fields_iff] at h2
  unfold Sys.loadMDP
  simp only [h1, h2]
  cases h with
  | missing => rfl
  | int h3 =>
    rename_i w ws
    rcases ws with _ | ⟨b, r⟩ <;> simp [pyInt_notInt h3, bind, Except.bind]
  | nextInt h3 h =>
    rw [isInt_iff] at h3
    cases h with
    | missing => simp [h3, bind, Except.bind]
    | int h4 => simp [h3, pyInt_notInt h4, bind, Except.bind]
    | nextInt h4 h => cases h

variable [FloorRing K]

/-- a line starting with four numbers: source, action, destination, probability -/
def Line4 (line : List Char) (s a : Nat) (t : Int) : Prop :=
  ∃ f1 f2 f3 f4 r p, Fields line (f1 :: f2 :: f3 :: f4 :: r) ∧ IsInt f1 s ∧ IsInt f2 a ∧ IsInt f3 t ∧ IsNumber f4 p

/-- **C84 (MDP, other lines).** After lines that are accepted, a line with a missing or malformed word raises the exception of its
first such word; a destination that is no state, and a pair for which no choice is left, raise `IndexError`.  (Negative
destinations down to `-n` are states; negative sources and actions are not part of the model.) -/
theorem C84_mdp_line {text hd : List Char} {l1 : List (List Char)} {bad : List Char} {l2 : List (List Char)} {n c : Nat} {ts : List Tra}
    (h1 : Lines text (hd :: (l1 ++ bad :: l2))) (h2 : IsHead hd n c) (h3 : List.Forall₂ (IsTra n) l1 ts) (h4 : ∀ y ∈ ts, y.t < n)
    (h5 : (ts.map fun y => (y.s, y.a)).toFinset.card ≤ c) :
    (∀ ws e, Fields bad ws → Raises [true, true, true, false] ws e → (Sys.loadMDP text : Except Err (Sys.Loaded K)) = .error e) ∧
    (∀ s a t, Line4 bad s a t → ¬ (-n ≤ t ∧ t < n) → (Sys.loadMDP text : Except Err (Sys.Loaded K)) = .error .indexError) ∧
    (∀ s a t, Line4 bad s a t → (∀ z ∈ ts, (z.s, z.a) ≠ (s, a)) → (ts.map fun y => (y.s, y.a)).toFinset.card = c →
      (Sys.loadMDP text : Except Err (Sys.Loaded K)) = .error .indexError) := by
  obtain ⟨x, h7, hI⟩ := loadLines_ok (K := K) l1 ts [] _ (linv_nil c n) (h3.imp fun _ _ => isTra_iff.1) h4 (by simpa using h5)
  rw [List.nil_append] at hI
  have key : ∀ e, Sys.loadLineMDP x bad = .error e → (Sys.loadMDP text : Except Err (Sys.Loaded K)) = .error e := by
    intro e he
    have : (l1 ++ bad :: l2).foldlM Sys.loadLineMDP (⟨⟨c, n, []⟩, [], [], 0⟩ : Sys.Loaded K) = .error e := by
      rw [List.foldlM_append, h7]
      simp only [bind, Except.bind, List.foldlM_cons, he]
    cases hl : (Sys.loadMDP text : Except Err (Sys.Loaded K)) with
    | ok x' =>
      obtain ⟨hd', ls', n', c', k1, k2, k3⟩ := loadMDP_iff_head.1 hl
      have e1 := (lines_iff.1 h1).symm.trans (lines_iff.1 k1)
      cases e1
      obtain ⟨f1, f2, r, a1, a2, a3⟩ := h2
      obtain ⟨g1, g2, r', b1, b2, b3⟩ := k2
      rw [fields_iff] at a1 b1
      rw [a1] at b1
      cases b1
      rw [isInt_iff] at a2 a3 b2 b3
      rw [a2] at b2; rw [a3] at b3
      obtain rfl := Int.natCast_inj.1 (Except.ok.inj b2)
      obtain rfl := Int.natCast_inj.1 (Except.ok.inj b3)
      rw [this] at k3
      cases k3
    | error e' =>
      obtain ⟨f1, f2, r, a1, a2, a3⟩ := h2
      rw [fields_iff] at a1
      rw [isInt_iff] at a2 a3
      rw [lines_iff] at h1
      unfold Sys.loadMDP at hl
      rw [h1] at hl
      simp only [a1, a2, a3, bind, Except.bind, size_nat] at hl
      have hz : ((Dok.zero 1 1 : Dok K).resize c n) = ⟨c, n, []⟩ := by simp [Dok.zero, Dok.resize]
      rw [hz] at hl
      exact hl.symm.trans this
  have out : ∀ s a t i, Line4 bad s a t → (x.idx.get? (s, a)).getD x.next = i → ¬ (i < x.P.rows ∧ -x.P.cols ≤ t ∧ t < x.P.cols) →
      Sys.loadLineMDP x bad = .error .indexError := by
    rintro s a t i ⟨f1, f2, f3, f4, r, p, a1, a2, a3, a4, a5⟩ hi hb
    rw [fields_iff] at a1
    rw [isInt_iff] at a2 a3 a4
    rw [isNumber_iff] at a5
    have hneg : ¬ ((s : Int) < 0 ∨ (a : Int) < 0) := by omega
    have hst : ∀ i : Nat, ¬ (i < x.P.rows ∧ -x.P.cols ≤ t ∧ t < x.P.cols) → Sys.store x.P i t p = .error .indexError := by
      intro i hb
      unfold Sys.store
      rw [if_neg]
      rintro ⟨-, k1, k2⟩
      exact hb ⟨by omega, k2⟩
    unfold Sys.loadLineMDP
    simp only [a1, a2, a3, a4, a5, bind, Except.bind, if_neg hneg, Int.toNat_natCast]
    cases hg : x.idx.get? (s, a) with
    | some j => rw [hg] at hi; simp only [Option.getD_some] at hi; subst hi; simp [hst _ hb]
    | none => rw [hg] at hi; simp only [Option.getD_none] at hi; subst hi; simp [hst _ hb]
  refine ⟨fun ws e hf hr => key e (loadLineMDP_raises hf hr), fun s a t hy ht => key _ (out s a t _ hy rfl ?_), fun s a t hy hz hc =>
    key _ (out s a t _ hy rfl ?_)⟩
  · rw [hI.cols]; exact fun h => ht h.2
  · have : x.idx.get? (s, a) = none := by
      rw [Dict.get?_eq_none, hI.mem]
      rintro ⟨z, hz1, hz2⟩
      exact hz z hz1 hz2
    rw [this, Option.getD_none, hI.next, hI.length, hc, hI.rows]
    omega

/-- **C84 (DTMC).** After lines that are accepted: a line of two words whose first is no number or negative raises `ValueError`; a line with
another number of words raises the exception of its first missing or malformed word (`IndexError` for a blank line); a source or a
destination that is no state raises `IndexError`. -/
theorem C84_dtmc {text : List Char} {l1 : List (List Char)} {bad : List Char} {l2 : List (List Char)} {n : Nat} {xs : List DLine}
    (h1 : Lines text (l1 ++ bad :: l2)) (h2 : DLines 1 l1 xs)
    (h3 : ∀ m1 s d p m2 m, xs = m1 ++ .tr s d p :: m2 → HasSize m1 m → s < m ∧ d < m) (h4 : HasSize xs n) :
    (∀ w1 w2, Fields bad [w1, w2] → NotInt w1 ∨ (∃ i < 0, IsInt w1 i) → (Sys.loadDTMC text : Except Err (Dok K)) = .error .valueError) ∧
    (∀ ws e, Fields bad ws → ws.length ≠ 2 → Raises [true, true, false] ws e → (Sys.loadDTMC text : Except Err (Dok K)) = .error e) ∧
    (∀ f1 f2 f3 r i j p, Fields bad (f1 :: f2 :: f3 :: r) → IsInt f1 i → IsInt f2 j → IsNumber f3 p →
      ¬ (-n ≤ i ∧ i < n ∧ -n ≤ j ∧ j < n) → (Sys.loadDTMC text : Except Err (Dok K)) = .error .indexError) := by
  have hrange : ∀ l1 s d p l2, xs = l1 ++ .tr s d p :: l2 → s < lastSize ([] ++ l1) ∧ d < lastSize ([] ++ l1) := by
    intro l1 s d p l2 e
    exact h3 l1 s d p l2 _ e (hasSize_iff.2 rfl)
  obtain ⟨P, hP⟩ := dlines_ok (K := K) l1 xs [] _ dinv_nil h2 hrange
  obtain ⟨ys, h6, hI⟩ := dlines_of_ok _ [] _ P dinv_nil hP
  rw [List.nil_append] at hI
  have : xs = ys := dlines_unique h2 h6
  subst this
  have key : ∀ e, Sys.loadLineDTMC P bad = .error e → (Sys.loadDTMC text : Except Err (Dok K)) = .error e := by
    intro e he
    rw [lines_iff] at h1
    unfold Sys.loadDTMC
    rw [h1, List.foldlM_append, hP]
    simp only [bind, Except.bind, List.foldlM_cons, he]
  refine ⟨fun w1 w2 hf hn => key _ ?_, fun ws e hf hl hr => key _ ?_, fun f1 f2 f3 r i j p a1 a2 a3 a4 hc => key _ ?_⟩
  · rw [fields_iff] at hf
    rcases hn with hn | ⟨i, hi, hn⟩
    · simp [Sys.loadLineDTMC, hf, pyInt_notInt hn, bind, Except.bind]
    · have : Sys.size i = .error .valueError := by unfold Sys.size; rw [if_neg (by omega)]
      simp [Sys.loadLineDTMC, hf, isInt_iff.1 hn, this, bind, Except.bind]
  · rw [fields_iff] at hf
    unfold Sys.loadLineDTMC
    rw [hf]
    cases hr with
    | missing => rfl
    | int k1 =>
      rename_i w ws
      rcases ws with _ | ⟨b, _ | ⟨c, r⟩⟩
      · simp [pyInt_notInt k1, bind, Except.bind]
      · exact absurd rfl hl
      · simp [pyInt_notInt k1, bind, Except.bind]
    | nextInt k1 h =>
      rw [isInt_iff] at k1
      cases h with
      | missing => simp [k1, bind, Except.bind]
      | int k2 =>
        rename_i ws
        rcases ws with _ | ⟨c, r⟩
        · exact absurd rfl hl
        · simp [k1, pyInt_notInt k2, bind, Except.bind]
      | nextInt k2 h =>
        rw [isInt_iff] at k2
        cases h with
        | missing => exact absurd rfl hl
        | float k3 => simp [k1, k2, pyFloat_notFloat k3, bind, Except.bind]
        | nextFloat k3 h => cases h
  · rw [fields_iff] at a1
    rw [isInt_iff] at a2 a3
    rw [isNumber_iff] at a4
    rw [hasSize_iff] at h4
    subst h4
    simp only [Sys.loadLineDTMC, a1, a2, a3, a4, bind, Except.bind, Sys.store]
    rw [if_neg]
    rw [hI.rows, hI.cols]; exact hc

/- a negative destination is a state; the one before the first is not -/
example : (match Sys.loadMDP (K := ℚ) "2 2 2\n0 0 -1 1\n1 0 -2 1\n".toList with
    | .ok x => x.P.get 0 1 == 1 && x.P.get 1 0 == 1 | _ => false) = true := by decide +kernel
example : (match Sys.loadMDP (K := ℚ) "2 2 2\n0 0 -3 1\n".toList with | .error e => e == .indexError | _ => false) = true := by
  decide +kernel
example : (match Sys.loadDTMC (K := ℚ) "-2 2\n".toList with | .error e => e == .valueError | _ => false) = true := by
  decide +kernel
/- a line with the word `x` instead of a destination, one with too few words, a third pair in a file with two choices -/
example : (match Sys.loadMDP (K := ℚ) "2 2 2\n0 0 1 1\n1 0 x 1\n".toList with | .error e => e == .valueError | _ => false) = true := by
  decide +kernel
example : (match Sys.loadMDP (K := ℚ) "2 2 2\n0 0 1 1\n1 0 1\n".toList with | .error e => e == .indexError | _ => false) = true := by
  decide +kernel
example : (match Sys.loadMDP (K := ℚ) "2 2 2\n0 0 1 1\n1 0 1 1\n1 1 0 1\n".toList with | .error e => e == .indexError | _ => false) = true := by
  decide +kernel
example : (match Sys.loadDTMC (K := ℚ) "2 2\n0 1 1\n\n1 1 1".toList with | .error e => e == .indexError | _ => false) = true := by
  decide +kernel
theorem notInt_x : NotInt "x".toList := ⟨by decide, fun i h => by
  have e : pyInt "x".toList = .error .valueError := rfl
  rw [isInt_iff, e] at h
  cases h⟩

/- the hypotheses: the line `1 0 x 1` after an accepted one -/
example : (Sys.loadMDP "2 2 2\n0 0 1 1\n1 0 x 1\n".toList : Except Err (Sys.Loaded ℚ)) = .error .valueError := by
  refine (C84_mdp_line (hd := "2 2 2\n".toList) (l1 := ["0 0 1 1\n".toList]) (bad := "1 0 x 1\n".toList) (l2 := []) (n := 2) (c := 2)
    (ts := [⟨0, 0, 1, 1, none⟩]) (lines_iff.2 (by decide +kernel)) ?_ ?_ (by decide) (by decide)).1
    ["1".toList, "0".toList, "x".toList, "1".toList] .valueError (fields_iff.2 (by decide +kernel)) ?_
  · exact ⟨"2".toList, "2".toList, ["2".toList], fields_iff.2 (by decide +kernel), isInt_iff.2 (by decide +kernel), isInt_iff.2 (by decide +kernel)⟩
  · refine .cons ⟨"0".toList, "0".toList, "1".toList, "1".toList, [], fields_iff.2 (by decide +kernel), isInt_iff.2 (by decide +kernel),
      isInt_iff.2 (by decide +kernel), isIndex_iff.2 ⟨1, by decide +kernel, by decide⟩, isNumber_iff.2 (by decide +kernel), Or.inr ⟨by decide, rfl⟩⟩ .nil
  · exact .nextInt (i := 1) (isInt_iff.2 (by decide +kernel)) (.nextInt (i := 0) (isInt_iff.2 (by decide +kernel)) (.int notInt_x))

end Verif.Props
