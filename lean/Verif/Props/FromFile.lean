import Verif.Props.LoadLab
import Verif.Props.LoadChain
import Mathlib.Data.Rat.BigOperators
/-!
# C83: the systems read from two files
-/
set_option linter.unusedSectionVars false
namespace Verif.Props
open Verif.Model Verif.Model.Text Verif.Proofs Verif.Proofs.Text Verif.Proofs.IOLab Verif.Proofs.IOTra Finset
open Verif.Spec (Lines Fields IsNat IsNumber)

variable {K : Type} [Field K] [LinearOrder K] [IsStrictOrderedRing K] [FloorRing K]

/-- a label file with the numbered labels `xs` and the state lines `ys` -/
def IsLabFile (text : List Char) (xs : List (Nat × String)) (ys : List (Nat × List Nat)) : Prop :=
  ∃ h ls, Lines text (h :: ls) ∧ IsHeader h xs ∧ List.Forall₂ IsStateLine ls ys ∧ ∀ y ∈ ys, ∀ i ∈ y.2, ∃ l, (i, l) ∈ xs

/-- `v` is the probability of the last line for a transition, 0 without such a line -/
def LastLine (ts : List Tra) (s a t : Nat) (v : ℚ) : Prop :=
  (∃ l1 y l2, ts = l1 ++ y :: l2 ∧ y.s = s ∧ y.a = a ∧ y.t = t ∧ y.p = v ∧ ∀ z ∈ l2, ¬ (z.s = s ∧ z.a = a ∧ z.t = t)) ∨
  v = 0 ∧ ∀ z ∈ ts, ¬ (z.s = s ∧ z.a = a ∧ z.t = t)

/-- the rows of a system: the given probabilities lie between 0 and 1 and sum to one, up to `5e-10` -/
def GoodRow (n : Nat) (e : Nat → ℚ) : Prop :=
  |∑ t ∈ range n, e t - 1| ≤ 1 / (2 * 10 ^ 9) ∧ ∀ t < n, 0 ≤ e t ∧ e t ≤ 1

theorem lastLine_iff {ts : List Tra} {s a t : Nat} {v : ℚ} : LastLine ts s a t v ↔ v = lastVal ts (s, a) t := by
  have conv : ∀ z : Tra, (z.s = s ∧ z.a = a ∧ z.t = t) ↔ ((z.s, z.a) = (s, a) ∧ z.t = t) := by
    intro z; simp [and_assoc]
  constructor
  · rintro (⟨l1, y, l2, rfl, rfl, rfl, rfl, rfl, h⟩ | ⟨rfl, h⟩)
    · rw [lastVal_last]
      intro z hz hc
      exact h z hz ((conv z).2 hc)
    · rw [lastVal_of_not_mem]
      intro z hz hc
      exact h z hz ((conv z).2 hc)
  · rintro rfl
    induction ts using List.reverseRecOn with
    | nil => exact .inr ⟨rfl, by simp⟩
    | append_singleton ts x ih =>
      rw [lastVal_append]
      split
      · rename_i hx
        obtain ⟨h1, h2, h3⟩ := (conv x).2 hx
        exact .inl ⟨ts, x, [], rfl, h1, h2, h3, rfl, by simp⟩
      · rename_i hx
        rcases ih with ⟨l1, y, l2, rfl, h1, h2, h3, h4, h⟩ | ⟨h1, h2⟩
        · refine .inl ⟨l1, y, l2 ++ [x], by simp, h1, h2, h3, h4, fun z hz => ?_⟩
          rcases List.mem_append.1 hz with hz | hz
          · exact h z hz
          · rw [List.mem_singleton.1 hz, conv]; exact hx
        · refine .inr ⟨h1, fun z hz => ?_⟩
          rcases List.mem_append.1 hz with hz | hz
          · exact h2 z hz
          · rw [List.mem_singleton.1 hz, conv]; exact hx

theorem goodRow_cast {n : Nat} {e : Nat → ℚ} : GoodRow n e ↔
    |∑ t ∈ range n, (e t : K) - 1| ≤ 1 / (2 * 10 ^ 9) ∧ ∀ t < n, 0 ≤ (e t : K) ∧ (e t : K) ≤ 1 := by
  unfold GoodRow
  have h1 : (|∑ t ∈ range n, (e t : K) - 1| ≤ 1 / (2 * 10 ^ 9)) ↔ (|∑ t ∈ range n, e t - 1| ≤ 1 / (2 * 10 ^ 9)) := by
    have e1 : |∑ t ∈ range n, (e t : K) - 1| = ((|∑ t ∈ range n, e t - 1| : ℚ) : K) := by push_cast; rfl
    have e2 : (1 / (2 * 10 ^ 9) : K) = ((1 / (2 * 10 ^ 9) : ℚ) : K) := by push_cast; rfl
    rw [e1, e2, Rat.cast_le]
  rw [h1]
  have h2 : ∀ t, (0 ≤ (e t : K) ∧ (e t : K) ≤ 1) ↔ (0 ≤ e t ∧ e t ≤ 1) := by
    intro t
    rw [← Rat.cast_zero, ← Rat.cast_one, Rat.cast_le, Rat.cast_le]
  simp only [h2]

theorem labFile_iff {text : List Char} : (∃ r, parseLabelFile text = .ok r) ↔ ∃ xs ys, IsLabFile text xs ys := by
  rw [C82_accepts]
  constructor
  · rintro ⟨h, ls, xs, ys, h1⟩; exact ⟨xs, ys, h, ls, h1⟩
  · rintro ⟨xs, ys, h, ls, h1⟩; exact ⟨h, ls, xs, ys, h1⟩

/-- an accepted table in terms of the lines -/
theorem table_iff {n c : Nat} {ts : List Tra} {x : Sys.Loaded K} (hI : LInv c n ts x) :
    (GoodTable x.P none ∧ GoodIndex x.P x.idx) ↔ (∀ y ∈ ts, y.s < n) ∧ (ts.map fun y => (y.s, y.a)).toFinset.card = c ∧
      ∀ y ∈ ts, GoodRow n (lastVal ts (y.s, y.a)) := by
  have hlen : x.idx.length = (ts.map fun y => (y.s, y.a)).toFinset.card := hI.length
  have hmem : ∀ r, r < x.idx.length → ∃ sa, x.idx.get? sa = some r := by
    intro r hr
    have : r ∈ x.idx.map Prod.snd := by rw [hI.vals]; exact List.mem_range.2 hr
    obtain ⟨e, he, rfl⟩ := List.mem_map.1 this
    exact ⟨e.1, Dict.get?_of_mem hI.keys he⟩
  constructor
  · rintro ⟨h1, h2⟩
    have hc : x.idx.length = c := by
      refine le_antisymm hI.le ?_
      by_contra hlt
      obtain ⟨s, a, h3, -⟩ := h2.cover x.idx.length (by rw [hI.rows]; omega)
      have := hI.lt (Dict.get?_of_mem hI.keys h3)
      omega
    refine ⟨fun y hy => ?_, by rw [← hlen, hc], fun y hy => ?_⟩
    · have hk : (y.s, y.a) ∈ Dict.keys x.idx := (hI.mem _).2 ⟨y, hy, rfl⟩
      obtain ⟨r, hr⟩ := Option.isSome_iff_exists.1 (Dict.get?_isSome.2 hk)
      have hlt := hI.lt hr
      obtain ⟨s, a, h3, h4⟩ := h2.cover r (by rw [hI.rows, ← hc]; exact hlt)
      have := hI.inj hr (Dict.get?_of_mem hI.keys h3)
      cases this
      rw [hI.cols] at h4
      exact h4
    · have hk : (y.s, y.a) ∈ Dict.keys x.idx := (hI.mem _).2 ⟨y, hy, rfl⟩
      obtain ⟨r, hr⟩ := Option.isSome_iff_exists.1 (Dict.get?_isSome.2 hk)
      have hlt : r < x.P.rows := by rw [hI.rows, ← hc]; exact hI.lt hr
      rw [goodRow_cast (K := K)]
      have h3 := h1.sum r hlt
      have h4 := h1.entry r hlt
      rw [hI.cols] at h3 h4
      simp only [hI.get _ r hr] at h3 h4
      exact ⟨h3, h4⟩
  · rintro ⟨h1, h2, h3⟩
    rw [← hlen] at h2
    have row : ∀ r < x.P.rows, ∃ y ∈ ts, x.idx.get? (y.s, y.a) = some r := by
      intro r hr
      rw [hI.rows, ← h2] at hr
      obtain ⟨sa, hsa⟩ := hmem r hr
      obtain ⟨y, hy, rfl⟩ := (hI.mem sa).1 (Dict.get?_isSome.1 (by rw [hsa]; rfl))
      exact ⟨y, hy, hsa⟩
    refine ⟨⟨fun r hr => ?_, fun r hr => ?_, by simp⟩, fun e he e' he' heq => ?_, fun r hr => ?_⟩
    · obtain ⟨y, hy, hg⟩ := row r hr
      have := ((goodRow_cast (K := K)).1 (h3 y hy)).1
      rw [hI.cols]
      simp only [hI.get _ r hg]
      exact this
    · obtain ⟨y, hy, hg⟩ := row r hr
      have := ((goodRow_cast (K := K)).1 (h3 y hy)).2
      rw [hI.cols]
      simp only [hI.get _ r hg]
      exact this
    · have a1 := Dict.get?_of_mem hI.keys he
      have a2 := Dict.get?_of_mem hI.keys he'
      rw [← heq] at a2
      exact Prod.ext (hI.inj a1 a2) heq
    · obtain ⟨y, hy, hg⟩ := row r hr
      exact ⟨y.s, y.a, Dict.mem_of_get? hg, by rw [hI.cols]; exact h1 y hy⟩

/-- **C83 (which pairs of files give an MDP).** The label file is well-formed, the transition file is well-formed, all its sources
and destinations are below the number of states of its first line, the number of different pairs (source, action) is the
number of choices of the first line, and the probabilities of every pair (those of the last line for each destination) lie
between 0 and 1 and sum to one up to `5e-10`. -/
theorem C83_mdp_accepts {lab tra : List Char} : (∃ M : Sys K, Sys.fromFileMDP lab tra = .ok M) ↔
    (∃ xs ys, IsLabFile lab xs ys) ∧
    ∃ hd ls n c ts, Lines tra (hd :: ls) ∧ IsHead hd n c ∧ List.Forall₂ (IsTra n) ls ts ∧
      (∀ y ∈ ts, y.s < n ∧ y.t < n) ∧ (ts.map fun y => (y.s, y.a)).toFinset.card = c ∧
      ∀ y ∈ ts, ∀ e : Nat → ℚ, (∀ t, LastLine ts y.s y.a t (e t)) → GoodRow n e := by
  have conv : ∀ (n : Nat) (ts : List Tra), (∀ y ∈ ts, ∀ e : Nat → ℚ, (∀ t, LastLine ts y.s y.a t (e t)) → GoodRow n e) ↔
      ∀ y ∈ ts, GoodRow n (lastVal ts (y.s, y.a)) := by
    intro n ts
    constructor
    · intro h y hy; exact h y hy _ fun t => lastLine_iff.2 rfl
    · intro h y hy e he
      have : e = lastVal ts (y.s, y.a) := funext fun t => lastLine_iff.1 (he t)
      rw [this]; exact h y hy
  constructor
  · rintro ⟨M, h⟩
    simp only [Sys.fromFileMDP, bind, Except.bind] at h
    split at h
    · cases h
    rename_i r hr
    split at h
    · cases h
    rename_i x hx
    obtain ⟨hd, ls, n, c, h1, h2, h3⟩ := loadMDP_iff_head.1 hx
    obtain ⟨ts, h4, hI⟩ := loadLines_inv ls [] _ _ (linv_nil c n) h3
    rw [List.nil_append] at hI
    obtain ⟨k1, k2, k3⟩ := (table_iff hI).1 ((C09_mdp hI.fit.inShape hI.keys _ _ _).1 ⟨M, h⟩)
    exact ⟨labFile_iff.1 ⟨r, hr⟩, hd, ls, n, c, ts, h1, h2, h4.imp fun _ _ => isTra_iff.2,
      fun y hy => ⟨k1 y hy, hI.dst y hy⟩, k2, (conv n ts).2 k3⟩
  · rintro ⟨hl, hd, ls, n, c, ts, h1, h2, h3, h4, h5, h6⟩
    obtain ⟨r, hr⟩ := labFile_iff.2 hl
    obtain ⟨x, h7, hI⟩ := loadLines_ok (K := K) ls ts [] _ (linv_nil c n) (h3.imp fun _ _ => isTra_iff.1) (fun y hy => (h4 y hy).2)
      (by simpa using h5.le)
    rw [List.nil_append] at hI
    have hx := loadMDP_iff_head.2 ⟨hd, ls, n, c, h1, h2, h7⟩
    obtain ⟨M, hM⟩ := (C09_mdp hI.fit.inShape hI.keys (IDict.mk' x.labA true) (IDict.mk' r.1.1 true) none).2
      ((table_iff hI).2 ⟨fun y hy => (h4 y hy).1, h5, (conv n ts).1 h6⟩)
    exact ⟨M, by simp only [Sys.fromFileMDP, bind, Except.bind, hr, hx]; exact hM⟩

theorem pairs_iff_has {α β : Type} [DecidableEq α] [DecidableEq β] {d : Dict α (List β)} (h : IDict.SetsOK d) (k : α) (v : β) :
    (k, v) ∈ pairs d ↔ IDict.Has d k v := by
  unfold pairs IDict.Has
  simp only [Set.mem_ofPred_eq]
  constructor
  · rintro ⟨s, h1, h2⟩
    rw [Dict.get?_of_mem h.1 h1]; exact h2
  · intro hh
    cases hg : Dict.get? d k with
    | none => rw [hg] at hh; simp at hh
    | some s => rw [hg] at hh; exact ⟨s, Dict.mem_of_get? hg, hh⟩

/-- the labels of a system read from a file -/
theorem labels_of {lab : List Char} {r : LabState} {ids : Dict Nat String} (hr : parseLabelFile lab = .ok (r, ids)) :
    ∃ xs ys, IsLabFile lab xs ys ∧ (∀ l, l ∈ r.1.map Prod.fst ↔ ∃ i, (i, l) ∈ xs) ∧
      ∀ l s, (l, s) ∈ pairs r.1 ↔ ∃ y ∈ ys, y.1 = s ∧ ∃ i ∈ y.2, Named xs i l := by
  obtain ⟨h, ls, xs, ys, h1, h2, h3, h4, -, h6, h7, -⟩ := C82_load hr
  refine ⟨xs, ys, ⟨h, ls, h1, h2, h3, h4⟩, fun l => ?_, fun l s => ?_⟩
  · rw [← h6, ← Option.isSome_iff_exists, Dict.get?_isSome]; rfl
  · rw [pairs_iff_has (parse_sets hr)]
    unfold IDict.Has
    cases hg : r.1.get? l with
    | none =>
      simp only [Option.getD_none, List.not_mem_nil, false_iff]
      rintro ⟨y, -, -, i, -, l1, l2, e, -⟩
      obtain ⟨S, hS⟩ := (h6 l).2 ⟨i, by rw [e]; simp⟩
      rw [hg] at hS; cases hS
    | some S => rw [← h7 l S hg]; rfl

/-- **C83 (MDP).** The system has the states and choices of the transition file: a pair is enabled exactly if a line has it, its
probabilities are those of the last lines, its labels those of its lines; the state labels are those of the label file. -/
theorem C83_mdp {lab tra : List Char} {M : Sys K} (h : Sys.fromFileMDP lab tra = .ok M) :
    ∃ xs ys hd ls n c ts, IsLabFile lab xs ys ∧ Lines tra (hd :: ls) ∧ IsHead hd n c ∧ List.Forall₂ (IsTra n) ls ts ∧
      M.N = n ∧ M.C = c ∧ M.rew = none ∧ M.dtmc = false ∧
      (∀ s a, (s, a) ∈ M.idx.map Prod.fst ↔ ∃ y ∈ ts, y.s = s ∧ y.a = a) ∧
      (∀ s a t v, LastLine ts s a t v → prob M s a t = (v : K)) ∧
      (∀ l s a, (l, (s, a)) ∈ pairs M.labA.d ↔ ∃ y ∈ ts, y.s = s ∧ y.a = a ∧ y.lab = some l) ∧
      (∀ l, l ∈ M.labS.d.map Prod.fst ↔ ∃ i, (i, l) ∈ xs) ∧
      (∀ l s, (l, s) ∈ pairs M.labS.d ↔ ∃ y ∈ ys, y.1 = s ∧ ∃ i ∈ y.2, Named xs i l) := by
  simp only [Sys.fromFileMDP, bind, Except.bind] at h
  split at h
  · cases h
  rename_i r hr
  split at h
  · cases h
  rename_i x hx
  obtain ⟨hd, ls, n, c, h1, h2, h3⟩ := loadMDP_iff_head.1 hx
  obtain ⟨ts, h4, hI⟩ := loadLines_inv ls [] _ _ (linv_nil c n) h3
  rw [List.nil_append] at hI
  obtain ⟨xs, ys, l1, l2, l3⟩ := labels_of (r := r.1) (ids := r.2) hr
  obtain ⟨e1, e2, e3, e4, e5, e6⟩ := C09_mdp_content hI.keys h
  refine ⟨xs, ys, hd, ls, n, c, ts, l1, h1, h2, h4.imp fun _ _ => isTra_iff.2, ?_, ?_, e5, e6, fun s a => ?_, fun s a t v hv => ?_,
    fun l s a => ?_, fun l => ?_, fun l s => ?_⟩
  · unfold Sys.N; rw [e1, hI.cols]
  · unfold Sys.C; rw [e1, hI.rows]
  · rw [e2, show ((s, a) ∈ x.idx.map Prod.fst) ↔ (s, a) ∈ Dict.keys x.idx from Iff.rfl, hI.mem]
    simp only [Prod.mk.injEq]
  · have hv' := lastLine_iff.1 hv
    unfold prob
    rw [e1, e2]
    cases hg : x.idx.get? (s, a) with
    | some r => rw [hv']; exact hI.get _ r hg t
    | none =>
      have hn : v = 0 := by
        rw [hv', lastVal_of_not_mem]
        intro y hy hc
        have : (s, a) ∈ Dict.keys x.idx := (hI.mem _).2 ⟨y, hy, hc.1⟩
        rw [Dict.get?_eq_none] at hg
        exact hg this
      rw [hn]; simp
  · rw [e3]
    have : (l, (s, a)) ∈ pairs (IDict.mk' x.labA true).d ↔ IDict.Has x.labA l (s, a) := pairs_iff_has hI.labsOK l (s, a)
    rw [this, hI.labs]
    simp only [Prod.mk.injEq, and_assoc]
  · rw [e4]; exact l2 l
  · rw [e4]; exact l3 l s

/-- the number given by the last size line, 1 without one -/
def HasSize (xs : List DLine) (n : Nat) : Prop :=
  (∃ l1 l2, xs = l1 ++ .size n :: l2 ∧ ∀ m, .size m ∉ l2) ∨ n = 1 ∧ ∀ m, .size m ∉ xs

/-- the last line for a transition that no later size line cuts off, 0 without one -/
def Entry (xs : List DLine) (i j : Nat) (v : ℚ) : Prop :=
  (∃ l1 l2, xs = l1 ++ .tr i j v :: l2 ∧ (∀ q, .tr i j q ∉ l2) ∧ ∀ n, .size n ∈ l2 → i < n ∧ j < n) ∨
  v = 0 ∧ ∀ l1 p l2, xs = l1 ++ .tr i j p :: l2 → (∃ q, .tr i j q ∈ l2) ∨ ∃ n, .size n ∈ l2 ∧ ¬ (i < n ∧ j < n)

theorem hasSize_iff {xs : List DLine} {n : Nat} : HasSize xs n ↔ n = lastSize xs := by
  have fwd : ∀ n, HasSize xs n → n = lastSize xs := by
    rintro n (⟨l1, l2, rfl, h⟩ | ⟨rfl, h⟩)
    · rw [lastSize_last h]
    · induction xs using List.reverseRecOn with
      | nil => rfl
      | append_singleton zs y ih =>
        have := ih fun m hm => h m (by simp [hm])
        cases y with
        | size m => exact absurd (h m) (by simp)
        | tr s d p => unfold lastSize at this ⊢; rw [List.foldl_append, ← this]; rfl
  have ex : ∃ n, HasSize xs n := by
    clear fwd
    induction xs using List.reverseRecOn with
    | nil => exact ⟨1, .inr ⟨rfl, by simp⟩⟩
    | append_singleton zs y ih =>
      cases y with
      | size m => exact ⟨m, .inl ⟨zs, [], rfl, by simp⟩⟩
      | tr s d p =>
        obtain ⟨n, ⟨l1, l2, rfl, h⟩ | ⟨rfl, h⟩⟩ := ih
        · exact ⟨n, .inl ⟨l1, l2 ++ [.tr s d p], by simp, by simpa using h⟩⟩
        · exact ⟨1, .inr ⟨rfl, by simpa using h⟩⟩
  refine ⟨fwd n, ?_⟩
  rintro rfl
  obtain ⟨m, hm⟩ := ex
  rw [← fwd m hm]; exact hm

theorem entry_cases (xs : List DLine) (i j : Nat) : entryAfter xs i j = 0 ∨
    ∃ l1 l2, xs = l1 ++ .tr i j (entryAfter xs i j) :: l2 ∧ (∀ q, .tr i j q ∉ l2) ∧ ∀ n, .size n ∈ l2 → i < n ∧ j < n := by
  induction xs using List.reverseRecOn with
  | nil => exact .inl rfl
  | append_singleton xs x ih =>
    cases x with
    | size n =>
      by_cases hc : i < n ∧ j < n
      · have e : entryAfter (xs ++ [.size n]) i j = entryAfter xs i j := by rw [entryAfter_snoc]; exact if_pos hc
        rw [e]
        rcases ih with ih | ⟨l1, l2, e1, h1, h2⟩
        · exact .inl ih
        · refine .inr ⟨l1, l2 ++ [.size n], by rw [← List.cons_append, ← List.append_assoc, ← e1], by simpa using h1, fun m hm => ?_⟩
          rcases List.mem_append.1 hm with hm | hm
          · exact h2 m hm
          · simp only [List.mem_singleton, DLine.size.injEq] at hm; rw [hm]; exact hc
      · exact .inl (by rw [entryAfter_snoc]; exact if_neg hc)
    | tr s d p =>
      by_cases hc : s = i ∧ d = j
      · have e : entryAfter (xs ++ [.tr s d p]) i j = p := by rw [entryAfter_snoc]; exact if_pos hc
        rw [e]
        obtain ⟨rfl, rfl⟩ := hc
        exact .inr ⟨xs, [], rfl, by simp, by simp⟩
      · have e : entryAfter (xs ++ [.tr s d p]) i j = entryAfter xs i j := by rw [entryAfter_snoc]; exact if_neg hc
        rw [e]
        rcases ih with ih | ⟨l1, l2, e1, h1, h2⟩
        · exact .inl ih
        · refine .inr ⟨l1, l2 ++ [.tr s d p], by rw [← List.cons_append, ← List.append_assoc, ← e1], fun q hq => ?_, by simpa using h2⟩
          rcases List.mem_append.1 hq with hq | hq
          · exact h1 q hq
          · simp only [List.mem_singleton, DLine.tr.injEq] at hq
            exact hc ⟨hq.1.symm, hq.2.1.symm⟩

theorem entry_keep (l1 : List DLine) (i j : Nat) : ∀ l2 : List DLine, (∀ q, .tr i j q ∉ l2) → (∀ n, .size n ∈ l2 → i < n ∧ j < n) →
    entryAfter (l1 ++ l2) i j = entryAfter l1 i j := by
  intro l2
  induction l2 using List.reverseRecOn with
  | nil => intro _ _; simp
  | append_singleton l2 y ih =>
    intro k1 k2
    rw [← List.append_assoc, entryAfter_snoc]
    have ih := ih (fun q hq => k1 q (by simp [hq])) (fun n hn => k2 n (by simp [hn]))
    cases y with
    | size n => dsimp only; rw [if_pos (k2 n (by simp)), ih]
    | tr s d p =>
      dsimp only
      rw [if_neg, ih]
      rintro ⟨rfl, rfl⟩
      exact k1 p (by simp)

theorem entry_iff {xs : List DLine} {i j : Nat} {v : ℚ} : Entry xs i j v ↔ v = entryAfter xs i j := by
  have val : ∀ l1 p l2, xs = l1 ++ .tr i j p :: l2 → (∀ q, .tr i j q ∉ l2) → (∀ n, .size n ∈ l2 → i < n ∧ j < n) →
      p = entryAfter xs i j := by
    rintro l1 p l2 rfl h1 h2
    rw [show l1 ++ .tr i j p :: l2 = (l1 ++ [.tr i j p]) ++ l2 by simp, entry_keep _ _ _ _ h1 h2, entryAfter_snoc]
    simp
  constructor
  · rintro (⟨l1, l2, h, h1, h2⟩ | ⟨rfl, h⟩)
    · exact val l1 v l2 h h1 h2
    · rcases entry_cases xs i j with h0 | ⟨l1, l2, e, h1, h2⟩
      · exact h0.symm
      · rcases h l1 _ l2 e with ⟨q, hq⟩ | ⟨n, hn, hc⟩
        · exact absurd hq (h1 q)
        · exact absurd (h2 n hn) hc
  · rintro rfl
    by_cases hex : ∃ l1 p l2, xs = l1 ++ .tr i j p :: l2 ∧ (∀ q, .tr i j q ∉ l2) ∧ ∀ n, .size n ∈ l2 → i < n ∧ j < n
    · obtain ⟨l1, p, l2, e, h1, h2⟩ := hex
      rw [← val l1 p l2 e h1 h2]
      exact .inl ⟨l1, l2, e, h1, h2⟩
    · refine .inr ⟨?_, fun l1 p l2 e => ?_⟩
      · rcases entry_cases xs i j with h0 | ⟨l1, l2, h⟩
        · exact h0
        · exact absurd ⟨l1, _, l2, h⟩ hex
      · by_contra hc
        push Not at hc
        exact hex ⟨l1, p, l2, e, hc.1, fun n hn => hc.2 n hn⟩

/-- **C83 (which pairs of files give a DTMC).** The two files are well-formed (every transition is between states below the size
given before it), and for every state the probabilities that are not cut off by a later size line lie between 0 and 1 and
sum to one up to `5e-10`. -/
theorem C83_dtmc_accepts {lab tra : List Char} : (∃ M : Sys K, Sys.fromFileDTMC lab tra = .ok M) ↔
    (∃ xs ys, IsLabFile lab xs ys) ∧
    ∃ ls xs n, Lines tra ls ∧ DLines 1 ls xs ∧ HasSize xs n ∧
      (∀ l1 s d p l2 m, xs = l1 ++ .tr s d p :: l2 → HasSize l1 m → s < m ∧ d < m) ∧
      ∀ i < n, ∀ e : Nat → ℚ, (∀ j, Entry xs i j (e j)) → GoodRow n e := by
  have conv : ∀ (xs : List DLine) (n i : Nat), (∀ e : Nat → ℚ, (∀ j, Entry xs i j (e j)) → GoodRow n e) ↔ GoodRow n (entryAfter xs i) := by
    intro xs n i
    constructor
    · intro h; exact h _ fun j => entry_iff.2 rfl
    · intro h e he
      have : e = entryAfter xs i := funext fun j => entry_iff.1 (he j)
      rw [this]; exact h
  have good : ∀ (xs : List DLine) (P : Dok K), DInvL xs P → (GoodTable P none ↔ ∀ i < lastSize xs, GoodRow (lastSize xs) (entryAfter xs i)) := by
    intro xs P hI
    constructor
    · rintro ⟨h1, h2, -⟩ i hi
      rw [goodRow_cast (K := K)]
      rw [hI.rows, hI.cols] at h1 h2
      simp only [hI.get] at h1 h2
      exact ⟨h1 i hi, h2 i hi⟩
    · intro h
      refine ⟨fun i hi => ?_, fun i hi => ?_, by simp⟩
      · rw [hI.rows] at hi
        rw [hI.cols]; simp only [hI.get]
        exact ((goodRow_cast (K := K)).1 (h i hi)).1
      · rw [hI.rows] at hi
        rw [hI.cols]; simp only [hI.get]
        exact ((goodRow_cast (K := K)).1 (h i hi)).2
  constructor
  · rintro ⟨M, h⟩
    simp only [Sys.fromFileDTMC, bind, Except.bind] at h
    split at h
    · cases h
    rename_i r hr
    split at h
    · cases h
    rename_i P hP
    obtain ⟨ys, h1, hI⟩ := dlines_of_ok _ [] _ P dinv_nil hP
    rw [List.nil_append] at hI
    obtain ⟨k1, k2⟩ := (C09_dtmc_default hI.fit.inShape _ _).1 ⟨M, h⟩
    refine ⟨labFile_iff.1 ⟨r, hr⟩, readLines tra, ys, lastSize ys, lines_iff.2 rfl, h1, hasSize_iff.2 rfl, ?_, fun i hi => ?_⟩
    · intro l1 s d p l2 m e hm
      rw [hasSize_iff] at hm
      subst hm
      exact hI.range l1 s d p l2 e
    · exact (conv _ _ _).2 ((good ys P hI).1 k2 i hi)
  · rintro ⟨hl, ls, xs, n, h1, h2, h3, h4, h5⟩
    obtain ⟨r, hr⟩ := labFile_iff.2 hl
    rw [lines_iff] at h1
    rw [hasSize_iff] at h3
    subst h3
    have hrange : ∀ l1 s d p l2, xs = l1 ++ .tr s d p :: l2 → s < lastSize ([] ++ l1) ∧ d < lastSize ([] ++ l1) := by
      intro l1 s d p l2 e
      exact h4 l1 s d p l2 _ e (hasSize_iff.2 rfl)
    obtain ⟨P, hP⟩ := dlines_ok (K := K) ls xs [] _ dinv_nil h2 hrange
    have hP' : Sys.loadDTMC tra = .ok P := by unfold Sys.loadDTMC; rw [h1]; exact hP
    obtain ⟨ys, h6, hI⟩ := dlines_of_ok _ [] _ P dinv_nil hP
    rw [List.nil_append] at hI
    have : xs = ys := dlines_unique h2 h6
    subst this
    obtain ⟨M, hM⟩ := (C09_dtmc_default hI.fit.inShape (IDict.mk' r.1.1 true) none).2
      ⟨by rw [hI.rows, hI.cols], (good _ P hI).2 fun i hi => (conv _ _ _).1 (h5 i hi)⟩
    exact ⟨M, by simp only [Sys.fromFileDTMC, bind, Except.bind, hr, hP']; exact hM⟩

/-- **C83 (DTMC).** The system has the states of the transition file, one choice per state, with the probabilities of the last
lines that are not cut off; its labels are those of the label file. -/
theorem C83_dtmc {lab tra : List Char} {M : Sys K} (h : Sys.fromFileDTMC lab tra = .ok M) :
    ∃ xs ys ls zs n, IsLabFile lab xs ys ∧ Lines tra ls ∧ DLines 1 ls zs ∧ HasSize zs n ∧
      M.N = n ∧ M.C = n ∧ M.rew = none ∧ M.dtmc = true ∧
      (∀ s a, (s, a) ∈ M.idx.map Prod.fst ↔ s < n ∧ a = 0) ∧
      (∀ s t v, s < n → Entry zs s t v → prob M s 0 t = (v : K)) ∧
      (∀ l, l ∈ M.labS.d.map Prod.fst ↔ ∃ i, (i, l) ∈ xs) ∧
      (∀ l s, (l, s) ∈ pairs M.labS.d ↔ ∃ y ∈ ys, y.1 = s ∧ ∃ i ∈ y.2, Named xs i l) := by
  simp only [Sys.fromFileDTMC, bind, Except.bind] at h
  split at h
  · cases h
  rename_i r hr
  split at h
  · cases h
  rename_i P hP
  obtain ⟨zs, h1, hI⟩ := dlines_of_ok _ [] _ P dinv_nil hP
  rw [List.nil_append] at hI
  obtain ⟨xs, ys, l1, l2, l3⟩ := labels_of (r := r.1) (ids := r.2) hr
  unfold Sys.makeDTMC at h
  rw [if_pos (by rw [hI.rows, hI.cols])] at h
  simp only at h
  have hk : (Dict.keys (Sys.dtmcIndex P.rows)).Nodup := by
    simp only [Dict.keys, Sys.dtmcIndex, List.map_map]
    refine (List.nodup_map_iff_inj_on List.nodup_range).2 fun x _ y _ h => ?_
    simpa using h
  obtain ⟨-, e1, e2, e3, e4, e5, e6⟩ := table_of_make hI.fit.inShape hk h
  refine ⟨xs, ys, readLines tra, zs, lastSize zs, l1, lines_iff.2 rfl, h1, hasSize_iff.2 rfl, ?_, ?_, e5, e6, fun s a => ?_,
    fun s t v hs hv => ?_, fun l => ?_, fun l s => ?_⟩
  · unfold Sys.N; rw [e1, hI.cols]
  · unfold Sys.C; rw [e1, hI.rows]
  · rw [e2, hI.rows]
    simp only [Sys.dtmcIndex, List.map_map, List.mem_map, List.mem_range, Function.comp_apply, Prod.mk.injEq]
    constructor
    · rintro ⟨i, hi, rfl, rfl⟩; exact ⟨hi, rfl⟩
    · rintro ⟨hi, rfl⟩; exact ⟨s, hi, rfl, rfl⟩
  · unfold prob
    have : Dict.get? M.idx (s, 0) = some s := by
      rw [e2]
      refine Dict.get?_of_mem hk ?_
      simp only [Sys.dtmcIndex, List.mem_map, List.mem_range]
      exact ⟨s, by rw [hI.rows]; exact hs, rfl⟩
    rw [this, e1]
    simp only
    rw [hI.get, entry_iff.1 hv]
  · rw [e4]; exact l2 l
  · rw [e4]; exact l3 l s

/-- **C83 (negative).** States of the label file are not compared with those of the transition file: a system with one state may
have a label for state 7. -/
theorem C83_label_states_false : ∃ (lab tra : List Char) (M : Sys ℚ), Sys.fromFileDTMC lab tra = .ok M ∧
    ∃ l s, (l, s) ∈ pairs M.labS.d ∧ ¬ s < M.N := by
  obtain ⟨M, h1, h2⟩ := exists_of_ok_and (x := Sys.fromFileDTMC (K := ℚ) "0=\"a\"\n7: 0".toList "0 0 1".toList)
    (p := fun M => decide (M.labS.d = [("a", [7])] ∧ M.N = 1)) (by decide +kernel)
  obtain ⟨h3, h4⟩ := of_decide_eq_true h2
  exact ⟨_, _, M, h1, "a", 7, by rw [h3]; exact ⟨[7], by simp, by simp⟩, by rw [h4]; decide⟩

/- both constructors accept files with repeated lines and exponents -/
example : (Sys.fromFileMDP (K := ℚ) "0=\"init\"\n1: 0\n".toList traEx).isOk = true := by decide +kernel
example : (Sys.fromFileDTMC (K := ℚ) "0=\"init\"\n1: 0\n".toList chainFile).isOk = true := by decide +kernel
/- a size line that cuts off a state, and one that is followed by the cut off line -/
example : (Sys.fromFileDTMC (K := ℚ) "0=\"init\"\n".toList "3 1\n2 2 1\n0 0 1\n1 1 1\n2 9\n".toList).isOk = true := by decide +kernel
example : (Sys.fromFileDTMC (K := ℚ) "0=\"init\"\n".toList "3 1\n2 2 1\n0 0 1\n1 1 1\n2 9\n3 9".toList).isOk = false := by decide +kernel

end Verif.Props
