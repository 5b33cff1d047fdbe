import Verif.Proofs.Load
/-!
# C81: transition files of chains, for every content
-/
set_option linter.unusedSectionVars false
namespace Verif.Props
open Verif.Model Verif.Model.Text Verif.Proofs Verif.Proofs.Text Verif.Proofs.IOLab Verif.Proofs.IOTra Finset
open Verif.Spec (Lines Fields IsNat IsInt IsIndex IsNumber)

variable {K : Type} [Field K] [LinearOrder K] [IsStrictOrderedRing K]

/-- what a line of a transition file of a chain says: the number of states, or a transition -/
inductive DLine
  | size (n : Nat)
  | tr (s d : Nat) (p : ℚ)

/-- the number of states after a line, `n` being the number before it -/
def DLine.next (n : Nat) : DLine → Nat
  | .size m => m
  | .tr .. => n

/-- a line with two words gives the number of states; longer lines start with source, destination, probability; negative
sources and destinations count from the end of the `n` states -/
def IsDLine (n : Nat) (line : List Char) : DLine → Prop
  | .size m => ∃ f1 f2, Fields line [f1, f2] ∧ IsInt f1 m
  | .tr s d p => ∃ f1 f2 f3 r, Fields line (f1 :: f2 :: f3 :: r) ∧ IsIndex n f1 s ∧ IsIndex n f2 d ∧ IsNumber f3 p

/-- what the lines say, `n` being the number of states before them -/
inductive DLines : Nat → List (List Char) → List DLine → Prop
  | nil {n : Nat} : DLines n [] []
  | cons {n : Nat} {l : List Char} {ls : List (List Char)} {x : DLine} {xs : List DLine} : IsDLine n l x →
      DLines (x.next n) ls xs → DLines n (l :: ls) (x :: xs)

/-- the number given by the last size line; 1 without one -/
def lastSize (xs : List DLine) : Nat := xs.foldl DLine.next 1

/-- the value of an entry after some lines -/
def entryAfter (xs : List DLine) (i j : Nat) : ℚ :=
  xs.foldl (fun v x => match x with
    | .size n => if i < n ∧ j < n then v else 0
    | .tr s d p => if s = i ∧ d = j then p else v) 0

structure DInvL (xs : List DLine) (P : Dok K) : Prop where
  rows : P.rows = lastSize xs
  cols : P.cols = lastSize xs
  fit : Fit P
  get : ∀ i j, P.get i j = (entryAfter xs i j : K)
  range : ∀ l1 s d (p : ℚ) l2, xs = l1 ++ .tr s d p :: l2 → s < lastSize l1 ∧ d < lastSize l1

theorem get_resize {P : Dok K} (h : Fit P) (n m i j : Nat) : (P.resize n m).get i j = if i < n ∧ j < m then P.get i j else 0 := by
  have hf := fit_resize h n m
  by_cases hc : i < n ∧ j < m
  · rw [if_pos hc]
    unfold Dok.get
    congr 1
    cases hg : Dict.get? P.items (i, j) with
    | none =>
      cases hg' : Dict.get? (P.resize n m).items (i, j) with
      | none => rfl
      | some v =>
        have := (List.mem_filter.1 (Dict.mem_of_get? hg')).1
        rw [Dict.get?_of_mem h.1 this] at hg
        cases hg
    | some v =>
      exact Dict.get?_of_mem hf.1 (List.mem_filter.2 ⟨Dict.mem_of_get? hg, by simpa using hc⟩)
  · rw [if_neg hc]; exact get_out hf hc

theorem dline_step {xs : List DLine} {P : Dok K} (h : DInvL xs P) {line : List Char} {x : DLine} (hx : IsDLine (lastSize xs) line x)
    (hr : ∀ s d p, x = .tr s d p → s < lastSize xs ∧ d < lastSize xs) :
    ∃ Q, Sys.loadLineDTMC P line = .ok Q ∧ DInvL (xs ++ [x]) Q := by
  cases x with
  | size n =>
    obtain ⟨f1, f2, h1, h2⟩ := hx
    rw [fields_iff] at h1
    rw [isInt_iff] at h2
    refine ⟨P.resize n n, by simp [Sys.loadLineDTMC, h1, h2, bind, Except.bind, size_nat], ?_, ?_, fit_resize h.fit n n, fun i j => ?_, ?_⟩
    · simp [lastSize, DLine.next, Dok.resize]
    · simp [lastSize, DLine.next, Dok.resize]
    · rw [get_resize h.fit, h.get]
      simp only [entryAfter, List.foldl_append, List.foldl_cons, List.foldl_nil]
      split <;> simp
    · intro l1 s d p l2 e
      rcases List.eq_nil_or_concat l2 with rfl | ⟨l2, y, rfl⟩
      · have := List.append_inj' e (by rfl)
        simp at this
      · rw [List.concat_eq_append, ← List.cons_append, ← List.append_assoc] at e
        exact h.range l1 s d p l2 (List.append_inj' e rfl).1
  | tr s d p =>
    obtain ⟨f1, f2, f3, r, h1, h2, h3, h4⟩ := hx
    rw [fields_iff] at h1
    obtain ⟨i1, h2, e2⟩ := isIndex_iff.1 h2
    obtain ⟨i2, h3, e3⟩ := isIndex_iff.1 h3
    rw [isNumber_iff] at h4
    obtain ⟨hs, hd⟩ := hr s d p rfl
    have hs' : s < P.rows := by rw [h.rows]; exact hs
    have hd' : d < P.cols := by rw [h.cols]; exact hd
    refine ⟨P.set s d (p : K), ?_, ?_, ?_, fit_set h.fit hs' hd' _, fun i j => ?_, ?_⟩
    · simp only [Sys.loadLineDTMC, h1, h2, h3, h4, bind, Except.bind]
      rw [store_denotes₂ (h.rows ▸ e2) (h.cols ▸ e3)]
      exact if_pos ⟨hs', hd'⟩
    · rw [(set_shape P s d _).1, h.rows]; simp [lastSize, DLine.next]
    · rw [(set_shape P s d _).2, h.cols]; simp [lastSize, DLine.next]
    · rw [get_set h.fit, h.get]
      simp only [entryAfter, List.foldl_append, List.foldl_cons, List.foldl_nil]
      by_cases hc : s = i ∧ d = j
      · rw [if_pos hc, if_pos (by simp [hc])]
      · rw [if_neg hc, if_neg (by simpa [eq_comm] using hc)]
    · intro l1 s' d' p' l2 e
      rcases List.eq_nil_or_concat l2 with rfl | ⟨l2, y, rfl⟩
      · obtain ⟨e1, e2⟩ := List.append_inj' e (by rfl)
        simp only [List.cons.injEq, DLine.tr.injEq, and_true] at e2
        obtain ⟨rfl, rfl, rfl⟩ := e2
        subst e1
        exact ⟨hs, hd⟩
      · rw [List.concat_eq_append, ← List.cons_append, ← List.append_assoc] at e
        exact h.range l1 s' d' p' l2 (List.append_inj' e rfl).1

theorem dline_of_ok {xs : List DLine} {P Q : Dok K} (h : DInvL xs P) {line : List Char} (hQ : Sys.loadLineDTMC P line = .ok Q) :
    ∃ x, IsDLine (lastSize xs) line x ∧ DInvL (xs ++ [x]) Q := by
  have key : ∃ x, IsDLine (lastSize xs) line x ∧ ∀ s d p, x = .tr s d p → s < lastSize xs ∧ d < lastSize xs := by
    unfold Sys.loadLineDTMC at hQ
    simp only [bind, Except.bind] at hQ
    split at hQ
    · rename_i a b hs
      split at hQ
      · cases hQ
      · rename_i n hn
        split at hQ
        · cases hQ
        · rename_i m hm
          rw [size_iff.1 hm] at hn
          exact ⟨.size m, ⟨a, b, fields_iff.2 hs, isInt_iff.2 hn⟩, by intro s d p e; cases e⟩
    · rename_i _ a b c r hs
      split at hQ
      · cases hQ
      rename_i s h1
      split at hQ
      · cases hQ
      rename_i d h2
      split at hQ
      · cases hQ
      rename_i p h3
      obtain ⟨s', e1⟩ := denotes_of_store' hQ
      obtain ⟨d', e2⟩ := denotes_of_store hQ
      rw [store_denotes₂ e1 e2] at hQ
      rw [h.rows] at e1
      rw [h.cols] at e2
      refine ⟨.tr s' d' p, ⟨a, b, c, r, fields_iff.2 hs, isIndex_iff.2 ⟨s, h1, e1⟩, isIndex_iff.2 ⟨d, h2, e2⟩, isNumber_iff.2 h3⟩, ?_⟩
      intro s' d' p' e
      cases e
      split at hQ
      · rename_i hc
        rw [h.rows, h.cols] at hc
        exact hc
      · cases hQ
    · split at hQ <;> cases hQ
    · cases hQ
  obtain ⟨x, hx, hr⟩ := key
  obtain ⟨Q', h1, h2⟩ := dline_step h hx hr
  rw [hQ] at h1
  cases h1
  exact ⟨x, hx, h2⟩

theorem isIndex_unique {n : Nat} {w : List Char} {s t : Nat} (h : IsIndex n w s) (h' : IsIndex n w t) : s = t := by
  obtain ⟨i, h1, h2⟩ := isIndex_iff.1 h
  obtain ⟨j, h3, h4⟩ := isIndex_iff.1 h'
  rw [h1] at h3
  cases h3
  omega

theorem isInt_unique {w : List Char} {i j : Int} (h : IsInt w i) (h' : IsInt w j) : i = j :=
  Except.ok.inj ((isInt_iff.1 h).symm.trans (isInt_iff.1 h'))

theorem dline_unique {n : Nat} {line : List Char} {x y : DLine} (hx : IsDLine n line x) (hy : IsDLine n line y) : x = y := by
  cases x with
  | size n =>
    obtain ⟨f1, f2, h1, h2⟩ := hx
    rw [fields_iff] at h1
    cases y with
    | size m =>
      obtain ⟨g1, g2, k1, k2⟩ := hy
      rw [fields_iff, h1] at k1
      cases k1
      rw [Int.natCast_inj.1 (isInt_unique h2 k2)]
    | tr s d p =>
      obtain ⟨g1, g2, g3, r, k1, -⟩ := hy
      rw [fields_iff, h1] at k1
      simp at k1
  | tr s d p =>
    obtain ⟨f1, f2, f3, r, h1, h2, h3, h4⟩ := hx
    rw [fields_iff] at h1
    cases y with
    | size m =>
      obtain ⟨g1, g2, k1, k2⟩ := hy
      rw [fields_iff, h1] at k1
      simp at k1
    | tr s' d' p' =>
      obtain ⟨g1, g2, g3, r', k1, k2, k3, k4⟩ := hy
      rw [fields_iff, h1] at k1
      cases k1
      rw [isNumber_iff] at h4 k4
      rw [h4] at k4
      cases k4
      rw [isIndex_unique h2 k2, isIndex_unique h3 k3]

theorem dlines_unique {n : Nat} {ls : List (List Char)} {xs ys : List DLine} (h : DLines n ls xs)
    (h' : DLines n ls ys) : xs = ys := by
  induction h generalizing ys with
  | nil => cases h'; rfl
  | cons a b ih =>
    cases h' with
    | cons a' b' =>
      have := dline_unique a a'
      subst this
      rw [ih b']

theorem lastSize_snoc (xs : List DLine) (x : DLine) : lastSize (xs ++ [x]) = x.next (lastSize xs) := by
  simp [lastSize]

theorem dlines_of_ok : ∀ (ls : List (List Char)) (xs : List DLine) (P Q : Dok K), DInvL xs P →
    ls.foldlM Sys.loadLineDTMC P = .ok Q → ∃ ys, DLines (lastSize xs) ls ys ∧ DInvL (xs ++ ys) Q
  | [], xs, P, Q, h, hQ => ⟨[], .nil, by cases hQ; simpa using h⟩
  | l :: ls, xs, P, Q, h, hQ => by
    simp only [List.foldlM_cons, bind, Except.bind] at hQ
    split at hQ
    · cases hQ
    · rename_i P' hP'
      obtain ⟨x, h1, h2⟩ := dline_of_ok h hP'
      obtain ⟨ys, h3, h4⟩ := dlines_of_ok ls _ P' Q h2 hQ
      exact ⟨x :: ys, .cons h1 (by rwa [lastSize_snoc] at h3), by simpa using h4⟩

theorem dlines_ok : ∀ (ls : List (List Char)) (ys xs : List DLine) (P : Dok K), DInvL xs P → DLines (lastSize xs) ls ys →
    (∀ l1 s d p l2, ys = l1 ++ .tr s d p :: l2 → s < lastSize (xs ++ l1) ∧ d < lastSize (xs ++ l1)) →
    ∃ Q, ls.foldlM Sys.loadLineDTMC P = .ok Q
  | [], ys, xs, P, h, hy, hr => ⟨P, rfl⟩
  | l :: ls, ys, xs, P, h, hy, hr => by
    cases hy with
    | cons h1 h2 =>
      rename_i x ys
      obtain ⟨P', h3, h4⟩ := dline_step h h1 (fun s d p e => by subst e; simpa using hr [] s d p ys rfl)
      obtain ⟨Q, hQ⟩ := dlines_ok ls ys (xs ++ [x]) P' h4 (by rw [lastSize_snoc]; exact h2) (fun l1 s d p l2 e => by
        have := hr (x :: l1) s d p l2 (by rw [e]; rfl)
        simpa using this)
      exact ⟨Q, by simp only [List.foldlM_cons, bind, Except.bind, h3]; exact hQ⟩

theorem dinv_nil : DInvL [] (Dok.zero 1 1 : Dok K) :=
  ⟨rfl, rfl, ⟨by simp [Dok.zero, Dict.keys], by simp [Dok.zero]⟩, by simp [Dok.zero, Dok.get, Dict.get?, entryAfter], by simp⟩

theorem entryAfter_snoc (xs : List DLine) (x : DLine) (i j : Nat) : entryAfter (xs ++ [x]) i j = match x with
    | .size n => if i < n ∧ j < n then entryAfter xs i j else 0
    | .tr s d p => if s = i ∧ d = j then p else entryAfter xs i j := by
  cases x <;> simp [entryAfter]

theorem lastSize_last {xs : List DLine} {n : Nat} : ∀ {l2 : List DLine}, (∀ m, .size m ∉ l2) → lastSize (xs ++ .size n :: l2) = n := by
  intro l2
  induction l2 using List.reverseRecOn with
  | nil => intro _; simp [lastSize, DLine.next]
  | append_singleton l2 y ih =>
    intro h
    have h1 := ih fun m hm => h m (by simp [hm])
    cases y with
    | size m => exact absurd (h m) (by simp)
    | tr s d p =>
      rw [← List.cons_append, ← List.append_assoc]
      unfold lastSize at h1 ⊢
      rw [List.foldl_append, h1]; rfl

/-- **C81.** Whenever a transition file of a chain is loaded: every line consists of two words, the first of which gives
the number of states, or starts with source, destination and probability, where a negative source or destination counts from the end of the
states.  The matrix is square; its size is that of
the last size line (1 without one); an entry is the probability of the last line for it, unless a later size line cuts it
off, and zero without such a line. -/
theorem C81_load {text : List Char} {P : Dok K} (h : Sys.loadDTMC text = .ok P) :
    ∃ ls xs, Lines text ls ∧ DLines 1 ls xs ∧ P.rows = P.cols ∧ InShape P ∧
      (∀ l1 n l2, xs = l1 ++ .size n :: l2 → (∀ m, .size m ∉ l2) → P.cols = n) ∧
      ((∀ m, .size m ∉ xs) → P.cols = 1) ∧
      (∀ l1 s d (p : ℚ) l2, xs = l1 ++ .tr s d p :: l2 → (∀ q, .tr s d q ∉ l2) → (∀ n, .size n ∈ l2 → s < n ∧ d < n) →
        P.get s d = (p : K)) ∧
      (∀ l1 i j n l2, xs = l1 ++ .size n :: l2 → ¬ (i < n ∧ j < n) → (∀ q, .tr i j q ∉ l2) → P.get i j = 0) ∧
      (∀ i j, (∀ q, .tr i j q ∉ xs) → P.get i j = 0) := by
  obtain ⟨ys, h1, h2⟩ := dlines_of_ok _ [] _ P dinv_nil h
  rw [List.nil_append] at h2
  have keep : ∀ (l1 l2 : List DLine) (i j : Nat), (∀ q, .tr i j q ∉ l2) → (∀ n, .size n ∈ l2 → i < n ∧ j < n) →
      entryAfter (l1 ++ l2) i j = entryAfter l1 i j := by
    intro l1 l2 i j
    induction l2 using List.reverseRecOn with
    | nil => intro _ _; simp
    | append_singleton l2 y ih =>
      intro k1 k2
      rw [← List.append_assoc, entryAfter_snoc]
      have ih := ih (fun q hq => k1 q (by simp [hq])) (fun n hn => k2 n (by simp [hn]))
      cases y with
      | size n => dsimp only; rw [if_pos (k2 n (by simp)), ih]
      | tr s d p =>
        dsimp only
        rw [if_neg, ih]
        rintro ⟨rfl, rfl⟩
        exact k1 p (by simp)
  have zero : ∀ (l1 l2 : List DLine) (i j : Nat), entryAfter l1 i j = 0 → (∀ q, .tr i j q ∉ l2) →
      entryAfter (l1 ++ l2) i j = 0 := by
    intro l1 l2 i j h0
    induction l2 using List.reverseRecOn with
    | nil => intro _; simpa using h0
    | append_singleton l2 y ih =>
      intro k1
      rw [← List.append_assoc, entryAfter_snoc]
      have ih := ih (fun q hq => k1 q (by simp [hq]))
      cases y with
      | size n => dsimp only; rw [ih]; simp
      | tr s d p =>
        dsimp only
        rw [if_neg, ih]
        rintro ⟨rfl, rfl⟩
        exact k1 p (by simp)
  refine ⟨readLines text, ys, lines_iff.2 rfl, h1, by rw [h2.rows, h2.cols], h2.fit.inShape, fun l1 n l2 e hn => ?_, fun hn => ?_,
    fun l1 s d p l2 e k1 k2 => ?_, fun l1 i j n l2 e k1 k2 => ?_, fun i j k1 => ?_⟩
  · rw [h2.cols, e, lastSize_last hn]
  · rw [h2.cols]
    have : ∀ zs : List DLine, (∀ m, .size m ∉ zs) → lastSize zs = 1 := by
      intro zs
      induction zs using List.reverseRecOn with
      | nil => intro _; rfl
      | append_singleton zs y ih =>
        intro hz
        have := ih fun m hm => hz m (by simp [hm])
        cases y with
        | size m => exact absurd (hz m) (by simp)
        | tr s d p => unfold lastSize at this ⊢; rw [List.foldl_append, this]; rfl
    exact this ys hn
  · rw [h2.get, e, show l1 ++ .tr s d p :: l2 = (l1 ++ [.tr s d p]) ++ l2 by simp, keep _ _ _ _ k1 k2, entryAfter_snoc]
    simp
  · rw [h2.get, e, show l1 ++ .size n :: l2 = (l1 ++ [.size n]) ++ l2 by simp, zero]
    · simp
    · rw [entryAfter_snoc]; exact if_neg k1
    · exact k2
  · rw [h2.get, ← List.nil_append ys, zero [] ys i j rfl k1]; simp

/-- **C81 (which files are accepted).** A file is loaded exactly if its lines are of this form and every transition is between
states below the size given by the last size line before it (1 without one). -/
theorem C81_accepts {text : List Char} : (∃ P : Dok K, Sys.loadDTMC text = .ok P) ↔
    ∃ ls xs, Lines text ls ∧ DLines 1 ls xs ∧
      ∀ l1 s d (p : ℚ) l2, xs = l1 ++ .tr s d p :: l2 →
        (∃ m1 n m2, l1 = m1 ++ .size n :: m2 ∧ (∀ k, .size k ∉ m2) ∧ s < n ∧ d < n) ∨
        ((∀ k, .size k ∉ l1) ∧ s = 0 ∧ d = 0) := by
  have key : ∀ (l1 : List DLine) (s d : Nat), (s < lastSize l1 ∧ d < lastSize l1) ↔
      (∃ m1 n m2, l1 = m1 ++ .size n :: m2 ∧ (∀ k, .size k ∉ m2) ∧ s < n ∧ d < n) ∨
        ((∀ k, .size k ∉ l1) ∧ s = 0 ∧ d = 0) := by
    intro l1 s d
    induction l1 using List.reverseRecOn with
    | nil => simp [lastSize]
    | append_singleton l1 y ih =>
      cases y with
      | size n =>
        rw [lastSize_last (by simp)]
        constructor
        · intro h; exact .inl ⟨l1, n, [], rfl, by simp, h⟩
        · rintro (⟨m1, n', m2, e, h1, h2⟩ | ⟨h1, -⟩)
          · rcases List.eq_nil_or_concat m2 with rfl | ⟨m2, y, rfl⟩
            · obtain ⟨-, e2⟩ := List.append_inj' e (by rfl)
              simp only [List.cons.injEq, DLine.size.injEq, and_true] at e2
              rw [e2]; exact h2
            · rw [List.concat_eq_append, ← List.cons_append, ← List.append_assoc] at e
              have e2 := (List.append_inj' e (by rfl)).2
              simp only [List.cons.injEq, and_true] at e2
              exact absurd (h1 n) (by simp [← e2])
          · exact absurd (h1 n) (by simp)
      | tr s' d' p' =>
        have e0 : lastSize (l1 ++ [.tr s' d' p']) = lastSize l1 := by simp [lastSize, DLine.next]
        rw [e0, ih]
        constructor
        · rintro (⟨m1, n', m2, rfl, h1, h2⟩ | ⟨h1, h2⟩)
          · exact .inl ⟨m1, n', m2 ++ [.tr s' d' p'], by simp, by simpa using h1, h2⟩
          · exact .inr ⟨by simpa using h1, h2⟩
        · rintro (⟨m1, n', m2, e, h1, h2⟩ | ⟨h1, h2⟩)
          · rcases List.eq_nil_or_concat m2 with rfl | ⟨m2, y, rfl⟩
            · have e2 := (List.append_inj' e (by rfl)).2
              simp at e2
            · rw [List.concat_eq_append, ← List.cons_append, ← List.append_assoc] at e
              exact .inl ⟨m1, n', m2, (List.append_inj' e (by rfl)).1, fun k hk => h1 k (by simp [hk]), h2⟩
          · exact .inr ⟨fun k hk => h1 k (by simp [hk]), h2⟩
  constructor
  · rintro ⟨P, h⟩
    obtain ⟨ys, h1, h2⟩ := dlines_of_ok _ [] _ P dinv_nil h
    rw [List.nil_append] at h2
    exact ⟨_, ys, lines_iff.2 rfl, h1, fun l1 s d p l2 e => (key l1 s d).1 (h2.range l1 s d p l2 e)⟩
  · rintro ⟨ls, xs, h1, h2, h3⟩
    rw [lines_iff] at h1
    obtain ⟨Q, hQ⟩ := dlines_ok (K := K) ls xs [] _ dinv_nil h2 (fun l1 s d p l2 e => by
      rw [List.nil_append]; exact (key l1 s d).2 (h3 l1 s d p l2 e))
    exact ⟨Q, by unfold Sys.loadDTMC; rw [h1]; exact hQ⟩

/-- a file with a repeated transition, an exponent and a word after a probability -/
def chainFile : List Char := "3 5\r\n0 1 0.5\n0 2 5e-1 x\n1 1 1\n2 2 .5\n2 2 1.0".toList

example : ∃ P : Dok ℚ, Sys.loadDTMC chainFile = .ok P ∧ P.cols = 3 ∧ P.get 0 2 = 1/2 ∧ P.get 2 2 = 1 := by
  obtain ⟨P, h1, h2⟩ := exists_of_ok_and (x := Sys.loadDTMC (K := ℚ) chainFile)
    (p := fun P => decide (P.cols = 3 ∧ P.get 0 2 = 1/2 ∧ P.get 2 2 = 1)) (by decide +kernel)
  exact ⟨P, h1, of_decide_eq_true h2⟩

/-- a second line of two words cuts off what does not fit -/
example : ∃ P : Dok ℚ, Sys.loadDTMC "3 1\n2 2 1\n0 0 1\n2 9\n".toList = .ok P ∧ P.cols = 2 ∧ P.get 0 0 = 1 ∧ P.get 2 2 = 0 := by
  obtain ⟨P, h1, h2⟩ := exists_of_ok_and (x := Sys.loadDTMC (K := ℚ) "3 1\n2 2 1\n0 0 1\n2 9\n".toList)
    (p := fun P => decide (P.cols = 2 ∧ P.get 0 0 = 1 ∧ P.get 2 2 = 0)) (by decide +kernel)
  exact ⟨P, h1, of_decide_eq_true h2⟩

/-- **C81 (negative numbers of states).** A source that is no state of the file's chain need not be rejected: `-1` is the last
state. -/
theorem C81_negative : ∃ P : Dok ℚ, Sys.loadDTMC "2 2\n0 1 1\n-1 +0_0 1\n".toList = .ok P ∧ P.cols = 2 ∧ P.get 1 0 = 1 := by
  obtain ⟨P, h1, h2⟩ := exists_of_ok_and (x := Sys.loadDTMC (K := ℚ) "2 2\n0 1 1\n-1 +0_0 1\n".toList)
    (p := fun P => decide (P.cols = 2 ∧ P.get 1 0 = 1)) (by decide +kernel)
  exact ⟨P, h1, of_decide_eq_true h2⟩

end Verif.Props
