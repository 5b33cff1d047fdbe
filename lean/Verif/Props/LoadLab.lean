import Verif.Proofs.LabSpec
import Verif.Proofs.Load
/-!
# C82: label files, for every content
-/
set_option linter.unusedSectionVars false
namespace Verif.Props
open Verif.Model Verif.Model.Text Verif.Proofs Verif.Proofs.Text Verif.Proofs.IOLab Verif.Proofs.IOTra
open Verif.Spec (Lines Fields IsNat IsInt IsNumber IsSign Marks Mark StateLine Colon Digits value)

/-- the numbers and labels of a header line, from left to right -/
def IsHeader (line : List Char) (xs : List (Nat × String)) : Prop :=
  ∃ ms, Marks line ms ∧ xs = ms.map fun m => (value m.1, String.ofList m.2)

/-- what a line says about a state: the state and the numbers of its labels -/
def IsStateLine (line : List Char) (y : Nat × List Nat) : Prop :=
  ∃ ds g ws, StateLine line ds g ∧ y.1 = value ds ∧ Fields g ws ∧
    List.Forall₂ (fun w (i : Nat) => IsInt w i) ws y.2

/-- the label of a number: the last one given to it -/
def Named (xs : List (Nat × String)) (i : Nat) (l : String) : Prop :=
  ∃ l1 l2, xs = l1 ++ (i, l) :: l2 ∧ ∀ l', (i, l') ∉ l2

theorem marks_numbers {line : List Char} {ms : List (List Char × List Char)} (h : Marks line ms) :
    ∀ m ∈ ms, IsNat m.1 (value m.1) := by
  induction h with
  | nil => simp
  | cons h1 h2 h3 ih =>
    intro m hm
    rcases List.mem_cons.1 hm with rfl | hm
    · exact ⟨h1.2.1, h1.2.2.1, rfl⟩
    · exact ih m hm

theorem named_snoc {xs : List (Nat × String)} {x : Nat × String} {i : Nat} {l : String} :
    Named (xs ++ [x]) i l ↔ if x.1 = i then x.2 = l else Named xs i l := by
  constructor
  · rintro ⟨l1, l2, e, h⟩
    rcases List.eq_nil_or_concat l2 with rfl | ⟨l2, y, rfl⟩
    · obtain ⟨-, e2⟩ := List.append_inj' e (by rfl)
      simp only [List.cons.injEq, and_true] at e2
      simp [e2]
    · rw [List.concat_eq_append, ← List.cons_append, ← List.append_assoc] at e
      obtain ⟨e1, e2⟩ := List.append_inj' e (by rfl)
      simp only [List.cons.injEq, and_true] at e2
      rw [if_neg]
      · exact ⟨l1, l2, e1, fun l' hl => h l' (by simp [hl])⟩
      · rintro rfl
        exact h x.2 (by simp [← e2])
  · split
    · rename_i hx
      intro hl
      exact ⟨xs, [], by rw [← hx, ← hl], by simp⟩
    · rename_i hx
      rintro ⟨l1, l2, rfl, h⟩
      refine ⟨l1, l2 ++ [x], by simp, fun l' hl => ?_⟩
      rcases List.mem_append.1 hl with hl | hl
      · exact h l' hl
      · simp only [List.mem_singleton] at hl
        exact hx (by rw [← hl])

theorem named_unique {xs : List (Nat × String)} {i : Nat} {l l' : String} : Named xs i l → Named xs i l' → l = l' := by
  induction xs using List.reverseRecOn with
  | nil => rintro ⟨l1, l2, e, -⟩; simp at e
  | append_singleton xs x ih =>
    rw [named_snoc, named_snoc]
    split
    · rintro rfl rfl; rfl
    · exact ih

theorem named_exists {xs : List (Nat × String)} {i : Nat} : (∃ l, Named xs i l) ↔ ∃ l, (i, l) ∈ xs := by
  induction xs using List.reverseRecOn with
  | nil =>
    constructor
    · rintro ⟨l, l1, l2, e, -⟩; simp at e
    · rintro ⟨l, h⟩; cases h
  | append_singleton xs x ih =>
    simp only [named_snoc, List.mem_append, List.mem_singleton]
    by_cases hx : x.1 = i
    · simp only [if_pos hx, exists_eq', true_iff]
      exact ⟨x.2, .inr (by rw [← hx])⟩
    · simp only [if_neg hx, ih]
      constructor
      · rintro ⟨l, h⟩; exact ⟨l, .inl h⟩
      · rintro ⟨l, h | h⟩
        · exact ⟨l, h⟩
        · exact absurd (by rw [← h]) hx

theorem pyInt_isNat {w : List Char} {n : Nat} (h : IsNat w n) : pyInt w = .ok (n : Int) := by
  rw [pyInt_digits (digits_iff.1 h.2.1), isNat_iff.1 h]; rfl

theorem header_fold (ms : List (List Char × List Char)) (h : ∀ m ∈ ms, IsNat m.1 (value m.1)) :
    ∀ acc : Dict Nat String × Dict String (List Nat), ms.foldlM (fun acc m => do
      let i ← pyInt m.1
      Except.ok (acc.1.set i.toNat (String.ofList m.2), acc.2.set (String.ofList m.2) [])) acc =
    .ok ((ms.map fun m => (value m.1, String.ofList m.2)).foldl (fun acc x => (acc.1.set x.1 x.2, acc.2.set x.2 [])) acc) := by
  induction ms with
  | nil => intro acc; rfl
  | cons m ms ih =>
    intro acc
    have hm := pyInt_isNat (h m (by simp))
    simp only [List.foldlM_cons, bind, Except.bind, hm, List.map_cons, List.foldl_cons, Int.toNat_natCast]
    exact ih (fun m' h' => h m' (by simp [h'])) _

/-- the state after the header -/
theorem header_ok {line : List Char} {xs : List (Nat × String)} (h : IsHeader line xs) :
    ∃ ids sbl, parseHeader line = .ok (ids, sbl) ∧ (∀ i l, ids.get? i = some l ↔ Named xs i l) ∧
      (∀ l, l ∈ Dict.keys sbl ↔ ∃ i, (i, l) ∈ xs) ∧ ∀ l s, ¬ IDict.Has sbl l s := by
  obtain ⟨ms, h1, rfl⟩ := h
  have h2 := header_fold ms (marks_numbers h1) ([], [])
  rw [marks_iff] at h1
  refine ⟨_, _, by unfold parseHeader; rw [h1]; exact h2, ?_⟩
  generalize (ms.map fun m => (value m.1, String.ofList m.2)) = xs
  induction xs using List.reverseRecOn with
  | nil =>
    refine ⟨fun i l => ?_, by simp [Dict.keys], by simp [IDict.Has, Dict.get?]⟩
    constructor
    · intro h; simp [Dict.get?] at h
    · rintro ⟨l1, l2, e, -⟩; simp at e
  | append_singleton xs x ih =>
    obtain ⟨i1, i2, i3⟩ := ih
    simp only [List.foldl_append, List.foldl_cons, List.foldl_nil]
    refine ⟨fun i l => ?_, fun l => ?_, fun l s => ?_⟩
    · rw [named_snoc, Dict.get?_set, ← i1]
      by_cases hx : x.1 = i
      · simp [hx]
      · rw [if_neg hx, if_neg (by simpa [eq_comm] using hx)]
    · rw [Dict.mem_keys_set, i2]
      constructor
      · rintro (rfl | ⟨i, h⟩)
        · exact ⟨x.1, by simp⟩
        · exact ⟨i, by simp [h]⟩
      · rintro ⟨i, h⟩
        rcases List.mem_append.1 h with h | h
        · exact .inr ⟨i, h⟩
        · simp only [List.mem_singleton] at h
          exact .inl (by rw [← h])
    · have := i3 l s
      unfold IDict.Has at this ⊢
      rw [Dict.get?_set]
      split
      · simp
      · exact this

theorem header_exists (line : List Char) : ∃ xs, IsHeader line xs := ⟨_, _, marks_iff.2 rfl, rfl⟩

/-- the labels of one line -/
theorem ids_ok {ids : Dict Nat String} {s : Nat} {ws : List (List Char)} {is : List Nat} (h : List.Forall₂ (fun w (i : Nat) => IsInt w i) ws is) :
    ∀ acc : LabState, (∀ i ∈ is, ∃ l, ids.get? i = some l) → ∃ res, ws.foldlM (parseId ids s) acc = .ok res ∧
      (∀ l t, IDict.Has res.1 l t ↔ IDict.Has acc.1 l t ∨ t = s ∧ ∃ i ∈ is, ids.get? i = some l) ∧
      (∀ l t, IDict.Has res.2 t l ↔ IDict.Has acc.2 t l ∨ t = s ∧ ∃ i ∈ is, ids.get? i = some l) ∧
      (∀ l, l ∈ Dict.keys res.1 ↔ l ∈ Dict.keys acc.1 ∨ ∃ i ∈ is, ids.get? i = some l) ∧
      (∀ t, t ∈ Dict.keys res.2 ↔ t ∈ Dict.keys acc.2 ∨ t = s ∧ is ≠ []) := by
  induction h with
  | nil => intro acc _; exact ⟨acc, rfl, by simp, by simp, by simp, by simp⟩
  | cons h1 h2 ih =>
    rename_i w i ws is
    intro acc hd
    obtain ⟨l0, hl0⟩ := hd i (by simp)
    obtain ⟨res, e, k1, k2, k3, k4⟩ := ih (IDict.addTo acc.1 l0 s, IDict.addTo acc.2 s l0) (fun j hj => hd j (by simp [hj]))
    have hp : parseId ids s acc w = .ok (IDict.addTo acc.1 l0 s, IDict.addTo acc.2 s l0) := by
      simp [parseId, isInt_iff.1 h1, hl0, bind, Except.bind, IDict.addTo]
    have hj : ∀ l, (∃ j ∈ i :: is, ids.get? j = some l) ↔ l = l0 ∨ ∃ j ∈ is, ids.get? j = some l := by
      intro l
      constructor
      · rintro ⟨j, hj, hl⟩
        rcases List.mem_cons.1 hj with rfl | hj
        · rw [hl0] at hl; exact .inl (Option.some.inj hl).symm
        · exact .inr ⟨j, hj, hl⟩
      · rintro (rfl | ⟨j, hj, hl⟩)
        · exact ⟨i, by simp, hl0⟩
        · exact ⟨j, by simp [hj], hl⟩
    refine ⟨res, by simp only [List.foldlM_cons, bind, Except.bind, hp]; exact e, fun l t => ?_, fun l t => ?_, fun l => ?_, fun t => ?_⟩
    · rw [k1, hj, IDict.has_addTo]; tauto
    · rw [k2, hj, IDict.has_addTo]; tauto
    · rw [k3, hj]; unfold IDict.addTo; rw [Dict.mem_keys_set]; tauto
    · rw [k4]; unfold IDict.addTo; rw [Dict.mem_keys_set]
      simp only [ne_eq, reduceCtorEq, not_false_eq_true, and_true]
      tauto

theorem ids_of_ok {ids : Dict Nat String} {s : Nat} : ∀ (ws : List (List Char)) (acc res : LabState),
    ws.foldlM (parseId ids s) acc = .ok res → ∃ is, List.Forall₂ (fun w (i : Nat) => IsInt w i) ws is ∧ ∀ i ∈ is, ∃ l, ids.get? i = some l
  | [], _, _, _ => ⟨[], .nil, by simp⟩
  | w :: ws, acc, res, h => by
    simp only [List.foldlM_cons, bind, Except.bind] at h
    split at h
    · cases h
    · rename_i acc' ha
      obtain ⟨is, h1, h2⟩ := ids_of_ok ws _ _ h
      unfold parseId at ha
      simp only [bind, Except.bind] at ha
      split at ha
      · cases ha
      · rename_i i hi
        split at ha
        · cases ha
        · rename_i l hl
          obtain ⟨h0, hl⟩ := Option.ite_none_right_eq_some.1 hl
          exact ⟨i.toNat :: is, .cons (by rw [isInt_iff, hi, Int.toNat_of_nonneg h0]) h1, by
            intro j hj
            rcases List.mem_cons.1 hj with rfl | hj
            · exact ⟨l, hl⟩
            · exact h2 j hj⟩

/-- what holds after the state lines `ys` -/
structure LabInv (ids : Dict Nat String) (sbl0 : Dict String (List Nat)) (ys : List (Nat × List Nat)) (r : LabState) : Prop where
  keys : ∀ l, l ∈ Dict.keys r.1 ↔ l ∈ Dict.keys sbl0 ∨ ∃ y ∈ ys, ∃ i ∈ y.2, ids.get? i = some l
  has : ∀ l s, IDict.Has r.1 l s ↔ ∃ y ∈ ys, y.1 = s ∧ ∃ i ∈ y.2, ids.get? i = some l
  lkeys : ∀ s, s ∈ Dict.keys r.2 ↔ ∃ y ∈ ys, y.1 = s
  lhas : ∀ s l, IDict.Has r.2 s l ↔ ∃ l1 is l2, ys = l1 ++ (s, is) :: l2 ∧ (∀ y ∈ l2, y.1 ≠ s) ∧ ∃ i ∈ is, ids.get? i = some l

theorem last_snoc {ys : List (Nat × List Nat)} {y : Nat × List Nat} {s : Nat} {q : List Nat → Prop} :
    (∃ l1 is l2, ys ++ [y] = l1 ++ (s, is) :: l2 ∧ (∀ z ∈ l2, z.1 ≠ s) ∧ q is) ↔
      if y.1 = s then q y.2 else ∃ l1 is l2, ys = l1 ++ (s, is) :: l2 ∧ (∀ z ∈ l2, z.1 ≠ s) ∧ q is := by
  constructor
  · rintro ⟨l1, is, l2, e, h, hq⟩
    rcases List.eq_nil_or_concat l2 with rfl | ⟨l2, z, rfl⟩
    · obtain ⟨-, e2⟩ := List.append_inj' e (by rfl)
      simp only [List.cons.injEq, and_true] at e2
      simpa [e2] using hq
    · rw [List.concat_eq_append, ← List.cons_append, ← List.append_assoc] at e
      obtain ⟨e1, e2⟩ := List.append_inj' e (by rfl)
      simp only [List.cons.injEq, and_true] at e2
      rw [if_neg (by rw [e2]; exact h z (by simp))]
      exact ⟨l1, is, l2, e1, fun z' hz => h z' (by simp [hz]), hq⟩
  · split
    · rename_i hy
      intro hq
      exact ⟨ys, y.2, [], by rw [← hy], by simp, hq⟩
    · rename_i hy
      rintro ⟨l1, is, l2, rfl, h, hq⟩
      refine ⟨l1, is, l2 ++ [y], by simp, fun z hz => ?_, hq⟩
      rcases List.mem_append.1 hz with hz | hz
      · exact h z hz
      · simp only [List.mem_singleton] at hz; rw [hz]; exact hy

theorem line_ok {ids : Dict Nat String} {sbl0 : Dict String (List Nat)} {ys : List (Nat × List Nat)} {r : LabState}
    (h : LabInv ids sbl0 ys r) {line : List Char} {y : Nat × List Nat} (hl : IsStateLine line y)
    (hd : ∀ i ∈ y.2, ∃ l, ids.get? i = some l) :
    ∃ r', parseLine ids r line = .ok r' ∧ LabInv ids sbl0 (ys ++ [y]) r' := by
  obtain ⟨ds, g, ws, h1, h2, h3, h4⟩ := hl
  rw [fields_iff] at h3
  have hn : pyInt ds = .ok (y.1 : Int) := by
    obtain ⟨_, _, -, k1, k2, -⟩ := h1
    exact pyInt_isNat ⟨k1, k2, h2⟩
  rw [stateLine_iff] at h1
  obtain ⟨res, e, k1, k2, k3, k4⟩ := ids_ok (s := y.1) h4 (r.1, r.2.set y.1 []) hd
  refine ⟨res, by simp only [parseLine, h1, hn, h3, bind, Except.bind, Int.toNat_natCast]; exact e, fun l => ?_, fun l s => ?_, fun s => ?_, fun s l => ?_⟩
  · rw [k3, h.keys]
    constructor
    · rintro ((h | ⟨z, hz, hi⟩) | hi)
      · exact .inl h
      · exact .inr ⟨z, by simp [hz], hi⟩
      · exact .inr ⟨y, by simp, hi⟩
    · rintro (h | ⟨z, hz, hi⟩)
      · exact .inl (.inl h)
      · rcases List.mem_append.1 hz with hz | hz
        · exact .inl (.inr ⟨z, hz, hi⟩)
        · simp only [List.mem_singleton] at hz; subst hz; exact .inr hi
  · rw [k1, h.has]
    constructor
    · rintro (⟨z, hz, hi⟩ | ⟨rfl, hi⟩)
      · exact ⟨z, by simp [hz], hi⟩
      · exact ⟨y, by simp, rfl, hi⟩
    · rintro ⟨z, hz, hs, hi⟩
      rcases List.mem_append.1 hz with hz | hz
      · exact .inl ⟨z, hz, hs, hi⟩
      · simp only [List.mem_singleton] at hz; subst hz; exact .inr ⟨hs.symm, hi⟩
  · rw [k4, Dict.mem_keys_set, h.lkeys]
    constructor
    · rintro ((rfl | ⟨z, hz, hi⟩) | ⟨rfl, -⟩)
      · exact ⟨y, by simp, rfl⟩
      · exact ⟨z, by simp [hz], hi⟩
      · exact ⟨y, by simp, rfl⟩
    · rintro ⟨z, hz, rfl⟩
      rcases List.mem_append.1 hz with hz | hz
      · exact .inl (.inr ⟨z, hz, rfl⟩)
      · simp only [List.mem_singleton] at hz; subst hz; exact .inl (.inl rfl)
  · rw [k2, last_snoc (q := fun is => ∃ i ∈ is, ids.get? i = some l)]
    have := h.lhas s l
    unfold IDict.Has at this ⊢
    rw [Dict.get?_set]
    by_cases hs : s = y.1
    · simp [hs]
    · rw [if_neg (fun e => hs e.symm), if_neg (fun e => hs e.symm), ← this]
      simp [hs]

theorem line_of_ok {ids : Dict Nat String} {r r' : LabState} {line : List Char} (h : parseLine ids r line = .ok r') :
    ∃ y, IsStateLine line y ∧ ∀ i ∈ y.2, ∃ l, ids.get? i = some l := by
  unfold parseLine at h
  split at h
  · cases h
  · rename_i ds g hs
    simp only [bind, Except.bind] at h
    split at h
    · cases h
    · rename_i s hn
      obtain ⟨is, h1, h2⟩ := ids_of_ok _ _ _ h
      have hsl := stateLine_iff.2 hs
      have hv : pyInt ds = .ok (value ds : Int) := by
        obtain ⟨_, _, -, k1, k2, -⟩ := hsl
        exact pyInt_isNat ⟨k1, k2, rfl⟩
      rw [hn] at hv
      cases hv
      exact ⟨(value ds, is), ⟨ds, g, split g, hsl, rfl, fields_iff.2 rfl, h1⟩, h2⟩

theorem lines_ok {ids : Dict Nat String} {sbl0 : Dict String (List Nat)} : ∀ (ls : List (List Char)) (zs ys : List (Nat × List Nat))
    (r : LabState), LabInv ids sbl0 ys r → List.Forall₂ IsStateLine ls zs → (∀ y ∈ zs, ∀ i ∈ y.2, ∃ l, ids.get? i = some l) →
    ∃ r', ls.foldlM (parseLine ids) r = .ok r' ∧ LabInv ids sbl0 (ys ++ zs) r'
  | [], _, ys, r, h, hz, _ => ⟨r, rfl, by cases hz; simpa using h⟩
  | l :: ls, _, ys, r, h, .cons h1 h2, hd => by
    rename_i y zs
    obtain ⟨r', e1, h3⟩ := line_ok h h1 (hd y (by simp))
    obtain ⟨r'', e2, h4⟩ := lines_ok ls zs (ys ++ [y]) r' h3 h2 (fun z hz => hd z (by simp [hz]))
    exact ⟨r'', by simp only [List.foldlM_cons, bind, Except.bind, e1]; exact e2, by simpa using h4⟩

theorem lines_of_ok {ids : Dict Nat String} : ∀ (ls : List (List Char)) (r r' : LabState),
    ls.foldlM (parseLine ids) r = .ok r' →
    ∃ ys, List.Forall₂ IsStateLine ls ys ∧ ∀ y ∈ ys, ∀ i ∈ y.2, ∃ l, ids.get? i = some l
  | [], _, _, _ => ⟨[], .nil, by simp⟩
  | l :: ls, r, r', h => by
    simp only [List.foldlM_cons, bind, Except.bind] at h
    split at h
    · cases h
    · rename_i r1 h1
      obtain ⟨y, h2, h3⟩ := line_of_ok h1
      obtain ⟨ys, h4, h5⟩ := lines_of_ok ls _ _ h
      exact ⟨y :: ys, .cons h2 h4, by
        intro z hz
        rcases List.mem_cons.1 hz with rfl | hz
        · exact h3
        · exact h5 z hz⟩

theorem labInv_nil {ids : Dict Nat String} {sbl : Dict String (List Nat)} (h : ∀ l s, ¬ IDict.Has sbl l s) :
    LabInv ids sbl [] (sbl, []) :=
  ⟨by simp, by simpa using h, by simp [Dict.keys], by simp [IDict.Has, Dict.get?]⟩

theorem parse_of {text : List Char} {h : List Char} {ls : List (List Char)} {xs : List (Nat × String)} {ys : List (Nat × List Nat)}
    (h1 : Lines text (h :: ls)) (h2 : IsHeader h xs) (h3 : List.Forall₂ IsStateLine ls ys)
    (h4 : ∀ y ∈ ys, ∀ i ∈ y.2, ∃ l, (i, l) ∈ xs) :
    ∃ r ids, parseLabelFile text = .ok (r, ids) ∧ (∀ i l, ids.get? i = some l ↔ Named xs i l) ∧
      (∀ l, l ∈ Dict.keys r.1 ↔ ∃ i, (i, l) ∈ xs) ∧
      (∀ l s, IDict.Has r.1 l s ↔ ∃ y ∈ ys, y.1 = s ∧ ∃ i ∈ y.2, Named xs i l) ∧
      (∀ s, s ∈ Dict.keys r.2 ↔ ∃ y ∈ ys, y.1 = s) ∧
      (∀ s l, IDict.Has r.2 s l ↔ ∃ l1 is l2, ys = l1 ++ (s, is) :: l2 ∧ (∀ y ∈ l2, y.1 ≠ s) ∧ ∃ i ∈ is, Named xs i l) := by
  rw [lines_iff] at h1
  obtain ⟨ids, sbl, e, k1, k2, k3⟩ := header_ok h2
  obtain ⟨r, e2, hI⟩ := lines_ok ls ys [] (sbl, []) (labInv_nil k3) h3 (fun y hy i hi => by
    obtain ⟨l, hl⟩ := named_exists.2 (h4 y hy i hi)
    exact ⟨l, (k1 i l).2 hl⟩)
  rw [List.nil_append] at hI
  refine ⟨r, ids, by simp only [parseLabelFile, h1, e, bind, Except.bind, e2], k1, fun l => ?_, fun l s => ?_, hI.lkeys, fun s l => ?_⟩
  · rw [hI.keys, k2]
    constructor
    · rintro (h | ⟨y, hy, i, hi, hl⟩)
      · exact h
      · obtain ⟨l1, l2, rfl, -⟩ := (k1 i l).1 hl
        exact ⟨i, by simp⟩
    · exact .inl
  · rw [hI.has]; simp only [k1]
  · rw [hI.lhas]; simp only [k1]

/-- **C82.** Whenever a label file is read: the first line gives labels to numbers (`3="goal"`, from left to right, whatever stands
between); every other line starts (after anything without such a match) with a state and a colon, followed by numbers which
have a label.  The labels of the result are those of the first line.  A state has a label exactly if some line for it lists a
number of the label.  In the map from states to labels, only the last line of a state counts. -/
theorem C82_load {text : List Char} {r : LabState} {ids : Dict Nat String} (h : parseLabelFile text = .ok (r, ids)) :
    ∃ h ls xs ys, Lines text (h :: ls) ∧ IsHeader h xs ∧ List.Forall₂ IsStateLine ls ys ∧
      (∀ y ∈ ys, ∀ i ∈ y.2, ∃ l, (i, l) ∈ xs) ∧
      (∀ i l, ids.get? i = some l ↔ Named xs i l) ∧
      (∀ l, (∃ S, r.1.get? l = some S) ↔ ∃ i, (i, l) ∈ xs) ∧
      (∀ l S, r.1.get? l = some S → ∀ s, s ∈ S ↔ ∃ y ∈ ys, y.1 = s ∧ ∃ i ∈ y.2, Named xs i l) ∧
      (∀ s, (∃ L, r.2.get? s = some L) ↔ ∃ y ∈ ys, y.1 = s) ∧
      (∀ s L l1 is l2, r.2.get? s = some L → ys = l1 ++ (s, is) :: l2 → (∀ y ∈ l2, y.1 ≠ s) →
        ∀ l, l ∈ L ↔ ∃ i ∈ is, Named xs i l) := by
  have h0 := h
  unfold parseLabelFile at h0
  split at h0
  · cases h0
  rename_i hd ls hr
  simp only [bind, Except.bind] at h0
  obtain ⟨xs, hx⟩ := header_exists hd
  obtain ⟨ids', sbl, e, k1, k2, k3⟩ := header_ok hx
  rw [e] at h0
  simp only at h0
  split at h0
  · cases h0
  rename_i r' hr'
  obtain ⟨ys, m1, m2⟩ := lines_of_ok _ _ _ hr'
  have m3 : ∀ y ∈ ys, ∀ i ∈ y.2, ∃ l, (i, l) ∈ xs := by
    intro y hy i hi
    obtain ⟨l, hl⟩ := m2 y hy i hi
    exact named_exists.1 ⟨l, (k1 i l).1 hl⟩
  obtain ⟨r1, ids1, e1, n1, n2, n3, n4, n5⟩ := parse_of (lines_iff.2 hr) hx m1 m3
  rw [h] at e1
  cases e1
  refine ⟨hd, ls, xs, ys, lines_iff.2 hr, hx, m1, m3, n1, fun l => ?_, fun l S hS s => ?_, fun s => ?_, fun s L l1 is l2 hL e5 h5 l => ?_⟩
  · rw [← n2, ← Dict.get?_isSome, Option.isSome_iff_exists]
  · rw [← n3]; unfold IDict.Has; rw [hS]; simp
  · rw [← n4, ← Dict.get?_isSome, Option.isSome_iff_exists]
  · have : l ∈ L ↔ IDict.Has r.2 s l := by unfold IDict.Has; rw [hL]; simp
    rw [this, n5]
    constructor
    · rintro ⟨l1', is', l2', e6, h6, hi⟩
      have : is = is' := by
        clear this n5 hL
        have := e5.symm.trans e6
        rcases List.append_eq_append_iff.1 this with ⟨a, e7, e8⟩ | ⟨a, e7, e8⟩
        · cases a with
          | nil => simp only [List.nil_append, List.cons.injEq, Prod.mk.injEq, true_and] at e8; exact e8.1
          | cons z a =>
            simp only [List.cons_append, List.cons.injEq] at e8
            exact absurd rfl (h5 (s, is') (by rw [e8.2]; simp))
        · cases a with
          | nil => simp only [List.nil_append, List.cons.injEq, Prod.mk.injEq, true_and] at e8; exact e8.1.symm
          | cons z a =>
            simp only [List.cons_append, List.cons.injEq] at e8
            exact absurd rfl (h6 (s, is) (by rw [e8.2]; simp))
      rw [this]; exact hi
    · intro hi; exact ⟨l1, is, l2, e5, h5, hi⟩

/-- **C82 (which files are accepted).** -/
theorem C82_accepts {text : List Char} : (∃ r, parseLabelFile text = .ok r) ↔
    ∃ h ls xs ys, Lines text (h :: ls) ∧ IsHeader h xs ∧ List.Forall₂ IsStateLine ls ys ∧
      ∀ y ∈ ys, ∀ i ∈ y.2, ∃ l, (i, l) ∈ xs := by
  constructor
  · rintro ⟨⟨r, ids⟩, h⟩
    obtain ⟨h, ls, xs, ys, h1, h2, h3, h4, -⟩ := C82_load h
    exact ⟨h, ls, xs, ys, h1, h2, h3, h4⟩
  · rintro ⟨h, ls, xs, ys, h1, h2, h3, h4⟩
    obtain ⟨r, ids, e, -⟩ := parse_of h1 h2 h3 h4
    exact ⟨_, e⟩

/-- **C82 (the exceptions).** The empty file raises `IndexError`.  Otherwise the first line that is not of this form decides: without
a number, a colon and a character that is no letter it raises `AttributeError` (so does a blank line); a word which is no
integer raises `ValueError` (for words of ASCII characters; there are digits in other alphabets); a number without a label, such
as every negative number, raises `KeyError`. -/
theorem C82_errors : parseLabelFile [] = .error .indexError ∧
    ∀ text h l1 bad l2 xs ys, Lines text (h :: (l1 ++ bad :: l2)) → IsHeader h xs → List.Forall₂ IsStateLine l1 ys →
      (∀ y ∈ ys, ∀ i ∈ y.2, ∃ l, (i, l) ∈ xs) →
      ((∀ pre ds c rest, ¬ Colon bad pre ds c rest) → parseLabelFile text = .error .attributeError) ∧
      ∀ ds g w1 w w2 is, StateLine bad ds g → Fields g (w1 ++ w :: w2) → List.Forall₂ (fun w (i : Nat) => IsInt w i) w1 is →
        (∀ i ∈ is, ∃ l, (i, l) ∈ xs) →
        ((∀ c ∈ w, c.toNat < 128) → (∀ i, ¬ IsInt w i) → parseLabelFile text = .error .valueError) ∧
        (∀ i : Int, IsInt w i → (∀ (n : Nat) l, (n : Int) = i → (n, l) ∉ xs) → parseLabelFile text = .error .keyError) := by
  refine ⟨rfl, fun text h l1 bad l2 xs ys h1 h2 h3 h4 => ?_⟩
  rw [lines_iff] at h1
  obtain ⟨ids, sbl, e, k1, k2, k3⟩ := header_ok h2
  obtain ⟨r, e2, hI⟩ := lines_ok l1 ys [] (sbl, []) (labInv_nil k3) h3 (fun y hy i hi => by
    obtain ⟨l, hl⟩ := named_exists.2 (h4 y hy i hi)
    exact ⟨l, (k1 i l).2 hl⟩)
  have key : ∀ x, parseLine ids r bad = .error x → parseLabelFile text = .error x := by
    intro x hx
    have : (l1 ++ bad :: l2).foldlM (parseLine ids) (sbl, []) = .error x := by
      rw [List.foldlM_append, e2]
      simp only [bind, Except.bind, List.foldlM_cons, hx]
    simp only [parseLabelFile, h1, e, bind, Except.bind, this]
  refine ⟨fun hn => key _ ?_, fun ds g w1 w w2 is g1 g2 g3 g4 => ?_⟩
  · rw [parseLine, searchLine_none.2 hn]
  · have hn : pyInt ds = .ok (value ds : Int) := by
      obtain ⟨_, _, -, k1, k2, -⟩ := g1
      exact pyInt_isNat ⟨k1, k2, rfl⟩
    rw [stateLine_iff] at g1
    rw [fields_iff] at g2
    obtain ⟨res, e3, -⟩ := ids_ok (ids := ids) (s := value ds) g3 (r.1, r.2.set (value ds) []) (fun i hi => by
      obtain ⟨l, hl⟩ := named_exists.2 (g4 i hi)
      exact ⟨l, (k1 i l).2 hl⟩)
    have key2 : ∀ x, parseId ids (value ds) res w = .error x → parseLabelFile text = .error x := by
      intro x hx
      refine key x ?_
      simp only [parseLine, g1, hn, g2, bind, Except.bind, Int.toNat_natCast]
      rw [List.foldlM_append, e3]
      simp only [bind, Except.bind, List.foldlM_cons, hx]
    refine ⟨fun ha hw => key2 _ ?_, fun i hw hl => key2 _ ?_⟩
    · simp [parseId, pyInt_error ha fun i hi => hw i (isInt_iff.2 hi), bind, Except.bind]
    · have : (if 0 ≤ i then ids.get? i.toNat else none) = none := by
        split
        · rename_i h0
          cases hg : ids.get? i.toNat with
          | none => rfl
          | some l =>
            obtain ⟨l1, l2, e4, -⟩ := (k1 _ l).1 hg
            exact absurd (by rw [e4]; simp) (hl i.toNat l (Int.toNat_of_nonneg h0))
        · rfl
      simp [parseId, isInt_iff.1 hw, this, bind, Except.bind]

/-- **C82 (the two maps of the result).** If every state has at most one line, the two maps list the same pairs. -/
theorem C82_inverse_partial {text h : List Char} {ls : List (List Char)} {ys : List (Nat × List Nat)}
    (h1 : Lines text (h :: ls)) (h3 : List.Forall₂ IsStateLine ls ys)
    (h4 : (ys.map Prod.fst).Nodup) {r : LabState} {ids : Dict Nat String} (hp : parseLabelFile text = .ok (r, ids)) :
    ∀ l s, (∃ S, r.1.get? l = some S ∧ s ∈ S) ↔ ∃ L, r.2.get? s = some L ∧ l ∈ L := by
  obtain ⟨h', ls', xs', ys', k1, k2, k3, k4, k5, k6, k7, k8, k9⟩ := C82_load hp
  have el := (lines_iff.1 h1).symm.trans (lines_iff.1 k1)
  cases el
  have ey : ys = ys' := by
    clear k1 k2 k4 k5 k6 k7 k8 k9 h1 h4
    induction h3 generalizing ys' with
    | nil => cases k3; rfl
    | cons a b ih =>
      rename_i line y _ _
      cases k3 with
      | cons a' b' =>
        rename_i y' _
        rw [ih _ b']
        congr 1
        obtain ⟨ds, g, ws, c1, c2, c3, c4⟩ := a
        obtain ⟨ds', g', ws', d1, d2, d3, d4⟩ := a'
        obtain ⟨rfl, rfl⟩ := stateLine_unique c1 d1
        have := (fields_iff.1 c3).symm.trans (fields_iff.1 d3)
        subst this
        refine Prod.ext (c2.trans d2.symm) ?_
        clear c3 d3 c1 d1 c2 d2
        generalize y.2 = u at c4
        generalize y'.2 = v at d4
        induction c4 generalizing v with
        | nil => cases d4; rfl
        | cons p q ih2 =>
          cases d4 with
          | cons p' q' =>
            rw [ih2 _ q']
            congr 1
            have := (isInt_iff.1 p).symm.trans (isInt_iff.1 p')
            exact_mod_cast Except.ok.inj this
  subst ey
  intro l s
  constructor
  · rintro ⟨S, hS, hs⟩
    obtain ⟨y, hy, rfl, hi⟩ := (k7 l S hS s).1 hs
    obtain ⟨L, hL⟩ := (k8 y.1).2 ⟨y, hy, rfl⟩
    obtain ⟨l1, l2, e⟩ := List.append_of_mem hy
    refine ⟨L, hL, (k9 y.1 L l1 y.2 l2 hL e ?_ l).2 hi⟩
    intro z hz hzs
    rw [e] at h4
    simp only [List.map_append, List.map_cons] at h4
    have := (List.nodup_append.1 h4).2.1
    rw [List.nodup_cons] at this
    exact this.1 (by rw [← hzs]; exact List.mem_map_of_mem hz)
  · rintro ⟨L, hL, hl⟩
    obtain ⟨y, hy, rfl⟩ := (k8 s).1 ⟨L, hL⟩
    obtain ⟨l1, l2, e⟩ := List.append_of_mem hy
    have hlast : ∀ z ∈ l2, z.1 ≠ y.1 := by
      intro z hz hzs
      rw [e] at h4
      simp only [List.map_append, List.map_cons] at h4
      have := (List.nodup_append.1 h4).2.1
      rw [List.nodup_cons] at this
      exact this.1 (by rw [← hzs]; exact List.mem_map_of_mem hz)
    have hi := (k9 y.1 L l1 y.2 l2 hL e hlast l).1 hl
    obtain ⟨i, hi1, hi2⟩ := hi
    obtain ⟨S, hS⟩ := (k6 l).2 (by obtain ⟨m1, m2, e3, -⟩ := hi2; exact ⟨i, by rw [e3]; simp⟩)
    exact ⟨S, hS, (k7 l S hS _).2 ⟨y, hy, rfl, i, hi1, hi2⟩⟩

/-- **C82 (negative).** With two lines for a state the maps disagree: here state 0 is among the states of `a`, but `a` is not among
the labels of state 0. -/
theorem C82_inverse_false : ∃ text r ids, parseLabelFile text = .ok (r, ids) ∧ r.1.get? "a" = some [0] ∧ r.2.get? 0 = some ["b"] := by
  obtain ⟨r, h1, h2⟩ := exists_of_ok_and (x := parseLabelFile "0=\"a\" 1=\"b\"\n0: 0\n0: 1".toList)
    (p := fun r => decide (r.1.1.get? "a" = some [0] ∧ r.1.2.get? 0 = some ["b"])) (by decide +kernel)
  exact ⟨_, r.1, r.2, h1, of_decide_eq_true h2⟩

/- a file with text between the labels, a number used twice, a label with blanks, a line with text before the state -/

example : ∃ r ids, parseLabelFile "labels: 0=\"init\", 1=\"x\" 1=\"goal a\"\r\nstate 10: 1 0\n3:\t0 _; no more".toList = .ok (r, ids) ∧
    r.1.get? "init" = some [10, 3] ∧ r.1.get? "goal a" = some [10] ∧ r.1.get? "x" = some [] ∧ ids.get? 1 = some "goal a" := by
  obtain ⟨r, h1, h2⟩ := exists_of_ok_and
    (x := parseLabelFile "labels: 0=\"init\", 1=\"x\" 1=\"goal a\"\r\nstate 10: 1 0\n3:\t0 _; no more".toList)
    (p := fun r => decide (r.1.1.get? "init" = some [10, 3] ∧ r.1.1.get? "goal a" = some [10] ∧ r.1.1.get? "x" = some [] ∧
      r.2.get? 1 = some "goal a")) (by decide +kernel)
  exact ⟨r.1, r.2, h1, of_decide_eq_true h2⟩

/- a sign; a negative number -/
example : (match parseLabelFile "10=\"a\"\n0: +10\n".toList with | .ok r => r.1.1.get? "a" == some [0] | _ => false) = true := by
  decide +kernel
example : (match parseLabelFile "1=\"a\"\n0: -1\n".toList with | .error x => x == .keyError | _ => false) = true := by
  decide +kernel

/- a blank last line, a word that is no number, a number without label -/
example : (match parseLabelFile "0=\"a\"\n0: 0\n\n".toList with | .error x => x == .attributeError | _ => false) = true := by
  decide +kernel
example : (match parseLabelFile "0=\"a\"\n0: 0;\n".toList with | .error x => x == .valueError | _ => false) = true := by
  decide +kernel
example : (match parseLabelFile "0=\"a\"\n0: 1\n".toList with | .error x => x == .keyError | _ => false) = true := by
  decide +kernel

end Verif.Props
