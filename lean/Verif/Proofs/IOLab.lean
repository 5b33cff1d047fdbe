import Verif.Model.IO
import Verif.Proofs.Text
import Verif.Proofs.InvertibleDict
/-! helper lemmas: label files -/
set_option linter.unusedSectionVars false
namespace Verif.Proofs.IOLab
open Verif.Model Verif.Model.Text Verif.Proofs.Text Verif.Proofs.IDict Verif.Model.IDict

theorem mapM_ok {α β : Type} {f : α → Except Err β} {g : α → β} {l : List α}
    (h : ∀ x ∈ l, f x = .ok (g x)) : l.mapM f = .ok (l.map g) := by
  induction l with
  | nil => rfl
  | cons a l ih =>
    rw [List.mapM_cons, h a (by simp), ih fun x hx => h x (by simp [hx])]
    rfl

theorem idxOf?_of_mem {l : List String} {a : String} (h : a ∈ l) : l.idxOf? a = some (l.idxOf a) := by
  induction l with
  | nil => simp at h
  | cons b l ih =>
    rw [List.idxOf?_cons, List.idxOf_cons]
    by_cases hb : b = a
    · subst hb; simp
    · have : a ∈ l := by
        rcases List.mem_cons.1 h with h | h
        · exact absurd h.symm hb
        · exact h
      have hbe : (b == a) = false := by simp [hb]
      simp [hbe, ih this]

/-- a label that survives writing and reading -/
def Clean (l : String) : Prop := '"' ∉ l.toList ∧ '\n' ∉ l.toList ∧ '\r' ∉ l.toList

/-- the entry of a label in the header -/
def mark (li : String × Nat) : List Char := fmtD li.2 ++ '=' :: '"' :: li.1.toList ++ ['"']

theorem joinSp_cons₂ (w v : List Char) (vs : List (List Char)) :
    joinSp (w :: v :: vs) = w ++ ' ' :: joinSp (v :: vs) := by
  simp [joinSp, List.intercalate]

theorem mem_joinSp {ws : List (List Char)} {c : Char} (h : c ∈ joinSp ws) : c = ' ' ∨ ∃ w ∈ ws, c ∈ w := by
  induction ws with
  | nil => simp [joinSp, List.intercalate] at h
  | cons w ws ih =>
    cases ws with
    | nil => right; exact ⟨w, by simp, by simpa [joinSp, List.intercalate] using h⟩
    | cons v vs =>
      rw [joinSp_cons₂] at h
      rcases List.mem_append.1 h with h | h
      · exact Or.inr ⟨w, by simp, h⟩
      · rcases List.mem_cons.1 h with h | h
        · exact Or.inl h
        · rcases ih h with h | ⟨u, hu, h⟩
          · exact Or.inl h
          · exact Or.inr ⟨u, by simp [hu], h⟩

theorem marks_header (li : List (String × Nat)) (h : ∀ x ∈ li, Clean x.1) (n : Nat)
    (hn : (joinSp (li.map mark) ++ ['\n']).length ≤ n) :
    marks n (joinSp (li.map mark) ++ ['\n']) = li.map fun x => (fmtD x.2, x.1.toList) := by
  induction li generalizing n with
  | nil =>
    cases n with
    | zero => simp [joinSp, List.intercalate] at hn
    | succ n =>
      simp only [List.map_nil, joinSp, List.intercalate, List.intersperse_nil, List.flatten_nil, List.nil_append]
      rw [marks_skip (by decide), marks_nil]
  | cons x li ih =>
    have hx := h x (by simp)
    cases n with
    | zero => simp at hn
    | succ n =>
      cases li with
      | nil =>
        have e : joinSp ([x].map mark) ++ ['\n'] =
            fmtD x.2 ++ '=' :: '"' :: (x.1.toList ++ '"' :: ['\n']) := by
          simp [joinSp, List.intercalate, mark]
        rw [e] at hn ⊢
        rw [marks_match (fmtD_ne _) (fun c hc => fmtD_digit hc) hx.1 hx.2.1]
        simp only [List.length_append, List.length_cons, List.length_nil] at hn
        cases n with
        | zero => omega
        | succ n => rw [marks_skip (by decide), marks_nil]; simp
      | cons y li =>
        have e : joinSp ((x :: y :: li).map mark) ++ ['\n'] =
            fmtD x.2 ++ '=' :: '"' :: (x.1.toList ++ '"' :: (' ' :: (joinSp ((y :: li).map mark) ++ ['\n']))) := by
          rw [List.map_cons, List.map_cons, joinSp_cons₂]
          simp [mark]
        rw [e] at hn ⊢
        rw [marks_match (fmtD_ne _) (fun c hc => fmtD_digit hc) hx.1 hx.2.1]
        simp only [List.length_append, List.length_cons, List.length_nil] at hn
        cases n with
        | zero => omega
        | succ n =>
          rw [marks_skip (by decide), ih (fun z hz => h z (by simp [hz])) n]
          · simp
          · simp only [List.length_append, List.length_cons, List.length_nil]
            omega

theorem parseHeader_fold (li : List (String × Nat)) (a : Dict Nat String) (b : Dict String (List Nat))
    (h1 : (a.map Prod.fst ++ li.map Prod.snd).Nodup) (h2 : (b.map Prod.fst ++ li.map Prod.fst).Nodup) :
    (li.map fun x => (fmtD x.2, x.1.toList)).foldlM (fun acc m => do
      let i ← pyInt m.1
      Except.ok (acc.1.set i.toNat (String.ofList m.2), acc.2.set (String.ofList m.2) [])) (a, b) =
    (.ok (a ++ li.map (fun x => (x.2, x.1)), b ++ li.map fun x => (x.1, [])) :
      Except Err (Dict Nat String × Dict String (List Nat))) := by
  induction li generalizing a b with
  | nil => simp; rfl
  | cons x li ih =>
    have ha : x.2 ∉ Dict.keys a := by
      simp only [List.map_cons] at h1
      exact fun hc => (List.nodup_append.1 h1).2.2 _ hc _ (by simp) rfl
    have hb : x.1 ∉ Dict.keys b := by
      simp only [List.map_cons] at h2
      exact fun hc => (List.nodup_append.1 h2).2.2 _ hc _ (by simp) rfl
    simp only [List.map_cons, List.foldlM_cons, pyInt_fmtD, bind, Except.bind, String.ofList_toList, Int.toNat_natCast]
    rw [Dict.set_of_not_mem ha, Dict.set_of_not_mem hb]
    have := ih (a ++ [(x.2, x.1)]) (b ++ [(x.1, [])]) (by simpa using h1) (by simpa using h2)
    simp only [bind, Except.bind] at this
    rw [this]
    simp

theorem parseHeader_ok {labs : List String} (hn : labs.Nodup) (hc : ∀ l ∈ labs, Clean l) :
    parseHeader (joinSp (labs.zipIdx.map mark) ++ ['\n']) =
      .ok (labs.zipIdx.map (fun x => (x.2, x.1)), labs.map fun l => (l, [])) := by
  unfold parseHeader
  rw [marks_header _ (fun x hx => hc _ (List.fst_mem_of_mem_zipIdx hx)) _ (by omega)]
  rw [parseHeader_fold]
  · simp only [List.nil_append]
    congr 2
    conv_rhs => rw [← List.zipIdx_map_fst 0 labs]
    rw [List.map_map]; rfl
  · simp only [List.map_nil, List.nil_append]
    rw [List.zipIdx_map_snd]
    exact List.nodup_range'
  · simpa [List.zipIdx_map_fst] using hn

theorem get?_ids (labs : List String) (i : Nat) :
    Dict.get? (labs.zipIdx.map fun x => (x.2, x.1)) i = labs[i]? := by
  have key : ∀ (labs : List String) (k i : Nat),
      Dict.get? ((labs.zipIdx k).map fun x => (x.2, x.1)) (k + i) = labs[i]? := by
    intro labs
    induction labs with
    | nil => simp [Dict.get?]
    | cons l labs ih =>
      intro k i
      cases i with
      | zero => simp [Dict.get?]
      | succ i =>
        have := ih (k + 1) i
        simp only [List.zipIdx_cons, List.map_cons, Dict.get?]
        rw [if_neg (by omega), show k + (i + 1) = k + 1 + i by omega, this]
        simp
  simpa using key labs 0 i

/-- processing the label numbers of one state -/
theorem parseId_fold {labs : List String} {ids : Dict Nat String}
    (hid : ∀ i, ids.get? i = labs[i]?) (s : Nat) (ls : List String) (idx : String → Nat)
    (hidx : ∀ l ∈ ls, labs[idx l]? = some l) (acc : LabState) :
    (ls.map fun l => fmtD (idx l)).foldlM (parseId ids s) acc =
      .ok (ls.foldl (fun d l => addTo d l s) acc.1, ls.foldl (fun d l => addTo d s l) acc.2) := by
  induction ls generalizing acc with
  | nil => rfl
  | cons l ls ih =>
    simp only [List.map_cons, List.foldlM_cons, List.foldl_cons]
    have : parseId ids s acc (fmtD (idx l)) = .ok (addTo acc.1 l s, addTo acc.2 s l) := by
      simp only [parseId, pyInt_fmtD, bind, Except.bind, Int.toNat_natCast, Int.natCast_nonneg, if_true, hid, hidx l (by simp)]
      rfl
    rw [this]
    exact ih (fun x hx => hidx x (by simp [hx])) _

theorem has_fold₁ (ls : List String) (d : Dict String (List Nat)) (s : Nat) (l : String) (t : Nat) :
    Has (ls.foldl (fun d l => addTo d l s) d) l t ↔ Has d l t ∨ (t = s ∧ l ∈ ls) := by
  induction ls generalizing d with
  | nil => simp
  | cons a ls ih =>
    simp only [List.foldl_cons, ih, has_addTo, List.mem_cons]
    tauto

theorem has_fold₂ (ls : List String) (d : Dict Nat (List String)) (s : Nat) (l : String) (t : Nat) :
    Has (ls.foldl (fun d l => addTo d s l) d) t l ↔ Has d t l ∨ (t = s ∧ l ∈ ls) := by
  induction ls generalizing d with
  | nil => simp
  | cons a ls ih =>
    simp only [List.foldl_cons, ih, has_addTo, List.mem_cons]
    tauto

theorem keys_addTo {α β : Type} [DecidableEq α] [DecidableEq β] {d : Dict α (List β)} {k : α} {v : β}
    (h : k ∈ Dict.keys d) : Dict.keys (addTo d k v) = Dict.keys d := Dict.keys_set_of_mem h

theorem keys_fold₁ (ls : List String) (d : Dict String (List Nat)) (s : Nat) (h : ∀ l ∈ ls, l ∈ Dict.keys d) :
    Dict.keys (ls.foldl (fun d l => addTo d l s) d) = Dict.keys d := by
  induction ls generalizing d with
  | nil => rfl
  | cons a ls ih =>
    simp only [List.foldl_cons]
    rw [ih, keys_addTo (h a (by simp))]
    rw [keys_addTo (h a (by simp))]
    exact fun l hl => h l (by simp [hl])

theorem keys_fold₂ (ls : List String) (d : Dict Nat (List String)) (s : Nat) (h : s ∈ Dict.keys d) :
    Dict.keys (ls.foldl (fun d l => addTo d s l) d) = Dict.keys d := by
  induction ls generalizing d with
  | nil => rfl
  | cons a ls ih =>
    simp only [List.foldl_cons]
    rw [ih, keys_addTo h]
    rw [keys_addTo h]; exact h

theorem ok_fold₁ (ls : List String) {d : Dict String (List Nat)} (s : Nat) (h : SetsOK d) :
    SetsOK (ls.foldl (fun d l => addTo d l s) d) := by
  induction ls generalizing d with
  | nil => exact h
  | cons a ls ih => exact ih (ok_addTo h _ _)

theorem ok_fold₂ (ls : List String) {d : Dict Nat (List String)} (s : Nat) (h : SetsOK d) :
    SetsOK (ls.foldl (fun d l => addTo d s l) d) := by
  induction ls generalizing d with
  | nil => exact h
  | cons a ls ih => exact ih (ok_addTo h _ _)

/-- the line of a state without the final newline -/
def stateLine (idx : String → Nat) (e : Nat × List String) : List Char :=
  fmtD e.1 ++ ':' :: ' ' :: joinSp (e.2.map fun l => fmtD (idx l))

theorem parseLine_ok {labs : List String} {ids : Dict Nat String}
    (hid : ∀ i, ids.get? i = labs[i]?) (e : Nat × List String) (idx : String → Nat)
    (hidx : ∀ l ∈ e.2, labs[idx l]? = some l) (acc : LabState) :
    parseLine ids acc (stateLine idx e ++ ['\n']) =
      .ok (e.2.foldl (fun d l => addTo d l e.1) acc.1,
        e.2.foldl (fun d l => addTo d e.1 l) (acc.2.set e.1 [])) := by
  have hs : searchLine (stateLine idx e ++ ['\n']) =
      some (fmtD e.1, ' ' :: (joinSp (e.2.map fun l => fmtD (idx l)) ++ ['\n'])) := by
    have := searchLine_match (g := ' ' :: (joinSp (e.2.map fun l => fmtD (idx l)) ++ ['\n']))
      (fmtD_ne e.1) (fun c hc => fmtD_digit hc) (by simp) (by
        intro c hc
        simp only [List.mem_cons, List.mem_append, List.not_mem_nil, or_false] at hc
        rcases hc with rfl | hc | rfl
        · decide
        · rcases mem_joinSp hc with rfl | ⟨w, hw, hc⟩
          · decide
          · obtain ⟨l, -, rfl⟩ := List.mem_map.1 hw
            simp [inClass, fmtD_digit hc]
        · decide)
    rw [← this]
    simp [stateLine]
  unfold parseLine
  rw [hs]
  simp only [pyInt_fmtD, bind, Except.bind, Int.toNat_natCast]
  rw [split_space (by decide), split_joinSp _ (by decide)]
  · rw [parseId_fold hid e.1 e.2 idx hidx]
  · intro w hw
    obtain ⟨l, -, rfl⟩ := List.mem_map.1 hw
    exact ⟨fmtD_ne _, fmtD_word _⟩

/-- processing all state lines -/
theorem parseLines_ok {labs : List String} {ids : Dict Nat String}
    (hid : ∀ i, ids.get? i = labs[i]?) (idx : String → Nat) (es : List (Nat × List String))
    (hidx : ∀ e ∈ es, ∀ l ∈ e.2, labs[idx l]? = some l) (hes : (es.map Prod.fst).Nodup) (acc : LabState)
    (h1 : Dict.keys acc.1 = labs) (h2 : SetsOK acc.1) (h3 : SetsOK acc.2)
    (h4 : ∀ e ∈ es, e.1 ∉ Dict.keys acc.2) :
    ∃ r, (es.map fun e => stateLine idx e ++ ['\n']).foldlM (parseLine ids) acc = .ok r ∧
      Dict.keys r.1 = labs ∧ SetsOK r.1 ∧ SetsOK r.2 ∧
      Dict.keys r.2 = Dict.keys acc.2 ++ es.map Prod.fst ∧
      (∀ l t, Has r.1 l t ↔ Has acc.1 l t ∨ ∃ e ∈ es, e.1 = t ∧ l ∈ e.2) ∧
      (∀ l t, Has r.2 t l ↔ Has acc.2 t l ∨ ∃ e ∈ es, e.1 = t ∧ l ∈ e.2) := by
  induction es generalizing acc with
  | nil => exact ⟨acc, rfl, h1, h2, h3, by simp, by simp, by simp⟩
  | cons e es ih =>
    have hmem : ∀ l ∈ e.2, l ∈ Dict.keys acc.1 := by
      intro l hl
      rw [h1]; exact List.mem_of_getElem? (hidx e (by simp) l hl)
    have hset := Dict.set_of_not_mem (v := ([] : List String)) (h4 e (by simp))
    have hset2 : SetsOK (acc.2.set e.1 []) := by
      refine ⟨Dict.nodup_set h3.1 _ _, fun k s hs => ?_⟩
      rw [Dict.get?_set] at hs
      split at hs
      · cases hs; simp
      · exact h3.2 k s hs
    have hes' := List.nodup_cons.1 hes
    have hk2 : Dict.keys (acc.2.set e.1 []) = Dict.keys acc.2 ++ [e.1] :=
      Dict.keys_set_of_not_mem (h4 e (by simp))
    have hkeys : Dict.keys (e.2.foldl (fun d l => addTo d e.1 l) (acc.2.set e.1 [])) =
        Dict.keys acc.2 ++ [e.1] := by
      rw [keys_fold₂ _ _ _ (by rw [hk2]; simp), hk2]
    obtain ⟨r, r1, r2, r3, r4, r5, r6, r7⟩ := ih (fun x hx => hidx x (by simp [hx])) hes'.2
      (e.2.foldl (fun d l => addTo d l e.1) acc.1, e.2.foldl (fun d l => addTo d e.1 l) (acc.2.set e.1 []))
      (by rw [keys_fold₁ _ _ _ hmem, h1]) (ok_fold₁ _ _ h2) (ok_fold₂ _ _ hset2) (by
        intro x hx
        simp only [hkeys, List.mem_append, List.mem_singleton, not_or]
        refine ⟨h4 x (by simp [hx]), ?_⟩
        rintro hxe
        exact hes'.1 (hxe ▸ List.mem_map_of_mem (f := Prod.fst) hx))
    refine ⟨r, ?_, r2, r3, r4, ?_, ?_, ?_⟩
    · simp only [List.map_cons, List.foldlM_cons]
      rw [parseLine_ok hid e idx (hidx e (by simp))]
      exact r1
    · rw [r5, hkeys]; simp
    · intro l t
      rw [r6, has_fold₁]
      simp only [List.mem_cons, exists_eq_or_imp]
      constructor
      · rintro ((h | ⟨rfl, h⟩) | h)
        · exact Or.inl h
        · exact Or.inr (Or.inl ⟨rfl, h⟩)
        · exact Or.inr (Or.inr h)
      · rintro (h | ⟨rfl, h⟩ | h)
        · exact Or.inl (Or.inl h)
        · exact Or.inl (Or.inr ⟨rfl, h⟩)
        · exact Or.inr h
    · intro l t
      have hh : Has (acc.2.set e.1 []) t l ↔ Has acc.2 t l := by
        unfold Has
        rw [Dict.get?_set]
        split
        · rename_i hk
          subst hk
          rw [Dict.get?_eq_none.2 (h4 e (by simp))]; simp
        · rfl
      rw [r7, has_fold₂, hh]
      simp only [List.mem_cons, exists_eq_or_imp]
      constructor
      · rintro ((h | ⟨rfl, h⟩) | h)
        · exact Or.inl h
        · exact Or.inr (Or.inl ⟨rfl, h⟩)
        · exact Or.inr (Or.inr h)
      · rintro (h | ⟨rfl, h⟩ | h)
        · exact Or.inl (Or.inl h)
        · exact Or.inl (Or.inr ⟨rfl, h⟩)
        · exact Or.inr h

variable {K : Type} [Field K] [LinearOrder K]

/-- entries of the inverse that are written -/
def entries (π : List Nat → List Nat) (π' : List String → List String) (M : Sys K) : List (Nat × List String) :=
  ((M.labS.force π).flip.d.filter fun e => !e.2.isEmpty).map fun e => (e.1, π' e.2)

theorem saveLab_ok {π : List Nat → List Nat} {π' : List String → List String} (hπ : ∀ l, (π l).Perm l)
    (hπ' : ∀ l, (π' l).Perm l) {M : Sys K} (hI : Inv M.labS) :
    M.saveLab π π' = .ok (joinSp (M.labS.d.keys.zipIdx.map mark) ++ '\n' ::
        ((entries π π' M).map fun e => stateLine (fun l => M.labS.d.keys.idxOf l) e ++ ['\n']).flatten) ∧
      (∀ e ∈ entries π π' M, ∀ l ∈ e.2, M.labS.d.keys[M.labS.d.keys.idxOf l]? = some l) ∧
      ((entries π π' M).map Prod.fst).Nodup ∧
      (∀ l t, (∃ e ∈ entries π π' M, e.1 = t ∧ l ∈ e.2) ↔ Has M.labS.d l t) ∧
      (∀ e ∈ entries π π' M, e.2 ≠ []) := by
  obtain ⟨a, b, c, i, hi⟩ := hI.force hπ
  have hfd : (M.labS.force π).flip.d = i := by simp [IDict.flip, hi]
  have hok := a.oki i hi
  have hconv : ∀ l t, Has M.labS.d l t ↔ Has i t l := by
    intro l t
    rw [← a.conv i hi]
    unfold IDict.force; split <;> rfl
  have hlab : ∀ e ∈ i, ∀ l ∈ e.2, l ∈ Dict.keys M.labS.d := by
    rintro ⟨s, ls⟩ he l hl
    have : Has i s l := by
      unfold Has; rw [Dict.get?_of_mem hok.1 he]; exact hl
    have := (hconv l s).2 this
    rw [← Dict.get?_isSome]
    unfold Has at this
    cases hg : M.labS.d.get? l with
    | none => simp [hg] at this
    | some _ => rfl
  have hix : ∀ e ∈ i, ∀ l ∈ e.2, M.labS.d.keys[M.labS.d.keys.idxOf l]? = some l := by
    intro e he l hl
    exact List.getElem?_idxOf (hlab e he l hl)
  refine ⟨?_, ?_, ?_, ?_, ?_⟩
  · unfold Sys.saveLab
    simp only [bind, Except.bind]
    rw [hfd, mapM_ok (g := fun e => stateLine (fun l => M.labS.d.keys.idxOf l) (e.1, π' e.2) ++ ['\n'])]
    · simp only [entries, hfd, List.map_map]
      rfl
    · intro e he
      have hei := (List.mem_filter.1 he).1
      rw [mapM_ok (g := fun l => fmtD (M.labS.d.keys.idxOf l))]
      · simp [stateLine]
      · intro l hl
        rw [idxOf?_of_mem (hlab e hei l ((hπ' _).mem_iff.1 hl))]
  · intro e he l hl
    obtain ⟨e', he', rfl⟩ := List.mem_map.1 he
    rw [hfd] at he'
    exact hix e' (List.mem_filter.1 he').1 l ((hπ' _).mem_iff.1 hl)
  · simp only [entries, hfd, List.map_map]
    exact (List.filter_sublist.map _).nodup hok.1
  · intro l t
    rw [hconv]
    constructor
    · rintro ⟨e, he, rfl, hl⟩
      obtain ⟨e', he', rfl⟩ := List.mem_map.1 he
      rw [hfd] at he'
      unfold Has
      rw [Dict.get?_of_mem hok.1 (List.mem_filter.1 he').1]
      exact (hπ' _).mem_iff.1 hl
    · intro h
      unfold Has at h
      cases hg : i.get? t with
      | none => simp [hg] at h
      | some ls =>
        rw [hg] at h
        have hl : l ∈ ls := h
        refine ⟨(t, π' ls), List.mem_map.2 ⟨(t, ls), List.mem_filter.2 ⟨?_, ?_⟩, rfl⟩, rfl, (hπ' _).mem_iff.2 hl⟩
        · rw [hfd]; exact Dict.mem_of_get? hg
        · cases ls with
          | nil => simp at hl
          | cons _ _ => rfl
  · intro e he
    obtain ⟨e', he', rfl⟩ := List.mem_map.1 he
    have := (List.mem_filter.1 he').2
    intro hnil
    have := (hπ' e'.2).length_eq
    rw [show π' e'.2 = [] from hnil] at this
    cases h : e'.2 with
    | nil => simp [h] at *
    | cons _ _ => simp [h] at this

/-- a text written by `save` is read back line by line -/
theorem readLines_text {h : List Char} {ls : List (List Char)} (h1 : '\n' ∉ h) (h2 : '\r' ∉ h)
    (h3 : ∀ l ∈ ls, '\n' ∉ l ∧ '\r' ∉ l) :
    readLines (h ++ '\n' :: (ls.map fun l => l ++ ['\n']).flatten) =
      (h ++ ['\n']) :: ls.map fun l => l ++ ['\n'] := by
  unfold readLines
  rw [universal_of_noCR, splitLines_line h1]
  · have := splitLines_lines (fun l hl => (h3 l hl).1) []
    simp only [List.append_nil, splitLines] at this
    rw [this]
  · simp only [List.mem_append, List.mem_cons, List.mem_flatten, List.mem_map, not_or, not_exists, not_and]
    refine ⟨h2, by decide, ?_⟩
    rintro x ⟨l, hl, rfl⟩
    simp only [List.mem_append, List.mem_singleton, not_or]
    exact ⟨(h3 l hl).2, by decide⟩

theorem header_plain {li : List (String × Nat)} (h : ∀ x ∈ li, Clean x.1) :
    '\n' ∉ joinSp (li.map mark) ∧ '\r' ∉ joinSp (li.map mark) := by
  have key : ∀ c, c.isDigit = false → c ≠ ' ' → c ≠ '=' → c ≠ '"' → (∀ x ∈ li, c ∉ x.1.toList) →
      c ∉ joinSp (li.map mark) := by
    intro c h1 h2 h3 h4 h5 hc
    rcases mem_joinSp hc with rfl | ⟨w, hw, hc⟩
    · exact h2 rfl
    · obtain ⟨x, hx, rfl⟩ := List.mem_map.1 hw
      simp only [mark, List.mem_append, List.mem_cons, List.not_mem_nil, or_false] at hc
      rcases hc with (hc | rfl | rfl | hc) | rfl
      · rw [fmtD_digit hc] at h1; cases h1
      · exact h3 rfl
      · exact h4 rfl
      · exact h5 x hx hc
      · exact h4 rfl
  exact ⟨key _ (by decide) (by decide) (by decide) (by decide) fun x hx => (h x hx).2.1,
    key _ (by decide) (by decide) (by decide) (by decide) fun x hx => (h x hx).2.2⟩

theorem stateLine_plain (idx : String → Nat) (e : Nat × List String) :
    '\n' ∉ stateLine idx e ∧ '\r' ∉ stateLine idx e := by
  have key : ∀ c, c.isDigit = false → c ≠ ' ' → c ≠ ':' → c ∉ stateLine idx e := by
    intro c h1 h2 h3 hc
    simp only [stateLine, List.mem_append, List.mem_cons] at hc
    rcases hc with hc | rfl | rfl | hc
    · rw [fmtD_digit hc] at h1; cases h1
    · exact h3 rfl
    · exact h2 rfl
    · rcases mem_joinSp hc with rfl | ⟨w, hw, hc⟩
      · exact h2 rfl
      · obtain ⟨l, -, rfl⟩ := List.mem_map.1 hw
        rw [fmtD_digit hc] at h1; cases h1
  exact ⟨key _ (by decide) (by decide) (by decide), key _ (by decide) (by decide) (by decide)⟩

/-- writing and reading labels -/
theorem roundtrip_lab {π : List Nat → List Nat} {π' : List String → List String} (hπ : ∀ l, (π l).Perm l)
    (hπ' : ∀ l, (π' l).Perm l) {M : Sys K} (hI : Inv M.labS) (hc : ∀ l ∈ M.labS.d.keys, Clean l) :
    ∃ text r ids, M.saveLab π π' = .ok text ∧ parseLabelFile text = .ok (r, ids) ∧
      Dict.keys r.1 = M.labS.d.keys ∧ SetsOK r.1 ∧ SetsOK r.2 ∧
      (∀ l t, Has r.1 l t ↔ Has M.labS.d l t) ∧
      (∀ l t, Has r.2 t l ↔ Has M.labS.d l t) ∧
      (∀ t, t ∈ Dict.keys r.2 ↔ ∃ l, Has M.labS.d l t) ∧
      (∀ i, ids.get? i = M.labS.d.keys[i]?) := by
  obtain ⟨s1, s2, s3, s4, s5⟩ := saveLab_ok hπ hπ' hI
  have hzc : ∀ x ∈ M.labS.d.keys.zipIdx, Clean x.1 := fun x hx => hc _ (List.fst_mem_of_mem_zipIdx hx)
  have hrl := readLines_text (h := joinSp (M.labS.d.keys.zipIdx.map mark))
    (ls := (entries π π' M).map fun e => stateLine (fun l => M.labS.d.keys.idxOf l) e)
    (header_plain hzc).1 (header_plain hzc).2 (by
      intro l hl
      obtain ⟨e, -, rfl⟩ := List.mem_map.1 hl
      exact stateLine_plain _ _)
  rw [List.map_map] at hrl
  simp only [Function.comp_def] at hrl
  have h0 : Dict.keys (M.labS.d.keys.map fun l => (l, ([] : List Nat))) = M.labS.d.keys := by
    simp [Dict.keys]
  have hno : ∀ l t, ¬ Has (M.labS.d.keys.map fun l => (l, ([] : List Nat))) l t := by
    intro l t h
    unfold Has at h
    cases hg : Dict.get? (M.labS.d.keys.map fun l => (l, ([] : List Nat))) l with
    | none => simp [hg] at h
    | some v =>
      obtain ⟨x, -, hx⟩ := List.mem_map.1 (Dict.mem_of_get? hg)
      simp only [Prod.mk.injEq] at hx
      rw [hg, ← hx.2] at h; simp at h
  have hsets : SetsOK (M.labS.d.keys.map fun l => (l, ([] : List Nat))) := by
    refine ⟨by rw [h0]; exact hI.ok.1, fun k s hs => ?_⟩
    obtain ⟨x, -, hx⟩ := List.mem_map.1 (Dict.mem_of_get? hs)
    simp only [Prod.mk.injEq] at hx
    rw [← hx.2]; simp
  obtain ⟨r, r1, r2, r3, r4, r5, r6, r7⟩ := parseLines_ok (get?_ids M.labS.d.keys)
    (fun l => M.labS.d.keys.idxOf l) (entries π π' M) s2 s3
    (M.labS.d.keys.map fun l => (l, ([] : List Nat)), []) h0 hsets
    ⟨by simp [Dict.keys], by simp [Dict.get?]⟩ (by simp [Dict.keys])
  refine ⟨_, r, _, s1, ?_, r2, r3, r4, ?_, ?_, ?_, get?_ids _⟩
  · unfold parseLabelFile
    rw [hrl]
    simp only
    rw [parseHeader_ok hI.ok.1 hc]
    simp only [bind, Except.bind]
    rw [r1]
  · intro l t
    rw [r6, ← s4]
    simp [hno]
  · intro l t
    rw [r7, ← s4]
    simp [Has, Dict.get?]
  · intro t
    rw [r5]
    simp only [Dict.keys, List.map_nil, List.nil_append, List.mem_map]
    constructor
    · rintro ⟨e, he, rfl⟩
      obtain ⟨l, ls, hls⟩ := List.exists_cons_of_ne_nil (s5 e he)
      exact ⟨l, (s4 l e.1).1 ⟨e, he, rfl, by rw [hls]; simp⟩⟩
    · rintro ⟨l, hl⟩
      obtain ⟨e, he, h, -⟩ := (s4 l t).2 hl
      exact ⟨e, he, h⟩

/-- label names read from any file are clean -/
theorem parse_clean {text : List Char} {r : LabState} {ids : Dict Nat String}
    (h : parseLabelFile text = .ok (r, ids)) : ∀ l ∈ Dict.keys r.1, Clean l := by
  unfold parseLabelFile at h
  split at h
  · cases h
  · rename_i hd ls hr
    have hcr : '\r' ∉ hd := by
      intro hc
      have hin : ∀ (t : List Char) (l : List Char), l ∈ splitLines t → ∀ c ∈ l, c ∈ t := by
        intro t
        induction t with
        | nil => intro l hl; simp [splitLines] at hl
        | cons c t ih =>
          intro l hl x hx
          rw [splitLines] at hl
          split at hl
          · rename_i hcn
            rcases List.mem_cons.1 hl with rfl | hl
            · simp only [List.mem_singleton] at hx; simp [hx, hcn]
            · exact List.mem_cons_of_mem _ (ih l hl x hx)
          · split at hl
            · simp only [List.mem_singleton] at hl
              subst hl
              simp only [List.mem_singleton] at hx; simp [hx]
            · rename_i l' ls' hs
              rcases List.mem_cons.1 hl with rfl | hl
              · rcases List.mem_cons.1 hx with rfl | hx
                · simp
                · exact List.mem_cons_of_mem _ (ih l' (by rw [hs]; simp) x hx)
              · exact List.mem_cons_of_mem _ (ih l (by rw [hs]; simp [hl]) x hx)
      exact noCR_universal text (hin _ hd (by unfold readLines at hr; rw [hr]; simp) _ hc)
    have hmk := marks_clean (hd.length + 1) hd
    -- names in the header
    have hfold : ∀ (ms : List (List Char × List Char)) (acc res : Dict Nat String × Dict String (List Nat)),
        (∀ m ∈ ms, '"' ∉ m.2 ∧ '\n' ∉ m.2 ∧ ∀ c ∈ m.2, c ∈ hd) →
        (∀ i l, acc.1.get? i = some l → l ∈ Dict.keys acc.2) →
        (∀ l ∈ Dict.keys acc.2, Clean l) →
        ms.foldlM (fun acc m => do
          let i ← pyInt m.1
          Except.ok (acc.1.set i.toNat (String.ofList m.2), acc.2.set (String.ofList m.2) [])) acc = .ok res →
        (∀ i l, res.1.get? i = some l → l ∈ Dict.keys res.2) ∧ ∀ l ∈ Dict.keys res.2, Clean l := by
      intro ms
      induction ms with
      | nil => intro acc res _ h1 h2 h3; cases h3; exact ⟨h1, h2⟩
      | cons m ms ih =>
        intro acc res h0 h1 h2 h3
        simp only [List.foldlM_cons, bind, Except.bind] at h3
        cases hp : pyInt m.1 with
        | error e => rw [hp] at h3; cases h3
        | ok i =>
          rw [hp] at h3
          refine ih _ res (fun x hx => h0 x (by simp [hx])) ?_ ?_ h3
          · intro j l hj
            simp only at hj ⊢
            rw [Dict.get?_set] at hj
            rw [Dict.mem_keys_set]
            split at hj
            · cases hj; exact Or.inl rfl
            · exact Or.inr (h1 j l hj)
          · intro l hl
            simp only at hl
            rcases Dict.mem_keys_set.1 hl with rfl | hl
            · have := h0 m (by simp)
              refine ⟨by simpa using this.1, by simpa using this.2.1, ?_⟩
              simp only [String.toList_ofList]
              exact fun hc => hcr (this.2.2 _ hc)
            · exact h2 l hl
    simp only [bind, Except.bind] at h
    cases hph : parseHeader hd with
    | error e => rw [hph] at h; cases h
    | ok q =>
      rw [hph] at h
      obtain ⟨f1, f2⟩ := hfold _ ([], []) q hmk (by simp [Dict.get?]) (by simp [Dict.keys]) hph
      simp only at h
      cases hpl : ls.foldlM (parseLine q.1) (q.2, []) with
      | error e => rw [hpl] at h; cases h
      | ok r' =>
        rw [hpl] at h
        simp only [Except.ok.injEq, Prod.mk.injEq] at h
        obtain ⟨rfl, -⟩ := h
        have hid : ∀ (ws : List (List Char)) (s : Nat) (acc res : LabState),
            (∀ l ∈ Dict.keys acc.1, Clean l) → ws.foldlM (parseId q.1 s) acc = .ok res →
            ∀ l ∈ Dict.keys res.1, Clean l := by
          intro ws s
          induction ws with
          | nil => intro acc res h1 h2; cases h2; exact h1
          | cons w ws ih =>
            intro acc res h1 h2
            simp only [List.foldlM_cons, bind, Except.bind] at h2
            cases hp : parseId q.1 s acc w with
            | error e => rw [hp] at h2; cases h2
            | ok acc' =>
              rw [hp] at h2
              refine ih acc' res ?_ h2
              unfold parseId at hp
              simp only [bind, Except.bind] at hp
              split at hp
              · cases hp
              · split at hp
                · cases hp
                · rename_i l hg
                  have hg := (Option.ite_none_right_eq_some.1 hg).2
                  cases hp
                  intro l' hl'
                  rcases Dict.mem_keys_set.1 hl' with rfl | hl'
                  · exact f2 _ (f1 _ _ hg)
                  · exact h1 l' hl'
        have hlines : ∀ (ls : List (List Char)) (acc res : LabState),
            (∀ l ∈ Dict.keys acc.1, Clean l) → ls.foldlM (parseLine q.1) acc = .ok res →
            ∀ l ∈ Dict.keys res.1, Clean l := by
          intro ls
          induction ls with
          | nil => intro acc res h1 h2; cases h2; exact h1
          | cons w ws ih =>
            intro acc res h1 h2
            simp only [List.foldlM_cons, bind, Except.bind] at h2
            cases hp : parseLine q.1 acc w with
            | error e => rw [hp] at h2; cases h2
            | ok acc' =>
              rw [hp] at h2
              refine ih acc' res ?_ h2
              unfold parseLine at hp
              split at hp
              · cases hp
              · rename_i g1 g2 hg
                simp only [bind, Except.bind] at hp
                split at hp
                · cases hp
                · exact hid _ _ (acc.1, acc.2.set _ []) _ h1 hp
        exact hlines ls _ _ f2 hpl

end Verif.Proofs.IOLab
