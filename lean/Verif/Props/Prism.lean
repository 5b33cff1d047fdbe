import Verif.Model.Prism
import Verif.Props.ExampleTools
/-! # C54: constants and labels passed to PRISM -/
namespace Verif.Props
open Verif.Model Verif.Model.Prism

/-- the documented call: `-const N=2,M=3` if there are constants, and one `label "name" = expression;` line
for every extra label -/
def documentedCall (model tmp dest : String) (consts extra : Dict String String) : Call :=
  ⟨["prism", tmp] ++
      (if consts = [] then [] else ["-const", Prism.join "," (consts.map fun e => e.1 ++ "=" ++ e.2)]) ++
      ["-exportmodel", dest ++ ".tra,sta,lab"],
    model ++ String.join (extra.map fun e => "label \"" ++ e.1 ++ "\" = " ++ e.2 ++ ";\n")⟩

theorem mapM_unpack (f : String × String → String) (ks : List String) :
    (∀ k ∈ ks, k.length = 2) ∧
        (∃ cs, (ks.mapM fun key => do
          let ci ← unpack2 key
          Except.ok (f ci)) = Except.ok cs ∧ cs.length = ks.length ∧
            ∀ c ∈ cs, ∃ a b : Char, c = f (String.singleton a, String.singleton b)) ∨
      (∃ k ∈ ks, k.length ≠ 2) ∧ (ks.mapM fun key => do
          let ci ← unpack2 key
          Except.ok (f ci)) = Except.error Err.valueError := by
  induction ks with
  | nil => left; exact ⟨by simp, [], rfl, rfl, by simp⟩
  | cons k ks ih =>
    rw [List.mapM_cons]
    unfold unpack2
    by_cases hk : k.length = 2
    · obtain ⟨a, b, hab⟩ : ∃ a b, k.toList = [a, b] := by
        rw [← String.length_toList] at hk
        match h : k.toList, hk with
        | [a, b], _ => exact ⟨a, b, rfl⟩
      rw [hab]
      rcases ih with ⟨h1, cs, h2, h3, h4⟩ | ⟨⟨k', h1, h1'⟩, h2⟩
      · left
        refine ⟨by simpa [hk] using h1, f (String.singleton a, String.singleton b) :: cs, ?_, by simp [h3], ?_⟩
        · simp only [bind, Except.bind]
          unfold unpack2 at h2
          simp only [bind, Except.bind] at h2
          rw [h2]; rfl
        · intro c hc
          rcases List.mem_cons.1 hc with rfl | hc
          · exact ⟨a, b, rfl⟩
          · exact h4 c hc
      · right
        refine ⟨⟨k', by simp [h1], h1'⟩, ?_⟩
        simp only [bind, Except.bind]
        unfold unpack2 at h2
        simp only [bind, Except.bind] at h2
        rw [h2]
    · right
      refine ⟨⟨k, by simp, hk⟩, ?_⟩
      have : ∀ a b, k.toList ≠ [a, b] := by
        intro a b h
        rw [← String.length_toList, h] at hk
        exact hk rfl
      split
      · rename_i a b h; exact absurd h (this a b)
      · rfl

/-- **C54 (partial).** Without constants and extra labels the documented call is made.  Missing for the
claim: with constants it is never made, see `C54_never`. -/
theorem C54_empty_partial (model tmp dest : String) :
    prismCall model tmp dest [] [] = .ok (documentedCall model tmp dest [] []) := by
  have h : ([] : List String).mapM (fun key => do
      let ne ← unpack2 key
      Except.ok ("label \"" ++ ne.1 ++ "\" = " ++ ne.2 ++ ";" ++ "\n")) = Except.ok [] := rfl
  unfold prismCall constStrings labelLines documentedCall
  rw [show Dict.keys ([] : Dict String String) = [] from rfl, h]
  simp [bind, Except.bind]

/-- **C54 (failure).** `prism_to_tra` raises `ValueError` exactly if the name of a constant or of an extra
label does not have two characters (e.g. for the constant `N`). -/
theorem C54_raises (model tmp dest : String) (consts extra : Dict String String) :
    (prismCall model tmp dest consts extra = .error .valueError ↔
      ∃ k ∈ consts.map Prod.fst ++ extra.map Prod.fst, k.length ≠ 2) ∧
    ∀ runs, prismCall model tmp dest consts extra = .error .valueError →
      prismToTra runs model tmp dest consts extra = .error .valueError := by
  constructor
  · unfold prismCall constStrings labelLines
    have hc := mapM_unpack (fun ci => ci.1 ++ "=" ++ ci.2) consts.keys
    have he := mapM_unpack (fun ne => "label \"" ++ ne.1 ++ "\" = " ++ ne.2 ++ ";" ++ "\n") extra.keys
    simp only [bind, Except.bind] at hc he ⊢
    simp only [List.mem_append]
    by_cases hl : consts.length > 0
    · rw [if_pos hl]
      rcases hc with ⟨h1, cs, h2, -, -⟩ | ⟨⟨k, h1, h1'⟩, h2⟩
      · rw [h2]
        rcases he with ⟨g1, ls, g2, -, -⟩ | ⟨⟨k, g1, g1'⟩, g2⟩
        · rw [g2]
          constructor
          · intro h; cases h
          · rintro ⟨k, hk | hk, hk'⟩
            · exact absurd (h1 k hk) hk'
            · exact absurd (g1 k hk) hk'
        · rw [g2]
          exact ⟨fun _ => ⟨k, Or.inr g1, g1'⟩, fun _ => rfl⟩
      · rw [h2]
        exact ⟨fun _ => ⟨k, Or.inl h1, h1'⟩, fun _ => rfl⟩
    · have h0 : consts = [] := List.length_eq_zero_iff.1 (by omega)
      subst h0
      rw [if_neg hl]
      rcases he with ⟨g1, ls, g2, -, -⟩ | ⟨⟨k, g1, g1'⟩, g2⟩
      · rw [g2]
        constructor
        · intro h; cases h
        · rintro ⟨k, hk | hk, hk'⟩
          · cases hk
          · exact absurd (g1 k hk) hk'
      · rw [g2]
        exact ⟨fun _ => ⟨k, Or.inr g1, g1'⟩, fun _ => rfl⟩
  · intro runs h
    unfold prismToTra
    rw [h]; rfl

/-- what the loops make of a dictionary whose names have two characters: the first character of every name as name
and the second one as value -/
def splitNames (d : Dict String String) : Dict String String :=
  d.map fun e => (String.ofList (e.1.toList.take 1), String.ofList (e.1.toList.drop 1))

theorem mapM_split (f : String × String → String) (d : Dict String String) (h : ∀ k ∈ d.keys, k.length = 2) :
    (d.keys.mapM fun key => do
      let ci ← unpack2 key
      Except.ok (f ci)) = Except.ok ((splitNames d).map f) := by
  induction d with
  | nil => rfl
  | cons e d ih =>
    have hk : e.1.length = 2 := h e.1 (by simp [Dict.keys])
    obtain ⟨a, b, hab⟩ : ∃ a b, e.1.toList = [a, b] := by
      rw [← String.length_toList] at hk
      match h : e.1.toList, hk with
      | [a, b], _ => exact ⟨a, b, rfl⟩
    have ih' := ih fun k hk => h k (by simp only [Dict.keys, List.map_cons, List.mem_cons]; exact Or.inr hk)
    have hd : Dict.keys (e :: d) = e.1 :: Dict.keys d := rfl
    rw [hd, List.mapM_cons]
    simp only [bind, Except.bind] at ih' ⊢
    have hu : unpack2 e.1 = .ok (String.singleton a, String.singleton b) := by unfold unpack2; rw [hab]
    rw [hu]
    simp only
    rw [ih']
    simp only [splitNames, List.map_cons, hab, List.take_succ_cons, List.take_zero, List.drop_succ_cons, List.drop_zero]
    rfl

/-- **C54 (what is passed instead).** If all names have two characters the call is the documented one for
*other* constants and labels: every name is split into its two characters, and the values are dropped. -/
theorem C54_call (model tmp dest : String) (consts extra : Dict String String)
    (hc : ∀ k ∈ consts.map Prod.fst, k.length = 2) (he : ∀ k ∈ extra.map Prod.fst, k.length = 2) :
    prismCall model tmp dest consts extra =
      .ok (documentedCall model tmp dest (splitNames consts) (splitNames extra)) := by
  unfold prismCall constStrings labelLines documentedCall
  have h1 := mapM_split (fun ci => ci.1 ++ "=" ++ ci.2) consts hc
  have h2 := mapM_split (fun ne => "label \"" ++ ne.1 ++ "\" = " ++ ne.2 ++ ";" ++ "\n") extra he
  simp only [bind, Except.bind] at h1 h2 ⊢
  rw [h1, h2]
  have h3 : (fun ne : String × String => "label \"" ++ ne.1 ++ "\" = " ++ ne.2 ++ ";" ++ "\n") =
      fun e => "label \"" ++ e.1 ++ "\" = " ++ e.2 ++ ";\n" := by
    funext e
    rw [String.append_assoc]
    rfl
  by_cases hl : consts.length > 0
  · have : splitNames consts ≠ [] := by
      rw [← List.length_pos_iff]; simpa [splitNames] using hl
    simp only [hl, if_true, this, if_false, h3]
  · have h0 : consts = [] := List.length_eq_zero_iff.1 (by omega)
    subst h0
    simp only [splitNames, List.length_nil, gt_iff_lt, Nat.lt_irrefl, if_false, List.map_nil, if_true] at h3 ⊢
    rw [h3]

/-- the label `{"ok": "x=3"}` is declared as `label "o" = k;` -/
example : (prismCall "mdp\n" "/tmp/x" "out" [] [("ok", "x=3")]) =
    .ok ⟨["prism", "/tmp/x", "-exportmodel", "out.tra,sta,lab"], "mdp\nlabel \"o\" = k;\n"⟩ := by
  rw [C54_call _ _ _ _ _ (by simp) (by decide)]
  rfl

theorem length_go (s : String) (l : List String) (acc : String) :
    (l.foldl (fun acc c => acc ++ s ++ c) acc).length = acc.length + (l.map fun c => s.length + c.length).sum := by
  induction l generalizing acc with
  | nil => simp
  | cons a l ih =>
    rw [List.foldl_cons, ih]
    simp only [String.length_append, List.map_cons, List.sum_cons]
    omega

theorem length_join (s : String) (l : List String) (h : l ≠ []) :
    (Prism.join s l).length + s.length = (l.map fun c => s.length + c.length).sum := by
  cases l with
  | nil => exact absurd rfl h
  | cons a l =>
    rw [Prism.join, length_go]
    simp only [List.map_cons, List.sum_cons]
    omega

theorem sum_const {l : List String} {m n : Nat} (h : ∀ c ∈ l, c.length = n) :
    (l.map fun c => m + c.length).sum = l.length * (m + n) := by
  induction l with
  | nil => simp
  | cons a l ih =>
    simp only [List.map_cons, List.sum_cons, List.length_cons]
    rw [ih fun c hc => h c (by simp [hc]), h a (by simp), Nat.add_mul]
    omega

theorem sum_ge {l : List String} {m n : Nat} (h : ∀ c ∈ l, n ≤ c.length) :
    l.length * (m + n) ≤ (l.map fun c => m + c.length).sum := by
  induction l with
  | nil => simp
  | cons a l ih =>
    simp only [List.map_cons, List.sum_cons, List.length_cons]
    have := ih fun c hc => h c (by simp [hc])
    have := h a (by simp)
    rw [Nat.add_mul]
    omega

/-- **C54 is false, always**: for no dictionary with at least one constant (whose value has a non-empty text) the
documented call is made. -/
theorem C54_never (model tmp dest : String) (consts extra : Dict String String) (h : consts ≠ [])
    (hv : ∀ e ∈ consts, e.2 ≠ "") :
    prismCall model tmp dest consts extra ≠ .ok (documentedCall model tmp dest consts extra) := by
  intro hc
  have h2 : ∀ k ∈ consts.keys, k.length = 2 := by
    by_contra hh
    simp only [not_forall] at hh
    obtain ⟨k, hk, hk'⟩ := hh
    rw [(C54_raises model tmp dest consts extra).1.2 ⟨k, List.mem_append_left _ hk, hk'⟩] at hc
    cases hc
  have hlen : consts.length > 0 := List.length_pos_iff.2 h
  unfold prismCall constStrings documentedCall at hc
  have hu := mapM_unpack (fun ci => ci.1 ++ "=" ++ ci.2) consts.keys
  simp only [bind, Except.bind] at hu hc
  rw [if_pos hlen] at hc
  rcases hu with ⟨-, cs, g2, g3, g4⟩ | ⟨⟨k, hk, hk'⟩, -⟩
  · rw [g2, if_neg h] at hc
    simp only at hc
    split at hc
    · cases hc
    · simp only [Except.ok.injEq, Call.mk.injEq, List.cons_append, List.nil_append, List.cons.injEq, true_and,
        and_true] at hc
      have e := congrArg String.length hc.1
      have l1 : cs.length = consts.length := by rw [g3]; simp [Dict.keys]
      have n1 : cs ≠ [] := by
        rw [← List.length_pos_iff, l1]; exact hlen
      have c1 := length_join "," cs n1
      rw [sum_const (n := 3)] at c1
      · have n2 : (consts.map fun e => e.1 ++ "=" ++ e.2) ≠ [] := by simpa using h
        have c2 := length_join "," _ n2
        have c3 := sum_ge (l := consts.map fun e => e.1 ++ "=" ++ e.2) (m := ",".length) (n := 4) (by
          intro c hc
          obtain ⟨e, he, rfl⟩ := List.mem_map.1 hc
          have a1 := h2 e.1 (List.mem_map_of_mem he)
          have a2 : e.2.length ≠ 0 := by
            rw [← String.length_toList]
            intro h0
            have := List.length_eq_zero_iff.1 h0
            exact hv e he (String.toList_eq_nil_iff.1 this)
          simp only [String.length_append, a1]
          have : "=".length = 1 := by decide
          omega)
        rw [List.length_map] at c3
        rw [l1] at c1
        have : ",".length = 1 := by decide
        rw [this] at c1 c2 c3
        omega
      · intro c hc
        obtain ⟨a, b, rfl⟩ := g4 c hc
        simp [String.length_append]
        decide
  · exact hk' (h2 k hk)

/-- **C54 (values are ignored).** The call does not depend on the values of the constants. -/
theorem C54_ignored (model tmp dest : String) (consts consts' extra : Dict String String)
    (h : consts.map Prod.fst = consts'.map Prod.fst) :
    prismCall model tmp dest consts extra = prismCall model tmp dest consts' extra := by
  have hl : consts.length = consts'.length := by
    have := congrArg List.length h
    simpa using this
  unfold prismCall constStrings
  rw [show consts.keys = consts'.keys from h, hl]

/-- a constant with a name of two characters: `{'N1': 7}` is passed as `N=1` -/
example : prismCall "mdp" "/tmp/x" "out" [("N1", "7")] [] =
    .ok ⟨["prism", "/tmp/x", "-const", "N=1", "-exportmodel", "out.tra,sta,lab"], "mdp"⟩ := by rfl

/-- **C54 is false**: the documented example `{'N': 2}` raises `ValueError`. -/
theorem C54_false : prismCall "mdp" "/tmp/x" "out" [("N", "2")] [] = .error .valueError := by
  rw [(C54_raises _ _ _ _ _).1]
  exact ⟨"N", by simp, by decide⟩

end Verif.Props
