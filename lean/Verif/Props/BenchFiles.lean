import Verif.Model.BenchFiles
import Verif.Proofs.Json
import Verif.Props.Json
import Verif.Proofs.Digraph
import Mathlib.Tactic.NormNum
/-!
# C123: the data of benchmarks and the files in which they are kept
-/
set_option linter.unusedSectionVars false

namespace Verif.Props
open Verif.Model Verif.Model.Text Verif.Model.BenchFiles Verif.Proofs Verif.Spec

namespace Bf

variable {F P K : Type}

/-- the description of a method in the data -/
def described (fr : K → List Char) : Formulation P K → Json.Value K
  | .qsHeur n i u s => .obj [("type", .str "QSHeur"), ("solver", .str s), ("iterations", .int n), ("initializertype", .str i),
      ("updatertype", .str u)]
  | .milpExact s => .obj [("type", .str "MILPExact"), ("solver", .str s)]
  | .treeAlgo _ none tol _ => .obj [("type", .str "TreeAlgo"), ("known_upper_bound", .str "None"), ("tol", .str (String.ofList (fr tol)))]
  | .treeAlgo _ (some n) tol _ => .obj [("type", .str "TreeAlgo"), ("known_upper_bound", .str (String.ofList (fmtD n))),
      ("tol", .str (String.ofList (fr tol)))]

/-- the name of the file, without the mode and the ending -/
def methodText (fr : K → List Char) : Formulation P K → List Char
  | .qsHeur n i u s => "QSHeur(solver=".toList ++ s.toList ++ ",iterations=".toList ++ fmtD n ++ ",initializertype=".toList ++ i.toList ++
      ",updatertype=".toList ++ u.toList ++ ")".toList
  | .milpExact s => "MILPExact(solver=".toList ++ s.toList ++ ")".toList
  | .treeAlgo _ none tol _ => "TreeAlgo(known_upper_bound=None,tol=".toList ++ fr tol ++ ")".toList
  | .treeAlgo _ (some n) tol _ => "TreeAlgo(known_upper_bound=".toList ++ fmtD n ++ ",tol=".toList ++ fr tol ++ ")".toList

/-- the name of the file -/
def file (fr : K → List Char) (m : Formulation P K) (mode : String) : List Char :=
  methodText fr m ++ "-".toList ++ mode.toList ++ ".json".toList

/-- the results that are recorded for a threshold: with `stop_on_timeout` none after the first failure -/
def upTo (stop : Bool) : List (Res K) → List (Res K)
  | [] => []
  | r :: rs => if stop = true ∧ r.status ≠ .success then [r] else r :: upTo stop rs

/-- the value recorded for a result -/
def shownValue (r : Res K) : Json.Value K := if r.status = .success then r.value else .int (-1)

/-- what is recorded for a threshold -/
def recorded (stop : Bool) (t : K) (rs : List (Res K)) : Json.Value K :=
  .obj [("threshold", .float t), ("value", .arr ((upTo stop rs).map shownValue)),
    ("wall_times", .arr ((upTo stop rs).map fun r => .float r.wall)), ("proc_times", .arr ((upTo stop rs).map fun r => .float r.proc))]

theorem details_eq (fr : K → List Char) (m : Formulation P K) : Json.Value.obj (details fr m) = described fr m := by
  rcases m with _ | _ | ⟨_, _ | _, _, _⟩ <;> rfl

theorem dumpInt_nat (n : Nat) : Json.dumpInt (n : Int) = fmtD n := by
  unfold Json.dumpInt
  rw [if_neg (by omega), Int.natAbs_natCast, List.nil_append]

theorem ic1 (a : List Char) : List.intercalate [','] [a] = a := by simp [List.intercalate]

theorem ic2 (a b : List Char) : List.intercalate [','] [a, b] = a ++ ',' :: b := by simp [List.intercalate]

theorem ic4 (a b c d : List Char) : List.intercalate [','] [a, b, c, d] = a ++ ',' :: b ++ ',' :: c ++ ',' :: d := by
  simp [List.intercalate]

theorem repr_eq (fr : K → List Char) (m : Formulation P K) : BenchFiles.repr fr m = methodText fr m := by
  rcases m with ⟨n, i, u, s⟩ | s | ⟨_, _ | n, tol, _⟩
  · show "QSHeur".toList ++ '(' :: List.intercalate [','] ["solver".toList ++ '=' :: s.toList, "iterations".toList ++ '=' :: Json.dumpInt n,
      "initializertype".toList ++ '=' :: i.toList, "updatertype".toList ++ '=' :: u.toList] ++ [')'] = _
    rw [dumpInt_nat, ic4]
    unfold methodText
    rw [show "QSHeur(solver=".toList = "QSHeur".toList ++ '(' :: "solver".toList ++ ['='] by decide,
      show ",iterations=".toList = ',' :: "iterations".toList ++ ['='] by decide,
      show ",initializertype=".toList = ',' :: "initializertype".toList ++ ['='] by decide,
      show ",updatertype=".toList = ',' :: "updatertype".toList ++ ['='] by decide, show ")".toList = [')'] by decide]
    simp only [List.append_assoc, List.cons_append, List.nil_append]
  · show "MILPExact".toList ++ '(' :: List.intercalate [','] ["solver".toList ++ '=' :: s.toList] ++ [')'] = _
    rw [ic1]
    unfold methodText
    rw [show "MILPExact(solver=".toList = "MILPExact".toList ++ '(' :: "solver".toList ++ ['='] by decide, show ")".toList = [')'] by decide]
    simp only [List.append_assoc, List.cons_append, List.nil_append]
  · show "TreeAlgo".toList ++ '(' :: List.intercalate [','] ["known_upper_bound".toList ++ '=' :: (String.ofList "None".toList).toList,
      "tol".toList ++ '=' :: (String.ofList (fr tol)).toList] ++ [')'] = _
    rw [ic2, show (String.ofList "None".toList).toList = "None".toList from String.toList_ofList,
      show (String.ofList (fr tol)).toList = fr tol from String.toList_ofList]
    unfold methodText
    rw [show "TreeAlgo(known_upper_bound=None,tol=".toList = "TreeAlgo".toList ++ '(' :: "known_upper_bound".toList ++ '=' :: "None".toList ++
      ',' :: "tol".toList ++ ['='] by decide, show ")".toList = [')'] by decide]
    simp only [List.append_assoc, List.cons_append, List.nil_append]
  · show "TreeAlgo".toList ++ '(' :: List.intercalate [','] ["known_upper_bound".toList ++ '=' :: (String.ofList (fmtD n)).toList,
      "tol".toList ++ '=' :: (String.ofList (fr tol)).toList] ++ [')'] = _
    rw [ic2, show (String.ofList (fmtD n)).toList = fmtD n from String.toList_ofList,
      show (String.ofList (fr tol)).toList = fr tol from String.toList_ofList]
    unfold methodText
    rw [show "TreeAlgo(known_upper_bound=".toList = "TreeAlgo".toList ++ '(' :: "known_upper_bound".toList ++ ['='] by decide,
      show ",tol=".toList = ',' :: "tol".toList ++ ['='] by decide, show ")".toList = [')'] by decide]
    simp only [List.append_assoc, List.cons_append, List.nil_append]

theorem fileName_eq (fr : K → List Char) (m : Formulation P K) (mode : String) : fileName fr m mode = file fr m mode := by
  unfold fileName file
  rw [repr_eq, show "-".toList = ['-'] by decide]
  simp only [List.append_assoc, List.cons_append, List.nil_append]

/-! ### the loops -/

theorem inner_eq (stop : Bool) : ∀ (rs : List (Res K)) (e : Entry K),
    ((∃ r ∈ upTo stop rs, r.status = .infeasible) ∧ inner stop rs e = .infeasible) ∨
    ((∀ r ∈ upTo stop rs, r.status ≠ .infeasible) ∧ (stop = true ∧ ∃ r ∈ rs, r.status ≠ .success) ∧
      inner stop rs e = .stopped ⟨e.threshold, e.value ++ (upTo stop rs).map shownValue, e.wall ++ (upTo stop rs).map Res.wall,
        e.proc ++ (upTo stop rs).map Res.proc⟩) ∨
    ((∀ r ∈ upTo stop rs, r.status ≠ .infeasible) ∧ (stop = true → ∀ r ∈ rs, r.status = .success) ∧
      inner stop rs e = .finished ⟨e.threshold, e.value ++ (upTo stop rs).map shownValue, e.wall ++ (upTo stop rs).map Res.wall,
        e.proc ++ (upTo stop rs).map Res.proc⟩)
  | [], e => .inr (.inr ⟨by simp [upTo], by simp, by simp [inner, upTo]⟩)
  | r :: rs, e => by
    unfold inner upTo
    by_cases h1 : r.status = .success
    · have hs : shownValue r = r.value := by rw [shownValue, if_pos h1]
      have hn : ¬ (stop = true ∧ r.status ≠ .success) := fun h => h.2 h1
      simp only [if_neg hn, if_neg (not_not.2 h1)]
      rcases inner_eq stop rs { e with wall := e.wall ++ [r.wall], proc := e.proc ++ [r.proc], value := e.value ++ [r.value] } with
        ⟨⟨r', ha, hb⟩, h⟩ | ⟨a, ⟨b, r', hr', hb⟩, h⟩ | ⟨a, b, h⟩
      · exact .inl ⟨⟨r', List.mem_cons_of_mem _ ha, hb⟩, h⟩
      · refine .inr (.inl ⟨fun x hx => ?_, ⟨b, r', List.mem_cons_of_mem _ hr', hb⟩, ?_⟩)
        · rcases List.mem_cons.1 hx with rfl | hx
          · rw [h1]; decide
          · exact a x hx
        · rw [h]; simp [hs]
      · refine .inr (.inr ⟨fun x hx => ?_, fun hst x hx => ?_, ?_⟩)
        · rcases List.mem_cons.1 hx with rfl | hx
          · rw [h1]; decide
          · exact a x hx
        · rcases List.mem_cons.1 hx with rfl | hx
          · exact h1
          · exact b hst x hx
        · rw [h]; simp [hs]
    · have hs : shownValue r = .int (-1) := by rw [shownValue, if_neg h1]
      simp only [if_pos h1]
      by_cases h2 : r.status = .infeasible
      · rw [if_pos h2]
        exact .inl ⟨⟨r, by split <;> simp, h2⟩, rfl⟩
      · rw [if_neg h2]
        by_cases h3 : stop = true
        · simp only [if_pos h3, if_pos (And.intro h3 h1)]
          refine .inr (.inl ⟨fun x hx => ?_, ⟨h3, r, List.mem_cons_self, h1⟩, ?_⟩)
          · rw [List.mem_singleton.1 hx]; exact h2
          · simp [hs]
        · have hn : ¬ (stop = true ∧ r.status ≠ .success) := fun h => h3 h.1
          simp only [if_neg h3, if_neg hn]
          rcases inner_eq stop rs { e with wall := e.wall ++ [r.wall], proc := e.proc ++ [r.proc], value := e.value ++ [.int (-1)] } with
            ⟨⟨r', ha, hb⟩, h⟩ | ⟨a, ⟨b, -⟩, h⟩ | ⟨a, b, h⟩
          · exact .inl ⟨⟨r', List.mem_cons_of_mem _ ha, hb⟩, h⟩
          · exact absurd b h3
          · refine .inr (.inr ⟨fun x hx => ?_, fun hst => absurd hst h3, ?_⟩)
            · rcases List.mem_cons.1 hx with rfl | hx
              · exact h2
              · exact a x hx
            · rw [h]; simp [hs]

/-- the entry of `data["run"]` -/
def entryOf (stop : Bool) (t : K) (rs : List (Res K)) : Entry K :=
  ⟨t, (upTo stop rs).map shownValue, (upTo stop rs).map Res.wall, (upTo stop rs).map Res.proc⟩

theorem entryJson_eq (stop : Bool) (t : K) (rs : List (Res K)) : entryJson (entryOf stop t rs) = recorded stop t rs := by
  simp [entryJson, entryOf, recorded, List.map_map, Function.comp_def]

/-- where a run ends: after the last threshold, with a failure that stops it, or at a threshold that cannot be met -/
def Ends (stop : Bool) (method : K → Except Err (List (Res K))) (res : List (List (Res K))) (rest : List K) : Prop :=
  (rest = [] ∧ (stop = true → ∀ rs ∈ res, ∀ r ∈ rs, r.status = .success)) ∨
  (stop = true ∧ ∃ rs, res.getLast? = some rs ∧ ∃ r ∈ rs, r.status ≠ .success) ∨
  ∃ t rest' rs, rest = t :: rest' ∧ method t = .ok rs ∧ ∃ r ∈ upTo stop rs, r.status = .infeasible

theorem outer_eq (stop debug : Bool) (method : K → Except Err (List (Res K))) : ∀ (thrs : List K) (acc es : List (Entry K)),
    outer stop debug method thrs acc = .ok es → ∃ done rest res, thrs = done ++ rest ∧ List.Forall₂ (fun t rs => method t = .ok rs) done res ∧
      es = acc ++ List.zipWith (entryOf stop) done res ∧ (∀ rs ∈ res, ∀ r ∈ upTo stop rs, r.status ≠ .infeasible) ∧
      (stop = true → ∀ rs ∈ res.dropLast, ∀ r ∈ rs, r.status = .success) ∧ Ends stop method res rest
  | [], acc, es, h => by
    cases h
    exact ⟨[], [], [], rfl, .nil, by simp, by simp, by simp, .inl ⟨rfl, by simp⟩⟩
  | t :: ts, acc, es, h => by
    unfold outer at h
    simp only [bind, Except.bind] at h
    split at h
    · cases h
    rename_i rs hrs
    rcases inner_eq stop rs ⟨t, [], [], []⟩ with ⟨a, e⟩ | ⟨a, b, e⟩ | ⟨a, b, e⟩
    · rw [e] at h
      cases h
      exact ⟨[], t :: ts, [], rfl, .nil, by simp, by simp, by simp, .inr (.inr ⟨t, ts, rs, rfl, hrs, a⟩)⟩
    · rw [e] at h
      cases h
      refine ⟨[t], ts, [rs], rfl, .cons hrs .nil, by simp [entryOf], by simpa using a, by simp, .inr (.inl ⟨b.1, rs, rfl, b.2⟩)⟩
    · rw [e] at h
      simp only at h
      split at h
      · cases h
      obtain ⟨done, rest, res, h1, h2, h3, h4, h5, h6⟩ := outer_eq stop debug method ts _ _ h
      refine ⟨t :: done, rest, rs :: res, by rw [h1]; rfl, .cons hrs h2, by rw [h3]; simp [entryOf], ?_, fun hst => ?_, ?_⟩
      · rintro x hx
        rcases List.mem_cons.1 hx with rfl | hx
        · exact a
        · exact h4 x hx
      · cases res with
        | nil => simp
        | cons y ys =>
          rintro x hx
          rw [List.dropLast_cons_cons] at hx
          rcases List.mem_cons.1 hx with rfl | hx
          · exact b hst
          · exact h5 hst x hx
      · rcases h6 with ⟨c1, c2⟩ | ⟨c1, x, c2, c3⟩ | c
        · refine .inl ⟨c1, fun hst x hx => ?_⟩
          rcases List.mem_cons.1 hx with rfl | hx
          · exact b hst
          · exact c2 hst x hx
        · refine .inr (.inl ⟨c1, x, ?_, c3⟩)
          cases res with
          | nil => cases c2
          | cons y ys => rw [List.getLast?_cons_cons]; exact c2
        · exact .inr (.inr c)

theorem upTo_mem {stop : Bool} {r : Res K} : ∀ {rs : List (Res K)}, r ∈ upTo stop rs → r ∈ rs
  | [], h => h
  | x :: xs, h => by
    unfold upTo at h
    split at h
    · rw [List.mem_singleton.1 h]; exact List.mem_cons_self
    · rcases List.mem_cons.1 h with rfl | h
      · exact List.mem_cons_self
      · exact List.mem_cons_of_mem _ (upTo_mem h)

theorem described_writable (Q : K → Prop) (fr : K → List Char) (m : Formulation P K) : Json.Writable Q (described fr m) := by
  rcases m with ⟨n, i, u, s⟩ | s | ⟨_, _ | n, tol, _⟩ <;> refine .obj (by simp) fun kv hkv => ?_ <;>
    simp only [List.mem_cons, List.not_mem_nil, or_false] at hkv
  · rcases hkv with rfl | rfl | rfl | rfl | rfl
    · exact .str _
    · exact .str _
    · exact .int _
    · exact .str _
    · exact .str _
  · rcases hkv with rfl | rfl <;> exact .str _
  · rcases hkv with rfl | rfl | rfl <;> exact .str _
  · rcases hkv with rfl | rfl | rfl <;> exact .str _

theorem recorded_writable {Q : K → Prop} {stop : Bool} {t : K} {rs : List (Res K)} (ht : Q t)
    (h : ∀ r ∈ rs, Q r.wall ∧ Q r.proc ∧ Json.Writable Q r.value) : Json.Writable Q (recorded stop t rs) := by
  refine .obj (by simp) fun kv hkv => ?_
  simp only [List.mem_cons, List.not_mem_nil, or_false] at hkv
  rcases hkv with rfl | rfl | rfl | rfl
  · exact .float ht
  · refine .arr fun v hv => ?_
    obtain ⟨r, hr, rfl⟩ := List.mem_map.1 hv
    unfold shownValue
    split
    · exact (h r (upTo_mem hr)).2.2
    · exact .int _
  · refine .arr fun v hv => ?_
    obtain ⟨r, hr, rfl⟩ := List.mem_map.1 hv
    exact .float (h r (upTo_mem hr)).1
  · refine .arr fun v hv => ?_
    obtain ⟨r, hr, rfl⟩ := List.mem_map.1 hv
    exact .float (h r (upTo_mem hr)).2.1

end Bf

section
variable {F P K : Type} [DecidableEq F] {fr : K → List Char} {rd : ℚ → K} {dir : Option (Dir F)} {D : Dir F} {stop debug : Bool}
  {m m' : Formulation P K} {mode mode' : String} {method : K → Except Err (List (Res K))} {thrs : List K} {d : Files.Disk F}
  {v : Json.Value K}

/-- **C123, the data.** The data returned describe the method and the mode and have an entry for each threshold in turn, with all
results (with `stop_on_timeout` up to the first failure) and the times at which they came, until the thresholds are exhausted, a
failure stops the run or a threshold cannot be met. -/
theorem C123_data (h : (runOne fr dir stop debug m mode method thrs d).2 = .ok v) :
    ∃ done rest res, thrs = done ++ rest ∧ List.Forall₂ (fun t rs => method t = .ok rs) done res ∧
      v = .obj [("method", Bf.described fr m), ("mode", .str mode), ("run", .arr (List.zipWith (Bf.recorded stop) done res))] ∧
      (∀ rs ∈ res, ∀ r ∈ Bf.upTo stop rs, r.status ≠ .infeasible) ∧
      (stop = true → ∀ rs ∈ res.dropLast, ∀ r ∈ rs, r.status = .success) ∧ Bf.Ends stop method res rest := by
  unfold runOne at h
  split at h
  · cases h
  rename_i es hes
  have hv : v = dataJson fr m mode es := by
    unfold printJson at h
    split at h
    · exact (Except.ok.inj h).symm
    · split at h
      · exact (Except.ok.inj h).symm
      · cases h
  obtain ⟨done, rest, res, h1, h2, h3, h4, h5, h6⟩ := Bf.outer_eq _ _ _ _ _ _ hes
  refine ⟨done, rest, res, h1, h2, ?_, h4, h5, h6⟩
  rw [hv, dataJson, Bf.details_eq, h3, List.nil_append, List.map_zipWith]
  simp only [Bf.entryJson_eq]

theorem Bf.writable (hthr : ∀ t ∈ thrs, Json.ReprOk fr rd t)
    (hres : ∀ t ∈ thrs, ∀ rs, method t = .ok rs → ∀ r ∈ rs, Json.ReprOk fr rd r.wall ∧ Json.ReprOk fr rd r.proc ∧
      Json.Writable (Json.ReprOk fr rd) r.value)
    (h : (runOne fr dir stop debug m mode method thrs d).2 = .ok v) : Json.Writable (Json.ReprOk fr rd) v := by
  obtain ⟨done, rest, res, h1, h2, rfl, -⟩ := C123_data h
  refine .obj (by simp) fun kv hkv => ?_
  simp only [List.mem_cons, List.not_mem_nil, or_false] at hkv
  rcases hkv with rfl | rfl | rfl
  · exact described_writable _ _ _
  · exact .str _
  · refine .arr fun v hv => ?_
    have hsub : ∀ t ∈ done, t ∈ thrs := fun t ht => by rw [h1]; exact List.mem_append_left _ ht
    clear h h1
    induction h2 with
    | nil => cases hv
    | @cons t rs done res a _ ih =>
      rw [List.zipWith_cons_cons] at hv
      rcases List.mem_cons.1 hv with rfl | hv
      · have := hsub t List.mem_cons_self
        exact recorded_writable (hthr t this) (hres t this rs a)
      · exact ih hv fun t ht => hsub t (List.mem_cons_of_mem _ ht)

theorem Bf.runOne_none (h : (runOne fr (none : Option (Dir F)) stop debug m mode method thrs d).2 = .ok v) :
    runOne fr (some D) stop debug m mode method thrs d = if D.canWrite (file fr m mode) = true then
      (fun f => if f = D.loc (file fr m mode) then some (Json.dump fr v) else d f, .ok v) else (d, .error .osError) := by
  unfold runOne at h ⊢
  split at h
  · cases h
  · rename_i es hes
    cases h
    simp only [printJson, fileName_eq]

theorem Bf.runOne_err {e : Fail} (h : (runOne fr (none : Option (Dir F)) stop debug m mode method thrs d).2 = .error e) :
    runOne fr dir stop debug m mode method thrs d = (d, .error e) ∧ e ≠ .osError := by
  unfold runOne at h ⊢
  split at h
  · cases h
    exact ⟨rfl, by simp⟩
  · cases h

theorem Bf.runOne_some (h : (runOne fr dir stop debug m mode method thrs d).2 = .ok v) :
    (runOne fr (none : Option (Dir F)) stop debug m mode method thrs d).2 = .ok v := by
  cases e : (runOne fr (none : Option (Dir F)) stop debug m mode method thrs d).2 with
  | error e' => rw [(runOne_err e).1] at h; cases h
  | ok v' =>
    cases dir with
    | none => rw [e] at h; exact h
    | some D =>
      rw [runOne_none e] at h
      split at h
      · exact h
      · cases h

/-- the data of a run do not depend on the disk -/
theorem Bf.runOne_disk (d d' : Files.Disk F) : (runOne fr (none : Option (Dir F)) stop debug m mode method thrs d).2 =
    (runOne fr (none : Option (Dir F)) stop debug m mode method thrs d').2 := by
  unfold runOne
  split <;> rfl

/-- **C123, the file.** With `json_dir` the data returned are in the file named after the method and the mode: `json.load` returns
them.  No other file changes. -/
theorem C123_saved {d' : Files.Disk F} (hthr : ∀ t ∈ thrs, Json.ReprOk fr rd t)
    (hres : ∀ t ∈ thrs, ∀ rs, method t = .ok rs → ∀ r ∈ rs, Json.ReprOk fr rd r.wall ∧ Json.ReprOk fr rd r.proc ∧
      Json.Writable (Json.ReprOk fr rd) r.value)
    (h : runOne fr (some D) stop debug m mode method thrs d = (d', .ok v)) :
    (∃ t, d' (D.loc (Bf.file fr m mode)) = some t ∧ Json.load rd t = .ok v) ∧
    ∀ f, f ≠ D.loc (Bf.file fr m mode) → d' f = d f := by
  have hw := Bf.writable hthr hres (congrArg Prod.snd h)
  rw [Bf.runOne_none (Bf.runOne_some (congrArg Prod.snd h))] at h
  split at h
  · cases h
    exact ⟨⟨_, if_pos rfl, Json.load_dump hw⟩, fun f hf => if_neg hf⟩
  · cases h

/-- **C123.** Without `json_dir`, and when the call raises, no file changes. -/
theorem C123_unchanged (h : dir = none ∨ ∃ e, (runOne fr dir stop debug m mode method thrs d).2 = .error e) :
    (runOne fr dir stop debug m mode method thrs d).1 = d := by
  have hn : ∀ e, (runOne fr (none : Option (Dir F)) stop debug m mode method thrs d).2 = .error e →
      (runOne fr dir stop debug m mode method thrs d).1 = d := fun e he => by rw [(Bf.runOne_err he).1]
  cases e : (runOne fr (none : Option (Dir F)) stop debug m mode method thrs d).2 with
  | error e' => exact hn _ e
  | ok v' =>
    rcases h with rfl | ⟨e', h⟩
    · unfold runOne
      split <;> rfl
    · cases dir with
      | none => rw [e] at h; cases h
      | some D =>
        rw [Bf.runOne_none e] at h ⊢
        split at h
        · cases h
        · rename_i hc
          rw [if_neg hc]

/-- **C123.** `json_dir` has no influence on the data and on exceptions, except that the call raises an `OSError` instead of returning
the data if the file cannot be opened. -/
theorem C123_same (D : Dir F) :
    (∀ e, (runOne fr (none : Option (Dir F)) stop debug m mode method thrs d).2 = .error e →
      (runOne fr (some D) stop debug m mode method thrs d).2 = .error e ∧ e ≠ .osError) ∧
    ∀ v, (runOne fr (none : Option (Dir F)) stop debug m mode method thrs d).2 = .ok v →
      (runOne fr (some D) stop debug m mode method thrs d).2 =
        if D.canWrite (Bf.file fr m mode) = true then .ok v else .error .osError := by
  refine ⟨fun e h => ?_, fun v h => ?_⟩
  · have := Bf.runOne_err (dir := some D) h
    exact ⟨by rw [this.1], this.2⟩
  · rw [Bf.runOne_none h]
    split <;> rfl

theorem Bf.outer_raises {e : Err} : ∀ {thrs : List K} {acc : List (Entry K)}, outer stop debug method thrs acc = .error e →
    (∃ t ∈ thrs, method t = .error e) ∨ (debug = true ∧ e = .indexError ∧ ∃ t ∈ thrs, method t = .ok [])
  | [], acc, h => by cases h
  | t :: ts, acc, h => by
    unfold outer at h
    simp only [bind, Except.bind] at h
    split at h
    · rename_i e' he
      cases h
      exact .inl ⟨t, List.mem_cons_self, he⟩
    rename_i rs hrs
    rcases inner_eq stop rs ⟨t, [], [], []⟩ with ⟨-, he⟩ | ⟨-, -, he⟩ | ⟨-, -, he⟩
    · rw [he] at h; cases h
    · rw [he] at h; cases h
    · rw [he] at h
      simp only at h
      split at h
      · rename_i hc
        cases h
        refine .inr ⟨hc.1, rfl, t, List.mem_cons_self, ?_⟩
        have := hc.2
        rw [List.nil_append, List.map_eq_nil_iff] at this
        cases rs with
        | nil => exact hrs
        | cons r rs =>
          unfold upTo at this
          split at this <;> cases this
      · rcases outer_raises h with ⟨x, hx, h⟩ | ⟨h1, h2, x, hx, h⟩
        · exact .inl ⟨x, List.mem_cons_of_mem _ hx, h⟩
        · exact .inr ⟨h1, h2, x, List.mem_cons_of_mem _ hx, h⟩

/-- **C123.** An exception is one of the method, an `OSError` (see `C123_same`), or an `IndexError` if `debug` is set and the method
yields nothing. -/
theorem C123_raises {e : Err} (h : (runOne fr dir stop debug m mode method thrs d).2 = .error (.err e)) :
    (∃ t ∈ thrs, method t = .error e) ∨ (debug = true ∧ e = .indexError ∧ ∃ t ∈ thrs, method t = .ok []) := by
  unfold runOne at h
  split at h
  · rename_i e' he
    cases h
    exact Bf.outer_raises he
  · unfold printJson at h
    split at h
    · cases h
    · split at h <;> cases h

/-- **C123 is false for `debug`**, which is documented as additional output: for a method that yields nothing (`QSHeur` with 0
iterations) the call raises with `debug` and returns without it. -/
theorem C123_debug_false {t : K} (h : method t = .ok []) :
    (runOne fr dir stop true m mode method [t] d).2 = .error (.err .indexError) ∧
    ∃ v, (runOne fr (none : Option (Dir F)) stop false m mode method [t] d).2 = .ok v := by
  constructor
  · simp [runOne, outer, h, inner, bind, Except.bind]
  · exact ⟨dataJson fr m mode [⟨t, [], [], []⟩], by simp [runOne, outer, h, inner, bind, Except.bind, printJson]⟩

/-! ### the names of the files -/

/-- two methods with the same entries in the data -/
def Bf.Same (fr : K → List Char) : Formulation P K → Formulation P K → Prop
  | .qsHeur n i u s, .qsHeur n' i' u' s' => n = n' ∧ i = i' ∧ u = u' ∧ s = s'
  | .milpExact s, .milpExact s' => s = s'
  | .treeAlgo _ b t _, .treeAlgo _ b' t' _ => b = b' ∧ fr t = fr t'
  | _, _ => False

/-- names of classes and solvers have no comma -/
def Bf.Clean (m : Formulation P K) : Prop := ∀ n i u s, m = .qsHeur n i u s → ',' ∉ i.toList ∧ ',' ∉ s.toList

theorem Bf.qsText (n : Nat) (i u s : String) : methodText fr (.qsHeur n i u s : Formulation P K) = "QSHeur(solver=".toList ++
    (s.toList ++ ',' :: ("iterations=".toList ++ (fmtD n ++ ',' :: ("initializertype=".toList ++ (i.toList ++
      ',' :: ("updatertype=".toList ++ (u.toList ++ [')']))))))) := by
  unfold methodText
  rw [show ",iterations=".toList = ',' :: "iterations=".toList by decide,
    show ",initializertype=".toList = ',' :: "initializertype=".toList by decide,
    show ",updatertype=".toList = ',' :: "updatertype=".toList by decide, show ")".toList = [')'] by decide]
  simp only [List.append_assoc, List.cons_append]

theorem Bf.exText (s : String) : methodText fr (.milpExact s : Formulation P K) = "MILPExact(solver=".toList ++ (s.toList ++ [')']) := by
  unfold methodText
  rw [show ")".toList = [')'] by decide]
  simp only [List.append_assoc]

theorem Bf.treeText (p : P) (b : Option Nat) (t : K) (s : String) : methodText fr (.treeAlgo p b t s) =
    "TreeAlgo(known_upper_bound=".toList ++ (strBound b ++ ',' :: ("tol=".toList ++ (fr t ++ [')']))) := by
  cases b <;> unfold methodText strBound <;> rw [show ")".toList = [')'] by decide]
  · rw [show "TreeAlgo(known_upper_bound=None,tol=".toList = "TreeAlgo(known_upper_bound=".toList ++ ("None".toList ++ ',' :: "tol=".toList) by decide]
    simp only [List.append_assoc, List.cons_append]
  · rw [show ",tol=".toList = ',' :: "tol=".toList by decide]
    simp only [List.append_assoc, List.cons_append]

theorem Bf.comma_digits (n : Nat) : ',' ∉ fmtD n := IOTra.fmtD_plain (by decide)

theorem Bf.comma_bound : ∀ b : Option Nat, ',' ∉ strBound b
  | none => by decide
  | some n => comma_digits n

theorem Bf.strBound_inj : ∀ {b b' : Option Nat}, strBound b = strBound b' → b = b'
  | none, none, _ => rfl
  | some n, some n', h => by rw [fmtD_inj h]
  | none, some n, h => by
    have : 'N' ∈ strBound (some n) := h ▸ (by decide : 'N' ∈ strBound none)
    exact absurd this (IOTra.fmtD_plain (by decide))
  | some n, none, h => by
    have : 'N' ∈ strBound (some n) := h ▸ (by decide : 'N' ∈ strBound none)
    exact absurd this (IOTra.fmtD_plain (by decide))

theorem Bf.head_qs (n : Nat) (i u s : String) : (methodText fr (.qsHeur n i u s : Formulation P K)).head? = some 'Q' := by
  rw [qsText]; rfl

theorem Bf.head_ex (s : String) : (methodText fr (.milpExact s : Formulation P K)).head? = some 'M' := by
  rw [exText]; rfl

theorem Bf.head_tree (p : P) (b : Option Nat) (t : K) (s : String) : (methodText fr (.treeAlgo p b t s)).head? = some 'T' := by
  rw [treeText]; rfl

theorem Bf.methodText_inj (hm : Clean m) (hm' : Clean m') : methodText fr m = methodText fr m' ↔ Same fr m m' := by
  have toS : ∀ {a b : String}, a.toList = b.toList → a = b := fun h => String.toList_inj.1 h
  rcases m with ⟨n, i, u, s⟩ | s | ⟨p, b, tol, s⟩ <;> rcases m' with ⟨n', i', u', s'⟩ | s' | ⟨p', b', tol', s'⟩
  · refine ⟨fun h => ?_, fun ⟨h1, h2, h3, h4⟩ => by rw [h1, h2, h3, h4]⟩
    rw [qsText, qsText] at h
    obtain ⟨h1, h⟩ := append_sep (hm _ _ _ _ rfl).2 (hm' _ _ _ _ rfl).2 (List.append_cancel_left h)
    obtain ⟨h2, h⟩ := append_sep (comma_digits n) (comma_digits n') (List.append_cancel_left h)
    obtain ⟨h3, h⟩ := append_sep (hm _ _ _ _ rfl).1 (hm' _ _ _ _ rfl).1 (List.append_cancel_left h)
    exact ⟨fmtD_inj h2, toS h3, toS (List.append_cancel_right (List.append_cancel_left h)), toS h1⟩
  · refine ⟨fun h => ?_, False.elim⟩
    have := congrArg List.head? h
    rw [head_qs, head_ex] at this
    exact absurd this (by decide)
  · refine ⟨fun h => ?_, False.elim⟩
    have := congrArg List.head? h
    rw [head_qs, head_tree] at this
    exact absurd this (by decide)
  · refine ⟨fun h => ?_, False.elim⟩
    have := congrArg List.head? h
    rw [head_qs, head_ex] at this
    exact absurd this (by decide)
  · refine ⟨fun h => ?_, fun h => by rw [show s = s' from h]⟩
    rw [exText, exText] at h
    exact toS (List.append_cancel_right (List.append_cancel_left h))
  · refine ⟨fun h => ?_, False.elim⟩
    have := congrArg List.head? h
    rw [head_ex, head_tree] at this
    exact absurd this (by decide)
  · refine ⟨fun h => ?_, False.elim⟩
    have := congrArg List.head? h
    rw [head_qs, head_tree] at this
    exact absurd this (by decide)
  · refine ⟨fun h => ?_, False.elim⟩
    have := congrArg List.head? h
    rw [head_ex, head_tree] at this
    exact absurd this (by decide)
  · refine ⟨fun h => ?_, fun ⟨h1, h2⟩ => by rw [treeText, treeText, h1, h2]⟩
    rw [treeText, treeText] at h
    obtain ⟨h1, h⟩ := append_sep (comma_bound b) (comma_bound b') (List.append_cancel_left h)
    exact ⟨strBound_inj h1, List.append_cancel_right (List.append_cancel_left h)⟩

/-- **C123, names.** The names of the files tell apart the modes, the kind of the method, the iterations, initializer and updater of
`QSHeur`, the solver of `QSHeur` and `MILPExact`, and the bound and tolerance of `TreeAlgo`.  Missing: the partition and the solver of
`TreeAlgo`, see `C123_tree_false`. -/
theorem C123_names_partial (hm : Bf.Clean m) (hm' : Bf.Clean m') (hmo : mode = "min" ∨ mode = "max") (hmo' : mode' = "min" ∨ mode' = "max") :
    Bf.file fr m mode = Bf.file fr m' mode' ↔ Bf.Same fr m m' ∧ mode = mode' := by
  rw [← Bf.methodText_inj hm hm']
  refine ⟨fun h => ?_, fun ⟨h1, h2⟩ => by unfold Bf.file; rw [h1, h2]⟩
  unfold Bf.file at h
  have h1 := List.append_cancel_right h
  have hl : mode.toList.length = mode'.toList.length := by rcases hmo with rfl | rfl <;> rcases hmo' with rfl | rfl <;> decide
  obtain ⟨h2, h3⟩ := List.append_inj' h1 hl
  exact ⟨List.append_cancel_right h2, String.toList_inj.1 h3⟩

/-! ### several methods and modes -/

theorem Bf.pairs {solve : Formulation P K → String → K → Except Err (List (Res K))} :
    ∀ {ps : List (Formulation P K × String)} {d d' : Files.Disk F} {vs : List (Json.Value K)},
      runPairs fr (some D) stop debug solve thrs ps d = (d', .ok vs) →
      List.Forall₂ (fun x v => ∀ d : Files.Disk F, (runOne fr none stop debug x.1 x.2 (solve x.1 x.2) thrs d).2 = .ok v) ps vs ∧
      ∀ f, ((∀ x ∈ ps, D.loc (file fr x.1 x.2) ≠ f) ∧ d' f = d f) ∨
        ∃ (k : Nat) (x : Formulation P K × String) (v : Json.Value K), ps[k]? = some x ∧ vs[k]? = some v ∧ D.loc (file fr x.1 x.2) = f ∧
          (∀ (j : Nat) (x' : Formulation P K × String), k < j → ps[j]? = some x' → D.loc (file fr x'.1 x'.2) ≠ f) ∧ d' f = some (Json.dump fr v)
  | [], d, d', vs, h => by
    cases h
    exact ⟨.nil, fun f => .inl ⟨by simp, rfl⟩⟩
  | x :: ps, d, d', vs, h => by
    unfold runPairs at h
    split at h
    · cases h
    rename_i d1 v h1
    split at h
    · cases h
    rename_i d2 ws h2
    cases h
    obtain ⟨a, b⟩ := pairs h2
    have hn := runOne_some (congrArg Prod.snd h1)
    refine ⟨.cons (fun d0 => by rw [runOne_disk d0 d]; exact hn) a, fun f => ?_⟩
    rw [runOne_none hn] at h1
    split at h1
    swap
    · cases h1
    cases h1
    rcases b f with ⟨b1, b2⟩ | ⟨k, y, w, b1, b2, b3, b4, b5⟩
    · by_cases hf : D.loc (file fr x.1 x.2) = f
      · refine .inr ⟨0, x, v, rfl, rfl, hf, fun j x' hj hx' => ?_, b2.trans (if_pos hf.symm)⟩
        obtain ⟨j, rfl⟩ := Nat.exists_eq_add_of_lt hj
        rw [Nat.zero_add, List.getElem?_cons_succ] at hx'
        exact b1 x' (List.mem_of_getElem? hx')
      · refine .inl ⟨fun y hy => ?_, b2.trans (if_neg (Ne.symm hf))⟩
        rcases List.mem_cons.1 hy with rfl | hy
        · exact hf
        · exact b1 y hy
    · refine .inr ⟨k + 1, y, w, b1, b2, b3, fun j x' hj hx' => ?_, b5⟩
      cases j with
      | zero => omega
      | succ j => exact b4 j x' (by omega) hx'

variable {solve : Formulation P K → String → K → Except Err (List (Res K))} {methods : List (Formulation P K)} {modes : List String}
  {d' : Files.Disk F} {vs : List (Json.Value K)}

/-- all numbers that are measured and computed can be written and read -/
def Bf.Numbers (fr : K → List Char) (rd : ℚ → K) (solve : Formulation P K → String → K → Except Err (List (Res K))) (thrs : List K) : Prop :=
  ∀ t ∈ thrs, Json.ReprOk fr rd t ∧ ∀ m mode rs, solve m mode t = .ok rs → ∀ r ∈ rs, Json.ReprOk fr rd r.wall ∧ Json.ReprOk fr rd r.proc ∧
    Json.Writable (Json.ReprOk fr rd) r.value

/-- **C123, several methods and modes.** A call for lists returns the data of the pairs, each as from a call of its own, and every file
holds the data of the last pair with its name; files without such a name are not changed. -/
theorem C123_many (hn : Bf.Numbers fr rd solve thrs) (h : runMany fr (some D) stop debug solve methods modes thrs d = (d', .ok vs)) :
    List.Forall₂ (fun x v => (runOne fr (none : Option (Dir F)) stop debug x.1 x.2 (solve x.1 x.2) thrs d).2 = .ok v)
      (methods ×ˢ modes) vs ∧
    ∀ f, ((∀ x ∈ methods ×ˢ modes, D.loc (Bf.file fr x.1 x.2) ≠ f) ∧ d' f = d f) ∨
      ∃ (k : Nat) (x : Formulation P K × String) (v : Json.Value K) (t : List Char), (methods ×ˢ modes)[k]? = some x ∧ vs[k]? = some v ∧ D.loc (Bf.file fr x.1 x.2) = f ∧
        (∀ (j : Nat) (x' : Formulation P K × String), k < j → (methods ×ˢ modes)[j]? = some x' → D.loc (Bf.file fr x'.1 x'.2) ≠ f) ∧
        d' f = some t ∧ Json.load rd t = .ok v := by
  obtain ⟨a, b⟩ := Bf.pairs (ps := methods ×ˢ modes) h
  refine ⟨a.imp fun x v e => e d, fun f => (b f).imp_right ?_⟩
  rintro ⟨k, x, v, b1, b2, b3, b4, b5⟩
  refine ⟨k, x, v, _, b1, b2, b3, b4, b5, Json.load_dump ?_⟩
  obtain ⟨hk, rfl⟩ := List.getElem?_eq_some_iff.1 b1
  obtain ⟨hk', rfl⟩ := List.getElem?_eq_some_iff.1 b2
  exact Bf.writable (fun t ht => (hn t ht).1) (fun t ht rs hrs => (hn t ht).2 _ _ rs hrs) (((List.forall₂_iff_get.1 a).2 k hk hk') d)

/-- **C123.** If no two of the methods agree in everything that the name of the file mentions, and different names are different files,
then after the call every pair has a file with its data.  Missing: methods that differ only in the partition or the solver of
`TreeAlgo`, see `C123_tree_false`. -/
theorem C123_all_partial (hn : Bf.Numbers fr rd solve thrs) (hm : methods.Pairwise fun m m' => ¬ Bf.Same fr m m')
    (hc : ∀ m ∈ methods, Bf.Clean m) (hmo : modes.Nodup) (hmm : ∀ mo ∈ modes, mo = "min" ∨ mo = "max") (hD : Function.Injective D.loc)
    (h : runMany fr (some D) stop debug solve methods modes thrs d = (d', .ok vs)) :
    List.Forall₂ (fun x v => (runOne fr (none : Option (Dir F)) stop debug x.1 x.2 (solve x.1 x.2) thrs d).2 = .ok v ∧
      ∃ t, d' (D.loc (Bf.file fr x.1 x.2)) = some t ∧ Json.load rd t = .ok v) (methods ×ˢ modes) vs := by
  obtain ⟨a, b⟩ := C123_many hn h
  have hmem : ∀ {x}, x ∈ methods ×ˢ modes → x.1 ∈ methods ∧ x.2 ∈ modes := fun {x} hx => List.mem_product.1 hx
  have hpw : (methods ×ˢ modes).Pairwise fun x y => Bf.file fr x.1 x.2 ≠ Bf.file fr y.1 y.2 := by
    show (methods.flatMap fun m => modes.map fun mo => (m, mo)).Pairwise _
    rw [List.pairwise_flatMap]
    refine ⟨fun m hm' => ?_, ?_⟩
    · rw [List.pairwise_map]
      refine hmo.imp_of_mem fun {mo mo'} h1 h2 hne e => ?_
      exact hne ((C123_names_partial (hc m hm') (hc m hm') (hmm _ h1) (hmm _ h2)).1 e).2
    · refine hm.imp_of_mem fun {m m'} h1 h2 hne => ?_
      rintro x hx y hy e
      obtain ⟨mo, hmo1, rfl⟩ := List.mem_map.1 hx
      obtain ⟨mo', hmo2, rfl⟩ := List.mem_map.1 hy
      exact hne ((C123_names_partial (hc m h1) (hc m' h2) (hmm _ hmo1) (hmm _ hmo2)).1 e).1
  rw [List.forall₂_iff_get] at a ⊢
  refine ⟨a.1, fun k hk hk' => ⟨a.2 k hk hk', ?_⟩⟩
  rcases b (D.loc (Bf.file fr ((methods ×ˢ modes).get ⟨k, hk⟩).1 ((methods ×ˢ modes).get ⟨k, hk⟩).2)) with ⟨b1, -⟩ | ⟨j, x, v, t, b1, b2, b3, b4, b5, b6⟩
  · exact absurd rfl (b1 _ (List.get_mem _ _))
  · obtain ⟨hj, rfl⟩ := List.getElem?_eq_some_iff.1 b1
    obtain ⟨hj', rfl⟩ := List.getElem?_eq_some_iff.1 b2
    have e := hD b3
    rw [List.pairwise_iff_getElem] at hpw
    have hjk : j = k := by
      rcases lt_trichotomy j k with hlt | heq | hlt
      · exact absurd e (hpw j k hj hk hlt)
      · exact heq
      · exact absurd e.symm (hpw k j hk hj hlt)
    subst hjk
    exact ⟨t, b5, b6⟩

/-- **C123 is false for `TreeAlgo`**: whatever the partitions and solvers are, the data of the first of two methods with the same bound
and tolerance are replaced by those of the second. -/
theorem C123_tree_false (hn : Bf.Numbers fr rd solve thrs) {p p' : P} {s s' : String} {b : Option Nat} {tol : K} {v v' : Json.Value K}
    (h : runMany fr (some D) stop debug solve [.treeAlgo p b tol s, .treeAlgo p' b tol s'] [mode] thrs d = (d', .ok [v, v'])) :
    Bf.file fr (.treeAlgo p b tol s) mode = Bf.file fr (.treeAlgo p' b tol s') mode ∧
    (∃ t, d' (D.loc (Bf.file fr (.treeAlgo p b tol s) mode)) = some t ∧ Json.load rd t = .ok v') ∧
    ∀ f, f ≠ D.loc (Bf.file fr (.treeAlgo p b tol s) mode) → d' f = d f := by
  have e : Bf.file fr (.treeAlgo p b tol s) mode = Bf.file fr (.treeAlgo p' b tol s') mode := by
    unfold Bf.file
    rw [Bf.treeText, Bf.treeText]
  obtain ⟨-, hb⟩ := C123_many hn h
  refine ⟨e, ?_, fun f hf => ?_⟩
  · rcases hb (D.loc (Bf.file fr (.treeAlgo p b tol s) mode)) with ⟨b1, -⟩ | ⟨j, x, w, t, b1, b2, b3, b4, b5, b6⟩
    · exact absurd rfl (b1 (.treeAlgo p b tol s, mode) (by simp))
    · match j, b1, b2, b4 with
      | 0, b1, b2, b4 => exact absurd (congrArg D.loc e.symm) (b4 1 (.treeAlgo p' b tol s', mode) one_pos rfl)
      | 1, b1, b2, b4 =>
        cases b2
        exact ⟨t, b5, b6⟩
      | j + 2, b1, b2, b4 => cases b2
  · rcases hb f with ⟨-, b2⟩ | ⟨j, x, w, t, b1, b2, b3, b4, b5, b6⟩
    · exact b2
    · exfalso
      match j, b1 with
      | 0, b1 => cases b1; exact hf b3.symm
      | 1, b1 => cases b1; exact hf (b3.symm.trans (congrArg D.loc e.symm))
      | j + 2, b1 => cases b1

end

/-! ### a concrete call -/

/-- methods that yield a result after half a second; the value of `TreeAlgo` depends on the partition -/
def Bf.exSolve (m : Formulation Nat ℚ) (_mode : String) (_t : ℚ) : Except Err (List (Res ℚ)) :=
  match m with
  | .qsHeur n _ _ _ => .ok [⟨.success, .int n, 1/2, 1/2⟩, ⟨.other, .null, 1/2, 1/2⟩]
  | .milpExact _ => .ok [⟨.success, .float (1/2), 1/2, 1/2⟩]
  | .treeAlgo p _ _ _ => .ok [⟨.success, .int p, 1/2, 1/2⟩]

theorem Bf.exNumbers : Numbers (fmtF (K := ℚ)) id exSolve [1/2] := by
  intro t ht
  rw [List.mem_singleton.1 ht]
  refine ⟨repr_half, fun m mode rs h r hr => ?_⟩
  rcases m with _ | _ | _ <;> cases h
  · simp only [List.mem_cons, List.not_mem_nil, or_false] at hr
    rcases hr with rfl | rfl
    · exact ⟨repr_half, repr_half, .int _⟩
    · exact ⟨repr_half, repr_half, .null⟩
  · rw [List.mem_singleton.1 hr]; exact ⟨repr_half, repr_half, .float repr_half⟩
  · rw [List.mem_singleton.1 hr]; exact ⟨repr_half, repr_half, .int _⟩

/-- a directory in which every name is a file -/
def Bf.exDir : Dir (List Char) := ⟨id, fun _ => true⟩

/-- **C123 is false**: a benchmark of `TreeAlgo` with two partitions returns different data, and no file holds those of the first. -/
theorem C123_false : ∃ (d' : Files.Disk (List Char)) (v v' : Json.Value ℚ),
    runMany (fmtF (K := ℚ)) (some Bf.exDir) true false Bf.exSolve [.treeAlgo 1 none (1/2) "cbc", .treeAlgo 2 none (1/2) "cbc"] ["min"] [1/2]
      (fun _ => none) = (d', .ok [v, v']) ∧
    (runOne (fmtF (K := ℚ)) (none : Option (Dir (List Char))) true false (.treeAlgo 1 none (1/2) "cbc") "min"
      (Bf.exSolve (.treeAlgo 1 none (1/2) "cbc") "min") [1/2] (fun _ => none)).2 = .ok v ∧
    v ≠ v' ∧ ∀ f t, d' f = some t → Json.load id t ≠ .ok v := by
  have hne : Json.Value.obj [("method", Json.Value.obj (details (fmtF (K := ℚ)) (.treeAlgo 1 none (1/2) "cbc"))), ("mode", .str "min"),
        ("run", .arr [entryJson ⟨1/2, [.int 1], [1/2], [1/2]⟩])] ≠
      .obj [("method", .obj (details (fmtF (K := ℚ)) (.treeAlgo 2 none (1/2) "cbc"))), ("mode", .str "min"),
        ("run", .arr [entryJson ⟨1/2, [.int 2], [1/2], [1/2]⟩])] := by
    intro h
    simp [entryJson] at h
  obtain ⟨d', h⟩ : ∃ d', runMany (fmtF (K := ℚ)) (some Bf.exDir) true false Bf.exSolve
      [.treeAlgo 1 none (1/2) "cbc", .treeAlgo 2 none (1/2) "cbc"] ["min"] [1/2] (fun _ => none) = (d', .ok
        [.obj [("method", .obj (details (fmtF (K := ℚ)) (.treeAlgo 1 none (1/2) "cbc"))), ("mode", .str "min"),
        ("run", .arr [entryJson ⟨1/2, [.int 1], [1/2], [1/2]⟩])],
        .obj [("method", .obj (details (fmtF (K := ℚ)) (.treeAlgo 2 none (1/2) "cbc"))), ("mode", .str "min"),
        ("run", .arr [entryJson ⟨1/2, [.int 2], [1/2], [1/2]⟩])]]) := ⟨_, rfl⟩
  obtain ⟨-, ⟨t, h2, h3⟩, h4⟩ := C123_tree_false Bf.exNumbers h
  refine ⟨d', _, _, h, rfl, hne, fun f t' ht => ?_⟩
  by_cases hf : f = Bf.exDir.loc (Bf.file (fmtF (K := ℚ)) (.treeAlgo 1 none (1/2) "cbc" : Formulation Nat ℚ) "min")
  · rw [hf, h2] at ht
    cases ht
    rw [h3]
    exact fun e => hne (Except.ok.inj e).symm
  · rw [h4 f hf] at ht
    cases ht

-- the hypotheses of `C123_all_partial`: three methods and both modes; the run of QSHeur records a failure
example : ∃ (d' : Files.Disk (List Char)) (vs : List (Json.Value ℚ)) (methods : List (Formulation Nat ℚ)), methods.length = 3 ∧
    runMany (fmtF (K := ℚ)) (some Bf.exDir) true false Bf.exSolve methods ["min", "max"] [1/2] (fun _ => none) = (d', .ok vs) ∧
    Bf.Numbers (fmtF (K := ℚ)) id Bf.exSolve [1/2] ∧ (methods.Pairwise fun m m' => ¬ Bf.Same (fmtF (K := ℚ)) m m') ∧
    (∀ m ∈ methods, Bf.Clean m) ∧ Function.Injective Bf.exDir.loc := by
  refine ⟨_, _, [.qsHeur 3 "AllOnesInitializer" "InverseResultUpdater" "cbc", .qsHeur 5 "AllOnesInitializer" "InverseResultUpdater" "cbc",
    .milpExact "cbc"], rfl, rfl, Bf.exNumbers, ?_, ?_, fun x y h => h⟩
  · simp [Bf.Same]
  · intro m hm n i u s e
    subst e
    simp only [List.mem_cons, List.not_mem_nil, or_false] at hm
    rcases hm with hm | hm | hm <;> cases hm <;> exact ⟨by decide, by decide⟩

-- the name of a file
example : Bf.file (fmtF (K := ℚ)) (.qsHeur 3 "AllOnesInitializer" "InverseResultUpdater" "cbc" : Formulation Nat ℚ) "min" =
    "QSHeur(solver=cbc,iterations=3,initializertype=AllOnesInitializer,updatertype=InverseResultUpdater)-min.json".toList := by
  decide +kernel

end Verif.Props
