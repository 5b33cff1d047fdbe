import Verif.Proofs.Json
import Verif.Props.CliRf
/-!
# C111: the `.json` files of the command line tool

The values in a file and its text are related by the grammar of JSON (`Spec/Json.lean`).
-/
set_option linter.unusedSectionVars false

namespace Verif.Props
open Verif.Model Verif.Model.Cli Verif.Spec Verif.Proofs

variable {K : Type} {rd : ℚ → K} {fr : K → List Char}

/-- **C111, reading.** `json.load` accepts exactly the texts of the JSON grammar, and the result is the value that the text
denotes: any white space, any order of the members, and for a repeated key its last value. -/
theorem C111_syntax {t : List Char} {v : Json.Value K} : Json.load rd t = .ok v ↔ Json.Document rd v t := Json.load_iff

/-- an error of the reader -/
def JsonErr {α : Type} (x : Except Err α) : Prop := ∀ e, x = .error e → e = .valueError ∨ e = .outside

theorem JsonErr.bind {α β : Type} {x : Except Err α} {f : α → Except Err β} (h : JsonErr x) (h' : ∀ a, JsonErr (f a)) :
    JsonErr (x >>= f) := by
  intro e he
  cases x with
  | error e' => cases he; exact h _ rfl
  | ok a => exact h' a e he

theorem JsonErr.ok {α : Type} (a : α) : JsonErr (.ok a : Except Err α) := by
  intro e he
  cases he

theorem JsonErr.value {α : Type} : JsonErr (.error .valueError : Except Err α) := by
  intro e he
  cases he
  exact Or.inl rfl

theorem JsonErr.out {α : Type} : JsonErr (.error .outside : Except Err α) := by
  intro e he
  cases he
  exact Or.inr rfl

theorem jsonErr_ite {α : Type} {p : Prop} [Decidable p] {x y : Except Err α} (hx : JsonErr x) (hy : JsonErr y) :
    JsonErr (if p then x else y) := by
  split
  · exact hx
  · exact hy

theorem unescape_err (s : List Char) : JsonErr (Json.unescape s) := by
  unfold Json.unescape
  split
  · exact .value
  · repeat (refine jsonErr_ite (.ok _) ?_)
    refine jsonErr_ite ?_ .value
    split
    · exact .value
    · refine jsonErr_ite ?_ (jsonErr_ite .out (.ok _))
      split
      · split
        · exact .out
        · exact jsonErr_ite (.ok _) .out
      · exact .out

theorem scanStr_err (n : Nat) : ∀ s, JsonErr (Json.scanStr n s) := by
  induction n with
  | zero => intro s; cases s <;> exact .value
  | succ n ih =>
    intro s
    cases s with
    | nil => exact .value
    | cons c s =>
      rw [Json.scanStr]
      split
      · exact .ok _
      split
      · exact (unescape_err s).bind fun p => (ih p.2).bind fun q => .ok _
      split
      · exact .value
      · exact (ih s).bind fun q => .ok _

theorem scanNum_err (s : List Char) : JsonErr (Json.scanNum rd s) := by
  unfold Json.scanNum
  split
  · split
    · exact .out
    · exact .value
  · split
    split
    split
    · exact .ok _
    · exact .ok _

theorem scan_err (n : Nat) : (∀ s, JsonErr (Json.scan rd n s)) ∧ (∀ s, JsonErr (Json.scanItems rd n s)) ∧
    ∀ s, JsonErr (Json.scanMembers rd n s) := by
  induction n with
  | zero => exact ⟨fun s => by rw [Json.scan]; exact .value, fun s => by rw [Json.scanItems]; exact .value,
      fun s => by rw [Json.scanMembers]; exact .value⟩
  | succ n ih =>
    obtain ⟨i1, i2, i3⟩ := ih
    refine ⟨fun s => ?_, fun s => ?_, fun s => ?_⟩
    · rw [Json.scan.eq_def]
      simp only
      split
      · exact (scanStr_err _ _).bind fun p => .ok _
      · split
        · exact .ok _
        · exact (i3 _).bind fun p => .ok _
      · split
        · exact .ok _
        · exact (i2 _).bind fun p => .ok _
      · exact .ok _
      · exact .ok _
      · exact .ok _
      · exact scanNum_err _
    · rw [Json.scanItems]
      refine (i1 s).bind fun p => ?_
      simp only
      split
      · exact .ok _
      · exact (i2 _).bind fun p => .ok _
      · exact .value
    · rw [Json.scanMembers.eq_def]
      simp only
      split
      · refine (scanStr_err _ _).bind fun p => ?_
        split
        · refine (i1 _).bind fun p => ?_
          split
          · exact .ok _
          · exact (i3 _).bind fun p => .ok _
          · exact .value
        · exact .value
      · exact .value

theorem load_err (t : List Char) : JsonErr (Json.load rd t) := by
  unfold Json.load
  refine ((scan_err _).1 _).bind fun p => ?_
  simp only
  split
  · exact .ok _
  · exact .value

/-- **C111, rejection.** A text outside the grammar raises `ValueError` (of which `JSONDecodeError` is a subclass), unless it is
outside the model (`NaN`, `Infinity`, half a surrogate pair). -/
theorem C111_malformed {t : List Char} (h : ¬ ∃ v, Json.Document rd v t) :
    Json.load rd t = .error .valueError ∨ Json.load rd t = .error .outside := by
  cases hl : Json.load rd t with
  | ok v => exact absurd ⟨v, Json.load_iff.1 hl⟩ h
  | error e =>
    rcases load_err t e hl with rfl | rfl
    · exact Or.inl rfl
    · exact Or.inr rfl

/-- **C111, writing and reading.** What `json.dump` writes is read back as the same value, so different values have different
texts. -/
theorem C111_roundtrip {v : Json.Value K} (h : Json.Writable (Json.ReprOk fr rd) v) :
    Json.load rd (Json.dump fr v) = .ok v ∧
    ∀ v', Json.Writable (Json.ReprOk fr rd) v' → Json.dump fr v' = Json.dump fr v → v' = v := by
  refine ⟨Json.load_dump h, fun v' h' e => ?_⟩
  have := Json.load_dump h'
  rw [e, Json.load_dump h] at this
  exact (Except.ok.inj this).symm

/-- **C111.** Only printable ASCII characters are written, whatever characters the labels have: the encoding of the file plays
no role. -/
theorem C111_ascii {v : Json.Value K} (h : Json.Writable (Json.ReprOk fr rd) v) :
    ∀ c ∈ Json.dump fr v, 32 ≤ c.toNat ∧ c.toNat ≤ 126 := Json.dump_printable h

theorem mapping_writable (P : K → Prop) (mp : Mapping) : Json.Writable P (Json.mappingJson mp) := by
  have key : ∀ l : List Nat, Json.Writable P (Json.nats l) := by
    intro l
    refine .arr fun v hv => ?_
    obtain ⟨n, _, rfl⟩ := List.mem_map.1 hv
    exact .int _
  refine .obj (by simp) ?_
  intro kv hkv
  simp only [List.mem_cons, List.not_mem_nil, or_false] at hkv
  rcases hkv with rfl | rfl | rfl | rfl <;> exact key _

section
variable [Field K] [LinearOrder K] [IsStrictOrderedRing K] [FloorRing K]

/-- **C111, the mapping file.** The text of the mapping file written by `switss rf` is valid JSON without floats.  Its four lists,
read back and put side by side, are exactly the state-action map of the reduction. -/
theorem C111_mapping {ρ : Graph.Rnd} {π : List Nat → List Nat} {π' : List String → List String} {kind : Kind} {lab tra lab' tra' : List Char}
    {il tl ntl nfl : String} {mp : Mapping} (h : rfCmd (K := K) ρ π π' kind lab tra il tl ntl nfl = .ok (mp, lab', tra')) :
    ∃ (M : Sys K) (res : Reduce.Result K) (v : Json.Value K) (S A S' A' : List Nat), loadModel kind lab tra = .ok M ∧
      M.reduce ρ il tl ntl nfl = .ok res ∧ Json.load rd (Json.dump fr (Json.mappingJson mp)) = .ok v ∧
      v.get "states" = .ok (Json.nats S) ∧ v.get "actions" = .ok (Json.nats A) ∧
      v.get "rfstates" = .ok (Json.nats S') ∧ v.get "rfactions" = .ok (Json.nats A') ∧
      S.length = res.rows.length ∧ (S.zip A).zip (S'.zip A') = res.rows := by
  cases hM : loadModel (K := K) kind lab tra with
  | error e =>
    unfold rfCmd at h
    rw [hM] at h
    cases h
  | ok M =>
    obtain ⟨res, h1, _, rfl⟩ := (rfCmd_ok hM).1 h
    refine ⟨M, res, _, _, _, _, _, rfl, h1, Json.load_dump (mapping_writable _ _), rfl, rfl, rfl, rfl, by simp, ?_⟩
    rw [List.zip_map', List.zip_map', List.zip_map']
    simp

/-! ## certificate files -/

/-- the value is the number `x`, written with or without a fraction -/
def NumIs (v : Json.Value K) (x : K) : Prop := v = .float x ∨ ∃ i : Int, v = .int i ∧ x = i

/-- an object with the entries `iteration`, `threshold` and `certificate` of an instance, and perhaps others -/
def InstanceIs (v : Json.Value K) (x : Instance K) : Prop :=
  ∃ d t cs, v = .obj d ∧ Dict.get? d "iteration" = some (.int x.iteration) ∧ Dict.get? d "threshold" = some t ∧ NumIs t x.threshold ∧
    Dict.get? d "certificate" = some (.arr cs) ∧ List.Forall₂ NumIs cs x.certificate

/-- an object that holds the contents of a certificate file, and perhaps other entries -/
def FileIs (v : Json.Value K) (f : CertFile K) : Prop :=
  ∃ d md is, v = .obj d ∧ Dict.get? d "method" = some (.obj md) ∧ Dict.get? md "mode" = f.mode.map .str ∧
    Dict.get? d "instances" = some (.arr is) ∧ List.Forall₂ InstanceIs is f.instances

theorem num_of {v : Json.Value K} {x : K} (h : NumIs v x) : v.num = .ok x := by
  rcases h with rfl | ⟨i, rfl, rfl⟩ <;> rfl

theorem nums_of {vs : List (Json.Value K)} {xs : List K} (h : List.Forall₂ NumIs vs xs) : (Json.Value.arr vs).nums = .ok xs := by
  show vs.mapM Json.Value.num = .ok xs
  induction h with
  | nil => rfl
  | cons h _ ih =>
    rw [List.mapM_cons, num_of h, ih]
    rfl

theorem unpack_of {d md : List (String × Json.Value K)} {m : Option String} (h1 : Dict.get? d "method" = some (.obj md))
    (h2 : Dict.get? md "mode" = m.map .str) {inst : Json.Value K} {x : Instance K} (hx : InstanceIs inst x) :
    Json.unpack (.obj d) inst = (match m with | none => .error .keyError | some m => .ok (m, x)) := by
  obtain ⟨di, t, cs, rfl, a1, a2, a3, a4, a5⟩ := hx
  unfold Json.unpack
  simp only [Json.Value.get, a1, a2, a4, h1, h2, num_of a3, bind, Except.bind, nums_of a5]
  cases m <;> simp

theorem forEach_certify {d md : List (String × Json.Value K)} {m : Option String} (h1 : Dict.get? d "method" = some (.obj md))
    (h2 : Dict.get? md "mode" = m.map .str) (rf : RF K) (tol : K) {is : List (Json.Value K)} {xs : List (Instance K)}
    (h : List.Forall₂ InstanceIs is xs) :
    Json.forEach (fun inst => Json.unpack (.obj d) inst >>= fun x =>
      match modeOf x.1 with
      | none => .error .assertion
      | some mode => check rf mode .ge x.2.threshold x.2.certificate tol) is = certifyLoop rf m tol xs := by
  induction h with
  | nil => rfl
  | @cons inst x is xs hx _ ih =>
    rw [Json.forEach, unpack_of h1 h2 hx, certifyLoop.eq_def]
    cases m with
    | none => rfl
    | some m =>
      simp only [bind, Except.bind]
      cases hm : modeOf m with
      | none => rfl
      | some mode =>
        simp only
        cases hc : check rf mode .ge x.threshold x.certificate tol with
        | error e => rfl
        | ok b =>
          simp only
          rw [← ih]
          rfl

theorem forEach_subsystem {d md : List (String × Json.Value K)} {m : Option String} (h1 : Dict.get? d "method" = some (.obj md))
    (h2 : Dict.get? md "mode" = m.map .str) (copy : Sys K → Except Err (Sys K)) (π : List Nat → List Nat)
    (π' : List String → List String) (kind : Kind) (label : String) (rf : RF K) {is : List (Json.Value K)} {xs : List (Instance K)}
    (h : List.Forall₂ InstanceIs is xs) :
    Json.forEach (fun inst => Json.unpack (.obj d) inst >>= fun x => subsystemStep copy π π' kind label rf (some x.1) x.2) is =
      subsystemLoop copy π π' kind label rf m xs := by
  induction h with
  | nil => rfl
  | @cons inst x is xs hx _ ih =>
    rw [Json.forEach, unpack_of h1 h2 hx, subsystemLoop.eq_def]
    cases m with
    | none => rfl
    | some m =>
      simp only [bind, Except.bind]
      cases hc : subsystemStep copy π π' kind label rf (some m) x with
      | error e => rfl
      | ok b =>
        simp only
        rw [← ih]
        rfl

variable {ρ : Graph.Rnd} {kind : Kind} {lab tra : List Char} {il tl fl : String}

/-- **C111, `switss certify`.** For every text of a certificate file — any white space, any order of the entries, further
entries, numbers with or without a fraction — the verdicts are those for the contents of the file.  All results on `certify`
(C75, C76) therefore hold of the text. -/
theorem C111_certify {t : List Char} {v : Json.Value K} {f : CertFile K} (ht : Json.Document rd v t) (hf : FileIs v f) (tol : K) :
    Json.certify rd ρ kind lab tra il tl fl (some t) tol = Cli.certify ρ kind lab tra il tl fl (some f) tol := by
  obtain ⟨d, md, is, rfl, h1, h2, h3, h4⟩ := hf
  unfold Json.certify Cli.certify
  cases loadModel (K := K) kind lab tra with
  | error e => rfl
  | ok M =>
    simp only
    cases RF.make ρ M il tl fl false with
    | error e => rfl
    | ok rf =>
      simp only [Json.readFile, Json.load_iff.2 ht, Json.Value.get, h3, bind, Except.bind, Json.Value.iter]
      exact forEach_certify h1 h2 rf tol h4

/-- **C111, `switss subsystem`** reads the same contents. -/
theorem C111_subsystem {t : List Char} {v : Json.Value K} {f : CertFile K} (ht : Json.Document rd v t) (hf : FileIs v f)
    (copy : Sys K → Except Err (Sys K)) (π : List Nat → List Nat) (π' : List String → List String) (label : String) :
    Json.subsystem rd copy ρ π π' kind lab tra il tl fl label (some t) =
      Cli.subsystem copy ρ π π' kind lab tra il tl fl label (some f) := by
  obtain ⟨d, md, is, rfl, h1, h2, h3, h4⟩ := hf
  unfold Json.subsystem Cli.subsystem
  cases loadModel (K := K) kind lab tra with
  | error e => rfl
  | ok M =>
    simp only
    split
    · rfl
    · cases RF.make ρ M il tl fl false with
      | error e => rfl
      | ok rf =>
        simp only [Json.readFile, Json.load_iff.2 ht, Json.Value.get, h3, bind, Except.bind, Json.Value.iter]
        exact forEach_subsystem h1 h2 copy π π' kind label rf h4

/-- **C111.** A certificate file that is not JSON yields no verdict: the command ends with an exception. -/
theorem C111_certify_malformed {t : List Char} (h : ¬ ∃ v : Json.Value K, Json.Document rd v t) (tol : K) :
    (Json.certify rd ρ kind lab tra il tl fl (some t) tol).1 = [] ∧ (Json.certify rd ρ kind lab tra il tl fl (some t) tol).2 ≠ .done := by
  have hof : ∀ e, Exit.of e ≠ .done := by intro e; cases e <;> simp [Exit.of]
  unfold Json.certify
  cases loadModel (K := K) kind lab tra with
  | error e => exact ⟨rfl, hof _⟩
  | ok M =>
    simp only
    cases RF.make ρ M il tl fl false with
    | error e => exact ⟨rfl, hof _⟩
    | ok rf =>
      rcases C111_malformed h with h | h <;> simp only [Json.readFile, h]
      · exact ⟨trivial, hof _⟩
      · exact ⟨trivial, hof _⟩

theorem infoJson_is {details : List (String × Json.Value K)} {f : CertFile K} (hm : Dict.get? details "mode" = f.mode.map .str) :
    FileIs (Json.infoJson details f.instances) f := by
  refine ⟨_, details, _, rfl, rfl, hm, rfl, ?_⟩
  rw [List.forall₂_map_left_iff]
  refine List.forall₂_same.2 fun x _ => ⟨_, _, _, rfl, rfl, rfl, Or.inl rfl, rfl, ?_⟩
  rw [List.forall₂_map_left_iff]
  exact List.forall₂_same.2 fun _ _ => Or.inl rfl

/-- **C111, the file of `switss minimize`.** If `float.__repr__` is exact on the numbers of a certificate file, then the text that
`json.dump` writes for it — with any dictionary `details` describing the method — is accepted by `certify` with the verdicts for
the original numbers. -/
theorem C111_stored {details : List (String × Json.Value K)} {f : CertFile K} (hd : Json.Writable (Json.ReprOk fr rd) (.obj details))
    (hm : Dict.get? details "mode" = f.mode.map .str)
    (hx : ∀ x ∈ f.instances, Json.ReprOk fr rd x.threshold ∧ ∀ y ∈ x.certificate, Json.ReprOk fr rd y) (tol : K) :
    Json.certify rd ρ kind lab tra il tl fl (some (Json.dump fr (Json.infoJson details f.instances))) tol =
      Cli.certify ρ kind lab tra il tl fl (some f) tol := by
  refine C111_certify (Json.load_iff.1 (Json.load_dump ?_)) (infoJson_is hm) tol
  refine .obj (by simp) fun kv hkv => ?_
  simp only [List.mem_cons, List.not_mem_nil, or_false] at hkv
  rcases hkv with rfl | rfl
  · exact hd
  · refine .arr fun v hv => ?_
    obtain ⟨x, hx', rfl⟩ := List.mem_map.1 hv
    refine .obj (by simp) fun kv hkv => ?_
    simp only [List.mem_cons, List.not_mem_nil, or_false] at hkv
    rcases hkv with rfl | rfl | rfl
    · exact .int _
    · exact .float (hx x hx').1
    · refine .arr fun v hv => ?_
      obtain ⟨y, hy, rfl⟩ := List.mem_map.1 hv
      exact .float ((hx x hx').2 y hy)

end

/-! ## examples -/

/-- the text of a certificate file, formatted by hand: white space, another order of the entries, a further entry, a repeated key,
integers and exponents -/
def certText : List Char :=
  ("{ \"instances\" : [ {\"threshold\":0.5, \"iteration\":7, \"iteration\":0, \"certificate\":[1,0]},\n" ++
   "  {\"certificate\": [10E-1, 0.0] ,\"comment\":\"\\u00e9\\ud83d\\ude00\", \"threshold\":75e-2,\"iteration\":1}],\n" ++
   "\"method\":{\"mode\":\"max\"}}\n").toList

/-- the value it denotes -/
def certValue : Json.Value ℚ :=
  .obj [("instances", .arr [.obj [("threshold", .float (1/2)), ("iteration", .int 0), ("certificate", .arr [.int 1, .int 0])],
      .obj [("certificate", .arr [.float 1, .float 0]), ("comment", .str "é😀"), ("threshold", .float (3/4)), ("iteration", .int 1)]]),
    ("method", .obj [("mode", .str "max")])]

mutual
/-- a test of equality, for the examples -/
def sameValue : Json.Value ℚ → Json.Value ℚ → Bool
  | .null, .null => true
  | .bool a, .bool b => a == b
  | .int a, .int b => a == b
  | .float a, .float b => a == b
  | .str a, .str b => a == b
  | .arr a, .arr b => sameItems a b
  | .obj a, .obj b => sameMembers a b
  | _, _ => false

def sameItems : List (Json.Value ℚ) → List (Json.Value ℚ) → Bool
  | [], [] => true
  | v :: vs, w :: ws => sameValue v w && sameItems vs ws
  | _, _ => false

def sameMembers : List (String × Json.Value ℚ) → List (String × Json.Value ℚ) → Bool
  | [], [] => true
  | (k, v) :: vs, (l, w) :: ws => k == l && sameValue v w && sameMembers vs ws
  | _, _ => false
end

mutual
theorem sameValue_eq : ∀ {v w : Json.Value ℚ}, sameValue v w = true → v = w
  | .null, w, h => by cases w <;> simp_all [sameValue]
  | .bool a, w, h => by cases w <;> simp_all [sameValue]
  | .int a, w, h => by cases w <;> simp_all [sameValue]
  | .float a, w, h => by cases w <;> simp_all [sameValue]
  | .str a, w, h => by cases w <;> simp_all [sameValue]
  | .arr a, w, h => by
    cases w with
    | arr b => rw [sameValue] at h; rw [sameItems_eq h]
    | _ => simp [sameValue] at h
  | .obj a, w, h => by
    cases w with
    | obj b => rw [sameValue] at h; rw [sameMembers_eq h]
    | _ => simp [sameValue] at h

theorem sameItems_eq : ∀ {v w : List (Json.Value ℚ)}, sameItems v w = true → v = w
  | [], w, h => by cases w <;> simp_all [sameItems]
  | v :: vs, w, h => by
    cases w with
    | nil => simp [sameItems] at h
    | cons w ws =>
      rw [sameItems, Bool.and_eq_true] at h
      rw [sameValue_eq h.1, sameItems_eq h.2]

theorem sameMembers_eq : ∀ {v w : List (String × Json.Value ℚ)}, sameMembers v w = true → v = w
  | [], w, h => by cases w <;> simp_all [sameMembers]
  | (k, v) :: vs, w, h => by
    cases w with
    | nil => simp [sameMembers] at h
    | cons w ws =>
      obtain ⟨l, w⟩ := w
      rw [sameMembers, Bool.and_eq_true, Bool.and_eq_true, beq_iff_eq] at h
      rw [h.1.1, sameValue_eq h.1.2, sameMembers_eq h.2]
end

theorem certText_denotes : Json.Document id certValue certText := by
  obtain ⟨v, h1, h2⟩ := exists_of_ok_and (x := Json.load (K := ℚ) id certText) (p := fun v => sameValue v certValue) (by decide +kernel)
  rw [← sameValue_eq h2]
  exact Json.load_iff.1 h1

theorem certText_is : FileIs certValue ⟨some "max", [⟨0, 1/2, [1, 0]⟩, ⟨1, 3/4, [1, 0]⟩]⟩ := by
  refine ⟨_, _, _, rfl, rfl, rfl, rfl, .cons ⟨_, _, _, rfl, rfl, rfl, Or.inl rfl, rfl, ?_⟩ (.cons ⟨_, _, _, rfl, rfl, rfl, Or.inl rfl, rfl, ?_⟩ .nil)⟩
  · exact .cons (Or.inr ⟨1, rfl, by norm_num⟩) (.cons (Or.inr ⟨0, rfl, by norm_num⟩) .nil)
  · exact .cons (Or.inl rfl) (.cons (Or.inl rfl) .nil)

-- the first instance of the text is accepted, the second is not
example : Json.certify id exRnd .mdp cliLab cliTra "init" "goal" "fail" (some certText) 0 = ([true, false], .done) := by
  rw [C111_certify certText_denotes certText_is]
  obtain ⟨M, rf, h1, h2, h3, h4, h5, h6⟩ := cliTest_spec (kind := .mdp) (tra := cliTra)
    (p := fun M rf => decide (certifyLoop rf (some "max") 0 [⟨0, 1/2, [1, 0]⟩, ⟨1, 3/4, [1, 0]⟩] = ([true, false], .done))) (by decide +kernel)
  rw [certify_eq h1 h4]
  exact of_decide_eq_true h6

-- texts outside the grammar: a trailing comma, a number with a leading zero, two values, a line break inside a string
theorem not_document {t : List Char} (h : (Json.load (K := ℚ) id t).toBool = false) : ¬ ∃ v : Json.Value ℚ, Json.Document id v t := by
  rintro ⟨v, hv⟩
  rw [Json.load_iff.2 hv] at h
  cases h

example : ¬ ∃ v : Json.Value ℚ, Json.Document id v ['[', '1', ',', ']'] := not_document (by decide +kernel)
example : ¬ ∃ v : Json.Value ℚ, Json.Document id v "{\"threshold\": 01}".toList := not_document (by decide +kernel)
example : ¬ ∃ v : Json.Value ℚ, Json.Document id v "[0.5] [0.5]".toList := not_document (by decide +kernel)
example : ¬ ∃ v : Json.Value ℚ, Json.Document id v "[\"a\nb\"]".toList := not_document (by decide +kernel)

-- a representation of floats that is exact on a certificate
theorem repr_half : Json.ReprOk (Text.fmtF (K := ℚ)) id (1/2) := by
  refine ⟨1/2, .pos ⟨['0'], "500000".toList, '.' :: "500000".toList, [], 0, Or.inl rfl, .some ⟨by decide, by decide⟩, .none,
    Or.inl (by simp), by decide +kernel, ?_⟩, rfl⟩
  rw [show Json.natOf ['0'] = 0 from rfl, show Json.natOf "500000".toList = 500000 from rfl, show "500000".toList.length = 6 from rfl]
  norm_num

example : Json.Writable (Json.ReprOk (Text.fmtF (K := ℚ)) id)
    (Json.infoJson [("mode", .str "max"), ("é", .null)] [⟨0, 1/2, [1/2, 1/2]⟩]) ∧
    Json.dump (Text.fmtF (K := ℚ)) (Json.infoJson [("mode", .str "max"), ("é", .null)] [⟨0, 1/2, [1/2, 1/2]⟩]) =
      ("{\"method\": {\"mode\": \"max\", \"\\u00e9\": null}, \"instances\": [{\"iteration\": 0, \"threshold\": 0.500000, " ++
        "\"certificate\": [0.500000, 0.500000]}]}").toList := by
  refine ⟨.obj (by simp) ?_, by decide +kernel⟩
  intro kv hkv
  simp only [List.mem_cons, List.not_mem_nil, or_false] at hkv
  rcases hkv with rfl | rfl
  · refine .obj (by simp) ?_
    intro kv hkv
    simp only [List.mem_cons, List.not_mem_nil, or_false] at hkv
    rcases hkv with rfl | rfl
    · exact .str _
    · exact .null
  · refine .arr ?_
    intro v hv
    simp only [List.map_cons, List.map_nil, List.mem_cons, List.not_mem_nil, or_false] at hv
    subst hv
    refine .obj (by simp) ?_
    intro kv hkv
    simp only [List.mem_cons, List.not_mem_nil, or_false] at hkv
    rcases hkv with rfl | rfl | rfl
    · exact .int _
    · exact .float repr_half
    · refine .arr ?_
      intro v hv
      simp only [List.map_cons, List.map_nil, List.mem_cons, List.not_mem_nil, or_false] at hv
      rcases hv with rfl | rfl <;> exact .float repr_half

end Verif.Props
