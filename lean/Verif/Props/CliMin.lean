import Verif.Props.CliRf
/-!
# C77 and C78: `switss minimize` and `switss subsystem`
-/
set_option linter.unusedSectionVars false

namespace Verif.Props
open Verif.Model Verif.Model.Cli Verif.Spec Verif.Proofs Verif.Proofs.IDict Verif.Proofs.IOTra Finset

variable {K : Type} [Field K] [LinearOrder K] [IsStrictOrderedRing K]
variable {ρ : Graph.Rnd} {M : Sys K} {il tl fl : String} {rf : RF K} {kind : Kind} {lab tra : List Char}

/-! ### C77 -/

/-- neither constructor takes a parameter `mode` -/
theorem construct_mode {name : String} {d : Dict String (List Char)} {m : Method} (h : construct name d = .ok m) :
    d.get? "mode" = none := by
  by_contra hne
  obtain ⟨v, hv⟩ := Option.ne_none_iff_exists'.1 hne
  have hk : "mode" ∈ d.keys := List.mem_map.2 ⟨_, Dict.mem_of_get? hv, rfl⟩
  unfold construct at h
  split at h
  · split at h
    · rename_i hall
      exact absurd (hall _ hk) (by decide)
    · cases h
  · split at h
    · split at h
      · rename_i hall
        exact absurd (hall _ hk) (by decide)
      · cases h
    · cases h

theorem processResult_none {mp : Dict String (List Char)} (hm : mp.get? "mode" = none) {t tol : K} {n : Nat}
    {r : ProblemResult (Subsystem K) K} {i : Instance K} : processResult rf mp t tol n r ≠ .ok i := by
  intro h
  unfold processResult at h
  cases hs : r.subsystem with
  | none => rw [hs] at h; cases h
  | some w =>
    rw [hs] at h
    simp only [bind, Except.bind] at h
    split at h
    · cases h
    · rw [hm] at h; cases h

theorem qsLoop_nil {f : Form (Subsystem K) K} {solver : Nat → Milp K → Answer K} {mode : Mode} {upd : Updater K} {n : Nat}
    {m : Milp K} {obj : List (Nat × K)} (h : qsLoop f solver mode upd n m obj = ([], none)) : n = 0 := by
  cases n with
  | zero => rfl
  | succ k =>
    unfold qsLoop at h
    cases hm : m.setObjective obj with
    | error e => rw [hm] at h; simp at h
    | ok m' =>
      rw [hm] at h
      simp only at h
      split at h
      · split at h
        · simp at h
        · split at h <;> simp at h
      · simp at h

theorem methodRun_nil {env : Env K} {m : Method} {a : SolveArgs K} (h : methodRun env rf m a = ([], none)) :
    ∃ i u s, m = .qsHeur 0 i u s := by
  unfold methodRun at h
  cases hm : modeOf a.mode with
  | none => rw [hm] at h; simp at h
  | some mode =>
    rw [hm] at h
    simp only at h
    unfold solveIter at h
    split at h
    swap
    · simp at h
    split at h
    swap
    · simp at h
    cases m with
    | milpExact s =>
      simp only [Model.milpExact] at h
      split at h
      · simp at h
      · simp at h
      · split at h
        · split at h <;> simp at h
        · simp at h
    | qsHeur n i u s =>
      simp only [Model.qsHeur] at h
      split at h
      · simp at h
      · simp at h
      · split at h
        · simp at h
        · obtain rfl := qsLoop_nil h
          exact ⟨i, u, s, rfl⟩

variable [FloorRing K]

/-- the part of `minimize` after the model has been accepted -/
theorem minimize_inv {env : Env K} {method solve solveIt : List (List Char)} {tol : K} {m : Method} {f : CertFile K}
    (h : minimize ρ env kind lab tra il tl fl method solve solveIt tol = .ok (m, f)) :
    f.instances = [] ∧ solveIt ≠ [] ∧ ∃ i u s, m = .qsHeur 0 i u s := by
  simp only [minimize, bind, Except.bind] at h
  split at h
  · cases h
  cases method with
  | nil => cases h
  | cons name mps =>
    simp only at h
    split at h
    · cases h
    split at h
    · cases h
    rename_i rf hrf
    split at h
    swap
    · cases h
    split at h
    · cases h
    rename_i mp hmp
    split at h
    · cases h
    split at h
    · cases h
    rename_i m' hm'
    have hmode := construct_mode hm'
    split at h
    · cases h
    split at h
    · cases h
    split at h
    · cases h
    rename_i a ha
    split at h
    · rename_i hsi
      split at h
      · cases h
      · rename_i is his
        cases h
        cases hr : (methodRun env rf m a).1 with
        | nil =>
          rw [hr] at his
          unfold processAll at his
          cases he : (methodRun env rf m a).2 with
          | some e => rw [he] at his; cases his
          | none =>
            rw [he] at his
            cases his
            exact ⟨rfl, hsi, methodRun_nil (Prod.ext hr he)⟩
        | cons r rs =>
          rw [hr] at his
          simp only [processAll, bind, Except.bind] at his
          split at his
          · cases his
          · rename_i x hx
            exact absurd hx (processResult_none hmode)
    · split at h
      · cases h
      · split at h
        · cases h
        · rename_i x hx
          exact absurd hx (processResult_none hmode)

/-- **C77 is false of the code.** Whatever the arguments and whatever the solver answers: if `switss minimize` stores a
file at all, the file contains no certificate, and this happens only with `-si` and `QSHeur` with no iterations. -/
theorem C77_minimize_false {env : Env K} {method solve solveIt : List (List Char)} {tol : K} {m : Method} {f : CertFile K}
    (h : minimize ρ env kind lab tra il tl fl method solve solveIt tol = .ok (m, f)) :
    f.instances = [] ∧ solveIt ≠ [] ∧ ∃ i u s, m = .qsHeur 0 i u s := minimize_inv h

/-- in particular without `-si` nothing is ever stored -/
theorem C77_solve_false {env : Env K} {method solve : List (List Char)} {tol : K} :
    ∃ e, minimize ρ env kind lab tra il tl fl method solve [] tol = .error e := by
  cases h : minimize ρ env kind lab tra il tl fl method solve [] tol with
  | error e => exact ⟨e, rfl⟩
  | ok r => exact absurd rfl (minimize_inv (f := r.2) (m := r.1) h).2.1

/-- the constructor fails when there is a parameter `mode` -/
theorem construct_error {name : String} {d : Dict String (List Char)} {v : List Char} (hn : name ∈ ["QSHeur", "MILPExact"])
    (hd : d.get? "mode" = some v) : construct name d = .error .typeError := by
  have hk : "mode" ∈ d.keys := List.mem_map.2 ⟨_, Dict.mem_of_get? hd, rfl⟩
  have h1 : ¬ ∀ k ∈ d.keys, k ∈ ["iterations", "initializertype", "updatertype", "solver"] :=
    fun hall => absurd (hall _ hk) (by decide)
  have h2 : ¬ ∀ k ∈ d.keys, k ∈ ["solver"] := fun hall => absurd (hall _ hk) (by decide)
  simp only [List.mem_cons, List.not_mem_nil, or_false] at hn
  unfold construct
  rcases hn with rfl | rfl
  · rw [if_pos rfl, if_neg h1]
  · rw [if_neg (by decide), if_pos rfl, if_neg h2]

theorem forM_ok {α : Type} {f : α → Except Err Unit} : ∀ {l : List α}, (∀ x ∈ l, f x = .ok ()) → l.forM f = .ok () := by
  intro l
  induction l with
  | nil => intro _; rfl
  | cons a l ih =>
    intro h
    have e : (a :: l).forM f = (f a >>= fun _ => l.forM f) := rfl
    rw [e, h a (by simp)]
    exact ih fun x hx => h x (by simp [hx])

/-- The documented call, `-m QSHeur mode=min …` or `-m MILPExact mode=max …`, raises `TypeError` for every accepted
model and all other parameters of the constructor. -/
theorem C77_documented_false {env : Env K} {name : List Char} {mps solve solveIt : List (List Char)} {tol : K}
    (hl : loadModel kind lab tra = .ok M) (hrf : RF.make ρ M il tl fl false = .ok rf)
    (hs : solve ≠ [] ∨ solveIt ≠ []) (hn : String.ofList name ∈ ["QSHeur", "MILPExact"])
    {d : Dict String (List Char)} (hd : paramsToDict mps = .ok d) (hv : ∀ kv ∈ d, methodValue kv = .ok ())
    {v : List Char} (hm : d.get? "mode" = some v) :
    minimize ρ env kind lab tra il tl fl (name :: mps) solve solveIt tol = .error .typeError := by
  have hs' : ¬ (solve = [] ∧ solveIt = []) := by
    rintro ⟨rfl, rfl⟩; simp at hs
  have hf : List.forM d methodValue = .ok () := forM_ok hv
  simp only [minimize, hl, bind, Except.bind, if_neg hs', hrf, if_pos hn, hd, hf, construct_error hn hm]

/-! ### C78 -/

/-- `labels_by_state.add(s, label)` adds to the set of the label -/
theorem invAdd_d {π : List Nat → List Nat} {x : IDict String Nat} {label : String} {k : Nat} :
    (x.step π (.invAdd k label)).2.d = IDict.addTo x.d label k := by
  obtain ⟨d, i, b⟩ := x
  cases i <;> rfl

/-- the loop over the states of the mask adds exactly the pairs (label, state) of the mask -/
theorem addAll_spec {π : List Nat → List Nat} (hπ : ∀ l, (π l).Perm l) {label : String} :
    ∀ (es : List (Bool × Nat)) {x : IDict String Nat}, Inv x →
    Inv (es.foldl (fun x e => if e.1 then (x.step π (.invAdd e.2 label)).2 else x) x) ∧
    (∀ l s, Has (es.foldl (fun x e => if e.1 then (x.step π (.invAdd e.2 label)).2 else x) x).d l s ↔
      Has x.d l s ∨ l = label ∧ (true, s) ∈ es) ∧
    ∀ l, l ∈ (es.foldl (fun x e => if e.1 then (x.step π (.invAdd e.2 label)).2 else x) x).d.map Prod.fst →
      l = label ∨ l ∈ x.d.map Prod.fst := by
  intro es
  induction es with
  | nil => intro x h; exact ⟨h, by simp, fun l hl => .inr hl⟩
  | cons e es ih =>
    intro x h
    obtain ⟨b, k⟩ := e
    rw [List.foldl_cons]
    cases b with
    | false =>
      obtain ⟨h1, h2, h3⟩ := ih h
      refine ⟨h1, fun l s => ?_, h3⟩
      rw [if_neg (by simp)]
      rw [h2]
      simp
    | true =>
      obtain ⟨a1, a2, -⟩ := step_spec hπ h (.invAdd k label)
      have a2 : rel (x.step π (.invAdd k label)).2 = insert (label, k) (rel x) := congrArg Prod.snd a2
      obtain ⟨h1, h2, h3⟩ := ih a1
      refine ⟨by rw [if_pos rfl]; exact h1, fun l s => ?_, fun l hl => ?_⟩
      · rw [if_pos rfl, h2]
        have a3 : Has (x.step π (.invAdd k label)).2.d l s ↔ (l, s) = (label, k) ∨ Has x.d l s := by
          have : (l, s) ∈ rel (x.step π (.invAdd k label)).2 ↔ (l, s) = (label, k) ∨ (l, s) ∈ rel x := by
            rw [a2]; exact Set.mem_insert_iff
          exact this
        rw [a3]
        simp only [Prod.mk.injEq, List.mem_cons]
        constructor
        · rintro ((⟨rfl, rfl⟩ | h) | ⟨rfl, h⟩)
          · simp
          · simp [h]
          · simp [h]
        · rintro (h | ⟨rfl, ⟨-, rfl⟩ | h⟩)
          · simp [h]
          · simp
          · simp [h]
      · rw [if_pos rfl] at hl
        rcases h3 l hl with h | h
        · exact .inl h
        · rw [invAdd_d] at h
          exact Dict.mem_keys_set.1 h

theorem addLabels_spec {π : List Nat → List Nat} (hπ : ∀ l, (π l).Perm l) {label : String} (hL : Inv M.labS) (mask : List Bool) :
    Inv (addLabels π label M mask).labS ∧
    (∀ l s, s ∈ (addLabels π label M mask).labelled l ↔ s ∈ M.labelled l ∨ l = label ∧ mask.getD s false = true) ∧
    ∀ l ∈ (addLabels π label M mask).labS.d.map Prod.fst, l = label ∨ l ∈ M.labS.d.map Prod.fst := by
  obtain ⟨h1, h2, h3⟩ := addAll_spec hπ (label := label) mask.zipIdx hL
  refine ⟨h1, fun l s => ?_, h3⟩
  rw [labelled_iff, labelled_iff]
  refine (h2 l s).trans ?_
  rw [List.mem_zipIdx_iff_getElem?, List.getD_eq_getElem?_getD]
  cases mask[s]? with
  | none => simp
  | some b => simp

/-- a system with six decimals is saved and loaded without loss -/
theorem saved_renumbered {π : List Nat → List Nat} {π' : List String → List String} (hπ : ∀ l, (π l).Perm l)
    (hπ' : ∀ l, (π' l).Perm l) (hM : M.WF) (ht : M.Total) (hL : Inv M.labS)
    (hch : kind = .dtmc → M.C = M.N ∧ ∀ s a i, ((s, a), i) ∈ M.idx → a = 0)
    (hc : ∀ l ∈ M.labS.d.map Prod.fst, CleanName l) (h6 : ∀ r t, ∃ n : Nat, M.P.get r t = n / 10 ^ 6) :
    ∃ lab tra M', save kind π π' M = .ok (lab, tra) ∧ loadModel kind lab tra = .ok M' ∧ M'.WF ∧ Renumbered M M' := by
  have hsix : ∀ r t x, IsSix (M.P.get r t) x → x = M.P.get r t := by
    intro r t x hx
    obtain ⟨n, hn⟩ := h6 r t
    rw [hn] at hx ⊢
    exact isSix_unique hx isSix_self
  have hsurv : ∀ r < M.C, ∀ R : Nat → K, (∀ t, IsSix (M.P.get r t) (R t)) → ∑ t ∈ range M.N, R t = 1 := by
    intro r hr R hR
    have := hM.sum r hr
    rw [← this]
    exact sum_congr rfl fun t _ => hsix r t _ (hR t)
  cases kind with
  | mdp =>
    obtain ⟨lab, tra, a1, a2, a3, -, a5⟩ := mdp_reload (M := { M with rew := none }) hπ hπ' (table_of_wf hM) hL hc
    obtain ⟨M', hM'⟩ := a3.2 hsurv
    obtain ⟨⟨hW, hI⟩, -, b2, b3, -, -, b6, b7, b8, b9, b10, b11⟩ := a5 M' hM'
    have b2 : M'.N = M.N := b2
    have b3 : M'.C = M.C := b3
    have b9 : ∀ s a, (s, a) ∈ M'.idx.map Prod.fst ↔ ∃ r < M.C, ((s, a), r) ∈ M.idx := b9
    have hlt : ∀ s a r, ((s, a), r) ∈ M'.idx → r < M'.C := by
      intro s a r hm
      have : r ∈ M'.idx.map Prod.snd := List.mem_map.2 ⟨_, hm, rfl⟩
      rw [b7] at this
      rw [b3]; exact List.mem_range.1 this
    have a1 : M.saveLab π π' = .ok lab := a1
    have a2 : M.saveTraMDP = .ok tra := a2
    refine ⟨lab, tra, M', by simp [save, a1, a2, bind, Except.bind], hM', hW, b2, b3, fun s a => ?_, fun s a r r' h1 h2 t => ?_,
      fun l s => ?_⟩
    · rw [← b9]
      constructor
      · rintro ⟨r, -, h⟩; exact List.mem_map.2 ⟨_, h, rfl⟩
      · intro h
        obtain ⟨⟨sa, r⟩, h1, rfl⟩ := List.mem_map.1 h
        exact ⟨r, hlt _ _ _ h1, h1⟩
    · have h3 : IsSix (prob { M with rew := none } s a t) (prob M' s a t) := b10 s a t
      unfold prob at h3
      have e1 : M.idx.get? (s, a) = some r := Dict.get?_of_mem hM.keys h1
      have e2 : M'.idx.get? (s, a) = some r' := Dict.get?_of_mem hW.keys h2
      simp only [e1, e2] at h3
      exact hsix _ _ _ h3
    · have := b6.2 l s
      rw [sees_iff, sees_iff] at this
      exact this
  | dtmc =>
    obtain ⟨hsq, ha⟩ := hch rfl
    obtain ⟨lab, tra, a1, a2, a3, -, a5⟩ := dtmc_reload (M := { M with rew := none }) hπ hπ' (table_of_wf hM) hsq ha hL hc
    obtain ⟨M', hM'⟩ := a3.2 hsurv
    obtain ⟨⟨hW, hI, b3, b7⟩, -, b2, -, b6, b10⟩ := a5 M' hM'
    have b2 : M'.N = M.N := b2
    have b3 : M'.C = M.C := b3.trans hsq.symm
    have b7 : M'.idx = (List.range M.N).map fun i => ((i, 0), i) := b7
    have hmem : ∀ s a r, ((s, a), r) ∈ M'.idx ↔ s < M.N ∧ a = 0 ∧ r = s := by
      intro s a r
      rw [b7, List.mem_map]
      constructor
      · rintro ⟨i, hi, he⟩
        simp only [Prod.mk.injEq] at he
        obtain ⟨⟨rfl, rfl⟩, rfl⟩ := he
        exact ⟨List.mem_range.1 hi, rfl, rfl⟩
      · rintro ⟨h1, rfl, rfl⟩
        exact ⟨r, List.mem_range.2 h1, rfl⟩
    have a1 : M.saveLab π π' = .ok lab := a1
    have a2 : M.saveTraDTMC = .ok tra := a2
    refine ⟨lab, tra, M', by simp [save, a1, a2, bind, Except.bind], hM', hW, b2, b3, fun s a => ?_, fun s a r r' h1 h2 t => ?_,
      fun l s => ?_⟩
    · constructor
      · rintro ⟨r, -, h⟩
        obtain ⟨h1, rfl, rfl⟩ := (hmem _ _ _).1 h
        obtain ⟨a, r, h2, h3⟩ := ht _ h1
        obtain rfl := ha _ _ _ h2
        exact ⟨r, h3, h2⟩
      · rintro ⟨r, h1, h2⟩
        have hs := WF.state_lt hM h2 h1
        exact ⟨s, by rw [b3, hsq]; exact hs, (hmem _ _ _).2 ⟨hs, ha _ _ _ h2, rfl⟩⟩
    · obtain ⟨hs, rfl, rfl⟩ := (hmem _ _ _).1 h2
      have h3 : IsSix (prob { M with rew := none } r' 0 t) (prob M' r' 0 t) := b10 r' hs t
      unfold prob at h3
      have e1 : M.idx.get? (r', 0) = some r := Dict.get?_of_mem hM.keys h1
      have e2 : M'.idx.get? (r', 0) = some r' := Dict.get?_of_mem hW.keys h2
      simp only [e1, e2] at h3
      exact hsix _ _ _ h3
    · have := b6.2 l s
      rw [sees_iff, sees_iff] at this
      exact this

/-- the loop of `subsystem`: the files written are those of the first instances -/
theorem subsystemLoop_get {copy : Sys K → Except Err (Sys K)} {π : List Nat → List Nat} {π' : List String → List String}
    {label : String} {mode : Option String} : ∀ {is : List (Instance K)} {k : Nat} {o : Nat × List Char × List Char},
    (subsystemLoop copy π π' kind label rf mode is).1[k]? = some o →
      ∃ x, is[k]? = some x ∧ subsystemStep copy π π' kind label rf mode x = .ok o := by
  intro is
  induction is with
  | nil => intro k o h; simp [subsystemLoop] at h
  | cons x is ih =>
    intro k o h
    unfold subsystemLoop at h
    cases hs : subsystemStep copy π π' kind label rf mode x with
    | error e => simp [hs] at h
    | ok f =>
      simp only [hs] at h
      cases k with
      | zero =>
        simp only [List.getElem?_cons_zero, Option.some.injEq] at h
        subst h
        exact ⟨x, rfl, hs⟩
      | succ k =>
        simp only [List.getElem?_cons_succ] at h ⊢
        exact ih h

theorem subsystemLoop_all {copy : Sys K → Except Err (Sys K)} {π : List Nat → List Nat} {π' : List String → List String}
    {label : String} {mode : Option String} : ∀ {is : List (Instance K)},
    (∀ x ∈ is, ∃ o, subsystemStep copy π π' kind label rf mode x = .ok o) →
      (subsystemLoop copy π π' kind label rf mode is).1.length = is.length ∧
      (subsystemLoop copy π π' kind label rf mode is).2 = .done := by
  intro is
  induction is with
  | nil => intro _; exact ⟨rfl, rfl⟩
  | cons x is ih =>
    intro h
    obtain ⟨o, ho⟩ := h x (by simp)
    obtain ⟨h1, h2⟩ := ih fun y hy => h y (by simp [hy])
    unfold subsystemLoop
    simp only [ho]
    exact ⟨by simp [h1], h2⟩

/-- `subsystem` on an accepted model -/
theorem subsystem_eq {copy : Sys K → Except Err (Sys K)} {π : List Nat → List Nat} {π' : List String → List String}
    {label : String} {f : CertFile K} (hl : loadModel kind lab tra = .ok M) (hlab : label ∉ M.labS.d.map Prod.fst)
    (hrf : RF.make ρ M il tl fl false = .ok rf) :
    subsystem copy ρ π π' kind lab tra il tl fl label (some f) = subsystemLoop copy π π' kind label rf f.mode f.instances := by
  have hlab : label ∉ M.labS.d.keys := hlab
  simp only [subsystem, hl, if_neg hlab, hrf]

theorem of_ne_done (e : Err) : Exit.of e ≠ .done := by cases e <;> simp [Exit.of]

/-- **C78 is false of the code.** `switss subsystem` never writes a file: whatever the arguments and the certificate
file, as soon as there is one instance it ends with an error. -/
theorem C78_subsystem_false {π : List Nat → List Nat} {π' : List String → List String} {label : String} {f : CertFile K}
    (hf : f.instances ≠ []) :
    (subsystem noCopy ρ π π' kind lab tra il tl fl label (some f)).1 = [] ∧
    (subsystem noCopy ρ π π' kind lab tra il tl fl label (some f)).2 ≠ .done := by
  unfold subsystem
  cases loadModel (K := K) kind lab tra with
  | error e => exact ⟨rfl, of_ne_done e⟩
  | ok M =>
    simp only
    split
    · exact ⟨rfl, by simp⟩
    cases RF.make ρ M il tl fl false with
    | error e => exact ⟨rfl, of_ne_done e⟩
    | ok rf =>
      simp only
      cases hi : f.instances with
      | nil => exact absurd hi hf
      | cons x is =>
        have he : ∃ e, subsystemStep noCopy π π' kind label rf f.mode x = .error e := by
          unfold subsystemStep
          cases f.mode with
          | none => exact ⟨_, rfl⟩
          | some m =>
            cases hm : modeOf m with
            | none => simp only [hm]; exact ⟨_, rfl⟩
            | some mode =>
              cases hw : Subsystem.make rf x.certificate mode false with
              | error e => simp only [hm, hw, bind, Except.bind]; exact ⟨_, rfl⟩
              | ok w => simp only [hm, hw, bind, Except.bind, noCopy]; exact ⟨_, rfl⟩
        obtain ⟨e, he⟩ := he
        unfold subsystemLoop
        rw [he]
        exact ⟨rfl, of_ne_done e⟩

/-- in particular `TypeError` on an accepted model with a certificate of the right length: `copy.deepcopy` fails -/
theorem C78_copy_false {π : List Nat → List Nat} {π' : List String → List String} {label m : String} {mode : Mode}
    {x : Instance K} {is : List (Instance K)} (hl : loadModel kind lab tra = .ok M) (hlab : label ∉ M.labS.d.map Prod.fst)
    (hrf : RF.make ρ M il tl fl false = .ok rf) (hm : modeOf m = some mode)
    {w : Subsystem K} (hx : Subsystem.make rf x.certificate mode false = .ok w) :
    subsystem noCopy ρ π π' kind lab tra il tl fl label (some ⟨some m, x :: is⟩) = ([], .raised .typeError) := by
  rw [subsystem_eq hl hlab hrf]
  unfold subsystemLoop subsystemStep
  simp only [hm, hx, bind, Except.bind, noCopy]
  rfl

/-- what one step does when the copy succeeds -/
theorem subsystemStep_spec {π : List Nat → List Nat} {π' : List String → List String} (hπ : ∀ l, (π l).Perm l)
    (hπ' : ∀ l, (π' l).Perm l) {label m : String} {mode : Mode} {x : Instance K}
    (hl : loadModel kind lab tra = .ok M) (hx : ExactRows M) (h6 : ∀ r t, ∃ n : Nat, M.P.get r t = n / 10 ^ 6)
    (hlab : label ∉ M.labS.d.map Prod.fst) (hcl : CleanName label)
    (hrf : RF.make ρ M il tl fl false = .ok rf) (hm : modeOf m = some mode) {w : Subsystem K}
    (hw : Subsystem.make rf x.certificate mode false = .ok w) :
    ∃ lab' tra' M', subsystemStep .ok π π' kind label rf (some m) x = .ok (x.iteration, lab', tra') ∧
      loadModel kind lab' tra' = .ok M' ∧ M'.WF ∧ M'.N = M.N ∧ M'.C = M.C ∧
      (∀ s a, (∃ r < M'.C, ((s, a), r) ∈ M'.idx) ↔ ∃ r < M.C, ((s, a), r) ∈ M.idx) ∧
      (∀ s a r r', ((s, a), r) ∈ M.idx → ((s, a), r') ∈ M'.idx → ∀ t, M'.P.get r' t = M.P.get r t) ∧
      (∀ l ≠ label, ∀ s, s ∈ M'.labelled l ↔ s ∈ M.labelled l) ∧
      ∀ s, s ∈ M'.labelled label ↔ Selected M mode x.certificate s := by
  have hF := loadModel_spec hl
  have hM : M.WF := hF.wf_of_sum hx
  have hsys : rf.sys = M := (make_fields hrf).1
  have hok := rfok_built hM hrf
  have ht : M.Total := by
    have := (rflive_built hM hrf).total
    rwa [hsys] at this
  obtain ⟨-, mask, hmask, -, hms⟩ := mask_spec hok hw
  obtain ⟨c1, c2, c3⟩ := addLabels_spec hπ (label := label) hF.labS mask
  have hW : (addLabels π label M mask).WF := ⟨hM.1, hM.2, hM.3, hM.4, hM.5, hM.6, hM.7⟩
  obtain ⟨lab', tra', M', d1, d2, d3, d4⟩ := saved_renumbered (kind := kind) hπ hπ' hW ht c1 (by
    intro hk
    obtain ⟨e1, e2⟩ := hF.chain hk
    refine ⟨e1, fun s a i hi => ?_⟩
    have hi : ((s, a), i) ∈ M.idx := hi
    rw [e2, List.mem_map] at hi
    obtain ⟨j, -, hj⟩ := hi
    simp only [Prod.mk.injEq] at hj
    exact hj.1.2.symm) (by
    intro l hl
    rcases c3 l hl with rfl | h
    · exact hcl
    · exact hF.clean l h) h6
  refine ⟨lab', tra', M', ?_, d2, d3, d4.N, d4.C, d4.pair, d4.row, fun l hne s => ?_, fun s => ?_⟩
  · unfold subsystemStep
    simp only [hm, hw, bind, Except.bind, hmask, hsys, d1]
  · rw [d4.labelled, c2]
    simp [hne]
  · rw [d4.labelled, c2, hms, inMask_iff hok hw, hsys]
    constructor
    · rintro (h | h)
      · rw [labelled_iff] at h
        cases hg : M.labS.d.get? label with
        | none => unfold Has at h; rw [hg] at h; simp at h
        | some v => exact absurd (List.mem_map.2 ⟨_, Dict.mem_of_get? hg, rfl⟩) hlab
      · exact h.2
    · exact fun h => .inr ⟨rfl, h⟩

section
variable {π : List Nat → List Nat} {π' : List String → List String} (hπ : ∀ l, (π l).Perm l) (hπ' : ∀ l, (π' l).Perm l)
  (hl : loadModel kind lab tra = .ok M) (hx : ExactRows M) (h6 : ∀ r t, ∃ n : Nat, M.P.get r t = n / 10 ^ 6)
  {label : String} (hlab : label ∉ M.labS.d.map Prod.fst) (hcl : CleanName label)
  (hrf : RF.make ρ M il tl fl false = .ok rf) {f : CertFile K}
include hπ hπ' hl hx h6 hlab hcl hrf

/-- **C78 (partial).** With a `copy` that works, every file that `subsystem` writes is a model that can be loaded, with
the states, the actions, the probabilities and the labels of the given one, in which exactly the states of the
subsystem of the corresponding instance carry the new label. -/
theorem C78_files_partial {k n : Nat} {lab' tra' : List Char}
    (h : (subsystem .ok ρ π π' kind lab tra il tl fl label (some f)).1[k]? = some (n, lab', tra')) :
    ∃ x m mode M', f.instances[k]? = some x ∧ f.mode = some m ∧ modeOf m = some mode ∧ n = x.iteration ∧
      loadModel kind lab' tra' = .ok M' ∧ M'.WF ∧ M'.N = M.N ∧ M'.C = M.C ∧
      (∀ s a, (∃ r < M'.C, ((s, a), r) ∈ M'.idx) ↔ ∃ r < M.C, ((s, a), r) ∈ M.idx) ∧
      (∀ s a r r', ((s, a), r) ∈ M.idx → ((s, a), r') ∈ M'.idx → ∀ t, M'.P.get r' t = M.P.get r t) ∧
      (∀ l ≠ label, ∀ s, s ∈ M'.labelled l ↔ s ∈ M.labelled l) ∧
      ∀ s, s ∈ M'.labelled label ↔ Selected M mode x.certificate s := by
  rw [subsystem_eq hl hlab hrf] at h
  obtain ⟨x, h1, h2⟩ := subsystemLoop_get h
  cases hfm : f.mode with
  | none => rw [hfm] at h2; simp [subsystemStep] at h2
  | some m =>
    rw [hfm] at h2
    cases hm : modeOf m with
    | none => simp [subsystemStep, hm] at h2
    | some mode =>
      cases hw : Subsystem.make rf x.certificate mode false with
      | error e => simp [subsystemStep, hm, hw, bind, Except.bind] at h2
      | ok w =>
        obtain ⟨lab2, tra2, M', e1, e2⟩ := subsystemStep_spec hπ hπ' hl hx h6 hlab hcl hrf hm hw
        rw [e1] at h2
        simp only [Except.ok.injEq, Prod.mk.injEq] at h2
        obtain ⟨rfl, rfl, rfl⟩ := h2
        exact ⟨x, m, mode, M', h1, rfl, hm, rfl, e2⟩

/-- … and there is one file for every instance when the mode is "min" or "max" and the certificates have the right
length. -/
theorem C78_all_partial {m : String} {mode : Mode} (hf : f.mode = some m) (hm : modeOf m = some mode)
    (hlen : ∀ x ∈ f.instances, x.certificate.length = match mode with | .min => M.N - 2 | .max => M.C - 2) :
    (subsystem .ok ρ π π' kind lab tra il tl fl label (some f)).1.length = f.instances.length ∧
    (subsystem .ok ρ π π' kind lab tra il tl fl label (some f)).2 = .done := by
  rw [subsystem_eq hl hlab hrf]
  refine subsystemLoop_all fun x hx' => ?_
  have hsys : rf.sys = M := (make_fields hrf).1
  have hw : ∃ w, Subsystem.make rf x.certificate mode false = .ok w := by
    have := hlen x hx'
    unfold Subsystem.make
    cases mode with
    | min => exact ⟨_, if_pos (by rw [this, ← hsys])⟩
    | max => exact ⟨_, if_pos (by rw [this, ← hsys])⟩
  obtain ⟨w, hw⟩ := hw
  rw [hf]
  obtain ⟨lab2, tra2, M', e1, -⟩ := subsystemStep_spec hπ hπ' hl hx h6 hlab hcl hrf hm hw
  exact ⟨_, e1⟩

end

/-- a solver that answers with the vector `v` -/
def cliEnv (v : List ℚ) : Env ℚ := ⟨fun _ => ⟨.optimal, v, 1⟩, fun _ _ => ⟨.optimal, v, 1⟩, fun _ _ _ _ => .error .keyError⟩

def cliWords (l : List String) : List (List Char) := l.map String.toList

/-- the outcome of `minimize` for the chain `cliLoop` -/
def minOut (method solve solveIt : List String) : Except Err (Method × List (List ℚ)) := do
  let r ← minimize exRnd (cliEnv [1/2, 1/2]) .dtmc cliLab cliLoop "init" "goal" "fail" (cliWords method) (cliWords solve)
    (cliWords solveIt) (1 / 10 ^ 5)
  .ok (r.1, r.2.instances.map fun i => i.certificate)

/-- **C77** fails for a model and a threshold for which the solver returns a certificate: `TypeError` with `mode`
among the method parameters, as documented, and `KeyError` without -/
theorem C77_example_false :
    minOut ["QSHeur", "mode=min"] ["threshold=0.5"] [] = .error .typeError ∧
    minOut ["MILPExact", "mode=min"] ["threshold=0.5", "mode=min"] [] = .error .typeError ∧
    minOut ["QSHeur"] ["threshold=0.5", "mode=min"] [] = .error .keyError ∧
    minOut ["MILPExact", "solver=cbc"] ["threshold=0.5", "mode=min"] [] = .error .keyError ∧
    minOut ["QSHeur", "iterations=2"] [] ["threshold=0.5", "mode=min"] = .error .keyError ∧
    minOut ["QSHeur"] ["threshold=0.5"] [] = .error .typeError := by
  decide +kernel

/-- the only way to store a file: no iterations, no certificates (this also shows that the hypothesis of
`C77_minimize_false` can be met) -/
example : minOut ["QSHeur", "iterations=0"] [] ["threshold=0.5", "mode=min"] =
    .ok (.qsHeur 0 "AllOnesInitializer" "InverseResultUpdater" "cbc", []) := by decide +kernel

/-- the hypotheses of `C77_documented_false` are met -/
example : ∃ (M : Sys ℚ) (rf : RF ℚ) (d : Dict String (List Char)), loadModel .dtmc cliLab cliLoop = .ok M ∧
    RF.make exRnd M "init" "goal" "fail" false = .ok rf ∧ paramsToDict (cliWords ["mode=min", "iterations=3"]) = .ok d ∧
    (∀ kv ∈ d, methodValue kv = .ok ()) ∧ d.get? "mode" = some "min".toList := by
  obtain ⟨M, rf, h1, -, -, h4, -⟩ := cliTest_spec (kind := .dtmc) (tra := cliLoop) (p := fun _ _ => true) (by decide +kernel)
  exact ⟨M, rf, [("mode", "min".toList), ("iterations", "3".toList)], h1, h4, by decide +kernel, by decide +kernel, by decide +kernel⟩

/-- the hypotheses of the theorems on `subsystem` are met -/
example : ∃ (M : Sys ℚ) (rf : RF ℚ) (w : Subsystem ℚ), loadModel .mdp cliLab cliTra = .ok M ∧ ExactRows M ∧
    (∀ r t, ∃ n : Nat, M.P.get r t = n / 10 ^ 6) ∧ "ss" ∉ M.labS.d.map Prod.fst ∧ CleanName "ss" ∧
    RF.make exRnd M "init" "goal" "fail" false = .ok rf ∧ Subsystem.make rf [1, 0] .max false = .ok w ∧
    Selected M .max [1, 0] 0 := by
  obtain ⟨M, rf, h1, h2, h3, h4, h5, h6⟩ := cliTest_spec (kind := .mdp) (tra := cliTra)
    (p := fun M rf => sixTest M.P && decide ("ss" ∉ M.labS.d.map Prod.fst) && decide (M.idx = [((0, 0), 0), ((0, 1), 1), ((1, 0), 2), ((2, 0), 3)])
      && decide (M.C = 4)) (by decide +kernel)
  simp only [Bool.and_eq_true, decide_eq_true_eq] at h6
  obtain ⟨⟨⟨a1, a2⟩, a3⟩, a4⟩ := h6
  refine ⟨M, rf, ⟨rf, [1, 0], .max, false⟩, h1, h2, six_of_test a1, a2, by unfold CleanName; decide, h4, ?_, ?_⟩
  · unfold Subsystem.make
    exact if_pos (by rw [(make_fields h4).1, a4]; rfl)
  · exact ⟨0, 0, 1, by rw [a3]; simp, rfl, by norm_num⟩

end Verif.Props
