import Verif.Model.Repr
import Verif.Props.Builds
import Verif.Props.Digraph
import Verif.Props.RewOriginal
import Mathlib.Data.Set.Card
/-!
# C107: results can be printed, and their subsystems shown

`repr` of a `ProblemResult` builds the subsystem that the result carries.
-/
set_option linter.unusedSectionVars false

namespace Verif.Props
open Verif.Model Verif.Model.Text Verif.Spec Verif.Proofs Verif.Theory Verif.Proofs.IDict Finset
open Verif.Model.Digraph (Maps DTMCMaps)

variable {K : Type} [Field K] [LinearOrder K] [IsStrictOrderedRing K]
variable {ρ ρ' : Graph.Rnd} {M : Sys K} {il tl fl : String} {rf : RF K} {cert : List K} {mode : Mode} {x : Subsystem K}
  {res : Subsystem.Result K} {t : K} {labels : Option (List String)} {be : Backend}

/-! ### what the texts say -/

/-- the text of a system with `c` rows and `n` states; `ls` are the labels with the numbers of states that carry them -/
def sysText (dtmc : Bool) (c n : Nat) (ls : List (String × Nat)) : String :=
  (if dtmc then "DTMC" else "MDP") ++ "(C=" ++ toString c ++ ", N=" ++ toString n ++ ", labels={" ++
    ", ".intercalate (ls.map fun e => e.1 ++ " (" ++ toString e.2 ++ ")") ++ "})"

/-- the text of a reachability form -/
def rfText (il tl fl sys : String) : String :=
  "ReachabilityForm(initial=" ++ il ++ ", target=" ++ tl ++ ", fail=" ++ fl ++ ", system=" ++ sys ++ ")"

/-- the text of a subsystem -/
def subText (super sub : String) : String := "Subsystem(supersys=" ++ super ++ ", subsys=" ++ sub ++ ")"

/-- the text of a result -/
def resultText (status sub value : String) : String :=
  "ProblemResult(status=" ++ status ++ ", subsystem=" ++ sub ++ ", value=" ++ value ++ ")"

theorem fmtD_eq (n : Nat) : fmtD n = (toString n).toList := by
  simp [fmtD]

theorem intercalate_toList (s : String) (l : List String) :
    (s.intercalate l).toList = List.intercalate s.toList (l.map String.toList) := by
  simp

theorem sys_repr (M : Sys K) :
    Repr.sys M = (sysText M.dtmc M.C M.N (M.labS.d.map fun e => (e.1, e.2.length))).toList := by
  unfold Repr.sys sysText
  simp only [String.toList_append, intercalate_toList, List.map_map, fmtD_eq]
  have hd : (if M.dtmc = true then "DTMC" else "MDP").toList = if M.dtmc = true then "DTMC".toList else "MDP".toList := by
    cases M.dtmc <;> rfl
  have hl : (String.toList ∘ (fun e : String × Nat => e.1 ++ " (" ++ toString e.2 ++ ")") ∘
      fun e : String × List Nat => (e.1, e.2.length)) = Repr.labelText := by
    funext e
    simp [Repr.labelText, fmtD_eq, String.toList_append]
  rw [hd, ← hl]

/-- the labels in the text of a system: each label once, with the number of states that carry it; every label that some
state carries is there -/
structure Counts (M : Sys K) (ls : List (String × Nat)) : Prop where
  once : (ls.map Prod.fst).Nodup
  count : ∀ l n, (l, n) ∈ ls → (M.labelled l).ncard = n
  all : ∀ l, (M.labelled l).Nonempty → l ∈ ls.map Prod.fst

theorem counts_of_inv (h : Inv M.labS) : Counts M (M.labS.d.map fun e => (e.1, e.2.length)) := by
  have hk : (M.labS.d.map Prod.fst).Nodup := h.ok.1
  refine ⟨by simpa [Function.comp_def] using hk, fun l n hm => ?_, fun l hne => ?_⟩
  · obtain ⟨⟨l', ss⟩, hm', he⟩ := List.mem_map.1 hm
    simp only [Prod.mk.injEq] at he
    obtain ⟨rfl, rfl⟩ := he
    have hg := Dict.get?_of_mem hk hm'
    have hn := h.ok.2 _ _ hg
    have : M.labelled l' = ↑(ss.toFinset) := by
      ext s
      rw [labelled_iff, mem_coe, List.mem_toFinset]
      simp [Has, hg]
    rw [this, Set.ncard_coe_finset, List.toFinset_card_of_nodup hn]
  · obtain ⟨s, hs⟩ := hne
    rw [labelled_iff] at hs
    unfold Has at hs
    cases hg : M.labS.d.get? l with
    | none => rw [hg] at hs; simp at hs
    | some ss => exact List.mem_map.2 ⟨_, List.mem_map.2 ⟨_, Dict.mem_of_get? hg, rfl⟩, rfl⟩

theorem rf_repr (x : RF K) : Repr.rf x = (rfText x.initL x.targetL x.failL
    (sysText x.sys.dtmc x.sys.C x.sys.N (x.sys.labS.d.map fun e => (e.1, e.2.length)))).toList := by
  unfold Repr.rf rfText
  simp only [String.toList_append, sys_repr]

theorem sub_repr (hr : x.subsys ρ' = .ok res) : Repr.sub ρ' x = .ok (subText
    (rfText x.rf.initL x.rf.targetL x.rf.failL
      (sysText x.rf.sys.dtmc x.rf.sys.C x.rf.sys.N (x.rf.sys.labS.d.map fun e => (e.1, e.2.length))))
    (rfText res.rf.initL res.rf.targetL res.rf.failL
      (sysText res.rf.sys.dtmc res.rf.sys.C res.rf.sys.N (res.rf.sys.labS.d.map fun e => (e.1, e.2.length))))).toList := by
  unfold Repr.sub subText
  rw [hr]
  simp only [bind, Except.bind, rf_repr, String.toList_append]

/-- the number of actions of the selected states -/
theorem sub_rows (hM : M.WF) (hL : LabelMap M.labS) (hrf : RF.make ρ M il tl fl false = .ok rf) {ig : Bool}
    (hx : Subsystem.make rf cert mode ig = .ok x) (hr : x.subsys ρ' = .ok res) :
    res.rf.sys.C = {sa : Nat × Nat | Selected M mode cert sa.1 ∧ ∃ i < M.C, (sa, i) ∈ M.idx}.ncard + 2 := by
  obtain ⟨e0, e1, e2, e3, -⟩ := make_fields hrf
  have h := rfok_built hM hrf
  subst e0 e1 e2 e3
  have hmk := inMask_iff h hx
  obtain ⟨m, hml, hms, hS, -⟩ := subsys_spec h hL.inv hx hr
  have hMp := subMaps h hml
  rw [hS.hC]
  congr 1
  have : {sa : Nat × Nat | Selected rf.sys mode cert sa.1 ∧ ∃ i < rf.sys.C, (sa, i) ∈ rf.sys.idx} =
      ↑(((subRows rf.sys m rf.C).map Prod.fst).toFinset) := by
    ext sa
    rw [mem_coe, List.mem_toFinset, hMp.memR, hms, hmk]
    simp only [Set.mem_ofPred_eq]
    constructor
    · rintro ⟨a, i, b, c⟩; exact ⟨a, i, c, b⟩
    · rintro ⟨a, i, b, c⟩; exact ⟨a, i, c, b⟩
  rw [this, Set.ncard_coe_finset, List.toFinset_card_of_nodup hMp.rnd, List.length_map]

/-- **C107.** The text of a subsystem that can be built names the labels of the form and shows, for the system, the numbers of
rows and states and how many states carry each label; and for the subsystem the number of actions of selected states and of
selected states (each with 2 added for goal and fail), and how many selected states carry each label. -/
theorem C107_text (hM : M.WF) (hL : LabelMap M.labS) (hrf : RF.make ρ M il tl fl false = .ok rf)
    (hx : Subsystem.make rf cert mode false = .ok x) (hr : x.subsys ρ' = .ok res) :
    ∃ (ls ls' : List (String × Nat)) (c n : Nat),
      Repr.sub ρ' x = .ok (subText (rfText il tl fl (sysText M.dtmc M.C M.N ls))
        (rfText il tl fl (sysText M.dtmc (c + 2) (n + 2) ls'))).toList ∧
      Counts M ls ∧ n = {s | Selected M mode cert s}.ncard ∧
      c = {sa : Nat × Nat | Selected M mode cert sa.1 ∧ ∃ i < M.C, (sa, i) ∈ M.idx}.ncard ∧
      (ls'.map Prod.fst).Nodup ∧
      (∀ l k, (l, k) ∈ ls' → k = if l = tl ∨ l = fl then 1 else {s | Selected M mode cert s ∧ s ∈ M.labelled l}.ncard) ∧
      tl ∈ ls'.map Prod.fst ∧ fl ∈ ls'.map Prod.fst ∧
      ∀ l s, Selected M mode cert s → s ∈ M.labelled l → l ∈ ls'.map Prod.fst := by
  have hC := sub_rows hM hL hrf hx hr
  obtain ⟨ks, k1, k2, k3, k4, -, -, -, -, -, -, -, -, k10, k11, -, k13⟩ := C47_construction hM hL hrf hx hr
  obtain ⟨e0, e1, e2, e3, -⟩ := make_fields hrf
  obtain ⟨f0, f1, f2, f3, -⟩ := make_fields k13
  have h := rfok_built hM hrf
  have hI : Inv res.rf.sys.labS := by
    subst e0 e1 e2 e3
    obtain ⟨m, hml, hms, hS, -⟩ := subsys_spec h hL.inv hx hr
    exact hS.labI
  have hne := labels_ne hrf
  have htl : M.labelled tl = {M.N - 2} := by have := h.target; rwa [e0, e2] at this
  have hfl : M.labelled fl = {M.N - 1} := by have := h.fail; rwa [e0, e3] at this
  have hNN : 2 ≤ M.N := by have := h.hN; rwa [e0] at this
  have hnd : ks.Nodup := k1.imp fun h => h.ne
  have hsel : {s | Selected M mode cert s} = ↑ks.toFinset := by
    ext s; rw [mem_coe, List.mem_toFinset, k2]; rfl
  have ct := counts_of_inv hI
  have hx0 : x.rf = rf := by rw [(mask_spec h hx).1]
  refine ⟨M.labS.d.map fun e => (e.1, e.2.length), res.rf.sys.labS.d.map fun e => (e.1, e.2.length), _, ks.length, ?_,
    counts_of_inv hL.inv, ?_, rfl, ct.once, fun l k hm => ?_, ct.all _ ?_, ct.all _ ?_, fun l s h1 h2 => ct.all _ ?_⟩
  · rw [sub_repr hr, hx0, e0, e1, e2, e3, f1, f2, f3, k11, hC, k4]
  · rw [hsel, Set.ncard_coe_finset, List.toFinset_card_of_nodup hnd]
  · have hk := ct.count l k hm
    split
    · rename_i hl
      rw [← hk]
      have hone : ∃ j, res.rf.sys.labelled l = {j} := by
        rcases hl with rfl | rfl
        · refine ⟨ks.length, Set.ext fun n => ?_⟩
          rw [k10, Set.mem_singleton_iff]
          constructor
          · rintro (⟨s, g1, g2⟩ | ⟨-, g⟩ | ⟨g, -⟩)
            · rw [htl] at g2
              have := k3 s (List.mem_of_getElem? g1)
              simp only [Set.mem_singleton_iff] at g2
              omega
            · exact g
            · exact absurd g hne.2.2
          · rintro rfl; exact .inr (.inl ⟨rfl, rfl⟩)
        · refine ⟨ks.length + 1, Set.ext fun n => ?_⟩
          rw [k10, Set.mem_singleton_iff]
          constructor
          · rintro (⟨s, g1, g2⟩ | ⟨g, -⟩ | ⟨-, g⟩)
            · rw [hfl] at g2
              have := k3 s (List.mem_of_getElem? g1)
              simp only [Set.mem_singleton_iff] at g2
              omega
            · exact absurd g.symm hne.2.2
            · exact g
          · rintro rfl; exact .inr (.inr ⟨rfl, rfl⟩)
      obtain ⟨j, hj⟩ := hone
      rw [hj, Set.ncard_singleton]
    · rename_i hl
      push Not at hl
      rw [← hk]
      have himg : {s | Selected M mode cert s ∧ s ∈ M.labelled l} = (fun n => ks.getD n 0) '' (res.rf.sys.labelled l) := by
        ext s
        rw [Set.mem_image, Set.mem_ofPred_eq]
        constructor
        · rintro ⟨g1, g2⟩
          obtain ⟨n, hn⟩ := List.mem_iff_getElem?.1 ((k2 s).2 g1)
          exact ⟨n, (k10 l n).2 (.inl ⟨s, hn, g2⟩), by rw [List.getD_eq_getElem?_getD, hn]; rfl⟩
        · rintro ⟨n, hn, rfl⟩
          rcases (k10 l n).1 hn with ⟨s, g1, g2⟩ | ⟨g, -⟩ | ⟨g, -⟩
          · rw [List.getD_eq_getElem?_getD, g1]
            exact ⟨(k2 s).1 (List.mem_of_getElem? g1), g2⟩
          · exact absurd g hl.1
          · exact absurd g hl.2
      rw [himg, Set.InjOn.ncard_image]
      intro a ha b hb hab
      have hlt : ∀ n ∈ res.rf.sys.labelled l, n < ks.length := by
        intro n hn
        rcases (k10 l n).1 hn with ⟨s, g1, g2⟩ | ⟨g, -⟩ | ⟨g, -⟩
        · exact (List.getElem?_eq_some_iff.1 g1).1
        · exact absurd g hl.1
        · exact absurd g hl.2
      have la := hlt a ha
      have lb := hlt b hb
      simp only [List.getD_eq_getElem?_getD, List.getElem?_eq_getElem la, List.getElem?_eq_getElem lb, Option.getD_some] at hab
      exact (hnd.getElem_inj_iff).1 hab
  · exact ⟨ks.length, (k10 _ _).2 (.inr (.inl ⟨rfl, rfl⟩))⟩
  · exact ⟨ks.length + 1, (k10 _ _).2 (.inr (.inr ⟨rfl, rfl⟩))⟩
  · obtain ⟨n, hn⟩ := List.mem_iff_getElem?.1 ((k2 s).2 h1)
    exact ⟨n, (k10 l n).2 (.inl ⟨s, hn, h2⟩)⟩

/-! ### which results can be printed -/

/-- the results of the two methods: failures without a subsystem and a value, and successes with a subsystem and a value -/
theorem exact_cases {σ : Type} {f : Form σ K} {lp solver : Milp K → Answer K} {r : ProblemResult σ K}
    (hr : r ∈ (solveIter f t (milpExact f lp solver t mode labels be)).1) :
    (∃ s, r = failure s) ∨ ∃ cert w v, f.mkSub cert mode = .ok w ∧ r = ⟨.success, some w, some v, some cert⟩ := by
  obtain ⟨hr, -⟩ := solveIter_mem hr
  unfold milpExact at hr
  split at hr
  · simp at hr
  · rw [List.mem_singleton] at hr; exact .inl ⟨_, hr⟩
  · simp only at hr
    split at hr
    · split at hr
      · simp at hr
      · rename_i w hw
        rw [List.mem_singleton] at hr
        exact .inr ⟨_, w, _, hw, hr⟩
    · rw [List.mem_singleton] at hr; exact .inl ⟨_, hr⟩

theorem qs_cases {σ : Type} {f : Form σ K} {lp : Milp K → Answer K} {solver : Nat → Milp K → Answer K} {n : Nat}
    {ini : List (Nat × List Nat) → Except Err (List (Nat × K))} {upd : List (Nat × List Nat) → Updater K} {r : ProblemResult σ K}
    (hr : r ∈ (solveIter f t (qsHeur f lp solver n ini upd t mode labels be)).1) :
    (∃ s, r = failure s) ∨ ∃ cert w v, f.mkSub cert mode = .ok w ∧ r = ⟨.success, some w, some v, some cert⟩ := by
  obtain ⟨hr, -⟩ := solveIter_mem hr
  have key : ∀ (u : Updater K) (k : Nat) (m : Milp K) (obj : List (Nat × K)), r ∈ (qsLoop f solver mode u k m obj).1 →
      (∃ s, r = failure s) ∨ ∃ cert w v, f.mkSub cert mode = .ok w ∧ r = ⟨.success, some w, some v, some cert⟩ := by
    intro u k
    induction k with
    | zero => intro m obj h; simp [qsLoop] at h
    | succ k ih =>
      intro m obj h
      unfold qsLoop at h
      split at h
      · simp at h
      · rename_i m' _
        simp only at h
        split at h
        · split at h
          · simp at h
          · rename_i w hw
            split at h
            · rw [List.mem_singleton] at h; exact .inr ⟨_, w, _, hw, h⟩
            · simp only [List.mem_cons] at h
              rcases h with h | h
              · exact .inr ⟨_, w, _, hw, h⟩
              · exact ih _ _ h
        · rw [List.mem_singleton] at h; exact .inl ⟨_, h⟩
  unfold qsHeur at hr
  split at hr
  · simp at hr
  · rw [List.mem_singleton] at hr; exact .inl ⟨_, hr⟩
  · split at hr
    · simp at hr
    · exact key _ _ _ _ hr

/-- the texts of the values of `status` -/
def statusText : PStatus → String
  | .success => "success"
  | .failed .optimal => "optimal"
  | .failed .infeasible => "infeasible"
  | .failed .unbounded => "unbounded"
  | .failed .undefined => "undefined"
  | .failed .notsolved => "notsolved"

theorem status_repr (s : PStatus) : Repr.status s = (statusText s).toList := by
  rcases s with _ | s
  · rfl
  · cases s <;> rfl

theorem result_repr {σ : Type} {sub : σ → Except Err (List Char)} {fmt : K → List Char} {r : ProblemResult σ K} {s v : String}
    (hs : Repr.subsystem sub r.subsystem = .ok s.toList) (hv : Repr.value fmt r.value = v.toList) :
    Repr.result sub fmt r = .ok (resultText (statusText r.status) s v).toList := by
  unfold Repr.result resultText
  rw [hs]
  simp only [bind, Except.bind, hv, status_repr, String.toList_append]

theorem failure_repr {σ : Type} {sub : σ → Except Err (List Char)} {fmt : K → List Char} {s : Status} :
    Repr.result sub fmt (failure s : ProblemResult σ K) = .ok (resultText (statusText (.failed s)) "None" "None").toList :=
  result_repr (r := (Model.failure s : ProblemResult σ K)) rfl rfl

/-- **C107.** Results that are not successes can be printed, for both methods and both kinds of forms; the text shows the status
and `None` for the subsystem and the value. -/
theorem C107_failed {σ : Type} {f : Form σ K} {lp solver : Milp K → Answer K} {solvers : Nat → Milp K → Answer K} {n : Nat}
    {ini : List (Nat × List Nat) → Except Err (List (Nat × K))} {upd : List (Nat × List Nat) → Updater K} {r : ProblemResult σ K}
    (hr : r ∈ (solveIter f t (milpExact f lp solver t mode labels be)).1 ∨
      r ∈ (solveIter f t (qsHeur f lp solvers n ini upd t mode labels be)).1)
    (hst : r.status ≠ .success) (sub : σ → Except Err (List Char)) (fmt : K → List Char) :
    Repr.result sub fmt r = .ok (resultText (statusText r.status) "None" "None").toList := by
  have : ∃ s, r = failure s := by
    rcases hr with hr | hr
    · rcases exact_cases hr with h | ⟨_, _, _, _, rfl⟩
      · exact h
      · exact absurd rfl hst
    · rcases qs_cases hr with h | ⟨_, _, _, _, rfl⟩
      · exact h
      · exact absurd rfl hst
  obtain ⟨s, rfl⟩ := this
  exact failure_repr

theorem result_ok {σ : Type} {sub : σ → Except Err (List Char)} {fmt : K → List Char} {r : ProblemResult σ K} {w : σ} (hw : r.subsystem = some w) :
    (∃ text, Repr.result sub fmt r = .ok text) ↔ ∃ text, sub w = .ok text := by
  unfold Repr.result
  simp only [hw, bind, Except.bind, Repr.subsystem]
  cases sub w with
  | ok y => simp
  | error e => simp

theorem sub_ok : (∃ text, Repr.sub ρ' x = .ok text) ↔ ∃ res, x.subsys ρ' = .ok res := by
  unfold Repr.sub
  simp only [bind, Except.bind]
  cases x.subsys ρ' with
  | ok y => simp
  | error e => simp

/-- **C107.** A result with a subsystem of a reachability form can be printed if and only if the initial state is selected
and every selected state lies on a path from it to the target within the selected states. -/
theorem C107_prints_iff (hM : M.WF) (hL : LabelMap M.labS) (hrf : RF.make ρ M il tl fl false = .ok rf)
    (hx : Subsystem.make rf cert mode false = .ok x)
    (hlS : M.labS.dflt = true ∨ ∀ s < M.N, ∃ l, s ∈ M.labelled l) (hA : LabelMap M.labA) (hlA : M.labA.dflt = true)
    (hd : M.dtmc = true → ∀ s a i, ((s, a), i) ∈ M.idx → a = 0) {i : Nat} (hi : i ∈ M.labelled il)
    {r : ProblemResult (Subsystem K) K} (hr : r.subsystem = some x) (fmt : K → List Char) :
    (∃ text, Repr.result (Repr.sub ρ') fmt r = .ok text) ↔
      Selected M mode cert i ∧ ∀ s, Selected M mode cert s → OnPath M (Selected M mode cert) i tl s := by
  rw [result_ok hr, sub_ok]
  exact C105_builds_iff hM hL hrf hx hlS hA hlA hd hi

/-- **C107.** A success of the exact method for a positive threshold and without labels can be printed, and the text tells the
number of selected states twice: as the value, and as the number of states of the subsystem (plus 2). -/
theorem C107_exact {lp solver : Milp K → Answer K} {r : ProblemResult (Subsystem K) K}
    (hM : M.WF) (hL : LabelMap M.labS) (hrf : RF.make ρ M il tl fl false = .ok rf) (φ : K →+*o ℝ)
    (hlS : M.labS.dflt = true ∨ ∀ s < M.N, ∃ l, s ∈ M.labelled l) (hA : LabelMap M.labA) (hlA : M.labA.dflt = true)
    (hd : M.dtmc = true → ∀ s a i, ((s, a), i) ∈ M.idx → a = 0) (ht : 0 < t)
    (hlp : ∀ lp', (lp lp').Sound lp') (hs : ∀ m, (solver m).Sound m)
    (hr : r ∈ (solveIter rf.form t (milpExact rf.form lp solver t mode none be)).1) (hst : r.status = .success)
    (ρ' : Graph.Rnd) (fmt : K → String) :
    ∃ (ls ls' : List (String × Nat)) (c k : Nat), r.value = some (k : K) ∧ Counts M ls ∧
      Repr.result (Repr.sub ρ') (fun v => (fmt v).toList) r = .ok (resultText "success"
        (subText (rfText il tl fl (sysText M.dtmc M.C M.N ls)) (rfText il tl fl (sysText M.dtmc (c + 2) (k + 2) ls'))) (fmt k)).toList := by
  obtain ⟨x', hx', hb⟩ := C105_exact hM hL hrf φ hlS hA hlA hd ht hlp hs hr hst
  obtain ⟨cert, x, k, rfl, g1, g2, g3, g4, -⟩ := exact_sound hM hL hrf hlp hs hr hst
  cases hx'
  obtain ⟨res, hres⟩ := hb ρ'
  obtain ⟨ls, ls', c, n, h1, h2, h3, -⟩ := C107_text hM hL hrf g1 hres
  have hlt : ∀ s, Selected M mode cert s → s < M.N - 2 := by
    obtain ⟨ks, -, k2, k3, -⟩ := C47_construction hM hL hrf g1 hres
    exact fun s h => k3 s ((k2 s).2 h)
  have hn : n = k := by
    classical
    rw [h3, g4]
    unfold cost
    rw [← Set.ncard_coe_finset]
    congr 1
    ext s
    simp only [Set.mem_ofPred_eq, coe_filter, mem_range]
    exact ⟨fun h => ⟨hlt s h, h⟩, fun h => h.2⟩
  subst hn
  refine ⟨ls, ls', c, n, rfl, h2, ?_⟩
  exact result_repr (r := ⟨.success, some x', some (n : K), some cert⟩) h1 rfl

/-- **C107** is false for the threshold 0, where no success of the exact method can be printed, -/
theorem C107_zero_false {lp solver : Milp K → Answer K} {r : ProblemResult (Subsystem K) K}
    (hM : M.WF) (hL : LabelMap M.labS) (hrf : RF.make ρ M il tl fl false = .ok rf) (φ : K →+*o ℝ)
    (hlS : M.labS.dflt = true ∨ ∀ s < M.N, ∃ l, s ∈ M.labelled l) (hA : LabelMap M.labA) (hlA : M.labA.dflt = true)
    (hd : M.dtmc = true → ∀ s a i, ((s, a), i) ∈ M.idx → a = 0)
    (hlp : ∀ lp', (lp lp').Sound lp') (hs : ∀ m, (solver m).Sound m)
    (hr : r ∈ (solveIter rf.form 0 (milpExact rf.form lp solver 0 mode none be)).1) (hst : r.status = .success)
    (fmt : K → List Char) (text : List Char) : Repr.result (Repr.sub ρ') fmt r ≠ .ok text := by
  intro h
  obtain ⟨x, hx, hn⟩ := C105_zero_false hM hL hrf φ hlS hA hlA hd hlp hs hr hst
  obtain ⟨res, hr⟩ := sub_ok.1 ((result_ok hx).1 ⟨text, h⟩)
  exact hn ρ' res hr

/-- and in general for problems with labels. -/
theorem C107_labels_false : subEx.WF ∧ LabelMap subEx.labS ∧ LabelsOK subEx (some ["init"]) ∧
    ∃ (rf : RF ℚ) (lp solver : Milp ℚ → Answer ℚ) (r : ProblemResult (Subsystem ℚ) ℚ),
      RF.make exRnd subEx "init" "goal" "fail" false = .ok rf ∧ (∀ m, (lp m).Sound m) ∧ (∀ m, (solver m).Sound m) ∧
      (solveIter rf.form (1/2) (milpExact rf.form lp solver (1/2) .min (some ["init"]) .pulp)).1 = [r] ∧ r.status = .success ∧
      ∀ fmt text, Repr.result (Repr.sub exRnd) fmt r ≠ .ok text := by
  obtain ⟨h1, h2, h3, rf, lp, solver, r, x, g1, g2, g3, g4, g5, -, g6, g7⟩ := C105_labels_false
  refine ⟨h1, h2, h3, rf, lp, solver, r, g1, g2, g3, g4, g5, fun fmt text h => ?_⟩
  obtain ⟨res, hr⟩ := sub_ok.1 ((result_ok g6).1 ⟨text, h⟩)
  exact g7 res hr

/-! ### subsystems of reward forms -/

section
variable {res : RRF.Result K} {y : RRF.Sub K}

/-- the object in terms of the underlying reachability form -/
theorem rew_base (h : RRF.mkSub res.rrf cert mode = .ok y) :
    y = ⟨res.rrf, cert, mode⟩ ∧ Subsystem.make res.rrf.rf cert mode false = .ok y.base := by
  unfold RRF.mkSub at h
  unfold Subsystem.make
  cases mode <;> simp only at h ⊢ <;> split at h <;> rename_i hc <;> cases h <;> exact ⟨rfl, by rw [if_pos hc]; rfl⟩

/-- **C107** is false of subsystems of reward forms: `.subsys` raises `AttributeError` for every certificate, accepted or not, -/
theorem C107_reward_false (hM : RewardInput M) (h : RRF.reduce ρ ρ' M il tl = .ok res) (hy : RRF.mkSub res.rrf cert mode = .ok y) :
    y.subsys = .error .attributeError := by
  have hred := rew_reduce hM h
  obtain ⟨hI, hdS, hdA, -, hrf⟩ := C13_reduce_again hM.toInput (by decide) hred
  have ho := rfok_built hI.wf hrf
  obtain ⟨rfl, hx⟩ := rew_base hy
  obtain ⟨-, m, hm, hml, hms⟩ := mask_spec ho hx
  have hMp := subMaps ho hml
  simp only at hI hdS hdA hrf ho hx hm hml hMp
  have hLS : ∀ s, ∃ ls, res.rrf.rf.sys.labelsByState s = .ok ls := fun s => inv_getItem_ok hI.labS.inv (Or.inl hdS)
  have hLA : ∀ sa, ∃ ls, res.rrf.rf.sys.labelsByAction sa = .ok ls := fun sa => inv_getItem_ok hI.labA.inv (Or.inl hdA)
  obtain ⟨labS, hlabS⟩ := foldlM_total (f := Subsystem.labelStep res.rrf.rf.sys) (Subsystem.kept m).zipIdx [] (by
    rintro d ⟨s, n⟩ hsn
    obtain ⟨ls, hls⟩ := hLS s
    exact ⟨ls.foldl (fun d l => IDict.addTo d l n) d, by simp [Subsystem.labelStep, hls, bind, Except.bind]⟩)
  obtain ⟨st, hst, s1, s2, -⟩ := rowFold ho hml (fun s a _ _ _ _ => hLA (s, a)) (List.range res.rrf.rf.C) [] ⟨[], [], 0⟩ (by simp) rfl rfl
    (by simp [Dict.get?])
  obtain ⟨i1, b1, b2⟩ := sub_bput hMp
  have hcl := subCols_length m
  have hst' : (List.range (res.rrf.rf.sys.C - 2)).foldlM (Subsystem.rowStep res.rrf.rf.sys m) ⟨[], [], 0⟩ = .ok st := hst
  unfold RRF.Sub.subsys RRF.Sub.mask
  rw [hm]
  simp only [bind, Except.bind, hlabS, hst', s1, s2, ← hcl, b1, b2]

/-- so that no success of either method can be printed, -/
theorem C107_reward_results_false {lp solver : Milp K → Answer K} {solvers : Nat → Milp K → Answer K} {n : Nat}
    {ini : List (Nat × List Nat) → Except Err (List (Nat × K))} {upd : List (Nat × List Nat) → Updater K} {r : ProblemResult (RRF.Sub K) K}
    (hM : RewardInput M) (h : RRF.reduce ρ ρ' M il tl = .ok res)
    (hr : r ∈ (solveIter res.rrf.form t (milpExact res.rrf.form lp solver t mode labels be)).1 ∨
      r ∈ (solveIter res.rrf.form t (qsHeur res.rrf.form lp solvers n ini upd t mode labels be)).1)
    (hst : r.status = .success) (form : RRF K → List Char) (fmt : K → List Char) :
    Repr.result (Repr.rewSub form) fmt r = .error .attributeError := by
  have : ∃ cert w v, res.rrf.form.mkSub cert mode = .ok w ∧ r = ⟨.success, some w, some v, some cert⟩ := by
    rcases hr with hr | hr
    · rcases exact_cases hr with ⟨s, rfl⟩ | h
      · cases hst
      · exact h
    · rcases qs_cases hr with ⟨s, rfl⟩ | h
      · cases hst
      · exact h
  obtain ⟨cert, w, v, hw, rfl⟩ := this
  have := C107_reward_false hM h hw
  simp [Repr.result, Repr.subsystem, Repr.rewSub, this, bind, Except.bind]

/-- and that the picture of a "max" certificate with its values, the default, cannot be drawn. -/
theorem C107_reward_picture_false (hM : RewardInput M) (h : RRF.reduce ρ ρ' M il tl = .ok res)
    (hy : RRF.mkSub res.rrf cert .max = .ok y) {v : Maps K} {w : DTMCMaps K} {fmt : K → List Char}
    (hv : ∀ s ls, ∃ a, v.state s ls = .ok a) (hw : ∀ s ls, ∃ a, w.state s ls = .ok a) :
    y.mdp fmt true v = .error .attributeError ∧ y.dtmc fmt true w = .error .attributeError := by
  have hsub := C107_reward_false hM h hy
  obtain ⟨hI, hdS, hdA, -, hrf⟩ := C13_reduce_again hM.toInput (by decide) (rew_reduce hM h)
  have ho := rfok_built hI.wf hrf
  obtain ⟨rfl, hx⟩ := rew_base hy
  obtain ⟨-, m, hm, hml, hms⟩ := mask_spec ho hx
  simp only at hI hdS hdA hrf ho hx hml
  have hm : RRF.Sub.mask ⟨res.rrf, cert, .max⟩ = .ok m := hm
  have hNN : m.length + 2 = res.rrf.rf.sys.N := by have := ho.hN; rw [hml]; simp [RF.N]; omega
  have hst : RRF.Sub.stateWeights ⟨res.rrf, cert, .max⟩ true = .error .attributeError := by
    simp [RRF.Sub.stateWeights, hsub]
  have key : ∀ (f : Nat → List String → Except Err Attrs), (∀ s ls, ∃ a, f s ls = .ok a) →
      ∀ s < res.rrf.rf.sys.N, Digraph.addState res.rrf.rf.sys (Digraph.stateBy (RRF.Sub.stateWeights ⟨res.rrf, cert, .max⟩ true) cert m fmt f)
        ⟨⟨[], []⟩, [], []⟩ s = .error .attributeError := by
    intro f hf s h1
    obtain ⟨ls, k1⟩ : ∃ ls, res.rrf.rf.sys.labelsByState s = .ok ls := inv_getItem_ok hI.labS.inv (Or.inl hdS)
    obtain ⟨a, k2⟩ := hf s ls
    simp [Digraph.addState, k1, Digraph.stateBy, inSub_ok (show s < m.length + 2 by omega), k2, hst, bind, Except.bind]
  have hWF := hI.wf
  obtain ⟨en, l, hP⟩ : ∃ en l, res.rrf.rf.sys.P.items = en :: l := by
    cases hP : res.rrf.rf.sys.P.items with
    | nil =>
      obtain ⟨t, -, hp⟩ := WF.exists_pos hWF (show res.rrf.rf.sys.C - 2 < res.rrf.rf.sys.C by have := ho.hC; omega)
      obtain ⟨p, hp⟩ := (WF.get_pos_iff hWF).1 hp
      rw [hP] at hp; cases hp
    | cons en l => exact ⟨en, l, rfl⟩
  obtain ⟨hr, hc⟩ := hWF.range en.1.1 en.1.2 en.2 (by rw [hP]; exact List.mem_cons_self)
  obtain ⟨s, a, hi, hsN⟩ := WF.cover hWF hr
  have hinv : invGet? res.rrf.rf.sys.idx en.1.1 = some (s, a) := (invGet?_iff hWF.vals).2 hi
  refine ⟨?_, ?_⟩
  · simp only [RRF.Sub.mdp, hm, bind, Except.bind, Digraph.mdp, hP, List.foldlM_cons]
    rw [show Digraph.mdpStep res.rrf.rf.sys _ _ en = .error .attributeError by
      simp only [Digraph.mdpStep, hinv, key _ hv s hsN, bind, Except.bind]]
  · simp only [RRF.Sub.dtmc, hm, bind, Except.bind, Digraph.dtmc, hP, List.foldlM_cons]
    rw [show Digraph.dtmcStep res.rrf.rf.sys _ _ en = .error .attributeError by
      simp only [Digraph.dtmcStep, hinv, key _ hw s hsN, bind, Except.bind]]

/-- **C107**, what is left for reward forms: `subsystem_mask` is right, -/
theorem C107_reward_mask (hM : RewardInput M) (h : RRF.reduce ρ ρ' M il tl = .ok res) (hy : RRF.mkSub res.rrf cert mode = .ok y) :
    ∃ m, y.mask = .ok m ∧ m.length + 2 = res.rrf.rf.sys.N ∧ ∀ s, m[s]? = some true ↔ Selected res.rrf.rf.sys mode cert s := by
  obtain ⟨hI, -, -, -, hrf⟩ := C13_reduce_again hM.toInput (by decide) (rew_reduce hM h)
  have ho := rfok_built hI.wf hrf
  obtain ⟨rfl, hx⟩ := rew_base hy
  have hmk := inMask_iff ho hx
  obtain ⟨-, m, hm, hml, hms⟩ := mask_spec ho hx
  refine ⟨m, hm, by have := ho.hN; rw [hml]; simp [RF.N] at this ⊢; omega, fun s => ?_⟩
  rw [← hmk, ← hms, List.getD_eq_getElem?_getD]
  cases m[s]? <;> simp

/-- and pictures without values or of "min" certificates are those of the underlying reachability form, for which see C80. -/
theorem C107_reward_picture (hM : RewardInput M) (h : RRF.reduce ρ ρ' M il tl = .ok res) (hy : RRF.mkSub res.rrf cert mode = .ok y)
    {sw : Bool} (hsw : sw = false ∨ mode = .min) :
    ∃ (rf : RF K) (x : Subsystem K), res.rrf.rf = rf ∧ RF.make ρ rf.sys il "rf_target" "rf_fail" false = .ok rf ∧
      Subsystem.make rf cert mode false = .ok x ∧
      ∀ (ρ' : Graph.Rnd) (fmt : K → List Char) (v : Maps K) (w : DTMCMaps K),
        y.mdp fmt sw v = Digraph.subMDP ρ' x fmt sw v ∧ y.dtmc fmt sw w = Digraph.subDTMC ρ' x fmt sw w := by
  obtain ⟨hI, -, -, -, hrf⟩ := C13_reduce_again hM.toInput (by decide) (rew_reduce hM h)
  obtain ⟨rfl, hx⟩ := rew_base hy
  refine ⟨_, _, rfl, hrf, hx, fun ρ' fmt v w => ?_⟩
  have hw : RRF.Sub.stateWeights ⟨res.rrf, cert, mode⟩ sw = Digraph.stateWeights ρ' (RRF.Sub.base ⟨res.rrf, cert, mode⟩) sw := by
    unfold RRF.Sub.stateWeights Digraph.stateWeights RRF.Sub.base
    rcases hsw with rfl | rfl
    · rfl
    · rfl
  unfold RRF.Sub.mdp RRF.Sub.dtmc Digraph.subMDP Digraph.subDTMC
  rw [hw]
  exact ⟨rfl, rfl⟩

end

/-! ### the hypotheses are met -/

/-- a success for a chain: the exact method selects 4 states -/
example (fmt : ℚ → String) : ∃ rf solver r, RF.make exRnd forkSys "init" "goal" "fail" false = .ok rf ∧ (∀ m, (solver m : Answer ℚ).Sound m) ∧
    r ∈ (solveIter rf.form (3/8) (milpExact rf.form solver solver (3/8) .min none .pulp)).1 ∧
    ∃ (ls ls' : List (String × Nat)) (c : Nat), Counts forkSys ls ∧
      Repr.result (Repr.sub exRnd) (fun v => (fmt v).toList) r = .ok (resultText "success"
        (subText (rfText "init" "goal" "fail" (sysText forkSys.dtmc forkSys.C forkSys.N ls))
          (rfText "init" "goal" "fail" (sysText forkSys.dtmc (c + 2) 6 ls'))) (fmt 4)).toList := by
  obtain ⟨rf, h⟩ := fork_ex
  obtain ⟨solver, hs⟩ := exists_exact ℚ
  have hs' : ∀ m, (solver m).Sound m := fun m => (hs m).toSound
  obtain ⟨r, h1, h2, h3⟩ := fork_run (t := 3/8) (k := 4) h hs .min (by norm_num) (by rw [h.chain]; decide +kernel)
  have hd : forkSys.dtmc = true → ∀ s a i, ((s, a), i) ∈ forkSys.idx → a = 0 := fun _ s a i g => (h.rows s a i g).1
  obtain ⟨ls, ls', c, k, g1, g2, g3⟩ := C107_exact h.wf h.lS h.make ratR (Or.inl h.dS) h.lA h.dA hd (by norm_num) hs' hs' h1 h2 exRnd fmt
  rw [h3] at g1
  have hk : k = 4 := by exact_mod_cast (Option.some.inj g1).symm
  subst hk
  exact ⟨rf, solver, r, h.make, hs', h1, ls, ls', c, g2, by simpa using g3⟩

/-- a success for a reward model -/
example (form : RRF ℚ → List Char) (fmt : ℚ → List Char) : ∃ (res : RRF.Result ℚ) (solver : Milp ℚ → Answer ℚ) (r : ProblemResult (RRF.Sub ℚ) ℚ),
    RRF.reduce exRnd exRnd (rwSys 2) "start" "goal" = .ok res ∧ (∀ m, (solver m).Exact m) ∧
    r ∈ (solveIter res.rrf.form 2 (milpExact res.rrf.form solver solver 2 .min none .pulp)).1 ∧ r.status = .success ∧
    Repr.result (Repr.rewSub form) fmt r = .error .attributeError := by
  obtain ⟨res, h⟩ := rwSys_ok (c := 2) zero_le_two exRnd exRnd
  have hM := rwSys_input zero_le_two
  obtain ⟨j, hj, hU, -⟩ := rwSys_init zero_le_two h
  obtain ⟨solver, hs⟩ := exists_exact ℚ
  have hi : (0 : Nat) ∈ (rwSys 2).labelled "start" := ⟨[0], rwSys_start 2, by simp⟩
  obtain ⟨r, hr, hst, -⟩ := C106_decides (mode := .min) (t := 2) (labels := none) hM h ratR hs hs zero_le_two (Or.inl rfl) hi (fun _ g => nomatch g)
  have h2 : ratR 2 = 2 := map_ofNat ratR 2
  have hsuc : r.status = .success := by
    refine hst.2 ?_
    rw [← rewOpt_initial hM h ratR hi hj, h2]
    unfold Inside at hU
    simpa using hU
  have hm : r ∈ (solveIter res.rrf.form 2 (milpExact res.rrf.form solver solver 2 .min none .pulp)).1 := by rw [hr]; simp
  exact ⟨res, solver, r, h, hs, hm, hsuc,
    C107_reward_results_false (solvers := fun _ => solver) (n := 0) (ini := fun _ => .ok []) (upd := fun _ => ⟨fun _ => .ok [], fun _ => .ok []⟩)
      hM h (Or.inl hm) hsuc form fmt⟩

/-- a failure -/
example : ∃ (rf : RF ℚ) (lp : Milp ℚ → Answer ℚ) (r : ProblemResult (Subsystem ℚ) ℚ), RF.make exRnd subEx "init" "goal" "fail" false = .ok rf ∧
    r ∈ (solveIter rf.form 1 (milpExact rf.form lp lp 1 .min none .pulp)).1 ∧ r.status ≠ .success := by
  let lp : Milp ℚ → Answer ℚ := fun _ => ⟨.infeasible, [], 0⟩
  obtain ⟨rf, h1, h2⟩ := exists_of_ok_and (x := RF.make exRnd subEx "init" "goal" "fail" false)
    (p := fun rf => match (solveIter rf.form 1 (milpExact rf.form lp lp 1 .min none .pulp)).1 with
      | [r] => decide (r.status ≠ .success)
      | _ => false) (by decide +kernel)
  cases h3 : (solveIter rf.form 1 (milpExact rf.form lp lp 1 .min none .pulp)).1 with
  | nil => rw [h3] at h2; cases h2
  | cons r l =>
    cases l with
    | nil => rw [h3] at h2; exact ⟨rf, lp, r, h1, by rw [h3]; simp, by simpa using h2⟩
    | cons _ _ => rw [h3] at h2; cases h2

end Verif.Props
