import Verif.Props.QSIter
import Verif.Props.RewardProblem
/-!
# C125, C126: repeated results and further iterations of the heuristic
-/
set_option linter.unusedSectionVars false

namespace Verif.Props
open Verif.Model Verif.Model.Milp Verif.Spec Verif.Proofs Verif.Theory Finset

section
variable {K : Type} [Field K] [LinearOrder K] [IsStrictOrderedRing K]

theorem set_same {d : Dict Nat K} {k : Nat} {c : K} (h : d.get? k = some c) : d.set k c = d := by
  induction d with
  | nil => cases h
  | cons p d ih =>
    obtain ⟨k', c'⟩ := p
    by_cases hk : k' = k
    · subst hk
      simp only [Dict.get?, if_true, Option.some.injEq] at h
      simp [Dict.set, h]
    · simp only [Dict.get?, if_neg hk] at h
      simp only [Dict.set, if_neg hk, ih h]

/-- setting the objective again changes nothing -/
theorem setObjective_again {m m1 m2 : Milp K} {e : List (Nat × K)} (h : m.setObjective e = .ok m1) (hK : ObjK m)
    (hn : (e.map Prod.fst).Nodup) (hp : ∀ t ∈ e, 0 ≤ t.2) (h' : m1.setObjective e = .ok m2) : m2 = m1 := by
  obtain ⟨-, o, ho, hget⟩ := setObjective_obj h hK hn hp
  obtain ⟨e1, -, -, e2, -, hv, -⟩ := setObjective_inv h
  have hv1 : ∀ t ∈ e, t.1 < m1.vars.length := by rw [e1]; exact hv
  have hfold : ∀ (e' : List (Nat × K)), (∀ t ∈ e', o.get? t.1 = some t.2) → e'.foldl (fun d t => Dict.set d t.1 t.2) o = o := by
    intro e'
    induction e' with
    | nil => intro _; rfl
    | cons t e' ih =>
      intro g
      rw [List.foldl_cons, set_same (g t (by simp))]
      exact ih fun u hu => g u (by simp [hu])
  cases hb : m.be with
  | pulp =>
    simp only [setObjective, assertExpr, if_pos hv1, bind, Except.bind, ho, e2, hb] at h'
    cases h'
    rw [hfold e hget, ← ho, ← hb, ← e2]
  | gurobi =>
    simp only [setObjective, assertExpr, if_pos hv, if_pos hv1, bind, Except.bind, e2, hb] at h h'
    cases h
    cases h'
    rfl

/-- a fixed point of the loop -/
theorem qsLoop_fix {σ : Type} {f : Form σ K} {s : Milp K → Answer K} {mode : Mode} {U : Updater K} (hU : ∀ v, U.constraints v = .ok [])
    {m : Milp K} {obj : List (Nat × K)} (hm : m.setObjective obj = .ok m) (ho : (s m).status = .optimal) {w : σ}
    (hw : f.mkSub ((s m).vec.take (f.certSize mode)) mode = .ok w) (hu : U.update (s m).vec = .ok obj) (k : Nat) :
    qsLoop f (fun _ => s) mode U k m obj = (List.replicate k ⟨.success, some w,
      some ((((s m).vec.drop (f.certSize mode)).countP fun x => decide (0 < x) : Nat) : K), some ((s m).vec.take (f.certSize mode))⟩, none) := by
  induction k with
  | zero => rfl
  | succ k ih =>
    rw [qsLoop]
    simp only [hm, ho, if_true, hw, hu, hU, bind, Except.bind, addConstraints, List.foldlM_nil, pure, Except.pure, ih]
    rfl

/-- a repeated certificate: from then on nothing changes -/
theorem qsLoop_repeat {σ : Type} {f : Form σ K} {s : Milp K → Answer K} {mode : Mode} {ind : List (Nat × List Nat)} {w : Nat → K}
    (hw : ∀ i, 0 < w i) (hnd : (ind.map Prod.fst).Nodup) (hs : ∀ m, (s m).Sound m) {F : (Nat → K) → Prop} {L : Nat}
    (uniq : ∀ v v' : List K, v.length = L → v'.length = L → F (fun j => v.getD j 0) → F (fun j => v'.getD j 0) →
      (∃ obj : List (Nat × K), obj.map Prod.fst = ind.map Prod.fst ∧ (∀ t ∈ obj, 0 < t.2) ∧ ∀ x, F x → terms obj (fun j => v.getD j 0) ≤ terms obj x) →
      (∃ obj : List (Nat × K), obj.map Prod.fst = ind.map Prod.fst ∧ (∀ t ∈ obj, 0 < t.2) ∧ ∀ x, F x → terms obj (fun j => v'.getD j 0) ≤ terms obj x) →
      v.take (f.certSize mode) = v'.take (f.certSize mode) → v = v') :
    ∀ (i k : Nat) (m : Milp K) (obj : List (Nat × K)) (r r' : ProblemResult σ K), m.vars.length = L → m.maximize = false → ObjK m →
      (∀ x, m.Feasible x ↔ F x) → ObjIn (ind.map Prod.fst) m → obj.map Prod.fst = ind.map Prod.fst → (∀ t ∈ obj, 0 < t.2) →
      (qsLoop f (fun _ => s) mode (inverseResultUpdater w ind) k m obj).1[i]? = some r →
      (qsLoop f (fun _ => s) mode (inverseResultUpdater w ind) k m obj).1[i + 1]? = some r' →
      r.status = .success → r'.status = .success → r.cert = r'.cert →
      (qsLoop f (fun _ => s) mode (inverseResultUpdater w ind) k m obj).2 = none ∧
      (qsLoop f (fun _ => s) mode (inverseResultUpdater w ind) k m obj).1.length = k ∧
      ∀ j, i ≤ j → j < k → (qsLoop f (fun _ => s) mode (inverseResultUpdater w ind) k m obj).1[j]? = some r' := by
  have hcon : ∀ v, (inverseResultUpdater w ind).constraints v = .ok [] := fun _ => rfl
  -- one iteration
  have step : ∀ (m : Milp K) (obj : List (Nat × K)) (m1 : Milp K), m.vars.length = L → m.maximize = false → ObjK m →
      (∀ x, m.Feasible x ↔ F x) → ObjIn (ind.map Prod.fst) m → obj.map Prod.fst = ind.map Prod.fst → (∀ t ∈ obj, 0 < t.2) →
      m.setObjective obj = .ok m1 → m1.vars.length = L ∧ m1.maximize = false ∧ ObjK m1 ∧ (∀ x, m1.Feasible x ↔ F x) ∧
      ObjIn (ind.map Prod.fst) m1 ∧ ((s m1).status = .optimal → (s m1).vec.length = L ∧ F (fun j => (s m1).vec.getD j 0) ∧
        ∀ x, F x → terms obj (fun j => (s m1).vec.getD j 0) ≤ terms obj x) := by
    intro m obj m1 hL hmx hK hF hI hko hpo hm1
    obtain ⟨o1, o2, o3, o4, o5, -⟩ := setObjective_inv hm1
    have hno : (obj.map Prod.fst).Nodup := by rw [hko]; exact hnd
    obtain ⟨hK1, -⟩ := setObjective_obj hm1 hK hno (fun t ht => (hpo t ht).le)
    obtain ⟨hI1, hval⟩ := setObjective_val hm1 hK hno (by rw [hko]; exact hI)
    rw [hko] at hI1
    have hF1 : ∀ x, m1.Feasible x ↔ F x := fun x => by rw [feasible_congr o1 o2, hF]
    refine ⟨by rw [o1, hL], by rw [o5, hmx], hK1, hF1, hI1, fun hopt => ?_⟩
    obtain ⟨q1, q2, -⟩ := (hs m1).optimal hopt
    refine ⟨by rw [q2, o1, hL], (hF1 _).1 q1.1, fun x hx => ?_⟩
    have := q1.2 x ((hF1 x).2 hx)
    rw [o5, hmx] at this
    simp only [Bool.false_eq_true, if_false] at this
    rwa [hval, hval] at this
  intro i
  induction i with
  | zero =>
    intro k m obj r r' hL hmx hK hF hI hko hpo hr hr' hst hst' hcert
    cases k with
    | zero => simp [qsLoop] at hr
    | succ k =>
    rw [qsLoop] at hr hr' ⊢
    cases hm1 : m.setObjective obj with
    | error e => simp [hm1] at hr
    | ok m1 =>
    simp only [hm1] at hr hr' ⊢
    by_cases hopt : (s m1).status = .optimal
    swap
    · simp [hopt] at hr'
    obtain ⟨hL1, hmx1, hK1, hF1, hI1, hb1⟩ := step m obj m1 hL hmx hK hF hI hko hpo hm1
    obtain ⟨l1, f1, b1⟩ := hb1 hopt
    simp only [hopt, if_true] at hr hr' ⊢
    cases hmk : f.mkSub ((s m1).vec.take (f.certSize mode)) mode with
    | error e => simp [hmk] at hr
    | ok x =>
    simp only [hmk] at hr hr' ⊢
    cases hup : (inverseResultUpdater w ind).update (s m1).vec with
    | error e => simp [hup, bind, Except.bind] at hr'
    | ok obj1 =>
    simp only [hup, hcon, bind, Except.bind, addConstraints, List.foldlM_nil, pure, Except.pure] at hr hr' ⊢
    obtain ⟨p1, p2⟩ := C44_positive hw hup
    cases k with
    | zero => simp [qsLoop] at hr'
    | succ k =>
    rw [qsLoop] at hr hr' ⊢
    cases hm2 : m1.setObjective obj1 with
    | error e => simp [hm2] at hr'
    | ok m2 =>
    simp only [hm2] at hr hr' ⊢
    by_cases hopt2 : (s m2).status = .optimal
    swap
    · simp only [hopt2, if_false, List.getElem?_cons_succ, List.getElem?_cons_zero, zero_add, Option.some.injEq] at hr'
      subst hr'
      cases hst'
    obtain ⟨hL2, hmx2, hK2, hF2, hI2, hb2⟩ := step m1 obj1 m2 hL1 hmx1 hK1 hF1 hI1 p1 p2 hm2
    obtain ⟨l2, f2, b2⟩ := hb2 hopt2
    simp only [hopt2, if_true] at hr hr' ⊢
    cases hmk2 : f.mkSub ((s m2).vec.take (f.certSize mode)) mode with
    | error e => simp [hmk2] at hr'
    | ok x2 =>
    simp only [hmk2] at hr hr' ⊢
    have hveq : (s m1).vec.take (f.certSize mode) = (s m2).vec.take (f.certSize mode) → (s m1).vec = (s m2).vec :=
      uniq _ _ l1 l2 f1 f2 ⟨obj, hko, hpo, b1⟩ ⟨obj1, p1, p2, b2⟩
    have hr2 : r' = ⟨.success, some x2, some ((((s m2).vec.drop (f.certSize mode)).countP fun x => decide (0 < x) : Nat) : K),
        some ((s m2).vec.take (f.certSize mode))⟩ := by
      cases hu2 : (inverseResultUpdater w ind).update (s m2).vec with
      | error e => simpa [hu2, bind, Except.bind] using hr'.symm
      | ok obj2 => simpa [hu2, hcon, bind, Except.bind, addConstraints, pure, Except.pure] using hr'.symm
    have hr1 : r = ⟨.success, some x, some ((((s m1).vec.drop (f.certSize mode)).countP fun x => decide (0 < x) : Nat) : K),
        some ((s m1).vec.take (f.certSize mode))⟩ := by simpa using hr.symm
    have hvv : (s m1).vec = (s m2).vec := hveq (by rw [hr1, hr2] at hcert; simpa using hcert)
    have hup2 : (inverseResultUpdater w ind).update (s m2).vec = .ok obj1 := by rw [← hvv]; exact hup
    have hx : x = x2 := by
      rw [hvv, hmk2] at hmk
      cases hmk
      rfl
    have hm2' : m2.setObjective obj1 = .ok m2 := by
      obtain ⟨-, -, -, -, -, hv, -⟩ := setObjective_inv hm2
      obtain ⟨m3, hm3⟩ := setObjective_ok (m := m2) (e := obj1) (by rw [hL2, ← hL1]; exact hv)
      rw [hm3, setObjective_again hm2 hK1 (by rw [p1]; exact hnd) (fun t ht => (p2 t ht).le) hm3]
    have hfix := qsLoop_fix (f := f) (mode := mode) (U := inverseResultUpdater w ind) hcon hm2' hopt2 hmk2 hup2 k
    simp only [hup2, hcon, bind, Except.bind, addConstraints, List.foldlM_nil, pure, Except.pure, hfix]
    refine ⟨trivial, by simp, fun j _ hj => ?_⟩
    rw [hr2, hvv, hx]
    match j, hj with
    | 0, _ => rfl
    | 1, _ => rfl
    | j + 2, hj =>
      rw [List.getElem?_cons_succ, List.getElem?_cons_succ, List.getElem?_replicate, if_pos (by omega)]
  | succ i ih =>
    intro k m obj r r' hL hmx hK hF hI hko hpo hr hr' hst hst' hcert
    cases k with
    | zero => simp [qsLoop] at hr
    | succ k =>
    rw [qsLoop] at hr hr' ⊢
    cases hm1 : m.setObjective obj with
    | error e => simp [hm1] at hr
    | ok m1 =>
    simp only [hm1] at hr hr' ⊢
    by_cases hopt : (s m1).status = .optimal
    swap
    · simp [hopt] at hr'
    obtain ⟨hL1, hmx1, hK1, hF1, hI1, -⟩ := step m obj m1 hL hmx hK hF hI hko hpo hm1
    simp only [hopt, if_true] at hr hr' ⊢
    cases hmk : f.mkSub ((s m1).vec.take (f.certSize mode)) mode with
    | error e => simp [hmk] at hr
    | ok x =>
    simp only [hmk] at hr hr' ⊢
    cases hup : (inverseResultUpdater w ind).update (s m1).vec with
    | error e => simp [hup, bind, Except.bind] at hr'
    | ok obj1 =>
    simp only [hup, hcon, bind, Except.bind, addConstraints, List.foldlM_nil, pure, Except.pure, List.getElem?_cons_succ] at hr hr' ⊢
    obtain ⟨p1, p2⟩ := C44_positive hw hup
    obtain ⟨a1, a2, a3⟩ := ih k m1 obj1 r r' hL1 hmx1 hK1 hF1 hI1 p1 p2 hr hr' hst hst' hcert
    refine ⟨a1, by simp [a2], fun j hj hjk => ?_⟩
    match j, hj, hjk with
    | j + 1, hj, hjk => exact a3 j (by omega) (by omega)

variable {ρ : Graph.Rnd} {M : Sys K} {il tl fl : String} {rf : RF K} {t : K} {mode : Mode} {labels : Option (List String)}
  {lpSolver s : Milp K → Answer K} {n : Nat}
  {ini : List (Nat × List Nat) → Except Err (List (Nat × K))} {be : Backend}

/-- C125 for both kinds of forms -/
theorem converged_form {σ : Type} {f : Form σ K}
    (hf : ∀ A b, f.fark t mode = .ok (A, b) → A.cols = f.certSize mode ∧ A.rows ≤ b.length ∧ (A.cols + 1 = A.rows → OnePos A))
    (hgr : ∀ groups, groupsFromLabels f mode labels (decide (mode = .max ∧ true = false)) = .ok groups →
      ∀ g ∈ groups, ∀ w ∈ g, w < f.certSize mode)
    (hlp : ∀ lp, (lpSolver lp).Sound lp) (hs : ∀ m, (s m).Sound m)
    {w w' : Nat → K} (hw : ∀ i, 0 < w i) (hw' : ∀ i, 0 < w' i) (hi : LibInit w' ini)
    {r r' : ProblemResult σ K} {i : Nat} {run : Run σ K}
    (hrun : solveIter f t (qsHeur f lpSolver (fun _ => s) n ini (inverseResultUpdater w) t mode labels be) = run)
    (hr : run.1[i]? = some r) (hr' : run.1[i + 1]? = some r') (hst : r.status = .success) (hst' : r'.status = .success)
    (hcert : r.cert = r'.cert) :
    run.2 = none ∧ run.1.length = n ∧ (∀ j, i ≤ j → j < n → run.1[j]? = some r') ∧ solveLast run = .ok r' := by
  have hmem : r' ∈ (solveIter f t (qsHeur f lpSolver (fun _ => s) n ini (inverseResultUpdater w) t mode labels be)).1 := by
    rw [hrun]; exact List.mem_of_getElem? hr'
  obtain ⟨hq, ht0, ht1⟩ := solveIter_mem hmem
  have hq' := hrun
  unfold solveIter at hq'
  rw [if_pos ht0, if_pos ht1] at hq'
  unfold qsHeur at hq hq'
  split at hq
  · simp at hq
  · rw [List.mem_singleton] at hq
    subst hq
    cases hst'
  rename_i m ind hc
  split at hq
  · simp at hq
  rename_i obj hobj
  simp only [hc, hobj] at hq'
  have hrun' : qsLoop f (fun _ => s) mode (inverseResultUpdater w ind) n m obj = run := hq'
  obtain ⟨A, b, ub, groups, g1, gub, g3, -, g4, -⟩ := construct_inv hf hlp hc
  have hlt := hgr groups g3
  obtain ⟨i1, i2, i3⟩ := built_ind g4
  set N := f.certSize mode with hN
  have hfst : ind.map Prod.fst = List.range' N groups.length := by
    rw [g4.ind, List.map_map]
    show (groups.zipIdx N).map Prod.snd = _
    rw [List.zipIdx_map_snd]
  have hIn : ObjIn (ind.map Prod.fst) m := by
    intro o ho u hu hnu
    have h1 := evalE_single' (g4.objK o ho).1 hu
    have h2 := g4.obj (fun j => if j = u.1 then 1 else 0)
    unfold objVal at h2
    rw [ho, Option.getD_some, h1] at h2
    rw [h2]
    refine sum_eq_zero fun k hk => if_neg fun h => hnu ?_
    rw [hfst, List.mem_range'_1, ← h]
    have := mem_range.1 hk
    omega
  have hcols := (hf A b g1).1
  -- the indicators of a solution are determined by its certificate
  have half : ∀ v v' : List K, m.Feasible (fun j => v.getD j 0) → m.Feasible (fun j => v'.getD j 0) →
      (∃ obj : List (Nat × K), obj.map Prod.fst = ind.map Prod.fst ∧ (∀ t ∈ obj, 0 < t.2) ∧
        ∀ x, m.Feasible x → terms obj (fun j => v.getD j 0) ≤ terms obj x) →
      (∀ j < N, v.getD j 0 = v'.getD j 0) → ∀ k < groups.length, v.getD (N + k) 0 ≤ v'.getD (N + k) 0 := by
    rintro v v' hv hv' ⟨ob, b1, b2, b3⟩ he k hk
    by_contra hn
    obtain ⟨h2, h3, h4⟩ := (g4.feasible hlt _).1 hv
    obtain ⟨-, h3', h4'⟩ := (g4.feasible hlt _).1 hv'
    have hF : m.Feasible (fun j => if j < N then v.getD j 0 else min (v.getD j 0) (v'.getD j 0)) := by
      refine (g4.feasible hlt _).2 ⟨h2.congr hcols (fun j hj => if_pos hj), fun k' hk' => ?_, fun k' g' hg' j hj => ?_⟩
      · obtain ⟨c1, c2, c3⟩ := h3 k' hk'
        simp only [if_neg (show ¬ f.certSize mode + k' < N by omega)]
        refine ⟨le_min c1 (h3' k' hk').1, (fun g => nomatch g), fun g => (min_le_left _ _).trans (c3 g)⟩
      · have hj' := hlt g' (List.mem_of_getElem? hg') j hj
        simp only [if_pos hj', if_neg (show ¬ f.certSize mode + k' < N by omega)]
        rcases le_total (v.getD (N + k') 0) (v'.getD (N + k') 0) with c | c
        · rw [min_eq_left c]; exact h4 k' g' hg' j hj
        · rw [min_eq_right c, he j hj']; exact h4' k' g' hg' j hj
    have hmem : N + k ∈ ob.map Prod.fst := by rw [b1, hfst, List.mem_range'_1]; omega
    obtain ⟨u, hu, hue⟩ := List.mem_map.1 hmem
    refine absurd (b3 _ hF) (not_le.2 ?_)
    unfold terms
    refine List.sum_lt_sum _ _ (fun e he => mul_le_mul_of_nonneg_left ?_ (b2 e he).le) ⟨u, hu, ?_⟩
    · simp only
      split
      · exact le_rfl
      · exact min_le_left _ _
    · refine mul_lt_mul_of_pos_left ?_ (b2 u hu)
      rw [hue]
      simp only [if_neg (show ¬ N + k < N by omega)]
      exact min_lt_iff.2 (Or.inr (not_le.1 hn))
  obtain ⟨a1, a2, a3⟩ := qsLoop_repeat (f := f) (mode := mode) hw i1 hs (F := m.Feasible) (L := m.vars.length)
    (fun v v' l1 l2 f1 f2 o1 o2 hcut => by
      rw [← hN] at hcut
      have he : ∀ j < N, v.getD j 0 = v'.getD j 0 := fun j hj => by
        rw [← take_getD (v := v) j hj, hcut, take_getD j hj]
      refine List.ext_getElem (by rw [l1, l2]) fun j h1 h2 => ?_
      have e1 : v.getD j 0 = v[j] := List.getD_eq_getElem _ _ h1
      have e2 : v'.getD j 0 = v'[j] := List.getD_eq_getElem _ _ h2
      rw [← e1, ← e2]
      rcases Nat.lt_or_ge j N with hj | hj
      · exact he j hj
      · obtain ⟨k, rfl⟩ := Nat.exists_eq_add_of_le hj
        have hk : k < groups.length := by rw [l1, g4.vars] at h1; omega
        exact le_antisymm (half v v' f1 f2 o1 he k hk) (half v' v f2 f1 o2 (fun j hj => (he j hj).symm) k hk))
    i n m obj r r' rfl g4.maximize g4.objK (fun _ => Iff.rfl) hIn (lib_init hw' hi ind obj hobj).1 (lib_init hw' hi ind obj hobj).2
    (by rw [hrun']; exact hr) (by rw [hrun']; exact hr') hst hst' hcert
  rw [hrun'] at a1 a2 a3
  refine ⟨a1, a2, a3, ?_⟩
  have hin : i + 1 < n := by rw [← a2]; exact (List.getElem?_eq_some_iff.1 hr').1
  unfold solveLast
  rw [a1, List.getLast?_eq_getElem?, a2, a3 (n - 1) (by omega) (by omega)]

/-- **C125.** `QSHeur` with the default updater (any positive weights), any initial objective of the library, any mode, labels and back
end, and a solver that does not lie and answers the same problem in the same way: as soon as two consecutive iterations
report the same certificate, all later iterations report that same result, the run has as many results as iterations,
and `solve` returns that result. -/
theorem C125_converged (hM : M.WF) (hrf : RF.make ρ M il tl fl false = .ok rf)
    (hlp : ∀ lp, (lpSolver lp).Sound lp) (hs : ∀ m, (s m).Sound m) (hl : LabelsOK M labels)
    {w w' : Nat → K} (hw : ∀ i, 0 < w i) (hw' : ∀ i, 0 < w' i) (hi : LibInit w' ini)
    {r r' : ProblemResult (Subsystem K) K} {i : Nat} {run : Run (Subsystem K) K}
    (hrun : solveIter rf.form t (qsHeur rf.form lpSolver (fun _ => s) n ini (inverseResultUpdater w) t mode labels be) = run)
    (hr : run.1[i]? = some r) (hr' : run.1[i + 1]? = some r') (hst : r.status = .success) (hst' : r'.status = .success)
    (hcert : r.cert = r'.cert) :
    run.2 = none ∧ run.1.length = n ∧ (∀ j, i ≤ j → j < n → run.1[j]? = some r') ∧ solveLast run = .ok r' :=
  converged_form (rf_fark hM hrf) (fun groups hg => by
    obtain ⟨groups', q1, hlt⟩ := groups_ok (rfok_built hM hrf) mode (labels := labels)
      (by rw [(make_fields hrf).1]; exact hl) (decide (mode = .max ∧ true = false))
    rw [hg] at q1
    cases q1
    exact hlt) hlp hs hw hw' hi hrun hr hr' hst hst' hcert

/-- **C125 (rewards).** The same for expected rewards. -/
theorem C125_rewards {ρ' : Graph.Rnd} {res : RRF.Result K} (hM : RewardInput M) (h : RRF.reduce ρ ρ' M il tl = .ok res)
    (hlp : ∀ lp, (lpSolver lp).Sound lp) (hs : ∀ m, (s m).Sound m) (hl : LabelsOK res.rrf.rf.sys labels)
    {w w' : Nat → K} (hw : ∀ i, 0 < w i) (hw' : ∀ i, 0 < w' i) (hi : LibInit w' ini)
    {r r' : ProblemResult (RRF.Sub K) K} {i : Nat} {run : Run (RRF.Sub K) K}
    (hrun : solveIter res.rrf.form t (qsHeur res.rrf.form lpSolver (fun _ => s) n ini (inverseResultUpdater w) t mode labels be) = run)
    (hr : run.1[i]? = some r) (hr' : run.1[i + 1]? = some r') (hst : r.status = .success) (hst' : r'.status = .success)
    (hcert : r.cert = r'.cert) :
    run.2 = none ∧ run.1.length = n ∧ (∀ j, i ≤ j → j < n → run.1[j]? = some r') ∧ solveLast run = .ok r' :=
  have bt := rew_built hM h
  converged_form (fun A b hA => rrf_fark bt.ok hA) (fun groups hg => by
    obtain ⟨groups', q1, hlt⟩ := groups_ok bt.ok.ok mode (labels := labels) hl (decide (mode = .max ∧ true = false))
    rw [← groups_same', hg] at q1
    cases q1
    exact hlt) hlp hs hw hw' hi hrun hr hr' hst hst' hcert

/-- the reported certificates are solutions of the system -/
theorem qs_cert_fark {σ : Type} {f : Form σ K}
    (hf : ∀ A b, f.fark t mode = .ok (A, b) → A.cols = f.certSize mode ∧ A.rows ≤ b.length ∧ (A.cols + 1 = A.rows → OnePos A))
    (hlp : ∀ lp, (lpSolver lp).Sound lp) (hs : ∀ m, (s m).Sound m) {upd : List (Nat × List Nat) → Updater K} {r : ProblemResult σ K}
    (hr : r ∈ (solveIter f t (qsHeur f lpSolver (fun _ => s) n ini upd t mode labels be)).1) (hst : r.status = .success) :
    ∃ A b cert, f.fark t mode = .ok (A, b) ∧ r.cert = some cert ∧ cert.length = A.cols ∧ InFark A b (fun j => cert.getD j 0) := by
  obtain ⟨hr, -, -⟩ := solveIter_mem hr
  unfold qsHeur at hr
  split at hr
  · simp at hr
  · rw [List.mem_singleton] at hr
    subst hr
    cases hst
  rename_i m ind hc
  split at hr
  · simp at hr
  rename_i obj ho
  obtain ⟨A, b, ub, groups, g1, -, g3, -, g4, g5⟩ := construct_inv hf hlp hc
  obtain ⟨v, v1, v2, w, hw, rfl⟩ := qsLoop_sound (fun _ m => (hs m).right) n m obj g4.keys rfl (fun x hx => hx) r hr hst
  have g2 := (hf A b g1).1
  have p1' := (g4.poly _ v2).1.congr g2 (fun j hj => take_getD (v := v) j hj)
  refine ⟨A, b, _, g1, rfl, ?_, fun j hj => p1'.nonneg j (by omega), p1'.rows⟩
  rw [List.length_take, v1, g4.vars]; omega

/-! ### C126: more iterations only append -/

theorem qsLoop_prefix {σ : Type} {f : Form σ K} {s : Milp K → Answer K} {mode : Mode} {U : Updater K} (k' : Nat) : ∀ (k : Nat) (m : Milp K) (obj : List (Nat × K)),
    (qsLoop f (fun _ => s) mode U k m obj).1 <+: (qsLoop f (fun _ => s) mode U (k + k') m obj).1 ∧
    ((qsLoop f (fun _ => s) mode U k m obj).2 ≠ none ∨ (qsLoop f (fun _ => s) mode U k m obj).1.length < k ∨
      (∃ r ∈ (qsLoop f (fun _ => s) mode U k m obj).1, r.status ≠ .success) →
      qsLoop f (fun _ => s) mode U (k + k') m obj = qsLoop f (fun _ => s) mode U k m obj) := by
  intro k
  induction k with
  | zero => intro m obj; simp [qsLoop]
  | succ k ih =>
    intro m obj
    rw [show k + 1 + k' = (k + k') + 1 by omega, qsLoop, qsLoop]
    cases hm1 : m.setObjective obj with
    | error e => simp
    | ok m1 =>
    by_cases hopt : (s m1).status = .optimal
    swap
    · simp [hopt]
    simp only [hopt, if_true]
    cases hmk : f.mkSub ((s m1).vec.take (f.certSize mode)) mode with
    | error e => simp
    | ok x =>
    simp only
    cases hstep : (do
            let obj' ← U.update (s m1).vec
            let cs ← U.constraints (s m1).vec
            let m' ← m1.addConstraints cs
            (.ok (m', obj') : Except Err (Milp K × List (Nat × K)))) with
    | error e => simp
    | ok p =>
    obtain ⟨m', obj'⟩ := p
    obtain ⟨h1, h2⟩ := ih m' obj'
    refine ⟨(List.prefix_cons_inj _).2 h1, fun h => ?_⟩
    have : qsLoop f (fun _ => s) mode U (k + k') m' obj' = qsLoop f (fun _ => s) mode U k m' obj' := by
      refine h2 ?_
      rcases h with h | h | ⟨r, hr, h⟩
      · exact Or.inl h
      · exact Or.inr (Or.inl (by simpa using h))
      · rcases List.mem_cons.1 hr with rfl | hr
        · exact absurd rfl h
        · exact Or.inr (Or.inr ⟨r, hr, h⟩)
    simp only [this]

/-- **C126.** `QSHeur` with a solver that answers the same problem in the same way; every form, initial objective and updater: the results with `n`
iterations are the first ones of those with more iterations; and if the run with `n` iterations ended early, with an exception
or with a failure, the longer run is the same. -/
theorem C126_prefix {σ : Type} (f : Form σ K) {upd : List (Nat × List Nat) → Updater K} (n' : Nat) :
    let run := fun n => solveIter f t (qsHeur f lpSolver (fun _ => s) n ini upd t mode labels be)
    (run n).1 <+: (run (n + n')).1 ∧
    ((run n).2 ≠ none ∨ (run n).1.length < n ∨ (∃ r ∈ (run n).1, r.status ≠ .success) → run (n + n') = run n) := by
  intro run
  simp only [run]
  unfold solveIter
  split
  · split
    · unfold qsHeur
      split
      · simp
      · simp
      · split
        · simp
        · exact qsLoop_prefix n' n _ _
    · simp
  · simp

theorem qs_same_start {σ : Type} {f : Form σ K} {upd : List (Nat × List Nat) → Updater K} {i n' : Nat} {run : Nat → Run σ K}
    (hrun : run = fun n => solveIter f t (qsHeur f lpSolver (fun _ => s) n ini upd t mode labels be)) (hn' : i + 2 ≤ n') :
    ∀ j ≤ i + 1, ∀ q, (run n).1[j]? = some q → (run n').1[j]? = some q := by
  intro j hj q hq
  have pre : ∀ a b, (run a).1 <+: (run (a + b)).1 ∧
      ((run a).2 ≠ none ∨ (run a).1.length < a ∨ (∃ r ∈ (run a).1, r.status ≠ .success) → run (a + b) = run a) := by
    intro a b
    rw [hrun]
    exact C126_prefix (n := a) f b
  rcases le_total n n' with h | h
  · obtain ⟨b, rfl⟩ := Nat.exists_eq_add_of_le h
    obtain ⟨tl, ht⟩ := (pre n b).1
    rw [← ht, List.getElem?_append_left (List.getElem?_eq_some_iff.1 hq).1]
    exact hq
  · obtain ⟨b, rfl⟩ := Nat.exists_eq_add_of_le h
    obtain ⟨h1, h2⟩ := pre n' b
    by_cases hlen : (run n').1.length < n'
    · rw [← h2 (Or.inr (Or.inl hlen))]
      exact hq
    · obtain ⟨tl, ht⟩ := h1
      rw [← ht, List.getElem?_append_left (by omega)] at hq
      exact hq

/-- **C126.** With the default updater: once a certificate repeats in a run, `solve` with any number of iterations that includes
the repetition returns the repeated result. -/
theorem C126_stop (hM : M.WF) (hrf : RF.make ρ M il tl fl false = .ok rf)
    (hlp : ∀ lp, (lpSolver lp).Sound lp) (hs : ∀ m, (s m).Sound m) (hl : LabelsOK M labels)
    {w w' : Nat → K} (hw : ∀ i, 0 < w i) (hw' : ∀ i, 0 < w' i) (hi : LibInit w' ini)
    {r r' : ProblemResult (Subsystem K) K} {i : Nat} {run : Nat → Run (Subsystem K) K}
    (hrun : run = fun n => solveIter rf.form t (qsHeur rf.form lpSolver (fun _ => s) n ini (inverseResultUpdater w) t mode labels be))
    (hr : (run n).1[i]? = some r) (hr' : (run n).1[i + 1]? = some r') (hst : r.status = .success) (hst' : r'.status = .success)
    (hcert : r.cert = r'.cert) {n' : Nat} (hn' : i + 2 ≤ n') : solveLast (run n') = .ok r' := by
  exact (C125_converged hM hrf hlp hs hl hw hw' hi (run := run n') (by rw [hrun]) (qs_same_start hrun hn' i (by omega) r hr)
    (qs_same_start hrun hn' (i + 1) le_rfl r' hr') hst hst' hcert).2.2.2

/-- **C126 (rewards).** The same for expected rewards. -/
theorem C126_stop_rewards {ρ' : Graph.Rnd} {res : RRF.Result K} (hM : RewardInput M) (h : RRF.reduce ρ ρ' M il tl = .ok res)
    (hlp : ∀ lp, (lpSolver lp).Sound lp) (hs : ∀ m, (s m).Sound m) (hl : LabelsOK res.rrf.rf.sys labels)
    {w w' : Nat → K} (hw : ∀ i, 0 < w i) (hw' : ∀ i, 0 < w' i) (hi : LibInit w' ini)
    {r r' : ProblemResult (RRF.Sub K) K} {i : Nat} {run : Nat → Run (RRF.Sub K) K}
    (hrun : run = fun n => solveIter res.rrf.form t (qsHeur res.rrf.form lpSolver (fun _ => s) n ini (inverseResultUpdater w) t mode labels be))
    (hr : (run n).1[i]? = some r) (hr' : (run n).1[i + 1]? = some r') (hst : r.status = .success) (hst' : r'.status = .success)
    (hcert : r.cert = r'.cert) {n' : Nat} (hn' : i + 2 ≤ n') : solveLast (run n') = .ok r' := by
  exact (C125_rewards hM h hlp hs hl hw hw' hi (run := run n') (by rw [hrun]) (qs_same_start hrun hn' i (by omega) r hr)
    (qs_same_start hrun hn' (i + 1) le_rfl r' hr') hst hst' hcert).2.2.2

/-- what the proofs about runs need to know about the relaxed program: an optimal solution is determined by its certificate -/
theorem qs_uniq {σ : Type} {f : Form σ K}
    (hf : ∀ A b, f.fark t mode = .ok (A, b) → A.cols = f.certSize mode ∧ A.rows ≤ b.length ∧ (A.cols + 1 = A.rows → OnePos A))
    (hgr : ∀ groups, groupsFromLabels f mode labels (decide (mode = .max ∧ true = false)) = .ok groups →
      ∀ g ∈ groups, ∀ w ∈ g, w < f.certSize mode)
    (hlp : ∀ lp, (lpSolver lp).Sound lp) {m : Milp K} {ind : List (Nat × List Nat)}
    (hc : constructMILP f lpSolver t mode labels true none be = .ok (some (m, ind))) :
    (ind.map Prod.fst).Nodup ∧ m.maximize = false ∧ ObjK m ∧ ObjIn (ind.map Prod.fst) m ∧
    ∀ v v' : List K, v.length = m.vars.length → v'.length = m.vars.length → m.Feasible (fun j => v.getD j 0) → m.Feasible (fun j => v'.getD j 0) →
      (∃ obj : List (Nat × K), obj.map Prod.fst = ind.map Prod.fst ∧ (∀ t ∈ obj, 0 < t.2) ∧ ∀ x, m.Feasible x → terms obj (fun j => v.getD j 0) ≤ terms obj x) →
      (∃ obj : List (Nat × K), obj.map Prod.fst = ind.map Prod.fst ∧ (∀ t ∈ obj, 0 < t.2) ∧ ∀ x, m.Feasible x → terms obj (fun j => v'.getD j 0) ≤ terms obj x) →
      v.take (f.certSize mode) = v'.take (f.certSize mode) → v = v' := by
  obtain ⟨A, b, ub, groups, g1, gub, g3, -, g4, -⟩ := construct_inv hf hlp hc
  have hlt := hgr groups g3
  obtain ⟨i1, i2, i3⟩ := built_ind g4
  set N := f.certSize mode with hN
  have hfst : ind.map Prod.fst = List.range' N groups.length := by
    rw [g4.ind, List.map_map]
    show (groups.zipIdx N).map Prod.snd = _
    rw [List.zipIdx_map_snd]
  have hIn : ObjIn (ind.map Prod.fst) m := by
    intro o ho u hu hnu
    have h1 := evalE_single' (g4.objK o ho).1 hu
    have h2 := g4.obj (fun j => if j = u.1 then 1 else 0)
    unfold objVal at h2
    rw [ho, Option.getD_some, h1] at h2
    rw [h2]
    refine sum_eq_zero fun k hk => if_neg fun h => hnu ?_
    rw [hfst, List.mem_range'_1, ← h]
    have := mem_range.1 hk
    omega
  have hcols := (hf A b g1).1
  -- the indicators of a solution are determined by its certificate
  have half : ∀ v v' : List K, m.Feasible (fun j => v.getD j 0) → m.Feasible (fun j => v'.getD j 0) →
      (∃ obj : List (Nat × K), obj.map Prod.fst = ind.map Prod.fst ∧ (∀ t ∈ obj, 0 < t.2) ∧
        ∀ x, m.Feasible x → terms obj (fun j => v.getD j 0) ≤ terms obj x) →
      (∀ j < N, v.getD j 0 = v'.getD j 0) → ∀ k < groups.length, v.getD (N + k) 0 ≤ v'.getD (N + k) 0 := by
    rintro v v' hv hv' ⟨ob, b1, b2, b3⟩ he k hk
    by_contra hn
    obtain ⟨h2, h3, h4⟩ := (g4.feasible hlt _).1 hv
    obtain ⟨-, h3', h4'⟩ := (g4.feasible hlt _).1 hv'
    have hF : m.Feasible (fun j => if j < N then v.getD j 0 else min (v.getD j 0) (v'.getD j 0)) := by
      refine (g4.feasible hlt _).2 ⟨h2.congr hcols (fun j hj => if_pos hj), fun k' hk' => ?_, fun k' g' hg' j hj => ?_⟩
      · obtain ⟨c1, c2, c3⟩ := h3 k' hk'
        simp only [if_neg (show ¬ f.certSize mode + k' < N by omega)]
        refine ⟨le_min c1 (h3' k' hk').1, (fun g => nomatch g), fun g => (min_le_left _ _).trans (c3 g)⟩
      · have hj' := hlt g' (List.mem_of_getElem? hg') j hj
        simp only [if_pos hj', if_neg (show ¬ f.certSize mode + k' < N by omega)]
        rcases le_total (v.getD (N + k') 0) (v'.getD (N + k') 0) with c | c
        · rw [min_eq_left c]; exact h4 k' g' hg' j hj
        · rw [min_eq_right c, he j hj']; exact h4' k' g' hg' j hj
    have hmem : N + k ∈ ob.map Prod.fst := by rw [b1, hfst, List.mem_range'_1]; omega
    obtain ⟨u, hu, hue⟩ := List.mem_map.1 hmem
    refine absurd (b3 _ hF) (not_le.2 ?_)
    unfold terms
    refine List.sum_lt_sum _ _ (fun e he => mul_le_mul_of_nonneg_left ?_ (b2 e he).le) ⟨u, hu, ?_⟩
    · simp only
      split
      · exact le_rfl
      · exact min_le_left _ _
    · refine mul_lt_mul_of_pos_left ?_ (b2 u hu)
      rw [hue]
      simp only [if_neg (show ¬ N + k < N by omega)]
      exact min_lt_iff.2 (Or.inr (not_le.1 hn))
  refine ⟨i1, g4.maximize, g4.objK, hIn, fun v v' l1 l2 f1 f2 o1 o2 hcut => ?_⟩
  have he : ∀ j < N, v.getD j 0 = v'.getD j 0 := fun j hj => by
    rw [← take_getD (v := v) j hj, hcut, take_getD j hj]
  refine List.ext_getElem (by rw [l1, l2]) fun j h1 h2 => ?_
  have e1 : v.getD j 0 = v[j] := List.getD_eq_getElem _ _ h1
  have e2 : v'.getD j 0 = v'[j] := List.getD_eq_getElem _ _ h2
  rw [← e1, ← e2]
  rcases Nat.lt_or_ge j N with hj | hj
  · exact he j hj
  · obtain ⟨k, rfl⟩ := Nat.exists_eq_add_of_le hj
    have hk : k < groups.length := by rw [l1, g4.vars] at h1; omega
    exact le_antisymm (half v v' f1 f2 o1 he k hk) (half v' v f2 f1 o2 (fun j hj => (he j hj).symm) k hk)

/-! ### the objective is all that an iteration hands on -/

theorem set_set {d : Dict Nat K} {k : Nat} {a b : K} : (d.set k b).set k a = d.set k a := by
  induction d with
  | nil => simp [Dict.set]
  | cons p d ih =>
    obtain ⟨k', c⟩ := p
    by_cases h : k' = k
    · simp [Dict.set, h]
    · simp [Dict.set, h, ih]

theorem set_comm {d : Dict Nat K} {k k' : Nat} {a b : K} (hne : k ≠ k') (hk : k ∈ Dict.keys d) :
    (d.set k' b).set k a = (d.set k a).set k' b := by
  induction d with
  | nil => cases hk
  | cons p d ih =>
    obtain ⟨k0, c⟩ := p
    by_cases h : k0 = k
    · subst h
      simp [Dict.set, hne]
    · have hk' : k ∈ Dict.keys d := by
        simp only [Dict.keys, List.map_cons, List.mem_cons] at hk
        exact hk.resolve_left fun g => h g.symm
      by_cases h' : k0 = k'
      · subst h'
        simp [Dict.set, h]
      · simp [Dict.set, h, h', ih hk']

theorem fold_set_comm {k : Nat} {a : K} : ∀ (e : List (Nat × K)) (d : Dict Nat K), k ∉ e.map Prod.fst → k ∈ Dict.keys d →
    (e.foldl (fun d t => Dict.set d t.1 t.2) d).set k a = e.foldl (fun d t => Dict.set d t.1 t.2) (d.set k a) := by
  intro e
  induction e with
  | nil => intro d _ _; rfl
  | cons t e ih =>
    intro d hn hk
    simp only [List.map_cons, List.mem_cons, not_or] at hn
    rw [List.foldl_cons, List.foldl_cons, ih _ hn.2 (Dict.mem_keys_set.2 (by simp [hk])), set_comm hn.1 hk]

/-- the coefficients written first do not matter -/
theorem fold_set_absorb : ∀ (e e0 : List (Nat × K)) (d : Dict Nat K), e0.map Prod.fst = e.map Prod.fst → (e.map Prod.fst).Nodup →
    e.foldl (fun d t => Dict.set d t.1 t.2) (e0.foldl (fun d t => Dict.set d t.1 t.2) d) = e.foldl (fun d t => Dict.set d t.1 t.2) d := by
  intro e
  induction e with
  | nil =>
    intro e0 d h _
    rw [List.map_nil, List.map_eq_nil_iff] at h
    rw [h]
    rfl
  | cons t e ih =>
    intro e0 d h hn
    cases e0 with
    | nil => cases h
    | cons u e0 =>
      simp only [List.map_cons, List.cons.injEq] at h
      simp only [List.map_cons, List.nodup_cons] at hn
      rw [List.foldl_cons, List.foldl_cons, List.foldl_cons, h.1, fold_set_comm _ _ (by rw [h.2]; exact hn.1)
        (Dict.mem_keys_set.2 (by simp)), set_set, ih _ _ h.2 hn.2]

theorem setObjective_absorb {m m1 : Milp K} {e e0 : List (Nat × K)} (h : m.setObjective e0 = .ok m1)
    (hk : e0.map Prod.fst = e.map Prod.fst) (hn : (e.map Prod.fst).Nodup) : m1.setObjective e = m.setObjective e := by
  obtain ⟨-, -, -, -, -, hv0, -⟩ := setObjective_inv h
  have hv : ∀ t ∈ e, t.1 < m.vars.length := fun t ht => by
    have : t.1 ∈ e0.map Prod.fst := by rw [hk]; exact List.mem_map_of_mem ht
    obtain ⟨u, hu, hue⟩ := List.mem_map.1 this
    rw [← hue]
    exact hv0 u hu
  cases hb : m.be with
  | gurobi =>
    simp only [setObjective, assertExpr, if_pos hv0, bind, Except.bind, hb] at h
    cases h
    simp only [setObjective, assertExpr, if_pos hv, bind, Except.bind, hb]
  | pulp =>
    cases ho : m.obj with
    | none =>
      simp only [setObjective, assertExpr, if_pos hv0, bind, Except.bind, hb, ho] at h
      cases h
      simp only [setObjective, assertExpr, if_pos hv, bind, Except.bind, hb, ho, expr, fold_set_absorb _ _ _ hk hn]
    | some o =>
      simp only [setObjective, assertExpr, if_pos hv0, bind, Except.bind, hb, ho] at h
      cases h
      simp only [setObjective, assertExpr, if_pos hv, bind, Except.bind, hb, ho, fold_set_absorb _ _ _ hk hn]

theorem qsLoop_reset {σ : Type} {f : Form σ K} {solver : Nat → Milp K → Answer K} {mode : Mode} {U : Updater K} {m m1 : Milp K} {e e0 : List (Nat × K)}
    (h : m.setObjective e0 = .ok m1) (hk : e0.map Prod.fst = e.map Prod.fst) (hn : (e.map Prod.fst).Nodup) (k : Nat) :
    qsLoop f solver mode U k m1 e = qsLoop f solver mode U k m e := by
  cases k with
  | zero => rfl
  | succ k => rw [qsLoop, qsLoop, setObjective_absorb h hk hn]

/-- a run cut after a result -/
theorem qsLoop_split {σ : Type} {f : Form σ K} {s : Milp K → Answer K} {mode : Mode} {ind : List (Nat × List Nat)} {w : Nat → K}
    (hw : ∀ i, 0 < w i) (hnd : (ind.map Prod.fst).Nodup) (hs : ∀ m, (s m).Sound m) {m : Milp K} (hmx : m.maximize = false) (hK : ObjK m)
    (hI : ObjIn (ind.map Prod.fst) m) :
    ∀ (j k : Nat) (o : List (Nat × K)) (r : ProblemResult σ K), o.map Prod.fst = ind.map Prod.fst → (∀ t ∈ o, 0 < t.2) →
      (qsLoop f (fun _ => s) mode (inverseResultUpdater w ind) k m o).1[j]? = some r → r.status = .success →
      ∃ v, v.length = m.vars.length ∧ m.Feasible (fun j => v.getD j 0) ∧
        (∃ obj : List (Nat × K), obj.map Prod.fst = ind.map Prod.fst ∧ (∀ t ∈ obj, 0 < t.2) ∧ ∀ x, m.Feasible x → terms obj (fun j => v.getD j 0) ≤ terms obj x) ∧
        (∃ x, f.mkSub (v.take (f.certSize mode)) mode = .ok x ∧ r = ⟨.success, some x,
          some (((v.drop (f.certSize mode)).countP fun x => decide (0 < x) : Nat) : K), some (v.take (f.certSize mode))⟩) ∧
        (j + 1 < (qsLoop f (fun _ => s) mode (inverseResultUpdater w ind) k m o).1.length → ∃ o', (inverseResultUpdater w ind).update v = .ok o') ∧
        ∀ o', (inverseResultUpdater w ind).update v = .ok o' → j < k ∧ ∃ pre, pre.length = j + 1 ∧
          qsLoop f (fun _ => s) mode (inverseResultUpdater w ind) k m o =
            (pre ++ (qsLoop f (fun _ => s) mode (inverseResultUpdater w ind) (k - (j + 1)) m o').1,
              (qsLoop f (fun _ => s) mode (inverseResultUpdater w ind) (k - (j + 1)) m o').2) := by
  have hcon : ∀ v, (inverseResultUpdater w ind).constraints v = .ok [] := fun _ => rfl
  intro j
  induction j with
  | zero =>
    intro k o r hko hpo hr hst
    cases k with
    | zero => simp [qsLoop] at hr
    | succ k =>
    rw [qsLoop] at hr ⊢
    cases hm1 : m.setObjective o with
    | error e => simp [hm1] at hr
    | ok m1 =>
    simp only [hm1] at hr ⊢
    by_cases hopt : (s m1).status = .optimal
    swap
    · simp only [hopt, if_false, List.getElem?_cons_zero, Option.some.injEq] at hr
      subst hr
      cases hst
    obtain ⟨o1, o2, o3, o4, o5, -⟩ := setObjective_inv hm1
    have hno : (o.map Prod.fst).Nodup := by rw [hko]; exact hnd
    obtain ⟨-, hval⟩ := setObjective_val hm1 hK hno (by rw [hko]; exact hI)
    obtain ⟨q1, q2, -⟩ := (hs m1).optimal hopt
    simp only [hopt, if_true] at hr ⊢
    cases hmk : f.mkSub ((s m1).vec.take (f.certSize mode)) mode with
    | error e => simp [hmk] at hr
    | ok x =>
    simp only [hmk] at hr ⊢
    refine ⟨(s m1).vec, by rw [q2, o1], (feasible_congr o1 o2 _).1 q1.1, ⟨o, hko, hpo, fun y hy => ?_⟩, ⟨x, hmk, ?_⟩, ?_, ?_⟩
    · have := q1.2 y ((feasible_congr o1 o2 _).2 hy)
      rw [o5, hmx] at this
      simp only [Bool.false_eq_true, if_false] at this
      rwa [hval, hval] at this
    · cases hup : (inverseResultUpdater w ind).update (s m1).vec with
      | error e => simpa [hup, bind, Except.bind] using hr.symm
      | ok o' => simpa [hup, hcon, bind, Except.bind, addConstraints, pure, Except.pure] using hr.symm
    · intro hlen
      cases hup : (inverseResultUpdater w ind).update (s m1).vec with
      | error e => simp [hup, bind, Except.bind] at hlen
      | ok o' => exact ⟨o', rfl⟩
    · intro o' hup
      refine ⟨by omega, ?_⟩
      simp only [hup, hcon, bind, Except.bind, addConstraints, List.foldlM_nil, pure, Except.pure]
      have hk' : o'.map Prod.fst = ind.map Prod.fst := (C44_positive hw hup).1
      rw [qsLoop_reset hm1 (by rw [hko, hk']) (by rw [hk']; exact hnd)]
      exact ⟨[_], rfl, rfl⟩
  | succ j ih =>
    intro k o r hko hpo hr hst
    cases k with
    | zero => simp [qsLoop] at hr
    | succ k =>
    rw [qsLoop] at hr ⊢
    cases hm1 : m.setObjective o with
    | error e => simp [hm1] at hr
    | ok m1 =>
    simp only [hm1] at hr ⊢
    by_cases hopt : (s m1).status = .optimal
    swap
    · simp [hopt] at hr
    simp only [hopt, if_true] at hr ⊢
    cases hmk : f.mkSub ((s m1).vec.take (f.certSize mode)) mode with
    | error e => simp [hmk] at hr
    | ok x =>
    simp only [hmk] at hr ⊢
    cases hup : (inverseResultUpdater w ind).update (s m1).vec with
    | error e => simp [hup, bind, Except.bind] at hr
    | ok obj1 =>
    obtain ⟨p1, p2⟩ := C44_positive hw hup
    simp only [hup, hcon, bind, Except.bind, addConstraints, List.foldlM_nil, pure, Except.pure,
      qsLoop_reset hm1 (hko.trans p1.symm) (by rw [p1]; exact hnd), List.getElem?_cons_succ] at hr ⊢
    obtain ⟨v, a1, a2, a3, a4, a5, a6⟩ := ih k obj1 r p1 p2 hr hst
    refine ⟨v, a1, a2, a3, a4, fun hlen => a5 (by simpa using hlen), fun o' ho' => ?_⟩
    obtain ⟨b1, pre, b2, b3⟩ := a6 o' ho'
    refine ⟨by omega, ⟨.success, some x, some ((((s m1).vec.drop (f.certSize mode)).countP fun x => decide (0 < x) : Nat) : K),
      some ((s m1).vec.take (f.certSize mode))⟩ :: pre, by simp [b2], ?_⟩
    rw [show k + 1 - (j + 1 + 1) = k - (j + 1) by omega, b3]
    rfl

theorem qsLoop_length {σ : Type} {f : Form σ K} {solver : Nat → Milp K → Answer K} {mode : Mode} {U : Updater K} : ∀ (k : Nat) (m : Milp K) (obj : List (Nat × K)),
    (qsLoop f solver mode U k m obj).1.length ≤ k := by
  intro k
  induction k with
  | zero => intro m obj; simp [qsLoop]
  | succ k ih =>
    intro m obj
    rw [qsLoop]
    split
    · simp
    dsimp only
    split
    · split
      · simp
      · split
        · simp
        · simpa using ih _ _
    · simp

/-- C125 for both kinds of forms: periodicity -/
theorem periodic_form {σ : Type} {f : Form σ K}
    (hf : ∀ A b, f.fark t mode = .ok (A, b) → A.cols = f.certSize mode ∧ A.rows ≤ b.length ∧ (A.cols + 1 = A.rows → OnePos A))
    (hgr : ∀ groups, groupsFromLabels f mode labels (decide (mode = .max ∧ true = false)) = .ok groups →
      ∀ g ∈ groups, ∀ w ∈ g, w < f.certSize mode)
    (hlp : ∀ lp, (lpSolver lp).Sound lp) (hs : ∀ m, (s m).Sound m)
    {w w' : Nat → K} (hw : ∀ i, 0 < w i) (hw' : ∀ i, 0 < w' i) (hi : LibInit w' ini)
    {r r' : ProblemResult σ K} {i p : Nat} (hp : 0 < p) {run : Run σ K}
    (hrun : solveIter f t (qsHeur f lpSolver (fun _ => s) n ini (inverseResultUpdater w) t mode labels be) = run)
    (hr : run.1[i]? = some r) (hr' : run.1[i + p]? = some r') (hst : r.status = .success) (hst' : r'.status = .success)
    (hcert : r.cert = r'.cert) :
    run.2 = none ∧ run.1.length = n ∧ ∀ j, i ≤ j → j + p < n → run.1[j + p]? = run.1[j]? := by
  have hmem : r' ∈ (solveIter f t (qsHeur f lpSolver (fun _ => s) n ini (inverseResultUpdater w) t mode labels be)).1 := by
    rw [hrun]; exact List.mem_of_getElem? hr'
  obtain ⟨hq, ht0, ht1⟩ := solveIter_mem hmem
  have hq' := hrun
  unfold solveIter at hq'
  rw [if_pos ht0, if_pos ht1] at hq'
  unfold qsHeur at hq hq'
  split at hq
  · simp at hq
  · rw [List.mem_singleton] at hq
    subst hq
    cases hst'
  rename_i m ind hc
  split at hq
  · simp at hq
  rename_i obj hobj
  simp only [hc, hobj] at hq'
  obtain ⟨u1, u2, u3, u4, uniq⟩ := qs_uniq hf hgr hlp hc
  obtain ⟨l1, l2⟩ := lib_init hw' hi ind obj hobj
  have hlen : i + p < run.1.length := (List.getElem?_eq_some_iff.1 hr').1
  obtain ⟨v, a1, a2, a3, ⟨x, a4, a4'⟩, a5, a6⟩ := qsLoop_split (f := f) (mode := mode) hw u1 hs u2 u3 u4 i n obj r l1 l2 (by rw [hq']; exact hr) hst
  obtain ⟨v', b1, b2, b3, ⟨x', b4, b4'⟩, b5, b6⟩ := qsLoop_split (f := f) (mode := mode) hw u1 hs u2 u3 u4 (i + p) n obj r' l1 l2 (by rw [hq']; exact hr') hst'
  have hvv : v = v' := uniq v v' a1 b1 a2 b2 a3 b3 (by rw [a4', b4'] at hcert; simpa using hcert)
  subst hvv
  obtain ⟨o', ho'⟩ := a5 (by rw [hq']; omega)
  obtain ⟨c1, pre, c2, c3⟩ := a6 o' ho'
  obtain ⟨d1, pre', d2, d3⟩ := b6 o' ho'
  rw [hq'] at c3 d3
  have hrr : r' = r := by
    rw [a4] at b4
    cases b4
    rw [a4', b4']
  obtain ⟨e1, e2⟩ := qsLoop_prefix (f := f) (s := s) (mode := mode) (U := inverseResultUpdater w ind) p (n - (i + p + 1)) m o'
  rw [show n - (i + p + 1) + p = n - (i + 1) by omega] at e1 e2
  set Q := qsLoop f (fun _ => s) mode (inverseResultUpdater w ind) (n - (i + 1)) m o' with hQ
  set Q' := qsLoop f (fun _ => s) mode (inverseResultUpdater w ind) (n - (i + p + 1)) m o' with hQ'
  have hne : ¬ (Q'.2 ≠ none ∨ Q'.1.length < n - (i + p + 1) ∨ ∃ r ∈ Q'.1, r.status ≠ .success) := fun g => by
    have h1 := congrArg (fun R : Run σ K => R.1.length) c3
    have h2 := congrArg (fun R : Run σ K => R.1.length) d3
    simp only [List.length_append, c2, d2, e2 g] at h1 h2
    omega
  simp only [not_or, not_lt, ne_eq, not_not] at hne
  have hL : Q'.1.length = n - (i + p + 1) := le_antisymm (qsLoop_length _ _ _) hne.2.1
  refine ⟨by rw [d3]; exact hne.1, by rw [d3]; simp only [List.length_append, d2, hL]; omega, fun j hj hjn => ?_⟩
  rcases Nat.eq_or_lt_of_le hj with rfl | hj
  · rw [hr, hr', hrr]
  · obtain ⟨k, rfl⟩ := Nat.exists_eq_add_of_lt hj
    have s1 : run.1[i + k + 1 + p]? = Q'.1[k]? := by
      rw [d3, List.getElem?_append_right (by omega), d2]
      congr 1
      omega
    have s2 : run.1[i + k + 1]? = Q.1[k]? := by
      rw [c3, List.getElem?_append_right (by omega), c2]
      congr 1
      omega
    obtain ⟨rest, he⟩ := e1
    rw [s1, s2, ← he, List.getElem?_append_left (by rw [hL]; omega)]

/-- **C125.** Periodicity: if an iteration reports the certificate of an earlier one (`p` iterations before), all later iterations repeat the
results in between, again and again; no exception is raised and there are as many results as iterations. -/
theorem C125_periodic (hM : M.WF) (hrf : RF.make ρ M il tl fl false = .ok rf)
    (hlp : ∀ lp, (lpSolver lp).Sound lp) (hs : ∀ m, (s m).Sound m) (hl : LabelsOK M labels)
    {w w' : Nat → K} (hw : ∀ i, 0 < w i) (hw' : ∀ i, 0 < w' i) (hi : LibInit w' ini)
    {r r' : ProblemResult (Subsystem K) K} {i p : Nat} (hp : 0 < p) {run : Run (Subsystem K) K}
    (hrun : solveIter rf.form t (qsHeur rf.form lpSolver (fun _ => s) n ini (inverseResultUpdater w) t mode labels be) = run)
    (hr : run.1[i]? = some r) (hr' : run.1[i + p]? = some r') (hst : r.status = .success) (hst' : r'.status = .success)
    (hcert : r.cert = r'.cert) :
    run.2 = none ∧ run.1.length = n ∧ ∀ j, i ≤ j → j + p < n → run.1[j + p]? = run.1[j]? :=
  periodic_form (rf_fark hM hrf) (fun groups hg => by
    obtain ⟨groups', q1, hlt⟩ := groups_ok (rfok_built hM hrf) mode (labels := labels)
      (by rw [(make_fields hrf).1]; exact hl) (decide (mode = .max ∧ true = false))
    rw [hg] at q1
    cases q1
    exact hlt) hlp hs hw hw' hi hp hrun hr hr' hst hst' hcert

/-- **C125 (rewards).** Periodicity for expected rewards. -/
theorem C125_periodic_rewards {ρ' : Graph.Rnd} {res : RRF.Result K} (hM : RewardInput M) (h : RRF.reduce ρ ρ' M il tl = .ok res)
    (hlp : ∀ lp, (lpSolver lp).Sound lp) (hs : ∀ m, (s m).Sound m) (hl : LabelsOK res.rrf.rf.sys labels)
    {w w' : Nat → K} (hw : ∀ i, 0 < w i) (hw' : ∀ i, 0 < w' i) (hi : LibInit w' ini)
    {r r' : ProblemResult (RRF.Sub K) K} {i p : Nat} (hp : 0 < p) {run : Run (RRF.Sub K) K}
    (hrun : solveIter res.rrf.form t (qsHeur res.rrf.form lpSolver (fun _ => s) n ini (inverseResultUpdater w) t mode labels be) = run)
    (hr : run.1[i]? = some r) (hr' : run.1[i + p]? = some r') (hst : r.status = .success) (hst' : r'.status = .success)
    (hcert : r.cert = r'.cert) :
    run.2 = none ∧ run.1.length = n ∧ ∀ j, i ≤ j → j + p < n → run.1[j + p]? = run.1[j]? :=
  have bt := rew_built hM h
  periodic_form (fun A b hA => rrf_fark bt.ok hA) (fun groups hg => by
    obtain ⟨groups', q1, hlt⟩ := groups_ok bt.ok.ok mode (labels := labels) hl (decide (mode = .max ∧ true = false))
    rw [← groups_same', hg] at q1
    cases q1
    exact hlt) hlp hs hw hw' hi hp hrun hr hr' hst hst' hcert

end

/-- the only accepted certificate for the threshold 1/2 -/
theorem exactEx_half : ∃ rf, RF.make exRnd exactEx "init" "goal" "fail" false = .ok rf ∧ check rf .min .ge (1/2) [1/2] 0 = .ok true ∧
    ∀ v : List ℚ, check rf .min .ge (1/2) v 0 = .ok true → v = [1/2] := by
  obtain ⟨rf, h1, h2⟩ := exists_of_ok_and (x := RF.make exRnd exactEx "init" "goal" "fail" false)
    (p := fun rf : RF ℚ => decide (check rf .min .ge (1/2) [1/2] 0 = .ok true) &&
      (match constraintSet rf .min .ge (1/2) with
        | .ok (m, rhs) => decide (m.rows = 2 ∧ m.cols = 1 ∧ m.at_ 0 0 = 1/2 ∧ m.at_ 1 0 = -1 ∧ rhs = [1/4, -1/2])
        | .error _ => false)) (by decide +kernel)
  rw [Bool.and_eq_true, decide_eq_true_eq] at h2
  refine ⟨rf, h1, h2.1, fun v hv => ?_⟩
  obtain ⟨-, h3⟩ := h2
  unfold check at hv
  rw [if_pos (by norm_num)] at hv
  split at h3
  swap
  · cases h3
  rename_i m rhs e
  rw [decide_eq_true_eq] at h3
  obtain ⟨k1, k2, k3, k4, rfl⟩ := h3
  simp only [e, bind, Except.bind, k2] at hv
  by_cases hl : v.length = 1
  swap
  · simp [hl] at hv
  obtain ⟨c, rfl⟩ := List.length_eq_one_iff.1 hl
  rw [if_pos hl] at hv
  cases he : ecCheck rf .min .ge [c] (List.range 1) with
  | error e => rw [he] at hv; cases hv
  | ok b =>
  cases b with
  | false => rw [he] at hv; cases hv
  | true =>
  simp only [he, Except.ok.injEq, decide_eq_true_eq] at hv
  have a0 := hv 0 (by rw [k1]; norm_num)
  have a1 := hv 1 (by rw [k1]; norm_num)
  simp [Mat.dot, k1, k2, k3, k4, List.range_succ] at a0 a1
  rw [show c = 1/2 by linarith]

/-- the hypotheses of `C125_converged` are met: two iterations report the certificate 1/2 -/
theorem exactEx_repeat : ∃ (rf : RF ℚ) (s : Milp ℚ → Answer ℚ) (r r' : ProblemResult (Subsystem ℚ) ℚ) (run : Run (Subsystem ℚ) ℚ), exactEx.WF ∧
    RF.make exRnd exactEx "init" "goal" "fail" false = .ok rf ∧ (∀ m, (s m).Sound m) ∧ LibInit (fun _ => (1 : ℚ)) allOnes ∧
    LabelsOK exactEx (some ["a"]) ∧
    solveIter rf.form (1/2) (qsHeur rf.form s (fun _ => s) 5 allOnes (inverseResultUpdater fun _ => 1) (1/2) .min (some ["a"]) .pulp) = run ∧
    run.1[0]? = some r ∧ run.1[1]? = some r' ∧ r.status = .success ∧ r'.status = .success ∧ r.cert = r'.cert := by
  obtain ⟨rf, hrf, h4, huniq⟩ := exactEx_half
  obtain ⟨s, hs⟩ := exists_exact ℚ
  obtain ⟨x', res, n, q1, q2, q3⟩ := C45_returns (ρ' := exRnd) (mode := .min) exactEx_wf exactEx_labS hrf (Or.inl rfl) exactEx_labA rfl
    (fun g => by cases g) ratR (t := 1/2) (by norm_num) (fun g => nomatch g) h4
  have hn : n ∈ res.rf.sys.labelled "init" := ⟨_, q3, by simp⟩
  have hW : Witness rf "init" "goal" ratR .min (1/2) (some ["a"]) _ :=
    ⟨[1/2], .min, true, x', _, res, n, q1, q2, hn, C45_min_ge exactEx_wf exactEx_labS hrf h4 q1 q2 ratR hn, rfl⟩
  obtain ⟨-, ⟨r, e, hin⟩ | ⟨hlen, hall⟩⟩ := C42_returns (t := 1/2) (n := 5) (mode := .min) exactEx_wf hrf ratR hs (fun _ => hs) (by norm_num) (by norm_num)
    exactEx_init exactEx_labels (w := fun _ => (1 : ℚ)) (fun _ => one_pos) (Or.inl rfl) (upd := inverseResultUpdater fun _ => 1) (Or.inl rfl)
  · exact absurd hW (C41_infeasible exactEx_wf exactEx_labS hrf ratR (fun m => (hs m).toSound) (fun _ m => (hs m).toSound) exactEx_labels
      (w := fun _ => (1 : ℚ)) (fun _ => one_pos) (Or.inl rfl) (Or.inl rfl) (by rw [e]; exact List.mem_singleton_self r) hin _)
  · have hc : ∀ r ∈ (solveIter rf.form (1/2) (qsHeur rf.form s (fun _ => s) 5 allOnes (inverseResultUpdater fun _ => 1) (1/2) .min
        (some ["a"]) .pulp)).1, r.cert = some [1/2] := fun r hr => by
      obtain ⟨cert, x, k, e, -, hch, -⟩ := C41_sound exactEx_wf exactEx_labS hrf (fun m => (hs m).toSound) (fun _ m => (hs m).toSound) hr (hall r hr)
      rw [e, huniq cert hch]
    exact ⟨rf, s, _, _, _, exactEx_wf, hrf, fun m => (hs m).toSound, Or.inl rfl, exactEx_labels, rfl, List.getElem?_eq_getElem (by omega),
      List.getElem?_eq_getElem (by omega), hall _ (List.getElem_mem _), hall _ (List.getElem_mem _),
      (hc _ (List.getElem_mem _)).trans (hc _ (List.getElem_mem _)).symm⟩

/-- so are those of `C126_stop`: two iterations are as good as a thousand -/
example : ∃ (rf : RF ℚ) (s : Milp ℚ → Answer ℚ) (r : ProblemResult (Subsystem ℚ) ℚ), r.status = .success ∧
    ∀ n ≥ 2, solveLast (solveIter rf.form (1/2) (qsHeur rf.form s (fun _ => s) n allOnes (inverseResultUpdater fun _ => 1) (1/2) .min
      (some ["a"]) .pulp)) = .ok r := by
  obtain ⟨rf, s, r, r', run, h1, h2, h3, h4, h5, h6, h7, h8, h9, h10, h11⟩ := exactEx_repeat
  subst h6
  exact ⟨rf, s, r', h10, fun n hn => C126_stop (n := 5) h1 h2 h3 h3 h5 (fun _ => one_pos) (fun _ => one_pos) h4 rfl h7 h8 h9 h10 h11 hn⟩

/-- and those of `C125_periodic`, with distance one -/
example : ∃ (rf : RF ℚ) (s : Milp ℚ → Answer ℚ) (run : Run (Subsystem ℚ) ℚ),
    solveIter rf.form (1/2) (qsHeur rf.form s (fun _ => s) 5 allOnes (inverseResultUpdater fun _ => 1) (1/2) .min (some ["a"]) .pulp) = run ∧
    run.2 = none ∧ run.1.length = 5 ∧ ∀ j, 0 ≤ j → j + 1 < 5 → run.1[j + 1]? = run.1[j]? := by
  obtain ⟨rf, s, r, r', run, h1, h2, h3, h4, h5, h6, h7, h8, h9, h10, h11⟩ := exactEx_repeat
  exact ⟨rf, s, run, h6, C125_periodic h1 h2 h3 h3 h5 (fun _ => one_pos) (fun _ => one_pos) h4 one_pos h6 h7 h8 h9 h10 h11⟩

/-- `rwSys 2`, as a program -/
def rwSys2 : Sys ℚ :=
  { mkSys (⟨4, 3, [((0, 1), 1/2), ((0, 2), 1/2), ((1, 1), 1), ((2, 2), 1), ((3, 2), 1)]⟩ : Dok ℚ) rwI
      (IDict.mk' [("start", [0]), ("goal", [2])] true) with rew := some [1, 2, 3, 2] }

theorem rwSys2_eq : rwSys2 = rwSys 2 := rfl

/-- the only solution for the threshold 9/2 -/
theorem rwSys2_half : ∃ res, RRF.reduce exRnd exRnd (rwSys 2) "start" "goal" = .ok res ∧ ∃ A b, res.rrf.form.fark (9/2) .min = .ok (A, b) ∧
    A.cols = 3 ∧ InFark A b (fun j => [9/2, 5, 2].getD j 0) ∧ ∀ x, InFark A b x → x 0 = 9/2 ∧ x 1 = 5 ∧ x 2 = 2 := by
  rw [← rwSys2_eq]
  obtain ⟨res, h1, h2⟩ := exists_of_ok_and (x := RRF.reduce exRnd exRnd rwSys2 "start" "goal")
    (p := fun res => match res.rrf.form.fark (9/2) .min with
      | .ok (A, b) => decide (A.rows = 5 ∧ A.cols = 3 ∧ b = [1, 2, 3, 2, -9/2] ∧
          ((List.range 5).map fun i => (List.range 3).map fun j => A.at_ i j) =
            [[1, -1/2, -1/2], [1, -1, 0], [0, 1, -1], [0, 0, 1], [-1, 0, 0]])
      | .error _ => false) (by decide +kernel)
  refine ⟨res, h1, ?_⟩
  split at h2
  swap
  · cases h2
  rename_i A b e
  rw [decide_eq_true_eq] at h2
  obtain ⟨k1, k2, rfl, k3⟩ := h2
  simp only [List.range_succ, List.range_zero, List.nil_append, List.cons_append, List.map_cons, List.map_nil, List.cons.injEq, and_true] at k3
  obtain ⟨⟨a1, a2, a3⟩, ⟨a4, a5, a6⟩, ⟨a7, a8, a9⟩, ⟨c1, c2, c3⟩, c4, c5, c6⟩ := k3
  refine ⟨A, _, e, k2, ⟨fun j hj => ?_, fun i hi => ?_⟩, fun x hx => ?_⟩
  · rw [k2] at hj
    interval_cases j <;> norm_num
  · rw [k1] at hi
    rw [k2]
    interval_cases i <;> norm_num [sum_range_succ, *]
  · obtain ⟨-, hx⟩ := hx
    rw [k1, k2] at hx
    have r0 := hx 0 (by norm_num)
    have r1 := hx 1 (by norm_num)
    have r2 := hx 2 (by norm_num)
    have r3 := hx 3 (by norm_num)
    have r4 := hx 4 (by norm_num)
    simp [sum_range_succ, a1, a2, a3, a4, a5, a6, a7, a8, a9, c1, c2, c3, c4, c5, c6] at r0 r1 r2 r3 r4
    refine ⟨?_, ?_, ?_⟩ <;> linarith

/-- the hypotheses of `C125_rewards` are met -/
theorem rwSys2_repeat : ∃ (res : RRF.Result ℚ) (s : Milp ℚ → Answer ℚ) (r r' : ProblemResult (RRF.Sub ℚ) ℚ) (run : Run (RRF.Sub ℚ) ℚ),
    RewardInput (rwSys 2) ∧ RRF.reduce exRnd exRnd (rwSys 2) "start" "goal" = .ok res ∧ (∀ m, (s m).Sound m) ∧
    LibInit (fun _ => (1 : ℚ)) allOnes ∧ LabelsOK res.rrf.rf.sys none ∧
    solveIter res.rrf.form (9/2) (qsHeur res.rrf.form s (fun _ => s) 5 allOnes (inverseResultUpdater fun _ => 1) (9/2) .min none .pulp) = run ∧
    run.1[0]? = some r ∧ run.1[1]? = some r' ∧ r.status = .success ∧ r'.status = .success ∧ r.cert = r'.cert := by
  obtain ⟨res, h, A, b, hA, hcols, hx, huniq⟩ := rwSys2_half
  have hM := rwSys_input (c := 2) zero_le_two
  have bt := rew_built hM h
  obtain ⟨s, hs⟩ := exists_exact ℚ
  have hU := inside_of_fark bt ratR hA hx (U := fun _ => True) fun _ _ => trivial
  obtain ⟨-, h2, -⟩ := C62_returns (t := 9/2) (n := 5) (mode := .min) (labels := none) hM h ratR hs (fun _ => hs)
    (by norm_num) (by omega) (fun _ g => nomatch g) (w := fun _ => 1) (fun _ => one_pos) (ini := allOnes) (Or.inl rfl)
    (upd := inverseResultUpdater fun _ => 1) (Or.inl rfl) bt.initL
  obtain ⟨hlen, hall⟩ := h2 (by
    refine hU.trans (le_of_eq ?_)
    unfold Inside
    simp)
  have hc : ∀ r ∈ (solveIter res.rrf.form (9/2) (qsHeur res.rrf.form s (fun _ => s) 5 allOnes (inverseResultUpdater fun _ => 1) (9/2) .min
      none .pulp)).1, r.cert = some [9/2, 5, 2] := fun r hr => by
    obtain ⟨A', b', cert, e1, e2, e3, e4⟩ := qs_cert_fark (fun A b hA => rrf_fark bt.ok hA) (fun m => (hs m).toSound) (fun m => (hs m).toSound)
      hr (hall r hr)
    rw [hA] at e1
    cases e1
    obtain ⟨q0, q1, q2⟩ := huniq _ e4
    rw [hcols] at e3
    obtain ⟨c0, c1, c2, rfl⟩ := List.length_eq_three.1 e3
    simp only [List.getD_cons_zero, List.getD_cons_succ] at q0 q1 q2
    rw [e2, q0, q1, q2]
  exact ⟨res, s, _, _, _, hM, h, fun m => (hs m).toSound, Or.inl rfl, (fun _ g => nomatch g), rfl, List.getElem?_eq_getElem (by omega),
    List.getElem?_eq_getElem (by omega), hall _ (List.getElem_mem _), hall _ (List.getElem_mem _),
    (hc _ (List.getElem_mem _)).trans (hc _ (List.getElem_mem _)).symm⟩

/-- so are those of `C126_stop_rewards` -/
example : ∃ (res : RRF.Result ℚ) (s : Milp ℚ → Answer ℚ) (r : ProblemResult (RRF.Sub ℚ) ℚ), r.status = .success ∧
    ∀ n ≥ 2, solveLast (solveIter res.rrf.form (9/2) (qsHeur res.rrf.form s (fun _ => s) n allOnes (inverseResultUpdater fun _ => 1) (9/2) .min
      none .pulp)) = .ok r := by
  obtain ⟨res, s, r, r', run, h1, h2, h3, h4, h5, h6, h7, h8, h9, h10, h11⟩ := rwSys2_repeat
  subst h6
  exact ⟨res, s, r', h10, fun n hn => C126_stop_rewards (n := 5) h1 h2 h3 h3 h5 (fun _ => one_pos) (fun _ => one_pos) h4 rfl h7 h8 h9 h10 h11 hn⟩

/-- and those of `C125_periodic_rewards` -/
example : ∃ (res : RRF.Result ℚ) (s : Milp ℚ → Answer ℚ) (run : Run (RRF.Sub ℚ) ℚ),
    solveIter res.rrf.form (9/2) (qsHeur res.rrf.form s (fun _ => s) 5 allOnes (inverseResultUpdater fun _ => 1) (9/2) .min none .pulp) = run ∧
    run.2 = none ∧ run.1.length = 5 ∧ ∀ j, 0 ≤ j → j + 1 < 5 → run.1[j + 1]? = run.1[j]? := by
  obtain ⟨res, s, r, r', run, h1, h2, h3, h4, h5, h6, h7, h8, h9, h10, h11⟩ := rwSys2_repeat
  exact ⟨res, s, run, h6, C125_periodic_rewards h1 h2 h3 h3 h5 (fun _ => one_pos) (fun _ => one_pos) h4 one_pos h6 h7 h8 h9 h10 h11⟩

end Verif.Props
