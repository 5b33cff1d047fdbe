import Verif.Props.Stopped
import Verif.Props.Construct
/-!
# C124: what one iteration of the heuristic may bring back
-/
set_option linter.unusedSectionVars false

namespace Verif.Props
open Verif.Model Verif.Model.Milp Verif.Spec Verif.Proofs Verif.Theory Finset

section
variable {K : Type} [Field K] [LinearOrder K] [IsStrictOrderedRing K]

theorem sum_pick {e : List (Nat × K)} (hn : (e.map Prod.fst).Nodup) (k : Nat) (c : K) (x : Nat → K) :
    (e.map fun t => (if k = t.1 then c else 0) * x t.1).sum = if k ∈ e.map Prod.fst then c * x k else 0 := by
  induction e with
  | nil => simp
  | cons t e ih =>
    rw [List.map_cons, List.nodup_cons] at hn
    rw [List.map_cons, List.sum_cons, ih hn.2]
    by_cases h : k = t.1
    · subst h
      rw [if_pos rfl, if_neg hn.1, if_pos (by simp), add_zero]
    · rw [if_neg h, zero_mul, zero_add]
      simp only [List.map_cons, List.mem_cons, h, false_or]

theorem evalE_on {o : Dict Nat K} {e : List (Nat × K)} (hn : (e.map Prod.fst).Nodup) (ho : (Dict.keys o).Nodup)
    (hz : ∀ t ∈ o, t.1 ∉ e.map Prod.fst → t.2 = 0) (x : Nat → K) :
    evalE o x = (e.map fun t => (o.get? t.1).getD 0 * x t.1).sum := by
  induction o with
  | nil => simp [evalE, Dict.get?]
  | cons p o ih =>
    obtain ⟨k, c⟩ := p
    have ho' : k ∉ Dict.keys o ∧ (Dict.keys o).Nodup := by
      unfold Dict.keys at ho ⊢
      rwa [List.map_cons, List.nodup_cons] at ho
    have hk : ∀ j, (Dict.get? ((k, c) :: o) j).getD 0 = (if k = j then c else 0) + (Dict.get? o j).getD 0 := by
      intro j
      by_cases h : k = j
      · subst h
        have : Dict.get? o k = none := by
          cases hg : Dict.get? o k with
          | none => rfl
          | some y => exact absurd (List.mem_map.2 ⟨_, Dict.mem_of_get? hg, rfl⟩) ho'.1
        simp [Dict.get?, this]
      · simp [Dict.get?, h]
    have e1 : evalE ((k, c) :: o) x = c * x k + evalE o x := by simp [evalE]
    rw [e1, ih ho'.2 (fun t ht => hz t (List.mem_cons_of_mem _ ht))]
    simp only [hk, add_mul]
    rw [List.sum_map_add, sum_pick hn]
    by_cases h : k ∈ e.map Prod.fst
    · rw [if_pos h]
    · have hc : c = 0 := hz (k, c) (by simp) h
      rw [if_neg h, hc, zero_mul]

/-- the objective has no coefficient outside `I` -/
def ObjIn (I : List Nat) (m : Milp K) : Prop := ∀ o, m.obj = some o → ∀ t ∈ o, t.1 ∉ I → t.2 = 0

theorem mem_foldl_set {e : List (Nat × K)} : ∀ {o : Dict Nat K} {t : Nat × K}, t ∈ e.foldl (fun d t => Dict.set d t.1 t.2) o → t ∈ o ∨ t ∈ e := by
  induction e with
  | nil => intro o t h; exact Or.inl h
  | cons u e ih =>
    intro o t h
    rcases ih h with h | h
    · rcases mem_set h with h | h
      · exact Or.inl h
      · exact Or.inr (by simp [h])
    · exact Or.inr (List.mem_cons_of_mem _ h)

/-- after `set_objective` with a coefficient for each of `I` the objective is what was asked for -/
theorem setObjective_val {m m' : Milp K} {e : List (Nat × K)} (h : m.setObjective e = .ok m') (hK : ObjK m)
    (hn : (e.map Prod.fst).Nodup) (hI : ObjIn (e.map Prod.fst) m) :
    ObjIn (e.map Prod.fst) m' ∧ ∀ x, m'.objVal x = terms e x := by
  obtain ⟨-, -, -, -, -, hv, -⟩ := setObjective_inv h
  simp only [setObjective, assertExpr, if_pos hv, bind, Except.bind] at h
  have mem_expr : ∀ be : Backend, ∀ t ∈ expr be e, t.1 ∈ e.map Prod.fst := by
    intro be
    have : ∀ (e : List (Nat × K)) (d : Dict Nat K), ∀ t ∈ e.foldl (fun d t => match be with
        | .pulp => d.set t.1 t.2
        | .gurobi => d.set t.1 ((d.get? t.1).getD 0 + t.2)) d, t.1 ∈ Dict.keys d ∨ t.1 ∈ e.map Prod.fst := by
      intro e
      induction e with
      | nil => intro d t ht; exact Or.inl (List.mem_map.2 ⟨t, ht, rfl⟩)
      | cons u e ih =>
        intro d t ht
        rcases ih _ t ht with g | g
        · obtain ⟨t', g1, g2⟩ := List.mem_map.1 g
          have : t' ∈ d ∨ t'.1 = u.1 := by
            cases be with
            | pulp => exact (mem_set g1).imp_right fun h => by rw [h]
            | gurobi => exact (mem_set g1).imp_right fun h => by rw [h]
          rcases this with g3 | g3
          · exact Or.inl (List.mem_map.2 ⟨t', g3, g2⟩)
          · exact Or.inr (by rw [← g2, g3]; simp)
        · exact Or.inr (List.mem_cons_of_mem _ g)
    intro t ht
    rcases this e [] t ht with g | g
    · cases g
    · exact g
  split at h
  · rename_i o hb ho
    cases h
    refine ⟨fun o' ho' t ht hnt => ?_, fun x => ?_⟩
    · cases ho'
      rcases mem_foldl_set ht with g | g
      · exact hI o ho t g hnt
      · exact absurd (List.mem_map_of_mem g) hnt
    · show evalE (e.foldl (fun d t => d.set t.1 t.2) o) x = _
      rw [evalE_foldl_pulp e hn x o (hK o ho).1, evalE_on hn (hK o ho).1 (hI o ho)]
      ring
  · cases h
    exact ⟨fun o' ho' t ht hnt => by cases ho'; exact absurd (mem_expr _ t ht) hnt, fun x => evalE_expr _ e (fun _ => hn) x⟩

/-- the weights for the next iteration -/
def nextW (ind : List (Nat × List Nat)) (v : List K) : List (Nat × K) :=
  ind.map fun e => (e.1, if 0 < v.getD e.1 0 then 1 * min (1 / v.getD e.1 0) (bigC (ind.map fun e => v.getD e.1 0))
    else bigC (ind.map fun e => v.getD e.1 0))

/-- the loop with the default updater: each solution is a best one for positive weights, from the second on for the weights
made from the previous solution -/
theorem qsLoop_chain {σ : Type} {f : Form σ K} {solver : Nat → Milp K → Answer K} {mode : Mode}
    {ind : List (Nat × List Nat)} (hnd : (ind.map Prod.fst).Nodup) (hs : ∀ k m, (solver k m).Sound m) {F : (Nat → K) → Prop} {L : Nat} :
    ∀ (k : Nat) (m : Milp K) (obj : List (Nat × K)), m.vars.length = L → m.maximize = false → ObjK m → (∀ x, m.Feasible x ↔ F x) →
      ObjIn (ind.map Prod.fst) m → obj.map Prod.fst = ind.map Prod.fst → (∀ t ∈ obj, 0 < t.2) →
      ∃ rs vs tail, (qsLoop f solver mode (inverseResultUpdater (fun _ => 1) ind) k m obj).1 = rs ++ tail ∧ List.Forall₂ (Out f mode) rs vs ∧
        (∀ v ∈ vs, v.length = L ∧ F (fun j => v.getD j 0) ∧ ∃ obj' : List (Nat × K), obj'.map Prod.fst = ind.map Prod.fst ∧ (∀ t ∈ obj', 0 < t.2) ∧
          ∀ x, F x → terms obj' (fun j => v.getD j 0) ≤ terms obj' x) ∧
        (∀ v, vs.head? = some v → ∀ x, F x → terms obj (fun j => v.getD j 0) ≤ terms obj x) ∧
        vs.IsChain (fun v v' => ∀ x, F x → terms (nextW ind v) (fun j => v'.getD j 0) ≤ terms (nextW ind v) x) ∧
        (tail = [] ∨ ∃ s, tail = [failure s]) := by
  intro k
  induction k with
  | zero => intro m obj _ _ _ _ _ _ _; exact ⟨[], [], [], by simp [qsLoop], .nil, by simp, by simp, .nil, Or.inl rfl⟩
  | succ k ih =>
    intro m obj hL hmx hK hF hI hko hpo
    simp only [qsLoop]
    split
    · exact ⟨[], [], [], rfl, .nil, by simp, by simp, .nil, Or.inl rfl⟩
    rename_i m1 hm1
    obtain ⟨o1, o2, o3, o4, o5, -⟩ := setObjective_inv hm1
    have hno : (obj.map Prod.fst).Nodup := by rw [hko]; exact hnd
    obtain ⟨hK1, -⟩ := setObjective_obj hm1 hK hno (fun t ht => (hpo t ht).le)
    obtain ⟨hI1, hval⟩ := setObjective_val hm1 hK hno (by rw [hko]; exact hI)
    rw [hko] at hI1
    have hF1 : ∀ x, m1.Feasible x ↔ F x := fun x => by rw [feasible_congr o1 o2, hF]
    split
    · rename_i hopt
      obtain ⟨q1, q2, -⟩ := (hs k m1).optimal hopt
      have q3 := (hF1 _).1 q1.1
      have hbest : ∀ x, F x → terms obj (fun j => (solver k m1).vec.getD j 0) ≤ terms obj x := by
        intro x hx
        have := q1.2 x ((hF1 x).2 hx)
        rw [o5, hmx] at this
        simp only [Bool.false_eq_true, if_false] at this
        rwa [hval, hval] at this
      have hv : (solver k m1).vec.length = L ∧ F (fun j => (solver k m1).vec.getD j 0) ∧
          ∃ obj' : List (Nat × K), obj'.map Prod.fst = ind.map Prod.fst ∧ (∀ t ∈ obj', 0 < t.2) ∧
          ∀ x, F x → terms obj' (fun j => (solver k m1).vec.getD j 0) ≤ terms obj' x :=
        ⟨by rw [q2, o1, hL], q3, obj, hko, hpo, hbest⟩
      split
      · exact ⟨[], [], [], rfl, .nil, by simp, by simp, .nil, Or.inl rfl⟩
      rename_i w hw
      have hout : Out f mode
          ⟨.success, some w, some ((((solver k m1).vec.drop (f.certSize mode)).countP fun x => decide (0 < x) : Nat) : K),
            some ((solver k m1).vec.take (f.certSize mode))⟩ (solver k m1).vec := ⟨w, hw, rfl⟩
      split
      · exact ⟨[_], [_], [], rfl, .cons hout .nil, fun v hv' => by rw [List.mem_singleton] at hv'; rw [hv']; exact hv,
          fun v hv' => by cases hv'; exact hbest, .singleton _, Or.inl rfl⟩
      · rename_i m2 obj2 hp
        simp only [bind, Except.bind] at hp
        split at hp
        · cases hp
        rename_i obj' hobj'
        have hcs : (inverseResultUpdater (fun _ => (1 : K)) ind).constraints (solver k m1).vec = .ok [] := rfl
        rw [hcs] at hp
        simp only [addConstraints, List.foldlM_nil, pure, Except.pure, Except.ok.injEq, Prod.mk.injEq] at hp
        obtain ⟨rfl, rfl⟩ := hp
        have hw' : obj' = nextW ind (solver k m1).vec := inverseUpdate_eq (w := fun _ => 1) hobj'
        obtain ⟨p1, p2⟩ := C44_positive (fun _ => one_pos) hobj'
        obtain ⟨rs, vs, tail, r1, r2, r3, r4, r5, r6⟩ := ih m1 obj' (by rw [o1, hL]) (by rw [o5, hmx]) hK1 hF1 hI1 p1 p2
        refine ⟨_ :: rs, _ :: vs, tail, by rw [r1]; rfl, .cons hout r2, fun v hv' => ?_, fun v hv' => by cases hv'; exact hbest, ?_, r6⟩
        · rcases List.mem_cons.1 hv' with rfl | hv'
          · exact hv
          · exact r3 v hv'
        · cases vs with
          | nil => exact .singleton _
          | cons v vs =>
            refine .cons_cons ?_ r5
            rw [← hw']
            exact r4 v rfl
    · exact ⟨[], [], [_], rfl, .nil, by simp, by simp, .nil, Or.inr ⟨_, rfl⟩⟩

theorem sum_range' (f : Nat → K) (c n : Nat) : ((List.range' c n).map f).sum = ∑ k ∈ range n, f (c + k) := by
  rw [List.range'_eq_map_range, List.map_map]
  rfl

/-- what the weights say about the next solution: at most 1 for each group used before, at least 1e8 times what is used of
the others -/
theorem nextW_bounds {ind : List (Nat × List Nat)} {c n : Nat} (hind : ind.map Prod.fst = List.range' c n) {v : List K}
    (hv : ∀ k < n, 0 ≤ v.getD (c + k) 0) :
    terms (nextW ind v) (fun j => v.getD j 0) ≤ (#{k ∈ range n | 0 < v.getD (c + k) 0} : Nat) ∧
    ∀ x : Nat → K, (∀ k < n, 0 ≤ x (c + k)) →
      10 ^ 8 * ∑ k ∈ range n with v.getD (c + k) 0 = 0, x (c + k) ≤ terms (nextW ind v) x := by
  set C := bigC (ind.map fun e => v.getD e.1 0) with hC
  have hC8 : 10 ^ 8 ≤ C := (bigC_spec _).1
  have hC0 : 0 < C := bigC_pos _
  have key : ∀ x : Nat → K, terms (nextW ind v) x = ∑ k ∈ range n,
      (if 0 < v.getD (c + k) 0 then 1 * min (1 / v.getD (c + k) 0) C else C) * x (c + k) := by
    intro x
    have := sum_range' (fun j => (if 0 < v.getD j 0 then 1 * min (1 / v.getD j 0) C else C) * x j) c n
    rw [← this, ← hind, List.map_map]
    unfold terms nextW
    rw [List.map_map]
    rfl
  refine ⟨?_, fun x hx => ?_⟩
  · rw [key, card_filter, Nat.cast_sum]
    refine sum_le_sum fun k hk => ?_
    by_cases h : 0 < v.getD (c + k) 0
    · rw [if_pos h, if_pos h, one_mul, Nat.cast_one]
      calc min (1 / v.getD (c + k) 0) C * v.getD (c + k) 0 ≤ 1 / v.getD (c + k) 0 * v.getD (c + k) 0 :=
            mul_le_mul_of_nonneg_right (min_le_left _ _) h.le
        _ = 1 := one_div_mul_cancel h.ne'
    · have : v.getD (c + k) 0 = 0 := le_antisymm (not_lt.1 h) (hv k (mem_range.1 hk))
      rw [this]
      simp
  · rw [key, mul_sum, sum_filter]
    refine sum_le_sum fun k hk => ?_
    have hk0 := hx k (mem_range.1 hk)
    by_cases h : v.getD (c + k) 0 = 0
    · rw [if_pos h, if_neg (by rw [h]; exact lt_irrefl _)]
      exact mul_le_mul_of_nonneg_right hC8 hk0
    · rw [if_neg h]
      refine mul_nonneg ?_ hk0
      split
      · rename_i h1
        rw [one_mul]
        exact le_min (one_div_nonneg.2 h1.le) hC0.le
      · exact hC0.le

variable {ρ : Graph.Rnd} {M : Sys K} {il tl fl : String} {rf : RF K} {t : K}
  {lpSolver : Milp K → Answer K} {solver : Nat → Milp K → Answer K} {n : Nat}
  {ini : List (Nat × List Nat) → Except Err (List (Nat × K))} {be : Backend}

theorem evalE_single' {o : Dict Nat K} (ho : (Dict.keys o).Nodup) {u : Nat × K} (hu : u ∈ o) :
    evalE o (fun j => if j = u.1 then 1 else 0) = u.2 := by
  induction o with
  | nil => cases hu
  | cons p o ih =>
    have ho' : p.1 ∉ Dict.keys o ∧ (Dict.keys o).Nodup := by
      unfold Dict.keys at ho ⊢
      rwa [List.map_cons, List.nodup_cons] at ho
    have e1 : evalE (p :: o) (fun j => if j = u.1 then 1 else 0) = p.2 * (if p.1 = u.1 then 1 else 0) + evalE o (fun j => if j = u.1 then 1 else 0) := by
      simp [evalE]
    rw [e1]
    rcases List.mem_cons.1 hu with rfl | hu
    · rw [if_pos rfl, mul_one]
      have : evalE o (fun j => if j = u.1 then 1 else 0) = 0 := by
        unfold evalE
        refine List.sum_eq_zero fun y hy => ?_
        obtain ⟨s, hs, rfl⟩ := List.mem_map.1 hy
        show s.2 * (if s.1 = u.1 then 1 else 0) = 0
        rw [if_neg (fun h => ho'.1 (List.mem_map.2 ⟨s, hs, h⟩)), mul_zero]
      rw [this, add_zero]
    · rw [if_neg (fun h => ho'.1 (List.mem_map.2 ⟨u, hu, h.symm⟩)), mul_zero, zero_add, ih ho'.2 hu]

/-- a solution in terms of its groups: what the indicators say -/
structure Ind (N : Nat) (groups : List (List Nat)) (v : List K) : Prop where
  len : v.length = N + groups.length
  nonneg : ∀ j < N, 0 ≤ v.getD j 0
  pos : ∀ k < groups.length, 0 ≤ v.getD (N + k) 0
  link : ∀ (k : Nat) (g : List Nat), groups[k]? = some g → ∀ j ∈ g, v.getD j 0 ≤ v.getD (N + k) 0
  zero : ∀ (k : Nat) (g : List Nat), groups[k]? = some g → (∀ j ∈ g, v.getD j 0 = 0) → v.getD (N + k) 0 = 0

/-- two consecutive successes with the default updater -/
theorem qs_pair (hM : M.WF) (hrf : RF.make ρ M il tl fl false = .ok rf)
    (hlp : ∀ lp, (lpSolver lp).Sound lp) (hs : ∀ k m, (solver k m).Sound m)
    {w : Nat → K} (hw : ∀ i, 0 < w i) (hi : LibInit w ini) {labels : Option (List String)} (hl : LabelsOK M labels)
    {r r' : ProblemResult (Subsystem K) K} {i : Nat}
    (hr : (solveIter rf.form t (qsHeur rf.form lpSolver solver n ini (inverseResultUpdater fun _ => 1) t .min labels be)).1[i]? = some r)
    (hr' : (solveIter rf.form t (qsHeur rf.form lpSolver solver n ini (inverseResultUpdater fun _ => 1) t .min labels be)).1[i + 1]? = some r')
    (hst : r'.status = .success) :
    ∃ groups v v', groupsFromLabels rf.form .min labels (decide (Mode.min = Mode.max ∧ true = false)) = .ok groups ∧
      (∀ g ∈ groups, ∀ j ∈ g, j < rf.form.certSize .min) ∧ Out rf.form .min r v ∧ Out rf.form .min r' v' ∧
      Ind (rf.form.certSize .min) groups v ∧ Ind (rf.form.certSize .min) groups v' ∧
      10 ^ 8 * ∑ k ∈ range groups.length with v.getD (rf.form.certSize .min + k) 0 = 0, v'.getD (rf.form.certSize .min + k) 0 ≤
        (#{k ∈ range groups.length | 0 < v.getD (rf.form.certSize .min + k) 0} : Nat) := by
  obtain ⟨ht, ⟨-, rfl⟩ | ⟨m, ind, obj, hc, hobj, -⟩⟩ := qs_run (List.mem_of_getElem? hr')
  · cases hst
  obtain ⟨A, b, ub, groups, g1, gub, g3, -, g4, -⟩ := construct_inv (rf_fark hM hrf) hlp hc
  have hrun : solveIter rf.form t (qsHeur rf.form lpSolver solver n ini (inverseResultUpdater fun _ => 1) t .min labels be) =
      qsLoop rf.form solver .min (inverseResultUpdater (fun _ => 1) ind) n m obj := by
    unfold solveIter
    rw [if_pos ht.1, if_pos fun _ => ht.2]
    simp only [qsHeur, hc, hobj]
  rw [hrun] at hr hr'
  set N := rf.form.certSize .min with hN
  obtain ⟨groups', q1, hlt⟩ := groups_ok (rfok_built hM hrf) .min (labels := labels)
    (by rw [(make_fields hrf).1]; exact hl) (decide (Mode.min = Mode.max ∧ true = false))
  rw [g3] at q1
  cases q1
  have hub : ub = some (List.replicate N 1) := by
    unfold chooseBounds at gub
    rw [if_pos ⟨rfl, rfl, rfl⟩] at gub
    cases gub
    rfl
  have hub1 : ∀ j < N, ubAt ub j = 1 := by
    intro j hj
    rw [hub]
    simp [ubAt, hj]
  obtain ⟨i1, i2, i3⟩ := built_ind g4
  have hfst : ind.map Prod.fst = List.range' N groups.length := by
    rw [g4.ind, List.map_map]
    show (groups.zipIdx N).map Prod.snd = _
    rw [List.zipIdx_map_snd]
  have hIn : ObjIn (ind.map Prod.fst) m := by
    intro o ho u hu hnu
    have h1 := evalE_single' (g4.objK o ho).1 hu
    have h2 := g4.obj (fun j => if j = u.1 then 1 else 0)
    unfold objVal at h2
    rw [ho, Option.getD_some, h1] at h2
    rw [h2]
    refine sum_eq_zero fun k hk => if_neg fun h => hnu ?_
    rw [hfst, List.mem_range'_1, ← h]
    have := mem_range.1 hk
    omega
  obtain ⟨rs, vs, tail, r1, r2, r3, -, r5, r6⟩ := qsLoop_chain (f := rf.form) (mode := .min) i1 hs (F := m.Feasible) n m obj rfl
    g4.maximize g4.objK (fun _ => Iff.rfl) hIn (lib_init hw hi ind obj hobj).1 (lib_init hw hi ind obj hobj).2
  rw [r1] at hr hr'
  have hlen2 := r2.length_eq
  have hi1 : i + 1 < rs.length := by
    by_contra hn
    rw [List.getElem?_append_right (by omega)] at hr'
    rcases r6 with rfl | ⟨s, rfl⟩
    · simp at hr'
    · have := List.mem_of_getElem? hr'
      rw [List.mem_singleton] at this
      subst this
      cases hst
  rw [List.getElem?_append_left (by omega)] at hr hr'
  have o1 : Out rf.form .min r (vs[i]'(by omega)) := by
    rw [List.getElem?_eq_getElem (by omega), Option.some.injEq] at hr
    rw [← hr]
    exact List.forall₂_iff_get.1 r2 |>.2 i (by omega) (by omega)
  have o2 : Out rf.form .min r' (vs[i + 1]'(by omega)) := by
    rw [List.getElem?_eq_getElem (by omega), Option.some.injEq] at hr'
    rw [← hr']
    exact List.forall₂_iff_get.1 r2 |>.2 (i + 1) (by omega) (by omega)
  have hstep := List.isChain_iff_getElem.1 r5 i (by omega)
  generalize hv1 : vs[i]'(by omega) = v at *
  generalize hv2 : vs[i + 1]'(by omega) = v' at *
  have m1 : v ∈ vs := hv1 ▸ List.getElem_mem _
  have m2 : v' ∈ vs := hv2 ▸ List.getElem_mem _
  have hInd : ∀ v ∈ vs, Ind N groups v := by
    intro v hv
    obtain ⟨a1, a2, ob, b1, b2, b3⟩ := r3 v hv
    obtain ⟨h2, h3, h4⟩ := (g4.feasible hlt _).1 a2
    refine ⟨by rw [a1, g4.vars], fun j hj => h2.nonneg j hj, fun k hk => (h3 k hk).1, fun k g hg j hj => ?_, fun k g hg hz => ?_⟩
    · have := h4 k g hg j hj
      simpa only [hub1 j (hlt g (List.mem_of_getElem? hg) j hj), one_mul] using this
    have hk : k < groups.length := (List.getElem?_eq_some_iff.1 hg).1
    have hcols := fark_cols (show rf.farkConstraints t .min = .ok (A, b) from g1)
    by_contra hne
    have hp : 0 < v.getD (N + k) 0 := lt_of_le_of_ne (h3 k hk).1 (Ne.symm hne)
    have hup : ∀ j, j ≠ N + k → Function.update (fun j => v.getD j 0) (N + k) 0 j = v.getD j 0 := fun j hj => by
      rw [Function.update_of_ne hj]
    have hF : m.Feasible (Function.update (fun j => v.getD j 0) (N + k) 0) := by
      refine (g4.feasible hlt _).2 ⟨h2.congr hcols (fun j hj => hup j (by have : j < N := hj; omega)), fun k' hk' => ?_, fun k' g' hg' j hj => ?_⟩
      · by_cases hkk : N + k' = N + k
        · rw [hkk, Function.update_self]
          exact ⟨le_rfl, (fun g => nomatch g), fun _ => zero_le_one⟩
        · rw [Function.update_of_ne hkk]
          exact h3 k' hk'
      · have hj' := hlt g' (List.mem_of_getElem? hg') j hj
        rw [hup j (by omega)]
        by_cases hkk : N + k' = N + k
        · have : k' = k := by omega
          subst this
          rw [hg] at hg'
          cases hg'
          rw [hkk, Function.update_self, mul_zero, hz j hj]
        · rw [Function.update_of_ne hkk]
          exact h4 k' g' hg' j hj
    have hmem : N + k ∈ ob.map Prod.fst := by rw [b1, hfst, List.mem_range'_1]; omega
    obtain ⟨u, hu, hue⟩ := List.mem_map.1 hmem
    refine absurd (b3 _ hF) (not_le.2 ?_)
    unfold terms
    refine List.sum_lt_sum _ _ (fun s hs => mul_le_mul_of_nonneg_left ?_ (b2 s hs).le) ⟨u, hu, ?_⟩
    · by_cases hse : s.1 = N + k
      · rw [hse, Function.update_self]; exact hp.le
      · rw [hup _ hse]
    · rw [hue, Function.update_self]
      exact mul_lt_mul_of_pos_left hp (b2 u hu)
  obtain ⟨n1, n2⟩ := nextW_bounds hfst (v := v) (hInd v m1).pos
  exact ⟨groups, v, v', g3, hlt, o1, o2, hInd v m1, hInd v' m2,
    (n2 (fun j => v'.getD j 0) (hInd v' m2).pos).trans ((hstep _ (r3 v m1).2.1).trans n1)⟩

theorem Ind.take {N : Nat} {groups : List (List Nat)} {v : List K} (_ : Ind N groups v) (j : Nat) :
    (v.take N).getD j 0 = if j < N then v.getD j 0 else 0 := by
  by_cases hj : j < N
  · rw [if_pos hj, take_getD j hj]
  · rw [if_neg hj, List.getD_eq_default]
    rw [List.length_take]
    omega

theorem Ind.take_len {N : Nat} {groups : List (List Nat)} {v : List K} (I : Ind N groups v) : (v.take N).length = N := by
  rw [List.length_take, I.len]; omega

/-- a group is used iff it has a positive entry -/
theorem Ind.iff {N : Nat} {groups : List (List Nat)} {v : List K} (I : Ind N groups v) (hlt : ∀ g ∈ groups, ∀ j ∈ g, j < N)
    {k : Nat} {g : List Nat} (hg : groups[k]? = some g) : 0 < v.getD (N + k) 0 ↔ ∃ j ∈ g, 0 < v.getD j 0 := by
  constructor
  · intro h
    by_contra hn
    refine h.ne' (I.zero k g hg fun j hj => le_antisymm (not_lt.1 fun h' => hn ⟨j, hj, h'⟩) (I.nonneg j (hlt g (List.mem_of_getElem? hg) j hj)))
  · rintro ⟨j, hj, h⟩
    exact lt_of_lt_of_le h (I.link k g hg j hj)

/-- an entry that comes back is small -/
theorem Ind.small {N : Nat} {groups : List (List Nat)} {v v' : List K} (I : Ind N groups v) (I' : Ind N groups v')
    (hb : 10 ^ 8 * ∑ k ∈ range groups.length with v.getD (N + k) 0 = 0, v'.getD (N + k) 0 ≤
      (#{k ∈ range groups.length | 0 < v.getD (N + k) 0} : Nat)) {k : Nat} {g : List Nat} (hg : groups[k]? = some g)
    (hz : v.getD (N + k) 0 = 0) {j : Nat} (hj : j ∈ g) :
    v'.getD j 0 ≤ (((v.drop N).countP fun x => decide (0 < x) : Nat) : K) / 10 ^ 8 := by
  have hk : k < groups.length := (List.getElem?_eq_some_iff.1 hg).1
  rw [le_div_iff₀ (by positivity), mul_comm, countP_drop v N groups.length I.len]
  refine le_trans (mul_le_mul_of_nonneg_left ?_ (by positivity)) hb
  refine (I'.link k g hg j hj).trans ?_
  exact single_le_sum (f := fun k => v'.getD (N + k) 0) (fun k' hk' => I'.pos k' (mem_range.1 (mem_filter.1 hk').1))
    (mem_filter.2 ⟨mem_range.2 hk, hz⟩)

/-- if no entry is small no group comes back -/
theorem Ind.shrinks {N : Nat} {groups : List (List Nat)} {v v' : List K} (I : Ind N groups v) (I' : Ind N groups v')
    (hlt : ∀ g ∈ groups, ∀ j ∈ g, j < N)
    (hb : 10 ^ 8 * ∑ k ∈ range groups.length with v.getD (N + k) 0 = 0, v'.getD (N + k) 0 ≤
      (#{k ∈ range groups.length | 0 < v.getD (N + k) 0} : Nat))
    (hbig : ∀ j, 0 < (v'.take N).getD j 0 → (((v.drop N).countP fun x => decide (0 < x) : Nat) : K) / 10 ^ 8 < (v'.take N).getD j 0) :
    (∀ g ∈ groups, (∃ j ∈ g, 0 < (v'.take N).getD j 0) → ∃ j ∈ g, 0 < (v.take N).getD j 0) ∧
    ((v'.drop N).countP fun x => decide (0 < x)) ≤ (v.drop N).countP fun x => decide (0 < x) := by
  have key : ∀ (k : Nat) (g : List Nat), groups[k]? = some g → (∃ j ∈ g, 0 < v'.getD j 0) → ∃ j ∈ g, 0 < v.getD j 0 := by
    rintro k g hg ⟨j, hj, hp⟩
    have hk : k < groups.length := (List.getElem?_eq_some_iff.1 hg).1
    have hjN := hlt g (List.mem_of_getElem? hg) j hj
    rw [← I.iff hlt hg]
    refine lt_of_le_of_ne (I.pos k hk) fun hz => ?_
    have := hbig j (by rw [I'.take, if_pos hjN]; exact hp)
    rw [I'.take, if_pos hjN] at this
    exact absurd (I.small I' hb hg hz.symm hj) (not_le.2 this)
  refine ⟨fun g hg => ?_, ?_⟩
  · obtain ⟨k, hk, e⟩ := List.mem_iff_getElem.1 hg
    rintro ⟨j, hj, hp⟩
    rw [I'.take, if_pos (hlt g hg j hj)] at hp
    obtain ⟨j', hj', hp'⟩ := key k g (by rw [List.getElem?_eq_getElem hk, e]) ⟨j, hj, hp⟩
    exact ⟨j', hj', by rw [I.take, if_pos (hlt g hg j' hj')]; exact hp'⟩
  · rw [countP_drop v N groups.length I.len, countP_drop v' N groups.length I'.len]
    refine card_le_card fun k hk => ?_
    rw [mem_filter] at hk ⊢
    have hg : groups[k]? = some (groups[k]'(mem_range.1 hk.1)) := List.getElem?_eq_getElem _
    exact ⟨hk.1, (I.iff hlt hg).2 (key k _ hg ((I'.iff hlt hg).1 hk.2))⟩

/-- **C124 (what remains).** `QSHeur` with the default updater and the default weights, min mode, groups of one state, any initial
objective of the library, any number of iterations, any back end, any solver that does not lie: from one success to the
next the states that come back have, together, a value of at most the reported size times 1e-8; if every state of the
new certificate has more than that, no state comes back and the reported size does not increase. -/
theorem C124_partial (hM : M.WF) (hrf : RF.make ρ M il tl fl false = .ok rf)
    (hlp : ∀ lp, (lpSolver lp).Sound lp) (hs : ∀ k m, (solver k m).Sound m)
    {w : Nat → K} (hw : ∀ i, 0 < w i) (hi : LibInit w ini) {r r' : ProblemResult (Subsystem K) K} {i : Nat}
    (hr : (solveIter rf.form t (qsHeur rf.form lpSolver solver n ini (inverseResultUpdater fun _ => 1) t .min none be)).1[i]? = some r)
    (hr' : (solveIter rf.form t (qsHeur rf.form lpSolver solver n ini (inverseResultUpdater fun _ => 1) t .min none be)).1[i + 1]? = some r')
    (hst : r'.status = .success) :
    ∃ (k k' : Nat) (cert cert' : List K), r.value = some (k : K) ∧ r'.value = some (k' : K) ∧ r.cert = some cert ∧ r'.cert = some cert' ∧
      ∑ j ∈ range cert'.length with cert.getD j 0 = 0, cert'.getD j 0 ≤ k / 10 ^ 8 ∧
      ((∀ j, 0 < cert'.getD j 0 → (k : K) / 10 ^ 8 < cert'.getD j 0) →
        k' ≤ k ∧ ∀ j, 0 < cert'.getD j 0 → 0 < cert.getD j 0) := by
  obtain ⟨groups, v, v', g3, hlt, ⟨x, -, rfl⟩, ⟨x', -, rfl⟩, I, I', hb⟩ :=
    qs_pair hM hrf hlp hs hw hi (labels := none) (fun _ g => nomatch g) hr hr' hst
  set N := rf.form.certSize .min with hN
  have hgr : groups = (List.range N).map fun i => [i] := by
    have : groupsFromLabels rf.form .min none (decide ((Mode.min : Mode) = .max ∧ true = false)) = .ok ((List.range N).map fun i => [i]) := rfl
    rw [this] at g3
    cases g3
    rfl
  have hgl : groups.length = N := by rw [hgr]; simp
  have hget : ∀ k < N, groups[k]? = some [k] := by
    intro k hk
    rw [hgr]
    simp [hk]
  refine ⟨_, _, _, _, rfl, rfl, rfl, rfl, ?_, fun hbig => ?_⟩
  · rw [le_div_iff₀ (by positivity), mul_comm, countP_drop v N groups.length I.len]
    refine le_trans (mul_le_mul_of_nonneg_left ?_ (by positivity)) hb
    rw [I'.take_len, hgl, sum_filter, sum_filter]
    refine sum_le_sum fun k hk => ?_
    have hk := mem_range.1 hk
    rw [I.take, I'.take, if_pos hk, if_pos hk]
    by_cases h : v.getD k 0 = 0
    · rw [if_pos h, if_pos (I.zero k [k] (hget k hk) fun j hj => by rw [List.mem_singleton] at hj; rw [hj, h])]
      exact I'.link k [k] (hget k hk) k (by simp)
    · rw [if_neg h]
      split
      · exact I'.pos k (by omega)
      · exact le_rfl
  · obtain ⟨s1, s2⟩ := I.shrinks I' hlt hb hbig
    refine ⟨s2, fun j hj => ?_⟩
    have hjN : j < N := by
      by_contra hn
      rw [I'.take, if_neg hn] at hj
      exact lt_irrefl _ hj
    obtain ⟨j', h1, h2⟩ := s1 [j] (List.mem_of_getElem? (hget j hjN)) ⟨j, by simp, hj⟩
    rw [List.mem_singleton] at h1
    rwa [h1] at h2

/-- **C124 (what remains, with labels).** When labels are minimised: if a label is removed, the states with that label have a value of at
most the reported number of labels times 1e-8 in the next certificate; if every state of the new certificate has more
than that, no label comes back and the reported number does not increase. -/
theorem C124_labels_partial (hM : M.WF) (hrf : RF.make ρ M il tl fl false = .ok rf)
    (hlp : ∀ lp, (lpSolver lp).Sound lp) (hs : ∀ k m, (solver k m).Sound m)
    {w : Nat → K} (hw : ∀ i, 0 < w i) (hi : LibInit w ini) {ls : List String} (hl : LabelsOK M (some ls))
    {r r' : ProblemResult (Subsystem K) K} {i : Nat}
    (hr : (solveIter rf.form t (qsHeur rf.form lpSolver solver n ini (inverseResultUpdater fun _ => 1) t .min (some ls) be)).1[i]? = some r)
    (hr' : (solveIter rf.form t (qsHeur rf.form lpSolver solver n ini (inverseResultUpdater fun _ => 1) t .min (some ls) be)).1[i + 1]? = some r')
    (hst : r'.status = .success) :
    ∃ (k k' : Nat) (cert cert' : List K), r.value = some (k : K) ∧ r'.value = some (k' : K) ∧ r.cert = some cert ∧ r'.cert = some cert' ∧
      (∀ l ∈ ls, (∀ s ∈ M.labelled l, cert.getD s 0 = 0) → ∀ s ∈ M.labelled l, cert'.getD s 0 ≤ k / 10 ^ 8) ∧
      ((∀ j, 0 < cert'.getD j 0 → (k : K) / 10 ^ 8 < cert'.getD j 0) →
        k' ≤ k ∧ ∀ l ∈ ls, (∃ s ∈ M.labelled l, 0 < cert'.getD s 0) → ∃ s ∈ M.labelled l, 0 < cert.getD s 0) := by
  obtain ⟨groups, v, v', g3, hlt, ⟨x, -, rfl⟩, ⟨x', -, rfl⟩, I, I', hb⟩ := qs_pair hM hrf hlp hs hw hi hl hr hr' hst
  have h := rfok_built hM hrf
  have e0 := (make_fields hrf).1
  have hNN : rf.form.certSize .min = rf.N := rfl
  set N := rf.form.certSize .min with hN
  refine ⟨_, _, _, _, rfl, rfl, rfl, rfl, fun l hlm hz s hsl => ?_, fun hbig => ?_⟩
  · rw [I'.take]
    by_cases hsN : s < N
    swap
    · rw [if_neg hsN]; positivity
    rw [if_pos hsN]
    rw [← e0] at hsl hz
    have hsel : ∃ s' ∈ rf.sys.labelled l, selF rf .min (fun j => if j = s then (1 : K) else 0) s' :=
      ⟨s, hsl, by rw [← hNN]; exact hsN, by simp⟩
    rcases group_of_label h g3 hlt hlm with hno | ⟨g, hg, key⟩
    · exact absurd hsel (hno _)
    obtain ⟨j, hj, hp⟩ := (key _).1 hsel
    have hjs : j = s := by
      by_contra hne
      simp only [if_neg hne] at hp
      exact lt_irrefl _ hp
    subst hjs
    obtain ⟨k, hk, e⟩ := List.mem_iff_getElem.1 hg
    have hk1 : groups[k]? = some g := by rw [List.getElem?_eq_getElem hk, e]
    refine I.small I' hb hk1 ?_ hj
    refine le_antisymm (not_lt.1 fun hp => ?_) (I.pos k hk)
    obtain ⟨s', q1, q2⟩ := (key fun j => v.getD j 0).2 ((I.iff hlt hk1).1 hp)
    have := hz s' q1
    rw [I.take, if_pos (by rw [hNN]; exact q2.1)] at this
    exact absurd q2.2 (by simp only; rw [this]; exact lt_irrefl _)
  · obtain ⟨s1, s2⟩ := I.shrinks I' hlt hb hbig
    refine ⟨s2, ?_⟩
    have := shrinks_of_groups h (labels := some ls) g3 hlt I.take_len I'.take_len s1
    rw [e0] at this
    intro l hlm hex
    simp only [getD_pos] at hex ⊢
    exact this l hlm hex

end

/-! ### the size may grow -/

/-- State 0 reaches the target directly with probability 1/4, state 1 with 1/10 and state 2 with 9/20.  State 1 reaches the target;
state 2 reaches it with probability 1/2, and with 1/4 each states 3 and 4, which reach it with probability 1e-10. -/
def qiP : Dok ℚ := ⟨7, 7, [((0, 1), 1/10), ((0, 2), 9/20), ((0, 5), 1/4), ((0, 6), 1/5), ((1, 5), 1), ((2, 3), 1/4), ((2, 4), 1/4), ((2, 5), 1/2),
  ((3, 5), 1/10^10), ((3, 6), 1 - 1/10^10), ((4, 5), 1/10^10), ((4, 6), 1 - 1/10^10), ((5, 5), 1), ((6, 6), 1)]⟩
def qiI : Dict (Nat × Nat) Nat := [((0, 0), 0), ((1, 0), 1), ((2, 0), 2), ((3, 0), 3), ((4, 0), 4), ((5, 0), 5), ((6, 0), 6)]
def qiEx : Sys ℚ := mkSys qiP qiI (IDict.mk' [("init", [0]), ("goal", [5]), ("fail", [6])] true)

theorem qiEx_wf : qiEx.WF := by
  refine mkSys_wf (by simp [qiP]) ?_ ?_ (by simp [qiI]) (by simp [qiI]) (by decide +kernel)
  · intro e he
    simp only [qiP, List.mem_cons, List.not_mem_nil, or_false] at he
    rcases he with rfl | rfl | rfl | rfl | rfl | rfl | rfl | rfl | rfl | rfl | rfl | rfl | rfl | rfl <;> norm_num [qiP]
  · intro i hi
    have hi : i < 7 := hi
    show ∑ j ∈ Finset.range 7, _ = 1
    interval_cases i <;> simp [Finset.sum_range_succ, qiP, Dok.get, Dict.get?] <;> norm_num

/-- the threshold: what states 0, 2, 3 and 4 yield -/
def qiT : ℚ := 19/40 + 9/40 * (1/10^10)

/-- the problem, up to the objective -/
def qiMilp (c : List ℚ) : Milp ℚ where
  be := .pulp
  maximize := false
  vars := List.replicate 10 ⟨.real, some 0, some 1⟩
  obj := some [(0, 0), (1, 0), (2, 0), (3, 0), (4, 0), (5, c.getD 0 0), (6, c.getD 1 0), (7, c.getD 2 0), (8, c.getD 3 0), (9, c.getD 4 0)]
  cons := [(0, ⟨[(0, 1), (1, -1/10), (2, -9/20)], .le, 1/4⟩), (1, ⟨[(1, 1)], .le, 1⟩), (2, ⟨[(2, 1), (3, -1/4), (4, -1/4)], .le, 1/2⟩),
    (3, ⟨[(3, 1)], .le, 1/10^10⟩), (4, ⟨[(4, 1)], .le, 1/10^10⟩), (5, ⟨[(0, -1)], .le, -qiT⟩), (6, ⟨[(0, 1), (5, -1)], .le, 0⟩),
    (7, ⟨[(1, 1), (6, -1)], .le, 0⟩), (8, ⟨[(2, 1), (7, -1)], .le, 0⟩), (9, ⟨[(3, 1), (8, -1)], .le, 0⟩), (10, ⟨[(4, 1), (9, -1)], .le, 0⟩)]
  ncon := 11

def qiInd : List (Nat × List Nat) := [(5, [0]), (6, [1]), (7, [2]), (8, [3]), (9, [4])]

/-- the weights of the first and the second iteration -/
def qiOnes : List ℚ := [1, 1, 1, 1, 1]
def qiNext : List ℚ := [1 / qiT, 10^9, 2, 10^9, 10^9]

/-- the certificates of the first and the second iteration -/
def qiC1 : List ℚ := [qiT, 9/4 * (1/10^10), 1/2, 0, 0]
def qiC2 : List ℚ := [qiT, 0, 1/2 + 1/2 * (1/10^10), 1/10^10, 1/10^10]

/-- does `construct_MILP` give this problem? -/
def qiTest (rf : RF ℚ) : Bool :=
  match constructMILP rf.form (fun _ => ⟨.notsolved, [], 0⟩) qiT .min none true none .pulp with
  | .ok (some (m, ind)) => decide (m = qiMilp qiOnes ∧ ind = qiInd)
  | _ => false

theorem qi_rows {c : List ℚ} {x : Nat → ℚ} (h : (qiMilp c).Feasible x) :
    qiT ≤ x 5 ∧ qiT - 1/4 ≤ 1/10 * x 6 + 9/20 * x 2 ∧ x 2 ≤ 1/2 + 1/4 * x 3 + 1/4 * x 4 ∧ x 2 ≤ x 7 ∧ x 3 ≤ x 8 ∧ x 4 ≤ x 9 ∧
      x 3 ≤ 1/10^10 ∧ x 4 ≤ 1/10^10 ∧ 0 ≤ x 6 ∧ 0 ≤ x 8 ∧ 0 ≤ x 9 := by
  obtain ⟨h0, h⟩ := h
  have a0 := h (0, ⟨[(0, 1), (1, -1/10), (2, -9/20)], .le, 1/4⟩) (by simp [qiMilp])
  have a2 := h (2, ⟨[(2, 1), (3, -1/4), (4, -1/4)], .le, 1/2⟩) (by simp [qiMilp])
  have a3 := h (3, ⟨[(3, 1)], .le, 1/10^10⟩) (by simp [qiMilp])
  have a4 := h (4, ⟨[(4, 1)], .le, 1/10^10⟩) (by simp [qiMilp])
  have a5 := h (5, ⟨[(0, -1)], .le, -qiT⟩) (by simp [qiMilp])
  have a6 := h (6, ⟨[(0, 1), (5, -1)], .le, 0⟩) (by simp [qiMilp])
  have a7 := h (7, ⟨[(1, 1), (6, -1)], .le, 0⟩) (by simp [qiMilp])
  have a8 := h (8, ⟨[(2, 1), (7, -1)], .le, 0⟩) (by simp [qiMilp])
  have a9 := h (9, ⟨[(3, 1), (8, -1)], .le, 0⟩) (by simp [qiMilp])
  have a10 := h (10, ⟨[(4, 1), (9, -1)], .le, 0⟩) (by simp [qiMilp])
  have b6 := (h0 6 ⟨.real, some 0, some 1⟩ rfl).1 0 rfl
  have b8 := (h0 8 ⟨.real, some 0, some 1⟩ rfl).1 0 rfl
  have b9 := (h0 9 ⟨.real, some 0, some 1⟩ rfl).1 0 rfl
  simp only [Constr.sat, CSense.holds, evalE, List.map_cons, List.map_nil, List.sum_cons, List.sum_nil] at a0 a2 a3 a4 a5 a6 a7 a8 a9 a10
  refine ⟨by linarith, by linarith, by linarith, by linarith, by linarith, by linarith, by linarith, by linarith, b6, b8, b9⟩

theorem qi_obj (c : List ℚ) (x : Nat → ℚ) :
    (qiMilp c).objVal x = c.getD 0 0 * x 5 + c.getD 1 0 * x 6 + c.getD 2 0 * x 7 + c.getD 3 0 * x 8 + c.getD 4 0 * x 9 := by
  simp only [qiMilp, objVal, evalE, Option.getD_some, List.map_cons, List.map_nil, List.sum_cons, List.sum_nil]
  ring

theorem qi_feasible (c : List ℚ) {v : List ℚ} (hv : v = qiC1 ∨ v = qiC2) : (qiMilp c).Feasible (fun j => (v ++ v).getD j 0) := by
  refine ⟨fun i u hi => ?_, fun e he => ?_⟩
  · have hu : u = ⟨.real, some 0, some 1⟩ := List.eq_of_mem_replicate (List.mem_of_getElem? hi)
    have hl : i < 10 := by
      have := (List.getElem?_eq_some_iff.1 hi).1
      simpa [qiMilp] using this
    subst hu
    rcases hv with rfl | rfl <;> interval_cases i <;> norm_num [Var.ok, qiC1, qiC2, qiT]
  · simp only [qiMilp, List.mem_cons, List.not_mem_nil, or_false] at he
    rcases hv with rfl | rfl <;>
      rcases he with rfl | rfl | rfl | rfl | rfl | rfl | rfl | rfl | rfl | rfl | rfl <;>
      norm_num [Constr.sat, CSense.holds, evalE, qiC1, qiC2, qiT]

theorem qi_exact {c v : List ℚ} (hv : v = qiC1 ∨ v = qiC2)
    (h : ∀ x, (qiMilp c).Feasible x → (qiMilp c).objVal (fun j => (v ++ v).getD j 0) ≤ (qiMilp c).objVal x) :
    (⟨.optimal, v ++ v, (qiMilp c).objVal fun j => (v ++ v).getD j 0⟩ : Answer ℚ).Exact (qiMilp c) where
  optimal _ := ⟨⟨qi_feasible c hv, h⟩, by rcases hv with rfl | rfl <;> rfl, rfl⟩
  infeasible g := nomatch g
  unbounded g := nomatch g
  optimal' _ := rfl
  infeasible' g := absurd (qi_feasible c hv) (g _)

theorem qi_best1 : ∀ x, (qiMilp qiOnes).Feasible x → (qiMilp qiOnes).objVal (fun j => (qiC1 ++ qiC1).getD j 0) ≤ (qiMilp qiOnes).objVal x := by
  intro x hx
  obtain ⟨h1, h2, h3, h4, h5, h6, h7, h8, h9, h10, h11⟩ := qi_rows hx
  rw [qi_obj, qi_obj]
  norm_num [qiOnes, qiC1, qiT] at *
  linarith

theorem qi_best2 : ∀ x, (qiMilp qiNext).Feasible x → (qiMilp qiNext).objVal (fun j => (qiC2 ++ qiC2).getD j 0) ≤ (qiMilp qiNext).objVal x := by
  intro x hx
  obtain ⟨h1, h2, h3, h4, h5, h6, h7, h8, h9, h10, h11⟩ := qi_rows hx
  rw [qi_obj, qi_obj]
  norm_num [qiNext, qiC2, qiT] at *
  linarith

/-- **C124 (false as it stands).** With the default initial objective and the default updater the second iteration may report, and
`solve` return, a larger subsystem than the first one, although the solver is exact. -/
theorem C124_false : ∃ (rf : RF ℚ) (solver : Milp ℚ → Answer ℚ) (x x' : Subsystem ℚ),
    qiEx.WF ∧ RF.make exRnd qiEx "init" "goal" "fail" false = .ok rf ∧ (∀ m, (solver m).Exact m) ∧
    solveIter rf.form qiT (qsHeur rf.form solver (fun _ => solver) 2 allOnes (inverseResultUpdater fun _ => 1) qiT .min none .pulp) =
      ([⟨.success, some x, some 3, some qiC1⟩, ⟨.success, some x', some 4, some qiC2⟩], none) ∧
    solveLast (solveIter rf.form qiT (qsHeur rf.form solver (fun _ => solver) 1 allOnes (inverseResultUpdater fun _ => 1) qiT .min none .pulp)) =
      .ok ⟨.success, some x, some 3, some qiC1⟩ ∧
    solveLast (solveIter rf.form qiT (qsHeur rf.form solver (fun _ => solver) 2 allOnes (inverseResultUpdater fun _ => 1) qiT .min none .pulp)) =
      .ok ⟨.success, some x', some 4, some qiC2⟩ := by
  classical
  obtain ⟨rf, hrf, hp⟩ := exists_of_ok_and (x := RF.make exRnd qiEx "init" "goal" "fail" false)
    (p := fun rf => qiTest rf && decide (rf.form.certSize .min = 5)) (by decide +kernel)
  rw [Bool.and_eq_true, decide_eq_true_eq] at hp
  obtain ⟨h1, h3⟩ := hp
  obtain ⟨ex, hex⟩ := exists_exact ℚ
  have hne : qiMilp qiNext ≠ qiMilp qiOnes := by decide +kernel
  let solver : Milp ℚ → Answer ℚ := fun m =>
    if m = qiMilp qiOnes then ⟨.optimal, qiC1 ++ qiC1, (qiMilp qiOnes).objVal fun j => (qiC1 ++ qiC1).getD j 0⟩
    else if m = qiMilp qiNext then ⟨.optimal, qiC2 ++ qiC2, (qiMilp qiNext).objVal fun j => (qiC2 ++ qiC2).getD j 0⟩
    else ex m
  have s1 : solver (qiMilp qiOnes) = ⟨.optimal, qiC1 ++ qiC1, (qiMilp qiOnes).objVal fun j => (qiC1 ++ qiC1).getD j 0⟩ := if_pos rfl
  have s2 : solver (qiMilp qiNext) = ⟨.optimal, qiC2 ++ qiC2, (qiMilp qiNext).objVal fun j => (qiC2 ++ qiC2).getD j 0⟩ :=
    (if_neg hne).trans (if_pos rfl)
  have hs : ∀ m, (solver m).Exact m := by
    intro m
    by_cases hm : m = qiMilp qiOnes
    · subst hm
      rw [s1]
      exact qi_exact (Or.inl rfl) qi_best1
    · by_cases hm' : m = qiMilp qiNext
      · subst hm'
        rw [s2]
        exact qi_exact (Or.inr rfl) qi_best2
      · have : solver m = ex m := (if_neg hm).trans (if_neg hm')
        rw [this]
        exact hex m
  clear_value solver
  have hc : constructMILP rf.form solver qiT .min none true none .pulp = .ok (some (qiMilp qiOnes, qiInd)) := by
    unfold qiTest at h1
    rw [construct_min_lp solver fun _ => ⟨.notsolved, [], 0⟩]
    split at h1
    · rename_i m ind e
      rw [decide_eq_true_eq] at h1
      rw [e, h1.1, h1.2]
    · cases h1
  have o1 : (qiMilp qiOnes).setObjective (qiInd.map fun e => (e.1, 1)) = .ok (qiMilp qiOnes) := by decide +kernel
  have u1 : inverseUpdate (fun _ => 1) qiInd (qiC1 ++ qiC1) = .ok ((qiInd.map Prod.fst).zip qiNext) := by decide +kernel
  have u2 : ∃ obj, inverseUpdate (fun _ => 1) qiInd (qiC2 ++ qiC2) = .ok obj := by
    obtain ⟨obj, -, g, -⟩ := inverse_total (w := fun _ => (1 : ℚ)) (ind := qiInd) (L := 10) (by decide) (qiC2 ++ qiC2) rfl
    exact ⟨obj, g⟩
  have o2 : (qiMilp qiOnes).setObjective ((qiInd.map Prod.fst).zip qiNext) = .ok (qiMilp qiNext) := by decide +kernel
  obtain ⟨obj3, u2⟩ := u2
  have hmk : ∀ c : List ℚ, c.length = 5 → ∃ w, rf.form.mkSub c .min = .ok w := by
    intro c hcl
    exact ⟨_, if_pos (hcl.trans h3.symm)⟩
  obtain ⟨w, hw⟩ := hmk qiC1 rfl
  obtain ⟨w', hw'⟩ := hmk qiC2 rfl
  have t1 : (qiC1 ++ qiC1).take 5 = qiC1 := rfl
  have t2 : (qiC2 ++ qiC2).take 5 = qiC2 := rfl
  have n1 : (((qiC1 ++ qiC1).drop 5).countP fun x => decide (0 < x)) = 3 := by decide +kernel
  have n2 : (((qiC2 ++ qiC2).drop 5).countP fun x => decide (0 < x)) = 4 := by decide +kernel
  have run2 : solveIter rf.form qiT (qsHeur rf.form solver (fun _ => solver) 2 allOnes (inverseResultUpdater fun _ => 1) qiT .min none .pulp) =
      ([⟨.success, some w, some 3, some qiC1⟩, ⟨.success, some w', some 4, some qiC2⟩], none) := by
    unfold solveIter
    rw [if_pos (by norm_num [qiT]), if_pos fun _ => by norm_num [qiT]]
    simp only [qsHeur, hc, allOnes, qsLoop, o1, s1, if_true, h3, t1, hw, n1, inverseResultUpdater, u1, bind, Except.bind,
      addConstraints, List.foldlM_nil, pure, Except.pure, o2, s2, t2, hw', n2, u2]
    norm_num
  have run1 : solveIter rf.form qiT (qsHeur rf.form solver (fun _ => solver) 1 allOnes (inverseResultUpdater fun _ => 1) qiT .min none .pulp) =
      ([⟨.success, some w, some 3, some qiC1⟩], none) := by
    unfold solveIter
    rw [if_pos (by norm_num [qiT]), if_pos fun _ => by norm_num [qiT]]
    simp only [qsHeur, hc, allOnes, qsLoop, o1, s1, if_true, h3, t1, hw, n1, inverseResultUpdater, u1, bind, Except.bind,
      addConstraints, List.foldlM_nil, pure, Except.pure]
    norm_num
  refine ⟨rf, solver, w, w', qiEx_wf, hrf, hs, run2, ?_, ?_⟩
  · rw [run1]; rfl
  · rw [run2]; rfl

/-- the hypotheses of `C124_partial` are met: in the run of `C124_false` the states 3 and 4 come back, with a value of 2e-10 -/
example : ∃ (rf : RF ℚ) (solver : Milp ℚ → Answer ℚ) (r r' : ProblemResult (Subsystem ℚ) ℚ), qiEx.WF ∧
    RF.make exRnd qiEx "init" "goal" "fail" false = .ok rf ∧ (∀ m, (solver m).Sound m) ∧ LibInit (fun _ => (1 : ℚ)) allOnes ∧
    (solveIter rf.form qiT (qsHeur rf.form solver (fun _ => solver) 2 allOnes (inverseResultUpdater fun _ => 1) qiT .min none .pulp)).1[0]? = some r ∧
    (solveIter rf.form qiT (qsHeur rf.form solver (fun _ => solver) 2 allOnes (inverseResultUpdater fun _ => 1) qiT .min none .pulp)).1[1]? = some r' ∧
    r'.status = .success := by
  obtain ⟨rf, solver, x, x', h1, h2, h3, h4, -⟩ := C124_false
  exact ⟨rf, solver, _, _, h1, h2, fun m => (h3 m).toSound, Or.inl rfl, by rw [h4]; rfl, by rw [h4]; rfl, rfl⟩

/-- the hypotheses of `C124_labels_partial` are met -/
example : ∃ (rf : RF ℚ) (solver : Milp ℚ → Answer ℚ) (r r' : ProblemResult (Subsystem ℚ) ℚ), exactEx.WF ∧
    RF.make exRnd exactEx "init" "goal" "fail" false = .ok rf ∧ (∀ m, (solver m).Sound m) ∧ LibInit (fun _ => (1 : ℚ)) allOnes ∧
    LabelsOK exactEx (some ["a"]) ∧
    (solveIter rf.form (1/4) (qsHeur rf.form solver (fun _ => solver) 2 allOnes (inverseResultUpdater fun _ => 1) (1/4) .min (some ["a"]) .pulp)).1[0]? = some r ∧
    (solveIter rf.form (1/4) (qsHeur rf.form solver (fun _ => solver) 2 allOnes (inverseResultUpdater fun _ => 1) (1/4) .min (some ["a"]) .pulp)).1[1]? = some r' ∧
    r'.status = .success := by
  obtain ⟨rf, hrf, he, ⟨h4, -⟩, -⟩ := exactEx_accepted
  obtain ⟨solver, hs⟩ := exists_exact ℚ
  obtain ⟨x', res, n, q1, q2, q3⟩ := C45_returns (ρ' := exRnd) (mode := .min) exactEx_wf exactEx_labS hrf (Or.inl rfl) exactEx_labA rfl
    (fun g => by cases g) ratR (t := 1/4) (by norm_num) (fun g => nomatch g) h4
  have hn : n ∈ res.rf.sys.labelled "init" := ⟨_, q3, by simp⟩
  have hW : Witness rf "init" "goal" ratR .min (1/4) (some ["a"]) _ :=
    ⟨[1/2], .min, true, x', _, res, n, q1, q2, hn, C45_min_ge exactEx_wf exactEx_labS hrf h4 q1 q2 ratR hn, rfl⟩
  obtain ⟨-, ⟨r, e, hin⟩ | ⟨hlen, hall⟩⟩ := C42_returns (t := 1/4) (n := 2) (mode := .min) exactEx_wf hrf ratR hs (fun _ => hs) (by norm_num) (by norm_num)
    exactEx_init exactEx_labels (w := fun _ => (1 : ℚ)) (fun _ => one_pos) (Or.inl rfl) (upd := inverseResultUpdater fun _ => 1) (Or.inl rfl)
  · exact absurd hW (C41_infeasible exactEx_wf exactEx_labS hrf ratR (fun m => (hs m).toSound) (fun _ m => (hs m).toSound) exactEx_labels
      (w := fun _ => (1 : ℚ)) (fun _ => one_pos) (Or.inl rfl) (Or.inl rfl) (by rw [e]; exact List.mem_singleton_self r) hin _)
  · exact ⟨rf, solver, _, _, exactEx_wf, hrf, fun m => (hs m).toSound, Or.inl rfl, exactEx_labels, List.getElem?_eq_getElem (by omega),
      List.getElem?_eq_getElem (by omega), hall _ (List.getElem_mem _)⟩

end Verif.Props
