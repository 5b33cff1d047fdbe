import Verif.Proofs.Groups
import Verif.Proofs.LP
import Verif.Theory.LP
/-! the loop of `QSHeur` -/
set_option linter.unusedSectionVars false
namespace Verif.Proofs
open Verif.Model Verif.Model.Milp Finset

variable {K : Type} [Field K] [LinearOrder K] [IsStrictOrderedRing K] {σ : Type}

theorem qs_addConstraints (cs : List (List (Nat × K) × CSense × K)) {m m' : Milp K} (hk : KeysLt m)
    (h : m.addConstraints cs = .ok m') :
    KeysLt m' ∧ m'.be = m.be ∧ m'.vars = m.vars ∧ m'.obj = m.obj ∧ m'.maximize = m.maximize ∧
      ∀ x, m'.Feasible x ↔ m.Feasible x ∧ ∀ c ∈ cs, CSense.holds c.2.1 (evalE (expr m.be c.1) x) c.2.2 := by
  induction cs generalizing m with
  | nil =>
    simp only [addConstraints, List.foldlM_nil, pure, Except.pure, Except.ok.injEq] at h
    subst h
    exact ⟨hk, rfl, rfl, rfl, rfl, fun x => by simp⟩
  | cons c cs ih =>
    simp only [addConstraints, List.foldlM_cons, bind, Except.bind] at h
    split at h
    · cases h
    rename_i m1 h1
    split at h1
    · cases h1
    rename_i p hp
    cases h1
    obtain ⟨-, a1, a2, a3, a4, a5, a6⟩ := addConstraint_inv (i := p.1) (m' := p.2) hk hp
    obtain ⟨b1, b2, b3, b4, b5, b6⟩ := ih a1 h
    refine ⟨b1, by rw [b2, a2], by rw [b3, a3], by rw [b4, a4], by rw [b5, a5], fun x => ?_⟩
    rw [b6, a6, a2]
    simp only [List.mem_cons, forall_eq_or_imp, and_assoc]

/-- a successful result for the solver's vector `v` -/
def Out (f : Form σ K) (mode : Mode) (r : ProblemResult σ K) (v : List K) : Prop :=
  ∃ w, f.mkSub (v.take (f.certSize mode)) mode = .ok w ∧
    r = ⟨.success, some w, some (((v.drop (f.certSize mode)).countP fun x => decide (0 < x) : Nat) : K),
      some (v.take (f.certSize mode))⟩

/-- every vector satisfies what the first model demands -/
theorem qsLoop_sound {f : Form σ K} {solver : Nat → Milp K → Answer K} {mode : Mode} {upd : Updater K}
    (hs : ∀ k m, (solver k m).Right m) {F : (Nat → K) → Prop} {L : Nat} :
    ∀ (k : Nat) (m : Milp K) (obj : List (Nat × K)), KeysLt m → m.vars.length = L → (∀ x, m.Feasible x → F x) →
      ∀ r ∈ (qsLoop f solver mode upd k m obj).1, r.status = .success →
        ∃ v, v.length = L ∧ F (fun j => v.getD j 0) ∧ Out f mode r v := by
  intro k
  induction k with
  | zero => intro m obj _ _ _ r hr; simp [qsLoop] at hr
  | succ k ih =>
    intro m obj hk hL hF r hr hst
    simp only [qsLoop] at hr
    split at hr
    · simp at hr
    rename_i m1 hm1
    obtain ⟨o1, o2, o3, o4, o5, -⟩ := setObjective_inv hm1
    have hk1 : KeysLt m1 := by intro e he; rw [o2] at he; rw [o3]; exact hk e he
    split at hr
    · rename_i ho
      split at hr
      · simp at hr
      rename_i w hw
      obtain ⟨h1, h2, -⟩ := (hs k m1).optimal ho
      have hout : ∃ v, v.length = L ∧ F (fun j => v.getD j 0) ∧ Out f mode
          ⟨.success, some w, some ((((solver k m1).vec.drop (f.certSize mode)).countP fun x => decide (0 < x) : Nat) : K),
            some ((solver k m1).vec.take (f.certSize mode))⟩ v :=
        ⟨(solver k m1).vec, by rw [h2, o1, hL], hF _ ((feasible_congr o1 o2 _).1 h1), w, hw, rfl⟩
      split at hr
      · simp only [List.mem_singleton] at hr
        subst hr
        exact hout
      · rename_i p hp
        simp only [List.mem_cons] at hr
        rcases hr with rfl | hr
        · exact hout
        · simp only [bind, Except.bind] at hp
          split at hp
          · cases hp
          split at hp
          · cases hp
          split at hp
          · cases hp
          rename_i m2 hm2
          simp only [Except.ok.injEq, Prod.mk.injEq] at hp
          obtain ⟨rfl, rfl⟩ := hp
          obtain ⟨b1, b2, b3, b4, b5, b6⟩ := qs_addConstraints _ hk1 hm2
          exact ih m2 _ b1 (by rw [b3, o1, hL]) (fun x hx => hF x ((feasible_congr o1 o2 _).1 ((b6 x).1 hx).1)) r hr hst
    · simp only [List.mem_singleton] at hr
      subst hr
      have hs' : PStatus.failed _ = PStatus.success := hst
      cases hs'

/-- "infeasible" is only reported in the first iteration: constraints that fix zeros of a solution keep this solution -/
theorem qsLoop_infeasible {f : Form σ K} {solver : Nat → Milp K → Answer K} {mode : Mode} {upd : Updater K}
    (hs : ∀ k m, (solver k m).Right m)
    (hu : ∀ v cs, upd.constraints v = .ok cs → ∀ c ∈ cs, ∃ i, v.getD i 0 = 0 ∧ c = ([(i, 1)], .eq, 0)) :
    ∀ (k : Nat) (m : Milp K) (obj : List (Nat × K)), KeysLt m →
      ∀ r ∈ (qsLoop f solver mode upd k m obj).1, r.status = .failed .infeasible → ∀ x, ¬ m.Feasible x := by
  intro k
  induction k with
  | zero => intro m obj _ r hr; simp [qsLoop] at hr
  | succ k ih =>
    intro m obj hk r hr hst x hx
    simp only [qsLoop] at hr
    split at hr
    · simp at hr
    rename_i m1 hm1
    obtain ⟨o1, o2, o3, o4, o5, -⟩ := setObjective_inv hm1
    have hk1 : KeysLt m1 := by intro e he; rw [o2] at he; rw [o3]; exact hk e he
    split at hr
    · rename_i ho
      obtain ⟨h1, -, -⟩ := (hs k m1).optimal ho
      split at hr
      · simp at hr
      split at hr
      · simp only [List.mem_singleton] at hr
        subst hr
        cases hst
      · rename_i p hp
        simp only [List.mem_cons] at hr
        rcases hr with rfl | hr
        · cases hst
        · simp only [bind, Except.bind] at hp
          split at hp
          · cases hp
          split at hp
          · cases hp
          rename_i cs hcs
          split at hp
          · cases hp
          rename_i m2 hm2
          simp only [Except.ok.injEq, Prod.mk.injEq] at hp
          obtain ⟨rfl, rfl⟩ := hp
          obtain ⟨b1, b2, b3, b4, b5, b6⟩ := qs_addConstraints _ hk1 hm2
          refine ih m2 _ b1 r hr hst (fun j => (solver k m1).vec.getD j 0) ((b6 _).2 ⟨h1, fun c hc => ?_⟩)
          obtain ⟨i, hi, rfl⟩ := hu _ _ hcs c hc
          show evalE (expr m1.be [(i, 1)]) _ = 0
          rw [evalE_expr m1.be _ (fun _ => by simp)]
          simpa [terms] using hi
    · simp only [List.mem_singleton] at hr
      subst hr
      have hst : PStatus.failed (solver k m1).status = .failed .infeasible := hst
      injection hst with hst
      exact (hs k m1).infeasible hst x ((feasible_congr o1 o2 _).2 hx)

/-- shape of the results -/
theorem qsLoop_shape (f : Form σ K) (solver : Nat → Milp K → Answer K) (mode : Mode) (upd : Updater K) :
    ∀ (k : Nat) (m : Milp K) (obj : List (Nat × K)),
      (qsLoop f solver mode upd k m obj).1.length ≤ k ∧
      ∃ rs tail, (qsLoop f solver mode upd k m obj).1 = rs ++ tail ∧ (∀ r ∈ rs, r.status = .success) ∧
        ((tail = [] ∧ ((qsLoop f solver mode upd k m obj).2 = none → rs.length = k)) ∨
          ∃ s, s ≠ .optimal ∧ tail = [failure s] ∧ (qsLoop f solver mode upd k m obj).2 = none) := by
  intro k
  induction k with
  | zero => intro m obj; exact ⟨by simp [qsLoop], [], [], by simp [qsLoop], by simp, Or.inl ⟨rfl, fun _ => rfl⟩⟩
  | succ k ih =>
    intro m obj
    simp only [qsLoop]
    split
    · exact ⟨by simp, [], [], rfl, by simp, Or.inl ⟨rfl, fun h => by simp at h⟩⟩
    split
    · split
      · exact ⟨by simp, [], [], rfl, by simp, Or.inl ⟨rfl, fun h => by simp at h⟩⟩
      split
      · exact ⟨by simp, [_], [], rfl, by simp, Or.inl ⟨rfl, fun h => by simp at h⟩⟩
      · rename_i m2 obj2 hp
        obtain ⟨h1, rs, tail, h2, h3, h4⟩ := ih m2 obj2
        refine ⟨by simpa using h1, _ :: rs, tail, by rw [h2]; rfl, ?_, ?_⟩
        · intro r hr
          rcases List.mem_cons.1 hr with rfl | hr
          · rfl
          · exact h3 r hr
        · rcases h4 with ⟨h5, h6⟩ | h4
          · exact Or.inl ⟨h5, fun h => by simp [h6 h]⟩
          · exact Or.inr h4
    · rename_i ho
      exact ⟨by simp, [], [_], rfl, by simp, Or.inr ⟨_, ho, rfl, rfl⟩⟩

/-! ### updaters that fix groups at zero or give them a positive weight -/

structure GoodUpd (ind : List (Nat × List Nat)) (upd : Updater K) : Prop where
  con : ∀ v cs, upd.constraints v = .ok cs → ∀ c ∈ cs, ∃ i, v.getD i 0 = 0 ∧ c = ([(i, 1)], .eq, 0)
  upd : ∀ v obj, (∀ e ∈ ind, 0 ≤ v.getD e.1 0) → upd.update v = .ok obj → (obj.map Prod.fst).Nodup ∧ (∀ t ∈ obj, 0 ≤ t.2) ∧
    ∀ cs, upd.constraints v = .ok cs → ∀ e ∈ ind, ([(e.1, 1)], CSense.eq, (0 : K)) ∈ cs ∨ ∃ c, 0 < c ∧ (e.1, c) ∈ obj

/-- a model that restricts `F` by fixing some variables at zero -/
structure St (F : (Nat → K) → Prop) (L : Nat) (Z : Nat → Prop) (m : Milp K) : Prop where
  keys : KeysLt m
  vars : m.vars.length = L
  maximize : m.maximize = false
  objK : ObjK m
  feas : ∀ x, m.Feasible x ↔ F x ∧ ∀ i, Z i → x i = 0

/-- an objective that gives a positive weight to all groups not yet fixed -/
structure ObjOK (ind : List (Nat × List Nat)) (Z : Nat → Prop) (obj : List (Nat × K)) : Prop where
  nodup : (obj.map Prod.fst).Nodup
  nonneg : ∀ t ∈ obj, 0 ≤ t.2
  pos : ∀ e ∈ ind, ¬ Z e.1 → ∃ c, 0 < c ∧ (e.1, c) ∈ obj

theorem evalE_nonneg {d : Dict Nat K} {x : Nat → K} (h : ∀ t ∈ d, 0 ≤ t.2 ∧ (t.2 = 0 ∨ 0 ≤ x t.1)) : 0 ≤ evalE d x := by
  unfold evalE
  refine List.sum_nonneg fun y hy => ?_
  obtain ⟨t, ht, rfl⟩ := List.mem_map.1 hy
  rcases (h t ht).2 with h' | h'
  · rw [h', zero_mul]
  · exact mul_nonneg (h t ht).1 h'

theorem evalE_single (be : Backend) (i : Nat) (x : Nat → K) : evalE (expr be [(i, 1)]) x = x i := by
  rw [evalE_expr be _ (fun _ => by simp)]
  simp [terms]

/-- what is known of the loop, for any set `F` of points of which the model is a restriction; a solution is the only one below itself -/
theorem qsLoop_best {f : Form σ K} {solver : Nat → Milp K → Answer K} {mode : Mode} {upd : Updater K}
    {ind : List (Nat × List Nat)} (G : GoodUpd ind upd) (hs : ∀ k m, (solver k m).Sound m) {F : (Nat → K) → Prop} {L : Nat}
    (h0 : ∀ x, F x → ∀ i < L, 0 ≤ x i) (hi : ∀ e ∈ ind, e.1 < L) :
    ∀ (k : Nat) (Z : Nat → Prop) (m : Milp K) (obj : List (Nat × K)), St F L Z m → ObjOK ind Z obj →
      ∃ rs vs tail, (qsLoop f solver mode upd k m obj).1 = rs ++ tail ∧ List.Forall₂ (Out f mode) rs vs ∧
        (∀ v ∈ vs, v.length = L ∧ F (fun j => v.getD j 0) ∧ (∀ i, Z i → v.getD i 0 = 0) ∧
          ∀ x, F x → (∀ i, x i ≤ v.getD i 0 ∧ (v.getD i 0 = 0 → x i = 0)) → ∀ e ∈ ind, x e.1 = v.getD e.1 0) ∧
        vs.Pairwise (fun v v' => ∀ cs, upd.constraints v = .ok cs → ∀ i, ([(i, 1)], CSense.eq, (0 : K)) ∈ cs → v'.getD i 0 = 0) ∧
        (tail = [] ∨ ∃ s, tail = [failure s] ∧ s ≠ .optimal ∧ s ≠ .unbounded ∧
          (s = .infeasible → rs = [] ∧ ∀ x, F x → ¬ ∀ i, Z i → x i = 0)) := by
  intro k
  induction k with
  | zero => intro Z m obj _ _; exact ⟨[], [], [], by simp [qsLoop], .nil, by simp, .nil, Or.inl rfl⟩
  | succ k ih =>
    intro Z m obj S O
    simp only [qsLoop]
    split
    · exact ⟨[], [], [], rfl, .nil, by simp, .nil, Or.inl rfl⟩
    rename_i m1 hm1
    obtain ⟨o1, o2, o3, o4, o5, -⟩ := setObjective_inv hm1
    obtain ⟨oK, o, ho, hco⟩ := setObjective_obj hm1 S.objK O.nodup O.nonneg
    have hk1 : KeysLt m1 := by intro e he; rw [o2] at he; rw [o3]; exact S.keys e he
    have hf1 : ∀ x, m1.Feasible x ↔ F x ∧ ∀ i, Z i → x i = 0 := fun x => by rw [feasible_congr o1 o2, S.feas]
    have hpos : ∀ x, m1.Feasible x → 0 ≤ m1.objVal x := by
      intro x hx
      unfold objVal
      rw [ho]
      refine evalE_nonneg fun t ht => ?_
      obtain ⟨g1, g2⟩ := (oK o ho).2 t ht
      exact ⟨g1, g2.imp_right fun g => h0 x ((hf1 x).1 hx).1 _ (by rw [← S.vars, ← o1]; exact g)⟩
    split
    · rename_i hopt
      obtain ⟨q1, q2, -⟩ := (hs k m1).optimal hopt
      have q3 := (hf1 _).1 q1.1
      have hv : ((solver k m1).vec.length = L ∧ F (fun j => (solver k m1).vec.getD j 0) ∧
          (∀ i, Z i → (solver k m1).vec.getD i 0 = 0) ∧
          ∀ x, F x → (∀ i, x i ≤ (solver k m1).vec.getD i 0 ∧ ((solver k m1).vec.getD i 0 = 0 → x i = 0)) →
            ∀ e ∈ ind, x e.1 = (solver k m1).vec.getD e.1 0) := by
        refine ⟨by rw [q2, o1, S.vars], q3.1, q3.2, fun x hx hle e he => ?_⟩
        by_contra hne
        have hlt : x e.1 < (solver k m1).vec.getD e.1 0 := lt_of_le_of_ne (hle e.1).1 hne
        have hnZ : ¬ Z e.1 := fun h => by
          have h1 := q3.2 _ h
          exact hne (by rw [h1, (hle e.1).2 h1])
        obtain ⟨c, hc, hm⟩ := O.pos e he hnZ
        have := q1.2 _ ((hf1 _).2 ⟨hx, fun i hZ => (hle i).2 (q3.2 i hZ)⟩)
        rw [o5, S.maximize] at this
        simp only [Bool.false_eq_true, if_false] at this
        unfold objVal at this
        rw [ho] at this
        simp only [Option.getD_some] at this
        refine absurd this (not_le.2 ?_)
        have hmem := Dict.mem_of_get? (hco _ hm)
        unfold evalE
        exact List.sum_lt_sum _ _ (fun t ht => mul_le_mul_of_nonneg_left (hle t.1).1 ((oK o ho).2 t ht).1)
          ⟨_, hmem, mul_lt_mul_of_pos_left hlt hc⟩
      split
      · exact ⟨[], [], [], rfl, .nil, by simp, .nil, Or.inl rfl⟩
      rename_i w hw
      have hout : Out f mode
          ⟨.success, some w, some ((((solver k m1).vec.drop (f.certSize mode)).countP fun x => decide (0 < x) : Nat) : K),
            some ((solver k m1).vec.take (f.certSize mode))⟩ (solver k m1).vec := ⟨w, hw, rfl⟩
      split
      · exact ⟨[_], [_], [], rfl, .cons hout .nil, by simpa using hv, by simp, Or.inl rfl⟩
      · rename_i p hp
        simp only [bind, Except.bind] at hp
        split at hp
        · cases hp
        rename_i obj' hobj'
        split at hp
        · cases hp
        rename_i cs hcs
        split at hp
        · cases hp
        rename_i m2 hm2
        simp only [Except.ok.injEq, Prod.mk.injEq] at hp
        obtain ⟨rfl, rfl⟩ := hp
        obtain ⟨b1, b2, b3, b4, b5, b6⟩ := qs_addConstraints _ hk1 hm2
        obtain ⟨u1, u2, u3⟩ := G.upd _ _ (fun e he => h0 _ q3.1 e.1 (hi e he)) hobj'
        have hcz : ∀ x, (∀ c ∈ cs, CSense.holds c.2.1 (evalE (expr m1.be c.1) x) c.2.2) ↔
            ∀ i, ([(i, 1)], CSense.eq, (0 : K)) ∈ cs → x i = 0 := by
          intro x
          constructor
          · intro h i hi
            have := h _ hi
            rw [evalE_single] at this
            exact this
          · intro h c hc
            obtain ⟨i, -, rfl⟩ := G.con _ _ hcs c hc
            show evalE (expr m1.be [(i, 1)]) x = 0
            rw [evalE_single]
            exact h i hc
        obtain ⟨rs, vs, tail, r1, r2, r3, r4, r5⟩ := ih (fun i => Z i ∨ ([(i, 1)], CSense.eq, (0 : K)) ∈ cs) m2 obj'
          ⟨b1, by rw [b3, o1, S.vars], by rw [b5, o5, S.maximize], fun o' ho' => by
              rw [b4] at ho'
              rw [b3]
              exact oK o' ho', fun x => by
              rw [b6, hf1, hcz]
              constructor
              · rintro ⟨⟨h1, h2⟩, h3⟩
                exact ⟨h1, fun i h => h.elim (h2 i) (h3 i)⟩
              · rintro ⟨h1, h2⟩
                exact ⟨⟨h1, fun i h => h2 i (Or.inl h)⟩, fun i h => h2 i (Or.inr h)⟩⟩
          ⟨u1, u2, fun e he hne => (u3 cs hcs e he).resolve_left fun h => hne (Or.inr h)⟩
        refine ⟨_ :: rs, (solver k m1).vec :: vs, tail, by rw [r1]; rfl, .cons hout r2, ?_, ?_, ?_⟩
        · intro v hvm
          rcases List.mem_cons.1 hvm with rfl | hvm
          · exact hv
          · obtain ⟨a1, a2, a3, a4⟩ := r3 v hvm
            exact ⟨a1, a2, fun i h => a3 i (Or.inl h), a4⟩
        · refine List.pairwise_cons.2 ⟨fun v hvm cs' hcs' i hi' => ?_, r4⟩
          rw [hcs] at hcs'
          cases hcs'
          exact (r3 v hvm).2.2.1 i (Or.inr hi')
        · rcases r5 with h | ⟨s, s1, s2, s3, s4⟩
          · exact Or.inl h
          · refine Or.inr ⟨s, s1, s2, s3, fun h => absurd ?_ ((s4 h).2 _ q3.1)⟩
            rintro i (h | h)
            · exact q3.2 i h
            · obtain ⟨i', h1, h2⟩ := G.con _ _ hcs _ h
              simp only [Prod.mk.injEq, List.cons.injEq, and_true] at h2
              rw [h2]; exact h1
    · rename_i hopt
      refine ⟨[], [], [_], rfl, .nil, by simp, .nil, Or.inr ⟨_, rfl, hopt, fun h => ?_, fun h => ⟨rfl, fun x hx hz => ?_⟩⟩⟩
      · obtain ⟨x, hx, hle⟩ := (hs k m1).unbounded h (-1)
        rw [o5, S.maximize] at hle
        simp only [Bool.false_eq_true, if_false] at hle
        have := hpos x hx
        linarith
      · exact (hs k m1).infeasible h x ((hf1 x).2 ⟨hx, hz⟩)

/-! ### solvers that solve everything -/

theorem evalE_lin {L : Nat} (o : Dict Nat K) (h : ∀ t ∈ o, t.2 = 0 ∨ t.1 < L) : Theory.LP.Lin L (evalE o) := by
  induction o with
  | nil => exact (Theory.LP.Lin.const 0).congr fun x => by simp [evalE]
  | cons p o ih =>
    have h1 : Theory.LP.Lin L fun x => p.2 * x p.1 := by
      rcases h p (by simp) with h | h
      · exact (Theory.LP.Lin.const 0).congr fun x => by rw [h, zero_mul]
      · exact (Theory.LP.Lin.var h).smul p.2
    exact (h1.add (ih fun t ht => h t (by simp [ht]))).congr fun x => by simp [evalE]

theorem qsLoop_exact {f : Form σ K} {solver : Nat → Milp K → Answer K} {mode : Mode} {upd : Updater K}
    {ind : List (Nat × List Nat)} (G : GoodUpd ind upd) (hs : ∀ k m, (solver k m).Exact m) {F : (Nat → K) → Prop} {L : Nat}
    (h0 : ∀ x, F x → ∀ i < L, 0 ≤ x i) (hi : ∀ e ∈ ind, e.1 < L) (hF : Theory.LP.Poly L F) :
    ∀ (k : Nat) (Z : Nat → Prop) (m : Milp K) (obj : List (Nat × K)), St F L Z m → ObjOK ind Z obj →
      (∃ x, F x ∧ ∀ i, Z i → x i = 0) →
      ∀ r ∈ (qsLoop f solver mode upd k m obj).1, r.status = .success := by
  intro k
  induction k with
  | zero => intro Z m obj _ _ _ r hr; simp [qsLoop] at hr
  | succ k ih =>
    intro Z m obj S O hne r hr
    simp only [qsLoop] at hr
    split at hr
    · simp at hr
    rename_i m1 hm1
    obtain ⟨o1, o2, o3, o4, o5, -⟩ := setObjective_inv hm1
    obtain ⟨oK, o, ho, hco⟩ := setObjective_obj hm1 S.objK O.nodup O.nonneg
    have hk1 : KeysLt m1 := by intro e he; rw [o2] at he; rw [o3]; exact S.keys e he
    have hf1 : ∀ x, m1.Feasible x ↔ F x ∧ ∀ i, Z i → x i = 0 := fun x => by rw [feasible_congr o1 o2, S.feas]
    have hL1 : m1.vars.length = L := by rw [o1, S.vars]
    have hobj : ∀ x, m1.objVal x = evalE o x := fun x => by unfold objVal; rw [ho]; rfl
    obtain ⟨k1, k2⟩ := oK o ho
    have hopt : (solver k m1).status = .optimal := by
      obtain ⟨x0, x1, x2⟩ := hne
      obtain ⟨x, y1, y2, y3⟩ := Theory.LP.attains (n := L) (B := 0) (f := evalE o)
        (hF.and (Theory.LP.Poly.forall_lt L (P := fun i x => Z i → x i = 0) fun i hi =>
          Theory.LP.Poly.imp (Z i) fun _ => Theory.LP.Poly.eq (Theory.LP.Lin.var hi) (Theory.LP.Lin.const 0)))
        (evalE_lin o fun t ht => by rw [← hL1]; exact (k2 t ht).2) ⟨x0, x1, fun i _ h => x2 i h⟩ (fun x hx => by
          refine evalE_nonneg fun t ht => ⟨(k2 t ht).1, (k2 t ht).2.imp_right fun g => h0 x hx.1 _ (by rw [← hL1]; exact g)⟩)
      have hfe : m1.Feasible x := (hf1 x).2 ⟨y1.1, fun i hZ => by
        rcases Nat.lt_or_ge i L with h | h
        · exact y1.2 i h hZ
        · exact y2 i h⟩
      refine (hs k m1).optimal' ⟨x, ⟨hfe, fun y hy => ?_⟩, fun j hj => y2 j (by rw [← hL1]; exact hj)⟩
      rw [o5, S.maximize]
      simp only [Bool.false_eq_true, if_false, hobj]
      obtain ⟨w1, w2⟩ := (hf1 y).1 hy
      exact y3 y ⟨w1, fun i _ h => w2 i h⟩
    rw [if_pos hopt] at hr
    obtain ⟨q1, q2, -⟩ := (hs k m1).optimal hopt
    have q3 := (hf1 _).1 q1.1
    split at hr
    · simp at hr
    split at hr
    · rw [List.mem_singleton] at hr
      subst hr
      rfl
    · rename_i p hp
      rcases List.mem_cons.1 hr with rfl | hr
      · rfl
      simp only [bind, Except.bind] at hp
      split at hp
      · cases hp
      rename_i obj' hobj'
      split at hp
      · cases hp
      rename_i cs hcs
      split at hp
      · cases hp
      rename_i m2 hm2
      simp only [Except.ok.injEq, Prod.mk.injEq] at hp
      obtain ⟨rfl, rfl⟩ := hp
      obtain ⟨b1, b2, b3, b4, b5, b6⟩ := qs_addConstraints _ hk1 hm2
      obtain ⟨u1, u2, u3⟩ := G.upd _ _ (fun e he => h0 _ q3.1 e.1 (hi e he)) hobj'
      have hcz : ∀ x, (∀ c ∈ cs, CSense.holds c.2.1 (evalE (expr m1.be c.1) x) c.2.2) ↔
          ∀ i, ([(i, 1)], CSense.eq, (0 : K)) ∈ cs → x i = 0 := by
        intro x
        constructor
        · intro h i hi
          have := h _ hi
          rw [evalE_single] at this
          exact this
        · intro h c hc
          obtain ⟨i, -, rfl⟩ := G.con _ _ hcs c hc
          show evalE (expr m1.be [(i, 1)]) x = 0
          rw [evalE_single]
          exact h i hc
      refine ih (fun i => Z i ∨ ([(i, 1)], CSense.eq, (0 : K)) ∈ cs) m2 obj'
        ⟨b1, by rw [b3, o1, S.vars], by rw [b5, o5, S.maximize], fun o' ho' => by
            rw [b4] at ho'
            rw [b3]
            exact oK o' ho', fun x => by
            rw [b6, hf1, hcz]
            constructor
            · rintro ⟨⟨h1, h2⟩, h3⟩
              exact ⟨h1, fun i h => h.elim (h2 i) (h3 i)⟩
            · rintro ⟨h1, h2⟩
              exact ⟨⟨h1, fun i h => h2 i (Or.inl h)⟩, fun i h => h2 i (Or.inr h)⟩⟩
        ⟨u1, u2, fun e he hne => (u3 cs hcs e he).resolve_left fun h => hne (Or.inr h)⟩
        ⟨_, q3.1, ?_⟩ r hr
      rintro i (h | h)
      · exact q3.2 i h
      · obtain ⟨i', h1, h2⟩ := G.con _ _ hcs _ h
        simp only [Prod.mk.injEq, List.cons.injEq, and_true] at h2
        rw [h2]; exact h1

/-- the relaxed model is a linear program -/
theorem built_poly {f : Form σ K} {mode : Mode} {A : Mat K} {b : List K} {ub : Option (List K)} {groups : List (List Nat)}
    {m : Milp K} {ind : List (Nat × List Nat)} (hA : A.cols = f.certSize mode) (B : Built f mode true A b ub groups m ind)
    (hlt : ∀ g ∈ groups, ∀ w ∈ g, w < f.certSize mode) : Theory.LP.Poly m.vars.length m.Feasible := by
  open Theory.LP in
  have hv := B.vars
  have p1 : Poly m.vars.length (InPoly f mode A b ub) := by
    refine ((Poly.forall_lt (f.certSize mode) (P := fun j x => 0 ≤ x j) fun j hj => Poly.le (Lin.const 0) (Lin.var (by omega))).and
      ((Poly.forall_lt (f.certSize mode) (P := fun j x => ∀ u ∈ ub.toList, x j ≤ u.getD j 0) fun j hj =>
          Poly.forall_list _ fun u _ => Poly.le (Lin.var (by omega)) (Lin.const _)).and
      ((Poly.imp (P := fun x => ∀ j < f.certSize mode, f.inProperEC j = true → x j = 0) (mode = .min) fun _ =>
          Poly.forall_lt _ fun j hj => Poly.imp _ fun _ => Poly.eq (Lin.var (by omega)) (Lin.const 0)).and
      (Poly.forall_lt A.rows (P := fun i x => ∑ j ∈ range A.cols, A.at_ i j * x j ≤ b.getD i 0) fun i _ =>
        Poly.le (Lin.sum _ fun j hj => (Lin.var (by have := mem_range.1 hj; omega)).smul _) (Lin.const _))))).congr fun x => ?_
    constructor
    · intro h
      refine ⟨h.nonneg, fun j hj u hu => h.upper u (by simpa using hu) j hj, h.ec, h.rows⟩
    · rintro ⟨h1, h2, h3, h4⟩
      exact ⟨h1, fun u hu j hj => h2 j hj u (by simp [hu]), h3, h4⟩
  refine (p1.and ((Poly.forall_lt groups.length (P := fun k x => 0 ≤ x (f.certSize mode + k) ∧ (ub ≠ none → x (f.certSize mode + k) ≤ 1))
      fun k hk => (Poly.le (Lin.const 0) (Lin.var (by omega))).and (Poly.imp _ fun _ => Poly.le (Lin.var (by omega)) (Lin.const 1))).and
    (Poly.forall_lt groups.length (P := fun k x => ∀ w ∈ groups.getD k [], x w ≤ ubAt ub w * x (f.certSize mode + k)) fun k hk =>
      Poly.forall_list _ fun w hw => Poly.le (Lin.var (by have := mem_getD_lt hlt hw; omega)) ((Lin.var (by omega)).smul _)))).congr fun x => ?_
  rw [B.feasible hlt]
  refine and_congr_right fun _ => and_congr ?_ ?_
  · exact forall_congr' fun k => forall_congr' fun _ => ⟨fun g => ⟨g.1, g.2.2⟩, fun g => ⟨g.1, (fun h => nomatch h), g.2⟩⟩
  · constructor
    · intro h k hk w hw
      exact h k _ (by rw [List.getD_eq_getElem _ _ hk]; exact List.getElem?_eq_getElem hk) w hw
    · intro h k g hg w hw
      obtain ⟨hk, -⟩ := List.getElem?_eq_some_iff.1 hg
      exact h k hk w (by rw [List.getD_eq_getElem?_getD, hg]; exact hw)

/-! ### no exception -/

theorem setObjective_ok {m : Milp K} {e : List (Nat × K)} (h : ∀ t ∈ e, t.1 < m.vars.length) : ∃ m', m.setObjective e = .ok m' := by
  simp only [setObjective, assertExpr, if_pos h, bind, Except.bind]
  split
  · exact ⟨_, rfl⟩
  · exact ⟨_, rfl⟩

theorem qs_addConstraints_ok (cs : List (List (Nat × K) × CSense × K)) {m : Milp K} (hk : KeysLt m)
    (h : ∀ c ∈ cs, c.1 ≠ [] ∧ ∀ t ∈ c.1, t.1 < m.vars.length) : ∃ m', m.addConstraints cs = .ok m' := by
  induction cs generalizing m with
  | nil => exact ⟨m, rfl⟩
  | cons c cs ih =>
    obtain ⟨m1, h1, h2, -, h3, -⟩ := addConstraint_ok (s := c.2.1) (r := c.2.2) hk (h c (by simp)).2 (fun _ => (h c (by simp)).1)
    obtain ⟨m', hm'⟩ := ih h2 (fun c' hc' => by rw [h3]; exact h c' (by simp [hc']))
    refine ⟨m', ?_⟩
    simp only [addConstraints, List.foldlM_cons, bind, Except.bind, h1]
    exact hm'

theorem qsLoop_total {f : Form σ K} {solver : Nat → Milp K → Answer K} {mode : Mode} {upd : Updater K} {L : Nat}
    (hs : ∀ k m, (solver k m).Sound m) (hmk : ∀ v, v.length = f.certSize mode → ∃ w, f.mkSub v mode = .ok w)
    (hL : f.certSize mode ≤ L)
    (hu : ∀ v, v.length = L → ∃ obj cs, upd.update v = .ok obj ∧ upd.constraints v = .ok cs ∧ (∀ t ∈ obj, t.1 < L) ∧
      ∀ c ∈ cs, c.1 ≠ [] ∧ ∀ t ∈ c.1, t.1 < L) :
    ∀ (k : Nat) (m : Milp K) (obj : List (Nat × K)), KeysLt m → m.vars.length = L → (∀ t ∈ obj, t.1 < L) →
      (qsLoop f solver mode upd k m obj).2 = none := by
  intro k
  induction k with
  | zero => intro m obj _ _ _; rfl
  | succ k ih =>
    intro m obj hk hv ho
    obtain ⟨m1, hm1⟩ := setObjective_ok (m := m) (e := obj) (by rw [hv]; exact ho)
    obtain ⟨o1, o2, o3, o4, o5, -⟩ := setObjective_inv hm1
    have hk1 : KeysLt m1 := by intro e he; rw [o2] at he; rw [o3]; exact hk e he
    simp only [qsLoop, hm1]
    by_cases hopt : (solver k m1).status = .optimal
    · rw [if_pos hopt]
      obtain ⟨-, h2, -⟩ := (hs k m1).optimal hopt
      rw [o1, hv] at h2
      obtain ⟨w, hw⟩ := hmk ((solver k m1).vec.take (f.certSize mode)) (by rw [List.length_take, h2]; omega)
      obtain ⟨obj', cs, u1, u2, u3, u4⟩ := hu _ h2
      obtain ⟨m2, hm2⟩ := qs_addConstraints_ok cs hk1 (by rw [o1, hv]; exact u4)
      obtain ⟨b1, b2, b3, -⟩ := qs_addConstraints cs hk1 hm2
      simp only [hw, u1, u2, hm2, bind, Except.bind]
      exact ih m2 obj' b1 (by rw [b3, o1, hv]) u3
    · rw [if_neg hopt]

/-! ### the initial objectives and the updaters of the library -/

/-- an initial objective with one positive weight for each group -/
def PosInit (ind : List (Nat × List Nat)) (obj : List (Nat × K)) : Prop :=
  obj.map Prod.fst = ind.map Prod.fst ∧ ∀ t ∈ obj, 0 < t.2

theorem PosInit.objOK {ind : List (Nat × List Nat)} {obj : List (Nat × K)} (h : PosInit ind obj) (hn : (ind.map Prod.fst).Nodup)
    (Z : Nat → Prop) : ObjOK ind Z obj where
  nodup := by rw [h.1]; exact hn
  nonneg t ht := (h.2 t ht).le
  pos e he _ := by
    have : e.1 ∈ obj.map Prod.fst := by rw [h.1]; exact List.mem_map_of_mem (f := Prod.fst) he
    obtain ⟨⟨a, c⟩, hm, hE⟩ := List.mem_map.1 this
    simp only at hE
    subst hE
    exact ⟨c, h.2 _ hm, hm⟩

theorem mapM_map_fst {α β : Type} (g : α → Except Err (Nat × β)) (k : α → Nat) (P : Nat × β → Prop) (l : List α)
    (hg : ∀ a ∈ l, ∀ p, g a = .ok p → p.1 = k a ∧ P p) :
    ∀ ys, l.mapM g = .ok ys → ys.map Prod.fst = l.map k ∧ ∀ p ∈ ys, P p := by
  induction l with
  | nil => intro ys h; cases h; exact ⟨rfl, by simp⟩
  | cons a l ih =>
    intro ys h
    rw [List.mapM_cons] at h
    simp only [bind, Except.bind] at h
    split at h
    · cases h
    rename_i p hp
    split at h
    · cases h
    rename_i ps hps
    cases h
    obtain ⟨h1, h2⟩ := ih (fun a' ha' => hg a' (by simp [ha'])) ps hps
    obtain ⟨h3, h4⟩ := hg a (by simp) p hp
    exact ⟨by simp [h1, h3], fun q hq => by
      rcases List.mem_cons.1 hq with rfl | hq
      · exact h4
      · exact h2 q hq⟩

theorem allOnes_pos (ind : List (Nat × List Nat)) : ∃ obj : List (Nat × K), allOnes ind = .ok obj ∧ PosInit ind obj :=
  ⟨_, rfl, by simp, fun t ht => by
    obtain ⟨e, -, rfl⟩ := List.mem_map.1 ht
    exact one_pos⟩

theorem inverseReachability_pos {w : Nat → K} (hw : ∀ i, 0 < w i) {pr : List K} {ind : List (Nat × List Nat)} {obj : List (Nat × K)}
    (h : inverseReachability w pr ind = .ok obj) : PosInit ind obj := by
  refine mapM_map_fst _ Prod.fst (fun p => 0 < p.2) ind (fun e he p hp => ?_) obj h
  simp only [bind, Except.bind] at hp
  split at hp
  · cases hp
  split at hp
  · cases hp
  cases hp
  refine ⟨rfl, mul_pos (hw _) (lt_min (by positivity) ?_)⟩
  split
  · exact one_div_pos.2 (by assumption)
  · positivity

theorem inverseFrequency_pos {w : Nat → K} (hw : ∀ i, 0 < w i) {ev : List K} {ind : List (Nat × List Nat)} {obj : List (Nat × K)}
    (h : inverseFrequency w ev ind = .ok obj) : PosInit ind obj := by
  refine mapM_map_fst _ Prod.fst (fun p => 0 < p.2) ind (fun e he p hp => ?_) obj h
  simp only [bind, Except.bind] at hp
  split at hp
  · cases hp
  cases hp
  refine ⟨rfl, ?_⟩
  simp only
  split
  · exact mul_pos (hw _) (lt_min (by positivity) (one_div_pos.2 (by assumption)))
  · positivity

theorem foldl_max_le {a : K} : ∀ (l : List K), a ≤ l.foldl max a ∧ ∀ x ∈ l, x ≤ l.foldl max a := by
  intro l
  induction l generalizing a with
  | nil => simp
  | cons y l ih =>
    obtain ⟨h1, h2⟩ := ih (a := max a y)
    refine ⟨le_trans (le_max_left _ _) h1, fun x hx => ?_⟩
    rcases List.mem_cons.1 hx with rfl | hx
    · exact le_trans (le_max_right _ _) h1
    · exact h2 x hx

theorem bigC_spec (xs : List K) : 10 ^ 8 ≤ bigC xs ∧ bigC xs ≤ 10 ^ 9 ∧ ∀ x ∈ xs, 0 < x → min (1 / x) (10 ^ 9) ≤ bigC xs := by
  unfold bigC
  obtain ⟨h1, h2⟩ := foldl_max_le (a := max (0 : K) (10 ^ 8)) ((xs.filter fun x => x ≠ 0).map fun x => 1 / x)
  refine ⟨le_min (le_trans (le_max_right _ _) h1) ?_, min_le_right _ _, fun x hx hp => min_le_min (h2 _ ?_) le_rfl⟩
  · exact pow_le_pow_right₀ (by norm_num) (by norm_num)
  · exact List.mem_map_of_mem (f := fun x => 1 / x) (List.mem_filter.2 ⟨hx, by simpa using hp.ne'⟩)

theorem bigC_pos (xs : List K) : 0 < bigC xs := lt_of_lt_of_le (by positivity) (bigC_spec xs).1

theorem at!_ok {v : List K} {i : Nat} {x : K} : at! v i = .ok x ↔ v[i]? = some x := by
  unfold at!
  cases v[i]? <;> simp

theorem mapM_at {ind : List (Nat × List Nat)} {v xs : List K} (h : (ind.mapM fun e => at! v e.1) = .ok xs) :
    xs = ind.map fun e => v.getD e.1 0 := by
  induction ind generalizing xs with
  | nil => cases h; rfl
  | cons e ind ih =>
    rw [List.mapM_cons] at h
    simp only [bind, Except.bind] at h
    split at h
    · cases h
    rename_i x hx
    split at h
    · cases h
    rename_i ys hys
    cases h
    rw [ih hys, List.map_cons, List.getD_eq_getElem?_getD, at!_ok.1 hx]
    rfl

theorem mapM_at_ok {ind : List (Nat × List Nat)} {v : List K} (h : ∀ e ∈ ind, e.1 < v.length) :
    (ind.mapM fun e => at! v e.1) = .ok (ind.map fun e => v.getD e.1 0) := by
  induction ind with
  | nil => rfl
  | cons e ind ih =>
    have : at! v e.1 = .ok (v.getD e.1 0) := by
      rw [at!_ok, List.getElem?_eq_getElem (h e (by simp)), List.getD_eq_getElem _ _ (h e (by simp))]
    rw [List.mapM_cons, ih fun e' he' => h e' (by simp [he']), this]
    rfl

theorem zip_map_self {α β : Type} (l : List α) (g : α → β) : l.zip (l.map g) = l.map fun a => (a, g a) := by
  induction l with
  | nil => rfl
  | cons a l ih => simp [ih]

/-- what the updaters compute -/
theorem inverseUpdate_eq {w : Nat → K} {ind : List (Nat × List Nat)} {v : List K} {obj : List (Nat × K)}
    (h : inverseUpdate w ind v = .ok obj) :
    obj = ind.map fun e => (e.1, if 0 < v.getD e.1 0 then w e.1 * min (1 / v.getD e.1 0) (bigC (ind.map fun e => v.getD e.1 0))
      else bigC (ind.map fun e => v.getD e.1 0)) := by
  simp only [inverseUpdate, bind, Except.bind] at h
  split at h
  · cases h
  rename_i xs hxs
  obtain rfl := mapM_at hxs
  cases h
  rw [zip_map_self, List.map_map]
  rfl

theorem fixedUpdate_eq {w : Nat → K} {ind : List (Nat × List Nat)} {v : List K} {obj : List (Nat × K)}
    (h : fixedUpdate w ind v = .ok obj) :
    obj = ind.map fun e => (e.1, if 0 < v.getD e.1 0 then w e.1 / v.getD e.1 0 else 0) := by
  simp only [fixedUpdate, bind, Except.bind] at h
  split at h
  · cases h
  rename_i xs hxs
  obtain rfl := mapM_at hxs
  cases h
  rw [zip_map_self, List.map_map]
  rfl

theorem fixedConstraints_mem {ind : List (Nat × List Nat)} {v : List K} {cs : List (List (Nat × K) × CSense × K)}
    (h : fixedConstraints ind v = .ok cs) (c : List (Nat × K) × CSense × K) :
    c ∈ cs ↔ ∃ e ∈ ind, v.getD e.1 0 = 0 ∧ c = ([(e.1, 1)], .eq, 0) := by
  simp only [fixedConstraints, bind, Except.bind] at h
  split at h
  · cases h
  rename_i xs hxs
  obtain rfl := mapM_at hxs
  cases h
  rw [zip_map_self]
  simp only [List.mem_map, List.mem_filter, decide_eq_true_eq]
  constructor
  · rintro ⟨a, ⟨⟨e, he, rfl⟩, h2⟩, rfl⟩
    exact ⟨e, he, h2, rfl⟩
  · rintro ⟨e, he, h2, rfl⟩
    exact ⟨(e, v.getD e.1 0), ⟨⟨e, he, rfl⟩, h2⟩, rfl⟩

theorem inverse_good {w : Nat → K} (hw : ∀ i, 0 < w i) {ind : List (Nat × List Nat)} (hn : (ind.map Prod.fst).Nodup) :
    GoodUpd ind (inverseResultUpdater w ind) where
  con v cs h c hc := by cases h; simp at hc
  upd v obj _ h := by
    have h : inverseUpdate w ind v = .ok obj := h
    obtain rfl := inverseUpdate_eq h
    have hpos : ∀ e ∈ ind, 0 < (if 0 < v.getD e.1 0 then w e.1 * min (1 / v.getD e.1 0) (bigC (ind.map fun e => v.getD e.1 0))
        else bigC (ind.map fun e => v.getD e.1 0)) := by
      intro e _
      split
      · exact mul_pos (hw _) (lt_min (one_div_pos.2 (by assumption)) (bigC_pos _))
      · exact bigC_pos _
    refine ⟨by rw [List.map_map]; exact hn, fun t ht => ?_, fun cs _ e he => Or.inr ⟨_, hpos e he, List.mem_map.2 ⟨e, he, rfl⟩⟩⟩
    obtain ⟨e, he, rfl⟩ := List.mem_map.1 ht
    exact (hpos e he).le

theorem fixed_good {w : Nat → K} (hw : ∀ i, 0 < w i) {ind : List (Nat × List Nat)} (hn : (ind.map Prod.fst).Nodup) :
    GoodUpd ind (fixedZerosUpdater w ind) where
  con v cs h c hc := by
    obtain ⟨e, -, h1, h2⟩ := (fixedConstraints_mem h c).1 hc
    exact ⟨e.1, h1, h2⟩
  upd v obj h0 h := by
    have h : fixedUpdate w ind v = .ok obj := h
    obtain rfl := fixedUpdate_eq h
    refine ⟨by rw [List.map_map]; exact hn, fun t ht => ?_, fun cs hcs e he => ?_⟩
    · obtain ⟨e, he, rfl⟩ := List.mem_map.1 ht
      simp only
      split
      · exact (div_pos (hw _) (by assumption)).le
      · exact le_rfl
    · rcases (h0 e he).lt_or_eq with hp | hz
      · refine Or.inr ⟨w e.1 / v.getD e.1 0, div_pos (hw _) hp, List.mem_map.2 ⟨e, he, ?_⟩⟩
        rw [if_pos hp]
      · exact Or.inl ((fixedConstraints_mem hcs _).2 ⟨e, he, hz.symm, rfl⟩)

theorem inverse_total {w : Nat → K} {ind : List (Nat × List Nat)} {L : Nat} (hi : ∀ e ∈ ind, e.1 < L) (v : List K) (hv : v.length = L) :
    ∃ obj cs, (inverseResultUpdater w ind).update v = .ok obj ∧ (inverseResultUpdater w ind).constraints v = .ok cs ∧
      (∀ t ∈ obj, t.1 < L) ∧ ∀ c ∈ cs, c.1 ≠ [] ∧ ∀ t ∈ c.1, t.1 < L := by
  have hx := mapM_at_ok (K := K) (ind := ind) (v := v) (by rw [hv]; exact hi)
  obtain ⟨obj, hobj⟩ : ∃ obj, inverseUpdate w ind v = .ok obj := by
    simp only [inverseUpdate, bind, Except.bind, hx]; exact ⟨_, rfl⟩
  refine ⟨obj, [], hobj, rfl, fun t ht => ?_, by simp⟩
  rw [inverseUpdate_eq hobj] at ht
  obtain ⟨e, he, rfl⟩ := List.mem_map.1 ht
  exact hi e he

theorem fixed_total {w : Nat → K} {ind : List (Nat × List Nat)} {L : Nat} (hi : ∀ e ∈ ind, e.1 < L) (v : List K) (hv : v.length = L) :
    ∃ obj cs, (fixedZerosUpdater w ind).update v = .ok obj ∧ (fixedZerosUpdater w ind).constraints v = .ok cs ∧
      (∀ t ∈ obj, t.1 < L) ∧ ∀ c ∈ cs, c.1 ≠ [] ∧ ∀ t ∈ c.1, t.1 < L := by
  have hx := mapM_at_ok (K := K) (ind := ind) (v := v) (by rw [hv]; exact hi)
  obtain ⟨obj, hobj⟩ : ∃ obj, fixedUpdate w ind v = .ok obj := by
    simp only [fixedUpdate, bind, Except.bind, hx]; exact ⟨_, rfl⟩
  obtain ⟨cs, hcs⟩ : ∃ cs, fixedConstraints (K := K) ind v = .ok cs := by
    simp only [fixedConstraints, bind, Except.bind, hx]; exact ⟨_, rfl⟩
  refine ⟨obj, cs, hobj, hcs, fun t ht => ?_, fun c hc => ?_⟩
  · rw [fixedUpdate_eq hobj] at ht
    obtain ⟨e, he, rfl⟩ := List.mem_map.1 ht
    exact hi e he
  · obtain ⟨e, he, -, rfl⟩ := (fixedConstraints_mem hcs c).1 hc
    simpa using hi e he

end Verif.Proofs
