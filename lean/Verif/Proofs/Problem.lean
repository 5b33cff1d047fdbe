import Verif.Model.Problem
import Verif.Proofs.Milp
import Mathlib.Data.List.GetD
import Mathlib.Tactic.Linarith
import Mathlib.Tactic.Ring
/-! what `construct_MILP` builds -/
set_option linter.unusedSectionVars false
namespace Verif.Proofs
open Verif.Model Verif.Model.Milp Finset

variable {K : Type} [Field K] [LinearOrder K] [IsStrictOrderedRing K] {σ : Type}

theorem addConstraint_inv {m m' : Milp K} (hk : KeysLt m) {lhs : List (Nat × K)} {s : CSense} {r : K} {i : Nat}
    (h : m.addConstraint lhs s r = .ok (i, m')) :
    (∀ t ∈ lhs, t.1 < m.vars.length) ∧ KeysLt m' ∧ m'.be = m.be ∧ m'.vars = m.vars ∧ m'.obj = m.obj ∧
      m'.maximize = m.maximize ∧ ∀ x, m'.Feasible x ↔ m.Feasible x ∧ CSense.holds s (evalE (expr m.be lhs) x) r := by
  have hv : ∀ t ∈ lhs, t.1 < m.vars.length := by
    by_contra hn
    simp only [addConstraint, assertExpr, if_neg hn, bind, Except.bind] at h
    cases h
  have hg : m.be = .gurobi → lhs ≠ [] := by
    intro hb hl
    simp only [addConstraint, assertExpr, if_pos hv, bind, Except.bind, if_pos (And.intro hb hl)] at h
    cases h
  obtain ⟨m1, h1, h2, h3, h4, h5, h6, -, h8⟩ := addConstraint_ok (s := s) (r := r) hk hv hg
  rw [h1] at h
  cases h
  exact ⟨hv, h2, h3, h4, h5, h6, fun x => feasible_append h4 h8 x⟩

theorem addRows_inv {A : Mat K} {b : List K} {s : CSense} (is : List Nat) {m m' : Milp K} (hk : KeysLt m)
    (h : addRows A b s is m = .ok m') :
    KeysLt m' ∧ m'.be = m.be ∧ m'.vars = m.vars ∧ m'.obj = m.obj ∧ m'.maximize = m.maximize ∧
      ∀ x, m'.Feasible x ↔ m.Feasible x ∧
        ∀ i ∈ is, CSense.holds s (∑ j ∈ range A.cols, A.at_ i j * x j) (b.getD i 0) := by
  induction is generalizing m with
  | nil =>
    cases h
    exact ⟨hk, rfl, rfl, rfl, rfl, fun x => by simp⟩
  | cons i is ih =>
    simp only [addRows, bind, Except.bind] at h
    cases hb : b[i]? with
    | none => simp [hb] at h
    | some r =>
      simp only [hb] at h
      split at h
      · cases h
      · rename_i p hp
        obtain ⟨j, m1⟩ := p
        obtain ⟨-, h2, h3, h4, h5, h6, h7⟩ := addConstraint_inv hk hp
        obtain ⟨g2, g3, g4, g5, g6, g7⟩ := ih h2 h
        refine ⟨g2, g3.trans h3, g4.trans h4, g5.trans h5, g6.trans h6, fun x => ?_⟩
        rw [g7, h7]
        have hb' : b.getD i 0 = r := by simp [List.getD, hb]
        rw [evalE_expr _ _ (fun _ => rowTerms_nodup A i), terms_rowTerms, List.forall_mem_cons, hb']
        tauto

theorem mapM_inv {α β : Type} {f : α → Except Err β} {l : List α} {l' : List β} (h : l.mapM f = .ok l') :
    List.Forall₂ (fun a b => f a = .ok b) l l' := by
  induction l generalizing l' with
  | nil => cases h; exact List.Forall₂.nil
  | cons a l ih =>
    rw [List.mapM_cons] at h
    simp only [bind, Except.bind] at h
    cases ha : f a with
    | error e => simp [ha] at h
    | ok b =>
      simp only [ha] at h
      cases hl : l.mapM f with
      | error e => simp [hl] at h
      | ok bs =>
        simp only [hl, pure, Except.pure] at h
        cases h
        exact List.Forall₂.cons ha (ih hl)

theorem mapM_range_inv {β : Type} {f : Nat → Except Err β} {n : Nat} {l' : List β} (h : (List.range n).mapM f = .ok l') :
    l'.length = n ∧ ∀ j < n, ∃ b, f j = .ok b ∧ l'[j]? = some b := by
  have h1 := mapM_inv h
  have hl := h1.length_eq
  simp only [List.length_range] at hl
  refine ⟨hl.symm, fun j hj => ?_⟩
  have := List.Forall₂.get h1 (i := j) (by simpa using hj) (by omega)
  simp only [List.get_eq_getElem, List.getElem_range] at this
  exact ⟨_, this, List.getElem?_eq_getElem _⟩

/-- all coefficients of the objective are zero -/
def ObjZero (m : Milp K) : Prop := ∃ o, m.obj = some o ∧ (Dict.keys o).Nodup ∧ ∀ e ∈ o, e.2 = 0

theorem get?_zero {o : Dict Nat K} (h : ∀ e ∈ o, e.2 = 0) (k : Nat) : (o.get? k).getD 0 = 0 := by
  induction o with
  | nil => rfl
  | cons p o ih =>
    obtain ⟨a, b⟩ := p
    simp only [Dict.get?]
    split
    · exact h (a, b) (by simp)
    · exact ih fun e he => h e (by simp [he])

theorem mem_set {d : Dict Nat K} {k : Nat} {v : K} {e : Nat × K} (h : e ∈ d.set k v) : e ∈ d ∨ e = (k, v) := by
  induction d with
  | nil => simpa [Dict.set] using h
  | cons p d ih =>
    obtain ⟨a, b⟩ := p
    simp only [Dict.set] at h
    split at h
    · rcases List.mem_cons.1 h with h | h
      · exact Or.inr h
      · exact Or.inl (by simp [h])
    · rcases List.mem_cons.1 h with h | h
      · exact Or.inl (by simp [h])
      · rcases ih h with h | h
        · exact Or.inl (by simp [h])
        · exact Or.inr h

theorem expr_zero (be : Backend) {e : List (Nat × K)} (h : ∀ t ∈ e, t.2 = 0) : ∀ t ∈ expr be e, t.2 = 0 := by
  have key : ∀ (e : List (Nat × K)) (d : Dict Nat K), (∀ t ∈ e, t.2 = 0) → (∀ t ∈ d, t.2 = 0) →
      ∀ t ∈ e.foldl (fun d t => match be with
        | .pulp => d.set t.1 t.2
        | .gurobi => d.set t.1 ((d.get? t.1).getD 0 + t.2)) d, t.2 = 0 := by
    intro e
    induction e with
    | nil => intro d _ hd; exact hd
    | cons t e ih =>
      intro d he hd
      refine ih _ (fun t ht => he t (by simp [ht])) ?_
      have ht := he t (by simp)
      cases be with
      | pulp =>
        intro s hs
        rcases mem_set hs with hs | rfl
        · exact hd s hs
        · exact ht
      | gurobi =>
        intro s hs
        rcases mem_set hs with hs | rfl
        · exact hd s hs
        · simp [get?_zero hd, ht]
  exact key e [] h (by simp)

theorem fromCoefficients_inv {be : Backend} {A : Mat K} {b opt : List K} {doms : List Dom} {s : CSense} {m : Milp K}
    {mx : Bool} {bounds : Option (List (Option K × Option K))}
    (h : fromCoefficients be A b opt doms s mx bounds = .ok m) :
    KeysLt m ∧ m.be = be ∧ m.vars.length = A.cols ∧ m.maximize = mx ∧
      ((∀ c ∈ opt, c = 0) → ObjZero m) ∧
      ∀ x, m.Feasible x ↔
        (∀ j < A.cols, DomOK be (doms.getD j .real) ((bounds.bind (·[j]?)).bind Prod.fst)
          ((bounds.bind (·[j]?)).bind Prod.snd) (x j)) ∧
        ∀ i < A.rows, CSense.holds s (∑ j ∈ range A.cols, A.at_ i j * x j) (b.getD i 0) := by
  unfold fromCoefficients at h
  simp only [bind, Except.bind] at h
  split at h
  · cases h
  rename_i ds hds
  split at h
  · cases h
  rename_i o ho
  split at h
  · cases h
  rename_i m1 hm1
  obtain ⟨hdl, hd⟩ := mapM_range_inv hds
  obtain ⟨hol, ho'⟩ := mapM_range_inv ho
  -- the variables
  let m0 : Milp K := { (new be mx : Milp K) with vars := ds.map fun d => mkVar be d.1 d.2.1 d.2.2 }
  have h3 : ((new be mx : Milp K).addVariablesWB ds).2 = m0 := by
    unfold addVariablesWB
    dsimp only
    split <;> simp [m0, new]
  rw [h3] at hm1
  have hm1' : m1 = { m0 with obj := some (expr be o) } := by
    simp only [setObjective, assertExpr, bind, Except.bind] at hm1
    split at hm1
    · cases hm1
    · cases be <;> (simp only [m0, new] at hm1 ⊢; exact (Except.ok.inj hm1).symm)
  have hk : KeysLt m1 := by rw [hm1']; intro e he; simp [m0, new] at he
  obtain ⟨g1, g2, g3, g4, g5, g6⟩ := addRows_inv _ hk h
  refine ⟨g1, by rw [g2, hm1']; rfl, by rw [g3, hm1']; simp [m0, hdl], by rw [g5, hm1']; rfl, fun hz => ?_, fun x => ?_⟩
  · refine ⟨expr be o, by rw [g4, hm1'], expr_keys be o [] (by simp [Dict.keys]), expr_zero be ?_⟩
    intro t ht
    obtain ⟨j, hj, e⟩ := List.getElem_of_mem ht
    obtain ⟨t', ht1, ht2⟩ := ho' j (by omega)
    rw [List.getElem?_eq_getElem hj, e] at ht2
    cases ht2
    unfold objTerm at ht1
    split at ht1
    · cases ht1
    · rename_i c hc
      cases ht1
      exact hz _ (List.mem_of_getElem? hc)
  · rw [g6]
    refine and_congr ?_ (by simp)
    rw [hm1']
    simp only [Feasible]
    have hno : ∀ e ∈ m0.cons, Constr.sat e.2 x := by intro e he; simp [m0, new] at he
    refine (and_iff_left hno).trans ?_
    have hgd : ∀ j < A.cols, ds[j]? = some (doms.getD j .real, (bounds.bind (·[j]?)).bind Prod.fst,
        (bounds.bind (·[j]?)).bind Prod.snd) := by
      intro j hj
      obtain ⟨d, e1, e2⟩ := hd j hj
      rw [e2]
      unfold descr at e1
      split at e1
      · cases e1
      rename_i d' hd'
      have : doms.getD j .real = d' := by simp [List.getD, hd']
      rw [this]
      cases bounds with
      | none => cases e1; rfl
      | some l =>
        simp only at e1
        split at e1
        · cases e1
        · rename_i lu hlu
          cases e1
          simp [hlu]
    constructor
    · intro h j hj
      have := h j (mkVar be (doms.getD j .real) ((bounds.bind (·[j]?)).bind Prod.fst) ((bounds.bind (·[j]?)).bind Prod.snd))
        (by simp [m0, hgd j hj])
      exact (mkVar_ok _ _ _ _ _).1 this
    · intro h i v hv
      simp only [m0, List.getElem?_map, Option.map_eq_some_iff] at hv
      obtain ⟨d, hd', rfl⟩ := hv
      have hi : i < A.cols := by
        have := (List.getElem?_eq_some_iff.1 hd').1
        omega
      rw [hgd i hi] at hd'
      cases hd'
      exact (mkVar_ok _ _ _ _ _).2 (h i hi)

/-- the factor of the indicator in the constraint of a variable -/
def ubAt (ub : Option (List K)) (v : Nat) : K :=
  match ub with
  | none => 1
  | some u => u.getD v 0

theorem linkVar_inv {ub : Option (List K)} {v : Nat} {m m' : Milp K} (hk : KeysLt m) {w : Nat}
    (h : linkVar ub v m w = .ok m') :
    (∀ u, ub = some u → w < u.length) ∧ KeysLt m' ∧ m'.be = m.be ∧ m'.vars = m.vars ∧ m'.obj = m.obj ∧
      m'.maximize = m.maximize ∧ (∀ x, m'.Feasible x → m.Feasible x) ∧
      (w ≠ v → ∀ x, m'.Feasible x ↔ m.Feasible x ∧ x w ≤ ubAt ub w * x v) := by
  have key : ∀ c : K, (m.addConstraint [(w, 1), (v, -c)] .le 0).map Prod.snd = .ok m' → ubAt ub w = c →
      KeysLt m' ∧ m'.be = m.be ∧ m'.vars = m.vars ∧ m'.obj = m.obj ∧
      m'.maximize = m.maximize ∧ (∀ x, m'.Feasible x → m.Feasible x) ∧
      (w ≠ v → ∀ x, m'.Feasible x ↔ m.Feasible x ∧ x w ≤ ubAt ub w * x v) := by
    intro c hc e
    cases hp : m.addConstraint [(w, 1), (v, -c)] .le 0 with
    | error e => rw [hp] at hc; cases hc
    | ok p =>
      obtain ⟨i, m1⟩ := p
      rw [hp] at hc
      cases hc
      obtain ⟨-, h1, h2, h3, h4, h5, h6⟩ := addConstraint_inv hk hp
      refine ⟨h1, h2, h3, h4, h5, fun x hx => ((h6 x).1 hx).1, fun hne x => ?_⟩
      rw [h6, evalE_expr _ _ (fun _ => by simp [hne])]
      refine and_congr Iff.rfl ?_
      simp only [CSense.holds, terms, List.map_cons, List.map_nil, List.sum_cons, List.sum_nil, e]
      constructor <;> intro g <;> linarith
  unfold linkVar at h
  cases ub with
  | none =>
    simp only [bind, Except.bind] at h
    refine ⟨by simp, key 1 ?_ rfl⟩
    split at h
    · cases h
    · rename_i p hp; cases h; simp [hp, Except.map]
  | some u =>
    simp only [bind, Except.bind] at h
    cases hu : u[w]? with
    | none => simp [hu] at h
    | some c =>
      simp only [hu] at h
      refine ⟨fun u' e => ?_, key c ?_ (by simp [ubAt, List.getD, hu])⟩
      · cases e; exact (List.getElem?_eq_some_iff.1 hu).1
      · split at h
        · cases h
        · rename_i p hp; cases h; simp [hp, Except.map]

theorem linkVars_inv {ub : Option (List K)} {v : Nat} (g : List Nat) {m m' : Milp K} (hk : KeysLt m)
    (h : g.foldlM (linkVar ub v) m = .ok m') :
    (∀ u, ub = some u → ∀ w ∈ g, w < u.length) ∧ KeysLt m' ∧ m'.be = m.be ∧ m'.vars = m.vars ∧ m'.obj = m.obj ∧
      m'.maximize = m.maximize ∧ (∀ x, m'.Feasible x → m.Feasible x) ∧
      ((∀ w ∈ g, w ≠ v) → ∀ x, m'.Feasible x ↔ m.Feasible x ∧ ∀ w ∈ g, x w ≤ ubAt ub w * x v) := by
  induction g generalizing m with
  | nil => cases h; exact ⟨by simp, hk, rfl, rfl, rfl, rfl, fun x hx => hx, fun _ x => by simp⟩
  | cons w g ih =>
    rw [List.foldlM_cons] at h
    simp only [bind, Except.bind] at h
    split at h
    · cases h
    · rename_i m1 hm1
      obtain ⟨a0, a1, a2, a3, a4, a5, a6, a7⟩ := linkVar_inv hk hm1
      obtain ⟨b0, b1, b2, b3, b4, b5, b6, b7⟩ := ih a1 h
      refine ⟨fun u e => List.forall_mem_cons.2 ⟨a0 u e, b0 u e⟩, b1, b2.trans a2, b3.trans a3, b4.trans a4, b5.trans a5,
        fun x hx => a6 x (b6 x hx), fun hne x => ?_⟩
      rw [List.forall_mem_cons] at hne
      rw [b7 hne.2, a7 hne.1, List.forall_mem_cons]
      tauto

theorem addIndicator_inv {dom : Dom} {ub : Option (List K)} {st st' : Milp K × List (Nat × List Nat)} (hk : KeysLt st.1)
    {g : List Nat} (h : addIndicator dom ub st g = .ok st') :
    (∀ u, ub = some u → ∀ w ∈ g, w < u.length) ∧ KeysLt st'.1 ∧ st'.1.be = st.1.be ∧
      st'.1.vars = st.1.vars ++ [mkVar st.1.be dom (some 0) (ub.map fun _ => 1)] ∧ st'.1.obj = st.1.obj ∧
      st'.1.maximize = st.1.maximize ∧ st'.2 = st.2 ++ [(st.1.vars.length, g)] ∧
      (∀ x, st'.1.Feasible x → st.1.Feasible x ∧ DomOK st.1.be dom (some 0) (ub.map fun _ => 1) (x st.1.vars.length)) ∧
      ((∀ w ∈ g, w < st.1.vars.length) → ∀ x, st'.1.Feasible x ↔ st.1.Feasible x ∧
        DomOK st.1.be dom (some 0) (ub.map fun _ => 1) (x st.1.vars.length) ∧
        ∀ w ∈ g, x w ≤ ubAt ub w * x st.1.vars.length) := by
  obtain ⟨m, ind⟩ := st
  simp only at hk ⊢
  unfold addIndicator at h
  simp only [addVariablesWB, List.length_singleton, if_true, List.map_cons, List.map_nil, bind, Except.bind] at h
  split at h
  · cases h
  rename_i m1 hm1
  cases h
  have hk' : KeysLt ({ m with vars := m.vars ++ [mkVar m.be dom (some 0) (ub.map fun _ => 1)] } : Milp K) := hk
  obtain ⟨a0, a1, a2, a3, a4, a5, a6, a7⟩ := linkVars_inv g hk' hm1
  have hf : ∀ x, ({ m with vars := m.vars ++ [mkVar m.be dom (some 0) (ub.map fun _ => 1)] } : Milp K).Feasible x ↔
      m.Feasible x ∧ DomOK m.be dom (some 0) (ub.map fun _ => 1) (x m.vars.length) := by
    intro x
    simp only [Feasible]
    rw [← mkVar_ok]
    constructor
    · rintro ⟨h1, h2⟩
      refine ⟨⟨fun i v hi => h1 i v ?_, h2⟩, h1 _ _ (by simp)⟩
      rw [List.getElem?_append_left (List.getElem?_eq_some_iff.1 hi).1]
      exact hi
    · rintro ⟨⟨h1, h2⟩, h3⟩
      refine ⟨fun i v hi => ?_, h2⟩
      rcases lt_or_ge i m.vars.length with hlt | hge
      · rw [List.getElem?_append_left hlt] at hi
        exact h1 i v hi
      · rw [List.getElem?_append_right hge] at hi
        have : i - m.vars.length = 0 := by
          have := (List.getElem?_eq_some_iff.1 hi).1
          simp only [List.length_singleton] at this
          omega
        rw [this] at hi
        cases hi
        rw [show i = m.vars.length by omega]
        exact h3
  refine ⟨a0, a1, a2, a3, a4, a5, rfl, fun x hx => (hf x).1 (a6 x hx), fun hlt x => ?_⟩
  rw [a7 fun w hw => (hlt w hw).ne, hf]
  tauto

/-- the state after all groups -/
structure Indicated (dom : Dom) (ub : Option (List K)) (m : Milp K) (groups : List (List Nat)) (m' : Milp K)
    (ind : List (Nat × List Nat)) : Prop where
  keys : KeysLt m'
  be : m'.be = m.be
  vars : m'.vars = m.vars ++ groups.map fun _ => mkVar m.be dom (some 0) (ub.map fun _ => 1)
  obj : m'.obj = m.obj
  maximize : m'.maximize = m.maximize
  ind : ind = (groups.zipIdx m.vars.length).map fun e => (e.2, e.1)
  lt : ∀ u, ub = some u → ∀ g ∈ groups, ∀ w ∈ g, w < u.length
  base : ∀ x, m'.Feasible x → m.Feasible x ∧ ∀ k < groups.length,
    DomOK m.be dom (some 0) (ub.map fun _ => 1) (x (m.vars.length + k))
  feasible : (∀ g ∈ groups, ∀ w ∈ g, w < m.vars.length) → ∀ x, m'.Feasible x ↔ m.Feasible x ∧
    (∀ k < groups.length, DomOK m.be dom (some 0) (ub.map fun _ => 1) (x (m.vars.length + k))) ∧
    ∀ (k : Nat) (g : List Nat), groups[k]? = some g → ∀ w ∈ g, x w ≤ ubAt ub w * x (m.vars.length + k)

theorem indicated {dom : Dom} {ub : Option (List K)} (groups : List (List Nat)) {m m' : Milp K}
    {ind0 ind : List (Nat × List Nat)} (hk : KeysLt m)
    (h : groups.foldlM (addIndicator dom ub) (m, ind0) = .ok (m', ind)) :
    ∃ ind1, ind = ind0 ++ ind1 ∧ Indicated dom ub m groups m' ind1 := by
  induction groups generalizing m ind0 with
  | nil =>
    cases h
    exact ⟨[], by simp, hk, rfl, by simp, rfl, rfl, rfl, by simp, fun x hx => ⟨hx, by simp⟩, fun _ x => by simp⟩
  | cons g gs ih =>
    rw [List.foldlM_cons] at h
    simp only [bind, Except.bind] at h
    split at h
    · cases h
    rename_i st hst
    obtain ⟨m1, i1⟩ := st
    obtain ⟨a0, a1, a2, a3, a4, a5, a6, a7, a8⟩ := addIndicator_inv hk hst
    simp only at a1 a2 a3 a4 a5 a6 a7 a8
    obtain ⟨ind1, e, H⟩ := ih a1 h
    have hlen : m1.vars.length = m.vars.length + 1 := by rw [a3]; simp
    have hsh : ∀ k, m1.vars.length + k = m.vars.length + (k + 1) := fun k => by omega
    refine ⟨(m.vars.length, g) :: ind1, by rw [e, a6]; simp, H.keys, H.be.trans a2, ?_, H.obj.trans a4, H.maximize.trans a5, ?_,
      fun u hu => List.forall_mem_cons.2 ⟨a0 u hu, H.lt u hu⟩, fun x hx => ?_, fun hlt x => ?_⟩
    · rw [H.vars, a3, a2]; simp
    · rw [H.ind, hlen]; simp [List.zipIdx_cons]
    · obtain ⟨b1, b2⟩ := H.base x hx
      obtain ⟨b3, b4⟩ := a7 x b1
      refine ⟨b3, fun k hk => ?_⟩
      cases k with
      | zero => exact b4
      | succ k =>
        have := b2 k (by simpa using hk)
        rw [a2, hsh] at this
        exact this
    · rw [List.forall_mem_cons] at hlt
      rw [H.feasible (fun g hg w hw => by have := hlt.2 g hg w hw; omega), a8 hlt.1, a2]
      constructor
      · rintro ⟨⟨c1, c2, c3⟩, c4, c5⟩
        refine ⟨c1, fun k hk => ?_, fun k g' hg' => ?_⟩
        · cases k with
          | zero => exact c2
          | succ k => rw [← hsh]; exact c4 k (by simpa using hk)
        · cases k with
          | zero => simp only [List.getElem?_cons_zero] at hg'; cases hg'; exact c3
          | succ k => rw [← hsh]; exact c5 k g' (by simpa using hg')
      · rintro ⟨c1, c2, c3⟩
        refine ⟨⟨c1, c2 0 (by simp), c3 0 g (by simp)⟩, fun k hk => ?_, fun k g' hg' => ?_⟩
        · rw [hsh]; exact c2 (k + 1) (by simpa using hk)
        · rw [hsh]; exact c3 (k + 1) g' (by simpa using hg')

theorem setObjective_inv {m m' : Milp K} {e : List (Nat × K)} (h : m.setObjective e = .ok m') :
    m'.vars = m.vars ∧ m'.cons = m.cons ∧ m'.ncon = m.ncon ∧ m'.be = m.be ∧ m'.maximize = m.maximize ∧
      (∀ t ∈ e, t.1 < m.vars.length) ∧
      (ObjZero m → (e.map Prod.fst).Nodup → ∀ x, m'.objVal x = terms e x) := by
  have hv : ∀ t ∈ e, t.1 < m.vars.length := by
    by_contra hn
    simp only [setObjective, assertExpr, if_neg hn, bind, Except.bind] at h
    cases h
  simp only [setObjective, assertExpr, if_pos hv, bind, Except.bind] at h
  have hg : ∀ be, m' = { m with obj := some (expr be e) } → m'.vars = m.vars ∧ m'.cons = m.cons ∧ m'.ncon = m.ncon ∧ m'.be = m.be ∧ m'.maximize = m.maximize ∧
      (∀ t ∈ e, t.1 < m.vars.length) ∧ (ObjZero m → (e.map Prod.fst).Nodup → ∀ x, m'.objVal x = terms e x) := by
    rintro be rfl
    refine ⟨rfl, rfl, rfl, rfl, rfl, hv, fun _ hn x => ?_⟩
    exact evalE_expr be e (fun _ => hn) x
  split at h
  · rename_i o hb ho
    cases h
    refine ⟨rfl, rfl, rfl, rfl, rfl, hv, fun hz hn x => ?_⟩
    obtain ⟨o', h1, h2, h3⟩ := hz
    rw [ho] at h1
    cases h1
    show evalE (e.foldl (fun d t => d.set t.1 t.2) o) x = _
    rw [evalE_foldl_pulp e hn x o h2]
    have e1 : evalE o x = 0 := by
      unfold evalE
      refine List.sum_eq_zero fun y hy => ?_
      obtain ⟨t, ht, rfl⟩ := List.mem_map.1 hy
      rw [h3 t ht, zero_mul]
    have e2 : (e.map fun t => (o.get? t.1).getD 0 * x t.1).sum = 0 := by
      refine List.sum_eq_zero fun y hy => ?_
      obtain ⟨t, ht, rfl⟩ := List.mem_map.1 hy
      rw [get?_zero h3, zero_mul]
    rw [e1, e2]
    ring
  · cases h
    exact hg _ rfl

/-- the entries of the objective: no repeated variable, no negative coefficient, only existing variables -/
def ObjK (m : Milp K) : Prop :=
  ∀ o, m.obj = some o → (Dict.keys o).Nodup ∧ ∀ t ∈ o, 0 ≤ t.2 ∧ (t.2 = 0 ∨ t.1 < m.vars.length)

theorem setObjective_obj {m m' : Milp K} {e : List (Nat × K)} (h : m.setObjective e = .ok m') (hm : ObjK m)
    (he : (e.map Prod.fst).Nodup) (hp : ∀ t ∈ e, 0 ≤ t.2) :
    ObjK m' ∧ ∃ o, m'.obj = some o ∧ ∀ t ∈ e, o.get? t.1 = some t.2 := by
  obtain ⟨h1, -, -, -, -, h2, -⟩ := setObjective_inv h
  -- either way the coefficients are written one after the other
  have key : ∀ (be : Backend) (e : List (Nat × K)) (d : Dict Nat K), (e.map Prod.fst).Nodup → (∀ t ∈ e, 0 ≤ t.2 ∧ t.1 < m.vars.length) →
      ((Dict.keys d).Nodup ∧ ∀ t ∈ d, 0 ≤ t.2 ∧ (t.2 = 0 ∨ t.1 < m.vars.length)) → (be = .gurobi → ∀ t ∈ e, d.get? t.1 = none) →
      ∃ o, e.foldl (fun d t => match be with
        | .pulp => d.set t.1 t.2
        | .gurobi => d.set t.1 ((d.get? t.1).getD 0 + t.2)) d = o ∧
      ((Dict.keys o).Nodup ∧ ∀ t ∈ o, 0 ≤ t.2 ∧ (t.2 = 0 ∨ t.1 < m.vars.length)) ∧ (∀ t ∈ e, o.get? t.1 = some t.2) ∧
      ∀ k, k ∉ e.map Prod.fst → o.get? k = d.get? k := by
    intro be e
    induction e with
    | nil => intro d _ _ hd _; exact ⟨d, rfl, hd, by simp, fun _ _ => rfl⟩
    | cons t e ih =>
      intro d hn he hd hg
      simp only [List.map_cons, List.nodup_cons] at hn
      have ht := he t (by simp)
      have hstep : ∀ be : Backend, (be = .gurobi → d.get? t.1 = none) → (match be with
        | .pulp => d.set t.1 t.2
        | .gurobi => d.set t.1 ((d.get? t.1).getD 0 + t.2)) = d.set t.1 t.2 := by
        intro be hg
        cases be with
        | pulp => rfl
        | gurobi => simp only [hg rfl, Option.getD_none, zero_add]
      rw [List.foldl_cons, hstep be fun hb => hg hb t (by simp)]
      have hne : ∀ u ∈ e, t.1 ≠ u.1 := fun u hu h => hn.1 (List.mem_map.2 ⟨u, hu, h.symm⟩)
      obtain ⟨o, g1, g2, g3, g4⟩ := ih (d.set t.1 t.2) hn.2 (fun u hu => he u (by simp [hu]))
        ⟨Dict.nodup_set hd.1 _ _, fun u hu => by
          rcases mem_set hu with hu | rfl
          · exact hd.2 u hu
          · exact ⟨ht.1, Or.inr ht.2⟩⟩
        (fun hb u hu => by rw [Dict.get?_set, if_neg (hne u hu)]; exact hg hb u (by simp [hu]))
      refine ⟨o, g1, g2, fun u hu => ?_, fun k hk => ?_⟩
      · rcases List.mem_cons.1 hu with rfl | hu
        · rw [g4 _ hn.1, Dict.get?_set, if_pos rfl]
        · exact g3 u hu
      · simp only [List.map_cons, List.mem_cons, not_or] at hk
        rw [g4 k hk.2, Dict.get?_set, if_neg (Ne.symm hk.1)]
  have hv : ∀ t ∈ e, 0 ≤ t.2 ∧ t.1 < m.vars.length := fun t ht => ⟨hp t ht, h2 t ht⟩
  simp only [setObjective, assertExpr, if_pos h2, bind, Except.bind] at h
  split at h
  · rename_i o hb ho
    cases h
    obtain ⟨o', g1, g2, g3, -⟩ := key .pulp e o he hv (hm o ho) (fun g => nomatch g)
    refine ⟨fun o'' ho'' => ?_, _, rfl, fun t ht => ?_⟩
    · cases ho''
      simp only at g1
      rw [g1]
      exact g2
    · simp only at g1
      rw [g1]
      exact g3 t ht
  · cases h
    obtain ⟨o', g1, g2, g3, -⟩ := key m.be e [] he hv ⟨by simp [Dict.keys], by simp⟩ (fun _ _ _ => rfl)
    refine ⟨fun o'' ho'' => ?_, _, rfl, fun t ht => ?_⟩
    · cases ho''
      rw [show expr m.be e = o' from g1]
      exact g2
    · rw [show expr m.be e = o' from g1]
      exact g3 t ht

theorem feasible_congr {m m' : Milp K} (h1 : m'.vars = m.vars) (h2 : m'.cons = m.cons) (x : Nat → K) :
    m'.Feasible x ↔ m.Feasible x := by
  simp only [Feasible, h1, h2]

/-! ### the model -/

/-- the polytope the certificate variables live in -/
structure InPoly (f : Form σ K) (mode : Mode) (A : Mat K) (b : List K) (ub : Option (List K)) (x : Nat → K) : Prop where
  nonneg : ∀ j < f.certSize mode, 0 ≤ x j
  upper : ∀ u, ub = some u → ∀ j < f.certSize mode, x j ≤ u.getD j 0
  ec : mode = .min → ∀ j < f.certSize mode, f.inProperEC j = true → x j = 0
  rows : ∀ i < A.rows, ∑ j ∈ range A.cols, A.at_ i j * x j ≤ b.getD i 0

/-- what `construct_MILP` returns, for given groups and upper bounds -/
structure Built (f : Form σ K) (mode : Mode) (relaxed : Bool) (A : Mat K) (b : List K) (ub : Option (List K))
    (groups : List (List Nat)) (m : Milp K) (ind : List (Nat × List Nat)) : Prop where
  keys : KeysLt m
  vars : m.vars.length = f.certSize mode + groups.length
  maximize : m.maximize = false
  ind : ind = (groups.zipIdx (f.certSize mode)).map fun e => (e.2, e.1)
  bound : ∀ u, ub = some u → ∀ g ∈ groups, ∀ w ∈ g, w < u.length
  obj : ∀ x, m.objVal x = ∑ k ∈ range groups.length, x (f.certSize mode + k)
  objK : ObjK m
  poly : ∀ x, m.Feasible x → InPoly f mode A b ub x ∧ ∀ k < groups.length, 0 ≤ x (f.certSize mode + k) ∧
    (relaxed = false → x (f.certSize mode + k) = 0 ∨ x (f.certSize mode + k) = 1) ∧
    (ub ≠ none → x (f.certSize mode + k) ≤ 1)
  feasible : (∀ g ∈ groups, ∀ w ∈ g, w < f.certSize mode) → ∀ x, m.Feasible x ↔ InPoly f mode A b ub x ∧
    (∀ k < groups.length, 0 ≤ x (f.certSize mode + k) ∧
      (relaxed = false → x (f.certSize mode + k) = 0 ∨ x (f.certSize mode + k) = 1) ∧
      (ub ≠ none → x (f.certSize mode + k) ≤ 1)) ∧
    ∀ (k : Nat) (g : List Nat), groups[k]? = some g → ∀ w ∈ g, x w ≤ ubAt ub w * x (f.certSize mode + k)

theorem domOK_real {be : Backend} {u : Option K} {a : K} :
    DomOK be .real (some 0) u a ↔ 0 ≤ a ∧ ∀ c, u = some c → a ≤ c := by
  cases be <;> simp [DomOK]

theorem domOK_ind {be : Backend} {relaxed : Bool} {ub : Option (List K)} {a : K} :
    DomOK be (if relaxed then .real else .binary) (some 0) (ub.map fun _ => 1) a ↔
      0 ≤ a ∧ (relaxed = false → a = 0 ∨ a = 1) ∧ (ub ≠ none → a ≤ 1) := by
  cases relaxed with
  | true => cases ub <;> simp [domOK_real]
  | false =>
    have h1 : a = 0 ∨ a = 1 → 0 ≤ a ∧ a ≤ 1 := by rintro (rfl | rfl) <;> simp
    cases be <;> cases ub <;> simp [DomOK] <;> tauto

theorem varBound_inv {f : Form σ K} {mode : Mode} {ub : Option (List K)} {j : Nat} {p : Option K × Option K}
    (h : varBound f mode ub j = .ok p) (a : K)
    (hnn : ∀ u, ub = some u → 0 ≤ u.getD j 0) :
    p.1 = some 0 ∧ (((0 ≤ a ∧ ∀ c, p.2 = some c → a ≤ c)) ↔
      0 ≤ a ∧ (∀ u, ub = some u → a ≤ u.getD j 0) ∧ (mode = .min → f.inProperEC j = true → a = 0)) := by
  unfold varBound at h
  split at h
  · rename_i hc
    cases h
    refine ⟨rfl, ?_⟩
    constructor
    · rintro ⟨h1, h2⟩
      have := le_antisymm (h2 0 rfl) h1
      exact ⟨h1, fun u hu => by rw [this]; exact hnn u hu, fun _ _ => this⟩
    · rintro ⟨h1, -, h3⟩
      exact ⟨h1, fun c hc' => by cases hc'; exact (h3 hc.1 hc.2).le⟩
  · rename_i hc
    have hvac : mode = .min → f.inProperEC j = true → a = 0 := fun h1 h2 => absurd ⟨h1, h2⟩ hc
    cases ub with
    | none => cases h; exact ⟨rfl, by simp; tauto⟩
    | some u =>
      simp only at h
      split at h
      · cases h
      · rename_i c hu
        cases h
        refine ⟨rfl, ?_⟩
        have : u.getD j 0 = c := by simp [List.getD, hu]
        constructor
        · rintro ⟨h1, h2⟩
          exact ⟨h1, fun u' e => by cases e; rw [this]; exact h2 c rfl, hvac⟩
        · rintro ⟨h1, h2, -⟩
          exact ⟨h1, fun c' e => by cases e; rw [← this]; exact h2 u rfl⟩

theorem built {f : Form σ K} {mode : Mode} {labels : Option (List String)} {relaxed : Bool} {be : Backend} {A : Mat K}
    {b : List K} {ub : Option (List K)} {m : Milp K} {ind : List (Nat × List Nat)} (hA : A.cols = f.certSize mode)
    (hnn : ∀ u, ub = some u → ∀ j < f.certSize mode, 0 ≤ u.getD j 0)
    (h : buildMILP f mode labels relaxed be A b ub = .ok (m, ind)) :
    ∃ groups, groupsFromLabels f mode labels (decide (mode = .max ∧ relaxed = false)) = .ok groups ∧
      ¬ (relaxed = false ∧ mode = .max ∧ ub = none) ∧ Built f mode relaxed A b ub groups m ind := by
  unfold buildMILP at h
  by_cases hreal : relaxed = false ∧ mode = .max ∧ ub = none
  · simp only [hreal, bind, Except.bind, addIndicators] at h
    exfalso
    split at h
    · cases h
    split at h
    · cases h
    split at h
    · cases h
    split at h
    · cases h
    simp at h
  simp only [if_neg (show ¬ ((relaxed = false ∧ mode = .max ∧ ub = none) ∧ be ≠ .gurobi) from fun g => hreal g.1), bind, Except.bind] at h
  split at h
  · cases h
  rename_i groups hg
  split at h
  · cases h
  rename_i bounds hb
  split at h
  · cases h
  rename_i m0 hm0
  split at h
  · cases h
  rename_i st hst
  obtain ⟨m1, ind1⟩ := st
  simp only at h
  split at h
  · cases h
  rename_i m2 hm2
  cases h
  simp only [addIndicators, decide_eq_true_eq, if_neg hreal] at hst
  obtain ⟨k0, k1, k2, k3, k4, k5⟩ := fromCoefficients_inv hm0
  obtain ⟨ind2, e, H⟩ := indicated groups k0 hst
  simp only [List.nil_append] at e
  subst e
  obtain ⟨o1, o2, o2', o3, o4, -, o5⟩ := setObjective_inv hm2
  rw [hA] at k2
  have hlen : m.vars.length = f.certSize mode + groups.length := by rw [o1, H.vars, List.length_append, k2, List.length_map]
  have hfst : ((groups.zipIdx (f.certSize mode)).map fun e => (e.2, e.1)).map (fun e => (e.1, (1 : K))) =
      (List.range' (f.certSize mode) groups.length).map fun i => (i, 1) := by
    rw [List.map_map]
    have : List.range' (f.certSize mode) groups.length = (groups.zipIdx (f.certSize mode)).map Prod.snd := by
      rw [List.zipIdx_map_snd]
    rw [this, List.map_map]
    rfl
  -- the base polytope
  have hbase : ∀ x, m0.Feasible x ↔ InPoly f mode A b ub x := by
    intro x
    rw [k5, hA]
    obtain ⟨-, hbd⟩ := mapM_range_inv hb
    have hj : ∀ j < f.certSize mode, DomOK be ((List.replicate (f.certSize mode) Dom.real).getD j .real)
        (((some bounds).bind (·[j]?)).bind Prod.fst) (((some bounds).bind (·[j]?)).bind Prod.snd) (x j) ↔
        0 ≤ x j ∧ (∀ u, ub = some u → x j ≤ u.getD j 0) ∧ (mode = .min → f.inProperEC j = true → x j = 0) := by
      intro j hj
      obtain ⟨p, hp1, hp2⟩ := hbd j hj
      obtain ⟨q1, q2⟩ := varBound_inv hp1 (x j) (fun u hu => hnn u hu j hj)
      have : (List.replicate (f.certSize mode) Dom.real).getD j .real = .real := by
        rw [List.getD_eq_getElem _ _ (by simpa using hj)]; simp
      rw [this, ← q2]
      simp only [Option.bind_some, hp2]
      rw [q1]
      exact domOK_real
    constructor
    · rintro ⟨g1, g2⟩
      exact ⟨fun j hj' => ((hj j hj').1 (g1 j hj')).1, fun u hu j hj' => ((hj j hj').1 (g1 j hj')).2.1 u hu,
        fun hm j hj' => ((hj j hj').1 (g1 j hj')).2.2 hm, by rw [hA]; exact g2⟩
    · intro g
      refine ⟨fun j hj' => (hj j hj').2 ⟨g.nonneg j hj', fun u hu => g.upper u hu j hj', fun hm => g.ec hm j hj'⟩, ?_⟩
      have := g.rows
      rw [hA] at this
      exact this
  refine ⟨groups, hg, hreal, ?_, hlen, by rw [o4, H.maximize, k3], by rw [H.ind, k2], H.lt, fun x => ?_, ?_, fun x hx => ?_, fun hlt x => ?_⟩
  · intro e he
    rw [o2] at he
    rw [o2']
    exact H.keys e he
  · rw [H.ind, k2] at o5
    have hz : ObjZero m1 := by
      obtain ⟨o, h1, h2⟩ := k4 (by simp)
      exact ⟨o, by rw [H.obj]; exact h1, h2⟩
    rw [hfst] at o5
    rw [o5 hz (by simp [Function.comp_def, List.nodup_range'])]
    simp only [terms, List.map_map, Function.comp_def, one_mul]
    induction groups.length with
    | zero => simp
    | succ n ih =>
      rw [List.range'_concat, List.map_append, List.sum_append, ih, sum_range_succ]
      simp
  · refine (setObjective_obj hm2 ?_ (by rw [H.ind, k2, hfst, List.map_map]; exact (List.map_id _).symm ▸ List.nodup_range') (fun t ht => by
      obtain ⟨e, -, rfl⟩ := List.mem_map.1 ht; exact zero_le_one)).1
    intro o ho
    obtain ⟨o', h1, h2, h3⟩ := k4 (by simp)
    rw [H.obj, h1] at ho
    cases ho
    exact ⟨h2, fun t ht => ⟨(h3 t ht).ge, Or.inl (h3 t ht)⟩⟩
  · rw [feasible_congr o1 o2] at hx
    obtain ⟨g1, g2⟩ := H.base x hx
    refine ⟨(hbase x).1 g1, fun k hk => ?_⟩
    have := g2 k hk
    rw [k2] at this
    exact domOK_ind.1 this
  · rw [feasible_congr o1 o2, H.feasible (by rw [k2]; exact hlt), hbase, k2]
    refine and_congr Iff.rfl (and_congr ?_ Iff.rfl)
    exact forall_congr' fun k => forall_congr' fun _ => domOK_ind

end Verif.Proofs
