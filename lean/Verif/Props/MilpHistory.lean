import Verif.Props.Milp
import Verif.Proofs.RFOK
/-! # C35: the constraints of a program after any history of calls -/
set_option linter.unusedSectionVars false
namespace Verif.Props
open Verif.Model Verif.Model.Milp Verif.Proofs

variable {K : Type} [Field K] [LinearOrder K] [IsStrictOrderedRing K]

/-- one call on a gurobi program: what it does to the constraints -/
theorem stepOp_cons {m : Milp K} (hb : m.be = .gurobi) (hk : KeysLt m) (hn : (m.cons.map Prod.fst).Nodup) (o : Op K) :
    ((m.stepOp o).2.cons.map Prod.fst).Nodup ∧
    (∀ i c, (i, c) ∈ (m.stepOp o).2.cons ↔
      ((i, c) ∈ m.cons ∨ ∃ l s r, o = .addCon l s r ∧ (m.stepOp o).1 = .con i ∧ c = ⟨expr .gurobi l, s, r⟩) ∧
      ¬ (o = .remCon i ∧ (m.stepOp o).1 = .unit)) ∧
    (∀ i, (m.stepOp o).1 = .con i → (∃ l s r, o = .addCon l s r) ∧ i = m.ncon ∧ (m.stepOp o).2.ncon = m.ncon + 1) ∧
    ((∀ i, (m.stepOp o).1 ≠ .con i) → (m.stepOp o).2.ncon = m.ncon) ∧
    (∀ i, o = .remCon i → (m.stepOp o).1 = .unit → i < m.ncon) := by
  cases o with
  | addVars ds =>
    have e1 : (m.stepOp (.addVars ds)).2.cons = m.cons ∧ (m.stepOp (.addVars ds)).2.ncon = m.ncon := by
      simp only [stepOp, addVariablesWB]
      split <;> exact ⟨rfl, rfl⟩
    have e2 : ∀ i, (m.stepOp (.addVars ds)).1 ≠ .con i := by intro i h; simp [stepOp] at h
    rw [e1.1, e1.2]
    refine ⟨hn, fun i c => by simp, fun i h => absurd h (e2 i), fun _ => rfl, fun i h => by cases h⟩
  | setObj e =>
    have e1 : (m.stepOp (.setObj e)).2.cons = m.cons ∧ (m.stepOp (.setObj e)).2.ncon = m.ncon := by
      simp only [stepOp]
      split
      · rename_i m' hm
        simp only [setObjective, bind, Except.bind] at hm
        split at hm
        · cases hm
        · split at hm <;> simp only [Except.ok.injEq] at hm <;> subst hm <;> exact ⟨rfl, rfl⟩
      · exact ⟨rfl, rfl⟩
    have e2 : ∀ i, (m.stepOp (.setObj e)).1 ≠ .con i := by
      intro i h
      simp only [stepOp] at h
      split at h <;> cases h
    rw [e1.1, e1.2]
    refine ⟨hn, fun i c => by simp, fun i h => absurd h (e2 i), fun _ => rfl, fun i h => by cases h⟩
  | addCon l s r =>
    simp only [stepOp]
    split
    · rename_i i m' hm
      simp only [addConstraint, bind, Except.bind] at hm
      split at hm
      · cases hm
      · split at hm
        · cases hm
        · simp only [Except.ok.injEq, Prod.mk.injEq] at hm
          obtain ⟨rfl, rfl⟩ := hm
          simp only [Dict.set_of_not_mem hk.not_mem]
          refine ⟨?_, fun j c => ?_, ?_, ?_, ?_⟩
          · rw [List.map_append, List.nodup_append]
            refine ⟨hn, by simp, fun a ha b hb' => ?_⟩
            simp only [List.map_cons, List.map_nil, List.mem_singleton] at hb'
            rintro rfl
            exact hk.not_mem (by rw [← hb']; exact ha)
          · simp only [List.mem_append, List.mem_singleton, Prod.mk.injEq, reduceCtorEq, false_and, not_false_eq_true, and_true,
              Out.con.injEq, Op.addCon.injEq]
            constructor
            · rintro (h | ⟨rfl, rfl⟩)
              · exact .inl h
              · exact .inr ⟨l, s, r, ⟨rfl, rfl, rfl⟩, rfl, by rw [hb]⟩
            · rintro (h | ⟨l', s', r', ⟨rfl, rfl, rfl⟩, rfl, rfl⟩)
              · exact .inl h
              · exact .inr ⟨rfl, by rw [hb]⟩
          · intro j h
            cases h
            simp
          · intro h
            exact absurd rfl (h m.ncon)
          · intro j h; cases h
    · refine ⟨hn, fun i c => by simp, fun i h => (by cases h), fun _ => rfl, fun i h => by cases h⟩
  | remCon i =>
    simp only [stepOp]
    split
    · rename_i m' hm
      simp only [removeConstraint, hb] at hm
      split at hm
      · cases hm
      · rename_i hlt
        split at hm
        · simp only [Except.ok.injEq] at hm
          subst hm
          refine ⟨?_, fun j c => ?_, fun j h => (by cases h), fun _ => rfl, fun j h _ => ?_⟩
          · exact ((del_sublist _ _).map Prod.fst).nodup hn
          · rw [mem_del hn]
            simp only [reduceCtorEq, false_and, exists_false, or_false, Op.remCon.injEq, and_true]
            exact and_congr_right fun _ => ⟨fun h h' => h h'.symm, fun h h' => h h'.symm⟩
          · cases h
            omega
        · cases hm
    · refine ⟨hn, fun i c => by simp, fun i h => (by cases h), fun _ => rfl, fun i _ h => by cases h⟩

/-- the calls of a history with their answers -/
def calls (m : Milp K) (ops : List (Op K)) : List (Op K × Out) := ops.zip (runOps m ops).1

theorem calls_cons (m : Milp K) (o : Op K) (os : List (Op K)) :
    calls m (o :: os) = (o, (m.stepOp o).1) :: calls (m.stepOp o).2 os := rfl

theorem calls_con {m : Milp K} (hb : m.be = .gurobi) (hk : KeysLt m) (hn : (m.cons.map Prod.fst).Nodup)
    (ops : List (Op K)) :
    m.ncon ≤ (runOps m ops).2.ncon ∧
    (∀ i, (∃ o, (o, Out.con i) ∈ calls m ops) ↔ m.ncon ≤ i ∧ i < (runOps m ops).2.ncon) ∧
    (∀ o i, (o, Out.con i) ∈ calls m ops → ∃ l s r, o = .addCon l s r) := by
  induction ops generalizing m with
  | nil => refine ⟨le_rfl, fun i => ?_, ?_⟩ <;> simp [calls, runOps]
  | cons o os ih =>
    obtain ⟨h1, -, h3, h4, -⟩ := stepOp_cons hb hk hn o
    have hb' : (m.stepOp o).2.be = .gurobi := (runOps_be [o] m).trans hb
    have hk' : KeysLt (m.stepOp o).2 := runOps_keysLt [o] m hk
    obtain ⟨j1, j2, j3⟩ := ih hb' hk' h1
    have e : (runOps m (o :: os)).2 = (runOps (m.stepOp o).2 os).2 := rfl
    rw [e, calls_cons]
    by_cases hc : ∃ i, (m.stepOp o).1 = .con i
    · obtain ⟨i0, hc⟩ := hc
      obtain ⟨g0, rfl, g1⟩ := h3 _ hc
      refine ⟨by omega, fun i => ?_, fun o' i h => ?_⟩
      · simp only [List.mem_cons, Prod.mk.injEq, exists_or]
        rw [j2 i, g1, hc]
        simp only [Out.con.injEq]
        constructor
        · rintro (⟨_, -, rfl⟩ | h)
          · omega
          · omega
        · intro h
          by_cases h' : i = m.ncon
          · exact .inl ⟨o, rfl, h'⟩
          · exact .inr (by omega)
      · rcases List.mem_cons.1 h with h | h
        · simp only [Prod.mk.injEq] at h
          rw [h.1]; exact g0
        · exact j3 _ _ h
    · have hc' : ∀ i, (m.stepOp o).1 ≠ .con i := fun i h => hc ⟨i, h⟩
      have g1 := h4 hc'
      refine ⟨by omega, fun i => ?_, fun o' i h => ?_⟩
      · simp only [List.mem_cons, Prod.mk.injEq, exists_or]
        rw [j2 i, g1]
        constructor
        · rintro (⟨_, -, h⟩ | h)
          · exact absurd h.symm (hc' i)
          · exact h
        · exact .inr
      · rcases List.mem_cons.1 h with h | h
        · simp only [Prod.mk.injEq] at h
          exact absurd h.2.symm (hc' i)
        · exact j3 _ _ h

theorem runOps_cons {m : Milp K} (hb : m.be = .gurobi) (hk : KeysLt m) (hn : (m.cons.map Prod.fst).Nodup)
    (ops : List (Op K)) :
    ((runOps m ops).2.cons.map Prod.fst).Nodup ∧
    ∀ i c, (i, c) ∈ (runOps m ops).2.cons ↔
      ((i, c) ∈ m.cons ∨ ∃ l s r, (Op.addCon l s r, Out.con i) ∈ calls m ops ∧ c = ⟨expr .gurobi l, s, r⟩) ∧
      (Op.remCon i, Out.unit) ∉ calls m ops := by
  induction ops generalizing m with
  | nil => exact ⟨hn, fun i c => by simp [calls, runOps]⟩
  | cons o os ih =>
    obtain ⟨h1, h2, h3, h4, h5⟩ := stepOp_cons hb hk hn o
    have hb' : (m.stepOp o).2.be = .gurobi := (runOps_be [o] m).trans hb
    have hk' : KeysLt (m.stepOp o).2 := runOps_keysLt [o] m hk
    obtain ⟨j1, j2⟩ := ih hb' hk' h1
    obtain ⟨-, j3, -⟩ := calls_con hb' hk' h1 os
    refine ⟨j1, fun i c => ?_⟩
    have e : (runOps m (o :: os)).2 = (runOps (m.stepOp o).2 os).2 := rfl
    rw [e, j2, h2, calls_cons]
    simp only [List.mem_cons, Prod.mk.injEq, not_or]
    constructor
    · rintro ⟨⟨(h | ⟨l, s, r, g1, g2, g3⟩), h'⟩ | ⟨l, s, r, g1, g2⟩, h''⟩
      · exact ⟨.inl h, fun ⟨a, b⟩ => h' ⟨a.symm, b.symm⟩, h''⟩
      · exact ⟨.inr ⟨l, s, r, .inl ⟨g1.symm, g2.symm⟩, g3⟩, fun ⟨a, b⟩ => h' ⟨a.symm, b.symm⟩, h''⟩
      · refine ⟨.inr ⟨l, s, r, .inr g1, g2⟩, fun ⟨a, b⟩ => ?_, h''⟩
        have hlt := h5 i a.symm b.symm
        have := ((j3 i).1 ⟨_, g1⟩).1
        have hle : m.ncon ≤ (m.stepOp o).2.ncon := by
          by_cases hc : ∃ i, (m.stepOp o).1 = .con i
          · obtain ⟨_, hc⟩ := hc
            rw [(h3 _ hc).2.2]; omega
          · rw [h4 fun i h => hc ⟨i, h⟩]
        omega
    · rintro ⟨h | ⟨l, s, r, ⟨g1, g2⟩ | g1, g3⟩, h', h''⟩
      · exact ⟨.inl ⟨.inl h, fun ⟨a, b⟩ => h' ⟨a.symm, b.symm⟩⟩, h''⟩
      · exact ⟨.inl ⟨.inr ⟨l, s, r, g1.symm, g2.symm, g3⟩, fun ⟨a, b⟩ => h' ⟨a.symm, b.symm⟩⟩, h''⟩
      · exact ⟨.inr ⟨l, s, r, g1, g3⟩, h''⟩

/-- **C35 (gurobi).** After any history an assignment is feasible exactly if its variables are within their domains and
it satisfies every constraint whose `add_constraint` returned a handle that has not been removed. -/
theorem C35_live_constraints (mx : Bool) (ops : List (Op K)) (x : Nat → K) :
    (runOps (new .gurobi mx) ops).2.Feasible x ↔
      (∀ i v, (runOps (new .gurobi mx) ops).2.vars[i]? = some v → Var.ok v (x i)) ∧
      ∀ l s r i, (Op.addCon l s r, Out.con i) ∈ calls (new .gurobi mx) ops →
        (Op.remCon i, Out.unit) ∉ calls (new .gurobi mx) ops → CSense.holds s (l.map fun t => t.2 * x t.1).sum r := by
  have hk : KeysLt (new .gurobi mx : Milp K) := by intro e he; simp [new] at he
  obtain ⟨-, h⟩ := runOps_cons (m := (new .gurobi mx : Milp K)) rfl hk (by simp [new]) ops
  unfold Feasible
  refine and_congr_right fun _ => ?_
  have he : ∀ l : List (Nat × K), evalE (expr .gurobi l) x = (l.map fun t => t.2 * x t.1).sum := fun l =>
    evalE_expr .gurobi l (by simp) x
  constructor
  · intro hall l s r i h1 h2
    have := hall (i, ⟨expr .gurobi l, s, r⟩) ((h i _).2 ⟨.inr ⟨l, s, r, h1, rfl⟩, h2⟩)
    simp only [Constr.sat, he] at this
    exact this
  · rintro hall ⟨i, c⟩ hc
    obtain ⟨h0 | ⟨l, s, r, h1, rfl⟩, h2⟩ := (h i c).1 hc
    · simp [new] at h0
    · simp only [Constr.sat, he]
      exact hall l s r i h1 h2

/-- **C35 (gurobi).** After any history `remove_constraint(i)` succeeds exactly for the handles that were handed out and
not yet removed; it raises `IndexError` for numbers never handed out and `TypeError` for removed ones. -/
theorem C35_remove (mx : Bool) (ops : List (Op K)) (i : Nat) :
    let m := (runOps (new .gurobi mx) ops).2
    let out := ∃ o, (o, Out.con i) ∈ calls (new .gurobi mx : Milp K) ops
    let gone := (Op.remCon i, Out.unit) ∈ calls (new .gurobi mx : Milp K) ops
    (out → ¬ gone → ∃ m', m.removeConstraint i = .ok m' ∧ m'.vars = m.vars ∧ m'.obj = m.obj ∧ ∀ e, e ∈ m'.cons ↔ e ∈ m.cons ∧ e.1 ≠ i) ∧
    (out → gone → m.removeConstraint i = .error .typeError) ∧
    (¬ out → m.removeConstraint i = .error .indexError) := by
  intro m out gone
  have hk0 : KeysLt (new .gurobi mx : Milp K) := by intro e he; simp [new] at he
  have hn0 : ((new .gurobi mx : Milp K).cons.map Prod.fst).Nodup := by simp [new]
  obtain ⟨hn, h⟩ := runOps_cons (m := (new .gurobi mx : Milp K)) rfl hk0 hn0 ops
  obtain ⟨-, hc, hc'⟩ := calls_con (m := (new .gurobi mx : Milp K)) rfl hk0 hn0 ops
  have hb : m.be = .gurobi := runOps_be ops _
  have hout : out ↔ i < m.ncon := by
    rw [show out ↔ _ from hc i]
    simp [new, m]
  have hhas : m.cons.has i = true ↔ out ∧ ¬ gone := by
    unfold Dict.has
    rw [Dict.get?_isSome]
    constructor
    · intro hm
      obtain ⟨⟨j, c⟩, h1, rfl⟩ := List.mem_map.1 hm
      obtain ⟨h0 | ⟨l, s, r, h3, rfl⟩, h2⟩ := (h j c).1 h1
      · simp [new] at h0
      · exact ⟨⟨_, h3⟩, h2⟩
    · rintro ⟨⟨o, h1⟩, h2⟩
      obtain ⟨l, s, r, rfl⟩ := hc' o i h1
      exact List.mem_map.2 ⟨(i, _), (h i _).2 ⟨.inr ⟨l, s, r, h1, rfl⟩, h2⟩, rfl⟩
  refine ⟨fun h1 h2 => ?_, fun h1 h2 => ?_, fun h1 => ?_⟩
  · have := hout.1 h1
    refine ⟨{ m with cons := m.cons.del i }, ?_, rfl, rfl, fun e => mem_del hn⟩
    simp only [removeConstraint, hb]
    rw [if_neg (by omega), if_pos (hhas.2 ⟨h1, h2⟩)]
  · have := hout.1 h1
    simp only [removeConstraint, hb]
    rw [if_neg (by omega), if_neg fun hh => (hhas.1 hh).2 h2]
  · rw [hout] at h1
    simp only [removeConstraint, hb]
    rw [if_pos (by omega)]

/-- a history with a removed and a remaining constraint -/
example (x : Nat → ℚ) : (runOps (new .gurobi true : Milp ℚ) [.addVars [(.real, none, none)], .addCon [(0, 1)] .le 3,
      .addCon [(0, 2)] .ge 1, .remCon 0, .remCon 0, .addCon [(0, 1)] .le 5]).2.Feasible x ↔ 0 ≤ x 0 ∧ 1 ≤ 2 * x 0 ∧ x 0 ≤ 5 := by
  rw [C35_live_constraints]
  have e : calls (new .gurobi true : Milp ℚ) [.addVars [(.real, none, none)], .addCon [(0, 1)] .le 3,
      .addCon [(0, 2)] .ge 1, .remCon 0, .remCon 0, .addCon [(0, 1)] .le 5] =
      [(.addVars [(.real, none, none)], .vars (.one 0)), (.addCon [(0, 1)] .le 3, .con 0), (.addCon [(0, 2)] .ge 1, .con 1),
       (.remCon 0, .unit), (.remCon 0, .fail .typeError), (.addCon [(0, 1)] .le 5, .con 2)] := rfl
  rw [e]
  constructor
  · rintro ⟨h1, h2⟩
    have a := (h1 0 ⟨.real, some 0, none⟩ rfl).1 0 rfl
    have b := h2 [(0, 2)] .ge 1 1 (by simp) (by simp)
    have c := h2 [(0, 1)] .le 5 2 (by simp) (by simp)
    simp only [CSense.holds, List.map_cons, List.map_nil, List.sum_cons, List.sum_nil, add_zero, one_mul] at b c
    exact ⟨a, b, c⟩
  · rintro ⟨h1, h2, h3⟩
    refine ⟨fun i v hv => ?_, fun l s r i hm hr => ?_⟩
    · have hv : [(⟨.real, some 0, none⟩ : Var ℚ)][i]? = some v := hv
      cases i with
      | zero =>
        simp only [List.getElem?_cons_zero, Option.some.injEq] at hv
        subst hv
        exact ⟨fun l hl => by cases hl; exact h1, fun u hu => (by cases hu), trivial⟩
      | succ i => simp at hv
    · simp only [List.mem_cons, Prod.mk.injEq, Op.addCon.injEq, Out.con.injEq, reduceCtorEq, and_false, List.not_mem_nil,
        or_false, false_or] at hm
      rcases hm with ⟨⟨rfl, rfl, rfl⟩, rfl⟩ | ⟨⟨rfl, rfl, rfl⟩, rfl⟩ | ⟨⟨rfl, rfl, rfl⟩, rfl⟩
      · simp at hr
      · simpa [CSense.holds] using h2
      · simpa [CSense.holds] using h3

end Verif.Props
