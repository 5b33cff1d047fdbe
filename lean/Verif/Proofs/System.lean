import Verif.Model.System
import Verif.Proofs.Graph
import Verif.Proofs.InvertibleDict
import Mathlib.Algebra.BigOperators.Group.List.Basic
import Mathlib.Algebra.BigOperators.Ring.Finset
/-! lemmas about system objects -/
set_option linter.unusedSectionVars false
namespace Verif.Proofs
open Verif.Model Finset

section dict
variable {α β : Type} [DecidableEq α] [DecidableEq β]

theorem mem_of_invGet? {d : Dict α β} {v : β} {k : α} (h : invGet? d v = some k) : (k, v) ∈ d := by
  unfold invGet? at h
  cases hf : d.find? (fun p => decide (p.2 = v)) with
  | none => simp [hf] at h
  | some p =>
    simp only [hf, Option.map_some, Option.some.injEq] at h
    have h1 := List.mem_of_find?_eq_some hf
    have h2 := List.find?_some hf
    simp only [decide_eq_true_eq] at h2
    obtain ⟨a, b⟩ := p
    simp only at h h2
    subst h h2
    exact h1

theorem invGet?_eq_none {d : Dict α β} {v : β} : invGet? d v = none ↔ v ∉ d.map Prod.snd := by
  unfold invGet?
  simp [List.find?_eq_none]
  constructor
  · intro h x hx; exact h _ _ hx rfl
  · rintro h a b hb rfl; exact h a hb

theorem invGet?_iff {d : Dict α β} (hn : (d.map Prod.snd).Nodup) {v : β} {k : α} :
    invGet? d v = some k ↔ (k, v) ∈ d := by
  refine ⟨mem_of_invGet?, fun h => ?_⟩
  cases hg : invGet? d v with
  | none => exact absurd (List.mem_map_of_mem (f := Prod.snd) h) (invGet?_eq_none.1 hg)
  | some k' =>
    have h' := mem_of_invGet? hg
    have := List.inj_on_of_nodup_map hn h h' rfl
    simp only [Prod.mk.injEq, and_true] at this
    rw [this]

theorem mkBidict_iff {d d' : Dict α β} (hk : (Dict.keys d).Nodup) :
    mkBidict d = .ok d' ↔ d' = d ∧ (d.map Prod.snd).Nodup := by
  have key : ∀ (d acc : Dict α β), (Dict.keys (acc ++ d)).Nodup → (acc.map Prod.snd).Nodup →
      (d.foldlM (fun acc kv => bput acc kv.1 kv.2) acc = Except.ok d' ↔
        d' = acc ++ d ∧ ((acc ++ d).map Prod.snd).Nodup) := by
    intro d
    induction d with
    | nil =>
      intro acc _ hv
      simp only [List.foldlM_nil, pure, Except.pure, Except.ok.injEq, List.append_nil]
      exact ⟨fun h => ⟨h.symm, hv⟩, fun h => h.1.symm⟩
    | cons kv d ih =>
      intro acc hk hv
      obtain ⟨k, v⟩ := kv
      have hkacc : k ∉ Dict.keys acc := by
        intro hh
        simp only [Dict.keys, List.map_append, List.map_cons] at hk hh
        rw [List.nodup_append] at hk
        exact hk.2.2 _ hh _ (by simp) rfl
      rw [List.foldlM_cons]
      cases hg : invGet? acc v with
      | none =>
        have hput : bput acc k v = .ok (acc ++ [(k, v)]) := by
          simp only [bput, hg]; rw [Dict.set_of_not_mem hkacc]
        simp only [hput, bind, Except.bind]
        rw [ih (acc ++ [(k, v)]) (by simpa using hk)]
        · simp
        · rw [invGet?_eq_none] at hg
          simp only [List.map_append, List.map_cons, List.map_nil]
          rw [List.nodup_append]
          refine ⟨hv, by simp, ?_⟩
          intro a ha b hb
          simp at hb; subst hb
          rintro rfl; exact hg ha
      | some k' =>
        have hm := mem_of_invGet? hg
        have hne : k' ≠ k := by
          rintro rfl; exact hkacc (List.mem_map_of_mem (f := Prod.fst) hm)
        have hput : bput acc k v = .error .valueError := by
          simp only [bput, hg]; rw [if_neg hne]
        simp only [hput, bind, Except.bind]
        refine iff_of_false (by simp) ?_
        rintro ⟨_, hnd⟩
        simp only [List.map_append, List.map_cons] at hnd
        rw [List.nodup_append] at hnd
        exact hnd.2.2 v (List.mem_map_of_mem (f := Prod.snd) hm) v (by simp) rfl
  simpa [mkBidict] using key d [] (by simpa using hk) (by simp)

end dict

variable {K : Type} [Field K] [LinearOrder K] [IsStrictOrderedRing K]

theorem get_of_mem {m : Dok K} (hn : (Dict.keys m.items).Nodup) {i j : Nat} {p : K}
    (h : ((i, j), p) ∈ m.items) : m.get i j = p := by
  simp [Dok.get, Dict.get?_of_mem hn h]

theorem get_eq_zero {m : Dok K} {i j : Nat} (h : ∀ p, ((i, j), p) ∉ m.items) : m.get i j = 0 := by
  unfold Dok.get
  cases hg : m.items.get? (i, j) with
  | none => rfl
  | some p => exact absurd (Dict.mem_of_get? hg) (h p)

theorem mem_of_get_ne {m : Dok K} {i j : Nat} (h : m.get i j ≠ 0) : ((i, j), m.get i j) ∈ m.items := by
  unfold Dok.get at h ⊢
  cases hg : m.items.get? (i, j) with
  | none => simp [hg] at h
  | some p => simpa using Dict.mem_of_get? hg

theorem rowSum_eq {m : Dok K} (hn : (Dict.keys m.items).Nodup)
    (hr : ∀ e ∈ m.items, e.1.2 < m.cols) (i : Nat) :
    m.rowSum i = ∑ j ∈ range m.cols, m.get i j := by
  obtain ⟨r, c, items⟩ := m
  simp only [Dok.rowSum, Dok.get] at hn hr ⊢
  induction items with
  | nil => simp [Dict.get?]
  | cons e items ih =>
    obtain ⟨⟨i', j'⟩, p⟩ := e
    simp only [Dict.keys, List.map_cons, List.nodup_cons] at hn
    have ih' := ih hn.2 fun e he => hr e (by simp [he])
    by_cases hi : i' = i
    · subst hi
      simp only [List.filter_cons, decide_true, if_true, List.map_cons, List.sum_cons, ih']
      have hj : j' ∈ range c := by simpa using hr _ (List.mem_cons_self)
      rw [← Finset.add_sum_erase _ _ hj, ← Finset.add_sum_erase _ _ hj]
      have h0 : Dict.get? items (i', j') = none := Dict.get?_eq_none.2 hn.1
      simp only [Dict.get?, if_true, Option.getD_some, h0, Option.getD_none, zero_add]
      congr 1
      refine Finset.sum_congr rfl fun j hj => ?_
      have : (i', j') ≠ (i', j) := by
        intro h; simp only [Prod.mk.injEq, true_and] at h
        exact (Finset.mem_erase.1 hj).1 h.symm
      rw [if_neg this]
    · have : decide (i' = i) = false := by simp [hi]
      simp only [List.filter_cons, this, Bool.false_eq_true, if_false, ih']
      refine Finset.sum_congr rfl fun j _ => ?_
      have : (i', j') ≠ (i, j) := by intro h; simp only [Prod.mk.injEq] at h; exact hi h.1
      simp only [Dict.get?, if_neg this]

theorem checkRewards_iff (r : List K) (n : Nat) :
    Sys.checkRewards r n = .ok () ↔ ∀ i < n, ∃ x, r[i]? = some x ∧ 0 ≤ x := by
  induction n with
  | zero => simp [Sys.checkRewards]
  | succ n ih =>
    simp only [Sys.checkRewards]
    cases hc : Sys.checkRewards r n with
    | error e =>
      simp only [bind, Except.bind]
      refine iff_of_false (by simp) ?_
      intro h
      have := ih.2 fun i hi => h i (by omega)
      rw [hc] at this; cases this
    | ok u =>
      have hall := ih.1 hc
      simp only [bind, Except.bind]
      cases hr : r[n]? with
      | none =>
        refine iff_of_false (by simp) ?_
        intro h
        obtain ⟨x, hx, _⟩ := h n (by omega)
        rw [hr] at hx; cases hx
      | some x =>
        simp only
        by_cases h0 : 0 ≤ x
        · rw [if_pos h0]
          refine iff_of_true rfl ?_
          intro i hi
          rcases Nat.lt_succ_iff_lt_or_eq.1 hi with hi | rfl
          · exact hall i hi
          · exact ⟨x, hr, h0⟩
        · rw [if_neg h0]
          refine iff_of_false (by simp) ?_
          intro h
          obtain ⟨y, hy, hy0⟩ := h n (by omega)
          rw [hr] at hy; cases hy; exact h0 hy0

theorem checkCorrectness_iff (P : Dok K) (rew : Option (List K)) :
    Sys.checkCorrectness P rew = .ok () ↔
      (∀ i < P.rows, Sys.roundsToOne (P.rowSum i)) ∧ (∀ e ∈ P.items, 0 ≤ e.2 ∧ e.2 ≤ 1) ∧
      ∀ r, rew = some r → ∀ i < P.rows, ∃ x, r[i]? = some x ∧ 0 ≤ x := by
  unfold Sys.checkCorrectness
  split
  · rename_i h1
    split
    · rename_i h2
      cases rew with
      | none => exact iff_of_true rfl ⟨h1, h2, fun r e => by cases e⟩
      | some r => simp only [checkRewards_iff]; constructor
                  · intro h; exact ⟨h1, h2, fun r' e => by cases e; exact h⟩
                  · intro h; exact h.2.2 r rfl
    · rename_i h2
      exact iff_of_false (by simp) fun h => h2 h.2.1
  · rename_i h1
    exact iff_of_false (by simp) fun h => h1 h.1

theorem make_iff {dtmc : Bool} {P : Dok K} {idx : Dict (Nat × Nat) Nat} (hk : (Dict.keys idx).Nodup)
    {labA : IDict String (Nat × Nat)} {labS : IDict String Nat} {rew : Option (List K)} {M : Sys K} :
    Sys.make dtmc P idx labA labS rew = .ok M ↔
      (idx.map Prod.snd).Nodup ∧ Sys.checkCorrectness P rew = .ok () ∧
      ∃ g, Graph.build P.cols (invGet? idx) P.items (Graph.empty P.cols) = .ok g ∧
        M = ⟨dtmc, P, idx, labA, labS, rew, g⟩ := by
  unfold Sys.make
  cases hb : mkBidict idx with
  | error e =>
    simp only [bind, Except.bind]
    refine iff_of_false (by simp) ?_
    rintro ⟨h, _⟩
    have := (mkBidict_iff hk).2 ⟨rfl, h⟩
    rw [hb] at this; cases this
  | ok d =>
    obtain ⟨rfl, hv⟩ := (mkBidict_iff hk).1 hb
    simp only [bind, Except.bind]
    cases hc : Sys.checkCorrectness P rew with
    | error e => simp
    | ok u =>
      simp only
      cases hg : Graph.build P.cols (invGet? d) P.items (Graph.empty P.cols) with
      | error e => simp
      | ok g =>
        simp only [Except.ok.injEq]
        constructor
        · intro h; exact ⟨hv, trivial, g, rfl, h.symm⟩
        · rintro ⟨_, _, g', h1, h2⟩; rw [h2, h1]

end Verif.Proofs
