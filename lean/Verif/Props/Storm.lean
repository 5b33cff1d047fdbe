import Verif.Proofs.Storm
import Verif.Props.ExampleTools
/-!
# C56, C65: systems built from stormpy models
-/

namespace Verif.Props
open Verif.Model Verif.Model.Storm Verif.Proofs Verif.Proofs.IDict Verif.Proofs.IOTra Verif.Proofs.StormInv
open Finset (range)

set_option linter.unusedSectionVars false
variable {K : Type} [Field K] [LinearOrder K] [IsStrictOrderedRing K]

/-- the choices of the model: state and action, in the order of the model -/
def _root_.Verif.Model.Storm.choices (m : Storm K) : List (Nat × StormAction K) := choicesOf m.states

/-- What stormpy guarantees: state ids are below `nr_states`, the actions of a state have different ids, `nr_choices`
counts the actions, the transitions of an action go to different states, have probabilities between `0` and `1` and sum
up to `1` (up to nine decimals). -/
structure _root_.Verif.Model.Storm.WF (m : Storm K) : Prop where
  sid : ∀ s ∈ m.states, s.sid < m.n
  pairs : (m.choices.map fun b => (b.1, b.2.aid)).Nodup
  count : m.choices.length = m.c
  cols : ∀ b ∈ m.choices, (b.2.trans.map Prod.fst).Nodup ∧ ∀ t ∈ b.2.trans, t.1 < m.n
  entry : ∀ b ∈ m.choices, ∀ t ∈ b.2.trans, 0 ≤ t.2 ∧ t.2 ≤ 1
  sum : ∀ b ∈ m.choices, |∑ t ∈ range m.n, b.2.prob t - 1| ≤ 1 / (2 * 10 ^ 9)

/-- the labels a system shows for a state -/
def shows (M : Sys K) (l : String) (s : Nat) : Prop := ∃ r, M.statesByLabel l = .ok r ∧ s ∈ r

/-- the actions a system shows for an action label -/
def showsA (M : Sys K) (l : String) (sa : Nat × Nat) : Prop := ∃ r, M.labA.getItem l = .ok r ∧ sa ∈ r

theorem getItem_default {α β : Type} [DecidableEq α] [DecidableEq β] (d : Dict α (List β)) (l : α) (v : β) :
    (∃ r, (IDict.mk' d true).getItem l = .ok r ∧ v ∈ r) ↔ Has d l v := by
  unfold IDict.getItem Has
  simp only [IDict.mk']
  cases h : Dict.get? d l with
  | none => simp
  | some s => simp

theorem prob_range {m : Storm K} (h : m.WF) {b : Nat × StormAction K} (hb : b ∈ m.choices) (t : Nat) :
    0 ≤ b.2.prob t ∧ b.2.prob t ≤ 1 ∧ (m.n ≤ t → b.2.prob t = 0) := by
  unfold StormAction.prob
  cases hg : Dict.get? b.2.trans t with
  | none => simp
  | some p =>
    have hm := Dict.mem_of_get? hg
    refine ⟨(h.entry b hb _ hm).1, (h.entry b hb _ hm).2, fun ht => ?_⟩
    have := (h.cols b hb).2 _ hm
    simp only at this
    omega

/-- **C65.** `MDP.from_stormpy` of a stormpy model returns an MDP with its states, whose `i`-th row is the `i`-th choice with
the same probabilities, and with exactly the state labels and choice labels of the model.  (Missing: DTMCs, see `C65_dtmc_false`.) -/
theorem C65_mdp_partial (m : Storm K) (h : m.WF) :
    ∃ M : Sys K, fromStormpy false m false = .ok M ∧ M.N = m.n ∧ M.C = m.c ∧ M.dtmc = false ∧ M.rew = none ∧
      (∀ sa i, M.idx.get? sa = some i ↔ ∃ b, m.choices[i]? = some b ∧ (b.1, b.2.aid) = sa) ∧
      (∀ i b, m.choices[i]? = some b → ∀ t, M.P.get i t = b.2.prob t) ∧
      (∀ l s, shows M l s ↔ ∃ st ∈ m.states, st.sid = s ∧ l ∈ st.labels) ∧
      (∀ l sa, showsA M l sa ↔ ∃ b ∈ m.choices, (b.1, b.2.aid) = sa ∧ l ∈ b.2.labels) := by
  obtain ⟨x, x1, x2⟩ := stepStates_ok (n := m.n) (c := m.c) m.states (ss := []) (x := ⟨Dok.zero m.c m.n, [], [], [], 0⟩)
    { rows := rfl, cols := rfl, fit := ⟨by simp [Dok.zero, Dict.keys], by simp [Dok.zero]⟩, next := rfl, idx := rfl
      get := by simp [Dok.zero, Dok.get, Dict.get?, choicesOf]
      labA := by simp [Has, Dict.get?, choicesOf], labAok := by simp [SetsOK, Dict.keys, Dict.get?]
      labS := by simp [Has, Dict.get?], labSok := by simp [SetsOK, Dict.keys, Dict.get?] }
    (by rw [List.nil_append]; exact h.count.le) h.pairs h.cols
  rw [List.nil_append] at x2
  have hch : choicesOf m.states = m.choices := rfl
  rw [hch] at x2
  have hkeys : Dict.keys x.idx = m.choices.map fun b => (b.1, b.2.aid) := by
    rw [x2.idx, Dict.keys, List.map_map]
    have : (Prod.fst ∘ fun e : (Nat × StormAction K) × Nat => ((e.1.1, e.1.2.aid), e.2)) =
        (fun b : Nat × StormAction K => (b.1, b.2.aid)) ∘ Prod.fst := rfl
    rw [this, ← List.map_map, List.zipIdx_map_fst]
  have hkn : (Dict.keys x.idx).Nodup := by rw [hkeys]; exact h.pairs
  have hmem : ∀ sa i, (sa, i) ∈ x.idx ↔ ∃ b, m.choices[i]? = some b ∧ (b.1, b.2.aid) = sa := by
    intro sa i
    rw [x2.idx, List.mem_map]
    constructor
    · rintro ⟨⟨b, j⟩, hb, e⟩
      simp only [Prod.mk.injEq] at e
      obtain ⟨e, rfl⟩ := e
      exact ⟨b, List.mem_zipIdx_iff_getElem?.1 hb, e⟩
    · rintro ⟨b, hb, rfl⟩
      exact ⟨(b, i), List.mem_zipIdx_iff_getElem?.2 hb, rfl⟩
  have hrow : ∀ i < m.c, ∃ b, m.choices[i]? = some b ∧ b ∈ m.choices ∧ ∀ t, x.P.get i t = b.2.prob t := by
    intro i hi
    have hi' : i < m.choices.length := by rw [h.count]; exact hi
    exact ⟨_, List.getElem?_eq_getElem hi', List.getElem_mem _, fun t => by rw [x2.get, List.getElem?_eq_getElem hi']; rfl⟩
  have hT : GoodTable x.P none := by
    refine ⟨fun i hi => ?_, fun i hi j _ => ?_, by simp⟩
    · rw [x2.rows] at hi
      obtain ⟨b, _, hb, hg⟩ := hrow i hi
      simp only [hg, x2.cols]
      exact h.sum b hb
    · rw [x2.rows] at hi
      obtain ⟨b, _, hb, hg⟩ := hrow i hi
      rw [hg]
      exact ⟨(prob_range h hb j).1, (prob_range h hb j).2.1⟩
  have hI : GoodIndex x.P x.idx := by
    refine ⟨?_, ?_⟩
    · rintro ⟨sa, i⟩ he ⟨sa', i'⟩ he' e
      simp only at e
      subst e
      obtain ⟨b, hb, rfl⟩ := (hmem _ _).1 he
      obtain ⟨b', hb', rfl⟩ := (hmem _ _).1 he'
      rw [hb] at hb'
      cases hb'
      rfl
    · intro i hi
      rw [x2.rows] at hi
      obtain ⟨b, hb, hbm, _⟩ := hrow i hi
      refine ⟨b.1, b.2.aid, (hmem _ _).2 ⟨b, hb, rfl⟩, ?_⟩
      rw [x2.cols]
      obtain ⟨s', hs', hb⟩ := List.mem_flatMap.1 hbm
      obtain ⟨a, _, rfl⟩ := List.mem_map.1 hb
      exact h.sid s' hs'
  obtain ⟨M, hM⟩ := (C09_mdp x2.fit.inShape hkn (IDict.mk' x.labA true) (IDict.mk' x.labS true) none).2 ⟨hT, hI⟩
  obtain ⟨c1, c2, c3, c4, c5, c6⟩ := C09_mdp_content hkn hM
  refine ⟨M, ?_, by rw [Sys.N, c1, x2.cols], by rw [Sys.C, c1, x2.rows], c6, c5, ?_, ?_, ?_, ?_⟩
  · unfold fromStormpy fromModel
    simp only [Bool.false_eq_true, if_false, x1, bind, Except.bind, hM]
  · intro sa i
    rw [c2, ← hmem]
    exact ⟨Dict.mem_of_get?, Dict.get?_of_mem hkn⟩
  · intro i b hb t
    rw [c1, x2.get, hb]
    rfl
  · intro l s
    unfold shows Sys.statesByLabel
    rw [c4, getItem_default, x2.labS]
  · intro l sa
    unfold showsA
    rw [c3, getItem_default, x2.labA]

/-- The same for the choice model, with the labels it really gets: the label "choice" and the labels of choice `i` are at the
number `N+i+1`. -/
theorem choice_spec (m : Storm K) (h : m.WF) :
    ∃ M : Sys K, fromStormpy false m true = .ok M ∧ M.N = m.n + m.c ∧ M.C = m.c + m.c ∧ M.dtmc = false ∧ M.rew = none ∧
      (∀ sa i, M.idx.get? sa = some i ↔ (∃ b, m.choices[i]? = some b ∧ (b.1, b.2.aid) = sa) ∨
        ∃ j < m.c, i = m.c + j ∧ sa = (m.n + j, m.c + j)) ∧
      (∀ i < m.c, ∀ t, M.P.get i t = if t = m.n + i then 1 else 0) ∧
      (∀ i b, m.choices[i]? = some b → ∀ t, M.P.get (m.c + i) t = b.2.prob t) ∧
      (∀ l s, shows M l s ↔ (∃ st ∈ m.states, st.sid = s ∧ (l = "state" ∨ l ∈ st.labels)) ∨
        ∃ i b, m.choices[i]? = some b ∧ s = m.n + i + 1 ∧ (l = "choice" ∨ l ∈ b.2.labels)) := by
  obtain ⟨x, x1, x2⟩ := stepStatesC_ok (n := m.n) (c := m.c) m.states (ss := [])
    (x := ⟨Dok.zero (m.c + m.c) (m.n + m.c), [], [], [], 0⟩)
    { rows := rfl, cols := rfl, fit := ⟨by simp [Dok.zero, Dict.keys], by simp [Dok.zero]⟩, next := rfl, idx := rfl
      get1 := by simp [Dok.zero, Dok.get, Dict.get?, choicesOf]
      get2 := by simp [Dok.zero, Dok.get, Dict.get?, choicesOf]
      labA := rfl
      labS := by simp [Has, Dict.get?, choicesOf], labSok := by simp [SetsOK, Dict.keys, Dict.get?] }
    (by rw [List.nil_append]; exact h.count.le) (by rw [List.nil_append]; exact h.sid) h.pairs h.cols
  rw [List.nil_append] at x2
  have hch : choicesOf m.states = m.choices := rfl
  rw [hch] at x2
  have hsid : ∀ b ∈ m.choices, b.1 < m.n := by
    intro b hb
    obtain ⟨s', hs', hb⟩ := List.mem_flatMap.1 hb
    obtain ⟨a, _, rfl⟩ := List.mem_map.1 hb
    exact h.sid s' hs'
  have hmem : ∀ sa i, (sa, i) ∈ x.idx ↔ (∃ b, m.choices[i]? = some b ∧ (b.1, b.2.aid) = sa) ∨
        ∃ j < m.c, i = m.c + j ∧ sa = (m.n + j, m.c + j) := by
    intro sa i
    rw [x2.idx, List.mem_flatMap]
    constructor
    · rintro ⟨⟨b, j⟩, hb, e⟩
      have hb' := List.mem_zipIdx_iff_getElem?.1 hb
      simp only [List.mem_cons, List.mem_nil_iff, or_false, Prod.mk.injEq] at e
      rcases e with ⟨rfl, rfl⟩ | ⟨rfl, rfl⟩
      · exact Or.inl ⟨b, hb', rfl⟩
      · have := (List.getElem?_eq_some_iff.1 hb').1
        rw [h.count] at this
        exact Or.inr ⟨j, this, rfl, rfl⟩
    · rintro (⟨b, hb, rfl⟩ | ⟨j, hj, rfl, rfl⟩)
      · exact ⟨(b, i), List.mem_zipIdx_iff_getElem?.2 hb, by simp⟩
      · have hj' : j < m.choices.length := by rw [h.count]; exact hj
        exact ⟨(m.choices[j], j), List.mem_zipIdx_iff_getElem?.2 (List.getElem?_eq_getElem hj'), by simp⟩
  have hlt : ∀ {i b}, m.choices[i]? = some b → i < m.c := by
    intro i b hb
    have := (List.getElem?_eq_some_iff.1 hb).1
    rwa [h.count] at this
  have hinj1 : ∀ e ∈ x.idx, ∀ e' ∈ x.idx, e.2 = e'.2 → e = e' := by
    rintro ⟨sa, i⟩ he ⟨sa', i'⟩ he' e
    simp only at e
    subst e
    rcases (hmem _ _).1 he with ⟨b, hb, rfl⟩ | ⟨j, hj, rfl, rfl⟩ <;>
      rcases (hmem _ _).1 he' with ⟨b', hb', rfl⟩ | ⟨j', hj', e, rfl⟩
    · rw [hb] at hb'; cases hb'; rfl
    · have := hlt hb; omega
    · have := hlt hb'; omega
    · have : j = j' := by omega
      rw [this]
  have hkn : (Dict.keys x.idx).Nodup := by
    rw [x2.idx, Dict.keys, List.map_flatMap, List.nodup_flatMap]
    refine ⟨?_, ?_⟩
    · rintro ⟨b, j⟩ hb
      have := hsid b (List.fst_mem_of_mem_zipIdx hb)
      simp only [List.map_cons, List.map_nil, List.nodup_cons, List.mem_singleton, Prod.mk.injEq, List.not_mem_nil,
        not_false_eq_true, List.nodup_nil, and_true, not_and]
      intro e
      omega
    · have hp : m.choices.zipIdx.Pairwise fun a b => (a.1.1, a.1.2.aid) ≠ (b.1.1, b.1.2.aid) ∧ a.2 ≠ b.2 := by
        rw [List.pairwise_and_iff]
        constructor
        · have := h.pairs
          rw [List.Nodup, List.pairwise_map] at this
          have h2 : (m.choices.zipIdx.map Prod.fst).Pairwise fun a b => (a.1, a.2.aid) ≠ (b.1, b.2.aid) := by
            rw [List.zipIdx_map_fst]; exact this
          rwa [List.pairwise_map] at h2
        · have h2 : (m.choices.zipIdx.map Prod.snd).Nodup := by
            rw [List.zipIdx_map_snd]; exact List.nodup_range'
          rw [List.Nodup, List.pairwise_map] at h2
          exact h2
      refine List.Pairwise.imp_of_mem ?_ hp
      rintro ⟨a, i⟩ ⟨b, j⟩ ha hb ⟨n1, n2⟩
      have ha := hsid a (List.fst_mem_of_mem_zipIdx ha)
      have hb := hsid b (List.fst_mem_of_mem_zipIdx hb)
      simp only [Function.onFun]
      intro sa h1 h2
      simp only [List.map_cons, List.map_nil, List.mem_cons, List.not_mem_nil, or_false] at h1 h2
      simp only at n1 n2 ha hb
      rcases h1 with rfl | rfl <;> rcases h2 with h2 | h2
      · exact n1 h2
      · simp only [Prod.mk.injEq] at h2; omega
      · simp only [Prod.mk.injEq] at h2; omega
      · simp only [Prod.mk.injEq] at h2; omega
  have hrow : ∀ i < m.c, ∃ b, m.choices[i]? = some b ∧ b ∈ m.choices ∧ ∀ t, x.P.get (m.c + i) t = b.2.prob t := by
    intro i hi
    have hi' : i < m.choices.length := by rw [h.count]; exact hi
    exact ⟨_, List.getElem?_eq_getElem hi', List.getElem_mem _, fun t => by rw [x2.get2, List.getElem?_eq_getElem hi']; rfl⟩
  have hone : ∀ i < m.c, ∀ t, x.P.get i t = if t = m.n + i then 1 else 0 := by
    intro i hi t
    rw [x2.get1 i hi, h.count]
    simp [hi]
  have hT : GoodTable x.P none := by
    refine ⟨fun i hi => ?_, fun i hi j _ => ?_, by simp⟩
    · rw [x2.rows] at hi
      rw [x2.cols]
      by_cases hic : i < m.c
      · simp only [hone i hic]
        rw [Finset.sum_ite_eq', if_pos (by rw [Finset.mem_range]; omega)]
        simp
      · obtain ⟨b, _, hb, hg⟩ := hrow (i - m.c) (by omega)
        rw [show m.c + (i - m.c) = i by omega] at hg
        simp only [hg]
        rw [Finset.sum_range_add, Finset.sum_eq_zero (s := range m.c) (fun t _ => (prob_range h hb _).2.2 (by omega)), add_zero]
        exact h.sum b hb
    · rw [x2.rows] at hi
      by_cases hic : i < m.c
      · rw [hone i hic]
        split <;> simp
      · obtain ⟨b, _, hb, hg⟩ := hrow (i - m.c) (by omega)
        rw [show m.c + (i - m.c) = i by omega] at hg
        rw [hg]
        exact ⟨(prob_range h hb j).1, (prob_range h hb j).2.1⟩
  have hI : GoodIndex x.P x.idx := by
    refine ⟨hinj1, ?_⟩
    intro i hi
    rw [x2.rows] at hi
    rw [x2.cols]
    by_cases hic : i < m.c
    · obtain ⟨b, hb, hbm, _⟩ := hrow i hic
      have := hsid b hbm
      exact ⟨b.1, b.2.aid, (hmem _ _).2 (Or.inl ⟨b, hb, rfl⟩), by omega⟩
    · exact ⟨m.n + (i - m.c), m.c + (i - m.c), (hmem _ _).2 (Or.inr ⟨i - m.c, by omega, by omega, rfl⟩), by omega⟩
  obtain ⟨M, hM⟩ := (C09_mdp x2.fit.inShape hkn (IDict.mk' x.labA true) (IDict.mk' x.labS true) none).2 ⟨hT, hI⟩
  obtain ⟨c1, c2, c3, c4, c5, c6⟩ := C09_mdp_content hkn hM
  refine ⟨M, ?_, by rw [Sys.N, c1, x2.cols], by rw [Sys.C, c1, x2.rows], c6, c5, ?_, ?_, ?_, ?_⟩
  · unfold fromStormpy choiceModel
    simp only [Bool.false_eq_true, if_false, if_true, x1, bind, Except.bind, hM]
  · intro sa i
    rw [c2, ← hmem]
    exact ⟨Dict.mem_of_get?, Dict.get?_of_mem hkn⟩
  · intro i hi t
    rw [c1]
    exact hone i hi t
  · intro i b hb t
    rw [c1, x2.get2, hb]
    rfl
  · intro l s
    unfold shows Sys.statesByLabel
    rw [c4, getItem_default, x2.labS]

/-- **C56 (transitions).** The choice model has the states of the stormpy model (`0 … N-1`) and one state `N+i` per choice; a
state moves with probability one to the state of the chosen choice, which moves with the probabilities of the choice.
Every state has the label "state" and its labels.  (Missing: the labels of the choices, see `C56_false`.) -/
theorem C56_transitions_partial (m : Storm K) (h : m.WF) :
    ∃ M : Sys K, fromStormpy false m true = .ok M ∧ M.N = m.n + m.c ∧ M.C = m.c + m.c ∧
      (∀ i b, m.choices[i]? = some b →
        M.idx.get? (b.1, b.2.aid) = some i ∧ (∀ t, M.P.get i t = if t = m.n + i then 1 else 0) ∧
        M.idx.get? (m.n + i, m.c + i) = some (m.c + i) ∧ ∀ t, M.P.get (m.c + i) t = b.2.prob t) ∧
      (∀ l s, s < m.n → (shows M l s ↔ ∃ st ∈ m.states, st.sid = s ∧ (l = "state" ∨ l ∈ st.labels))) := by
  obtain ⟨M, m1, m2, m3, _, _, m4, m5, m6, m7⟩ := choice_spec m h
  refine ⟨M, m1, m2, m3, ?_, ?_⟩
  · intro i b hb
    have hi := (List.getElem?_eq_some_iff.1 hb).1
    rw [h.count] at hi
    exact ⟨(m4 _ _).2 (Or.inl ⟨b, hb, rfl⟩), m5 i hi, (m4 _ _).2 (Or.inr ⟨i, hi, rfl, rfl⟩), m6 i b hb⟩
  · intro l s hs
    rw [m7]
    refine or_iff_left ?_
    rintro ⟨i, b, _, e, _⟩
    omega

/-- **C56 (shifted labels).** The labels of choice `i` and the label "choice" are on the state `N+i+1` instead of `N+i`. -/
theorem C56_shifted (m : Storm K) (h : m.WF) :
    ∃ M : Sys K, fromStormpy false m true = .ok M ∧
      ∀ l k, shows M l (m.n + k) ↔ ∃ i b, k = i + 1 ∧ m.choices[i]? = some b ∧ (l = "choice" ∨ l ∈ b.2.labels) := by
  obtain ⟨M, m1, _, _, _, _, _, _, _, m7⟩ := choice_spec m h
  refine ⟨M, m1, fun l k => ?_⟩
  rw [m7]
  constructor
  · rintro (⟨st, hst, e, _⟩ | ⟨i, b, hb, e, hl⟩)
    · have := h.sid st hst; omega
    · exact ⟨i, b, by omega, hb, hl⟩
  · rintro ⟨i, b, rfl, hb, hl⟩
    exact Or.inr ⟨i, b, hb, by omega, hl⟩

/-- **C56 is false of the code**: for every model with a choice, the state of the first choice has no label at all, and
"choice" is given to `N+C`, which is not a state. -/
theorem C56_false (m : Storm K) (h : m.WF) (hc : 0 < m.c) :
    ∃ M : Sys K, fromStormpy false m true = .ok M ∧ (∀ l, ¬ shows M l m.n) ∧ shows M "choice" (m.n + m.c) ∧
      M.N = m.n + m.c := by
  obtain ⟨M, m1, m2, _, _, _, _, _, _, m7⟩ := choice_spec m h
  obtain ⟨M', m1', m8⟩ := C56_shifted m h
  rw [m1] at m1'
  cases m1'
  refine ⟨M, m1, fun l hl => ?_, ?_, m2⟩
  · obtain ⟨i, b, e, _⟩ := (m8 l 0).1 hl
    omega
  · have hi : m.c - 1 < m.choices.length := by rw [h.count]; omega
    exact (m8 _ _).2 ⟨m.c - 1, _, by omega, List.getElem?_eq_getElem hi, Or.inl rfl⟩

/-- `DTMC.from_stormpy` raises `TypeError` for every model. -/
theorem C65_dtmc_false (m : Storm K) (choice : Bool) : (fromStormpy true m choice : Except Err (Sys K)) = .error .typeError :=
  rfl

/-- **C65 (DTMC matrix).** `DTMC.from_stormpy_model` itself, if it could be called, would give the matrix of a model whose states
have one action each. -/
theorem C65_dtmc_matrix_partial (m : Storm K) (h : m.WF) (hs : (m.states.map StormState.sid).Nodup)
    (h1 : ∀ s ∈ m.states, ∃ a, s.actions = [a]) :
    ∃ P : Dok K, fromModelDTMC m = .ok P ∧ P.rows = m.n ∧ P.cols = m.n ∧
      (∀ s ∈ m.states, ∀ a ∈ s.actions, ∀ t, P.get s.sid t = a.prob t) ∧
      ∀ i, (∀ s ∈ m.states, s.sid ≠ i) → ∀ t, P.get i t = 0 := by
  have key : ∀ (ss : List (StormState K)) (P : Dok K), Fit P → P.rows = m.n → P.cols = m.n →
      (∀ s ∈ ss, s ∈ m.states ∧ ∀ t, P.get s.sid t = 0) → (ss.map StormState.sid).Nodup →
      ∃ Q, ss.foldlM (fun P s => s.actions.foldlM (fun P a => writeRow P s.sid a.trans) P) P = .ok Q ∧ Q.rows = m.n ∧
        Q.cols = m.n ∧ (∀ s ∈ ss, ∀ a ∈ s.actions, ∀ t, Q.get s.sid t = a.prob t) ∧
        ∀ i, (∀ s ∈ ss, s.sid ≠ i) → ∀ t, Q.get i t = P.get i t := by
    intro ss
    induction ss with
    | nil => intro P _ hr hc _ _; exact ⟨P, rfl, hr, hc, by simp, by simp⟩
    | cons s ss ih =>
      intro P hf hr hc hz hd
      obtain ⟨a, ha⟩ := h1 s (hz s (by simp)).1
      have hb : (s.sid, a) ∈ m.choices :=
        List.mem_flatMap.2 ⟨s, (hz s (by simp)).1, List.mem_map.2 ⟨a, by simp [ha], rfl⟩⟩
      obtain ⟨Q, q1, q2, q3, q4, q5⟩ := writeRow_ok hf (i := s.sid) (by rw [hr]; exact h.sid s (hz s (by simp)).1) a.trans
        (h.cols _ hb).1 (by rw [hc]; exact (h.cols _ hb).2)
      simp only [List.map_cons, List.nodup_cons] at hd
      have hne : ∀ s' ∈ ss, s'.sid ≠ s.sid := fun s' hs' e => hd.1 (List.mem_map.2 ⟨s', hs', e⟩)
      obtain ⟨R, r1, r2, r3, r4, r5⟩ := ih Q q2 (q3.trans hr) (q4.trans hc) (fun s' hs' => ⟨(hz s' (by simp [hs'])).1, fun t => by
        rw [q5, if_neg (hne s' hs'), (hz s' (by simp [hs'])).2]⟩) hd.2
      refine ⟨R, ?_, r2, r3, ?_, ?_⟩
      · rw [List.foldlM_cons, ha, List.foldlM_cons, q1]
        exact r1
      · intro s' hs' b hb' t
        rcases List.mem_cons.1 hs' with rfl | hs'
        · rw [r5 _ hne, q5, if_pos rfl, (hz s' (by simp)).2]
          rw [ha] at hb'
          simp only [List.mem_singleton] at hb'
          rw [hb']
          rfl
        · exact r4 s' hs' b hb' t
      · intro i hi t
        rw [r5 i (fun s' hs' => hi s' (by simp [hs'])), q5, if_neg (fun e => hi s (by simp) e.symm)]
  obtain ⟨Q, q1, q2, q3, q4, q5⟩ := key m.states (Dok.zero m.n m.n) ⟨by simp [Dok.zero, Dict.keys], by simp [Dok.zero]⟩ rfl rfl
    (fun s hs => ⟨hs, by simp [Dok.zero, Dok.get, Dict.get?]⟩) hs
  exact ⟨Q, q1, q2, q3, q4, fun i hi t => by rw [q5 i hi]; simp [Dok.zero, Dok.get, Dict.get?]⟩

/-- a model with two states and three choices -/
def exStorm : Storm ℚ :=
  ⟨2, 3, [⟨0, ["init"], [⟨0, ["go"], [(0, 1 / 2), (1, 1 / 2)]⟩, ⟨1, ["stay"], [(0, 1)]⟩]⟩, ⟨1, ["goal"], [⟨0, [], [(1, 1)]⟩]⟩]⟩

theorem exStorm_wf : exStorm.WF where
  sid := by decide
  pairs := by decide
  count := by decide
  cols := by decide
  entry := by decide +kernel
  sum := by decide +kernel

example : ∃ M : Sys ℚ, fromStormpy false exStorm true = .ok M ∧ ∀ l, ¬ shows M l 2 := by
  obtain ⟨M, h1, h2, _⟩ := C56_false exStorm exStorm_wf (by decide)
  exact ⟨M, h1, h2⟩

end Verif.Props
