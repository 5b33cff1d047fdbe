import Verif.Model.Storm
import Verif.Proofs.IOTra
import Verif.Proofs.ReduceLab
/-!
# Invariants of the loops that read a stormpy model
-/

namespace Verif.Proofs.StormInv
open Verif.Model Verif.Model.Storm Verif.Proofs Verif.Proofs.IDict Verif.Proofs.IOTra Verif.Props

set_option linter.unusedSectionVars false
variable {K : Type} [Field K] [LinearOrder K] [IsStrictOrderedRing K]

/-- the probability of the transition of `a` to `t` -/
def _root_.Verif.Model.StormAction.prob (a : StormAction K) (t : Nat) : K := (a.trans.get? t).getD 0

theorem writeRow_ok {P : Dok K} (h : Fit P) {i : Nat} (hi : i < P.rows) (tr : Dict Nat K) (hn : (Dict.keys tr).Nodup)
    (hc : ∀ t ∈ tr, t.1 < P.cols) :
    ∃ Q, writeRow P i tr = .ok Q ∧ Fit Q ∧ Q.rows = P.rows ∧ Q.cols = P.cols ∧
      ∀ i' j, Q.get i' j = if i' = i then (tr.get? j).getD (P.get i j) else P.get i' j := by
  unfold writeRow
  induction tr generalizing P with
  | nil =>
    refine ⟨P, rfl, h, rfl, rfl, fun i' j => ?_⟩
    split
    · rename_i e; rw [e]; simp [Dict.get?]
    · rfl
  | cons e tr ih =>
    obtain ⟨c, p⟩ := e
    have hcc : c < P.cols := hc (c, p) List.mem_cons_self
    rw [List.foldlM_cons]
    have hp : put P i c p = .ok (P.set i c p) := by unfold put; rw [if_pos ⟨hi, hcc⟩]
    simp only [hp, bind, Except.bind]
    have hs := set_shape P i c p
    simp only [Dict.keys, List.map_cons, List.nodup_cons] at hn
    obtain ⟨Q, q1, q2, q3, q4, q5⟩ := ih (fit_set h hi hcc p) (by rw [hs.1]; exact hi) hn.2
      (fun t ht => by rw [hs.2]; exact hc t (by simp [ht]))
    refine ⟨Q, q1, q2, q3.trans hs.1, q4.trans hs.2, fun i' j => ?_⟩
    rw [q5, get_set h, get_set h]
    by_cases hii : i' = i
    · subst hii
      simp only [if_true, Prod.mk.injEq, true_and, Dict.get?]
      by_cases hcj : c = j
      · subst hcj
        have : Dict.get? tr c = none := Dict.get?_eq_none.2 hn.1
        simp [this]
      · simp [hcj]
    · simp only [hii, if_false]
      rw [if_neg]
      simp only [Prod.mk.injEq, not_and]
      intro e; exact absurd e.symm hii

/-- after the states `ss` and the choices `cs` -/
structure SInv (n c : Nat) (ss : List (StormState K)) (cs : List (Nat × StormAction K)) (x : StormAcc K) : Prop where
  rows : x.P.rows = c
  cols : x.P.cols = n
  fit : Fit x.P
  next : x.next = cs.length
  idx : x.idx = cs.zipIdx.map fun e => ((e.1.1, e.1.2.aid), e.2)
  get : ∀ i t, x.P.get i t = (cs[i]?.map fun a => a.2.prob t).getD 0
  labA : ∀ l sa, Has x.labA l sa ↔ ∃ a ∈ cs, (a.1, a.2.aid) = sa ∧ l ∈ a.2.labels
  labAok : SetsOK x.labA
  labS : ∀ l s, Has x.labS l s ↔ ∃ st ∈ ss, st.sid = s ∧ l ∈ st.labels
  labSok : SetsOK x.labS

theorem getElem?_append_single {α : Type} (l : List α) (a : α) (i : Nat) :
    (l ++ [a])[i]? = if i = l.length then some a else l[i]? := by
  rcases Nat.lt_trichotomy i l.length with h | h | h
  · rw [List.getElem?_append_left h, if_neg (by omega)]
  · subst h; simp
  · rw [if_neg (by omega), List.getElem?_eq_none_iff.2 (by simp; omega), List.getElem?_eq_none_iff.2 (by omega)]

theorem stepAction_ok {n c : Nat} {ss : List (StormState K)} {cs : List (Nat × StormAction K)} {x : StormAcc K}
    (h : SInv n c ss cs x) {sid : Nat} {a : StormAction K} (hlt : cs.length < c)
    (hnew : (sid, a.aid) ∉ cs.map fun b => (b.1, b.2.aid)) (hn : (Dict.keys a.trans).Nodup) (hc : ∀ t ∈ a.trans, t.1 < n) :
    ∃ y, stepAction sid x a = .ok y ∧ SInv n c ss (cs ++ [(sid, a)]) y := by
  have hkeys : Dict.keys x.idx = cs.map fun b => (b.1, b.2.aid) := by
    rw [h.idx, Dict.keys, List.map_map]
    have : (Prod.fst ∘ fun e : (Nat × StormAction K) × Nat => ((e.1.1, e.1.2.aid), e.2)) =
        (fun b : Nat × StormAction K => (b.1, b.2.aid)) ∘ Prod.fst := rfl
    rw [this, ← List.map_map, List.zipIdx_map_fst]
  have hk : (sid, a.aid) ∉ Dict.keys x.idx := by rw [hkeys]; exact hnew
  have hv : x.next ∉ x.idx.map Prod.snd := by
    rw [h.idx, h.next, List.map_map]
    intro hm
    obtain ⟨e, he, hel⟩ := List.mem_map.1 hm
    have := List.snd_lt_of_mem_zipIdx he
    simp only [Function.comp] at hel
    omega
  obtain ⟨Q, q1, q2, q3, q4, q5⟩ := writeRow_ok h.fit (i := x.next) (by rw [h.rows, h.next]; exact hlt) a.trans hn
    (fun t ht => by rw [h.cols]; exact hc t ht)
  refine ⟨⟨Q, x.idx ++ [((sid, a.aid), x.next)], a.labels.foldl (fun d l => IDict.addTo d l (sid, a.aid)) x.labA, x.labS,
    x.next + 1⟩, ?_, ?_⟩
  · unfold stepAction
    rw [Dict.get?_eq_none.2 hk]
    simp only [bput_new hk hv, bind, Except.bind, q1]
  · exact {
      rows := q3.trans h.rows
      cols := q4.trans h.cols
      fit := q2
      next := by simp [h.next]
      idx := by simp [h.idx, h.next, List.zipIdx_append]
      get := by
        intro i t
        rw [q5, getElem?_append_single, h.next]
        by_cases hi : i = cs.length
        · subst hi
          simp only [if_true, Option.map_some, Option.getD_some, StormAction.prob]
          rw [h.get]
          simp
        · simp only [hi, if_false, h.get]
      labA := by
        intro l sa
        rw [has_foldl_add, h.labA]
        simp only [List.mem_append, List.mem_singleton]
        constructor
        · rintro (⟨e, hl⟩ | ⟨b, hb, e, hl⟩)
          · exact ⟨_, Or.inr rfl, e.symm, hl⟩
          · exact ⟨b, Or.inl hb, e, hl⟩
        · rintro ⟨b, hb | rfl, e, hl⟩
          · exact Or.inr ⟨b, hb, e, hl⟩
          · exact Or.inl ⟨e.symm, hl⟩
      labAok := ok_foldl_add _ _ _ h.labAok
      labS := h.labS
      labSok := h.labSok }

theorem stepActions_ok {n c : Nat} {ss : List (StormState K)} {sid : Nat} (as : List (StormAction K)) :
    ∀ {cs : List (Nat × StormAction K)} {x : StormAcc K}, SInv n c ss cs x → cs.length + as.length ≤ c →
    ((cs ++ as.map fun a => (sid, a)).map fun b => (b.1, b.2.aid)).Nodup →
    (∀ a ∈ as, (Dict.keys a.trans).Nodup ∧ ∀ t ∈ a.trans, t.1 < n) →
    ∃ y, as.foldlM (stepAction sid) x = .ok y ∧ SInv n c ss (cs ++ as.map fun a => (sid, a)) y := by
  induction as with
  | nil => intro cs x h _ _ _; exact ⟨x, rfl, by simpa using h⟩
  | cons a as ih =>
    intro cs x h hl hd ht
    simp only [List.length_cons] at hl
    obtain ⟨y, y1, y2⟩ := stepAction_ok h (sid := sid) (a := a) (by omega) (by
      intro hm
      rw [List.map_append, List.nodup_append] at hd
      exact hd.2.2 _ hm _ (by simp) rfl) (ht a (by simp)).1 (ht a (by simp)).2
    obtain ⟨z, z1, z2⟩ := ih y2 (by simp; omega) (by simpa using hd) (fun b hb => ht b (by simp [hb]))
    exact ⟨z, by rw [List.foldlM_cons, y1]; exact z1, by simpa using z2⟩

/-- the choices of a list of states in order -/
def choicesOf (ss : List (StormState K)) : List (Nat × StormAction K) :=
  ss.flatMap fun s => s.actions.map fun a => (s.sid, a)

theorem stepStates_ok {n c : Nat} (ts : List (StormState K)) :
    ∀ {ss : List (StormState K)} {x : StormAcc K}, SInv n c ss (choicesOf ss) x → (choicesOf (ss ++ ts)).length ≤ c →
    ((choicesOf (ss ++ ts)).map fun b => (b.1, b.2.aid)).Nodup →
    (∀ b ∈ choicesOf ts, (Dict.keys b.2.trans).Nodup ∧ ∀ t ∈ b.2.trans, t.1 < n) →
    ∃ y, ts.foldlM stepState x = .ok y ∧ SInv n c (ss ++ ts) (choicesOf (ss ++ ts)) y := by
  induction ts with
  | nil => intro ss x h _ _ _; exact ⟨x, rfl, by simpa using h⟩
  | cons s ts ih =>
    intro ss x h hl hd ht
    have e1 : choicesOf (ss ++ s :: ts) = (choicesOf ss ++ s.actions.map fun a => (s.sid, a)) ++ choicesOf ts := by
      simp [choicesOf]
    have e2 : choicesOf (ss ++ [s]) = choicesOf ss ++ s.actions.map fun a => (s.sid, a) := by
      simp [choicesOf]
    have h' : SInv n c (ss ++ [s]) (choicesOf ss)
        { x with labS := s.labels.foldl (fun d l => IDict.addTo d l s.sid) x.labS } := {
      rows := h.rows, cols := h.cols, fit := h.fit, next := h.next, idx := h.idx, get := h.get
      labA := h.labA, labAok := h.labAok
      labS := by
        intro l t
        rw [has_foldl_add, h.labS]
        simp only [List.mem_append, List.mem_singleton]
        constructor
        · rintro (⟨e, hl⟩ | ⟨b, hb, e, hl⟩)
          · exact ⟨_, Or.inr rfl, e.symm, hl⟩
          · exact ⟨b, Or.inl hb, e, hl⟩
        · rintro ⟨b, hb | rfl, e, hl⟩
          · exact Or.inr ⟨b, hb, e, hl⟩
          · exact Or.inl ⟨e.symm, hl⟩
      labSok := ok_foldl_add _ _ _ h.labSok }
    rw [e1] at hl hd
    obtain ⟨y, y1, y2⟩ := stepActions_ok (sid := s.sid) s.actions h' (by
        simp only [List.length_append, List.length_map] at hl; omega)
      (by rw [List.map_append] at hd; exact (List.nodup_append.1 hd).1)
      (fun a ha => ht (s.sid, a) (by simp only [choicesOf, List.flatMap_cons, List.mem_append, List.mem_map]
                                     exact Or.inl ⟨a, ha, rfl⟩))
    rw [← e2] at y2
    have e3 : choicesOf (ss ++ [s] ++ ts) = choicesOf (ss ++ s :: ts) := by simp
    obtain ⟨z, z1, z2⟩ := ih y2 (by rw [e3, e1]; exact hl) (by rw [e3, e1]; exact hd)
      (fun b hb => ht b (by simp only [choicesOf, List.flatMap_cons, List.mem_append] at hb ⊢; exact Or.inr hb))
    refine ⟨z, ?_, by simpa using z2⟩
    rw [List.foldlM_cons]
    unfold stepState
    rw [y1]
    exact z1

/-! ## the choice model -/

/-- after the states `ss` and the choices `cs` -/
structure CInv (n c : Nat) (ss : List (StormState K)) (cs : List (Nat × StormAction K)) (x : StormAcc K) : Prop where
  rows : x.P.rows = c + c
  cols : x.P.cols = n + c
  fit : Fit x.P
  next : x.next = cs.length
  idx : x.idx = cs.zipIdx.flatMap fun e => [((e.1.1, e.1.2.aid), e.2), ((n + e.2, c + e.2), c + e.2)]
  get1 : ∀ i < c, ∀ t, x.P.get i t = if i < cs.length ∧ t = n + i then 1 else 0
  get2 : ∀ i t, x.P.get (c + i) t = (cs[i]?.map fun a => a.2.prob t).getD 0
  labA : x.labA = []
  labS : ∀ l s, Has x.labS l s ↔ (∃ st ∈ ss, st.sid = s ∧ (l = "state" ∨ l ∈ st.labels)) ∨
    ∃ i a, cs[i]? = some a ∧ s = n + i + 1 ∧ (l = "choice" ∨ l ∈ a.2.labels)
  labSok : SetsOK x.labS

theorem stepActionC_ok {n c : Nat} {ss : List (StormState K)} {cs : List (Nat × StormAction K)} {x : StormAcc K}
    (h : CInv n c ss cs x) {sid : Nat} {a : StormAction K} (hlt : cs.length < c) (hs : ∀ b ∈ cs, b.1 < n) (hsid : sid < n)
    (hnew : (sid, a.aid) ∉ cs.map fun b => (b.1, b.2.aid)) (hn : (Dict.keys a.trans).Nodup) (hc : ∀ t ∈ a.trans, t.1 < n) :
    ∃ y, stepActionC n c sid x a = .ok y ∧ CInv n c ss (cs ++ [(sid, a)]) y := by
  have hmem : ∀ e ∈ x.idx, (∃ b ∈ cs, ∃ i < cs.length, e = ((b.1, b.2.aid), i)) ∨
      ∃ i < cs.length, e = ((n + i, c + i), c + i) := by
    intro e he
    rw [h.idx, List.mem_flatMap] at he
    obtain ⟨⟨b, i⟩, hb, he⟩ := he
    have hi := List.snd_lt_of_mem_zipIdx hb
    simp only [Nat.zero_add] at hi
    have hbm := List.fst_mem_of_mem_zipIdx hb
    simp only [List.mem_cons, List.mem_nil_iff, or_false] at he
    rcases he with rfl | rfl
    · exact Or.inl ⟨b, hbm, i, by omega, rfl⟩
    · exact Or.inr ⟨i, by omega, rfl⟩
  have hk : (sid, a.aid) ∉ Dict.keys x.idx := by
    intro hm
    obtain ⟨e, he, hee⟩ := List.mem_map.1 hm
    rcases hmem e he with ⟨b, hb, i, _, rfl⟩ | ⟨i, _, rfl⟩
    · exact hnew (hee ▸ List.mem_map.2 ⟨b, hb, rfl⟩)
    · simp only [Prod.mk.injEq] at hee; omega
  have hv : x.next ∉ x.idx.map Prod.snd := by
    intro hm
    obtain ⟨e, he, hee⟩ := List.mem_map.1 hm
    rw [h.next] at hee
    rcases hmem e he with ⟨b, hb, i, _, rfl⟩ | ⟨i, _, rfl⟩
    · simp only at hee; omega
    · simp only at hee; omega
  have hk2 : (n + x.next, c + x.next) ∉ Dict.keys (x.idx ++ [((sid, a.aid), x.next)]) := by
    intro hm
    obtain ⟨e, he, hee⟩ := List.mem_map.1 hm
    rw [h.next] at hee
    rcases List.mem_append.1 he with he | he
    · rcases hmem e he with ⟨b, hb, i, _, rfl⟩ | ⟨i, _, rfl⟩
      · have := hs b hb
        simp only [Prod.mk.injEq] at hee; omega
      · simp only [Prod.mk.injEq] at hee; omega
    · simp only [List.mem_singleton] at he
      subst he
      simp only [Prod.mk.injEq] at hee; omega
  have hv2 : c + x.next ∉ (x.idx ++ [((sid, a.aid), x.next)]).map Prod.snd := by
    intro hm
    obtain ⟨e, he, hee⟩ := List.mem_map.1 hm
    rw [h.next] at hee
    rcases List.mem_append.1 he with he | he
    · rcases hmem e he with ⟨b, hb, i, _, rfl⟩ | ⟨i, _, rfl⟩
      · simp only at hee; omega
      · simp only at hee; omega
    · simp only [List.mem_singleton] at he
      subst he
      simp only [h.next] at hee; omega
  obtain ⟨Q, q1, q2, q3, q4, q5⟩ := writeRow_ok h.fit (i := c + x.next) (by rw [h.rows, h.next]; omega) a.trans hn
    (fun t ht => by rw [h.cols]; have := hc t ht; omega)
  have hput : put Q x.next (n + x.next) 1 = .ok (Q.set x.next (n + x.next) 1) := by
    unfold put
    rw [if_pos]
    rw [q3, q4, h.rows, h.cols, h.next]
    omega
  have hset := set_shape Q x.next (n + x.next) 1
  refine ⟨⟨Q.set x.next (n + x.next) 1, x.idx ++ [((sid, a.aid), x.next)] ++ [((n + x.next, c + x.next), c + x.next)],
    x.labA, IDict.addTo (a.labels.foldl (fun d l => IDict.addTo d l (n + (x.next + 1))) x.labS) "choice" (n + (x.next + 1)),
    x.next + 1⟩, ?_, ?_⟩
  · unfold stepActionC
    rw [Dict.get?_eq_none.2 hk]
    simp only [bput_new hk hv, bput_new hk2 hv2, bind, Except.bind, q1, hput]
  · have hQ : ∀ i t, (Q.set x.next (n + x.next) 1).get i t = if (cs.length, n + cs.length) = (i, t) then 1 else Q.get i t := by
      intro i t
      rw [get_set q2, h.next]
    exact {
      rows := hset.1.trans (q3.trans h.rows)
      cols := hset.2.trans (q4.trans h.cols)
      fit := fit_set q2 (by rw [q3, h.rows, h.next]; omega) (by rw [q4, h.cols, h.next]; omega) _
      next := by simp [h.next]
      idx := by simp [h.idx, h.next, List.zipIdx_append]
      get1 := by
        intro i hi t
        rw [hQ, q5, h.next]
        simp only [List.length_append, List.length_singleton, Prod.mk.injEq]
        rw [if_neg (show ¬ i = c + cs.length by omega), h.get1 i hi]
        by_cases hii : cs.length = i
        · subst hii
          by_cases ht : t = n + cs.length
          · subst ht; simp
          · rw [if_neg (by rintro ⟨_, e⟩; exact ht e.symm), if_neg (by rintro ⟨e, _⟩; omega),
              if_neg (by rintro ⟨_, e⟩; exact ht e)]
        · rw [if_neg (by rintro ⟨e, _⟩; exact hii e)]
          by_cases hc2 : i < cs.length ∧ t = n + i
          · rw [if_pos hc2, if_pos ⟨by omega, hc2.2⟩]
          · rw [if_neg hc2, if_neg]
            rintro ⟨e1, e2⟩
            exact hc2 ⟨by omega, e2⟩
      get2 := by
        intro i t
        rw [hQ, q5, if_neg (by simp only [Prod.mk.injEq]; rintro ⟨e, _⟩; omega), getElem?_append_single, h.next]
        by_cases hi : i = cs.length
        · subst hi
          simp only [if_true, Option.map_some, Option.getD_some, StormAction.prob]
          rw [h.get2]
          simp
        · rw [if_neg (by omega), if_neg hi, h.get2]
      labA := h.labA
      labS := by
        intro l s
        rw [has_addTo, has_foldl_add, h.labS, h.next]
        constructor
        · rintro (⟨e, e'⟩ | ⟨e, hl⟩ | e | ⟨i, b, hb, e, hl⟩)
          · exact Or.inr ⟨cs.length, (sid, a), by simp, by omega, Or.inl e⟩
          · exact Or.inr ⟨cs.length, (sid, a), by simp, by omega, Or.inr hl⟩
          · exact Or.inl e
          · refine Or.inr ⟨i, b, ?_, e, hl⟩
            have := (List.getElem?_eq_some_iff.1 hb).1
            rw [List.getElem?_append_left this, hb]
        · rintro (e | ⟨i, b, hb, e, hl⟩)
          · exact Or.inr (Or.inr (Or.inl e))
          · rw [getElem?_append_single] at hb
            split at hb
            · rename_i hi
              cases hb
              subst hi
              rcases hl with hl | hl
              · exact Or.inl ⟨hl, by omega⟩
              · exact Or.inr (Or.inl ⟨by omega, hl⟩)
            · exact Or.inr (Or.inr (Or.inr ⟨i, b, hb, e, hl⟩))
      labSok := ok_addTo (ok_foldl_add _ _ _ h.labSok) _ _ }

theorem stepActionsC_ok {n c : Nat} {ss : List (StormState K)} {sid : Nat} (hsid : sid < n) (as : List (StormAction K)) :
    ∀ {cs : List (Nat × StormAction K)} {x : StormAcc K}, CInv n c ss cs x → cs.length + as.length ≤ c →
    (∀ b ∈ cs, b.1 < n) → ((cs ++ as.map fun a => (sid, a)).map fun b => (b.1, b.2.aid)).Nodup →
    (∀ a ∈ as, (Dict.keys a.trans).Nodup ∧ ∀ t ∈ a.trans, t.1 < n) →
    ∃ y, as.foldlM (stepActionC n c sid) x = .ok y ∧ CInv n c ss (cs ++ as.map fun a => (sid, a)) y := by
  induction as with
  | nil => intro cs x h _ _ _ _; exact ⟨x, rfl, by simpa using h⟩
  | cons a as ih =>
    intro cs x h hl hs hd ht
    simp only [List.length_cons] at hl
    obtain ⟨y, y1, y2⟩ := stepActionC_ok h (sid := sid) (a := a) (by omega) hs hsid (by
      intro hm
      rw [List.map_append, List.nodup_append] at hd
      exact hd.2.2 _ hm _ (by simp) rfl) (ht a (by simp)).1 (ht a (by simp)).2
    obtain ⟨z, z1, z2⟩ := ih y2 (by simp; omega) (by
      intro b hb
      rcases List.mem_append.1 hb with hb | hb
      · exact hs b hb
      · simp only [List.mem_singleton] at hb; subst hb; exact hsid) (by simpa using hd) (fun b hb => ht b (by simp [hb]))
    exact ⟨z, by rw [List.foldlM_cons, y1]; exact z1, by simpa using z2⟩

theorem stepStatesC_ok {n c : Nat} (ts : List (StormState K)) :
    ∀ {ss : List (StormState K)} {x : StormAcc K}, CInv n c ss (choicesOf ss) x → (choicesOf (ss ++ ts)).length ≤ c →
    (∀ s ∈ ss ++ ts, s.sid < n) → ((choicesOf (ss ++ ts)).map fun b => (b.1, b.2.aid)).Nodup →
    (∀ b ∈ choicesOf ts, (Dict.keys b.2.trans).Nodup ∧ ∀ t ∈ b.2.trans, t.1 < n) →
    ∃ y, ts.foldlM (stepStateC n c) x = .ok y ∧ CInv n c (ss ++ ts) (choicesOf (ss ++ ts)) y := by
  induction ts with
  | nil => intro ss x h _ _ _ _; exact ⟨x, rfl, by simpa using h⟩
  | cons s ts ih =>
    intro ss x h hl hs hd ht
    have e1 : choicesOf (ss ++ s :: ts) = (choicesOf ss ++ s.actions.map fun a => (s.sid, a)) ++ choicesOf ts := by
      simp [choicesOf]
    have e2 : choicesOf (ss ++ [s]) = choicesOf ss ++ s.actions.map fun a => (s.sid, a) := by
      simp [choicesOf]
    have h' : CInv n c (ss ++ [s]) (choicesOf ss)
        { x with labS := s.labels.foldl (fun d l => IDict.addTo d l s.sid) (IDict.addTo x.labS "state" s.sid) } := {
      rows := h.rows, cols := h.cols, fit := h.fit, next := h.next, idx := h.idx, get1 := h.get1, get2 := h.get2
      labA := h.labA
      labS := by
        intro l t
        rw [has_foldl_add, has_addTo, h.labS]
        simp only [List.mem_append, List.mem_singleton]
        constructor
        · rintro (⟨e, hl⟩ | ⟨e, e'⟩ | ⟨b, hb, e, hl⟩ | e)
          · exact Or.inl ⟨_, Or.inr rfl, e.symm, Or.inr hl⟩
          · exact Or.inl ⟨_, Or.inr rfl, e'.symm, Or.inl e⟩
          · exact Or.inl ⟨b, Or.inl hb, e, hl⟩
          · exact Or.inr e
        · rintro (⟨b, hb | rfl, e, hl⟩ | e)
          · exact Or.inr (Or.inr (Or.inl ⟨b, hb, e, hl⟩))
          · rcases hl with hl | hl
            · exact Or.inr (Or.inl ⟨hl, e.symm⟩)
            · exact Or.inl ⟨e.symm, hl⟩
          · exact Or.inr (Or.inr (Or.inr e))
      labSok := ok_foldl_add _ _ _ (ok_addTo h.labSok _ _) }
    rw [e1] at hl hd
    have hcs : ∀ b ∈ choicesOf ss, b.1 < n := by
      intro b hb
      obtain ⟨s', hs', hb⟩ := List.mem_flatMap.1 hb
      obtain ⟨a, _, rfl⟩ := List.mem_map.1 hb
      exact hs s' (by simp [hs'])
    obtain ⟨y, y1, y2⟩ := stepActionsC_ok (sid := s.sid) (hs s (by simp)) s.actions h' (by
        simp only [List.length_append, List.length_map] at hl; omega) hcs
      (by rw [List.map_append] at hd; exact (List.nodup_append.1 hd).1)
      (fun a ha => ht (s.sid, a) (by simp only [choicesOf, List.flatMap_cons, List.mem_append, List.mem_map]
                                     exact Or.inl ⟨a, ha, rfl⟩))
    rw [← e2] at y2
    have e3 : choicesOf (ss ++ [s] ++ ts) = choicesOf (ss ++ s :: ts) := by simp
    obtain ⟨z, z1, z2⟩ := ih y2 (by rw [e3, e1]; exact hl) (by simpa using hs) (by rw [e3, e1]; exact hd)
      (fun b hb => ht b (by simp only [choicesOf, List.flatMap_cons, List.mem_append] at hb ⊢; exact Or.inr hb))
    refine ⟨z, ?_, by simpa using z2⟩
    rw [List.foldlM_cons]
    unfold stepStateC
    rw [y1]
    exact z1

end Verif.Proofs.StormInv
