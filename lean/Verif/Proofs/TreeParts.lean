import Verif.Model.TreeAlgo
import Mathlib.Data.List.GetD
import Mathlib.Data.List.Nodup
import Mathlib.Data.List.Perm.Basic
/-!
# The tree algorithm: parts along a path
-/
set_option linter.unusedSectionVars false

namespace Verif.Proofs.Tree
open Verif.Model Verif.Model.TreeDecomp

variable {K : Type} [Field K] [LinearOrder K]

/-- The parts form a path: they partition the states; `order` lists them from the last to the first; transitions stay in
their part or lead to the next one; consecutive parts are connected; the initial state is in the first part. -/
structure PathPartition (c : Chain K) (parts : List (List Nat)) (order : List Nat) : Prop where
  states : ∀ l ∈ parts, ∀ v ∈ l, v < c.n
  cover : ∀ v < c.n, ∃ (p : Nat) (l : List Nat), parts[p]? = some l ∧ v ∈ l
  disj : ∀ (p q : Nat) (l l' : List Nat) (v : Nat), parts[p]? = some l → parts[q]? = some l' → v ∈ l → v ∈ l' → p = q
  perm : order.Perm (List.range parts.length)
  link : ∀ i p q : Nat, order[i]? = some p → order[i + 1]? = some q →
    ∃ u v, u < c.n ∧ v < c.n ∧ c.edge u v = true ∧ u ∈ parts.getD q [] ∧ v ∈ parts.getD p []
  only : ∀ u v, u < c.n → v < c.n → c.edge u v = true → (∃ l ∈ parts, u ∈ l ∧ v ∈ l) ∨
    ∃ i p q : Nat, order[i]? = some p ∧ order[i + 1]? = some q ∧ u ∈ parts.getD q [] ∧ v ∈ parts.getD p []
  init : ∃ p, order.getLast? = some p ∧ c.init ∈ parts.getD p []

theorem foldl_last {α : Type} [DecidableEq α] (P : α → Prop) [DecidablePred P] (p : α) (hP : P p) :
    ∀ (l : List α) (a : α), (∀ q ∈ l, P q → q = p) → p ∈ l ∨ a = p → l.foldl (fun l p => if P p then p else l) a = p
  | [], a, _, h => by rcases h with h | h; exact absurd h List.not_mem_nil; exact h
  | q :: l, a, hq, h => by
    rw [List.foldl_cons]
    refine foldl_last P p hP l _ (fun q' h' => hq q' (List.mem_cons_of_mem _ h')) ?_
    by_cases hPq : P q
    · right; rw [if_pos hPq]; exact hq q List.mem_cons_self hPq
    · rw [if_neg hPq]
      rcases h with h | h
      · rcases List.mem_cons.1 h with rfl | h
        · exact absurd hP hPq
        · exact Or.inl h
      · exact Or.inr h

variable {c : Chain K} {parts : List (List Nat)} {order : List Nat} (H : PathPartition c parts order)
include H

theorem mem_getD {v p : Nat} : v ∈ parts.getD p [] ↔ ∃ l, parts[p]? = some l ∧ v ∈ l := by
  rw [List.getD_eq_getElem?_getD]
  cases h : parts[p]? with
  | none => simp
  | some l => simp

theorem label_of_mem {v p : Nat} (hv : v ∈ parts.getD p []) : label parts v = p := by
  obtain ⟨l, h1, h2⟩ := (mem_getD H).1 hv
  unfold label
  refine foldl_last (fun q => v ∈ parts.getD q []) p hv _ _ (fun q _ hq => ?_) (Or.inl ?_)
  · obtain ⟨l', h3, h4⟩ := (mem_getD H).1 hq
    exact H.disj _ _ _ _ v h3 h1 h4 h2
  · exact List.mem_range.2 (List.getElem?_eq_some_iff.1 h1).1

theorem label_iff {v p : Nat} (hv : v < c.n) : label parts v = p ↔ v ∈ parts.getD p [] := by
  refine ⟨fun h => ?_, label_of_mem H⟩
  obtain ⟨q, l, h1, h2⟩ := H.cover v hv
  have : v ∈ parts.getD q [] := (mem_getD H).2 ⟨l, h1, h2⟩
  rwa [← h, label_of_mem H this]

theorem label_lt {v : Nat} (hv : v < c.n) : label parts v < parts.length := by
  obtain ⟨q, l, h1, h2⟩ := H.cover v hv
  rw [label_of_mem H ((mem_getD H).2 ⟨l, h1, h2⟩)]
  exact (List.getElem?_eq_some_iff.1 h1).1

theorem order_nodup : order.Nodup := (H.perm.nodup_iff).2 List.nodup_range

theorem order_idx {i j p : Nat} (h1 : order[i]? = some p) (h2 : order[j]? = some p) : i = j := by
  obtain ⟨a, b⟩ := List.getElem?_eq_some_iff.1 h1
  obtain ⟨a', b'⟩ := List.getElem?_eq_some_iff.1 h2
  exact ((order_nodup H).getElem_inj_iff).1 (b.trans b'.symm)

/-- position of the part of a state, counted from the end of the path -/
def pos (parts : List (List Nat)) (order : List Nat) (v : Nat) : Nat := order.idxOf (label parts v)

theorem pos_iff {v : Nat} (hv : v < c.n) {i : Nat} : pos parts order v = i ↔ order[i]? = some (label parts v) := by
  have hm : label parts v ∈ order := H.perm.mem_iff.2 (List.mem_range.2 (label_lt H hv))
  have h1 : order[order.idxOf (label parts v)]? = some (label parts v) := by
    rw [List.getElem?_eq_getElem (List.idxOf_lt_length_iff.2 hm), List.getElem_idxOf]
  unfold pos
  constructor
  · rintro rfl; exact h1
  · intro h2; exact order_idx H h1 h2

theorem pos_lt {v : Nat} (hv : v < c.n) : pos parts order v < order.length :=
  List.idxOf_lt_length_iff.2 (H.perm.mem_iff.2 (List.mem_range.2 (label_lt H hv)))

theorem pos_eq_iff {u v : Nat} (hu : u < c.n) (hv : v < c.n) :
    pos parts order u = pos parts order v ↔ label parts u = label parts v := by
  constructor
  · intro h
    have := (pos_iff H hu).1 h
    rw [(pos_iff H hv).1 rfl] at this
    exact (Option.some.inj this).symm
  · intro h; unfold pos; rw [h]

/-- transitions go to the same or the next position -/
theorem edge_pos {u v : Nat} (hu : u < c.n) (hv : v < c.n) (he : c.edge u v = true) :
    pos parts order u = pos parts order v ∨ pos parts order u = pos parts order v + 1 := by
  rcases H.only u v hu hv he with ⟨l, hl, h1, h2⟩ | ⟨i, p, q, h1, h2, h3, h4⟩
  · left
    obtain ⟨p, hp⟩ := List.getElem?_of_mem hl
    rw [pos_eq_iff H hu hv, label_of_mem H ((mem_getD H).2 ⟨l, hp, h1⟩), label_of_mem H ((mem_getD H).2 ⟨l, hp, h2⟩)]
  · right
    have e1 := (pos_iff H hu (i := i + 1)).2 (by rw [label_of_mem H h3]; exact h2)
    have e2 := (pos_iff H hv (i := i)).2 (by rw [label_of_mem H h4]; exact h1)
    omega

theorem isInterface_iff {v : Nat} : isInterface c parts v = true ↔ ∃ u < c.n, c.edge u v = true ∧ label parts u ≠ label parts v := by
  unfold isInterface
  simp [List.any_eq_true]

theorem interface_iff {v : Nat} (hv : v < c.n) : isInterface c parts v = true ↔
    ∃ u < c.n, c.edge u v = true ∧ pos parts order u = pos parts order v + 1 := by
  rw [isInterface_iff H]
  refine exists_congr fun u => and_congr_right fun hu => and_congr_right fun he => ?_
  rw [Ne, ← pos_eq_iff H hu hv]
  have := edge_pos H hu hv he
  omega

theorem mem_sucs {p q : Nat} : q ∈ sucs c parts p ↔ q < parts.length ∧ q ≠ p ∧
    ∃ u < c.n, ∃ v < c.n, c.edge u v = true ∧ label parts u = p ∧ label parts v = q := by
  unfold sucs
  simp only [List.mem_filter, List.mem_range, Bool.and_eq_true, bne_iff_ne, ne_eq, List.any_eq_true, beq_iff_eq, and_assoc]

theorem eq_singleton_of_filter {α : Type} {l : List α} (hl : l.Nodup) {a : α} (h : ∀ x, x ∈ l ↔ x = a) : l = [a] := by
  have := (List.perm_ext_iff_of_nodup hl (List.nodup_singleton a)).2 (by simpa using h)
  exact List.perm_singleton.1 this

theorem sucs_nodup {p : Nat} : (sucs c parts p).Nodup := List.nodup_range.filter _

theorem sucs_zero {p : Nat} (hp : order[0]? = some p) : sucs c parts p = [] := by
  rw [List.eq_nil_iff_forall_not_mem]
  intro q hq
  obtain ⟨-, h2, u, hu, v, hv, he, h3, h4⟩ := (mem_sucs H).1 hq
  have e1 := (pos_iff H hu (i := 0)).2 (by rw [h3]; exact hp)
  have h5 : pos parts order u ≠ pos parts order v := by
    rw [Ne, pos_eq_iff H hu hv, h3, h4]; exact fun h => h2 h.symm
  have := edge_pos H hu hv he
  omega

theorem sucs_succ {i p q : Nat} (hp : order[i]? = some p) (hq : order[i + 1]? = some q) : sucs c parts q = [p] := by
  refine eq_singleton_of_filter H (sucs_nodup H) fun r => ?_
  rw [mem_sucs H]
  constructor
  · rintro ⟨-, h2, u, hu, v, hv, he, h3, h4⟩
    have e1 := (pos_iff H hu (i := i + 1)).2 (by rw [h3]; exact hq)
    have h5 : pos parts order u ≠ pos parts order v := by
      rw [Ne, pos_eq_iff H hu hv, h3, h4]; exact fun h => h2 h.symm
    have := edge_pos H hu hv he
    have e2 := (pos_iff H hv (i := i)).1 (by omega)
    rw [hp, h4] at e2
    exact (Option.some.inj e2).symm
  · rintro rfl
    obtain ⟨u, v, hu, hv, he, h1, h2⟩ := H.link i r q hp hq
    refine ⟨?_, ?_, u, hu, v, hv, he, label_of_mem H h1, label_of_mem H h2⟩
    · rw [← label_of_mem H h2]; exact label_lt H hv
    · rintro rfl
      have := order_idx H hp hq
      omega

/-! ### the view of a part -/

theorem mem_view {p v : Nat} : v ∈ view c parts p ↔ v < c.n ∧ (label parts v = p ∨ (label parts v ∈ sucs c parts p ∧ isInterface c parts v = true)) := by
  unfold view
  simp [List.mem_filter]

theorem view_nodup {p : Nat} : (view c parts p).Nodup := List.nodup_range.filter _

/-- the states of the view at position `i`: the part and the interface of the next one -/
theorem mem_view_pos {i p v : Nat} (hp : order[i]? = some p) (hv : v < c.n) : v ∈ view c parts p ↔
    pos parts order v = i ∨ (pos parts order v + 1 = i ∧ isInterface c parts v = true) := by
  rw [mem_view H]
  have e1 : label parts v = p ↔ pos parts order v = i := by
    rw [pos_iff H hv, hp]
    exact ⟨fun h => by rw [h], fun h => (Option.some.inj h).symm⟩
  rw [e1]
  cases i with
  | zero =>
    rw [sucs_zero H hp]
    simp [hv]
  | succ i =>
    obtain ⟨hi, -⟩ := List.getElem?_eq_some_iff.1 hp
    have hq : order[i]? = some order[i] := List.getElem?_eq_getElem (by omega)
    rw [sucs_succ H hq hp]
    have e2 : label parts v ∈ [order[i]] ↔ pos parts order v + 1 = i + 1 := by
      rw [List.mem_singleton, Nat.add_right_cancel_iff, pos_iff H hv, hq]
      exact ⟨fun h => by rw [h], fun h => (Option.some.inj h).symm⟩
    rw [e2]
    simp [hv]

theorem label_eq_iff {i p v : Nat} (hp : order[i]? = some p) (hv : v < c.n) : label parts v = p ↔ pos parts order v = i := by
  rw [pos_iff H hv, hp]
  exact ⟨fun h => by rw [h], fun h => (Option.some.inj h).symm⟩

theorem isOut_iff {i p v : Nat} (hp : order[i]? = some p) (hv : v ∈ view c parts p) :
    isOut c parts p v = true ↔ pos parts order v + 1 = i := by
  have hvn := ((mem_view H).1 hv).1
  unfold isOut
  rw [Bool.and_eq_true, bne_iff_ne, Ne, label_eq_iff H hp hvn]
  rcases (mem_view_pos H hp hvn).1 hv with h | ⟨h1, h2⟩
  · constructor
    · rintro ⟨-, h'⟩; exact absurd h h'
    · omega
  · exact ⟨fun _ => h1, fun _ => ⟨h2, by omega⟩⟩

theorem pos_init (hi : c.init < c.n) : pos parts order c.init + 1 = order.length := by
  obtain ⟨p, h1, h2⟩ := H.init
  have hl : 0 < order.length := by
    rcases Nat.eq_zero_or_pos order.length with h | h
    · rw [List.length_eq_zero_iff.1 h] at h1; cases h1
    · exact h
  have := (pos_iff H hi (i := order.length - 1)).2 (by
    rw [label_of_mem H h2, ← h1, List.getLast?_eq_getElem?])
  omega

theorem isIn_iff {i p v : Nat} (hp : order[i]? = some p) (hv : v ∈ view c parts p) (hi : c.init < c.n) :
    isIn c parts p v = true ↔ pos parts order v = i ∧ (isInterface c parts v = true ∨ v = c.init) := by
  have hvn := ((mem_view H).1 hv).1
  unfold isIn
  rw [Bool.or_eq_true, Bool.and_eq_true, beq_iff_eq, beq_iff_eq, label_eq_iff H hp hvn]
  constructor
  · rintro (⟨h1, h2⟩ | rfl)
    · exact ⟨h2, Or.inl h1⟩
    · refine ⟨?_, Or.inr rfl⟩
      have h1 := pos_init H hi
      have h2 := (List.getElem?_eq_some_iff.1 hp).1
      rcases (mem_view_pos H hp hvn).1 hv with h | h <;> omega
  · rintro ⟨h1, h2 | h2⟩
    · exact Or.inl ⟨h2, h1⟩
    · exact Or.inr h2

theorem mem_outNb {p v w : Nat} : w ∈ outNb c parts p v ↔ w ∈ view c parts p ∧ c.edge v w = true := by
  unfold outNb; rw [List.mem_filter]

theorem mem_inNb {p v w : Nat} : w ∈ inNb c parts p v ↔ w ∈ view c parts p ∧ c.edge w v = true := by
  unfold inNb; rw [List.mem_filter]

theorem isTarget_iff {i p v : Nat} (hp : order[i]? = some p) : isTarget c parts p v = true ↔
    0 < c.toTarget v ∨ ∃ w < c.n, c.edge v w = true ∧ isInterface c parts w = true ∧ pos parts order w + 1 = i := by
  unfold isTarget
  rw [Bool.or_eq_true, decide_eq_true_iff, List.any_eq_true]
  refine or_congr_right ?_
  constructor
  · rintro ⟨w, hw, h⟩
    obtain ⟨h1, h2⟩ := (mem_outNb H).1 hw
    have hwn := ((mem_view H).1 h1).1
    rw [Bool.and_eq_true, bne_iff_ne, Ne, label_eq_iff H hp hwn] at h
    refine ⟨w, hwn, h2, h.1, ?_⟩
    rcases (mem_view_pos H hp hwn).1 h1 with h' | h'
    · exact absurd h' h.2
    · exact h'.1
  · rintro ⟨w, hw, h1, h2, h3⟩
    refine ⟨w, (mem_outNb H).2 ⟨(mem_view_pos H hp hw).2 (Or.inr ⟨h3, h2⟩), h1⟩, ?_⟩
    rw [Bool.and_eq_true, bne_iff_ne, Ne, label_eq_iff H hp hw]
    exact ⟨h2, by omega⟩

theorem mem_inputs {i p v : Nat} (hp : order[i]? = some p) (hi : c.init < c.n) : v ∈ inputs c parts p ↔
    v < c.n ∧ pos parts order v = i ∧ (isInterface c parts v = true ∨ v = c.init) := by
  unfold inputs
  rw [List.mem_filter]
  constructor
  · rintro ⟨h1, h2⟩
    exact ⟨((mem_view H).1 h1).1, (isIn_iff H hp h1 hi).1 h2⟩
  · rintro ⟨h1, h2, h3⟩
    have : v ∈ view c parts p := (mem_view_pos H hp h1).2 (Or.inl h2)
    exact ⟨this, (isIn_iff H hp this hi).2 ⟨h2, h3⟩⟩

theorem inputs_nodup {p : Nat} : (inputs c parts p).Nodup := (view_nodup H).filter _

/-- the first part has the initial state as its only input -/
theorem inputs_root {p : Nat} (hp : order.getLast? = some p) (hi : c.init < c.n) : inputs c parts p = [c.init] := by
  refine eq_singleton_of_filter H (inputs_nodup H) fun v => ?_
  have h1 : order[order.length - 1]? = some p := by rw [← hp, List.getLast?_eq_getElem?]
  have h2 := pos_init H hi
  rw [mem_inputs H h1 hi]
  constructor
  · rintro ⟨hv, h3, h4 | h4⟩
    · obtain ⟨u, hu, -, h5⟩ := (interface_iff H hv).1 h4
      have := pos_lt H hu
      omega
    · exact h4
  · rintro rfl
    exact ⟨hi, by omega, Or.inr rfl⟩

/-! ### the parts are solved in order -/

omit H in
theorem mapM_lookup {α : Type} {acc : Dict Nat α} {f : Nat → Except Err α} (hf : ∀ q x, f q = .ok x → acc.get? q = some x) :
    ∀ {l : List Nat} {r : List α}, l.mapM f = .ok r → l.map acc.get? = r.map some
  | [], r, h => by
    rw [List.mapM_nil] at h; cases h; rfl
  | q :: l, r, h => by
    rw [List.mapM_cons] at h
    simp only [bind, Except.bind] at h
    split at h
    · cases h
    · rename_i a ha
      split at h
      · cases h
      · rename_i as has
        cases h
        have h1 := mapM_lookup hf has
        simp [hf q a ha, h1]

variable {lin : Nat → (Nat → K) → (Nat → K) → Nat → K} {hull : Nat → Dict Nat (List (List K)) → List (Nat × List K)}
  {ub : Nat} {thr : K}

omit H in
theorem get?_set {α : Type} {d : Dict Nat α} {k k' : Nat} {v : α} :
    (d.set k v).get? k' = if k = k' then some v else d.get? k' := by
  induction d with
  | nil => simp only [Dict.set, Dict.get?]
  | cons e d ih =>
    obtain ⟨a, b⟩ := e
    simp only [Dict.set]
    by_cases h : a = k
    · subst h
      simp only [if_true, Dict.get?]
      split <;> rfl
    · rw [if_neg h]
      simp only [Dict.get?]
      rw [ih]
      by_cases h' : a = k'
      · subst h'
        rw [if_pos rfl, if_neg (fun e => h e.symm), if_pos rfl]
      · rw [if_neg h', if_neg h']

/-- what the dictionary of points holds at the end -/
def Solved (lin : Nat → (Nat → K) → (Nat → K) → Nat → K) (c : Chain K) (parts : List (List Nat))
    (hull : Nat → Dict Nat (List (List K)) → List (Nat × List K)) (ub : Nat) (thr : K) (d : Dict Nat (List (Pt K))) (p : Nat) : Prop :=
  ∃ pts r, (sucs c parts p).map d.get? = pts.map some ∧ solvePart lin c parts hull p ub thr pts = .ok r ∧ d.get? p = some r

omit H in
theorem solveParts_inv : ∀ (l : List Nat) (acc d : Dict Nat (List (Pt K))), l.Nodup → (∀ p ∈ l, acc.get? p = none) →
    l.foldlM (fun (acc : Dict Nat (List (Pt K))) p => do
      let pts ← (sucs c parts p).mapM fun q =>
        match acc.get? q with
        | some l => Except.ok l
        | none => .error Err.keyError
      let r ← solvePart lin c parts hull p ub thr pts
      Except.ok (acc.set p r)) acc = .ok d →
    (∀ p x, acc.get? p = some x → d.get? p = some x) ∧ ∀ p ∈ l, Solved lin c parts hull ub thr d p
  | [], acc, d, _, _, h => by
    rw [List.foldlM_nil] at h; cases h
    exact ⟨fun _ _ h => h, by simp⟩
  | p :: l, acc, d, hn, ha, h => by
    rw [List.foldlM_cons] at h
    simp only [bind, Except.bind] at h
    split at h
    · cases h
    · rename_i acc' h'
      split at h'
      · cases h'
      · rename_i pts hpts
        split at h'
        · cases h'
        · rename_i r hr
          cases h'
          have hn' := List.nodup_cons.1 hn
          have hp := ha p List.mem_cons_self
          obtain ⟨g1, g2⟩ := solveParts_inv l (acc.set p r) d hn'.2 (fun q hq => by
            rw [get?_set, if_neg (by rintro rfl; exact hn'.1 hq)]
            exact ha q (List.mem_cons_of_mem _ hq)) h
          have mono : ∀ q x, acc.get? q = some x → d.get? q = some x := by
            intro q x hx
            apply g1
            rw [get?_set, if_neg]
            · exact hx
            · rintro rfl; rw [hp] at hx; cases hx
          refine ⟨mono, fun q hq => ?_⟩
          rcases List.mem_cons.1 hq with rfl | hq
          · refine ⟨pts, r, ?_, hr, g1 _ _ (by rw [get?_set, if_pos rfl])⟩
            have e := mapM_lookup (acc := acc) (fun s x hx => by
              split at hx
              · rename_i b hb; cases hx; exact hb
              · cases hx) hpts
            rw [← e]
            refine List.map_congr_left fun s hs => ?_
            have : acc.get? s ∈ pts.map some := by rw [← e]; exact List.mem_map_of_mem hs
            obtain ⟨y, -, hy⟩ := List.mem_map.1 this
            rw [← hy]
            exact mono s y hy.symm
          · exact g2 q hq

/-- the points of the parts of a path, one after the other -/
theorem points_seq {d : Dict Nat (List (Pt K))} (h : solveParts lin c parts hull ub thr order = .ok d) :
    ∃ r : Nat → List (Pt K), (∀ p, order[0]? = some p → solvePart lin c parts hull p ub thr [] = .ok (r 0) ∧ d.get? p = some (r 0)) ∧
      ∀ i p, order[i + 1]? = some p → solvePart lin c parts hull p ub thr [r i] = .ok (r (i + 1)) ∧ d.get? p = some (r (i + 1)) := by
  obtain ⟨-, h2⟩ := solveParts_inv order [] d (order_nodup H) (fun _ _ => rfl) h
  have h3 : ∀ i p, order[i]? = some p → Solved lin c parts hull ub thr d p := fun i p hp => h2 p (List.mem_of_getElem? hp)
  let r : Nat → List (Pt K) := fun i => ((order[i]?).bind d.get?).getD []
  have hr : ∀ i p x, order[i]? = some p → d.get? p = some x → r i = x := by
    intro i p x h1 h2
    simp [r, h1, h2]
  refine ⟨r, fun p hp => ?_, fun i p hp => ?_⟩
  · obtain ⟨pts, x, e1, e2, e3⟩ := h3 0 p hp
    rw [sucs_zero H hp] at e1
    have : pts = [] := by cases pts with | nil => rfl | cons a b => simp at e1
    subst this
    rw [hr 0 p x hp e3]
    exact ⟨e2, e3⟩
  · obtain ⟨pts, x, e1, e2, e3⟩ := h3 (i + 1) p hp
    have hi := (List.getElem?_eq_some_iff.1 hp).1
    have hq : order[i]? = some order[i] := List.getElem?_eq_getElem (by omega)
    rw [sucs_succ H hq hp] at e1
    have : ∃ y, pts = [y] ∧ d.get? order[i] = some y := by
      match pts, e1 with
      | [y], e1 => exact ⟨y, rfl, by simpa using e1⟩
      | [], e1 => simp at e1
      | _ :: _ :: _, e1 => simp at e1
    obtain ⟨y, rfl, hy⟩ := this
    rw [hr (i + 1) p x hp e3, hr i _ y hq hy]
    exact ⟨e2, e3⟩

end Verif.Proofs.Tree
