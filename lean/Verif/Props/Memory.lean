import Verif.Proofs.LostMem
import Verif.Props.Graph
import Verif.Props.Mec
import Mathlib.Algebra.Order.BigOperators.Group.List
/-!
# C97, C98: the memory of a `Graph` object

What happens to the memory of the process between the construction of a `Graph` and its release, for every sequence of
method calls.  `h.live a` is the block at address `a`; an operation without defined result (use after `free`, access outside
a block, reading memory never written, null pointers) ends the computation with `.error`.
-/
namespace Verif.Props
open Verif.Model Verif.Model.Mem Verif.Spec Verif.Proofs Verif.Proofs.Sep

variable {K : Type}

/-- arguments for which the methods are documented: node numbers of the graph; at least one node for `mec` -/
def InRange (n : Nat) : Call → Prop
  | .successors s _ => 0 ≤ s ∧ s < n
  | .predecessors s _ => 0 ≤ s ∧ s < n
  | .reachable F _ B => F = [] ∨ (∀ x ∈ F, 0 ≤ x ∧ x < n) ∧ ∀ x ∈ B, 0 ≤ x ∧ x < n
  | .mec _ => 0 < n

/-- `fromset` is a set -/
def SetArgs : Call → Prop
  | .reachable F _ _ => F.Nodup
  | _ => True

/-- the result a user expects from a call, in terms of the entries of the matrix -/
def Answer (n : Nat) (inv : Nat → Option (Nat × Nat)) (items : List ((Nat × Nat) × K)) : Call → Res K → Prop
  | .successors s act, .nbrs l => l.Nodup ∧ ∀ d a p, (d, a, p) ∈ l ↔
      (∃ i, inv i = some (s.toNat, a) ∧ ((i, d), p) ∈ items) ∧ (act = none ∨ act = some a)
  | .predecessors d act, .nbrs l => l.Nodup ∧ ∀ s a p, (s, a, p) ∈ l ↔
      (∃ i, inv i = some (s, a) ∧ ((i, d.toNat), p) ∈ items) ∧ (act = none ∨ act = some a)
  | .reachable F fwd B, .mask r =>
      (F = [] → r = .error .assertion) ∧
      (F ≠ [] → ∃ l, r = .ok l ∧ l.length = n ∧ ∀ x (hx : x < l.length), (l[x] = 0 ∨ l[x] = 1) ∧ (l[x] = 1 ↔
        ReachAvoid (fun u v =>
            if fwd then ∃ i a p, inv i = some (u, a) ∧ ((i, v), p) ∈ items
            else ∃ i a p, inv i = some (v, a) ∧ ((i, u), p) ∈ items)
          {x | (x : Int) ∈ F} {x | (x : Int) ∈ B} x))
  | .mec _, .mecs comp proper cnt =>
      (∀ x < n, ∀ y < n, x ≠ y → (comp x = comp y ↔ ∃ E act, GraphEC (MatTr inv items) E act ∧ x ∈ E ∧ y ∈ E)) ∧
      (∀ x < n, comp x < cnt) ∧ (∀ c < cnt, ∃ x < n, comp x = c) ∧
      ∀ x < n, (proper (comp x) = true ↔
        (∃ E act, GraphEC (MatTr inv items) E act ∧ x ∈ E) ∨ ∀ a d, ¬ MatTr inv items x a d)
  | _, _ => False

/-- number of components a call has found -/
def found : Res K → Option Nat
  | .mecs _ _ cnt => some cnt
  | _ => none

/-- the blocks a call with that result loses at least -/
def atLeast (r : Res K) : Nat :=
  match found r with
  | some (c + 2) => c + 2
  | _ => 0

/-- the call is not `mec`, or it finds a single component -/
def single (r : Res K) : Prop := ∀ c, found r = some c → c = 1

/-- what is known about a constructed graph -/
structure Built (n : Nat) (inv : Nat → Option (Nat × Nat)) (items : List ((Nat × Nat) × K)) (g : Graph K) : Prop where
  keys : (items.map Prod.fst).Nodup
  inj : ∀ i j sa, inv i = some sa → inv j = some sa → i = j
  build : Graph.build n inv items (Graph.empty n) = .ok g

theorem Built.nodup {n : Nat} {inv : Nat → Option (Nat × Nat)} {items : List ((Nat × Nat) × K)} {g : Graph K}
    (b : Built n inv items g) (x : Nat) : ((g.succ x).map fun t => (t.1, t.2.1)).Nodup := by
  obtain ⟨hn, hs, hp, hr⟩ := build_spec items _ _ b.build
  have hs : g.succ x = items.filterMap (outOf inv x) := by simpa [Graph.empty] using hs x
  rw [hs, List.Nodup, List.pairwise_map, List.pairwise_filterMap]
  have hk := b.keys
  rw [List.Nodup, List.pairwise_map] at hk
  refine hk.imp ?_
  rintro ⟨⟨i, d⟩, p⟩ ⟨⟨i', d'⟩, p'⟩ hne t ht t' ht' he
  apply hne
  simp only [outOf] at ht ht'
  split at ht
  · rename_i s a e
    split at ht
    · rename_i es
      split at ht'
      · rename_i s' a' e'
        split at ht'
        · rename_i es'
          simp only [Option.some.injEq] at ht ht'
          subst ht ht'
          simp only [Prod.mk.injEq] at he
          obtain ⟨rfl, rfl⟩ := he
          subst es es'
          rw [b.inj _ _ _ e e']
        · cases ht'
      · cases ht'
    · cases ht
  · cases ht

theorem Built.range {n : Nat} {inv : Nat → Option (Nat × Nat)} {items : List ((Nat × Nat) × K)} {g : Graph K}
    (b : Built n inv items g) : g.n = n ∧ (∀ x t, t ∈ g.succ x → t.1 < g.n) ∧ (∀ x t, t ∈ g.pred x → t.1 < g.n) ∧
      ∀ x, (g.succ x).length ≤ items.length := by
  obtain ⟨hn, hg, hr'⟩ := build_range b.build
  obtain ⟨-, hs, hp, hr⟩ := build_spec items _ _ b.build
  refine ⟨hn, hg, fun x t ht => ?_, fun x => ?_⟩
  · have hp : g.pred x = items.filterMap (inTo inv x) := by simpa [Graph.empty] using hp x
    rw [hp, List.mem_filterMap] at ht
    obtain ⟨⟨⟨i, d⟩, p⟩, hi, ho⟩ := ht
    obtain ⟨s, a, e, h1, h2⟩ := hr _ hi
    dsimp only at e
    simp only [inTo, e] at ho
    split at ho
    · simp only [Option.some.injEq] at ho
      subst ho
      rw [hn]; exact h1
    · cases ho
  · have hs : g.succ x = items.filterMap (outOf inv x) := by simpa [Graph.empty] using hs x
    rw [hs]
    exact List.length_filterMap_le _ _

theorem toNat_mem {n : Nat} {F : List Int} (h : ∀ v ∈ F, 0 ≤ v ∧ v < n) (x : Nat) : x ∈ F.map Int.toNat ↔ (x : Int) ∈ F := by
  rw [List.mem_map]
  constructor
  · rintro ⟨v, hv, rfl⟩
    rw [Int.toNat_of_nonneg (h v hv).1]; exact hv
  · intro hx
    exact ⟨x, hx, by simp⟩

theorem triple_call {n : Nat} {inv : Nat → Option (Nat × Nat)} {items : List ((Nat × Nat) × K)} {g : Graph K}
    (b : Built n inv items g) (c : GraphC) (fuel : Nat) (hf : 2 * n + 1 + items.length ≤ fuel) (k : Call) (hk : InRange n k)
    (hk' : SetArgs k) :
    Triple (gr c g) (call fuel c k) fun r =>
      ex fun j => lift (Answer n inv items k r ∧ atLeast r ≤ j ∧ (single r → j = 0) ∧ (found r ≠ none ↔ ∃ ρ, k = .mec ρ)) ∗
        gr c g ∗ junk j := by
  obtain ⟨hn, hg, hgp, hlen⟩ := b.range
  obtain ⟨c1, c2, c3, -⟩ := C04_neighbours b.keys b.inj b.build
  cases k with
  | successors s a =>
    obtain ⟨h0, h1⟩ := hk
    obtain ⟨s, rfl⟩ := Int.eq_ofNat_of_zero_le h0
    refine (triple_successors c g s a (by omega)).bind fun l => Triple.of_lift fun hl => Triple.pure ?_
    subst hl
    refine Imp.ex_intro 0 (Imp.lift_intro ⟨⟨(c3 s a).1, fun d a' p => ?_⟩, le_rfl, fun _ => rfl, ?_⟩ ?_)
    · simpa using c1 s d a' p a
    · simp [found]
    · rw [junk_zero, star_emp]; exact Imp.rfl
  | predecessors s a =>
    obtain ⟨h0, h1⟩ := hk
    obtain ⟨s, rfl⟩ := Int.eq_ofNat_of_zero_le h0
    refine (triple_predecessors c g s a (by omega)).bind fun l => Triple.of_lift fun hl => Triple.pure ?_
    subst hl
    refine Imp.ex_intro 0 (Imp.lift_intro ⟨⟨(c3 s a).2, fun d a' p => ?_⟩, le_rfl, fun _ => rfl, ?_⟩ ?_)
    · simpa using c2 d s a' p a
    · simp [found]
    · rw [junk_zero, star_emp]; exact Imp.rfl
  | reachable F fwd B =>
    by_cases hF : F = []
    · subst hF
      refine (Triple.pure (r := (Except.error Err.assertion : Except Err (List Nat))) (Q := fun r => lift (r = Except.error Err.assertion) ∗ gr c g)
        (Imp.lift_intro rfl Imp.rfl)).bind fun r => Triple.of_lift fun hr => Triple.pure ?_
      subst hr
      refine Imp.ex_intro 0 (Imp.lift_intro ⟨⟨fun _ => rfl, fun h => absurd rfl h⟩, le_rfl, fun _ => rfl, by simp [found]⟩ ?_)
      rw [junk_zero, star_emp]; exact Imp.rfl
    · obtain ⟨hFr, hBr⟩ := hk.resolve_left hF
      obtain ⟨e1, e2⟩ := toNat_list F hFr
      obtain ⟨e3, e4⟩ := toNat_list B hBr
      have hnd : (F.map Int.toNat).Nodup := by
        refine List.Nodup.of_map Int.ofNat ?_
        rw [e1]; exact hk'
      have hne : F.map Int.toNat ≠ [] := by simpa using hF
      obtain ⟨mask, hm, hml, hmx⟩ := C05_reachable b.build (B := B.map Int.toNat) fwd hne hnd e2
      have ht := triple_reachable c g fwd (F.map Int.toNat) (B.map Int.toNat) hne (by rw [hn]; exact e2)
        (by rw [hn]; exact e4) (by intro x _ t ht; cases fwd; exacts [hgp x t ht, hg x t ht]) mask hm fuel (by omega)
      rw [e1, e3] at ht
      refine ht.bind fun r => Triple.of_lift fun hr => Triple.pure ?_
      subst hr
      refine Imp.ex_intro 0 (Imp.lift_intro ⟨⟨fun h => absurd h hF, fun _ => ⟨_, rfl, by simpa using hml, fun x hx => ?_⟩⟩,
        le_rfl, fun _ => rfl, by simp [found]⟩ ?_)
      · have hx' : x < mask.length := by simpa using hx
        have := hmx x hx'
        simp only [toNat_mem hFr, toNat_mem hBr] at this
        rw [← this, List.getElem_map]
        cases mask[x] <;> simp [hit]
      · rw [junk_zero, star_emp]; exact Imp.rfl
  | mec ρ =>
    have hk : 0 < n := hk
    obtain ⟨st, hst, hinv, hw, ht⟩ := triple_mec c g ρ (by omega) hg fuel
      (fun x _ => (hlen x).trans (by omega)) (by omega)
    obtain ⟨hpos, h2, h1⟩ := lost_spec g ρ (by omega) hg b.nodup st hst hinv hw
    refine ht.bind fun r => Triple.of_lift fun hr => Triple.pure ?_
    obtain ⟨comp, proper, cnt⟩ := r
    have hcnt : cnt = st.cnt := by
      obtain ⟨ret, pm, cnt', hm, -⟩ := mec_spec g ρ (by omega) hg
      have hm' := hm
      unfold Graph.maximalEndComponents at hm'
      rw [Option.map_eq_some_iff] at hm'
      obtain ⟨st', hs', he⟩ := hm'
      have := mecLoop_mono g ρ _ _ _ hs'
      rw [this] at hst
      rw [Option.some.injEq] at hst
      rw [hm] at hr
      simp only [Option.some.injEq, Prod.mk.injEq] at hr he
      rw [← hr.2.2, ← he.2.2, hst]
    refine Imp.ex_intro (callLost g ρ st) (Imp.lift_intro ⟨?_, ?_, ?_, by simp [found]⟩ Imp.rfl)
    · obtain ⟨m, p, c', hm, q1, q2, q3⟩ := C07_mec b.build hk ρ
      rw [hm] at hr
      simp only [Option.some.injEq, Prod.mk.injEq] at hr
      obtain ⟨rfl, rfl, rfl⟩ := hr
      refine ⟨q1, q2, q3, fun x hx => ?_⟩
      by_cases hno : ∀ a d, ¬ MatTr inv items x a d
      · exact iff_of_true (C08_actionless b.build ρ hm hx hno) (Or.inr hno)
      · obtain ⟨ret, pm, cnt', w1, -, -, -, w5⟩ := mec_spec g ρ (by omega) hg
        rw [hm] at w1
        simp only [Option.some.injEq, Prod.mk.injEq] at w1
        obtain ⟨rfl, rfl, rfl⟩ := w1
        have := w5 x (by omega)
        rw [gtr_eq b.build] at this
        rw [this]
        obtain ⟨-, -, hr'⟩ := build_range b.build
        constructor
        · rintro (⟨E, act, hE, _, r⟩ | h)
          · exact Or.inl ⟨E, act, hE, r⟩
          · exact Or.inr h
        · rintro (⟨E, act, hE, r⟩ | h)
          · refine Or.inl ⟨E, act, hE, fun s hs => ?_, r⟩
            obtain ⟨a, ha⟩ := hE.act_nonempty s hs
            obtain ⟨d, hd⟩ := hE.avail s hs a ha
            show s < g.n
            rw [hn]
            exact (hr' s a d hd).1
          · exact Or.inr h
    · subst hcnt
      unfold atLeast found
      dsimp only
      split
      · rename_i c' e
        simp only [Option.some.injEq] at e
        rw [e] at h2
        exact h2 (by omega)
      · omega
    · intro hs
      exact h1 (hcnt ▸ hs cnt rfl)

theorem triple_calls {n : Nat} {inv : Nat → Option (Nat × Nat)} {items : List ((Nat × Nat) × K)} {g : Graph K}
    (b : Built n inv items g) (c : GraphC) (fuel : Nat) (hf : 2 * n + 1 + items.length ≤ fuel) (ks : List Call)
    (hk : ∀ k ∈ ks, InRange n k) (hk' : ∀ k ∈ ks, SetArgs k) :
    Triple (gr c g) (calls fuel c ks) fun rs =>
      ex fun j => lift (List.Forall₂ (fun k r => Answer n inv items k r ∧ (found r ≠ none ↔ ∃ ρ, k = .mec ρ)) ks rs ∧
        (rs.map atLeast).sum ≤ j ∧ ((∀ r ∈ rs, single r) → j = 0)) ∗ gr c g ∗ junk j := by
  induction ks with
  | nil =>
    refine Triple.pure (Imp.ex_intro 0 (Imp.lift_intro ⟨.nil, by simp, fun _ => rfl⟩ ?_))
    rw [junk_zero, star_emp]; exact Imp.rfl
  | cons k ks ih =>
    unfold calls
    refine (triple_call b c fuel hf k (hk k (by simp)) (hk' k (by simp))).bind fun r => Triple.of_ex fun j =>
      Triple.of_lift fun ⟨h1, h2, h3, h4⟩ => ?_
    refine (ih (fun k h => hk k (by simp [h])) fun k h => hk' k (by simp [h])).step (junk j) rfl fun rs => ?_
    rw [ex_star]
    refine Triple.of_ex fun j' => ?_
    rw [star_assoc]
    refine Triple.of_lift fun ⟨g1, g2, g3⟩ => Triple.pure ?_
    refine Imp.ex_intro (j' + j) (Imp.lift_intro ⟨.cons ⟨h1, h4⟩ g1, ?_, fun h => ?_⟩ ?_)
    · simp only [List.map_cons, List.sum_cons]; omega
    · rw [h3 (h r (by simp)), g3 fun r hr => h r (by simp [hr])]
    · rw [star_assoc]
      exact Imp.star Imp.rfl (junk_add _ _)

theorem stuck_call {g : Graph K} (c : GraphC) (fuel : Nat) (k : Call) (hk : ¬ InRange g.n k) :
    Stuck (gr c g) (call fuel c k) := by
  cases k with
  | successors s a =>
    cases s with
    | ofNat s => exact (stuck_successors c g s a (by simp only [InRange] at hk; simp at hk; omega)).bind _
    | negSucc s => exact stuck_fail _ (by simp)
  | predecessors s a =>
    cases s with
    | ofNat s => exact (stuck_predecessors c g s a (by simp only [InRange] at hk; simp at hk; omega)).bind _
    | negSucc s => exact stuck_fail _ (by simp)
  | reachable F fwd B =>
    simp only [InRange, not_or] at hk
    refine (stuck_reachable fuel c g F B fwd hk.1 ?_).bind _
    by_cases h : ∃ v ∈ F, ¬ (0 ≤ v ∧ v < g.n)
    · exact Or.inl h
    · refine Or.inr ?_
      by_contra h'
      refine hk.2 ⟨fun x hx => ?_, fun x hx => ?_⟩
      · by_contra hx'; exact h ⟨x, hx, hx'⟩
      · by_contra hx'; exact h' ⟨x, hx, hx'⟩
  | mec ρ =>
    have hn : g.n = 0 := by simpa [InRange] using hk
    refine Stuck.of_ex fun base => Stuck.of_ex fun pp => Stuck.of_ex fun sp => Stuck.of_lift fun hc => ?_
    subst hc
    exact (stuck_mec _ fuel hn ρ _).bind _

theorem stuck_calls {n : Nat} {inv : Nat → Option (Nat × Nat)} {items : List ((Nat × Nat) × K)} {g : Graph K}
    (b : Built n inv items g) (c : GraphC) (fuel : Nat) (hf : 2 * n + 1 + items.length ≤ fuel) (ks : List Call)
    (hk : ∃ k ∈ ks, ¬ InRange n k) (hk' : ∀ k ∈ ks, SetArgs k) : Stuck (gr c g) (calls fuel c ks) := by
  induction ks with
  | nil => simp at hk
  | cons k ks ih =>
    unfold calls
    by_cases hin : InRange n k
    · refine (triple_call b c fuel hf k hin (hk' k (by simp))).stuck fun r => Stuck.of_ex fun j => Stuck.of_lift fun _ => ?_
      refine Stuck.frame (Stuck.bind (ih ?_ fun k h => hk' k (by simp [h])) _) _
      obtain ⟨k', hk1, hk2⟩ := hk
      rcases List.mem_cons.1 hk1 with rfl | hk1
      · exact absurd hin hk2
      · exact ⟨k', hk1, hk2⟩
    · obtain ⟨hn, -⟩ := b.range
      exact (stuck_call c fuel k (by rw [hn]; exact hin)).bind _

/-- the memory before and after, for calls in range -/
theorem lifetime_ok {n : Nat} {inv : Nat → Option (Nat × Nat)} {items : List ((Nat × Nat) × K)}
    (hkeys : (items.map Prod.fst).Nodup) (hinv : ∀ i j sa, inv i = some sa → inv j = some sa → i = j)
    (hitems : ∀ e ∈ items, ∃ s a, inv e.1.1 = some (s, a) ∧ s < n ∧ e.1.2 < n)
    (fuel : Nat) (hf : 2 * n + 1 + items.length ≤ fuel) (ks : List Call)
    (hk : ∀ k ∈ ks, InRange n k) (hk' : ∀ k ∈ ks, SetArgs k) (h : Heap K) (hh : ∀ a, h.next ≤ a → h.live a = none) :
    ∃ rs h', lifetime fuel n inv items ks h = .ok (.ok rs, h') ∧
      List.Forall₂ (fun k r => Answer n inv items k r ∧ (found r ≠ none ↔ ∃ ρ, k = .mec ρ)) ks rs ∧
      ∃ s : Finset Nat, (rs.map atLeast).sum ≤ s.card ∧ ((∀ r ∈ rs, single r) → s = ∅) ∧
        (∀ a ∈ s, h.live a = none ∧ h'.live a ≠ none) ∧ ∀ a ∉ s, h'.live a = h.live a := by
  have ht : Triple (emp : HProp K) (lifetime fuel n inv items ks) fun r => ex fun j => lift (∃ rs, r = .ok rs ∧
      List.Forall₂ (fun k r => Answer n inv items k r ∧ (found r ≠ none ↔ ∃ ρ, k = .mec ρ)) ks rs ∧
        (rs.map atLeast).sum ≤ j ∧ ((∀ r ∈ rs, single r) → j = 0)) ∗ junk j := by
    unfold lifetime
    refine (triple_newGraph n inv items fun e he => ?_).bind fun r => ?_
    · obtain ⟨s, a, e1, e2, e3⟩ := hitems e he
      refine ⟨e3, fun s' a' e' => ?_⟩
      rw [e1] at e'
      simp only [Option.some.injEq, Prod.mk.injEq] at e'
      omega
    obtain ⟨g', hg'⟩ := build_ok items (Graph.empty n) hitems
    cases r with
    | error e =>
      dsimp only
      rw [← star_emp (lift _)]
      refine Triple.of_lift fun hb => ?_
      rw [show (Graph.empty n : Graph K).build n inv items = _ from hb] at hg'
      cases hg'
    | ok c =>
      dsimp only
      refine Triple.of_ex fun g => Triple.of_lift fun hb => ?_
      refine (triple_calls ⟨hkeys, hinv, hb⟩ c fuel hf ks hk hk').bind fun rs => Triple.of_ex fun j =>
        Triple.of_lift fun hr => ?_
      refine (triple_dealloc c g).step (junk j) rfl fun _ => Triple.pure ?_
      rw [emp_star]
      exact Imp.ex_intro j (Imp.lift_intro ⟨rs, rfl, hr⟩ Imp.rfl)
  obtain ⟨r, h', e, -, s, ⟨rs, rfl, h1, h2, h3⟩, h4, h5⟩ := ht.run h hh
  exact ⟨rs, h', e, h1, s, h2, fun hs => Finset.card_eq_zero.1 (h3 hs), h4, h5⟩

/-- **C97.** A `Graph` is built, any sequence of `successors`, `predecessors` and `reachable` calls with node numbers of the
graph is made, the object is released: no undefined operation happens, every call answers as expected, and afterwards the
memory of the process is what it was before. -/
theorem C97_safe {n : Nat} {inv : Nat → Option (Nat × Nat)} {items : List ((Nat × Nat) × K)}
    (hkeys : (items.map Prod.fst).Nodup) (hinv : ∀ i j sa, inv i = some sa → inv j = some sa → i = j)
    (hitems : ∀ e ∈ items, ∃ s a, inv e.1.1 = some (s, a) ∧ s < n ∧ e.1.2 < n)
    {fuel : Nat} (hf : 2 * n + 1 + items.length ≤ fuel) {ks : List Call} (hk : ∀ k ∈ ks, InRange n k)
    (hk' : ∀ k ∈ ks, SetArgs k) (hno : ∀ ρ, .mec ρ ∉ ks) (h : Heap K) (hh : ∀ a, h.next ≤ a → h.live a = none) :
    ∃ rs h', lifetime fuel n inv items ks h = .ok (.ok rs, h') ∧ List.Forall₂ (Answer n inv items) ks rs ∧
      h'.live = h.live := by
  obtain ⟨rs, h', e, h1, s, h2, h3, h4, h5⟩ := lifetime_ok hkeys hinv hitems fuel hf ks hk hk' h hh
  refine ⟨rs, h', e, h1.imp fun _ _ h => h.1, ?_⟩
  have hs : s = ∅ := by
    refine h3 fun r hr c hc => ?_
    obtain ⟨k, hk1, -, hk2⟩ : ∃ k ∈ ks, Answer n inv items k r ∧ (found r ≠ none ↔ ∃ ρ, k = .mec ρ) := by
      clear h2 h3 e hk hk' hno
      induction h1 with
      | nil => simp at hr
      | cons hd _ ih =>
        rcases List.mem_cons.1 hr with rfl | hr
        · exact ⟨_, List.mem_cons_self, hd⟩
        · obtain ⟨k, a, b⟩ := ih hr
          exact ⟨k, List.mem_cons_of_mem _ a, b⟩
    obtain ⟨ρ, rfl⟩ := hk2.1 (by simp [hc])
    exact absurd hk1 (hno ρ)
  funext a
  exact h5 a (by simp [hs])

/-- A row of the matrix without state and action: the construction raises a `KeyError` and gives back what it had taken. -/
theorem C97_key_error {n : Nat} {inv : Nat → Option (Nat × Nat)} {items : List ((Nat × Nat) × K)}
    (hitems : ∀ e ∈ items, e.1.2 < n ∧ ∀ s a, inv e.1.1 = some (s, a) → s < n) (hrow : ∃ e ∈ items, inv e.1.1 = none)
    (fuel : Nat) (ks : List Call) (h : Heap K) (hh : ∀ a, h.next ≤ a → h.live a = none) :
    ∃ h', lifetime fuel n inv items ks h = .ok (.error .keyError, h') ∧ h'.live = h.live := by
  have hb : (Graph.empty n : Graph K).build n inv items = .error .keyError := by
    generalize (Graph.empty n : Graph K) = g
    induction items generalizing g with
    | nil => simp at hrow
    | cons e items ih =>
      obtain ⟨⟨i, d⟩, p⟩ := e
      have h0 := hitems _ List.mem_cons_self
      dsimp only at h0
      simp only [Graph.build]
      cases hi : inv i with
      | none => rfl
      | some sa =>
        obtain ⟨s, a⟩ := sa
        simp only [h0.1, h0.2 s a hi, and_self, if_true]
        refine ih (fun e he => hitems e (List.mem_cons_of_mem _ he)) ?_ _
        obtain ⟨e, he, hn⟩ := hrow
        rcases List.mem_cons.1 he with rfl | he
        · rw [hi] at hn; cases hn
        · exact ⟨e, he, hn⟩
  have ht : Triple (emp : HProp K) (lifetime fuel n inv items ks) fun r => ex fun j => lift (r = .error .keyError ∧ j = 0) ∗
      junk j := by
    unfold lifetime
    refine (triple_newGraph n inv items hitems).bind fun r => ?_
    cases r with
    | error e =>
      dsimp only
      rw [← star_emp (lift _)]
      refine Triple.of_lift fun hb' => ?_
      rw [hb] at hb'
      cases hb'
      refine Triple.pure (Imp.ex_intro 0 (Imp.lift_intro ⟨rfl, rfl⟩ ?_))
      rw [junk_zero]; exact Imp.rfl
    | ok c =>
      dsimp only
      refine Triple.of_ex fun g => Triple.of_lift fun hb' => ?_
      rw [hb] at hb'
      cases hb'
  obtain ⟨r, h', e, -, s, ⟨rfl, h1⟩, h4, h5⟩ := ht.run h hh
  refine ⟨h', e, funext fun a => h5 a ?_⟩
  rw [Finset.card_eq_zero.1 h1]
  simp

/-- As soon as one call has a node number outside the graph (negative or too large), or asks for the end components of a
graph without nodes, the sequence runs into an operation without defined result: nothing checks the arguments. -/
theorem C97_undefined {n : Nat} {inv : Nat → Option (Nat × Nat)} {items : List ((Nat × Nat) × K)}
    (hkeys : (items.map Prod.fst).Nodup) (hinv : ∀ i j sa, inv i = some sa → inv j = some sa → i = j)
    (hitems : ∀ e ∈ items, ∃ s a, inv e.1.1 = some (s, a) ∧ s < n ∧ e.1.2 < n)
    {fuel : Nat} (hf : 2 * n + 1 + items.length ≤ fuel) {ks : List Call} (hk : ∃ k ∈ ks, ¬ InRange n k)
    (hk' : ∀ k ∈ ks, SetArgs k) (h : Heap K) (hh : ∀ a, h.next ≤ a → h.live a = none) :
    ∃ e, e ≠ .fuel ∧ lifetime fuel n inv items ks h = .error e := by
  have hs : Stuck (emp : HProp K) (lifetime fuel n inv items ks) := by
    unfold lifetime
    refine (triple_newGraph n inv items fun e he => ?_).stuck fun r => ?_
    · obtain ⟨s, a, e1, e2, e3⟩ := hitems e he
      refine ⟨e3, fun s' a' e' => ?_⟩
      rw [e1] at e'
      simp only [Option.some.injEq, Prod.mk.injEq] at e'
      omega
    obtain ⟨g', hg'⟩ := build_ok items (Graph.empty n) hitems
    cases r with
    | error e =>
      dsimp only
      rw [← star_emp (lift _)]
      refine Stuck.of_lift fun hb => ?_
      rw [show (Graph.empty n : Graph K).build n inv items = _ from hb] at hg'
      cases hg'
    | ok c =>
      dsimp only
      exact Stuck.of_ex fun g => Stuck.of_lift fun hb => (stuck_calls ⟨hkeys, hinv, hb⟩ c fuel hf ks hk hk').bind _
  exact hs (fun f => f = h.live) h hh (by rw [emp_star])

/-- **C98** (memory of `maximal_end_components`).  The same with calls of `maximal_end_components`: every call answers as
expected and no undefined operation happens, but afterwards a set of blocks is still allocated that was not there before.
It is empty iff every one of these calls found a single component; a call that finds `c ≥ 2` components loses at least `c`
blocks. -/
theorem C98_lost_partial {n : Nat} {inv : Nat → Option (Nat × Nat)} {items : List ((Nat × Nat) × K)}
    (hkeys : (items.map Prod.fst).Nodup) (hinv : ∀ i j sa, inv i = some sa → inv j = some sa → i = j)
    (hitems : ∀ e ∈ items, ∃ s a, inv e.1.1 = some (s, a) ∧ s < n ∧ e.1.2 < n)
    {fuel : Nat} (hf : 2 * n + 1 + items.length ≤ fuel) {ks : List Call} (hk : ∀ k ∈ ks, InRange n k)
    (hk' : ∀ k ∈ ks, SetArgs k) (h : Heap K) (hh : ∀ a, h.next ≤ a → h.live a = none) :
    ∃ rs h', lifetime fuel n inv items ks h = .ok (.ok rs, h') ∧ List.Forall₂ (Answer n inv items) ks rs ∧
      ∃ s : Finset Nat, (∀ a ∈ s, h.live a = none ∧ h'.live a ≠ none) ∧ (∀ a ∉ s, h'.live a = h.live a) ∧
        (s = ∅ ↔ ∀ comp proper cnt, .mecs comp proper cnt ∈ rs → cnt = 1) ∧
        (rs.map fun r => match r with | .mecs _ _ cnt => if 2 ≤ cnt then cnt else 0 | _ => 0).sum ≤ s.card := by
  obtain ⟨rs, h', e, h1, s, h2, h3, h4, h5⟩ := lifetime_ok hkeys hinv hitems fuel hf ks hk hk' h hh
  have hat : ∀ r : Res K, (match r with | .mecs _ _ cnt => if 2 ≤ cnt then cnt else 0 | _ => 0) = atLeast r := by
    intro r
    cases r with
    | mecs a b c =>
      match c with
      | 0 => rfl
      | 1 => rfl
      | c + 2 => simp [atLeast, found]
    | _ => rfl
  refine ⟨rs, h', e, h1.imp fun _ _ h => h.1, s, h4, h5, ⟨?_, ?_⟩, ?_⟩
  · intro hs comp proper cnt hm
    subst hs
    have hz : ∀ x ∈ rs.map atLeast, x = 0 := by
      intro x hx
      have := List.le_sum_of_mem hx
      simp only [Finset.card_empty] at h2
      omega
    replace hz := hz _ (List.mem_map_of_mem hm)
    obtain ⟨k, hk1, ha, hk2⟩ : ∃ k ∈ ks, Answer n inv items k (.mecs comp proper cnt) ∧
        (found (.mecs comp proper cnt : Res K) ≠ none ↔ ∃ ρ, k = .mec ρ) := by
      clear h2 h3 e hk' hz h5 h4
      induction h1 with
      | nil => simp at hm
      | cons hd _ ih =>
        rcases List.mem_cons.1 hm with rfl | hm
        · exact ⟨_, List.mem_cons_self, hd⟩
        · obtain ⟨k, a, b⟩ := ih (fun k hk' => hk k (List.mem_cons_of_mem _ hk')) hm
          exact ⟨k, List.mem_cons_of_mem _ a, b⟩
    obtain ⟨ρ, rfl⟩ := hk2.1 (by simp [found])
    have hn : 0 < n := hk _ hk1
    have := ha.2.1 0 hn
    match cnt, hz, this with
    | 1, _, _ => rfl
    | c + 2, hz, _ => simp [atLeast, found] at hz
  · intro hall
    refine h3 fun r hr c hc => ?_
    cases r with
    | mecs a b c' =>
      simp only [found, Option.some.injEq] at hc
      subst hc
      exact hall a b c' hr
    | _ => cases hc
  · simp only [hat]
    exact h2

/-- **C98 is false as a promise that memory is given back**: on every graph with two states that no end component has in
common, `m` calls leave at least `2 m` blocks behind after the object is gone. -/
theorem C98_false {n : Nat} {inv : Nat → Option (Nat × Nat)} {items : List ((Nat × Nat) × K)}
    (hkeys : (items.map Prod.fst).Nodup) (hinv : ∀ i j sa, inv i = some sa → inv j = some sa → i = j)
    (hitems : ∀ e ∈ items, ∃ s a, inv e.1.1 = some (s, a) ∧ s < n ∧ e.1.2 < n)
    {x y : Nat} (hx : x < n) (hy : y < n) (hxy : x ≠ y)
    (hne : ¬ ∃ E act, GraphEC (MatTr inv items) E act ∧ x ∈ E ∧ y ∈ E)
    {fuel : Nat} (hf : 2 * n + 1 + items.length ≤ fuel) (ρs : List Graph.Rnd) (h : Heap K)
    (hh : ∀ a, h.next ≤ a → h.live a = none) :
    ∃ rs h', lifetime fuel n inv items (ρs.map .mec) h = .ok (.ok rs, h') ∧
      ∃ s : Finset Nat, 2 * ρs.length ≤ s.card ∧ ∀ a ∈ s, h.live a = none ∧ h'.live a ≠ none := by
  obtain ⟨rs, h', e, h1, s, h2, h3, h4, h5⟩ := lifetime_ok hkeys hinv hitems fuel hf (ρs.map .mec)
    (by simp only [List.mem_map]; rintro k ⟨ρ, -, rfl⟩; exact Nat.zero_lt_of_lt hx)
    (by simp only [List.mem_map]; rintro k ⟨ρ, -, rfl⟩; trivial) h hh
  refine ⟨rs, h', e, s, le_trans ?_ h2, h4⟩
  clear e h2 h3 h4 h5 hf
  induction ρs generalizing rs with
  | nil => simp
  | cons ρ ρs ih =>
    rw [List.map_cons] at h1
    cases h1 with
    | cons hd tl =>
      rename_i r rs
      have := ih rs tl
      have h2 : 2 ≤ atLeast r := by
        obtain ⟨ha, -⟩ := hd
        cases r with
        | mecs comp proper cnt =>
          obtain ⟨a1, a2, -⟩ := ha
          have hc : comp x ≠ comp y := fun he => hne ((a1 x hx y hy hxy).1 he)
          have := a2 x hx
          have := a2 y hy
          match cnt with
          | 0 => omega
          | 1 => omega
          | c + 2 => simp [atLeast, found]
        | nbrs l => exact ha.elim
        | mask r => exact ha.elim
      simp only [List.map_cons, List.sum_cons, List.length_cons]
      omega

/-! ### cases -/

/-- an empty memory -/
def memory0 : Heap Nat := ⟨0, fun _ => none⟩

example : (mecItems.map Prod.fst).Nodup ∧ ∀ e ∈ mecItems, ∃ s a, mecInv e.1.1 = some (s, a) ∧ s < 4 ∧ e.1.2 < 4 := by
  refine ⟨by decide, ?_⟩
  intro e he
  simp only [mecItems, List.mem_cons, List.not_mem_nil, or_false] at he
  rcases he with rfl | rfl | rfl | rfl | rfl | rfl <;> exact ⟨_, _, rfl, by decide, by decide⟩

example : ∀ k ∈ [Call.successors 1 none, .reachable [0, 3] true [1], .predecessors 3 (some 0)], InRange 4 k ∧ SetArgs k := by
  simp [InRange, SetArgs]

/-- the graph of `Props/Mec` has three components; one call loses exactly three blocks -/
example : (match lifetime 40 4 mecInv mecItems [.mec mecRnd] memory0 with
    | .ok (.ok [.mecs _ _ cnt], h') => decide (cnt = 3) && decide
        (((List.range h'.next).filter fun a => (h'.live a).isSome).length = 3)
    | _ => false) = true := by decide +kernel

/-- all other calls give everything back -/
example : (match lifetime 40 4 mecInv mecItems [.reachable [1] true [0], .successors 0 none] memory0 with
    | .ok (.ok [.mask (.ok [1, 1, 0, 0]), .nbrs [(1, 0, 1), (2, 1, 1), (0, 1, 1)]], h') =>
        decide (((List.range h'.next).filter fun a => (h'.live a).isSome) = []) && decide (0 < h'.next)
    | _ => false) = true := by decide +kernel

/-- `-1` or `4` in a set of states of a graph with four nodes -/
example : (match lifetime 40 4 mecInv mecItems [.reachable [-1] true []] memory0 with
    | .error .outOfBounds => true | _ => false) = true ∧
    (match lifetime 40 4 mecInv mecItems [.reachable [0] true [4]] memory0 with
    | .error .outOfBounds => true | _ => false) = true ∧
    (match lifetime 40 0 (fun _ => none) ([] : List ((Nat × Nat) × Nat)) [.mec mecRnd] memory0 with
    | .error .null => true | _ => false) = true := by decide +kernel

end Verif.Props
