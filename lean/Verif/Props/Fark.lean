import Verif.Props.CertExist
import Verif.Proofs.LP
/-! # C18, C19: the cached constraint systems -/
set_option linter.unusedSectionVars false

namespace Verif.Props
open Verif.Model Verif.Proofs Verif.Theory Finset

variable {K : Type} [Field K] [LinearOrder K] [IsStrictOrderedRing K]
variable {ρ : Graph.Rnd} {M : Sys K} {il tl fl : String} {rf : RF K}

/-- rows of `A z`, in terms of the system -/
theorem zrow_sys (h : RFOK rf) (v : Nat → K) {i s a : Nat} (hi : i < rf.C) (hs : ((s, a), i) ∈ rf.sys.idx) :
    zrow rf v i = v s - ∑ j ∈ range rf.N, rf.sys.P.get i j * v j := by
  have hr : rf.rowState i = some s := (h.rowState_iff hi).2 ⟨a, hs⟩
  have hsN : s < rf.N := h.state_lt hi hs
  unfold zrow RF.A
  simp only [sub_mul, Finset.sum_sub_distrib, hr]
  congr 1
  rw [Finset.sum_eq_single s]
  · simp
  · intro j _ hj; simp [Ne.symm hj]
  · intro hn; exact absurd (Finset.mem_range.2 hsN) hn

namespace FarkInv

/-- right-hand sides for a threshold -/
def rz (rf : RF K) (t : K) : List K := (List.range rf.C).map rf.b ++ [-t]
def ry (rf : RF K) (t : K) : List K := (List.range rf.N).map rf.delta ++ [-t]

/-- what holds of the caches after any calls -/
structure Inv (rf : RF K) (c : Cache K) : Prop where
  z : ∀ m r, c.z = some (m, r) → ∃ t l, rf.farkZ t = .ok (m, l) ∧ c.heap[r]? = some (rz rf t)
  y : ∀ m r, c.y = some (m, r) → ∃ t l, rf.farkY t = .ok (m, l) ∧ c.heap[r]? = some (ry rf t)
  ne : ∀ m r m' r', c.z = some (m, r) → c.y = some (m', r') → r ≠ r'

theorem rz_set (t t' : K) : (rz rf t).set rf.C (-t') = rz rf t' := by
  unfold rz
  rw [List.set_append_right _ _ (by simp)]
  simp

theorem ry_set (t t' : K) : (ry rf t).set rf.N (-t') = ry rf t' := by
  unfold ry
  rw [List.set_append_right _ _ (by simp)]
  simp

theorem farkZ_eq (hi : rf.initial < rf.N) :
    ∃ m, ∀ t, rf.farkZ t = .ok (m, rz rf t) := ⟨_, fun t => by unfold RF.farkZ; rw [if_pos hi]; rfl⟩
theorem farkY_eq (hi : rf.initial < rf.N) :
    ∃ m, ∀ t, rf.farkY t = .ok (m, ry rf t) := ⟨_, fun t => by unfold RF.farkY; rw [if_pos hi]; rfl⟩

theorem write_self {c : Cache K} {r i : Nat} {v : K} {l : List K} (h : c.heap[r]? = some l) :
    (c.write r i v).heap[r]? = some (l.set i v) := by
  simp [Cache.write, h]

theorem write_other {c : Cache K} {r r' i : Nat} {v : K} (h : r ≠ r') :
    (c.write r i v).heap[r']? = c.heap[r']? := by
  simp [Cache.write, h]

theorem call_z (hi : rf.initial < rf.N) {c : Cache K} (hc : Inv rf c) (t : K) :
    Inv rf (c.call rf (.z t)).2 ∧ ∃ m r, (c.call rf (.z t)).1 = .ok (m, r) ∧
      (c.call rf (.z t)).2.heap[r]? = some (rz rf t) ∧ (∀ t, rf.farkZ t = .ok (m, rz rf t)) ∧
      (c.call rf (.z t)).2.z = some (m, r) := by
  obtain ⟨m0, hm0⟩ := farkZ_eq hi
  cases hz : c.z with
  | some p =>
    obtain ⟨m, r⟩ := p
    obtain ⟨t', l, h1, h2⟩ := hc.z m r hz
    have e : m = m0 := by rw [hm0] at h1; cases h1; rfl
    subst e
    have hh : (c.write r rf.C (-t)).heap[r]? = some (rz rf t) := by rw [write_self h2, rz_set]
    simp only [Cache.call, hz]
    refine ⟨⟨fun m' r' e => ?_, fun m' r' e => ?_, fun m' r' m'' r'' e1 e2 => hc.ne m' r' m'' r'' e1 e2⟩,
      m, r, rfl, hh, hm0, hz⟩
    · have e : c.z = some (m', r') := e
      rw [hz] at e; cases e
      exact ⟨t, _, hm0 t, hh⟩
    · have e : c.y = some (m', r') := e
      obtain ⟨t', l, g1, g2⟩ := hc.y m' r' e
      exact ⟨t', l, g1, by rw [write_other (hc.ne _ _ _ _ hz e)]; exact g2⟩
  | none =>
    simp only [Cache.call, hz, hm0]
    refine ⟨⟨fun m' r' e => ?_, fun m' r' e => ?_, fun m' r' m'' r'' e1 e2 => ?_⟩, m0, c.heap.length, rfl, by simp, by simp, rfl⟩
    · simp only [Option.some.injEq, Prod.mk.injEq] at e
      obtain ⟨rfl, rfl⟩ := e
      exact ⟨t, _, hm0 t, by simp⟩
    · have e : c.y = some (m', r') := e
      obtain ⟨t', l, g1, g2⟩ := hc.y m' r' e
      have := (List.getElem?_eq_some_iff.1 g2).1
      exact ⟨t', l, g1, by rw [List.getElem?_append_left this]; exact g2⟩
    · simp only [Option.some.injEq, Prod.mk.injEq] at e1
      obtain ⟨rfl, rfl⟩ := e1
      have e2 : c.y = some (m'', r'') := e2
      obtain ⟨t', l, g1, g2⟩ := hc.y m'' r'' e2
      have := (List.getElem?_eq_some_iff.1 g2).1
      omega

theorem call_y (hi : rf.initial < rf.N) {c : Cache K} (hc : Inv rf c) (t : K) :
    Inv rf (c.call rf (.y t)).2 ∧ ∃ m r, (c.call rf (.y t)).1 = .ok (m, r) ∧
      (c.call rf (.y t)).2.heap[r]? = some (ry rf t) ∧ ∀ t, rf.farkY t = .ok (m, ry rf t) := by
  obtain ⟨m0, hm0⟩ := farkY_eq hi
  cases hz : c.y with
  | some p =>
    obtain ⟨m, r⟩ := p
    obtain ⟨t', l, h1, h2⟩ := hc.y m r hz
    have e : m = m0 := by rw [hm0] at h1; cases h1; rfl
    subst e
    have hh : (c.write r rf.N (-t)).heap[r]? = some (ry rf t) := by rw [write_self h2, ry_set]
    simp only [Cache.call, hz]
    refine ⟨⟨fun m' r' e => ?_, fun m' r' e => ?_, fun m' r' m'' r'' e1 e2 => hc.ne m' r' m'' r'' e1 e2⟩,
      m, r, rfl, hh, hm0⟩
    · have e : c.z = some (m', r') := e
      obtain ⟨t', l, g1, g2⟩ := hc.z m' r' e
      exact ⟨t', l, g1, by rw [write_other (Ne.symm (hc.ne _ _ _ _ e hz))]; exact g2⟩
    · have e : c.y = some (m', r') := e
      rw [hz] at e; cases e
      exact ⟨t, _, hm0 t, hh⟩
  | none =>
    simp only [Cache.call, hz, hm0]
    refine ⟨⟨fun m' r' e => ?_, fun m' r' e => ?_, fun m' r' m'' r'' e1 e2 => ?_⟩, m0, c.heap.length, rfl, by simp, by simp⟩
    · have e : c.z = some (m', r') := e
      obtain ⟨t', l, g1, g2⟩ := hc.z m' r' e
      have := (List.getElem?_eq_some_iff.1 g2).1
      exact ⟨t', l, g1, by rw [List.getElem?_append_left this]; exact g2⟩
    · simp only [Option.some.injEq, Prod.mk.injEq] at e
      obtain ⟨rfl, rfl⟩ := e
      exact ⟨t, _, hm0 t, by simp⟩
    · simp only [Option.some.injEq, Prod.mk.injEq] at e2
      obtain ⟨rfl, rfl⟩ := e2
      have e1 : c.z = some (m', r') := e1
      obtain ⟨t', l, g1, g2⟩ := hc.z m' r' e1
      have := (List.getElem?_eq_some_iff.1 g2).1
      omega

theorem run (hi : rf.initial < rf.N) (os : List (FarkCall K)) (c : Cache K) (hc : Inv rf c) :
    Inv rf (Cache.run rf c os) := by
  induction os generalizing c with
  | nil => exact hc
  | cons o os ih =>
    refine ih _ ?_
    cases o with
    | z t => exact (call_z hi hc t).1
    | y t => exact (call_y hi hc t).1

theorem empty : Inv rf (Cache.empty : Cache K) where
  z _ _ h := by cases h
  y _ _ h := by cases h
  ne _ _ _ _ h := by cases h

end FarkInv

/-- **C18 (z).** After any calls on the object, `fark_z_constraints(t)` returns a system (matrix `m` and the
array at address `r`) whose solutions are exactly the `z` with `z(s) - Σ_j P((s,a),j) z(j) <= P((s,a),goal)`
for all state-action pairs and `z(init) >= t`. -/
theorem C18_fark_z (hM : M.WF) (hrf : RF.make ρ M il tl fl false = .ok rf) {i : Nat}
    (hi : i ∈ M.labelled il) (hit : i ∉ M.labelled tl) (os : List (FarkCall K)) (t : K) :
    ∃ m r rhs, ((Cache.run rf Cache.empty os).call rf (.z t)).1 = .ok (m, r) ∧
      ((Cache.run rf Cache.empty os).call rf (.z t)).2.heap[r]? = some rhs ∧ m.cols = M.N - 2 ∧
      rhs.length = m.rows ∧ ∀ z : Nat → K,
      (∀ k < m.rows, ∑ j ∈ range m.cols, m.at_ k j * z j ≤ rhs.getD k 0) ↔
        (∀ s a k, ((s, a), k) ∈ M.idx → k < M.C - 2 →
          z s - ∑ j ∈ range (M.N - 2), M.P.get k j * z j ≤ M.P.get k (M.N - 2)) ∧ t ≤ z i := by
  have h := rfok_built hM hrf
  have hin := initial_lt hM hrf hi hit
  have e0 := (make_fields hrf).1
  obtain ⟨-, m, r, h1, h2, h3, -⟩ := FarkInv.call_z hin (FarkInv.run hin os _ FarkInv.empty) t
  obtain ⟨-, hr, hc, hl, hrow⟩ := farkZ_rows (h3 t)
  refine ⟨m, r, _, h1, h2, by rw [hc, RF.N, e0], by rw [hl, hr], fun z => ?_⟩
  rw [hr, forall_lt_succ', initial_eq hM hrf hi]
  obtain ⟨r1, r2, r3⟩ := hrow z
  rw [r2, r3]
  subst e0
  refine and_congr ?_ neg_le_neg_iff
  constructor
  · intro hh s a k hk hkC
    have := hh k hkC
    rw [(r1 k hkC).1, (r1 k hkC).2, zrow_sys h z hkC hk] at this
    exact this
  · intro hh k hk
    obtain ⟨s, a, hs, -⟩ := h.exists_state hk
    rw [(r1 k hk).1, (r1 k hk).2, zrow_sys h z hk hs]
    exact hh s a k hs hk

open Classical in
/-- **C18 (y).** After any calls on the object, `fark_y_constraints(t)` returns a system whose solutions are
exactly the `y` with `Σ_{rows k of s} y(k) - Σ_k P(k,s) y(k) <= [s = init]` for all states and
`Σ_k P(k,goal) y(k) >= t`. -/
theorem C18_fark_y (hM : M.WF) (hrf : RF.make ρ M il tl fl false = .ok rf) {i : Nat}
    (hi : i ∈ M.labelled il) (hit : i ∉ M.labelled tl) (os : List (FarkCall K)) (t : K) :
    ∃ m r rhs, ((Cache.run rf Cache.empty os).call rf (.y t)).1 = .ok (m, r) ∧
      ((Cache.run rf Cache.empty os).call rf (.y t)).2.heap[r]? = some rhs ∧ m.cols = M.C - 2 ∧
      rhs.length = m.rows ∧ ∀ y : Nat → K,
      (∀ k < m.rows, ∑ j ∈ range m.cols, m.at_ k j * y j ≤ rhs.getD k 0) ↔
        (∀ s < M.N - 2, ∑ k ∈ (range (M.C - 2)).filter (fun k => ∃ a, ((s, a), k) ∈ M.idx), y k
          - ∑ k ∈ range (M.C - 2), M.P.get k s * y k ≤ if s = i then 1 else 0) ∧
        t ≤ ∑ k ∈ range (M.C - 2), M.P.get k (M.N - 2) * y k := by
  have h := rfok_built hM hrf
  have hin := initial_lt hM hrf hi hit
  have e0 := (make_fields hrf).1
  obtain ⟨-, m, r, h1, h2, h3⟩ := FarkInv.call_y hin (FarkInv.run hin os _ FarkInv.empty) t
  obtain ⟨-, hr, hc, hl, hrow⟩ := farkY_rows (h3 t)
  refine ⟨m, r, _, h1, h2, by rw [hc, RF.C, e0], by rw [hl, hr], fun y => ?_⟩
  rw [hr, forall_lt_succ', initial_eq hM hrf hi]
  obtain ⟨r1, r2, r3⟩ := hrow y
  rw [r2, r3]
  subst e0
  refine and_congr ?_ neg_le_neg_iff
  refine forall_congr' fun s => forall_congr' fun hs => ?_
  rw [(r1 s hs).1, (r1 s hs).2]
  have : yrow rf y s = ∑ k ∈ (range (rf.sys.C - 2)).filter (fun k => ∃ a, ((s, a), k) ∈ rf.sys.idx), y k
          - ∑ k ∈ range (rf.sys.C - 2), rf.sys.P.get k s * y k := by
    unfold yrow RF.A
    rw [Finset.sum_filter, ← Finset.sum_sub_distrib]
    refine Finset.sum_congr rfl fun k hk => ?_
    have hk := Finset.mem_range.1 hk
    by_cases hc : rf.rowState k = some s
    · rw [if_pos hc, if_pos ((h.rowState_iff hk).1 hc), sub_mul, one_mul]; rfl
    · rw [if_neg hc, if_neg fun hx => hc ((h.rowState_iff hk).2 hx), sub_mul, zero_mul]; rfl
  rw [this]
  rfl

/-- **C19 is false.** Whatever was called before: the array handed out by `fark_z_constraints(t1)` is
overwritten by a following `fark_z_constraints(t2)`: its last entry becomes `-t2`. -/
theorem C19_false (hM : M.WF) (hrf : RF.make ρ M il tl fl false = .ok rf) {i : Nat}
    (hi : i ∈ M.labelled il) (hit : i ∉ M.labelled tl) (os : List (FarkCall K)) {t1 t2 : K} (ht : t1 ≠ t2) :
    let r1 := (Cache.run rf Cache.empty os).call rf (.z t1)
    let r2 := r1.2.call rf (.z t2)
    ∃ m r l1 l2, r1.1 = .ok (m, r) ∧ r1.2.heap[r]? = some l1 ∧ r2.2.heap[r]? = some l2 ∧
      l1.getLast? = some (-t1) ∧ l2.getLast? = some (-t2) ∧ l1 ≠ l2 := by
  intro r1 r2
  have hin := initial_lt hM hrf hi hit
  obtain ⟨g, m, r, h1, h2, h3, h4⟩ := FarkInv.call_z hin (FarkInv.run hin os _ (FarkInv.empty (rf := rf))) t1
  obtain ⟨-, m', r', k1, k2, -, -⟩ := FarkInv.call_z hin g t2
  have e : r' = r := by
    have key : ∀ (c : Cache K), c.z = some (m, r) → (c.call rf (.z t2)).1 = .ok (m', r') → r' = r := by
      intro c hz hk
      simp only [Cache.call, hz] at hk
      cases hk; rfl
    exact key _ h4 k1
  subst e
  have l1 : (FarkInv.rz rf t1).getLast? = some (-t1) := by simp [FarkInv.rz]
  have l2 : (FarkInv.rz rf t2).getLast? = some (-t2) := by simp [FarkInv.rz]
  refine ⟨m, r', _, _, h1, h2, k2, l1, l2, fun he => ?_⟩
  rw [he, l2] at l1
  exact ht (neg_injective (Option.some.inj l1)).symm

/-- **C19 (partial).** Calls of the *other* method leave the array alone: after `fark_z_constraints(t)` any
number of `fark_y_constraints` calls does not change the array handed out.  (Missing: further calls of the
same method, which do change it, see `C19_false`.) -/
theorem C19_other_partial (hM : M.WF) (hrf : RF.make ρ M il tl fl false = .ok rf) {i : Nat}
    (hi : i ∈ M.labelled il) (hit : i ∉ M.labelled tl) (os : List (FarkCall K)) (t : K) (ts : List K) :
    let r1 := (Cache.run rf Cache.empty os).call rf (.z t)
    ∃ m r l, r1.1 = .ok (m, r) ∧ r1.2.heap[r]? = some l ∧
      (Cache.run rf r1.2 (ts.map .y)).heap[r]? = some l := by
  intro r1
  have hin := initial_lt hM hrf hi hit
  obtain ⟨g, m, r, h1, h2, h3, h4⟩ := FarkInv.call_z hin (FarkInv.run hin os _ (FarkInv.empty (rf := rf))) t
  refine ⟨m, r, _, h1, h2, ?_⟩
  have key : ∀ (ts : List K) (c : Cache K), FarkInv.Inv rf c → c.z = some (m, r) →
      c.heap[r]? = some (FarkInv.rz rf t) → (Cache.run rf c (ts.map .y)).heap[r]? = some (FarkInv.rz rf t) := by
    intro ts
    induction ts with
    | nil => intro c _ _ h; exact h
    | cons t' ts ih =>
      intro c hc hz hh
      obtain ⟨g', -⟩ := FarkInv.call_y hin hc t'
      refine ih _ g' ?_ ?_
      · simp only [Cache.call]
        split
        · exact hz
        · split <;> exact hz
      · simp only [Cache.call]
        split
        · rename_i m' r' hy
          rw [FarkInv.write_other (Ne.symm (hc.ne _ _ _ _ hz hy))]; exact hh
        · split
          · exact hh
          · have := (List.getElem?_eq_some_iff.1 hh).1
            simp only
            rw [List.getElem?_append_left this]; exact hh
  exact key ts _ g h4 h2

/-- the hypotheses are met by the example form; `os` may be any calls -/
example : (exSys ℚ).WF ∧ RF.make exRnd (exSys ℚ) "init" "goal" "fail" false = .ok (exRF ℚ) ∧
    0 ∈ (exSys ℚ).labelled "init" ∧ 0 ∉ (exSys ℚ).labelled "goal" :=
  ⟨exSys_wf ℚ, exRF_rat, exInit, by
    rintro ⟨ss, h1, h2⟩
    have : (exSys ℚ).statesByLabel "goal" = .ok [2] := rfl
    rw [this] at h1
    cases h1
    simp at h2⟩

end Verif.Props
