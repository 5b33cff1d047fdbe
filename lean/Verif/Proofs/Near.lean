import Verif.Spec.Near
import Verif.Proofs.ReduceRF
import Verif.Proofs.CertSem
import Mathlib.Data.List.Perm.Basic
/-! # The constructor of a reachability form looks at the transitions, not at the numbers -/
set_option linter.unusedSectionVars false

namespace Verif.Proofs
open Verif.Model Verif.Spec Verif.Props

variable {K : Type} [Field K] [LinearOrder K] [IsStrictOrderedRing K]
variable {M M' : Sys K} {η : K}

theorem stored_of_wf (h : M.WF) : M.Stored := ⟨h.nodup, h.range, h.pos, h.keys, h.vals, h.graph⟩

namespace Near

theorem get_pos_iff (h : M.Stored) {i j : Nat} : 0 < M.P.get i j ↔ ∃ p, ((i, j), p) ∈ M.P.items := by
  constructor
  · intro hp; exact ⟨_, mem_of_get_ne hp.ne'⟩
  · rintro ⟨p, hp⟩
    rw [get_of_mem h.nodup hp]; exact h.pos i j p hp

theorem symm (h : M.Near η M') : M'.Near η M :=
  ⟨h.rows.symm, h.cols.symm, h.idx.symm, h.labS.symm, fun i j => (h.supp i j).symm,
    fun i j => by rw [abs_sub_comm]; exact h.close i j⟩

variable (hs : M.Stored) (hs' : M'.Stored) (hn : M.Near η M')
include hs hs' hn

theorem mem_iff {i j : Nat} : (∃ p, ((i, j), p) ∈ M'.P.items) ↔ ∃ p, ((i, j), p) ∈ M.P.items := by
  rw [← get_pos_iff hs, ← get_pos_iff hs', hn.supp]

theorem matTr : MatTr (invGet? M'.idx) M'.P.items = MatTr (invGet? M.idx) M.P.items := by
  funext s a d
  unfold MatTr
  rw [hn.idx]
  refine propext (exists_congr fun i => ?_)
  rw [exists_and_left, exists_and_left, mem_iff hs hs' hn]

theorem keys_perm : (M'.P.items.map Prod.fst).Perm (M.P.items.map Prod.fst) := by
  refine (List.perm_ext_iff_of_nodup hs'.nodup hs.nodup).2 ?_
  rintro ⟨i, j⟩
  simpa [List.mem_map] using mem_iff hs hs' hn (i := i) (j := j)

/-- the neighbour and the action of a transition leaving `s` -/
def key (inv : Nat → Option (Nat × Nat)) (s : Nat) (k : Nat × Nat) : Option (Nat × Nat) :=
  match inv k.1 with
  | some (s', a) => if s' = s then some (k.2, a) else none
  | none => none

omit hs hs' hn [Field K] [LinearOrder K] [IsStrictOrderedRing K] in
theorem map_outOf (inv : Nat → Option (Nat × Nat)) (s : Nat) (l : List ((Nat × Nat) × K)) :
    (l.filterMap (outOf inv s)).map (fun t => (t.1, t.2.1)) = (l.map Prod.fst).filterMap (key inv s) := by
  induction l with
  | nil => rfl
  | cons e l ih =>
    simp only [List.map_cons, List.filterMap_cons]
    unfold outOf key
    split
    · rename_i h
      split at h
      · split at h
        · cases h
        · rename_i h1 h2; rw [h1]; simp only [if_neg h2]; exact ih
      · rename_i h1; rw [h1]; exact ih
    · rename_i b h
      split at h
      · split at h
        · rename_i h1 h2; cases h; rw [h1]; simp only [if_pos h2, List.map_cons]; exact congrArg _ ih
        · cases h
      · cases h

theorem succ_perm (s : Nat) : ((M'.graph.successors s).map fun t => (t.1, t.2.1)).Perm
    ((M.graph.successors s).map fun t => (t.1, t.2.1)) := by
  have e : ∀ {L : Sys K}, L.Stored → L.graph.successors s = L.P.items.filterMap (outOf (invGet? L.idx) s) := by
    intro L hL
    have := (build_spec _ _ _ hL.graph).2.1 s
    unfold Graph.successors
    rw [this]
    simp [Graph.empty]
  rw [e hs, e hs', map_outOf, map_outOf, hn.idx]
  exact (keys_perm hs hs' hn).filterMap _

theorem absorbing {s off : Nat} (h : M.checkAbsorbing s off = .ok ()) : M'.checkAbsorbing s off = .ok () := by
  unfold Sys.checkAbsorbing at h ⊢
  have hp := succ_perm hs hs' hn s
  split at h
  · rename_i t a p hg
    rw [hg] at hp
    simp only [List.map_cons, List.map_nil] at hp
    have hp := List.perm_singleton.1 hp
    obtain ⟨⟨t', a', p'⟩, hg', he⟩ := List.map_eq_singleton_iff.1 hp
    simp only [Prod.mk.injEq] at he
    obtain ⟨rfl, rfl⟩ := he
    rw [hg']
    simp only [hn.idx, hn.rows, hn.cols]
    exact h
  · cases h

theorem mask {F : List Nat} {fwd : Bool} (hF : F ≠ []) (hnd : F.Nodup) : M'.reachableMask F fwd [] = M.reachableMask F fwd [] := by
  unfold Sys.reachableMask
  rw [hn.cols]
  by_cases hlt : ∀ x ∈ F, x < M.N
  swap
  · rw [if_neg hlt, if_neg hlt]
  rw [if_pos hlt, if_pos hlt]
  obtain ⟨m, e, l, hm⟩ := C05_reachable hs.graph (B := []) fwd hF hnd hlt
  obtain ⟨m', e', l', hm'⟩ := C05_reachable hs'.graph (B := []) fwd hF hnd (by rw [hn.cols]; exact hlt)
  rw [e, e']
  have : m' = m := by
    refine List.ext_getElem (by rw [l, l', hn.cols]) fun x h1 h2 => ?_
    rw [Bool.eq_iff_iff, hm x h2, hm' x h1]
    have er : (fun u v => if fwd = true then ∃ i a p, invGet? M'.idx i = some (u, a) ∧ ((i, v), p) ∈ M'.P.items
            else ∃ i a p, invGet? M'.idx i = some (v, a) ∧ ((i, u), p) ∈ M'.P.items) =
        (fun u v => if fwd = true then ∃ i a p, invGet? M.idx i = some (u, a) ∧ ((i, v), p) ∈ M.P.items
            else ∃ i a p, invGet? M.idx i = some (v, a) ∧ ((i, u), p) ∈ M.P.items) := by
      funext u v
      have := fun i j => mem_iff hs hs' hn (i := i) (j := j)
      simp only [exists_and_left, this, hn.idx]
    rw [er]
  rw [this]

theorem consistent {il tl fl : String} (h : M.assertConsistency il tl fl = .ok ()) :
    M'.assertConsistency il tl fl = .ok () := by
  have el : ∀ l, M'.statesByLabel l = M.statesByLabel l := fun l => by unfold Sys.statesByLabel; rw [hn.labS]
  have eu : ∀ l, M'.uniqueState l = M.uniqueState l := fun l => by unfold Sys.uniqueState; rw [el]
  unfold Sys.assertConsistency at h ⊢
  rw [eu, eu, eu]
  split at h
  · cases h
  rename_i hne
  rw [if_neg hne]
  simp only [bind, Except.bind] at h ⊢
  split at h
  · cases h
  rename_i i hi
  split at h
  · cases h
  rename_i t ht
  split at h
  · cases h
  rename_i f hf
  split at h
  · cases h
  rename_i u1 h1
  split at h
  · cases h
  rename_i u2 h2
  simp only [absorbing hs hs' hn h1, absorbing hs hs' hn h2, mask hs hs' hn (F := [i]) (by simp) (by simp),
    mask hs hs' hn (F := [t]) (by simp) (by simp), hn.cols]
  exact h

/-- a reachability form of `M` exists iff one of `M'` does; it has the same index, initial state and states in
proper end components -/
theorem make_of_total {ρ ρ' : Graph.Rnd} {il tl fl : String} {rf : RF K} (h : RF.make ρ M il tl fl false = .ok rf)
    (hN : 0 < M.N) (htot : ∀ x < M.N, ∃ a d, MatTr (invGet? M.idx) M.P.items x a d) :
    ∃ rf', RF.make ρ' M' il tl fl false = .ok rf' ∧ rf'.idx = rf.idx ∧ rf'.initial = rf.initial ∧
      ∀ s < M.N, (rf'.inProperEC s = true ↔ rf.inProperEC s = true) := by
  have hc : M.assertConsistency il tl fl = .ok () := by
    cases e : M.assertConsistency il tl fl with
    | ok u => rfl
    | error x => simp [RF.make, e, bind, Except.bind] at h
  have hc' := consistent hs hs' hn hc
  have el : M'.statesByLabel il = M.statesByLabel il := by unfold Sys.statesByLabel; rw [hn.labS]
  unfold RF.make at h ⊢
  simp only [Bool.false_eq_true, if_false, hc, hc', bind, Except.bind, el, hn.idx, hn.rows, hn.cols] at h ⊢
  split at h
  · cases h
  rename_i is his
  cases is with
  | nil => cases h
  | cons i0 l =>
  simp only at h ⊢
  split at h
  · cases h
  rename_i d1 hd1
  split at h
  · cases h
  rename_i d2 hd2
  split at h
  swap
  · cases h
  rename_i c1
  split at h
  swap
  · cases h
  rename_i c2
  split at h
  · cases h
  rename_i mec proper cnt hmec
  cases h
  obtain ⟨mec', proper', cnt', hmec', -⟩ := C07_mec hs'.graph (by rw [hn.cols]; exact hN) ρ'
  simp only [if_pos c1, if_pos c2, hmec']
  refine ⟨_, rfl, rfl, rfl, fun s hsN => ?_⟩
  have e1 := C08_proper hs.graph ρ htot hmec hsN
  have e2 := C08_proper hs'.graph ρ' (by rw [hn.cols, matTr hs hs' hn]; exact htot) hmec' (by rw [hn.cols]; exact hsN)
  rw [matTr hs hs' hn] at e2
  exact e2.trans e1.symm

omit hs' in
theorem make (hw : M'.WF) {ρ ρ' : Graph.Rnd} {il tl fl : String} {rf : RF K} (h : RF.make ρ M il tl fl false = .ok rf) :
    ∃ rf', RF.make ρ' M' il tl fl false = .ok rf' ∧ rf'.idx = rf.idx ∧ rf'.initial = rf.initial ∧
      ∀ s < M.N, (rf'.inProperEC s = true ↔ rf.inProperEC s = true) := by
  have hs' := stored_of_wf hw
  have hc : M.assertConsistency il tl fl = .ok () := by
    cases e : M.assertConsistency il tl fl with
    | ok u => rfl
    | error x => simp [RF.make, e, bind, Except.bind] at h
  have hc' := consistent hs hs' hn hc
  obtain ⟨rf0, hrf0⟩ := make_total (ρ := ρ) hw hc' true
  have hok := rfok_of_make hw hc' hrf0
  have e0 : rf0.sys = M' := (make_fields hrf0).1
  refine make_of_total hs hs' hn h (by have := hok.hN; rw [e0, hn.cols] at this; omega) ?_
  intro x hx
  rw [← matTr hs hs' hn, ← e0]
  obtain ⟨a, i, e1, e2⟩ := hok.total x (by rw [e0, hn.cols]; exact hx)
  obtain ⟨j, _, hp⟩ := WF.exists_pos hok.wf e2
  exact ⟨a, j, (WF.matTr_iff hok.wf).2 ⟨i, e1, e2, hp⟩⟩

end Near
end Verif.Proofs
