import Verif.Proofs.ReduceRF
import Verif.Proofs.Load
/-! helper lemmas: what the commands that store reduced systems need -/
set_option linter.unusedSectionVars false
namespace Verif.Proofs
open Verif.Model Verif.Model.Reduce Verif.Proofs.IDict Verif.Proofs.IOTra Finset

variable {K : Type} [Field K] [LinearOrder K] [IsStrictOrderedRing K]

/-- no empty sets -/
def Full {α β : Type} [DecidableEq α] (d : Dict α (List β)) : Prop := ∀ k s, d.get? k = some s → s ≠ []

theorem full_addTo {α β : Type} [DecidableEq α] [DecidableEq β] {d : Dict α (List β)} (h : Full d) (k : α) (v : β) :
    Full (IDict.addTo d k v) := by
  intro k' s hs
  unfold IDict.addTo at hs
  rw [Dict.get?_set] at hs
  split at hs
  · cases hs
    unfold sadd
    split
    · rename_i hm; exact List.ne_nil_of_mem hm
    · simp
  · exact h k' s hs

theorem full_labelStep {M : Sys K} {index mapping} {st st' : Dict String (List Nat) × Dict String (List (Nat × Nat)) × Option (List K)}
    {i : Nat} (h : Full st.1) (hs : labelStep M index mapping st i = .ok st') : Full st'.1 := by
  have hf : ∀ (ls : List String) (s : Nat) (d : Dict String (List Nat)), Full d →
      Full (ls.foldl (fun d l => IDict.addTo d l s) d) := by
    intro ls s
    induction ls with
    | nil => intro d hd; exact hd
    | cons l ls ih => intro d hd; exact ih _ (full_addTo hd _ _)
  unfold labelStep at hs
  split at hs
  · cases hs
  · split at hs
    · cases hs
    · simp only [bind, Except.bind] at hs
      split at hs
      · cases hs
      · split at hs
        · cases hs
        · split at hs
          · split at hs
            · cases hs
            · split at hs
              · cases hs
              · cases hs; exact hf _ _ _ h
          · cases hs; exact hf _ _ _ h

theorem mkBidict_keys {α β : Type} [DecidableEq α] [DecidableEq β] {d d' : Dict α β} (h : mkBidict d = .ok d')
    {P : α → Prop} (hP : ∀ e ∈ d, P e.1) : ∀ e ∈ d', P e.1 := by
  have hset : ∀ (d : Dict α β) (k : α) (v : β), (∀ e ∈ d, P e.1) → P k → ∀ e ∈ d.set k v, P e.1 := by
    intro d k v
    induction d with
    | nil => intro _ hk e he; simp only [Dict.set, List.mem_singleton] at he; rw [he]; exact hk
    | cons p d ih =>
      obtain ⟨a, b⟩ := p
      intro hd hk e he
      simp only [Dict.set] at he
      split at he
      · rcases List.mem_cons.1 he with he | he
        · rw [he]; exact hk
        · exact hd e (List.mem_cons_of_mem _ he)
      · rcases List.mem_cons.1 he with he | he
        · rw [he]; exact hd (a, b) List.mem_cons_self
        · exact ih (fun e he => hd e (List.mem_cons_of_mem _ he)) hk e he
  have key : ∀ (l acc : Dict α β), (∀ e ∈ acc, P e.1) → (∀ e ∈ l, P e.1) →
      l.foldlM (fun acc kv => bput acc kv.1 kv.2) acc = .ok d' → ∀ e ∈ d', P e.1 := by
    intro l
    induction l with
    | nil => intro acc h1 _ h2; cases h2; exact h1
    | cons e l ih =>
      intro acc h1 hl h2
      simp only [List.foldlM_cons, bind, Except.bind] at h2
      split at h2
      · cases h2
      · rename_i v hv
        refine ih v ?_ (fun e he => hl e (List.mem_cons_of_mem _ he)) h2
        unfold bput at hv
        split at hv
        · cases hv; exact hset _ _ _ h1 (hl e List.mem_cons_self)
        · split at hv
          · cases hv; exact h1
          · cases hv
  exact key d [] (by simp) hP h

theorem initializeSystem_full {P : Dok K} {index tt mapping} {M M' : Sys K} {tl fl : String}
    (h : initializeSystem P index tt mapping M tl fl = .ok M') :
    Full M'.labS.d ∧ (M.dtmc = true → M'.C = M'.N ∧ ∀ s a i, ((s, a), i) ∈ M'.idx → a = 0) := by
  unfold initializeSystem at h
  simp only [bind, Except.bind] at h
  split at h
  · cases h
  split at h
  · cases h
  rename_i i2 hi2
  split at h
  · cases h
  rename_i st hst
  obtain ⟨labS, labA, rew⟩ := st
  simp only at h
  have hfull : Full labS := by
    have : ∀ (l : List Nat) (st st' : Dict String (List Nat) × Dict String (List (Nat × Nat)) × Option (List K)),
        Full st.1 → l.foldlM (labelStep M index mapping) st = .ok st' → Full st'.1 := by
      intro l
      induction l with
      | nil => intro st st' h1 h2; cases h2; exact h1
      | cons i l ih =>
        intro st st' h1 h2
        simp only [List.foldlM_cons, bind, Except.bind] at h2
        split at h2
        · cases h2
        · rename_i v hv
          exact ih v st' (full_labelStep h1 hv) h2
    exact this _ _ _ (by intro k s hs; simp [Dict.get?] at hs) hst
  have hfull' := full_addTo (full_addTo hfull fl (P.cols + 1)) tl P.cols
  have hmk : ∀ {dtmc : Bool} {Q : Dok K} {idx : Dict (Nat × Nat) Nat} {la : IDict String (Nat × Nat)} {ls : IDict String Nat}
      {rew : Option (List K)} {M' : Sys K}, Sys.make dtmc Q idx la ls rew = .ok M' →
      M'.labS = ls ∧ M'.P = Q ∧ ∃ idx', mkBidict idx = .ok idx' ∧ M'.idx = idx' := by
    intro dtmc Q idx la ls rew M' h
    simp only [Sys.make, bind, Except.bind] at h
    split at h
    · cases h
    · rename_i d hd
      split at h
      · cases h
      · split at h
        · cases h
        · cases h; exact ⟨rfl, rfl, d, hd, rfl⟩
  unfold Sys.remake at h
  split at h
  · unfold Sys.makeDTMC at h
    split at h
    · rename_i hsq
      simp only at h
      split at h
      · rename_i hz
        obtain ⟨e1, e2, d, hd, e3⟩ := hmk h
        refine ⟨by rw [e1]; exact hfull', fun _ => ⟨by unfold Sys.C Sys.N; rw [e2]; exact hsq, ?_⟩⟩
        rw [e3]
        exact fun s a i hm => mkBidict_keys hd (P := fun k => k.2 = 0) hz _ hm
      · cases h
    · cases h
  · rename_i hd
    exact ⟨by rw [(hmk h).1]; exact hfull', fun hd' => absurd hd' hd⟩

theorem reduce_full {ρ : Graph.Rnd} {M : Sys K} {il tl ntl nfl : String} {res : Result K}
    (h : M.reduce ρ il tl ntl nfl = .ok res) :
    Full res.rf.sys.labS.d ∧ (M.dtmc = true → res.rf.sys.C = res.rf.sys.N ∧ ∀ s a i, ((s, a), i) ∈ res.rf.sys.idx → a = 0) := by
  unfold Sys.reduce at h
  simp only [bind, Except.bind] at h
  split at h
  · cases h
  split at h
  · cases h
  split at h
  · cases h
  split at h
  · cases h
  rename_i is his
  match is, his, h with
  | [i], his, h => ?_
  | [], his, h => cases h
  | _ :: _ :: _, his, h => cases h
  simp only at h
  split at h
  · cases h
  split at h
  · cases h
  split at h
  · cases h
  split at h
  · cases h
  split at h
  · cases h
  split at h
  · cases h
  rename_i sys hs
  split at h
  · cases h
  rename_i rf hr
  cases h
  have hsys := rf_sys hr
  subst hsys
  exact initializeSystem_full hs

/-- every label of a reduced system is the new target or fail label or a label of the system -/
theorem reduce_labels {ρ : Graph.Rnd} {M : Sys K} (hM : M.WF) (hS : Inv M.labS) (hA : Inv M.labA) {il tl ntl nfl : String}
    {res : Result K} (h : M.reduce ρ il tl ntl nfl = .ok res) {l : String} (hl : l ∈ res.rf.sys.labS.d.map Prod.fst) :
    l = ntl ∨ l = nfl ∨ l ∈ M.labS.d.map Prod.fst := by
  obtain ⟨T, i, mask, hR, -⟩ := reduce_spec hM hS hA h
  obtain ⟨⟨l', s⟩, he, rfl⟩ := List.mem_map.1 hl
  have hg := Dict.get?_of_mem hR.red.labI.ok.1 he
  obtain ⟨x, hx⟩ := List.exists_mem_of_ne_nil _ ((reduce_full h).1 l' s hg)
  have : Has res.rf.sys.labS.d l' x := by
    unfold Has
    rw [hg]
    exact hx
  rcases (hR.red.labS l' x).1 this with ⟨s', -, h2⟩ | ⟨h1, -⟩ | ⟨h1, -⟩
  · right; right
    by_contra hn
    unfold Has at h2
    rw [Dict.get?_eq_none.2 hn] at h2
    simp at h2
  · left; exact h1
  · right; left; exact h1

/-- the probabilities of a reduced system have as many decimals as those of the system -/
theorem reduce_decimals {ρ : Graph.Rnd} {M : Sys K} (hM : M.WF) (hS : Inv M.labS) (hA : Inv M.labA) {il tl ntl nfl : String}
    {res : Result K} (h : M.reduce ρ il tl ntl nfl = .ok res) {D : Nat} (hD : 0 < D)
    (h6 : ∀ r t, ∃ n : Nat, M.P.get r t = n / (D : K)) : ∀ r t, ∃ n : Nat, res.rf.sys.P.get r t = n / (D : K) := by
  obtain ⟨T, i, mask, hR, -⟩ := reduce_spec hM hS hA h
  have hD' : (0 : K) < D := by exact_mod_cast hD
  have one : ∃ n : Nat, (1 : K) = n / (D : K) := ⟨D, (div_self hD'.ne').symm⟩
  have zero : ∃ n : Nat, (0 : K) = n / (D : K) := ⟨0, by simp⟩
  have hw := hR.red.wf
  have eN := hR.red.hN
  have eC := hR.red.hC
  intro r t
  have hz : ¬ (r < res.rf.sys.C ∧ t < res.rf.sys.N) → res.rf.sys.P.get r t = 0 := by
    intro hn
    by_contra hc
    exact hn (hw.range _ _ _ (mem_of_get_ne hc))
  by_cases hr : r < res.rf.sys.C
  swap
  · rw [hz fun h => hr h.1]; exact zero
  by_cases ht : t < res.rf.sys.N
  swap
  · rw [hz fun h => ht h.2]; exact zero
  have hsum := hw.sum r hr
  by_cases hk : r < res.rows.length
  · obtain ⟨s, a, n, hrow⟩ := hR.red.maps.row_of_lt hk
    obtain ⟨-, -, -, ⟨i, hi, -⟩, -⟩ := hR.red.maps.row_spec hrow
    have main : ∀ t, t < res.cols.length + 1 → ∃ n : Nat, res.rf.sys.P.get r t = n / (D : K) := by
      intro t ht
      by_cases e : t = res.cols.length
      · subst e
        rw [hR.red.goal r s a n hrow]
        split
        · exact one
        · exact zero
      · have ht' : t < res.cols.length := by omega
        by_cases hsT : s ∈ T
        · rw [hR.red.keptT r s a n t hrow hsT ht']; exact zero
        · obtain ⟨d, hd⟩ := hR.red.maps.col_of_lt ht'
          rw [hR.red.kept r s a n i d t hrow hsT hi hd]
          exact h6 _ _
    by_cases e : t < res.cols.length + 1
    · exact main t e
    · have e : t = res.cols.length + 1 := by omega
      subst e
      choose f hf using main
      rw [eN, Finset.sum_range_succ] at hsum
      have : ∑ x ∈ range (res.cols.length + 1), res.rf.sys.P.get r x =
          ((∑ x ∈ (range (res.cols.length + 1)).attach, f x.1 (Finset.mem_range.1 x.2) : Nat) : K) / D := by
        rw [← Finset.sum_attach, Nat.cast_sum, Finset.sum_div]
        exact Finset.sum_congr rfl fun x _ => hf x.1 _
      rw [this] at hsum
      generalize (∑ x ∈ (range (res.cols.length + 1)).attach, f x.1 (Finset.mem_range.1 x.2)) = m at hsum
      have h0 : 0 ≤ res.rf.sys.P.get r (res.cols.length + 1) := WF.get_nonneg hw _ _
      have hm : (m : K) / D ≤ 1 := by linarith
      rw [div_le_one hD'] at hm
      have hm' : m ≤ D := by exact_mod_cast hm
      refine ⟨D - m, ?_⟩
      rw [Nat.cast_sub hm', sub_div, div_self hD'.ne']
      linarith
  · have hone : ∀ t0, t0 < res.rf.sys.N → res.rf.sys.P.get r t0 = 1 → ∃ n : Nat, res.rf.sys.P.get r t = n / (D : K) := by
      intro t0 h0 h1
      by_cases e : t = t0
      · rw [e, h1]; exact one
      · rw [← Finset.add_sum_erase _ _ (Finset.mem_range.2 h0), h1] at hsum
        have hz : ∑ x ∈ (range res.rf.sys.N).erase t0, res.rf.sys.P.get r x = 0 := by linarith
        rw [Finset.sum_eq_zero_iff_of_nonneg (fun x _ => WF.get_nonneg hw _ _)] at hz
        rw [hz t (Finset.mem_erase.2 ⟨e, Finset.mem_range.2 ht⟩)]
        exact zero
    by_cases e : r = res.rows.length
    · subst e
      exact hone _ (by omega) hR.red.goalRow
    · have e : r = res.rows.length + 1 := by omega
      subst e
      exact hone _ (by omega) hR.red.failRow

end Verif.Proofs
