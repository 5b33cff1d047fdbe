import Verif.Proofs.Rounded
import Verif.Props.Robust
import Verif.Props.Style
import Verif.Props.CliRf
/-!
# C91: certificates for models that were saved with six decimals
-/
set_option linter.unusedSectionVars false

namespace Verif.Props
open Verif.Model Verif.Model.Cli Verif.Spec Verif.Proofs Verif.Proofs.IDict Verif.Proofs.IOTra Finset

variable {K : Type} [Field K] [LinearOrder K] [IsStrictOrderedRing K] [FloorRing K]
variable {ρ ρ' : Graph.Rnd} {M L : Sys K} {il tl fl ntl nfl : String} {rf : RF K} {kind : Kind} {lab tra : List Char}
variable {π : List Nat → List Nat} {π' : List String → List String}

theorem IsSix.close {p x : K} (h : IsSix p x) : |p - x| ≤ 1 / (2 * 10 ^ 6) := by
  obtain ⟨n, -, h⟩ := h
  rw [abs_sub_comm]
  rcases h with h | ⟨h, -⟩
  · exact h.le
  · exact h.le

theorem IsSix.pos_iff {p x : K} (h : IsSix p x) (hp : 0 ≤ p) (hm : 0 < p → 1 / (2 * 10 ^ 6) < p) : 0 < x ↔ 0 < p := by
  constructor
  · intro hx
    by_contra hn
    obtain rfl : p = 0 := le_antisymm (not_lt.1 hn) hp
    have : IsSix (0 : K) 0 := ⟨0, by simp, .inl (by simp)⟩
    rw [isSix_unique h this] at hx
    exact lt_irrefl _ hx
  · intro hp'
    have := (abs_le.1 h.close).2
    have := hm hp'
    linarith

/-- what is loaded is what was saved, up to half a unit of the sixth decimal -/
theorem rounded_of_save (hπ : ∀ l, (π l).Perm l) (hπ' : ∀ l, (π' l).Perm l) (hM : M.WF) (hI : Inv M.labS)
    (hch : kind = .dtmc → M.C = M.N ∧ ∀ s a i, ((s, a), i) ∈ M.idx → a = 0)
    (hc : ∀ l ∈ M.labS.d.map Prod.fst, CleanName l)
    (hmin : ∀ r t, 0 < M.P.get r t → 1 / (2 * 10 ^ 6) < M.P.get r t)
    (hs : save kind π π' M = .ok (lab, tra)) (hl : loadModel kind lab tra = .ok L) :
    L.WF ∧ Rounded (1 / (2 * 10 ^ 6)) M L := by
  have hsix : ∀ {r t x}, IsSix (M.P.get r t) x → |M.P.get r t - x| ≤ 1 / (2 * 10 ^ 6) ∧ (0 < x ↔ 0 < M.P.get r t) :=
    fun h => ⟨h.close, h.pos_iff (WF.get_nonneg hM _ _) (hmin _ _)⟩
  cases kind with
  | mdp =>
    obtain ⟨lab2, tra2, a1, a2, -, -, a5⟩ := mdp_reload (M := { M with rew := none }) hπ hπ' (table_of_wf hM) hI hc
    have e1 : M.saveLab π π' = .ok lab2 := a1
    have e2 : M.saveTraMDP = .ok tra2 := a2
    simp only [save, e1, e2, bind, Except.bind] at hs
    cases hs
    obtain ⟨⟨hW, -⟩, -, b2, b3, -, -, b6, b7, b8, b9, b10, -⟩ := a5 L hl
    have b2 : L.N = M.N := b2
    have b3 : L.C = M.C := b3
    have b9 : ∀ s a, (s, a) ∈ L.idx.map Prod.fst ↔ ∃ r < M.C, ((s, a), r) ∈ M.idx := b9
    have hlt : ∀ s a r, ((s, a), r) ∈ L.idx → r < L.C := by
      intro s a r hm
      have : r ∈ L.idx.map Prod.snd := List.mem_map.2 ⟨_, hm, rfl⟩
      rw [b7] at this
      rw [b3]; exact List.mem_range.1 this
    have key : ∀ s a r r', ((s, a), r) ∈ M.idx → ((s, a), r') ∈ L.idx → ∀ t, IsSix (M.P.get r t) (L.P.get r' t) := by
      intro s a r r' h1 h2 t
      have h3 : IsSix (prob { M with rew := none } s a t) (prob L s a t) := b10 s a t
      unfold prob at h3
      have e1 : M.idx.get? (s, a) = some r := Dict.get?_of_mem hM.keys h1
      have e2 : L.idx.get? (s, a) = some r' := Dict.get?_of_mem hW.keys h2
      simp only [e1, e2] at h3
      exact h3
    refine ⟨hW, b2, b3, fun s a => ?_, fun s a r r' h1 h2 t => (hsix (key s a r r' h1 h2 t)).1,
      fun s a r r' h1 h2 t => (hsix (key s a r r' h1 h2 t)).2, fun l s => ?_⟩
    · rw [← b9]
      constructor
      · rintro ⟨r, -, h⟩; exact List.mem_map.2 ⟨_, h, rfl⟩
      · intro h
        obtain ⟨⟨sa, r⟩, h1, rfl⟩ := List.mem_map.1 h
        exact ⟨r, hlt _ _ _ h1, h1⟩
    · have := b6.2 l s
      rw [sees_iff, sees_iff] at this
      exact this
  | dtmc =>
    obtain ⟨hsq, ha⟩ := hch rfl
    obtain ⟨lab2, tra2, a1, a2, -, -, a5⟩ := dtmc_reload (M := { M with rew := none }) hπ hπ' (table_of_wf hM) hsq ha hI hc
    have e1 : M.saveLab π π' = .ok lab2 := a1
    have e2 : M.saveTraDTMC = .ok tra2 := a2
    simp only [save, e1, e2, bind, Except.bind] at hs
    cases hs
    obtain ⟨⟨hW, -, b3, b7⟩, -, b2, -, b6, b10⟩ := a5 L hl
    have b2 : L.N = M.N := b2
    have b3 : L.C = M.C := b3.trans hsq.symm
    have b7 : L.idx = (List.range M.N).map fun i => ((i, 0), i) := b7
    have hmem : ∀ s a r, ((s, a), r) ∈ L.idx ↔ s < M.N ∧ a = 0 ∧ r = s := by
      intro s a r
      rw [b7, List.mem_map]
      constructor
      · rintro ⟨i, hi, he⟩
        simp only [Prod.mk.injEq] at he
        obtain ⟨⟨rfl, rfl⟩, rfl⟩ := he
        exact ⟨List.mem_range.1 hi, rfl, rfl⟩
      · rintro ⟨h1, rfl, rfl⟩
        exact ⟨r, List.mem_range.2 h1, rfl⟩
    have key : ∀ s a r r', ((s, a), r) ∈ M.idx → ((s, a), r') ∈ L.idx → ∀ t, IsSix (M.P.get r t) (L.P.get r' t) := by
      intro s a r r' h1 h2 t
      obtain ⟨hs, rfl, rfl⟩ := (hmem _ _ _).1 h2
      have h3 : IsSix (prob { M with rew := none } r' 0 t) (prob L r' 0 t) := b10 r' hs t
      unfold prob at h3
      have e1 : M.idx.get? (r', 0) = some r := Dict.get?_of_mem hM.keys h1
      have e2 : L.idx.get? (r', 0) = some r' := Dict.get?_of_mem hW.keys h2
      simp only [e1, e2] at h3
      exact h3
    refine ⟨hW, b2, b3, fun s a => ?_, fun s a r r' h1 h2 t => (hsix (key s a r r' h1 h2 t)).1,
      fun s a r r' h1 h2 t => (hsix (key s a r r' h1 h2 t)).2, fun l s => ?_⟩
    · constructor
      · rintro ⟨r, -, h⟩
        obtain ⟨h1, rfl, rfl⟩ := (hmem _ _ _).1 h
        exact Table.row_of_state (M := { M with rew := none }) (table_of_wf hM) hsq ha h1
      · rintro ⟨r, h1, h2⟩
        have hs := WF.state_lt hM h2 h1
        exact ⟨s, by rw [b3, hsq]; exact hs, (hmem _ _ _).2 ⟨hs, ha _ _ _ h2, rfl⟩⟩
    · have := b6.2 l s
      rw [sees_iff, sees_iff] at this
      exact this

/-- bounds proved on the rounded system hold for the other one up to the stated errors -/
theorem rounded_bounds {η : K} (hM : M.WF) (hL : L.WF) (hη : 0 ≤ η) (h : Rounded η M L)
    (hrf : RF.make ρ L il tl fl false = .ok rf) (φ : K →+*o ℝ) {ε : K} (hε : 0 < ε)
    (hmin : ∀ i < M.C, ∀ j < M.N, 0 < M.P.get i j → ε ≤ M.P.get i j) {tol t : K} {v : List K} (htol : 0 ≤ tol)
    {i : Nat} (hi : i ∈ M.labelled il) :
    (let err := φ ((tol + η * (1 + (v.map fun x => |x|).sum)) * (1 + M.N / ε ^ M.N))
    (check rf .min .ge t v tol = .ok true → φ t ≤ M.prMin φ (M.labelled tl) i + err) ∧
    (check rf .min .gt t v tol = .ok true → φ t < M.prMin φ (M.labelled tl) i + err) ∧
    (check rf .max .le t v tol = .ok true → M.prMax φ (M.labelled tl) i ≤ φ t + err) ∧
    (check rf .max .lt t v tol = .ok true → M.prMax φ (M.labelled tl) i < φ t + err)) ∧
    ((∀ x ∈ v, 0 ≤ x) →
      let err := φ (tol + η * (1 + v.sum)) * M.N
      (check rf .max .ge t v tol = .ok true → φ t ≤ M.prMax φ (M.labelled tl) i + err) ∧
      (check rf .max .gt t v tol = .ok true → φ t < M.prMax φ (M.labelled tl) i + err) ∧
      (check rf .min .le t v tol = .ok true → M.prMin φ (M.labelled tl) i ≤ φ t + err) ∧
      (check rf .min .lt t v tol = .ok true → M.prMin φ (M.labelled tl) i < φ t + err)) := by
  obtain ⟨M', hw, hr, hn⟩ := h.between hM hL hη
  have hLt : L.Total := by
    have := (rflive_built hL hrf).total
    rwa [(make_fields hrf).1] at this
  have ht : M.Total := by
    intro s hs
    obtain ⟨a, r, h1, h2⟩ := hLt s (by rw [h.N]; exact hs)
    obtain ⟨r', h3, h4⟩ := (h.pair s a).1 ⟨r, h2, h1⟩
    exact ⟨a, r', h4, h3⟩
  have el : ∀ l, L.labelled l = M.labelled l := fun l => by
    rw [← hr.labelled l]
    unfold Sys.labelled Sys.statesByLabel; rw [hn.labS]
  have hmin' : ∀ i < M'.C, ∀ j < M'.N, 0 < M'.P.get i j → ε ≤ M'.P.get i j := by
    intro i hi j hj hp
    obtain ⟨s, a, hi', -⟩ := WF.cover hw hi
    obtain ⟨r, h1, h2⟩ := (hr.pair s a).1 ⟨i, hi, hi'⟩
    rw [hr.row _ _ _ _ h2 hi' j] at hp ⊢
    exact hmin r h1 j (by rw [← hr.N]; exact hj) hp
  have hz := C87_bounds_z (stored_of_wf hL) hw hn hrf φ hε hmin' (t := t) (z := v) htol (i := i) (by rw [el]; exact hi)
  rw [el, h.N, hr.prMin hM hw ht, hr.prMax hM hw ht] at hz
  refine ⟨hz, fun hy => ?_⟩
  have hy := C87_bounds_y (stored_of_wf hL) hw hn hrf φ (t := t) (y := v) htol hy (i := i) (by rw [el]; exact hi)
  rw [el, h.N, hr.prMin hM hw ht, hr.prMax hM hw ht] at hy
  exact hy

/-- **C91.** A certificate accepted for the model loaded from the files written by `save` bounds the probabilities of the
model that was saved, up to the stated errors, if every positive probability of that model is above half a unit of the sixth decimal. -/
theorem C91_reloaded (hπ : ∀ l, (π l).Perm l) (hπ' : ∀ l, (π' l).Perm l) (hM : M.WF) (hI : LabelMap M.labS)
    (hch : kind = .dtmc → M.C = M.N ∧ ∀ s a i, ((s, a), i) ∈ M.idx → a = 0)
    (hc : ∀ l ∈ M.labS.d.map Prod.fst, CleanName l) {ε η : K} (hη : η = 1 / (2 * 10 ^ 6)) (hε : η < ε)
    (hmin : ∀ r < M.C, ∀ t < M.N, 0 < M.P.get r t → ε ≤ M.P.get r t)
    (hs : save kind π π' M = .ok (lab, tra)) (hl : loadModel kind lab tra = .ok L)
    (hrf : RF.make ρ L il tl fl false = .ok rf) (φ : K →+*o ℝ) {tol t : K} {v : List K} (htol : 0 ≤ tol)
    {i : Nat} (hi : i ∈ M.labelled il) :
    (let err := φ ((tol + η * (1 + (v.map fun x => |x|).sum)) * (1 + M.N / ε ^ M.N))
    (check rf .min .ge t v tol = .ok true → φ t ≤ M.prMin φ (M.labelled tl) i + err) ∧
    (check rf .min .gt t v tol = .ok true → φ t < M.prMin φ (M.labelled tl) i + err) ∧
    (check rf .max .le t v tol = .ok true → M.prMax φ (M.labelled tl) i ≤ φ t + err) ∧
    (check rf .max .lt t v tol = .ok true → M.prMax φ (M.labelled tl) i < φ t + err)) ∧
    ((∀ x ∈ v, 0 ≤ x) →
      let err := φ (tol + η * (1 + v.sum)) * M.N
      (check rf .max .ge t v tol = .ok true → φ t ≤ M.prMax φ (M.labelled tl) i + err) ∧
      (check rf .max .gt t v tol = .ok true → φ t < M.prMax φ (M.labelled tl) i + err) ∧
      (check rf .min .le t v tol = .ok true → M.prMin φ (M.labelled tl) i ≤ φ t + err) ∧
      (check rf .min .lt t v tol = .ok true → M.prMin φ (M.labelled tl) i < φ t + err)) := by
  have hη0 : 0 ≤ η := by rw [hη]; positivity
  obtain ⟨hL, hr⟩ := rounded_of_save hπ hπ' hM hI.inv hch hc (fun r t hp => by
    obtain ⟨p, hp'⟩ := (WF.get_pos_iff hM).1 hp
    obtain ⟨h1, h2⟩ := hM.range _ _ _ hp'
    rw [← hη]
    exact hε.trans_le (hmin r h1 t h2 hp)) hs hl
  rw [← hη] at hr
  exact rounded_bounds hM hL hη0 hr hrf φ (hη0.trans_lt hε) hmin htol hi

/-- the smallest probability of a reduced system -/
theorem reduce_least (hM : Input M) (hne : ntl ≠ nfl) {res : Reduce.Result K} (h : M.reduce ρ il tl ntl nfl = .ok res) {ε : K}
    (hmin : ∀ r < M.C, ∀ t < M.N, 0 < M.P.get r t → ε ≤ M.P.get r t) :
    ∀ r < res.rf.sys.C, ∀ t < res.rf.sys.N, 0 < res.rf.sys.P.get r t → ε ≤ res.rf.sys.P.get r t := by
  obtain ⟨hw, hN, hc, hcn, hca, hidx, hrC, hrow, hls, hla, k1, k2, k3, -, k5, k6, k7, k8⟩ := reduce_shape hM hne h
  have hε1 : ε ≤ 1 := by
    obtain ⟨T, i0, mask, hR, hrf⟩ := reduce_spec hM.wf hM.labS.inv hM.labA.inv h
    obtain ⟨a, r, h1, h2⟩ := hM.total i0 hR.hiN
    obtain ⟨t, ht, hp⟩ := WF.exists_pos hM.wf h2
    refine (hmin r h2 t ht hp).trans ?_
    rw [← hM.wf.sum r h2]
    exact Finset.single_le_sum (f := fun j => M.P.get r j) (fun j _ => WF.get_nonneg hM.wf _ _) (Finset.mem_range.2 ht)
  intro r hr t ht hp
  obtain ⟨n, a, hi, hn⟩ := WF.cover hw hr
  rcases (hidx _ _ _).1 hi with ⟨s, h1, -⟩ | ⟨-, -, rfl⟩ | ⟨-, -, rfl⟩
  · obtain ⟨i, e1, e2, e3⟩ := reduce_row hM h h1 hi
    have hle : ∀ d, 0 < M.P.get i d → ε ≤ M.P.get i d := by
      intro d hd
      obtain ⟨p, hp'⟩ := (WF.get_pos_iff hM.wf).1 hd
      obtain ⟨h1, h2⟩ := hM.wf.range _ _ _ hp'
      exact hmin i h1 d h2 hd
    by_cases hs : s ∈ M.labelled tl
    · obtain ⟨e4, e5⟩ := e3 hs
      by_cases htg : t = res.rf.sys.N - 2
      · rw [htg, e4]; exact hε1
      · rw [e5 t htg] at hp; exact absurd hp (lt_irrefl _)
    · obtain ⟨e4, e5, e6⟩ := e2 hs
      by_cases ht1 : t < res.rf.sys.N - 2
      · obtain ⟨d, hd⟩ := hcn t ht1
        rw [e4 d t hd] at hp ⊢
        exact hle d hp
      · obtain rfl | rfl : t = res.rf.sys.N - 2 ∨ t = res.rf.sys.N - 1 := by omega
        · rw [e5] at hp; exact absurd hp (lt_irrefl _)
        · rw [e6] at hp ⊢
          unfold dropped at hp ⊢
          obtain ⟨d, hd, hpd⟩ := Finset.exists_lt_of_sum_lt (s := (range M.N).filter fun d => res.cols.get? d = none)
            (f := fun _ => (0 : K)) (g := fun d => M.P.get i d) (by simpa using hp)
          exact (hle d hpd).trans (Finset.single_le_sum (f := fun d => M.P.get i d) (fun j _ => WF.get_nonneg hM.wf _ _) hd)
  · obtain rfl := (k5 t).1 hp
    rw [k7]; exact hε1
  · obtain rfl := (k6 t).1 hp
    rw [k8]; exact hε1

/-- **C91 (commands).** If `switss certify` prints "VALID" for a certificate and the files written by `switss rf`, the bound
holds for the model given to `rf`, whatever its probabilities are (above half a unit of the sixth decimal), up to the stated errors. -/
theorem C91_certified (hπ : ∀ l, (π l).Perm l) (hπ' : ∀ l, (π' l).Perm l) (h : loadModel kind lab tra = .ok M)
    (hx : ExactRows M) (ht : M.Total) {ε η : K} (hη : η = 1 / (2 * 10 ^ 6)) (hε : η < ε)
    (hmin : ∀ r < M.C, ∀ t < M.N, 0 < M.P.get r t → ε ≤ M.P.get r t)
    (hne : ntl ≠ nfl) (hc : CleanName ntl) (hc' : CleanName nfl) {mp : Mapping} {lab' tra' : List Char}
    (hrun : rfCmd (K := K) ρ π π' kind lab tra il tl ntl nfl = .ok (mp, lab', tra')) (φ : K →+*o ℝ) {f : CertFile K} {k : Nat}
    {tol : K} (htol : 0 ≤ tol)
    (hk : (certify ρ' kind lab' tra' il ntl nfl (some f) tol).1[k]? = some true) {i : Nat} (hi : i ∈ M.labelled il) :
    ∃ (L : Sys K) (c : Instance K), loadModel kind lab' tra' = .ok L ∧ L.N ≤ M.N + 2 ∧ f.instances[k]? = some c ∧
      (f.mode = some "min" ∧ φ c.threshold ≤ M.prMin φ (M.labelled tl) i +
        φ ((tol + η * (1 + (c.certificate.map fun x => |x|).sum)) * (1 + L.N / ε ^ L.N)) ∨
       f.mode = some "max" ∧ ((∀ y ∈ c.certificate, 0 ≤ y) → φ c.threshold ≤ M.prMax φ (M.labelled tl) i +
        φ (tol + η * (1 + c.certificate.sum)) * L.N)) := by
  have hF := loadModel_spec h
  have hin := input_of_load h hx ht
  obtain ⟨res, h1, h2, -⟩ := (rfCmd_ok h).1 hrun
  have hη0 : 0 ≤ η := by rw [hη]; positivity
  obtain ⟨T, i0, mask, hR, hrf0⟩ := reduce_spec hin.wf hin.labS.inv hin.labA.inv h1
  have hl := reduce_least hin hne h1 hmin
  have hL : ∃ L : Sys K, loadModel kind lab' tra' = .ok L := by
    cases hL : loadModel (K := K) kind lab' tra' with
    | ok L => exact ⟨L, rfl⟩
    | error e => unfold certify at hk; rw [hL] at hk; simp at hk
  obtain ⟨L, hL⟩ := hL
  obtain ⟨hLw, hr⟩ := rounded_of_save hπ hπ' hR.red.wf hR.red.labI (kind := kind) (fun hk => (reduce_full h1).2 (by rw [hF.dtmc, hk]; rfl))
    (fun l hl => by
      rcases reduce_labels hin.wf hF.labS hF.labA h1 hl with rfl | rfl | hm
      · exact hc
      · exact hc'
      · exact hF.clean l hm)
    (fun r t hp => by
      obtain ⟨p, hp'⟩ := (WF.get_pos_iff hR.red.wf).1 hp
      obtain ⟨h1, h2⟩ := hR.red.wf.range _ _ _ hp'
      rw [← hη]
      exact hε.trans_le (hl r h1 t h2 hp)) h2 hL
  rw [← hη] at hr
  obtain ⟨rf, hrf, hk⟩ := certify_rf hL hk
  obtain ⟨c, m, md, g1, g2, g3, g4⟩ := certifyLoop_get hk
  obtain ⟨i', hi'⟩ := hR.init_kept hrf0
  have hg : res.cols.get? i0 = some i' := Dict.get?_of_mem hR.red.maps.nd hi'
  obtain rfl : i = i0 := by
    have := (mem_T hR.hi i).2 hi
    simpa using this
  have hiL : i' ∈ res.rf.sys.labelled il := ((C17_reduce_labels hin hne h1).1 i i' hg il).1 hi
  obtain ⟨c1, c2⟩ := C14_reduce_probabilities hin hne h1 φ hg
  have hb := rounded_bounds hR.red.wf hLw hη0 hr hrf φ (hη0.trans_lt hε) hl (t := c.threshold) (v := c.certificate) htol hiL
  rw [c1, c2, ← hr.N] at hb
  refine ⟨L, c, hL, ?_, g1, ?_⟩
  · rw [hr.N, hR.red.hN]
    have : res.cols.length ≤ M.N := by
      have h3 : (res.cols.map Prod.fst).toFinset ⊆ range M.N := by
        intro s hs
        obtain ⟨e, he, rfl⟩ := List.mem_map.1 (List.mem_toFinset.1 hs)
        exact Finset.mem_range.2 (hR.red.maps.col_state_lt hin.wf he)
      have h4 := Finset.card_le_card h3
      rw [List.toFinset_card_of_nodup hR.red.maps.nd, List.length_map, card_range] at h4
      exact h4
    omega
  · rcases modeOf_some g3 with ⟨rfl, rfl⟩ | ⟨rfl, rfl⟩
    · exact Or.inl ⟨g2, hb.1.1 g4⟩
    · exact Or.inr ⟨g2, fun hy => (hb.2 hy).1 g4⟩

/-! ### a concrete case -/

/-- a chain that leaves its initial state with probability 0.00000209 -/
def tinyTra : List Char := "3 5\n0 0 0.99999791\n0 1 0.0000006\n0 2 0.00000149\n1 1 1\n2 2 1\n".toList

/-- **C91 (the error is real).** For a chain with three states, all probabilities above half a unit of the sixth decimal, the
commands `rf` and `certify -tol 0` call a certificate for "at least 1/2" VALID although the probability is below 0.3. -/
theorem C91_large_error : ∃ (M : Sys ℚ) (mp : Mapping) (lab' tra' : List Char) (f : CertFile ℚ),
    loadModel .dtmc cliLab tinyTra = .ok M ∧ ExactRows M ∧
    (∀ r < M.C, ∀ t < M.N, 0 < M.P.get r t → 6 / 10 ^ 7 ≤ M.P.get r t) ∧
    rfCmd (K := ℚ) exRnd id id .dtmc cliLab tinyTra "init" "goal" "t" "f" = .ok (mp, lab', tra') ∧
    f.mode = some "min" ∧ f.instances.map (fun c => c.threshold) = [1 / 2] ∧
    certify (K := ℚ) exRnd .dtmc lab' tra' "init" "t" "f" (some f) 0 = ([true], .done) ∧
    0 ∈ M.labelled "init" ∧ ∀ φ : ℚ →+*o ℝ, M.prMax φ (M.labelled "goal") 0 < φ (3 / 10) := by
  obtain ⟨M, rf, h1, h2, h3, h4, h5, h6⟩ := cliTest_spec (kind := .dtmc) (tra := tinyTra)
    (p := fun M rf => yes (check rf .max .lt (3 / 10) [60 / 209] 0) && decide (∀ e ∈ M.P.items, 6 / 10 ^ 7 ≤ e.2)) (by decide +kernel)
  simp only [Bool.and_eq_true, yes_iff, decide_eq_true_eq] at h6
  obtain ⟨⟨mp, lab', tra'⟩, h7, h8⟩ := exists_of_ok_and (x := rfCmd (K := ℚ) exRnd id id .dtmc cliLab tinyTra "init" "goal" "t" "f")
    (p := fun r => decide (certify (K := ℚ) exRnd .dtmc r.2.1 r.2.2 "init" "t" "f"
      (some ⟨some "min", [⟨0, 1 / 2, [1 / 2, 1]⟩]⟩) 0 = ([true], .done))) (by decide +kernel)
  refine ⟨M, mp, lab', tra', ⟨some "min", [⟨0, 1 / 2, [1 / 2, 1]⟩]⟩, h1, h2, fun r _ t _ hp => ?_, h7, rfl, rfl, of_decide_eq_true h8, h5,
    fun φ => C21_max_lt_sound h3 h4 φ h6.1 h5⟩
  obtain ⟨p, hp'⟩ := (WF.get_pos_iff h3).1 hp
  have := h6.2 _ hp'
  rwa [← get_of_mem h3.nodup hp'] at this

/-- the hypotheses of `C91_certified` are met by it -/
example (φ : ℚ →+*o ℝ) : ∃ (M : Sys ℚ) (L : Sys ℚ) (c : Instance ℚ) (f : CertFile ℚ), loadModel .dtmc cliLab tinyTra = .ok M ∧
    f.instances[0]? = some c ∧
      (f.mode = some "min" ∧ φ c.threshold ≤ M.prMin φ (M.labelled "goal") 0 +
        φ ((0 + 1 / (2 * 10 ^ 6) * (1 + (c.certificate.map fun x => |x|).sum)) * (1 + L.N / (6 / 10 ^ 7) ^ L.N)) ∨
       f.mode = some "max" ∧ ((∀ y ∈ c.certificate, 0 ≤ y) → φ c.threshold ≤ M.prMax φ (M.labelled "goal") 0 +
        φ (0 + 1 / (2 * 10 ^ 6) * (1 + c.certificate.sum)) * L.N)) := by
  obtain ⟨M, mp, lab', tra', f, h1, h2, h3, h4, -, -, h6, h7, -⟩ := C91_large_error
  obtain ⟨L, c, -, -, h8, h9⟩ := C91_certified (π := id) (π' := id) (ρ' := exRnd) (fun _ => List.Perm.refl _) (fun _ => List.Perm.refl _) h1 h2
    (total_of_chain h1) rfl (by norm_num) h3 (by decide) (by unfold CleanName; decide) (by unfold CleanName; decide) h4 φ
    (f := f) (k := 0) le_rfl (by rw [h6]; rfl) h7
  exact ⟨M, L, c, f, h1, h8, h9⟩

/-- the hypotheses of `C91_reloaded` are met: the same chain, saved and loaded -/
example : ∃ (M L : Sys ℚ) (rf : RF ℚ) (lab' tra' : List Char), loadModel .dtmc cliLab tinyTra = .ok M ∧ M.WF ∧ LabelMap M.labS ∧
    (M.C = M.N ∧ ∀ s a i, ((s, a), i) ∈ M.idx → a = 0) ∧ (∀ l ∈ M.labS.d.map Prod.fst, CleanName l) ∧
    save .dtmc id id M = .ok (lab', tra') ∧ loadModel .dtmc lab' tra' = .ok L ∧ RF.make exRnd L "init" "goal" "fail" false = .ok rf ∧
    check rf .min .ge (1 / 2) [1 / 2] 0 = .ok true := by
  obtain ⟨M, -, h1, h2, h3, -, -, -⟩ := cliTest_spec (kind := .dtmc) (tra := tinyTra) (p := fun _ _ => true) (by decide +kernel)
  have hF := loadModel_spec h1
  obtain ⟨hsq, hidx⟩ := hF.chain rfl
  obtain ⟨⟨lab', tra'⟩, g1, g2⟩ := exists_of_ok_and (x := loadModel (K := ℚ) .dtmc cliLab tinyTra >>= fun M => save .dtmc id id M)
    (p := fun r => match loadModel (K := ℚ) .dtmc r.1 r.2 with
      | .error _ => false
      | .ok L => match RF.make exRnd L "init" "goal" "fail" false with
        | .error _ => false
        | .ok rf => yes (check rf .min .ge (1 / 2) [1 / 2] 0)) (by decide +kernel)
  rw [h1] at g1
  dsimp only at g2
  split at g2
  · cases g2
  · rename_i L hL
    split at g2
    · cases g2
    · rename_i rf hrf
      refine ⟨M, L, rf, lab', tra', h1, h3, labelMap_of_inv hF.labS hF.noInv, ⟨hsq, fun s a i hi => ?_⟩, hF.clean, g1, hL, hrf, yes_iff.1 g2⟩
      rw [hidx] at hi
      obtain ⟨j, -, e⟩ := List.mem_map.1 hi
      cases e; rfl

end Verif.Props
