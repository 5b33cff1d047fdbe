import Verif.Props.IO
import Verif.Model.Cli
/-! helper lemmas: what `from_file` establishes, for every content of the files -/
set_option linter.unusedSectionVars false
namespace Verif.Proofs.IOTra
open Verif.Model Verif.Model.Text Verif.Proofs Verif.Proofs.Text Verif.Proofs.IOLab Verif.Props Finset

variable {K : Type} [Field K] [LinearOrder K] [IsStrictOrderedRing K]

theorem fit_resize {P : Dok K} (h : Fit P) (r c : Nat) : Fit (P.resize r c) := by
  unfold Dok.resize
  refine ⟨(List.filter_sublist.map Prod.fst).nodup h.1, fun e he => ?_⟩
  obtain ⟨h1, h2⟩ := List.mem_filter.1 he
  simp only [decide_eq_true_eq] at h2
  exact ⟨h2.1, h2.2, (h.2 e h1).2.2⟩

theorem fit_store {P Q : Dok K} (h : Fit P) {i j : Int} {p : ℚ} (hs : Sys.store P i j p = .ok Q) : Fit Q := by
  obtain ⟨s, h1⟩ := denotes_of_store' hs
  obtain ⟨t, h2⟩ := denotes_of_store hs
  rw [store_denotes₂ h1 h2] at hs
  split at hs
  · rename_i hb
    cases hs
    exact fit_set h hb.1 hb.2 _
  · cases hs

theorem fit_loadLineDTMC {P Q : Dok K} (h : Fit P) {line : List Char} (hl : Sys.loadLineDTMC P line = .ok Q) : Fit Q := by
  unfold Sys.loadLineDTMC at hl
  simp only [bind, Except.bind] at hl
  split at hl
  · split at hl
    · cases hl
    · split at hl
      · cases hl
      · cases hl; exact fit_resize h _ _
  · split at hl
    · cases hl
    · split at hl
      · cases hl
      · split at hl
        · cases hl
        · exact fit_store h hl
  · split at hl <;> cases hl
  · cases hl

theorem fit_loadDTMC {text : List Char} {Q : Dok K} (h : Sys.loadDTMC text = .ok Q) : Fit Q := by
  unfold Sys.loadDTMC at h
  have : ∀ (ls : List (List Char)) (P : Dok K), Fit P → ls.foldlM Sys.loadLineDTMC P = .ok Q → Fit Q := by
    intro ls
    induction ls with
    | nil => intro P hP h; cases h; exact hP
    | cons l ls ih =>
      intro P hP h
      simp only [List.foldlM_cons, bind, Except.bind] at h
      split at h
      · cases h
      · rename_i Q' h1
        exact ih Q' (fit_loadLineDTMC hP h1) h
  exact this _ _ ⟨by simp [Dok.zero, Dict.keys], by simp [Dok.zero]⟩ h

/-- the label sets read from any file are sets -/
theorem parse_sets {text : List Char} {r : LabState} {ids : Dict Nat String}
    (h : parseLabelFile text = .ok (r, ids)) : IDict.SetsOK r.1 := by
  unfold parseLabelFile at h
  split at h
  · cases h
  · rename_i hd ls hr
    simp only [bind, Except.bind] at h
    split at h
    · cases h
    · rename_i p hp
      obtain ⟨ids', sbl⟩ := p
      simp only at h
      split at h
      · cases h
      · rename_i r' hr'
        cases h
        have hset : ∀ (d : Dict String (List Nat)) (l : String), IDict.SetsOK d → IDict.SetsOK (d.set l []) := by
          intro d l hd
          refine ⟨Dict.nodup_set hd.1 _ _, fun k s hk => ?_⟩
          rw [Dict.get?_set] at hk
          split at hk
          · cases hk; exact List.nodup_nil
          · exact hd.2 k s hk
        have h0 : IDict.SetsOK sbl := by
          unfold parseHeader at hp
          have : ∀ (ms : List (List Char × List Char)) (acc res : Dict Nat String × Dict String (List Nat)),
              IDict.SetsOK acc.2 → ms.foldlM (fun acc m => do
                let i ← pyInt m.1
                Except.ok (acc.1.set i.toNat (String.ofList m.2), acc.2.set (String.ofList m.2) [])) acc = .ok res →
              IDict.SetsOK res.2 := by
            intro ms
            induction ms with
            | nil => intro acc res h1 h2; cases h2; exact h1
            | cons m ms ih =>
              intro acc res h1 h2
              simp only [List.foldlM_cons, bind, Except.bind] at h2
              split at h2
              · cases h2
              · rename_i v hv
                split at hv
                · cases hv
                · cases hv
                  exact ih _ res (hset _ _ h1) h2
          exact this _ _ _ ⟨by simp [Dict.keys], by simp [Dict.get?]⟩ hp
        have hid : ∀ (ws : List (List Char)) (s : Nat) (acc res : LabState), IDict.SetsOK acc.1 →
            ws.foldlM (parseId ids s) acc = .ok res → IDict.SetsOK res.1 := by
          intro ws s
          induction ws with
          | nil => intro acc res h1 h2; cases h2; exact h1
          | cons w ws ih =>
            intro acc res h1 h2
            simp only [List.foldlM_cons, bind, Except.bind] at h2
            split at h2
            · cases h2
            · rename_i v hv
              unfold parseId at hv
              simp only [bind, Except.bind] at hv
              split at hv
              · cases hv
              · split at hv
                · cases hv
                · cases hv
                  exact ih _ res (IDict.ok_addTo h1 _ _) h2
        have : ∀ (ls : List (List Char)) (acc res : LabState), IDict.SetsOK acc.1 →
            ls.foldlM (parseLine ids) acc = .ok res → IDict.SetsOK res.1 := by
          intro ls
          induction ls with
          | nil => intro acc res h1 h2; cases h2; exact h1
          | cons l ls ih =>
            intro acc res h1 h2
            simp only [List.foldlM_cons, bind, Except.bind] at h2
            split at h2
            · cases h2
            · rename_i v hv
              unfold parseLine at hv
              simp only [bind, Except.bind] at hv
              split at hv
              · cases hv
              · split at hv
                · cases hv
                · exact ih _ res (hid _ _ (acc.1, acc.2.set _ []) _ h1 hv) h2
        exact this _ _ _ h0 hr'

/-- what `from_file` establishes -/
structure FromFile (kind : Cli.Kind) (M : Sys K) : Prop where
  table : Table M
  fit : Fit M.P
  graph : Graph.build M.N (invGet? M.idx) M.P.items (Graph.empty M.N) = .ok M.graph
  labS : IDict.Inv M.labS
  labA : IDict.Inv M.labA
  dfltS : M.labS.dflt = true
  dfltA : M.labA.dflt = true
  noInv : M.labS.i = none
  noInvA : M.labA.i = none
  clean : ∀ l ∈ M.labS.d.map Prod.fst, CleanName l
  rew : M.rew = none
  dtmc : M.dtmc = decide (kind = .dtmc)
  chain : kind = .dtmc → M.C = M.N ∧ M.idx = (List.range M.N).map fun i => ((i, 0), i)

theorem fromFile_made {kind : Cli.Kind} {P : Dok K} (hP : Fit P) {idx : Dict (Nat × Nat) Nat} (hk : (Dict.keys idx).Nodup)
    {labA : Dict String (List (Nat × Nat))} (hA : IDict.SetsOK labA) {lab : List Char} {r : LabState} {ids : Dict Nat String}
    (hl : parseLabelFile lab = .ok (r, ids)) {M : Sys K}
    (hch : kind = .dtmc → P.rows = P.cols ∧ idx = (List.range P.cols).map fun i => ((i, 0), i))
    (h : Sys.make (decide (kind = .dtmc)) P idx (IDict.mk' labA true) (IDict.mk' r.1 true) none = .ok M) : FromFile kind M := by
  obtain ⟨t, e1, e2, e3, e4, e5, e6⟩ := table_of_make hP.inShape hk h
  obtain ⟨hv, hc, g, hg, hM⟩ := (make_iff hk).1 h
  have hcl := parse_clean hl
  have hi : ∀ {α β : Type} [DecidableEq α] [DecidableEq β] {d : Dict α (List β)}, IDict.SetsOK d →
      IDict.Inv (IDict.mk' d true) := fun hd => ⟨hd, by simp [IDict.mk'], by simp [IDict.mk']⟩
  refine ⟨t, e1 ▸ hP, ?_, ?_, ?_, ?_, ?_, ?_, ?_, ?_, e5, e6, ?_⟩
  · subst hM; exact hg
  · rw [e4]; exact hi (parse_sets hl)
  · rw [e3]; exact hi hA
  · rw [e4]; rfl
  · rw [e3]; rfl
  · rw [e4]; rfl
  · rw [e3]; rfl
  · rw [e4]; exact fun l hl => cleanName_iff.2 (hcl l hl)
  · intro hd
    obtain ⟨h1, h2⟩ := hch hd
    unfold Sys.C Sys.N
    rw [e1, e2]
    exact ⟨h1, h2⟩

variable [FloorRing K]

theorem loadModel_spec {kind : Cli.Kind} {lab tra : List Char} {M : Sys K} (h : Cli.loadModel kind lab tra = .ok M) :
    FromFile kind M := by
  cases kind with
  | mdp =>
    simp only [Cli.loadModel, Sys.fromFileMDP, bind, Except.bind] at h
    split at h
    · cases h
    · rename_i r hr
      split at h
      · cases h
      · rename_i x hx
        obtain ⟨hd, ls, n, c, h1, h2, h3⟩ := loadMDP_iff_head.1 hx
        obtain ⟨ts, h4, hI⟩ := loadLines_inv ls [] _ _ (linv_nil c n) h3
        exact fromFile_made (kind := .mdp) hI.fit hI.keys hI.labsOK (r := r.1) (ids := r.2) hr (by simp) h
  | dtmc =>
    simp only [Cli.loadModel, Sys.fromFileDTMC, bind, Except.bind] at h
    split at h
    · cases h
    · rename_i r hr
      split at h
      · cases h
      · rename_i Q hQ
        unfold Sys.makeDTMC at h
        split at h
        · rename_i hsq
          refine fromFile_made (kind := .dtmc) (fit_loadDTMC hQ) (idx := Sys.dtmcIndex Q.rows) ?_
            (labA := []) ⟨by simp [Dict.keys], by simp [Dict.get?]⟩ (r := r.1) (ids := r.2) hr
            (fun _ => ⟨hsq, by rw [hsq]; rfl⟩) h
          simp only [Dict.keys, Sys.dtmcIndex, List.map_map]
          refine (List.nodup_map_iff_inj_on List.nodup_range).2 fun x _ y _ h => ?_
          simpa using h
        · cases h

/-- a loaded system whose row sums are exact -/
theorem FromFile.wf_of_sum {kind : Cli.Kind} {M : Sys K} (h : FromFile kind M)
    (hs : ∀ r < M.C, ∑ t ∈ range M.N, M.P.get r t = 1) : M.WF := by
  refine ⟨h.fit.1, fun i j p hp => ⟨(h.fit.2 _ hp).1, (h.fit.2 _ hp).2.1⟩, fun i j p hp => ?_, hs,
    h.table.keys, h.table.vals, h.graph⟩
  exact lt_of_le_of_ne (h.table.item hp).2.2.2.1 (h.fit.2 _ hp).2.2.symm

/-- numbers with at most nine decimals: the constructor accepts only exact row sums -/
theorem FromFile.sum {kind : Cli.Kind} {M : Sys K} (h : FromFile kind M)
    (h9 : ∀ r t, ∃ n : Nat, M.P.get r t = n / 10 ^ 9) : ∀ r < M.C, ∑ t ∈ range M.N, M.P.get r t = 1 := by
  intro i hi
  choose f hf using h9
  have h1 := h.table.good.sum i hi
  have e : ∑ j ∈ range M.N, M.P.get i j = ((∑ j ∈ range M.N, f i j : Nat) : K) / 10 ^ 9 := by
    rw [Nat.cast_sum, Finset.sum_div]
    exact sum_congr rfl fun j _ => hf i j
  rw [show M.P.cols = M.N from rfl, e] at h1
  rw [e]
  generalize (∑ j ∈ range M.N, f i j) = n at h1
  obtain ⟨a, b⟩ := abs_le.1 h1
  have hn : n = 10 ^ 9 := by
    by_contra hne
    rcases lt_or_gt_of_ne hne with hlt | hgt
    · have : (n : K) + 1 ≤ 10 ^ 9 := by exact_mod_cast hlt
      have : ((n : K) + 1) / 10 ^ 9 ≤ 1 := by rw [div_le_one (by positivity)]; exact this
      rw [add_div] at this
      have h2 : (1 : K) / (2 * 10 ^ 9) < 1 / 10 ^ 9 := by norm_num
      linarith
    · have : (10 : K) ^ 9 + 1 ≤ n := by exact_mod_cast hgt
      have : 1 ≤ ((n : K) - 1) / 10 ^ 9 := by rw [one_le_div (by positivity)]; linarith
      rw [sub_div] at this
      have h2 : (1 : K) / (2 * 10 ^ 9) < 1 / 10 ^ 9 := by norm_num
      linarith
  rw [hn]; norm_num

end Verif.Proofs.IOTra
