import Verif.Proofs.IOTra
/-! helper lemmas: saving and loading whole systems -/
set_option linter.unusedSectionVars false
namespace Verif.Proofs.IOTra
open Verif.Model Verif.Model.Text Verif.Proofs Verif.Proofs.Text Verif.Proofs.IOLab Verif.Props Finset

variable {K : Type} [Field K] [LinearOrder K] [IsStrictOrderedRing K]

/-- what every constructor establishes for the matrix and the index -/
structure Table (M : Sys K) : Prop where
  shape : InShape M.P
  keys : (Dict.keys M.idx).Nodup
  vals : (M.idx.map Prod.snd).Nodup
  good : GoodTable M.P M.rew
  cover : ∀ i < M.P.rows, ∃ s a, ((s, a), i) ∈ M.idx ∧ s < M.P.cols

theorem table_of_make {dtmc : Bool} {P : Dok K} (hP : InShape P) {idx : Dict (Nat × Nat) Nat}
    (hk : (Dict.keys idx).Nodup) {labA : IDict String (Nat × Nat)} {labS : IDict String Nat}
    {rew : Option (List K)} {M : Sys K} (h : Sys.make dtmc P idx labA labS rew = .ok M) :
    Table M ∧ M.P = P ∧ M.idx = idx ∧ M.labA = labA ∧ M.labS = labS ∧ M.rew = rew ∧ M.dtmc = dtmc := by
  obtain ⟨h1, h2⟩ := (make_accepts hP hk labA labS rew).1 ⟨M, h⟩
  obtain ⟨hv, -, g, -, rfl⟩ := (make_iff hk).1 h
  exact ⟨⟨hP, hk, hv, h1, h2.cover⟩, rfl, rfl, rfl, rfl, rfl, rfl⟩

theorem Table.entry_nonneg {M : Sys K} (h : Table M) (i j : Nat) : 0 ≤ M.P.get i j := by
  by_cases h0 : M.P.get i j = 0
  · rw [h0]
  · have := mem_of_get_ne h0
    have hr := h.shape.range _ _ _ this
    exact (h.good.entry i hr.1 j hr.2).1

theorem Table.item {M : Sys K} (h : Table M) {e : (Nat × Nat) × K} (he : e ∈ M.P.items) :
    e.1.1 < M.P.rows ∧ e.1.2 < M.P.cols ∧ M.P.get e.1.1 e.1.2 = e.2 ∧ 0 ≤ e.2 ∧ e.2 ≤ 1 ∧
      ∃ s a, ((s, a), e.1.1) ∈ M.idx ∧ s < M.P.cols ∧ invGet? M.idx e.1.1 = some (s, a) := by
  obtain ⟨⟨i, j⟩, p⟩ := e
  have hr := h.shape.range i j p he
  have hg := get_of_mem h.shape.nodup he
  have hb := h.good.entry i hr.1 j hr.2
  rw [hg] at hb
  obtain ⟨s, a, h1, h2⟩ := h.cover i hr.1
  exact ⟨hr.1, hr.2, hg, hb.1, hb.2, s, a, h1, h2, (invGet?_iff h.vals).2 h1⟩

/-- every row has a positive entry -/
theorem Table.pos {M : Sys K} (h : Table M) {i : Nat} (hi : i < M.P.rows) :
    ∃ j < M.P.cols, 0 < M.P.get i j := by
  by_contra hc
  push Not at hc
  have : ∑ j ∈ range M.P.cols, M.P.get i j = 0 :=
    sum_eq_zero fun j hj => le_antisymm (hc j (mem_range.1 hj)) (h.entry_nonneg i j)
  have h1 := h.good.sum i hi
  rw [this] at h1
  norm_num at h1

/-- a row sum that is not one makes the constructor raise `AssertionError` -/
theorem make_assert {dtmc : Bool} {P : Dok K} (hP : InShape P) {idx : Dict (Nat × Nat) Nat}
    (hk : (Dict.keys idx).Nodup) (hv : (idx.map Prod.snd).Nodup) (labA : IDict String (Nat × Nat))
    (labS : IDict String Nat) (rew : Option (List K)) {i : Nat} (hi : i < P.rows)
    (hs : ¬ |∑ j ∈ range P.cols, P.get i j - 1| ≤ 1 / (2 * 10 ^ 9)) :
    Sys.make dtmc P idx labA labS rew = .error .assertion := by
  have hrs : ∀ i, P.rowSum i = ∑ j ∈ range P.cols, P.get i j :=
    rowSum_eq hP.nodup fun e he => (hP.range e.1.1 e.1.2 e.2 he).2
  unfold Sys.make
  rw [(mkBidict_iff hk).2 ⟨rfl, hv⟩]
  simp only [bind, Except.bind]
  have : Sys.checkCorrectness P rew = .error .assertion := by
    unfold Sys.checkCorrectness
    rw [if_neg]
    intro hc
    have := hc i hi
    rw [Sys.roundsToOne, hrs] at this
    exact hs this
  rw [this]

variable [FloorRing K]

/-! ## DTMC -/

/-- the transition a stored entry is written as -/
def traD (M : Sys K) (e : (Nat × Nat) × K) : Nat × Nat × K :=
  (((invGet? M.idx e.1.1).getD (0, 0)).1, e.1.2, e.2)

theorem saveTraDTMC_ok {M : Sys K} (h : Table M) :
    M.saveTraDTMC = .ok (fmtD M.N ++ ' ' :: fmtD M.P.items.length ++ '\n' ::
      ((M.P.items.map (traD M)).map fun t => lineD t ++ ['\n']).flatten) := by
  unfold Sys.saveTraDTMC
  simp only [bind, Except.bind]
  rw [mapM_ok (g := fun e => lineD (traD M e) ++ ['\n'])]
  · simp only [List.map_map, Function.comp_def]
  · intro e he
    obtain ⟨_, _, _, _, _, s, a, _, _, hi⟩ := h.item he
    simp [hi, traD, lineD]

/-- writing and reading a DTMC -/
theorem roundtrip_dtmc {M : Sys K} (h : Table M) (hsq : M.P.rows = M.P.cols)
    (ha : ∀ s a i, ((s, a), i) ∈ M.idx → a = 0) :
    ∃ tra Q, M.saveTraDTMC = .ok tra ∧ Sys.loadDTMC tra = .ok Q ∧ Fit Q ∧ Q.rows = M.P.cols ∧ Q.cols = M.P.cols ∧
      ∀ s i, ((s, 0), i) ∈ M.idx → i < M.P.rows → ∀ t, Q.get s t = rnd (M.P.get i t) := by
  obtain ⟨Q, q1, q2, q3, q4, q5, q6⟩ := loadDTMC_saved (K := K) M.P.cols M.P.items.length
    (M.P.items.map (traD M)) (by
      intro t ht
      obtain ⟨e, he, rfl⟩ := List.mem_map.1 ht
      obtain ⟨_, h2, _, h4, _, s, a, _, h7, hi⟩ := h.item he
      simp only [traD, hi, Option.getD_some]
      exact ⟨h4, h7, h2⟩) (by
      rw [List.map_map]
      have hnd : M.P.items.Nodup := List.Nodup.of_map _ h.shape.nodup
      refine (List.nodup_map_iff_inj_on hnd).2 ?_
      intro e he e' he' heq
      obtain ⟨_, _, _, _, _, s, a, h6, _, hi⟩ := h.item he
      obtain ⟨_, _, _, _, _, s', a', h6', _, hi'⟩ := h.item he'
      simp only [Function.comp, traD, hi, hi', Option.getD_some, Prod.mk.injEq] at heq
      obtain ⟨rfl, hd⟩ := heq
      have hrow : e.1.1 = e'.1.1 := by
        have z1 := ha _ _ _ h6
        have z2 := ha _ _ _ h6'
        subst z1 z2
        have a1 := Dict.get?_of_mem h.keys h6
        have a2 := Dict.get?_of_mem h.keys h6'
        rw [a1] at a2; exact Option.some.inj a2
      exact List.inj_on_of_nodup_map h.shape.nodup he he' (Prod.ext hrow hd))
  refine ⟨_, Q, saveTraDTMC_ok h, q1, q2, q3, q4, ?_⟩
  intro s i hsi hi t
  have hinv : invGet? M.idx i = some (s, 0) := (invGet?_iff h.vals).2 hsi
  by_cases h0 : ∃ p, ((i, t), p) ∈ M.P.items
  · obtain ⟨p, hp⟩ := h0
    have := q5 (traD M ((i, t), p)) (List.mem_map_of_mem hp)
    simp only [traD, hinv, Option.getD_some] at this
    rw [this, get_of_mem h.shape.nodup hp]
  · push Not at h0
    rw [q6, get_eq_zero h0, rnd_zero]
    intro p hp
    obtain ⟨e, he, heq⟩ := List.mem_map.1 hp
    obtain ⟨_, _, _, _, _, s', a', h6, _, hi'⟩ := h.item he
    simp only [traD, hi', Option.getD_some, Prod.mk.injEq] at heq
    obtain ⟨rfl, hd, hpp⟩ := heq
    have z1 := ha _ _ _ h6
    subst z1
    have a1 := Dict.get?_of_mem h.keys h6
    have a2 := Dict.get?_of_mem h.keys hsi
    rw [a1] at a2
    have hrow := Option.some.inj a2
    obtain ⟨⟨e1, e2⟩, e3⟩ := e
    simp only at hrow hd
    subst hrow hd
    exact h0 _ he

/-! ## MDP -/

/-- a line of the transition file of an MDP without the final newline -/
def lineM (t : Nat × Nat × Nat × K) : List Char :=
  fmtD t.1 ++ ' ' :: fmtD t.2.1 ++ ' ' :: fmtD t.2.2.1 ++ ' ' :: fmtF t.2.2.2

theorem split_lineM {t : Nat × Nat × Nat × K} (h : 0 ≤ t.2.2.2) :
    split (lineM t ++ ['\n']) = [fmtD t.1, fmtD t.2.1, fmtD t.2.2.1, fmtF t.2.2.2] := by
  have e : lineM t ++ ['\n'] = fmtD t.1 ++ ' ' :: (fmtD t.2.1 ++ ' ' :: (fmtD t.2.2.1 ++ ' ' ::
      (fmtF t.2.2.2 ++ '\n' :: []))) := by
    simp [lineM]
  rw [e, split_word (fmtD_word _) (fmtD_ne _) (by decide), split_word (fmtD_word _) (fmtD_ne _) (by decide),
    split_word (fmtD_word _) (fmtD_ne _) (by decide), split_word (fmtF_word h) (fmtF_ne _) (by decide)]
  rfl

theorem lineM_plain {t : Nat × Nat × Nat × K} (h : 0 ≤ t.2.2.2) : '\n' ∉ lineM t ∧ '\r' ∉ lineM t := by
  simp only [lineM, List.mem_append, List.mem_cons, not_or]
  exact ⟨⟨⟨⟨fmtD_plain (by decide), by decide, fmtD_plain (by decide)⟩, by decide, fmtD_plain (by decide)⟩,
      by decide, fmtF_plain h (by decide)⟩,
    ⟨⟨⟨fmtD_plain (by decide), by decide, fmtD_plain (by decide)⟩, by decide, fmtD_plain (by decide)⟩,
      by decide, fmtF_plain h (by decide)⟩⟩

/-- the transition a stored entry is written as -/
def traM (M : Sys K) (e : (Nat × Nat) × K) : Nat × Nat × Nat × K :=
  (((invGet? M.idx e.1.1).getD (0, 0)).1, ((invGet? M.idx e.1.1).getD (0, 0)).2, e.1.2, e.2)

/-- what is read from the line -/
def readM (t : Nat × Nat × Nat × K) : Tra :=
  ⟨t.1, t.2.1, t.2.2.1, (roundEven (t.2.2.2 * 10 ^ 6) : ℚ) / 10 ^ 6, none⟩

theorem reads_lineM (N : Nat) {t : Nat × Nat × Nat × K} (h : 0 ≤ t.2.2.2) : Reads N (lineM t ++ ['\n']) (readM t) :=
  ⟨_, _, _, _, [], _, split_lineM h, pyInt_fmtD _, pyInt_fmtD _, ⟨pyInt_fmtD _, denotes_nat _ _⟩, pyFloat_fmtF h, rfl⟩

theorem saveTraMDP_ok {M : Sys K} (h : Table M) :
    M.saveTraMDP = .ok (fmtD M.N ++ ' ' :: fmtD M.C ++ ' ' :: fmtD M.P.items.length ++ '\n' ::
      (((M.P.items.filter fun e => 0 < e.2).map (traM M)).map fun t => lineM t ++ ['\n']).flatten) := by
  unfold Sys.saveTraMDP
  simp only [bind, Except.bind]
  rw [mapM_ok (g := fun e => lineM (traM M e) ++ ['\n'])]
  · simp only [List.map_map, Function.comp_def]
  · intro e he
    obtain ⟨_, _, _, _, _, s, a, _, _, hi⟩ := h.item (List.mem_filter.1 he).1
    simp [hi, traM, lineM]

theorem loadMDP_header {text : List Char} {n c m : Nat} {ls : List (List Char)}
    (h : readLines text = (fmtD n ++ ' ' :: fmtD c ++ ' ' :: fmtD m ++ ['\n']) :: ls) :
    Sys.loadMDP (K := K) text = ls.foldlM Sys.loadLineMDP ⟨⟨c, n, []⟩, [], [], 0⟩ := by
  have e : fmtD n ++ ' ' :: fmtD c ++ ' ' :: fmtD m ++ ['\n'] =
      fmtD n ++ ' ' :: (fmtD c ++ ' ' :: (fmtD m ++ '\n' :: [])) := by simp
  unfold Sys.loadMDP
  rw [h]
  simp only
  rw [e, split_word (fmtD_word _) (fmtD_ne _) (by decide), split_word (fmtD_word _) (fmtD_ne _) (by decide)]
  simp only [pyInt_fmtD, bind, Except.bind, size_nat, Dok.resize, Dok.zero, List.filter_nil]

/-- position of the first positive stored entry of row `r` -/
def firstAt (M : Sys K) (r : Nat) : Nat := ((M.P.items.filter fun e => 0 < e.2).map fun e => e.1.1).idxOf r

/-- writing and reading an MDP -/
theorem roundtrip_mdp {M : Sys K} (h : Table M) :
    ∃ tra x, M.saveTraMDP = .ok tra ∧ Sys.loadMDP tra = .ok x ∧ Fit x.P ∧ x.P.rows = M.P.rows ∧
      x.P.cols = M.P.cols ∧ (Dict.keys x.idx).Nodup ∧ x.idx.map Prod.snd = List.range M.P.rows ∧ x.labA = [] ∧
      (∀ sa, sa ∈ Dict.keys x.idx ↔ ∃ i < M.P.rows, (sa, i) ∈ M.idx) ∧
      (∀ sa r i, x.idx.get? sa = some r → (sa, i) ∈ M.idx → i < M.P.rows ∧
        ∀ t, x.P.get r t = rnd (M.P.get i t)) ∧
      ∀ sa i, (sa, i) ∈ M.idx → i < M.P.rows →
        x.idx.get? sa = some ((range M.P.rows).filter fun j => firstAt M j < firstAt M i).card := by
  have hpos : ∀ e ∈ M.P.items.filter (fun e => 0 < e.2), 0 ≤ (traM M e).2.2.2 := fun e he =>
    le_of_lt (by simpa [traM] using (List.mem_filter.1 he).2)
  have hrl := readLines_text (h := fmtD M.N ++ ' ' :: fmtD M.C ++ ' ' :: fmtD M.P.items.length)
    (ls := ((M.P.items.filter fun e => 0 < e.2).map (traM M)).map lineM)
    (by simp only [List.mem_append, List.mem_cons, not_or]
        exact ⟨⟨fmtD_plain (by decide), by decide, fmtD_plain (by decide)⟩, by decide, fmtD_plain (by decide)⟩)
    (by simp only [List.mem_append, List.mem_cons, not_or]
        exact ⟨⟨fmtD_plain (by decide), by decide, fmtD_plain (by decide)⟩, by decide, fmtD_plain (by decide)⟩)
    (by intro l hl
        obtain ⟨t, ht, rfl⟩ := List.mem_map.1 hl
        obtain ⟨e, he, rfl⟩ := List.mem_map.1 ht
        exact lineM_plain (hpos e he))
  rw [List.map_map (f := lineM)] at hrl
  simp only [Function.comp_def] at hrl
  -- the lines read
  obtain ⟨ys, hys⟩ : ∃ ys, ys = ((M.P.items.filter fun e => 0 < e.2).map (traM M)).map readM := ⟨_, rfl⟩
  have hmemys : ∀ y, y ∈ ys ↔ ∃ e ∈ M.P.items, 0 < e.2 ∧ readM (traM M e) = y := by
    intro y
    rw [hys]
    simp only [List.mem_map, List.mem_filter, decide_eq_true_eq]
    constructor
    · rintro ⟨_, ⟨e, ⟨he, hp⟩, rfl⟩, rfl⟩; exact ⟨e, he, hp, rfl⟩
    · rintro ⟨e, he, hp, rfl⟩; exact ⟨_, ⟨e, ⟨he, hp⟩, rfl⟩, rfl⟩
  have hpair : ∀ sa, (∃ y ∈ ys, (y.s, y.a) = sa) ↔ ∃ i < M.P.rows, (sa, i) ∈ M.idx := by
    intro sa
    constructor
    · rintro ⟨y, hy, rfl⟩
      obtain ⟨e, he, hp, rfl⟩ := (hmemys y).1 hy
      obtain ⟨h1, _, _, _, _, s, a, h6, _, hi⟩ := h.item he
      exact ⟨e.1.1, h1, by simpa [readM, traM, hi] using h6⟩
    · rintro ⟨i, hi, hm⟩
      obtain ⟨j, hj, hp⟩ := h.pos hi
      have he := mem_of_get_ne (ne_of_gt hp)
      refine ⟨_, (hmemys _).2 ⟨_, he, hp, rfl⟩, ?_⟩
      simp [readM, traM, (invGet?_iff h.vals).2 hm]
  have hcard : (ys.map fun z => (z.s, z.a)).toFinset.card = M.P.rows := by
    have : (ys.map fun z => (z.s, z.a)).toFinset =
        (range M.P.rows).image fun i => (invGet? M.idx i).getD (0, 0) := by
      ext sa
      simp only [List.mem_toFinset, List.mem_map, mem_image, mem_range]
      rw [hpair]
      constructor
      · rintro ⟨i, hi, hm⟩; exact ⟨i, hi, by simp [(invGet?_iff h.vals).2 hm]⟩
      · rintro ⟨i, hi, rfl⟩
        obtain ⟨s, a, hm, -⟩ := h.cover i hi
        exact ⟨i, hi, by simpa [(invGet?_iff h.vals).2 hm] using hm⟩
    rw [this, card_image_of_injOn, card_range]
    intro i hi j hj hij
    simp only [coe_range, Set.mem_Iio] at hi hj
    obtain ⟨s, a, hm, -⟩ := h.cover i hi
    obtain ⟨s', a', hm', -⟩ := h.cover j hj
    simp only [(invGet?_iff h.vals).2 hm, (invGet?_iff h.vals).2 hm', Option.getD_some, Prod.mk.injEq] at hij
    obtain ⟨rfl, rfl⟩ := hij
    have a1 := Dict.get?_of_mem h.keys hm
    have a2 := Dict.get?_of_mem h.keys hm'
    rw [a1] at a2; exact Option.some.inj a2
  obtain ⟨x, x1, x2⟩ := loadLines_ok (K := K) (C := M.P.rows) (N := M.P.cols)
    (((M.P.items.filter fun e => 0 < e.2).map (traM M)).map fun t => lineM t ++ ['\n']) ys [] _ (linv_nil _ _)
    (by
      rw [hys, List.forall₂_map_left_iff, List.forall₂_map_right_iff]
      refine List.forall₂_same.2 ?_
      intro t ht
      obtain ⟨e, he, rfl⟩ := List.mem_map.1 ht
      exact reads_lineM _ (hpos e he))
    (by
      intro y hy
      obtain ⟨e, he, hp, rfl⟩ := (hmemys y).1 hy
      exact (h.item he).2.1) (by simpa using le_of_eq hcard)
  simp only [List.nil_append] at x2
  have hlen : x.idx.length = M.P.rows := by rw [x2.length, hcard]
  refine ⟨_, x, saveTraMDP_ok h, ?_, x2.fit, x2.rows, x2.cols, x2.keys, by rw [x2.vals, hlen], ?_, ?_, ?_, ?_⟩
  · rw [loadMDP_header (n := M.N) (c := M.C) (m := M.P.items.length) hrl]
    exact x1
  · -- no labels
    cases hL : x.labA with
    | nil => rfl
    | cons p d =>
      exfalso
      obtain ⟨l, ss⟩ := p
      -- labA only grows by labels of lines
      have : ∀ (ls : List (List Char)) (ys : List Tra) (x x' : Sys.Loaded K), List.Forall₂ (Reads M.N) ls ys →
          (∀ y ∈ ys, y.lab = none) → ls.foldlM Sys.loadLineMDP x = .ok x' → x'.labA = x.labA := by
        intro ls
        induction ls with
        | nil => intro ys x x' _ _ h; cases h; rfl
        | cons l ls ih =>
          intro ys x x' hf hn hl
          cases hf with
          | @cons _ y _ ys hy hys =>
            simp only [List.foldlM_cons, bind, Except.bind] at hl
            split at hl
            · cases hl
            · rename_i x1 h1
              rw [ih ys x1 x' hys (fun z hz => hn z (by simp [hz])) hl]
              obtain ⟨f1, f2, f3, f4, r, j, hs, g1, g2, ⟨g3, -⟩, g4, g5⟩ := hy
              rw [hn y (by simp)] at g5
              have hr : withLab x.labA r (y.s, y.a) = x.labA := by
                have := withLab_eq x.labA r (y.s, y.a)
                rw [← g5] at this
                exact this
              unfold Sys.loadLineMDP at h1
              rw [hs] at h1
              have hneg : ¬ ((y.s : Int) < 0 ∨ (y.a : Int) < 0) := by omega
              simp only [g1, g2, g3, g4, bind, Except.bind, if_neg hneg, Int.toNat_natCast] at h1
              split at h1
              · split at h1
                · cases h1
                · cases h1; exact hr
              · split at h1
                · cases h1
                · cases h1; exact hr
      have hnil := this _ ys _ _ (by
        rw [hys, List.forall₂_map_left_iff, List.forall₂_map_right_iff]
        refine List.forall₂_same.2 ?_
        intro t ht
        obtain ⟨e, he, rfl⟩ := List.mem_map.1 ht
        exact reads_lineM _ (hpos e he)) (by
        intro y hy
        obtain ⟨e, he, hp, rfl⟩ := (hmemys y).1 hy
        rfl) x1
      rw [hL] at hnil; cases hnil
  · intro sa
    rw [x2.mem, hpair]
  · intro sa r i hr hi
    have hin : i < M.P.rows := by
      have hk : sa ∈ Dict.keys x.idx := by rw [← Dict.get?_isSome, hr]; rfl
      obtain ⟨i', hi', hm⟩ := (hpair sa).1 ((x2.mem sa).1 hk)
      have a1 := Dict.get?_of_mem h.keys hm
      have a2 := Dict.get?_of_mem h.keys hi
      rw [a1] at a2
      rw [← Option.some.inj a2]; exact hi'
    refine ⟨hin, fun t => ?_⟩
    have hinv := (invGet?_iff h.vals).2 hi
    rw [x2.get sa r hr]
    by_cases h0 : 0 < M.P.get i t
    · -- exactly one line
      have he := mem_of_get_ne (ne_of_gt h0)
      have hy : readM (traM M ((i, t), M.P.get i t)) ∈ ys := (hmemys _).2 ⟨_, he, h0, rfl⟩
      obtain ⟨l1, l2, hsplit⟩ := List.append_of_mem hy
      have hkey : (ys.map fun y => ((y.s, y.a), y.t)).Nodup := by
        rw [hys, List.map_map, List.map_map]
        have hnd : (M.P.items.filter fun e => 0 < e.2).Nodup :=
          (List.Nodup.of_map _ h.shape.nodup).filter _
        refine (List.nodup_map_iff_inj_on hnd).2 ?_
        intro e he e' he' heq
        have he := (List.mem_filter.1 he).1
        have he' := (List.mem_filter.1 he').1
        obtain ⟨_, _, _, _, _, s, a, h6, _, hi⟩ := h.item he
        obtain ⟨_, _, _, _, _, s', a', h6', _, hi'⟩ := h.item he'
        simp only [Function.comp, readM, traM, hi, hi', Option.getD_some, Prod.mk.injEq] at heq
        obtain ⟨⟨rfl, rfl⟩, hd⟩ := heq
        have a1 := Dict.get?_of_mem h.keys h6
        have a2 := Dict.get?_of_mem h.keys h6'
        rw [a1] at a2
        exact List.inj_on_of_nodup_map h.shape.nodup he he' (Prod.ext (Option.some.inj a2) hd)
      have hsa : ((readM (traM M ((i, t), M.P.get i t))).s, (readM (traM M ((i, t), M.P.get i t))).a) = sa := by
        simp [readM, traM, hinv]
      have hlast := lastVal_last (l1 := l1) (l2 := l2) (x := readM (traM M ((i, t), M.P.get i t))) (by
        rintro z hz ⟨e1, e2⟩
        rw [hsplit, List.map_append, List.map_cons] at hkey
        have := (List.nodup_cons.1 (List.nodup_append.1 hkey).2.1).1
        exact this (List.mem_map.2 ⟨z, hz, by rw [e1, e2]⟩))
      rw [hsa, ← hsplit] at hlast
      have ht : (readM (traM M ((i, t), M.P.get i t))).t = t := rfl
      rw [ht] at hlast
      rw [hlast]
      exact cast_rnd _
    · have hz : M.P.get i t = 0 := le_antisymm (not_lt.1 h0) (h.entry_nonneg i t)
      rw [hz, rnd_zero, lastVal_of_not_mem]
      · simp
      · rintro y hy ⟨e1, e2⟩
        obtain ⟨e, he, hp, rfl⟩ := (hmemys y).1 hy
        obtain ⟨_, _, h3, _, _, s, a, h6, _, hi'⟩ := h.item he
        simp only [readM, traM, hi', Option.getD_some] at e1 e2
        subst e1 e2
        have a1 := Dict.get?_of_mem h.keys h6
        have a2 := Dict.get?_of_mem h.keys hi
        rw [a1] at a2
        have := Option.some.inj a2
        rw [← this, h3] at hz
        rw [hz] at hp; exact lt_irrefl _ hp
  · intro sa i hm hi
    obtain ⟨E, hE⟩ : ∃ E, E = M.P.items.filter fun e => 0 < e.2 := ⟨_, rfl⟩
    have hfirst : ∀ j, firstAt M j = (E.map fun e => e.1.1).idxOf j := fun j => by rw [hE]; rfl
    have hin : ∀ j < M.P.rows, j ∈ E.map fun e => e.1.1 := by
      intro j hj
      obtain ⟨t, ht, hp⟩ := h.pos hj
      rw [hE]
      exact List.mem_map.2 ⟨_, List.mem_filter.2 ⟨mem_of_get_ne (ne_of_gt hp), by simpa using hp⟩, rfl⟩
    have hitem : ∀ e ∈ E, e.1.1 < M.P.rows ∧ ∀ s a, ((s, a), e.1.1) ∈ M.idx →
        ((readM (traM M e)).s, (readM (traM M e)).a) = (s, a) := by
      intro e he
      rw [hE] at he
      refine ⟨(h.item (List.mem_filter.1 he).1).1, fun s a hsa => ?_⟩
      simp [readM, traM, (invGet?_iff h.vals).2 hsa]
    have hk := List.idxOf_lt_length_iff.2 (hin i hi)
    obtain ⟨k, hkd⟩ : ∃ k, k = (E.map fun e => e.1.1).idxOf i := ⟨_, rfl⟩
    rw [← hkd, List.length_map] at hk
    have hEk : (E[k]).1.1 = i := by
      have := List.getElem_idxOf (xs := E.map fun e => e.1.1) (x := i) (by rw [← hkd, List.length_map]; exact hk)
      simp only [List.getElem_map] at this
      simp only [← hkd] at this
      exact this
    have hsplit : E = E.take k ++ E[k] :: E.drop (k + 1) := by simp
    have hysplit : ys = (E.take k).map (fun e => readM (traM M e)) ++ readM (traM M E[k]) ::
        (E.drop (k + 1)).map (fun e => readM (traM M e)) := by
      rw [hys, List.map_map, ← hE, ← List.map_cons (f := fun e => readM (traM M e)), ← List.map_append, ← hsplit]
      rfl
    have hpk : ((readM (traM M E[k])).s, (readM (traM M E[k])).a) = sa := by
      have := (hitem E[k] (List.getElem_mem hk)).2 sa.1 sa.2 (by rw [hEk]; exact hm)
      exact this
    have hmemtake : ∀ j, j ∈ (E.take k).map (fun e => e.1.1) ↔ j < M.P.rows ∧ firstAt M j < firstAt M i := by
      intro j
      rw [hfirst, hfirst, ← hkd, List.map_take]
      constructor
      · intro hj
        have hjE := List.mem_of_mem_take hj
        obtain ⟨e, he, rfl⟩ := List.mem_map.1 hjE
        exact ⟨(hitem e he).1, (List.mem_take_iff_idxOf_lt hjE).1 hj⟩
      · rintro ⟨h1, h2⟩
        exact (List.mem_take_iff_idxOf_lt (hin j h1)).2 h2
    have hcount := x2.first _ _ _ hysplit (by
      intro z hz
      obtain ⟨e, he, rfl⟩ := List.mem_map.1 hz
      rw [hpk]
      intro heq
      have hrow := (hmemtake e.1.1).1 (List.mem_map.2 ⟨e, he, rfl⟩)
      obtain ⟨s, a, hsa, -⟩ := h.cover e.1.1 hrow.1
      have := (hitem e (List.mem_of_mem_take he)).2 s a hsa
      rw [this] at heq
      subst heq
      have a1 := Dict.get?_of_mem h.keys hsa
      have a2 := Dict.get?_of_mem h.keys hm
      rw [a1] at a2
      have := Option.some.inj a2
      rw [this] at hrow
      exact lt_irrefl _ hrow.2)
    rw [hpk] at hcount
    rw [hcount]
    congr 1
    rw [List.map_map]
    have : ((E.take k).map ((fun z => (z.s, z.a)) ∘ fun e => readM (traM M e))).toFinset =
        ((range M.P.rows).filter fun j => firstAt M j < firstAt M i).image fun j => (invGet? M.idx j).getD (0, 0) := by
      ext sa'
      simp only [List.mem_toFinset, List.mem_map, mem_image, mem_filter, mem_range, Function.comp]
      constructor
      · rintro ⟨e, he, rfl⟩
        exact ⟨e.1.1, (hmemtake e.1.1).1 (List.mem_map.2 ⟨e, he, rfl⟩), rfl⟩
      · rintro ⟨j, hj, rfl⟩
        obtain ⟨e, he, rfl⟩ := List.mem_map.1 ((hmemtake j).2 hj)
        exact ⟨e, he, rfl⟩
    rw [this, card_image_of_injOn]
    intro j hj j' hj' hjj
    simp only [coe_filter, mem_range, Set.mem_ofPred_eq] at hj hj'
    obtain ⟨s, a, hm, -⟩ := h.cover j hj.1
    obtain ⟨s', a', hm', -⟩ := h.cover j' hj'.1
    simp only [(invGet?_iff h.vals).2 hm, (invGet?_iff h.vals).2 hm', Option.getD_some, Prod.mk.injEq] at hjj
    obtain ⟨rfl, rfl⟩ := hjj
    have a1 := Dict.get?_of_mem h.keys hm
    have a2 := Dict.get?_of_mem h.keys hm'
    rw [a1] at a2; exact Option.some.inj a2

end Verif.Proofs.IOTra
