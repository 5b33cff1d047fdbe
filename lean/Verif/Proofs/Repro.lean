import Verif.Props.Mec
import Verif.Proofs.ReduceRF
import Verif.Proofs.RFOK
import Verif.Model.Cli
import Verif.Model.RFInfo
import Verif.Model.Repr
/-!
# Two runs with different random numbers

`Alike`: forms that differ at most in the numbering of their end components.
-/
set_option linter.unusedSectionVars false

namespace Verif.Proofs
open Verif.Model Verif.Spec Verif.Props Finset

/-! ### counting classes -/

theorem card_image_le_of_kernel {A : Finset Nat} {m m' : Nat → Nat} (h : ∀ x ∈ A, ∀ y ∈ A, m' x = m' y → m x = m y) :
    (A.image m).card ≤ (A.image m').card := by
  classical
  have : ∃ g : Nat → Nat, ∀ x ∈ A, g (m' x) = m x := by
    refine ⟨fun v => if k : ∃ x ∈ A, m' x = v then m k.choose else 0, fun x hx => ?_⟩
    have k : ∃ y ∈ A, m' y = m' x := ⟨x, hx, rfl⟩
    simp only [dif_pos k]
    exact h _ k.choose_spec.1 _ hx k.choose_spec.2
  obtain ⟨g, hg⟩ := this
  have : A.image m = (A.image m').image g := by
    ext v
    simp only [mem_image, exists_exists_and_eq_and]
    exact ⟨fun ⟨x, hx, e⟩ => ⟨x, hx, (hg x hx).trans e⟩, fun ⟨x, hx, e⟩ => ⟨x, hx, (hg x hx).symm.trans e⟩⟩
  rw [this]
  exact card_image_le

theorem card_image_eq_of_kernel {A : Finset Nat} {m m' : Nat → Nat} (h : ∀ x ∈ A, ∀ y ∈ A, m x = m y ↔ m' x = m' y) :
    (A.image m).card = (A.image m').card :=
  le_antisymm (card_image_le_of_kernel fun x hx y hy => (h x hx y hy).2) (card_image_le_of_kernel fun x hx y hy => (h x hx y hy).1)

theorem filter_range_length (p : Nat → Bool) (c : Nat) : ((List.range c).filter p).length = ((range c).filter fun v => p v = true).card := by
  rw [← List.countP_eq_length_filter]
  induction c with
  | zero => rfl
  | succ c ih =>
    rw [List.range_succ, List.countP_append, ih, range_add_one, filter_insert]
    by_cases h : p c = true
    · rw [if_pos h, card_insert_of_notMem (by simp)]; simp [h]
    · rw [if_neg h]; simp [h]

/-- what two runs of `maximal_end_components` on the same graph have in common -/
structure SameComponents (n : Nat) (r r' : (Nat → Nat) × (Nat → Bool) × Nat) : Prop where
  cnt : r.2.2 = r'.2.2
  same : ∀ x < n, ∀ y < n, r.1 x = r.1 y ↔ r'.1 x = r'.1 y
  proper : ∀ x < n, r.2.1 (r.1 x) = r'.2.1 (r'.1 x)
  properCount : properCount r = properCount r'

theorem mec_same {K : Type} (g : Graph K) (ρ ρ' : Graph.Rnd) (hn : 0 < g.n) (hg : ∀ x t, t ∈ g.succ x → t.1 < g.n) :
    ∃ r r', g.maximalEndComponents ρ = some r ∧ g.maximalEndComponents ρ' = some r' ∧ SameComponents g.n r r' := by
  obtain ⟨m, p, c, h1, h2, h3, h4, h5⟩ := mec_spec g ρ hn hg
  obtain ⟨m', p', c', h1', h2', h3', h4', h5'⟩ := mec_spec g ρ' hn hg
  have hsame : ∀ x < g.n, ∀ y < g.n, m x = m y ↔ m' x = m' y := by
    intro x hx y hy
    by_cases e : x = y
    · subst e; simp
    · rw [h2 x hx y hy e, h2' x hx y hy e]
  have hproper : ∀ x < g.n, p (m x) = p' (m' x) := by
    intro x hx
    rw [Bool.eq_iff_iff, h5 x hx, h5' x hx]
  have himg : ∀ {m : Nat → Nat} {c : Nat} (q : Nat → Bool), (∀ x < g.n, m x < c) → (∀ v < c, ∃ x < g.n, m x = v) →
      (range c).filter (fun v => q v = true) = ((range g.n).filter fun x => q (m x) = true).image m := by
    intro m c q k1 k2
    ext v
    simp only [mem_filter, mem_range, mem_image]
    constructor
    · rintro ⟨hv, hq⟩
      obtain ⟨x, hx, rfl⟩ := k2 v hv
      exact ⟨x, ⟨hx, hq⟩, rfl⟩
    · rintro ⟨x, ⟨hx, hq⟩, rfl⟩
      exact ⟨k1 x hx, hq⟩
  refine ⟨_, _, h1, h1', ?_, hsame, hproper, ?_⟩
  · have e := himg (fun _ => true) h3 h4
    have e' := himg (fun _ => true) h3' h4'
    simp only [filter_true] at e e'
    show c = c'
    rw [← card_range c, ← card_range c', e, e']
    exact card_image_eq_of_kernel fun x hx y hy => hsame x (mem_range.1 hx) y (mem_range.1 hy)
  · show ((List.range c).filter p).length = ((List.range c').filter p').length
    rw [filter_range_length, filter_range_length, himg p h3 h4, himg p' h3' h4']
    have : (range g.n).filter (fun x => p (m x) = true) = (range g.n).filter fun x => p' (m' x) = true :=
      filter_congr fun x hx => by rw [hproper x (mem_range.1 hx)]
    rw [this]
    refine card_image_eq_of_kernel fun x hx y hy => hsame x ?_ y ?_
    · exact mem_range.1 (mem_filter.1 hx).1
    · exact mem_range.1 (mem_filter.1 hy).1

/-! ### exceptions -/

/-- both raise the same exception, or both return related values -/
inductive ERel {α β : Type} (R : α → β → Prop) : Except Err α → Except Err β → Prop
  | error (e : Err) : ERel R (.error e) (.error e)
  | ok {a : α} {b : β} (h : R a b) : ERel R (.ok a) (.ok b)

namespace ERel
variable {α β γ δ : Type} {R : α → β → Prop} {S : γ → δ → Prop}

theorem bind {x : Except Err α} {y : Except Err β} {f : α → Except Err γ} {g : β → Except Err δ} (h : ERel R x y)
    (hf : ∀ a b, R a b → ERel S (f a) (g b)) : ERel S (x >>= f) (y >>= g) := by
  cases h with
  | error e => exact .error e
  | ok h => exact hf _ _ h

theorem bind_same {x : Except Err α} {f : α → Except Err γ} {g : α → Except Err δ} (hf : ∀ a, x = .ok a → ERel S (f a) (g a)) :
    ERel S (x >>= f) (x >>= g) := by
  cases x with
  | error e => exact .error e
  | ok a => exact hf a rfl

theorem mono {R' : α → β → Prop} {x : Except Err α} {y : Except Err β} (h : ERel R x y) (hR : ∀ a b, R a b → R' a b) : ERel R' x y := by
  cases h with
  | error e => exact .error e
  | ok h => exact .ok (hR _ _ h)

theorem eq {x y : Except Err α} (h : ERel Eq x y) : x = y := by
  cases h with
  | error e => rfl
  | ok h => rw [h]

theorem refl {Q : α → α → Prop} (hQ : ∀ a, Q a a) (x : Except Err α) : ERel Q x x := by
  cases x with
  | error e => exact .error e
  | ok a => exact .ok (hQ a)

theorem get {x : Except Err α} {y : Except Err β} (h : ERel R x y) {a : α} (hx : x = .ok a) : ∃ b, y = .ok b ∧ R a b := by
  cases h with
  | error e => cases hx
  | ok h => cases hx; exact ⟨_, rfl, h⟩

end ERel

/-! ### forms -/

variable {K : Type} [Field K] [LinearOrder K] [IsStrictOrderedRing K]

/-- what the constructor of a system ensures about its graph -/
structure GraphOK (M : Sys K) : Prop where
  graph : Graph.build M.N (invGet? M.idx) M.P.items (Graph.empty M.N) = .ok M.graph
  keys : (M.idx.map Prod.fst).Nodup
  vals : (M.idx.map Prod.snd).Nodup
  pos : 0 < M.C → 0 < M.N

/-- forms that differ at most in the numbers of their end components -/
structure Alike (x y : RF K) : Prop where
  sys : x.sys = y.sys
  initial : x.initial = y.initial
  initL : x.initL = y.initL
  targetL : x.targetL = y.targetL
  failL : x.failL = y.failL
  idx : x.idx = y.idx
  nmec : x.nmec = y.nmec
  same : ∀ s < x.sys.N, ∀ t < x.sys.N, x.mec s = x.mec t ↔ y.mec s = y.mec t
  proper : ∀ s < x.sys.N, x.inProperEC s = y.inProperEC s
  nproper : ((List.range x.nmec).filter x.proper).length = ((List.range y.nmec).filter y.proper).length
  rows : ∀ i < x.sys.C - 2, ∀ sa, invGet? x.idx i = some sa → sa.1 < x.sys.N - 2
  ok : GraphOK x.sys
  pos : 0 < x.sys.N

theorem vals_set {α β : Type} [DecidableEq α] [DecidableEq β] {k : α} {v : β} : ∀ {d : Dict α β}, (d.map Prod.snd).Nodup →
    v ∉ d.map Prod.snd → ((d.set k v).map Prod.snd).Nodup ∧ ∀ w ∈ (d.set k v).map Prod.snd, w = v ∨ w ∈ d.map Prod.snd
  | [], _, _ => by simp [Dict.set]
  | (a, b) :: d, hn, hv => by
    simp only [List.map_cons, List.nodup_cons, List.mem_cons, not_or] at hn hv
    obtain ⟨h1, h2⟩ := vals_set (k := k) hn.2 hv.2
    unfold Dict.set
    split
    · simp only [List.map_cons, List.nodup_cons, List.mem_cons]
      exact ⟨⟨hv.2, hn.2⟩, fun w hw => hw.imp id .inr⟩
    · simp only [List.map_cons, List.nodup_cons, List.mem_cons]
      refine ⟨⟨fun h => ?_, h1⟩, fun w hw => ?_⟩
      · rcases h2 _ h with h | h
        · exact hv.1 h.symm
        · exact hn.1 h
      · rcases hw with h | h
        · exact .inr (.inl h)
        · exact (h2 w h).imp id .inr

theorem mkBidict_nodup {α β : Type} [DecidableEq α] [DecidableEq β] {d d' : Dict α β} (h : mkBidict d = .ok d') :
    (d'.map Prod.fst).Nodup ∧ (d'.map Prod.snd).Nodup := by
  have key : ∀ (l acc : Dict α β), (acc.map Prod.fst).Nodup → (acc.map Prod.snd).Nodup →
      l.foldlM (fun acc kv => bput acc kv.1 kv.2) acc = .ok d' → (d'.map Prod.fst).Nodup ∧ (d'.map Prod.snd).Nodup := by
    intro l
    induction l with
    | nil => intro acc h1 h2 h3; cases h3; exact ⟨h1, h2⟩
    | cons e l ih =>
      intro acc h1 h2 h3
      rw [List.foldlM_cons] at h3
      obtain ⟨acc', k1, k2⟩ := bind_ok h3
      unfold bput at k1
      cases hg : invGet? acc e.2 with
      | none =>
        rw [hg] at k1
        cases k1
        exact ih _ (Dict.nodup_set h1 _ _) (vals_set h2 (invGet?_eq_none.1 hg)).1 k2
      | some k' =>
        rw [hg] at k1
        simp only at k1
        split at k1
        · cases k1; exact ih _ h1 h2 k2
        · cases k1
  exact key d [] (by simp) (by simp) h

theorem GraphOK.of_make {d : Bool} {P : Dok K} {idx : Dict (Nat × Nat) Nat} {la : IDict String (Nat × Nat)} {ls : IDict String Nat}
    {rew : Option (List K)} {M : Sys K} (h : Sys.make d P idx la ls rew = .ok M) : GraphOK M := by
  unfold Sys.make at h
  obtain ⟨idx', h1, h⟩ := bind_ok h
  obtain ⟨u, h2, h⟩ := bind_ok h
  obtain ⟨g, h3, h⟩ := bind_ok h
  cases h
  obtain ⟨hk, hv⟩ := mkBidict_nodup h1
  refine ⟨h3, hk, hv, fun hC => ?_⟩
  show 0 < P.cols
  have hC : 0 < P.rows := hC
  by_contra hN
  have hN : P.cols = 0 := by omega
  have hit : P.items = [] := by
    by_contra hne
    obtain ⟨e, he⟩ := List.exists_mem_of_ne_nil _ hne
    obtain ⟨-, -, -, hr⟩ := build_spec P.items _ _ h3
    obtain ⟨s, a, -, -, k⟩ := hr _ he
    simp only [hN] at k
    omega
  unfold Sys.checkCorrectness at h2
  by_cases hs : ∀ i < P.rows, Sys.roundsToOne (P.rowSum i)
  · have := hs 0 hC
    unfold Sys.roundsToOne Dok.rowSum at this
    rw [hit] at this
    norm_num at this
  · rw [if_neg hs] at h2; cases h2

theorem GraphOK.of_remake {d : Bool} {P : Dok K} {idx : Dict (Nat × Nat) Nat} {la : IDict String (Nat × Nat)} {ls : IDict String Nat}
    {rew : Option (List K)} {M : Sys K} (h : Sys.remake d P idx la ls rew = .ok M) : GraphOK M := by
  unfold Sys.remake Sys.makeMDP at h
  cases d with
  | false => exact .of_make h
  | true =>
    rw [if_pos rfl] at h
    unfold Sys.makeDTMC at h
    by_cases c1 : P.rows = P.cols
    · rw [if_pos c1] at h
      simp only at h
      by_cases c2 : ∀ e ∈ idx, e.1.2 = 0
      · rw [if_pos c2] at h; exact .of_make h
      · rw [if_neg c2] at h; cases h
    · rw [if_neg c1] at h; cases h

theorem make_alike {M : Sys K} (hM : GraphOK M) (ρ ρ' : Graph.Rnd) (il tl fl : String) (ig : Bool) :
    ERel Alike (RF.make ρ M il tl fl ig) (RF.make ρ' M il tl fl ig) := by
  have key : ∀ i, ERel Alike
      (do
        let d1 ← delInv M.idx (M.C - 2)
        let d2 ← delInv d1 (M.C - 1)
        if ∀ i < M.C - 2, (invGet? d2 i).isSome then
          if ∀ i < M.C - 2, ∀ sa, invGet? d2 i = some sa → sa.1 < M.N - 2 then
            match M.graph.maximalEndComponents ρ with
            | none => .error .indexError
            | some (mec, proper, cnt) => .ok (⟨M, i, il, tl, fl, d2, mec, proper, cnt⟩ : RF K)
          else .error .indexError
        else .error .keyError)
      (do
        let d1 ← delInv M.idx (M.C - 2)
        let d2 ← delInv d1 (M.C - 1)
        if ∀ i < M.C - 2, (invGet? d2 i).isSome then
          if ∀ i < M.C - 2, ∀ sa, invGet? d2 i = some sa → sa.1 < M.N - 2 then
            match M.graph.maximalEndComponents ρ' with
            | none => .error .indexError
            | some (mec, proper, cnt) => .ok (⟨M, i, il, tl, fl, d2, mec, proper, cnt⟩ : RF K)
          else .error .indexError
        else .error .keyError) := by
    intro i
    refine ERel.bind_same fun d1 hd1 => ERel.bind_same fun d2 hd2 => ?_
    by_cases c1 : ∀ i < M.C - 2, (invGet? d2 i).isSome = true
    · rw [if_pos c1, if_pos c1]
      by_cases c2 : ∀ i < M.C - 2, ∀ sa, invGet? d2 i = some sa → sa.1 < M.N - 2
      · rw [if_pos c2, if_pos c2]
        have hC : 0 < M.C := by
          by_contra hC
          have hC : M.C = 0 := by omega
          rw [hC] at hd1 hd2
          obtain ⟨k1, k2, -, k3⟩ := delInv_ok hM.keys hM.vals hd1
          obtain ⟨-, -, k4, -⟩ := delInv_ok k1 k2 hd2
          obtain ⟨e, he, he'⟩ := List.mem_map.1 k4
          exact ((k3 e).1 he).2 he'
        obtain ⟨hgn, hg, -⟩ := build_range hM.graph
        obtain ⟨⟨m, p, c⟩, ⟨m', p', c'⟩, e1, e2, h⟩ := mec_same M.graph ρ ρ' (by rw [hgn]; exact hM.pos hC) hg
        rw [e1, e2]
        rw [hgn] at h
        exact .ok ⟨rfl, rfl, rfl, rfl, rfl, rfl, h.cnt, h.same, h.proper, h.properCount, c2, hM, hM.pos hC⟩
      · rw [if_neg c2, if_neg c2]; exact .error _
    · rw [if_neg c1, if_neg c1]; exact .error _
  unfold RF.make
  cases ig with
  | true =>
    cases hl : M.statesByLabel il with
    | error e => exact .error e
    | ok is =>
      cases is with
      | nil => exact .error _
      | cons i is => exact key i
  | false =>
    cases hc : M.assertConsistency il tl fl with
    | error e => exact .error e
    | ok u =>
      cases hl : M.statesByLabel il with
      | error e => exact .error e
      | ok is =>
        cases is with
        | nil => exact .error _
        | cons i is => exact key i

/-- two results of `reduce` -/
structure ReduceAlike (r r' : Reduce.Result K) : Prop where
  rf : Alike r.rf r'.rf
  cols : r.cols = r'.cols
  rows : r.rows = r'.rows

theorem reduce_alike (M : Sys K) (ρ ρ' : Graph.Rnd) (il tl ntl nfl : String) :
    ERel ReduceAlike (M.reduce ρ il tl ntl nfl) (M.reduce ρ' il tl ntl nfl) := by
  have key : ∀ (T : List Nat) (i : Nat), ERel ReduceAlike
      (do
        let bwd ← M.reachableMask T false []
        let fwd ← M.reachableMask [i] true T
        let mask := (List.range M.N).map fun s => bwd.getD s false && fwd.getD s false
        let (cols, rows) ← Reduce.maps M mask
        let P ← Reduce.newP M T cols rows
        let index ← Reduce.newIndex rows
        let sys ← Reduce.initializeSystem P index (Reduce.toTarget T rows) rows M ntl nfl
        let rf ← RF.make ρ sys il ntl nfl true
        .ok (⟨rf, cols, rows⟩ : Reduce.Result K))
      (do
        let bwd ← M.reachableMask T false []
        let fwd ← M.reachableMask [i] true T
        let mask := (List.range M.N).map fun s => bwd.getD s false && fwd.getD s false
        let (cols, rows) ← Reduce.maps M mask
        let P ← Reduce.newP M T cols rows
        let index ← Reduce.newIndex rows
        let sys ← Reduce.initializeSystem P index (Reduce.toTarget T rows) rows M ntl nfl
        let rf ← RF.make ρ' sys il ntl nfl true
        .ok (⟨rf, cols, rows⟩ : Reduce.Result K)) := by
    intro T i
    refine ERel.bind_same fun bwd _ => ERel.bind_same fun fwd _ => ERel.bind_same fun cr _ => ERel.bind_same fun P _ =>
      ERel.bind_same fun index _ => ERel.bind_same fun sys hsys => ?_
    have hs : GraphOK sys := by
      unfold Reduce.initializeSystem at hsys
      obtain ⟨i1, -, h⟩ := bind_ok hsys
      obtain ⟨i2, -, h⟩ := bind_ok h
      obtain ⟨l, -, h⟩ := bind_ok h
      exact .of_remake h
    exact (make_alike hs ρ ρ' il ntl nfl true).bind fun a b h => .ok ⟨h, rfl, rfl⟩
  unfold Sys.reduce
  by_cases c1 : ntl ∈ M.labS.d.keys ∨ nfl ∈ M.labS.d.keys
  · simp only [if_pos c1]; exact .error _
  · simp only [if_neg c1]
    cases hT : M.statesByLabel tl with
    | error e => exact .error e
    | ok T =>
      refine ERel.bind_same fun _ _ => ?_
      refine ERel.bind_same fun T' hT' => ?_
      cases hT'
      by_cases c2 : T = []
      · simp only [if_pos c2]; exact .error _
      · simp only [if_neg c2]
        cases hl : M.statesByLabel il with
        | error e => exact .error e
        | ok is =>
          match is with
          | [] => exact .error _
          | [i] => exact key T i
          | _ :: _ :: _ => exact .error _

/-- two `Subsystem` objects -/
structure SubAlike (x y : Subsystem K) : Prop where
  rf : Alike x.rf y.rf
  cert : x.cert = y.cert
  mode : x.mode = y.mode
  ignore : x.ignore = y.ignore

theorem mkSub_alike {x y : RF K} (h : Alike x y) (c : List K) (m : Mode) (ig : Bool) :
    ERel SubAlike (Subsystem.make x c m ig) (Subsystem.make y c m ig) := by
  unfold Subsystem.make
  rw [h.sys]
  cases m with
  | max =>
    by_cases e : c.length = y.sys.C - 2
    · simp only [if_pos e]; exact .ok ⟨h, rfl, rfl, rfl⟩
    · simp only [if_neg e]; exact .error _
  | min =>
    by_cases e : c.length = y.sys.N - 2
    · simp only [if_pos e]; exact .ok ⟨h, rfl, rfl, rfl⟩
    · simp only [if_neg e]; exact .error _

theorem mask_alike {x y : Subsystem K} (h : SubAlike x y) : x.mask = y.mask := by
  unfold Subsystem.mask
  rw [h.mode, h.cert, h.rf.sys]

structure SubResAlike (r r' : Subsystem.Result K) : Prop where
  rf : Alike r.rf r'.rf
  labT : r.labT = r'.labT

theorem subsys_alike {x y : Subsystem K} (h : SubAlike x y) (ρ ρ' : Graph.Rnd) : ERel SubResAlike (x.subsys ρ) (y.subsys ρ') := by
  unfold Subsystem.subsys
  rw [mask_alike h, h.rf.sys, h.rf.targetL, h.rf.failL, h.rf.initL, h.ignore]
  refine ERel.bind_same fun m _ => ERel.bind_same fun l _ => ERel.bind_same fun st _ => ERel.bind_same fun i1 _ => ERel.bind_same fun i2 _ => ?_
  have hm : Subsystem.matrix x.rf m i2 st.newC = Subsystem.matrix y.rf m i2 st.newC := by
    unfold Subsystem.matrix
    have : Subsystem.tailStep x.rf m i2 = Subsystem.tailStep y.rf m i2 := by
      unfold Subsystem.tailStep RF.b
      rw [h.rf.sys]
    rw [h.rf.sys, this]
  rw [hm]
  refine ERel.bind_same fun P _ => ERel.bind_same fun M' hM' => ?_
  exact (make_alike (.of_remake hM') ρ ρ' _ _ _ _).bind fun a b k => .ok ⟨k, rfl⟩

/-! ### answers -/

namespace Alike
variable {x y : RF K} (h : Alike x y)
include h

theorem symm : Alike y x := by
  have e := h.sys
  refine ⟨e.symm, h.initial.symm, h.initL.symm, h.targetL.symm, h.failL.symm, h.idx.symm, h.nmec.symm, ?_, ?_, h.nproper.symm, ?_, e ▸ h.ok, e ▸ h.pos⟩
  · rw [← e]; exact fun s hs t ht => (h.same s hs t ht).symm
  · rw [← e]; exact fun s hs => (h.proper s hs).symm
  · rw [← e, ← h.idx]; exact h.rows

theorem A_eq : x.A = y.A := by
  funext i j
  unfold RF.A RF.rowState RF.P
  rw [h.sys, h.idx]

theorem b_eq : x.b = y.b := by
  funext i
  unfold RF.b
  rw [h.sys]

theorem delta_eq : x.delta = y.delta := by
  funext i
  unfold RF.delta
  rw [h.initial]

theorem N_eq : x.N = y.N := by unfold RF.N; rw [h.sys]

theorem C_eq : x.C = y.C := by unfold RF.C; rw [h.sys]

theorem rowState_eq : x.rowState = y.rowState := by funext i; unfold RF.rowState; rw [h.idx]

theorem farkZ (t : K) : x.farkZ t = y.farkZ t := by
  unfold RF.farkZ
  rw [h.initial, h.N_eq, h.C_eq, h.A_eq, h.delta_eq, h.b_eq]

theorem farkY (t : K) : x.farkY t = y.farkY t := by
  unfold RF.farkY
  rw [h.initial, h.N_eq, h.C_eq, h.A_eq, h.delta_eq, h.b_eq]

theorem ec {s : Nat} (hs : s < x.N) : x.inProperEC s = y.inProperEC s := h.proper s (by unfold RF.N at hs; omega)

theorem isEcFree : x.isEcFree = y.isEcFree := by unfold RF.isEcFree; rw [h.nproper]

theorem maxZLP : x.maxZLP = y.maxZLP := by
  unfold RF.maxZLP
  rw [h.farkZ, ← h.N_eq]
  have : ((List.range x.N).flatMap fun s =>
      if x.inProperEC s then [([(s, (1 : K))], CSense.eq, (0 : K))] else [([(s, 1)], .ge, 0), ([(s, 1)], .le, 1)]) =
      (List.range x.N).flatMap fun s =>
      if y.inProperEC s then [([(s, 1)], .eq, 0)] else [([(s, 1)], .ge, 0), ([(s, 1)], .le, 1)] := by
    refine List.flatMap_congr fun s hs => ?_
    rw [h.ec (List.mem_range.1 hs)]
  rw [this]

theorem maxYLP : x.maxYLP = y.maxYLP := by
  unfold RF.maxYLP
  rw [h.farkY, h.C_eq, h.b_eq]

theorem prMaxLP : x.prMaxLP = y.prMaxLP := by
  unfold RF.prMaxLP
  rw [h.farkZ, h.N_eq]

theorem maxZStateAction : x.maxZStateAction = y.maxZStateAction := by
  funext v i
  unfold RF.maxZStateAction RF.P
  rw [h.N_eq, h.b_eq, h.sys]

theorem maxYState : x.maxYState = y.maxYState := by
  funext v
  unfold RF.maxYState
  rw [h.C_eq, h.rowState_eq, h.delta_eq]

theorem constraintSet (mode : Mode) (sense : Sense) (t : K) : constraintSet x mode sense t = Model.constraintSet y mode sense t := by
  unfold Model.constraintSet
  rw [h.farkY, h.farkZ]

/-- the number of columns of the constraint system -/
theorem cols_lt {mode : Mode} {sense : Sense} {t : K} {m : Mat K × List K} (hm : Model.constraintSet x mode sense t = .ok m)
    {i : Nat} (hi : i < m.1.cols) (hmode : mode = .min) :
    ∀ s, (if sense.isLe then x.rowState i else some i) = some s → s < x.N := by
  subst hmode
  have hz : ∀ {m : Mat K × List K}, x.farkZ t = .ok m → m.1.cols = x.N := by
    intro m hm
    unfold RF.farkZ at hm
    split at hm
    · cases hm; rfl
    · cases hm
  have hy : ∀ {m : Mat K × List K}, x.farkY t = .ok m → m.1.cols = x.C := by
    intro m hm
    unfold RF.farkY at hm
    split at hm
    · cases hm; rfl
    · cases hm
  intro s hs
  unfold Model.constraintSet at hm
  cases e : sense.isLe with
  | true =>
    rw [e] at hm hs
    rw [hy hm] at hi
    rw [if_pos rfl] at hs
    unfold RF.rowState at hs
    cases e2 : invGet? x.idx i with
    | none => rw [e2] at hs; cases hs
    | some sa =>
      rw [e2] at hs
      cases hs
      exact h.rows i hi sa e2
  | false =>
    rw [e] at hm hs
    rw [hz hm] at hi
    cases hs
    exact hi

theorem ecCheck {mode : Mode} {sense : Sense} (v : List K) : ∀ {is : List Nat},
    (mode = .min → ∀ i ∈ is, ∀ s, (if sense.isLe then x.rowState i else some i) = some s → s < x.N) →
    ecCheck x mode sense v is = Model.ecCheck y mode sense v is
  | [], _ => rfl
  | i :: is, hs => by
    cases mode with
    | max => rfl
    | min =>
      unfold Model.ecCheck
      have ih := ecCheck v (mode := .min) (sense := sense) (is := is) fun e i hi => hs e i (List.mem_cons_of_mem _ hi)
      have h0 := hs rfl i List.mem_cons_self
      rw [← h.rowState_eq]
      simp only
      cases e : (if sense.isLe = true then x.rowState i else some i) with
      | none => rfl
      | some s =>
        simp only
        rw [h.ec (h0 s e), ih]

theorem check (mode : Mode) (sense : Sense) (t : K) (v : List K) (tol : K) : check x mode sense t v tol = Model.check y mode sense t v tol := by
  unfold Model.check
  by_cases ht : 0 ≤ t ∧ t ≤ 1
  · rw [if_pos ht, if_pos ht, ← h.constraintSet]
    cases hm : Model.constraintSet x mode sense t with
    | error e => rfl
    | ok m =>
      have := h.ecCheck (mode := mode) (sense := sense) v (is := List.range m.1.cols) fun e i hi => h.cols_lt hm (List.mem_range.1 hi) e
      obtain ⟨m, rhs⟩ := m
      simp only [bind, Except.bind]
      simp only at this
      rw [this]
  · rw [if_neg ht, if_neg ht]

theorem zeroVars {mode : Mode} {sense : Sense} {t : K} {m : Mat K × List K} (hm : Model.constraintSet x mode sense t = .ok m) :
    zeroVars x mode sense m.1.cols = Model.zeroVars y mode sense m.1.cols := by
  have hc := fun i hi => h.cols_lt hm (i := i) hi
  unfold Model.zeroVars
  cases mode with
  | max => rfl
  | min =>
    simp only
    cases e : sense.isLe with
    | true =>
      rw [e] at hc
      have : ∀ (is : List Nat) (acc : List Nat), (∀ i ∈ is, i < m.1.cols) →
          is.foldlM (fun acc i => match x.rowState i with
            | none => Except.error Err.keyError
            | some s => .ok (if x.inProperEC s = true then acc ++ [s] else acc)) acc =
          is.foldlM (fun acc i => match y.rowState i with
            | none => Except.error Err.keyError
            | some s => .ok (if y.inProperEC s = true then acc ++ [s] else acc)) acc := by
        intro is
        induction is with
        | nil => intros; rfl
        | cons i is ih =>
          intro acc hi
          rw [List.foldlM_cons, List.foldlM_cons, ← h.rowState_eq]
          cases e2 : x.rowState i with
          | none => rfl
          | some s =>
            simp only
            rw [h.ec (hc i (hi i List.mem_cons_self) rfl s (by rw [if_pos rfl]; exact e2))]
            have := ih (if y.inProperEC s = true then acc ++ [s] else acc) fun j hj => hi j (List.mem_cons_of_mem _ hj)
            simp only [bind, Except.bind]
            rw [this]
            simp only [h.rowState_eq]
      exact this _ _ fun i hi => List.mem_range.1 hi
    | false =>
      rw [e] at hc
      simp only [Bool.false_eq_true, if_false]
      congr 1
      refine List.filter_congr fun s hs => ?_
      exact h.ec (hc s (List.mem_range.1 hs) rfl s rfl)

theorem generateLP (mode : Mode) (sense : Sense) (t : K) : generateLP x mode sense t = Model.generateLP y mode sense t := by
  unfold Model.generateLP
  by_cases ht : 0 ≤ t ∧ t ≤ 1
  · rw [if_pos ht, if_pos ht, ← h.constraintSet]
    cases hm : Model.constraintSet x mode sense t with
    | error e => rfl
    | ok m =>
      show (Model.zeroVars x mode sense m.1.cols >>= _) = (Model.zeroVars y mode sense m.1.cols >>= _)
      rw [h.zeroVars hm]
  · rw [if_neg ht, if_neg ht]

theorem generate (solver : Milp K → Except Err (List K)) (mode : Mode) (sense : Sense) (t tol : K) :
    generate solver x mode sense t tol = Model.generate solver y mode sense t tol := by
  unfold Model.generate
  rw [h.generateLP]
  simp only [h.check]

end Alike

/-! ### problems -/

theorem mapM_congr_mem {α β : Type} {f g : α → Except Err β} : ∀ {l : List α}, (∀ a ∈ l, f a = g a) → l.mapM f = l.mapM g
  | [], _ => rfl
  | a :: l, h => by
    rw [List.mapM_cons, List.mapM_cons, h a List.mem_cons_self, mapM_congr_mem fun b hb => h b (List.mem_cons_of_mem _ hb)]

section
variable {σ σ' : Type}

/-- forms for which the methods in `switss/problem` compute the same -/
structure FormAlike (R : σ → σ' → Prop) (f : Form σ K) (f' : Form σ' K) : Prop where
  sys : f.sys = f'.sys
  idx : f.idx = f'.idx
  hasIdx : f.hasIdx = f'.hasIdx
  fark : f.fark = f'.fark
  isEcFree : f.isEcFree = f'.isEcFree
  isRF : f.isRF = f'.isRF
  ec : ∀ s < f.sys.N - 2, f.inProperEC s = f'.inProperEC s
  sub : ∀ c m, ERel R (f.mkSub c m) (f'.mkSub c m)

theorem Alike.form {x y : RF K} (h : Alike x y) : FormAlike SubAlike x.form y.form where
  sys := h.sys
  idx := h.idx
  hasIdx := rfl
  fark := by
    funext t m
    cases m with
    | min => exact h.farkZ t
    | max => exact h.farkY t
  isEcFree := h.isEcFree
  isRF := rfl
  ec s hs := h.ec hs
  sub c m := mkSub_alike h c m false

/-- two results -/
structure ResultAlike (R : σ → σ' → Prop) (r : ProblemResult σ K) (r' : ProblemResult σ' K) : Prop where
  status : r.status = r'.status
  value : r.value = r'.value
  cert : r.cert = r'.cert
  subsystem : Option.Rel R r.subsystem r'.subsystem

/-- the same number of results, alike one by one, and the same exception at the end -/
def RunAlike (R : σ → σ' → Prop) (r : Run σ K) (r' : Run σ' K) : Prop :=
  List.Forall₂ (ResultAlike R) r.1 r'.1 ∧ r.2 = r'.2

namespace FormAlike
variable {R : σ → σ' → Prop} {f : Form σ K} {f' : Form σ' K} (h : FormAlike R f f')
include h

theorem certSize (m : Mode) : f.certSize m = f'.certSize m := by
  unfold Form.certSize; rw [h.sys]

theorem groups (mode : Mode) (labels : Option (List String)) (ga : Bool) :
    groupsFromLabels f mode labels ga = groupsFromLabels f' mode labels ga := by
  have h1 : groupsByState f = groupsByState f' := by
    unfold groupsByState; rw [h.certSize, h.hasIdx, h.idx]
  have h2 : groupsMin f = groupsMin f' := by
    funext l; unfold groupsMin; rw [h.sys]
  have h3 : groupsMax f = groupsMax f' := by
    funext l; unfold groupsMax; rw [h.sys]
  unfold groupsFromLabels
  rw [h1, h2, h3, h.certSize, h.certSize]

theorem bounds (mode : Mode) (ub : Option (List K)) :
    (List.range (f'.certSize mode)).mapM (varBound f mode ub) = (List.range (f'.certSize mode)).mapM (varBound f' mode ub) := by
  refine mapM_congr_mem fun j hj => ?_
  rw [List.mem_range, ← h.certSize] at hj
  unfold varBound
  cases mode with
  | min => rw [h.ec j hj]
  | max => rfl

theorem constructMILP (lpSolver : Milp K → Answer K) (t : K) (mode : Mode) (labels : Option (List String)) (relaxed : Bool)
    (known : Option (List K)) (be : Backend) :
    constructMILP f lpSolver t mode labels relaxed known be = Model.constructMILP f' lpSolver t mode labels relaxed known be := by
  unfold Model.constructMILP
  have h1 : ∀ m rhs, chooseBounds f lpSolver mode m rhs known = chooseBounds f' lpSolver mode m rhs known := by
    intro m rhs; unfold chooseBounds; rw [h.isRF, h.certSize, h.isEcFree]
  have h2 : ∀ m rhs ub, buildMILP f mode labels relaxed be m rhs ub = buildMILP f' mode labels relaxed be m rhs ub := by
    intro m rhs ub; unfold buildMILP; simp only [h.groups, h.certSize, h.bounds]
  rw [h.fark]
  simp only [h1, h2]

theorem milpExact (lpSolver solver : Milp K → Answer K) (t : K) (mode : Mode) (labels : Option (List String)) (be : Backend) :
    RunAlike R (milpExact f lpSolver solver t mode labels be) (Model.milpExact f' lpSolver solver t mode labels be) := by
  unfold Model.milpExact
  rw [h.constructMILP]
  cases Model.constructMILP f' lpSolver t mode labels false none be with
  | error e => exact ⟨.nil, rfl⟩
  | ok o =>
    cases o with
    | none => exact ⟨.cons ⟨rfl, rfl, rfl, .none⟩ .nil, rfl⟩
    | some m =>
      obtain ⟨m, ind⟩ := m
      simp only
      by_cases e : (solver m).status = .optimal
      · rw [if_pos e, if_pos e, h.certSize]
        have := h.sub ((solver m).vec.take (f'.certSize mode)) mode
        revert this
        generalize f.mkSub _ _ = a
        generalize f'.mkSub _ _ = b
        intro this
        cases this with
        | error e => exact ⟨.nil, rfl⟩
        | ok k => exact ⟨.cons ⟨rfl, rfl, rfl, .some k⟩ .nil, rfl⟩
      · rw [if_neg e, if_neg e]
        exact ⟨.cons ⟨rfl, rfl, rfl, .none⟩ .nil, rfl⟩

theorem qsLoop (solver : Nat → Milp K → Answer K) (mode : Mode) (upd : Updater K) : ∀ (n : Nat) (m : Milp K) (obj : List (Nat × K)),
    RunAlike R (qsLoop f solver mode upd n m obj) (Model.qsLoop f' solver mode upd n m obj)
  | 0, _, _ => ⟨.nil, rfl⟩
  | n + 1, m, obj => by
    unfold Model.qsLoop
    cases m.setObjective obj with
    | error e => exact ⟨.nil, rfl⟩
    | ok m =>
      simp only
      by_cases e : (solver n m).status = .optimal
      · rw [if_pos e, if_pos e, h.certSize]
        have := h.sub ((solver n m).vec.take (f'.certSize mode)) mode
        revert this
        generalize f.mkSub _ _ = a
        generalize f'.mkSub _ _ = b
        intro this
        cases this with
        | error e => exact ⟨.nil, rfl⟩
        | ok k =>
          simp only
          generalize (do
            let obj' ← upd.update (solver n m).vec
            let cs ← upd.constraints (solver n m).vec
            let m' ← m.addConstraints cs
            Except.ok (m', obj') : Except Err (Milp K × List (Nat × K))) = z
          cases z with
          | error e => exact ⟨.cons ⟨rfl, rfl, rfl, .some k⟩ .nil, rfl⟩
          | ok z =>
            obtain ⟨ih1, ih2⟩ := qsLoop solver mode upd n z.1 z.2
            exact ⟨.cons ⟨rfl, rfl, rfl, .some k⟩ ih1, ih2⟩
      · rw [if_neg e, if_neg e]
        exact ⟨.cons ⟨rfl, rfl, rfl, .none⟩ .nil, rfl⟩

theorem qsHeur (lpSolver : Milp K → Answer K) (solver : Nat → Milp K → Answer K) (n : Nat)
    (ini : List (Nat × List Nat) → Except Err (List (Nat × K))) (upd : List (Nat × List Nat) → Updater K)
    (t : K) (mode : Mode) (labels : Option (List String)) (be : Backend) :
    RunAlike R (qsHeur f lpSolver solver n ini upd t mode labels be) (Model.qsHeur f' lpSolver solver n ini upd t mode labels be) := by
  unfold Model.qsHeur
  rw [h.constructMILP]
  cases Model.constructMILP f' lpSolver t mode labels true none be with
  | error e => exact ⟨.nil, rfl⟩
  | ok o =>
    cases o with
    | none => exact ⟨.cons ⟨rfl, rfl, rfl, .none⟩ .nil, rfl⟩
    | some m =>
      obtain ⟨m, ind⟩ := m
      simp only
      cases ini ind with
      | error e => exact ⟨.nil, rfl⟩
      | ok obj => exact h.qsLoop solver mode (upd ind) n m obj

theorem solveIter {r : Run σ K} {r' : Run σ' K} (hr : RunAlike R r r') (t : K) : RunAlike R (solveIter f t r) (Model.solveIter f' t r') := by
  unfold Model.solveIter
  rw [h.isRF]
  split
  · split
    · exact hr
    · exact ⟨.nil, rfl⟩
  · exact ⟨.nil, rfl⟩

end FormAlike

theorem RunAlike.solveLast {R : σ → σ' → Prop} {r : Run σ K} {r' : Run σ' K} (h : RunAlike R r r') :
    ERel (ResultAlike R) (solveLast r) (Model.solveLast r') := by
  obtain ⟨rs, e⟩ := r
  obtain ⟨rs', e'⟩ := r'
  obtain ⟨h1, h2⟩ := h
  cases h2
  unfold Model.solveLast
  cases e with
  | some e => exact .error e
  | none =>
    simp only at h1 ⊢
    have : Option.Rel (ResultAlike R) rs.getLast? rs'.getLast? := by
      rw [← List.head?_reverse, ← List.head?_reverse]
      have := List.forall₂_reverse_iff.2 h1
      generalize rs.reverse = a at this
      generalize rs'.reverse = b at this
      cases this with
      | nil => exact .none
      | cons k _ => exact .some k
    generalize rs.getLast? = a at this
    generalize rs'.getLast? = b at this
    cases this with
    | none => exact .error _
    | some k => exact .ok k

end

/-! ### initializers, pictures, texts -/

namespace Alike
variable {x y : RF K} (h : Alike x y)
include h

theorem reachVector (m : Mode) : reachVector x m = Model.reachVector y m := by
  funext v; unfold Model.reachVector; rw [h.N_eq, h.C_eq, h.maxZStateAction]

theorem freqVector (m : Mode) : freqVector x m = Model.freqVector y m := by
  funext v; unfold Model.freqVector; rw [h.N_eq, h.C_eq, h.maxYState]

theorem combinedVector (m : Mode) : combinedVector x m = Model.combinedVector y m := by
  funext v w; unfold Model.combinedVector; rw [h.reachVector, h.freqVector]

theorem repr : Repr.rf x = Repr.rf y := by
  unfold Repr.rf; rw [h.initL, h.targetL, h.failL, h.sys]

theorem nrOfMecs : x.nrOfMecs = y.nrOfMecs := by unfold RF.nrOfMecs; rw [h.nmec]

theorem nrOfProperMecs : x.nrOfProperMecs = y.nrOfProperMecs := by unfold RF.nrOfProperMecs; rw [h.nproper]

theorem inProperEcCall (s : Nat) : x.inProperEcCall s = y.inProperEcCall s := by
  unfold RF.inProperEcCall RF.stateToMec
  rw [← h.sys]
  by_cases hs : s < x.sys.N - 2
  · simp only [List.getElem?_map, List.getElem?_range hs, Option.map_some]
    exact congrArg Except.ok (h.proper s (by omega))
  · rw [List.getElem?_eq_none (by simpa using hs), List.getElem?_eq_none (by simpa using hs)]

end Alike

theorem subText_alike {x y : Subsystem K} (h : SubAlike x y) (ρ ρ' : Graph.Rnd) : Repr.sub ρ x = Repr.sub ρ' y := by
  unfold Repr.sub
  rw [h.rf.repr]
  exact ((subsys_alike h ρ ρ').bind (S := Eq) fun a b k => by rw [k.rf.repr]; exact .ok rfl).eq

theorem resultText_alike {r r' : ProblemResult (Subsystem K) K} (h : ResultAlike SubAlike r r') (ρ ρ' : Graph.Rnd) (fmt : K → List Char) :
    Repr.result (Repr.sub ρ) fmt r = Repr.result (Repr.sub ρ') fmt r' := by
  unfold Repr.result
  rw [h.status, h.value]
  have : Repr.subsystem (Repr.sub ρ) r.subsystem = Repr.subsystem (Repr.sub ρ') r'.subsystem := by
    have k := h.subsystem
    generalize r.subsystem = a at k
    generalize r'.subsystem = b at k
    cases k with
    | none => simp only [Repr.subsystem]
    | some k =>
      simp only [Repr.subsystem]
      exact subText_alike k ρ ρ'
  rw [this]

theorem stateWeights_alike {x y : Subsystem K} (h : SubAlike x y) (ρ ρ' : Graph.Rnd) (w : Bool) :
    Digraph.stateWeights ρ x w = Digraph.stateWeights ρ' y w := by
  unfold Digraph.stateWeights
  rw [h.mode]
  have := subsys_alike h ρ ρ'
  generalize x.subsys ρ = a at this
  generalize y.subsys ρ' = b at this
  cases this with
  | error e => rfl
  | ok k => simp only [k.rf.sys]

theorem subMDP_alike {x y : Subsystem K} (h : SubAlike x y) (ρ ρ' : Graph.Rnd) (fmt : K → List Char) (w : Bool) (v : Digraph.Maps K) :
    Digraph.subMDP ρ x fmt w v = Digraph.subMDP ρ' y fmt w v := by
  unfold Digraph.subMDP Digraph.subState
  rw [mask_alike h, stateWeights_alike h ρ ρ', h.rf.sys, h.cert]
  have : ∀ m, Digraph.subAction x m fmt w v.action = Digraph.subAction y m fmt w v.action := by
    intro m
    funext s a l
    unfold Digraph.subAction
    rw [h.mode, h.cert, h.rf.sys]
  simp only [this]

theorem subDTMC_alike {x y : Subsystem K} (h : SubAlike x y) (ρ ρ' : Graph.Rnd) (fmt : K → List Char) (w : Bool) (v : Digraph.DTMCMaps K) :
    Digraph.subDTMC ρ x fmt w v = Digraph.subDTMC ρ' y fmt w v := by
  unfold Digraph.subDTMC Digraph.subState
  rw [mask_alike h, stateWeights_alike h ρ ρ', h.rf.sys, h.cert]

/-! ### reward forms -/

/-- reward forms that differ at most in the numbers of the end components of the form below -/
structure RewAlike (x y : RRF K) : Prop where
  rf : Alike x.rf y.rf
  rew : x.rew = y.rew
  idx : x.idx = y.idx

structure RewSubAlike (x y : RRF.Sub K) : Prop where
  form : RewAlike x.form y.form
  cert : x.cert = y.cert
  mode : x.mode = y.mode

theorem assertReachform_alike {x y : RF K} (h : Alike x y) (ρ ρ' : Graph.Rnd) : RRF.assertReachform ρ x = RRF.assertReachform ρ' y := by
  obtain ⟨hgn, hg, -⟩ := build_range h.ok.graph
  obtain ⟨r, r', e1, e2, k⟩ := mec_same x.sys.graph ρ ρ' (by rw [hgn]; exact h.pos) hg
  unfold RRF.assertReachform
  rw [← h.sys, e1, e2]
  simp only [k.properCount]

theorem rewMake_alike {x y : RF K} (h : Alike x y) (rew : List K) : ERel RewAlike (RRF.make x rew) (RRF.make y rew) := by
  unfold RRF.make
  rw [h.sys]
  exact ERel.bind_same fun _ _ => ERel.bind_same fun _ _ => .ok ⟨h, rfl, rfl⟩

structure RewReduceAlike (r r' : RRF.Result K) : Prop where
  rrf : RewAlike r.rrf r'.rrf
  cols : r.cols = r'.cols
  rows : r.rows = r'.rows

theorem rewReduce_alike (M : Sys K) (ρ₁ ρ₂ ρ₁' ρ₂' : Graph.Rnd) (il tl : String) :
    ERel RewReduceAlike (RRF.reduce ρ₁ ρ₂ M il tl) (RRF.reduce ρ₁' ρ₂' M il tl) := by
  unfold RRF.reduce
  refine (reduce_alike M ρ₁ ρ₁' il tl "rf_target" "rf_fail").bind fun r r' h => ?_
  rw [assertReachform_alike h.rf ρ₂ ρ₂', h.rf.sys, h.cols, h.rows]
  refine ERel.bind_same fun _ _ => ?_
  cases r'.rf.sys.rew with
  | none => exact .error _
  | some v => exact (rewMake_alike h.rf _).bind fun a b k => .ok ⟨k, rfl, rfl⟩

namespace RewAlike
variable {x y : RRF K} (h : RewAlike x y)
include h

theorem N_eq : x.N = y.N := h.rf.N_eq
theorem C_eq : x.C = y.C := h.rf.C_eq

theorem farkZ (t : K) : x.farkZ t = y.farkZ t := by
  unfold RRF.farkZ
  rw [h.rf.initial, h.N_eq, h.C_eq, h.rf.A_eq, h.rf.delta_eq, h.rew]

theorem farkY (t : K) : x.farkY t = y.farkY t := by
  unfold RRF.farkY
  rw [h.rf.initial, h.N_eq, h.C_eq, h.rf.A_eq, h.rf.delta_eq, h.rew]

theorem maxZLP : x.maxZLP = y.maxZLP := by unfold RRF.maxZLP; rw [h.farkZ, h.N_eq]
theorem maxYLP : x.maxYLP = y.maxYLP := by unfold RRF.maxYLP; rw [h.farkY, h.C_eq, h.rew]
theorem rewMaxLP : x.rewMaxLP = y.rewMaxLP := by unfold RRF.rewMaxLP; rw [h.N_eq, h.C_eq, h.rf.A_eq, h.rew]

theorem form : FormAlike RewSubAlike x.form y.form where
  sys := h.rf.sys
  idx := h.idx
  hasIdx := rfl
  fark := by
    funext t m
    cases m with
    | min => exact h.farkZ t
    | max => exact h.farkY t
  isEcFree := rfl
  isRF := rfl
  ec _ _ := rfl
  sub c m := by
    show ERel RewSubAlike (x.mkSub c m) (y.mkSub c m)
    unfold RRF.mkSub
    rw [h.rf.sys]
    cases m with
    | max =>
      by_cases e : c.length = y.rf.sys.C - 2
      · simp only [if_pos e]; exact .ok ⟨h, rfl, rfl⟩
      · simp only [if_neg e]; exact .error _
    | min =>
      by_cases e : c.length = y.rf.sys.N - 2
      · simp only [if_pos e]; exact .ok ⟨h, rfl, rfl⟩
      · simp only [if_neg e]; exact .error _

end RewAlike

/-! ### commands -/

section
variable [FloorRing K]

theorem GraphOK.of_load {kind : Cli.Kind} {lab tra : List Char} {M : Sys K} (h : Cli.loadModel kind lab tra = .ok M) : GraphOK M := by
  cases kind with
  | mdp =>
    unfold Cli.loadModel Sys.fromFileMDP at h
    obtain ⟨r, -, h⟩ := bind_ok h
    obtain ⟨x, -, h⟩ := bind_ok h
    exact .of_make h
  | dtmc =>
    unfold Cli.loadModel Sys.fromFileDTMC at h
    obtain ⟨r, -, h⟩ := bind_ok h
    obtain ⟨P, -, h⟩ := bind_ok h
    unfold Sys.makeDTMC at h
    by_cases c1 : P.rows = P.cols
    · rw [if_pos c1] at h
      exact .of_make h
    · rw [if_neg c1] at h; cases h

theorem rfCmd_alike (ρ ρ' : Graph.Rnd) (π : List Nat → List Nat) (π' : List String → List String) (kind : Cli.Kind) (lab tra : List Char)
    (il tl ntl nfl : String) :
    Cli.rfCmd (K := K) ρ π π' kind lab tra il tl ntl nfl = Cli.rfCmd (K := K) ρ' π π' kind lab tra il tl ntl nfl := by
  unfold Cli.rfCmd
  refine ERel.eq (ERel.bind_same fun M _ => ?_)
  refine (reduce_alike M ρ ρ' il tl ntl nfl).bind fun r r' h => ?_
  rw [h.rf.sys, h.rows]
  exact .refl (fun _ => rfl) _

theorem certifyLoop_alike {x y : RF K} (h : Alike x y) (mode : Option String) (tol : K) : ∀ is : List (Cli.Instance K),
    Cli.certifyLoop x mode tol is = Cli.certifyLoop y mode tol is
  | [] => rfl
  | i :: is => by
    unfold Cli.certifyLoop
    rw [certifyLoop_alike h mode tol is]
    simp only [h.check]

theorem certify_alike (ρ ρ' : Graph.Rnd) (kind : Cli.Kind) (lab tra : List Char) (il tl fl : String) (cert : Option (Cli.CertFile K)) (tol : K) :
    Cli.certify ρ kind lab tra il tl fl cert tol = Cli.certify ρ' kind lab tra il tl fl cert tol := by
  unfold Cli.certify
  cases hM : Cli.loadModel (K := K) kind lab tra with
  | error e => rfl
  | ok M =>
    have := make_alike (.of_load hM) ρ ρ' il tl fl false
    simp only
    generalize RF.make ρ M il tl fl false = a at this
    generalize RF.make ρ' M il tl fl false = b at this
    cases this with
    | error e => rfl
    | ok k =>
      cases cert with
      | none => rfl
      | some f => exact certifyLoop_alike k _ _ _

theorem subsystemLoop_alike {x y : RF K} (h : Alike x y) (copy : Sys K → Except Err (Sys K)) (π : List Nat → List Nat)
    (π' : List String → List String) (kind : Cli.Kind) (label : String) (mode : Option String) : ∀ is : List (Cli.Instance K),
    Cli.subsystemLoop copy π π' kind label x mode is = Cli.subsystemLoop copy π π' kind label y mode is
  | [] => rfl
  | i :: is => by
    unfold Cli.subsystemLoop
    rw [subsystemLoop_alike h copy π π' kind label mode is]
    have : Cli.subsystemStep copy π π' kind label x mode i = Cli.subsystemStep copy π π' kind label y mode i := by
      unfold Cli.subsystemStep
      cases mode with
      | none => rfl
      | some m =>
        cases hm : Cli.modeOf m with
        | none => simp only [hm]
        | some m' =>
          simp only [hm]
          refine ERel.eq ((mkSub_alike h _ _ _).bind fun a b k => ?_)
          rw [h.sys, mask_alike k]
          exact .refl (fun _ => rfl) _
    rw [this]

theorem subsystemCmd_alike (copy : Sys K → Except Err (Sys K)) (ρ ρ' : Graph.Rnd) (π : List Nat → List Nat)
    (π' : List String → List String) (kind : Cli.Kind) (lab tra : List Char) (il tl fl label : String) (cert : Option (Cli.CertFile K)) :
    Cli.subsystem copy ρ π π' kind lab tra il tl fl label cert = Cli.subsystem copy ρ' π π' kind lab tra il tl fl label cert := by
  unfold Cli.subsystem
  cases hM : Cli.loadModel (K := K) kind lab tra with
  | error e => rfl
  | ok M =>
    simp only
    by_cases c : label ∈ M.labS.d.keys
    · rw [if_pos c, if_pos c]
    · rw [if_neg c, if_neg c]
      have := make_alike (.of_load hM) ρ ρ' il tl fl false
      generalize RF.make ρ M il tl fl false = a at this
      generalize RF.make ρ' M il tl fl false = b at this
      cases this with
      | error e => rfl
      | ok k =>
        cases cert with
        | none => rfl
        | some f => exact subsystemLoop_alike k _ _ _ _ _ _ _

end

theorem methodRun_alike {x y : RF K} (h : Alike x y) (env : Cli.Env K) (hi : ∀ i m ind, env.init i x m ind = env.init i y m ind)
    (m : Cli.Method) (a : Cli.SolveArgs K) : RunAlike SubAlike (Cli.methodRun env x m a) (Cli.methodRun env y m a) := by
  unfold Cli.methodRun
  cases Cli.modeOf a.mode with
  | none => exact ⟨.nil, rfl⟩
  | some mode =>
    refine h.form.solveIter ?_ _
    cases m with
    | milpExact s => exact h.form.milpExact _ _ _ _ _ _
    | qsHeur n i u s =>
      simp only [hi]
      exact h.form.qsHeur _ _ _ _ _ _ _ _ _

theorem processResult_alike {x y : RF K} (h : Alike x y) (mp : Dict String (List Char)) (t tol : K) (n : Nat)
    {r r' : ProblemResult (Subsystem K) K} (hr : ResultAlike SubAlike r r') :
    Cli.processResult x mp t tol n r = Cli.processResult y mp t tol n r' := by
  unfold Cli.processResult
  rw [hr.cert]
  have k := hr.subsystem
  generalize r.subsystem = a at k
  generalize r'.subsystem = b at k
  cases k with
  | none => rfl
  | some k =>
    simp only [mask_alike k, h.check]

theorem processAll_alike {x y : RF K} (h : Alike x y) (mp : Dict String (List Char)) (t tol : K) (e : Option Err) : ∀ (n : Nat)
    {rs rs' : List (ProblemResult (Subsystem K) K)}, List.Forall₂ (ResultAlike SubAlike) rs rs' →
    Cli.processAll x mp t tol e n rs = Cli.processAll y mp t tol e n rs'
  | _, _, _, .nil => rfl
  | n, _, _, .cons h1 h2 => by
    unfold Cli.processAll
    rw [processResult_alike h mp t tol n h1, processAll_alike h mp t tol e (n + 1) h2]

section
variable [FloorRing K]

theorem minimize_alike (ρ ρ' : Graph.Rnd) (env : Cli.Env K) (hi : ∀ x y, Alike x y → ∀ i m ind, env.init i x m ind = env.init i y m ind)
    (kind : Cli.Kind) (lab tra : List Char) (il tl fl : String) (method solve solveIt : List (List Char)) (tol : K) :
    Cli.minimize ρ env kind lab tra il tl fl method solve solveIt tol = Cli.minimize ρ' env kind lab tra il tl fl method solve solveIt tol := by
  unfold Cli.minimize
  refine ERel.eq (ERel.bind_same fun M hM => ?_)
  cases method with
  | nil => exact .error _
  | cons name mps =>
    simp only
    by_cases c : solve = [] ∧ solveIt = []
    · rw [if_pos c, if_pos c]; exact .error _
    · rw [if_neg c, if_neg c]
      refine (make_alike (.of_load hM) ρ ρ' il tl fl false).bind fun x y h => ?_
      by_cases c2 : String.ofList name ∈ ["QSHeur", "MILPExact"]
      · rw [if_pos c2, if_pos c2]
        refine ERel.bind_same fun mp _ => ERel.bind_same fun _ _ => ERel.bind_same fun m _ => ERel.bind_same fun s1 _ =>
          ERel.bind_same fun s2 _ => ERel.bind_same fun a _ => ?_
        have hr := methodRun_alike h env (hi x y h) m a
        by_cases c3 : solveIt ≠ []
        · rw [if_pos c3, if_pos c3, hr.2, processAll_alike h _ _ _ _ _ hr.1]
          exact .refl (fun _ => rfl) _
        · rw [if_neg c3, if_neg c3]
          refine hr.solveLast.bind fun r r' k => ?_
          rw [processResult_alike h _ _ _ _ k]
          exact .refl (fun _ => rfl) _
      · rw [if_neg c2, if_neg c2]; exact .error _

end

end Verif.Proofs
