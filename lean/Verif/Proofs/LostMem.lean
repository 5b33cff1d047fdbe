import Verif.Proofs.ProperMem
import Verif.Proofs.ReachMem
/-!
# How many blocks are lost, and what happens outside the arrays
-/

namespace Verif.Proofs.Sep
open Verif.Model Verif.Model.Mem Verif.Spec

variable {K α β : Type}

/-! ### Lost blocks -/

/-- every component costs a round -/
theorem cnt_le_mecLost (g : Graph K) (ρ : Graph.Rnd) (k : Nat) : ∀ st st', Graph.mecLoop g ρ k st = some st' →
    st'.cnt ≤ st.cnt + mecLost g ρ k st := by
  induction k with
  | zero =>
    rintro ⟨work, ret, cnt, singles, tid⟩ st' h
    cases work with
    | nil => simp only [Graph.mecLoop, Option.some.injEq] at h; subst h; simp
    | cons T work => simp [Graph.mecLoop] at h
  | succ k ih =>
    rintro ⟨work, ret, cnt, singles, tid⟩ st' h
    cases work with
    | nil => simp only [Graph.mecLoop, Option.some.injEq] at h; subst h; simp
    | cons T work =>
      rw [mecLoop_succ] at h
      have := ih _ _ h
      have hl : mecLost g ρ (k + 1) ⟨T :: work, ret, cnt, singles, tid⟩ =
        1 + sccLost g T + mecLost g ρ k (mnext g ρ T work ret cnt singles tid) := rfl
      rw [hl]
      have hc : (mnext g ρ T work ret cnt singles tid).cnt ≤ cnt + 1 := by
        unfold mnext; split <;> simp
      dsimp only
      omega

theorem StayEdge.mono {tr : Nat → Nat → Nat → Prop} {X Y : Set Nat} (h : X ⊆ Y) {u v : Nat} (he : StayEdge tr X u v) :
    StayEdge tr Y u v := by
  obtain ⟨a, ha, hw⟩ := he
  exact ⟨a, ha, fun w hw' => h (hw w hw')⟩

/-- the state at the end of the first loop and the blocks lost until then -/
theorem lost_spec (g : Graph K) (ρ : Graph.Rnd) (hn : 0 < g.n) (hg : ∀ x t, t ∈ g.succ x → t.1 < g.n)
    (hs : ∀ x, ((g.succ x).map fun t => (t.1, t.2.1)).Nodup) (st : Graph.MState)
    (hst : Graph.mecLoop g ρ (2 * g.n + 1) ⟨[Graph.mkTreap ρ.top (List.range g.n)], fun _ => 0, 0, [], 0⟩ = some st)
    (hinv : MInv g st) (hwork : st.work = []) :
    0 < st.cnt ∧ (2 ≤ st.cnt → st.cnt ≤ callLost g ρ st) ∧ (st.cnt = 1 → callLost g ρ st = 0) := by
  have hfin : ∀ x, Fin' g.n st x ↔ x < g.n := by intro x; simp [Fin', hwork]
  have hpos : 0 < st.cnt := lt_of_le_of_lt (Nat.zero_le _) (hinv.lt 0 ((hfin 0).2 hn))
  obtain ⟨h1, h2⟩ := mkTreap_spec ρ.top (List.range g.n)
  have hset : {x | x ∈ (Graph.mkTreap ρ.top (List.range g.n)).toList} = {x | x < g.n} := by
    ext x; simp [h2]
  have hlt : ∀ x ∈ (Graph.mkTreap ρ.top (List.range g.n)).toList, x < g.n := fun x hx => by simpa using (h2 x).1 hx
  obtain ⟨hsame, hrange, hused⟩ := sccOf_spec g h1 hlt hg (ρ.bad 0) (ρ.low0 0) (ρ.on0 0)
  have hlast := hst
  rw [mecLoop_succ] at hlast
  have hl : mecLost g ρ (2 * g.n + 1) ⟨[Graph.mkTreap ρ.top (List.range g.n)], fun _ => 0, 0, [], 0⟩ =
    1 + sccLost g (Graph.mkTreap ρ.top (List.range g.n)) +
      mecLost g ρ (2 * g.n) (mnext g ρ (Graph.mkTreap ρ.top (List.range g.n)) [] (fun _ => 0) 0 [] 0) := rfl
  unfold callLost
  rw [hl]
  refine ⟨hpos, ?_, ?_⟩
  · intro hc
    by_cases hc1 : (g.sccOf (Graph.mkTreap ρ.top (List.range g.n)) (ρ.bad 0) (ρ.low0 0) (ρ.on0 0)).2 = 1
    · exfalso
      unfold mnext at hlast
      rw [if_pos hc1] at hlast
      have e : some st = some _ := hlast.symm.trans (by cases (2 * g.n) <;> rfl)
      rw [Option.some.injEq] at e
      rw [e] at hc
      simp at hc
    · have := cnt_le_mecLost g ρ _ _ _ hlast
      have hz : (mnext g ρ (Graph.mkTreap ρ.top (List.range g.n)) [] (fun _ => 0) 0 [] 0).cnt = 0 := by
        unfold mnext; rw [if_neg hc1]
      omega
  · intro hc
    have hall : ∀ x < g.n, ∀ y < g.n, st.ret x = st.ret y := by
      intro x hx y hy
      have := hinv.lt x ((hfin x).2 hx)
      have := hinv.lt y ((hfin y).2 hy)
      omega
    have hconn : ∀ x < g.n, ∀ y < g.n,
        Relation.ReflTransGen (StayEdge (gtr g) {x | x ∈ (Graph.mkTreap ρ.top (List.range g.n)).toList}) x y := by
      intro x hx y hy
      have := hinv.conn x y ((hfin x).2 hx) ((hfin y).2 hy) (hall x hx y hy)
      refine Relation.ReflTransGen.mono (fun a b hab => StayEdge.mono ?_ hab) _ _ this
      rw [hset]
      intro z hz
      exact (hfin z).1 hz.1
    have hmem : ∀ x < g.n, x ∈ (Graph.mkTreap ρ.top (List.range g.n)).toList := fun x hx => (h2 x).2 (by simpa using hx)
    have hc1 : (g.sccOf (Graph.mkTreap ρ.top (List.range g.n)) (ρ.bad 0) (ρ.low0 0) (ρ.on0 0)).2 = 1 := by
      have ha := hrange 0 (hmem 0 hn)
      by_contra hne
      obtain ⟨x, hx, hx1⟩ := hused 1 le_rfl (by omega)
      obtain ⟨y, hy, hy2⟩ := hused 2 (by omega) (by omega)
      have := (hsame x hx y hy).2 ⟨hconn x (hlt x hx) y (hlt y hy), hconn y (hlt y hy) x (hlt x hx)⟩
      omega
    have hscc : sccLost g (Graph.mkTreap ρ.top (List.range g.n)) = 0 := by
      unfold sccLost
      rw [List.sum_eq_zero]
      intro z hz
      obtain ⟨x, hx, rfl⟩ := List.mem_map.1 hz
      have : badList g (Graph.mkTreap ρ.top (List.range g.n)) x = [] := by
        unfold badList
        rw [List.map_eq_nil_iff, List.filter_eq_nil_iff]
        intro t ht
        have := hg x t ht
        simp [mkTreap_mem, this]
      rw [this]
      rfl
    have e : mnext g ρ (Graph.mkTreap ρ.top (List.range g.n)) [] (fun _ => 0) 0 [] 0 = st := by
      have : some st = some (mnext g ρ (Graph.mkTreap ρ.top (List.range g.n)) [] (fun _ => 0) 0 [] 0) := by
        rw [← hlast]
        unfold mnext
        rw [if_pos hc1]
        cases (2 * g.n) <;> rfl
      rw [Option.some.injEq] at this
      exact this.symm
    have hmz : mecLost g ρ (2 * g.n) st = 0 := by
      obtain ⟨work, ret, cnt, singles, tid⟩ := st
      dsimp only at hwork
      subst hwork
      cases (2 * g.n) <;> rfl
    rw [e, hmz, hscc]
    have hsize : (Graph.mkTreap ρ.top (List.range g.n)).size = g.n := by
      rw [h1.size_eq, mkTreap_length, List.dedup_eq_self.2 List.nodup_range, List.length_range]
    have hsum : ((List.range g.n).map fun v => if st.ret v ∈ st.singles then actLost g v else 0).sum = 0 := by
      rw [List.sum_eq_zero]
      intro z hz
      obtain ⟨v, hv, rfl⟩ := List.mem_map.1 hz
      rw [List.mem_range] at hv
      split
      · rename_i hmem'
        have hn1 : g.n = 1 := by
          by_contra hne
          rw [← e] at hmem'
          unfold mnext at hmem'
          rw [if_pos hc1] at hmem'
          dsimp only at hmem'
          rw [hsize, if_neg hne] at hmem'
          simp at hmem'
        have hv0 : v = 0 := by omega
        subst hv0
        have hz : ∀ t ∈ g.succ 0, t.1 = 0 := fun t ht => by have := hg 0 t ht; omega
        unfold actLost
        have hnil : (g.succ 0).filter (fun t => t.1 ≠ 0) = [] := by
          rw [List.filter_eq_nil_iff]
          intro t ht
          simp [hz t ht]
        rw [hnil, List.map_nil, lost_nodup List.nodup_nil, Nat.add_zero]
        refine lost_nodup ?_
        have : (g.succ 0).map (fun t => (t.1, t.2.1)) = ((g.succ 0).map fun t => t.2.1).map fun a => (0, a) := by
          rw [List.map_map]
          refine List.map_congr_left fun t ht => ?_
          simp [hz t ht]
        have h0 := hs 0
        rw [this] at h0
        exact List.Nodup.of_map _ h0
      · rfl
    rw [hsum]

/-! ### From assertions to memories -/

/-- a computation that needs no memory at the start -/
theorem Triple.run {c : M K α} {φ : α → Nat → Prop} (h : Triple emp c fun r => ex fun j => lift (φ r j) ∗ junk j) (k : Heap K)
    (hk : Fit k) : ∃ r k', c k = .ok (r, k') ∧ Fit k' ∧ ∃ s : Finset Nat, φ r s.card ∧
      (∀ a ∈ s, k.live a = none ∧ k'.live a ≠ none) ∧ ∀ a ∉ s, k'.live a = k.live a := by
  obtain ⟨r, k', hc, hk', -, hq⟩ := h (fun f => f = k.live) k hk (by rw [emp_star])
  rw [ex_star] at hq
  obtain ⟨j, hq⟩ := hq
  rw [star_assoc] at hq
  obtain ⟨hφ, f, g, hd, he, ⟨s, hs, hs'⟩, rfl⟩ := lift_star.1 hq
  subst hs
  refine ⟨r, k', hc, hk', s, hφ, fun a ha => ?_, fun a ha => ?_⟩
  · have hfa := (hs' a).2 ha
    rcases hd a with h | h
    · exact absurd h hfa
    · refine ⟨h, ?_⟩
      rw [he]
      simp only [union, ne_eq, Option.or_eq_none_iff]
      exact fun hh => hfa hh.1
  · have hfa : f a = none := by
      by_contra hne
      exact ha ((hs' a).1 hne)
    rw [he]
    simp [union, hfa]

/-! ### Operations without defined result -/

/-- whenever a part of the memory satisfies `P`, the computation runs into an undefined operation -/
def Stuck (P : HProp K) (c : M K α) : Prop :=
  ∀ (F : HProp K) (h : Heap K), Fit h → (P ∗ F) h.live → ∃ e, e ≠ .fuel ∧ c h = .error e

theorem Triple.stuck {P : HProp K} {c : M K α} {R : α → HProp K} {f : α → M K β} (h : Triple P c R)
    (h' : ∀ r, Stuck (R r) (f r)) : Stuck P (c >>= f) := by
  intro F k hk hp
  obtain ⟨r, k', hc, hk', hn, hq⟩ := h F k hk hp
  obtain ⟨e, he, hc'⟩ := h' r F k' hk' hq
  refine ⟨e, he, ?_⟩
  show StateT.bind c f k = _
  unfold StateT.bind
  simp only [hc]
  exact hc'

theorem Triple.stepS {P0 P : HProp K} {c : M K α} {Q : α → HProp K} {f : α → M K β}
    (h : Triple P c Q) (R : HProp K) (hP : P0 = (P ∗ R)) (h' : ∀ r, Stuck (Q r ∗ R) (f r)) : Stuck P0 (c >>= f) := by
  subst hP
  exact (h.frame R).stuck h'

theorem Stuck.bind {P : HProp K} {c : M K α} (h : Stuck P c) (f : α → M K β) : Stuck P (c >>= f) := by
  intro F k hk hp
  obtain ⟨e, he, hc⟩ := h F k hk hp
  refine ⟨e, he, ?_⟩
  show StateT.bind c f k = _
  unfold StateT.bind
  simp only [hc]
  rfl

theorem Stuck.frame {P : HProp K} {c : M K α} (h : Stuck P c) (R : HProp K) : Stuck (P ∗ R) c := by
  intro F k hk hp
  rw [star_assoc] at hp
  exact h _ k hk hp

theorem Stuck.of_lift {φ : Prop} {P : HProp K} {c : M K α} (h : φ → Stuck P c) : Stuck (lift φ ∗ P) c := by
  intro F k hk hp
  rw [star_assoc, lift_star] at hp
  exact h hp.1 F k hk hp.2

theorem Stuck.of_ex {ι : Type} {P : ι → HProp K} {c : M K α} (h : ∀ i, Stuck (P i) c) : Stuck (ex P) c := by
  intro F k hk hp
  obtain ⟨i, hp⟩ := star_exists.1 hp
  exact h i F k hk hp

theorem stuck_fail {P : HProp K} (e : MemErr) (he : e ≠ .fuel) : Stuck P (fail e : M K α) :=
  fun _ _ _ _ => ⟨e, he, rfl⟩

theorem stuck_load {P : HProp K} {a : Nat} {A : Arr K α} {l : List (Option α)} {i : Nat}
    (h : Has P a (A.blk l)) (hi : l.length ≤ i) : Stuck P (load A (some a) i) := by
  unfold load
  refine (triple_readArr h).stuck fun r => Stuck.of_lift fun hr => ?_
  subst hr
  rw [List.getElem?_eq_none hi]
  exact stuck_fail _ (by simp)

theorem stuck_store {P : HProp K} {a : Nat} {A : Arr K α} {l : List (Option α)} {i : Nat} {v : α}
    (h : Has P a (A.blk l)) (hi : l.length ≤ i) : Stuck P (store A (some a) i v) := by
  unfold store
  refine (triple_readArr h).stuck fun r => Stuck.of_lift fun hr => ?_
  subst hr
  rw [if_neg (by omega)]
  exact stuck_fail _ (by simp)

theorem stuck_pushFrom (ins n : Nat) (vs : List Int) (hv : ∃ v ∈ vs, ¬ (0 ≤ v ∧ v < n)) (p : Ptr) (f : Nat → Bool)
    (l : List Nat) : Stuck (bArr ins n f ∗ stk p l : HProp K) (pushFrom ins vs p) := by
  induction vs generalizing p f l with
  | nil => simp at hv
  | cons v vs ih =>
    cases v with
    | negSucc v => exact stuck_fail _ (by simp)
    | ofNat v =>
      unfold pushFrom
      by_cases hvn : v < n
      · have hs := triple_pushFrom (K := K) ins n [v] (by simpa using hvn) p ⟨l, f, fun _ => false⟩
        simp only [List.map_cons, List.map_nil, pushFrom] at hs
        have e : (do store intA (some ins) v 1; let st ← push p v; pushFrom ins vs st : M K Ptr) =
            ((do store intA (some ins) v 1; push p v : M K Ptr) >>= fun st => pushFrom ins vs st) := by
          simp only [bind_assoc]
        rw [e]
        refine Triple.stuck (R := fun q => bArr ins n (Function.update f v true) ∗ stk q (v :: l)) ?_ fun q => ih ?_ q _ _
        · have e2 : (do store intA (some ins) v 1; push p v : M K Ptr) =
            (do store intA (some ins) v 1; let st ← push p v; Pure.pure st) := by simp
          rw [e2]
          exact hs
        · obtain ⟨w, hw, hwn⟩ := hv
          rcases List.mem_cons.1 hw with rfl | hw
          · exfalso; apply hwn; simp; omega
          · exact ⟨w, hw, hwn⟩
      · refine Stuck.bind (stuck_store (has_bArr ins n f).left (by simp; omega)) _

theorem stuck_setBlock (blk n : Nat) (vs : List Int) (hv : ∃ v ∈ vs, ¬ (0 ≤ v ∧ v < n)) (f : Nat → Bool) :
    Stuck (bArr blk n f : HProp K) (setBlock blk vs) := by
  induction vs generalizing f with
  | nil => simp at hv
  | cons v vs ih =>
    cases v with
    | negSucc v => exact stuck_fail _ (by simp)
    | ofNat v =>
      unfold setBlock
      by_cases hvn : v < n
      · have hs := triple_setBlock (K := K) blk n [v] (by simpa using hvn) f
        simp only [List.map_cons, List.map_nil, setBlock] at hs
        refine Triple.stuck (R := fun _ => bArr blk n (fun x => f x || decide (x ∈ [v]))) ?_ fun _ => ih ?_ _
        · have e2 : (store intA (some blk) v 1 : M K Unit) = (do store intA (some blk) v 1; Pure.pure ()) := by simp
          rw [e2]
          exact hs
        · obtain ⟨w, hw, hwn⟩ := hv
          rcases List.mem_cons.1 hw with rfl | hw
          · exfalso; apply hwn; simp; omega
          · exact ⟨w, hw, hwn⟩
      · refine Stuck.bind (stuck_store (has_bArr blk n f) (by simp; omega)) _

theorem toNat_list {n : Nat} (F : List Int) (h : ∀ v ∈ F, 0 ≤ v ∧ v < n) :
    (F.map Int.toNat).map Int.ofNat = F ∧ ∀ x ∈ F.map Int.toNat, x < n := by
  refine ⟨?_, ?_⟩
  · rw [List.map_map]
    conv_rhs => rw [← List.map_id F]
    refine List.map_congr_left fun v hv => ?_
    have := (h v hv).1
    simp [this]
  · intro x hx
    obtain ⟨v, hv, rfl⟩ := List.mem_map.1 hx
    have := h v hv
    omega

theorem stuck_reachable (fuel : Nat) (c : GraphC) (g : Graph K) (F B : List Int) (fwd : Bool) (hF : F ≠ [])
    (hbad : (∃ v ∈ F, ¬ (0 ≤ v ∧ v < g.n)) ∨ ∃ v ∈ B, ¬ (0 ≤ v ∧ v < g.n)) :
    Stuck (gr c g) (reachable fuel c F fwd B) := by
  have hpos : F.length > 0 := List.length_pos_iff.2 hF
  refine Stuck.of_ex fun base => Stuck.of_ex fun pp => Stuck.of_ex fun sp => Stuck.of_lift fun hc => ?_
  subst hc
  unfold reachable
  rw [if_pos hpos]
  have halloc : ∀ {P : HProp K} {n : Nat} {f : Nat → M K (Except Err (List Nat))},
      (∀ a, Stuck (pts a (intA.blk (List.replicate n none)) ∗ P) (f a)) → Stuck P (allocArr intA n >>= f) := by
    intro P n f h
    exact (triple_alloc _).stepS P (emp_star P).symm h
  refine halloc fun m => halloc fun i => halloc fun b => ?_
  refine (triple_initMasks m i b g.n 0 (List.replicate g.n none) (List.replicate g.n none) (List.replicate g.n none)
    (by simp) (by simp) (by simp)).stepS (grP base pp sp g) (by sep) fun _ => ?_
  rw [put_zero]
  have e : ∀ x, (pts x (intA.blk ((List.range g.n).map fun _ => some (hit false))) : HProp K) =
    bArr x g.n fun _ => false := fun x => rfl
  simp only [e]
  have hpre : ((bArr m g.n (fun _ => false) ∗ bArr i g.n (fun _ => false) ∗ bArr b g.n fun _ => false) ∗ grP base pp sp g) =
      ((bArr i g.n (fun _ => false) ∗ stk none []) ∗ bArr m g.n (fun _ => false) ∗ bArr b g.n (fun _ => false) ∗
        grP base pp sp g) := by
    rw [stk_none, star_emp]; ac_rfl
  rw [hpre]
  by_cases hbF : ∃ v ∈ F, ¬ (0 ≤ v ∧ v < g.n)
  · exact ((stuck_pushFrom i g.n F hbF none _ _).frame _).bind _
  · have hFr : ∀ v ∈ F, 0 ≤ v ∧ v < g.n := by
      intro v hv
      by_contra hn
      exact hbF ⟨v, hv, hn⟩
    have hbB := hbad.resolve_left hbF
    obtain ⟨e1, e2⟩ := toNat_list F hFr
    have hp := triple_pushFrom (K := K) i g.n (F.map Int.toNat) e2 none ⟨[], fun _ => false, fun _ => false⟩
    rw [e1] at hp
    refine hp.stepS _ rfl fun st => ?_
    rw [show ∀ A B C D E : HProp K, ((A ∗ B) ∗ C ∗ D ∗ E) = (D ∗ A ∗ B ∗ C ∗ E) from fun A B C D E => by ac_rfl]
    exact ((stuck_setBlock b g.n B hbB _).frame _).bind _

theorem stuck_successors (c : GraphC) (g : Graph K) (s : Nat) (a : Option Nat) (hs : g.n ≤ s) :
    Stuck (gr c g) (successors c s a) := by
  refine Stuck.of_ex fun base => Stuck.of_ex fun pp => Stuck.of_ex fun sp => Stuck.of_lift fun hc => ?_
  subst hc
  exact Stuck.bind (stuck_load (has_nodes base pp sp g) (by simpa [nodesL] using hs)) _

theorem stuck_predecessors (c : GraphC) (g : Graph K) (s : Nat) (a : Option Nat) (hs : g.n ≤ s) :
    Stuck (gr c g) (predecessors c s a) := by
  refine Stuck.of_ex fun base => Stuck.of_ex fun pp => Stuck.of_ex fun sp => Stuck.of_lift fun hc => ?_
  subst hc
  exact Stuck.bind (stuck_load (has_nodes base pp sp g) (by simpa [nodesL] using hs)) _

/-- without nodes the method reads through a null pointer -/
theorem stuck_mec (c : GraphC) (fuel : Nat) (hn : c.n = 0) (ρ : Graph.Rnd) (P : HProp K) :
    Stuck P (maximalEndComponents fuel c ρ) := by
  obtain ⟨nd, n⟩ := c
  dsimp only at hn
  subst hn
  intro F k hk hp
  refine ⟨.null, by simp, ?_⟩
  simp [maximalEndComponents, allocArr, alloc, addNodes, tsPush, mecLoop, tsPop, readT, readB, free, fail, bind, StateT.bind,
    Except.bind, pure, StateT.pure, Except.pure]

end Verif.Proofs.Sep
