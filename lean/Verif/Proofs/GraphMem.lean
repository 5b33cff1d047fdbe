import Verif.Model.GraphMem
import Verif.Proofs.TreapMem
import Verif.Proofs.Graph
/-!
# The class `Graph` in memory: construction, neighbours, release
-/

namespace Verif.Proofs.Sep
open Verif.Model Verif.Model.Mem

variable {K α β : Type}

/-- the pointer is an array with these entries; `NULL` has none -/
def sapsA : Ptr → List (Nat × Nat × K) → HProp K
  | none, l => lift (l = [])
  | some a, l => pts a (sapA.blk (l.map some))

/-- the pointer is an array with these entries, somewhere in the assertion -/
def HasSaps (P : HProp K) (p : Ptr) (l : List (Nat × Nat × K)) : Prop :=
  ∀ h, P h → (l = [] ∧ p = none) ∨ ∃ b, p = some b ∧ h b = some (sapA.blk (l.map some))

theorem HasSaps.self (p : Ptr) (l : List (Nat × Nat × K)) : HasSaps (sapsA p l) p l := by
  intro h hh
  cases p with
  | none => exact Or.inl ⟨hh.1, rfl⟩
  | some a => exact Or.inr ⟨a, rfl, pts_self _ _ _ hh⟩

theorem HasSaps.left {P Q : HProp K} {p : Ptr} {l : List (Nat × Nat × K)} (h : HasSaps P p l) : HasSaps (P ∗ Q) p l := by
  rintro k ⟨f, g, hd, rfl, hp, hq⟩
  rcases h f hp with h | ⟨b, hb, hf⟩
  · exact Or.inl h
  · exact Or.inr ⟨b, hb, by simp [union, hf]⟩

theorem HasSaps.right {P Q : HProp K} {p : Ptr} {l : List (Nat × Nat × K)} (h : HasSaps Q p l) : HasSaps (P ∗ Q) p l := by
  rw [star_comm]; exact h.left

theorem HasSaps.all {ι : Type} {f : ι → HProp K} {l : List ι} {x : ι} (hx : x ∈ l) {p : Ptr}
    {s : List (Nat × Nat × K)} (h : HasSaps (f x) p s) : HasSaps (all f l) p s := by
  induction l with
  | nil => cases hx
  | cons y l ih =>
    rcases List.mem_cons.1 hx with rfl | hx
    · exact h.left
    · exact (ih hx).right

theorem Triple.of_false {P : HProp K} {c : M K α} {Q : α → HProp K} (h : ∀ k, ¬ P k) : Triple P c Q := by
  rintro F k hk ⟨f, g, -, -, hp, -⟩
  exact absurd hp (h f)

theorem Triple.loadSap {P : HProp K} {p : Ptr} {l : List (Nat × Nat × K)} {j : Nat} {t : Nat × Nat × K}
    {f : Nat × Nat × K → M K β} {Q : β → HProp K} (h : HasSaps P p l) (hj : l[j]? = some t)
    (h' : Triple P (f t) Q) : Triple P (Mem.load sapA p j >>= f) Q := by
  cases p with
  | none =>
    refine Triple.of_false fun k hk => ?_
    rcases h k hk with ⟨hl, -⟩ | ⟨b, hb, -⟩
    · subst hl; simp at hj
    · cases hb
  | some b =>
    refine Triple.load (l := l.map some) ?_ (by simp [hj]) h'
    intro k hk
    rcases h k hk with ⟨-, hb⟩ | ⟨b', hb, hk'⟩
    · cases hb
    · cases hb; exact hk'

theorem triple_freeSaps (p : Ptr) (l : List (Nat × Nat × K)) : Triple (sapsA p l) (free p) fun _ => emp := by
  cases p with
  | none =>
    refine Triple.pure ?_
    rintro h ⟨-, rfl⟩
    rfl
  | some a => exact triple_free _ _

theorem map_range_set {γ : Type} (n i : Nat) (f : Nat → γ) (v : γ) :
    ((List.range n).map f).set i v = (List.range n).map (Function.update f i v) := by
  apply List.ext_getElem?
  intro j
  by_cases hij : i = j
  · subst hij
    by_cases hi : i < n
    · rw [List.getElem?_set_self (by simpa using hi)]
      simp [List.getElem?_map, List.getElem?_range hi]
    · rw [List.getElem?_eq_none (by simp; omega), List.getElem?_eq_none (by simp; omega)]
  · rw [List.getElem?_set_ne hij, List.getElem?_map, List.getElem?_map]
    by_cases hj : j < n
    · rw [List.getElem?_range hj]
      simp [Function.update_of_ne (Ne.symm hij)]
    · rw [List.getElem?_eq_none (by simp; omega)]; rfl

theorem map_range_get {γ : Type} {n i : Nat} (f : Nat → γ) (hi : i < n) : ((List.range n).map f)[i]? = some (f i) := by
  simp [List.getElem?_map, List.getElem?_range hi]

/-- node `i` of the array -/
def nodeOf (g : Graph K) (pp sp : Nat → Ptr) (i : Nat) : NodeC := ⟨pp i, sp i, (g.pred i).length, (g.succ i).length⟩

/-- the arrays of node `i` -/
def nbrs (g : Graph K) (pp sp : Nat → Ptr) (i : Nat) : HProp K := sapsA (pp i) (g.pred i) ∗ sapsA (sp i) (g.succ i)

/-- the array of nodes -/
def nodesL (g : Graph K) (pp sp : Nat → Ptr) : List (Option NodeC) := (List.range g.n).map fun i => some (nodeOf g pp sp i)

/-- the memory of the graph `g`, with the pointers stored there -/
def grP (a : Nat) (pp sp : Nat → Ptr) (g : Graph K) : HProp K :=
  pts a (nodeA.blk (nodesL g pp sp)) ∗ all (nbrs g pp sp) (List.range g.n)

/-- the memory of the graph `g` -/
def gr (c : GraphC) (g : Graph K) : HProp K :=
  ex fun a => ex fun pp => ex fun sp => lift (c = ⟨some a, g.n⟩) ∗ grP a pp sp g

theorem Triple.gr {c : GraphC} {g : Graph K} {R : HProp K} {m : M K α} {Q : α → HProp K}
    (h : ∀ a pp sp, c = ⟨some a, g.n⟩ → Triple (grP a pp sp g ∗ R) m Q) : Triple (gr c g ∗ R) m Q := by
  simp only [Sep.gr, ex_star, star_assoc]
  exact Triple.of_ex fun a => Triple.of_ex fun pp => Triple.of_ex fun sp => Triple.of_lift fun hp => h a pp sp hp

theorem imp_gr {a : Nat} {pp sp : Nat → Ptr} {g : Graph K} : Imp (grP a pp sp g) (gr ⟨some a, g.n⟩ g) :=
  Imp.ex_intro a (Imp.ex_intro pp (Imp.ex_intro sp (Imp.lift_intro rfl Imp.rfl)))

theorem has_nodes (a : Nat) (pp sp : Nat → Ptr) (g : Graph K) : Has (grP a pp sp g) a (nodeA.blk (nodesL g pp sp)) :=
  (Has.pts _ _).left

theorem nodesL_get {g : Graph K} (pp sp : Nat → Ptr) {i : Nat} (hi : i < g.n) :
    (nodesL g pp sp)[i]? = some (some (nodeOf g pp sp i)) := map_range_get _ hi

theorem has_succ (a : Nat) (pp sp : Nat → Ptr) {g : Graph K} {i : Nat} (hi : i < g.n) :
    HasSaps (grP a pp sp g) (sp i) (g.succ i) :=
  (HasSaps.all (List.mem_range.2 hi) (HasSaps.self (sp i) (g.succ i)).right).right

theorem has_pred (a : Nat) (pp sp : Nat → Ptr) {g : Graph K} {i : Nat} (hi : i < g.n) :
    HasSaps (grP a pp sp g) (pp i) (g.pred i) :=
  (HasSaps.all (List.mem_range.2 hi) (HasSaps.self (pp i) (g.pred i)).left).right

/-! ### Construction -/

theorem triple_initNodes (a : Nat) (m i : Nat) (l : List (Option NodeC)) (h : i + m ≤ l.length) :
    Triple (pts a (nodeA.blk l) : HProp K) (initNodes a m i) fun _ =>
      pts a (nodeA.blk (put l i (List.replicate m ⟨none, none, 0, 0⟩))) := by
  induction m generalizing i l with
  | zero => exact Triple.pure Imp.rfl
  | succ m ih =>
    unfold initNodes
    refine (triple_store (A := nodeA) (l := l) _ (by omega)).bind fun _ => ?_
    exact ih (i + 1) _ (by rw [List.length_set]; omega)

theorem triple_copySaps (p : Ptr) (l : List (Nat × Nat × K)) (new : Nat) (m i : Nat) (L : List (Option (Nat × Nat × K)))
    (h : i + m = l.length) (hL : l.length ≤ L.length) :
    Triple (sapsA p l ∗ pts new (sapA.blk L)) (copySaps p new m i) fun _ =>
      sapsA p l ∗ pts new (sapA.blk (put L i (l.drop i))) := by
  induction m generalizing i L with
  | zero =>
    rw [List.drop_eq_nil_of_le (by omega)]
    exact Triple.pure Imp.rfl
  | succ m ih =>
    unfold copySaps
    have hi : i < l.length := by omega
    refine Triple.loadSap (HasSaps.self p l).left (List.getElem?_eq_getElem hi) ?_
    refine (triple_store (A := sapA) (l := L) _ (by omega)).step (sapsA p l) (by sep) fun _ => ?_
    rw [star_comm]
    refine (ih (i + 1) _ (by omega) (by rw [List.length_set]; exact hL)).post fun _ => ?_
    rw [List.drop_eq_getElem_cons hi, put]
    exact Imp.rfl

theorem set_last {γ : Type} (l : List γ) (x : γ) :
    (put (List.replicate (l.length + 1) none) 0 l).set l.length (some x) = (l ++ [x]).map some := by
  rw [← put_all (l ++ [x]) (l.length + 1) (by simp), put_append, put, put, Nat.zero_add]

theorem all_erase {ι : Type} [DecidableEq ι] (f : ι → HProp K) {l : List ι} {x : ι} (hx : x ∈ l) :
    all f l = (f x ∗ all f (l.erase x)) := all_perm f (List.perm_cons_erase hx)

theorem set_set {γ : Type} (l : List γ) (i : Nat) (x y : γ) : (l.set i x).set i y = l.set i y := by
  simp

/-- an entry appended to the successors of `s` -/
def addS (g : Graph K) (s : Nat) (t : Nat × Nat × K) : Graph K := { g with succ := Function.update g.succ s (g.succ s ++ [t]) }

/-- an entry appended to the predecessors of `s` -/
def addP (g : Graph K) (s : Nat) (t : Nat × Nat × K) : Graph K := { g with pred := Function.update g.pred s (g.pred s ++ [t]) }

theorem addSP (g : Graph K) (s a : Nat) (p : K) (d : Nat) :
    addP (addS g s (d, a, p)) d (s, a, p) = g.addSuccessor s a p d := rfl

theorem grP_addS (a : Nat) (pp sp : Nat → Ptr) (g : Graph K) (s : Nat) (hs : s < g.n) (t : Nat × Nat × K) (new : Nat) :
    (pts a (nodeA.blk ((nodesL g pp sp).set s (some ⟨pp s, some new, (g.pred s).length, (g.succ s).length + 1⟩))) ∗
      sapsA (pp s) (g.pred s) ∗ pts new (sapA.blk ((g.succ s ++ [t]).map some)) ∗
      all (nbrs g pp sp) ((List.range g.n).erase s)) = grP a pp (Function.update sp s (some new)) (addS g s t) := by
  have h1 : (nodesL g pp sp).set s (some ⟨pp s, some new, (g.pred s).length, (g.succ s).length + 1⟩) =
      nodesL (addS g s t) pp (Function.update sp s (some new)) := by
    unfold nodesL
    rw [map_range_set]
    show _ = (List.range g.n).map _
    congr 1
    funext i
    by_cases hi : i = s
    · subst hi; simp [nodeOf, addS]
    · simp [nodeOf, addS, hi]
  have h2 : all (nbrs g pp sp) ((List.range g.n).erase s) =
      all (nbrs (addS g s t) pp (Function.update sp s (some new))) ((List.range g.n).erase s) := by
    refine all_congr fun i hi => ?_
    have : i ≠ s := fun e => by
      subst e
      exact absurd hi (List.nodup_range.not_mem_erase)
    simp [nbrs, addS, this]
  rw [grP, h1, h2]
  show _ = (_ ∗ all _ (List.range g.n))
  rw [all_erase _ (List.mem_range.2 hs)]
  have h3 : nbrs (addS g s t) pp (Function.update sp s (some new)) s =
      (sapsA (pp s) (g.pred s) ∗ pts new (sapA.blk ((g.succ s ++ [t]).map some))) := by
    simp [nbrs, addS, sapsA]
  rw [h3, star_assoc]

theorem grP_addP (a : Nat) (pp sp : Nat → Ptr) (g : Graph K) (s : Nat) (hs : s < g.n) (t : Nat × Nat × K) (new : Nat) :
    (pts a (nodeA.blk ((nodesL g pp sp).set s (some ⟨some new, sp s, (g.pred s).length + 1, (g.succ s).length⟩))) ∗
      pts new (sapA.blk ((g.pred s ++ [t]).map some)) ∗ sapsA (sp s) (g.succ s) ∗
      all (nbrs g pp sp) ((List.range g.n).erase s)) = grP a (Function.update pp s (some new)) sp (addP g s t) := by
  have h1 : (nodesL g pp sp).set s (some ⟨some new, sp s, (g.pred s).length + 1, (g.succ s).length⟩) =
      nodesL (addP g s t) (Function.update pp s (some new)) sp := by
    unfold nodesL
    rw [map_range_set]
    show _ = (List.range g.n).map _
    congr 1
    funext i
    by_cases hi : i = s
    · subst hi; simp [nodeOf, addP]
    · simp [nodeOf, addP, hi]
  have h2 : all (nbrs g pp sp) ((List.range g.n).erase s) =
      all (nbrs (addP g s t) (Function.update pp s (some new)) sp) ((List.range g.n).erase s) := by
    refine all_congr fun i hi => ?_
    have : i ≠ s := fun e => by
      subst e
      exact absurd hi (List.nodup_range.not_mem_erase)
    simp [nbrs, addP, this]
  rw [grP, h1, h2]
  show _ = (_ ∗ all _ (List.range g.n))
  rw [all_erase _ (List.mem_range.2 hs)]
  have h3 : nbrs (addP g s t) (Function.update pp s (some new)) sp s =
      (pts new (sapA.blk ((g.pred s ++ [t]).map some)) ∗ sapsA (sp s) (g.succ s)) := by
    simp [nbrs, addP, sapsA]
  rw [h3, star_assoc]

theorem triple_addSuccessor (c : GraphC) (g : Graph K) (s a : Nat) (p : K) (d : Nat) (hs : s < g.n) (hd : d < g.n) :
    Triple (gr c g) (addSuccessor c s a p d) fun _ => gr c (g.addSuccessor s a p d) := by
  rw [← star_emp (gr c g)]
  refine Triple.gr fun base pp sp hc => ?_
  subst hc
  rw [star_emp]
  unfold addSuccessor
  dsimp only
  have hlen : (nodesL g pp sp).length = g.n := by simp [nodesL]
  refine Triple.load (has_nodes _ _ _ _) (nodesL_get pp sp hs) ?_
  have e1 : grP base pp sp g = (pts base (nodeA.blk (nodesL g pp sp)) ∗ sapsA (pp s) (g.pred s) ∗
      sapsA (sp s) (g.succ s) ∗ all (nbrs g pp sp) ((List.range g.n).erase s)) := by
    rw [grP, all_erase _ (List.mem_range.2 hs), nbrs, star_assoc]
  rw [e1]
  refine (triple_store (A := nodeA) (l := nodesL g pp sp) _ (by omega)).step _ rfl fun _ => ?_
  refine Triple.load (by has) (List.getElem?_set_self (by omega)) ?_
  refine Triple.allocArr fun new => ?_
  dsimp only [nodeOf]
  rw [Nat.add_sub_cancel]
  refine (triple_copySaps (sp s) (g.succ s) new _ 0 (List.replicate ((g.succ s).length + 1) none) (by simp)
    (by simp)).step (pts base (nodeA.blk ((nodesL g pp sp).set s
      (some ⟨pp s, sp s, (g.pred s).length, (g.succ s).length + 1⟩))) ∗ sapsA (pp s) (g.pred s) ∗
      all (nbrs g pp sp) ((List.range g.n).erase s)) (by sep) fun _ => ?_
  rw [List.drop_zero]
  refine (triple_store (A := sapA) (a := new) (i := (g.succ s).length) (l := put (List.replicate ((g.succ s).length + 1) none) 0 (g.succ s)) (d, a, p)
    (by rw [put_length, List.length_replicate]; omega)).step (sapsA (sp s) (g.succ s) ∗ pts base (nodeA.blk ((nodesL g pp sp).set s
      (some ⟨pp s, sp s, (g.pred s).length, (g.succ s).length + 1⟩))) ∗ sapsA (pp s) (g.pred s) ∗
      all (nbrs g pp sp) ((List.range g.n).erase s)) (by sep) fun _ => ?_
  rw [set_last]
  refine (triple_freeSaps (sp s) (g.succ s)).step (pts new (sapA.blk ((g.succ s ++ [(d, a, p)]).map some)) ∗
    pts base (nodeA.blk ((nodesL g pp sp).set s
      (some ⟨pp s, sp s, (g.pred s).length, (g.succ s).length + 1⟩))) ∗ sapsA (pp s) (g.pred s) ∗
      all (nbrs g pp sp) ((List.range g.n).erase s)) (by sep) fun _ => ?_
  rw [emp_star]
  refine (triple_store (A := nodeA) (a := base) (i := s) (l := (nodesL g pp sp).set s
      (some ⟨pp s, sp s, (g.pred s).length, (g.succ s).length + 1⟩))
      ⟨pp s, some new, (g.pred s).length, (g.succ s).length + 1⟩ (by rw [List.length_set]; omega)).step
    (pts new (sapA.blk ((g.succ s ++ [(d, a, p)]).map some)) ∗ sapsA (pp s) (g.pred s) ∗
      all (nbrs g pp sp) ((List.range g.n).erase s)) (by sep) fun _ => ?_
  rw [set_set]
  have e2 := grP_addS base pp sp g s hs (d, a, p) new
  rw [show (pts base (nodeA.blk ((nodesL g pp sp).set s
      (some ⟨pp s, some new, (g.pred s).length, (g.succ s).length + 1⟩))) ∗
      pts new (sapA.blk ((g.succ s ++ [(d, a, p)]).map some)) ∗ sapsA (pp s) (g.pred s) ∗
      all (nbrs g pp sp) ((List.range g.n).erase s)) = grP base pp (Function.update sp s (some new)) (addS g s (d, a, p)) by
    rw [← e2]; ac_rfl]
  clear e1 e2
  generalize hg' : addS g s (d, a, p) = g' at *
  generalize Function.update sp s (some new) = sp'
  have hn' : g'.n = g.n := by rw [← hg']; rfl
  rw [← addSP, hg', ← hn']
  rw [← hn'] at hd
  clear hg' hn' hs hlen new sp g
  rename_i x1 x2 x3 x4
  clear x1 x2 x3 x4
  have hlen : (nodesL g' pp sp').length = g'.n := by simp [nodesL]
  refine Triple.load (has_nodes _ _ _ _) (nodesL_get pp sp' hd) ?_
  have e1 : grP base pp sp' g' = (pts base (nodeA.blk (nodesL g' pp sp')) ∗ sapsA (pp d) (g'.pred d) ∗
      sapsA (sp' d) (g'.succ d) ∗ all (nbrs g' pp sp') ((List.range g'.n).erase d)) := by
    rw [grP, all_erase _ (List.mem_range.2 hd), nbrs, star_assoc]
  rw [e1]
  refine (triple_store (A := nodeA) (l := nodesL g' pp sp') _ (by omega)).step _ rfl fun _ => ?_
  refine Triple.load (by has) (List.getElem?_set_self (by omega)) ?_
  refine Triple.allocArr fun new => ?_
  dsimp only [nodeOf]
  rw [Nat.add_sub_cancel]
  refine (triple_copySaps (pp d) (g'.pred d) new _ 0 (List.replicate ((g'.pred d).length + 1) none) (by simp)
    (by simp)).step (pts base (nodeA.blk ((nodesL g' pp sp').set d
      (some ⟨pp d, sp' d, (g'.pred d).length + 1, (g'.succ d).length⟩))) ∗ sapsA (sp' d) (g'.succ d) ∗
      all (nbrs g' pp sp') ((List.range g'.n).erase d)) (by sep) fun _ => ?_
  rw [List.drop_zero]
  refine (triple_store (A := sapA) (a := new) (i := (g'.pred d).length) (l := put (List.replicate ((g'.pred d).length + 1) none) 0 (g'.pred d)) (s, a, p)
    (by rw [put_length, List.length_replicate]; omega)).step (sapsA (pp d) (g'.pred d) ∗ pts base (nodeA.blk ((nodesL g' pp sp').set d
      (some ⟨pp d, sp' d, (g'.pred d).length + 1, (g'.succ d).length⟩))) ∗ sapsA (sp' d) (g'.succ d) ∗
      all (nbrs g' pp sp') ((List.range g'.n).erase d)) (by sep) fun _ => ?_
  rw [set_last]
  refine (triple_freeSaps (pp d) (g'.pred d)).step (pts new (sapA.blk ((g'.pred d ++ [(s, a, p)]).map some)) ∗
    pts base (nodeA.blk ((nodesL g' pp sp').set d
      (some ⟨pp d, sp' d, (g'.pred d).length + 1, (g'.succ d).length⟩))) ∗ sapsA (sp' d) (g'.succ d) ∗
      all (nbrs g' pp sp') ((List.range g'.n).erase d)) (by sep) fun _ => ?_
  rw [emp_star]
  refine (triple_store (A := nodeA) (a := base) (i := d) (l := (nodesL g' pp sp').set d
      (some ⟨pp d, sp' d, (g'.pred d).length + 1, (g'.succ d).length⟩))
      ⟨some new, sp' d, (g'.pred d).length + 1, (g'.succ d).length⟩ (by rw [List.length_set]; omega)).last
    (pts new (sapA.blk ((g'.pred d ++ [(s, a, p)]).map some)) ∗ sapsA (sp' d) (g'.succ d) ∗
      all (nbrs g' pp sp') ((List.range g'.n).erase d)) (by sep) fun _ => ?_
  rw [set_set, grP_addP base pp sp' g' d hd (s, a, p) new]
  exact imp_gr

theorem triple_addItems (c : GraphC) (n : Nat) (inv : Nat → Option (Nat × Nat)) (items : List ((Nat × Nat) × K))
    (hi : ∀ e ∈ items, e.1.2 < n ∧ ∀ s a, inv e.1.1 = some (s, a) → s < n) (g : Graph K) (hg : g.n = n) :
    Triple (gr c g) (addItems c inv items) fun b => ex fun g' : Graph K =>
      lift (g'.n = n ∧ if b then g.build n inv items = .ok g' else g.build n inv items = .error .keyError) ∗ gr c g' := by
  induction items generalizing g with
  | nil =>
    exact Triple.pure (Imp.ex_intro g (Imp.lift_intro ⟨hg, rfl⟩ Imp.rfl))
  | cons e items ih =>
    obtain ⟨⟨i, d⟩, p⟩ := e
    have h0 := hi ((i, d), p) (by simp)
    unfold addItems
    dsimp only at h0
    cases hv : inv i with
    | none =>
      refine Triple.pure (Imp.ex_intro g (Imp.lift_intro ⟨hg, ?_⟩ Imp.rfl))
      simp [Graph.build, hv]
    | some sa =>
      obtain ⟨s, a⟩ := sa
      have hs := h0.2 s a hv
      have hb : g.build n inv (((i, d), p) :: items) = (g.addSuccessor s a p d).build n inv items := by
        simp [Graph.build, hv, hs, h0.1]
      refine (triple_addSuccessor c g s a p d (by omega) (by omega)).bind fun _ => ?_
      rw [hb]
      exact ih (fun e he => hi e (by simp [he])) (g.addSuccessor s a p d) hg

theorem triple_freeNodes (a n : Nat) (pp sp : Nat → Ptr) (g : Graph K) (m i : Nat) (h : i + m = g.n) :
    Triple (pts a (nodeA.blk (nodesL g pp sp)) ∗ all (nbrs g pp sp) (List.range' i m)) (freeNodes ⟨some a, n⟩ m i) fun _ =>
      pts a (nodeA.blk (nodesL g pp sp)) := by
  induction m generalizing i with
  | zero =>
    refine Triple.pure ?_
    simp only [List.range', all, star_emp]
    exact Imp.rfl
  | succ m ih =>
    unfold freeNodes
    dsimp only
    refine Triple.load (by has) (nodesL_get pp sp (show i < g.n by omega)) ?_
    simp only [List.range'_succ, all, nbrs]
    refine (triple_freeSaps (pp i) (g.pred i)).step (sapsA (sp i) (g.succ i) ∗ pts a (nodeA.blk (nodesL g pp sp)) ∗
      all (nbrs g pp sp) (List.range' (i + 1) m)) (by unfold nbrs; sep) fun _ => ?_
    rw [emp_star]
    refine (triple_freeSaps (sp i) (g.succ i)).step _ rfl fun _ => ?_
    rw [emp_star]
    exact ih (i + 1) (by omega)

theorem triple_dealloc (c : GraphC) (g : Graph K) : Triple (gr c g) (dealloc c) fun _ => emp := by
  rw [← star_emp (gr c g)]
  refine Triple.gr fun base pp sp hc => ?_
  subst hc
  rw [star_emp, grP, List.range_eq_range']
  unfold dealloc
  refine (triple_freeNodes base g.n pp sp g g.n 0 (by omega)).bind fun _ => ?_
  exact triple_free _ _

theorem triple_newGraph (n : Nat) (inv : Nat → Option (Nat × Nat)) (items : List ((Nat × Nat) × K))
    (hi : ∀ e ∈ items, e.1.2 < n ∧ ∀ s a, inv e.1.1 = some (s, a) → s < n) :
    Triple (emp : HProp K) (newGraph n inv items) fun r =>
      match r with
      | .ok c => ex fun g => lift ((Graph.empty n).build n inv items = .ok g) ∗ gr c g
      | .error e => lift ((Graph.empty n : Graph K).build n inv items = .error e) := by
  unfold newGraph
  refine Triple.allocArr fun a => ?_
  rw [star_emp]
  refine (triple_initNodes a n 0 (List.replicate n none) (by simp)).bind fun _ => ?_
  have e : (pts a (nodeA.blk (put (List.replicate n none) 0 (List.replicate n ⟨none, none, 0, 0⟩))) : HProp K) =
      grP a (fun _ => none) (fun _ => none) (Graph.empty n) := by
    rw [put_all _ n (by simp), grP]
    have h1 : all (nbrs (Graph.empty n : Graph K) (fun _ => none) fun _ => none) (List.range n) = emp := by
      have : ∀ l : List Nat, all (nbrs (Graph.empty n : Graph K) (fun _ => none) fun _ => none) l = emp := by
        intro l
        induction l with
        | nil => rfl
        | cons x l ih =>
          rw [all, ih, star_emp]
          simp only [nbrs, Graph.empty, sapsA]
          rw [lift_true, emp_star]
      exact this _
    show _ = (_ ∗ all _ (List.range n))
    rw [h1, star_emp]
    congr 2
    unfold nodesL
    show _ = (List.range n).map _
    simp only [nodeOf, Graph.empty, List.length_nil]
    apply List.ext_getElem?
    intro j
    by_cases hj : j < n
    · simp [hj]
    · rw [List.getElem?_eq_none (by simp; omega), List.getElem?_eq_none (by simp; omega)]
  rw [e]
  refine ((triple_addItems ⟨some a, n⟩ n inv items hi (Graph.empty n) rfl).pre imp_gr).bind fun b => ?_
  refine Triple.of_ex fun g => Triple.of_lift fun hb => ?_
  cases b with
  | true =>
    rw [if_pos rfl]
    exact Triple.pure (Imp.ex_intro g (Imp.lift_intro (by simpa using hb.2) Imp.rfl))
  | false =>
    rw [if_neg (by simp)]
    refine (triple_dealloc _ g).bind fun _ => Triple.pure ?_
    dsimp only
    rw [lift_of (by simpa using hb.2)]
    exact Imp.rfl

/-! ### Neighbours -/

theorem triple_listSaps {P : HProp K} {p : Ptr} {l : List (Nat × Nat × K)} (h : HasSaps P p l) (a : Option Nat)
    (m i : Nat) (hm : i + m = l.length) :
    Triple P (listSaps p a m i) fun r => lift (r = (l.drop i).filter fun t => a.isNone || a == some t.2.1) ∗ P := by
  induction m generalizing i with
  | zero =>
    rw [List.drop_eq_nil_of_le (by omega)]
    exact Triple.pure (Imp.lift_intro rfl Imp.rfl)
  | succ m ih =>
    have hi : i < l.length := by omega
    unfold listSaps
    refine Triple.loadSap h (List.getElem?_eq_getElem hi) ?_
    refine (ih (i + 1) (by omega)).bind fun r => Triple.of_lift fun hr => ?_
    refine Triple.pure (Imp.lift_intro ?_ Imp.rfl)
    rw [List.drop_eq_getElem_cons hi, hr]
    rw [List.filter_cons]

theorem triple_successors (c : GraphC) (g : Graph K) (s : Nat) (a : Option Nat) (hs : s < g.n) :
    Triple (gr c g) (successors c s a) fun r => lift (r = g.successors s a) ∗ gr c g := by
  rw [← star_emp (gr c g)]
  refine Triple.gr fun base pp sp hc => ?_
  subst hc
  rw [star_emp, star_emp]
  unfold successors
  refine Triple.load (has_nodes _ _ _ _) (nodesL_get pp sp hs) ?_
  refine (triple_listSaps (has_succ base pp sp hs) a _ 0 (by simp [nodeOf])).post fun r => ?_
  exact Imp.of_lift fun hr => Imp.lift_intro (by rw [hr, List.drop_zero]; rfl) imp_gr

theorem triple_predecessors (c : GraphC) (g : Graph K) (s : Nat) (a : Option Nat) (hs : s < g.n) :
    Triple (gr c g) (predecessors c s a) fun r => lift (r = g.predecessors s a) ∗ gr c g := by
  rw [← star_emp (gr c g)]
  refine Triple.gr fun base pp sp hc => ?_
  subst hc
  rw [star_emp, star_emp]
  unfold predecessors
  refine Triple.load (has_nodes _ _ _ _) (nodesL_get pp sp hs) ?_
  refine (triple_listSaps (has_pred base pp sp hs) a _ 0 (by simp [nodeOf])).post fun r => ?_
  exact Imp.of_lift fun hr => Imp.lift_intro (by rw [hr, List.drop_zero]; rfl) imp_gr

end Verif.Proofs.Sep
