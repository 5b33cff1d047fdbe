import Verif.Model.Mem
import Mathlib.Data.Finset.Card
import Mathlib.Data.Finset.Disjoint
import Mathlib.Tactic.Ring
import Mathlib.Tactic.Tauto
/-!
# Assertions about parts of the memory

A small separation logic for the computations of `Model/Mem`: an assertion speaks about a part of the memory,
`P ∗ Q` about two parts without common block.  `Triple P c Q`: whenever a part of the memory satisfies `P`, the
computation `c` has a defined result, the part satisfies `Q` afterwards and the rest is unchanged.
-/

namespace Verif.Proofs.Sep
open Verif.Model.Mem

variable {K α β : Type}

/-- a part of the memory -/
abbrev Part (K : Type) := Nat → Option (Block K)

/-- no block in common -/
def Disj (f g : Part K) : Prop := ∀ a, f a = none ∨ g a = none

/-- two parts together -/
def union (f g : Part K) : Part K := fun a => (f a).or (g a)

/-- a statement about a part of the memory -/
abbrev HProp (K : Type) := Part K → Prop

/-- two separate parts -/
def star (P Q : HProp K) : HProp K := fun h => ∃ f g, Disj f g ∧ h = union f g ∧ P f ∧ Q g

infixr:35 " ∗ " => star

/-- nothing -/
def emp : HProp K := fun h => h = fun _ => none

/-- a fact that does not depend on the memory -/
def lift (φ : Prop) : HProp K := fun h => φ ∧ h = fun _ => none

/-- the block `b` at address `a` -/
def pts (a : Nat) (b : Block K) : HProp K := fun h => h = Function.update (fun _ => none) a (some b)

/-- `k` blocks -/
def junk (k : Nat) : HProp K := fun h => ∃ s : Finset Nat, s.card = k ∧ ∀ a, h a ≠ none ↔ a ∈ s

theorem Disj.symm {f g : Part K} (h : Disj f g) : Disj g f := fun a => (h a).symm

theorem union_comm {f g : Part K} (h : Disj f g) : union f g = union g f := by
  funext a
  simp only [union]
  rcases h a with h | h <;> simp [h]

theorem union_assoc (f g k : Part K) : union (union f g) k = union f (union g k) := by
  funext a; simp only [union, Option.or_assoc]

theorem disj_union_left {f g k : Part K} : Disj (union f g) k ↔ Disj f k ∧ Disj g k := by
  constructor
  · intro h
    refine ⟨fun a => ?_, fun a => ?_⟩ <;> rcases h a with h | h
    · left; simp only [union, Option.or_eq_none_iff] at h; exact h.1
    · exact Or.inr h
    · left; simp only [union, Option.or_eq_none_iff] at h; exact h.2
    · exact Or.inr h
  · rintro ⟨h1, h2⟩ a
    rcases h1 a with h1 | h1
    · rcases h2 a with h2 | h2
      · left; simp [union, h1, h2]
      · exact Or.inr h2
    · exact Or.inr h1

theorem disj_union_right {f g k : Part K} : Disj k (union f g) ↔ Disj k f ∧ Disj k g := by
  constructor
  · intro h
    have := disj_union_left.1 h.symm
    exact ⟨this.1.symm, this.2.symm⟩
  · rintro ⟨h1, h2⟩
    exact (disj_union_left.2 ⟨h1.symm, h2.symm⟩).symm

theorem star_comm (P Q : HProp K) : (P ∗ Q) = (Q ∗ P) := by
  funext h
  apply propext
  constructor <;>
  · rintro ⟨f, g, hd, rfl, hp, hq⟩
    exact ⟨g, f, hd.symm, union_comm hd, hq, hp⟩

theorem star_assoc (P Q R : HProp K) : ((P ∗ Q) ∗ R) = (P ∗ Q ∗ R) := by
  funext h
  apply propext
  constructor
  · rintro ⟨_, k, hd, rfl, ⟨f, g, hd', rfl, hp, hq⟩, hr⟩
    rw [disj_union_left] at hd
    exact ⟨f, union g k, disj_union_right.2 ⟨hd', hd.1⟩, union_assoc _ _ _, hp, g, k, hd.2, rfl, hq, hr⟩
  · rintro ⟨f, _, hd, rfl, hp, g, k, hd', rfl, hq, hr⟩
    rw [disj_union_right] at hd
    exact ⟨union f g, k, disj_union_left.2 ⟨hd.2, hd'⟩, (union_assoc _ _ _).symm, ⟨f, g, hd.1, rfl, hp, hq⟩, hr⟩

instance : Std.Commutative (star (K := K)) := ⟨star_comm⟩
instance : Std.Associative (star (K := K)) := ⟨star_assoc⟩

theorem emp_star (P : HProp K) : (emp ∗ P) = P := by
  funext h
  apply propext
  constructor
  · rintro ⟨f, g, -, rfl, rfl, hp⟩
    have : union (fun _ => none) g = g := by funext a; simp [union]
    rw [this]; exact hp
  · intro hp
    exact ⟨fun _ => none, h, fun a => Or.inl rfl, by funext a; simp [union], rfl, hp⟩

theorem star_emp (P : HProp K) : (P ∗ emp) = P := by rw [star_comm, emp_star]

theorem lift_star {φ : Prop} {P : HProp K} {h : Part K} : (lift φ ∗ P) h ↔ φ ∧ P h := by
  constructor
  · rintro ⟨f, g, -, rfl, ⟨hφ, rfl⟩, hp⟩
    have : union (fun _ => none) g = g := by funext a; simp [union]
    rw [this]; exact ⟨hφ, hp⟩
  · rintro ⟨hφ, hp⟩
    exact ⟨fun _ => none, h, fun a => Or.inl rfl, by funext a; simp [union], ⟨hφ, rfl⟩, hp⟩

theorem lift_true : (lift True : HProp K) = emp := by
  funext h; apply propext; simp [lift, emp]

theorem lift_of {φ : Prop} (hφ : φ) : (lift φ : HProp K) = emp := by
  funext h; apply propext; simp [lift, emp, hφ]

/-- one assertion implies another -/
def Imp (P Q : HProp K) : Prop := ∀ h, P h → Q h

theorem Imp.rfl {P : HProp K} : Imp P P := fun _ h => h

theorem Imp.trans {P Q R : HProp K} (h : Imp P Q) (h' : Imp Q R) : Imp P R := fun k hk => h' k (h k hk)

theorem Imp.star {P Q P' Q' : HProp K} (h : Imp P P') (h' : Imp Q Q') : Imp (P ∗ Q) (P' ∗ Q') := by
  rintro k ⟨f, g, hd, rfl, hp, hq⟩
  exact ⟨f, g, hd, by rfl, h _ hp, h' _ hq⟩

theorem Imp.of_eq {P Q : HProp K} (h : P = Q) : Imp P Q := by subst h; exact Imp.rfl

/-! ### `k` blocks -/

theorem junk_zero : (junk 0 : HProp K) = emp := by
  funext h
  apply propext
  constructor
  · rintro ⟨s, hs, h'⟩
    rw [Finset.card_eq_zero] at hs
    subst hs
    funext a
    by_contra hn
    exact absurd ((h' a).1 hn) (Finset.notMem_empty a)
  · intro hh
    subst hh
    exact ⟨∅, by simp, by simp⟩

theorem junk_pts (a : Nat) (b : Block K) : Imp (pts a b) (junk 1) := by
  rintro h hh
  subst hh
  refine ⟨{a}, by simp, fun x => ?_⟩
  by_cases hx : x = a
  · subst hx; simp
  · simp [hx]

theorem junk_add (j k : Nat) : Imp (junk j ∗ junk k : HProp K) (junk (j + k)) := by
  rintro h ⟨f, g, hd, rfl, ⟨s, hs, hs'⟩, ⟨t, ht, ht'⟩⟩
  refine ⟨s ∪ t, ?_, fun a => ?_⟩
  · rw [Finset.card_union_of_disjoint, hs, ht]
    rw [Finset.disjoint_left]
    intro a ha hb
    rcases hd a with h | h
    · exact (hs' a).2 ha h
    · exact (ht' a).2 hb h
  · rw [Finset.mem_union, ← hs' a, ← ht' a]
    simp only [union, ne_eq, Option.or_eq_none_iff]
    tauto

/-! ### Triples -/

/-- only addresses below `next` are in use -/
def Fit (h : Heap K) : Prop := ∀ a, h.next ≤ a → h.live a = none

/-- whenever a part of the memory satisfies `P`, the computation has a result, the part satisfies `Q` afterwards and
the rest of the memory is unchanged -/
def Triple (P : HProp K) (c : M K α) (Q : α → HProp K) : Prop :=
  ∀ (F : HProp K) (h : Heap K), Fit h → (P ∗ F) h.live →
    ∃ r h', c h = .ok (r, h') ∧ Fit h' ∧ h.next ≤ h'.next ∧ (Q r ∗ F) h'.live

theorem Triple.conseq {P P' : HProp K} {c : M K α} {Q Q' : α → HProp K} (h : Triple P' c Q') (hP : Imp P P')
    (hQ : ∀ r, Imp (Q' r) (Q r)) : Triple P c Q := by
  intro F k hk hp
  obtain ⟨r, k', hc, hk', hn, hq⟩ := h F k hk (Imp.star hP Imp.rfl _ hp)
  exact ⟨r, k', hc, hk', hn, Imp.star (hQ r) Imp.rfl _ hq⟩

theorem Triple.pre {P P' : HProp K} {c : M K α} {Q : α → HProp K} (h : Triple P' c Q) (hP : Imp P P') :
    Triple P c Q := h.conseq hP fun _ => Imp.rfl

theorem Triple.post {P : HProp K} {c : M K α} {Q Q' : α → HProp K} (h : Triple P c Q') (hQ : ∀ r, Imp (Q' r) (Q r)) :
    Triple P c Q := h.conseq Imp.rfl hQ

theorem Triple.frame {P : HProp K} {c : M K α} {Q : α → HProp K} (h : Triple P c Q) (R : HProp K) :
    Triple (P ∗ R) c fun r => Q r ∗ R := by
  intro F k hk hp
  rw [star_assoc] at hp
  obtain ⟨r, k', hc, hk', hn, hq⟩ := h _ k hk hp
  exact ⟨r, k', hc, hk', hn, by rw [star_assoc]; exact hq⟩

theorem Triple.bind {P : HProp K} {c : M K α} {R : α → HProp K} {f : α → M K β} {Q : β → HProp K} (h : Triple P c R)
    (h' : ∀ r, Triple (R r) (f r) Q) : Triple P (c >>= f) Q := by
  intro F k hk hp
  obtain ⟨r, k', hc, hk', hn, hq⟩ := h F k hk hp
  obtain ⟨r', k'', hc', hk'', hn', hq'⟩ := h' r F k' hk' hq
  refine ⟨r', k'', ?_, hk'', hn.trans hn', hq'⟩
  show StateT.bind c f k = _
  unfold StateT.bind
  simp only [hc]
  exact hc'

/-- the next command uses the part `P`, the part `R` is left -/
theorem Triple.step {P0 P : HProp K} {c : M K α} {Q : α → HProp K} {f : α → M K β} {S : β → HProp K}
    (h : Triple P c Q) (R : HProp K) (hP : P0 = (P ∗ R)) (h' : ∀ r, Triple (Q r ∗ R) (f r) S) :
    Triple P0 (c >>= f) S := by
  subst hP
  exact (h.frame R).bind h'

/-- the last command uses the part `P`, the part `R` is left -/
theorem Triple.last {P0 P : HProp K} {c : M K α} {Q : α → HProp K} {S : α → HProp K} (h : Triple P c Q) (R : HProp K)
    (hP : P0 = (P ∗ R)) (h' : ∀ r, Imp (Q r ∗ R) (S r)) : Triple P0 c S := by
  subst hP
  exact (h.frame R).post h'

theorem Triple.pure {P : HProp K} {r : α} {Q : α → HProp K} (h : Imp P (Q r)) : Triple P (Pure.pure r) Q := by
  intro F k hk hp
  exact ⟨r, k, rfl, hk, le_rfl, Imp.star h Imp.rfl _ hp⟩

theorem Triple.of_lift {φ : Prop} {P : HProp K} {c : M K α} {Q : α → HProp K} (h : φ → Triple P c Q) :
    Triple (lift φ ∗ P) c Q := by
  intro F k hk hp
  rw [star_assoc, lift_star] at hp
  exact h hp.1 F k hk hp.2

theorem star_exists {ι : Type} {P : ι → HProp K} {F : HProp K} {h : Part K} :
    ((fun h => ∃ i, P i h) ∗ F) h ↔ ∃ i, (P i ∗ F) h := by
  constructor
  · rintro ⟨f, g, hd, rfl, ⟨i, hp⟩, hf⟩
    exact ⟨i, f, g, hd, rfl, hp, hf⟩
  · rintro ⟨i, f, g, hd, rfl, hp, hf⟩
    exact ⟨f, g, hd, rfl, ⟨i, hp⟩, hf⟩

/-- some `i` -/
def ex {ι : Type} (P : ι → HProp K) : HProp K := fun h => ∃ i, P i h

theorem ex_star {ι : Type} (P : ι → HProp K) (F : HProp K) : (ex P ∗ F) = ex fun i => P i ∗ F := by
  funext h
  exact propext star_exists

theorem Triple.of_ex {ι : Type} {P : ι → HProp K} {c : M K α} {Q : α → HProp K} (h : ∀ i, Triple (P i) c Q) :
    Triple (ex P) c Q := by
  intro F k hk hp
  obtain ⟨i, hp⟩ := star_exists.1 hp
  exact h i F k hk hp

theorem Imp.ex_intro {ι : Type} {P : HProp K} {Q : ι → HProp K} (i : ι) (h : Imp P (Q i)) : Imp P (ex Q) :=
  fun k hk => ⟨i, h k hk⟩

theorem Imp.of_ex {ι : Type} {P : ι → HProp K} {Q : HProp K} (h : ∀ i, Imp (P i) Q) : Imp (ex P) Q :=
  fun k ⟨i, hk⟩ => h i k hk

theorem Imp.of_lift {φ : Prop} {P Q : HProp K} (h : φ → Imp P Q) : Imp (lift φ ∗ P) Q := by
  intro k hk
  rw [lift_star] at hk
  exact h hk.1 k hk.2

theorem Imp.lift_intro {φ : Prop} {P Q : HProp K} (hφ : φ) (h : Imp P Q) : Imp P (lift φ ∗ Q) :=
  fun k hk => lift_star.2 ⟨hφ, h k hk⟩

/-! ### Blocks that are only read -/

/-- the assertion says what is at `a` -/
def Has (P : HProp K) (a : Nat) (b : Block K) : Prop := ∀ h, P h → h a = some b

theorem Has.pts (a : Nat) (b : Block K) : Has (pts a b) a b := by
  rintro h rfl; simp

theorem Has.left {P Q : HProp K} {a : Nat} {b : Block K} (h : Has P a b) : Has (P ∗ Q) a b := by
  rintro k ⟨f, g, hd, rfl, hp, hq⟩
  simp [union, h f hp]

theorem Has.right {P Q : HProp K} {a : Nat} {b : Block K} (h : Has Q a b) : Has (P ∗ Q) a b := by
  rintro k ⟨f, g, hd, rfl, hp, hq⟩
  have hg := h g hq
  rcases hd a with hf | hf
  · simp [union, hf, hg]
  · rw [hf] at hg; cases hg

theorem Has.imp {P Q : HProp K} {a : Nat} {b : Block K} (h : Has Q a b) (hi : Imp P Q) : Has P a b :=
  fun k hk => h k (hi k hk)

/-- find the block in the assertion -/
macro "has" : tactic => `(tactic| (repeat' (first | exact Has.pts _ _ | assumption | (apply Has.left; first | exact Has.pts _ _ | assumption) | apply Has.right)))

theorem pts_self (a : Nat) (b : Block K) (h : Part K) (hh : pts a b h) : h a = some b := by
  subst hh; simp

theorem triple_read {P : HProp K} {a : Nat} {b : Block K} (h : Has P a b) :
    Triple P (readB (some a)) fun r => lift (r = b) ∗ P := by
  intro F k hk hp
  have := h.left (Q := F) k.live hp
  refine ⟨b, k, ?_, hk, le_rfl, ?_⟩
  · simp [readB, this]
  · show ((lift (b = b) ∗ P) ∗ F) _; rw [lift_of rfl, emp_star]; exact hp

/-- the block at `a` is known to be `b` -/
theorem Triple.read {P : HProp K} {a : Nat} {b : Block K} {f : Block K → M K β} {Q : β → HProp K} (h : Has P a b)
    (h' : Triple P (f b) Q) : Triple P (readB (some a) >>= f) Q :=
  (triple_read h).bind fun r => Triple.of_lift fun hr => by subst hr; exact h'

theorem triple_readArr {P : HProp K} {a : Nat} {A : Arr K α} {l : List (Option α)} (h : Has P a (A.blk l)) :
    Triple P (readArr A (some a)) fun r => lift (r = l) ∗ P := by
  unfold readArr
  refine Triple.read h ?_
  simp only [A.get_blk]
  exact Triple.pure (Imp.lift_intro rfl Imp.rfl)

theorem triple_load {P : HProp K} {a : Nat} {A : Arr K α} {l : List (Option α)} {i : Nat} {v : α}
    (h : Has P a (A.blk l)) (hv : l[i]? = some (some v)) :
    Triple P (load A (some a) i) fun r => lift (r = v) ∗ P := by
  unfold load
  refine (triple_readArr h).bind fun r => Triple.of_lift fun hr => ?_
  subst hr
  simp only [hv]
  exact Triple.pure (Imp.lift_intro rfl Imp.rfl)

theorem Triple.load {P : HProp K} {a : Nat} {A : Arr K α} {l : List (Option α)} {i : Nat} {v : α} {f : α → M K β}
    {Q : β → HProp K} (h : Has P a (A.blk l)) (hv : l[i]? = some (some v)) (h' : Triple P (f v) Q) :
    Triple P (load A (some a) i >>= f) Q :=
  (triple_load h hv).bind fun r => Triple.of_lift fun hr => by subst hr; exact h'

/-! ### New and changed blocks -/

theorem triple_alloc (b : Block K) : Triple emp (alloc b) fun a => pts a b := by
  intro F k hk hp
  rw [emp_star] at hp
  refine ⟨k.next, _, rfl, ?_, Nat.le_succ _, ?_⟩
  · intro a ha
    show Function.update k.live k.next (some b) a = none
    rw [Function.update_of_ne (by have : k.next + 1 ≤ a := ha; omega)]
    exact hk a (by have : k.next + 1 ≤ a := ha; omega)
  · refine ⟨_, k.live, ?_, ?_, rfl, hp⟩
    · intro a
      by_cases ha : a = k.next
      · right; subst ha; exact hk _ le_rfl
      · left; rw [Function.update_of_ne ha]
    · funext a
      by_cases ha : a = k.next
      · subst ha; simp [union]
      · simp [union, Function.update_of_ne ha]

theorem Triple.alloc {P : HProp K} {b : Block K} {f : Nat → M K β} {Q : β → HProp K}
    (h : ∀ a, Triple (pts a b ∗ P) (f a) Q) : Triple P (alloc b >>= f) Q :=
  (triple_alloc b).step P (emp_star P).symm h

theorem Triple.allocArr {P : HProp K} {A : Arr K α} {n : Nat} {f : Nat → M K β} {Q : β → HProp K}
    (h : ∀ a, Triple (pts a (A.blk (List.replicate n none)) ∗ P) (f a) Q) : Triple P (allocArr A n >>= f) Q :=
  Triple.alloc h

theorem pts_split {a : Nat} {b : Block K} {F : HProp K} {h : Part K} (hh : (pts a b ∗ F) h) :
    h a = some b ∧ F (Function.update h a none) ∧ ∀ b', (pts a b' ∗ F) (Function.update h a (some b')) := by
  obtain ⟨f, g, hd, rfl, rfl, hF⟩ := hh
  have hg : g a = none := by
    rcases hd a with h | h
    · simp at h
    · exact h
  have he : Function.update (union (Function.update (fun _ => none) a (some b)) g) a none = g := by
    funext x
    by_cases hx : x = a
    · subst hx; simp [hg]
    · simp [union, Function.update_of_ne hx]
  refine ⟨by simp [union], by rw [he]; exact hF, fun b' => ⟨_, g, ?_, ?_, rfl, hF⟩⟩
  · intro x
    by_cases hx : x = a
    · subst hx; exact Or.inr hg
    · left; simp [Function.update_of_ne hx]
  · funext x
    by_cases hx : x = a
    · subst hx; simp [union]
    · simp [union, Function.update_of_ne hx]

theorem Fit.lt {h : Heap K} (hf : Fit h) {a : Nat} {b : Block K} (ha : h.live a = some b) : a < h.next := by
  by_contra hn
  rw [hf a (by omega)] at ha
  cases ha

theorem triple_write (a : Nat) (b b' : Block K) : Triple (pts a b) (writeB (some a) b') fun _ => pts a b' := by
  intro F k hk hp
  obtain ⟨ha, -, hw⟩ := pts_split hp
  refine ⟨(), ⟨k.next, Function.update k.live a (some b')⟩, by simp [writeB, ha], ?_, le_rfl, hw b'⟩
  intro x hx
  have := hk.lt ha
  show Function.update k.live a (some b') x = none
  rw [Function.update_of_ne (by have : k.next ≤ x := hx; omega)]
  exact hk x hx

theorem triple_free (a : Nat) (b : Block K) : Triple (pts a b) (free (some a)) fun _ => emp := by
  intro F k hk hp
  obtain ⟨ha, hF, -⟩ := pts_split hp
  refine ⟨(), ⟨k.next, Function.update k.live a none⟩, by simp [free, ha], ?_, le_rfl, by rw [emp_star]; exact hF⟩
  intro x hx
  have := hk.lt ha
  show Function.update k.live a none x = none
  rw [Function.update_of_ne (by have : k.next ≤ x := hx; omega)]
  exact hk x hx

theorem triple_store {A : Arr K α} {a i : Nat} {l : List (Option α)} (v : α) (hi : i < l.length) :
    Triple (pts a (A.blk l)) (store A (some a) i v) fun _ => pts a (A.blk (l.set i (some v))) := by
  unfold store
  refine (triple_readArr (Has.pts _ _)).bind fun r => Triple.of_lift fun hr => ?_
  subst hr
  rw [if_pos hi]
  exact triple_write _ _ _

/-- `f` for all elements of a list -/
def all {ι : Type} (f : ι → HProp K) : List ι → HProp K
  | [] => emp
  | x :: l => f x ∗ all f l

theorem all_append {ι : Type} (f : ι → HProp K) (l l' : List ι) : all f (l ++ l') = (all f l ∗ all f l') := by
  induction l with
  | nil => simp only [List.nil_append, all, emp_star]
  | cons x l ih => simp only [List.cons_append, all, ih, star_assoc]

theorem all_perm {ι : Type} (f : ι → HProp K) {l l' : List ι} (h : l.Perm l') : all f l = all f l' := by
  induction h with
  | nil => rfl
  | cons x _ ih => simp only [all, ih]
  | swap x y l => simp only [all]; ac_rfl
  | trans _ _ h1 h2 => rw [h1, h2]

theorem all_congr {ι : Type} {f g : ι → HProp K} {l : List ι} (h : ∀ x ∈ l, f x = g x) : all f l = all g l := by
  induction l with
  | nil => rfl
  | cons x l ih =>
    simp only [all]
    rw [h x (by simp), ih fun y hy => h y (by simp [hy])]

theorem Has.all {ι : Type} {f : ι → HProp K} {l : List ι} {x : ι} (hx : x ∈ l) {a : Nat} {b : Block K}
    (h : Has (f x) a b) : Has (all f l) a b := by
  induction l with
  | nil => cases hx
  | cons y l ih =>
    rcases List.mem_cons.1 hx with rfl | hx
    · exact h.left
    · exact (ih hx).right

end Verif.Proofs.Sep
