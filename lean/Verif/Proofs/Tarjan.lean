import Verif.Proofs.Graph
import Mathlib.Data.List.Nodup
/-! Tarjan's algorithm as written in graph.pyx -/
set_option linter.unusedSectionVars false
set_option linter.unusedVariables false
namespace Verif.Proofs
open Verif.Model Verif.Model.Graph Verif.Spec

section
variable {adj : Nat → List Nat}

/-- paths along `adj` -/
abbrev R (adj : Nat → List Nat) : Nat → Nat → Prop := Relation.ReflTransGen fun u v => v ∈ adj u

/-- finished: visited and no longer on the stack -/
def Done (st : TState) (x : Nat) : Prop := st.idx x ≠ none ∧ x ∉ st.stack

structure TI (adj : Nat → List Nat) (G : Nat → Prop) (st : TState) : Prop where
  nodup : st.stack.Nodup
  vis : ∀ x ∈ st.stack, st.idx x ≠ none
  on : ∀ x, st.idx x ≠ none → (st.on x = true ↔ x ∈ st.stack)
  idxlt : ∀ x k, st.idx x = some k → k < st.i
  inj : ∀ x y k, st.idx x = some k → st.idx y = some k → x = y
  gst : ∀ x, G x → x ∈ st.stack
  nongray : ∀ x, st.idx x ≠ none → ¬ G x → ∀ y ∈ adj x, st.idx y ≠ none
  doneclosed : ∀ x, Done st x → ∀ y ∈ adj x, Done st y
  donenum : ∀ x, Done st x → 1 ≤ st.sccs x ∧ st.sccs x < st.cnt
  doneeq : ∀ x y, Done st x → Done st y → (st.sccs x = st.sccs y ↔ R adj x y ∧ R adj y x)
  used : ∀ c, 1 ≤ c → c < st.cnt → ∃ x, Done st x ∧ st.sccs x = c
  cnt1 : 1 ≤ st.cnt
  chain : ∀ x ∈ st.stack, ∀ y ∈ st.stack, ∀ k l, st.idx x = some k → st.idx y = some l → k ≤ l →
    R adj x y
  back : ∀ y ∈ st.stack, ∃ g, G g ∧ R adj y g ∧
    ∀ k l, st.idx g = some k → st.idx y = some l → k ≤ l

theorem done_reach {G : Nat → Prop} {st : TState} (h : TI adj G st) {x y : Nat} (hx : Done st x)
    (hr : R adj x y) : Done st y := by
  induction hr with
  | refl => exact hx
  | tail _ e ih => exact h.doneclosed _ ih _ e

theorem TI.congr_low {G : Nat → Prop} {st : TState} (h : TI adj G st) (low : Nat → Nat) :
    TI adj G { st with low := low } :=
  ⟨h.nodup, h.vis, h.on, h.idxlt, h.inj, h.gst, h.nongray, h.doneclosed, h.donenum, h.doneeq,
    h.used, h.cnt1, h.chain, h.back⟩

theorem openNode_TI {G : Nat → Prop} {st : TState} (h : TI adj G st) {v : Nat}
    (hv : st.idx v = none) (hg : ∀ g, G g → R adj g v) :
    TI adj (fun x => x = v ∨ G x) (openNode v st) := by
  have hvs : v ∉ st.stack := fun hh => h.vis v hh hv
  have hdone : ∀ x, Done (openNode v st) x ↔ Done st x := by
    intro x
    simp only [Done, openNode, List.mem_cons, not_or]
    by_cases e : x = v
    · subst e; simp [hv]
    · simp [Function.update_of_ne e, e]
  refine ⟨?_, ?_, ?_, ?_, ?_, ?_, ?_, ?_, ?_, ?_, ?_, ?_, ?_, ?_⟩
  · simp [openNode, hvs, h.nodup]
  · intro x hx
    simp only [openNode, List.mem_cons] at hx ⊢
    by_cases e : x = v
    · subst e; simp
    · rw [Function.update_of_ne e]; exact h.vis x (hx.resolve_left e)
  · intro x hx
    simp only [openNode, List.mem_cons] at hx ⊢
    by_cases e : x = v
    · subst e; simp
    · rw [Function.update_of_ne e] at hx ⊢
      rw [h.on x hx]; simp [e]
  · intro x k hx
    simp only [openNode] at hx ⊢
    by_cases e : x = v
    · subst e; simp at hx; omega
    · rw [Function.update_of_ne e] at hx; have := h.idxlt x k hx; omega
  · intro x y k hx hy
    simp only [openNode] at hx hy
    by_cases e : x = v
    · subst e
      by_cases e' : y = x
      · exact e'.symm
      · rw [Function.update_of_ne e'] at hy
        simp at hx
        have := h.idxlt y k hy; omega
    · by_cases e' : y = v
      · subst e'
        rw [Function.update_of_ne e] at hx
        simp at hy
        have := h.idxlt x k hx; omega
      · rw [Function.update_of_ne e] at hx
        rw [Function.update_of_ne e'] at hy
        exact h.inj x y k hx hy
  · intro x hx
    simp only [openNode, List.mem_cons]
    exact hx.imp id (h.gst x)
  · intro x hx hgx y hy
    simp only [not_or] at hgx
    simp only [openNode] at hx ⊢
    rw [Function.update_of_ne hgx.1] at hx
    by_cases e : y = v
    · subst e; simp
    · rw [Function.update_of_ne e]; exact h.nongray x hx hgx.2 y hy
  · intro x hx y hy
    rw [hdone] at hx ⊢
    exact h.doneclosed x hx y hy
  · intro x hx
    rw [hdone] at hx; exact h.donenum x hx
  · intro x y hx hy
    rw [hdone] at hx hy; exact h.doneeq x y hx hy
  · intro c h1 h2
    obtain ⟨x, hx, e⟩ := h.used c h1 h2
    exact ⟨x, (hdone x).2 hx, e⟩
  · exact h.cnt1
  · intro x hx y hy k l hk hl hkl
    simp only [openNode, List.mem_cons] at hx hy hk hl
    by_cases e : x = v
    · subst e
      by_cases e' : y = x
      · subst e'; exact Relation.ReflTransGen.refl
      · rw [Function.update_of_ne e'] at hl
        simp at hk
        have := h.idxlt y l hl; omega
    · by_cases e' : y = v
      · subst e'
        obtain ⟨g, hgg, hr, _⟩ := h.back x (hx.resolve_left e)
        exact hr.trans (hg g hgg)
      · rw [Function.update_of_ne e] at hk
        rw [Function.update_of_ne e'] at hl
        exact h.chain x (hx.resolve_left e) y (hy.resolve_left e') k l hk hl hkl
  · intro y hy
    simp only [openNode, List.mem_cons] at hy
    by_cases e : y = v
    · subst e
      exact ⟨y, Or.inl rfl, Relation.ReflTransGen.refl, by
        intro k l hk hl; rw [hk] at hl; cases hl; exact le_rfl⟩
    · obtain ⟨g, hgg, hr, hle⟩ := h.back y (hy.resolve_left e)
      refine ⟨g, Or.inr hgg, hr, ?_⟩
      intro k l hk hl
      have hgv : g ≠ v := fun e => hvs (e ▸ h.gst g hgg)
      simp only [openNode] at hk hl
      rw [Function.update_of_ne hgv] at hk
      rw [Function.update_of_ne e] at hl
      exact hle k l hk hl

theorem popTo_spec (v : Nat) (S rest : List Nat) (hS : v ∉ S) (st : TState) :
    popTo v (S ++ v :: rest) st =
      { st with
        stack := rest
        on := fun x => if x ∈ S ∨ x = v then false else st.on x
        sccs := fun x => if x ∈ S ∨ x = v then st.cnt else st.sccs x } := by
  induction S generalizing st with
  | nil =>
    simp only [List.nil_append, popTo, if_true, List.not_mem_nil, false_or]
    congr 1
    · funext x; by_cases e : x = v
      · subst e; simp
      · simp [Function.update_of_ne e, e]
    · funext x; by_cases e : x = v
      · subst e; simp
      · simp [Function.update_of_ne e, e]
  | cons w S ih =>
    simp only [List.mem_cons, not_or] at hS
    simp only [List.cons_append, popTo]
    rw [if_neg (Ne.symm hS.1), ih hS.2]
    congr 1
    · funext x
      by_cases e : x = w
      · subst e; simp
      · simp [Function.update_of_ne e, e]
    · funext x
      by_cases e : x = w
      · subst e; simp
      · simp [Function.update_of_ne e, e]

/-- state of the successor loop of `v`, started in `st0`, after the successors `ws` -/
structure LI (adj : Nat → List Nat) (G : Nat → Prop) (v : Nat) (st0 : TState) (ws : List Nat)
    (st : TState) : Prop where
  ti : TI adj (fun x => x = v ∨ G x) st
  frame : ∀ x, st0.idx x ≠ none → st.idx x = st0.idx x ∧ st.low x = st0.low x
  vidx : st.idx v = some st0.i
  stk : ∃ S, st.stack = S ++ v :: st0.stack ∧ (∀ x ∈ S, st0.idx x = none) ∧
    ∀ x ∈ S, ∀ y ∈ adj x, y ∈ st0.stack → ∀ k, st0.idx y = some k → st.low v ≤ k
  wsvis : ∀ w ∈ ws, st.idx w ≠ none
  lowle : st.low v ≤ st0.i
  wslow : ∀ w ∈ ws, w ∈ st0.stack → ∀ k, st0.idx w = some k → st.low v ≤ k
  lowwit : ∃ y ∈ st.stack, st.idx y = some (st.low v) ∧ R adj v y

/-- effect of a call of `strongconnect v` in state `st0` -/
structure Post (adj : Nat → List Nat) (G : Nat → Prop) (v : Nat) (st0 st : TState) : Prop where
  ti : TI adj G st
  frame : ∀ x, st0.idx x ≠ none → st.idx x = st0.idx x ∧ st.low x = st0.low x
  vidx : st.idx v = some st0.i
  stk : ∃ S, st.stack = S ++ st0.stack ∧ (∀ x ∈ S, st0.idx x = none) ∧
    (∀ x ∈ S, ∀ y ∈ adj x, y ∈ st0.stack → ∀ k, st0.idx y = some k → st.low v ≤ k)
  lowle : st.low v ≤ st0.i
  lowwit : (∃ y ∈ st.stack, st.idx y = some (st.low v) ∧ R adj v y) ∨ st.low v = st0.i

theorem closeNode_post {G : Nat → Prop} {v : Nat} {st0 st : TState} (h0 : TI adj G st0)
    (hv0 : st0.idx v = none) (h : LI adj G v st0 (adj v) st) :
    Post adj G v st0 (closeNode v st) := by
  obtain ⟨S, hS, hSn, hSl⟩ := h.stk
  have hvG : ¬ G v := fun hg => h0.vis v (h0.gst v hg) hv0
  have hnd := h.ti.nodup
  rw [hS, List.nodup_append] at hnd
  obtain ⟨hndS, hnd2, hdisj⟩ := hnd
  rw [List.nodup_cons] at hnd2
  have hvS : v ∉ S := fun hh => hdisj v hh v (by simp) rfl
  have hidx0 : ∀ y ∈ st0.stack, ∃ k, st0.idx y = some k ∧ k < st0.i ∧ st.idx y = some k := by
    intro y hy
    obtain ⟨k, hk⟩ := Option.ne_none_iff_exists'.1 (h0.vis y hy)
    exact ⟨k, hk, h0.idxlt y k hk, by rw [(h.frame y (by simp [hk])).1, hk]⟩
  have hmem : ∀ x, x ∈ st.stack ↔ x ∈ S ∨ x = v ∨ x ∈ st0.stack := by intro x; rw [hS]; simp
  by_cases hroot : some (st.low v) = st.idx v
  · -- `v` is a root
    have hlow : st.low v = st0.i := by rw [h.vidx] at hroot; simpa using hroot
    -- no edges from the popped part to the rest of the stack
    have hout : ∀ x, x ∈ S ∨ x = v → ∀ y ∈ adj x, y ∈ st0.stack → False := by
      intro x hx y hy hys
      obtain ⟨k, hk, hlt, _⟩ := hidx0 y hys
      rcases hx with hx | rfl
      · have := hSl x hx y hy hys k hk; omega
      · have := h.wslow y hy hys k hk; omega
    have hsv : ∀ x, x ∈ S ∨ x = v → ∀ y ∈ adj x, st.idx y ≠ none := by
      rintro x (hx | rfl) y hy
      · refine h.ti.nongray x (h.ti.vis x ((hmem x).2 (Or.inl hx))) ?_ y hy
        rintro (rfl | hg)
        · exact hvS hx
        · exact h0.vis x (h0.gst x hg) (hSn x hx)
      · exact h.wsvis y hy
    have hstep : ∀ x, x ∈ S ∨ x = v → ∀ y ∈ adj x, (y ∈ S ∨ y = v) ∨ Done st y := by
      intro x hx y hy
      by_cases hys : y ∈ st.stack
      · rcases (hmem y).1 hys with h1 | h1 | h1
        · exact Or.inl (Or.inl h1)
        · exact Or.inl (Or.inr h1)
        · exact (hout x hx y hy h1).elim
      · exact Or.inr ⟨hsv x hx y hy, hys⟩
    have hpath : ∀ x y, R adj x y → x ∈ S ∨ x = v → (y ∈ S ∨ y = v) ∨ Done st y := by
      intro x y hr hx
      induction hr with
      | refl => exact Or.inl hx
      | tail _ e ih =>
        rcases ih with ih | ih
        · exact hstep _ ih _ e
        · exact Or.inr (h.ti.doneclosed _ ih _ e)
    have hback : ∀ x, x ∈ S ∨ x = v → R adj x v := by
      intro x hx
      obtain ⟨g, hg, hr, _⟩ := h.ti.back x ((hmem x).2 (by tauto))
      rcases hg with rfl | hg
      · exact hr
      · exfalso
        have hgs := h0.gst g hg
        rcases hpath x g hr hx with (h1 | rfl) | h1
        · exact h0.vis g hgs (hSn g h1)
        · exact hvG hg
        · exact h1.2 ((hmem g).2 (Or.inr (Or.inr hgs)))
    have hfwd : ∀ x, x ∈ S ∨ x = v → R adj v x := by
      rintro x (hx | rfl)
      · obtain ⟨k, hk⟩ := Option.ne_none_iff_exists'.1 (h.ti.vis x ((hmem x).2 (Or.inl hx)))
        refine h.ti.chain v ((hmem v).2 (by simp)) x ((hmem x).2 (Or.inl hx)) _ k h.vidx hk ?_
        -- `x` was opened later than `v`
        by_contra hlt
        have hxv := h.ti.chain
        -- by sortedness through the witness: index below st0.i means visited before
        exact absurd hlt (by
          obtain ⟨g, hg, hr, hle⟩ := h.ti.back x ((hmem x).2 (Or.inl hx))
          rcases hg with rfl | hg
          · have := hle _ k h.vidx hk; omega
          · exfalso
            have hgs := h0.gst g hg
            rcases hpath x g hr (Or.inl hx) with (h1 | rfl) | h1
            · exact h0.vis g hgs (hSn g h1)
            · exact hvG hg
            · exact h1.2 ((hmem g).2 (Or.inr (Or.inr hgs))))
      · exact Relation.ReflTransGen.refl
    have hcl : closeNode v st =
        { st with
          stack := st0.stack
          on := fun x => if x ∈ S ∨ x = v then false else st.on x
          sccs := fun x => if x ∈ S ∨ x = v then st.cnt else st.sccs x
          cnt := st.cnt + 1 } := by
      simp only [closeNode]
      rw [if_pos hroot, hS, popTo_spec v S st0.stack hvS]
    have hdone : ∀ x, Done (closeNode v st) x ↔ Done st x ∨ (x ∈ S ∨ x = v) := by
      intro x
      simp only [hcl, Done, hmem]
      constructor
      · rintro ⟨h1, h2⟩
        by_cases h3 : x ∈ S ∨ x = v
        · exact Or.inr h3
        · left; refine ⟨h1, ?_⟩; tauto
      · rintro (⟨h1, h2⟩ | h3)
        · exact ⟨h1, by tauto⟩
        · refine ⟨h.ti.vis x ((hmem x).2 (by tauto)), ?_⟩
          rcases h3 with h3 | rfl
          · exact fun hh => hdisj x h3 x (by simp [hh]) rfl
          · exact hnd2.1
    have hnotold : ∀ x, Done st x → ¬ (x ∈ S ∨ x = v) := fun x hx h3 =>
      hx.2 ((hmem x).2 (by tauto))
    refine ⟨⟨?_, ?_, ?_, ?_, ?_, ?_, ?_, ?_, ?_, ?_, ?_, ?_, ?_, ?_⟩, ?_, ?_, ?_, ?_, ?_⟩
    · rw [hcl]; exact h0.nodup
    · rw [hcl]; intro x hx; exact h.ti.vis x ((hmem x).2 (by tauto))
    · rw [hcl]
      intro x hx
      simp only at hx ⊢
      by_cases h3 : x ∈ S ∨ x = v
      · rw [if_pos h3]
        simp only [Bool.false_eq_true, false_iff]
        rcases h3 with h3 | rfl
        · exact fun hh => hdisj x h3 x (by simp [hh]) rfl
        · exact hnd2.1
      · rw [if_neg h3, h.ti.on x hx, hmem]; tauto
    · rw [hcl]; exact h.ti.idxlt
    · rw [hcl]; exact h.ti.inj
    · rw [hcl]; exact h0.gst
    · rw [hcl]
      intro x hx hg y hy
      by_cases e : x = v
      · subst e; exact h.wsvis y hy
      · exact h.ti.nongray x hx (by tauto) y hy
    · intro x hx y hy
      rw [hdone] at hx ⊢
      rcases hx with hx | hx
      · exact Or.inl (h.ti.doneclosed x hx y hy)
      · exact (hstep x hx y hy).symm
    · intro x hx
      rw [hdone] at hx
      rw [hcl]; simp only
      rcases hx with hx | hx
      · rw [if_neg (hnotold x hx)]
        have := h.ti.donenum x hx; omega
      · rw [if_pos hx]; have := h.ti.cnt1; omega
    · intro x y hx hy
      rw [hdone] at hx hy
      rw [hcl]; simp only
      rcases hx with hx | hx <;> rcases hy with hy | hy
      · rw [if_neg (hnotold x hx), if_neg (hnotold y hy)]; exact h.ti.doneeq x y hx hy
      · rw [if_neg (hnotold x hx), if_pos hy]
        have := h.ti.donenum x hx
        refine iff_of_false (by omega) ?_
        rintro ⟨hr, _⟩
        exact hnotold y (done_reach h.ti hx hr) hy
      · rw [if_neg (hnotold y hy), if_pos hx]
        have := h.ti.donenum y hy
        refine iff_of_false (by omega) ?_
        rintro ⟨_, hr⟩
        exact hnotold x (done_reach h.ti hy hr) hx
      · rw [if_pos hx, if_pos hy]
        exact iff_of_true rfl ⟨(hback x hx).trans (hfwd y hy), (hback y hy).trans (hfwd x hx)⟩
    · intro c h1 h2
      by_cases hc : c = st.cnt
      · refine ⟨v, (hdone v).2 (Or.inr (Or.inr rfl)), ?_⟩
        rw [hcl]; simp [hc]
      · have h2' : c < st.cnt := by rw [hcl] at h2; simp only at h2; omega
        obtain ⟨x, hx, e⟩ := h.ti.used c h1 h2'
        refine ⟨x, (hdone x).2 (Or.inl hx), ?_⟩
        rw [hcl]; simp only; rw [if_neg (hnotold x hx), e]
    · rw [hcl]; simp
    · rw [hcl]
      intro x hx y hy
      exact h.ti.chain x ((hmem x).2 (by tauto)) y ((hmem y).2 (by tauto))
    · rw [hcl]
      intro y hy
      obtain ⟨g, hg, hr, hle⟩ := h.ti.back y ((hmem y).2 (by tauto))
      refine ⟨g, ?_, hr, hle⟩
      rcases hg with rfl | hg
      · exfalso
        obtain ⟨k, hk, hlt, hk'⟩ := hidx0 y hy
        have := hle _ k h.vidx hk'
        omega
      · exact hg
    · rw [hcl]; exact h.frame
    · rw [hcl]; exact h.vidx
    · rw [hcl]; exact ⟨[], by simp, by simp, by simp⟩
    · rw [hcl]; exact h.lowle
    · right; rw [hcl]; exact hlow
  · -- `v` is not a root
    have hcl : closeNode v st = st := by simp only [closeNode]; rw [if_neg hroot]
    have hlow : st.low v < st0.i := by
      have h1 := h.lowle
      have h2 : st.low v ≠ st0.i := by rw [h.vidx] at hroot; simpa using hroot
      omega
    rw [hcl]
    refine ⟨⟨h.ti.nodup, h.ti.vis, h.ti.on, h.ti.idxlt, h.ti.inj, ?_, ?_, h.ti.doneclosed,
      h.ti.donenum, h.ti.doneeq, h.ti.used, h.ti.cnt1, h.ti.chain, ?_⟩, h.frame, h.vidx, ?_,
      h.lowle, Or.inl h.lowwit⟩
    · intro x hx; exact h.ti.gst x (Or.inr hx)
    · intro x hx hg y hy
      by_cases e : x = v
      · subst e; exact h.wsvis y hy
      · exact h.ti.nongray x hx (by tauto) y hy
    · intro y hy
      obtain ⟨g, hg, hr, hle⟩ := h.ti.back y hy
      rcases hg with rfl | hg
      · obtain ⟨y', hy', hi', hr'⟩ := h.lowwit
        have hs0 : ∃ g', G g' ∧ R adj y' g' ∧ ∀ k l, st.idx g' = some k → st.idx y' = some l → k ≤ l := by
          obtain ⟨g', hg', hr'', hle'⟩ := h.ti.back y' hy'
          rcases hg' with rfl | hg'
          · have := hle' _ _ h.vidx hi'; omega
          · exact ⟨g', hg', hr'', hle'⟩
        obtain ⟨g', hg', hr'', hle'⟩ := hs0
        refine ⟨g', hg', hr.trans (hr'.trans hr''), ?_⟩
        intro k l hk hl
        have h1 := hle' k _ hk hi'
        have h2 := hle _ l h.vidx hl
        omega
      · exact ⟨g, hg, hr, hle⟩
    · refine ⟨S ++ [v], by rw [hS]; simp, ?_, ?_⟩
      · intro x hx
        rcases List.mem_append.1 hx with hx | hx
        · exact hSn x hx
        · simp at hx; subst hx; exact hv0
      · intro x hx y hy hys k hk
        rcases List.mem_append.1 hx with hx | hx
        · exact hSl x hx y hy hys k hk
        · simp at hx; subst hx
          exact h.wslow y hy hys k hk

/-- number of unvisited nodes -/
def unvis (n : Nat) (st : TState) : Nat := ((Finset.range n).filter fun x => st.idx x = none).card

theorem unvis_mono {n : Nat} {st st' : TState} (h : ∀ x, st.idx x ≠ none → st'.idx x ≠ none) :
    unvis n st' ≤ unvis n st := by
  refine Finset.card_le_card fun x hx => ?_
  simp only [Finset.mem_filter] at hx ⊢
  exact ⟨hx.1, by_contra fun hh => h x hh hx.2⟩

theorem unvis_lt {n : Nat} {st st' : TState} (h : ∀ x, st.idx x ≠ none → st'.idx x ≠ none) {v : Nat}
    (hv : v < n) (h0 : st.idx v = none) (h1 : st'.idx v ≠ none) : unvis n st' < unvis n st := by
  refine Finset.card_lt_card (Finset.ssubset_iff_of_subset ?_ |>.2 ⟨v, by simp [hv, h0], by simp [h1]⟩)
  intro x hx
  simp only [Finset.mem_filter] at hx ⊢
  exact ⟨hx.1, by_contra fun hh => h x hh hx.2⟩

theorem strongconnect_post {n : Nat} (hadj : ∀ x < n, ∀ y ∈ adj x, y < n) (fuel : Nat) :
    ∀ (G : Nat → Prop) (v : Nat) (st : TState), TI adj G st → v < n → st.idx v = none →
      (∀ g, G g → R adj g v) → unvis n st ≤ fuel →
      Post adj G v st (strongconnect adj fuel v st) := by
  induction fuel with
  | zero =>
    intro G v st _ hv h0 _ hf
    exfalso
    have : v ∈ (Finset.range n).filter fun x => st.idx x = none := by simp [hv, h0]
    have := Finset.card_pos.2 ⟨v, this⟩
    simp only [unvis] at hf; omega
  | succ fuel ih =>
    intro G v st0 h0 hv hv0 hG hf
    rw [strongconnect]
    apply closeNode_post h0 hv0
    set body : TState → Nat → TState := fun st w =>
      match st.idx w with
      | none =>
        let st' := strongconnect adj fuel w st
        { st' with low := Function.update st'.low v (min (st'.low v) (st'.low w)) }
      | some k =>
        if st.on w then { st with low := Function.update st.low v (min (st.low v) k) } else st
      with hbody
    have hvs : v ∉ st0.stack := fun hh => h0.vis v hh hv0
    have hstart : LI adj G v st0 [] (openNode v st0) := by
      refine ⟨openNode_TI h0 hv0 hG, ?_, ?_, ?_, ?_, ?_, ?_, ?_⟩
      · intro x hx
        have e : x ≠ v := by rintro rfl; exact hx hv0
        simp [openNode, Function.update_of_ne e]
      · simp [openNode]
      · exact ⟨[], by simp [openNode], by simp, by simp⟩
      · simp
      · simp [openNode]
      · simp
      · exact ⟨v, by simp [openNode], by simp [openNode], Relation.ReflTransGen.refl⟩
    have hloop : ∀ ws2 ws1 st, adj v = ws1 ++ ws2 → LI adj G v st0 ws1 st →
        LI adj G v st0 (adj v) (ws2.foldl body st) := by
      intro ws2
      induction ws2 with
      | nil => intro ws1 st e h; simp at e; rw [e]; exact h
      | cons w ws2 ihw =>
        intro ws1 st e h
        rw [List.foldl_cons]
        refine ihw (ws1 ++ [w]) _ (by rw [e]; simp) ?_
        have hwv : w ∈ adj v := by rw [e]; simp
        obtain ⟨S, hS, hSn, hSl⟩ := h.stk
        have hmem0 : ∀ x ∈ st0.stack, x ∈ st.stack := by intro x hx; rw [hS]; simp [hx]
        cases hw : st.idx w with
        | none =>
          have hb : body st w = { strongconnect adj fuel w st with
              low := Function.update (strongconnect adj fuel w st).low v
                (min ((strongconnect adj fuel w st).low v) ((strongconnect adj fuel w st).low w)) } := by
            simp only [hbody, hw]
          have hpost : Post adj (fun x => x = v ∨ G x) w st (strongconnect adj fuel w st) := by
            refine ih _ w st h.ti (hadj v hv w hwv) hw ?_ ?_
            · rintro g (rfl | hg)
              · exact Relation.ReflTransGen.single hwv
              · exact (hG g hg).tail hwv
            · have : unvis n st < unvis n st0 := by
                refine unvis_lt (fun x hx => ?_) hv hv0 (by simp [h.vidx])
                rw [(h.frame x hx).1]; exact hx
              omega
          rw [hb]
          set st' := strongconnect adj fuel w st with hst'
          have hwv' : w ≠ v := by rintro rfl; rw [h.vidx] at hw; cases hw
          have hfv := hpost.frame v (by simp [h.vidx])
          obtain ⟨S', hS', hSn', hSl'⟩ := hpost.stk
          have hmono : ∀ x, st0.idx x ≠ none → st.idx x ≠ none := fun x hx => by
            rw [(h.frame x hx).1]; exact hx
          refine ⟨hpost.ti.congr_low _, ?_, ?_, ?_, ?_, ?_, ?_, ?_⟩
          · intro x hx
            have ev : x ≠ v := by rintro rfl; exact hx hv0
            have h1 := h.frame x hx
            have h2 := hpost.frame x (hmono x hx)
            simp only [Function.update_of_ne ev]
            exact ⟨h2.1.trans h1.1, h2.2.trans h1.2⟩
          · simp only; rw [hfv.1, h.vidx]
          · refine ⟨S' ++ S, by simp only; rw [hS', hS]; simp, ?_, ?_⟩
            · intro x hx
              rcases List.mem_append.1 hx with hx | hx
              · by_contra hh; exact hmono x hh (hSn' x hx)
              · exact hSn x hx
            · intro x hx y hy hys k hk
              simp only [Function.update_self]
              rcases List.mem_append.1 hx with hx | hx
              · have := hSl' x hx y hy (hmem0 y hys) k (by rw [(h.frame y (h0.vis y hys)).1, hk])
                omega
              · have := hSl x hx y hy hys k hk
                rw [hfv.2]; omega
          · intro x hx
            rcases List.mem_append.1 hx with hx | hx
            · rw [(hpost.frame x (h.wsvis x hx)).1]; exact h.wsvis x hx
            · simp at hx; subst hx; simp [hpost.vidx]
          · simp only [Function.update_self]; have := h.lowle; rw [hfv.2]; omega
          · intro x hx hxs k hk
            simp only [Function.update_self]
            rcases List.mem_append.1 hx with hx | hx
            · have := h.wslow x hx hxs k hk; rw [hfv.2]; omega
            · simp at hx; subst hx
              exfalso
              exact hmono x (h0.vis x hxs) hw
          · simp only [Function.update_self]
            by_cases hm : st'.low v ≤ st'.low w
            · rw [min_eq_left hm, hfv.2]
              obtain ⟨y, hy, hi, hr⟩ := h.lowwit
              refine ⟨y, by rw [hS']; simp [hy], ?_, hr⟩
              rw [(hpost.frame y (h.ti.vis y hy)).1, hi]
            · rw [min_eq_right (by omega)]
              rcases hpost.lowwit with ⟨y, hy, hi, hr⟩ | hl
              · exact ⟨y, hy, hi, Relation.ReflTransGen.head hwv hr⟩
              · exfalso
                have h1 := h.lowle
                have h2 := h.ti.idxlt v _ h.vidx
                have h3 := hfv.2
                omega
        | some k =>
          by_cases hon : st.on w = true
          · have hb : body st w = { st with low := Function.update st.low v (min (st.low v) k) } := by
              simp only [hbody, hw, hon, if_true]
            have hws : w ∈ st.stack := (h.ti.on w (by simp [hw])).1 hon
            rw [hb]
            refine ⟨h.ti.congr_low _, ?_, h.vidx, ?_, ?_, ?_, ?_, ?_⟩
            · intro x hx
              have ev : x ≠ v := by rintro rfl; exact hx hv0
              simp only [Function.update_of_ne ev]
              exact h.frame x hx
            · refine ⟨S, hS, hSn, ?_⟩
              intro x hx y hy hys k' hk'
              simp only [Function.update_self]
              have := hSl x hx y hy hys k' hk'; omega
            · intro x hx
              rcases List.mem_append.1 hx with hx | hx
              · exact h.wsvis x hx
              · simp at hx; subst hx; simp [hw]
            · simp only [Function.update_self]; have := h.lowle; omega
            · intro x hx hxs k' hk'
              simp only [Function.update_self]
              rcases List.mem_append.1 hx with hx | hx
              · have := h.wslow x hx hxs k' hk'; omega
              · simp at hx; subst hx
                have := (h.frame x (by simp [hk'])).1
                rw [hw, hk'] at this
                simp at this; omega
            · simp only [Function.update_self]
              by_cases hm : st.low v ≤ k
              · rw [min_eq_left hm]; exact h.lowwit
              · rw [min_eq_right (by omega)]
                exact ⟨w, hws, hw, Relation.ReflTransGen.single hwv⟩
          · have hb : body st w = st := by
              simp only [hbody, hw]; rw [if_neg hon]
            rw [hb]
            refine ⟨h.ti, h.frame, h.vidx, h.stk, ?_, h.lowle, ?_, h.lowwit⟩
            · intro x hx
              rcases List.mem_append.1 hx with hx | hx
              · exact h.wsvis x hx
              · simp at hx; subst hx; simp [hw]
            · intro x hx hxs k' hk'
              rcases List.mem_append.1 hx with hx | hx
              · exact h.wslow x hx hxs k' hk'
              · simp at hx; subst hx
                exact absurd ((h.ti.on x (by simp [hw])).2 (hmem0 x hxs)) hon
    exact hloop (adj v) [] _ rfl hstart

/-- the outer loop over all nodes `xs` -/
theorem sccLoop_spec {n : Nat} (hadj : ∀ x < n, ∀ y ∈ adj x, y < n) (fuel : Nat) (hf : n ≤ fuel)
    (xs : List Nat) (hxs : ∀ x ∈ xs, x < n) (st : TState) (h : TI adj (fun _ => False) st) :
    let st' := xs.foldl (fun (st : TState) r =>
      match st.idx r with
      | none => strongconnect adj fuel r st
      | some _ => st) st
    TI adj (fun _ => False) st' ∧ (∀ x ∈ xs, st'.idx x ≠ none) ∧
      (∀ x, st.idx x ≠ none → st'.idx x ≠ none) := by
  induction xs generalizing st with
  | nil => exact ⟨h, by simp, fun _ => id⟩
  | cons r xs ih =>
    simp only [List.foldl_cons]
    have key : ∀ st1, TI adj (fun _ => False) st1 → st1.idx r ≠ none →
        (∀ x, st.idx x ≠ none → st1.idx x ≠ none) →
        let st' := xs.foldl (fun (st : TState) r =>
          match st.idx r with
          | none => strongconnect adj fuel r st
          | some _ => st) st1
        TI adj (fun _ => False) st' ∧ (∀ x ∈ r :: xs, st'.idx x ≠ none) ∧
          (∀ x, st.idx x ≠ none → st'.idx x ≠ none) := by
      intro st1 h1 hr hm
      obtain ⟨a, b, c⟩ := ih (fun x hx => hxs x (by simp [hx])) st1 h1
      refine ⟨a, ?_, fun x hx => c x (hm x hx)⟩
      intro x hx
      rcases List.mem_cons.1 hx with rfl | hx
      · exact c x hr
      · exact b x hx
    cases hr : st.idx r with
    | none =>
      have hp := strongconnect_post hadj fuel (fun _ => False) r st h (hxs r (by simp)) hr
        (fun _ hh => hh.elim) (le_trans (Finset.card_le_card (Finset.filter_subset _ _)) (by simpa using hf))
      exact key _ hp.ti (by simp [hp.vidx]) (fun x hx => by rw [(hp.frame x hx).1]; exact hx)
    | some k => exact key st h (by simp [hr]) fun _ => id

theorem popTo_idx (v : Nat) (l : List Nat) (st : TState) : (popTo v l st).idx = st.idx := by
  induction l generalizing st with
  | nil => rfl
  | cons w l ih =>
    simp only [popTo]
    split
    · rfl
    · rw [ih]

/-- only nodes of a set closed under `adj` are visited -/
theorem strongconnect_vis {V : Nat → Prop} (hV : ∀ x y, V x → y ∈ adj x → V y) (fuel : Nat) :
    ∀ (v : Nat) (st : TState), V v → (∀ x, st.idx x ≠ none → V x) →
      ∀ x, (strongconnect adj fuel v st).idx x ≠ none → V x := by
  induction fuel with
  | zero => intro v st _ h; exact h
  | succ fuel ih =>
    intro v st hv h
    have hopen : ∀ x, (openNode v st).idx x ≠ none → V x := by
      intro x hx
      by_cases e : x = v
      · subst e; exact hv
      · simp only [openNode, Function.update_of_ne e] at hx; exact h x hx
    rw [strongconnect]
    have hclose : ∀ st : TState, (closeNode v st).idx = st.idx := by
      intro st
      simp only [closeNode]
      split
      · exact popTo_idx v _ st
      · rfl
    rw [hclose]
    have hloop : ∀ ws : List Nat, (∀ w ∈ ws, V w) → ∀ st : TState, (∀ x, st.idx x ≠ none → V x) →
        ∀ x, (ws.foldl (fun (st : TState) w =>
          match st.idx w with
          | none =>
            let st' := strongconnect adj fuel w st
            { st' with low := Function.update st'.low v (min (st'.low v) (st'.low w)) }
          | some k =>
            if st.on w then { st with low := Function.update st.low v (min (st.low v) k) } else st)
          st).idx x ≠ none → V x := by
      intro ws
      induction ws with
      | nil => intro _ st h; exact h
      | cons w ws ihw =>
        intro hws st hst
        rw [List.foldl_cons]
        refine ihw (fun w hw => hws w (by simp [hw])) _ ?_
        cases hw : st.idx w with
        | none => simp only; exact ih w st (hws w (by simp)) hst
        | some k =>
          simp only
          split
          · exact hst
          · exact hst
    exact hloop (adj v) (fun w hw => hV v w hv hw) _ hopen

theorem sccLoop_vis {V : Nat → Prop} (hV : ∀ x y, V x → y ∈ adj x → V y) (fuel : Nat)
    (xs : List Nat) (hxs : ∀ x ∈ xs, V x) (st : TState) (h : ∀ x, st.idx x ≠ none → V x) :
    ∀ x, (xs.foldl (fun (st : TState) r =>
      match st.idx r with
      | none => strongconnect adj fuel r st
      | some _ => st) st).idx x ≠ none → V x := by
  induction xs generalizing st with
  | nil => exact h
  | cons r xs ih =>
    rw [List.foldl_cons]
    refine ih (fun x hx => hxs x (by simp [hx])) _ ?_
    cases hr : st.idx r with
    | none => exact strongconnect_vis hV fuel r st (hxs r (by simp)) h
    | some k => exact h

theorem init_TI (low0 : Nat → Nat) (on0 : Nat → Bool) :
    TI adj (fun _ => False) ⟨fun _ => none, low0, on0, [], 0, fun _ => 0, 1⟩ := by
  have hd : ∀ x, ¬ Done ⟨fun _ => none, low0, on0, [], 0, fun _ => 0, 1⟩ x := fun x h => h.1 rfl
  refine ⟨by simp, by simp, by simp, by simp, by simp, by simp, by simp, fun x h => (hd x h).elim,
    fun x h => (hd x h).elim, fun x y h => (hd x h).elim, ?_, le_rfl, by simp, by simp⟩
  intro c h1 h2; simp only at h2; omega

end

variable {K : Type}

theorem mkTreap_spec {α : Type} [LinearOrder α] (h : Nat → Int) (xs : List α) :
    TreapOK (mkTreap h xs) ∧ ∀ y, y ∈ (mkTreap h xs).toList ↔ y ∈ xs := by
  obtain ⟨a, b⟩ := addAll_spec (t := (Treap.nil : Treap α)) trivial (xs.zipIdx.map fun p => (p.1, h p.2))
  refine ⟨a, fun y => ?_⟩
  rw [mkTreap, b]
  simp only [Treap.toList, List.not_mem_nil, or_false, List.map_map]
  have : (Prod.fst ∘ fun p : α × Nat => (p.1, h p.2)) = Prod.fst := by funext p; rfl
  rw [this, List.zipIdx_map_fst]
  simp

theorem mem_mkTreap {α : Type} [LinearOrder α] (h : Nat → Int) (xs : List α) (y : α) :
    (mkTreap h xs).mem y = true ↔ y ∈ xs := by
  obtain ⟨a, b⟩ := mkTreap_spec h xs
  rw [a.mem_iff, b]

/-- action-labelled transitions of the graph -/
def gtr (g : Graph K) (s a d : Nat) : Prop := ∃ p, (d, a, p) ∈ g.succ s

theorem mem_adj (g : Graph K) {T : Treap Nat} (hT : TreapOK T) (h : Nat → Int) (v w : Nat) :
    w ∈ g.adj T h v ↔ StayEdge (gtr g) {x | x ∈ T.toList} v w := by
  simp only [Graph.adj, List.mem_map, List.mem_filter, Bool.not_eq_true', StayEdge, gtr]
  have hb : ∀ a, (badActions (g.succ v) T h).mem a = false ↔
      ∀ d p, (d, a, p) ∈ g.succ v → d ∈ T.toList := by
    intro a
    rw [← Bool.not_eq_true, badActions, mem_mkTreap]
    simp only [List.mem_map, List.mem_filter, Bool.not_eq_true']
    constructor
    · intro hh d p hd
      by_contra hn
      refine hh ⟨(d, a, p), ⟨hd, ?_⟩, rfl⟩
      rw [← Bool.not_eq_true, hT.mem_iff]; exact hn
    · rintro hh ⟨⟨d, a', p⟩, ⟨hd, hm⟩, rfl⟩
      have := hh d p hd
      rw [← hT.mem_iff] at this
      simp [this] at hm
  constructor
  · rintro ⟨⟨d, a, p⟩, ⟨hd, hba⟩, rfl⟩
    exact ⟨a, ⟨p, hd⟩, fun w ⟨p', hw⟩ => (hb a).1 hba w p' hw⟩
  · rintro ⟨a, ⟨p, hd⟩, hall⟩
    exact ⟨(w, a, p), ⟨hd, (hb a).2 fun d p' hd' => hall d ⟨p', hd'⟩⟩, rfl⟩

theorem sccOf_spec (g : Graph K) {T : Treap Nat} (hT : TreapOK T) (hTn : ∀ x ∈ T.toList, x < g.n)
    (hg : ∀ x t, t ∈ g.succ x → t.1 < g.n) (h : Nat → Nat → Int) (low0 : Nat → Nat)
    (on0 : Nat → Bool) :
    let r := g.sccOf T h low0 on0
    (∀ x ∈ T.toList, ∀ y ∈ T.toList,
      (r.1 x = r.1 y ↔ Mutual (StayEdge (gtr g) {x | x ∈ T.toList}) x y)) ∧
    (∀ x ∈ T.toList, 1 ≤ r.1 x ∧ r.1 x ≤ r.2) ∧
    (∀ c, 1 ≤ c → c ≤ r.2 → ∃ x ∈ T.toList, r.1 x = c) := by
  -- restrict the graph to the treap: nodes outside have no relevant visits
  set adj := fun v => g.adj T (h v) v with hadjdef
  have hadj : ∀ x < g.n, ∀ y ∈ adj x, y < g.n := by
    intro x _ y hy
    obtain ⟨a, ⟨p, hd⟩, _⟩ := (mem_adj g hT (h x) x y).1 hy
    exact hg x _ hd
  have hE : (fun u v => v ∈ adj u) = StayEdge (gtr g) {x | x ∈ T.toList} := by
    funext u v; exact propext (mem_adj g hT (h u) u v)
  have hinT : ∀ x y, y ∈ adj x → y ∈ T.toList := by
    intro x y hy
    obtain ⟨a, hd, hall⟩ := (mem_adj g hT (h x) x y).1 hy
    exact hall y hd
  obtain ⟨a, b, _⟩ := sccLoop_spec hadj (g.n + 1) (by omega) T.toList hTn _ (init_TI low0 on0)
  set st' := T.toList.foldl (fun (st : TState) r =>
      match st.idx r with
      | none => strongconnect adj (g.n + 1) r st
      | some _ => st) ⟨fun _ => none, low0, on0, [], 0, fun _ => 0, 1⟩ with hst'
  have hr : g.sccOf T h low0 on0 = (st'.sccs, st'.cnt - 1) := rfl
  have hstk : ∀ x, x ∉ st'.stack := fun x hx => by
    obtain ⟨g, hg, _⟩ := a.back x hx; exact hg
  have hdone : ∀ x ∈ T.toList, Done st' x := fun x hx => ⟨b x hx, hstk x⟩
  rw [hr]
  refine ⟨?_, ?_, ?_⟩
  · intro x hx y hy
    rw [a.doneeq x y (hdone x hx) (hdone y hy)]
    simp only [R, hE, Mutual]
  · intro x hx
    have := a.donenum x (hdone x hx)
    simp only; omega
  · intro c h1 h2
    obtain ⟨x, hx, e⟩ := a.used c h1 (by simp only at h2; omega)
    exact ⟨x, sccLoop_vis (V := fun x => x ∈ T.toList) (fun x y _ hy => hinT x y hy) (g.n + 1) T.toList
      (fun _ hx => hx) _ (by simp) x hx.1, e⟩

end Verif.Proofs
