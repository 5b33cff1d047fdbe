import Verif.Model.StdMaps
import Verif.Proofs.Text
/-!
# Reading the numbers and texts of the default pictures
-/
set_option linter.unusedSectionVars false
namespace Verif.Proofs.StdMaps
open Verif.Model Verif.Model.Text Verif.Model.StdMaps Verif.Proofs Verif.Proofs.Text

theorem trimZeros_append (ds : List Char) : ∃ z, ds = trimZeros ds ++ List.replicate z '0' := by
  have h : ∀ l : List Char, ∃ z, l = List.replicate z '0' ++ l.dropWhile (· == '0') := by
    intro l
    induction l with
    | nil => exact ⟨0, rfl⟩
    | cons c l ih =>
      by_cases hc : c = '0'
      · obtain ⟨z, hz⟩ := ih
        subst hc
        refine ⟨z + 1, ?_⟩
        rw [List.dropWhile_cons_of_pos (by simp), List.replicate_succ, List.cons_append, ← hz]
      · exact ⟨0, by rw [List.dropWhile_cons_of_neg (by simpa using hc)]; rfl⟩
  obtain ⟨z, hz⟩ := h ds.reverse
  refine ⟨z, ?_⟩
  have := congrArg List.reverse hz
  rwa [List.reverse_reverse, List.reverse_append, List.reverse_replicate] at this

theorem pyFloat_sci {c : Char} {w : List Char} (hc : c.isDigit = true)
    (h : ∀ c ∈ w, c.isDigit = true ∨ c = '.' ∨ c = 'e' ∨ c = '-') : pyFloat (c :: w) = decimal (c :: w) := by
  have hall : ∀ x ∈ c :: w, x.isDigit = true ∨ x = '.' ∨ x = 'e' ∨ x = '-' := by
    intro x hx
    rcases List.mem_cons.1 hx with rfl | hx
    · exact .inl hc
    · exact h x hx
  have h1 : ∀ x ∈ c :: w, isSpace x = false := by
    intro x hx
    rcases hall x hx with h | rfl | rfl | rfl
    · exact digit_not_space h
    all_goals rfl
  have h2 : '_' ∉ c :: w := by
    intro hx
    rcases hall _ hx with h | h | h | h
    all_goals exact absurd h (by decide)
  have h3 : (c :: w).any (fun c => 128 ≤ c.toNat) = false := by
    rw [List.any_eq_false]
    intro x hx
    rcases hall x hx with h | rfl | rfl | rfl
    · have := digit_range h
      simp only [decide_eq_true_eq]; omega
    all_goals decide
  have hs : (sign (c :: w)).2.map Char.toLower ∉ ["inf".toList, "infinity".toList, "nan".toList] := by
    rw [sign_digit hc]
    intro hm
    have : ∃ x ∈ c :: w, x.toLower = 'n' := by
      have : 'n' ∈ (c :: w).map Char.toLower := by
        simp only [List.mem_cons, List.mem_nil_iff, or_false] at hm
        rcases hm with hm | hm | hm <;> rw [hm] <;> decide
      obtain ⟨x, hx, hn⟩ := List.mem_map.1 this
      exact ⟨x, hx, hn⟩
    obtain ⟨x, hx, hn⟩ := this
    rcases hall x hx with hd | rfl | rfl | rfl
    · have hr := digit_range hd
      have : x.toLower = x := by
        unfold Char.toLower
        have : ¬ (x.val ≥ 'A'.val ∧ x.val ≤ 'Z'.val) := by
          rintro ⟨k, -⟩
          have k : 65 ≤ x.toNat := k
          omega
        simp only [this, dite_false]
      rw [this] at hn
      subst hn
      exact absurd hd (by decide)
    all_goals exact absurd hn (by decide)
  unfold pyFloat
  rw [strip_word h1, h3, ungroup_plain h2]
  simp only [Bool.false_eq_true, if_false, if_neg hs]

theorem mem_trim {ds : List Char} {c : Char} (h : c ∈ trimZeros ds) : c ∈ ds := by
  obtain ⟨z, hz⟩ := trimZeros_append ds
  rw [hz]
  exact List.mem_append_left _ h

/-- `digits . digits` -/
theorem decimal_point {ip fp : List Char} (h1 : ip ≠ []) (hi : ∀ c ∈ ip, c.isDigit = true) (hf : ∀ c ∈ fp, c.isDigit = true)
    {ex : List Char} (hx : ∀ c ∈ ex.head?, c.isDigit = false ∧ c ≠ '.') {e : ℚ} (he : exponent ex = .ok e) :
    decimal (ip ++ (if fp = [] then [] else '.' :: fp) ++ ex) = .ok ((Nat.ofDigitChars 10 (ip ++ fp) 0 : Nat) / 10 ^ fp.length * e) := by
  obtain ⟨c, cs, hc⟩ := List.exists_cons_of_ne_nil h1
  have hs : ∀ r, sign (ip ++ r) = (false, ip ++ r) := by
    intro r
    rw [hc]
    exact sign_digit (hi c (by rw [hc]; simp))
  have ex1 : ∀ x ∈ ex.head?, x.isDigit = false := fun x hx' => (hx x hx').1
  rw [List.append_assoc]
  unfold decimal
  simp only [hs]
  by_cases hfp : fp = []
  · subst hfp
    simp only [if_true, List.nil_append]
    have ht : (ip ++ ex).takeWhile Char.isDigit = ip := takeWhile_append_stop hi ex1
    have hd : (ip ++ ex).dropWhile Char.isDigit = ex := dropWhile_append_stop hi ex1
    have hfr : fraction ex = ([], ex) := by
      cases ex with
      | nil => rfl
      | cons x xs =>
        have := (hx x (by simp)).2
        unfold fraction
        split
        · rename_i h; cases h; exact absurd rfl this
        · rfl
    simp only [ht, hd, hfr]
    rw [if_neg (fun h => h1 h.1)]
    simp [he, bind, Except.bind]
  · simp only [if_neg hfp, List.cons_append]
    have ht : (ip ++ '.' :: (fp ++ ex)).takeWhile Char.isDigit = ip :=
      takeWhile_append_stop hi (by intro x hx; simp at hx; subst hx; rfl)
    have hd : (ip ++ '.' :: (fp ++ ex)).dropWhile Char.isDigit = '.' :: (fp ++ ex) :=
      dropWhile_append_stop hi (by intro x hx; simp at hx; subst hx; rfl)
    have hfr : fraction ('.' :: (fp ++ ex)) = (fp, ex) := by
      rw [fraction, takeWhile_append_stop hf ex1, dropWhile_append_stop hf ex1]
    simp only [ht, hd, hfr]
    rw [if_neg (fun h => h1 h.1)]
    simp [he, bind, Except.bind]

theorem pad10 {n : Nat} (hn : n < 10 ^ 10) :
    (List.leftpad 10 '0' (fmtD n)).length = 10 ∧ (∀ c ∈ List.leftpad 10 '0' (fmtD n), c.isDigit = true) ∧
    Nat.ofDigitChars 10 (List.leftpad 10 '0' (fmtD n)) 0 = n := by
  refine ⟨?_, ?_, ?_⟩
  · have : (fmtD n).length ≤ 10 := (Nat.length_toDigits_le_iff (by decide) (by decide)).2 hn
    simp only [List.leftpad, List.length_append, List.length_replicate]
    omega
  · intro c hc
    simp only [List.leftpad, List.mem_append, List.mem_replicate] at hc
    rcases hc with ⟨_, rfl⟩ | hc
    · rfl
    · exact fmtD_digit hc
  · simp only [List.leftpad, Nat.ofDigitChars_append, Nat.ofDigitChars_replicate_zero, Nat.mul_zero]
    rw [fmtD, Nat.ofDigitChars_ten_toDigits]

/-- digits without the zeros at the end, as a fraction -/
theorem trim_value (ip ds : List Char) : ∃ z, (trimZeros ds).length + z = ds.length ∧
    Nat.ofDigitChars 10 (ip ++ ds) 0 = 10 ^ z * Nat.ofDigitChars 10 (ip ++ trimZeros ds) 0 := by
  obtain ⟨z, hz⟩ := trimZeros_append ds
  refine ⟨z, ?_, ?_⟩
  · conv_rhs => rw [hz]
    simp
  · conv_lhs => rw [hz, ← List.append_assoc, Nat.ofDigitChars_append, Nat.ofDigitChars_replicate_zero]

/-- the number at an edge is read as the rounded probability -/
theorem pyFloat_strDec (n : Nat) : pyFloat (strDec n) = .ok ((n : ℚ) / 10 ^ 10) := by
  unfold strDec
  split
  · rename_i h
    subst h
    rw [show "0.0".toList = '0' :: ".0".toList from rfl, pyFloat_sci (by decide) (by decide)]
    have := decimal_point (ip := ['0']) (fp := ['0']) (ex := []) (by simp) (by decide) (by decide) (by simp) (e := 1) rfl
    simp only [List.append_nil, if_neg (show ¬ (['0'] = []) by simp)] at this
    rw [show ('0' :: ".0".toList) = ['0'] ++ '.' :: ['0'] from rfl, this]
    simp [Nat.ofDigitChars_cons]
  split
  · simp only
    obtain ⟨l1, l2, l3⟩ := pad10 (Nat.mod_lt n (show 0 < 10 ^ 10 by decide))
    generalize hL : List.leftpad 10 '0' (fmtD (n % 10 ^ 10)) = L at *
    obtain ⟨z, z1, z2⟩ := trim_value (fmtD (n / 10 ^ 10)) L
    have hd : ∀ c ∈ fmtD (n / 10 ^ 10), c.isDigit = true := fun c hc => fmtD_digit hc
    have ht : ∀ c ∈ trimZeros L, c.isDigit = true := fun c hc => l2 c (mem_trim hc)
    have hn : Nat.ofDigitChars 10 (fmtD (n / 10 ^ 10) ++ L) 0 = n := by
      rw [Nat.ofDigitChars_append, Nat.ofDigitChars_eq_ofDigitChars_zero, l3, l1, fmtD, Nat.ofDigitChars_ten_toDigits, Nat.div_add_mod]
    rw [hn] at z2
    obtain ⟨c, cs, hc⟩ := List.exists_cons_of_ne_nil (fmtD_ne (n / 10 ^ 10))
    have hcd : c.isDigit = true := hd c (by rw [hc]; simp)
    by_cases hf : trimZeros L = []
    · rw [if_pos hf]
      have := decimal_point (ip := fmtD (n / 10 ^ 10)) (fp := ['0']) (ex := []) (fmtD_ne _) hd (by decide) (by simp) (e := 1) rfl
      simp only [List.append_nil, if_neg (show ¬ (['0'] = []) by simp)] at this
      have hpy : pyFloat (fmtD (n / 10 ^ 10) ++ '.' :: ['0']) = decimal (fmtD (n / 10 ^ 10) ++ '.' :: ['0']) := by
        rw [hc] at hd ⊢
        refine pyFloat_sci hcd fun x hx => ?_
        rcases List.mem_append.1 hx with hx | hx
        · exact .inl (hd x (by simp [hx]))
        · simp only [List.mem_cons, List.not_mem_nil, or_false] at hx
          rcases hx with rfl | rfl
          · exact .inr (.inl rfl)
          · exact .inl rfl
      rw [hpy, this]
      rw [hf] at z1 z2
      rw [List.append_nil] at z2
      have hz : z = 10 := by simpa [l1] using z1
      subst hz
      congr 1
      rw [Nat.ofDigitChars_append, Nat.ofDigitChars_eq_ofDigitChars_zero]
      have : Nat.ofDigitChars 10 ['0'] 0 = 0 := by simp [Nat.ofDigitChars_cons]
      rw [this]
      conv_rhs => rw [z2]
      push_cast
      simp only [fmtD, Nat.ofDigitChars_ten_toDigits, List.length_singleton]
      ring
    · rw [if_neg hf]
      have := decimal_point (ip := fmtD (n / 10 ^ 10)) (fp := trimZeros L) (ex := []) (fmtD_ne _) hd ht (by simp) (e := 1) rfl
      simp only [List.append_nil, if_neg hf] at this
      have hpy : pyFloat (fmtD (n / 10 ^ 10) ++ '.' :: trimZeros L) = decimal (fmtD (n / 10 ^ 10) ++ '.' :: trimZeros L) := by
        rw [hc] at hd ⊢
        refine pyFloat_sci hcd fun x hx => ?_
        rcases List.mem_append.1 hx with hx | hx
        · exact .inl (hd x (by simp [hx]))
        · rcases List.mem_cons.1 hx with rfl | hx
          · exact .inr (.inl rfl)
          · exact .inl (ht x hx)
      rw [hpy, this]
      congr 1
      have hz : (10 : ℚ) ^ 10 = 10 ^ z * 10 ^ (trimZeros L).length := by rw [← pow_add, ← l1, ← z1, Nat.add_comm]
      rw [hz, mul_one]
      conv_rhs => rw [z2]
      push_cast
      have h1 : (10 : ℚ) ^ z ≠ 0 := by positivity
      rw [mul_div_mul_left _ _ h1]
  · rename_i h0 h1
    simp only
    have hlen : (fmtD n).length ≤ 6 := (Nat.length_toDigits_le_iff (by decide) (by decide)).2 (by omega)
    obtain ⟨c, cs, hc⟩ := List.exists_cons_of_ne_nil (fmtD_ne n)
    have hd : ∀ x ∈ fmtD n, x.isDigit = true := fun c hc => fmtD_digit hc
    have hv : Nat.ofDigitChars 10 (fmtD n) 0 = n := by rw [fmtD, Nat.ofDigitChars_ten_toDigits]
    rw [hc] at hlen hd hv ⊢
    simp only [List.tail_cons, List.take_succ_cons, List.take_zero, List.length_cons]
    obtain ⟨z, z1, z2⟩ := trim_value [c] cs
    rw [List.singleton_append, hv] at z2
    have ht : ∀ x ∈ trimZeros cs, x.isDigit = true := fun x hx => hd x (by simp [mem_trim hx])
    have hcd := hd c (by simp)
    generalize hk : 11 - (cs.length + 1) = k
    have hk9 : k < 10 ^ 2 := by omega
    have hpad : (∀ x ∈ List.leftpad 2 '0' (fmtD k), x.isDigit = true) ∧ Nat.ofDigitChars 10 (List.leftpad 2 '0' (fmtD k)) 0 = k ∧
        List.leftpad 2 '0' (fmtD k) ≠ [] := by
      refine ⟨?_, ?_, ?_⟩
      · intro c hc
        simp only [List.leftpad, List.mem_append, List.mem_replicate] at hc
        rcases hc with ⟨_, rfl⟩ | hc
        · rfl
        · exact fmtD_digit hc
      · simp only [List.leftpad, Nat.ofDigitChars_append, Nat.ofDigitChars_replicate_zero, Nat.mul_zero]
        rw [fmtD, Nat.ofDigitChars_ten_toDigits]
      · intro h
        have := congrArg List.length h
        simp [List.leftpad] at this
        exact fmtD_ne k this.2
    have he : exponent ('e' :: '-' :: List.leftpad 2 '0' (fmtD k)) = .ok (1 / 10 ^ k) := by
      unfold exponent
      simp only [true_or, if_true, sign, bind, Except.bind, pyNat]
      rw [if_pos ⟨hpad.2.2, hpad.1⟩, hpad.2.1]
    have := decimal_point (ip := [c]) (fp := trimZeros cs) (by simp) (by simpa using hcd) ht (ex := 'e' :: '-' :: List.leftpad 2 '0' (fmtD k))
      (by intro x hx; simp at hx; subst hx; decide) he
    have hpy : pyFloat ([c] ++ (if trimZeros cs = [] then [] else '.' :: trimZeros cs) ++ 'e' :: '-' :: List.leftpad 2 '0' (fmtD k)) =
        decimal ([c] ++ (if trimZeros cs = [] then [] else '.' :: trimZeros cs) ++ 'e' :: '-' :: List.leftpad 2 '0' (fmtD k)) := by
      refine pyFloat_sci hcd fun x hx => ?_
      have hx : x ∈ (if trimZeros cs = [] then [] else '.' :: trimZeros cs) ++ 'e' :: '-' :: List.leftpad 2 '0' (fmtD k) := hx
      rcases List.mem_append.1 hx with hx | hx
      · split at hx
        · simp at hx
        · rcases List.mem_cons.1 hx with rfl | hx
          · exact .inr (.inl rfl)
          · exact .inl (ht x hx)
      · rcases List.mem_cons.1 hx with rfl | hx
        · exact .inr (.inr (.inl rfl))
        rcases List.mem_cons.1 hx with rfl | hx
        · exact .inr (.inr (.inr rfl))
        · exact .inl (hpad.1 x hx)
    refine hpy.trans (this.trans ?_)
    congr 1
    have hz : (10 : ℚ) ^ 10 = 10 ^ z * (10 ^ (trimZeros cs).length * 10 ^ k) := by
      rw [← pow_add, ← pow_add]
      congr 1
      have : cs.length + 1 ≤ 6 := by simpa using hlen
      omega
    rw [hz, List.singleton_append]
    conv_rhs => rw [z2]
    push_cast
    have h1 : (10 : ℚ) ^ z ≠ 0 := by positivity
    rw [mul_div_mul_left _ _ h1, div_mul_div_comm, mul_one]
    rfl

theorem strDec_inj {n m : Nat} (h : strDec n = strDec m) : n = m := by
  have h1 := pyFloat_strDec n
  rw [h, pyFloat_strDec m] at h1
  have := Except.ok.inj h1
  rw [div_left_inj' (by norm_num)] at this
  exact_mod_cast this.symm

end Verif.Proofs.StdMaps
