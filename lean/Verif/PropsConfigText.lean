import Verif.PropsConfig

/-
Property C48: how the texts of the environment are read as sizes.
-/

namespace MpcAlloc

/-! ### Specification -/

/-- The characters that C calls white space: blank, tab, newline, vertical tab, form feed, carriage return. -/
def blanks : List Char := [' ', '\t', '\n', '\x0b', '\x0c', '\r']

/-- The text is white space, a sign or nothing, the decimal digits of `n`, and anything that does not begin with a digit. -/
def Writes (v : List Char) (sign : List Char) (n : Nat) : Prop :=
  ∃ b rest, (∀ c ∈ b, c ∈ blanks) ∧ (∀ c, rest.head? = some c → c.isDigit = false) ∧
    v = b ++ (sign ++ (Nat.toDigits 10 n ++ rest))

/-! ### Lemmas -/

theorem leadingDigits_append {rest : List Char} (hr : ∀ c, rest.head? = some c → c.isDigit = false) :
    ∀ (l : List Char) (acc : Nat), (∀ c ∈ l, c.isDigit) → leadingDigits acc (l ++ rest) = Nat.ofDigitChars 10 l acc := by
  intro l
  induction l with
  | nil =>
    intro acc _
    cases rest with
    | nil => rfl
    | cons c cs =>
      have := hr c rfl
      rw [List.nil_append, leadingDigits, if_neg (by rw [this]; simp)]
      rfl
  | cons c cs ih =>
    intro acc h
    rw [List.cons_append, leadingDigits, if_pos (h c (by simp)), ih _ (fun x hx => h x (by simp [hx])), Nat.ofDigitChars_cons]

theorem leadingDigits_num {rest : List Char} (hr : ∀ c, rest.head? = some c → c.isDigit = false) (n : Nat) :
    leadingDigits 0 (Nat.toDigits 10 n ++ rest) = n := by
  rw [leadingDigits_append hr _ _ (fun c hc => Nat.isDigit_of_mem_toDigits (by omega) (by omega) hc), Nat.ofDigitChars_ten_toDigits]

theorem dropBlanks {b r : List Char} (hb : ∀ c ∈ b, c ∈ blanks) (hr : ∀ c, r.head? = some c → isSpaceC c = false) :
    (b ++ r).dropWhile isSpaceC = r := by
  induction b with
  | nil =>
    cases r with
    | nil => rfl
    | cons c cs => rw [List.nil_append, List.dropWhile_cons_of_neg (by rw [hr c rfl]; simp)]
  | cons c cs ih =>
    have hc : isSpaceC c = true := by
      have := hb c (by simp)
      simp only [blanks, List.mem_cons, List.not_mem_nil, or_false] at this
      rcases this with rfl | rfl | rfl | rfl | rfl | rfl <;> decide
    rw [List.cons_append, List.dropWhile_cons_of_pos hc]
    exact ih (fun x hx => hb x (by simp [hx]))

theorem digit_head (n : Nat) (rest : List Char) : ∃ c cs, Nat.toDigits 10 n ++ rest = c :: cs ∧ 48 ≤ c.toNat ∧ c.toNat ≤ 57 := by
  match hl : Nat.toDigits 10 n with
  | [] => exact absurd hl Nat.toDigits_ne_nil
  | c :: cs =>
    have hc : c.isDigit := Nat.isDigit_of_mem_toDigits (b := 10) (n := n) (by omega) (by omega) (by rw [hl]; simp)
    simp only [Char.isDigit, Bool.and_eq_true, decide_eq_true_eq] at hc
    exact ⟨c, cs ++ rest, rfl, hc.1, hc.2⟩

theorem atol_pos {v sign : List Char} {n : Nat} (hs : sign = [] ∨ sign = ['+']) (h : Writes v sign n) :
    atol v = (min n (2 ^ 63 - 1) : Nat) := by
  obtain ⟨b, rest, hb, hr, rfl⟩ := h
  have hv := leadingDigits_num hr n
  obtain ⟨c, cs, hd, h1, h2⟩ := digit_head n rest
  unfold atol
  rcases hs with rfl | rfl
  · rw [List.nil_append, dropBlanks hb (by
      intro x hx
      rw [hd] at hx
      obtain rfl : c = x := Option.some.inj hx
      unfold isSpaceC
      simp
      omega)]
    rw [hd] at hv ⊢
    split
    · rename_i h1'; cases h1'; exact absurd h1 (by decide)
    · rename_i h1'; cases h1'; exact absurd h1 (by decide)
    · rw [hv]; omega
  · rw [dropBlanks hb (by
      intro x hx
      obtain rfl : '+' = x := Option.some.inj hx
      decide)]
    simp only [List.cons_append, List.nil_append]
    rw [hv]; omega

theorem atol_neg {v : List Char} {n : Nat} (h : Writes v ['-'] n) : atol v = -((min n (2 ^ 63) : Nat) : Int) := by
  obtain ⟨b, rest, hb, hr, rfl⟩ := h
  have hv := leadingDigits_num hr n
  unfold atol
  rw [dropBlanks hb (by
      intro x hx
      obtain rfl : '-' = x := Option.some.inj hx
      decide)]
  simp only [List.cons_append, List.nil_append]
  rw [hv]; omega

theorem Writes.ne {v sign : List Char} {n : Nat} (h : Writes v sign n) : v ≠ [] := by
  obtain ⟨b, rest, _, _, rfl⟩ := h
  have : Nat.toDigits 10 n ≠ [] := Nat.toDigits_ne_nil
  simp [this]

/-! ### C48 -/

/-- **C48** (the sizes, any number). A text that begins with a number, behind white space and with or without plus sign, gives the
number, at most 2^63 - 1, times the unit, modulo 2^64; with a minus sign it gives the opposite, modulo 2^64. What follows the
number is ignored. -/
theorem C48_number {E : Environ} {name : String} {dflt f n : Nat} {v sign : List Char} (he : E name = some v) (h : Writes v sign n) :
    (sign = [] ∨ sign = ['+'] → sizeFromEnv E name dflt f = min n (2 ^ 63 - 1) * f % 2 ^ 64) ∧
    (sign = ['-'] → sizeFromEnv E name dflt f < 2 ^ 64 ∧ (sizeFromEnv E name dflt f + min n (2 ^ 63) * f) % 2 ^ 64 = 0) := by
  have e : sizeFromEnv E name dflt f = toSize (atol v * f) := by
    unfold sizeFromEnv
    rw [he]
    simp only
    rw [if_neg h.ne]
  have hW : (W64 : Int) = 2 ^ 64 := rfl
  rw [e]
  refine ⟨fun hs => ?_, fun hs => ?_⟩
  · rw [atol_pos hs h]
    unfold toSize
    rw [← Int.natCast_mul, ← Int.natCast_emod, Int.toNat_natCast]
    rfl
  · rw [hs] at h
    rw [atol_neg h]
    unfold toSize
    generalize min n (2 ^ 63) = k
    rw [Int.neg_mul, ← Int.natCast_mul, hW]
    generalize k * f = x
    omega

/-- **C48**: a text that does not begin with a number, such as `max`, gives 0 and not the default. -/
theorem C48_no_number {E : Environ} {name : String} {dflt f : Nat} {c : Char} {cs : List Char} (he : E name = some (c :: cs))
    (h1 : c ∉ blanks) (h2 : c ≠ '+') (h3 : c ≠ '-') (h4 : c.isDigit = false) : sizeFromEnv E name dflt f = 0 := by
  unfold sizeFromEnv
  rw [he]
  simp only
  rw [if_neg (by simp)]
  have hz : atol (c :: cs) = 0 := by
    have hsp : isSpaceC c = false := by
      by_contra h
      rw [Bool.not_eq_false] at h
      refine h1 ?_
      unfold isSpaceC at h
      simp only [Bool.or_eq_true, decide_eq_true_eq, Bool.and_eq_true] at h
      have hc : c = Char.ofNat c.toNat := (Char.ofNat_toNat c).symm
      have hn : c.toNat = 32 ∨ c.toNat = 9 ∨ c.toNat = 10 ∨ c.toNat = 11 ∨ c.toNat = 12 ∨ c.toNat = 13 := by omega
      rcases hn with hn | hn | hn | hn | hn | hn <;> rw [hn] at hc <;> rw [hc] <;> decide
    unfold atol
    rw [List.dropWhile_cons_of_neg (by rw [hsp]; simp)]
    split
    · rename_i h; cases h; exact absurd rfl h3
    · rename_i h; cases h; exact absurd rfl h2
    · rw [leadingDigits, if_neg (by rw [h4]; simp)]; rfl
  rw [hz]
  simp [toSize]

/-- **C48** is false of the code for negative sizes: the text `-1` is accepted, and 17592186044415 MB are kept at most. -/
theorem C48_refuted_negative : ∃ c, configInit (oneVar "MPCALLOC_KEEP_MEM" "-1") = .ok c ∧ c.config.keepMem = 2 ^ 64 - 2 ^ 20 := by
  refine ⟨_, rfl, ?_⟩
  decide

/-- The hypotheses are met: `\t+64 MB`. -/
example : Writes "\t+64 MB".toList ['+'] 64 ∧ sizeFromEnv (oneVar "MPCALLOC_KEEP_MEM" "\t+64 MB") "MPCALLOC_KEEP_MEM" 0 1048576 =
    64 * 1048576 := by
  have h : Writes "\t+64 MB".toList ['+'] 64 := ⟨['\t'], [' ', 'M', 'B'], by decide, by intro c hc; cases hc; decide, by decide⟩
  exact ⟨h, (C48_number (E := oneVar "MPCALLOC_KEEP_MEM" "\t+64 MB") (dflt := 0) (f := 1048576) rfl h).1 (Or.inr rfl)⟩

example : Writes "-3x".toList ['-'] 3 := ⟨[], ['x'], by simp, by intro c hc; cases hc; decide, by decide⟩

end MpcAlloc
