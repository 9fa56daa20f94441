import Verif.ConfNum

/-!
# C106, C107: numbers and truth values in the configuration

Specification: a text of digits stands for the number it denotes in its base, read from the
left; `0x` before it makes the base 16 and a leading zero 8 where 32 bits are asked for; a
number in range is read as itself, and what is stored is what is read back.
-/

namespace Mtev.ConfNum

/-! ## C106: integers -/

/-- **Specification.**  The digits denote the number in the base. -/
inductive Denotes (b : Nat) : Str → Nat → Prop where
  | one (c d : Nat) (h : digit c = some d) (hd : d < b) : Denotes b [c] d
  | more (s : Str) (n c d : Nat) (hs : Denotes b s n) (h : digit c = some d) (hd : d < b) :
      Denotes b (s ++ [c]) (n * b + d)

theorem Denotes.all {b : Nat} {s : Str} {n : Nat} (h : Denotes b s n) : ∀ c ∈ s, isDigit b c = true := by
  induction h with
  | one c d h hd =>
    intro x hx
    rw [List.mem_singleton] at hx
    subst hx
    unfold isDigit; rw [h]; simpa using hd
  | more s n c d _ h hd ih =>
    intro x hx
    rcases List.mem_append.mp hx with hx | hx
    · exact ih x hx
    · rw [List.mem_singleton] at hx
      subst hx
      unfold isDigit; rw [h]; simpa using hd

theorem Denotes.ne {b : Nat} {s : Str} {n : Nat} (h : Denotes b s n) : s ≠ [] := by
  cases h with
  | one => simp
  | more => simp

theorem Denotes.fold {b : Nat} {s : Str} {n : Nat} (h : Denotes b s n) :
    s.foldl (fun a c => a * b + (digit c).getD 0) 0 = n := by
  induction h with
  | one c d h hd => simp [h]
  | more s n c d _ h hd ih => rw [List.foldl_append, ih]; simp [h]

theorem takeWhile_all {p : Nat → Bool} : ∀ (s : Str), (∀ c ∈ s, p c = true) → s.takeWhile p = s
  | [], _ => rfl
  | c :: s, h => by
    rw [List.takeWhile_cons_of_pos (h c (by simp)), takeWhile_all s fun x hx => h x (by simp [hx])]

theorem number_denotes {b : Nat} {s : Str} {n : Nat} (h : Denotes b s n) : number b s = n := by
  unfold number
  rw [takeWhile_all s h.all, h.fold]

/-- zeros in front change nothing -/
theorem number_zero {b : Nat} (hb : 0 < b) {s : Str} {n : Nat} (h : Denotes b s n) : number b (48 :: s) = n := by
  have h0 : isDigit b 48 = true := by
    unfold isDigit
    rw [show digit 48 = some 0 by decide]
    simpa using hb
  unfold number
  rw [takeWhile_all (48 :: s) (by
    intro c hc
    rcases List.mem_cons.mp hc with rfl | hc
    · exact h0
    · exact h.all c hc), List.foldl_cons]
  rw [show 0 * b + (digit 48).getD 0 = 0 by rw [show digit 48 = some 0 by decide]; simp]
  exact h.fold

/-- the first byte is a digit or a letter -/
theorem first_digit {b : Nat} {s : Str} {n : Nat} (h : Denotes b s n) :
    ∃ c r d, s = c :: r ∧ digit c = some d ∧ d < b := by
  have hne := h.ne
  match s with
  | [] => exact absurd rfl hne
  | c :: r =>
    have := h.all c (by simp)
    unfold isDigit at this
    cases hd : digit c with
    | none => rw [hd] at this; cases this
    | some d =>
      rw [hd] at this
      exact ⟨c, r, d, rfl, hd, by simpa using this⟩

theorem digit_not (c d : Nat) (h : digit c = some d) : isSpace c = false ∧ c ≠ 45 ∧ c ≠ 43 := by
  unfold digit at h
  refine ⟨?_, ?_, ?_⟩
  · unfold isSpace
    simp only [decide_eq_false_iff_not]
    intro hc
    rw [if_neg (by omega), if_neg (by omega), if_neg (by omega)] at h
    cases h
  · rintro rfl
    rw [if_neg (by omega), if_neg (by omega), if_neg (by omega)] at h
    cases h
  · rintro rfl
    rw [if_neg (by omega), if_neg (by omega), if_neg (by omega)] at h
    cases h

theorem sign_plain (c : Nat) (r : Str) (h1 : c ≠ 45) (h2 : c ≠ 43) : sign (c :: r) = (false, c :: r) := by
  unfold sign
  split
  · rename_i h; cases h; exact absurd rfl h1
  · rename_i h; cases h; exact absurd rfl h2
  · rfl

theorem scan_plain (b c d : Nat) (r : Str) (h : digit c = some d) :
    scan b (c :: r) = (false, number b (skip0x b (c :: r))) := by
  obtain ⟨h1, h2, h3⟩ := digit_not c d h
  unfold scan
  rw [List.dropWhile_cons_of_neg (by rw [h1]; decide), sign_plain c r h2 h3]

theorem scan_minus (b : Nat) (s : Str) : scan b (45 :: s) = (true, number b (skip0x b s)) := by
  unfold scan
  rw [List.dropWhile_cons_of_neg (by decide)]
  rfl

theorem skip0x_ne (b : Nat) (s : Str) (h : b ≠ 16) : skip0x b s = s := by
  unfold skip0x
  split
  · rw [if_neg (fun h' => h h'.1)]
  · rfl

/-- what a text of digits is, with `strtol` and `strtoul` -/
theorem scan_denotes {b : Nat} {s : Str} {n : Nat} (hb : b ≠ 16) (h : Denotes b s n) : scan b s = (false, n) := by
  obtain ⟨c, r, d, rfl, hd, _⟩ := first_digit h
  rw [scan_plain b c d r hd, skip0x_ne b _ hb, number_denotes h]

theorem wrap32_of {z : Int} (h1 : -(2 ^ 31) ≤ z) (h2 : z < 2 ^ 31) : wrap32 z = z := by
  unfold wrap32
  omega

/-- decimal digits without a zero in front: `base` is 10 -/
theorem base_ten {s : Str} (h : s.head? ≠ some 48) : base s = 10 := by
  unfold base
  split
  · simp at h
  · rfl

theorem base_hex (s : Str) : base (48 :: 120 :: s) = 16 := rfl

theorem base_octal (s : Str) (h : s.head? ≠ some 120) : base (48 :: s) = 8 := by
  unfold base
  simp only
  rw [if_neg h]

/-- **C106 (decimal, 32 bits).**  Decimal digits without a zero in front, with or without `-`, are
read as the number they denote if it is in range. -/
theorem C106_decimal32_partial (s : Str) (n : Nat) (h : Denotes 10 s n) (h0 : s.head? ≠ some 48) :
    (n < 2 ^ 31 → toInt32 s = n) ∧ (n ≤ 2 ^ 31 → toInt32 (45 :: s) = -n) ∧ (n < 2 ^ 32 → toUint32 s = n) := by
  have hs := scan_denotes (by decide) h
  refine ⟨fun hn => ?_, fun hn => ?_, fun hn => ?_⟩
  · unfold toInt32 strtol
    rw [base_ten h0]
    simp only [hs]
    rw [if_neg (by decide), wrap32_of] <;> omega
  · unfold toInt32 strtol
    rw [base_ten (by simp)]
    simp only [scan_minus, skip0x_ne 10 s (by decide), number_denotes h]
    rw [if_pos trivial, wrap32_of] <;> omega
  · unfold toUint32 strtoul
    rw [base_ten h0]
    simp only [hs]
    rw [if_neg (by omega), if_neg (by decide)]
    omega

/-- **C106 (hexadecimal and octal, 32 bits).**  After `0x` the digits are hexadecimal, after `0`
octal. -/
theorem C106_bases32_partial (s : Str) (n : Nat) :
    (Denotes 16 s n → n < 2 ^ 32 → toUint32 (48 :: 120 :: s) = n ∧ (n < 2 ^ 31 → toInt32 (48 :: 120 :: s) = n)) ∧
    (Denotes 8 s n → n < 2 ^ 32 → toUint32 (48 :: s) = n ∧ (n < 2 ^ 31 → toInt32 (48 :: s) = n)) := by
  constructor
  · intro h hn
    obtain ⟨c, r, d, rfl, hd, hlt⟩ := first_digit h
    have e : scan 16 (48 :: 120 :: c :: r) = (false, n) := by
      rw [scan_plain 16 48 0 _ (by decide)]
      have hc : isDigit 16 c = true := by unfold isDigit; rw [hd]; simpa using hlt
      have : skip0x 16 (48 :: 120 :: c :: r) = c :: r := by
        unfold skip0x
        simp only
        rw [if_pos ⟨trivial, Or.inl trivial, hc⟩]
      rw [this, number_denotes h]
    constructor
    · unfold toUint32 strtoul
      rw [base_hex]
      simp only [e]
      rw [if_neg (by omega), if_neg (by decide)]
      omega
    · intro hn'
      unfold toInt32 strtol
      rw [base_hex]
      simp only [e]
      rw [if_neg (by decide), wrap32_of] <;> omega
  · intro h hn
    have hx : s.head? ≠ some 120 := by
      obtain ⟨c, r, d, rfl, hd, hlt⟩ := first_digit h
      intro hc
      simp only [List.head?_cons, Option.some.injEq] at hc
      subst hc
      rw [show digit 120 = some 33 by decide] at hd
      cases hd
      omega
    have e : scan 8 (48 :: s) = (false, n) := by
      rw [scan_plain 8 48 0 _ (by decide), skip0x_ne 8 _ (by decide), number_zero (by decide) h]
    constructor
    · unfold toUint32 strtoul
      rw [base_octal s hx]
      simp only [e]
      rw [if_neg (by omega), if_neg (by decide)]
      omega
    · intro hn'
      unfold toInt32 strtol
      rw [base_octal s hx]
      simp only [e]
      rw [if_neg (by decide), wrap32_of] <;> omega

/-- **C106 (64 bits).**  Decimal digits are read as the number they denote; a number out of range as
the largest or smallest there is. -/
theorem C106_decimal64 (s : Str) (n : Nat) (h : Denotes 10 s n) :
    toInt64 s = min (n : Int) (2 ^ 63 - 1) ∧ toInt64 (45 :: s) = max (-n : Int) (-(2 ^ 63)) ∧
      toUint64 s = min n (2 ^ 64 - 1) := by
  have hs := scan_denotes (by decide) h
  refine ⟨?_, ?_, ?_⟩
  · unfold toInt64 strtol
    simp only [hs]
    rw [if_neg (by decide)]
    omega
  · unfold toInt64 strtol
    simp only [scan_minus, skip0x_ne 10 s (by decide), number_denotes h]
    rw [if_pos trivial]
    omega
  · unfold toUint64 strtoul
    simp only [hs]
    rw [if_neg (by decide : ¬ (false = true))]
    split <;> omega

/-! ### what is stored is read back -/

theorem digit_dec (k : Nat) (h : k < 10) : digit (48 + k) = some k := by
  unfold digit
  rw [if_pos (by omega)]
  congr 1
  omega

theorem digits_denotes (n : Nat) : Denotes 10 (digits n) n := by
  induction n using Nat.strong_induction_on with
  | _ n ih =>
    rw [digits]
    by_cases hn : n < 10
    · rw [if_pos hn]
      exact .one _ _ (digit_dec n hn) hn
    · rw [if_neg hn]
      have h := Denotes.more _ _ _ _ (ih (n / 10) (by omega)) (digit_dec (n % 10) (by omega)) (by omega)
      rw [show n / 10 * 10 + n % 10 = n by omega] at h
      exact h

theorem digits_head (n : Nat) (h : 0 < n) : (digits n).head? ≠ some 48 := by
  induction n using Nat.strong_induction_on with
  | _ n ih =>
    rw [digits]
    by_cases hn : n < 10
    · rw [if_pos hn]
      simp; omega
    · rw [if_neg hn]
      have := ih (n / 10) (by omega) (by omega)
      rw [List.head?_append]
      have hne := (digits_denotes (n / 10)).ne
      cases hd : digits (n / 10) with
      | nil => exact absurd hd hne
      | cons c r => rw [hd] at this; simpa using this

/-- **C106 (round trip).**  An integer that is stored is read back as itself, with any of the
functions in whose range it is. -/
theorem C106_roundtrip (z : Int) (h1 : -(2 ^ 31) ≤ z) (h2 : z < 2 ^ 31) :
    getInt32 (some (ofInt z)) = some z ∧ getInt64 (some (ofInt z)) = some z ∧
      (0 ≤ z → getUint32 (some (ofInt z)) = some z.toNat ∧ getUint64 (some (ofInt z)) = some z.toNat) := by
  unfold getInt32 getInt64 getUint32 getUint64
  simp only [Option.map_some, Option.some.injEq]
  have hd := digits_denotes z.natAbs
  have h64 := C106_decimal64 _ _ hd
  by_cases h0 : z = 0
  · subst h0
    decide +kernel
  · have h32 := C106_decimal32_partial _ _ hd (digits_head _ (by omega))
    by_cases hneg : z < 0
    · have e : ofInt z = 45 :: digits z.natAbs := by unfold ofInt; rw [if_pos hneg]
      rw [e]
      refine ⟨?_, ?_, fun h => by omega⟩
      · rw [h32.2.1 (by omega)]; omega
      · rw [h64.2.1]; omega
    · have e : ofInt z = digits z.natAbs := by unfold ofInt; rw [if_neg hneg]
      rw [e]
      refine ⟨?_, ?_, fun h => ⟨?_, ?_⟩⟩
      · rw [h32.1 (by omega)]; omega
      · rw [h64.1]; omega
      · rw [h32.2.2 (by omega)]; omega
      · rw [h64.2.2]; omega

/-- **C106 (nothing there).**  Only where there is no value does the call fail. -/
theorem C106_absent (v : Option Str) :
    (getInt32 v = none ↔ v = none) ∧ (getUint32 v = none ↔ v = none) ∧ (getInt64 v = none ↔ v = none) ∧
      (getUint64 v = none ↔ v = none) ∧ (getBool v = none ↔ v = none) := by
  cases v <;> simp [getInt32, getUint32, getInt64, getUint64, getBool]

example : toInt32 (bytesOf "-42") = -42 ∧ toUint32 (bytesOf "0xff") = 255 ∧ toUint32 (bytesOf "0755") = 493 ∧
    toInt64 (bytesOf "-9223372036854775808") = -9223372036854775808 ∧ ofInt (-2147483648) = bytesOf "-2147483648" := by
  decide +kernel

/-- **C106 (violated: out of range).**  A number too large for 32 bits is read as another one, without
an error. -/
theorem C106_range_violated (s : Str) (n : Nat) (h : Denotes 10 s n) (h0 : s.head? ≠ some 48) (hn : n < 2 ^ 63) :
    getUint32 (some s) = some (n % 2 ^ 32) ∧ getInt32 (some s) = some (wrap32 n) := by
  have hs := scan_denotes (by decide) h
  unfold getUint32 getInt32
  simp only [Option.map_some, Option.some.injEq]
  constructor
  · unfold toUint32 strtoul
    rw [base_ten h0]
    simp only [hs]
    rw [if_neg (by omega), if_neg (by decide)]
  · unfold toInt32 strtol
    rw [base_ten h0]
    simp only [hs]
    rw [if_neg (by decide), show min (2 ^ 63 - 1 : Int) (n : Int) = n by omega]

/-- a port of 4294967376 is port 80, and a size of four gigabytes is none -/
example : toUint32 (bytesOf "4294967376") = 80 ∧ toUint32 (bytesOf "4294967296") = 0 ∧
    toInt32 (bytesOf "3000000000") = -1294967296 := by decide +kernel

/-- **C106 (violated: negative).**  Where the number must not be negative, a negative one is read as a
very large one. -/
theorem C106_negative_violated (s : Str) (n : Nat) (h : Denotes 10 s n) (h1 : 0 < n) (h2 : n < 2 ^ 32) :
    getUint32 (some (45 :: s)) = some (2 ^ 32 - n) ∧ getUint64 (some (45 :: s)) = some (2 ^ 64 - n) := by
  unfold getUint32 getUint64
  simp only [Option.map_some, Option.some.injEq]
  constructor
  · unfold toUint32 strtoul
    rw [base_ten (by simp)]
    simp only [scan_minus, skip0x_ne 10 s (by decide), number_denotes h]
    rw [if_neg (by omega), if_pos trivial]
    omega
  · unfold toUint64 strtoul
    simp only [scan_minus, skip0x_ne 10 s (by decide), number_denotes h]
    rw [if_neg (by omega), if_pos trivial]
    omega

/-- **C106 (violated: no number).**  A text that begins with a letter is read as zero, without an
error. -/
theorem C106_junk_violated (c : Nat) (r : Str) (h : (97 ≤ c ∧ c ≤ 122) ∨ (65 ≤ c ∧ c ≤ 90)) :
    getInt32 (some (c :: r)) = some 0 ∧ getUint32 (some (c :: r)) = some 0 ∧
      getInt64 (some (c :: r)) = some 0 ∧ getUint64 (some (c :: r)) = some 0 := by
  obtain ⟨d, hd, hge⟩ : ∃ d, digit c = some d ∧ 10 ≤ d := by
    unfold digit
    rcases h with h | h
    · exact ⟨_, by rw [if_neg (by omega), if_pos h], by omega⟩
    · exact ⟨_, by rw [if_neg (by omega), if_neg (by omega), if_pos h], by omega⟩
  have hb : base (c :: r) = 10 := base_ten (by simp; omega)
  have hn : isDigit 10 c = false := by unfold isDigit; rw [hd]; simpa using hge
  have e : scan 10 (c :: r) = (false, 0) := by
    rw [scan_plain 10 c d r hd, skip0x_ne 10 _ (by decide)]
    unfold number
    rw [List.takeWhile_cons_of_neg (by rw [hn]; decide)]
    rfl
  unfold getInt32 getUint32 getInt64 getUint64 toInt32 toUint32 toInt64 toUint64 strtol strtoul
  rw [Option.map_some, Option.map_some, Option.map_some, Option.map_some]
  rw [hb]
  simp only [e]
  decide

/-- **C106 (violated: the width decides the base).**  The same text is another number when 64 bits are
asked for; a sign in front of `0x` hides it. -/
theorem C106_bases_violated :
    toInt32 (bytesOf "010") = 8 ∧ toInt64 (bytesOf "010") = 10 ∧
    toInt32 (bytesOf "0x10") = 16 ∧ toInt64 (bytesOf "0x10") = 0 ∧
    toInt32 (bytesOf "-0x10") = 0 ∧ toInt32 (bytesOf "0X10") = 0 ∧ toInt32 (bytesOf "-010") = -10 := by
  decide +kernel

/-! ## C107: truth values -/

/-- equal but for upper and lower case -/
def SameLetters (s t : Str) : Prop :=
  List.Forall₂ (fun x y => x = y ∨ (65 ≤ x ∧ x ≤ 90 ∧ y = x + 32) ∨ (65 ≤ y ∧ y ≤ 90 ∧ x = y + 32)) s t

theorem sameLetters_iff : ∀ (t : Str), (∀ c ∈ t, 97 ≤ c ∧ c ≤ 122) → ∀ s : Str, s.map lower = t ↔ SameLetters s t
  | [], _, [] => by simp [SameLetters]
  | [], _, _ :: _ => ⟨by simp, by intro h; cases h⟩
  | _ :: _, _, [] => ⟨by simp, by intro h; cases h⟩
  | y :: t, h, x :: s => by
    have ih := sameLetters_iff t (fun c hc => h c (List.mem_cons_of_mem _ hc)) s
    have hy := h y (by simp)
    unfold SameLetters at ih ⊢
    rw [List.forall₂_cons, ← ih]
    simp only [List.map_cons, List.cons.injEq, lower]
    apply and_congr_left
    intro _
    split <;> omega

/-- **C107.**  A text is true if and only if it is `true` or `on`, in upper or lower case. -/
theorem C107_true (s : Str) : toBool s = true ↔ SameLetters s (bytesOf "true") ∨ SameLetters s (bytesOf "on") := by
  rw [← sameLetters_iff (bytesOf "true") (by decide +kernel) s, ← sameLetters_iff (bytesOf "on") (by decide +kernel) s]
  simp [toBool]

/-- **C107 (round trip).**  A truth value that is stored is read back. -/
theorem C107_roundtrip (b : Bool) : getBool (some (ofBool b)) = some b := by
  cases b <;> decide +kernel

/-- other words are false, without an error -/
example : getBool (some (bytesOf "TRUE")) = some true ∧ getBool (some (bytesOf "On")) = some true ∧
    getBool (some (bytesOf "yes")) = some false ∧ getBool (some (bytesOf "1")) = some false ∧
    getBool (some (bytesOf " true")) = some false := by decide +kernel

end Mtev.ConfNum
