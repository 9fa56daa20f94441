import Verif.Slz

/-! Helper lemmas for `SlzProps`: the CRC by tables is the CRC of RFC 1952. -/
namespace Mtev.Slz
open Mtev.Inflate

theorem xor_mod2 (a b : Nat) : (a ^^^ b) % 2 = (a % 2) ^^^ (b % 2) := by
  simpa using Nat.xor_mod_two_pow (a := a) (b := b) (n := 1)

theorem xor_div2 (a b : Nat) : (a ^^^ b) / 2 = (a / 2) ^^^ (b / 2) := by
  have := Nat.shiftRight_xor_distrib (a := a) (b := b) (i := 1)
  simpa [Nat.shiftRight_eq_div_pow] using this

theorem xor_mod256 (a b : Nat) : (a ^^^ b) % 256 = (a % 256) ^^^ (b % 256) := by
  simpa using Nat.xor_mod_two_pow (a := a) (b := b) (n := 8)

theorem xor_div256 (a b : Nat) : (a ^^^ b) / 256 = (a / 256) ^^^ (b / 256) := by
  have := Nat.shiftRight_xor_distrib (a := a) (b := b) (i := 8)
  simpa [Nat.shiftRight_eq_div_pow] using this

theorem xor_lc (a b c : Nat) : a ^^^ (b ^^^ c) = b ^^^ (a ^^^ c) := by
  rw [← Nat.xor_assoc, Nat.xor_comm a b, Nat.xor_assoc]

theorem xor_cancel (p a : Nat) : p ^^^ (p ^^^ a) = a := by
  rw [← Nat.xor_assoc, Nat.xor_self, Nat.zero_xor]

theorem crcBit_xor (a b : Nat) : crcBit (a ^^^ b) = crcBit a ^^^ crcBit b := by
  unfold crcBit
  rw [xor_mod2, xor_div2]
  rcases Nat.mod_two_eq_zero_or_one a with ha | ha <;>
    rcases Nat.mod_two_eq_zero_or_one b with hb | hb <;> rw [ha, hb]
  · simp
  · simp [xor_lc]
  · simp [Nat.xor_assoc]
  · simp only [Nat.xor_self, if_true]
    rw [if_neg (by decide), Nat.xor_assoc, xor_lc (a / 2), xor_cancel]

theorem crcByte_xor (a b : Nat) : crcByte (a ^^^ b) = crcByte a ^^^ crcByte b := by
  simp only [crcByte, crcBit_xor]

theorem crcByte_shift (y : Nat) : crcByte (y * 256) = y := by
  have h : ∀ z, crcBit (z * 2) = z := by
    intro z; unfold crcBit; rw [if_neg (by omega)]; omega
  have e : y * 256 = y * 2 * 2 * 2 * 2 * 2 * 2 * 2 * 2 := by omega
  rw [e]; simp only [crcByte, h]

theorem split256 (d : Nat) : d = (d % 256) ^^^ (d / 256 * 256) := by
  have h1 : (d % 256) % 2 ^ 8 = d % 256 := by omega
  have := Nat.two_pow_add_eq_or_of_lt (i := 8) (b := d % 256) (by omega) (d / 256)
  have e : d = 2 ^ 8 * (d / 256) + d % 256 := by omega
  apply Nat.eq_of_testBit_eq
  intro i
  rw [Nat.testBit_xor]
  by_cases hi : i < 8
  · have a1 : (d / 256 * 256).testBit i = false := by
      have : d / 256 * 256 = 2 ^ 8 * (d / 256) := by omega
      rw [this, Nat.testBit_two_pow_mul]; simp; omega
    have a2 : (d % 256).testBit i = d.testBit i := by
      rw [show (256 : Nat) = 2 ^ 8 from rfl, Nat.testBit_mod_two_pow]; simp [hi]
    rw [a1, a2]; simp
  · have a1 : (d / 256 * 256).testBit i = d.testBit i := by
      have : d / 256 * 256 = 2 ^ 8 * (d / 2 ^ 8) := by omega
      rw [this, Nat.testBit_two_pow_mul, Nat.testBit_div_two_pow]
      simp only [show i ≥ 8 by omega, decide_true, Bool.true_and]
      rw [show i - 8 + 8 = i by omega]
    have a2 : (d % 256).testBit i = false := by
      rw [show (256 : Nat) = 2 ^ 8 from rfl, Nat.testBit_mod_two_pow]; simp [hi]
    rw [a1, a2]; simp

/-- one byte of the CRC: a table entry and the remaining bits. -/
theorem crcByte_split (d : Nat) : crcByte d = crcByte (d % 256) ^^^ (d / 256) := by
  conv_lhs => rw [split256 d, crcByte_xor, crcByte_shift]

theorem crcFast0_eq (n : Nat) : crcFast0 n = crcByte (n ^^^ 255) ^^^ 0xff000000 := rfl

theorem crcFast1_eq (n : Nat) : crcFast1 n = crcByte (crcFast0 n) := by
  unfold crcFast1
  rw [crcFast0_eq ((0xff000000 ^^^ crcFast0 n ^^^ 0xff) % 256)]
  have : (0xff000000 ^^^ crcFast0 n ^^^ 0xff) % 256 ^^^ 255 = crcFast0 n % 256 := by
    rw [xor_mod256, xor_mod256]
    simp [Nat.xor_assoc]
  rw [this, crcByte_split (crcFast0 n), Nat.xor_comm (crcByte _) 0xff000000, xor_cancel]

theorem crcFast2_eq (n : Nat) : crcFast2 n = crcByte (crcFast1 n) := by
  unfold crcFast2
  rw [crcFast0_eq]
  have : (0x00ff0000 ^^^ crcFast1 n ^^^ 0xff) % 256 ^^^ 255 = crcFast1 n % 256 := by
    rw [xor_mod256, xor_mod256]
    simp [Nat.xor_assoc]
  rw [this, crcByte_split (crcFast1 n), Nat.xor_comm (crcByte _) 0xff000000, xor_cancel]

theorem crcFast3_eq (n : Nat) : crcFast3 n = crcByte (crcFast2 n) := by
  unfold crcFast3
  rw [crcFast0_eq]
  have : (0x0000ff00 ^^^ crcFast2 n ^^^ 0xff) % 256 ^^^ 255 = crcFast2 n % 256 := by
    rw [xor_mod256, xor_mod256]
    simp [Nat.xor_assoc]
  rw [this, crcByte_split (crcFast2 n), Nat.xor_comm (crcByte _) 0xff000000, xor_cancel]

/-- one byte, with the register kept inverted. -/
theorem crcChar_eq (r x : Nat) (hx : x < 256) :
    crcChar (r ^^^ 0xffffffff) x = crcByte (r ^^^ x) ^^^ 0xffffffff := by
  unfold crcChar
  rw [crcFast0_eq]
  have e1 : (r ^^^ 0xffffffff ^^^ x) % 256 ^^^ 255 = (r ^^^ x) % 256 := by
    rw [xor_mod256, xor_mod256, xor_mod256 r x]
    rw [Nat.xor_assoc, Nat.xor_assoc, Nat.xor_comm (x % 256) 255, ← Nat.xor_assoc (0xffffffff % 256)]
    simp
  have e2 : (r ^^^ 0xffffffff) / 256 = (r ^^^ x) / 256 ^^^ 0xffffff := by
    rw [xor_div256, xor_div256 r x, Nat.div_eq_of_lt hx, Nat.xor_zero]
  rw [e1, e2, crcByte_split (r ^^^ x)]
  have e3 : (0xffffffff : Nat) = 0xff000000 ^^^ 0xffffff := by decide
  rw [e3]
  simp only [Nat.xor_assoc, xor_lc]

theorem split_word (e : Nat) (h : e < 2 ^ 32) :
    e = (e % 256) ^^^ ((e / 256 % 256 ^^^ ((e / 65536 % 256) ^^^ (e / 16777216 % 256) * 256) * 256) * 256) := by
  have a := split256 e
  have b := split256 (e / 256)
  have c := split256 (e / 65536)
  have h1 : e / 256 / 256 = e / 65536 := by omega
  have h2 : e / 65536 / 256 = e / 16777216 % 256 := by omega
  rw [h1] at b
  rw [h2] at c
  conv_lhs => rw [a, b, c]

/-- four bytes at once. -/
theorem four_bytes (e : Nat) (h : e < 2 ^ 32) :
    crcByte (crcByte (crcByte (crcByte e))) =
      crcByte (crcByte (crcByte (crcByte (e % 256)))) ^^^
      (crcByte (crcByte (crcByte (e / 256 % 256))) ^^^
      (crcByte (crcByte (e / 65536 % 256)) ^^^ crcByte (e / 16777216 % 256))) := by
  conv_lhs => rw [split_word e h]
  simp only [crcByte_xor, crcByte_shift]

theorem crcWord_eq (r : Nat) (hr : r < 2 ^ 32) :
    crcWord (r ^^^ 0xffffffff) = crcByte (crcByte (crcByte (crcByte r))) ^^^ 0xffffffff := by
  have d16 : ∀ a b : Nat, (a ^^^ b) / 65536 = (a / 65536) ^^^ (b / 65536) := by
    intro a b
    have := Nat.shiftRight_xor_distrib (a := a) (b := b) (i := 16)
    simpa [Nat.shiftRight_eq_div_pow] using this
  have d24 : ∀ a b : Nat, (a ^^^ b) / 16777216 = (a / 16777216) ^^^ (b / 16777216) := by
    intro a b
    have := Nat.shiftRight_xor_distrib (a := a) (b := b) (i := 24)
    simpa [Nat.shiftRight_eq_div_pow] using this
  have b0 : (r ^^^ 0xffffffff) % 256 = r % 256 ^^^ 255 := by rw [xor_mod256]
  have b1 : (r ^^^ 0xffffffff) / 256 % 256 = r / 256 % 256 ^^^ 255 := by rw [xor_div256, xor_mod256]
  have b2 : (r ^^^ 0xffffffff) / 65536 % 256 = r / 65536 % 256 ^^^ 255 := by rw [d16, xor_mod256]
  have b3 : (r ^^^ 0xffffffff) / 16777216 % 256 = r / 16777216 % 256 ^^^ 255 := by
    rw [d24, xor_mod256]
  have t0 : ∀ n, crcFast0 (n ^^^ 255) = crcByte n ^^^ 0xff000000 := by
    intro n; rw [crcFast0_eq, Nat.xor_assoc, Nat.xor_self, Nat.xor_zero]
  have s1 : crcByte 0xff000000 = 0x00ff0000 := crcByte_shift 0xff0000
  have s2 : crcByte 0x00ff0000 = 0x0000ff00 := crcByte_shift 0xff00
  have s3 : crcByte 0x0000ff00 = 0x000000ff := crcByte_shift 0xff
  unfold crcWord
  rw [b0, b1, b2, b3, crcFast3_eq, crcFast2_eq, crcFast2_eq, crcFast1_eq, crcFast1_eq, crcFast1_eq,
    t0, t0, t0, t0, four_bytes r hr]
  simp only [crcByte_xor, s1, s2, s3]
  have e3 : (0xffffffff : Nat) = 0xff ^^^ (0xff00 ^^^ (0xff0000 ^^^ 0xff000000)) := by decide
  rw [e3]
  simp only [Nat.xor_assoc, xor_lc]

theorem crcBit_lt {c : Nat} (h : c < 2 ^ 32) : crcBit c < 2 ^ 32 := by
  unfold crcBit
  split
  · exact Nat.xor_lt_two_pow (by decide) (by omega)
  · omega

theorem crcByte_lt {c : Nat} (h : c < 2 ^ 32) : crcByte c < 2 ^ 32 := by
  unfold crcByte
  exact crcBit_lt (crcBit_lt (crcBit_lt (crcBit_lt (crcBit_lt (crcBit_lt (crcBit_lt (crcBit_lt h)))))))

theorem shift_in (a x : Nat) : crcByte a ^^^ x = crcByte (a ^^^ x * 256) := by
  rw [crcByte_xor, crcByte_shift]

/-- the register of RFC 1952 over a sequence of bytes. -/
def crcReg (r : Nat) (l : List Nat) : Nat := l.foldl (fun c x => crcByte (c ^^^ x)) r

theorem crcReg_lt {l : List Nat} {r : Nat} (hr : r < 2 ^ 32) (hl : ∀ x ∈ l, x < 256) :
    crcReg r l < 2 ^ 32 := by
  induction l generalizing r with
  | nil => exact hr
  | cons x l ih =>
    have hx := hl x (by simp)
    exact ih (crcByte_lt (Nat.xor_lt_two_pow hr (by omega))) (fun y hy => hl y (by simp [hy]))

theorem word_xor (a b c d : Nat) (ha : a < 256) (hb : b < 256) (hc : c < 256) (hd : d < 256) :
    wordAt [a, b, c, d] 0 = a ^^^ ((b ^^^ (c ^^^ d * 256) * 256) * 256) := by
  have e : wordAt [a, b, c, d] 0 = a + b * 256 + c * 65536 + d * 16777216 := by simp [wordAt]
  rw [e]
  have := split_word (a + b * 256 + c * 65536 + d * 16777216) (by omega)
  rw [this]
  have h0 : (a + b * 256 + c * 65536 + d * 16777216) % 256 = a := by omega
  have h1 : (a + b * 256 + c * 65536 + d * 16777216) / 256 % 256 = b := by omega
  have h2 : (a + b * 256 + c * 65536 + d * 16777216) / 65536 % 256 = c := by omega
  have h3 : (a + b * 256 + c * 65536 + d * 16777216) / 16777216 % 256 = d := by omega
  rw [h0, h1, h2, h3]

theorem mul256_xor (a b : Nat) : (a ^^^ b) * 256 = a * 256 ^^^ b * 256 := by
  have := Nat.shiftLeft_xor_distrib (a := a) (b := b) (i := 8)
  simpa [Nat.shiftLeft_eq] using this

theorem crcBy4_eq (l : List Nat) (hl : ∀ x ∈ l, x < 256) (r : Nat) (hr : r < 2 ^ 32) :
    crcBy4 (r ^^^ 0xffffffff) l = crcReg r l ^^^ 0xffffffff := by
  match l, hl with
  | [], _ => rfl
  | [a], hl =>
    rw [crcBy4, crcChar_eq _ _ (hl a (by simp))]; rfl
  | [a, b], hl =>
    rw [crcBy4, crcChar_eq _ _ (hl a (by simp)), crcChar_eq _ _ (hl b (by simp))]; rfl
  | [a, b, c], hl =>
    rw [crcBy4, crcChar_eq _ _ (hl a (by simp)), crcChar_eq _ _ (hl b (by simp)),
      crcChar_eq _ _ (hl c (by simp))]; rfl
  | a :: b :: c :: d :: l, hl =>
    have ha := hl a (by simp)
    have hb := hl b (by simp)
    have hc := hl c (by simp)
    have hd := hl d (by simp)
    rw [crcBy4]
    have hw : wordAt [a, b, c, d] 0 < 2 ^ 32 := by
      have e : wordAt [a, b, c, d] 0 = a + b * 256 + c * 65536 + d * 16777216 := by simp [wordAt]
      omega
    have hx : r ^^^ 0xffffffff ^^^ wordAt [a, b, c, d] 0 =
        (r ^^^ wordAt [a, b, c, d] 0) ^^^ 0xffffffff := by
      simp only [Nat.xor_assoc]
      rw [Nat.xor_comm 0xffffffff]
    rw [hx, crcWord_eq _ (Nat.xor_lt_two_pow hr hw)]
    have key : crcByte (crcByte (crcByte (crcByte (r ^^^ wordAt [a, b, c, d] 0)))) =
        crcReg r [a, b, c, d] := by
      simp only [crcReg, List.foldl_cons, List.foldl_nil]
      rw [word_xor a b c d ha hb hc hd]
      simp only [shift_in, mul256_xor, Nat.xor_assoc]
    rw [key]
    have ih := crcBy4_eq l (fun x hx => hl x (by simp [hx])) (crcReg r [a, b, c, d])
      (crcReg_lt hr (by
        intro x hx
        simp at hx
        rcases hx with rfl | rfl | rfl | rfl <;> assumption))
    rw [ih]; rfl

/-- `slz_crc32_by4` continues the CRC-32 of RFC 1952. -/
theorem crcBy4_crc32 (done l : List Nat) (hd : ∀ x ∈ done, x < 256) (hl : ∀ x ∈ l, x < 256) :
    crcBy4 (crc32 done) l = crc32 (done ++ l) := by
  have h := crcBy4_eq l hl (crcReg 0xffffffff done) (crcReg_lt (by decide) hd)
  have e : crc32 done = crcReg 0xffffffff done ^^^ 0xffffffff := rfl
  rw [e, h]
  unfold crc32 crcReg
  rw [List.foldl_append]

end Mtev.Slz
