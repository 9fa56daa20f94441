import Verif.LuaBit

/-!
# C117 The `bit` library computes on 32-bit two's complement
-/

namespace Mtev.LuaBit

open LuaPack (R)

/-- bit `i` of a number in two's complement, without bound -/
def bit (z : Int) (i : Nat) : Bool := decide (z / 2 ^ i % 2 = 1)

/-- the call gives a number of 32 bits signed, the bits of which are `f` -/
def Gives (r : R Int) (f : Nat → Bool) : Prop :=
  ∃ z, r = .ok z ∧ -(2 ^ 31) ≤ z ∧ z < 2 ^ 31 ∧ ∀ i, i < 32 → bit z i = f i

theorem bit_mod (z : Int) (i : Nat) (hi : i < 32) : bit z i = (z % 2 ^ 32).toNat.testBit i := by
  have hz : z = z % 2 ^ 32 + 2 ^ i * (2 ^ (32 - i) * (z / 2 ^ 32)) := by
    have h := Int.emod_add_mul_ediv z (2 ^ 32)
    have e : (2 : Int) ^ i * (2 ^ (32 - i) * (z / 2 ^ 32)) = 2 ^ 32 * (z / 2 ^ 32) := by
      rw [← mul_assoc, ← pow_add]; congr 2; omega
    rw [e]; omega
  have hr : 0 ≤ z % 2 ^ 32 := Int.emod_nonneg _ (by norm_num)
  obtain ⟨n, hn⟩ := Int.eq_ofNat_of_zero_le hr
  have hd : z / 2 ^ i = ((n / 2 ^ i : Nat) : Int) + 2 ^ (32 - i) * (z / 2 ^ 32) := by
    conv_lhs => rw [hz]
    rw [Int.add_mul_ediv_left _ _ (by positivity), hn]
    push_cast; rfl
  have he : (2 : Int) ^ (32 - i) * (z / 2 ^ 32) % 2 = 0 := by
    have : (2 : Int) ^ (32 - i) = 2 * 2 ^ (31 - i) := by
      rw [← pow_succ']; congr 1; omega
    rw [this, mul_assoc]
    exact Int.mul_emod_right _ _
  unfold bit
  rw [hd, hn, Nat.testBit_eq_decide_div_mod_eq]
  simp only [Int.toNat_natCast]
  apply decide_eq_decide.mpr
  omega

theorem bit_barg (z : Int) (i : Nat) (hi : i < 32) : (barg z).getLsbD i = bit z i := by
  rw [bit_mod z i hi]
  unfold barg
  rw [BitVec.getLsbD, BitVec.toNat_ofInt]
  rfl

theorem bit_toInt (b : U) (i : Nat) (hi : i < 32) : bit b.toInt i = b.getLsbD i := by
  rw [← bit_barg _ _ hi]
  unfold barg
  rw [BitVec.ofInt_toInt]

theorem gives_bret (b : U) (f : Nat → Bool) (h : ∀ i, i < 32 → b.getLsbD i = f i) : Gives (bret b) f := by
  refine ⟨b.toInt, rfl, ?_, ?_, ?_⟩
  · have := BitVec.le_toInt b; simpa using this
  · have := BitVec.toInt_lt (x := b); simpa using this
  · intro i hi
    rw [bit_toInt b i hi, h i hi]

/-- two numbers of 32 bits signed with the same bits are the same: `Gives` leaves no choice -/
theorem gives_unique (y z : Int) (hy : -(2 ^ 31) ≤ y ∧ y < 2 ^ 31) (hz : -(2 ^ 31) ≤ z ∧ z < 2 ^ 31)
    (h : ∀ i, i < 32 → bit y i = bit z i) : y = z := by
  have e : barg y = barg z := by
    apply BitVec.eq_of_getLsbD_eq
    intro i hi
    rw [bit_barg _ _ hi, bit_barg _ _ hi, h i hi]
  have := congrArg BitVec.toNat e
  simp only [barg, BitVec.toNat_ofInt] at this
  push_cast at this
  omega

/-- **C117** `tobit` gives the number of the range with the same remainder modulo 2^32. -/
theorem C117_tobit (a : Int) : ∃ z, tobit a = .ok z ∧ -(2 ^ 31) ≤ z ∧ z < 2 ^ 31 ∧ z % 2 ^ 32 = a % 2 ^ 32 := by
  have h := BitVec.le_toInt (barg a)
  have h2 := BitVec.toInt_lt (x := barg a)
  refine ⟨(barg a).toInt, rfl, by simpa using h, by simpa using h2, ?_⟩
  have : barg (barg a).toInt = barg a := by unfold barg; rw [BitVec.ofInt_toInt]
  have := congrArg BitVec.toNat this
  have e : ∀ y : Int, (barg y).toNat = (y % 2 ^ 32).toNat := fun y => by
    unfold barg; rw [BitVec.toNat_ofInt]; rfl
  rw [e, e] at this
  omega

theorem C117_bnot (a : Int) : Gives (bnot a) fun i => !bit a i := by
  apply gives_bret
  intro i hi
  rw [BitVec.getLsbD_not, bit_barg _ _ hi]
  simp [hi]

theorem fold_bits (f : U → U → U) (g : Bool → Bool → Bool) (hf : ∀ x y i, (f x y).getLsbD i = g (x.getLsbD i) (y.getLsbD i))
    (i : Nat) (hi : i < 32) : ∀ (l : List Int) (b : U), (l.foldl (fun b x => f b (barg x)) b).getLsbD i =
      l.foldl (fun p x => g p (bit x i)) (b.getLsbD i)
  | [], _ => rfl
  | x :: l, b => by
    simp only [List.foldl_cons]
    rw [fold_bits f g hf i hi l, hf, bit_barg _ _ hi]

theorem foldl_and (i : Nat) : ∀ (l : List Int) (p : Bool), l.foldl (fun p x => p && bit x i) p = (p && l.all fun x => bit x i)
  | [], p => by simp
  | x :: l, p => by simp [foldl_and i l, Bool.and_assoc]

theorem foldl_or (i : Nat) : ∀ (l : List Int) (p : Bool), l.foldl (fun p x => p || bit x i) p = (p || l.any fun x => bit x i)
  | [], p => by simp
  | x :: l, p => by simp [foldl_or i l, Bool.or_assoc]

theorem foldl_xor (i : Nat) : ∀ (l : List Int) (p : Bool), l.foldl (fun p x => p ^^ bit x i) p =
    (p ^^ decide (l.countP (fun x => bit x i) % 2 = 1))
  | [], p => by simp
  | x :: l, p => by
    simp only [List.foldl_cons, foldl_xor i l, List.countP_cons]
    cases bit x i
    · simp
    · simp only [Bool.xor_true, if_true, Bool.not_xor]
      have : (decide ((l.countP (fun x => bit x i) + 1) % 2 = 1)) = !decide (l.countP (fun x => bit x i) % 2 = 1) := by
        rw [← decide_not]; apply decide_eq_decide.mpr; omega
      rw [this]
      simp

/-- **C117** `band`: the bits all arguments have, however many. -/
theorem C117_band (a : Int) (l : List Int) : Gives (band a l) fun i => (a :: l).all fun x => bit x i := by
  apply gives_bret
  intro i hi
  rw [fold_bits _ (· && ·) (fun x y i => BitVec.getLsbD_and) i hi, foldl_and, bit_barg _ _ hi]
  simp

/-- **C117** `bor`: the bits some argument has. -/
theorem C117_bor (a : Int) (l : List Int) : Gives (bor a l) fun i => (a :: l).any fun x => bit x i := by
  apply gives_bret
  intro i hi
  rw [fold_bits _ (· || ·) (fun x y i => BitVec.getLsbD_or) i hi, foldl_or, bit_barg _ _ hi]
  simp

/-- **C117** `bxor`: the bits an odd number of arguments have. -/
theorem C117_bxor (a : Int) (l : List Int) :
    Gives (bxor a l) fun i => decide ((a :: l).countP (fun x => bit x i) % 2 = 1) := by
  apply gives_bret
  intro i hi
  rw [fold_bits _ (· ^^ ·) (fun x y i => BitVec.getLsbD_xor) i hi, foldl_xor, bit_barg _ _ hi, List.countP_reverse,
    List.countP_cons]
  cases bit a i
  · simp
  · simp only [Bool.true_xor, if_true]
    rw [← decide_not]; apply decide_eq_decide.mpr; omega

theorem count_eq (n : Int) : (barg n &&& 31#32).toNat = (n % 32).toNat := by
  rw [BitVec.toNat_and]
  show (barg n).toNat &&& (2 ^ 5 - 1) = _
  rw [Nat.and_two_pow_sub_one_eq_mod]
  unfold barg
  rw [BitVec.toNat_ofInt]
  push_cast
  omega

theorem gives_sh (f : U → Nat → R U) (a n : Int) (b : U) (g : Nat → Bool) (h : f (barg a) (n % 32).toNat = .ok b)
    (hb : ∀ i, i < 32 → b.getLsbD i = g i) : Gives (bitSh f a n) g := by
  unfold bitSh
  rw [count_eq, h]
  exact gives_bret b g hb

/-- **C117** `lshift` moves the bits up by the remainder of the count by 32, zeros come in. -/
theorem C117_lshift (a n : Int) : Gives (lshift a n) fun i =>
    decide ((n % 32).toNat ≤ i) && bit a (i - (n % 32).toNat) := by
  have hk : (n % 32).toNat < 32 := by omega
  apply gives_sh shl a n _ _ (if_pos hk)
  intro i hi
  rw [BitVec.getLsbD_shiftLeft]
  by_cases h : i < (n % 32).toNat
  · have h2 : ¬ (n % 32).toNat ≤ i := by omega
    rw [decide_eq_false h2, decide_eq_true h]
    simp
  · rw [bit_barg _ _ (by omega)]
    simp [h, hi]; omega

example : lshift 1 33 = .ok 2 ∧ arshift (-8) 1 = .ok (-4) ∧ rshift (-1) 28 = .ok 15 ∧ rol 0x12345678 8 = .ok 0x34567812 ∧
    bswap 1 = .ok 0x1000000 ∧ bxor 5 [3, 1] = .ok 7 := by decide +kernel

/-- **C117** `rshift` moves them down, zeros come in. -/
theorem C117_rshift (a n : Int) : Gives (rshift a n) fun i =>
    decide (i + (n % 32).toNat < 32) && bit a (i + (n % 32).toNat) := by
  have hk : (n % 32).toNat < 32 := by omega
  apply gives_sh shr a n _ _ (if_pos hk)
  intro i hi
  rw [BitVec.getLsbD_ushiftRight, Nat.add_comm]
  by_cases h : i + (n % 32).toNat < 32
  · rw [bit_barg _ _ h]; simp [h]
  · rw [BitVec.getLsbD_of_ge _ _ (by omega)]; simp [h]

/-- **C117** `arshift` moves them down, the sign comes in. -/
theorem C117_arshift (a n : Int) : Gives (arshift a n) fun i => bit a (min (i + (n % 32).toNat) 31) := by
  have hk : (n % 32).toNat < 32 := by omega
  apply gives_sh sar a n _ _ (if_pos hk)
  intro i hi
  rw [BitVec.getLsbD_sshiftRight]
  have e1 : decide (32 ≤ i) = false := by simp; omega
  rw [e1]
  simp only [Bool.not_false, Bool.true_and]
  by_cases h : (n % 32).toNat + i < 32
  · rw [if_pos h, bit_barg _ _ h, Nat.add_comm, Nat.min_eq_left (by omega)]
  · rw [if_neg h, BitVec.msb_eq_getLsbD_last, bit_barg _ _ (by omega), Nat.min_eq_right (by omega)]

/-- **C117** `rol` turns the bits round.  Partial: the count is no multiple of 32.
Missing: see `C117_rol_violated`. -/
theorem C117_rol_partial (a n : Int) (hn : n % 32 ≠ 0) : Gives (rol a n) fun i => bit a ((i + (32 - (n % 32).toNat)) % 32) := by
  have hk : (n % 32).toNat < 32 := by omega
  have hk0 : 0 < (n % 32).toNat := by omega
  refine gives_sh brol a n ((barg a <<< (n % 32).toNat) ||| (barg a >>> (32 - (n % 32).toNat))) _ ?_ ?_
  · unfold brol shl shr
    rw [if_pos hk, if_pos (by omega)]
    rfl
  · intro i hi
    rw [BitVec.getLsbD_or, BitVec.getLsbD_shiftLeft, BitVec.getLsbD_ushiftRight]
    generalize (n % 32).toNat = k at *
    by_cases h : i < k
    · rw [bit_barg _ (32 - k + i) (by omega)]
      have : (i + (32 - k)) % 32 = 32 - k + i := by omega
      rw [this]; simp [h]
    · rw [bit_barg _ _ (by omega), BitVec.getLsbD_of_ge (barg a) (32 - k + i) (by omega)]
      have : (i + (32 - k)) % 32 = i - k := by omega
      rw [this]; simp [h, hi]

/-- **C117** `ror` turns them round the other way. -/
theorem C117_ror_partial (a n : Int) (hn : n % 32 ≠ 0) : Gives (ror a n) fun i => bit a ((i + (n % 32).toNat) % 32) := by
  have hk : (n % 32).toNat < 32 := by omega
  have hk0 : 0 < (n % 32).toNat := by omega
  refine gives_sh bror a n ((barg a <<< (32 - (n % 32).toNat)) ||| (barg a >>> (n % 32).toNat)) _ ?_ ?_
  · unfold bror shl shr
    rw [if_pos hk, if_pos (by omega)]
    rfl
  · intro i hi
    rw [BitVec.getLsbD_or, BitVec.getLsbD_shiftLeft, BitVec.getLsbD_ushiftRight]
    generalize (n % 32).toNat = k at *
    by_cases h : i + k < 32
    · rw [bit_barg _ (k + i) (by omega)]
      have : (i + k) % 32 = k + i := by omega
      rw [this]
      have h2 : i < 32 - k := by omega
      simp [h2]
    · rw [bit_barg _ _ (by omega), BitVec.getLsbD_of_ge (barg a) (k + i) (by omega)]
      have : (i + k) % 32 = i - (32 - k) := by omega
      rw [this]
      have h2 : ¬ i < 32 - k := by omega
      simp [h2, hi]

/-- **C117 violated** A rotation by a multiple of 32 shifts a 32-bit number by 32, which C leaves undefined. -/
theorem C117_rol_violated (a n : Int) (hn : n % 32 = 0) : rol a n = .ub ∧ ror a n = .ub := by
  constructor
  · unfold rol bitSh
    rw [count_eq, hn]
    rfl
  · unfold ror bitSh
    rw [count_eq, hn]
    rfl

example : rol 0x12345678 0 = .ub := (C117_rol_violated _ 0 rfl).1

/-- **C117** `bswap` exchanges the bytes. -/
theorem C117_bswap (a : Int) : Gives (bswap a) fun i => bit a (8 * (3 - i / 8) + i % 8) := by
  apply gives_bret
  intro i hi
  have e : ((barg a >>> 24) ||| ((barg a >>> 8) &&& 0xff00#32) ||| ((barg a &&& 0xff00#32) <<< 8) ||| (barg a <<< 24)).getLsbD i =
      (barg a).getLsbD (8 * (3 - i / 8) + i % 8) := by
    generalize barg a = b
    simp only [BitVec.getLsbD_or, BitVec.getLsbD_and, BitVec.getLsbD_shiftLeft, BitVec.getLsbD_ushiftRight]
    have hff : ∀ j : Fin 64, (0xff00#32).getLsbD j = decide (8 ≤ j.1 ∧ j.1 < 16) := by decide
    interval_cases i <;> simp [BitVec.getLsbD_of_ge]
  rw [e, bit_barg _ _ (by omega)]

theorem hexLoop_length (u : Bool) : ∀ (n : Nat) (b : U), (hexLoop u b n).length = n
  | 0, _ => rfl
  | n + 1, b => by simp [hexLoop, hexLoop_length u n]

theorem hexLoop_get (u : Bool) : ∀ (n : Nat) (b : U) (j : Nat), j < n →
    (hexLoop u b n)[n - 1 - j]? = some (hexdigit u (b.toNat / 16 ^ j % 16))
  | 0, _, _, h => absurd h (by omega)
  | n + 1, b, 0, _ => by
    have e : (b &&& 15#32).toNat = b.toNat / 16 ^ 0 % 16 := by
      rw [BitVec.toNat_and]
      show b.toNat &&& (2 ^ 4 - 1) = _
      rw [Nat.and_two_pow_sub_one_eq_mod]; simp
    unfold hexLoop
    rw [List.getElem?_append_right (by rw [hexLoop_length]; omega), hexLoop_length, e]
    simp
  | n + 1, b, j + 1, h => by
    unfold hexLoop
    rw [List.getElem?_append_left (by rw [hexLoop_length]; omega)]
    have := hexLoop_get u n (b >>> 4) j (by omega)
    have e : n + 1 - 1 - (j + 1) = n - 1 - j := by omega
    rw [e, this, BitVec.toNat_ushiftRight, Nat.shiftRight_eq_div_pow, Nat.div_div_eq_div_mul, pow_succ' 16 j]

theorem hexdigit_table (u : Bool) (d : Nat) (h : d < 16) :
    (bytesOf (if u = true then "0123456789ABCDEF" else "0123456789abcdef"))[d]? = some (hexdigit u d) := by
  have : ∀ u : Bool, ∀ d : Fin 16,
      (bytesOf (if u = true then "0123456789ABCDEF" else "0123456789abcdef"))[d.1]? = some (hexdigit u d.1) := by
    decide +kernel
  exact this u ⟨d, h⟩

theorem digit_mod (a : Int) (j : Nat) (hj : j < 8) : (((barg a).toNat / 16 ^ j % 16 : Nat) : Int) = a / 16 ^ j % 16 := by
  have e : (barg a).toNat = (a % 2 ^ 32).toNat := by unfold barg; rw [BitVec.toNat_ofInt]; rfl
  rw [e]
  have hr : 0 ≤ a % 2 ^ 32 := Int.emod_nonneg _ (by norm_num)
  rw [Int.natCast_mod, Int.natCast_div, Int.toNat_of_nonneg hr]
  interval_cases j <;> norm_num <;> omega

/-- **C117** `tohex` gives as many digits as asked for, at most eight, eight by default: the last ones of the number, and
capital letters for a negative count.  Partial: a count other than -2^31 modulo 2^32.  Missing: see
`C117_tohex_violated`. -/
theorem C117_tohex_partial (a : Int) (n : Option Int) (k : Int) (hk : n = none ∧ k = 8 ∨ n = some k)
    (h : -(2 ^ 31) < k ∧ k < 2 ^ 31) :
    ∃ t, tohex a n = .ok t ∧ t.length = min k.natAbs 8 ∧
      ∀ j, j < t.length → ∃ d : Nat, (d : Int) = a / 16 ^ j % 16 ∧
        t[t.length - 1 - j]? = (bytesOf (if k < 0 then "0123456789ABCDEF" else "0123456789abcdef"))[d]? := by
  have e : hexCount n = k := by
    rcases hk with ⟨rfl, rfl⟩ | rfl
    · rfl
    · simp only [hexCount, barg, BitVec.toInt_ofInt]
      rw [Int.bmod_def]
      split <;> omega
  unfold tohex
  simp only [e]
  rw [if_neg (by omega)]
  refine ⟨_, rfl, hexLoop_length _ _ _, ?_⟩
  rw [hexLoop_length]
  intro j hj
  refine ⟨(barg a).toNat / 16 ^ j % 16, digit_mod a j (by omega), ?_⟩
  rw [hexLoop_get _ _ _ _ hj, ← hexdigit_table _ _ (by omega)]
  simp

example : tohex 255 none = .ok (bytesOf "000000ff") ∧ tohex 0xabcd (some (-3)) = .ok (bytesOf "BCD") := by decide +kernel

/-- **C117 violated** The count -2^31 is negated, which overflows. -/
theorem C117_tohex_violated (a : Int) : tohex a (some (-(2 ^ 31))) = .ub := by
  unfold tohex
  have : (barg (-(2 ^ 31))).toInt = -(2 ^ 31) := by decide
  simp only [hexCount, this, if_true]

end Mtev.LuaBit
