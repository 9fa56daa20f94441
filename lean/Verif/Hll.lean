import Verif.Basic

/-!
# Model of `src/utils/mtev_hyperloglog.c`

The hash function (`mtev_hash__hash`) is a parameter; its result is a `uint32_t`.
The floating point estimate (`mtev_hyperloglog_size`) is not modelled beyond its integer inputs.
-/

namespace Mtev.Hll

/-- `__builtin_clz` on a 32-bit value; undefined (`none`) on 0. -/
def clz32 (x : Nat) : Option Nat := if x = 0 then none else some (31 - Nat.log2 x)

/-- `mtev_hyperloglog_alloc`, mtev_hyperloglog.c:31-46. -/
def alloc (bitcount : Int) : Option (Nat × List Nat) :=
  if bitcount < 4 ∨ bitcount > 20 then none
  else some (bitcount.toNat, List.replicate (1 <<< bitcount.toNat) 0)

/-- `mtev_hyperloglog_add`, mtev_hyperloglog.c:55-82, for an element whose hash is `hash`; `none` is
undefined behaviour (`clz` of zero, register index out of range). -/
def add (bitcount : Nat) (regs : List Nat) (hash : Nat) : Option (List Nat) :=
  let bitarea := 32 - bitcount
  let index := hash >>> bitarea
  let hash' := ((hash <<< bitcount) % 2 ^ 32) ||| (1 <<< (bitcount - 1))
  match clz32 hash', regs[index]? with
  | some z, some y =>
    let l := z + 1
    some (if l > y then regs.set index (l % 256) else regs)
  | _, _ => none

/-- Adding a sequence of elements. -/
def addAll (bitcount : Nat) (regs : List Nat) : List Nat → Option (List Nat)
  | [] => some regs
  | h :: t => match add bitcount regs h with
    | some r => addAll bitcount r t
    | none => none

/-- The two integer inputs of the estimate, mtev_hyperloglog.c:93-98: number of zero registers and
`int_sum` (`HLL_NUMERATOR` is 2^24). -/
def estimateSums (regs : List Nat) : Nat × Nat :=
  regs.foldl (fun p x => (p.1 + (if x = 0 then 1 else 0), p.2 + 16777216 / (1 <<< x))) (0, 0)

/-! ## Lemmas -/

/-- The rank the code computes, in closed form. -/
def rank (b h : Nat) : Nat :=
  let w := h % 2 ^ (32 - b)
  if w = 0 then 33 - b else 32 - b - Nat.log2 w

theorem log2_eq {n k : Nat} (h1 : 2 ^ k ≤ n) (h2 : n < 2 ^ (k + 1)) : Nat.log2 n = k := by
  have hn : n ≠ 0 := by have := Nat.two_pow_pos k; omega
  exact (Nat.log2_eq_iff hn).mpr ⟨h1, h2⟩

theorem shifted (b h : Nat) (hb : 4 ≤ b) (hb' : b ≤ 20) :
    ((h <<< b) % 2 ^ 32) ||| (1 <<< (b - 1)) = (h % 2 ^ (32 - b)) * 2 ^ b + 2 ^ (b - 1) := by
  have e : (h <<< b) % 2 ^ 32 = (h % 2 ^ (32 - b)) * 2 ^ b := by
    rw [Nat.shiftLeft_eq, show (2 : Nat) ^ 32 = 2 ^ (32 - b) * 2 ^ b by rw [← Nat.pow_add]; congr 1; omega,
      Nat.mul_mod_mul_right]
  rw [e, Nat.shiftLeft_eq, Nat.one_mul]
  refine or_eq_add b (Nat.mul_mod_left _ _) ?_
  exact Nat.pow_lt_pow_right (by omega) (by omega)

theorem clz_eq (b h : Nat) (hb : 4 ≤ b) (hb' : b ≤ 20) :
    ∃ z, clz32 (((h <<< b) % 2 ^ 32) ||| (1 <<< (b - 1))) = some z ∧ z + 1 = rank b h := by
  rw [shifted b h hb hb']
  unfold clz32 rank
  have hp : 0 < 2 ^ (b - 1) := Nat.two_pow_pos _
  have hbb : 2 ^ b = 2 ^ (b - 1) * 2 := by rw [← Nat.pow_succ]; congr 1; omega
  rw [if_neg (by omega)]
  refine ⟨_, rfl, ?_⟩
  generalize hw : h % 2 ^ (32 - b) = w
  have hwl : w < 2 ^ (32 - b) := by rw [← hw]; exact Nat.mod_lt _ (Nat.two_pow_pos _)
  by_cases h0 : w = 0
  · subst h0
    simp only [Nat.zero_mul, Nat.zero_add, if_true]
    rw [log2_eq (k := b - 1) (Nat.le_refl _) (Nat.pow_lt_pow_right (by omega) (by omega))]
    omega
  · rw [if_neg h0]
    have hl1 := Nat.log2_self_le h0
    have hl2 := Nat.lt_log2_self (n := w)
    have hlt : Nat.log2 w < 32 - b := (Nat.log2_lt h0).mpr hwl
    rw [log2_eq (k := Nat.log2 w + b)]
    · omega
    · rw [Nat.pow_add]
      exact Nat.le_trans (Nat.mul_le_mul_right _ hl1) (Nat.le_add_right _ _)
    · rw [show Nat.log2 w + b + 1 = Nat.log2 w + 1 + b by omega, Nat.pow_add]
      have : (w + 1) * 2 ^ b ≤ 2 ^ (Nat.log2 w + 1) * 2 ^ b := Nat.mul_le_mul_right _ hl2
      rw [Nat.add_mul, Nat.one_mul] at this
      omega

theorem rank_le (b h : Nat) (hb' : b ≤ 20) : 1 ≤ rank b h ∧ rank b h ≤ 33 - b := by
  unfold rank
  simp only
  split
  · omega
  · rename_i h0
    have hwl : h % 2 ^ (32 - b) < 2 ^ (32 - b) := Nat.mod_lt _ (Nat.two_pow_pos _)
    have := (Nat.log2_lt h0).mpr hwl
    omega

theorem index_lt (b h : Nat) (hb' : b ≤ 20) (hh : h < 2 ^ 32) : h >>> (32 - b) < 2 ^ b := by
  rw [Nat.shiftRight_eq_div_pow, Nat.div_lt_iff_lt_mul (Nat.two_pow_pos _), ← Nat.pow_add]
  rw [show b + (32 - b) = 32 by omega]
  exact hh

/-- One addition in closed form: the register of the element becomes the maximum. -/
theorem add_eq (b : Nat) (hb : 4 ≤ b) (hb' : b ≤ 20) (regs : List Nat) (hl : regs.length = 2 ^ b) (h : Nat) (hh : h < 2 ^ 32) :
    add b regs h = some (regs.set (h >>> (32 - b)) (max (regs.getD (h >>> (32 - b)) 0) (rank b h))) := by
  obtain ⟨z, hz, hr⟩ := clz_eq b h hb hb'
  have hi := index_lt b h hb' hh
  have hr2 := rank_le b h hb'
  unfold add
  simp only [hz, hr]
  have hget : regs[h >>> (32 - b)]? = some (regs.getD (h >>> (32 - b)) 0) := by
    rw [List.getD_eq_getElem?_getD, List.getElem?_eq_getElem (by omega)]; rfl
  rw [hget]
  simp only
  split
  · rw [Nat.mod_eq_of_lt (by omega), Nat.max_eq_right (by omega), hr]
  · rw [Nat.max_eq_left (by omega)]
    congr 1
    apply List.ext_getElem?
    intro j
    by_cases hj : j = h >>> (32 - b)
    · subst hj
      rw [List.getElem?_set_self (by omega), hget]
    · rw [List.getElem?_set_ne (Ne.symm hj)]

end Mtev.Hll
