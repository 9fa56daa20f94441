import Verif.Basic

/-!
# Lua: `string.pack` and `string.unpack`

`src/modules/lua_lpack.c:44-252`.

A Lua string is a list of bytes followed by a NUL that does not belong to it.  A number is an integer that a Lua number
can hold.  Both functions walk through the format in the same way: a letter and how often (`lua_lpack.c:104-114`,
`201-210`).

Simplified: the codes `f`, `d` and `n` (floating point) are not modelled (they are bad codes here); the machine is
little-endian and `char` is signed; counts in the format and lengths of strings are below 2^31; the values given for
packing have the type of their code (Lua would convert between numbers and strings).
-/

namespace Mtev.LuaPack

abbrev Str := List Nat

/-- how a call ends: `ub` if C's rules are broken, `error` for a Lua error -/
inductive R (α : Type) where
  | ok (a : α)
  | ub
  | error
deriving DecidableEq, Repr

def R.bind {α β : Type} : R α → (α → R β) → R β
  | .ok a, f => f a
  | .ub, _ => .ub
  | .error, _ => .error

inductive Val where
  | num (z : Int)
  | str (s : Str)
deriving DecidableEq, Repr

/-! ### the format -/

def isDigit (c : Nat) : Bool := decide (48 ≤ c ∧ c ≤ 57)

/-- `while (isdigit(*f)) N=10*N+(*f++)-'0'` -/
def number : Nat → Str → Nat
  | n, [] => n
  | n, c :: s => if isDigit c then number (10 * n + (c - 48)) s else n

def skip : Str → Str
  | [] => []
  | c :: s => if isDigit c then skip s else c :: s

theorem skip_le : ∀ s : Str, (skip s).length ≤ s.length
  | [] => Nat.le_refl _
  | c :: s => by
    unfold skip
    split
    · have := skip_le s; simp; omega
    · simp

/-- the letters with their counts, `lua_lpack.c:104-114` -/
def tokens : Str → List (Nat × Nat)
  | [] => []
  | c :: s => (c, if (s.head?.map isDigit).getD false then number 0 s else 1) :: tokens (skip s)
termination_by s => s.length
decreasing_by
  have := skip_le s
  simp; omega

/-- `<`, `>` or `=` -/
def isEndian (c : Nat) : Bool := decide (c = 60 ∨ c = 62 ∨ c = 61)

/-- `doendian` on a little-endian machine, `lua_lpack.c:44-52` -/
def doEndian (c : Nat) : Bool := decide (c = 62)

/-- what is done one after the other: a letter `N` times, but once for a byte order.  For `A`, unpacking takes the count as
the length of one string (`126-135`), so it is kept. -/
inductive Op where
  | order (c : Nat)
  | text (n : Nat)
  | item (c : Nat)
deriving DecidableEq, Repr

def ops (forPack : Bool) : List (Nat × Nat) → List Op
  | [] => []
  | (c, n) :: t =>
    (if isEndian c then (if n = 0 then [] else [.order c])
     else if c = 65 ∧ forPack = false then [.text n]
     else List.replicate n (.item c)) ++ ops forPack t

/-! ### numbers in memory -/

/-- little-endian digits -/
def digits : Nat → Nat → Str
  | 0, _ => []
  | w + 1, n => n % 256 :: digits w (n / 256)

/-- `doswap`, `lua_lpack.c:54-66` -/
def doSwap (swap : Bool) (b : Str) : Str := if swap then b.reverse else b

/-- the bytes of a number of `w` bytes, `memcpy` of a two's complement number -/
def toBytes (swap : Bool) (w : Nat) (z : Int) : Str := doSwap swap (digits w (z % (256 ^ w : Nat)).toNat)

def value : Str → Nat
  | [] => 0
  | b :: s => b + 256 * value s

/-- and back -/
def fromBytes (swap : Bool) (signed : Bool) (b : Str) : Int :=
  let n := value (doSwap swap b)
  if signed ∧ 256 ^ b.length ≤ 2 * n then (n : Int) - (256 ^ b.length : Nat) else n

/-- the codes of numbers: width and sign, `lua_lpack.c:150-158` -/
def numCode (c : Nat) : Option (Nat × Bool) :=
  if c = 99 then some (1, true)
  else if c = 98 then some (1, false)
  else if c = 104 then some (2, true)
  else if c = 72 then some (2, false)
  else if c = 105 then some (4, true)
  else if c = 73 then some (4, false)
  else if c = 108 then some (8, true)
  else if c = 76 then some (8, false)
  else none

/-- what fits into a type -/
def fits (w : Nat) (signed : Bool) (z : Int) : Bool :=
  if signed then decide (-(256 ^ w : Nat) ≤ 2 * z ∧ 2 * z < (256 ^ w : Nat)) else decide (0 ≤ z ∧ z < (256 ^ w : Nat))

/-- the codes of strings with a length before them: width of the length; `145-147`, `226-228` -/
def strCode (c : Nat) : Option Nat :=
  if c = 112 then some 1
  else if c = 80 then some 2
  else if c = 97 then some 4
  else none

/-- is the length read as a signed number? -/
def lenSigned (c : Nat) : Bool := decide (c ≠ 112)

/-! ### packing -/

/-- one value, `lua_lpack.c:173-191`, `219-243`; converting a number that does not fit is undefined -/
def enc (swap : Bool) (c : Nat) (v : Val) : R Str :=
  match v with
  | .num z =>
    match numCode c with
    | some (w, sg) => if fits w sg z then .ok (toBytes swap w z) else .ub
    | none => .error
  | .str s =>
    if c = 65 then .ok s
    else if c = 122 then .ok (s ++ [0])
    else
      match strCode c with
      | some w => .ok (toBytes swap w s.length ++ s)
      | none => .error

/-- the loop of `l_pack`, `lua_lpack.c:193-252` -/
def packOps : List Op → Bool → List Val → R Str
  | [], _, _ => .ok []
  | .order c :: t, _, vs => packOps t (doEndian c) vs
  | .text _ :: t, sw, vs => packOps t sw vs
  | .item c :: t, sw, vs =>
    if c = 32 ∨ c = 44 then packOps t sw vs
    else
      match vs with
      | [] => .error
      | v :: vs => (enc sw c v).bind fun b => (packOps t sw vs).bind fun r => .ok (b ++ r)

def pack (f : Str) (vs : List Val) : R Str := packOps (ops true (tokens f)) false vs

/-! ### unpacking -/

/-- `n` bytes from position `i` (the NUL at the end may be read) -/
def read (s : Str) (i : Int) (n : Nat) : R Str :=
  if 0 ≤ i ∧ i + n ≤ s.length + 1 then .ok (((s ++ [0]).drop i.toNat).take n) else .ub

/-- one value; `none`: not enough left (`goto done`) -/
def dec (swap : Bool) (c : Nat) (s : Str) (i : Int) : R (Option (Val × Int)) :=
  match numCode c with
  | some (w, sg) =>
    if i + w > s.length then .ok none
    else (read s i w).bind fun b => .ok (some (.num (fromBytes swap sg b), i + w))
  | none =>
    if c = 122 then
      if i ≥ s.length then .ok none
      else if i < 0 then .ub
      else
        let t := (s.drop i.toNat).takeWhile (· ≠ 0)
        .ok (some (.str t, i + t.length + 1))
    else
      match strCode c with
      | none => .error
      | some w =>
        if i + w > s.length then .ok none
        else (read s i w).bind fun b =>
          let l := fromBytes swap (lenSigned c) b
          if i + w + l ≥ 2 ^ 31 then .ub
          else if i + w + l > s.length then .ok none
          else if l < 0 then .ub
          else (read s (i + w) l.toNat).bind fun t => .ok (some (.str t, i + w + l))

/-- the loop of `l_unpack`, `lua_lpack.c:95-171`: the values and the position -/
def unpackOps (s : Str) : List Op → Bool → Int → R (List Val × Int)
  | [], _, i => .ok ([], i)
  | .order c :: t, _, i => unpackOps s t (doEndian c) i
  | .text n :: t, sw, i =>
    if n = 0 then (unpackOps s t sw i).bind fun r => .ok (.str [] :: r.1, r.2)
    else if i + n ≥ 2 ^ 31 then .ub
    else if i + n > s.length then .ok ([], i)
    else (read s i n).bind fun b => (unpackOps s t sw (i + n)).bind fun r => .ok (.str b :: r.1, r.2)
  | .item c :: t, sw, i =>
    if c = 32 ∨ c = 44 then unpackOps s t sw i
    else
      (dec sw c s i).bind fun o =>
        match o with
        | none => .ok ([], i)
        | some (v, j) => (unpackOps s t sw j).bind fun r => .ok (v :: r.1, r.2)

/-- `l_unpack`: the values and the next position; `init` counts from one -/
def unpack (s f : Str) (init : Int) : R (List Val × Int) :=
  (unpackOps s (ops false (tokens f)) false (init - 1)).bind fun r => .ok (r.1, r.2 + 1)

/-! ### lemmas -/

theorem digits_length : ∀ w n, (digits w n).length = w
  | 0, _ => rfl
  | w + 1, n => by simp [digits, digits_length w]

theorem value_digits : ∀ w n, n < 256 ^ w → value (digits w n) = n
  | 0, n, h => by simp at h; simp [digits, value, h]
  | w + 1, n, h => by
    have : n / 256 < 256 ^ w := by
      rw [Nat.div_lt_iff_lt_mul (by omega)]
      rw [Nat.pow_succ] at h; exact h
    simp only [digits, value, value_digits w _ this]
    omega

theorem doSwap_length (sw : Bool) (b : Str) : (doSwap sw b).length = b.length := by
  unfold doSwap; split <;> simp

theorem doSwap_twice (sw : Bool) (b : Str) : doSwap sw (doSwap sw b) = b := by
  unfold doSwap; split <;> simp

theorem toBytes_length (sw : Bool) (w : Nat) (z : Int) : (toBytes sw w z).length = w := by
  simp [toBytes, doSwap_length, digits_length]

theorem from_to (sw sg : Bool) (w : Nat) (z : Int) (h : fits w sg z = true) :
    fromBytes sw sg (toBytes sw w z) = z := by
  have hp : (0 : Int) < ((256 ^ w : Nat) : Int) := by exact_mod_cast Nat.pos_of_ne_zero (by positivity)
  have hlt : (z % ((256 ^ w : Nat) : Int)).toNat < 256 ^ w := by
    have h1 := Int.emod_lt_of_pos z hp
    have h2 := Int.emod_nonneg z (by omega : ((256 ^ w : Nat) : Int) ≠ 0)
    omega
  unfold fromBytes
  simp only [toBytes_length]
  rw [toBytes, doSwap_twice, value_digits _ _ hlt]
  have h2 := Int.emod_nonneg z (by omega : ((256 ^ w : Nat) : Int) ≠ 0)
  have e : (((z % ((256 ^ w : Nat) : Int)).toNat : Nat) : Int) = z % ((256 ^ w : Nat) : Int) := Int.toNat_of_nonneg h2
  unfold fits at h
  cases sg with
  | false =>
    simp only [Bool.false_eq_true, if_false, decide_eq_true_eq] at h
    simp only [Bool.false_eq_true, false_and, if_false, e]
    exact Int.emod_eq_of_lt h.1 h.2
  | true =>
    simp only [if_true, decide_eq_true_eq] at h
    by_cases hz : 0 ≤ z
    · have e2 : z % ((256 ^ w : Nat) : Int) = z := Int.emod_eq_of_lt hz (by omega)
      rw [e2] at e
      rw [if_neg (by rw [e2]; omega), e2]; exact Int.toNat_of_nonneg hz
    · have e2 : z % ((256 ^ w : Nat) : Int) = z + ((256 ^ w : Nat) : Int) := by
        rw [← Int.add_emod_right, Int.emod_eq_of_lt (by omega) (by omega)]
      rw [e2] at e
      rw [if_pos ⟨rfl, by rw [e2]; omega⟩, e2, e]; omega

/-- reading what is there -/
theorem read_mid (pre b suf : Str) : read (pre ++ b ++ suf) (pre.length : Int) b.length = .ok b := by
  unfold read
  rw [if_pos ⟨by omega, by simp; omega⟩]
  congr 1
  simp

theorem read_mid' (pre b suf : Str) (i : Int) (n : Nat) (h1 : i = pre.length) (h2 : n = b.length) :
    read (pre ++ b ++ suf) i n = .ok b := by subst h1 h2; exact read_mid pre b suf

end Mtev.LuaPack
