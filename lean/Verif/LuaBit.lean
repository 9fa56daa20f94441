import Verif.LuaPack
import Mathlib.Data.BitVec

/-!
# Lua: the `bit` library

`src/modules/lua_bit.c`.

An argument is a Lua number.  Adding 2^52 + 2^51 to it makes the lower 32 bits of its representation those of the
integer modulo 2^32 (`lua_bit.c:59-85`); this is taken for granted, for integers below 2^51 (as the library's
documentation asks).  `UBits` is a `BitVec 32`, whose operations are those of C on `uint32_t` as long as the shift is
less than 32; a greater one is `ub`.

Simplified: arguments that are no integers, and those that are no numbers (an error), are not modelled.
-/

namespace Mtev.LuaBit

open LuaPack (R)

abbrev U := BitVec 32

/-- `barg`, `lua_bit.c:60-85` -/
def barg (z : Int) : U := BitVec.ofInt 32 z

/-- `BRET`, `lua_bit.c:88`: the number of the same bits, signed -/
def bret (b : U) : R Int := .ok b.toInt

/-- `bit_tobit`, `lua_bit.c:90` -/
def tobit (a : Int) : R Int := bret (barg a)
/-- `bit_bnot`, `lua_bit.c:91` -/
def bnot (a : Int) : R Int := bret (~~~ barg a)

/-- `BIT_OP`, `lua_bit.c:93-95`: the first argument, then from the last one down to the second -/
def bitOp (f : U → U → U) (a : Int) (l : List Int) : R Int := bret (l.reverse.foldl (fun b x => f b (barg x)) (barg a))

/-- `bit_band`, `lua_bit.c:96` -/
def band (a : Int) (l : List Int) : R Int := bitOp (· &&& ·) a l
/-- `bit_bor`, `lua_bit.c:97` -/
def bor (a : Int) (l : List Int) : R Int := bitOp (· ||| ·) a l
/-- `bit_bxor`, `lua_bit.c:98` -/
def bxor (a : Int) (l : List Int) : R Int := bitOp (· ^^^ ·) a l

/-- `<<` of C on `uint32_t`: undefined from 32 on -/
def shl (b : U) (n : Nat) : R U := if n < 32 then .ok (b <<< n) else .ub
/-- `>>` of C on `uint32_t` -/
def shr (b : U) (n : Nat) : R U := if n < 32 then .ok (b >>> n) else .ub
/-- `>>` of C on `int32_t`, arithmetic on the compilers the library accepts (`lua_bit.c:151-162`) -/
def sar (b : U) (n : Nat) : R U := if n < 32 then .ok (b.sshiftRight n) else .ub

/-- `BIT_SH`, `lua_bit.c:105-107` -/
def bitSh (f : U → Nat → R U) (a n : Int) : R Int := (f (barg a) (barg n &&& 31#32).toNat).bind bret

/-- `bit_lshift`, `lua_bit.c:100`, `108` -/
def lshift (a n : Int) : R Int := bitSh shl a n
/-- `bit_rshift`, `lua_bit.c:101`, `109` -/
def rshift (a n : Int) : R Int := bitSh shr a n
/-- `bit_arshift`, `lua_bit.c:102`, `110` -/
def arshift (a n : Int) : R Int := bitSh sar a n
/-- `brol`, `lua_bit.c:103` -/
def brol (b : U) (n : Nat) : R U := (shl b n).bind fun x => (shr b (32 - n)).bind fun y => .ok (x ||| y)
/-- `bror`, `lua_bit.c:104` -/
def bror (b : U) (n : Nat) : R U := (shl b (32 - n)).bind fun x => (shr b n).bind fun y => .ok (x ||| y)
/-- `bit_rol`, `lua_bit.c:111` -/
def rol (a n : Int) : R Int := bitSh brol a n
/-- `bit_ror`, `lua_bit.c:112` -/
def ror (a n : Int) : R Int := bitSh bror a n

/-- `bit_bswap`, `lua_bit.c:114-119` -/
def bswap (a : Int) : R Int :=
  let b := barg a
  bret ((b >>> 24) ||| ((b >>> 8) &&& 0xff00#32) ||| ((b &&& 0xff00#32) <<< 8) ||| (b <<< 24))

/-- `hexdigits[i]`, `lua_bit.c:125`, `128` -/
def hexdigit (upper : Bool) (i : Nat) : Nat :=
  if i < 10 then 48 + i else (if upper then 65 else 97) + (i - 10)

/-- the loop, `lua_bit.c:130`: from the last character to the first -/
def hexLoop (upper : Bool) (b : U) : Nat → List Nat
  | 0 => []
  | n + 1 => hexLoop upper (b >>> 4) n ++ [hexdigit upper (b &&& 15#32).toNat]

/-- the number of digits, `lua_bit.c:124` -/
def hexCount : Option Int → Int
  | none => 8
  | some z => (barg z).toInt

/-- `bit_tohex`, `lua_bit.c:121-133` -/
def tohex (a : Int) (n : Option Int) : R (List Nat) :=
  if hexCount n = -(2 ^ 31) then .ub
  else .ok (hexLoop (decide (hexCount n < 0)) (barg a) (min (hexCount n).natAbs 8))

end Mtev.LuaBit
