import Verif.Basic
import Mathlib.Data.List.TakeWhile

/-!
# Numbers and truth values in the configuration

`src/mtev_conf.c`: `mtev_conf_string_to_int32`, `mtev_conf_string_to_uint32`,
`mtev_conf_get_int32`, `_uint32`, `_int64`, `_uint64`, `_boolean`, `mtev_conf_set_int`,
`mtev_conf_set_boolean`; and `strtol`, `strtoul` as the C standard has them, with a `long` of
64 bits.

Not modelled: floating point.
-/

namespace Mtev.ConfNum

abbrev Str := List Nat

/-! ### `strtol`, `strtoul` -/

/-- `isspace` -/
def isSpace (c : Nat) : Bool := decide (c = 32 ∨ (9 ≤ c ∧ c ≤ 13))

/-- the value of a digit or letter -/
def digit (c : Nat) : Option Nat :=
  if 48 ≤ c ∧ c ≤ 57 then some (c - 48)
  else if 97 ≤ c ∧ c ≤ 122 then some (c - 97 + 10)
  else if 65 ≤ c ∧ c ≤ 90 then some (c - 65 + 10)
  else none

/-- is it a digit in this base? -/
def isDigit (base c : Nat) : Bool :=
  match digit c with
  | some d => decide (d < base)
  | none => false

/-- the number the leading digits make -/
def number (base : Nat) (s : Str) : Nat :=
  (s.takeWhile (isDigit base)).foldl (fun a c => a * base + (digit c).getD 0) 0

/-- is there a sign, and what follows -/
def sign : Str → Bool × Str
  | 45 :: s => (true, s)
  | 43 :: s => (false, s)
  | s => (false, s)

/-- in base 16, `0x` before a digit is skipped -/
def skip0x (base : Nat) (s : Str) : Str :=
  match s with
  | 48 :: x :: h :: r => if base = 16 ∧ (x = 120 ∨ x = 88) ∧ isDigit 16 h then h :: r else s
  | _ => s

/-- sign and size of the number at the front of a text -/
def scan (base : Nat) (s : Str) : Bool × Nat :=
  let p := sign (s.dropWhile isSpace)
  (p.1, number base (skip0x base p.2))

/-- `strtol`, `strtoll` -/
def strtol (base : Nat) (s : Str) : Int :=
  let p := scan base s
  if p.1 then max (-(2 ^ 63)) (-(p.2 : Int)) else min (2 ^ 63 - 1) (p.2 : Int)

/-- `strtoul`, `strtoull` -/
def strtoul (base : Nat) (s : Str) : Nat :=
  let p := scan base s
  if 2 ^ 64 ≤ p.2 then 2 ^ 64 - 1
  else if p.1 then (2 ^ 64 - p.2) % 2 ^ 64 else p.2

/-! ### the configuration's own -/

/-- the base, `mtev_conf.c:2330-2335` and `2341-2346` -/
def base (s : Str) : Nat :=
  match s with
  | 48 :: r => if r.head? = some 120 then 16 else 8
  | _ => 10

/-- to 32 bits, with sign -/
def wrap32 (z : Int) : Int := (z + 2 ^ 31) % 2 ^ 32 - 2 ^ 31

/-- `mtev_conf_string_to_int32`, `mtev_conf.c:2338-2348` -/
def toInt32 (s : Str) : Int := wrap32 (strtol (base s) s)

/-- `mtev_conf_string_to_uint32`, `mtev_conf.c:2327-2336` -/
def toUint32 (s : Str) : Nat := strtoul (base s) s % 2 ^ 32

/-- `mtev_conf_get_int64`, `mtev_conf.c:2391-2400` -/
def toInt64 (s : Str) : Int := strtol 10 s

/-- `mtev_conf_get_uint64`, `mtev_conf.c:2378-2387` -/
def toUint64 (s : Str) : Nat := strtoul 10 s

/-- `tolower` -/
def lower (c : Nat) : Nat := if 65 ≤ c ∧ c ≤ 90 then c + 32 else c

/-- `mtev_conf_string_to_boolean`, `mtev_conf.c:2474-2479` -/
def toBool (s : Str) : Bool := s.map lower = bytesOf "true" ∨ s.map lower = bytesOf "on"

/-- the text `mtev_conf_set_boolean` stores, `mtev_conf.c:2495-2501` -/
def ofBool (b : Bool) : Str := if b then bytesOf "true" else bytesOf "false"

/-- the digits of a number -/
def digits (n : Nat) : Str := if n < 10 then [48 + n] else digits (n / 10) ++ [48 + n % 10]

/-- the text `mtev_conf_set_int` stores, `mtev_conf.c:2403-2409` (`%d`) -/
def ofInt (z : Int) : Str := if z < 0 then 45 :: digits z.natAbs else digits z.natAbs

/-- what a value of the configuration is when it is asked for as a number: `none` if there is no
such value, `mtev_conf.c:2352-2400` -/
def getInt32 (v : Option Str) : Option Int := v.map toInt32
def getUint32 (v : Option Str) : Option Nat := v.map toUint32
def getInt64 (v : Option Str) : Option Int := v.map toInt64
def getUint64 (v : Option Str) : Option Nat := v.map toUint64
def getBool (v : Option Str) : Option Bool := v.map toBool

end Mtev.ConfNum
