import Verif.Basic
import Mathlib.Tactic.IntervalCases

/-!
# The times in certificates

Model of `src/eventer/OETS_asn1_helper.c:71-220`: the text of an ASN.1 `UTCTime` or
`GeneralizedTime` to seconds since 1970.

Simplified: the bytes of the time are the list up to the terminating zero (`:107-111`
checks that there is one behind them; a zero among them ends the text early);
`time_t` has 64 bits, and no sum here comes near its limits (years have four
digits).  `mktime`, for times in the local zone, is not modelled: `Res.local`.
-/

namespace Mtev.Asn1Time

abbrev Str := List Nat

/-- the answer: `*err` 1 or 2, a time, or `mktime` of the fields -/
inductive Res where
  | format
  | range
  | ok (t : Int)
  | local_ (year month day hour minute second : Nat)
deriving DecidableEq, Repr

def isDigit (c : Nat) : Bool := decide (48 ≤ c ∧ c ≤ 57)

/-- the character at the pointer; zero at the end -/
def hd (s : Str) : Nat := s.headD 0

/-- the loop of `pint` (`:79-84`); a false flag: `*e = 1; return 0`, the pointer stays -/
def pintGo : Nat → Str → Nat → Nat × Str × Bool
  | 0, s, acc => (acc, s, true)
  | n + 1, s, acc =>
    if isDigit (hd s) then pintGo n s.tail (acc * 10 + (hd s - 48)) else (0, s, false)

/-- `pint` (`:76-87`): the number, the pointer, the error flag -/
def pint (n lo hi : Nat) (s : Str) (e : Bool) : Nat × Str × Bool :=
  match pintGo n s 0 with
  | (v, s', true) => (v, s', e || decide (v < lo) || decide (hi < v))
  | (_, s', false) => (0, s', true)

/-- the table (`:71-74`) -/
def days (leap : Bool) : List Int :=
  [31, if leap then 29 else 28, 31, 30, 31, 30, 31, 31, 30, 31, 30, 31]

/-- `:188` -/
def isLeap (y : Nat) : Bool := (decide (y % 4 = 0) && decide (y % 100 ≠ 0)) || decide (y % 400 = 0)

/-- `for (i = 1900; i >= year; i -= 100)` (`:194-197`) -/
def cents1 (y : Nat) : Nat → Int → Int
  | 0, _ => 0
  | fuel + 1, i => if i ≥ y then (if i % 400 = 0 then 0 else 1) + cents1 y fuel (i - 100) else 0

/-- `for (i = 2100; i < year; i += 100)` (`:203-208`) -/
def cents2 (y : Nat) : Nat → Nat → Int
  | 0, _ => 0
  | fuel + 1, i => if i < y then (if i % 400 = 0 then 0 else 1) + cents2 y fuel (i + 100) else 0

/-- the leap days up to the year (`:191-211`) -/
def corr (y : Nat) : Int :=
  if y < 1970 then -(((1970 - y + 2) / 4 : Nat) : Int) + cents1 y 21 1900
  else (((y - 1970 + 1) / 4 : Nat) : Int) - cents2 y y 2100

/-- the days (`:178-211`), `m` from 1 -/
def dayNum (y m d : Nat) : Int :=
  ((d : Int) - 1) + ((days (isLeap y)).take (m - 1)).sum + ((y : Int) - 1970) * 365 + corr y

/-- the end of `OETS_ASN1_TIME_get` (`:165-216`) -/
def finish (y m d h mi sec : Nat) (off : Int) : Res :=
  let t := (sec : Int) + ((mi : Int) - off) * 60 + (h : Int) * 3600 + dayNum y m d * 86400
  if y < 1970 then (if t ≥ 0 then .range else .ok t)
  else if t < 0 then .range else .ok t

/-- the fields of a time -/
structure Fields where
  y : Nat
  m : Nat
  d : Nat
  h : Nat
  mi : Nat
  sec : Nat
deriving DecidableEq, Repr

/-- the fields up to the seconds (`:114-133`): the pointer and the error flag with them -/
def fields (gen : Bool) (s : Str) : Fields × Str × Bool :=
  let y := if gen then pint 4 0 9999 s false else pint 2 0 99 s false
  let year := if gen then y.1 else if y.1 < 50 then y.1 + 2000 else y.1 + 1900
  let m := pint 2 1 12 y.2.1 y.2.2
  let d := pint 2 1 31 m.2.1 m.2.2
  let h := pint 2 0 23 d.2.1 d.2.2
  let mi := pint 2 0 59 h.2.1 h.2.2
  let sec := if isDigit (hd mi.2.1) then pint 2 0 59 mi.2.1 mi.2.2 else (0, mi.2.1, mi.2.2)
  (⟨year, m.1, d.1, h.1, mi.1, sec.1⟩, sec.2.1, sec.2.2)

/-- `:135` -/
def isFrac (c : Nat) : Bool := c == 46 || c == 44 || isDigit c

/-- the zone (`:147-164`): minutes east, or none on an error -/
def zone (s : Str) : Option Int :=
  if hd s = 90 then (if s.tail = [] then some 0 else none)
  else if hd s = 45 ∨ hd s = 43 then
    let hh := pint 2 0 12 s.tail false
    let mm := pint 2 0 59 hh.2.1 hh.2.2
    if mm.2.2 then none
    else if mm.2.1 = [] then
      some (if hd s = 45 then -((hh.1 : Int) * 60 + mm.1) else (hh.1 : Int) * 60 + mm.1)
    else none
  else none

/-- `OETS_ASN1_TIME_get` (`:89-218`) on a `GeneralizedTime` or a `UTCTime` -/
def get (gen : Bool) (s : Str) : Res :=
  let f := fields gen s
  if f.2.2 then .format
  else
    let rest := if gen then f.2.1.dropWhile isFrac else f.2.1
    if gen && rest.isEmpty then .local_ f.1.y f.1.m f.1.d f.1.h f.1.mi f.1.sec
    else
      match zone rest with
      | none => .format
      | some off => finish f.1.y f.1.m f.1.d f.1.h f.1.mi f.1.sec off

end Mtev.Asn1Time
