import Verif.Mem

/-!
# Time zones: reading a zone file, the zone at a time, and its name in formats

`src/utils/tzinfo.c`.

Simplified: a file is its bytes (`read` gives all that is there); memory is not exhausted; `malloc` and `calloc` are not
modelled beyond the bounds of the arrays.
-/

namespace Mtev.Tzinfo

abbrev Str := List Nat

/-- `struct tzzone`, `tzinfo.c:43-48` -/
structure Zone where
  offset : Int
  dst : Int
  idx : Int
deriving DecidableEq, Repr

/-- `struct tzinfo`, `tzinfo.c:50-60` -/
structure Info where
  times : List Int
  types : List Nat
  zones : List Zone
  chars : Str
  leaps : List Int
deriving DecidableEq, Repr

/-! ### reading -/

/-- `readInt`, `tzinfo.c:91-95`: four bytes, most significant first, as an `int` -/
def readInt (s : Str) : Option (Int × Str) :=
  match s with
  | a :: b :: c :: d :: t =>
    let n := ((a * 256 + b) * 256 + c) * 256 + d
    some (if n < 2 ^ 31 then (n : Int) else (n : Int) - 2 ^ 32, t)
  | _ => none

/-- the transition times and the leap seconds, `tzinfo.c:125-126`, `147-150` -/
def readInts : Nat → Str → Option (List Int × Str)
  | 0, s => some ([], s)
  | n + 1, s =>
    match readInt s with
    | none => none
    | some (x, s) =>
      match readInts n s with
      | none => none
      | some (l, s) => some (x :: l, s)

/-- the types, `tzinfo.c:127-130` -/
def readTypes (typecnt : Nat) : Nat → Str → Option (List Nat × Str)
  | 0, s => some ([], s)
  | _ + 1, [] => none
  | n + 1, b :: s =>
    if b ≥ typecnt then none
    else
      match readTypes typecnt n s with
      | none => none
      | some (l, s) => some (b :: l, s)

/-- a byte as `int8_t`, `tzinfo.c:45-46` -/
def int8 (b : Nat) : Int := if b < 128 then (b : Int) else (b : Int) - 256

/-- the zones, `tzinfo.c:131-135` -/
def readZones : Nat → Str → Option (List Zone × Str)
  | 0, s => some ([], s)
  | n + 1, s =>
    match readInt s with
    | some (o, d :: i :: s) =>
      match readZones n s with
      | none => none
      | some (l, s) => some (⟨o, int8 d, int8 i⟩ :: l, s)
    | _ => none

/-- is the name of a zone within the names? `tzinfo.c:138-145`: from its place to a NUL -/
def nameOk (chars : Str) (z : Zone) : Bool := decide (0 ≤ z.idx ∧ z.idx < chars.length) && decide (0 ∈ chars.drop z.idx.toNat)

/-- what follows the counts, `tzinfo.c:118-153` -/
def readTables (leapcnt timecnt typecnt charcnt : Nat) (s : Str) : Option Info :=
  match readInts timecnt s with
  | none => none
  | some (times, s) =>
    match readTypes typecnt timecnt s with
    | none => none
    | some (types, s) =>
      match readZones typecnt s with
      | none => none
      | some (zones, s) =>
        if s.length < charcnt then none
        else if zones.all (nameOk (s.take charcnt)) = false then none
        else
          match readInts (2 * leapcnt) (s.drop charcnt) with
          | none => none
          | some (leaps, _) => some ⟨times, types, zones, s.take charcnt, leaps⟩

/-- `parse_tzfile`, `tzinfo.c:102-154`; `none` is an error -/
def parse (file : Str) : Option Info :=
  if file.take 4 ≠ [84, 90, 105, 102] then none
  else
    match readInts 4 (file.drop 28) with
    | some ([leapcnt, timecnt, typecnt, charcnt], s) =>
      if timecnt < 0 ∨ timecnt > 10240 then none
      else if typecnt < 1 ∨ typecnt > 10240 then none
      else if leapcnt < 0 ∨ leapcnt > 10240 then none
      else if charcnt < 1 ∨ charcnt > 256000 then none
      else readTables leapcnt.toNat timecnt.toNat typecnt.toNat charcnt.toNat s
    | _ => none

/-- the name of a zone, `tzinfo.c:144`: from its place to the NUL -/
def zoneName (chars : Str) (z : Zone) : Str := (chars.drop z.idx.toNat).takeWhile (· ≠ 0)

/-- `activate_zone` and `libtz_tzinfo_name`, `tzinfo.c:84-89`, `177-181`: the first zone that is not summer time, or the
place after the last zone -/
def infoName (i : Info) : Out Str :=
  match i.zones[(i.zones.takeWhile fun z => z.dst ≠ 0).length]? with
  | some z => .ok (zoneName i.chars z)
  | none => .ub

/-! ### the zone at a time -/

/-- the loop of `libtz_tzzone_at`, `tzinfo.c:200-211`: `fuel` bounds the number of turns -/
def search (tt : List Int) (t : Int) : Nat → Nat → Nat → Out Nat
  | 0, _, _ => .abort
  | fuel + 1, l, r =>
    let i := (l + r) / 2
    if i > l then
      if l ≥ tt.length then .ok tt.length
      else
        match tt[i]? with
        | none => .ub
        | some x => if x = t then .ok (i + 1) else if x > t then search tt t fuel l (i - 1) else search tt t fuel (i + 1) r
    else .ok i

/-- `libtz_tzzone_at`, `tzinfo.c:197-215`; reading behind the end of an array is `ub` -/
def zoneAt (i : Info) (t : Int) : Out Zone :=
  let n := i.times.length
  if n = 0 then
    match i.zones[0]? with
    | some z => .ok z
    | none => .ub
  else do
    let k ← search i.times t (n + 1) 1 n
    let k := min k n
    match i.times[k]? with
    | none => .ub
    | some x =>
      let k := if t > x then k + 1 else k
      match i.types[k - 1]? with
      | none => .ub
      | some y =>
        match i.zones[y]? with
        | none => .ub
        | some z => .ok z

/-! ### formats -/

/-- two digits at least: `%02d` of a number that is not negative, `tzinfo.c:252` -/
def two (n : Nat) : Str := if n < 10 then [48, 48 + n] else (Nat.toDigits 10 n).map Char.toNat

/-- what `%z` becomes, `tzinfo.c:247-252`; the negation of the smallest `int` is `ub` -/
def zoneText (offset : Int) : Out Str :=
  if offset = -(2 ^ 31) then .ub
  else .ok ([if offset ≥ 0 then 43 else 45] ++ two (offset.natAbs / 3600) ++ two ((offset.natAbs - 3600 * (offset.natAbs / 3600)) / 60))

/-- `snprintf(pfmt + out, 2048 - out, ...)`, `tzinfo.c:240`, `252`: what is stored, without the NUL -/
def printed (out : Nat) (s : Str) : Str := s.take (2048 - out - 1)

/-- the loop of `libtz_strftime`, `tzinfo.c:237-263`: `pfmt` holds what has been stored, `out` is where the next byte goes;
storing behind the end is `ub` -/
def expand (name : Str) (offset : Int) : Str → Str → Nat → Out (Str × Nat)
  | [], pfmt, out => .ok (pfmt, out)
  | c :: f, pfmt, out =>
    if out < 2047 then
      if c = 37 then
        match f with
        | 90 :: f => expand name offset f (pfmt ++ printed out name) (out + name.length)
        | 122 :: f => do
          let z ← zoneText offset
          expand name offset f (pfmt ++ printed out z) (out + z.length)
        | 37 :: f => if out + 1 < 2048 then expand name offset f (pfmt ++ [37, 37]) (out + 2) else .ub
        | f => expand name offset f (pfmt ++ [37]) (out + 1)
      else expand name offset f (pfmt ++ [c]) (out + 1)
    else .ok (pfmt, out)

/-- the format `strftime` gets, `tzinfo.c:235-266` -/
def format (fmt name : Str) (offset : Int) : Out Str := do
  let (p, out) ← expand name offset fmt [] 0
  .ok (p.take (min out 2047))

end Mtev.Tzinfo
