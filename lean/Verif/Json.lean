/-
Model of the JSON tokener and serialiser in src/json-lib
(mtev_json_tokener.c, mtev_json_object.c).  Bytes are `Nat`.
-/
import Verif.Mem

namespace Mtev.Json

abbrev Bytes := List Nat

/-- The bytes of a string literal, for examples. -/
def bytesOf (s : String) : Bytes := s.toList.map Char.toNat

/-- mtev_json_object.h, `mtev_json_int_overflow`: which member holds the value
of an integer object. -/
inductive IntKind where
  | int | int64 | uint64
deriving DecidableEq, Repr

/-- An `mtev_json_object` (mtev_json_object_private.h); `null` is the NULL
pointer, which is how the library represents JSON null
(mtev_json_tokener.c:316, mtev_json_object.c:531).  `int numi kind ov`: the
`c_int` member, the overflow kind and the 64 bit value stored beside it.
A double is carried as an opaque code.
Simplified: reference counts are not kept: every tree built by the tokener is
owned by exactly one parent.  The hash table of an object
(mtev_json_linkhash.c) is the list of its entries in iteration order. -/
inductive Node where
  | null
  | bool (b : Bool)
  | int (numi : Int) (kind : IntKind) (ov : Int)
  | dbl (d : Nat)
  | str (s : Bytes)
  | arr (l : List Node)
  | obj (l : List (Bytes × Node))

/-- mtev_json_object.c:574-577 `mtev_json_object_array_add`: undefined when the
object is not an array. -/
def arrayAdd : Node → Node → Option Node
  | .arr l, v => some (.arr (l ++ [v]))
  | _, _ => none

/-- mtev_json_object.c:287-292 `mtev_json_object_object_add` on the entry list:
delete the key, then insert at the tail. -/
def objPut (l : List (Bytes × Node)) (k : Bytes) (v : Node) : List (Bytes × Node) :=
  l.filter (fun e => !decide (e.1 = k)) ++ [(k, v)]

/-- mtev_json_object.c:287-292: undefined when the object is not an object or
the key is NULL. -/
def objectAdd : Node → Option Bytes → Node → Option Node
  | .obj l, some k, v => some (.obj (objPut l k v))
  | _, _, _ => none

/-- mtev_json_tokener.h, `mtev_json_tokener_state`. -/
inductive St where
  | eatws | start | finish | null | commentStart | comment | commentEol | commentEnd
  | string | stringEscape | escapeUnicode | boolean | number
  | array | arrayAdd | arraySep
  | objectFieldStart | objectField | objectFieldEnd | objectValue | objectValueAdd | objectSep
deriving DecidableEq, Repr

/-- mtev_json_tokener.h, `mtev_json_tokener_error`. -/
inductive Err where
  | success | cont | depth | eof | unexpected | null | boolean | number | array
  | objectKeyName | objectKeySep | objectValueSep | string | comment
deriving DecidableEq, Repr

/-- mtev_json_tokener.h, `struct mtev_json_tokener_srec`. -/
structure Level where
  st : St
  saved : St
  cur : Node
  fld : Option Bytes

/-- mtev_json_tokener.h, `struct mtev_json_tokener`.  The stack is the level at
`depth` (`lv`) and the levels below it, innermost first; so `depth` is
`below.length`.  Levels above `depth` are always reset before use
(mtev_json_tokener.c:557, 637).  `pb` is the content of the print buffer
up to `bpos`. -/
structure Tok where
  lv : Level
  below : List Level
  pb : Bytes
  isDouble : Bool
  stPos : Nat
  ucs : Nat
  quote : Nat
  started : Bool

/-- mtev_json_tokener.c:76-87 `mtev_json_tokener_reset_level`. -/
def resetLevel : Level := ⟨.eatws, .start, .null, none⟩

/-- mtev_json_tokener.c:56-65 and 89-100: a new tokener. -/
def newTok : Tok := ⟨resetLevel, [], [], false, 0, 0, 0, false⟩

/-- mtev_json_tokener.h `MTEV_JSON_TOKENER_MAX_DEPTH`. -/
def maxDepth : Nat := 32

/-- `isspace` in the C locale. -/
def isSpace (c : Nat) : Bool := c == 32 || (9 ≤ c && c ≤ 13)

/-- `strchr(mtev_json_number_chars, c)` for `c` not NUL
(mtev_json_object.c:36: `0123456789.+-eE`). -/
def isNumChar (c : Nat) : Bool :=
  (48 ≤ c && c ≤ 57) || c == 46 || c == 43 || c == 45 || c == 101 || c == 69

/-- `strchr(mtev_json_hex_chars, c)` (mtev_json_object.c:37: `0123456789abcdef`,
and the terminating NUL is found too). -/
def isHexChar (c : Nat) : Bool :=
  (48 ≤ c && c ≤ 57) || (97 ≤ c && c ≤ 102) || c == 0

/-- mtev_json_tokener.c:32 `hexdigit`, as the unsigned int it is cast to. -/
def hexDigit (c : Nat) : Nat :=
  if c ≤ 57 then (c + 4294967296 - 48) % 4294967296 else c % 8 + 9

/-- The C string at the start of a buffer. -/
def cstr (b : Bytes) : Bytes := b.takeWhile (fun c => !decide (c = 0))

/-- `tolower` in the C locale. -/
def lower (c : Nat) : Nat := if 65 ≤ c ∧ c ≤ 90 then c + 32 else c

/-- `strncasecmp(word, buf, n) == 0` where `n` is at most the length of `word`
and `word` has no NUL. -/
def caseEq (word buf : Bytes) (n : Nat) : Bool :=
  decide (((cstr buf).take n).map lower = word.take n)

/-- mtev_json_tokener.c:34-36. -/
def nullStr : Bytes := [110, 117, 108, 108]
def trueStr : Bytes := [116, 114, 117, 101]
def falseStr : Bytes := [102, 97, 108, 115, 101]

/-- mtev_json_tokener.c:447-460: the bytes written for a `\u` escape. -/
def utf8 (u : Nat) : Bytes :=
  if u < 0x80 then [u]
  else if u < 0x800 then [(0xc0 ||| (u >>> 6)) % 256, 0x80 ||| (u &&& 0x3f)]
  else [(0xe0 ||| (u >>> 12)) % 256, 0x80 ||| ((u >>> 6) &&& 0x3f), 0x80 ||| (u &&& 0x3f)]

/-- The digits at the start of a text. -/
def digits (b : Bytes) : Bytes := b.takeWhile (fun c => decide (48 ≤ c ∧ c ≤ 57))

/-- The number a digit string denotes. -/
def decVal (b : Bytes) : Nat := b.foldl (fun a c => a * 10 + (c - 48)) 0

/-- The integer that `sscanf("%d")`, `strtoll` and `strtoull` find at the start of
the buffer before any clamping; `none` when there are no digits.  Only an
optional minus sign is modelled, since the buffer starts with a digit or a
minus sign (mtev_json_tokener.c:280-297). -/
def scanInt (b : Bytes) : Option Int :=
  match b with
  | 45 :: r => if digits r = [] then none else some (-(decVal (digits r) : Int))
  | _ => if digits b = [] then none else some (decVal (digits b) : Int)

/-- `strtol`/`strtoll` clamping to a 64 bit signed value. -/
def clampI (z : Int) : Int :=
  if z < -9223372036854775808 then -9223372036854775808
  else if z > 9223372036854775807 then 9223372036854775807 else z

/-- `strtoull` clamping of a non negative value. -/
def clampU (z : Int) : Int :=
  if z > 18446744073709551615 then 18446744073709551615 else z

/-- Conversion of a long to int, as glibc's `%d` does with the value of `strtol`
(the C standard leaves the out of range case undefined). -/
def toInt32 (z : Int) : Int := Int.bmod z 4294967296

/-- mtev_json_tokener.c:515-539: the object made from the number text.  `dbl` is
`sscanf("%lf")`, any function of the text.  `none` is the parse error. -/
def mkNumber (dbl : Bytes → Option Nat) (isDouble : Bool) (pb : Bytes) : Option Node :=
  if isDouble then (dbl (cstr pb)).map .dbl
  else match scanInt (cstr pb) with
    | none => none
    | some z =>
      let numi := toInt32 (clampI z)
      if pb.head? = some 45 then
        let i64 := clampI z
        some (.int numi (if i64 ≠ numi then .int64 else .int) i64)
      else
        let u64 := clampU z
        some (.int numi (if numi < 0 ∨ u64 ≠ numi then .uint64 else .int) u64)

/-- What one turn of the `switch` at mtev_json_tokener.c:229-661 does:
`redo` is `goto redo_char` (with the local variable `obj`), `next` leaves the switch
and advances, `out` is `goto out` with `tok->err`, `ub` is undefined. -/
inductive M where
  | redo (t : Tok) (obj : Node)
  | next (t : Tok)
  | out (t : Tok) (e : Err)
  | ub

/-- Set state and saved state of the current level. -/
def Tok.go (t : Tok) (st saved : St) : Tok := { t with lv := { t.lv with st := st, saved := saved } }

/-- Set the state of the current level. -/
def Tok.goSt (t : Tok) (st : St) : Tok := { t with lv := { t.lv with st := st } }

/-- A value is complete: mtev_json_tokener.c:316-318, 388-390, 479-481, 540-541. -/
def Tok.value (t : Tok) (v : Node) : Tok :=
  { t with lv := { t.lv with st := .eatws, saved := .finish, cur := v } }

/-- mtev_json_tokener.c:555-557, 635-637: enter the next level. -/
def Tok.push (t : Tok) (st : St) : Tok :=
  { t with lv := resetLevel, below := { t.lv with st := st } :: t.below }

/-- mtev_json_tokener.c:247-302. -/
def mStart (t : Tok) (obj : Node) (c : Nat) : M :=
  if c = 123 then .next { t with lv := { t.lv with st := .eatws, saved := .objectFieldStart, cur := .obj [] } }
  else if c = 91 then .next { t with lv := { t.lv with st := .eatws, saved := .array, cur := .arr [] } }
  else if c = 78 ∨ c = 110 then .redo { t.goSt .null with pb := [], stPos := 0 } obj
  else if c = 34 ∨ c = 39 then .next { t.goSt .string with pb := [], quote := c }
  else if c = 84 ∨ c = 116 ∨ c = 70 ∨ c = 102 then .redo { t.goSt .boolean with pb := [], stPos := 0 } obj
  else if (48 ≤ c ∧ c ≤ 57) ∨ c = 45 then .redo { t.goSt .number with pb := [], isDouble := false } obj
  else .out t .unexpected

/-- mtev_json_tokener.c:311-326. -/
def mNull (t : Tok) (obj : Node) (c : Nat) : M :=
  let t := { t with pb := t.pb ++ [c] }
  if caseEq nullStr t.pb (min (t.stPos + 1) 4) then
    if t.stPos = 4 then .redo (t.value .null) obj
    else .next { t with stPos := t.stPos + 1 }
  else .out t .null

/-- mtev_json_tokener.c:474-497. -/
def mBoolean (t : Tok) (obj : Node) (c : Nat) : M :=
  let t := { t with pb := t.pb ++ [c] }
  if caseEq trueStr t.pb (min (t.stPos + 1) 4) then
    if t.stPos = 4 then .redo (t.value (.bool true)) obj
    else .next { t with stPos := t.stPos + 1 }
  else if caseEq falseStr t.pb (min (t.stPos + 1) 5) then
    if t.stPos = 5 then .redo (t.value (.bool false)) obj
    else .next { t with stPos := t.stPos + 1 }
  else .out t .boolean

/-- mtev_json_tokener.c:406-433. -/
def mEscape (t : Tok) (c : Nat) : M :=
  if c = 34 ∨ c = 92 ∨ c = 47 then .next { t.goSt t.lv.saved with pb := t.pb ++ [c] }
  else if c = 98 then .next { t.goSt t.lv.saved with pb := t.pb ++ [8] }
  else if c = 110 then .next { t.goSt t.lv.saved with pb := t.pb ++ [10] }
  else if c = 114 then .next { t.goSt t.lv.saved with pb := t.pb ++ [13] }
  else if c = 116 then .next { t.goSt t.lv.saved with pb := t.pb ++ [9] }
  else if c = 117 then .next { t.goSt .escapeUnicode with ucs := 0, stPos := 0 }
  else .out t .string

/-- mtev_json_tokener.c:435-472.  The inner loop is one turn per character; a
turn that does not complete the escape leaves the state as it is. -/
def mUnicode (t : Tok) (c : Nat) : M :=
  if isHexChar c then
    let u := (t.ucs + hexDigit c * 2 ^ ((3 - t.stPos) * 4)) % 4294967296
    let t := { t with ucs := u, stPos := t.stPos + 1 }
    if t.stPos = 4 then .next { t.goSt t.lv.saved with pb := t.pb ++ utf8 u }
    else .next t
  else .out t .string

/-- mtev_json_tokener.c:499-544.  The inner loop is one turn per character. -/
def mNumber (dbl : Bytes → Option Nat) (t : Tok) (obj : Node) (c : Nat) : M :=
  if c ≠ 0 ∧ isNumChar c then
    .next { t with pb := t.pb ++ [c], isDouble := t.isDouble || (c == 46 || c == 101) }
  else match mkNumber dbl t.isDouble t.pb with
    | some v => .redo (t.value v) obj
    | none => .out t .number

/-- mtev_json_tokener.c:229-661, one turn of the `switch`.  The tight inner loops
of eatws (233), comment (344), comment_eol (359), string (385) and object_field
(599) are one turn per character: each leaves the state unchanged until its last
character, and appends to the print buffer exactly the characters it passed. -/
def micro (dbl : Bytes → Option Nat) (t : Tok) (obj : Node) (c : Nat) : M :=
  match t.lv.st with
  | .eatws =>
    if isSpace c then .next t
    else if c = 47 then .next { t.goSt .commentStart with pb := [c] }
    else .redo (t.goSt t.lv.saved) obj
  | .start => mStart t obj c
  | .finish =>
    match t.below with
    | [] => .out t .success
    | l :: ls => .redo { t with lv := l, below := ls } t.lv.cur
  | .null => mNull t obj c
  | .commentStart =>
    if c = 42 then .next { t.goSt .comment with pb := t.pb ++ [c] }
    else if c = 47 then .next { t.goSt .commentEol with pb := t.pb ++ [c] }
    else .out t .comment
  | .comment =>
    if c = 42 then .next { t.goSt .commentEnd with pb := t.pb ++ [c] }
    else .next { t with pb := t.pb ++ [c] }
  | .commentEol =>
    if c = 10 then .next (t.goSt .eatws)
    else .next { t with pb := t.pb ++ [c] }
  | .commentEnd =>
    if c = 47 then .next { t.goSt .eatws with pb := t.pb ++ [c] }
    else .next { t.goSt .comment with pb := t.pb ++ [c] }
  | .string =>
    if c = t.quote then .next (t.value (.str (cstr t.pb)))
    else if c = 92 then .next (t.go .stringEscape .string)
    else .next { t with pb := t.pb ++ [c] }
  | .stringEscape => mEscape t c
  | .escapeUnicode => mUnicode t c
  | .boolean => mBoolean t obj c
  | .number => mNumber dbl t obj c
  | .array =>
    if c = 93 then .next (t.go .eatws .finish)
    else if t.below.length ≥ maxDepth - 1 then .out t .depth
    else .redo (t.push .arrayAdd) obj
  | .arrayAdd =>
    match arrayAdd t.lv.cur obj with
    | some a => .redo { t with lv := { t.lv with st := .eatws, saved := .arraySep, cur := a } } obj
    | none => .ub
  | .arraySep =>
    if c = 93 then .next (t.go .eatws .finish)
    else if c = 44 then .next (t.go .eatws .array)
    else .out t .array
  | .objectFieldStart =>
    if c = 125 then .next (t.go .eatws .finish)
    else if c = 34 ∨ c = 39 then .next { t.goSt .objectField with quote := c, pb := [] }
    else .out t .objectKeyName
  | .objectField =>
    if c = t.quote then
      .next { t with lv := { t.lv with st := .eatws, saved := .objectFieldEnd, fld := some (cstr t.pb) } }
    else if c = 92 then .next (t.go .stringEscape .objectField)
    else .next { t with pb := t.pb ++ [c] }
  | .objectFieldEnd =>
    if c = 58 then .next (t.go .eatws .objectValue)
    else .out t .objectKeySep
  | .objectValue =>
    if t.below.length ≥ maxDepth - 1 then .out t .depth
    else .redo (t.push .objectValueAdd) obj
  | .objectValueAdd =>
    match objectAdd t.lv.cur t.lv.fld obj with
    | some a =>
      .redo { t with lv := { t.lv with st := .eatws, saved := .objectSep, cur := a, fld := none } } obj
    | none => .ub
  | .objectSep =>
    if c = 125 then .next (t.go .eatws .finish)
    else if c = 44 then .next (t.go .eatws .objectFieldStart)
    else .out t .objectValueSep

/-- mtev_json_tokener.c:228 `redo_char`: turns of the switch on one character.
`fuel` bounds the number of `goto redo_char`; running out is reported as `ub`, and
`C40_no_undefined` shows that it does not happen. -/
def char (dbl : Bytes → Option Nat) : Nat → Tok → Node → Nat → M
  | 0, _, _, _ => .ub
  | n + 1, t, obj, c =>
    match micro dbl t obj c with
    | .redo t' o' => char dbl n t' o' c
    | r => r

/-- The number of turns one character can take. -/
def turns : Nat := 12

/-- What the main loop does with a run of characters: it stopped at the end of input,
stopped by `goto out` on character `c`, or is undefined. -/
inductive R where
  | more (t : Tok)
  | stop (t : Tok) (e : Err) (c : Nat)
  | ub

/-- mtev_json_tokener.c:227-664: the main loop.  Simplified: `obj` is passed as NULL to
each character: it is only set by a turn that redoes the same character. -/
def loop (dbl : Bytes → Option Nat) : Tok → Bytes → R
  | t, [] => .more t
  | t, c :: cs =>
    match char dbl turns t .null c with
    | .next t' => if c = 0 then .stop t' .success c else loop dbl t' cs
    | .out t' e => .stop t' e c
    | .redo _ _ => .ub
    | .ub => .ub

/-- mtev_json_tokener.c:166-174 `POP_CHAR` at the end of the input. -/
def endErr (t : Tok) : Err :=
  if t.below = [] ∧ t.lv.st = .eatws ∧ t.lv.saved = .finish then .success else .cont

/-- The result of one call: the tokener, `tok->err` and the object returned
(meaningful when the error is `success`). -/
structure Ret where
  tok : Tok
  err : Err
  obj : Node

/-- mtev_json_tokener.c:666-676, label `out`; `c` is the last character seen. -/
def finishCall (t : Tok) (e : Err) (c : Nat) : Ret :=
  let e := if c = 0 ∧ t.lv.st ≠ .finish ∧ t.lv.saved ≠ .finish then .eof else e
  ⟨t, e, if e = .success then t.lv.cur else .null⟩

/-- mtev_json_tokener.c:225-677: the call from the end of the first call check. -/
def parseMain (dbl : Bytes → Option Nat) (t : Tok) (s : Bytes) : Option Ret :=
  match loop dbl t s with
  | .more t' => some (finishCall t' (endErr t') 1)
  | .stop t' e c => some (finishCall t' e c)
  | .ub => none

/-- mtev_json_tokener.c:187-677 `mtev_json_tokener_parse_ex` with a length; `none` is
undefined behaviour.  Simplified: when the first call check fails on a NUL the character
is not space, so it is the unexpected character (and then eof by 667-671). -/
def parseEx (dbl : Bytes → Option Nat) (t : Tok) (s : Bytes) : Option Ret :=
  if t.started then parseMain dbl t s
  else
    let t := { t with started := true }
    match s.dropWhile isSpace with
    | [] => some (finishCall t .eof 1)
    | c :: cs =>
      if c ≠ 123 ∧ c ≠ 91 then some (finishCall t .unexpected c)
      else parseMain dbl t (c :: cs)

/-! ### Serialising -/

/-- `mtev_json_hex_chars[d]` (mtev_json_object.c:37). -/
def hexChar (d : Nat) : Nat := if d < 10 then 48 + d else 87 + d

/-- mtev_json_object.c:92-124: what one byte of the string contributes. -/
def escByte (c : Nat) : Bytes :=
  if c = 8 then [92, 98]
  else if c = 10 then [92, 110]
  else if c = 13 then [92, 114]
  else if c = 9 then [92, 116]
  else if c = 34 then [92, 34]
  else if c = 92 then [92, 92]
  else if c = 47 then [92, 47]
  else if c < 32 then [92, 117, 48, 48, hexChar (c / 16), hexChar (c % 16)]
  else [c]

/-- mtev_json_object.c:88-129 `mtev_json_escape_str` on a C string. -/
def escStr (s : Bytes) : Bytes := (cstr s).flatMap escByte

/-- The decimal digits of a number, as `%d` and `PRIu64` print them. -/
def natDigits (n : Nat) : Bytes :=
  if n < 10 then [48 + n] else natDigits (n / 10) ++ [48 + n % 10]
termination_by n
decreasing_by omega

/-- `%d` / `PRId64`. -/
def intDigits (z : Int) : Bytes :=
  if z < 0 then 45 :: natDigits z.natAbs else natDigits z.natAbs

/-- mtev_json_object.c:343-351: the value that is printed. -/
def intVal (numi : Int) (kind : IntKind) (ov : Int) : Int :=
  match kind with
  | .int => numi
  | _ => ov

mutual
/-- mtev_json_object.c:212-232, 343-351, 430-437, 471-478, 520-535: the
`_to_json_string` functions.  `pd` is the text printed for a double. -/
def print (pd : Nat → Bytes) : Node → Bytes
  | .null => nullStr
  | .bool b => if b then trueStr else falseStr
  | .int n k o => intDigits (intVal n k o)
  | .dbl d => pd d
  | .str s => 34 :: escStr s ++ [34]
  | .arr l => 91 :: printArr pd true l ++ [32, 93]
  | .obj l => 123 :: printObj pd true l ++ [32, 125]
/-- mtev_json_object.c:525-533. -/
def printArr (pd : Nat → Bytes) : Bool → List Node → Bytes
  | _, [] => []
  | first, v :: l => (if first then [32] else [44, 32]) ++ print pd v ++ printArr pd false l
/-- mtev_json_object.c:221-229. -/
def printObj (pd : Nat → Bytes) : Bool → List (Bytes × Node) → Bytes
  | _, [] => []
  | first, (k, v) :: l =>
    (if first then [] else [44]) ++ [32, 34] ++ escStr k ++ [34, 58, 32] ++ print pd v
      ++ printObj pd false l
end

end Mtev.Json
