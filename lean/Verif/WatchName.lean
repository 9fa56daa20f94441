import Verif.Basic
import Verif.Mem

/-!
# Names and time limits of hearts, and the command of the glider

`src/utils/mtev_watchdog.c`: `mtev_watchdog_set_name`, `mtev_watchdog_get_name`,
`run_glider`, `mtev_watchdog_get_timeout`, `mtev_watchdog_get_timeout_timeval`,
`mtev_watchdog_remaining`.

Simplified: a time limit is a whole number of microseconds (in the code a `double`
in seconds); a timeval is a pair of numbers; the conversion of a `double` to `int`
out of its range is undefined.
-/

namespace Mtev.WatchName

open Mtev

abbrev Str := List Nat

/-- a byte that is kept, `mtev_watchdog.c:1144-1147` -/
def kept (c : Nat) : Bool :=
  (97 ≤ c && c ≤ 122) || (65 ≤ c && c ≤ 90) || (48 ≤ c && c ≤ 57) ||
  c == 58 || c == 47 || c == 45 || c == 95

/-- the loop of `mtev_watchdog_set_name`, `mtev_watchdog.c:1143-1154`, with `room`
bytes left -/
def setLoop : Nat → Str → Str
  | 0, _ => []
  | _, [] => []
  | room + 1, c :: cs => (if kept c then c else 95) :: setLoop room cs

/-- `mtev_watchdog_set_name`, `mtev_watchdog.c:1135-1156`: the name has 128 bytes,
of which 126 are used -/
def setName : Option Str → Str
  | none => []
  | some s => setLoop (128 - 2) s

/-- `mtev_watchdog_get_name`, `mtev_watchdog.c:1157-1161` -/
def getName (name : Str) : Option Str := if name = [] then none else some name

/-- why the glider is run, `mtev_watchdog.c:480-484` -/
inductive Reason where
  | crash
  | watchdog
deriving DecidableEq, Repr

def Reason.text : Reason → Str
  | .crash => bytesOf "crash"
  | .watchdog => bytesOf "watchdog"

/-- the decimal digits of a number, least first -/
def digitsRev : Nat → Nat → Str
  | 0, _ => []
  | f + 1, n => (48 + n % 10) :: (if n < 10 then [] else digitsRev f (n / 10))

/-- `%d` -/
def dec (n : Nat) : Str := (digitsRev (n + 1) n).reverse

/-- `run_glider`, `mtev_watchdog.c:473-500`: the command given to the shell; `trace`
is where the output is saved, if it is -/
def command (glider : Str) (pid : Nat) (r : Reason) (detail : Option Str)
    (trace : Option (Str × Str)) : Str :=
  let call := glider ++ [32] ++ dec pid ++ [32] ++ r.text ++
    (match detail with
      | some d => [47] ++ d
      | none => [])
  (match trace with
    | some (dir, app) => call ++ bytesOf " > " ++ dir ++ [47] ++ app ++ [46] ++ dec pid ++ bytesOf ".trc"
    | none => call).take 1023

/-! ### time limits -/

/-- seconds and microseconds -/
structure Tv where
  sec : Int
  usec : Int
deriving DecidableEq, Repr

def Tv.micros (t : Tv) : Int := t.sec * 1000000 + t.usec

/-- a heart: its own time limit in microseconds (0: none), and when the monitor last
saw it change -/
structure Heart where
  override : Nat := 0
  changed : Tv := ⟨0, 0⟩
deriving DecidableEq, Repr

/-- the first heart of the table is used for `NULL` by most functions -/
structure Table where
  global : Nat := 5000000
  hearts : Nat → Heart := fun _ => {}

/-- `mtev_watchdog_get_timeout`, `mtev_watchdog.c:1166-1170` -/
def getTimeout (t : Table) (h : Option Nat) : Nat :=
  let hb := t.hearts (h.getD 0)
  if hb.override ≠ 0 then hb.override else t.global

/-- `mtev_watchdog_get_timeout_timeval`, `mtev_watchdog.c:1186-1195`; `(int)to` and
`(int)(to * 1000000.0)` are undefined when the number is too large -/
def timeoutTv (t : Table) : Option Nat → Out (Option Tv)
  | none => .ok none
  | some i =>
    let hb := t.hearts i
    let to_ := if hb.override ≠ 0 then hb.override else t.global
    if to_ / 1000000 < 2 ^ 31 ∧ to_ < 2 ^ 31 then
      .ok (some ⟨(to_ / 1000000 : Nat), (to_ % 1000000 : Nat)⟩)
    else .ub

/-- `add_timeval`, `mtev_defines.h:171-180` -/
def addTv (a b : Tv) : Tv :=
  let u := a.usec + b.usec
  if u ≥ 1000000 then ⟨a.sec + 1 + b.sec, u - 1000000⟩ else ⟨a.sec + b.sec, u⟩

/-- `sub_timeval`, `mtev_defines.h:142-155` -/
def subTv (a b : Tv) : Tv :=
  let u := a.usec - b.usec
  let r : Tv := if u < 0 then ⟨a.sec - 1 - b.sec, u + 1000000⟩ else ⟨a.sec - b.sec, u⟩
  if r.sec < 0 then ⟨r.sec + 1, r.usec - 1000000⟩ else r

/-- `mtev_watchdog_remaining`, `mtev_watchdog.c:1171-1185` -/
def remaining (t : Table) (h : Option Nat) (now : Tv) : Out (Option Tv) :=
  let i := h.getD 0
  let hb := t.hearts i
  if hb.changed.sec = 0 then .ok none
  else
    match timeoutTv t (some i) with
    | .ok (some d) => .ok (some (subTv (addTv hb.changed d) now))
    | .ok none => .ok none
    | .ub => .ub
    | .abort => .abort

end Mtev.WatchName
