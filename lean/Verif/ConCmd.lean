import Verif.Mem

/-!
# The console: finding a command, and completing one

`src/mtev_console_state.c:60-69`, `1111-1183`, `1203-1216`, and `src/mtev_console_complete.c:51-95`, `140-182`.

The commands of a state are in a skip list ordered by `strcasecmp` (`mtev_console_state.c:1188-1189`).  It is an ordered
list here; what `mtev_skiplist_insert` and `mtev_skiplist_find_neighbors` do on the structure is the subject of C20 and
C57.  A place in the list is the list from there on.

Simplified: a command is its name and a number for its function; the output is what is listed; bytes are those of the C
locale.
-/

namespace Mtev.ConCmd

abbrev Str := List Nat

structure Cmd where
  name : Str
  func : Nat
deriving DecidableEq, Repr

/-- `tolower` -/
def low (c : Nat) : Nat := if 65 ≤ c ∧ c ≤ 90 then c + 32 else c

def lower (s : Str) : Str := s.map low

/-- less, byte by byte, the end before everything -/
def lt : Str → Str → Bool
  | _, [] => false
  | [], _ :: _ => true
  | a :: s, b :: t => decide (a < b) || (decide (a = b) && lt s t)

/-- `strcasecmp(a, b) < 0` -/
def caseLt (a b : Str) : Bool := lt (lower a) (lower b)
/-- `strcasecmp(a, b) == 0` -/
def caseEq (a b : Str) : Bool := decide (lower a = lower b)
/-- `strncasecmp(name, a, strlen(a)) == 0` -/
def begins (a name : Str) : Bool := (lower a).isPrefixOf (lower name)

/-- `mtev_console_state_add_cmd`, `mtev_console_state.c:1203-1207`: a name that is there already is not added -/
def add : List Cmd → Cmd → List Cmd
  | [], c => [c]
  | d :: l, c => if caseLt c.name d.name then c :: d :: l else if caseEq c.name d.name then d :: l else d :: add l c

/-- the list from the first command not less than `a`, with the one before it -/
def seek (a : Str) : Option Cmd → List Cmd → Option Cmd × List Cmd
  | prev, [] => (prev, [])
  | prev, c :: l => if caseLt c.name a then seek a (some c) l else (prev, c :: l)

/-- `mtev_skiplist_find`, `mtev_console_state.c:1210-1216` -/
def find (l : List Cmd) (a : Str) : Option Cmd :=
  match (seek a none l).2 with
  | [] => none
  | c :: _ => if caseEq a c.name then some c else none

inductive Act where
  /-- the function is called with the arguments after the first -/
  | run (c : Cmd)
  /-- the function of the command without a name is called with all arguments -/
  | default (c : Cmd)
  /-- "Ambiguous command", and a list -/
  | ambiguous (l : List Cmd)
  /-- a list (for `?`) -/
  | listed (l : List Cmd)
  /-- "No such command" -/
  | unknown
deriving DecidableEq, Repr

/-- nothing found, `mtev_console_state.c:1149-1172` -/
def missing (l : List Cmd) (a : Str) : Act :=
  if a = [63] then .listed l
  else
    match find l [] with
    | some c => .default c
    | none => .unknown

/-- `_mtev_console_state_do`, `mtev_console_state.c:1111-1178`, for the first argument `a` -/
def act (l : List Cmd) (a : Str) : Act :=
  match (seek a none l).2 with
  | [] => missing l a
  | c :: t =>
    if caseEq a c.name then .run c
    else if begins a c.name then
      match t with
      | p :: _ =>
        if begins a p.name then .ambiguous ((c :: t).takeWhile fun d => begins a d.name)
        else if caseEq c.name (bytesOf "exit") then missing l a else .run c
      | [] => if caseEq c.name (bytesOf "exit") then missing l a else .run c
    else missing l a

/-- the loop of `mtev_console_opt_delegate`, `mtev_console_complete.c:85-94` -/
def nth (a : Str) : Nat → List Cmd → Option Str
  | _, [] => none
  | k, c :: l => if begins a c.name then (if k = 0 then some c.name else nth a (k - 1) l) else nth a k l

/-- `mtev_console_opt_delegate`, `mtev_console_complete.c:51-95`, for one argument -/
def complete (l : List Cmd) (a : Str) (idx : Nat) : Option Str :=
  match seek a none l with
  | (_, []) => none
  | (prev, c :: t) =>
    if caseEq a c.name then
      -- `next = curr`: from the command before the one that was found
      match prev with
      | none => none
      | some p => nth a idx (p :: c :: t)
    else nth a idx (c :: t)

/-! ### the common part of all completions -/

/-- where two strings stop being equal, at most `m`; `mtev_console_complete.c:165-167`.  A NUL ends the second one. -/
def eqLen : Nat → Str → Str → Nat
  | 0, _, _ => 0
  | m + 1, a :: s, b :: t => if a = b then eqLen m s t + 1 else 0
  | _ + 1, _, _ => 0

/-- one match is added, `mtev_console_complete.c:149-154`: `matches` is the number before -/
def push (cap matches_ : Nat) : Out Nat :=
  let cap := if matches_ + 1 ≥ cap then cap * 2 else cap
  if matches_ + 1 < cap then .ok cap else .ub

/-- the loop, `mtev_console_complete.c:146-155`: `cap` is `match_list_len` -/
def gather (cap : Nat) : Nat → List Str → Out Nat
  | _, [] => .ok cap
  | k, _ :: l => do
    let c ← push cap k
    gather c (k + 1) l

/-- `completion_matches`, `mtev_console_complete.c:140-182`: nothing, or the common part; writing past the end of the
array is `ub` -/
def matches_ (all : List Str) : Out (Option Str) := do
  let cap ← gather 1 0 all
  match all with
  | [] => .ok none
  | first :: more =>
    let maxEqual := more.foldl (fun m s => eqLen m first s) first.length
    -- the NULL at the end, `mtev_console_complete.c:176-179`
    let cap := if all.length + 1 ≥ cap then cap + 1 else cap
    if all.length + 1 < cap then .ok (some (first.take maxEqual)) else .ub

end Mtev.ConCmd
