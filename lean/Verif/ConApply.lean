import Verif.Mem

/-!
# The console: `apply <name> <range> <command>`

`src/mtev_console_state.c:910-1072`.

`apply` runs a command once for each item of a range, with `{name}` replaced by the item in all words of the command.

Simplified: which pattern a range matches and its parts (`mtev_console_state.c:966-967`, `998-999`) are given, as digits, or
as an address that `inet_pton` has read; items are numbers, not their texts (at most 15 bytes, the buffer has 32);
lengths in `apply_replace` are below 2^31; `malloc` does not fail.
-/

namespace Mtev.ConApply

abbrev Str := List Nat

/-! ### replacing -/

/-- `strstr(s, pat)` as an index -/
def strstr (pat : Str) : Str → Option Nat
  | [] => if pat = [] then some 0 else none
  | c :: t => if pat.isPrefixOf (c :: t) then some 0 else (strstr pat t).map (· + 1)

/-- `maxlen`, `mtev_console_state.c:921`: `n`, `p` and `v` are the lengths of the text, the pattern and the value -/
def maxlen (n p v : Nat) : Nat := n / p * max v p + n % p + 1

/-- the loop and what follows it, `mtev_console_state.c:924-932`: `room` is what is left of the block, `n` bounds the
number of turns -/
def replaceLoop (pat v : Str) : Nat → Nat → Str → Out Str
  | 0, _, _ => .abort
  | n + 1, room, src =>
    match strstr pat src with
    | none => if src.length + 1 ≤ room then .ok src else .ub
    | some i =>
      if i + v.length ≤ room then do
        let t ← replaceLoop pat v n (room - (i + v.length)) (src.drop (i + pat.length))
        .ok (src.take i ++ v ++ t)
      else .ub

/-- the pattern, `mtev_console_state.c:916`: `snprintf` cuts it off at 255 bytes -/
def pattern (name : Str) : Str := ([123] ++ name ++ [125]).take 255

/-- `apply_replace`, `mtev_console_state.c:910-934` -/
def applyReplace (src name v : Str) : Out Str :=
  replaceLoop (pattern name) v (src.length + 1) (maxlen src.length (pattern name).length v.length) src

/-! ### ranges -/

/-- what `expand_range` gives -/
inductive Range where
  /-- 0, or a negative number: an error is shown -/
  | refused
  | items (l : List Int)
deriving DecidableEq, Repr

/-- `pcre_copy_substring` into a buffer of 32 bytes: what does not fit is not copied -/
def copySub (buff : Option Str) (sub : Str) : Option Str := if sub.length + 1 ≤ 32 then some sub else buff

/-- `atoi` of digits; a buffer that was not written, or a number that is no `int`, is `ub` -/
def atoi (buff : Option Str) : Out Int :=
  match buff with
  | none => .ub
  | some s =>
    let n := s.foldl (fun (a c : Nat) => a * 10 + (c - 48)) 0
    if n < 2 ^ 31 then .ok (n : Int) else .ub

/-- the loop, `mtev_console_state.c:1020-1024`: `k` is the room that is left in the set -/
def numLoop (i e : Int) : Nat → Int → Out (List Int)
  | 0, s => if (i > 0 ∧ s ≤ e) ∨ (i < 0 ∧ s ≥ e) then .ub else .ok []
  | k + 1, s =>
    if (i > 0 ∧ s ≤ e) ∨ (i < 0 ∧ s ≥ e) then
      if s + i < 2 ^ 31 ∧ -(2 ^ 31) ≤ s + i then do
        let t ← numLoop i e k (s + i)
        .ok (s :: t)
      else .ub
    else .ok []

/-- a range of numbers, `mtev_console_state.c:1005-1025`: `s..e`, or `s,n..e` -/
def expandNum (s e : Int) (n : Option Int) : Out Range :=
  let n := n.getD (if s < e then s + 1 else s - 1)
  if (s < e ∧ s > n) ∨ (s > e ∧ s < n) then .ok .refused
  else
    let i := n - s
    if i = 0 then .ok .refused
    else
      let count := (e - s).tdiv i + 1
      if count < 2 ^ 31 then do
        let l ← numLoop i e count.toNat s
        .ok (.items l)
      else .ub

/-- the parts of the range as text, `mtev_console_state.c:1000-1007`: the parts are copied in the order 1, 3, 2 -/
def expandText (g1 g2 g3 : Str) : Out Range := do
  let b1 := copySub none g1
  let s ← atoi b1
  let b3 := copySub b1 g3
  let e ← atoi b3
  let b2 := copySub b3 g2
  if b2 = some [] then expandNum s e none
  else do
    let n ← atoi b2
    expandNum s e (some n)

/-- a range of addresses, `mtev_console_state.c:968-996` with the limit of 256 from `mtev_console_state.c:1050` -/
def expandIp (fullGiven : Bool) (addr mask : Nat) : Out Range :=
  let full := fullGiven || mask == 32
  if mask = 0 ∨ mask > 32 then .ok .refused
  else if mask = 1 then .ub
  else
    let size := 2 ^ (32 - mask)
    let host := addr - addr % size
    let count : Int := if full then size else (size : Int) - 2
    if count > 256 ∨ count = 0 then .ok .refused
    else
      let base := if full then host else host + 1
      .ok (.items ((List.range count.toNat).map fun i => ((base + i : Nat) : Int)))

/-! ### the command -/

/-- all words of a command for one item, `mtev_console_state.c:1064` -/
def words (name : Str) (item : Str) : List Str → Out (List Str)
  | [] => .ok []
  | w :: l => do
    let a ← applyReplace w name item
    let t ← words name item l
    .ok (a :: t)

/-- the commands `mtev_console_generic_apply` runs, `mtev_console_state.c:1063-1068`, for the texts of the items -/
def commands (name : Str) (argv : List Str) : List Str → Out (List (List Str))
  | [] => .ok []
  | it :: l => do
    let a ← words name it argv
    let t ← commands name argv l
    .ok (a :: t)

end Mtev.ConApply
