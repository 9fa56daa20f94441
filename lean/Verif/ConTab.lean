import Verif.ConCmd
import Verif.Token

/-!
The tab key of the console: src/mtev_console_complete.c, lines 51-136 and 222-323.

Modelled: which completions are offered for a line with any number of words, and what becomes of the line when the key is pressed once.
The words are those of C86, one level of commands is that of C120 and C121. Commands that complete their arguments themselves are left
out, as is the editing of the terminal (`el_deletestr` and `el_insertstr` change what they are told to). Text after the cursor stays.
-/
namespace Mtev.ConTab
open Mtev.ConCmd

/-- mtev_console_opt_delegate, src/mtev_console_complete.c:51-95. `sub` gives the commands below a command, by its number, if its
arguments are completed by this function and its state is not NULL. Without arguments `argv[0]` is NULL, and looking it up compares
NULL with the names. -/
def delegate (sub : Nat → Option (List Cmd)) : List Cmd → List Str → Nat → Out (Option Str)
  | l, [], idx =>
    match l[idx]? with
    | some c => .ok (some c.name)
    | none => if l = [] then .ok none else .ub
  | l, [a], idx => .ok (complete l a idx)
  | l, a :: b :: r, idx =>
    match find l a with
    | some c =>
      match sub c.func with
      | none => .ok none
      | some l' => delegate sub l' (b :: r) idx
    | none => .ok (complete l a idx)

/-- rl_basic_word_break_characters, src/mtev_console_complete.c:225. -/
def breaks : List Nat := bytesOf " \t\n\"\\'@$><=;|&{("

/-- The part of the line that is replaced: back from the cursor to a breaking character, src/mtev_console_complete.c:240-248. -/
def lastWord (line : Str) : Str := (line.reverse.takeWhile fun c => decide (c ∉ breaks)).reverse

/-- noitedit_completion_function, src/mtev_console_complete.c:102-128: completion number `idx` for the line up to the cursor. -/
def request (sub : Nat → Option (List Cmd)) (l : List Cmd) (line : Str) (idx : Nat) : Out (Option Str) :=
  let t := Token.tokenize line 32
  let argv := if lastWord line = [] ∧ t.cnt < 32 then t.vector ++ [[]] else t.vector
  if argv.length = 32 then .ok none else delegate sub l argv idx

/-- A blank after the only completion, src/mtev_console_complete.c:271-284. -/
def blank (m : Str) : List Str → Str
  | [s] => if m = s ∧ m ≠ [] ∧ m.getLast? ≠ some 47 then [32] else []
  | _ => []

/-- The line after the key was pressed, given all completions: mtev_edit_complete, src/mtev_console_complete.c:255-318, without
showing them. -/
def press (line : Str) (all : List Str) : Out Str :=
  (matches_ all).bind fun m =>
    match m with
    | none => .ok line
    | some m => .ok ((if m = [] then line else line.take (line.length - (lastWord line).length) ++ m) ++ blank m all)

end Mtev.ConTab
