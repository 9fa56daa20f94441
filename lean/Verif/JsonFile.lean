import Verif.SmallBuf

/-!
JSON documents read from and written to files (src/json-lib/mtev_json_util.c).
-/

namespace Mtev.JsonFile
open SmallBuf

/-- The bytes before the first NUL. -/
def cstr (b : List Nat) : List Nat := b.takeWhile (· != 0)

/-- How reading ends: with the end of the file, or an error. -/
inductive End where
  | eof
  | error
deriving DecidableEq, Repr

/-- `mtev_json_object_from_fd` up to the parser: the text given to it, or
    `none` for an error.  `chunks` are what the reads give.  The parser takes a
    C string (/repo/src/json-lib/mtev_json_tokener.c, `mtev_json_tokener_parse`);
    if nothing was appended the buffer was never written, and looking for its
    end is `ub`.
    /repo/src/json-lib/mtev_json_util.c 56-79.  Simplified: memory does not run
    out; an error of the read, which the debug build aborts on, returns. -/
def readFd (junk : Nat → Nat) (chunks : List (List Nat)) (e : End) : Out (Option (List Nat)) :=
  match appends junk (Print.new junk) chunks with
  | .ub => .ub
  | .abort => .abort
  | .ok p => match e with
    | .error => .ok none
    | .eof => if chunks = [] then .ub else .ok (some (cstr p.buf))

/-- The loop of `mtev_json_object_to_fd` from the position `wpos`: the value
    returned, what the descriptor has got, and whether it is still in the loop.
    `ws` are the answers of `write`: how many bytes, at most those offered, or
    an error.
    /repo/src/json-lib/mtev_json_util.c 113-124 -/
def writeLoop (s : List Nat) (wsize : Nat) : Nat → List (Option Nat) → List Nat → Option Int × List Nat
  | wpos, ws, out =>
    if wpos < wsize then
      match ws with
      | [] => (none, out)
      | none :: _ => (some (-1), out)
      | some n :: ws =>
          writeLoop s wsize ((wpos + min n (wsize - wpos)) % 2 ^ 32) ws
            (out ++ (s.drop wpos).take (min n (wsize - wpos)))
    else (some 0, out)
termination_by _ ws _ => ws.length

/-- `mtev_json_object_to_fd` with the document's text.
    /repo/src/json-lib/mtev_json_util.c 96-126 -/
def writeFd (s : List Nat) (ws : List (Option Nat)) : Option Int × List Nat :=
  writeLoop s ((cstr s).length % 2 ^ 32) 0 ws []

end Mtev.JsonFile
