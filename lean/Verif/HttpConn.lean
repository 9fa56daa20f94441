import Verif.Basic
import Mathlib.Tactic.Common
import Mathlib.Data.List.Basic

/-!
Model of a whole HTTP/1 connection, /repo/src/mtev_http1.c: `mtev_http1_session_drive` (1652-1823) with
`mtev_http1_complete_request` (849-937), `mtev_http1_request_release` (955-996) and
`mtev_http1_response_release` (997-1015).

How a head and a body are found in the bytes is a parameter (`Parser`); that the project's code does find
them is C33, C35, C60 and C61.  What is modelled here is what happens between requests: which bytes are
left for the next one.  Simplifications: the chain of buffers is one list of bytes; the output is one
piece, written or not; upgrades, websockets, `Expect` and coroutines are left out.
-/

namespace Mtev.HttpConn

abbrev Str := List Nat

/-- What looking for a head at the beginning of the input finds (`mtev_http1_request_finalize`, 839-848):
nothing yet, an error, or a request `r` whose body has framing `f`, and how long the head is. -/
inductive Head (R F : Type)
  | more
  | bad
  | req (r : R) (f : F) (n : Nat)
deriving DecidableEq, Repr

/-- What reading a body finds (`mtev_http1_session_req_consume`, 1300-1467): it is not over, an error, or
that the body is the first `n` bytes. -/
inductive Body
  | more
  | bad
  | done (n : Nat)
deriving DecidableEq, Repr

/-- The two parsers. -/
structure Parser (R F : Type) where
  head : Str → Head R F
  body : F → Str → Body

/-- Where `mtev_http1_session_drive` is: in `mtev_http1_complete_request` (1674), in the dispatcher (1763),
writing the response (1775), draining the body (1793-1798), or done with the connection (1812-1822). -/
inductive Phase
  | head
  | app
  | write
  | drain
  | closed
deriving DecidableEq, Repr

/-- A connection: bytes the client sent that were not read, `req.first_input`, the bytes of the current
body already taken, the current request, `conn.needs_close`, and what can be observed: the requests given
to the dispatcher and the requests whose response was written completely. -/
structure St (R F : Type) where
  sock : Str := []
  inp : Str := []
  seen : Str := []
  cur : Option (R × F) := none
  mustClose : Bool := false
  phase : Phase := .head
  served : List R := []
  answered : List R := []
deriving DecidableEq, Repr

/-- What happens next: the client sends; `eventer_read` returns at most `k + 1` bytes, would block, or
ends or fails; the dispatcher takes at most `k` bytes of the body, returns to wait, or ends the response
(and wants the connection closed); the response is written completely, or not yet, or fails. -/
inductive Ev
  | send (bs : Str)
  | read (k : Nat)
  | again
  | eof
  | take (k : Nat)
  | wait
  | finish (close : Bool)
  | wrote
  | blocked
  | failed
deriving DecidableEq, Repr

variable {R F : Type}

/-- `full_error` (853-863) and `abort_drive` (1779-1792). -/
def close (s : St R F) : St R F := { s with phase := .closed }

/-- `mtev_http1_request_finalize` on what was read (875-878, 917-918, 925): a request goes to the
dispatcher (1729-1765). -/
def settle (p : Parser R F) (s : St R F) : St R F :=
  match p.head s.inp with
  | .more => { s with phase := .head }
  | .bad => close s
  | .req r f n => { s with inp := s.inp.drop n, seen := [], cur := some (r, f), phase := .app, served := s.served ++ [r] }

/-- `mtev_http1_request_release` (955-996) and `mtev_http1_response_release`, and on to the next request
(1802-1806): the whole of `first_input` is released (988-993). -/
def release (p : Parser R F) (s : St R F) : St R F :=
  settle p { s with inp := [], seen := [], cur := none, mustClose := false }

/-- The body so far (`mtev_http1_session_req_consume`). -/
def bodyOf (p : Parser R F) (s : St R F) : Body :=
  match s.cur with
  | none => .done 0
  | some (_, f) => p.body f (s.seen ++ s.inp)

/-- At most `k` bytes of the body are taken from the input: never more than the body (1224-1236,
1336-1341). -/
def eat (p : Parser R F) (k : Nat) (s : St R F) : St R F :=
  let m := match bodyOf p s with
    | .done n => min k (n - s.seen.length)
    | .more => min k s.inp.length
    | .bad => 0
  { s with seen := s.seen ++ s.inp.take m, inp := s.inp.drop m }

/-- The drain loop (1793-1798): until the payload is complete, or there is an error, then release; or
until more must be read. -/
def drain (p : Parser R F) (s : St R F) : St R F :=
  match bodyOf p s with
  | .more => { s with phase := .drain }
  | .done _ => release p s
  | .bad => release p s

/-- `eventer_read` of at most `k + 1` bytes. -/
def pull (k : Nat) (s : St R F) : St R F :=
  { s with inp := s.inp ++ s.sock.take (k + 1), sock := s.sock.drop (k + 1) }

/-- The response is complete (1776-1805). -/
def complete (p : Parser R F) (s : St R F) : St R F :=
  match s.cur with
  | none => s
  | some (r, _) =>
    let s := { s with answered := s.answered ++ [r] }
    if s.mustClose then close s else drain p s

/-- One event of `mtev_http1_session_drive`; events that cannot happen where it is change nothing. -/
def step (p : Parser R F) (s : St R F) : Ev → St R F
  | .send bs => { s with sock := s.sock ++ bs }
  | .read k =>
    if s.sock = [] then s
    else match s.phase with
      | .head => settle p (pull k s)
      | .app => if bodyOf p s = .more then pull k s else s
      | .drain => drain p (pull k s)
      | _ => s
  | .again => s
  | .eof =>
    match s.phase with
    | .head => close s
    | .drain => release p s
    | _ => s
  | .take k => if s.phase = .app then eat p k s else s
  | .wait => s
  | .finish c => if s.phase = .app then { s with mustClose := c, phase := .write } else s
  | .wrote => if s.phase = .write then complete p s else s
  | .blocked => s
  | .failed => if s.phase = .write then close s else s

/-- Many events. -/
def run (p : Parser R F) : St R F → List Ev → St R F := List.foldl (step p)

/-- `mtev_http1_session_ctx_new` (1826-1868). -/
def init : St R F := {}

end Mtev.HttpConn
