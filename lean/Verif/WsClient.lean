import Verif.Basic
import Verif.Mem
import Mathlib.Tactic.Common
import Mathlib.Data.List.Basic

/-!
Model of the websocket client, /repo/src/mtev_websocket_client.c: the handshake (184-291, 296-335) and the
life of a client (44-54, 296-305, 424-522, 606-696).  The key a server must answer with is given (the hash
of the key sent, mtev_http1.c:1477-1500); frames are the business of the wslay library and not modelled;
neither is TLS.
-/

namespace Mtev.WsClient

abbrev Str := List Nat

/-! ### The request -/

/-- A write of at most `n + 1` bytes, one that would block, or one that fails. -/
inductive Wr
  | wrote (n : Nat)
  | again
  | err
deriving DecidableEq, Repr

/-- The text of `snprintf`, lines 222-244. -/
def request (path host key : Str) (service : Option Str) : Str :=
  bytesOf "GET " ++ path ++ bytesOf " HTTP/1.1\r\nHost: " ++ host ++
  bytesOf "\r\nUpgrade: websocket\r\nConnection: Upgrade\r\nSec-WebSocket-Key: " ++ key ++
  (match service with
    | none => []
    | some v => bytesOf "\r\nSec-WebSocket-Protocol: " ++ v) ++
  bytesOf "\r\nSec-WebSocket-Version: 13\r\n\r\n"

/-- What `reqheader` (line 216) holds of a text and is sent: `snprintf` stores at most 4095 bytes and a
NUL, but returns the length of the whole text. -/
def stored (text : Str) : Out Str :=
  if text.length ≤ 4095 then .ok text
  else if text.length = 4096 then .ok (text.take 4095 ++ [0])
  else .ub

/-- `send_reqheader`, lines 184-199: what was sent, and whether it was all.  (`EINTR` is tried again.)
When the list of writes is used up the next one would block. -/
def sendReq : List Wr → Str → Str × Bool
  | _, [] => ([], true)
  | [], _ => ([], false)
  | .again :: _, _ => ([], false)
  | .err :: _, _ => ([], false)
  | .wrote n :: r, b :: bs =>
    let (x, y) := sendReq r ((b :: bs).drop (n + 1))
    ((b :: bs).take (n + 1) ++ x, y)

/-- `mtev_websocket_client_send_handshake`, lines 214-247. -/
def sendShake (ws : List Wr) (path host key : Str) (service : Option Str) : Out (Str × Bool) := do
  let t ← stored (request path host key service)
  pure (sendReq ws t)

/-! ### The response -/

/-- A read: bytes, nothing yet, or the end (or an error). -/
inductive Rd
  | data (bs : Str)
  | again
  | eof
deriving DecidableEq, Repr

/-- What `recv_resheader` says: read, would block (−1), or no (0). -/
inductive Got
  | have (bs : Str)
  | again
  | no
deriving DecidableEq, Repr

/-- The size of `resheader`, line 251. -/
def room : Nat := 8192

/-- `recv_resheader`, lines 201-222, with `got` read so far: the buffer is a local variable of the caller
and the count starts from nothing in every call. -/
def recv : List Rd → Str → Got
  | [], _ => .again
  | .again :: _, _ => .again
  | .eof :: _, _ => .no
  | .data bs :: r, got =>
    if bs = [] then .no
    else
      let g := got ++ bs.take (room - got.length)
      if 4 ≤ g.length ∧ g.drop (g.length - 4) = [13, 10, 13, 10] then .have g
      else if room ≤ g.length then .no
      else recv r g

/-- `strstr` in a buffer: the bytes from where the text is found; running out of the buffer is
undefined. -/
def strstr (pat : Str) : Str → Out (Option Str)
  | [] => .ub
  | c :: s => if c = 0 then .ok none else if pat.isPrefixOf (c :: s) then .ok (some (c :: s)) else strstr pat s

/-- `strncmp` of a key with what is in the buffer. -/
def same : Str → Str → Out Bool
  | [], _ => .ok true
  | _ :: _, [] => .ub
  | k :: ks, c :: cs => if k = c then same ks cs else .ok false

/-- The header looked for, line 264. -/
def name : Str := bytesOf "Sec-WebSocket-Accept"

/-- Lines 264-278 on the whole buffer. -/
def check (key buf : Str) : Out Bool := do
  match ← strstr name buf with
  | none => pure false
  | some s => same key (s.drop 22)

/-- The state of the handshake after some callbacks. -/
inductive Shake
  | waiting
  | ready
  | aborted
deriving DecidableEq, Repr

/-- `mtev_websocket_client_recv_handshake` (249-279) in each callback of `mtev_websocket_client_drive`
(316-333); `junk` is what the buffer holds before (it is not initialised). -/
def shake (key junk : Str) : List (List Rd) → Out Shake
  | [] => .ok .waiting
  | rds :: cbs =>
    match recv rds [] with
    | .again => shake key junk cbs
    | .no => .ok .aborted
    | .have g => do
      if ← check key (g ++ junk.drop g.length) then pure .ready else pure .aborted

/-! ### The life of a client -/

/-- `client->wslay_ctx`. -/
inductive Ws
  | none
  | live
  | freed
deriving DecidableEq, Repr

/-- A client: references, `closed`, the wslay context, whether its event is registered, whether its memory
was released, and whether `client->lock` is held. -/
structure Cl where
  refs : Nat
  closed : Bool := false
  ws : Ws := .none
  event : Bool := true
  freed : Bool := false
  lock : Bool := false
deriving DecidableEq, Repr

/-- What the program does with a client: `mtev_websocket_client_send`, `_is_closed`, `_free`. -/
inductive Call
  | send
  | isClosed
  | free
deriving DecidableEq, Repr

/-- The outcome: undefined behaviour is `ub`; waiting for a lock one holds oneself is `stuck`. -/
inductive Res
  | ok (c : Cl)
  | ub
  | stuck
deriving DecidableEq, Repr

/-- Go on if all is well. -/
def Res.bind (r : Res) (f : Cl → Res) : Res :=
  match r with
  | .ok c => f c
  | .ub => .ub
  | .stuck => .stuck

/-- `mtev_websocket_client_new` (424-535): one reference for the event, one for the connection, and one
for the caller unless `noref`. -/
def fresh (noref : Bool) : Cl := { refs := (if noref then 1 else 2) + 1 }

/-- `mtev_websocket_client_deref`, lines 49-54. -/
def deref (c : Cl) : Res :=
  if c.freed then .ub
  else if c.refs = 1 then .ok { c with refs := 0, freed := true }
  else .ok { c with refs := c.refs - 1 }

/-- Calls that do not themselves clean up: `mtev_websocket_client_send` (625-646; the context is not set to
nothing when it is freed), `_is_closed` (608-620), and `_free` of a closed client (683-689). -/
def call (c : Cl) : Call → Res
  | .send => if c.freed then .ub else if c.lock then .stuck else
      match c.ws with
      | .none => .ok c
      | .live => .ok c
      | .freed => .ub
  | .isClosed => if c.freed then .ub else if c.lock then .stuck else .ok c
  | .free => if c.freed then .ub else if c.closed then deref c else .stuck

/-- Many of them. -/
def calls : List Call → Cl → Res
  | [], c => .ok c
  | k :: ks, c => (call c k).bind (calls ks)

/-- `mtev_websocket_client_cleanup`, lines 652-676; `cb` is what the cleanup callback does. -/
def cleanup (cb : List Call) (c : Cl) : Res :=
  if c.freed then .ub
  else if c.lock then .stuck
  else if c.closed then deref c
  else
    (calls cb { c with closed := true, event := false, ws := if c.ws = .live then .freed else c.ws, lock := true }).bind
      fun c => deref { c with lock := false }

/-- `mtev_websocket_client_free`, lines 682-691. -/
def free (cb : List Call) (c : Cl) : Res :=
  if c.freed then .ub
  else if c.closed then deref c
  else (cleanup cb c).bind deref

/-- What happens to a client: the handshake succeeds; the connection ends or fails and
`mtev_websocket_client_drive` aborts (300-305); a message arrives whose callback does something (344-348);
the program calls. -/
inductive Act
  | shaken
  | ends
  | msg (free : Bool)
  | does (k : Call)
deriving DecidableEq, Repr

/-- One of them; the event does nothing when it is not registered. -/
def act (cb : List Call) (c : Cl) : Act → Res
  | .shaken => if c.event = false then .ok c else if c.freed then .ub else .ok { c with ws := .live }
  | .ends => if c.event = false then .ok c else (cleanup cb c).bind deref
  | .msg f =>
    if c.event = false ∨ c.ws ≠ .live then .ok c
    else if f then (free cb c).bind fun c => if c.freed ∨ c.ws = .freed then .ub else .ok c
    else .ok c
  | .does .free => free cb c
  | .does k => call c k

/-- Many of them. -/
def acts (cb : List Call) : List Act → Cl → Res
  | [], c => .ok c
  | a :: as, c => (act cb c a).bind (acts cb as)

end Mtev.WsClient
