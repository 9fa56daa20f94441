import Verif.Mem

/-!
# Reverse connections: acceptance and retries

Model of `mtev_reverse_socket_acceptor` (/repo/src/mtev_reverse_socket.cpp:1117-1240), the table of connections by
identifier, and `mtev_connection_schedule_reattempt` (lines 1432-1478).

Simplifications.  The proxy address in `X-Bind:` (`extract_xbind`, lines 1016-1044) is left out; the function changes only bytes behind the first line.
`isspace` is the one of the C locale.  A connection handled by the acceptor has a closure (`rc`) from its first event on, and an
event is either a readable descriptor or the loss of the connection.
-/

namespace Mtev.RevAcc

/-- `CMD_BUFF_LEN`, line 69. -/
def cmdLen : Nat := 4096

/-- `isspace`. -/
def isspace (b : Nat) : Bool := b = 32 || (9 ≤ b && b ≤ 13)

/-- What one read of one byte returns; a descriptor at its end stays there. -/
inductive Rb | byte (b : Nat) | again | fail | eof
deriving DecidableEq, Repr

/-- The end of the request, line 1164. -/
def blank : List Nat := [13, 10, 13, 10]

/-- `mtev_memmem(buff, buff_read, "\r\n\r\n", 4)`: is there one? -/
def hasBlank : List Nat → Bool
  | [] => false
  | b :: l => blank.isPrefixOf (b :: l) || hasBlank l

/-- How the reading loop ended: `full`: the buffer was used up; `hang`: it does not end. -/
inductive Rd | wait | request | full | fail | hang
deriving DecidableEq, Repr

/-- The reading loop, lines 1153-1218: the buffer, what was not read, and how it ended.  A result of 0 is not tested: the loop
goes on, and as the buffer does not grow any more it never ends. -/
def readIntro (rs : List Rb) (buf : List Nat) : List Nat × List Rb × Rd :=
  if buf.length < cmdLen then
    match rs with
    | [] => (buf, [], .wait)
    | .again :: rs => (buf, rs, .wait)
    | .fail :: rs => (buf, rs, .fail)
    | .eof :: rs => (buf, rs, .hang)
    | .byte b :: rs => if hasBlank (buf ++ [b]) then (buf ++ [b], rs, .request) else readIntro rs (buf ++ [b])
  else (buf, rs, .full)
termination_by structural rs

/-- The identifier, lines 1183-1185: what follows `RSE /` up to white space or a NUL. -/
def idOf (buf : List Nat) : List Nat := (buf.drop 5).takeWhile (fun b => b != 0 && !isspace b)

/-- `strchr(rc->id, '#')`, lines 1211-1212. -/
def clip (id : List Nat) : List Nat := id.takeWhile (fun b => b != 35)

/-- The common name must be what follows a prefix that requires one, lines 1190-1199. -/
def cnOk (prefixes : List (List Nat)) (cn : Option (List Nat)) (id : List Nat) : Bool :=
  prefixes.all (fun p => !(p.isPrefixOf id) || decide (id.drop p.length = cn.getD []))

/-- What is fixed: the prefixes that require a certificate, the access lists, and the common name of each connection's certificate. -/
structure Conf where
  prefixes : List (List Nat)
  acl : Nat → List Nat → Bool
  cn : Nat → Option (List Nat)

/-- A connection: the request is being read, it is up with an identifier, it was closed, or its thread is in the loop for ever. -/
inductive Phase | reading (buf : List Nat) | up (id : List Nat) | gone | hung
deriving DecidableEq, Repr

/-- `reverse_sockets`: identifiers and connections. -/
structure St where
  table : List (List Nat × Nat)
  conn : Nat → Phase

def St.fresh : St := ⟨[], fun _ => .reading []⟩

def St.set (s : St) (k : Nat) (p : Phase) : St := { s with conn := fun i => if i = k then p else s.conn i }

/-- `mtev_hash_retrieve`. -/
def lookup (s : St) (id : List Nat) : Option Nat := (s.table.find? (fun e => e.1 = id)).map (·.2)

/-- `mtev_reverse_socket_shutdown`, lines 507-513: whatever is stored under the identifier is deleted, if there is an identifier. -/
def shutdown (s : St) (k : Nat) (id : Option (List Nat)) : St :=
  match id with
  | none => s.set k .gone
  | some i => St.set { s with table := s.table.filter (fun e => e.1 ≠ i) } k .gone

/-- A complete request, lines 1168-1239. -/
def decideOn (c : Conf) (s : St) (k : Nat) (buf : List Nat) : St :=
  if !((bytesOf "RSE /").isPrefixOf buf) then shutdown s k none
  else
    let id := idOf buf
    if !(cnOk c.prefixes (c.cn k) id) then shutdown s k (some id)
    else if !(c.acl k id) then shutdown s k (some id)
    else if (lookup s (clip id)).isSome then shutdown s k none
    else St.set { s with table := s.table ++ [(clip id, k)] } k (.up (clip id))

/-- What happens: a connection is readable, or is lost. -/
inductive Ev | input (k : Nat) (rs : List Rb) | lost (k : Nat)

/-- One event. -/
def step (c : Conf) (s : St) : Ev → St
  | .input k rs =>
    match s.conn k with
    | .reading buf =>
      let r := readIntro rs buf
      match r.2.2 with
      | .wait => s.set k (.reading r.1)
      | .request => decideOn c s k r.1
      | .full => shutdown s k none
      | .fail => shutdown s k none
      | .hang => s.set k .hung
    | _ => s
  | .lost k =>
    match s.conn k with
    | .reading _ => shutdown s k none
    | .up id => shutdown s k (some id)
    | _ => s

def run (c : Conf) (s : St) (es : List Ev) : St := es.foldl (step c) s

/-! ### Retries -/

/-- `uint32_t` of an `int`. -/
def u32 (i : Int) : Nat := (i % 2 ^ 32).toNat

/-- `min_interval`, lines 1437 and 1445-1450; the configured number is that of `atoi`. -/
def minInterval (v : Option Int) : Nat := match v with | none => 1000 | some i => u32 (max i 100)

/-- `max_interval`, lines 1437 and 1451-1455. -/
def maxInterval (v : Option Int) : Nat := match v with | none => 8000 | some i => u32 (min i (3600 * 1000))

/-- `current_backoff`, lines 1456-1461: the delay (in milliseconds) before the next attempt. -/
def backoff (lo hi : Nat) (cur : Nat) : Nat :=
  if cur = 0 then lo else min hi (max lo (cur * 2 % 2 ^ 32))

/-- What happens to a client connection: it could not be made or was lost, and a retry is scheduled; or it was made.  Nothing but the
scheduling changes `current_backoff`. -/
inductive Life | lost | made
deriving DecidableEq, Repr

/-- The delays that are scheduled. -/
def delays (lo hi : Nat) : Nat → List Life → List Nat
  | _, [] => []
  | cur, .made :: l => delays lo hi cur l
  | cur, .lost :: l => backoff lo hi cur :: delays lo hi (backoff lo hi cur) l

end Mtev.RevAcc
