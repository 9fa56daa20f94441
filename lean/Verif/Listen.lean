import Verif.Basic
import Verif.Mem
import Mathlib.Tactic.Common

/-!
# Listeners

Model of `src/mtev_listener.c`: accepting connections, their idle timeout, the name of the peer of a TLS connection, the command word of the
control port, the addresses that are listened on, and which listeners are configured.
-/

namespace Mtev.Listen

abbrev Str := List Nat

/-! ### Times -/

/-- `struct timeval`. -/
structure TV where
  s : Int
  u : Int
deriving DecidableEq, Repr

/-- `sub_timeval`, `src/mtev_defines.h:142-154`. -/
def subTV (a b : TV) : TV :=
  let u := a.u - b.u
  let as := if u < 0 then a.s - 1 else a.s
  let u := if u < 0 then u + 1000000 else u
  let s := as - b.s
  if s < 0 then ⟨s + 1, u - 1000000⟩ else ⟨s, u⟩

/-- `add_timeval`, `src/mtev_defines.h:171-181`. -/
def addTV (a b : TV) : TV :=
  if a.u + b.u ≥ 1000000 then ⟨a.s + b.s + 1, a.u + b.u - 1000000⟩ else ⟨a.s + b.s, a.u + b.u⟩

/-- `compare_timeval(a, b) > 0`, `src/mtev_defines.h:133-139`. -/
def gtTV (a b : TV) : Bool := decide (a.s > b.s) || (decide (a.s = b.s) && decide (a.u > b.u))

/-- `tv_sec`, `tv_usec` of a number of milliseconds, `mtev_listener.c:104-105` and 395-396. -/
def msTV (ms : Nat) : TV := ⟨ms / 1000, ms % 1000 * 1000⟩

/-! ### The idle timeout -/

/-- The part of `mtev_acceptor_closure_t` (lines 60-78) that matters for the timeout.  `told` counts the calls of `eventer_trigger` with
`EVENTER_EXCEPTION`. -/
structure Conn where
  lastRead : TV
  lastWrite : TV
  timeout : Nat
  timer : Option TV
  told : Nat := 0
deriving DecidableEq, Repr

/-- `limited_ms`, lines 103 and 394; `MAX_TIMEOUT_CHECK_MS`, line 53. -/
def limited (ms : Nat) : Nat := if ms > 5000 then 5000 else ms

/-- What `mtev_listener_acceptor` does at `now` with a configured `idle_timeout` of `ms` (0 when there is none), lines 381 and 390-399.
`last_write` is that of the zeroed prototype, lines 340 and 609.  Simplified: `eventer_in_s_us` reads the clock once more; here it reads the
same time. -/
def start (ms : Nat) (now : TV) : Conn :=
  { lastRead := now, lastWrite := ⟨0, 0⟩, timeout := ms, timer := if ms = 0 then none else some (addTV now (msTV (limited ms))) }

/-- `mtev_acceptor_closure_mark_read`, lines 112-116. -/
def markRead (c : Conn) (t : TV) : Conn := { c with lastRead := t }

/-- `mtev_acceptor_closure_mark_write`, lines 117-121. -/
def markWrite (c : Conn) (t : TV) : Conn := { c with lastWrite := t }

/-- `mtev_acceptor_closure_readwrite_age`, lines 122-133: both differences are taken from `last_read`. -/
def age (c : Conn) (now : TV) : TV :=
  let diff := subTV now c.lastRead
  let d1 := subTV now c.lastRead
  if gtTV diff d1 then d1 else diff

/-- `age.tv_sec * 1000UL + age.tv_usec / 1000UL`, line 90: 64-bit unsigned arithmetic. -/
def ageMs (d : TV) : Nat := ((d.s % 2 ^ 64).toNat * 1000 + (d.u % 2 ^ 64).toNat / 1000) % 2 ^ 64

/-- `mtev_acceptor_timeout` at `now`, lines 80-110; `found`: `eventer_find_fd` finds the connection's event. -/
def tick (found : Bool) (now : TV) (c : Conn) : Conn :=
  if found = true ∧ ageMs (age c now) > c.timeout then { c with timer := none, told := c.told + 1 }
  else { c with timer := some (addTV now (msTV (limited c.timeout))) }

/-- Which callback a connection's event has: `mtev_listener_accept_ssl`, or that of the protocol. -/
inductive Stage | handshake | serving
deriving DecidableEq, Repr

/-- A connection; `open_`: not yet closed. -/
structure W where
  c : Conn
  stage : Stage
  open_ : Bool := true
deriving DecidableEq, Repr

/-- What happens to a connection.  `tick now found again`: the timer fires; `again`: if the connection is in its handshake, `eventer_SSL_accept`
says `EAGAIN` when it is called. -/
inductive Ev
  | read (t : TV)
  | write (t : TV)
  | shaken (t : TV)
  | tick (now : TV) (found again : Bool)
deriving DecidableEq, Repr

/-- What the callback does when it is told of an exception: that of a protocol closes the connection (`mtev_control_dispatch_as11`, lines 813
and 832-837); `mtev_listener_accept_ssl` (lines 230-299) does not look at the mask, goes on with the handshake, and closes only if that fails. -/
def except (again : Bool) (w : W) : W :=
  match w.stage with
  | .serving => { w with open_ := false, c := { w.c with timer := none } }
  | .handshake => if again then w else { w with open_ := false, c := { w.c with timer := none } }

/-- One event.  `shaken`: the handshake is over, line 247. -/
def step (w : W) : Ev → W
  | .read t => { w with c := markRead w.c t }
  | .write t => { w with c := markWrite w.c t }
  | .shaken t => { w with stage := .serving, c := markRead w.c t }
  | .tick now found again =>
    let w' := { w with c := tick found now w.c }
    if w'.c.told > w.c.told then except again w' else w'

/-- All events. -/
def run (w : W) (evs : List Ev) : W := evs.foldl step w

/-! ### Accepting -/

/-- What `accept` gives: a descriptor (`nb`: it was made non-blocking; `ctx`: a TLS context could be made), or an error. -/
inductive Acc
  | conn (f : Nat) (nb ctx : Bool)
  | again | intr | err
deriving DecidableEq, Repr

/-- The connections handed to an event (with TLS or not), those closed, the closures that are allocated and the timers that run. -/
structure A where
  served : List (Nat × Bool) := []
  closed : List Nat := []
  live : List Nat := []
  timers : List Nat := []
deriving DecidableEq, Repr

/-- The loop of `mtev_listener_acceptor`, lines 338-446, and its error exit, lines 332-335; `tls`: `mtev_hash_size(listener_closure->sslconfig)` is
not 0; `timed`: an idle timeout is configured.  The closure that is allocated for a failing `accept` is freed at once (line 435).  `continue`
(line 438) goes to the condition of the loop, which then is false.  The rest of the list are the answers not asked for. -/
def accept (tls timed : Bool) : List Acc → A → A × List Acc
  | [], a => (a, [])
  | .conn f nb ctx :: r, a =>
    if nb = false then ({ a with closed := a.closed ++ [f] }, r)
    else
      let a := { a with live := a.live ++ [f], timers := if timed then a.timers ++ [f] else a.timers }
      if tls then
        if ctx = false then
          ({ a with closed := a.closed ++ [f], live := a.live.erase f, timers := a.timers.erase f }, r)
        else accept tls timed r { a with served := a.served ++ [(f, true)] }
      else accept tls timed r { a with served := a.served ++ [(f, false)] }
  | .again :: r, a => (a, r)
  | .intr :: r, a => (a, r)
  | .err :: r, a => (a, r)

/-- `eventer_choose_owner_pool`, `src/eventer/eventer_impl.c:343-363`: the thread of the pool. -/
def choose (dflt : Bool) (conc i : Nat) : Nat :=
  if conc = 1 then 0
  else if dflt then (if i = 0 then 0 else i % 2 ^ 32 % (conc - 1) + 1)
  else i % 2 ^ 32 % conc

/-- The thread of a new connection: that of the listener, or one of a pool. -/
inductive Owner (P : Type) | same | inPool (p : P) (thread : Nat)
deriving DecidableEq, Repr

/-- Lines 328-329 and 428-431; `mine`: the pool of the listening event; `size`: whether it is the default pool and how many threads it has. -/
def owner {P : Type} (fanout : Bool) (pool : Option P) (mine : P) (size : P → Bool × Nat) (f : Nat) : Owner P :=
  match (if fanout then some (pool.getD mine) else pool) with
  | none => .same
  | some p => .inPool p (choose (size p).1 (size p).2 (f + 1))

/-! ### The name of the peer -/

/-- `strstr(s, "CN=")` and three bytes on, lines 254-255. -/
def afterCN : Str → Option Str
  | [] => none
  | a :: r => if a = 67 ∧ r.take 2 = [78, 61] then some (r.drop 2) else afterCN r

/-- `remote_cn`, lines 253-261; the subject of the peer's certificate, if there is one. -/
def peerName (subject : Option Str) : Option Str :=
  (subject.bind afterCN).map fun s => s.takeWhile fun b => b ≠ 47

/-! ### The command word -/

/-- What `eventer_read` gives: some bytes (at most as many as were asked for), nothing yet, or an end or error. -/
inductive Rd
  | data (bs : Str)
  | again
  | stop
deriving DecidableEq, Repr

/-- What a call of `mtev_control_dispatch_as11` does. -/
inductive Res
  | wait (rlen : Nat)
  | close
  | run (cmd : Nat) (handler : Nat)
deriving DecidableEq, Repr

/-- `ntohl`: the bytes in the order they came. -/
def word : Str → Nat := fun bs => bs.foldl (fun n b => n * 256 + b) 0

/-- Lines 840-865: the command is looked for in the table of the listener. -/
def look (table : Option (List (Nat × Nat))) (cmd : Nat) : Res :=
  match table with
  | none => .close
  | some t =>
    match t.find? (fun e => e.1 = cmd) with
    | some e => .run cmd e.2
    | none => .close

/-- Lines 840-865, when the four bytes of `cmd` are there; a byte that was not read in this call is indeterminate. -/
def decide4 (table : Option (List (Nat × Nat))) (cmd : List (Option Nat)) : Out Res :=
  if none ∈ cmd then .ub else .ok (look table (word (cmd.filterMap id)))

/-- `mtev_control_dispatch_as11` without an exception, lines 815-865.  `cmd` is a local variable (line 807): it holds nothing at the start of
each call, while `rlen` is kept.  `cmd` here: its first `rlen` bytes, `none` for one that holds nothing.  Simplified: an answer longer than
what was asked for is cut. -/
def reads (table : Option (List (Nat × Nat))) : List Rd → Nat → List (Option Nat) → Out Res
  | [], rlen, cmd => if rlen < 4 then .ok (.wait rlen) else decide4 table cmd
  | .again :: _, rlen, cmd => if rlen < 4 then .ok (.wait rlen) else decide4 table cmd
  | .stop :: _, rlen, cmd => if rlen < 4 then .ok .close else decide4 table cmd
  | .data bs :: r, rlen, cmd =>
    if rlen < 4 then
      let got := bs.take (4 - rlen)
      if got = [] then .ok .close
      else reads table r (rlen + got.length) (cmd ++ got.map some)
    else decide4 table cmd

/-- One call: `rlen` bytes were read in earlier calls. -/
def control (table : Option (List (Nat × Nat))) (rlen : Nat) (rs : List Rd) : Out Res := reads table rs rlen (List.replicate rlen none)

/-- The calls for one connection, each with what can be read during it, until one does not wait. -/
def controls (table : Option (List (Nat × Nat))) (rlen : Nat) : List (List Rd) → Out Res
  | [] => .ok (.wait rlen)
  | rs :: more =>
    match control table rlen rs with
    | .ok (.wait k) => controls table k more
    | o => o

/-- `mtev_control_dispatch_delegate`, lines 878-908, for one listener: `mtev_hash_replace`. -/
def delegate (table : Option (List (Nat × Nat))) (cmd handler : Nat) : Option (List (Nat × Nat)) :=
  some ((cmd, handler) :: (table.getD []).filter fun e => e.1 ≠ cmd)

/-! ### Addresses -/

/-- Where a socket is bound. -/
inductive Addr
  | unix (path : Str)
  | v4 (a : Nat) (port : Nat)
  | v6 (a : Nat) (port : Nat)
deriving DecidableEq, Repr

/-- Lines 474-499; `p4`, `p6`: `inet_pton` for the two families. -/
def family (p4 p6 : Str → Option Nat) (host : Str) (port : Nat) : Option Addr :=
  if host.head? = some 47 then some (.unix host)
  else
    match p4 host with
    | some a => some (.v4 a port)
    | none =>
      match p6 host with
      | some a => some (.v6 a port)
      | none =>
        if host = bytesOf "*" ∨ host = bytesOf "inet:*" then some (.v4 0 port)
        else if host = bytesOf "inet6:*" then some (.v6 0 port)
        else none

/-- What `stat` says of a path: an error other than `ENOENT`, nothing there, or the mode of what is there. -/
inductive Stat | fail | nothing | mode (m : Nat)
deriving DecidableEq, Repr

/-- How the calls of the system for a listener go. -/
structure Sys where
  socket : Bool
  nonblock : Bool
  reuse : Bool
  stat : Stat
  bind : Bool
  listen : Bool
deriving DecidableEq, Repr

/-- What came of it: the address, if it is listened on; the path that was removed; whether the descriptor of the socket is open. -/
structure Bound where
  at_ : Option Addr
  unlinked : Option Str := none
  fdOpen : Bool := false
deriving DecidableEq, Repr

/-- `S_IFSOCK`. -/
def ifsock : Nat := 0o140000

/-- `bind` and `listen`, lines 576-594. -/
def finish (y : Sys) (a : Addr) (unlinked : Option Str) : Bound :=
  if y.bind = false then { at_ := none, unlinked }
  else if y.listen = false then { at_ := none, unlinked }
  else { at_ := some a, unlinked, fdOpen := true }

/-- Lines 531-575: what is at a path is looked at (546: `sb.st_mode & S_IFSOCK`); at most 107 bytes of it are bound (560). -/
def place (y : Sys) : Addr → Bound
  | .unix path =>
    match y.stat with
    | .fail => { at_ := none }
    | .nothing => finish y (.unix (path.take 107)) none
    | .mode m => if m &&& ifsock = 0 then { at_ := none } else finish y (.unix (path.take 107)) (some path)
  | a => finish y a none

/-- `mtev_listener`, lines 474-595.  Simplified: the socket is a stream; the event and the closure made afterwards (597-628) are not here. -/
def listen (p4 p6 : Str → Option Nat) (y : Sys) (host : Str) (port : Nat) : Bound :=
  match family p4 p6 host port with
  | none => { at_ := none }
  | some a =>
    if y.socket = false then { at_ := none }
    else if y.nonblock = false then { at_ := none }
    else if y.reuse = false then { at_ := none }
    else place y a

/-! ### The text of an address -/

/-- `inet_ntop` with room for `n` bytes, the last for the end of the string: the text, or nothing is written. -/
def ntop (text : Str) (n : Nat) : Str := if text.length < n then text else []

/-- Where a peer is: `text` is what `inet_ntop` would write. -/
inductive Peer
  | v4 (text : Str)
  | v6 (text : Str)
  | unix (path : Str)
  | other
deriving DecidableEq, Repr

/-- `mtev_convert_sockaddr_to_buff`, lines 910-935, for a buffer of `blen` bytes: the text written.  The size given to `inet_ntop` is that of the
structure: 16 and 28 bytes.  Simplified: a path has its end. -/
def convert (blen : Nat) (p : Option Peer) : Str :=
  match p with
  | some .other => []
  | none => []
  | some (.v4 t) => (ntop t 16).take (blen - 1)
  | some (.v6 t) => (ntop t 28).take (blen - 1)
  | some (.unix s) => (s.take 127).take (blen - 1)

/-! ### The configuration -/

/-- A `listener` section: `handler`: its type names a callback or a coroutine; the number of its port. -/
structure Stanza where
  type : Option Str
  handler : Bool
  address : Option Str
  port : Option Int
  envOff : Bool
  ssl : Bool
  sslconfig : List (Str × Str)
deriving DecidableEq, Repr

/-- `mtev_listener_skip`, lines 211-219: the newest first. -/
def skip (l : List (Option Str × Int)) (address : Option Str) (port : Int) : List (Option Str × Int) := (address, port) :: l

/-- `mtev_listener_should_skip`, lines 220-228. -/
def shouldSkip (l : List (Option Str × Int)) (address : Str) (port : Int) : Bool :=
  l.any fun e => decide (e.2 = port) && (decide (e.1 = none) || decide (e.1 = some address))

/-- `mtev_listener_reconfig`, lines 675-758: the address, the port and whether connections pass through TLS (line 400), if `mtev_listener` is called.
Simplified: texts are shorter than their buffers. -/
def reconfig (skips : List (Option Str × Int)) (z : Stanza) : Option (Str × Nat × Bool) :=
  if z.type = none then none
  else if z.handler = false then none
  else
    let address := z.address.getD (bytesOf "*")
    let portint := z.port.getD 0
    let port := (portint % 65536).toNat
    if address.head? ≠ some 47 ∧ (portint = 0 ∨ (port : Int) ≠ portint) then none
    else if z.envOff then none
    else if shouldSkip skips address port then none
    else some (address, port, if z.ssl then !z.sslconfig.isEmpty else false)

end Mtev.Listen
