import Verif.Mem

/-!
# Reverse connections: frames and channels

Model of the multiplexing in /repo/src/mtev_reverse_socket.cpp (C++): many byte streams ("channels", each
between this process and a local endpoint: a socket) are carried in frames over one connection to a
peer.  `Sock` is a `reverse_socket_t`; `reads`/`tryWrites` are the two halves of
`mtev_reverse_socket_handler`; `channel` is `mtev_reverse_socket_channel_handler`; `connect` is
`mtev_reverse_socket_connect`.

Simplifications.  The calls of the handlers are atomic (the code holds the lock of the socket while it
touches the queues; its races are not modelled).  The event of an open channel always
exists, and ending a channel takes effect within one call (the transient value `AGING`, lines 423-464).
Counters, time stamps and log messages are left out, except for the one message whose
arguments are evaluated before the channel number is checked (`debug`).  Allocation does not fail.
-/

namespace Mtev.Rev

/-- `MAX_CHANNELS`, mtev_reverse_socket.cpp:67. -/
def maxChannels : Nat := 512
/-- `MAX_FRAME_LEN`, mtev_reverse_socket.cpp:68. -/
def maxFrame : Nat := 65530

/-- What a frame carries: `reverse_frame_t`, mtev_reverse_socket.cpp:95-103.  The command bit (0x8000 of
`channel_id` while a frame is outgoing, `command` when it is incoming) is kept apart. -/
structure Frame where
  c : Nat
  cmd : Bool
  data : List Nat
deriving DecidableEq, Repr

/-- A queued frame with its `offset`. -/
structure QFrame where
  f : Frame
  offset : Nat
deriving DecidableEq, Repr

/-- `outgoing_tail`: `NULL`, the last frame of the queue, or a frame that was freed. -/
inductive Tail | null | last | dangling
deriving DecidableEq, Repr

/-- A pointer to a buffer: `NULL`, allocated, or freed. -/
inductive Ptr | null | live | freed
deriving DecidableEq, Repr

/-- `incoming_inflight`: `len` is `buff_len`, `filled` the bytes received so far (`buff_filled` of them). -/
structure Inflight where
  c : Nat
  cmd : Bool
  len : Nat
  filled : List Nat
  buf : Ptr
deriving DecidableEq, Repr

/-- `memset(&incoming_inflight, 0, sizeof ...)`. -/
def Inflight.zero : Inflight := ⟨0, false, 0, [], .null⟩

/-- `channel_t`, lines 105-115: `up` says that `pair[0]` is a descriptor, not `AVAILABLE`. -/
structure Chan where
  up : Bool
  incoming : List QFrame
deriving DecidableEq, Repr

/-- Effects seen from outside: a channel was opened or closed, bytes were taken from or given to its local
endpoint; and, to relate the two ends, which frames were queued and which complete frames were received.
A history, not a part of the code. -/
inductive Eff
  | opened (c : Nat)
  | closed (c : Nat)
  | took (c : Nat) (bs : List Nat)
  | gave (c : Nat) (bs : List Nat)
  | queued (f : Frame)
  | received (f : Frame)
deriving DecidableEq, Repr

/-- `reverse_socket_data_t`, lines 117-159.  `hdr` is the part of `frame_hdr` that was read (`frame_hdr_read`
bytes), `hdrW` is `frame_hdr_written`, `last` is `last_allocated_channel`. -/
structure Sock where
  out : List QFrame
  tail : Tail
  hdrW : Nat
  hdr : List Nat
  inf : Inflight
  ch : Nat → Chan
  last : Nat
  log : List Eff

/-- A new `reverse_socket_t`, lines 161-173. -/
def Sock.fresh : Sock := ⟨[], .null, 0, [], .zero, fun _ => ⟨false, []⟩, 0, []⟩

/-- Change one channel. -/
def Sock.setCh (s : Sock) (c : Nat) (x : Chan) : Sock := { s with ch := fun i => if i = c then x else s.ch i }

/-- Add to the history. -/
def Sock.note (s : Sock) (e : Eff) : Sock := { s with log := s.log ++ [e] }

/-! ### Sending -/

/-- `append_out`, lines 243-274, and `append_out_no_lock`, lines 276-308. -/
def appendOut (s : Sock) (f : Frame) : Out Sock :=
  match s.tail with
  | .dangling => .ub
  | .last => .ok (Sock.note { s with out := s.out ++ [⟨f, 0⟩] } (.queued f))
  | .null => .ok (Sock.note { s with out := [⟨f, 0⟩], tail := .last } (.queued f))

/-- `command_out`, lines 310-319. -/
def commandOut (s : Sock) (c : Nat) (text : List Nat) : Out Sock := appendOut s ⟨c, true, text⟩

/-- The six bytes of a frame header, lines 924-927: `htons` of the channel with the command bit, `htonl` of the
length. -/
def header (f : Frame) : List Nat :=
  let id := f.c + (if f.cmd then 0x8000 else 0)
  let n := f.data.length
  [id / 256 % 256, id % 256, n / 2 ^ 24 % 256, n / 2 ^ 16 % 256, n / 2 ^ 8 % 256, n % 256]

/-- What a write to a descriptor returns: a number of bytes (at least one, at most what was offered),
`EAGAIN`, or failure. -/
inductive Wr | some (n : Nat) | again | fail
deriving DecidableEq, Repr

/-- The number of bytes written when `n` of `k` can be. -/
def clamp (n k : Nat) : Nat := max 1 (min n k)

/-- How a handler left its loop; `bad`: the header of a frame was not accepted. -/
inductive Stop | done | error | bad
deriving DecidableEq, Repr

/-- `pop_out`, lines 234-241. -/
def popOut (s : Sock) : Sock :=
  { s with out := s.out.drop 1, tail := if s.out.length = 1 ∧ s.tail = .last then .null else s.tail }

/-- Set the offset of the first outgoing frame. -/
def setOffset (s : Sock) (n : Nat) : Sock :=
  match s.out with
  | [] => s
  | q :: qs => { s with out := { q with offset := n } :: qs }

/-- `try_writes`, lines 917-963: the bytes written, and how the loop ended.  Each element of the list is the result
of one `eventer_write`; when it is used up, the result is `EAGAIN`.  `budget` is the number of frames still allowed
(`--writes_remaining`).  `fuel` bounds the number of rounds; `ws.length + budget + 1` is enough, because a round uses up a result or
is the last one of a frame. -/
def tryWritesF : (fuel : Nat) → (budget : Nat) → List Wr → Sock → Sock × List Nat × Stop
  | 0, _, _, s => (s, [], .done)
  | fuel + 1, budget, ws, s =>
    if budget = 0 then (s, [], .done)
    else match s.out with
    | [] => (s, [], .done)
    | q :: _ =>
      if s.hdrW < 6 then
        match ws with
        | [] => (s, [], .done)
        | .again :: _ => (s, [], .done)
        | .fail :: _ => (s, [], .error)
        | .some n :: ws =>
          let m := clamp n (6 - s.hdrW)
          let r := tryWritesF fuel budget ws { s with hdrW := s.hdrW + m }
          (r.1, ((header q.f).drop s.hdrW).take m ++ r.2.1, r.2.2)
      else if q.offset < q.f.data.length then
        match ws with
        | [] => (s, [], .done)
        | .again :: _ => (s, [], .done)
        | .fail :: _ => (s, [], .error)
        | .some n :: ws =>
          let m := clamp n (q.f.data.length - q.offset)
          let r := tryWritesF fuel budget ws (setOffset s (q.offset + m))
          (r.1, (q.f.data.drop q.offset).take m ++ r.2.1, r.2.2)
      else
        tryWritesF fuel (budget - 1) ws (popOut { s with hdrW := 0 })

/-- `tryWritesF` with enough fuel. -/
def tryWrites (budget : Nat) (ws : List Wr) (s : Sock) : Sock × List Nat × Stop := tryWritesF (ws.length + budget + 1) budget ws s

/-! ### Receiving -/

/-- What is there to read from a descriptor: bytes (a read gets as many of them as it asks for, the rest
stays; no bytes at all mean the end), nothing now, or an error. -/
inductive Rd | data (bs : List Nat) | again | fail
deriving DecidableEq, Repr

/-- The bytes that are there. -/
def avail : List Rd → List Nat
  | [] => []
  | .data bs :: r => bs ++ avail r
  | _ :: r => avail r

/-- What is left of a chunk after a read of `k` bytes. -/
def left (bs : List Nat) (k : Nat) (env : List Rd) : List Rd :=
  if bs.length ≤ k then env else .data (bs.drop k) :: env

/-- The size of what there is to read. -/
def size : List Rd → Nat
  | [] => 0
  | .data bs :: r => bs.length + 1 + size r
  | _ :: r => 1 + size r

/-- `ntohs` and `ntohl` of the header, lines 787-802. -/
def parse (h : List Nat) : Inflight :=
  let id := h.getD 0 0 * 256 + h.getD 1 0
  ⟨id % 0x8000, decide (0x8000 ≤ id), h.getD 2 0 * 2 ^ 24 + h.getD 3 0 * 2 ^ 16 + h.getD 4 0 * 2 ^ 8 + h.getD 5 0, [], .null⟩

/-- Forget the frame in flight. -/
def clearIn (s : Sock) : Sock := { s with inf := .zero, hdr := [] }

/-- The frame in flight, complete. -/
def Inflight.frame (i : Inflight) : Frame := ⟨i.c, i.cmd, i.filled⟩

/-- What to do next after a complete frame. -/
inductive Next | frame | counted
deriving DecidableEq, Repr

/-- A complete frame, lines 862-915.  `conn` says whether a connection to the local target could be made
(`mtev_support_connection`). `Next.counted` if the frame was handed to its channel (`append_in`, lines 194-232),
`Next.frame` if the loop goes on without counting it.  `channels` has `MAX_CHANNELS` elements. -/
def dispatch (conn : Nat → Bool) (s : Sock) : Out (Sock × Next) :=
  let f := s.inf.frame
  let c := f.c
  let s := s.note (.received f)
  if maxChannels ≤ c then .ub
  else if f.cmd = true ∧ f.data = bytesOf "CONNECT" ∧ (s.ch c).up = false ∧ conn c = true then
    .ok (clearIn ((s.setCh c ⟨true, (s.ch c).incoming⟩).note (.opened c)), .frame)
  else if (s.ch c).up = false then
    if f.cmd = true ∧ f.data = bytesOf "RESET" then .ok (clearIn s, .frame)
    else do
      let s ← commandOut s c (bytesOf "RESET")
      .ok (clearIn s, .frame)
  else
    .ok (clearIn (s.setCh c ⟨true, (s.ch c).incoming ++ [⟨f, 0⟩]⟩), .counted)

/-- The header is complete: the checks of lines 786-826.  `none`: protocol error. -/
def checkHeader (debug : Bool) (s : Sock) : Out (Option Sock) :=
  if s.inf.len = 0 then
    let i := { parse s.hdr with filled := s.inf.filled, buf := s.inf.buf }
    if debug = true ∧ maxChannels ≤ i.c then .ub
    else if i.len > maxFrame then .ok none
    else if maxChannels ≤ i.c then .ok none
    else .ok (some { s with inf := i })
  else .ok (some s)

/-- `incoming_inflight.buff` before a read into it, lines 831-833: allocated if it was `NULL`. -/
def bodyBuf (s : Sock) : Out Sock :=
  match s.inf.buf with
  | .freed => .ub
  | _ => .ok { s with inf := { s.inf with buf := .live } }

/-- The reading half of the handler, lines 767-915.  `budget` is `reads_remaining`.  `fuel` bounds the number of reads and
frames; `size env + 1` is enough (each round but those that end the loop reads a byte or has read a header). -/
def reads (debug : Bool) (conn : Nat → Bool) : (fuel : Nat) → (budget : Nat) → List Rd → Sock → Out (Sock × List Rd × Stop)
  | 0, _, env, s => .ok (s, env, .done)
  | fuel + 1, budget, env, s =>
    if s.hdr.length < 6 then
      match env with
      | [] => .ok (s, [], .done)
      | .again :: env => .ok (s, env, .done)
      | .fail :: env => .ok (s, env, .error)
      | .data [] :: env => .ok (s, env, .error)
      | .data bs :: env =>
        let k := 6 - s.hdr.length
        reads debug conn fuel budget (left bs k env) { s with hdr := s.hdr ++ bs.take k }
    else do
      match ← checkHeader debug s with
      | none => .ok (s, env, .bad)
      | some s =>
        if s.inf.filled.length < s.inf.len then do
          let s ← bodyBuf s
          match env with
          | [] => .ok (s, [], .done)
          | .again :: env => .ok (s, env, .done)
          | .fail :: env => .ok (s, env, .error)
          | .data [] :: env => .ok (s, env, .error)
          | .data bs :: env =>
            let k := s.inf.len - s.inf.filled.length
            reads debug conn fuel budget (left bs k env) { s with inf := { s.inf with filled := s.inf.filled ++ bs.take k } }
        else do
          let (s, n) ← dispatch conn s
          match n with
          | .frame => reads debug conn fuel budget env s
          | .counted => if budget - 1 = 0 then .ok (s, env, .done) else reads debug conn fuel (budget - 1) env s

/-! ### The end -/

/-- `mtev_reverse_socket_channel_shutdown`, lines 423-464, with the closing of the endpoint. -/
def closeCh (s : Sock) (c : Nat) : Sock := (s.setCh c ⟨false, []⟩).note (.closed c)

/-- Close the channels below `n` that are open. -/
def closeAll : Nat → Sock → Sock
  | 0, s => s
  | n + 1, s => let s := closeAll n s; if (s.ch n).up then closeCh s n else s

/-- `mtev_reverse_socket_shutdown`, lines 467-514.  The frames are freed, but `outgoing_tail`, the header counters and
`incoming_inflight` keep their values. -/
def shutdown (s : Sock) : Out Sock :=
  if s.inf.buf = .freed then .ub
  else .ok (closeAll maxChannels { s with
    inf := { s.inf with buf := if s.inf.buf = .live then .freed else .null }
    out := []
    tail := if s.tail = .last then .dangling else s.tail })

/-- A header that was not accepted stays in `incoming_inflight`, lines 790-802. -/
def keepBad (s : Sock) : Sock := { s with inf := { parse s.hdr with filled := s.inf.filled, buf := s.inf.buf } }

/-- `mtev_reverse_socket_handler`, lines 747-985: what was written, what remains to be read; `error` if the
connection was shut down. -/
def handler (debug : Bool) (conn : Nat → Bool) (env : List Rd) (ws : List Wr) (s : Sock) : Out (Sock × List Rd × List Nat × Stop) := do
  let (s, env, r) ← reads debug conn (2 * size env + 2) 500 env s
  match r with
  | .error => do
    let s ← shutdown s
    .ok (s, env, [], .error)
  | .bad => do
    let s ← shutdown (keepBad s)
    .ok (s, env, [], .error)
  | .done =>
    let (s, w, r) := tryWrites 499 ws s
    match r with
    | .done => .ok (s, env, w, .done)
    | _ => do
      let s ← shutdown s
      .ok (s, env, w, .error)

/-! ### Channels -/

/-- How the writing to an endpoint went: wait (with or without progress), close the channel (`snip`), or tell the
peer and close (`shutdown`). -/
inductive Verdict | go (progress : Bool) | snip | bye
deriving DecidableEq, Repr

/-- The inner loop of `mtev_reverse_socket_channel_handler`, lines 583-649: write queued frames to the endpoint. -/
def chWrites (c : Nat) (ws : List Wr) (s : Sock) : Sock × List Wr × Verdict :=
  match (s.ch c).incoming with
  | [] => (s, ws, .go false)
  | q :: qs =>
    if q.f.cmd then
      if q.f.data = bytesOf "RESET" ∨ q.f.data = bytesOf "CLOSE" then (s, ws, .snip) else (s, ws, .bye)
    else if q.f.data.length = 0 then (s, ws, .bye)
    else
      match ws with
      | [] => (s, [], .go false)
      | .again :: ws => (s, ws, .go false)
      | .fail :: ws => (s, ws, .bye)
      | .some n :: ws =>
        let m := clamp n (q.f.data.length - q.offset)
        let bs := (q.f.data.drop q.offset).take m
        let q' : QFrame := { q with offset := q.offset + m }
        let s := (s.setCh c ⟨true, if q'.offset = q.f.data.length then qs else q' :: qs⟩).note (.gave c bs)
        let r := chWrites c ws s
        (r.1, r.2.1, match r.2.2 with | .go _ => .go true | v => v)
termination_by structural ws

/-- `shutdown:` and `snip:`, lines 552-574. -/
def endCh (c : Nat) (tell : Bool) (s : Sock) : Out Sock := do
  let s ← if tell then commandOut s c (bytesOf "SHUTDOWN") else .ok s
  .ok (closeCh s c)

/-- `mtev_reverse_socket_channel_handler`, lines 517-688, for an event of an open channel without exception: write what the peer
sent, read what the endpoint has, again while there is progress. -/
def channel (c : Nat) : (fuel : Nat) → List Wr → List Rd → Sock → Out Sock
  | 0, _, _, s => .ok s
  | fuel + 1, ws, rs, s =>
    let (s, ws, v) := chWrites c ws s
    match v with
    | .snip => endCh c false s
    | .bye => endCh c true s
    | .go p =>
      match rs with
      | [] => if p then channel c fuel ws [] s else .ok s
      | .again :: rs => if p then channel c fuel ws rs s else .ok s
      | .fail :: _ => endCh c true s
      | .data [] :: _ => endCh c true s
      | .data bs :: rs => do
        let d := bs.take maxFrame
        let s ← appendOut (s.note (.took c d)) ⟨c, false, d⟩
        channel c fuel ws (left bs maxFrame rs) s

/-- One event of a channel; the fuel is enough (each round but the last uses up an element of a list or reads). -/
def channelEv (c : Nat) (ws : List Wr) (rs : List Rd) (s : Sock) : Out Sock := channel c (ws.length + size rs + 1) ws rs s

/-- The search of `mtev_reverse_socket_connect`, lines 1251-1254: the first free channel after the last one used. -/
def pick (s : Sock) : Option Nat :=
  ((List.range maxChannels).map (fun i => (s.last + i + 1) % maxChannels)).find? (fun c => !(s.ch c).up)

/-- `mtev_reverse_socket_connect`, lines 1242-1312: open a channel for a new endpoint and tell the peer.  `pair` says whether
the endpoint could be made.  The channel, if one was opened. -/
def connect (pair : Bool) (s : Sock) : Out (Sock × Option Nat) :=
  match pick s with
  | none => .ok (s, none)
  | some c =>
    let s := { s with last := c }
    if pair then do
      let s ← appendOut ((s.setCh c ⟨true, (s.ch c).incoming⟩).note (.opened c)) ⟨c, true, bytesOf "CONNECT"⟩
      .ok (s, some c)
    else .ok (s, none)

/-- The client connects again after a connection was lost: `mtev_reverse_client_handler`, lines 1919-2041, goes on with the same
`reverse_socket_t`. -/
def reconnect (s : Sock) : Sock := s

end Mtev.Rev
