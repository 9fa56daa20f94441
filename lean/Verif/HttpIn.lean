import Verif.Mem
import Mathlib.Tactic.ClearExcept

/-!
Model of the delivery of HTTP/1 request bodies, /repo/src/mtev_http1.c:1035-1467:
`mtev_http1_session_req_consume_read` and `mtev_http1_session_req_consume`, for requests whose
payload is not compressed.

The peer's bytes that have not been read yet are part of the state (`sock`); every `eventer_read`
takes its result from a list of read events, so a list of read events is a way of splitting the
stream over reads.  The asynchronous mode (`mtev_http1_session_aco`, lines 1166-1171) changes
nothing here: when it applies the loop has already been left at line 1058.
-/

namespace Mtev.HttpIn

/-- `struct bchain`, mtev_http_private.h:90-100: the allocation, where the data starts, and the
data (`size` is its length). -/
structure BC where
  allocd : Nat
  start : Nat
  data : List Nat
deriving DecidableEq, Repr

/-- `DEFAULT_BCHAINSIZE`, mtev_http_private.h:103; `_buff` is at offset 64. -/
def defSize : Nat := 32704

/-- What one `eventer_read` does: would block, returns at most `n + 1` bytes, sees the end of the
stream, or fails. -/
inductive Rd
  | again
  | data (n : Nat)
  | eof
  | err
deriving DecidableEq, Repr

/-- The result of a read. -/
inductive RdRes
  | again
  | eof
  | err
  | got (bs rest : List Nat)

/-- `eventer_read` of at most `cap` bytes.  The end of the stream is seen only after all its bytes;
a read into no space returns 0. -/
def doRead (r : Rd) (cap : Nat) (sock : List Nat) : RdRes :=
  match r with
  | .again => .again
  | .err => .err
  | .eof => if sock = [] then .eof else .again
  | .data n =>
    if cap = 0 then .eof
    else if sock = [] then .again
    else .got (sock.take (min (n + 1) cap)) (sock.drop (min (n + 1) cap))

/-- The parts of the request and connection used here. -/
structure S where
  inp : List BC            -- first_input .. last_input
  sock : List Nat
  user : List (List Nat)   -- user_data .. user_data_last, each element's data
  lastChunk : Bool         -- read_last_chunk
  complete : Bool          -- payload_complete
  cl : Nat                 -- content_length
  clr : Nat                -- content_length_read
deriving DecidableEq, Repr

/-! ### Chunk headers -/

/-- `mtev_memmem(.., "\r\n", 2)`, line 1089. -/
def findCRLF : List Nat → Option Nat
  | [] => none
  | c :: r => if c = 13 ∧ r.head? = some 10 then some 0 else (findCRLF r).map (· + 1)

/-- Lines 1095-1097. -/
def hexDigit (c : Nat) : Option Nat :=
  if 48 ≤ c ∧ c ≤ 57 then some (c - 48)
  else if 97 ≤ c ∧ c ≤ 102 then some (c - 97 + 10)
  else if 65 ≤ c ∧ c ≤ 70 then some (c - 65 + 10)
  else none

/-- Lines 1094-1136: the chunk length (an `unsigned int`) and the number of bytes before CR LF;
`none` is the encoding error of line 1134. -/
def scanLen : List Nat → Nat → Nat → Option (Nat × Nat)
  | [], _, _ => none
  | c :: r, clen, i =>
    match hexDigit c with
    | some d => scanLen r ((clen * 16 + d) % 2 ^ 32) (i + 1)
    | none => if c = 13 ∧ r.head? = some 10 then some (clen, i) else none

/-- Lines 1063-1087: room for a chunk header, made by moving the data to the front or by a new
buffer; the assertion of line 1087 is the `abort`. -/
def prep (b : BC) : Out BC :=
  if b.allocd - b.start < 20 then
    if b.allocd ≥ 20 then .ok ⟨b.allocd, 0, b.data⟩
    else if b.data.length > defSize then .ub
    else if defSize ≥ 20 then .ok ⟨defSize, 0, b.data⟩ else .abort
  else .ok b

/-- `clen + (unsigned int)(cp - cp_begin + 2 + 2)`, line 1100. -/
def needed (clen hl : Nat) : Nat := (clen + (hl + 4)) % 2 ^ 32

/-- Conversion of an `unsigned int` to `int`, line 1102. -/
def toInt32 (x : Nat) : Int := if x < 2 ^ 31 then (x : Int) else (x : Int) - 2 ^ 32

/-- What the inspection of the first buffer leads to. -/
inductive Hdr
  | bad
  | have (n : Int) (inp : List BC)
  | more (inp : List BC)
deriving DecidableEq, Repr

/-- Lines 1047-1050: the first input buffer, made if there is none, and the others. -/
def firstInput : List BC → BC × List BC
  | [] => (⟨defSize, 0, []⟩, [])
  | b :: r => (b, r)

/-- Lines 1047-1050 and 1061-1142.  Line 1116 replaces the only buffer: a successor exists only behind
a buffer that is full and has no CR LF, and such a buffer never gets here. -/
def header (inp : List BC) : Out Hdr := do
  let (head, rest) := firstInput inp
  let head ← prep head
  match findCRLF head.data with
  | none => pure (.more (head :: rest))
  | some _ =>
    match scanLen head.data 0 0 with
    | none => pure .bad
    | some (clen, hl) =>
      if head.data.length ≥ needed clen hl then
        pure (.have (toInt32 clen) (⟨head.allocd, head.start + (hl + 2), head.data.drop (hl + 2)⟩ :: rest))
      else if head.allocd - head.start < needed clen hl then
        if head.data.length > max (needed clen hl) defSize then .ub
        else pure (.more [⟨max (needed clen hl) defSize, 0, head.data⟩])
      else pure (.more (head :: rest))

/-- Lines 1144-1163: a full last buffer gets a successor. -/
def expand (inp : List BC) : List BC :=
  match inp.getLast? with
  | none => [⟨defSize, 0, []⟩]
  | some t => if t.start + t.data.length ≥ t.allocd then inp ++ [⟨defSize, 0, []⟩] else inp

/-- Room in the last buffer, line 1174. -/
def room (inp : List BC) : Nat :=
  match inp.getLast? with
  | none => 0
  | some t => t.allocd - t.data.length - t.start

/-- Line 1201. -/
def addTail : List BC → List Nat → List BC
  | [], _ => []
  | [t], bs => [{ t with data := t.data ++ bs }]
  | b :: r, bs => b :: addTail r bs

/-- Lines 1260-1266. -/
def dropEmpty : List BC → List BC
  | [] => []
  | b :: r => if b.data = [] then r else b :: r

/-- Lines 1207-1268 for a chunked payload. -/
def finish (s : S) (n : Int) : Out (S × Int) :=
  match s.inp with
  | [] => .ok (s, -1)
  | head :: rest =>
    if n > 0 then
      let k := min head.data.length n.toNat
      let s := { s with user := s.user ++ [head.data.take k] }
      let d := head.data.drop k
      if d.length < 2 then .ok ({ s with inp := ⟨head.allocd, head.start + k, d⟩ :: rest }, -2)
      else if d.take 2 ≠ [13, 10] then .ok ({ s with inp := ⟨head.allocd, head.start + k, d⟩ :: rest }, -2)
      else .ok ({ s with inp := dropEmpty (⟨head.allocd, head.start + k + 2, d.drop 2⟩ :: rest) }, n)
    else if n = 0 then
      if head.data.length < 2 then .ub
      else .ok ({ s with inp := dropEmpty (⟨head.allocd, head.start + 2, head.data.drop 2⟩ :: rest), complete := true }, 0)
    else .ok ({ s with inp := dropEmpty (head :: rest) }, n)

/-- `mtev_http1_session_req_consume_read` for a chunked payload, lines 1036-1269.  When the list of
read events is used up the connection would block.  Returns the state, the result and the events not
used. -/
def consumeRead : List Rd → S → Out (S × Int × List Rd)
  | rds, s => do
    match ← header s.inp with
    | .bad => pure (s, -2, rds)
    | .have n inp =>
      let (s, n) ← finish { s with inp := inp } n
      pure (s, n, rds)
    | .more inp =>
      let inp := expand inp
      match rds with
      | [] => pure ({ s with inp := inp }, -1, [])
      | r :: rds =>
        match doRead r (room inp) s.sock with
        | .again => pure ({ s with inp := inp }, -1, rds)
        | .eof => pure ({ s with inp := inp }, -2, rds)
        | .err => pure ({ s with inp := inp }, -2, rds)
        | .got bs rest => consumeRead rds { s with inp := addTail inp bs, sock := rest }

/-! ### Bodies of known length -/

/-- Lines 1207-1236 and 1260-1268 for a payload that is not chunked. -/
def finishCL (s : S) (n : Nat) : Out (S × Int) :=
  match s.inp with
  | [] => .ok (s, -1)
  | head :: rest =>
    if n > 0 then
      let k := min (min head.data.length n) (s.cl - s.clr)
      .ok ({ s with user := s.user ++ [head.data.take k],
                    inp := dropEmpty (⟨head.allocd, head.start + k, head.data.drop k⟩ :: rest) }, (n : Int))
    else .ok ({ s with inp := dropEmpty (head :: rest) }, 0)

/-- `mtev_http1_session_req_consume_read` for a payload that is not chunked, lines 1036-1269; `next`
is `next_chunk`. -/
def consumeReadCL : List Rd → Nat → S → Out (S × Int × List Rd)
  | rds, next, s => do
    let (head, rest) := firstInput s.inp
    if head.data.length = head.allocd ∨ (s.cl ≠ 0 ∧ s.cl - s.clr > 0 ∧ head.data.length > 0) then
      let (s, n) ← finishCL { s with inp := head :: rest } head.data.length
      pure (s, n, rds)
    else
      let inp := expand (head :: rest)
      match rds with
      | [] =>
        if head.data.length > 0 then do
          let (s, n) ← finishCL { s with inp := inp } next
          pure (s, n, [])
        else pure ({ s with inp := inp }, -1, [])
      | r :: rds =>
        match doRead r (room inp) s.sock with
        | .again =>
          if head.data.length > 0 then do
            let (s, n) ← finishCL { s with inp := inp } next
            pure (s, n, rds)
          else pure ({ s with inp := inp }, -1, rds)
        | .eof =>
          if next > 0 then do
            let (s, n) ← finishCL { s with inp := inp } next
            pure (s, n, rds)
          else pure ({ s with inp := inp }, -2, rds)
        | .err => pure ({ s with inp := inp }, -2, rds)
        | .got bs rest => consumeReadCL rds (next + bs.length) { s with inp := addTail inp bs, sock := rest }

/-! ### Handing the body to the application -/

/-- What `mtev_http1_session_req_consume` returns: bytes (a positive count), the end of the body (0),
or −1 with `errno`. -/
inductive Ret
  | bytes (bs : List Nat)
  | done
  | again
  | fail
deriving DecidableEq, Repr

/-- The inner loop, lines 1384-1459: up to `n` bytes from the chain. -/
def takeUser : List (List Nat) → Nat → List Nat × List (List Nat)
  | [], _ => ([], [])
  | b :: r, n =>
    if n = 0 then ([], b :: r)
    else if b.length ≤ n then
      let (x, y) := takeUser r (n - b.length)
      (b ++ x, y)
    else (b.take n, b.drop n :: r)

/-- Lines 1354-1466 after the read; `fin` says that everything has been read.  (Elements of the chain
are never empty.)  Asking for no bytes returns 0. -/
def deliver (s : S) (fin : Bool) (len : Nat) : S × Ret :=
  if len = 0 then (s, .done)
  else
    match s.user with
    | [] => if fin then ({ s with complete := true }, .done) else (s, .again)
    | u => ({ s with user := (takeUser u len).2 }, .bytes (takeUser u len).1)

/-- `mtev_http1_session_req_consume` for a chunked payload, lines 1309-1334 and 1354-1466. -/
def consumeChunked (len : Nat) (rds : List Rd) (s : S) : Out (S × Ret × List Rd) := do
  if s.lastChunk then
    let (s, r) := deliver s true len
    pure (s, r, rds)
  else
    let (s, n, rds) ← consumeRead rds s
    if n = 0 then
      let (s, r) := deliver { s with lastChunk := true, cl := s.clr } true len
      pure (s, r, rds)
    else if n < 0 then pure (s, if n = -2 then .fail else .again, rds)
    else
      let (s, r) := deliver { s with clr := s.clr + n.toNat } false len
      pure (s, r, rds)

/-- `mtev_http1_session_req_consume` for a payload of known length, lines 1335-1466. -/
def consumeLen (len : Nat) (rds : List Rd) (s : S) : Out (S × Ret × List Rd) := do
  if s.clr < s.cl then
    let (s, n, rds) ← consumeReadCL rds 0 s
    if n = -2 then pure (s, .fail, rds)
    else
      let s := if n ≥ 0 then { s with clr := if s.clr + n.toNat > s.cl then s.cl else s.clr + n.toNat } else s
      let (s, r) := deliver s (s.clr = s.cl) len
      pure (s, r, rds)
  else if s.user = [] then pure ({ s with complete := true }, .done, rds)
  else
    let (s, r) := deliver { s with complete := true } (s.clr = s.cl) len
    pure (s, r, rds)

/-- A sequence of calls: how many bytes are asked for, and the read events during the call. -/
def run (f : Nat → List Rd → S → Out (S × Ret × List Rd)) : List (Nat × List Rd) → S → Out (S × List Ret)
  | [], s => .ok (s, [])
  | (len, rds) :: cs, s => do
    let (s, r, _) ← f len rds s
    let (s, rs) ← run f cs s
    pure (s, r :: rs)

end Mtev.HttpIn
