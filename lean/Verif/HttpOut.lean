import Verif.Mem
import Verif.HttpIn

/-!
Model of the sending of HTTP/1 response bodies: `mtev_http_response_append`,
`mtev_http_response_append_bchain` (/repo/src/mtev_http.c:287-359),
`mtev_http_process_output_bchain`, `mtev_http_encode_output_raw`
(/repo/src/mtev_http_private.h:202-269, 346-400), `mtev_http1_response_flush` and `_http_perform_write`
(/repo/src/mtev_http1.c:2052-2111, 514-590), and the choice of transfer encoding in
`_http_construct_leader` (mtev_http1.c:2017-2029).

The client accepts no compression.  Buffers are of type `BCHAIN_INLINE`.  The text of the status line
and headers is a parameter.  The calls are made by one thread.
-/

namespace Mtev.HttpOut

open HttpIn (BC defSize)

/-- What one `eventer_write` does: would block (also: the write budget of line 552 is used up), takes at
most `n + 1` bytes (also: `max_write`, line 550), or fails. -/
inductive Wr
  | again
  | some (n : Nat)
  | err
deriving DecidableEq, Repr

/-- The response. -/
structure R where
  hasCL : Bool             -- a Content-Length header is set
  canChunk : Bool          -- HTTP/1.1 and the client accepts chunked
  canClose : Bool          -- the request allows MTEV_HTTP_CLOSE
  trigger : Nat            -- output_float_trigger
  leader : List (List Nat) -- what _http_construct_leader produces, one element per buffer
  chunked : Bool           -- output_options
  close : Bool
  started : Bool           -- output_started
  closed : Bool
  inError : Bool
  complete : Bool
  output : List BC         -- output .. output_last
  pend : List (List Nat)   -- the rest of leader, then output_raw
  off : Nat                -- output_raw_offset
  wire : List Nat          -- ghost: everything written to the connection
deriving DecidableEq, Repr

/-! ### Encoding one buffer -/

/-- Lines 228-231 of mtev_http_private.h: number of hexadecimal digits (fuel: a length below 2^31 has at
most eight). -/
def hexLen : Nat → Nat → Nat
  | 0, _ => 0
  | f + 1, n => if n = 0 then 0 else 1 + hexLen f (n / 16)

/-- `_hexchars`, line 126. -/
def hexChar (v : Nat) : Nat := (bytesOf "0123456789abcdef").getD v 0

/-- Lines 258-262: digits are stored from the last to the first. -/
def backfill : Nat → Nat → Block → Out Block
  | 0, _, b => .ok b
  | h + 1, n, b => do
    let b ← b.write h [hexChar (n % 16)]
    backfill h (n / 16) b

/-- Lines 263-266 (fuel: the length of the buffer). -/
def strip : Nat → Block → Nat → Nat → Out (Nat × Nat)
  | 0, _, _, _ => .ub
  | f + 1, b, start, size => do
    let c ← b.read start 1
    if c = [48] then strip f b (start + 1) (size - 1) else pure (start, size)

/-- `mtev_http_process_output_bchain` without compression, lines 202-269: the bytes of the new buffer,
`[]` for the empty buffer of line 244.  A size of 2^31 or more is negative as an `int`, and the loop of
line 230 then never ends (`abort`). -/
def encode (junk : Nat → Nat) (chunked : Bool) (data : List Nat) : Out (List Nat) := do
  if data.length ≥ 2 ^ 31 then .abort
  else
    let h0 := hexLen 9 data.length
    let hexlen := if h0 = 0 then 1 else h0
    let b := malloc junk (hexlen + 4 + data.length)
    let start := if chunked then hexlen + 2 else 0
    if data = [] then pure []
    else
      let b ← b.write start data
      if chunked then
        if start + data.length + 2 ≤ hexlen + 4 + data.length then
          let b ← b.write (start + data.length) [13]
          let b ← b.write (start + data.length + 1) [10]
          let b ← b.write hexlen [13]
          let b ← b.write (hexlen + 1) [10]
          let b ← backfill hexlen data.length b
          let (st, sz) ← strip (b.length + 1) b 0 (data.length + 2 + 2 + hexlen)
          b.read st sz
        else .abort
      else b.read start data.length

/-- `mtev_http_encode_output_raw`, lines 346-400: empty results are not linked. -/
def encodeAll (junk : Nat → Nat) (chunked : Bool) : List BC → Out (List (List Nat))
  | [] => .ok []
  | o :: r => do
    let n ← encode junk chunked o.data
    let rest ← encodeAll junk chunked r
    pure (if n = [] then rest else n :: rest)

/-! ### Writing -/

/-- Lines 535-547 of mtev_http1.c: buffers written in full are freed. -/
def popDone : List (List Nat) → Nat → List (List Nat) × Nat
  | [], _ => ([], 0)
  | b :: r, off => if off ≥ b.length then popDone r 0 else (b :: r, off)

/-- `_http_perform_write`, lines 514-590.  The headers and the body are separate chains in the code; the
second is used when the first is empty. -/
def performWrite : List Wr → R → R
  | evs, r =>
    if r.inError then r
    else
      match popDone r.pend r.off with
      | ([], off) => { r with pend := [], off := off, complete := r.complete || r.closed }
      | (b :: rest, off) =>
        match evs with
        | [] => { r with pend := b :: rest, off := off }
        | .again :: _ => { r with pend := b :: rest, off := off }
        | .err :: _ => { r with pend := b :: rest, off := off, complete := true, inError := true }
        | .some n :: evs =>
          let k := min (n + 1) (b.length - off)
          performWrite evs { r with pend := b :: rest, off := off + k, wire := r.wire ++ (b.drop off).take k }

/-- Lines 2017-2029: without a content length one of the two other ways to end the body is chosen. -/
def choose (r : R) : R :=
  if r.hasCL ∨ r.chunked ∨ r.close then r
  else if r.canChunk then { r with chunked := true }
  else if r.canClose then { r with close := true }
  else r

/-- `mtev_http1_response_flush`, lines 2052-2111. -/
def flush (junk : Nat → Nat) (final : Bool) (evs : List Wr) (r : R) : Out R := do
  if r.closed then pure r
  else
    let r := if r.started then r else
      let r := choose r
      { r with started := true, pend := r.leader ++ r.pend }
    let raw ← encodeAll junk r.chunked r.output
    let r := { r with pend := r.pend ++ raw, output := [] }
    let r := if final then
        { r with closed := true, pend := r.pend ++ (if r.chunked then [bytesOf "0\r\n\r\n"] else []) }
      else r
    pure (performWrite evs r)

/-! ### Appending -/

/-- Lines 305-320 of mtev_http.c: `bs` into the buffer `t` and successors (fuel: the number of bytes; every
round copies at least one). -/
def fill : Nat → BC → List Nat → Out (List BC)
  | 0, t, bs => if bs = [] then .ok [t] else .abort
  | f + 1, t, bs => do
    if bs = [] then pure [t]
    else
      let full := t.allocd = t.start + t.data.length
      let o := if full then (⟨defSize, 0, []⟩ : BC) else t
      if o.allocd > o.start + o.data.length then
        let k := min bs.length (o.allocd - o.start - o.data.length)
        let r ← fill f { o with data := o.data ++ bs.take k } (bs.drop k)
        pure (if full then t :: r else r)
      else .abort

/-- The bytes waiting to be encoded, `output_chain_bytes`. -/
def buffered (r : R) : Nat := (r.output.flatMap BC.data).length

/-- Lines 322 and 353. -/
def limit (r : R) : Nat := if r.trigger = 0 then defSize else r.trigger

/-- Appending is refused, lines 295-298 and 336-339. -/
def refused (r : R) : Bool := r.inError || r.closed || (r.started && !(r.close || r.chunked))

/-- Lines 322-323: flush when much is waiting. -/
def autoFlush (junk : Nat → Nat) (evs : List Wr) (r : R) : Out R :=
  if buffered r > limit r then flush junk false evs r else .ok r

/-- Lines 299-303: the buffers before the last, and the last, made if there is none. -/
def lastOutput (l : List BC) : List BC × BC :=
  match l.getLast? with
  | none => ([], ⟨defSize, 0, []⟩)
  | some t => (l.dropLast, t)

/-- `mtev_http_response_append`, lines 287-328.  The offset into the data is an `int` (line 291). -/
def append (junk : Nat → Nat) (bs : List Nat) (evs : List Wr) (r : R) : Out (R × Bool) := do
  if refused r then pure (r, false)
  else if bs.length ≥ 2 ^ 31 then .ub
  else
    let (pre, t) := lastOutput r.output
    let l ← fill bs.length t bs
    let r ← autoFlush junk evs { r with output := pre ++ l }
    pure (r, true)

/-- Line 346: the last buffer is marked as full. -/
def markFull : List BC → List BC
  | [] => []
  | [t] => [{ t with allocd := t.data.length }]
  | b :: r => b :: markFull r

/-- `mtev_http_response_append_bchain`, lines 329-359. -/
def appendChain (junk : Nat → Nat) (b : BC) (evs : List Wr) (r : R) : Out (R × Bool) := do
  if refused r then pure (r, false)
  else
    let r ← autoFlush junk evs { r with output := markFull r.output ++ [b] }
    pure (r, true)

/-- What the application and the event loop do; `setChunked` and `setClose` are
`mtev_http1_response_option_set`, mtev_http1.c:1907-1942. -/
inductive Op
  | append (bs : List Nat) (evs : List Wr)
  | appendChain (b : BC) (evs : List Wr)
  | flush (final : Bool) (evs : List Wr)
  | drive (evs : List Wr)      -- the event loop calls `_http_perform_write`
  | setChunked
  | setClose
deriving DecidableEq, Repr

/-- One step; the bytes accepted from the application are recorded. -/
def step (junk : Nat → Nat) (op : Op) (r : R) : Out (R × List Nat) := do
  match op with
  | .append bs evs =>
    let (r, ok) ← append junk bs evs r
    pure (r, if ok then bs else [])
  | .appendChain b evs =>
    let (r, ok) ← appendChain junk b evs r
    pure (r, if ok then b.data else [])
  | .flush final evs =>
    let r ← flush junk final evs r
    pure (r, [])
  | .drive evs => pure (performWrite evs r, [])
  | .setChunked => pure (if r.started || !r.canChunk then r else { r with chunked := true }, [])
  | .setClose => pure (if r.started || !r.canClose then r else { r with close := true }, [])

/-- A sequence of steps. -/
def run (junk : Nat → Nat) : List Op → R → Out (R × List Nat)
  | [], r => .ok (r, [])
  | op :: ops, r => do
    let (r, a) ← step junk op r
    let (r, b) ← run junk ops r
    pure (r, a ++ b)

/-- A new response. -/
def fresh (hasCL canChunk canClose : Bool) (trigger : Nat) (leader : List (List Nat)) : R :=
  ⟨hasCL, canChunk, canClose, trigger, leader, false, false, false, false, false, false, [], [], 0, []⟩

end Mtev.HttpOut
