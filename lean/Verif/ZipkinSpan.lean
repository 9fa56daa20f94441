import Verif.Basic
import Mathlib.Data.Nat.Digits.Defs

/-!
# Spans of distributed traces: identities, times, headers

`src/utils/mtev_zipkin.c`: making spans, the times of annotations, identities in HTTP headers; `src/mtev_http.c`: how a server takes
them up.
-/

namespace Mtev.ZipkinSpan

/-- bytes -/
abbrev Str := List Nat

/-! ## New spans -/

/-- probability 1 (mtev_zipkin.c:76-78): probabilities and the values of `drand48` are multiples of 2^-48 -/
def one : Nat := 2 ^ 48

/-- `ze_new_trace_probability`, `ze_parented_trace_probability`, `ze_debug_trace_probability` (mtev_zipkin.c:76-78) -/
structure Sampling where
  fresh : Nat
  parented : Nat
  debug : Nat

/-- what identifies a span (mtev_zipkin_encode.h:93-99) -/
structure Ids where
  trace : Int
  parent : Option Int
  id : Int
  debug : Option Bool
deriving DecidableEq, Repr

/-- `ze_get_traceid` (mtev_zipkin_encode.h:370-379) of a random 64 bit number -/
def traceid (r : Int) : Int := if r < 0 then -r - 1 else r

/-- `p != 1.0 && drand48() > p` -/
def unlucky (p draw : Nat) : Bool := p ≠ one && draw > p

/-- `mtev_zipkin_span_new` (mtev_zipkin.c:147-209).  `draw` are the random numbers for the three decisions, `rand` those for the
identities. -/
def spanNew (P : Sampling) (draw : Nat → Nat) (rand : Nat → Int) (trace parent span : Option Int) (debug : Option Bool) (force : Bool) :
    Option Ids :=
  let dbg := !force && debug == some true
  if dbg && unlucky P.debug (draw 0) then none
  else
    let force := force || dbg
    match trace with
    | none =>
      if !force && unlucky P.fresh (draw 1) then none
      else some ⟨traceid (rand 0), none, traceid (rand 0), debug⟩
    | some t =>
      match parent, span with
      | none, none => some ⟨t, none, t, debug⟩
      | none, some s => some ⟨t, none, s, debug⟩
      | some p, s =>
        if !force && unlucky P.parented (draw 2) then none
        else some ⟨t, some p, s.getD (traceid (rand 1)), debug⟩

/-- `mtev_zipkin_new_child` (mtev_zipkin.c:597-600), and the same call in `mtev_zipkin_client_new` (585-587) -/
def newChild (P : Sampling) (draw : Nat → Nat) (rand : Nat → Int) (s : Ids) : Option Ids :=
  spanNew P draw rand (some s.trace) (some s.id) none s.debug false

/-! ## Times -/

/-- `timestamp` and `duration` of a span -/
structure Times where
  timestamp : Int
  duration : Int
deriving DecidableEq, Repr

/-- `mtev_zipkin_span_annotate`, what it does to the times of the span (mtev_zipkin.c:323-330) -/
def annotate (s : Times) (t : Int) : Times :=
  let s := if s.timestamp = 0 ∨ t < s.timestamp then { s with timestamp := t } else s
  if s.timestamp ≠ 0 ∧ t > s.timestamp then
    if t - s.timestamp > s.duration then { s with duration := t - s.timestamp } else s
  else s

/-! ## Headers -/

/-- `isspace` -/
def isSpace (c : Nat) : Bool := c = 32 || (9 ≤ c && c ≤ 13)

/-- the value of a hexadecimal digit -/
def hexVal (c : Nat) : Option Nat :=
  if 48 ≤ c ∧ c ≤ 57 then some (c - 48)
  else if 97 ≤ c ∧ c ≤ 102 then some (c - 87)
  else if 65 ≤ c ∧ c ≤ 70 then some (c - 55)
  else none

def isHex (c : Nat) : Bool := (hexVal c).isSome

/-- the number digits stand for -/
def value (ds : Str) : Nat := ds.foldl (fun a c => a * 16 + (hexVal c).getD 0) 0

/-- an optional sign -/
def sign : Str → Bool × Str
  | 45 :: r => (true, r)
  | 43 :: r => (false, r)
  | s => (false, s)

/-- `0x` before a digit -/
def prefix0x : Str → Str
  | 48 :: x :: d :: r => if (x = 120 ∨ x = 88) ∧ isHex d = true then d :: r else 48 :: x :: d :: r
  | s => s

/-- `strtoull(s, &end, 16)`: the number and what `end` points to (C library) -/
def strtoull16 (s : Str) : Nat × Str :=
  let (neg, t) := sign (s.dropWhile isSpace)
  let t := prefix0x t
  let ds := t.takeWhile isHex
  if ds = [] then (0, s)
  else
    (if value ds ≥ 2 ^ 64 then 2 ^ 64 - 1 else if neg then (2 ^ 64 - value ds) % 2 ^ 64 else value ds, t.dropWhile isHex)

/-- `*((int64_t *)&out)` -/
def toI64 (n : Nat) : Int := if n < 2 ^ 63 then n else (n : Int) - 2 ^ 64

/-- `if(in[0] == '0' && (in[1] == 'x' || in[1] == 'X')) in += 2;` (mtev_zipkin.c:470) -/
def skip0x : Str → Str
  | 48 :: x :: r => if x = 120 ∨ x = 88 then r else 48 :: x :: r
  | s => s

/-- `mtev_zipkin_str_to_id` (mtev_zipkin.c:463-476) -/
def strToId (orig : Str) : Option Int :=
  let s := skip0x (orig.dropWhile isSpace)
  if s = [] then none
  else
    let (v, rest) := strtoull16 s
    match rest with
    | [] => some (toI64 v)
    | c :: _ => if isSpace c then some (toI64 v) else none

/-- a hexadecimal digit, lower case -/
def hexChar (d : Nat) : Nat := if d < 10 then 48 + d else 87 + d

/-- `%PRIx64` of an identity -/
def hex (id : Int) : Str :=
  let n := (id % 2 ^ 64).toNat
  if n = 0 then [48] else (Nat.digits 16 n).reverse.map hexChar

/-- `"...: 0x%" PRIx64`, the value part (mtev_zipkin.c:549-574) -/
def hdrValue (id : Int) : Str := [48, 120] ++ hex id

/-- the headers a client sends for its span (mtev_zipkin_curl.h:45-58): trace, parent, span, sampled -/
structure Hdrs where
  trace : Option Str
  parent : Option Str
  span : Option Str
  sampled : Bool

/-- `mtev_zipkin_client_trace_hdr`, `..._parent_hdr`, `..._span_hdr`, `..._sampled_hdr` (mtev_zipkin.c:541-574), the buffers being
large enough -/
def clientHdrs (s : Ids) : Hdrs :=
  ⟨some (hdrValue s.trace), s.parent.map hdrValue, some (hdrValue s.id), s.debug == some true⟩

/-- `mtev_http_begin_span` (mtev_http.c:496-516): the identities of the server's span.  The header `X-B3-Sampled` is either `1` or
absent. -/
def beginSpan (P : Sampling) (draw : Nat → Nat) (rand : Nat → Int) (h : Hdrs) : Option Ids :=
  spanNew P draw rand (h.trace.bind strToId) (h.parent.bind strToId) (h.span.bind strToId) (if h.sampled then some true else none) false

end Mtev.ZipkinSpan
