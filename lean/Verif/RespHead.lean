import Verif.Mem
import Verif.HttpIn

/-!
# Model of the head of an HTTP/1 response

`mtev_http1_response_status_set`, `_header_set`, `_option_set` (/repo/src/mtev_http1.c:1874-1943),
`_http_construct_leader` (1946-2049) and the options of the request (722-735).

The headers are a map; the order in which `mtev_hash_adv` and then `qsort` with `strcasecmp` put the
names (lines 2010-2032) is a parameter `order`, any permutation.  Strings are C strings (no NUL).
The response has not been freed (`check_realloc_response` does nothing) and memory can be allocated.
-/

namespace Mtev.RespHead
open HttpIn (defSize)

/-- A set of `MTEV_HTTP_CHUNKED`, `_CLOSE`, `_GZIP`, `_DEFLATE`, `_LZ4F`, mtev_http.h:58-62. -/
structure Opts where
  chunked : Bool
  close : Bool
  gzip : Bool
  deflate : Bool
  lz4f : Bool
deriving DecidableEq, Repr

/-- `a | b`. -/
def Opts.or (a b : Opts) : Opts :=
  ⟨a.chunked || b.chunked, a.close || b.close, a.gzip || b.gzip, a.deflate || b.deflate, a.lz4f || b.lz4f⟩

/-- `a & b != 0`. -/
def Opts.meets (a b : Opts) : Bool :=
  (a.chunked && b.chunked) || (a.close && b.close) || (a.gzip && b.gzip) || (a.deflate && b.deflate) || (a.lz4f && b.lz4f)

def Opts.none : Opts := ⟨false, false, false, false, false⟩
def optChunked : Opts := { Opts.none with chunked := true }
def optClose : Opts := { Opts.none with close := true }
def optGzip : Opts := { Opts.none with gzip := true }
def optDeflate : Opts := { Opts.none with deflate := true }
def optLz4f : Opts := { Opts.none with lz4f := true }

/-- Whether `pat` occurs in the text: `strstr(s, pat) != NULL`. -/
def contains (pat : List Nat) : List Nat → Bool
  | [] => pat.isEmpty
  | x :: t => pat.isPrefixOf (x :: t) || contains pat t

/-- `MTEV_HTTP09`, `MTEV_HTTP10`, `MTEV_HTTP11`. -/
inductive Proto
  | http09
  | http10
  | http11
deriving DecidableEq, Repr

/-- The options of a request, mtev_http1.c:722-735, for its protocol and the value of its
`accept-encoding` header, if any. -/
def reqOpts (p : Proto) (accept : Option (List Nat)) : Opts :=
  let o : Opts := { Opts.none with close := true, chunked := decide (p = .http11) }
  match accept with
  | none => o
  | some v => { o with gzip := contains (bytesOf "gzip") v, deflate := contains (bytesOf "deflate") v,
                       lz4f := contains (bytesOf "lz4f") v }

/-- Header names and values. -/
abbrev Headers := List (List Nat × List Nat)

/-- `mtev_hash_replace`. -/
def hset (k v : List Nat) : Headers → Headers
  | [] => [(k, v)]
  | (k', v') :: t => if k' = k then (k, v) :: t else (k', v') :: hset k v t

/-- `mtev_hash_retr_str`. -/
def hget (k : List Nat) : Headers → Option (List Nat)
  | [] => none
  | (k', v') :: t => if k' = k then some v' else hget k t

/-- The request and the response under construction. -/
structure S where
  reqProto : Proto
  reqOpts : Opts
  proto : Proto                -- res.protocol
  code : Nat                   -- status_code
  reason : Option (List Nat)   -- status_reason
  opts : Opts                  -- output_options
  headers : Headers
  started : Bool               -- output_started
  needsClose : Bool            -- conn.needs_close
deriving DecidableEq, Repr

/-- A response nothing was said about (all zero). -/
def fresh (p : Proto) (o : Opts) : S := ⟨p, o, .http09, 0, none, .none, [], false, false⟩

/-- `mtev_http1_response_status_set`, mtev_http1.c:1874-1887. The protocol is set even if the code is
refused. -/
def statusSet (s : S) (code : Int) (reason : List Nat) : S × Bool :=
  if s.started then (s, false)
  else if code < 100 ∨ code > 999 then ({ s with proto := s.reqProto }, false)
  else ({ s with proto := s.reqProto, code := code.toNat, reason := some reason }, true)

/-- `mtev_http1_response_header_set`, mtev_http1.c:1897-1905. -/
def headerSet (s : S) (k v : List Nat) : S × Bool :=
  if s.started then (s, false) else ({ s with headers := hset k v s.headers }, true)

/-- Lines 1926-1936: the headers the options imply. -/
def optHeaders (o : Opts) (h : Headers) : Headers :=
  let h := if o.chunked then hset (bytesOf "Transfer-Encoding") (bytesOf "chunked") h else h
  let h := if o.gzip || o.deflate || o.lz4f then
      hset (bytesOf "Content-Encoding") (if o.gzip then bytesOf "gzip" else if o.deflate then bytesOf "deflate" else bytesOf "lz4f")
        (hset (bytesOf "Vary") (bytesOf "Accept-Encoding") h)
    else h
  if o.close then hset (bytesOf "Connection") (bytesOf "close") h else h

/-- Lines 1925-1940: the options are taken. -/
def applyOpt (s : S) (o : Opts) : S :=
  { s with opts := s.opts.or o, headers := optHeaders (s.opts.or o) s.headers,
           needsClose := s.needsClose || (s.opts.or o).close }

/-- `mtev_http1_response_option_set`, mtev_http1.c:1906-1942. -/
def optionSet (s : S) (o : Opts) : S × Bool :=
  if s.started then (s, false)
  else if s.proto ≠ .http11 ∧ o.chunked then (s, false)
  else if s.proto ≠ .http11 ∧ (o.gzip || o.deflate || o.lz4f) then (s, false)
  else if (s.opts.gzip || o.gzip) && (s.opts.deflate || o.deflate) && (s.opts.lz4f || o.lz4f) then (s, false)
  else if ¬ o.meets s.reqOpts then (s, false)
  else (applyOpt s o, true)

/-! ### `_http_construct_leader` -/

/-- A buffer: its allocation, and the bytes up to `size` (`start` is 0). `size` is kept apart because
line 1968 can set it beyond the allocation. -/
structure B where
  allocd : Nat
  size : Nat
  data : List Nat
deriving DecidableEq, Repr

/-- `BCHAIN_SPACE`, mtev_http_private.h:106. -/
def space (b : B) : Nat := sub64 b.allocd b.size

/-- `CTX_LEADER_APPEND`, lines 1989-1999, for the buffers so far and the current one. -/
def append (p : List B × B) (s : List Nat) : Out (List B × B) :=
  let p := if s.length > space p.2 then (p.1 ++ [p.2], (⟨max s.length defSize, 0, []⟩ : B)) else p
  if space p.2 < s.length then .abort
  else if p.2.size + s.length > p.2.allocd then .ub
  else .ok (p.1, { p.2 with size := p.2.size + s.length, data := p.2.data ++ s })

/-- `%03d`. -/
def three (n : Nat) : List Nat :=
  let d := (toString n).toList.map Char.toNat
  List.replicate (3 - d.length) 48 ++ d

/-- The protocol, lines 1959-1963. -/
def protoText : Proto → List Nat
  | .http11 => bytesOf "HTTP/1.1"
  | .http10 => bytesOf "HTTP/1.0"
  | .http09 => bytesOf "HTTP/0.9"

/-- The status line, lines 1964-1966. -/
def statusLine (s : S) : List Nat :=
  protoText s.proto ++ bytesOf " " ++ three s.code ++ bytesOf " " ++ s.reason.getD (bytesOf "unknown") ++ [13, 10]

/-- Lines 1957, 1964-1968: `snprintf` into the first buffer; `size` is what it returns. -/
def first (s : S) : B :=
  let t := statusLine s
  ⟨defSize, t.length, if t.length < defSize then t else t.take (defSize - 1) ++ [0]⟩

/-- Lines 1977-1987: compression. -/
def pickCompression (s : S) : S :=
  if s.proto = .http11 ∧ s.opts.chunked then
    if s.reqOpts.gzip then (optionSet s optGzip).1
    else if s.reqOpts.deflate then (optionSet s optDeflate).1
    else if s.reqOpts.lz4f then (optionSet s optLz4f).1
    else s
  else s

/-- `strncasecmp` with `Content-Length` and equal length, lines 2012-2013: a lower-case copy. -/
def lower (c : Nat) : Nat := if 65 ≤ c ∧ c ≤ 90 then c + 32 else c

/-- A content length is set, lines 2010-2016. -/
def hasCL (h : Headers) : Bool := h.any (fun p => p.1.map lower = bytesOf "content-length")

/-- Lines 2017-2029: without length, chunked or close, one of the two is chosen.  The loop goes round a
second time only to collect the names again. -/
def pickDelimiter (s : S) : S :=
  if hasCL s.headers || s.opts.chunked || s.opts.close then s
  else
    let (s1, ok) := optionSet s optChunked
    if ok then s1 else (optionSet s1 optClose).1

/-- Lines 2034-2044: one header; a missing value is written as an empty one. -/
def appendHeader (h : Headers) (p : List B × B) (k : List Nat) : Out (List B × B) := do
  let v := (hget k h).getD []
  let p ← append p k
  let p ← append p (bytesOf ": ")
  let p ← (if v.length ≠ 0 then append p v else .ok p)
  append p [13, 10]

/-- The loop over the names. -/
def appendHeaders (h : Headers) : List (List Nat) → List B × B → Out (List B × B)
  | [], p => .ok p
  | k :: ks, p => do
    let p ← appendHeader h p k
    appendHeaders h ks p

/-- What is settled before the text is written. -/
def settle (s : S) : S := pickDelimiter (pickCompression s)

/-- `_http_construct_leader`, mtev_http1.c:1946-2049: the response, and its head as the contents of the
buffers. -/
def leader (order : List (List Nat) → List (List Nat)) (s : S) : Out (S × List (List Nat)) := do
  let b := first s
  let s := settle s
  let p ← appendHeaders s.headers (order (s.headers.map Prod.fst)) ([], b)
  let p ← append p [13, 10]
  .ok ({ s with started := true }, (p.1 ++ [p.2]).map B.data)

/-! ### Calls -/

/-- A call of the application before the output starts. -/
inductive Op
  | status (code : Int) (reason : List Nat)
  | header (k v : List Nat)
  | option (o : Opts)

def step (s : S) : Op → S × Bool
  | .status c r => statusSet s c r
  | .header k v => headerSet s k v
  | .option o => optionSet s o

def run (s : S) (ops : List Op) : S := ops.foldl (fun s o => (step s o).1) s

end Mtev.RespHead
