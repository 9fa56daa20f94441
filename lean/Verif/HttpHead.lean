import Verif.Mem
import Verif.HttpIn

/-!
Model of the recognition and parsing of HTTP/1 request heads, /repo/src/mtev_http1.c:
`_fixup_bchain` (436-488), `_extract_header` (489-506), `mtev_http1_request_finalize_headers` (591-807)
and the reading loop of `mtev_http1_complete_request` (849-937).

Not modelled: timing, spans, statistics, the compression options, and what is done with the payload
(that is `Verif/HttpIn.lean`).
-/

namespace Mtev.HttpHead

open HttpIn (defSize)

/-- `struct bchain`, mtev_http_private.h:90-100: the allocation, the bytes before `start`, and the
data.  What lies behind the data is uninitialised; reading it is undefined behaviour in the model. -/
structure HB where
  allocd : Nat
  pre : List Nat
  data : List Nat
deriving DecidableEq, Repr

/-- `b->start`. -/
def HB.start (b : HB) : Nat := b.pre.length

/-- The position behind the data, `b->start + b->size`. -/
def HB.fin (b : HB) : Nat := b.pre.length + b.data.length

/-- `n` bytes from position `off` of the buffer. -/
def HB.get (b : HB) (off n : Nat) : Out (List Nat) := Block.read (b.pre ++ b.data) off n

/-- The parsed head. -/
structure Req where
  method : List Nat
  uri : List Nat
  proto : List Nat
  hdrs : List (List Nat × List Nat)   -- the header table, one entry per name
deriving DecidableEq, Repr

/-- The end of a line. -/
def crlf : List Nat := [13, 10]

/-- `REQ_PAT`, line 61. -/
def pat : List Nat := [13, 10, 13, 10]

/-- `memmem`: the position of the first occurrence. -/
def find (p : List Nat) : List Nat → Option Nat
  | [] => if p = [] then some 0 else none
  | c :: r => if p.isPrefixOf (c :: r) then some 0 else (find p r).map (· + 1)

/-! ### Making lines contiguous -/

/-- Lines 451-458: from position `i` down to the start; the position behind the last CR LF found, or
`none` when the loop runs down to `start - 1`. -/
def scanBack (b : HB) : Nat → Nat → Out (Option Nat)
  | 0, _ => .ok none
  | f + 1, i => do
    let two ← b.get i 2
    if two = crlf then pure (some (i + 2))
    else if i = b.start then pure none
    else scanBack b f (i - 1)

/-- Lines 445-459: where the unfinished line begins; `Sum.inl` when there is none, `none` when the result
is `start - 1`. -/
def unfinished (b : HB) : Out (Unit ⊕ Option Nat) :=
  if b.data.length > 2 then do
    let last ← b.get (b.fin - 2) 2
    if last = crlf then pure (.inl ())
    else do
      let r ← scanBack b b.data.length (b.fin - 3)
      pure (.inr r)
  else pure (.inr (some b.start))

/-- `_fixup_bchain`, lines 436-488 (fuel: the number of buffers).  `none` is the result `mtev_false`.

Line 478 copies from the new buffer itself and not from the next one; overlapping areas are undefined
behaviour of `memcpy`.  When no CR LF is found `start_in_b` is `start - 1` (line 457): the byte before the
data is read, and line 482 makes the data one byte longer.  That is a read outside the buffer when `start`
is 0; the model calls it undefined in the other case too. -/
def fixup : Nat → List HB → Out (Option (List HB))
  | 0, _ => .abort
  | _ + 1, [] => .ok (some [])
  | n + 1, b :: rest => do
    match ← unfinished b with
    | .inl _ =>
      let r ← fixup n rest
      pure (r.map (b :: ·))
    | .inr sb =>
      match rest with
      | [] => pure none
      | f :: rest =>
        match find crlf f.data with
        | none => pure none
        | some i =>
          let e := i + 2
          match sb with
          | none => if e + (b.data.length + 1) > defSize then pure none else .ub
          | some sb =>
            let n1 := b.fin - sb
            if e + n1 > defSize then pure none
            else
              let part ← b.get sb n1
              if n1 < e then .ub
              else
                let own ← Block.read part 0 e
                let g : HB := ⟨e + n1, [], part ++ own⟩
                let b' : HB := { b with data := b.data.take (b.data.length - (sb - b.start)) }
                let f' : HB := { f with pre := f.pre ++ f.data.take e, data := f.data.drop e }
                let r ← fixup n (f' :: rest)
                pure (r.map (fun l => b' :: g :: l))

/-! ### Parsing -/

/-- A blank. -/
def blank (c : Nat) : Bool := c = 32 || c = 9

/-- `tolower` in the C locale. -/
def lower (c : Nat) : Nat := if 65 ≤ c ∧ c ≤ 90 then c + 32 else c

/-- `_extract_header`, lines 489-506: a continuation line, or a name and a value.  `none` is `mtev_false`.
The byte before an empty name that line 503 looks at is the end of the line before. -/
def extract (l : List Nat) : Option (Option (List Nat) × List Nat) :=
  match l with
  | [] => none
  | c :: _ =>
    if blank c then some (none, l.dropWhile blank)
    else
      let n := l.takeWhile (· ≠ 58)
      match l.dropWhile (· ≠ 58) with
      | [] => none
      | _ :: v => some (some ((n.map lower).reverse.dropWhile blank).reverse, v.dropWhile blank)

/-- The text of a C string. -/
def cstr (l : List Nat) : List Nat := l.takeWhile (· ≠ 0)

/-- The loop of lines 702-764 seen as a list of lines: `strstr` for CR LF. -/
def splitLines : List Nat → List Nat → List (List Nat)
  | acc, [] => [acc.reverse]
  | acc, 13 :: 10 :: r => acc.reverse :: splitLines [] r
  | acc, c :: r => splitLines (c :: acc) r

/-- The state of the parser. -/
structure P where
  req : Option (List Nat × List Nat × List Nat)
  hdrs : List (List Nat × List Nat)
  last : Option (List Nat)
deriving DecidableEq, Repr

/-- `mtev_hash_replace`. -/
def replace (k v : List Nat) : List (List Nat × List Nat) → List (List Nat × List Nat)
  | [] => [(k, v)]
  | (k', v') :: r => if k' = k then (k, v) :: r else (k', v') :: replace k v r

/-- `mtev_hash_retrieve`. -/
def lookup (k : List Nat) : List (List Nat × List Nat) → Option (List Nat)
  | [] => none
  | (k', v) :: r => if k' = k then some v else lookup k r

/-- Lines 711-726, the request line. -/
def reqLine (l : List Nat) : Option (List Nat × List Nat × List Nat) :=
  match l.dropWhile (· ≠ 32) with
  | [] => none
  | _ :: u =>
    match u.dropWhile (· ≠ 32) with
    | [] => none
    | _ :: p => some (l.takeWhile (· ≠ 32), u.takeWhile (· ≠ 32), p)

/-- Lines 727-762, a header line. -/
def hdrLine (l : List Nat) (s : P) : Option P :=
  match extract l with
  | none => none
  | some (some n, v) => some { s with hdrs := replace n v s.hdrs, last := some n }
  | some (none, v) =>
    match s.last with
    | none => none
    | some n =>
      match lookup n s.hdrs with
      | none => none
      | some p => some { s with hdrs := replace n (p ++ [32] ++ v) s.hdrs }

/-- The body of the loop, lines 702-764, for the lines of one buffer; `none` is `FAIL`. -/
def parseLines : List (List Nat) → P → Option P
  | [], s => some s
  | l :: ls, s =>
    match s.req with
    | none =>
      match reqLine l with
      | none => none
      | some r => parseLines ls { s with req := some r }
    | some _ =>
      if l = [] then some s
      else
        match hdrLine l s with
        | none => none
        | some s => parseLines ls s

/-- Lines 698-765: every buffer.  Line 700 ends the text two bytes before the end of the data; with less than
two bytes the text would not be ended inside the buffer (undefined behaviour in the model). -/
def parseBufs : List HB → P → Out (Option P)
  | [], s => .ok (some s)
  | b :: bs, s =>
    if b.data.length < 2 then .ub
    else
      match parseLines (splitLines [] (cstr (b.data.take (b.data.length - 2)))) s with
      | none => .ok none
      | some s => parseBufs bs s

/-! ### Recognising the end of the head -/

/-- Lines 628-644: the pattern across two buffers (`last`: `b` is `last_input`).  Result: a match, leave the
function, or go on, with `current_offset`.  Line 642 compares the end of the previous buffer with the wrong
part of the pattern. -/
inductive Cross
  | hit (off : Nat)
  | wait (off : Nat)
  | go (off : Nat)

def cross (prev b : HB) (last : Bool) : Nat → Nat → Out Cross
  | 0, off => .ok (.go off)
  | f + 1, off => do
    if off < b.start + 3 then
      if last && off ≥ b.fin then pure (.wait off)
      else
        let inset := off + 1 - b.start
        let x ← b.get b.start inset
        if x = pat.drop (4 - inset) then
          if prev.fin < 4 - inset then .ub
          else
            let y ← prev.get (prev.fin - (4 - inset)) (4 - inset)
            if y = (pat.drop inset).take (4 - inset) then pure (.hit (off + 1)) else cross prev b last f (off + 1)
        else cross prev b last f (off + 1)
    else pure (.go off)

/-- The result of the search: the buffer and offset, and whether the pattern was found. -/
structure Found where
  cur : Nat
  off : Nat
  hit : Bool
deriving DecidableEq, Repr

/-- Lines 627-655: `done` are the buffers before the current one, last first. -/
def search : List HB → HB → List HB → Nat → Out Found
  | done, b, rest, off => do
    let c ← match done with
      | [] => pure (Cross.go off)
      | p :: _ => cross p b rest.isEmpty 4 off
    match c with
    | .hit off => pure ⟨done.length, off, true⟩
    | .wait off => pure ⟨done.length, off, false⟩
    | .go off =>
      let st := max (off - 4) b.start
      match find pat (b.data.drop (st - b.start)) with
      | some i => pure ⟨done.length, st + i + 4, true⟩
      | none =>
        match rest with
        | [] => pure ⟨done.length, off, false⟩
        | n :: rest => search (b :: done) n rest n.start

/-- Lines 607-611 (fuel: the number of bytes). -/
def stripLead : Nat → HB → HB
  | 0, b => b
  | f + 1, b =>
    match b.data with
    | 13 :: 10 :: r => stripLead f { b with pre := b.pre ++ [13, 10], data := r }
    | _ => b

/-- Lines 602-621: leading line ends are dropped while the first buffer is the current one. -/
def stripFirst : List HB → List HB
  | [] => []
  | b :: rest =>
    let b := stripLead b.data.length b
    match rest with
    | [] => [b]
    | n :: r =>
      match b.data, n.data with
      | [13], 10 :: d => { b with data := [] } :: { n with pre := n.pre ++ [10], data := d } :: r
      | _, _ => b :: n :: r

/-- The input of a connection: `first_input .. last_input`, `current_input` and `current_offset`. -/
structure S where
  bufs : List HB
  cur : Nat
  off : Nat
deriving DecidableEq, Repr

/-- The result of `mtev_http1_request_finalize_headers`: not yet, an error, or a head and what follows it. -/
inductive Fin_
  | more (s : S)
  | bad
  | done (r : Req) (left : List HB)
deriving DecidableEq, Repr

/-- Lines 698-765 and what they leave behind. -/
def parse (chain left : List HB) : Out Fin_ := do
  match ← fixup (2 * chain.length + 2) chain with
  | none => pure .bad
  | some l =>
    match ← parseBufs l ⟨none, [], none⟩ with
    | none => pure .bad
    | some ⟨none, _, _⟩ => pure .bad
    | some ⟨some (m, u, p), h, _⟩ => pure (.done ⟨m, u, p, h⟩ left)

/-- Lines 591-765.  Line 680 frees a buffer that is still part of the head when the match is not in the last
buffer (undefined behaviour). -/
def finalize (s : S) : Out Fin_ := do
  let bufs := if s.cur = 0 then stripFirst s.bufs else s.bufs
  match bufs.drop s.cur with
  | [] => pure (.more { s with bufs := bufs })
  | b :: rest =>
    let r ← search (bufs.take s.cur).reverse b rest s.off
    if r.hit then
      match bufs.drop r.cur with
      | [] => .ub
      | c :: after =>
        if r.off < c.fin then
          if after = [] then
            let left : HB := ⟨c.fin - r.off, [], c.data.drop (r.off - c.start)⟩
            parse (bufs.take r.cur ++ [{ c with data := c.data.take (r.off - c.start) }]) [left]
          else .ub
        else parse bufs []
    else pure (.more ⟨bufs, r.cur, r.off⟩)

/-! ### Reading -/

/-- `DEFAULT_BCHAINMINREAD`, mtev_http_private.h:105. -/
def minRead : Nat := defSize / 4

/-- Lines 875-889: where the next read goes. -/
def room (bufs : List HB) : List HB :=
  match bufs.getLast? with
  | none => [⟨defSize, [], []⟩]
  | some t => if t.data ≠ [] ∧ minRead > t.allocd - t.data.length - t.start then bufs ++ [⟨defSize, [], []⟩] else bufs

/-- Lines 891-906: the bytes are put behind the data of the last buffer. -/
def recv : List HB → List Nat → List HB
  | [], _ => []
  | [t], bs => [{ t with data := t.data ++ bs }]
  | b :: r, bs => b :: recv r bs

/-- What happens on the connection: the read would block (and the function is called again later), or
delivers at most `n + 1` bytes. -/
inductive Ev
  | again
  | data (n : Nat)
deriving DecidableEq, Repr

/-- `mtev_http1_complete_request`, lines 867-933: the loop after a first `finalize`.  `sock` are the bytes
not read yet.  The function ends with a head, with an error, or waiting for more events; end of stream is not
modelled. -/
def drive : List Ev → S → List Nat → Out (Fin_ × List Nat)
  | [], s, sock => .ok (.more s, sock)
  | e :: es, s, sock => do
    let bufs := room s.bufs
    let s := { s with bufs := bufs }
    let sp := match bufs.getLast? with
      | none => 0
      | some t => t.allocd - t.data.length - t.start
    let (s, sock) := match e with
      | .again => (s, sock)
      | .data n => ({ s with bufs := recv bufs (sock.take (min (n + 1) sp)) }, sock.drop (min (n + 1) sp))
    match ← finalize s with
    | .more s => drive es s sock
    | r => pure (r, sock)

/-- Lines 867-870: what is left of the previous request is looked at first. -/
def complete (evs : List Ev) (s : S) (sock : List Nat) : Out (Fin_ × List Nat) := do
  match ← finalize s with
  | .more s => drive evs s sock
  | r => pure (r, sock)

/-! ### The payload -/

/-- How the payload is delimited, lines 767-783. -/
inductive Framing
  | none
  | chunked
  | length (n : Int)
deriving DecidableEq, Repr

/-- The value of a string of digits. -/
def digitsVal : List Nat → Nat → Nat
  | [], a => a
  | c :: r, a => if 48 ≤ c ∧ c ≤ 57 then digitsVal r (a * 10 + (c - 48)) else a

/-- `strtoll(_, NULL, 10)`. -/
def strtoll (l : List Nat) : Int :=
  let l := l.dropWhile (fun c => c = 32 || (9 ≤ c && c ≤ 13))
  let clamp (i : Int) : Int := max (-(2 ^ 63)) (min i (2 ^ 63 - 1))
  match l with
  | 45 :: r => clamp (-(digitsVal r 0 : Int))
  | 43 :: r => clamp (digitsVal r 0)
  | r => clamp (digitsVal r 0)

/-- Lines 767-783. -/
def framing (hdrs : List (List Nat × List Nat)) : Framing :=
  if lookup (bytesOf "transfer-encoding") hdrs = some (bytesOf "chunked") then .chunked
  else
    match lookup (bytesOf "content-length") hdrs with
    | none => .none
    | some v => .length (strtoll v)

end Mtev.HttpHead
