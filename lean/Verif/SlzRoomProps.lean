import Verif.SlzRoom
import Verif.SlzProps

/-!
# C75: the compressors write no more than their buffers hold

`slz` never looks at the size of the output buffer.  `mtev_compress_gzip` and
`mtev_compress_deflate` allocate a buffer of a fixed excess over the data; the stream functions
ignore `*out_len` and rely on `mtev_compress_bound` (in the HTTP server).
-/
namespace Mtev.Slz
open Mtev.Inflate

/-- `max_compressed_len` (mtev_compress.c:70, 91). -/
def room : Fmt → Nat → Nat
  | .gzip, n => n + 10 + 12
  | .deflate, n => n + 2 + 8

/-- `mtev_compress_gzip`, `mtev_compress_deflate` with the buffer they allocate
(mtev_compress.c:56-98): to write past its end is undefined behaviour. -/
def allocated (f : Fmt) (data : List Nat) : Out (List Nat) :=
  (oneShot f data).bind fun out => if out.length ≤ room f data.length then .ok out else .ub

/-- `mtev_compress_bound` (mtev_compress.c:37-55) for these two formats, given zlib's
`deflateBound(NULL, ·)` and `compressBound`. -/
def bound (deflateBound compressBound : Nat → Nat) : Fmt → Nat → Nat
  | .gzip, n => deflateBound n + 22
  | .deflate, n => compressBound n + 6

/-- `compressBound` of zlib (zlib's compress.c; not part of the code). -/
def zlibCompressBound (n : Nat) : Nat := n + n / 2 ^ 12 + n / 2 ^ 14 + n / 2 ^ 25 + 13

/-! ### Helpers -/

theorem enqueue_level (s : Strm) (x n : Nat) : (enqueue s x n).level = s.level :=
  (enqueue_keeps s x n).1.1

theorem sendAll_level (s : Strm) (l : List Nat) : (sendAll s l).level = s.level := by
  induction l generalizing s with
  | nil => rfl
  | cons x l ih => exact (ih (sendHuff s x)).trans (enqueue_level _ _ _)

theorem copyLit_level (fuel : Nat) (s : Strm) (buf : List Nat) (len : Nat) (more : Bool) :
    (copyLit fuel s buf len more).level = s.level := by
  induction fuel generalizing s len with
  | zero => rfl
  | succ fuel ih =>
    have hc : (closeBlock s).level = s.level := by
      unfold closeBlock; split
      · rfl
      · exact enqueue_level _ _ _
    have hx : ∀ (st : St) (x : Nat) (a b : Nat) (d : List Nat),
        ({ (copy16 (copy16 (flushBits (enqueue { (closeBlock s) with state := st } x 3)) a) b) with
          out := d } : Strm).level = s.level := by
      intro st x a b d
      exact (enqueue_level _ _ _).trans hc
    rw [copyLit]
    generalize (if 65535 < len then 65535 else len) = len2
    split
    · rw [ih]; exact hx _ _ _ _ _
    · exact hx _ _ _ _ _

theorem dumpLit_level (s : Strm) (inp : List Nat) (pos plit bit9 : Nat) (more : Bool) :
    (dumpLit s inp pos plit bit9 more).level = s.level := by
  unfold dumpLit
  split
  · exact copyLit_level _ _ _ _ _
  · unfold copyLitHuff
    rw [sendAll_level]
    unfold huffHeader
    split
    · exact enqueue_level _ _ _
    · split
      · rw [enqueue_level]; exact enqueue_level _ _ _
      · rfl

theorem sendRef_level (inp : List Nat) (l : Loop) (m c d : Nat) :
    (sendRef inp l m c d).s.level = l.s.level := by
  have ho : ∀ s : Strm, (openFixed s).level = s.level := by
    intro s; unfold openFixed; split
    · exact enqueue_level _ _ _
    · rfl
  have e : (sendRef inp l m c d).s = enqueue (enqueue (openFixed
      (if 0 < l.plit then dumpLit l.s inp l.pos l.plit l.bit9 true else l.s)) (c % 65536) (c / 65536))
      (d / 32) (d % 32) := rfl
  rw [e, enqueue_level, enqueue_level, ho]
  split
  · exact dumpLit_level _ _ _ _ _ _
  · rfl

theorem lstep_level {inp : List Nat} {l l' : Loop} (h : lstep inp l = .ok l') :
    l'.s.level = l.s.level := by
  unfold lstep at h
  cases hr : rd32 inp l.pos with
  | ub => rw [hr] at h; cases h
  | abort => rw [hr] at h; cases h
  | ok w =>
    rw [hr] at h
    simp only [Out.bind] at h
    have hs : (remember l w).s = l.s := rfl
    have ha : (asLit (remember l w) w).s.level = l.s.level := rfl
    generalize remember l w = l1 at *
    split at h
    · cases h; exact ha
    · split at h
      · cases h; exact ha
      · generalize (if 258 < l1.rem then 258 else l1.rem) - 4 = mx at h
        cases hm : memmatch inp (l1.pos + 4) (l.refs (slzHash w) % 2 ^ 32 + 4) mx mx 0 with
        | ub => rw [hm] at h; cases h
        | abort => rw [hm] at h; cases h
        | ok m =>
          rw [hm] at h
          simp only at h
          generalize lenFh.getD (m + 4) 0 = code at h
          generalize distTable _ = dist at h
          split at h
          · cases h; exact ha
          · split at h
            · cases h; exact ha
            · injection h with h
              rw [← h, sendRef_level, hs]

theorem lloop_level {inp : List Nat} (fuel : Nat) {l l' : Loop} (h : lloop inp fuel l = .ok l') :
    l'.s.level = l.s.level := by
  induction fuel generalizing l with
  | zero => cases h; rfl
  | succ fuel ih =>
    rw [lloop] at h
    split at h
    · cases hs : lstep inp l with
      | ok l1 => rw [hs] at h; exact (ih h).trans (lstep_level hs)
      | ub => rw [hs] at h; cases h
      | abort => rw [hs] at h; cases h
    · cases h; rfl

theorem encode_level {s s' : Strm} {inp : List Nat} {more : Bool}
    (h : encode s inp more = .ok s') : s'.level = s.level := by
  unfold encode at h
  split at h
  · injection h with h
    rw [← h]
    simp only
    split
    · exact dumpLit_level _ _ _ _ _ _
    · rfl
  · cases hl : lloop inp inp.length ⟨s, 0, inp.length, 0, 0, noRefs⟩ with
    | ub => rw [hl] at h; cases h
    | abort => rw [hl] at h; cases h
    | ok l =>
      rw [hl] at h
      injection h with h
      rw [← h]
      unfold finalDump
      simp only
      have := lloop_level _ hl
      split
      · rw [dumpLit_level]; exact this
      · exact this

/-- the stream after its header. -/
def headed (f : Fmt) (s : Strm) : Strm :=
  match f with
  | .deflate => s
  | .gzip => gzHeader s

/-- number of bytes that need nine bits, in several pieces. -/
def highs (pieces : List (List Nat)) : Nat := high pieces.flatten

/-- a stream that has taken `n` bytes, `k` of them above 143. -/
structure Fed (f : Fmt) (s : Strm) (n k : Nat) : Prop where
  level : (headed f s).level = true
  st : Open (headed f s).state
  nine : Within (headed f s) (8 * (hdr f).length + 9 * n)
  eight : Within (headed f s) (8 * (hdr f).length + 8 * n + 2 * k + 42 * (n / 65535))

theorem fed_init (f : Fmt) : Fed f (slzInit f) 0 0 := by
  cases f with
  | deflate => exact ⟨rfl, Or.inl rfl, ⟨by decide, by decide⟩, ⟨by decide, by decide⟩⟩
  | gzip => exact ⟨rfl, Or.inl rfl, ⟨by decide, by decide⟩, ⟨by decide, by decide⟩⟩

/-- one call, in either format. -/
theorem call_room {f : Fmt} {s s' : Strm} {d : List Nat} (more : Bool) {A B : Nat}
    (hb : ∀ x ∈ d, x < 256)
    (hlv : (headed f s).level = true) (hs : Open (headed f s).state) (wA : Within (headed f s) A)
    (wB : Within (headed f s) B) (h : slzEncode f s d more = .ok s') :
    Within s' (A + 9 * d.length) ∧
      Within s' (B + 8 * d.length + 2 * high d + 42 * (d.length / 65535)) ∧
      (more = true → Open s'.state) ∧ s'.level = true ∧ Started s'.state := by
  cases f with
  | deflate =>
    obtain ⟨a, b, c⟩ := encode_room more hb hlv hs wA wB h
    exact ⟨a, b, c.1, (encode_level h).trans hlv, c.2⟩
  | gzip =>
    have h' : encode { (gzHeader s) with crc := crcBy4 (gzHeader s).crc d } d more = .ok s' := h
    obtain ⟨a, b, c⟩ := encode_room (s := { (gzHeader s) with crc := crcBy4 (gzHeader s).crc d })
      more hb hlv hs wA wB h'
    exact ⟨a, b, c.1, (encode_level h').trans hlv, c.2⟩

theorem headed_open {f : Fmt} {s : Strm} (h : Started s.state) : headed f s = s := by
  cases f with
  | deflate => rfl
  | gzip => exact gzHeader_open h

theorem fed_call {f : Fmt} {s s' : Strm} {d : List Nat} {n k : Nat} (hb : ∀ x ∈ d, x < 256)
    (i : Fed f s n k) (h : slzEncode f s d true = .ok s') :
    Fed f s' (n + d.length) (k + high d) ∧ Open s'.state := by
  obtain ⟨a, b, c, e, -⟩ := call_room true hb i.level i.st i.nine i.eight h
  have o := c rfl
  have hh := headed_open (f := f) o.started
  have hdiv : n / 65535 + d.length / 65535 ≤ (n + d.length) / 65535 := by omega
  refine ⟨⟨by rw [hh]; exact e, by rw [hh]; exact o, ?_, ?_⟩, o⟩
  · rw [hh]; exact a.mono (by omega)
  · rw [hh]; exact b.mono (by omega)

theorem fed_feed {f : Fmt} (pieces : List (List Nat)) {c c' : Ctx} {n k : Nat}
    (hb : ∀ d ∈ pieces, ∀ x ∈ d, x < 256) (i : Fed f c.s n k) (h : feed f c pieces = .ok c') :
    Fed f c'.s (n + pieces.flatten.length) (k + highs pieces) ∧
      (pieces ≠ [] → Open c'.s.state) ∧ c'.flushed = c.flushed := by
  induction pieces generalizing c n k with
  | nil => cases h; exact ⟨by simpa [highs, high] using i, by simp, rfl⟩
  | cons d ds ih =>
    rw [feed, compress] at h
    cases he : slzEncode f c.s d true with
    | ub => rw [he] at h; cases h
    | abort => rw [he] at h; cases h
    | ok s' =>
      rw [he] at h
      have h' : feed f { c with begun := true, s := s' } ds = .ok c' := h
      obtain ⟨i', o'⟩ := fed_call (hb d (by simp)) i he
      obtain ⟨a, b, e⟩ := ih (c := { c with begun := true, s := s' })
        (fun d hd => hb d (by simp [hd])) i' h'
      refine ⟨?_, ?_, e⟩
      · have e1 : n + (d :: ds).flatten.length = n + d.length + ds.flatten.length := by
          simp; omega
        have e2 : k + highs (d :: ds) = k + high d + highs ds := by
          unfold highs; rw [List.flatten_cons, high_append]; omega
        rw [e1, e2]; exact a
      · intro _
        by_cases hds : ds = []
        · subst hds
          rw [feed] at h'
          injection h' with h'
          rw [← h']; exact o'
        · exact b hds

/-- bytes after the deflate stream. -/
def trailer : Fmt → Nat
  | .deflate => 0
  | .gzip => 8

theorem slzFinish_len {f : Fmt} {s : Strm} (h : Started s.state) :
    (slzFinish f s).out.length = (finish1951 s).out.length + trailer f := by
  cases f with
  | deflate => rfl
  | gzip =>
    show (gzFinish s).out.length = _
    unfold gzFinish
    rw [gzHeader_open h]
    simp [copy32, le32, trailer]

/-! ### C75 -/

/-- overhead of the format in bytes: header and trailer. -/
def wrap : Fmt → Nat
  | .deflate => 0
  | .gzip => 18

/-- the most a stream can grow: nine bits per byte and 27 bits, plus header and trailer.  For any
pieces of any size. -/
theorem C75_growth (f : Fmt) (pieces : List (List Nat)) (out : List Nat)
    (hb : ∀ d ∈ pieces, ∀ x ∈ d, x < 256) (h : streamed f pieces = .ok (some out)) :
    8 * out.length ≤ 9 * pieces.flatten.length + 27 + 8 * wrap f ∧
    8 * out.length ≤ 8 * pieces.flatten.length +
      2 * pieces.flatten.countP (fun x => decide (144 ≤ x)) +
      42 * (pieces.flatten.length / 65535) + 27 + 8 * wrap f := by
  unfold streamed at h
  cases hf : feed f (ctxInit f) pieces with
  | ub => rw [hf] at h; cases h
  | abort => rw [hf] at h; cases h
  | ok c =>
    rw [hf] at h
    simp only [Out.bind] at h
    obtain ⟨i, o, fl⟩ := fed_feed pieces hb (fed_init f) hf
    have hp : pieces ≠ [] := by
      intro e
      subst e
      rw [feed] at hf
      injection hf with hf
      rw [← hf] at h
      simp [flush, ctxInit] at h
    have ho := o hp
    have hh := headed_open (f := f) ho.started
    have hout : out = (slzFinish f c.s).out := by
      have hfl : c.flushed = false := fl
      unfold flush at h
      cases hbg : c.begun with
      | false => simp [hbg] at h
      | true => simp [hbg, hfl] at h; exact h.symm
    have a := i.nine
    have b := i.eight
    rw [hh] at a b
    have a1 := (finish_room ho.started a).1
    have b1 := (finish_room ho.started b).1
    have hl := slzFinish_len (f := f) ho.started
    have hw : (hdr f).length + trailer f = wrap f := by cases f <;> rfl
    rw [hout, hl]
    unfold highs high at b1
    simp only [Nat.zero_add] at a1 b1
    constructor <;> omega

/-- the same for one call: what `mtev_compress_gzip` and `mtev_compress_deflate` write. -/
theorem C75_growth_oneshot (f : Fmt) (data out : List Nat) (hb : ∀ x ∈ data, x < 256)
    (h : oneShot f data = .ok out) :
    8 * out.length ≤ 9 * data.length + 27 + 8 * wrap f ∧
    8 * out.length ≤ 8 * data.length + 2 * data.countP (fun x => decide (144 ≤ x)) +
      42 * (data.length / 65535) + 27 + 8 * wrap f := by
  unfold oneShot at h
  cases he : slzEncode f (slzInit f) data false with
  | ub => rw [he] at h; cases h
  | abort => rw [he] at h; cases h
  | ok s =>
    rw [he] at h
    injection h with h
    have i := fed_init f
    obtain ⟨a, b, -, -, st⟩ := call_room false hb i.level i.st i.nine i.eight he
    have a1 := (finish_room st a).1
    have b1 := (finish_room st b).1
    have hl := slzFinish_len (f := f) st
    have hw : (hdr f).length + trailer f = wrap f := by cases f <;> rfl
    rw [← h, hl]
    unfold high at b1
    constructor <;> omega

/-- C75, the part that is true of `mtev_compress_gzip` and `mtev_compress_deflate`: the buffer is
large enough for data with at most six bytes above 143 (text in ASCII, say), and what is in it
decompresses to the data. -/
theorem C75_oneshot_partial (f : Fmt) (data : List Nat) (hb : ∀ x ∈ data, x < 256)
    (hn : data.length < 65535) (h6 : data.countP (fun x => decide (144 ≤ x)) ≤ 6) :
    ∃ out, allocated f data = .ok out ∧ decode f out = some data := by
  obtain ⟨out, e, d⟩ := C74_oneshot_partial f data hb (by omega)
  have g := (C75_growth_oneshot f data out hb e).2
  rw [Nat.div_eq_of_lt hn] at g
  refine ⟨out, ?_, d⟩
  unfold allocated
  rw [e]
  simp only [Out.bind]
  rw [if_pos]
  cases f <;> simp only [wrap, room] at g ⊢ <;> omega

/-- bytes that are mostly above 143. -/
def steep (i : Nat) : Nat := 144 + (i * (i + 1) / 2 * 31 + i / 224) % 112

/-- 51 of them at a time, then four bytes seen before. -/
def binary (k : Nat) : List Nat :=
  [65, 66, 67, 68] ++
    (List.range k).flatMap fun r => ((List.range 51).map fun j => steep (51 * r + j)) ++ [65, 66, 67, 68]

/-- C75 is false of `mtev_compress_gzip` and `mtev_compress_deflate`: 51 bytes for gzip, 279 bytes
for deflate, after which both write past the end of the buffer they allocated. -/
theorem C75_oneshot_violated :
    (∀ x ∈ (List.range 51).map (144 + ·), x < 256) ∧
    allocated .gzip ((List.range 51).map (144 + ·)) = .ub ∧
    (∀ x ∈ binary 5, x < 256) ∧ allocated .deflate (binary 5) = .ub := by
  refine ⟨?_, ?_, ?_, ?_⟩ <;> decide +kernel

/-! ### Streams, as in the HTTP server -/

/-- what one call of `mtev_stream_compress` writes, after any calls before it: nine bits per byte
and less than five bytes, and the header with the first call. -/
theorem C75_call (f : Fmt) (pieces : List (List Nat)) (d : List Nat) (c c' : Ctx)
    (hb : ∀ p ∈ pieces, ∀ x ∈ p, x < 256) (hd : ∀ x ∈ d, x < 256)
    (h : feed f (ctxInit f) pieces = .ok c) (h' : compress f c d = .ok c') :
    8 * (c'.s.out.length - c.s.out.length) ≤ 9 * d.length + 34 + 8 * (hdr f).length := by
  obtain ⟨i, -, -⟩ := fed_feed pieces hb (fed_init f) h
  unfold compress at h'
  cases he : slzEncode f c.s d true with
  | ub => rw [he] at h'; cases h'
  | abort => rw [he] at h'; cases h'
  | ok s' =>
    rw [he] at h'
    injection h' with h'
    have w : Within (headed f c.s) (nbits (headed f c.s)) := ⟨Nat.le_add_right _ _, i.nine.2⟩
    obtain ⟨a, -, o, -⟩ := call_room true hd i.level i.st w w he
    have hq := i.nine.2
    have hl : (headed f c.s).out.length ≤ c.s.out.length + (hdr f).length := by
      cases f with
      | deflate => exact Nat.le_refl _
      | gzip =>
        show (gzHeader c.s).out.length ≤ _
        unfold gzHeader
        split
        · simp [hdr]
        · simp
    have hs : slack s'.state ≤ 3 := by rcases o rfl with e | e <;> rw [e] <;> decide
    have ha := a.1
    rw [← h']
    show 8 * (s'.out.length - _) ≤ _
    unfold nbits at ha
    omega

/-- what `mtev_stream_compress_flush` writes: less than 16 bytes. -/
theorem C75_flush (f : Fmt) (pieces : List (List Nat)) (c c' : Ctx)
    (hb : ∀ p ∈ pieces, ∀ x ∈ p, x < 256)
    (h : feed f (ctxInit f) pieces = .ok c) (h' : flush f c = some c') :
    c'.s.out.length - c.s.out.length < 16 := by
  obtain ⟨i, o, -⟩ := fed_feed pieces hb (fed_init f) h
  have hp : pieces ≠ [] := by
    intro e
    subst e
    rw [feed] at h
    injection h with h
    rw [← h] at h'
    simp [flush, ctxInit] at h'
  unfold flush at h'
  split at h'
  · cases h'
  · split at h'
    · cases h'; omega
    · injection h' with h'
      have st := (o hp).started
      have hq := i.nine.2
      rw [headed_open st] at hq
      have w : Within c.s (nbits c.s) := ⟨Nat.le_add_right _ _, hq⟩
      have r := (finish_room st w).1
      have hl := slzFinish_len (f := f) st
      have ht : trailer f ≤ 8 := by cases f <;> decide
      rw [← h']
      show (slzFinish f c.s).out.length - _ < _
      unfold nbits at r
      omega

/-- C75 for gzip in the HTTP server: the buffer of `mtev_compress_bound` is large enough for every
call, whatever was compressed before, since `deflateBound(NULL, n)` of zlib is at least
`n + n / 8` in every version. -/
theorem C75_http_gzip (db cb : Nat → Nat) (hz : ∀ n, n + n / 8 ≤ db n) (pieces : List (List Nat))
    (d : List Nat) (c c' : Ctx)
    (hb : ∀ p ∈ pieces, ∀ x ∈ p, x < 256) (hd : ∀ x ∈ d, x < 256)
    (h : feed .gzip (ctxInit .gzip) pieces = .ok c) (h' : compress .gzip c d = .ok c') :
    c'.s.out.length - c.s.out.length ≤ bound db cb .gzip d.length := by
  have a := C75_call .gzip pieces d c c' hb hd h h'
  have z := hz d.length
  have : (hdr .gzip).length = 10 := rfl
  unfold bound
  simp only
  omega

example : ∀ n : Nat, n + n / 8 ≤ n + (n + 7) / 8 + (n + 63) / 64 + 5 + 6 := by intro n; omega

/-- number of bytes the first call of a stream writes. -/
def firstCall (f : Fmt) (d : List Nat) : Out Nat :=
  (compress f (ctxInit f) d).bind fun c => .ok c.s.out.length

/-- C75 is false for deflate in the HTTP server: one call writes past the end of the buffer, which
has the room of `mtev_compress_bound` and the two bytes reserved for the end of the chunk
(mtev_http_private.h:233-235). -/
theorem C75_http_deflate_violated :
    (∀ x ∈ binary 6, x < 256) ∧
    ∃ w, firstCall .deflate (binary 6) = .ok w ∧
      bound (fun n => n) zlibCompressBound .deflate (binary 6).length + 2 < w := by
  refine ⟨by decide +kernel, 360, by decide +kernel, by decide +kernel⟩

/-- a case of the theorems on calls: a second call after a first. -/
example : ∃ c c', feed .gzip (ctxInit .gzip) [[97, 98]] = .ok c ∧
    compress .gzip c [97, 98, 99, 100, 200] = .ok c' := ⟨_, _, rfl, rfl⟩
example : ∃ out, allocated .gzip [97, 98, 99, 100, 200] = .ok out ∧
    gunzip out = some [97, 98, 99, 100, 200] :=
  C75_oneshot_partial .gzip _ (by decide) (by decide) (by decide)

end Mtev.Slz
