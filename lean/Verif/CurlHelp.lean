import Verif.Mem

/-!
Decompressing what curl delivers: src/utils/mtev_compress.c, lines 30-35, 393-426 and 501-575.

Modelled: mtev_curl_write_callback and the setting up of its helper. The libraries (zlib, LZ4) are parameters: a codec is called with
input and room and gives back how much it used, what it put out and its state, or an error. The function that gets the data is a
parameter too. `got` is what it has taken. Loops that need not end have a number of turns; `none` is a loop still running after them.
-/
namespace Mtev.CurlHelp

abbrev Str := List Nat

/-- mtev_stream_decompress, src/utils/mtev_compress.c:475-499, as seen by its caller: state, input and room give what was used, what
was put out and the next state, or `-1`. -/
structure Codec (σ : Type) where
  call : σ → Str → Nat → Option (Nat × Str × σ)

/-- mtev_stream_decompress for MTEV_COMPRESS_NONE, src/utils/mtev_compress.c:489-493. -/
def plain : Codec Unit where
  call := fun _ inp room => if room < inp.length then none else some (inp.length, inp, ())

/-- The function the data is passed to, an mtev_curl_write_func_t: it takes so many bytes, or gives back `(size_t)-1`. -/
structure Sink (ω : Type) where
  put : ω → Str → Option (Nat × ω)

/-- What the callback comes to: all used, `-1`, or more taken than there was, in which case the number left is a huge one. -/
inductive R where
  | done | err | ub
  deriving DecidableEq

/-- struct mtev_decompress_curl_helper, src/utils/mtev_compress.c:30-35. -/
structure St (σ ω : Type) where
  s : σ
  w : ω
  got : Str

/-- The inner loop, src/utils/mtev_compress.c:560-571. -/
def give {σ ω : Type} (W : Sink ω) : Nat → St σ ω → Str → Option (R × St σ ω)
  | 0, _, _ => none
  | g + 1, st, chunk =>
    if chunk = [] then some (.done, st)
    else match W.put st.w chunk with
      | none => some (.err, st)
      | some (n, w') =>
        if chunk.length < n then some (.ub, st) else give W g { st with w := w', got := st.got ++ chunk.take n } (chunk.drop n)

/-- mtev_curl_write_callback, src/utils/mtev_compress.c:541-575. -/
def callback {σ ω : Type} (C : Codec σ) (W : Sink ω) (g : Nat) : Nat → St σ ω → Str → Option (R × St σ ω)
  | 0, _, _ => none
  | f + 1, st, inp =>
    if inp = [] then some (.done, st)
    else match C.call st.s inp 8192 with
      | none => some (.err, st)
      | some (u, out, s') =>
        match give W g { st with s := s' } out with
        | none => none
        | some (.done, st') => callback C W g f st' (inp.drop u)
        | some (r, st') => some (r, st')

/-- The kinds of compression. -/
inductive Kind where
  | lz4f | gzip | deflate | none
  deriving DecidableEq

/-- mtev_decompress_create_curl_helper, src/utils/mtev_compress.c:524-532, and mtev_stream_decompress_init, 393-426: `zalloc` is what
malloc left in that field of the z_stream. inflateInit2 calls what it points to unless it is NULL. The result is dropped: `false` is a
helper whose codec fails. -/
def create (zalloc : Nat) : Kind → Out Bool
  | .lz4f => .ok true
  | .gzip => if zalloc = 0 then .ok true else .ub
  | .deflate => .ok false
  | .none => .ok true

end Mtev.CurlHelp
