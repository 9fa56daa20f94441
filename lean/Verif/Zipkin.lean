import Verif.Mem

/-!
# Encoding spans for Zipkin

`src/utils/mtev_zipkin_encode.h` and the encoding part of `src/utils/mtev_zipkin.c`.  The target is a block of memory; an
encoder gets the block, the offset of its pointer into it, and the room `len` it was told.  `size_t` is a natural number: the sum
of all lengths is below 2^64, as everything is in memory at once.
-/

namespace Mtev.Zipkin

/-- bytes -/
abbrev Str := List Nat

/-- An encoder: block, pointer, `len` -> block, length returned. -/
abbrev F := Block → Nat → Nat → Out (Block × Nat)

/-- the bytes of a 16 bit number in network order: `htons` and `memcpy` (mtev_zipkin_encode.h:127) -/
def be16 (v : Int) : Str := [(v / 2 ^ 8 % 256).toNat, (v % 256).toNat]

/-- `htonl` and `memcpy` (mtev_zipkin_encode.h:135) -/
def be32 (v : Int) : Str := [(v / 2 ^ 24 % 256).toNat, (v / 2 ^ 16 % 256).toNat, (v / 2 ^ 8 % 256).toNat, (v % 256).toNat]

/-- `htonll` and `memcpy` (mtev_zipkin_encode.h:143) -/
def be64 (v : Int) : Str :=
  [(v / 2 ^ 56 % 256).toNat, (v / 2 ^ 48 % 256).toNat, (v / 2 ^ 40 % 256).toNat, (v / 2 ^ 32 % 256).toNat,
   (v / 2 ^ 24 % 256).toNat, (v / 2 ^ 16 % 256).toNat, (v / 2 ^ 8 % 256).toNat, (v % 256).toNat]

/-- `if(len > n) memcpy(...)`, the common part of the number encoders (mtev_zipkin_encode.h:112-152). -/
def fixed (bytes : Str) : F := fun b off len => do
  let b ← if len > bytes.length - 1 then b.write off bytes else pure b
  return (b, bytes.length)

/-- `ze_bool` (mtev_zipkin_encode.h:112-115) -/
def zeBool (v : Bool) : F := fixed [if v then 1 else 0]

/-- `ze_byte` (mtev_zipkin_encode.h:117-120) -/
def zeByte (v : Nat) : F := fixed [v]

/-- `ze_i16` (mtev_zipkin_encode.h:122-129) -/
def zeI16 (v : Int) : F := fixed (be16 v)

/-- `ze_i32` (mtev_zipkin_encode.h:130-137) -/
def zeI32 (v : Int) : F := fixed (be32 v)

/-- `ze_i64` (mtev_zipkin_encode.h:138-145) -/
def zeI64 (v : Int) : F := fixed (be64 v)

/-- `ze_list_begin` (mtev_zipkin_encode.h:155-162) -/
def zeListBegin (ty : Nat) (cnt : Int) : F := fun b off len => do
  if len > 4 then
    let (b, _) ← zeByte ty b off len
    let (b, _) ← zeI32 cnt b (off + 1) (len - 1)
    return (b, 5)
  else return (b, 5)

/-- `ze_list_end`, `ze_struct_begin`, `ze_struct_end`, `ze_field_end`: 0 (mtev_zipkin_encode.h:163-165, 175) -/
def zero : F := fun b _ _ => .ok (b, 0)

/-- `ze_field_begin` (mtev_zipkin_encode.h:166-174) -/
def zeFieldBegin (ty : Nat) (id : Int) : F := fun b off len => do
  if len < 3 then return (b, 3)
  else
    let (b, n) ← zeByte ty b off len
    let (b, m) ← zeI16 id b (off + 1) (len - 1)
    return (b, n + m)

/-- `ze_field_stop` (mtev_zipkin_encode.h:176) -/
def zeFieldStop : F := zeByte 0

/-- `ze_Zipkin_String` (mtev_zipkin_encode.h:177-187).  The text is given without its NUL. -/
def zeString (s : Str) : F := fun b off len =>
  if s.length ≥ 2 ^ 31 then .abort
  else do
    let (b, n) ← zeI32 s.length b off len
    if n + s.length > len then return (b, n + s.length)
    else
      let b ← b.write (off + n) s
      return (b, n + s.length)

/-- `ze_Zipkin_Binary` (mtev_zipkin_encode.h:188-197).  The length is that of the data and not negative. -/
def zeBinary (s : Str) : F := fun b off len =>
  if 4 + s.length > len then .ok (b, 4 + s.length)
  else do
    let (b, n) ← zeI32 s.length b off len
    let b ← b.write (off + n) s
    return (b, n + s.length)

/-- `buffer`, `len` and `sofar` while a structure is encoded -/
structure W where
  buf : Block
  off : Nat
  len : Nat
  sofar : Nat

/-- `ADV_SAFE` (mtev_zipkin_encode.h:199-209): what was written so far, in all, is compared with the room that is left. -/
def adv (f : F) (w : W) : Out W := do
  let (b, n) ← f w.buf w.off w.len
  if w.sofar + n > w.len then return ⟨b, w.off, 0, w.sofar + n⟩
  else return ⟨b, w.off + n, w.len - n, w.sofar + n⟩

/-- several `ADV_SAFE` -/
def run : List F → W → Out W
  | [], w => .ok w
  | f :: fs, w => adv f w >>= run fs

/-- an encoder made of `ADV_SAFE`s: `size_t sofar = 0; ...; return sofar;` -/
def seq (fs : List F) : F := fun b off len => do
  let w ← run fs ⟨b, off, len, 0⟩
  return (w.buf, w.sofar)

/-- `Zipkin_Endpoint` (mtev_zipkin_encode.h:63-67) -/
structure Endpoint where
  ipv4 : Int
  port : Int
  service : Str
deriving DecidableEq, Repr

/-- `Zipkin_Annotation` (mtev_zipkin_encode.h:69-74) -/
structure Annotation where
  timestamp : Int
  value : Str
  host : Option Endpoint
deriving DecidableEq, Repr

/-- `Zipkin_BinaryAnnotation` (mtev_zipkin_encode.h:76-82) -/
structure BinAnnotation where
  key : Str
  value : Str
  type : Int
  host : Option Endpoint
deriving DecidableEq, Repr

/-- `Zipkin_Span` (mtev_zipkin_encode.h:93-110), what is encoded of it -/
structure Span where
  trace : Int
  name : Str
  id : Int
  parent : Option Int
  annotations : List Annotation
  binary : List BinAnnotation
  debug : Option Bool
  timestamp : Int
  duration : Int
deriving DecidableEq, Repr

/-- `ADV_SAFE(ze_field_begin(...)); ADV_SAFE(f); ADV_SAFE(ze_field_end(...));` -/
def field (ty : Nat) (id : Int) (f : F) : List F := [zeFieldBegin ty id, f, zero]

/-- `ze_Zipkin_Endpoint` (mtev_zipkin_encode.h:210-230) -/
def zeEndpoint (e : Endpoint) : F :=
  seq ([zero] ++ field 8 1 (zeI32 e.ipv4) ++ field 6 2 (zeI16 e.port) ++ field 11 3 (zeString e.service) ++ [zeFieldStop, zero])

/-- `if(v->host) { ... }` (mtev_zipkin_encode.h:245-249, 276-280) -/
def hostField (id : Int) : Option Endpoint → List F
  | none => []
  | some e => field 12 id (zeEndpoint e)

/-- `ze_Zipkin_Annotation` (mtev_zipkin_encode.h:231-254) -/
def zeAnnotation (a : Annotation) : F :=
  seq ([zero] ++ field 10 1 (zeI64 a.timestamp) ++ field 11 2 (zeString a.value) ++ hostField 3 a.host ++ [zeFieldStop, zero])

/-- `ze_Zipkin_BinaryAnnotation` (mtev_zipkin_encode.h:255-285) -/
def zeBinAnnotation (a : BinAnnotation) : F :=
  seq ([zero] ++ field 11 1 (zeString a.key) ++ field 11 2 (zeBinary a.value) ++ field 8 3 (zeI32 a.type) ++ hostField 4 a.host ++
    [zeFieldStop, zero])

/-- the list of annotations of either kind, if there are any (mtev_zipkin_encode.h:309-319, 323-333) -/
def listField (id : Int) (fs : List F) : List F :=
  match fs with
  | [] => []
  | _ => [zeFieldBegin 15 id, zeListBegin 12 fs.length] ++ fs ++ [zero, zero]

/-- the fields of `ze_Zipkin_Span` without the end mark (mtev_zipkin_encode.h:286-351) -/
def spanFields (v : Span) : List F :=
  [zero] ++ field 10 1 (zeI64 v.trace) ++ field 11 3 (zeString v.name) ++ field 10 4 (zeI64 v.id) ++
  (match v.parent with | none => [] | some p => field 10 5 (zeI64 p)) ++
  listField 6 (v.annotations.map zeAnnotation) ++
  listField 8 (v.binary.map zeBinAnnotation) ++
  (match v.debug with | none => [] | some d => field 2 9 (zeBool d)) ++
  (if v.timestamp ≠ 0 then field 10 10 (zeI64 v.timestamp) else []) ++
  (if v.duration ≠ 0 then field 10 11 (zeI64 v.duration) else [])

/-- `ze_Zipkin_Span` (mtev_zipkin_encode.h:286-356) -/
def zeSpan (v : Span) : F := seq (spanFields v ++ [zeFieldStop, zero])

/-- `ze_Zipkin_Span_List` (mtev_zipkin_encode.h:358-368) -/
def zeSpanList (vs : List Span) : F := seq ([zeListBegin 12 vs.length] ++ vs.map zeSpan ++ [zero])

/-- `mtev_zipkin_encode` (mtev_zipkin.c:105-110) -/
def encode (v : Span) : F := seq [zeSpan v]

/-- `mtev_zipkin_encode_list` (mtev_zipkin.c:112-117) -/
def encodeList (vs : List Span) : F := seq [zeSpanList vs]

/-- What `mtev_zipkin_span_publish` hands to the hook (mtev_zipkin.c:256-290); `stack` and `heap` are the contents of the memory
before.  Failing `malloc` is left out. -/
def publish (stack : Block) (heap : Nat → Nat) (v : Span) : Out (Option Str) := do
  let (b, n) ← encode v stack 0 stack.length
  if n ≤ stack.length then return some (b.take n)
  else
    let (b, m) ← encode v (malloc heap n) 0 n
    if m > n then return none
    else return some (b.take m)

/-! ## What an encoder does -/

/-- writing into a block -/
def splice (b : Block) (off : Nat) (e : Str) : Block := b.take off ++ e ++ b.drop (off + e.length)

theorem write_ok (b : Block) (off : Nat) (e : Str) (h : off + e.length ≤ b.length) : b.write off e = .ok (splice b off e) := by
  unfold Block.write splice
  rw [if_pos h]

theorem splice_length (b : Block) (off : Nat) (e : Str) (h : off + e.length ≤ b.length) : (splice b off e).length = b.length := by
  simp [splice]; omega

theorem splice_get (b : Block) (off : Nat) (e : Str) (h : off + e.length ≤ b.length) (i : Nat) :
    (splice b off e)[i]? = if i < off then b[i]? else if i < off + e.length then e[i - off]? else b[i]? := by
  unfold splice
  have ht : (b.take off).length = off := by simp; omega
  by_cases h1 : i < off
  · rw [if_pos h1, List.append_assoc, List.getElem?_append_left (by omega), List.getElem?_take_of_lt h1]
  · rw [if_neg h1]
    by_cases h2 : i < off + e.length
    · rw [if_pos h2, List.getElem?_append_left (by simp; omega), List.getElem?_append_right (by omega), ht]
    · rw [if_neg h2, List.getElem?_append_right (by simp; omega), List.getElem?_drop]
      congr 1
      simp; omega

theorem splice_splice (b : Block) (off : Nat) (x y : Str) (h : off + x.length + y.length ≤ b.length) :
    splice (splice b off x) (off + x.length) y = splice b off (x ++ y) := by
  have hl := splice_length b off x (by omega)
  apply List.ext_getElem?
  intro i
  rw [splice_get _ _ _ (by omega), splice_get _ _ _ (by omega), splice_get _ _ _ (by simp; omega)]
  simp only [List.length_append]
  by_cases h1 : i < off
  · rw [if_pos (by omega), if_pos h1, if_pos h1]
  · by_cases h2 : i < off + x.length
    · rw [if_pos h2, if_neg h1, if_pos h2, if_neg h1, if_pos (by omega), List.getElem?_append_left (by omega)]
    · rw [if_neg h2, if_neg h1, if_neg h1]
      by_cases h3 : i < off + x.length + y.length
      · rw [if_pos h3, if_pos (by omega), List.getElem?_append_right (by omega)]
        congr 1; omega
      · rw [if_neg h3, if_neg h2, if_neg (by omega)]

theorem splice_nil (b : Block) (off : Nat) : splice b off [] = b := by simp [splice]

/-- nothing but `len` bytes at `off` is changed -/
def Within (b b' : Block) (off len : Nat) : Prop := b'.length = b.length ∧ ∀ i, i < off ∨ off + len ≤ i → b'[i]? = b[i]?

theorem Within.refl (b : Block) (off len : Nat) : Within b b off len := ⟨rfl, fun _ _ => rfl⟩

theorem Within.trans {a b c : Block} {off len : Nat} (h1 : Within a b off len) (h2 : Within b c off len) : Within a c off len :=
  ⟨h2.1.trans h1.1, fun i hi => (h2.2 i hi).trans (h1.2 i hi)⟩

theorem Within.mono {a b : Block} {off len off' len' : Nat} (h : Within a b off len) (h1 : off' ≤ off) (h2 : off + len ≤ off' + len') :
    Within a b off' len' := ⟨h.1, fun i hi => h.2 i (by omega)⟩

theorem within_splice (b : Block) (off len : Nat) (e : Str) (h : off + e.length ≤ b.length) (hl : e.length ≤ len) :
    Within b (splice b off e) off len := by
  refine ⟨splice_length b off e h, fun i hi => ?_⟩
  rw [splice_get b off e h]
  rcases hi with hi | hi
  · rw [if_pos hi]
  · rw [if_neg (by omega), if_neg (by omega)]

/-- `f` returns the length of `e`, stays within the room it was given, and writes `e` if the room is at least `need`. -/
def Writes (f : F) (e : Str) (need : Nat) : Prop :=
  ∀ b off len, off + len ≤ b.length → ∃ b', f b off len = .ok (b', e.length) ∧ Within b b' off (min len e.length) ∧
    (need ≤ len → b' = splice b off e)

/-- room for twice the text is enough -/
def Good (f : F) (e : Str) : Prop := Writes f e (2 * e.length)

theorem Writes.good {f : F} {e : Str} (h : Writes f e e.length) : Good f e := by
  intro b off len hl
  obtain ⟨b', h1, h2, h3⟩ := h b off len hl
  exact ⟨b', h1, h2, fun hn => h3 (by omega)⟩

theorem fixed_writes (e : Str) (he : e ≠ []) : Writes (fixed e) e e.length := by
  intro b off len hl
  have hp : 0 < e.length := List.length_pos_iff.2 he
  by_cases h : len > e.length - 1
  · refine ⟨splice b off e, ?_, within_splice b off _ e (by omega) (by omega), fun _ => rfl⟩
    simp only [fixed]
    rw [if_pos h, write_ok b off e (by omega)]
    rfl
  · refine ⟨b, ?_, Within.refl _ _ _, fun hn => by omega⟩
    simp only [fixed]
    rw [if_neg h]
    rfl

theorem zero_writes : Writes zero [] 0 := fun b off len _ => ⟨b, rfl, Within.refl _ _ _, fun _ => (splice_nil b off).symm⟩

theorem fixed_at (e : Str) (he : e ≠ []) (b : Block) (off len : Nat) (h : off + e.length ≤ b.length) (hl : e.length ≤ len) :
    fixed e b off len = .ok (splice b off e, e.length) := by
  have hp : 0 < e.length := List.length_pos_iff.2 he
  simp only [fixed]
  rw [if_pos (by omega), write_ok b off e h]
  rfl

theorem listBegin_writes (ty : Nat) (cnt : Int) : Writes (zeListBegin ty cnt) ([ty] ++ be32 cnt) 5 := by
  intro b off len hl
  by_cases h : len > 4
  · refine ⟨splice b off ([ty] ++ be32 cnt), ?_, within_splice b off _ _ (by simp [be32]; omega) (by simp [be32]; omega),
      fun _ => rfl⟩
    unfold zeListBegin zeByte zeI32
    rw [if_pos h, fixed_at [ty] (by simp) b off len (by simp; omega) (by simp; omega)]
    simp only [Out.ok_bind]
    rw [fixed_at (be32 cnt) (by simp [be32]) _ (off + 1) (len - 1) (by rw [splice_length _ _ _ (by simp; omega)]; simp [be32]; omega)
      (by simp [be32]; omega)]
    simp only [Out.ok_bind]
    have := splice_splice b off [ty] (be32 cnt) (by simp [be32]; omega)
    simp only [List.length_singleton] at this
    rw [this]
    rfl
  · refine ⟨b, ?_, Within.refl _ _ _, fun hn => by omega⟩
    unfold zeListBegin
    rw [if_neg h]
    rfl

theorem fieldBegin_writes (ty : Nat) (id : Int) : Writes (zeFieldBegin ty id) ([ty] ++ be16 id) 3 := by
  intro b off len hl
  by_cases h : len < 3
  · refine ⟨b, ?_, Within.refl _ _ _, fun hn => by omega⟩
    unfold zeFieldBegin
    rw [if_pos h]
    rfl
  · refine ⟨splice b off ([ty] ++ be16 id), ?_, within_splice b off _ _ (by simp [be16]; omega) (by simp [be16]; omega),
      fun _ => rfl⟩
    unfold zeFieldBegin zeByte zeI16
    rw [if_neg h, fixed_at [ty] (by simp) b off len (by simp; omega) (by simp; omega)]
    simp only [Out.ok_bind]
    rw [fixed_at (be16 id) (by simp [be16]) _ (off + 1) (len - 1) (by rw [splice_length _ _ _ (by simp; omega)]; simp [be16]; omega)
      (by simp [be16]; omega)]
    simp only [Out.ok_bind]
    have := splice_splice b off [ty] (be16 id) (by simp [be16]; omega)
    simp only [List.length_singleton] at this
    rw [this]
    rfl

theorem be32_length (v : Int) : (be32 v).length = 4 := rfl

theorem string_writes (s : Str) (hs : s.length < 2 ^ 31) : Writes (zeString s) (be32 s.length ++ s) (4 + s.length) := by
  intro b off len hl
  obtain ⟨b', h1, h2, h3⟩ := fixed_writes (be32 s.length) (by simp [be32]) b off len hl
  have hlen : (be32 s.length ++ s).length = 4 + s.length := by simp [be32_length]
  unfold zeString zeI32
  rw [if_neg (by omega), h1]
  simp only [Out.ok_bind, be32_length]
  by_cases h : 4 + s.length > len
  · rw [if_pos h, hlen]
    exact ⟨b', rfl, h2.mono (le_refl _) (by rw [be32_length]; omega), fun hn => by omega⟩
  · rw [if_neg h, hlen]
    have hb := h3 (by simp [be32_length]; omega)
    rw [hb]
    have h4 : off + (be32 (s.length : Int)).length ≤ b.length := by rw [be32_length]; omega
    rw [write_ok _ _ _ (by rw [splice_length _ _ _ h4]; omega)]
    simp only [Out.ok_bind, Out.pure_eq]
    have := splice_splice b off (be32 s.length) s (by rw [be32_length]; omega)
    rw [be32_length] at this
    rw [this]
    exact ⟨_, rfl, within_splice b off _ _ (by rw [hlen]; omega) (by rw [hlen]; omega), fun _ => rfl⟩

theorem binary_writes (s : Str) : Writes (zeBinary s) (be32 s.length ++ s) (4 + s.length) := by
  intro b off len hl
  have hlen : (be32 s.length ++ s).length = 4 + s.length := by simp [be32_length]
  unfold zeBinary zeI32
  by_cases h : 4 + s.length > len
  · rw [if_pos h, hlen]
    exact ⟨b, rfl, Within.refl _ _ _, fun hn => by omega⟩
  · rw [if_neg h, hlen]
    have h4 : off + (be32 (s.length : Int)).length ≤ b.length := by rw [be32_length]; omega
    rw [fixed_at (be32 s.length) (by simp [be32]) b off len h4 (by rw [be32_length]; omega)]
    simp only [Out.ok_bind, be32_length]
    rw [write_ok _ _ _ (by rw [splice_length _ _ _ h4]; omega)]
    simp only [Out.ok_bind, Out.pure_eq]
    have := splice_splice b off (be32 s.length) s (by rw [be32_length]; omega)
    rw [be32_length] at this
    rw [this]
    exact ⟨_, rfl, within_splice b off _ _ (by rw [hlen]; omega) (by rw [hlen]; omega), fun _ => rfl⟩

/-- encoders and what they write -/
abbrev Goods (fs : List F) (es : List Str) : Prop := List.Forall₂ Good fs es

theorem run_good : ∀ (fs : List F) (es : List Str), Goods fs es → ∀ w : W, w.off + w.len ≤ w.buf.length →
    ∃ w', run fs w = .ok w' ∧ Within w.buf w'.buf w.off (min w.len es.flatten.length) ∧ w'.sofar = w.sofar + es.flatten.length ∧ w.off ≤ w'.off ∧
      w'.off + w'.len ≤ w.off + w.len ∧ w'.len + es.flatten.length ≤ max w.len es.flatten.length ∧
      (w.sofar + 2 * es.flatten.length ≤ w.len →
        w'.buf = splice w.buf w.off es.flatten ∧ w'.off = w.off + es.flatten.length ∧ w'.len = w.len - es.flatten.length)
  | [], [], _, w, hw => ⟨w, rfl, Within.refl _ _ _, by simp, le_refl _, le_refl _, by simp, fun _ => by simp [splice_nil]⟩
  | f :: fs, e :: es, h, w, hw => by
    cases h with
    | cons h1 h2 =>
      obtain ⟨b, k1, k2, k3⟩ := h1 w.buf w.off w.len hw
      simp only [run, adv, k1, Out.ok_bind, List.flatten_cons, List.length_append]
      by_cases hs : w.sofar + e.length > w.len
      · rw [if_pos hs]
        simp only [Out.pure_eq, Out.ok_bind]
        obtain ⟨w', r1, r2, r3, r4, r5, r6, r7⟩ := run_good fs es h2 ⟨b, w.off, 0, w.sofar + e.length⟩ (by simp [k2.1]; omega)
        simp only at r2 r3 r4 r5 r6
        refine ⟨w', r1, (k2.mono (le_refl _) (by omega)).trans (r2.mono (le_refl _) (by omega)), by rw [r3]; omega, r4, by omega, ?_, fun hn => by omega⟩
        have : max 0 es.flatten.length = es.flatten.length := by simp
        rw [this] at r6
        have := le_max_right w.len (e.length + es.flatten.length)
        omega
      · rw [if_neg hs]
        simp only [Out.pure_eq, Out.ok_bind]
        obtain ⟨w', r1, r2, r3, r4, r5, r6, r7⟩ := run_good fs es h2 ⟨b, w.off + e.length, w.len - e.length, w.sofar + e.length⟩
          (by simp [k2.1]; omega)
        simp only at r2 r3 r4 r5 r6 r7
        refine ⟨w', r1, (k2.mono (le_refl _) (by omega)).trans (r2.mono (by omega) (by omega)), by rw [r3]; omega, by omega, by omega, ?_, fun hn => ?_⟩
        · rcases le_total (w.len - e.length) es.flatten.length with hh | hh
          · rw [max_eq_right hh] at r6
            have := le_max_right w.len (e.length + es.flatten.length)
            omega
          · rw [max_eq_left hh] at r6
            have := le_max_left w.len (e.length + es.flatten.length)
            omega
        · obtain ⟨q1, q2, q3⟩ := r7 (by omega)
          refine ⟨?_, by omega, by omega⟩
          rw [q1, k3 (by omega), splice_splice _ _ _ _ (by omega)]

theorem seq_good (fs : List F) (es : List Str) (h : Goods fs es) : Good (seq fs) es.flatten := by
  intro b off len hl
  obtain ⟨w', r1, r2, r3, -, -, -, r7⟩ := run_good fs es h ⟨b, off, len, 0⟩ hl
  refine ⟨w'.buf, ?_, r2, fun hn => (r7 (by simpa using hn)).1⟩
  simp only [seq, r1, Out.ok_bind, Out.pure_eq, r3]
  simp

end Mtev.Zipkin
