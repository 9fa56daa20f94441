import Verif.Basic

/-!
# Model of `src/utils/mtev_url.c`

Percent-encoding, percent-decoding and HTML escaping.  A call is modelled by the
value it returns and by `written`, the bytes it stored at `dest[0]`, `dest[1]`, ...
in order (all three functions store sequentially through an increasing pointer).
A store is out of bounds exactly when `written` is longer than `dest_len`.

Simplifications: the return type `int` is not truncated (lengths are below 2^31);
logging is omitted.
-/

namespace Mtev.Url

/-- What a call returns and what it stored. -/
structure Res where
  ret : Nat
  written : List Nat
deriving Repr, DecidableEq

/-- `isallowed.content.map`, mtev_url.c:47-51. -/
def isallowedMap : List Nat := [0x0, 0x3ff6000, 0x87fffffe, 0x47fffffe, 0x0, 0x0, 0x0, 0x0]

/-- `ck_bitmap_test(&isallowed.bitmap, b)`, mtev_url.c:83,112: bit `b % 32` of word `b / 32`. -/
def isallowed (b : Nat) : Bool := ((isallowedMap.getD (b / 32) 0) >>> (b % 32)) % 2 == 1

/-- The table `hexval`, mtev_url.c:52-64. -/
def hexvalTable : List Nat :=
  [0,0,0,0,0,0,0,0,0,0,0,0,0,0,0,0,0,0,0,0,0,0,0,0,0,0,0,0,0,0,0,0,
   0,0,0,0,0,0,0,0,0,0,0,0,0,0,0,0,0,1,2,3,4,5,6,7,8,9,0,0,0,0,0,0,
   0,10,11,12,13,14,15,0,0,0,0,0,0,0,0,0,0,0,0,0,0,0,0,0,0,0,0,0,0,0,0,0,
   0,10,11,12,13,14,15,0,0,0,0,0,0,0,0,0,0,0,0,0,0,0,0,0,0,0,0,0,0,0,0,0,
   0,0,0,0,0,0,0,0,0,0,0,0,0,0,0,0,0,0,0,0,0,0,0,0,0,0,0,0,0,0,0,0,
   0,0,0,0,0,0,0,0,0,0,0,0,0,0,0,0,0,0,0,0,0,0,0,0,0,0,0,0,0,0,0,0,
   0,0,0,0,0,0,0,0,0,0,0,0,0,0,0,0,0,0,0,0,0,0,0,0,0,0,0,0,0,0,0,0,
   0,0,0,0,0,0,0,0,0,0,0,0,0,0,0,0,0,0,0,0,0,0,0,0,0,0,0,0,0,0,0,0]

/-- `hexval[b]`; the index is an `unsigned char`, so always inside the table. -/
def hexval (b : Nat) : Nat := hexvalTable.getD b 0

/-- `_hexchars`, mtev_url.c:66-67. -/
def hexchars : List Nat := [48,49,50,51,52,53,54,55,56,57,65,66,67,68,69,70]

/-- The test of mtev_url.c:78-79 on one character: `hexval[c] || c == '0'`. -/
def isHexByTable (c : Nat) : Bool := hexval c != 0 || c == 48

/-- The loop of `mtev_url_decode`, mtev_url.c:75-91.  The first component tells whether
the loop ran to the end; the second is the list of bytes stored so far. -/
def decodeLoop : List Nat → List Nat → Bool × List Nat
  | [], acc => (true, acc)
  | 37 :: rest, acc =>
    match rest with
    | a :: b :: rest' =>
      if isHexByTable a && isHexByTable b then
        decodeLoop rest' (acc ++ [((hexval a <<< 4) ||| hexval b) % 256])
      else (false, acc)
    | _ => (false, acc)
  | c :: rest, acc =>
    if isallowed c then decodeLoop rest (acc ++ [c]) else (false, acc)

/-- `mtev_url_decode`, mtev_url.c:69-92. -/
def decode (src : List Nat) (dest_len : Nat) : Res :=
  if dest_len < src.length + 1 then ⟨0, []⟩
  else
    let r := decodeLoop src []
    ⟨if r.1 then r.2.length else 0, r.2⟩

/-- `mtev_url_max_decode_len`, mtev_url.c:94-97. -/
def maxDecodeLen (n : Nat) : Nat := n + 1

/-- What one source byte adds to the output, mtev_url.c:112-118. -/
def encodeByte (b : Nat) : List Nat :=
  if isallowed b then [b]
  else [37, hexchars.getD (b >>> 4) 0, hexchars.getD (b % 16) 0]

/-- The text part of the output, loop of mtev_url.c:111-119. -/
def encodeText : List Nat → List Nat
  | [] => []
  | b :: rest => encodeByte b ++ encodeText rest

/-- `mtev_url_encode`, mtev_url.c:99-122, when source and destination do not overlap. -/
def encode (src : List Nat) (dest_len : Nat) : Res :=
  if dest_len < src.length * 3 then ⟨0, []⟩
  else ⟨(encodeText src).length, encodeText src ++ [0]⟩

/-- `mtev_url_encode_len`, mtev_url.c:124-127. -/
def encodeLen (n : Nat) : Nat := n * 3 + 1

/-! ### In-place encoding (mtev_url.c:103-109) over an explicit buffer -/

/-- Store `bs` at offset `o` of the buffer; `none` if any store is outside it. -/
def store (mem : List Nat) (o : Nat) (bs : List Nat) : Option (List Nat) :=
  if o + bs.length ≤ mem.length then some (mem.take o ++ bs ++ mem.drop (o + bs.length)) else none

/-- The loop of mtev_url.c:111-119 when the source sits in the destination buffer at offset
`s`: `k` bytes remain, the next read is at `s`, the next write at `o`. Reads outside the
buffer and writes outside the buffer give `none`. -/
def inplaceLoop : Nat → Nat → Nat → List Nat → Option (Nat × List Nat)
  | 0, _, o, mem => (store mem o [0]).map fun m => (o, m)
  | k + 1, s, o, mem =>
    match mem[s]? with
    | none => none
    | some b =>
      match store mem o (encodeByte b) with
      | none => none
      | some m => inplaceLoop k (s + 1) (o + (encodeByte b).length) m

/-- `mtev_url_encode(dest + off, n, dest, dest_len)` with `dest` a buffer `mem` of `dest_len`
bytes, mtev_url.c:99-122.  `none` is undefined behaviour. The memmove happens before the size
check, as in the code. -/
def encodeInPlace (mem : List Nat) (off n : Nat) : Option (Nat × List Nat) :=
  let src := (mem.drop off).take n
  if mem.length < n then none           -- memmove below dest[0]
  else if mem.length < off + n then none -- source read past the buffer
  else
    match store mem (mem.length - n) src with
    | none => none
    | some m =>
      if mem.length < n * 3 then some (0, m)
      else inplaceLoop n (mem.length - n) 0 m

/-! ### HTML escaping -/

/-- The text written for a source byte, mtev_url.c:136-179. -/
def htmlByte (b : Nat) : List Nat :=
  if b = 60 then [38, 108, 116, 59]            -- &lt;
  else if b = 62 then [38, 103, 116, 59]       -- &gt;
  else if b = 38 then [38, 97, 109, 112, 59]   -- &amp;
  else if b = 34 then [38, 35, 51, 52, 59]     -- &#34;
  else if b = 39 then [38, 35, 51, 57, 59]     -- &#39;
  else [b]

/-- The slack demanded by the room test, mtev_url.c:138,145,152,160,168,176: `1+4`, `1+5` or `2`. -/
def htmlSlack (b : Nat) : Nat :=
  if b = 60 then 5 else if b = 62 then 5 else if b = 38 then 6 else if b = 34 then 6
  else if b = 39 then 6 else 2

/-- The loop of `mtev_html_encode`, mtev_url.c:135-183.  `dest >= dend - k` is compared over
the integers, since `dend - k` may point before the buffer. -/
def htmlLoop (dest_len : Nat) : List Nat → List Nat → Res
  | [], acc => ⟨acc.length, acc ++ [0]⟩
  | b :: rest, acc =>
    if b = 0 then ⟨acc.length, acc ++ [0]⟩
    else if (acc.length : Int) ≥ (dest_len : Int) - (htmlSlack b : Int) then ⟨0, acc⟩
    else htmlLoop dest_len rest (acc ++ htmlByte b)

/-- `mtev_html_encode`, mtev_url.c:129-184. -/
def htmlEncode (src : List Nat) (dest_len : Nat) : Res :=
  if dest_len < 1 then ⟨0, []⟩ else htmlLoop dest_len src []

/-- `mtev_html_encode_len`, mtev_url.c:185-188. -/
def htmlEncodeLen (n : Nat) : Nat := n * 5 + 1

/-! ## Lemmas -/

theorem encodeByte_length_le (b : Nat) : (encodeByte b).length ≤ 3 := by
  unfold encodeByte; split <;> simp

theorem encodeByte_length_pos (b : Nat) : 1 ≤ (encodeByte b).length := by
  unfold encodeByte; split <;> simp

theorem encodeText_length_le (s : List Nat) : (encodeText s).length ≤ 3 * s.length := by
  induction s with
  | nil => simp [encodeText]
  | cons b r ih =>
    have := encodeByte_length_le b
    simp only [encodeText, List.length_append, List.length_cons]; omega

theorem decodeLoop_encodeByte {b : Nat} (hb : b < 256) (rest acc : List Nat) :
    decodeLoop (encodeByte b ++ rest) acc = decodeLoop rest (acc ++ [b]) := by
  have h37 : isallowed 37 = false := by decide
  unfold encodeByte
  split
  · rename_i h
    have : b ≠ 37 := by intro hh; subst hh; rw [h37] at h; exact absurd h (by decide)
    simp only [List.cons_append, List.nil_append]
    rw [decodeLoop]
    · rw [if_pos h]
    · intro hh; exact this hh
  · rename_i h
    have key : ∀ x : Fin 256,
        isHexByTable (hexchars.getD (x.val >>> 4) 0) = true ∧
        isHexByTable (hexchars.getD (x.val % 16) 0) = true ∧
        ((hexval (hexchars.getD (x.val >>> 4) 0) <<< 4) ||| hexval (hexchars.getD (x.val % 16) 0)) % 256 = x.val := by
      decide +kernel
    obtain ⟨k1, k2, k3⟩ := key ⟨b, hb⟩
    simp only [List.cons_append, List.nil_append]
    rw [decodeLoop]
    simp only [k1, k2, k3, Bool.and_self, if_true]

theorem decodeLoop_encodeText {s : List Nat} (hs : IsBytes s) (acc : List Nat) :
    decodeLoop (encodeText s) acc = (true, acc ++ s) := by
  induction s generalizing acc with
  | nil => simp [encodeText, decodeLoop]
  | cons b r ih =>
    rw [isBytes_cons] at hs
    rw [encodeText, decodeLoop_encodeByte hs.1, ih hs.2]
    simp

theorem decodeLoop_length (s acc : List Nat) :
    (decodeLoop s acc).2.length ≤ acc.length + s.length := by
  fun_induction decodeLoop s acc <;> simp_all <;> omega

theorem encodeText_append (s t : List Nat) : encodeText (s ++ t) = encodeText s ++ encodeText t := by
  induction s with
  | nil => rfl
  | cons a r ih => simp [encodeText, ih]

theorem store_length {mem m : List Nat} {o : Nat} {bs : List Nat} (h : store mem o bs = some m) :
    m.length = mem.length := by
  unfold store at h
  split at h
  · cases h; simp; omega
  · cases h

theorem store_ok {mem : List Nat} {o : Nat} {bs : List Nat} (h : o + bs.length ≤ mem.length) :
    store mem o bs = some (mem.take o ++ bs ++ mem.drop (o + bs.length)) := by
  unfold store; rw [if_pos h]

/-- Loop invariant of the in-place encoder: `done` is already encoded at the front, the unread
part is intact at the back. -/
theorem inplaceLoop_spec (n : Nat) (cap : Nat) (hcap : 3 * n + 1 ≤ cap) (todo : List Nat) :
    ∀ (dn : List Nat) (mem : List Nat), mem.length = cap → dn.length + todo.length = n →
      mem.take (encodeText dn).length = encodeText dn →
      mem.drop (cap - todo.length) = todo →
      ∃ m, inplaceLoop todo.length (cap - todo.length) (encodeText dn).length mem
          = some ((encodeText (dn ++ todo)).length, m) ∧
        m.take ((encodeText (dn ++ todo)).length + 1) = encodeText (dn ++ todo) ++ [0] ∧
        m.length = cap := by
  induction todo with
  | nil =>
    intro dn mem hlen hn hfront _
    have hl := encodeText_length_le dn
    simp only [List.length_nil, Nat.add_zero] at hn
    have hst : (encodeText dn).length + [0].length ≤ mem.length := by simp; omega
    refine ⟨mem.take (encodeText dn).length ++ [0] ++ mem.drop ((encodeText dn).length + [0].length), ?_, ?_, ?_⟩
    · simp only [List.length_nil, inplaceLoop, List.append_nil, store_ok hst, Option.map_some]
    · rw [hfront]
      simp only [List.append_nil]
      have : (encodeText dn ++ [0]).length = (encodeText dn).length + 1 := by simp
      rw [← this, List.take_left]
    · simp; simp at hst; omega
  | cons b r ih =>
    intro dn mem hlen hn hfront hback
    simp only [List.length_cons] at hn hback ⊢
    have hl := encodeText_length_le dn
    have hbl := encodeByte_length_le b
    have hget : mem[cap - (r.length + 1)]? = some b := by
      have h1 : (mem.drop (cap - (r.length + 1)))[0]? = some b := by rw [hback]; rfl
      rw [List.getElem?_drop] at h1
      simpa using h1
    have hst : (encodeText dn).length + (encodeByte b).length ≤ mem.length := by omega
    have hdrop : mem.drop (cap - r.length) = r := by
      have h1 : (mem.drop (cap - (r.length + 1))).drop 1 = r := by rw [hback]; rfl
      rw [List.drop_drop] at h1
      have e : cap - (r.length + 1) + 1 = cap - r.length := by omega
      rw [e] at h1
      exact h1
    have key := ih (dn ++ [b])
      (mem.take (encodeText dn).length ++ encodeByte b ++ mem.drop ((encodeText dn).length + (encodeByte b).length))
      (by simp; omega) (by simp; omega)
      (by
        rw [encodeText_append, hfront]
        have : encodeText [b] = encodeByte b := by simp [encodeText]
        rw [this]
        rw [List.take_left])
      (by
        have hpre : (mem.take (encodeText dn).length ++ encodeByte b).length
            = (encodeText dn).length + (encodeByte b).length := by
          simp; omega
        rw [List.drop_append, hpre, List.drop_drop,
          List.drop_eq_nil_of_le (by rw [hpre]; omega), List.nil_append]
        rw [show (encodeText dn).length + (encodeByte b).length +
          (cap - r.length - ((encodeText dn).length + (encodeByte b).length)) = cap - r.length by omega]
        exact hdrop)
    obtain ⟨m, h1, h2, h3⟩ := key
    refine ⟨m, ?_, ?_, h3⟩
    · rw [inplaceLoop, hget]
      simp only [store_ok hst]
      rw [show cap - (r.length + 1) + 1 = cap - r.length by omega]
      have e : (encodeText (dn ++ [b])).length = (encodeText dn).length + (encodeByte b).length := by
        rw [encodeText_append]; simp [encodeText]
      rw [e] at h1
      rw [h1]
      simp
    · simpa using h2

theorem htmlByte_length_slack (b : Nat) : (htmlByte b).length + 1 ≤ htmlSlack b := by
  unfold htmlByte htmlSlack
  repeat' split
  all_goals simp

theorem htmlLoop_bound (dl : Nat) (src acc : List Nat) (h : acc.length + 1 ≤ dl) :
    (htmlLoop dl src acc).written.length ≤ dl := by
  induction src generalizing acc with
  | nil => simp [htmlLoop]; omega
  | cons b r ih =>
    rw [htmlLoop]
    split
    · simp; omega
    · split
      · simp; omega
      · apply ih
        have := htmlByte_length_slack b
        simp; omega

end Mtev.Url
