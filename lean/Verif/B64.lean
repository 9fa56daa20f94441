import Verif.Basic

/-!
# Model of `src/utils/mtev_b64.c` and of the portable codec of `src/aklomp-base64`

`mtev_b64_decode` first runs the strict decoder of aklomp-base64 and, when that fails, its own
lenient loop over the same destination.  A call is modelled by its return value, the bytes left
at `dest[0]`, ... by the path that produced the result (`written`), and `touched`, the number of
leading destination bytes stored to by either path.

Simplifications: the word-at-a-time and SIMD loops (`generic/32/dec_loop.c`, `arch/*`) are not
modelled, only the byte loops `generic/dec_tail.c` and `generic/enc_tail.c` they fall back to;
`int` results are not truncated.
-/

namespace Mtev.B64

/-- `base64_table_enc`, aklomp-base64/lib/lib.c:17-21. -/
def encTable : List Nat :=
  (List.range 26).map (· + 65) ++ (List.range 26).map (· + 97) ++ (List.range 10).map (· + 48) ++ [43, 47]

/-- `base64_table_enc[v]`; every index in the code is below 64. -/
def ch (v : Nat) : Nat := encTable.getD v 0

/-- `base64_table_dec`, aklomp-base64/lib/lib.c:29-48. -/
def decTable : List Nat :=
  [255, 255, 255, 255, 255, 255, 255, 255, 255, 255, 255, 255, 255, 255, 255, 255,
   255, 255, 255, 255, 255, 255, 255, 255, 255, 255, 255, 255, 255, 255, 255, 255,
   255, 255, 255, 255, 255, 255, 255, 255, 255, 255, 255, 62, 255, 255, 255, 63,
   52, 53, 54, 55, 56, 57, 58, 59, 60, 61, 255, 255, 255, 254, 255, 255,
   255, 0, 1, 2, 3, 4, 5, 6, 7, 8, 9, 10, 11, 12, 13, 14,
   15, 16, 17, 18, 19, 20, 21, 22, 23, 24, 25, 255, 255, 255, 255, 255,
   255, 26, 27, 28, 29, 30, 31, 32, 33, 34, 35, 36, 37, 38, 39, 40,
   41, 42, 43, 44, 45, 46, 47, 48, 49, 50, 51, 255, 255, 255, 255, 255,
   255, 255, 255, 255, 255, 255, 255, 255, 255, 255, 255, 255, 255, 255, 255, 255,
   255, 255, 255, 255, 255, 255, 255, 255, 255, 255, 255, 255, 255, 255, 255, 255,
   255, 255, 255, 255, 255, 255, 255, 255, 255, 255, 255, 255, 255, 255, 255, 255,
   255, 255, 255, 255, 255, 255, 255, 255, 255, 255, 255, 255, 255, 255, 255, 255,
   255, 255, 255, 255, 255, 255, 255, 255, 255, 255, 255, 255, 255, 255, 255, 255,
   255, 255, 255, 255, 255, 255, 255, 255, 255, 255, 255, 255, 255, 255, 255, 255,
   255, 255, 255, 255, 255, 255, 255, 255, 255, 255, 255, 255, 255, 255, 255, 255,
   255, 255, 255, 255, 255, 255, 255, 255, 255, 255, 255, 255, 255, 255, 255, 255]

/-- `base64_table_dec[c]`; the index is a `uint8_t`. -/
def tab (c : Nat) : Nat := decTable.getD c 255

/-- Outcome of the strict decoder: `ret`, the final `bytes` and the bytes stored. -/
structure FRes where
  ret : Bool
  bytes : Nat
  out : List Nat
deriving Repr, DecidableEq

/-- The strict byte loop, aklomp-base64/lib/arch/generic/dec_tail.c:1-47 (`bytes` is the Duff's
device entry point, `carry` an `unsigned char`). -/
def dec (bytes carry : Nat) (out : List Nat) : List Nat → FRes
  | [] => ⟨true, bytes, out⟩
  | c :: r =>
    let q := tab c
    if bytes = 0 then
      if q ≥ 254 then ⟨false, 0, out⟩ else dec 1 ((q <<< 2) % 256) out r
    else if bytes = 1 then
      if q ≥ 254 then ⟨false, 1, out⟩
      else dec 2 ((q <<< 4) % 256) (out ++ [carry ||| (q >>> 4)]) r
    else if bytes = 2 then
      if q ≥ 254 then
        if q = 254 then
          match r with
          | [] => ⟨true, 3, out⟩
          | c2 :: r2 => ⟨tab c2 == 254 && r2.isEmpty, 0, out⟩
        else ⟨false, 3, out⟩
      else dec 3 ((q <<< 6) % 256) (out ++ [carry ||| (q >>> 2)]) r
    else
      if q ≥ 254 then ⟨q == 254 && r.isEmpty, 0, out⟩
      else dec 0 0 (out ++ [carry ||| q]) r

/-- `base64_decode` with flags 0, aklomp-base64/lib/lib.c:167-196: success needs `ret` and no
partial group. -/
def fastDecode (src : List Nat) : Bool × List Nat :=
  let r := dec 0 0 [] src
  (r.ret && r.bytes == 0, r.out)

/-- State of the lenient loop: `arr` is `in[4]` (not initialised by the code), `ib`, `ob`, the
bytes stored, and whether the loop has been left. -/
structure DSt where
  arr : List Nat
  ib : Nat
  ob : Nat
  out : List Nat
  stop : Bool
deriving Repr, DecidableEq

/-- The character classification of mtev_b64.c:63-70: a value, 255 for `=`, 256 for skipped white
space, 257 for anything else. -/
def dval (c : Nat) : Nat :=
  if 65 ≤ c ∧ c ≤ 90 then c - 65
  else if 97 ≤ c ∧ c ≤ 122 then c - 97 + 26
  else if 48 ≤ c ∧ c ≤ 57 then c - 48 + 52
  else if c = 43 ∨ c = 45 then 62
  else if c = 47 ∨ c = 95 then 63
  else if c = 61 then 0xff
  else if c = 32 ∨ (9 ≤ c ∧ c ≤ 13) then 256
  else 257

/-- `out[0..2]`, mtev_b64.c:80-82. -/
def group (i : List Nat) : List Nat :=
  let g := fun k => i.getD k 0
  [ ((g 0 <<< 2) ||| ((g 1 &&& 0x30) >>> 4)) % 256,
    (((g 1 &&& 0x0f) <<< 4) ||| ((g 2 &&& 0x3c) >>> 2)) % 256,
    (((g 2 &&& 0x03) <<< 6) ||| (g 3 &&& 0x3f)) % 256 ]

/-- `in[ib++] = ch` and the flush, mtev_b64.c:78-86. -/
def push (st : DSt) (ib ob c : Nat) : DSt :=
  let arr := st.arr.set ib c
  if ib + 1 = 4 then { arr := arr, ib := 0, ob := ob, out := st.out ++ (group arr).take ob, stop := false }
  else { arr := arr, ib := ib + 1, ob := ob, out := st.out, stop := false }

/-- One iteration of the lenient loop, mtev_b64.c:62-87. -/
def step (st : DSt) (c : Nat) : DSt :=
  if st.stop then st
  else
    let v := dval c
    if v = 256 then st
    else if v = 257 then { st with stop := true }
    else if v = 0xff then
      if st.ib = 0 then { st with stop := true }
      else push st 3 (if st.ib = 1 ∨ st.ib = 2 then 1 else 2) v
    else push st st.ib st.ob v

/-- State on entry to the lenient loop, mtev_b64.c:42-45; `junk` is the uninitialised `in`. -/
def init (junk : List Nat) : DSt := { arr := junk, ib := 0, ob := 3, out := [], stop := false }

/-- `mtev_b64_max_decode_len`, mtev_b64.c:91-94. -/
def maxDecodeLen (n : Nat) : Nat := ((n + 3) / 4) * 3

/-- The three size tests, mtev_b64.c:49-55; `needed - 2` and `needed - 1` are `size_t`. -/
def refused (src : List Nat) (dest_len : Nat) : Bool :=
  let n := src.length
  let needed := maxDecodeLen n
  if dest_len < (needed + 2 ^ 64 - 2) % 2 ^ 64 then true
  else if n > 1 ∧ src.getD (n - 2) 0 ≠ 61 ∧ src.getD (n - 1) 0 = 61 then dest_len < (needed + 2 ^ 64 - 1) % 2 ^ 64
  else if n > 1 ∧ src.getD (n - 2) 0 ≠ 61 ∧ src.getD (n - 1) 0 ≠ 61 then dest_len < needed
  else false

/-- Result of a decode call. -/
structure Res where
  ret : Nat
  written : List Nat
  touched : Nat
deriving Repr, DecidableEq

/-- `mtev_b64_decode`, mtev_b64.c:39-89. -/
def decode (junk : List Nat) (src : List Nat) (dest_len : Nat) : Res :=
  if refused src dest_len then ⟨0, [], 0⟩
  else
    let f := fastDecode src
    if f.1 then ⟨f.2.length, f.2, f.2.length⟩
    else
      let st := src.foldl step (init junk)
      ⟨st.out.length, st.out, max f.2.length st.out.length⟩

/-- Encoder stream state, `struct base64_state` restricted to `bytes` and `carry`. -/
structure ESt where
  bytes : Nat
  carry : Nat
  out : List Nat
deriving Repr, DecidableEq

/-- One byte through the encoder, aklomp-base64/lib/arch/generic/enc_tail.c:1-32. -/
def encByte (st : ESt) (c : Nat) : ESt :=
  if st.bytes = 0 then ⟨1, (c <<< 4) &&& 0x30, st.out ++ [ch (c >>> 2)]⟩
  else if st.bytes = 1 then ⟨2, (c <<< 2) &&& 0x3C, st.out ++ [ch (st.carry ||| (c >>> 4))]⟩
  else ⟨0, st.carry, st.out ++ [ch (st.carry ||| (c >>> 6)), ch (c &&& 0x3F)]⟩

/-- `base64_stream_encode`, aklomp-base64/lib/lib.c:63-72 with enc_head.c/enc_tail.c. -/
def encStream (st : ESt) (src : List Nat) : ESt := src.foldl encByte st

/-- `base64_stream_encode_final`, aklomp-base64/lib/lib.c:75-98. -/
def encFinal (st : ESt) : List Nat :=
  if st.bytes = 1 then st.out ++ [ch st.carry, 61, 61]
  else if st.bytes = 2 then st.out ++ [ch st.carry, 61]
  else st.out

/-- `mtev_b64_encode_len`, mtev_b64.c:134-136. -/
def encodeLen (n : Nat) : Nat := 4 * ((n + 2) / 3)

/-- `mtev_b64_encodev`, mtev_b64.c:106-132: the pieces of the iovec go through one stream. -/
def encodev (iov : List (List Nat)) (dest_len : Nat) : Nat × List Nat :=
  if dest_len < encodeLen (iov.map List.length).sum then (0, [])
  else
    let o := encFinal (iov.foldl encStream ⟨0, 0, []⟩)
    (o.length, o)

/-- `mtev_b64_encode`, mtev_b64.c:96-104. -/
def encode (src : List Nat) (dest_len : Nat) : Nat × List Nat := encodev [src] dest_len

/-! ## Lemmas -/

/-- The encoder's text in closed form, used by the proofs. -/
def encText : List Nat → List Nat
  | b0 :: b1 :: b2 :: rest =>
    [ch (b0 / 4), ch (b0 % 4 * 16 + b1 / 16), ch (b1 % 16 * 4 + b2 / 64), ch (b2 % 64)] ++ encText rest
  | [] => []
  | [b0] => [ch (b0 / 4), ch (b0 % 4 * 16), 61, 61]
  | [b0, b1] => [ch (b0 / 4), ch (b0 % 4 * 16 + b1 / 16), ch (b1 % 16 * 4), 61]

theorem mask30 {b : Nat} (h : b < 256) : (b <<< 4) &&& 0x30 = b % 4 * 16 := by
  have : ∀ x : Fin 256, (x.val <<< 4) &&& 0x30 = x.val % 4 * 16 := by decide +kernel
  exact this ⟨b, h⟩

theorem mask3c {b : Nat} (h : b < 256) : (b <<< 2) &&& 0x3C = b % 16 * 4 := by
  have : ∀ x : Fin 256, (x.val <<< 2) &&& 0x3C = x.val % 16 * 4 := by decide +kernel
  exact this ⟨b, h⟩

theorem mask3f {b : Nat} (h : b < 256) : b &&& 0x3F = b % 64 := by
  have : ∀ x : Fin 256, x.val &&& 0x3F = x.val % 64 := by decide +kernel
  exact this ⟨b, h⟩

theorem encFinal_encStream (s : List Nat) (hs : IsBytes s) (k : Nat) (out : List Nat) :
    encFinal (encStream ⟨0, k, out⟩ s) = out ++ encText s := by
  induction s using encText.induct generalizing k out with
  | case1 b0 b1 b2 rest ih =>
    simp only [isBytes_cons] at hs
    obtain ⟨p0, p1, p2, pr⟩ := hs
    have e : encStream ⟨0, k, out⟩ (b0 :: b1 :: b2 :: rest) =
        encStream ⟨0, b1 % 16 * 4, out ++ [ch (b0 / 4), ch (b0 % 4 * 16 + b1 / 16), ch (b1 % 16 * 4 + b2 / 64), ch (b2 % 64)]⟩ rest := by
      simp only [encStream, List.foldl_cons]
      congr 1
      simp [encByte, mask30 p0, mask3c p1, mask3f p2, Nat.shiftRight_eq_div_pow]
      rw [or_eq_add 4 (by omega) (by omega), or_eq_add 2 (by omega) (by omega)]
      exact ⟨rfl, rfl⟩
    rw [e, ih pr, encText]; simp
  | case2 => simp [encStream, encFinal, encText]
  | case3 b0 =>
    simp only [isBytes_cons] at hs
    simp [encStream, encByte, encFinal, encText, mask30 hs.1, Nat.shiftRight_eq_div_pow]
  | case4 b0 b1 =>
    simp only [isBytes_cons] at hs
    obtain ⟨p0, p1, _⟩ := hs
    simp [encStream, encByte, encFinal, encText, mask30 p0, mask3c p1, Nat.shiftRight_eq_div_pow]
    rw [or_eq_add 4 (by omega) (by omega)]

theorem foldl_encStream (iov : List (List Nat)) (st : ESt) :
    iov.foldl encStream st = encStream st iov.flatten := by
  induction iov generalizing st with
  | nil => rfl
  | cons a r ih => simp [ih, encStream, List.foldl_append]

theorem encText_length (s : List Nat) : (encText s).length = 4 * ((s.length + 2) / 3) := by
  fun_induction encText s <;> simp_all <;> omega

theorem dval_ch {v : Nat} (h : v < 64) : dval (ch v) = v := by
  have : ∀ x : Fin 64, dval (ch x.val) = x.val := by decide +kernel
  exact this ⟨v, h⟩

/-- The strict table agrees with the lenient classification on the strict alphabet. -/
theorem dval_of_tab {c : Nat} (hc : c < 256) :
    (tab c < 254 → dval c = tab c ∧ tab c < 64) ∧ (tab c = 254 → c = 61) ∧ (tab c < 256) := by
  have : ∀ x : Fin 256, (tab x.val < 254 → dval x.val = tab x.val ∧ tab x.val < 64) ∧
      (tab x.val = 254 → x.val = 61) ∧ (tab x.val < 256) := by decide +kernel
  exact this ⟨c, hc⟩

theorem group_eq {v0 v1 v2 v3 : Nat} (h0 : v0 < 64) (h1 : v1 < 64) (h2 : v2 < 64) (h3 : v3 < 64) :
    group [v0, v1, v2, v3] = [v0 * 4 + v1 / 16, v1 % 16 * 16 + v2 / 4, v2 % 4 * 64 + v3] := by
  have k1 : ∀ x : Fin 64, (x.val &&& 0x30) >>> 4 = x.val / 16 ∧ x.val &&& 0x0f = x.val % 16 ∧
      (x.val &&& 0x3c) >>> 2 = x.val / 4 ∧ x.val &&& 0x03 = x.val % 4 ∧ x.val &&& 0x3f = x.val := by decide +kernel
  obtain ⟨a1, a2, _, _, _⟩ := k1 ⟨v1, h1⟩
  obtain ⟨_, _, b3, b4, _⟩ := k1 ⟨v2, h2⟩
  obtain ⟨_, _, _, _, c5⟩ := k1 ⟨v3, h3⟩
  simp only at a1 a2 b3 b4 c5
  simp only [group, List.getD_cons_zero, List.getD_cons_succ, a1, a2, b3, b4, c5, Nat.shiftLeft_eq]
  rw [or_eq_add 2 (by omega) (by omega), or_eq_add 4 (by omega) (by omega), or_eq_add 6 (by omega) (by omega)]
  simp only [List.cons.injEq, and_true]
  omega

/-- First output byte of a group whose first two values are known, whatever the rest. -/
theorem group_take1 {v0 v1 v2 v3 : Nat} (h0 : v0 < 64) (h1 : v1 < 64) :
    (group [v0, v1, v2, v3]).take 1 = [v0 * 4 + v1 / 16] := by
  have k1 : ∀ x : Fin 64, (x.val &&& 0x30) >>> 4 = x.val / 16 := by decide +kernel
  have a1 := k1 ⟨v1, h1⟩
  simp only at a1
  simp only [group, List.getD_cons_zero, List.getD_cons_succ, a1, Nat.shiftLeft_eq, List.take_succ_cons, List.take_zero]
  rw [or_eq_add 2 (by omega) (by omega)]
  simp only [List.cons.injEq, and_true]
  omega

/-- First two output bytes of a group whose first three values are known, whatever the last. -/
theorem group_take2 {v0 v1 v2 v3 : Nat} (h0 : v0 < 64) (h1 : v1 < 64) (h2 : v2 < 64) :
    (group [v0, v1, v2, v3]).take 2 = [v0 * 4 + v1 / 16, v1 % 16 * 16 + v2 / 4] := by
  have k1 : ∀ x : Fin 64, (x.val &&& 0x30) >>> 4 = x.val / 16 ∧ x.val &&& 0x0f = x.val % 16 ∧
      (x.val &&& 0x3c) >>> 2 = x.val / 4 := by decide +kernel
  obtain ⟨a1, a2, _⟩ := k1 ⟨v1, h1⟩
  obtain ⟨_, _, b3⟩ := k1 ⟨v2, h2⟩
  simp only at a1 a2 b3
  simp only [group, List.getD_cons_zero, List.getD_cons_succ, a1, a2, b3, Nat.shiftLeft_eq, List.take_succ_cons, List.take_zero]
  rw [or_eq_add 2 (by omega) (by omega), or_eq_add 4 (by omega) (by omega)]
  simp only [List.cons.injEq, and_true]
  omega

theorem step_val {c v : Nat} (h : dval c = v) (hv : v < 64) (a : List Nat) (ib ob : Nat) (o : List Nat) :
    step ⟨a, ib, ob, o, false⟩ c = push ⟨a, ib, ob, o, false⟩ ib ob v := by
  unfold step
  simp only [h]
  rw [if_neg (by simp), if_neg (by omega), if_neg (by omega), if_neg (by omega)]

theorem step_pad {a : List Nat} {ib ob : Nat} {o : List Nat} (h : ib ≠ 0) :
    step ⟨a, ib, ob, o, false⟩ 61 = push ⟨a, ib, ob, o, false⟩ 3 (if ib = 1 ∨ ib = 2 then 1 else 2) 0xff := by
  have h1 : dval 61 = 0xff := by decide
  unfold step
  simp only [h1]
  rw [if_neg (by simp), if_neg (by omega), if_neg (by omega), if_pos trivial, if_neg h]

theorem step_pad0 (a : List Nat) (ob : Nat) (o : List Nat) :
    step ⟨a, 0, ob, o, false⟩ 61 = ⟨a, 0, ob, o, true⟩ := by rfl

theorem foldl_stop (st : DSt) (h : st.stop = true) (l : List Nat) : l.foldl step st = st := by
  induction l with
  | nil => rfl
  | cons c r ih =>
    have : step st c = st := by unfold step; rw [if_pos h]
    rw [List.foldl_cons, this, ih]

/-- How the strict decoder's state mirrors the lenient loop's state. -/
def Rel (bytes carry : Nat) (outF : List Nat) (st : DSt) : Prop :=
  st.stop = false ∧ st.ob = 3 ∧ st.ib = bytes ∧
  ∃ a0 a1 a2 a3, st.arr = [a0, a1, a2, a3] ∧
  ((bytes = 0 ∧ outF = st.out) ∨
   (bytes = 1 ∧ a0 < 64 ∧ carry = a0 * 4 ∧ outF = st.out) ∨
   (bytes = 2 ∧ a0 < 64 ∧ a1 < 64 ∧ carry = a1 % 16 * 16 ∧ outF = st.out ++ [a0 * 4 + a1 / 16]) ∨
   (bytes = 3 ∧ a0 < 64 ∧ a1 < 64 ∧ a2 < 64 ∧ carry = a2 % 4 * 64 ∧
      outF = st.out ++ [a0 * 4 + a1 / 16, a1 % 16 * 16 + a2 / 4]))

/-- If the strict decoder accepts, the lenient loop stores the same bytes. -/
theorem dec_agrees (t : List Nat) (ht : IsBytes t) (bytes carry : Nat) (outF : List Nat) (st : DSt)
    (hr : Rel bytes carry outF st) (out' : List Nat) (h : dec bytes carry outF t = ⟨true, 0, out'⟩) :
    (t.foldl step st).out = out' := by
  induction t generalizing bytes carry outF st with
  | nil =>
    simp only [dec, FRes.mk.injEq] at h
    obtain ⟨_, h2, h3⟩ := h
    obtain ⟨_, _, _, a0, a1, a2, a3, _, hc⟩ := hr
    rcases hc with hc | hc | hc | hc
    · simp [← h3, hc.2]
    all_goals omega
  | cons c r ih =>
    rw [isBytes_cons] at ht
    obtain ⟨d1, d2, d3⟩ := dval_of_tab ht.1
    obtain ⟨arr, ib, ob, out, stop⟩ := st
    obtain ⟨e1, e2, e3, a0, a1, a2, a3, e4, hc⟩ := hr
    simp only at e1 e2 e3 e4 hc
    subst e1 e2 e3 e4
    rw [List.foldl_cons]
    rw [dec.eq_def] at h
    simp only at h
    rcases hc with ⟨hb, hf⟩ | ⟨hb, h0, hk, hf⟩ | ⟨hb, h0, h1, hk, hf⟩ | ⟨hb, h0, h1, h2, hk, hf⟩
    · subst hb hf
      rw [if_pos rfl] at h
      split at h
      · simp at h
      · obtain ⟨p, q⟩ := d1 (by omega)
        rw [step_val p q, push]
        simp (config := { decide := true }) only [List.set_cons_succ, List.set_cons_zero, if_true, if_false]
        refine ih ht.2 _ _ _ _ ?_ h
        refine ⟨rfl, rfl, rfl, tab c, a1, a2, a3, rfl, Or.inr (Or.inl ⟨rfl, q, ?_, rfl⟩)⟩
        rw [Nat.shiftLeft_eq]; omega
    · subst hb hf
      rw [if_neg (by omega), if_pos rfl] at h
      split at h
      · simp at h
      · obtain ⟨p, q⟩ := d1 (by omega)
        rw [step_val p q, push]
        simp (config := { decide := true }) only [List.set_cons_succ, List.set_cons_zero, if_true, if_false]
        refine ih ht.2 _ _ _ _ ?_ h
        refine ⟨rfl, rfl, rfl, a0, tab c, a2, a3, rfl, Or.inr (Or.inr (Or.inl ⟨rfl, h0, q, ?_, ?_⟩))⟩
        · rw [Nat.shiftLeft_eq]; omega
        · rw [hk, Nat.shiftRight_eq_div_pow, or_eq_add 2 (by omega) (by omega)]
    · subst hb hf
      rw [if_neg (by omega), if_neg (by omega), if_pos rfl] at h
      split at h
      · split at h
        · rename_i hq
          have hc61 := d2 hq
          subst hc61
          rw [step_pad (by omega), push]
          simp (config := { decide := true }) only [List.set_cons_succ, List.set_cons_zero, if_true, if_false]
          match r, h with
          | [], h => simp at h
          | c2 :: r2, h =>
            simp only [FRes.mk.injEq, Bool.and_eq_true, beq_iff_eq, List.isEmpty_iff] at h
            obtain ⟨⟨h3, h4⟩, _, h5⟩ := h
            subst h4
            rw [isBytes_cons] at ht
            have := (dval_of_tab ht.2.1).2.1 h3
            subst this
            simp only [List.foldl_cons, List.foldl_nil, step_pad0]
            rw [← h5, group_take1 h0 h1]
        · simp at h
      · obtain ⟨p, q⟩ := d1 (by omega)
        rw [step_val p q, push]
        simp (config := { decide := true }) only [List.set_cons_succ, List.set_cons_zero, if_true, if_false]
        refine ih ht.2 _ _ _ _ ?_ h
        refine ⟨rfl, rfl, rfl, a0, a1, tab c, a3, rfl, Or.inr (Or.inr (Or.inr ⟨rfl, h0, h1, q, ?_, ?_⟩))⟩
        · rw [Nat.shiftLeft_eq]; omega
        · rw [hk, Nat.shiftRight_eq_div_pow, or_eq_add 4 (by omega) (by omega)]; simp
    · subst hb hf
      rw [if_neg (by omega), if_neg (by omega), if_neg (by omega)] at h
      split at h
      · simp only [FRes.mk.injEq, Bool.and_eq_true, beq_iff_eq, List.isEmpty_iff] at h
        obtain ⟨⟨h3, h4⟩, _, h5⟩ := h
        subst h4
        have := d2 h3
        subst this
        rw [step_pad (by omega), push]
        simp (config := { decide := true }) only [List.set_cons_succ, List.set_cons_zero, if_true, if_false]
        rw [List.foldl_nil, ← h5, group_take2 h0 h1 h2]
      · obtain ⟨p, q⟩ := d1 (by omega)
        rw [step_val p q, push]
        simp (config := { decide := true }) only [List.set_cons_succ, List.set_cons_zero, if_true, if_false]
        refine ih ht.2 _ _ _ _ ?_ h
        refine ⟨rfl, rfl, rfl, a0, a1, a2, tab c, rfl, Or.inl ⟨rfl, ?_⟩⟩
        rw [group_eq h0 h1 h2 q, hk, or_eq_add 6 (by omega) (by omega)]
        simp

/-- The lenient loop on the encoder's text gives the source back, whatever was in `in`. -/
theorem foldl_encText (s : List Nat) (hs : IsBytes s) (a0 a1 a2 a3 : Nat) (out : List Nat) :
    ((encText s).foldl step ⟨[a0, a1, a2, a3], 0, 3, out, false⟩).out = out ++ s := by
  induction s using encText.induct generalizing a0 a1 a2 a3 out with
  | case1 b0 b1 b2 rest ih =>
    simp only [isBytes_cons] at hs
    obtain ⟨p0, p1, p2, pr⟩ := hs
    rw [encText, List.foldl_append]
    simp only [List.foldl_cons, List.foldl_nil]
    rw [step_val (dval_ch (by omega)) (by omega), push]
    simp (config := { decide := true }) only [List.set_cons_succ, List.set_cons_zero, if_true, if_false]
    rw [step_val (dval_ch (by omega)) (by omega), push]
    simp (config := { decide := true }) only [List.set_cons_succ, List.set_cons_zero, if_true, if_false]
    rw [step_val (dval_ch (by omega)) (by omega), push]
    simp (config := { decide := true }) only [List.set_cons_succ, List.set_cons_zero, if_true, if_false]
    rw [step_val (dval_ch (by omega)) (by omega), push]
    simp (config := { decide := true }) only [List.set_cons_succ, List.set_cons_zero, if_true, if_false]
    rw [ih pr, group_eq (by omega) (by omega) (by omega) (by omega)]
    simp only [List.take_succ_cons, List.take_zero, List.append_assoc, List.cons_append, List.nil_append,
      List.append_cancel_left_eq, List.cons.injEq, and_true]
    omega
  | case2 => simp [encText]
  | case3 b0 =>
    simp only [isBytes_cons] at hs
    obtain ⟨p0, _⟩ := hs
    rw [encText]
    simp only [List.foldl_cons, List.foldl_nil]
    rw [step_val (dval_ch (by omega)) (by omega), push]
    simp (config := { decide := true }) only [List.set_cons_succ, List.set_cons_zero, if_true, if_false]
    rw [step_val (dval_ch (by omega)) (by omega), push]
    simp (config := { decide := true }) only [List.set_cons_succ, List.set_cons_zero, if_true, if_false]
    rw [step_pad (by omega), push]
    simp (config := { decide := true }) only [List.set_cons_succ, List.set_cons_zero, if_true, if_false]
    rw [step_pad0, group_take1 (by omega) (by omega)]
    simp only [List.append_cancel_left_eq, List.cons.injEq, and_true]
    omega
  | case4 b0 b1 =>
    simp only [isBytes_cons] at hs
    obtain ⟨p0, p1, _⟩ := hs
    rw [encText]
    simp only [List.foldl_cons, List.foldl_nil]
    rw [step_val (dval_ch (by omega)) (by omega), push]
    simp (config := { decide := true }) only [List.set_cons_succ, List.set_cons_zero, if_true, if_false]
    rw [step_val (dval_ch (by omega)) (by omega), push]
    simp (config := { decide := true }) only [List.set_cons_succ, List.set_cons_zero, if_true, if_false]
    rw [step_val (dval_ch (by omega)) (by omega), push]
    simp (config := { decide := true }) only [List.set_cons_succ, List.set_cons_zero, if_true, if_false]
    rw [step_pad (by omega), push]
    simp (config := { decide := true }) only [List.set_cons_succ, List.set_cons_zero, if_true, if_false]
    rw [group_take2 (by omega) (by omega) (by omega)]
    simp only [List.append_cancel_left_eq, List.cons.injEq, and_true]
    omega

/-- Both paths store the same bytes, so the result is what the lenient loop computes. -/
theorem decode_eq (src : List Nat) (hs : IsBytes src) (a0 a1 a2 a3 dl : Nat) (hr : refused src dl = false) :
    (decode [a0, a1, a2, a3] src dl).written = (src.foldl step (init [a0, a1, a2, a3])).out ∧
    (decode [a0, a1, a2, a3] src dl).ret = (src.foldl step (init [a0, a1, a2, a3])).out.length := by
  simp only [decode, hr, Bool.false_eq_true, if_false]
  split
  · rename_i h
    simp only [fastDecode, Bool.and_eq_true, beq_iff_eq] at h
    have := dec_agrees src hs 0 0 [] (init [a0, a1, a2, a3])
      ⟨rfl, rfl, rfl, a0, a1, a2, a3, rfl, Or.inl ⟨rfl, rfl⟩⟩ (dec 0 0 [] src).out
      (by cases hd : dec 0 0 [] src; rw [hd] at h; simp_all)
    simp only [fastDecode, this, and_self]
  · exact ⟨rfl, rfl⟩

/-! ### Counting stored bytes -/

/-- Progress of the strict loop inside a group. -/
def phi (bytes : Nat) : Nat := if bytes = 0 then 0 else if bytes = 1 then 3 else if bytes = 2 then 2 else 1

theorem dec_len (t : List Nat) (bytes carry : Nat) (out : List Nat) :
    4 * (dec bytes carry out t).out.length ≤ 4 * out.length + phi bytes + 3 * t.length := by
  induction t generalizing bytes carry out with
  | nil => simp only [dec, List.length_nil]; omega
  | cons c r ih =>
    rw [dec.eq_def]
    simp only [List.length_cons]
    split
    · rename_i h; subst h
      split
      · simp only; omega
      · have := ih 1 ((tab c <<< 2) % 256) out
        simp only [phi] at this ⊢; simp at this ⊢; omega
    · split
      · rename_i h; subst h
        split
        · simp only; omega
        · have := ih 2 ((tab c <<< 4) % 256) (out ++ [carry ||| (tab c >>> 4)])
          simp only [phi] at this ⊢; simp at this ⊢; omega
      · split
        · rename_i h; subst h
          split
          · split
            · split <;> (simp only; omega)
            · simp only; omega
          · have := ih 3 ((tab c <<< 6) % 256) (out ++ [carry ||| (tab c >>> 2)])
            simp only [phi] at this ⊢; simp at this ⊢; omega
        · rename_i h0 h1 h2
          split
          · simp only; omega
          · have := ih 0 0 (out ++ [carry ||| tab c])
            simp only [phi] at this ⊢; simp [h0, h1, h2] at this ⊢; omega

theorem tab_pad : tab 61 = 254 := by decide

theorem dec_len_pad (t : List Nat) (r : List Nat) (bytes carry : Nat) (out : List Nat) :
    4 * (dec bytes carry out (t ++ 61 :: r)).out.length ≤ 4 * out.length + phi bytes + 3 * t.length := by
  induction t generalizing bytes carry out with
  | nil =>
    rw [List.nil_append, dec.eq_def]
    simp only [tab_pad, List.length_nil]
    split
    · simp
    · split
      · simp
      · split
        · simp; split <;> (simp only; omega)
        · simp
  | cons c t ih =>
    rw [List.cons_append, dec.eq_def]
    simp only [List.length_cons]
    split
    · rename_i h; subst h
      split
      · simp only; omega
      · have := ih 1 ((tab c <<< 2) % 256) out
        simp only [phi] at this ⊢; simp at this ⊢; omega
    · split
      · rename_i h; subst h
        split
        · simp only; omega
        · have := ih 2 ((tab c <<< 4) % 256) (out ++ [carry ||| (tab c >>> 4)])
          simp only [phi] at this ⊢; simp at this ⊢; omega
      · split
        · rename_i h; subst h
          split
          · split
            · split <;> (simp only; omega)
            · simp only; omega
          · have := ih 3 ((tab c <<< 6) % 256) (out ++ [carry ||| (tab c >>> 2)])
            simp only [phi] at this ⊢; simp at this ⊢; omega
        · rename_i h0 h1 h2
          split
          · simp only; omega
          · have := ih 0 0 (out ++ [carry ||| tab c])
            simp only [phi] at this ⊢; simp [h0, h1, h2] at this ⊢; omega

/-- Bounds kept by the lenient loop. -/
def Small (st : DSt) : Prop := st.ib ≤ 3 ∧ st.ob ≤ 3

theorem group_length (i : List Nat) : (group i).length = 3 := rfl

theorem step_small (st : DSt) (c : Nat) (h : Small st) :
    Small (step st c) ∧ 4 * (step st c).out.length + 3 * (step st c).ib ≤ 4 * st.out.length + 3 * st.ib + 3 := by
  obtain ⟨h1, h2⟩ := h
  unfold step
  simp only
  split
  · exact ⟨⟨h1, h2⟩, by omega⟩
  split
  · exact ⟨⟨h1, h2⟩, by omega⟩
  split
  · exact ⟨⟨h1, h2⟩, by simp only; omega⟩
  split
  · split
    · exact ⟨⟨h1, h2⟩, by simp only; omega⟩
    · unfold push
      rw [if_pos (by omega)]
      refine ⟨⟨by simp only; omega, by simp only; split <;> omega⟩, ?_⟩
      simp only [List.length_append, List.length_take, group_length]
      split <;> omega
  · unfold push
    split
    · refine ⟨⟨by simp only; omega, by simp only; omega⟩, ?_⟩
      simp only [List.length_append, List.length_take, group_length]; omega
    · refine ⟨⟨by simp only; omega, by simp only; omega⟩, ?_⟩
      simp only; omega

theorem foldl_small (t : List Nat) (st : DSt) (h : Small st) :
    Small (t.foldl step st) ∧
      4 * (t.foldl step st).out.length + 3 * (t.foldl step st).ib ≤ 4 * st.out.length + 3 * st.ib + 3 * t.length := by
  induction t generalizing st with
  | nil => exact ⟨h, by simp⟩
  | cons c r ih =>
    obtain ⟨a, b⟩ := step_small st c h
    obtain ⟨a', b'⟩ := ih (step st c) a
    refine ⟨a', ?_⟩
    simp only [List.foldl_cons, List.length_cons] at *
    omega

theorem step_pad_small (st : DSt) (h : Small st) :
    4 * (step st 61).out.length ≤ 4 * st.out.length + 3 * st.ib + 1 ∧
    ((step st 61).stop = true ∨ (step st 61).ib = 0) := by
  obtain ⟨arr, ib, ob, out, stop⟩ := st
  obtain ⟨h1, h2⟩ := h
  simp only at h1 h2
  cases stop with
  | true => rw [show step ⟨arr, ib, ob, out, true⟩ 61 = ⟨arr, ib, ob, out, true⟩ from rfl]; simp; omega
  | false =>
    by_cases h : ib = 0
    · subst h; rw [step_pad0]; simp
    · rw [step_pad h, push]
      simp only [List.length_append, List.length_take, group_length, Nat.reduceAdd, if_true, or_true, and_true]
      split <;> omega

theorem step_no_store (st : DSt) (c : Nat) (h : st.stop = true ∨ st.ib = 0) : (step st c).out = st.out := by
  obtain ⟨arr, ib, ob, out, stop⟩ := st
  simp only at h
  cases stop with
  | true => rfl
  | false =>
    rcases h with h | h
    · simp at h
    · subst h
      unfold step push
      simp only
      repeat' split
      all_goals first | rfl | (simp at *)

theorem split_last2 (src : List Nat) (h : 1 < src.length) :
    ∃ p, src = p ++ [src.getD (src.length - 2) 0, src.getD (src.length - 1) 0] ∧ p.length = src.length - 2 := by
  refine ⟨src.take (src.length - 2), ?_, by simp⟩
  apply List.ext_getElem?
  intro i
  rw [List.getElem?_append]
  simp only [List.length_take]
  split
  · rw [List.getElem?_take]; split
    · rfl
    · omega
  · by_cases h1 : i = src.length - 2
    · subst h1; rw [show src.length - 2 - min (src.length - 2) src.length = 0 by omega]
      simp [List.getElem?_eq_getElem (show src.length - 2 < src.length by omega)]
    · by_cases h2 : i = src.length - 1
      · subst h2; rw [show src.length - 1 - min (src.length - 2) src.length = 1 by omega]
        simp [List.getElem?_eq_getElem (show src.length - 1 < src.length by omega)]
      · rw [List.getElem?_eq_none (by omega), List.getElem?_eq_none (by simp; omega)]

theorem ch_range {v : Nat} (h : v < 64) : ch v < 256 ∧ ch v ≠ 61 := by
  have : ∀ x : Fin 64, ch x.val < 256 ∧ ch x.val ≠ 61 := by decide +kernel
  exact this ⟨v, h⟩

theorem encText_bytes (s : List Nat) (hs : IsBytes s) : IsBytes (encText s) := by
  induction s using encText.induct with
  | case1 b0 b1 b2 rest ih =>
    simp only [isBytes_cons] at hs
    obtain ⟨p0, p1, p2, pr⟩ := hs
    rw [encText, isBytes_append]
    refine ⟨?_, ih pr⟩
    simp only [isBytes_cons]
    exact ⟨(ch_range (by omega)).1, (ch_range (by omega)).1, (ch_range (by omega)).1, (ch_range (by omega)).1, IsBytes.nil⟩
  | case2 => exact IsBytes.nil
  | case3 b0 =>
    simp only [isBytes_cons] at hs
    simp only [encText, isBytes_cons]
    exact ⟨(ch_range (by omega)).1, (ch_range (by omega)).1, by omega, by omega, IsBytes.nil⟩
  | case4 b0 b1 =>
    simp only [isBytes_cons] at hs
    simp only [encText, isBytes_cons]
    exact ⟨(ch_range (by omega)).1, (ch_range (by omega)).1, (ch_range (by omega)).1, by omega, IsBytes.nil⟩

theorem encText_last (s : List Nat) (hs : IsBytes s) (hne : s ≠ []) :
    ∃ p x y, encText s = p ++ [x, y] ∧ (x = 61 ↔ s.length % 3 = 1) ∧ (y = 61 ↔ s.length % 3 ≠ 0) := by
  induction s using encText.induct with
  | case1 b0 b1 b2 rest ih =>
    simp only [isBytes_cons] at hs
    obtain ⟨p0, p1, p2, pr⟩ := hs
    rw [encText]
    by_cases hr : rest = []
    · subst hr
      refine ⟨[_, _], _, _, rfl, ?_, ?_⟩
      · simp; exact (ch_range (by omega)).2
      · simp; exact (ch_range (by omega)).2
    · obtain ⟨p, x, y, e, h1, h2⟩ := ih pr hr
      refine ⟨_ ++ p, x, y, by rw [e, List.append_assoc], ?_, ?_⟩
      · rw [h1]; simp only [List.length_cons]; omega
      · rw [h2]; simp only [List.length_cons]; omega
  | case2 => exact absurd rfl hne
  | case3 b0 => exact ⟨[_, _], _, _, rfl, by simp, by simp⟩
  | case4 b0 b1 =>
    simp only [isBytes_cons] at hs
    refine ⟨[_, _], _, _, rfl, ?_, by simp⟩
    simp; exact (ch_range (by omega)).2

theorem encText_tail (s : List Nat) (hs : IsBytes s) (hne : s ≠ []) :
    ((encText s).getD ((encText s).length - 2) 0 = 61 ↔ s.length % 3 = 1) ∧
    ((encText s).getD ((encText s).length - 1) 0 = 61 ↔ s.length % 3 ≠ 0) := by
  obtain ⟨p, x, y, e, h1, h2⟩ := encText_last s hs hne
  rw [e]
  simp only [List.length_append, List.length_cons, List.length_nil]
  rw [show p.length + (0 + 1 + 1) - 2 = p.length by omega, show p.length + (0 + 1 + 1) - 1 = p.length + 1 by omega]
  simp only [List.getD_eq_getElem?_getD, List.getElem?_append_right (Nat.le_refl _),
    List.getElem?_append_right (Nat.le_succ p.length)]
  simpa using ⟨h1, h2⟩

end Mtev.B64
