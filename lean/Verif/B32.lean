import Verif.Basic

/-!
# Model of `src/utils/mtev_b32.c`

A call is modelled by its return value and by `written`, the bytes stored at `dest[0]`,
`dest[1]`, ... (both functions store through an increasing pointer).

Simplifications: `int len = src_len` (mtev_b32.c:110) and the `int` results are not truncated,
so lengths are taken to be below 2^31.
-/

namespace Mtev.B32

/-- Return value and sequence of stores. -/
structure Res where
  ret : Nat
  written : List Nat
deriving Repr, DecidableEq

/-- `__b32`, mtev_b32.c:38-41. -/
def b32 : List Nat :=
  [65, 66, 67, 68, 69, 70, 71, 72, 73, 74, 75, 76, 77, 78, 79, 80, 81, 82, 83, 84, 85,
   86, 87, 88, 89, 90, 50, 51, 52, 53, 54, 55, 0]

/-- `__b32[v]`; every index in the code is below 32. -/
def ch (v : Nat) : Nat := b32.getD v 0

/-- `__ub32`, mtev_b32.c:43-59. -/
def ub32 : List Nat :=
  [0xfe, 0xfe, 0xfe, 0xfe, 0xfe, 0xfe, 0xfe, 0xfe, 0xfe, 0xfe, 0xfe, 0xfe, 0xfe, 0xfe, 0xfe, 0xfe,
   0xfe, 0xfe, 0xfe, 0xfe, 0xfe, 0xfe, 0xfe, 0xfe, 0xfe, 0xfe, 0xfe, 0xfe, 0xfe, 0xfe, 0xfe, 0xfe,
   0xfe, 0xfe, 0xfe, 0xfe, 0xfe, 0xfe, 0xfe, 0xfe, 0xfe, 0xfe, 0xfe, 0xfe, 0xfe, 0xfe, 0xfe, 0xfe,
   0xfe, 0xfe, 0x1a, 0x1b, 0x1c, 0x1d, 0x1e, 0x1f, 0xfe, 0xfe, 0xfe, 0xfe, 0xfe, 0xff, 0xfe, 0xfe,
   0xfe, 0x00, 0x01, 0x02, 0x03, 0x04, 0x05, 0x06, 0x07, 0x08, 0x09, 0x0a, 0x0b, 0x0c, 0x0d, 0x0e,
   0x0f, 0x10, 0x11, 0x12, 0x13, 0x14, 0x15, 0x16, 0x17, 0x18, 0x19, 0xfe, 0xfe, 0xfe, 0xfe, 0xfe,
   0xfe, 0x00, 0x01, 0x02, 0x03, 0x04, 0x05, 0x06, 0x07, 0x08, 0x09, 0x0a, 0x0b, 0x0c, 0x0d, 0x0e,
   0x0f, 0x10, 0x11, 0x12, 0x13, 0x14, 0x15, 0x16, 0x17, 0x18, 0x19, 0xfe, 0xfe, 0xfe, 0xfe, 0xfe,
   0xfe, 0xfe, 0xfe, 0xfe, 0xfe, 0xfe, 0xfe, 0xfe, 0xfe, 0xfe, 0xfe, 0xfe, 0xfe, 0xfe, 0xfe, 0xfe,
   0xfe, 0xfe, 0xfe, 0xfe, 0xfe, 0xfe, 0xfe, 0xfe, 0xfe, 0xfe, 0xfe, 0xfe, 0xfe, 0xfe, 0xfe, 0xfe,
   0xfe, 0xfe, 0xfe, 0xfe, 0xfe, 0xfe, 0xfe, 0xfe, 0xfe, 0xfe, 0xfe, 0xfe, 0xfe, 0xfe, 0xfe, 0xfe,
   0xfe, 0xfe, 0xfe, 0xfe, 0xfe, 0xfe, 0xfe, 0xfe, 0xfe, 0xfe, 0xfe, 0xfe, 0xfe, 0xfe, 0xfe, 0xfe,
   0xfe, 0xfe, 0xfe, 0xfe, 0xfe, 0xfe, 0xfe, 0xfe, 0xfe, 0xfe, 0xfe, 0xfe, 0xfe, 0xfe, 0xfe, 0xfe,
   0xfe, 0xfe, 0xfe, 0xfe, 0xfe, 0xfe, 0xfe, 0xfe, 0xfe, 0xfe, 0xfe, 0xfe, 0xfe, 0xfe, 0xfe, 0xfe,
   0xfe, 0xfe, 0xfe, 0xfe, 0xfe, 0xfe, 0xfe, 0xfe, 0xfe, 0xfe, 0xfe, 0xfe, 0xfe, 0xfe, 0xfe, 0xfe,
   0xfe, 0xfe, 0xfe, 0xfe, 0xfe, 0xfe, 0xfe, 0xfe, 0xfe, 0xfe, 0xfe, 0xfe, 0xfe, 0xfe, 0xfe, 0xfe]

/-- `__ub32[c]`; the index is an `unsigned char`. -/
def val (c : Nat) : Nat := ub32.getD c 0xfe

/-- `isspace` in the C locale. -/
def isspace (c : Nat) : Bool := c == 32 || (9 ≤ c && c ≤ 13)

/-- Decoder state: `inb` is `in[0..ib)`, entries from `ib` on are zero (mtev_b32.c:66,94);
`ob` the number of bytes a flush emits; `out` what has been stored; `stop` the loop has broken. -/
structure DSt where
  inb : List Nat
  ob : Nat
  out : List Nat
  stop : Bool
deriving Repr, DecidableEq

/-- The five output bytes of a full group, mtev_b32.c:86-90 (stores to `unsigned char`). -/
def group (i : List Nat) : List Nat :=
  let g := fun k => i.getD k 0
  [ ((g 0 <<< 3) ||| (g 1 >>> 2)) % 256,
    (((g 1 % 4) <<< 6) ||| (g 2 <<< 1) ||| (g 3 >>> 4)) % 256,
    (((g 3 % 16) <<< 4) ||| (g 4 >>> 1)) % 256,
    (((g 4 % 2) <<< 7) ||| (g 5 <<< 2) ||| (g 6 >>> 3)) % 256,
    (((g 6 % 8) <<< 5) ||| g 7) % 256 ]

/-- Bytes emitted after padding seen with `ib` values pending, mtev_b32.c:78-81. -/
def padOb (ib : Nat) : Nat :=
  if ib = 1 ∨ ib = 2 then 1
  else if ib = 3 ∨ ib = 4 then 2
  else if ib = 4 ∨ ib = 5 then 3
  else 4

/-- `in[ib++] = ch` and the flush when full, mtev_b32.c:84-95. -/
def push (st : DSt) (inb : List Nat) (ob c : Nat) : DSt :=
  let i := inb ++ [c]
  if i.length = 8 then { inb := [], ob := ob, out := st.out ++ (group i).take ob, stop := false }
  else { inb := i, ob := ob, out := st.out, stop := false }

/-- One iteration of the decoding loop, mtev_b32.c:70-96. -/
def step (st : DSt) (c : Nat) : DSt :=
  if st.stop then st
  else if isspace c then st
  else if c = 45 then st
  else
    let v := val c
    if v = 0xfe then { st with stop := true }
    else if v = 0xff then
      if st.inb.length = 0 then { st with stop := true }
      else push st (st.inb ++ List.replicate (7 - st.inb.length) 0) (padOb st.inb.length) v
    else push st st.inb st.ob v

/-- State at entry, mtev_b32.c:65-67. -/
def init : DSt := { inb := [], ob := 5, out := [], stop := false }

/-- `mtev_b32_max_decode_len`, mtev_b32.c:100-103. -/
def maxDecodeLen (n : Nat) : Nat := (n / 8) * 5

/-- `mtev_b32_decode`, mtev_b32.c:61-98. -/
def decode (src : List Nat) (dest_len : Nat) : Res :=
  if dest_len < (src.length / 8) * 5 then ⟨0, []⟩
  else
    let st := src.foldl step init
    ⟨st.out.length, st.out⟩

/-- The characters written by the encoder, mtev_b32.c:115-159. -/
def encText : List Nat → List Nat
  | b0 :: b1 :: b2 :: b3 :: b4 :: rest =>
    [ ch (b0 >>> 3),
      ch (((b0 % 8) <<< 2) + (b1 >>> 6)),
      ch ((b1 &&& 0x3e) >>> 1),
      ch (((b1 % 2) <<< 4) + (b2 >>> 4)),
      ch (((b2 % 16) <<< 1) + (b3 >>> 7)),
      ch ((b3 &&& 0x7c) >>> 2),
      ch (((b3 % 4) <<< 3) + (b4 >>> 5)),
      ch (b4 % 32) ] ++ encText rest
  | [] => []
  | [b0] => [ch (b0 >>> 3), ch ((b0 % 8) <<< 2), 61, 61, 61, 61, 61, 61]
  | [b0, b1] =>
    [ch (b0 >>> 3), ch (((b0 % 8) <<< 2) + (b1 >>> 6)), ch ((b1 &&& 0x3e) >>> 1),
     ch ((b1 % 2) <<< 4), 61, 61, 61, 61]
  | [b0, b1, b2] =>
    [ch (b0 >>> 3), ch (((b0 % 8) <<< 2) + (b1 >>> 6)), ch ((b1 &&& 0x3e) >>> 1),
     ch (((b1 % 2) <<< 4) + (b2 >>> 4)), ch ((b2 % 16) <<< 1), 61, 61, 61]
  | [b0, b1, b2, b3] =>
    [ch (b0 >>> 3), ch (((b0 % 8) <<< 2) + (b1 >>> 6)), ch ((b1 &&& 0x3e) >>> 1),
     ch (((b1 % 2) <<< 4) + (b2 >>> 4)), ch (((b2 % 16) <<< 1) + (b3 >>> 7)),
     ch ((b3 &&& 0x7c) >>> 2), ch ((b3 % 4) <<< 3), 61]

/-- `mtev_b32_encode_len`, mtev_b32.c:163-166. -/
def encodeLen (n : Nat) : Nat := ((n + 4) / 5) * 8

/-- `mtev_b32_encode`, mtev_b32.c:105-161. -/
def encode (src : List Nat) (dest_len : Nat) : Res :=
  if dest_len < ((src.length + 4) / 5) * 8 then ⟨0, []⟩
  else ⟨(encText src).length, encText src⟩

/-! ## Lemmas -/

theorem val_ch {v : Nat} (hv : v < 32) :
    val (ch v) = v ∧ isspace (ch v) = false ∧ ch v ≠ 45 := by
  have : ∀ x : Fin 32, val (ch x.val) = x.val ∧ isspace (ch x.val) = false ∧ ch x.val ≠ 45 := by
    decide +kernel
  exact this ⟨v, hv⟩

theorem step_ch {v : Nat} (hv : v < 32) (i : List Nat) (ob : Nat) (out : List Nat) :
    step ⟨i, ob, out, false⟩ (ch v) = push ⟨i, ob, out, false⟩ i ob v := by
  obtain ⟨h1, h2, h3⟩ := val_ch hv
  unfold step
  rw [if_neg (by simp), if_neg (by simp [h2]), if_neg h3]
  simp only [h1]
  rw [if_neg (by omega), if_neg (by omega)]

theorem step_pad (i : List Nat) (ob : Nat) (out : List Nat) (hi : i.length ≠ 0) :
    step ⟨i, ob, out, false⟩ 61 =
      push ⟨i, ob, out, false⟩ (i ++ List.replicate (7 - i.length) 0) (padOb i.length) 0xff := by
  have h1 : val 61 = 0xff := by decide
  unfold step
  rw [if_neg (by simp), if_neg (by decide), if_neg (by decide)]
  simp only [h1]
  rw [if_neg (by omega), if_pos trivial, if_neg hi]

theorem step_pad_stop (ob : Nat) (out : List Nat) :
    step ⟨[], ob, out, false⟩ 61 = ⟨[], ob, out, true⟩ := by
  rfl

theorem foldl_stop (st : DSt) (h : st.stop = true) (l : List Nat) : l.foldl step st = st := by
  induction l with
  | nil => rfl
  | cons c r ih =>
    have : step st c = st := by unfold step; rw [if_pos h]
    rw [List.foldl_cons, this, ih]

theorem group_eq (v0 v1 v2 v3 v4 v5 v6 v7 : Nat) (h0 : v0 < 32) (h1 : v1 < 32) (h2 : v2 < 32)
    (h3 : v3 < 32) (h4 : v4 < 32) (h5 : v5 < 32) (h6 : v6 < 32) :
    (group [v0, v1, v2, v3, v4, v5, v6, v7]).take 4 =
      [v0 * 8 + v1 / 4, v1 % 4 * 64 + v2 * 2 + v3 / 16, v3 % 16 * 16 + v4 / 2,
       v4 % 2 * 128 + v5 * 4 + v6 / 8] := by
  simp only [group, List.getD_cons_zero, List.getD_cons_succ, Nat.shiftLeft_eq, Nat.shiftRight_eq_div_pow,
    List.take_succ_cons, List.take_zero]
  rw [or_eq_add 3 (by omega) (by omega), or_eq_add (a := v1 % 4 * 2 ^ 6) 6 (by omega) (by omega),
    or_eq_add (a := v1 % 4 * 2 ^ 6 + v2 * 2 ^ 1) 1 (by omega) (by omega),
    or_eq_add (a := v3 % 16 * 2 ^ 4) 4 (by omega) (by omega),
    or_eq_add (a := v4 % 2 * 2 ^ 7) 7 (by omega) (by omega),
    or_eq_add (a := v4 % 2 * 2 ^ 7 + v5 * 2 ^ 2) 2 (by omega) (by omega)]
  simp only [List.cons.injEq, and_true]
  omega

theorem group_eq5 (v0 v1 v2 v3 v4 v5 v6 v7 : Nat) (h0 : v0 < 32) (h1 : v1 < 32) (h2 : v2 < 32)
    (h3 : v3 < 32) (h4 : v4 < 32) (h5 : v5 < 32) (h6 : v6 < 32) (h7 : v7 < 32) :
    (group [v0, v1, v2, v3, v4, v5, v6, v7]).take 5 =
      [v0 * 8 + v1 / 4, v1 % 4 * 64 + v2 * 2 + v3 / 16, v3 % 16 * 16 + v4 / 2,
       v4 % 2 * 128 + v5 * 4 + v6 / 8, v6 % 8 * 32 + v7] := by
  simp only [group, List.getD_cons_zero, List.getD_cons_succ, Nat.shiftLeft_eq, Nat.shiftRight_eq_div_pow,
    List.take_succ_cons, List.take_zero]
  rw [or_eq_add 3 (by omega) (by omega), or_eq_add (a := v1 % 4 * 2 ^ 6) 6 (by omega) (by omega),
    or_eq_add (a := v1 % 4 * 2 ^ 6 + v2 * 2 ^ 1) 1 (by omega) (by omega),
    or_eq_add (a := v3 % 16 * 2 ^ 4) 4 (by omega) (by omega),
    or_eq_add (a := v4 % 2 * 2 ^ 7) 7 (by omega) (by omega),
    or_eq_add (a := v4 % 2 * 2 ^ 7 + v5 * 2 ^ 2) 2 (by omega) (by omega),
    or_eq_add (a := v6 % 8 * 2 ^ 5) 5 (by omega) (by omega)]
  simp only [List.cons.injEq, and_true]
  omega

theorem mask_3e {b : Nat} (h : b < 256) : (b &&& 0x3e) >>> 1 = b / 2 % 32 := by
  have : ∀ x : Fin 256, (x.val &&& 0x3e) >>> 1 = x.val / 2 % 32 := by decide +kernel
  exact this ⟨b, h⟩

theorem mask_7c {b : Nat} (h : b < 256) : (b &&& 0x7c) >>> 2 = b / 4 % 32 := by
  have : ∀ x : Fin 256, (x.val &&& 0x7c) >>> 2 = x.val / 4 % 32 := by decide +kernel
  exact this ⟨b, h⟩

theorem take_take4 (l : List Nat) (k : Nat) (hk : k ≤ 4) : l.take k = (l.take 4).take k := by
  rw [List.take_take, Nat.min_eq_left hk]

theorem fold_lt (vs : List Nat) (hvs : ∀ v ∈ vs, v < 32) (i : List Nat) (ob : Nat) (out : List Nat)
    (h : i.length + vs.length < 8) :
    (vs.map ch).foldl step ⟨i, ob, out, false⟩ = ⟨i ++ vs, ob, out, false⟩ := by
  induction vs generalizing i with
  | nil => simp
  | cons v r ih =>
    simp only [List.length_cons] at h
    rw [List.map_cons, List.foldl_cons, step_ch (hvs v (by simp)), push]
    simp only
    rw [if_neg (by simp; omega), ih (fun x hx => hvs x (by simp [hx])) _ (by simp; omega)]
    simp

theorem fold_full (vs : List Nat) (hvs : ∀ v ∈ vs, v < 32) (out : List Nat) (h : vs.length = 8) :
    (vs.map ch).foldl step ⟨[], 5, out, false⟩ = ⟨[], 5, out ++ (group vs).take 5, false⟩ := by
  obtain ⟨a, b, rfl⟩ : ∃ a b, vs = a ++ [b] := by
    have hne : vs ≠ [] := by intro hh; simp [hh] at h
    exact ⟨vs.dropLast, vs.getLast hne, (List.dropLast_concat_getLast hne).symm⟩
  simp only [List.length_append, List.length_cons, List.length_nil] at h
  rw [List.map_append, List.foldl_append, fold_lt a (fun x hx => hvs x (by simp [hx])) _ _ _ (by simp; omega)]
  simp only [List.map_cons, List.map_nil, List.foldl_cons, List.foldl_nil, List.nil_append]
  rw [step_ch (hvs b (by simp)), push]
  simp only
  rw [if_pos (by simp; omega)]

theorem fold_tail (vs : List Nat) (hvs : ∀ v ∈ vs, v < 32) (out : List Nat) (h : vs.length < 8)
    (h0 : vs.length ≠ 0) (m : Nat) :
    ((vs.map ch ++ 61 :: List.replicate m 61).foldl step ⟨[], 5, out, false⟩).out =
      out ++ (group (vs ++ List.replicate (7 - vs.length) 0 ++ [255])).take (padOb vs.length) := by
  rw [List.foldl_append, fold_lt vs hvs _ _ _ (by simp; omega), List.foldl_cons, List.nil_append,
    step_pad _ _ _ h0, push]
  simp only
  rw [if_pos (by simp; omega)]
  cases m with
  | zero => simp
  | succ m => rw [List.replicate_succ, List.foldl_cons, step_pad_stop, foldl_stop _ rfl]

/-- Decoding the encoder's text from a fresh group appends exactly the source. -/
theorem foldl_encText (s : List Nat) (hs : IsBytes s) (out : List Nat) :
    ((encText s).foldl step ⟨[], 5, out, false⟩).out = out ++ s := by
  induction s using encText.induct generalizing out with
  | case1 b0 b1 b2 b3 b4 rest ih =>
    simp only [isBytes_cons] at hs
    obtain ⟨p0, p1, p2, p3, p4, pr⟩ := hs
    rw [encText, mask_3e p1, mask_7c p3]
    simp only [Nat.shiftLeft_eq, Nat.shiftRight_eq_div_pow]
    have := fold_full [b0 / 2 ^ 3, b0 % 8 * 2 ^ 2 + b1 / 2 ^ 6, b1 / 2 % 32, b1 % 2 * 2 ^ 4 + b2 / 2 ^ 4,
      b2 % 16 * 2 ^ 1 + b3 / 2 ^ 7, b3 / 4 % 32, b3 % 4 * 2 ^ 3 + b4 / 2 ^ 5, b4 % 32]
      (by simp only [List.forall_mem_cons, List.not_mem_nil, false_implies, implies_true, and_true]; omega) out rfl
    simp only [List.map_cons, List.map_nil] at this
    rw [List.foldl_append, this,
      ih pr, group_eq5 _ _ _ _ _ _ _ _ (by omega) (by omega) (by omega) (by omega) (by omega) (by omega) (by omega) (by omega)]
    simp only [List.append_assoc, List.cons_append, List.nil_append, List.append_cancel_left_eq, List.cons.injEq, and_true]
    omega
  | case2 => simp [encText]
  | case3 b0 =>
    simp only [isBytes_cons] at hs
    obtain ⟨p0, _⟩ := hs
    rw [encText]
    simp only [Nat.shiftLeft_eq, Nat.shiftRight_eq_div_pow]
    have := fold_tail [b0 / 2 ^ 3, b0 % 8 * 2 ^ 2]
      (by simp only [List.forall_mem_cons, List.not_mem_nil, false_implies, implies_true, and_true]; omega) out
      (by simp) (by simp) 5
    simp only [List.map_cons, List.map_nil, List.cons_append, List.nil_append, List.replicate, List.length_cons, List.length_nil] at this
    rw [this, show padOb (0+1+1) = 1 by decide,
      take_take4 _ 1 (by omega), group_eq _ _ _ _ _ _ _ _ (by omega) (by omega) (by omega) (by omega) (by omega) (by omega) (by omega)]
    simp only [List.take_succ_cons, List.take_zero, List.append_cancel_left_eq, List.cons.injEq, and_true]
    omega
  | case4 b0 b1 =>
    simp only [isBytes_cons] at hs
    obtain ⟨p0, p1, _⟩ := hs
    rw [encText, mask_3e p1]
    simp only [Nat.shiftLeft_eq, Nat.shiftRight_eq_div_pow]
    have := fold_tail [b0 / 2 ^ 3, b0 % 8 * 2 ^ 2 + b1 / 2 ^ 6, b1 / 2 % 32, b1 % 2 * 2 ^ 4]
      (by simp only [List.forall_mem_cons, List.not_mem_nil, false_implies, implies_true, and_true]; omega) out
      (by simp) (by simp) 3
    simp only [List.map_cons, List.map_nil, List.cons_append, List.nil_append, List.replicate, List.length_cons, List.length_nil] at this
    rw [this, show padOb (0+1+1+1+1) = 2 by decide,
      take_take4 _ 2 (by omega), group_eq _ _ _ _ _ _ _ _ (by omega) (by omega) (by omega) (by omega) (by omega) (by omega) (by omega)]
    simp only [List.take_succ_cons, List.take_zero, List.append_cancel_left_eq, List.cons.injEq, and_true]
    omega
  | case5 b0 b1 b2 =>
    simp only [isBytes_cons] at hs
    obtain ⟨p0, p1, p2, _⟩ := hs
    rw [encText, mask_3e p1]
    simp only [Nat.shiftLeft_eq, Nat.shiftRight_eq_div_pow]
    have := fold_tail [b0 / 2 ^ 3, b0 % 8 * 2 ^ 2 + b1 / 2 ^ 6, b1 / 2 % 32, b1 % 2 * 2 ^ 4 + b2 / 2 ^ 4, b2 % 16 * 2 ^ 1]
      (by simp only [List.forall_mem_cons, List.not_mem_nil, false_implies, implies_true, and_true]; omega) out
      (by simp) (by simp) 2
    simp only [List.map_cons, List.map_nil, List.cons_append, List.nil_append, List.replicate, List.length_cons, List.length_nil] at this
    rw [this, show padOb (0+1+1+1+1+1) = 3 by decide,
      take_take4 _ 3 (by omega), group_eq _ _ _ _ _ _ _ _ (by omega) (by omega) (by omega) (by omega) (by omega) (by omega) (by omega)]
    simp only [List.take_succ_cons, List.take_zero, List.append_cancel_left_eq, List.cons.injEq, and_true]
    omega
  | case6 b0 b1 b2 b3 =>
    simp only [isBytes_cons] at hs
    obtain ⟨p0, p1, p2, p3, _⟩ := hs
    rw [encText, mask_3e p1, mask_7c p3]
    simp only [Nat.shiftLeft_eq, Nat.shiftRight_eq_div_pow]
    have := fold_tail [b0 / 2 ^ 3, b0 % 8 * 2 ^ 2 + b1 / 2 ^ 6, b1 / 2 % 32, b1 % 2 * 2 ^ 4 + b2 / 2 ^ 4,
        b2 % 16 * 2 ^ 1 + b3 / 2 ^ 7, b3 / 4 % 32, b3 % 4 * 2 ^ 3]
      (by simp only [List.forall_mem_cons, List.not_mem_nil, false_implies, implies_true, and_true]; omega) out
      (by simp) (by simp) 0
    simp only [List.map_cons, List.map_nil, List.cons_append, List.nil_append, List.replicate, List.length_cons, List.length_nil] at this
    rw [this, show padOb (0+1+1+1+1+1+1+1) = 4 by decide,
      show (7 - (0+1+1+1+1+1+1+1)) = 0 by decide]
    simp only [List.replicate, List.nil_append]
    rw [group_eq _ _ _ _ _ _ _ _ (by omega) (by omega) (by omega) (by omega) (by omega) (by omega) (by omega)]
    simp only [List.append_cancel_left_eq, List.cons.injEq, and_true]
    omega

theorem encText_length (s : List Nat) : (encText s).length = ((s.length + 4) / 5) * 8 := by
  fun_induction encText s <;> simp_all <;> omega

end Mtev.B32
