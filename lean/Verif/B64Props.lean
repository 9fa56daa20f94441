import Verif.B64

/-! # Properties C06, C07: Base64 -/

namespace Mtev.B64

set_option linter.unusedSimpArgs false

/-! ## Specification: RFC 4648 Base64 as arithmetic -/

/-- RFC 4648 alphabet: `A-Z`, `a-z`, `0-9`, `+`, `/`. -/
def rfcChar (v : Nat) : Nat :=
  if v < 26 then 65 + v else if v < 52 then 97 + (v - 26) else if v < 62 then 48 + (v - 52)
  else if v = 62 then 43 else 47

/-- Big-endian value of a byte string. -/
def bigEndian (bs : List Nat) : Nat := bs.foldl (fun n b => n * 256 + b) 0

/-- One quantum of 1 to 3 bytes: the 24-bit number (zero filled on the right) in base 64, most
significant digit first, keeping `len + 1` digits and padding with `=`. -/
def rfcGroup (bs : List Nat) : List Nat :=
  let n := bigEndian (bs ++ List.replicate (3 - bs.length) 0)
  (List.range 4).map fun i => if i < bs.length + 1 then rfcChar (n / 64 ^ (3 - i) % 64) else 61

/-- RFC 4648 Base64 encoding. -/
def rfcEncode (s : List Nat) : List Nat :=
  match s with
  | [] => []
  | b :: r => rfcGroup ((b :: r).take 3) ++ rfcEncode (r.drop 2)
termination_by s.length
decreasing_by simp; omega

/-- C `isspace` in the "C" locale. -/
def Space (c : Nat) : Bool := c == 32 || c == 9 || c == 10 || c == 11 || c == 12 || c == 13

/-- The URL-safe alphabet of RFC 4648 section 5 folded onto the standard one. -/
def standard (c : Nat) : Nat := if c = 45 then 43 else if c = 95 then 47 else c

/-! ## Bridge lemmas -/

theorem ch_eq_rfc {v : Nat} (h : v < 64) : ch v = rfcChar v := by
  have : ∀ x : Fin 64, ch x.val = rfcChar x.val := by decide +kernel
  exact this ⟨v, h⟩

theorem range4 : List.range 4 = [0, 1, 2, 3] := by decide

theorem encText_eq_rfc (s : List Nat) (hs : IsBytes s) : encText s = rfcEncode s := by
  induction s using encText.induct with
  | case1 b0 b1 b2 rest ih =>
    simp only [isBytes_cons] at hs
    obtain ⟨p0, p1, p2, pr⟩ := hs
    rw [encText, rfcEncode, ih pr]
    rw [ch_eq_rfc, ch_eq_rfc, ch_eq_rfc, ch_eq_rfc]
    · simp only [rfcGroup, range4, bigEndian, List.take_succ_cons, List.take_zero, List.length_cons, List.length_nil,
        List.drop_succ_cons, List.drop_zero, List.map_cons, List.map_nil, Nat.reduceSub, Nat.reduceAdd, List.replicate,
        List.append_nil, List.foldl_cons, List.foldl_nil]
      simp only [List.append_cancel_right_eq, List.cons.injEq, and_true]
      simp (config := { decide := true }) only [if_true, Nat.reduceSub, Nat.reducePow, Nat.reduceAdd, Nat.reduceMul, Nat.reduceDiv, Nat.reduceLT]
      refine ⟨?_, ?_, ?_, ?_⟩ <;> congr 1 <;> omega
    all_goals omega
  | case2 => rw [encText, rfcEncode]
  | case3 b0 =>
    simp only [isBytes_cons] at hs
    obtain ⟨p0, _⟩ := hs
    rw [encText, rfcEncode]
    rw [ch_eq_rfc, ch_eq_rfc]
    · simp only [rfcGroup, range4, bigEndian, List.take_succ_cons, List.take_nil, List.length_cons, List.length_nil,
        List.drop_nil, List.map_cons, List.map_nil, Nat.reduceSub, Nat.reduceAdd, List.replicate, List.cons_append, List.nil_append,
        List.foldl_cons, List.foldl_nil, rfcEncode]
      simp (config := { decide := true }) only [if_true, if_false, Nat.reduceSub, Nat.reducePow, Nat.reduceAdd, Nat.reduceMul, Nat.reduceDiv, Nat.reduceLT,
        List.cons.injEq, and_true]
      refine ⟨?_, ?_⟩ <;> congr 1 <;> omega
    all_goals omega
  | case4 b0 b1 =>
    simp only [isBytes_cons] at hs
    obtain ⟨p0, p1, _⟩ := hs
    rw [encText, rfcEncode]
    rw [ch_eq_rfc, ch_eq_rfc, ch_eq_rfc]
    · simp only [rfcGroup, range4, bigEndian, List.take_succ_cons, List.take_nil, List.length_cons, List.length_nil,
        List.drop_succ_cons, List.drop_nil, List.map_cons, List.map_nil, Nat.reduceSub, Nat.reduceAdd, List.replicate, List.cons_append, List.nil_append,
        List.foldl_cons, List.foldl_nil, rfcEncode]
      simp (config := { decide := true }) only [if_true, if_false, Nat.reduceSub, Nat.reducePow, Nat.reduceAdd, Nat.reduceMul, Nat.reduceDiv, Nat.reduceLT,
        List.cons.injEq, and_true]
      refine ⟨?_, ?_, ?_⟩ <;> congr 1 <;> omega
    all_goals omega

theorem dval_standard (c : Nat) : dval (standard c) = dval c := by
  unfold standard
  split
  · next h => subst h; decide
  · split
    · next h => subst h; decide
    · rfl

theorem step_standard (st : DSt) (c : Nat) : step st (standard c) = step st c := by
  unfold step; rw [dval_standard]

theorem step_space (st : DSt) (c : Nat) (h : Space c = true) : step st c = st := by
  have hd : dval c = 256 := by
    simp only [Space, Bool.or_eq_true, beq_iff_eq] at h
    rcases h with ((((h | h) | h) | h) | h) | h <;> subst h <;> decide
  unfold step
  simp only [hd]
  split <;> rfl

theorem foldl_normal (t : List Nat) (st : DSt) :
    t.foldl step st = ((t.filter fun c => !Space c).map standard).foldl step st := by
  induction t generalizing st with
  | nil => rfl
  | cons c r ih =>
    cases h : Space c with
    | true => simp [h, step_space st c h, ih]
    | false => simp [h, step_standard, ih]

theorem not_refused (t : List Nat) (dl : Nat) (h0 : t ≠ []) (hb : t.length < 2 ^ 63) (hl : maxDecodeLen t.length ≤ dl) :
    refused t dl = false := by
  have hp : 0 < t.length := List.length_pos_iff.mpr h0
  unfold maxDecodeLen at hl
  unfold refused maxDecodeLen
  simp only
  rw [if_neg (by omega)]
  split
  · simp only [decide_eq_false_iff_not]; omega
  · split
    · simp only [decide_eq_false_iff_not]; omega
    · rfl

/-! ## C06 -/

/-- The encoder writes RFC 4648 Base64 of the concatenation of its pieces, and exactly
`mtev_b64_encode_len` bytes, whenever that many fit. -/
theorem C06_b64_encode_rfc4648 (iov : List (List Nat)) (hs : IsBytes iov.flatten) (dest_len : Nat)
    (hl : 4 * ((iov.flatten.length + 2) / 3) ≤ dest_len) :
    encodev iov dest_len = (4 * ((iov.flatten.length + 2) / 3), rfcEncode iov.flatten) := by
  have hlen : (iov.map List.length).sum = iov.flatten.length := by rw [List.length_flatten]
  unfold encodev encodeLen
  rw [hlen, if_neg (by omega), foldl_encStream, encFinal_encStream _ hs]
  simp only [List.nil_append]
  rw [encText_length, encText_eq_rfc _ hs]

/-- ... and refuses, storing nothing, when it does not fit. -/
theorem C06_b64_encode_refuses (iov : List (List Nat)) (dest_len : Nat)
    (hl : dest_len < 4 * ((iov.flatten.length + 2) / 3)) : encodev iov dest_len = (0, []) := by
  have hlen : (iov.map List.length).sum = iov.flatten.length := by rw [List.length_flatten]
  unfold encodev encodeLen
  rw [hlen, if_pos hl]

example : encodev [bytesOf "fo", bytesOf "", bytesOf "obar!"] 12 = (12, bytesOf "Zm9vYmFyIQ==") := by decide +kernel

/-- Decoding the encoder's output gives the source, already when the destination has room for
exactly the source, and whatever the uninitialised scratch array holds. -/
theorem C06_b64_roundtrip (s : List Nat) (hs : IsBytes s) (hb : s.length < 2 ^ 62) (enc_len dest_len : Nat)
    (he : 4 * ((s.length + 2) / 3) ≤ enc_len) (hd : s.length ≤ dest_len) (a0 a1 a2 a3 : Nat) :
    let t := (encode s enc_len).2
    (decode [a0, a1, a2, a3] t dest_len).ret = s.length ∧ (decode [a0, a1, a2, a3] t dest_len).written = s := by
  have h1 : (encode s enc_len).2 = encText s := by
    have := C06_b64_encode_rfc4648 [s] (by simpa using hs) enc_len (by simpa using he)
    unfold encode
    rw [this]
    simp [encText_eq_rfc s hs]
  simp only [h1]
  rcases s with _ | ⟨x, r⟩
  · simp only [encText]
    have hr : refused [] dest_len = true ∨ refused [] dest_len = false := by cases refused [] dest_len <;> simp
    rcases hr with hr | hr
    · simp [decode, hr]
    · have := decode_eq [] IsBytes.nil a0 a1 a2 a3 dest_len hr
      simpa [init] using ⟨this.2, this.1⟩
  · generalize hse : (x :: r) = s at *
    have hne : s ≠ [] := by rw [← hse]; simp
    have hbt : IsBytes (encText s) := by
      intro b hb'
      have := encText_bytes s hs b hb'
      exact this
    have hr : refused (encText s) dest_len = false := by
      obtain ⟨k1, k2⟩ := encText_tail s hs hne
      have hp : 0 < s.length := List.length_pos_iff.mpr hne
      unfold refused maxDecodeLen
      simp only
      rw [encText_length] at *
      rw [if_neg (by omega)]
      split
      · simp only [decide_eq_false_iff_not]
        next h =>
        have : s.length % 3 ≠ 1 := fun h' => h.2.1 (k1.mpr h')
        omega
      · split
        · simp only [decide_eq_false_iff_not]
          next h =>
          have h3 : s.length % 3 = 0 := by
            by_contra h'
            exact h.2.2 (k2.mpr h')
          omega
        · rfl
    have := decode_eq (encText s) hbt a0 a1 a2 a3 dest_len hr
    have hf := foldl_encText s hs a0 a1 a2 a3 []
    simp only [init, List.nil_append] at this hf
    rw [hf] at this
    exact ⟨this.2, this.1⟩

example : (decode [9, 8, 7, 6] (encode (bytesOf "foobar!") 12).2 7).written = bytesOf "foobar!" := by decide +kernel

/-- Any text that becomes the RFC 4648 encoding of `s` once white space is dropped and the URL-safe
letters `-` and `_` are read as `+` and `/` decodes to `s`. -/
theorem C06_b64_decode_lenient (s t : List Nat) (hs : IsBytes s) (ht : IsBytes t) (hb : t.length < 2 ^ 63)
    (h : (t.filter fun c => !Space c).map standard = rfcEncode s) (dest_len : Nat)
    (hd : 3 * ((t.length + 3) / 4) ≤ dest_len) (a0 a1 a2 a3 : Nat) :
    (decode [a0, a1, a2, a3] t dest_len).ret = s.length ∧ (decode [a0, a1, a2, a3] t dest_len).written = s := by
  have key : (t.foldl step (init [a0, a1, a2, a3])).out = s := by
    rw [foldl_normal, h, ← encText_eq_rfc s hs]
    simpa [init] using foldl_encText s hs a0 a1 a2 a3 []
  by_cases hne : t = []
  · subst hne
    simp only [List.foldl_nil, init] at key
    subst key
    cases hr : refused [] dest_len with
    | true => simp [decode, hr]
    | false =>
      have := decode_eq [] IsBytes.nil a0 a1 a2 a3 dest_len hr
      simpa [init] using ⟨this.2, this.1⟩
  · have hr := not_refused t dest_len hne hb (by unfold maxDecodeLen; omega)
    have := decode_eq t ht a0 a1 a2 a3 dest_len hr
    rw [key] at this
    exact ⟨this.2, this.1⟩

example : (decode [9, 8, 7, 6] (bytesOf " -_\n-_ QQ\t = =") 12).written = [0xfb, 0xff, 0xbf, 0x41] ∧
    ((bytesOf " -_\n-_ QQ\t = =").filter fun c => !Space c).map standard = bytesOf "+/+/QQ==" := by decide +kernel

/-- The code does not initialise its scratch array, and the value of a text with a one-letter final
group is read from it: the two outcomes below differ only in stack garbage. -/
theorem C06_b64_uninitialised_read :
    (decode [0, 0, 0, 0] (bytesOf "A=") 3).written = [0] ∧
    (decode [0, 0xff, 0, 0] (bytesOf "A=") 3).written = [3] := by decide +kernel

/-! ## C07 -/

/-- Neither the strict decoder nor the lenient loop ever stores at or past `dest + dest_len`, for
any text at all. -/
theorem C07_b64_decode_bounds (src : List Nat) (hb : src.length < 2 ^ 63) (dest_len : Nat)
    (a0 a1 a2 a3 : Nat) :
    (decode [a0, a1, a2, a3] src dest_len).touched ≤ dest_len := by
  unfold decode
  split
  · simp
  · rename_i hr
    suffices h : (fastDecode src).2.length ≤ dest_len ∧ (src.foldl step (init [a0, a1, a2, a3])).out.length ≤ dest_len by
      simp only
      split
      · exact h.1
      · exact Nat.max_le.mpr h
    have hsm : Small (init [a0, a1, a2, a3]) := ⟨by simp [init], by simp [init]⟩
    have hi1 : (init [a0, a1, a2, a3]).out.length = 0 := rfl
    have hi2 : (init [a0, a1, a2, a3]).ib = 0 := rfl
    have hi3 : phi 0 = 0 := rfl
    generalize init [a0, a1, a2, a3] = st0 at *
    unfold refused maxDecodeLen at hr
    simp only at hr
    have m2 : 0 < src.length → ((src.length + 3) / 4 * 3 + 2 ^ 64 - 2) % 2 ^ 64 = (src.length + 3) / 4 * 3 - 2 := by omega
    have m1 : 0 < src.length → ((src.length + 3) / 4 * 3 + 2 ^ 64 - 1) % 2 ^ 64 = (src.length + 3) / 4 * 3 - 1 := by omega
    by_cases h2 : 1 < src.length
    · obtain ⟨p, e, hp⟩ := split_last2 src h2
      rw [m2 (by omega), m1 (by omega)] at hr
      clear m1 m2
      generalize src.getD (src.length - 2) 0 = x at *
      generalize src.getD (src.length - 1) 0 = y at *
      split at hr
      · simp at hr
      by_cases hx : x = 61
      · subst hx
        have f1 := dec_len_pad p [y] 0 0 []
        obtain ⟨s1, s2⟩ := foldl_small p _ hsm
        obtain ⟨s3, s4⟩ := step_pad_small _ s1
        have s5 := step_no_store _ y s4
        have e' : src.foldl step st0 = step (step (p.foldl step st0) 61) y := by
          conv_lhs => rw [e]
          simp
        have e2 : (fastDecode src).2 = (dec 0 0 [] (p ++ 61 :: [y])).out := by
          unfold fastDecode; conv_lhs => rw [e]
        rw [e', e2, s5]
        simp only [hi1, hi2, hi3, List.length_nil] at f1 s2
        constructor <;> omega
      · by_cases hy : y = 61
        · subst hy
          rw [if_pos ⟨h2, hx, rfl⟩] at hr
          simp only [decide_eq_true_eq] at hr
          have f1 := dec_len_pad (p ++ [x]) [] 0 0 []
          obtain ⟨s1, s2⟩ := foldl_small (p ++ [x]) _ hsm
          obtain ⟨s3, s4⟩ := step_pad_small _ s1
          have e' : src.foldl step st0 = step ((p ++ [x]).foldl step st0) 61 := by
            conv_lhs => rw [e]
            simp
          have e2 : (fastDecode src).2 = (dec 0 0 [] ((p ++ [x]) ++ 61 :: [])).out := by
            unfold fastDecode; conv_lhs => rw [e]
            simp
          rw [e', e2]
          simp only [hi1, hi2, hi3, List.length_nil, List.length_append, List.length_cons] at f1 s2
          constructor <;> omega
        · rw [if_neg (fun h => hy h.2.2), if_pos ⟨h2, hx, hy⟩] at hr
          simp only [decide_eq_true_eq] at hr
          have f1 := dec_len src 0 0 []
          obtain ⟨s1, s2⟩ := foldl_small src _ hsm
          simp only [hi1, hi2, hi3, List.length_nil] at f1 s2
          simp only [fastDecode]
          constructor <;> omega
    · have f1 := dec_len src 0 0 []
      obtain ⟨s1, s2⟩ := foldl_small src _ hsm
      simp only [hi1, hi2, hi3, List.length_nil] at f1 s2
      simp only [fastDecode]
      constructor <;> omega

example : (decode [0, 0, 0, 0] (bytesOf "Zm9=vYm=Fy") 9).touched = 4 ∧
    (decode [0, 0, 0, 0] (bytesOf "Zm9v=") 2).touched = 0 ∧ (decode [0, 0, 0, 0] (bytesOf "Zm9v=") 5).touched = 3 := by decide +kernel

end Mtev.B64
