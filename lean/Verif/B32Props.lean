import Verif.B32

/-! # Properties C04, C05: Base32 -/

namespace Mtev.B32

set_option linter.unusedSimpArgs false

/-! ## Specification: RFC 4648 Base32 as arithmetic -/

/-- RFC 4648 alphabet: `A-Z` for 0-25, `2-7` for 26-31. -/
def rfcChar (v : Nat) : Nat := if v < 26 then 65 + v else 24 + v

/-- Big-endian value of a byte string. -/
def bigEndian (bs : List Nat) : Nat := bs.foldl (fun n b => n * 256 + b) 0

/-- One quantum of 1 to 5 bytes: the 40-bit number (zero filled on the right) in base 32, most
significant digit first, keeping `ceil(8 * len / 5)` digits and padding with `=`. -/
def rfcGroup (bs : List Nat) : List Nat :=
  let n := bigEndian (bs ++ List.replicate (5 - bs.length) 0)
  let keep := (8 * bs.length + 4) / 5
  (List.range 8).map fun i => if i < keep then rfcChar (n / 32 ^ (7 - i) % 32) else 61

/-- RFC 4648 Base32 encoding. -/
def rfcEncode (s : List Nat) : List Nat :=
  match s with
  | [] => []
  | b :: r => rfcGroup ((b :: r).take 5) ++ rfcEncode (r.drop 4)
termination_by s.length
decreasing_by simp; omega

/-- Characters the decoder is documented to ignore: white space and `-`. -/
def Ignored (c : Nat) : Bool := c == 32 || c == 9 || c == 10 || c == 11 || c == 12 || c == 13 || c == 45

/-! ## Bridge lemmas -/

theorem ch_eq_rfc {v : Nat} (h : v < 32) : ch v = rfcChar v := by
  have : ∀ x : Fin 32, ch x.val = rfcChar x.val := by decide
  exact this ⟨v, h⟩

theorem range8 : List.range 8 = [0, 1, 2, 3, 4, 5, 6, 7] := by decide

theorem encText_eq_rfc (s : List Nat) (hs : IsBytes s) : encText s = rfcEncode s := by
  induction s using encText.induct with
  | case1 b0 b1 b2 b3 b4 rest ih =>
    simp only [isBytes_cons] at hs
    obtain ⟨p0, p1, p2, p3, p4, pr⟩ := hs
    rw [encText, rfcEncode, ih pr, mask_3e p1, mask_7c p3]
    simp only [Nat.shiftLeft_eq, Nat.shiftRight_eq_div_pow]
    rw [ch_eq_rfc, ch_eq_rfc, ch_eq_rfc, ch_eq_rfc, ch_eq_rfc, ch_eq_rfc, ch_eq_rfc, ch_eq_rfc]
    · simp only [rfcGroup, range8, bigEndian, List.take_succ_cons, List.take_zero, List.length_cons, List.length_nil,
        List.drop_succ_cons, List.drop_zero, List.map_cons, List.map_nil, Nat.reduceSub, Nat.reduceAdd, List.replicate,
        List.append_nil, List.foldl_cons, List.foldl_nil]
      simp only [List.append_cancel_right_eq, List.cons.injEq, and_true]
      simp (config := { decide := true }) only [if_true, Nat.reduceSub, Nat.reducePow, Nat.reduceAdd, Nat.reduceMul, Nat.reduceDiv, Nat.reduceLT]
      refine ⟨?_, ?_, ?_, ?_, ?_, ?_, ?_, ?_⟩ <;> congr 1 <;> omega
    all_goals omega
  | case2 => rw [encText, rfcEncode]
  | case3 b0 =>
    simp only [isBytes_cons] at hs
    obtain ⟨p0, _⟩ := hs
    rw [encText, rfcEncode]
    simp only [Nat.shiftLeft_eq, Nat.shiftRight_eq_div_pow]
    rw [ch_eq_rfc, ch_eq_rfc]
    · simp only [rfcGroup, range8, bigEndian, List.take_succ_cons, List.take_nil, List.length_cons, List.length_nil,
        List.drop_nil, List.map_cons, List.map_nil, Nat.reduceSub, Nat.reduceAdd, List.replicate, List.cons_append, List.nil_append,
        List.foldl_cons, List.foldl_nil, rfcEncode]
      simp (config := { decide := true }) only [if_true, if_false, Nat.reduceSub, Nat.reducePow, Nat.reduceAdd, Nat.reduceMul, Nat.reduceDiv, Nat.reduceLT,
        List.cons.injEq, and_true]
      refine ⟨?_, ?_⟩ <;> congr 1 <;> omega
    all_goals omega
  | case4 b0 b1 =>
    simp only [isBytes_cons] at hs
    obtain ⟨p0, p1, _⟩ := hs
    rw [encText, rfcEncode, mask_3e p1]
    simp only [Nat.shiftLeft_eq, Nat.shiftRight_eq_div_pow]
    rw [ch_eq_rfc, ch_eq_rfc, ch_eq_rfc, ch_eq_rfc]
    · simp only [rfcGroup, range8, bigEndian, List.take_succ_cons, List.take_nil, List.length_cons, List.length_nil,
        List.drop_succ_cons, List.drop_nil, List.map_cons, List.map_nil, Nat.reduceSub, Nat.reduceAdd, List.replicate, List.cons_append, List.nil_append,
        List.foldl_cons, List.foldl_nil, rfcEncode]
      simp (config := { decide := true }) only [if_true, if_false, Nat.reduceSub, Nat.reducePow, Nat.reduceAdd, Nat.reduceMul, Nat.reduceDiv, Nat.reduceLT,
        List.cons.injEq, and_true]
      refine ⟨?_, ?_, ?_, ?_⟩ <;> congr 1 <;> omega
    all_goals omega
  | case5 b0 b1 b2 =>
    simp only [isBytes_cons] at hs
    obtain ⟨p0, p1, p2, _⟩ := hs
    rw [encText, rfcEncode, mask_3e p1]
    simp only [Nat.shiftLeft_eq, Nat.shiftRight_eq_div_pow]
    rw [ch_eq_rfc, ch_eq_rfc, ch_eq_rfc, ch_eq_rfc, ch_eq_rfc]
    · simp only [rfcGroup, range8, bigEndian, List.take_succ_cons, List.take_nil, List.length_cons, List.length_nil,
        List.drop_succ_cons, List.drop_nil, List.map_cons, List.map_nil, Nat.reduceSub, Nat.reduceAdd, List.replicate, List.cons_append, List.nil_append,
        List.foldl_cons, List.foldl_nil, rfcEncode]
      simp (config := { decide := true }) only [if_true, if_false, Nat.reduceSub, Nat.reducePow, Nat.reduceAdd, Nat.reduceMul, Nat.reduceDiv, Nat.reduceLT,
        List.cons.injEq, and_true]
      refine ⟨?_, ?_, ?_, ?_, ?_⟩ <;> congr 1 <;> omega
    all_goals omega
  | case6 b0 b1 b2 b3 =>
    simp only [isBytes_cons] at hs
    obtain ⟨p0, p1, p2, p3, _⟩ := hs
    rw [encText, rfcEncode, mask_3e p1, mask_7c p3]
    simp only [Nat.shiftLeft_eq, Nat.shiftRight_eq_div_pow]
    rw [ch_eq_rfc, ch_eq_rfc, ch_eq_rfc, ch_eq_rfc, ch_eq_rfc, ch_eq_rfc, ch_eq_rfc]
    · simp only [rfcGroup, range8, bigEndian, List.take_succ_cons, List.take_nil, List.length_cons, List.length_nil,
        List.drop_succ_cons, List.drop_nil, List.map_cons, List.map_nil, Nat.reduceSub, Nat.reduceAdd, List.replicate, List.cons_append, List.nil_append,
        List.foldl_cons, List.foldl_nil, rfcEncode]
      simp (config := { decide := true }) only [if_true, if_false, Nat.reduceSub, Nat.reducePow, Nat.reduceAdd, Nat.reduceMul, Nat.reduceDiv, Nat.reduceLT,
        List.cons.injEq, and_true]
      refine ⟨?_, ?_, ?_, ?_, ?_, ?_, ?_⟩ <;> congr 1 <;> omega
    all_goals omega

theorem step_ignored {c : Nat} (h : Ignored c = true) (st : DSt) : step st c = st := by
  simp only [Ignored, Bool.or_eq_true, beq_iff_eq] at h
  unfold step
  split
  · rfl
  split
  · rfl
  split
  · rfl
  · rename_i h1 h2
    exfalso
    simp only [isspace, Bool.or_eq_true, beq_iff_eq, Bool.and_eq_true, decide_eq_true_eq] at h1
    omega

theorem foldl_filter (t : List Nat) (st : DSt) :
    t.foldl step st = (t.filter fun c => !Ignored c).foldl step st := by
  induction t generalizing st with
  | nil => rfl
  | cons c r ih =>
    rw [List.foldl_cons, List.filter_cons]
    cases h : Ignored c
    · simp only [Bool.not_false, if_true, List.foldl_cons]; exact ih _
    · simp only [Bool.not_true, Bool.false_eq_true, if_false]; rw [step_ignored h]; exact ih _

/-! ## C04 -/

/-- C04.  The encoder writes exactly the RFC 4648 text, and exactly as many characters as
`mtev_b32_encode_len` announces. -/
theorem C04_b32_encode_rfc4648 (s : List Nat) (hs : IsBytes s) (dl : Nat) (hdl : encodeLen s.length ≤ dl) :
    encode s dl = ⟨encodeLen s.length, rfcEncode s⟩ := by
  unfold encodeLen at hdl ⊢
  unfold encode
  rw [if_neg (by omega), encText_length, encText_eq_rfc s hs]

example : encode (bytesOf "fooba") 8 = ⟨8, bytesOf "MZXW6YTB"⟩ := by decide +kernel

/-- C04.  Any text which, after dropping white space and dashes, is what the encoder wrote for
`s` decodes to exactly `s`, and the bytes fit the announced destination size. -/
theorem C04_b32_roundtrip (s : List Nat) (hs : IsBytes s) (dl : Nat) (hdl : encodeLen s.length ≤ dl)
    (t : List Nat) (ht : (t.filter fun c => !Ignored c) = (encode s dl).written)
    (dl2 : Nat) (hdl2 : maxDecodeLen t.length ≤ dl2) :
    decode t dl2 = ⟨s.length, s⟩ ∧ s.length ≤ dl2 := by
  unfold encodeLen at hdl
  unfold maxDecodeLen at hdl2
  simp only [encode, if_neg (show ¬ dl < (s.length + 4) / 5 * 8 by omega)] at ht
  constructor
  · unfold decode
    rw [if_neg (by omega)]
    simp only
    rw [foldl_filter, ht, init, foldl_encText s hs]
    simp
  · have h1 := List.length_filter_le (fun c => !Ignored c) t
    rw [ht, encText_length] at h1
    omega

/-- Non-vacuity: separators inside the text. -/
example : let t := bytesOf "MZ-XW 6==\n="
    (t.filter fun c => !Ignored c) = bytesOf "MZXW6===" ∧ (encode (bytesOf "foo") 8).written = bytesOf "MZXW6===" ∧
    decode t 5 = ⟨3, bytesOf "foo"⟩ := by decide +kernel

/-- ASCII upper case. -/
def upper (c : Nat) : Nat := if 97 ≤ c ∧ c ≤ 122 then c - 32 else c

/-- C04.  Letter case does not matter to the decoder. -/
theorem C04_b32_decode_case_insensitive (t : List Nat) (ht : IsBytes t) (dl : Nat) :
    decode t dl = decode (t.map upper) dl := by
  have h : ∀ st, t.foldl step st = (t.map upper).foldl step st := by
    induction t with
    | nil => intro st; rfl
    | cons c r ih =>
      intro st
      rw [isBytes_cons] at ht
      rw [List.map_cons, List.foldl_cons, List.foldl_cons, ih ht.2]
      have key : ∀ x : Fin 256, val x.val = val (upper x.val) ∧ isspace x.val = isspace (upper x.val) ∧
          (x.val = 45 ↔ upper x.val = 45) := by decide +kernel
      obtain ⟨k1, k2, k3⟩ := key ⟨c, ht.1⟩
      simp only at k1 k2 k3
      unfold step
      simp only [k1, k2, k3]
  unfold decode
  rw [List.length_map, h]

/-! ## C05 -/

/-- C05 (false as stated): the guard rounds the source length down to a multiple of 8, so short
padded texts write into a zero-sized destination: `mtev_b32_decode("MZXW6Y=", 7, dest, 0)`
stores four bytes. -/
theorem C05_b32_decode_overflow_violated :
    ∃ t dl, IsBytes t ∧ maxDecodeLen t.length ≤ dl ∧ (decode t dl).written.length = dl + 4 :=
  ⟨bytesOf "MZXW6Y=", 0, by decide, by decide, by decide⟩

theorem group_length (i : List Nat) : (group i).length = 5 := rfl

theorem push_potential (st : DSt) (i : List Nat) (ob c : Nat) (hob : ob ≤ 5) :
    let st' := push st i ob c
    (i.length = 7 → st'.out.length = st.out.length + ob ∧ st'.inb = []) ∧
    (i.length ≠ 7 → st'.out.length = st.out.length ∧ st'.inb.length = i.length + 1) ∧
    st'.ob = ob ∧ st'.stop = false := by
  unfold push
  simp only
  split
  · rename_i h
    simp only [List.length_append, List.length_cons, List.length_nil] at h
    refine ⟨fun _ => ⟨?_, rfl⟩, fun h2 => absurd (by omega) h2, rfl, rfl⟩
    simp [group_length]; omega
  · rename_i h
    simp only [List.length_append, List.length_cons, List.length_nil] at h
    refine ⟨fun h2 => absurd (by omega) h, fun _ => ⟨rfl, by simp⟩, rfl, rfl⟩

/-- Each source character pays for at most 5/8 of an output byte. -/
theorem foldl_potential (t : List Nat) (st : DSt) (hob : st.ob ≤ 5) (hi : st.inb.length ≤ 7) (k : Nat)
    (h : 8 * st.out.length + 5 * st.inb.length ≤ k) :
    8 * (t.foldl step st).out.length ≤ k + 5 * t.length := by
  induction t generalizing st k with
  | nil => simp; omega
  | cons c r ih =>
    rw [List.foldl_cons, List.length_cons]
    have : (step st c).ob ≤ 5 ∧ (step st c).inb.length ≤ 7 ∧
        8 * (step st c).out.length + 5 * (step st c).inb.length ≤ k + 5 := by
      unfold step
      split
      · exact ⟨hob, hi, by omega⟩
      split
      · exact ⟨hob, hi, by omega⟩
      split
      · exact ⟨hob, hi, by omega⟩
      simp only
      split
      · exact ⟨hob, hi, by simp only; omega⟩
      split
      · split
        · exact ⟨hob, hi, by simp only; omega⟩
        · rename_i hne
          have hpad : padOb st.inb.length ≤ 5 ∧ 8 * padOb st.inb.length ≤ 5 * st.inb.length + 5 := by
            unfold padOb
            split
            · omega
            split
            · omega
            split
            · omega
            · omega
          obtain ⟨a, _, c', _⟩ := push_potential st (st.inb ++ List.replicate (7 - st.inb.length) 0)
            (padOb st.inb.length) (val c) hpad.1
          obtain ⟨a1, a2⟩ := a (by simp; omega)
          rw [a1, a2, c']
          refine ⟨hpad.1, by simp, ?_⟩
          simp only [List.length_nil]; omega
      · obtain ⟨a, b, c', _⟩ := push_potential st st.inb st.ob (val c) hob
        by_cases h7 : st.inb.length = 7
        · obtain ⟨a1, a2⟩ := a h7
          rw [a1, a2, c']; refine ⟨hob, by simp, ?_⟩
          simp only [List.length_nil]; omega
        · obtain ⟨b1, b2⟩ := b h7
          rw [b1, b2, c']; exact ⟨hob, by omega, by omega⟩
    have := ih (step st c) this.1 this.2.1 (k + 5) this.2.2
    omega

/-- C05 (part that holds): at most `5 * src_len / 8` bytes are stored, so the destination is
respected whenever `dest_len` is at least that, and always when the source length is a multiple
of 8 (as every encoder output is).  Missing: sources whose length is not a multiple of 8 with
the smaller `dest_len` the guard accepts. -/
theorem C05_b32_decode_bounds_partial (t : List Nat) (dl : Nat) :
    8 * (decode t dl).written.length ≤ 5 * t.length ∧
    ((5 * t.length / 8 ≤ dl ∨ t.length % 8 = 0) → (decode t dl).written.length ≤ dl) := by
  have h : 8 * (decode t dl).written.length ≤ 5 * t.length := by
    unfold decode
    split
    · simp
    · have := foldl_potential t init (by decide) (by decide) 0 (by decide)
      simpa using this
  refine ⟨h, ?_⟩
  rintro (h1 | h1)
  · omega
  · by_cases hg : dl < (t.length / 8) * 5
    · simp [decode, hg]
    · omega

example : (bytesOf "MZXW6===").length % 8 = 0 ∧ decode (bytesOf "MZXW6===") 5 = ⟨3, bytesOf "foo"⟩ := by decide +kernel

end Mtev.B32
