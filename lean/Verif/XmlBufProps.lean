import Verif.XmlBuf

/-!
# C111: a document in memory

The text is what libxml2 hands over, in any number of pieces.
-/

namespace Mtev.XmlBuf

/-- **C111 (with its length).**  `mtev_conf_xml_in_mem` gives the whole text and its length, in however many pieces it
comes.  Partial: at most 2^30 bytes. -/
theorem C111_length_partial (junk : Nat → Nat) (pieces : List Str) (h0 : pieces ≠ [])
    (hn : pieces.flatten.length ≤ 2 ^ 30) :
    ∃ b, xmlInMem junk pieces = .ok (some b, pieces.flatten.length) ∧
      b.take pieces.flatten.length = pieces.flatten := by
  obtain ⟨s, h1, h2⟩ := writeAll_ok junk pieces {} [] (Or.inr ⟨rfl, rfl⟩) (by simpa using hn) (Or.inl h0)
  obtain ⟨b, j, e, r1, r2, r3, r4, r5⟩ := h2.buff
  rw [List.nil_append] at r3
  refine ⟨b, ?_, r3⟩
  unfold xmlInMem
  rw [h1]
  simp only [Out.ok_bind, Out.pure_eq]
  rw [e, h2.len, List.nil_append]

/-- **C111 (with its end).**  `mtev_xmlSaveToBuffer` gives the text followed by a NUL, in memory it owns.  Partial: at
most 2^30 bytes, and the length is not 8192 times a power of two. -/
theorem C111_text_partial (junk : Nat → Nat) (pieces : List Str) (h0 : pieces ≠ [])
    (hn : pieces.flatten.length ≤ 2 ^ 30) (hp : ∀ k, pieces.flatten.length ≠ 8192 * 2 ^ k) :
    ∃ b, saveToBuffer junk pieces = .ok (some b) ∧
      b.take (pieces.flatten.length + 1) = pieces.flatten ++ [0] := by
  obtain ⟨s, h1, h2⟩ := writeAll_ok junk pieces {} [] (Or.inr ⟨rfl, rfl⟩) (by simpa using hn) (Or.inl h0)
  obtain ⟨b, j, e, r1, r2, r3, r4, r5⟩ := h2.buff
  have hl := h2.len
  rw [List.nil_append] at r3 r4 r5 hl
  have hlt : s.len + [0].length ≤ b.length := by
    have := hp j
    simp only [List.length_singleton]
    omega
  refine ⟨b.take s.len ++ [0] ++ b.drop (s.len + 1), ?_, ?_⟩
  · unfold saveToBuffer
    rw [h1]
    simp only [Out.ok_bind]
    unfold closer
    rw [e]
    simp only
    rw [Block.write_ok hlt]
    simp
  · rw [hl, r3, List.take_left' (by simp)]

example : (saveToBuffer (fun _ => 7) [bytesOf "<a>", bytesOf "</a>"]).bind (fun r => .ok ((r.getD []).take 8))
    = .ok (bytesOf "<a></a>" ++ [0]) := by decide +kernel

/-- **C111 (violated: texts that fill the buffer).**  If the length is 8192 times a power of two, the NUL is written
behind the end of the memory, in whatever pieces the text comes. -/
theorem C111_end_violated (junk : Nat → Nat) (pieces : List Str) (k : Nat) (hk : k ≤ 17)
    (hp : pieces.flatten.length = 8192 * 2 ^ k) : saveToBuffer junk pieces = .ub := by
  have hpos : 0 < 2 ^ k := Nat.pow_pos (by omega)
  have h0 : pieces ≠ [] := by rintro rfl; simp at hp
  have hle : 2 ^ k ≤ 2 ^ 17 := Nat.pow_le_pow_right (by omega) hk
  obtain ⟨s, h1, h2⟩ := writeAll_ok junk pieces {} [] (Or.inr ⟨rfl, rfl⟩) (by simp only [List.nil_append]; omega) (Or.inl h0)
  obtain ⟨b, j, e, r1, r2, r3, r4, r5⟩ := h2.buff
  have hl := h2.len
  rw [List.nil_append] at r3 r4 r5 hl
  have hjk : j ≤ k := by
    rcases r5 with rfl | h
    · omega
    · by_contra hc
      have : 2 ^ k ≤ 2 ^ (j - 1) := Nat.pow_le_pow_right (by omega) (by omega)
      omega
  have hjk' : 2 ^ j ≤ 2 ^ k := Nat.pow_le_pow_right (by omega) hjk
  unfold saveToBuffer
  rw [h1]
  simp only [Out.ok_bind]
  unfold closer
  rw [e]
  simp only
  have : b.write s.len [0] = .ub := by
    unfold Block.write
    rw [if_neg (by simp only [List.length_singleton]; omega)]
  rw [this]
  simp

example : [List.replicate 8000 65, List.replicate 192 65].flatten.length = 8192 * 2 ^ 0 := by
  rw [List.length_flatten, List.map_cons, List.map_cons, List.length_replicate, List.length_replicate]; rfl

/-- **C111 (violated: very long texts).**  A text of more than 2^30 bytes in one piece overflows the size. -/
theorem C111_long_violated (junk : Nat → Nat) (p : Str) (h : 2 ^ 30 < p.length) : saveToBuffer junk [p] = .ub := by
  have key : ∀ (need : Nat), 2 ^ 30 < need → ∀ (f j : Nat) (b : Block), b.length = 8192 * 2 ^ j → j ≤ 17 →
      grow junk f need b = .ub := by
    intro need hn f
    induction f with
    | zero => intro j b _ _; rfl
    | succ f ih =>
      intro j b hb hj
      have hle : 2 ^ j ≤ 2 ^ 17 := Nat.pow_le_pow_right (by omega) hj
      unfold grow
      rw [if_pos (by omega)]
      by_cases hc : 2 ^ 30 ≤ b.length
      · rw [if_pos hc]
      · rw [if_neg hc]
        have hj' : j ≠ 17 := by rintro rfl; omega
        exact ih (j + 1) _ (by rw [realloc_length _ _ _ (by omega), hb, Nat.pow_succ]; omega) (by omega)
  unfold saveToBuffer writeAll
  have : writer junk {} p = .ub := by
    unfold writer
    simp only
    split
    · rfl
    · rw [key _ (by omega) 32 0 _ (by simp) (by omega)]
      simp
  rw [this]
  simp

end Mtev.XmlBuf
