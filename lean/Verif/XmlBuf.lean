import Verif.Mem

/-!
# Writing a document to memory

`src/mtev_xml.c:42-91`: `mtev_xmlSaveToBuffer` with `mtev_xml_save_writer` and `mtev_xml_save_closer`;
`src/mtev_conf.c:2510-2532`: `mtev_config_log_write_xml`, the same without the byte at the end, as
`mtev_conf_xml_in_mem` uses it.

What libxml2 writes is given: the pieces it hands over, one after the other.  `junk` is what memory contains.
Simplified: memory is not short.
-/

namespace Mtev.XmlBuf

abbrev Str := List Nat

/-- `struct mtev_xml_buffer_ptr`, `mtev_xml.c:42-47`; `allocd` is the length of the block -/
structure Buf where
  buff : Option Block := none
  len : Nat := 0
deriving DecidableEq, Repr

/-- `realloc(b, n)` for a larger `n` -/
def realloc (junk : Nat → Nat) (b : Block) (n : Nat) : Block := b ++ malloc junk (n - b.length)

/-- the loop `mtev_xml.c:55-65`: double until there is room; sizes are `int`s, so doubling 2^30 is an overflow -/
def grow (junk : Nat → Nat) : Nat → Nat → Block → Out Block
  | 0, _, _ => .ub
  | f + 1, need, b =>
    if need > b.length then
      if 2 ^ 30 ≤ b.length then .ub else grow junk f need (realloc junk b (b.length * 2))
    else .ok b

/-- `mtev_xml_save_writer`, `mtev_xml.c:48-69` -/
def writer (junk : Nat → Nat) (s : Buf) (piece : Str) : Out Buf :=
  let b := s.buff.getD (malloc junk 8192)
  if 2 ^ 31 ≤ piece.length + s.len then .ub
  else do
    let b ← grow junk 32 (piece.length + s.len) b
    let b ← b.write s.len piece
    return { buff := some b, len := s.len + piece.length }

/-- all the pieces -/
def writeAll (junk : Nat → Nat) : Buf → List Str → Out Buf
  | s, [] => .ok s
  | s, p :: ps => do
    let s ← writer junk s p
    writeAll junk s ps

/-- `mtev_xml_save_closer`, `mtev_xml.c:70-76` -/
def closer (s : Buf) : Out Buf :=
  match s.buff with
  | none => .ok s
  | some b => do
    let b ← b.write s.len [0]
    return { s with buff := some b }

/-- `mtev_xmlSaveToBuffer`, `mtev_xml.c:78-91` -/
def saveToBuffer (junk : Nat → Nat) (pieces : List Str) : Out (Option Block) := do
  let s ← writeAll junk {} pieces
  let s ← closer s
  return s.buff

/-- `mtev_conf_xml_in_mem`, `mtev_conf.c:2721-2750`: block and length -/
def xmlInMem (junk : Nat → Nat) (pieces : List Str) : Out (Option Block × Nat) := do
  let s ← writeAll junk {} pieces
  return (s.buff, s.len)

/-! ### the invariant -/

theorem realloc_length (junk : Nat → Nat) (b : Block) (n : Nat) (h : b.length ≤ n) :
    (realloc junk b n).length = n := by simp [realloc]; omega

theorem grow_ok (junk : Nat → Nat) (need : Nat) (hn : need ≤ 2 ^ 30) :
    ∀ (f j : Nat) (b : Block), b.length = 8192 * 2 ^ j → 17 < f + j → (j ≤ 17) →
      (j = 0 ∨ 8192 * 2 ^ (j - 1) < need) →
      ∃ b' j', grow junk f need b = .ok b' ∧ b'.length = 8192 * 2 ^ j' ∧ j' ≤ 17 ∧ b'.take b.length = b ∧
        b.length ≤ b'.length ∧ need ≤ b'.length ∧ (j' = 0 ∨ 8192 * 2 ^ (j' - 1) < need)
  | 0, j, b, _, h2, h3, _ => by omega
  | f + 1, j, b, hb, h2, h3, h4 => by
    unfold grow
    by_cases hc : need > b.length
    · rw [if_pos hc]
      have hj : j < 17 := by
        by_contra hge
        have : j = 17 := by omega
        subst this
        omega
      have hlt : ¬ 2 ^ 30 ≤ b.length := by
        rw [hb]
        have : 2 ^ j ≤ 2 ^ 16 := Nat.pow_le_pow_right (by omega) (by omega)
        omega
      rw [if_neg hlt]
      have hl : (realloc junk b (b.length * 2)).length = 8192 * 2 ^ (j + 1) := by
        rw [realloc_length _ _ _ (by omega), hb, Nat.pow_succ]; omega
      obtain ⟨b', j', g1, g2, g3, g4, g5, g6, g7⟩ := grow_ok junk need hn f (j + 1) _ hl (by omega) (by omega)
        (Or.inr (by rw [Nat.add_sub_cancel, ← hb]; exact hc))
      have hle : b.length ≤ (realloc junk b (b.length * 2)).length := by
        rw [realloc_length _ _ _ (by omega)]; omega
      refine ⟨b', j', g1, g2, g3, ?_, by omega, g6, g7⟩
      have : b'.take b.length = (b'.take (realloc junk b (b.length * 2)).length).take b.length := by
        rw [List.take_take, Nat.min_eq_left hle]
      rw [this, g4]
      simp [realloc]
    · rw [if_neg hc]
      exact ⟨b, j, rfl, hb, h3, by simp, Nat.le_refl _, by omega, h4⟩

/-- what has been written so far -/
structure Holds (s : Buf) (text : Str) : Prop where
  len : s.len = text.length
  buff : ∃ b j, s.buff = some b ∧ b.length = 8192 * 2 ^ j ∧ j ≤ 17 ∧ b.take text.length = text ∧
    text.length ≤ b.length ∧ (j = 0 ∨ 8192 * 2 ^ (j - 1) < text.length)

theorem writer_ok (junk : Nat → Nat) (s : Buf) (text piece : Str) (h : Holds s text ∨ (s = {} ∧ text = []))
    (hn : (text ++ piece).length ≤ 2 ^ 30) :
    ∃ s', writer junk s piece = .ok s' ∧ Holds s' (text ++ piece) := by
  have h0 : ∃ b j, s.buff.getD (malloc junk 8192) = b ∧ b.length = 8192 * 2 ^ j ∧ j ≤ 17 ∧
      b.take text.length = text ∧ text.length ≤ b.length ∧ (j = 0 ∨ 8192 * 2 ^ (j - 1) < text.length) ∧
      s.len = text.length := by
    rcases h with h | ⟨rfl, rfl⟩
    · obtain ⟨b, j, e, r1, r2, r3, r4, r5⟩ := h.buff
      exact ⟨b, j, by rw [e]; rfl, r1, r2, r3, r4, r5, h.len⟩
    · exact ⟨malloc junk 8192, 0, Option.getD_none, malloc_length _ _, by omega, List.take_zero, Nat.zero_le _, Or.inl rfl, rfl⟩
  obtain ⟨b, j, e, hb, hj, ht, hle, hm, hl⟩ := h0
  rw [List.length_append] at hn
  unfold writer
  simp only
  rw [if_neg (by omega), e]
  obtain ⟨b', j', g1, g2, g3, g4, g5, g6, g7⟩ := grow_ok junk (piece.length + s.len) (by omega) 32 j b hb (by omega) hj
    (by rcases hm with h | h
        · exact Or.inl h
        · exact Or.inr (by omega))
  rw [g1]
  simp only [Out.ok_bind]
  have hw : s.len + piece.length ≤ b'.length := by omega
  rw [Block.write_ok hw]
  simp only [Out.ok_bind, Out.pure_eq]
  refine ⟨_, rfl, ⟨by simp [hl], ?_⟩⟩
  have hlen : (b'.take s.len ++ piece ++ b'.drop (s.len + piece.length)).length = b'.length := by
    simp only [List.length_append, List.length_take, List.length_drop]; omega
  refine ⟨_, j', rfl, by rw [hlen, g2], g3, ?_, ?_, ?_⟩
  · have e2 : b'.take s.len = text := by
      have : b'.take s.len = (b'.take b.length).take s.len := by
        rw [List.take_take, Nat.min_eq_left (by omega)]
      rw [this, g4, hl, ht]
    rw [e2, List.length_append, List.append_assoc, ← List.append_assoc, List.take_left' (by simp)]
  · rw [hlen, List.length_append]; omega
  · rw [List.length_append]
    rcases g7 with h | h
    · exact Or.inl h
    · right; omega

theorem writeAll_ok (junk : Nat → Nat) : ∀ (ps : List Str) (s : Buf) (text : Str),
    (Holds s text ∨ (s = {} ∧ text = [])) → (text ++ ps.flatten).length ≤ 2 ^ 30 → (ps ≠ [] ∨ Holds s text) →
    ∃ s', writeAll junk s ps = .ok s' ∧ Holds s' (text ++ ps.flatten)
  | [], s, text, _, _, hne => by
    rcases hne with h | h
    · exact absurd rfl h
    · exact ⟨s, rfl, by simpa using h⟩
  | p :: ps, s, text, h, hn, _ => by
    rw [List.flatten_cons, ← List.append_assoc] at hn ⊢
    obtain ⟨s1, w1, w2⟩ := writer_ok junk s text p h (by
      rw [List.length_append] at hn; omega)
    obtain ⟨s', v1, v2⟩ := writeAll_ok junk ps s1 (text ++ p) (Or.inl w2) hn (Or.inr w2)
    refine ⟨s', ?_, v2⟩
    unfold writeAll
    rw [w1]
    exact v1

end Mtev.XmlBuf
