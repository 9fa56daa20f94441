import Verif.Mem

/-!
# Model of `src/utils/mtev_dyn_buffer.c`

`mtev_dyn_buffer_t` (mtev_dyn_buffer.h:53-58): `stat` is `static_buffer`, `heap` is the allocation
`data` points to when it is not `static_buffer`, `pos` is the offset of `pos` from `data`.
`size_t` arithmetic wraps at 2^64 and the `int` variables at 32 bits, as in the code.
`mtev_dyn_buffer_add_json_string` (an external yajl routine calling `mtev_dyn_buffer_add`) and the
curl callback (a call of `mtev_dyn_buffer_add`) are not modelled separately.
-/

namespace Mtev.DynBuffer

structure Buf where
  stat : Block
  heap : Option Block
  size : Nat
  pos : Nat
deriving Repr

/-- The memory `data` points to. -/
def Buf.cur (b : Buf) : Block := b.heap.getD b.stat

/-- Store back into the memory `data` points to. -/
def Buf.setCur (b : Buf) (c : Block) : Buf :=
  match b.heap with
  | none => { b with stat := c }
  | some _ => { b with heap := some c }

/-- `mtev_dyn_buffer_init`, mtev_dyn_buffer.c:20-26. -/
def init (b : Buf) : Buf := { b with heap := none, size := 4096, pos := 0 }

/-- `mtev_dyn_buffer_ensure`, mtev_dyn_buffer.c:89-106. `realloc` keeps the old bytes. -/
def ensure (junk : Nat → Nat) (b : Buf) (len : Nat) : Out Buf :=
  let used := b.pos
  let want := (used + len) % 2 ^ 64
  if b.size < want then
    match b.heap with
    | none => do
      let newSize := (want * 2) % 2 ^ 64
      let src ← b.stat.read 0 used
      let d ← (malloc junk newSize).write 0 src
      .ok { b with heap := some d, size := newSize }
    | some h =>
      let newSize := max ((b.size * 2) % 2 ^ 64) want
      .ok { b with heap := some (h.take newSize ++ (malloc junk newSize).drop h.length), size := newSize }
  else .ok b

/-- `mtev_dyn_buffer_add`, mtev_dyn_buffer.c:28-34. -/
def add (junk : Nat → Nat) (b : Buf) (data : List Nat) : Out Buf := do
  let b ← ensure junk b data.length
  let c ← b.cur.write b.pos data
  .ok { b.setCur c with pos := b.pos + data.length }

/-- Conversion to a 32-bit `int`. -/
def toInt32 (n : Nat) : Int := if n % 2 ^ 32 < 2 ^ 31 then (n % 2 ^ 32 : Nat) else (n % 2 ^ 32 : Nat) - 2 ^ 32

/-- Conversion of an `int` to `size_t`. -/
def toSize (i : Int) : Nat := (i % 2 ^ 64).toNat

/-- What `vsnprintf` stores for a formatted text `text` (without NUL) and a size limit `n`. -/
def snprintfBytes (text : List Nat) (n : Nat) : List Nat := if n = 0 then [] else text.take (n - 1) ++ [0]

/-- `mtev_dyn_buffer_add_vprintf`, mtev_dyn_buffer.c:41-58; `text` is what the format expands to. -/
def addVprintf (junk : Nat → Nat) (b : Buf) (text : List Nat) : Out Buf := do
  let available := toInt32 (b.size - b.pos)
  let c ← b.cur.write b.pos (snprintfBytes text (toSize available))
  let b := b.setCur c
  let needed : Int := text.length
  if needed > available - 1 then do
    let b ← ensure junk b (text.length + 1)
    let c ← b.cur.write b.pos (snprintfBytes text (text.length + 1))
    .ok { b.setCur c with pos := b.pos + text.length }
  else .ok { b with pos := b.pos + text.length }

/-- `mtev_dyn_buffer_maybe_add_vprintf`, mtev_dyn_buffer.c:60-72: buffer and return value. -/
def maybeAddVprintf (b : Buf) (text : List Nat) : Out (Buf × Nat) := do
  let available := toInt32 (b.size - b.pos)
  let c ← b.cur.write b.pos (snprintfBytes text (toSize available))
  let b := b.setCur c
  if (text.length : Int) > available - 1 then
    if available > 0 then do
      let c ← b.cur.write b.pos [0]
      .ok (b.setCur c, text.length + 1)
    else .ok (b, text.length + 1)
  else .ok ({ b with pos := b.pos + text.length }, 0)

/-- `mtev_dyn_buffer_add_printf`, mtev_dyn_buffer.c:74-87. -/
def addPrintf (junk : Nat → Nat) (b : Buf) (text : List Nat) : Out Buf := do
  let r ← maybeAddVprintf b text
  if r.2 ≠ 0 then do
    let b ← ensure junk r.1 r.2
    let r ← maybeAddVprintf b text
    if r.2 = 0 then .ok r.1 else .abort
  else .ok r.1

/-- A caller reserving room with `mtev_dyn_buffer_ensure` (89-106), filling it through
`mtev_dyn_buffer_write_pointer` (126-130) and calling `mtev_dyn_buffer_advance` (132-136). -/
def ensureWriteAdvance (junk : Nat → Nat) (b : Buf) (data : List Nat) : Out Buf := do
  let b ← ensure junk b data.length
  let c ← b.cur.write b.pos data
  let b := b.setCur c
  .ok { b with pos := b.pos + data.length }

/-- `mtev_dyn_buffer_reset`, mtev_dyn_buffer.c:138-142. -/
def reset (b : Buf) : Buf := { b with pos := 0 }

/-- `mtev_dyn_buffer_destroy`, mtev_dyn_buffer.c:144-151. -/
def destroy (b : Buf) : Buf := init b

/-- `mtev_dyn_buffer_destroy_detach_data`, mtev_dyn_buffer.c:153-166: the buffer and the memory
handed to the caller. -/
def detach (junk : Nat → Nat) (b : Buf) : Out (Buf × Block) := do
  let length := b.pos
  if b.heap = none ∨ length = b.size then do
    let src ← b.cur.read 0 length
    let d ← (malloc junk (length + 1)).write 0 src
    let d ← d.write length [0]
    .ok (init b, d)
  else do
    let d ← b.cur.write length [0]
    .ok (init b, d)

/-! ## Invariant and step lemmas -/

/-- Representation invariant. -/
structure Inv (b : Buf) : Prop where
  stat : b.stat.length = 4096
  size : b.cur.length = b.size
  pos : b.pos ≤ b.size

/-- The bytes added so far. -/
def content (b : Buf) : List Nat := b.cur.take b.pos

@[simp] theorem cur_setCur (b : Buf) (c : Block) : (b.setCur c).cur = c := by
  unfold Buf.setCur Buf.cur; cases h : b.heap <;> simp
@[simp] theorem size_setCur (b : Buf) (c : Block) : (b.setCur c).size = b.size := by
  unfold Buf.setCur; cases h : b.heap <;> simp
@[simp] theorem pos_setCur (b : Buf) (c : Block) : (b.setCur c).pos = b.pos := by
  unfold Buf.setCur; cases h : b.heap <;> simp
@[simp] theorem cur_pos (b : Buf) (p : Nat) : ({ b with pos := p } : Buf).cur = b.cur := rfl

@[simp] theorem cur_mk (b : Buf) (c : Block) (s p : Nat) : (Buf.mk (b.setCur c).stat (b.setCur c).heap s p).cur = c :=
  cur_setCur b c

theorem content_length {b : Buf} (h : Inv b) : (content b).length = b.pos := by
  have := h.size; have := h.pos; simp [content]; omega

theorem setCur_inv {b : Buf} {c : Block} (h : Inv b) (hc : c.length = b.size) : Inv (b.setCur c) := by
  refine ⟨?_, by simpa using hc, by simpa using h.pos⟩
  have h1 := h.size
  have h2 := h.stat
  unfold Buf.setCur
  unfold Buf.cur at h1
  cases hh : b.heap with
  | none => rw [hh] at h1; simp at *; omega
  | some x => simpa using h2

theorem init_inv {b : Buf} (h : b.stat.length = 4096) : Inv (init b) :=
  ⟨h, by simpa [init, Buf.cur] using h, by simp [init]⟩

/-- `ensure` keeps the contents, provides room, and at most doubles what is needed. -/
theorem ensure_spec (junk : Nat → Nat) {b : Buf} (len : Nat) (h : Inv b) (hb : b.pos + len < 2 ^ 62) (hs : b.size < 2 ^ 62) :
    ∃ b', ensure junk b len = .ok b' ∧ Inv b' ∧ content b' = content b ∧ b'.pos = b.pos ∧ b.pos + len ≤ b'.size ∧
      b'.size ≤ max b.size (2 * (b.pos + len)) := by
  have h1 := h.size
  have h2 := h.stat
  have h3 := h.pos
  have e1 : (b.pos + len) % 2 ^ 64 = b.pos + len := Nat.mod_eq_of_lt (by omega)
  have e2 : ((b.pos + len) * 2) % 2 ^ 64 = (b.pos + len) * 2 := Nat.mod_eq_of_lt (by omega)
  have e3 : (b.size * 2) % 2 ^ 64 = b.size * 2 := Nat.mod_eq_of_lt (by omega)
  unfold ensure
  simp only [e1, e2, e3]
  by_cases hlt : b.size < b.pos + len
  · rw [if_pos hlt]
    unfold Buf.cur at h1
    cases hh : b.heap with
    | none =>
      rw [hh] at h1
      simp only [Option.getD_none] at h1
      rw [Block.read_ok (by omega)]
      simp only [Out.ok_bind, List.drop_zero]
      have hw := Block.write_ok (b := malloc junk ((b.pos + len) * 2)) (off := 0) (data := b.stat.take b.pos)
        (by simp; omega)
      rw [hw]
      refine ⟨_, rfl, ⟨h2, ?_, ?_⟩, ?_, rfl, ?_, ?_⟩
      · have := Block.write_length hw
        simpa [Buf.cur] using this
      · simp only; omega
      · have := Block.write_take hw
        simp only [Nat.zero_add, List.length_take] at this
        rw [show min b.pos b.stat.length = b.pos by omega] at this
        simp only [content, Buf.cur, Option.getD_some, hh, Option.getD_none]
        rw [List.length_take, show min b.pos b.stat.length = b.pos by omega, Nat.zero_add, this]
        simp
      · simp only; omega
      · simp only; omega
    | some x =>
      rw [hh] at h1
      simp only [Option.getD_some] at h1
      refine ⟨_, rfl, ⟨h2, ?_, ?_⟩, ?_, rfl, ?_, ?_⟩
      · simp [Buf.cur]; omega
      · simp only; omega
      · simp only [content, Buf.cur, Option.getD_some, hh]
        rw [List.take_append_of_le_length (by simp; omega), List.take_take]
        congr 1; omega
      · simp only; omega
      · simp only; omega
  · rw [if_neg hlt]
    exact ⟨b, rfl, h, rfl, rfl, by omega, by omega⟩

/-- Storing `data` at the write position and moving it forward. -/
theorem write_spec {b : Buf} (data : List Nat) (h : Inv b) (hr : b.pos + data.length ≤ b.size) :
    ∃ c, b.cur.write b.pos data = .ok c ∧ c.length = b.size ∧ c.take (b.pos + data.length) = content b ++ data ∧
      c.take b.pos = content b := by
  have hw := Block.write_ok (b := b.cur) (off := b.pos) (data := data) (by rw [h.size]; exact hr)
  refine ⟨_, hw, ?_, Block.write_take hw, Block.write_take_before hw⟩
  rw [Block.write_length hw, h.size]

theorem add_spec (junk : Nat → Nat) {b : Buf} (data : List Nat) (h : Inv b) (hb : b.pos + data.length < 2 ^ 62)
    (hs : b.size < 2 ^ 62) :
    ∃ b', add junk b data = .ok b' ∧ Inv b' ∧ content b' = content b ++ data ∧
      b'.size ≤ max b.size (2 * (b.pos + data.length)) ∧ b'.pos = b.pos + data.length := by
  obtain ⟨b1, e1, i1, c1, p1, r1, s1⟩ := ensure_spec junk data.length h hb hs
  rw [← p1] at r1
  obtain ⟨c, e2, l2, t2, _⟩ := write_spec data i1 r1
  unfold add
  simp only [e1, Out.ok_bind, e2]
  refine ⟨_, rfl, ?_, ?_, ?_, ?_⟩
  · have := setCur_inv i1 l2
    exact ⟨this.stat, this.size, by simpa using r1⟩
  · simp only [content, cur_pos, cur_setCur]
    rw [t2, c1]; rfl
  · simpa using s1
  · simp [p1]

theorem ensureWriteAdvance_eq (junk : Nat → Nat) (b : Buf) (data : List Nat) :
    ensureWriteAdvance junk b data = add junk b data := by
  unfold ensureWriteAdvance add
  simp

theorem toInt32_le (n : Nat) : toInt32 n ≤ n := by unfold toInt32; split <;> omega

theorem toInt32_small {n : Nat} (h : n < 2 ^ 31) : toInt32 n = n := by unfold toInt32; split <;> omega

theorem snprintfBytes_length (text : List Nat) (n : Nat) : (snprintfBytes text n).length ≤ n := by
  unfold snprintfBytes; split
  · simp
  · simp; omega

theorem snprintfBytes_full {text : List Nat} {n : Nat} (h : text.length < n) : snprintfBytes text n = text ++ [0] := by
  unfold snprintfBytes; rw [if_neg (by omega), List.take_of_length_le (by omega)]

/-- The first attempt of the printf variants, for free space below 2 GiB. -/
theorem attempt_spec {b : Buf} (text : List Nat) (h : Inv b) (hs : b.size - b.pos < 2 ^ 31) :
    ∃ c, b.cur.write b.pos (snprintfBytes text (toSize (toInt32 (b.size - b.pos)))) = .ok c ∧ Inv (b.setCur c) ∧
      c.take b.pos = content b ∧
      (text.length < b.size - b.pos → c.take (b.pos + text.length) = content b ++ text ∧ c[b.pos + text.length]? = some 0) := by
  have e : toSize (toInt32 (b.size - b.pos)) = b.size - b.pos := by
    rw [toInt32_small hs]; unfold toSize; omega
  rw [e]
  have hp := h.pos
  obtain ⟨c, e2, l2, t2, u2⟩ := write_spec (snprintfBytes text (b.size - b.pos)) h
    (by have := snprintfBytes_length text (b.size - b.pos); omega)
  refine ⟨c, e2, setCur_inv h l2, u2, ?_⟩
  intro hlt
  rw [snprintfBytes_full hlt] at e2
  have t3 := Block.write_take_before e2
  have hg := Block.write_get_last e2
  refine ⟨?_, hg⟩
  have := Block.write_take e2
  have h4 := congrArg (List.take (b.pos + text.length)) this
  rw [List.take_take, Nat.min_eq_left (by simp <;> omega)] at h4
  rw [h4, ← List.append_assoc, List.take_append_of_le_length (by have := h.size; simp; omega),
    List.take_of_length_le (by have := h.size; simp)]
  rfl

theorem maybe_spec {b : Buf} (text : List Nat) (h : Inv b) (hs : b.size - b.pos < 2 ^ 31) :
    ∃ b' r, maybeAddVprintf b text = .ok (b', r) ∧ Inv b' ∧ b'.size = b.size ∧
      (text.length < b.size - b.pos → r = 0 ∧ content b' = content b ++ text ∧ b'.cur[b'.pos]? = some 0 ∧
        b'.pos = b.pos + text.length) ∧
      (b.size - b.pos ≤ text.length → r = text.length + 1 ∧ content b' = content b ∧ b'.pos = b.pos) := by
  obtain ⟨c, e1, i1, t1, f1⟩ := attempt_spec text h hs
  unfold maybeAddVprintf
  simp only [e1, Out.ok_bind]
  rw [toInt32_small hs]
  by_cases hlt : text.length < b.size - b.pos
  · rw [if_neg (by omega)]
    obtain ⟨f2, f3⟩ := f1 hlt
    refine ⟨_, _, rfl, ⟨i1.stat, i1.size, ?_⟩, by simp, ?_, ?_⟩
    · simp; omega
    · intro _
      refine ⟨rfl, ?_, ?_, by simp⟩
      · simpa [content] using f2
      · simpa using f3
    · intro; omega
  · rw [if_pos (by omega)]
    by_cases h0 : ((b.size - b.pos : Nat) : Int) > 0
    · rw [if_pos h0]
      obtain ⟨c2, e2, l2, t2, u2⟩ := write_spec (b := b.setCur c) [0] i1 (by simp; omega)
      rw [e2]
      refine ⟨_, _, rfl, setCur_inv i1 l2, by simp, fun hh => absurd hh hlt, fun _ => ⟨rfl, ?_, by simp⟩⟩
      simp only [content, cur_setCur, pos_setCur] at u2 ⊢
      rw [u2, t1]; rfl
    · rw [if_neg h0]
      refine ⟨_, _, rfl, i1, by simp, fun hh => absurd hh hlt, fun _ => ⟨rfl, ?_, by simp⟩⟩
      simpa [content] using t1

theorem addPrintf_spec (junk : Nat → Nat) {b : Buf} (text : List Nat) (h : Inv b) (hs : b.size < 2 ^ 30)
    (hb : b.pos + text.length + 1 < 2 ^ 29) :
    ∃ b', addPrintf junk b text = .ok b' ∧ Inv b' ∧ content b' = content b ++ text ∧ b'.cur[b'.pos]? = some 0 ∧
      b'.size ≤ max b.size (2 * (b.pos + text.length + 1)) ∧ b'.pos = b.pos + text.length := by
  obtain ⟨b1, r1, e1, i1, z1, f1, g1⟩ := maybe_spec text h (by omega)
  unfold addPrintf
  simp only [e1, Out.ok_bind]
  by_cases hlt : text.length < b.size - b.pos
  · obtain ⟨rfl, f2, f3, f4⟩ := f1 hlt
    simp only [ne_eq, not_true, if_false]
    exact ⟨b1, rfl, i1, f2, f3, by omega, f4⟩
  · obtain ⟨rfl, g2, g3⟩ := g1 (by omega)
    rw [if_pos (by omega)]
    obtain ⟨b2, e2, i2, c2, p2, rr2, s2⟩ := ensure_spec junk (text.length + 1) i1 (by omega) (by omega)
    simp only [e2, Out.ok_bind]
    obtain ⟨b3, r3, e3, i3, z3, f3, _⟩ := maybe_spec text i2 (by omega)
    obtain ⟨rfl, f4, f5, f6⟩ := f3 (by omega)
    simp only [e3, Out.ok_bind, if_true]
    exact ⟨b3, rfl, i3, by rw [f4, c2, g2], f5, by omega, by omega⟩

theorem addVprintf_spec (junk : Nat → Nat) {b : Buf} (text : List Nat) (h : Inv b) (hs : b.size < 2 ^ 30)
    (hb : b.pos + text.length + 1 < 2 ^ 29) :
    ∃ b', addVprintf junk b text = .ok b' ∧ Inv b' ∧ content b' = content b ++ text ∧ b'.cur[b'.pos]? = some 0 ∧
      b'.size ≤ max b.size (2 * (b.pos + text.length + 1)) ∧ b'.pos = b.pos + text.length := by
  obtain ⟨c, e1, i1, t1, f1⟩ := attempt_spec text h (by omega)
  unfold addVprintf
  simp only [e1, Out.ok_bind]
  rw [toInt32_small (by omega)]
  by_cases hlt : text.length < b.size - b.pos
  · rw [if_neg (by omega)]
    obtain ⟨f2, f3⟩ := f1 hlt
    refine ⟨_, rfl, ⟨i1.stat, i1.size, by simp <;> omega⟩, ?_, by simpa using f3, by simp <;> omega, by simp⟩
    simpa [content] using f2
  · rw [if_pos (by omega)]
    obtain ⟨b2, e2, i2, c2, p2, rr2, s2⟩ := ensure_spec junk (text.length + 1) i1 (by simp; omega) (by simp; omega)
    simp only [pos_setCur, size_setCur] at p2 rr2 s2
    simp only [e2, Out.ok_bind]
    rw [snprintfBytes_full (Nat.lt_succ_self _)]
    obtain ⟨c3, e3, l3, t3, u3⟩ := write_spec (b := b2) (text ++ [0]) i2 (by simp; omega)
    rw [e3]
    have hg := Block.write_get_last e3
    have i3 := setCur_inv i2 l3
    have hcl := content_length i2
    refine ⟨_, rfl, ⟨i3.stat, i3.size, by simp; omega⟩, ?_, by simpa using hg, by simp; omega, by simp [p2]⟩
    simp only [content, cur_pos, cur_setCur]
    have h4 := congrArg (List.take (b2.pos + text.length)) t3
    rw [List.take_take, Nat.min_eq_left (by simp <;> omega)] at h4
    rw [h4, ← List.append_assoc, List.take_append_of_le_length (by simp; omega),
      List.take_of_length_le (by simp; omega), c2]
    simpa [content] using t1

theorem detach_spec (junk : Nat → Nat) {b : Buf} (h : Inv b) :
    ∃ d, detach junk b = .ok (init b, d) ∧ d.take (b.pos + 1) = content b ++ [0] := by
  have hp := h.pos
  have hz := h.size
  unfold detach
  simp only
  by_cases hc : b.heap = none ∨ b.pos = b.size
  · rw [if_pos hc, Block.read_ok (by omega)]
    simp only [Out.ok_bind, List.drop_zero]
    have hw := Block.write_ok (b := malloc junk (b.pos + 1)) (off := 0) (data := b.cur.take b.pos) (by simp <;> omega)
    have hl := Block.write_length hw
    have ht := Block.write_take hw
    rw [hw]
    simp only [Out.ok_bind]
    generalize (malloc junk (b.pos + 1)).take 0 ++ b.cur.take b.pos ++ (malloc junk (b.pos + 1)).drop (0 + (b.cur.take b.pos).length) = m at *
    simp at hl ht
    rw [show min b.pos b.cur.length = b.pos by omega] at ht
    have hw2 := Block.write_ok (b := m) (off := b.pos) (data := [0]) (by simp; omega)
    have ht2 := Block.write_take hw2
    rw [hw2]
    refine ⟨_, rfl, ?_⟩
    simp at ht2
    simpa [content, ht] using ht2
  · rw [if_neg hc]
    have hw2 := Block.write_ok (b := b.cur) (off := b.pos) (data := [0]) (by simp; omega)
    have ht2 := Block.write_take hw2
    rw [hw2]
    refine ⟨_, rfl, ?_⟩
    simp at ht2
    simpa [content] using ht2

end Mtev.DynBuffer
