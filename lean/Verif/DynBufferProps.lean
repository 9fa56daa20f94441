import Verif.DynBuffer

/-!
# C11: dynamic buffers hold exactly what was added

Specification: a buffer is the list of bytes added since the last reset or destroy.
-/

namespace Mtev.DynBuffer

/-- The calls a user can make. `data`/`text` are the bytes given, or what the format expands to. -/
inductive Op where
  | add (data : List Nat)
  | writeAdvance (data : List Nat)
  | printf (text : List Nat)
  | vprintf (text : List Nat)
  | maybePrintf (text : List Nat)
  | ensure (len : Nat)
  | reset
  | destroy

/-- Run one call; the second component is the return value (`maybe` variant only, else 0). -/
def step (junk : Nat → Nat) (b : Buf) : Op → Out (Buf × Nat)
  | .add d => do let b ← add junk b d; .ok (b, 0)
  | .writeAdvance d => do let b ← ensureWriteAdvance junk b d; .ok (b, 0)
  | .printf t => do let b ← addPrintf junk b t; .ok (b, 0)
  | .vprintf t => do let b ← addVprintf junk b t; .ok (b, 0)
  | .maybePrintf t => maybeAddVprintf b t
  | .ensure n => do let b ← ensure junk b n; .ok (b, 0)
  | .reset => .ok (reset b, 0)
  | .destroy => .ok (destroy b, 0)

/-- Run a history; returns the buffer and all return values. -/
def run (junk : Nat → Nat) (b : Buf) : List Op → Out (Buf × List Nat)
  | [] => .ok (b, [])
  | o :: os => do
    let r ← step junk b o
    let rs ← run junk r.1 os
    .ok (rs.1, r.2 :: rs.2)

/-- Room a call may ask for. -/
def Op.cost : Op → Nat
  | .add d => d.length
  | .writeAdvance d => d.length
  | .printf t => t.length + 1
  | .vprintf t => t.length + 1
  | .maybePrintf t => t.length
  | .ensure n => n
  | .reset => 0
  | .destroy => 0

/-- Specification: the bytes held after a call, given those before and the call's return value. -/
def specStep (s : List Nat) (r : Nat) : Op → List Nat
  | .add d => s ++ d
  | .writeAdvance d => s ++ d
  | .printf t => s ++ t
  | .vprintf t => s ++ t
  | .maybePrintf t => if r = 0 then s ++ t else s
  | .ensure _ => s
  | .reset => []
  | .destroy => []

def spec (s : List Nat) : List Op → List Nat → List Nat
  | o :: os, r :: rs => spec (specStep s r o) os rs
  | _, _ => s

/-- One call on a buffer of moderate size. -/
theorem step_spec (junk : Nat → Nat) {b : Buf} (o : Op) (h : Inv b) (hs : b.size < 2 ^ 30) (hb : b.pos + o.cost < 2 ^ 29) :
    ∃ b' r, step junk b o = .ok (b', r) ∧ Inv b' ∧ content b' = specStep (content b) r o ∧
      b'.size < 2 ^ 30 ∧ b'.pos ≤ b.pos + o.cost := by
  cases o with
  | add d =>
    simp only [Op.cost] at hb
    obtain ⟨b', e, i, c, z, p⟩ := add_spec junk d h (by omega) (by omega)
    exact ⟨b', 0, by simp [step, e], i, c, by omega, by simp [Op.cost]; omega⟩
  | writeAdvance d =>
    simp only [Op.cost] at hb
    obtain ⟨b', e, i, c, z, p⟩ := add_spec junk d h (by omega) (by omega)
    exact ⟨b', 0, by simp [step, ensureWriteAdvance_eq, e], i, c, by omega, by simp [Op.cost]; omega⟩
  | printf t =>
    simp only [Op.cost] at hb
    obtain ⟨b', e, i, c, _, z, p⟩ := addPrintf_spec junk t h hs (by omega)
    exact ⟨b', 0, by simp [step, e], i, c, by omega, by simp [Op.cost]; omega⟩
  | vprintf t =>
    simp only [Op.cost] at hb
    obtain ⟨b', e, i, c, _, z, p⟩ := addVprintf_spec junk t h hs (by omega)
    exact ⟨b', 0, by simp [step, e], i, c, by omega, by simp [Op.cost]; omega⟩
  | maybePrintf t =>
    simp only [Op.cost] at hb
    obtain ⟨b', r, e, i, z, f, g⟩ := maybe_spec t h (by omega)
    refine ⟨b', r, by simp [step, e], i, ?_, by omega, ?_⟩
    · by_cases hlt : t.length < b.size - b.pos
      · obtain ⟨rfl, f2, _⟩ := f hlt; simp [specStep, f2]
      · obtain ⟨rfl, f2, _⟩ := g (by omega); simp [specStep, f2]
    · by_cases hlt : t.length < b.size - b.pos
      · obtain ⟨_, _, _, f2⟩ := f hlt; simp [Op.cost]; omega
      · obtain ⟨_, _, f2⟩ := g (by omega); simp [Op.cost]; omega
  | ensure n =>
    simp only [Op.cost] at hb
    obtain ⟨b', e, i, c, p, _, z⟩ := ensure_spec junk n h (by omega) (by omega)
    exact ⟨b', 0, by simp [step, e], i, c, by omega, by simp [Op.cost]; omega⟩
  | reset =>
    exact ⟨_, 0, rfl, ⟨h.stat, h.size, by simp [reset]⟩, by simp [content, reset, specStep], hs, by simp [reset]⟩
  | destroy =>
    exact ⟨_, 0, rfl, init_inv h.stat, by simp [content, destroy, init, specStep], by simp [destroy, init], by simp [destroy, init]⟩

theorem run_spec (junk : Nat → Nat) (os : List Op) {b : Buf} (h : Inv b) (hs : b.size < 2 ^ 30)
    (hb : b.pos + (os.map Op.cost).sum < 2 ^ 29) :
    ∃ b' rs, run junk b os = .ok (b', rs) ∧ rs.length = os.length ∧ Inv b' ∧ content b' = spec (content b) os rs ∧
      b'.size < 2 ^ 30 ∧ b'.pos < 2 ^ 29 := by
  induction os generalizing b with
  | nil => exact ⟨b, [], rfl, rfl, h, rfl, hs, by simpa using hb⟩
  | cons o os ih =>
    simp only [List.map_cons, List.sum_cons] at hb
    obtain ⟨b1, r, e, i, c, z, p⟩ := step_spec junk o h hs (by omega)
    obtain ⟨b2, rs, e2, l2, i2, c2, z2, p2⟩ := ih i z (by omega)
    exact ⟨b2, r :: rs, by simp [run, e, e2], by simp [l2], i2, by rw [c2, c]; rfl, z2, p2⟩

/-- **C11 (partial).** After any history of calls on a freshly initialised buffer, no access falls
outside the buffer's memory, no assertion fails, and the buffer holds exactly the bytes added since
the last reset or destroy. Missing: histories asking for 512 MiB or more in total; above 2 GiB of
free space the statement is false, see `C11_dyn_buffer_printf_violated`. -/
theorem C11_dyn_buffer_contents_partial (junk : Nat → Nat) (b0 : Buf) (h0 : b0.stat.length = 4096) (os : List Op)
    (hb : (os.map Op.cost).sum < 2 ^ 29) :
    ∃ b rs, run junk (init b0) os = .ok (b, rs) ∧ rs.length = os.length ∧
      b.cur.take b.pos = spec [] os rs ∧ b.pos = (spec [] os rs).length ∧ b.pos ≤ b.size ∧ b.cur.length = b.size := by
  obtain ⟨b, rs, e, l, i, c, _, _⟩ := run_spec junk os (init_inv h0) (by simp [init]) (by simpa [init] using hb)
  have e0 : content (init b0) = [] := by simp [content, init]
  rw [e0] at c
  exact ⟨b, rs, e, l, c, by rw [← c, content_length i], i.pos, i.size⟩

/-- **C11.** The `maybe` variant adds the text and returns 0 exactly when text and NUL fit, and
otherwise leaves the contents alone and returns the room needed. -/
theorem C11_dyn_buffer_maybe (b : Buf) (text : List Nat) (h : Inv b) (hs : b.size - b.pos < 2 ^ 31) :
    ∃ b' r, maybeAddVprintf b text = .ok (b', r) ∧
      (r = 0 ↔ b.pos + text.length + 1 ≤ b.size) ∧
      (r = 0 → b'.cur.take b'.pos = b.cur.take b.pos ++ text) ∧
      (r ≠ 0 → r = text.length + 1 ∧ b'.cur.take b'.pos = b.cur.take b.pos ∧ b'.pos = b.pos) := by
  obtain ⟨b', r, e, i, z, f, g⟩ := maybe_spec text h hs
  have := h.pos
  refine ⟨b', r, e, ?_, ?_, ?_⟩
  · by_cases hlt : text.length < b.size - b.pos
    · have := (f hlt).1; omega
    · have := (g (by omega)).1; omega
  · intro hr
    by_cases hlt : text.length < b.size - b.pos
    · exact (f hlt).2.1
    · have := (g (by omega)).1; omega
  · intro hr
    by_cases hlt : text.length < b.size - b.pos
    · have := (f hlt).1; omega
    · exact g (by omega)

/-- **C11.** Text added by the printf variants is followed by a NUL inside the buffer. -/
theorem C11_dyn_buffer_terminated (junk : Nat → Nat) (b : Buf) (text : List Nat) (h : Inv b) (hs : b.size < 2 ^ 30)
    (hb : b.pos + text.length + 1 < 2 ^ 29) :
    (∃ b', addPrintf junk b text = .ok b' ∧ b'.cur[b'.pos]? = some 0) ∧
    (∃ b', addVprintf junk b text = .ok b' ∧ b'.cur[b'.pos]? = some 0) := by
  obtain ⟨b1, e1, _, _, c1, _⟩ := addPrintf_spec junk text h hs hb
  obtain ⟨b2, e2, _, _, c2, _⟩ := addVprintf_spec junk text h hs hb
  exact ⟨⟨b1, e1, c1⟩, ⟨b2, e2, c2⟩⟩

/-- **C11.** Detaching hands out memory that starts with the contents followed by a NUL, in bounds,
and leaves an empty buffer; for every state, whatever its size. -/
theorem C11_dyn_buffer_detach (junk : Nat → Nat) (b : Buf) (h : Inv b) :
    ∃ b' d, detach junk b = .ok (b', d) ∧ d.take (b.pos + 1) = b.cur.take b.pos ++ [0] ∧ Inv b' ∧ b'.pos = 0 := by
  obtain ⟨d, e, t⟩ := detach_spec junk h
  exact ⟨_, d, e, t, init_inv h.stat, rfl⟩

/-- **C11, violated.** With between 2 and 4 GiB of free space (here: any buffer with 2^31 free
bytes) `mtev_dyn_buffer_add_printf` aborts on an assertion instead of adding the text, because the
free space is stored in an `int`. -/
theorem C11_dyn_buffer_printf_violated (junk : Nat → Nat) (b : Buf) (h : Inv b) (hs : b.size - b.pos = 2 ^ 31)
    (text : List Nat) (ht : text.length < 2 ^ 30) (hz : b.size < 2 ^ 40) :
    addPrintf junk b text = .abort := by
  have hp := h.pos
  have e1 : toInt32 (b.size - b.pos) = -2 ^ 31 := by rw [hs]; decide
  have e2 : toSize (-2 ^ 31) = 2 ^ 64 - 2 ^ 31 := by decide
  have e3 : snprintfBytes text (2 ^ 64 - 2 ^ 31) = text ++ [0] := snprintfBytes_full (by omega)
  have key : ∀ b' : Buf, Inv b' → b'.size = b.size → b'.pos = b.pos →
      ∃ b'', maybeAddVprintf b' text = .ok (b'', text.length + 1) ∧ Inv b'' ∧ b''.size = b.size ∧ b''.pos = b.pos := by
    intro b' i hz' hp'
    obtain ⟨c, w1, w2, _, _⟩ := write_spec (b := b') (text ++ [0]) i (by simp; omega)
    unfold maybeAddVprintf
    simp only [hz', hp', e1, e2, e3]
    rw [hp'] at w1
    simp only [w1, Out.ok_bind]
    rw [if_pos (by omega), if_neg (by decide)]
    exact ⟨_, rfl, setCur_inv i w2, by simpa using hz', by simpa using hp'⟩
  obtain ⟨b1, m1, i1, z1, p1⟩ := key b h rfl rfl
  unfold addPrintf
  simp only [m1, Out.ok_bind]
  rw [if_pos (by omega)]
  have e4 : ensure junk b1 (text.length + 1) = .ok b1 := by
    unfold ensure
    simp only
    rw [if_neg (by rw [Nat.mod_eq_of_lt (by omega)]; omega)]
  simp only [e4, Out.ok_bind]
  obtain ⟨b2, m2, _⟩ := key b1 i1 z1 p1
  simp only [m2, Out.ok_bind]
  rw [if_neg (by omega)]

/-- Such a state is reachable: adding 2^31 bytes to an empty buffer leaves 2^31 free bytes. -/
theorem C11_dyn_buffer_violation_reachable (junk : Nat → Nat) (b0 : Buf) (h0 : b0.stat.length = 4096) (data : List Nat)
    (hd : data.length = 2 ^ 31) : ∃ b, add junk (init b0) data = .ok b ∧ Inv b ∧ b.size - b.pos = 2 ^ 31 ∧ b.size < 2 ^ 40 := by
  obtain ⟨b, e, i, _, _, p⟩ := add_spec junk data (init_inv h0) (by simp [init]; omega) (by simp [init])
  have hz : b.size = 2 ^ 32 := by
    have e' := e
    unfold add at e'
    cases he : ensure junk (init b0) data.length with
    | ub => rw [he] at e'; simp at e'
    | abort => rw [he] at e'; simp at e'
    | ok b1 =>
      rw [he] at e'
      simp only [Out.ok_bind] at e'
      have hb1 : b1.size = 2 ^ 32 := by
        unfold ensure at he
        simp only [init, Nat.zero_add, hd] at he
        rw [if_pos (by decide)] at he
        cases hr : Block.read b0.stat 0 0 with
        | ub => rw [hr] at he; simp at he
        | abort => rw [hr] at he; simp at he
        | ok src =>
          rw [hr] at he
          simp only [Out.ok_bind] at he
          generalize malloc junk _ = m at he
          cases hw : m.write 0 src with
          | ub => rw [hw] at he; simp at he
          | abort => rw [hw] at he; simp at he
          | ok d => rw [hw] at he; simp at he; rw [← he]; rfl
      cases hw : b1.cur.write b1.pos data with
      | ub => rw [hw] at e'; simp at e'
      | abort => rw [hw] at e'; simp at e'
      | ok c => rw [hw] at e'; simp at e'; rw [← e']; exact hb1
  refine ⟨b, e, i, ?_, by omega⟩
  rw [p, hz, hd]; simp [init]

/-- A concrete history crossing from the static buffer to the heap satisfies the hypotheses. -/
example : (([.add (List.replicate 5000 7), .printf [65, 66], .reset, .maybePrintf [1]] : List Op).map Op.cost).sum < 2 ^ 29 := by
  decide +kernel
example : spec [] [.add [1, 2], .printf [3], .maybePrintf [9], .reset, .vprintf [4]] [0, 0, 2, 0, 0] = [4] := rfl
example : Inv (init ⟨calloc 4096, none, 0, 0⟩) := init_inv (by simp)

end Mtev.DynBuffer
