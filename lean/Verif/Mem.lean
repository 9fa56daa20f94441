import Verif.Basic

/-!
# Checked memory blocks

A C object or heap allocation is the list of its bytes; its length is the allocated size.  A read or
write outside that length is undefined behaviour and is a distinct outcome (`Out.ub`), as is a
failed assertion (`Out.abort`).  Freshly allocated memory has arbitrary contents given by a function
`junk`, over which the theorems quantify.  Allocation failure is not modelled.
-/

namespace Mtev

/-- Outcome of running C code. -/
inductive Out (α : Type) where
  | ok (a : α)
  | ub
  | abort
deriving Repr, DecidableEq

-- The equations of `bind` are deliberately not `rfl` lemmas: the kernel then never has to compare
-- two whole programs by unfolding.
namespace Out
def bind {α β : Type} : Out α → (α → Out β) → Out β
  | ok a, f => f a
  | ub, _ => ub
  | abort, _ => abort

instance : Monad Out where
  pure := Out.ok
  bind := Out.bind

@[simp] theorem ok_bind {α β : Type} (a : α) (f : α → Out β) : (Out.ok a >>= f) = f a := by
  show Out.bind _ _ = _; rw [Out.bind]
@[simp] theorem ub_bind {α β : Type} (f : α → Out β) : ((Out.ub : Out α) >>= f) = Out.ub := by
  show Out.bind _ _ = _; rw [Out.bind]
@[simp] theorem abort_bind {α β : Type} (f : α → Out β) : ((Out.abort : Out α) >>= f) = Out.abort := by
  show Out.bind _ _ = _; rw [Out.bind]
@[simp] theorem pure_eq {α : Type} (a : α) : (pure a : Out α) = Out.ok a := rfl
end Out

/-- `size_t` subtraction (wraps at 2^64); both arguments below 2^64. -/
def sub64 (a b : Nat) : Nat := (a + 2 ^ 64 - b) % 2 ^ 64

theorem sub64_le {a b : Nat} (ha : a < 2 ^ 64) (h : b ≤ a) : sub64 a b = a - b := by unfold sub64; omega
theorem sub64_gt {a b : Nat} (hb : b ≤ 2 ^ 64) (h : a < b) : sub64 a b = a + 2 ^ 64 - b := by unfold sub64; omega

/-- A block of memory. -/
abbrev Block := List Nat

/-- `malloc(n)`: `n` bytes of arbitrary content. -/
def malloc (junk : Nat → Nat) (n : Nat) : Block := (List.range n).map junk

/-- `calloc(1, n)`. -/
def calloc (n : Nat) : Block := List.replicate n 0

/-- `memcpy(b + off, data, len)`. -/
def Block.write (b : Block) (off : Nat) (data : List Nat) : Out Block :=
  if off + data.length ≤ b.length then .ok (b.take off ++ data ++ b.drop (off + data.length)) else .ub

/-- The `n` bytes at `b + off`. -/
def Block.read (b : Block) (off n : Nat) : Out (List Nat) :=
  if off + n ≤ b.length then .ok ((b.drop off).take n) else .ub

@[simp] theorem malloc_length (junk : Nat → Nat) (n : Nat) : (malloc junk n).length = n := by simp [malloc]
@[simp] theorem calloc_length (n : Nat) : (calloc n).length = n := by simp [calloc]

theorem Block.write_ok {b : Block} {off : Nat} {data : List Nat} (h : off + data.length ≤ b.length) :
    b.write off data = .ok (b.take off ++ data ++ b.drop (off + data.length)) := if_pos h

theorem Block.write_length {b b' : Block} {off : Nat} {data : List Nat} (h : b.write off data = .ok b') :
    b'.length = b.length := by
  unfold Block.write at h
  split at h
  · simp only [Out.ok.injEq] at h
    subst h
    simp
    omega
  · simp at h

/-- The bytes up to the end of what has just been written. -/
theorem Block.write_take {b b' : Block} {off : Nat} {data : List Nat} (h : b.write off data = .ok b') :
    b'.take (off + data.length) = b.take off ++ data := by
  unfold Block.write at h
  split at h
  · rename_i hle
    simp only [Out.ok.injEq] at h
    subst h
    rw [List.take_append_of_le_length (by simp; omega), List.take_of_length_le (by simp)]
  · simp at h

/-- The bytes before the written range are unchanged. -/
theorem Block.write_take_before {b b' : Block} {off : Nat} {data : List Nat} (h : b.write off data = .ok b') :
    b'.take off = b.take off := by
  have h1 := congrArg (List.take off) (Block.write_take h)
  rw [List.take_take, Nat.min_eq_left (by omega)] at h1
  unfold Block.write at h
  split at h
  · rw [h1, List.take_append_of_le_length (by simp; omega), List.take_take, Nat.min_self]
  · simp at h

/-- The bytes after the written range are unchanged. -/
theorem Block.write_drop {b b' : Block} {off : Nat} {data : List Nat} (h : b.write off data = .ok b') :
    b'.drop (off + data.length) = b.drop (off + data.length) := by
  unfold Block.write at h
  split at h
  · rename_i hle
    simp only [Out.ok.injEq] at h
    subst h
    rw [List.drop_append_of_le_length (by simp; omega)]
    rw [List.drop_of_length_le (by simp)]
    rfl
  · simp at h

theorem Block.write_get_last {b b' : Block} {off : Nat} {data : List Nat} {x : Nat} (h : b.write off (data ++ [x]) = .ok b') :
    b'[off + data.length]? = some x := by
  have h1 := congrArg (fun l : List Nat => l[off + data.length]?) (Block.write_take h)
  simp only [List.length_append, List.length_cons, List.length_nil] at h1
  rw [List.getElem?_take_of_lt (by omega)] at h1
  rw [h1]
  unfold Block.write at h
  split at h
  · rename_i hle
    simp at hle
    rw [List.getElem?_append_right (by simp)]
    simp
    have : off + data.length - min off b.length = data.length := by omega
    rw [this]
    simp
  · simp at h

/-- All facts about an in-bounds write. -/
theorem Block.write_spec (b : Block) (off : Nat) (data : List Nat) (h : off + data.length ≤ b.length) :
    ∃ b', b.write off data = .ok b' ∧ b'.length = b.length ∧ b'.take (off + data.length) = b.take off ++ data ∧
      b'.take off = b.take off ∧ b'.drop (off + data.length) = b.drop (off + data.length) :=
  ⟨_, Block.write_ok h, Block.write_length (Block.write_ok h), Block.write_take (Block.write_ok h),
    Block.write_take_before (Block.write_ok h), Block.write_drop (Block.write_ok h)⟩

theorem Block.read_ok {b : Block} {off n : Nat} (h : off + n ≤ b.length) :
    b.read off n = .ok ((b.drop off).take n) := if_pos h

/-- Reading back what was just written. -/
theorem Block.read_write_same {b b' : Block} {off : Nat} {data : List Nat}
    (h : b.write off data = .ok b') : b'.read off data.length = .ok data := by
  unfold Block.write at h
  split at h
  · rename_i hle
    simp only [Out.ok.injEq] at h
    subst h
    rw [Block.read_ok (by simp; omega), List.append_assoc, List.drop_append,
      List.drop_of_length_le (by simp)]
    simp [Nat.min_eq_left (show off ≤ b.length by omega)]
  · simp at h

/-- A write does not change what lies before it. -/
theorem Block.read_write_before {b b' : Block} {off o n : Nat} {data : List Nat}
    (h : b.write off data = .ok b') (ho : o + n ≤ off) : b'.read o n = b.read o n := by
  have hl := Block.write_length h
  have ht := Block.write_take_before h
  unfold Block.read
  rw [hl]
  have key : ∀ c : Block, (c.drop o).take n = ((c.take off).drop o).take n := by
    intro c
    rw [List.drop_take, List.take_take, Nat.min_eq_left (by omega)]
  rw [key b', key b, ht]

end Mtev
