import Verif.Mem
import Verif.Basic

/-!
Two growing buffers: the "maybe" buffers of src/utils/mtev_maybe_alloc.h, which
start on the stack, and the one JSON is printed to
(src/json-lib/mtev_json_printbuf.c).
-/

namespace Mtev.SmallBuf

/-! ### Maybe buffers -/

/-- A maybe buffer: its recorded size, the block on the heap it is in, if any,
    its bytes and how many there are; the blocks on the heap not freed.
    /repo/src/utils/mtev_maybe_alloc.h 46-53.  Simplified: blocks are numbered
    and numbers are not used again. -/
structure Maybe where
  sz : Nat
  block : Option Nat
  room : Nat
  mem : Nat → Nat
  live : List Nat
  next : Nat

/-- `MTEV_MAYBE_DECL(type, name, cnt)` with elements of `w` bytes; `junk` is
    what was on the stack.  The first element is zeroed.
    /repo/src/utils/mtev_maybe_alloc.h 46-53, 72-74 -/
def decl (w cnt : Nat) (junk : Nat → Nat) : Maybe :=
  ⟨w * cnt, none, w * cnt, fun j => if j < w then 0 else junk j, [], 0⟩

/-- `MTEV_MAYBE_REALLOC(name, cnt)`; `junk` is what is in new memory.
    /repo/src/utils/mtev_maybe_alloc.h 91-103, 118-130.  Simplified: memory
    does not run out. -/
def grow (w cnt : Nat) (junk : Nat → Nat) (b : Maybe) : Maybe :=
  let want := cnt * w % 2 ^ 64
  if b.sz < want then
    match b.block with
    | some k => { sz := want, block := some b.next, room := want, live := b.next :: b.live.filter (· != k),
                  mem := fun j => if j < b.room then b.mem j else junk j, next := b.next + 1 }
    | none => { sz := want, block := some b.next, room := want, live := b.next :: b.live,
                mem := fun j => if j < b.sz then b.mem j else junk j, next := b.next + 1 }
  else b

/-- The caller writes a byte. -/
def put (i v : Nat) (b : Maybe) : Out Maybe :=
  if i < b.room then .ok { b with mem := fun j => if j = i then v else b.mem j } else .ub

/-- `MTEV_MAYBE_FREE(name)`: the blocks then on the heap.  Freeing what is not
    there is `ub`.
    /repo/src/utils/mtev_maybe_alloc.h 136-137 -/
def release (b : Maybe) : Out (List Nat) :=
  match b.block with
  | none => .ok b.live
  | some k => if k ∈ b.live then .ok (b.live.filter (· != k)) else .ub

/-- What a caller does: asks for room, or writes a byte. -/
inductive Use where
  | grow (cnt : Nat) (junk : Nat → Nat)
  | put (i v : Nat)

/-- One of them.  Helper. -/
def use (w : Nat) (b : Maybe) : Use → Out Maybe
  | .grow cnt junk => .ok (grow w cnt junk b)
  | .put i v => put i v b

/-- All of them.  Helper. -/
def uses (w : Nat) : Maybe → List Use → Out Maybe
  | b, [] => .ok b
  | b, u :: us => match use w b u with
    | .ok b' => uses w b' us
    | .ub => .ub
    | .abort => .abort

/-! ### The buffer JSON is printed to -/

/-- `struct jl_printbuf`.  The sizes are `int`s. -/
structure Print where
  size : Nat
  bpos : Nat
  buf : Block

/-- `jl_printbuf_new`.  /repo/src/json-lib/mtev_json_printbuf.c 32-45 -/
def Print.new (junk : Nat → Nat) : Print := ⟨32, 0, malloc junk 32⟩

/-- `jl_printbuf_memappend`: the value returned and the buffer.  `mem` tells
    whether there is memory.  An `int` that overflows is `ub`.
    /repo/src/json-lib/mtev_json_printbuf.c 48-66 -/
def append (mem : Bool) (junk : Nat → Nat) (p : Print) (data : List Nat) : Out (Int × Print) :=
  let n := data.length
  if n ≥ 2 ^ 31 then .ub else
  let room : Out (Option Print) :=
    if (p.size : Int) - p.bpos ≤ n then
      if p.size * 2 ≥ 2 ^ 31 ∨ p.bpos + n + 8 ≥ 2 ^ 31 then .ub else
      let new := max (p.size * 2) (p.bpos + n + 8)
      if mem then .ok (some ⟨new, p.bpos, p.buf ++ malloc junk (new - p.buf.length)⟩) else .ok none
    else .ok (some p)
  match room with
  | .ub => .ub
  | .abort => .abort
  | .ok none => .ok (-1, p)
  | .ok (some p) => match p.buf.write p.bpos data with
    | .ub => .ub
    | .abort => .abort
    | .ok b => match b.write (p.bpos + n) [0] with
      | .ub => .ub
      | .abort => .abort
      | .ok b => .ok (n, ⟨p.size, p.bpos + n, b⟩)

/-- `jl_sprintbuf` of a text already formatted: the answer of the append is not
    looked at.  /repo/src/json-lib/mtev_json_printbuf.c 103-129 -/
def sprint (mem : Bool) (junk : Nat → Nat) (p : Print) (text : List Nat) : Out (Int × Print) :=
  match append mem junk p text with
  | .ub => .ub
  | .abort => .abort
  | .ok r => .ok (text.length, r.2)

/-- `jl_printbuf_reset`.  /repo/src/json-lib/mtev_json_printbuf.c 131-135 -/
def Print.reset (p : Print) : Out Print :=
  match p.buf.write 0 [0] with
  | .ub => .ub
  | .abort => .abort
  | .ok b => .ok ⟨p.size, 0, b⟩

/-- Several appends with memory available.  Helper. -/
def appends (junk : Nat → Nat) : Print → List (List Nat) → Out Print
  | p, [] => .ok p
  | p, d :: ds => match append true junk p d with
    | .ok r => appends junk r.2 ds
    | .ub => .ub
    | .abort => .abort

end Mtev.SmallBuf
