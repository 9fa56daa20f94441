import Verif.Mem
import Verif.Log2
import Verif.SortProps

/-!
Model of the allocator behind the string interning pools, /repo/src/utils/mtev_intern.c: the levels of free
fragments (251-265), taking memory from a fragment (291-360), new extents (362-420), the search (573-657), the
release of an allocation (679-682, 709-712) and compaction (1020-1126).

Calls are made one after the other in this file; `ArenaConc.lean` has the interleavings.

Not modelled: the records of the fragments are values here (their allocation, 228-249 and 422-446, is in
`ArenaConc.lean`); when compaction runs (1147-1184) is up to the history; backing files; statistics.
-/

namespace Mtev.Arena

/-- `struct mtev_intern_free_node` (179-183), and any other piece of memory. -/
structure Frag where
  base : Nat
  size : Nat
deriving DecidableEq, Repr

/-- The pool, lines 192-223, and the memory in use. -/
structure A where
  ext : Nat                 -- extent_size
  slots : List (List Frag)  -- freeslots[i], from its head
  staged : List Frag        -- staged_free_nodes
  extents : List Frag       -- the extents that are not internal
  live : List Frag          -- ghost: the allocations not yet released
deriving DecidableEq, Repr

/-- `WRAPPED_SIZE`, line 168. -/
def wrapped (l : Nat) : Nat := 8 + (l + 3) / 4 * 4

/-- `freeslots[i].lsize`, lines 560-563. -/
def lsize (i : Nat) : Nat := 2 ^ (i + 2)

/-- `nfreeslots`, line 554.  (A negative number would not get this far: `calloc` of line 555.) -/
def nslots (ext : Nat) : Nat := Log2.log2ru (ext % 2 ^ 32) + 1 - 2

/-- `mtev_intern_pool_new`, lines 551-564. -/
def init (ext : Nat) : A := ⟨ext, List.replicate (nslots ext) [], [], [], []⟩

/-- Lines 254-259: the level for a fragment.  The size is cut to 32 bits by the call of `fast_log2_rd`; a level
below zero is outside the array. -/
def level (n size : Nat) : Out Nat :=
  let k := Log2.log2rd (size % 2 ^ 32)
  if k < 2 then .ub else if k - 2 ≥ n then (if n = 0 then .ub else .ok (n - 1)) else .ok (k - 2)

/-- `f` at the front of list `i`. -/
def pushAt (i : Nat) (f : Frag) (l : List (List Frag)) : List (List Frag) := l.modify i (f :: ·)

/-- `replace_free_node`, lines 251-265. -/
def replace (f : Frag) (s : A) : Out A := do
  let i ← level s.slots.length f.size
  pure { s with slots := pushAt i f s.slots }

/-- `borrow_free_node`, lines 291-360: the address of `len` bytes from the first fragment of level `i`, if there
is one. -/
def borrow (i len : Nat) (s : A) : Out (A × Option Nat) :=
  match s.slots[i]? with
  | none => .ub
  | some [] => .ok (s, none)
  | some (n :: r) =>
    -- the assertions of lines 303-305
    if n.size < lsize i then .abort
    else if len ≤ 8 then .abort
    else if len % 4 ≠ 0 then .abort
    else
      let rv := n.base + n.size - len
      if n.size ≥ lsize i + len then
        -- lines 312-316
        .ok ({ s with slots := s.slots.set i (⟨n.base, n.size - len⟩ :: r), live := ⟨rv, len⟩ :: s.live }, some rv)
      else if n.size < len then .abort
      else if n.size = len then
        -- lines 347-357
        .ok ({ s with slots := s.slots.set i r, live := ⟨rv, len⟩ :: s.live }, some rv)
      else do
        let s ← replace ⟨n.base, n.size - len⟩ { s with slots := s.slots.set i r, live := ⟨rv, len⟩ :: s.live }
        pure (s, some rv)

/-- Lines 595-601: the levels from `i` on, `n` of them. -/
def scan (len : Nat) : Nat → Nat → A → Out (A × Option Nat)
  | 0, _, s => .ok (s, none)
  | n + 1, i, s => do
    let (s, r) ← borrow i len s
    match r with
    | some a => pure (s, some a)
    | none => scan len n (i + 1) s

/-- `compare_free_node`, lines 1020-1027: the second test repeats the first; the result is 0 instead of 1. -/
def cmp (l r : Frag) : Int := if l.base < r.base then -1 else 0

/-- Lines 1100-1111: adjacent fragments are merged; `a` is the current one. -/
def collapse (a : Frag) : List Frag → List Frag
  | [] => [a]
  | b :: r => if a.base + a.size = b.base then collapse ⟨a.base, a.size + b.size⟩ r else a :: collapse b r

/-- Lines 1112-1118. -/
def replaceAll : List Frag → A → Out A
  | [], s => .ok s
  | f :: r, s => do replaceAll r (← replace f s)

/-- `compact_freelist_with_lock`, lines 1037-1126. -/
def compact (s : A) : Out A :=
  let all := s.staged ++ s.slots.flatten
  let s := { s with staged := [], slots := s.slots.map (fun _ => []) }
  match Sort.sort cmp all with
  | [] => .ok s
  | a :: r => replaceAll (collapse a r) s

/-- Lines 614-624: whether compaction may help. -/
def hope (len tgt : Nat) (s : A) : Bool :=
  let total := (s.extents.map Frag.size).sum
  let minsize := (((List.range tgt).zip s.slots).map (fun p => lsize p.1 * p.2.length)).sum
  minsize > len && minsize > total >>> 1

/-- One turn of the loop of lines 582-656 before a new extent is asked for: a search, and one more after
compaction (at most one compaction per call: `first`). -/
def turn (len tgt : Nat) (first : Bool) (s : A) : Out (A × Option Nat × Bool) := do
  let (s, r) ← scan len (s.slots.length - tgt) tgt s
  match r with
  | some a => pure (s, some a, first)
  | none =>
    if hope len tgt s && first then
      let s ← compact s
      let (s, r) ← scan len (s.slots.length - tgt) tgt s
      pure (s, r, false)
    else pure (s, none, first)

/-- Lines 648-653: `base` is what `mmap` returned. -/
def extend (base : Nat) (s : A) : Out A := replace ⟨base, s.ext⟩ { s with extents := ⟨base, s.ext⟩ :: s.extents }

/-- The loop of `mtev_intern_pool_find`, lines 582-656.  `maps` are the results of the next calls of `mmap`; when
they are used up the function is still running (`none`). -/
def findLoop (len tgt : Nat) : List Nat → Bool → A → Out (A × Option Nat)
  | maps, first, s => do
    let (s, r, first) ← turn len tgt first s
    match r with
    | some a => pure (s, some a)
    | none =>
      match maps with
      | [] => pure (s, none)
      | b :: maps => do
        let s ← extend b s
        findLoop len tgt maps first s

/-- `mtev_intern_pool_find`, lines 573-657; a request that is too long gives `NULL`, on which the caller asserts
(line 871). -/
def find (len : Nat) (maps : List Nat) (s : A) : Out (A × Option Nat) :=
  if s.ext = 0 then .abort
  else if len > s.ext ∨ len > 2 ^ 23 then .abort
  else if Log2.log2ru len < 2 then .ub
  else findLoop len (Log2.log2ru len - 2) maps true s

/-- Lines 679-682 and 709-712: the allocation at `base` becomes a staged fragment.  Its size is computed from the
length it was made with.  Releasing what is not allocated is undefined. -/
def release (base : Nat) (s : A) : Out A :=
  match s.live.find? (fun f => f.base = base) with
  | none => .ub
  | some f => .ok { s with live := s.live.erase f, staged := f :: s.staged }

/-- What the callers do. -/
inductive Op
  | alloc (l : Nat) (maps : List Nat)   -- an object of `l` bytes
  | release (base : Nat)
  | compact
deriving DecidableEq, Repr

/-- One call. -/
def step (op : Op) (s : A) : Out A :=
  match op with
  | .alloc l maps => do
    let (s, _) ← find (wrapped l) maps s
    pure s
  | .release base => release base s
  | .compact => compact s

def run : List Op → A → Out A
  | [], s => .ok s
  | op :: ops, s => do run ops (← step op s)

end Mtev.Arena
