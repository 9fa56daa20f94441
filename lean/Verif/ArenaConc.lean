import Verif.Arena

/-!
Model of the interleavings in the allocator of /repo/src/utils/mtev_intern.c (see `Arena.lean`): every atomic
operation and every section under an exclusive lock is one action.  Threads are anonymous: the state holds what
threads have in their hands between two actions.

`C` covers the fragments; a fragment's record is named by its base, which does not change while the record is in
use.  `F` covers the list of unused records (`mifns`, 228-249), which `C` takes for granted.
-/

namespace Mtev.Arena

/-- The pool and its threads. -/
structure C where
  a : A
  priv : List Frag               -- fragments in no list, in the hands of a thread
  rd : List (Nat × Nat × Nat)    -- readers of a level in lines 307-319: level, base of the fragment `n`, `len`
  up : List (Nat × Nat)          -- threads in lines 322-342 that are about to take the head: level, `len`
  bad : Bool                     -- ghost: something outside the data structures was touched, or an assertion failed
deriving DecidableEq, Repr

inductive Act
  | map (base : Nat)       -- lines 648-652
  | push (k : Nat)         -- `replace_free_node`, the successful exchange (263)
  | enter (i len : Nat)    -- lines 297-305: the level is locked for reading and its head loaded
  | cas (k : Nat)          -- lines 312-319
  | steal (k : Nat)        -- lines 342-358, the level is locked for writing
  | again (k : Nat)        -- lines 326-338: back to reading
  | release (k : Nat)      -- `stage_replace_free_node`, line 283
  | takeStaged             -- lines 1045-1048
  | takeLevel (i : Nat)    -- lines 1072, 1078-1086
  | merge (j k : Nat)      -- lines 1101-1106
deriving DecidableEq, Repr

/-- The first fragment with base `b` loses `len` bytes. -/
def shrink (b len : Nat) : List Frag → List Frag
  | [] => []
  | f :: r => if f.base = b then ⟨f.base, f.size - len⟩ :: r else f :: shrink b len r

/-- No reader in level `i`: what the write lock needs. -/
def quiet (i : Nat) (rd : List (Nat × Nat × Nat)) : Bool := rd.all (fun r => r.1 ≠ i)

/-- After `replace_free_node` of the `k`-th private fragment. -/
def pushed (k : Nat) (s : C) : Out A → C
  | .ok a => { s with a := a, priv := s.priv.eraseIdx k }
  | _ => { s with bad := true }

/-- One action; `none` when it is not possible. -/
def act (x : Act) (s : C) : Option C :=
  match x with
  | .map base => some { s with a := { s.a with extents := ⟨base, s.a.ext⟩ :: s.a.extents }, priv := ⟨base, s.a.ext⟩ :: s.priv }
  | .push k =>
    match s.priv[k]? with
    | none => none
    | some f => some (pushed k s (replace f s.a))
  | .enter i len =>
    match s.a.slots[i]? with
    | none => some { s with bad := true }
    | some [] => some s
    | some (n :: _) =>
      if n.size < lsize i ∨ len ≤ 8 ∨ len % 4 ≠ 0 then some { s with bad := true }
      else some { s with rd := (i, n.base, len) :: s.rd }
  | .cas k =>
    match s.rd[k]? with
    | none => none
    | some (i, b, len) =>
      match s.a.slots[i]? with
      | none => some { s with bad := true }
      | some l =>
        match l.find? (fun f => f.base = b) with
        | none => some { s with bad := true }
        | some n =>
          if n.size ≥ lsize i + len then
            some { s with a := { s.a with slots := s.a.slots.set i (shrink b len l), live := ⟨n.base + n.size - len, len⟩ :: s.a.live }, rd := s.rd.eraseIdx k }
          else some { s with rd := s.rd.eraseIdx k, up := (i, len) :: s.up }
  | .steal k =>
    match s.up[k]? with
    | none => none
    | some (i, len) =>
      if quiet i s.rd then
        match s.a.slots[i]? with
        | none => some { s with bad := true }
        | some [] => some { s with up := s.up.eraseIdx k }
        | some (n :: r) =>
          if n.size < len then some { s with bad := true }
          else
            some { s with a := { s.a with slots := s.a.slots.set i r, live := ⟨n.base + n.size - len, len⟩ :: s.a.live }, up := s.up.eraseIdx k, priv := if n.size = len then s.priv else ⟨n.base, n.size - len⟩ :: s.priv }
      else none
  | .again k =>
    match s.up[k]? with
    | none => none
    | some (i, len) =>
      match s.a.slots[i]? with
      | none => some { s with bad := true }
      | some [] => some { s with up := s.up.eraseIdx k }
      | some (n :: _) => some { s with up := s.up.eraseIdx k, rd := (i, n.base, len) :: s.rd }
  | .release k =>
    match s.a.live[k]? with
    | none => none
    | some f => some { s with a := { s.a with live := s.a.live.eraseIdx k, staged := f :: s.a.staged } }
  | .takeStaged => some { s with a := { s.a with staged := [] }, priv := s.a.staged ++ s.priv }
  | .takeLevel i =>
    match s.a.slots[i]? with
    | none => none
    | some l => if quiet i s.rd then some { s with a := { s.a with slots := s.a.slots.set i [] }, priv := l ++ s.priv } else none
  | .merge j k =>
    if j < k then
      match s.priv[j]?, s.priv[k]? with
      | some f, some g =>
        if f.base + f.size = g.base then some { s with priv := ⟨f.base, f.size + g.size⟩ :: (s.priv.eraseIdx k).eraseIdx j }
        else if g.base + g.size = f.base then some { s with priv := ⟨g.base, g.size + f.size⟩ :: (s.priv.eraseIdx k).eraseIdx j }
        else none
      | _, _ => none
    else none

/-- A new pool. -/
def startC (ext : Nat) : C := ⟨init ext, [], [], [], false⟩

/-- A sequence of actions. -/
def runC : List Act → C → Option C
  | [], s => some s
  | x :: xs, s =>
    match act x s with
    | none => none
    | some s => runC xs s

/-! ### The list of unused records -/

/-- Records are numbers.  `mifns` and the `next` fields, the threads between the load of line 235 and the exchange of
line 238 with the record and its `next` they have read, and (ghost) the records handed out. -/
structure F where
  head : Option Nat
  next : Nat → Option Nat
  pops : List (Nat × Option Nat)
  owned : List Nat

inductive FAct
  | load            -- lines 235-238: `mifns`, then `node->next`
  | cas (k : Nat)   -- line 238
  | push (k : Nat)  -- `return_free_node`, lines 246-248, of the `k`-th owned record
deriving DecidableEq, Repr

def fact (x : FAct) (s : F) : Option F :=
  match x with
  | .load =>
    match s.head with
    | none => none
    | some a => some { s with pops := s.pops ++ [(a, s.next a)] }
  | .cas k =>
    match s.pops[k]? with
    | none => none
    | some (a, n) =>
      if s.head = some a then some { s with head := n, pops := s.pops.eraseIdx k, owned := s.owned ++ [a] }
      else some { s with pops := s.pops.eraseIdx k }
  | .push k =>
    match s.owned[k]? with
    | none => none
    | some a => some { s with head := some a, next := fun b => if b = a then s.head else s.next b, owned := s.owned.eraseIdx k }

def runF : List FAct → F → Option F
  | [], s => some s
  | x :: xs, s =>
    match fact x s with
    | none => none
    | some s => runF xs s

/-- `more_free_nodes`, lines 422-446: records 0 .. n-1 in a chain. -/
def startF (n : Nat) : F := ⟨if n = 0 then none else some 0, fun i => if i + 1 < n then some (i + 1) else none, [], []⟩

end Mtev.Arena
