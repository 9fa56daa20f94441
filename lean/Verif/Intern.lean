import Verif.Mem

/-!
Model of string interning in /repo/src/utils/mtev_intern.c for pools with extents: `mtev_intern_pool_ex` (805-939),
`mtev_intern_copy` (963-977), `mtev_intern_internal_release` (659-716), `mtev_intern_get_str` (1000-1012), and what
compaction does to released objects (1043-1067).

An action is one atomic operation or one section under the exclusive lock.  Threads are anonymous: the state holds
the threads that are inside a function of the pool.  Addresses are numbers.  An object is placed at any address
that is free, so addresses are used again; that objects at different addresses do not overlap is C26.

Simplified: reference counts are natural numbers (the code has 32 bits); the hash set `ck_hs` is a list searched with
`mi_compare`, and its operations are atomic.  Not modelled: pools without extents (717-803).
-/

namespace Mtev.Intern

/-- What a caller interns: the bytes with the terminator if there is one, and `nt`. -/
structure Key where
  bytes : List Nat
  nt : Bool
deriving DecidableEq, Repr

/-- Where an object's memory is. -/
inductive Ph
  | free      -- not allocated
  | new       -- made by a thread, in no map (868-881)
  | trash     -- lost the race to insert (890-896)
  | mapped
  | removed   -- out of the map (690), readers may still see it
  | staged    -- on `staged_free_nodes`
  | barred    -- taken by compaction, before the barrier of lines 1066-1067
deriving DecidableEq, Repr

/-- `mtev_intern_internal_t`, lines 160-166. -/
structure Cell where
  key : Key
  ref : Nat
  ph : Ph
deriving DecidableEq, Repr

/-- Where a thread is. -/
inductive Pl
  | wait   -- about to lock for reading (841, 858, 914)
  | rd     -- holds the read lock, about to look (845)
  | got    -- holds the read lock, found `a` (851)
  | al     -- found nothing, no lock (863-868)
  | put    -- has made `a`, no lock (881)
  | sgot   -- holds the S lock, found `a` (908)
  | ret    -- has a reference to `a`, no lock (925-938)
  | zero   -- has released the last reference to `a` (672-688)
  | rem    -- has removed `a` from the map (693-707)
deriving DecidableEq, Repr

/-- A thread inside `mtev_intern_pool_ex` or `mtev_intern_internal_release`. -/
structure Th where
  pl : Pl
  key : Key
  a : Nat
  trash : List Nat
deriving DecidableEq, Repr

/-- The pool. -/
structure S where
  mem : Nat → Cell
  map : List Nat
  ths : List Th
  held : List (Nat × Key)   -- ghost: the references of callers, with what they asked for
  bad : Bool                -- ghost: a failed assertion, or access to an object that is not there

inductive Act
  | start (key : Key)       -- `mtev_intern_pool_ex`
  | lockR (k : Nat)
  | get (k : Nat)           -- line 845
  | cas (k : Nat)           -- lines 851-861
  | alloc (k a : Nat)       -- lines 868-879, `a` is where there is room
  | put (k : Nat)           -- lines 881-903, or 881-921
  | scas (k : Nat)          -- lines 908-917
  | drop (k : Nat)          -- lines 932-937, one item
  | done (k : Nat)          -- line 938
  | copy (a : Nat) (key : Key)
  | release (a : Nat) (key : Key)  -- line 666
  | remove (k : Nat)        -- lines 688-691
  | barrier (k : Nat)       -- lines 707-712
  | take                    -- lines 1045-1048
  | cbarrier                -- lines 1066-1067, and everything after
deriving DecidableEq, Repr

/-- `lookfor`, lines 833-838: the length is cut to 23 bits. -/
def look (k : Key) : List Nat := k.bytes.take (k.bytes.length % 2 ^ 23)

/-- `ck_hs_get` with `mi_compare` (504-510), which does not look at `nt`. -/
def find (b : List Nat) (s : S) : Option Nat := s.map.find? (fun a => (s.mem a).key.bytes = b)

/-- The memory with a new cell at `a`. -/
def upd (m : Nat → Cell) (a : Nat) (c : Cell) : Nat → Cell := fun b => if b = a then c else m b

/-- The thread holds the lock for reading. -/
def Th.reads (t : Th) : Bool := t.pl = .rd || t.pl = .got

/-- Nobody has the S lock. -/
def noS (s : S) : Bool := s.ths.all (fun t => t.pl ≠ .sgot)

/-- Nobody has the lock at all. -/
def noRS (s : S) : Bool := s.ths.all (fun t => !t.reads && t.pl ≠ .sgot)

/-- One action of a thread or caller; `none` when it is not possible. -/
def act (x : Act) (s : S) : Option S :=
  match x with
  | .start key => some { s with ths := ⟨.wait, key, 0, []⟩ :: s.ths }
  | .lockR k =>
    match s.ths[k]? with
    | some t => if t.pl = .wait then some { s with ths := s.ths.set k ⟨.rd, t.key, 0, t.trash⟩ } else none
    | none => none
  | .get k =>
    match s.ths[k]? with
    | some t =>
      if t.pl = .rd then
        match find (look t.key) s with
        | some a => some { s with ths := s.ths.set k ⟨.got, t.key, a, t.trash⟩ }
        | none => some { s with ths := s.ths.set k ⟨.al, t.key, 0, t.trash⟩ }
      else none
    | none => none
  | .cas k =>
    match s.ths[k]? with
    | some t =>
      if t.pl = .got then
        if (s.mem t.a).ph ≠ .mapped ∧ (s.mem t.a).ph ≠ .removed then some { s with bad := true }
        else if (s.mem t.a).ref = 0 then some { s with ths := s.ths.set k ⟨.wait, t.key, 0, t.trash⟩ }
        else some { s with mem := upd s.mem t.a { s.mem t.a with ref := (s.mem t.a).ref + 1 }, ths := s.ths.set k ⟨.ret, t.key, t.a, t.trash⟩ }
      else none
    | none => none
  | .alloc k a =>
    match s.ths[k]? with
    | some t =>
      if t.pl = .al ∧ (s.mem a).ph = .free then
        -- `mtev_intern_pool_find`, line 577, and the assertion of line 871
        if 8 + (t.key.bytes.length + 3) / 4 * 4 > 2 ^ 23 then some { s with bad := true }
        else some { s with mem := upd s.mem a ⟨t.key, 1, .new⟩, ths := s.ths.set k ⟨.put, t.key, a, t.trash⟩ }
      else none
    | none => none
  | .put k =>
    match s.ths[k]? with
    | some t =>
      if t.pl = .put ∧ noRS s = true then
        match find (s.mem t.a).key.bytes s with
        | some b =>
          if b = t.a then some { s with bad := true }
          else some { s with mem := upd s.mem t.a { s.mem t.a with ph := .trash }, ths := s.ths.set k ⟨.sgot, t.key, b, t.a :: t.trash⟩ }
        | none => some { s with mem := upd s.mem t.a { s.mem t.a with ph := .mapped }, map := t.a :: s.map, ths := s.ths.set k ⟨.ret, t.key, t.a, t.trash⟩ }
      else none
    | none => none
  | .scas k =>
    match s.ths[k]? with
    | some t =>
      if t.pl = .sgot then
        if (s.mem t.a).ph ≠ .mapped then some { s with bad := true }
        else if (s.mem t.a).ref = 0 then some { s with ths := s.ths.set k ⟨.wait, t.key, 0, t.trash⟩ }
        else some { s with mem := upd s.mem t.a { s.mem t.a with ref := (s.mem t.a).ref + 1 }, ths := s.ths.set k ⟨.ret, t.key, t.a, t.trash⟩ }
      else none
    | none => none
  | .drop k =>
    match s.ths[k]? with
    | some t =>
      match t.pl, t.trash with
      | .ret, b :: r =>
        if (s.mem b).ref ≠ 1 ∨ (s.mem b).ph ≠ .trash then some { s with bad := true }
        else some { s with mem := upd s.mem b { s.mem b with ref := 0, ph := .staged }, ths := s.ths.set k ⟨.ret, t.key, t.a, r⟩ }
      | _, _ => none
    | none => none
  | .done k =>
    match s.ths[k]? with
    | some t => if t.pl = .ret ∧ t.trash = [] then some { s with ths := s.ths.eraseIdx k, held := (t.a, t.key) :: s.held } else none
    | none => none
  | .copy a key =>
    if (a, key) ∈ s.held then
      if (s.mem a).ref = 0 then some { s with bad := true }
      else some { s with mem := upd s.mem a { s.mem a with ref := (s.mem a).ref + 1 }, held := (a, key) :: s.held }
    else none
  | .release a key =>
    if (a, key) ∈ s.held then
      if (s.mem a).ref = 0 then some { s with bad := true }
      else if (s.mem a).ref = 1 then some { s with mem := upd s.mem a { s.mem a with ref := 0 }, held := s.held.erase (a, key), ths := ⟨.zero, key, a, []⟩ :: s.ths }
      else some { s with mem := upd s.mem a { s.mem a with ref := (s.mem a).ref - 1 }, held := s.held.erase (a, key) }
    else none
  | .remove k =>
    match s.ths[k]? with
    | some t =>
      if t.pl = .zero ∧ noS s = true then
        if (s.mem t.a).ref ≠ 0 ∨ t.a ∉ s.map then some { s with bad := true }
        else some { s with mem := upd s.mem t.a { s.mem t.a with ph := .removed }, map := s.map.erase t.a, ths := s.ths.set k ⟨.rem, t.key, t.a, []⟩ }
      else none
    | none => none
  | .barrier k =>
    match s.ths[k]? with
    | some t =>
      if t.pl = .rem ∧ noRS s = true then
        if (s.mem t.a).ph ≠ .removed then some { s with bad := true }
        else some { s with mem := upd s.mem t.a { s.mem t.a with ph := .staged }, ths := s.ths.eraseIdx k }
      else none
    | none => none
  | .take => some { s with mem := fun a => if (s.mem a).ph = .staged then { s.mem a with ph := .barred } else s.mem a }
  | .cbarrier =>
    if noRS s = true then some { s with mem := fun a => if (s.mem a).ph = .barred then { s.mem a with ph := .free } else s.mem a }
    else none

/-- An empty pool. -/
def start : S := ⟨fun _ => ⟨⟨[], false⟩, 0, .free⟩, [], [], [], false⟩

/-- A sequence of actions. -/
def run : List Act → S → Option S
  | [], s => some s
  | x :: xs, s =>
    match act x s with
    | none => none
    | some s => run xs s

/-- `mtev_intern_get_str`, lines 1000-1012: what the pointer points to, and the length. -/
def getStr (s : S) (a : Nat) : List Nat × Nat :=
  ((s.mem a).key.bytes, (s.mem a).key.bytes.length - (if (s.mem a).key.nt then 1 else 0))

/-- Lines 808-838 from the caller's buffer: what is interned.  `buf` is the memory from `buff` on; a read beyond it is
undefined. -/
def apiKey (buf : List Nat) (len : Nat) (nt : Bool) : Out Key :=
  let n := if len = 0 then (buf.takeWhile (· ≠ 0)).length else len
  if len = 0 ∧ 0 ∉ buf then .ub
  else
    let n := n + (if nt then 1 else 0)
    if n > buf.length then .ub else .ok ⟨buf.take n, nt⟩

end Mtev.Intern
