import Verif.Basic
import Verif.Mem
import Mathlib.Tactic.Common
import Mathlib.Logic.Function.Basic

/-!
Model of the disk-backed hash table (src/utils/mtev_huge_hash.c).

The table is a thin layer over LMDB, which is not in the tree.  LMDB is
represented by what its documentation promises: entries ordered by key,
write transactions that happen entirely or not at all, read transactions
that see the entries as they were when they began, one read transaction
at a time in a thread, keys of 1 to 511 bytes, a map of fixed size that a
write may find full, and values that stay readable only until the
transaction ends or the next write.
-/

namespace Mtev.HugeHash

abbrev Str := List Nat
abbrev Ents := List (Str × Str)

/-- LMDB's order of keys: byte by byte, a prefix first. -/
def klt : Str → Str → Bool
  | [], [] => false
  | [], _ :: _ => true
  | _ :: _, [] => false
  | a :: as, b :: bs => decide (a < b) || (decide (a = b) && klt as bs)

/-- The value of a key (mdb_cursor_get with MDB_SET, as used in
src/utils/mtev_huge_hash.c:263, 325, 360). -/
def look (k : Str) : Ents → Option Str
  | [] => none
  | (k', v) :: r => if k' = k then some v else look k r

/-- Setting a key in key order (mdb_cursor_put,
src/utils/mtev_huge_hash.c:214, 275). -/
def ins (k v : Str) : Ents → Ents
  | [] => [(k, v)]
  | (k', v') :: r =>
    if k' = k then (k, v) :: r
    else if klt k k' then (k, v) :: (k', v') :: r
    else (k', v') :: ins k v r

/-- Removing a key (mdb_cursor_del, src/utils/mtev_huge_hash.c:367). -/
def rem (k : Str) (l : Ents) : Ents := l.filter (fun p => decide (p.1 ≠ k))

/-- A call that is waiting for the lock of the map, or is to be made:
`mtev_huge_hash_store` (`over = false`) or `mtev_huge_hash_replace`.
`cost` is how many new pages the write takes, `err` whether the store
reports some other error. -/
structure Put where
  over : Bool
  k : Str
  v : Str
  cost : Nat
  err : Bool
  deriving DecidableEq, Repr

/-- An open iterator (src/utils/mtev_huge_hash.c:20-28): the thread that
opened it and what it has still to return. -/
structure It where
  tid : Nat
  rest : Ents
  deriving DecidableEq, Repr

/-- The table (src/utils/mtev_huge_hash.c:11-18).  `used` is the number of
the last page in use and `mapsize` the size of the map in bytes; pages
have 4096 bytes.  `gen` counts the writes and the changes of the map.
`waiter` is the thread that asks for the lock to resize the map and
`held` are the threads inside a call that cannot go on. -/
structure World where
  ents : Ents
  used : Nat
  mapsize : Nat
  gen : Nat
  its : List It
  waiter : Option (Nat × Put)
  held : List Nat
  deriving Repr

/-- `mtev_huge_hash_create` of a directory that has no table
(src/utils/mtev_huge_hash.c:83-146): nothing calls mdb_env_set_mapsize,
so the map has LMDB's default size of 1 MiB, and the two first pages are
LMDB's own. -/
def fresh : World := ⟨[], 1, 1048576, 0, [], none, []⟩

/-- Does a write of `cost` new pages find the map full?  (LMDB's test: the
next page number plus the pages asked for reaches the number of pages.) -/
def full (w : World) (cost : Nat) : Bool := decide (w.mapsize / 4096 ≤ w.used + 1 + cost)

/-- LMDB refuses to store under empty keys and keys over 511 bytes. -/
def badKey (k : Str) : Bool := decide (k.length = 0) || decide (511 < k.length)

/-- One pass of `put_retry` (src/utils/mtev_huge_hash.c:195-240, 256-301):
`none` when the map is full.  Simplified: a full map is noticed at the put
or at the commit, which does not matter as both go the same way. -/
def attempt (w : World) (p : Put) : Option (Bool × World) :=
  if !p.over && (look p.k w.ents).isSome then some (false, w)
  else if badKey p.k || p.err then some (false, w)
  else if full w p.cost then none
  else some (true, { w with ents := ins p.k p.v w.ents, used := w.used + p.cost, gen := w.gen + 1 })

/-- `map_resize` once it has the lock (src/utils/mtev_huge_hash.c:42-63).
Simplified: exact instead of floating-point arithmetic. -/
def resize (w : World) : World :=
  if w.used * 4096 * 10 < w.mapsize * 8 then w
  else
    let n := w.mapsize * 3 / 2
    { w with mapsize := n + n % 4096, gen := w.gen + 1 }

/-- How a call of store or replace goes. -/
inductive Res where
  | ret (b : Bool) (w : World)
  | wait
  | spin (w : World)
  deriving Repr

/-- `mtev_huge_hash_store` and `mtev_huge_hash_replace`, `n` passes
(src/utils/mtev_huge_hash.c:182-302).  To resize, the lock must be free of
readers, and every open iterator is one.  Simplified: nothing of another
thread happens within the passes. -/
def put : Nat → World → Put → Res
  | 0, w, _ => .spin w
  | n + 1, w, p =>
    match attempt w p with
    | some (b, w') => .ret b w'
    | none => if w.its.isEmpty then put n (resize w) p else .wait

/-- What `mtev_huge_hash_retrieve` returns: a pointer into the map. -/
structure Ref where
  val : Str
  gen : Nat
  deriving DecidableEq, Repr

/-- Reading through such a pointer later: the transaction that protected
it ended before the call returned, so it is readable only as long as
nothing was written and the map was not moved. -/
def deref (w : World) (r : Ref) : Out Str := if r.gen = w.gen then .ok r.val else .ub

/-- The calls of the interface. -/
inductive Op where
  | put (p : Put)
  | get (k : Str)
  | del (k : Str) (cost : Nat) (err : Bool)
  | size
  | iter
  | adv
  | close
  deriving DecidableEq, Repr

/-- Their answers.  `closed` says what became of a store that waited for
the iterator to be closed; `held`: the call does not return (or the
thread is still in an earlier call that does not). -/
inductive Ans where
  | bool (b : Bool)
  | ptr (r : Option Ref)
  | num (n : Nat)
  | opened (b : Bool)
  | pair (p : Option (Str × Str))
  | closed (d : Option (Nat × Put × Bool))
  | held
  deriving DecidableEq, Repr

/-- Has the thread an open iterator? -/
def iterating (w : World) (t : Nat) : Bool := w.its.any (fun i => decide (i.tid = t))

/-- Advance the iterator of a thread (`mtev_huge_hash_adv`,
src/utils/mtev_huge_hash.c:452-466, and `_iter_key`, `_iter_val`). -/
def advance (t : Nat) : List It → List It
  | [] => []
  | i :: r => if i.tid = t then { i with rest := i.rest.tail } :: r else i :: advance t r

/-- What the iterator of a thread stands before. -/
def current (t : Nat) (l : List It) : Option (Str × Str) :=
  match l.find? (fun i => decide (i.tid = t)) with
  | some i => i.rest.head?
  | none => none

/-- The thread of the waiting store goes on once no reader is left. -/
def wake (w : World) : World × Option (Nat × Put × Bool) :=
  match w.waiter with
  | none => (w, none)
  | some (t, p) =>
    if w.its.isEmpty then
      let w1 := { w with waiter := none, held := w.held.filter (fun x => decide (x ≠ t)) }
      match put 3 (resize w1) p with
      | .ret b w2 => (w2, some (t, p, b))
      | .wait => (w1, none)
      | .spin w2 => ({ w2 with held := t :: w2.held }, none)
    else (w, none)

/-- One call by a thread: the lock for readers is not given out while a
thread waits to resize (ck_rwlock prefers writers), a thread may have only
one read transaction (an iterator is one), and deleting does not resize
(src/utils/mtev_huge_hash.c:182-450). -/
def call (w : World) (t : Nat) (o : Op) : World × Ans :=
  if w.held.contains t then (w, .held)
  else
    match o with
    | .size => (w, .num w.ents.length)
    | .adv =>
      if iterating w t then
        ({ w with its := advance t w.its }, .pair (current t w.its))
      else (w, .pair none)
    | .close =>
      let (w', d) := wake { w with its := w.its.filter (fun i => decide (i.tid ≠ t)) }
      (w', .closed d)
    | .put p =>
      if w.waiter.isSome then ({ w with held := t :: w.held }, .held)
      else
        match put 3 w p with
        | .ret b w' => (w', .bool b)
        | .wait => ({ w with waiter := some (t, p), held := t :: w.held }, .held)
        | .spin w' => ({ w' with held := t :: w'.held }, .held)
    | .get k =>
      if w.waiter.isSome then ({ w with held := t :: w.held }, .held)
      else if iterating w t then (w, .ptr none)
      else (w, .ptr ((look k w.ents).map (fun v => ⟨v, w.gen⟩)))
    | .del k cost err =>
      if w.waiter.isSome then ({ w with held := t :: w.held }, .held)
      else if (look k w.ents).isNone || err || full w cost then (w, .bool false)
      else ({ w with ents := rem k w.ents, used := w.used + cost, gen := w.gen + 1 }, .bool true)
    | .iter =>
      if w.waiter.isSome then ({ w with held := t :: w.held }, .held)
      else if iterating w t then (w, .opened false)
      else ({ w with its := ⟨t, w.ents⟩ :: w.its }, .opened true)

/-- The calls of a program, in the order they take effect, with their
answers. -/
def trace : World → List (Nat × Op) → List (Nat × Op × Ans)
  | _, [] => []
  | w, (t, o) :: r => (t, o, (call w t o).2) :: trace (call w t o).1 r

/-- The table after them. -/
def run : World → List (Nat × Op) → World
  | w, [] => w
  | w, (t, o) :: r => run (call w t o).1 r

/-! Lemmas about the ordered entries. -/

theorem klt_irrefl (a : Str) : klt a a = false := by
  induction a with
  | nil => rfl
  | cons x xs ih => simp [klt, ih]

theorem klt_trans (a b c : Str) (h1 : klt a b = true) (h2 : klt b c = true) : klt a c = true := by
  induction a generalizing b c with
  | nil =>
    cases b with
    | nil => simp [klt] at h1
    | cons y ys => cases c with
      | nil => simp [klt] at h2
      | cons z zs => rfl
  | cons x xs ih =>
    cases b with
    | nil => simp [klt] at h1
    | cons y ys =>
      cases c with
      | nil => simp [klt] at h2
      | cons z zs =>
        simp only [klt, Bool.or_eq_true, decide_eq_true_eq, Bool.and_eq_true] at h1 h2 ⊢
        rcases h1 with h1 | ⟨e1, h1⟩ <;> rcases h2 with h2 | ⟨e2, h2⟩
        · left; omega
        · left; omega
        · left; omega
        · right; exact ⟨by omega, ih _ _ h1 h2⟩

theorem klt_tri (a b : Str) (hne : b ≠ a) (h : klt a b = false) : klt b a = true := by
  induction a generalizing b with
  | nil =>
    cases b with
    | nil => exact absurd rfl hne
    | cons y ys => simp [klt] at h
  | cons x xs ih =>
    cases b with
    | nil => rfl
    | cons y ys =>
      simp only [klt, Bool.or_eq_false_iff, decide_eq_false_iff_not, Bool.and_eq_false_iff] at h
      simp only [klt, Bool.or_eq_true, decide_eq_true_eq, Bool.and_eq_true]
      by_cases e : y = x
      · subst e
        right
        refine ⟨rfl, ih ys (fun hh => hne (by rw [hh])) ?_⟩
        rcases h.2 with h2 | h2
        · exact absurd rfl h2
        · exact h2
      · left; omega

/-- Strictly increasing keys. -/
def Sorted (l : Ents) : Prop := l.Pairwise (fun p q => klt p.1 q.1 = true)

theorem look_ins (k v k' : Str) (l : Ents) :
    look k' (ins k v l) = if k' = k then some v else look k' l := by
  induction l with
  | nil =>
    by_cases h : k' = k
    · subst h; simp [ins, look]
    · have : k ≠ k' := fun e => h e.symm
      simp [ins, look, h, this]
  | cons p r ih =>
    obtain ⟨a, b⟩ := p
    by_cases ha : a = k
    · subst ha
      by_cases h : k' = a
      · subst h; simp [ins, look]
      · have : a ≠ k' := fun e => h e.symm
        simp [ins, look, h, this]
    · by_cases hk : klt k a = true
      · by_cases h : k' = k
        · subst h; simp [ins, ha, hk, look]
        · have : k ≠ k' := fun e => h e.symm
          simp [ins, ha, hk, look, h, this]
      · have e : ins k v ((a, b) :: r) = (a, b) :: ins k v r := by simp [ins, ha, hk]
        rw [e]
        simp only [look, ih]
        by_cases h : k' = k
        · subst h; simp [ha]
        · simp [h]

theorem look_rem (k k' : Str) (l : Ents) :
    look k' (rem k l) = if k' = k then none else look k' l := by
  induction l with
  | nil => simp [rem, look]
  | cons p r ih =>
    obtain ⟨a, b⟩ := p
    unfold rem at ih ⊢
    by_cases ha : a = k
    · rw [List.filter_cons_of_neg (by simp [ha]), ih]
      by_cases h : k' = k
      · simp [h]
      · have : a ≠ k' := fun e => h (by rw [← e, ha])
        simp [h, look, this]
    · rw [List.filter_cons_of_pos (by simp [ha])]
      simp only [look, ih]
      by_cases h : k' = k
      · subst h; simp [ha]
      · simp [h]

theorem mem_ins (k v : Str) (l : Ents) (q : Str × Str) (h : q ∈ ins k v l) : q = (k, v) ∨ q ∈ l := by
  induction l with
  | nil => simpa [ins] using h
  | cons p r ih =>
    obtain ⟨a, b⟩ := p
    unfold ins at h
    by_cases ha : a = k
    · rw [if_pos ha] at h
      rcases List.mem_cons.mp h with h | h
      · exact .inl h
      · exact .inr (List.mem_cons_of_mem _ h)
    · rw [if_neg ha] at h
      by_cases hk : klt k a = true
      · rw [if_pos hk] at h
        rcases List.mem_cons.mp h with h | h
        · exact .inl h
        · exact .inr h
      · rw [if_neg hk] at h
        rcases List.mem_cons.mp h with h | h
        · exact .inr (by rw [h]; exact List.mem_cons_self)
        · rcases ih h with h | h
          · exact .inl h
          · exact .inr (List.mem_cons_of_mem _ h)

theorem sorted_ins (k v : Str) (l : Ents) (h : Sorted l) : Sorted (ins k v l) := by
  induction l with
  | nil => exact List.pairwise_singleton _ _
  | cons p r ih =>
    obtain ⟨a, b⟩ := p
    obtain ⟨h1, h2⟩ := List.pairwise_cons.mp h
    unfold ins
    by_cases ha : a = k
    · rw [if_pos ha]
      subst ha
      exact List.pairwise_cons.mpr ⟨h1, h2⟩
    · rw [if_neg ha]
      by_cases hk : klt k a = true
      · rw [if_pos hk]
        refine List.pairwise_cons.mpr ⟨fun q hq => ?_, h⟩
        rcases List.mem_cons.mp hq with e | e
        · rw [e]; exact hk
        · exact klt_trans _ _ _ hk (h1 q e)
      · rw [if_neg hk]
        refine List.pairwise_cons.mpr ⟨fun q hq => ?_, ih h2⟩
        rcases mem_ins _ _ _ _ hq with e | e
        · rw [e]; exact klt_tri _ _ ha (by simpa using hk)
        · exact h1 q e

theorem sorted_rem (k : Str) (l : Ents) (h : Sorted l) : Sorted (rem k l) := List.Pairwise.filter _ h

theorem look_mem (l : Ents) (hs : Sorted l) (k v : Str) : look k l = some v ↔ (k, v) ∈ l := by
  induction l with
  | nil => simp [look]
  | cons p r ih =>
    obtain ⟨a, b⟩ := p
    obtain ⟨h1, h2⟩ := List.pairwise_cons.mp hs
    by_cases ha : a = k
    · subst ha
      simp only [look, if_true, Option.some.injEq, List.mem_cons, Prod.mk.injEq, true_and]
      constructor
      · intro e; exact .inl e.symm
      · rintro (e | e)
        · exact e.symm
        · have := h1 _ e
          rw [klt_irrefl] at this
          exact absurd this (by simp)
    · have hne : ¬ k = a := fun e => ha e.symm
      simp only [look, ha, if_false, ih h2, List.mem_cons, Prod.mk.injEq, hne, false_and, false_or]

theorem sorted_keys_nodup (l : Ents) (hs : Sorted l) : (l.map Prod.fst).Nodup := by
  unfold List.Nodup
  rw [List.pairwise_map]
  refine List.Pairwise.imp ?_ hs
  intro a b h e
  rw [e, klt_irrefl] at h
  exact absurd h (by simp)

/-! Lemmas about writing. -/

theorem resize_ents (w : World) : (resize w).ents = w.ents ∧ (resize w).its = w.its ∧
    (resize w).used = w.used ∧ (resize w).waiter = w.waiter ∧ (resize w).held = w.held := by
  unfold resize
  split <;> exact ⟨rfl, rfl, rfl, rfl, rfl⟩

/-- What a pass that ends does. -/
theorem attempt_some (w : World) (p : Put) (b : Bool) (w' : World) (h : attempt w p = some (b, w')) :
    w'.its = w.its ∧ w'.waiter = w.waiter ∧ w'.held = w.held ∧
    (b = false → w' = w) ∧
    (b = true → w'.ents = ins p.k p.v w.ents ∧ (p.over = true ∨ look p.k w.ents = none) ∧ badKey p.k = false) := by
  unfold attempt at h
  by_cases h1 : (!p.over && (look p.k w.ents).isSome) = true
  · rw [if_pos h1] at h
    cases h
    exact ⟨rfl, rfl, rfl, fun _ => rfl, fun e => absurd e (by simp)⟩
  · rw [if_neg h1] at h
    by_cases h2 : (badKey p.k || p.err) = true
    · rw [if_pos h2] at h
      cases h
      exact ⟨rfl, rfl, rfl, fun _ => rfl, fun e => absurd e (by simp)⟩
    · rw [if_neg h2] at h
      by_cases h3 : full w p.cost = true
      · rw [if_pos h3] at h; cases h
      · rw [if_neg h3] at h
        cases h
        refine ⟨rfl, rfl, rfl, fun e => absurd e (by simp), fun _ => ⟨rfl, ?_, ?_⟩⟩
        · cases ho : p.over
          · right
            cases hl : look p.k w.ents with
            | none => rfl
            | some v => simp [ho, hl] at h1
          · left; rfl
        · cases hb : badKey p.k
          · rfl
          · simp [hb] at h2

/-- Why a pass ends without having written. -/
theorem attempt_false (w : World) (p : Put) (w' : World) (h : attempt w p = some (false, w')) :
    (p.over = false ∧ look p.k w.ents ≠ none) ∨ badKey p.k = true ∨ p.err = true := by
  unfold attempt at h
  by_cases h1 : (!p.over && (look p.k w.ents).isSome) = true
  · left
    simp only [Bool.and_eq_true, Bool.not_eq_true'] at h1
    refine ⟨h1.1, fun e => ?_⟩
    rw [e] at h1
    simp at h1
  · rw [if_neg h1] at h
    by_cases h2 : (badKey p.k || p.err) = true
    · right
      simpa using h2
    · rw [if_neg h2] at h
      by_cases h3 : full w p.cost = true
      · rw [if_pos h3] at h; cases h
      · rw [if_neg h3] at h; cases h

/-- Entries and bookkeeping of a world, apart from the map's size and the
count of its changes. -/
def SameBut (w w' : World) : Prop :=
  w'.ents = w.ents ∧ w'.its = w.its ∧ w'.waiter = w.waiter ∧ w'.held = w.held

theorem put_spec (n : Nat) (w : World) (p : Put) :
    match put n w p with
    | .ret b w' => w'.its = w.its ∧ w'.waiter = w.waiter ∧ w'.held = w.held ∧
        (b = false → w'.ents = w.ents ∧
          ((p.over = false ∧ look p.k w.ents ≠ none) ∨ badKey p.k = true ∨ p.err = true)) ∧
        (b = true → w'.ents = ins p.k p.v w.ents ∧ (p.over = true ∨ look p.k w.ents = none))
    | .wait => True
    | .spin w' => SameBut w w' := by
  induction n generalizing w with
  | zero => exact ⟨rfl, rfl, rfl, rfl⟩
  | succ n ih =>
    unfold put
    cases ha : attempt w p with
    | some r =>
      obtain ⟨b, w'⟩ := r
      obtain ⟨h1, h2, h3, h4, h5⟩ := attempt_some w p b w' ha
      exact ⟨h1, h2, h3, fun e => ⟨by rw [h4 e], attempt_false w p w' (by rw [ha, e])⟩, fun e => ⟨(h5 e).1, (h5 e).2.1⟩⟩
    | none =>
      cases hi : w.its.isEmpty with
      | false => simp
      | true =>
        simp only [if_true]
        have := ih (resize w)
        obtain ⟨e1, e2, e3, e4, e5⟩ := resize_ents w
        cases hp : put n (resize w) p with
        | ret b w' =>
          rw [hp] at this
          simpa [e1, e2, e4, e5] using this
        | wait => trivial
        | spin w' =>
          rw [hp] at this
          simpa [SameBut, e1, e2, e4, e5] using this

theorem put_not_wait (n : Nat) (w : World) (p : Put) (h : w.its = []) : put n w p ≠ .wait := by
  induction n generalizing w with
  | zero => simp [put]
  | succ n ih =>
    unfold put
    cases attempt w p with
    | some r => simp
    | none =>
      simp only [h, List.isEmpty_nil, if_true]
      exact ih _ (by rw [(resize_ents w).2.1, h])

end Mtev.HugeHash
