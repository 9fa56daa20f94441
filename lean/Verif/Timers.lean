import Verif.Skiplist
import Mathlib.Data.List.Perm.Basic

/-!
Model of the timed events of the eventer, /repo/src/eventer/eventer_impl.c:102-113,1158-1296, on
top of the skip list model.

Each critical section under `te_lock` is one atomic step; other threads may act between the steps
of the dispatching thread.  Clock readings and callback results are arbitrary inputs.
An event in a list is recorded with the time it was scheduled for; the code never changes
`e->whence` of a listed event (`eventer_update_timed_internal` takes it out first).
-/

namespace Mtev.Timers
open Mtev.Skiplist

/-- `struct timeval`. -/
structure TV where
  sec : Int
  usec : Int
deriving DecidableEq, Repr

def TV.us (t : TV) : Int := t.sec * 1000000 + t.usec
def TV.norm (t : TV) : Prop := 0 ≤ t.usec ∧ t.usec < 1000000

/-- `compare_timeval`, mtev_defines.h:134-140. -/
def compareTV (a b : TV) : Int :=
  if a.sec < b.sec then -1
  else if a.sec > b.sec then 1
  else if a.usec < b.usec then -1
  else if a.usec > b.usec then 1
  else 0

/-- `sub_timeval`, mtev_defines.h:142-155. -/
def subTV (a b : TV) : TV :=
  let u := a.usec - b.usec
  let (asec, u) := if u < 0 then (a.sec - 1, u + 1000000) else (a.sec, u)
  let s := asec - b.sec
  if s < 0 then ⟨s + 1, u - 1000000⟩ else ⟨s, u⟩

/-- A scheduled event: its address, time, and (ghost) the serial number of this scheduling. -/
structure Ev where
  ptr : Nat
  whence : TV
  sid : Nat
deriving DecidableEq, Repr

/-- `eventer_timecompare`, eventer_impl.c:102-113. -/
def timeCmp (a b : Ev) : Int :=
  if a.whence.sec < b.whence.sec then -1
  else if a.whence.sec = b.whence.sec ∧ a.whence.usec < b.whence.usec then -1
  else 1

/-- `mtev_compare_voidptr`, mtev_skiplist.c:64-68. -/
def ptrCmp (a b : Ev) : Int := if a.ptr < b.ptr then -1 else if a.ptr = b.ptr then 0 else 1

def mainCmp : Cmp Ev Ev := ⟨0, timeCmp, timeCmp⟩
def idxCmp : Cmp Ev Ev := ⟨1, ptrCmp, ptrCmp⟩

/-- One of the two lists as made by `eventer_per_thread_init`, eventer_impl.c:657-666. -/
def newList : MSL Ev Ev := ⟨mainCmp, .empty, [(idxCmp, .empty)], 0⟩

theorem newList_eq : (MSL.empty mainCmp).addIndex idxCmp (fun _ => 0) = .ok newList := rfl

/-- Where the dispatching thread is in `eventer_dispatch_timed`. -/
inductive Phase where
  /-- outside -/
  | idle
  /-- in the `while` loop with that many turns left, eventer_impl.c:1228 -/
  | loop (left : Nat)
  /-- running the callback of an event, :1264 -/
  | running (left : Nat) (e : Ev)
  /-- after the loop, :1277 -/
  | swept
  /-- past the size test, before taking the lock, :1279 -/
  | sweeping
deriving DecidableEq, Repr

/-- The state of one event loop.  `fired` and `cancelled` are ghost logs: events dispatched with
the clock reading used, and events taken out by remove or update.  `clock` (ghost) is the true time
of the latest action; `freed` lists events released by `eventer_free`. -/
structure TS where
  timed : MSL Ev Ev
  staged : MSL Ev Ev
  phase : Phase
  now : TV
  next : TV
  nsid : Nat
  fired : List (Ev × TV)
  round : List Ev
  cancelled : List Ev
  freed : List Nat
  clock : TV

def TS.init : TS := ⟨newList, newList, .idle, ⟨0, 0⟩, ⟨0, 0⟩, 0, [], [], [], [], ⟨0, 0⟩⟩

/-- What the threads do. -/
inductive Act where
  /-- `eventer_add_timed` by any thread, eventer_impl.c:1158-1178 -/
  | add (ptr : Nat) (whence : TV) (coins : Nat → Nat)
  /-- `eventer_remove_timed` by any thread, :1179-1193 -/
  | remove (ptr : Nat)
  /-- `eventer_update_timed_internal` on an event other than the caller's current one, :1201-1207 -/
  | update (ptr : Nat) (whence : TV) (coins : Nat → Nat)
  /-- `eventer_update_timed_internal` by a callback on its own event, :1197-1200 -/
  | updateSelf (whence : TV)
  /-- entry of `eventer_dispatch_timed`, :1226-1227, with the clock reading -/
  | enter (clk : TV)
  /-- one turn of the loop up to the callback, :1228-1251, with the clock reading -/
  | tick (clk : TV)
  /-- return of the callback, :1270-1273; `again` is `newmask != 0`; `clk` is the true time -/
  | ret (again : Bool) (clk : TV) (coins : Nat → Nat)
  /-- the unlocked size test, :1277, and the end of the function when nothing is staged -/
  | check
  /-- moving the staged events over, :1279-1289, and the end of the function -/
  | sweep (coins : Nat → Nat → Nat)

/-- Taking an event out of a list by address. -/
def takeOut (l : MSL Ev Ev) (ptr : Nat) : Out (MSL Ev Ev × List Ev) := do
  let (l, _, x) ← l.remove (some 0) ⟨ptr, ⟨0, 0⟩, 0⟩
  pure (l, x)

/-- `mtev_skiplist_insert` of an event. -/
def putIn (l : MSL Ev Ev) (e : Ev) (coins : Nat → Nat) : Out (MSL Ev Ev) := do
  let (l, _) ← l.insert e coins
  pure l

/-- The final cap, eventer_impl.c:1292-1295. -/
def cap (maxSleep next : TV) : TV := if compareTV maxSleep next < 0 then maxSleep else next

/-- The pop/insert loop, eventer_impl.c:1280-1283; fuel is the number of staged events. -/
def sweepLoop (coins : Nat → Nat → Nat) : Nat → MSL Ev Ev → MSL Ev Ev → Out (MSL Ev Ev × MSL Ev Ev)
  | 0, staged, timed => pure (staged, timed)
  | n+1, staged, timed =>
    match staged.pop with
    | (_, none) => pure (staged, timed)
    | (staged, some e) => do
      let timed ← putIn timed e (coins n)
      sweepLoop coins n staged timed

/-- One step.  `none` when the action does not apply in this phase. -/
def step (maxSleep : TV) (s : TS) : Act → Option (Out TS)
  | .add ptr w coins => some do
    let st ← putIn s.staged ⟨ptr, w, s.nsid⟩ coins
    pure { s with staged := st, nsid := s.nsid + 1 }
  | .remove ptr => some do
    let (t, x) ← takeOut s.timed ptr
    match x with
    | e :: _ => pure { s with timed := t, cancelled := s.cancelled ++ [e] }
    | [] =>
      let (st, x) ← takeOut s.staged ptr
      pure { s with timed := t, staged := st, cancelled := s.cancelled ++ x }
  | .update ptr w coins => some do
    let (t, x) ← takeOut s.timed ptr
    let (st, y) ← takeOut s.staged ptr
    let st ← putIn st ⟨ptr, w, s.nsid⟩ coins
    pure { s with timed := t, staged := st, nsid := s.nsid + 1, cancelled := s.cancelled ++ (x ++ y) }
  | .updateSelf w =>
    match s.phase with
    | .running n e => some (pure { s with phase := .running n { e with whence := w } })
    | _ => none
  | .enter clk =>
    match s.phase with
    | .idle =>
      let s := { s with next := maxSleep, round := [] }
      if s.timed.main.size = 0 then some (pure { s with phase := .swept, now := clk, clock := clk })
      else some (pure { s with phase := .loop s.timed.main.size })
    | _ => none
  | .tick clk =>
    match s.phase with
    | .loop 0 => some (pure { s with phase := .swept })
    | .loop (n+1) =>
      let s := { s with now := clk, clock := clk }
      match s.timed.peek with
      | none => some (pure { s with phase := .swept })
      | some e =>
        if compareTV e.whence clk < 0 then
          some (pure { s with timed := s.timed.pop.1, phase := .running n e,
                              fired := s.fired ++ [(e, clk)], round := s.round ++ [e] })
        else some (pure { s with next := subTV e.whence clk, phase := .swept })
    | _ => none
  | .ret again clk coins =>
    match s.phase with
    | .running n e =>
      if again then some do
        let st ← putIn s.staged ⟨e.ptr, e.whence, s.nsid⟩ coins
        pure { s with staged := st, nsid := s.nsid + 1, phase := .loop n, clock := clk }
      else some (pure { s with phase := .loop n, freed := e.ptr :: s.freed, clock := clk })
    | _ => none
  | .check =>
    match s.phase with
    | .swept =>
      if s.staged.main.size = 0 then
        some (pure { s with phase := .idle, next := cap maxSleep s.next })
      else some (pure { s with phase := .sweeping })
    | _ => none
  | .sweep coins =>
    match s.phase with
    | .sweeping => some do
      let (st, t) ← sweepLoop coins s.staged.main.size s.staged s.timed
      let next := match t.peek with
        | none => s.next
        | some e =>
          let n := subTV e.whence s.now
          if n.sec < 0 ∨ n.usec < 0 then ⟨0, 0⟩ else n
      pure { s with staged := st, timed := t, phase := .idle, next := cap maxSleep next }
    | _ => none

/-! ### Time arithmetic -/

theorem compareTV_neg {a b : TV} (ha : a.norm) (hb : b.norm) : compareTV a b < 0 ↔ a.us < b.us := by
  obtain ⟨a1, a2⟩ := ha
  obtain ⟨b1, b2⟩ := hb
  unfold compareTV TV.us
  repeat' split
  all_goals omega

theorem subTV_us (a b : TV) (_ : a.norm) (_ : b.norm) : (subTV a b).us = a.us - b.us := by
  unfold subTV TV.us
  simp only
  split <;> split <;> simp <;> omega

theorem subTV_neg {a b : TV} (ha : a.norm) (hb : b.norm) :
    ((subTV a b).sec < 0 ∨ (subTV a b).usec < 0) ↔ a.us < b.us := by
  obtain ⟨a1, a2⟩ := ha
  obtain ⟨b1, b2⟩ := hb
  unfold subTV TV.us
  simp only
  split <;> split <;> simp only at * <;> omega

theorem subTV_norm {a b : TV} (ha : a.norm) (hb : b.norm) (h : b.us ≤ a.us) : (subTV a b).norm := by
  obtain ⟨a1, a2⟩ := ha
  obtain ⟨b1, b2⟩ := hb
  unfold subTV TV.norm TV.us at *
  simp only
  split <;> split <;> simp only at * <;> omega

def leTime (a b : Ev) : Prop :=
  a.whence.sec < b.whence.sec ∨ (a.whence.sec = b.whence.sec ∧ a.whence.usec ≤ b.whence.usec)

theorem leTime_us {a b : Ev} (ha : a.whence.norm) (hb : b.whence.norm) :
    leTime a b ↔ a.whence.us ≤ b.whence.us := by
  obtain ⟨a1, a2⟩ := ha
  obtain ⟨b1, b2⟩ := hb
  unfold leTime TV.us
  omega

theorem leTime_refl (a : Ev) : leTime a a := Or.inr ⟨rfl, le_refl _⟩

theorem timeOrd : Skiplist.Ord timeCmp leTime where
  total := by intro a b; unfold leTime; omega
  trans := by intro a b c; unfold leTime; omega
  lt_iff := by
    intro a b
    unfold timeCmp leTime
    repeat' split
    all_goals omega
  zero := by
    intro a b h
    unfold timeCmp at h
    split at h
    · omega
    · split at h <;> omega

def lePtr (a b : Ev) : Prop := a.ptr ≤ b.ptr

theorem ptrOrd : Skiplist.SOrd ptrCmp lePtr where
  total := by intro a b; unfold lePtr; omega
  trans := by intro a b c; unfold lePtr; omega
  lt_iff := by
    intro a b
    unfold ptrCmp lePtr
    repeat' split
    all_goals omega
  zero := by
    intro a b h
    unfold ptrCmp at h
    unfold lePtr
    split at h
    · omega
    · split at h <;> omega
  eq := by
    intro a b h1 h2
    unfold lePtr at h1 h2
    unfold ptrCmp
    rw [if_neg (by omega), if_pos (by omega)]

theorem ptrKey (k : Ev) : KeyCut (ptrCmp k) lePtr where
  lt := by
    intro a b h1 h2
    unfold ptrCmp lePtr at *
    split at h2 <;> split <;> (try split at h2) <;> (try split) <;> omega
  gt := by
    intro a b h1 h2
    unfold ptrCmp lePtr at *
    split at h2 <;> split <;> (try split at h2) <;> (try split) <;> omega

theorem ptrCmp_zero {a b : Ev} : ptrCmp a b = 0 ↔ a.ptr = b.ptr := by
  unfold ptrCmp
  split
  · omega
  · split <;> omega

/-! ### One list -/

/-- The invariant of a list holding `xs`. -/
structure LInv (l : MSL Ev Ev) (xs : List Ev) : Prop where
  prim : l.prim = mainCmp
  main : l.main.Ok leTime
  elems : l.main.elems.map (·.2) = xs
  ids : ∀ n ∈ l.main.elems, n.1 < l.next
  idx : ∃ s, l.idx = [(idxCmp, s)] ∧ s.Ok lePtr ∧ s.elems.Perm l.main.elems
  nodup : (xs.map Ev.ptr).Nodup

theorem LInv.new : LInv newList [] where
  prim := rfl
  main := ⟨trivial, rfl⟩
  elems := rfl
  ids := by intro n hn; exact absurd hn (by simp [newList, SL.empty, SL.elems])
  idx := ⟨.empty, rfl, ⟨trivial, rfl⟩, by simp [newList]⟩
  nodup := by simp

theorem LInv.size {l : MSL Ev Ev} {xs : List Ev} (h : LInv l xs) : l.main.size = xs.length := by
  rw [h.main.size, ← h.elems]; simp

theorem LInv.sorted {l : MSL Ev Ev} {xs : List Ev} (h : LInv l xs) : xs.Pairwise leTime := by
  rw [← h.elems, List.pairwise_map]
  exact (bottom_rowOk h.main.rows).1

theorem LInv.peek {l : MSL Ev Ev} {xs : List Ev} (h : LInv l xs) : l.peek = xs.head? := by
  rw [← h.elems]; simp [MSL.peek]

/-- Inserting an event that is not in the list. -/
theorem LInv.put {l : MSL Ev Ev} {xs : List Ev} (h : LInv l xs) (e : Ev) (coins : Nat → Nat)
    (hn : e.ptr ∉ xs.map Ev.ptr) :
    ∃ l' xs', putIn l e coins = .ok l' ∧ LInv l' xs' ∧ xs'.Perm (e :: xs) := by
  obtain ⟨s, hi, hs, hp⟩ := h.idx
  have hid : l.next ∉ l.main.elems.map (·.1) := by
    intro hm
    obtain ⟨n, hn, e⟩ := List.mem_map.1 hm
    have := h.ids n hn
    omega
  have hid2 : l.next ∉ s.elems.map (·.1) := fun hm => hid ((hp.map _).subset hm)
  obtain ⟨m', b, e1, e2, e3, e4⟩ := SL.insert_spec (c := mainCmp) timeOrd h.main e (coins 0) hid
  have hb : b = true := by
    cases b with
    | true => rfl
    | false =>
      obtain ⟨-, x, hx, h0⟩ := e4 rfl
      exfalso
      change timeCmp e x.2 = 0 at h0
      unfold timeCmp at h0
      split at h0
      · omega
      · split at h0 <;> omega
  subst hb
  obtain ⟨q1, -⟩ := e3 rfl
  obtain ⟨s', b2, f1, f2, f3, f4⟩ := SL.insert_spec (c := idxCmp) ptrOrd.toOrd hs e (coins 1) hid2
  have hb2 : b2 = true := by
    cases b2 with
    | true => rfl
    | false =>
      obtain ⟨-, x, hx, h0⟩ := f4 rfl
      exfalso
      have h0' := ptrCmp_zero.mp h0
      apply hn
      rw [h0', ← h.elems, List.map_map]
      exact List.mem_map.mpr ⟨x, hp.subset hx, rfl⟩
  subst hb2
  obtain ⟨r1, -⟩ := f3 rfl
  have hperm : m'.elems.Perm ((l.next, e) :: l.main.elems) := by rw [q1]; exact place_perm _ _ _
  have hperm2 : (m'.elems.map (·.2)).Perm (e :: xs) := by
    have := hperm.map (·.2)
    rw [List.map_cons, h.elems] at this
    exact this
  refine ⟨{ l with main := m', idx := [(idxCmp, s')], next := l.next + 1 }, m'.elems.map (·.2),
    ?_, ?_, hperm2⟩
  · unfold putIn MSL.insert
    rw [h.prim, e1]
    simp only
    rw [hi]
    simp only [insertIdx]
    rw [f1]
    rfl
  · refine ⟨h.prim, e2, rfl, ?_, ⟨s', rfl, f2, ?_⟩, ?_⟩
    · intro n hn'
      rcases List.mem_cons.1 (hperm.subset hn') with rfl | hn'
      · simp
      · have := h.ids n hn'; simp only; omega
    · rw [r1]
      exact (place_perm _ _ _).trans ((hp.cons _).trans hperm.symm)
    · rw [(hperm2.map Ev.ptr).nodup_iff, List.map_cons, List.nodup_cons]
      exact ⟨hn, h.nodup⟩

/-- Inserting an event whose address is already in the list fails the assertion. -/
theorem LInv.put_dup {l : MSL Ev Ev} {xs : List Ev} (h : LInv l xs) (e : Ev) (coins : Nat → Nat)
    (hn : e.ptr ∈ xs.map Ev.ptr) : putIn l e coins = .abort := by
  obtain ⟨s, hi, hs, hp⟩ := h.idx
  have hid : l.next ∉ l.main.elems.map (·.1) := by
    intro hm
    obtain ⟨n, hn, e⟩ := List.mem_map.1 hm
    have := h.ids n hn
    omega
  have hid2 : l.next ∉ s.elems.map (·.1) := fun hm => hid ((hp.map _).subset hm)
  obtain ⟨m', b, e1, e2, e3, e4⟩ := SL.insert_spec (c := mainCmp) timeOrd h.main e (coins 0) hid
  have hb : b = true := by
    cases b with
    | true => rfl
    | false =>
      obtain ⟨-, x, hx, h0⟩ := e4 rfl
      exfalso
      change timeCmp e x.2 = 0 at h0
      unfold timeCmp at h0
      split at h0
      · omega
      · split at h0 <;> omega
  subst hb
  obtain ⟨s', b2, f1, f2, f3, f4⟩ := SL.insert_spec (c := idxCmp) ptrOrd.toOrd hs e (coins 1) hid2
  have hb2 : b2 = false := by
    cases b2 with
    | false => rfl
    | true =>
      obtain ⟨-, r2⟩ := f3 rfl
      exfalso
      obtain ⟨x, hx, hxe⟩ := List.mem_map.1 hn
      rw [← h.elems] at hx
      obtain ⟨n, hn', rfl⟩ := List.mem_map.1 hx
      exact r2 ptrOrd n (hp.symm.subset hn') (ptrCmp_zero.mpr hxe.symm)
  subst hb2
  unfold putIn MSL.insert
  rw [h.prim, e1]
  simp only
  rw [hi]
  simp only [insertIdx]
  rw [f1]
  rfl

theorem LInv.removeNode {l : MSL Ev Ev} {xs : List Ev} (h : LInv l xs) {n : Node Ev}
    (hn : n ∈ l.main.elems) :
    ∃ a b, xs = a ++ n.2 :: b ∧ LInv (l.removeNode n.1) (a ++ b) := by
  obtain ⟨s, hi, hs, hp⟩ := h.idx
  obtain ⟨a, b, e⟩ := List.append_of_mem hn
  have hrow : RowOk leTime l.main.elems := bottom_rowOk h.main.rows
  have hfil : (l.main.elems.filter fun x => x.1 ≠ n.1) = a ++ b := by
    have hnd := hrow.2
    rw [e, List.map_append, List.map_cons, List.nodup_append] at hnd
    obtain ⟨_, h2, h3⟩ := hnd
    rw [List.nodup_cons] at h2
    rw [e, List.filter_append, List.filter_cons, if_neg (by simp)]
    congr 1
    · exact List.filter_eq_self.2 fun y hy => by
        have := h3 y.1 (List.mem_map_of_mem hy) n.1 (by simp)
        simpa using this
    · exact List.filter_eq_self.2 fun y hy => by
        have : y.1 ≠ n.1 := fun e => h2.1 (by rw [← e]; exact List.mem_map_of_mem hy)
        simpa using this
  have hel : (l.main.remove n.1).elems = a ++ b := by rw [SL.remove_elems]; exact hfil
  have hxs : xs = a.map (·.2) ++ n.2 :: b.map (·.2) := by rw [← h.elems, e]; simp
  refine ⟨a.map (·.2), b.map (·.2), hxs, ?_⟩
  refine ⟨h.prim, SL.remove_ok h.main (List.mem_map_of_mem hn), ?_, ?_, ?_, ?_⟩
  · show (l.main.remove n.1).elems.map _ = _
    rw [hel]; simp
  · intro x hx
    have hx' : x ∈ (l.main.remove n.1).elems := hx
    rw [SL.remove_elems] at hx'
    exact h.ids x (List.mem_filter.1 hx').1
  · refine ⟨s.remove n.1, by simp [MSL.removeNode, hi],
      SL.remove_ok hs (List.mem_map_of_mem (hp.symm.subset hn)), ?_⟩
    show (s.remove n.1).elems.Perm (l.main.remove n.1).elems
    rw [SL.remove_elems, SL.remove_elems]
    exact hp.filter _
  · have := h.nodup
    rw [hxs] at this
    refine this.sublist ?_
    apply List.Sublist.map
    exact (List.Sublist.refl _).append (List.sublist_cons_self _ _)

/-- Popping the head. -/
theorem LInv.pop_cons {l : MSL Ev Ev} {x : Ev} {xs : List Ev} (h : LInv l (x :: xs)) :
    ∃ l', l.pop = (l', some x) ∧ LInv l' xs := by
  have he := h.elems
  cases hm : l.main.elems with
  | nil => rw [hm] at he; simp at he
  | cons n rest =>
    rw [hm, List.map_cons] at he
    injection he with e1 e2
    refine ⟨l.removeNode n.1, by rw [MSL.pop, hm]; simp [e1], ?_⟩
    obtain ⟨a, b, hab, hl⟩ := h.removeNode (n := n) (by rw [hm]; simp)
    cases a with
    | nil =>
      rw [List.nil_append] at hab
      injection hab with _ hab
      rw [hab]; exact hl
    | cons y a =>
      exfalso
      have hnd := h.nodup
      rw [hab] at hnd
      rw [List.cons_append] at hab
      injection hab with hy _
      rw [← hy, ← e1] at hnd
      simp at hnd

theorem LInv.pop_nil {l : MSL Ev Ev} (h : LInv l []) : l.pop = (l, none) := by
  have he := h.elems
  rw [List.map_eq_nil_iff] at he
  rw [MSL.pop, he]

/-- Taking out by address. -/
theorem LInv.takeOut {l : MSL Ev Ev} {xs : List Ev} (h : LInv l xs) (p : Nat) :
    (p ∉ xs.map Ev.ptr ∧ takeOut l p = .ok (l, [])) ∨
    ∃ a x b l', x.ptr = p ∧ xs = a ++ x :: b ∧ takeOut l p = .ok (l', [x]) ∧ LInv l' (a ++ b) := by
  obtain ⟨s, hi, hs, hp⟩ := h.idx
  have hf := SL.find_spec (c := idxCmp) (le := lePtr) (fun a => le_refl _)
    (k := ⟨p, ⟨0, 0⟩, 0⟩) (ptrKey _) hs
  have hpick : l.pick (some 0) = some (idxCmp, s) := by simp [MSL.pick, hi]
  cases hc : s.find idxCmp ⟨p, ⟨0, 0⟩, 0⟩ with
  | none =>
    rw [hc] at hf
    simp only at hf
    refine Or.inl ⟨?_, ?_⟩
    · intro hm
      obtain ⟨x, hx, hxp⟩ := List.mem_map.1 hm
      rw [← h.elems] at hx
      obtain ⟨n, hn, rfl⟩ := List.mem_map.1 hx
      exact hf n (hp.symm.subset hn) (ptrCmp_zero.mpr hxp.symm)
    · unfold Timers.takeOut MSL.remove
      rw [hpick]
      simp only
      rw [hc]; rfl
  | some n =>
    rw [hc] at hf
    simp only at hf
    obtain ⟨h1, h2⟩ := hf
    obtain ⟨a, b, hab, hl⟩ := h.removeNode (hp.subset h1)
    refine Or.inr ⟨a, n.2, b, l.removeNode n.1, (ptrCmp_zero.mp h2).symm, hab, ?_, hl⟩
    unfold Timers.takeOut MSL.remove
    rw [hpick]
    simp only
    rw [hc]; rfl

/-- Sweeping moves everything over. -/
theorem sweepLoop_spec (coins : Nat → Nat → Nat) : ∀ n {st t : MSL Ev Ev} {ys xs : List Ev},
    LInv st ys → LInv t xs → ys.length = n → (∀ p ∈ ys.map Ev.ptr, p ∉ xs.map Ev.ptr) →
    ∃ st' t' xs', sweepLoop coins n st t = .ok (st', t') ∧ LInv st' [] ∧ LInv t' xs' ∧
      xs'.Perm (ys ++ xs)
  | 0, st, t, ys, xs, hs, ht, hl, _ => by
    have : ys = [] := List.length_eq_zero_iff.mp hl
    subst this
    exact ⟨st, t, xs, rfl, hs, ht, List.Perm.refl _⟩
  | n+1, st, t, ys, xs, hs, ht, hl, hd => by
    cases ys with
    | nil => simp at hl
    | cons y ys =>
      obtain ⟨st1, e1, h1⟩ := hs.pop_cons
      obtain ⟨t1, xs1, e2, h2, p2⟩ := ht.put y (coins n) (hd y.ptr (by simp))
      have hnd := hs.nodup
      rw [List.map_cons, List.nodup_cons] at hnd
      obtain ⟨st', t', xs', e3, h3, h4, p3⟩ := sweepLoop_spec coins n h1 h2 (by simpa using hl) (by
        intro p hp hm
        have := (p2.map Ev.ptr).subset hm
        rw [List.map_cons, List.mem_cons] at this
        rcases this with rfl | h'
        · exact hnd.1 hp
        · exact hd p (by simp [List.mem_map] at hp ⊢; exact Or.inr hp) h')
      refine ⟨st', t', xs', ?_, h3, h4, ?_⟩
      · rw [sweepLoop, e1]
        simp only
        rw [e2, Out.ok_bind, e3]
      · refine p3.trans ((p2.append_left ys).trans ?_)
        rw [List.cons_append]
        exact List.perm_middle

end Mtev.Timers
