import Verif.Conc

/-!
Model of the events on file descriptors, /repo/src/eventer/eventer_epoll_impl.c with the lock of
/repo/src/eventer/eventer_impl_private.h:150-172 and the triggers across threads of
/repo/src/eventer/eventer_impl.c:1316-1352.

Any number of threads, descriptors and events; every access to memory that other threads use is one step.
A thread has a stack of what it is doing: callbacks, and on top of them the call in progress.

Simplifications: events are numbers and are not freed; descriptors stay open and `epoll_ctl` fails only because
the descriptor is in the set already or is not in it; every thread has an epoll set (a thread outside the
loops asks for one and the assertion of eventer_impl.c:434 fails); masks hold the three bits of descriptors only;
timers, recurrent events and jobs are elsewhere (`Timers`, `Jobq`); latencies and messages are left out.  While an event
moves to another thread, `thr_owner` is set to the old thread for the duration of one `epoll_ctl` (397-407); this is not
visible to other threads here.
-/

namespace Mtev.EvFd

/-- `EVENTER_READ`, `EVENTER_WRITE`, `EVENTER_EXCEPTION`, eventer.h. -/
structure Mask where
  read : Bool
  write : Bool
  exc : Bool
deriving DecidableEq, Repr

/-- The mask 0. -/
def Mask.zero : Mask := ⟨false, false, false⟩

/-- The `EPOLL*` bits the code uses. -/
structure Ep where
  inp : Bool
  pri : Bool
  out : Bool
  err : Bool
  hup : Bool
deriving DecidableEq, Repr

/-- What a mask asks the kernel for, eventer_epoll_impl.c:164-166 (and 241-243, 349-351, 388-390). -/
def toEp (m : Mask) : Ep := ⟨m.read, m.read, m.write, m.exc, m.exc⟩

/-- The mask made of what the kernel reports, eventer_epoll_impl.c:523-525. -/
def ofEp (p : Ep) : Mask := ⟨p.inp || p.pri, p.out, p.err || p.hup⟩

/-- What a thread wants the lock of a descriptor for. -/
inductive Job (n : Nat)
  | add (e : Nat) (sp : Fin n) (ep : Ep)
  | rem (e : Nat) (sp : Fin n)
  | remFd (f : Nat)
  | reAdd (e : Nat) (m : Mask)
  | run (e : Nat) (m : Mask)
deriving DecidableEq, Repr

/-- Where a thread is.  `own` is `lockstate == EV_OWNED`. -/
inductive Frame (n : Nat)
  | tryL (j : Job n)                               -- eventer_impl_private.h:153
  | chk (j : Job n)                                -- 157
  | spin (j : Job n)                               -- 160
  | setEx (j : Job n)                              -- 154, 161
  | body (own : Bool) (j : Job n)                  -- the lock is taken, or was taken before
  | put (own : Bool) (e : Nat) (sp : Fin n) (ep : Ep)      -- eventer_epoll_impl.c:172
  | del (own : Bool) (f : Nat) (sp : Fin n)        -- 203, 272
  | readd (e : Nat) (m : Mask)                     -- 354
  | relA (f : Nat) (k : Option (Nat × Mask))       -- eventer_impl_private.h:168, then `k`
  | relB (f : Nat) (k : Option (Nat × Mask))       -- 169
  | t0 (e : Nat) (m : Mask)                        -- eventer_epoll_impl.c:306
  | t1 (e : Nat) (m : Mask)                        -- 317
  | t2 (e : Nat) (m : Mask)                        -- 360
  | cb (e : Nat) (moved : Bool)                    -- in the callback, 379; `moved` (ghost): it has set another owner
  | fin (e : Nat) (nm : Mask)                      -- 384
  | mvDel (e : Nat) (nm : Mask)                    -- 401
  | mvAdd (e : Nat) (nm : Mask)                    -- 410
  | modE (e : Nat) (nm : Mask)                     -- 420-428
  | setM (e : Nat) (nm : Mask)                     -- 440
  | upd (e : Nat) (sp : Fin n) (add : Bool) (ep : Ep)      -- 247-251
deriving DecidableEq, Repr

/-- The state: by descriptor the lock, the `executor` and the event of `master_fds`; by event the mask and
`thr_owner`; by thread the epoll set, the queue `cross`, the array filled by `epoll_wait`, and the stack.
`dead`: `mtevFatal` or an assertion ended the process.
`reg`, `out` (ghosts): how often an event was put into `master_fds`, and was returned by a call that removes. -/
structure St (n : Nat) where
  lock : Nat → Bool
  ex : Nat → Option (Fin n)
  slot : Nat → Option Nat
  mask : Nat → Mask
  owner : Nat → Fin n
  intr : Fin n → Nat → Option Ep
  queue : Fin n → List (Nat × Mask)
  batch : Fin n → List (Nat × Ep)
  stk : Fin n → List (Frame n)
  dead : Bool
  reg : Nat → Nat
  out : Nat → Nat

/-- Changing a function at one point. -/
def ch {α : Type} (g : Nat → α) (k : Nat) (v : α) : Nat → α := fun x => if x = k then v else g x

variable {n : Nat} (fdOf : Nat → Nat)

/-- The descriptor whose lock the job needs; `fdOf e` is `e->fd`. -/
def Job.fd : Job n → Nat
  | .add e _ _ => fdOf e
  | .rem e _ => fdOf e
  | .remFd f => f
  | .reAdd e _ => fdOf e
  | .run e _ => fdOf e

/-- `epoll_ctl` with `EPOLL_CTL_ADD`: fails if the descriptor is in the set. -/
def epAdd (s : St n) (sp : Fin n) (f : Nat) (ep : Ep) : Option (Fin n → Nat → Option Ep) :=
  match s.intr sp f with
  | some _ => none
  | none => some (Mtev.upd s.intr sp (ch (s.intr sp) f (some ep)))

/-- `epoll_ctl` with `EPOLL_CTL_MOD`: fails if the descriptor is not in the set. -/
def epMod (s : St n) (sp : Fin n) (f : Nat) (ep : Ep) : Option (Fin n → Nat → Option Ep) :=
  match s.intr sp f with
  | some _ => some (Mtev.upd s.intr sp (ch (s.intr sp) f (some ep)))
  | none => none

/-- `epoll_ctl` with `EPOLL_CTL_DEL`; the failure is returned. -/
def epDel (s : St n) (sp : Fin n) (f : Nat) : Option (Fin n → Nat → Option Ep) :=
  match s.intr sp f with
  | some _ => some (Mtev.upd s.intr sp (ch (s.intr sp) f none))
  | none => none

/-- `EPOLL_CTL_ADD` or `EPOLL_CTL_MOD`, and the other one if it fails, eventer_epoll_impl.c:247-253 and 420-428. -/
def epEither (s : St n) (add : Bool) (sp : Fin n) (f : Nat) (ep : Ep) : Option (Fin n → Nat → Option Ep) :=
  if add then (epAdd s sp f ep).or (epMod s sp f ep) else (epMod s sp f ep).or (epAdd s sp f ep)

/-- Thread `t` goes on with the stack `l`. -/
def nxt (s : St n) (t : Fin n) (l : List (Frame n)) : St n := { s with stk := Mtev.upd s.stk t l }

/-- `release_master_fd` if the lock was taken by this call, and the end of the call. -/
def fini (own : Bool) (f : Nat) (rest : List (Frame n)) : List (Frame n) :=
  if own then .relA f none :: rest else rest

/-- `eventer_cross_thread_trigger`, eventer_impl.c:1316-1332: the queue of the owner, last in first out. -/
def cross (s : St n) (e : Nat) (m : Mask) : St n :=
  { s with queue := Mtev.upd s.queue (s.owner e) ((e, m) :: s.queue (s.owner e)) }

/-- The calls with the lock taken; `own = false` when the thread had it before. -/
def bodyStep (s : St n) (t : Fin n) (own : Bool) (rest : List (Frame n)) : Job n → St n
  -- eventer_epoll_impl.c:169
  | .add e sp ep => nxt { s with slot := ch s.slot (fdOf e) (some e), reg := ch s.reg e (s.reg e + 1) } t (.put own e sp ep :: rest)
  -- 198-200
  | .rem e sp =>
    if s.slot (fdOf e) = some e then
      nxt { s with slot := ch s.slot (fdOf e) none, out := ch s.out e (s.out e + 1) } t (.del own (fdOf e) sp :: rest)
    else nxt s t (fini own (fdOf e) rest)
  -- 268-270: the epoll set of the event, or of this thread if the event has gone in the meantime
  | .remFd f =>
    match s.slot f with
    | some e => nxt { s with slot := ch s.slot f none, out := ch s.out e (s.out e + 1) } t (.del own f (s.owner e) :: rest)
    | none => nxt s t (.del own f t :: rest)
  -- 319-346
  | .reAdd e m =>
    if own then
      match s.slot (fdOf e) with
      | some _ => nxt s t (.relA (fdOf e) (some (e, m)) :: rest)
      | none => nxt { s with slot := ch s.slot (fdOf e) (some e), mask := ch s.mask e .zero, reg := ch s.reg e (s.reg e + 1) } t
          (.readd e m :: rest)
    else nxt (cross s e m) t rest
  -- 365-379
  | .run e _ => if own then nxt s t (.cb e false :: rest) else nxt s t rest

/-- Lines 384-463 of eventer_epoll_impl.c up to the first `epoll_ctl`. -/
def finStep (s : St n) (t : Fin n) (e : Nat) (nm : Mask) (rest : List (Frame n)) : St n :=
  if nm ≠ .zero then
    if s.slot (fdOf e) = none then nxt s t (.setM e nm :: rest)
    else if s.owner e ≠ t then nxt s t (.mvDel e nm :: rest)
    else nxt s t (.modE e nm :: rest)
  else if s.slot (fdOf e) = some e then
    match epDel s (s.owner e) (fdOf e) with
    | some _ => { s with dead := true }
    | none => nxt { s with slot := ch s.slot (fdOf e) none } t (.relA (fdOf e) none :: rest)
  else nxt s t (.relA (fdOf e) none :: rest)

/-- One step of a thread that is in a call. -/
def frameStep (s : St n) (t : Fin n) (rest : List (Frame n)) : Frame n → St n
  | .tryL j => if s.lock (j.fd fdOf) then nxt s t (.chk j :: rest)
    else nxt { s with lock := ch s.lock (j.fd fdOf) true } t (.setEx j :: rest)
  | .chk j => if s.ex (j.fd fdOf) = some t then nxt s t (.body false j :: rest) else nxt s t (.spin j :: rest)
  | .spin j => if s.lock (j.fd fdOf) then s
    else nxt { s with lock := ch s.lock (j.fd fdOf) true } t (.setEx j :: rest)
  | .setEx j => nxt { s with ex := ch s.ex (j.fd fdOf) (some t) } t (.body true j :: rest)
  | .body own j => bodyStep fdOf s t own rest j
  | .put own e sp ep =>
    match epAdd s sp (fdOf e) ep with
    | some i => nxt { s with intr := i } t (fini own (fdOf e) rest)
    | none => { s with dead := true }
  | .del own f sp => nxt { s with intr := (epDel s sp f).getD s.intr } t (fini own f rest)
  | .readd e m => nxt { s with intr := (epAdd s (s.owner e) (fdOf e) (toEp m)).getD s.intr } t (.relA (fdOf e) (some (e, m)) :: rest)
  | .relA f k => nxt { s with ex := ch s.ex f none } t (.relB f k :: rest)
  | .relB f k => nxt { s with lock := ch s.lock f false } t (match k with | some (e, m) => .t2 e m :: rest | none => rest)
  | .t0 e m => if s.owner e ≠ t then nxt (cross s e m) t rest else nxt s t (.t1 e m :: rest)
  | .t1 e m => if s.slot (fdOf e) = none then nxt s t (.tryL (.reAdd e m) :: rest) else nxt s t (.t2 e m :: rest)
  | .t2 e m => if s.slot (fdOf e) = some e then nxt s t (.tryL (.run e m) :: rest) else nxt s t rest
  | .cb _ _ => s
  | .fin e nm => finStep fdOf s t e nm rest
  | .mvDel e nm => nxt { s with intr := (epDel s t (fdOf e)).getD s.intr } t (.mvAdd e nm :: rest)
  | .mvAdd e nm => nxt { s with intr := (epAdd s (s.owner e) (fdOf e) (toEp nm)).getD s.intr } t (.setM e nm :: rest)
  | .modE e nm =>
    match epEither s (s.mask e = .zero) (s.owner e) (fdOf e) (toEp nm) with
    | some i => nxt { s with intr := i } t (.setM e nm :: rest)
    | none => { s with dead := true }
  | .setM e nm => nxt { s with mask := ch s.mask e nm } t (.relA (fdOf e) none :: rest)
  | .upd e sp add ep =>
    match epEither s add sp (fdOf e) ep with
    | some i => nxt { s with intr := i } t rest
    | none => { s with dead := true }

/-- What can happen in a thread. -/
inductive Act (n : Nat)
  | go                              -- the call in progress goes on
  | add (e : Nat) (m : Mask)        -- `eventer_add` of an event made with mask `m`
  | rem (e : Nat)                   -- `eventer_remove`
  | remFd (f : Nat)                 -- `eventer_remove_fd`
  | trig (e : Nat) (m : Mask)       -- `eventer_trigger`
  | update (e : Nat) (m : Mask)     -- `eventer_update`
  | setOwner (e : Nat) (u : Fin n)  -- `eventer_set_owner`
  | ret (nm : Mask)                 -- the callback returns
  | pop                             -- the loop takes a queued trigger, eventer_impl.c:1337-1345
  | wait (b : List (Nat × Ep))      -- `epoll_wait`, eventer_epoll_impl.c:505-508
  | fire                            -- the next entry of the array, 518-541
deriving DecidableEq, Repr

/-- The thread can make a call: it is in a callback or in code the model does not look into. -/
def free : List (Frame n) → Bool
  | [] => true
  | .cb _ _ :: _ => true
  | _ => false

/-- What the kernel may report: something asked for, or an error. -/
def reports (i : Option Ep) (p : Ep) : Bool :=
  match i with
  | some q => (!p.inp || q.inp) && (!p.pri || q.pri) && (!p.out || q.out)
  | none => false

/-- An action in thread `t`; nothing happens if it is not possible. -/
def act (s : St n) (t : Fin n) (a : Act n) : St n :=
  if s.dead then s else
  match a with
  | .go => match s.stk t with
    | fr :: rest => frameStep fdOf s t rest fr
    | [] => s
  -- eventer_epoll_impl.c:140, 159-166
  | .add e m => if free (s.stk t) then
      if m = .zero then { s with dead := true }
      else nxt { s with mask := ch s.mask e m } t (.tryL (.add e (s.owner e) (toEp m)) :: s.stk t)
    else s
  -- 191-197, 218-221
  | .rem e => if free (s.stk t) then
      if s.mask e = .zero then { s with dead := true } else nxt s t (.tryL (.rem e (s.owner e)) :: s.stk t)
    else s
  -- 262
  | .remFd f => if free (s.stk t) ∧ s.slot f ≠ none then nxt s t (.tryL (.remFd f) :: s.stk t) else s
  | .trig e m => if free (s.stk t) then nxt s t (.t0 e m :: s.stk t) else s
  -- 233-243: nothing more for the mask 0
  | .update e m => if free (s.stk t) then
      if m = .zero then { s with mask := ch s.mask e m }
      else nxt { s with mask := ch s.mask e m } t (.upd e (s.owner e) (s.mask e = .zero) (toEp m) :: s.stk t)
    else s
  | .setOwner e u => if free (s.stk t) then
      let s := { s with owner := ch s.owner e u }
      match s.stk t with
      | .cb e' mv :: rest => if e' = e then nxt s t (.cb e true :: rest) else nxt s t (.cb e' mv :: rest)
      | _ => s
    else s
  | .ret nm => match s.stk t with
    | .cb e _ :: rest => nxt s t (.fin e nm :: rest)
    | _ => s
  | .pop => match s.stk t, s.queue t with
    | [], (e, m) :: q => nxt { s with queue := Mtev.upd s.queue t q } t [.t0 e m]
    | _, _ => s
  | .wait b => if s.stk t = [] ∧ s.batch t = [] ∧ (b.all fun p => reports (s.intr t p.1) p.2) = true then
      { s with batch := Mtev.upd s.batch t b } else s
  | .fire => match s.stk t, s.batch t with
    | [], (f, p) :: b =>
      let s := { s with batch := Mtev.upd s.batch t b }
      match s.slot f with
      | none => s
      | some e => if s.owner e ≠ t then { s with dead := true } else nxt s t [.t0 e (ofEp p)]
    | _, _ => s

/-- At the start nothing is registered; the owners are whatever the events were made with. -/
def init (mask : Nat → Mask) (owner : Nat → Fin n) : St n :=
  { lock := fun _ => false, ex := fun _ => none, slot := fun _ => none, mask := mask, owner := owner
    intr := fun _ _ => none, queue := fun _ => [], batch := fun _ => [], stk := fun _ => [], dead := false
    reg := fun _ => 0, out := fun _ => 0 }

/-- The states reached by actions that satisfy `D`. -/
inductive Run (D : St n → Fin n → Act n → Prop) : St n → Prop
  | init (mask owner) : Run D (init mask owner)
  | step {s} (t a) : Run D s → D s t a → Run D (act fdOf s t a)

end Mtev.EvFd
