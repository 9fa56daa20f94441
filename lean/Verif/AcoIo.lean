import Verif.Mem

/-!
Calls of coroutines that may block: accept, read and write with timeouts, and sleeping. src/eventer/eventer_aco_opset.c, lines
40-110 and 352-435, src/eventer/eventer_impl.c, lines 1565-1600 and 1661-1672.

Modelled: one coroutine on the thread of its event loop, with any number of descriptors; the context it carries, its timer, and which
descriptors are registered with the loop and for what. Calls from other threads go to the descriptor directly and are left out, as
are memory sections and the switching of stacks. Errors of `epoll_ctl` are those of registering twice.
-/
namespace Mtev.AcoIo

/-- The three calls made by ACO_TIMEOUT_CALL, src/eventer/eventer_aco_opset.c:425-433. -/
inductive Kind where
  | accept | read | write
  deriving DecidableEq

/-- One attempt of the call underneath: a result (an error other than the two counts as one), or `-1` with EAGAIN or EINPROGRESS and
what to wait for, src/eventer/eventer_aco_opset.c:396-398. -/
inductive Res where
  | done (v : Int)
  | block (mask : Nat)
  deriving DecidableEq

/-- What the call of the coroutine returns: a result, or `-1` with ETIMEDOUT. -/
inductive Ret where
  | val (v : Int)
  | timedOut
  deriving DecidableEq

/-- Where the coroutine is: running, in a call for a descriptor, in eventer_aco_sleep, waiting for a job (C135), or over. -/
inductive At where
  | run
  | io (e : Nat)
  | sleep
  | job
  | over
  deriving DecidableEq

/-- struct aco_cb_ctx, src/eventer/eventer_impl_private.h:85-94 (`priv`: private_errno is ETIMEDOUT; `timer`: timeout_e, as its
duration; `cmask`: mask), the timeouts of aco_opset_info_t, src/eventer/eventer_aco_opset.c:41-55, and the table of the event loop
(`reg`). `trig` is the descriptor whose callback is running. -/
structure St where
  pos : At
  priv : Bool
  timeout : Option Nat
  timer : Option Nat
  cmask : Nat
  reg : Nat → Option Nat
  dflt : Nat → Kind → Option Nat
  trig : Option Nat

/-- One descriptor changed. -/
def put (f : Nat → Option Nat) (e : Nat) (v : Option Nat) : Nat → Option Nat := fun x => if x = e then v else f x

/-- eventer_add, src/eventer/eventer_epoll_impl.c:135-182: the mask must not be 0, and registering twice is fatal. -/
def add (e m : Nat) (st : St) : Out St :=
  if m = 0 then .abort
  else match st.reg e with
    | some _ => .abort
    | none => .ok { st with reg := put st.reg e (some m) }

/-- The callback that resumed the coroutine returns `m` (src/eventer/eventer_aco_opset.c:101-102): the loop registers its descriptor
for that, unless it is no longer there; returning 0 while it is there is fatal (src/eventer/eventer_epoll_impl.c:385-462). -/
def unwind (m : Nat) (st : St) : Out St :=
  match st.trig with
  | none => .ok st
  | some t =>
    match st.reg t with
    | none => .ok { st with trig := none }
    | some _ => if m = 0 then .abort else .ok { st with trig := none, reg := put st.reg t (some m) }

/-- The coroutine yields. -/
def suspend (p : At) (st : St) : Out (St × Option Ret) :=
  (unwind st.cmask st).bind fun st => .ok ({ st with pos := p }, none)

/-- After the loop, if nothing is registered: src/eventer/eventer_aco_opset.c:413-421. -/
def finish (r : Ret) (st : St) : St × Option Ret := ({ st with pos := .run, timer := none }, some r)

/-- One turn of the loop, src/eventer/eventer_aco_opset.c:394-402, 411: the attempt gives `r`. -/
def attempt (e : Nat) (r : Res) (st : St) : Out (St × Option Ret) :=
  match r with
  | .done v => .ok (finish (.val v) st)
  | .block m => (add e m { st with cmask := m }).bind (suspend (.io e))

/-- The beginning of the call, with `to` passed as timeout: src/eventer/eventer_impl.c:1580-1586,
src/eventer/eventer_aco_opset.c:384-392. -/
def call (e : Nat) (k : Kind) (to_ : Option Nat) (r : Res) (st : St) : Out (St × Option Ret) :=
  let t := if to_.isSome then to_ else st.timeout
  if st.timer.isSome then .abort
  else
    let t := if t.isNone then st.dflt e k else t
    match t with
    | none => attempt e r { st with timeout := none }
    | some d => attempt e r { st with timer := some d, timeout := none }

/-- Resumed in a call for `e`: src/eventer/eventer_aco_opset.c:403-421, 395. -/
def resumed (e : Nat) (r : Res) (st : St) : Out (St × Option Ret) :=
  if st.priv then
    match st.reg e with
    | none => .abort
    | some _ => .ok (finish .timedOut { st with priv := false, reg := put st.reg e none })
  else attempt e r { st with reg := put st.reg e none }

/-- eventer_aco_callback_wrapper, src/eventer/eventer_aco_opset.c:90-103: the loop found `e` ready. -/
def ready (e : Nat) (r : Res) (st : St) : Out (St × Option Ret) :=
  match st.pos with
  | .io e' => resumed e' r { st with pos := .run, trig := some e }
  | _ => .ub

/-- priv_aco_timeout, src/eventer/eventer_aco_opset.c:349-360. -/
def fire (r : Res) (st : St) : Out (St × Option Ret) :=
  let st := { st with timer := none, priv := true }
  match st.pos with
  | .io e => resumed e r { st with pos := .run }
  | .sleep => .ok ({ st with pos := .run }, none)
  | _ => .ub

/-- eventer_aco_sleep, src/eventer/eventer_aco_opset.c:362-373. -/
def sleep (d : Nat) (st : St) : Out (St × Option Ret) :=
  if st.timer.isSome then .abort else suspend .sleep { st with timer := some d }

/-- What can happen: the calls of the coroutine, and what the loop does. -/
inductive Op where
  | call (e : Nat) (k : Kind) (to_ : Option Nat) (r : Res)
  | sleep (d : Nat)
  | job
  | setDefault (e : Nat) (k : Kind) (t : Option Nat)
  | over
  | ready (e : Nat) (r : Res)
  | fire (r : Res)
  | jobDone

/-- It happens. TIMEOUT_SETTER: src/eventer/eventer_aco_opset.c:76-88; the end of a coroutine: src/eventer/eventer_impl.c:1661-1672. -/
def step (st : St) : Op → Out (St × Option Ret)
  | .call e k t r => call e k t r st
  | .sleep d => sleep d st
  | .job => suspend .job st
  | .setDefault e k t => .ok ({ st with dflt := fun x y => if x = e ∧ y = k then t else st.dflt x y }, none)
  | .over => (unwind 0 st).bind fun st => .ok ({ st with pos := .over }, none)
  | .ready e r => ready e r st
  | .fire r => fire r st
  | .jobDone => .ok ({ st with pos := .run }, none)

/-- Can it happen? Calls are made by the coroutine when it runs; the loop reports descriptors that are registered and timers that
are set, when the coroutine does not run. -/
def enabled (st : St) : Op → Prop
  | .call .. | .sleep _ | .job | .setDefault .. | .over => st.pos = .run
  | .ready e _ => st.pos ≠ .run ∧ (st.reg e).isSome
  | .fire _ => st.pos ≠ .run ∧ st.timer.isSome
  | .jobDone => st.pos = .job

/-- eventer_aco_start_stack: calloc, src/eventer/eventer_impl.c:1639. -/
def St.init : St := ⟨.run, false, none, none, 0, fun _ => none, fun _ _ => none, none⟩

end Mtev.AcoIo
