import Verif.Mem
import Verif.Conc

/-!
Coroutines waiting for work done elsewhere: src/eventer/eventer_aco_opset.c, lines 150-350.

Modelled: gates (how many jobs are still out), coroutines that wait, and the completion of jobs, for one event loop thread. A job is
completed on the thread it was queued from (src/eventer/eventer_jobq.c, `Jobq`), between two events, so never while a coroutine
runs. That every job is completed once is C30 and is taken as given here: completions are steps that take one job away. Not
modelled: what the jobs do, memory sections, and the switching of stacks.
-/
namespace Mtev.AcoGate

/-- struct _event_aco_gate, src/eventer/eventer_aco_opset.c:147-149. `owner`, `waited` and `once` are bookkeeping the code does not
have: who made it, whether it was waited for, and whether it was made for one job only. -/
structure Gate (n : Nat) where
  ref : Nat
  freed : Bool
  owner : Fin n
  waited : Bool
  once : Bool

/-- Where a coroutine is: running (or not begun), in a wait for a gate, or waiting for something of its own (a socket, a timer). -/
inductive At where
  | run
  | wait (g : Nat)
  | other
  deriving DecidableEq

/-- A thread with its coroutines. `cur` is the one that runs now, `jobs` the jobs that are out: the gate and the coroutine they know. -/
structure St (n : Nat) where
  cur : Option (Fin n)
  loc : Fin n → At
  next : Nat
  gate : Nat → Gate n
  jobs : List (Nat × Fin n)

variable {n : Nat}

/-- One gate changed. -/
def put (f : Nat → Gate n) (g : Nat) (v : Gate n) : Nat → Gate n := fun x => if x = g then v else f x

/-- calloc in eventer_aco_gate, src/eventer/eventer_aco_opset.c:186-191. -/
def mkGate (c : Fin n) (once : Bool) (st : St n) : St n :=
  { st with next := st.next + 1, gate := put st.gate st.next ⟨1, false, c, once, once⟩ }

/-- A job is queued: ck_pr_inc_32 and eventer_add_asynch_subqueue, src/eventer/eventer_aco_opset.c:202-217, 252-262, 324-333, and
302-314 if there is room. -/
def queue (g : Nat) (c : Fin n) (st : St n) : Out (St n) :=
  let G := st.gate g
  if G.freed then .ub
  else .ok { st with gate := put st.gate g { G with ref := G.ref + 1 }, jobs := (g, c) :: st.jobs }

/-- eventer_aco_try_run_asynch_queue_subqueue_gated without room, src/eventer/eventer_aco_opset.c:302-316. -/
def tryFail (g : Nat) (st : St n) : Out (St n) :=
  let G := st.gate g
  if G.freed then .ub else .ok { st with gate := put st.gate g { G with ref := G.ref + 1, freed := true } }

/-- The forms that wait at once, src/eventer/eventer_aco_opset.c:219-233, 264-275, 318-331, 342-351. -/
def direct (c : Fin n) (st : St n) : St n :=
  { mkGate c true st with jobs := (st.next, c) :: st.jobs, loc := upd st.loc c (.wait st.next), cur := none }

/-- eventer_aco_gate_wait, src/eventer/eventer_aco_opset.c:193-199. -/
def wait (g : Nat) (c : Fin n) (st : St n) : Out (St n) :=
  let G := st.gate g
  if G.freed ∨ G.ref = 0 then .ub
  else if G.ref - 1 = 0 then .ok { st with gate := put st.gate g { G with ref := 0, waited := true, freed := true } }
  else .ok { st with gate := put st.gate g { G with ref := G.ref - 1, waited := true }, loc := upd st.loc c (.wait g), cur := none }

/-- eventer_aco_resume, src/eventer/eventer_aco_opset.c:64-74: the coroutine goes on after its yield. After that of
eventer_aco_gate_wait the gate is freed (line 198). Resuming a coroutine that is not suspended is an error. -/
def resume (c : Fin n) (st : St n) : Out (St n) :=
  match st.loc c with
  | .run => .ub
  | .other => .ok { st with loc := upd st.loc c .run, cur := some c }
  | .wait g =>
    let G := st.gate g
    if G.once then .ok { st with loc := upd st.loc c .run, cur := some c }
    else if G.freed then .ub
    else .ok { st with loc := upd st.loc c .run, cur := some c, gate := put st.gate g { G with freed := true } }

/-- The completion of a job: eventer_aco_mode_asynch_wrapper, eventer_aco_simple_asynch_wrapper and eventer_aco_asynch_wrapper,
src/eventer/eventer_aco_opset.c:170-177, 243-249, 290-296. -/
def complete (j : Nat × Fin n) (st : St n) : Out (St n) :=
  let G := st.gate j.1
  if G.freed ∨ G.ref = 0 then .ub
  else
    let st := { st with gate := put st.gate j.1 { G with ref := G.ref - 1 }, jobs := st.jobs.erase j }
    if G.ref - 1 = 0 then resume j.2 st else .ok st

/-- What can happen: calls of the running coroutine `c`, and what the event loop does when none runs. -/
inductive Op (n : Nat) where
  | begin_ (c : Fin n)
  | gate (c : Fin n)
  | queue (c : Fin n) (g : Nat)
  | tryFail (c : Fin n) (g : Nat)
  | direct (c : Fin n)
  | wait (c : Fin n) (g : Nat)
  | sleep (c : Fin n)
  | leave (c : Fin n)
  | wake (c : Fin n)
  | complete (j : Nat × Fin n)

/-- Can it happen now? -/
def enabled (st : St n) : Op n → Prop
  | .begin_ c => st.cur = none ∧ st.loc c = .run
  | .gate c | .queue c _ | .tryFail c _ | .direct c | .wait c _ | .sleep c | .leave c => st.cur = some c
  | .wake c => st.cur = none ∧ st.loc c = .other
  | .complete j => st.cur = none ∧ j ∈ st.jobs

/-- It happens. -/
def step (st : St n) : Op n → Out (St n)
  | .begin_ c => .ok { st with cur := some c }
  | .gate c => .ok (mkGate c false st)
  | .queue c g => queue g c st
  | .tryFail _ g => tryFail g st
  | .direct c => .ok (direct c st)
  | .wait c g => wait g c st
  | .sleep c => .ok { st with loc := upd st.loc c .other, cur := none }
  | .leave _ => .ok { st with cur := none }
  | .wake c => resume c st
  | .complete j => complete j st

/-- Nothing runs, no gates. -/
def St.init [NeZero n] : St n := ⟨none, fun _ => .run, 0, fun _ => ⟨0, true, 0, true, false⟩, []⟩

end Mtev.AcoGate
