import Verif.Mem
import Mathlib.Data.List.Perm.Basic

/-!
Model of the job queue, /repo/src/eventer/eventer_jobq.c: enqueueing (467-545), dequeueing (547-614),
subqueues (157-214), the counting of waiting consumers (112-156) and the consumer loop (824-1038) as far as
it concerns the queue.

Threads are anonymous: the state holds, for every place in the code a thread can be between two atomic
actions, the list of jobs (or the number of threads) at that place.  A critical section of `jobq->lock` or
`jobq->consumer_lock` is one action, so is every atomic operation.  An execution is any sequence of actions.

Not modelled: starting and ending of consumer threads, statistics, timeouts and cancellation of running
jobs, shutdown, 32-bit overflow of the counters.
-/

namespace Mtev.Jobq

/-- A job: its identity, `subqueue`, and whether it has an event (`fd_event`; the empty jobs of
`jobq_fire_blanks` have none). -/
structure Job where
  id : Nat
  sq : Nat
  real : Bool
deriving DecidableEq, Repr

/-- `eventer_jobsq_t`: the chain from `headq`, the job `tailq` points to, `inflight`. -/
structure Sq where
  id : Nat
  jobs : List Job
  tail : Option Nat
  inflight : Nat
deriving DecidableEq, Repr

/-- `tailq->next = job` (lines 487-488): what follows `tailq` is `job`; if `tailq` is not in the chain, the
chain does not change. -/
def linkAfter (t : Nat) (j : Job) : List Job → List Job
  | [] => []
  | x :: r => if x.id = t then [x, j] else x :: linkAfter t j r

/-- Lines 481-494. -/
def pushSq (lifo : Bool) (j : Job) (s : Sq) : Sq :=
  if lifo then { s with jobs := j :: s.jobs }
  else
    match s.tail with
    | some t => { s with jobs := linkAfter t j s.jobs, tail := some j.id }
    | none => { s with jobs := [j], tail := some j.id }

/-- `eventer_jobq_get_sq_nolock` and the push, lines 158-184 and 479-495.  The ring is listed from
`current_squeue`; a new subqueue is linked behind the fixed queue, which has the number 0. -/
def pushRing (lifo : Bool) (j : Job) (ring : List Sq) : List Sq :=
  if ring.any (fun s => s.id = j.sq) then ring.map (fun s => if s.id = j.sq then pushSq lifo j s else s)
  else ring.flatMap (fun s => if s.id = 0 then [s, pushSq lifo j ⟨j.sq, [], none, 0⟩] else [s])

/-- One turn of the loop of lines 571-592 with the limit `lim`: the subqueues before, the chosen one, and
those behind. -/
def pick (lim : Nat) : List Sq → Option (List Sq × Sq × List Sq)
  | [] => none
  | s :: r => if s.jobs ≠ [] ∧ s.inflight < lim then some ([], s, r) else (pick lim r).map (fun p => (s :: p.1, p.2))

/-- Lines 574-583: the limits of the turns.  `subqueue_count` is the length of the ring. -/
def limits (conc n : Nat) : List Nat :=
  if conc / n = 0 then [1, 2 ^ 32 - 1] else [conc / n - 1, conc / n, 2 ^ 32 - 1]

/-- The turns. -/
def pickAny (ring : List Sq) : List Nat → Option (List Sq × Sq × List Sq)
  | [] => none
  | l :: ls =>
    match pick l ring with
    | some p => some p
    | none => pickAny ring ls

/-- `__eventer_jobq_dequeue` under the lock, lines 561-594, with the number of consumer threads `conc` (read
anew in every turn by the code). -/
def popRing (conc : Nat) (ring : List Sq) : Option (Job × List Sq) :=
  match pickAny ring (limits conc ring.length) with
  | none => none
  | some (before, s, behind) =>
    match s.jobs with
    | [] => none
    | j :: rest =>
      some (j, behind ++ before ++ [{ s with jobs := rest, tail := if rest = [] then none else s.tail, inflight := s.inflight + 1 }])

/-- `mark_squeue_job_completed`, lines 186-214.  If the subqueue were gone, the code would use freed memory. -/
def finishRing (q : Nat) (ring : List Sq) : Out (List Sq) :=
  if ring.any (fun s => s.id = q) then
    .ok (ring.flatMap (fun s =>
      if s.id = q then
        (if q ≠ 0 ∧ s.inflight = 1 ∧ s.jobs = [] then [] else [{ s with inflight := s.inflight - 1 }])
      else [s]))
  else .ub

/-- What has happened to the queue. -/
inductive Ev
  | push (j : Job) (lifo : Bool)
  | pop (j : Job)
deriving DecidableEq, Repr

structure S where
  ring : List Sq
  lifo : Bool
  permits : Nat                      -- consumer_jobs
  notifies : Nat                     -- threads between the push and consumer_notify
  holders : Nat                      -- consumers between consumer_wait and the lock
  backlog : Nat
  max : Nat                          -- max_backlog
  next : Nat                         -- ghost: number of jobs created
  trying : List (Job × Option Nat)   -- threads in try_enqueue, with the value of backlog read
  pend : List Job                    -- accepted, not yet pushed
  popped : List Job                  -- dequeued, before line 598
  running : List Job
  done : List Job                    -- ghost: finished
  accepted : List Job                -- ghost
  refused : List Job                 -- ghost
  log : List Ev                      -- ghost
  bad : Bool                         -- ghost: freed memory was used
deriving DecidableEq, Repr

/-- The actions. -/
inductive Op
  | tryEnqueue (q : Nat)              -- a call of eventer_jobq_try_enqueue
  | enqueue (q : Nat) (real : Bool)   -- a call of eventer_jobq_enqueue
  | load (i : Nat)                    -- lines 517-522
  | cas (i : Nat)                     -- line 523
  | push (i : Nat)
  | notify
  | extra                             -- eventer_jobq_post notifies without a job
  | wait
  | dequeue (conc : Nat)
  | account (i : Nat)                 -- line 598
  | finish (i : Nat)
  | setLifo (b : Bool)
deriving DecidableEq, Repr

/-- One action; `none` when it is not possible in the state. -/
def step (op : Op) (s : S) : Option S :=
  match op with
  | .tryEnqueue q => some { s with trying := s.trying ++ [(⟨s.next, q, true⟩, none)], next := s.next + 1 }
  | .enqueue q real =>
    some { s with pend := s.pend ++ [⟨s.next, q, real⟩], accepted := s.accepted ++ [⟨s.next, q, real⟩], next := s.next + 1, backlog := if real then s.backlog + 1 else s.backlog }
  | .load i =>
    match s.trying[i]? with
    | some (j, none) =>
      if s.max = 0 then
        -- line 525
        some { s with trying := s.trying.eraseIdx i, pend := s.pend ++ [j], accepted := s.accepted ++ [j], backlog := s.backlog + 1 }
      else if s.backlog ≥ s.max then some { s with trying := s.trying.eraseIdx i, refused := s.refused ++ [j] }
      else some { s with trying := s.trying.eraseIdx i ++ [(j, some s.backlog)] }
    | _ => none
  | .cas i =>
    match s.trying[i]? with
    | some (j, some bl) =>
      if s.backlog = bl then
        some { s with trying := s.trying.eraseIdx i, pend := s.pend ++ [j], accepted := s.accepted ++ [j], backlog := bl + 1 }
      else some { s with trying := s.trying.eraseIdx i ++ [(j, none)] }
    | _ => none
  | .push i =>
    match s.pend[i]? with
    | some j => some { s with pend := s.pend.eraseIdx i, ring := pushRing s.lifo j s.ring, notifies := s.notifies + 1, log := s.log ++ [.push j s.lifo] }
    | none => none
  | .notify => if s.notifies = 0 then none else some { s with notifies := s.notifies - 1, permits := s.permits + 1 }
  | .extra => some { s with permits := s.permits + 1 }
  | .wait => if s.permits = 0 then none else some { s with permits := s.permits - 1, holders := s.holders + 1 }
  | .dequeue conc =>
    if s.holders = 0 then none
    else
      match popRing conc s.ring with
      | none => some { s with holders := s.holders - 1 }
      | some (j, ring) => some { s with holders := s.holders - 1, ring := ring, popped := s.popped ++ [j], log := s.log ++ [.pop j] }
  | .account i =>
    match s.popped[i]? with
    | some j => some { s with popped := s.popped.eraseIdx i, running := s.running ++ [j], backlog := if j.real then s.backlog - 1 else s.backlog }
    | none => none
  | .finish i =>
    match s.running[i]? with
    | some j =>
      match finishRing j.sq s.ring with
      | .ok ring => some { s with running := s.running.eraseIdx i, done := s.done ++ [j], ring := ring }
      | _ => some { s with running := s.running.eraseIdx i, done := s.done ++ [j], bad := true }
    | none => none
  | .setLifo b => some { s with lifo := b }

/-- `eventer_jobq_create_internal`, lines 312-319. -/
def init (lifo : Bool) (max : Nat) : S :=
  ⟨[⟨0, [], none, 0⟩], lifo, 0, 0, 0, 0, max, 0, [], [], [], [], [], [], [], [], false⟩

/-- A sequence of actions. -/
def run : List Op → S → Option S
  | [], s => some s
  | op :: ops, s =>
    match step op s with
    | none => none
    | some s => run ops s

end Mtev.Jobq
