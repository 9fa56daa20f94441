import Verif.Basic

/-!
Model of the dependencies between jobs, /repo/src/eventer/eventer_jobq.c: a job that another job spawns with
`eventer_add_asynch_dep` holds back the completion of the spawning job.

Jobs are numbered in the order of their creation.  Threads are anonymous; every atomic operation is one action,
so an execution is any interleaving.  The job queues themselves are modelled in Jobq.lean: here a job that waits
in one may be started at any time, and the completion queue is a list.

Not modelled: timeouts and the cancellation of running jobs (lines 680-742); `eventer_wakeup`; 32-bit overflow of
`dependents`.
-/

namespace Mtev.JobDeps

/-- A thread in `eventer_jobq_queue_completion`, lines 70-84: the job whose `dependents` it is about to decrement
(the innermost call), and the jobs of the calls that have seen zero, innermost first.  They are enqueued when the
calls inside have returned. -/
structure Thr where
  dec : Option Nat
  stack : List Nat
deriving DecidableEq, Repr

structure S where
  n : Nat                     -- ghost: number of jobs created
  dep : Nat → Nat             -- dependents
  par : Nat → Option Nat      -- waiting
  queued : List Nat           -- in a job queue, not yet started
  running : List Nat          -- between line 874 and line 1019
  finished : List Nat         -- ghost: jobs whose work and cleanup callbacks are done
  threads : List Thr
  back : List Nat             -- completions on the back queue, not yet delivered
  delivered : List Nat        -- ghost: completions delivered (line 769); the job is freed then (line 790)
  bad : Bool                  -- ghost: a freed job was touched, or `dependents` went below zero

inductive Op
  | create                    -- eventer_add_asynch
  | spawn (i : Nat)           -- eventer_add_asynch_dep called by the i-th running job
  | start (i : Nat)
  | finish (i : Nat)
  | thr (i : Nat)             -- a step of the i-th thread in eventer_jobq_queue_completion
  | deliver
deriving DecidableEq, Repr

/-- The value of a field of job `j` becomes `v`. -/
def put {α : Type} (f : Nat → α) (j : Nat) (v : α) : Nat → α := fun k => if k = j then v else f k

/-- A thread's next step, lines 74-81.  The thread goes to the end of the list of threads. -/
def thrStep (i : Nat) (t : Thr) (s : S) : S :=
  match t.dec, t.stack with
  | some j, st =>
    -- lines 74-77
    { s with dep := put s.dep j (s.dep j - 1), threads := s.threads.eraseIdx i ++ [if s.dep j - 1 = 0 then ⟨s.par j, j :: st⟩ else ⟨none, st⟩], bad := s.bad || decide (s.dep j = 0) || s.delivered.contains j }
  | none, j :: st =>
    -- lines 78-82
    { s with threads := s.threads.eraseIdx i ++ [⟨none, st⟩], back := s.back ++ [j], bad := s.bad || s.delivered.contains j }
  | none, [] => { s with threads := s.threads.eraseIdx i }

/-- One action; `none` when it is not possible. -/
def step (op : Op) (s : S) : Option S :=
  match op with
  | .create => some { s with n := s.n + 1, dep := put s.dep s.n 0, par := put s.par s.n none, queued := s.queued ++ [s.n] }
  | .spawn i =>
    match s.running[i]? with
    | none => none
    | some p =>
      -- calloc, and lines 473-476
      some { s with n := s.n + 1, dep := put (put s.dep s.n 0) p (s.dep p + 1), par := put s.par s.n (some p), queued := s.queued ++ [s.n], bad := s.bad || s.delivered.contains p }
  | .start i =>
    match s.queued[i]? with
    | none => none
    | some j =>
      -- line 874
      some { s with dep := put s.dep j (s.dep j + 1), queued := s.queued.eraseIdx i, running := s.running ++ [j], bad := s.bad || s.delivered.contains j }
  | .finish i =>
    match s.running[i]? with
    | none => none
    | some j => some { s with running := s.running.eraseIdx i, finished := s.finished ++ [j], threads := s.threads ++ [⟨some j, []⟩] }
  | .thr i =>
    match s.threads[i]? with
    | none => none
    | some t => some (thrStep i t s)
  | .deliver =>
    match s.back with
    | [] => none
    | j :: r => some { s with back := r, delivered := s.delivered ++ [j] }

/-- No jobs. -/
def init : S := ⟨0, fun _ => 0, fun _ => none, [], [], [], [], [], [], false⟩

/-- A sequence of actions. -/
def run : List Op → S → Option S
  | [], s => some s
  | op :: ops, s =>
    match step op s with
    | none => none
    | some s => run ops s

/-- The states of any interleaving. -/
inductive Reach : S → Prop
  | init : Reach init
  | step {s t : S} (op : Op) : Reach s → step op s = some t → Reach t

theorem run_reach {ops : List Op} {s t : S} (h : Reach s) (hr : run ops s = some t) : Reach t := by
  induction ops generalizing s with
  | nil => simp only [run, Option.some.injEq] at hr; exact hr ▸ h
  | cons op ops ih =>
    unfold run at hr
    split at hr
    · cases hr
    · rename_i u hu; exact ih (.step op h hu) hr

end Mtev.JobDeps
