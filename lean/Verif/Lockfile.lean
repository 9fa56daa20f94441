import Verif.Conc

/-!
# Lock files

`src/utils/mtev_lockfile.c:40-116`, on one file, with POSIX record locks on the whole of it: a lock belongs to a process;
`F_SETLK` fails only because of another process; closing any descriptor of the file gives up the lock the process has; a
process that ends gives up all.

Several callers, each in a process; every system call is one step, in any order.

Simplified: `open` and `fcntl` fail for no other reason than a lock (a caller that fails to open is one that never
starts); `EINTR`, after which the call is repeated, does not show; a caller whose process has ended does not go on.
-/

namespace Mtev.Lockfile

/-- where a caller is; `ow` is `*owner`, for `mtev_lockfile_acquire` always `none` -/
inductive Pc where
  /-- has not called, or the last call has returned -/
  | idle
  /-- in `acquire_owner`, the file is open, before `F_GETLK` (`mtev_lockfile.c:78`) -/
  | asks
  /-- before `F_SETLK` (`mtev_lockfile.c:55`, `92`) -/
  | tries (ow : Option Nat)
  /-- `F_SETLK` has failed, before `close` (`mtev_lockfile.c:57`, `94`) -/
  | failing (ow : Option Nat)
  /-- acquire has returned -1 -/
  | failed (ow : Option Nat)
  /-- acquire has returned a descriptor -/
  | holds (ow : Option Nat)
  /-- in `release`, unlocked, before `close` (`mtev_lockfile.c:113`) -/
  | closing
deriving DecidableEq, Repr

/-- the state: who has the lock, as the kernel knows, and where the callers are -/
structure St (n : Nat) where
  lock : Option Nat := none
  pc : Fin n → Pc := fun _ => .idle

inductive Ev where
  /-- a call of `mtev_lockfile_acquire`: `open` -/
  | acquire
  /-- a call of `mtev_lockfile_acquire_owner`: `open` -/
  | acquireOwner
  | getlk
  | setlk
  | close
  /-- a call of `mtev_lockfile_release`: `F_UNLCK` -/
  | release
  /-- the process ends -/
  | exit
deriving DecidableEq, Repr

/-- the lock after process `p` has closed a descriptor of the file or unlocked it -/
def drop (lock : Option Nat) (p : Nat) : Option Nat := if lock = some p then none else lock

/-- one step of caller `a`; `proc` tells the process of each caller -/
def step {n : Nat} (proc : Fin n → Nat) (s : St n) (a : Fin n) (e : Ev) : Option (St n) :=
  match e, s.pc a with
  -- `mtev_lockfile.c:46`
  | .acquire, .idle => some { s with pc := upd s.pc a (.tries none) }
  | .acquire, .failed _ => some { s with pc := upd s.pc a (.tries none) }
  -- `mtev_lockfile.c:69-70`
  | .acquireOwner, .idle => some { s with pc := upd s.pc a .asks }
  | .acquireOwner, .failed _ => some { s with pc := upd s.pc a .asks }
  -- `mtev_lockfile.c:73-85`: a lock of the process itself is not reported
  | .getlk, .asks => some { s with pc := upd s.pc a (.tries (if s.lock = some (proc a) then none else s.lock)) }
  -- `mtev_lockfile.c:55-60`, `92-97`
  | .setlk, .tries ow =>
    if s.lock = none ∨ s.lock = some (proc a) then some { lock := some (proc a), pc := upd s.pc a (.holds ow) }
    else some { s with pc := upd s.pc a (.failing ow) }
  | .close, .failing ow => some { lock := drop s.lock (proc a), pc := upd s.pc a (.failed ow) }
  -- `mtev_lockfile.c:101-112`
  | .release, .holds _ => some { lock := drop s.lock (proc a), pc := upd s.pc a .closing }
  | .close, .closing => some { lock := drop s.lock (proc a), pc := upd s.pc a .idle }
  -- the end of a process: of all its callers
  | .exit, _ => some { lock := drop s.lock (proc a), pc := fun b => if proc b = proc a then .idle else s.pc b }
  | _, _ => none

/-- a run -/
def run {n : Nat} (proc : Fin n → Nat) : St n → List (Fin n × Ev) → Option (St n)
  | s, [] => some s
  | s, (a, e) :: t => (step proc s a e).bind fun s' => run proc s' t

end Mtev.Lockfile
