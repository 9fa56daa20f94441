import Verif.Basic
import Verif.Mem
import Mathlib.Tactic.Common
import Mathlib.Tactic.Linarith
import Mathlib.Data.List.Sort
import Mathlib.Data.Int.Order.Basic

/-!
Model of the fast clock (src/utils/mtev_time.c): a CPU's tick counter is
turned into nanoseconds by a scale and a skew that are calibrated against
the system's clock.
-/

namespace Mtev.Clock

/-- The scale of a CPU (src/utils/mtev_time.c:102-105): `ticks_per_nano` is
the quotient of the ticks and nanoseconds of the last span, and `skew`
is added.  Simplified: exact fractions instead of doubles. -/
structure Scale where
  eticks : Nat
  ens : Nat
  skew : Int
  deriving DecidableEq, Repr

/-- Ticks as nanoseconds without skew (src/utils/mtev_time.c:205-209,
391). -/
def raw (eticks ens ticks : Nat) : Nat := ticks * ens / eticks

/-- `ticks_to_nanos_skewed_ex` (src/utils/mtev_time.c:210-216). -/
def nanos (c : Scale) (ticks : Nat) : Int := (raw c.eticks c.ens ticks : Int) + c.skew

/-- The state of a CPU's clock (src/utils/mtev_time.c:106-122). -/
structure Core where
  sc : Scale
  lastSync : Nat
  markTicks : Nat
  markTime : Nat
  desyncs : Nat
  deriving DecidableEq, Repr

/-- One sample of a calibration: the system's clock, the ticks, and the
system's clock again (src/utils/mtev_time.c:386-388). -/
structure Sample where
  h1 : Nat
  ticks : Nat
  h2 : Nat
  deriving DecidableEq, Repr

/-- The system's clock at a sample (src/utils/mtev_time.c:392). -/
def Sample.ts (s : Sample) : Nat := s.h1 / 2 + s.h2 / 2

/-- The difference to it (src/utils/mtev_time.c:393-394). -/
def thisSkew (eticks ens : Nat) (s : Sample) : Int := (s.ts : Int) - (raw eticks ens s.ticks : Int)

/-- The average of the sorted differences without the smallest and the
largest (src/utils/mtev_time.c:396-405): C's division, towards zero. -/
def average (l : List Int) : Int := (((l.drop 1).take 4).sum).tdiv 4

/-- The skew that a calibration finds; 0 when the samples are too far from
their average, and never 0 otherwise (src/utils/mtev_time.c:401-412). -/
def findSkew (sorted : List Int) : Int :=
  let avg := average sorted
  let skew := if avg = 0 then 1 else avg
  let skew := if avg - sorted.getD 1 0 > 100 then 0 else skew
  if sorted.getD 4 0 - avg > 100 then 0 else skew

/-- `mtev_calibrate_rdtsc_ticks` for a CPU (src/utils/mtev_time.c:338-356,
365-445), without the part for the time of day: at `ticks` and `now` the
new span begins; the six samples follow. -/
def calibrate (c : Core) (ticks now : Nat) (ss : List Sample) : Core :=
  let c1 := { c with markTicks := ticks, markTime := now }
  if c.markTime = 0 ∨ ticks - c.markTicks = 0 then c1
  else
    let eticks := ticks - c.markTicks
    let ens := now - c.markTime
    let skew := findSkew ((ss.map (thisSkew eticks ens)).insertionSort (· ≤ ·))
    let h2 := (ss.getLast?.map Sample.h2).getD 0
    if skew ≠ 0 then { c1 with sc := ⟨eticks, ens, skew⟩, lastSync := h2 }
    else if h2 - c.lastSync > 15000000000 then
      { c1 with sc := { c.sc with skew := 0 },
                desyncs := if c.sc.skew ≠ 0 then c.desyncs + 1 else c.desyncs }
    else c1

/-- `mtev_get_nanos` (src/utils/mtev_time.c:706-731) on a CPU: `fast` when the clock is
ready and the thread uses it; `sys` is the system's clock. -/
def getNanos (fast : Bool) (c : Core) (ticks sys : Nat) : Int :=
  if fast = true ∧ c.sc.skew ≠ 0 then nanos c.sc ticks else sys

/-- A struct timeval. -/
structure Tv where
  sec : Nat
  usec : Nat
  deriving DecidableEq, Repr

/-- `mtev_gettimeofday` (src/utils/mtev_time.c:298-313): `hr` is
`mtev_get_nanos`, `last` when the skew to the time of day was measured,
`skew` that skew (0: none) and `sys` the system's time of day. -/
def gettimeofday (hr last skew : Nat) (useSys : Bool) (sys : Tv) : Tv :=
  if skew ≠ 0 ∧ useSys = false ∧ hr - last < 15000000000 ∧ last ≤ hr then
    ⟨(hr + skew) / 1000000000, (hr + skew) / 1000 % 1000000⟩
  else sys

/-- `mtev_now_ms` (src/utils/mtev_time.c:315-324). -/
def nowMs (t : Tv) : Nat := t.sec * 1000 + t.usec / 1000

/-- `mtev_now_us` (src/utils/mtev_time.c:326-335). -/
def nowUs (t : Tv) : Nat := t.sec * 1000000 + t.usec

/-- `mtev_time_maintain` (src/utils/mtev_time.c:762-807): `bound` when the
thread is bound to a CPU, `started` when `mtev_time_start_tsc` has chosen
the instruction that reads the ticks (before, it is a null pointer), `due`
when a second has passed, and `busy` when another thread holds the lock;
pthread_mutex_trylock returns its error and leaves `errno` alone.  EBUSY
is 16. -/
def maintain (bound started due busy : Bool) (errno : Nat) (c : Core) (ticks now : Nat) (ss : List Sample) :
    Out Core :=
  if !bound then .ok c
  else if !started then .ub
  else if !due then .ok c
  else if busy then (if errno = 16 then .ok c else .abort)
  else .ok (calibrate c ticks now ss)

end Mtev.Clock
