import Verif.Mem
import Mathlib.Logic.Function.Basic

/-!
Model of the safe memory reclamation of src/utils/mtev_memory.c: critical sections
(`mtev_memory_begin/end`), deferred frees (`mtev_memory_safe_free`), maintenance, the asynchronous
collector thread and the end of threads, together with the switching of sections by coroutines
(src/eventer/eventer_aco_opset.c:64-74).

The steps of all threads are interleaved. One step is one access to state that threads share, or a
run of accesses to state of the thread alone. Memory is sequentially consistent.

`ck_epoch` is a library outside /repo; it is modelled by its contract. A section is open from
`ck_epoch_begin` to `ck_epoch_end` and has a serial number. `ck_epoch_synchronize` returns when all
sections that were open at the call have ended; `ck_epoch_barrier` is that followed by the dispatch of
the calling record's pending entries; `ck_epoch_poll` dispatches some of the pending entries all of
whose sections that were open at `ck_epoch_call` have ended; `ck_epoch_unregister` forgets the record,
its sections and its pending entries.

The application is arbitrary. It may begin and end sections, switch coroutines, allocate, read a block
inside a section (`acq`: it obtains a pointer to a block nobody has yet handed to
`mtev_memory_safe_free`) and free. A step that breaks the rules of the API (ending a section that was
not begun, freeing a pointer whose memory is already gone) is left out: it does nothing. Cleanup
functions are arbitrary application steps of the thread that is dispatching; they do not call
maintenance. Not modelled: `fork`, the statistics and logs, a failing `pthread_create` or `malloc`,
`mtev_memory_ck_free` with `r == false`.
-/

namespace Mtev.Smr

/-- A block of `mtev_memory_safe_malloc`: the magic of `struct safe_epoch` is `MTEV_EPOCH_SAFE_MAGIC`
while `live` and `MTEV_EPOCH_SAFE_FREE_MAGIC` while `retired`, mtev_memory.c:46-47, 541-549. -/
inductive Mem where
  | fresh | live | retired | freed
deriving DecidableEq

/-- `mtev_memory_maintenance_method_t`, mtev_memory.h:42-47. -/
inductive Meth where
  | barrier | poll | asynch | none
deriving DecidableEq

/-- What follows a call of maintenance: the application, or one of the steps of
`mtev_memory_fini_thread`, mtev_memory.c:189-204. -/
inductive K where
  | user | fin1 | fin2 | fin3 | fin4
deriving DecidableEq

/-- `mtev_memory_section_t`, mtev_memory.h:49-52: the counter `begin_end` and, while the section is
open in `ck_epoch`, its serial number. -/
structure Sec where
  n : Nat := 0
  q : Option Nat := none

/-- Where a thread is. `user`: in the application. `back m cur k`: in the loop over the return queue
of `mtev_memory_maintenance_ex`, mtev_memory.c:449-457, completing list `cur`. `wait`: in
`ck_epoch_barrier`. `poll`: at `ck_epoch_poll`. `disp`: dispatching entries. `mk`, `made`, `marked`,
`queued`: in `mtev_memory_queue_asynch`, mtev_memory.c:93-116, before the `malloc`, before the final
mark, before the enqueue, before the increment. `term`: in `terminate_gc_return`. `dead`: after
`mtev_memory_fini_thread`. -/
inductive Pc where
  | user
  | back (m : Meth) (cur : Option Nat) (k : K)
  | wait (snap : List Nat) (k : K)
  | poll (k : K)
  | disp (left : List Nat) (k : K)
  | mk (fin : Bool) (k : K)
  | made (a : Nat) (fin : Bool) (k : K)
  | marked (a : Nat) (k : K)
  | queued (k : K)
  | term (cur : Option Nat)
  | dead
deriving DecidableEq

/-- A thread: the thread-local variables of mtev_memory.c:65-78, and what the application knows:
`ctx` the coroutine that runs (0: none), `stack` the callers of `eventer_aco_resume` with their saved
section, `deep` how many sections each coroutine has begun, `hold` the blocks it read inside them. -/
structure Th where
  ret : Bool := false
  reg : Bool := false
  sec : Option Nat := none
  secs : Nat → Sec := fun _ => {}
  active : Nat := 0
  pend : List (Nat × List Nat) := []
  needs : Nat := 0
  pc : Pc := .user
  ctx : Nat := 0
  stack : List (Option Nat × Nat) := []
  deep : Nat → Nat := fun _ => 0
  hold : Nat → List Nat := fun _ => []

/-- `struct asynch_reclaim`, mtev_memory.c:88-91; the four stacks as one list. -/
structure Ar where
  owner : Nat
  blks : List Nat

/-- `gc_asynch_queue_t`, mtev_memory.c:59-64; `alive`: not freed. -/
structure Gr where
  alive : Bool := false
  queue : List Nat := []
  enq : Nat := 0
  req : Nat := 0
  fin : Option Nat := none

/-- Where the collector is, mtev_memory.c:356-438: waiting for lists, synchronizing, handing back
(`gave`: before the increment, `check`: before reading `final_ar`, `test`: before the comparison of
`terminate_gc_return`, `drain`: inside it). -/
inductive Gc where
  | idle
  | sync (set : List Nat) (snap : List Nat)
  | give (set : List Nat)
  | gave (a o : Nat) (rest : List Nat)
  | check (a o : Nat) (rest : List Nat)
  | test (a o : Nat) (rest : List Nat)
  | drain (o : Nat) (cur : Option Nat) (rest : List Nat)
deriving DecidableEq

/-- Everything. `opens`: the open sections of `ck_epoch` with their thread; `next`: the next serial
number; `mem`: the blocks; `log`: the blocks whose cleanup has run, in order; `ars`: the lists
allocated; `used`: all addresses lists ever had; `grs`: the return queue of each thread; `gcq`: the
queue to the collector; `asynch`: `asynch_gc`. Thread 0 is the collector. -/
structure St where
  th : Nat → Th := fun _ => {}
  opens : List (Nat × Nat) := []
  next : Nat := 0
  mem : Nat → Mem := fun _ => .fresh
  log : List Nat := []
  ars : Nat → Option Ar := fun _ => none
  used : List Nat := []
  grs : Nat → Gr := fun _ => {}
  gcq : List Nat := []
  gc : Gc := .idle
  asynch : Bool := false

/-- What the surroundings may do: `early`: a coroutine is resumed on a thread that has not used this
library yet; `reuse`: `malloc` returns for a list an address a freed list had. -/
structure Conf where
  early : Bool
  reuse : Bool

/-- The steps. `go t a sel`: thread `t` goes on; `a` is what `malloc` returns, `sel` what
`ck_epoch_poll` dispatches, if they matter. `gc n`: the collector goes on and takes up to `n` lists. -/
inductive Ev where
  | init (t : Nat)
  | gcOn
  | begin (t : Nat)
  | end_ (t : Nat)
  | resume (t k : Nat)
  | yield (t : Nat)
  | alloc (t b : Nat)
  | acq (t b : Nat)
  | free (t b : Nat)
  | old (t : Nat) (barrier : Bool)
  | maint (t : Nat) (m : Meth)
  | fini (t : Nat)
  | go (t a : Nat) (sel : List Nat)
  | gc (n : Nat)
deriving DecidableEq

def St.setT (s : St) (t : Nat) (x : Th) : St := { s with th := Function.update s.th t x }
def St.setG (s : St) (t : Nat) (x : Gr) : St := { s with grs := Function.update s.grs t x }
def St.setPc (s : St) (t : Nat) (p : Pc) : St := s.setT t { s.th t with pc := p }

/-- Whether thread `t` runs code of the application: outside this library, or in a cleanup function. -/
def appl (s : St) (t : Nat) : Bool :=
  if t = 0 then (match s.gc with | .drain _ (some _) _ => true | _ => false)
  else (s.th t).ret && (match (s.th t).pc with
    | .user => true | .back _ (some _) _ => true | .disp _ _ => true | .term (some _) => true
    | _ => false)

/-- `mtev_memory_init_epoch`, mtev_memory.c:162-173, if needed: the section becomes the thread's
default section (section 0). -/
def initEpoch (s : St) (t : Nat) : St :=
  if (s.th t).reg then s else s.setT t { s.th t with reg := true, sec := some 0 }

/-- `ck_epoch_begin` on section `i` and `begin_end++`. -/
def openSec (s : St) (t i : Nat) : St :=
  let x := s.th t
  { s.setT t { x with secs := Function.update x.secs i ⟨1, some s.next⟩, active := x.active + 1 } with
    opens := (s.next, t) :: s.opens, next := s.next + 1 }

/-- `ck_epoch_end` on section `i`, whose counter becomes 0. -/
def closeSec (s : St) (t i : Nat) : Out St :=
  let x := s.th t
  match (x.secs i).q with
  | none => .ub
  | some q => .ok { s.setT t { x with secs := Function.update x.secs i ⟨0, none⟩, active := x.active - 1 } with
      opens := s.opens.filter (fun p => p.1 ≠ q) }

/-- `mtev_memory_begin`, mtev_memory.c:519-527. -/
def memBegin (s : St) (t : Nat) : Out St :=
  let s := initEpoch s t
  let x := s.th t
  match x.sec with
  | none => .ub
  | some i =>
    if (x.secs i).n = 0 then .ok (openSec s t i)
    else .ok (s.setT t { x with secs := Function.update x.secs i ⟨((x.secs i).n + 1) % 2 ^ 32, (x.secs i).q⟩ })

/-- `mtev_memory_end`, mtev_memory.c:528-536; the counter is a `uint32_t`. -/
def memEnd (s : St) (t : Nat) : Out St :=
  let s := initEpoch s t
  let x := s.th t
  match x.sec with
  | none => .ub
  | some i =>
    if (x.secs i).n = 1 then closeSec s t i
    else .ok (s.setT t { x with
      secs := Function.update x.secs i ⟨((x.secs i).n + (2 ^ 32 - 1)) % 2 ^ 32, (x.secs i).q⟩ })

/-- The application's own count of the section it is in. -/
def noteBegin (s : St) (t : Nat) : St :=
  let x := s.th t
  s.setT t { x with deep := Function.update x.deep x.ctx (x.deep x.ctx + 1) }

def noteEnd (s : St) (t : Nat) : St :=
  let x := s.th t
  s.setT t { x with
    deep := Function.update x.deep x.ctx (x.deep x.ctx - 1)
    hold := if x.deep x.ctx = 1 then Function.update x.hold x.ctx [] else x.hold }

/-- `mtev_memory_real_free`, mtev_memory.c:551-561. -/
def realFree (s : St) (b : Nat) : Out St :=
  match s.mem b with
  | .retired => .ok { s with mem := Function.update s.mem b .freed, log := s.log ++ [b] }
  | .live => .abort
  | _ => .ub

/-- `mtev_memory_safe_free`, mtev_memory.c:598-655. A block already handed over: the entry is freed
at once and the assertion at the end fails. -/
def safeFree (s : St) (t b : Nat) : Out St :=
  let s := initEpoch s t
  let x := s.th t
  match s.mem b with
  | .live => .ok { s.setT t { x with
        needs := if x.needs % 2 = 1 then x.needs else x.needs + 1
        pend := x.pend ++ [(b, s.opens.map (·.1))] } with mem := Function.update s.mem b .retired }
  | .retired => .abort
  | _ => .ok s

/-- `ck_epoch_unregister` and the end of `mtev_memory_fini_thread`, mtev_memory.c:198-204. -/
def leave (s : St) (t : Nat) : St :=
  let x := s.th t
  { s.setT t { x with reg := false, ret := false, pc := .dead, pend := [], active := 0, hold := fun _ => [] } with
    opens := s.opens.filter (fun p => p.2 ≠ t) }

/-- What a thread does after a call of maintenance or `mtev_memory_queue_asynch`: return to the
application, or go on in `mtev_memory_fini_thread`, mtev_memory.c:189-204. -/
def finish (s : St) (t : Nat) : K → St
  | .user => s.setPc t .user
  | .fin1 => if s.asynch then s.setPc t (.back .asynch none .fin2) else s.setPc t (.back .barrier none .fin4)
  | .fin2 => s.setPc t (.mk true .fin3)
  | .fin3 => leave s t
  | .fin4 => if (s.grs t).req = (s.grs t).enq then s.setPc t (.term none) else leave s t

/-- `mtev_memory_maintenance_ex` after the return queue, mtev_memory.c:459-497. -/
def decideOn (s : St) (t : Nat) (m : Meth) (k : K) : St :=
  let x := s.th t
  let m := if s.asynch = false ∧ m = .asynch then .barrier else m
  if x.needs = 0 then finish s t k
  else if x.active ≠ 0 ∧ m = .barrier then finish s t k
  else if x.needs % 2 = 0 then finish s t k
  else
    let s := s.setT t { x with needs := x.needs + 1 }
    match m with
    | .none => finish s t k
    | .barrier => s.setPc t (.wait (s.opens.map (·.1)) k)
    | .poll => s.setPc t (.poll k)
    | .asynch => s.setPc t (.mk false k)

/-- One step of `mtev_gc_sync_complete` on list `a`, mtev_memory.c:304-353: dispatch the next entry
(`.inl`), or free the list (`.inr`). -/
def complete (s : St) (a : Nat) : Out (St × Bool) :=
  match s.ars a with
  | none => .ub
  | some ar =>
    match ar.blks with
    | [] => .ok ({ s with ars := Function.update s.ars a none }, true)
    | b :: r => do
      let s ← realFree { s with ars := Function.update s.ars a (some { ar with blks := r }) } b
      .ok (s, false)

/-- Sections of `snap` all ended. -/
def quiet (s : St) (snap : List Nat) : Bool := snap.all (fun q => !(s.opens.any (fun p => p.1 == q)))

/-- Thread `t` goes on inside this library. -/
def goOn (cfg : Conf) (s : St) (t a : Nat) (sel : List Nat) : Out St :=
  let x := s.th t
  let g := s.grs t
  match x.pc with
  | .user | .dead => .ok s
  | .back m none k =>
    if g.alive = false then .ub
    else match g.queue with
      | [] => .ok (decideOn s t m k)
      | c :: r => .ok ((s.setG t { g with queue := r }).setPc t (.back m (some c) k))
  | .back m (some c) k => do
    let r ← complete s c
    .ok (if r.2 then r.1.setPc t (.back m none k) else r.1)
  | .wait snap k =>
    if quiet s snap then .ok ((s.setT t { x with pend := [] }).setPc t (.disp (x.pend.map (·.1)) k))
    else .ok s
  | .poll k =>
    let p := fun e : Nat × List Nat => decide (e.1 ∈ sel) && quiet s e.2
    .ok ((s.setT t { x with pend := x.pend.filter (fun e => !p e) }).setPc t
      (.disp ((x.pend.filter p).map (·.1)) k))
  | .disp [] k => .ok (finish s t k)
  | .disp (b :: r) k => realFree (s.setPc t (.disp r k)) b
  | .mk fin k =>
    if s.ars a = none ∧ (cfg.reuse = true ∨ a ∉ s.used) then
      .ok { (s.setT t { x with pend := [] }).setPc t (.made a fin k) with
        ars := Function.update s.ars a (some ⟨t, x.pend.map (·.1)⟩), used := a :: s.used }
    else .ok s
  | .made c fin k =>
    if fin then
      if g.alive = false then .ub
      else if g.fin = none then .ok ((s.setG t { g with fin := some c }).setPc t (.marked c k))
      else .abort
    else .ok (s.setPc t (.marked c k))
  | .marked c k => .ok { s.setPc t (.queued k) with gcq := s.gcq ++ [c] }
  | .queued k =>
    if g.alive = false then .ub else .ok (finish (s.setG t { g with enq := g.enq + 1 }) t k)
  | .term none =>
    if g.alive = false then .ub
    else match g.queue with
      | [] => .ok (leave (s.setG t { g with alive := false }) t)
      | c :: r => .ok ((s.setG t { g with queue := r }).setPc t (.term (some c)))
  | .term (some c) => do
    let r ← complete s c
    .ok (if r.2 then r.1.setPc t (.term none) else r.1)

/-- The collector goes on, `mtev_memory_gc`, mtev_memory.c:356-438, and `terminate_gc_return`,
mtev_memory.c:118-142. -/
def gcStep (s : St) (n : Nat) : Out St :=
  match s.gc with
  | .idle =>
    if s.asynch = true ∧ s.gcq ≠ [] then
      let k := min (max n 1) 100
      .ok { s with gc := .sync (s.gcq.take k) (s.opens.map (·.1)), gcq := s.gcq.drop k }
    else .ok s
  | .sync set snap => if quiet s snap then .ok { s with gc := .give set } else .ok s
  | .give [] => .ok { s with gc := .idle }
  | .give (a :: r) =>
    match s.ars a with
    | none => .ub
    | some ar =>
      if (s.grs ar.owner).alive = false then .ub
      else .ok { s.setG ar.owner { s.grs ar.owner with queue := (s.grs ar.owner).queue ++ [a] } with
        gc := .gave a ar.owner r }
  | .gave a o r =>
    if (s.grs o).alive = false then .ub
    else .ok { s.setG o { s.grs o with req := (s.grs o).req + 1 } with gc := .check a o r }
  | .check a o r =>
    if (s.grs o).alive = false then .ub
    else if (s.grs o).fin = some a then .ok { s with gc := .test a o r }
    else .ok { s with gc := .give r }
  | .test _ o r =>
    if (s.grs o).alive = false then .ub
    else if (s.grs o).req = (s.grs o).enq then .ok { s with gc := .drain o none r }
    else .ok { s with gc := .give r }
  | .drain o none r =>
    if (s.grs o).alive = false then .ub
    else match (s.grs o).queue with
      | [] => .ok { s.setG o { s.grs o with alive := false } with gc := .give r }
      | c :: q => .ok { s.setG o { s.grs o with queue := q } with gc := .drain o (some c) r }
  | .drain o (some c) r => do
    let p ← complete s c
    .ok (if p.2 then { p.1 with gc := .drain o none r } else p.1)

/-- `mtev_memory_fini_thread`, mtev_memory.c:179-189: the thread's readers are gone. -/
def finiStart (s : St) (t : Nat) : Out St :=
  let x := { s.th t with hold := fun _ => [] }
  let s := s.setT t x
  if x.reg = false then .ok (if (s.grs t).req = (s.grs t).enq then s.setPc t (.term none) else leave s t)
  else match x.sec with
  | none => .ub
  | some i =>
    if (x.secs i).n > 1 then do
      let s ← closeSec (s.setT t { x with deep := Function.update x.deep x.ctx 0 }) t i
      .ok (s.setPc t (.back .asynch none .fin1))
    else .ok (s.setPc t (.back .asynch none .fin1))

/-- One step. -/
def step (cfg : Conf) (s : St) : Ev → Out St
  | .init t =>
    if t ≠ 0 ∧ (s.th t).ret = false ∧ (s.th t).pc = .user then
      .ok ((s.setT t { s.th t with ret := true }).setG t { alive := true })
    else .ok s
  | .gcOn =>
    .ok (if s.asynch then s else
      { s.setT 0 { s.th 0 with ret := true, reg := true, sec := some 0 } with asynch := true })
  | .begin t =>
    if appl s t ∧ (s.th t).deep (s.th t).ctx + 1 < 2 ^ 32 then do
      let s ← memBegin s t
      .ok (noteBegin s t)
    else .ok s
  | .end_ t =>
    if appl s t ∧ 0 < (s.th t).deep (s.th t).ctx then do
      let s ← memEnd s t
      .ok (noteEnd s t)
    else .ok s
  | .resume t k =>
    let x := s.th t
    if appl s t ∧ k ≠ 0 ∧ k ≠ x.ctx ∧ (∀ p ∈ x.stack, p.2 ≠ k) ∧ (cfg.early = true ∨ x.reg = true) then
      .ok (s.setT t { x with sec := some k, ctx := k, stack := (x.sec, x.ctx) :: x.stack })
    else .ok s
  | .yield t =>
    let x := s.th t
    match x.stack with
    | [] => .ok s
    | (p, c) :: r => if appl s t then .ok (s.setT t { x with sec := p, ctx := c, stack := r }) else .ok s
  | .alloc t b =>
    if appl s t ∧ s.mem b = .fresh then
      .ok { initEpoch s t with mem := Function.update s.mem b .live }
    else .ok s
  | .acq t b =>
    let x := s.th t
    if appl s t ∧ 0 < x.deep x.ctx ∧ s.mem b = .live then
      .ok (s.setT t { x with hold := Function.update x.hold x.ctx (b :: x.hold x.ctx) })
    else .ok s
  | .free t b => if appl s t then safeFree s t b else .ok s
  | .old t barrier =>
    let x := s.th t
    if t ≠ 0 ∧ x.ret = true ∧ x.pc = .user ∧ x.reg = true ∧ x.needs % 2 = 1 then
      .ok (s.setPc t (if barrier then .wait (s.opens.map (·.1)) .user else .poll .user))
    else .ok s
  | .maint t m =>
    let x := s.th t
    if t ≠ 0 ∧ x.ret = true ∧ x.pc = .user ∧ x.reg = true then .ok (s.setPc t (.back m none .user)) else .ok s
  | .fini t =>
    let x := s.th t
    if t ≠ 0 ∧ x.ret = true ∧ x.pc = .user ∧ x.stack = [] then finiStart s t else .ok s
  | .go t a sel => goOn cfg s t a sel
  | .gc n => gcStep s n

/-- A history. -/
def run (cfg : Conf) : St → List Ev → Out St
  | s, [] => .ok s
  | s, e :: es => do
    let s ← step cfg s e
    run cfg s es

end Mtev.Smr
