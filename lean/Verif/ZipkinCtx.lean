import Verif.Mem
import Verif.Conc

/-!
Spans attached to events: src/utils/mtev_zipkin.c, lines 208-250 and 478-760.

Modelled: who holds a reference to a span, when it is freed, and which spans
made for events are published. Not modelled: the content of a span (see
`Zipkin` and `ZipkinSpan`), `mtev_zipkin_aco_swap_span` (it moves a reference
without counting), and the coroutine contexts (lines 633-660) other than as
the context a new event takes its span from. Operations on a counter are
atomic in the code (ck_pr), so an interleaving of threads is a sequence here.
-/
namespace Mtev.ZipkinCtx

open Finset

/-- mtev_zipkin_event_trace_level_t, src/utils/mtev_zipkin.h:85-89. -/
inductive Level where
  | none
  | lifetime
  | callbacks
  deriving DecidableEq, Repr

/-- zipkin_eventer_ctx_t, src/utils/mtev_zipkin.c:478-486. Spans are numbers. -/
structure Ctx where
  level : Level
  my : Bool
  parent : Option Nat
  span : Option Nat
  client : Option Nat
  deriving DecidableEq, Repr

/-- What there is. `rc s` is the counter in span `s`, 0 once it is freed (or not yet made). `ctx e` is the context of event `e`.
`user`, `made` and `pub` are bookkeeping that the code does not have: the references the program has been given and not given back,
the spans made for events, in order, and those of them published by the events. -/
structure St (n : Nat) where
  next : Nat
  rc : Nat → Nat
  ctx : Fin n → Option Ctx
  user : Nat → Nat
  made : List Nat
  pub : List Nat

/-- Nothing yet. -/
def St.init (n : Nat) : St n := ⟨0, fun _ => 0, fun _ => none, fun _ => 0, [], []⟩

/-- One place changed. -/
def put (f : Nat → Nat) (s v : Nat) : Nat → Nat := fun x => if x = s then v else f x

variable {n : Nat}

/-- mtev_zipkin_span_ref, src/utils/mtev_zipkin.c:209-212. -/
def ref (s : Nat) (st : St n) : Out (St n) :=
  if st.rc s = 0 then .ub else .ok { st with rc := put st.rc s (st.rc s + 1) }

/-- mtev_zipkin_span_drop, src/utils/mtev_zipkin.c:214-248: the last one frees. -/
def drop : Option Nat → St n → Out (St n)
  | none, st => .ok st
  | some s, st => if st.rc s = 0 then .ub else .ok { st with rc := put st.rc s (st.rc s - 1) }

/-- Reading a span: trace, identity, name. -/
def look (s : Nat) (st : St n) : Out (St n) := if st.rc s = 0 then .ub else .ok st

/-- mtev_zipkin_span_new, src/utils/mtev_zipkin.c:142-207: nothing if not sampled (see `ZipkinSpan.spanNew`). -/
def spanNew (sampled : Bool) (st : St n) : Option Nat × St n :=
  if sampled then (some st.next, { st with next := st.next + 1, rc := put st.rc st.next 1 }) else (none, st)

/-- The same, for an event. -/
def spanFor (sampled : Bool) (st : St n) : Option Nat × St n :=
  if sampled then (some st.next, { st with next := st.next + 1, rc := put st.rc st.next 1, made := st.made ++ [st.next] })
  else (none, st)

/-- mtev_zipkin_span_publish, src/utils/mtev_zipkin.c:249-289, by an event. Simplified: memory does not run out (lines 266-270). -/
def publish : Option Nat → St n → Out (St n)
  | none, st => .ok st
  | some s, st => if st.rc s = 0 then .ub else drop (some s) { st with pub := st.pub ++ [s] }

/-- eventer_set_context. -/
def set (e : Fin n) (c : Option Ctx) (st : St n) : St n := { st with ctx := upd st.ctx e c }

/-- zipkin_eventer_ctx_free, src/utils/mtev_zipkin.c:499-513. -/
def ctxFree (e : Fin n) (st : St n) : Out (St n) :=
  match st.ctx e with
  | none => .ok st
  | some c =>
    ((if c.my then publish c.span st else drop c.span st).bind (drop c.parent)).bind fun st =>
      (drop c.client st).bind fun st => .ok (set e none st)

/-- mtev_zipkin_attach_to_eventer, src/utils/mtev_zipkin.c:661-670, with mtev_zipkin_new_ctx, 599-617. -/
def attach (e : Option (Fin n)) (s : Nat) (child sampled : Bool) (lvl : Level) (st : St n) : Out (St n) :=
  match e with
  | none => .ub   -- lines 667 and 669 use the event given, which may not be NULL
  | some e =>
    (ctxFree e st).bind fun st =>
      if child then
        (look s st).bind fun st =>
          let p := spanFor sampled st
          .ok (set e (some ⟨lvl, true, none, p.1, none⟩) p.2)
      else (ref s st).bind fun st => .ok (set e (some ⟨lvl, false, none, some s, none⟩) st)

/-- What counts as the span of a context, src/utils/mtev_zipkin.c:521 and 569. -/
def Ctx.active (c : Ctx) : Option Nat :=
  match c.span with
  | some s => some s
  | none => c.parent

/-- mtev_zipkin_client_new, src/utils/mtev_zipkin.c:565-582. -/
def clientNew (e : Fin n) (sampled : Bool) (st : St n) : Out (St n) :=
  match st.ctx e with
  | none => .ok st
  | some c =>
    match c.active with
    | none => .ok st
    | some p =>
      (drop c.client (set e (some { c with client := none }) st)).bind fun st =>
        (look p st).bind fun st =>
          let q := spanNew sampled st
          .ok (set e (some { c with client := q.1 }) q.2)

/-- mtev_zipkin_client_drop and mtev_zipkin_client_publish, src/utils/mtev_zipkin.c:583-596: they differ in what is sent only. -/
def clientEnd (e : Fin n) (st : St n) : Out (St n) :=
  match st.ctx e with
  | none => .ok st
  | some c => (drop c.client st).bind fun st => .ok (set e (some { c with client := none }) st)

/-- zipkin_eventer_callback_prep, src/utils/mtev_zipkin.c:671-691. -/
def prep (e : Fin n) (sampled : Bool) (st : St n) : Out (St n) :=
  match st.ctx e with
  | none => .ok st
  | some c =>
    match c.parent with
    | none => .ok st
    | some p =>
      if c.level ≠ .callbacks then .ok st else
      (look p st).bind fun st =>
        let q := spanFor sampled st
        .ok (set e (some { c with span := q.1, my := true }) q.2)

/-- zipkin_eventer_callback_cleanup, src/utils/mtev_zipkin.c:692-705. -/
def cleanup (e : Fin n) (st : St n) : Out (St n) :=
  match st.ctx e with
  | none => .ok st
  | some c =>
    if c.parent = none ∨ c.level ≠ .callbacks ∨ c.my = false then .ok st
    else (publish c.span st).bind fun st => .ok (set e (some { c with my := false, span := none }) st)

/-- ref if there is one, src/utils/mtev_zipkin.c:717 and 758-760. -/
def refO : Option Nat → St n → Out (St n)
  | none, st => .ok st
  | some s, st => ref s st

/-- zipkin_eventer_init, src/utils/mtev_zipkin.c:706-736: the new event `e` takes after `from_`, the event (or coroutine) that runs.
A new event has no context. -/
def start (e from_ : Fin n) (sampled : Bool) (st : St n) : Out (St n) :=
  if st.ctx e ≠ none then .ok st else
  match st.ctx from_ with
  | none => .ok st
  | some p =>
    (refO p.span st).bind fun st =>
      match p.span with
      | some s =>
        if p.level = .lifetime then
          (look s st).bind fun st =>
            let q := spanFor sampled st
            (drop (some s) q.2).bind fun st => .ok (set e (some ⟨p.level, true, none, q.1, none⟩) st)
        else if p.level = .callbacks then .ok (set e (some ⟨p.level, false, some s, none, none⟩) st)
        else .ok (set e (some ⟨p.level, false, none, some s, none⟩) st)
      | none => .ok (set e (some ⟨p.level, false, none, none, none⟩) st)

/-- zipkin_eventer_deinit, src/utils/mtev_zipkin.c:737-750; `named` is whether the callback has a name. -/
def finish (e : Fin n) (named : Bool) (st : St n) : Out (St n) :=
  match st.ctx e with
  | none => .ok st
  | some c =>
    if c.my && named then
      match c.span with
      | none => .ub
      | some s => (look s st).bind (ctxFree e)
    else ctxFree e st

/-- zipkin_eventer_copy, src/utils/mtev_zipkin.c:751-762. -/
def copy (e from_ : Fin n) (st : St n) : Out (St n) :=
  if st.ctx e ≠ none then .ok st else
  match st.ctx from_ with
  | none => .ok st
  | some c =>
    (refO c.span (set from_ (some { c with my := false }) st)).bind fun st =>
      (refO c.parent st).bind fun st =>
        (refO c.client st).bind fun st => .ok (set e (some c) st)

/-- The calls a program (or the event loop) makes. -/
inductive Op (n : Nat) where
  | spanNew (sampled : Bool)
  | spanRef (s : Nat)
  | spanDrop (s : Nat)
  | attach (e : Option (Fin n)) (s : Nat) (child sampled : Bool) (lvl : Level)
  | clientNew (e : Fin n) (sampled : Bool)
  | clientEnd (e : Fin n)
  | prep (e : Fin n) (sampled : Bool)
  | cleanup (e : Fin n)
  | start (e from_ : Fin n) (sampled : Bool)
  | finish (e : Fin n) (named : Bool)
  | copy (e from_ : Fin n)

/-- One call. -/
def step (st : St n) : Op n → Out (St n)
  | .spanNew b => let q := spanNew b st
    match q.1 with
    | none => .ok st
    | some s => .ok { q.2 with user := put st.user s (st.user s + 1) }
  | .spanRef s => (ref s st).bind fun st => .ok { st with user := put st.user s (st.user s + 1) }
  | .spanDrop s => (drop (some s) st).bind fun st => .ok { st with user := put st.user s (st.user s - 1) }
  | .attach e s c b l => attach e s c b l st
  | .clientNew e b => clientNew e b st
  | .clientEnd e => clientEnd e st
  | .prep e b => prep e b st
  | .cleanup e => cleanup e st
  | .start e f b => start e f b st
  | .finish e b => finish e b st
  | .copy e f => copy e f st

/-- Several calls. -/
def runs (st : St n) : List (Op n) → Out (St n)
  | [] => .ok st
  | o :: os => (step st o).bind fun st => runs st os

end Mtev.ZipkinCtx
