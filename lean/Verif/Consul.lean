import Verif.Basic
import Verif.Mem
import Mathlib.Tactic.Common
import Mathlib.Data.List.Basic

/-!
Model of the consul module (src/modules/consul.c): watching keys,
registering services and settings taken from consul.
-/

namespace Mtev.Consul

abbrev Str := List Nat

/-! ### Watching keys -/

/-- How a fetch ends (src/modules/consul.c:222-268): with the keys and
values, a body that is no array, an answer other than 200 or an error of
the transfer, or a timeout; the index is from the header, when that
arrived. -/
inductive Fetch where
  | good (hdr : Option Nat) (items : List (Str × Str))
  | junk (hdr : Option Nat)
  | fail (hdr : Option Nat)
  | timeout (hdr : Option Nat)

/-- The header of a fetch. -/
def Fetch.hdr : Fetch → Option Nat
  | .good h _ => h
  | .junk h => h
  | .fail h => h
  | .timeout h => h

/-- `kv_fetch_index` (src/modules/consul.c:188-196): the index is kept in 32
bits as soon as the header arrives. -/
def headerIndex (index : Nat) : Option Nat → Nat
  | some v => v % 2 ^ 32
  | none => index

/-- `struct kv_tree_read` (src/modules/consul.c:197-206).  Times are
microseconds; `seen` is what the witness was told last (a ghost) and
`freed` whether it was freed. -/
structure Watch where
  done : Bool
  index : Nat
  last : Nat
  seen : Option (List (Str × Str))
  freed : Bool
  deriving DecidableEq, Repr

/-- `mtev_consul_kv_tree_reader` (src/modules/consul.c:215-285): a fetch
has ended at `now`.  Gives what the witness is told, and when the next
fetch begins (`none`: never). -/
def reader (w : Watch) (f : Fetch) (now : Nat) : Watch × Option (List (Str × Str)) × Option Nat :=
  let i := headerIndex w.index f.hdr
  let w1 : Watch := match f with
    | .good _ items => { w with index := i, seen := some items }
    | .junk _ => { w with index := 0 }
    | .fail _ => { w with index := 0 }
    | .timeout _ => { w with index := i }
  let told := match f with
    | .good _ items => some items
    | _ => none
  if w.done then ({ w1 with freed := true }, told, none)
  else
    let diff := now - w.last
    let next := if diff / 1000000 ≤ 1 then now + (2000000 - diff) else now
    ({ w1 with last := next }, told, some next)

/-- `mtev_consul_kv_attach_function` (src/modules/consul.c:313-326). -/
def attach (now : Nat) : Watch := ⟨false, 0, now, none, false⟩

/-- `mtev_consul_kv_detach_function` (src/modules/consul.c:327-331). -/
def detach (w : Watch) : Watch := { w with done := true }

/-! ### Services -/

/-- `service_state_e` (src/modules/consul.c:75). -/
inductive State where
  | uninit
  | registered
  | deregistered
  deriving DecidableEq, Repr

/-- `service_code_e` (src/modules/consul.c:74). -/
inductive Code where
  | passing
  | warning
  | critical
  deriving DecidableEq, Repr

/-- `struct service_register` (src/modules/consul.c:79-89), with the
timers that push its health (by check) and whether it was freed.  Simplified:
`refcnt` is an integer. -/
structure Svc where
  refcnt : Int
  desired : State
  state : State
  period : List Nat
  codes : List Code
  pushes : List Nat
  freed : Bool
  deriving DecidableEq, Repr

/-- The checks with a period. -/
def pushed (s : Svc) : List Nat := (List.range 5).filter (fun i => decide (s.period.getD i 0 ≠ 0))

/-- `mtev_consul_register_f` for a service not known
(src/modules/consul.c:771-779,870-874): `calloc` leaves no reference. -/
def fresh (period : List Nat) (code : Code) : Svc :=
  ⟨0, .registered, .uninit, period, List.replicate 5 code, [], false⟩

/-- `mtev_consul_register_f` for one that is known
(src/modules/consul.c:769-770,870-874). -/
def again (s : Svc) : Svc := { s with desired := .registered, state := .uninit }

/-- `mtev_consul_service_register_deregister_f` (src/modules/consul.c:620-622). -/
def unwant (s : Svc) : Svc := { s with desired := .deregistered }

/-- `mtev_consul_service_register_register_f` (src/modules/consul.c:616-618). -/
def want (s : Svc) : Svc := { s with desired := .registered }

/-- `mtev_consul_complete_service_registration`
(src/modules/consul.c:491-523): `ok` when consul accepts. -/
def complete (s : Svc) (ok : Bool) : Out Svc :=
  if s.desired = s.state then .ok s
  else match s.desired with
    | .registered => .ok (if ok then { s with state := .registered, pushes := s.pushes ++ pushed s } else s)
    | .deregistered => .ok (if ok then { s with state := .deregistered, pushes := s.pushes ++ pushed s } else s)
    | .uninit => .abort

/-- `mtev_consul_push_health` (src/modules/consul.c:437-490): the timer of
a check fires.  Gives the health it sends, if any; the timer goes on unless the
service is deregistered. -/
def tick (s : Svc) (i : Nat) : Svc × Option Code :=
  if i ∈ s.pushes then
    if s.state = .deregistered then ({ s with pushes := s.pushes.erase i }, none)
    else (s, s.codes[i]?)
  else (s, none)

/-- `mtev_consul_set_passing_f` and its like (src/modules/consul.c:163-186). -/
def setCode (s : Svc) (i : Int) (c : Code) : Svc :=
  if i < 0 ∨ i ≥ 5 then s else { s with codes := s.codes.set i.toNat c }

/-- `mtev_consul_health_handler` (src/modules/consul.c:1100-1121): the
health of check `n`, counted from 1; `svc` when the service is known. -/
def health (svc : Option Svc) (n : Option Int) : Code :=
  match svc, n with
  | some s, some n => if n - 1 ≥ 0 ∧ n - 1 < 5 then (s.codes[(n - 1).toNat]?).getD .critical else .critical
  | _, _ => .critical

/-- `service_register_ref` in `mtev_consul_service_registry_f`
(src/modules/consul.c:149-151,602-614). -/
def ref (s : Svc) : Svc := { s with refcnt := s.refcnt + 1 }

/-- `service_register_deref` (src/modules/consul.c:152-161). -/
def deref (s : Svc) : Svc :=
  if s.refcnt - 1 = 0 then { s with refcnt := 0, freed := true } else { s with refcnt := s.refcnt - 1 }

/-! ### Names of services -/

/-- `strlcat` to a buffer of `n`. -/
def cat (n : Nat) (buf s : Str) : Str := buf ++ s.take (n - 1 - buf.length)

/-- `mtev_consul_interp` (src/modules/consul.c:579-600). -/
def interp (app node : Str) (n : Nat) (buf : Str) (id : Str) : Str :=
  match h : id with
  | [] => buf
  | c :: r =>
    if (c :: r).take 5 = bytesOf "{app}" then interp app node n (cat n buf app) (id.drop 5)
    else if (c :: r).take 6 = bytesOf "{node}" then interp app node n (cat n buf node) (id.drop 6)
    else interp app node n (cat n buf [c]) r
termination_by id.length
decreasing_by all_goals (subst h; simp only [List.length_drop, List.length_cons]; omega)

/-- The id of a service that is registered
(`mtev_consul_service_alloc_f`, src/modules/consul.c:624-635). -/
def allocId (app node id : Str) : Str := interp app node 256 [] id

/-- The id that `mtev_consul_service_registry_f` looks up
(src/modules/consul.c:602-606). -/
def lookId (app node id : Str) : Str := interp app node 128 [] id

/-! ### Settings -/

/-- What becomes of a setting: left to others, a value, or a failure. -/
inductive Fix where
  | other
  | value (v : Str)
  | abort
  deriving DecidableEq, Repr

/-- `mtev_consul_conf_fixup` (src/modules/consul.c:1123-1151): `kv` fetches a
key's value, `debug` when the module's debugging log is on.  The key is
part of the text that is freed before it is logged. -/
def fixup (kv : Str → Option Str) (debug : Bool) (v : Str) : Out Fix :=
  if v.take 7 = bytesOf "consul:" then
    let t := v.drop 7
    let key := (t.reverse.takeWhile (fun c => decide (c ≠ 58))).reverse
    let fallback := if 58 ∈ t then some (t.take (t.length - key.length - 1)) else none
    let r := match kv key with
      | some x => some x
      | none => fallback
    if debug then .ub
    else match r with
      | some x => .ok (.value x)
      | none => .ok .abort
  else .ok .other

end Mtev.Consul
