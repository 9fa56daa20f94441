import Verif.Basic

/-!
The listing of events (src/mtev_events_rest.c).
-/

namespace Mtev.EvRest

/-- The socket address of one end: a family with its address and port, another
    family, or none (the call fails). -/
inductive Addr where
  | v4 (a : List Nat) (port : Nat)
  | v6 (a : List Nat) (port : Nat)
  | other
  | absent
deriving DecidableEq, Repr

/-- A number of up to three digits.  Helper. -/
def dec (n : Nat) : List Nat :=
  if n < 10 then [48 + n] else if n < 100 then [48 + n / 10, 48 + n % 10]
  else [48 + n / 100, 48 + n / 10 % 10, 48 + n % 10]

/-- `inet_ntop(AF_INET, …)` on memory: four bytes, dotted. -/
def ntop4 (m : List Nat) : List Nat :=
  dec (m.getD 0 0) ++ [46] ++ dec (m.getD 1 0) ++ [46] ++ dec (m.getD 2 0) ++ [46] ++ dec (m.getD 3 0)

/-- The address and port shown as `local`; `ntop6` is `inet_ntop(AF_INET6, …)`.
    /repo/src/mtev_events_rest.c 63-84 -/
def showLocal (ntop6 : List Nat → List Nat) : Addr → Option (List Nat × Nat)
  | .v4 a p => some (ntop4 a, p)
  | .v6 a p => some (ntop6 a, p)
  | .other => none
  | .absent => none

/-- The address and port shown as `remote`.
    /repo/src/mtev_events_rest.c 85-107: with the family of the other kind for
    the second (98). -/
def showRemote (_ntop6 : List Nat → List Nat) : Addr → Option (List Nat × Nat)
  | .v4 a p => some (ntop4 a, p)
  | .v6 a p => some (ntop4 a, p)
  | .other => none
  | .absent => none

/-- An event: its mask, descriptor, the addresses of its ends, and when it is
    due. -/
structure Ev where
  mask : Nat
  fd_ : Nat
  here : Addr
  there : Addr
  sec : Nat
  usec : Nat

/-- What is shown of it. -/
structure Shown where
  fd_ : Option Nat
  here : Option (List Nat × Nat)
  there : Option (List Nat × Nat)
  mask : Option Nat
  whence : Option Nat
deriving DecidableEq, Repr

/-- `json_spit_event`.  /repo/src/mtev_events_rest.c 42-122.  Simplified: the
    names of callback, pool and implementation are left out. -/
def shown (ntop6 : List Nat → List Nat) (e : Ev) : Shown :=
  if e.mask &&& 7 ≠ 0 then ⟨some e.fd_, showLocal ntop6 e.here, showRemote ntop6 e.there, some e.mask, none⟩
  else if e.mask &&& 8 ≠ 0 then ⟨none, none, none, none, some (e.sec * 1000 % 2 ^ 64 + e.usec / 1000)⟩
  else ⟨none, none, none, none, none⟩

end Mtev.EvRest
