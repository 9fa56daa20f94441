import Verif.Basic
import Mathlib.Data.Nat.Digits.Lemmas

/-!
# Giving up the privileges of a process

Model of src/utils/mtev_security.c (`isuinteger`, `mtev_security_usergroup`) over the identities of a POSIX process as Linux keeps
them.  The variant with Solaris privileges (`HAVE_SETPPRIV`) and capabilities are not modelled; a process is privileged if its
effective user is 0.
-/

namespace Mtev.Security

abbrev Str := List Nat

/-- The identities of a process: real, effective and saved user and group, supplementary groups.  (credentials(7)) -/
structure Proc where
  ruid : Nat
  euid : Nat
  suid : Nat
  rgid : Nat
  egid : Nat
  sgid : Nat
  groups : List Nat
deriving DecidableEq, Repr

/-- The invalid identity `(uid_t)-1`.  (setresuid(2)) -/
def invalid : Nat := 4294967295

/-- `setuid(2)`: `none` if refused. -/
def setuid (u : Nat) (p : Proc) : Option Proc :=
  if u = invalid then none
  else if p.euid = 0 then some { p with ruid := u, euid := u, suid := u }
  else if u = p.ruid ∨ u = p.suid then some { p with euid := u }
  else none

/-- `seteuid(2)`: `none` if refused. -/
def seteuid (u : Nat) (p : Proc) : Option Proc :=
  if u = invalid then none
  else if p.euid = 0 ∨ u = p.ruid ∨ u = p.euid ∨ u = p.suid then some { p with euid := u }
  else none

/-- `setgid(2)`: `none` if refused. -/
def setgid (g : Nat) (p : Proc) : Option Proc :=
  if g = invalid then none
  else if p.euid = 0 then some { p with rgid := g, egid := g, sgid := g }
  else if g = p.rgid ∨ g = p.sgid then some { p with egid := g }
  else none

/-- `setegid(2)`: `none` if refused. -/
def setegid (g : Nat) (p : Proc) : Option Proc :=
  if g = invalid then none
  else if p.euid = 0 ∨ g = p.rgid ∨ g = p.egid ∨ g = p.sgid then some { p with egid := g }
  else none

/-- `isspace` of the C locale. -/
def isSpace (c : Nat) : Bool := c == 32 || (9 ≤ c && c ≤ 13)

/-- `isdigit`. -/
def isDigit (c : Nat) : Bool := 48 ≤ c && c ≤ 57

/-- The value of decimal digits.  (`strtol`, used in mtev_security.c:65 and by `atoi`) -/
def value (s : Str) : Nat := s.foldl (fun (a c : Nat) => 10 * a + (c - 48)) 0

/-- Taking off the sign: whether it is a minus, and the rest.  (`strtol`) -/
def sign : Str → Bool × Str
  | 45 :: s => (true, s)
  | 43 :: s => (false, s)
  | s => (false, s)

/-- `isuinteger`: not empty, not beginning with a blank, and read to the end by `strtol` with a result that is not negative.
mtev_security.c:62-67 -/
def isUInteger (s : Str) : Bool :=
  match s with
  | [] => false
  | c :: _ =>
    if c == 32 || c == 9 then false
    else
      let t := sign (s.dropWhile isSpace)
      !t.2.isEmpty && t.2.all isDigit && (!t.1 || value t.2 == 0)

/-- `atoi` of a text for which `isUInteger` holds, stored in a `uid_t`: `strtol` stops at the largest `long`, the conversions keep
the last 32 bits.  (Standard C leaves `atoi` of larger numbers undefined; this is what the C library does.)
mtev_security.c:127, 149 -/
def atoi (s : Str) : Nat := min (value (sign (s.dropWhile isSpace)).2) (2 ^ 63 - 1) % 2 ^ 32

/-- The identity meant by a text: a number, or a name that is looked up.  The buffer for the lookup (grown and tried again) is not
modelled: the lookup gives an identity or nothing.  mtev_security.c:124-166 -/
def resolve (db : Str → Option Nat) (s : Str) : Option Nat :=
  if isUInteger s then some (atoi s) else db s

/-- Changing the group.  mtev_security.c:181-185 -/
def doGroup (gid : Option Nat) (eff : Bool) (p : Proc) : Bool × Proc :=
  match gid with
  | none => (true, p)
  | some g =>
    if g = (if eff then p.egid else p.rgid) then (true, p)
    else if eff = false ∧ g = 0 then (false, p)
    else match (if eff then setegid g p else setgid g p) with
      | none => (false, p)
      | some q => (true, q)

/-- The check that nothing can be undone: `setuid(0)` and `setgid(0)` must fail.  mtev_security.c:207-208 -/
def check (p : Proc) : Bool × Proc :=
  match setuid 0 p with
  | some q => (false, q)
  | none =>
    match setgid 0 p with
    | some q => (false, q)
    | none => (true, p)

/-- Changing the user.  mtev_security.c:186-210 -/
def doUser (uid : Option Nat) (eff : Bool) (p : Proc) : Bool × Proc :=
  match uid with
  | none => (true, p)
  | some u =>
    if u = (if eff then p.euid else p.ruid) then (true, p)
    else if eff = false ∧ u = 0 then (false, p)
    else match (if eff then seteuid u p else setuid u p) with
      | none => (false, p)
      | some q => if eff then (true, q) else check q

/-- The group first, then the user.  mtev_security.c:181-212 -/
def change (uid gid : Option Nat) (eff : Bool) (p : Proc) : Bool × Proc :=
  let r := doGroup gid eff p
  if r.1 then doUser uid eff r.2 else r

/-- A name that is given must be found.  mtev_security.c:124-165 -/
def lookup (db : Str → Option Nat) : Option Str → Option (Option Nat)
  | none => some none
  | some s => (resolve db s).map some

/-- `mtev_security_usergroup`: whether it gave 0, and the process after it.  mtev_security.c:99-213 -/
def usergroup (pw gr : Str → Option Nat) (user group : Option Str) (eff : Bool) (p : Proc) : Bool × Proc :=
  match lookup pw user with
  | none => (false, p)
  | some uid =>
    match lookup gr group with
    | none => (false, p)
    | some gid => change uid gid eff p

end Mtev.Security
