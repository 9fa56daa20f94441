import Verif.Basic

/-!
# Telnet options of the console

Model of src/mtev_console_telnet.c:2217-2808 (`mtev_console_telnet_send_do`, `willoption`, `send_dont`, `wontoption`, `send_will`,
`dooption`, `send_wont`, `dontoption`) and of the bits in src/mtev_console_telnet.h:195-274.

The code keeps, for each option and each of the two directions, whether the option is on, whether it is wanted on and how many
requests have not been answered.  Both directions do the same except for a few options.  `LINEMODE` is not defined by the project.
Changes to the terminal (`init_termbuf` and so on) and the timers are not modelled; the counter is a number, not a `char` (see
`C129_counter`).
-/

namespace Mtev.TelOpt

/-- One option in one direction: `*_STATE_*`, `*_WANT_STATE_*` and `do_dont_resp` / `will_wont_resp`.
mtev_console_telnet.h:164-166, 195-201 -/
structure Side where
  on : Bool
  want : Bool
  resp : Nat
deriving DecidableEq, Repr

/-- What the receiving functions do to the counter: one less, and one more less if it repeats what was there.
mtev_console_telnet.c:2255-2259, 2453-2457, 2598-2602, 2736-2740 -/
def settle (new : Bool) (s : Side) : Nat :=
  if s.resp = 0 then 0
  else if s.resp - 1 ≠ 0 ∧ s.on = new then s.resp - 2
  else s.resp - 1

/-- `willoption` / `dooption` for an ordinary option: `ok` is whether it may be switched on.  The second part is what is sent:
`true` for DO/WILL, `false` for DONT/WONT.  mtev_console_telnet.c:2245-2431, 2589-2713 -/
def recvOn (ok : Bool) (s : Side) : Side × List Bool :=
  let r := settle true s
  if r = 0 ∧ s.want = false then
    if ok then (⟨true, true, 0⟩, [true]) else (⟨true, false, 1⟩, [false])
  else (⟨true, s.want, r⟩, [])

/-- `wontoption` / `dontoption` for an ordinary option.  mtev_console_telnet.c:2446-2574, 2728-2808 -/
def recvOff (s : Side) : Side × List Bool :=
  let r := settle false s
  if r = 0 ∧ s.want = true then (⟨false, false, 0⟩, if s.on then [false] else [])
  else (⟨false, s.want, r⟩, [])

/-- `send_do(option, 1)` / `send_will(option, 1)` and `send_dont` / `send_wont`: asking for a change.
mtev_console_telnet.c:2217-2235, 2433-2444, 2576-2587, 2715-2726 -/
def ask (new : Bool) (s : Side) : Side × List Bool :=
  if (s.resp = 0 ∧ s.on = new) ∨ s.want = new then (s, [])
  else (⟨s.on, new, s.resp + 1⟩, [new])

/-- Receiving either, mtev_console_telnet.c:2132-2151 -/
def recv (ok : Bool) (new : Bool) (s : Side) : Side × List Bool := if new then recvOn ok s else recvOff s

/-! ### the options by number -/

/-- The four messages, mtev_console_telnet.c:2044-2057 -/
inductive Verb where
  | will | wont | do_ | dont
deriving DecidableEq, Repr

/-- All options: what the peer does (`his`), what the console does (`mine`), and `turn_on_sga`.
mtev_console_telnet.h:164-166, 186 -/
structure Opts where
  his : Nat → Side
  mine : Nat → Side
  sga : Bool

/-- one option changed, mtev_console_telnet.h:224-232 -/
def set (f : Nat → Side) (o : Nat) (s : Side) : Nat → Side := fun i => if i = o then s else f i

/-- The options the peer may switch on: BINARY, SGA, TTYPE, NAWS, TSPEED, LFLOW, XDISPLOC, OLD_ENVIRON, NEW_ENVIRON.
mtev_console_telnet.c:2262-2349 -/
def hisOk (o : Nat) : Bool := decide (o ∈ [0, 3, 24, 31, 32, 33, 35, 36, 39])

/-- The options the console switches on when asked: BINARY, ECHO, SGA, STATUS.  mtev_console_telnet.c:2604-2660 -/
def myOk (o : Nat) : Bool := decide (o ∈ [0, 1, 3, 5])

/-- a message about what the peer does, mtev_console_telnet.c:2234, 2443 -/
def doMsg (o : Nat) (b : Bool) : Verb × Nat := (if b then .do_ else .dont, o)
/-- a message about what the console does, mtev_console_telnet.c:2586, 2725 -/
def willMsg (o : Nat) (b : Bool) : Verb × Nat := (if b then .will else .wont, o)

/-- `willoption`: ECHO (1) is refused; if it had been asked for, it is switched off again at once.
mtev_console_telnet.c:2245-2431 -/
def willoption (o : Nat) (x : Opts) : Opts × List (Verb × Nat) :=
  let s := x.his o
  if o = 1 ∧ settle true s = 0 ∧ s.want = true then
    let p := ask false ⟨s.on, true, 0⟩
    ({ x with his := set x.his o ⟨true, p.1.want, p.1.resp⟩ }, p.2.map (doMsg o))
  else
    let p := recvOn (hisOk o) s
    ({ x with his := set x.his o p.1 }, p.2.map (doMsg o))

/-- `wontoption`: a WONT for a timing mark (6) that was asked for ends there.  mtev_console_telnet.c:2446-2574 -/
def wontoption (o : Nat) (x : Opts) : Opts × List (Verb × Nat) :=
  let s := x.his o
  if o = 6 ∧ settle false s = 0 ∧ s.want = true then
    ({ x with his := set x.his o ⟨s.on, false, 0⟩ }, [])
  else
    let p := recvOff s
    ({ x with his := set x.his o p.1 }, p.2.map (doMsg o))

/-- `dooption`: a timing mark (6) is answered and forgotten; LOGOUT (18) is answered.  mtev_console_telnet.c:2589-2713 -/
def dooption (o : Nat) (x : Opts) : Opts × List (Verb × Nat) :=
  let s := x.mine o
  if settle true s = 0 ∧ s.want = false ∧ o = 6 then
    ({ x with mine := set x.mine o ⟨false, false, 0⟩ }, [(.will, o)])
  else if settle true s = 0 ∧ s.want = false ∧ o = 18 then
    ({ x with mine := set x.mine o ⟨true, true, 0⟩ }, [(.will, o)])
  else
    let p := recvOn (myOk o) s
    ({ x with mine := set x.mine o p.1, sga := if settle true s = 0 ∧ s.want = false ∧ o = 3 then false else x.sga },
      p.2.map (willMsg o))

/-- `dontoption`: every other time SGA (3) is switched off it is asked for again.  mtev_console_telnet.c:2728-2808 -/
def dontoption (o : Nat) (x : Opts) : Opts × List (Verb × Nat) :=
  let s := x.mine o
  if settle false s = 0 ∧ s.want = true ∧ o = 3 then
    let off : List Bool := if s.on then [false] else []
    let p := if x.sga then (⟨false, false, 0⟩, []) else ask true ⟨false, false, 0⟩
    (⟨x.his, set x.mine o p.1, !x.sga⟩, (off ++ p.2).map (willMsg o))
  else
    let p := recvOff s
    ({ x with mine := set x.mine o p.1 }, p.2.map (willMsg o))

/-- A message of the peer: after a WONT for ENCRYPT (38) the console may give up its side of it too.
mtev_console_telnet.c:2132-2151 -/
def message (v : Verb) (o : Nat) (x : Opts) : Opts × List (Verb × Nat) :=
  match v with
  | .will => willoption o x
  | .wont =>
    let p := wontoption o x
    if o = 38 ∧ (p.1.mine o).on ≠ (p.1.mine o).want then
      let q := dontoption o p.1
      (q.1, p.2 ++ q.2)
    else p
  | .do_ => dooption o x
  | .dont => dontoption o x

end Mtev.TelOpt
