import Verif.Basic

/-!
# The telnet stream of the console

Model of src/mtev_console_telnet.c:1863-1888, 1891-2158 (`mtev_console_telnet_telrcv`): from the bytes of the network to bytes for
the terminal, commands, option messages and suboptions.

What these do to the connection is given: a state `σ` that every event changes by `act`, and in which one can see whether the
peer's BINARY option is off (`plain`), `linemode` and `mtev_console_telnet_tty_iscrnl` (`crnl`).  The caller puts a NUL behind the
bytes it got (mtev_console.c:612), so looking at the byte behind the last one is not an error; that byte is not used.
Encryption is not compiled in.
-/

namespace Mtev.Telnet

abbrev Str := List Nat

/-- What comes out: a byte for the terminal (1954, 2082), a command (1964-2038, 2058-2078), an option message (2132-2152; 251 WILL,
252 WONT, 253 DO, 254 DONT), a suboption (2113, 2126).  mtev_console_telnet.c -/
inductive Ev where
  | data (c : Nat)
  | cmd (c : Nat)
  | opt (verb o : Nat)
  | sub (s : Str)
deriving DecidableEq, Repr

/-- The states.  mtev_console_telnet.c:1880-1888 -/
inductive St where
  | data | iac | cr | sb | se | verb (v : Nat)
deriving DecidableEq, Repr

/-- How events change a connection, and what is asked about it.  mtev_console_telnet.c:1938, 1944-1945 -/
structure Env (σ : Type) where
  act : Ev → σ → σ
  plain : σ → Bool
  line : σ → Bool
  crnl : σ → Bool

/-- The receiver: the state (a static variable of the function, 1899), the suboption so far, the connection, and what came out. -/
structure Rx (σ : Type) where
  st : St
  sub : Str
  env : σ
  out : List Ev
deriving DecidableEq, Repr

/-- An event comes out.  (mtev_console_telnet.c:1954 and the other places above) -/
def emit {σ : Type} (E : Env σ) (e : Ev) (r : Rx σ) : Rx σ := { r with env := E.act e r.env, out := r.out ++ [e] }

/-- `SB_ACCUM`: the limit is `sizeof subbuffer`, the size of a pointer.  mtev_console_telnet.c:1865-1867 -/
def accum (c : Nat) (s : Str) : Str := if s.length < 8 then s ++ [c] else s

/-- The suboption that is handed on: IAC and the command after it are added, the pointer is moved back by two.
mtev_console_telnet.c:2109-2112, 2122-2125 -/
def term (c : Nat) (s : Str) : Str :=
  let t := accum c (accum 255 s)
  t.take (t.length - 2)

/-- After IAC.  The commands 236-249 (`xEOF` to `EL`) do something, SE (240), NOP (241), GA (249) and all others nothing.
mtev_console_telnet.c:1957-2086 -/
def gotIac {σ : Type} (E : Env σ) (c : Nat) (r : Rx σ) : Rx σ :=
  if c = 250 then { r with st := .sb, sub := [] }
  else if 251 ≤ c ∧ c ≤ 254 then { r with st := .verb c }
  else if c = 255 then { emit E (.data 255) r with st := .data }
  else if c ∈ [236, 237, 238, 239, 242, 243, 244, 245, 246, 247, 248] then { emit E (.cmd c) r with st := .data }
  else { r with st := .data }

/-- One byte, `next` is the one after it if it has been read.  The second part says whether that one is taken as well.
mtev_console_telnet.c:1902-2155 -/
def step {σ : Type} (E : Env σ) (c : Nat) (next : Option Nat) (r : Rx σ) : Rx σ × Bool :=
  match r.st with
  | .cr => if c = 0 ∨ c = 10 then ({ r with st := .data }, false) else byte { r with st := .data }
  | .data => byte r
  | .iac => (gotIac E c r, false)
  | .sb => if c = 255 then ({ r with st := .se }, false) else ({ r with sub := accum c r.sub }, false)
  | .se =>
    if c = 240 then ({ emit E (.sub (term 240 r.sub)) r with st := .data }, false)
    else if c = 255 then ({ r with st := .sb, sub := accum 255 r.sub }, false)
    else (gotIac E c { emit E (.sub (term c r.sub)) r with st := .iac }, false)
  | .verb v => ({ emit E (.opt v c) r with st := .data }, false)
where
  /-- A byte of data.  mtev_console_telnet.c:1921-1955 -/
  byte (r : Rx σ) : Rx σ × Bool :=
    if c = 255 then ({ r with st := .iac }, false)
    else if c = 13 ∧ E.plain r.env = true then
      if E.line r.env = true ∧ (next = some 10 ∨ (next = some 0 ∧ E.crnl r.env = true)) then (emit E (.data 10) r, true)
      else (emit E (.data 13) { r with st := .cr }, false)
    else (emit E (.data c) r, false)

/-- `mtev_console_telnet_telrcv`: all bytes that were read.  mtev_console_telnet.c:1891-2158 -/
def telrcv {σ : Type} (E : Env σ) : Str → Rx σ → Rx σ
  | [], r => r
  | [c], r => (step E c none r).1
  | c :: d :: s, r =>
    let p := step E c (some d) r
    if p.2 then telrcv E s p.1 else telrcv E (d :: s) p.1

/-- Several connections: the state is one variable for all of them (1899), everything else belongs to the connection.
mtev_console_telnet.c:1899, mtev_console.c:617, 783 -/
def feed {σ : Type} (E : Env σ) (i : Nat) (s : Str) (g : St × (Nat → Str × σ × List Ev)) : St × (Nat → Str × σ × List Ev) :=
  let c := g.2 i
  let r := telrcv E s ⟨g.1, c.1, c.2.1, c.2.2⟩
  (r.st, fun j => if j = i then (r.sub, r.env, r.out) else g.2 j)

end Mtev.Telnet
