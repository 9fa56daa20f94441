import Verif.Mem

/-!
Output of a console: src/mtev_console.c, lines 97-167, 215-285 and 390-418, and netclear, src/mtev_console_telnet.c:1697-1700.

Modelled: the output buffer with the size the allocator gave (`cap`) beside the size the code remembers (`allocd`), adding to it,
formatted or not, turning line ends into those of telnet, and sending. All of it under one lock, so calls are taken as atomic.
Sizes stay below 2^31; memory does not run out. Consoles over websockets are left out.
-/
namespace Mtev.ConOut

abbrev Str := List Nat

/-- outbuf, outbuf_allocd, outbuf_len (the length of `data`) and outbuf_completed, src/mtev_console_socket.h:67-71. `outbuf_cooked` is
written and never read. `sent` is what the descriptor has taken. -/
structure St where
  cap : Nat
  allocd : Nat
  data : Str
  completed : Nat
  sent : Str
  deriving DecidableEq

/-- malloc or realloc in nc_write_with_lock, src/mtev_console.c:108-118. -/
def grow (bs : Str) (st : St) : St :=
  if st.allocd = 0 then { st with cap := bs.length, allocd := bs.length }
  else if st.allocd < st.data.length + bs.length then { st with cap := st.data.length + bs.length }
  else st

/-- nc_write_with_lock, src/mtev_console.c:105-123. -/
def write (bs : Str) (st : St) : Out St :=
  if bs = [] then .ok st
  else
    let st := grow bs st
    if st.data.length + bs.length ≤ st.cap then .ok { st with data := st.data ++ bs } else .ub

/-- How many bytes vsnprintf writes with the room it is told: `outbuf_allocd - outbuf_len` of two ints made a size_t,
src/mtev_console.c:234-241. -/
def puts (bs : Str) (st : St) : Nat :=
  if st.data.length ≤ st.allocd then min (bs.length + 1) (st.allocd - st.data.length) else bs.length + 1

/-- nc_cmd_vprintf, src/mtev_console.c:221-264; `bs` is the formatted text. The second turn of the loop has room enough. -/
def printf (bs : Str) (st : St) : Out St :=
  let st := if st.allocd = 0 then { st with cap := 4096, allocd := 4096 } else st
  if st.cap < st.data.length + puts bs st then .ub
  else if st.data.length + bs.length < st.allocd then .ok { st with data := st.data ++ bs }
  else
    let n := ((bs.length + st.data.length) / 4096 + 1) * 4096
    .ok { st with cap := n, allocd := n, data := st.data ++ bs }

/-- The loop of nc_telnet_cooker, src/mtev_console.c:155-161: `acc` is what lies between `p` and the place looked at, `prev` the byte
before that place. -/
def cookLoop (acc : Str) (prev : Option Nat) : Str → St → Out St
  | [], st => write acc st
  | c :: r, st =>
    if c = 10 then
      (write acc st).bind fun st =>
        (if prev = some 13 then .ok st else write [13] st).bind fun st => cookLoop [10] (some 10) r st
    else cookLoop (acc ++ [c]) (some c) r st

/-- nc_telnet_cooker, src/mtev_console.c:125-166. -/
def cook (st : St) : Out St :=
  if st.data = [] then .ok st
  else if st.data.length < st.completed then .ub
  else
    let t := st.data.drop st.completed
    if 10 ∈ t then
      cookLoop [] (if st.completed = 0 then none else st.data[st.completed - 1]?) t { st with cap := 0, allocd := 0, data := [], completed := 0 }
    else .ok st

/-- mtev_console_continue_sending, src/mtev_console.c:390-418: the descriptor takes `n` bytes, in one or more writes, before it
would block. -/
def send (telnet : Bool) (n : Nat) (st : St) : Out St :=
  if st.data = [] then .ok st
  else
    (if telnet then cook st else .ok st).bind fun st =>
      let rest := st.data.drop st.completed
      let k := min n rest.length
      let st := { st with sent := st.sent ++ rest.take k, completed := st.completed + k }
      if st.data.length ≤ st.completed then .ok { st with cap := 0, allocd := 0, data := [], completed := 0 } else .ok st

/-- netclear, src/mtev_console_telnet.c:1697-1700. -/
def clear (st : St) : St := { st with data := [] }

/-- What can happen. -/
inductive Op where
  | write (bs : Str)
  | printf (bs : Str)
  | send (n : Nat)
  | clear

/-- It happens. -/
def step (telnet : Bool) (st : St) : Op → Out St
  | .write bs => write bs st
  | .printf bs => printf bs st
  | .send n => send telnet n st
  | .clear => .ok (clear st)

/-- calloc. -/
def St.init : St := ⟨0, 0, [], 0, []⟩

end Mtev.ConOut
