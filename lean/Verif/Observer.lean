import Verif.Basic
import Verif.Mem
import Mathlib.Tactic.Common
import Mathlib.Data.List.Basic

/-!
Model of the module that observes HTTP requests
(src/modules/http_observer.c) and of the log hook by which it hears that a
request is over (`mtev_http_log_request`, src/mtev_http.c:563-693).
-/

namespace Mtev.Observer

abbrev Str := List Nat

/-- `http_entry_t` (src/modules/http_observer.c:55-67): times in
nanoseconds, 0 when not yet known.  Simplified: the numbers of bytes are
left out. -/
structure Entry where
  id : Nat
  start : Nat
  reqDone : Nat
  readStart : Nat
  readDone : Nat
  respStart : Nat
  respDone : Nat
  info : List (Str × Str)
  deriving DecidableEq, Repr

/-- `http_entry_track` (src/modules/http_observer.c:75-80): the value of a
key is replaced. -/
def track (l : List (Str × Str)) (k v : Str) : List (Str × Str) := (k, v) :: l.filter (fun p => decide (p.1 ≠ k))

/-- A value by its key. -/
def look (l : List (Str × Str)) (k : Str) : Option Str := (l.find? (fun p => decide (p.1 = k))).map (·.2)

/-- The module's state (src/modules/http_observer.c:45-47,82-83): the
requests being served by their session, the ring of finished ones, the
ring's counter and the next id. -/
structure Obs where
  live : List (Nat × Entry)
  ring : List (Option Entry)
  hptr : Nat
  nextId : Nat
  deriving DecidableEq, Repr

/-- `mtev_hash_retrieve` of `lookup`. -/
def Obs.get (o : Obs) (c : Nat) : Option Entry := (o.live.find? (fun p => decide (p.1 = c))).map (·.2)

/-- Setting an entry of `lookup` (and what changes by its pointer). -/
def Obs.put (o : Obs) (c : Nat) (e : Entry) : Obs :=
  { o with live := (c, e) :: o.live.filter (fun p => decide (p.1 ≠ c)) }

/-- `mtev_hash_delete` of `lookup`. -/
def Obs.del (o : Obs) (c : Nat) : Obs := { o with live := o.live.filter (fun p => decide (p.1 ≠ c)) }

/-- `http_observer_rc` with `allocate_entry`
(src/modules/http_observer.c:85-99,108-162): a request is complete at
`now`, having begun at `start`; `info` is what is noted of it.
Simplified: an entry that is there is found, and what is noted replaces
what it has. -/
def rc (o : Obs) (c now start : Nat) (info : List (Str × Str)) : Obs :=
  match o.get c with
  | some e => o.put c { e with start := start, info := info.foldl (fun l p => track l p.1 p.2) e.info }
  | none =>
    { (o.put c ⟨o.nextId, start, now, 0, 0, 0, 0, info.foldl (fun l p => track l p.1 p.2) []⟩) with
      nextId := o.nextId + 1 }

/-- `http_observer_prrp` (src/modules/http_observer.c:164-179): some of the
payload was read. -/
def prrp (o : Obs) (c now : Nat) : Obs :=
  match o.get c with
  | some e => o.put c { e with readDone := now, readStart := if e.readStart = 0 then now else e.readStart }
  | none => o

/-- `http_observer_rs` (src/modules/http_observer.c:181-213): the response
is sent with a status; its text has room for three characters. -/
def rs (o : Obs) (c now : Nat) (status : Str) : Obs :=
  match o.get c with
  | some e =>
    if e.respStart = 0 then
      o.put c { e with respStart := now, info := track e.info (bytesOf "status") (status.take 3) }
    else o
  | none => o

/-- The entry as `http_observer_rl` completes it
(src/modules/http_observer.c:238-244). -/
def finished (e : Entry) (now : Nat) (status : Str) : Entry :=
  if e.respStart = 0 then
    { e with respDone := now, respStart := now, info := track e.info (bytesOf "status") (status.take 3) }
  else { e with respDone := now }

/-- `http_observer_rl` (src/modules/http_observer.c:215-256): the request
is over; its entry goes to the ring.  The slot is a remainder by the
ring's size, which must not be 0. -/
def rl (o : Obs) (c now : Nat) (status : Str) : Out Obs :=
  match o.get c with
  | some e =>
    if o.ring.length = 0 then .ub
    else .ok { o.del c with ring := o.ring.set (o.hptr % o.ring.length) (some (finished e now status)),
                            hptr := (o.hptr + 1) % 2 ^ 32 }
  | none => .ok o

/-- `http_observer_note_dyn` (src/modules/http_observer.c:258-267). -/
def note (o : Obs) (c : Nat) (k v : Str) : Obs :=
  match o.get c with
  | some e => o.put c { e with info := track e.info k v }
  | none => o

/-- What a query asks of a field (src/modules/http_observer.c:269-273): a
value or a regular expression, `none` when it does not compile. -/
inductive Test where
  | eq (v : Str)
  | re (f : Option (Str → Bool))

/-- The expectations of a query (src/modules/http_observer.c:329-348):
arguments `eq_…` and `re_…`, sixteen at most.  `re` compiles. -/
def expects (re : Str → Option (Str → Bool)) (qs : List (Str × Str)) : List (Str × Test) :=
  (qs.filterMap (fun p =>
    if p.1.take 3 = bytesOf "eq_" then some (p.1.drop 3, Test.eq p.2)
    else if p.1.take 3 = bytesOf "re_" then some (p.1.drop 3, Test.re (re p.2))
    else none)).take 16

/-- Does a value pass (src/modules/http_observer.c:284-285)? -/
def Test.pass : Test → Str → Bool
  | .eq v, s => decide (v = s)
  | .re (some f), s => f s
  | .re none, _ => true

/-- `row_want` (src/modules/http_observer.c:275-288). -/
def wanted (xs : List (Str × Test)) (e : Entry) : Bool :=
  xs.all (fun x => match look e.info x.1 with
    | none => false
    | some s => x.2.pass s)

/-- The age of a finished request in seconds, by unsigned subtraction
(src/modules/http_observer.c:364). -/
def age (now : Nat) (e : Entry) : Nat := ((now + 2 ^ 64 - e.respDone) % 2 ^ 64) / 1000000000

/-- `requests_json_handler` (src/modules/http_observer.c:314-389): the rows
and what is left in the ring.  `now` was taken at the beginning. -/
def listing (o : Obs) (maxAge now : Nat) (xs : List (Str × Test)) : List Entry × Obs :=
  let ring := o.ring.map (fun s => match s with
    | some e => if age now e ≥ maxAge then none else some e
    | none => none)
  ((o.live.map (·.2)).filter (wanted xs) ++ (ring.filterMap id).filter (wanted xs), { o with ring := ring })

/-! ### The log hook -/

/-- What `mtev_http_log_request` keeps in a session
(src/mtev_http_private.h:45-46): a session id of 0 is none. -/
structure Sess where
  logged : Bool
  sid : Nat
  deriving DecidableEq, Repr

/-- `mtev_http_log_state` (src/mtev_http.h:54-56). -/
inductive LogState where
  | receive
  | response
  deriving DecidableEq, Repr

/-- Whether `mtev_http_log_request` (src/mtev_http.c:573-603) gets to the log
hook.  The request has a start time and a method. -/
def logHook (s : Sess) (st : LogState) (nextSid : Nat) : Sess × Bool :=
  match st with
  | .response => if s.logged then (s, false) else ({ s with logged := true }, true)
  | .receive => if s.sid ≠ 0 then (s, false) else ({ s with sid := nextSid }, true)

/-- What happens to a request in a session (src/mtev_http1.c:1713-1715,
1800-1803 and src/mtev_http2.c:979-981, 149). -/
inductive Step where
  | received (start : Nat) (info : List (Str × Str)) (nextSid : Nat)
  | read
  | sent (status : Str)
  | done (status : Str)
  | note (k v : Str)

/-- A session's step as the module sees it, when it is one of those that
serve requests: receiving a request calls the completion hook and logs it
as received; its end logs the response. -/
def step (c : Nat) (p : Obs × Sess) (now : Nat) : Step → Out (Obs × Sess)
  | .received start info nextSid =>
    let o := rc p.1 c now start info
    let r := logHook p.2 .receive nextSid
    if r.2 then
      match rl o c now (bytesOf "0") with
      | .ok o' => .ok (o', r.1)
      | .ub => .ub
      | .abort => .abort
    else .ok (o, r.1)
  | .read => .ok (prrp p.1 c now, p.2)
  | .sent status => .ok (rs p.1 c now status, p.2)
  | .done status =>
    let r := logHook p.2 .response 0
    if r.2 then
      match rl p.1 c now status with
      | .ok o' => .ok (o', ⟨false, 0⟩)
      | .ub => .ub
      | .abort => .abort
    else .ok (p.1, ⟨false, 0⟩)
  | .note k v => .ok (note p.1 c k v, p.2)

/-! ### Lemmas -/

theorem get_put (o : Obs) (c : Nat) (e : Entry) : (o.put c e).get c = some e := by
  simp [Obs.put, Obs.get]

theorem find_filter_ne (l : List (Nat × Entry)) (c d : Nat) (h : d ≠ c) :
    (l.filter (fun p => decide (p.1 ≠ c))).find? (fun p => decide (p.1 = d)) = l.find? (fun p => decide (p.1 = d)) := by
  induction l with
  | nil => rfl
  | cons a l ih =>
    by_cases ha : a.1 = c
    · rw [List.filter_cons_of_neg (by simp [ha]), ih, List.find?_cons_of_neg]
      simp only [decide_eq_true_eq]
      intro hd
      exact h (hd.symm.trans ha)
    · rw [List.filter_cons_of_pos (by simpa using ha)]
      by_cases hd : a.1 = d
      · rw [List.find?_cons_of_pos (by simpa using hd), List.find?_cons_of_pos (by simpa using hd)]
      · rw [List.find?_cons_of_neg (by simpa using hd), List.find?_cons_of_neg (by simpa using hd), ih]

theorem get_put_ne (o : Obs) (c d : Nat) (e : Entry) (h : d ≠ c) : (o.put c e).get d = o.get d := by
  unfold Obs.put Obs.get
  simp only
  rw [List.find?_cons_of_neg (by simpa using Ne.symm h), find_filter_ne _ _ _ h]

theorem get_del_ne (o : Obs) (c d : Nat) (h : d ≠ c) : (o.del c).get d = o.get d := by
  unfold Obs.del Obs.get
  simp only
  rw [find_filter_ne _ _ _ h]

theorem get_del (o : Obs) (c : Nat) : (o.del c).get c = none := by
  unfold Obs.del Obs.get
  simp only
  rw [List.find?_eq_none.2]
  · rfl
  · intro x hx
    have := (List.mem_filter.1 hx).2
    simpa using this

end Mtev.Observer
