import Verif.Conc

/-!
Model of `src/utils/mtev_flow_regulator.c`: a work counter with hysteresis
shared by any number of clients.

Granularity: one step of one client is one atomic access of the C code
(`ck_pr_load_uint`, `ck_pr_cas_uint`) together with the thread-local code up
to the next atomic access.  Any client may go next.  A "client" is a logical
activity: it has at most one call in progress, and a client that was handed a
toggle calls `mtev_flow_regulator_ack` with it before it makes another call
(this is the documented duty of the caller, mtev_flow_regulator.h).
-/
namespace Mtev.Flow

/-- `mtev_flow_regulator_toggle_t` (mtev_flow_regulator.h:59-64). -/
inductive Toggle | disabled | disable | keep | enable
deriving DecidableEq, Repr

/-- On whose behalf an inner `adjust_up`/`lower` runs: directly under
`raise_one`, `lower` or `ack`, or inside one of the two `stable_` wrappers.
`tryR`, `tryD`, `tryE` are the points of the loop of `stable_try_raise_one`
where the value of `t` comes from `raise_one` (101, 134), `ack(DISABLE)` (112)
and `ack(ENABLE)` (131); `stl last` is the loop of `stable_lower` with the
value of `last_t` (`none` while in the first `lower`, line 144). -/
inductive Mode | raise | lower | ack | tryR | tryD | tryE | stl (last : Option Toggle)
deriving DecidableEq, Repr

/-- What a client last got back. -/
inductive Ret | nothing | tog (t : Toggle) | bool (b : Bool)
deriving DecidableEq, Repr

/-- Where a client is. -/
inductive PC
  | idle (r : Ret)
  /-- mtev_flow_regulator.c:44, about to load `cur` -/
  | up1 (m : Mode) (adj : Nat)
  /-- line 52, about to CAS `cur` from `old` to `old + adj` -/
  | up2 (m : Mode) (adj old : Nat)
  /-- line 46, saw `cur == high`, about to CAS the state -/
  | upT (m : Mode)
  /-- line 67, about to load `cur` -/
  | lo1 (m : Mode) (byN : Nat)
  /-- line 70, about to CAS `cur` from `old` to `old - by` -/
  | lo2 (m : Mode) (byN old : Nat)
  /-- line 72, about to CAS the state -/
  | loT (m : Mode)
  /-- line 84, acknowledging DISABLE -/
  | ackD (m : Mode)
  /-- line 89, acknowledging ENABLE -/
  | ackE (m : Mode)
  /-- an `mtevAssert` failed: the process aborts -/
  | crash
deriving DecidableEq, Repr

/-- Toggle events in the order in which they take effect. -/
inductive Ev (n : Nat)
  /-- client `i` was handed toggle `t` -/
  | issue (i : Fin n) (t : Toggle)
  /-- client `i` acknowledged toggle `t` -/
  | ack (i : Fin n) (t : Toggle)
deriving DecidableEq, Repr

/-- `struct _mtev_flow_regulator_t` (15-21) plus the clients and four ghost
counters that the C code does not have: `got i`, successful reservations
(counter increments) by `i`; `yes i`, calls of `i` that reported success;
`rel`, work released so far; `beg`, work whose release was started. -/
structure St (n : Nat) where
  low : Nat
  high : Nat
  cur : Nat
  reg : Nat
  pc : Fin n → PC
  evs : List (Ev n)
  got : Fin n → Nat
  yes : Fin n → Nat
  rel : Nat
  beg : Nat

/-- `mtev_flow_regulator_create` (23-31); `none` is the failed assertion of
line 25.  Thresholds are `unsigned int`. -/
def create (n low high : Nat) : Option (St n) :=
  if low < high then
    some { low := low, high := high, cur := 0, reg := 0, pc := fun _ => .idle .nothing,
           evs := [], got := fun _ => 0, yes := fun _ => 0, rel := 0, beg := 0 }
  else none

/-- Control flow after an inner call returned `r`: back to the caller for the
plain calls; `mtev_flow_regulator_stable_try_raise_one` (99-140) and
`mtev_flow_regulator_stable_lower` (142-151) for the wrappers. -/
def ret : Mode → Toggle → PC
  | .raise, r => .idle (.tog r)
  | .lower, r => .idle (.tog r)
  | .ack, r => .idle (.tog r)
  -- 103-137 after raise_one
  | .tryR, .disabled => .idle (.bool false)
  | .tryR, .disable => .ackD .tryD
  | .tryR, .keep => .idle (.bool true)
  | .tryR, .enable => .ackE .tryE
  -- 112-121
  | .tryD, .keep => .idle (.bool false)
  | .tryD, .enable => .ackE .tryE
  | .tryD, _ => .crash
  -- 128-136
  | .tryE, .keep => .up1 .tryR 1
  | .tryE, .disabled => .idle (.bool false)
  | .tryE, .disable => .ackD .tryD
  | .tryE, .enable => .ackE .tryE
  -- 146-150: ack(KEEP) and ack(DISABLED) return KEEP (93-96)
  | .stl last, .keep => .idle (.bool (last == some .enable))
  | .stl _, .disabled => .idle (.bool false)
  | .stl _, .disable => .ackD (.stl (some .disable))
  | .stl _, .enable => .ackE (.stl (some .enable))

/-- Did this return tell the caller that a work item was accepted?
(`raise_one` returned KEEP, or `stable_try_raise_one` returned true.) -/
def success : Mode → Toggle → Bool
  | .raise, r => r == .keep
  | .tryR, r => ret .tryR r == .idle (.bool true)
  | .tryD, r => ret .tryD r == .idle (.bool true)
  | .tryE, r => ret .tryE r == .idle (.bool true)
  | _, _ => false

/-- Client `i` leaves an inner call with `r`. -/
def finish {n : Nat} (s : St n) (i : Fin n) (m : Mode) (r : Toggle) : St n :=
  { s with pc := upd s.pc i (ret m r),
           yes := upd s.yes i (s.yes i + if success m r then 1 else 0) }

/-- Client `i` moves without leaving. -/
def goto {n : Nat} (s : St n) (i : Fin n) (p : PC) : St n := { s with pc := upd s.pc i p }

/-- One atomic access of client `i`. -/
def tick {n : Nat} (s : St n) (i : Fin n) : St n :=
  match s.pc i with
  | .idle _ => s
  | .crash => s
  -- 44-45
  | .up1 m adj => if s.cur = s.high then goto s i (.upT m) else goto s i (.up2 m adj s.cur)
  -- 52-53
  | .up2 m adj old =>
    if s.cur = old then
      finish { s with cur := (old + adj) % 2 ^ 32, got := upd s.got i (s.got i + adj) } i m .keep
    else goto s i (.up1 m adj)
  -- 46-50
  | .upT m =>
    if s.reg = 0 then finish { s with reg := 1, evs := s.evs ++ [.issue i .disable] } i m .disable
    else finish s i m .disabled
  -- 67-69
  | .lo1 m b => if b ≤ s.cur then goto s i (.lo2 m b s.cur) else goto s i .crash
  -- 70-71
  | .lo2 m b old =>
    if s.cur = old then
      let s' := { s with cur := old - b, rel := s.rel + b }
      if old - b ≤ s.low then goto s' i (.loT m) else finish s' i m .keep
    else goto s i (.lo1 m b)
  -- 72-76
  | .loT m =>
    if s.reg = 2 then finish { s with reg := 3, evs := s.evs ++ [.issue i .enable] } i m .enable
    else finish s i m .keep
  -- 84-86
  | .ackD m =>
    if s.reg = 1 then goto { s with reg := 2, evs := s.evs ++ [.ack i .disable] } i (.lo1 m 0)
    else goto s i .crash
  -- 89-92
  | .ackE m =>
    if s.reg = 3 then goto { s with reg := 0, evs := s.evs ++ [.ack i .enable] } i (.up1 m 0)
    else goto s i .crash

/-- What a client may do: start one of the five calls or take the next atomic
access of the call in progress. -/
inductive Act | raise | lower (b : Nat) | ack | tryRaise | stableLower (b : Nat) | tick
deriving DecidableEq, Repr

/-- Is the client between calls and free to make any call (holds no toggle it
must acknowledge)? -/
def free : PC → Bool
  | .idle (.tog .disable) => false
  | .idle (.tog .enable) => false
  | .idle _ => true
  | _ => false

/-- Work that may still be released: accepted and reported, minus the releases
already started. -/
def releasable {n : Nat} (s : St n) : Nat := (∑ i, s.yes i) - s.beg

/-- One action of one client.  Actions that the client is not in a position to
take leave the state alone; work is released only after it was reported as
accepted. -/
def exec {n : Nat} (s : St n) (i : Fin n) : Act → St n
  -- 56-59
  | .raise => if free (s.pc i) then goto s i (.up1 .raise 1) else s
  -- 61
  | .lower b =>
    if free (s.pc i) ∧ b ≤ releasable s then goto { s with beg := s.beg + b } i (.lo1 .lower b) else s
  -- 79-97
  | .ack =>
    match s.pc i with
    | .idle (.tog .disable) => goto s i (.ackD .ack)
    | .idle (.tog .enable) => goto s i (.ackE .ack)
    | .idle (.tog _) => goto s i (.idle (.tog .keep))
    | _ => s
  -- 101
  | .tryRaise => if free (s.pc i) then goto s i (.up1 .tryR 1) else s
  -- 144
  | .stableLower b =>
    if free (s.pc i) ∧ b ≤ releasable s then
      goto { s with beg := s.beg + b } i (.lo1 (.stl none) b) else s
  | .tick => tick s i

/-- A history: who does what, in order. -/
def run {n : Nat} (s : St n) : List (Fin n × Act) → St n
  | [] => s
  | (i, a) :: h => run (exec s i a) h

/-! ### `tick` by program point -/

theorem goto_pc {n : Nat} (s : St n) (i : Fin n) (p : PC) : (goto s i p).pc i = p := by
  simp [goto]

theorem tick_idle {n : Nat} {s : St n} {i : Fin n} {r : Ret} (h : s.pc i = .idle r) :
    tick s i = s := by unfold tick; rw [h]

theorem tick_up1 {n : Nat} {s : St n} {i : Fin n} {m : Mode} {adj : Nat}
    (h : s.pc i = .up1 m adj) :
    tick s i = if s.cur = s.high then goto s i (.upT m) else goto s i (.up2 m adj s.cur) := by
  unfold tick; rw [h]

theorem tick_up2 {n : Nat} {s : St n} {i : Fin n} {m : Mode} {adj old : Nat}
    (h : s.pc i = .up2 m adj old) :
    tick s i = if s.cur = old then
      finish { s with cur := (old + adj) % 2 ^ 32, got := upd s.got i (s.got i + adj) } i m .keep
    else goto s i (.up1 m adj) := by
  unfold tick; rw [h]

theorem tick_upT {n : Nat} {s : St n} {i : Fin n} {m : Mode} (h : s.pc i = .upT m) :
    tick s i = if s.reg = 0 then
      finish { s with reg := 1, evs := s.evs ++ [.issue i .disable] } i m .disable
    else finish s i m .disabled := by
  unfold tick; rw [h]

theorem tick_lo1 {n : Nat} {s : St n} {i : Fin n} {m : Mode} {b : Nat} (h : s.pc i = .lo1 m b) :
    tick s i = if b ≤ s.cur then goto s i (.lo2 m b s.cur) else goto s i .crash := by
  unfold tick; rw [h]

theorem tick_lo2 {n : Nat} {s : St n} {i : Fin n} {m : Mode} {b old : Nat}
    (h : s.pc i = .lo2 m b old) :
    tick s i = if s.cur = old then
      (if old - b ≤ s.low then goto { s with cur := old - b, rel := s.rel + b } i (.loT m)
       else finish { s with cur := old - b, rel := s.rel + b } i m .keep)
    else goto s i (.lo1 m b) := by
  unfold tick; rw [h]

theorem tick_loT {n : Nat} {s : St n} {i : Fin n} {m : Mode} (h : s.pc i = .loT m) :
    tick s i = if s.reg = 2 then
      finish { s with reg := 3, evs := s.evs ++ [.issue i .enable] } i m .enable
    else finish s i m .keep := by
  unfold tick; rw [h]

/-! ### Invariant -/

/-- Has been handed DISABLE and not yet acknowledged it. -/
def holdD : PC → Bool
  | .idle (.tog .disable) => true
  | .ackD _ => true
  | _ => false

/-- Has been handed ENABLE and not yet acknowledged it. -/
def holdE : PC → Bool
  | .idle (.tog .enable) => true
  | .ackE _ => true
  | _ => false

/-- Release in progress that has not hit the counter. -/
def pend : PC → Nat
  | .lo1 _ b => b
  | .lo2 _ b _ => b
  | _ => 0

/-- Inside `lower`. -/
def lowering : PC → Bool
  | .lo1 _ _ => true
  | .lo2 _ _ _ => true
  | .loT _ => true
  | _ => false

/-- Which modes run which inner function, with which adjustment. -/
def upMode : Mode → Nat → Bool
  | .raise, a => a == 1
  | .tryR, a => a == 1
  | .ack, a => a == 0
  | .tryE, a => a == 0
  | .stl _, a => a == 0
  | _, _ => false

def loMode : Mode → Bool
  | .lower => true
  | .ack => true
  | .tryD => true
  | .stl _ => true
  | _ => false

def wfPC (high : Nat) : PC → Bool
  | .idle _ => true
  | .up1 m a => upMode m a
  | .up2 m a old => upMode m a && decide (old ≠ high)
  | .upT m => upMode m 0 || upMode m 1
  | .lo1 m _ => loMode m
  | .lo2 m _ _ => loMode m
  | .loT m => loMode m
  | .ackD m => m == .ack || m == .tryD || (match m with | .stl _ => true | _ => false)
  | .ackE m => m == .ack || m == .tryE || (match m with | .stl _ => true | _ => false)
  | .crash => false

/-- The kind of the `k`-th toggle event. -/
def kindOk {n : Nat} : Nat → Ev n → Bool
  | 0, .issue _ .disable => true
  | 1, .ack _ .disable => true
  | 2, .issue _ .enable => true
  | 3, .ack _ .enable => true
  | _, _ => false

def who {n : Nat} : Ev n → Fin n
  | .issue i _ => i
  | .ack i _ => i

structure Inv {n : Nat} (s : St n) : Prop where
  thr : s.low < s.high
  word : s.high < 2 ^ 32
  wf : ∀ j, wfPC s.high (s.pc j) = true
  bound : s.cur ≤ s.high
  count : (∑ j, s.got j) = s.cur + s.rel
  begun : s.beg = s.rel + ∑ j, pend (s.pc j)
  begle : s.beg ≤ ∑ j, s.yes j
  match_ : ∀ j, s.got j = s.yes j
  reg4 : s.reg < 4
  len : s.evs.length % 4 = s.reg
  kinds : ∀ k (h : k < s.evs.length), kindOk (k % 4) s.evs[k] = true
  pairs : ∀ k (h : k + 1 < s.evs.length), k % 2 = 0 → who s.evs[k + 1] = who s.evs[k]
  hD : ∀ j, holdD (s.pc j) = true ↔ s.reg = 1 ∧ s.evs.getLast? = some (.issue j .disable)
  hE : ∀ j, holdE (s.pc j) = true ↔ s.reg = 3 ∧ s.evs.getLast? = some (.issue j .enable)
  wake : s.reg = 2 → s.cur ≤ s.low → ∃ j, lowering (s.pc j) = true

theorem inv_create {n low high : Nat} {s : St n} (hw : high < 2 ^ 32)
    (h : create n low high = some s) : Inv s := by
  unfold create at h
  split at h
  · cases h
    constructor <;> simp_all [pend, holdD, holdE, wfPC]
  · cases h

/-- A move that touches only the client's own place and keeps its toggle,
pending release and lowering status. -/
theorem inv_goto {n : Nat} {s : St n} (i : Fin n) (p : PC) (hs : Inv s)
    (hw : wfPC s.high p = true) (hp : pend p = pend (s.pc i)) (hd : holdD p = holdD (s.pc i))
    (he : holdE p = holdE (s.pc i)) (hl : lowering (s.pc i) = true → lowering p = true) :
    Inv (goto s i p) := by
  have hsum := sum_upd pend s.pc i p
  obtain ⟨a1, a2, a3, a4, a5, a6, a7, a8, a9, a10, a11, a12, a13, a14, a15⟩ := hs
  constructor <;> simp only [goto] <;> try assumption
  · intro j
    rcases upd_cases s.pc i j p with ⟨_, e⟩ | ⟨_, e⟩ <;> rw [e]
    · exact hw
    · exact a3 j
  · omega
  · intro j
    rcases upd_cases s.pc i j p with ⟨e1, e⟩ | ⟨_, e⟩ <;> rw [e]
    · subst e1; rw [hd]; exact a13 j
    · exact a13 j
  · intro j
    rcases upd_cases s.pc i j p with ⟨e1, e⟩ | ⟨_, e⟩ <;> rw [e]
    · subst e1; rw [he]; exact a14 j
    · exact a14 j
  · intro h2 h3
    obtain ⟨j, hj⟩ := a15 h2 h3
    refine ⟨j, ?_⟩
    rcases upd_cases s.pc i j p with ⟨e1, e⟩ | ⟨_, e⟩ <;> rw [e]
    · subst e1; exact hl hj
    · exact hj

theorem ret_pend (m : Mode) (r : Toggle) : pend (ret m r) = 0 := by
  cases m <;> cases r <;> rfl

theorem ret_keep_hold (m : Mode) : holdD (ret m .keep) = false ∧ holdE (ret m .keep) = false := by
  cases m <;> exact ⟨rfl, rfl⟩

theorem ret_disabled_hold (m : Mode) :
    holdD (ret m .disabled) = false ∧ holdE (ret m .disabled) = false := by
  cases m <;> exact ⟨rfl, rfl⟩

theorem ret_disable_hold (m : Mode) (h : m ≠ .tryD) :
    holdD (ret m .disable) = true ∧ holdE (ret m .disable) = false := by
  cases m <;> first | exact ⟨rfl, rfl⟩ | exact absurd rfl h

theorem ret_enable_hold (m : Mode) :
    holdD (ret m .enable) = false ∧ holdE (ret m .enable) = true := by
  cases m <;> exact ⟨rfl, rfl⟩

theorem ret_wf_up (hi : Nat) (m : Mode) (a : Nat) (r : Toggle) (h : upMode m a = true) :
    wfPC hi (ret m r) = true := by
  cases m <;> cases r <;> first | rfl | simp [upMode] at h

theorem ret_wf_lo (hi : Nat) (m : Mode) (r : Toggle) (h : loMode m = true) (hr : r = .keep ∨ r = .enable) :
    wfPC hi (ret m r) = true := by
  cases m <;> rcases hr with rfl | rfl <;> first | rfl | simp [loMode] at h

theorem upMode_tryD (m : Mode) (a : Nat) (h : upMode m a = true) : m ≠ .tryD := by
  cases m <;> simp [upMode] at h ⊢

theorem success_up (m : Mode) (a : Nat) (h : upMode m a = true) :
    (if success m .keep then 1 else 0) = a := by
  cases m <;> simp [upMode] at h <;> subst h <;> rfl

theorem success_lo (m : Mode) (r : Toggle) (h : loMode m = true) : success m r = false := by
  cases m <;> cases r <;> first | rfl | simp [loMode] at h

theorem success_up_no (m : Mode) (r : Toggle) (h : r ≠ .keep) : success m r = false := by
  cases m <;> cases r <;> first | rfl | exact absurd rfl h

/-- Leaving an inner call without a toggle and without a change of the state
word; the counter may have moved. -/
theorem inv_finish_plain {n : Nat} {s : St n} (i : Fin n) (m : Mode) (r : Toggle)
    (cur' rel' : Nat) (got' : Fin n → Nat)
    (hs : Inv s)
    (hw : wfPC s.high (ret m r) = true)
    (hr : holdD (ret m r) = false ∧ holdE (ret m r) = false)
    (hd : holdD (s.pc i) = false) (he : holdE (s.pc i) = false)
    (hb : cur' ≤ s.high)
    (hgot : got' = upd s.got i (s.got i + if success m r then 1 else 0))
    (hcount : (∑ j, got' j) = cur' + rel')
    (hrel : rel' = s.rel + pend (s.pc i))
    (hwake : s.reg = 2 → cur' ≤ s.low → s.cur ≤ s.low ∧ lowering (s.pc i) = false) :
    Inv (finish { s with cur := cur', rel := rel', got := got' } i m r) := by
  have hsum := sum_upd pend s.pc i (ret m r)
  rw [ret_pend] at hsum
  obtain ⟨a1, a2, a3, a4, a5, a6, a7, a8, a9, a10, a11, a12, a13, a14, a15⟩ := hs
  have hyes := sum_upd (fun x : Nat => x) s.yes i (s.yes i + if success m r then 1 else 0)
  constructor <;> simp only [finish] <;> try assumption
  · intro j
    rcases upd_cases s.pc i j (ret m r) with ⟨_, e⟩ | ⟨_, e⟩ <;> rw [e]
    · exact hw
    · exact a3 j
  · omega
  · omega
  · intro j
    subst hgot
    rcases upd_cases s.got i j (s.got i + if success m r then 1 else 0) with ⟨e1, e⟩ | ⟨e1, e⟩
    · subst e1; simp [a8]
    · rw [e, upd_other _ _ _ _ e1]; exact a8 j
  · intro j
    rcases upd_cases s.pc i j (ret m r) with ⟨e1, e⟩ | ⟨_, e⟩ <;> rw [e]
    · subst e1; rw [hr.1, ← hd]; exact a13 j
    · exact a13 j
  · intro j
    rcases upd_cases s.pc i j (ret m r) with ⟨e1, e⟩ | ⟨_, e⟩ <;> rw [e]
    · subst e1; rw [hr.2, ← he]; exact a14 j
    · exact a14 j
  · intro h2 h3
    obtain ⟨h4, h5⟩ := hwake h2 h3
    obtain ⟨j, hj⟩ := a15 h2 h4
    refine ⟨j, ?_⟩
    rcases upd_cases s.pc i j (ret m r) with ⟨e1, e⟩ | ⟨_, e⟩
    · subst e1; rw [h5] at hj; cases hj
    · rw [e]; exact hj

/-- A change of the state word, with the event it records. -/
theorem inv_event {n : Nat} {s : St n} (i : Fin n) (p : PC) (yes' : Fin n → Nat) (reg' : Nat) (ev : Ev n)
    (hs : Inv s) (hreg : reg' = (s.reg + 1) % 4) (hy : yes' = s.yes)
    (hw : wfPC s.high p = true) (hp : pend p = pend (s.pc i))
    (hwho : who ev = i)
    (hk : kindOk s.reg ev = true)
    (hdn : holdD p = true ↔ (s.reg = 0))
    (hen : holdE p = true ↔ (s.reg = 2))
    (hcur : (s.reg = 1 → holdD (s.pc i) = true) ∧ (s.reg = 3 → holdE (s.pc i) = true))
    (hlow : s.reg = 1 → lowering p = true) :
    Inv { s with pc := upd s.pc i p, yes := yes', reg := reg',
                 evs := s.evs ++ [ev] } := by
  have hsum := sum_upd pend s.pc i p
  obtain ⟨a1, a2, a3, a4, a5, a6, a7, a8, a9, a10, a11, a12, a13, a14, a15⟩ := hs
  subst hy hreg
  have hcases : s.reg = 0 ∨ s.reg = 1 ∨ s.reg = 2 ∨ s.reg = 3 := by omega
  constructor <;> simp only <;> try assumption
  · intro j
    rcases upd_cases s.pc i j p with ⟨_, e⟩ | ⟨_, e⟩ <;> rw [e]
    · exact hw
    · exact a3 j
  · omega
  · omega
  · simp; omega
  · intro k h
    simp only [List.length_append, List.length_singleton] at h
    by_cases hk' : k < s.evs.length
    · rw [List.getElem_append_left hk']; exact a11 k hk'
    · have e : k = s.evs.length := by omega
      subst e
      rw [List.getElem_append_right (by omega)]
      simp [a10, hk]
  · intro k h he
    simp only [List.length_append, List.length_singleton] at h
    by_cases hk' : k + 1 < s.evs.length
    · rw [List.getElem_append_left hk', List.getElem_append_left (by omega)]; exact a12 k hk' he
    · have e : s.evs.length = k + 1 := by omega
      have e2 : who ((s.evs ++ [ev])[k + 1]'(by simp; omega)) = i := by
        rw [List.getElem_append_right (by omega)]; simp [e, hwho]
      rw [e2, List.getElem_append_left (by omega)]
      have e3 : s.evs.getLast? = some (s.evs[k]'(by omega)) := by
        have hx : s.evs.length - 1 = k := by omega
        rw [List.getLast?_eq_getElem?, hx]; simp
      rcases hcases with h0 | h1 | h2 | h3
      · omega
      · have := (a13 i).1 (hcur.1 h1)
        rw [e3] at this
        have := Option.some.inj this.2
        rw [this]; rfl
      · omega
      · have := (a14 i).1 (hcur.2 h3)
        rw [e3] at this
        have := Option.some.inj this.2
        rw [this]; rfl
  · intro j
    simp only [List.getLast?_append, List.getLast?_singleton, Option.or_some, Option.some_or]
    rcases upd_cases s.pc i j p with ⟨e1, e⟩ | ⟨e1, e⟩ <;> rw [e]
    · subst e1
      rw [hdn]
      constructor
      · intro h0
        rw [h0] at hk
        refine ⟨by omega, ?_⟩
        cases ev <;> rename_i x t <;> cases t <;> simp [kindOk] at hk
        simp [who] at hwho; simp [hwho]
      · intro h; omega
    · constructor
      · intro h
        obtain ⟨b1, b2⟩ := (a13 j).1 h
        have b3 := ((a13 i).1 (hcur.1 b1)).2
        rw [b2] at b3
        simp at b3; exact absurd b3 e1
      · rintro ⟨_, h⟩
        have := Option.some.inj h
        subst this; exact absurd hwho e1
  · intro j
    simp only [List.getLast?_append, List.getLast?_singleton, Option.or_some, Option.some_or]
    rcases upd_cases s.pc i j p with ⟨e1, e⟩ | ⟨e1, e⟩ <;> rw [e]
    · subst e1
      rw [hen]
      constructor
      · intro h0
        rw [h0] at hk
        refine ⟨by omega, ?_⟩
        cases ev <;> rename_i x t <;> cases t <;> simp [kindOk] at hk
        simp [who] at hwho; simp [hwho]
      · intro h; omega
    · constructor
      · intro h
        obtain ⟨b1, b2⟩ := (a14 j).1 h
        have b3 := ((a14 i).1 (hcur.2 b1)).2
        rw [b2] at b3
        simp at b3; exact absurd b3 e1
      · rintro ⟨_, h⟩
        have := Option.some.inj h
        subst this; exact absurd hwho e1
  · intro h2 _
    exact ⟨i, by simp [hlow (by omega)]⟩

/-- The counter of a successful release that drops to the low mark. -/
theorem inv_lowered {n : Nat} {s : St n} (i : Fin n) (p : PC) (cur' rel' : Nat)
    (hs : Inv s) (hw : wfPC s.high p = true) (hp : pend p = 0)
    (hd : holdD p = holdD (s.pc i)) (he : holdE p = holdE (s.pc i))
    (hl : lowering p = true) (hb : cur' ≤ s.high) (hsame : cur' + rel' = s.cur + s.rel)
    (hrel : rel' = s.rel + pend (s.pc i)) :
    Inv (goto { s with cur := cur', rel := rel' } i p) := by
  have hsum := sum_upd pend s.pc i p
  obtain ⟨a1, a2, a3, a4, a5, a6, a7, a8, a9, a10, a11, a12, a13, a14, a15⟩ := hs
  constructor <;> simp only [goto] <;> try assumption
  · intro j
    rcases upd_cases s.pc i j p with ⟨_, e⟩ | ⟨_, e⟩ <;> rw [e]
    · exact hw
    · exact a3 j
  · omega
  · omega
  · intro j
    rcases upd_cases s.pc i j p with ⟨e1, e⟩ | ⟨_, e⟩ <;> rw [e]
    · subst e1; rw [hd]; exact a13 j
    · exact a13 j
  · intro j
    rcases upd_cases s.pc i j p with ⟨e1, e⟩ | ⟨_, e⟩ <;> rw [e]
    · subst e1; rw [he]; exact a14 j
    · exact a14 j
  · intro _ _
    exact ⟨i, by simp [hl]⟩

theorem upd_self {n : Nat} {α : Type} (p : Fin n → α) (i : Fin n) : upd p i (p i) = p := by
  funext j
  rcases upd_cases p i j (p i) with ⟨e1, e⟩ | ⟨_, e⟩ <;> rw [e]
  subst e1; rfl

theorem upMode_le (m : Mode) (a : Nat) (h : upMode m a = true) : a ≤ 1 := by
  cases m <;> simp [upMode] at h <;> omega

theorem upMode_or (m : Mode) (h : (upMode m 0 || upMode m 1) = true) :
    ∃ a, upMode m a = true := by
  rw [Bool.or_eq_true] at h
  rcases h with h | h
  · exact ⟨0, h⟩
  · exact ⟨1, h⟩

theorem inv_tick {n : Nat} {s : St n} (i : Fin n) (hs : Inv s) : Inv (tick s i) := by
  have hwf := hs.wf i
  have hpe := le_sum pend s.pc i
  have hD := hs.hD i
  have hE := hs.hE i
  have hbeg := hs.begun
  have hbl := hs.begle
  have hcount := hs.count
  have hgy : (∑ j, s.got j) = ∑ j, s.yes j := Finset.sum_congr rfl fun j _ => hs.match_ j
  have hbound := hs.bound
  have hword := hs.word
  unfold tick
  split
  · exact hs
  · exact hs
  · -- up1
    rename_i m adj hpc
    rw [hpc] at hwf hpe
    split
    · refine inv_goto i _ hs ?_ ?_ ?_ ?_ ?_ <;> (try rw [hpc]) <;> try rfl
      · simp only [wfPC] at hwf ⊢
        have := upMode_le m adj hwf
        have : adj = 0 ∨ adj = 1 := by omega
        rcases this with rfl | rfl <;> simp [hwf]
      · intro h; simp [lowering] at h
    · rename_i hne
      refine inv_goto i _ hs ?_ ?_ ?_ ?_ ?_ <;> (try rw [hpc]) <;> try rfl
      · simp only [wfPC] at hwf ⊢; simp [hwf, hne]
      · intro h; simp [lowering] at h
  · -- up2
    rename_i m adj old hpc
    rw [hpc] at hwf hpe
    simp only [wfPC, Bool.and_eq_true, decide_eq_true_eq] at hwf
    split
    · rename_i hc
      have hle := upMode_le m adj hwf.1
      have hmod : (old + adj) % 2 ^ 32 = old + adj := Nat.mod_eq_of_lt (by omega)
      rw [hmod]
      have hsum := sum_upd (fun x : Nat => x) s.got i (s.got i + adj)
      refine inv_finish_plain i m .keep (old + adj) s.rel _ hs (ret_wf_up _ m adj _ hwf.1)
        (ret_keep_hold m) (by rw [hpc]; rfl) (by rw [hpc]; rfl) (by omega) ?_ ?_ ?_ ?_
      · rw [success_up m adj hwf.1]
      · omega
      · rw [hpc]; simp [pend]
      · intro _ h; rw [hpc]; exact ⟨by omega, rfl⟩
    · refine inv_goto i _ hs ?_ ?_ ?_ ?_ ?_ <;> (try rw [hpc]) <;> try rfl
      · exact hwf.1
      · intro h; simp [lowering] at h
  · -- upT
    rename_i m hpc
    rw [hpc] at hwf hpe hD hE
    obtain ⟨a, ha⟩ := upMode_or m hwf
    split
    · rename_i hr
      obtain ⟨x1, x2⟩ := ret_disable_hold m (upMode_tryD m a ha)
      refine inv_event i _ _ 1 _ hs (by omega) ?_ (ret_wf_up _ m a _ ha) ?_ rfl (by rw [hr]; rfl) ?_ ?_ ?_ ?_
      · rw [success_up_no m _ (by simp)]; exact upd_self _ _
      · rw [ret_pend, hpc]; rfl
      · simp [x1, hr]
      · simp [x2, hr]
      · simp [hr]
      · intro h; omega
    · refine inv_finish_plain i m .disabled s.cur s.rel s.got hs (ret_wf_up _ m a _ ha)
        (ret_disabled_hold m) (by rw [hpc]; rfl) (by rw [hpc]; rfl) (by omega) ?_ ?_ ?_ ?_
      · rw [success_up_no m _ (by simp)]; exact (upd_self _ _).symm
      · omega
      · rw [hpc]; simp [pend]
      · intro _ h; rw [hpc]; exact ⟨by omega, rfl⟩
  · -- lo1
    rename_i m b hpc
    rw [hpc] at hwf hpe
    have hpb : pend (.lo1 m b) = b := rfl
    rw [hpb] at hpe
    split
    · refine inv_goto i _ hs ?_ ?_ ?_ ?_ ?_ <;> (try rw [hpc]) <;> try rfl
      · exact hwf
      · intro h; rfl
    · omega
  · -- lo2
    rename_i m b old hpc
    rw [hpc] at hwf hpe
    have hpb : pend (.lo2 m b old) = b := rfl
    rw [hpb] at hpe
    split
    · rename_i hc
      dsimp only
      split
      · refine inv_lowered i _ _ _ hs ?_ ?_ ?_ ?_ ?_ ?_ ?_ ?_ <;> (try rw [hpc]) <;> try rfl
        · exact hwf
        · omega
        · omega
      · refine inv_finish_plain i m .keep (old - b) (s.rel + b) s.got hs
          (ret_wf_lo _ m _ hwf (Or.inl rfl))
          (ret_keep_hold m) (by rw [hpc]; rfl) (by rw [hpc]; rfl) (by omega) ?_ ?_ ?_ ?_
        · rw [success_lo m _ hwf]; exact (upd_self _ _).symm
        · omega
        · rw [hpc]; simp [pend]
        · intro _ h; omega
    · refine inv_goto i _ hs ?_ ?_ ?_ ?_ ?_ <;> (try rw [hpc]) <;> try rfl
      · exact hwf
      · intro h; rfl
  · -- loT
    rename_i m hpc
    rw [hpc] at hwf hpe hD hE
    split
    · rename_i hr
      obtain ⟨x1, x2⟩ := ret_enable_hold m
      refine inv_event i _ _ 3 _ hs (by omega) ?_ (ret_wf_lo _ m _ hwf (Or.inr rfl)) ?_ rfl (by rw [hr]; rfl) ?_ ?_ ?_ ?_
      · rw [success_lo m _ hwf]; exact upd_self _ _
      · rw [ret_pend, hpc]; rfl
      · simp [x1, hr]
      · simp [x2, hr]
      · simp [hr]
      · intro h; omega
    · refine inv_finish_plain i m .keep s.cur s.rel s.got hs (ret_wf_lo _ m _ hwf (Or.inl rfl))
        (ret_keep_hold m) (by rw [hpc]; rfl) (by rw [hpc]; rfl) (by omega) ?_ ?_ ?_ ?_
      · rw [success_lo m _ hwf]; exact (upd_self _ _).symm
      · omega
      · rw [hpc]; simp [pend]
      · intro h; contradiction
  · -- ackD
    rename_i m hpc
    rw [hpc] at hwf hpe hD hE
    have hr : s.reg = 1 := (hD.1 rfl).1
    rw [if_pos hr]
    refine inv_event i _ _ 2 _ hs (by omega) rfl ?_ ?_ rfl (by rw [hr]; rfl) ?_ ?_ ?_ ?_
    · cases m <;> first | rfl | simp [wfPC] at hwf
    · rw [hpc]; rfl
    · simp [hr, holdD]
    · simp [hr, holdE]
    · simp [hr, hpc, holdD]
    · intro _; rfl
  · -- ackE
    rename_i m hpc
    rw [hpc] at hwf hpe hD hE
    have hr : s.reg = 3 := (hE.1 rfl).1
    rw [if_pos hr]
    refine inv_event i _ _ 0 _ hs (by omega) rfl ?_ ?_ rfl (by rw [hr]; rfl) ?_ ?_ ?_ ?_
    · cases m <;> first | rfl | simp [wfPC] at hwf
    · rw [hpc]; rfl
    · simp [hr, holdD]
    · simp [hr, holdE]
    · simp [hr, hpc, holdE]
    · intro h; omega

theorem free_facts (p : PC) (h : free p = true) :
    pend p = 0 ∧ holdD p = false ∧ holdE p = false ∧ lowering p = false := by
  unfold free at h
  split at h <;> simp_all [pend, holdD, holdE, lowering]

/-- Starting a release. -/
theorem inv_begin {n : Nat} {s : St n} (i : Fin n) (m : Mode) (b : Nat) (hs : Inv s)
    (hf : free (s.pc i) = true) (hb : b ≤ releasable s) (hm : loMode m = true) :
    Inv (goto { s with beg := s.beg + b } i (.lo1 m b)) := by
  obtain ⟨f1, f2, f3, f4⟩ := free_facts _ hf
  have hsum := sum_upd pend s.pc i (.lo1 m b)
  have hpb : pend (.lo1 m b) = b := rfl
  unfold releasable at hb
  obtain ⟨a1, a2, a3, a4, a5, a6, a7, a8, a9, a10, a11, a12, a13, a14, a15⟩ := hs
  constructor <;> simp only [goto] <;> try assumption
  · intro j
    rcases upd_cases s.pc i j (.lo1 m b) with ⟨_, e⟩ | ⟨_, e⟩ <;> rw [e]
    · exact hm
    · exact a3 j
  · omega
  · omega
  · intro j
    rcases upd_cases s.pc i j (.lo1 m b) with ⟨e1, e⟩ | ⟨_, e⟩ <;> rw [e]
    · subst e1; rw [← a13 j, f2]; simp [holdD]
    · exact a13 j
  · intro j
    rcases upd_cases s.pc i j (.lo1 m b) with ⟨e1, e⟩ | ⟨_, e⟩ <;> rw [e]
    · subst e1; rw [← a14 j, f3]; simp [holdE]
    · exact a14 j
  · intro _ _
    exact ⟨i, by simp [lowering]⟩

theorem inv_exec {n : Nat} {s : St n} (i : Fin n) (a : Act) (hs : Inv s) : Inv (exec s i a) := by
  cases a with
  | raise =>
    simp only [exec]
    split
    · rename_i hf
      obtain ⟨f1, f2, f3, f4⟩ := free_facts _ hf
      refine inv_goto i _ hs rfl ?_ ?_ ?_ ?_
      · rw [f1]; rfl
      · rw [f2]; rfl
      · rw [f3]; rfl
      · rw [f4]; simp
    · exact hs
  | lower b =>
    simp only [exec]
    split
    · rename_i hf
      exact inv_begin i _ b hs hf.1 hf.2 rfl
    · exact hs
  | ack =>
    simp only [exec]
    split
    · rename_i hpc
      refine inv_goto i _ hs rfl ?_ ?_ ?_ ?_ <;> rw [hpc] <;> simp [pend, holdD, holdE, lowering]
    · rename_i hpc
      refine inv_goto i _ hs rfl ?_ ?_ ?_ ?_ <;> rw [hpc] <;> simp [pend, holdD, holdE, lowering]
    · rename_i t h1 h2 hpc
      refine inv_goto i _ hs rfl ?_ ?_ ?_ ?_ <;> rw [hpc] <;> cases t <;>
        simp_all [pend, holdD, holdE, lowering]
    · exact hs
  | tryRaise =>
    simp only [exec]
    split
    · rename_i hf
      obtain ⟨f1, f2, f3, f4⟩ := free_facts _ hf
      refine inv_goto i _ hs rfl ?_ ?_ ?_ ?_
      · rw [f1]; rfl
      · rw [f2]; rfl
      · rw [f3]; rfl
      · rw [f4]; simp
    · exact hs
  | stableLower b =>
    simp only [exec]
    split
    · rename_i hf
      exact inv_begin i _ b hs hf.1 hf.2 rfl
    · exact hs
  | tick => exact inv_tick i hs

theorem inv_run {n : Nat} (h : List (Fin n × Act)) : ∀ {s : St n}, Inv s → Inv (run s h) := by
  induction h with
  | nil => intro s hs; exact hs
  | cons x t ih => intro s hs; exact ih (inv_exec x.1 x.2 hs)

theorem run_append {n : Nat} (h1 h2 : List (Fin n × Act)) :
    ∀ s : St n, run s (h1 ++ h2) = run (run s h1) h2 := by
  induction h1 with
  | nil => intro s; rfl
  | cons x t ih => intro s; exact ih _

end Mtev.Flow
