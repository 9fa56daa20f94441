import Verif.RevNet

/-!
# Channels over a reverse connection (C78)

Two processes share one connection (`Net`): one accepted it and opens channels on it, the other made it and
connects each channel to a local target.  `Net.run` is an arbitrary history: endpoints that send and accept bytes in any portions,
reads and writes of the connection that are short, refused or fail, in any order.  `took c log` are the bytes a
process took from its endpoint of channel `c`, `gave c log` those it gave to it, `opens c log` how often it opened the channel.
-/

namespace Mtev.Rev

/-! ### End to end -/

/-- No history of the two processes is undefined, and as long as a channel was not used for a second endpoint each endpoint is given
a part, from the start, of what the endpoint at the other side sent, nothing lost within, added or reordered, and nothing of another channel.
What is missing is the reuse of a channel (`C78_reuse_violated`). -/
theorem C78_end_to_end_partial (es : List Ev) : ∃ n, Net.fresh.run es = .ok n ∧
    ∀ c, opens c n.a.log ≤ 1 → gave c n.b.log <+: took c n.a.log ∧ gave c n.a.log <+: took c n.b.log := by
  obtain ⟨n, e, h⟩ := inv_fresh.events es
  refine ⟨n, e, fun c hc => ⟨?_, ?_⟩⟩
  · have h1 := (h.chB c hc).2
    rw [← h.histA.tookQ]
    obtain ⟨t, e⟩ := h.preAB
    rw [← e, dataOn_append]
    exact h1.trans (List.prefix_append _ _)
  · have h1 := (h.chA c hc).2
    rw [← h.histB.tookQ]
    obtain ⟨t, e⟩ := h.preBA
    rw [← e, dataOn_append]
    exact h1.trans (List.prefix_append _ _)

/-- Nothing is on its way from one process to the other: no frame is queued, no byte is on the wire, and no part of a frame was read. -/
def Idle (x : Sock) (wire : List Nat) (y : Sock) : Prop := x.out = [] ∧ wire = [] ∧ y.hdr = [] ∧ y.inf.filled = []

theorem enc_nil {l : List Frame} (h : l.flatMap enc = []) : l = [] := by
  cases l with
  | nil => rfl
  | cons f l => simp [enc, header] at h

/-- When nothing is on its way any more and the channel is still open with an empty queue, its endpoint was given all the other
one sent. -/
theorem C78_complete (es : List Ev) (n : Net) (hr : Net.fresh.run es = .ok n) (ha : n.aup = true) (hb : n.bup = true) (c : Nat)
    (hc : opens c n.a.log ≤ 1) :
    (Idle n.a n.ab n.b → (n.b.ch c).up = true → (n.b.ch c).incoming = [] → gave c n.b.log = took c n.a.log) ∧
    (Idle n.b n.ba n.a → (n.a.ch c).up = true → (n.a.ch c).incoming = [] → gave c n.a.log = took c n.b.log) := by
  obtain ⟨n', e, h⟩ := inv_fresh.events es
  rw [hr, Out.ok.injEq] at e
  subst e
  constructor
  · rintro ⟨i1, i2, i3, i4⟩ hu hi
    obtain ⟨tr, lost, e1, e2, e3⟩ := h.dirAB hb
    have hl : lost = [] := by rw [e3 ha, pendOut, i1]
    rw [i2, i3, i4, hl] at e2
    have ht := enc_nil (by simpa using e2)
    rw [ht, List.append_nil] at e1
    have := (h.chB c hc).1 hu
    rw [hi, ← e1, h.histA.tookQ] at this
    simpa [pend] using this
  · rintro ⟨i1, i2, i3, i4⟩ hu hi
    obtain ⟨tr, lost, e1, e2, e3⟩ := h.dirBA ha
    have hl : lost = [] := by rw [e3 hb, pendOut, i1]
    rw [i2, i3, i4, hl] at e2
    have ht := enc_nil (by simpa using e2)
    rw [ht, List.append_nil] at e1
    have := (h.chA c hc).1 hu
    rw [hi, ← e1, h.histB.tookQ] at this
    simpa [pend] using this

/-- Read a result for the examples. -/
def Out.get? {α : Type} : Out α → Option α
  | .ok a => some a
  | _ => none

/-- The result is undefined. -/
def Out.isUb {α : Type} : Out α → Bool
  | .ub => true
  | _ => false

theorem ub_of {α : Type} (o : Out α) (h : Out.isUb o = true) : o = .ub := by cases o <;> simp_all [Out.isUb]

/-- Two channels, bytes in both directions in small portions; the second channel is closed early. -/
def sample : List Ev :=
  [.connect true, .connect true, .handA [] (List.replicate 30 (.some 5)) (fun _ => true), .handB [.take 4, .again] [] (fun _ => true),
   .handB (List.replicate 20 (.take 7)) [] (fun _ => true),
   .chanA 1 [] [.data (bytesOf "hello"), .data (bytesOf " world")], .chanA 2 [] [.data (bytesOf "x"), .data []],
   .chanB 1 [] [.data (bytesOf "answer")],
   .handA [] (List.replicate 30 (.some 5)) (fun _ => true), .handB (List.replicate 20 (.take 7)) (List.replicate 30 (.some 2)) (fun _ => true),
   .handA (List.replicate 20 (.take 3)) [] (fun _ => true),
   .chanB 1 [.some 3, .some 9, .some 9, .some 9] [], .chanB 2 [.some 1, .some 1] [], .chanA 1 [.some 9] []]

example : (Out.get? (Net.fresh.run sample)).map (fun n => (gave 1 n.b.log, took 1 n.a.log, gave 1 n.a.log, took 1 n.b.log, gave 2 n.b.log)) =
    some (bytesOf "hello world", bytesOf "hello world", bytesOf "answer", bytesOf "answer", bytesOf "x") := by decide +kernel

/-- The hypotheses of `C78_complete` are met. -/
example : (Out.get? (Net.fresh.run sample)).map (fun n => (n.aup, n.bup, opens 1 n.a.log, n.a.out, n.ab)) = some (true, true, 1, [], []) ∧
    (Out.get? (Net.fresh.run sample)).map (fun n => (n.b.hdr, n.b.inf.filled, n.b.ch 1)) = some ([], [], ⟨true, []⟩) := by
  refine ⟨?_, ?_⟩ <;> decide +kernel

/-- All 512 channels are opened; the target of channel 1 sends a byte; its endpoint goes away and a new one is given the only free channel. -/
def reuse : List Ev :=
  List.replicate 512 (.connect true) ++
  [.handA [] [.some 9, .some 9] (fun _ => true), .handB [.take 13] [] (fun _ => true), .chanB 1 [] [.data (bytesOf "x")],
   .handB [] [.some 9, .some 9] (fun _ => true), .chanA 1 [] [.data []], .connect true, .handA [.take 7] [] (fun _ => true), .chanA 1 [.some 9] []]

/-- A channel can be used again before the peer knows that it was closed: the new endpoint is given bytes sent to the old one.  Here the
endpoint opened last was given a byte though the target it is for was never connected. -/
theorem C78_reuse_violated : (Out.get? (Net.fresh.run reuse)).map (fun n =>
    (opens 1 n.a.log, opens 1 n.b.log, gave 1 n.a.log, (n.a.ch 1).up, n.a.log.drop (n.a.log.length - 4))) =
    some (2, 1, bytesOf "x", true, [.opened 1, .queued ⟨1, true, bytesOf "CONNECT"⟩, .received ⟨1, false, bytesOf "x"⟩, .gave 1 (bytesOf "x")]) := by
  decide +kernel

/-! ### A hostile peer -/

/-- What can happen to one process whose peer sends what it likes. -/
inductive SEv
  | connect (pair : Bool)
  | chan (c : Nat) (ws : List Wr) (rs : List Rd)
  | hand (env : List Rd) (ws : List Wr) (conn : Nat → Bool)

/-- A history of one process, until the connection is shut down. -/
def runS (debug : Bool) (s : Sock) : List SEv → Out (Sock × Stop)
  | [] => .ok (s, .done)
  | .connect pair :: es => do let (s, _) ← connect pair s; runS debug s es
  | .chan c ws rs :: es => if (s.ch c).up then do let s ← channelEv c ws rs s; runS debug s es else runS debug s es
  | .hand env ws conn :: es => do
    let (s, _, _, st) ← handler debug conn env ws s
    match st with
    | .done => runS debug s es
    | _ => .ok (s, .error)

theorem runS_ok {s : Sock} (h : Loc s) (es : List SEv) : ∃ t st, runS false s es = .ok (t, st) ∧ (st = .done → Loc t) := by
  induction es generalizing s with
  | nil => exact ⟨s, .done, rfl, fun _ => h⟩
  | cons e es ih =>
    cases e with
    | connect pair =>
      obtain ⟨s', o, e1, m⟩ := connect_steps pair s h
      obtain ⟨t, st, e2, e3⟩ := ih (h.steps m)
      exact ⟨t, st, by rw [runS, e1]; exact e2, e3⟩
    | chan c ws rs =>
      rw [runS]
      split
      · rename_i hu
        obtain ⟨s', e1, m⟩ := channel_steps (k := true) c _ ws rs s h hu
        obtain ⟨t, st, e2, e3⟩ := ih (h.steps m)
        exact ⟨t, st, by unfold channelEv; rw [e1]; exact e2, e3⟩
      · exact ih h
    | hand env ws conn =>
      obtain ⟨s', env', w, x, _, m, e2 | ⟨t, e2, _⟩⟩ := handler_steps (k := true) conn env ws s h
      · obtain ⟨t, st, e3, e4⟩ := ih (h.steps m)
        exact ⟨t, st, by rw [runS, e2]; exact e3, e4⟩
      · exact ⟨t, .error, by rw [runS, e2]; rfl, by simp⟩

/-- Whatever the peer and the endpoints send, and however reads and writes go, a process that does not log debug messages does nothing undefined;
while the connection is up it keeps at most 65530 bytes of an incomplete frame, only channels below 512 are open, and a closed
channel has nothing queued. -/
theorem C78_hostile_peer (es : List SEv) : ∃ s st, runS false .fresh es = .ok (s, st) ∧
    (st = .done → s.inf.filled.length ≤ 65530 ∧ (∀ c, (s.ch c).up = true → c < 512) ∧ ∀ c, (s.ch c).up = false → (s.ch c).incoming = []) := by
  obtain ⟨s, st, e, h⟩ := runS_ok loc_fresh es
  refine ⟨s, st, e, fun hs => ⟨?_, (h hs).chan, (h hs).down⟩⟩
  rcases (h hs).inn with ⟨_, i⟩ | ⟨_, i | i⟩
  · rw [i]; simp [Inflight.zero]
  · rw [i]; simp [Inflight.zero]
  · exact i.2.2.2.1.trans i.2.2.2.2.2.2

/-- A frame that is too long, and one for a channel that does not exist, end the connection. -/
example : (Out.get? (runS false .fresh [.hand [.data [0, 1, 0, 0, 255, 251]] [] (fun _ => true)])).map (·.2) = some .error ∧
    (Out.get? (runS false .fresh [.hand [.data [2, 0, 0, 0, 0, 1]] [] (fun _ => true)])).map (·.2) = some .error ∧
    (Out.get? (runS false .fresh [.hand [.data [128, 1, 0, 0, 0, 7], .data (bytesOf "CONNECT")] [] (fun _ => true)])).map (fun r => (r.2, opens 1 r.1.log)) =
      some (.done, 1) := by
  refine ⟨?_, ?_, ?_⟩ <;> decide +kernel

/-- With debug messages on, the descriptors of the channel are printed before the channel number is checked: a header with channel 512
reads past the array. -/
theorem C78_debug_violated : runS true .fresh [.hand [.data [2, 0, 0, 0, 0, 1]] [] (fun _ => true)] = .ub := by rfl

/-! ### Connecting again -/

/-- Nothing is queued and no part of a frame was read. -/
def AtRest (s : Sock) : Prop := s.out = [] ∧ s.hdr = []

/-- A client whose connection is lost when nothing is queued and no frame is in part read starts the next one like a new one. What is missing is
the loss of the connection at any other time (`C78_reconnect_violated`). -/
theorem C78_reconnect_partial (es : List SEv) (s : Sock) (hr : runS false .fresh es = .ok (s, .done)) (h : AtRest s) (conn : Nat → Bool) :
    ∃ t, handler false conn [.fail] [] s = .ok (t, [], [], .error) ∧ { reconnect t with last := 0, log := [] } = Sock.fresh := by
  obtain ⟨t, st, e, hl⟩ := runS_ok loc_fresh es
  rw [hr] at e
  simp only [Out.ok.injEq, Prod.mk.injEq] at e
  obtain ⟨rfl, rfl⟩ := e
  have hl := hl rfl
  obtain ⟨h1, h2⟩ := h
  have hi : s.inf = .zero := by
    rcases hl.inn with ⟨_, i⟩ | ⟨i, _⟩
    · exact i
    · rw [h2] at i; cases i
  have ht : s.tail = .null := by have := hl.out.tail; rwa [if_pos h1] at this
  have hw := hl.out.idle h1
  have hrd : reads false conn (2 * size [.fail] + 2) 500 [.fail] s = .ok (s, [], .error) := by
    rw [reads.eq_def]
    simp [size, h2]
  obtain ⟨t, es', e1, _, _, _, _, _, _, e2⟩ := shutdown_spec hl.buf hl.chan
  refine ⟨t, by unfold handler; rw [hrd, Out.ok_bind]; simp [e1], ?_⟩
  have hs : shutdown s = .ok (closeAll maxChannels s) := by
    unfold shutdown
    rw [if_neg hl.buf]
    congr 2
    rw [hi, ht]
    cases s
    simp_all [Inflight.zero]
  rw [hs, Out.ok.injEq] at e1
  obtain ⟨f1, f2, f3, f4, f5, f6⟩ := closeAll_fields maxChannels s
  rw [e1] at f1 f2 f3 f4 f5 f6
  have hch : t.ch = fun _ => ⟨false, []⟩ := by
    funext c
    have a := e2 c
    have b := f6 hl.down c a
    cases hc : t.ch c with
    | mk u i => rw [hc] at a b; simp only at a b; rw [a, b]
  unfold reconnect Sock.fresh
  simp only [f1, f2, f3, f4, f5, h1, h2, hw, hi, ht, hch]

/-- The client goes on with the same structure after a lost connection, and what the old one left behind is used: (1) if a frame was
in part read, its freed buffer is written to; (2) or freed again, if the next connection is lost, too; (3) if a frame was
queued, the next one is linked to a freed one; (4) if the peer sent a header that was not accepted, it is accepted without a check next time. -/
theorem C78_reconnect_violated :
    (runS false .fresh [.hand [.data [0, 1, 0, 0, 0, 2, 7], .fail] [] (fun _ => true)] >>= fun r =>
      runS false (reconnect r.1) [.hand [.data [0, 1, 0, 0, 0, 1, 7]] [] (fun _ => true)]) = .ub ∧
    (runS false .fresh [.hand [.data [0, 1, 0, 0, 0, 2, 7], .fail] [] (fun _ => true)] >>= fun r =>
      runS false (reconnect r.1) [.hand [.fail] [] (fun _ => true)]) = .ub ∧
    (runS false .fresh [.hand ([.data [128, 1, 0, 0, 0, 7], .data (bytesOf "CONNECT")]) [] (fun _ => true), .chan 1 [] [.data (bytesOf "x")],
        .hand [.fail] [] (fun _ => true)] >>= fun r =>
      runS false (reconnect r.1) [.hand ([.data [128, 1, 0, 0, 0, 7], .data (bytesOf "CONNECT")]) [] (fun _ => true), .chan 1 [] [.data (bytesOf "x")]]) = .ub ∧
    (runS false .fresh [.hand [.data [2, 88, 0, 0, 0, 1]] [] (fun _ => true)] >>= fun r =>
      runS false (reconnect r.1) [.hand [.data [0]] [] (fun _ => true)]) = .ub := by
  refine ⟨?_, ?_, ?_, ?_⟩ <;> exact ub_of _ (by decide +kernel)

end Mtev.Rev
