import Verif.RevInv

/-!
# Reverse connections: the two ends

How small steps change the histories, and what relates the histories of the two ends of a connection.
-/

namespace Mtev.Rev

/-- The frame that opens channel `c`. -/
def connectFrame (c : Nat) : Frame := ⟨c, true, bytesOf "CONNECT"⟩

/-- How many of the frames open channel `c`. -/
def connects (c : Nat) (l : List Frame) : Nat := l.countP (fun f => decide (f = connectFrame c))

theorem connects_append (c : Nat) (a b : List Frame) : connects c (a ++ b) = connects c a + connects c b := by
  unfold connects; rw [List.countP_append]

theorem connects_prefix {c : Nat} {a b : List Frame} (h : a <+: b) : connects c a ≤ connects c b := by
  obtain ⟨t, rfl⟩ := h
  rw [connects_append]; omega

/-- What a small step adds to the histories. -/
theorem step_log {k : Bool} {s t : Sock} {w r : List Nat} (h : Loc s) (m : M k s w r t) : ∃ es, t.log = s.log ++ es := by
  cases m with
  | wHdr q qs m ho h1 h2 => exact ⟨[], by simp⟩
  | wBody q qs m ho h1 h2 h3 => exact ⟨[], by simp [setOffset, ho]⟩
  | pop q qs ho h1 h2 => exact ⟨[], by simp [popOut]⟩
  | rHdr bs h1 h2 => exact ⟨[], by simp⟩
  | check _ d h1 h2 =>
    obtain ⟨a1, a2, i, rfl⟩ := check_parsed h h1 h2
    exact ⟨[], by simp⟩
  | buf _ h1 h2 h3 =>
    unfold bodyBuf at h3
    split at h3
    · cases h3
    · simp only [Out.ok.injEq] at h3; subst h3; exact ⟨[], by simp⟩
  | rBody bs h1 h2 h3 => exact ⟨[], by simp⟩
  | disp _ conn n h1 c1 c2 c3 c4 c5 h2 =>
    rcases dispatch_cases h h2 with ⟨a1, a2, a3, rfl⟩ | ⟨a1, rfl | rfl⟩ | ⟨a1, rfl⟩
    · exact ⟨[.received s.inf.frame, .opened s.inf.c], by simp [clearIn, Sock.note, Sock.setCh]⟩
    · exact ⟨[.received s.inf.frame], by simp [clearIn, Sock.note]⟩
    · exact ⟨[.received s.inf.frame, .queued ⟨s.inf.c, true, bytesOf "RESET"⟩], by simp [clearIn, Sock.note, queueOut]⟩
    · exact ⟨[.received s.inf.frame], by simp [clearIn, Sock.note, Sock.setCh]⟩
  | gave c q qs m h1 h2 h3 h4 h5 => exact ⟨[_], rfl⟩
  | took c d h1 h2 => exact ⟨[.took c d, .queued ⟨c, false, d⟩], by simp [queueOut, Sock.note]⟩
  | closed c tell h1 =>
    cases tell
    · exact ⟨[.closed c], rfl⟩
    · exact ⟨[.queued ⟨c, true, bytesOf "SHUTDOWN"⟩, .closed c], by simp [queueOut, Sock.note, closeCh, Sock.setCh]⟩
  | opened c _ h1 h2 => exact ⟨[.opened c, .queued (connectFrame c)], by simp [queueOut, Sock.note, Sock.setCh, connectFrame]⟩
  | last n => exact ⟨[], by simp⟩

/-- Sending: what is queued is written, in order. -/
theorem step_send {k : Bool} {s t : Sock} {w r : List Nat} (h : Loc s) (m : M k s w r t) :
    ∃ new, queuedOf t.log = queuedOf s.log ++ new ∧ pendOut s ++ new.flatMap enc = w ++ pendOut t ∧ ∀ f ∈ new, f.Ok := by
  have q1 : ∀ (u : Sock) (f : Frame), queuedOf (queueOut u f).log = queuedOf u.log ++ [f] := by
    intro u f; simp [queueOut, Sock.note, queuedOf_append, queuedOf]
  cases m with
  | wHdr q qs m ho h1 h2 =>
    refine ⟨[], by simp, ?_, by simp⟩
    simp only [pendOut, ho, List.flatMap_nil, List.append_nil]
    rw [← List.append_assoc, ← List.append_assoc, ← List.drop_drop, List.take_append_drop]
  | wBody q qs m ho h1 h2 h3 =>
    have hw : s.hdrW = 6 := by have := h.out.hdrW; omega
    refine ⟨[], by simp [setOffset, ho], ?_, by simp⟩
    have hd : (header q.f).drop 6 = [] := by rw [List.drop_eq_nil_iff]; rw [header_length]
    simp only [pendOut, ho, setOffset, List.flatMap_nil, List.append_nil, hw, hd, List.nil_append]
    rw [← List.append_assoc, ← List.drop_drop, List.take_append_drop]
  | pop q qs ho h1 h2 =>
    have hw : s.hdrW = 6 := by have := h.out.hdrW; omega
    have hd : (header q.f).drop 6 = [] := by rw [List.drop_eq_nil_iff]; rw [header_length]
    refine ⟨[], by simp [popOut], ?_, by simp⟩
    simp only [pendOut, ho, popOut, List.flatMap_nil, List.append_nil, hw, hd, List.nil_append, List.drop_succ_cons, List.drop_zero]
    rw [List.drop_eq_nil_iff.mpr (by omega), List.nil_append]
    cases qs with
    | nil => rfl
    | cons q2 qs =>
      have := h.out.off q2 (by rw [ho]; simp)
      simp only [this, List.drop_zero, List.map_cons, List.flatMap_cons, enc]
  | rHdr bs h1 h2 => exact ⟨[], by simp, by simp [pendOut], by simp⟩
  | check _ d h1 h2 =>
    obtain ⟨a1, a2, i, rfl⟩ := check_parsed h h1 h2
    exact ⟨[], by simp, by simp [pendOut], by simp⟩
  | buf _ h1 h2 h3 =>
    unfold bodyBuf at h3
    split at h3
    · cases h3
    · simp only [Out.ok.injEq] at h3; subst h3; exact ⟨[], by simp, by simp [pendOut], by simp⟩
  | rBody bs h1 h2 h3 => exact ⟨[], by simp, by simp [pendOut], by simp⟩
  | disp _ conn n h1 c1 c2 c3 c4 c5 h2 =>
    rcases dispatch_cases h h2 with ⟨a1, a2, a3, rfl⟩ | ⟨a1, rfl | rfl⟩ | ⟨a1, rfl⟩
    · exact ⟨[], by simp [clearIn, Sock.note, Sock.setCh, queuedOf_append, queuedOf], by simp [pendOut, clearIn, Sock.note, Sock.setCh], by simp⟩
    · exact ⟨[], by simp [clearIn, Sock.note, queuedOf_append, queuedOf], by simp [pendOut, clearIn, Sock.note], by simp⟩
    · refine ⟨[⟨s.inf.c, true, bytesOf "RESET"⟩], ?_, ?_, ?_⟩
      · show queuedOf (queueOut _ _).log = _
        rw [q1]; simp [Sock.note, queuedOf_append, queuedOf]
      · show _ = pendOut (queueOut _ _)
        rw [pendOut_queue (h.note _).out]; simp [pendOut, Sock.note]
      · intro f hf; rw [List.mem_singleton] at hf; subst hf
        exact ⟨c5, by show (bytesOf "RESET").length ≤ maxFrame; decide⟩
    · exact ⟨[], by simp [clearIn, Sock.note, Sock.setCh, queuedOf_append, queuedOf], by simp [pendOut, clearIn, Sock.note, Sock.setCh], by simp⟩
  | gave c q qs m h1 h2 h3 h4 h5 =>
    exact ⟨[], by simp [Sock.note, Sock.setCh, queuedOf_append, queuedOf], by simp [pendOut, Sock.note, Sock.setCh], by simp⟩
  | took c d h1 h2 =>
    refine ⟨[⟨c, false, d⟩], ?_, ?_, ?_⟩
    · rw [q1]; simp [Sock.note, queuedOf_append, queuedOf]
    · rw [pendOut_queue (h.note _).out]; simp [pendOut, Sock.note]
    · intro f hf; rw [List.mem_singleton] at hf; subst hf; exact ⟨h.chan c h1, h2⟩
  | closed c tell h1 =>
    cases tell
    · exact ⟨[], by simp [closeCh, Sock.note, Sock.setCh, queuedOf_append, queuedOf], by simp [pendOut, closeCh, Sock.note, Sock.setCh], by simp⟩
    · refine ⟨[⟨c, true, bytesOf "SHUTDOWN"⟩], ?_, ?_, ?_⟩
      · simp [closeCh, Sock.note, Sock.setCh, queueOut, queuedOf_append, queuedOf]
      · have := pendOut_queue h.out ⟨c, true, bytesOf "SHUTDOWN"⟩
        simp only [List.flatMap_cons, List.flatMap_nil, List.append_nil, List.nil_append]
        rw [← this]; rfl
      · intro f hf; rw [List.mem_singleton] at hf; subst hf
        exact ⟨h.chan c h1, by show (bytesOf "SHUTDOWN").length ≤ maxFrame; decide⟩
  | opened c _ h1 h2 =>
    refine ⟨[connectFrame c], ?_, ?_, ?_⟩
    · rw [q1]; simp [Sock.note, Sock.setCh, queuedOf_append, queuedOf, connectFrame]
    · have ho : OutOk ((Sock.setCh { s with last := c } c ⟨true, (s.ch c).incoming⟩).note (.opened c)) :=
        ⟨h.out.1, h.out.2, h.out.3, h.out.4, h.out.5, h.out.6⟩
      rw [pendOut_queue ho]; simp [pendOut, Sock.note, Sock.setCh, connectFrame]
    · intro f hf; rw [List.mem_singleton] at hf; subst hf
      exact ⟨h2, by show (bytesOf "CONNECT").length ≤ maxFrame; decide⟩
  | last n => exact ⟨[], by simp, by simp [pendOut], by simp⟩

/-- Frames on their way from `x` to `y`: queued by `x`, not yet received by `y`.  `lost` is what `x` will never write, if it was shut down. -/
def Dir (x : Sock) (xup : Prop) (wire : List Nat) (y : Sock) : Prop :=
  ∃ transit lost, queuedOf x.log = receivedOf y.log ++ transit ∧ transit.flatMap enc = y.hdr ++ y.inf.filled ++ wire ++ lost ∧
    (xup → lost = pendOut x)

theorem Dir.send {k : Bool} {x x' y : Sock} {w r wire : List Nat} {P : Prop} (h : Dir x P wire y) (hp : P) (hl : Loc x) (m : M k x w r x') :
    Dir x' P (wire ++ w) y := by
  obtain ⟨tr, lost, e1, e2, e3⟩ := h
  obtain ⟨new, n1, n2, n3⟩ := step_send hl m
  refine ⟨tr ++ new, pendOut x', by rw [n1, e1, List.append_assoc], ?_, fun _ => rfl⟩
  rw [List.flatMap_append, e2, e3 hp]
  simp only [List.append_assoc] at n2 ⊢
  rw [n2]

/-- Only reading changes what is being received. -/
theorem step_recv {k : Bool} {x y y' : Sock} {w r wire : List Nat} {P : Prop} (h : Dir x P (r ++ wire) y) (hl : Loc y)
    (hx : ∀ f ∈ queuedOf x.log, f.Ok) (m : M k y w r y') : Dir x P wire y' := by
  obtain ⟨tr, lost, e1, e2, e3⟩ := h
  have keep : receivedOf y'.log = receivedOf y.log → y'.hdr = y.hdr → y'.inf.filled = y.inf.filled → r = [] → Dir x P wire y' := by
    intro a1 a2 a3 a4
    refine ⟨tr, lost, by rw [a1, e1], ?_, e3⟩
    rw [a2, a3, e2, a4]; simp
  cases m with
  | wHdr q qs m ho h1 h2 => exact keep rfl rfl rfl rfl
  | wBody q qs m ho h1 h2 h3 => exact keep (by simp [setOffset, ho]) (by simp [setOffset, ho]) (by simp [setOffset, ho]) rfl
  | pop q qs ho h1 h2 => exact keep rfl rfl rfl rfl
  | rHdr bs h1 h2 =>
    refine ⟨tr, lost, e1, ?_, e3⟩
    have hz : y.inf = .zero := by rcases hl.inn with ⟨_, b⟩ | ⟨a, _⟩; exact b; omega
    rw [e2, hz]; simp [Inflight.zero]
  | check _ d h1 h2 =>
    obtain ⟨a1, a2, i, ht⟩ := check_parsed hl h1 h2
    refine keep (by rw [ht]) a1 ?_ rfl
    unfold checkHeader at h2
    split at h2
    · simp only at h2
      split at h2
      · cases h2
      · split at h2
        · cases h2
        · split at h2
          · cases h2
          · simp only [Out.ok.injEq, Option.some.injEq] at h2; rw [← h2]
    · simp only [Out.ok.injEq, Option.some.injEq] at h2; rw [← h2]
  | buf _ h1 h2 h3 =>
    unfold bodyBuf at h3
    split at h3
    · cases h3
    · simp only [Out.ok.injEq] at h3; subst h3; exact keep rfl rfl rfl rfl
  | rBody bs h1 h2 h3 =>
    refine ⟨tr, lost, e1, ?_, e3⟩
    rw [e2]; simp
  | disp _ conn n h1 c1 c2 c3 c4 c5 h2 =>
    have hlen : y.hdr.length = 6 := by rcases hl.inn with ⟨a, _⟩ | ⟨a, _⟩; omega; exact a
    -- the frame received is the first one on its way
    have hf : ∃ tr', tr = y.inf.frame :: tr' ∧ tr'.flatMap enc = wire ++ lost := by
      cases tr with
      | nil =>
        have := congrArg List.length e2
        simp only [List.flatMap_nil, List.length_nil, List.length_append] at this
        omega
      | cons f tr' =>
        have hok : f.Ok := hx f (by rw [e1]; simp)
        rw [List.flatMap_cons] at e2
        simp only [List.nil_append, enc, List.append_assoc] at e2
        obtain ⟨g1, g2⟩ := List.append_inj e2 (by rw [header_length, hlen])
        rw [← g1, parse_header hok] at c1 c2 c3
        simp only at c1 c2 c3
        obtain ⟨g3, g4⟩ := List.append_inj g2 (by rw [c4, c3])
        refine ⟨tr', ?_, g4⟩
        have : y.inf.frame = f := by
          unfold Inflight.frame; rw [c1, c2, ← g3]
        rw [this]
    obtain ⟨tr', ht, hw⟩ := hf
    have fin : ∀ u : Sock, receivedOf u.log = receivedOf y.log ++ [y.inf.frame] → Dir x P wire (clearIn u) := by
      intro u hu
      refine ⟨tr', lost, ?_, ?_, e3⟩
      · show _ = receivedOf u.log ++ tr'
        rw [hu, e1, ht]; simp
      · simp only [clearIn, Inflight.zero, List.nil_append]; exact hw
    rcases dispatch_cases hl h2 with ⟨a1, a2, a3, rfl⟩ | ⟨a1, rfl | rfl⟩ | ⟨a1, rfl⟩ <;> apply fin <;>
      simp [Sock.note, Sock.setCh, queueOut, receivedOf_append, receivedOf]
  | gave c q qs m h1 h2 h3 h4 h5 => exact keep (by simp [Sock.note, Sock.setCh, receivedOf_append, receivedOf]) rfl rfl rfl
  | took c d h1 h2 => exact keep (by simp [Sock.note, queueOut, receivedOf_append, receivedOf]) rfl rfl rfl
  | closed c tell h1 =>
    cases tell
    · exact keep (by simp [closeCh, Sock.note, Sock.setCh, receivedOf_append, receivedOf]) rfl rfl rfl
    · exact keep (by simp [closeCh, Sock.note, Sock.setCh, queueOut, receivedOf_append, receivedOf]) rfl rfl rfl
  | opened c _ h1 h2 => exact keep (by simp [Sock.note, Sock.setCh, queueOut, receivedOf_append, receivedOf]) rfl rfl rfl
  | last n => exact keep rfl rfl rfl rfl

/-! ### Histories of one end -/

structure Hist (s : Sock) : Prop where
  tookQ : ∀ c, dataOn c (queuedOf s.log) = took c s.log
  upOpen : ∀ c, (s.ch c).up = true → 1 ≤ opens c s.log
  tookOpen : ∀ c, took c s.log ≠ [] → 1 ≤ opens c s.log
  lower : ∀ c, connects c (queuedOf s.log) ≤ opens c s.log
  upper : ∀ c, opens c s.log ≤ connects c (queuedOf s.log) + connects c (receivedOf s.log)
  ok : ∀ f ∈ queuedOf s.log, f.Ok

theorem hist_fresh : Hist .fresh :=
  ⟨fun _ => rfl, by simp [Sock.fresh], by simp [Sock.fresh, took], by simp [Sock.fresh, queuedOf, connects],
    by simp [Sock.fresh, opens], by simp [Sock.fresh, queuedOf]⟩

theorem Hist.same {s t : Sock} (h : Hist s) (h1 : t.log = s.log) (h2 : t.ch = s.ch) : Hist t := by
  refine ⟨?_, ?_, ?_, ?_, ?_, ?_⟩
  · rw [h1]; exact h.tookQ
  · rw [h1, h2]; exact h.upOpen
  · rw [h1]; exact h.tookOpen
  · rw [h1]; exact h.lower
  · rw [h1]; exact h.upper
  · rw [h1]; exact h.ok

/-- Add effects to the history. -/
theorem Hist.add {s t : Sock} (h : Hist s) (es : List Eff) (h1 : t.log = s.log ++ es)
    (e1 : ∀ c, dataOn c (queuedOf es) = took c es)
    (e2 : ∀ c, (t.ch c).up = true → (s.ch c).up = true ∨ 1 ≤ opens c es)
    (e3 : ∀ c, took c es ≠ [] → 1 ≤ opens c s.log)
    (e4 : ∀ c, connects c (queuedOf es) ≤ opens c es)
    (e5 : ∀ c, opens c es ≤ connects c (queuedOf es) + connects c (receivedOf es))
    (e6 : ∀ f ∈ queuedOf es, f.Ok) : Hist t := by
  refine ⟨?_, ?_, ?_, ?_, ?_, ?_⟩
  · intro c; rw [h1, queuedOf_append, dataOn_append, took_append, h.tookQ, e1]
  · intro c hc
    rw [h1, opens_append]
    rcases e2 c hc with a | a
    · have := h.upOpen c a; omega
    · omega
  · intro c hc
    rw [h1, took_append] at hc
    rw [h1, opens_append]
    by_cases ht : took c s.log = []
    · rw [ht] at hc
      have := e3 c (by simpa using hc); omega
    · have := h.tookOpen c ht; omega
  · intro c; rw [h1, queuedOf_append, connects_append, opens_append]; have := h.lower c; have := e4 c; omega
  · intro c; rw [h1, queuedOf_append, receivedOf_append, connects_append, connects_append, opens_append]
    have := h.upper c; have := e5 c; omega
  · intro f hf
    rw [h1, queuedOf_append, List.mem_append] at hf
    rcases hf with hf | hf
    · exact h.ok f hf
    · exact e6 f hf

theorem not_connect_short (c d : Nat) (t : List Nat) (h : t ≠ bytesOf "CONNECT") : connects c [⟨d, true, t⟩] = 0 := by
  unfold connects
  simp only [List.countP_cons, List.countP_nil, connectFrame, Frame.mk.injEq]
  rw [if_neg]
  simp [h]

theorem not_connect_data (c d : Nat) (t : List Nat) : connects c [⟨d, false, t⟩] = 0 := by
  unfold connects
  simp [connectFrame]

theorem connects_own (c d : Nat) : connects c [connectFrame d] = if d = c then 1 else 0 := by
  unfold connects
  simp [List.countP_cons, connectFrame]

theorem dataOn_cmd (c d : Nat) (t : List Nat) : dataOn c [⟨d, true, t⟩] = [] := by simp [dataOn]

theorem Hist.step {k : Bool} {s t : Sock} {w r : List Nat} (h : Hist s) (hl : Loc s) (m : M k s w r t) : Hist t := by
  have nr : bytesOf "RESET" ≠ bytesOf "CONNECT" := by decide
  have ns : bytesOf "SHUTDOWN" ≠ bytesOf "CONNECT" := by decide
  cases m with
  | wHdr q qs m ho h1 h2 => exact h.same rfl rfl
  | wBody q qs m ho h1 h2 h3 => exact h.same (by simp [setOffset, ho]) (by simp [setOffset, ho])
  | pop q qs ho h1 h2 => exact h.same rfl rfl
  | rHdr bs h1 h2 => exact h.same rfl rfl
  | check _ d h1 h2 =>
    obtain ⟨a1, a2, i, rfl⟩ := check_parsed hl h1 h2
    exact h.same rfl rfl
  | buf _ h1 h2 h3 =>
    unfold bodyBuf at h3
    split at h3
    · cases h3
    · simp only [Out.ok.injEq] at h3; subst h3; exact h.same rfl rfl
  | rBody bs h1 h2 h3 => exact h.same rfl rfl
  | disp _ conn n h1 c1 c2 c3 c4 c5 h2 =>
    rcases dispatch_cases hl h2 with ⟨a1, a2, a3, rfl⟩ | ⟨a1, rfl | rfl⟩ | ⟨a1, rfl⟩
    · refine h.add [.received s.inf.frame, .opened s.inf.c] (by simp [clearIn, Sock.note, Sock.setCh]) (by simp [queuedOf, dataOn, took]) ?_ (by simp [took])
        (by simp [queuedOf, connects]) ?_ (by simp [queuedOf])
      · intro c hc
        by_cases e : c = s.inf.c
        · right; simp [opens, e]
        · left; simpa [clearIn, Sock.note, Sock.setCh, e] using hc
      · intro c
        have e : s.inf.frame = connectFrame s.inf.c := by unfold Inflight.frame connectFrame; rw [a1, a2]
        simp only [queuedOf, receivedOf, e, connects_own, opens]; simp [connects]
    · exact h.add [.received s.inf.frame] (by simp [clearIn, Sock.note]) (by simp [queuedOf, dataOn, took]) (fun c hc => .inl hc) (by simp [took])
        (by simp [queuedOf, connects]) (by simp [opens]) (by simp [queuedOf])
    · refine h.add [.received s.inf.frame, .queued ⟨s.inf.c, true, bytesOf "RESET"⟩] (by simp [clearIn, Sock.note, queueOut]) (by simp [queuedOf, dataOn, took])
        (fun c hc => .inl hc) (by simp [took]) ?_ (by simp [opens]) ?_
      · intro c; simp only [queuedOf, not_connect_short c _ _ nr]; omega
      · intro f hf; simp only [queuedOf, List.mem_singleton] at hf; subst hf
        exact ⟨c5, by show (bytesOf "RESET").length ≤ maxFrame; decide⟩
    · refine h.add [.received s.inf.frame] (by simp [clearIn, Sock.note, Sock.setCh]) (by simp [queuedOf, dataOn, took]) ?_ (by simp [took])
        (by simp [queuedOf, connects]) (by simp [opens]) (by simp [queuedOf])
      intro c hc
      left
      by_cases e : c = s.inf.c
      · rw [e]; exact a1
      · simpa [clearIn, Sock.note, Sock.setCh, e] using hc
  | gave c q qs m h1 h2 h3 h4 h5 =>
    refine h.add [_] rfl (by simp [queuedOf, dataOn, took]) ?_ (by simp [took]) (by simp [queuedOf, connects]) (by simp [opens]) (by simp [queuedOf])
    intro d hd
    left
    by_cases e : d = c
    · rw [e]
      by_contra hc
      have := hl.down c (by simpa using hc)
      rw [h1] at this; cases this
    · simpa [Sock.note, Sock.setCh, e] using hd
  | took c d h1 h2 =>
    refine h.add [.took c d, .queued ⟨c, false, d⟩] (by simp [queueOut, Sock.note]) ?_ (fun c hc => .inl hc) ?_ ?_ (by simp [opens]) ?_
    · intro c'; simp [queuedOf, dataOn, took]
    · intro c' hc
      simp only [took] at hc
      by_cases e : c = c'
      · rw [← e]; exact h.upOpen c h1
      · simp [e] at hc
    · intro c'; simp only [queuedOf, not_connect_data]; omega
    · intro f hf; simp only [queuedOf, List.mem_singleton] at hf; subst hf
      exact ⟨hl.chan c h1, h2⟩
  | closed c tell h1 =>
    have hup : ∀ d, ((closeCh s c).ch d).up = true → (s.ch d).up = true := by
      intro d hd
      by_cases e : d = c
      · rw [e]; exact h1
      · simpa [closeCh, Sock.note, Sock.setCh, e] using hd
    cases tell
    · exact h.add [.closed c] rfl (by simp [queuedOf, dataOn, took]) (fun d hd => .inl (hup d hd)) (by simp [took]) (by simp [queuedOf, connects]) (by simp [opens]) (by simp [queuedOf])
    · refine h.add [.queued ⟨c, true, bytesOf "SHUTDOWN"⟩, .closed c] (by simp [queueOut, Sock.note, closeCh, Sock.setCh]) (by simp [queuedOf, dataOn, took])
        (fun d hd => .inl (hup d hd)) (by simp [took]) ?_ (by simp [opens]) ?_
      · intro c'; simp only [queuedOf, not_connect_short c' _ _ ns]; omega
      · intro f hf; simp only [queuedOf, List.mem_singleton] at hf; subst hf
        exact ⟨hl.chan c h1, by show (bytesOf "SHUTDOWN").length ≤ maxFrame; decide⟩
  | opened c _ h1 h2 =>
    refine h.add [.opened c, .queued (connectFrame c)] (by simp [queueOut, Sock.note, Sock.setCh, connectFrame]) (by simp [queuedOf, dataOn, took, connectFrame]) ?_ (by simp [took]) ?_ ?_ ?_
    · intro d hd
      by_cases e : d = c
      · right; simp [opens, e]
      · left; simpa [queueOut, Sock.note, Sock.setCh, e] using hd
    · intro d; simp only [queuedOf, connects_own, opens]; omega
    · intro d; simp only [queuedOf, connects_own, opens]; omega
    · intro f hf; simp only [queuedOf, List.mem_singleton] at hf; subst hf
      exact ⟨h2, by show (bytesOf "CONNECT").length ≤ maxFrame; decide⟩
  | last n => exact h.same rfl rfl

/-- Without `connect`, no connect frames are queued. -/
theorem step_noConnect {s t : Sock} {w r : List Nat} (hl : Loc s) (m : M false s w r t) (c : Nat) :
    connects c (queuedOf t.log) = connects c (queuedOf s.log) := by
  have nr : bytesOf "RESET" ≠ bytesOf "CONNECT" := by decide
  have ns : bytesOf "SHUTDOWN" ≠ bytesOf "CONNECT" := by decide
  cases m with
  | wHdr q qs m ho h1 h2 => rfl
  | wBody q qs m ho h1 h2 h3 => simp [setOffset, ho]
  | pop q qs ho h1 h2 => rfl
  | rHdr bs h1 h2 => rfl
  | check _ d h1 h2 =>
    obtain ⟨a1, a2, i, rfl⟩ := check_parsed hl h1 h2
    rfl
  | buf _ h1 h2 h3 =>
    unfold bodyBuf at h3
    split at h3
    · cases h3
    · simp only [Out.ok.injEq] at h3; subst h3; rfl
  | rBody bs h1 h2 h3 => rfl
  | disp _ conn n h1 c1 c2 c3 c4 c5 h2 =>
    rcases dispatch_cases hl h2 with ⟨a1, a2, a3, rfl⟩ | ⟨a1, rfl | rfl⟩ | ⟨a1, rfl⟩
    · simp [clearIn, Sock.note, Sock.setCh, queuedOf_append, queuedOf]
    · simp [clearIn, Sock.note, queuedOf_append, queuedOf]
    · simp [clearIn, Sock.note, queueOut, queuedOf_append, queuedOf, connects_append, not_connect_short c _ _ nr]
    · simp [clearIn, Sock.note, Sock.setCh, queuedOf_append, queuedOf]
  | gave c q qs m h1 h2 h3 h4 h5 => simp [Sock.note, Sock.setCh, queuedOf_append, queuedOf]
  | took c d h1 h2 => simp [Sock.note, queueOut, queuedOf_append, queuedOf, connects_append, not_connect_data]
  | closed c tell h1 =>
    cases tell
    · simp [closeCh, Sock.note, Sock.setCh, queuedOf_append, queuedOf]
    · simp [closeCh, Sock.note, Sock.setCh, queueOut, queuedOf_append, queuedOf, connects_append, not_connect_short _ _ _ ns]
  | opened c hk h1 h2 => cases hk
  | last n => rfl

/-- Without `connect`, a channel is opened by the frame that says so. -/
theorem step_opens {s t : Sock} {w r : List Nat} (hl : Loc s) (m : M false s w r t) (c : Nat) :
    opens c t.log = opens c s.log ∨ connects c (receivedOf s.log) < connects c (receivedOf t.log) := by
  cases m with
  | wHdr q qs m ho h1 h2 => exact .inl rfl
  | wBody q qs m ho h1 h2 h3 => simp [setOffset, ho]
  | pop q qs ho h1 h2 => exact .inl rfl
  | rHdr bs h1 h2 => exact .inl rfl
  | check _ d h1 h2 =>
    obtain ⟨a1, a2, i, rfl⟩ := check_parsed hl h1 h2
    exact .inl rfl
  | buf _ h1 h2 h3 =>
    unfold bodyBuf at h3
    split at h3
    · cases h3
    · simp only [Out.ok.injEq] at h3; subst h3; exact .inl rfl
  | rBody bs h1 h2 h3 => exact .inl rfl
  | disp _ conn n h1 c1 c2 c3 c4 c5 h2 =>
    rcases dispatch_cases hl h2 with ⟨a1, a2, a3, rfl⟩ | ⟨a1, rfl | rfl⟩ | ⟨a1, rfl⟩
    · by_cases e : s.inf.c = c
      · right
        have e2 : s.inf.frame = connectFrame c := by unfold Inflight.frame connectFrame; rw [a1, a2, e]
        simp [clearIn, Sock.note, Sock.setCh, receivedOf_append, receivedOf, connects_append, e2, connects_own]
      · left; simp [clearIn, Sock.note, Sock.setCh, opens_append, opens, e]
    · left; simp [clearIn, Sock.note, opens_append, opens]
    · left; simp [clearIn, Sock.note, queueOut, opens_append, opens]
    · left; simp [clearIn, Sock.note, Sock.setCh, opens_append, opens]
  | gave c q qs m h1 h2 h3 h4 h5 => left; simp [Sock.note, Sock.setCh, opens_append, opens]
  | took c d h1 h2 => left; simp [Sock.note, queueOut, opens_append, opens]
  | closed c tell h1 =>
    left
    cases tell
    · simp [closeCh, Sock.note, Sock.setCh, opens_append, opens]
    · simp [closeCh, Sock.note, Sock.setCh, queueOut, opens_append, opens]
  | opened c hk h1 h2 => cases hk
  | last n => exact .inl rfl

/-- Data follow the frame that opens the channel. -/
def Ord (s : Sock) : Prop :=
  ∀ pre f post, queuedOf s.log = pre ++ f :: post → f.cmd = false → 1 ≤ connects f.c pre

theorem Ord.step {k : Bool} {s t : Sock} {w r : List Nat} (h : Ord s) (hh : Hist s) (hl : Loc s) (hr : ∀ c, connects c (receivedOf s.log) = 0)
    (m : M k s w r t) : Ord t := by
  have same : queuedOf t.log = queuedOf s.log → Ord t := by
    intro e; unfold Ord; rw [e]; exact h
  have snoc : ∀ f, queuedOf t.log = queuedOf s.log ++ [f] → (f.cmd = false → 1 ≤ connects f.c (queuedOf s.log)) → Ord t := by
    intro f e hf pre g post e2 hg
    rw [e] at e2
    rcases List.eq_nil_or_concat post with rfl | ⟨p, x, rfl⟩
    · obtain ⟨e3, e4⟩ := List.append_inj' e2 rfl
      simp only [List.cons.injEq, and_true] at e4
      rw [← e3, ← e4]; exact hf (by rw [e4]; exact hg)
    · rw [List.concat_eq_append] at e2
      have e3 : queuedOf s.log ++ [f] = (pre ++ g :: p) ++ [x] := by rw [e2]; simp
      obtain ⟨e4, _⟩ := List.append_inj' e3 rfl
      exact h pre g p e4 hg
  have cmd : ∀ f : Frame, f.cmd = true → queuedOf t.log = queuedOf s.log ++ [f] → Ord t := by
    intro f hf e
    exact snoc f e (by intro h0; rw [hf] at h0; cases h0)
  cases m with
  | wHdr q qs m ho h1 h2 => exact same rfl
  | wBody q qs m ho h1 h2 h3 => exact same (by simp [setOffset, ho])
  | pop q qs ho h1 h2 => exact same rfl
  | rHdr bs h1 h2 => exact same rfl
  | check _ d h1 h2 =>
    obtain ⟨a1, a2, i, rfl⟩ := check_parsed hl h1 h2
    exact same rfl
  | buf _ h1 h2 h3 =>
    unfold bodyBuf at h3
    split at h3
    · cases h3
    · simp only [Out.ok.injEq] at h3; subst h3; exact same rfl
  | rBody bs h1 h2 h3 => exact same rfl
  | disp _ conn n h1 c1 c2 c3 c4 c5 h2 =>
    rcases dispatch_cases hl h2 with ⟨a1, a2, a3, rfl⟩ | ⟨a1, rfl | rfl⟩ | ⟨a1, rfl⟩
    · exact same (by simp [clearIn, Sock.note, Sock.setCh, queuedOf_append, queuedOf])
    · exact same (by simp [clearIn, Sock.note, queuedOf_append, queuedOf])
    · exact cmd ⟨s.inf.c, true, bytesOf "RESET"⟩ rfl (by simp [clearIn, Sock.note, queueOut, queuedOf_append, queuedOf])
    · exact same (by simp [clearIn, Sock.note, Sock.setCh, queuedOf_append, queuedOf])
  | gave c q qs m h1 h2 h3 h4 h5 => exact same (by simp [Sock.note, Sock.setCh, queuedOf_append, queuedOf])
  | took c d h1 h2 =>
    refine snoc ⟨c, false, d⟩ (by simp [Sock.note, queueOut, queuedOf_append, queuedOf]) ?_
    intro _
    have a := hh.upOpen c h1
    have b := hh.upper c
    have e := hr c
    simp only
    omega
  | closed c tell h1 =>
    cases tell
    · exact same (by simp [closeCh, Sock.note, Sock.setCh, queuedOf_append, queuedOf])
    · exact cmd ⟨c, true, bytesOf "SHUTDOWN"⟩ rfl (by simp [closeCh, Sock.note, Sock.setCh, queueOut, queuedOf_append, queuedOf])
  | opened c _ h1 h2 => exact cmd (connectFrame c) rfl (by simp [Sock.note, Sock.setCh, queueOut, queuedOf_append, queuedOf, connectFrame])
  | last n => exact same rfl

/-! ### What an endpoint gets -/

/-- The endpoint of channel `c` was given a part, from the start, of the data received for it; while it is open the rest is queued. -/
def Ch (c : Nat) (s : Sock) : Prop :=
  ((s.ch c).up = true → gave c s.log ++ pend (s.ch c).incoming = dataOn c (receivedOf s.log)) ∧
    gave c s.log <+: dataOn c (receivedOf s.log)

theorem Ch.step {k : Bool} {s t : Sock} {w r : List Nat} {c : Nat} (h : Ch c s) (hl : Loc s) (m : M k s w r t)
    (hop0 : opens c t.log = opens c s.log ∨ dataOn c (receivedOf s.log) = []) : Ch c t := by
  have same : t.ch c = s.ch c → gave c t.log = gave c s.log → dataOn c (receivedOf t.log) = dataOn c (receivedOf s.log) → Ch c t := by
    intro e1 e2 e3; unfold Ch; rw [e1, e2, e3]; exact h
  have sub : (t.ch c).up = false → gave c t.log = gave c s.log → dataOn c (receivedOf s.log) <+: dataOn c (receivedOf t.log) → Ch c t := by
    intro e1 e2 e3
    refine ⟨by rw [e1]; simp, ?_⟩
    rw [e2]; exact h.2.trans e3
  cases m with
  | wHdr q qs m ho h1 h2 => exact same rfl rfl rfl
  | wBody q qs m ho h1 h2 h3 => exact same (by simp [setOffset, ho]) (by simp [setOffset, ho]) (by simp [setOffset, ho])
  | pop q qs ho h1 h2 => exact same rfl rfl rfl
  | rHdr bs h1 h2 => exact same rfl rfl rfl
  | check _ d h1 h2 =>
    obtain ⟨a1, a2, i, rfl⟩ := check_parsed hl h1 h2
    exact same rfl rfl rfl
  | buf _ h1 h2 h3 =>
    unfold bodyBuf at h3
    split at h3
    · cases h3
    · simp only [Out.ok.injEq] at h3; subst h3; exact same rfl rfl rfl
  | rBody bs h1 h2 h3 => exact same rfl rfl rfl
  | disp _ conn n h1 c1 c2 c3 c4 c5 h2 =>
    have hpre : dataOn c (receivedOf s.log) <+: dataOn c (receivedOf s.log ++ [s.inf.frame]) := by
      rw [dataOn_append]; exact List.prefix_append _ _
    rcases dispatch_cases hl h2 with ⟨a1, a2, a3, rfl⟩ | ⟨a1, rfl | rfl⟩ | ⟨a1, rfl⟩
    · have hd : dataOn c [s.inf.frame] = [] := by simp [dataOn, Inflight.frame, a1]
      by_cases e : c = s.inf.c
      · have hop : dataOn c (receivedOf s.log) = [] := by
          rcases hop0 with ho | ho
          · exfalso
            simp [clearIn, Sock.note, Sock.setCh, opens_append, opens, e] at ho
          · exact ho
        have hg : gave c s.log = [] := by have := h.2; rw [hop] at this; exact List.prefix_nil.mp this
        have hg' : gave c (s.log ++ [.received s.inf.frame, .opened s.inf.c]) = [] := by rw [gave_append, hg]; simp [gave]
        have hr' : dataOn c (receivedOf (s.log ++ [.received s.inf.frame, .opened s.inf.c])) = [] := by
          rw [receivedOf_append, dataOn_append, hop]; simpa [receivedOf] using hd
        have hlog : (clearIn (((s.note (.received s.inf.frame)).setCh s.inf.c ⟨true, (s.ch s.inf.c).incoming⟩).note (.opened s.inf.c))).log =
            s.log ++ [.received s.inf.frame, .opened s.inf.c] := by simp [clearIn, Sock.note, Sock.setCh]
        unfold Ch
        rw [hlog, hg', hr']
        refine ⟨fun _ => ?_, List.nil_prefix⟩
        simp [clearIn, Sock.note, Sock.setCh, e, hl.down _ a3, pend]
      · refine same ?_ ?_ ?_
        · simp [clearIn, Sock.note, Sock.setCh, e]
        · simp [clearIn, Sock.note, Sock.setCh, gave_append, gave]
        · simp only [clearIn, Sock.note, Sock.setCh, receivedOf_append, receivedOf, dataOn_append, List.append_nil, hd]
    · by_cases e : c = s.inf.c
      · refine sub (by rw [e]; exact a1) (by simp [clearIn, Sock.note, gave_append, gave]) ?_
        simpa [clearIn, Sock.note, receivedOf_append, receivedOf] using hpre
      · refine same rfl (by simp [clearIn, Sock.note, gave_append, gave]) ?_
        have : dataOn c [s.inf.frame] = [] := by simp [dataOn, Inflight.frame, Ne.symm e]
        simp [clearIn, Sock.note, receivedOf_append, receivedOf, dataOn_append, this]
    · by_cases e : c = s.inf.c
      · refine sub (by rw [e]; exact a1) (by simp [clearIn, Sock.note, queueOut, gave_append, gave]) ?_
        simpa [clearIn, Sock.note, queueOut, receivedOf_append, receivedOf] using hpre
      · refine same rfl (by simp [clearIn, Sock.note, queueOut, gave_append, gave]) ?_
        have : dataOn c [s.inf.frame] = [] := by simp [dataOn, Inflight.frame, Ne.symm e]
        simp [clearIn, Sock.note, queueOut, receivedOf_append, receivedOf, dataOn_append, this]
    · by_cases e : c = s.inf.c
      · have hg : gave c (s.log ++ [.received s.inf.frame]) = gave c s.log := by simp [gave_append, gave]
        have hr : dataOn c (receivedOf (s.log ++ [.received s.inf.frame])) = dataOn c (receivedOf s.log) ++ dataOn c [s.inf.frame] := by
          rw [receivedOf_append, dataOn_append]; rfl
        have hp : pend [⟨s.inf.frame, 0⟩] = dataOn c [s.inf.frame] := by simp [pend, dataOn, Inflight.frame, e]
        have hlog : (clearIn ((s.note (.received s.inf.frame)).setCh s.inf.c ⟨true, (s.ch s.inf.c).incoming ++ [⟨s.inf.frame, 0⟩]⟩)).log =
            s.log ++ [.received s.inf.frame] := by simp [clearIn, Sock.note, Sock.setCh]
        unfold Ch
        rw [hlog, hg, hr]
        have hup := h.1 (by rw [e]; exact a1)
        refine ⟨fun _ => ?_, h.2.trans (List.prefix_append _ _)⟩
        have : ((clearIn ((s.note (.received s.inf.frame)).setCh s.inf.c ⟨true, (s.ch s.inf.c).incoming ++ [⟨s.inf.frame, 0⟩]⟩)).ch c).incoming =
            (s.ch c).incoming ++ [⟨s.inf.frame, 0⟩] := by simp [clearIn, Sock.note, Sock.setCh, e]
        rw [this, pend_append, hp, ← List.append_assoc, hup]
      · refine same (by simp [clearIn, Sock.note, Sock.setCh, e]) (by simp [clearIn, Sock.note, Sock.setCh, gave_append, gave]) ?_
        have : dataOn c [s.inf.frame] = [] := by simp [dataOn, Inflight.frame, Ne.symm e]
        simp [clearIn, Sock.note, Sock.setCh, receivedOf_append, receivedOf, dataOn_append, this]
  | gave c' q qs m h1 h2 h3 h4 h5 =>
    by_cases e : c' = c
    · subst e
      have hup : (s.ch c').up = true := by
        by_contra hc
        have := hl.down c' (by simpa using hc)
        rw [h1] at this; cases this
      have hu := h.1 hup
      rw [h1] at hu
      simp only [pend, h2, if_true] at hu
      have key : (q.f.data.drop q.offset).take m ++ pend (if q.offset + m = q.f.data.length then qs else { q with offset := q.offset + m } :: qs) =
          q.f.data.drop q.offset ++ pend qs := by
        split
        · rename_i he
          rw [List.take_of_length_le (by rw [List.length_drop]; omega)]
        · simp only [pend, h2, if_true]
          rw [← List.append_assoc, ← List.drop_drop, List.take_append_drop]
      have hlog : ((s.setCh c' ⟨true, if q.offset + m = q.f.data.length then qs else { q with offset := q.offset + m } :: qs⟩).note
        (.gave c' ((q.f.data.drop q.offset).take m))).log = s.log ++ [.gave c' ((q.f.data.drop q.offset).take m)] := rfl
      unfold Ch
      rw [hlog]
      have hr : dataOn c' (receivedOf (s.log ++ [.gave c' ((q.f.data.drop q.offset).take m)])) = dataOn c' (receivedOf s.log) := by
        simp [receivedOf_append, receivedOf]
      have hg : gave c' (s.log ++ [.gave c' ((q.f.data.drop q.offset).take m)]) = gave c' s.log ++ (q.f.data.drop q.offset).take m := by
        simp [gave_append, gave]
      have hpe : (((s.setCh c' ⟨true, if q.offset + m = q.f.data.length then qs else { q with offset := q.offset + m } :: qs⟩).note
        (.gave c' ((q.f.data.drop q.offset).take m))).ch c').incoming = if q.offset + m = q.f.data.length then qs else { q with offset := q.offset + m } :: qs := by
        simp [Sock.note, Sock.setCh]
      rw [hr, hg, hpe]
      have full : gave c' s.log ++ (q.f.data.drop q.offset).take m ++ pend (if q.offset + m = q.f.data.length then qs else { q with offset := q.offset + m } :: qs) =
          dataOn c' (receivedOf s.log) := by rw [List.append_assoc, key]; exact hu
      exact ⟨fun _ => full, ⟨_, full⟩⟩
    · refine same (by simp [Sock.note, Sock.setCh, Ne.symm e]) ?_ (by simp [Sock.note, Sock.setCh, receivedOf_append, receivedOf])
      simp [Sock.note, Sock.setCh, gave_append, gave, e]
  | took c' d h1 h2 =>
    exact same rfl (by simp [Sock.note, queueOut, gave_append, gave]) (by simp [Sock.note, queueOut, receivedOf_append, receivedOf])
  | closed c' tell h1 =>
    have e1 : ∀ tell : Bool, gave c (closeCh (if tell then queueOut s ⟨c', true, bytesOf "SHUTDOWN"⟩ else s) c').log = gave c s.log := by
      intro tell; cases tell <;> simp [closeCh, Sock.note, Sock.setCh, queueOut, gave_append, gave]
    have e2 : ∀ tell : Bool, receivedOf (closeCh (if tell then queueOut s ⟨c', true, bytesOf "SHUTDOWN"⟩ else s) c').log = receivedOf s.log := by
      intro tell; cases tell <;> simp [closeCh, Sock.note, Sock.setCh, queueOut, receivedOf_append, receivedOf]
    by_cases e : c = c'
    · exact sub (by simp [closeCh, Sock.note, Sock.setCh, e]) (e1 _) (by rw [e2]; exact List.prefix_rfl)
    · refine same ?_ (e1 _) (by rw [e2])
      cases tell <;> simp [closeCh, Sock.note, Sock.setCh, queueOut, e]
  | opened c' _ h1 h2 =>
    have e1 : gave c (queueOut ((Sock.setCh { s with last := c' } c' ⟨true, (s.ch c').incoming⟩).note (.opened c')) ⟨c', true, bytesOf "CONNECT"⟩).log = gave c s.log := by
      simp [Sock.note, Sock.setCh, queueOut, gave_append, gave]
    have e2 : receivedOf (queueOut ((Sock.setCh { s with last := c' } c' ⟨true, (s.ch c').incoming⟩).note (.opened c')) ⟨c', true, bytesOf "CONNECT"⟩).log = receivedOf s.log := by
      simp [Sock.note, Sock.setCh, queueOut, receivedOf_append, receivedOf]
    by_cases e : c = c'
    · have hop : dataOn c (receivedOf s.log) = [] := by
        rcases hop0 with ho | ho
        · exfalso
          simp [queueOut, Sock.note, Sock.setCh, opens_append, opens, e] at ho
        · exact ho
      have hg : gave c s.log = [] := by have := h.2; rw [hop] at this; exact List.prefix_nil.mp this
      unfold Ch
      rw [e1, e2, hop, hg]
      refine ⟨fun _ => ?_, List.nil_prefix⟩
      simp [queueOut, Sock.note, Sock.setCh, e, hl.down _ h1, pend]
    · exact same (by simp [queueOut, Sock.note, Sock.setCh, e]) e1 (by rw [e2])
  | last n => exact same rfl rfl rfl

/-! ### Shutting down -/

theorem closeAll_spec (n : Nat) (s : Sock) : ∃ es, (closeAll n s).log = s.log ++ es ∧ queuedOf es = [] ∧ receivedOf es = [] ∧
    (∀ c, took c es = []) ∧ (∀ c, gave c es = []) ∧ (∀ c, opens c es = 0) ∧
    (∀ c < n, ((closeAll n s).ch c).up = false) ∧ ∀ c, n ≤ c → (closeAll n s).ch c = s.ch c := by
  induction n with
  | zero => exact ⟨[], by simp [closeAll], rfl, rfl, fun _ => rfl, fun _ => rfl, fun _ => rfl, by simp, fun _ _ => rfl⟩
  | succ n ih =>
    obtain ⟨es, e1, e2, e3, e4, e5, e6, e7, e8⟩ := ih
    rw [closeAll]
    split
    · refine ⟨es ++ [.closed n], by simp [closeCh, Sock.note, Sock.setCh, e1], by simp [queuedOf_append, e2, queuedOf], by simp [receivedOf_append, e3, receivedOf],
        by simp [took_append, e4, took], by simp [gave_append, e5, gave], by simp [opens_append, e6, opens], ?_, ?_⟩
      · intro c hc
        by_cases h : c = n
        · simp [closeCh, Sock.note, Sock.setCh, h]
        · simp only [closeCh, Sock.note, Sock.setCh, if_neg h]; exact e7 c (by omega)
      · intro c hc
        simp only [closeCh, Sock.note, Sock.setCh, if_neg (show ¬ c = n by omega)]; exact e8 c (by omega)
    · rename_i hn
      refine ⟨es, e1, e2, e3, e4, e5, e6, ?_, fun c hc => e8 c (by omega)⟩
      intro c hc
      by_cases h : c = n
      · rw [h]; simpa using hn
      · exact e7 c (by omega)

/-- Shutting down succeeds, adds nothing to the histories of frames and bytes, and closes every channel. -/
theorem shutdown_spec {s : Sock} (hb : s.inf.buf ≠ .freed) (h : ∀ c, (s.ch c).up = true → c < maxChannels) : ∃ t es, shutdown s = .ok t ∧ t.log = s.log ++ es ∧ queuedOf es = [] ∧ receivedOf es = [] ∧
    (∀ c, took c es = []) ∧ (∀ c, gave c es = []) ∧ (∀ c, opens c es = 0) ∧ ∀ c, (t.ch c).up = false := by
  unfold shutdown
  rw [if_neg hb]
  generalize hm : maxChannels = M
  obtain ⟨es, e1, e2, e3, e4, e5, e6, e7, e8⟩ := closeAll_spec M { s with
    inf := { s.inf with buf := if s.inf.buf = .live then .freed else .null }
    out := []
    tail := if s.tail = .last then .dangling else s.tail }
  refine ⟨_, es, rfl, e1, e2, e3, e4, e5, e6, ?_⟩
  intro c
  by_cases hc : c < M
  · exact e7 c hc
  · rw [e8 c (by omega)]
    by_contra hu
    exact hc (hm ▸ h c (by simpa using hu))

theorem closeAll_fields (n : Nat) (s : Sock) : (closeAll n s).out = s.out ∧ (closeAll n s).tail = s.tail ∧ (closeAll n s).hdrW = s.hdrW ∧
    (closeAll n s).hdr = s.hdr ∧ (closeAll n s).inf = s.inf ∧ ((∀ c, (s.ch c).up = false → (s.ch c).incoming = []) →
      ∀ c, ((closeAll n s).ch c).up = false → ((closeAll n s).ch c).incoming = []) := by
  induction n with
  | zero => exact ⟨rfl, rfl, rfl, rfl, rfl, fun h => h⟩
  | succ n ih =>
    obtain ⟨a1, a2, a3, a4, a5, a6⟩ := ih
    rw [closeAll]
    split
    · refine ⟨a1, a2, a3, a4, a5, ?_⟩
      intro h c hc
      by_cases e : c = n
      · simp [closeCh, Sock.note, Sock.setCh, e]
      · simp only [closeCh, Sock.note, Sock.setCh, if_neg e] at hc ⊢
        exact a6 h c hc
    · exact ⟨a1, a2, a3, a4, a5, a6⟩

theorem Loc.buf {s : Sock} (h : Loc s) : s.inf.buf ≠ .freed := by
  rcases h.inn with ⟨_, b⟩ | ⟨_, b | b⟩
  · rw [b]; simp [Inflight.zero]
  · rw [b]; simp [Inflight.zero]
  · exact b.2.2.2.2.1

/-- Both ends of a shutdown have the same history of frames and bytes. -/
def Quiet (s t : Sock) : Prop := ∃ es, t.log = s.log ++ es ∧ queuedOf es = [] ∧ receivedOf es = [] ∧
    (∀ c, took c es = []) ∧ (∀ c, gave c es = []) ∧ (∀ c, opens c es = 0) ∧ ∀ c, (t.ch c).up = false

/-- The handler is a sequence of small steps, and perhaps a shutdown. -/
theorem handler_steps {k : Bool} (conn : Nat → Bool) (env : List Rd) (ws : List Wr) (s : Sock) (h : Loc s) :
    ∃ s' env' w x, avail env = x ++ avail env' ∧ Ms k s w x s' ∧
      (handler false conn env ws s = .ok (s', env', w, .done) ∨ ∃ t, handler false conn env ws s = .ok (t, env', w, .error) ∧ Quiet s' t) := by
  obtain ⟨s1, env', st, x, e1, e2, e3⟩ := reads_steps (k := k) conn (2 * size env + 2) 500 env s h
  have h1 := h.steps e3
  unfold handler
  rw [e1, Out.ok_bind]
  have sd : ∀ u : Sock, u.inf.buf ≠ .freed → (∀ c, (u.ch c).up = true → c < maxChannels) → ∃ t, shutdown u = .ok t ∧ Quiet u t := by
    intro u hb hc
    obtain ⟨t, es, a1, a⟩ := shutdown_spec hb hc
    exact ⟨t, a1, es, a⟩
  cases st with
  | error =>
    obtain ⟨t, ht, q⟩ := sd s1 h1.buf h1.chan
    exact ⟨s1, env', [], x, e2, e3, .inr ⟨t, by simp [ht], q⟩⟩
  | bad =>
    obtain ⟨t, ht, q⟩ := sd (keepBad s1) h1.buf h1.chan
    exact ⟨s1, env', [], x, e2, e3, .inr ⟨t, by simp [ht], q⟩⟩
  | done =>
    have m := tryWrites_steps (k := k) 499 ws s1
    have h2 := h1.steps m
    refine ⟨(tryWrites 499 ws s1).1, env', (tryWrites 499 ws s1).2.1, x, e2, (e3.trans m).cast rfl (by simp), ?_⟩
    obtain ⟨t, ht, q⟩ := sd _ h2.buf h2.chan
    simp only
    cases hst : (tryWrites 499 ws s1).2.2 with
    | done => exact .inl rfl
    | error => exact .inr ⟨t, by simp [ht], q⟩
    | bad => exact .inr ⟨t, by simp [ht], q⟩

theorem Hist.down {s t : Sock} {es : List Eff} (h : Hist s) (h1 : t.log = s.log ++ es) (h2 : queuedOf es = []) (h3 : receivedOf es = [])
    (h4 : ∀ c, took c es = []) (h6 : ∀ c, opens c es = 0) (h7 : ∀ c, (t.ch c).up = false) : Hist t := by
  refine h.add es h1 ?_ ?_ ?_ ?_ ?_ ?_
  · intro c; rw [h2, h4]; rfl
  · intro c hc; rw [h7] at hc; cases hc
  · intro c hc; rw [h4] at hc; exact absurd rfl hc
  · intro c; rw [h2]; simp [connects]
  · intro c; rw [h6]; omega
  · intro f hf; rw [h2] at hf; cases hf

theorem Ch.down {s t : Sock} {es : List Eff} {c : Nat} (h : Ch c s) (h1 : t.log = s.log ++ es) (h3 : receivedOf es = [])
    (h5 : gave c es = []) (h7 : (t.ch c).up = false) : Ch c t := by
  refine ⟨by rw [h7]; simp, ?_⟩
  rw [h1, gave_append, h5, receivedOf_append, h3]
  simpa using h.2

/-! ### Two ends -/

/-- Two processes joined by a connection: `a` accepted it and opens channels (`mtev_reverse_socket_connect`), `b` made it and
connects channels to a local target. `ab` and `ba` are the bytes on their way. -/
structure Net where
  a : Sock
  b : Sock
  ab : List Nat
  ba : List Nat
  aup : Bool
  bup : Bool

/-- A new connection. -/
def Net.fresh : Net := ⟨.fresh, .fresh, [], [], true, true⟩

/-- How the bytes on their way arrive: so many of them in one read, none now, or the connection fails. -/
inductive Cut | take (n : Nat) | again | fail
deriving DecidableEq, Repr

/-- Cut what is on its way into reads. -/
def cut : List Cut → List Nat → List Rd × List Nat
  | [], w => ([], w)
  | .again :: cs, w => let r := cut cs w; (.again :: r.1, r.2)
  | .fail :: cs, w => let r := cut cs w; (.fail :: r.1, r.2)
  | .take n :: cs, w =>
    if w.take n = [] then let r := cut cs w; (.again :: r.1, r.2)
    else let r := cut cs (w.drop n); (.data (w.take n) :: r.1, r.2)

theorem cut_avail (cs : List Cut) (w : List Nat) : avail (cut cs w).1 ++ (cut cs w).2 = w := by
  induction cs generalizing w with
  | nil => rfl
  | cons x cs ih =>
    cases x with
    | again => exact ih w
    | fail => exact ih w
    | take n =>
      rw [cut]
      split
      · exact ih w
      · show (w.take n ++ avail _) ++ _ = w
        rw [List.append_assoc, ih, List.take_append_drop]

/-- What can happen: a channel is opened (or the endpoint cannot be made), the endpoint of an open channel is ready (`ws` are the results of
writing to it, `rs` is what it sends), or the connection is (`cs` says how bytes arrive, `ws` how they leave, `conn` which channels' local
targets can be reached). -/
inductive Ev
  | connect (pair : Bool)
  | chanA (c : Nat) (ws : List Wr) (rs : List Rd)
  | chanB (c : Nat) (ws : List Wr) (rs : List Rd)
  | handA (cs : List Cut) (ws : List Wr) (conn : Nat → Bool)
  | handB (cs : List Cut) (ws : List Wr) (conn : Nat → Bool)

/-- One event.  An end that was shut down, or a channel that is closed, has none. -/
def Net.step (n : Net) : Ev → Out Net
  | .connect pair => if n.aup then do let (a, _) ← Rev.connect pair n.a; .ok { n with a := a } else .ok n
  | .chanA c ws rs => if n.aup && (n.a.ch c).up then do let a ← channelEv c ws rs n.a; .ok { n with a := a } else .ok n
  | .chanB c ws rs => if n.bup && (n.b.ch c).up then do let b ← channelEv c ws rs n.b; .ok { n with b := b } else .ok n
  | .handA cs ws conn =>
    if n.aup then do
      let (a, env, w, st) ← handler false conn (cut cs n.ba).1 ws n.a
      .ok { n with a := a, ab := n.ab ++ w, ba := avail env ++ (cut cs n.ba).2, aup := decide (st = .done) }
    else .ok n
  | .handB cs ws conn =>
    if n.bup then do
      let (b, env, w, st) ← handler false conn (cut cs n.ab).1 ws n.b
      .ok { n with b := b, ba := n.ba ++ w, ab := avail env ++ (cut cs n.ab).2, bup := decide (st = .done) }
    else .ok n

/-- A history of events. -/
def Net.run (n : Net) : List Ev → Out Net
  | [] => .ok n
  | e :: es => do let n ← n.step e; n.run es

/-- What relates the two ends. -/
structure Inv (n : Net) : Prop where
  locA : n.aup = true → Loc n.a
  locB : n.bup = true → Loc n.b
  dirAB : n.bup = true → Dir n.a (n.aup = true) n.ab n.b
  dirBA : n.aup = true → Dir n.b (n.bup = true) n.ba n.a
  preAB : receivedOf n.b.log <+: queuedOf n.a.log
  preBA : receivedOf n.a.log <+: queuedOf n.b.log
  histA : Hist n.a
  histB : Hist n.b
  noB : ∀ c, connects c (queuedOf n.b.log) = 0
  ord : Ord n.a
  chA : ∀ c, opens c n.a.log ≤ 1 → Ch c n.a
  chB : ∀ c, opens c n.a.log ≤ 1 → Ch c n.b

theorem Dir.prefix {x y : Sock} {P : Prop} {wire : List Nat} (h : Dir x P wire y) : receivedOf y.log <+: queuedOf x.log := by
  obtain ⟨tr, lost, e, _⟩ := h
  exact ⟨tr, e.symm⟩

theorem inv_fresh : Inv .fresh := by
  have hd : Dir Sock.fresh True [] Sock.fresh := ⟨[], [], rfl, rfl, fun _ => rfl⟩
  have hc : ∀ c, Ch c Sock.fresh := fun c => ⟨by simp [Sock.fresh], by simp [Sock.fresh, gave]⟩
  refine ⟨fun _ => loc_fresh, fun _ => loc_fresh, fun _ => ⟨[], [], rfl, rfl, fun _ => rfl⟩, fun _ => ⟨[], [], rfl, rfl, fun _ => rfl⟩,
    hd.prefix, hd.prefix, hist_fresh, hist_fresh, fun _ => rfl, ?_, fun c _ => hc c, fun c _ => hc c⟩
  intro pre f post e
  simp [Net.fresh, Sock.fresh, queuedOf] at e

/-- The other end has sent no data for a channel that was never opened. -/
theorem Inv.noData {n : Net} (h : Inv n) {c : Nat} (hc : opens c n.a.log = 0) : dataOn c (receivedOf n.a.log) = [] := by
  by_contra hd
  have h1 : dataOn c (queuedOf n.b.log) ≠ [] := by
    obtain ⟨t, e⟩ := h.preBA
    rw [← e, dataOn_append]
    intro e2
    exact hd (List.append_eq_nil_iff.mp e2).1
  rw [h.histB.tookQ] at h1
  have h2 := h.histB.tookOpen c h1
  have h3 := h.histB.upper c
  have h4 := h.noB c
  have h5 := connects_prefix (c := c) h.preAB
  have h6 := h.histA.lower c
  omega

/-- Data precede no frame that opens their channel for the first time. -/
theorem ord_split {s : Sock} (ho : Ord s) {c : Nat} {r : List Frame} (hp : r <+: queuedOf s.log) (hd : dataOn c r ≠ []) : 1 ≤ connects c r := by
  have : ∃ f ∈ r, f.c = c ∧ f.cmd = false := by
    clear hp
    induction r with
    | nil => simp [dataOn] at hd
    | cons f l ih =>
      by_cases h : f.c = c ∧ f.cmd = false
      · exact ⟨f, by simp, h⟩
      · rw [dataOn, if_neg h] at hd
        obtain ⟨g, hg, h2⟩ := ih hd
        exact ⟨g, by simp [hg], h2⟩
  obtain ⟨f, hf, hc, hcmd⟩ := this
  obtain ⟨pre, post, rfl⟩ := List.append_of_mem hf
  obtain ⟨t, e⟩ := hp
  have := ho pre f (post ++ t) (by rw [← e]; simp) hcmd
  rw [hc] at this
  rw [connects_append]; omega

theorem Inv.stepA {n : Net} {w r ba' : List Nat} {a' : Sock} (h : Inv n) (hup : n.aup = true) (hba : n.ba = r ++ ba') (m : M true n.a w r a') :
    Inv { n with a := a', ab := n.ab ++ w, ba := ba' } := by
  have hl := h.locA hup
  have hBA : Dir n.b (n.bup = true) ba' a' := by
    have := h.dirBA hup; rw [hba] at this
    exact step_recv this hl h.histB.ok m
  have hr0 : ∀ c, connects c (receivedOf n.a.log) = 0 := by
    intro c; have := connects_prefix (c := c) h.preBA; have := h.noB c; omega
  have hist' := h.histA.step hl m
  have hr0' : ∀ c, connects c (receivedOf a'.log) = 0 := by
    intro c; have := connects_prefix (c := c) hBA.prefix; have := h.noB c; omega
  obtain ⟨es, hes⟩ := step_log hl m
  obtain ⟨new, hnew, _, _⟩ := step_send hl m
  have hmono : ∀ c, opens c n.a.log ≤ opens c a'.log := by intro c; rw [hes, opens_append]; omega
  refine ⟨fun _ => hl.step m, h.locB, fun hb => (h.dirAB hb).send hup hl m, fun _ => hBA, ?_, hBA.prefix, hist', h.histB, h.noB, h.ord.step h.histA hl hr0 m, ?_, ?_⟩
  · show receivedOf n.b.log <+: queuedOf a'.log
    rw [hnew]; exact h.preAB.trans (List.prefix_append _ _)
  · intro c hc
    have hc' : opens c n.a.log ≤ 1 := (hmono c).trans hc
    refine (h.chA c hc').step hl m ?_
    by_cases e : opens c a'.log = opens c n.a.log
    · exact .inl e
    · have := hmono c
      exact .inr (h.noData (by show opens c n.a.log = 0; have : opens c a'.log ≤ 1 := hc; omega))
  · intro c hc
    exact h.chB c ((hmono c).trans hc)

theorem Inv.stepB {n : Net} {w r ab' : List Nat} {b' : Sock} (h : Inv n) (hup : n.bup = true) (hab : n.ab = r ++ ab') (m : M false n.b w r b') :
    Inv { n with b := b', ba := n.ba ++ w, ab := ab' } := by
  have hl := h.locB hup
  have hAB : Dir n.a (n.aup = true) ab' b' := by
    have := h.dirAB hup; rw [hab] at this
    exact step_recv this hl h.histA.ok m
  obtain ⟨es, hes⟩ := step_log hl m
  obtain ⟨new, hnew, _, _⟩ := step_send hl m
  have hist' := h.histB.step hl m
  have hno' : ∀ c, connects c (queuedOf b'.log) = 0 := fun c => by rw [step_noConnect hl m]; exact h.noB c
  refine ⟨h.locA, fun _ => hl.step m, fun _ => hAB, fun ha => (h.dirBA ha).send hup hl m, hAB.prefix, ?_, h.histA, hist', hno', h.ord, h.chA, ?_⟩
  · show receivedOf n.a.log <+: queuedOf b'.log
    rw [hnew]; exact h.preBA.trans (List.prefix_append _ _)
  · intro c hc
    refine (h.chB c hc).step hl m ?_
    by_cases e : opens c b'.log = opens c n.b.log
    · exact .inl e
    · right
      by_contra hd
      have h1 := ord_split h.ord h.preAB hd
      have h2 : connects c (receivedOf n.b.log) < connects c (receivedOf b'.log) := (step_opens hl m c).resolve_left e
      have h3 := connects_prefix (c := c) hAB.prefix
      have h4 := h.histA.lower c
      have : opens c n.a.log ≤ 1 := hc
      omega

theorem Inv.stepsA {a a' : Sock} {w r : List Nat} (ms : Ms true a w r a') (n : Net) (ba' : List Nat) (h : Inv n) (hup : n.aup = true)
    (hba : n.ba = r ++ ba') (ha : n.a = a) : Inv { n with a := a', ab := n.ab ++ w, ba := ba' } := by
  induction ms generalizing n with
  | refl s => subst ha; simp only [List.nil_append] at hba; subst hba; simpa using h
  | step m _ ih =>
    subst ha
    rw [List.append_assoc] at hba
    have := ih { n with a := _, ab := n.ab ++ _, ba := _ } (h.stepA hup hba m) hup rfl rfl
    simpa using this

theorem Inv.stepsB {b b' : Sock} {w r : List Nat} (ms : Ms false b w r b') (n : Net) (ab' : List Nat) (h : Inv n) (hup : n.bup = true)
    (hab : n.ab = r ++ ab') (hb : n.b = b) : Inv { n with b := b', ba := n.ba ++ w, ab := ab' } := by
  induction ms generalizing n with
  | refl s => subst hb; simp only [List.nil_append] at hab; subst hab; simpa using h
  | step m _ ih =>
    subst hb
    rw [List.append_assoc] at hab
    have := ih { n with b := _, ba := n.ba ++ _, ab := _ } (h.stepB hup hab m) hup rfl rfl
    simpa using this

theorem Inv.downA {n : Net} {t : Sock} (h : Inv n) (q : Quiet n.a t) : Inv { n with a := t, aup := false } := by
  obtain ⟨es, h1, h2, h3, h4, h5, h6, h7⟩ := q
  have eq : queuedOf t.log = queuedOf n.a.log := by rw [h1, queuedOf_append, h2, List.append_nil]
  have er : receivedOf t.log = receivedOf n.a.log := by rw [h1, receivedOf_append, h3, List.append_nil]
  have eo : ∀ c, opens c t.log = opens c n.a.log := by intro c; rw [h1, opens_append, h6, Nat.add_zero]
  refine ⟨by simp, h.locB, ?_, by simp, ?_, ?_, h.histA.down h1 h2 h3 h4 h6 h7, h.histB, h.noB, ?_, ?_, ?_⟩
  · intro hb
    obtain ⟨tr, lost, e1, e2, _⟩ := h.dirAB hb
    exact ⟨tr, lost, by rw [← e1]; exact eq, e2, by simp⟩
  · show _ <+: queuedOf t.log; rw [eq]; exact h.preAB
  · show receivedOf t.log <+: _; rw [er]; exact h.preBA
  · show Ord t; unfold Ord; rw [eq]; exact h.ord
  · intro c hc; exact (h.chA c (eo c ▸ hc)).down h1 h3 (h5 c) (h7 c)
  · intro c hc; exact h.chB c (eo c ▸ hc)

theorem Inv.downB {n : Net} {t : Sock} (h : Inv n) (q : Quiet n.b t) : Inv { n with b := t, bup := false } := by
  obtain ⟨es, h1, h2, h3, h4, h5, h6, h7⟩ := q
  have eq : queuedOf t.log = queuedOf n.b.log := by rw [h1, queuedOf_append, h2, List.append_nil]
  have er : receivedOf t.log = receivedOf n.b.log := by rw [h1, receivedOf_append, h3, List.append_nil]
  refine ⟨h.locA, by simp, by simp, ?_, ?_, ?_, h.histA, h.histB.down h1 h2 h3 h4 h6 h7, ?_, h.ord, h.chA, ?_⟩
  · intro hb
    obtain ⟨tr, lost, e1, e2, _⟩ := h.dirBA hb
    exact ⟨tr, lost, by rw [← e1]; exact eq, e2, by simp⟩
  · show receivedOf t.log <+: _; rw [er]; exact h.preAB
  · show _ <+: queuedOf t.log; rw [eq]; exact h.preBA
  · intro c; show connects c (queuedOf t.log) = 0; rw [eq]; exact h.noB c
  · intro c hc; exact (h.chB c hc).down h1 h3 (h5 c) (h7 c)

theorem Inv.event {n : Net} (h : Inv n) (e : Ev) : ∃ n', n.step e = .ok n' ∧ Inv n' := by
  cases e with
  | connect pair =>
    unfold Net.step
    simp only
    split
    · rename_i hu
      obtain ⟨s', o, e1, m⟩ := connect_steps pair n.a (h.locA hu)
      rw [e1]
      exact ⟨_, rfl, by simpa using Inv.stepsA m n n.ba h hu rfl rfl⟩
    · exact ⟨n, rfl, h⟩
  | chanA c ws rs =>
    unfold Net.step
    simp only
    split
    · rename_i hu
      simp only [Bool.and_eq_true] at hu
      obtain ⟨s', e1, m⟩ := channel_steps (k := true) c _ ws rs n.a (h.locA hu.1) hu.2
      unfold channelEv; rw [e1]
      exact ⟨_, rfl, by simpa using Inv.stepsA m n n.ba h hu.1 rfl rfl⟩
    · exact ⟨n, rfl, h⟩
  | chanB c ws rs =>
    unfold Net.step
    simp only
    split
    · rename_i hu
      simp only [Bool.and_eq_true] at hu
      obtain ⟨s', e1, m⟩ := channel_steps (k := false) c _ ws rs n.b (h.locB hu.1) hu.2
      unfold channelEv; rw [e1]
      exact ⟨_, rfl, by simpa using Inv.stepsB m n n.ab h hu.1 rfl rfl⟩
    · exact ⟨n, rfl, h⟩
  | handA cs ws conn =>
    unfold Net.step
    simp only
    split
    · rename_i hu
      obtain ⟨s', env', w, x, e1, m, e2⟩ := handler_steps (k := true) conn (cut cs n.ba).1 ws n.a (h.locA hu)
      have hb : n.ba = x ++ (avail env' ++ (cut cs n.ba).2) := by
        rw [← List.append_assoc, ← e1, cut_avail]
      have i := Inv.stepsA m n _ h hu hb rfl
      rcases e2 with e2 | ⟨t, e2, q⟩
      · rw [e2]; exact ⟨_, rfl, by simpa [hu] using i⟩
      · rw [e2]; exact ⟨_, rfl, by simpa using i.downA q⟩
    · exact ⟨n, rfl, h⟩
  | handB cs ws conn =>
    unfold Net.step
    simp only
    split
    · rename_i hu
      obtain ⟨s', env', w, x, e1, m, e2⟩ := handler_steps (k := false) conn (cut cs n.ab).1 ws n.b (h.locB hu)
      have hb : n.ab = x ++ (avail env' ++ (cut cs n.ab).2) := by
        rw [← List.append_assoc, ← e1, cut_avail]
      have i := Inv.stepsB m n _ h hu hb rfl
      rcases e2 with e2 | ⟨t, e2, q⟩
      · rw [e2]; exact ⟨_, rfl, by simpa [hu] using i⟩
      · rw [e2]; exact ⟨_, rfl, by simpa using i.downB q⟩
    · exact ⟨n, rfl, h⟩

theorem Inv.events {n : Net} (h : Inv n) (es : List Ev) : ∃ n', n.run es = .ok n' ∧ Inv n' := by
  induction es generalizing n with
  | nil => exact ⟨n, rfl, h⟩
  | cons e es ih =>
    obtain ⟨n1, e1, h1⟩ := h.event e
    obtain ⟨n2, e2, h2⟩ := ih h1
    exact ⟨n2, by rw [Net.run, e1]; exact e2, h2⟩

end Mtev.Rev
