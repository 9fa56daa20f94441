import Verif.Rev

/-!
# Reverse connections: invariants

Every handler is a sequence of small steps (`M`); each step keeps the local invariant of a socket (`Loc`).
-/

namespace Mtev.Rev

/-! ### Histories -/

def queuedOf : List Eff → List Frame
  | [] => []
  | .queued f :: l => f :: queuedOf l
  | _ :: l => queuedOf l

def receivedOf : List Eff → List Frame
  | [] => []
  | .received f :: l => f :: receivedOf l
  | _ :: l => receivedOf l

/-- The bytes taken from the endpoint of channel `c`. -/
def took (c : Nat) : List Eff → List Nat
  | [] => []
  | .took c' bs :: l => if c' = c then bs ++ took c l else took c l
  | _ :: l => took c l

/-- The bytes given to the endpoint of channel `c`. -/
def gave (c : Nat) : List Eff → List Nat
  | [] => []
  | .gave c' bs :: l => if c' = c then bs ++ gave c l else gave c l
  | _ :: l => gave c l

/-- How often channel `c` was opened. -/
def opens (c : Nat) : List Eff → Nat
  | [] => 0
  | .opened c' :: l => (if c' = c then 1 else 0) + opens c l
  | _ :: l => opens c l

theorem queuedOf_append (a b : List Eff) : queuedOf (a ++ b) = queuedOf a ++ queuedOf b := by
  induction a with
  | nil => rfl
  | cons e l ih => cases e <;> simp [queuedOf, ih]

theorem receivedOf_append (a b : List Eff) : receivedOf (a ++ b) = receivedOf a ++ receivedOf b := by
  induction a with
  | nil => rfl
  | cons e l ih => cases e <;> simp [receivedOf, ih]

theorem took_append (c : Nat) (a b : List Eff) : took c (a ++ b) = took c a ++ took c b := by
  induction a with
  | nil => rfl
  | cons e l ih => cases e <;> simp [took, ih]; split <;> simp

theorem gave_append (c : Nat) (a b : List Eff) : gave c (a ++ b) = gave c a ++ gave c b := by
  induction a with
  | nil => rfl
  | cons e l ih => cases e <;> simp [gave, ih]; split <;> simp

theorem opens_append (c : Nat) (a b : List Eff) : opens c (a ++ b) = opens c a + opens c b := by
  induction a with
  | nil => simp [opens]
  | cons e l ih => cases e <;> simp [opens, ih]; omega

/-- The payload of the data frames of channel `c`. -/
def dataOn (c : Nat) : List Frame → List Nat
  | [] => []
  | f :: l => if f.c = c ∧ f.cmd = false then f.data ++ dataOn c l else dataOn c l

theorem dataOn_append (c : Nat) (a b : List Frame) : dataOn c (a ++ b) = dataOn c a ++ dataOn c b := by
  induction a with
  | nil => rfl
  | cons e l ih => simp only [List.cons_append, dataOn, ih]; split <;> simp

/-- What is queued for an endpoint. -/
def pend : List QFrame → List Nat
  | [] => []
  | q :: l => if q.f.cmd = false then q.f.data.drop q.offset ++ pend l else pend l

theorem pend_append (a b : List QFrame) : pend (a ++ b) = pend a ++ pend b := by
  induction a with
  | nil => rfl
  | cons e l ih => simp only [List.cons_append, pend, ih]; split <;> simp

/-! ### Wire format -/

/-- A frame on the wire. -/
def enc (f : Frame) : List Nat := header f ++ f.data

/-- A frame the code can make. -/
def Frame.Ok (f : Frame) : Prop := f.c < maxChannels ∧ f.data.length ≤ maxFrame

theorem header_length (f : Frame) : (header f).length = 6 := rfl

theorem parse_header {f : Frame} (h : f.Ok) : parse (header f) = ⟨f.c, f.cmd, f.data.length, [], .null⟩ := by
  have h1 : f.c < 512 := h.1
  have h2 : f.data.length ≤ 65530 := h.2
  unfold parse header
  simp only [List.getD_cons_zero, List.getD_cons_succ]
  cases f.cmd
  · simp only [Inflight.mk.injEq, and_true, decide_eq_false_iff_not]
    refine ⟨by simp; omega, by simp; omega, by omega⟩
  · simp only [Inflight.mk.injEq, and_true, decide_eq_true_eq]
    refine ⟨by simp; omega, by simp; omega, by omega⟩

/-- What is still to be written. -/
def pendOut (s : Sock) : List Nat :=
  match s.out with
  | [] => []
  | q :: qs => (header q.f).drop s.hdrW ++ q.f.data.drop q.offset ++ (qs.map QFrame.f).flatMap enc

/-! ### The local invariant -/

/-- The header was read and accepted. -/
def Parsed (s : Sock) : Prop :=
  s.inf.c = (parse s.hdr).c ∧ s.inf.cmd = (parse s.hdr).cmd ∧ s.inf.len = (parse s.hdr).len ∧
    s.inf.filled.length ≤ s.inf.len ∧ s.inf.buf ≠ .freed ∧ s.inf.c < maxChannels ∧ s.inf.len ≤ maxFrame

/-- The frame in flight. -/
def InOk (s : Sock) : Prop :=
  (s.hdr.length < 6 ∧ s.inf = .zero) ∨ (s.hdr.length = 6 ∧ (s.inf = .zero ∨ Parsed s))

/-- The queue of outgoing frames. -/
structure OutOk (s : Sock) : Prop where
  tail : s.tail = if s.out = [] then .null else .last
  frames : ∀ q ∈ s.out, q.f.Ok
  off : ∀ q ∈ s.out.drop 1, q.offset = 0
  hdrW : s.hdrW ≤ 6
  head : ∀ q qs, s.out = q :: qs → q.offset ≤ q.f.data.length ∧ (s.hdrW < 6 → q.offset = 0)
  idle : s.out = [] → s.hdrW = 0

structure Loc (s : Sock) : Prop where
  out : OutOk s
  inn : InOk s
  down : ∀ c, (s.ch c).up = false → (s.ch c).incoming = []
  chan : ∀ c, (s.ch c).up = true → c < maxChannels
  q : ∀ c, ∀ q ∈ (s.ch c).incoming, q.f.c = c ∧ (q.offset = 0 ∨ q.offset < q.f.data.length)

theorem loc_fresh : Loc .fresh :=
  ⟨⟨rfl, by simp [Sock.fresh], by simp [Sock.fresh], by simp [Sock.fresh], by simp [Sock.fresh], fun _ => rfl⟩,
    .inl ⟨by simp [Sock.fresh], rfl⟩, fun _ _ => rfl, by simp [Sock.fresh], by simp [Sock.fresh]⟩

theorem Loc.note {s : Sock} (h : Loc s) (e : Eff) : Loc (s.note e) :=
  ⟨⟨h.out.1, h.out.2, h.out.3, h.out.4, h.out.5, h.out.6⟩, h.inn, h.down, h.chan, h.q⟩

theorem setCh_same (s : Sock) (c : Nat) (x : Chan) : (s.setCh c x).ch c = x := by simp [Sock.setCh]

theorem setCh_other (s : Sock) {c d : Nat} (x : Chan) (h : d ≠ c) : (s.setCh c x).ch d = s.ch d := by simp [Sock.setCh, h]

theorem Loc.setCh {s : Sock} (h : Loc s) {c : Nat} {x : Chan} (h1 : x.up = false → x.incoming = []) (h2 : x.up = true → c < maxChannels)
    (h3 : ∀ q ∈ x.incoming, q.f.c = c ∧ (q.offset = 0 ∨ q.offset < q.f.data.length)) : Loc (s.setCh c x) := by
  refine ⟨⟨h.out.1, h.out.2, h.out.3, h.out.4, h.out.5, h.out.6⟩, h.inn, ?_, ?_, ?_⟩
  all_goals
    intro d
    by_cases hd : d = c
    · subst hd; rw [setCh_same]; assumption
    · rw [setCh_other s x hd]
      first
        | exact h.down d
        | exact h.chan d
        | exact h.q d

/-- The queue after `appendOut`. -/
def queueOut (s : Sock) (f : Frame) : Sock := Sock.note { s with out := s.out ++ [⟨f, 0⟩], tail := .last } (.queued f)

theorem appendOut_ok {s : Sock} (h : OutOk s) (f : Frame) : appendOut s f = .ok (queueOut s f) := by
  unfold appendOut queueOut
  rw [h.tail]
  by_cases he : s.out = []
  · rw [if_pos he]; simp only [he, List.nil_append]
  · rw [if_neg he]

theorem pendOut_queue {s : Sock} (h : OutOk s) (f : Frame) : pendOut (queueOut s f) = pendOut s ++ enc f := by
  unfold pendOut queueOut
  cases ho : s.out with
  | nil => simp [Sock.note, enc, h.idle ho]
  | cons q qs => simp [Sock.note]

theorem outOk_queue {s : Sock} (h : OutOk s) {f : Frame} (hf : f.Ok) : OutOk (queueOut s f) := by
  refine ⟨?_, ?_, ?_, h.hdrW, ?_, ?_⟩
  · simp [queueOut, Sock.note]
  · intro q hq
    simp only [queueOut, Sock.note, List.mem_append, List.mem_singleton] at hq
    rcases hq with hq | rfl
    · exact h.frames q hq
    · exact hf
  · intro q hq
    simp only [queueOut, Sock.note] at hq
    cases ho : s.out with
    | nil => rw [ho] at hq; simp at hq
    | cons a b =>
      rw [ho] at hq
      simp only [List.cons_append, List.drop_succ_cons, List.drop_zero, List.mem_append, List.mem_singleton] at hq
      rcases hq with hq | rfl
      · exact h.off q (by rw [ho]; simpa using hq)
      · rfl
  · intro q qs e
    simp only [queueOut, Sock.note] at e ⊢
    cases ho : s.out with
    | nil =>
      rw [ho] at e
      simp only [List.nil_append, List.cons.injEq] at e
      rw [← e.1]; exact ⟨Nat.zero_le _, fun _ => rfl⟩
    | cons a b =>
      rw [ho] at e
      simp only [List.cons_append, List.cons.injEq] at e
      rw [← e.1]; exact h.head a b ho
  · intro e; simp [queueOut, Sock.note] at e

theorem Loc.queue {s : Sock} (h : Loc s) {f : Frame} (hf : f.Ok) : Loc (queueOut s f) :=
  ⟨outOk_queue h.out hf, h.inn, h.down, h.chan, h.q⟩

/-! ### Small steps -/

/-- One small step: the bytes it writes to the peer and the bytes it reads from the peer.  `k` says whether channels may be
opened by `connect`. -/
inductive M (k : Bool) : Sock → List Nat → List Nat → Sock → Prop
  | wHdr (s : Sock) (q : QFrame) (qs : List QFrame) (m : Nat) : s.out = q :: qs → s.hdrW < 6 → m ≤ 6 - s.hdrW →
      M k s (((header q.f).drop s.hdrW).take m) [] { s with hdrW := s.hdrW + m }
  | wBody (s : Sock) (q : QFrame) (qs : List QFrame) (m : Nat) : s.out = q :: qs → ¬ s.hdrW < 6 → m ≤ q.f.data.length - q.offset →
      q.offset < q.f.data.length → M k s ((q.f.data.drop q.offset).take m) [] (setOffset s (q.offset + m))
  | pop (s : Sock) (q : QFrame) (qs : List QFrame) : s.out = q :: qs → ¬ s.hdrW < 6 → ¬ q.offset < q.f.data.length →
      M k s [] [] (popOut { s with hdrW := 0 })
  | rHdr (s : Sock) (bs : List Nat) : s.hdr.length + bs.length ≤ 6 → s.hdr.length < 6 → M k s [] bs { s with hdr := s.hdr ++ bs }
  | check (s s' : Sock) (d : Bool) : ¬ s.hdr.length < 6 → checkHeader d s = .ok (some s') → M k s [] [] s'
  | buf (s s' : Sock) : ¬ s.hdr.length < 6 → s.inf.filled.length < s.inf.len → bodyBuf s = .ok s' → M k s [] [] s'
  | rBody (s : Sock) (bs : List Nat) : ¬ s.hdr.length < 6 → s.inf.len ≠ 0 → s.inf.filled.length + bs.length ≤ s.inf.len →
      M k s [] bs { s with inf := { s.inf with filled := s.inf.filled ++ bs } }
  | disp (s s' : Sock) (conn : Nat → Bool) (n : Next) : ¬ s.hdr.length < 6 → s.inf.c = (parse s.hdr).c → s.inf.cmd = (parse s.hdr).cmd →
      s.inf.len = (parse s.hdr).len → s.inf.filled.length = s.inf.len → s.inf.c < maxChannels →
      dispatch conn s = .ok (s', n) → M k s [] [] s'
  | gave (s : Sock) (c : Nat) (q : QFrame) (qs : List QFrame) (m : Nat) : (s.ch c).incoming = q :: qs → q.f.cmd = false →
      q.f.data.length ≠ 0 → 1 ≤ m → m ≤ q.f.data.length - q.offset →
      M k s [] [] ((s.setCh c ⟨true, if q.offset + m = q.f.data.length then qs else { q with offset := q.offset + m } :: qs⟩).note
        (.gave c ((q.f.data.drop q.offset).take m)))
  | took (s : Sock) (c : Nat) (d : List Nat) : (s.ch c).up = true → d.length ≤ maxFrame →
      M k s [] [] (queueOut (s.note (.took c d)) ⟨c, false, d⟩)
  | closed (s : Sock) (c : Nat) (tell : Bool) : (s.ch c).up = true →
      M k s [] [] (closeCh (if tell then queueOut s ⟨c, true, bytesOf "SHUTDOWN"⟩ else s) c)
  | opened (s : Sock) (c : Nat) : k = true → (s.ch c).up = false → c < maxChannels →
      M k s [] [] (queueOut ((Sock.setCh { s with last := c } c ⟨true, (s.ch c).incoming⟩).note (.opened c)) ⟨c, true, bytesOf "CONNECT"⟩)
  | last (s : Sock) (n : Nat) : M k s [] [] { s with last := n }

/-- Many small steps. -/
inductive Ms (k : Bool) : Sock → List Nat → List Nat → Sock → Prop
  | refl (s : Sock) : Ms k s [] [] s
  | step {s t u : Sock} {w w' r r' : List Nat} : M k s w r t → Ms k t w' r' u → Ms k s (w ++ w') (r ++ r') u

theorem Ms.trans {k : Bool} {s t u : Sock} {w w' r r' : List Nat} (h : Ms k s w r t) (h' : Ms k t w' r' u) : Ms k s (w ++ w') (r ++ r') u := by
  induction h with
  | refl => simpa
  | step m _ ih => rw [List.append_assoc, List.append_assoc]; exact .step m (ih h')

theorem Ms.one {k : Bool} {s t : Sock} {w r : List Nat} (h : M k s w r t) : Ms k s w r t := by
  have := Ms.step h (.refl t); simpa using this

theorem Ms.cast {k : Bool} {s t : Sock} {w w' r r' : List Nat} (h : Ms k s w r t) (e1 : w = w') (e2 : r = r') : Ms k s w' r' t := by subst e1; subst e2; exact h

theorem dispatch_cases {conn : Nat → Bool} {s s' : Sock} {n : Next} (h : Loc s) (hd : dispatch conn s = .ok (s', n)) :
    (s.inf.cmd = true ∧ s.inf.filled = bytesOf "CONNECT" ∧ (s.ch s.inf.c).up = false ∧
      s' = clearIn (((s.note (.received s.inf.frame)).setCh s.inf.c ⟨true, (s.ch s.inf.c).incoming⟩).note (.opened s.inf.c))) ∨
    ((s.ch s.inf.c).up = false ∧ (s' = clearIn (s.note (.received s.inf.frame)) ∨
      s' = clearIn (queueOut (s.note (.received s.inf.frame)) ⟨s.inf.c, true, bytesOf "RESET"⟩))) ∨
    ((s.ch s.inf.c).up = true ∧ s' = clearIn ((s.note (.received s.inf.frame)).setCh s.inf.c
      ⟨true, (s.ch s.inf.c).incoming ++ [⟨s.inf.frame, 0⟩]⟩)) := by
  unfold dispatch at hd
  simp only at hd
  split at hd
  · cases hd
  split at hd
  · rename_i hc
    simp only [Out.ok.injEq, Prod.mk.injEq] at hd
    exact .inl ⟨hc.1, hc.2.1, hc.2.2.1, hd.1.symm⟩
  · split at hd
    · rename_i h2
      right; left
      refine ⟨h2, ?_⟩
      split at hd
      · simp only [Out.ok.injEq, Prod.mk.injEq] at hd
        exact .inl hd.1.symm
      · unfold commandOut at hd
        rw [appendOut_ok (h.note _).out] at hd
        simp only [Out.ok_bind, Out.ok.injEq, Prod.mk.injEq] at hd
        exact .inr hd.1.symm
    · rename_i h2
      right; right
      simp only [Out.ok.injEq, Prod.mk.injEq] at hd
      exact ⟨by simpa [Sock.note, Inflight.frame] using h2, hd.1.symm⟩

theorem Loc.clearIn {s : Sock} (h : Loc s) : Loc (clearIn s) :=
  ⟨⟨h.out.1, h.out.2, h.out.3, h.out.4, h.out.5, h.out.6⟩, .inl ⟨by simp [Rev.clearIn], rfl⟩, h.down, h.chan, h.q⟩

theorem check_parsed {d : Bool} {s t : Sock} (h : Loc s) (h1 : ¬ s.hdr.length < 6) (h2 : checkHeader d s = .ok (some t)) :
    t.hdr = s.hdr ∧ Parsed t ∧ ∃ i, t = { s with inf := i } := by
  have hin : s.inf = .zero ∨ Parsed s := by
    rcases h.inn with ⟨a, b⟩ | ⟨a, b⟩
    · omega
    · exact b
  unfold checkHeader at h2
  split at h2
  · rename_i hz
    simp only at h2
    split at h2
    · cases h2
    · split at h2
      · cases h2
      · split at h2
        · cases h2
        · rename_i g1 g2 g3
          simp only [Out.ok.injEq, Option.some.injEq] at h2
          subst h2
          refine ⟨rfl, ⟨rfl, rfl, rfl, ?_, ?_, by simp only; omega, by simp only; omega⟩, _, rfl⟩
          · rcases hin with b | b
            · simp [b, Inflight.zero]
            · have := b.2.2.2.1
              simp only
              omega
          · rcases hin with b | b
            · simp [b, Inflight.zero]
            · exact b.2.2.2.2.1
  · rename_i hz
    simp only [Out.ok.injEq, Option.some.injEq] at h2
    subst h2
    refine ⟨rfl, ?_, s.inf, rfl⟩
    rcases hin with b | b
    · rw [b] at hz; simp [Inflight.zero] at hz
    · exact b

theorem Loc.step {k : Bool} {s t : Sock} {w r : List Nat} (h : Loc s) (m : M k s w r t) : Loc t := by
  cases m with
  | wHdr q qs m ho h1 h2 =>
    refine ⟨⟨h.out.1, h.out.2, h.out.3, by simp only; omega, ?_, ?_⟩, h.inn, h.down, h.chan, h.q⟩
    · intro a b e
      have := h.out.head a b e
      exact ⟨this.1, fun hl => this.2 (by simp only at hl; omega)⟩
    · intro e; simp only [ho] at e; cases e
  | wBody q qs m ho h1 h2 h3 =>
    have e : setOffset s (q.offset + m) = { s with out := { q with offset := q.offset + m } :: qs } := by simp only [setOffset, ho]
    rw [e]
    refine ⟨⟨?_, ?_, ?_, h.out.4, ?_, ?_⟩, h.inn, h.down, h.chan, h.q⟩
    · have := h.out.tail; rw [ho] at this; simpa using this
    · intro a ha
      simp only [List.mem_cons] at ha
      rcases ha with rfl | ha
      · exact h.out.frames q (by rw [ho]; simp)
      · exact h.out.frames a (by rw [ho]; simp [ha])
    · intro a ha; exact h.out.off a (by rw [ho]; simpa using ha)
    · intro a b e
      simp only [List.cons.injEq] at e
      rw [← e.1]
      exact ⟨by simp only; omega, fun hl => absurd hl h1⟩
    · intro e; cases e
  | pop q qs ho h1 h2 =>
    have e : popOut { s with hdrW := 0 } = { s with hdrW := 0, out := qs, tail := if qs = [] then .null else .last } := by
      have ht := h.out.tail
      rw [ho] at ht
      simp only [popOut, ho, ht]
      cases qs <;> simp
    rw [e]
    have hoff := h.out.off
    rw [ho] at hoff
    simp only [List.drop_succ_cons, List.drop_zero] at hoff
    refine ⟨⟨rfl, ?_, ?_, by simp, ?_, fun _ => rfl⟩, h.inn, h.down, h.chan, h.q⟩
    · intro a ha; exact h.out.frames a (by rw [ho]; simp [ha])
    · intro a ha; exact hoff a (List.mem_of_mem_drop ha)
    · intro a b e2
      simp only at e2
      have := hoff a (by rw [e2]; simp)
      rw [this]; exact ⟨Nat.zero_le _, fun _ => rfl⟩
  | rHdr bs h1 h2 =>
    refine ⟨⟨h.out.1, h.out.2, h.out.3, h.out.4, h.out.5, h.out.6⟩, ?_, h.down, h.chan, h.q⟩
    rcases h.inn with ⟨a, b⟩ | ⟨a, _⟩
    · by_cases hl : s.hdr.length + r.length < 6
      · exact .inl ⟨by simpa using hl, b⟩
      · exact .inr ⟨by simp only [List.length_append]; omega, .inl b⟩
    · omega
  | check _ d h1 h2 =>
    obtain ⟨a1, a2, i, rfl⟩ := check_parsed h h1 h2
    refine ⟨⟨h.out.1, h.out.2, h.out.3, h.out.4, h.out.5, h.out.6⟩, ?_, h.down, h.chan, h.q⟩
    rcases h.inn with ⟨a, b⟩ | ⟨a, b⟩
    · omega
    · exact .inr ⟨a, .inr a2⟩
  | buf _ h1 h2 h3 =>
    have e : t = { s with inf := { s.inf with buf := .live } } := by
      unfold bodyBuf at h3
      split at h3
      · cases h3
      · simp only [Out.ok.injEq] at h3; exact h3.symm
    subst e
    refine ⟨⟨h.out.1, h.out.2, h.out.3, h.out.4, h.out.5, h.out.6⟩, ?_, h.down, h.chan, h.q⟩
    rcases h.inn with ⟨a, b⟩ | ⟨a, b⟩
    · omega
    · rcases b with b | ⟨b1, b2, b3, b4, b5, b6, b7⟩
      · rw [b] at h2; simp [Inflight.zero] at h2
      · exact .inr ⟨a, .inr ⟨b1, b2, b3, b4, by simp, b6, b7⟩⟩
  | rBody bs h1 h2 h3 =>
    refine ⟨⟨h.out.1, h.out.2, h.out.3, h.out.4, h.out.5, h.out.6⟩, ?_, h.down, h.chan, h.q⟩
    rcases h.inn with ⟨a, b⟩ | ⟨a, b⟩
    · omega
    · rcases b with b | ⟨b1, b2, b3, b4, b5, b6, b7⟩
      · rw [b] at h2; simp [Inflight.zero] at h2
      · exact .inr ⟨a, .inr ⟨b1, b2, b3, by simp only [List.length_append]; omega, b5, b6, b7⟩⟩
  | disp _ conn n h1 c1 c2 c3 c4 c5 h2 =>
    rcases dispatch_cases h h2 with ⟨a1, a2, a3, rfl⟩ | ⟨a1, rfl | rfl⟩ | ⟨a1, rfl⟩
    · refine (((h.note _).setCh (by simp) (fun _ => c5) ?_).note _).clearIn
      exact h.q _
    · exact (h.note _).clearIn
    · exact ((h.note _).queue ⟨c5, by show (bytesOf "RESET").length ≤ maxFrame; decide⟩).clearIn
    · refine ((h.note _).setCh (by simp) (fun _ => c5) ?_).clearIn
      intro q hq
      simp only [List.mem_append, List.mem_singleton] at hq
      rcases hq with hq | rfl
      · exact h.q _ q hq
      · exact ⟨rfl, .inl rfl⟩
  | gave c q qs m h1 h2 h3 h4 h5 =>
    have hup : (s.ch c).up = true := by
      by_contra hc
      have := h.down c (by simpa using hc)
      rw [h1] at this; cases this
    refine ((h.setCh (by simp) (fun _ => h.chan c hup) ?_).note _)
    intro a ha
    have hq := h.q c
    rw [h1] at hq
    simp only at ha
    split at ha
    · exact hq a (by simp [ha])
    · rename_i hne
      simp only [List.mem_cons] at ha
      rcases ha with rfl | ha
      · exact ⟨(hq q (by simp)).1, .inr (by simp only; omega)⟩
      · exact hq a (by simp [ha])
  | took c d h1 h2 => exact (h.note _).queue ⟨h.chan c h1, h2⟩
  | closed c tell h1 =>
    have hl : Loc (if tell then queueOut s ⟨c, true, bytesOf "SHUTDOWN"⟩ else s) := by
      split
      · exact h.queue ⟨h.chan c h1, by show (bytesOf "SHUTDOWN").length ≤ maxFrame; decide⟩
      · exact h
    exact (hl.setCh (by simp) (by simp) (by simp)).note _
  | opened c _ h1 h2 =>
    have hl : Loc { s with last := c } := ⟨⟨h.out.1, h.out.2, h.out.3, h.out.4, h.out.5, h.out.6⟩, h.inn, h.down, h.chan, h.q⟩
    refine ((hl.setCh (by simp) (fun _ => h2) ?_).note _).queue ⟨h2, by show (bytesOf "CONNECT").length ≤ maxFrame; decide⟩
    exact h.q c
  | last n => exact ⟨⟨h.out.1, h.out.2, h.out.3, h.out.4, h.out.5, h.out.6⟩, h.inn, h.down, h.chan, h.q⟩

theorem Loc.steps {k : Bool} {s t : Sock} {w r : List Nat} (h : Loc s) (m : Ms k s w r t) : Loc t := by
  induction m with
  | refl => exact h
  | step a _ ih => exact ih (h.step a)

/-! ### The handlers are sequences of small steps -/

theorem clamp_le {n k : Nat} (h : 1 ≤ k) : 1 ≤ clamp n k ∧ clamp n k ≤ k := by unfold clamp; omega

theorem tryWrites_steps {k : Bool} (budget : Nat) (ws : List Wr) (s : Sock) :
    Ms k s (tryWrites budget ws s).2.1 [] (tryWrites budget ws s).1 := by
  unfold tryWrites
  generalize ws.length + budget + 1 = fuel
  fun_induction tryWritesF fuel budget ws s
  all_goals try exact .refl _
  · rename_i s h0 q qs ho h1 n ws m r ih
    exact (Ms.step (.wHdr s q qs m ho h1 (clamp_le (by omega)).2) ih)
  · rename_i s h0 q qs ho h1 h2 n ws m r ih
    exact (Ms.step (.wBody s q qs m ho h1 (clamp_le (by omega)).2 h2) ih)
  · rename_i s h0 q qs ho h1 h2 ih
    exact (Ms.step (.pop s q qs ho h1 h2) ih)

theorem avail_left (bs : List Nat) (k : Nat) (env : List Rd) : bs ++ avail env = bs.take k ++ avail (left bs k env) := by
  unfold left
  split
  · rename_i h; rw [List.take_of_length_le h]
  · show _ = _ ++ (bs.drop k ++ avail env)
    rw [← List.append_assoc, List.take_append_drop]

/-- `reads` never fails on a socket that satisfies the invariant, and is a sequence of small steps that reads what it takes. -/
theorem reads_steps {k : Bool} (conn : Nat → Bool) (fuel : Nat) : ∀ (budget : Nat) (env : List Rd) (s : Sock), Loc s →
    ∃ s' env' st x, reads false conn fuel budget env s = .ok (s', env', st) ∧ avail env = x ++ avail env' ∧ Ms k s [] x s' := by
  induction fuel with
  | zero => intro b env s _; exact ⟨s, env, .done, [], rfl, rfl, .refl s⟩
  | succ fuel ih =>
    intro b env s h
    rw [reads.eq_def]
    simp only
    split
    · rename_i hl
      cases env with
      | nil => exact ⟨s, [], .done, [], rfl, rfl, .refl s⟩
      | cons e env =>
        cases e with
        | again => exact ⟨s, env, .done, [], rfl, rfl, .refl s⟩
        | fail => exact ⟨s, env, .error, [], rfl, rfl, .refl s⟩
        | data bs =>
          cases bs with
          | nil => exact ⟨s, env, .error, [], rfl, rfl, .refl s⟩
          | cons b0 bs =>
            have m : M k s [] ((b0 :: bs).take (6 - s.hdr.length)) { s with hdr := s.hdr ++ (b0 :: bs).take (6 - s.hdr.length) } :=
              .rHdr s _ (by rw [List.length_take]; omega) hl
            obtain ⟨s', env', st, x, e1, e2, e3⟩ := ih b (left (b0 :: bs) (6 - s.hdr.length) env) _ (h.step m)
            refine ⟨s', env', st, (b0 :: bs).take (6 - s.hdr.length) ++ x, e1, ?_, .step m e3⟩
            show (b0 :: bs) ++ avail env = _
            rw [avail_left (b0 :: bs) (6 - s.hdr.length) env, e2, List.append_assoc]
    · rename_i hl
      have hc : ∃ o, checkHeader false s = .ok o := by
        unfold checkHeader
        simp only [Bool.false_eq_true, false_and, if_false]
        split
        · split
          · exact ⟨_, rfl⟩
          · split <;> exact ⟨_, rfl⟩
        · exact ⟨_, rfl⟩
      obtain ⟨o, hc⟩ := hc
      rw [hc, Out.ok_bind]
      cases o with
      | none => exact ⟨s, env, .bad, [], rfl, rfl, .refl s⟩
      | some t =>
        have m1 : M k s [] [] t := .check s t false hl hc
        have ht := h.step m1
        obtain ⟨p1, p2, _⟩ := check_parsed h hl hc
        have hlt : ¬ t.hdr.length < 6 := by rw [p1]; exact hl
        simp only
        split
        · rename_i hb
          have hbuf : bodyBuf t = .ok { t with inf := { t.inf with buf := .live } } := by
            unfold bodyBuf
            have := p2.2.2.2.2.1
            cases hp : t.inf.buf <;> simp_all
          rw [hbuf, Out.ok_bind]
          have m2 : M k t [] [] { t with inf := { t.inf with buf := .live } } := .buf t _ hlt hb hbuf
          have hu := ht.step m2
          have m12 : Ms k s [] [] { t with inf := { t.inf with buf := .live } } := .step m1 (.one m2)
          cases env with
          | nil => exact ⟨_, [], .done, [], rfl, rfl, m12⟩
          | cons e env =>
            cases e with
            | again => exact ⟨_, env, .done, [], rfl, rfl, m12⟩
            | fail => exact ⟨_, env, .error, [], rfl, rfl, m12⟩
            | data bs =>
              cases bs with
              | nil => exact ⟨_, env, .error, [], rfl, rfl, m12⟩
              | cons b0 bs =>
                have m3 : M k { t with inf := { t.inf with buf := .live } } [] ((b0 :: bs).take (t.inf.len - t.inf.filled.length))
                    { t with inf := { t.inf with buf := .live, filled := t.inf.filled ++ (b0 :: bs).take (t.inf.len - t.inf.filled.length) } } :=
                  .rBody _ _ hlt (by simp only; omega) (by simp only [List.length_take]; omega)
                obtain ⟨s', env', st, x, e1, e2, e3⟩ := ih b (left (b0 :: bs) (t.inf.len - t.inf.filled.length) env) _ (hu.step m3)
                refine ⟨s', env', st, (b0 :: bs).take (t.inf.len - t.inf.filled.length) ++ x, e1, ?_, ?_⟩
                · show (b0 :: bs) ++ avail env = _
                  rw [avail_left (b0 :: bs) (t.inf.len - t.inf.filled.length) env, e2, List.append_assoc]
                · exact (m12.trans (.step m3 e3))
        · rename_i hb
          have hd : ∃ t' n, dispatch conn t = .ok (t', n) := by
            unfold dispatch
            simp only
            rw [if_neg (show ¬ maxChannels ≤ t.inf.frame.c from Nat.not_le.mpr p2.2.2.2.2.2.1)]
            split
            · exact ⟨_, _, rfl⟩
            · split
              · split
                · exact ⟨_, _, rfl⟩
                · unfold commandOut
                  rw [appendOut_ok (ht.note _).out]
                  exact ⟨_, _, rfl⟩
              · exact ⟨_, _, rfl⟩
          obtain ⟨t', n, hd⟩ := hd
          rw [hd, Out.ok_bind]
          have m2 : M k t [] [] t' := .disp t t' conn n hlt p2.1 p2.2.1 p2.2.2.1 (by have := p2.2.2.2.1; omega) p2.2.2.2.2.2.1 hd
          have hu := ht.step m2
          have m12 : Ms k s [] [] t' := .step m1 (.one m2)
          have fin : ∀ b, ∃ s' env' st x, reads false conn fuel b env t' = .ok (s', env', st) ∧ avail env = x ++ avail env' ∧ Ms k s [] x s' := by
            intro b
            obtain ⟨s', env', st, x, e1, e2, e3⟩ := ih b env t' hu
            exact ⟨s', env', st, x, e1, e2, m12.trans e3⟩
          cases n with
          | frame => exact fin b
          | counted =>
            simp only
            split
            · exact ⟨t', env, .done, [], rfl, rfl, m12⟩
            · exact fin _

theorem chWrites_steps {k : Bool} (c : Nat) (ws : List Wr) (s : Sock) (h : Loc s) : Ms k s [] [] (chWrites c ws s).1 := by
  fun_induction chWrites c ws s
  all_goals try exact .refl _
  rename_i s q qs ho h1 h2 n ws m bs q' s2 r ih
  have hq : q.offset < q.f.data.length := by
    rcases (h.q c q (by rw [ho]; simp)).2 with e | e <;> omega
  have hm := clamp_le (n := n) (k := q.f.data.length - q.offset) (by omega)
  have m1 : M k s [] [] s2 := .gave s c q qs m ho (by simpa using h1) h2 hm.1 hm.2
  exact .step m1 (ih (h.step m1))

/-- The verdict to close is given only to an open channel. -/
theorem chWrites_up (c : Nat) (ws : List Wr) (s : Sock) : (s.ch c).up = true → ((chWrites c ws s).1.ch c).up = true := by
  fun_induction chWrites c ws s
  all_goals intro h; try exact h
  rename_i ih
  exact ih (by show (Sock.ch (Sock.setCh _ c _) c).up = true; rw [setCh_same])

theorem endCh_steps {k : Bool} (c : Nat) (tell : Bool) (s : Sock) (h : Loc s) (hup : (s.ch c).up = true) :
    ∃ s', endCh c tell s = .ok s' ∧ Ms k s [] [] s' := by
  unfold endCh commandOut
  have m := M.closed (k := k) s c tell hup
  cases tell
  · exact ⟨_, rfl, .one m⟩
  · simp only [if_true] at m ⊢
    rw [appendOut_ok h.out]
    exact ⟨_, rfl, .one m⟩

theorem channel_steps {k : Bool} (c : Nat) (fuel : Nat) : ∀ (ws : List Wr) (rs : List Rd) (s : Sock), Loc s → (s.ch c).up = true →
    ∃ s', channel c fuel ws rs s = .ok s' ∧ Ms k s [] [] s' := by
  induction fuel with
  | zero => intro ws rs s _ _; exact ⟨s, rfl, .refl s⟩
  | succ fuel ih =>
    intro ws rs s h hup
    have m1 := chWrites_steps (k := k) c ws s h
    have u1 := chWrites_up c ws s hup
    have h1 := h.steps m1
    unfold channel
    generalize chWrites c ws s = r at m1 u1 h1
    obtain ⟨t, ws', v⟩ := r
    simp only at m1 u1 h1 ⊢
    have fin : ∀ tell, ∃ s', endCh c tell t = .ok s' ∧ Ms k s [] [] s' := by
      intro tell
      obtain ⟨s', e, m⟩ := endCh_steps c tell t h1 u1
      exact ⟨s', e, m1.trans m⟩
    have go : ∀ rs, ∃ s', channel c fuel ws' rs t = .ok s' ∧ Ms k s [] [] s' := by
      intro rs
      obtain ⟨s', e, m⟩ := ih ws' rs t h1 u1
      exact ⟨s', e, m1.trans m⟩
    cases v with
    | snip => exact fin false
    | bye => exact fin true
    | go p =>
      cases rs with
      | nil => cases p; exact ⟨t, rfl, m1⟩; exact go []
      | cons e rs =>
        cases e with
        | again => cases p; exact ⟨t, rfl, m1⟩; exact go rs
        | fail => exact fin true
        | data bs =>
          cases bs with
          | nil => exact fin true
          | cons b0 bs =>
            simp only
            rw [appendOut_ok (h1.note _).out, Out.ok_bind]
            have m2 := M.took (k := k) t c ((b0 :: bs).take maxFrame) u1 (by rw [List.length_take]; omega)
            obtain ⟨s', e, m⟩ := ih ws' (left (b0 :: bs) maxFrame rs) _ (h1.step m2) u1
            exact ⟨s', e, m1.trans (.step m2 m)⟩

theorem pick_some {s : Sock} {c : Nat} (h : pick s = some c) : (s.ch c).up = false ∧ c < maxChannels := by
  unfold pick at h
  have h1 := List.find?_some h
  have h2 := List.mem_of_find?_eq_some h
  obtain ⟨i, _, e⟩ := List.mem_map.mp h2
  refine ⟨by simpa using h1, ?_⟩
  rw [← e]; exact Nat.mod_lt _ (by decide)

theorem connect_steps (pair : Bool) (s : Sock) (h : Loc s) : ∃ s' o, connect pair s = .ok (s', o) ∧ Ms true s [] [] s' := by
  unfold connect
  cases hp : pick s with
  | none => exact ⟨s, none, rfl, .refl s⟩
  | some c =>
    obtain ⟨h1, h2⟩ := pick_some hp
    cases pair
    · exact ⟨_, none, rfl, .one (.last s c)⟩
    · have m := M.opened (k := true) s c rfl h1 h2
      have hl : Loc ((Sock.setCh { s with last := c } c ⟨true, (s.ch c).incoming⟩).note (.opened c)) := by
        have hl : Loc { s with last := c } := h.step (M.last (k := true) s c)
        exact (hl.setCh (x := ⟨true, (s.ch c).incoming⟩) (by simp) (fun _ => h2) (h.q c)).note _
      simp only [if_true]
      rw [appendOut_ok hl.out]
      exact ⟨_, some c, rfl, .one m⟩

end Mtev.Rev
