import Verif.HttpConn

/-!
C147: the requests on a connection are served one after the other, each exactly once, in the order they
were sent, and nothing else is taken for a request.
-/

namespace Mtev.HttpConn

variable {R F : Type}

/-! ### What a client sends -/

/-- A request with its body as a client sends it. -/
structure Msg (R F : Type) where
  r : R
  f : F
  h : Str
  b : Str

/-- The parsers find this head and this body, whatever follows, and not before they are complete
(C33, C35, C60, C61 are about the code that does this). -/
structure Msg.Ok (p : Parser R F) (m : Msg R F) : Prop where
  head : ∀ t, p.head (m.h ++ t) = .req m.r m.f m.h.length
  headMore : ∀ k < m.h.length, p.head (m.h.take k) = .more
  body : ∀ t, p.body m.f (m.b ++ t) = .done m.b.length
  bodyMore : ∀ k < m.b.length, p.body m.f (m.b.take k) = .more

/-- The bytes of messages sent one after the other. -/
def wire : List (Msg R F) → Str
  | [] => []
  | m :: ms => (m.h ++ m.b) ++ wire ms

/-- All bytes the client has sent in these events. -/
def sentIn : List Ev → Str
  | [] => []
  | .send bs :: es => bs ++ sentIn es
  | _ :: es => sentIn es

/-- Nobody is in a hurry: the client starts a message only when it has the response to the one before it,
and the dispatcher ends a response only when it has taken the whole body. -/
def Patient (p : Parser R F) (msgs : List (Msg R F)) : Str → St R F → List Ev → Prop
  | _, _, [] => True
  | sent, s, .send bs :: es =>
    (sent ++ bs) <+: wire (msgs.take (s.answered.length + 1)) ∧ Patient p msgs (sent ++ bs) (step p s (.send bs)) es
  | sent, s, .finish c :: es =>
    (s.phase = .app → bodyOf p s = .done s.seen.length) ∧ Patient p msgs sent (step p s (.finish c)) es
  | sent, s, e :: es => Patient p msgs sent (step p s e) es

/-! ### The proof -/

theorem wire_append (a b : List (Msg R F)) : wire (a ++ b) = wire a ++ wire b := by
  induction a with
  | nil => rfl
  | cons m a ih => simp [wire, ih, List.append_assoc]

theorem wire_take_succ (ms : List (Msg R F)) (i : Nat) (m : Msg R F) (h : ms[i]? = some m) :
    wire (ms.take (i + 1)) = wire (ms.take i) ++ (m.h ++ m.b) := by
  rw [List.take_add_one, h, wire_append]; simp [wire]

/-- The message being dealt with, and what of it was read and not. -/
inductive Stage (msgs : List (Msg R F)) (sent : Str) (s : St R F) : Prop
  | head (h0 : s.phase = .head) (h1 : s.served = (msgs.map (·.r)).take s.answered.length)
      (h2 : sent = wire (msgs.take s.answered.length) ++ (s.inp ++ s.sock))
  | app (m : Msg R F) (h0 : s.phase = .app) (hm : msgs[s.answered.length]? = some m)
      (hc : s.cur = some (m.r, m.f)) (h1 : s.served = (msgs.map (·.r)).take (s.answered.length + 1))
      (h2 : sent = wire (msgs.take s.answered.length) ++ (m.h ++ (s.seen ++ (s.inp ++ s.sock))))
  | write (m : Msg R F) (h0 : s.phase = .write) (hm : msgs[s.answered.length]? = some m)
      (hc : s.cur = some (m.r, m.f)) (h1 : s.served = (msgs.map (·.r)).take (s.answered.length + 1))
      (h2 : sent = wire (msgs.take s.answered.length) ++ (m.h ++ m.b)) (h3 : s.inp = []) (h4 : s.sock = [])
      (h5 : s.seen = m.b)
  | closed (h0 : s.phase = .closed)
      (h1 : s.served = (msgs.map (·.r)).take s.answered.length ∨ s.served = (msgs.map (·.r)).take (s.answered.length + 1))

structure Inv (msgs : List (Msg R F)) (sent : Str) (s : St R F) : Prop where
  len : s.answered.length ≤ msgs.length
  ans : s.answered = (msgs.map (·.r)).take s.answered.length
  pre : sent <+: wire (msgs.take (s.answered.length + 1))
  stage : Stage msgs sent s

theorem inv_init (msgs : List (Msg R F)) : Inv msgs [] (init : St R F) where
  len := Nat.zero_le _
  ans := by simp [init]
  pre := List.nil_prefix
  stage := .head rfl (by simp [init]) (by simp [init, wire])

/-- What is left of the current message. -/
theorem rest_prefix {msgs : List (Msg R F)} {x y : Str} {i : Nat} {m : Msg R F} (hm : msgs[i]? = some m)
    (hx : (wire (msgs.take i) ++ x) <+: wire (msgs.take (i + 1))) (_ : y = y) : x <+: m.h ++ m.b := by
  rw [wire_take_succ _ _ _ hm] at hx
  exact (List.prefix_append_right_inj _).1 hx

theorem prefix_take {a b : Str} (h : a <+: b) : a = b.take a.length := List.prefix_iff_eq_take.1 h

/-- Looking for the head of the message at hand. -/
theorem head_of {p : Parser R F} {m : Msg R F} (hm : m.Ok p) {x : Str} (hx : x <+: m.h ++ m.b) :
    (x.length < m.h.length ∧ p.head x = .more) ∨
    (m.h.length ≤ x.length ∧ p.head x = .req m.r m.f m.h.length ∧ x = m.h ++ x.drop m.h.length) := by
  have e := prefix_take hx
  by_cases hl : x.length < m.h.length
  · left
    refine ⟨hl, ?_⟩
    rw [List.take_append_of_le_length hl.le] at e
    rw [e]; exact hm.headMore _ hl
  · right
    have hl' : m.h.length ≤ x.length := by omega
    have : m.h <+: x := List.prefix_of_prefix_length_le (List.prefix_append _ _) hx hl'
    obtain ⟨t, rfl⟩ := this
    exact ⟨hl', hm.head t, by simp⟩

/-- Looking for the end of its body. -/
theorem body_of {p : Parser R F} {m : Msg R F} (hm : m.Ok p) {x : Str} (hx : x <+: m.b) :
    (x.length < m.b.length ∧ p.body m.f x = .more) ∨ (x = m.b ∧ p.body m.f x = .done m.b.length) := by
  have e := prefix_take hx
  by_cases hl : x.length < m.b.length
  · left; refine ⟨hl, ?_⟩; rw [e]; exact hm.bodyMore _ hl
  · right
    have hx' : x = m.b := by
      have := hx.length_le
      have hxl : x.length = m.b.length := by omega
      rw [e, hxl, List.take_length]
    refine ⟨hx', ?_⟩
    have := hm.body []
    rw [hx']; simpa using this

theorem settle_inv {p : Parser R F} {msgs : List (Msg R F)} (hok : ∀ m ∈ msgs, m.Ok p) (h0 : p.head [] = .more)
    {sent : Str} {s : St R F} (hlen : s.answered.length ≤ msgs.length)
    (hans : s.answered = (msgs.map (·.r)).take s.answered.length)
    (hpre : sent <+: wire (msgs.take (s.answered.length + 1)))
    (h1 : s.served = (msgs.map (·.r)).take s.answered.length)
    (h2 : sent = wire (msgs.take s.answered.length) ++ (s.inp ++ s.sock)) :
    Inv msgs sent (settle p s) := by
  have more : p.head s.inp = .more → Inv msgs sent (settle p s) := by
    intro e
    have es : settle p s = { s with phase := .head } := by simp [settle, e]
    rw [es]; exact ⟨hlen, hans, hpre, .head rfl h1 h2⟩
  cases hm : msgs[s.answered.length]? with
  | none =>
    have hle : msgs.length ≤ s.answered.length := by simpa using hm
    have e1 : msgs.take (s.answered.length + 1) = msgs := List.take_of_length_le (by omega)
    have e2 : msgs.take s.answered.length = msgs := List.take_of_length_le hle
    rw [e1] at hpre; rw [e2] at h2
    have : s.inp = [] := by
      rw [h2] at hpre
      have := hpre.length_le
      simp only [List.length_append] at this
      exact List.length_eq_zero_iff.1 (by omega)
    exact more (by rw [this]; exact h0)
  | some m =>
    have hmem : m ∈ msgs := List.mem_of_getElem? hm
    have hx : (s.inp ++ s.sock) <+: m.h ++ m.b := rest_prefix (y := []) hm (h2 ▸ hpre) rfl
    have hi : s.inp <+: m.h ++ m.b := (List.prefix_append _ _).trans hx
    rcases head_of (hok m hmem) hi with ⟨_, e⟩ | ⟨_, e, e'⟩
    · exact more e
    · have es : settle p s = { s with inp := s.inp.drop m.h.length, seen := [], cur := some (m.r, m.f), phase := .app,
                                       served := s.served ++ [m.r] } := by simp [settle, e]
      rw [es]
      refine ⟨hlen, hans, hpre, .app m rfl hm rfl ?_ ?_⟩
      · show s.served ++ [m.r] = _
        rw [List.take_add_one, h1]; simp [hm]
      · show sent = _
        rw [h2]
        conv_lhs => rw [e']
        simp [List.append_assoc]

theorem seen_prefix {msgs : List (Msg R F)} {sent : Str} {i : Nat} {m : Msg R F} {x : Str} (hm : msgs[i]? = some m)
    (hpre : sent <+: wire (msgs.take (i + 1))) (h2 : sent = wire (msgs.take i) ++ (m.h ++ x)) : x <+: m.b := by
  have := rest_prefix (y := []) hm (h2 ▸ hpre) rfl
  exact (List.prefix_append_right_inj _).1 this

theorem inv_step {p : Parser R F} {msgs : List (Msg R F)} (hok : ∀ m ∈ msgs, m.Ok p) (h0 : p.head [] = .more)
    {sent : Str} {s : St R F} (hi : Inv msgs sent s) (e : Ev) (hs : ∀ bs, e ≠ .send bs)
    (hf : ∀ c, e = .finish c → s.phase = .app → bodyOf p s = .done s.seen.length) :
    Inv msgs sent (step p s e) := by
  obtain ⟨hlen, hans, hpre, st⟩ := hi
  have hi : Inv msgs sent s := ⟨hlen, hans, hpre, st⟩
  cases e with
  | send bs => exact absurd rfl (hs bs)
  | again => exact hi
  | wait => exact hi
  | blocked => exact hi
  | read k =>
    by_cases hsk : s.sock = []
    · have : step p s (.read k) = s := by simp [step, hsk]
      rw [this]; exact hi
    · cases st with
      | head hp h1 h2 =>
        have : step p s (.read k) = settle p (pull k s) := by simp [step, hsk, hp]
        rw [this]
        refine settle_inv hok h0 (s := pull k s) hlen hans hpre h1 ?_
        show sent = _ ++ ((s.inp ++ s.sock.take (k + 1)) ++ s.sock.drop (k + 1))
        rw [h2, List.append_assoc, List.take_append_drop]; rfl
      | app m hp hm hc h1 h2 =>
        by_cases hb : bodyOf p s = .more
        · have : step p s (.read k) = pull k s := by simp [step, hsk, hp, hb]
          rw [this]
          refine ⟨hlen, hans, hpre, .app m hp hm hc h1 ?_⟩
          show sent = _ ++ (m.h ++ (s.seen ++ ((s.inp ++ s.sock.take (k + 1)) ++ s.sock.drop (k + 1))))
          rw [h2, List.append_assoc s.inp, List.take_append_drop]; rfl
        · have : step p s (.read k) = s := by simp [step, hp, hb]
          rw [this]; exact hi
      | write m hp hm hc h1 h2 h3 h4 h5 => exact absurd h4 hsk
      | closed hp h1 =>
        have : step p s (.read k) = s := by simp [step, hp]
        rw [this]; exact hi
  | eof =>
    cases st with
    | head hp h1 h2 =>
      have : step p s .eof = close s := by simp [step, hp]
      rw [this]; exact ⟨hlen, hans, hpre, .closed rfl (.inl h1)⟩
    | app m hp hm hc h1 h2 =>
      have : step p s .eof = s := by simp [step, hp]
      rw [this]; exact hi
    | write m hp hm hc h1 h2 h3 h4 h5 =>
      have : step p s .eof = s := by simp [step, hp]
      rw [this]; exact hi
    | closed hp h1 =>
      have : step p s .eof = s := by simp [step, hp]
      rw [this]; exact hi
  | take k =>
    by_cases hp : s.phase = .app
    · have : step p s (.take k) = eat p k s := by simp [step, hp]
      rw [this]
      cases st with
      | app m _ hm hc h1 h2 =>
        refine ⟨hlen, hans, hpre, .app m hp hm hc h1 ?_⟩
        have : ∀ j, s.seen ++ (s.inp ++ s.sock) = (s.seen ++ s.inp.take j) ++ (s.inp.drop j ++ s.sock) := by
          intro j
          rw [List.append_assoc, ← List.append_assoc (s.inp.take j), List.take_append_drop]
        rw [h2]; unfold eat; exact congrArg _ (congrArg _ (this _))
      | head h _ _ => rw [hp] at h; cases h
      | write _ h _ _ _ _ _ _ _ => rw [hp] at h; cases h
      | closed h _ => rw [hp] at h; cases h
    · have : step p s (.take k) = s := by simp [step, hp]
      rw [this]; exact hi
  | finish c =>
    by_cases hp : s.phase = .app
    · have hb := hf c rfl hp
      have : step p s (.finish c) = { s with mustClose := c, phase := .write } := by simp [step, hp]
      rw [this]
      cases st with
      | app m _ hm hc h1 h2 =>
        have hb' : p.body m.f (s.seen ++ s.inp) = .done s.seen.length := by simpa [bodyOf, hc] using hb
        have hall : (s.seen ++ (s.inp ++ s.sock)) <+: m.b := seen_prefix hm hpre h2
        have hsi : (s.seen ++ s.inp) <+: m.b := by
          refine List.IsPrefix.trans ?_ hall
          rw [← List.append_assoc]; exact List.prefix_append _ _
        rcases body_of (hok m (List.mem_of_getElem? hm)) hsi with ⟨_, e⟩ | ⟨e, e'⟩
        · rw [e] at hb'; cases hb'
        · rw [e'] at hb'
          have hl : m.b.length = s.seen.length := by injection hb'
          have l1 := congrArg List.length e
          have l2 := hall.length_le
          simp only [List.length_append] at l1 l2
          have hin : s.inp = [] := List.length_eq_zero_iff.1 (by omega)
          have hso : s.sock = [] := List.length_eq_zero_iff.1 (by omega)
          have hse : s.seen = m.b := by rw [hin, List.append_nil] at e; exact e
          refine ⟨hlen, hans, hpre, .write m rfl hm hc h1 ?_ hin hso hse⟩
          rw [h2, hin, hso, hse]; simp
      | head h _ _ => rw [hp] at h; cases h
      | write _ h _ _ _ _ _ _ _ => rw [hp] at h; cases h
      | closed h _ => rw [hp] at h; cases h
    · have : step p s (.finish c) = s := by simp [step, hp]
      rw [this]; exact hi
  | wrote =>
    by_cases hp : s.phase = .write
    · have : step p s .wrote = complete p s := by simp [step, hp]
      rw [this]
      cases st with
      | write m _ hm hc h1 h2 h3 h4 h5 =>
        have hlt : s.answered.length < msgs.length := (List.getElem?_eq_some_iff.1 hm).1
        have hr : (msgs.map (·.r)).take (s.answered.length + 1) = s.answered ++ [m.r] := by
          rw [List.take_add_one]; conv_rhs => rw [hans]
          simp [hm]
        have hpre' : sent <+: wire (msgs.take (s.answered.length + 1 + 1)) := by
          refine hpre.trans ?_
          cases hn : msgs[s.answered.length + 1]? with
          | none =>
            have : msgs.length ≤ s.answered.length + 1 := by simpa using hn
            rw [List.take_of_length_le this, List.take_of_length_le (by omega)]; exact List.prefix_refl _
          | some m' => rw [wire_take_succ _ (s.answered.length + 1) m' hn]; exact List.prefix_append _ _
        by_cases hcl : s.mustClose
        · have : complete p s = close { s with answered := s.answered ++ [m.r] } := by
            simp [complete, hc, hcl]
          rw [this]
          refine ⟨by simpa [close] using Nat.succ_le_of_lt hlt, by simpa [close] using hr.symm, ?_, .closed rfl (.inl ?_)⟩
          · simpa [close] using hpre'
          · simpa [close] using h1
        · have hb : p.body m.f (s.seen ++ s.inp) = .done m.b.length := by
            rw [h3, h5]; exact (hok m (List.mem_of_getElem? hm)).body []
          have : complete p s = settle p { s with answered := s.answered ++ [m.r], inp := [], seen := [], cur := none,
                                                  mustClose := false } := by
            simp [complete, hc, hcl, drain, bodyOf, hb, release]
          rw [this]
          refine settle_inv hok h0 ?_ ?_ ?_ ?_ ?_
          · simpa using Nat.succ_le_of_lt hlt
          · simpa using hr.symm
          · simpa using hpre'
          · simpa using h1
          · show sent = wire (msgs.take (s.answered ++ [m.r]).length) ++ ([] ++ s.sock)
            rw [h2, h4, List.length_append]
            show _ = wire (msgs.take (s.answered.length + 1)) ++ _
            rw [wire_take_succ _ _ _ hm]; simp
      | head h _ _ => rw [hp] at h; cases h
      | app _ h _ _ _ _ => rw [hp] at h; cases h
      | closed h _ => rw [hp] at h; cases h
    · have : step p s .wrote = s := by simp [step, hp]
      rw [this]; exact hi
  | failed =>
    by_cases hp : s.phase = .write
    · have : step p s .failed = close s := by simp [step, hp]
      rw [this]
      cases st with
      | write m _ hm hc h1 h2 h3 h4 h5 => exact ⟨hlen, hans, hpre, .closed rfl (.inr h1)⟩
      | head h _ _ => rw [hp] at h; cases h
      | app _ h _ _ _ _ => rw [hp] at h; cases h
      | closed h _ => rw [hp] at h; cases h
    · have : step p s .failed = s := by simp [step, hp]
      rw [this]; exact hi

theorem inv_send {p : Parser R F} {msgs : List (Msg R F)} {sent : Str} {s : St R F} (hi : Inv msgs sent s) (bs : Str)
    (hb : (sent ++ bs) <+: wire (msgs.take (s.answered.length + 1))) :
    Inv msgs (sent ++ bs) (step p s (.send bs)) := by
  obtain ⟨hlen, hans, hpre, st⟩ := hi
  refine ⟨hlen, hans, hb, ?_⟩
  cases st with
  | head hp h1 h2 => exact .head hp h1 (by show sent ++ bs = _ ++ (s.inp ++ (s.sock ++ bs)); rw [h2]; simp [step])
  | app m hp hm hc h1 h2 =>
    exact .app m hp hm hc h1 (by show sent ++ bs = _ ++ (m.h ++ (s.seen ++ (s.inp ++ (s.sock ++ bs)))); rw [h2]; simp [step])
  | write m hp hm hc h1 h2 h3 h4 h5 =>
    have : bs = [] := by
      rw [wire_take_succ _ _ _ hm, h2] at hb
      have := hb.length_le
      simp only [List.length_append] at this
      exact List.length_eq_zero_iff.1 (by omega)
    subst this
    exact .write m hp hm hc h1 (by rw [List.append_nil]; exact h2) h3 (by show s.sock ++ [] = []; simp [h4]) h5
  | closed hp h1 => exact .closed hp h1

theorem inv_run {p : Parser R F} {msgs : List (Msg R F)} (hok : ∀ m ∈ msgs, m.Ok p) (h0 : p.head [] = .more) :
    ∀ (es : List Ev) (sent : Str) (s : St R F), Inv msgs sent s → Patient p msgs sent s es →
      Inv msgs (sent ++ sentIn es) (run p s es) := by
  intro es
  induction es with
  | nil => intro sent s hi _; simpa [sentIn, run] using hi
  | cons e es ih =>
    intro sent s hi hp
    have other : sentIn (e :: es) = sentIn es → (∀ bs, e ≠ .send bs) →
        (∀ c, e = .finish c → s.phase = .app → bodyOf p s = .done s.seen.length) →
        Patient p msgs sent (step p s e) es → Inv msgs (sent ++ sentIn (e :: es)) (run p s (e :: es)) := by
      intro h1 h2 h3 h4
      rw [h1]; exact ih sent _ (inv_step hok h0 hi e h2 h3) h4
    cases e with
    | send bs =>
      have := ih (sent ++ bs) _ (inv_send hi bs hp.1) hp.2
      rw [List.append_assoc] at this; exact this
    | finish c => exact other rfl (by simp) (fun c' hc hph => hp.1 hph) hp.2
    | read k => exact other rfl (by simp) (by simp) hp
    | again => exact other rfl (by simp) (by simp) hp
    | eof => exact other rfl (by simp) (by simp) hp
    | take k => exact other rfl (by simp) (by simp) hp
    | wait => exact other rfl (by simp) (by simp) hp
    | wrote => exact other rfl (by simp) (by simp) hp
    | blocked => exact other rfl (by simp) (by simp) hp
    | failed => exact other rfl (by simp) (by simp) hp

/-! ### C147 -/

/-- C147: whatever the messages, however their bytes are cut into reads, whatever the dispatcher takes of
a body at a time and however often writing would block: the requests given to the dispatcher are the
first ones sent, in order, each once, and so are the requests answered, of which there is at most one
fewer.  Missing: clients that do not wait for a response, and dispatchers that answer before they have
taken the body (below). -/
theorem C147_order_partial (p : Parser R F) (msgs : List (Msg R F)) (hok : ∀ m ∈ msgs, m.Ok p)
    (h0 : p.head [] = .more) (es : List Ev) (hp : Patient p msgs [] init es) :
    let s := run p init es
    s.served = (msgs.map (·.r)).take s.served.length ∧
    s.answered = (msgs.map (·.r)).take s.answered.length ∧
    s.answered.length ≤ s.served.length ∧ s.served.length ≤ s.answered.length + 1 := by
  obtain ⟨hlen, hans, hpre, st⟩ := inv_run hok h0 es [] init (inv_init msgs) hp
  have key : ∀ j, (run p init es).served = (msgs.map (·.r)).take j →
      (run p init es).answered.length ≤ j → j ≤ (run p init es).answered.length + 1 →
      (run p init es).served = (msgs.map (·.r)).take (run p init es).served.length ∧
      (run p init es).answered.length ≤ (run p init es).served.length ∧
      (run p init es).served.length ≤ (run p init es).answered.length + 1 := by
    intro j h h1 h2
    have hl : (run p init es).served.length = min j msgs.length := by rw [h]; simp
    refine ⟨?_, by omega, by omega⟩
    rw [hl, h]
    by_cases hj : j ≤ msgs.length
    · rw [min_eq_left hj]
    · rw [List.take_of_length_le (by simp; omega), List.take_of_length_le (by simp; omega)]
  have fin : (run p init es).served = (msgs.map (·.r)).take (run p init es).answered.length ∨
      (run p init es).served = (msgs.map (·.r)).take ((run p init es).answered.length + 1) := by
    cases st with
    | head _ h1 _ => exact .inl h1
    | app _ _ _ _ h1 _ => exact .inr h1
    | write _ _ _ _ h1 _ _ _ _ => exact .inr h1
    | closed _ h1 => exact h1
  rcases fin with h | h
  · obtain ⟨a, b, c⟩ := key _ h (le_refl _) (by omega)
    exact ⟨a, hans, b, c⟩
  · obtain ⟨a, b, c⟩ := key _ h (by omega) (le_refl _)
    exact ⟨a, hans, b, c⟩

theorem head_more_of_phase (p : Parser R F) (h0 : p.head [] = .more) :
    ∀ (es : List Ev) (s : St R F), (s.phase = .head → p.head s.inp = .more) →
      ((run p s es).phase = .head → p.head (run p s es).inp = .more) := by
  have hset : ∀ s : St R F, (settle p s).phase = .head → p.head (settle p s).inp = .more := by
    intro s h
    cases e : p.head s.inp with
    | more => simp [settle, e]
    | bad => simp [settle, e, close] at h
    | req r f n => simp [settle, e] at h
  have hdr : ∀ s : St R F, (drain p s).phase = .head → p.head (drain p s).inp = .more := by
    intro s h
    cases e : bodyOf p s with
    | more => simp [drain, e] at h
    | bad => simp only [drain, e] at h ⊢; exact hset _ h
    | done n => simp only [drain, e] at h ⊢; exact hset _ h
  intro es
  induction es with
  | nil => intro s h; exact h
  | cons e es ih =>
    intro s h
    refine ih (step p s e) ?_
    cases e with
    | send bs => exact h
    | read k =>
      by_cases hs : s.sock = []
      · have : step p s (.read k) = s := by simp [step, hs]
        rw [this]; exact h
      · cases hp : s.phase with
        | head => simp only [step, hs, if_false, hp]; exact hset _
        | app =>
          intro h'
          by_cases hb : bodyOf p s = .more
          · simp [step, hs, hp, hb, pull] at h'
          · simp [step, hs, hp, hb] at h'
        | drain => simp only [step, hs, if_false, hp]; exact hdr _
        | write => intro h'; simp [step, hs, hp] at h'
        | closed => intro h'; simp [step, hs, hp] at h'
    | again => exact h
    | eof =>
      cases hp : s.phase with
      | head => intro h'; simp [step, hp, close] at h'
      | drain => simp only [step, hp]; exact hset _
      | app => intro h'; simp [step, hp] at h'
      | write => intro h'; simp [step, hp] at h'
      | closed => intro h'; simp [step, hp] at h'
    | take k =>
      by_cases hp : s.phase = .app
      · intro h'; simp [step, hp, eat] at h'
      · have : step p s (.take k) = s := by simp [step, hp]
        rw [this]; exact h
    | wait => exact h
    | finish c =>
      by_cases hp : s.phase = .app
      · intro h'; simp [step, hp] at h'
      · have : step p s (.finish c) = s := by simp [step, hp]
        rw [this]; exact h
    | wrote =>
      by_cases hp : s.phase = .write
      · simp only [step, hp, if_true]
        cases hc : s.cur with
        | none => intro h'; simp [complete, hc, hp] at h'
        | some rf =>
          obtain ⟨r, f⟩ := rf
          by_cases hm : s.mustClose
          · intro h'; simp [complete, hc, hm, close] at h'
          · simp only [complete, hc, hm]; exact hdr _
      · have : step p s .wrote = s := by simp [step, hp]
        rw [this]; exact h
    | blocked => exact h
    | failed =>
      by_cases hp : s.phase = .write
      · intro h'; simp [step, hp, close] at h'
      · have : step p s .failed = s := by simp [step, hp]
        rw [this]; exact h

/-- C147: and no request is forgotten: if the server waits for a request and has read all that was sent,
then the head of the next message was not sent completely. -/
theorem C147_served_partial (p : Parser R F) (msgs : List (Msg R F)) (hok : ∀ m ∈ msgs, m.Ok p)
    (h0 : p.head [] = .more) (es : List Ev) (hp : Patient p msgs [] init es)
    (hw : (run p init es).phase = .head) (hr : (run p init es).sock = []) (m : Msg R F)
    (hm : msgs[(run p init es).answered.length]? = some m) :
    ¬ (wire (msgs.take (run p init es).answered.length) ++ m.h) <+: sentIn es := by
  have hi := inv_run hok h0 es [] init (inv_init msgs) hp
  have hh := head_more_of_phase p h0 es init (fun _ => h0) hw
  rw [List.nil_append] at hi
  obtain ⟨hlen, hans, hpre, st⟩ := hi
  intro hc
  cases st with
  | head _ h1 h2 =>
    rw [hr, List.append_nil] at h2
    rw [h2] at hc
    have hc := (List.prefix_append_right_inj _).1 hc
    obtain ⟨t, ht⟩ := hc
    have := (hok m (List.mem_of_getElem? hm)).head t
    rw [ht, hh] at this; cases this
  | app _ h _ _ _ _ => rw [hw] at h; cases h
  | write _ h _ _ _ _ _ _ _ => rw [hw] at h; cases h
  | closed h _ => rw [hw] at h; cases h

/-! ### A parser for the examples -/

/-- The length of a head that ends with an empty line. -/
def headEnd : Str → Option Nat
  | 13 :: 10 :: 13 :: 10 :: _ => some 4
  | [] => none
  | _ :: s => (headEnd s).map (· + 1)

/-- What follows a text. -/
def after (pat : Str) : Str → Option Str
  | [] => none
  | c :: s => if (c :: s).take pat.length = pat then some ((c :: s).drop pat.length) else after pat s

/-- The number after `content-length: `, else 0; nothing for a chunked body. -/
def framing (h : Str) : Option Nat :=
  if (after (bytesOf "chunked") h).isSome then none
  else match after (bytesOf "content-length: ") h with
    | none => some 0
    | some s => some ((s.takeWhile fun c => 48 ≤ c ∧ c ≤ 57).foldl (fun n c => n * 10 + (c - 48)) 0)

/-- A request is its first line; a chunked body here ends with the first `0`, and other than digits is not
allowed in it. -/
def demo : Parser Str (Option Nat) where
  head s := match headEnd s with
    | none => .more
    | some n => .req ((s.take n).takeWhile (· ≠ 13)) (framing (s.take n)) n
  body f s := match f with
    | some n => if n ≤ s.length then .done n else .more
    | none => if s.any (fun c => !(48 ≤ c ∧ c ≤ 57)) then .bad
        else match s.findIdx? (· = 48) with
          | some i => .done (i + 1)
          | none => .more

/-- A request without a body. -/
def getA : Msg Str (Option Nat) :=
  { r := bytesOf "GET /a HTTP/1.1", f := some 0, h := bytesOf "GET /a HTTP/1.1\r\n\r\n", b := [] }

/-- A request with a body that looks like a request. -/
def postB : Msg Str (Option Nat) :=
  { r := bytesOf "POST /b HTTP/1.1", f := some 23, h := bytesOf "POST /b HTTP/1.1\r\ncontent-length: 23\r\n\r\n",
    b := bytesOf "GET /admin HTTP/1.1\r\n\r\n" }

theorem getA_ok : getA.Ok demo where
  head t := rfl
  headMore := by decide +kernel
  body t := by simp [demo, getA]
  bodyMore := by decide +kernel

theorem postB_ok : postB.Ok demo where
  head t := rfl
  headMore := by decide +kernel
  body t := by
    have : postB.b.length = 23 := by decide +kernel
    simp only [demo, postB] at this ⊢
    simp [this]
  bodyMore := by decide +kernel

/-- Used by `C147_order_partial` and `C147_served_partial`: two patient messages, cut anywhere. -/
example :
    let es : List Ev := [.send (getA.h.take 5), .read 100, .send (getA.h.drop 5), .read 3, .read 100, .finish false,
      .blocked, .wrote, .send (postB.h ++ postB.b), .read 50, .take 3, .read 100, .take 100, .finish false, .wrote]
    Patient demo [getA, postB] [] init es ∧ (run demo init es).answered = [getA.r, postB.r] ∧
    (run demo init es).phase = .head := by
  refine ⟨?_, by decide +kernel, by decide +kernel⟩
  simp only [Patient]
  refine ⟨by decide +kernel, by decide +kernel, by decide +kernel, by decide +kernel, by decide +kernel, trivial⟩

/-- Nothing changes who was served once all is read and nothing more is sent. -/
theorem quiet (p : Parser R F) (h0 : p.head [] = .more) :
    ∀ (es : List Ev) (s : St R F), sentIn es = [] → s.sock = [] → (s.phase = .head ∨ s.phase = .closed) →
      (run p s es).served = s.served := by
  intro es
  induction es with
  | nil => intro s _ _ _; rfl
  | cons e es ih =>
    intro s hs hk hp
    have go : sentIn es = [] → (step p s e).served = s.served → (step p s e).sock = [] →
        ((step p s e).phase = .head ∨ (step p s e).phase = .closed) → (run p s (e :: es)).served = s.served := by
      intro h1 h2 h3 h4
      rw [← h2]; exact ih (step p s e) h1 h3 h4
    cases e with
    | send bs =>
      have hb : bs = [] ∧ sentIn es = [] := by simpa [sentIn] using hs
      exact go hb.2 rfl (by simp [step, hk, hb.1]) hp
    | read k => exact go hs (by simp [step, hk]) (by simp [step, hk]) (by simpa [step, hk] using hp)
    | again => exact go hs rfl hk hp
    | wait => exact go hs rfl hk hp
    | blocked => exact go hs rfl hk hp
    | eof =>
      rcases hp with hp | hp
      · exact go hs (by simp [step, hp, close]) (by simp [step, hp, close, hk]) (by simp [step, hp, close])
      · exact go hs (by simp [step, hp]) (by simp [step, hp, hk]) (by simp [step, hp])
    | take k =>
      have hn : s.phase ≠ .app := by rcases hp with hp | hp <;> simp [hp]
      exact go hs (by simp [step, hn]) (by simp [step, hn, hk]) (by simpa [step, hn] using hp)
    | finish c =>
      have hn : s.phase ≠ .app := by rcases hp with hp | hp <;> simp [hp]
      exact go hs (by simp [step, hn]) (by simp [step, hn, hk]) (by simpa [step, hn] using hp)
    | wrote =>
      have hn : s.phase ≠ .write := by rcases hp with hp | hp <;> simp [hp]
      exact go hs (by simp [step, hn]) (by simp [step, hn, hk]) (by simpa [step, hn] using hp)
    | failed =>
      have hn : s.phase ≠ .write := by rcases hp with hp | hp <;> simp [hp]
      exact go hs (by simp [step, hn]) (by simp [step, hn, hk]) (by simpa [step, hn] using hp)

/-- The English claim without a condition is false: a client that sends two requests at once gets no
answer to the second, ever: it was read with the first and thrown away. -/
theorem C147_pipelined_violated (es : List Ev) (h : sentIn es = []) :
    (run demo init ([.send (getA.h ++ getA.h), .read 1000, .finish false, .wrote] ++ es)).served = [getA.r] := by
  have e : run demo init ([.send (getA.h ++ getA.h), .read 1000, .finish false, .wrote] ++ es) =
      run demo (run demo init [.send (getA.h ++ getA.h), .read 1000, .finish false, .wrote]) es := by
    simp [run, List.foldl_append]
  rw [e, quiet demo (by decide +kernel) es _ h (by decide +kernel) (by decide +kernel)]
  decide +kernel

/-- And a client that waits for each response: if the response came before the whole body was sent, the
next request is lost with the rest of the body. -/
theorem C147_early_violated (es : List Ev) (h : sentIn es = []) :
    let start : List Ev := [.send (postB.h ++ postB.b.take 3), .read 1000, .finish false, .wrote,
      .send (postB.b.drop 3 ++ getA.h), .read 1000]
    (run demo init (start.take 4)).answered = [postB.r] ∧ (run demo init (start ++ es)).served = [postB.r] := by
  intro start
  refine ⟨by decide +kernel, ?_⟩
  have e : run demo init (start ++ es) = run demo (run demo init start) es := by simp [run, List.foldl_append]
  rw [e, quiet demo (by decide +kernel) es _ h (by decide +kernel) (by decide +kernel)]
  decide +kernel

/-- And what is thrown away can be a head whose body is then taken for a request: nobody sent the second
request that is served here. -/
theorem C147_smuggled_violated :
    let s := run demo init [.send (wire [getA, postB]), .read (getA.h.length + postB.h.length - 1), .finish false,
      .wrote, .read 1000]
    s.served = [bytesOf "GET /a HTTP/1.1", bytesOf "GET /admin HTTP/1.1"] := by
  decide +kernel

/-- And after a body that cannot be read the connection goes on: what follows is taken for a request. -/
theorem C147_bad_body_violated :
    let s := run demo init [.send (bytesOf "PUT /c HTTP/1.1\r\ntransfer-encoding: chunked\r\n\r\nx"), .read 1000,
      .finish false, .wrote, .send (bytesOf "GET /admin HTTP/1.1\r\n\r\n"), .read 1000]
    s.served = [bytesOf "PUT /c HTTP/1.1", bytesOf "GET /admin HTTP/1.1"] := by
  decide +kernel

end Mtev.HttpConn
