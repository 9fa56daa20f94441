import Verif.TelOpt

/-!
# C129: telnet options are agreed upon
-/

namespace Mtev.TelOpt

/-! ## Specification: two ends that use the method -/

/-- Two ends of one option and the messages under way, oldest first. -/
structure Net where
  a : Side
  b : Side
  ab : List Bool
  ba : List Bool
deriving DecidableEq, Repr

/-- Nothing has happened. -/
def start : Net := ⟨⟨false, false, 0⟩, ⟨false, false, 0⟩, [], []⟩

/-- A message arrives; both ends support the option. -/
inductive Deliver : Net → Net → Prop
  | toB (a b : Side) (x : Bool) (ab ba : List Bool) : Deliver ⟨a, b, x :: ab, ba⟩ ⟨a, (recv true x b).1, ab, ba ++ (recv true x b).2⟩
  | toA (a b : Side) (x : Bool) (ab ba : List Bool) : Deliver ⟨a, b, ab, x :: ba⟩ ⟨(recv true x a).1, b, ab ++ (recv true x a).2, ba⟩

/-- A message arrives, or one of the ends asks for a change. -/
inductive Step : Net → Net → Prop
  | deliver {n m : Net} : Deliver n m → Step n m
  | askA (new : Bool) (a b : Side) (ab ba : List Bool) : Step ⟨a, b, ab, ba⟩ ⟨(ask new a).1, b, ab ++ (ask new a).2, ba⟩
  | askB (new : Bool) (a b : Side) (ab ba : List Bool) : Step ⟨a, b, ab, ba⟩ ⟨a, (ask new b).1, ab, ba ++ (ask new b).2⟩

/-- What can happen from the start. -/
inductive Reach : Net → Prop
  | start : Reach start
  | step {n m : Net} : Reach n → Step n m → Reach m

/-- `k` arrivals in a row. -/
inductive Delivers : Nat → Net → Net → Prop
  | zero (n : Net) : Delivers 0 n n
  | succ {k : Nat} {n m o : Net} : Deliver n m → Delivers k m o → Delivers (k + 1) n o

/-! ## The invariant -/

/-- messages by turns, from the opposite of `a`, the last one `b` -/
def Alt (a : Bool) : List Bool → Bool → Prop
  | [], b => a = b
  | x :: q, b => x = !a ∧ Alt x q b

theorem alt_append (a : Bool) (q : List Bool) (b : Bool) (h : Alt a q b) : Alt a (q ++ [!b]) (!b) := by
  induction q generalizing a with
  | nil => simp only [Alt] at h; subst h; simp [Alt]
  | cons x q ih => exact ⟨h.1, ih x h.2⟩

/-- 0 and 1 -/
def bit (b : Bool) : Nat := if b then 1 else 0

theorem alt_bit (a : Bool) (q : List Bool) (b : Bool) (h : Alt a q b) : (bit a + q.length) % 2 = bit b := by
  induction q generalizing a with
  | nil => simp only [Alt] at h; subst h; cases a <;> rfl
  | cons x q ih =>
    have := ih x h.2
    have hx := h.1
    subst hx
    rw [← this, List.length_cons]
    cases a <;> simp [bit] <;> omega

/-- What holds always: messages alternate, as many are under way as there are answers missing, and whether the ends differ is
known from the number of those. -/
structure Inv (n : Net) : Prop where
  h1 : Alt n.b.on n.ab n.a.want
  h2 : Alt n.a.on n.ba n.b.want
  count : n.ab.length + n.ba.length = n.a.resp + n.b.resp
  par : (bit n.a.on + bit n.b.on + n.ab.length + n.a.resp) % 2 = 0

def swap (n : Net) : Net := ⟨n.b, n.a, n.ba, n.ab⟩

theorem inv_swap {n : Net} (h : Inv n) : Inv (swap n) where
  h1 := h.h2
  h2 := h.h1
  count := by have := h.count; simp only [swap]; omega
  par := by have := h.count; have := h.par; simp only [swap]; omega

/-- what arrives is always news -/
theorem recv_news (x : Bool) (s : Side) (h : s.on = !x) :
    recv true x s = if s.resp - 1 = 0 ∧ s.want = !x then (⟨x, x, 0⟩, [x]) else (⟨x, s.want, s.resp - 1⟩, []) := by
  obtain ⟨on, want, resp⟩ := s
  simp only at h
  subst h
  have hs : settle x ⟨!x, want, resp⟩ = resp - 1 := by
    unfold settle
    by_cases h0 : resp = 0
    · simp [h0]
    · have hx : (!x) ≠ x := by cases x <;> decide
      simp only [h0, if_false, hx, and_false]
  cases x with
  | true =>
    simp only [recv, if_true, recvOn, hs]
    rfl
  | false =>
    simp only [recv, Bool.false_eq_true, if_false, recvOff, hs]
    rfl

theorem inv_toB (a b : Side) (x : Bool) (ab ba : List Bool) (h : Inv ⟨a, b, x :: ab, ba⟩) :
    Inv ⟨a, (recv true x b).1, ab, ba ++ (recv true x b).2⟩ ∧
    ((recv true x b).2 = [x] ∧ b.resp = 0 ∧ (recv true x b).1.resp = 0 ∨
     (recv true x b).2 = [] ∧ 0 < b.resp ∧ (recv true x b).1.resp = b.resp - 1) := by
  obtain ⟨h1, h2, h3, h4⟩ := h
  simp only [Alt, List.length_cons] at h1 h3 h4
  obtain ⟨hx, h1⟩ := h1
  simp only at h2
  have hon : b.on = !x := by rw [hx]; simp
  have hb2 := alt_bit _ _ _ h2
  have hbx : bit b.on = 1 - bit x := by rw [hon]; cases x <;> rfl
  have hle : bit x ≤ 1 := by cases x <;> simp [bit]
  rw [recv_news x b hon]
  by_cases hc : b.resp - 1 = 0 ∧ b.want = !x
  · rw [if_pos hc]
    have hw : bit b.want = 1 - bit x := by rw [hc.2]; cases x <;> rfl
    have hr : b.resp = 0 := by
      rcases Nat.eq_zero_or_pos b.resp with e | e
      · exact e
      · exfalso; have := hc.1; omega
    refine ⟨⟨h1, ?_, ?_, ?_⟩, Or.inl ⟨rfl, hr, rfl⟩⟩
    · have := alt_append _ _ _ h2
      rw [hc.2] at this
      simpa using this
    · simp; omega
    · simp only; omega
  · rw [if_neg hc]
    have hr : 0 < b.resp := by
      rcases Nat.eq_zero_or_pos b.resp with e | e
      · exfalso
        have hw : b.want = x := by
          have hn : ¬ b.want = !x := fun e' => hc ⟨by omega, e'⟩
          revert hn; generalize b.want = w; cases w <;> cases x <;> simp
        rw [hw] at hb2
        omega
      · exact e
    refine ⟨⟨h1, by simpa using h2, ?_, ?_⟩, Or.inr ⟨rfl, hr, rfl⟩⟩
    · simp; omega
    · simp only; omega

theorem inv_askA (new : Bool) (a b : Side) (ab ba : List Bool) (h : Inv ⟨a, b, ab, ba⟩) :
    Inv ⟨(ask new a).1, b, ab ++ (ask new a).2, ba⟩ := by
  unfold ask
  by_cases hc : (a.resp = 0 ∧ a.on = new) ∨ a.want = new
  · rw [if_pos hc]; simpa using h
  · rw [if_neg hc]
    obtain ⟨h1, h2, h3, h4⟩ := h
    simp only at h1 h2 h3 h4
    have hn : new = !a.want := by
      have : a.want ≠ new := fun e => hc (Or.inr e)
      revert this; generalize a.want = w; cases w <;> cases new <;> simp
    refine ⟨?_, h2, ?_, ?_⟩
    · have := alt_append _ _ _ h1
      rw [← hn] at this
      exact this
    · simp; omega
    · simp; omega

/-- how many arrivals there can be -/
def measure (n : Net) : Nat := n.ab.length + n.ba.length + (n.ab.length - n.b.resp) + (n.ba.length - n.a.resp)

theorem inv_deliver {n m : Net} (h : Inv n) (hd : Deliver n m) : Inv m ∧ measure m < measure n := by
  cases hd with
  | toB a b x ab ba =>
    obtain ⟨hi, hk⟩ := inv_toB a b x ab ba h
    refine ⟨hi, ?_⟩
    have hcnt := hi.count
    have hcnt0 := h.count
    simp only [List.length_append, List.length_cons] at hcnt hcnt0
    rcases hk with ⟨e, r0, r1⟩ | ⟨e, r0, r1⟩
    · simp only [measure, e, r1, List.length_append, List.length_cons, List.length_nil] at *
      omega
    · simp only [measure, e, r1, List.length_append, List.length_cons, List.length_nil] at *
      omega
  | toA a b x ab ba =>
    obtain ⟨hi, hk⟩ := inv_toB b a x ba ab (inv_swap h)
    refine ⟨inv_swap hi, ?_⟩
    have hcnt := hi.count
    have hcnt0 := h.count
    simp only [List.length_append, List.length_cons] at hcnt hcnt0
    rcases hk with ⟨e, r0, r1⟩ | ⟨e, r0, r1⟩
    · simp only [measure, e, r1, List.length_append, List.length_cons, List.length_nil] at *
      omega
    · simp only [measure, e, r1, List.length_append, List.length_cons, List.length_nil] at *
      omega

theorem inv_reach {n : Net} (h : Reach n) : Inv n := by
  induction h with
  | start => exact ⟨rfl, rfl, rfl, rfl⟩
  | step _ hs ih =>
    cases hs with
    | deliver hd => exact (inv_deliver ih hd).1
    | askA new a b ab ba => exact inv_askA new a b ab ba ih
    | askB new a b ab ba => exact inv_swap (inv_askA new b a ba ab (inv_swap ih))

/-! ## Properties -/

/-- **C129** However often and in whatever order the two ends ask for changes: when no message is under way both have the option
in the same state, which is the one both want, and wait for nothing. -/
theorem C129_agree (n : Net) (h : Reach n) (h1 : n.ab = []) (h2 : n.ba = []) :
    n.a.on = n.b.on ∧ n.a.want = n.a.on ∧ n.b.want = n.b.on ∧ n.a.resp = 0 ∧ n.b.resp = 0 := by
  have hi := inv_reach h
  obtain ⟨i1, i2, i3, i4⟩ := hi
  rw [h1] at i1 i3 i4
  rw [h2] at i2 i3
  simp only [Alt, List.length_nil] at i1 i2 i3 i4
  have hr : n.a.resp = 0 := by omega
  have hon : n.a.on = n.b.on := by
    rw [hr] at i4
    revert i4; generalize n.a.on = u; generalize n.b.on = w; cases u <;> cases w <;> simp [bit]
  exact ⟨hon, by rw [← i1, hon], by rw [← i2, hon], hr, by omega⟩

/-- **C129** The ends do not answer each other for ever: if no more changes are asked for, there are at most twice as many arrivals
as messages under way. -/
theorem C129_ends (n m : Net) (h : Reach n) (k : Nat) (hk : Delivers k n m) : k ≤ 2 * (n.ab.length + n.ba.length) := by
  have key : ∀ k n m, Inv n → Delivers k n m → k + measure m ≤ measure n := by
    intro k n m hi hk
    induction hk with
    | zero => omega
    | succ hd _ ih =>
      obtain ⟨hi', hlt⟩ := inv_deliver hi hd
      have := ih hi'
      omega
  have := key k n m (inv_reach h) hk
  simp only [measure] at this
  omega

/-- Each end asks for the option at the same time: the messages cross, and both end with the option on. -/
example : ∃ n, Reach n ∧ n.ab = [] ∧ n.ba = [] ∧ n.a.on = true := by
  refine ⟨⟨⟨true, true, 0⟩, ⟨true, true, 0⟩, [], []⟩, ?_, rfl, rfl, rfl⟩
  have r1 := Reach.step Reach.start (Step.askA true ⟨false, false, 0⟩ ⟨false, false, 0⟩ [] [])
  have r2 := Reach.step r1 (Step.askB true _ _ _ _)
  have r3 := Reach.step r2 (Step.deliver (Deliver.toB _ _ true _ _))
  exact Reach.step r3 (Step.deliver (Deliver.toA _ _ true _ _))

/-- **C129** fails if one end does not support the option: it is asked for, refused, and nothing is under way; the end that refused
has it as switched on and waits for an answer that does not come. -/
theorem C129_refused_violated : ∃ a b b' : Side,
    -- the other end asks
    ask true ⟨false, false, 0⟩ = (a, [true]) ∧
    -- refused
    recv false true ⟨false, false, 0⟩ = (b, [false]) ∧
    -- the other end takes it and says nothing
    recv true false a = (b', []) ∧ b'.on = false ∧ b.on = true ∧ b.resp = 1 :=
  ⟨⟨false, true, 1⟩, ⟨true, false, 1⟩, ⟨false, false, 0⟩, rfl, rfl, rfl, rfl, rfl, rfl⟩

/-- **C129** A message about one option changes no other option, and is answered by messages about this option only. -/
theorem C129_only (v : Verb) (o : Nat) (x : Opts) :
    (∀ i, i ≠ o → (message v o x).1.his i = x.his i ∧ (message v o x).1.mine i = x.mine i) ∧ (∀ m ∈ (message v o x).2, m.2 = o) := by
  have hd : ∀ l : List Bool, ∀ m ∈ l.map (doMsg o), m.2 = o := by
    intro l m hm; obtain ⟨b, _, rfl⟩ := List.mem_map.1 hm; rfl
  have hw : ∀ l : List Bool, ∀ m ∈ l.map (willMsg o), m.2 = o := by
    intro l m hm; obtain ⟨b, _, rfl⟩ := List.mem_map.1 hm; rfl
  have hdont : ∀ x : Opts, (∀ i, i ≠ o → (dontoption o x).1.his i = x.his i ∧ (dontoption o x).1.mine i = x.mine i) ∧
      ∀ m ∈ (dontoption o x).2, m.2 = o := by
    intro x
    unfold dontoption
    simp only
    split
    · exact ⟨fun i hi => ⟨rfl, by simp [set, hi]⟩, hw _⟩
    · exact ⟨fun i hi => ⟨rfl, by simp [set, hi]⟩, hw _⟩
  have hwont : (∀ i, i ≠ o → (wontoption o x).1.his i = x.his i ∧ (wontoption o x).1.mine i = x.mine i) ∧
      ∀ m ∈ (wontoption o x).2, m.2 = o := by
    unfold wontoption
    simp only
    split
    · exact ⟨fun i hi => ⟨by simp [set, hi], rfl⟩, by simp⟩
    · exact ⟨fun i hi => ⟨by simp [set, hi], rfl⟩, hd _⟩
  cases v with
  | will =>
    simp only [message, willoption]
    split
    · exact ⟨fun i hi => ⟨by simp [set, hi], rfl⟩, hd _⟩
    · exact ⟨fun i hi => ⟨by simp [set, hi], rfl⟩, hd _⟩
  | wont =>
    simp only [message]
    split
    · refine ⟨fun i hi => ⟨?_, ?_⟩, ?_⟩
      · rw [((hdont _).1 i hi).1, (hwont.1 i hi).1]
      · rw [((hdont _).1 i hi).2, (hwont.1 i hi).2]
      · intro m hm
        rcases List.mem_append.1 hm with hm | hm
        · exact hwont.2 m hm
        · exact (hdont _).2 m hm
    · exact hwont
  | do_ =>
    simp only [message, dooption]
    split
    · exact ⟨fun i hi => ⟨rfl, by simp [set, hi]⟩, by simp⟩
    · split
      · exact ⟨fun i hi => ⟨rfl, by simp [set, hi]⟩, by simp⟩
      · exact ⟨fun i hi => ⟨rfl, by simp [set, hi]⟩, hw _⟩
  | dont => simpa only [message] using hdont x

theorem set_eq (f : Nat → Side) (o : Nat) (s : Side) (h : f o = s) : set f o s = f := by
  funext i; unfold set; split
  · rename_i e; rw [e, h]
  · rfl

/-- **C129** What is settled is not answered: a peer that repeats the state an option is in gets nothing back and changes nothing
(ECHO by the peer is never settled as on). -/
theorem C129_repeat (o : Nat) (x : Opts) :
    (x.his o = ⟨true, true, 0⟩ → o ≠ 1 → (message .will o x).1.his = x.his ∧ (message .will o x).2 = []) ∧
    (x.his o = ⟨false, false, 0⟩ → (x.mine o).on = (x.mine o).want → (message .wont o x).1.his = x.his ∧ (message .wont o x).2 = []) ∧
    (x.mine o = ⟨true, true, 0⟩ → (message .do_ o x).1.mine = x.mine ∧ (message .do_ o x).2 = []) ∧
    (x.mine o = ⟨false, false, 0⟩ → (message .dont o x).1.mine = x.mine ∧ (message .dont o x).2 = []) := by
  refine ⟨fun h h1 => ?_, fun h h1 => ?_, fun h => ?_, fun h => ?_⟩
  · simp only [message, willoption, h1, h, false_and, if_false, recvOn, settle]
    simp [set_eq _ _ _ h]
  · have hw : wontoption o x = ({ x with his := set x.his o ⟨false, false, 0⟩ }, []) := by
      simp [wontoption, h, recvOff, settle]
    simp only [message, hw]
    rw [if_neg (by simp [h1])]
    exact ⟨set_eq _ _ _ h, rfl⟩
  · simp only [message, dooption, h, settle]
    simp [recvOn, settle, set_eq _ _ _ h]
  · simp only [message, dontoption, h, settle]
    simp [recvOff, settle, set_eq _ _ _ h]

/-- **C129** A request of the peer for an option that is off is answered once: by agreement for the options the console supports,
and by refusal for all others. -/
theorem C129_request (o : Nat) (x : Opts) :
    (x.his o = ⟨false, false, 0⟩ → (message .will o x).2 =
      [(if o = 0 ∨ o = 3 ∨ o = 24 ∨ o = 31 ∨ o = 32 ∨ o = 33 ∨ o = 35 ∨ o = 36 ∨ o = 39 then Verb.do_ else Verb.dont, o)]) ∧
    (x.mine o = ⟨false, false, 0⟩ → (message .do_ o x).2 =
      [(if o = 0 ∨ o = 1 ∨ o = 3 ∨ o = 5 ∨ o = 6 ∨ o = 18 then Verb.will else Verb.wont, o)]) := by
  constructor
  · intro h
    simp only [message, willoption, h, settle, recvOn, hisOk]
    by_cases ho : o ∈ [0, 3, 24, 31, 32, 33, 35, 36, 39]
    · have ho' := ho
      simp only [List.mem_cons, List.not_mem_nil, or_false] at ho'
      simp [ho, ho', doMsg]
    · have ho' := ho
      simp only [List.mem_cons, List.not_mem_nil, or_false] at ho'
      simp [ho, ho', doMsg]
  · intro h
    simp only [message, dooption, h, settle, recvOn, myOk]
    by_cases h6 : o = 6
    · simp [h6]
    · by_cases h18 : o = 18
      · simp [h18]
      · by_cases ho : o = 0 ∨ o = 1 ∨ o = 3 ∨ o = 5
        · rcases ho with rfl | rfl | rfl | rfl <;> rfl
        · have hm : (decide (o ∈ [0, 1, 3, 5])) = false := by
            simpa only [decide_eq_false_iff_not, List.mem_cons, List.not_mem_nil, or_false] using ho
          have ht : ¬ (o = 0 ∨ o = 1 ∨ o = 3 ∨ o = 5 ∨ o = 6 ∨ o = 18) := by tauto
          rw [if_neg ht]
          simp only [hm, h6, h18, and_false, if_false]
          simp [willMsg]

/-- **C129** The peer can always switch an option off that is on: it is off then and that is confirmed (a timing mark by the peer is
never on; SGA of the console may be asked for again). -/
theorem C129_off (o : Nat) (x : Opts) :
    (x.his o = ⟨true, true, 0⟩ → o ≠ 6 → o ≠ 38 → (message .wont o x).1.his o = ⟨false, false, 0⟩ ∧ (message .wont o x).2 = [(.dont, o)]) ∧
    (x.mine o = ⟨true, true, 0⟩ → o ≠ 3 → (message .dont o x).1.mine o = ⟨false, false, 0⟩ ∧ (message .dont o x).2 = [(.wont, o)]) := by
  constructor
  · intro h h6 h38
    simp only [message, wontoption, h6, h38, false_and, if_false, h, recvOff, settle]
    simp [set, doMsg]
  · intro h h3
    simp only [message, dontoption, h3, and_false, if_false, h, recvOff, settle]
    simp [set, willMsg]

/-- messages of the peer, one after the other -/
def messages : List (Verb × Nat) → Opts → Opts
  | [], x => x
  | (v, o) :: l, x => messages l (message v o x).1

theorem settle_le (new : Bool) (s : Side) : settle new s ≤ s.resp - 1 := by
  unfold settle; split
  · omega
  · split <;> omega

theorem recvOn_le (ok : Bool) (s : Side) (k : Nat) (h1 : 1 ≤ k) (h : s.resp ≤ k) : (recvOn ok s).1.resp ≤ k := by
  have := settle_le true s
  unfold recvOn
  simp only
  split
  · split <;> simp <;> omega
  · simp; omega

theorem recvOff_le (s : Side) (k : Nat) (h : s.resp ≤ k) : (recvOff s).1.resp ≤ k := by
  have := settle_le false s
  unfold recvOff
  simp only
  split
  · simp
  · simp; omega

/-- **C129** Whatever the peer sends, the counters of missing answers do not grow: they stay what they were, or 1 (so that a `char`
holds them). -/
theorem C129_counter (l : List (Verb × Nat)) (x : Opts) (k : Nat) (h1 : 1 ≤ k) (h : ∀ o, (x.his o).resp ≤ k ∧ (x.mine o).resp ≤ k) :
    ∀ o, ((messages l x).his o).resp ≤ k ∧ ((messages l x).mine o).resp ≤ k := by
  have hset : ∀ (f : Nat → Side) (o : Nat) (s : Side), (∀ i, (f i).resp ≤ k) → s.resp ≤ k → ∀ i, (set f o s i).resp ≤ k := by
    intro f o s hf hs i
    unfold set; split
    · exact hs
    · exact hf i
  have hask : ∀ (b : Bool) (on want : Bool), (ask b ⟨on, want, 0⟩).1.resp ≤ k := by
    intro b on want; unfold ask; split
    · simp
    · simp; omega
  have hdont : ∀ (o : Nat) (x : Opts), (∀ o, (x.his o).resp ≤ k ∧ (x.mine o).resp ≤ k) →
      ∀ i, ((dontoption o x).1.his i).resp ≤ k ∧ ((dontoption o x).1.mine i).resp ≤ k := by
    intro o x h i
    unfold dontoption
    simp only
    split
    · refine ⟨(h i).1, hset _ _ _ (fun i => (h i).2) ?_ i⟩
      split
      · simp
      · exact hask _ _ _
    · exact ⟨(h i).1, hset _ _ _ (fun i => (h i).2) (recvOff_le _ _ (h o).2) i⟩
  have hwont : ∀ (o : Nat) (x : Opts), (∀ o, (x.his o).resp ≤ k ∧ (x.mine o).resp ≤ k) →
      ∀ i, ((wontoption o x).1.his i).resp ≤ k ∧ ((wontoption o x).1.mine i).resp ≤ k := by
    intro o x h i
    unfold wontoption
    simp only
    split
    · exact ⟨hset _ _ _ (fun i => (h i).1) (by simp) i, (h i).2⟩
    · exact ⟨hset _ _ _ (fun i => (h i).1) (recvOff_le _ _ (h o).1) i, (h i).2⟩
  have key : ∀ v o x, (∀ o, (x.his o).resp ≤ k ∧ (x.mine o).resp ≤ k) →
      ∀ i, ((message v o x).1.his i).resp ≤ k ∧ ((message v o x).1.mine i).resp ≤ k := by
    intro v o x h i
    cases v with
    | will =>
      simp only [message, willoption]
      split
      · exact ⟨hset _ _ _ (fun i => (h i).1) (show Side.resp ⟨true, _, _⟩ ≤ k from hask false (x.his o).on true) i, (h i).2⟩
      · exact ⟨hset _ _ _ (fun i => (h i).1) (recvOn_le _ _ _ h1 (h o).1) i, (h i).2⟩
    | wont =>
      simp only [message]
      split
      · exact hdont _ _ (hwont _ _ h) i
      · exact hwont _ _ h i
    | do_ =>
      simp only [message, dooption]
      split
      · exact ⟨(h i).1, hset _ _ _ (fun i => (h i).2) (by simp) i⟩
      · split
        · exact ⟨(h i).1, hset _ _ _ (fun i => (h i).2) (by simp) i⟩
        · exact ⟨(h i).1, hset _ _ _ (fun i => (h i).2) (recvOn_le _ _ _ h1 (h o).2) i⟩
    | dont => exact hdont _ _ h i
  induction l generalizing x with
  | nil => exact h
  | cons m l ih =>
    obtain ⟨v, o⟩ := m
    exact ih _ (key v o x h)

example : (message .will 31 ⟨fun _ => ⟨false, false, 0⟩, fun _ => ⟨false, false, 0⟩, false⟩).2 = [(.do_, 31)] := by decide

end Mtev.TelOpt
