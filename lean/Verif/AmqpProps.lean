import Verif.Amqp

/-!
C160: messages sent through the AMQP module reach the broker once, in order.
C161: where a log stream of type `amqp` or `fq` sends its lines.
C162: sends and polls of the fq module.
-/

namespace Mtev.Amqp

/-- What a step asks to be published by the connection `c` for the thread
    `t`, when there are `n` connections. -/
def asks (n t c : Nat) : Op → Option Pub
  | .send t' msg m i none => if t' = t ∧ c < n then some ⟨t, msg, m, i⟩ else none
  | .send t' msg m i (some d) => if t' = t ∧ d = c then some ⟨t, msg, m, i⟩ else none
  | _ => none

/-- All that is asked, in order. -/
def asked (n t c : Nat) (ops : List Op) : List Pub := ops.filterMap (asks n t c)

/-- The sends name connections that are there. -/
def Fits (n : Nat) (ops : List Op) : Prop :=
  ∀ t msg m i d, Op.send t msg m i (some d) ∈ ops → d < n

theorem asks_all (n t c t' msg : Nat) (m i : Bool) :
    asks n t c (.send t' msg m i none) = if t' = t ∧ c < n then some ⟨t, msg, m, i⟩ else none := rfl

theorem asks_one (n t c t' msg d : Nat) (m i : Bool) :
    asks n t c (.send t' msg m i (some d)) = if t' = t ∧ d = c then some ⟨t, msg, m, i⟩ else none := rfl

theorem step {V : Nat → Env} {s : St} (hI : Inv V s) (hn : 0 < s.n) (hn' : s.n ≤ 128) (x : Op)
    (hx : ∀ t msg m i d, x = Op.send t msg m i (some d) → d < s.n) :
    ∃ s' V', act s x = .ok s' ∧ s'.n = s.n ∧ Inv V' s' ∧
      ∀ t c, items V' s' t c = items V s t c ++ (asks s.n t c x).toList := by
  cases x with
  | send t msg m i dst =>
    refine ⟨sentSt s t msg m i (dst.getD 0) (if dst = none then s.n else 1), _,
      send_ok s t msg m i dst hn hn' ?_, rfl, inv_send hI t msg m i _ _, ?_⟩
    · rintro d rfl; exact hx t msg m i d rfl
    · intro t' c
      rw [items_send hI]
      congr 1
      cases dst with
      | none =>
        rw [asks_all]
        simp only [Option.getD_none, if_true, Nat.zero_add, Nat.zero_le, true_and]
        by_cases h : t' = t ∧ c < s.n
        · obtain ⟨rfl, h⟩ := h
          simp [h]
        · rw [if_neg h, if_neg (fun h' => h ⟨h'.1.symm, h'.2⟩)]; rfl
      | some d =>
        rw [asks_one]
        by_cases h : t = t' ∧ d = c
        · obtain ⟨rfl, rfl⟩ := h
          simp
        · rw [if_neg h, if_neg]
          · rfl
          · simp only [Option.getD_some, reduceCtorEq, if_false]
            rintro ⟨h1, h2, h3⟩
            exact h ⟨h1.symm, by omega⟩
  | enq t =>
    have := inv_enq hI t
    refine ⟨_, V, rfl, ?_, this.1, fun t' c => by rw [this.2]; simp [asks]⟩
    unfold enq; split <;> rfl
  | peek c =>
    have := inv_peek hI c
    refine ⟨_, V, rfl, ?_, this.1, fun t' c => by rw [this.2]; simp [asks]⟩
    unfold peek; split <;> rfl
  | publish c g =>
    obtain ⟨s', h1, h2, h3, h4⟩ := inv_publish hI c g
    exact ⟨s', V, h1, h2, h3, fun t' c => by rw [h4]; simp [asks]⟩
  | deq c =>
    obtain ⟨s', h1, h2, h3, h4⟩ := inv_deq hI c
    exact ⟨s', V, h1, h2, h3, fun t' c => by rw [h4]; simp [asks]⟩

theorem reach {V : Nat → Env} {s : St} (hI : Inv V s) (hn : 0 < s.n) (hn' : s.n ≤ 128) (ops : List Op)
    (hf : Fits s.n ops) :
    ∃ s' V', run s ops = .ok s' ∧ s'.n = s.n ∧ Inv V' s' ∧
      ∀ t c, items V' s' t c = items V s t c ++ asked s.n t c ops := by
  induction ops generalizing s V with
  | nil => exact ⟨s, V, rfl, rfl, hI, fun t c => by simp [asked]⟩
  | cons x xs ih =>
    obtain ⟨s₁, V₁, h1, h2, h3, h4⟩ := step hI hn hn' x (fun t msg m i d h => hf t msg m i d (h ▸ List.mem_cons_self))
    obtain ⟨s₂, V₂, k1, k2, k3, k4⟩ := ih h3 (h2 ▸ hn) (h2 ▸ hn')
      (fun t msg m i d h => h2 ▸ hf t msg m i d (List.mem_cons_of_mem _ h))
    refine ⟨s₂, V₂, ?_, k2.trans h2, k3, ?_⟩
    · unfold run; rw [h1]; exact k1
    · intro t c
      rw [k4, h4, h2, List.append_assoc]
      congr 1
      unfold asked
      rw [List.filterMap_cons]
      cases asks s.n t c x <;> rfl

/-- C160.  However the threads interleave and whatever the library answers to
    the publishes, no envelope is used after it is destroyed or destroyed
    twice, and the module does not abort, as long as sends name connections
    that are there. -/
theorem C160_safe (n : Nat) (hn : 0 < n) (hn' : n ≤ 128) (ops : List Op) (hf : Fits n ops) :
    ∃ s, run (St.init n) ops = .ok s := by
  obtain ⟨s, _, h, _⟩ := reach (inv_init (fun _ => ⟨0, 0⟩) n) hn hn' ops hf
  exact ⟨s, h⟩

theorem reached {n : Nat} (hn : 0 < n) (hn' : n ≤ 128) {ops : List Op} (hf : Fits n ops) {s : St}
    (h : run (St.init n) ops = .ok s) :
    ∃ V, Inv V s ∧ ∀ t c, items V s t c = asked n t c ops := by
  obtain ⟨s', V, h1, _, h3, h4⟩ := reach (inv_init (fun _ => ⟨0, 0⟩) n) hn hn' ops hf
  rw [h] at h1
  cases h1
  refine ⟨V, h3, fun t c => ?_⟩
  rw [h4, items_init]; rfl

/-- C160.  What a connection has published for a thread is a prefix of what
    that thread has sent to it: in order, nothing twice, nothing skipped,
    nothing of another, and with the flags it was sent with. -/
theorem C160_order (n : Nat) (hn : 0 < n) (hn' : n ≤ 128) (ops : List Op) (hf : Fits n ops) (s : St)
    (h : run (St.init n) ops = .ok s) (t c : Nat) :
    ∃ rest, (s.pubd c).filter (fun x => x.by_ == t) ++ rest = asked n t c ops := by
  obtain ⟨V, _, hi⟩ := reached hn hn' hf h
  rw [← hi t c]
  unfold items
  rw [List.filter_append, List.append_assoc]
  exact ⟨_, rfl⟩

/-- C160.  When the sender's call has returned and the queue is empty all of
    it is published. -/
theorem C160_complete (n : Nat) (hn : 0 < n) (hn' : n ≤ 128) (ops : List Op) (hf : Fits n ops) (s : St)
    (h : run (St.init n) ops = .ok s) (t c : Nat) (hp : s.pend t = []) (hq : s.outq c = []) :
    (s.pubd c).filter (fun x => x.by_ == t) = asked n t c ops := by
  obtain ⟨V, _, hi⟩ := reached hn hn' hf h
  rw [← hi t c]
  have : unpub s c = [] := by unfold unpub; rw [hq]; split <;> rfl
  unfold items
  rw [this, hp]
  simp

/-- C160.  And when all calls have returned and all queues are empty no
    envelope is left allocated. -/
theorem C160_freed (n : Nat) (hn : 0 < n) (hn' : n ≤ 128) (ops : List Op) (hf : Fits n ops) (s : St)
    (h : run (St.init n) ops = .ok s) (hp : ∀ t, s.pend t = []) (hq : ∀ c, s.outq c = []) (a : Nat) :
    s.heap a = none := by
  obtain ⟨V, hI, _⟩ := reached hn hn' hf h
  cases ha : s.heap a with
  | none => rfl
  | some e =>
    obtain ⟨l, hl⟩ := hI.owned a e ha
    cases l with
    | inl t => simp [own, hp] at hl
    | inr c => simp [own, hq] at hl

theorem run_append (s : St) (xs ys : List Op) :
    run s (xs ++ ys) = match run s xs with
      | .ok m => run m ys
      | .ub => .ub
      | .abort => .abort := by
  induction xs generalizing s with
  | nil => rfl
  | cons x xs ih =>
    rw [List.cons_append, run, run]
    cases act s x with
    | ok m => exact ih m
    | ub => rfl
    | abort => rfl

/-- One turn of the draining loop with a publish that goes well. -/
def turn (c : Nat) : List Op := [.peek c, .publish c true, .deq c]

theorem turn_pops {V : Nat → Env} {s : St} (hI : Inv V s) (c p : Nat) (qs : List Nat) (hi : s.pc c = .idle)
    (hq : s.outq c = p :: qs) :
    ∃ s', run s (turn c) = .ok s' ∧ Inv V s' ∧ s'.pc c = .idle ∧ s'.outq c = qs := by
  have hl := hI.live (.inr c) (untag p) (by simp [own, hq])
  have h1 : peek s c = { s with pc := upd s.pc c (.peeked p) } := by unfold peek; rw [hi, hq]
  have i1 := (inv_peek hI c).1
  obtain ⟨s₂, h2, _, i2, _⟩ := inv_publish i1 c true
  obtain ⟨s₃, h3, _, i3, _⟩ := inv_deq i2 c
  have e2 : s₂ = { s with pc := upd (upd s.pc c (.peeked p)) c (.sent p), pubd := upd s.pubd c (s.pubd c ++ [pubOf V p]) } := by
    rw [h1] at h2
    unfold publish at h2
    simp only [upd_self, hl, if_true] at h2
    exact (Out.ok.inj h2).symm
  have e3 : s₃.pc c = .idle ∧ s₃.outq c = qs := by
    rw [e2] at h3
    unfold deq at h3
    simp only [upd_self, hl, if_true, hq] at h3
    rw [← Out.ok.inj h3]
    simp only [upd_self, and_self]
  refine ⟨s₃, ?_, i3, e3⟩
  unfold turn run act run act run act
  simp only [h2, h3, run]

theorem turns_pop {V : Nat → Env} {s : St} (hI : Inv V s) (c : Nat) (hi : s.pc c = .idle) :
    ∃ s', run s (List.replicate (s.outq c).length (turn c)).flatten = .ok s' ∧ s'.outq c = [] := by
  generalize hq : s.outq c = q
  induction q generalizing s with
  | nil => exact ⟨s, rfl, hq⟩
  | cons p qs ih =>
    obtain ⟨s₁, h1, i1, hp1, hq1⟩ := turn_pops hI c p qs hi hq
    obtain ⟨s₂, h2, hq2⟩ := ih i1 hp1 hq1
    refine ⟨s₂, ?_, hq2⟩
    rw [List.length_cons, List.replicate_succ, List.flatten_cons, run_append, h1]
    exact h2

/-- C160.  From any state, once the publishes go well a connection's thread
    empties its queue. -/
theorem C160_drains (n : Nat) (hn : 0 < n) (hn' : n ≤ 128) (ops : List Op) (hf : Fits n ops) (s : St)
    (h : run (St.init n) ops = .ok s) (c : Nat) :
    ∃ more s', run s more = .ok s' ∧ s'.outq c = [] ∧
      ∀ x ∈ more, x = .peek c ∨ x = .publish c true ∨ x = .deq c := by
  obtain ⟨V, hI, _⟩ := reached hn hn' hf h
  obtain ⟨s₁, h1, _, i1, _⟩ := inv_publish hI c true
  obtain ⟨s₂, h2, _, i2, _⟩ := inv_deq i1 c
  have hid : s₂.pc c = .idle := by
    have hs1 : ∀ p, s₁.pc c ≠ .peeked p := by
      unfold publish at h1
      split at h1
      · split at h1
        · cases h1
        · simp only [if_true] at h1
          rw [← Out.ok.inj h1]; simp [upd_self]
      · rename_i hne
        rw [← Out.ok.inj h1]; exact fun p => hne p
    unfold deq at h2
    split at h2
    · split at h2
      · rw [← Out.ok.inj h2]; simp [upd_self]
      · split at h2
        · split at h2
          · cases h2
          · rw [← Out.ok.inj h2]; simp [upd_self]
        · cases h2
    · rename_i hne
      rw [← Out.ok.inj h2]
      cases hpc : s₁.pc c with
      | idle => rfl
      | peeked p => exact absurd hpc (hs1 p)
      | sent p => exact absurd hpc (hne p)
  obtain ⟨s₃, h3, hq3⟩ := turns_pop i2 c hid
  refine ⟨[.publish c true, .deq c] ++ (List.replicate (s₂.outq c).length (turn c)).flatten, s₃, ?_, hq3, ?_⟩
  · rw [run_append]
    have : run s [.publish c true, .deq c] = .ok s₂ := by
      unfold run act run act
      simp only [h1, h2, run]
    rw [this]; exact h3
  · intro x hx
    rcases List.mem_append.1 hx with hx | hx
    · simp only [List.mem_cons, List.not_mem_nil, or_false] at hx
      rcases hx with rfl | rfl <;> simp
    · obtain ⟨l, hl, hx⟩ := List.mem_flatten.1 hx
      rw [List.eq_of_mem_replicate hl] at hx
      simpa [turn] using hx

/-- C160.  A publish that fails loses nothing: the message stays first in the
    queue. -/
theorem C160_retry (s s' : St) (c : Nat) (h : publish s c false = .ok s') : s'.outq = s.outq ∧ s'.heap = s.heap ∧
    s'.pubd = s.pubd := by
  unfold publish at h
  split at h
  · split at h
    · cases h
    · simp only [Bool.false_eq_true, if_false] at h
      rw [← Out.ok.inj h]; exact ⟨rfl, rfl, rfl⟩
  · rw [← Out.ok.inj h]; exact ⟨rfl, rfl, rfl⟩

/-- C160.  The full claim would be for every id.  It is false: an id of 128 or
    more writes outside the array of copies, and an id of no connection below
    that loses the message, which is never freed either. -/
theorem C160_id_violated (n : Nat) :
    (∀ s t msg m i d, 128 ≤ d → send s t msg m i (some d) = .ub) ∧
    (∀ t msg m i d, n ≤ d → d < 128 → ∃ s, send (St.init n) t msg m i (some d) = .ok s ∧
      (∀ t, s.pend t = []) ∧ (∀ c, s.outq c = []) ∧ ∃ a, s.heap a ≠ none) := by
  constructor
  · intro s t msg m i d hd
    unfold send
    simp [maxConns, hd]
  · intro t msg m i d hd hd'
    refine ⟨_, if_neg (show ¬ d ≥ maxConns by unfold maxConns; omega), ?_, ?_, ?_⟩
    · intro t'
      have hlt : ¬ d < (St.init n).n := by show ¬ d < n; omega
      dsimp only
      by_cases ht : t' = t
      · subst ht; rw [upd_self, if_neg hlt]; rfl
      · rw [upd_ne _ _ ht]; rfl
    · intro c; rfl
    · exact ⟨addr 0, by simp [St.init, upd_self]⟩

/-- Two connections; thread 7 broadcasts a mandatory message while thread 8
    sends to connection 1; the first publish of connection 1 fails. -/
def demo : List Op :=
  [.send 7 100 true false none, .enq 7, .send 8 200 false true (some 1), .enq 8, .enq 7,
   .peek 1, .publish 1 false, .peek 1, .publish 1 true, .deq 1, .peek 1, .publish 1 true, .deq 1,
   .peek 0, .publish 0 true, .deq 0]

example : Fits 2 demo := by
  intro t msg m i d h
  simp [demo] at h
  omega

/-- What a connection has published, and what its queue holds. -/
def pubs (c : Nat) : Out St → List Pub
  | .ok s => s.pubd c
  | _ => []

def queued (c : Nat) : Out St → Option (List Nat)
  | .ok s => some (s.outq c)
  | _ => none

example : pubs 0 (run (St.init 2) demo) = [⟨7, 100, true, false⟩] := by decide +kernel
example : pubs 1 (run (St.init 2) demo) = [⟨8, 200, false, true⟩, ⟨7, 100, true, false⟩] := by decide +kernel
example : queued 0 (run (St.init 2) demo) = some [] ∧ queued 1 (run (St.init 2) demo) = some [] := by decide +kernel

example : asked 2 7 1 demo = [⟨7, 100, true, false⟩] ∧ asked 2 8 1 demo = [⟨8, 200, false, true⟩] ∧
    asked 2 8 0 demo = [] := by decide +kernel

/-! ### C161: log streams -/

/-- C161.  A path `exchange/route` makes the stream `name` send to that
    exchange with the key `route.name`. -/
theorem C161_split_partial (ex rt name : Str) (hex : 47 ∉ ex) (h1 : ex.length ≤ 126)
    (h2 : rt.length + 1 + name.length ≤ 126) :
    logName (ex ++ [47] ++ rt) name = (ex, rt ++ [46] ++ name) := by
  have ht : (ex ++ [47] ++ rt).takeWhile (· != 47) = ex := by
    rw [List.append_assoc, List.takeWhile_append_of_pos]
    · simp
    · intro x hx; simp; rintro rfl; exact hex hx
  unfold logName
  simp only [ht]
  rw [if_neg (by simp)]
  refine Prod.ext ?_ ?_
  · show List.take _ _ = ex
    rw [show min 127 (ex.length + 1) - 1 = ex.length by omega, List.append_assoc, List.take_left']
    rfl
  · show List.take _ (List.drop _ _ ++ [46] ++ name) = _
    rw [show ex.length + 1 = (ex ++ [47]).length by simp, List.drop_left']
    · exact List.take_of_length_le (by simp; omega)
    · rfl

/-- C161.  Without a slash the path is the exchange and the key is
    `mtev.log.name`. -/
theorem C161_plain_partial (ex name : Str) (hex : 47 ∉ ex) (h1 : ex.length ≤ 126) (h2 : name.length ≤ 117) :
    logName ex name = (ex, bytesOf "mtev.log." ++ name) := by
  have ht : ex.takeWhile (· != 47) = ex := by
    have := List.takeWhile_append_of_pos (p := fun x : Nat => x != 47) (l₁ := ex) (l₂ := [])
      (by intro x hx; simp; rintro rfl; exact hex hx)
    simpa using this
  unfold logName
  simp only [ht, if_true]
  refine Prod.ext (List.take_of_length_le (by omega)) (List.take_of_length_le ?_)
  have : (bytesOf "mtev.log.").length = 9 := by decide +kernel
  simp only [List.length_append, this]; omega

/-- C161.  Both always fit their 127 bytes with the terminator, and are cut
    rather than refused. -/
theorem C161_fits (path name : Str) :
    (logName path name).1.length ≤ 126 ∧ (logName path name).2.length ≤ 126 := by
  unfold logName
  dsimp only
  split
  · exact ⟨List.length_take_le _ _, List.length_take_le _ _⟩
  · constructor
    · exact (List.length_take_le _ _).trans (by omega)
    · exact List.length_take_le _ _

/-- C161.  The full claim would have no bound on the lengths.  Past it the
    names are cut without a word, and streams of different names send with the
    same key. -/
theorem C161_long_violated (rt : Str) (h : rt.length = 126) (hs : 47 ∉ rt) (name name' : Str) :
    logName ([101] ++ [47] ++ rt) name = logName ([101] ++ [47] ++ rt) name' := by
  have key : ∀ nm : Str, logName ([101] ++ [47] ++ rt) nm = ([101], rt) := by
    intro nm
    unfold logName
    simp [List.takeWhile, h, List.take_append]
  rw [key, key]

example : logName (bytesOf "logging/app.errors") (bytesOf "http") = (bytesOf "logging", bytesOf "app.errors.http") := by
  decide +kernel

example : logName (bytesOf "logging") (bytesOf "http") = (bytesOf "logging", bytesOf "mtev.log.http") := by
  decide +kernel

/-! ### C162: fq -/

/-- The counters of a connection that count sends. -/
def sends (f : Fq) : Nat × Nat := (f.publications, f.drops)

/-- C162.  A send counts once, as a publication or as a drop as the client
    library says, on the connection it names, or on each if the id is negative,
    and on no other. -/
theorem C162_counts (fs : List Fq) (dst : Option Nat) (good : Nat → Bool) (c : Nat) :
    (fqSend fs dst good)[c]? = fs[c]?.map (fun f =>
      if dst = none ∨ dst = some c then
        (if good c then { f with publications := f.publications + 1 } else { f with drops := f.drops + 1 })
      else f) := by
  have fold : ∀ (l : List Nat), l.Nodup → ∀ gs : List Fq,
      (l.foldl (fun gs c => gs.modify c (fqPub1 · (good c))) gs)[c]? =
        gs[c]?.map (fun f => if c ∈ l then fqPub1 f (good c) else f) := by
    intro l
    induction l with
    | nil => intro _ gs; simp
    | cons x xs ih =>
      intro hnd gs
      rw [List.foldl_cons, ih (List.nodup_cons.1 hnd).2, List.getElem?_modify]
      by_cases hx : x = c
      · subst hx
        have := (List.nodup_cons.1 hnd).1
        simp only [this, if_false, if_true, List.mem_cons, true_or]
        cases gs[x]? <;> rfl
      · simp only [if_neg hx, List.mem_cons, show ¬ c = x from fun h => hx h.symm, false_or]
        simp
  unfold fqSend
  cases dst with
  | none =>
    rw [fold _ (by unfold fqTargets; exact List.nodup_range)]
    by_cases hc : c < fs.length
    · simp only [fqTargets, List.mem_range, hc, if_true, true_or]; rfl
    · rw [List.getElem?_eq_none (by omega)]; rfl
  | some d =>
    by_cases hd : d ≥ fs.length
    · unfold fqTargets
      simp only [if_pos hd, List.foldl_nil]
      by_cases hc : c < fs.length
      · have : ¬ d = c := by omega
        simp [this]
      · rw [List.getElem?_eq_none (by omega)]; rfl
    · have ht : fqTargets fs.length (some d) = [d] := if_neg hd
      rw [ht, fold _ (by simp)]
      by_cases hdc : d = c
      · subst hdc; simp [fqPub1]
      · have : ¬ c = d := fun h => hdc h.symm
        simp [hdc, this]

theorem poll1_eq (limit cnt : Nat) (q : List Nat) :
    fqPoll1 limit cnt q = (if limit = 0 then (q, []) else (q.take (limit - cnt), q.drop (limit - cnt))) := by
  induction q generalizing cnt with
  | nil => unfold fqPoll1; split <;> simp
  | cons m ms ih =>
    unfold fqPoll1
    by_cases hl : limit = 0
    · rw [if_pos (.inl hl), ih, if_pos hl, if_pos hl]
    · by_cases hc : cnt < limit
      · rw [if_pos (.inr hc), ih, if_neg hl, if_neg hl]
        obtain ⟨k, hk⟩ : ∃ k, limit - cnt = k + 1 := ⟨limit - cnt - 1, by omega⟩
        have hk' : limit - (cnt + 1) = k := by omega
        simp [hk, hk']
      · rw [if_neg (by omega), if_neg hl]
        simp [show limit - cnt = 0 by omega]

/-- C162.  A poll hands the hook, for each connection, the first messages
    waiting there, in order and under its id, at most the limit if there is
    one, keeps the others, and counts those it handed over. -/
theorem C162_poll (limit c₀ : Nat) (fs : List Fq) (c : Nat) (f : Fq) (hf : fs[c]? = some f) :
    ((fqPoll limit c₀ fs).1.filter (fun x => x.1 == c₀ + c)).map (·.2) =
        (if limit = 0 then f.inq else f.inq.take limit) ∧
    (fqPoll limit c₀ fs).2[c]? = some { f with
      inq := if limit = 0 then [] else f.inq.drop limit
      receptions := f.receptions + (if limit = 0 then f.inq.length else min limit f.inq.length) } := by
  have ids : ∀ (fs : List Fq) (c₀ : Nat), ∀ x ∈ (fqPoll limit c₀ fs).1, c₀ ≤ x.1 := by
    intro fs
    induction fs with
    | nil => intro c₀ x hx; simp [fqPoll] at hx
    | cons g gs ih =>
      intro c₀ x hx
      unfold fqPoll at hx
      rcases List.mem_append.1 hx with hx | hx
      · obtain ⟨m, _, rfl⟩ := List.mem_map.1 hx; exact le_refl _
      · have := ih (c₀ + 1) x hx; omega
  induction fs generalizing c₀ c with
  | nil => simp at hf
  | cons g gs ih =>
    unfold fqPoll
    simp only [poll1_eq, Nat.sub_zero]
    cases c with
    | zero =>
      simp only [List.getElem?_cons_zero, Option.some.injEq] at hf
      subst hf
      constructor
      · rw [List.filter_append, List.map_append]
        have h1 : (fqPoll limit (c₀ + 1) gs).1.filter (fun x => x.1 == c₀ + 0) = [] := by
          apply List.filter_eq_nil_iff.2
          intro x hx
          have := ids gs (c₀ + 1) x hx
          simp; omega
        rw [h1, List.filter_eq_self.2]
        · split <;> simp [List.map_map, Function.comp_def]
        · intro x hx
          obtain ⟨m, _, rfl⟩ := List.mem_map.1 hx; simp
      · simp only [List.getElem?_cons_zero, Option.some.injEq]
        split <;> simp
    | succ c =>
      simp only [List.getElem?_cons_succ] at hf
      have := ih (c₀ + 1) c hf
      constructor
      · rw [List.filter_append, List.map_append, List.filter_eq_nil_iff.2]
        · rw [List.map_nil, List.nil_append, show c₀ + (c + 1) = c₀ + 1 + c by omega]
          exact this.1
        · intro x hx
          obtain ⟨m, _, rfl⟩ := List.mem_map.1 hx
          simp
      · simp only [List.getElem?_cons_succ]
        exact this.2

/-- Polls and arrivals on the connections. -/
inductive FqOp where
  | arrive (c m : Nat)
  | poll

/-- One of them; the calls of the hook are appended to the log. -/
def fqAct (limit : Nat) : List (Nat × Nat) × List Fq → FqOp → List (Nat × Nat) × List Fq
  | (log, fs), .arrive c m => (log, fs.modify c (fun f => { f with inq := f.inq ++ [m] }))
  | (log, fs), .poll => (log ++ (fqPoll limit 0 fs).1, (fqPoll limit 0 fs).2)

/-- What arrived on a connection. -/
def arrived (c : Nat) (ops : List FqOp) : List Nat :=
  ops.filterMap fun | .arrive c' m => if c' = c then some m else none | .poll => none

/-- C162.  Over any history what the hook has been handed for a connection,
    followed by what is waiting there, is what has arrived on it: each message
    once and in order. -/
theorem C162_history (limit : Nat) (ops : List FqOp) (log : List (Nat × Nat)) (fs : List Fq) (c : Nat) (f : Fq)
    (hf : fs[c]? = some f) :
    ∃ f', (ops.foldl (fqAct limit) (log, fs)).2[c]? = some f' ∧
      ((ops.foldl (fqAct limit) (log, fs)).1.filter (fun x => x.1 == c)).map (·.2) ++ f'.inq =
        (log.filter (fun x => x.1 == c)).map (·.2) ++ f.inq ++ arrived c ops := by
  induction ops generalizing log fs f with
  | nil => exact ⟨f, hf, by simp [arrived]⟩
  | cons x xs ih =>
    rw [List.foldl_cons]
    cases x with
    | arrive c' m =>
      by_cases hc : c' = c
      · subst hc
        obtain ⟨f', h1, h2⟩ := ih log (fs.modify c' (fun f => { f with inq := f.inq ++ [m] }))
          { f with inq := f.inq ++ [m] } (by rw [List.getElem?_modify, hf]; simp)
        refine ⟨f', h1, h2.trans ?_⟩
        simp [arrived]
      · obtain ⟨f', h1, h2⟩ := ih log (fs.modify c' (fun f => { f with inq := f.inq ++ [m] })) f
          (by rw [List.getElem?_modify, hf]; simp [hc])
        refine ⟨f', h1, h2.trans ?_⟩
        simp [arrived, hc]
    | poll =>
      have hp := C162_poll limit 0 fs c f hf
      rw [Nat.zero_add] at hp
      obtain ⟨f', h1, h2⟩ := ih (log ++ (fqPoll limit 0 fs).1) (fqPoll limit 0 fs).2 _ hp.2
      refine ⟨f', h1, h2.trans ?_⟩
      rw [List.filter_append, List.map_append, hp.1]
      have : arrived c (.poll :: xs) = arrived c xs := by simp [arrived]
      rw [this]
      split <;> simp [List.append_assoc]

example : fqPoll 2 0 [⟨[1, 2, 3], 0, 0, 5⟩, ⟨[9], 0, 0, 0⟩] =
    ([(0, 1), (0, 2), (1, 9)], [⟨[3], 0, 0, 7⟩, ⟨[], 0, 0, 1⟩]) := by decide

example : (fqSend [⟨[], 0, 0, 0⟩, ⟨[], 3, 1, 0⟩] none (fun c => c == 0)) = [⟨[], 1, 0, 0⟩, ⟨[], 3, 2, 0⟩] ∧
    (fqSend [⟨[], 0, 0, 0⟩, ⟨[], 3, 1, 0⟩] (some 2) (fun _ => true)) = [⟨[], 0, 0, 0⟩, ⟨[], 3, 1, 0⟩] := by decide

/-- The counting of receptions when two threads poll the same connection: each
    reads the counter and writes back one more.
    /repo/src/modules/mtev_fq.c 142-166, 433-440 (`fanout` receivers on several
    threads, all polling every connection, `stats.receptions++` unguarded). -/
inductive CntOp where
  | load (t : Nat)
  | store (t : Nat)

/-- The counter and what each thread read. -/
def cntAct : Nat × (Nat → Nat) → CntOp → Nat × (Nat → Nat)
  | (v, r), .load t => (v, upd r t v)
  | (_, r), .store t => (r t + 1, r)

/-- C162.  That each reception counts holds for one receiver only: with a
    fanout two threads can count two messages as one. -/
theorem C162_fanout_violated :
    ([CntOp.load 0, .load 1, .store 0, .store 1].foldl cntAct (0, fun _ => 0)).1 = 1 := by decide

/-- C162.  And holds for one receiver. -/
theorem C162_fanout_partial (k : Nat) (v : Nat) (r : Nat → Nat) (t : Nat) :
    ((List.replicate k [CntOp.load t, .store t]).flatten.foldl cntAct (v, r)).1 = v + k := by
  induction k generalizing v r with
  | zero => rfl
  | succ k ih =>
    rw [List.replicate_succ, List.flatten_cons, List.foldl_append]
    simp only [List.foldl_cons, List.foldl_nil, cntAct, upd_self]
    rw [ih]; omega

end Mtev.Amqp
