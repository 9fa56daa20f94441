import Verif.Listen
import Mathlib.Data.List.Nodup
import Mathlib.Data.List.Induction
import Mathlib.Data.List.TakeWhile

/-!
# C140-C146: listeners and their connections

C140: a connection is closed after its idle timeout, and not before.
C141: every connection that is accepted is served or closed, with TLS if that is configured, on a thread of the pool.
C142: the name of a TLS peer is the common name of its certificate.
C143: the control port runs the handler of the command that was sent.
C144: a listener listens on the address it was given and removes nothing but an old socket.
C145: exactly the configured listeners are started.
C146: the text of an address is the address.
-/

namespace Mtev.Listen

/-! ## C140 -/

/-- A time in microseconds. -/
def us (t : TV) : Int := t.s * 1000000 + t.u

/-- A time as the system gives it. -/
def Norm (t : TV) : Prop := 0 ≤ t.u ∧ t.u < 1000000 ∧ 0 ≤ t.s ∧ t.s < 2 ^ 40

theorem age_eq (c : Conn) (now : TV) : age c now = subTV now c.lastRead := by
  unfold age
  dsimp only
  split <;> rfl

theorem step_told {w : W} {now : TV} {found again : Bool} (h : found = true ∧ ageMs (age w.c now) > w.c.timeout) :
    step w (.tick now found again) = except again { w with c := { w.c with timer := none, told := w.c.told + 1 } } := by
  have e : tick found now w.c = { w.c with timer := none, told := w.c.told + 1 } := if_pos h
  simp [step, e]

theorem step_not {w : W} {now : TV} {found again : Bool} (h : ¬ (found = true ∧ ageMs (age w.c now) > w.c.timeout)) :
    step w (.tick now found again) = { w with c := { w.c with timer := some (addTV now (msTV (limited w.c.timeout))) } } := by
  have e : tick found now w.c = { w.c with timer := some (addTV now (msTV (limited w.c.timeout))) } := if_neg h
  simp [step, e]

theorem ageMs_le {a b : TV} (ha : Norm a) (hb : Norm b) (h : us b ≤ us a) : (ageMs (subTV a b) : Int) = (us a - us b) / 1000 := by
  obtain ⟨a1, a2, a3, a4⟩ := ha
  obtain ⟨b1, b2, b3, b4⟩ := hb
  unfold us at *
  unfold ageMs subTV
  dsimp only
  by_cases hu : a.u - b.u < 0
  · simp only [hu, if_true]
    rw [if_neg (by omega)]
    dsimp only
    rw [Int.emod_eq_of_lt (by omega) (by omega), Int.emod_eq_of_lt (by omega) (by omega)]
    omega
  · simp only [hu, if_false]
    rw [if_neg (by omega)]
    dsimp only
    rw [Int.emod_eq_of_lt (by omega) (by omega), Int.emod_eq_of_lt (by omega) (by omega)]
    omega

theorem ageMs_lt {a b : TV} (ha : Norm a) (hb : Norm b) (h : us a < us b) : 10 ^ 16 < ageMs (subTV a b) := by
  obtain ⟨a1, a2, a3, a4⟩ := ha
  obtain ⟨b1, b2, b3, b4⟩ := hb
  unfold us at *
  unfold ageMs subTV
  dsimp only
  by_cases hu : a.u - b.u < 0
  · simp only [hu, if_true]
    rw [if_pos (by omega)]
    dsimp only
    omega
  · simp only [hu, if_false]
    rw [if_pos (by omega)]
    dsimp only
    omega

theorem us_add {a b : TV} : us (addTV a b) = us a + us b := by
  unfold addTV us
  split <;> dsimp only <;> omega

theorem us_ms (n : Nat) : us (msTV n) = n * 1000 := by
  unfold us msTV
  dsimp only
  omega

theorem run_append (w : W) (a b : List Ev) : run w (a ++ b) = run (run w a) b := List.foldl_append ..

theorem run_cons (w : W) (e : Ev) (b : List Ev) : run w (e :: b) = run (step w e) b := rfl

theorem step_timeout (w : W) (e : Ev) : (step w e).c.timeout = w.c.timeout := by
  cases e with
  | tick now found again =>
    simp only [step, except, tick]
    repeat' split
    all_goals rfl
  | _ => rfl

theorem run_timeout (evs : List Ev) (w : W) : (run w evs).c.timeout = w.c.timeout := by
  induction evs generalizing w with
  | nil => rfl
  | cons e l ih => rw [run_cons, ih, step_timeout]

/-- Events that say nothing was received. -/
def Silent : Ev → Prop
  | .read _ | .shaken _ => False
  | _ => True

theorem step_lastRead (w : W) (e : Ev) (h : Silent e) : (step w e).c.lastRead = w.c.lastRead := by
  cases e with
  | tick now found again =>
    simp only [step, except, tick]
    repeat' split
    all_goals rfl
  | write t => rfl
  | read t => exact h.elim
  | shaken t => exact h.elim

theorem run_lastRead (evs : List Ev) (w : W) (h : ∀ e ∈ evs, Silent e) : (run w evs).c.lastRead = w.c.lastRead := by
  induction evs generalizing w with
  | nil => rfl
  | cons e l ih =>
    rw [run_cons, ih _ fun x hx => h x (List.mem_cons_of_mem _ hx), step_lastRead _ _ (h e (by simp))]

/-- A connection, accepted at `t0`. -/
def accepted (stage : Stage) (ms : Nat) (t0 : TV) : W := { c := start ms t0, stage }

/-- **C140 (not before).**  A connection from which something was received within the timeout is not terminated, and is looked at again.
Partial: the time of the timer's thread must not be before that of the last reading; see `C140_race_violated`.  Only what is received counts; see
`C140_write_violated`. -/
theorem C140_active_partial (stage : Stage) (ms : Nat) (t0 t now : TV) (before after : List Ev) (found again : Bool)
    (ha : ∀ e ∈ after, Silent e) (ht : Norm t) (hn : Norm now) (h1 : us t ≤ us now) (h2 : us now ≤ us t + ms * 1000) :
    let w := run (accepted stage ms t0) (before ++ .read t :: after)
    (step w (.tick now found again)).open_ = w.open_ ∧ (step w (.tick now found again)).c.told = w.c.told ∧
      (step w (.tick now found again)).c.timer.isSome := by
  intro w
  have hr : w.c.lastRead = t := by
    show (run _ _).c.lastRead = t
    rw [run_append, run_cons, run_lastRead _ _ ha]
    rfl
  have hm : w.c.timeout = ms := run_timeout _ _
  have hage : ¬ (found = true ∧ ageMs (age w.c now) > w.c.timeout) := by
    rintro ⟨_, h⟩
    rw [age_eq, hr, hm] at h
    have := ageMs_le hn ht h1
    omega
  rw [step_not hage]
  exact ⟨rfl, rfl, rfl⟩

/-- The events of a connection that is not used: every time the timer runs, the event of the connection is found. -/
def Idle : Ev → Prop
  | .tick now found _ => Norm now ∧ found = true
  | .write _ => True
  | _ => False

/-- Times not after `r`. -/
def NotAfter (r : TV) : Ev → Prop
  | .tick now _ _ => us now ≤ us r
  | .read t | .write t | .shaken t => us t ≤ us r

theorem closed_stays (e : Ev) (w : W) (h : w.open_ = false) : (step w e).open_ = false := by
  cases e with
  | tick now found again =>
    simp only [step, except]
    repeat' split
    all_goals first | rfl | exact h
  | _ => exact h

theorem serving_stays (e : Ev) (w : W) (h : w.stage = .serving) : (step w e).stage = .serving := by
  cases e with
  | tick now found again =>
    simp only [step, except]
    repeat' split
    all_goals first | rfl | exact h
  | shaken t => rfl
  | _ => exact h

/-- The timer runs before `bound`, or the connection is closed. -/
def DueBy (bound : Int) (w : W) : Prop := w.open_ = false ∨ ∃ due, w.c.timer = some due ∧ us due ≤ bound

theorem due_step {r : TV} {w : W} {e : Ev} (hs : w.stage = .serving) (he : NotAfter r e) (hw : DueBy (us r + limited w.c.timeout * 1000) w) :
    DueBy (us r + limited w.c.timeout * 1000) (step w e) := by
  rcases hw with hw | ⟨due, h1, h2⟩
  · exact .inl (closed_stays e w hw)
  · cases e with
    | tick now found again =>
      by_cases hc : found = true ∧ ageMs (age w.c now) > w.c.timeout
      · left
        rw [step_told hc]
        simp [except, hs]
      · right
        rw [step_not hc]
        refine ⟨_, rfl, ?_⟩
        rw [us_add, us_ms]
        have : us now ≤ us r := he
        omega
    | _ => exact .inr ⟨due, h1, h2⟩

/-- **C140 (in time).**  A connection of a protocol that closes when it is told to, from which nothing is received after `r`, is closed: it is open
only while its timer is due before `ms + min(ms, 5000) + 1` milliseconds after `r`.  Partial: its handshake is over, see `C140_handshake_violated`; its event
is found whenever the timer runs. -/
theorem C140_idle_partial (ms : Nat) (h0 : 0 < ms) (t0 r : TV) (hr : Norm r) (h01 : us t0 ≤ us r) (before after : List Ev)
    (hb : ∀ e ∈ before, NotAfter r e) (ha : ∀ e ∈ after, Idle e) (hl : ∀ now f a, Ev.tick now f a ∈ after → us r ≤ us now) :
    let w := run (accepted .serving ms t0) (before ++ .read r :: after)
    w.open_ = false ∨ ∃ due, w.c.timer = some due ∧ us due < us r + (ms + 1 + min ms 5000) * 1000 := by
  have hlim : ∀ n, limited n = min n 5000 := by intro n; unfold limited; split <;> omega
  have H1 : ∀ (l : List Ev) (w : W), w.stage = .serving → (∀ e ∈ l, NotAfter r e) → DueBy (us r + limited w.c.timeout * 1000) w →
      (run w l).stage = .serving ∧ DueBy (us r + limited w.c.timeout * 1000) (run w l) := by
    intro l
    induction l with
    | nil => intro w h1 _ h3; exact ⟨h1, h3⟩
    | cons e l ih =>
      intro w h1 h2 h3
      have := ih (step w e) (serving_stays e w h1) (fun x hx => h2 x (List.mem_cons_of_mem _ hx))
        (by rw [step_timeout]; exact due_step h1 (h2 e (by simp)) h3)
      rw [step_timeout] at this
      rw [run_cons]
      exact this
  have H2 : ∀ (l : List Ev) (w : W), w.stage = .serving → w.c.lastRead = r → w.c.timeout = ms → (∀ e ∈ l, Idle e) →
      (∀ now f a, Ev.tick now f a ∈ l → us r ≤ us now) → DueBy (us r + (ms + 1 + min ms 5000) * 1000 - 1) w →
      DueBy (us r + (ms + 1 + min ms 5000) * 1000 - 1) (run w l) := by
    intro l
    induction l with
    | nil => intro w _ _ _ _ _ h; exact h
    | cons e l ih =>
      intro w h1 h2 h3 h4 h5 h6
      have hsil : Silent e := by
        have := h4 e (by simp)
        cases e <;> first | trivial | exact this.elim
      rw [run_cons]
      refine ih _ (serving_stays e w h1) (by rw [step_lastRead _ _ hsil, h2]) (by rw [step_timeout, h3])
        (fun x hx => h4 x (List.mem_cons_of_mem _ hx)) (fun n f a hx => h5 n f a (List.mem_cons_of_mem _ hx)) ?_
      rcases h6 with hw | ⟨due, d1, d2⟩
      · exact .inl (closed_stays e w hw)
      · cases e with
        | write t => exact .inr ⟨due, d1, d2⟩
        | read t => exact False.elim (h4 (.read t) (by simp))
        | shaken t => exact False.elim (h4 (.shaken t) (by simp))
        | tick now found again =>
          obtain ⟨hn, hf⟩ := h4 _ (List.mem_cons_self ..)
          have hle := h5 now found again (by simp)
          by_cases hc : found = true ∧ ageMs (age w.c now) > w.c.timeout
          · left
            rw [step_told hc]
            simp [except, h1]
          · right
            rw [step_not hc]
            refine ⟨_, rfl, ?_⟩
            rw [us_add, us_ms, h3, hlim]
            have hc' : ¬ ageMs (age w.c now) > w.c.timeout := fun h => hc ⟨hf, h⟩
            rw [age_eq, h2, h3] at hc'
            have := ageMs_le hn hr hle
            omega
  intro w
  have h1 := H1 before (accepted .serving ms t0) rfl hb (.inr ⟨addTV t0 (msTV (limited ms)), by simp [accepted, start]; omega, by
    rw [us_add, us_ms]; show us t0 + limited ms * 1000 ≤ us r + limited ms * 1000; omega⟩)
  have hto : (run (accepted .serving ms t0) before).c.timeout = ms := run_timeout _ _
  have hw : w = run (step (run (accepted .serving ms t0) before) (.read r)) after := by
    show run _ _ = _
    rw [run_append, run_cons]
  have h2 := H2 after (step (run (accepted .serving ms t0) before) (.read r)) (serving_stays _ _ h1.1) rfl (by rw [step_timeout]; exact hto) ha hl (by
    rcases h1.2 with hh | ⟨due, d1, d2⟩
    · exact .inl hh
    · refine .inr ⟨due, d1, ?_⟩
      have e : (accepted .serving ms t0).c.timeout = ms := rfl
      rw [e, hlim] at d2
      omega)
  rw [hw]
  rcases h2 with h2 | ⟨due, d1, d2⟩
  · exact .inl h2
  · exact .inr ⟨due, d1, by omega⟩

/-- an idle timeout of two seconds: closed when the timer runs for the second time -/
example : run (accepted .serving 2000 ⟨100, 0⟩) [.read ⟨100, 5⟩, .tick ⟨102, 0⟩ true true, .tick ⟨104, 0⟩ true true] =
    { c := { lastRead := ⟨100, 5⟩, lastWrite := ⟨0, 0⟩, timeout := 2000, timer := none, told := 1 }, stage := .serving, open_ := false } := by
  decide +kernel

/-- without an idle timeout there is no timer -/
example : (accepted .serving 0 ⟨100, 0⟩).c.timer = none := rfl

/-- **C140 (writing).**  What is sent does not count, though it is documented to: a connection from which nothing was received for longer than
the timeout is terminated, even if something was sent at this very moment. -/
theorem C140_write_violated (ms : Nat) (t0 now : TV) (again : Bool) (h0 : Norm t0) (hn : Norm now) (h : us t0 + (ms + 1) * 1000 ≤ us now) :
    (run (accepted .serving ms t0) [.write now, .tick now true again]).open_ = false := by
  have hc : true = true ∧ ageMs (age (step (accepted .serving ms t0) (.write now)).c now) > (step (accepted .serving ms t0) (.write now)).c.timeout := by
    refine ⟨rfl, ?_⟩
    rw [age_eq]
    show ageMs (subTV now t0) > ms
    have := ageMs_le hn h0 (by omega)
    omega
  rw [run_cons, run_cons, step_told hc]
  rfl

example : Norm ⟨100, 0⟩ ∧ Norm ⟨131, 0⟩ ∧ us ⟨100, 0⟩ + (30000 + 1) * 1000 ≤ us ⟨131, 0⟩ := by refine ⟨⟨?_, ?_, ?_, ?_⟩, ⟨?_, ?_, ?_, ?_⟩, ?_⟩ <;> decide

/-- **C140 (two threads).**  If something is received after the thread of the timer has read the clock, the connection is terminated at once, however long
the timeout is (up to 10^16 ms): the negative age is taken for a very large one. -/
theorem C140_race_violated (ms : Nat) (hm : ms ≤ 10 ^ 16) (t0 t now : TV) (again : Bool) (ht : Norm t) (hn : Norm now) (h : us now < us t) :
    (run (accepted .serving ms t0) [.read t, .tick now true again]).open_ = false := by
  have hc : true = true ∧ ageMs (age (step (accepted .serving ms t0) (.read t)).c now) > (step (accepted .serving ms t0) (.read t)).c.timeout := by
    refine ⟨rfl, ?_⟩
    rw [age_eq]
    show ageMs (subTV now t) > ms
    have := ageMs_lt hn ht h
    omega
  rw [run_cons, run_cons, step_told hc]
  rfl

example : (run (accepted .serving 30000 ⟨100, 0⟩) [.read ⟨105, 10⟩, .tick ⟨105, 9⟩ true true]).open_ = false := by decide +kernel

/-- **C140 (handshake).**  A client that connects to a TLS listener and sends nothing is never terminated: it is told once, which has no effect, and then
there is no timer. -/
theorem C140_handshake_violated (ms : Nat) (t0 now : TV) (h0 : Norm t0) (hn : Norm now) (h : us t0 + (ms + 1) * 1000 ≤ us now) :
    (run (accepted .handshake ms t0) [.tick now true true]).open_ = true ∧
    (run (accepted .handshake ms t0) [.tick now true true]).c.timer = none := by
  have hc : true = true ∧ ageMs (age (accepted .handshake ms t0).c now) > (accepted .handshake ms t0).c.timeout := by
    refine ⟨rfl, ?_⟩
    rw [age_eq]
    show ageMs (subTV now t0) > ms
    have := ageMs_le hn h0 (by omega)
    omega
  rw [run_cons, step_told hc]
  exact ⟨rfl, rfl⟩

/-! ## C141 -/

/-- The descriptor of a connection. -/
def fdOf : Acc → Option Nat
  | .conn f _ _ => some f
  | _ => none

/-- **C141.**  Of the connections that were taken, each is either served, with a closure and, if that is configured, a timer of its own, or closed, without;
it is served with TLS exactly if that is configured. -/
theorem C141_each (tls timed : Bool) (l : List Acc) (hd : (l.filterMap fdOf).Nodup) :
    let a := (accept tls timed l {}).1
    ∃ taken, l = taken ++ (accept tls timed l {}).2 ∧ (a.served.map (·.1) ++ a.closed) = taken.filterMap fdOf ∧
      a.live = a.served.map (·.1) ∧ a.timers = (if timed then a.served.map (·.1) else []) ∧ ∀ x ∈ a.served, x.2 = tls := by
  have H : ∀ (l : List Acc) (a : A), (a.served.map (·.1) ++ l.filterMap fdOf).Nodup → a.closed = [] → a.live = a.served.map (·.1) →
      a.timers = (if timed then a.served.map (·.1) else []) → (∀ x ∈ a.served, x.2 = tls) →
      ∃ taken, l = taken ++ (accept tls timed l a).2 ∧
        ((accept tls timed l a).1.served.map (·.1) ++ (accept tls timed l a).1.closed) = a.served.map (·.1) ++ taken.filterMap fdOf ∧
        (accept tls timed l a).1.live = (accept tls timed l a).1.served.map (·.1) ∧
        (accept tls timed l a).1.timers = (if timed then (accept tls timed l a).1.served.map (·.1) else []) ∧
        ∀ x ∈ (accept tls timed l a).1.served, x.2 = tls := by
    intro l
    induction l with
    | nil => intro a _ h2 h3 h4 h5; exact ⟨[], rfl, by simp [accept, h2], h3, h4, h5⟩
    | cons x l ih =>
      intro a h1 h2 h3 h4 h5
      cases x with
      | again => exact ⟨[.again], rfl, by simp [accept, h2, fdOf], h3, h4, h5⟩
      | intr => exact ⟨[.intr], rfl, by simp [accept, h2, fdOf], h3, h4, h5⟩
      | err => exact ⟨[.err], rfl, by simp [accept, h2, fdOf], h3, h4, h5⟩
      | conn f nb ctx =>
        have hf : f ∉ a.served.map (·.1) := by
          intro hm
          rw [List.nodup_append] at h1
          exact h1.2.2 f hm f (by simp [fdOf]) rfl
        have her : (a.served.map (·.1) ++ [f]).erase f = a.served.map (·.1) := by
          rw [List.erase_append_right _ hf]; simp
        cases nb with
        | false => exact ⟨[.conn f false ctx], by simp [accept], by simp [accept, h2, fdOf], by simpa [accept] using h3, by simpa [accept] using h4, by simpa [accept] using h5⟩
        | true =>
          have go : ∀ tl, tl = tls → ∃ taken, (Acc.conn f true ctx :: l) = taken ++ (accept tls timed l { a with live := a.live ++ [f], timers := if timed then a.timers ++ [f] else a.timers, served := a.served ++ [(f, tl)] }).2 ∧
              ((accept tls timed l { a with live := a.live ++ [f], timers := if timed then a.timers ++ [f] else a.timers, served := a.served ++ [(f, tl)] }).1.served.map (·.1) ++
                (accept tls timed l { a with live := a.live ++ [f], timers := if timed then a.timers ++ [f] else a.timers, served := a.served ++ [(f, tl)] }).1.closed) = a.served.map (·.1) ++ taken.filterMap fdOf ∧
              (accept tls timed l { a with live := a.live ++ [f], timers := if timed then a.timers ++ [f] else a.timers, served := a.served ++ [(f, tl)] }).1.live =
                (accept tls timed l { a with live := a.live ++ [f], timers := if timed then a.timers ++ [f] else a.timers, served := a.served ++ [(f, tl)] }).1.served.map (·.1) ∧
              (accept tls timed l { a with live := a.live ++ [f], timers := if timed then a.timers ++ [f] else a.timers, served := a.served ++ [(f, tl)] }).1.timers =
                (if timed then (accept tls timed l { a with live := a.live ++ [f], timers := if timed then a.timers ++ [f] else a.timers, served := a.served ++ [(f, tl)] }).1.served.map (·.1) else []) ∧
              ∀ x ∈ (accept tls timed l { a with live := a.live ++ [f], timers := if timed then a.timers ++ [f] else a.timers, served := a.served ++ [(f, tl)] }).1.served, x.2 = tls := by
            intro tl htl
            obtain ⟨taken, e1, e2, e3, e4, e5⟩ := ih { a with live := a.live ++ [f], timers := if timed then a.timers ++ [f] else a.timers, served := a.served ++ [(f, tl)] }
              (by simpa [fdOf] using h1) h2 (by simp [h3]) (by cases timed <;> simp_all) (by
                intro x hx
                rcases List.mem_append.1 hx with hx | hx
                · exact h5 x hx
                · simp at hx; rw [hx]; exact htl)
            exact ⟨.conn f true ctx :: taken, by rw [List.cons_append, ← e1], by rw [e2]; simp [fdOf], e3, e4, e5⟩
          cases tls with
          | false =>
            have := go false rfl
            simpa [accept] using this
          | true =>
            cases ctx with
            | true =>
              have := go true rfl
              simpa [accept] using this
            | false =>
              refine ⟨[.conn f true false], by simp [accept], by simp [accept, h2, fdOf], by simp [accept, h3, her], ?_, by simpa [accept] using h5⟩
              cases timed with
              | true => simp only [if_true] at h4; simp [accept, h4, her]
              | false => simp only [Bool.false_eq_true, if_false] at h4; simp [accept, h4]
  obtain ⟨taken, e1, e2, e3, e4, e5⟩ := H l {} (by simpa using hd) rfl rfl (by simp) (by simp)
  exact ⟨taken, e1, by simpa using e2, e3, e4, e5⟩

example : accept true true [.conn 7 true true, .conn 8 true false, .conn 9 true true] {} =
    ({ served := [(7, true)], closed := [8], live := [7], timers := [7] }, [.conn 9 true true]) := by decide +kernel

/-- **C141 (all).**  If nothing fails, all connections that wait are served, in their order. -/
theorem C141_all (tls timed : Bool) (fds : List Nat) (rest : List Acc) :
    (accept tls timed (fds.map (.conn · true true) ++ .again :: rest) {}).1.served = fds.map (·, tls) := by
  have H : ∀ (fds : List Nat) (a : A), (accept tls timed (fds.map (.conn · true true) ++ .again :: rest) a).1.served = a.served ++ fds.map (·, tls) := by
    intro fds
    induction fds with
    | nil => intro a; simp [accept]
    | cons f l ih =>
      intro a
      rw [List.map_cons, List.cons_append]
      cases tls <;> simp [accept, ih]
  simpa using H fds {}

/-- **C141 (interrupted).**  An interrupted call is not repeated, though the code means to: nothing is accepted until the event runs again. -/
theorem C141_interrupt_violated (tls timed : Bool) (rest : List Acc) : accept tls timed (.intr :: rest) {} = ({}, rest) := rfl

/-- **C141 (threads).**  Without `fanout` and without a pool, a connection stays on the thread of its listener; with `fanout` it gets a thread of the pool
that was named, else of the pool of the listener, and in the default pool not its first thread if there is another. -/
theorem C141_owner_partial {P : Type} (pool : Option P) (mine : P) (size : P → Bool × Nat) (f : Nat) (hs : ∀ p, 0 < (size p).2) :
    owner false none mine size f = .same ∧
    ∃ p i, owner true pool mine size f = .inPool p i ∧ (pool = some p ∨ pool = none ∧ p = mine) ∧ i < (size p).2 ∧
      ((size p).1 = true → 1 < (size p).2 → f < 2 ^ 31 → 0 < i) := by
  refine ⟨rfl, pool.getD mine, _, rfl, ?_, ?_, ?_⟩
  · cases pool <;> simp
  · have h := hs (pool.getD mine)
    unfold choose
    split
    · omega
    · split
      · split
        · omega
        · have := Nat.mod_lt ((f + 1) % 2 ^ 32) (show 0 < (size (pool.getD mine)).2 - 1 by omega)
          omega
      · exact Nat.mod_lt _ h
  · intro h1 h2 _
    unfold choose
    rw [if_neg (by omega), if_pos h1, if_neg (by omega)]
    omega

example : owner true none 0 (fun _ => (true, 4)) 7 = .inPool 0 3 := by decide +kernel

/-- **C141 (pool without fanout).**  A pool that is named is used even if `fanout` is off. -/
theorem C141_pool_violated {P : Type} (p mine : P) (size : P → Bool × Nat) (f : Nat) : ∃ i, owner false (some p) mine size f = .inPool p i := ⟨_, rfl⟩

/-! ## C142 -/

/-- The text of a subject, as OpenSSL writes it in one line. -/
def subject (fields : List (Str × Str)) : Str := fields.flatMap fun e => [47] ++ e.1 ++ [61] ++ e.2

/-- The text `CN=`. -/
def CN : Str := [67, 78, 61]

theorem CN_text : CN = bytesOf "CN=" := by decide +kernel

theorem afterCN_spec (p r : Str) (h : ¬ CN <:+: p) (hp : p.getLast? ≠ some 67) (hp2 : ¬ [67, 78] <:+ p) : afterCN (p ++ CN ++ r) = some r := by
  induction p with
  | nil => rfl
  | cons a p ih =>
    have h' : ¬ CN <:+: p := fun x => h (x.trans (List.infix_cons (List.infix_refl _)))
    have hp2' : ¬ [67, 78] <:+ p := fun x => hp2 (x.trans (List.suffix_cons a p))
    have e : afterCN (a :: (p ++ CN ++ r)) = afterCN (p ++ CN ++ r) := by
      rw [afterCN, if_neg]
      rintro ⟨rfl, h2⟩
      match p, h, hp, hp2, h2 with
      | [], _, hp, _, _ => exact hp rfl
      | [b], _, _, hp2, h2 =>
        simp [CN] at h2
      | b :: c :: q, h, _, _, h2 =>
        simp only [List.cons_append, List.take_succ_cons, List.take_zero, List.cons.injEq, and_true] at h2
        apply h
        rw [h2.1, h2.2]
        exact ⟨[], q, rfl⟩
    rw [List.cons_append, List.cons_append, e]
    refine ih h' ?_ hp2'
    match p, hp with
    | [], _ => simp
    | b :: q, hp => rwa [List.getLast?_cons_cons] at hp

/-- **C142.**  The name of the peer is the common name of its certificate.  Partial: no `CN=` may stand before it, and the name may not have a
slash; see `C142_other_violated`, `C142_slash_violated`. -/
theorem C142_name_partial (pre post : List (Str × Str)) (name : Str) (h : ¬ CN <:+: subject pre) (hn : 47 ∉ name) :
    peerName (some (subject (pre ++ (bytesOf "CN", name) :: post))) = some name := by
  have e : subject (pre ++ (bytesOf "CN", name) :: post) = (subject pre ++ [47]) ++ CN ++ (name ++ subject post) := by
    have hb : bytesOf "CN" = [67, 78] := by decide +kernel
    simp [subject, CN, hb]
  have hx : ¬ CN <:+: subject pre ++ [47] := by
    intro hx
    rw [List.infix_concat_iff] at hx
    rcases hx with hx | hx
    · obtain ⟨q, hq⟩ := hx
      have := congrArg List.getLast? hq
      simp [CN] at this
    · exact h hx
  have hy : ¬ [67, 78] <:+ subject pre ++ [47] := by
    rintro ⟨q, hq⟩
    have := congrArg List.getLast? hq
    simp at this
  rw [e, peerName, Option.bind_some, afterCN_spec _ _ hx (by simp) hy, Option.map_some]
  congr 1
  have : ∀ (s t : Str), 47 ∉ s → (t = [] ∨ t.head? = some 47) → (s ++ t).takeWhile (fun b => decide (b ≠ 47)) = s := by
    intro s t hs ht
    induction s with
    | nil => rcases ht with rfl | ht
             · rfl
             · cases t with
               | nil => rfl
               | cons a t => simp at ht; simp [ht]
    | cons a s ih =>
      have ha : a ≠ 47 := fun hh => hs (by simp [hh])
      rw [List.cons_append, List.takeWhile_cons_of_pos (by simpa using ha), ih fun hh => hs (List.mem_cons_of_mem _ hh)]
  refine this name (subject post) hn ?_
  cases post with
  | nil => exact .inl rfl
  | cons e post => exact .inr (by simp [subject])

/-- **C142 (no name).**  A peer is anonymous if it has no certificate, or a certificate without `CN=`. -/
theorem C142_anonymous (s : Str) (h : ¬ CN <:+: s) : peerName (some s) = none ∧ peerName none = none := by
  refine ⟨?_, rfl⟩
  have : afterCN s = none := by
    induction s with
    | nil => rfl
    | cons a s ih =>
      rw [afterCN, if_neg]
      · exact ih fun x => h (x.trans (List.infix_cons (List.infix_refl _)))
      · rintro ⟨rfl, h2⟩
        apply h
        refine ⟨[], s.drop 2, ?_⟩
        have := List.take_append_drop 2 s
        rw [h2] at this
        rw [← this]
        rfl
  simp [peerName, this]

example : peerName (some (subject [(bytesOf "C", bytesOf "US"), (bytesOf "O", bytesOf "ACME"), (bytesOf "CN", bytesOf "node1")])) = some (bytesOf "node1") := by
  decide +kernel

/-- **C142 (another's name).**  Whoever gets a certificate with a first field of their choice has any name they like: an organisation `CN=x` is taken for
the common name `x`. -/
theorem C142_other_violated (name own : Str) (h : 47 ∉ name) :
    peerName (some (subject [(bytesOf "O", bytesOf "CN=" ++ name), (bytesOf "CN", own)])) = some name := by
  have e1 : bytesOf "O" = [79] := by decide +kernel
  have e2 : bytesOf "CN=" = [67, 78, 61] := by decide +kernel
  have e : subject [(bytesOf "O", bytesOf "CN=" ++ name), (bytesOf "CN", own)] =
      [47, 79, 61] ++ CN ++ (name ++ subject [(bytesOf "CN", own)]) := by
    simp [subject, e1, e2, CN]
  rw [e, peerName, Option.bind_some, afterCN_spec _ _ (by decide) (by decide) (by decide), Option.map_some]
  congr 1
  rw [List.takeWhile_append_of_pos (by intro a ha; simp; rintro rfl; exact h ha)]
  simp [subject]

/-- **C142 (slashes).**  A name is cut at a slash: `a/b` and `a/c` are both `a`. -/
theorem C142_slash_violated (a b : Str) (h : 47 ∉ a) : peerName (some (subject [(bytesOf "CN", a ++ [47] ++ b)])) = some a := by
  have e1 : bytesOf "CN" = [67, 78] := by decide +kernel
  have e : subject [(bytesOf "CN", a ++ [47] ++ b)] = [47] ++ CN ++ (a ++ (47 :: b)) := by
    simp [subject, e1, CN]
  rw [e, peerName, Option.bind_some, afterCN_spec _ _ (by decide) (by decide) (by decide), Option.map_some]
  congr 1
  rw [List.takeWhile_append_of_pos (by intro x ha; simp; rintro rfl; exact h ha)]
  simp

/-! ## C143 -/

/-- The table after some registrations. -/
def registered (regs : List (Nat × Nat)) : Option (List (Nat × Nat)) := regs.foldl (fun t p => delegate t p.1 p.2) none

/-- The handler registered last for a command. -/
def LastFor (regs : List (Nat × Nat)) (cmd h : Nat) : Prop := ∃ a b, regs = a ++ (cmd, h) :: b ∧ ∀ x ∈ b, x.1 ≠ cmd

theorem find_delegate (t : Option (List (Nat × Nat))) (c h cmd : Nat) :
    ((delegate t c h).getD []).find? (fun e => decide (e.1 = cmd)) =
      if c = cmd then some (c, h) else (t.getD []).find? (fun e => decide (e.1 = cmd)) := by
  unfold delegate
  rw [Option.getD_some]
  by_cases hc : c = cmd
  · rw [List.find?_cons_of_pos (by simpa using hc), if_pos hc]
  · rw [List.find?_cons_of_neg (by simpa using hc), if_neg hc]
    generalize t.getD [] = l
    induction l with
    | nil => rfl
    | cons e l ih =>
      by_cases he : e.1 = c
      · rw [List.filter_cons_of_neg (by simpa using he), ih, List.find?_cons_of_neg (by simp; omega)]
      · rw [List.filter_cons_of_pos (by simpa using he)]
        by_cases h2 : e.1 = cmd
        · rw [List.find?_cons_of_pos (by simpa using h2), List.find?_cons_of_pos (by simpa using h2)]
        · rw [List.find?_cons_of_neg (by simpa using h2), List.find?_cons_of_neg (by simpa using h2), ih]

/-- **C143 (handlers).**  The handler run for a command is the one registered last for it, and there is none else. -/
theorem C143_handler (regs : List (Nat × Nat)) (cmd h : Nat) : look (registered regs) cmd = .run cmd h ↔ LastFor regs cmd h := by
  have key : ∀ t : Option (List (Nat × Nat)), look t cmd = .run cmd h ↔ ((t.getD []).find? (fun e => decide (e.1 = cmd))).map (·.2) = some h := by
    intro t
    cases t with
    | none => simp [look]
    | some t =>
      simp only [look, Option.getD_some]
      cases hf : t.find? (fun e => decide (e.1 = cmd)) with
      | none => simp
      | some e => simp
  rw [key]
  induction regs using List.reverseRecOn with
  | nil => simp [registered, LastFor]
  | append_singleton l p ih =>
    have e : registered (l ++ [p]) = delegate (registered l) p.1 p.2 := by simp [registered]
    rw [e, find_delegate]
    by_cases hp : p.1 = cmd
    · rw [if_pos hp]
      constructor
      · intro hh
        simp only [Option.map_some, Option.some.injEq] at hh
        exact ⟨l, [], by rw [← hp, ← hh], by simp⟩
      · rintro ⟨a, b, h1, h2⟩
        rcases List.eq_nil_or_concat b with rfl | ⟨b', x, rfl⟩
        · have h3 := List.append_inj_right' h1 rfl
          simp only [List.cons.injEq, and_true] at h3
          rw [h3]; rfl
        · exfalso
          rw [List.concat_eq_append, ← List.cons_append, ← List.append_assoc] at h1
          have h3 := List.append_inj_right' h1 rfl
          simp only [List.cons.injEq, and_true] at h3
          exact h2 x (by simp) (by rw [← h3]; exact hp)
    · rw [if_neg hp]
      refine ih.trans ⟨?_, ?_⟩
      · rintro ⟨a, b, h1, h2⟩
        refine ⟨a, b ++ [p], by rw [h1]; simp, ?_⟩
        intro x hx
        rcases List.mem_append.1 hx with hx | hx
        · exact h2 x hx
        · simp at hx; rw [hx]; exact hp
      · rintro ⟨a, b, h1, h2⟩
        rcases List.eq_nil_or_concat b with rfl | ⟨b', x, rfl⟩
        · exfalso
          have h3 := List.append_inj_right' h1 rfl
          simp only [List.cons.injEq, and_true] at h3
          exact hp (by rw [h3])
        · rw [List.concat_eq_append, ← List.cons_append, ← List.append_assoc] at h1
          have h3 := List.append_inj_left' h1 rfl
          exact ⟨a, b', h3, fun y hy => h2 y (by simp [hy])⟩

theorem reads_fill (t : Option (List (Nat × Nat))) : ∀ (chunks : List Str) (rlen : Nat) (cmd : List (Option Nat)) (bs : Str) (tail : List Rd),
    (∀ c ∈ chunks, c ≠ []) → rlen + bs.length = 4 → rlen = cmd.length → bs <+: chunks.flatten →
    reads t (chunks.map .data ++ tail) rlen cmd = decide4 t (cmd ++ bs.map some) ∨ bs = [] ∧ chunks = []
  | [], rlen, cmd, bs, tail, _, h2, _, h4 => by
    right
    simp at h4
    exact ⟨h4, rfl⟩
  | c :: chunks, rlen, cmd, bs, tail, h1, h2, h3, h4 => by
    left
    rw [List.map_cons, List.cons_append, reads]
    by_cases hr : rlen < 4
    · rw [if_pos hr]
      dsimp only
      have hc : c ≠ [] := h1 c (by simp)
      have hlen : 0 < c.length := List.length_pos_iff.2 hc
      have hg : c.take (4 - rlen) ≠ [] := by
        intro hh
        have := congrArg List.length hh
        rw [List.length_take, List.length_nil] at this
        omega
      rw [if_neg hg]
      have hbs : bs.length = 4 - rlen := by omega
      rw [List.flatten_cons] at h4
      have hpre : c.take (4 - rlen) <+: bs := by
        have h5 : c.take (4 - rlen) <+: c ++ chunks.flatten := (List.take_prefix _ _).trans (List.prefix_append _ _)
        apply List.prefix_of_prefix_length_le h5 h4
        rw [List.length_take]
        omega
      obtain ⟨bs', hb'⟩ := hpre
      have h6 : bs' <+: chunks.flatten := by
        by_cases hcl : c.length ≤ 4 - rlen
        · rw [List.take_of_length_le hcl] at hb'
          rw [← hb'] at h4
          exact (List.prefix_append_right_inj _).1 h4
        · have h7 := congrArg List.length hb'
          rw [List.length_append, List.length_take] at h7
          have : bs' = [] := List.eq_nil_of_length_eq_zero (by omega)
          rw [this]
          exact List.nil_prefix
      have hl := congrArg List.length hb'
      rw [List.length_append] at hl
      have e : cmd ++ bs.map some = cmd ++ (c.take (4 - rlen)).map some ++ bs'.map some := by
        rw [← hb', List.map_append, List.append_assoc]
      rw [e]
      rcases reads_fill t chunks (rlen + (c.take (4 - rlen)).length) (cmd ++ (c.take (4 - rlen)).map some) bs' tail
        (fun x hx => h1 x (List.mem_cons_of_mem _ hx)) (by omega) (by rw [List.length_append, List.length_map, h3]) h6 with h | ⟨h, hn⟩
      · exact h
      · subst h hn
        rw [List.map_nil, List.nil_append, List.map_nil, List.append_nil]
        have h44 : ¬ rlen + (c.take (4 - rlen)).length < 4 := by rw [List.length_nil] at hl; omega
        cases tail with
        | nil => rw [reads, if_neg h44]
        | cons x tail => cases x <;> rw [reads, if_neg h44]
    · rw [if_neg hr]
      have : bs = [] := List.eq_nil_of_length_eq_zero (by omega)
      rw [this]
      simp

theorem decide4_some (t : Option (List (Nat × Nat))) (bs : Str) : decide4 t (bs.map some) = .ok (look t (word bs)) := by
  unfold decide4
  rw [if_neg (by simp)]
  congr 3
  induction bs with
  | nil => rfl
  | cons a l ih => simp [ih]

theorem look_not_wait (t : Option (List (Nat × Nat))) (c k : Nat) : look t c ≠ .wait k := by
  unfold look
  split
  · simp
  · split <;> simp

/-- **C143.**  The handler of the command that was sent is run, in whatever pieces its four bytes come.  Partial: they must all be there in the first call;
see `C143_split_violated`. -/
theorem C143_command_partial (t : Option (List (Nat × Nat))) (a b c d : Nat) (chunks : List Str) (rest : Str) (hc : ∀ x ∈ chunks, x ≠ [])
    (h : chunks.flatten = [a, b, c, d] ++ rest) (tail : List Rd) (more : List (List Rd)) :
    controls t 0 ((chunks.map .data ++ tail) :: more) = .ok (look t (((a * 256 + b) * 256 + c) * 256 + d)) := by
  have e : control t 0 (chunks.map .data ++ tail) = .ok (look t (((a * 256 + b) * 256 + c) * 256 + d)) := by
    unfold control
    rcases reads_fill t chunks 0 (List.replicate 0 none) [a, b, c, d] tail hc rfl rfl (by rw [h]; exact ⟨rest, rfl⟩) with h1 | ⟨h1, _⟩
    · rw [h1, List.replicate_zero, List.nil_append, decide4_some]
      simp [word]
    · cases h1
  rw [controls, e]
  cases hk : look t (((a * 256 + b) * 256 + c) * 256 + d) with
  | wait k => exact absurd hk (look_not_wait _ _ _)
  | close => rfl
  | run x y => rfl

example : controls (registered [(0x47455420, 5), (0x504f5354, 6)]) 0 [[.data [0x47, 0x45], .data [0x54, 0x20, 47]]] = .ok (.run 0x47455420 5) := by decide +kernel

/-- **C143 (end).**  A connection that ends before its command is complete is closed. -/
theorem C143_end (t : Option (List (Nat × Nat))) (bs : Str) (h : bs.length < 4) (hb : bs ≠ []) :
    controls t 0 [[.data bs, .stop]] = .ok .close ∧ controls t 0 [[.stop]] = .ok .close := by
  refine ⟨?_, rfl⟩
  have e : control t 0 [.data bs, .stop] = .ok .close := by
    unfold control
    rw [reads, if_pos (by omega)]
    dsimp only
    rw [List.take_of_length_le (by omega), if_neg hb, reads, if_pos (by omega)]
  rw [controls, e]

/-- **C143 (commands in two parts).**  If the four bytes are not all there in the first call, then what is looked for is not what was sent: the bytes of the
earlier call are lost, and others, which were never written, are used instead. -/
theorem C143_split_violated (t : Option (List (Nat × Nat))) (x y rest : Str) (hx : x ≠ []) (hy : y ≠ []) (h : x.length + y.length = 4) :
    controls t 0 [[.data x, .again], [.data (y ++ rest)]] = .ub := by
  have hxl : 0 < x.length := List.length_pos_iff.2 hx
  have hyl : 0 < y.length := List.length_pos_iff.2 hy
  have e1 : control t 0 [.data x, .again] = .ok (.wait x.length) := by
    unfold control
    rw [reads, if_pos (by omega)]
    dsimp only
    rw [List.take_of_length_le (by omega), if_neg hx, reads, if_pos (by omega), Nat.zero_add]
  have e2 : control t x.length [.data (y ++ rest)] = .ub := by
    unfold control
    have ht : (y ++ rest).take (4 - x.length) = y := by
      rw [List.take_append_of_le_length (by omega), List.take_of_length_le (by omega)]
    rw [reads, if_pos (by omega)]
    dsimp only
    rw [ht, if_neg hy, reads, if_neg (by omega), decide4, if_pos]
    apply List.mem_append_left
    rw [List.mem_replicate]
    exact ⟨by omega, rfl⟩
  rw [controls, e1]
  dsimp only
  rw [controls, e2]

/-! ## C144 -/

/-- What kind of file a mode says: 12 is a socket, 8 a regular file, 4 a directory, 10 a link, 6 and 2 devices, 1 a pipe. -/
def kind (m : Nat) : Nat := m / 4096 % 16

theorem land_sock (m : Nat) : m &&& ifsock = 0 ↔ kind m % 16 / 4 = 0 := by
  have e : m &&& ifsock = (m / 16384 % 4) * 16384 := by
    apply Nat.eq_of_testBit_eq
    intro i
    have h1 : ifsock = 3 * 2 ^ 14 := by decide
    rw [Nat.testBit_and, h1, show (16384 : Nat) = 2 ^ 14 by decide, Nat.testBit_mul_two_pow, Nat.testBit_mul_two_pow]
    by_cases hi : 14 ≤ i
    · rw [show (4 : Nat) = 2 ^ 2 by decide, Nat.testBit_mod_two_pow, Nat.testBit_div_two_pow]
      have e3 : Nat.testBit 3 (i - 14) = decide (i - 14 < 2) := by
        rw [show (3 : Nat) = 2 ^ 2 - 1 by decide, Nat.testBit_two_pow_sub_one]
      rw [e3, Nat.sub_add_cancel hi]
      simp [hi, Bool.and_comm]
    · simp [hi]
  rw [e]
  unfold kind
  omega

theorem listen_cases (p4 p6 : Str → Option Nat) (y : Sys) (host : Str) (port : Nat) :
    listen p4 p6 y host port = { at_ := none } ∨ ∃ b, family p4 p6 host port = some b ∧ listen p4 p6 y host port = place y b := by
  unfold listen
  cases hf : family p4 p6 host port with
  | none => exact .inl rfl
  | some b =>
    dsimp only
    by_cases h1 : y.socket = false
    · rw [if_pos h1]; exact .inl rfl
    · rw [if_neg h1]
      by_cases h2 : y.nonblock = false
      · rw [if_pos h2]; exact .inl rfl
      · rw [if_neg h2]
        by_cases h3 : y.reuse = false
        · rw [if_pos h3]; exact .inl rfl
        · rw [if_neg h3]; exact .inr ⟨b, rfl, rfl⟩

theorem finish_un (y : Sys) (a : Addr) (u : Option Str) : (finish y a u).unlinked = u := by
  unfold finish; repeat' split
  all_goals rfl

theorem finish_at (y : Sys) (a : Addr) (u : Option Str) (c : Addr) (h : (finish y a u).at_ = some c) : c = a := by
  unfold finish at h
  repeat' split at h
  all_goals simp_all

theorem finish_fd (y : Sys) (a : Addr) (u : Option Str) (h : (finish y a u).at_ = none) : (finish y a u).fdOpen = false := by
  unfold finish at *
  by_cases h1 : y.bind = false
  · rw [if_pos h1]
  · rw [if_neg h1] at *
    by_cases h2 : y.listen = false
    · rw [if_pos h2]
    · rw [if_neg h2] at h; cases h

/-- **C144 (where).**  A listener that was started listens on the address it was given.  Partial: a path may have at most 107 bytes; see
`C144_path_violated`. -/
theorem C144_address_partial (p4 p6 : Str → Option Nat) (y : Sys) (host : Str) (port : Nat) (hl : host.head? = some 47 → host.length ≤ 107) (a : Addr)
    (h : (listen p4 p6 y host port).at_ = some a) :
    (host.head? = some 47 ∧ a = .unix host) ∨
    (host.head? ≠ some 47 ∧ ((∃ x, p4 host = some x ∧ a = .v4 x port) ∨ (p4 host = none ∧ ∃ x, p6 host = some x ∧ a = .v6 x port) ∨
      ((host = bytesOf "*" ∨ host = bytesOf "inet:*") ∧ a = .v4 0 port) ∨ (host = bytesOf "inet6:*" ∧ a = .v6 0 port))) := by
  rcases listen_cases p4 p6 y host port with h0 | ⟨b, hf, h0⟩
  · rw [h0] at h; cases h
  · rw [h0] at h
    have hb : a = (match b with | .unix path => .unix (path.take 107) | b => b) := by
      cases b with
      | unix q =>
        unfold place at h
        cases hs : y.stat with
        | fail => simp [hs] at h
        | nothing => simp only [hs] at h; exact finish_at _ _ _ _ h
        | mode m =>
          simp only [hs] at h
          split at h
          · cases h
          · exact finish_at _ _ _ _ h
      | v4 x q => exact finish_at _ _ _ _ h
      | v6 x q => exact finish_at _ _ _ _ h
    unfold family at hf
    by_cases h47 : host.head? = some 47
    · left
      rw [if_pos h47] at hf
      obtain rfl : Addr.unix host = b := Option.some.inj hf
      refine ⟨h47, ?_⟩
      rw [hb]
      show Addr.unix (host.take 107) = _
      rw [List.take_of_length_le (hl h47)]
    · right
      rw [if_neg h47] at hf
      refine ⟨h47, ?_⟩
      cases h4 : p4 host with
      | some x =>
        rw [h4] at hf
        obtain rfl := Option.some.inj hf
        exact .inl ⟨x, rfl, hb⟩
      | none =>
        rw [h4] at hf
        cases h6 : p6 host with
        | some x =>
          rw [h6] at hf
          obtain rfl := Option.some.inj hf
          exact .inr (.inl ⟨rfl, x, rfl, hb⟩)
        | none =>
          rw [h6] at hf
          dsimp only at hf
          by_cases hs : host = bytesOf "*" ∨ host = bytesOf "inet:*"
          · rw [if_pos hs] at hf
            obtain rfl := Option.some.inj hf
            exact .inr (.inr (.inl ⟨hs, hb⟩))
          · rw [if_neg hs] at hf
            by_cases hs6 : host = bytesOf "inet6:*"
            · rw [if_pos hs6] at hf
              obtain rfl := Option.some.inj hf
              exact .inr (.inr (.inr ⟨hs6, hb⟩))
            · rw [if_neg hs6] at hf
              cases hf

/-- **C144 (started).**  If no call of the system fails and a path names nothing or an old socket, then the listener is started, with its socket open. -/
theorem C144_starts (p4 p6 : Str → Option Nat) (y : Sys) (host : Str) (port : Nat) (h1 : y.socket = true) (h2 : y.nonblock = true) (h3 : y.reuse = true)
    (h4 : y.bind = true) (h5 : y.listen = true)
    (hh : (host.head? = some 47 ∧ (y.stat = .nothing ∨ ∃ m, y.stat = .mode m ∧ kind m = 12)) ∨
      (host.head? ≠ some 47 ∧ ((p4 host).isSome ∨ (p6 host).isSome ∨ host = bytesOf "*" ∨ host = bytesOf "inet:*" ∨ host = bytesOf "inet6:*"))) :
    (listen p4 p6 y host port).at_.isSome ∧ (listen p4 p6 y host port).fdOpen = true := by
  unfold listen
  rcases hh with ⟨ha, hs⟩ | ⟨ha, hs⟩
  · have hf : family p4 p6 host port = some (.unix host) := by unfold family; rw [if_pos ha]
    rw [hf]
    rcases hs with hs | ⟨m, hs, hm⟩
    · simp [place, finish, h1, h2, h3, h4, h5, hs]
    · have : ¬ m &&& ifsock = 0 := by rw [land_sock, hm]; decide
      simp [place, finish, h1, h2, h3, h4, h5, hs, this]
  · have hf : ∃ b, family p4 p6 host port = some b ∧ ∀ q, b ≠ .unix q := by
      unfold family
      rw [if_neg ha]
      cases e4 : p4 host with
      | some x => exact ⟨_, rfl, by simp⟩
      | none =>
        cases e6 : p6 host with
        | some x => exact ⟨_, rfl, by simp⟩
        | none =>
          dsimp only
          by_cases hx : host = bytesOf "*" ∨ host = bytesOf "inet:*"
          · rw [if_pos hx]; exact ⟨_, rfl, by simp⟩
          · rw [if_neg hx]
            by_cases hx6 : host = bytesOf "inet6:*"
            · rw [if_pos hx6]; exact ⟨_, rfl, by simp⟩
            · exfalso
              rw [e4, e6] at hs
              simp only [Option.isSome_none, Bool.false_eq_true, false_or] at hs
              rcases hs with h | h | h
              · exact hx (.inl h)
              · exact hx (.inr h)
              · exact hx6 h
    obtain ⟨b, hb, hq⟩ := hf
    rw [hb]
    cases b with
    | unix q => exact absurd rfl (hq q)
    | v4 x p => simp [place, finish, h1, h2, h3, h4, h5]
    | v6 x p => simp [place, finish, h1, h2, h3, h4, h5]

/-- **C144 (success).**  A listener that counts as started is: the socket was made, bound and listens, and is open. -/
theorem C144_success (p4 p6 : Str → Option Nat) (y : Sys) (host : Str) (port : Nat) (h : (listen p4 p6 y host port).at_ ≠ none) :
    y.socket = true ∧ y.bind = true ∧ y.listen = true ∧ (listen p4 p6 y host port).fdOpen = true := by
  have fin : ∀ a u, (finish y a u).at_ ≠ none → y.bind = true ∧ y.listen = true ∧ (finish y a u).fdOpen = true := by
    intro a u hf
    cases hb : y.bind with
    | false => simp [finish, hb] at hf
    | true =>
      cases hl : y.listen with
      | false => simp [finish, hb, hl] at hf
      | true => simp [finish, hb, hl]
  have pl : ∀ b, (place y b).at_ ≠ none → y.bind = true ∧ y.listen = true ∧ (place y b).fdOpen = true := by
    intro b hf
    cases b with
    | unix q =>
      cases hs : y.stat with
      | fail => simp [place, hs] at hf
      | nothing => simp only [place, hs] at hf ⊢; exact fin _ _ hf
      | mode m =>
        by_cases hm : m &&& ifsock = 0
        · simp [place, hs, hm] at hf
        · simp only [place, hs, hm, if_false] at hf ⊢; exact fin _ _ hf
    | v4 x q => exact fin _ _ hf
    | v6 x q => exact fin _ _ hf
  cases hfa : family p4 p6 host port with
  | none => simp [listen, hfa] at h
  | some b =>
    cases hsk : y.socket with
    | false => simp [listen, hfa, hsk] at h
    | true =>
      cases hnb : y.nonblock with
      | false => simp [listen, hfa, hsk, hnb] at h
      | true =>
        cases hre : y.reuse with
        | false => simp [listen, hfa, hsk, hnb, hre] at h
        | true =>
          have e : listen p4 p6 y host port = place y b := by simp [listen, hfa, hsk, hnb, hre]
          rw [e] at h ⊢
          exact ⟨rfl, pl b h⟩

/-- **C144 (failure).**  When it is not started, its socket is closed. -/
theorem C144_closed (p4 p6 : Str → Option Nat) (y : Sys) (host : Str) (port : Nat) (h : (listen p4 p6 y host port).at_ = none) :
    (listen p4 p6 y host port).fdOpen = false := by
  rcases listen_cases p4 p6 y host port with h0 | ⟨b, _, h0⟩
  · rw [h0]
  · rw [h0] at h ⊢
    cases b with
    | unix q =>
      unfold place at *
      cases hs : y.stat with
      | fail => rfl
      | nothing => simp only [hs] at *; exact finish_fd _ _ _ h
      | mode m =>
        simp only [hs] at *
        by_cases hm : m &&& ifsock = 0
        · rw [if_pos hm]
        · rw [if_neg hm] at *; exact finish_fd _ _ _ h
    | v4 x q => exact finish_fd _ _ _ h
    | v6 x q => exact finish_fd _ _ _ h

/-- **C144 (what is removed).**  Nothing is removed but the path that is listened on, and not if it is a pipe or a character device.  Partial: see
`C144_removed_violated`. -/
theorem C144_kept_partial (p4 p6 : Str → Option Nat) (y : Sys) (host : Str) (port : Nat) (p : Str)
    (h : (listen p4 p6 y host port).unlinked = some p) :
    p = host ∧ host.head? = some 47 ∧ ∃ m, y.stat = .mode m ∧ kind m ≠ 1 ∧ kind m ≠ 2 := by
  rcases listen_cases p4 p6 y host port with h0 | ⟨b, hf, h0⟩
  · rw [h0] at h; cases h
  · rw [h0] at h
    have hb : ∃ q m, b = .unix q ∧ y.stat = .mode m ∧ m &&& ifsock ≠ 0 ∧ p = q := by
      cases b with
      | unix q =>
        unfold place at h
        cases hs : y.stat with
        | fail => simp [hs] at h
        | nothing => simp only [hs] at h; rw [finish_un] at h; cases h
        | mode m =>
          simp only [hs] at h
          by_cases hm : m &&& ifsock = 0
          · rw [if_pos hm] at h; cases h
          · rw [if_neg hm, finish_un] at h
            exact ⟨q, m, rfl, rfl, hm, (Option.some.inj h).symm⟩
      | v4 x q => exact absurd ((finish_un _ _ _).symm.trans h) (by simp)
      | v6 x q => exact absurd ((finish_un _ _ _).symm.trans h) (by simp)
    obtain ⟨q, m, rfl, hs, hm, rfl⟩ := hb
    have h47 : host.head? = some 47 ∧ p = host := by
      unfold family at hf
      by_cases h47 : host.head? = some 47
      · rw [if_pos h47] at hf
        exact ⟨h47, by simpa using hf.symm⟩
      · rw [if_neg h47] at hf
        repeat' split at hf
        all_goals simp at hf
    refine ⟨h47.2, h47.1, m, hs, ?_, ?_⟩ <;> (intro hk; apply hm; rw [land_sock, hk])

/-- **C144 (regular files).**  A regular file at the path is removed. -/
theorem C144_removed_violated (p4 p6 : Str → Option Nat) (host : Str) (port perm : Nat) (hh : host.head? = some 47) (hp : perm < 4096) :
    kind (8 * 4096 + perm) = 8 ∧
    (listen p4 p6 ⟨true, true, true, .mode (8 * 4096 + perm), true, true⟩ host port).unlinked = some host := by
  have hk : kind (8 * 4096 + perm) = 8 := by unfold kind; omega
  refine ⟨hk, ?_⟩
  have hf : family p4 p6 host port = some (.unix host) := by unfold family; rw [if_pos hh]
  have : ¬ (8 * 4096 + perm) &&& ifsock = 0 := by rw [land_sock, hk]; decide
  simp [listen, place, finish, hf, this]

/-- **C144 (long paths).**  A path of more than 107 bytes is cut: something else is listened on, and it counts as success. -/
theorem C144_path_violated (p4 p6 : Str → Option Nat) (host : Str) (port : Nat) (hh : host.head? = some 47) (hl : 107 < host.length) :
    ∃ q, (listen p4 p6 ⟨true, true, true, .nothing, true, true⟩ host port).at_ = some (.unix q) ∧ q ≠ host := by
  have hf : family p4 p6 host port = some (.unix host) := by unfold family; rw [if_pos hh]
  refine ⟨host.take 107, by simp [listen, place, finish, hf], ?_⟩
  intro h
  have := congrArg List.length h
  rw [List.length_take] at this
  omega

example : listen (fun _ => none) (fun _ => none) ⟨true, true, true, .mode 0o140755, true, true⟩ (bytesOf "/tmp/x.sock") 0 =
    { at_ := some (.unix (bytesOf "/tmp/x.sock")), unlinked := some (bytesOf "/tmp/x.sock"), fdOpen := true } := by decide +kernel

/-! ## C145 -/

/-- **C145.**  A listener is started exactly if it has a type with a handler, it has a port from 1 to 65535 or its address is a path, its environment does not
turn it off, and nobody asked to skip its port, for this address or all. -/
theorem C145_started (skips : List (Option Str × Int)) (z : Stanza) (hp : ∀ i, z.port = some i → -2 ^ 31 ≤ i ∧ i < 2 ^ 31) (h47 : ∀ a, z.address = some a → a.head? ≠ some 47) :
    (reconfig skips z).isSome ↔
      z.type ≠ none ∧ z.handler = true ∧ (∃ i, z.port = some i ∧ 1 ≤ i ∧ i ≤ 65535 ∧
        ∀ e ∈ skips, e.2 = i → e.1 ≠ none ∧ e.1 ≠ some (z.address.getD (bytesOf "*"))) ∧ z.envOff = false := by
  have hstar : (bytesOf "*").head? ≠ some 47 := by decide +kernel
  have haddr : (z.address.getD (bytesOf "*")).head? ≠ some 47 := by
    cases h : z.address with
    | none => exact hstar
    | some a => exact h47 a h
  unfold reconfig
  by_cases h1 : z.type = none
  · simp [h1]
  by_cases h2 : z.handler = false
  · simp [h1, h2]
  simp only [h1, h2, if_false]
  have hport : (z.address.getD (bytesOf "*")).head? ≠ some 47 ∧ (z.port.getD 0 = 0 ∨ (((z.port.getD 0 % 65536).toNat : Nat) : Int) ≠ z.port.getD 0) ↔
      ¬ ∃ i, z.port = some i ∧ 1 ≤ i ∧ i ≤ 65535 := by
    cases h : z.port with
    | none => simp [haddr]
    | some i =>
      have := hp i h
      simp only [Option.getD_some, Option.some.injEq, exists_eq_left']
      constructor
      · rintro ⟨_, h⟩; omega
      · intro h; exact ⟨haddr, by omega⟩
  by_cases hc : ∃ i, z.port = some i ∧ 1 ≤ i ∧ i ≤ 65535
  · have hn : ¬ ((z.address.getD (bytesOf "*")).head? ≠ some 47 ∧ (z.port.getD 0 = 0 ∨ (((z.port.getD 0 % 65536).toNat : Nat) : Int) ≠ z.port.getD 0)) := by
      rw [hport]; exact fun h => h hc
    rw [if_neg hn]
    obtain ⟨i, hi, hi1, hi2⟩ := hc
    have hi3 : (((z.port.getD 0 % 65536).toNat : Nat) : Int) = i := by rw [hi, Option.getD_some]; omega
    rw [hi3]
    have hsk : shouldSkip skips (z.address.getD (bytesOf "*")) i = true ↔ ¬ ∀ e ∈ skips, e.2 = i → e.1 ≠ none ∧ e.1 ≠ some (z.address.getD (bytesOf "*")) := by
      unfold shouldSkip
      rw [List.any_eq_true]
      constructor
      · rintro ⟨e, he, h⟩ hall
        simp only [Bool.and_eq_true, Bool.or_eq_true, decide_eq_true_eq] at h
        have := hall e he h.1
        rcases h.2 with h | h
        · exact this.1 h
        · exact this.2 h
      · intro h
        by_contra hne
        apply h
        intro e he h2
        constructor
        · intro h3; exact hne ⟨e, he, by simp [h2, h3]⟩
        · intro h3; exact hne ⟨e, he, by simp [h2, h3]⟩
    cases hE : z.envOff with
    | true => simp
    | false =>
      simp only [Bool.false_eq_true, if_false]
      by_cases hS : shouldSkip skips (z.address.getD (bytesOf "*")) i = true
      · rw [if_pos hS]
        refine ⟨fun h => (by cases h), ?_⟩
        rintro ⟨_, _, ⟨j, hj, _, _, hall⟩, _⟩
        rw [hi] at hj
        obtain rfl := Option.some.inj hj
        exact absurd hall (hsk.1 hS)
      · rw [if_neg hS]
        refine ⟨fun _ => ?_, fun _ => rfl⟩
        refine ⟨h1, by simpa using h2, ⟨i, hi, hi1, hi2, ?_⟩, trivial⟩
        by_contra hall
        exact hS (hsk.2 hall)
  · rw [if_pos (hport.2 hc)]
    refine ⟨fun h => (by cases h), ?_⟩
    rintro ⟨_, _, ⟨i, h1, h2, h3, _⟩, _⟩
    exact absurd ⟨i, h1, h2, h3⟩ hc

/-- **C145 (as configured).**  It is started with the address, the port and TLS as they are configured.  Partial: for TLS there must be an `sslconfig`; see
`C145_tls_violated`. -/
theorem C145_settings_partial (skips : List (Option Str × Int)) (z : Stanza) (a : Str) (p : Nat) (tls : Bool) (h : reconfig skips z = some (a, p, tls))
    (h47 : a.head? ≠ some 47) (hs : z.ssl = true → z.sslconfig ≠ []) :
    a = z.address.getD (bytesOf "*") ∧ z.port = some (p : Int) ∧ tls = z.ssl := by
  unfold reconfig at h
  by_cases h1 : z.type = none
  · simp [h1] at h
  by_cases h2 : z.handler = false
  · simp [h1, h2] at h
  rw [if_neg h1, if_neg h2] at h
  dsimp only at h
  by_cases hp : (z.address.getD (bytesOf "*")).head? ≠ some 47 ∧ (z.port.getD 0 = 0 ∨ (((z.port.getD 0 % 65536).toNat : Nat) : Int) ≠ z.port.getD 0)
  · rw [if_pos hp] at h; cases h
  · rw [if_neg hp] at h
    by_cases hE : z.envOff = true
    · rw [if_pos hE] at h; cases h
    · rw [if_neg hE] at h
      by_cases hS : shouldSkip skips (z.address.getD (bytesOf "*")) ((z.port.getD 0 % 65536).toNat : Nat) = true
      · rw [if_pos hS] at h; cases h
      · rw [if_neg hS] at h
        have g1 := Prod.mk.inj (Option.some.inj h)
        have g2 := Prod.mk.inj g1.2
        obtain rfl := g1.1
        obtain rfl := g2.1
        obtain rfl := g2.2
        refine ⟨rfl, ?_, ?_⟩
        · cases hz : z.port with
          | none => exfalso; exact hp ⟨h47, .inl (by rw [hz]; rfl)⟩
          | some i =>
            rw [hz] at hp
            simp only [Option.getD_some] at hp ⊢
            congr 1
            by_contra hne
            exact hp ⟨h47, .inr fun h => hne h.symm⟩
        · cases hz : z.ssl with
          | false => rfl
          | true => simpa using hs hz

example : reconfig (skip [] (some (bytesOf "127.0.0.1")) 80) ⟨some (bytesOf "control_dispatch"), true, none, some 443, false, true, [(bytesOf "key_file", bytesOf "k")]⟩ =
    some (bytesOf "*", 443, true) := by decide +kernel

/-- **C145 (TLS without settings).**  A listener with `ssl="on"` for which there is no `sslconfig` is started, and talks in the clear. -/
theorem C145_tls_violated : reconfig [] ⟨some (bytesOf "control_dispatch"), true, none, some 443, false, true, []⟩ = some (bytesOf "*", 443, false) := by decide +kernel

/-! ## C146 -/

/-- **C146.**  The text of an address is written, if there is room for it.  Partial: that of an IPv6 address only up to 27 bytes; see `C146_long_violated`. -/
theorem C146_text_partial (t : Str) (blen : Nat) (h : t.length < blen) :
    (t.length ≤ 15 → convert blen (some (.v4 t)) = t) ∧ (t.length ≤ 27 → convert blen (some (.v6 t)) = t) ∧
    (t.length ≤ 107 → convert blen (some (.unix t)) = t) := by
  refine ⟨fun h1 => ?_, fun h1 => ?_, fun h1 => ?_⟩ <;> simp only [convert, ntop]
  · rw [if_pos (by omega), List.take_of_length_le (by omega)]
  · rw [if_pos (by omega), List.take_of_length_le (by omega)]
  · rw [List.take_of_length_le (l := t) (by omega), List.take_of_length_le (by omega)]

/-- **C146 (room).**  Never more than the buffer holds is written. -/
theorem C146_room (blen : Nat) (h : 0 < blen) (p : Option Peer) : (convert blen p).length < blen := by
  cases p with
  | none => simpa [convert] using h
  | some p =>
    cases p <;> simp only [convert, List.length_take, List.length_nil] <;> omega

/-- **C146 (long addresses).**  The text of an IPv6 address of 28 bytes or more is not written at all: the answer is empty. -/
theorem C146_long_violated (t : Str) (blen : Nat) (h : 28 ≤ t.length) : convert blen (some (.v6 t)) = [] := by
  simp only [convert, ntop]
  rw [if_neg (by omega), List.take_nil]

/-- such addresses are usual -/
example : 28 ≤ (bytesOf "2001:db8:85a3:8d3:1319:8a2e:370:7348").length := by decide +kernel

end Mtev.Listen
