import Verif.WatchMan
import Mathlib.Algebra.Order.Ring.Rat
import Mathlib.Algebra.Order.Field.Basic
import Mathlib.Tactic.Positivity
import Mathlib.Tactic.FieldSimp
import Mathlib.Tactic.NormNum
import Mathlib.Tactic.Linarith

/-!
# C99: sidecar applications are kept running, one instance each

`docs-md/config/managed.md`: applications "will be started when running in managed
mode and restarted upon failure.  If the application exits normally with an exit
code of 0, it is restarted immediately.  In all other cases, an exponential backoff
is used".
-/

namespace Mtev.WatchMan

/-- process `p` was started for application `i` and has not ended -/
def Instance (s : S) (i p : Nat) : Prop := (s.procs p).alive = true ∧ s.owner p = i

instance (s : S) (i p : Nat) : Decidable (Instance s i p) := by unfold Instance; infer_instance

/-! ### one instance -/

/-- **C99 (one instance).** Whatever happens to the applications and whenever the
monitor looks: there are never two instances of one application.  Partial: nobody
stops an application (see `C99_stopped_violated`). -/
theorem C99_one_partial {n t : Nat} {es : List Ev} {s : S} (hr : runs (init n t) es = some s)
    (hc : ∀ e ∈ es, e.calm = true) {i p q : Nat} (hp : Instance s i p) (hq : Instance s i q) :
    p = q := by
  have h := Known.runs es (Known.init n t) hc hr
  obtain ⟨m, h1, h2⟩ := h.proc p (Or.inl hp.1)
  obtain ⟨m', h3, h4⟩ := h.proc q (Or.inl hq.1)
  rw [hp.2] at h1
  rw [hq.2, h1] at h3
  cases h3
  omega

/-- all forks succeed -/
def yes : Nat → Bool := fun _ => true

/-- an application crashes, is waited for, and is started again later -/
def crashRun : List Ev :=
  [.alarm yes, .ready 1, .ready 2, .ends 1 (.killed 11), .wait 1 yes, .tick 300000, .alarm yes, .ready 3]

example : (runs (init 2 1000000) crashRun).map
    (fun s => [decide (Instance s 0 1), decide (Instance s 0 3), decide (Instance s 1 2)]) = some [false, true, true] := by
  decide +kernel

/-- **C99 (a stopped application).** An application that is stopped (`SIGSTOP`, or
`SIGTSTP`) is taken for one that ended: another instance is started, and when the
first one goes on there are two. -/
theorem C99_stopped_violated :
    ∃ es s, runs (init 1 1000000) es = some s ∧ s.procs 1 = .running ∧ s.procs 2 = .running ∧
      s.owner 1 = 0 ∧ s.owner 2 = 0 := by
  refine ⟨[.alarm yes, .ready 1, .stop 1 19, .wait 1 yes, .tick 300000, .alarm yes, .ready 2, .cont 1], _, rfl, ?_⟩
  decide +kernel

/-! ### coming back -/

/-- no process of application `i` is left to wait for -/
def Down (s : S) (i : Nat) : Prop :=
  ∀ p, s.owner p = i → s.procs p = .unborn ∨ s.procs p = .gone

theorem init_apps (n t : Nat) : (init n t).apps.length = n := by simp [init]

theorem turn_apps_length_step {s s' : S} {e : Ev} (hs : step s e = some s') :
    s'.apps.length = s.apps.length := by
  unfold step at hs
  split at hs
  · cases hs
  · cases e with
    | tick d => cases hs; rfl
    | ready p => simp only at hs; split at hs <;> cases hs; rfl
    | ends p st => cases st <;> simp only at hs <;> (try split at hs) <;> cases hs <;> rfl
    | stop p sig => simp only at hs; split at hs <;> cases hs; rfl
    | cont p => simp only at hs; split at hs <;> cases hs; rfl
    | alarm ok => cases hs; exact sweep_length _ _ _ _ _
    | wait p ok =>
      simp only at hs
      split at hs
      · cases hs
        simp only [process, sweep_length, forget_length]
      · cases hs
    | exit => cases hs; rfl

theorem runs_length : ∀ (es : List Ev) {s s' : S}, runs s es = some s' → s'.apps.length = s.apps.length
  | [], s, s', h => by cases h; rfl
  | e :: es, s, s', h => by
    unfold runs at h
    cases he : step s e with
    | none => rw [he] at h; cases h
    | some s1 =>
      rw [he] at h
      rw [runs_length es h, turn_apps_length_step he]

/-- if application `i` is started in a sweep there is an instance afterwards -/
theorem sweep_instance {w : Bool} {ok : Nat → Bool} {i : Nat} {s : S} {m : App} (h : Known s)
    (hm : s.apps[i]? = some m) (h0 : m.pid = 0) (hok : ok i = true)
    (hgo : w = true ∨ m.lastStart + delay m.attempts ≤ s.now) :
    ∃ p, (sweep w ok 0 s.apps.length s).procs p = .starting ∧ (sweep w ok 0 s.apps.length s).owner p = i := by
  have hlt : i < s.apps.length := by
    rcases List.getElem?_eq_some_iff.mp hm with ⟨h1, _⟩; exact h1
  -- follow the loop: once started, the process stays as it is
  have keep : ∀ (n k : Nat) (s' : S) (p : Nat), p < s'.next → s'.procs p = .starting → s'.owner p = i →
      (sweep w ok k n s').procs p = .starting ∧ (sweep w ok k n s').owner p = i := by
    intro n
    induction n with
    | zero => intro k s' p _ h1 h2; exact ⟨h1, h2⟩
    | succ n ih =>
      intro k s' p hp h1 h2
      rw [sweep_succ]
      have h3 : p < (turn w ok k s').next ∧ (turn w ok k s').procs p = .starting ∧
          (turn w ok k s').owner p = i := by
        rcases turn_cases w ok k s' with e | e <;> rw [e]
        · exact ⟨hp, h1, h2⟩
        · unfold launch
          split
          · exact ⟨hp, h1, h2⟩
          · simp only
            generalize (if w = true then _ else _ : App) = m1
            split
            · split
              · split
                · simp only
                  rw [put_other _ _ _ _ (by omega), put_other _ _ _ _ (by omega)]
                  exact ⟨by omega, h1, h2⟩
                · exact ⟨hp, h1, h2⟩
              · exact ⟨hp, h1, h2⟩
            · exact ⟨hp, h1, h2⟩
      exact ih _ _ _ h3.1 h3.2.1 h3.2.2
  have go : ∀ (n k : Nat) (s' : S), k ≤ i → i < k + n → s'.apps[i]? = some m → s'.now = s.now →
      ∃ p, (sweep w ok k n s').procs p = .starting ∧ (sweep w ok k n s').owner p = i := by
    intro n
    induction n with
    | zero => intro k s' _ _; omega
    | succ n ih =>
      intro k s' h1 h2 ha hn
      rw [sweep_succ]
      by_cases e : i = k
      · subst e
        have hlt' : i < s'.apps.length := by
          rcases List.getElem?_eq_some_iff.mp ha with ⟨h1, _⟩; exact h1
        have ht : (turn w ok i s').procs s'.next = .starting ∧ (turn w ok i s').owner s'.next = i ∧
            s'.next < (turn w ok i s').next := by
          unfold turn launch
          rw [ha]
          simp only [if_pos h0, hok, if_true]
          have hcases : (if w = true then { m with attempts := 0 } else m : App).pid = 0 := by
            split <;> exact h0
          rw [if_pos hcases]
          rw [if_pos (by
            rcases hgo with h | h
            · exact Or.inl h
            · cases w
              · exact Or.inr (by rw [hn]; simpa using h)
              · exact Or.inl rfl)]
          simp
        obtain ⟨a, b, c⟩ := ht
        exact ⟨s'.next, keep n (i + 1) _ _ c a b⟩
      · exact ih (k + 1) _ (by omega) (by omega) (by rw [turn_other _ _ _ _ _ e]; exact ha)
          (by rw [turn_now, hn])
  exact go s.apps.length 0 s (Nat.zero_le _) (by omega) hm rfl

theorem lastTime_mem : ∀ (l : List Start) {i t : Nat}, lastTime i l = some t → ∃ e ∈ l, e.app = i ∧ e.time = t
  | [], i, t, h => by simp [lastTime] at h
  | e :: r, i, t, h => by
    unfold lastTime at h
    split at h
    · rename_i he
      cases h
      exact ⟨e, by simp, he, rfl⟩
    · obtain ⟨x, h1, h2⟩ := lastTime_mem r h
      exact ⟨x, by simp [h1], h2⟩

/-- **C99 (it comes back).** An application of which nothing is left, and which was
not started within the last six seconds, is started when the monitor looks next, if
`fork` succeeds.  Partial: nobody stops an application. -/
theorem C99_back_partial {n t : Nat} {es : List Ev} {s : S} (hr : runs (init n t) es = some s)
    (hc : ∀ e ∈ es, e.calm = true) {i : Nat} (hi : i < n) (hd : Down s i) (ht : 6000000 ≤ s.now)
    (hl : ∀ e ∈ s.log, e.app = i → e.time + 6000000 ≤ s.now) {ok : Nat → Bool} (hok : ok i = true)
    {s' : S} (hs : step s (.alarm ok) = some s') : ∃ p, Instance s' i p := by
  have h := Known.runs es (Known.init n t) hc hr
  have hg := Logged.runs es (Logged.init n t) hr
  have hlen : s.apps.length = n := by rw [runs_length es hr, init_apps]
  obtain ⟨m, hm⟩ : ∃ m, s.apps[i]? = some m := ⟨_, List.getElem?_eq_getElem (by omega)⟩
  have h0 : m.pid = 0 := by
    by_contra hne
    obtain ⟨_, h2, h3⟩ := h.app i m hm hne
    have := hd m.pid h2
    rcases this with e | e <;> rw [e] at h3 <;> simp at h3
  have hgo : m.lastStart + delay m.attempts ≤ s.now := by
    have h1 := delay_le m.attempts
    obtain ⟨_, h2⟩ := hg.at_ i m hm
    cases hlt : lastTime i s.log with
    | none => rw [hlt] at h2; simp at h2; omega
    | some u =>
      rw [hlt] at h2
      simp at h2
      obtain ⟨e, he, ha, hb⟩ := lastTime_mem _ hlt
      have := hl e he ha
      omega
  unfold step at hs
  split at hs
  · cases hs
  · cases hs
    obtain ⟨p, h1, h2⟩ := sweep_instance (w := false) h hm h0 hok (Or.inr hgo)
    exact ⟨p, by unfold Instance process; rw [h1, h2]; exact ⟨rfl, rfl⟩⟩

/-- **C99 (a clean exit).** When the monitor learns that an application ended with
exit code 0 it starts it again at once, whenever it was started before, if `fork`
succeeds.  Partial: nobody stops an application. -/
theorem C99_clean_partial {n t : Nat} {es : List Ev} {s : S} (hr : runs (init n t) es = some s)
    (hc : ∀ e ∈ es, e.calm = true) {p : Nat} (hz : s.procs p = .zombie (.exited 0))
    {ok : Nat → Bool} (hok : ok (s.owner p) = true) {s' : S} (hs : step s (.wait p ok) = some s') :
    ∃ q, Instance s' (s.owner p) q := by
  have h := Known.runs es (Known.init n t) hc hr
  obtain ⟨m, hm, hmp⟩ := h.proc p (Or.inr ⟨_, hz⟩)
  have hp0 : m.pid ≠ 0 := by
    intro e
    have := h.unborn p (Or.inr (by omega))
    rw [this] at hz
    cases hz
  have hf := forget_hit p s.apps _ m hm hmp (fun j x hx hxp => h.unique hm hx hp0 (by omega))
  unfold step at hs
  split at hs
  · cases hs
  · simp only [hz, report] at hs
    cases hs
    have hk := h.reap hz
    obtain ⟨q, h1, h2⟩ := sweep_instance (w := true) (ok := ok) hk hf rfl hok (Or.inl rfl)
    refine ⟨q, ?_⟩
    unfold Instance process
    simp only [Status.clean, BEq.rfl]
    rw [forget_length] at h1 h2
    rw [h1, h2]
    exact ⟨rfl, rfl⟩

theorem sweep_log (w : Bool) (ok : Nat → Bool) (n i : Nat) (s : S) (l : List Start)
    (h : ∀ e ∈ s.log, e ∈ l ∨ e.atOnce = w) : ∀ e ∈ (sweep w ok i n s).log, e ∈ l ∨ e.atOnce = w := by
  induction n generalizing i s with
  | zero => exact h
  | succ n ih =>
    unfold sweep
    apply ih
    split
    · split
      · unfold launch
        split
        · exact h
        · rename_i m _
          simp only
          generalize (if w = true then { m with attempts := 0 } else m : App) = m1
          split
          · split
            · split <;>
                (intro e he
                 simp only [List.mem_cons] at he
                 rcases he with rfl | he
                 · exact Or.inr rfl
                 · exact h e he)
            · exact h
          · exact h
      · exact h
    · exact h

/-- **C99 (at once only after a clean exit).** A start that is not held back by the pause happens only when
the monitor learns of a process that ended with exit code 0. -/
theorem C99_at_once {s s' : S} {e : Ev} (hs : step s e = some s') {x : Start} (hx : x ∈ s'.log)
    (hn : x ∉ s.log) (ha : x.atOnce = true) :
    ∃ p ok, e = .wait p ok ∧ s.procs p = .zombie (.exited 0) := by
  unfold step at hs
  split at hs
  · cases hs
  · cases e <;> simp only at hs
    case alarm ok =>
      cases hs
      rcases sweep_log false ok s.apps.length 0 s s.log (fun e he => Or.inl he) x hx with h | h
      · exact absurd h hn
      · rw [ha] at h; cases h
    case wait p ok =>
      split at hs
      · rename_i st q hr
        cases hs
        unfold process at hx
        rcases sweep_log st.clean ok _ 0 _ s.log (fun e he => by exact Or.inl he) x hx with h | h
        · exact absurd h hn
        · rw [ha] at h
          refine ⟨p, ok, rfl, ?_⟩
          unfold report at hr
          split at hr
          · rename_i st' hz
            cases hr
            rw [hz]
            cases st with
            | exited c =>
              have : c = 0 := by simpa [Status.clean] using h.symm
              rw [this]
            | killed c => cases h
            | stopped c => cases h
          · cases hr; cases h
          · cases hr
      · cases hs
    all_goals
      first
      | (cases hs; exact absurd hx hn)
      | (split at hs
         · first | (cases hs; exact absurd hx hn) | (cases hs; done)
         · first
           | (cases hs; exact absurd hx hn)
           | (cases hs; done)
           | (split at hs
              · cases hs; exact absurd hx hn
              · cases hs))

/-! ### not too often -/

/-- the pause before another start, in seconds, after `k` starts in a row -/
def pause (k : Nat) : ℚ := 2 / 10 * min 30 ((3 / 2) ^ k)

theorem pause_delay (k d : Nat) (h : delay k ≤ d) : pause k * 10 ^ 6 < d + 1 := by
  have hpow : (0 : ℚ) < 2 ^ k := by positivity
  have h1 : 200000 * min (30 * 2 ^ k) (3 ^ k) < (d + 1) * 2 ^ k := by
    have := Nat.lt_succ_of_le h
    unfold delay at this
    exact (Nat.div_lt_iff_lt_mul (by positivity)).mp this
  have h2 : ((200000 * min (30 * 2 ^ k) (3 ^ k) : Nat) : ℚ) < ((d + 1) * 2 ^ k : Nat) := by
    exact_mod_cast h1
  push_cast at h2
  unfold pause
  rw [div_pow]
  rcases le_total (30 * 2 ^ k : ℚ) (3 ^ k) with hle | hle
  · rw [min_eq_left hle] at h2
    have h3 : (30 : ℚ) ≤ 3 ^ k / 2 ^ k := by rw [le_div_iff₀ hpow]; exact hle
    rw [min_eq_left h3]
    have : (200000 * 30 : ℚ) * 2 ^ k < (d + 1) * 2 ^ k := by linarith
    have := lt_of_mul_lt_mul_right this hpow.le
    linarith
  · rw [min_eq_right hle] at h2
    have h3 : (3 : ℚ) ^ k / 2 ^ k ≤ 30 := by rw [div_le_iff₀ hpow]; exact hle
    rw [min_eq_right h3]
    have : (200000 : ℚ) * (3 ^ k / 2 ^ k) < d + 1 := by
      rw [← mul_div_assoc, div_lt_iff₀ hpow]; exact h2
    linarith

theorem Fine.at : ∀ (l pre : List Start) (e : Start) (rest : List Start), Fine l → l = pre ++ e :: rest →
    e.atOnce = true ∨ (lastTime e.app rest).getD 0 + delay (streak e.app rest) ≤ e.time
  | _, [], e, rest, h, he => by subst he; exact h.1
  | l, a :: pre, e, rest, h, he => by
    subst he
    exact Fine.at (pre ++ e :: rest) pre e rest h.2 rfl

/-- how often in a row application `i` was started, latest first, not counting what
came before the last start for a clean exit -/
def inARow (i : Nat) (l : List Start) : Nat :=
  let own := l.filter (fun e => e.app = i)
  let later := own.takeWhile (fun e => !e.atOnce)
  later.length + (if later.length < own.length then 1 else 0)

theorem streak_inARow (i : Nat) : ∀ l : List Start, streak i l = inARow i l
  | [] => rfl
  | e :: r => by
    have ih := streak_inARow i r
    unfold streak
    by_cases he : e.app = i
    · by_cases ha : e.atOnce = true
      · simp [inARow, he, ha]
      · simp only [Bool.not_eq_true] at ha
        simp only [he, ha, if_true, Bool.false_eq_true, if_false, ih]
        simp only [inARow, List.filter_cons, he, decide_true, if_true, List.takeWhile_cons, ha,
          Bool.not_false, List.length_cons]
        split <;> split <;> omega
    · simp only [he, if_false, ih]
      simp [inARow, he]

/-- **C99 (the pause).** Of any two starts of the same application, one after the
other, the second one is for a clean exit or comes at least `0.2 · min(30, 1.5^k)`
seconds after the first, where `k` counts the starts in a row up to then (to the
microsecond). -/
theorem C99_pause {n t : Nat} {es : List Ev} {s : S} (hr : runs (init n t) es = some s)
    {pre mid rest : List Start} {e f : Start} (hl : s.log = pre ++ e :: (mid ++ f :: rest))
    (ha : f.app = e.app) (hm : ∀ x ∈ mid, x.app ≠ e.app) (hn : e.atOnce = false) :
    pause (inARow e.app (f :: rest)) * 10 ^ 6 < (e.time : ℚ) - f.time + 1 := by
  have hg := Logged.runs es (Logged.init n t) hr
  have h1 := Fine.at _ pre e _ hg.fine hl
  rw [hn] at h1
  simp only [Bool.false_eq_true, false_or] at h1
  have hmid : ∀ mid : List Start, (∀ x ∈ mid, x.app ≠ e.app) →
      lastTime e.app (mid ++ f :: rest) = some f.time ∧
      streak e.app (mid ++ f :: rest) = streak e.app (f :: rest) := by
    intro mid
    induction mid with
    | nil => intro _; simp [lastTime, ha]
    | cons x mid ih =>
      intro h
      obtain ⟨h1, h2⟩ := ih (fun y hy => h y (by simp [hy]))
      have hx := h x (by simp)
      constructor
      · simp only [List.cons_append, lastTime, if_neg hx]; exact h1
      · rw [List.cons_append, streak, if_neg hx]; exact h2
  obtain ⟨h2, h3⟩ := hmid mid hm
  rw [h2, h3, streak_inARow] at h1
  simp only [Option.getD_some] at h1
  have h4 := pause_delay (inARow e.app (f :: rest)) (e.time - f.time) (by omega)
  have h5 : ((e.time - f.time : Nat) : ℚ) = (e.time : ℚ) - f.time := by
    rw [Nat.cast_sub (by omega)]
  rw [h5] at h4
  exact h4

/-- a second crash soon after the first -/
def twice : List Ev :=
  [.alarm yes, .ready 1, .ends 1 (.killed 11), .wait 1 yes, .tick 299999, .alarm yes, .tick 1, .alarm yes]

example : (runs (init 1 1000000) twice).map (·.log) = some [⟨0, 1300000, false⟩, ⟨0, 1000000, false⟩] ∧
    inARow 0 [⟨0, 1000000, false⟩] = 1 := by decide +kernel

/-- **C99 (the others).** When one application exits with code 0, another one that
crashed is started at once as well, however often it was started before, and its
pause is the shortest again. -/
theorem C99_others_violated :
    ∃ es s, runs (init 2 1000000) es = some s ∧
      s.log.take 2 = [⟨1, 1600000, true⟩, ⟨0, 1600000, true⟩] ∧
      inARow 1 (s.log.drop 1) = 2 ∧ inARow 1 s.log = 1 ∧
      (s.log.drop 2).take 1 = [⟨1, 1600000, false⟩] := by
  refine ⟨[.alarm yes, .ready 1, .ready 2, .ends 2 (.killed 11), .wait 2 yes, .tick 600000, .alarm yes,
    .ends 3 (.killed 11), .wait 3 yes, .ends 1 (.exited 0), .wait 1 yes], _, rfl, ?_⟩
  decide +kernel

/-! ### the end -/

/-- **C99 (the end).** When the monitor exits, every instance that has got a process
group of its own is sent `SIGTERM`, and no one else.  Partial: nobody stops an
application, and an instance just forked may not have its group yet (see
`C99_term_violated`). -/
theorem C99_term_partial {n t : Nat} {es : List Ev} {s s' : S} (hr : runs (init n t) es = some s)
    (hc : ∀ e ∈ es, e.calm = true) (hs : step s .exit = some s') (p : Nat) :
    p ∈ s'.termed ↔ s.procs p = .running := by
  have h := Known.runs es (Known.init n t) hc hr
  unfold step at hs
  split at hs
  · cases hs
  · cases hs
    simp only [cleanup, List.mem_filter, List.mem_map, Bool.and_eq_true, decide_eq_true_eq]
    constructor
    · rintro ⟨⟨m, hm, rfl⟩, hp, hgr⟩
      revert hgr
      cases hst : s.procs m.pid <;> simp [grouped]
      exact absurd hst (h.calm _ _ _)
    · intro hp
      obtain ⟨m, hm, hmp⟩ := h.proc p (Or.inl (by rw [hp]; rfl))
      refine ⟨⟨m, List.mem_of_getElem? hm, hmp⟩, ?_, by rw [hp]; rfl⟩
      by_contra h0
      have := h.unborn p (Or.inr (by omega))
      rw [this] at hp
      cases hp

example : (runs (init 2 1000000) (crashRun ++ [.exit])).map (·.termed) = some [3, 2] := by decide +kernel

/-- **C99 (just forked).** An application forked just before the monitor exits is
sent no signal and goes on without a monitor. -/
theorem C99_term_violated :
    ∃ es s, runs (init 1 1000000) es = some s ∧ s.exited = true ∧ s.termed = [] ∧ Instance s 0 1 := by
  refine ⟨[.alarm yes, .exit], _, rfl, ?_⟩
  decide +kernel

/-- **C99 (stopped before).** An application that was stopped once and goes on is
sent no signal either when the monitor exits. -/
theorem C99_term_stopped_violated :
    ∃ es s, runs (init 1 1000000) es = some s ∧ s.exited = true ∧ s.procs 1 = .running ∧ 1 ∉ s.termed := by
  refine ⟨[.alarm yes, .ready 1, .stop 1 19, .wait 1 yes, .cont 1, .exit], _, rfl, ?_⟩
  decide +kernel

end Mtev.WatchMan
