import Verif.Basic
import Mathlib.Tactic.Ring

/-!
# Managed applications

`src/utils/mtev_watchdog.c`: `launch_managed`, `process_managed`,
`cleanup_managed`, and the places of `mtev_watchdog_start_child` that call them.

Simplified: process ids are never reused (process number `p` is the `p`-th one
forked; numbers start at 1); time is in microseconds, and a timeval is one number;
the delay `0.2 * MIN(30.0, pow(1.5, n))` is computed exactly and rounded down to
whole microseconds; the attempts do not wrap around at `2^32`; the pipes to the
log streams, the dropping of privileges and `chdir` are left out; so are the main
child (modelled in `WatchMon`) and other processes the monitor may wait for.
-/

namespace Mtev.WatchMan

/-- the changing part of `struct manage`, `mtev_watchdog.c:211-215`; `pid` 0 is
none -/
structure App where
  pid : Nat := 0
  lastStart : Nat := 0
  attempts : Nat := 0
deriving DecidableEq, Repr

/-- what `waitpid` tells about a process -/
inductive Status where
  | exited (code : Nat)
  | killed (sig : Nat)
  | stopped (sig : Nat)
deriving DecidableEq, Repr

/-- `WIFEXITED(status) && WEXITSTATUS(status) == 0`, `mtev_watchdog.c:329` -/
def Status.clean : Status → Bool
  | .exited c => c == 0
  | _ => false

/-- a process as the system sees it: not forked yet; forked and not yet in a group
of its own (before `setpgid`, `mtev_watchdog.c:290`); running; stopped (and whether
the monitor has been told); ended and not waited for; waited for -/
inductive PSt where
  | unborn
  | starting
  | running
  | stopped (sig : Nat) (told : Bool)
  | zombie (st : Status)
  | gone
deriving DecidableEq, Repr

/-- a process that exists and has not ended -/
def PSt.alive : PSt → Bool
  | .starting => true
  | .running => true
  | .stopped _ _ => true
  | _ => false

/-- a start: which application, when, and whether it was for a clean exit -/
structure Start where
  app : Nat
  time : Nat
  atOnce : Bool
deriving DecidableEq, Repr

structure S where
  now : Nat := 0
  apps : List App := []
  procs : Nat → PSt := fun _ => .unborn
  /-- which application a process was forked for (bookkeeping) -/
  owner : Nat → Nat := fun _ => 0
  next : Nat := 1
  /-- all starts, latest first (bookkeeping) -/
  log : List Start := []
  /-- processes `SIGTERM` was sent to when the monitor exited -/
  termed : List Nat := []
  exited : Bool := false

/-- one place of a function changed -/
def put {α : Type} (f : Nat → α) (i : Nat) (v : α) : Nat → α :=
  fun j => if j = i then v else f j

@[simp] theorem put_same {α : Type} (f : Nat → α) (i : Nat) (v : α) : put f i v i = v := by
  simp [put]

theorem put_other {α : Type} (f : Nat → α) (i j : Nat) (v : α) (h : j ≠ i) :
    put f i v j = f j := by simp [put, h]

/-- the delay before another start in microseconds, `mtev_watchdog.c:262-263` -/
def delay (attempts : Nat) : Nat := 200000 * min (30 * 2 ^ attempts) (3 ^ attempts) / 2 ^ attempts

/-- `launch_managed`, `mtev_watchdog.c:255-307`, for application `i`; `ok` tells
whether `fork` succeeds -/
def launch (i : Nat) (working ok : Bool) (s : S) : S :=
  match s.apps[i]? with
  | none => s
  | some m =>
    let m : App := if working then { m with attempts := 0 } else m
    if m.pid = 0 then
      if working = true ∨ m.lastStart + delay m.attempts ≤ s.now then
        let m : App := { m with attempts := m.attempts + 1, lastStart := s.now }
        if ok then
          { s with apps := s.apps.set i { m with pid := s.next }
                   procs := put s.procs s.next .starting
                   owner := put s.owner s.next i
                   next := s.next + 1
                   log := ⟨i, s.now, working⟩ :: s.log }
        else { s with apps := s.apps.set i m, log := ⟨i, s.now, working⟩ :: s.log }
      else { s with apps := s.apps.set i m }
    else { s with apps := s.apps.set i m }

/-- the second loop of `process_managed`, `mtev_watchdog.c:327-333`, from
application `i` on, `n` applications left -/
def sweep (working : Bool) (ok : Nat → Bool) : Nat → Nat → S → S
  | _, 0, s => s
  | i, n + 1, s =>
    sweep working ok (i + 1) n
      (match s.apps[i]? with
        | some m => if m.pid = 0 then launch i working (ok i) s else s
        | none => s)

/-- the first loop of `process_managed`, `mtev_watchdog.c:311-326`: the first
application with this process has none now -/
def forget (pid : Nat) : List App → List App
  | [] => []
  | m :: ms => if m.pid = pid then { m with pid := 0 } :: ms else m :: forget pid ms

/-- `process_managed`, `mtev_watchdog.c:309-334`, with what `waitpid` returned, if
anything -/
def process (r : Option (Nat × Status)) (ok : Nat → Bool) (s : S) : S :=
  match r with
  | none => sweep false ok 0 s.apps.length s
  | some (pid, st) =>
    sweep st.clean ok 0 s.apps.length { s with apps := forget pid s.apps }

/-- things that happen -/
inductive Ev where
  /-- time passes -/
  | tick (d : Nat)
  /-- a process gets into a group of its own and becomes the application -/
  | ready (p : Nat)
  /-- a process ends -/
  | ends (p : Nat) (st : Status)
  /-- someone stops a process, someone has it go on -/
  | stop (p : Nat) (sig : Nat)
  | cont (p : Nat)
  /-- `SIGALRM`: `mtev_watchdog.c:976`, and once at the beginning,
  `mtev_watchdog.c:908` -/
  | alarm (ok : Nat → Bool)
  /-- `waitpid(-1, …, WNOHANG|WUNTRACED)` tells about `p`,
  `mtev_watchdog.c:1031` and `1078` -/
  | wait (p : Nat) (ok : Nat → Bool)
  /-- the monitor exits: `cleanup_managed`, `mtev_watchdog.c:881-896` -/
  | exit

/-- what `waitpid` has to tell about a process, and what becomes of it -/
def report : PSt → Option (Status × PSt)
  | .zombie st => some (st, .gone)
  | .stopped sig false => some (.stopped sig, .stopped sig true)
  | _ => none

/-- whether the signal for a process group `p` gets to process `p` -/
def grouped : PSt → Bool
  | .running => true
  | .stopped _ _ => true
  | _ => false

/-- `cleanup_managed`, `mtev_watchdog.c:887-893`: a signal for the group of each
process known; it is lost when there is no such group yet -/
def cleanup (s : S) : List Nat :=
  (s.apps.map (·.pid)).filter fun p => decide (p > 0) && grouped (s.procs p)

/-- one thing that happens; `none` when it cannot -/
def step (s : S) (e : Ev) : Option S :=
  if s.exited then none else
  match e with
  | .tick d => some { s with now := s.now + d }
  | .ready p => if s.procs p = .starting then some { s with procs := put s.procs p .running } else none
  | .ends p st =>
    match st with
    | .stopped _ => none
    | st => if (s.procs p).alive then some { s with procs := put s.procs p (.zombie st) } else none
  | .stop p sig =>
    if s.procs p = .running then some { s with procs := put s.procs p (.stopped sig false) } else none
  | .cont p =>
    match s.procs p with
    | .stopped _ _ => some { s with procs := put s.procs p .running }
    | _ => none
  | .alarm ok => some (process none ok s)
  | .wait p ok =>
    match report (s.procs p) with
    | some (st, q) => some (process (some (p, st)) ok { s with procs := put s.procs p q })
    | none => none
  | .exit => some { s with termed := cleanup s, exited := true }

def runs (s : S) : List Ev → Option S
  | [] => some s
  | e :: es => (step s e).bind fun s' => runs s' es

/-- `n` applications, none started -/
def init (n t : Nat) : S := { now := t, apps := List.replicate n {} }

/-! ### what one sweep does -/

/-- application `i` in two states, when it was not touched -/
theorem launch_other (i j : Nat) (w ok : Bool) (s : S) (h : j ≠ i) :
    (launch i w ok s).apps[j]? = s.apps[j]? := by
  unfold launch
  split
  · rfl
  · simp only
    repeat' split
    all_goals simp [Ne.symm h]

theorem launch_length (i : Nat) (w ok : Bool) (s : S) :
    (launch i w ok s).apps.length = s.apps.length := by
  unfold launch
  split
  · rfl
  · simp only
    repeat' split
    all_goals simp

theorem launch_now (i : Nat) (w ok : Bool) (s : S) : (launch i w ok s).now = s.now := by
  unfold launch
  split
  · rfl
  · simp only
    repeat' split
    all_goals rfl

theorem launch_exited (i : Nat) (w ok : Bool) (s : S) : (launch i w ok s).exited = s.exited := by
  unfold launch
  split
  · rfl
  · simp only
    repeat' split
    all_goals rfl

/-- one turn of the second loop -/
def turn (w : Bool) (ok : Nat → Bool) (i : Nat) (s : S) : S :=
  match s.apps[i]? with
  | some m => if m.pid = 0 then launch i w (ok i) s else s
  | none => s

theorem sweep_succ (w ok i n s) : sweep w ok i (n + 1) s = sweep w ok (i + 1) n (turn w ok i s) := rfl

theorem turn_cases (w : Bool) (ok : Nat → Bool) (i : Nat) (s : S) :
    turn w ok i s = s ∨ turn w ok i s = launch i w (ok i) s := by
  unfold turn
  split
  · split
    · exact Or.inr rfl
    · exact Or.inl rfl
  · exact Or.inl rfl

theorem turn_length (w ok i s) : (turn w ok i s).apps.length = s.apps.length := by
  rcases turn_cases w ok i s with h | h <;> rw [h]
  exact launch_length ..

theorem turn_now (w ok i s) : (turn w ok i s).now = s.now := by
  rcases turn_cases w ok i s with h | h <;> rw [h]
  exact launch_now ..

theorem turn_other (w ok i j s) (h : j ≠ i) : (turn w ok i s).apps[j]? = s.apps[j]? := by
  rcases turn_cases w ok i s with h' | h' <;> rw [h']
  exact launch_other _ _ _ _ _ h

/-- something kept by every turn is kept by the loop -/
theorem sweep_keeps {P : S → Prop} {w : Bool} {ok : Nat → Bool}
    (hP : ∀ i s, P s → P (turn w ok i s)) : ∀ (n i : Nat) (s : S), P s → P (sweep w ok i n s)
  | 0, _, _, h => h
  | n + 1, i, s, h => by
    rw [sweep_succ]
    exact sweep_keeps hP n (i + 1) _ (hP i s h)

theorem sweep_length (w : Bool) (ok : Nat → Bool) (n i : Nat) (s : S) :
    (sweep w ok i n s).apps.length = s.apps.length :=
  sweep_keeps (P := fun s' => s'.apps.length = s.apps.length)
    (fun i s' h => by rw [turn_length, h]) n i s rfl

/-! ### the first loop -/

theorem forget_length (p : Nat) : ∀ l : List App, (forget p l).length = l.length
  | [] => rfl
  | m :: ms => by
    unfold forget
    split
    · rfl
    · simp [forget_length p ms]

theorem forget_get (p : Nat) : ∀ (l : List App) (i : Nat) (m' : App), (forget p l)[i]? = some m' →
    ∃ m, l[i]? = some m ∧ (m' = m ∨ (m' = { m with pid := 0 } ∧ m.pid = p))
  | [], i, m', h => by simp [forget] at h
  | m :: ms, i, m', h => by
    unfold forget at h
    split at h
    · rename_i hp
      cases i with
      | zero => simp at h; exact ⟨m, rfl, Or.inr ⟨h.symm, hp⟩⟩
      | succ i => simp at h; exact ⟨m', by simpa using h, Or.inl rfl⟩
    · cases i with
      | zero => simp at h; exact ⟨m, rfl, Or.inl h.symm⟩
      | succ i =>
        simp at h
        obtain ⟨x, h1, h2⟩ := forget_get p ms i m' h
        exact ⟨x, by simpa using h1, h2⟩

/-- if no other application has the process, the application with it is emptied,
and the others are as before -/
theorem forget_hit (p : Nat) : ∀ (l : List App) (i : Nat) (m : App), l[i]? = some m → m.pid = p →
    (∀ j x, l[j]? = some x → x.pid = p → j = i) →
    (forget p l)[i]? = some { m with pid := 0 }
  | [], i, m, h, _, _ => by simp at h
  | a :: ms, i, m, h, hp, hu => by
    unfold forget
    split
    · rename_i ha
      have := hu 0 a rfl ha
      subst this
      simp at h; subst h; rfl
    · rename_i ha
      cases i with
      | zero => simp at h; subst h; exact absurd hp ha
      | succ i =>
        simp at h ⊢
        exact forget_hit p ms i m h hp (fun j x hj hx => by
          have := hu (j + 1) x (by simpa using hj) hx
          omega)

/-! ### what is known of the processes when nothing is ever stopped -/

structure Known (s : S) : Prop where
  /-- the process of an application is there and is its own -/
  app : ∀ i m, s.apps[i]? = some m → m.pid ≠ 0 →
    m.pid < s.next ∧ s.owner m.pid = i ∧
    (s.procs m.pid = .starting ∨ s.procs m.pid = .running ∨ ∃ st, s.procs m.pid = .zombie st)
  /-- every process not waited for is known -/
  proc : ∀ p, (s.procs p).alive = true ∨ (∃ st, s.procs p = .zombie st) →
    ∃ m, s.apps[s.owner p]? = some m ∧ m.pid = p
  calm : ∀ p sig told, s.procs p ≠ .stopped sig told
  clean : ∀ p sig, s.procs p ≠ .zombie (.stopped sig)
  unborn : ∀ p, s.next ≤ p ∨ p = 0 → s.procs p = .unborn
  pos : 1 ≤ s.next

theorem Known.init (n t : Nat) : Known (init n t) := by
  refine ⟨?_, ?_, ?_, ?_, ?_, ?_⟩
  · intro i m h hp
    simp [WatchMan.init, List.getElem?_replicate] at h
    exact absurd (by rw [← h.2]) hp
  · intro p h; simp [WatchMan.init, PSt.alive] at h
  · intro p sig told h; simp [WatchMan.init] at h
  · intro p sig h; simp [WatchMan.init] at h
  · intro p _; rfl
  · simp [WatchMan.init]

theorem Known.launch {s : S} (h : Known s) (i : Nat) (w ok : Bool) (hz : ∀ m, s.apps[i]? = some m → m.pid = 0) :
    Known (launch i w ok s) := by
  unfold WatchMan.launch
  split
  · exact h
  · rename_i m hm
    have hm0 := hz m hm
    have hlt : i < s.apps.length := by
      rcases List.getElem?_eq_some_iff.mp hm with ⟨h1, _⟩; exact h1
    -- an application changed without a process changes nothing
    have quiet : ∀ m' : App, ∀ lg, m'.pid = 0 → Known { s with apps := s.apps.set i m', log := lg } := by
      intro m' lg hm'
      refine ⟨?_, ?_, h.calm, h.clean, h.unborn, h.pos⟩
      · intro j x hx hp
        simp only at hx ⊢
        by_cases hji : j = i
        · subst hji
          rw [List.getElem?_set_self hlt] at hx
          cases hx; exact absurd hm' hp
        · rw [List.getElem?_set_ne (Ne.symm hji)] at hx
          exact h.app j x hx hp
      · intro p hp
        obtain ⟨x, hx, hxp⟩ := h.proc p hp
        simp only at hp ⊢
        have hp0 : p ≠ 0 := by
          intro e
          have := h.unborn p (Or.inr e)
          rw [this] at hp
          rcases hp with hp | ⟨st, hp⟩
          · simp [PSt.alive] at hp
          · cases hp
        have hne : s.owner p ≠ i := by
          intro e
          rw [e, hm] at hx
          cases hx
          omega
        exact ⟨x, by rw [List.getElem?_set_ne (Ne.symm hne)]; exact hx, hxp⟩
    simp only
    have hcases : (if w = true then { m with attempts := 0 } else m : App).pid = 0 := by
      split <;> exact hm0
    generalize (if w = true then { m with attempts := 0 } else m : App) = m1 at hcases ⊢
    rw [if_pos hcases]
    split
    · split
      · -- started
        refine ⟨?_, ?_, ?_, ?_, ?_, ?_⟩
        · intro j x hx hp
          simp only at hx ⊢
          by_cases hji : j = i
          · subst hji
            rw [List.getElem?_set_self hlt] at hx
            cases hx
            exact ⟨Nat.lt_succ_self _, by simp, Or.inl (by simp)⟩
          · rw [List.getElem?_set_ne (Ne.symm hji)] at hx
            obtain ⟨h1, h2, h3⟩ := h.app j x hx hp
            have hne : x.pid ≠ s.next := by omega
            rw [put_other _ _ _ _ hne, put_other _ _ _ _ hne]
            exact ⟨by omega, h2, h3⟩
        · intro p hp
          simp only at hp ⊢
          by_cases hpn : p = s.next
          · subst hpn
            simp only [put_same]
            exact ⟨_, List.getElem?_set_self hlt, rfl⟩
          · rw [put_other _ _ _ _ hpn] at hp ⊢
            obtain ⟨x, hx, hxp⟩ := h.proc p hp
            have hp0 : p ≠ 0 := by
              intro e
              have := h.unborn p (Or.inr e)
              rw [this] at hp
              rcases hp with hp | ⟨st, hp⟩
              · simp [PSt.alive] at hp
              · cases hp
            have hne : s.owner p ≠ i := by
              intro e
              rw [e, hm] at hx
              cases hx
              omega
            exact ⟨x, by rw [List.getElem?_set_ne (Ne.symm hne)]; exact hx, hxp⟩
        · intro p sig told
          simp only
          by_cases hpn : p = s.next
          · subst hpn; simp
          · rw [put_other _ _ _ _ hpn]; exact h.calm p sig told
        · intro p sig
          simp only
          by_cases hpn : p = s.next
          · subst hpn; simp
          · rw [put_other _ _ _ _ hpn]; exact h.clean p sig
        · intro p hp
          simp only at hp ⊢
          have := h.pos
          rw [put_other _ _ _ _ (by omega)]
          exact h.unborn p (by omega)
        · simp only; omega
      · exact quiet _ _ hcases
    · exact quiet _ _ hcases

theorem Known.turn {s : S} (h : Known s) (w : Bool) (ok : Nat → Bool) (i : Nat) : Known (turn w ok i s) := by
  unfold WatchMan.turn
  split
  · rename_i m hm
    split
    · rename_i h0
      exact h.launch i w (ok i) (by intro m' hm'; rw [hm] at hm'; cases hm'; exact h0)
    · exact h
  · exact h

theorem Known.sweep {s : S} (h : Known s) (w : Bool) (ok : Nat → Bool) (i n : Nat) :
    Known (sweep w ok i n s) := sweep_keeps (fun i s h => h.turn w ok i) n i s h

/-- no two applications share a process -/
theorem Known.unique {s : S} (h : Known s) {i j : Nat} {a b : App} (ha : s.apps[i]? = some a)
    (hb : s.apps[j]? = some b) (h0 : a.pid ≠ 0) (e : b.pid = a.pid) : j = i := by
  have h1 := (h.app i a ha h0).2.1
  have h2 := (h.app j b hb (by omega)).2.1
  rw [e, h1] at h2
  exact h2.symm

/-- a process that ended is waited for and forgotten -/
theorem Known.reap {s : S} (h : Known s) {p : Nat} {st : Status} (hz : s.procs p = .zombie st) :
    Known { s with procs := put s.procs p .gone, apps := forget p s.apps } := by
  have hp0 : p ≠ 0 := by
    intro e
    have := h.unborn p (Or.inr e)
    rw [this] at hz
    cases hz
  refine ⟨?_, ?_, ?_, ?_, ?_, h.pos⟩
  · intro i m' hm' hne
    simp only at hm' ⊢
    obtain ⟨m, hm, hc⟩ := forget_get p s.apps i m' hm'
    rcases hc with rfl | ⟨rfl, hpp⟩
    · obtain ⟨h1, h2, h3⟩ := h.app i m' hm hne
      have hnp : m'.pid ≠ p := by
        intro e
        have := forget_hit p s.apps i m' hm e (fun j x hx hxp => h.unique hm hx hne (by rw [hxp, e]))
        rw [this] at hm'
        have hm2 := congrArg (Option.map App.pid) hm'
        simp at hm2
        exact hne hm2.symm
      rw [put_other _ _ _ _ hnp]
      exact ⟨h1, h2, h3⟩
    · exact absurd rfl hne
  · intro q hq
    simp only at hq ⊢
    by_cases hqp : q = p
    · subst hqp
      simp [PSt.alive] at hq
    · rw [put_other _ _ _ _ hqp] at hq
      obtain ⟨m, hm, hmq⟩ := h.proc q hq
      have hlt : s.owner q < (forget p s.apps).length := by
        rw [forget_length]
        rcases List.getElem?_eq_some_iff.mp hm with ⟨h1, _⟩; exact h1
      obtain ⟨m', hm'⟩ : ∃ m', (forget p s.apps)[s.owner q]? = some m' :=
        ⟨_, List.getElem?_eq_getElem hlt⟩
      obtain ⟨x, hx, hc⟩ := forget_get p s.apps _ m' hm'
      rw [hm] at hx
      cases hx
      rcases hc with rfl | ⟨rfl, hpp⟩
      · exact ⟨m', hm', hmq⟩
      · omega
  · intro q sig told
    simp only
    by_cases hqp : q = p
    · subst hqp; simp
    · rw [put_other _ _ _ _ hqp]; exact h.calm q sig told
  · intro q sig
    simp only
    by_cases hqp : q = p
    · subst hqp; simp
    · rw [put_other _ _ _ _ hqp]; exact h.clean q sig
  · intro q hq
    simp only at hq ⊢
    have h1 := h.unborn q hq
    have : q ≠ p := by intro e; rw [e, hz] at h1; cases h1
    rw [put_other _ _ _ _ this]; exact h1

/-- a process changes and stays there -/
theorem Known.change {s : S} (h : Known s) {p : Nat} {q : PSt} (ha : (s.procs p).alive = true)
    (hq : q = .running ∨ ∃ st, q = .zombie st ∧ ∀ sig, st ≠ .stopped sig) :
    Known { s with procs := put s.procs p q } := by
  have hlife : (q = .starting ∨ q = .running ∨ ∃ st, q = .zombie st) := by
    rcases hq with h | ⟨st, h, _⟩
    · exact Or.inr (Or.inl h)
    · exact Or.inr (Or.inr ⟨st, h⟩)
  refine ⟨?_, ?_, ?_, ?_, ?_, h.pos⟩
  · intro i m hm hne
    obtain ⟨h1, h2, h3⟩ := h.app i m hm hne
    refine ⟨h1, h2, ?_⟩
    simp only
    by_cases e : m.pid = p
    · rw [e, put_same]; exact hlife
    · rw [put_other _ _ _ _ e]; exact h3
  · intro r hr
    simp only at hr ⊢
    by_cases e : r = p
    · subst e; exact h.proc r (Or.inl ha)
    · rw [put_other _ _ _ _ e] at hr; exact h.proc r hr
  · intro r sig told
    simp only
    by_cases e : r = p
    · subst e; rw [put_same]
      rcases hq with rfl | ⟨st, rfl, _⟩ <;> simp
    · rw [put_other _ _ _ _ e]; exact h.calm r sig told
  · intro r sig
    simp only
    by_cases e : r = p
    · subst e; rw [put_same]
      rcases hq with rfl | ⟨st, rfl, hs⟩
      · simp
      · intro he; cases he; exact hs sig rfl
    · rw [put_other _ _ _ _ e]; exact h.clean r sig
  · intro r hr
    simp only at hr ⊢
    have h1 := h.unborn r hr
    have : r ≠ p := by intro e; rw [← e, h1] at ha; simp [PSt.alive] at ha
    rw [put_other _ _ _ _ this]; exact h1

/-- not the stopping of a process -/
def Ev.calm : Ev → Bool
  | .stop _ _ => false
  | _ => true

theorem Known.step {s s' : S} {e : Ev} (h : Known s) (hc : e.calm = true) (hs : step s e = some s') :
    Known s' := by
  unfold WatchMan.step at hs
  split at hs
  · cases hs
  · cases e with
    | tick d => cases hs; exact ⟨h.app, h.proc, h.calm, h.clean, h.unborn, h.pos⟩
    | ready p =>
      simp only at hs
      split at hs
      · rename_i hp
        cases hs
        exact h.change (by rw [hp]; rfl) (Or.inl rfl)
      · cases hs
    | ends p st =>
      cases st with
      | stopped sig => simp at hs
      | exited c =>
        simp only at hs
        split at hs
        · rename_i hp
          cases hs
          exact h.change hp (Or.inr ⟨_, rfl, by simp⟩)
        · cases hs
      | killed c =>
        simp only at hs
        split at hs
        · rename_i hp
          cases hs
          exact h.change hp (Or.inr ⟨_, rfl, by simp⟩)
        · cases hs
    | stop p sig => simp [Ev.calm] at hc
    | cont p =>
      simp only at hs
      split at hs
      · rename_i hp
        exact absurd hp (h.calm _ _ _)
      · cases hs
    | alarm ok => cases hs; exact h.sweep _ _ _ _
    | wait p ok =>
      simp only at hs
      split at hs
      · rename_i st q hr
        cases hs
        unfold report at hr
        split at hr
        · rename_i z hz
          cases hr
          simp only [process]
          exact (h.reap hz).sweep _ _ _ _
        · rename_i hz
          exact absurd hz (h.calm _ _ _)
        · cases hr
      · cases hs
    | exit => cases hs; exact ⟨h.app, h.proc, h.calm, h.clean, h.unborn, h.pos⟩

theorem Known.runs : ∀ (es : List Ev) {s s' : S}, Known s → (∀ e ∈ es, e.calm = true) →
    runs s es = some s' → Known s'
  | [], s, s', h, _, hr => by cases hr; exact h
  | e :: es, s, s', h, hc, hr => by
    unfold WatchMan.runs at hr
    cases he : WatchMan.step s e with
    | none => rw [he] at hr; cases hr
    | some s1 =>
      rw [he] at hr
      exact Known.runs es (h.step (hc e (by simp)) he) (fun x hx => hc x (by simp [hx])) hr

/-! ### the history of starts -/

/-- how many starts of `i` since the last one for a clean exit, that one included -/
def streak (i : Nat) : List Start → Nat
  | [] => 0
  | e :: r => if e.app = i then (if e.atOnce then 1 else streak i r + 1) else streak i r

/-- the time of the last start of `i` -/
def lastTime (i : Nat) : List Start → Option Nat
  | [] => none
  | e :: r => if e.app = i then some e.time else lastTime i r

/-- a start is for a clean exit or not too early -/
def Fine : List Start → Prop
  | [] => True
  | e :: r => (e.atOnce = true ∨ (lastTime e.app r).getD 0 + delay (streak e.app r) ≤ e.time) ∧ Fine r

/-- the history agrees with what is stored -/
structure Logged (s : S) : Prop where
  at_ : ∀ i m, s.apps[i]? = some m → m.attempts = streak i s.log ∧ m.lastStart = (lastTime i s.log).getD 0
  fine : Fine s.log
  past : ∀ e ∈ s.log, e.time ≤ s.now

theorem Logged.turn {s : S} (h : Logged s) (w : Bool) (ok : Nat → Bool) (i : Nat) : Logged (turn w ok i s) := by
  unfold WatchMan.turn
  split
  · rename_i m hm
    split
    · rename_i h0
      unfold WatchMan.launch
      rw [hm]
      have hlt : i < s.apps.length := by
        rcases List.getElem?_eq_some_iff.mp hm with ⟨h1, _⟩; exact h1
      obtain ⟨ha, hl⟩ := h.at_ i m hm
      simp only
      have hcases : (if w = true then { m with attempts := 0 } else m : App).pid = 0 := by
        split <;> exact h0
      have e1 : (if w = true then { m with attempts := 0 } else m : App).attempts
          = if w = true then 0 else m.attempts := by split <;> rfl
      have e2 : (if w = true then { m with attempts := 0 } else m : App).lastStart = m.lastStart := by
        split <;> rfl
      have e3 : w = false → (if w = true then { m with attempts := 0 } else m : App) = m := by
        intro hw; rw [hw]; rfl
      generalize (if w = true then { m with attempts := 0 } else m : App) = m1 at hcases e1 e2 e3 ⊢
      rw [if_pos hcases]
      split
      · rename_i hgo
        -- the state after a start
        have key : ∀ (x : App) (pr ow nx), x.attempts = (if w = true then 0 else m.attempts) + 1 →
            x.lastStart = s.now →
            Logged { s with apps := s.apps.set i x, procs := pr, owner := ow, next := nx,
                            log := ⟨i, s.now, w⟩ :: s.log } := by
          intro x pr ow nx hx1 hx2
          refine ⟨?_, ?_, ?_⟩
          · intro j y hy
            simp only at hy ⊢
            by_cases hji : j = i
            · subst hji
              rw [List.getElem?_set_self hlt] at hy
              cases hy
              rw [hx1, hx2]
              constructor
              · cases w <;> simp [streak, ha]
              · simp [lastTime]
            · rw [List.getElem?_set_ne (Ne.symm hji)] at hy
              have := h.at_ j y hy
              simp only [streak, lastTime, if_neg (Ne.symm hji)]
              exact this
          · refine ⟨?_, h.fine⟩
            simp only
            cases w with
            | true => exact Or.inl rfl
            | false =>
              right
              simp only [Bool.false_eq_true, false_or] at hgo
              rw [← hl, ← ha, ← e3 rfl]
              exact hgo
          · intro e he
            simp only [List.mem_cons] at he
            rcases he with rfl | he
            · exact Nat.le_refl _
            · exact h.past e he
        split
        · exact key _ _ _ _ (by simp [e1]) rfl
        · exact key _ _ _ _ (by simp [e1]) rfl
      · rename_i hgo
        have hw : w = false := by cases w <;> simp at hgo ⊢
        have := e3 hw
        subst this
        refine ⟨?_, h.fine, h.past⟩
        intro j y hy
        simp only at hy ⊢
        by_cases hji : j = i
        · subst hji
          rw [List.getElem?_set_self hlt] at hy
          cases hy
          exact ⟨ha, hl⟩
        · rw [List.getElem?_set_ne (Ne.symm hji)] at hy
          exact h.at_ j y hy
    · exact h
  · exact h

theorem Logged.sweep {s : S} (h : Logged s) (w : Bool) (ok : Nat → Bool) (i n : Nat) :
    Logged (sweep w ok i n s) := sweep_keeps (fun i s h => h.turn w ok i) n i s h

theorem Logged.init (n t : Nat) : Logged (init n t) := by
  refine ⟨?_, trivial, by simp [WatchMan.init]⟩
  intro i m hm
  simp [WatchMan.init, List.getElem?_replicate] at hm
  rw [← hm.2]
  exact ⟨rfl, rfl⟩

theorem Logged.step {s s' : S} {e : Ev} (h : Logged s) (hs : step s e = some s') : Logged s' := by
  unfold WatchMan.step at hs
  split at hs
  · cases hs
  · cases e with
    | tick d =>
      cases hs
      exact ⟨h.at_, h.fine, fun e he => Nat.le_trans (h.past e he) (Nat.le_add_right _ _)⟩
    | ready p =>
      simp only at hs
      split at hs
      · cases hs; exact ⟨h.at_, h.fine, h.past⟩
      · cases hs
    | ends p st =>
      cases st with
      | stopped sig => simp at hs
      | exited c =>
        simp only at hs
        split at hs
        · cases hs; exact ⟨h.at_, h.fine, h.past⟩
        · cases hs
      | killed c =>
        simp only at hs
        split at hs
        · cases hs; exact ⟨h.at_, h.fine, h.past⟩
        · cases hs
    | stop p sig =>
      simp only at hs
      split at hs
      · cases hs; exact ⟨h.at_, h.fine, h.past⟩
      · cases hs
    | cont p =>
      simp only at hs
      split at hs
      · cases hs; exact ⟨h.at_, h.fine, h.past⟩
      · cases hs
    | alarm ok => cases hs; exact h.sweep _ _ _ _
    | wait p ok =>
      simp only at hs
      split at hs
      · cases hs
        simp only [process]
        refine Logged.sweep (s := { s with procs := put s.procs p _, apps := forget p s.apps })
          ⟨?_, h.fine, h.past⟩ _ _ _ _
        intro i m hm
        simp only at hm ⊢
        obtain ⟨x, hx, hc⟩ := forget_get p s.apps i m hm
        have := h.at_ i x hx
        rcases hc with rfl | ⟨rfl, _⟩ <;> exact this
      · cases hs
    | exit => cases hs; exact ⟨h.at_, h.fine, h.past⟩

theorem Logged.runs : ∀ (es : List Ev) {s s' : S}, Logged s → runs s es = some s' → Logged s'
  | [], s, s', h, hr => by cases hr; exact h
  | e :: es, s, s', h, hr => by
    unfold WatchMan.runs at hr
    cases he : WatchMan.step s e with
    | none => rw [he] at hr; cases hr
    | some s1 =>
      rw [he] at hr
      exact Logged.runs es (h.step he) hr

theorem delay_le (n : Nat) : delay n ≤ 6000000 := by
  unfold delay
  refine Nat.div_le_of_le_mul ?_
  have := Nat.min_le_left (30 * 2 ^ n) (3 ^ n)
  calc 200000 * min (30 * 2 ^ n) (3 ^ n) ≤ 200000 * (30 * 2 ^ n) := Nat.mul_le_mul_left _ this
    _ = 2 ^ n * 6000000 := by ring

end Mtev.WatchMan
