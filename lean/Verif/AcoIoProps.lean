import Verif.AcoIo

/-!
Properties of the calls of coroutines that may block: C136.

Specification: a call gives the first result that is not "would block", or times out; while it waits the loop knows what it waits for
and for how long; when it returns nothing of it is left with the loop. A timeout is reported only if the time given has passed.
-/
namespace Mtev.AcoIo

/-- Nothing is registered. -/
def nothing : Nat → Option Nat := fun _ => none

/-- Only `e` is registered, for `m`. -/
def only (e m : Nat) : Nat → Option Nat := fun x => if x = e then some m else none

/-- What a call underneath that would block waits for is not empty. -/
def ResOk : Res → Prop
  | .done _ => True
  | .block m => m ≠ 0

/-- The calls underneath behave. -/
def Legal : Op → Prop
  | .call _ _ _ r | .ready _ r | .fire r => ResOk r
  | _ => True

/-- The states reached. -/
inductive Reach : St → Prop where
  | init : Reach St.init
  | step {st st' : St} {o : Op} {v : Option Ret} : Reach st → enabled st o → Legal o → step st o = .ok (st', v) → Reach st'

/-- The invariant. -/
structure Inv (st : St) : Prop where
  arg : st.timeout = none
  idle : (∀ e, st.pos ≠ .io e) → st.reg = nothing
  io : ∀ e, st.pos = .io e → ∃ m, m ≠ 0 ∧ st.reg = only e m
  timer : st.timer.isSome → st.pos = .sleep ∨ ∃ e, st.pos = .io e
  slp : st.pos = .sleep → st.timer.isSome
  trig : st.trig.isSome → st.pos = .run

theorem ok_b {α β : Type} (a : α) (f : α → Out β) : (Out.ok a).bind f = f a := rfl

theorem put_nothing (e m : Nat) : put nothing e (some m) = only e m := by
  funext x; simp [put, nothing, only]

theorem put_only (e m : Nat) : put (only e m) e none = nothing := by
  funext x; by_cases h : x = e <;> simp [put, nothing, only, h]

theorem put_only_same (e m : Nat) : put (only e m) e (some m) = only e m := by
  funext x; by_cases h : x = e <;> simp [put, only, h]

theorem unwind_nothing (m : Nat) (st : St) (h : st.reg = nothing) : unwind m st = .ok { st with trig := none } := by
  unfold unwind
  split
  · rename_i ht
    cases st; cases ht; rfl
  · rw [h]; rfl

theorem attempt_block (e m : Nat) (st : St) (h : st.reg = nothing) (hm : m ≠ 0) :
    attempt e (.block m) st = .ok ({ st with cmask := m, reg := only e m, trig := none, pos := .io e }, none) := by
  simp only [attempt, add]
  rw [if_neg hm, h]
  simp only [nothing, ok_b]
  rw [put_nothing]
  unfold suspend unwind
  simp only
  cases ht : st.trig with
  | none => simp only [ok_b]
  | some t =>
    simp only
    by_cases hte : t = e
    · subst hte
      simp only [only, if_true, hm, if_false]
      rw [put_only_same]
      rfl
    · simp only [only, hte, if_false, ok_b]

/-- The timeout a call goes by: the one passed, or else the one set for the descriptor. -/
def effective (st : St) (e : Nat) (k : Kind) (to_ : Option Nat) : Option Nat :=
  match to_ with
  | some d => some d
  | none => st.dflt e k

theorem call_eq {st : St} (h : Inv st) (hr : st.pos = .run) (e : Nat) (k : Kind) (to_ : Option Nat) (r : Res) :
    call e k to_ r st = attempt e r { st with timer := effective st e k to_, timeout := none } := by
  have ht : st.timer = none := by
    cases h2 : st.timer with
    | none => rfl
    | some d =>
      rcases h.timer (by rw [h2]; rfl) with h3 | ⟨e, h3⟩ <;> rw [hr] at h3 <;> cases h3
  have ha := h.arg
  unfold call
  simp only [ha, ht]
  cases to_ with
  | some d => simp [effective]
  | none =>
    cases hd : st.dflt e k with
    | none => simp [effective, hd, ht]
    | some d => simp [effective, hd]

theorem idle_run {st : St} (h : Inv st) (hr : st.pos = .run) : st.reg = nothing := h.idle (by rw [hr]; intro e; simp)

/-- An attempt from a state with nothing registered. -/
theorem attempt_inv {st : St} (e : Nat) (r : Res) (hr : ResOk r) (h1 : st.reg = nothing) (h2 : st.timeout = none) :
    ∃ st' v, attempt e r st = .ok (st', v) ∧ Inv st' := by
  cases r with
  | done v =>
    exact ⟨_, _, rfl, ⟨h2, fun _ => h1, fun e h => absurd h (by simp), fun h => absurd h (by simp), fun h => absurd h (by simp), fun _ => rfl⟩⟩
  | block m =>
    rw [attempt_block e m st h1 hr]
    exact ⟨_, _, rfl, ⟨h2, fun h => absurd rfl (h e), fun e' h => by cases h; exact ⟨m, hr, rfl⟩, fun _ => Or.inr ⟨e, rfl⟩,
      fun h => absurd h (by simp), fun h => absurd h (by simp)⟩⟩

theorem resumed_inv {st : St} (e m : Nat) (r : Res) (hr : ResOk r) (h1 : st.reg = only e m) (h2 : st.timeout = none) :
    ∃ st' v, resumed e r st = .ok (st', v) ∧ Inv st' := by
  unfold resumed
  split
  · rw [h1]
    simp only [only, if_true]
    refine ⟨_, _, rfl, ⟨h2, fun _ => ?_, fun e h => absurd h (by simp), fun h => absurd h (by simp), fun h => absurd h (by simp), fun _ => rfl⟩⟩
    exact put_only e m
  · refine attempt_inv e r hr ?_ h2
    simp only [h1]
    exact put_only e m

theorem step_inv {st : St} (h : Inv st) (o : Op) (he : enabled st o) (hl : Legal o) : ∃ st' v, step st o = .ok (st', v) ∧ Inv st' := by
  cases o with
  | call e k t r =>
    simp only [step]
    rw [call_eq h he]
    exact attempt_inv e r hl (by exact (show st.reg = nothing from idle_run h he)) rfl
  | sleep d =>
    have ht : st.timer = none := by
      cases h2 : st.timer with
      | none => rfl
      | some d =>
        have he' : st.pos = .run := he
        rcases h.timer (by rw [h2]; rfl) with h3 | ⟨e, h3⟩ <;> rw [he'] at h3 <;> cases h3
    simp only [step, sleep, ht, suspend]
    rw [if_neg (by simp), unwind_nothing _ _ (by exact (show st.reg = nothing from idle_run h he))]
    exact ⟨_, _, rfl, ⟨h.arg, fun _ => (by exact (show st.reg = nothing from idle_run h he)), fun e h => absurd h (by simp), fun _ => Or.inl rfl, fun _ => rfl, fun h => absurd h (by simp)⟩⟩
  | job =>
    simp only [step, suspend]
    rw [unwind_nothing _ _ (by exact (show st.reg = nothing from idle_run h he))]
    refine ⟨_, _, rfl, ⟨h.arg, fun _ => (by exact (show st.reg = nothing from idle_run h he)), fun e h => absurd h (by simp), fun ht => ?_, fun h => absurd h (by simp), fun h => absurd h (by simp)⟩⟩
    have he' : st.pos = .run := he
    rcases h.timer ht with h3 | ⟨e, h3⟩ <;> rw [he'] at h3 <;> cases h3
  | setDefault e k t => exact ⟨_, _, rfl, ⟨h.arg, h.idle, h.io, h.timer, h.slp, h.trig⟩⟩
  | over =>
    simp only [step]
    rw [unwind_nothing _ _ (by exact (show st.reg = nothing from idle_run h he))]
    refine ⟨_, _, rfl, ⟨h.arg, fun _ => (by exact (show st.reg = nothing from idle_run h he)), fun e h => absurd h (by simp), fun ht => ?_, fun h => absurd h (by simp), fun h => absurd h (by simp)⟩⟩
    have he' : st.pos = .run := he
    rcases h.timer ht with h3 | ⟨e, h3⟩ <;> rw [he'] at h3 <;> cases h3
  | ready e r =>
    obtain ⟨h1, h2⟩ := he
    cases hp : st.pos with
    | io e' =>
      obtain ⟨m, hm, hreg⟩ := h.io e' hp
      simp only [step, ready, hp]
      exact resumed_inv e' m r hl hreg h.arg
    | run => exact absurd hp h1
    | _ =>
      rw [h.idle (by rw [hp]; intro e; simp)] at h2
      exact absurd h2 (by simp [nothing])
  | fire r =>
    obtain ⟨h1, h2⟩ := he
    rcases h.timer h2 with hp | ⟨e, hp⟩
    · simp only [step, fire, hp]
      exact ⟨_, _, rfl, ⟨h.arg, fun _ => h.idle (by rw [hp]; intro e; simp), fun e h => absurd h (by simp), fun h => absurd h (by simp),
        fun h => absurd h (by simp), fun _ => rfl⟩⟩
    · obtain ⟨m, hm, hreg⟩ := h.io e hp
      simp only [step, fire, hp]
      exact resumed_inv e m r hl hreg h.arg
  | jobDone =>
    have he' : st.pos = .job := he
    refine ⟨_, _, rfl, ⟨h.arg, fun _ => h.idle (by rw [he']; intro e; simp), fun e h => absurd h (by simp), fun ht => ?_, fun h => absurd h (by simp), fun _ => rfl⟩⟩
    rcases h.timer ht with h3 | ⟨e, h3⟩ <;> rw [he'] at h3 <;> cases h3

theorem inv_init : Inv St.init := by
  constructor <;> simp [St.init, nothing]
  rfl

theorem reach_inv {st : St} (h : Reach st) : Inv st := by
  induction h with
  | init => exact inv_init
  | step _ h2 h3 h4 ih =>
    obtain ⟨s, v, h5, h6⟩ := step_inv ih _ h2 h3
    rw [h4] at h5
    cases h5
    exact h6

/-- C136: no assertion fails, nothing is registered twice, and the coroutine is never resumed when it does not wait. -/
theorem C136_safe {st : St} (h : Reach st) (o : Op) (he : enabled st o) (hl : Legal o) : ∃ st' v, step st o = .ok (st', v) := by
  obtain ⟨s, v, h1, _⟩ := step_inv (reach_inv h) o he hl
  exact ⟨s, v, h1⟩

/-- C136: while the coroutine runs, or is over, the loop has nothing of it: no descriptor and no timer. -/
theorem C136_clean {st : St} (h : Reach st) (hr : st.pos = .run ∨ st.pos = .over) : st.timer = none ∧ ∀ e, st.reg e = none := by
  have inv := reach_inv h
  refine ⟨?_, fun e => ?_⟩
  · cases h2 : st.timer with
    | none => rfl
    | some d =>
      rcases inv.timer (by rw [h2]; rfl) with h3 | ⟨e, h3⟩ <;> rcases hr with hr | hr <;> rw [hr] at h3 <;> cases h3
  · rw [inv.idle (by intro e; rcases hr with hr | hr <;> rw [hr] <;> simp)]; rfl

/-- C136: a coroutine in a call has its descriptor, and no other, with the loop, so it can be woken; a sleeping one has its timer. -/
theorem C136_woken {st : St} (h : Reach st) :
    (∀ e, st.pos = .io e → (st.reg e).isSome ∧ ∀ x, x ≠ e → st.reg x = none) ∧ (st.pos = .sleep → st.timer.isSome) := by
  have inv := reach_inv h
  refine ⟨fun e he => ?_, inv.slp⟩
  obtain ⟨m, _, h1⟩ := inv.io e he
  rw [h1]
  exact ⟨by simp [only], fun x hx => by simp [only, hx]⟩

/-- C136: a call that need not wait returns what the call underneath gave. -/
theorem C136_at_once {st : St} (h : Reach st) (hr : st.pos = .run) (e : Nat) (k : Kind) (to_ : Option Nat) (v : Int) :
    ∃ st', step st (.call e k to_ (.done v)) = .ok (st', some (.val v)) ∧ st'.pos = .run := by
  simp only [step]
  rw [call_eq (reach_inv h) hr]
  exact ⟨_, rfl, rfl⟩

/-- C136: a call that must wait is suspended, registered for what the call underneath asked for, with the timeout passed or else the
one set for the descriptor and this kind of call. -/
theorem C136_waits {st : St} (h : Reach st) (hr : st.pos = .run) (e : Nat) (k : Kind) (to_ : Option Nat) (m : Nat) (hm : m ≠ 0) :
    ∃ st', step st (.call e k to_ (.block m)) = .ok (st', none) ∧ st'.pos = .io e ∧ st'.reg e = some m ∧
      st'.timer = (match to_ with | some d => some d | none => st.dflt e k) ∧ st'.priv = st.priv ∧ st'.dflt = st.dflt := by
  simp only [step]
  rw [call_eq (reach_inv h) hr, attempt_block _ _ _ (by exact (show st.reg = nothing from idle_run (reach_inv h) hr)) hm]
  exact ⟨_, rfl, rfl, by simp [only], rfl, rfl, rfl⟩

/-- C136: a timeout set for a descriptor and a kind of call is the one used by later calls of that kind for it, and it changes no
other calls. -/
theorem C136_default {st : St} (h : Reach st) (hr : st.pos = .run) (e : Nat) (k : Kind) (t : Option Nat) (m : Nat) (hm : m ≠ 0) :
    ∃ s, step st (.setDefault e k t) = .ok (s, none) ∧ s.pos = .run ∧
      (∃ s', step s (.call e k none (.block m)) = .ok (s', none) ∧ s'.timer = t) ∧
      ∀ e' k' to_, (e', k') ≠ (e, k) → ∃ s1 s2, step s (.call e' k' to_ (.block m)) = .ok (s1, none) ∧
        step st (.call e' k' to_ (.block m)) = .ok (s2, none) ∧ s1.timer = s2.timer := by
  refine ⟨_, rfl, hr, ?_, ?_⟩
  · obtain ⟨s', h1, _, _, h2, _⟩ := C136_waits (.step (o := .setDefault e k t) h hr trivial rfl : Reach { st with dflt := fun x y => if x = e ∧ y = k then t else st.dflt x y })
      hr e k none m hm
    exact ⟨s', h1, by simpa using h2⟩
  · intro e' k' to_ hne
    obtain ⟨s1, h1, _, _, h2, _⟩ := C136_waits (.step (o := .setDefault e k t) h hr trivial rfl :
      Reach { st with dflt := fun x y => if x = e ∧ y = k then t else st.dflt x y }) hr e' k' to_ m hm
    obtain ⟨s2, g1, _, _, g2, _⟩ := C136_waits h hr e' k' to_ m hm
    refine ⟨s1, s2, h1, g1, ?_⟩
    rw [h2, g2]
    cases to_ with
    | some d => rfl
    | none =>
      have : ¬ (e' = e ∧ k' = k) := fun q => hne (by rw [q.1, q.2])
      simp only [this, if_false]

/-- C136: if the time passes first the call times out at once. -/
theorem C136_times_out {st : St} (h : Reach st) (e : Nat) (hp : st.pos = .io e) (r : Res) :
    ∃ st', step st (.fire r) = .ok (st', some .timedOut) ∧ st'.pos = .run := by
  obtain ⟨m, _, h1⟩ := (reach_inv h).io e hp
  simp only [step, fire, hp, resumed, h1, only, if_true]
  exact ⟨_, rfl, rfl⟩

/-- C136: a sleep ends when its time has passed, and nothing else ends it. -/
theorem C136_sleeps {st st' : St} {v : Option Ret} (h : Reach st) (hp : st.pos = .sleep) (o : Op) (he : enabled st o)
    (hs : step st o = .ok (st', v)) : (∃ r, o = .fire r) ∧ st'.pos = .run := by
  cases o with
  | fire r =>
    simp only [step, fire, hp] at hs
    cases hs
    exact ⟨⟨r, rfl⟩, rfl⟩
  | ready e r =>
    have := he.2
    rw [(reach_inv h).idle (by rw [hp]; intro e; simp)] at this
    exact absurd this (by simp [nothing])
  | _ => have he' : st.pos = _ := he; rw [hp] at he'; cases he'

/-- Operations one after the other; the last value returned. -/
def run (st : St) : List Op → Out (St × Option Ret)
  | [] => .ok (st, none)
  | [o] => step st o
  | o :: os => (step st o).bind fun p => run p.1 os

theorem ready_eq {st : St} (e m : Nat) (hp : st.pos = .io e) (hreg : st.reg = only e m) (hpr : st.priv = false) (r : Res) :
    ready e r st = attempt e r { st with pos := .run, trig := some e, reg := nothing } := by
  simp only [ready, hp, resumed, hpr, hreg, put_only]
  simp

theorem readies {ms : List Nat} (hms : ∀ m ∈ ms, m ≠ 0) (v : Int) :
    ∀ {st : St} {e m : Nat}, st.pos = .io e → st.reg = only e m → st.priv = false →
      ∃ st', run st (ms.map (fun m => .ready e (.block m)) ++ [.ready e (.done v)]) = .ok (st', some (.val v)) ∧ st'.pos = .run ∧
        st'.timer = none ∧ st'.reg = nothing ∧ st'.priv = false := by
  induction ms with
  | nil =>
    intro st e m h1 h2 h3
    simp only [List.map_nil, List.nil_append, run, step]
    rw [ready_eq e m h1 h2 h3]
    exact ⟨_, rfl, rfl, rfl, rfl, h3⟩
  | cons m1 ms ih =>
    intro st e m h1 h2 h3
    have e1 : run st ((m1 :: ms).map (fun m => Op.ready e (.block m)) ++ [.ready e (.done v)]) =
        (step st (.ready e (.block m1))).bind fun p => run p.1 (ms.map (fun m => Op.ready e (.block m)) ++ [.ready e (.done v)]) := by
      cases ms <;> rfl
    rw [e1]
    simp only [step]
    rw [ready_eq e m h1 h2 h3, attempt_block _ _ _ rfl (hms m1 (by simp)), ok_b]
    exact ih (fun m hm => hms m (List.mem_cons_of_mem _ hm)) rfl rfl h3

theorem result_aux {st : St} (h : Reach st) (hr : st.pos = .run) (hpr : st.priv = false) (e : Nat) (k : Kind) (to_ : Option Nat)
    (m : Nat) (ms : List Nat) (hms : ∀ x ∈ m :: ms, x ≠ 0) (v : Int) :
    ∃ st', run st (.call e k to_ (.block m) :: ms.map (fun m => .ready e (.block m)) ++ [.ready e (.done v)]) = .ok (st', some (.val v)) ∧
      st'.pos = .run ∧ st'.timer = none ∧ (∀ x, st'.reg x = none) := by
  have e1 : run st (.call e k to_ (.block m) :: ms.map (fun m => Op.ready e (.block m)) ++ [.ready e (.done v)]) =
      (step st (.call e k to_ (.block m))).bind fun p => run p.1 (ms.map (fun m => Op.ready e (.block m)) ++ [.ready e (.done v)]) := by
    cases ms <;> rfl
  rw [e1]
  simp only [step]
  rw [call_eq (reach_inv h) hr, attempt_block _ _ _ (by exact (show st.reg = nothing from idle_run (reach_inv h) hr)) (hms m (by simp)), ok_b]
  obtain ⟨s, h1, h2, h3, h4, _⟩ := readies (ms := ms) (fun x hx => hms x (List.mem_cons_of_mem _ hx)) v
    (st := { st with timer := effective st e k to_, timeout := none, cmask := m, reg := only e m, trig := none, pos := .io e }) (e := e) (m := m)
    rfl rfl hpr
  exact ⟨s, h1, h2, h3, fun x => by rw [h4]; rfl⟩

/-- The states reached without sleeping. -/
inductive ReachNS : St → Prop where
  | init : ReachNS St.init
  | step {st st' : St} {o : Op} {v : Option Ret} : ReachNS st → enabled st o → Legal o → (∀ d, o ≠ .sleep d) → step st o = .ok (st', v) → ReachNS st'

theorem ReachNS.reach {st : St} (h : ReachNS st) : Reach st := by
  induction h with
  | init => exact .init
  | step _ h2 h3 _ h4 ih => exact .step ih h2 h3 h4

theorem attempt_priv {st st' : St} {v : Option Ret} (e : Nat) (r : Res) (hr : ResOk r) (h1 : st.reg = nothing)
    (h : attempt e r st = .ok (st', v)) : st'.priv = st.priv ∧ v ≠ some .timedOut ∧ st'.pos ≠ .sleep := by
  cases r with
  | done v => cases h; exact ⟨rfl, by simp, by simp⟩
  | block m => rw [attempt_block e m st h1 hr] at h; cases h; exact ⟨rfl, by simp, by simp⟩

/-- What one operation does to the mark of a timeout. -/
theorem step_priv {st st' : St} {v : Option Ret} (h : Inv st) (hp : st.priv = false) (hns : st.pos ≠ .sleep) (o : Op) (he : enabled st o)
    (hl : Legal o) (hs : step st o = .ok (st', v)) (hn : ∀ d, o ≠ .sleep d) :
    st'.priv = false ∧ st'.pos ≠ .sleep ∧ (v = some .timedOut → ∃ r, o = .fire r) := by
  cases o with
  | call e k t r =>
    simp only [step] at hs
    rw [call_eq h he] at hs
    obtain ⟨a, b, c⟩ := attempt_priv e r hl (by exact (show st.reg = nothing from idle_run h he)) hs
    exact ⟨a.trans hp, c, fun e => absurd e b⟩
  | sleep d => exact absurd rfl (hn d)
  | job =>
    simp only [step, suspend] at hs
    rw [unwind_nothing _ _ (by exact (show st.reg = nothing from idle_run h he))] at hs
    cases hs
    exact ⟨hp, by simp, by simp⟩
  | setDefault e k t => cases hs; exact ⟨hp, hns, by simp⟩
  | over =>
    simp only [step] at hs
    rw [unwind_nothing _ _ (by exact (show st.reg = nothing from idle_run h he))] at hs
    cases hs
    exact ⟨hp, by simp, by simp⟩
  | ready e r =>
    obtain ⟨h1, h2⟩ := he
    cases hpos : st.pos with
    | io e' =>
      obtain ⟨m, hm, hreg⟩ := h.io e' hpos
      simp only [step, ready, hpos, resumed, hp, Bool.false_eq_true, if_false, hreg, put_only] at hs
      obtain ⟨a, b, c⟩ := attempt_priv e' r hl rfl hs
      exact ⟨a, c, fun e => absurd e b⟩
    | run => exact absurd hpos h1
    | _ =>
      rw [h.idle (by rw [hpos]; intro e; simp)] at h2
      exact absurd h2 (by simp [nothing])
  | fire r =>
    obtain ⟨h1, h2⟩ := he
    rcases h.timer h2 with hpos | ⟨e, hpos⟩
    · exact absurd hpos hns
    · obtain ⟨m, hm, hreg⟩ := h.io e hpos
      simp only [step, fire, hpos, resumed, hreg, only, if_true] at hs
      cases hs
      exact ⟨rfl, by simp [finish], fun _ => ⟨r, rfl⟩⟩
  | jobDone => cases hs; exact ⟨hp, by simp, by simp⟩

theorem reachNS_priv {st : St} (h : ReachNS st) : st.priv = false ∧ st.pos ≠ .sleep := by
  induction h with
  | init => exact ⟨rfl, by simp [St.init]⟩
  | step h1 h2 h3 h4 h5 ih =>
    have := step_priv (reach_inv h1.reach) ih.1 ih.2 _ h2 h3 h5 h4
    exact ⟨this.1, this.2.1⟩

/-- C136: however often the call underneath says "would block", the call returns its first other result. What is missing: coroutines
that have slept before, see C136_sleep_violated. -/
theorem C136_result_partial {st : St} (h : ReachNS st) (hr : st.pos = .run) (e : Nat) (k : Kind) (to_ : Option Nat)
    (m : Nat) (ms : List Nat) (hms : ∀ x ∈ m :: ms, x ≠ 0) (v : Int) :
    ∃ st', run st (.call e k to_ (.block m) :: ms.map (fun m => .ready e (.block m)) ++ [.ready e (.done v)]) = .ok (st', some (.val v)) ∧
      st'.pos = .run ∧ st'.timer = none ∧ (∀ x, st'.reg x = none) :=
  result_aux h.reach hr (reachNS_priv h).1 e k to_ m ms hms v

/-- C136: a call reports a timeout only when its timer has run out. What is missing: coroutines that sleep, see C136_sleep_violated. -/
theorem C136_timeout_partial {st st' : St} {v : Option Ret} (h : ReachNS st) (o : Op) (he : enabled st o) (hl : Legal o)
    (hn : ∀ d, o ≠ .sleep d) (hs : step st o = .ok (st', v)) (hv : v = some .timedOut) : (∃ r, o = .fire r) ∧ st.timer.isSome := by
  obtain ⟨h1, h2⟩ := reachNS_priv h
  obtain ⟨r, rfl⟩ := (step_priv (reach_inv h.reach) h1 h2 o he hl hs hn).2.2 hv
  exact ⟨⟨r, rfl⟩, he.2⟩

/-- C136 is violated: eventer_aco_sleep leaves the mark of its own timeout behind. The next call that has to wait reports a timeout
when its descriptor is ready, though it has no timeout, and what could have been read is not read. -/
theorem C136_sleep_violated {st : St} (h : Reach st) (hr : st.pos = .run) (d e m : Nat) (k : Kind) (r0 r : Res) (hm : m ≠ 0) :
    ∃ st', run st [.sleep d, .fire r0, .call e k none (.block m), .ready e r] = .ok (st', some .timedOut) := by
  have inv := reach_inv h
  have ht : st.timer = none := (C136_clean h (Or.inl hr)).1
  have e1 : step st (.sleep d) = .ok ({ st with timer := some d, trig := none, pos := .sleep }, none) := by
    simp only [step, sleep, ht, suspend]
    rw [if_neg (by simp), unwind_nothing _ _ (by exact (show st.reg = nothing from idle_run inv hr))]
    rfl
  have r1 : Reach _ := .step (o := .sleep d) h hr trivial e1
  have e2 : step ({ st with timer := some d, trig := none, pos := .sleep } : St) (.fire r0) =
      .ok ({ st with timer := none, trig := none, priv := true, pos := .run }, none) := rfl
  have i2 : Inv ({ st with timer := none, trig := none, priv := true, pos := .run } : St) :=
    ⟨inv.arg, fun _ => (by exact (show st.reg = nothing from idle_run inv hr)), fun e h => absurd h (by simp), fun h => absurd h (by simp), fun h => absurd h (by simp), fun _ => rfl⟩
  have hreg : st.reg = nothing := idle_run inv hr
  simp only [run]
  rw [e1, ok_b, e2, ok_b]
  simp only [step]
  rw [call_eq i2 rfl, attempt_block _ _ _ (by exact hreg) hm, ok_b]
  simp only [ready, resumed, only, if_true]
  exact ⟨_, rfl⟩

/-- Two waits and a result: 17 bytes are read. -/
example : ∃ st, run St.init [.call 7 .read none (.block 1), .ready 7 (.block 1), .ready 7 (.done 17)] = .ok (st, some (.val 17)) :=
  ⟨_, rfl⟩

/-- A timeout set for reads of the descriptor runs out. -/
example : ∃ st, run St.init [.setDefault 7 .read (some 5), .call 7 .write none (.done 3), .call 7 .read none (.block 1), .fire (.done 0)] =
    .ok (st, some .timedOut) :=
  ⟨_, rfl⟩

/-- The same after a sleep, without any timeout and with 17 bytes there to be read. -/
example : ∃ st, run St.init [.sleep 5, .fire (.done 0), .call 7 .read none (.block 1), .ready 7 (.done 17)] = .ok (st, some .timedOut) :=
  ⟨_, rfl⟩

/-- States meeting the hypotheses: a coroutine in a call, and one that runs. -/
example : ∃ st, ReachNS st ∧ st.pos = .io 7 ∧ st.timer = some 5 :=
  ⟨_, .step (o := .call 7 .read (some 5) (.block 1)) .init rfl (show (1 : Nat) ≠ 0 by decide) (fun d => by simp) rfl, rfl, rfl⟩

end Mtev.AcoIo
