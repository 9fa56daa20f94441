import Verif.Basic

/-!
# Hearts: how the monitor finds a hung child

`src/utils/mtev_watchdog.c`: `it_ticks`, `last_tick_time`, `mtev_heartcheck`,
`mtev_watchdog_create`, `mtev_watchdog_enable`, `mtev_watchdog_disable`,
`mtev_watchdog_enable_all`, `mtev_watchdog_disable_all`,
`mtev_watchdog_override_timeout`.

The hearts lie in memory shared between the child (any number of threads) and the
monitor.  A step is one access to it: the monitor reads the counter of a heart
and, separately, its state.

Simplified: times are microseconds (the code computes ages and timeouts as
`double`s); the clock does not run backwards; the counter does not wrap (the
monitor looks at its low 32 bits only); the marks `CRASHY_CRASH` and
`CRASHY_RESTART` of heart 0 are in `WatchMon`; reads of the state and the mark of
a heart are one step.
-/

namespace Mtev.WatchHeart

/-- `mtev_watchdog_active_e`, `mtev_watchdog.c:74-78` -/
inductive Active where
  | off
  | on
  | skip
deriving DecidableEq, Repr

/-- `struct mtev_watchdog_t`, `mtev_watchdog.c:80-99`; `over` is zero where there
is no own timeout; `changed` is `none` where `last_changed.tv_sec` is zero -/
structure Heart where
  ticker : Nat := 0
  active : Active := .off
  victim : Bool := false
  lastTicker : Nat := 0
  changed : Option Nat := none
  over : Nat := 0
deriving DecidableEq, Repr

/-- `MAX_HEARTS`, `mtev_watchdog.c:179` -/
def maxHearts : Nat := 1024

/-- `WATCHDOG_VICTIM_TIMEOUT`, `mtev_watchdog.c:177` -/
def victimTimeout : Nat := 2000000

/-- where the monitor is in `mtev_heartcheck`: `t` is the time it asked for at the
start; `lb` is bookkeeping (the last beat there had been when the counter was
read) -/
inductive Pc where
  | idle
  | look (i t : Nat)
  | judge (i t age : Nat) (lb : Option Nat)
deriving DecidableEq, Repr

/-- where a thread is in `mtev_watchdog_create` -/
inductive CPc where
  | idle
  | scan (i : Nat)
  | found (i : Nat)
  | got (i : Nat)
  | failed
deriving DecidableEq, Repr

/-- a verdict of `mtev_heartcheck` -/
structure Flag where
  heart : Nat
  /-- 1: asked to end; 2: killed -/
  kind : Nat
  at_ : Nat
  timeout : Nat
  lastBeat : Option Nat
deriving DecidableEq, Repr

structure S where
  now : Nat
  hearts : Nat → Heart
  global : Bool
  pc : Pc
  cpc : Nat → CPc
  flags : List Flag
  /-- the last beat of each heart (bookkeeping) -/
  lastBeat : Nat → Option Nat
  /-- the longest time between the start of a check and a look at a heart
  (bookkeeping) -/
  late : Nat

/-- one place of a function changed -/
def put {α : Type} (f : Nat → α) (i : Nat) (v : α) : Nat → α :=
  fun j => if j = i then v else f j

@[simp] theorem put_same {α : Type} (f : Nat → α) (i : Nat) (v : α) : put f i v i = v := by
  simp [put]

theorem put_other {α : Type} (f : Nat → α) (i j : Nat) (v : α) (h : j ≠ i) :
    put f i v j = f j := by simp [put, h]

/-- things that happen -/
inductive Ev where
  | tick (d : Nat)
  /-- `it_ticks`, `mtev_watchdog.c:430-435` -/
  | beat (i : Nat)
  /-- the store of `HEART_ACTIVE_ON` in `mtev_watchdog_enable`
  (`mtev_watchdog.c:1123-1128`; the beat before it is a step of its own) -/
  | on (i : Nat)
  /-- `mtev_watchdog_disable`, `mtev_watchdog.c:1202-1205` -/
  | disable (i : Nat)
  /-- `mtev_watchdog_override_timeout`, `mtev_watchdog.c:1162-1165` -/
  | override (i v : Nat)
  /-- `mtev_watchdog_enable_all`, `mtev_watchdog.c:1129-1131` -/
  | enableAll
  /-- `mtev_watchdog_disable_all`, `mtev_watchdog.c:1207-1209` -/
  | disableAll
  /-- thread `k` goes on in `mtev_watchdog_create`, `mtev_watchdog.c:1103-1121` -/
  | create (k : Nat)
  /-- the monitor goes on in `mtev_heartcheck`, `mtev_watchdog.c:754-788` -/
  | check
deriving DecidableEq, Repr

/-- the timeout that holds for a heart, `mtev_watchdog.c:774`; `g` is the global
one -/
def timeout (g : Nat) (h : Heart) : Nat := if h.over ≠ 0 then h.over else g

/-- `last_tick_time`, `mtev_watchdog.c:378-392`: the heart as the monitor leaves it -/
def seen (h : Heart) (t : Nat) : Heart :=
  if h.lastTicker ≠ h.ticker then { h with lastTicker := h.ticker, changed := some t } else h

/-- and the age it answers -/
def age (h : Heart) (t : Nat) : Nat :=
  match (seen h t).changed with
  | none => 0
  | some c => t - c

/-- the monitor reads the counter of heart `i`, `mtev_watchdog.c:766-773` -/
def look (s : S) (i t : Nat) : S :=
  { s with
    hearts := put s.hearts i (seen (s.hearts i) t)
    pc := .judge i t (age (s.hearts i) t) (s.lastBeat i)
    late := max s.late (s.now - t) }

/-- on to the next heart -/
def nextPc (i t : Nat) : Pc := if i + 1 < maxHearts then .look (i + 1) t else .idle

/-- the monitor reads the state of heart `i` and decides,
`mtev_watchdog.c:775-785` -/
def judge (g : Nat) (s : S) (i t a : Nat) (lb : Option Nat) : S :=
  let h := s.hearts i
  match h.active with
  | .off => { s with pc := .idle }
  | .skip => { s with pc := nextPc i t }
  | .on =>
    if h.victim = false ∧ a > timeout g h then
      { s with hearts := put s.hearts i { h with victim := true }, pc := .idle,
               flags := s.flags ++ [⟨i, 1, t, timeout g h, lb⟩] }
    else if h.victim = true ∧ a > timeout g h + victimTimeout then
      { s with pc := .idle, flags := s.flags ++ [⟨i, 2, t, timeout g h + victimTimeout, lb⟩] }
    else { s with pc := nextPc i t }

/-- one step of the monitor -/
def check (g : Nat) (s : S) : S :=
  match s.pc with
  | .idle => if s.global then { s with pc := .look 0 s.now } else s
  | .look i t => look s i t
  | .judge i t a lb => judge g s i t a lb

/-- one step of a thread in `mtev_watchdog_create` -/
def create (s : S) (k : Nat) : S :=
  match s.cpc k with
  | .idle => { s with cpc := put s.cpc k (.scan 0) }
  | .scan i =>
    if (s.hearts i).active = .off then { s with cpc := put s.cpc k (.found i) }
    else if i + 1 < maxHearts then { s with cpc := put s.cpc k (.scan (i + 1)) }
    else { s with cpc := put s.cpc k .failed }
  | .found i =>
    { s with hearts := put s.hearts i { s.hearts i with active := .on },
             cpc := put s.cpc k (.got i) }
  | _ => s

/-- one step; a heart is only used by a program once it has been handed out, so
`beat`, `on`, `disable` and `override` need it not to be off -/
def step (g : Nat) (s : S) : Ev → Option S
  | .tick d => some { s with now := s.now + d }
  | .beat i =>
    if (s.hearts i).active = .off then none else
    some { s with
      hearts := put s.hearts i { s.hearts i with ticker := (s.hearts i).ticker + 1 }
      lastBeat := put s.lastBeat i (some s.now) }
  | .on i =>
    if (s.hearts i).active = .off then none else
    some { s with hearts := put s.hearts i { s.hearts i with active := .on } }
  | .disable i =>
    if (s.hearts i).active = .off then none else
    some { s with hearts := put s.hearts i { s.hearts i with active := .skip } }
  | .override i v =>
    if (s.hearts i).active = .off then none else
    some { s with hearts := put s.hearts i { s.hearts i with over := v } }
  | .enableAll => some { s with global := true }
  | .disableAll => some { s with global := false }
  | .create k => some (create s k)
  | .check => some (check g s)

/-- all zero, heart 0 on: `it_ticks_zero(NULL)`, `mtev_watchdog.c:416-429` -/
def init (t0 : Nat) : S :=
  { now := t0, hearts := fun i => if i = 0 then { active := .on } else {}, global := true,
    pc := .idle, cpc := fun _ => .idle, flags := [], lastBeat := fun _ => none, late := 0 }

/-- a sequence of steps -/
def runs (g : Nat) : S → List Ev → Option S
  | s, [] => some s
  | s, e :: es => (step g s e).bind fun s' => runs g s' es

theorem runs_append (g : Nat) (s : S) (a b : List Ev) :
    runs g s (a ++ b) = (runs g s a).bind fun s' => runs g s' b := by
  induction a generalizing s with
  | nil => rfl
  | cons e es ih =>
    simp only [List.cons_append, runs]
    cases step g s e with
    | none => rfl
    | some s' => simp [ih]

/-- an invariant of the steps is one of the runs -/
theorem runs_inv {g : Nat} {P : S → Prop}
    (hP : ∀ s s' e, P s → step g s e = some s' → P s') :
    ∀ (evs : List Ev) (s s' : S), P s → runs g s evs = some s' → P s' := by
  intro evs
  induction evs with
  | nil => intro s s' h hr; simp only [runs, Option.some.injEq] at hr; subst hr; exact h
  | cons e es ih =>
    intro s s' h hr
    simp only [runs] at hr
    cases hs : step g s e with
    | none => rw [hs] at hr; cases hr
    | some s1 =>
      rw [hs] at hr
      simp only [Option.bind_some] at hr
      exact ih s1 s' (hP s s1 e h hs) hr

/-! ## What is known of one heart -/

/-- the monitor's view of a heart `h` whose last beat was `lb` -/
structure View (now late : Nat) (h : Heart) (lb : Option Nat) : Prop where
  le : h.lastTicker ≤ h.ticker
  never : lb = none → h.ticker = 0
  beat : ∀ b, lb = some b → b ≤ now ∧ 0 < h.ticker
  fresh : h.lastTicker = 0 → h.changed = none
  same : ∀ b, lb = some b → h.lastTicker = h.ticker → ∃ c, h.changed = some c ∧ b ≤ c + late
  past : ∀ c, h.changed = some c → c ≤ now

theorem View.later {now now' late late' : Nat} {h : Heart} {lb : Option Nat}
    (v : View now late h lb) (h1 : now ≤ now') (h2 : late ≤ late') : View now' late' h lb := by
  refine ⟨v.le, v.never, ?_, v.fresh, ?_, ?_⟩
  · intro b hb; exact ⟨Nat.le_trans (v.beat b hb).1 h1, (v.beat b hb).2⟩
  · intro b hb he
    obtain ⟨c, h3, h4⟩ := v.same b hb he
    exact ⟨c, h3, by omega⟩
  · intro c hc; exact Nat.le_trans (v.past c hc) h1

theorem View.congr {now late : Nat} {h h' : Heart} {lb : Option Nat} (v : View now late h lb)
    (h1 : h'.ticker = h.ticker) (h2 : h'.lastTicker = h.lastTicker) (h3 : h'.changed = h.changed) :
    View now late h' lb := by
  refine ⟨by rw [h1, h2]; exact v.le, by rw [h1]; exact v.never, by rw [h1]; exact v.beat,
    by rw [h2, h3]; exact v.fresh, by rw [h1, h2, h3]; exact v.same, by rw [h3]; exact v.past⟩

theorem View.seen {now late t : Nat} {h : Heart} {lb : Option Nat} (v : View now late h lb)
    (ht : t ≤ now) : View now (max late (now - t)) (seen h t) lb := by
  unfold WatchHeart.seen
  split
  · rename_i hne
    refine ⟨Nat.le_refl _, v.never, v.beat, ?_, ?_, ?_⟩
    · intro h0
      simp only at h0
      have := v.le
      exact absurd (show h.lastTicker = h.ticker by omega) hne
    · intro b hb _
      have := (v.beat b hb).1
      exact ⟨t, rfl, by omega⟩
    · intro c hc
      simp only [Option.some.injEq] at hc
      omega
  · exact v.later (Nat.le_refl _) (by omega)

/-- what the age says -/
theorem View.age_lt {now late t a : Nat} {h : Heart} {lb : Option Nat} (v : View now late h lb)
    (ht : t ≤ now) (ha : a < age h t) : ∃ b, lb = some b ∧ b + a < t + late := by
  unfold age WatchHeart.seen at ha
  split at ha
  · omega
  · rename_i c hc
    split at hc
    · simp only [Option.some.injEq] at hc; omega
    · rename_i he
      have he : h.lastTicker = h.ticker := by simpa using he
      cases hlb : lb with
      | none =>
        have h0 := v.never hlb
        have := v.fresh (by omega)
        rw [hc] at this; cases this
      | some b =>
        obtain ⟨c', h1, h2⟩ := v.same b hlb he
        rw [hc] at h1; cases h1
        exact ⟨b, rfl, by omega⟩

/-- every heart is seen so, and every verdict is about a silent heart -/
structure Inv (s : S) : Prop where
  view : ∀ i, View s.now s.late (s.hearts i) (s.lastBeat i)
  look : ∀ i t, s.pc = .look i t → t ≤ s.now
  judge : ∀ i t a lb, s.pc = .judge i t a lb → t ≤ s.now ∧
    ∀ x, x < a → ∃ b, lb = some b ∧ b + x < t + s.late
  flags : ∀ f ∈ s.flags, ∃ b, f.lastBeat = some b ∧ b + f.timeout < f.at_ + s.late

theorem Inv.init (t0 : Nat) : Inv (init t0) := by
  refine ⟨?_, by simp [WatchHeart.init], by simp [WatchHeart.init], by simp [WatchHeart.init]⟩
  intro i
  by_cases h : i = 0 <;> simp [WatchHeart.init, h] <;>
    exact ⟨by simp, by simp, by simp, by simp, by simp, by simp⟩

theorem Inv.hearts {s : S} (h : Inv s) {i : Nat} {h' : Heart}
    (h1 : h'.ticker = (s.hearts i).ticker) (h2 : h'.lastTicker = (s.hearts i).lastTicker)
    (h3 : h'.changed = (s.hearts i).changed) : Inv { s with hearts := put s.hearts i h' } := by
  refine ⟨?_, h.look, h.judge, h.flags⟩
  intro j
  simp only
  by_cases hj : j = i
  · subst hj; rw [put_same]; exact (h.view j).congr h1 h2 h3
  · rw [put_other _ _ _ _ hj]; exact h.view j

theorem Inv.withPc {s : S} (h : Inv s) (i t : Nat) (ht : t ≤ s.now) :
    Inv { s with pc := nextPc i t } := by
  refine ⟨h.view, ?_, ?_, h.flags⟩
  · intro j u hj
    simp only [nextPc] at hj
    split at hj
    · cases hj; exact ht
    · cases hj
  · intro j u a lb hj
    simp only [nextPc] at hj
    split at hj <;> cases hj

theorem Inv.check {g : Nat} {s : S} (h : Inv s) : Inv (check g s) := by
  unfold WatchHeart.check
  split
  · split
    · exact ⟨h.view, fun i t hi => by simp at hi; exact Nat.le_of_eq hi.2.symm, by simp, h.flags⟩
    · exact h
  · rename_i i t hpc
    have ht := h.look i t hpc
    refine ⟨?_, by simp [WatchHeart.look], ?_, ?_⟩
    · intro j
      simp only [WatchHeart.look]
      by_cases hj : j = i
      · subst hj; rw [put_same]; exact (h.view j).seen ht
      · rw [put_other _ _ _ _ hj]; exact (h.view j).later (Nat.le_refl _) (by omega)
    · intro j u a lb hj
      simp only [WatchHeart.look, Pc.judge.injEq] at hj
      obtain ⟨rfl, rfl, rfl, rfl⟩ := hj
      refine ⟨ht, ?_⟩
      intro x hx
      obtain ⟨b, h1, h2⟩ := (h.view i).age_lt ht hx
      exact ⟨b, h1, by simp only [WatchHeart.look]; omega⟩
    · intro f hf
      obtain ⟨b, h1, h2⟩ := h.flags f hf
      exact ⟨b, h1, by simp only [WatchHeart.look]; omega⟩
  · rename_i i t a lb hpc
    obtain ⟨ht, hage⟩ := h.judge i t a lb hpc
    unfold WatchHeart.judge
    simp only
    split
    · exact ⟨h.view, by simp, by simp, h.flags⟩
    · exact h.withPc i t ht
    · split
      · rename_i hc
        have h2 := h.hearts (i := i) (h' := { s.hearts i with victim := true }) rfl rfl rfl
        refine ⟨h2.view, by simp, by simp, ?_⟩
        intro f hf
        rw [List.mem_append] at hf
        rcases hf with hf | hf
        · exact h.flags f hf
        · simp only [List.mem_singleton] at hf
          subst hf
          exact hage _ hc.2
      · split
        · rename_i hc
          refine ⟨h.view, by simp, by simp, ?_⟩
          intro f hf
          rw [List.mem_append] at hf
          rcases hf with hf | hf
          · exact h.flags f hf
          · simp only [List.mem_singleton] at hf
            subst hf
            exact hage _ hc.2
        · exact h.withPc i t ht

theorem Inv.step {g : Nat} {s s' : S} {e : Ev} (h : Inv s) (hst : step g s e = some s') :
    Inv s' := by
  cases e with
  | tick d =>
    simp only [WatchHeart.step, Option.some.injEq] at hst
    subst hst
    refine ⟨fun i => (h.view i).later (Nat.le_add_right _ _) (Nat.le_refl _), ?_, ?_, h.flags⟩
    · intro i t hi; exact Nat.le_trans (h.look i t hi) (Nat.le_add_right _ _)
    · intro i t a lb hi
      exact ⟨Nat.le_trans (h.judge i t a lb hi).1 (Nat.le_add_right _ _), (h.judge i t a lb hi).2⟩
  | beat i =>
    simp only [WatchHeart.step] at hst
    split at hst
    · cases hst
    · cases hst
      refine ⟨?_, h.look, h.judge, h.flags⟩
      intro j
      simp only
      by_cases hj : j = i
      · subst hj
        rw [put_same, put_same]
        have hl := (h.view j).le
        refine ⟨by simp; omega, by simp, ?_, (h.view j).fresh, ?_, (h.view j).past⟩
        · intro b hb; simp only [Option.some.injEq] at hb; simp; omega
        · intro b _ he; simp only at he; omega
      · rw [put_other _ _ _ _ hj, put_other _ _ _ _ hj]; exact h.view j
  | on i =>
    simp only [WatchHeart.step] at hst
    split at hst
    · cases hst
    · cases hst; exact h.hearts rfl rfl rfl
  | disable i =>
    simp only [WatchHeart.step] at hst
    split at hst
    · cases hst
    · cases hst; exact h.hearts rfl rfl rfl
  | override i v =>
    simp only [WatchHeart.step] at hst
    split at hst
    · cases hst
    · cases hst; exact h.hearts rfl rfl rfl
  | enableAll =>
    simp only [WatchHeart.step, Option.some.injEq] at hst
    subst hst; exact ⟨h.view, h.look, h.judge, h.flags⟩
  | disableAll =>
    simp only [WatchHeart.step, Option.some.injEq] at hst
    subst hst; exact ⟨h.view, h.look, h.judge, h.flags⟩
  | create k =>
    simp only [WatchHeart.step, Option.some.injEq] at hst
    subst hst
    unfold create
    split
    · exact ⟨h.view, h.look, h.judge, h.flags⟩
    · split
      · exact ⟨h.view, h.look, h.judge, h.flags⟩
      · split
        · exact ⟨h.view, h.look, h.judge, h.flags⟩
        · exact ⟨h.view, h.look, h.judge, h.flags⟩
    · rename_i i hi
      have h2 := h.hearts (i := i) (h' := { s.hearts i with active := .on }) rfl rfl rfl
      exact ⟨h2.view, h2.look, h2.judge, h2.flags⟩
    · exact h
  | check =>
    simp only [WatchHeart.step, Option.some.injEq] at hst
    subst hst; exact h.check

/-! ## The hearts in use come first -/

structure Front (s : S) : Prop where
  front : ∀ i j, j < i → (s.hearts i).active ≠ .off → (s.hearts j).active ≠ .off
  scan : ∀ k i, s.cpc k = .scan i → ∀ j < i, (s.hearts j).active ≠ .off
  found : ∀ k i, s.cpc k = .found i → ∀ j < i, (s.hearts j).active ≠ .off
  got : ∀ k i, s.cpc k = .got i → (s.hearts i).active ≠ .off

theorem Front.init (t0 : Nat) : Front (init t0) := by
  refine ⟨?_, by simp [WatchHeart.init], by simp [WatchHeart.init], by simp [WatchHeart.init]⟩
  intro i j hij hi
  have : i ≠ 0 := by omega
  simp [WatchHeart.init, this] at hi

/-- no heart that is in use goes out of use -/
theorem Front.hearts {s : S} (h : Front s) {hs : Nat → Heart}
    (h1 : ∀ i, (hs i).active = .off ↔ (s.hearts i).active = .off) :
    Front { s with hearts := hs } := by
  refine ⟨?_, ?_, ?_, ?_⟩
  · intro i j hij hi
    rw [Ne, h1] at hi ⊢
    exact h.front i j hij hi
  · intro k i hk j hj
    rw [Ne, h1]; exact h.scan k i hk j hj
  · intro k i hk j hj
    rw [Ne, h1]; exact h.found k i hk j hj
  · intro k i hk
    rw [Ne, h1]; exact h.got k i hk

theorem put_active {f : Nat → Heart} {i : Nat} {h' : Heart}
    (h : h'.active = .off ↔ (f i).active = .off) (j : Nat) :
    (put f i h' j).active = .off ↔ (f j).active = .off := by
  by_cases hj : j = i
  · subst hj; rw [put_same]; exact h
  · rw [put_other _ _ _ _ hj]

theorem seen_active (h : Heart) (t : Nat) : (seen h t).active = h.active := by
  unfold seen; split <;> rfl

theorem Front.step {g : Nat} {s s' : S} {e : Ev} (h : Front s) (hst : step g s e = some s') :
    Front s' := by
  cases e with
  | tick d =>
    simp only [WatchHeart.step, Option.some.injEq] at hst
    subst hst; exact ⟨h.front, h.scan, h.found, h.got⟩
  | beat i =>
    simp only [WatchHeart.step] at hst
    split at hst
    · cases hst
    · cases hst
      have := h.hearts (hs := put s.hearts i { s.hearts i with ticker := (s.hearts i).ticker + 1 })
        (put_active Iff.rfl)
      exact ⟨this.front, this.scan, this.found, this.got⟩
  | on i =>
    simp only [WatchHeart.step] at hst
    split at hst
    · cases hst
    · rename_i hne; cases hst; exact h.hearts (put_active (by simp [hne]))
  | disable i =>
    simp only [WatchHeart.step] at hst
    split at hst
    · cases hst
    · rename_i hne; cases hst; exact h.hearts (put_active (by simp [hne]))
  | override i v =>
    simp only [WatchHeart.step] at hst
    split at hst
    · cases hst
    · cases hst; exact h.hearts (put_active Iff.rfl)
  | enableAll =>
    simp only [WatchHeart.step, Option.some.injEq] at hst
    subst hst; exact ⟨h.front, h.scan, h.found, h.got⟩
  | disableAll =>
    simp only [WatchHeart.step, Option.some.injEq] at hst
    subst hst; exact ⟨h.front, h.scan, h.found, h.got⟩
  | create k =>
    simp only [WatchHeart.step, Option.some.injEq] at hst
    subst hst
    -- a thread moves on
    have mv : ∀ p : CPc, (∀ i, p = .scan i → ∀ j < i, (s.hearts j).active ≠ .off) →
        (∀ i, p = .found i → ∀ j < i, (s.hearts j).active ≠ .off) →
        (∀ i, p = .got i → (s.hearts i).active ≠ .off) →
        Front { s with cpc := put s.cpc k p } := by
      intro p h1 h2 h3
      refine ⟨h.front, ?_, ?_, ?_⟩
      · intro k' i hk
        simp only at hk
        by_cases hkk : k' = k
        · subst hkk; rw [put_same] at hk; exact h1 i hk
        · rw [put_other _ _ _ _ hkk] at hk; exact h.scan k' i hk
      · intro k' i hk
        simp only at hk
        by_cases hkk : k' = k
        · subst hkk; rw [put_same] at hk; exact h2 i hk
        · rw [put_other _ _ _ _ hkk] at hk; exact h.found k' i hk
      · intro k' i hk
        simp only at hk
        by_cases hkk : k' = k
        · subst hkk; rw [put_same] at hk; exact h3 i hk
        · rw [put_other _ _ _ _ hkk] at hk; exact h.got k' i hk
    unfold create
    split
    · exact mv _ (by intro i hi j hj; cases hi; omega) (by simp) (by simp)
    · rename_i i hi
      split
      · exact mv _ (by simp) (by intro i' hi'; cases hi'; exact h.scan k i hi) (by simp)
      · rename_i hne
        split
        · refine mv _ ?_ (by simp) (by simp)
          intro i' hi' j hj
          cases hi'
          by_cases hji : j = i
          · subst hji; exact hne
          · exact h.scan k i hi j (by omega)
        · exact mv _ (by simp) (by simp) (by simp)
    · rename_i i hi
      have hf := h.found k i hi
      have act : ∀ j, (put s.hearts i { s.hearts i with active := .on } j).active = .off →
          (s.hearts j).active = .off ∧ j ≠ i := by
        intro j hj
        by_cases hji : j = i
        · subst hji; rw [put_same] at hj; cases hj
        · rw [put_other _ _ _ _ hji] at hj; exact ⟨hj, hji⟩
      refine ⟨?_, ?_, ?_, ?_⟩
      · intro a b hab ha hb
        simp only at ha hb
        obtain ⟨h1, h2⟩ := act b hb
        by_cases hai : a = i
        · subst hai; exact hf b hab h1
        · rw [put_other _ _ _ _ hai] at ha; exact h.front a b hab ha h1
      · intro k' i' hk j hj hoff
        simp only at hk hoff
        obtain ⟨h1, h2⟩ := act j hoff
        by_cases hkk : k' = k
        · subst hkk; rw [put_same] at hk; cases hk
        · rw [put_other _ _ _ _ hkk] at hk; exact h.scan k' i' hk j hj h1
      · intro k' i' hk j hj hoff
        simp only at hk hoff
        obtain ⟨h1, h2⟩ := act j hoff
        by_cases hkk : k' = k
        · subst hkk; rw [put_same] at hk; cases hk
        · rw [put_other _ _ _ _ hkk] at hk; exact h.found k' i' hk j hj h1
      · intro k' i' hk hoff
        simp only at hk hoff
        obtain ⟨h1, h2⟩ := act i' hoff
        by_cases hkk : k' = k
        · subst hkk; rw [put_same] at hk; cases hk; exact h2 rfl
        · rw [put_other _ _ _ _ hkk] at hk; exact h.got k' i' hk h1
    · exact h
  | check =>
    simp only [WatchHeart.step, Option.some.injEq] at hst
    subst hst
    unfold WatchHeart.check
    split
    · split
      · exact ⟨h.front, h.scan, h.found, h.got⟩
      · exact h
    · rename_i i t _
      have := h.hearts (hs := put s.hearts i (seen (s.hearts i) t))
        (put_active (by rw [seen_active]))
      exact ⟨this.front, this.scan, this.found, this.got⟩
    · rename_i i t a lb _
      unfold WatchHeart.judge
      simp only
      split
      · exact ⟨h.front, h.scan, h.found, h.got⟩
      · exact ⟨h.front, h.scan, h.found, h.got⟩
      · split
        · have := h.hearts (hs := put s.hearts i { s.hearts i with victim := true })
            (put_active Iff.rfl)
          exact ⟨this.front, this.scan, this.found, this.got⟩
        · split <;> exact ⟨h.front, h.scan, h.found, h.got⟩

/-! ## A check on its own -/

/-- `n` steps of the monitor -/
def checks (g : Nat) : Nat → S → S
  | 0, s => s
  | n + 1, s => checks g n (check g s)

theorem checks_runs (g n : Nat) (s : S) :
    runs g s (List.replicate n .check) = some (checks g n s) := by
  induction n generalizing s with
  | zero => rfl
  | succ n ih => simp [List.replicate_succ, runs, step, checks, ih]

/-- heart `i` is silent for too long, as far as the monitor knows at time `t` -/
def Overdue (g : Nat) (s : S) (i t : Nat) : Prop :=
  (s.hearts i).active = .on ∧ (s.hearts i).lastTicker = (s.hearts i).ticker ∧
  ∃ c, (s.hearts i).changed = some c ∧
    (((s.hearts i).victim = false ∧ c + timeout g (s.hearts i) < t) ∨
     ((s.hearts i).victim = true ∧ c + timeout g (s.hearts i) + victimTimeout < t))

theorem checks_flag (g : Nat) (n : Nat) :
    ∀ (s : S) (i t : Nat), i < maxHearts → (∀ j < i, (s.hearts j).active ≠ .off) →
      Overdue g s (i) t → ∀ j, i = j + n → s.pc = .look j t →
      ∃ m f, (checks g m s).pc = .idle ∧ (checks g m s).flags = s.flags ++ [f] ∧ f.heart ≤ i := by
  induction n with
  | zero =>
    intro s i t hi hfr hov j hj hpc
    have hj : i = j := by omega
    subst hj
    obtain ⟨h1, h2, c, h3, h4⟩ := hov
    have hseen : seen (s.hearts i) t = s.hearts i := by simp [seen, h2]
    have hage : age (s.hearts i) t = t - c := by simp [age, hseen, h3]
    have hlook : check g s = look s i t := by simp [check, hpc]
    have hl1 : (look s i t).hearts i = s.hearts i := by simp [look, hseen]
    refine ⟨2, ?_⟩
    simp only [checks, hlook]
    have hj : check g (look s i t) = judge g (look s i t) i t (t - c) (s.lastBeat i) := by
      simp [check, look, hage]
    rw [hj]
    unfold judge
    simp only [hl1, h1]
    rcases h4 with ⟨h5, h6⟩ | ⟨h5, h6⟩
    · rw [if_pos ⟨h5, by omega⟩]
      exact ⟨_, rfl, rfl, Nat.le_refl _⟩
    · rw [if_neg (by simp [h5]), if_pos ⟨h5, by omega⟩]
      exact ⟨_, rfl, rfl, Nat.le_refl _⟩
  | succ n ih =>
    intro s i t hi hfr hov j hj hpc
    have hji : j ≠ i := by omega
    have hlook : check g s = look s j t := by simp [check, hpc]
    have hli : (look s j t).hearts i = s.hearts i := by
      simp only [look]; rw [put_other _ _ _ _ (by omega)]
    have hact : ∀ k, ((look s j t).hearts k).active = (s.hearts k).active := by
      intro k
      simp only [look]
      by_cases hk : k = j
      · subst hk; rw [put_same, seen_active]
      · rw [put_other _ _ _ _ hk]
    have hjudge : check g (look s j t) =
        judge g (look s j t) j t (age (s.hearts j) t) (s.lastBeat j) := by
      simp [check, look]
    have hstep : (∃ f, (check g (check g s)).pc = .idle ∧
        (check g (check g s)).flags = s.flags ++ [f] ∧ f.heart ≤ i) ∨
        check g (check g s) = { look s j t with pc := nextPc j t } := by
      rw [hlook, hjudge]
      unfold judge
      have hne := hfr j (by omega)
      rw [← hact j] at hne
      cases ha : ((look s j t).hearts j).active with
      | off => exact absurd ha hne
      | skip => right; simp only [ha]
      | on =>
        simp only [ha]
        split
        · left; exact ⟨_, rfl, rfl, by simp; omega⟩
        · split
          · left; exact ⟨_, rfl, rfl, by simp; omega⟩
          · right; rfl
    rcases hstep with ⟨f, h1, h2, h3⟩ | h1
    · exact ⟨2, f, h1, h2, h3⟩
    · have hov2 : Overdue g (check g (check g s)) i t := by
        rw [h1]; unfold Overdue; simp only [hli]; exact hov
      have hfr2 : ∀ k < i, ((check g (check g s)).hearts k).active ≠ .off := by
        intro k hk; rw [h1]; simp only [hact]; exact hfr k hk
      have hpc2 : (check g (check g s)).pc = .look (j + 1) t := by
        rw [h1]; simp only [nextPc]; rw [if_pos (by omega)]
      obtain ⟨m, f, h2, h3, h4⟩ := ih _ i t hi hfr2 hov2 (j + 1) (by omega) hpc2
      refine ⟨m + 2, f, h2, ?_, h4⟩
      have h5 : (check g (check g s)).flags = s.flags := by rw [h1]; rfl
      simp only [checks]
      rw [h3, h5]

end Mtev.WatchHeart
