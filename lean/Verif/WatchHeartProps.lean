import Verif.WatchHeart

/-!
# Properties of the hearts

C98: a child is taken for hung if, and only if, one of its hearts is silent for
longer than its timeout.
-/

namespace Mtev.WatchHeart

/-- a state that some sequence of steps leads to -/
def Reachable (g : Nat) (s : S) : Prop := ∃ t0 evs, runs g (init t0) evs = some s

theorem Reachable.inv {g : Nat} {s : S} (h : Reachable g s) : Inv s := by
  obtain ⟨t0, evs, hr⟩ := h
  exact runs_inv (fun _ _ _ h1 h2 => h1.step h2) evs _ _ (Inv.init t0) hr

theorem Reachable.front {g : Nat} {s : S} (h : Reachable g s) : Front s := by
  obtain ⟨t0, evs, hr⟩ := h
  exact runs_inv (fun _ _ _ h1 h2 => h1.step h2) evs _ _ (Front.init t0) hr

/-- No false alarms: whatever the threads of the child and the monitor do and
however their steps are mixed, every verdict is about a heart that has beaten, and
when the monitor read its counter, in a check begun at `f.at_`, the last beat was
more than the timeout ago; `late` is the longest the monitor took from the start
of a check to its look at a heart.  Partial: the heart may have been disabled all
that time, and may have beaten between the look and the verdict; see
`C98_enable_violated` and `C98_enable_all_violated`. -/
theorem C98_silent_partial (g : Nat) (s : S) (h : Reachable g s) (f : Flag) (hf : f ∈ s.flags) :
    ∃ b, f.lastBeat = some b ∧ b + f.timeout < f.at_ + s.late :=
  h.inv.flags f hf

/-- a beat at 1000000, a look at 1000000, and a verdict at 6000001 -/
example : (runs 5000000 (init 1000000)
      [.beat 0, .check, .check, .check, .check, .check, .tick 5000001, .check, .check, .check]).map
      S.flags = some [⟨0, 1, 6000001, 5000000, some 1000000⟩] := by decide +kernel

theorem timeout_own (g : Nat) (h : Heart) : timeout g h = if h.over = 0 then g else h.over := by
  unfold timeout
  by_cases h0 : h.over = 0 <;> simp [h0]

/-- The limit of a verdict: a verdict that a step adds is about a heart that is on, and its limit is the
heart's own time limit if it has one and else the global one (two seconds more if the heart was found silent
before). -/
theorem C98_limit (g : Nat) (s s' : S) (e : Ev) (hs : step g s e = some s') (f : Flag) (hf : f ∈ s'.flags)
    (hn : f ∉ s.flags) :
    (s.hearts f.heart).active = .on ∧
    f.timeout = (if (s.hearts f.heart).over = 0 then g else (s.hearts f.heart).over)
      + (if (s.hearts f.heart).victim then 2000000 else 0) := by
  cases e <;> simp only [step] at hs
  case check =>
    cases hs
    unfold check at hf
    split at hf
    · split at hf <;> exact absurd hf hn
    · exact absurd hf hn
    · rename_i i t a lb hpc
      unfold judge at hf
      simp only at hf
      split at hf
      · exact absurd hf hn
      · exact absurd hf hn
      · rename_i hon
        split at hf
        · rename_i hv
          simp only [List.mem_append, List.mem_singleton] at hf
          rcases hf with hf | rfl
          · exact absurd hf hn
          · exact ⟨hon, by simp [timeout_own, hv.1]⟩
        · split at hf
          · rename_i hv
            simp only [List.mem_append, List.mem_singleton] at hf
            rcases hf with hf | rfl
            · exact absurd hf hn
            · exact ⟨hon, by simp [timeout_own, hv.1, victimTimeout]⟩
          · exact absurd hf hn
  case create k =>
    cases hs
    unfold create at hf
    split at hf <;> (try split at hf) <;> (try split at hf) <;> exact absurd hf hn
  all_goals
    first
    | (cases hs; exact absurd hf hn)
    | (split at hs
       · cases hs
       · cases hs; exact absurd hf hn)

/-- A hung child is found: when the monitor begins a check, hearts are not all
disabled, and an enabled heart has been silent since the check begun at `c` (the
first to see its last beat) for longer than its timeout (or, if it was found
silent before, two seconds more), then that check, run to its end, gives a verdict
about this heart or one before it. -/
theorem C98_found (g : Nat) (s : S) (h : Reachable g s) (hidle : s.pc = .idle)
    (hg : s.global = true) (i c : Nat) (hi : i < 1024)
    (hon : (s.hearts i).active = .on) (hsame : (s.hearts i).lastTicker = (s.hearts i).ticker)
    (hc : (s.hearts i).changed = some c)
    (hage : c + (if (s.hearts i).over = 0 then g else (s.hearts i).over)
      + (if (s.hearts i).victim then 2000000 else 0) < s.now) :
    ∃ m s' f, runs g s (List.replicate m .check) = some s' ∧ s'.pc = .idle ∧
      s'.flags = s.flags ++ [f] ∧ f.heart ≤ i := by
  rw [← timeout_own] at hage
  have hfr : ∀ j < i, (s.hearts j).active ≠ .off := by
    intro j hj
    exact h.front.front i j hj (by rw [hon]; simp)
  have hch : check g s = { s with pc := .look 0 s.now } := by simp [check, hidle, hg]
  have hov : Overdue g (check g s) i s.now := by
    rw [hch]
    refine ⟨hon, hsame, c, hc, ?_⟩
    cases hv : (s.hearts i).victim with
    | false => left; rw [hv] at hage; exact ⟨rfl, by simpa using hage⟩
    | true => right; rw [hv] at hage; exact ⟨rfl, by simpa [victimTimeout] using hage⟩
  obtain ⟨m, f, h1, h2, h3⟩ := checks_flag g i (check g s) i s.now hi
    (by rw [hch]; exact hfr) hov 0 (by omega) (by rw [hch])
  refine ⟨m + 1, _, f, checks_runs g (m + 1) s, h1, ?_, h3⟩
  simp only [checks]
  rw [h2, hch]

/-- such a state -/
example : ∃ s, Reachable 5000000 s ∧ s.pc = .idle ∧ s.global = true ∧
    (s.hearts 1).active = .on ∧ (s.hearts 1).lastTicker = (s.hearts 1).ticker ∧
    (s.hearts 1).changed = some 1000000 ∧ 1000000 + timeout 5000000 (s.hearts 1) < s.now := by
  refine ⟨_, ⟨1000000, [.create 7, .create 7, .create 7, .create 7, .beat 1, .check, .check, .check,
    .check, .check, .check, .check, .tick 5000001], rfl⟩, ?_⟩
  decide +kernel

/-- after a look the monitor's view is up to date: it knows the counter, and since
when it has this value -/
theorem C98_look (s : S) (i t : Nat) :
    ((look s i t).hearts i).lastTicker = ((look s i t).hearts i).ticker ∧
    ((s.hearts i).lastTicker ≠ (s.hearts i).ticker →
      ((look s i t).hearts i).changed = some t) := by
  simp only [look, put_same, seen]
  split
  · simp
  · rename_i h
    exact ⟨by simpa using h, fun h2 => absurd h2 h⟩

/-- A child that hangs before its first beat is never found, however long it
takes. -/
theorem C98_never_violated (g t0 : Nat) (evs : List Ev) (s : S)
    (hev : ∀ e ∈ evs, e = .check ∨ ∃ d, e = .tick d) (hr : runs g (init t0) evs = some s) :
    s.flags = [] := by
  have h := (Reachable.inv ⟨t0, evs, hr⟩).flags
  -- no heart ever beats
  have key : ∀ (evs : List Ev) (s0 s : S), (∀ e ∈ evs, e = .check ∨ ∃ d, e = .tick d) →
      ((∀ i, s0.lastBeat i = none) ∧ (∀ i t a lb, s0.pc = .judge i t a lb → lb = none) ∧
        ∀ f ∈ s0.flags, f.lastBeat = none) → runs g s0 evs = some s →
      ∀ f ∈ s.flags, f.lastBeat = none := by
    intro evs
    induction evs with
    | nil => intro s0 s _ h0 hr; simp only [runs, Option.some.injEq] at hr; subst hr; exact h0.2.2
    | cons e es ih =>
      intro s0 s hev h0 hr
      simp only [runs] at hr
      rcases hev e (by simp) with rfl | ⟨d, rfl⟩
      · simp only [step, Option.bind_some] at hr
        refine ih _ s (fun e he => hev e (by simp [he])) ?_ hr
        obtain ⟨h1, h2, h3⟩ := h0
        unfold check
        split
        · split
          · exact ⟨h1, by simp, h3⟩
          · exact ⟨h1, h2, h3⟩
        · rename_i i t _
          refine ⟨h1, ?_, h3⟩
          intro j u a lb hj
          simp only [look, Pc.judge.injEq] at hj
          rw [← hj.2.2.2]; exact h1 i
        · rename_i i t a lb hpc
          have hlb := h2 i t a lb hpc
          unfold judge
          simp only
          split
          · exact ⟨h1, by simp, h3⟩
          · refine ⟨h1, ?_, h3⟩
            intro j u a lb hj; simp only [nextPc] at hj; split at hj <;> cases hj
          · split
            · refine ⟨h1, by simp, ?_⟩
              intro f hf
              rw [List.mem_append] at hf
              rcases hf with hf | hf
              · exact h3 f hf
              · simp only [List.mem_singleton] at hf; subst hf; exact hlb
            · split
              · refine ⟨h1, by simp, ?_⟩
                intro f hf
                rw [List.mem_append] at hf
                rcases hf with hf | hf
                · exact h3 f hf
                · simp only [List.mem_singleton] at hf; subst hf; exact hlb
              · refine ⟨h1, ?_, h3⟩
                intro j u a lb hj; simp only [nextPc] at hj; split at hj <;> cases hj
      · simp only [step, Option.bind_some] at hr
        exact ih { s0 with now := s0.now + d } s (fun e he => hev e (by simp [he]))
          ⟨h0.1, h0.2.1, h0.2.2⟩ hr
  have h2 := key evs (init t0) s hev ⟨by simp [init], by simp [init], by simp [init]⟩ hr
  cases hfl : s.flags with
  | nil => rfl
  | cons f fs =>
    obtain ⟨b, h3, _⟩ := h f (by simp [hfl])
    rw [h2 f (by simp [hfl])] at h3
    cases h3

/-- ten hours of silence -/
example : (runs 5000000 (init 1000000) [.check, .check, .check, .check, .check, .tick 36000000000, .check, .check, .check,
      .check, .check]).map S.flags = some [] := by decide +kernel

/-- Enabling a heart again may get the child killed: heart 0 is disabled for ten
seconds; `mtev_watchdog_enable` (a beat, then the store) is called and done between
the monitor's two reads, and the monitor takes the child for hung. -/
theorem C98_enable_violated :
    (runs 5000000 (init 1000000)
      [.beat 0, .check, .check, .check, .check, .check, .disable 0, .tick 10000000,
       .check, .check, .beat 0, .on 0, .check]).map
      (fun s => (s.flags, s.lastBeat 0, s.now)) =
    some ([⟨0, 1, 11000000, 5000000, some 1000000⟩], some 11000000, 11000000) := by decide +kernel

/-- And enabling all hearts again gives no heart any time: silence while all were
disabled counts against the child. -/
theorem C98_enable_all_violated :
    (runs 5000000 (init 1000000)
      [.beat 0, .check, .check, .check, .check, .check, .disableAll, .tick 10000000, .enableAll,
       .check, .check, .check]).map S.flags =
    some [⟨0, 1, 11000000, 5000000, some 1000000⟩] := by decide +kernel

/-- A disabled heart gets no verdict, and none do while all are disabled and no check
is under way. -/
theorem C98_disabled (g : Nat) (s s' : S) (h : step g s .check = some s') :
    (∀ i t a lb, s.pc = .judge i t a lb → (s.hearts i).active = .skip → s'.flags = s.flags) ∧
    (s.pc = .idle → s.global = false → s' = s) := by
  simp only [step, Option.some.injEq] at h
  subst h
  constructor
  · intro i t a lb hpc hsk
    simp [check, hpc, judge, hsk]
  · intro hpc hg
    simp [check, hpc, hg]

/-- The hearts in use lie in front of those that are not, so that a check, which ends
at the first unused one, passes all of them. -/
theorem C98_front (g : Nat) (s : S) (h : Reachable g s) (i j : Nat) (hij : j < i)
    (hi : (s.hearts i).active ≠ .off) : (s.hearts j).active ≠ .off :=
  h.front.front i j hij hi

/-- A thread that is handed a heart no other thread has taken meanwhile has it to
itself.  Partial: see `C98_shared_violated`. -/
theorem C98_create_partial (g : Nat) (s : S) (h : Reachable g s) (k i : Nat)
    (hk : s.cpc k = .found i) (hoff : (s.hearts i).active = .off) :
    (create s k).cpc k = .got i ∧ ((create s k).hearts i).active = .on ∧
      ∀ k', k' ≠ k → (create s k).cpc k' ≠ .got i := by
  have hc : create s k = { s with
      hearts := put s.hearts i { s.hearts i with active := .on }
      cpc := put s.cpc k (.got i) } := by simp [create, hk]
  rw [hc]
  refine ⟨by simp, by simp, ?_⟩
  intro k' hne hgot
  simp only at hgot
  rw [put_other _ _ _ _ hne] at hgot
  exact h.front.got k' i hgot hoff

example : ∃ s, Reachable 5000000 s ∧ s.cpc 7 = .found 1 ∧ (s.hearts 1).active = .off := by
  refine ⟨_, ⟨1000000, [.create 7, .create 7, .create 7], rfl⟩, ?_⟩
  decide +kernel

/-- Two threads that ask for a heart at the same time may get the same one: then a
hang of one of them is not found while the other beats. -/
theorem C98_shared_violated :
    (runs 5000000 (init 1000000)
      [.create 1, .create 1, .create 1, .create 2, .create 2, .create 2, .create 1, .create 2]).map
      (fun s => (s.cpc 1, s.cpc 2)) = some (.got 1, .got 1) := by decide +kernel

end Mtev.WatchHeart
