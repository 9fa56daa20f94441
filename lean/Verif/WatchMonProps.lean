import Verif.WatchMon

/-!
# Properties of the monitor

C96: restarts are limited.  C97: children are replaced, one at a time.
-/

namespace Mtev.WatchMon

/-! ## Specification -/

/-- how many of the times lie in the stretch of `span` seconds that begins at `a` -/
def within (a span : Nat) (l : List Nat) : Nat :=
  (l.filter fun x => decide (a ≤ x ∧ x ≤ a + span)).length

/-- the ends after which no new child is wanted: it returned 0 or 2, or was
interrupted (`SIGINT`, `SIGQUIT`) -/
def Wanted (st : Status) : Prop :=
  st = .exited 0 ∨ st = .exited 2 ∨ st = .killed 2 ∨ st = .killed 3

/-! ## C96 -/

/-- The limits asked for are the limits used: negative ones count as zero, and no
more than 100 restarts are counted. -/
theorem C96_config (r sp : Int) (a : Bool) :
    (ratelimit r sp a).retries = min r.toNat 100 ∧ (ratelimit r sp a).span = sp.toNat := by
  simp only [ratelimit, maxRetries]
  constructor
  · split <;> split <;> omega
  · split <;> omega

theorem config_le (r sp : Int) (a : Bool) : (ratelimit r sp a).retries ≤ maxRetries := by
  rw [(C96_config r sp a).1]; exact Nat.min_le_right _ _

/-- Fewer than `retries` restarts happen in any `span` seconds, and none at all if
`retries` is zero.  Partial: only if no crashed child gets as far as giving up its
resources for a dump, and (without asynchronous dumps) none is killed for being
hung; see `C96_crash_violated` and `C96_hang_violated`. -/
theorem C96_limit_partial (r sp : Int) (async : Bool) (t0 : Nat) (evs : List Ev) (s : S)
    (ht : sp.toNat < t0)
    (hc : ∀ e ∈ evs, Counted (ratelimit r sp async) e)
    (hr : runs (ratelimit r sp async) (init t0) evs = some s) (a : Nat) :
    within a sp.toNat s.restarts < max (min r.toNat 100) 1 ∧ (r ≤ 0 → s.restarts = []) := by
  have hm := config_le r sp async
  have hcfg := C96_config r sp async
  generalize hcc : ratelimit r sp async = c at *
  have hi := InvR.init c t0 hm (by rw [hcfg.2]; exact ht)
  obtain ⟨l, hl, heq⟩ := InvR.runs hm hi hr
  have hl2 := heq hc (by simp [init, fork]) (by simp [init, fork])
  have hsp := hl.spread
  rw [hl2] at hsp
  have hz : c.retries = 0 → s.restarts = [] := by
    intro h0
    cases hrs : s.restarts with
    | nil => rfl
    | cons x xs =>
      rw [hrs] at hsp
      have := hsp 0 x x (by simp) (by simp [h0])
      omega
  constructor
  · rcases Nat.eq_zero_or_pos c.retries with h0 | h0
    · rw [hz h0]
      simp only [within, List.filter_nil, List.length_nil]
      omega
    · have := spread_count c.retries c.span a h0 s.restarts hl.sorted hsp
      rw [hcfg.2, hcfg.1] at this
      unfold within
      omega
  · intro h0
    exact hz (by rw [hcfg.1]; omega)

/-- a child that ends three times with exit code 1, far enough apart -/
example : (runs (ratelimit 2 60 true) (init 1000)
      [.ends 0 (.exited 1), .chld, .reap, .ask (some 0), .start, .tick 61,
       .ends 1 (.killed 11), .chld, .reap, .ask (some 1), .start]).map
      (fun s => (s.restarts, s.phase)) = some ([1000, 1061], .loop) := by decide +kernel

/-- The monitor does not give up early: whatever happened, it gives up because of
the limit only if `retries` is zero or the child has ended `retries` times
(restarts, and the end at time `t` that made it give up) within `span` seconds. -/
theorem C96_gives_up (r sp : Int) (async : Bool) (t0 : Nat) (evs : List Ev) (s : S)
    (ht : sp.toNat < t0)
    (hr : runs (ratelimit r sp async) (init t0) evs = some s)
    (hq : s.phase = .exited .limit) :
    r ≤ 0 ∨ ∃ t, t ≤ s.now ∧ min r.toNat 100 ≤
      (s.restarts.filter fun x => decide (x ≤ t ∧ t ≤ x + sp.toNat)).length + 1 := by
  have hm := config_le r sp async
  have hcfg := C96_config r sp async
  have hi := InvR.init (ratelimit r sp async) t0 hm (by rw [hcfg.2]; exact ht)
  obtain ⟨l, hl, _⟩ := InvR.runs hm hi hr
  rcases hl.quit hq with h | ⟨t, h1, h2⟩
  · left; rw [hcfg.1] at h; omega
  · right; rw [hcfg.1, hcfg.2] at h2; exact ⟨t, h1, h2⟩

/-- the second end within 60 seconds is one too many -/
example : (runs (ratelimit 2 60 true) (init 1000)
      [.ends 0 (.exited 1), .chld, .reap, .ask (some 0), .start, .tick 60,
       .ends 1 (.killed 11), .chld, .reap, .ask (some 1)]).map
      (fun s => (s.restarts, s.phase)) = some ([1000], .exited .limit) := by decide +kernel

/-- Nothing has gone wrong so far: the present child is the `n`-th, all the others
are gone -/
structure Fresh (t n : Nat) (s : S) : Prop where
  now : s.now = t
  phase : s.phase = .loop
  child : s.child = n
  next : s.next = n + 1
  monitored : s.monitored = some n
  crashing : s.crashing = none
  running : s.procs n = .running
  mark : s.mark n = .fresh
  action : s.action = .none
  others : ∀ p < n, s.procs p = .gone
  restarts : s.restarts = List.replicate n t

/-- one crash with a dump -/
def crashLoop (n : Nat) : List Ev :=
  [.crash n, .chld, .reap, .ask (some n), .release n, .alarm 0, .start,
   .ends n (.killed 11), .chld, .reap, .ask none]

theorem crash_again (c : Cfg) (ha : c.async = true) (t n : Nat) (s : S) (h : Fresh t n s) :
    ∃ s', runs c s (crashLoop n) = some s' ∧ Fresh t (n + 1) s' := by
  have hne : n ≠ n + 1 := by omega
  have hne' : n + 1 ≠ n := by omega
  have hall : ∀ p < n + 2, reportable (put (put (put (put (put s.procs n (.stopped false)) n
      (.stopped true)) n .running) (n + 1) .running) n (.zombie (.killed 11)) p) = true →
      p = n := by
    intro p hp hrep
    by_contra hpn
    rw [put_other _ _ _ _ hpn] at hrep
    by_cases hp1 : p = n + 1
    · subst hp1; rw [put_same] at hrep; simp [reportable] at hrep
    · rw [put_other _ _ _ _ hp1, put_other _ _ _ _ hpn, put_other _ _ _ _ hpn,
        put_other _ _ _ _ hpn, h.others p (by omega)] at hrep
      simp [reportable] at hrep
  have hfin : ∀ p < n + 2, reportable (put (put (put (put (put (put s.procs n (.stopped false)) n
      (.stopped true)) n .running) (n + 1) .running) n (.zombie (.killed 11))) n .gone p) =
      false := by
    intro p hp
    by_cases hpn : p = n
    · subst hpn; simp [reportable]
    · rw [put_other _ _ _ _ hpn]
      cases hx : reportable (put (put (put (put (put s.procs n (.stopped false)) n
        (.stopped true)) n .running) (n + 1) .running) n (.zombie (.killed 11)) p) with
      | false => rfl
      | true => exact absurd (hall p hp hx) hpn
  have hrs : reportable (.stopped false) = true := rfl
  refine ⟨{ s with
      procs := put (put (put (put (put (put s.procs n (.stopped false)) n (.stopped true)) n
        .running) (n + 1) .running) n (.zombie (.killed 11))) n .gone
      mark := put (put (put s.mark n .crashed) n .released) (n + 1) .fresh
      next := n + 2, action := .none, child := n + 1, monitored := some (n + 1),
      crashing := none, phase := .loop, restarts := s.restarts ++ [s.now] }, ?_, ?_⟩
  · simp only [crashLoop, runs, step, h.phase, h.child, h.next, h.monitored, h.crashing, h.running,
      h.mark, h.action, ha, put_same, and_self, if_true, Option.bind_some, hrs, mine, wake,
      onAlarm, fork, waitFor, Option.map_some, hne, hne', if_false, reduceCtorEq, Bool.true_eq_false,
      false_and, true_and, and_true, put_other _ _ _ _ hne, put_other _ _ _ _ hne', Option.some.injEq]
    rw [if_pos hfin]
    rfl
  · refine ⟨h.now, rfl, rfl, rfl, rfl, rfl, ?_, ?_, rfl, ?_, ?_⟩
    · simp [put_other _ _ _ _ hne']
    · simp
    · intro p hp
      by_cases hpn : p = n
      · subst hpn; simp
      · simp [put, hpn, show p ≠ n + 1 by omega, h.others p (by omega)]
    · simp only [h.restarts, h.now]
      rw [List.replicate_succ']

/-- The limit does not hold for crashes: with the default settings (5 restarts in
60 seconds, asynchronous dumps) a child that crashes at once each time is
restarted any number of times within one second. -/
theorem C96_crash_violated (n : Nat) :
    ∃ evs s, runs (ratelimit 5 60 true) (init 1000) evs = some s ∧ s.now = 1000 ∧
      s.phase = .loop ∧ within 1000 60 s.restarts = n := by
  have key : ∃ evs s, runs (ratelimit 5 60 true) (init 1000) evs = some s ∧ Fresh 1000 n s := by
    induction n with
    | zero =>
      refine ⟨[], _, rfl, ⟨rfl, rfl, rfl, rfl, rfl, rfl, rfl, rfl, rfl, ?_, rfl⟩⟩
      intro p hp; omega
    | succ n ih =>
      obtain ⟨evs, s, h1, h2⟩ := ih
      obtain ⟨s', h3, h4⟩ := crash_again (ratelimit 5 60 true) rfl 1000 n s h2
      exact ⟨evs ++ crashLoop n, s', by rw [runs_append, h1]; exact h3, h4⟩
  obtain ⟨evs, s, h1, h2⟩ := key
  refine ⟨evs, s, h1, h2.now, h2.phase, ?_⟩
  rw [within, h2.restarts, List.filter_eq_self.2, List.length_replicate]
  intro x hx
  rw [List.mem_replicate] at hx
  simp [hx.2]

/-- one hang, without asynchronous dumps: found hung after 8 seconds, killed -/
def hang (n : Nat) : List Ev := [.tick 8, .alarm 2, .ends n (.killed 9), .start]

/-- Nor does it hold for children killed because they hang, if asynchronous dumps
are off: here the child is restarted seven times within 60 seconds. -/
theorem C96_hang_violated :
    (runs (ratelimit 5 60 false) (init 1000)
      (hang 0 ++ hang 1 ++ hang 2 ++ hang 3 ++ hang 4 ++ hang 5 ++ hang 6)).map
      (fun s => (s.phase, within 1000 60 s.restarts)) = some (.loop, 7) := by decide +kernel

/-- A limit of one restart allows none: the first end of the child is the last. -/
theorem C96_one_violated (sp : Int) (async : Bool) (t0 : Nat) (evs : List Ev) (s : S)
    (ht : sp.toNat < t0) (hc : ∀ e ∈ evs, Counted (ratelimit 1 sp async) e)
    (hr : runs (ratelimit 1 sp async) (init t0) evs = some s) : s.restarts = [] := by
  cases hrs : s.restarts with
  | nil => rfl
  | cons x xs =>
    have := (C96_limit_partial 1 sp async t0 evs s ht hc hr x).1
    rw [hrs, within, List.filter_cons_of_pos (by simp)] at this
    simp at this

example : (runs (ratelimit 1 60 true) (init 1000)
      [.ends 0 (.exited 1), .chld, .reap, .ask (some 0)]).map
      (fun s => (s.restarts, s.phase)) = some ([], .exited .limit) := by decide +kernel

/-! ## C97 -/

/-- Without asynchronous dumps there is never more than one child: a new one is
started only when the one before has ended and been waited for.  Partial: with
asynchronous dumps the old one may still be dumping (`C97_overlap_partial`). -/
theorem C97_dead_first_partial (c : Cfg) (ha : c.async = false) (t0 : Nat) (evs : List Ev) (s : S)
    (hr : runs c (init t0) evs = some s) (p : Nat) (hp : alive (s.procs p)) : p = s.child := by
  have h := InvP.runs (InvP.init c t0) (by rw [ha]; simp) hr
  by_contra hne
  rcases Nat.lt_or_ge p s.child with h1 | h1
  · rcases h.old p h1 with h2 | ⟨h2, _⟩
    · rw [h2] at hp; exact hp
    · rw [ha] at h2; cases h2
  · rw [h.unborn p (by omega)] at hp; exact hp

example : (runs ⟨5, 60, false⟩ (init 1000)
      [.crash 0, .alarm 0, .reap, .ask (some 0), .ends 0 (.killed 6), .chld, .reap, .ask (some 0),
       .start]).map
      (fun s => (s.procs 0, s.procs 1, s.child)) = some (.gone, .running, 1) := by decide +kernel

/-- With asynchronous dumps there is, beside the present child, at most one other,
which has crashed and has closed the descriptors it was told to.  Partial: only if
nobody but the monitor continues a stopped child; see `C97_three_violated`. -/
theorem C97_overlap_partial (c : Cfg) (ha : c.async = true) (t0 : Nat) (evs : List Ev) (s : S)
    (hno : ∀ p, Ev.cont p ∉ evs) (hr : runs c (init t0) evs = some s) :
    ∃ q, ∀ p, alive (s.procs p) → p = s.child ∨ (p = q ∧ s.mark p = .released) := by
  have h := InvP.runs (InvP.init c t0) (fun _ => hno) hr
  cases hcr : s.crashing with
  | none =>
    refine ⟨0, ?_⟩
    intro p hp
    left
    by_contra hne
    rcases Nat.lt_or_ge p s.child with h1 | h1
    · rcases h.old p h1 with h2 | ⟨_, h2, _⟩
      · rw [h2] at hp; exact hp
      · rw [hcr] at h2; cases h2
    · rw [h.unborn p (by omega)] at hp; exact hp
  | some q =>
    refine ⟨q, ?_⟩
    intro p hp
    by_cases hne : p = s.child
    · exact Or.inl hne
    · right
      rcases Nat.lt_or_ge p s.child with h1 | h1
      · rcases h.old p h1 with h2 | ⟨_, h2, h3⟩
        · rw [h2] at hp; exact absurd hp (by simp [alive])
        · rw [hcr] at h2; cases h2; exact ⟨rfl, h3⟩
      · rw [h.unborn p (by omega)] at hp; exact absurd hp (by simp [alive])

/-- the old child dumps, the new one runs -/
example : (runs ⟨5, 60, true⟩ (init 1000)
      [.crash 0, .chld, .reap, .ask (some 0), .release 0, .alarm 0, .start]).map
      (fun s => (s.procs 0, s.procs 1, s.mark 0)) = some (.running, .running, .released) := by
  decide +kernel

/-- If someone else continues a stopped child there may be three at a time. -/
theorem C97_three_violated :
    (runs ⟨5, 60, true⟩ (init 1000)
      [.crash 0, .cont 0, .release 0, .alarm 0, .start,
       .crash 1, .chld, .reap, .ask (some 1), .release 1, .alarm 0, .start]).map
      (fun s => (s.procs 0, s.procs 1, s.procs 2)) = some (.running, .running, .running) := by
  decide +kernel

/-- The monitor acts on the end of its child: it exits if the limit is exceeded or
the end was a wanted one, and otherwise goes on to start another child. -/
theorem C97_decision (c : Cfg) (s s' : S) (st : Status) (hst : s.procs s.child = .zombie st)
    (h : step c s (.ask (some s.child)) = some s') :
    s'.phase = .exited .limit ∨ (s'.phase = .exited (.acknowledged st) ∧ Wanted st) ∨
      (s'.phase = .out ∧ ¬ Wanted st ∧ s'.restarts = s.restarts ++ [s.now]) := by
  have hs' : s' = ended c s st := by
    simp only [step, hst, reportable, if_true, mine] at h
    split at h
    · cases h; rfl
    · cases h
  obtain ⟨e1, e2, e3, e4, e5, e6, e7, e8, e9, e10, e11, e12⟩ := ended_cases c s st
  rw [← hs'] at e11 e12
  rcases hq : (updateRetries c s.now s.offset s.times).1 with _ | _
  · rw [hq] at e11 e12
    right
    have hreq : requested st = true ↔ Wanted st := by
      unfold requested Wanted
      cases st <;> simp <;> omega
    rcases hrq : requested st with _ | _
    · right
      rw [hrq] at e11 e12
      refine ⟨by simpa using e11, ?_, by simpa using e12⟩
      intro hw
      rw [hreq.2 hw] at hrq
      cases hrq
    · left
      rw [hrq] at e11
      exact ⟨by simpa using e11, hreq.1 hrq⟩
  · left; rw [hq] at e11; simpa using e11

/-- The monitor exits only for a reason: it was told to, the child ended as
wanted, or the limit was exceeded. -/
theorem C97_reason (c : Cfg) (t0 : Nat) (evs : List Ev) (s : S) (w : Why)
    (hr : runs c (init t0) evs = some s) (hw : s.phase = .exited w) :
    w = .limit ∨ (∃ st, w = .acknowledged st ∧ Wanted st) ∨ (w = .asked ∧ ∃ sig, .term sig ∈ evs) := by
  have key : ∀ (evs : List Ev) (s0 s : S), (∀ w, s0.phase ≠ .exited w) →
      runs c s0 evs = some s → s.phase = .exited w →
      w = .limit ∨ (∃ st, w = .acknowledged st ∧ Wanted st) ∨
        (w = .asked ∧ ∃ sig, Ev.term sig ∈ evs) := by
    intro evs
    induction evs with
    | nil =>
      intro s0 s h0 hr hw
      simp only [runs, Option.some.injEq] at hr
      subst hr
      exact absurd hw (h0 w)
    | cons e es ih =>
      intro s0 s h0 hr hw
      simp only [runs] at hr
      cases hs : step c s0 e with
      | none => rw [hs] at hr; cases hr
      | some s1 =>
        rw [hs] at hr
        simp only [Option.bind_some] at hr
        by_cases h1 : ∃ w1, s1.phase = .exited w1
        · obtain ⟨w1, hw1⟩ := h1
          have hstay : ∀ (es : List Ev) (a b : S), a.phase = .exited w1 → runs c a es = some b →
              b.phase = .exited w1 := by
            intro es
            induction es with
            | nil => intro a b ha hb; simp only [runs, Option.some.injEq] at hb; subst hb; exact ha
            | cons x xs ih2 =>
              intro a b ha hb
              simp only [runs] at hb
              cases hx : step c a x with
              | none => rw [hx] at hb; cases hb
              | some a1 =>
                rw [hx] at hb
                simp only [Option.bind_some] at hb
                exact ih2 a1 b (exited_frame ha hx).1 hb
          have := hstay es s1 s hw1 hr
          rw [hw] at this
          cases this
          rcases step_cases hs with f | ⟨_, _, _, _, _, h5⟩ | ⟨st, h2, h3, h4⟩
          · rcases f.phase _ hw1 with h2 | h2
            · exact absurd h2 (h0 _)
            · subst h2
              right; right
              refine ⟨rfl, ?_⟩
              by_cases hterm : ∃ sig, e = .term sig
              · obtain ⟨sig, he⟩ := hterm
                exact ⟨sig, by simp [he]⟩
              · exfalso
                -- only the signal leads there
                cases e with
                | term sig => exact hterm ⟨sig, rfl⟩
                | tick d =>
                  simp only [step, Option.some.injEq] at hs; subst hs; exact h0 _ hw1
                | ends p st =>
                  simp only [step] at hs
                  split at hs
                  · cases hs; exact h0 _ hw1
                  · split at hs
                    · cases hs; exact h0 _ hw1
                    · cases hs
                  · cases hs; exact h0 _ hw1
                  · cases hs
                | stop p =>
                  simp only [step] at hs
                  split at hs
                  · cases hs; exact h0 _ hw1
                  · cases hs
                | cont p =>
                  simp only [step] at hs
                  split at hs
                  · cases hs; exact h0 _ hw1
                  · cases hs
                | crash p =>
                  simp only [step] at hs
                  split at hs
                  · cases hs; exact h0 _ hw1
                  · cases hs
                | release p =>
                  simp only [step] at hs
                  split at hs
                  · cases hs; exact h0 _ hw1
                  · cases hs
                | alarm hcs =>
                  simp only [step] at hs
                  split at hs
                  · simp only [Option.some.injEq] at hs
                    subst hs
                    unfold onAlarm at hw1
                    split at hw1
                    · cases hw1
                    · split at hw1
                      · cases hc : c.async <;> rw [hc] at hw1 <;> simp at hw1
                      · cases hw1
                  · cases hs
                | chld =>
                  simp only [step] at hs
                  split at hs
                  · cases hs; cases hw1
                  · cases hs
                | reap =>
                  simp only [step] at hs
                  split at hs
                  · split at hs
                    · split at hs
                      · cases hs; cases hw1
                      · simp only [Option.map_eq_some_iff] at hs
                        obtain ⟨s2, _, h2⟩ := hs
                        subst h2; cases hw1
                    · cases hs; cases hw1
                  · cases hs
                | ask r =>
                  simp only [step] at hs
                  split at hs
                  · split at hs
                    · split at hs
                      · cases hs; cases hw1
                      · cases hs
                    · rename_i p
                      split at hs
                      · rename_i hrep
                        split at hs
                        · rename_i hpc
                          subst hpc
                          simp only [Option.some.injEq] at hs
                          subst hs
                          rcases mine_cases c s0 hrep with ⟨st, k1, k2⟩ | ⟨k1, ⟨k2, k3, k4⟩ | ⟨k2, k4⟩⟩
                          · rw [k2, (ended_cases c s0 st).2.2.2.2.2.2.2.2.2.2.1] at hw1
                            split at hw1
                            · cases hw1
                            · split at hw1 <;> cases hw1
                          · rw [k4] at hw1; cases hw1
                          · rw [k4] at hw1; cases hw1
                        · simp only [Option.some.injEq] at hs
                          subst hs
                          obtain ⟨x, k1, _⟩ := other_cases s0 p hrep
                          rw [k1] at hw1; cases hw1
                      · cases hs
                  · cases hs
                | start =>
                  simp only [step] at hs
                  split at hs
                  · split at hs
                    · split at hs
                      · simp only [Option.map_eq_some_iff] at hs
                        obtain ⟨s2, _, h2⟩ := hs
                        subst h2; cases hw1
                      · cases hs; cases hw1
                    · cases hs; cases hw1
                  · cases hs
          · rw [h5] at hw1; cases hw1
          · subst h4
            rw [(ended_cases c s0 st).2.2.2.2.2.2.2.2.2.2.1] at hw1
            split at hw1
            · left; cases hw1; rfl
            · split at hw1
              · rename_i hreq
                right; left
                simp only [Phase.exited.injEq] at hw1
                refine ⟨st, hw1.symm, ?_⟩
                unfold requested at hreq
                unfold Wanted
                cases st <;> simp at hreq ⊢ <;> omega
              · cases hw1
        · rcases ih s1 s (fun w1 hw1 => h1 ⟨w1, hw1⟩) hr hw with h2 | h2 | ⟨h2, sig, h3⟩
          · exact Or.inl h2
          · exact Or.inr (Or.inl h2)
          · exact Or.inr (Or.inr ⟨h2, sig, List.mem_cons_of_mem _ h3⟩)
  refine key evs (init t0) s ?_ hr hw
  intro w1; simp [init, fork]

example : (runs ⟨5, 60, true⟩ (init 1000)
      [.ends 0 (.exited 2), .chld, .reap, .ask (some 0)]).map S.phase =
      some (.exited (.acknowledged (.exited 2))) := by decide +kernel

/-- A monitor that has decided to start another child does so: at once, or, without
asynchronous dumps, as soon as the one it killed is dead. -/
theorem C97_starts (c : Cfg) (t0 : Nat) (evs : List Ev) (s : S)
    (hno : c.async = true → ∀ p, Ev.cont p ∉ evs)
    (hr : runs c (init t0) evs = some s) (hph : s.phase = .out)
    (hdead : c.async = true ∨ s.procs s.child = .gone ∨ ∃ st, s.procs s.child = .zombie st) :
    ∃ s', step c s .start = some s' ∧ s'.child = s.child + 1 ∧ s'.procs s'.child = .running ∧
      s'.phase = .loop := by
  have h := InvP.runs (InvP.init c t0) hno hr
  simp only [step, hph, if_true]
  have hf : ∀ s1 : S, s1.next = s.child + 1 → (fork s1).child = s.child + 1 ∧
      (fork s1).procs (fork s1).child = .running ∧ (fork s1).phase = .loop := by
    intro s1 h1; simp [fork, h1]
  cases hcr : s.crashing with
  | none => exact ⟨_, rfl, hf s h.next⟩
  | some p =>
    have hp : p = s.child := by
      rcases h.out hph with ⟨_, h1⟩ | ⟨h1, _⟩
      · rw [hcr] at h1; cases h1
      · rw [hcr] at h1; cases h1; rfl
    subst hp
    cases ha : c.async with
    | true => exact ⟨_, by simp, hf s h.next⟩
    | false =>
      rcases hdead with h1 | h1 | ⟨st, h1⟩
      · rw [ha] at h1; cases h1
      · exact ⟨fork { s with crashing := none }, by simp [waitFor, h1], hf _ h.next⟩
      · exact ⟨fork { s with procs := put s.procs s.child .gone, crashing := none },
          by simp [waitFor, h1], hf _ h.next⟩

/-- While an old child is still dumping, the monitor does not listen: here the new
child runs, the old one has not ended, and neither a signal to shut down nor an
alarm nor the end of the new child is acted on, until the old one ends. -/
theorem C97_deaf_violated : ∃ s, runs ⟨5, 60, true⟩ (init 1000)
      [.crash 0, .chld, .reap, .ask (some 0), .release 0, .alarm 0, .start, .alarm 0] = some s ∧
    s.procs s.child = .running ∧ s.procs 0 = .running ∧ s.child = 1 ∧
    ∀ e s', (e = .reap ∨ e = .start ∨ e = .chld ∨ (∃ h, e = .alarm h) ∨ (∃ g, e = .term g) ∨
      (∃ r, e = .ask r)) → step ⟨5, 60, true⟩ s e ≠ some s' := by
  have h : ∃ s, runs ⟨5, 60, true⟩ (init 1000)
      [.crash 0, .chld, .reap, .ask (some 0), .release 0, .alarm 0, .start, .alarm 0] = some s ∧
      s.phase = .reap ∧ s.crashing = some 0 ∧ s.child = 1 ∧ s.procs 0 = .running ∧
      s.procs 1 = .running := by
    refine ⟨_, rfl, ?_⟩
    decide +kernel
  obtain ⟨s, h1, h2, h3, h4, h5, h6⟩ := h
  refine ⟨s, h1, by rw [h4]; exact h6, h5, h4, ?_⟩
  intro e s' he
  rcases he with rfl | rfl | rfl | ⟨x, rfl⟩ | ⟨x, rfl⟩ | ⟨x, rfl⟩
  · simp [step, h2, h3, h4, waitFor, h5]
  all_goals simp [step, h2]

end Mtev.WatchMon
