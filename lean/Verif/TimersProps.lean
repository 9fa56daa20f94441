import Verif.Timers

/-!
C41: timed events fire never early, in order, exactly once unless cancelled, and the loop never
sleeps past the earliest of them.

The statements use: the events in the two lists (`pending`), the ghost logs of dispatched and
cancelled events, and times as integers in microseconds.
-/

namespace Mtev.Timers
open Mtev.Skiplist

def timedOf (s : TS) : List Ev := s.timed.main.elems.map (·.2)
def stagedOf (s : TS) : List Ev := s.staged.main.elems.map (·.2)
/-- Everything scheduled and not yet dispatched or cancelled. -/
def pending (s : TS) : List Ev := timedOf s ++ stagedOf s

/-- The event whose callback is running. -/
def runningPtr (s : TS) : List Nat :=
  match s.phase with
  | .running _ e => [e.ptr]
  | _ => []

/-- The contract of the callers.  Times are normalised; an event is added only while it is not
scheduled and its callback not running; another thread does not reschedule an event while its
callback runs. -/
def Allowed (s : TS) : Act → Prop
  | .add p w _ => w.norm ∧ p ∉ (pending s).map Ev.ptr ∧ p ∉ runningPtr s
  | .remove _ => True
  | .update p w _ => w.norm ∧ p ∉ runningPtr s
  | .updateSelf w => w.norm
  | .enter c => c.norm
  | .tick c => c.norm
  | .ret _ _ _ => True
  | .check => True
  | .sweep _ => True

/-- States the event loop can be in, other threads acting at any moment. -/
inductive Reach (maxSleep : TV) : TS → Prop where
  | init : Reach maxSleep TS.init
  | step {s s' a} : Reach maxSleep s → Allowed s a → step maxSleep s a = some (.ok s') →
      Reach maxSleep s'

/-! ### The invariant -/

/-- What holds in each phase about the lists. -/
def PhaseInv (s : TS) (xs : List Ev) : Prop :=
  match s.phase with
  | .idle => True
  | .loop n => xs.length ≤ n ∧ s.next.norm
  | .running n e => xs.length ≤ n ∧ e.whence.norm ∧ s.next.norm
  | .swept => s.now.norm ∧ s.next.norm ∧
      ∀ x ∈ xs, s.now.us ≤ x.whence.us ∧ s.next.us ≤ x.whence.us - s.now.us
  | .sweeping => s.now.norm ∧ s.next.norm ∧
      ∀ x ∈ xs, s.now.us ≤ x.whence.us ∧ s.next.us ≤ x.whence.us - s.now.us

/-- In the loop, events dispatched this round come before those still listed. -/
def RoundInv (s : TS) (xs : List Ev) : Prop :=
  match s.phase with
  | .loop _ => ∀ r ∈ s.round, ∀ x ∈ xs, r.whence.us ≤ x.whence.us
  | .running _ _ => ∀ r ∈ s.round, ∀ x ∈ xs, r.whence.us ≤ x.whence.us
  | _ => True

structure SInv (s : TS) (xs ys : List Ev) : Prop where
  timed : LInv s.timed xs
  staged : LInv s.staged ys
  ptrs : ((xs ++ ys).map Ev.ptr ++ runningPtr s).Nodup
  sids : ((xs ++ ys).map Ev.sid ++ s.fired.map (·.1.sid) ++ s.cancelled.map Ev.sid).Perm
    (List.range s.nsid)
  norm : ∀ x ∈ xs ++ ys, x.whence.norm
  early : ∀ p ∈ s.fired, p.1.whence.us < p.2.us
  sorted : s.round.Pairwise fun a b => a.whence.us ≤ b.whence.us
  round : RoundInv s xs
  phase : PhaseInv s xs
  nowN : s.now.norm

theorem SInv.init : SInv TS.init [] [] where
  timed := LInv.new
  staged := LInv.new
  ptrs := by simp [TS.init, runningPtr]
  sids := by simp [TS.init]
  norm := by simp
  early := by simp [TS.init]
  sorted := by simp [TS.init]
  round := trivial
  phase := trivial
  nowN := by simp [TS.init, TV.norm]

theorem timedOf_eq {s : TS} {xs ys : List Ev} (h : SInv s xs ys) : timedOf s = xs := h.timed.elems
theorem stagedOf_eq {s : TS} {xs ys : List Ev} (h : SInv s xs ys) : stagedOf s = ys := h.staged.elems
theorem pending_eq {s : TS} {xs ys : List Ev} (h : SInv s xs ys) : pending s = xs ++ ys := by
  rw [pending, timedOf_eq h, stagedOf_eq h]

theorem PhaseInv.sub {s s' : TS} {xs xs' : List Ev} (h : PhaseInv s xs) (hs : xs'.Sublist xs)
    (hp : s'.phase = s.phase) (hn : s'.next = s.next) (hw : s'.now = s.now) : PhaseInv s' xs' := by
  have hl := hs.length_le
  unfold PhaseInv at *
  rw [hp, hn, hw]
  cases h' : s.phase <;> rw [h'] at h <;> simp only at h ⊢
  · exact ⟨by omega, h.2⟩
  · exact ⟨by omega, h.2⟩
  · exact ⟨h.1, h.2.1, fun x hx => h.2.2 x (hs.subset hx)⟩
  · exact ⟨h.1, h.2.1, fun x hx => h.2.2 x (hs.subset hx)⟩

theorem RoundInv.sub {s s' : TS} {xs xs' : List Ev} (h : RoundInv s xs) (hs : xs'.Sublist xs)
    (hp : s'.phase = s.phase) (hr : s'.round = s.round) : RoundInv s' xs' := by
  unfold RoundInv at *
  rw [hp, hr]
  cases h' : s.phase <;> rw [h'] at h <;> simp only at h ⊢
  · exact fun r hr x hx => h r hr x (hs.subset hx)
  · exact fun r hr x hx => h r hr x (hs.subset hx)

theorem runningPtr_congr {s s' : TS} (h : s'.phase = s.phase) : runningPtr s' = runningPtr s := by
  unfold runningPtr; rw [h]

/-- One element moved out of the pending list. -/
theorem perm_out {xs ys : List Ev} {a b : List Ev} {x : Ev} (h : xs = a ++ x :: b) :
    (xs ++ ys).Perm (x :: (a ++ b ++ ys)) := by
  rw [h]
  have : (a ++ x :: b).Perm (x :: (a ++ b)) := List.perm_middle
  simpa using this.append_right ys

theorem perm_out' {xs ys : List Ev} {a b : List Ev} {x : Ev} (h : ys = a ++ x :: b) :
    (xs ++ ys).Perm (x :: (xs ++ (a ++ b))) := by
  rw [h]
  have : (a ++ x :: b).Perm (x :: (a ++ b)) := List.perm_middle
  exact (this.append_left xs).trans List.perm_middle

/-- Changing the lists while the phase stays: enough to know how the pending events change. -/
theorem SInv.change {s s' : TS} {xs ys xs' ys' : List Ev} (h : SInv s xs ys)
    (ht : LInv s'.timed xs') (hst : LInv s'.staged ys') (hsub : xs'.Sublist xs)
    (hp : s'.phase = s.phase) (hn : s'.next = s.next) (hw : s'.now = s.now)
    (hr : s'.round = s.round) (hf : s'.fired = s.fired)
    (hptr : ((xs' ++ ys').map Ev.ptr ++ runningPtr s).Nodup)
    (hsid : ((xs' ++ ys').map Ev.sid ++ s.fired.map (·.1.sid) ++ s'.cancelled.map Ev.sid).Perm
      (List.range s'.nsid))
    (hnorm : ∀ x ∈ xs' ++ ys', x.whence.norm) : SInv s' xs' ys' where
  timed := ht
  staged := hst
  ptrs := by rw [runningPtr_congr hp]; exact hptr
  sids := by rw [hf]; exact hsid
  norm := hnorm
  early := by rw [hf]; exact h.early
  sorted := by rw [hr]; exact h.sorted
  round := h.round.sub hsub hp hr
  phase := h.phase.sub hsub hp hn hw
  nowN := by rw [hw]; exact h.nowN

/-- `remove`. -/
theorem step_remove {m : TV} {s : TS} {xs ys : List Ev} (h : SInv s xs ys) (p : Nat) :
    ∃ s' xs' ys', step m s (.remove p) = some (.ok s') ∧ SInv s' xs' ys' ∧
      (∀ e ∈ s'.cancelled, e ∈ s.cancelled ∨ e.ptr = p) := by
  rcases h.timed.takeOut p with ⟨h1, e1⟩ | ⟨a, x, b, l', hx, hab, e1, hl⟩
  · rcases h.staged.takeOut p with ⟨h2, e2⟩ | ⟨a, x, b, l', hx, hab, e2, hl⟩
    · refine ⟨{ s with timed := s.timed, staged := s.staged, cancelled := s.cancelled ++ [] }, xs, ys, ?_, ?_, ?_⟩
      · simp only [step, e1, e2, Out.ok_bind, Out.pure_eq]
      · exact h.change h.timed h.staged (List.Sublist.refl _) rfl rfl rfl rfl rfl h.ptrs
          (by simpa using h.sids) h.norm
      · intro e he
        exact Or.inl (by simpa using he)
    · refine ⟨{ s with timed := s.timed, staged := l', cancelled := s.cancelled ++ [x] }, xs, a ++ b, ?_, ?_, ?_⟩
      · simp only [step, e1, e2, Out.ok_bind, Out.pure_eq]
      · have hpm := perm_out' (xs := xs) hab
        refine h.change h.timed hl (List.Sublist.refl _) rfl rfl rfl rfl rfl ?_ ?_ ?_
        · have := ((hpm.map Ev.ptr).append_right (runningPtr s)).nodup_iff.mp h.ptrs
          rw [List.map_cons, List.cons_append, List.nodup_cons] at this
          exact this.2
        · refine List.Perm.trans ?_ h.sids
          rw [List.perm_iff_count]
          intro z
          have := (hpm.map Ev.sid).count_eq z
          rw [List.map_cons] at this
          simp only [List.map_append, List.count_append, List.count_cons, List.map_cons, List.map_nil,
            List.count_nil] at this ⊢
          omega
        · intro z hz
          exact h.norm z (hpm.symm.subset (List.mem_cons_of_mem _ hz))
      · intro e he
        simp only [List.mem_append, List.mem_singleton] at he
        rcases he with he | rfl
        · exact Or.inl he
        · exact Or.inr hx
  · refine ⟨{ s with timed := l', cancelled := s.cancelled ++ [x] }, a ++ b, ys, ?_, ?_, ?_⟩
    · simp only [step, e1, Out.ok_bind, Out.pure_eq]
    · have hpm := perm_out (ys := ys) hab
      have hsub : (a ++ b).Sublist xs := by
        rw [hab]; exact (List.Sublist.refl _).append (List.sublist_cons_self _ _)
      refine h.change hl h.staged hsub rfl rfl rfl rfl rfl ?_ ?_ ?_
      · have := ((hpm.map Ev.ptr).append_right (runningPtr s)).nodup_iff.mp h.ptrs
        rw [List.map_cons, List.cons_append, List.nodup_cons] at this
        exact this.2
      · refine List.Perm.trans ?_ h.sids
        rw [List.perm_iff_count]
        intro z
        have := (hpm.map Ev.sid).count_eq z
        rw [List.map_cons] at this
        simp only [List.map_append, List.count_append, List.count_cons, List.map_cons, List.map_nil,
          List.count_nil] at this ⊢
        omega
      · intro z hz
        exact h.norm z (hpm.symm.subset (List.mem_cons_of_mem _ hz))
    · intro e he
      simp only [List.mem_append, List.mem_singleton] at he
      rcases he with he | rfl
      · exact Or.inl he
      · exact Or.inr hx

/-- Scheduling an event that is not scheduled. -/
theorem SInv.add {s : TS} {xs ys : List Ev} (h : SInv s xs ys) {p : Nat} {w : TV}
    (coins : Nat → Nat) (hw : w.norm) (hp : p ∉ (xs ++ ys).map Ev.ptr) (hr : p ∉ runningPtr s) :
    ∃ st ys', putIn s.staged ⟨p, w, s.nsid⟩ coins = .ok st ∧
      SInv { s with staged := st, nsid := s.nsid + 1 } xs ys' := by
  have hp2 : p ∉ ys.map Ev.ptr := fun hm => hp (by rw [List.map_append]; exact List.mem_append_right _ hm)
  obtain ⟨st, ys', e, hl, hpm⟩ := h.staged.put ⟨p, w, s.nsid⟩ coins hp2
  refine ⟨st, ys', e, ?_⟩
  have hpm2 : (xs ++ ys').Perm (⟨p, w, s.nsid⟩ :: (xs ++ ys)) :=
    (hpm.append_left xs).trans List.perm_middle
  refine h.change h.timed hl (List.Sublist.refl _) rfl rfl rfl rfl rfl ?_ ?_ ?_
  · rw [((hpm2.map Ev.ptr).append_right (runningPtr s)).nodup_iff]
    rw [List.map_cons, List.cons_append, List.nodup_cons]
    refine ⟨?_, h.ptrs⟩
    rw [List.mem_append]
    rintro (h' | h')
    · exact hp h'
    · exact hr h'
  · simp only
    rw [List.range_succ]
    have := (hpm2.map Ev.sid).append_right (s.fired.map (·.1.sid) ++ s.cancelled.map Ev.sid)
    rw [← List.append_assoc] at this
    refine this.trans ?_
    rw [List.map_cons, List.cons_append]
    refine List.Perm.trans (List.Perm.cons _ ?_) (List.perm_append_singleton _ _).symm
    rw [← List.append_assoc]
    exact h.sids
  · intro z hz
    rcases List.mem_cons.1 (hpm2.subset hz) with rfl | hz
    · exact hw
    · exact h.norm z hz

theorem step_add {m : TV} {s : TS} {xs ys : List Ev} (h : SInv s xs ys) {p : Nat} {w : TV}
    (coins : Nat → Nat) (ha : Allowed s (.add p w coins)) :
    ∃ s' xs' ys', step m s (.add p w coins) = some (.ok s') ∧ SInv s' xs' ys' := by
  obtain ⟨h1, h2, h3⟩ := ha
  rw [pending_eq h] at h2
  obtain ⟨st, ys', e, hi⟩ := h.add coins h1 h2 h3
  exact ⟨_, xs, ys', by simp only [step, e, Out.ok_bind, Out.pure_eq], hi⟩

/-- `update` is a remove from both lists and an add. -/
theorem step_update {m : TV} {s : TS} {xs ys : List Ev} (h : SInv s xs ys) {p : Nat} {w : TV}
    (coins : Nat → Nat) (ha : Allowed s (.update p w coins)) :
    ∃ s' xs' ys', step m s (.update p w coins) = some (.ok s') ∧ SInv s' xs' ys' := by
  obtain ⟨hw, hr⟩ := ha
  -- taking the event out of both lists
  have key : ∃ t x st y xs' ys', takeOut s.timed p = .ok (t, x) ∧ takeOut s.staged p = .ok (st, y) ∧
      p ∉ (xs' ++ ys').map Ev.ptr ∧
      SInv { s with timed := t, staged := st, cancelled := s.cancelled ++ (x ++ y) } xs' ys' := by
    rcases h.timed.takeOut p with ⟨h1, e1⟩ | ⟨a, x, b, l', hx, hab, e1, hl⟩
    · rcases h.staged.takeOut p with ⟨h2, e2⟩ | ⟨a, x, b, l', hx, hab, e2, hl⟩
      · refine ⟨_, _, _, _, xs, ys, e1, e2, ?_, ?_⟩
        · rw [List.map_append, List.mem_append]
          exact fun h' => h'.elim h1 h2
        · exact h.change h.timed h.staged (List.Sublist.refl _) rfl rfl rfl rfl rfl h.ptrs
            (by simpa using h.sids) h.norm
      · have hpm := perm_out' (xs := xs) hab
        have hnd := ((hpm.map Ev.ptr).append_right (runningPtr s)).nodup_iff.mp h.ptrs
        rw [List.map_cons, List.cons_append, List.nodup_cons] at hnd
        refine ⟨_, _, _, _, xs, a ++ b, e1, e2, ?_, ?_⟩
        · rw [← hx]
          exact fun h' => hnd.1 (List.mem_append_left _ h')
        · refine h.change h.timed hl (List.Sublist.refl _) rfl rfl rfl rfl rfl hnd.2 ?_ ?_
          · refine List.Perm.trans ?_ h.sids
            rw [List.perm_iff_count]
            intro z
            have := (hpm.map Ev.sid).count_eq z
            rw [List.map_cons] at this
            simp only [List.map_append, List.count_append, List.count_cons, List.map_cons,
              List.map_nil, List.count_nil] at this ⊢
            omega
          · intro z hz
            exact h.norm z (hpm.symm.subset (List.mem_cons_of_mem _ hz))
    · have hpm := perm_out (ys := ys) hab
      have hnd := ((hpm.map Ev.ptr).append_right (runningPtr s)).nodup_iff.mp h.ptrs
      rw [List.map_cons, List.cons_append, List.nodup_cons] at hnd
      have hsub : (a ++ b).Sublist xs := by
        rw [hab]; exact (List.Sublist.refl _).append (List.sublist_cons_self _ _)
      have h2 : p ∉ ys.map Ev.ptr := by
        rw [← hx]
        intro h'
        apply hnd.1
        rw [List.map_append]
        exact List.mem_append_left _ (List.mem_append_right _ h')
      rcases h.staged.takeOut p with ⟨-, e2⟩ | ⟨a', x', b', l'', hx', hab', e2, hl'⟩
      · refine ⟨_, _, _, _, a ++ b, ys, e1, e2, ?_, ?_⟩
        · rw [← hx]
          exact fun h' => hnd.1 (List.mem_append_left _ h')
        · refine h.change hl h.staged hsub rfl rfl rfl rfl rfl hnd.2 ?_ ?_
          · refine List.Perm.trans ?_ h.sids
            rw [List.perm_iff_count]
            intro z
            have := (hpm.map Ev.sid).count_eq z
            rw [List.map_cons] at this
            simp only [List.map_append, List.count_append, List.count_cons, List.map_cons,
              List.map_nil, List.count_nil] at this ⊢
            omega
          · intro z hz
            exact h.norm z (hpm.symm.subset (List.mem_cons_of_mem _ hz))
      · exfalso
        apply h2
        rw [hab', ← hx']
        simp
  obtain ⟨t, x, st, y, xs', ys', e1, e2, hn, hi⟩ := key
  obtain ⟨st', ys'', e3, hi'⟩ := hi.add (p := p) coins hw hn hr
  simp only at e3
  refine ⟨{ s with timed := t, staged := st', nsid := s.nsid + 1, cancelled := s.cancelled ++ (x ++ y) }, xs', ys'', ?_, hi'⟩
  simp only [step, e1, e2, Out.ok_bind, e3, Out.pure_eq]

/-- Every allowed step keeps the invariant. -/
theorem step_inv {m : TV} (hm : m.norm) {s : TS} {xs ys : List Ev} (h : SInv s xs ys) {a : Act}
    (ha : Allowed s a) :
    step m s a = none ∨ ∃ s' xs' ys', step m s a = some (.ok s') ∧ SInv s' xs' ys' := by
  cases a with
  | add p w c => exact Or.inr (step_add h c ha)
  | remove p =>
    obtain ⟨s', xs', ys', e, hi, -⟩ := step_remove (m := m) h p
    exact Or.inr ⟨s', xs', ys', e, hi⟩
  | update p w c => exact Or.inr (step_update h c ha)
  | updateSelf w =>
    cases hp : s.phase with
    | running n e =>
      refine Or.inr ⟨{ s with phase := .running n { e with whence := w } }, xs, ys,
        by simp only [step, hp, Out.pure_eq], ?_⟩
      have hph := h.phase
      have hro := h.round
      have hpt := h.ptrs
      unfold PhaseInv at hph
      unfold RoundInv at hro
      unfold runningPtr at hpt
      rw [hp] at hph hro hpt
      exact { h with ptrs := hpt, round := hro, phase := ⟨hph.1, ha, hph.2.2⟩ }
    | _ => exact Or.inl (by simp only [step, hp])
  | enter c =>
    cases hp : s.phase with
    | idle =>
      refine Or.inr ?_
      have hpt := h.ptrs
      unfold runningPtr at hpt
      rw [hp] at hpt
      by_cases hz : s.timed.main.size = 0
      · refine ⟨{ s with next := m, round := [], phase := .swept, now := c, clock := c }, xs, ys,
          by simp only [step, hp, hz, if_true, Out.pure_eq], ?_⟩
        have hx : xs = [] := List.length_eq_zero_iff.mp (by rw [← h.timed.size]; exact hz)
        exact { h with
          ptrs := hpt
          sorted := List.Pairwise.nil
          round := trivial
          phase := ⟨ha, hm, by rw [hx]; simp⟩
          nowN := ha }
      · refine ⟨{ s with next := m, round := [], phase := .loop s.timed.main.size }, xs, ys,
          by simp only [step, hp, if_neg hz, Out.pure_eq], ?_⟩
        exact { h with
          ptrs := hpt
          sorted := List.Pairwise.nil
          round := by intro r hr; exact absurd hr (by simp)
          phase := ⟨by rw [h.timed.size], hm⟩ }
    | _ => exact Or.inl (by simp only [step, hp])
  | tick c =>
    cases hp : s.phase with
    | loop n =>
      refine Or.inr ?_
      have hph := h.phase
      have hro := h.round
      have hpt := h.ptrs
      unfold PhaseInv at hph
      unfold RoundInv at hro
      unfold runningPtr at hpt
      rw [hp] at hph hro hpt
      simp only at hph hro hpt
      cases n with
      | zero => 
        have hx : xs = [] := List.length_eq_zero_iff.mp (by omega)
        refine ⟨{ s with phase := .swept }, xs, ys, by simp only [step, hp, Out.pure_eq], ?_⟩
        exact { h with
          ptrs := hpt
          round := trivial
          phase := ⟨h.nowN, hph.2, by rw [hx]; simp⟩ }
      | succ n =>
        cases xs with
        | nil =>
          refine ⟨{ s with now := c, clock := c, phase := .swept }, [], ys, ?_, ?_⟩
          · simp only [step, hp, h.timed.peek, List.head?_nil, Out.pure_eq]
          · exact { h with
              ptrs := hpt
              round := trivial
              phase := ⟨ha, hph.2, by simp⟩
              nowN := ha }
        | cons x xs =>
          have hxn : x.whence.norm := h.norm x (by simp)
          have hall : ∀ y ∈ x :: xs, x.whence.us ≤ y.whence.us := by
            intro y hy
            have hyn : y.whence.norm := h.norm y (List.mem_append_left _ hy)
            rcases List.mem_cons.1 hy with rfl | hy
            · exact le_refl _
            · exact (leTime_us hxn hyn).mp (List.rel_of_pairwise_cons h.timed.sorted hy)
          by_cases hc : compareTV x.whence c < 0
          · obtain ⟨l', e, hl⟩ := h.timed.pop_cons
            refine ⟨{ s with now := c, clock := c, timed := s.timed.pop.1, phase := .running n x, fired := s.fired ++ [(x, c)], round := s.round ++ [x] }, xs, ys, ?_, ?_⟩
            · simp only [step, hp, h.timed.peek, List.head?_cons, Out.pure_eq, if_pos hc]
            · refine ⟨by rw [e]; exact hl, h.staged, ?_, ?_, ?_, ?_, ?_, ?_, ?_, ha⟩
              · show ((xs ++ ys).map Ev.ptr ++ [x.ptr]).Nodup
                have := hpt
                rw [List.append_nil, List.cons_append, List.map_cons] at this
                exact (List.perm_append_singleton _ _).nodup_iff.mpr this
              · refine List.Perm.trans ?_ h.sids
                rw [List.perm_iff_count]
                intro z
                simp only [List.map_append, List.count_append, List.count_cons, List.map_cons,
                  List.map_nil, List.count_nil, List.cons_append]
                omega
              · intro z hz
                exact h.norm z (List.mem_cons_of_mem _ hz)
              · intro p hp'
                simp only [List.mem_append, List.mem_singleton] at hp'
                rcases hp' with hp' | rfl
                · exact h.early p hp'
                · exact (compareTV_neg hxn ha).mp hc
              · show (s.round ++ [x]).Pairwise _
                rw [List.pairwise_append]
                refine ⟨h.sorted, by simp, ?_⟩
                intro r hr y hy
                simp only [List.mem_singleton] at hy
                subst hy
                exact hro r hr y (by simp)
              · intro r hr y hy
                simp only [List.mem_append, List.mem_singleton] at hr
                rcases hr with hr | rfl
                · exact hro r hr y (List.mem_cons_of_mem _ hy)
                · exact hall y (List.mem_cons_of_mem _ hy)
              · refine ⟨?_, hxn, hph.2⟩
                have := hph.1
                simp only [List.length_cons] at this
                omega
          · refine ⟨{ s with now := c, clock := c, next := subTV x.whence c, phase := .swept }, x :: xs, ys, ?_, ?_⟩
            · simp only [step, hp, h.timed.peek, List.head?_cons, Out.pure_eq, if_neg hc]
            · have hle : c.us ≤ x.whence.us := by
                have := mt (compareTV_neg hxn ha).mpr hc
                omega
              exact { h with
                ptrs := hpt
                round := trivial
                phase := ⟨ha, subTV_norm hxn ha hle, by
                  intro y hy
                  have := hall y hy
                  show c.us ≤ y.whence.us ∧ (subTV x.whence c).us ≤ y.whence.us - c.us
                  rw [subTV_us _ _ hxn ha]
                  omega⟩
                nowN := ha }
    | _ => exact Or.inl (by simp only [step, hp])
  | ret again c coins =>
    cases hp : s.phase with
    | running n e =>
      refine Or.inr ?_
      have hph := h.phase
      have hro := h.round
      have hpt := h.ptrs
      unfold PhaseInv at hph
      unfold RoundInv at hro
      unfold runningPtr at hpt
      rw [hp] at hph hro hpt
      simp only at hph hro hpt
      have hpt1 := List.nodup_append.mp hpt
      have hbase : SInv { s with phase := .loop n, clock := c } xs ys :=
        { h with
          ptrs := by show ((xs ++ ys).map Ev.ptr ++ []).Nodup; rw [List.append_nil]; exact hpt1.1
          round := hro
          phase := ⟨hph.1, hph.2.2⟩ }
      cases again with
      | true =>
        have hne : e.ptr ∉ (xs ++ ys).map Ev.ptr := by
          intro hm
          exact hpt1.2.2 _ hm e.ptr (by simp) rfl
        obtain ⟨st, ys', e1, hi⟩ := hbase.add (p := e.ptr) coins hph.2.1 hne (by simp [runningPtr])
        simp only at e1
        refine ⟨{ s with staged := st, nsid := s.nsid + 1, phase := .loop n, clock := c }, xs, ys', ?_, hi⟩
        simp only [step, hp, if_true, e1, Out.ok_bind, Out.pure_eq]
      | false =>
        refine ⟨{ s with phase := .loop n, freed := e.ptr :: s.freed, clock := c }, xs, ys, ?_, ?_⟩
        · simp [step, hp, Out.pure_eq]
        · exact { hbase with }
    | _ => exact Or.inl (by simp only [step, hp])
  | check =>
    cases hp : s.phase with
    | swept =>
      refine Or.inr ?_
      have hpt := h.ptrs
      have hph := h.phase
      unfold PhaseInv at hph
      unfold runningPtr at hpt
      rw [hp] at hpt hph
      by_cases hz : s.staged.main.size = 0
      · refine ⟨{ s with phase := .idle, next := cap m s.next }, xs, ys,
          by simp only [step, hp, hz, if_true, Out.pure_eq], ?_⟩
        exact { h with ptrs := hpt, round := trivial, phase := trivial }
      · refine ⟨{ s with phase := .sweeping }, xs, ys,
          by simp only [step, hp, if_neg hz, Out.pure_eq], ?_⟩
        exact { h with ptrs := hpt, round := trivial, phase := hph }
    | _ => exact Or.inl (by simp only [step, hp])
  | sweep coins =>
    cases hp : s.phase with
    | sweeping =>
      refine Or.inr ?_
      have hpt := h.ptrs
      unfold runningPtr at hpt
      rw [hp] at hpt
      simp only [List.append_nil] at hpt
      have hdis : ∀ p ∈ ys.map Ev.ptr, p ∉ xs.map Ev.ptr := by
        intro p h1 h2
        rw [List.map_append] at hpt
        exact (List.nodup_append.mp hpt).2.2 p h2 p h1 rfl
      obtain ⟨st', t', xs', e, h1, h2, hpm⟩ := sweepLoop_spec coins _ h.staged h.timed rfl hdis
      have hpm2 : (xs' ++ []).Perm (xs ++ ys) := by
        rw [List.append_nil]; exact hpm.trans List.perm_append_comm
      refine ⟨_, xs', [], by simp only [step, hp, h.staged.size, e, Out.ok_bind, Out.pure_eq]; rfl, ?_⟩
      exact { h with
        timed := h2
        staged := h1
        ptrs := by
          show ((xs' ++ []).map Ev.ptr ++ []).Nodup
          rw [List.append_nil, (hpm2.map Ev.ptr).nodup_iff]; exact hpt
        sids := List.Perm.trans (((hpm2.map Ev.sid).append_right _).append_right _) h.sids
        norm := fun x hx => h.norm x (hpm2.subset hx)
        round := trivial
        phase := trivial }
    | _ => exact Or.inl (by simp only [step, hp])

/-! ### The property -/

theorem reach_inv {m : TV} (hm : m.norm) {s : TS} (h : Reach m s) : ∃ xs ys, SInv s xs ys := by
  induction h with
  | init => exact ⟨[], [], SInv.init⟩
  | @step s s' a _ ha hs ih =>
    obtain ⟨xs, ys, hi⟩ := ih
    rcases step_inv hm hi ha with e | ⟨s'', xs', ys', e, hi'⟩
    · rw [e] at hs; simp at hs
    · rw [e] at hs
      injection hs with hs
      injection hs with hs
      exact ⟨xs', ys', hs ▸ hi'⟩

/-- No step fails: no assertion, no bad access. -/
theorem C41_safe {m : TV} (hm : m.norm) {s : TS} (h : Reach m s) {a : Act} (ha : Allowed s a)
    {o : Out TS} (e : step m s a = some o) : ∃ s', o = .ok s' := by
  obtain ⟨xs, ys, hi⟩ := reach_inv hm h
  rcases step_inv hm hi ha with e' | ⟨s', _, _, e', _⟩
  · rw [e'] at e; simp at e
  · rw [e'] at e
    injection e with e
    exact ⟨s', e.symm⟩

/-- No timer fires early: it is dispatched on a clock reading later than its time. -/
theorem C41_not_early {m : TV} (hm : m.norm) {s : TS} (h : Reach m s) {e : Ev} {t : TV}
    (he : (e, t) ∈ s.fired) : e.whence.us < t.us := by
  obtain ⟨xs, ys, hi⟩ := reach_inv hm h
  exact hi.early _ he

/-- Nothing is lost and nothing is dispatched twice: the schedulings made so far (numbered
`0, 1, …`) are exactly those pending, those dispatched and those cancelled, each once. -/
theorem C41_exactly_once {m : TV} (hm : m.norm) {s : TS} (h : Reach m s) :
    ((pending s).map Ev.sid ++ s.fired.map (·.1.sid) ++ s.cancelled.map Ev.sid).Perm
      (List.range s.nsid) := by
  obtain ⟨xs, ys, hi⟩ := reach_inv hm h
  rw [pending_eq hi]
  exact hi.sids

/-- An event is pending at most once, and not while its callback runs. -/
theorem C41_pending_once {m : TV} (hm : m.norm) {s : TS} (h : Reach m s) :
    ((pending s).map Ev.ptr ++ runningPtr s).Nodup := by
  obtain ⟨xs, ys, hi⟩ := reach_inv hm h
  rw [pending_eq hi]
  exact hi.ptrs

/-- Within one round timers fire in time order. -/
theorem C41_in_order {m : TV} (hm : m.norm) {s : TS} (h : Reach m s) :
    s.round.Pairwise fun a b => a.whence.us ≤ b.whence.us := by
  obtain ⟨xs, ys, hi⟩ := reach_inv hm h
  exact hi.sorted

/-- Every dispatch is recorded in the log: running a callback means the last log entry is the event
that was first in the list, and it was due. -/
theorem C41_dispatch {m : TV} (hm : m.norm) {s s' : TS} (h : Reach m s) {c : TV} (hc : c.norm)
    (hs : step m s (.tick c) = some (.ok s')) {n : Nat} {e : Ev} (hp : s'.phase = .running n e) :
    s'.fired = s.fired ++ [(e, c)] ∧ e ∈ timedOf s ∧ e.whence.us < c.us ∧
      (∀ x ∈ timedOf s, e.whence.us ≤ x.whence.us) ∧ e ∉ pending s' := by
  obtain ⟨xs, ys, hi⟩ := reach_inv hm h
  rcases step_inv hm hi (a := .tick c) hc with e' | ⟨s'', xs', ys', e', hi'⟩
  · rw [e'] at hs; simp at hs
  rw [e'] at hs
  injection hs with hs
  injection hs with hs
  subst hs
  rw [timedOf_eq hi]
  have hnp : e ∉ pending s'' := by
    intro hm'
    have := hi'.ptrs
    rw [← pending_eq hi'] at this
    unfold runningPtr at this
    rw [hp] at this
    exact (List.nodup_append.mp this).2.2 e.ptr (List.mem_map_of_mem hm') e.ptr (by simp) rfl
  simp only [step] at e'
  cases hph : s.phase with
  | loop k =>
    rw [hph] at e'
    cases k with
    | zero =>
      simp only [Out.pure_eq] at e'
      injection e' with e'; injection e' with e'
      rw [← e'] at hp; simp at hp
    | succ k =>
      simp only [hi.timed.peek] at e'
      cases xs with
      | nil =>
        simp only [List.head?_nil, Out.pure_eq] at e'
        injection e' with e'; injection e' with e'
        rw [← e'] at hp; simp at hp
      | cons x xs =>
        simp only [List.head?_cons] at e'
        have hxn : x.whence.norm := hi.norm x (by simp)
        split at e'
        next hc' =>
          injection e' with e'; injection e' with e'
          rw [← e'] at hp
          simp only at hp
          injection hp with h1 h2
          subst h2
          refine ⟨by rw [← e'], by simp, (compareTV_neg hxn hc).mp hc', ?_, hnp⟩
          intro y hy
          have hyn : y.whence.norm := hi.norm y (List.mem_append_left _ hy)
          rcases List.mem_cons.1 hy with rfl | hy
          · exact le_refl _
          · exact (leTime_us hxn hyn).mp (List.rel_of_pairwise_cons hi.timed.sorted hy)
        next hc' =>
          injection e' with e'; injection e' with e'
          rw [← e'] at hp; simp at hp
  | _ => rw [hph] at e'; simp at e'

/-- When the loop of a round ends, nothing in the timed list is overdue at the last clock reading:
every timer due has been dispatched. -/
theorem C41_all_due {m : TV} (hm : m.norm) {s : TS} (h : Reach m s) (hp : s.phase = .swept) :
    ∀ x ∈ timedOf s, s.now.us ≤ x.whence.us := by
  obtain ⟨xs, ys, hi⟩ := reach_inv hm h
  rw [timedOf_eq hi]
  have := hi.phase
  unfold PhaseInv at this
  rw [hp] at this
  exact fun x hx => (this.2.2 x hx).1

theorem cap_us {m n : TV} (hm : m.norm) (hn : n.norm) : (cap m n).us = min m.us n.us := by
  unfold cap
  split
  next h => rw [compareTV_neg hm hn] at h; omega
  next h => rw [compareTV_neg hm hn] at h; omega

/-- When a round ends all staged events have been moved over, and the sleep chosen is at most the
maximum and never runs past a pending timer, counting from the last clock reading. -/
theorem C41_sleep {m : TV} (hm : m.norm) {s s' : TS} (h : Reach m s) {a : Act}
    (ha : a = .check ∨ ∃ c, a = .sweep c) (hs : step m s a = some (.ok s'))
    (hp : s'.phase = .idle) :
    stagedOf s' = [] ∧ s'.now = s.now ∧ s'.next.us ≤ m.us ∧
      ∀ x ∈ pending s', s'.next.us ≤ max 0 (x.whence.us - s'.now.us) := by
  obtain ⟨xs, ys, hi⟩ := reach_inv hm h
  rcases ha with rfl | ⟨coins, rfl⟩
  · simp only [step] at hs
    cases hph : s.phase with
    | swept =>
      rw [hph] at hs
      simp only at hs
      split at hs
      next hz =>
        injection hs with hs; injection hs with hs
        have hy : ys = [] := List.length_eq_zero_iff.mp (by rw [← hi.staged.size]; exact hz)
        have hphi := hi.phase
        unfold PhaseInv at hphi
        rw [hph] at hphi
        subst hs
        have h1 : stagedOf { s with phase := .idle, next := cap m s.next } = [] := by
          have := stagedOf_eq hi
          rw [hy] at this
          exact this
        refine ⟨h1, rfl, ?_, ?_⟩
        · show (cap m s.next).us ≤ m.us
          rw [cap_us hm hphi.2.1]; omega
        · intro x hx
          rw [pending, h1, List.append_nil] at hx
          have hx' : x ∈ xs := by
            have := timedOf_eq hi
            rw [← this]; exact hx
          have := hphi.2.2 x hx'
          show (cap m s.next).us ≤ max 0 (x.whence.us - s.now.us)
          rw [cap_us hm hphi.2.1]
          omega
      next hz =>
        injection hs with hs; injection hs with hs
        rw [← hs] at hp; simp at hp
    | _ => rw [hph] at hs; simp at hs
  · simp only [step] at hs
    cases hph : s.phase with
    | sweeping =>
      have hpt := hi.ptrs
      unfold runningPtr at hpt
      rw [hph] at hpt hs
      simp only [List.append_nil] at hpt
      have hdis : ∀ p ∈ ys.map Ev.ptr, p ∉ xs.map Ev.ptr := by
        intro p h1 h2
        rw [List.map_append] at hpt
        exact (List.nodup_append.mp hpt).2.2 p h2 p h1 rfl
      obtain ⟨st', t', xs', e, h1, h2, hpm⟩ := sweepLoop_spec coins _ hi.staged hi.timed rfl hdis
      rw [hi.staged.size] at hs
      simp only [e, Out.ok_bind, Out.pure_eq] at hs
      have hphi := hi.phase
      unfold PhaseInv at hphi
      rw [hph] at hphi
      obtain ⟨hnow, hnx, -⟩ := hphi
      injection hs with hs; injection hs with hs
      have hst : stagedOf s' = [] := by rw [← hs]; exact h1.elems
      have hti : timedOf s' = xs' := by rw [← hs]; exact h2.elems
      have hnow' : s'.now = s.now := by rw [← hs]
      rw [h2.peek] at hs
      have hnorm : ∀ x ∈ xs', x.whence.norm := fun x hx =>
        hi.norm x (List.perm_append_comm.subset (hpm.subset hx))
      cases xs' with
      | nil =>
        simp only [List.head?_nil] at hs
        have hne : s'.next = cap m s.next := by rw [← hs]
        refine ⟨hst, hnow', ?_, ?_⟩
        · rw [hne, cap_us hm hnx]; omega
        · intro x hx
          rw [pending, hst, hti] at hx; simp at hx
      | cons y xs' =>
        simp only [List.head?_cons] at hs
        have hyn := hnorm y (by simp)
        have hall : ∀ x ∈ y :: xs', y.whence.us ≤ x.whence.us := by
          intro x hx
          rcases List.mem_cons.1 hx with rfl | hx'
          · exact le_refl _
          · exact (leTime_us hyn (hnorm x hx)).mp (List.rel_of_pairwise_cons h2.sorted hx')
        by_cases hlt : y.whence.us < s.now.us
        · have hc := (subTV_neg hyn hnow).mpr hlt
          rw [if_pos hc] at hs
          have hne : s'.next = cap m ⟨0, 0⟩ := by rw [← hs]
          have h0 : (TV.us ⟨0, 0⟩) = 0 := rfl
          refine ⟨hst, hnow', ?_, ?_⟩
          · rw [hne, cap_us hm (by simp [TV.norm])]; omega
          · intro x hx
            rw [hne, cap_us hm (by simp [TV.norm])]; omega
        · have hc := mt (subTV_neg hyn hnow).mp hlt
          rw [if_neg hc] at hs
          have hne : s'.next = cap m (subTV y.whence s.now) := by rw [← hs]
          have hsn := subTV_norm hyn hnow (by omega)
          refine ⟨hst, hnow', ?_, ?_⟩
          · rw [hne, cap_us hm hsn]; omega
          · intro x hx
            rw [pending, hst, hti, List.append_nil] at hx
            have := hall x hx
            rw [hne, cap_us hm hsn, subTV_us _ _ hyn hnow, hnow']
            omega
    | _ => rw [hph] at hs; simp at hs

/-- A removed event is not dispatched: after `remove` returns it is in neither list. -/
theorem C41_remove {m : TV} (hm : m.norm) {s s' : TS} (h : Reach m s) {p : Nat}
    (hs : step m s (.remove p) = some (.ok s')) :
    p ∉ (pending s').map Ev.ptr ∧ s'.fired = s.fired ∧
      ∀ x ∈ pending s, x.ptr = p ∨ x ∈ pending s' := by
  obtain ⟨xs, ys, hi⟩ := reach_inv hm h
  rw [pending_eq hi]
  have hnd := (List.nodup_append.mp hi.ptrs).1
  rcases hi.timed.takeOut p with ⟨h1, e1⟩ | ⟨a, x, b, l', hx, hab, e1, hl⟩
  · rcases hi.staged.takeOut p with ⟨h2, e2⟩ | ⟨a, x, b, l', hx, hab, e2, hl⟩
    · simp only [step, e1, e2, Out.ok_bind, Out.pure_eq] at hs
      injection hs with hs; injection hs with hs
      have hpd : pending s' = xs ++ ys := by
        rw [← hs, ← pending_eq hi]; rfl
      refine ⟨?_, by rw [← hs], ?_⟩
      · rw [hpd, List.map_append, List.mem_append]
        exact fun h' => h'.elim h1 h2
      · intro z hz; rw [hpd]; exact Or.inr hz
    · simp only [step, e1, e2, Out.ok_bind, Out.pure_eq] at hs
      injection hs with hs; injection hs with hs
      have hpd : pending s' = xs ++ (a ++ b) := by
        rw [← hs]
        show s.timed.main.elems.map (·.2) ++ l'.main.elems.map (·.2) = _
        rw [hl.elems, hi.timed.elems]
      have hpm := perm_out' (xs := xs) hab
      have hnd' := (hpm.map Ev.ptr).nodup_iff.mp hnd
      rw [List.map_cons, List.nodup_cons] at hnd'
      refine ⟨by rw [hpd, ← hx]; exact hnd'.1, by rw [← hs], ?_⟩
      intro z hz
      rw [hpd]
      rcases List.mem_cons.1 (hpm.subset hz) with rfl | hz
      · exact Or.inl hx
      · exact Or.inr hz
  · simp only [step, e1, Out.ok_bind, Out.pure_eq] at hs
    injection hs with hs; injection hs with hs
    have hpd : pending s' = (a ++ b) ++ ys := by
      rw [← hs]
      show l'.main.elems.map (·.2) ++ s.staged.main.elems.map (·.2) = _
      rw [hl.elems, hi.staged.elems]
    have hpm := perm_out (ys := ys) hab
    have hnd' := (hpm.map Ev.ptr).nodup_iff.mp hnd
    rw [List.map_cons, List.nodup_cons] at hnd'
    refine ⟨by rw [hpd, ← hx]; exact hnd'.1, by rw [← hs], ?_⟩
    intro z hz
    rw [hpd]
    rcases List.mem_cons.1 (hpm.subset hz) with rfl | hz
    · exact Or.inl hx
    · exact Or.inr hz

/-! ### Witnesses -/

instance (t : TV) : Decidable t.norm := by unfold TV.norm; infer_instance
instance (s : TS) (a : Act) : Decidable (Allowed s a) := by
  cases a <;> unfold Allowed <;> infer_instance

/-- Runs a list of allowed actions. -/
def runAllowed (m : TV) : List Act → TS → Option TS
  | [], s => some s
  | a :: as, s =>
    if Allowed s a then
      match step m s a with
      | some (.ok s') => runAllowed m as s'
      | _ => none
    else none

theorem runAllowed_reach {m : TV} : ∀ {as : List Act} {s s' : TS}, Reach m s →
    runAllowed m as s = some s' → Reach m s'
  | [], s, s', h, e => by
    simp only [runAllowed, Option.some.injEq] at e
    exact e ▸ h
  | a :: as, s, s', h, e => by
    rw [runAllowed] at e
    split at e
    next ha =>
      split at e
      next s1 h1 => exact runAllowed_reach (h.step ha h1) e
      next => simp at e
    next => simp at e

theorem runAllowed_reachD {m : TV} {as : List Act} (h : (runAllowed m as TS.init).isSome) :
    Reach m ((runAllowed m as TS.init).getD TS.init) := by
  obtain ⟨s, hs⟩ := Option.isSome_iff_exists.mp h
  rw [hs]
  exact runAllowed_reach .init hs

/-- Three timers added out of order, one removed, two fired in order, one rescheduled. -/
def demo : List Act :=
  [.add 10 ⟨3, 0⟩ (fun _ => 1), .add 11 ⟨1, 500000⟩ (fun _ => 0), .add 12 ⟨2, 0⟩ (fun _ => 2),
   .enter ⟨1, 0⟩, .check, .sweep (fun _ _ => 1),
   .remove 12, .enter ⟨4, 0⟩, .tick ⟨4, 0⟩, .updateSelf ⟨6, 0⟩, .ret true ⟨4, 0⟩ (fun _ => 0),
   .tick ⟨4, 1⟩, .ret false ⟨4, 2⟩ (fun _ => 0), .tick ⟨4, 3⟩, .check, .sweep (fun _ _ => 0)]

example : ∃ s, Reach ⟨5, 0⟩ s ∧ pending s = [⟨11, ⟨6, 0⟩, 3⟩] ∧
    s.fired = [(⟨11, ⟨1, 500000⟩, 1⟩, ⟨4, 0⟩), (⟨10, ⟨3, 0⟩, 0⟩, ⟨4, 1⟩)] ∧
    s.cancelled = [⟨12, ⟨2, 0⟩, 2⟩] ∧ s.next = ⟨1, 999999⟩ ∧ s.freed = [10] := by
  refine ⟨_, runAllowed_reachD (as := demo) (by decide +kernel), ?_, ?_, ?_, ?_, ?_⟩ <;>
    decide +kernel

/-- A reachable state in the middle of a callback with two timers pending. -/
def demo2 : List Act :=
  [.add 10 ⟨3, 0⟩ (fun _ => 1), .add 11 ⟨1, 0⟩ (fun _ => 0),
   .enter ⟨1, 0⟩, .check, .sweep (fun _ _ => 1), .enter ⟨2, 0⟩, .tick ⟨2, 0⟩,
   .add 12 ⟨4, 0⟩ (fun _ => 0)]

example : ∃ s, Reach ⟨5, 0⟩ s ∧ s.phase = .running 1 ⟨11, ⟨1, 0⟩, 1⟩ ∧
    (pending s).map Ev.ptr = [10, 12] := by
  refine ⟨_, runAllowed_reachD (as := demo2) (by decide +kernel), ?_, ?_⟩ <;> decide +kernel

/-- A callback that runs from 10 s to 12 s and asks to run again at 13 s. -/
def demo3 : List Act :=
  [.add 7 ⟨9, 0⟩ (fun _ => 0), .enter ⟨9, 0⟩, .check, .sweep (fun _ _ => 0),
   .enter ⟨10, 0⟩, .tick ⟨10, 0⟩, .updateSelf ⟨13, 0⟩, .ret true ⟨12, 0⟩ (fun _ => 0),
   .tick ⟨12, 0⟩, .check, .sweep (fun _ _ => 0)]

/-- The full claim "the loop never sleeps past a pending timer" fails when measured at the moment
the loop goes to sleep: the clock is read before the last callback.  A callback that ends at
12 s and asked to run at 13 s makes the loop sleep 3 s: 2 s too long. -/
theorem C41_stale_clock_violated :
    ∃ s, Reach ⟨5, 0⟩ s ∧ s.phase = .idle ∧
      ∃ x ∈ pending s, s.clock.us ≤ x.whence.us ∧ s.clock.us + s.next.us = x.whence.us + 2000000 := by
  refine ⟨_, runAllowed_reachD (as := demo3) (by decide +kernel), ?_, ⟨7, ⟨13, 0⟩, 1⟩, ?_, ?_, ?_⟩ <;>
    decide +kernel

def demo4 : List Act :=
  [.add 7 ⟨9, 0⟩ (fun _ => 0), .enter ⟨9, 0⟩, .check, .sweep (fun _ _ => 0),
   .enter ⟨10, 0⟩, .tick ⟨10, 0⟩]

/-- Without the contract on `update`: another thread calls `eventer_update_whence` on an event
whose callback is running.  If the callback then asks to be rescheduled the second insertion fails
an assertion; if it is done the event is freed while still listed. -/
theorem C41_update_race_violated :
    ∃ s s1, Reach ⟨5, 0⟩ s ∧ step ⟨5, 0⟩ s (.update 7 ⟨20, 0⟩ (fun _ => 0)) = some (.ok s1) ∧
      step ⟨5, 0⟩ s1 (.ret true ⟨10, 0⟩ (fun _ => 0)) = some .abort ∧
      ∃ s2, step ⟨5, 0⟩ s1 (.ret false ⟨10, 0⟩ (fun _ => 0)) = some (.ok s2) ∧
        7 ∈ s2.freed ∧ 7 ∈ (pending s2).map Ev.ptr := by
  exact ⟨_, _, runAllowed_reachD (as := demo4) (by decide +kernel), rfl, rfl, _, rfl,
    by decide +kernel, by decide +kernel⟩

end Mtev.Timers
