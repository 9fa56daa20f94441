import Verif.CurlEv

/-!
C163: the sockets curl asks for are watched.  C164: curl's timer.
-/

namespace Mtev.CurlEv

/-- The masks curl wants after what happened: the last call for a socket
    counts.  A socket it does not want watched is not ready. -/
def spec (w : Nat → Option Nat) : Op → Nat → Option Nat
  | .tick as => fun f => as.foldl (after f) (w f)
  | .fire g as => if w g = none then w else fun f => as.foldl (after f) (w f)

/-- All of it. -/
def wanted (ops : List Op) : Nat → Option Nat := ops.foldl spec (fun _ => none)

theorem mst_regd {s : St} (hI : Inv none s) (f : Nat) : s.mst f = none ↔ regd s f = none := by
  constructor
  · intro h
    cases hf : s.sp f with
    | none => simp [regd, hf]
    | some c =>
      obtain ⟨e, m, _, _, h3⟩ := hI.sock f c hf
      rw [h] at h3; cases h3
  · intro h; exact hI.off f (regd_none hI h)

/-- Each callback is calm: in the callback of a socket curl does not drop it
    and then want the same number. -/
def CalmOp : Op → Prop
  | .tick _ => True
  | .fire f as => Calm f as

theorem step_inv {s : St} (hI : Inv none s) (x : Op) :
    ∃ s', step s x = .ok s' ∧ Inv none s' ∧ regd s' = spec (regd s) x ∧ (Kern s → CalmOp x → Kern s') ∧
      (∀ e, s.ev e ≠ none → s'.ev e ≠ none) := by
  cases x with
  | tick as =>
    obtain ⟨s', h1, i1, r1, k1, v1⟩ := acts_inv hI as
    refine ⟨s', h1, i1, funext r1, ?_, v1⟩
    intro hk _ f
    rw [k1, r1, hk f]
  | fire f as =>
    obtain ⟨s', h1, i1, r1, k1, v1⟩ := fire_inv hI f as
    refine ⟨s', h1, i1, ?_, k1, v1⟩
    funext g
    rw [r1]
    show _ = (if regd s f = none then regd s else fun g => as.foldl (after g) (regd s g)) g
    by_cases hm : s.mst f = none
    · rw [if_pos hm, if_pos ((mst_regd hI f).1 hm)]
    · rw [if_neg hm, if_neg (fun h => hm ((mst_regd hI f).2 h))]

theorem run_inv {s : St} (hI : Inv none s) (ops : List Op) :
    ∃ s', run s ops = .ok s' ∧ Inv none s' ∧ regd s' = ops.foldl spec (regd s) ∧
      (Kern s → (∀ x ∈ ops, CalmOp x) → Kern s') ∧ (∀ e, s.ev e ≠ none → s'.ev e ≠ none) := by
  induction ops generalizing s with
  | nil => exact ⟨s, rfl, hI, rfl, fun h _ => h, fun _ h => h⟩
  | cons x xs ih =>
    obtain ⟨s₁, h1, i1, r1, k1, v1⟩ := step_inv hI x
    obtain ⟨s₂, h2, i2, r2, k2, v2⟩ := ih i1
    refine ⟨s₂, ?_, i2, ?_, ?_, fun e he => v2 e (v1 e he)⟩
    · unfold run; rw [h1]; exact h2
    · rw [r2, r1]; rfl
    · intro hk hc
      exact k2 (k1 hk (hc x List.mem_cons_self)) (fun y hy => hc y (List.mem_cons_of_mem _ hy))

/-- C163.  Whatever curl asks for, in callbacks of sockets and outside, no
    context is used after it was freed. -/
theorem C163_safe (ops : List Op) : ∃ s, run St.init ops = .ok s := by
  obtain ⟨s, h, _⟩ := run_inv inv_init ops
  exact ⟨s, h⟩

/-- C163.  A socket is watched for what curl has last asked for, and not at
    all once curl has dropped it, if curl does not drop a socket in its own
    callback and get the same number again in it. -/
theorem C163_watched_partial (ops : List Op) (hc : ∀ x ∈ ops, CalmOp x) (s : St) (h : run St.init ops = .ok s)
    (f : Nat) : s.kern f = wanted ops f := by
  obtain ⟨s', h1, _, r, k, _⟩ := run_inv inv_init ops
  rw [h] at h1
  cases h1
  have hk : Kern s := k (fun _ => rfl) hc
  rw [hk f, r]
  rfl

/-- C163.  The full claim has no such condition and is false: after the
    callback the kernel watches the new socket for what the old one was
    watched for, so that one waiting to be writable is not told. -/
theorem C163_reuse_violated (f m m' : Nat) (hm : m ≠ m') :
    ∃ s, run St.init [.tick [.want f m], .fire f [.drop f, .want f m']] = .ok s ∧
      s.kern f = some m ∧ wanted [.tick [.want f m], .fire f [.drop f, .want f m']] f = some m' ∧
      s.kern f ≠ wanted [.tick [.want f m], .fire f [.drop f, .want f m']] f := by
  have hw : wanted [.tick [.want f m], .fire f [.drop f, .want f m']] f = some m' := by
    simp [wanted, spec, after]
  refine ⟨_, by simp [run, step, acts, act, fire, deref, St.init, upd]; rfl, ?_, hw, ?_⟩
  · simp [upd]
  · rw [hw]; simp [upd]; exact hm

/-- C163.  Contexts are those of sockets curl wants watched: none is left
    when curl has dropped all of them. -/
theorem C163_contexts (ops : List Op) (s : St) (h : run St.init ops = .ok s) (hw : ∀ f, wanted ops f = none) (c : Nat) :
    s.ctx c = none := by
  obtain ⟨s', h1, i, r, _⟩ := run_inv inv_init ops
  rw [h] at h1
  cases h1
  cases hc : s.ctx c with
  | none => rfl
  | some k =>
    rcases i.used c k hc with ⟨f, hf⟩ | hh
    · have : regd s f = none := by rw [r]; exact hw f
      rw [regd_none i this] at hf; cases hf
    · cases hh

/-- C163.  The same of events is false: the event removed for a dropped socket
    is never freed. -/
theorem C163_events_violated (ops : List Op) (f m : Nat) :
    ∃ s, run St.init ([.tick [.want f m, .drop f]] ++ ops) = .ok s ∧ ∃ e, s.ev e ≠ none := by
  obtain ⟨s₁, h1, i1, _, _, _⟩ := step_inv inv_init (.tick [.want f m, .drop f])
  obtain ⟨s₂, h2, _, _, _, v2⟩ := run_inv i1 ops
  refine ⟨s₂, ?_, 0, v2 0 ?_⟩
  · rw [List.singleton_append, run, h1]; exact h2
  · have : step St.init (.tick [.want f m, .drop f]) = .ok s₁ := h1
    simp [step, acts, act, deref, St.init, upd] at this
    rw [← this]
    simp [upd]

/-- A socket is wanted for writing, then in its callback for reading, while
    another is opened, which is dropped in its own. -/
def demo : List Op := [.tick [.want 5 2], .fire 5 [.want 5 1, .want 7 2], .fire 7 [.drop 7]]

example : ∀ x ∈ demo, CalmOp x := by
  intro x hx
  simp only [demo, List.mem_cons, List.not_mem_nil, or_false] at hx
  rcases hx with rfl | rfl | rfl
  · trivial
  · exact .inl (by decide)
  · exact .inr (by decide)

example : wanted demo 5 = some 1 ∧ wanted demo 7 = none := by decide

/-! ### C164: the timer -/

/-- What happens with the timer, at the times given: curl makes a call, or a
    timer fires. -/
inductive TOp where
  | call (now : Nat) (a : TAct)
  | fire (now i : Nat) (as bs : List TAct)

/-- The timer curl has asked for last and which has not fired: its identity
    and when it is due.  `n` is the number of timers asked for before. -/
structure Want where
  n : Nat
  cur : Option (Nat × Nat)
deriving DecidableEq, Repr

def wact (now : Nat) (w : Want) : TAct → Want
  | .set ms => ⟨w.n + 1, some (w.n, now + max 1 ms)⟩
  | .cancel => ⟨w.n, none⟩

def wstep (w : Want) : TOp → Want
  | .call now a => wact now w a
  | .fire now i as bs =>
      bs.foldl (wact now) (as.foldl (wact now) ⟨w.n, w.cur.filter (fun x => x.1 != i)⟩)

def tstep (t : Tm) : TOp → Tm
  | .call now a => tact now t a
  | .fire now i as bs => tfire now t i as bs

/-- The wanted timer is pending; the one remembered is it or none or gone. -/
structure TInv (t : Tm) (w : Want) : Prop where
  num : t.next = w.n
  cur : ∀ x, w.cur = some x → x ∈ t.pending
  old : ∀ x ∈ t.pending, x.1 < t.next
  oldc : ∀ x, w.cur = some x → x.1 < w.n

theorem tact_inv {t : Tm} {w : Want} (h : TInv t w) (now : Nat) (a : TAct) : TInv (tact now t a) (wact now w a) := by
  cases a with
  | set ms =>
    refine ⟨by simp [tact, wact, h.num], ?_, ?_, ?_⟩
    · intro x hx
      simp only [wact, Option.some.injEq] at hx
      subst hx
      simp only [tact]
      refine List.mem_append_right _ ?_
      rw [h.num]
      by_cases hm : ms = 0
      · subst hm; simp
      · rw [if_neg hm, show max 1 ms = ms by omega]; simp
    · intro x hx
      simp only [tact] at hx ⊢
      rcases List.mem_append.1 hx with hx | hx
      · have := h.old x hx; omega
      · rw [List.mem_singleton.1 hx]; simp
    · intro x hx
      simp only [wact, Option.some.injEq] at hx ⊢
      subst hx; simp
  | cancel =>
    unfold tact
    cases hp : t.ptr with
    | none =>
      exact ⟨h.num, by intro x hx; simp [wact] at hx, h.old, by intro x hx; simp [wact] at hx⟩
    | some p =>
      exact ⟨h.num, by intro x hx; simp [wact] at hx, fun x hx => h.old x (List.mem_filter.1 hx).1,
        by intro x hx; simp [wact] at hx⟩

theorem tacts_inv {t : Tm} {w : Want} (h : TInv t w) (now : Nat) (as : List TAct) :
    TInv (as.foldl (tact now) t) (as.foldl (wact now) w) := by
  induction as generalizing t w with
  | nil => exact h
  | cons a as ih => exact ih (tact_inv h now a)

theorem tstep_inv {t : Tm} {w : Want} (h : TInv t w) (x : TOp) : TInv (tstep t x) (wstep w x) := by
  cases x with
  | call now a => exact tact_inv h now a
  | fire now i as bs =>
    have h1 : TInv { t with pending := t.pending.filter (fun x => x.1 != i) } ⟨w.n, w.cur.filter (fun x => x.1 != i)⟩ := by
      refine ⟨h.num, ?_, fun x hx => h.old x (List.mem_filter.1 hx).1, ?_⟩
      · intro x hx
        obtain ⟨h1, h2⟩ := Option.filter_eq_some_iff.1 hx
        exact List.mem_filter.2 ⟨h.cur x h1, h2⟩
      · intro x hx
        exact h.oldc x (Option.filter_eq_some_iff.1 hx).1
    have h2 := tacts_inv h1 now as
    have h3 : TInv { as.foldl (tact now) { t with pending := t.pending.filter (fun x => x.1 != i) } with ptr := none }
        (as.foldl (wact now) ⟨w.n, w.cur.filter (fun x => x.1 != i)⟩) := ⟨h2.num, h2.cur, h2.old, h2.oldc⟩
    exact tacts_inv h3 now bs

/-- C164.  The timer curl has asked for last is pending, due when asked for and
    a millisecond later at least, until it fires or curl takes it back. -/
theorem C164_kept (ops : List TOp) (x : Nat × Nat) (h : (ops.foldl wstep ⟨0, none⟩).cur = some x) :
    x ∈ (ops.foldl tstep ⟨[], none, 0⟩).pending := by
  have : ∀ (ops : List TOp) (t : Tm) (w : Want), TInv t w → TInv (ops.foldl tstep t) (ops.foldl wstep w) := by
    intro ops
    induction ops with
    | nil => intro t w h; exact h
    | cons y ys ih => intro t w h; exact ih _ _ (tstep_inv h y)
  exact (this ops ⟨[], none, 0⟩ ⟨0, none⟩
    ⟨rfl, fun x hx => by simp at hx, fun x hx => by simp at hx, fun x hx => by simp at hx⟩).cur x h

/-- The timer remembered, if any, is pending or one of `is`. -/
def Live (is : List Nat) (t : Tm) : Prop := ∀ p, t.ptr = some p → p ∈ is ∨ ∃ due, (p, due) ∈ t.pending

theorem tacts_live {is : List Nat} {t : Tm} (h : Live is t) (now : Nat) (as : List TAct) :
    Live is (as.foldl (tact now) t) := by
  induction as generalizing t with
  | nil => exact h
  | cons a as ih =>
    refine ih ?_
    cases a with
    | set ms =>
      intro p hp
      simp only [tact, Option.some.injEq] at hp
      subst hp
      exact .inr ⟨_, List.mem_append_right _ (List.mem_singleton.2 rfl)⟩
    | cancel =>
      intro p hp
      unfold tact at hp ⊢
      cases hq : t.ptr with
      | none => simp [hq] at hp
      | some q => simp [hq] at hp

/-- C164.  What a call of curl may remove is always a timer that is pending:
    the event remembered is never one that has fired and was freed. -/
theorem C164_live (ops : List TOp) (p : Nat) (h : (ops.foldl tstep ⟨[], none, 0⟩).ptr = some p) :
    ∃ due, (p, due) ∈ (ops.foldl tstep ⟨[], none, 0⟩).pending := by
  have : ∀ (ops : List TOp) (t : Tm), Live [] t → Live [] (ops.foldl tstep t) := by
    intro ops
    induction ops with
    | nil => intro t h; exact h
    | cons y ys ih =>
      intro t h
      refine ih _ ?_
      cases y with
      | call now a => exact tacts_live h now [a]
      | fire now i as bs =>
        refine tacts_live ?_ now bs
        intro p hp
        cases hp
  rcases this ops ⟨[], none, 0⟩ (fun p hp => by cases hp) p h with h | h
  · cases h
  · exact h

/-- C164.  Within a timer's own callback it may be that timer, which the loop
    frees only afterwards. -/
theorem C164_live_inside (ops : List TOp) (now i : Nat) (as : List TAct) (p : Nat) :
    let t := ops.foldl tstep ⟨[], none, 0⟩
    let t' := as.foldl (tact now) { t with pending := t.pending.filter (fun x => x.1 != i) }
    t'.ptr = some p → p = i ∨ ∃ due, (p, due) ∈ t'.pending := by
  intro t t' h
  have h0 : Live [i] { t with pending := t.pending.filter (fun x => x.1 != i) } := by
    intro q hq
    obtain ⟨due, hd⟩ := C164_live ops q hq
    by_cases e : q = i
    · exact .inl (by simp [e])
    · exact .inr ⟨due, List.mem_filter.2 ⟨hd, by simpa using e⟩⟩
  rcases tacts_live h0 now as p h with h | h
  · exact .inl (by simpa using h)
  · exact .inr h

/-- No timer with the number `i` is pending, and none will get it. -/
def Gone (i : Nat) (t : Tm) : Prop := i < t.next ∧ ∀ x ∈ t.pending, x.1 ≠ i

theorem tacts_gone {i : Nat} {t : Tm} (h : Gone i t) (now : Nat) (as : List TAct) : Gone i (as.foldl (tact now) t) := by
  induction as generalizing t with
  | nil => exact h
  | cons a as ih =>
    refine ih ?_
    cases a with
    | set ms =>
      refine ⟨Nat.lt_succ_of_lt h.1, fun x hx => ?_⟩
      simp only [tact] at hx
      rcases List.mem_append.1 hx with hx | hx
      · exact h.2 x hx
      · rw [List.mem_singleton.1 hx]; exact Nat.ne_of_gt h.1
    | cancel =>
      unfold tact
      cases hq : t.ptr with
      | none => exact h
      | some q => exact ⟨h.1, fun x hx => h.2 x (List.mem_filter.1 hx).1⟩

/-- C164.  A timer fires once: whatever curl asks for in its callback and ever
    after, it is not pending again. -/
theorem C164_once (ops : List TOp) (now i : Nat) (as bs : List TAct) (ops' : List TOp)
    (hi : ∃ due, (i, due) ∈ (ops.foldl tstep ⟨[], none, 0⟩).pending) (due : Nat) :
    (i, due) ∉ ((ops ++ TOp.fire now i as bs :: ops').foldl tstep ⟨[], none, 0⟩).pending := by
  have inv : ∀ (ops : List TOp) (t : Tm) (w : Want), TInv t w → ∃ w', TInv (ops.foldl tstep t) w' := by
    intro ops
    induction ops with
    | nil => intro t w h; exact ⟨w, h⟩
    | cons y ys ih => intro t w h; exact ih _ _ (tstep_inv h y)
  obtain ⟨w, hw⟩ := inv ops ⟨[], none, 0⟩ ⟨0, none⟩
    ⟨rfl, fun x hx => by simp at hx, fun x hx => by simp at hx, fun x hx => by simp at hx⟩
  obtain ⟨d, hd⟩ := hi
  have hlt := hw.old _ hd
  rw [List.foldl_append, List.foldl_cons]
  generalize ops.foldl tstep ⟨[], none, 0⟩ = t at *
  have h1 : Gone i { t with pending := t.pending.filter (fun x => x.1 != i) } :=
    ⟨hlt, fun x hx => by simpa using (List.mem_filter.1 hx).2⟩
  have h2 := tacts_gone h1 now as
  have h3 : Gone i { as.foldl (tact now) { t with pending := t.pending.filter (fun x => x.1 != i) } with ptr := none } := h2
  have h4 : Gone i (tstep t (.fire now i as bs)) := tacts_gone h3 now bs
  have h5 : ∀ (ops : List TOp) (t : Tm), Gone i t → Gone i (ops.foldl tstep t) := by
    intro ops
    induction ops with
    | nil => intro t h; exact h
    | cons y ys ih =>
      intro t h
      refine ih _ ?_
      cases y with
      | call now a => exact tacts_gone h now [a]
      | fire now j as bs =>
        have g1 : Gone i { t with pending := t.pending.filter (fun x => x.1 != j) } :=
          ⟨h.1, fun x hx => h.2 x (List.mem_filter.1 hx).1⟩
        have g2 := tacts_gone g1 now as
        have g3 : Gone i { as.foldl (tact now) { t with pending := t.pending.filter (fun x => x.1 != j) } with ptr := none } := g2
        exact tacts_gone g3 now bs
  exact fun hm => (h5 ops' _ h4).2 _ hm rfl

/-- Calls that ask for a timer only when none is wanted. -/
def tidyActs (now : Nat) : Want → List TAct → Prop
  | _, [] => True
  | w, .set ms :: as => w.cur = none ∧ tidyActs now (wact now w (.set ms)) as
  | w, .cancel :: as => tidyActs now (wact now w .cancel) as

/-- Histories of that kind in which none is asked for while a timer fires, but
    by handlers of requests. -/
def tidy : Want → List TOp → Prop
  | _, [] => True
  | w, .call now a :: ops => tidyActs now w [a] ∧ tidy (wact now w a) ops
  | w, .fire now i as bs :: ops =>
      w.cur.map (·.1) = some i ∧ (∀ a ∈ as, a = .cancel) ∧ tidyActs now ⟨w.n, none⟩ bs ∧
        tidy (wstep w (.fire now i as bs)) ops

/-- Only the wanted timer is pending, and it is remembered. -/
def Only (t : Tm) (w : Want) : Prop := t.next = w.n ∧ t.pending = w.cur.toList ∧ t.ptr = w.cur.map (·.1)

theorem tacts_only {t : Tm} {w : Want} (h : Only t w) (now : Nat) (as : List TAct) (ht : tidyActs now w as) :
    Only (as.foldl (tact now) t) (as.foldl (wact now) w) := by
  induction as generalizing t w with
  | nil => exact h
  | cons a as ih =>
    obtain ⟨h1, h2, h3⟩ := h
    cases a with
    | set ms =>
      refine ih ?_ ht.2
      have hc : w.cur = none := ht.1
      rw [hc] at h2
      refine ⟨by simp [tact, wact, h1], ?_, by simp [tact, wact, h1]⟩
      simp only [tact, wact, h2, h1]
      by_cases hm : ms = 0
      · subst hm; simp
      · rw [if_neg hm, show max 1 ms = ms by omega]; simp
    | cancel =>
      refine ih ?_ ht
      unfold tact
      cases hc : w.cur with
      | none =>
        rw [hc] at h2 h3
        simp only [Option.map_none] at h3
        rw [h3]
        exact ⟨h1, h2, h3⟩
      | some x =>
        rw [hc] at h2 h3
        simp only [Option.map_some] at h3
        rw [h3]
        refine ⟨h1, ?_, rfl⟩
        simp [h2, wact]

/-- C164.  If curl asks for a timer only when it has none, and not while one
    fires, then none but the one asked for is ever pending. -/
theorem C164_only_partial (ops : List TOp) (h : tidy ⟨0, none⟩ ops) :
    (ops.foldl tstep ⟨[], none, 0⟩).pending = (ops.foldl wstep ⟨0, none⟩).cur.toList := by
  have : ∀ (ops : List TOp) (t : Tm) (w : Want), Only t w → tidy w ops → Only (ops.foldl tstep t) (ops.foldl wstep w) := by
    intro ops
    induction ops with
    | nil => intro t w h _; exact h
    | cons y ys ih =>
      intro t w h ht
      cases y with
      | call now a => exact ih _ _ (tacts_only h now [a] ht.1) ht.2
      | fire now i as bs =>
        obtain ⟨h1, h2, h3, h4⟩ := ht
        refine ih _ _ ?_ h4
        obtain ⟨o1, o2, o3⟩ := h
        have hcan : ∀ (as : List TAct), (∀ a ∈ as, a = .cancel) → ∀ (t : Tm), t.pending = [] →
            (as.foldl (tact now) t).pending = [] ∧ (as.foldl (tact now) t).next = t.next := by
          intro as
          induction as with
          | nil => intro _ t h; exact ⟨h, rfl⟩
          | cons a as ih =>
            intro hm t h
            have ha := hm a List.mem_cons_self
            subst ha
            obtain ⟨e1, e2⟩ : (tact now t .cancel).pending = [] ∧ (tact now t .cancel).next = t.next := by
              unfold tact
              cases t.ptr with
              | none => exact ⟨h, rfl⟩
              | some p => simp [h]
            have := ih (fun a ha => hm a (List.mem_cons_of_mem _ ha)) (tact now t .cancel) e1
            exact ⟨this.1, by rw [List.foldl_cons, this.2, e2]⟩
        have hcw : ∀ (as : List TAct), (∀ a ∈ as, a = .cancel) → ∀ n, as.foldl (wact now) ⟨n, none⟩ = ⟨n, none⟩ := by
          intro as
          induction as with
          | nil => intro _ n; rfl
          | cons a as ih =>
            intro hm n
            have ha := hm a List.mem_cons_self
            subst ha
            exact ih (fun a ha => hm a (List.mem_cons_of_mem _ ha)) n
        cases hc : w.cur with
        | none => rw [hc] at h1; cases h1
        | some x =>
          rw [hc] at h1 o2
          simp only [Option.map_some, Option.some.injEq] at h1
          subst h1
          have e0 : ({ t with pending := t.pending.filter (fun y => y.1 != x.1) } : Tm).pending = [] := by simp [o2]
          obtain ⟨e1, e2⟩ := hcan as h2 _ e0
          have ew : wstep w (.fire now x.1 as bs) = bs.foldl (wact now) ⟨w.n, none⟩ := by
            show bs.foldl (wact now) (as.foldl (wact now) ⟨w.n, w.cur.filter (fun y => y.1 != x.1)⟩) = _
            rw [hc, show (some x).filter (fun y => y.1 != x.1) = none by simp, hcw as h2]
          rw [ew]
          have h5 : Only { as.foldl (tact now) { t with pending := t.pending.filter (fun y => y.1 != x.1) } with ptr := none }
              ⟨w.n, none⟩ := ⟨by rw [← o1]; exact e2, e1, rfl⟩
          exact tacts_only h5 now bs h3
  exact (this ops ⟨[], none, 0⟩ ⟨0, none⟩ ⟨rfl, rfl, rfl⟩ h).2.1

example : tidy ⟨0, none⟩ [.call 10 (.set 5), .fire 15 0 [.cancel] [.set 20], .call 16 .cancel, .call 17 (.set 0)] := by
  simp [tidy, tidyActs, wact, wstep]

/-- C164.  The full claim is that only the timer asked for last is pending.  It
    is false: an earlier one stays, also when curl takes its timer back. -/
theorem C164_stale_violated (now ms ms' : Nat) (t : Tm) :
    ((tact now (tact now (tact now t (.set ms)) (.set ms')) .cancel).pending) ≠ [] := by
  simp [tact]

/-- C164.  Nor is one asked for while a timer fires taken back: it is
    forgotten. -/
theorem C164_forgotten_violated (now ms : Nat) :
    let t := tfire now ⟨[(0, now)], some 0, 1⟩ 0 [.set ms] []
    tact now t .cancel = t ∧ t.pending ≠ [] := by
  simp [tfire, tact]

example : ([TOp.call 10 (.set 5), .fire 15 0 [.set 20] [], .call 16 (.set 0)].foldl wstep ⟨0, none⟩).cur = some (2, 17) := by
  decide

end Mtev.CurlEv
