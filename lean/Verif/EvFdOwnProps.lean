import Verif.EvFdIntr
import Verif.EvFdProps

/-!
Property C68: events on descriptors in programs that keep the rules.

The rules are `Good`.  Proved for all such programs and schedules: callbacks are started by the owner of the event, for
the event that is registered; when nothing goes on with a descriptor the kernel is asked for what the registered event
wants, in its owner's epoll set alone; the process is not ended, with one exception.  Without any rule: an event is
given back at most once for each time it was registered.
-/

namespace Mtev.EvFd

variable {n : Nat} {fdOf : Nat → Nat}

/-! ### Specification -/

/-- In the step the thread enters a callback of `e`. -/
def Starts (fdOf : Nat → Nat) (s : St n) (t : Fin n) (a : Act n) (e : Nat) : Prop :=
  (∀ mv, Frame.cb e mv ∉ s.stk t) ∧ ∃ mv, Frame.cb e mv ∈ (act fdOf s t a).stk t

/-- No thread is in a call or in a callback that is about descriptor `f`. -/
def Quiet (fdOf : Nat → Nat) (s : St n) (f : Nat) : Prop := ∀ t fr, fr ∈ s.stk t → fr.fd fdOf ≠ f

/-- The kernel's interest in `f`: thread `t` is told about `p`. -/
def Asked (s : St n) (f : Nat) (t : Fin n) (p : Ep) : Prop := s.intr t f = some p

/-- The bits for a mask: `EPOLLIN` and `EPOLLPRI` for reading, `EPOLLOUT` for writing, `EPOLLERR` and `EPOLLHUP` for exceptions. -/
def bits (m : Mask) : Ep := { inp := m.read, pri := m.read, out := m.write, err := m.exc, hup := m.exc }

/-! ### Lemmas -/

/-- Where callbacks come from. -/
theorem starts_from {s : St n} {t : Fin n} {a : Act n} {e : Nat} (h : Starts fdOf s t a e) :
    a = .go ∧ ¬ s.dead = true ∧ ∃ m rest, s.stk t = .body true (.run e m) :: rest := by
  obtain ⟨h0, mv, h1⟩ := h
  by_cases hd : s.dead = true
  · simp only [act, if_pos hd] at h1; exact absurd h1 (h0 mv)
  have push : ∀ (s' : St n) (fr : Frame n), (∀ mv, fr ≠ .cb e mv) → Frame.cb e mv ∈ (nxt s' t (fr :: s.stk t)).stk t → False := by
    intro s' fr hf hm
    rw [nxt_stk] at hm
    rcases List.mem_cons.1 hm with h | h
    · exact hf mv h.symm
    · exact h0 mv h
  cases a with
  | go =>
    refine ⟨rfl, hd, ?_⟩
    cases hst : s.stk t with
    | nil => simp [act, hst] at h1
    | cons fr rest =>
      have e0 : act fdOf s t .go = frameStep fdOf s t rest fr := by simp [act, hd, hst]
      rw [e0] at h1
      have hr : ∀ mv, Frame.cb e mv ∉ rest := fun mv hm => h0 mv (by rw [hst]; simp [hm])
      have tp : ∀ (s' : St n) (fr1 : Frame n), (∀ mv, fr1 ≠ .cb e mv) → Frame.cb e mv ∈ (nxt s' t (fr1 :: rest)).stk t → False := by
        intro s' fr1 hf hm
        rw [nxt_stk] at hm
        rcases List.mem_cons.1 hm with h | h
        · exact hf mv h.symm
        · exact hr mv h
      have lw : ∀ (s' : St n), Frame.cb e mv ∈ (nxt s' t rest).stk t → False := by
        intro s' hm
        rw [nxt_stk] at hm
        exact hr mv hm
      have fn : ∀ (s' : St n) own f, Frame.cb e mv ∈ (nxt s' t (fini own f rest)).stk t → False := by
        intro s' own f
        cases own
        · exact lw s'
        · exact tp s' (.relA f none) (by intro mv h; cases h)
      have sm : Frame.cb e mv ∈ s.stk t → False := h0 mv
      cases fr with
      | body own j =>
        cases j with
        | run e' m =>
          cases own
          · exact absurd h1 (lw s)
          · by_cases he : e' = e
            · subst he; exact ⟨m, rest, rfl⟩
            · exact absurd h1 (tp s (.cb e' false) (by intro mv h; cases h; exact he rfl))
        | _ =>
          exfalso
          simp only [frameStep, bodyStep] at h1
          repeat' split at h1
          all_goals first | exact fn _ _ _ h1 | exact lw _ h1 | exact tp _ _ (by intro mv h; cases h) h1
      | fin e' nm =>
        exfalso
        simp only [frameStep, finStep] at h1
        repeat' split at h1
        all_goals first | exact sm h1 | exact tp _ _ (by intro mv h; cases h) h1
      | relB f k =>
        exfalso
        cases k with
        | none => exact lw _ h1
        | some p => exact tp _ _ (by intro mv h; cases h) h1
      | _ =>
        exfalso
        simp only [frameStep] at h1 <;> (repeat' split at h1) <;>
          first | exact sm h1 | exact fn _ _ _ h1 | exact lw _ h1 | exact tp _ _ (by intro mv h; cases h) h1
  | setOwner x u =>
    exfalso
    simp only [act, if_neg hd] at h1
    repeat' split at h1
    all_goals first | exact h0 mv h1 | skip
    · next e' mv' rest hst he =>
      have hst : s.stk t = .cb e' mv' :: rest := hst
      rw [nxt_stk] at h1
      rcases List.mem_cons.1 h1 with h | h
      · cases h; exact h0 mv' (by rw [hst, he]; simp)
      · exact h0 mv (by rw [hst]; simp [h])
    · next e' mv' rest hst he =>
      have hst : s.stk t = .cb e' mv' :: rest := hst
      rw [nxt_stk] at h1
      exact h0 mv (by rw [hst]; exact h1)
  | ret nm =>
    exfalso
    simp only [act, if_neg hd] at h1
    split at h1
    · next hst =>
      rw [nxt_stk] at h1
      rcases List.mem_cons.1 h1 with h | h
      · cases h
      · exact h0 mv (by rw [hst]; simp [h])
    · exact h0 mv h1
  | pop =>
    exfalso
    simp only [act, if_neg hd] at h1
    split at h1
    · rw [nxt_stk] at h1
      cases List.mem_singleton.1 h1
    · exact h0 mv h1
  | wait b =>
    exfalso
    simp only [act, if_neg hd] at h1
    split at h1 <;> exact h0 mv h1
  | fire =>
    exfalso
    simp only [act, if_neg hd] at h1
    repeat' split at h1
    all_goals first | exact h0 mv h1 | skip
    rw [nxt_stk] at h1
    cases List.mem_singleton.1 h1
  | _ =>
    exfalso
    simp only [act, if_neg hd] at h1
    repeat' split at h1
    all_goals first | exact h0 mv h1 | exact push _ _ (by intro mv h; cases h) h1

/-! ### Checking the rules -/

/-- `Good` as a test. -/
def goodB (fdOf : Nat → Nat) (s : St n) (t : Fin n) (a : Act n) : Bool :=
  let moved := match s.stk t with | .cb _ true :: _ => true | _ => false
  let frames (p : Fin n → Frame n → Bool) : Bool := (List.finRange n).all fun u => (s.stk u).all (p u)
  let queues (f : Nat) : Bool := (List.finRange n).all fun u => (s.queue u).all fun p => fdOf p.1 ≠ f
  match a with
  | .add e m => !moved && decide (m ≠ .zero) && decide (s.slot (fdOf e) = none) &&
      (frames fun u fr => decide (fr.fd fdOf ≠ fdOf e) || (decide (u = t) && (match fr with | .cb _ false => true | _ => false))) &&
      queues (fdOf e)
  | .rem e => !moved && decide (s.owner e = t)
  | .remFd f => !moved && (match s.slot f with | some e => decide (s.owner e = t) | none => true)
  | .trig e _ => !moved && frames fun _ fr => decide (fr.fd fdOf ≠ fdOf e) || !fr.adding
  | .update e m => (match s.stk t with | .cb e' false :: _ => decide (e' = e) | _ => false) && decide (s.slot (fdOf e) = some e) &&
      decide (m ≠ .zero)
  | .setOwner e _ => ((match s.stk t with | .cb e' false :: _ => decide (e' = e) | _ => false) &&
        (decide (s.slot (fdOf e) = none) || decide (s.slot (fdOf e) = some e))) ||
      (!moved && decide (s.slot (fdOf e) ≠ some e) && (frames fun _ fr => decide (fr.fd fdOf ≠ fdOf e)) && queues (fdOf e))
  | .ret nm => match s.stk t with
    | .cb e _ :: _ => if nm = .zero then decide (s.slot (fdOf e) ≠ some e)
      else decide (s.slot (fdOf e) = none) || decide (s.slot (fdOf e) = some e)
    | _ => true
  | _ => true

theorem goodB_good {s : St n} {t : Fin n} {a : Act n} (h : goodB fdOf s t a = true) : Good fdOf s t a := by
  have hmv : (match s.stk t with | .cb _ true :: _ => true | _ => false) = false → ¬ HasMoved (s.stk t) := by
    rintro h ⟨e, rest, hst⟩
    rw [hst] at h; cases h
  have hcb : ∀ e, (match s.stk t with | .cb e' false :: _ => decide (e' = e) | _ => false) = true → ∃ rest, s.stk t = .cb e false :: rest := by
    intro e h
    split at h
    · next e' rest hst => exact ⟨rest, by rw [hst]; simp at h; rw [h]⟩
    · cases h
  cases a with
  | go => trivial
  | pop => trivial
  | wait b => trivial
  | fire => trivial
  | add e m =>
    simp only [goodB, Bool.and_eq_true, Bool.not_eq_true', decide_eq_true_eq, List.all_eq_true, List.mem_finRange, forall_const,
      Bool.or_eq_true] at h
    obtain ⟨⟨⟨⟨h1, h2⟩, h3⟩, h4⟩, h5⟩ := h
    refine ⟨hmv h1, h2, h3, fun u fr hf he => ?_, h5⟩
    rcases h4 u fr hf with h | ⟨h, h'⟩
    · exact absurd he h
    · refine ⟨h, ?_⟩
      split at h'
      · exact ⟨_, rfl⟩
      · cases h'
  | rem e =>
    simp only [goodB, Bool.and_eq_true, Bool.not_eq_true', decide_eq_true_eq] at h
    exact ⟨hmv h.1, h.2⟩
  | remFd f =>
    simp only [goodB, Bool.and_eq_true, Bool.not_eq_true'] at h
    refine ⟨hmv h.1, fun e he => ?_⟩
    have := h.2
    rw [he] at this
    simpa using this
  | trig e m =>
    simp only [goodB, Bool.and_eq_true, Bool.not_eq_true', decide_eq_true_eq, List.all_eq_true, List.mem_finRange, forall_const,
      Bool.or_eq_true] at h
    refine ⟨hmv h.1, fun u fr hf he => ?_⟩
    rcases h.2 u fr hf with h | h
    · exact absurd he h
    · exact h
  | update e m =>
    simp only [goodB, Bool.and_eq_true, decide_eq_true_eq] at h
    exact ⟨hcb e h.1.1, h.1.2, h.2⟩
  | setOwner e u =>
    simp only [goodB, Bool.and_eq_true, Bool.not_eq_true', decide_eq_true_eq, List.all_eq_true, List.mem_finRange, forall_const,
      Bool.or_eq_true] at h
    rcases h with ⟨h1, h2⟩ | ⟨⟨⟨h1, h2⟩, h3⟩, h4⟩
    · exact .inl ⟨hcb e h1, h2⟩
    · exact .inr ⟨hmv h1, h2, h3, h4⟩
  | ret nm =>
    intro e mv rest hst
    simp only [goodB, hst] at h
    split at h
    · next hz => exact ⟨fun _ => by simpa using h, fun h' => absurd hz h'⟩
    · next hz => exact ⟨fun h' => absurd h' hz, fun _ => by simpa using h⟩

/-- All actions keep the rules. -/
def goods (fdOf : Nat → Nat) : List (Fin n × Act n) → St n → Bool
  | [], _ => true
  | (t, a) :: l, s => goodB fdOf s t a && goods fdOf l (act fdOf s t a)

theorem goods_run : ∀ (l : List (Fin n × Act n)) {s : St n}, Run fdOf (Good fdOf) s → goods fdOf l s = true → Run fdOf (Good fdOf) (exec fdOf l s)
  | [], _, h, _ => h
  | (t, a) :: l, s, h, hg => by
    simp only [goods, Bool.and_eq_true] at hg
    exact goods_run l (.step t a h (goodB_good hg.1)) hg.2

/-! ### The theorems -/

/-- C68: a callback is started in the thread that owns the event, for the event that is registered, and while no thread is
in a callback of the descriptor. -/
theorem C68_started_by_owner {s : St n} (h : Run fdOf (Good fdOf) s) {t : Fin n} {a : Act n} {e : Nat}
    (hs : Starts fdOf s t a e) :
    s.owner e = t ∧ s.slot (fdOf e) = some e ∧ ∀ u, inCallback fdOf (fdOf e) (s.stk u) = [] := by
  obtain ⟨_, _, m, rest, hst⟩ := starts_from hs
  have hp := (pinv_run fdOf h).1 t (.body true (.run e m)) (by rw [hst]; simp)
  have hb := base_run fdOf h
  have h1 : cntO fdOf (fdOf e) (s.stk t) = 1 := body_holds fdOf hb hst
  refine ⟨hp.1, hp.2, fun u => ?_⟩
  have h2 := inCallback_le (fdOf := fdOf) (fdOf e) (s.stk u)
  by_cases hu : u = t
  · subst hu
    rw [hst, cntO_cons] at h1
    have h3 := inCallback_le (fdOf := fdOf) (fdOf e) rest
    have h4 : inCallback fdOf (fdOf e) (s.stk u) = inCallback fdOf (fdOf e) rest := by rw [hst]; rfl
    rw [h4]
    simp [Frame.ow, Frame.st, Job.fd] at h1
    exact List.length_eq_zero_iff.1 (by omega)
  · have h3 : cntO fdOf (fdOf e) (s.stk u) ≠ 1 := fun h3 => hu ((hb.lock _).uniq u t h3 h1)
    have h4 := (hb.lock (fdOf e)).one u
    exact List.length_eq_zero_iff.1 (by omega)

/-- C68: a callback runs in the thread that owns its event, until it gives the event to another thread. -/
theorem C68_runs_in_owner {s : St n} (h : Run fdOf (Good fdOf) s) {t : Fin n} {e : Nat} (hc : Frame.cb e false ∈ s.stk t) :
    s.owner e = t := (pinv_run fdOf h).1 t (.cb e false) hc

/-- C68: when nothing goes on with a descriptor, the kernel is asked for exactly what the registered event wants, in the epoll
set of its owner alone, and for nothing if no event is registered. -/
theorem C68_interest {s : St n} (h : Run fdOf (Good fdOf) s) {f : Nat} (hq : Quiet fdOf s f) :
    (s.slot f = none → ∀ t p, ¬ Asked s f t p) ∧
    ∀ e, s.slot f = some e → fdOf e = f ∧ s.mask e ≠ .zero ∧ ∀ t p, Asked s f t p ↔ t = s.owner e ∧ p = bits (s.mask e) := by
  have hn : ∀ t, ¬ Stage fdOf f (s.stk t) := by
    rintro t ⟨fr, rest, hst, _, hf⟩
    exact hq t fr (by rw [hst]; simp) hf
  have k0 : ∀ _ : Fin n, K0 f s := fun t => (kt_other fdOf (hn t)).1 (kinv_run fdOf h f t fun v _ => hn v)
  constructor
  · intro hs t p hp
    have := (k0 t).none hs t
    unfold Asked at hp
    rw [this] at hp; cases hp
  · intro e he
    have hfe := (pinv_run fdOf h).2 f e he
    have hm : s.mask e ≠ .zero := by
      intro hm
      obtain ⟨t, ⟨mv, hc⟩ | ⟨fr, rest, hst, hpe, _⟩⟩ := pending_run fdOf h f e he hm
      · exact hq t _ hc hfe
      · refine hq t fr (by rw [hst]; simp) ?_
        have hP := (pinv_run fdOf h).1 t fr (by rw [hst]; simp)
        cases fr with
        | tryL j => cases j <;> simp [Frame.pend] at hpe; subst hpe; exact hfe
        | chk j => cases j <;> simp [Frame.pend] at hpe; subst hpe; exact hfe
        | spin j => cases j <;> simp [Frame.pend] at hpe; subst hpe; exact hfe
        | setEx j => cases j <;> simp [Frame.pend] at hpe; subst hpe; exact hfe
        | body o j => cases o <;> cases j <;> simp [Frame.pend] at hpe; subst hpe; exact hfe
        | relA g k => cases k with
          | none => simp [Frame.pend] at hpe
          | some p =>
            simp [Frame.pend] at hpe
            subst hpe
            exact (hP p rfl).2.symm.trans hfe
        | relB g k => cases k with
          | none => simp [Frame.pend] at hpe
          | some p =>
            simp [Frame.pend] at hpe
            subst hpe
            exact (hP p rfl).2.symm.trans hfe
        | _ => simp [Frame.pend] at hpe <;> (subst hpe; exact hfe)
    refine ⟨hfe, hm, fun t p => ?_⟩
    obtain ⟨h1, h2⟩ := (k0 t).val e he hm
    constructor
    · intro hp
      have ht : t = s.owner e := by
        by_contra hc
        have := h1 t hc
        unfold Asked at hp
        rw [this] at hp; cases hp
      subst ht
      unfold Asked at hp
      rw [h2] at hp; cases hp
      exact ⟨rfl, rfl⟩
    · rintro ⟨rfl, rfl⟩
      exact h2

/-- C68: inside a callback that kept its event, too, the kernel is asked for what is registered. -/
theorem C68_interest_in_callback {s : St n} (h : Run fdOf (Good fdOf) s) {t : Fin n} {e : Nat} {rest : List (Frame n)}
    (hst : s.stk t = .cb e false :: rest) :
    (s.slot (fdOf e) = none → ∀ u p, ¬ Asked s (fdOf e) u p) ∧
    ∀ e', s.slot (fdOf e) = some e' → s.mask e' ≠ .zero →
      ∀ u p, Asked s (fdOf e) u p ↔ u = s.owner e' ∧ p = bits (s.mask e') := by
  have hb := base_run fdOf h
  have hlow := low_run fdOf h
  have ht : cntO fdOf (fdOf e) (s.stk t) = 1 := by
    have h1 := (hb.lock (fdOf e)).one t
    have h2 := cnt_mem fdOf (f := fdOf e) (fr := .cb e false) (l := s.stk t) (by rw [hst]; simp) (by simp [Frame.ow, Frame.st])
    omega
  have hk := kinv_run fdOf h (fdOf e) t (by
    intro v hv hc
    exact hv ((hb.lock _).uniq v t (stage_held fdOf hb (hlow v) hc) ht))
  have k0 : K0 (fdOf e) s := (kt_other fdOf (by
    rintro ⟨fr, r, h1, h2, _⟩
    rw [hst] at h1
    cases h1; cases h2)).1 hk
  constructor
  · intro hs u p hp
    have := k0.none hs u
    unfold Asked at hp
    rw [this] at hp; cases hp
  · intro e' he hm u p
    obtain ⟨h1, h2⟩ := k0.val e' he hm
    constructor
    · intro hp
      have hu : u = s.owner e' := by
        by_contra hc
        have := h1 u hc
        unfold Asked at hp
        rw [this] at hp; cases hp
      subst hu
      unfold Asked at hp
      rw [h2] at hp; cases hp
      exact ⟨rfl, rfl⟩
    · rintro ⟨rfl, rfl⟩
      exact h2

/-- C68: what the kernel reports about an event is what it asked for, read back. -/
theorem C68_masks_agree (m : Mask) : ofEp (bits m) = m := by
  rcases m with ⟨_ | _, _ | _, _ | _⟩ <;> rfl

/-- C68: nothing but two things ends the process: the removal of an event whose mask is 0, and the treatment of an entry of
`epoll_wait` for a descriptor that has been registered by another thread since. -/
theorem C68_no_abort_partial {s : St n} (h : Run fdOf (Good fdOf) s) (hd : s.dead = false) {t : Fin n} {a : Act n} (hg : Good fdOf s t a)
    (ha : (act fdOf s t a).dead = true) :
    (∃ e, a = .rem e ∧ s.mask e = .zero) ∨
    (a = .fire ∧ ∃ f p b e, s.batch t = (f, p) :: b ∧ s.slot f = some e ∧ s.owner e ≠ t) := by
  have hd0 : ¬ s.dead = true := by rw [hd]; simp
  cases a with
  | go =>
    exfalso
    cases hst : s.stk t with
    | nil => simp [act, hd, hst] at ha
    | cons fr rest =>
      have e0 : act fdOf s t .go = frameStep fdOf s t rest fr := by simp [act, hd, hst]
      rw [e0] at ha
      have no : ∀ s' : St n, s'.dead = s.dead → s'.dead = true → False := by
        intro s' h1 h2
        rw [h1, hd] at h2; cases h2
      cases fr with
      | body own j =>
        cases j <;> simp only [frameStep, bodyStep] at ha <;> (repeat' split at ha) <;> exact hd0 ha
      | put own e sp ep =>
        obtain ⟨_, _, _, _, x⟩ := kinv_held fdOf h hst rfl
        obtain ⟨i, hi, _⟩ := epAdd_none (sp := sp) (ep := ep) x
        simp only [frameStep] at ha
        rw [show epAdd s sp (fdOf e) ep = some i from hi] at ha
        exact hd0 ha
      | modE e nm =>
        obtain ⟨_, _, c, x⟩ := kinv_held fdOf h hst rfl
        obtain ⟨i, hi, _⟩ := epEither_at (ep := toEp nm) (decide (s.mask e = .zero)) x
        simp only [frameStep] at ha
        rw [c, show epEither s (decide (s.mask e = .zero)) t (fdOf e) (toEp nm) = some i from hi] at ha
        exact hd0 ha
      | upd e sp ad ep =>
        obtain ⟨_, _, c, x, _⟩ := kinv_held fdOf h hst rfl
        subst c
        obtain ⟨i, hi, _⟩ := epEither_at (ep := ep) ad x
        simp only [frameStep] at ha
        rw [show epEither s ad sp (fdOf e) ep = some i from hi] at ha
        exact hd0 ha
      | fin e nm =>
        have hP := (pinv_run fdOf h).1 t (.fin e nm) (by rw [hst]; simp)
        simp only [frameStep, finStep] at ha
        by_cases hz : nm = .zero
        · rw [if_neg (by simp [hz]), if_neg (hP.1 hz)] at ha
          exact hd0 ha
        · rw [if_pos hz] at ha
          repeat' split at ha
          all_goals exact hd0 ha
      | _ =>
        simp only [frameStep] at ha <;> (repeat' split at ha) <;> exact hd0 ha
  | add e m =>
    exfalso
    simp only [act, if_neg hd0, if_neg hg.2.1] at ha
    split at ha <;> exact hd0 ha
  | rem e =>
    left
    simp only [act, if_neg hd0] at ha
    split at ha
    · split at ha
      · next hm => exact ⟨e, rfl, hm⟩
      · exact absurd ha hd0
    · exact absurd ha hd0
  | fire =>
    right
    refine ⟨rfl, ?_⟩
    simp only [act, if_neg hd0] at ha
    split at ha
    · next f p b hst hb =>
      split at ha
      · exact absurd ha hd0
      · next e hs =>
        split at ha
        · next ho => exact ⟨f, p, b, e, hb, hs, ho⟩
        · exact absurd ha hd0
    · exact absurd ha hd0
  | _ =>
    exfalso
    simp only [act, if_neg hd0] at ha
    repeat' split at ha
    all_goals exact hd0 ha

/-! ### Registrations, without rules -/

/-- 1 if the event is registered. -/
def isReg (fdOf : Nat → Nat) (s : St n) (e : Nat) : Nat := if s.slot (fdOf e) = some e then 1 else 0

/-- Events are registered at their own descriptor, and not given back too often. -/
structure Once (fdOf : Nat → Nat) (s : St n) : Prop where
  slot : SlotOk fdOf s
  le : ∀ e, s.out e + isReg fdOf s e ≤ s.reg e

theorem once_same {s s' : St n} (h : Once fdOf s) (h1 : s'.slot = s.slot) (h2 : s'.out = s.out) (h3 : s'.reg = s.reg) : Once fdOf s' := by
  constructor
  · intro f e; rw [h1]; exact h.slot f e
  · intro e; unfold isReg; rw [h1, h2, h3]; exact h.le e

theorem once_put {s s' : St n} (h : Once fdOf s) (e : Nat) (h1 : s'.slot = ch s.slot (fdOf e) (some e)) (h2 : s'.out = s.out)
    (h3 : s'.reg = ch s.reg e (s.reg e + 1)) : Once fdOf s' := by
  constructor
  · intro f x
    rw [h1]
    by_cases hf : f = fdOf e
    · subst hf
      rw [ch_same]
      intro hx; cases hx; rfl
    · rw [ch_other _ _ _ _ hf]; exact h.slot f x
  · intro x
    have hx := h.le x
    unfold isReg at hx ⊢
    rw [h1, h2, h3]
    by_cases he : x = e
    · subst he
      rw [ch_same, ch_same]
      split <;> split at hx <;> omega
    · rw [ch_other _ _ _ _ he]
      by_cases hf : fdOf x = fdOf e
      · rw [hf, ch_same]
        rw [if_neg (by simp; exact fun h => he h.symm)]
        omega
      · rw [ch_other _ _ _ _ hf]; exact hx

theorem once_take {s s' : St n} (h : Once fdOf s) {f e : Nat} (hs : s.slot f = some e) (h1 : s'.slot = ch s.slot f none)
    (h2 : s'.out = s.out ∨ s'.out = ch s.out e (s.out e + 1)) (h3 : s'.reg = s.reg) : Once fdOf s' := by
  have hfe := h.slot f e hs
  constructor
  · intro g x
    rw [h1]
    by_cases hf : g = f
    · subst hf
      rw [ch_same]
      intro hx; cases hx
    · rw [ch_other _ _ _ _ hf]; exact h.slot g x
  · intro x
    have hx := h.le x
    unfold isReg at hx ⊢
    rw [h1, h3]
    by_cases he : x = e
    · subst he
      rw [hfe, hs] at hx
      rw [hfe, ch_same, if_neg (by simp)]
      rw [if_pos rfl] at hx
      rcases h2 with h2 | h2
      · rw [h2]; omega
      · rw [h2, ch_same]; omega
    · have ho : s'.out x = s.out x := by
        rcases h2 with h2 | h2
        · rw [h2]
        · rw [h2, ch_other _ _ _ _ he]
      rw [ho]
      by_cases hf : fdOf x = f
      · rw [hf, ch_same, if_neg (by simp)]; omega
      · rw [ch_other _ _ _ _ hf]; exact hx

theorem once_run {D : St n → Fin n → Act n → Prop} {s : St n} (h : Run fdOf D s) : Once fdOf s := by
  induction h with
  | init mask owner => exact ⟨fun f e h => (by cases h), fun e => by simp [init, isReg]⟩
  | @step s t a _ _ ih =>
    by_cases hd : s.dead = true
    · simp only [act, if_pos hd]; exact ih
    cases a with
    | go =>
      cases hst : s.stk t with
      | nil => exact once_same ih (by simp [act, hst]) (by simp [act, hst]) (by simp [act, hst])
      | cons fr rest =>
        have e0 : act fdOf s t .go = frameStep fdOf s t rest fr := by simp [act, hd, hst]
        rw [e0]
        cases fr with
        | body own j =>
          cases j with
          | add e sp ep => exact once_put ih e rfl rfl rfl
          | rem e sp =>
            simp only [frameStep, bodyStep]
            split
            · next hs => exact once_take ih hs rfl (.inr rfl) rfl
            · exact once_same ih rfl rfl rfl
          | remFd f =>
            simp only [frameStep, bodyStep]
            split
            · next hs => exact once_take ih hs rfl (.inr rfl) rfl
            · exact once_same ih rfl rfl rfl
          | reAdd e m =>
            simp only [frameStep, bodyStep]
            repeat' split
            · exact once_same ih rfl rfl rfl
            · exact once_put ih e rfl rfl rfl
            · exact once_same ih rfl rfl rfl
          | run e m =>
            simp only [frameStep, bodyStep]
            split <;> exact once_same ih rfl rfl rfl
        | fin e nm =>
          simp only [frameStep, finStep]
          repeat' split
          all_goals first | exact once_same ih rfl rfl rfl | skip
          next hs _ _ => exact once_take ih hs rfl (.inl rfl) rfl
        | _ => simp only [frameStep] <;> (repeat' split) <;> exact once_same ih rfl rfl rfl
    | setOwner e u =>
      simp only [act, if_neg hd]
      repeat' split
      all_goals exact once_same ih rfl rfl rfl
    | fire =>
      simp only [act, if_neg hd]
      repeat' split
      all_goals exact once_same ih rfl rfl rfl
    | _ => simp only [act, if_neg hd] <;> (repeat' split) <;> exact once_same ih rfl rfl rfl

/-- C68: whatever the program does, an event is given back by the calls that remove at most once for each time it was registered,
and not for the last time while it is registered. -/
theorem C68_removed_once {s : St n} (h : Run fdOf Any s) (e : Nat) :
    s.out e ≤ s.reg e ∧ (s.slot (fdOf e) = some e → s.out e < s.reg e) := by
  have := (once_run h).le e
  unfold isReg at this
  constructor
  · omega
  · intro hs
    rw [if_pos hs] at this
    omega

/-! ### Cases -/

/-- Two events on descriptors 0 and 1; the events 2, 3, ... are on descriptor 1 too. -/
def fd01 : Nat → Nat := fun e => if e = 0 then 0 else 1

/-- `eventer_add` and the end of the call. -/
def doAdd (t : Fin 2) (e : Nat) (m : Mask) : List (Fin 2 × Act 2) := (t, .add e m) :: List.replicate 6 (t, .go)

/-- Descriptors become readable and the callback of the first is entered. -/
def enter (t : Fin 2) (fs : List Nat) : List (Fin 2 × Act 2) :=
  (t, .wait (fs.map fun f => (f, ⟨true, false, false, false, false⟩))) :: (t, .fire) :: List.replicate 6 (t, .go)

def rd : Mask := ⟨true, false, false⟩
def wr : Mask := ⟨false, true, false⟩
def own0 : Nat → Fin 2 := fun e => if e = 2 then 1 else 0

/-- A callback starts. -/
example : ∃ s : St 2, Run fd01 (Good fd01) s ∧ Starts fd01 s 0 .go 0 := by
  let l := doAdd 0 0 rd ++ (enter 0 [0]).dropLast
  refine ⟨exec fd01 l (init (fun _ => .zero) own0), goods_run l (.init _ _) (by decide +kernel), ?_, false, by decide +kernel⟩
  intro mv
  cases mv <;> decide +kernel

/-- An event that its callback gave to another thread, which then asks for writing. -/
example : ∃ s : St 2, Run fd01 (Good fd01) s ∧ Quiet fd01 s 0 ∧ s.slot 0 = some 0 ∧ s.owner 0 = 1 ∧ s.mask 0 = wr := by
  let l := doAdd 0 0 rd ++ enter 0 [0] ++ [((0 : Fin 2), Act.update 0 ⟨true, true, false⟩), (0, .go), (0, .setOwner 0 1), (0, .ret wr)] ++
    List.replicate 6 (0, .go)
  refine ⟨exec fd01 l (init (fun _ => .zero) own0), goods_run l (.init _ _) (by decide +kernel), ?_, by decide +kernel, by decide +kernel,
    by decide +kernel⟩
  intro t fr hf
  have : ∀ t, (exec fd01 l (init (fun _ => .zero) own0)).stk t = [] := by decide +kernel
  rw [this t] at hf
  cases hf

/-- C68 is false for the end of the process: in a program that keeps the rules, a callback removes another descriptor of the
same `epoll_wait` and an event of another thread is registered for its number; the entry that is left ends the process. -/
theorem C68_stale_report_violated : ∃ s : St 2, Run fd01 (Good fd01) s ∧ s.dead = false ∧ (act fd01 s 0 .fire).dead = true := by
  let l := doAdd 0 0 rd ++ doAdd 0 1 rd ++ enter 0 [0, 1] ++ ((0 : Fin 2), Act.remFd 1) :: List.replicate 6 (0, .go) ++ doAdd 0 2 rd ++
    (0, .ret rd) :: List.replicate 5 (0, .go)
  exact ⟨exec fd01 l (init (fun _ => .zero) own0), goods_run l (.init _ _) (by decide +kernel), by decide +kernel, by decide +kernel⟩

/-- Without the rule that the owner removes, C68 is false: a thread gets the event back from `eventer_remove_fd` and is done; after that the
callback of the event starts in the other thread. -/
theorem C68_removed_by_other_violated : ∃ s : St 2, Run fd01 Any s ∧ s.out 0 = 1 ∧ s.reg 0 = 1 ∧ s.slot 0 = none ∧ Idle s 1 ∧
    inCallback fd01 0 (s.stk 0) = [] ∧ inCallback fd01 0 ((exec fd01 (List.replicate 3 (0, .go)) s).stk 0) = [0] := by
  let l := doAdd 0 0 rd ++ (enter 0 [0]).take 5 ++ ((1 : Fin 2), Act.remFd 0) :: List.replicate 6 (1, .go)
  refine ⟨exec fd01 l (init (fun _ => .zero) own0), exec_run l _ _, by decide +kernel, by decide +kernel, by decide +kernel, ?_,
    by decide +kernel, by decide +kernel⟩
  unfold Idle
  decide +kernel

/-- Without the rule about what a callback returns, C68 is false: a callback puts another event in the place of its own and asks
for writing; in the end the kernel is asked for writing while the registered event wants to read. -/
theorem C68_replaced_violated : ∃ s : St 2, Run (fun _ => 0) Any s ∧ (∀ t, Idle s t) ∧ s.slot 0 = some 1 ∧ s.mask 1 = rd ∧
    Asked s 0 0 (bits wr) := by
  let l := doAdd 0 0 rd ++ enter 0 [0] ++ ((0 : Fin 2), Act.rem 0) :: List.replicate 4 (0, .go) ++ (0, .add 1 rd) :: List.replicate 4 (0, .go) ++
    (0, .ret wr) :: List.replicate 5 (0, .go)
  refine ⟨exec (fun _ => 0) l (init (fun _ => .zero) fun _ => 0), exec_run l _ _, ?_, by decide +kernel, by decide +kernel, ?_⟩
  · unfold Idle; decide +kernel
  · unfold Asked; decide +kernel

end Mtev.EvFd
