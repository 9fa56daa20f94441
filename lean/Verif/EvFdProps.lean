import Verif.EvFdInv

/-!
Property C67: the callbacks of a file descriptor exclude each other.

Nothing is assumed about the program: any thread may make any call at any time, and the threads are interleaved
in any way.
-/

namespace Mtev.EvFd

variable {n : Nat} {fdOf : Nat → Nat}

/-! ### Specification -/

/-- Anything may happen. -/
def Any : St n → Fin n → Act n → Prop := fun _ _ _ => True

/-- The callbacks of descriptor `f` in progress in a thread, the innermost first. -/
def inCallback (fdOf : Nat → Nat) (f : Nat) (l : List (Frame n)) : List Nat :=
  l.filterMap fun fr => match fr with
    | .cb e _ => if fdOf e = f then some e else none
    | _ => none

/-- The thread spins on the lock of `f`. -/
def Waits (fdOf : Nat → Nat) (s : St n) (t : Fin n) (f : Nat) : Prop :=
  ∃ j rest, s.stk t = .spin j :: rest ∧ j.fd fdOf = f

/-- The thread is in no call and in no callback. -/
def Idle (s : St n) (t : Fin n) : Prop := s.stk t = []

/-! ### Lemmas -/

theorem inCallback_le (f : Nat) (l : List (Frame n)) : (inCallback fdOf f l).length ≤ cntO fdOf f l := by
  induction l with
  | nil => simp [inCallback]
  | cons fr l ih =>
    rw [cntO_cons]
    unfold inCallback at ih ⊢
    rw [List.filterMap_cons]
    cases fr with
    | cb e mv =>
      by_cases h : fdOf e = f
      · simp only [if_pos h, List.length_cons]
        have : (Frame.cb e mv : Frame n).ow fdOf f = true := by simp [Frame.ow, Frame.st, h]
        rw [if_pos this]; omega
      · simp only [if_neg h]; omega
    | _ => simp only; omega

theorem cntS_cbs {f : Nat} : ∀ {l : List (Frame n)}, (∀ fr ∈ l, ∃ e mv, fr = .cb e mv) → cntO fdOf f l = cntS fdOf f l
  | [], _ => rfl
  | fr :: l, h => by
    rw [cntO_cons, cntS_cons, cntS_cbs fun x hx => h x (by simp [hx])]
    obtain ⟨e, mv, rfl⟩ := h fr (by simp)
    rfl

theorem not_spin_rest {fr : Frame n} {l : List (Frame n)} (h : Shape (fr :: l)) {j : Job n} {rest : List (Frame n)}
    (e : l = .spin j :: rest) : False := by
  obtain ⟨x, mv, hx⟩ := h (.spin j) (by rw [e]; simp)
  cases hx

/-- Before a thread spins it spun already or has seen that it is not the executor. -/
theorem spin_from {s : St n} {t : Fin n} (hsh : Shape (s.stk t)) {a : Act n} {j : Job n} {rest : List (Frame n)}
    (h : (act fdOf s t a).stk t = .spin j :: rest) :
    s.stk t = .spin j :: rest ∨ (s.stk t = .chk j :: rest ∧ s.ex (j.fd fdOf) ≠ some t) := by
  have hn : ∀ (s' : St n) l, (nxt s' t l).stk t = l := fun s' l => by simp [nxt]
  unfold act at h
  split at h
  · exact .inl h
  cases a with
  | go =>
    simp only at h
    split at h
    · next fr rest' hst =>
      rw [hst] at hsh
      cases fr with
      | chk j' =>
        simp only [frameStep] at h
        split at h
        · rw [hn] at h; cases h
        · next hne => rw [hn] at h; cases h; exact .inr ⟨hst, hne⟩
      | spin j' =>
        simp only [frameStep] at h
        split at h
        · exact .inl h
        · rw [hn] at h; cases h
      | body own j' =>
        exfalso
        cases j' <;> simp only [frameStep, bodyStep, fini] at h <;> (repeat' split at h) <;> rw [hn] at h <;>
          first | exact not_spin_rest hsh h | cases h
      | fin e nm =>
        exfalso
        simp only [frameStep, finStep] at h
        repeat' split at h
        all_goals first | (rw [hn] at h; cases h) | (rw [hst] at h; cases h)
      | relB g k =>
        exfalso
        simp only [frameStep] at h
        rw [hn] at h
        split at h
        · cases h
        · exact not_spin_rest hsh h
      | _ =>
        exfalso
        simp only [frameStep, fini] at h <;> (repeat' split at h) <;>
          first
            | (rw [hn] at h; cases h; done)
            | (rw [hn] at h; exact not_spin_rest hsh h)
            | (rw [hst] at h; cases h; done)
    · exact .inl h
  | setOwner e v =>
    simp only at h
    repeat' split at h
    all_goals first | exact .inl h | (rw [hn] at h; cases h)
  | fire =>
    simp only at h
    repeat' split at h
    all_goals first | exact .inl h | (rw [hn] at h; cases h)
  | _ =>
    simp only at h
    repeat' split at h
    all_goals first | exact .inl h | (rw [hn] at h; cases h)

/-- A thread that spins does not hold the lock. -/
theorem spin_free {D : St n → Fin n → Act n → Prop} {s : St n} (h : Run fdOf D s) :
    ∀ t j rest, s.stk t = .spin j :: rest → cntO fdOf (j.fd fdOf) (s.stk t) = 0 := by
  induction h with
  | init mask owner => intro t j rest h; cases h
  | @step s u a hr hd ih =>
    intro t j rest hst
    by_cases e : t = u
    · subst e
      have hsh := shape_run fdOf hr t
      rw [hst]
      rcases spin_from hsh hst with h | ⟨h, hex⟩
      · rw [← h]; exact ih t j rest h
      · have hl := lockInv_run fdOf hr (j.fd fdOf)
        have hx : cntS fdOf (j.fd fdOf) (s.stk t) ≠ 1 := fun hc => hex ((hl.ex t).2 hc)
        have h1 := hl.one t
        rw [h] at hsh
        have heq := cntS_cbs (fdOf := fdOf) (f := j.fd fdOf) (l := rest) hsh
        rw [h] at hx h1
        rw [cntO_cons] at h1 ⊢
        rw [cntS_cons] at hx
        simp [Frame.ow, Frame.st] at h1 hx ⊢
        omega
    · rw [act_other fdOf _ _ _ _ e] at hst ⊢
      exact ih t j rest hst

/-- A thread that spins on a lock that is taken stays there. -/
theorem spin_stuck {s : St n} {t : Fin n} {f : Nat} (h : Waits fdOf s t f) (hl : s.lock f = true) (a : Act n) :
    act fdOf s t a = s := by
  obtain ⟨j, rest, hst, hf⟩ := h
  unfold act
  split
  · rfl
  cases a <;> simp only [hst, free, frameStep, hf, hl, if_true] <;> simp

/-- A schedule. -/
def exec (fdOf : Nat → Nat) (l : List (Fin n × Act n)) (s : St n) : St n := l.foldl (fun s p => act fdOf s p.1 p.2) s

theorem exec_run_from : ∀ (l : List (Fin n × Act n)) {s : St n}, Run fdOf Any s → Run fdOf Any (exec fdOf l s)
  | [], _, h => h
  | p :: l, _, h => exec_run_from l (.step p.1 p.2 h trivial)

theorem exec_run (l : List (Fin n × Act n)) (mask : Nat → Mask) (owner : Nat → Fin n) :
    Run fdOf Any (exec fdOf l (init mask owner)) := exec_run_from l (.init mask owner)

/-! ### C67 -/

/-- C67: in every reachable state at most one callback of a descriptor is in progress, counting all threads and
callbacks called from callbacks. -/
theorem C67_callbacks_exclude {s : St n} (h : Run fdOf Any s) (f : Nat) :
    (∀ t, (inCallback fdOf f (s.stk t)).length ≤ 1) ∧
    ∀ t u, inCallback fdOf f (s.stk t) ≠ [] → inCallback fdOf f (s.stk u) ≠ [] → t = u := by
  have hl := lockInv_run fdOf h f
  refine ⟨fun t => Nat.le_trans (inCallback_le f _) (hl.one t), fun t u ht hu => ?_⟩
  have h1 := inCallback_le (fdOf := fdOf) f (s.stk t)
  have h2 := inCallback_le (fdOf := fdOf) f (s.stk u)
  have h3 := hl.one t
  have h4 := hl.one u
  have := List.length_pos_iff.2 ht
  have := List.length_pos_iff.2 hu
  exact hl.uniq t u (by omega) (by omega)

/-- A callback is in progress, and others want in. -/
example : ∃ s : St 2, Run (fun e => e) Any s ∧ inCallback (fun e => e) 0 (s.stk 0) = [0] ∧ Waits (fun e => e) s 1 0 := by
  refine ⟨_, exec_run [(0, .add 0 ⟨true, false, false⟩), (0, .go), (0, .go), (0, .go), (0, .go), (0, .go), (0, .go),
    (0, .wait [(0, ⟨true, false, false, false, false⟩)]), (0, .fire), (0, .go), (0, .go), (0, .go), (0, .go), (0, .go), (0, .go),
    (1, .remFd 0), (1, .go), (1, .go)] (fun _ => .zero) (fun _ => 0), by decide +kernel, ?_⟩
  exact ⟨.remFd 0, [], by decide +kernel, rfl⟩

/-- C67: a thread that waits for the lock of a descriptor is not in a callback of that descriptor, so no thread
waits for itself; while the lock is taken there is another thread that is in a call or a callback. -/
theorem C67_no_self_deadlock {s : St n} (h : Run fdOf Any s) {t : Fin n} {f : Nat} (hw : Waits fdOf s t f) :
    inCallback fdOf f (s.stk t) = [] ∧ (s.lock f = true → ∃ u, u ≠ t ∧ ¬ Idle s u) := by
  obtain ⟨j, rest, hst, rfl⟩ := hw
  have h0 := spin_free h t j rest hst
  constructor
  · have := inCallback_le (fdOf := fdOf) (j.fd fdOf) (s.stk t)
    exact List.length_eq_zero_iff.1 (by omega)
  · intro hl
    obtain ⟨u, hu⟩ := (lockInv_run fdOf h _).held hl
    refine ⟨u, ?_, ?_⟩
    · rintro rfl; omega
    · intro hi
      rw [hi] at hu
      simp [cntO] at hu

/-- C67: no call leaves a lock behind. -/
theorem C67_idle_unlocked {s : St n} (h : Run fdOf Any s) (hi : ∀ t, Idle s t) (f : Nat) :
    s.lock f = false ∧ s.ex f = none := by
  have hl := lockInv_run fdOf h f
  constructor
  · by_contra hc
    obtain ⟨u, hu⟩ := hl.held (by simpa using hc)
    rw [hi u] at hu
    simp [cntO] at hu
  · cases he : s.ex f with
    | none => rfl
    | some t =>
      have := (hl.ex t).1 he
      rw [hi t] at this
      simp [cntS] at this

/-- A registration and a removal by another thread, done. -/
example : ∃ s : St 2, Run (fun e => e) Any s ∧ (∀ t, Idle s t) ∧ s.reg 0 = 1 ∧ s.out 0 = 1 := by
  refine ⟨_, exec_run ((0, .add 0 ⟨true, false, false⟩) :: List.replicate 6 (0, .go) ++ (1, .remFd 0) :: List.replicate 6 (1, .go))
    (fun _ => .zero) (fun _ => 0), ?_, by decide +kernel, by decide +kernel⟩
  intro t
  unfold Idle
  revert t
  decide +kernel

/-- C67 is false for callbacks that wait for each other: two threads, each in the callback of one descriptor,
remove the other descriptor; both wait for ever, whatever happens. -/
theorem C67_deadlock_violated : ∃ s : St 2, Run (fun e => e) Any s ∧
    inCallback (fun e => e) 0 (s.stk 0) = [0] ∧ Waits (fun e => e) s 0 1 ∧
    inCallback (fun e => e) 1 (s.stk 1) = [1] ∧ Waits (fun e => e) s 1 0 ∧
    ∀ l, exec (fun e => e) l s = s := by
  let up (t : Fin 2) : List (Fin 2 × Act 2) := (t, .add t.1 ⟨true, false, false⟩) :: List.replicate 6 (t, .go) ++
    (t, .wait [(t.1, ⟨true, false, false, false, false⟩)]) :: (t, .fire) :: List.replicate 6 (t, .go)
  let l := up 0 ++ up 1 ++ [((0 : Fin 2), Act.remFd 1), (1, .remFd 0), (0, .go), (1, .go), (0, .go), (1, .go)]
  let s := exec (fun e => e) l (init (fun _ => .zero) fun e => if e = 0 then 0 else 1)
  have w0 : Waits (fun e => e) s 0 1 := ⟨.remFd 1, [.cb 0 false], by decide +kernel, rfl⟩
  have w1 : Waits (fun e => e) s 1 0 := ⟨.remFd 0, [.cb 1 false], by decide +kernel, rfl⟩
  have l0 : s.lock 0 = true := by decide +kernel
  have l1 : s.lock 1 = true := by decide +kernel
  refine ⟨s, exec_run _ _ _, by decide +kernel, w0, by decide +kernel, w1, ?_⟩
  intro l
  have hs : ∀ t a, act (fun e => e) s t a = s := by
    intro t a
    match t with
    | 0 => exact spin_stuck w0 l1 a
    | 1 => exact spin_stuck w1 l0 a
  induction l with
  | nil => rfl
  | cons p l ih => rw [exec, List.foldl_cons, hs]; exact ih

end Mtev.EvFd
