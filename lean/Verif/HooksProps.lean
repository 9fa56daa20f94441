import Verif.Hooks

/-!
Property theorems for hook chains (C38).
-/
namespace Mtev.Hooks

/-! ### Specification -/

/-- The functions registered by the first `m` completed registrations (those
whose compare-and-swap succeeded), oldest first. -/
def registered {n : Nat} (s : St n) (m : Nat) : List (Option Nat) :=
  (s.order.take m).map fun x => (s.nodes[x]?).bind Node.func

/-- What a hook chain with functions `fs` (in calling order) does when it makes
the calls `calls` (function and its result) and returns `rv`: the functions are
called in order until one aborts; the result is `abort` if one aborted, else
`done` if some call said `done`, else `continue`. -/
inductive Behaves : List Nat → List (Nat × R) → R → Prop
  | nil : Behaves [] [] .continue
  | abort {f fs} : Behaves (f :: fs) [(f, .abort)] .abort
  | done {f fs calls rv} : Behaves fs calls rv →
      Behaves (f :: fs) ((f, .done) :: calls) (if rv = .abort then .abort else .done)
  | continue {f fs calls rv} : Behaves fs calls rv → Behaves (f :: fs) ((f, .continue) :: calls) rv

/-! ### Bridge -/

theorem behaves_full (fs : List Nat) (calls : List (Nat × R)) (h : ∀ c ∈ calls, c.2 ≠ .abort)
    (hf : calls.map Prod.fst = fs) :
    Behaves fs calls (if ∃ c ∈ calls, c.2 = .done then .done else .continue) := by
  induction calls generalizing fs with
  | nil => simp at hf; subst hf; simpa using Behaves.nil
  | cons c rest ih =>
    obtain ⟨f, r⟩ := c
    subst hf
    have hrest := ih (rest.map Prod.fst) (fun c hc => h c (by simp [hc])) rfl
    cases r with
    | abort => exact absurd rfl (h (f, .abort) (by simp))
    | done =>
      rw [if_pos ⟨(f, .done), by simp, rfl⟩]
      have := Behaves.done (f := f) hrest
      have hne : (if ∃ c ∈ rest, c.2 = R.done then R.done else R.continue) ≠ .abort := by split <;> simp
      rw [if_neg hne] at this
      exact this
    | «continue» =>
      have := Behaves.continue (f := f) hrest
      have heq : (∃ c ∈ (f, R.continue) :: rest, c.2 = R.done) ↔ (∃ c ∈ rest, c.2 = R.done) := by
        constructor
        · rintro ⟨c, h1, h2⟩
          rcases List.mem_cons.1 h1 with h1 | h1
          · rw [h1] at h2; cases h2
          · exact ⟨c, h1, h2⟩
        · rintro ⟨c, h1, h2⟩; exact ⟨c, List.mem_cons_of_mem _ h1, h2⟩
      rw [if_congr heq rfl rfl]; exact this

theorem behaves_abort (pre : List (Nat × R)) (f : Nat) (rest : List Nat)
    (h : ∀ c ∈ pre, c.2 ≠ .abort) :
    Behaves (pre.map Prod.fst ++ f :: rest) (pre ++ [(f, .abort)]) .abort := by
  induction pre with
  | nil => exact .abort
  | cons c pre ih =>
    obtain ⟨g, r⟩ := c
    have hp := ih (fun c hc => h c (by simp [hc]))
    cases r with
    | abort => exact absurd rfl (h (g, .abort) (by simp))
    | done => have := Behaves.done (f := g) hp; rw [if_pos rfl] at this; exact this
    | «continue» => exact Behaves.continue hp

theorem funcs_eq {n : Nat} (s : St n) (m : Nat) :
    funcs s.nodes (s.order.take m).reverse = ((registered s m).reverse).filterMap id := by
  unfold funcs registered
  rw [← List.map_reverse, List.filterMap_map]
  rfl

/-! ### C38 -/

/-- C38 (invocation, concurrent).  If the two reads of the list head in
`register` are one load, or if registrations never overlap, then every finished
invocation behaved like the chain of the functions registered up to some moment
`m` between its start and its end, newest first, skipping NULL functions; for
every number of threads, interleaving and hook result. -/
theorem C38_invoke_partial (n : Nat) (mode : Mode) (hmode : mode ≠ .twoLoads)
    (l : List (Fin n × Act)) (s : St n) (hrun : run mode (init n) l = .ok s)
    (calls : List (Nat × R)) (rv : R) (n0 n1 : Nat) (hr : .invoked calls rv n0 n1 ∈ s.rets) :
    ∃ m, n0 ≤ m ∧ m ≤ n1 ∧ n1 ≤ s.order.length ∧
      Behaves (((registered s m).reverse).filterMap id) calls rv := by
  obtain ⟨s', h1, h2⟩ := inv_run hmode l (init n) (inv_init n mode)
  rw [hrun] at h1
  cases h1
  obtain ⟨m, a1, a2, a3, a4⟩ := h2.rets _ hr
  refine ⟨m, a1, a2, a3, ?_⟩
  rw [← funcs_eq]
  rcases a4 with ⟨e1, pre, f, rest, e2, e3, e4⟩ | ⟨e1, e2, e3⟩
  · rw [e4, e1, e2]
    have := behaves_abort pre f rest e3
    simpa using this
  · rw [← e2, e3]
    exact behaves_full _ _ e1 rfl

/-- C38 (registration, concurrent).  Under the same condition every finished
registration is in the chain from some moment between its start and its end on,
and stays: its position `m` in the registration order is below the count every
later invocation starts from. -/
theorem C38_registered_stays_partial (n : Nat) (mode : Mode) (hmode : mode ≠ .twoLoads)
    (l : List (Fin n × Act)) (s : St n) (hrun : run mode (init n) l = .ok s)
    (f : Option Nat) (n0 n1 : Nat) (hr : .registered f n0 n1 ∈ s.rets) :
    ∃ m, n0 ≤ m ∧ m < n1 ∧ n1 ≤ s.order.length ∧ ∀ k, m < k → k ≤ s.order.length →
      (registered s k)[m]? = some f := by
  obtain ⟨s', h1, h2⟩ := inv_run hmode l (init n) (inv_init n mode)
  rw [hrun] at h1
  cases h1
  obtain ⟨m, x, a1, a2, a3, a4, a5⟩ := h2.rets _ hr
  refine ⟨m, a1, a2, a3, fun k hk _ => ?_⟩
  unfold registered
  rw [List.getElem?_map, List.getElem?_take_of_lt hk, a4]
  simp [a5]

/-- C38 (no step is undefined).  Under the same condition no interleaving
follows a dangling list pointer. -/
theorem C38_defined_partial (n : Nat) (mode : Mode) (hmode : mode ≠ .twoLoads)
    (l : List (Fin n × Act)) : ∃ s, run mode (init n) l = .ok s :=
  let ⟨s, h, _⟩ := inv_run hmode l (init n) (inv_init n mode); ⟨s, h⟩

/-- C38, negative part: compiled as written (two reads of the list head), two
overlapping registrations lose a hook that was registered and finished long
before.  Hook 7 is registered and its registration returns; then thread 0
registers hook 8 and is interrupted between the two reads by thread 1's
complete registration of hook 9; afterwards hook 9's registration has returned,
yet an invocation calls hooks 8 and 7 only. -/
theorem C38_lost_registration_violated :
    ∃ s : St 2, run .twoLoads (init 2)
      [(0, .register (some 7)), (0, .step .continue), (0, .step .continue), (0, .step .continue),
       (0, .register (some 8)), (0, .step .continue),
       (1, .register (some 9)), (1, .step .continue), (1, .step .continue), (1, .step .continue),
       (0, .step .continue), (0, .step .continue),
       (0, .invoke), (0, .step .continue), (0, .step .continue), (0, .step .continue),
       (0, .step .continue)] = .ok s ∧
      s.rets = [.registered (some 7) 0 1, .registered (some 9) 1 2, .registered (some 8) 1 3,
        .invoked [(8, .continue), (7, .continue)] .continue 3 3] := by
  refine ⟨_, rfl, ?_⟩
  decide +kernel

/-- `NAME_hook_exists`, mtev_hooks.h:165-168. -/
def hookExists {n : Nat} (s : St n) : Bool := s.head.isSome

/-- C38 (existence).  `NAME_hook_exists` is true exactly when some registration
has taken effect; in every mode. -/
theorem C38_exists (n : Nat) (mode : Mode) (l : List (Fin n × Act)) (s : St n)
    (hrun : run mode (init n) l = .ok s) : hookExists s = true ↔ s.order ≠ [] := by
  suffices h : ∀ (l : List (Fin n × Act)) (s s' : St n), (s.head.isSome = true ↔ s.order ≠ []) →
      run mode s l = .ok s' → (s'.head.isSome = true ↔ s'.order ≠ []) from
    h l (init n) s (by simp [init]) hrun
  intro l
  induction l with
  | nil => intro s s' h hr; simp only [run, Out.ok.injEq] at hr; subst hr; exact h
  | cons a rest ih =>
    intro s s' h hr
    obtain ⟨i, act⟩ := a
    simp only [run] at hr
    have hstep : ∀ s1, exec mode s i act = .ok s1 → (s1.head.isSome = true ↔ s1.order ≠ []) := by
      intro s1 he
      have hsame : s1.head = s.head → s1.order = s.order → (s1.head.isSome = true ↔ s1.order ≠ []) := by
        intro e1 e2; rw [e1, e2]; exact h
      unfold exec at he
      split at he
      · split at he <;> (cases he; exact hsame rfl rfl)
      · split at he <;> (cases he; exact hsame rfl rfl)
      · split at he
        · cases he; exact h
        · split at he <;> (cases he; exact hsame rfl rfl)
        · cases he; exact hsame rfl rfl
        · split at he
          · cases he; simp
          · cases he; exact hsame rfl rfl
        · cases he; exact hsame rfl rfl
        · cases he; exact hsame rfl rfl
        · split at he
          · simp at he
          · cases he; exact hsame rfl rfl
          · split at he
            · cases he; exact hsame rfl rfl
            · split at he <;> (cases he; exact hsame rfl rfl)
    cases he : exec mode s i act with
    | ok s1 => rw [he, Out.ok_bind] at hr; exact ih s1 s' (hstep s1 he) hr
    | ub => rw [he, Out.ub_bind] at hr; simp at hr
    | abort => rw [he, Out.abort_bind] at hr; simp at hr

/-! ### Concrete cases -/

/-- Three registrations (one NULL function), then an invocation in which the
newest says DONE and the oldest CONTINUE. -/
example : (match run (n := 1) .oneLoad (init 1)
      [(0, .register (some 7)), (0, .step .continue), (0, .step .continue),
       (0, .register none), (0, .step .continue), (0, .step .continue),
       (0, .register (some 8)), (0, .step .continue), (0, .step .continue),
       (0, .invoke), (0, .step .continue), (0, .step .done), (0, .step .continue),
       (0, .step .continue), (0, .step .continue)] with
    | .ok s => s.rets
    | _ => []) =
    [.registered (some 7) 0 1, .registered none 1 2, .registered (some 8) 2 3,
     .invoked [(8, .done), (7, .continue)] .done 3 3] := by decide +kernel

/-- An abort stops the walk. -/
example : Behaves [8, 7, 6] [(8, .done), (7, .abort)] .abort := by
  have := Behaves.done (f := 8) (Behaves.abort (f := 7) (fs := [6]))
  simpa using this

end Mtev.Hooks
