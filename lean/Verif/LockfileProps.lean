import Verif.Lockfile
import Mathlib.Data.List.Induction

/-!
# C118 Lock files
-/

namespace Mtev.Lockfile

variable {n : Nat}

/-- the caller has a descriptor from acquire and has not given it to release -/
def Holds (s : St n) (a : Fin n) : Prop := ∃ ow, s.pc a = .holds ow

def Reach (proc : Fin n → Nat) (s : St n) : Prop := ∃ t, run proc {} t = some s

theorem run_append (proc : Fin n → Nat) (t u : List (Fin n × Ev)) : ∀ s, run proc s (t ++ u) =
    (run proc s t).bind fun s' => run proc s' u := by
  induction t with
  | nil => intro s; rfl
  | cons x t ih =>
    intro s
    obtain ⟨a, e⟩ := x
    simp only [List.cons_append, run]
    cases step proc s a e with
    | none => rfl
    | some s' => exact ih s'

/-- everything that holds at the start and is kept by each step holds in all states -/
theorem reach_induct (proc : Fin n → Nat) (P : St n → Prop) (h0 : P {})
    (hs : ∀ s a e s', P s → step proc s a e = some s' → P s') (s : St n) (h : Reach proc s) : P s := by
  obtain ⟨t, ht⟩ := h
  have : ∀ (t : List (Fin n × Ev)) (s0 : St n), P s0 → run proc s0 t = some s → P s := by
    intro t
    induction t with
    | nil => intro s0 h e; simp only [run, Option.some.injEq] at e; exact e ▸ h
    | cons x t ih =>
      intro s0 h e
      obtain ⟨a, ev⟩ := x
      simp only [run] at e
      cases hst : step proc s0 a ev with
      | none => rw [hst] at e; cases e
      | some s1 => rw [hst] at e; exact ih s1 (hs _ _ _ _ h hst) e
  exact this t {} h0 ht

/-- one caller for each process: who holds has the lock, and only a holder has it -/
def Inv (proc : Fin n → Nat) (s : St n) : Prop :=
  (∀ a, Holds s a → s.lock = some (proc a)) ∧ ∀ p, s.lock = some p → ∃ a, proc a = p ∧ Holds s a

theorem holds_upd (s : St n) (l : Option Nat) (a b : Fin n) (v : Pc) :
    Holds { lock := l, pc := upd s.pc a v } b ↔ (b = a ∧ ∃ ow, v = .holds ow) ∨ (b ≠ a ∧ Holds s b) := by
  unfold Holds
  by_cases h : b = a
  · subst h; simp
  · simp [upd_other _ _ _ _ h, h]

/-- a caller who does not hold goes where they do not hold, the lock stays -/
theorem inv_quiet (proc : Fin n → Nat) (s : St n) (a : Fin n) (v : Pc) (h : Inv proc s) (h1 : ¬ Holds s a)
    (h2 : ∀ ow, v ≠ .holds ow) : Inv proc { s with pc := upd s.pc a v } := by
  constructor
  · intro b hb
    rw [holds_upd] at hb
    rcases hb with ⟨_, ow, e⟩ | ⟨_, hb⟩
    · exact absurd e (h2 ow)
    · exact h.1 b hb
  · intro p hp
    obtain ⟨b, hb, hh⟩ := h.2 p hp
    refine ⟨b, hb, ?_⟩
    rw [holds_upd]
    right
    exact ⟨fun e => h1 (e ▸ hh), hh⟩

theorem drop_quiet (proc : Fin n → Nat) (hi : Function.Injective proc) (s : St n) (a : Fin n) (h : Inv proc s)
    (h1 : ¬ Holds s a) : drop s.lock (proc a) = s.lock := by
  unfold drop
  split
  · rename_i e
    obtain ⟨b, hb, hh⟩ := h.2 _ e
    exact absurd (hi hb ▸ hh) h1
  · rfl

theorem not_holds {s : St n} {a : Fin n} {v : Pc} (h : s.pc a = v) (h2 : ∀ ow, v ≠ .holds ow) : ¬ Holds s a := by
  rintro ⟨ow, e⟩
  exact h2 ow (h.symm.trans e)

theorem inv_step (proc : Fin n → Nat) (hi : Function.Injective proc) (s : St n) (a : Fin n) (e : Ev) (s' : St n)
    (h : Inv proc s) (hs : step proc s a e = some s') : Inv proc s' := by
  cases e with
  | acquire =>
    cases hp : s.pc a <;> simp only [step, hp, Option.some.injEq, reduceCtorEq] at hs <;> subst hs <;>
      exact inv_quiet proc s a _ h (not_holds hp (by simp)) (by simp)
  | acquireOwner =>
    cases hp : s.pc a <;> simp only [step, hp, Option.some.injEq, reduceCtorEq] at hs <;> subst hs <;>
      exact inv_quiet proc s a _ h (not_holds hp (by simp)) (by simp)
  | getlk =>
    cases hp : s.pc a <;> simp only [step, hp, Option.some.injEq, reduceCtorEq] at hs
    subst hs
    exact inv_quiet proc s a _ h (not_holds hp (by simp)) (by simp)
  | setlk =>
    cases hp : s.pc a <;> simp only [step, hp, reduceCtorEq] at hs
    rename_i ow
    split at hs
    · rename_i hl
      simp only [Option.some.injEq] at hs
      subst hs
      have hn : ¬ Holds s a := not_holds hp (by simp)
      have hl : s.lock = none := by
        rcases hl with hl | hl
        · exact hl
        · obtain ⟨b, hb, hh⟩ := h.2 _ hl
          exact absurd (hi hb ▸ hh) hn
      constructor
      · intro b hb
        rw [holds_upd] at hb
        rcases hb with ⟨rfl, _⟩ | ⟨_, hb⟩
        · rfl
        · have := h.1 b hb; rw [hl] at this; cases this
      · intro p hp'
        simp only [Option.some.injEq] at hp'
        exact ⟨a, hp', (holds_upd s _ a a _).2 (Or.inl ⟨rfl, ow, rfl⟩)⟩
    · simp only [Option.some.injEq] at hs
      subst hs
      exact inv_quiet proc s a _ h (not_holds hp (by simp)) (by simp)
  | close =>
    cases hp : s.pc a <;> simp only [step, hp, Option.some.injEq, reduceCtorEq] at hs <;> subst hs <;>
      rw [drop_quiet proc hi s a h (not_holds hp (by simp))] <;>
      exact inv_quiet proc s a _ h (not_holds hp (by simp)) (by simp)
  | release =>
    cases hp : s.pc a <;> simp only [step, hp, Option.some.injEq, reduceCtorEq] at hs
    subst hs
    have ha := h.1 a ⟨_, hp⟩
    have hd : drop s.lock (proc a) = none := by unfold drop; rw [if_pos ha]
    rw [hd]
    constructor
    · intro b hb
      rw [holds_upd] at hb
      rcases hb with ⟨_, ow, e⟩ | ⟨hne, hb⟩
      · cases e
      · have := h.1 b hb
        rw [ha] at this
        exact absurd (hi (Option.some.inj this)).symm hne
    · intro p hp'; cases hp'
  | exit =>
    simp only [step, Option.some.injEq] at hs
    subst hs
    have hh : ∀ b, Holds { lock := drop s.lock (proc a), pc := fun b => if proc b = proc a then .idle else s.pc b } b ↔
        b ≠ a ∧ Holds s b := by
      intro b
      unfold Holds
      by_cases e : b = a
      · subst e; simp
      · have : proc b ≠ proc a := fun h => e (hi h)
        simp [this, e]
    constructor
    · intro b hb
      rw [hh] at hb
      have hl := h.1 b hb.2
      unfold drop
      rw [if_neg]
      · exact hl
      · rw [hl]; intro e; exact hb.1 (hi (Option.some.inj e))
    · intro p hp
      simp only [drop] at hp
      split at hp
      · cases hp
      · rename_i hne
        obtain ⟨b, hb, hbh⟩ := h.2 p hp
        refine ⟨b, hb, (hh b).2 ⟨?_, hbh⟩⟩
        rintro rfl
        rw [hb] at hne
        exact hne hp

theorem inv_reach (proc : Fin n → Nat) (hi : Function.Injective proc) (s : St n) (h : Reach proc s) : Inv proc s :=
  reach_induct proc (Inv proc) ⟨fun _ h => (by obtain ⟨_, h⟩ := h; simp at h), fun _ h => (by simp at h)⟩
    (fun s a e s' h hs => inv_step proc hi s a e s' h hs) s h

/-- **C118** In every order of the steps, and whenever processes end, at most one caller holds the lock.

Partial: one caller in each process.  Missing: see `C118_exclusive_violated`. -/
theorem C118_exclusive_partial (proc : Fin n → Nat) (hi : Function.Injective proc) (s : St n) (h : Reach proc s)
    (a b : Fin n) (ha : Holds s a) (hb : Holds s b) : a = b := by
  have hv := inv_reach proc hi s h
  have := (hv.1 a ha).symm.trans (hv.1 b hb)
  exact hi (Option.some.inj this)

/-- **C118** If nobody holds the lock, because all have released it or their processes have ended, acquire succeeds. -/
theorem C118_free_partial (proc : Fin n → Nat) (hi : Function.Injective proc) (s : St n) (h : Reach proc s)
    (hn : ∀ b, ¬ Holds s b) (a : Fin n) (ha : s.pc a = .idle) :
    (∃ s', run proc s [(a, .acquire), (a, .setlk)] = some s' ∧ Holds s' a) ∧
    ∃ s', run proc s [(a, .acquireOwner), (a, .getlk), (a, .setlk)] = some s' ∧ s'.pc a = .holds none := by
  have hv := inv_reach proc hi s h
  have hl : s.lock = none := by
    cases e : s.lock with
    | none => rfl
    | some p => obtain ⟨b, _, hb⟩ := hv.2 p e; exact absurd hb (hn b)
  constructor
  · refine ⟨_, by simp [run, step, ha, hl]; rfl, none, by simp⟩
  · refine ⟨_, by simp [run, step, ha, hl]; rfl, by simp⟩

/-- the end of a process gives up its lock: nobody of it holds any longer -/
theorem C118_crash (proc : Fin n → Nat) (s s' : St n) (a : Fin n) (h : step proc s a .exit = some s') :
    s'.lock ≠ some (proc a) ∧ ∀ b, proc b = proc a → ¬ Holds s' b := by
  simp only [step, Option.some.injEq] at h
  subst h
  constructor
  · simp only [drop]
    split
    · simp
    · assumption
  · intro b hb ⟨ow, e⟩
    simp [hb] at e

/-- at some time since the last call of acquire by `a` in the run `t`, `P` held of the state -/
def During (proc : Fin n → Nat) (t : List (Fin n × Ev)) (a : Fin n) (P : St n → Prop) : Prop :=
  ∃ t1 t2 s1, t = t1 ++ t2 ∧ run proc {} t1 = some s1 ∧ P s1 ∧ ∀ x ∈ t2, x.1 = a → x.2 ≠ .acquire ∧ x.2 ≠ .acquireOwner

theorem During.snoc {proc : Fin n → Nat} {t : List (Fin n × Ev)} {a : Fin n} {P : St n → Prop} (h : During proc t a P)
    (x : Fin n × Ev) (hx : x.1 = a → x.2 ≠ .acquire ∧ x.2 ≠ .acquireOwner) : During proc (t ++ [x]) a P := by
  obtain ⟨t1, t2, s1, rfl, h1, h2, h3⟩ := h
  refine ⟨t1, t2 ++ [x], s1, by simp, h1, h2, ?_⟩
  intro y hy
  rcases List.mem_append.1 hy with hy | hy
  · exact h3 y hy
  · rw [List.mem_singleton.1 hy]; exact hx

/-- what the callers know, along a run -/
def Knows (proc : Fin n → Nat) (t : List (Fin n × Ev)) (s : St n) (a : Fin n) : Prop :=
  (∀ q, (s.pc a = .tries (some q) ∨ s.pc a = .failing (some q) ∨ s.pc a = .failed (some q)) →
    During proc t a fun s1 => s1.lock = some q ∧ q ≠ proc a) ∧
  (∀ ow, (s.pc a = .failing ow ∨ s.pc a = .failed ow) →
    During proc t a fun s1 => ∃ q, s1.lock = some q ∧ q ≠ proc a)

theorem knows (proc : Fin n → Nat) (a : Fin n) (t : List (Fin n × Ev)) : ∀ s, run proc {} t = some s → Knows proc t s a := by
  induction t using List.reverseRecOn with
  | nil =>
    intro s h
    simp only [run, Option.some.injEq] at h
    subst h
    constructor
    · intro q h; rcases h with h | h | h <;> cases h
    · intro q h; rcases h with h | h <;> cases h
  | append_singleton t x ih =>
    intro s h
    rw [run_append] at h
    cases ht : run proc {} t with
    | none => rw [ht] at h; cases h
    | some s0 =>
      rw [ht] at h
      obtain ⟨b, e⟩ := x
      simp only [Option.bind_some, run] at h
      cases hst : step proc s0 b e with
      | none => rw [hst] at h; cases h
      | some s1 =>
        rw [hst] at h
        simp only [Option.bind_some, Option.some.injEq] at h
        subst h
        have k := ih s0 ht
        -- at this moment
        have now : ∀ (e : Ev) (P : St n → Prop), P s0 → (e ≠ .acquire ∧ e ≠ .acquireOwner) → During proc (t ++ [(b, e)]) a P :=
          fun e P hP he => ⟨t, [(b, e)], s0, rfl, ht, hP, fun y hy _ => by rw [List.mem_singleton.1 hy]; exact he⟩
        by_cases hab : b = a
        · subst hab
          cases e with
          | acquire =>
            cases hp : s0.pc b <;> simp only [step, hp, Option.some.injEq, reduceCtorEq] at hst <;> subst hst <;>
              exact ⟨fun q h => by simp at h, fun ow h => by simp at h⟩
          | acquireOwner =>
            cases hp : s0.pc b <;> simp only [step, hp, Option.some.injEq, reduceCtorEq] at hst <;> subst hst <;>
              exact ⟨fun q h => by simp at h, fun ow h => by simp at h⟩
          | getlk =>
            cases hp : s0.pc b <;> simp only [step, hp, Option.some.injEq, reduceCtorEq] at hst
            subst hst
            refine ⟨fun q h => ?_, fun ow h => by simp at h⟩
            simp only [upd_same, Pc.tries.injEq, reduceCtorEq, or_false] at h
            split at h
            · cases h
            · rename_i hne
              exact now .getlk _ ⟨h, fun e => hne (by rw [h, e])⟩ (by simp)
          | setlk =>
            cases hp : s0.pc b <;> simp only [step, hp, reduceCtorEq] at hst
            rename_i ow0
            split at hst
            · simp only [Option.some.injEq] at hst
              subst hst
              exact ⟨fun q h => by simp at h, fun ow h => by simp at h⟩
            · rename_i hl
              simp only [Option.some.injEq] at hst
              subst hst
              refine ⟨fun q h => ?_, fun ow h => ?_⟩
              · simp only [upd_same, Pc.failing.injEq, reduceCtorEq, or_false, false_or] at h
                subst h
                exact (k.1 q (Or.inl hp)).snoc _ (by simp)
              · refine now .setlk _ ?_ (by simp)
                push Not at hl
                cases e : s0.lock with
                | none => exact absurd e hl.1
                | some q => exact ⟨q, rfl, fun h => hl.2 (by rw [e, h])⟩
          | close =>
            cases hp : s0.pc b <;> simp only [step, hp, Option.some.injEq, reduceCtorEq] at hst <;> subst hst
            · rename_i ow0
              refine ⟨fun q h => ?_, fun ow h => ?_⟩
              · simp only [upd_same, Pc.failed.injEq, reduceCtorEq, false_or] at h
                subst h
                exact (k.1 q (Or.inr (Or.inl hp))).snoc _ (by simp)
              · exact (k.2 ow0 (Or.inl hp)).snoc _ (by simp)
            · exact ⟨fun q h => by simp at h, fun ow h => by simp at h⟩
          | release =>
            cases hp : s0.pc b <;> simp only [step, hp, Option.some.injEq, reduceCtorEq] at hst
            subst hst
            exact ⟨fun q h => by simp at h, fun ow h => by simp at h⟩
          | exit =>
            simp only [step, Option.some.injEq] at hst
            subst hst
            exact ⟨fun q h => by simp at h, fun ow h => by simp at h⟩
        · have same : s1.pc a = s0.pc a ∨ s1.pc a = .idle := by
            have hne : a ≠ b := fun h => hab h.symm
            cases e with
            | exit =>
              simp only [step, Option.some.injEq] at hst
              subst hst
              simp only
              split
              · exact Or.inr rfl
              · exact Or.inl rfl
            | setlk =>
              cases hp : s0.pc b <;> simp only [step, hp, reduceCtorEq] at hst
              split at hst <;> simp only [Option.some.injEq] at hst <;> subst hst <;>
                exact Or.inl (upd_other _ _ _ _ hne)
            | _ =>
              cases hp : s0.pc b <;> simp only [step, hp, Option.some.injEq, reduceCtorEq] at hst <;> subst hst <;>
                exact Or.inl (upd_other _ _ _ _ hne)
          rcases same with e | e
          · unfold Knows
            rw [e]
            exact ⟨fun q h => (k.1 q h).snoc _ (fun h => absurd h hab), fun ow h => (k.2 ow h).snoc _ (fun h => absurd h hab)⟩
          · unfold Knows
            rw [e]
            exact ⟨fun q h => by simp at h, fun ow h => by simp at h⟩

/-- **C118** Acquire fails only if another process had the lock at some time during the call. -/
theorem C118_fail (proc : Fin n → Nat) (t : List (Fin n × Ev)) (s : St n) (h : run proc {} t = some s) (a : Fin n)
    (ow : Option Nat) (ha : s.pc a = .failed ow) : During proc t a fun s1 => ∃ q, s1.lock = some q ∧ q ≠ proc a :=
  (knows proc a t s h).2 ow (Or.inr ha)

/-- **C118** The owner it reports then had the lock at some time during the call.

Partial: "at some time".  Missing: see `C118_owner_violated`. -/
theorem C118_owner_partial (proc : Fin n → Nat) (t : List (Fin n × Ev)) (s : St n) (h : run proc {} t = some s) (a : Fin n)
    (q : Nat) (ha : s.pc a = .failed (some q)) : During proc t a fun s1 => s1.lock = some q ∧ q ≠ proc a :=
  (knows proc a t s h).1 q (Or.inr (Or.inr ha))

/-- the hypotheses are met: the second caller fails, and is told about the first -/
example : (run (n := 2) (fun i => 100 + i) {} [(0, .acquire), (0, .setlk), (1, .acquireOwner), (1, .getlk), (1, .setlk),
    (1, .close)]).map (fun s => (s.pc 0, s.pc 1)) = some (.holds none, .failed (some 100)) := by decide

/-- the first process ends, the second gets the lock -/
example : (run (n := 2) (fun i => 100 + i) {} [(0, .acquire), (0, .setlk), (0, .exit), (1, .acquire), (1, .setlk)]).map
    (fun s => (s.pc 0, s.pc 1)) = some (.idle, .holds none) := by decide

/-- **C118 violated** Two callers in one process both get the lock; when one of them releases it, another process gets it
as well, although the first process still has a descriptor it has not released. -/
theorem C118_exclusive_violated : ∃ (proc : Fin 3 → Nat) (s : St 3), Reach proc s ∧ proc 0 ≠ proc 2 ∧ Holds s 0 ∧ Holds s 2 := by
  refine ⟨fun i => if i = 2 then 8 else 7, _, ⟨[(0, .acquire), (0, .setlk), (1, .acquire), (1, .setlk), (1, .release),
    (1, .close), (2, .acquire), (2, .setlk)], rfl⟩, by decide, ⟨none, by decide⟩, ⟨none, by decide⟩⟩

/-- **C118 violated** The owner reported with a failure need not be the one because of whom it failed: the lock can go
from one process to another between the two system calls. -/
theorem C118_owner_violated : ∃ (s : St 3), Reach (fun i => 100 + i) s ∧ s.pc 2 = .failed (some 100) ∧ s.lock = some 101 ∧
    ¬ Holds s 0 := by
  refine ⟨_, ⟨[(0, .acquire), (0, .setlk), (2, .acquireOwner), (2, .getlk), (0, .exit), (1, .acquire), (1, .setlk),
    (2, .setlk), (2, .close)], rfl⟩, by decide, by decide, ?_⟩
  rintro ⟨ow, h⟩
  revert h
  simp [upd]

/-- **C118 violated** Nor is there always one: the lock is free at the first call and taken at the second, and the caller
is told of a failure without an owner (for `mtev_main_terminate` and `mtev_main_status`, an error). -/
theorem C118_noowner_violated : ∃ (s : St 2), Reach (fun i => 100 + i) s ∧ s.pc 1 = .failed none ∧ s.lock = some 100 := by
  refine ⟨_, ⟨[(1, .acquireOwner), (1, .getlk), (0, .acquire), (0, .setlk), (1, .setlk), (1, .close)], rfl⟩, by decide, by decide⟩

end Mtev.Lockfile
