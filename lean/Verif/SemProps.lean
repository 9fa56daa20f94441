import Verif.Sem

/-!
C24: emulated semaphores conserve permits; C50: the heavy variant of the
progressive lock excludes and does not deadlock by itself.
-/
namespace Mtev.Sem

/-- C24: permits handed out never exceed the initial value plus the posts, and
the value is exactly what is left (modulo the width of the counter: the
difference is a multiple of 2^32, 0 until 2^32 permits are outstanding). -/
theorem C24_permits_conserved {n : Nat} (v : Int) (h : List (Fin n × Act n)) :
    let s := run (init n v) h
    let v0 := (v % 2 ^ 32).toNat
    s.took ≤ v0 + s.posts ∧ s.value = (v0 + s.posts - s.took) % 2 ^ 32 := by
  intro s v0
  obtain ⟨⟨w, hw⟩, _⟩ := inv_run h (inv_init n v)
  have hv : s.value < 2 ^ 32 := by
    apply value_lt
    have h1 : (v % 2 ^ 32) < 2 ^ 32 := Int.emod_lt_of_pos v (by norm_num)
    have h2 : 0 ≤ (v % 2 ^ 32) := Int.emod_nonneg v (by norm_num)
    show (v % 2 ^ 32).toNat < 2 ^ 32
    omega
  have hw' : s.value + 2 ^ 32 * w + s.took = v0 + s.posts := hw
  refine ⟨by omega, ?_⟩
  have : v0 + s.posts - s.took = s.value + 2 ^ 32 * w := by omega
  rw [this, Nat.add_mul_mod_self_left, Nat.mod_eq_of_lt hv]

/-- C24: with fewer than 2^32 permits in play the value never wraps. -/
theorem C24_value_exact {n : Nat} (v : Int) (h : List (Fin n × Act n)) :
    let s := run (init n v) h
    let v0 := (v % 2 ^ 32).toNat
    v0 + s.posts < 2 ^ 32 → s.value + s.took = v0 + s.posts := by
  intro s v0 hb
  obtain ⟨h1, h2⟩ := C24_permits_conserved v h
  have h1' : s.took ≤ v0 + s.posts := h1
  have h2' : s.value = (v0 + s.posts - s.took) % 2 ^ 32 := h2
  rw [Nat.mod_eq_of_lt (by omega)] at h2'
  omega

/-- C24: a wait returns only by taking a permit: whenever an action makes a
thread that was inside `mtev_sem_wait` leave it, there was a permit and that
action took it. -/
theorem C24_wait_returns_with_permit {n : Nat} (s : St n) (i k : Fin n) (a : Act n)
    (hin : s.pc k ≠ .idle) (hout : (exec s i a).pc k = .idle) :
    0 < s.value ∧ (exec s i a).took = s.took + 1 ∧ (exec s i a).value + 1 = s.value := by
  have hu : ∀ (j : Fin n) (p : PC), p ≠ .idle → upd s.pc j p k ≠ .idle := by
    intro j p hp; unfold upd; split
    · exact hp
    · exact hin
  cases a <;> simp only [exec] at hout ⊢
  case post wake =>
    exfalso
    split at hout
    · cases wake with
      | none => simp only at hout; split at hout <;> exact hin hout
      | some j =>
        simp only at hout; split at hout
        · exact hu _ _ (by simp) hout
        · exact hin hout
    · exact hin hout
  case wait =>
    exfalso; split at hout
    · exact hu _ _ (by simp) hout
    · exact hin hout
  case spurious =>
    exfalso; split at hout
    · exact hu _ _ (by simp) hout
    · exact hin hout
  case trywait =>
    exfalso; split at hout
    · split at hout <;> exact hin hout
    · exact hin hout
  case step =>
    by_cases hw : s.pc i = .want
    · rw [if_pos hw] at hout ⊢
      by_cases hv : s.value > 0
      · rw [if_pos hv]; exact ⟨hv, rfl, by simp only; omega⟩
      · rw [if_neg hv] at hout; exact absurd hout (hu _ _ (by simp))
    · rw [if_neg hw] at hout; exact absurd hout hin

/-- C24: a permit is taken only when there is one, and taking one uses up
exactly one. -/
theorem C24_take_uses_one {n : Nat} (s : St n) (i : Fin n) (a : Act n)
    (h : (exec s i a).took ≠ s.took) :
    0 < s.value ∧ (exec s i a).took = s.took + 1 ∧ (exec s i a).value + 1 = s.value := by
  cases a <;> simp only [exec] at h ⊢
  case post wake =>
    exfalso
    apply h
    split
    · cases wake with
      | none => simp only; split <;> rfl
      | some j => simp only; split <;> rfl
    · rfl
  case wait => split at h <;> exact absurd rfl h
  case spurious => split at h <;> exact absurd rfl h
  case trywait =>
    split at h
    · rename_i hp
      split at h
      · rename_i hv
        rw [if_pos hp, if_pos hv]
        exact ⟨hv, rfl, by simp only; omega⟩
      · exact absurd rfl h
    · exact absurd rfl h
  case step =>
    split at h
    · rename_i hp
      split at h
      · rename_i hv
        rw [if_pos hp, if_pos hv]
        exact ⟨hv, rfl, by simp only; omega⟩
      · exact absurd rfl h
    · exact absurd rfl h

/-- C24: no lost wake-up.  Whenever a permit is available and somebody sleeps,
somebody is awake inside `wait` and about to test the value; and a thread that
tests while a permit is available gets it. -/
theorem C24_no_lost_wakeup {n : Nat} (v : Int) (h : List (Fin n × Act n)) :
    let s := run (init n v) h
    (∃ j, s.pc j = .asleep) → 0 < s.value →
      ∃ i, s.pc i = .want ∧ (exec s i .step).took = s.took + 1 := by
  intro s hs hv
  have h1 := (inv_run h (inv_init n v)).wake hs
  have h2 : 0 < ∑ j, isWant (s.pc j) := Nat.lt_of_lt_of_le hv h1
  have : ∃ i, s.pc i = .want := by
    by_contra hno
    have h3 : ∀ j, isWant (s.pc j) = 0 := by
      intro j
      cases hp : s.pc j with
      | want => exact absurd ⟨j, hp⟩ hno
      | idle => rfl
      | asleep => rfl
    simp [h3] at h2
  obtain ⟨i, hi⟩ := this
  exact ⟨i, hi, by simp [exec, hi, hv]⟩

/-- Two threads: one sleeps, the other posts and wakes it, and it proceeds. -/
example :
    let s := run (init 2 0) [(0, .wait), (0, .step), (1, .post (some 0)), (0, .step)]
    s.took = 1 ∧ s.value = 0 ∧ s.pc 0 = .idle := by decide +kernel

/-- A sleeper, a permit and a woken thread at once (hypotheses of the wake-up
theorem). -/
example :
    let s := run (init 3 0) [(0, .wait), (0, .step), (1, .wait), (1, .step), (2, .post (some 0))]
    (∃ j, s.pc j = .asleep) ∧ 0 < s.value := by decide +kernel

end Mtev.Sem

namespace Mtev.HeavyLock

/-- C50: at most one thread has S or W, and nobody reads while one has W.
(`u1` and `d2` are inside an up- or downgrade with read access held.) -/
theorem C50_heavy_exclusion {n : Nat} (h : List (Fin n × Act)) (i j : Fin n) (hij : i ≠ j) :
    let s := run (init n) h
    ¬ ((s i = .inS ∨ s i = .inW) ∧ (s j = .inS ∨ s j = .inW)) ∧
    ¬ (s i = .inW ∧ (s j = .inR ∨ s j = .u1 ∨ s j = .u2 ∨ s j = .d2)) := by
  have inv := inv_run h (inv_init n)
  intro s
  refine ⟨?_, ?_⟩
  · rintro ⟨a, b⟩
    apply hij
    apply inv.mutex i j
    · rcases a with a | a <;> (show hasM (s i) = true) <;> rw [a] <;> rfl
    · rcases b with b | b <;> (show hasM (s j) = true) <;> rw [b] <;> rfl
  · rintro ⟨a, b⟩
    have h1 : hasRd (s j) = false := inv.rw i j (by show hasWr (s i) = true; rw [a]; rfl)
    rcases b with b | b | b | b <;> rw [b] at h1 <;> cases h1

/-- Between calls. -/
def AtRest (p : PC) : Prop := p = .none ∨ p = .inR ∨ p = .inS ∨ p = .inW

theorem upd_ne {n : Nat} (s : St n) (i : Fin n) (p : PC) (h : s i ≠ p) : upd s i p ≠ s := by
  intro e
  apply h
  have := congrFun e i
  rw [upd_same] at this
  exact this.symm

/-- C50: the lock does not deadlock by itself: if some thread is inside an
operation and no caller sits on R, S or W, then some thread can take a step. -/
theorem C50_heavy_progress {n : Nat} (h : List (Fin n × Act)) :
    let s := run (init n) h
    (∃ i, ¬ AtRest (s i)) → (∀ i, s i ≠ .inR ∧ s i ≠ .inS ∧ s i ≠ .inW) →
      ∃ i, exec s i .step ≠ s := by
  intro s hex hno
  have hrd : rdOk s = true := by
    apply decide_eq_true
    intro j
    have := hno j
    cases hp : s j <;> simp_all [hasWr]
  have mv : ∀ i p, s i ≠ p → exec s i .step = upd s i p → ∃ i, exec s i .step ≠ s := by
    intro i p hne he
    exact ⟨i, by rw [he]; exact upd_ne s i p hne⟩
  by_cases hu : ∃ j, hasRd (s j) = true
  · obtain ⟨j, hj⟩ := hu
    cases hp : s j <;> rw [hp] at hj <;> simp [hasRd] at hj
    · exact absurd hp (hno j).1
    · by_cases hm : mutexFree s = true
      · exact mv j .u2 (by simp [hp]) (by simp [exec, hp, hm])
      · exact mv j .inR (by simp [hp]) (by simp [exec, hp, hm])
    · exact mv j .inS (by simp [hp]) (by simp [exec, hp])
    · exact mv j .inR (by simp [hp]) (by simp [exec, hp])
  · have hwr : wrOk s = true := by
      apply decide_eq_true
      intro j
      have h1 := (of_decide_eq_true hrd) j
      refine ⟨h1, ?_⟩
      by_contra hc
      rw [Bool.not_eq_false] at hc
      exact hu ⟨j, hc⟩
    by_cases hm : mutexFree s = true
    · obtain ⟨i, hi⟩ := hex
      have hmi := (of_decide_eq_true hm) i
      cases hp : s i <;> rw [hp] at hmi <;> simp [hasM] at hmi
      · exact absurd (Or.inl hp) hi
      · exact absurd (Or.inr (Or.inl hp)) hi
      · exact mv i .inR (by simp [hp]) (by simp [exec, hp, hrd])
      · exact mv i .inS (by simp [hp]) (by simp [exec, hp, hm])
      · exact mv i .w2 (by simp [hp]) (by simp [exec, hp, hm])
      · exact mv i .u2 (by simp [hp]) (by simp [exec, hp, hm])
    · have : ∃ j, hasM (s j) = true := by
        by_contra hc
        apply hm
        apply decide_eq_true
        intro j
        by_contra hj
        rw [Bool.not_eq_false] at hj
        exact hc ⟨j, hj⟩
      obtain ⟨j, hj⟩ := this
      cases hp : s j <;> rw [hp] at hj <;> simp [hasM] at hj
      · exact absurd hp (hno j).2.1
      · exact absurd hp (hno j).2.2
      · exact mv j .inW (by simp [hp]) (by simp [exec, hp, hwr])
      · exact mv j .none (by simp [hp]) (by simp [exec, hp])
      · exact mv j .inS (by simp [hp]) (by simp [exec, hp])
      · exact mv j .d2 (by simp [hp]) (by simp [exec, hp, hrd])
      · exact mv j .inR (by simp [hp]) (by simp [exec, hp])
      · exact mv j .inW (by simp [hp]) (by simp [exec, hp, hwr])

/-- A reader upgrades to S, then to W, while a second writer waits; after the
downgrade to S and the drop the second writer gets W. -/
example :
    let h : List (Fin 2 × Act) :=
      [(0, .takeR), (0, .step), (1, .takeW), (0, .tryRtos), (0, .step), (0, .step), (1, .step),
       (0, .stow), (0, .step)]
    run (init 2) h 0 = .inW ∧ run (init 2) h 1 = .w1 ∧
    run (init 2) (h ++ [(0, .wtos), (0, .dropS), (1, .step), (1, .step)]) 1 = .inW := by
  decide +kernel

end Mtev.HeavyLock
