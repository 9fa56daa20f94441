import Verif.Conc

/-!
Model of `src/utils/mtev_sem.c` (44-103, the emulation used when the system has
no working `sem_init`) and of the heavy variant of `src/utils/mtev_plock.h`
(1286-1435), both built on pthread mutexes, condition variables and
reader-writer locks.

Pthread primitives are modelled by their specification: a mutex has at most
one holder; `pthread_cond_wait` atomically releases the mutex and sleeps, and
may also wake spuriously; `pthread_cond_signal` wakes at least one sleeper if
there is one (which one, and whether more, is chosen by the history); a
reader-writer lock has many readers or one writer.  Code between
`pthread_mutex_lock` and the matching unlock or wait is one step, because
every access of `value` (except `getvalue`) happens under the lock.
-/
namespace Mtev.Sem

/-- Where a thread is with respect to the semaphore. -/
inductive PC
  | idle
  /-- called `mtev_sem_wait` (66), or was woken in `pthread_cond_wait` (73), and
  is about to test `value` under the lock (69) -/
  | want
  /-- sleeping in `pthread_cond_wait` (73) -/
  | asleep
deriving DecidableEq, Repr

/-- `mtev_sem_t` (`value` is `unsigned int`) with the threads and two ghost
counters: completed posts, permits handed out. -/
structure St (n : Nat) where
  value : Nat
  pc : Fin n → PC
  posts : Nat
  took : Nat

/-- `mtev_sem_init` (47-56): the `int` argument is stored in an unsigned field. -/
def init (n : Nat) (v : Int) : St n :=
  { value := (v % 2 ^ 32).toNat, pc := fun _ => .idle, posts := 0, took := 0 }

/-- Actions.  `post j` names the sleeper that the signal wakes. -/
inductive Act (n : Nat)
  | post (wake : Option (Fin n))
  | wait
  | trywait
  /-- the thread gets the lock and tests the value -/
  | step
  /-- spurious wake-up, or an extra sleeper woken by a signal -/
  | spurious
deriving DecidableEq, Repr

/-- Is anybody asleep? -/
def someAsleep {n : Nat} (s : St n) : Bool := decide (∃ j, s.pc j = .asleep)

/-- One action of thread `i`. -/
def exec {n : Nat} (s : St n) (i : Fin n) : Act n → St n
  -- 58-63
  | .post wake =>
    if s.pc i = .idle then
      match wake with
      | none =>
        -- the signal may be lost only if nobody sleeps
        if someAsleep s then s
        else { s with value := (s.value + 1) % 2 ^ 32, posts := s.posts + 1 }
      | some j =>
        if s.pc j = .asleep then
          { s with value := (s.value + 1) % 2 ^ 32, posts := s.posts + 1, pc := upd s.pc j .want }
        else s
    else s
  -- 66-67
  | .wait => if s.pc i = .idle then { s with pc := upd s.pc i .want } else s
  -- 80-90
  | .trywait =>
    if s.pc i = .idle then
      (if s.value > 0 then { s with value := s.value - 1, took := s.took + 1 } else s)
    else s
  -- 69-75
  | .step =>
    if s.pc i = .want then
      (if s.value > 0 then
        { s with value := s.value - 1, took := s.took + 1, pc := upd s.pc i .idle }
      else { s with pc := upd s.pc i .asleep })
    else s
  | .spurious => if s.pc i = .asleep then { s with pc := upd s.pc i .want } else s

def run {n : Nat} (s : St n) : List (Fin n × Act n) → St n
  | [] => s
  | (i, a) :: h => run (exec s i a) h

/-! ### Invariant -/

def isWant : PC → Nat
  | .want => 1
  | _ => 0

structure Inv {n : Nat} (v0 : Nat) (s : St n) : Prop where
  cons : ∃ w, s.value + 2 ^ 32 * w + s.took = v0 + s.posts
  wake : (∃ j, s.pc j = .asleep) → s.value ≤ ∑ j, isWant (s.pc j)

theorem want_upd {n : Nat} (s : St n) (i : Fin n) (p : PC) :
    (∑ j, isWant (upd s.pc i p j)) + isWant (s.pc i) = (∑ j, isWant (s.pc j)) + isWant p :=
  sum_upd isWant s.pc i p

theorem inv_exec {n v0 : Nat} {s : St n} (i : Fin n) (a : Act n) (hi : Inv v0 s) :
    Inv v0 (exec s i a) := by
  obtain ⟨⟨w, hc⟩, hw⟩ := hi
  have carry : ∃ w', (s.value + 1) % 2 ^ 32 + 2 ^ 32 * w' + s.took = v0 + (s.posts + 1) := by
    refine ⟨w + (s.value + 1) / 2 ^ 32, ?_⟩
    have := Nat.mod_add_div (s.value + 1) (2 ^ 32)
    omega
  cases a with
  | post wake =>
    simp only [exec]
    split
    · cases wake with
      | none =>
        simp only
        split
        · exact ⟨⟨w, hc⟩, hw⟩
        · rename_i hno
          refine ⟨carry, ?_⟩
          intro h
          exact absurd (by simpa [someAsleep] using h) hno
      | some k =>
        simp only
        split
        · rename_i hk
          refine ⟨carry, ?_⟩
          intro _
          have h1 := hw ⟨k, hk⟩
          have h2 := want_upd s k .want
          have h3 : isWant (s.pc k) = 0 := by rw [hk]; rfl
          have h4 : isWant .want = 1 := rfl
          have h5 := Nat.mod_le (s.value + 1) (2 ^ 32)
          simp only
          omega
        · exact ⟨⟨w, hc⟩, hw⟩
    · exact ⟨⟨w, hc⟩, hw⟩
  | wait =>
    simp only [exec]
    split
    · rename_i hp
      refine ⟨⟨w, hc⟩, ?_⟩
      rintro ⟨j, hj⟩
      have hji : j ≠ i := by rintro rfl; simp at hj
      simp only [upd_other _ _ _ _ hji] at hj
      have h1 := hw ⟨j, hj⟩
      have h2 := want_upd s i .want
      have h3 : isWant (s.pc i) = 0 := by rw [hp]; rfl
      simp only
      omega
    · exact ⟨⟨w, hc⟩, hw⟩
  | trywait =>
    simp only [exec]
    split
    · split
      · refine ⟨⟨w, by simp only; omega⟩, ?_⟩
        intro h
        have := hw h
        simp only
        omega
      · exact ⟨⟨w, hc⟩, hw⟩
    · exact ⟨⟨w, hc⟩, hw⟩
  | step =>
    simp only [exec]
    split
    · rename_i hp
      have h3 : isWant (s.pc i) = 1 := by rw [hp]; rfl
      split
      · refine ⟨⟨w, by simp only; omega⟩, ?_⟩
        rintro ⟨j, hj⟩
        have hji : j ≠ i := by rintro rfl; simp at hj
        simp only [upd_other _ _ _ _ hji] at hj
        have h1 := hw ⟨j, hj⟩
        have h2 := want_upd s i .idle
        have h4 : isWant .idle = 0 := rfl
        simp only
        omega
      · refine ⟨⟨w, hc⟩, ?_⟩
        intro _
        simp only
        omega
    · exact ⟨⟨w, hc⟩, hw⟩
  | spurious =>
    simp only [exec]
    split
    · rename_i hp
      refine ⟨⟨w, hc⟩, ?_⟩
      intro _
      have h1 := hw ⟨i, hp⟩
      have h2 := want_upd s i .want
      have h3 : isWant (s.pc i) = 0 := by rw [hp]; rfl
      simp only
      omega
    · exact ⟨⟨w, hc⟩, hw⟩

theorem inv_init (n : Nat) (v : Int) : Inv (v % 2 ^ 32).toNat (init n v) :=
  ⟨⟨0, by simp [init]⟩, by rintro ⟨j, hj⟩; simp [init] at hj⟩

theorem inv_run {n v0 : Nat} (h : List (Fin n × Act n)) :
    ∀ {s : St n}, Inv v0 s → Inv v0 (run s h) := by
  induction h with
  | nil => intro s hs; exact hs
  | cons x t ih => intro s hs; exact ih (inv_exec x.1 x.2 hs)

theorem value_lt {n : Nat} (h : List (Fin n × Act n)) :
    ∀ {s : St n}, s.value < 2 ^ 32 → (run s h).value < 2 ^ 32 := by
  induction h with
  | nil => intro s hs; exact hs
  | cons x t ih =>
    intro s hs
    apply ih
    obtain ⟨i, a⟩ := x
    have := Nat.mod_lt (s.value + 1) (show 2 ^ 32 > 0 by omega)
    cases a <;> simp only [exec]
    all_goals
      repeat' split
      all_goals first | exact hs | exact this | (simp only; omega)

end Mtev.Sem

namespace Mtev.HeavyLock

/-- Where a thread is with respect to a `MTEV_PLOCK_HEAVY` lock. -/
inductive PC
  | none | inR | inS | inW
  /-- wants `rdlock` in `take_r` (1312) -/
  | r1
  /-- wants the mutex in `take_s` (1334) -/
  | s1
  /-- wants the mutex in `take_w` (1356) -/
  | w1
  /-- has the mutex, wants `wrlock` in `take_w` (1358) -/
  | w2
  /-- `drop_w`: released the rwlock (1369), about to release the mutex (1371) -/
  | dw
  /-- `try_rtos`: has the read lock, about to `trylock` the mutex (1382) -/
  | u1
  /-- `try_rtos`: has both, about to release the read lock (1387) -/
  | u2
  /-- `stor`: has the mutex, wants `rdlock` (1405) -/
  | d1
  /-- `stor`: has both, about to release the mutex (1407) -/
  | d2
  /-- `stow`: has the mutex, wants `wrlock` (1418) -/
  | x1
deriving DecidableEq, Repr

/-- Holds the mutex `slock`. -/
def hasM : PC → Bool
  | .inS => true
  | .inW => true
  | .w2 => true
  | .dw => true
  | .u2 => true
  | .d1 => true
  | .d2 => true
  | .x1 => true
  | _ => false

/-- Holds `rwlock` for reading. -/
def hasRd : PC → Bool
  | .inR => true
  | .u1 => true
  | .u2 => true
  | .d2 => true
  | _ => false

/-- Holds `rwlock` for writing. -/
def hasWr : PC → Bool
  | .inW => true
  | _ => false

/-- Threads and what they hold; the pthread objects are determined by it. -/
abbrev St (n : Nat) := Fin n → PC

def mutexFree {n : Nat} (s : St n) : Bool := decide (∀ j, hasM (s j) = false)
def rdOk {n : Nat} (s : St n) : Bool := decide (∀ j, hasWr (s j) = false)
def wrOk {n : Nat} (s : St n) : Bool := decide (∀ j, hasWr (s j) = false ∧ hasRd (s j) = false)

inductive Act | takeR | dropR | takeS | dropS | takeW | dropW | tryRtos | stor | stow | wtos | step
deriving DecidableEq, Repr

/-- One action of thread `i`; `step` is the next pthread call of the operation
in progress, which waits (no change) if the lock is not available. -/
def exec {n : Nat} (s : St n) (i : Fin n) : Act → St n
  | .takeR => if s i = .none then upd s i .r1 else s
  -- 1320-1325
  | .dropR => if s i = .inR then upd s i .none else s
  | .takeS => if s i = .none then upd s i .s1 else s
  -- 1342-1347
  | .dropS => if s i = .inS then upd s i .none else s
  | .takeW => if s i = .none then upd s i .w1 else s
  -- 1367-1370
  | .dropW => if s i = .inW then upd s i .dw else s
  | .tryRtos => if s i = .inR then upd s i .u1 else s
  | .stor => if s i = .inS then upd s i .d1 else s
  | .stow => if s i = .inS then upd s i .x1 else s
  -- 1427-1431
  | .wtos => if s i = .inW then upd s i .inS else s
  | .step =>
    match s i with
    | .r1 => if rdOk s then upd s i .inR else s
    | .s1 => if mutexFree s then upd s i .inS else s
    | .w1 => if mutexFree s then upd s i .w2 else s
    | .w2 => if wrOk s then upd s i .inW else s
    | .dw => upd s i .none
    | .u1 => if mutexFree s then upd s i .u2 else upd s i .inR
    | .u2 => upd s i .inS
    | .d1 => if rdOk s then upd s i .d2 else s
    | .d2 => upd s i .inR
    | .x1 => if wrOk s then upd s i .inW else s
    | _ => s

def init (n : Nat) : St n := fun _ => .none

def run {n : Nat} (s : St n) : List (Fin n × Act) → St n
  | [] => s
  | (i, a) :: h => run (exec s i a) h

structure Inv {n : Nat} (s : St n) : Prop where
  mutex : ∀ i j, hasM (s i) = true → hasM (s j) = true → i = j
  rw : ∀ i j, hasWr (s i) = true → hasRd (s j) = false

theorem inv_upd {n : Nat} {s : St n} (hi : Inv s) (i : Fin n) (p : PC)
    (hm : hasM p = true → hasM (s i) = true ∨ mutexFree s = true)
    (hr : hasRd p = true → hasRd (s i) = true ∨ rdOk s = true)
    (hrw : hasRd p = true → hasWr p = false)
    (hw : hasWr p = true → wrOk s = true) : Inv (upd s i p) := by
  obtain ⟨h1, h2⟩ := hi
  have auxM : ∀ j, j ≠ i → hasM p = true → hasM (s j) = true → False := by
    intro j hj hp hjm
    rcases hm hp with h | h
    · exact hj (h1 j i hjm h)
    · have := (of_decide_eq_true h) j
      rw [hjm] at this; cases this
  constructor
  · intro x y hx hy
    rcases upd_cases s i x p with ⟨e1, e⟩ | ⟨e1, e⟩ <;> rw [e] at hx <;>
    rcases upd_cases s i y p with ⟨e2, e'⟩ | ⟨e2, e'⟩ <;> rw [e'] at hy
    · rw [e1, e2]
    · exact (auxM y e2 hx hy).elim
    · exact (auxM x e1 hy hx).elim
    · exact h1 x y hx hy
  · intro x y hx
    rcases upd_cases s i x p with ⟨e1, e⟩ | ⟨e1, e⟩ <;> rw [e] at hx <;>
    rcases upd_cases s i y p with ⟨e2, e'⟩ | ⟨e2, e'⟩ <;> rw [e']
    · by_contra hc
      rw [Bool.not_eq_false] at hc
      rw [hrw hc] at hx; cases hx
    · exact ((of_decide_eq_true (hw hx)) y).2
    · by_contra hc
      rw [Bool.not_eq_false] at hc
      rcases hr hc with h | h
      · rw [h2 x i hx] at h; cases h
      · have := (of_decide_eq_true h) x
        rw [hx] at this; cases this
    · exact h2 x y hx

theorem inv_exec {n : Nat} {s : St n} (hi : Inv s) (i : Fin n) (a : Act) : Inv (exec s i a) := by
  cases a <;> simp only [exec]
  case step =>
    split
    case h_6 =>
      rename_i hpc
      split
      · rename_i h
        refine inv_upd hi i _ ?_ ?_ ?_ ?_ <;> (try rw [hpc]) <;> simp [hasM, hasRd, hasWr, h]
      · refine inv_upd hi i _ ?_ ?_ ?_ ?_ <;> (try rw [hpc]) <;> simp [hasM, hasRd, hasWr]
    all_goals first
      | exact hi
      | (rename_i hpc
         split
         · rename_i h
           refine inv_upd hi i _ ?_ ?_ ?_ ?_ <;> (try rw [hpc]) <;> simp [hasM, hasRd, hasWr, h]
         · exact hi)
      | (rename_i hpc
         refine inv_upd hi i _ ?_ ?_ ?_ ?_ <;> (try rw [hpc]) <;> simp [hasM, hasRd, hasWr])
  all_goals
    split
    · rename_i hpc
      refine inv_upd hi i _ ?_ ?_ ?_ ?_ <;> (try rw [hpc]) <;> simp [hasM, hasRd, hasWr]
    · exact hi

theorem inv_run {n : Nat} (h : List (Fin n × Act)) :
    ∀ {s : St n}, Inv s → Inv (run s h) := by
  induction h with
  | nil => intro s hs; exact hs
  | cons x t ih => intro s hs; exact ih (inv_exec hs x.1 x.2)

theorem inv_init (n : Nat) : Inv (init n) :=
  ⟨fun i j h => by simp [init, hasM] at h, fun i j h => by simp [init, hasWr] at h⟩

end Mtev.HeavyLock
