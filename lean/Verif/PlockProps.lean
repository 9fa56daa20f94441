import Verif.Plock

/-!
C23: exclusion of progressive locks; C49: the atomic (A) mode.
`run H (init n) h` is the lock after the history `h` of `n` threads.
-/
namespace Mtev.Plock

/-! ### Specification -/

/-- The caller of the lock may rely on read access: it was granted R and has
not given it up (also while an upgrade is being attempted). -/
def ReadHeld : PC → Prop
  | .inR => True
  | .load .rtos => True
  | .load .rtow => True
  | .xadd .rtos => True
  | .xadd .rtow => True
  | .back .rtos => True
  | .back .rtow => True
  | .aload .rtoa => True
  | .axadd .rtoa => True
  | _ => False

/-- Granted S and not given up (also while upgrading to W). -/
def SeekHeld (p : PC) : Prop := p = .inS ∨ p = .stowX ∨ p = .stowWait

def WriteHeld (p : PC) : Prop := p = .inW

def AtomicHeld (p : PC) : Prop := p = .inA

theorem holdsR_of (p : PC) (h : ReadHeld p ∨ SeekHeld p) : holdsR p = true := by
  rcases h with h | h | h | h
  · cases p <;> simp [ReadHeld, holdsR] at h ⊢ <;> rename_i k <;> cases k <;>
      simp [ReadHeld, holdsR] at h ⊢
  all_goals subst h; rfl

theorem owner_of (p : PC) (h : SeekHeld p ∨ WriteHeld p) : owner p = true := by
  rcases h with (h | h | h) | h <;> rw [h] <;> rfl

/-! ### Theorems -/

/-- C23: under every interleaving of the R, S and W operations (and of the A
operations except the R-to-A upgrade), with any number of threads below the
capacity of the word: at most one thread has S or W; while one thread has W no
other has R, S or W. -/
theorem C23_exclusion {n H : Nat} (h2 : 2 ≤ H) (hcap : 5 * n < 2 ^ H)
    (h : List (Fin n × Act)) (hop : ∀ x ∈ h, x.2 ≠ .tryRtoa) (i j : Fin n) (hij : i ≠ j) :
    let s := run H (init n) h
    ¬ ((SeekHeld (s.pc i) ∨ WriteHeld (s.pc i)) ∧ (SeekHeld (s.pc j) ∨ WriteHeld (s.pc j))) ∧
    ¬ (WriteHeld (s.pc i) ∧ (ReadHeld (s.pc j) ∨ SeekHeld (s.pc j) ∨ WriteHeld (s.pc j))) := by
  have inv := inv_run ⟨h2, hcap⟩ h (inv_init n H) hop
  intro s
  refine ⟨?_, ?_⟩
  · rintro ⟨a, b⟩
    exact hij (inv.excl i j (owner_of _ a) (owner_of _ b))
  · rintro ⟨a, b⟩
    rcases b with b | b | b
    · have := inv.wex i j a hij
      rw [holdsR_of _ (Or.inl b)] at this; cases this
    · have := inv.wex i j a hij
      rw [holdsR_of _ (Or.inr b)] at this; cases this
    · exact hij (inv.excl i j (owner_of _ (Or.inr a)) (owner_of _ (Or.inr b)))

/-- C23: when everybody has dropped everything the word is back to zero. -/
theorem C23_word_returns_to_zero {n H : Nat} (h2 : 2 ≤ H) (hcap : 5 * n < 2 ^ H)
    (h : List (Fin n × Act)) (hop : ∀ x ∈ h, x.2 ≠ .tryRtoa)
    (hall : ∀ i, (run H (init n) h).pc i = .none) : (run H (init n) h).word = 0 := by
  have inv := inv_run ⟨h2, hcap⟩ h (inv_init n H) hop
  rw [inv.word]
  simp [hall]

theorem others_none_word {n H : Nat} {s : St n} (inv : Inv H s) (hall : ∀ i, s.pc i = .none) :
    s.word = 0 := by
  rw [inv.word]; simp [hall]

theorem move_pc {n : Nat} (s : St n) (i : Fin n) (w : Nat) (p : PC) : (move s i w p).pc i = p := by
  simp [move]

theorem tick_load {n H : Nat} {s : St n} {i : Fin n} {k : Kind} (h : s.pc i = .load k) :
    tick H s i = if s.word &&& mask H k ≠ 0 then
      (if blocking k then s else move s i s.word (fallback k))
    else move s i s.word (.xadd k) := by unfold tick; rw [h]

theorem tick_xadd {n H : Nat} {s : St n} {i : Fin n} {k : Kind} (h : s.pc i = .xadd k) :
    tick H s i = if s.word &&& mask H k ≠ 0 then move s i (addW H s.word (set H k)) (.back k)
    else move s i (addW H s.word (set H k)) (granted k s.word) := by unfold tick; rw [h]

/-- C23: a lock that nobody holds is obtained without waiting: each operation
succeeds after its one or two accesses. -/
theorem C23_uncontended {n H : Nat} (h2 : 2 ≤ H) (hcap : 5 * n < 2 ^ H)
    (h : List (Fin n × Act)) (hop : ∀ x ∈ h, x.2 ≠ .tryRtoa)
    (hall : ∀ i, (run H (init n) h).pc i = .none) (i : Fin n) :
    let s := run H (init n) h
    (run H s [(i, .tryR), (i, .tick), (i, .tick)]).pc i = .inR ∧
    (run H s [(i, .takeR), (i, .tick), (i, .tick)]).pc i = .inR ∧
    (run H s [(i, .tryS), (i, .tick), (i, .tick)]).pc i = .inS ∧
    (run H s [(i, .takeS), (i, .tick)]).pc i = .inS ∧
    (run H s [(i, .tryW), (i, .tick), (i, .tick)]).pc i = .inW ∧
    (run H s [(i, .takeW), (i, .tick)]).pc i = .inW := by
  have inv := inv_run ⟨h2, hcap⟩ h (inv_init n H) hop
  have h0 := others_none_word inv hall
  intro s
  have hs : s.word = 0 := h0
  have hn : s.pc i = .none := hall i
  have two : ∀ k, (tick H (tick H (move s i s.word (.load k)) i) i).pc i = granted k 0 := by
    intro k
    rw [tick_load (move_pc _ _ _ _), if_neg (by simp [move, hs]), tick_xadd (move_pc _ _ _ _),
      if_neg (by simp [move, hs]), move_pc]
    simp [move, hs]
  have one : ∀ k, (tick H (move s i s.word (.xadd k)) i).pc i = granted k 0 := by
    intro k
    rw [tick_xadd (move_pc _ _ _ _), if_neg (by simp [move, hs]), move_pc]
    simp [move, hs]
  refine ⟨?_, ?_, ?_, ?_, ?_, ?_⟩ <;> simp only [run, exec, if_pos hn, start]
  · exact two .tryR
  · exact two .takeR
  · exact two .tryS
  · exact one .takeS
  · exact two .tryW
  · exact one .takeW

/-- C23: dropping or downgrading does what it says: afterwards the thread holds
the weaker access, and every other thread's position is untouched. -/
theorem C23_downgrade {n : Nat} (H : Nat) (s : St n) (i j : Fin n) (hij : j ≠ i) (a : Act) :
    (exec H s i a).pc j = s.pc j ∧
    (s.pc i = .inS → (exec H s i .stor).pc i = .inR) ∧
    (s.pc i = .inW → (exec H s i .wtos).pc i = .inS ∧ (exec H s i .wtor).pc i = .inR) ∧
    (s.pc i = .inR → (exec H s i .dropR).pc i = .none) ∧
    (s.pc i = .inS → (exec H s i .dropS).pc i = .none) ∧
    (s.pc i = .inW → (exec H s i .dropW).pc i = .none) := by
  have mv : ∀ w p, (move s i w p).pc j = s.pc j := by
    intro w p; simp [move, upd_other _ _ _ _ hij]
  refine ⟨?_, ?_, ?_, ?_, ?_, ?_⟩
  · cases a <;> simp only [exec]
    case tick =>
      unfold tick
      split <;> (try split) <;> (try split) <;> first | rfl | exact mv _ _
    all_goals split <;> first | rfl | exact mv _ _
  · intro h; simp [exec, h, move]
  · intro h; simp [exec, h, move]
  · intro h; simp [exec, h, move]
  · intro h; simp [exec, h, move]
  · intro h; simp [exec, h, move]

/-- C49, the part that holds: without the R-to-A upgrade, A excludes R, S and
W.  (Several threads may have A together; that is its purpose.)  Missing for
the full claim: `pl_try_rtoa`, see `C49_rtoa_violated`. -/
theorem C49_atomic_partial {n H : Nat} (h2 : 2 ≤ H) (hcap : 5 * n < 2 ^ H)
    (h : List (Fin n × Act)) (hop : ∀ x ∈ h, x.2 ≠ .tryRtoa) (i j : Fin n) :
    let s := run H (init n) h
    ¬ (AtomicHeld (s.pc i) ∧ (ReadHeld (s.pc j) ∨ SeekHeld (s.pc j) ∨ WriteHeld (s.pc j))) := by
  have inv := inv_run ⟨h2, hcap⟩ h (inv_init n H) hop
  rintro s ⟨a, b⟩
  have := inv.aex i j a
  rcases b with b | b | b
  · rw [holdsR_of _ (Or.inl b)] at this; cases this.1
  · rw [holdsR_of _ (Or.inr b)] at this; cases this.1
  · rw [owner_of _ (Or.inr b)] at this; cases this.2

/-- Thread 0 has R and attempts the upgrade to A; thread 1 takes S between the
two accesses of thread 0 and upgrades to W while thread 0's R is traded in;
thread 0 then takes its R back without looking. -/
def rtoaHistory : List (Fin 2 × Act) :=
  [(0, .takeR), (0, .tick), (0, .tick),
   (0, .tryRtoa), (0, .tick),
   (1, .takeS), (1, .tick),
   (0, .tick),
   (1, .stow), (1, .tick),
   (0, .tick)]

/-- C49 is false of `pl_try_rtoa`: its failure path leaves the caller with R
while another thread has W.  (64-bit lock.) -/
theorem C49_rtoa_violated :
    ReadHeld ((run 32 (init 2) rtoaHistory).pc 0) ∧
    WriteHeld ((run 32 (init 2) rtoaHistory).pc 1) := by
  have h0 : (run 32 (init 2) rtoaHistory).pc 0 = .inR := by decide +kernel
  have h1 : (run 32 (init 2) rtoaHistory).pc 1 = .inW := by decide +kernel
  rw [h0, h1]
  exact ⟨trivial, rfl⟩

/-! ### Concrete cases -/

/-- One thread seeks while another reads, then upgrades and has to wait for the
reader; when the reader leaves it gets W. -/
example :
    let h : List (Fin 2 × Act) :=
      [(0, .takeR), (0, .tick), (0, .tick), (1, .takeS), (1, .tick), (1, .stow), (1, .tick), (1, .tick)]
    (run 32 (init 2) h).pc 0 = .inR ∧ (run 32 (init 2) h).pc 1 = .stowWait ∧
    (run 32 (init 2) (h ++ [(0, .dropR), (1, .tick)])).pc 1 = .inW ∧
    5 * 2 < 2 ^ 32 ∧ (∀ x ∈ h, x.2 ≠ .tryRtoa) := by decide +kernel

/-- Both sizes of lock allow the thread counts of the header's comment. -/
example : 5 * 858993459 < 2 ^ 32 ∧ 5 * 13107 < 2 ^ 16 := by decide

end Mtev.Plock
