import Verif.ConfLock

/-!
# C108: who changes the configuration is alone with it

Specification, in terms of the sections a party (a thread or coroutine) has got and not yet
released: while one has a section for writing, no other has any; sections nest without waiting;
what is released is free again; who reads and wants to write is stopped at once, not blocked
for ever.
-/

namespace Mtev.ConfLock

variable {n : Nat}

/-- **C108 (exclusion).**  For any number of parties with different numbers, however they interleave:
while one has a section for writing, no other has a section, for reading or writing.
(Part: parties whose numbers differ; see `C108_number_violated`.) -/
theorem C108_exclusive_partial (tid : Fin n → Nat) (ht : Tids tid) (s : St n) (h : Reach tid s) (i j : Fin n)
    (hij : j ≠ i) (hw : 0 < (s.loc i).gw) : (s.loc j).gr = 0 ∧ (s.loc j).gw = 0 := by
  have hi := inv_reach ht h
  have hme : s.writer = tid i := by
    by_contra hne
    have := (hi.other i hne).1
    omega
  rcases hi.alone i (by omega) hme j with h' | h'
  · omega
  · exact absurd h' hij

/-- **C108 (free again).**  When nobody has a section or is in a call, the lock is as at the
start. -/
theorem C108_free_partial (tid : Fin n → Nat) (ht : Tids tid) (s : St n) (h : Reach tid s)
    (h0 : ∀ i, (s.loc i).pc = .idle ∧ (s.loc i).gr = 0 ∧ (s.loc i).gw = 0) :
    s.writer = 0 ∧ s.nReaders = 0 ∧ s.wc = 0 ∧ ∀ i, (s.loc i).cnt = 0 := by
  have hi := inv_reach ht h
  have hw : s.writer = 0 := by
    rcases hi.mark with h' | ⟨i, h'⟩
    · exact h'
    · have := hi.me i h'
      unfold Loc.Writer at this
      rw [(h0 i).1] at this
      simp only at this
      have := h0 i
      omega
  have hc : ∀ i, (s.loc i).cnt = 0 := by
    intro i
    have := hi.other i (by rw [hw]; exact (ht.pos i).symm)
    unfold Loc.Reader at this
    rw [(h0 i).1] at this
    simp only at this
    have := h0 i
    omega
  refine ⟨hw, ?_, hi.free hw, hc⟩
  rw [hi.nr]
  apply Finset.sum_eq_zero
  intro i _
  unfold Loc.counts
  rw [(h0 i).1]
  simp only
  rw [if_pos (hc i)]

/-- **C108 (releasing).**  Releasing a section one has never fails. -/
theorem C108_release_partial (tid : Fin n → Nat) (ht : Tids tid) (s : St n) (h : Reach tid s) (i : Fin n) (a : Act)
    (ha : a = .relR ∨ a = .relW) (hm : mayDo (s.loc i) a) :
    ∃ s', step tid s i a = .ok s' ∧ (s'.loc i).gr + (s'.loc i).gw + 1 = (s.loc i).gr + (s.loc i).gw := by
  have hi := inv_reach ht h
  rcases ha with rfl | rfl
  · have hg : 0 < (s.loc i).gr := hm.2
    refine ⟨_, rfl, ?_⟩
    unfold relR
    simp only
    split
    · unfold wDown
      simp only [upd_same]
      omega
    · simp only [upd_same]
      omega
  · have hg : 0 < (s.loc i).gw := hm.2
    have hme : s.writer = tid i := by
      by_contra hne
      have := (hi.other i hne).1
      omega
    refine ⟨wDown s i { s.loc i with gw := (s.loc i).gw - 1 }, ?_, ?_⟩
    · show relW tid s i = _
      unfold relW
      rw [if_pos hme]
    · unfold wDown
      simp only [upd_same]
      omega

/-- **C108 (nesting).**  Who has a section gets another one for reading at once, even if others wait to
write; who has one for writing gets another one for writing without waiting. -/
theorem C108_nested_partial (tid : Fin n → Nat) (ht : Tids tid) (s : St n) (h : Reach tid s) (i : Fin n)
    (hpc : (s.loc i).pc = .idle) :
    (0 < (s.loc i).gr + (s.loc i).gw → ∃ s', step tid s i .acqR = .ok s' ∧ (s'.loc i).pc = .idle ∧
      (s'.loc i).gr = (s.loc i).gr + 1 ∧ (s'.loc i).gw = (s.loc i).gw) ∧
    (0 < (s.loc i).gw → ∃ s' s'', step tid s i .acqW = .ok s' ∧ step tid s' i .go = .ok s'' ∧
      (s''.loc i).pc = .idle ∧ (s''.loc i).gw = (s.loc i).gw + 1 ∧ (s''.loc i).gr = (s.loc i).gr) := by
  have hi := inv_reach ht h
  constructor
  · intro hg
    refine ⟨_, rfl, ?_⟩
    unfold acqR
    simp only
    split
    · simp [hpc]
    · rename_i hw
      have ho := hi.other i hw
      unfold Loc.Reader at ho
      rw [hpc] at ho
      simp only at ho
      rw [if_neg (by omega)]
      simp [hpc]
  · intro hg
    have hme : s.writer = tid i := by
      by_contra hne
      have := (hi.other i hne).1
      omega
    have hcnt := (hi.me i hme).1
    refine ⟨{ s with loc := upd s.loc i { s.loc i with pc := .wTry } }, _, ?_, rfl, ?_⟩
    · show acqW s i = _
      unfold acqW
      rw [if_neg (by omega)]
    · unfold inner
      simp only [upd_same]
      rw [if_pos hme]
      simp

/-- **C108 (upgrading).**  Wanting to write stops the program only if the party has a section for reading
and none for writing; and a party that reads, and has not got its sections while writing, is
always stopped. -/
theorem C108_upgrade_partial (tid : Fin n → Nat) (ht : Tids tid) (s : St n) (h : Reach tid s) (i : Fin n)
    (hpc : (s.loc i).pc = .idle) :
    (step tid s i .acqW = .abort → 0 < (s.loc i).gr ∧ (s.loc i).gw = 0) ∧
    (0 < (s.loc i).gr → s.writer ≠ tid i → step tid s i .acqW = .abort) := by
  have hi := inv_reach ht h
  constructor
  · intro ha
    have hc : (s.loc i).cnt ≠ 0 := by
      intro hc
      have : acqW s i = .abort := ha
      unfold acqW at this
      rw [if_neg (by omega)] at this
      cases this
    by_cases hw : s.writer = tid i
    · exact absurd (hi.me i hw).1 hc
    · have ho := hi.other i hw
      unfold Loc.Reader at ho
      rw [hpc] at ho
      simp only at ho
      omega
  · intro hg hw
    have ho := hi.other i hw
    unfold Loc.Reader at ho
    rw [hpc] at ho
    simp only at ho
    show acqW s i = .abort
    unfold acqW
    rw [if_pos (by omega)]

/-- several steps of one party -/
def steps (tid : Fin n → Nat) (s : St n) (i : Fin n) : List Act → Out (St n)
  | [] => .ok s
  | a :: as =>
    match step tid s i a with
    | .ok s' => steps tid s' i as
    | o => o

/-- **C108 (no one is kept out).**  From any state that can come about in which nobody has a section or
is in a call, a party gets a section for writing in four steps, and one for reading in four steps. -/
theorem C108_progress_partial (tid : Fin n → Nat) (ht : Tids tid) (s : St n) (h : Reach tid s) (i : Fin n)
    (h0 : ∀ j, (s.loc j).pc = .idle ∧ (s.loc j).gr = 0 ∧ (s.loc j).gw = 0) :
    (∃ s', steps tid s i [.acqW, .go, .go, .go] = .ok s' ∧ (s'.loc i).gw = 1 ∧ (s'.loc i).pc = .idle) ∧
    (∃ s', steps tid s i [.acqR, .go, .go, .go] = .ok s' ∧ (s'.loc i).gr = 1 ∧ (s'.loc i).pc = .idle) := by
  obtain ⟨hw, hn, hwc, hc⟩ := C108_free_partial tid ht s h h0
  have hne : ¬ (0 : Nat) = tid i := (ht.pos i).symm
  have hg := h0 i
  have hci := hc i
  constructor
  · simp only [steps, step, acqW, hci, ne_eq, not_true_eq_false, if_false, inner, upd_same, hw, if_neg hne, if_true, hn]
    exact ⟨_, rfl, by simp [hg], by simp⟩
  · simp only [steps, step, acqR, hci, ne_eq, not_true_eq_false, if_false, inner, upd_same, hw, if_neg hne, if_true, hn]
    exact ⟨_, rfl, by simp [hg], by simp⟩

/-! ### runs -/

/-- a run of steps by several parties -/
def run (tid : Fin n → Nat) (s : St n) : List (Fin n × Act) → Out (St n)
  | [] => .ok s
  | (i, a) :: as =>
    if mayDo (s.loc i) a then
      match step tid s i a with
      | .ok s' => run tid s' as
      | o => o
    else .ub

theorem run_reach (tid : Fin n → Nat) : ∀ (as : List (Fin n × Act)) (s s' : St n), Reach tid s →
    run tid s as = .ok s' → Reach tid s'
  | [], s, s', h, hr => by cases hr; exact h
  | (i, a) :: as, s, s', h, hr => by
    unfold run at hr
    split at hr
    · rename_i hm
      cases hs : step tid s i a with
      | ok s1 => rw [hs] at hr; exact run_reach tid as s1 s' (.step s s1 i a h hm hs) hr
      | ub => rw [hs] at hr; cases hr
      | abort => rw [hs] at hr; cases hr
    · cases hr

/-- what is seen at the end of a run: sections of each party -/
def seen (o : Out (St 2)) : Option ((Nat × Nat) × (Nat × Nat)) :=
  match o with
  | .ok s => some (((s.loc 0).gr, (s.loc 0).gw), ((s.loc 1).gr, (s.loc 1).gw))
  | _ => none

/-- two parties with different numbers -/
def two : Fin 2 → Nat := fun i => i.val + 1

theorem two_tids : Tids two where
  inj := by decide
  pos := by decide

/-- the first writes and reads within it; the second tries to read and is not let in; the first
releases, the second gets in -/
example : seen (run two {} [(0, .acqW), (0, .go), (0, .go), (0, .go), (0, .acqR), (1, .acqR), (1, .go), (1, .go)])
    = some ((1, 1), (0, 0)) ∧
    seen (run two {} [(0, .acqW), (0, .go), (0, .go), (0, .go), (0, .acqR), (1, .acqR), (1, .go),
      (0, .relR), (0, .relW), (0, .go), (1, .go), (1, .go), (1, .go)]) = some ((0, 0), (1, 0)) := by decide

/-- **C108 (violated: two coroutines with one number).**  The number of a coroutine is the lower half of
its address.  Where two have the same, the second reads or writes while the first writes. -/
theorem C108_number_violated (k : Nat) (hk : k ≠ 0) :
    seen (run (fun _ => k) {} [(0, .acqW), (0, .go), (0, .go), (0, .go), (1, .acqR)]) = some ((0, 1), (1, 0)) ∧
    seen (run (fun _ => k) {} [(0, .acqW), (0, .go), (0, .go), (0, .go), (1, .acqW), (1, .go)])
      = some ((0, 1), (0, 1)) := by
  have hne : ¬ (0 = k) := fun h => hk h.symm
  constructor <;>
  · simp [run, mayDo, step, acqW, acqR, inner, upd, seen, hne]

/-- **C108 (violated: a coroutine with the number zero).**  It is let in at once and is not counted:
another writes while it reads. -/
theorem C108_zero_violated (k : Nat) (hk : k ≠ 0) :
    seen (run (fun i => if i = 0 then 0 else k) {} [(0, .acqR), (1, .acqW), (1, .go), (1, .go), (1, .go)])
      = some ((1, 0), (0, 1)) := by
  have hne : ¬ (0 = k) := fun h => hk h.symm
  simp [run, mayDo, step, acqW, acqR, inner, upd, seen, hne]

end Mtev.ConfLock
