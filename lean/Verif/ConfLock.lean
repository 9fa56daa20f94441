import Verif.Mem
import Verif.Conc

/-!
# The locks on the configuration

`src/mtev_conf.c:139-195`: `mtev_conf_acquire_section_read`, `_release_section_read`,
`_acquire_section_write`, `_release_section_write`, over a `ck_rwlock_recursive_t` and a counter
of the reads of a thread or coroutine.

Every access to the shared words is one step, and any party may take the next one.  A party is a
thread or a coroutine; `tid` is the number `mtev_thread_id` gives it (`mtev_thread.c:96-102`: for a
coroutine, the lower 32 bits of its address).  Memory is sequentially consistent (the lock has
the fences for what it relies on).  `gr` and `gw` count the read and write sections the program
has got and not yet released; it only releases what it has.

Simplified: all sections share one lock, as in the code; sections without a lock
(`MTEV_CONF_EMPTY`) are left out; waiting is retrying.
-/

namespace Mtev.ConfLock

/-- where a party is in the code -/
inductive Pc where
  | idle
  /-- `ck_rwlock_recursive_read_trylock`: look at `writer`, count up, look again, count down -/
  | rTry | rInc | rLook | rDec
  /-- `ck_rwlock_recursive_read_unlock` -/
  | rOut
  /-- `ck_rwlock_recursive_write_trylock`: look at `writer`, swap, look at the readers, swap back -/
  | wTry | wCas | wLook | wBack
  /-- `ck_rwlock_recursive_write_unlock`, at the end -/
  | wOut
deriving DecidableEq, Repr

structure Loc where
  pc : Pc := .idle
  /-- `global_read_recursion_counter` -/
  cnt : Nat := 0
  gr : Nat := 0
  gw : Nat := 0
deriving DecidableEq, Repr

structure St (n : Nat) where
  writer : Nat := 0
  nReaders : Nat := 0
  wc : Nat := 0
  loc : Fin n → Loc := fun _ => {}

inductive Act where
  | acqR | relR | acqW | relW
  /-- go on with what was begun -/
  | go
deriving DecidableEq, Repr

/-- one of the write recursion given back, `ck_rwlock_recursive_write_unlock` -/
def wDown (s : St n) (i : Fin n) (l : Loc) : St n :=
  { s with wc := s.wc - 1, loc := upd s.loc i { l with pc := if s.wc - 1 = 0 then .wOut else .idle } }

/-- `mtev_conf_acquire_section_read`, `mtev_conf.c:156-168`, up to the first waiting -/
def acqR (tid : Fin n → Nat) (s : St n) (i : Fin n) : St n :=
  let l := s.loc i
  if s.writer = tid i then
    { s with wc := s.wc + 1, loc := upd s.loc i { l with gr := l.gr + 1 } }
  else if l.cnt = 0 then { s with loc := upd s.loc i { l with cnt := 1, pc := .rTry } }
  else { s with loc := upd s.loc i { l with cnt := l.cnt + 1, gr := l.gr + 1 } }

/-- `mtev_conf_release_section_read`, `mtev_conf.c:169-178` -/
def relR (tid : Fin n → Nat) (s : St n) (i : Fin n) : St n :=
  let l := { s.loc i with gr := (s.loc i).gr - 1 }
  if s.writer = tid i then wDown s i l
  else { s with loc := upd s.loc i { l with cnt := l.cnt - 1, pc := if l.cnt - 1 = 0 then .rOut else .idle } }

/-- `mtev_conf_acquire_section_write`, `mtev_conf.c:179-189`, up to the first waiting -/
def acqW (s : St n) (i : Fin n) : Out (St n) :=
  if (s.loc i).cnt ≠ 0 then .abort
  else .ok { s with loc := upd s.loc i { s.loc i with pc := .wTry } }

/-- `mtev_conf_release_section_write`, `mtev_conf.c:190-194` -/
def relW (tid : Fin n → Nat) (s : St n) (i : Fin n) : Out (St n) :=
  if s.writer = tid i then .ok (wDown s i { s.loc i with gw := (s.loc i).gw - 1 }) else .abort

/-- a step inside the lock (Concurrency Kit's `ck_rwlock.h`) -/
def inner (tid : Fin n → Nat) (s : St n) (i : Fin n) : St n :=
  let l := s.loc i
  match l.pc with
  | .idle => s
  | .rTry => if s.writer ≠ 0 then s else { s with loc := upd s.loc i { l with pc := .rInc } }
  | .rInc => { s with nReaders := s.nReaders + 1, loc := upd s.loc i { l with pc := .rLook } }
  | .rLook =>
    if s.writer = 0 then { s with loc := upd s.loc i { l with pc := .idle, gr := l.gr + 1 } }
    else { s with loc := upd s.loc i { l with pc := .rDec } }
  | .rDec => { s with nReaders := s.nReaders - 1, loc := upd s.loc i { l with pc := .rTry } }
  | .rOut => { s with nReaders := s.nReaders - 1, loc := upd s.loc i { l with pc := .idle } }
  | .wTry =>
    if s.writer = tid i then
      { s with wc := s.wc + 1, loc := upd s.loc i { l with pc := .idle, gw := l.gw + 1 } }
    else { s with loc := upd s.loc i { l with pc := .wCas } }
  | .wCas =>
    if s.writer = 0 then { s with writer := tid i, loc := upd s.loc i { l with pc := .wLook } }
    else { s with loc := upd s.loc i { l with pc := .wTry } }
  | .wLook =>
    if s.nReaders = 0 then
      { s with wc := s.wc + 1, loc := upd s.loc i { l with pc := .idle, gw := l.gw + 1 } }
    else { s with loc := upd s.loc i { l with pc := .wBack } }
  | .wBack => { s with writer := 0, loc := upd s.loc i { l with pc := .wTry } }
  | .wOut => { s with writer := 0, loc := upd s.loc i { l with pc := .idle } }

/-- what a party may do: call when it is not inside a call, and release only what it has -/
def mayDo (l : Loc) : Act → Prop
  | .acqR => l.pc = .idle
  | .acqW => l.pc = .idle
  | .relR => l.pc = .idle ∧ 0 < l.gr
  | .relW => l.pc = .idle ∧ 0 < l.gw
  | .go => l.pc ≠ .idle

instance (l : Loc) (a : Act) : Decidable (mayDo l a) := by cases a <;> unfold mayDo <;> infer_instance

def step (tid : Fin n → Nat) (s : St n) (i : Fin n) : Act → Out (St n)
  | .acqR => .ok (acqR tid s i)
  | .relR => .ok (relR tid s i)
  | .acqW => acqW s i
  | .relW => relW tid s i
  | .go => .ok (inner tid s i)

/-- the states that can come about -/
inductive Reach (tid : Fin n → Nat) : St n → Prop where
  | init : Reach tid {}
  | step (s s' : St n) (i : Fin n) (a : Act) (h : Reach tid s) (hm : mayDo (s.loc i) a)
      (hs : step tid s i a = .ok s') : Reach tid s'

/-! ### the invariant -/

/-- does it count as a reader in the lock? -/
def Loc.counts (l : Loc) : Nat :=
  match l.pc with
  | .rLook | .rDec | .rOut => 1
  | .rTry | .rInc => 0
  | _ => if l.cnt = 0 then 0 else 1

/-- a party that does not have the lock for writing -/
def Loc.Reader (l : Loc) : Prop :=
  l.gw = 0 ∧
    match l.pc with
    | .idle => l.gr = l.cnt
    | .rTry | .rInc | .rLook | .rDec => l.cnt = 1 ∧ l.gr = 0
    | .rOut | .wTry | .wCas => l.cnt = 0 ∧ l.gr = 0
    | _ => False

/-- the party whose mark is on the lock -/
def Loc.Writer (l : Loc) (wc : Nat) : Prop :=
  l.cnt = 0 ∧
    match l.pc with
    | .idle | .wTry => 0 < l.gr + l.gw ∧ wc = l.gr + l.gw
    | .wLook | .wBack | .wOut => l.gr = 0 ∧ l.gw = 0 ∧ wc = 0
    | _ => False

structure Inv (tid : Fin n → Nat) (s : St n) : Prop where
  nr : s.nReaders = ∑ i, (s.loc i).counts
  mark : s.writer = 0 ∨ ∃ i, s.writer = tid i
  other : ∀ i, s.writer ≠ tid i → (s.loc i).Reader
  me : ∀ i, s.writer = tid i → (s.loc i).Writer s.wc
  free : s.writer = 0 → s.wc = 0
  /-- who writes is alone -/
  alone : ∀ i, 0 < (s.loc i).gr + (s.loc i).gw → s.writer = tid i → ∀ j, (s.loc j).gr + (s.loc j).gw = 0 ∨ j = i

/-- numbers tell the parties apart, and none is zero -/
structure Tids (tid : Fin n → Nat) : Prop where
  inj : ∀ i j, tid i = tid j → i = j
  pos : ∀ i, tid i ≠ 0

theorem inv_init (tid : Fin n → Nat) (ht : Tids tid) : Inv tid ({} : St n) where
  nr := by simp [Loc.counts]
  mark := Or.inl rfl
  other := fun i _ => ⟨rfl, rfl⟩
  me := fun i h => absurd h.symm (ht.pos i)
  free := fun _ => rfl
  alone := fun i h => absurd h (by simp)

theorem counts_upd {s : St n} {tid : Fin n → Nat} (h : Inv tid s) (i : Fin n) (l : Loc) (nr : Nat)
    (hn : nr + (s.loc i).counts = s.nReaders + l.counts) : nr = ∑ j, (upd s.loc i l j).counts := by
  have := sum_upd Loc.counts s.loc i l
  have := h.nr
  omega

/-- a party without the mark moves -/
theorem inv_other {tid : Fin n → Nat} {s : St n} (h : Inv tid s) (i : Fin n) (l : Loc) (nr : Nat)
    (hw : s.writer ≠ tid i) (hl : l.Reader) (hn : nr + (s.loc i).counts = s.nReaders + l.counts)
    (hg : 0 < l.gr → 0 < (s.loc i).gr ∨ s.writer = 0) (ht : Tids tid) :
    Inv tid { s with nReaders := nr, loc := upd s.loc i l } where
  nr := counts_upd h i l nr hn
  mark := h.mark
  other := by
    intro j hj
    rcases upd_cases s.loc i j l with ⟨_, e⟩ | ⟨_, e⟩
    · simp only [e]; exact hl
    · simp only [e]; exact h.other j hj
  me := by
    intro j hj
    rcases upd_cases s.loc i j l with ⟨e', e⟩ | ⟨_, e⟩
    · subst e'; exact absurd hj hw
    · simp only [e]; exact h.me j hj
  free := h.free
  alone := by
    intro k hk hkw j
    rcases upd_cases s.loc i k l with ⟨e', e⟩ | ⟨hki, e⟩
    · subst e'; exact absurd hkw hw
    · simp only [e] at hk
      rcases upd_cases s.loc i j l with ⟨e', e⟩ | ⟨_, e⟩
      · left
        simp only [e]
        have hz : s.writer ≠ 0 := by
          intro h0; exact ht.pos k (by rw [← hkw]; exact h0)
        have hgw := hl.1
        have : ¬ 0 < l.gr := by
          intro hlt
          rcases hg hlt with h1 | h1
          · rcases h.alone k hk hkw i with h2 | h2
            · omega
            · exact hki h2.symm
          · exact hz h1
        omega
      · simp only [e]
        exact h.alone k hk hkw j

/-- the party with the mark moves and keeps it -/
theorem inv_me {tid : Fin n → Nat} {s : St n} (h : Inv tid s) (i : Fin n) (l : Loc) (wc : Nat)
    (hw : s.writer = tid i) (hl : l.Writer wc) (hc : l.counts = (s.loc i).counts)
    (hg : 0 < l.gr + l.gw → 0 < (s.loc i).gr + (s.loc i).gw ∨ ∀ j, j ≠ i → (s.loc j).gr + (s.loc j).gw = 0)
    (ht : Tids tid) :
    Inv tid { s with wc := wc, loc := upd s.loc i l } where
  nr := counts_upd h i l s.nReaders (by omega)
  mark := h.mark
  other := by
    intro j hj
    rcases upd_cases s.loc i j l with ⟨e', e⟩ | ⟨_, e⟩
    · subst e'; exact absurd hw hj
    · simp only [e]; exact h.other j hj
  me := by
    intro j hj
    rcases upd_cases s.loc i j l with ⟨e', e⟩ | ⟨hne, e⟩
    · simp only [e]; exact hl
    · exact absurd (ht.inj j i (hj.symm.trans hw)) hne
  free := fun h0 => absurd (hw.symm.trans h0) (ht.pos i)
  alone := by
    intro k hk hkw j
    have hki : k = i := ht.inj k i (hkw.symm.trans hw)
    subst hki
    by_cases hj : j = k
    · exact Or.inr hj
    · left
      simp only [upd_same] at hk
      simp only [upd_other _ _ _ _ hj]
      rcases hg hk with h1 | h1
      · rcases h.alone k h1 hw j with h2 | h2
        · exact h2
        · exact absurd h2 hj
      · exact h1 j hj

/-- a party puts its mark on the lock -/
theorem inv_take {tid : Fin n → Nat} {s : St n} (h : Inv tid s) (i : Fin n) (l : Loc)
    (hw : s.writer = 0) (hl : l.Writer 0) (hl0 : l.gr + l.gw = 0) (hc : l.counts = (s.loc i).counts) (ht : Tids tid) :
    Inv tid { s with writer := tid i, loc := upd s.loc i l } where
  nr := counts_upd h i l s.nReaders (by omega)
  mark := Or.inr ⟨i, rfl⟩
  other := by
    intro j hj
    rcases upd_cases s.loc i j l with ⟨e', e⟩ | ⟨_, e⟩
    · subst e'; exact absurd rfl hj
    · simp only [e]; exact h.other j (by rw [hw]; exact (ht.pos j).symm)
  me := by
    intro j hj
    have hji := ht.inj j i hj.symm
    subst hji
    simp only [upd_same]
    rw [h.free hw]; exact hl
  free := fun h0 => absurd h0 (ht.pos i)
  alone := by
    intro k hk hkw j
    have hki := ht.inj k i hkw.symm
    subst hki
    simp only [upd_same] at hk
    omega

/-- a party takes its mark off -/
theorem inv_give {tid : Fin n → Nat} {s : St n} (h : Inv tid s) (i : Fin n) (l : Loc)
    (hw : s.writer = tid i) (hl : l.Reader) (hwc : s.wc = 0) (hc : l.counts = (s.loc i).counts) (ht : Tids tid) :
    Inv tid { s with writer := 0, loc := upd s.loc i l } where
  nr := counts_upd h i l s.nReaders (by omega)
  mark := Or.inl rfl
  other := by
    intro j _
    rcases upd_cases s.loc i j l with ⟨_, e⟩ | ⟨hne, e⟩
    · simp only [e]; exact hl
    · simp only [e]
      exact h.other j fun e' => hne (ht.inj j i (e'.symm.trans hw))
  me := fun j hj => absurd hj.symm (ht.pos j)
  free := fun _ => hwc
  alone := fun k _ hkw => absurd hkw.symm (ht.pos k)

/-- one of several sections is released by the party with the mark -/
theorem inv_down {tid : Fin n → Nat} (ht : Tids tid) {s : St n} (h : Inv tid s) (i : Fin n) (l : Loc)
    (hw : s.writer = tid i) (hpc : (s.loc i).pc = .idle) (hpl : l.pc = .idle) (hcnt : l.cnt = (s.loc i).cnt)
    (hg : l.gr + l.gw + 1 = (s.loc i).gr + (s.loc i).gw) : Inv tid (wDown s i l) := by
  have hme := h.me i hw
  unfold Loc.Writer at hme
  rw [hpc] at hme
  simp only at hme
  unfold wDown
  by_cases hz : s.wc - 1 = 0
  · rw [if_pos hz]
    refine inv_me h i _ _ hw ?_ ?_ (fun _ => Or.inl hme.2.1) ht
    · unfold Loc.Writer
      simp only
      omega
    · unfold Loc.counts
      rw [hpc]
      simp only
      rw [hcnt]
  · rw [if_neg hz]
    refine inv_me h i _ _ hw ?_ ?_ (fun _ => Or.inl hme.2.1) ht
    · unfold Loc.Writer
      simp only
      omega
    · unfold Loc.counts
      rw [hpc]
      simp only
      rw [hcnt]

theorem inv_step {tid : Fin n → Nat} (ht : Tids tid) {s s' : St n} (h : Inv tid s) (i : Fin n) (a : Act)
    (hm : mayDo (s.loc i) a) (hs : step tid s i a = .ok s') : Inv tid s' := by
  cases a with
  | acqR =>
    have hpc : (s.loc i).pc = .idle := hm
    simp only [step, Out.ok.injEq] at hs
    subst hs
    unfold acqR
    simp only
    split
    · rename_i hw
      have hme := h.me i hw
      unfold Loc.Writer at hme
      rw [hpc] at hme
      simp only at hme
      refine inv_me h i _ _ hw ?_ ?_ (fun _ => Or.inl hme.2.1) ht
      · unfold Loc.Writer
        simp only [hpc]
        omega
      · rfl
    · rename_i hw
      have ho := h.other i hw
      unfold Loc.Reader at ho
      rw [hpc] at ho
      simp only at ho
      split
      · rename_i hc
        refine inv_other h i _ s.nReaders hw ?_ ?_ ?_ ht
        · unfold Loc.Reader
          simp only [true_and]
          omega
        · unfold Loc.counts
          rw [hpc]
          simp [hc]
        · simp only; intro h0; exact Or.inl h0
      · rename_i hc
        refine inv_other h i _ s.nReaders hw ?_ ?_ ?_ ht
        · unfold Loc.Reader
          simp only [hpc]
          omega
        · unfold Loc.counts
          simp [hpc, hc]
        · intro _; left; omega
  | relR =>
    obtain ⟨hpc, hg⟩ : (s.loc i).pc = .idle ∧ 0 < (s.loc i).gr := hm
    simp only [step, Out.ok.injEq] at hs
    subst hs
    unfold relR
    simp only
    split
    · rename_i hw
      exact inv_down ht h i _ hw hpc hpc rfl (by simp only; omega)
    · rename_i hw
      have ho := h.other i hw
      unfold Loc.Reader at ho
      rw [hpc] at ho
      simp only at ho
      by_cases hz : (s.loc i).cnt - 1 = 0
      · rw [if_pos hz]
        refine inv_other h i _ s.nReaders hw ?_ ?_ (fun _ => Or.inl hg) ht
        · unfold Loc.Reader
          simp only
          omega
        · unfold Loc.counts
          rw [hpc]
          simp only
          rw [if_neg (by omega)]
      · rw [if_neg hz]
        refine inv_other h i _ s.nReaders hw ?_ ?_ (fun _ => Or.inl hg) ht
        · unfold Loc.Reader
          simp only
          omega
        · unfold Loc.counts
          rw [hpc]
          simp only
          rw [if_neg (by omega), if_neg hz]
  | acqW =>
    have hpc : (s.loc i).pc = .idle := hm
    simp only [step, acqW] at hs
    split at hs
    · cases hs
    · rename_i hc
      simp only [Out.ok.injEq] at hs
      subst hs
      by_cases hw : s.writer = tid i
      · have hme := h.me i hw
        unfold Loc.Writer at hme
        rw [hpc] at hme
        simp only at hme
        have := inv_me h i { s.loc i with pc := .wTry } s.wc hw ?_ ?_ (fun _ => Or.inl hme.2.1) ht
        · exact this
        · unfold Loc.Writer
          simp only
          omega
        · unfold Loc.counts
          rw [hpc]
      · have ho := h.other i hw
        unfold Loc.Reader at ho
        rw [hpc] at ho
        simp only at ho
        refine inv_other h i _ s.nReaders hw ?_ ?_ (fun h0 => Or.inl h0) ht
        · unfold Loc.Reader
          simp only
          omega
        · unfold Loc.counts
          rw [hpc]
  | relW =>
    obtain ⟨hpc, hg⟩ : (s.loc i).pc = .idle ∧ 0 < (s.loc i).gw := hm
    simp only [step, relW] at hs
    split at hs
    · rename_i hw
      simp only [Out.ok.injEq] at hs
      subst hs
      exact inv_down ht h i _ hw hpc hpc rfl (by simp only; omega)
    · cases hs
  | go =>
    have hne : (s.loc i).pc ≠ .idle := hm
    simp only [step, Out.ok.injEq] at hs
    subst hs
    unfold inner
    simp only
    cases hpc : (s.loc i).pc with
    | idle => exact absurd hpc hne
    | rTry =>
      simp only
      split
      · exact h
      · rename_i hz
        have hw : s.writer ≠ tid i := by
          intro e; rw [e] at hz; exact hz (ht.pos i)
        have ho := h.other i hw
        unfold Loc.Reader at ho
        rw [hpc] at ho
        refine inv_other h i _ s.nReaders hw ?_ ?_ (fun h0 => Or.inl h0) ht
        · exact ho
        · unfold Loc.counts; rw [hpc]
    | rInc =>
      simp only
      have hw : s.writer ≠ tid i := by
        intro e
        have := h.me i e
        unfold Loc.Writer at this
        rw [hpc] at this
        exact this.2
      have ho := h.other i hw
      unfold Loc.Reader at ho
      rw [hpc] at ho
      refine inv_other h i _ (s.nReaders + 1) hw ?_ ?_ (fun h0 => Or.inl h0) ht
      · exact ho
      · unfold Loc.counts; rw [hpc]; rfl
    | rLook =>
      simp only
      have hw : s.writer ≠ tid i := by
        intro e
        have := h.me i e
        unfold Loc.Writer at this
        rw [hpc] at this
        exact this.2
      have ho := h.other i hw
      unfold Loc.Reader at ho
      rw [hpc] at ho
      simp only at ho
      split
      · rename_i hz
        refine inv_other h i _ s.nReaders hw ?_ ?_ (fun _ => Or.inr hz) ht
        · unfold Loc.Reader
          simp only
          omega
        · unfold Loc.counts; rw [hpc]
          simp only
          rw [if_neg (by omega)]
      · refine inv_other h i _ s.nReaders hw ?_ ?_ (fun h0 => Or.inl h0) ht
        · exact ho
        · unfold Loc.counts; rw [hpc]
    | rDec =>
      simp only
      have hw : s.writer ≠ tid i := by
        intro e
        have := h.me i e
        unfold Loc.Writer at this
        rw [hpc] at this
        exact this.2
      have ho := h.other i hw
      unfold Loc.Reader at ho
      rw [hpc] at ho
      have hle := le_sum Loc.counts s.loc i
      rw [← h.nr] at hle
      have hc : (s.loc i).counts = 1 := by unfold Loc.counts; rw [hpc]
      refine inv_other h i _ (s.nReaders - 1) hw ?_ ?_ (fun h0 => Or.inl h0) ht
      · exact ho
      · rw [hc]
        unfold Loc.counts
        simp only
        omega
    | rOut =>
      simp only
      have hw : s.writer ≠ tid i := by
        intro e
        have := h.me i e
        unfold Loc.Writer at this
        rw [hpc] at this
        exact this.2
      have ho := h.other i hw
      unfold Loc.Reader at ho
      rw [hpc] at ho
      simp only at ho
      have hle := le_sum Loc.counts s.loc i
      rw [← h.nr] at hle
      have hc : (s.loc i).counts = 1 := by unfold Loc.counts; rw [hpc]
      refine inv_other h i _ (s.nReaders - 1) hw ?_ ?_ (fun h0 => Or.inl h0) ht
      · unfold Loc.Reader
        simp only
        omega
      · rw [hc]
        unfold Loc.counts
        simp only
        rw [if_pos ho.2.1]
        omega
    | wTry =>
      simp only
      split
      · rename_i hw
        have hme := h.me i hw
        unfold Loc.Writer at hme
        rw [hpc] at hme
        simp only at hme
        refine inv_me h i _ _ hw ?_ ?_ (fun _ => Or.inl hme.2.1) ht
        · unfold Loc.Writer
          simp only
          omega
        · unfold Loc.counts; rw [hpc]
      · rename_i hw
        have ho := h.other i hw
        unfold Loc.Reader at ho
        rw [hpc] at ho
        refine inv_other h i _ s.nReaders hw ?_ ?_ (fun h0 => Or.inl h0) ht
        · exact ho
        · unfold Loc.counts; rw [hpc]
    | wCas =>
      simp only
      have hw : s.writer ≠ tid i := by
        intro e
        have := h.me i e
        unfold Loc.Writer at this
        rw [hpc] at this
        exact this.2
      have ho := h.other i hw
      unfold Loc.Reader at ho
      rw [hpc] at ho
      simp only at ho
      split
      · rename_i hz
        refine inv_take h i _ hz ?_ ?_ ?_ ht
        · exact ⟨ho.2.1, ho.2.2, ho.1, rfl⟩
        · simp only; omega
        · unfold Loc.counts; rw [hpc]
      · refine inv_other h i _ s.nReaders hw ?_ ?_ (fun h0 => Or.inl h0) ht
        · exact ho
        · unfold Loc.counts; rw [hpc]
    | wLook =>
      simp only
      have hw : s.writer = tid i := by
        by_contra e
        have := h.other i e
        unfold Loc.Reader at this
        rw [hpc] at this
        exact this.2
      have hme := h.me i hw
      unfold Loc.Writer at hme
      rw [hpc] at hme
      simp only at hme
      split
      · rename_i hz
        refine inv_me h i _ _ hw ?_ ?_ (fun _ => Or.inr ?_) ht
        · unfold Loc.Writer
          simp only
          omega
        · unfold Loc.counts; rw [hpc]
        · intro j hj
          have hwj : s.writer ≠ tid j := by
            intro e; exact hj (ht.inj j i (e.symm.trans hw))
          have hr := h.other j hwj
          have hle := le_sum Loc.counts s.loc j
          rw [← h.nr, hz] at hle
          unfold Loc.Reader at hr
          unfold Loc.counts at hle
          obtain ⟨hr1, hr2⟩ := hr
          cases hpj : (s.loc j).pc <;> rw [hpj] at hr2 hle <;> simp only at hr2 hle
          · by_cases hc : (s.loc j).cnt = 0
            · omega
            · rw [if_neg hc] at hle; omega
          all_goals omega
      · have := inv_me h i { s.loc i with pc := .wBack } s.wc hw ?_ ?_ (fun h0 => ?_) ht
        · exact this
        · unfold Loc.Writer
          simp only
          omega
        · unfold Loc.counts; rw [hpc]
        · exact Or.inl h0
    | wBack =>
      simp only
      have hw : s.writer = tid i := by
        by_contra e
        have := h.other i e
        unfold Loc.Reader at this
        rw [hpc] at this
        exact this.2
      have hme := h.me i hw
      unfold Loc.Writer at hme
      rw [hpc] at hme
      simp only at hme
      refine inv_give h i _ hw ?_ hme.2.2.2 ?_ ht
      · unfold Loc.Reader
        simp only
        omega
      · unfold Loc.counts; rw [hpc]
    | wOut =>
      simp only
      have hw : s.writer = tid i := by
        by_contra e
        have := h.other i e
        unfold Loc.Reader at this
        rw [hpc] at this
        exact this.2
      have hme := h.me i hw
      unfold Loc.Writer at hme
      rw [hpc] at hme
      simp only at hme
      refine inv_give h i _ hw ?_ hme.2.2.2 ?_ ht
      · unfold Loc.Reader
        simp only
        omega
      · unfold Loc.counts; rw [hpc]

theorem inv_reach {tid : Fin n → Nat} (ht : Tids tid) {s : St n} (h : Reach tid s) : Inv tid s := by
  induction h with
  | init => exact inv_init tid ht
  | step s s' i a _ hm hs ih => exact inv_step ht ih i a hm hs

end Mtev.ConfLock
