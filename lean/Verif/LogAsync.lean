import Verif.Basic

/-!
# Log files written asynchronously

`src/utils/mtev_log.c`: `asynch_log_pop`, `asynch_logio_drain`,
`asynch_logio_writer`, `posix_logio_asynch_write`, `asynch_thread_create`,
`posix_logio_reopen`, `posix_logio_write`, `mtev_log_go_asynch`,
`mtev_log_go_synch`.  One file; any number of threads that log to it, any number
of writer threads, and one thread at a time that changes the mode (all of those
calls hold `resize_lock`).

A step is one access to shared state.  A record is a line together with the
thread that logged it (the thread is bookkeeping).

Simplified: the read-write lock of the stream is left out (all who write take it
for reading, except the drain of `mtev_log_go_synch`, which takes nothing; it
only keeps the descriptor from being replaced meanwhile), all files the
descriptor is reopened to count as one, there is no `fork` and no signal
handler.
-/

namespace Mtev.LogAsync

/-- who logged it, and the bytes -/
abbrev Rec := Nat × List Nat

/-- the answer of one `write(2)` -/
inductive WRes where
  | full
  | short (k : Nat)
  | fail
deriving DecidableEq, Repr

/-- where a thread that logs is (`posix_logio_write`, `mtev_log.c:816-857`).
`loaded` is inside `ck_fifo_mpmc_dequeue`, having read the head of the queue;
`stale` when the entry it read has been freed since. -/
inductive LPc where
  | idle
  | choose (x : Rec)
  | push (x : Rec)
  | drain (x : Rec)
  | loaded (x : Rec) (stale : Bool)
  | hand (x y : Rec)
  | final (x : Rec)
deriving DecidableEq, Repr

/-- where a writer thread is (`asynch_logio_writer`, `mtev_log.c:648-688`): `n`
is `max` -/
inductive WPc where
  | fresh
  | waiting
  | top
  | pop (n : Nat)
  | loaded (n : Nat) (stale : Bool)
  | hand (n : Nat) (y : Rec)
  | done
deriving DecidableEq, Repr

structure W where
  gen : Nat
  pc : WPc
deriving DecidableEq, Repr

/-- where the thread that changes the mode is (`mtev_log.c:2925-2963`) -/
inductive Adm where
  | idle
  | create
  | drain
  | loaded (stale : Bool)
  | hand (y : Rec)
deriving DecidableEq, Repr

/-- `asynch_log_ctx` and the threads; `out` is what the file has got.  `given`
and `pushed` are bookkeeping: the records logged so far and the records put in
the queue so far. -/
structure S where
  q : List Rec
  out : List Rec
  given : List Rec
  pushed : List Rec
  asynch : Bool
  gen : Nat
  served : Nat
  single : Option Nat
  writers : List W
  loggers : List LPc
  admin : Adm
  ub : Bool
  crashed : Bool
deriving DecidableEq, Repr

/-- what a freed head entry does to the others inside `ck_fifo_mpmc_dequeue`:
they hold a freed entry; when the head was the initial entry (`qhead`), which is
not freed (`mtev_log.c:598`), their compare-and-swap fails and they start again. -/
def spoilL (freed : Bool) : LPc → LPc
  | .loaded x b => if freed then .loaded x true else if b then .loaded x b else .drain x
  | p => p

def spoilW (freed : Bool) (w : W) : W :=
  match w.pc with
  | .loaded n b =>
    { w with pc := if freed then .loaded n true else if b then .loaded n b else .pop n }
  | _ => w

def spoilA (freed : Bool) : Adm → Adm
  | .loaded b => if freed then .loaded true else if b then .loaded b else .drain
  | p => p

/-- the queue after a successful dequeue (`asynch_log_pop`, `mtev_log.c:592-604`) -/
def taken (s : S) (ys : List Rec) : S :=
  { s with
    q := ys
    served := s.served + 1
    writers := s.writers.map (spoilW (decide (1 ≤ s.served)))
    loggers := s.loggers.map (spoilL (decide (1 ≤ s.served)))
    admin := spoilA (decide (1 ≤ s.served)) s.admin }

def setL (s : S) (t : Nat) (p : LPc) : S := { s with loggers := s.loggers.set t p }

def setW (s : S) (i : Nat) (w : W) : S := { s with writers := s.writers.set i w }

/-- writing a record taken from the queue (`mtev_log.c:640, 666`:
`if(actx->write(actx, line) == -1) abort();`, and `posix_logio_asynch_write`,
`:691-703`, which does not look at how much was written) -/
def emit (s : S) (y : Rec) : WRes → S
  | .full => { s with out := s.out ++ [y] }
  | .short k => { s with out := s.out ++ [(y.1, y.2.take k)] }
  | .fail => { s with crashed := true }

/-- one step of a thread that logs (`posix_logio_write`, `mtev_log.c:816-857`) -/
def stepL (s : S) (t : Nat) (r : WRes) : S :=
  match s.loggers[t]? with
  | some (.choose x) => if s.asynch then setL s t (.push x) else setL s t (.drain x)
  | some (.push x) => setL { s with q := s.q ++ [x], pushed := s.pushed ++ [x] } t .idle
  | some (.drain x) => setL s t (.loaded x false)
  | some (.loaded x stale) =>
    if stale then { s with ub := true }
    else
      match s.q with
      | [] => setL s t (.final x)
      | y :: ys => setL (taken s ys) t (.hand x y)
  | some (.hand x y) => setL (emit s y r) t (.drain x)
  | some (.final x) =>
    match r with
    | .full => setL { s with out := s.out ++ [x] } t .idle
    | .short k => setL { s with out := s.out ++ [(x.1, x.2.take k)] } t .idle
    | .fail => setL s t .idle
  | _ => s

/-- one step of a writer thread (`asynch_logio_writer`, `mtev_log.c:648-688`) -/
def stepW (s : S) (i : Nat) (r : WRes) : S :=
  match s.writers[i]? with
  | none => s
  | some w =>
    match w.pc with
    | .fresh => setW { s with gen := s.gen + 1 } i ⟨s.gen + 1, .waiting⟩
    | .waiting =>
      if s.single = none then setW { s with single := some i } i { w with pc := .top } else s
    | .top =>
      if w.gen = s.gen then setW s i { w with pc := .pop 1000 }
      else setW { s with single := none } i { w with pc := .done }
    | .pop n => if n = 0 then setW s i { w with pc := .top } else setW s i { w with pc := .loaded n false }
    | .loaded n stale =>
      if stale then { s with ub := true }
      else
        match s.q with
        | [] => setW { s with single := none } i { w with pc := .waiting }
        | y :: ys => setW (taken s ys) i { w with pc := .hand n y }
    | .hand n y => setW (emit s y r) i { w with pc := .pop (n - 1) }
    | .done => s

/-- one step of the thread that changes the mode: starting a writer
(`asynch_thread_create`, `mtev_log.c:705-725`, called from
`posix_logio_reopen`, `:808-812`) or draining (`:635-646, 2958`) -/
def stepA (s : S) (r : WRes) : S :=
  match s.admin with
  | .create => { s with writers := s.writers ++ [⟨0, .fresh⟩], admin := .idle }
  | .drain => { s with admin := .loaded false }
  | .loaded stale =>
    if stale then { s with ub := true }
    else
      match s.q with
      | [] => { s with admin := .idle }
      | y :: ys => { taken s ys with admin := .hand y }
  | .hand y => { emit s y r with admin := .drain }
  | .idle => s

inductive Label where
  | call (t : Nat) (x : List Nat)
  | lg (t : Nat) (r : WRes)
  | wr (i : Nat) (r : WRes)
  | ad (r : WRes)
  | goAsynch
  | goSynch
  | reopen
deriving DecidableEq, Repr

/-- one step.  `goAsynch` (`mtev_log.c:2925-2943`), `goSynch` (`:2945-2964`) and
`reopen` (`mtev_log_reopen_all`, `:2966-2978`) start such a call; a call that has
not ended keeps others of its kind out (`resize_lock`). -/
def step (s : S) : Label → S
  | .call t x =>
    match s.loggers[t]? with
    | some .idle => setL { s with given := s.given ++ [(t, x)] } t (.choose (t, x))
    | _ => s
  | .lg t r => stepL s t r
  | .wr i r => stepW s i r
  | .ad r => stepA s r
  | .goAsynch =>
    if s.admin = .idle then { s with gen := s.gen + 1, asynch := true, admin := .create } else s
  | .goSynch =>
    if s.admin = .idle then { s with gen := s.gen + 1, asynch := false, admin := .drain } else s
  | .reopen =>
    if s.admin = .idle then (if s.asynch then { s with admin := .create } else s) else s

/-- a run; nothing happens any more after an abort or an access to freed memory -/
def run : List Label → S → S
  | [], s => s
  | l :: ls, s => if s.ub || s.crashed then s else run ls (step s l)

/-- no record yet, `n` threads that log, no writer yet -/
def init (asynch : Bool) (n : Nat) : S :=
  { q := [], out := [], given := [], pushed := [], asynch := asynch, gen := 0, served := 0,
    single := none, writers := [], loggers := List.replicate n .idle, admin := .idle,
    ub := false, crashed := false }

/-- every write of the run is complete -/
def Full : Label → Prop
  | .lg _ r | .wr _ r | .ad r => r = .full
  | _ => True

/-! ## helper lemmas: nothing is lost -/

/-- records a logging thread holds -/
def handsL : LPc → List Rec
  | .idle => []
  | .choose x | .push x | .drain x | .loaded x _ | .final x => [x]
  | .hand x y => [x, y]

/-- records a writer thread holds -/
def handsW (w : W) : List Rec :=
  match w.pc with
  | .hand _ y => [y]
  | _ => []

/-- records the thread that changes the mode holds -/
def handsA : Adm → List Rec
  | .hand y => [y]
  | _ => []

theorem handsL_spoil (b p) : handsL (spoilL b p) = handsL p := by
  cases p <;> simp only [spoilL]
  split
  · rfl
  · split <;> rfl

theorem handsW_spoil (b w) : handsW (spoilW b w) = handsW w := by
  obtain ⟨g, pc⟩ := w
  cases pc <;> simp only [spoilW]
  split
  · rfl
  · split <;> rfl

theorem handsA_spoil (b p) : handsA (spoilA b p) = handsA p := by
  cases p <;> simp only [spoilA]
  split
  · rfl
  · split <;> rfl

theorem flatMap_map_eq {α} {f : α → List Rec} {g : α → α} (h : ∀ a, f (g a) = f a) (l : List α) :
    (l.map g).flatMap f = l.flatMap f := by
  induction l with
  | nil => rfl
  | cons a l ih => simp only [List.map_cons, List.flatMap_cons, h, ih]

theorem count_set {α} (f : α → List Rec) (z : Rec) (b : α) : ∀ (l : List α) (t : Nat) (a : α),
    l[t]? = some a →
    ((l.set t b).flatMap f).count z + (f a).count z = (l.flatMap f).count z + (f b).count z
  | [], t, a, h => by simp at h
  | c :: l, 0, a, h => by
    simp only [List.getElem?_cons_zero, Option.some.injEq] at h
    subst h
    simp only [List.set_cons_zero, List.flatMap_cons, List.count_append]
    omega
  | c :: l, t + 1, a, h => by
    simp only [List.getElem?_cons_succ] at h
    have := count_set f z b l t a h
    simp only [List.set_cons_succ, List.flatMap_cons, List.count_append]
    omega

/-- everything that was logged is somewhere, once -/
def Kept (s : S) : Prop :=
  ∀ z : Rec, s.given.count z =
    s.out.count z + s.q.count z + (s.loggers.flatMap handsL).count z +
    (s.writers.flatMap handsW).count z + (handsA s.admin).count z

theorem stepL_kept {s t} (h : Kept s) : Kept (stepL s t .full) := by
  unfold stepL
  split
  · rename_i x hx
    split
    all_goals
      intro z
      have h0 := h z
      have h1 := fun b => count_set handsL z b s.loggers t _ hx
      first | have h2 := h1 (.push x) | skip
      have h3 := h1 (.drain x)
      simp only [setL, handsL] at *
      omega
  · rename_i x hx
    intro z
    have h0 := h z
    have h1 := count_set handsL z .idle s.loggers t _ hx
    simp only [setL, handsL, List.count_append, List.count_nil] at *
    omega
  · rename_i x hx
    intro z
    have h0 := h z
    have h1 := count_set handsL z (.loaded x false) s.loggers t _ hx
    simp only [setL, handsL] at *
    omega
  · rename_i x stale hx
    split
    · exact h
    · rename_i hst
      split
      · intro z
        have h0 := h z
        have h1 := count_set handsL z (.final x) s.loggers t _ hx
        simp only [setL, handsL] at *
        omega
      · rename_i y ys hq
        intro z
        have h0 := h z
        have hx' : (s.loggers.map (spoilL (decide (1 ≤ s.served))))[t]?
            = some (spoilL (decide (1 ≤ s.served)) (.loaded x stale)) := by
          rw [List.getElem?_map, hx]; rfl
        have h1 := count_set handsL z (.hand x y) _ t _ hx'
        rw [flatMap_map_eq (handsL_spoil _), handsL_spoil] at h1
        simp only [setL, taken]
        rw [flatMap_map_eq (handsW_spoil _), handsA_spoil]
        rw [hq] at h0
        simp only [handsL, List.count_cons, List.count_nil] at *
        omega
  · rename_i x y hx
    intro z
    have h0 := h z
    have h1 := count_set handsL z (.drain x) s.loggers t _ hx
    simp only [setL, emit, handsL, List.count_append, List.count_cons, List.count_nil] at *
    omega
  · rename_i x hx
    intro z
    have h0 := h z
    have h1 := count_set handsL z .idle s.loggers t _ hx
    simp only [setL, handsL, List.count_append, List.count_nil] at *
    omega
  · exact h

theorem stepW_kept {s i} (h : Kept s) : Kept (stepW s i .full) := by
  unfold stepW
  split
  · exact h
  · rename_i w hw
    obtain ⟨g, pc⟩ := w
    have same : ∀ (w' : W) (s' : S), handsW w' = handsW ⟨g, pc⟩ → s'.writers = s.writers →
        s'.given = s.given → s'.out = s.out → s'.q = s.q → s'.loggers = s.loggers →
        s'.admin = s.admin → Kept (setW s' i w') := by
      intro w' s' e1 e2 e3 e4 e5 e6 e7 z
      have h0 := h z
      have h1 := count_set handsW z w' s.writers i _ hw
      rw [e1] at h1
      simp only [setW, e2, e3, e4, e5, e6, e7]
      omega
    cases pc with
    | fresh => exact same _ _ rfl rfl rfl rfl rfl rfl rfl
    | waiting =>
      dsimp only
      split
      · exact same _ _ rfl rfl rfl rfl rfl rfl rfl
      · exact h
    | top =>
      dsimp only
      split
      · exact same _ _ rfl rfl rfl rfl rfl rfl rfl
      · exact same _ _ rfl rfl rfl rfl rfl rfl rfl
    | pop n =>
      dsimp only
      split
      · exact same _ _ rfl rfl rfl rfl rfl rfl rfl
      · exact same _ _ rfl rfl rfl rfl rfl rfl rfl
    | loaded n stale =>
      dsimp only
      split
      · exact h
      · split
        · exact same _ _ rfl rfl rfl rfl rfl rfl rfl
        · rename_i y ys hq
          intro z
          have h0 := h z
          have hx' : (s.writers.map (spoilW (decide (1 ≤ s.served))))[i]?
              = some (spoilW (decide (1 ≤ s.served)) ⟨g, .loaded n stale⟩) := by
            rw [List.getElem?_map, hw]; rfl
          have h1 := count_set handsW z ⟨g, .hand n y⟩ _ i _ hx'
          rw [flatMap_map_eq (handsW_spoil _), handsW_spoil] at h1
          simp only [setW, taken]
          rw [flatMap_map_eq (handsL_spoil _), handsA_spoil]
          rw [hq] at h0
          simp only [handsW, List.count_cons, List.count_nil] at *
          omega
    | hand n y =>
      dsimp only
      intro z
      have h0 := h z
      have h1 := count_set handsW z ⟨g, .pop (n - 1)⟩ s.writers i _ hw
      simp only [setW, emit, handsW, List.count_append, List.count_cons, List.count_nil] at *
      omega
    | done => exact h

theorem stepA_kept {s} (h : Kept s) : Kept (stepA s .full) := by
  unfold stepA
  split
  · rename_i ha
    intro z
    have h0 := h z
    simp only [ha, handsA, handsW, List.flatMap_append, List.flatMap_cons, List.flatMap_nil,
      List.append_nil, List.count_nil] at *
    exact h0
  · rename_i ha
    intro z
    have h0 := h z
    simp only [ha, handsA] at *
    exact h0
  · rename_i stale ha
    split
    · exact h
    · split
      · intro z
        have h0 := h z
        simp only [ha, handsA] at *
        exact h0
      · rename_i y ys hq
        intro z
        have h0 := h z
        simp only [taken]
        rw [flatMap_map_eq (handsL_spoil _), flatMap_map_eq (handsW_spoil _)]
        rw [hq] at h0
        simp only [ha, handsA, List.count_cons, List.count_nil] at *
        omega
  · rename_i y ha
    intro z
    have h0 := h z
    simp only [ha, emit, handsA, List.count_append, List.count_cons, List.count_nil] at *
    omega
  · exact h

theorem step_kept {s l} (hl : Full l) (h : Kept s) : Kept (step s l) := by
  cases l with
  | call t x =>
    simp only [step]
    split
    · rename_i ht
      intro z
      have h0 := h z
      have h1 := count_set handsL z (.choose (t, x)) s.loggers t _ ht
      simp only [setL, handsL, List.count_append, List.count_nil] at *
      omega
    · exact h
  | lg t r => cases hl; exact stepL_kept h
  | wr i r => cases hl; exact stepW_kept h
  | ad r => cases hl; exact stepA_kept h
  | goAsynch =>
    simp only [step]
    split
    · rename_i ha
      intro z
      have h0 := h z
      simp only [ha, handsA] at *
      exact h0
    · exact h
  | goSynch =>
    simp only [step]
    split
    · rename_i ha
      intro z
      have h0 := h z
      simp only [ha, handsA] at *
      exact h0
    · exact h
  | reopen =>
    simp only [step]
    split
    · rename_i ha
      split
      · intro z
        have h0 := h z
        simp only [ha, handsA] at *
        exact h0
      · exact h
    · exact h

/-- an invariant of the steps holds after every run -/
theorem run_inv {P : S → Prop} {ok : Label → Prop}
    (hs : ∀ s l, ok l → P s → P (step s l)) :
    ∀ ls s, (∀ l ∈ ls, ok l) → P s → P (run ls s)
  | [], s, _, h => h
  | l :: ls, s, hl, h => by
    simp only [run]
    split
    · exact h
    · exact run_inv hs ls _ (fun l h => hl l (List.mem_cons_of_mem _ h))
        (hs s l (hl l List.mem_cons_self) h)

theorem flatMap_replicate_nil {α} {f : α → List Rec} {a : α} (h : f a = []) :
    ∀ n, (List.replicate n a).flatMap f = []
  | 0 => rfl
  | n + 1 => by simp [List.replicate_succ, h]

theorem init_kept (b n) : Kept (init b n) := by
  intro z
  simp only [init, handsA, List.flatMap_nil, List.count_nil]
  rw [flatMap_replicate_nil (by rfl)]
  simp

/-! ## helper lemmas: asynchronous mode -/

/-- inside the section the mutex `singleton` protects -/
def Crit : WPc → Prop
  | .top | .pop _ | .loaded _ _ | .hand _ _ => True
  | _ => False

/-- a logging thread that found asynchronous mode -/
def Pushes : LPc → Prop
  | .idle | .choose _ | .push _ => True
  | _ => False

/-- the record in the hands of the writer in charge -/
def held (s : S) : List Rec :=
  match s.single with
  | none => []
  | some i => match s.writers[i]? with
    | none => []
    | some w => handsW w

/-- the record a logging thread has not put in the queue yet -/
def pend (s : S) (t : Nat) : List Rec :=
  match s.loggers[t]? with
  | some p => handsL p
  | none => []

/-- the records of one thread -/
def mine (t : Nat) (l : List Rec) : List Rec := l.filter (fun x => x.1 == t)

structure InvA (s : S) : Prop where
  asynch : s.asynch = true
  ub : s.ub = false
  admin : s.admin = .idle ∨ s.admin = .create
  pushes : ∀ (t : Nat) p, s.loggers[t]? = some p → Pushes p
  tag : ∀ (t : Nat) p, s.loggers[t]? = some p → ∀ x ∈ handsL p, x.1 = t
  crit : ∀ (i : Nat) w, s.writers[i]? = some w → (Crit w.pc ↔ s.single = some i)
  single : ∀ i, s.single = some i → ∃ w, s.writers[i]? = some w
  clean : ∀ (i : Nat) w n b, s.writers[i]? = some w → w.pc = .loaded n b → b = false
  order : s.out ++ held s ++ s.q = s.pushed
  per : ∀ t, mine t s.pushed ++ pend s t = mine t s.given

theorem pend_tag {s : S} (h : InvA s) (t : Nat) : mine t (pend s t) = pend s t := by
  unfold pend
  cases hl : s.loggers[t]? with
  | none => rfl
  | some p =>
    simp only [mine]
    rw [List.filter_eq_self]
    intro x hx
    simpa using h.tag t p hl x hx

theorem mine_append (t a b) : mine t (a ++ b) = mine t a ++ mine t b := by
  simp [mine]

theorem mine_single (t : Nat) (x : Rec) : mine t [x] = if x.1 = t then [x] else [] := by
  unfold mine
  by_cases h : x.1 = t <;> simp [h]

theorem set_some {α} {l : List α} {t u : Nat} {a b p : α} (ht : l[t]? = some a)
    (h : (l.set t b)[u]? = some p) : (u = t ∧ p = b) ∨ (u ≠ t ∧ l[u]? = some p) := by
  by_cases hu : u = t
  · subst hu
    left
    refine ⟨rfl, ?_⟩
    have hlt : u < l.length := by
      rcases Nat.lt_or_ge u l.length with h | h
      · exact h
      · rw [List.getElem?_eq_none h] at ht; cases ht
    rw [List.getElem?_set_self hlt] at h
    simpa using h.symm
  · right
    refine ⟨hu, ?_⟩
    rwa [List.getElem?_set_ne (fun h => hu h.symm)] at h

theorem set_get {α} {l : List α} {t : Nat} {a b : α} (ht : l[t]? = some a) :
    (l.set t b)[t]? = some b := by
  have hlt : t < l.length := by
    rcases Nat.lt_or_ge t l.length with h | h
    · exact h
    · rw [List.getElem?_eq_none h] at ht; cases ht
  exact List.getElem?_set_self hlt

theorem callA {s t x} (h : InvA s) : InvA (step s (.call t x)) := by
  simp only [step]
  split
  · rename_i ht
    refine ⟨h.asynch, h.ub, h.admin, ?_, ?_, h.crit, h.single, h.clean, h.order, ?_⟩
    · intro u p hp
      rcases set_some ht hp with ⟨_, rfl⟩ | ⟨_, hp⟩
      · trivial
      · exact h.pushes u p hp
    · intro u p hp
      rcases set_some ht hp with ⟨rfl, rfl⟩ | ⟨_, hp⟩
      · simp [handsL]
      · exact h.tag u p hp
    · intro u
      have h0 := h.per u
      by_cases hu : u = t
      · subst hu
        simp only [pend, ht, handsL, List.append_nil] at h0
        simp only [pend, setL, set_get ht, handsL, mine_append, mine_single, if_true]
        rw [h0]
      · have : pend (setL { s with given := s.given ++ [(t, x)] } t (.choose (t, x))) u = pend s u := by
          simp only [pend, setL, List.getElem?_set_ne (fun h => hu h.symm)]
        rw [this]
        simp only [setL, mine_append, mine_single]
        rw [if_neg (fun h => hu h.symm), List.append_nil]
        exact h0
  · exact h

theorem lgA {s t r} (h : InvA s) : InvA (stepL s t r) := by
  unfold stepL
  split
  · rename_i x ht
    rw [if_pos h.asynch]
    refine ⟨h.asynch, h.ub, h.admin, ?_, ?_, h.crit, h.single, h.clean, h.order, ?_⟩
    · intro u p hp
      rcases set_some ht hp with ⟨_, rfl⟩ | ⟨_, hp⟩
      · trivial
      · exact h.pushes u p hp
    · intro u p hp
      rcases set_some ht hp with ⟨rfl, rfl⟩ | ⟨_, hp⟩
      · intro z hz; exact h.tag _ _ ht z hz
      · exact h.tag u p hp
    · intro u
      have h0 := h.per u
      by_cases hu : u = t
      · subst hu
        simp only [pend, setL, set_get ht, ht, handsL] at h0 ⊢
        exact h0
      · simp only [pend, setL, List.getElem?_set_ne (fun h => hu h.symm)] at h0 ⊢
        exact h0
  · rename_i x ht
    have hxt : x.1 = t := h.tag _ _ ht x (by simp [handsL])
    refine ⟨h.asynch, h.ub, h.admin, ?_, ?_, h.crit, h.single, h.clean, ?_, ?_⟩
    · intro u p hp
      rcases set_some ht hp with ⟨_, rfl⟩ | ⟨_, hp⟩
      · trivial
      · exact h.pushes u p hp
    · intro u p hp
      rcases set_some ht hp with ⟨rfl, rfl⟩ | ⟨_, hp⟩
      · simp [handsL]
      · exact h.tag u p hp
    · have h0 := h.order
      simp only [setL]
      rw [← h0]
      simp [held, List.append_assoc]
    · intro u
      have h0 := h.per u
      by_cases hu : u = t
      · subst hu
        simp only [pend, setL, set_get ht, ht, handsL, mine_append, mine_single, hxt, if_true,
          List.append_nil] at h0 ⊢
        exact h0
      · simp only [pend, setL, List.getElem?_set_ne (fun h => hu h.symm), mine_append,
          mine_single] at h0 ⊢
        rw [if_neg (by rw [hxt]; exact fun h => hu h.symm), List.append_nil]
        exact h0
  · rename_i x ht; exact absurd (h.pushes _ _ ht) (by simp [Pushes])
  · rename_i x b ht; exact absurd (h.pushes _ _ ht) (by simp [Pushes])
  · rename_i x y ht; exact absurd (h.pushes _ _ ht) (by simp [Pushes])
  · rename_i x ht; exact absurd (h.pushes _ _ ht) (by simp [Pushes])
  · exact h

/-- only the writer `i` changes, its part of the section stays with it, and what
the file, its hands and the queue hold together stays the same -/
theorem wrA_set {s : S} (h : InvA s) {i : Nat} {w w' : W} (hw : s.writers[i]? = some w)
    {s' : S} (e1 : s'.asynch = s.asynch) (e2 : s'.ub = s.ub) (e3 : s'.admin = s.admin)
    (e4 : s'.loggers = s.loggers) (e5 : s'.writers = s.writers)
    (e7 : s'.pushed = s.pushed) (e8 : s'.given = s.given)
    (hc : Crit w'.pc ↔ s'.single = some i)
    (hs : ∀ j, j ≠ i → (s'.single = some j ↔ s.single = some j))
    (hcl : ∀ n b, w'.pc = .loaded n b → b = false)
    (ho : s'.out ++ held (setW s' i w') ++ s'.q = s.pushed) : InvA (setW s' i w') := by
  refine ⟨by rw [← h.asynch, ← e1]; rfl, by rw [← h.ub, ← e2]; rfl, ?_, ?_, ?_, ?_, ?_, ?_, ?_, ?_⟩
  · simp only [setW, e3]; exact h.admin
  · simp only [setW, e4]; exact h.pushes
  · simp only [setW, e4]; exact h.tag
  · intro j v hv
    simp only [setW, e5] at hv ⊢
    rcases set_some hw hv with ⟨rfl, rfl⟩ | ⟨hj, hv⟩
    · exact hc
    · rw [h.crit j v hv, hs j hj]
  · intro j hj
    simp only [setW, e5] at hj ⊢
    by_cases hji : j = i
    · subst hji; exact ⟨w', set_get hw⟩
    · obtain ⟨v, hv⟩ := h.single j ((hs j hji).1 hj)
      exact ⟨v, by rw [List.getElem?_set_ne (fun h => hji h.symm)]; exact hv⟩
  · intro j v n b hv hp
    simp only [setW, e5] at hv
    rcases set_some hw hv with ⟨_, rfl⟩ | ⟨_, hv⟩
    · exact hcl n b hp
    · exact h.clean j v n b hv hp
  · simp only [setW] at ho ⊢
    rw [e7]; exact ho
  · intro t
    have := h.per t
    simp only [setW, pend, e4, e7, e8]
    exact this

theorem held_none {s : S} (h : s.single = none) : held s = [] := by simp [held, h]

theorem held_some {s : S} {i w} (h : s.single = some i) (hw : s.writers[i]? = some w) :
    held s = handsW w := by simp [held, h, hw]

theorem wrA {s i} (h : InvA s) : InvA (stepW s i .full) := by
  unfold stepW
  split
  · exact h
  · rename_i w hw
    have hcr := h.crit i w hw
    obtain ⟨g, pc⟩ := w
    cases pc with
    | fresh =>
      simp only [Crit, false_iff] at hcr
      refine wrA_set h hw rfl rfl rfl rfl rfl rfl rfl ?_ ?_ ?_ ?_
      · simpa [Crit] using hcr
      · intro j _; exact Iff.rfl
      · intro n b hh; cases hh
      · rw [← h.order]
        congr 2
        cases hs : s.single with
        | none => rw [held_none (by simpa [setW] using hs), held_none hs]
        | some k =>
          have hki : k ≠ i := fun hk => hcr (by rw [← hk]; exact hs)
          obtain ⟨v, hv⟩ := h.single k hs
          rw [held_some (w := v) hs hv]
          apply held_some (i := k) (by simpa [setW] using hs)
          simp only [setW]
          rw [List.getElem?_set_ne (fun h => hki h.symm)]
          exact hv
    | waiting =>
      dsimp only
      split
      · rename_i hn
        refine wrA_set h hw rfl rfl rfl rfl rfl rfl rfl ?_ ?_ ?_ ?_
        · simp [Crit]
        · intro j hj
          simp only [hn, reduceCtorEq, iff_false, Option.some.injEq]
          exact fun h => hj h.symm
        · intro n b hh; cases hh
        · rw [← h.order]
          rw [held_none hn, held_some (i := i) (by simp [setW]) (by simp only [setW]; exact set_get hw)]
          rfl
      · exact h
    | top =>
      simp only [Crit, true_iff] at hcr
      dsimp only
      split
      · refine wrA_set h hw rfl rfl rfl rfl rfl rfl rfl ?_ ?_ ?_ ?_
        · simpa [Crit] using hcr
        · intro j _; exact Iff.rfl
        · intro n b hh; cases hh
        · rw [← h.order, held_some hcr hw,
            held_some (i := i) (by simpa [setW] using hcr) (by simp only [setW]; exact set_get hw)]
          rfl
      · refine wrA_set h hw rfl rfl rfl rfl rfl rfl rfl ?_ ?_ ?_ ?_
        · simp [Crit]
        · intro j hj
          simp only [hcr, reduceCtorEq, false_iff, Option.some.injEq]
          exact fun h => hj h.symm
        · intro n b hh; cases hh
        · rw [← h.order, held_some hcr hw, held_none (by simp [setW])]
          rfl
    | pop n =>
      simp only [Crit, true_iff] at hcr
      dsimp only
      split
      · refine wrA_set h hw rfl rfl rfl rfl rfl rfl rfl ?_ ?_ ?_ ?_
        · simpa [Crit] using hcr
        · intro j _; exact Iff.rfl
        · intro n b hh; cases hh
        · rw [← h.order, held_some hcr hw,
            held_some (i := i) (by simpa [setW] using hcr) (by simp only [setW]; exact set_get hw)]
          rfl
      · refine wrA_set h hw rfl rfl rfl rfl rfl rfl rfl ?_ ?_ ?_ ?_
        · simpa [Crit] using hcr
        · intro j _; exact Iff.rfl
        · intro n b hh; cases hh; rfl
        · rw [← h.order, held_some hcr hw,
            held_some (i := i) (by simpa [setW] using hcr) (by simp only [setW]; exact set_get hw)]
          rfl
    | loaded n b =>
      simp only [Crit, true_iff] at hcr
      have hb : b = false := h.clean i _ n b hw rfl
      subst hb
      dsimp only
      rw [if_neg (by simp)]
      split
      · rename_i hq
        refine wrA_set h hw rfl rfl rfl rfl rfl rfl rfl ?_ ?_ ?_ ?_
        · simp [Crit]
        · intro j hj
          simp only [hcr, reduceCtorEq, false_iff, Option.some.injEq]
          exact fun h => hj h.symm
        · intro n b hh; cases hh
        · rw [← h.order, held_some hcr hw, held_none (by simp [setW])]
          rfl
      · rename_i y ys hq
        -- nobody else is inside the queue
        have hL : s.loggers.map (spoilL (decide (1 ≤ s.served))) = s.loggers := by
          conv => rhs; rw [← List.map_id s.loggers]
          apply List.map_congr_left
          intro p hp
          obtain ⟨t, hp⟩ := List.mem_iff_getElem?.1 hp
          have := h.pushes t p hp
          cases p <;> simp_all [Pushes, spoilL]
        have hA : spoilA (decide (1 ≤ s.served)) s.admin = s.admin := by
          rcases h.admin with ha | ha <;> rw [ha] <;> rfl
        have hW : (s.writers.map (spoilW (decide (1 ≤ s.served)))).set i ⟨g, .hand n y⟩
            = s.writers.set i ⟨g, .hand n y⟩ := by
          apply List.ext_getElem?
          intro j
          by_cases hj : j = i
          · subst hj
            rw [set_get hw]
            exact set_get (a := spoilW (decide (1 ≤ s.served)) ⟨g, .loaded n false⟩)
              (by rw [List.getElem?_map, hw]; rfl)
          · rw [List.getElem?_set_ne (fun h => hj h.symm), List.getElem?_set_ne (fun h => hj h.symm),
              List.getElem?_map]
            cases hv : s.writers[j]? with
            | none => rfl
            | some v =>
              have hnc : ¬ Crit v.pc := by
                rw [h.crit j v hv, hcr]
                simpa using fun h => hj h.symm
              obtain ⟨gv, pv⟩ := v
              cases pv <;> simp_all [Crit, spoilW]
        have heq : setW (taken s ys) i ⟨g, .hand n y⟩
            = setW { s with q := ys, served := s.served + 1 } i ⟨g, .hand n y⟩ := by
          simp only [setW, taken, hL, hA, hW]
        rw [heq]
        refine wrA_set h hw rfl rfl rfl rfl rfl rfl rfl ?_ ?_ ?_ ?_
        · simpa [Crit] using hcr
        · intro j _; exact Iff.rfl
        · intro n b hh; cases hh
        · rw [← h.order, held_some hcr hw,
            held_some (i := i) (by simpa [setW] using hcr) (by simp only [setW]; exact set_get hw), hq]
          simp [handsW]
    | hand n y =>
      simp only [Crit, true_iff] at hcr
      dsimp only
      refine wrA_set h hw rfl rfl rfl rfl rfl rfl rfl ?_ ?_ ?_ ?_
      · simpa [Crit, emit] using hcr
      · intro j _; exact Iff.rfl
      · intro n b hh; cases hh
      · rw [← h.order, held_some hcr hw,
          held_some (i := i) (by simpa [setW, emit] using hcr)
            (by simp only [setW, emit]; exact set_get hw)]
        simp [handsW, emit]
    | done => exact h

theorem adA {s r} (h : InvA s) : InvA (stepA s r) := by
  unfold stepA
  rcases h.admin with ha | ha
  · simp only [ha]; exact h
  · simp only [ha]
    refine ⟨h.asynch, h.ub, .inl rfl, h.pushes, h.tag, ?_, ?_, ?_, ?_, h.per⟩
    · intro i w hw
      simp only at hw ⊢
      rw [List.getElem?_append] at hw
      split at hw
      · exact h.crit i w hw
      · rename_i hlt
        have : w = ⟨0, .fresh⟩ := by
          rcases hi : i - s.writers.length with _ | k
          · rw [hi] at hw; simpa using hw.symm
          · rw [hi] at hw; simp at hw
        subst this
        simp only [Crit, false_iff]
        intro hs
        obtain ⟨v, hv⟩ := h.single i hs
        rw [List.getElem?_eq_none (by omega)] at hv
        cases hv
    · intro i hi
      obtain ⟨v, hv⟩ := h.single i hi
      refine ⟨v, ?_⟩
      simp only
      have hlt : i < s.writers.length := by
        rcases Nat.lt_or_ge i s.writers.length with h | h
        · exact h
        · rw [List.getElem?_eq_none h] at hv; cases hv
      rw [List.getElem?_append_left hlt]; exact hv
    · intro i w n b hw hp
      simp only at hw
      rw [List.getElem?_append] at hw
      split at hw
      · exact h.clean i w n b hw hp
      · have : w = ⟨0, .fresh⟩ := by
          rcases hi : i - s.writers.length with _ | k
          · rw [hi] at hw; simpa using hw.symm
          · rw [hi] at hw; simp at hw
        subst this
        cases hp
    · rw [← h.order]
      simp only [held]
      congr 2
      cases hs : s.single with
      | none => rfl
      | some i =>
        obtain ⟨v, hv⟩ := h.single i hs
        have hlt : i < s.writers.length := by
          rcases Nat.lt_or_ge i s.writers.length with h | h
          · exact h
          · rw [List.getElem?_eq_none h] at hv; cases hv
        simp only
        rw [List.getElem?_append_left hlt]

/-- complete writes, and no call that goes back to synchronous mode -/
def StaysA (l : Label) : Prop := Full l ∧ l ≠ .goSynch

theorem stepA_inv (s : S) (l : Label) (hl : StaysA l) (h : InvA s) : InvA (step s l) := by
  obtain ⟨hf, hn⟩ := hl
  cases l with
  | call t x => exact callA h
  | lg t r => exact lgA h
  | wr i r => cases hf; exact wrA h
  | ad r => exact adA h
  | goAsynch =>
    simp only [step]
    split
    · exact ⟨rfl, h.ub, .inr rfl, h.pushes, h.tag, h.crit, h.single, h.clean, h.order, h.per⟩
    · exact h
  | goSynch => exact absurd rfl hn
  | reopen =>
    simp only [step]
    split
    · split
      · exact ⟨h.asynch, h.ub, .inr rfl, h.pushes, h.tag, h.crit, h.single, h.clean, h.order, h.per⟩
      · exact h
    · exact h

theorem replicate_get {α} {n : Nat} {a p : α} {t : Nat} (h : (List.replicate n a)[t]? = some p) :
    p = a := by
  rw [List.getElem?_replicate] at h
  split at h
  · simpa using h.symm
  · cases h

theorem init_A (n) : InvA (init true n) := by
  refine ⟨rfl, rfl, .inl rfl, ?_, ?_, ?_, ?_, ?_, ?_, ?_⟩
  · intro t p hp
    rw [replicate_get hp]; trivial
  · intro t p hp
    rw [replicate_get hp]; simp [handsL]
  · intro i w hw; simp [init] at hw
  · intro i hi; simp [init] at hi
  · intro i w n b hw; simp [init] at hw
  · simp [init, held]
  · intro t
    simp only [init, pend, mine]
    cases hp : (List.replicate n LPc.idle)[t]? with
    | none => rfl
    | some p => rw [replicate_get hp]; rfl

/-! ## helper lemmas: synchronous mode -/

/-- a logging thread in synchronous mode with an empty queue -/
def Writes : LPc → Prop
  | .idle | .choose _ | .drain _ | .final _ => True
  | .loaded _ b => b = false
  | _ => False

structure InvS (s : S) : Prop where
  asynch : s.asynch = false
  ub : s.ub = false
  q : s.q = []
  writers : s.writers = []
  admin : s.admin = .idle ∨ s.admin = .drain ∨ s.admin = .loaded false
  writes : ∀ (t : Nat) p, s.loggers[t]? = some p → Writes p
  tag : ∀ (t : Nat) p, s.loggers[t]? = some p → ∀ x ∈ handsL p, x.1 = t
  per : ∀ t, mine t s.out ++ pend s t = mine t s.given

/-- complete writes, and no call that goes to asynchronous mode -/
def StaysS (l : Label) : Prop := Full l ∧ l ≠ .goAsynch

theorem lgS_set {s : S} (h : InvS s) {t p p'} (ht : s.loggers[t]? = some p) (hw : Writes p')
    (he : handsL p' = handsL p) : InvS (setL s t p') := by
  refine ⟨h.asynch, h.ub, h.q, h.writers, h.admin, ?_, ?_, ?_⟩
  · intro u v hv
    rcases set_some ht hv with ⟨_, rfl⟩ | ⟨_, hv⟩
    · exact hw
    · exact h.writes u v hv
  · intro u v hv
    rcases set_some ht hv with ⟨rfl, rfl⟩ | ⟨_, hv⟩
    · rw [he]; exact h.tag _ _ ht
    · exact h.tag u v hv
  · intro u
    have h0 := h.per u
    by_cases hu : u = t
    · subst hu
      simp only [pend, setL, set_get ht, ht, he] at h0 ⊢
      exact h0
    · simp only [pend, setL, List.getElem?_set_ne (fun h => hu h.symm)] at h0 ⊢
      exact h0

theorem stepS_inv (s : S) (l : Label) (hl : StaysS l) (h : InvS s) : InvS (step s l) := by
  obtain ⟨hf, hn⟩ := hl
  cases l with
  | call t x =>
    simp only [step]
    split
    · rename_i ht
      refine ⟨h.asynch, h.ub, h.q, h.writers, h.admin, ?_, ?_, ?_⟩
      · intro u p hp
        rcases set_some ht hp with ⟨_, rfl⟩ | ⟨_, hp⟩
        · trivial
        · exact h.writes u p hp
      · intro u p hp
        rcases set_some ht hp with ⟨rfl, rfl⟩ | ⟨_, hp⟩
        · simp [handsL]
        · exact h.tag u p hp
      · intro u
        have h0 := h.per u
        by_cases hu : u = t
        · subst hu
          simp only [pend, ht, handsL, List.append_nil] at h0
          simp only [pend, setL, set_get ht, handsL, mine_append, mine_single, if_true]
          rw [h0]
        · simp only [pend, setL, List.getElem?_set_ne (fun h => hu h.symm), mine_append,
            mine_single] at h0 ⊢
          rw [if_neg (fun h => hu h.symm), List.append_nil]
          exact h0
    · exact h
  | lg t r =>
    cases hf
    simp only [step, stepL]
    split
    · rename_i x ht
      rw [if_neg (by rw [h.asynch]; simp)]
      exact lgS_set h ht trivial rfl
    · rename_i x ht; exact absurd (h.writes _ _ ht) (by simp [Writes])
    · rename_i x ht; exact lgS_set h ht rfl rfl
    · rename_i x b ht
      have hb : b = false := h.writes _ _ ht
      subst hb
      rw [if_neg (by simp)]
      simp only [h.q]
      exact lgS_set h ht trivial rfl
    · rename_i x y ht; exact absurd (h.writes _ _ ht) (by simp [Writes])
    · rename_i x ht
      have hxt : x.1 = t := h.tag _ _ ht x (by simp [handsL])
      refine ⟨h.asynch, h.ub, h.q, h.writers, h.admin, ?_, ?_, ?_⟩
      · intro u p hp
        rcases set_some ht hp with ⟨_, rfl⟩ | ⟨_, hp⟩
        · trivial
        · exact h.writes u p hp
      · intro u p hp
        rcases set_some ht hp with ⟨rfl, rfl⟩ | ⟨_, hp⟩
        · simp [handsL]
        · exact h.tag u p hp
      · intro u
        have h0 := h.per u
        by_cases hu : u = t
        · subst hu
          simp only [pend, setL, set_get ht, ht, handsL, mine_append, mine_single, hxt, if_true,
            List.append_nil] at h0 ⊢
          exact h0
        · simp only [pend, setL, List.getElem?_set_ne (fun h => hu h.symm), mine_append,
            mine_single] at h0 ⊢
          rw [if_neg (by rw [hxt]; exact fun h => hu h.symm), List.append_nil]
          exact h0
    · exact h
  | wr i r =>
    simp only [step, stepW, h.writers]
    exact h
  | ad r =>
    simp only [step, stepA]
    rcases h.admin with ha | ha | ha
    · simp only [ha]; exact h
    · simp only [ha]
      exact ⟨h.asynch, h.ub, h.q, h.writers, .inr (.inr rfl), h.writes, h.tag, h.per⟩
    · simp only [ha, Bool.false_eq_true, if_false]
      split
      · exact ⟨h.asynch, h.ub, h.q, h.writers, .inl rfl, h.writes, h.tag, h.per⟩
      · rename_i hq; rw [h.q] at hq; cases hq
  | goAsynch => exact absurd rfl hn
  | goSynch =>
    simp only [step]
    split
    · exact ⟨rfl, h.ub, h.q, h.writers, .inr (.inl rfl), h.writes, h.tag, h.per⟩
    · exact h
  | reopen =>
    simp only [step, h.asynch]
    split
    · exact h
    · exact h

theorem init_S (n) : InvS (init false n) := by
  refine ⟨rfl, rfl, rfl, rfl, .inl rfl, ?_, ?_, ?_⟩
  · intro t p hp
    rw [replicate_get hp]; trivial
  · intro t p hp
    rw [replicate_get hp]; simp [handsL]
  · intro t
    simp only [init, pend, mine]
    cases hp : (List.replicate n LPc.idle)[t]? with
    | none => rfl
    | some p => rw [replicate_get hp]; rfl

end Mtev.LogAsync
