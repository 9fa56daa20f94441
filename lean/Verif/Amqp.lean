import Verif.Mem
import Verif.Basic
import Mathlib.Data.List.Nodup
import Mathlib.Data.List.Basic

/-!
The AMQP module (src/modules/mtev_amqp.c): messages sent through it, the
queues between the senders and the threads of the connections, and the names
its log streams send to.  The fq module (src/modules/mtev_fq.c) as far as its
sends, its polls and its log streams.
-/

namespace Mtev.Amqp

abbrev Str := List Nat

/-- An envelope as far as a send cares: who sends it (ghost, for the
    specification) and what.
    /repo/src/modules/mtev_amqp.c 540-554 (`mtev_amqp_send_data_function`);
    the properties copied one by one in 474-507 (`copy_envelope`) are the one
    `msg`. -/
structure Env where
  by_ : Nat
  msg : Nat
deriving DecidableEq, Repr

/-- What a connection's thread hands to the broker.
    /repo/src/modules/mtev_amqp.c 233-235 (the arguments of
    `amqp_basic_publish`) -/
structure Pub where
  by_ : Nat
  msg : Nat
  mandatory : Bool
  immediate : Bool
deriving DecidableEq, Repr

/-- Where the thread of a connection is in its draining of the queue.
    /repo/src/modules/mtev_amqp.c 218-255 (`drain_outbound_queue`): `idle`
    before 225, `peeked` after 228 with the entry it saw, `sent` after 239. -/
inductive Pc where
  | idle
  | peeked (p : Nat)
  | sent (p : Nat)
deriving DecidableEq, Repr

/-- The module's memory.  `heap` is the envelopes allocated and not yet
    destroyed, `next` the next address, `pend t` the entries the thread `t`
    has still to enqueue in the call it is in (connection, pointer), `outq c`
    the queue of the connection `c`, `pubd c` what its thread has published
    with success (ghost).
    /repo/src/modules/mtev_amqp.c 105-127 (`struct amqp_module_config`), 509-539.
    Simplified: addresses come from a counter and are not used again; a
    `ck_fifo_spsc` under its locks is a list. -/
structure St where
  n : Nat
  heap : Nat → Option Env
  next : Nat
  pend : Nat → List (Nat × Nat)
  outq : Nat → List Nat
  pc : Nat → Pc
  pubd : Nat → List Pub

/-- `MAX_CONNS`.  /repo/src/modules/mtev_amqp.c 101 -/
def maxConns : Nat := 128

/-- Just initialised with `n` connections.
    /repo/src/modules/mtev_amqp.c 426-470 (`init_conns`) -/
def St.init (n : Nat) : St :=
  { n := n, heap := fun _ => none, next := 0, pend := fun _ => [], outq := fun _ => [],
    pc := fun _ => .idle, pubd := fun _ => [] }

/-- A function changed at one point.  Helper. -/
def upd {α : Type} (f : Nat → α) (i : Nat) (a : α) : Nat → α := fun j => if j = i then a else f j

/-- The address of the `k`th allocation: nonzero and aligned as `calloc` aligns.
    /repo/src/modules/mtev_amqp.c 475, 543 -/
def addr (k : Nat) : Nat := 16 * (k + 1)

/-- The flags put into the low bits of the pointer.
    /repo/src/modules/mtev_amqp.c 99-100, 511-513 -/
def mask (m i : Bool) : Nat := (if m then 1 else 0) ||| (if i then 2 else 0)

/-- A pointer with its flags.  /repo/src/modules/mtev_amqp.c 517, 520, 524 -/
def tag (p : Nat) (m i : Bool) : Nat := p ||| mask m i

/-- The pointer without them: `& ~(sizeof(uintptr_t)-1)`.
    /repo/src/modules/mtev_amqp.c 232, 244 -/
def untag (t : Nat) : Nat := t / 8 * 8

/-- The `k` further copies of a broadcast, for the connections from `c` on.
    /repo/src/modules/mtev_amqp.c 518-521 -/
def copies (e : Env) (m i : Bool) : Nat → Nat → (Nat → Option Env) → Nat → List (Nat × Nat) × (Nat → Option Env) × Nat
  | 0, _, h, nx => ([], h, nx)
  | k + 1, c, h, nx =>
      let r := copies e m i k (c + 1) (upd h (addr nx) (some e)) (nx + 1)
      ((c, tag (addr nx) m i) :: r.1, r.2)

/-- `mtev_amqp_send_data` up to the enqueueing: the envelope, its copies, and
    what has to be enqueued where.  `dst = none` is a negative id.
    /repo/src/modules/mtev_amqp.c 509-526, 540-554.  An index past the array of
    copies is `ub` (519, 525); an id with no connection leaves the envelope
    neither queued nor freed (528-531). -/
def send (s : St) (t : Nat) (msg : Nat) (m i : Bool) (dst : Option Nat) : Out St :=
  let e : Env := ⟨t, msg⟩
  let h := upd s.heap (addr s.next) (some e)
  match dst with
  | none =>
      if s.n > maxConns then .ub else
      let r := copies e m i (s.n - 1) 1 h (s.next + 1)
      .ok { s with heap := r.2.1, next := r.2.2,
                   pend := upd s.pend t (s.pend t ++ (if s.n = 0 then [] else [(0, tag (addr s.next) m i)] ++ r.1)) }
  | some d =>
      if d ≥ maxConns then .ub else
      .ok { s with heap := h, next := s.next + 1,
                   pend := upd s.pend t (s.pend t ++ (if d < s.n then [(d, tag (addr s.next) m i)] else [])) }

/-- The thread enqueues the next of them.
    /repo/src/modules/mtev_amqp.c 532-536 -/
def enq (s : St) (t : Nat) : St :=
  match s.pend t with
  | [] => s
  | (c, p) :: ps => { s with pend := upd s.pend t ps, outq := upd s.outq c (s.outq c ++ [p]) }

/-- The connection's thread looks at the first entry.
    /repo/src/modules/mtev_amqp.c 225-229, 250-252 -/
def peek (s : St) (c : Nat) : St :=
  match s.pc c, s.outq c with
  | .idle, p :: _ => { s with pc := upd s.pc c (.peeked p) }
  | _, _ => s

/-- It publishes what it looked at, and the library says whether that went
    well; if not the thread leaves and starts over on a new connection.
    /repo/src/modules/mtev_amqp.c 230-239, 276, 335-412.  Publishing an
    envelope that is not there is `ub`. -/
def publish (s : St) (c : Nat) (good : Bool) : Out St :=
  match s.pc c with
  | .peeked p => match s.heap (untag p) with
    | none => .ub
    | some e =>
        if good then
          .ok { s with pc := upd s.pc c (.sent p),
                       pubd := upd s.pubd c (s.pubd c ++ [⟨e.by_, e.msg, p % 2 != 0, p / 2 % 2 != 0⟩]) }
        else .ok { s with pc := upd s.pc c .idle }
  | _ => .ok s

/-- It takes it off the queue and destroys it.
    /repo/src/modules/mtev_amqp.c 240-248: another entry than the one published
    is the failed assertion; destroying twice is `ub`. -/
def deq (s : St) (c : Nat) : Out St :=
  match s.pc c with
  | .sent p => match s.outq c with
    | [] => .ok { s with pc := upd s.pc c .idle }
    | q :: qs =>
        if untag q = untag p then match s.heap (untag p) with
          | none => .ub
          | some _ => .ok { s with outq := upd s.outq c qs, pc := upd s.pc c .idle,
                                   heap := upd s.heap (untag p) none }
        else .abort
  | _ => .ok s

/-- The steps of the threads. -/
inductive Op where
  | send (t : Nat) (msg : Nat) (m i : Bool) (dst : Option Nat)
  | enq (t : Nat)
  | peek (c : Nat)
  | publish (c : Nat) (good : Bool)
  | deq (c : Nat)

/-- One step.  /repo/src/modules/mtev_amqp.c 218-255, 509-539 -/
def act (s : St) : Op → Out St
  | .send t msg m i d => send s t msg m i d
  | .enq t => .ok (enq s t)
  | .peek c => .ok (peek s c)
  | .publish c g => publish s c g
  | .deq c => deq s c

/-- The threads, interleaved as they may be. -/
def run : St → List Op → Out St
  | s, [] => .ok s
  | s, x :: xs => match act s x with
    | .ok s' => run s' xs
    | .ub => .ub
    | .abort => .abort

/-! ### Log streams -/

/-- The exchange and the route of a log stream of type `amqp` or `fq`: buffers
    of 127 bytes.
    /repo/src/modules/mtev_amqp.c 562-580 (`amqp_logio_write`),
    /repo/src/modules/mtev_fq.c 309-327 (`fq_logio_write`) -/
def logName (path name : Str) : Str × Str :=
  let ex := path.takeWhile (· != 47)
  if ex.length = path.length then
    (path.take (127 - 1), (bytesOf "mtev.log." ++ name).take (127 - 1))
  else
    let prefix_ := ex.length + 1
    (path.take (min 127 prefix_ - 1), (path.drop prefix_ ++ [46] ++ name).take (127 - 1))

/-! ### fq -/

/-- A connection of the fq module: what has arrived and was not yet polled,
    and its counters.  /repo/src/modules/mtev_fq.c 58-82 -/
structure Fq where
  inq : List Nat
  publications : Nat
  drops : Nat
  receptions : Nat
deriving DecidableEq, Repr

/-- `mtev_fq_send`: the connections it publishes to, with the client library's
    answer on each as `ok c`.
    /repo/src/modules/mtev_fq.c 273-291 (`mtev_fq_send_function`).  `none` is a
    negative id. -/
def fqTargets (n : Nat) : Option Nat → List Nat
  | none => List.range n
  | some d => if d ≥ n then [] else [d]

/-- The counters after a publish to one connection.
    /repo/src/modules/mtev_fq.c 285-289 -/
def fqPub1 (f : Fq) (good : Bool) : Fq :=
  if good then { f with publications := f.publications + 1 } else { f with drops := f.drops + 1 }

/-- The whole send.  /repo/src/modules/mtev_fq.c 273-291 -/
def fqSend (fs : List Fq) (dst : Option Nat) (good : Nat → Bool) : List Fq :=
  (fqTargets fs.length dst).foldl (fun gs c => gs.modify c (fqPub1 · (good c))) fs

/-- The polling of one connection: the messages handed to the hook, and what
    stays.  /repo/src/modules/mtev_fq.c 153-161: `limit = 0` is no limit. -/
def fqPoll1 (limit : Nat) : Nat → List Nat → List Nat × List Nat
  | _, [] => ([], [])
  | cnt, m :: ms =>
      if limit = 0 ∨ cnt < limit then
        let r := fqPoll1 limit (cnt + 1) ms
        (m :: r.1, r.2)
      else ([], m :: ms)

/-- A poll: the calls of the hook (connection, message) in their order, the
    connections after it.
    /repo/src/modules/mtev_fq.c 142-166 (`poll_fq`) -/
def fqPoll (limit : Nat) : Nat → List Fq → List (Nat × Nat) × List Fq
  | _, [] => ([], [])
  | c, f :: fs =>
      let r := fqPoll1 limit 0 f.inq
      let q := fqPoll limit (c + 1) fs
      (r.1.map (fun m => (c, m)) ++ q.1,
       { f with inq := r.2, receptions := f.receptions + r.1.length } :: q.2)

/-! ### Lemmas -/

theorem tag_eq (k : Nat) (m i : Bool) :
    tag (addr k) m i = 16 * (k + 1) + ((if m then 1 else 0) + (if i then 2 else 0)) := by
  unfold tag addr
  have hm : mask m i = (if m then 1 else 0) + (if i then 2 else 0) := by
    cases m <;> cases i <;> rfl
  rw [hm]
  have := Nat.two_pow_add_eq_or_of_lt (i := 4) (b := (if m then 1 else 0) + (if i then 2 else 0))
    (by cases m <;> cases i <;> decide) (k + 1)
  exact this.symm

theorem untag_tag (k : Nat) (m i : Bool) : untag (tag (addr k) m i) = addr k := by
  rw [tag_eq]; unfold untag addr
  cases m <;> cases i <;> simp <;> omega

theorem tag_mand (k : Nat) (m i : Bool) : (tag (addr k) m i % 2 != 0) = m := by
  rw [tag_eq]
  cases m <;> cases i <;> simp <;> omega

theorem tag_imm (k : Nat) (m i : Bool) : (tag (addr k) m i / 2 % 2 != 0) = i := by
  rw [tag_eq]
  cases m <;> cases i <;> simp <;> omega

theorem upd_self {α : Type} (f : Nat → α) (i : Nat) (a : α) : upd f i a i = a := by simp [upd]

theorem upd_ne {α : Type} (f : Nat → α) {i j : Nat} (a : α) (h : j ≠ i) : upd f i a j = f j := by simp [upd, h]

theorem addr_inj {a b : Nat} (h : addr a = addr b) : a = b := by unfold addr at h; omega

/-- The entries of a send: one per connection from `d` on. -/
def entries (d q nx : Nat) (m i : Bool) : List (Nat × Nat) :=
  (List.range q).map fun j => (d + j, tag (addr (nx + j)) m i)

/-- The heap after `k` allocations. -/
def heaped (h : Nat → Option Env) (nx k : Nat) (e : Env) : Nat → Option Env :=
  fun a => if ∃ j < k, a = addr (nx + j) then some e else h a

theorem entries_succ (d q nx : Nat) (m i : Bool) :
    entries d (q + 1) nx m i = (d, tag (addr nx) m i) :: entries (d + 1) q (nx + 1) m i := by
  unfold entries
  rw [List.range_succ_eq_map, List.map_cons, List.map_map]
  congr 1
  apply List.map_congr_left
  intro j _
  simp only [Function.comp]
  congr 1
  · omega
  · congr 2; omega

theorem heaped_succ (h : Nat → Option Env) (nx k : Nat) (e : Env) :
    heaped (upd h (addr nx) (some e)) (nx + 1) k e = heaped h nx (k + 1) e := by
  funext a
  unfold heaped upd
  by_cases h1 : ∃ j < k, a = addr (nx + 1 + j)
  · obtain ⟨j, hj, rfl⟩ := h1
    rw [if_pos ⟨j, hj, rfl⟩, if_pos ⟨j + 1, by omega, by congr 1; omega⟩]
  · rw [if_neg h1]
    by_cases h2 : a = addr nx
    · rw [if_pos h2, if_pos ⟨0, by omega, by simpa using h2⟩]
    · rw [if_neg h2, if_neg]
      rintro ⟨j, hj, hja⟩
      cases j with
      | zero => exact h2 (by simpa using hja)
      | succ j => exact h1 ⟨j, by omega, by rw [hja]; congr 1; omega⟩

theorem copies_eq (e : Env) (m i : Bool) (k c : Nat) (h : Nat → Option Env) (nx : Nat) :
    copies e m i k c h nx = (entries c k nx m i, heaped h nx k e, nx + k) := by
  induction k generalizing c h nx with
  | zero =>
    unfold copies entries heaped
    simp
  | succ k ih =>
    unfold copies
    simp only [ih, entries_succ, heaped_succ]
    congr 2; omega

/-- What a send to connections that are there does: `k` envelopes and an entry
    for each. -/
theorem send_ok (s : St) (t msg : Nat) (m i : Bool) (dst : Option Nat) (hn : 0 < s.n) (hn' : s.n ≤ maxConns)
    (hd : ∀ d, dst = some d → d < s.n) :
    send s t msg m i dst = .ok { s with
      heap := heaped s.heap s.next (if dst = none then s.n else 1) ⟨t, msg⟩,
      next := s.next + (if dst = none then s.n else 1),
      pend := upd s.pend t (s.pend t ++ entries (dst.getD 0) (if dst = none then s.n else 1) s.next m i) } := by
  cases dst with
  | none =>
    unfold send
    simp only [if_neg (show ¬ s.n > maxConns by omega), copies_eq, heaped_succ, if_neg (show ¬ s.n = 0 by omega), if_true,
      Option.getD_none]
    have h1 : s.n - 1 + 1 = s.n := by omega
    have h2 : s.next + 1 + (s.n - 1) = s.next + s.n := by omega
    have h3 : [(0, tag (addr s.next) m i)] ++ entries 1 (s.n - 1) (s.next + 1) m i = entries 0 s.n s.next m i := by
      rw [← h1, entries_succ]; simp
    rw [h1, h2, h3]
  | some d =>
    have hd' := hd d rfl
    unfold send
    simp only [if_neg (show ¬ d ≥ maxConns by omega), if_pos hd', Option.getD_some, reduceCtorEq, if_false]
    have h1 : entries d 1 s.next m i = [(d, tag (addr s.next) m i)] := by
      rw [entries_succ]; rfl
    have h2 : heaped s.heap s.next 1 ⟨t, msg⟩ = upd s.heap (addr s.next) (some ⟨t, msg⟩) := by
      rw [← heaped_succ]; funext a; simp [heaped]
    rw [h1, h2]

/-! ### The invariant -/

/-- The envelopes a thread has still to enqueue, or a queue holds. -/
def own (s : St) : Nat ⊕ Nat → List Nat
  | .inl t => (s.pend t).map fun x => untag x.2
  | .inr c => (s.outq c).map untag

/-- The part of a queue that is not published yet. -/
def unpub (s : St) (c : Nat) : List Nat :=
  match s.pc c with
  | .sent _ => (s.outq c).tail
  | _ => s.outq c

/-- The publication an entry stands for. -/
def pubOf (V : Nat → Env) (p : Nat) : Pub := ⟨(V (untag p)).by_, (V (untag p)).msg, p % 2 != 0, p / 2 % 2 != 0⟩

/-- All of a thread's messages for a connection, done or under way. -/
def items (V : Nat → Env) (s : St) (t c : Nat) : List Pub :=
  (s.pubd c ++ (unpub s c).map (pubOf V)).filter (fun x => x.by_ == t) ++
    ((s.pend t).filter (fun x => x.1 == c)).map (fun x => pubOf V x.2)

structure Inv (V : Nat → Env) (s : St) : Prop where
  fresh : ∀ l, ∀ a ∈ own s l, a < addr s.next
  live : ∀ l, ∀ a ∈ own s l, s.heap a = some (V a)
  owned : ∀ a e, s.heap a = some e → ∃ l, a ∈ own s l
  nodup : ∀ l, (own s l).Nodup
  disj : ∀ l l' a, a ∈ own s l → a ∈ own s l' → l = l'
  pcs : ∀ c p, (s.pc c = .peeked p ∨ s.pc c = .sent p) → ∃ qs, s.outq c = p :: qs
  pby : ∀ t, ∀ x ∈ s.pend t, (V (untag x.2)).by_ = t

theorem inv_init (V : Nat → Env) (n : Nat) : Inv V (St.init n) where
  fresh := by rintro (t | c) a h <;> simp [own, St.init] at h
  live := by rintro (t | c) a h <;> simp [own, St.init] at h
  owned := by intro a e h; simp [St.init] at h
  nodup := by rintro (t | c) <;> simp [own, St.init]
  disj := by rintro (t | c) l' a h <;> simp [own, St.init] at h
  pcs := by intro c p h; simp [St.init] at h
  pby := by intro t x h; simp [St.init] at h

theorem items_init (V : Nat → Env) (n t c : Nat) : items V (St.init n) t c = [] := by
  simp [items, St.init, unpub]

/-- The values of the envelopes after `k` more. -/
def valued (V : Nat → Env) (nx k : Nat) (e : Env) : Nat → Env :=
  fun a => if ∃ j < k, a = addr (nx + j) then e else V a

theorem valued_old {V : Nat → Env} {nx k : Nat} {e : Env} {a : Nat} (h : a < addr nx) : valued V nx k e a = V a := by
  unfold valued
  rw [if_neg]
  rintro ⟨j, _, rfl⟩
  unfold addr at h; omega

theorem heaped_old {H : Nat → Option Env} {nx k : Nat} {e : Env} {a : Nat} (h : a < addr nx) :
    heaped H nx k e a = H a := by
  unfold heaped
  rw [if_neg]
  rintro ⟨j, _, rfl⟩
  unfold addr at h; omega

theorem pubOf_old {V : Nat → Env} {nx k : Nat} {e : Env} {p : Nat} (h : untag p < addr nx) :
    pubOf (valued V nx k e) p = pubOf V p := by
  unfold pubOf; rw [valued_old h]

theorem unpub_sub (s : St) (c : Nat) : ∀ p ∈ unpub s c, p ∈ s.outq c := by
  intro p hp
  unfold unpub at hp
  split at hp
  · exact List.mem_of_mem_tail hp
  · exact hp

/-- The state after a send. -/
def sentSt (s : St) (t msg : Nat) (m i : Bool) (d k : Nat) : St :=
  { s with heap := heaped s.heap s.next k ⟨t, msg⟩, next := s.next + k,
           pend := upd s.pend t (s.pend t ++ entries d k s.next m i) }

theorem own_sent (s : St) (t msg : Nat) (m i : Bool) (d k : Nat) (l : Nat ⊕ Nat) :
    own (sentSt s t msg m i d k) l = own s l ++
      (if l = .inl t then (List.range k).map (fun j => addr (s.next + j)) else []) := by
  cases l with
  | inr c => simp [own, sentSt]
  | inl t' =>
    by_cases ht : t' = t
    · subst ht
      simp only [own, sentSt, upd_self, List.map_append, if_true]
      congr 1
      unfold entries
      rw [List.map_map]
      apply List.map_congr_left
      intro j _
      simp only [Function.comp, untag_tag]
    · have : ¬ (Sum.inl t' : Nat ⊕ Nat) = .inl t := by intro h; exact ht (Sum.inl.inj h)
      simp [own, sentSt, upd_ne _ _ ht, this]

theorem mem_new {nx k a : Nat} (h : a ∈ (List.range k).map (fun j => addr (nx + j))) :
    ∃ j < k, a = addr (nx + j) := by
  obtain ⟨j, hj, rfl⟩ := List.mem_map.1 h
  exact ⟨j, List.mem_range.1 hj, rfl⟩

theorem mem_sent {s : St} {t msg : Nat} {m i : Bool} {d k : Nat} {l : Nat ⊕ Nat} {a : Nat}
    (h : a ∈ own (sentSt s t msg m i d k) l) :
    a ∈ own s l ∨ (l = .inl t ∧ ∃ j < k, a = addr (s.next + j)) := by
  rw [own_sent] at h
  rcases List.mem_append.1 h with h | h
  · exact .inl h
  · by_cases hl : l = .inl t
    · rw [if_pos hl] at h; exact .inr ⟨hl, mem_new h⟩
    · rw [if_neg hl] at h; cases h

theorem new_not_old {V : Nat → Env} {s : St} (hI : Inv V s) {l : Nat ⊕ Nat} {j : Nat} :
    addr (s.next + j) ∉ own s l := by
  intro h
  have := hI.fresh l _ h
  unfold addr at this; omega

theorem inv_send {V : Nat → Env} {s : St} (hI : Inv V s) (t msg : Nat) (m i : Bool) (d k : Nat) :
    Inv (valued V s.next k ⟨t, msg⟩) (sentSt s t msg m i d k) where
  fresh := by
    intro l a h
    show a < addr (s.next + k)
    rcases mem_sent h with h | ⟨_, j, hj, rfl⟩
    · have := hI.fresh l a h; unfold addr at this ⊢; omega
    · unfold addr; omega
  live := by
    intro l a h
    show heaped s.heap s.next k ⟨t, msg⟩ a = _
    rcases mem_sent h with h | ⟨_, j, hj, rfl⟩
    · have hf := hI.fresh l a h
      rw [heaped_old hf, valued_old hf, hI.live l a h]
    · unfold heaped valued; rw [if_pos ⟨j, hj, rfl⟩, if_pos ⟨j, hj, rfl⟩]
  owned := by
    intro a e h
    change heaped s.heap s.next k ⟨t, msg⟩ a = some e at h
    unfold heaped at h
    split at h
    · rename_i hj
      obtain ⟨j, hj, rfl⟩ := hj
      refine ⟨.inl t, ?_⟩
      rw [own_sent, if_pos rfl]
      exact List.mem_append_right _ (List.mem_map.2 ⟨j, List.mem_range.2 hj, rfl⟩)
    · obtain ⟨l, hl⟩ := hI.owned a e h
      exact ⟨l, by rw [own_sent]; exact List.mem_append_left _ hl⟩
  nodup := by
    intro l
    rw [own_sent]
    by_cases hl : l = .inl t
    · rw [if_pos hl]
      refine List.nodup_append.2 ⟨hI.nodup l, ?_, ?_⟩
      · refine List.Nodup.map ?_ List.nodup_range
        intro a b hab
        have := addr_inj hab; omega
      · intro a ha b hb hab
        obtain ⟨j, _, rfl⟩ := mem_new hb
        subst hab
        exact new_not_old hI ha
    · rw [if_neg hl, List.append_nil]; exact hI.nodup l
  disj := by
    intro l l' a h h'
    rcases mem_sent h with h | ⟨hl, j, hj, rfl⟩
    · rcases mem_sent h' with h' | ⟨hl', j, hj, rfl⟩
      · exact hI.disj l l' a h h'
      · exact absurd h (new_not_old hI)
    · rcases mem_sent h' with h' | ⟨hl', j, hj, _⟩
      · exact absurd h' (new_not_old hI)
      · rw [hl, hl']
  pcs := hI.pcs
  pby := by
    intro t' x hx
    change x ∈ upd s.pend t _ t' at hx
    by_cases ht : t' = t
    · subst ht
      rw [upd_self] at hx
      rcases List.mem_append.1 hx with hx | hx
      · rw [valued_old (hI.fresh (.inl t') _ (List.mem_map.2 ⟨x, hx, rfl⟩))]
        exact hI.pby t' x hx
      · obtain ⟨j, hj, rfl⟩ := List.mem_map.1 hx
        simp only [untag_tag]
        unfold valued
        rw [if_pos ⟨j, List.mem_range.1 hj, rfl⟩]
    · rw [upd_ne _ _ ht] at hx
      rw [valued_old (hI.fresh (.inl t') _ (List.mem_map.2 ⟨x, hx, rfl⟩))]
      exact hI.pby t' x hx

theorem filter_entries (c d k nx : Nat) (m i : Bool) :
    (entries d k nx m i).filter (fun x => x.1 == c) =
      if d ≤ c ∧ c < d + k then [(c, tag (addr (nx + (c - d))) m i)] else [] := by
  induction k generalizing d nx with
  | zero => rw [if_neg (by omega)]; rfl
  | succ k ih =>
    rw [entries_succ]
    by_cases hc : d = c
    · subst hc
      rw [List.filter_cons_of_pos (by simp), ih, if_neg (by omega), if_pos (by omega)]
      simp
    · rw [List.filter_cons_of_neg (by simpa using hc), ih]
      by_cases h : d + 1 ≤ c ∧ c < d + 1 + k
      · rw [if_pos h, if_pos (by omega)]
        congr 4; omega
      · rw [if_neg h, if_neg (by omega)]

theorem items_send {V : Nat → Env} {s : St} (hI : Inv V s) (t msg : Nat) (m i : Bool) (d k t' c : Nat) :
    items (valued V s.next k ⟨t, msg⟩) (sentSt s t msg m i d k) t' c =
      items V s t' c ++ (if t' = t ∧ d ≤ c ∧ c < d + k then [⟨t, msg, m, i⟩] else []) := by
  have hq : (unpub (sentSt s t msg m i d k) c).map (pubOf (valued V s.next k ⟨t, msg⟩)) =
      (unpub s c).map (pubOf V) := by
    apply List.map_congr_left
    intro p hp
    exact pubOf_old (hI.fresh (.inr c) _ (List.mem_map.2 ⟨p, unpub_sub s c p hp, rfl⟩))
  have hp : ∀ t₁, ((s.pend t₁).filter (fun x => x.1 == c)).map (fun x => pubOf (valued V s.next k ⟨t, msg⟩) x.2) =
      ((s.pend t₁).filter (fun x => x.1 == c)).map (fun x => pubOf V x.2) := by
    intro t₁
    apply List.map_congr_left
    intro x hx
    exact pubOf_old (hI.fresh (.inl t₁) _ (List.mem_map.2 ⟨x, (List.mem_filter.1 hx).1, rfl⟩))
  unfold items
  rw [hq]
  show (s.pubd c ++ _).filter _ ++ ((upd s.pend t _ t').filter _).map _ = _
  generalize (s.pubd c ++ (unpub s c).map (pubOf V)).filter (fun x => x.by_ == t') = A
  by_cases ht : t' = t
  · subst ht
    rw [upd_self, List.filter_append, List.map_append, hp, filter_entries, List.append_assoc]
    congr 2
    by_cases hc : d ≤ c ∧ c < d + k
    · rw [if_pos hc, if_pos ⟨rfl, hc⟩]
      simp only [List.map_cons, List.map_nil, pubOf, untag_tag, tag_mand, tag_imm]
      unfold valued
      rw [if_pos ⟨c - d, by omega, rfl⟩]
    · rw [if_neg hc, if_neg (fun h => hc h.2)]; rfl
  · rw [upd_ne _ _ ht, hp, if_neg (fun h => ht h.1), List.append_nil]

theorem inv_enq {V : Nat → Env} {s : St} (hI : Inv V s) (t : Nat) :
    Inv V (enq s t) ∧ ∀ t' c', items V (enq s t) t' c' = items V s t' c' := by
  cases hp : s.pend t with
  | nil =>
    have : enq s t = s := by unfold enq; rw [hp]
    rw [this]; exact ⟨hI, fun _ _ => rfl⟩
  | cons x ps =>
    obtain ⟨c, p⟩ := x
    have he : enq s t = { s with pend := upd s.pend t ps, outq := upd s.outq c (s.outq c ++ [p]) } := by
      unfold enq; rw [hp]
    rw [he]
    generalize hs' : ({ s with pend := upd s.pend t ps, outq := upd s.outq c (s.outq c ++ [p]) } : St) = s'
    have hpt : own s (.inl t) = untag p :: ps.map (fun x => untag x.2) := by simp [own, hp]
    have o1 : own s' (.inl t) = ps.map (fun x => untag x.2) := by subst hs'; simp [own, upd_self]
    have o2 : own s' (.inr c) = own s (.inr c) ++ [untag p] := by subst hs'; simp [own, upd_self]
    have o3 : ∀ l, l ≠ .inl t → l ≠ .inr c → own s' l = own s l := by
      subst hs'
      rintro (a | a) h1 h2
      · have : a ≠ t := fun h => h1 (by rw [h])
        simp [own, upd_ne _ _ this]
      · have : a ≠ c := fun h => h2 (by rw [h])
        simp [own, upd_ne _ _ this]
    have hpm : untag p ∈ own s (.inl t) := by rw [hpt]; exact List.mem_cons_self
    have hnd := hI.nodup (.inl t)
    rw [hpt] at hnd
    have hpn : untag p ∉ own s' (.inl t) := by rw [o1]; exact (List.nodup_cons.1 hnd).1
    -- where an owned envelope was
    have was : ∀ l a, a ∈ own s' l → (a = untag p ∧ l = .inr c) ∨ (a ≠ untag p ∧ a ∈ own s l) := by
      intro l a ha
      by_cases h1 : l = .inl t
      · subst h1
        refine .inr ⟨fun h => hpn (h ▸ ha), ?_⟩
        rw [hpt]; rw [o1] at ha; exact List.mem_cons_of_mem _ ha
      · by_cases h2 : l = .inr c
        · subst h2
          rw [o2] at ha
          rcases List.mem_append.1 ha with ha | ha
          · refine .inr ⟨?_, ha⟩
            rintro rfl
            cases hI.disj _ _ _ ha hpm
          · exact .inl ⟨List.mem_singleton.1 ha, rfl⟩
        · rw [o3 l h1 h2] at ha
          refine .inr ⟨?_, ha⟩
          rintro rfl
          exact h1 (hI.disj _ _ _ ha hpm)
    have hheap : s'.heap = s.heap := by subst hs'; rfl
    have hnext : s'.next = s.next := by subst hs'; rfl
    have hpc : s'.pc = s.pc := by subst hs'; rfl
    have hpb : s'.pubd = s.pubd := by subst hs'; rfl
    have hpd : s'.pend = upd s.pend t ps := by subst hs'; rfl
    have hoq : s'.outq = upd s.outq c (s.outq c ++ [p]) := by subst hs'; rfl
    refine ⟨⟨?_, ?_, ?_, ?_, ?_, ?_, ?_⟩, ?_⟩
    · intro l a ha
      rw [hnext]
      rcases was l a ha with ⟨rfl, _⟩ | ⟨_, h⟩
      · exact hI.fresh _ _ hpm
      · exact hI.fresh _ _ h
    · intro l a ha
      rw [hheap]
      rcases was l a ha with ⟨rfl, _⟩ | ⟨_, h⟩
      · exact hI.live _ _ hpm
      · exact hI.live _ _ h
    · intro a e ha
      rw [hheap] at ha
      obtain ⟨l, hl⟩ := hI.owned a e ha
      by_cases h1 : l = .inl t
      · subst h1
        rw [hpt] at hl
        rcases List.mem_cons.1 hl with rfl | hl
        · exact ⟨.inr c, by rw [o2]; simp⟩
        · exact ⟨.inl t, by rw [o1]; exact hl⟩
      · by_cases h2 : l = .inr c
        · subst h2; exact ⟨.inr c, by rw [o2]; exact List.mem_append_left _ hl⟩
        · exact ⟨l, by rw [o3 l h1 h2]; exact hl⟩
    · intro l
      by_cases h1 : l = .inl t
      · subst h1; rw [o1]; exact (List.nodup_cons.1 hnd).2
      · by_cases h2 : l = .inr c
        · subst h2
          rw [o2]
          refine List.nodup_append.2 ⟨hI.nodup _, by simp, ?_⟩
          intro a ha b hb hab
          rw [List.mem_singleton.1 hb] at hab
          subst hab
          cases hI.disj _ _ _ ha hpm
        · rw [o3 l h1 h2]; exact hI.nodup l
    · intro l l' a ha ha'
      rcases was l a ha with ⟨h, hl⟩ | ⟨h, hl⟩
      · rcases was l' a ha' with ⟨_, hl'⟩ | ⟨h', _⟩
        · rw [hl, hl']
        · exact absurd h h'
      · rcases was l' a ha' with ⟨h', _⟩ | ⟨_, hl'⟩
        · exact absurd h' h
        · exact hI.disj _ _ _ hl hl'
    · intro c' p' h
      rw [hpc] at h
      obtain ⟨qs, hqs⟩ := hI.pcs c' p' h
      rw [hoq]
      by_cases hc : c' = c
      · subst hc; rw [upd_self, hqs]; exact ⟨_, rfl⟩
      · rw [upd_ne _ _ hc]; exact ⟨qs, hqs⟩
    · intro t' x hx
      rw [hpd] at hx
      by_cases ht : t' = t
      · subst ht; rw [upd_self] at hx
        exact hI.pby t' x (by rw [hp]; exact List.mem_cons_of_mem _ hx)
      · rw [upd_ne _ _ ht] at hx; exact hI.pby t' x hx
    · intro t' c'
      have hby : (pubOf V p).by_ = t := hI.pby t (c, p) (by rw [hp]; exact List.mem_cons_self)
      have hu : unpub s' c' = unpub s c' ++ (if c' = c then [p] else []) := by
        unfold unpub
        rw [hpc, hoq]
        by_cases hc : c' = c
        · subst hc
          rw [upd_self, if_pos rfl]
          cases hpcc : s.pc c' with
          | sent q =>
            obtain ⟨qs, hqs⟩ := hI.pcs c' q (.inr hpcc)
            simp [hqs]
          | idle => rfl
          | peeked q => rfl
        · rw [upd_ne _ _ hc, if_neg hc, List.append_nil]
      unfold items
      rw [hu, hpb, hpd, List.map_append, ← List.append_assoc, List.filter_append (s.pubd c' ++ _), List.append_assoc]
      congr 1
      by_cases hc : c' = c
      · subst hc
        simp only [if_true, List.map_cons, List.map_nil]
        by_cases ht : t' = t
        · subst ht
          rw [List.filter_cons_of_pos (by simpa using hby), upd_self, hp, List.filter_cons_of_pos (by simp)]
          simp
        · rw [List.filter_cons_of_neg (by rw [hby]; simpa using fun h => ht h.symm), upd_ne _ _ ht]; rfl
      · rw [if_neg hc]
        by_cases ht : t' = t
        · subst ht
          rw [upd_self, hp, List.filter_cons_of_neg (by simpa using fun h => hc h.symm)]; rfl
        · rw [upd_ne _ _ ht]; rfl

theorem inv_pc {V : Nat → Env} {s : St} (hI : Inv V s) (f : Nat → Pc) (g : Nat → List Pub)
    (hf : ∀ c p, (f c = .peeked p ∨ f c = .sent p) → ∃ qs, s.outq c = p :: qs) :
    Inv V { s with pc := f, pubd := g } :=
  ⟨hI.fresh, hI.live, hI.owned, hI.nodup, hI.disj, hf, hI.pby⟩

theorem inv_peek {V : Nat → Env} {s : St} (hI : Inv V s) (c : Nat) :
    Inv V (peek s c) ∧ ∀ t' c', items V (peek s c) t' c' = items V s t' c' := by
  unfold peek
  split
  · rename_i p qs hpc hq
    refine ⟨inv_pc hI _ _ ?_, ?_⟩
    · intro c' p' h
      by_cases hc : c' = c
      · subst hc
        rw [upd_self] at h
        rcases h with h | h
        · cases h; exact ⟨qs, hq⟩
        · cases h
      · rw [upd_ne _ _ hc] at h; exact hI.pcs c' p' h
    · intro t' c'
      unfold items
      have : unpub { s with pc := upd s.pc c (.peeked p) } c' = unpub s c' := by
        unfold unpub
        by_cases hc : c' = c
        · subst hc; simp only [upd_self, hpc]
        · simp only [upd_ne _ _ hc]
      rw [this]
  · exact ⟨hI, fun _ _ => rfl⟩

theorem inv_publish {V : Nat → Env} {s : St} (hI : Inv V s) (c : Nat) (g : Bool) :
    ∃ s', publish s c g = .ok s' ∧ s'.n = s.n ∧ Inv V s' ∧ ∀ t' c', items V s' t' c' = items V s t' c' := by
  unfold publish
  split
  · rename_i p hpc
    obtain ⟨qs, hq⟩ := hI.pcs c p (.inl hpc)
    have hl := hI.live (.inr c) (untag p) (by simp [own, hq])
    rw [hl]
    cases g with
    | true =>
      refine ⟨_, rfl, rfl, inv_pc hI _ _ ?_, ?_⟩
      · intro c' p' h
        by_cases hc : c' = c
        · subst hc
          rw [upd_self] at h
          rcases h with h | h
          · cases h
          · cases h; exact ⟨qs, hq⟩
        · rw [upd_ne _ _ hc] at h; exact hI.pcs c' p' h
      · intro t' c'
        unfold items
        congr 2
        by_cases hc : c' = c
        · subst hc
          unfold unpub
          simp only [upd_self, hpc, hq, List.tail_cons, List.map_cons, List.append_assoc]
          rfl
        · unfold unpub
          simp only [upd_ne _ _ hc]
    | false =>
      refine ⟨_, rfl, rfl, inv_pc hI _ _ ?_, ?_⟩
      · intro c' p' h
        by_cases hc : c' = c
        · subst hc
          rw [upd_self] at h
          rcases h with h | h <;> cases h
        · rw [upd_ne _ _ hc] at h; exact hI.pcs c' p' h
      · intro t' c'
        unfold items
        congr 2
        by_cases hc : c' = c
        · subst hc
          unfold unpub
          simp only [upd_self, hpc]
        · unfold unpub
          simp only [upd_ne _ _ hc]
  · exact ⟨s, rfl, rfl, hI, fun _ _ => rfl⟩

theorem inv_deq {V : Nat → Env} {s : St} (hI : Inv V s) (c : Nat) :
    ∃ s', deq s c = .ok s' ∧ s'.n = s.n ∧ Inv V s' ∧ ∀ t' c', items V s' t' c' = items V s t' c' := by
  unfold deq
  split
  · rename_i p hpc
    obtain ⟨qs, hq⟩ := hI.pcs c p (.inr hpc)
    have hpm : untag p ∈ own s (.inr c) := by simp [own, hq]
    have hl := hI.live (.inr c) (untag p) hpm
    rw [hq]
    simp only [if_true, hl]
    refine ⟨_, rfl, rfl, ?_, ?_⟩
    · generalize hs' : ({ s with outq := upd s.outq c qs, pc := upd s.pc c .idle, heap := upd s.heap (untag p) none } : St) = s'
      have o0 : own s (.inr c) = untag p :: qs.map untag := by simp [own, hq]
      have o1 : own s' (.inr c) = qs.map untag := by subst hs'; simp [own, upd_self]
      have o2 : ∀ l, l ≠ .inr c → own s' l = own s l := by
        subst hs'
        rintro (a | a) h1
        · rfl
        · have : a ≠ c := fun h => h1 (by rw [h])
          simp [own, upd_ne _ _ this]
      have hnd := hI.nodup (.inr c)
      rw [o0] at hnd
      have was : ∀ l a, a ∈ own s' l → a ≠ untag p ∧ a ∈ own s l := by
        intro l a ha
        by_cases h1 : l = .inr c
        · subst h1
          rw [o1] at ha
          refine ⟨fun h => (List.nodup_cons.1 hnd).1 (h ▸ ha), ?_⟩
          rw [o0]; exact List.mem_cons_of_mem _ ha
        · rw [o2 l h1] at ha
          refine ⟨?_, ha⟩
          rintro rfl
          exact h1 (hI.disj _ _ _ ha hpm)
      have hheap : s'.heap = upd s.heap (untag p) none := by subst hs'; rfl
      have hnext : s'.next = s.next := by subst hs'; rfl
      refine ⟨?_, ?_, ?_, ?_, ?_, ?_, ?_⟩
      · intro l a ha
        rw [hnext]; exact hI.fresh _ _ (was l a ha).2
      · intro l a ha
        rw [hheap, upd_ne _ _ (was l a ha).1]; exact hI.live _ _ (was l a ha).2
      · intro a e ha
        rw [hheap] at ha
        by_cases hap : a = untag p
        · subst hap; rw [upd_self] at ha; cases ha
        · rw [upd_ne _ _ hap] at ha
          obtain ⟨l, hl⟩ := hI.owned a e ha
          refine ⟨l, ?_⟩
          by_cases h1 : l = .inr c
          · subst h1
            rw [o0] at hl
            rw [o1]
            exact (List.mem_cons.1 hl).resolve_left hap
          · rw [o2 l h1]; exact hl
      · intro l
        by_cases h1 : l = .inr c
        · subst h1; rw [o1]; exact (List.nodup_cons.1 hnd).2
        · rw [o2 l h1]; exact hI.nodup l
      · intro l l' a ha ha'
        exact hI.disj _ _ _ (was l a ha).2 (was l' a ha').2
      · subst hs'
        intro c' p' h
        by_cases hc : c' = c
        · subst hc
          simp only [upd_self] at h
          rcases h with h | h <;> cases h
        · simp only [upd_ne _ _ hc] at h ⊢; exact hI.pcs c' p' h
      · subst hs'; exact hI.pby
    · intro t' c'
      unfold items
      congr 2
      by_cases hc : c' = c
      · subst hc
        unfold unpub
        simp only [upd_self, hpc, hq, List.tail_cons]
      · unfold unpub
        simp only [upd_ne _ _ hc]
  · exact ⟨s, rfl, rfl, hI, fun _ _ => rfl⟩

end Mtev.Amqp
