import Verif.Jobq

/-!
Invariants of the job queue model (Jobq.lean) over every interleaving.
-/

namespace Mtev.Jobq

/-- All the jobs in the queue. -/
def queued (ring : List Sq) : List Job := ring.flatMap Sq.jobs

/-- The subqueue an event concerns. -/
def Ev.sq : Ev → Nat
  | .push j _ => j.sq
  | .pop j => j.sq

/-- Specification of the order of service: which jobs wait, and in which order, after a history of pushes
and pops. -/
inductive Serves : List Ev → List Job → Prop
  | nil : Serves [] []
  | fifo (j : Job) {l w} : Serves l w → Serves (l ++ [.push j false]) (w ++ [j])
  | lifo (j : Job) {l w} : Serves l w → Serves (l ++ [.push j true]) (j :: w)
  | pop (j : Job) {l w} : Serves l (j :: w) → Serves (l ++ [.pop j]) w

/-- Number of jobs with an event. -/
def reals (l : List Job) : Nat := l.countP (·.real)

/-! ### Lists -/

theorem split_at {ring : List Sq} {q : Nat} (h : q ∈ ring.map Sq.id) :
    ∃ A s B, ring = A ++ s :: B ∧ s.id = q := by
  obtain ⟨s, hs, rfl⟩ := List.mem_map.mp h
  obtain ⟨A, B, rfl⟩ := List.append_of_mem hs
  exact ⟨A, s, B, rfl, rfl⟩

theorem nodup_split {A B : List Sq} {s : Sq} (h : ((A ++ s :: B).map Sq.id).Nodup) :
    (∀ x ∈ A, x.id ≠ s.id) ∧ (∀ x ∈ B, x.id ≠ s.id) := by
  simp only [List.map_append, List.map_cons, List.nodup_append, List.nodup_cons, List.mem_map, List.mem_cons] at h
  obtain ⟨_, ⟨h2, _⟩, h3⟩ := h
  constructor
  · intro x hx e
    exact h3 x.id ⟨x, hx, rfl⟩ s.id (.inl rfl) e
  · intro x hx e
    exact h2 ⟨x, hx, e⟩

theorem map_at {A B : List Sq} {s : Sq} {q : Nat} (f : Sq → Sq) (hs : s.id = q)
    (hA : ∀ x ∈ A, x.id ≠ q) (hB : ∀ x ∈ B, x.id ≠ q) :
    (A ++ s :: B).map (fun s => if s.id = q then f s else s) = A ++ f s :: B := by
  have e : ∀ l : List Sq, (∀ x ∈ l, x.id ≠ q) → l.map (fun s => if s.id = q then f s else s) = l := by
    intro l hl
    conv_rhs => rw [← List.map_id l]
    apply List.map_congr_left
    intro x hx
    simp [hl x hx]
  rw [List.map_append, List.map_cons, e A hA, e B hB, if_pos hs]

theorem flatMap_at {A B : List Sq} {s : Sq} {q : Nat} (f : Sq → List Sq) (hs : s.id = q)
    (hA : ∀ x ∈ A, x.id ≠ q) (hB : ∀ x ∈ B, x.id ≠ q) :
    (A ++ s :: B).flatMap (fun s => if s.id = q then f s else [s]) = A ++ (f s ++ B) := by
  have e : ∀ l : List Sq, (∀ x ∈ l, x.id ≠ q) → l.flatMap (fun s => if s.id = q then f s else [s]) = l := by
    intro l hl
    induction l with
    | nil => rfl
    | cons a l ih =>
      rw [List.flatMap_cons, if_neg (hl a (by simp)), ih (fun x hx => hl x (by simp [hx]))]
      rfl
  rw [List.flatMap_append, List.flatMap_cons, e A hA, e B hB, if_pos hs]

theorem pushRing_split (lifo : Bool) (j : Job) {ring : List Sq} (hn : (ring.map Sq.id).Nodup)
    (h0 : 0 ∈ ring.map Sq.id) :
    (∃ A s B, ring = A ++ s :: B ∧ s.id = j.sq ∧ pushRing lifo j ring = A ++ pushSq lifo j s :: B) ∨
    (j.sq ∉ ring.map Sq.id ∧ ∃ A s B, ring = A ++ s :: B ∧ s.id = 0 ∧
      pushRing lifo j ring = A ++ s :: pushSq lifo j ⟨j.sq, [], none, 0⟩ :: B) := by
  by_cases h : j.sq ∈ ring.map Sq.id
  · left
    have hany : ring.any (fun s => s.id = j.sq) = true := by
      obtain ⟨s, hs, e⟩ := List.mem_map.mp h
      exact List.any_eq_true.mpr ⟨s, hs, by simp [e]⟩
    obtain ⟨A, s, B, rfl, hs⟩ := split_at h
    obtain ⟨hA, hB⟩ := nodup_split hn
    refine ⟨A, s, B, rfl, hs, ?_⟩
    unfold pushRing
    rw [if_pos hany]
    exact map_at (pushSq lifo j) hs (hs ▸ hA) (hs ▸ hB)
  · right
    refine ⟨h, ?_⟩
    have hany : ¬ ring.any (fun s => s.id = j.sq) = true := by
      intro hh
      obtain ⟨s, hs, e⟩ := List.any_eq_true.mp hh
      exact h (List.mem_map.mpr ⟨s, hs, by simpa using e⟩)
    obtain ⟨A, s, B, rfl, hs⟩ := split_at h0
    obtain ⟨hA, hB⟩ := nodup_split hn
    refine ⟨A, s, B, rfl, hs, ?_⟩
    unfold pushRing
    rw [if_neg hany]
    exact flatMap_at (fun s => [s, pushSq lifo j ⟨j.sq, [], none, 0⟩]) hs (hs ▸ hA) (hs ▸ hB)

theorem pick_some {lim : Nat} {ring before behind : List Sq} {s : Sq} (h : pick lim ring = some (before, s, behind)) :
    ring = before ++ s :: behind ∧ s.jobs ≠ [] ∧ s.inflight < lim ∧
      ∀ x ∈ before, ¬ (x.jobs ≠ [] ∧ x.inflight < lim) := by
  induction ring generalizing before with
  | nil => simp [pick] at h
  | cons a r ih =>
    unfold pick at h
    split at h
    · rename_i hc
      simp only [Option.some.injEq, Prod.mk.injEq] at h
      obtain ⟨rfl, rfl, rfl⟩ := h
      exact ⟨rfl, hc.1, hc.2, by simp⟩
    · rename_i hc
      rcases hp : pick lim r with _ | ⟨b, s', bh⟩
      · rw [hp] at h; simp at h
      · rw [hp] at h
        simp only [Option.map_some, Option.some.injEq, Prod.mk.injEq] at h
        obtain ⟨rfl, rfl, rfl⟩ := h
        obtain ⟨h1, h2, h3, h4⟩ := ih hp
        refine ⟨by rw [h1]; rfl, h2, h3, ?_⟩
        intro x hx
        rcases List.mem_cons.mp hx with rfl | hx
        · exact hc
        · exact h4 x hx

theorem pick_none {lim : Nat} {ring : List Sq} (h : pick lim ring = none) :
    ∀ x ∈ ring, ¬ (x.jobs ≠ [] ∧ x.inflight < lim) := by
  induction ring with
  | nil => simp
  | cons a r ih =>
    unfold pick at h
    split at h
    · cases h
    · rename_i hc
      intro x hx
      rcases List.mem_cons.mp hx with rfl | hx
      · exact hc
      · exact ih (by simpa using h) x hx

theorem pickAny_some {ring before behind : List Sq} {s : Sq} {ls : List Nat}
    (h : pickAny ring ls = some (before, s, behind)) : ring = before ++ s :: behind ∧ s.jobs ≠ [] := by
  induction ls with
  | nil => simp [pickAny] at h
  | cons l ls ih =>
    unfold pickAny at h
    split at h
    · rename_i p hp
      cases h
      have := pick_some hp
      exact ⟨this.1, this.2.1⟩
    · exact ih h

theorem pickAny_none {ring : List Sq} {ls : List Nat} (h : pickAny ring ls = none) {lim : Nat} (hl : lim ∈ ls) :
    ∀ x ∈ ring, ¬ (x.jobs ≠ [] ∧ x.inflight < lim) := by
  induction ls with
  | nil => cases hl
  | cons l ls ih =>
    unfold pickAny at h
    split at h
    · cases h
    · rename_i hp
      rcases List.mem_cons.mp hl with rfl | hl
      · exact pick_none hp
      · exact ih h hl

theorem popRing_split {conc : Nat} {ring ring' : List Sq} {j : Job} (h : popRing conc ring = some (j, ring')) :
    ∃ A s B rest, ring = A ++ s :: B ∧ s.jobs = j :: rest ∧
      ring' = B ++ A ++ [{ s with jobs := rest, tail := if rest = [] then none else s.tail, inflight := s.inflight + 1 }] := by
  unfold popRing at h
  split at h
  · cases h
  · rename_i A s B hp
    split at h
    · cases h
    · rename_i j' rest hj
      simp only [Option.some.injEq, Prod.mk.injEq] at h
      obtain ⟨rfl, rfl⟩ := h
      exact ⟨A, s, B, rest, (pickAny_some hp).1, hj, rfl⟩

theorem popRing_none {conc : Nat} {ring : List Sq} (h : popRing conc ring = none)
    (hi : ∀ s ∈ ring, s.inflight < 2 ^ 32 - 1) : queued ring = [] := by
  unfold popRing at h
  split at h
  · rename_i hp
    have hm : 2 ^ 32 - 1 ∈ limits conc ring.length := by
      unfold limits
      split <;> simp
    have := pickAny_none hp hm
    rw [queued, List.flatMap_eq_nil_iff]
    intro s hs
    by_contra hne
    exact this s hs ⟨hne, hi s hs⟩
  · rename_i A s B hp
    split at h
    · rename_i hj
      exact absurd hj (pickAny_some hp).2
    · cases h

theorem finishRing_split {q : Nat} {ring : List Sq} (hn : (ring.map Sq.id).Nodup) (hq : q ∈ ring.map Sq.id) :
    ∃ A s B, ring = A ++ s :: B ∧ s.id = q ∧
      ((q ≠ 0 ∧ s.inflight = 1 ∧ s.jobs = [] ∧ finishRing q ring = .ok (A ++ B)) ∨
       (¬ (q ≠ 0 ∧ s.inflight = 1 ∧ s.jobs = []) ∧ finishRing q ring = .ok (A ++ { s with inflight := s.inflight - 1 } :: B))) := by
  have hany : ring.any (fun s => s.id = q) = true := by
    obtain ⟨s, hs, e⟩ := List.mem_map.mp hq
    exact List.any_eq_true.mpr ⟨s, hs, by simp [e]⟩
  obtain ⟨A, s, B, rfl, hs⟩ := split_at hq
  obtain ⟨hA, hB⟩ := nodup_split hn
  refine ⟨A, s, B, rfl, hs, ?_⟩
  unfold finishRing
  rw [if_pos hany]
  rw [flatMap_at (fun s => if q ≠ 0 ∧ s.inflight = 1 ∧ s.jobs = [] then [] else [{ s with inflight := s.inflight - 1 }]) hs (hs ▸ hA) (hs ▸ hB)]
  by_cases hc : q ≠ 0 ∧ s.inflight = 1 ∧ s.jobs = []
  · left
    refine ⟨hc.1, hc.2.1, hc.2.2, ?_⟩
    rw [if_pos hc]; rfl
  · right
    refine ⟨hc, ?_⟩
    rw [if_neg hc]; rfl

theorem count_eraseIdx [BEq α] [LawfulBEq α] {l : List α} {i : Nat} {j : α} (h : l[i]? = some j) (x : α) :
    l.count x = (l.eraseIdx i).count x + if j == x then 1 else 0 := by
  induction l generalizing i with
  | nil => simp at h
  | cons a l ih =>
    cases i with
    | zero =>
      simp only [List.getElem?_cons_zero, Option.some.injEq] at h
      subst h
      rw [List.eraseIdx_zero, List.tail_cons, List.count_cons]
    | succ i =>
      simp only [List.getElem?_cons_succ] at h
      rw [List.eraseIdx_cons_succ, List.count_cons, List.count_cons, ih h]
      omega

theorem countP_eraseIdx {l : List α} {i : Nat} {j : α} (h : l[i]? = some j) (p : α → Bool) :
    l.countP p = (l.eraseIdx i).countP p + if p j then 1 else 0 := by
  induction l generalizing i with
  | nil => simp at h
  | cons a l ih =>
    cases i with
    | zero =>
      simp only [List.getElem?_cons_zero, Option.some.injEq] at h
      subst h
      rw [List.eraseIdx_zero, List.tail_cons, List.countP_cons]
    | succ i =>
      simp only [List.getElem?_cons_succ] at h
      rw [List.eraseIdx_cons_succ, List.countP_cons, List.countP_cons, ih h]
      omega

theorem map_getElem {l : List α} {i : Nat} {j : α} (f : α → β) (h : l[i]? = some j) :
    (l.map f)[i]? = some (f j) := by simp [h]

theorem map_eraseIdx (f : α → β) (l : List α) (i : Nat) : (l.eraseIdx i).map f = (l.map f).eraseIdx i := by
  induction l generalizing i with
  | nil => rfl
  | cons a l ih => cases i with
    | zero => rfl
    | succ i => simp [ih]

theorem linkAfter_last {l : List Job} {j x : Job} (hn : ((l ++ [x]).map Job.id).Nodup) :
    linkAfter x.id j (l ++ [x]) = l ++ [x, j] := by
  induction l with
  | nil => simp [linkAfter]
  | cons a l ih =>
    rw [List.cons_append, List.map_cons, List.nodup_cons] at hn
    have : a.id ≠ x.id := by
      intro e
      exact hn.1 (by rw [e]; simp)
    rw [List.cons_append, linkAfter, if_neg this, ih hn.2]
    rfl

/-! ### The contract and the invariant -/

/-- What callers must respect: at most 2³² − 2 jobs run at a time, and a queue is switched from LIFO to FIFO
only when nothing waits in it. -/
def Allowed (op : Op) (s : S) : Prop :=
  match op with
  | .dequeue _ => s.popped.length + s.running.length < 2 ^ 32 - 1
  | .setLifo b => b = true ∨ s.lifo = false ∨ queued s.ring = []
  | _ => True

instance (op : Op) (s : S) : Decidable (Allowed op s) := by
  unfold Allowed
  split <;> infer_instance

/-- The states of a queue in any interleaving of any number of threads. -/
inductive Reach (lifo : Bool) (max : Nat) : S → Prop
  | init : Reach lifo max (init lifo max)
  | step {s t : S} (op : Op) : Reach lifo max s → Allowed op s → step op s = some t → Reach lifo max t

structure Inv (s : S) : Prop where
  nodup : (s.ring.map Sq.id).Nodup
  zero : 0 ∈ s.ring.map Sq.id
  home : ∀ q ∈ s.ring, ∀ j ∈ q.jobs, j.sq = q.id
  tail : ∀ q ∈ s.ring, q.tail = q.jobs.getLast?.map Job.id ∨ (s.lifo = true ∧ q.tail = none)
  cons : ∀ x, s.accepted.count x = s.pend.count x + (queued s.ring).count x + s.popped.count x + s.running.count x + s.done.count x
  ids : ∀ n, (s.accepted.map Job.id).count n + (s.trying.map (fun p => p.1.id)).count n + (s.refused.map Job.id).count n = if n < s.next then 1 else 0
  infl : ∀ q ∈ s.ring, q.inflight = (s.popped ++ s.running).countP (fun j => j.sq == q.id)
  alive : ∀ j ∈ s.popped ++ s.running, j.sq ∈ s.ring.map Sq.id
  perm : (queued s.ring).length ≤ s.permits + s.notifies + s.holders
  backlog : s.backlog = reals s.pend + reals (queued s.ring) + reals s.popped
  trying : ∀ p ∈ s.trying, p.1.real = true
  ok : s.bad = false
  order : ∀ q ∈ s.ring, Serves (s.log.filter (fun e => e.sq == q.id)) q.jobs
  orderNil : ∀ q, q ∉ s.ring.map Sq.id → Serves (s.log.filter (fun e => e.sq == q)) []

theorem Inv.perm' {s : S} (h : Inv s) :
    s.accepted.Perm (s.pend ++ (queued s.ring ++ (s.popped ++ (s.running ++ s.done)))) := by
  rw [List.perm_iff_count]
  intro x
  have := h.cons x
  simp only [List.count_append]
  omega

theorem Inv.idsNodup {s : S} (h : Inv s) : (s.accepted.map Job.id).Nodup := by
  rw [List.nodup_iff_count]
  intro n
  have := h.ids n
  split at this <;> omega

theorem Inv.allNodup {s : S} (h : Inv s) :
    ((s.pend ++ (queued s.ring ++ (s.popped ++ (s.running ++ s.done)))).map Job.id).Nodup :=
  (h.perm'.map Job.id).nodup_iff.mp h.idsNodup

theorem Inv.jobsNodup {s : S} (h : Inv s) {q : Sq} (hq : q ∈ s.ring) : (q.jobs.map Job.id).Nodup := by
  have h1 := h.allNodup
  rw [List.map_append, List.map_append] at h1
  have h2 := (List.nodup_append.mp (List.nodup_append.mp h1).2.1).1
  apply List.Nodup.sublist _ h2
  apply List.Sublist.map
  obtain ⟨A, B, e⟩ := List.append_of_mem hq
  rw [e, queued, List.flatMap_append, List.flatMap_cons]
  exact (List.sublist_append_left _ _).trans (List.sublist_append_right _ _)

theorem pushSq_jobs {lifo : Bool} {j : Job} {q : Sq} (hn : (q.jobs.map Job.id).Nodup)
    (ht : q.tail = q.jobs.getLast?.map Job.id ∨ (lifo = true ∧ q.tail = none)) :
    (pushSq lifo j q).jobs = (if lifo then j :: q.jobs else q.jobs ++ [j]) ∧
    (pushSq lifo j q).id = q.id ∧ (pushSq lifo j q).inflight = q.inflight ∧
    ((pushSq lifo j q).tail = (pushSq lifo j q).jobs.getLast?.map Job.id ∨ (lifo = true ∧ (pushSq lifo j q).tail = none)) := by
  unfold pushSq
  cases lifo with
  | true =>
    refine ⟨rfl, rfl, rfl, ?_⟩
    simp only [if_true, true_and]
    rcases ht with ht | ht
    · rcases hj : q.jobs with _ | ⟨a, r⟩
      · right; simp [ht, hj]
      · left; rw [ht, hj, List.getLast?_cons_cons]
    · exact .inr ht.2
  | false =>
    simp only [Bool.false_eq_true, if_false, false_and, or_false] at ht ⊢
    rcases List.eq_nil_or_concat q.jobs with hj | ⟨l, x, hj⟩
    · rw [hj] at ht
      simp only [List.getLast?_nil, Option.map_none] at ht
      rw [ht, hj]
      simp
    · rw [List.concat_eq_append] at hj
      rw [hj] at ht hn
      simp only [List.getLast?_append, List.getLast?_singleton, Option.some_or, Option.map_some] at ht
      rw [ht, hj]
      simp only [linkAfter_last hn]
      simp

theorem inv_init (lifo : Bool) (max : Nat) : Inv (init lifo max) := by
  constructor <;> simp [init, queued, reals]
  · exact .nil
  · intro q _; exact .nil

/-- The counting facts of a push. -/
theorem pushRing_count {lifo : Bool} {j : Job} {ring : List Sq} (hn : (ring.map Sq.id).Nodup)
    (h0 : 0 ∈ ring.map Sq.id) (hj : ∀ q ∈ ring, (q.jobs.map Job.id).Nodup)
    (ht : ∀ q ∈ ring, q.tail = q.jobs.getLast?.map Job.id ∨ (lifo = true ∧ q.tail = none)) :
    (queued (pushRing lifo j ring)).Perm (j :: queued ring) := by
  have key : ∀ q : Sq, (q.jobs.map Job.id).Nodup →
      (q.tail = q.jobs.getLast?.map Job.id ∨ (lifo = true ∧ q.tail = none)) →
      (pushSq lifo j q).jobs.Perm (j :: q.jobs) := by
    intro q h1 h2
    rw [(pushSq_jobs h1 h2).1]
    split
    · exact List.Perm.refl _
    · exact (List.perm_append_comm).trans (by simp)
  rcases pushRing_split lifo j hn h0 with ⟨A, s, B, rfl, hs, e⟩ | ⟨hnot, A, s, B, rfl, hs, e⟩
  · rw [e, queued, queued, List.flatMap_append, List.flatMap_cons, List.flatMap_append, List.flatMap_cons]
    have := key s (hj s (by simp)) (ht s (by simp))
    rw [List.perm_iff_count] at this ⊢
    intro x
    have := this x
    simp only [List.count_append, List.count_cons] at this ⊢
    omega
  · rw [e, queued, queued, List.flatMap_append, List.flatMap_cons, List.flatMap_cons, List.flatMap_append, List.flatMap_cons]
    have := key ⟨j.sq, [], none, 0⟩ (by simp) (by simp)
    rw [List.perm_iff_count] at this ⊢
    intro x
    have := this x
    simp only [List.count_append, List.count_cons, List.count_nil] at this ⊢
    omega

theorem popRing_perm {conc : Nat} {ring ring' : List Sq} {j : Job} (h : popRing conc ring = some (j, ring')) :
    (queued ring).Perm (j :: queued ring') := by
  obtain ⟨A, s, B, rest, rfl, hs, rfl⟩ := popRing_split h
  rw [List.perm_iff_count]
  intro x
  simp only [queued, List.flatMap_append, List.flatMap_cons, List.flatMap_nil, List.count_append, List.count_cons, List.count_nil, hs]
  omega

theorem reals_perm {a b : List Job} (h : a.Perm b) : reals a = reals b := h.countP_eq _

theorem filter_snoc_eq {l : List Ev} {e : Ev} {q : Nat} (h : e.sq = q) :
    (l ++ [e]).filter (fun e => e.sq == q) = l.filter (fun e => e.sq == q) ++ [e] := by
  rw [List.filter_append]; simp [h]

theorem filter_snoc_ne {l : List Ev} {e : Ev} {q : Nat} (h : e.sq ≠ q) :
    (l ++ [e]).filter (fun e => e.sq == q) = l.filter (fun e => e.sq == q) := by
  rw [List.filter_append]; simp [h]

/-- The trying threads' list changes without changing its jobs: a thread goes to the end of the list. -/
theorem count_requeue {l : List (Job × Option Nat)} {i : Nat} {j : Job} {a b : Option Nat} (h : l[i]? = some (j, a)) (n : Nat) :
    ((l.eraseIdx i ++ [(j, b)]).map (fun p => p.1.id)).count n = (l.map (fun p => p.1.id)).count n := by
  rw [count_eraseIdx (map_getElem (fun p : Job × Option Nat => p.1.id) h) n, List.map_append, map_eraseIdx, List.count_append]
  simp [List.count_cons]

theorem inv_step {op : Op} {s t : S} (h : Inv s) (ha : Allowed op s) (hs : step op s = some t) : Inv t := by
  have hj : ∀ q ∈ s.ring, (q.jobs.map Job.id).Nodup := fun q hq => h.jobsNodup hq
  cases op with
  | tryEnqueue q =>
    simp only [step, Option.some.injEq] at hs
    subst hs
    obtain ⟨h1, h2, h3, h4, h5, h6, h7, h8, h9, h10, h11, h12, h13, h14⟩ := h
    refine ⟨h1, h2, h3, h4, h5, ?_, h7, h8, h9, h10, ?_, h12, h13, h14⟩
    · intro n
      have := h6 n
      simp only [List.map_append, List.map_cons, List.map_nil, List.count_append, List.count_cons, List.count_nil] at this ⊢
      by_cases hn : s.next = n
      · subst hn; simp at this ⊢; omega
      · rw [if_neg (by simpa using hn)]
        split at this <;> split <;> omega
    · intro p hp
      rcases List.mem_append.mp hp with hp | hp
      · exact h11 p hp
      · simp at hp; subst hp; rfl
  | enqueue q real =>
    simp only [step, Option.some.injEq] at hs
    subst hs
    obtain ⟨h1, h2, h3, h4, h5, h6, h7, h8, h9, h10, h11, h12, h13, h14⟩ := h
    refine ⟨h1, h2, h3, h4, ?_, ?_, h7, h8, h9, ?_, h11, h12, h13, h14⟩
    · intro x
      have := h5 x
      simp only [List.count_append]
      omega
    · intro n
      have := h6 n
      simp only [List.map_append, List.map_cons, List.map_nil, List.count_append, List.count_cons, List.count_nil] at this ⊢
      by_cases hn : s.next = n
      · subst hn; simp at this ⊢; omega
      · rw [if_neg (by simpa using hn)]
        split at this <;> split <;> omega
    · show (if real then s.backlog + 1 else s.backlog) = _
      simp only [reals, List.countP_append, List.countP_cons, List.countP_nil] at h10 ⊢
      cases real <;> simp <;> omega
  | load i =>
    simp only [step] at hs
    rcases hl : s.trying[i]? with _ | ⟨j, _ | bl⟩
    · rw [hl] at hs; cases hs
    · rw [hl] at hs
      simp only at hs
      have hm : (j, none) ∈ s.trying := List.mem_of_getElem? hl
      have hr : j.real = true := h.trying _ hm
      have hc := fun n => count_eraseIdx (map_getElem (fun p : Job × Option Nat => p.1.id) hl) n
      have he : ∀ p ∈ s.trying.eraseIdx i, p.1.real = true := fun p hp => h.trying p (List.mem_of_mem_eraseIdx hp)
      obtain ⟨h1, h2, h3, h4, h5, h6, h7, h8, h9, h10, h11, h12, h13, h14⟩ := h
      split at hs
      · simp only [Option.some.injEq] at hs
        subst hs
        refine ⟨h1, h2, h3, h4, ?_, ?_, h7, h8, h9, ?_, he, h12, h13, h14⟩
        · intro x
          have := h5 x
          simp only [List.count_append]
          omega
        · intro n
          have := h6 n
          have := hc n
          simp only [map_eraseIdx, List.map_append, List.map_cons, List.map_nil, List.count_append, List.count_cons, List.count_nil] at *
          omega
        · simp only [reals, List.countP_append, List.countP_cons, List.countP_nil, hr, if_true] at h10 ⊢
          omega
      · split at hs
        · simp only [Option.some.injEq] at hs
          subst hs
          refine ⟨h1, h2, h3, h4, h5, ?_, h7, h8, h9, h10, he, h12, h13, h14⟩
          intro n
          have := h6 n
          have := hc n
          simp only [map_eraseIdx, List.map_append, List.map_cons, List.map_nil, List.count_append, List.count_cons, List.count_nil] at *
          omega
        · simp only [Option.some.injEq] at hs
          subst hs
          refine ⟨h1, h2, h3, h4, h5, ?_, h7, h8, h9, h10, ?_, h12, h13, h14⟩
          · intro n
            rw [count_requeue hl]
            exact h6 n
          · intro p hp
            rcases List.mem_append.mp hp with hp | hp
            · exact he p hp
            · simp at hp; subst hp; exact hr
    · rw [hl] at hs; cases hs
  | cas i =>
    simp only [step] at hs
    rcases hl : s.trying[i]? with _ | ⟨j, _ | bl⟩
    · rw [hl] at hs; cases hs
    · rw [hl] at hs; cases hs
    · rw [hl] at hs
      simp only at hs
      have hm : (j, some bl) ∈ s.trying := List.mem_of_getElem? hl
      have hr : j.real = true := h.trying _ hm
      have hc := fun n => count_eraseIdx (map_getElem (fun p : Job × Option Nat => p.1.id) hl) n
      have he : ∀ p ∈ s.trying.eraseIdx i, p.1.real = true := fun p hp => h.trying p (List.mem_of_mem_eraseIdx hp)
      obtain ⟨h1, h2, h3, h4, h5, h6, h7, h8, h9, h10, h11, h12, h13, h14⟩ := h
      split at hs
      · rename_i hbl
        simp only [Option.some.injEq] at hs
        subst hs
        refine ⟨h1, h2, h3, h4, ?_, ?_, h7, h8, h9, ?_, he, h12, h13, h14⟩
        · intro x
          have := h5 x
          simp only [List.count_append]
          omega
        · intro n
          have := h6 n
          have := hc n
          simp only [map_eraseIdx, List.map_append, List.map_cons, List.map_nil, List.count_append, List.count_cons, List.count_nil] at *
          omega
        · show bl + 1 = _
          simp only [reals, List.countP_append, List.countP_cons, List.countP_nil, hr, if_true] at h10 ⊢
          omega
      · simp only [Option.some.injEq] at hs
        subst hs
        refine ⟨h1, h2, h3, h4, h5, ?_, h7, h8, h9, h10, ?_, h12, h13, h14⟩
        · intro n
          rw [count_requeue hl]
          exact h6 n
        · intro p hp
          rcases List.mem_append.mp hp with hp | hp
          · exact he p hp
          · simp at hp; subst hp; exact hr
  | push i =>
    simp only [step] at hs
    rcases hl : s.pend[i]? with _ | j
    · rw [hl] at hs; cases hs
    · rw [hl] at hs
      simp only [Option.some.injEq] at hs
      subst hs
      have hp := pushRing_count (lifo := s.lifo) (j := j) h.nodup h.zero hj h.tail
      have hc := fun x => count_eraseIdx hl x
      have hcr := countP_eraseIdx hl (·.real)
      obtain ⟨h1, h2, h3, h4, h5, h6, h7, h8, h9, h10, h11, h12, h13, h14⟩ := h
      have ring : (∃ A q B, s.ring = A ++ q :: B ∧ q.id = j.sq ∧ (q.jobs.map Job.id).Nodup ∧ (q.tail = q.jobs.getLast?.map Job.id ∨ (s.lifo = true ∧ q.tail = none)) ∧ pushRing s.lifo j s.ring = A ++ pushSq s.lifo j q :: B) ∨ (j.sq ∉ s.ring.map Sq.id ∧ ∃ A q B, s.ring = A ++ q :: B ∧ q.id = 0 ∧ pushRing s.lifo j s.ring = A ++ q :: pushSq s.lifo j ⟨j.sq, [], none, 0⟩ :: B) := by
        rcases pushRing_split s.lifo j h1 h2 with ⟨A, q, B, e1, e2, e3⟩ | hr
        · exact .inl ⟨A, q, B, e1, e2, hj q (by rw [e1]; simp), h4 q (by rw [e1]; simp), e3⟩
        · exact .inr hr
      have hev : Ev.sq (Ev.push j s.lifo) = j.sq := rfl
      have hsv : ∀ {l w}, Serves l w → Serves (l ++ [.push j s.lifo]) (if s.lifo then j :: w else w ++ [j]) := by
        intro l w hw
        cases s.lifo
        · exact .fifo j hw
        · exact .lifo j hw
      have hmem : ∀ q ∈ pushRing s.lifo j s.ring,
          (q ∈ s.ring ∧ q.id ≠ j.sq) ∨ (q.id = j.sq ∧ ∃ q0 : Sq, q0.id = j.sq ∧ (q0.jobs.map Job.id).Nodup ∧ (q0.tail = q0.jobs.getLast?.map Job.id ∨ (s.lifo = true ∧ q0.tail = none)) ∧ q = pushSq s.lifo j q0 ∧
            (q0 ∈ s.ring ∨ (j.sq ∉ s.ring.map Sq.id ∧ q0 = ⟨j.sq, [], none, 0⟩))) := by
        intro q hq
        rcases ring with ⟨A, q0, B, e1, e2, e3, e4, e5⟩ | ⟨hn, A, q0, B, e1, e2, e3⟩
        · rw [e1] at h1
          obtain ⟨hA, hB⟩ := nodup_split h1
          rw [e5] at hq
          simp only [List.mem_append, List.mem_cons] at hq
          rcases hq with hq | hq | hq
          · exact .inl ⟨by rw [e1]; simp [hq], e2 ▸ hA q hq⟩
          · right
            refine ⟨by rw [hq, (pushSq_jobs e3 e4).2.1, e2], q0, e2, e3, e4, hq, .inl (by rw [e1]; simp)⟩
          · exact .inl ⟨by rw [e1]; simp [hq], e2 ▸ hB q hq⟩
        · rw [e3] at hq
          have hother : ∀ x ∈ s.ring, x.id ≠ j.sq := fun x hx e => hn (List.mem_map.mpr ⟨x, hx, e⟩)
          simp only [List.mem_append, List.mem_cons] at hq
          rcases hq with hq | hq | hq | hq
          · exact .inl ⟨by rw [e1]; simp [hq], hother q (by rw [e1]; simp [hq])⟩
          · exact .inl ⟨by rw [e1]; simp [hq], hother q (by rw [e1]; simp [hq])⟩
          · right
            refine ⟨by rw [hq, (pushSq_jobs (by simp) (by simp)).2.1], ⟨j.sq, [], none, 0⟩, rfl, by simp, by simp, hq, .inr ⟨hn, rfl⟩⟩
          · exact .inl ⟨by rw [e1]; simp [hq], hother q (by rw [e1]; simp [hq])⟩
      have hids : (pushRing s.lifo j s.ring).map Sq.id = s.ring.map Sq.id ∨
          (j.sq ∉ s.ring.map Sq.id ∧ ((pushRing s.lifo j s.ring).map Sq.id).Perm (j.sq :: s.ring.map Sq.id)) := by
        rcases ring with ⟨A, q0, B, e1, e2, e3, e4, e5⟩ | ⟨hn, A, q0, B, e1, e2, e3⟩
        · left
          rw [e5, e1]
          simp [(pushSq_jobs e3 e4).2.1]
        · right
          refine ⟨hn, ?_⟩
          rw [e3, e1, List.perm_iff_count]
          intro x
          simp only [List.map_append, List.map_cons, List.count_append, List.count_cons, (pushSq_jobs (lifo := s.lifo) (j := j) (q := ⟨j.sq, [], none, 0⟩) (by simp) (by simp)).2.1]
          omega
      refine ⟨?_, ?_, ?_, ?_, ?_, h6, ?_, ?_, ?_, ?_, h11, h12, ?_, ?_⟩
      · rcases hids with e | ⟨hn, e⟩
        · rw [e]; exact h1
        · rw [e.nodup_iff, List.nodup_cons]; exact ⟨hn, h1⟩
      · rcases hids with e | ⟨hn, e⟩
        · rw [e]; exact h2
        · rw [e.mem_iff]; exact List.mem_cons_of_mem _ h2
      · intro q hq x hx
        rcases hmem q hq with ⟨hq, _⟩ | ⟨hid, q0, g1, g2, g3, rfl, g5⟩
        · exact h3 q hq x hx
        · rw [hid]
          have hx0 : x = j ∨ x ∈ q0.jobs := by
            rw [(pushSq_jobs g2 g3).1] at hx
            split at hx
            · exact List.mem_cons.mp hx
            · rcases List.mem_append.mp hx with hx | hx
              · exact .inr hx
              · exact .inl (by simpa using hx)
          rcases hx0 with rfl | hx0
          · rfl
          · rcases g5 with g5 | ⟨_, rfl⟩
            · rw [h3 q0 g5 x hx0, g1]
            · cases hx0
      · intro q hq
        rcases hmem q hq with ⟨hq, _⟩ | ⟨hid, q0, g1, g2, g3, rfl, g5⟩
        · exact h4 q hq
        · exact (pushSq_jobs g2 g3).2.2.2
      · intro x
        have e1 := h5 x
        have e2 := hc x
        have e3 := (List.perm_iff_count.mp hp) x
        rw [List.count_cons] at e3
        show s.accepted.count x = (s.pend.eraseIdx i).count x + (queued (pushRing s.lifo j s.ring)).count x + s.popped.count x + s.running.count x + s.done.count x
        omega
      · intro q hq
        rcases hmem q hq with ⟨hq, _⟩ | ⟨hid, q0, g1, g2, g3, rfl, g5⟩
        · exact h7 q hq
        · rw [(pushSq_jobs g2 g3).2.2.1, (pushSq_jobs g2 g3).2.1]
          rcases g5 with g5 | ⟨hn, rfl⟩
          · exact h7 q0 g5
          · symm
            rw [List.countP_eq_zero]
            intro x hx
            have := h8 x hx
            intro e
            exact hn (by rw [← (by simpa using e : x.sq = j.sq)]; exact this)
      · intro x hx
        have := h8 x hx
        rcases hids with e | ⟨hn, e⟩
        · show x.sq ∈ (pushRing s.lifo j s.ring).map Sq.id
          rw [e]; exact this
        · show x.sq ∈ (pushRing s.lifo j s.ring).map Sq.id
          rw [e.mem_iff]; exact List.mem_cons_of_mem _ this
      · have := hp.length_eq
        show (queued (pushRing s.lifo j s.ring)).length ≤ s.permits + (s.notifies + 1) + s.holders
        rw [this, List.length_cons]
        omega
      · have := reals_perm hp
        show s.backlog = reals (s.pend.eraseIdx i) + reals (queued (pushRing s.lifo j s.ring)) + reals s.popped
        rw [this]
        simp only [reals, List.countP_cons] at hcr h10 ⊢
        omega
      · intro q hq
        rcases hmem q hq with ⟨hq, hne⟩ | ⟨hid, q0, g1, g2, g3, rfl, g5⟩
        · show Serves ((s.log ++ [Ev.push j s.lifo]).filter _) _
          rw [filter_snoc_ne (by rw [hev]; exact fun e => hne e.symm)]
          exact h13 q hq
        · show Serves ((s.log ++ [Ev.push j s.lifo]).filter _) _
          rw [filter_snoc_eq (by rw [hev, hid]), (pushSq_jobs g2 g3).1, hid]
          apply hsv
          rcases g5 with g5 | ⟨hn, rfl⟩
          · rw [← g1]; exact h13 q0 g5
          · exact h14 _ hn
      · intro q hq
        have hq' : q ∉ s.ring.map Sq.id ∧ q ≠ j.sq := by
          rcases hids with e | ⟨hn, e⟩
          · change q ∉ (pushRing s.lifo j s.ring).map Sq.id at hq
            rw [e] at hq
            refine ⟨hq, ?_⟩
            rintro rfl
            rcases ring with ⟨A, q0, B, e1, e2, _⟩ | ⟨hn, A, q0, B, e1, e2, e3⟩
            · exact hq (List.mem_map.mpr ⟨q0, by rw [e1]; simp, e2⟩)
            · have := congrArg List.length e
              rw [e3, e1] at this
              simp at this
          · change q ∉ (pushRing s.lifo j s.ring).map Sq.id at hq
            rw [e.mem_iff, List.mem_cons] at hq
            push Not at hq
            exact ⟨hq.2, hq.1⟩
        show Serves ((s.log ++ [Ev.push j s.lifo]).filter _) _
        rw [filter_snoc_ne (by rw [hev]; exact fun e => hq'.2 e.symm)]
        exact h14 q hq'.1
  | notify =>
    simp only [step] at hs
    split at hs
    · cases hs
    · simp only [Option.some.injEq] at hs
      subst hs
      obtain ⟨h1, h2, h3, h4, h5, h6, h7, h8, h9, h10, h11, h12, h13, h14⟩ := h
      exact ⟨h1, h2, h3, h4, h5, h6, h7, h8, by simp only; omega, h10, h11, h12, h13, h14⟩
  | extra =>
    simp only [step, Option.some.injEq] at hs
    subst hs
    obtain ⟨h1, h2, h3, h4, h5, h6, h7, h8, h9, h10, h11, h12, h13, h14⟩ := h
    exact ⟨h1, h2, h3, h4, h5, h6, h7, h8, by simp only; omega, h10, h11, h12, h13, h14⟩
  | wait =>
    simp only [step] at hs
    split at hs
    · cases hs
    · simp only [Option.some.injEq] at hs
      subst hs
      obtain ⟨h1, h2, h3, h4, h5, h6, h7, h8, h9, h10, h11, h12, h13, h14⟩ := h
      exact ⟨h1, h2, h3, h4, h5, h6, h7, h8, by simp only; omega, h10, h11, h12, h13, h14⟩
  | dequeue conc =>
    simp only [step] at hs
    split at hs
    · cases hs
    · rename_i hh
      rcases hp : popRing conc s.ring with _ | ⟨j, ring⟩
      · rw [hp] at hs
        simp only [Option.some.injEq] at hs
        subst hs
        have he : queued s.ring = [] := by
          apply popRing_none hp
          intro q hq
          rw [h.infl q hq]
          have := List.countP_le_length (p := fun j : Job => j.sq == q.id) (l := s.popped ++ s.running)
          rw [List.length_append] at this
          exact Nat.lt_of_le_of_lt this ha
        obtain ⟨h1, h2, h3, h4, h5, h6, h7, h8, h9, h10, h11, h12, h13, h14⟩ := h
        refine ⟨h1, h2, h3, h4, h5, h6, h7, h8, ?_, h10, h11, h12, h13, h14⟩
        show (queued s.ring).length ≤ _
        rw [he]
        exact Nat.zero_le _
      · rw [hp] at hs
        simp only [Option.some.injEq] at hs
        subst hs
        have hperm := popRing_perm hp
        obtain ⟨A, q0, B, rest, e1, e2, e3⟩ := popRing_split hp
        obtain ⟨h1, h2, h3, h4, h5, h6, h7, h8, h9, h10, h11, h12, h13, h14⟩ := h
        have hq0 : q0 ∈ s.ring := by rw [e1]; simp
        have hjq : j.sq = q0.id := h3 q0 hq0 j (by rw [e2]; simp)
        have h1' := h1
        rw [e1] at h1'
        obtain ⟨hA, hB⟩ := nodup_split h1'
        have hids : (ring.map Sq.id).Perm (s.ring.map Sq.id) := by
          rw [e3, e1, List.perm_iff_count]
          intro x
          simp only [List.map_append, List.map_cons, List.map_nil, List.count_append, List.count_cons, List.count_nil]
          omega
        have hmem : ∀ q ∈ ring, (q ∈ s.ring ∧ q.id ≠ j.sq) ∨
            q = { q0 with jobs := rest, tail := if rest = [] then none else q0.tail, inflight := q0.inflight + 1 } := by
          intro q hq
          rw [e3] at hq
          simp only [List.mem_append, List.mem_cons, List.not_mem_nil, or_false] at hq
          rcases hq with (hq | hq) | hq
          · exact .inl ⟨by rw [e1]; simp [hq], hjq ▸ hB q hq⟩
          · exact .inl ⟨by rw [e1]; simp [hq], hjq ▸ hA q hq⟩
          · exact .inr hq
        have hev : Ev.sq (Ev.pop j) = j.sq := rfl
        refine ⟨hids.nodup_iff.mpr h1, hids.mem_iff.mpr h2, ?_, ?_, ?_, h6, ?_, ?_, ?_, ?_, h11, h12, ?_, ?_⟩
        · intro q hq x hx
          rcases hmem q hq with ⟨hq, _⟩ | rfl
          · exact h3 q hq x hx
          · exact h3 q0 hq0 x (by rw [e2]; exact List.mem_cons_of_mem _ hx)
        · intro q hq
          rcases hmem q hq with ⟨hq, _⟩ | rfl
          · exact h4 q hq
          · simp only
            by_cases hr : rest = []
            · left; simp [hr]
            · rw [if_neg hr]
              rcases h4 q0 hq0 with hh | hh
              · left
                rw [hh, e2]
                cases rest with
                | nil => exact absurd rfl hr
                | cons b r => rw [List.getLast?_cons_cons]
              · exact .inr hh
        · intro x
          have g1 := h5 x
          have g2 := (List.perm_iff_count.mp hperm) x
          rw [List.count_cons] at g2
          show s.accepted.count x = s.pend.count x + (queued ring).count x + (s.popped ++ [j]).count x + s.running.count x + s.done.count x
          rw [List.count_append, List.count_cons, List.count_nil]
          omega
        · intro q hq
          show q.inflight = (s.popped ++ [j] ++ s.running).countP _
          rw [List.countP_append, List.countP_append, List.countP_cons, List.countP_nil]
          rcases hmem q hq with ⟨hq, hne⟩ | rfl
          · rw [h7 q hq, List.countP_append]
            have : (j.sq == q.id) = false := by simpa using fun e => hne e.symm
            rw [this]
            simp
          · simp only
            rw [h7 q0 hq0, List.countP_append, hjq]
            simp
            omega
        · intro x hx
          show x.sq ∈ ring.map Sq.id
          rw [hids.mem_iff]
          simp only [List.mem_append, List.mem_cons, List.not_mem_nil, or_false] at hx
          rcases hx with (hx | rfl) | hx
          · exact h8 x (by simp [hx])
          · exact List.mem_map.mpr ⟨q0, hq0, hjq.symm⟩
          · exact h8 x (by simp [hx])
        · have := hperm.length_eq
          rw [List.length_cons] at this
          show (queued ring).length ≤ s.permits + s.notifies + (s.holders - 1)
          omega
        · have := reals_perm hperm
          show s.backlog = reals s.pend + reals (queued ring) + reals (s.popped ++ [j])
          simp only [reals, List.countP_append, List.countP_cons, List.countP_nil] at this h10 ⊢
          omega
        · intro q hq
          rcases hmem q hq with ⟨hq, hne⟩ | rfl
          · show Serves ((s.log ++ [Ev.pop j]).filter _) _
            rw [filter_snoc_ne (by rw [hev]; exact fun e => hne e.symm)]
            exact h13 q hq
          · show Serves ((s.log ++ [Ev.pop j]).filter _) _
            rw [filter_snoc_eq (by rw [hev]; exact hjq)]
            apply Serves.pop
            show Serves (s.log.filter _) (j :: rest)
            rw [← e2]
            exact h13 q0 hq0
        · intro q hq
          change q ∉ ring.map Sq.id at hq
          rw [hids.mem_iff] at hq
          show Serves ((s.log ++ [Ev.pop j]).filter _) _
          rw [filter_snoc_ne]
          · exact h14 q hq
          · rw [hev]
            rintro rfl
            exact hq (List.mem_map.mpr ⟨q0, hq0, hjq.symm⟩)
  | account i =>
    simp only [step] at hs
    rcases hl : s.popped[i]? with _ | j
    · rw [hl] at hs; cases hs
    · rw [hl] at hs
      simp only [Option.some.injEq] at hs
      subst hs
      have hc := fun x => count_eraseIdx hl x
      have hcp := fun p => countP_eraseIdx hl p
      have hm : j ∈ s.popped := List.mem_of_getElem? hl
      obtain ⟨h1, h2, h3, h4, h5, h6, h7, h8, h9, h10, h11, h12, h13, h14⟩ := h
      refine ⟨h1, h2, h3, h4, ?_, h6, ?_, ?_, h9, ?_, h11, h12, h13, h14⟩
      · intro x
        have := h5 x
        have := hc x
        show s.accepted.count x = s.pend.count x + (queued s.ring).count x + (s.popped.eraseIdx i).count x + (s.running ++ [j]).count x + s.done.count x
        rw [List.count_append, List.count_cons, List.count_nil]
        omega
      · intro q hq
        have := h7 q hq
        have := hcp (fun j => j.sq == q.id)
        show q.inflight = (s.popped.eraseIdx i ++ (s.running ++ [j])).countP _
        simp only [List.countP_append, List.countP_cons, List.countP_nil] at *
        omega
      · intro x hx
        simp only [List.mem_append, List.mem_cons, List.not_mem_nil, or_false] at hx
        rcases hx with hx | hx | rfl
        · exact h8 x (by simp [List.mem_of_mem_eraseIdx hx])
        · exact h8 x (by simp [hx])
        · exact h8 x (by simp [hm])
      · have := hcp (·.real)
        show (if j.real then s.backlog - 1 else s.backlog) = reals s.pend + reals (queued s.ring) + reals (s.popped.eraseIdx i)
        simp only [reals] at *
        cases hr : j.real <;> simp [hr] at * <;> omega
  | finish i =>
    simp only [step] at hs
    rcases hl : s.running[i]? with _ | j
    · rw [hl] at hs; cases hs
    · rw [hl] at hs
      simp only at hs
      have hm : j ∈ s.running := List.mem_of_getElem? hl
      have hal : j.sq ∈ s.ring.map Sq.id := h.alive j (by simp [hm])
      have hc := fun x => count_eraseIdx hl x
      have hcp := fun p => countP_eraseIdx hl p
      obtain ⟨A, q0, B, e1, e2, e3⟩ := finishRing_split h.nodup hal
      obtain ⟨h1, h2, h3, h4, h5, h6, h7, h8, h9, h10, h11, h12, h13, h14⟩ := h
      have hq0 : q0 ∈ s.ring := by rw [e1]; simp
      have h1' := h1
      rw [e1] at h1'
      obtain ⟨hA, hB⟩ := nodup_split h1'
      have hcons : ∀ ring, queued ring = queued s.ring → ∀ x, s.accepted.count x = s.pend.count x + (queued ring).count x + s.popped.count x + (s.running.eraseIdx i).count x + (s.done ++ [j]).count x := by
        intro ring hr x
        have := h5 x
        have := hc x
        rw [hr, List.count_append, List.count_cons, List.count_nil]
        omega
      have hcount : ∀ q : Sq, (s.popped ++ s.running).countP (fun j => j.sq == q.id) = (s.popped ++ s.running.eraseIdx i).countP (fun j => j.sq == q.id) + if j.sq == q.id then 1 else 0 := by
        intro q
        have := hcp (fun j => j.sq == q.id)
        rw [List.countP_append, List.countP_append]
        omega
      rcases e3 with ⟨g1, g2, g3, g4⟩ | ⟨g1, g4⟩
      · rw [g4] at hs
        simp only [Option.some.injEq] at hs
        subst hs
        have hr : queued (A ++ B) = queued s.ring := by
          rw [e1, queued, queued, List.flatMap_append, List.flatMap_append, List.flatMap_cons, g3]; rfl
        have hnone : ∀ x ∈ s.popped ++ s.running.eraseIdx i, x.sq ≠ j.sq := by
          have := hcount q0
          rw [← h7 q0 hq0, g2, e2] at this
          simp only [BEq.rfl, if_true] at this
          have h0 : (s.popped ++ s.running.eraseIdx i).countP (fun x => x.sq == j.sq) = 0 := by omega
          rw [List.countP_eq_zero] at h0
          intro x hx
          simpa using h0 x hx
        have hsub : ∀ q ∈ A ++ B, q ∈ s.ring ∧ q.id ≠ j.sq := by
          intro q hq
          rw [e1]
          rcases List.mem_append.mp hq with hq | hq
          · exact ⟨by simp [hq], e2 ▸ hA q hq⟩
          · exact ⟨by simp [hq], e2 ▸ hB q hq⟩
        have hids : ∀ n, n ∈ (A ++ B).map Sq.id ↔ (n ∈ s.ring.map Sq.id ∧ n ≠ j.sq) := by
          intro n
          constructor
          · intro hn
            obtain ⟨q, hq, rfl⟩ := List.mem_map.mp hn
            exact ⟨List.mem_map.mpr ⟨q, (hsub q hq).1, rfl⟩, (hsub q hq).2⟩
          · rintro ⟨hn, hne⟩
            obtain ⟨q, hq, rfl⟩ := List.mem_map.mp hn
            rw [e1] at hq
            simp only [List.mem_append, List.mem_cons] at hq
            rcases hq with hq | rfl | hq
            · exact List.mem_map.mpr ⟨q, by simp [hq], rfl⟩
            · exact absurd e2 hne
            · exact List.mem_map.mpr ⟨q, by simp [hq], rfl⟩
        refine ⟨?_, ?_, ?_, ?_, hcons _ hr, h6, ?_, ?_, ?_, ?_, h11, h12, ?_, ?_⟩
        · apply List.Nodup.sublist _ h1'
          apply List.Sublist.map
          exact List.Sublist.append (List.Sublist.refl _) (List.sublist_cons_self _ _)
        · exact (hids 0).mpr ⟨h2, fun e => g1 e.symm⟩
        · intro q hq; exact h3 q (hsub q hq).1
        · intro q hq; exact h4 q (hsub q hq).1
        · intro q hq
          have g := hcount q
          have hne : (j.sq == q.id) = false := by simpa using fun e => (hsub q hq).2 e.symm
          rw [hne] at g
          rw [h7 q (hsub q hq).1, g]
          simp
        · intro x hx
          refine (hids x.sq).mpr ⟨h8 x ?_, hnone x hx⟩
          rcases List.mem_append.mp hx with hx | hx
          · simp [hx]
          · simp [List.mem_of_mem_eraseIdx hx]
        · show (queued (A ++ B)).length ≤ _
          rw [hr]; exact h9
        · show s.backlog = reals s.pend + reals (queued (A ++ B)) + _
          rw [hr]; exact h10
        · intro q hq; exact h13 q (hsub q hq).1
        · intro q hq
          by_cases hqj : q = j.sq
          · subst hqj
            have := h13 q0 hq0
            rw [g3, e2] at this
            exact this
          · exact h14 q (fun hh => hq ((hids q).mpr ⟨hh, hqj⟩))
      · rw [g4] at hs
        simp only [Option.some.injEq] at hs
        subst hs
        have hr : queued (A ++ { q0 with inflight := q0.inflight - 1 } :: B) = queued s.ring := by
          rw [e1, queued, queued, List.flatMap_append, List.flatMap_append, List.flatMap_cons, List.flatMap_cons]
        have hids : (A ++ { q0 with inflight := q0.inflight - 1 } :: B).map Sq.id = s.ring.map Sq.id := by
          rw [e1]; simp
        have hmem : ∀ q ∈ A ++ { q0 with inflight := q0.inflight - 1 } :: B, (q ∈ s.ring ∧ q.id ≠ j.sq) ∨ q = { q0 with inflight := q0.inflight - 1 } := by
          intro q hq
          simp only [List.mem_append, List.mem_cons] at hq
          rcases hq with hq | hq | hq
          · exact .inl ⟨by rw [e1]; simp [hq], e2 ▸ hA q hq⟩
          · exact .inr hq
          · exact .inl ⟨by rw [e1]; simp [hq], e2 ▸ hB q hq⟩
        refine ⟨by rw [hids]; exact h1, by rw [hids]; exact h2, ?_, ?_, hcons _ hr, h6, ?_, ?_, ?_, ?_, h11, h12, ?_, ?_⟩
        · intro q hq
          rcases hmem q hq with ⟨hq, _⟩ | rfl
          · exact h3 q hq
          · exact h3 q0 hq0
        · intro q hq
          rcases hmem q hq with ⟨hq, _⟩ | rfl
          · exact h4 q hq
          · exact h4 q0 hq0
        · intro q hq
          have g := hcount q
          rcases hmem q hq with ⟨hq, hne⟩ | rfl
          · have hne' : (j.sq == q.id) = false := by simpa using fun e => hne e.symm
            rw [hne'] at g
            rw [h7 q hq, g]
            simp
          · have g' := hcount q0
            rw [← h7 q0 hq0, e2] at g'
            simp only [BEq.rfl, if_true] at g'
            show q0.inflight - 1 = (s.popped ++ s.running.eraseIdx i).countP (fun x => x.sq == q0.id)
            rw [e2]
            omega
        · intro x hx
          show x.sq ∈ (A ++ { q0 with inflight := q0.inflight - 1 } :: B).map Sq.id
          rw [hids]
          apply h8
          rcases List.mem_append.mp hx with hx | hx
          · simp [hx]
          · simp [List.mem_of_mem_eraseIdx hx]
        · show (queued (A ++ { q0 with inflight := q0.inflight - 1 } :: B)).length ≤ _
          rw [hr]; exact h9
        · show s.backlog = reals s.pend + reals (queued (A ++ { q0 with inflight := q0.inflight - 1 } :: B)) + _
          rw [hr]; exact h10
        · intro q hq
          rcases hmem q hq with ⟨hq, _⟩ | rfl
          · exact h13 q hq
          · exact h13 q0 hq0
        · intro q hq
          change q ∉ (A ++ { q0 with inflight := q0.inflight - 1 } :: B).map Sq.id at hq
          rw [hids] at hq
          exact h14 q hq
  | setLifo b =>
    simp only [step, Option.some.injEq] at hs
    subst hs
    obtain ⟨h1, h2, h3, h4, h5, h6, h7, h8, h9, h10, h11, h12, h13, h14⟩ := h
    refine ⟨h1, h2, h3, ?_, h5, h6, h7, h8, h9, h10, h11, h12, h13, h14⟩
    intro q hq
    rcases h4 q hq with hh | ⟨hl, hh⟩
    · exact .inl hh
    · rcases ha with ha | ha | ha
      · exact .inr ⟨ha, hh⟩
      · rw [ha] at hl; cases hl
      · left
        have : q.jobs = [] := by
          rw [queued, List.flatMap_eq_nil_iff] at ha
          exact ha q hq
        rw [hh, this]
        rfl

theorem inv_reach {lifo : Bool} {max : Nat} {s : S} (h : Reach lifo max s) : Inv s := by
  induction h with
  | init => exact inv_init lifo max
  | step op _ ha hs ih => exact inv_step ih ha hs

end Mtev.Jobq
