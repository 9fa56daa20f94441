import Verif.JobqInv

/-!
C30: the job queue neither loses nor duplicates jobs, serves each subqueue in order, and serves every
subqueue.  C31: the backlog limit.

The statements speak of the jobs accepted, waiting, handed out, running and finished, and of the history of
pushes and pops.  The order of service is specified by `Serves` (JobqInv.lean), which knows nothing of rings,
chains and tail pointers.  `Reach` ranges over every interleaving of any number of producers and consumers
that keeps the contract `Allowed`.
-/

namespace Mtev.Jobq

/-- The jobs of subqueue `q` waiting in the queue, next one first. -/
def waitingIn (q : Nat) (s : S) : List Job := (queued s.ring).filter (fun j => j.sq == q)

/-- The number of jobs of subqueue `q` that have been handed to a consumer and have not finished. -/
def unfinished (q : Nat) (s : S) : Nat := (s.popped ++ s.running).countP (fun j => j.sq == q)

/-- Everything waiting or handed out. -/
def present (s : S) : List Job := s.pend ++ (queued s.ring ++ (s.popped ++ (s.running ++ s.done)))

/-! ### Running examples -/

/-- Run actions, checking the contract. -/
def runAllowed : List Op → S → Option S
  | [], s => some s
  | op :: ops, s => if Allowed op s then (match step op s with | some t => runAllowed ops t | none => none) else none

theorem runAllowed_reach {lifo : Bool} {max : Nat} {ops : List Op} {s t : S} (h : Reach lifo max s)
    (hr : runAllowed ops s = some t) : Reach lifo max t := by
  induction ops generalizing s with
  | nil => simp only [runAllowed, Option.some.injEq] at hr; exact hr ▸ h
  | cons op ops ih =>
    unfold runAllowed at hr
    split at hr
    · rename_i ha
      split at hr
      · rename_i u hu; exact ih (.step op h ha hu) hr
      · cases hr
    · cases hr

/-- Three producers, two subqueues, a consumer that takes two of the jobs and finishes one. -/
def demoOps : List Op :=
  [.enqueue 5 true, .tryEnqueue 7, .enqueue 5 true, .load 0, .push 1, .push 0, .notify, .push 0, .notify, .notify,
   .wait, .dequeue 2, .wait, .dequeue 2, .account 0, .account 0, .finish 0]

def demo : Option S := runAllowed demoOps (init false 0)

/-! ### C30 -/

/-- C30: every accepted job is at exactly one place: on its way into the queue, waiting, handed to a
consumer, running or finished.  No job is lost, none appears twice. -/
theorem C30_exactly_once_partial {lifo : Bool} {max : Nat} {s : S} (h : Reach lifo max s) :
    s.accepted.Perm (present s) ∧ (s.accepted.map Job.id).Nodup ∧ ((present s).map Job.id).Nodup :=
  ⟨(inv_reach h).perm', (inv_reach h).idsNodup, (inv_reach h).allNodup⟩

example : ∃ s, Reach false 0 s ∧ s.accepted.length = 3 ∧ (queued s.ring).length = 1 ∧ s.running.length = 1 ∧ s.done.length = 1 := by
  have h : (demo.map (fun s => (s.accepted.length, (queued s.ring).length, s.running.length, s.done.length))) = some (3, 1, 1, 1) := by
    decide +kernel
  rcases hd : demo with _ | s
  · rw [hd] at h; cases h
  · rw [hd] at h
    simp only [Option.map_some, Option.some.injEq, Prod.mk.injEq] at h
    exact ⟨s, runAllowed_reach .init hd, h.1, h.2.1, h.2.2.1, h.2.2.2⟩

theorem waitingIn_eq {s : S} (h : Inv s) {q : Sq} (hq : q ∈ s.ring) : waitingIn q.id s = q.jobs := by
  obtain ⟨A, B, e⟩ := List.append_of_mem hq
  have hn := h.nodup
  rw [e] at hn
  obtain ⟨hA, hB⟩ := nodup_split hn
  have key : ∀ l : List Sq, (∀ x ∈ l, x ∈ s.ring ∧ x.id ≠ q.id) → (queued l).filter (fun j => j.sq == q.id) = [] := by
    intro l hl
    rw [List.filter_eq_nil_iff]
    intro j hj
    obtain ⟨x, hx, hjx⟩ := List.mem_flatMap.mp hj
    have := h.home x (hl x hx).1 j hjx
    have := (hl x hx).2
    simp
    omega
  have hself : q.jobs.filter (fun j => j.sq == q.id) = q.jobs := by
    rw [List.filter_eq_self]
    intro j hj
    simpa using h.home q hq j hj
  have k1 := key A (fun x hx => ⟨by rw [e]; simp [hx], hA x hx⟩)
  have k2 := key B (fun x hx => ⟨by rw [e]; simp [hx], hB x hx⟩)
  rw [waitingIn, e]
  rw [queued] at k1 k2
  rw [queued, List.flatMap_append, List.flatMap_cons, List.filter_append, List.filter_append, k1, k2, hself]
  simp

theorem waitingIn_none {s : S} (h : Inv s) {q : Nat} (hq : q ∉ s.ring.map Sq.id) : waitingIn q s = [] := by
  rw [waitingIn, List.filter_eq_nil_iff]
  intro j hj
  obtain ⟨x, hx, hjx⟩ := List.mem_flatMap.mp hj
  have := h.home x hx j hjx
  simp only [beq_iff_eq]
  intro e
  exact hq (List.mem_map.mpr ⟨x, hx, by omega⟩)

/-- C30: within each subqueue jobs are served in the order of the mode in force when they were pushed: the
jobs waiting, next one first, are exactly what the history prescribes. -/
theorem C30_order_partial {lifo : Bool} {max : Nat} {s : S} (h : Reach lifo max s) (q : Nat) :
    Serves (s.log.filter (fun e => e.sq == q)) (waitingIn q s) := by
  have hi := inv_reach h
  by_cases hq : q ∈ s.ring.map Sq.id
  · obtain ⟨x, hx, rfl⟩ := List.mem_map.mp hq
    rw [waitingIn_eq hi hx]
    exact hi.order x hx
  · rw [waitingIn_none hi hq]
    exact hi.orderNil q hq

/-- The jobs pushed, in order. -/
def pushed : List Ev → List Job
  | [] => []
  | .push j _ :: r => j :: pushed r
  | .pop _ :: r => pushed r

/-- The jobs popped, in order. -/
def served : List Ev → List Job
  | [] => []
  | .push _ _ :: r => served r
  | .pop j :: r => j :: served r

theorem pushed_append (a b : List Ev) : pushed (a ++ b) = pushed a ++ pushed b := by
  induction a with
  | nil => rfl
  | cons e a ih => cases e <;> simp [pushed, ih]

theorem served_append (a b : List Ev) : served (a ++ b) = served a ++ served b := by
  induction a with
  | nil => rfl
  | cons e a ih => cases e <;> simp [served, ih]

theorem serves_fifo {l : List Ev} {w : List Job} (h : Serves l w) (hf : ∀ j, Ev.push j true ∉ l) :
    pushed l = served l ++ w := by
  induction h with
  | nil => rfl
  | @fifo j l w _ ih =>
    have := ih (fun x hx => hf x (by simp [hx]))
    rw [pushed_append, served_append, this]
    simp [pushed, served]
  | lifo j _ _ => exact absurd (by simp) (hf j)
  | @pop j l w _ ih =>
    have := ih (fun x hx => hf x (by simp [hx]))
    rw [pushed_append, served_append, this]
    simp [pushed, served]

/-- C30: a subqueue into which jobs were pushed in FIFO mode only hands them out first in, first out: the jobs
handed out, followed by those waiting, are the jobs in the order they were pushed. -/
theorem C30_fifo_partial {lifo : Bool} {max : Nat} {s : S} (h : Reach lifo max s) (q : Nat)
    (hf : ∀ j, j.sq = q → Ev.push j true ∉ s.log) :
    pushed (s.log.filter (fun e => e.sq == q)) = served (s.log.filter (fun e => e.sq == q)) ++ waitingIn q s := by
  apply serves_fifo (C30_order_partial h q)
  intro j hj
  rw [List.mem_filter] at hj
  exact hf j (by simpa [Ev.sq] using hj.2) hj.1

/-- In LIFO mode the last job pushed is the next one served. -/
theorem serves_lifo {l : List Ev} {w : List Job} {j : Job} (h : Serves (l ++ [.push j true]) w) :
    ∃ w', Serves l w' ∧ w = j :: w' := by
  generalize hl : l ++ [Ev.push j true] = l' at h
  cases h with
  | nil => simp at hl
  | fifo x _ =>
    have := List.append_inj_right' hl rfl
    simp at this
  | @lifo x l2 w2 h2 =>
    have h1 := List.append_inj_right' hl rfl
    have h3 := List.append_inj_left' hl rfl
    simp only [List.cons.injEq, Ev.push.injEq, and_true] at h1
    rw [h1, h3]
    exact ⟨w2, h2, rfl⟩
  | pop x _ =>
    have := List.append_inj_right' hl rfl
    simp at this

/-- The order specification determines the waiting jobs. -/
theorem serves_det {l : List Ev} {w w' : List Job} (h : Serves l w) (h' : Serves l w') : w = w' := by
  induction h generalizing w' with
  | nil =>
    generalize hl : ([] : List Ev) = l at h'
    cases h' <;> simp at hl
    rfl
  | @fifo j l w _ ih =>
    generalize hl : l ++ [Ev.push j false] = l' at h'
    cases h' with
    | nil => simp at hl
    | fifo x h2 =>
      have h1 := List.append_inj_right' hl rfl
      have h3 := List.append_inj_left' hl rfl
      simp only [List.cons.injEq, Ev.push.injEq, and_true] at h1
      rw [ih (h3 ▸ h2), h1]
    | lifo x _ => have := List.append_inj_right' hl rfl; simp at this
    | pop x _ => have := List.append_inj_right' hl rfl; simp at this
  | @lifo j l w _ ih =>
    obtain ⟨w2, h2, e⟩ := serves_lifo h'
    rw [e, ih h2]
  | @pop j l w _ ih =>
    generalize hl : l ++ [Ev.pop j] = l' at h'
    cases h' with
    | nil => simp at hl
    | fifo x h2 => have := List.append_inj_right' hl rfl; simp at this
    | lifo x _ => have := List.append_inj_right' hl rfl; simp at this
    | pop x h2 =>
      have h1 := List.append_inj_right' hl rfl
      have h3 := List.append_inj_left' hl rfl
      simp only [List.cons.injEq, Ev.pop.injEq, and_true] at h1
      subst h1
      have := ih (h3 ▸ h2)
      simpa using this

/-- C30: a consumer that has been woken and looks into the queue gets a job whenever one is waiting, and it is
the first waiting job of its subqueue. -/
theorem C30_dequeue_returns_partial {lifo : Bool} {max : Nat} {s : S} (h : Reach lifo max s) (conc : Nat)
    (ha : Allowed (.dequeue conc) s) (hh : 0 < s.holders) (hw : queued s.ring ≠ []) :
    ∃ j t, step (.dequeue conc) s = some t ∧ t.popped = s.popped ++ [j] ∧ (queued s.ring).Perm (j :: queued t.ring) ∧
      (waitingIn j.sq s).head? = some j ∧ waitingIn j.sq t = (waitingIn j.sq s).tail := by
  have hi := inv_reach h
  rcases hp : popRing conc s.ring with _ | ⟨j, ring⟩
  · exfalso
    apply hw
    apply popRing_none hp
    intro q hq
    rw [hi.infl q hq]
    have := List.countP_le_length (p := fun j : Job => j.sq == q.id) (l := s.popped ++ s.running)
    rw [List.length_append] at this
    exact Nat.lt_of_le_of_lt this ha
  · have hs : step (.dequeue conc) s = some { s with holders := s.holders - 1, ring := ring, popped := s.popped ++ [j], log := s.log ++ [.pop j] } := by
      simp only [step]
      rw [if_neg (by omega), hp]
    refine ⟨j, _, hs, rfl, popRing_perm hp, ?_⟩
    have hi' := inv_step hi ha hs
    obtain ⟨A, q0, B, rest, e1, e2, e3⟩ := popRing_split hp
    have hq0 : q0 ∈ s.ring := by rw [e1]; simp
    have hjq : j.sq = q0.id := hi.home q0 hq0 j (by rw [e2]; simp)
    have w1 := waitingIn_eq hi hq0
    have w2 := waitingIn_eq hi' (q := { q0 with jobs := rest, tail := if rest = [] then none else q0.tail, inflight := q0.inflight + 1 }) (by simp [e3])
    simp only at w2
    rw [hjq, w1, w2, e2]
    simp

/-- C30: no wake-up is lost: for every job waiting in the queue there is a producer about to signal, a signal
waiting for a consumer, or a consumer on its way to the queue. -/
theorem C30_no_lost_wakeup_partial {lifo : Bool} {max : Nat} {s : S} (h : Reach lifo max s) :
    (queued s.ring).length ≤ s.permits + s.notifies + s.holders :=
  (inv_reach h).perm

/-- No thread that has begun an operation can take another step, and no signal is left for the consumers. -/
def Quiet (s : S) : Prop :=
  ∀ op, (match op with
    | .load _ | .cas _ | .push _ | .notify | .wait | .dequeue _ | .account _ | .finish _ => True
    | _ => False) → step op s = none

/-- C30: when the queue comes to rest, every accepted job has been handed out and has finished. -/
theorem C30_nothing_left_behind_partial {lifo : Bool} {max : Nat} {s : S} (h : Reach lifo max s) (hq : Quiet s) :
    s.accepted.Perm s.done := by
  have hi := inv_reach h
  have h1 : s.pend = [] := by
    rcases hp : s.pend with _ | ⟨j, r⟩
    · rfl
    · have := hq (.push 0) trivial
      simp [step, hp] at this
  have h2 : s.popped = [] := by
    rcases hp : s.popped with _ | ⟨j, r⟩
    · rfl
    · have := hq (.account 0) trivial
      simp [step, hp] at this
  have h3 : s.running = [] := by
    rcases hp : s.running with _ | ⟨j, r⟩
    · rfl
    · have := hq (.finish 0) trivial
      simp only [step, hp, List.getElem?_cons_zero] at this
      split at this <;> cases this
  have h4 : s.notifies = 0 := by
    have := hq .notify trivial
    simp only [step] at this
    split at this
    · assumption
    · cases this
  have h5 : s.permits = 0 := by
    have := hq .wait trivial
    simp only [step] at this
    split at this
    · assumption
    · cases this
  have h6 : s.holders = 0 := by
    have := hq (.dequeue 1) trivial
    simp only [step] at this
    split at this
    · assumption
    · split at this <;> cases this
  have h7 : queued s.ring = [] := by
    have := hi.perm
    rw [h4, h5, h6] at this
    exact List.length_eq_zero_iff.mp (by omega)
  have := hi.perm'
  rw [h1, h2, h3, h7] at this
  simpa using this

/-- C30: completing a job never touches a subqueue that has been freed. -/
theorem C30_no_freed_subqueue_partial {lifo : Bool} {max : Nat} {s : S} (h : Reach lifo max s) : s.bad = false :=
  (inv_reach h).ok

/-! ### No starvation -/

/-- `Passed q s t k m`: an execution from `s` to `t` all through which subqueue `q` has a job waiting; `k` times
a consumer was given a job of another subqueue although `q` was using less than its share of the consumers
(or none at all), and `m` new subqueues came up. -/
inductive Passed (q : Nat) (s : S) : S → Nat → Nat → Prop
  | refl : Passed q s s 0 0
  | other {t u : S} {k m : Nat} (op : Op) : Passed q s t k m → waitingIn q t ≠ [] → Allowed op t → step op t = some u →
      (∀ conc, op ≠ .dequeue conc) → Passed q s u k (m + (u.ring.length - t.ring.length))
  | deq {t u : S} {k m : Nat} (conc : Nat) (j : Job) : Passed q s t k m → waitingIn q t ≠ [] →
      unfinished q t < max 1 (conc / t.ring.length - 1) → Allowed (.dequeue conc) t →
      step (.dequeue conc) t = some u → u.popped = t.popped ++ [j] → j.sq ≠ q → Passed q s u (k + 1) m

/-- Where a subqueue is in the ring. -/
def pos (q : Nat) : List Sq → Nat
  | [] => 0
  | s :: r => if s.id = q then 0 else pos q r + 1

theorem pos_append_not {q : Nat} {A B : List Sq} (h : ∀ x ∈ A, x.id ≠ q) : pos q (A ++ B) = A.length + pos q B := by
  induction A with
  | nil => simp
  | cons a A ih =>
    rw [List.cons_append, pos, if_neg (h a (by simp)), ih (fun x hx => h x (by simp [hx])), List.length_cons]
    omega

theorem pos_append_mem {q : Nat} {A B : List Sq} (h : q ∈ A.map Sq.id) : pos q (A ++ B) = pos q A := by
  induction A with
  | nil => simp at h
  | cons a A ih =>
    rw [List.cons_append, pos, pos]
    split
    · rfl
    · rename_i hne
      rw [ih]
      rcases List.mem_cons.mp h with h | h
      · exact absurd h.symm hne
      · exact h

theorem pos_lt {q : Nat} {A : List Sq} (h : q ∈ A.map Sq.id) : pos q A < A.length := by
  induction A with
  | nil => simp at h
  | cons a A ih =>
    rw [pos, List.length_cons]
    split
    · omega
    · rename_i hne
      rcases List.mem_cons.mp h with h | h
      · exact absurd h.symm hne
      · have := ih h; omega

theorem pos_ids {q : Nat} {A B : List Sq} (h : A.map Sq.id = B.map Sq.id) : pos q A = pos q B := by
  induction A generalizing B with
  | nil => cases B with
    | nil => rfl
    | cons b B => simp at h
  | cons a A ih => cases B with
    | nil => simp at h
    | cons b B =>
      simp only [List.map_cons, List.cons.injEq] at h
      rw [pos, pos, h.1, ih h.2]

theorem mem_of_waiting {s : S} (h : Inv s) {q : Nat} (hw : waitingIn q s ≠ []) :
    ∃ x ∈ s.ring, x.id = q ∧ x.jobs ≠ [] := by
  by_cases hq : q ∈ s.ring.map Sq.id
  · obtain ⟨x, hx, rfl⟩ := List.mem_map.mp hq
    rw [waitingIn_eq h hx] at hw
    exact ⟨x, hx, rfl, hw⟩
  · exact absurd (waitingIn_none h hq) hw

theorem nodup_inj {ring : List Sq} (hn : (ring.map Sq.id).Nodup) {x y : Sq} (hx : x ∈ ring) (hy : y ∈ ring) (e : x.id = y.id) : x = y := by
  obtain ⟨A, B, rfl⟩ := List.append_of_mem hy
  obtain ⟨hA, hB⟩ := nodup_split hn
  simp only [List.mem_append, List.mem_cons] at hx
  rcases hx with hx | hx | hx
  · exact absurd e (hA x hx)
  · exact hx
  · exact absurd e (hB x hx)

theorem pickAny_first {ring : List Sq} {x : Sq} (hx : x ∈ ring) (hj : x.jobs ≠ []) {conc : Nat}
    (hi : x.inflight < max 1 (conc / ring.length - 1)) :
    ∃ lim p, x.inflight < lim ∧ pick lim ring = some p ∧ pickAny ring (limits conc ring.length) = some p := by
  have hsome : ∀ lim, x.inflight < lim → ∃ p, pick lim ring = some p := by
    intro lim hl
    rcases hp : pick lim ring with _ | p
    · exact absurd ⟨hj, hl⟩ (pick_none hp x hx)
    · exact ⟨p, rfl⟩
  unfold limits
  split
  · rename_i h0
    obtain ⟨p, hp⟩ := hsome 1 (by rw [h0] at hi; simpa using hi)
    exact ⟨1, p, by rw [h0] at hi; simpa using hi, hp, by simp [pickAny, hp]⟩
  · rename_i h0
    by_cases h1 : conc / ring.length = 1
    · rw [h1] at hi ⊢
      simp only [Nat.sub_self, Nat.max_eq_left (Nat.zero_le 1)] at hi ⊢
      obtain ⟨p, hp⟩ := hsome 1 hi
      have hn : pick 0 ring = none := by
        rcases h00 : pick 0 ring with _ | ⟨a, b, c⟩
        · rfl
        · have := (pick_some h00).2.2.1; omega
      exact ⟨1, p, hi, hp, by simp [pickAny, hn, hp]⟩
    · have hl : x.inflight < conc / ring.length - 1 := by
        generalize conc / ring.length = d at *
        omega
      obtain ⟨p, hp⟩ := hsome _ hl
      exact ⟨_, p, hl, hp, by simp [pickAny, hp]⟩

theorem pos_pop {ring ring' : List Sq} {x : Sq} {conc : Nat} {j : Job} (hx : x ∈ ring)
    (hj : x.jobs ≠ []) (hi : x.inflight < max 1 (conc / ring.length - 1)) (hhome : ∀ y ∈ ring, ∀ j ∈ y.jobs, j.sq = y.id)
    (hp : popRing conc ring = some (j, ring')) (hne : j.sq ≠ x.id) (hn : (ring.map Sq.id).Nodup) :
    pos x.id ring' < pos x.id ring := by
  obtain ⟨lim, ⟨A, s, B⟩, hl, hpick, hany⟩ := pickAny_first hx hj hi
  unfold popRing at hp
  rw [hany] at hp
  simp only at hp
  split at hp
  · cases hp
  · rename_i j' rest hjobs
    simp only [Option.some.injEq, Prod.mk.injEq] at hp
    obtain ⟨rfl, rfl⟩ := hp
    obtain ⟨e, _, _, hbefore⟩ := pick_some hpick
    subst e
    have hs : s.id ≠ x.id := by
      have := hhome s (by simp) j' (by rw [hjobs]; simp)
      omega
    have hA : ∀ y ∈ A, y.id ≠ x.id := by
      intro y hy e
      have : y = x := nodup_inj hn (by simp [hy]) hx e
      subst this
      exact hbefore y hy ⟨hj, hl⟩
    have hB : x ∈ B := by
      simp only [List.mem_append, List.mem_cons] at hx
      rcases hx with hx | rfl | hx
      · exact absurd rfl (hA x hx)
      · exact absurd rfl hs
      · exact hx
    have hBm : x.id ∈ B.map Sq.id := List.mem_map.mpr ⟨x, hB, rfl⟩
    rw [List.append_assoc, pos_append_mem hBm, pos_append_not hA, pos, if_neg hs]
    omega

theorem pos_other {op : Op} {s t : S} (h : Inv s) (hs : step op s = some t) (hd : ∀ conc, op ≠ .dequeue conc) {q : Nat}
    (hq : ∃ x ∈ s.ring, x.id = q ∧ x.jobs ≠ []) : pos q t.ring ≤ pos q s.ring + (t.ring.length - s.ring.length) := by
  obtain ⟨x, hx, rfl, hxj⟩ := hq
  have hxm : x.id ∈ s.ring.map Sq.id := List.mem_map.mpr ⟨x, hx, rfl⟩
  have same : t.ring = s.ring → pos x.id t.ring ≤ pos x.id s.ring + (t.ring.length - s.ring.length) := by
    intro e; rw [e]; omega
  cases op with
  | tryEnqueue _ => simp only [step, Option.some.injEq] at hs; subst hs; exact same rfl
  | enqueue _ _ => simp only [step, Option.some.injEq] at hs; subst hs; exact same rfl
  | load i =>
    simp only [step] at hs
    split at hs
    · split at hs
      · simp only [Option.some.injEq] at hs; subst hs; exact same rfl
      · split at hs <;> (simp only [Option.some.injEq] at hs; subst hs; exact same rfl)
    · cases hs
  | cas i =>
    simp only [step] at hs
    split at hs
    · split at hs <;> (simp only [Option.some.injEq] at hs; subst hs; exact same rfl)
    · cases hs
  | push i =>
    simp only [step] at hs
    rcases hl : s.pend[i]? with _ | j
    · rw [hl] at hs; cases hs
    · rw [hl] at hs
      simp only [Option.some.injEq] at hs
      subst hs
      show pos x.id (pushRing s.lifo j s.ring) ≤ pos x.id s.ring + ((pushRing s.lifo j s.ring).length - s.ring.length)
      rcases pushRing_split s.lifo j h.nodup h.zero with ⟨A, y, B, e1, e2, e3⟩ | ⟨hn, A, y, B, e1, e2, e3⟩
      · have : (pushRing s.lifo j s.ring).map Sq.id = s.ring.map Sq.id := by
          rw [e3, e1]
          simp [(pushSq_jobs (j := j) (h.jobsNodup (q := y) (by rw [e1]; simp)) (h.tail y (by rw [e1]; simp))).2.1]
        rw [pos_ids this]
        omega
      · rw [e3, e1]
        by_cases hA : x.id ∈ A.map Sq.id
        · rw [pos_append_mem hA, pos_append_mem hA]; omega
        · have hA' : ∀ z ∈ A, z.id ≠ x.id := fun z hz e => hA (List.mem_map.mpr ⟨z, hz, e⟩)
          rw [pos_append_not hA', pos_append_not hA', pos, pos, pos]
          have hnew : (pushSq s.lifo j ⟨j.sq, [], none, 0⟩).id = j.sq := (pushSq_jobs (by simp) (by simp)).2.1
          rw [hnew]
          simp only [List.length_append, List.length_cons]
          split
          · omega
          · split
            · rename_i hh
              exact absurd (by rw [hh]; exact hxm) hn
            · omega
  | notify => simp only [step] at hs; split at hs; · cases hs
              · simp only [Option.some.injEq] at hs; subst hs; exact same rfl
  | extra => simp only [step, Option.some.injEq] at hs; subst hs; exact same rfl
  | wait => simp only [step] at hs; split at hs; · cases hs
            · simp only [Option.some.injEq] at hs; subst hs; exact same rfl
  | dequeue conc => exact absurd rfl (hd conc)
  | account i =>
    simp only [step] at hs
    split at hs
    · simp only [Option.some.injEq] at hs; subst hs; exact same rfl
    · cases hs
  | finish i =>
    simp only [step] at hs
    rcases hl : s.running[i]? with _ | j
    · rw [hl] at hs; cases hs
    · rw [hl] at hs
      simp only at hs
      have hm : j ∈ s.running := List.mem_of_getElem? hl
      have hal : j.sq ∈ s.ring.map Sq.id := h.alive j (by simp [hm])
      obtain ⟨A, y, B, e1, e2, e3⟩ := finishRing_split h.nodup hal
      rcases e3 with ⟨g1, g2, g3, g4⟩ | ⟨g1, g4⟩
      · rw [g4] at hs
        simp only [Option.some.injEq] at hs
        subst hs
        show pos x.id (A ++ B) ≤ pos x.id s.ring + ((A ++ B).length - s.ring.length)
        rw [e1]
        by_cases hA : x.id ∈ A.map Sq.id
        · rw [pos_append_mem hA, pos_append_mem hA]; omega
        · have hA' : ∀ z ∈ A, z.id ≠ x.id := fun z hz e => hA (List.mem_map.mpr ⟨z, hz, e⟩)
          rw [pos_append_not hA', pos_append_not hA', pos]
          have hne : y.id ≠ x.id := by
            intro e
            have hn := h.nodup
            have : y = x := nodup_inj hn (by rw [e1]; simp) hx e
            subst this
            exact hxj g3
          rw [if_neg hne]
          omega
      · rw [g4] at hs
        simp only [Option.some.injEq] at hs
        subst hs
        show pos x.id (A ++ { y with inflight := y.inflight - 1 } :: B) ≤ _
        have : (A ++ { y with inflight := y.inflight - 1 } :: B).map Sq.id = s.ring.map Sq.id := by rw [e1]; simp
        rw [pos_ids this]
        exact Nat.le_add_right _ _
  | setLifo b => simp only [step, Option.some.injEq] at hs; subst hs; exact same rfl

/-- C30: no starvation.  While a subqueue has a job waiting and uses less than its share of the consumers, it is
passed over fewer times than there are subqueues, counting those that come up in the meantime. -/
theorem C30_no_starvation_partial {lifo : Bool} {max : Nat} {q : Nat} {s t : S} {k m : Nat} (h : Reach lifo max s)
    (hw : waitingIn q s ≠ []) (hp : Passed q s t k m) : k < s.ring.length + m := by
  have hi := inv_reach h
  have key : Inv t ∧ k + pos q t.ring ≤ pos q s.ring + m := by
    induction hp with
    | refl => exact ⟨hi, by omega⟩
    | @other t u k m op _ hwt ha hs hd ih =>
      obtain ⟨it, ih⟩ := ih
      have := pos_other it hs hd (mem_of_waiting it hwt)
      exact ⟨inv_step it ha hs, by omega⟩
    | @deq t u k m conc j _ hwt hu ha hs hpop hne ih =>
      obtain ⟨it, ih⟩ := ih
      refine ⟨inv_step it ha hs, ?_⟩
      obtain ⟨x, hx, rfl, hxj⟩ := mem_of_waiting it hwt
      have hin : x.inflight < Max.max 1 (conc / t.ring.length - 1) := by
        rw [it.infl x hx]; exact hu
      simp only [step] at hs
      split at hs
      · cases hs
      · rcases hpr : popRing conc t.ring with _ | ⟨j', ring⟩
        · rw [hpr] at hs
          simp only [Option.some.injEq] at hs
          subst hs
          simp at hpop
        · rw [hpr] at hs
          simp only [Option.some.injEq] at hs
          subst hs
          have : j' = j := by simpa using hpop
          subst this
          have := pos_pop hx hxj hin it.home hpr hne it.nodup
          show k + 1 + pos x.id ring ≤ _
          omega
  obtain ⟨x, hx, e, _⟩ := mem_of_waiting hi hw
  have := pos_lt (q := q) (A := s.ring) (List.mem_map.mpr ⟨x, hx, e⟩)
  omega

/-- A subqueue with a waiting job that is passed over once: subqueue 5 while 7 is served. -/
def passDemo : Option S := runAllowed [.enqueue 5 true, .enqueue 7 true, .push 0, .push 0, .notify, .notify, .wait] (init false 0)

example : ∃ s t, Reach false 0 s ∧ waitingIn 5 s ≠ [] ∧ Passed 5 s t 1 0 := by
  have h1 : (passDemo.bind (fun s => (step (.dequeue 2) s).map (fun t => (waitingIn 5 s == [], unfinished 5 s, decide (Allowed (.dequeue 2) s), s.ring.length, t.popped == s.popped ++ [⟨1, 7, true⟩])))) = some (false, 0, true, 3, true) := by
    decide +kernel
  rcases hd : passDemo with _ | s
  · rw [hd] at h1; cases h1
  · rw [hd] at h1
    simp only [Option.bind_some] at h1
    rcases ht : step (.dequeue 2) s with _ | t
    · rw [ht] at h1; cases h1
    · rw [ht] at h1
      simp only [Option.map_some, Option.some.injEq, Prod.mk.injEq, decide_eq_true_eq, beq_iff_eq, beq_eq_false_iff_ne] at h1
      obtain ⟨g1, g2, g3, g4, g5⟩ := h1
      refine ⟨s, t, runAllowed_reach .init hd, g1, ?_⟩
      have := Passed.deq (q := 5) 2 ⟨1, 7, true⟩ (Passed.refl (s := s)) g1 (by rw [g2]; omega) g3 ht g5 (by decide)
      exact this

/-- C30 is false for mode changes while jobs wait: two jobs are pushed in LIFO mode, the queue is switched to
FIFO and a third job is pushed.  The first two are nowhere any more. -/
theorem C30_mode_change_loses_jobs_violated :
    ∃ s, run [.enqueue 0 true, .enqueue 0 true, .push 0, .push 0, .setLifo false, .enqueue 0 true, .push 0] (init true 0) = some s ∧
      s.accepted.length = 3 ∧ present s = [⟨2, 0, true⟩] ∧ ¬ s.accepted.Perm (present s) := by
  refine ⟨_, rfl, by decide +kernel, by decide +kernel, ?_⟩
  intro h
  have := h.length_eq
  revert this
  decide +kernel

/-! ### C31 -/

theorem reach_trying {lifo : Bool} {max : Nat} {s : S} (h : Reach lifo max s) :
    s.max = max ∧ ∀ p ∈ s.trying, ∀ bl, p.2 = some bl → bl < max := by
  induction h with
  | init => exact ⟨rfl, by simp [init]⟩
  | @step s t op _ _ hs ih =>
    obtain ⟨hm, ih⟩ := ih
    have he : ∀ i, ∀ p ∈ s.trying.eraseIdx i, ∀ bl, p.2 = some bl → bl < max := fun i p hp => ih p (List.mem_of_mem_eraseIdx hp)
    cases op with
    | tryEnqueue q =>
      simp only [step, Option.some.injEq] at hs
      subst hs
      refine ⟨hm, ?_⟩
      intro p hp
      rcases List.mem_append.mp hp with hp | hp
      · exact ih p hp
      · simp at hp; subst hp; simp
    | enqueue _ _ => simp only [step, Option.some.injEq] at hs; subst hs; exact ⟨hm, ih⟩
    | load i =>
      simp only [step] at hs
      split at hs
      · split at hs
        · simp only [Option.some.injEq] at hs; subst hs; exact ⟨hm, he i⟩
        · split at hs
          · simp only [Option.some.injEq] at hs; subst hs; exact ⟨hm, he i⟩
          · rename_i hlt
            simp only [Option.some.injEq] at hs; subst hs
            refine ⟨hm, ?_⟩
            intro p hp
            rcases List.mem_append.mp hp with hp | hp
            · exact he i p hp
            · simp only [List.mem_cons, List.not_mem_nil, or_false] at hp
              subst hp
              intro bl hbl
              simp only [Option.some.injEq] at hbl
              omega
      · cases hs
    | cas i =>
      simp only [step] at hs
      split at hs
      · split at hs
        · simp only [Option.some.injEq] at hs; subst hs; exact ⟨hm, he i⟩
        · simp only [Option.some.injEq] at hs; subst hs
          refine ⟨hm, ?_⟩
          intro p hp
          rcases List.mem_append.mp hp with hp | hp
          · exact he i p hp
          · simp at hp; subst hp; simp
      · cases hs
    | push i =>
      simp only [step] at hs
      split at hs
      · simp only [Option.some.injEq] at hs; subst hs; exact ⟨hm, ih⟩
      · cases hs
    | notify => simp only [step] at hs; split at hs; · cases hs
                · simp only [Option.some.injEq] at hs; subst hs; exact ⟨hm, ih⟩
    | extra => simp only [step, Option.some.injEq] at hs; subst hs; exact ⟨hm, ih⟩
    | wait => simp only [step] at hs; split at hs; · cases hs
              · simp only [Option.some.injEq] at hs; subst hs; exact ⟨hm, ih⟩
    | dequeue conc =>
      simp only [step] at hs
      split at hs
      · cases hs
      · split at hs <;> (simp only [Option.some.injEq] at hs; subst hs; exact ⟨hm, ih⟩)
    | account i =>
      simp only [step] at hs
      split at hs
      · simp only [Option.some.injEq] at hs; subst hs; exact ⟨hm, ih⟩
      · cases hs
    | finish i =>
      simp only [step] at hs
      split at hs
      · split at hs <;> (simp only [Option.some.injEq] at hs; subst hs; exact ⟨hm, ih⟩)
      · cases hs
    | setLifo b => simp only [step, Option.some.injEq] at hs; subst hs; exact ⟨hm, ih⟩

/-- The jobs with an event that are accounted for: accepted and not yet taken by a consumer. -/
def outstanding (s : S) : Nat := reals s.pend + reals (queued s.ring) + reals s.popped

/-- C31: the accounted backlog is the number of jobs accepted and not yet taken by a consumer. -/
theorem C31_backlog_exact {lifo : Bool} {max : Nat} {s : S} (h : Reach lifo max s) : s.backlog = outstanding s :=
  (inv_reach h).backlog

/-- C31: when a call of `eventer_jobq_try_enqueue` gets its job accepted, the backlog, with the new job
counted, is within the limit, whatever the other threads do. -/
theorem C31_accepted_within_limit {lifo : Bool} {max : Nat} {s t : S} (h : Reach lifo max s) (hm : 0 < max) {op : Op}
    (hop : (∃ i, op = .load i) ∨ (∃ i, op = .cas i)) (hs : step op s = some t) (hacc : t.accepted ≠ s.accepted) :
    t.backlog ≤ max ∧ t.backlog = s.backlog + 1 := by
  obtain ⟨hmax, ht⟩ := reach_trying h
  rcases hop with ⟨i, rfl⟩ | ⟨i, rfl⟩
  · simp only [step] at hs
    split at hs
    · rw [if_neg (by omega)] at hs
      split at hs <;> (simp only [Option.some.injEq] at hs; subst hs; exact absurd rfl hacc)
    · cases hs
  · simp only [step] at hs
    split at hs
    · rename_i j bl hl
      have := ht _ (List.mem_of_getElem? hl) bl rfl
      split at hs
      · rename_i hb
        simp only [Option.some.injEq] at hs
        subst hs
        exact ⟨by show bl + 1 ≤ max; omega, by show bl + 1 = s.backlog + 1; omega⟩
      · simp only [Option.some.injEq] at hs; subst hs; exact absurd rfl hacc
    · cases hs

/-- Executions in which jobs with an event come in through `eventer_jobq_try_enqueue` only. -/
inductive ReachTry (lifo : Bool) (max : Nat) : S → Prop
  | init : ReachTry lifo max (init lifo max)
  | step {s t : S} (op : Op) : ReachTry lifo max s → Allowed op s → (∀ q, op ≠ .enqueue q true) → step op s = some t →
      ReachTry lifo max t

theorem ReachTry.reach {lifo : Bool} {max : Nat} {s : S} (h : ReachTry lifo max s) : Reach lifo max s := by
  induction h with
  | init => exact .init
  | step op _ ha _ hs ih => exact .step op ih ha hs

/-- C31: if all jobs come in through `eventer_jobq_try_enqueue`, the backlog never exceeds the limit, and so
does the number of jobs waiting. -/
theorem C31_backlog_limit {lifo : Bool} {max : Nat} {s : S} (h : ReachTry lifo max s) (hm : 0 < max) :
    s.backlog ≤ max ∧ outstanding s ≤ max := by
  have key : s.backlog ≤ max := by
    induction h with
    | init => simp [Mtev.Jobq.init]
    | @step s t op hr ha hne hs ih =>
      by_cases hop : (∃ i, op = .load i) ∨ (∃ i, op = .cas i)
      · by_cases hacc : t.accepted = s.accepted
        · rcases hop with ⟨i, rfl⟩ | ⟨i, rfl⟩
          · simp only [Mtev.Jobq.step] at hs
            split at hs
            · split at hs
              · simp only [Option.some.injEq] at hs; subst hs
                simp at hacc
              · split at hs <;> (simp only [Option.some.injEq] at hs; subst hs; exact ih)
            · cases hs
          · simp only [Mtev.Jobq.step] at hs
            split at hs
            · split at hs
              · simp only [Option.some.injEq] at hs; subst hs
                simp at hacc
              · simp only [Option.some.injEq] at hs; subst hs; exact ih
            · cases hs
        · exact (C31_accepted_within_limit hr.reach hm hop hs hacc).1
      · cases op with
        | tryEnqueue _ => simp only [Mtev.Jobq.step, Option.some.injEq] at hs; subst hs; exact ih
        | enqueue q real =>
          cases real with
          | true => exact absurd rfl (hne q)
          | false => simp only [Mtev.Jobq.step, Option.some.injEq] at hs; subst hs; exact ih
        | load i => exact absurd (.inl ⟨i, rfl⟩) hop
        | cas i => exact absurd (.inr ⟨i, rfl⟩) hop
        | push i =>
          simp only [Mtev.Jobq.step] at hs
          split at hs
          · simp only [Option.some.injEq] at hs; subst hs; exact ih
          · cases hs
        | notify => simp only [Mtev.Jobq.step] at hs; split at hs; · cases hs
                    · simp only [Option.some.injEq] at hs; subst hs; exact ih
        | extra => simp only [Mtev.Jobq.step, Option.some.injEq] at hs; subst hs; exact ih
        | wait => simp only [Mtev.Jobq.step] at hs; split at hs; · cases hs
                  · simp only [Option.some.injEq] at hs; subst hs; exact ih
        | dequeue conc =>
          simp only [Mtev.Jobq.step] at hs
          split at hs
          · cases hs
          · split at hs <;> (simp only [Option.some.injEq] at hs; subst hs; exact ih)
        | account i =>
          simp only [Mtev.Jobq.step] at hs
          split at hs
          · simp only [Option.some.injEq] at hs; subst hs
            simp only
            split <;> omega
          · cases hs
        | finish i =>
          simp only [Mtev.Jobq.step] at hs
          split at hs
          · split at hs <;> (simp only [Option.some.injEq] at hs; subst hs; exact ih)
          · cases hs
        | setLifo b => simp only [Mtev.Jobq.step, Option.some.injEq] at hs; subst hs; exact ih
  exact ⟨key, by rw [← C31_backlog_exact h.reach]; exact key⟩

/-- C31: a refused job is never accepted, queued or run. -/
theorem C31_refused_not_queued {lifo : Bool} {max : Nat} {s : S} (h : Reach lifo max s) {j : Job} (hj : j ∈ s.refused) :
    j ∉ s.accepted ∧ j ∉ present s ∧ ∀ x ∈ present s, x.id ≠ j.id := by
  have hi := inv_reach h
  have key : ∀ x ∈ s.accepted, x.id ≠ j.id := by
    intro x hx e
    have hc := hi.ids j.id
    have h1 : 0 < (s.accepted.map Job.id).count j.id := List.count_pos_iff.mpr (List.mem_map.mpr ⟨x, hx, e⟩)
    have h2 : 0 < (s.refused.map Job.id).count j.id := List.count_pos_iff.mpr (List.mem_map.mpr ⟨j, hj, rfl⟩)
    split at hc <;> omega
  refine ⟨fun hh => key j hh rfl, fun hh => key j (hi.perm'.mem_iff.mpr hh) rfl, fun x hx => key x (hi.perm'.mem_iff.mpr hx)⟩

/-- C31: a job is refused only when the limit has been reached. -/
theorem C31_refused_only_when_full {s t : S} {op : Op} (hs : step op s = some t) (hr : t.refused ≠ s.refused) :
    0 < s.max ∧ s.max ≤ s.backlog ∧ t.backlog = s.backlog ∧ ∃ j, t.refused = s.refused ++ [j] := by
  cases op with
  | load i =>
    simp only [step] at hs
    split at hs
    · split at hs
      · simp only [Option.some.injEq] at hs; subst hs; exact absurd rfl hr
      · rename_i h0
        split at hs
        · rename_i hge
          simp only [Option.some.injEq] at hs; subst hs
          exact ⟨by omega, hge, rfl, _, rfl⟩
        · simp only [Option.some.injEq] at hs; subst hs; exact absurd rfl hr
    · cases hs
  | tryEnqueue _ => simp only [step, Option.some.injEq] at hs; subst hs; exact absurd rfl hr
  | enqueue _ _ => simp only [step, Option.some.injEq] at hs; subst hs; exact absurd rfl hr
  | cas i =>
    simp only [step] at hs
    split at hs
    · split at hs <;> (simp only [Option.some.injEq] at hs; subst hs; exact absurd rfl hr)
    · cases hs
  | push i =>
    simp only [step] at hs
    split at hs
    · simp only [Option.some.injEq] at hs; subst hs; exact absurd rfl hr
    · cases hs
  | notify => simp only [step] at hs; split at hs; · cases hs
              · simp only [Option.some.injEq] at hs; subst hs; exact absurd rfl hr
  | extra => simp only [step, Option.some.injEq] at hs; subst hs; exact absurd rfl hr
  | wait => simp only [step] at hs; split at hs; · cases hs
            · simp only [Option.some.injEq] at hs; subst hs; exact absurd rfl hr
  | dequeue conc =>
    simp only [step] at hs
    split at hs
    · cases hs
    · split at hs <;> (simp only [Option.some.injEq] at hs; subst hs; exact absurd rfl hr)
  | account i =>
    simp only [step] at hs
    split at hs
    · simp only [Option.some.injEq] at hs; subst hs; exact absurd rfl hr
    · cases hs
  | finish i =>
    simp only [step] at hs
    split at hs
    · split at hs <;> (simp only [Option.some.injEq] at hs; subst hs; exact absurd rfl hr)
    · cases hs
  | setLifo b => simp only [step, Option.some.injEq] at hs; subst hs; exact absurd rfl hr

/-- Two threads read the same backlog below a limit of one; one is accepted, the other retries and is
refused. -/
def raceOps : List Op := [.tryEnqueue 0, .tryEnqueue 0, .load 0, .load 0, .cas 0, .cas 0, .load 0]

example : ∃ s, Reach false 1 s ∧ s.accepted.length = 1 ∧ s.refused.length = 1 ∧ s.backlog = 1 := by
  have h : ((runAllowed raceOps (init false 1)).map (fun s => (s.accepted.length, s.refused.length, s.backlog))) = some (1, 1, 1) := by
    decide +kernel
  rcases hd : runAllowed raceOps (init false 1) with _ | s
  · rw [hd] at h; cases h
  · rw [hd] at h
    simp only [Option.map_some, Option.some.injEq, Prod.mk.injEq] at h
    exact ⟨s, runAllowed_reach .init hd, h.1, h.2.1, h.2.2⟩

/-- `eventer_jobq_enqueue` does not look at the limit: with a limit of one it accepts any number of jobs.  The
claim is about `eventer_jobq_try_enqueue`. -/
theorem C31_plain_enqueue_is_unlimited (n : Nat) :
    ∃ s, Reach false 1 s ∧ s.backlog = n ∧ s.accepted.length = n := by
  induction n with
  | zero => exact ⟨_, .init, rfl, rfl⟩
  | succ n ih =>
    obtain ⟨s, hr, hb, hl⟩ := ih
    refine ⟨_, .step (.enqueue 0 true) hr trivial rfl, ?_, ?_⟩
    · simp [hb]
    · simp [hl]

end Mtev.Jobq
