import Verif.Jaeger

/-!
C169: spans sent to Jaeger.
-/

namespace Mtev.Jaeger

/-- The spans published in the program, in order. -/
def offered (ops : List Op) : List Nat := ops.filterMap fun
  | .enqueue x => some x
  | _ => none

structure Inv (backlog maxBatch : Nat) (off : List Nat) (s : St) : Prop where
  all : s.sent.flatten ++ s.batch ++ s.queue = off.take backlog
  size : s.size = (off.take backlog).length
  drop : s.dropped = s.sent.flatten
  batch : s.batch.length ≤ maxBatch
  sizes : ∀ b ∈ s.sent, b ≠ [] ∧ b.length ≤ maxBatch

theorem step_inv {backlog maxBatch : Nat} {off : List Nat} {s : St} (hb : backlog < 2 ^ 32)
    (h : Inv backlog maxBatch off s) (x : Op) :
    Inv backlog maxBatch (off ++ offered [x]) (step backlog maxBatch s x) := by
  cases x with
  | enqueue v =>
    show Inv _ _ (off ++ [v]) (enqueue backlog s v)
    have hsz := h.size
    rw [List.length_take] at hsz
    unfold enqueue
    by_cases c : s.size < backlog
    · rw [if_pos c]
      have hlt : off.length < backlog := by omega
      have e1 : off.take backlog = off := List.take_of_length_le (by omega)
      have e2 : (off ++ [v]).take backlog = off ++ [v] := List.take_of_length_le (by simp; omega)
      refine ⟨?_, ?_, h.drop, h.batch, h.sizes⟩
      · rw [e2, ← e1, ← h.all]; simp
      · rw [e2]
        show (s.size + 1) % 2 ^ 32 = _
        rw [Nat.mod_eq_of_lt (by omega)]
        simp; omega
    · rw [if_neg c]
      have e2 : (off ++ [v]).take backlog = off.take backlog := List.take_append_of_le_length (by omega)
      exact ⟨by rw [e2]; exact h.all, by rw [e2]; exact h.size, h.drop, h.batch, h.sizes⟩
  | dequeue =>
    show Inv _ _ (off ++ []) (dequeue maxBatch s)
    rw [List.append_nil]
    unfold dequeue
    by_cases c : s.batch.length < maxBatch
    · rw [if_pos c]
      cases hq : s.queue with
      | nil => exact h
      | cons y ys =>
        refine ⟨?_, h.size, h.drop, by simp; omega, h.sizes⟩
        have := h.all
        rw [hq] at this
        simpa using this
    · rw [if_neg c]; exact h
  | submit =>
    show Inv _ _ (off ++ []) (submit s)
    rw [List.append_nil]
    unfold submit
    by_cases c : s.batch = []
    · rw [if_pos c]; exact h
    · rw [if_neg c]
      refine ⟨?_, h.size, ?_, by simp, ?_⟩
      · have := h.all
        simpa using this
      · simp [h.drop]
      · intro b hbm
        rcases List.mem_append.1 hbm with hm | hm
        · exact h.sizes b hm
        · rw [List.mem_singleton.1 hm]; exact ⟨c, h.batch⟩

theorem run_inv {backlog maxBatch : Nat} (hb : backlog < 2 ^ 32) (ops : List Op) (off : List Nat) (s : St)
    (h : Inv backlog maxBatch off s) :
    Inv backlog maxBatch (off ++ offered ops) (ops.foldl (step backlog maxBatch) s) := by
  induction ops generalizing off s with
  | nil => simpa [offered] using h
  | cons x xs ih =>
    have := ih _ _ (step_inv hb h x)
    have e : offered (x :: xs) = offered [x] ++ offered xs := by
      cases x <;> simp [offered]
    rw [e, ← List.append_assoc]
    exact this

theorem reach {backlog : Nat} (maxBatch : Nat) (hb : backlog < 2 ^ 32) (ops : List Op) :
    Inv backlog maxBatch (offered ops) (ops.foldl (step backlog maxBatch) St.init) := by
  have := run_inv (maxBatch := maxBatch) hb ops [] St.init
    ⟨by simp [St.init], by simp [St.init], rfl, Nat.zero_le _, fun b hb => by cases hb⟩
  simpa using this

/-- C169.  What is submitted is what was published, in order and each span
    once, up to those in the batch and in the queue, for as many spans as the
    backlog allows. -/
theorem C169_order_partial (backlog maxBatch : Nat) (hb : backlog < 2 ^ 32) (ops : List Op)
    (hn : (offered ops).length ≤ backlog) :
    let s := ops.foldl (step backlog maxBatch) St.init
    s.sent.flatten ++ s.batch ++ s.queue = offered ops := by
  have := (reach maxBatch hb ops).all
  rw [List.take_of_length_le hn] at this
  exact this

/-- C169.  No span is submitted that was not published, none twice, none out of
    order, ever. -/
theorem C169_prefix (backlog maxBatch : Nat) (hb : backlog < 2 ^ 32) (ops : List Op) :
    (ops.foldl (step backlog maxBatch) St.init).sent.flatten <+: offered ops := by
  have := (reach maxBatch hb ops).all
  rw [List.append_assoc] at this
  exact List.IsPrefix.trans ⟨_, this⟩ (List.take_prefix _ _)

/-- C169.  Each batch has a span and at most as many as configured; the queue
    is never longer than the backlog; the reference to each span submitted, and
    to no other, is given back. -/
theorem C169_bounds (backlog maxBatch : Nat) (hb : backlog < 2 ^ 32) (ops : List Op) :
    let s := ops.foldl (step backlog maxBatch) St.init
    (∀ b ∈ s.sent, b ≠ [] ∧ b.length ≤ maxBatch) ∧ s.queue.length ≤ backlog ∧ s.dropped = s.sent.flatten := by
  have h := reach maxBatch hb ops
  refine ⟨h.sizes, ?_, h.drop⟩
  have := congrArg List.length h.all
  simp only [List.length_append, List.length_take] at this
  omega

/-- C169.  The full claim is that a span is taken whenever the queue is shorter
    than the backlog.  It is false: the counter is not lowered when spans leave
    the queue, so that once as many spans were published as the backlog allows
    none is ever taken again, be the queue empty. -/
theorem C169_stops_violated (backlog maxBatch : Nat) (hb : backlog < 2 ^ 32) (ops : List Op)
    (hn : backlog ≤ (offered ops).length) (ops' : List Op) :
    let s := (ops ++ ops').foldl (step backlog maxBatch) St.init
    s.sent.flatten ++ s.batch ++ s.queue = (offered ops).take backlog := by
  have h := (reach maxBatch hb (ops ++ ops')).all
  have e : offered (ops ++ ops') = offered ops ++ offered ops' := by simp [offered]
  rw [e, List.take_append_of_le_length hn] at h
  exact h

/-- With a backlog of 2: two spans are submitted, and a third, published when
    the queue is empty, is lost. -/
example : [Op.enqueue 1, .enqueue 2, .dequeue, .dequeue, .submit, .enqueue 3, .dequeue, .submit].foldl (step 2 5) St.init =
    ⟨2, [], [], [[1, 2]], [1, 2]⟩ := by decide

example : (offered [Op.enqueue 1, .enqueue 2, .dequeue, .dequeue, .submit]).length ≤ 2 := by decide

/-- C169.  Without retries a batch is posted once, and success is returned
    exactly for a status of 200 to 299. -/
theorem C169_once (c : Int) (cs : List Int) :
    publish 0 (c :: cs) = some (if 200 ≤ c ∧ c ≤ 299 then 0 else -1) := by
  unfold publish bad
  rw [if_neg (by omega)]
  by_cases h : 200 ≤ c ∧ c ≤ 299
  · rw [if_pos h, if_neg (by simp; omega)]
  · rw [if_neg h, if_pos (by simp; omega)]

/-- C169.  With retries a success ends it, and success is returned. -/
theorem C169_success (retries : Nat) (cs ds : List Int) (c : Int) (hc : 200 ≤ c ∧ c ≤ 299)
    (hcs : retries = 0 → cs = []) (hbad : ∀ x ∈ cs, ¬ (200 ≤ x ∧ x ≤ 299)) : publish retries (cs ++ c :: ds) = some 0 := by
  have hgood : bad c = false := by unfold bad; simp; omega
  induction cs with
  | nil => simp [publish, hgood]
  | cons x xs ih =>
    have hx : bad x = true := by
      have := hbad x List.mem_cons_self
      unfold bad; simp; omega
    have hr : retries > 0 := by
      rcases Nat.eq_zero_or_pos retries with h | h
      · cases hcs h
      · exact h
    rw [List.cons_append, publish, if_pos ⟨hr, hx⟩]
    exact ih (fun h => by omega) (fun y hy => hbad y (List.mem_cons_of_mem _ hy))

/-- C169.  That it gives up after so many retries is false: with one or more it
    posts the same batch for ever while the answers are bad, and no later span
    gets out. -/
theorem C169_retries_violated (retries : Nat) (hr : 0 < retries) (cs : List Int)
    (hbad : ∀ x ∈ cs, ¬ (200 ≤ x ∧ x ≤ 299)) : publish retries cs = none := by
  induction cs with
  | nil => rfl
  | cons x xs ih =>
    have hx : bad x = true := by
      have := hbad x List.mem_cons_self
      unfold bad; simp; omega
    rw [publish, if_pos ⟨hr, hx⟩]
    exact ih (fun y hy => hbad y (List.mem_cons_of_mem _ hy))

example : publish 3 [0, 503, 202] = some 0 ∧ publish 3 [0, 503, 500, 500, 500, 500] = none ∧ publish 0 [503] = some (-1) := by
  decide

end Mtev.Jaeger
