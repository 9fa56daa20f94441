import Verif.HttpInProps

/-! # C33: the payload complete flag of a chunked body -/

namespace Mtev.HttpIn

theorem finish_zero {s s' : S} {n : Int} (h : finish s n = .ok (s', 0)) : s'.complete = true := by
  unfold finish at h
  cases hi : s.inp with
  | nil => rw [hi] at h; simp at h
  | cons head rest =>
    rw [hi] at h
    dsimp only at h
    split_ifs at h with h1 h2 h3 h4 h5
    all_goals simp only [Out.ok.injEq, Prod.mk.injEq, reduceCtorEq] at h
    all_goals obtain ⟨h, h'⟩ := h
    all_goals first
      | (exfalso; omega)
      | rw [← h]

theorem consumeRead_zero : ∀ (rds : List Rd) (s s' : S) (rds' : List Rd),
    consumeRead rds s = .ok (s', 0, rds') → s'.complete = true := by
  intro rds
  induction rds with
  | nil =>
    intro s s' rds' h
    rw [consumeRead] at h
    cases hh : header s.inp with
    | ub => rw [hh] at h; cases h
    | abort => rw [hh] at h; cases h
    | ok x =>
      rw [hh] at h
      simp only [Out.ok_bind] at h
      cases x with
      | bad => simp [Out.pure_eq] at h
      | more inp => simp [Out.pure_eq] at h
      | «have» n inp =>
        dsimp only at h
        cases hf : finish { s with inp := inp } n with
        | ub => rw [hf] at h; cases h
        | abort => rw [hf] at h; cases h
        | ok y =>
          obtain ⟨s2, m⟩ := y
          rw [hf] at h
          simp only [Out.ok_bind, Out.pure_eq, Out.ok.injEq, Prod.mk.injEq] at h
          obtain ⟨rfl, rfl, _⟩ := h
          exact finish_zero hf
  | cons r rds ih =>
    intro s s' rds' h
    rw [consumeRead] at h
    cases hh : header s.inp with
    | ub => rw [hh] at h; cases h
    | abort => rw [hh] at h; cases h
    | ok x =>
      rw [hh] at h
      simp only [Out.ok_bind] at h
      cases x with
      | bad => simp [Out.pure_eq] at h
      | more inp =>
        dsimp only at h
        cases hd : doRead r (room (expand inp)) s.sock with
        | again => rw [hd] at h; simp [Out.pure_eq] at h
        | eof => rw [hd] at h; simp [Out.pure_eq] at h
        | err => rw [hd] at h; simp [Out.pure_eq] at h
        | got bs rest => rw [hd] at h; exact ih _ _ _ h
      | «have» n inp =>
        dsimp only at h
        cases hf : finish { s with inp := inp } n with
        | ub => rw [hf] at h; cases h
        | abort => rw [hf] at h; cases h
        | ok y =>
          obtain ⟨s2, m⟩ := y
          rw [hf] at h
          simp only [Out.ok_bind, Out.pure_eq, Out.ok.injEq, Prod.mk.injEq] at h
          obtain ⟨rfl, rfl, _⟩ := h
          exact finish_zero hf

theorem deliver_flag (s : S) (f : Bool) (len : Nat) :
    (deliver s f len).1.lastChunk = s.lastChunk ∧
    (s.complete = true → (deliver s f len).1.complete = true) := by
  unfold deliver
  by_cases hl : len = 0
  · simp [hl]
  · rw [if_neg hl]
    cases hu : s.user with
    | nil => cases f <;> simp
    | cons a b => simp

theorem finish_last {s s' : S} {n m : Int} (h : finish s n = .ok (s', m)) : s'.lastChunk = s.lastChunk := by
  unfold finish at h
  cases hi : s.inp with
  | nil => rw [hi] at h; simp at h; rw [← h.1]
  | cons head rest =>
    rw [hi] at h
    dsimp only at h
    split_ifs at h
    all_goals simp only [Out.ok.injEq, Prod.mk.injEq, reduceCtorEq] at h
    all_goals rw [← h.1]

theorem consumeRead_last : ∀ (rds : List Rd) (s s' : S) (n : Int) (rds' : List Rd),
    consumeRead rds s = .ok (s', n, rds') → s'.lastChunk = s.lastChunk := by
  intro rds
  induction rds with
  | nil =>
    intro s s' n' rds' h
    rw [consumeRead] at h
    cases hh : header s.inp with
    | ub => rw [hh] at h; cases h
    | abort => rw [hh] at h; cases h
    | ok x =>
      rw [hh] at h
      simp only [Out.ok_bind] at h
      cases x with
      | bad => simp [Out.pure_eq] at h; rw [← h.1]
      | more inp => simp [Out.pure_eq] at h; rw [← h.1]
      | «have» n inp =>
        dsimp only at h
        cases hf : finish { s with inp := inp } n with
        | ub => rw [hf] at h; cases h
        | abort => rw [hf] at h; cases h
        | ok y =>
          obtain ⟨s2, m⟩ := y
          rw [hf] at h
          simp only [Out.ok_bind, Out.pure_eq, Out.ok.injEq, Prod.mk.injEq] at h
          obtain ⟨rfl, rfl, _⟩ := h
          have := finish_last hf
          exact this
  | cons r rds ih =>
    intro s s' n' rds' h
    rw [consumeRead] at h
    cases hh : header s.inp with
    | ub => rw [hh] at h; cases h
    | abort => rw [hh] at h; cases h
    | ok x =>
      rw [hh] at h
      simp only [Out.ok_bind] at h
      cases x with
      | bad => simp [Out.pure_eq] at h; rw [← h.1]
      | more inp =>
        dsimp only at h
        cases hd : doRead r (room (expand inp)) s.sock with
        | again => rw [hd] at h; simp [Out.pure_eq] at h; rw [← h.1]
        | eof => rw [hd] at h; simp [Out.pure_eq] at h; rw [← h.1]
        | err => rw [hd] at h; simp [Out.pure_eq] at h; rw [← h.1]
        | got bs rest => rw [hd] at h; have := ih _ _ _ _ h; exact this
      | «have» n inp =>
        dsimp only at h
        cases hf : finish { s with inp := inp } n with
        | ub => rw [hf] at h; cases h
        | abort => rw [hf] at h; cases h
        | ok y =>
          obtain ⟨s2, m⟩ := y
          rw [hf] at h
          simp only [Out.ok_bind, Out.pure_eq, Out.ok.injEq, Prod.mk.injEq] at h
          obtain ⟨rfl, rfl, _⟩ := h
          have := finish_last hf
          exact this

theorem consumeChunked_flag {len : Nat} {rds rds' : List Rd} {s s' : S} {r : Ret}
    (h : consumeChunked len rds s = .ok (s', r, rds')) (hs : s.lastChunk = true → s.complete = true) :
    s'.lastChunk = true → s'.complete = true := by
  unfold consumeChunked at h
  by_cases hl : s.lastChunk = true
  · simp only [hl, if_true, Out.pure_eq, Out.ok.injEq, Prod.mk.injEq] at h
    rw [← h.1]
    exact fun _ => (deliver_flag s true len).2 (hs hl)
  · rw [if_neg hl] at h
    cases hc : consumeRead rds s with
    | ub => rw [hc] at h; cases h
    | abort => rw [hc] at h; cases h
    | ok x =>
      obtain ⟨s1, n, rd1⟩ := x
      rw [hc] at h
      simp only [Out.ok_bind] at h
      have hlast := consumeRead_last _ _ _ _ _ hc
      by_cases h0 : n = 0
      · rw [if_pos h0] at h
        subst h0
        have hcm := consumeRead_zero _ _ _ _ hc
        simp only [Out.pure_eq, Out.ok.injEq, Prod.mk.injEq] at h
        rw [← h.1]
        exact fun _ => (deliver_flag _ true len).2 hcm
      rw [if_neg h0] at h
      by_cases h1 : n < 0
      · rw [if_pos h1] at h
        simp only [Out.pure_eq, Out.ok.injEq, Prod.mk.injEq] at h
        rw [← h.1]
        intro ht
        rw [hlast] at ht
        exact absurd ht hl
      · rw [if_neg h1] at h
        simp only [Out.pure_eq, Out.ok.injEq, Prod.mk.injEq] at h
        rw [← h.1]
        intro ht
        rw [(deliver_flag _ false len).1] at ht
        exact absurd (hlast.symm.trans ht) hl

/-- Whatever the stream and the calls: once the last chunk has been taken from the connection, the
request reports its payload complete, even while bytes are still waiting for the application. -/
theorem C33_complete_flag (s s' : S) (calls : List (Nat × List Rd)) (rs : List Ret)
    (h0 : s.lastChunk = false) (h : run consumeChunked calls s = .ok (s', rs)) :
    s'.lastChunk = true → s'.complete = true := by
  have : ∀ (calls : List (Nat × List Rd)) (s s' : S) (rs : List Ret),
      (s.lastChunk = true → s.complete = true) → run consumeChunked calls s = .ok (s', rs) →
      s'.lastChunk = true → s'.complete = true := by
    intro calls
    induction calls with
    | nil =>
      intro s s' rs hs h
      simp only [run, Out.ok.injEq, Prod.mk.injEq] at h
      rw [← h.1]; exact hs
    | cons c cs ih =>
      obtain ⟨len, rds⟩ := c
      intro s s' rs hs h
      simp only [run] at h
      cases hc : consumeChunked len rds s with
      | ub => rw [hc] at h; cases h
      | abort => rw [hc] at h; cases h
      | ok x =>
        obtain ⟨s1, r1, rd1⟩ := x
        rw [hc] at h
        simp only [Out.ok_bind] at h
        cases hr : run consumeChunked cs s1 with
        | ub => rw [hr] at h; cases h
        | abort => rw [hr] at h; cases h
        | ok y =>
          obtain ⟨s2, rs2⟩ := y
          rw [hr] at h
          simp only [Out.ok_bind, Out.pure_eq, Out.ok.injEq, Prod.mk.injEq] at h
          rw [← h.1]
          exact ih s1 s2 rs2 (consumeChunked_flag hc hs) hr
  exact this calls s s' rs (fun h => by rw [h0] at h; cases h) h

/-- A body whose last chunk is taken while its bytes still wait for the application. -/
example : ∃ s' rs, run consumeChunked [(1, [.data 100]), (1, [])] (start (bytesOf "2\r\nab\r\n0\r\n\r\n") 0) = .ok (s', rs) ∧
    s'.lastChunk = true ∧ rs = [.bytes (bytesOf "a"), .bytes (bytesOf "b")] := by
  have h : (match run consumeChunked [(1, [.data 100]), (1, [])] (start (bytesOf "2\r\nab\r\n0\r\n\r\n") 0) with
    | .ok (s', rs) => decide (s'.lastChunk = true ∧ rs = [.bytes (bytesOf "a"), .bytes (bytesOf "b")])
    | _ => false) = true := by decide +kernel
  revert h
  cases run consumeChunked [(1, [.data 100]), (1, [])] (start (bytesOf "2\r\nab\r\n0\r\n\r\n") 0) with
  | ok x => intro h; exact ⟨x.1, x.2, rfl, by simpa using h⟩
  | ub => simp
  | abort => simp

end Mtev.HttpIn
