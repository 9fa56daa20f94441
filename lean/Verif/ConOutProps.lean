import Verif.ConOut

/-!
Properties of the output of a console: C137.

Specification: what goes out, followed by what waits, is the text written, in order; with telnet each line feed that goes out comes
right after a carriage return, and nothing but carriage returns is added. No byte is written outside the buffer.
-/
namespace Mtev.ConOut

/-- What waits to be sent. -/
def pending (st : St) : Str := st.data.drop st.completed

/-- The states reached and the text written so far. Output is not aborted. -/
inductive Reach (telnet : Bool) : St → Str → Prop where
  | init : Reach telnet St.init []
  | write {st st' : St} {T : Str} (bs : Str) : Reach telnet st T → step telnet st (.write bs) = .ok st' → Reach telnet st' (T ++ bs)
  | printf {st st' : St} {T : Str} (bs : Str) : Reach telnet st T → step telnet st (.printf bs) = .ok st' → Reach telnet st' (T ++ bs)
  | send {st st' : St} {T : Str} (n : Nat) : Reach telnet st T → step telnet st (.send n) = .ok st' → Reach telnet st' T

/-- The invariant of the buffer. -/
structure Inv (st : St) : Prop where
  cap : st.allocd ≤ st.cap
  len : st.data.length ≤ st.cap
  comp : st.completed ≤ st.data.length
  zero : st.allocd = 0 → st.data = []

theorem ok_b {α β : Type} (a : α) (f : α → Out β) : (Out.ok a).bind f = f a := rfl

/-- Text with the carriage returns the cooker adds; `p` is the byte before. -/
def crlf : Option Nat → Str → Str
  | _, [] => []
  | p, c :: r => if c = 10 then (if p = some 13 then 10 :: crlf (some 10) r else 13 :: 10 :: crlf (some 10) r) else c :: crlf (some c) r

theorem write_spec {st : St} (h : Inv st) (bs : Str) :
    ∃ st', write bs st = .ok st' ∧ Inv st' ∧ st'.data = st.data ++ bs ∧ st'.completed = st.completed ∧ st'.sent = st.sent := by
  unfold write
  by_cases h0 : bs = []
  · rw [if_pos h0, h0]
    exact ⟨st, rfl, h, by simp, rfl, rfl⟩
  · rw [if_neg h0]
    have hl : 0 < bs.length := List.length_pos_iff.2 h0
    have hc := h.cap; have hle := h.len; have hco := h.comp
    unfold grow
    by_cases h1 : st.allocd = 0
    · have hz := h.zero h1
      simp only [h1, if_true, hz, List.length_nil, Nat.zero_add, le_refl]
      refine ⟨_, rfl, ⟨le_refl _, by simp, ?_, fun e => by simp only at e; omega⟩, rfl, rfl, rfl⟩
      rw [hz] at hco
      simp at hco ⊢
      omega
    · simp only [h1, if_false]
      by_cases h2 : st.allocd < st.data.length + bs.length
      · simp only [h2, if_true, le_refl]
        exact ⟨_, rfl, ⟨by simp only; omega, by simp, by simp only [List.length_append]; omega, fun e => absurd e h1⟩, rfl, rfl, rfl⟩
      · simp only [h2, if_false]
        rw [if_pos (by omega)]
        exact ⟨_, rfl, ⟨hc, by simp only [List.length_append]; omega, by simp only [List.length_append]; omega, fun e => absurd e h1⟩, rfl, rfl, rfl⟩

theorem printf_spec {st st' : St} (h : Inv st) (bs : Str) (hs : printf bs st = .ok st') :
    Inv st' ∧ st'.data = st.data ++ bs ∧ st'.completed = st.completed ∧ st'.sent = st.sent ∧ st'.data.length ≤ st'.allocd := by
  have hc := h.cap; have hle := h.len; have hco := h.comp
  have main : ∀ s : St, s.data = st.data → s.completed = st.completed → s.sent = st.sent → s.allocd ≤ s.cap → s.allocd ≠ 0 →
      (if s.cap < s.data.length + puts bs s then Out.ub
        else if s.data.length + bs.length < s.allocd then .ok { s with data := s.data ++ bs }
        else .ok { s with cap := ((bs.length + s.data.length) / 4096 + 1) * 4096, allocd := ((bs.length + s.data.length) / 4096 + 1) * 4096,
                          data := s.data ++ bs }) = .ok st' →
      Inv st' ∧ st'.data = st.data ++ bs ∧ st'.completed = st.completed ∧ st'.sent = st.sent ∧ st'.data.length ≤ st'.allocd := by
    intro s e1 e2 e3 e4 e5 hs
    split at hs
    · cases hs
    split at hs
    · cases hs
      refine ⟨⟨e4, ?_, ?_, fun e => absurd e e5⟩, ?_, e2, e3, by simp only [List.length_append]; omega⟩
      · simp only [List.length_append]; omega
      · simp only [List.length_append, e1, e2]; omega
      · simp only [e1]
    · cases hs
      refine ⟨⟨le_refl _, ?_, ?_, fun e => ?_⟩, ?_, e2, e3, by simp only [List.length_append]; omega⟩
      · simp only [List.length_append]; omega
      · simp only [List.length_append, e1, e2]; omega
      · simp only at e; omega
      · simp only [e1]
  unfold printf at hs
  by_cases h0 : st.allocd = 0
  · simp only [h0, if_true] at hs
    exact main { st with cap := 4096, allocd := 4096 } rfl rfl rfl (le_refl 4096) (by show (4096 : Nat) ≠ 0; decide) hs
  · simp only [h0, if_false] at hs
    exact main st rfl rfl rfl hc h0 hs

theorem cookLoop_spec (t : Str) : ∀ {st : St} (acc : Str) (prev : Option Nat), Inv st →
    ∃ st', cookLoop acc prev t st = .ok st' ∧ Inv st' ∧ st'.data = st.data ++ acc ++ crlf prev t ∧ st'.completed = st.completed ∧ st'.sent = st.sent := by
  induction t with
  | nil =>
    intro st acc prev h
    obtain ⟨s, h1, h2, h3, h4, h5⟩ := write_spec h acc
    exact ⟨s, h1, h2, by simp [crlf, h3], h4, h5⟩
  | cons c r ih =>
    intro st acc prev h
    unfold cookLoop
    by_cases hc : c = 10
    · subst hc
      obtain ⟨s, h1, h2, h3, h4, h5⟩ := write_spec h acc
      rw [if_pos rfl, h1, ok_b]
      by_cases hp : prev = some 13
      · rw [if_pos hp, ok_b]
        obtain ⟨s', g1, g2, g3, g4, g5⟩ := ih [10] (some 10) h2
        exact ⟨s', g1, g2, by rw [g3, h3]; simp [crlf, hp], g4.trans h4, g5.trans h5⟩
      · rw [if_neg hp]
        obtain ⟨s2, k1, k2, k3, k4, k5⟩ := write_spec h2 [13]
        rw [k1, ok_b]
        obtain ⟨s', g1, g2, g3, g4, g5⟩ := ih [10] (some 10) k2
        exact ⟨s', g1, g2, by rw [g3, k3, h3]; simp [crlf, hp], (g4.trans k4).trans h4, (g5.trans k5).trans h5⟩
    · rw [if_neg hc]
      obtain ⟨s', g1, g2, g3, g4, g5⟩ := ih (acc ++ [c]) (some c) h
      exact ⟨s', g1, g2, by rw [g3]; simp [crlf, hc], g4, g5⟩

theorem crlf_id (t : Str) : ∀ p, 10 ∉ t → crlf p t = t := by
  induction t with
  | nil => intro p _; rfl
  | cons c r ih =>
    intro p h
    have hc : c ≠ 10 := fun e => h (by simp [e])
    simp only [crlf, hc, if_false]
    rw [ih _ (fun e => h (List.mem_cons_of_mem _ e))]

/-- The byte before what waits. -/
def before (st : St) : Option Nat := if st.completed = 0 then none else st.data[st.completed - 1]?

theorem cook_spec {st : St} (h : Inv st) :
    ∃ st', cook st = .ok st' ∧ Inv st' ∧ st'.sent = st.sent ∧ pending st' = crlf (before st) (pending st) ∧
      ((st'.completed = 0) ∨ (st'.completed = st.completed ∧ st'.data = st.data)) ∧ (st.data = [] ∨ st'.data ≠ [] ∨ pending st = []) := by
  unfold cook
  by_cases h0 : st.data = []
  · rw [if_pos h0]
    exact ⟨st, rfl, h, rfl, by simp [pending, h0, crlf], Or.inr ⟨rfl, rfl⟩, Or.inl h0⟩
  rw [if_neg h0, if_neg (by have := h.comp; omega)]
  simp only
  by_cases h1 : 10 ∈ st.data.drop st.completed
  · rw [if_pos h1]
    have hi : Inv ({ st with cap := 0, allocd := 0, data := [], completed := 0 } : St) := ⟨le_refl _, by simp, by simp, fun _ => rfl⟩
    obtain ⟨s, g1, g2, g3, g4, g5⟩ := cookLoop_spec (st.data.drop st.completed) [] (before st) hi
    refine ⟨s, g1, g2, g5, ?_, Or.inl g4, Or.inr (Or.inl ?_)⟩
    · unfold pending
      rw [g4, g3]
      simp
    · rw [g3]
      cases hp : st.data.drop st.completed with
      | nil => rw [hp] at h1; simp at h1
      | cons c r => simp only [crlf]; split_ifs <;> simp
  · rw [if_neg h1]
    exact ⟨st, rfl, h, rfl, (crlf_id _ _ h1).symm, Or.inr ⟨rfl, rfl⟩, Or.inr (Or.inl h0)⟩

/-- Sending, from a state already cooked. -/
def put (n : Nat) (st : St) : St :=
  let k := min n (pending st).length
  if st.data.length ≤ st.completed + k then ⟨0, 0, [], 0, st.sent ++ (pending st).take k⟩
  else { st with sent := st.sent ++ (pending st).take k, completed := st.completed + k }

theorem put_spec {st : St} (h : Inv st) (n : Nat) :
    Inv (put n st) ∧ (put n st).sent ++ pending (put n st) = st.sent ++ pending st ∧ (put n st).sent = st.sent ++ (pending st).take n := by
  have hc := h.cap; have hle := h.len; have hco := h.comp
  have hp : (pending st).length = st.data.length - st.completed := by simp [pending]
  have hm : (pending st).take (min n (pending st).length) = (pending st).take n := by
    rw [List.take_eq_take_iff]; omega
  unfold put
  simp only
  split_ifs with h1
  · refine ⟨⟨le_refl _, by simp, by simp, fun _ => rfl⟩, ?_, by simp only [hm]⟩
    have h2 : (pending st).length ≤ min n (pending st).length := by omega
    simp only [pending, List.drop_nil, List.append_nil] at *
    rw [List.take_of_length_le h2]
  · refine ⟨⟨hc, hle, by simp only; omega, h.zero⟩, ?_, by simp only [hm]⟩
    simp only [pending, List.append_assoc]
    rw [← List.drop_drop, List.take_append_drop]

theorem send_eq (telnet : Bool) (n : Nat) {st s : St} (h0 : st.data ≠ []) (hs : (if telnet then cook st else .ok st) = .ok s) :
    send telnet n st = .ok (put n s) := by
  unfold send
  rw [if_neg h0, hs, ok_b]
  simp only [put, pending]
  by_cases h1 : s.data.length ≤ s.completed + min n (s.data.drop s.completed).length
  · rw [if_pos h1]; exact congrArg Out.ok (if_pos h1).symm
  · rw [if_neg h1]; exact congrArg Out.ok (if_neg h1).symm

theorem send_spec (telnet : Bool) (n : Nat) {st : St} (h : Inv st) :
    ∃ st', send telnet n st = .ok st' ∧ Inv st' ∧
      (st.data = [] ∧ st' = st ∨ st.data ≠ [] ∧ ∃ s, Inv s ∧ st' = put n s ∧ s.sent = st.sent ∧
        (telnet = true → cook st = .ok s) ∧ (telnet = false → s = st)) := by
  by_cases h0 : st.data = []
  · exact ⟨st, by simp [send, h0], h, Or.inl ⟨h0, rfl⟩⟩
  cases telnet with
  | true =>
    obtain ⟨s, g1, g2, g3, _⟩ := cook_spec h
    exact ⟨_, send_eq true n h0 (by simpa using g1), (put_spec g2 n).1, Or.inr ⟨h0, s, g2, rfl, g3, fun _ => g1, by simp⟩⟩
  | false => exact ⟨_, send_eq false n h0 rfl, (put_spec h n).1, Or.inr ⟨h0, st, h, rfl, rfl, by simp, fun _ => rfl⟩⟩

theorem reach_inv {telnet : Bool} {st : St} {T : Str} (h : Reach telnet st T) : Inv st := by
  induction h with
  | init => exact ⟨le_refl _, by simp [St.init], by simp [St.init], fun _ => rfl⟩
  | write bs _ h2 ih =>
    obtain ⟨s, g1, g2, _⟩ := write_spec ih bs
    simp only [step, g1] at h2; cases h2; exact g2
  | printf bs _ h2 ih => exact (printf_spec ih bs h2).1
  | send n _ h2 ih =>
    obtain ⟨s, g1, g2, _⟩ := send_spec telnet n ih
    simp only [step, g1] at h2; cases h2; exact g2

/-- Nothing but carriage returns is added. -/
theorem crlf_filter (t : Str) : ∀ p, (crlf p t).filter (· ≠ 13) = t.filter (· ≠ 13) := by
  induction t with
  | nil => intro p; rfl
  | cons c r ih =>
    intro p
    simp only [crlf]
    split_ifs with h1 h2
    · subst h1; rw [List.filter_cons_of_pos (by decide), List.filter_cons_of_pos (by decide), ih]
    · subst h1; rw [List.filter_cons_of_neg (by decide), List.filter_cons_of_pos (by decide), List.filter_cons_of_pos (by decide), ih]
    · rw [List.filter_cons, List.filter_cons, ih]

theorem crlf_sub (t : Str) : ∀ p, List.Sublist t (crlf p t) := by
  induction t with
  | nil => intro p; exact List.Sublist.slnil
  | cons c r ih =>
    intro p
    simp only [crlf]
    split_ifs with h1 h2
    · subst h1; exact (ih _).cons_cons _
    · subst h1; exact ((ih _).cons_cons _).cons _
    · exact (ih _).cons_cons _

theorem append_pending {st st' : St} (h : Inv st) (bs : Str) (h1 : st'.data = st.data ++ bs) (h2 : st'.completed = st.completed) :
    pending st' = pending st ++ bs := by
  unfold pending
  rw [h1, h2, List.drop_append_of_le_length h.comp]

/-- C137: what was sent, followed by what waits, is all the text that was written, in order, with carriage returns added and nothing
else. -/
theorem C137_text {telnet : Bool} {st : St} {T : Str} (h : Reach telnet st T) :
    List.Sublist T (st.sent ++ pending st) ∧ (st.sent ++ pending st).filter (· ≠ 13) = T.filter (· ≠ 13) := by
  induction h with
  | init => exact ⟨by simp, by simp [St.init, pending]⟩
  | write bs h1 h2 ih =>
    obtain ⟨s, g1, g2, g3, g4, g5⟩ := write_spec (reach_inv h1) bs
    simp only [step, g1] at h2; cases h2
    rw [append_pending (reach_inv h1) bs g3 g4, g5, ← List.append_assoc]
    exact ⟨ih.1.append (List.Sublist.refl _), by rw [List.filter_append, ih.2, List.filter_append]⟩
  | printf bs h1 h2 ih =>
    obtain ⟨g2, g3, g4, g5, _⟩ := printf_spec (reach_inv h1) bs h2
    rw [append_pending (reach_inv h1) bs g3 g4, g5, ← List.append_assoc]
    exact ⟨ih.1.append (List.Sublist.refl _), by rw [List.filter_append, ih.2, List.filter_append]⟩
  | @send st st' T n h1 h2 ih =>
    obtain ⟨s, g1, g2, g3⟩ := send_spec telnet n (reach_inv h1)
    simp only [step, g1] at h2; cases h2
    rcases g3 with ⟨_, rfl⟩ | ⟨_, s, k1, rfl, k3, k4, k5⟩
    · exact ih
    · rw [(put_spec k1 n).2.1, k3]
      cases telnet with
      | false => rw [k5 rfl]; exact ih
      | true =>
        obtain ⟨s', a1, a2, a3, a4, _⟩ := cook_spec (reach_inv h1)
        rw [k4 rfl] at a1; cases a1
        rw [a4]
        refine ⟨ih.1.trans ((List.Sublist.refl _).append (crlf_sub _ _)), ?_⟩
        rw [List.filter_append, crlf_filter, ← List.filter_append, ih.2]

/-- C137: without telnet the text goes out as it is. -/
theorem C137_plain {st : St} {T : Str} (h : Reach false st T) : st.sent ++ pending st = T := by
  induction h with
  | init => rfl
  | write bs h1 h2 ih =>
    obtain ⟨s, g1, g2, g3, g4, g5⟩ := write_spec (reach_inv h1) bs
    simp only [step, g1] at h2; cases h2
    rw [append_pending (reach_inv h1) bs g3 g4, g5, ← List.append_assoc, ih]
  | printf bs h1 h2 ih =>
    obtain ⟨g2, g3, g4, g5, _⟩ := printf_spec (reach_inv h1) bs h2
    rw [append_pending (reach_inv h1) bs g3 g4, g5, ← List.append_assoc, ih]
  | send n h1 h2 ih =>
    obtain ⟨s, g1, g2, g3⟩ := send_spec false n (reach_inv h1)
    simp only [step, g1] at h2; cases h2
    rcases g3 with ⟨_, rfl⟩ | ⟨_, s, k1, rfl, k3, k4, k5⟩
    · exact ih
    · rw [(put_spec k1 n).2.1, k5 rfl]; exact ih

/-- Every line feed comes after a carriage return; `p` is the byte before. -/
def lfOk : Option Nat → Str → Prop
  | _, [] => True
  | p, c :: r => (c = 10 → p = some 13) ∧ lfOk (some c) r

theorem lfOk_append (a b : Str) : ∀ p, lfOk p (a ++ b) ↔ lfOk p a ∧ lfOk (a.getLast?.or p) b := by
  induction a with
  | nil => intro p; simp [lfOk]
  | cons c r ih =>
    intro p
    simp only [List.cons_append, lfOk, ih, and_assoc]
    rw [show (c :: r).getLast?.or p = r.getLast?.or (some c) by cases r with
      | nil => simp
      | cons d r => simp [List.getLast?_cons]]

theorem lfOk_take (t : Str) (k : Nat) (p : Option Nat) (h : lfOk p t) : lfOk p (t.take k) := by
  rw [← List.take_append_drop k t, lfOk_append] at h
  exact h.1

theorem lfOk_crlf (t : Str) : ∀ p, lfOk p (crlf p t) := by
  induction t with
  | nil => intro p; trivial
  | cons c r ih =>
    intro p
    simp only [crlf]
    split_ifs with h1 h2
    · exact ⟨fun _ => h2, ih _⟩
    · exact ⟨by simp, fun _ => rfl, ih _⟩
    · exact ⟨fun e => absurd e h1, ih _⟩

theorem lfOk_crlf_none (t : Str) (q : Option Nat) : lfOk q (crlf none t) := by
  cases t with
  | nil => trivial
  | cons c r =>
    simp only [crlf]
    split_ifs with h1 h2
    · cases h2
    · exact ⟨by simp, fun _ => rfl, lfOk_crlf _ _⟩
    · exact ⟨fun e => absurd e h1, lfOk_crlf _ _⟩

theorem lfOk_split {s : Str} (h : lfOk none s) (a b : Str) (e : s = a ++ 10 :: b) : a.getLast? = some 13 := by
  rw [e, lfOk_append] at h
  have := h.2.1 rfl
  simpa using this

theorem put_last {s : St} (h : Inv s) (hl : s.completed ≠ 0 → s.sent.getLast? = s.data[s.completed - 1]?) (n : Nat) :
    (put n s).completed ≠ 0 → (put n s).sent.getLast? = (put n s).data[(put n s).completed - 1]? := by
  unfold put
  simp only
  split_ifs with h1
  · intro e; exact absurd rfl e
  · intro hne
    have hp : (pending s).length = s.data.length - s.completed := by simp [pending]
    have hco := h.comp
    by_cases hk : min n (pending s).length = 0
    · simp only [hk, List.take_zero, List.append_nil, Nat.add_zero] at hne ⊢
      exact hl hne
    · have hlen : ((pending s).take (min n (pending s).length)).length = min n (pending s).length := by simp
      have hne' : (pending s).take (min n (pending s).length) ≠ [] := by
        intro e; rw [e] at hlen; simp at hlen; omega
      rw [List.getLast?_append, Option.or_of_isSome (by simpa using hne'), List.getLast?_eq_getElem?, hlen]
      rw [List.getElem?_take_of_lt (by omega)]
      simp only [pending, List.getElem?_drop]
      congr 1
      simp only [pending] at hk
      omega

theorem lines_aux {st : St} {T : Str} (h : Reach true st T) :
    lfOk none st.sent ∧ (st.completed ≠ 0 → st.sent.getLast? = st.data[st.completed - 1]?) := by
  have keep : ∀ {st st' : St} (bs : Str), Inv st → st'.data = st.data ++ bs → st'.completed = st.completed → st'.sent = st.sent →
      (lfOk none st.sent ∧ (st.completed ≠ 0 → st.sent.getLast? = st.data[st.completed - 1]?)) →
      (lfOk none st'.sent ∧ (st'.completed ≠ 0 → st'.sent.getLast? = st'.data[st'.completed - 1]?)) := by
    intro st st' bs hi e1 e2 e3 ⟨a, b⟩
    rw [e1, e2, e3]
    refine ⟨a, fun hne => ?_⟩
    rw [b hne, List.getElem?_append_left (by have := hi.comp; omega)]
  induction h with
  | init => exact ⟨trivial, fun e => absurd rfl e⟩
  | write bs h1 h2 ih =>
    obtain ⟨s, g1, g2, g3, g4, g5⟩ := write_spec (reach_inv h1) bs
    simp only [step, g1] at h2; cases h2
    exact keep bs (reach_inv h1) g3 g4 g5 ih
  | printf bs h1 h2 ih =>
    obtain ⟨g2, g3, g4, g5, _⟩ := printf_spec (reach_inv h1) bs h2
    exact keep bs (reach_inv h1) g3 g4 g5 ih
  | @send st st' T n h1 h2 ih =>
    obtain ⟨s, g1, g2, g3⟩ := send_spec true n (reach_inv h1)
    simp only [step, g1] at h2; cases h2
    rcases g3 with ⟨_, rfl⟩ | ⟨_, s, k1, rfl, k3, k4, k5⟩
    · exact ih
    · obtain ⟨s', a1, a2, a3, a4, a5, _⟩ := cook_spec (reach_inv h1)
      rw [k4 rfl] at a1; cases a1
      have hl : s.completed ≠ 0 → s.sent.getLast? = s.data[s.completed - 1]? := by
        intro hne
        rcases a5 with a5 | ⟨a5, a6⟩
        · exact absurd a5 hne
        · rw [a3, a5, a6]; rw [a5] at hne; exact ih.2 hne
      refine ⟨?_, put_last k1 hl n⟩
      rw [(put_spec k1 n).2.2, lfOk_append, a3]
      refine ⟨ih.1, lfOk_take _ _ _ ?_⟩
      rw [a4]
      unfold before
      split_ifs with hz
      · exact lfOk_crlf_none _ _
      · rw [ih.2 hz]
        cases hd : st.data[st.completed - 1]? with
        | none =>
          have := (reach_inv h1).comp
          rw [List.getElem?_eq_none_iff] at hd
          omega
        | some x => exact lfOk_crlf _ _

/-- C137: with telnet, however the text is written and however much the descriptor takes at a time, each line feed that goes out
follows a carriage return. -/
theorem C137_lines {st : St} {T : Str} (h : Reach true st T) (a b : Str) (e : st.sent = a ++ 10 :: b) : a.getLast? = some 13 :=
  lfOk_split (lines_aux h).1 a b e

theorem crlf_exact (t : Str) (h : 13 ∉ t) : ∀ p, p ≠ some 13 → crlf p t = t.flatMap (fun c => if c = 10 then [13, 10] else [c]) := by
  induction t with
  | nil => intro p _; rfl
  | cons c r ih =>
    intro p hp
    have hr : 13 ∉ r := fun e => h (List.mem_cons_of_mem _ e)
    have hc : c ≠ 13 := fun e => h (by simp [e])
    simp only [crlf, List.flatMap_cons]
    split_ifs with h1
    · rw [ih hr _ (by simp)]; rfl
    · rw [ih hr _ (by simpa using hc)]; rfl

theorem crlf_len (t : Str) : ∀ p, (crlf p t).length ≤ 2 * t.length := by
  induction t with
  | nil => intro p; simp [crlf]
  | cons c r ih =>
    intro p
    have := ih (some c)
    simp only [crlf]
    split_ifs with h1 h2
    · subst h1; simp only [List.length_cons]; omega
    · subst h1; simp only [List.length_cons]; omega
    · simp only [List.length_cons]; omega

theorem at_once {st st1 st2 : St} (hi : Inv st) (h0 : st.data = []) (bs : Str) (n : Nat)
    (hn : 2 * bs.length ≤ n) (h1 : step true st (.write bs) = .ok st1) (h2 : step true st1 (.send n) = .ok st2) :
    st2.sent = st.sent ++ crlf none bs ∧ st2.data = [] := by
  have hz : st.completed = 0 := by have := hi.comp; rw [h0] at this; simpa using this
  obtain ⟨s, g1, g2, g3, g4, g5⟩ := write_spec hi bs
  simp only [step, g1] at h1; cases h1
  have hpe : pending st1 = bs := by rw [append_pending hi bs g3 g4]; simp [pending, h0]
  have hbe : before st1 = none := by simp [before, g4, hz]
  by_cases hbs : bs = []
  · subst hbs
    have hd : st1.data = [] := by rw [g3, h0]; rfl
    simp only [step, send, hd, if_true] at h2
    cases h2
    exact ⟨by simp [g5, crlf], hd⟩
  have hne : st1.data ≠ [] := by rw [g3, h0]; simpa using hbs
  obtain ⟨s, a1, a2, a3, a4, _⟩ := cook_spec g2
  simp only [step] at h2
  rw [send_eq true n hne (by simpa using a1)] at h2
  cases h2
  rw [hpe, hbe] at a4
  have hlen : (pending s).length ≤ n := by
    rw [a4]
    exact le_trans (crlf_len _ _) hn
  refine ⟨?_, ?_⟩
  · rw [(put_spec a2 n).2.2, a3, g5, List.take_of_length_le hlen, a4]
  · unfold put
    simp only
    rw [if_pos]
    have : (pending s).length = s.data.length - s.completed := by simp [pending]
    omega

/-- C137: text without carriage returns, written when nothing waits and taken at once, goes out with each line feed made a carriage
return and a line feed. What is missing: descriptors that would block inside such a pair, see C137_double_violated. -/
theorem C137_exact_partial {st st1 st2 : St} {T : Str} (h : Reach true st T) (h0 : st.data = []) (bs : Str) (hb : 13 ∉ bs) (n : Nat)
    (hn : 2 * bs.length ≤ n) (h1 : step true st (.write bs) = .ok st1) (h2 : step true st1 (.send n) = .ok st2) :
    st2.sent = st.sent ++ bs.flatMap (fun c => if c = 10 then [13, 10] else [c]) ∧ st2.data = [] := by
  rw [← crlf_exact bs hb none (by simp)]
  exact at_once (reach_inv h) h0 bs n hn h1 h2

theorem crlf_keep (t : Str) : ∀ p, lfOk p t → crlf p t = t := by
  induction t with
  | nil => intro p _; rfl
  | cons c r ih =>
    intro p h
    simp only [crlf]
    split_ifs with h1 h2
    · rw [ih _ (by rw [← h1]; exact h.2), h1]
    · exact absurd (h.1 h1) h2
    · rw [ih _ h.2]

theorem lfOk_of (t : Str) : ∀ p, (∀ a b, t = a ++ 10 :: b → a.getLast?.or p = some 13) → lfOk p t := by
  induction t with
  | nil => intro p _; trivial
  | cons c r ih =>
    intro p h
    refine ⟨fun e => by simpa using h [] r (by rw [e]; rfl), ih _ fun a b e => ?_⟩
    have := h (c :: a) b (by rw [e]; rfl)
    cases a with
    | nil => simpa using this
    | cons d a => simpa [List.getLast?_cons] using this

/-- C137: text whose line feeds all follow carriage returns already, written when nothing waits and taken at once, goes out as it is.
What is missing: as in C137_exact_partial. -/
theorem C137_kept_partial {st st1 st2 : St} {T : Str} (h : Reach true st T) (h0 : st.data = []) (bs : Str)
    (hb : ∀ a b, bs = a ++ 10 :: b → a.getLast? = some 13) (n : Nat)
    (hn : 2 * bs.length ≤ n) (h1 : step true st (.write bs) = .ok st1) (h2 : step true st1 (.send n) = .ok st2) :
    st2.sent = st.sent ++ bs ∧ st2.data = [] := by
  have := at_once (reach_inv h) h0 bs n hn h1 h2
  rwa [crlf_keep bs none (lfOk_of bs none fun a b e => by simpa using hb a b e)] at this

/-- C137: a descriptor that takes enough gets everything: nothing stays. -/
theorem C137_flush {telnet : Bool} {st : St} {T : Str} (h : Reach telnet st T) :
    ∃ N, ∀ n, N ≤ n → ∃ st', step telnet st (.send n) = .ok st' ∧ pending st' = [] ∧ st'.sent.filter (· ≠ 13) = T.filter (· ≠ 13) := by
  obtain ⟨s, hs⟩ : ∃ s, (st.data ≠ [] → (if telnet then cook st else .ok st) = .ok s) ∧ Inv s := by
    cases telnet with
    | true => obtain ⟨s, a, b, _⟩ := cook_spec (reach_inv h); exact ⟨s, fun _ => by simpa using a, b⟩
    | false => exact ⟨st, fun _ => rfl, reach_inv h⟩
  refine ⟨(pending s).length, fun n hn => ?_⟩
  by_cases h0 : st.data = []
  · refine ⟨st, by simp [step, send, h0], by simp [pending, h0], ?_⟩
    have := (C137_text h).2
    simpa [pending, h0] using this
  · have e := send_eq telnet n h0 (hs.1 h0)
    have hp : pending (put n s) = [] := by
      have : (pending s).length = s.data.length - s.completed := by simp [pending]
      unfold put
      simp only
      rw [if_pos (by omega)]
      rfl
    refine ⟨_, e, hp, ?_⟩
    have := (C137_text (.send n h e)).2
    rw [hp] at this
    simpa using this

/-- Histories in which formatted output is added only if all that waits was formatted output that no send has touched (`false`). -/
inductive Tidy (telnet : Bool) : Bool → St → Prop where
  | init : Tidy telnet false St.init
  | write {st st' : St} {w : Bool} (bs : Str) : Tidy telnet w st → step telnet st (.write bs) = .ok st' → Tidy telnet true st'
  | printf {st st' : St} {w : Bool} (bs : Str) : Tidy telnet w st → w = false ∨ st.data = [] → step telnet st (.printf bs) = .ok st' → Tidy telnet false st'
  | send {st st' : St} {w : Bool} (n : Nat) : Tidy telnet w st → step telnet st (.send n) = .ok st' → Tidy telnet (w || telnet) st'

theorem Tidy.inv {telnet w : Bool} {st : St} (h : Tidy telnet w st) : Inv st ∧ (w = false → st.data.length ≤ st.allocd) := by
  induction h with
  | init => exact ⟨⟨le_refl _, by simp [St.init], by simp [St.init], fun _ => rfl⟩, fun _ => by simp [St.init]⟩
  | write bs _ h2 ih =>
    obtain ⟨s, g1, g2, _⟩ := write_spec ih.1 bs
    simp only [step, g1] at h2; cases h2
    exact ⟨g2, by simp⟩
  | @printf st st' w bs h1 hw h2 ih =>
    obtain ⟨g1, _, _, _, g5⟩ := printf_spec ih.1 bs h2
    exact ⟨g1, fun _ => g5⟩
  | @send st st' w n h1 h2 ih =>
    obtain ⟨s, g1, g2, g3⟩ := send_spec telnet n ih.1
    simp only [step, g1] at h2; cases h2
    refine ⟨g2, fun hw => ?_⟩
    simp only [Bool.or_eq_false_iff] at hw
    rcases g3 with ⟨_, rfl⟩ | ⟨_, s, k1, rfl, k3, k4, k5⟩
    · exact ih.2 hw.1
    · have := ih.2 hw.1
      rw [k5 hw.2]
      unfold put
      simp only
      split_ifs
      · simp
      · exact this

/-- C137: in such histories no byte is written outside the buffer, and none is read outside. What is missing: formatted output while
other output waits, see C137_overflow_violated; aborted output, see C137_abort_violated. -/
theorem C137_safe_partial {telnet w : Bool} {st : St} (h : Tidy telnet w st) (o : Op)
    (ho : match o with | .write _ => True | .printf _ => w = false ∨ st.data = [] | .send _ => True | .clear => False) :
    ∃ st', step telnet st o = .ok st' := by
  obtain ⟨hi, hw⟩ := h.inv
  cases o with
  | write bs => obtain ⟨s, g1, _⟩ := write_spec hi bs; exact ⟨s, g1⟩
  | send n => obtain ⟨s, g1, _⟩ := send_spec telnet n hi; exact ⟨s, g1⟩
  | clear => exact ho.elim
  | printf bs =>
    have hle : st.data.length ≤ st.allocd := by
      rcases ho with ho | ho
      · exact hw ho
      · simp [ho]
    have hc := hi.cap
    simp only [step, printf]
    by_cases h0 : st.allocd = 0
    · have hd := hi.zero h0
      simp only [h0, if_true, hd, puts, List.length_nil]
      rw [if_neg (by rw [if_pos (by omega)]; omega)]
      split_ifs <;> exact ⟨_, rfl⟩
    · simp only [h0, if_false, puts, hle, if_true]
      rw [if_neg (by omega)]
      split_ifs <;> exact ⟨_, rfl⟩

/-- Operations one after the other. -/
def run (telnet : Bool) (st : St) : List Op → Out St
  | [] => .ok st
  | o :: os => (step telnet st o).bind fun st' => run telnet st' os

/-- C137 is violated: nc_write does not remember how large it made the buffer. After two lines of a log were added with nc_write,
nc_printf takes the room for a huge number and writes behind the end. -/
theorem C137_overflow_violated (a b c : Str) (ha : a ≠ []) (hb : b ≠ []) (telnet : Bool) :
    run telnet St.init [.write a, .write b, .printf c] = .ub := by
  have h1 : 0 < a.length := List.length_pos_iff.2 ha
  have h2 : 0 < b.length := List.length_pos_iff.2 hb
  have e1 : write a St.init = .ok ⟨a.length, a.length, a, 0, []⟩ := by simp [write, ha, grow, St.init]
  have e2 : write b ⟨a.length, a.length, a, 0, []⟩ = .ok ⟨a.length + b.length, a.length, a ++ b, 0, []⟩ := by
    simp [write, hb, grow, ha, h2]
  have e3 : printf c ⟨a.length + b.length, a.length, a ++ b, 0, []⟩ = .ub := by
    have h3 : ¬ a.length = 0 := by omega
    have h4 : ¬ a.length + b.length ≤ a.length := by omega
    simp only [printf, h3, if_false, puts, List.length_append, h4]
    rw [if_pos (by omega)]
  simp only [run, step, e1, e2, e3, ok_b]
  rfl

/-- C137 is violated: with telnet two calls of nc_printf are enough, if the descriptor would block between them. -/
theorem C137_overflow_telnet_violated : run true St.init [.printf (bytesOf "ok\n"), .send 1, .printf (bytesOf "ok\n")] = .ub := by decide +kernel

/-- C137 is violated: a descriptor that would block between the carriage return and the line feed makes the cooker add a second one. -/
theorem C137_double_violated :
    ∃ st, run true St.init [.write (bytesOf "a\n"), .send 2, .send 0, .send 9] = .ok st ∧ st.sent = bytesOf "a\r\r\n" := by
  exact ⟨_, rfl, by decide +kernel⟩

/-- C137 is violated: an option of telnet whose number is that of a line feed (10, what to do with carriage returns) is torn apart. -/
theorem C137_option_violated : ∃ st, run true St.init [.write [255, 251, 10], .send 9] = .ok st ∧ st.sent = [255, 251, 13, 10] := by
  exact ⟨_, rfl, by decide +kernel⟩

/-- C137 is violated: when the other end aborts output (AO) part of which was sent, the cooker looks for line feeds outside the buffer. -/
theorem C137_abort_violated : run true St.init [.printf (bytesOf "long text"), .send 5, .clear, .printf [255, 242], .send 9] = .ub := by decide +kernel

/-- Without telnet what is written after that is lost. -/
theorem C137_abort_lost_violated :
    ∃ st, run false St.init [.printf (bytesOf "long text"), .send 5, .clear, .printf (bytesOf "hi"), .send 9] = .ok st ∧
      st.sent = bytesOf "long " ∧ st.data = [] := by
  exact ⟨_, rfl, by decide +kernel, by decide +kernel⟩

/-- A text in three parts, taken in three pieces. -/
example : ∃ st, run true St.init [.write (bytesOf "one\ntwo"), .send 3, .write (bytesOf "\n"), .send 4, .write (bytesOf "x\r\n"), .send 99] = .ok st ∧
    st.sent = bytesOf "one\r\ntwo\r\nx\r\n" := by
  exact ⟨_, rfl, by decide +kernel⟩

end Mtev.ConOut
