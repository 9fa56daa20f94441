import Verif.CurlHelp
import Mathlib.Tactic.Common
import Mathlib.Algebra.Order.Group.Nat

/-!
Properties of decompressing what curl delivers: C139.

Specification: a compressed format is a machine that eats bytes and puts out bytes. The libraries are lawful if they do what their
manuals say: what a call puts out is what the bytes used up so far give, in order; a call stops short of the end of its input only when
the room is used up or the stream has ended; the end of the stream is reached when all is put out; only bad data is an error.
-/
namespace Mtev.CurlHelp

/-- A format: what each byte puts out, `none` for bad data, and where a stream ends. -/
structure Dec (τ : Type) where
  eat : τ → Nat → Option (τ × Str)
  ended : τ → Bool

/-- All that some bytes put out. -/
def feed {τ : Type} (D : Dec τ) : τ → Str → Option (τ × Str)
  | t, [] => some (t, [])
  | t, c :: r =>
    match D.eat t c with
    | none => none
    | some (t1, o1) =>
      match feed D t1 r with
      | none => none
      | some (t2, o2) => some (t2, o1 ++ o2)

/-- What the manuals of the libraries say. `abs` gives the state of the format after the bytes used so far, and what is not yet put
out. -/
structure Lawful {σ τ : Type} (C : Codec σ) (D : Dec τ) (abs : σ → τ × Str) : Prop where
  used : ∀ s inp room u out s', C.call s inp room = some (u, out, s') → u ≤ inp.length
  fed : ∀ s inp room u out s', C.call s inp room = some (u, out, s') →
    ∃ o, feed D (abs s).1 (inp.take u) = some ((abs s').1, o) ∧ (abs s).2 ++ o = out ++ (abs s').2
  room : ∀ s inp room u out s', C.call s inp room = some (u, out, s') → out.length ≤ room
  short : ∀ s inp room u out s', C.call s inp room = some (u, out, s') → u < inp.length → out.length = room ∨ D.ended (abs s').1 = true
  last : ∀ s inp room u out s', C.call s inp room = some (u, out, s') → D.ended (abs s').1 = true → (abs s').2 = []
  bad : ∀ s inp room, C.call s inp room = none → feed D (abs s).1 inp = none

/-- The function takes something each time, and not more than there is. -/
def Eager {ω : Type} (W : Sink ω) : Prop := ∀ w chunk, chunk ≠ [] → ∃ n w', W.put w chunk = some (n, w') ∧ 1 ≤ n ∧ n ≤ chunk.length

theorem feed_append {τ : Type} (D : Dec τ) (a b : Str) : ∀ t, feed D t (a ++ b) =
    match feed D t a with
    | none => none
    | some (t1, o1) => match feed D t1 b with
      | none => none
      | some (t2, o2) => some (t2, o1 ++ o2) := by
  induction a with
  | nil =>
    intro t
    simp only [List.nil_append, feed]
    cases feed D t b with
    | none => rfl
    | some x => rfl
  | cons c r ih =>
    intro t
    simp only [List.cons_append, feed]
    cases D.eat t c with
    | none => rfl
    | some x =>
      simp only [ih]
      cases feed D x.1 r with
      | none => rfl
      | some y =>
        simp only
        cases feed D y.1 b with
        | none => rfl
        | some z => simp

theorem give_done {σ ω : Type} {W : Sink ω} : ∀ (g : Nat) {st st' : St σ ω} {chunk : Str}, give W g st chunk = some (.done, st') →
    st'.s = st.s ∧ st'.got = st.got ++ chunk := by
  intro g
  induction g with
  | zero => intro st st' chunk h; cases h
  | succ g ih =>
    intro st st' chunk h
    unfold give at h
    split at h
    · rename_i hc
      cases h
      exact ⟨rfl, by simp [hc]⟩
    · cases hp : W.put st.w chunk with
      | none => rw [hp] at h; cases h
      | some x =>
        rw [hp] at h
        simp only at h
        split at h
        · cases h
        · obtain ⟨h1, h2⟩ := ih h
          exact ⟨h1, by rw [h2]; simp [List.append_assoc]⟩

theorem callback_done {σ τ ω : Type} {C : Codec σ} {D : Dec τ} {abs : σ → τ × Str} (hC : Lawful C D abs) {W : Sink ω} {g : Nat} :
    ∀ (f : Nat) {st st' : St σ ω} {inp : Str}, callback C W g f st inp = some (.done, st') →
    ∃ o, feed D (abs st.s).1 inp = some ((abs st'.s).1, o) ∧ st'.got ++ (abs st'.s).2 = st.got ++ (abs st.s).2 ++ o := by
  intro f
  induction f with
  | zero => intro st st' inp h; cases h
  | succ f ih =>
    intro st st' inp h
    unfold callback at h
    split at h
    · rename_i hi
      cases h
      exact ⟨[], by rw [hi]; rfl, by simp⟩
    · cases hc : C.call st.s inp 8192 with
      | none => rw [hc] at h; cases h
      | some x =>
        obtain ⟨u, out, s'⟩ := x
        rw [hc] at h
        simp only at h
        cases hg : give W g { st with s := s' } out with
        | none => rw [hg] at h; cases h
        | some y =>
          obtain ⟨r, st1⟩ := y
          rw [hg] at h
          cases r with
          | err => cases h
          | ub => cases h
          | done =>
            obtain ⟨g1, g2⟩ := give_done g hg
            obtain ⟨o2, k1, k2⟩ := ih h
            obtain ⟨o1, e1, e2⟩ := hC.fed _ _ _ _ _ _ hc
            simp only at g1 g2
            rw [g1] at k1 k2
            refine ⟨o1 ++ o2, ?_, ?_⟩
            · conv_lhs => rw [← List.take_append_drop u inp]
              rw [feed_append, e1]
              simp only [k1]
            · rw [k2, g2, List.append_assoc st.got out, ← e2]
              simp [List.append_assoc]

/-- A download: one callback for each piece. -/
inductive Run {σ ω : Type} (C : Codec σ) (W : Sink ω) : St σ ω → List Str → St σ ω → Prop where
  | nil {st} : Run C W st [] st
  | cons {st st1 st2 : St σ ω} {p : Str} {ps : List Str} (g f : Nat) : callback C W g f st p = some (.done, st1) → Run C W st1 ps st2 → Run C W st (p :: ps) st2

/-- C139: however curl cuts the download into pieces, and however much the function takes each time, what it gets is what the download
decompresses to, in order and without gaps; the rest the library holds back. -/
theorem C139_in_order {σ τ ω : Type} {C : Codec σ} {D : Dec τ} {abs : σ → τ × Str} (hC : Lawful C D abs) {W : Sink ω} {st st' : St σ ω}
    {ps : List Str} (h : Run C W st ps st') (h0 : st.got = []) (hq : (abs st.s).2 = []) :
    ∃ o, feed D (abs st.s).1 ps.flatten = some ((abs st'.s).1, o) ∧ st'.got ++ (abs st'.s).2 = o := by
  have main : ∀ {st st' : St σ ω} {ps : List Str}, Run C W st ps st' →
      ∃ o, feed D (abs st.s).1 ps.flatten = some ((abs st'.s).1, o) ∧ st'.got ++ (abs st'.s).2 = st.got ++ (abs st.s).2 ++ o := by
    intro st st' ps h
    induction h with
    | nil => exact ⟨[], rfl, by simp⟩
    | cons g f h1 _ ih =>
      obtain ⟨o1, a1, a2⟩ := callback_done hC f h1
      obtain ⟨o2, b1, b2⟩ := ih
      refine ⟨o1 ++ o2, ?_, by rw [b2, a2]; simp [List.append_assoc]⟩
      rw [List.flatten_cons, feed_append, a1]
      simp only [b1]
  obtain ⟨o, a, b⟩ := main h
  exact ⟨o, a, by rw [b, h0, hq]; simp⟩

theorem callback_last {σ τ ω : Type} {C : Codec σ} {D : Dec τ} {abs : σ → τ × Str} (hC : Lawful C D abs) {W : Sink ω} {g : Nat} :
    ∀ (f : Nat) {st st' : St σ ω} {inp : Str}, (D.ended (abs st.s).1 = true → (abs st.s).2 = []) →
    callback C W g f st inp = some (.done, st') → D.ended (abs st'.s).1 = true → (abs st'.s).2 = [] := by
  intro f
  induction f with
  | zero => intro st st' inp _ h; cases h
  | succ f ih =>
    intro st st' inp hq h
    unfold callback at h
    split at h
    · cases h; exact hq
    · cases hc : C.call st.s inp 8192 with
      | none => rw [hc] at h; cases h
      | some x =>
        obtain ⟨u, out, s'⟩ := x
        rw [hc] at h
        simp only at h
        cases hg : give W g { st with s := s' } out with
        | none => rw [hg] at h; cases h
        | some y =>
          obtain ⟨r, st1⟩ := y
          rw [hg] at h
          cases r with
          | err => cases h
          | ub => cases h
          | done =>
            obtain ⟨g1, _⟩ := give_done g hg
            exact ih (by rw [g1]; exact hC.last _ _ _ _ _ _ hc) h

/-- C139: a download that ends with the stream is passed on complete. -/
theorem C139_complete {σ τ ω : Type} {C : Codec σ} {D : Dec τ} {abs : σ → τ × Str} (hC : Lawful C D abs) {W : Sink ω} {st st' : St σ ω}
    {ps : List Str} (h : Run C W st ps st') (h0 : st.got = []) (hq : (abs st.s).2 = []) (he : D.ended (abs st'.s).1 = true) :
    feed D (abs st.s).1 ps.flatten = some ((abs st'.s).1, st'.got) := by
  have hl : (abs st'.s).2 = [] := by
    have main : ∀ {st st' : St σ ω} {ps : List Str}, Run C W st ps st' → (D.ended (abs st.s).1 = true → (abs st.s).2 = []) →
        (D.ended (abs st'.s).1 = true → (abs st'.s).2 = []) := by
      intro st st' ps h
      induction h with
      | nil => exact id
      | cons g f h1 _ ih => intro hq; exact ih (callback_last hC f hq h1)
    exact main h (fun _ => hq) he
  obtain ⟨o, a, b⟩ := C139_in_order hC h h0 hq
  rw [a, ← b, hl, List.append_nil]

theorem give_eager {σ ω : Type} {W : Sink ω} (hW : Eager W) : ∀ (g : Nat) (st : St σ ω) (chunk : Str), chunk.length < g →
    ∃ st', give W g st chunk = some (.done, st') := by
  intro g
  induction g with
  | zero => intro st chunk h; omega
  | succ g ih =>
    intro st chunk h
    unfold give
    by_cases hc : chunk = []
    · rw [if_pos hc]; exact ⟨st, rfl⟩
    · rw [if_neg hc]
      obtain ⟨n, w', h1, h2, h3⟩ := hW st.w chunk hc
      rw [h1]
      simp only
      rw [if_neg (by omega)]
      exact ih _ _ (by simp; omega)

/-- The stream does not end before the input does. -/
def Open {τ : Type} (D : Dec τ) (t : τ) (inp : Str) : Prop := ∀ k, k < inp.length → ∀ t' o, feed D t (inp.take k) = some (t', o) → D.ended t' = false

/-- C139: the callback returns, with success for good data and an error for bad data, if the stream does not end before the data and
the function takes what it is given. What is missing: data after the end of a stream, see C139_trailing_violated; functions that take
nothing, see C139_stall_violated. -/
theorem C139_returns_partial {σ τ ω : Type} {C : Codec σ} {D : Dec τ} {abs : σ → τ × Str} (hC : Lawful C D abs) {W : Sink ω} (hW : Eager W)
    (g : Nat) (hg : 8192 < g) (st : St σ ω) (inp : Str) (ho : Open D (abs st.s).1 inp) :
    ∃ f r st', callback C W g f st inp = some (r, st') ∧ (r = .done ↔ (feed D (abs st.s).1 inp).isSome) ∧
      (r = .err ↔ feed D (abs st.s).1 inp = none) := by
  have main : ∀ (n m : Nat) (st : St σ ω) (inp : Str), inp.length = n → (abs st.s).2.length = m → Open D (abs st.s).1 inp →
      ∃ f r st', callback C W g f st inp = some (r, st') ∧ (r = .done ↔ (feed D (abs st.s).1 inp).isSome) ∧
        (r = .err ↔ feed D (abs st.s).1 inp = none) := by
    intro n
    induction n using Nat.strong_induction_on with
    | _ n ihn =>
      intro m
      induction m using Nat.strong_induction_on with
      | _ m ihm =>
        intro st inp hn hm ho
        by_cases hi : inp = []
        · refine ⟨1, .done, st, by simp [callback, hi], ?_, ?_⟩ <;> simp [hi, feed]
        cases hc : C.call st.s inp 8192 with
        | none =>
          have := hC.bad _ _ _ hc
          refine ⟨1, .err, st, by simp [callback, hi, hc], ?_, ?_⟩ <;> simp [this]
        | some x =>
          obtain ⟨u, out, s'⟩ := x
          have hu := hC.used _ _ _ _ _ _ hc
          obtain ⟨o, e1, e2⟩ := hC.fed _ _ _ _ _ _ hc
          obtain ⟨st1, hgv⟩ := give_eager hW g ({ st with s := s' } : St σ ω) out (lt_of_le_of_lt (hC.room _ _ _ _ _ _ hc) hg)
          obtain ⟨g1, _⟩ := give_done g hgv
          simp only at g1
          have hfe : feed D (abs st.s).1 inp = match feed D (abs s').1 (inp.drop u) with
              | none => none
              | some (t2, o2) => some (t2, o ++ o2) := by
            conv_lhs => rw [← List.take_append_drop u inp]
            rw [feed_append, e1]
          have ho' : Open D (abs st1.s).1 (inp.drop u) := by
            intro k hk t' o' hf
            simp only [List.length_drop] at hk
            apply ho (u + k) (by omega) t' (o ++ o')
            rw [List.take_add, feed_append, e1]
            rw [g1] at hf
            simp only [hf]
          have fin : (∃ f r st', callback C W g f st1 (inp.drop u) = some (r, st') ∧ (r = .done ↔ (feed D (abs st1.s).1 (inp.drop u)).isSome) ∧
              (r = .err ↔ feed D (abs st1.s).1 (inp.drop u) = none)) →
              ∃ f r st', callback C W g f st inp = some (r, st') ∧ (r = .done ↔ (feed D (abs st.s).1 inp).isSome) ∧
                (r = .err ↔ feed D (abs st.s).1 inp = none) := by
            rintro ⟨f, r, st', k1, k2, k3⟩
            rw [g1] at k2 k3
            refine ⟨f + 1, r, st', ?_, ?_, ?_⟩
            · unfold callback
              rw [if_neg hi, hc]
              simp only [hgv]
              exact k1
            · rw [k2, hfe]
              cases feed D (abs s').1 (inp.drop u) <;> simp
            · rw [k3, hfe]
              cases feed D (abs s').1 (inp.drop u) <;> simp
          apply fin
          have hil : 0 < inp.length := List.length_pos_iff.2 hi
          by_cases hu0 : u = 0
          · subst hu0
            rcases hC.short _ _ _ _ _ _ hc hil with hs | hs
            · simp only [List.take_zero, feed, Option.some.injEq, Prod.mk.injEq] at e1
              have hlen : (abs s').2.length < m := by
                have := congrArg List.length e2
                rw [← e1.2] at this
                simp only [List.append_nil, List.length_append] at this
                omega
              exact ihm _ (by rw [g1]; exact hlen) st1 (inp.drop 0) (by simpa using hn) rfl ho'
            · have := ho 0 hil (abs s').1 o (by simpa using e1)
              rw [hs] at this
              cases this
          · exact ihn _ (by simp; omega) _ st1 (inp.drop u) rfl rfl ho'
  exact main _ _ st inp rfl rfl ho

/-- C139 is violated: data after the end of a stream, with a library that takes none of it (inflate does so), keeps the callback
busy for ever. -/
theorem C139_trailing_violated {σ ω : Type} (C : Codec σ) (W : Sink ω) (st : St σ ω) (inp : Str) (hi : inp ≠ [])
    (hend : C.call st.s inp 8192 = some (0, [], st.s)) (g f : Nat) : callback C W g f st inp = none := by
  induction f with
  | zero => rfl
  | succ f ih =>
    unfold callback
    rw [if_neg hi, hend]
    cases g with
    | zero => simp [give]
    | succ g => simpa [give] using ih

/-- C139 is violated: a function that takes nothing, which to curl is an error, keeps the callback busy for ever. -/
theorem C139_stall_violated {σ ω : Type} (W : Sink ω) (st : St σ ω) (chunk : Str) (hc : chunk ≠ [])
    (hw : ∀ w, W.put w chunk = some (0, w)) (g : Nat) : give W g st chunk = none := by
  induction g generalizing st with
  | zero => rfl
  | succ g ih =>
    unfold give
    rw [if_neg hc, hw]
    simp only [Nat.not_lt_zero, if_false, List.take_zero, List.append_nil, List.drop_zero]
    exact ih _

/-- C139 is violated: a function that asks curl to pause (it returns a large number) makes the callback pass on memory outside the
buffer. -/
theorem C139_pause_violated {σ ω : Type} (W : Sink ω) (st : St σ ω) (chunk : Str) (hc : chunk ≠ []) (n : Nat) (w' : ω)
    (hw : W.put st.w chunk = some (n, w')) (hn : chunk.length < n) (g : Nat) : give W (g + 1) st chunk = some (.ub, st) := by
  unfold give
  rw [if_neg hc, hw]
  simp only
  rw [if_pos hn]

/-- C139 is violated: data that is not compressed fails if curl delivers more than 8192 bytes at once, which it does. -/
theorem C139_plain_violated {ω : Type} (W : Sink ω) (st : St Unit ω) (inp : Str) (h : 8192 < inp.length) (g f : Nat) :
    callback plain W g (f + 1) st inp = some (.err, st) := by
  unfold callback
  have hi : inp ≠ [] := by rintro rfl; simp at h
  rw [if_neg hi]
  simp [plain, h]

/-- C139: and if it delivers no more than that all is passed on. -/
theorem C139_plain_partial {ω : Type} (W : Sink ω) (hW : Eager W) (st : St Unit ω) (inp : Str) (h : inp.length ≤ 8192) :
    ∃ st', callback plain W 8193 2 st inp = some (.done, st') ∧ st'.got = st.got ++ inp := by
  by_cases hi : inp = []
  · exact ⟨st, by simp [callback, hi], by simp [hi]⟩
  · obtain ⟨st', h1⟩ := give_eager hW 8193 st inp (by omega)
    refine ⟨st', ?_, (give_done _ h1).2⟩
    have hcall : plain.call st.s inp 8192 = some (inp.length, inp, ()) := by simp [plain, Nat.not_lt.2 h]
    rw [callback, if_neg hi, hcall]
    have h1' : give W 8193 { st with s := () } inp = some (.done, st') := h1
    simp only [h1']
    simp [callback]

/-- C139 is violated: setting up a helper for gzip uses memory malloc left as it was as the address of a function. -/
theorem C139_setup_violated : ∃ junk, create junk .gzip = .ub := ⟨1, rfl⟩

/-! ### A lawful library for every format -/

/-- It takes as much as there is room for. -/
def pull {τ : Type} (D : Dec τ) (room : Nat) : τ → Str → Str → Option (Nat × Str × (τ × Str))
  | t, q, [] => some (0, q.take room, (t, q.drop room))
  | t, q, c :: r =>
    if room ≤ q.length ∨ D.ended t = true then some (0, q.take room, (t, q.drop room))
    else match D.eat t c with
      | none => none
      | some (t', o) =>
        match pull D room t' (q ++ o) r with
        | none => none
        | some (u, x) => some (u + 1, x)

/-- After the end it takes nothing more. -/
def library {τ : Type} (D : Dec τ) : Codec (τ × Str) where
  call := fun s inp room => if D.ended s.1 = true then some (0, [], s) else pull D room s.1 s.2 inp

/-- What is not yet put out. -/
def view {τ : Type} (D : Dec τ) (s : τ × Str) : τ × Str := (s.1, if D.ended s.1 = true then [] else s.2)

theorem pull_spec {τ : Type} (D : Dec τ) (hD : ∀ t c t' o, D.eat t c = some (t', o) → D.ended t' = true → o = []) (room : Nat) :
    ∀ (inp : Str) (t : τ) (q : Str) (u : Nat) (out : Str) (t' : τ) (q' : Str), pull D room t q inp = some (u, out, (t', q')) →
    u ≤ inp.length ∧ (∃ o, feed D t (inp.take u) = some (t', o) ∧ q ++ o = out ++ q') ∧ out.length ≤ room ∧
      (u < inp.length → out.length = room ∨ D.ended t' = true) ∧ ((D.ended t = true → q.length ≤ room) → D.ended t' = true → q' = []) := by
  intro inp
  induction inp with
  | nil =>
    intro t q u out t' q' h
    simp only [pull, Option.some.injEq, Prod.mk.injEq] at h
    obtain ⟨rfl, rfl, rfl, rfl⟩ := h
    refine ⟨le_refl _, ⟨[], rfl, by simp⟩, by simp, by simp, fun h1 h2 => ?_⟩
    rw [List.drop_eq_nil_iff]; exact h1 h2
  | cons c r ih =>
    intro t q u out t' q' h
    unfold pull at h
    split at h
    · rename_i hc
      simp only [Option.some.injEq, Prod.mk.injEq] at h
      obtain ⟨rfl, rfl, rfl, rfl⟩ := h
      refine ⟨by simp, ⟨[], rfl, by simp⟩, by simp, fun _ => ?_, fun h1 h2 => ?_⟩
      · rcases hc with hc | hc
        · left; simp; omega
        · exact Or.inr hc
      · rw [List.drop_eq_nil_iff]; exact h1 h2
    · rename_i hc
      rw [not_or, Nat.not_le] at hc
      cases he : D.eat t c with
      | none => rw [he] at h; cases h
      | some x =>
        obtain ⟨t1, o1⟩ := x
        rw [he] at h
        simp only at h
        cases hp : pull D room t1 (q ++ o1) r with
        | none => rw [hp] at h; cases h
        | some y =>
          obtain ⟨u1, out1, t2, q2⟩ := y
          rw [hp] at h
          simp only [Option.some.injEq, Prod.mk.injEq] at h
          obtain ⟨rfl, rfl, rfl, rfl⟩ := h
          obtain ⟨a1, ⟨o, a2, a3⟩, a4, a5, a6⟩ := ih _ _ _ _ _ _ hp
          refine ⟨by simpa using a1, ⟨o1 ++ o, ?_, by rw [← List.append_assoc]; exact a3⟩, a4, fun hu => a5 (by simpa using hu), fun _ => a6 fun h1 => ?_⟩
          · rw [List.take_succ_cons, feed, he]
            simp only [a2]
          · rw [hD _ _ _ _ he h1]; simp; omega

theorem pull_bad {τ : Type} (D : Dec τ) (room : Nat) : ∀ (inp : Str) (t : τ) (q : Str), pull D room t q inp = none → feed D t inp = none := by
  intro inp
  induction inp with
  | nil => intro t q h; cases h
  | cons c r ih =>
    intro t q h
    unfold pull at h
    split at h
    · cases h
    · unfold feed
      cases he : D.eat t c with
      | none => rfl
      | some x =>
        rw [he] at h
        simp only at h ⊢
        cases hp : pull D room x.1 (q ++ x.2) r with
        | none => rw [ih _ _ hp]
        | some y => rw [hp] at h; cases h

/-- The laws can be kept: this library keeps them, whatever the format, if the byte that ends a stream puts nothing out. -/
theorem library_lawful {τ : Type} (D : Dec τ) (hD : ∀ t c t' o, D.eat t c = some (t', o) → D.ended t' = true → o = []) :
    Lawful (library D) D (view D) := by
  have main : ∀ s inp room u out s', (library D).call s inp room = some (u, out, s') →
      u ≤ inp.length ∧ (∃ o, feed D (view D s).1 (inp.take u) = some ((view D s').1, o) ∧ (view D s).2 ++ o = out ++ (view D s').2) ∧
        out.length ≤ room ∧ (u < inp.length → out.length = room ∨ D.ended (view D s').1 = true) := by
    intro s inp room u out s' h
    simp only [library] at h
    by_cases he : D.ended s.1 = true
    · rw [if_pos he] at h
      cases h
      exact ⟨by simp, ⟨[], rfl, by simp [view, he]⟩, by simp, fun _ => Or.inr he⟩
    · rw [if_neg he] at h
      obtain ⟨a1, ⟨o, a2, a3⟩, a4, a5, a6⟩ := pull_spec D hD room inp s.1 s.2 u out s'.1 s'.2 h
      refine ⟨a1, ⟨o, a2, ?_⟩, a4, a5⟩
      by_cases he' : D.ended s'.1 = true
      · have := a6 (fun h => absurd h he) he'
        rw [this] at a3
        simpa [view, he, he'] using a3
      · simpa [view, he, he'] using a3
  refine ⟨fun s inp room u out s' h => (main s inp room u out s' h).1, fun s inp room u out s' h => (main s inp room u out s' h).2.1,
    fun s inp room u out s' h => (main s inp room u out s' h).2.2.1, fun s inp room u out s' h => (main s inp room u out s' h).2.2.2, ?_, ?_⟩
  · intro s inp room u out s' _ h
    have h' : D.ended s'.1 = true := h
    simp [view, h']
  · intro s inp room h
    simp only [library] at h
    split at h
    · cases h
    · exact pull_bad D room inp s.1 s.2 h

/-- A format for the examples: each byte twice, 0 ends, 255 is bad. -/
def twice : Dec Bool where
  eat := fun _ c => if c = 0 then some (true, []) else if c = 255 then none else some (false, [c, c])
  ended := id

/-- A function for the examples: it takes at most three bytes. -/
def three : Sink Unit where
  put := fun _ chunk => some (min 3 chunk.length, ())

theorem three_eager : Eager three := by
  intro w chunk h
  have : 0 < chunk.length := List.length_pos_iff.2 h
  exact ⟨_, _, rfl, by omega, by omega⟩

/-- A download in two pieces. -/
example : ∃ st', Run (library twice) three ⟨(false, []), (), []⟩ [bytesOf "ab", bytesOf "c" ++ [0]] st' ∧ st'.got = bytesOf "aabbcc" ∧
    twice.ended (view twice st'.s).1 = true :=
  ⟨⟨(true, []), (), bytesOf "aabbcc"⟩, .cons 9 9 (st1 := ⟨(false, []), (), bytesOf "aabb"⟩) (by rfl) (.cons 9 9 (by rfl) .nil), rfl, rfl⟩

/-- With one byte after the end. -/
example (g f : Nat) : callback (library twice) three g f ⟨(true, []), (), []⟩ [7] = none :=
  C139_trailing_violated _ _ _ _ (by simp) rfl g f

/-- Bad data, and data that is cut short. -/
example : ∃ f r st', callback (library twice) three 8193 f ⟨(false, []), (), []⟩ [65, 255] = some (r, st') ∧ r = .err := by
  obtain ⟨f, r, st', h1, _, h3⟩ := C139_returns_partial (library_lawful twice (by
    intro t c t' o h he
    simp only [twice] at h he
    split_ifs at h
    · cases h; rfl
    · cases h; cases he)) three_eager 8193 (by omega) ⟨(false, []), (), []⟩ [65, 255] (by
      intro k hk t' o h
      have : k = 0 ∨ k = 1 := by simp at hk; omega
      rcases this with rfl | rfl
      · cases h; rfl
      · simp [feed, twice] at h
        simp [twice, h.1.symm])
  exact ⟨f, r, st', h1, h3.2 (by simp [feed, view, twice])⟩

end Mtev.CurlHelp
