import Verif.HttpOut
import Verif.HttpInProps

/-! # Property C34: response bodies -/

namespace Mtev.HttpOut

open HttpIn (BC defSize CRLF chunkText bodyText payload WellFormed Limits HexNum HexDigit)

/-! ## Encoding one buffer -/

/-- The `h` low hexadecimal digits of `n`. -/
def digits : Nat → Nat → List Nat
  | 0, _ => []
  | h + 1, n => digits h (n / 16) ++ [hexChar (n % 16)]

theorem digits_length (h n : Nat) : (digits h n).length = h := by
  induction h generalizing n with
  | zero => rfl
  | succ h ih => simp [digits, ih]

theorem hexChar_digit {v : Nat} (h : v < 16) : HexDigit (hexChar v) v := by
  have : ∀ v : Fin 16, (bytesOf "0123456789abcdef")[v.val]? = some (hexChar v.val) := by decide +kernel
  exact Or.inl (this ⟨v, h⟩)

theorem hexChar_ne {v : Nat} (h : v < 16) (h0 : v ≠ 0) : hexChar v ≠ 48 := by
  have : ∀ v : Fin 16, v.val ≠ 0 → hexChar v.val ≠ 48 := by decide +kernel
  exact this ⟨v, h⟩ h0

theorem digits_num (h n : Nat) (hh : 0 < h) (hn : n < 16 ^ h) : HexNum (digits h n) n := by
  induction h generalizing n with
  | zero => omega
  | succ h ih =>
    cases h with
    | zero =>
      have h16 : n < 16 := by simpa using hn
      simp only [digits, List.nil_append]
      rw [Nat.mod_eq_of_lt h16]
      exact HexNum.one (hexChar_digit h16)
    | succ h =>
      have h1 : n / 16 < 16 ^ (h + 1) := by
        rw [Nat.pow_succ] at hn; omega
      have := HexNum.snoc (ih (n / 16) (by omega) h1) (hexChar_digit (v := n % 16) (by omega))
      rwa [show 16 * (n / 16) + n % 16 = n by omega] at this

theorem digits_head (h n : Nat) (hn : n < 16 ^ (h + 1)) (hl : 16 ^ h ≤ n) :
    ∃ c r, digits (h + 1) n = c :: r ∧ c ≠ 48 := by
  induction h generalizing n with
  | zero =>
    have h16 : n < 16 := by simpa using hn
    have h1 : 1 ≤ n := by simpa using hl
    exact ⟨hexChar (n % 16), [], by simp [digits], hexChar_ne (by omega) (by omega)⟩
  | succ h ih =>
    have e1 : n / 16 < 16 ^ (h + 1) := by rw [Nat.pow_succ] at hn; omega
    have e2 : 16 ^ h ≤ n / 16 := by rw [Nat.pow_succ] at hl; omega
    obtain ⟨c, r, h1, h2⟩ := ih (n / 16) e1 e2
    refine ⟨c, r ++ [hexChar (n % 16)], ?_, h2⟩
    rw [digits, h1]; rfl

theorem hexLen_spec (f n : Nat) (hn : n < 16 ^ f) (h0 : 0 < n) :
    ∃ h, hexLen f n = h + 1 ∧ h + 1 ≤ f ∧ n < 16 ^ (h + 1) ∧ 16 ^ h ≤ n := by
  induction f generalizing n with
  | zero => simp at hn; omega
  | succ f ih =>
    simp only [hexLen]
    rw [if_neg (by omega)]
    by_cases h16 : n / 16 = 0
    · have : hexLen f (n / 16) = 0 := by
        cases f with
        | zero => rfl
        | succ f => simp [hexLen, h16]
      exact ⟨0, by rw [this], by omega, by simp; omega, by simp; omega⟩
    · obtain ⟨h, e1, e2, e3, e4⟩ := ih (n / 16) (by rw [Nat.pow_succ] at hn; omega) (by omega)
      refine ⟨h + 1, by rw [e1]; omega, by omega, ?_, ?_⟩
      · rw [Nat.pow_succ]; omega
      · rw [Nat.pow_succ]; omega

theorem write_mid (p old q new : List Nat) (h : old.length = new.length) :
    Block.write (p ++ old ++ q) p.length new = .ok (p ++ new ++ q) := by
  rw [Block.write_ok (by simp; omega)]
  congr 1
  congr 1
  · congr 1; simp
  · rw [← h, show p.length + old.length = (p ++ old).length by simp, List.drop_left]

theorem backfill_spec (h n : Nat) (p q : List Nat) (hp : p.length = h) :
    backfill h n (p ++ q) = .ok (digits h n ++ q) := by
  induction h generalizing n p q with
  | zero => rw [List.length_eq_zero_iff.mp hp]; rfl
  | succ h ih =>
    rcases List.eq_nil_or_concat p with rfl | ⟨p', x, rfl⟩
    · simp at hp
    · simp only [List.concat_eq_append, List.length_append, List.length_cons, List.length_nil] at hp
      have hp' : p'.length = h := by omega
      have hw := write_mid p' [x] q [hexChar (n % 16)] rfl
      rw [hp'] at hw
      simp only [backfill, List.concat_eq_append, hw, Out.ok_bind]
      rw [List.append_assoc, ih (n / 16) p' _ hp', digits]
      simp

theorem malloc_split (junk : Nat → Nat) (n k : Nat) (h : k ≤ n) :
    ∃ p q, malloc junk n = p ++ q ∧ p.length = k ∧ q.length = n - k :=
  ⟨(malloc junk n).take k, (malloc junk n).drop k, by simp, by simp; omega, by simp⟩

/-- The encoding of one buffer. -/
theorem encode_chunked (junk : Nat → Nat) (data : List Nat) (h : data.length < 2 ^ 31) (hne : data ≠ []) :
    ∃ hx, encode junk true data = .ok (chunkText hx data) ∧ HexNum hx data.length ∧ hx.length ≤ 9 := by
  have hp := List.length_pos_iff.mpr hne
  obtain ⟨k, e1, e2, e3, e4⟩ := hexLen_spec 9 data.length (by omega) hp
  refine ⟨digits (k + 1) data.length, ?_, digits_num _ _ (by omega) e3, by rw [digits_length]; omega⟩
  obtain ⟨c, cr, hc1, hc2⟩ := digits_head k data.length e3 e4
  obtain ⟨p, q, hm, hpl, hql⟩ := malloc_split junk (k + 1 + 4 + data.length) (k + 1) (by omega)
  -- the four bytes and the data behind the digits
  obtain ⟨x0, x1, d, y0, y1, hq, hd⟩ : ∃ x0 x1 d y0 y1, q = [x0] ++ [x1] ++ d ++ [y0] ++ [y1] ∧ d.length = data.length := by
    rcases q with _ | ⟨x0, _ | ⟨x1, q⟩⟩
    · simp at hql; omega
    · simp at hql; omega
    · rcases List.eq_nil_or_concat q with rfl | ⟨q1, y1, rfl⟩
      · simp at hql; omega
      · rcases List.eq_nil_or_concat q1 with rfl | ⟨q2, y0, rfl⟩
        · simp at hql; omega
        · refine ⟨x0, x1, q2, y0, y1, by simp, ?_⟩
          simp at hql; omega
  unfold encode
  rw [if_neg (by omega)]
  simp only [e1, Nat.add_eq_zero_iff, Nat.succ_ne_self, and_false, ↓reduceIte, hne, hm]
  have w1 : Block.write (p ++ q) (k + 1 + 2) data = .ok (p ++ [x0] ++ [x1] ++ data ++ [y0] ++ [y1]) := by
    have := write_mid (p ++ [x0] ++ [x1]) d ([y0] ++ [y1]) data hd
    rw [hq]
    rw [show (p ++ [x0] ++ [x1]).length = k + 1 + 2 by simp [hpl]] at this
    simpa using this
  have w2 : Block.write (p ++ [x0] ++ [x1] ++ data ++ [y0] ++ [y1]) (k + 1 + 2 + data.length) [13] =
      .ok (p ++ [x0] ++ [x1] ++ data ++ [13] ++ [y1]) := by
    have := write_mid (p ++ [x0] ++ [x1] ++ data) [y0] [y1] [13] rfl
    rw [show (p ++ [x0] ++ [x1] ++ data).length = k + 1 + 2 + data.length by simp [hpl]; omega] at this
    exact this
  have w3 : Block.write (p ++ [x0] ++ [x1] ++ data ++ [13] ++ [y1]) (k + 1 + 2 + data.length + 1) [10] =
      .ok (p ++ [x0] ++ [x1] ++ data ++ [13] ++ [10]) := by
    have := write_mid (p ++ [x0] ++ [x1] ++ data ++ [13]) [y1] [] [10] rfl
    rw [show (p ++ [x0] ++ [x1] ++ data ++ [13] : List Nat).length = k + 1 + 2 + data.length + 1 by simp [hpl]; omega] at this
    simpa using this
  have w4 : Block.write (p ++ [x0] ++ [x1] ++ data ++ [13] ++ [10]) (k + 1) [13] =
      .ok (p ++ [13] ++ [x1] ++ data ++ [13] ++ [10]) := by
    have := write_mid p [x0] ([x1] ++ data ++ [13] ++ [10]) [13] rfl
    rw [hpl] at this
    simpa using this
  have w5 : Block.write (p ++ [13] ++ [x1] ++ data ++ [13] ++ [10]) (k + 1 + 1) [10] =
      .ok (p ++ ([13] ++ [10] ++ data ++ [13] ++ [10])) := by
    have := write_mid (p ++ [13]) [x1] (data ++ [13] ++ [10]) [10] rfl
    rw [show (p ++ [13] : List Nat).length = k + 1 + 1 by simp [hpl]] at this
    simpa using this
  simp only [w1, w2, w3, w4, w5, Out.ok_bind, backfill_spec (k + 1) data.length p _ hpl]
  rw [if_pos (by omega)]
  have hlen : (digits (k + 1) data.length ++ ([13] ++ [10] ++ data ++ [13] ++ [10])).length = data.length + 2 + 2 + (k + 1) := by
    simp [digits_length]; omega
  have hst : ∀ f, strip (f + 1) (digits (k + 1) data.length ++ ([13] ++ [10] ++ data ++ [13] ++ [10])) 0 (data.length + 2 + 2 + (k + 1)) =
      .ok (0, data.length + 2 + 2 + (k + 1)) := by
    intro f
    unfold strip
    rw [Block.read_ok (by rw [hlen]; omega), hc1]
    simp [hc2]
  rw [hst]
  simp only [Out.ok_bind]
  rw [Block.read_ok (by rw [hlen]; omega), List.drop_zero, List.take_of_length_le (by rw [hlen])]
  simp [chunkText, CRLF]

theorem encode_plain (junk : Nat → Nat) (data : List Nat) (h : data.length < 2 ^ 31) :
    encode junk false data = .ok data := by
  unfold encode
  rw [if_neg (by omega)]
  by_cases hne : data = []
  · simp [hne]
  · simp only [hne, ↓reduceIte, Bool.false_eq_true]
    generalize (if hexLen 9 data.length = 0 then 1 else hexLen 9 data.length) = hl
    obtain ⟨b', hb, hbl, _⟩ := Block.write_spec (malloc junk (hl + 4 + data.length)) 0 data (by simp)
    simp only [hb, Out.ok_bind]
    exact Block.read_write_same hb

theorem encode_nil (junk : Nat → Nat) (c : Bool) : encode junk c [] = .ok [] := by
  unfold encode; simp

/-- The encoding of a list of buffers is a list of chunks with the same content. -/
theorem encodeAll_chunked (junk : Nat → Nat) (l : List BC) (h : ∀ b ∈ l, b.data.length < 2 ^ 31) :
    ∃ raw cs, encodeAll junk true l = .ok raw ∧ raw.flatten = cs.flatMap (fun c : List Nat × List Nat => chunkText c.1 c.2) ∧
      payload cs = l.flatMap BC.data ∧ (∀ c ∈ cs, (HexNum c.1 c.2.length ∧ c.2 ≠ []) ∧ c.1.length ≤ 9 ∧ c.2.length < 2 ^ 31) := by
  induction l with
  | nil => exact ⟨[], [], rfl, rfl, rfl, by simp⟩
  | cons b l ih =>
    obtain ⟨raw, cs, e1, e2, e3, e4⟩ := ih (fun x hx => h x (by simp [hx]))
    by_cases hne : b.data = []
    · refine ⟨raw, cs, ?_, e2, by simp [hne, e3], e4⟩
      simp [encodeAll, hne, encode_nil, e1]
    · obtain ⟨hx, f1, f2, f3⟩ := encode_chunked junk b.data (h b (by simp)) hne
      refine ⟨chunkText hx b.data :: raw, (hx, b.data) :: cs, ?_, by simp [e2], by simpa [payload] using e3, ?_⟩
      · have : chunkText hx b.data ≠ [] := by simp [chunkText, CRLF]
        simp [encodeAll, f1, e1, this]
      · intro c hc
        rcases List.mem_cons.mp hc with rfl | hc
        · exact ⟨⟨f2, hne⟩, f3, h b (by simp)⟩
        · exact e4 c hc

theorem encodeAll_plain (junk : Nat → Nat) (l : List BC) (h : ∀ b ∈ l, b.data.length < 2 ^ 31) :
    ∃ raw, encodeAll junk false l = .ok raw ∧ raw.flatten = l.flatMap BC.data := by
  induction l with
  | nil => exact ⟨[], rfl, rfl⟩
  | cons b l ih =>
    obtain ⟨raw, e1, e2⟩ := ih (fun x hx => h x (by simp [hx]))
    simp only [encodeAll, encode_plain junk b.data (h b (by simp)), e1, Out.ok_bind, Out.pure_eq]
    by_cases hne : b.data = []
    · exact ⟨raw, by simp [hne], by simp [hne, e2]⟩
    · exact ⟨b.data :: raw, by simp [hne], by simp [e2]⟩

/-! ## Writing -/

/-- What is waiting to be written. -/
def unsent (r : R) : List Nat := r.pend.flatten.drop r.off

/-- The offset lies within the first buffer. -/
def OffOk (pend : List (List Nat)) (off : Nat) : Prop :=
  match pend with
  | [] => off = 0
  | b :: _ => off ≤ b.length

theorem popDone_spec (pend : List (List Nat)) (off : Nat) (h : OffOk pend off) :
    (popDone pend off).1.flatten.drop (popDone pend off).2 = pend.flatten.drop off ∧
      OffOk (popDone pend off).1 (popDone pend off).2 ∧
      (∀ b r, (popDone pend off).1 = b :: r → (popDone pend off).2 < b.length) := by
  induction pend generalizing off with
  | nil => simp [popDone, OffOk]
  | cons b r ih =>
    simp only [popDone]
    simp only [OffOk] at h
    split
    · have heq : off = b.length := by omega
      have h0 : OffOk r 0 := by cases r <;> simp [OffOk]
      obtain ⟨h1, h2, h3⟩ := ih 0 h0
      refine ⟨?_, h2, h3⟩
      rw [h1]
      simp [heq]
    · refine ⟨rfl, h, ?_⟩
      intro b' r' hb
      simp only [List.cons.injEq] at hb
      rw [← hb.1]; simp only; omega

/-- Everything but the writing state. -/
def Same (r r' : R) : Prop :=
  r'.hasCL = r.hasCL ∧ r'.canChunk = r.canChunk ∧ r'.canClose = r.canClose ∧ r'.trigger = r.trigger ∧
  r'.leader = r.leader ∧ r'.chunked = r.chunked ∧ r'.close = r.close ∧ r'.started = r.started ∧
  r'.closed = r.closed ∧ r'.output = r.output

theorem performWrite_spec (evs : List Wr) (r : R) (ho : OffOk r.pend r.off)
    (hc : r.complete = true → r.inError = true ∨ (r.closed = true ∧ unsent r = [])) :
    Same r (performWrite evs r) ∧ OffOk (performWrite evs r).pend (performWrite evs r).off ∧
      (performWrite evs r).wire ++ unsent (performWrite evs r) = r.wire ++ unsent r ∧
      ((performWrite evs r).complete = true → (performWrite evs r).inError = true ∨
        ((performWrite evs r).closed = true ∧ unsent (performWrite evs r) = [])) ∧
      (r.inError = false → (∀ e ∈ evs, ∃ n, e = Wr.some n) → (unsent r).length ≤ evs.length →
        unsent (performWrite evs r) = [] ∧ (performWrite evs r).inError = false ∧
        (r.closed = true → (performWrite evs r).complete = true)) ∧
      (Wr.err ∉ evs → (performWrite evs r).inError = r.inError) := by
  induction evs generalizing r with
  | nil =>
    unfold performWrite
    split
    · rename_i he
      exact ⟨by simp [Same], ho, rfl, hc, by simp [he], fun _ => rfl⟩
    · rename_i he
      simp only [Bool.not_eq_true] at he
      obtain ⟨h1, h2, h3⟩ := popDone_spec r.pend r.off ho
      rcases hp : popDone r.pend r.off with ⟨_ | ⟨b, rest⟩, off⟩
      · rw [hp] at h1 h2 h3
        have hun : unsent r = [] := by unfold unsent; rw [← h1]; simp
        have hx : r.complete = true → r.closed = true := by
          intro h
          rcases hc h with h | h
          · rw [he] at h; simp at h
          · exact h.1
        refine ⟨by simp [Same], h2, by rw [hun]; simp [unsent], ?_, ?_, by simp⟩
        · intro h
          right
          refine ⟨?_, by simp [unsent]⟩
          simp only [Bool.or_eq_true] at h
          rcases h with h | h
          · exact hx h
          · exact h
        · intro _ _ _
          exact ⟨by simp [unsent], he, by intro h; simp [h]⟩
      · rw [hp] at h1 h2 h3
        have hun : unsent { r with pend := b :: rest, off := off } = unsent r := by
          simp only [unsent]; exact h1
        refine ⟨by simp [Same], h2, by rw [hun], ?_, ?_, by simp⟩
        · intro h; rw [hun]; exact hc h
        · intro _ _ hl
          have hoff := h3 b rest rfl
          have := congrArg List.length h1
          simp only [List.flatten_cons, List.length_drop, List.length_append] at this
          simp only [unsent, List.length_drop, List.length_nil] at hl
          simp only at hoff
          omega
  | cons e evs ih =>
    unfold performWrite
    split
    · rename_i he
      exact ⟨by simp [Same], ho, rfl, hc, by simp [he], fun _ => rfl⟩
    · rename_i he
      simp only [Bool.not_eq_true] at he
      obtain ⟨h1, h2, h3⟩ := popDone_spec r.pend r.off ho
      rcases hp : popDone r.pend r.off with ⟨_ | ⟨b, rest⟩, off⟩
      · rw [hp] at h1 h2 h3
        have hun : unsent r = [] := by unfold unsent; rw [← h1]; simp
        have hx : r.complete = true → r.closed = true := by
          intro h
          rcases hc h with h | h
          · rw [he] at h; simp at h
          · exact h.1
        refine ⟨by simp [Same], h2, by rw [hun]; simp [unsent], ?_, ?_, by simp⟩
        · intro h
          right
          refine ⟨?_, by simp [unsent]⟩
          simp only [Bool.or_eq_true] at h
          rcases h with h | h
          · exact hx h
          · exact h
        · intro _ _ _
          exact ⟨by simp [unsent], he, by intro h; simp [h]⟩
      · rw [hp] at h1 h2 h3
        have hoff : off < b.length := h3 b rest rfl
        have hun : unsent { r with pend := b :: rest, off := off } = unsent r := by
          simp only [unsent]; exact h1
        cases e with
        | again =>
          refine ⟨by simp [Same], h2, by rw [hun], fun h => by rw [hun]; exact hc h, ?_, by simp⟩
          intro _ hall _
          obtain ⟨n, hn⟩ := hall _ (List.mem_cons_self ..)
          simp at hn
        | err =>
          refine ⟨by simp [Same], h2, ?_, fun _ => Or.inl rfl, ?_, by simp⟩
          · have : unsent { r with pend := b :: rest, off := off, complete := true, inError := true } = unsent r := by
              simp only [unsent]; exact h1
            rw [this]
          · intro _ hall _
            obtain ⟨n, hn⟩ := hall _ (List.mem_cons_self ..)
            simp at hn
        | some n =>
          simp only
          obtain ⟨k, hk⟩ : ∃ k, k = min (n + 1) (b.length - off) := ⟨_, rfl⟩
          rw [← hk]
          have hsplit : unsent r = (b.drop off).take k ++ unsent { r with pend := b :: rest, off := off + k, wire := r.wire ++ (b.drop off).take k } := by
            rw [← hun]
            simp only [unsent, List.flatten_cons]
            rw [List.drop_append_of_le_length (by omega), List.drop_append_of_le_length (by omega), ← List.append_assoc,
              ← List.drop_drop, List.take_append_drop]
          have hlen := congrArg List.length hsplit
          simp only [List.length_append, List.length_take, List.length_drop] at hlen
          obtain ⟨i1, i2, i3, i4, i5, i6⟩ := ih { r with pend := b :: rest, off := off + k, wire := r.wire ++ (b.drop off).take k }
            (by simp only [OffOk]; omega) (by
              intro h
              rcases hc h with h | ⟨_, h⟩
              · exact Or.inl h
              · rw [h] at hlen
                simp only [List.length_nil] at hlen
                omega)
          refine ⟨i1, i2, ?_, i4, ?_, ?_⟩
          · rw [i3, hsplit]; simp
          · intro a1 a2 a3
            refine i5 a1 (fun e he => a2 e (by simp [he])) ?_
            simp only [List.length_cons] at a3
            omega
          · intro h
            exact i6 (fun hm => h (by simp [hm]))

/-! ## The invariant -/

/-- The last buffer has room for its data and is smaller than 2 GiB. -/
def LastOk (l : List BC) : Prop := ∀ t, l.getLast? = some t → t.start + t.data.length ≤ t.allocd ∧ t.allocd < 2 ^ 31

/-- Well-formed chunks that the decoder of C33 accepts. -/
def GoodChunks (cs : List (List Nat × List Nat)) : Prop :=
  ∀ c ∈ cs, (HexNum c.1 c.2.length ∧ c.2 ≠ []) ∧ c.1.length ≤ 9 ∧ c.2.length < 2 ^ 31

/-- The body produced so far from the accepted bytes `acc`. -/
def Body (r : R) (acc body : List Nat) : Prop :=
  if r.chunked then
    ∃ cs, GoodChunks cs ∧ payload cs ++ r.output.flatMap BC.data = acc ∧
      body = cs.flatMap (fun c : List Nat × List Nat => chunkText c.1 c.2) ++ (if r.closed then bytesOf "0\r\n\r\n" else [])
  else body ++ r.output.flatMap BC.data = acc

structure Inv (r : R) (acc : List Nat) : Prop where
  off : OffOk r.pend r.off
  small : ∀ b ∈ r.output, b.data.length < 2 ^ 31
  last : LastOk r.output
  comp : r.complete = true → r.inError = true ∨ (r.closed = true ∧ unsent r = [])
  closedOut : r.closed = true → r.output = [] ∧ r.started = true
  before : r.started = false → r.pend = [] ∧ r.wire = [] ∧ r.output.flatMap BC.data = acc
  after : r.started = true → ∃ body, r.wire ++ unsent r = r.leader.flatten ++ body ∧ Body r acc body

theorem Inv.write {r : R} {acc : List Nat} (h : Inv r acc) (evs : List Wr) : Inv (performWrite evs r) acc := by
  obtain ⟨⟨s1, s2, s3, s4, s5, s6, s7, s8, s9, s10⟩, h2, h3, h4, _⟩ := performWrite_spec evs r h.off h.comp
  refine ⟨h2, by rw [s10]; exact h.small, by rw [s10]; exact h.last, h4, by rw [s9, s10, s8]; exact h.closedOut, ?_, ?_⟩
  · rw [s8, s10]
    intro hs
    obtain ⟨a, b, c⟩ := h.before hs
    rw [b] at h3
    simp only [unsent, a] at h3
    simp only [List.flatten_nil, List.drop_nil, List.append_nil, List.append_eq_nil_iff] at h3
    refine ⟨?_, h3.1, c⟩
    unfold performWrite
    split
    · exact a
    · rw [a]; simp [popDone]
  · rw [s8]
    intro hs
    obtain ⟨body, b1, b2⟩ := h.after hs
    refine ⟨body, by rw [h3, s5]; exact b1, ?_⟩
    unfold Body at *
    rw [s6, s9, s10]
    exact b2

theorem choose_fields (r : R) : ∃ c d, choose r = { r with chunked := c, close := d } ∧ (r.chunked = true → c = true) := by
  unfold choose
  split
  · exact ⟨r.chunked, r.close, rfl, id⟩
  · split
    · exact ⟨true, r.close, rfl, fun _ => rfl⟩
    · split
      · exact ⟨r.chunked, true, rfl, id⟩
      · exact ⟨r.chunked, r.close, rfl, id⟩

/-- Lines 2066-2080: the headers go out first. -/
def begin_ (r : R) : R := if r.started then r else { choose r with started := true, pend := (choose r).leader ++ (choose r).pend }

theorem Inv.begin {r : R} {acc : List Nat} (h : Inv r acc) (hc : r.closed = false) :
    Inv (begin_ r) acc ∧ (begin_ r).started = true ∧ (begin_ r).closed = false ∧ (begin_ r).inError = r.inError ∧
      (begin_ r).leader = r.leader ∧ (begin_ r).output = r.output ∧ (r.chunked = true → (begin_ r).chunked = true) ∧
      (begin_ r).wire = r.wire := by
  unfold begin_
  split
  · rename_i hs
    exact ⟨h, hs, hc, rfl, rfl, rfl, id, rfl⟩
  · rename_i hs
    simp only [Bool.not_eq_true] at hs
    obtain ⟨c, d, hch, hcc⟩ := choose_fields r
    rw [hch]
    obtain ⟨b1, b2, b3⟩ := h.before hs
    have ho := h.off
    rw [b1] at ho
    simp only [OffOk] at ho
    refine ⟨⟨?_, h.small, h.last, ?_, by simp [hc], by simp, ?_⟩, rfl, hc, rfl, rfl, rfl, hcc, rfl⟩
    · simp only [b1, ho, List.append_nil]
      cases r.leader <;> simp [OffOk]
    · intro hx
      rcases h.comp hx with hx | ⟨hx, _⟩
      · exact Or.inl hx
      · rw [hc] at hx; simp at hx
    · intro _
      refine ⟨[], by simp [unsent, b1, b2, ho], ?_⟩
      unfold Body
      simp only [hc, Bool.false_eq_true, ↓reduceIte]
      split
      · exact ⟨[], by intro c hc; simp at hc, by simpa [payload] using b3, by simp⟩
      · simpa using b3

theorem flush_eq (junk : Nat → Nat) (final : Bool) (evs : List Wr) (r : R) (hc : r.closed = false) :
    flush junk final evs r = (do
      let raw ← encodeAll junk (begin_ r).chunked (begin_ r).output
      pure (performWrite evs
        { begin_ r with closed := (begin_ r).closed || final, output := [], pend := (begin_ r).pend ++ raw ++ (if final then (if (begin_ r).chunked then [bytesOf "0\r\n\r\n"] else []) else []) })) := by
  unfold flush
  rw [hc]
  simp only [Bool.false_eq_true, ↓reduceIte]
  change (do let raw ← encodeAll junk (begin_ r).chunked (begin_ r).output; _) = _
  cases encodeAll junk (begin_ r).chunked (begin_ r).output with
  | ub => rfl
  | abort => rfl
  | ok raw =>
    simp only [Out.ok_bind]
    cases final
    · simp only [Bool.false_eq_true, ↓reduceIte, Bool.or_false, List.append_nil]
      rfl
    · simp only [↓reduceIte, Bool.or_true]
      rfl

theorem offOk_append {p q : List (List Nat)} {off : Nat} (h : OffOk p off) : OffOk (p ++ q) off := by
  cases p with
  | nil =>
    simp only [OffOk] at h
    subst h
    cases q <;> simp [OffOk]
  | cons => exact h

theorem offOk_le {p : List (List Nat)} {off : Nat} (h : OffOk p off) : off ≤ p.flatten.length := by
  cases p with
  | nil => simp only [OffOk] at h; omega
  | cons b r => simp only [OffOk] at h; simp; omega

/-- The state before the write of a flush. -/
theorem Inv.encode {r : R} {acc : List Nat} (junk : Nat → Nat) (final : Bool) (h : Inv r acc) (hs : r.started = true)
    (hc : r.closed = false) :
    ∃ raw, encodeAll junk r.chunked r.output = .ok raw ∧
      Inv { r with closed := r.closed || final, output := [], pend := r.pend ++ raw ++ (if final then (if r.chunked then [bytesOf "0\r\n\r\n"] else []) else []) } acc := by
  obtain ⟨body, b1, b2⟩ := h.after hs
  unfold Body at b2
  obtain ⟨raw, cs2, hraw, hb⟩ : ∃ raw, ∃ cs2, encodeAll junk r.chunked r.output = .ok raw ∧
      ((r.chunked = true ∧ raw.flatten = cs2.flatMap (fun c : List Nat × List Nat => chunkText c.1 c.2) ∧
        payload cs2 = r.output.flatMap BC.data ∧ GoodChunks cs2) ∨
       (r.chunked = false ∧ raw.flatten = r.output.flatMap BC.data)) := by
    cases hch : r.chunked
    · obtain ⟨raw, e1, e2⟩ := encodeAll_plain junk r.output h.small
      exact ⟨raw, [], e1, Or.inr ⟨rfl, e2⟩⟩
    · obtain ⟨raw, cs, e1, e2, e3, e4⟩ := encodeAll_chunked junk r.output h.small
      exact ⟨raw, cs, e1, Or.inl ⟨rfl, e2, e3, e4⟩⟩
  refine ⟨raw, hraw, ?_⟩
  refine ⟨?_, by simp, by simp [LastOk], ?_, fun _ => ⟨rfl, hs⟩, by simp [hs], fun _ => ?_⟩
  · rw [List.append_assoc]; exact offOk_append h.off
  · intro hx
    rcases h.comp hx with hx | ⟨hx, _⟩
    · exact Or.inl hx
    · rw [hc] at hx; simp at hx
  · refine ⟨body ++ raw.flatten ++ (if final then (if r.chunked then bytesOf "0\r\n\r\n" else []) else []), ?_, ?_⟩
    · simp only [unsent, List.append_assoc, List.flatten_append]
      rw [List.drop_append_of_le_length (offOk_le h.off), ← List.append_assoc]
      have : r.wire ++ r.pend.flatten.drop r.off = r.leader.flatten ++ body := b1
      rw [this]
      rcases hb with ⟨hch, _⟩ | ⟨hch, _⟩
      · cases final <;> simp [hch]
      · cases final <;> simp [hch]
    · unfold Body
      rcases hb with ⟨hch, e1, e2, e3⟩ | ⟨hch, e1⟩
      · simp only [hch, ↓reduceIte] at b2 ⊢
        obtain ⟨cs, g1, g2, g3⟩ := b2
        refine ⟨cs ++ cs2, ?_, ?_, ?_⟩
        · intro c hc
          rcases List.mem_append.mp hc with hc | hc
          · exact g1 c hc
          · exact e3 c hc
        · rw [← g2, ← e2]; simp [payload]
        · rw [g3, e1, hc]
          cases final <;> simp
      · simp only [hch, Bool.false_eq_true, ↓reduceIte] at b2 ⊢
        rw [← b2, e1]
        cases final <;> simp

theorem Inv.flush {r : R} {acc : List Nat} (junk : Nat → Nat) (final : Bool) (evs : List Wr) (h : Inv r acc) :
    ∃ r', flush junk final evs r = .ok r' ∧ Inv r' acc ∧ r'.leader = r.leader := by
  cases hc : r.closed
  · obtain ⟨hb, hs, hcl, _, hl, _⟩ := h.begin hc
    obtain ⟨raw, e1, e2⟩ := hb.encode junk final hs hcl
    rw [flush_eq junk final evs r hc, e1]
    refine ⟨_, rfl, e2.write evs, ?_⟩
    obtain ⟨⟨_, _, _, _, s5, _⟩, _⟩ := performWrite_spec evs _ e2.off e2.comp
    rw [s5]; exact hl
  · exact ⟨r, by simp [HttpOut.flush, hc], h, rfl⟩

/-! ## Appending -/

theorem fill_spec (f : Nat) (t : BC) (bs : List Nat) (hf : bs.length ≤ f) (ht : t.start + t.data.length ≤ t.allocd)
    (ht2 : t.allocd < 2 ^ 31) :
    ∃ l, fill f t bs = .ok l ∧ l.flatMap BC.data = t.data ++ bs ∧ LastOk l ∧ (∀ b ∈ l, b.data.length < 2 ^ 31) ∧ l ≠ [] := by
  induction f generalizing t bs with
  | zero =>
    have : bs = [] := List.length_eq_zero_iff.mp (by omega)
    subst this
    refine ⟨[t], by simp [fill], by simp, ?_, ?_, by simp⟩
    · intro x hx; simp at hx; subst hx; exact ⟨ht, ht2⟩
    · intro x hx; simp at hx; subst hx; omega
  | succ f ih =>
    unfold fill
    by_cases hbs : bs = []
    · subst hbs
      refine ⟨[t], by simp, by simp, ?_, ?_, by simp⟩
      · intro x hx; simp at hx; subst hx; exact ⟨ht, ht2⟩
      · intro x hx; simp at hx; subst hx; omega
    · have hp := List.length_pos_iff.mpr hbs
      rw [if_neg hbs]
      by_cases hfull : t.allocd = t.start + t.data.length
      · simp only [hfull, ↓reduceIte]
        rw [if_pos (by simp [defSize])]
        simp only [List.length_nil, List.nil_append]
        obtain ⟨k, hk⟩ : ∃ k, k = min bs.length (defSize - 0 - 0) := ⟨_, rfl⟩
        rw [← hk]
        have hd : defSize = 32704 := rfl
        obtain ⟨l, e1, e2, e3, e4, e5⟩ := ih ⟨defSize, 0, bs.take k⟩ (bs.drop k) (by rw [List.length_drop]; omega)
          (by simp only [List.length_take]; omega) (by simp only; omega)
        rw [e1]
        refine ⟨t :: l, rfl, ?_, ?_, ?_, by simp⟩
        · rw [List.flatMap_cons, e2]; simp
        · intro x hx
          apply e3
          rw [← hx]
          cases l with
          | nil => simp at e5
          | cons a l => simp [List.getLast?_cons]
        · intro x hx
          rcases List.mem_cons.mp hx with rfl | hx
          · omega
          · exact e4 x hx
      · simp only [hfull, ↓reduceIte]
        rw [if_pos (by omega)]
        obtain ⟨k, hk⟩ : ∃ k, k = min bs.length (t.allocd - t.start - t.data.length) := ⟨_, rfl⟩
        rw [← hk]
        obtain ⟨l, e1, e2, e3, e4, e5⟩ := ih { t with data := t.data ++ bs.take k } (bs.drop k) (by rw [List.length_drop]; omega)
          (by simp only [List.length_append, List.length_take]; omega) ht2
        rw [e1]
        exact ⟨l, rfl, by rw [e2]; simp, e3, e4, e5⟩

theorem Inv.autoFlush {r : R} {acc : List Nat} (junk : Nat → Nat) (evs : List Wr) (h : Inv r acc) :
    ∃ r', autoFlush junk evs r = .ok r' ∧ Inv r' acc ∧ r'.leader = r.leader := by
  unfold HttpOut.autoFlush
  split
  · exact h.flush junk false evs
  · exact ⟨r, rfl, h, rfl⟩

/-- More data waiting to be encoded. -/
theorem Inv.more {r : R} {acc bs : List Nat} {l : List BC} (h : Inv r acc) (hc : r.closed = false)
    (hd : l.flatMap BC.data = r.output.flatMap BC.data ++ bs) (hl : LastOk l) (hs : ∀ b ∈ l, b.data.length < 2 ^ 31) :
    Inv { r with output := l } (acc ++ bs) := by
  refine ⟨h.off, hs, hl, h.comp, by simp [hc], ?_, ?_⟩
  · intro hst
    obtain ⟨b1, b2, b3⟩ := h.before hst
    exact ⟨b1, b2, by simp only; rw [hd, b3]⟩
  · intro hst
    obtain ⟨body, b1, b2⟩ := h.after hst
    refine ⟨body, b1, ?_⟩
    unfold Body at *
    simp only
    split
    · rename_i hch
      rw [if_pos hch] at b2
      obtain ⟨cs, g1, g2, g3⟩ := b2
      exact ⟨cs, g1, by rw [hd, ← g2]; simp, g3⟩
    · rename_i hch
      rw [if_neg hch] at b2
      rw [hd, ← b2]; simp

theorem lastOutput_spec {l : List BC} (hl : LastOk l) :
    (lastOutput l).1.flatMap BC.data ++ (lastOutput l).2.data = l.flatMap BC.data ∧
      (lastOutput l).2.start + (lastOutput l).2.data.length ≤ (lastOutput l).2.allocd ∧ (lastOutput l).2.allocd < 2 ^ 31 ∧
      (∀ b ∈ (lastOutput l).1, b ∈ l) := by
  unfold lastOutput
  rcases List.eq_nil_or_concat l with rfl | ⟨p, t, rfl⟩
  · simp [defSize]
  · have := hl t (by simp)
    simp only [List.concat_eq_append, List.getLast?_append, List.getLast?_singleton, Option.some_or, List.dropLast_concat]
    refine ⟨by simp, this.1, this.2, fun b hb => by simp [hb]⟩

theorem lastOk_append {p l : List BC} (hl : LastOk l) (hne : l ≠ []) : LastOk (p ++ l) := by
  intro t ht
  apply hl
  rw [← ht]
  rcases List.eq_nil_or_concat l with rfl | ⟨q, x, rfl⟩
  · simp at hne
  · rw [List.concat_eq_append, ← List.append_assoc]; simp

theorem refused_closed {r : R} (h : refused r = false) : r.closed = false ∧ r.inError = false := by
  unfold refused at h
  simp only [Bool.or_eq_false_iff] at h
  exact ⟨h.1.2, h.1.1⟩

theorem Inv.append {r : R} {acc : List Nat} (junk : Nat → Nat) (bs : List Nat) (evs : List Wr) (h : Inv r acc)
    (hb : bs.length < 2 ^ 31) :
    ∃ r', append junk bs evs r = .ok (r', !refused r) ∧ Inv r' (acc ++ if refused r then [] else bs) ∧ r'.leader = r.leader := by
  unfold HttpOut.append
  cases hr : refused r
  · simp only [Bool.false_eq_true, ↓reduceIte, Bool.not_false]
    rw [if_neg (by omega)]
    obtain ⟨hc, _⟩ := refused_closed hr
    obtain ⟨l1, l2, l3, l4⟩ := lastOutput_spec h.last
    rcases hlo : lastOutput r.output with ⟨pre, t⟩
    rw [hlo] at l1 l2 l3 l4
    simp only at l1 l2 l3 l4 ⊢
    obtain ⟨l, e1, e2, e3, e4, e5⟩ := fill_spec bs.length t bs (le_refl _) l2 l3
    rw [e1]
    simp only [Out.ok_bind]
    have hm := h.more (l := pre ++ l) (bs := bs) hc (by rw [List.flatMap_append, e2, ← l1, List.append_assoc]) (lastOk_append e3 e5) (by
      intro b hb
      rcases List.mem_append.mp hb with hb | hb
      · exact h.small b (l4 b hb)
      · exact e4 b hb)
    obtain ⟨r', f1, f2, f3⟩ := hm.autoFlush junk evs
    rw [f1]
    exact ⟨r', rfl, f2, f3⟩
  · exact ⟨r, by simp, by simpa using h, rfl⟩

theorem markFull_data (l : List BC) : (markFull l).flatMap BC.data = l.flatMap BC.data ∧
    (∀ b ∈ markFull l, ∃ b' ∈ l, b.data = b'.data) := by
  induction l with
  | nil => simp [markFull]
  | cons b l ih =>
    cases l with
    | nil => simp [markFull]
    | cons c l =>
      refine ⟨by rw [markFull, List.flatMap_cons, ih.1, ← List.flatMap_cons]; simp, ?_⟩
      intro x hx
      rw [markFull] at hx
      · rcases List.mem_cons.mp hx with rfl | hx
        · exact ⟨x, by simp, rfl⟩
        · obtain ⟨b', h1, h2⟩ := ih.2 x hx
          exact ⟨b', by simp [h1], h2⟩
      · simp

theorem Inv.appendChain {r : R} {acc : List Nat} (junk : Nat → Nat) (b : BC) (evs : List Wr) (h : Inv r acc)
    (hb : b.start + b.data.length ≤ b.allocd ∧ b.allocd < 2 ^ 31) :
    ∃ r', appendChain junk b evs r = .ok (r', !refused r) ∧ Inv r' (acc ++ if refused r then [] else b.data) ∧
      r'.leader = r.leader := by
  unfold HttpOut.appendChain
  cases hr : refused r
  · simp only [Bool.false_eq_true, ↓reduceIte, Bool.not_false]
    obtain ⟨hc, _⟩ := refused_closed hr
    obtain ⟨m1, m2⟩ := markFull_data r.output
    have hm := h.more (l := markFull r.output ++ [b]) (bs := b.data) hc (by simp [m1])
      (by intro t ht; simp at ht; subst ht; exact hb) (by
      intro x hx
      rcases List.mem_append.mp hx with hx | hx
      · obtain ⟨b', e1, e2⟩ := m2 x hx
        rw [e2]; exact h.small b' e1
      · simp at hx; subst hx; omega)
    obtain ⟨r', f1, f2, f3⟩ := hm.autoFlush junk evs
    rw [f1]
    exact ⟨r', rfl, f2, f3⟩
  · exact ⟨r, by simp, by simpa using h, rfl⟩

/-! ## Runs -/

/-- The sizes the code can handle. -/
def Sized : Op → Prop
  | .append bs _ => bs.length < 2 ^ 31
  | .appendChain b _ => b.start + b.data.length ≤ b.allocd ∧ b.allocd < 2 ^ 31
  | _ => True

theorem Inv.step {r : R} {acc : List Nat} (junk : Nat → Nat) (op : Op) (h : Inv r acc) (hs : Sized op) :
    ∃ r' a, step junk op r = .ok (r', a) ∧ Inv r' (acc ++ a) ∧ r'.leader = r.leader := by
  cases op with
  | append bs evs =>
    obtain ⟨r', e1, e2, e3⟩ := h.append junk bs evs hs
    refine ⟨r', if refused r then [] else bs, ?_, e2, e3⟩
    simp only [HttpOut.step, e1, Out.ok_bind]
    cases refused r <;> rfl
  | appendChain b evs =>
    obtain ⟨r', e1, e2, e3⟩ := h.appendChain junk b evs hs
    refine ⟨r', if refused r then [] else b.data, ?_, e2, e3⟩
    simp only [HttpOut.step, e1, Out.ok_bind]
    cases refused r <;> rfl
  | flush final evs =>
    obtain ⟨r', e1, e2, e3⟩ := h.flush junk final evs
    exact ⟨r', [], by simp [HttpOut.step, e1], by simpa using e2, e3⟩
  | drive evs =>
    obtain ⟨⟨_, _, _, _, s5, _⟩, _⟩ := performWrite_spec evs r h.off h.comp
    exact ⟨_, [], rfl, by simpa using h.write evs, s5⟩
  | setChunked =>
    refine ⟨_, [], rfl, ?_, ?_⟩
    · simp only [List.append_nil]
      split
      · exact h
      · rename_i hn
        simp only [Bool.or_eq_true, not_or, Bool.not_eq_true] at hn
        exact ⟨h.off, h.small, h.last, h.comp, h.closedOut, h.before, by simp [hn.1]⟩
    · split <;> rfl
  | setClose =>
    refine ⟨_, [], rfl, ?_, ?_⟩
    · simp only [List.append_nil]
      split
      · exact h
      · rename_i hn
        simp only [Bool.or_eq_true, not_or, Bool.not_eq_true] at hn
        exact ⟨h.off, h.small, h.last, h.comp, h.closedOut, h.before, by simp [hn.1]⟩
    · split <;> rfl

theorem Inv.run (junk : Nat → Nat) (ops : List Op) {r : R} {acc : List Nat} (h : Inv r acc) (hs : ∀ op ∈ ops, Sized op) :
    ∃ r' a, run junk ops r = .ok (r', a) ∧ Inv r' (acc ++ a) ∧ r'.leader = r.leader := by
  induction ops generalizing r acc with
  | nil => exact ⟨r, [], rfl, by simpa using h, rfl⟩
  | cons op ops ih =>
    obtain ⟨r1, a, e1, e2, e3⟩ := h.step junk op (hs op (by simp))
    obtain ⟨r2, b, f1, f2, f3⟩ := ih e2 (fun o ho => hs o (by simp [ho]))
    refine ⟨r2, a ++ b, by simp [HttpOut.run, e1, f1], by rw [← List.append_assoc]; exact f2, by rw [f3, e3]⟩

theorem inv_fresh (a b c : Bool) (t : Nat) (l : List (List Nat)) : Inv (fresh a b c t l) [] := by
  refine ⟨by simp [fresh, OffOk], by simp [fresh], by simp [fresh, LastOk], by simp [fresh], by simp [fresh], by simp [fresh], by simp [fresh]⟩

theorem chunks_limits {cs : List (List Nat × List Nat)} (h : GoodChunks cs) :
    WellFormed cs (bytesOf "0") ∧ Limits cs (bytesOf "0") := by
  refine ⟨⟨fun c hc => (h c hc).1, HexNum.one (Or.inl rfl)⟩, fun c hc => ⟨by have := (h c hc).2.1; omega, (h c hc).2.2⟩, ?_⟩
  decide

theorem last_chunk_text : chunkText (bytesOf "0") [] = bytesOf "0\r\n\r\n" := by decide +kernel

/-! ## C34

`run` returns the state after the calls and, in order, the bytes of the appends that returned true. -/

/-- A finished chunked response: what the connection has seen is a prefix of the headers followed by a
well-formed chunked body that carries exactly the accepted bytes, and all of it once the response is complete
without an error.  The sizes are limited to below 2 GiB (see the violations for what happens otherwise). -/
theorem C34_chunked_response_partial (junk : Nat → Nat) (ops : List Op) (hasCL canChunk canClose : Bool) (trigger : Nat)
    (leader : List (List Nat)) (hs : ∀ op ∈ ops, Sized op) :
    ∃ r acc, run junk ops (fresh hasCL canChunk canClose trigger leader) = .ok (r, acc) ∧
      (r.closed = true → r.chunked = true →
        ∃ cs, WellFormed cs (bytesOf "0") ∧ Limits cs (bytesOf "0") ∧ payload cs = acc ∧
          r.wire <+: leader.flatten ++ bodyText cs (bytesOf "0") ∧
          (r.complete = true → r.inError = false → r.wire = leader.flatten ++ bodyText cs (bytesOf "0"))) := by
  obtain ⟨r, a, e1, e2, e3⟩ := Inv.run junk ops (inv_fresh hasCL canChunk canClose trigger leader) hs
  refine ⟨r, a, e1, ?_⟩
  intro hc hch
  obtain ⟨ho, hst⟩ := e2.closedOut hc
  obtain ⟨body, b1, b2⟩ := e2.after hst
  unfold Body at b2
  rw [if_pos hch] at b2
  obtain ⟨cs, g1, g2, g3⟩ := b2
  obtain ⟨w1, w2⟩ := chunks_limits g1
  have hb : body = bodyText cs (bytesOf "0") := by
    rw [g3, hc, bodyText, last_chunk_text]; simp
  have hl : r.leader = leader := e3
  rw [hb, hl] at b1
  refine ⟨cs, w1, w2, by simpa [ho] using g2, ⟨unsent r, b1⟩, ?_⟩
  intro hcm herr
  rcases e2.comp hcm with h | ⟨_, h⟩
  · rw [herr] at h; simp at h
  · rw [h] at b1; simpa using b1

/-- A response in progress, chunked: what the connection has seen is a prefix of the headers and well-formed
chunks whose content is a prefix of the accepted bytes. -/
theorem C34_chunked_in_progress_partial (junk : Nat → Nat) (ops : List Op) (hasCL canChunk canClose : Bool) (trigger : Nat)
    (leader : List (List Nat)) (hs : ∀ op ∈ ops, Sized op) :
    ∃ r acc, run junk ops (fresh hasCL canChunk canClose trigger leader) = .ok (r, acc) ∧
      (r.started = false → r.wire = []) ∧
      (r.chunked = true → r.started = true → r.closed = false →
        ∃ cs, WellFormed cs (bytesOf "0") ∧ payload cs <+: acc ∧
          r.wire <+: leader.flatten ++ cs.flatMap (fun c => chunkText c.1 c.2)) := by
  obtain ⟨r, a, e1, e2, e3⟩ := Inv.run junk ops (inv_fresh hasCL canChunk canClose trigger leader) hs
  refine ⟨r, a, e1, fun h => (e2.before h).2.1, ?_⟩
  intro hch hst hcl
  obtain ⟨body, b1, b2⟩ := e2.after hst
  unfold Body at b2
  rw [if_pos hch] at b2
  obtain ⟨cs, g1, g2, g3⟩ := b2
  have hl : r.leader = leader := e3
  rw [hl] at b1
  refine ⟨cs, (chunks_limits g1).1, ⟨_, by simpa using g2⟩, ?_⟩
  have : r.wire <+: leader.flatten ++ body := ⟨unsent r, b1⟩
  rw [g3, hcl] at this
  simpa using this

/-- A response that is not chunked: what the connection has seen is a prefix of the headers followed by the
accepted bytes, and all of it once the response is closed and complete without an error. -/
theorem C34_verbatim_response_partial (junk : Nat → Nat) (ops : List Op) (hasCL canChunk canClose : Bool) (trigger : Nat)
    (leader : List (List Nat)) (hs : ∀ op ∈ ops, Sized op) :
    ∃ r acc, run junk ops (fresh hasCL canChunk canClose trigger leader) = .ok (r, acc) ∧
      (r.chunked = false → r.wire <+: leader.flatten ++ acc ∧
        (r.complete = true → r.inError = false → r.wire = leader.flatten ++ acc)) := by
  obtain ⟨r, a, e1, e2, e3⟩ := Inv.run junk ops (inv_fresh hasCL canChunk canClose trigger leader) hs
  refine ⟨r, a, e1, ?_⟩
  intro hch
  have hl : r.leader = leader := e3
  cases hst : r.started
  · rw [(e2.before hst).2.1]
    refine ⟨List.nil_prefix, ?_⟩
    intro hcm herr
    rcases e2.comp hcm with h | ⟨h, _⟩
    · rw [herr] at h; simp at h
    · have := (e2.closedOut h).2
      rw [hst] at this; simp at this
  · obtain ⟨body, b1, b2⟩ := e2.after hst
    unfold Body at b2
    rw [if_neg (by simp [hch])] at b2
    rw [hl] at b1
    have b3 : body ++ r.output.flatMap BC.data = a := by simpa using b2
    refine ⟨?_, ?_⟩
    · have : r.wire <+: leader.flatten ++ body := ⟨unsent r, b1⟩
      refine this.trans ⟨r.output.flatMap BC.data, ?_⟩
      rw [List.append_assoc, b3]
    · intro hcm herr
      rcases e2.comp hcm with h | ⟨h, h'⟩
      · rw [herr] at h; simp at h
      · rw [(e2.closedOut h).1] at b3
        rw [h'] at b1
        simp only [List.flatMap_nil, List.append_nil] at b3 b1
        rw [b1, b3]

/-- Once the final flush was made and no write failed, writing completes the response: a number of successful
writes equal to the number of bytes waiting is enough. -/
theorem C34_completes_partial (junk : Nat → Nat) (ops : List Op) (hasCL canChunk canClose : Bool) (trigger : Nat)
    (leader : List (List Nat)) (hs : ∀ op ∈ ops, Sized op) :
    ∃ r acc, run junk ops (fresh hasCL canChunk canClose trigger leader) = .ok (r, acc) ∧
      (r.closed = true → r.inError = false → ∀ ws : List Nat, (unsent r).length ≤ ws.length →
        (performWrite (ws.map Wr.some) r).complete = true ∧ (performWrite (ws.map Wr.some) r).inError = false) := by
  obtain ⟨r, a, e1, e2, e3⟩ := Inv.run junk ops (inv_fresh hasCL canChunk canClose trigger leader) hs
  refine ⟨r, a, e1, ?_⟩
  intro hc he ws hl
  obtain ⟨_, _, _, _, h5, _⟩ := performWrite_spec (ws.map Wr.some) r e2.off e2.comp
  obtain ⟨_, h2, h3⟩ := h5 he (by
    intro e hm
    obtain ⟨n, _, rfl⟩ := List.mem_map.mp hm
    exact ⟨n, rfl⟩) (by simpa using hl)
  exact ⟨h3 hc, h2⟩

/-- An append or a flush is never lost silently: an append is refused only when the response is closed, when
writing failed, or when the headers of a response that is neither chunked nor ended by closing are already out. -/
theorem C34_append_accepted_partial (junk : Nat → Nat) (ops : List Op) (bs : List Nat) (evs : List Wr)
    (hasCL canChunk canClose : Bool) (trigger : Nat) (leader : List (List Nat)) (hs : ∀ op ∈ ops, Sized op)
    (hb : bs.length < 2 ^ 31) :
    ∃ r acc r', run junk ops (fresh hasCL canChunk canClose trigger leader) = .ok (r, acc) ∧
      ((r.inError = true ∨ r.closed = true ∨ (r.started = true ∧ r.close = false ∧ r.chunked = false)) ∧
        append junk bs evs r = .ok (r, false) ∨
       ¬ (r.inError = true ∨ r.closed = true ∨ (r.started = true ∧ r.close = false ∧ r.chunked = false)) ∧
        append junk bs evs r = .ok (r', true)) := by
  obtain ⟨r, a, e1, e2, e3⟩ := Inv.run junk ops (inv_fresh hasCL canChunk canClose trigger leader) hs
  obtain ⟨r', f1, f2, _⟩ := e2.append junk bs evs hb
  have hiff : refused r = true ↔ (r.inError = true ∨ r.closed = true ∨ (r.started = true ∧ r.close = false ∧ r.chunked = false)) := by
    unfold refused
    cases r.inError <;> cases r.closed <;> cases r.started <;> cases r.close <;> cases r.chunked <;> simp
  refine ⟨r, a, r', e1, ?_⟩
  rw [← hiff]
  cases hr : refused r
  · right
    rw [hr] at f1
    exact ⟨by simp, f1⟩
  · left
    exact ⟨rfl, by simp [append, hr]⟩

/-- The two directions together: a client that reads the body of a completed chunked response with the decoder
of C33 receives exactly the accepted bytes, and stops at the end of the response. -/
theorem C34_round_trip_partial (junk : Nat → Nat) (ops : List Op) (hasCL canChunk canClose : Bool) (trigger : Nat)
    (leader : List (List Nat)) (next : List Nat) (hs : ∀ op ∈ ops, Sized op) :
    ∃ r acc, run junk ops (fresh hasCL canChunk canClose trigger leader) = .ok (r, acc) ∧
      (r.closed = true → r.chunked = true → r.complete = true → r.inError = false →
        ∃ body, r.wire = leader.flatten ++ body ∧
          ∀ calls : List (Nat × List HttpIn.Rd), (∀ c ∈ calls, 0 < c.1) →
            (∀ c ∈ calls, (∀ x ∈ c.2, ∃ k, x = HttpIn.Rd.data k) ∧ (body ++ next).length ≤ c.2.length) →
            acc.length < calls.length →
            ∃ s' rs, HttpIn.run HttpIn.consumeChunked calls (HttpIn.start (body ++ next) 0) = .ok (s', rs) ∧
              HttpIn.received rs = acc ∧ .done ∈ rs ∧ HttpIn.unread s' = next) := by
  obtain ⟨r, acc, e1, e2⟩ := C34_chunked_response_partial junk ops hasCL canChunk canClose trigger leader hs
  refine ⟨r, acc, e1, ?_⟩
  intro hc hch hcm herr
  obtain ⟨cs, w1, w2, w3, _, w4⟩ := e2 hc hch
  refine ⟨bodyText cs (bytesOf "0"), w4 hcm herr, ?_⟩
  intro calls h1 h2 h3
  rw [← w3]
  refine HttpIn.C33_chunked_progress_partial cs (bytesOf "0") next _ calls (HttpIn.fresh_start _ _) w1 w2 ?_ h1 ?_ (by rw [w3]; exact h3)
  · simp [HttpIn.unread, HttpIn.start]
  · intro c hc
    have := h2 c hc
    simpa [HttpIn.unread, HttpIn.start] using this

/-! ### Examples -/

/-- What a test can see. -/
def observe (o : Out (R × List Nat)) : Option (List Nat × List Nat × Bool × Bool × Bool) :=
  match o with
  | .ok (r, acc) => some (r.wire, acc, r.chunked, r.closed, r.complete)
  | _ => none

def exOps : List Op :=
  [.append (bytesOf "hello ") [], .append (bytesOf "wor") [], .flush false [.some 4, .again],
   .appendChain ⟨100, 3, bytesOf "ld, and so on"⟩ [], .append (bytesOf "!") [], .flush true [.some 7, .some 100, .again],
   .append (bytesOf "late") [], .drive [.some 100, .some 2, .some 100, .some 100]]

/-- Chunked: a refused append is not part of the accepted bytes. -/
example : (∀ op ∈ exOps, Sized op) ∧
    observe (run (fun _ => 7) exOps (fresh false true true 0 [bytesOf "HTTP/1.1 200 OK\r\n\r\n"])) = some (
      bytesOf "HTTP/1.1 200 OK\r\n\r\n9\r\nhello wor\r\ne\r\nld, and so on!\r\n0\r\n\r\n",
      bytesOf "hello world, and so on!", true, true, true) := by
  refine ⟨?_, by decide +kernel⟩
  intro op h
  simp only [exOps, List.mem_cons, List.not_mem_nil, or_false] at h
  rcases h with rfl | rfl | rfl | rfl | rfl | rfl | rfl | rfl <;> simp [Sized] <;> decide

/-- Ended by closing. -/
example : observe (run (fun _ => 7) exOps (fresh false false true 0 [bytesOf "HTTP/1.0 200 OK\r\n\r\n"])) = some (
      bytesOf "HTTP/1.0 200 OK\r\n\r\nhello world, and so on!",
      bytesOf "hello world, and so on!", false, true, true) := by decide +kernel

/-- With a content length, in one flush. -/
example : observe (run (fun _ => 7) [.append (bytesOf "hello") [], .append (bytesOf "!") [], .flush true [.some 1000, .some 1000]]
      (fresh true true true 0 [bytesOf "HTTP/1.1 200 OK\r\nContent-Length: 6\r\n\r\n"])) = some (
      bytesOf "HTTP/1.1 200 OK\r\nContent-Length: 6\r\n\r\nhello!", bytesOf "hello!", false, true, true) := by decide +kernel

/-! ### Violations -/

/-- A response with a content length whose data passes the automatic flush limit is cut: everything appended
after that point is refused, and the connection sees a complete response shorter than announced.  Here the limit
is 4 and the application announced 8 bytes. -/
theorem C34_content_length_cut_violated :
    observe (run (fun _ => 7) [.append (bytesOf "hello") [], .append (bytesOf "abc") [], .flush true [.some 1000, .some 1000]]
      (fresh true true true 4 [bytesOf "HTTP/1.1 200 OK\r\nContent-Length: 8\r\n\r\n"])) = some (
      bytesOf "HTTP/1.1 200 OK\r\nContent-Length: 8\r\n\r\nhello", bytesOf "hello", false, true, true) := by decide +kernel

/-- A buffer of 2 GiB or more makes the encoder loop forever. -/
theorem C34_two_gib_violated (junk : Nat → Nat) (b : BC) (h : 2 ^ 31 ≤ b.data.length) (evs : List Wr) :
    run junk [.appendChain b evs] (fresh false true true 0 []) = .abort := by
  have h1 : flush junk false evs { fresh false true true 0 [] with output := [b] } = .abort := by
    rw [flush_eq junk false evs _ rfl]
    have : encodeAll junk (begin_ { fresh false true true 0 [] with output := [b] }).chunked
        (begin_ { fresh false true true 0 [] with output := [b] }).output = .abort := by
      change encodeAll junk true [b] = .abort
      simp only [encodeAll, encode]
      rw [if_pos h]
      rfl
    rw [this]; rfl
  have h2 : appendChain junk b evs (fresh false true true 0 []) = .abort := by
    unfold appendChain
    have hr : refused (fresh false true true 0 []) = false := rfl
    simp only [hr, Bool.false_eq_true, ↓reduceIte]
    have : autoFlush junk evs { fresh false true true 0 [] with output := markFull (fresh false true true 0 []).output ++ [b] } = .abort := by
      unfold autoFlush
      rw [if_pos]
      · exact h1
      · simp only [buffered, limit, fresh, markFull, List.nil_append, List.flatMap_cons, List.flatMap_nil, List.append_nil, ↓reduceIte, defSize]
        omega
    rw [this]; rfl
  simp only [run, step, h2]
  rfl

end Mtev.HttpOut
