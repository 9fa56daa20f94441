import Verif.HttpHead

/-! # Property C35: request heads -/

namespace Mtev.HttpHead

open HttpIn (defSize)

/-! ## Specification -/

/-- `m` line ends in front of a request. -/
def lead : Nat → List Nat
  | 0 => []
  | m + 1 => 13 :: 10 :: lead m

/-- `h` ends with the first empty line in it, and does not begin with a line end. -/
def IsHead (h : List Nat) : Prop :=
  ¬ [13, 10] <+: h ∧ [13, 10, 13, 10] <:+ h ∧ ∀ a b, h = a ++ [13, 10, 13, 10] ++ b → b = []

/-- A line: not empty, no NUL, no line end. -/
def LineOk (l : List Nat) : Prop := l ≠ [] ∧ 0 ∉ l ∧ ¬ [13, 10] <:+: l

/-- Blanks. -/
def Blanks (l : List Nat) : Prop := ∀ c ∈ l, c = 32 ∨ c = 9

/-- The text does not begin with a blank. -/
def NoBlankFirst (l : List Nat) : Prop := ∀ c ∈ l.head?, c ≠ 32 ∧ c ≠ 9

/-- A header field as written: name, blanks before and after the colon, value, and continuation lines given
by their blanks and their text. -/
structure Field where
  name : List Nat
  pad : List Nat
  sep : List Nat
  value : List Nat
  conts : List (List Nat × List Nat)

/-- The grammar of a field. -/
def Field.Ok (f : Field) : Prop :=
  f.name ≠ [] ∧ 58 ∉ f.name ∧ NoBlankFirst f.name ∧ NoBlankFirst f.name.reverse ∧ Blanks f.pad ∧ Blanks f.sep ∧
  NoBlankFirst f.value ∧ ∀ c ∈ f.conts, c.1 ≠ [] ∧ Blanks c.1 ∧ NoBlankFirst c.2

/-- The lines of a field. -/
def Field.lines (f : Field) : List (List Nat) :=
  (f.name ++ f.pad ++ [58] ++ f.sep ++ f.value) :: f.conts.map (fun c => c.1 ++ c.2)

/-- The value of a field: continuation lines are joined with one space. -/
def Field.val (f : Field) : List Nat := f.value ++ f.conts.flatMap (fun c => 32 :: c.2)

/-- Lower case of a byte. -/
def toLower (c : Nat) : Nat := if c ∈ bytesOf "ABCDEFGHIJKLMNOPQRSTUVWXYZ" then c + 32 else c

/-- The value of the last field with the given (lower case) name. -/
def valueOf (k : List Nat) : List Field → Option (List Nat)
  | [] => none
  | f :: fs =>
    match valueOf k fs with
    | some v => some v
    | none => if f.name.map toLower = k then some f.val else none

/-- The text of a head with the given lines. -/
def headText (ls : List (List Nat)) : List Nat := ls.flatMap (fun l => l ++ [13, 10]) ++ [13, 10]

/-- The lines of a request. -/
def reqLines (m u p : List Nat) (fs : List Field) : List (List Nat) :=
  (m ++ [32] ++ u ++ [32] ++ p) :: fs.flatMap Field.lines

/-- The number of reads that deliver something. -/
def reads : List Ev → Nat
  | [] => 0
  | .again :: r => reads r
  | .data _ :: r => reads r + 1

/-! ## Searching -/

theorem find_some {p l : List Nat} {i : Nat} (h : find p l = some i) : p <+: l.drop i := by
  induction l generalizing i with
  | nil =>
    simp only [find] at h
    split at h
    · rename_i hp; subst hp; exact List.nil_prefix
    · simp at h
  | cons c r ih =>
    simp only [find] at h
    split at h
    · rename_i hp
      simp only [Option.some.injEq] at h
      subst h
      simpa [List.isPrefixOf_iff_prefix] using hp
    · cases hf : find p r with
      | none => rw [hf] at h; simp at h
      | some j =>
        rw [hf] at h
        simp only [Option.map_some, Option.some.injEq] at h
        subst h
        simpa using ih hf

theorem find_first {p l : List Nat} {i j : Nat} (h : find p l = some i) (hj : j < i) : ¬ p <+: l.drop j := by
  induction l generalizing i j with
  | nil =>
    simp only [find] at h
    split at h <;> simp at h
    omega
  | cons c r ih =>
    simp only [find] at h
    split at h
    · simp only [Option.some.injEq] at h; omega
    · rename_i hp
      cases hf : find p r with
      | none => rw [hf] at h; simp at h
      | some k =>
        rw [hf] at h
        simp only [Option.map_some, Option.some.injEq] at h
        cases j with
        | zero => simpa [List.isPrefixOf_iff_prefix] using hp
        | succ j => simpa using ih hf (by omega)

theorem find_none {p l : List Nat} (hp : p ≠ []) : find p l = none ↔ ∀ j, ¬ p <+: l.drop j := by
  induction l with
  | nil => simp [find, hp]
  | cons c r ih =>
    simp only [find]
    split
    · rename_i h
      simp only [reduceCtorEq, false_iff, not_forall, not_not]
      exact ⟨0, by simpa [List.isPrefixOf_iff_prefix] using h⟩
    · rename_i h
      rw [Option.map_eq_none_iff, ih]
      constructor
      · intro hh j
        cases j with
        | zero => simpa [List.isPrefixOf_iff_prefix] using h
        | succ j => simpa using hh j
      · intro hh j
        simpa using hh (j + 1)

theorem find_of_first {p l : List Nat} {i : Nat} (hp : p ≠ []) (h : p <+: l.drop i) (hf : ∀ j < i, ¬ p <+: l.drop j) :
    find p l = some i := by
  cases hx : find p l with
  | none => exact absurd h ((find_none hp).mp hx i)
  | some j =>
    have h1 := find_some hx
    rcases Nat.lt_trichotomy j i with h2 | h2 | h2
    · exact absurd h1 (hf j h2)
    · rw [h2]
    · exact absurd h (find_first hx h2)

/-- In a part of the text the pattern is found when it lies in it completely. -/
theorem find_take {p l : List Nat} {i k : Nat} (hp : p ≠ []) (h : find p l = some i) :
    find p (l.take k) = if i + p.length ≤ k then some i else none := by
  have hpl := List.length_pos_iff.mpr hp
  have key : ∀ j, p <+: (l.take k).drop j → p <+: l.drop j ∧ j + p.length ≤ k := by
    intro j hj
    have h1 : p <+: l.drop j := by
      refine hj.trans ?_
      rw [List.drop_take]
      exact List.take_prefix _ _
    have := hj.length_le
    rw [List.length_drop, List.length_take] at this
    exact ⟨h1, by omega⟩
  have h1 := find_some h
  split
  · rename_i hk
    apply find_of_first hp
    · rw [List.drop_take]
      rw [List.prefix_take_iff]
      exact ⟨h1, by omega⟩
    · intro j hj hh
      exact find_first h hj (key j hh).1
  · rename_i hk
    rw [find_none hp]
    intro j hj
    obtain ⟨h2, h3⟩ := key j hj
    rcases Nat.lt_or_ge j i with h4 | h4
    · exact find_first h h4 h2
    · omega

theorem find_append {p l : List Nat} {i : Nat} (r : List Nat) (hp : p ≠ []) (h : find p l = some i) : find p (l ++ r) = some i := by
  apply find_of_first hp
  · have := find_some h
    have hl := this.length_le
    have hpl := List.length_pos_iff.mpr hp
    rw [List.length_drop] at hl
    rw [List.drop_append_of_le_length (by omega)]
    exact this.trans (List.prefix_append _ _)
  · intro j hj hh
    have h1 := find_some h
    have hl := h1.length_le
    have hpl := List.length_pos_iff.mpr hp
    rw [List.length_drop] at hl
    refine find_first h hj ?_
    rw [List.drop_append_of_le_length (by omega)] at hh
    refine List.prefix_of_prefix_length_le hh (List.prefix_append _ _) ?_
    rw [List.length_drop]
    omega

theorem IsHead.find {h : List Nat} (hh : IsHead h) : find pat h = some (h.length - 4) ∧ 4 ≤ h.length := by
  obtain ⟨h1, h2, h3⟩ := hh
  obtain ⟨a, rfl⟩ := h2
  refine ⟨?_, by simp⟩
  apply find_of_first (by simp [pat])
  · rw [show (a ++ [13, 10, 13, 10] : List Nat).length - 4 = a.length by simp, List.drop_left]
    exact List.prefix_refl _
  · intro j hj hp
    obtain ⟨b, hb⟩ := hp
    have : a ++ [13, 10, 13, 10] = (a ++ [13, 10, 13, 10]).take j ++ [13, 10, 13, 10] ++ b := by
      conv => lhs; rw [← List.take_append_drop j (a ++ [13, 10, 13, 10])]
      rw [← hb, List.append_assoc]; rfl
    have hb0 := h3 _ _ this
    have := congrArg List.length hb
    rw [List.length_drop, List.length_append, hb0] at this
    simp [pat] at this hj
    omega

/-! ## Line ends in front -/

theorem lead_length (m : Nat) : (lead m).length = 2 * m := by
  induction m with
  | zero => rfl
  | succ m ih => simp [lead, ih]; omega

theorem lead_snoc (j : Nat) : lead j ++ [13, 10] = lead (j + 1) := by
  induction j with
  | zero => rfl
  | succ j ih => simp only [lead, List.cons_append, ih]

/-- Line ends in front are dropped, nothing else. -/
theorem stripLead_spec (f : Nat) (b : HB) (j : Nat) (hp : b.pre = lead j) (hf : b.data.length ≤ f) :
    ∃ j', (stripLead f b).pre = lead j' ∧ (stripLead f b).pre ++ (stripLead f b).data = b.pre ++ b.data ∧
      (stripLead f b).allocd = b.allocd ∧ ¬ [13, 10] <+: (stripLead f b).data := by
  induction f generalizing b j with
  | zero =>
    have : b.data = [] := List.length_eq_zero_iff.mp (by omega)
    exact ⟨j, hp, rfl, rfl, by simp [stripLead, this]⟩
  | succ f ih =>
    unfold stripLead
    split
    · rename_i r hd
      have h1 : b.data.length = r.length + 2 := by rw [hd]; simp
      obtain ⟨j', e1, e2, e3, e4⟩ := ih { b with pre := b.pre ++ [13, 10], data := r } (j + 1)
        (by simp only; rw [hp]; exact lead_snoc j) (by simp only; omega)
      exact ⟨j', e1, by rw [e2, hd]; simp, e3, e4⟩
    · rename_i hd
      refine ⟨j, hp, rfl, rfl, ?_⟩
      rintro ⟨t, ht⟩
      exact hd t ht.symm

theorem not_prefix_take {t : List Nat} (h : ¬ [13, 10] <+: t) (k : Nat) : ¬ [13, 10] <+: t.take k := by
  intro hp
  exact h (hp.trans (List.take_prefix _ _))

/-- How much of the line ends in front has been dropped. -/
theorem lead_unique (j m k : Nat) (d t : List Nat) (h : lead j ++ d = (lead m ++ t).take k) (hd : ¬ [13, 10] <+: d)
    (ht : ¬ [13, 10] <+: t) : (j = m ∧ d = t.take (k - 2 * m) ∧ 2 * m ≤ k) ∨ (j < m ∧ k < 2 * j + 2 ∧ d.length < 2) := by
  induction j generalizing m k with
  | zero =>
    cases m with
    | zero => left; exact ⟨rfl, by simpa [lead] using h, by omega⟩
    | succ m =>
      right
      simp only [lead, List.nil_append, List.cons_append] at h
      by_cases hk : 2 ≤ k
      · exfalso
        apply hd
        obtain ⟨k', rfl⟩ : ∃ k', k = k' + 2 := ⟨k - 2, by omega⟩
        rw [h]
        exact ⟨(lead m ++ t).take k', by simp⟩
      · refine ⟨by omega, by omega, ?_⟩
        rw [h, List.length_take]
        omega
  | succ j ih =>
    cases m with
    | zero =>
      exfalso
      simp only [lead, List.nil_append, List.cons_append] at h
      apply not_prefix_take ht k
      rw [← h]
      exact ⟨lead j ++ d, rfl⟩
    | succ m =>
      have hk : 2 ≤ k := by
        have := congrArg List.length h
        simp only [List.length_append, lead_length, List.length_take] at this
        omega
      obtain ⟨k', rfl⟩ : ∃ k', k = k' + 2 := ⟨k - 2, by omega⟩
      simp only [lead, List.cons_append, List.take_succ_cons, List.cons.injEq, true_and] at h
      rcases ih m k' h with ⟨e1, e2, e3⟩ | ⟨e1, e2, e3⟩
      · left
        exact ⟨by omega, by rw [e2]; congr 1; omega, by omega⟩
      · right
        exact ⟨by omega, by omega, e3⟩

/-! ## One buffer -/

/-- What the head `h` means. -/
def meaning (h : List Nat) : Option Req :=
  match parseLines (splitLines [] (cstr (h.take (h.length - 2)))) ⟨none, [], none⟩ with
  | some ⟨some (m, u, p), hd, _⟩ => some ⟨m, u, p, hd⟩
  | _ => none

theorem get_ok {b : HB} {off n : Nat} (h : off + n ≤ b.fin) : b.get off n = .ok (((b.pre ++ b.data).drop off).take n) := by
  unfold HB.get
  rw [Block.read_ok (by simpa [HB.fin] using h)]

theorem parse_single (h : List Nat) (allocd : Nat) (pre : List Nat) (left : List HB) (h4 : 4 ≤ h.length) (hs : [13, 10] <:+ h) :
    parse [⟨allocd, pre, h⟩] left = .ok (match meaning h with | none => .bad | some r => .done r left) := by
  have hu : unfinished ⟨allocd, pre, h⟩ = .ok (.inl ()) := by
    unfold unfinished
    rw [if_pos (by simp only; omega), get_ok (by simp only [HB.fin]; omega)]
    obtain ⟨a, rfl⟩ := hs
    have : (pre ++ (a ++ [13, 10])).drop (HB.fin ⟨allocd, pre, a ++ [13, 10]⟩ - 2) = [13, 10] := by
      rw [← List.append_assoc, show HB.fin ⟨allocd, pre, a ++ [13, 10]⟩ - 2 = (pre ++ a).length by simp [HB.fin]; omega, List.drop_left]
    rw [this]
    rfl
  have hf : fixup (2 * [(⟨allocd, pre, h⟩ : HB)].length + 2) [⟨allocd, pre, h⟩] = .ok (some [⟨allocd, pre, h⟩]) := by
    simp only [List.length_cons, List.length_nil]
    rw [show 2 * (0 + 1) + 2 = 3 + 1 by rfl, fixup, hu]
    simp [fixup]
  unfold parse
  rw [hf]
  simp only [Out.ok_bind, parseBufs]
  rw [if_neg (by omega)]
  simp only [meaning]
  cases parseLines (splitLines [] (cstr (h.take (h.length - 2)))) ⟨none, [], none⟩ with
  | none => rfl
  | some p =>
    obtain ⟨_ | ⟨m, u, q⟩, hd, l⟩ := p
    · rfl
    · rfl

theorem finalize_single (b : HB) :
    finalize ⟨[b], 0, 0⟩ =
      (match find pat (stripLead b.data.length b).data with
       | none => .ok (.more ⟨[stripLead b.data.length b], 0, 0⟩)
       | some i =>
         if i + 4 < (stripLead b.data.length b).data.length then
           parse [{ stripLead b.data.length b with data := (stripLead b.data.length b).data.take (i + 4) }]
             [⟨(stripLead b.data.length b).data.length - (i + 4), [], (stripLead b.data.length b).data.drop (i + 4)⟩]
         else parse [stripLead b.data.length b] []) := by
  obtain ⟨c, hc⟩ : ∃ c, stripLead b.data.length b = c := ⟨_, rfl⟩
  unfold finalize
  simp only [↓reduceIte, stripFirst, List.drop_zero, List.take_zero, List.reverse_nil]
  rw [hc]
  unfold search
  simp only [Out.pure_eq, Out.ok_bind, List.length_nil]
  have : max (0 - 4) c.start - c.start = 0 := by omega
  rw [this, List.drop_zero]
  cases hf : find pat c.data with
  | none => simp
  | some i =>
    simp only [Out.pure_eq, Out.ok_bind, ↓reduceIte, List.drop_zero, List.take_zero, List.nil_append]
    have h1 : max (0 - 4) c.start = c.start := by omega
    rw [h1]
    have h2 : (c.start + i + 4 < c.fin) ↔ (i + 4 < c.data.length) := by simp only [HB.start, HB.fin]; omega
    simp only [h2]
    split
    · have h3 : c.fin - (c.start + i + 4) = c.data.length - (i + 4) := by simp only [HB.start, HB.fin]; omega
      have h4 : c.start + i + 4 - c.start = i + 4 := by omega
      rw [h3, h4]
    · rfl

/-- What a complete head yields: the outcome `o` for its meaning, and the bytes after it. -/
def Outcome (h : List Nat) (rest : List Nat) (o : Out (Fin_ × List Nat)) : Prop :=
  match meaning h with
  | none => ∃ sock, o = .ok (.bad, sock)
  | some r => ∃ left sock, o = .ok (.done r left, sock) ∧ left.flatMap HB.data ++ sock = rest

/-- The bytes of the buffer are the first `k` bytes of the stream. -/
theorem finalize_step (m k : Nat) (h rest : List Nat) (b : HB) (j : Nat) (hh : IsHead h) (hp : b.pre = lead j)
    (hb : b.pre ++ b.data = (lead m ++ (h ++ rest)).take k) :
    (k < 2 * m + h.length ∧ ∃ c j', finalize ⟨[b], 0, 0⟩ = .ok (.more ⟨[c], 0, 0⟩) ∧ c.allocd = b.allocd ∧ c.pre = lead j' ∧
        c.pre ++ c.data = b.pre ++ b.data) ∨
    (2 * m + h.length ≤ k ∧
      finalize ⟨[b], 0, 0⟩ = .ok (match meaning h with
        | none => .bad
        | some r => .done r (if rest.take (k - (2 * m + h.length)) = [] then []
            else [⟨(rest.take (k - (2 * m + h.length))).length, [], rest.take (k - (2 * m + h.length))⟩]))) := by
  obtain ⟨j', e1, e2, e3, e4⟩ := stripLead_spec b.data.length b j hp (le_refl _)
  rw [finalize_single]
  obtain ⟨c, hc⟩ : ∃ c, stripLead b.data.length b = c := ⟨_, rfl⟩
  rw [hc] at e1 e2 e3 e4 ⊢
  obtain ⟨f1, f2⟩ := hh.find
  have hpat : pat ≠ [] := by simp [pat]
  have hnl : ¬ [13, 10] <+: h ++ rest := by
    intro hx
    apply hh.1
    exact List.prefix_of_prefix_length_le hx (List.prefix_append _ _) (by simp; omega)
  have hcd : lead j' ++ c.data = (lead m ++ (h ++ rest)).take k := by rw [← e1, e2, hb]
  rcases lead_unique j' m k c.data (h ++ rest) hcd e4 hnl with ⟨g1, g2, g3⟩ | ⟨g1, g2, g3⟩
  · have hf := find_take (k := k - 2 * m) hpat (find_append rest hpat f1)
    rw [← g2] at hf
    rw [show (pat.length = 4) from rfl] at hf
    by_cases hk : 2 * m + h.length ≤ k
    · right
      refine ⟨hk, ?_⟩
      rw [if_pos (by omega)] at hf
      rw [hf]
      simp only
      rw [show h.length - 4 + 4 = h.length by omega]
      have hd : c.data = h ++ rest.take (k - (2 * m + h.length)) := by
        rw [g2, List.take_append, List.take_of_length_le (by omega)]
        congr 2; omega
      rw [hd]
      have hs : [13, 10] <:+ h := by
        obtain ⟨a, rfl⟩ := hh.2.1
        exact ⟨a ++ [13, 10], by simp⟩
      by_cases hr : rest.take (k - (2 * m + h.length)) = []
      · rw [hr, List.append_nil, if_neg (by omega)]
        simp only [↓reduceIte]
        obtain ⟨al, pr, da⟩ := c
        simp only at hd
        rw [hd, hr, List.append_nil, parse_single h al pr [] f2 hs]
      · have hpos := List.length_pos_iff.mpr hr
        rw [if_pos (by rw [List.length_append]; omega), if_neg hr, List.take_left, List.drop_left, List.length_append,
          show h.length + (rest.take (k - (2 * m + h.length))).length - h.length = (rest.take (k - (2 * m + h.length))).length by omega]
        obtain ⟨al, pr, da⟩ := c
        simp only
        rw [parse_single h al pr _ f2 hs]
    · left
      refine ⟨by omega, c, j', ?_, e3, e1, e2⟩
      rw [if_neg (by omega)] at hf
      rw [hf]
  · left
    refine ⟨by omega, c, j', ?_, e3, e1, e2⟩
    have : find pat c.data = none := by
      rw [find_none hpat]
      intro i hi
      have := hi.length_le
      rw [List.length_drop] at this
      simp [pat] at this
      omega
    rw [this]

/-- Reading into one buffer. -/
theorem drive_single (evs : List Ev) (m k : Nat) (h rest : List Nat) (s : S) (hh : IsHead h)
    (hN : 2 * m + h.length ≤ 24528) (hk : k < 2 * m + h.length) (hc : s.cur = 0 ∧ s.off = 0)
    (hs : (s.bufs = [] ∧ k = 0) ∨ ∃ b j, s.bufs = [b] ∧ b.allocd = defSize ∧ b.pre = lead j ∧
      b.pre ++ b.data = (lead m ++ (h ++ rest)).take k) :
    ((∃ s' k', drive evs s ((lead m ++ (h ++ rest)).drop k) = .ok (.more s', (lead m ++ (h ++ rest)).drop k') ∧ k' < 2 * m + h.length ∧
        k + reads evs ≤ k') ∨
      Outcome h rest (drive evs s ((lead m ++ (h ++ rest)).drop k))) := by
  have hd : defSize = 32704 := rfl
  have hmr : minRead = 8176 := rfl
  induction evs generalizing s k with
  | nil => left; exact ⟨s, k, rfl, hk, by simp [reads]⟩
  | cons e es ih =>
    obtain ⟨st, hst⟩ : ∃ st, st = lead m ++ (h ++ rest) := ⟨_, rfl⟩
    have hlen : 2 * m + h.length ≤ st.length := by rw [hst]; simp [lead_length]
    rw [← hst] at hs ih ⊢
    -- the buffer that is read into
    obtain ⟨b, j, hroom, ha, hpre, hb⟩ : ∃ b j, room s.bufs = [b] ∧ b.allocd = defSize ∧ b.pre = lead j ∧
        b.pre ++ b.data = st.take k := by
      rcases hs with ⟨h1, h2⟩ | ⟨b, j, h1, h2, h3, h4⟩
      · exact ⟨⟨defSize, [], []⟩, 0, by simp [room, h1], rfl, rfl, by simp [h2]⟩
      · refine ⟨b, j, ?_, h2, h3, h4⟩
        unfold room
        rw [h1]
        simp only [List.getLast?_singleton]
        rw [if_neg]
        have := congrArg List.length h4
        rw [List.length_append, List.length_take] at this
        simp only [HB.start, h2]
        omega
    have hbl := congrArg List.length hb
    rw [List.length_append, List.length_take] at hbl
    -- after the event
    obtain ⟨b2, k2, hfin, ha2, hpre2, hb2, hk2⟩ : ∃ b2 k2, drive (e :: es) s (st.drop k) =
          (do match ← finalize ⟨[b2], 0, 0⟩ with
              | .more s => drive es s (st.drop k2)
              | r => pure (r, st.drop k2)) ∧ b2.allocd = defSize ∧ b2.pre = lead j ∧ b2.pre ++ b2.data = st.take k2 ∧
          k + (if e = Ev.again then 0 else 1) ≤ k2 := by
      cases e with
      | again =>
        refine ⟨b, k, ?_, ha, hpre, hb, by simp⟩
        simp only [drive, hroom, hc.1, hc.2]
        rfl
      | data n =>
        refine ⟨{ b with data := b.data ++ (st.drop k).take (min (n + 1) (defSize - b.data.length - b.start)) },
          k + min (n + 1) (defSize - b.data.length - b.start), ?_, ha, hpre, ?_, ?_⟩
        · simp only [drive, hroom, hc.1, hc.2, List.getLast?_singleton, ha, recv, List.drop_drop]
          rfl
        · simp only
          rw [← List.append_assoc, hb, List.take_add]
        · simp only [HB.start, reduceCtorEq, ↓reduceIte]
          omega
    rw [hfin]
    rw [hst] at hb2
    rcases finalize_step m k2 h rest b2 j hh hpre2 hb2 with ⟨g1, c, j', g2, g3, g4, g5⟩ | ⟨g1, g2⟩
    · rw [g2]
      simp only [Out.ok_bind]
      rcases ih k2 ⟨[c], 0, 0⟩ g1 ⟨rfl, rfl⟩ (Or.inr ⟨c, j', rfl, by rw [g3, ha2], g4, by rw [g5, hb2, hst]⟩) with ⟨s', k', i1, i2, i3⟩ | i
      · left
        refine ⟨s', k', i1, i2, ?_⟩
        cases e <;> simp only [reads, reduceCtorEq, ↓reduceIte] at hk2 ⊢ <;> omega
      · right; exact i
    · right
      rw [g2]
      simp only [Out.ok_bind]
      unfold Outcome
      cases meaning h with
      | none => exact ⟨_, rfl⟩
      | some r =>
        refine ⟨_, _, rfl, ?_⟩
        have h1 : (if rest.take (k2 - (2 * m + h.length)) = [] then []
            else [(⟨(rest.take (k2 - (2 * m + h.length))).length, [], rest.take (k2 - (2 * m + h.length))⟩ : HB)]).flatMap HB.data =
            rest.take (k2 - (2 * m + h.length)) := by
          split
          · rename_i hx; rw [hx]; rfl
          · simp
        rw [h1, hst, ← List.append_assoc, List.drop_append, List.drop_of_length_le (by simp [lead_length]; omega)]
        simp only [List.length_append, lead_length, List.nil_append]
        exact List.take_append_drop _ _

/-! ## The meaning of a head -/

/-- No line end inside, by position. -/
def NoEnd (l : List Nat) : Prop := ∀ i, ¬ (l[i]? = some 13 ∧ l[i + 1]? = some 10)

theorem noEnd_of {l : List Nat} (h : ¬ [13, 10] <:+: l) : NoEnd l := by
  rintro i ⟨h1, h2⟩
  apply h
  refine ⟨l.take i, l.drop (i + 2), ?_⟩
  obtain ⟨hl1, e1⟩ := List.getElem?_eq_some_iff.mp h1
  obtain ⟨hl2, e2⟩ := List.getElem?_eq_some_iff.mp h2
  conv => rhs; rw [← List.take_append_drop i l]
  rw [List.append_assoc]
  congr 1
  rw [List.drop_eq_getElem_cons hl1, List.drop_eq_getElem_cons hl2, e1, e2]
  rfl

theorem noEnd_tail {c : Nat} {l : List Nat} (h : NoEnd (c :: l)) : NoEnd l := by
  intro i hi
  apply h (i + 1)
  simpa using hi

theorem splitLines_line (l r acc : List Nat) (h : NoEnd l) :
    splitLines acc (l ++ 13 :: 10 :: r) = (acc.reverse ++ l) :: splitLines [] r := by
  induction l generalizing acc with
  | nil => simp [splitLines]
  | cons c l ih =>
    have hx : splitLines acc (c :: l ++ 13 :: 10 :: r) = splitLines (c :: acc) (l ++ 13 :: 10 :: r) := by
      rw [List.cons_append, splitLines]
      intro r' hc hl
      cases l with
      | nil => simp at hl
      | cons d l =>
        simp only [List.cons_append, List.cons.injEq] at hl
        exact h 0 (by simp [hc, hl.1])
    rw [hx, ih (c :: acc) (noEnd_tail h)]
    simp

theorem splitLines_lines (ls : List (List Nat)) (h : ∀ l ∈ ls, NoEnd l) :
    splitLines [] (ls.flatMap (fun l => l ++ [13, 10])) = ls ++ [[]] := by
  induction ls with
  | nil => rfl
  | cons l ls ih =>
    rw [List.flatMap_cons, List.append_assoc]
    have := splitLines_line l (ls.flatMap (fun l => l ++ [13, 10])) [] (h l (by simp))
    simp only [List.cons_append, List.nil_append] at this ⊢
    rw [this, ih (fun x hx => h x (by simp [hx]))]
    rfl

theorem headText_last (ls : List (List Nat)) (h : ∀ l ∈ ls, l ≠ [] ∧ NoEnd l) (a b : List Nat) (hne : ls ≠ [])
    (he : headText ls = a ++ [13, 10, 13, 10] ++ b) : b = [] := by
  induction ls generalizing a with
  | nil => simp at hne
  | cons l ls ih =>
    have hl := h l (by simp)
    have hT : headText (l :: ls) = l ++ ([13, 10] ++ headText ls) := by simp [headText]
    rw [hT] at he
    -- the characters of the pattern
    have g : ∀ i, i < 4 → (l ++ ([13, 10] ++ headText ls))[a.length + i]? = [13, 10, 13, 10][i]? := by
      intro i hi
      rw [he, List.append_assoc, List.getElem?_append_right (by omega), Nat.add_sub_cancel_left, List.getElem?_append_left (by simpa using hi)]
    have g0 := g 0 (by omega)
    have g1 := g 1 (by omega)
    simp only [Nat.add_zero, List.getElem?_cons_zero, List.getElem?_cons_succ] at g0 g1
    rcases Nat.lt_or_ge a.length l.length with h1 | h1
    · exfalso
      rw [List.getElem?_append_left h1] at g0
      rcases Nat.lt_or_ge (a.length + 1) l.length with h2 | h2
      · rw [List.getElem?_append_left h2] at g1
        exact hl.2 a.length ⟨g0, g1⟩
      · rw [List.getElem?_append_right h2, show a.length + 1 - l.length = 0 by omega] at g1
        simp at g1
    · have ha : a = l ++ a.drop l.length := by
        have : a.take l.length = l := by
          have := congrArg (List.take l.length) he
          rw [List.take_left, List.append_assoc, List.take_append_of_le_length h1] at this
          exact this.symm
        conv => lhs; rw [← List.take_append_drop l.length a, this]
      obtain ⟨a', ha'⟩ : ∃ a', a' = a.drop l.length := ⟨_, rfl⟩
      rw [← ha'] at ha
      rw [ha, List.append_assoc, List.append_assoc, List.append_cancel_left_eq] at he
      -- now the text begins behind the line
      rcases a' with _ | ⟨x, _ | ⟨y, a''⟩⟩
      · simp only [List.cons_append, List.nil_append, List.cons.injEq, true_and] at he
        cases ls with
        | nil =>
          simp only [headText, List.flatMap_nil, List.nil_append, List.cons.injEq, true_and] at he
          exact he.symm
        | cons l2 ls =>
          exfalso
          have hl2 := h l2 (by simp)
          rw [show headText (l2 :: ls) = l2 ++ ([13, 10] ++ headText ls) by simp [headText]] at he
          rcases l2 with _ | ⟨p, _ | ⟨q, l2⟩⟩
          · exact hl2.1 rfl
          · simp at he
          · simp only [List.cons_append, List.cons.injEq] at he
            exact hl2.2 0 (by simp [he.1, he.2.1])
      · exfalso
        simp at he
      · simp only [List.cons_append, List.nil_append, List.cons.injEq] at he
        have he2 : headText ls = a'' ++ [13, 10, 13, 10] ++ b := by simpa using he.2.2
        cases ls with
        | nil =>
          exfalso
          have := congrArg List.length he2
          simp [headText] at this
          omega
        | cons l2 ls => exact ih (fun x hx => h x (by simp [hx])) a'' (by simp) he2

theorem headText_isHead (ls : List (List Nat)) (h : ∀ l ∈ ls, LineOk l) (hne : ls ≠ []) (hl : ∀ l ∈ ls.head?, 2 ≤ l.length) :
    IsHead (headText ls) := by
  refine ⟨?_, ?_, ?_⟩
  · cases ls with
    | nil => simp at hne
    | cons l ls =>
      intro hp
      have h2 := hl l (by simp)
      rw [show headText (l :: ls) = l ++ ([13, 10] ++ headText ls) by simp [headText]] at hp
      have := List.prefix_of_prefix_length_le hp (List.prefix_append _ _) (by simpa using h2)
      exact (h l (by simp)).2.2 this.isInfix
  · unfold headText
    rcases List.eq_nil_or_concat ls with rfl | ⟨p, t, rfl⟩
    · simp at hne
    · exact ⟨p.flatMap (fun l => l ++ [13, 10]) ++ t, by simp⟩
  · intro a b he
    exact headText_last ls (fun l hl => ⟨(h l hl).1, noEnd_of (h l hl).2.2⟩) a b hne he

theorem cstr_id {l : List Nat} (h : 0 ∉ l) : cstr l = l := by
  unfold cstr
  induction l with
  | nil => rfl
  | cons c l ih =>
    simp only [List.mem_cons, not_or] at h
    rw [List.takeWhile_cons, if_pos (by simpa using fun hc => h.1 hc.symm), ih h.2]

theorem meaning_text (ls : List (List Nat)) (h : ∀ l ∈ ls, LineOk l) :
    meaning (headText ls) = (match parseLines (ls ++ [[]]) ⟨none, [], none⟩ with
      | some ⟨some (m, u, p), hd, _⟩ => some ⟨m, u, p, hd⟩
      | _ => none) := by
  have h1 : (headText ls).take ((headText ls).length - 2) = ls.flatMap (fun l => l ++ [13, 10]) := by
    unfold headText
    rw [List.length_append, show ([13, 10] : List Nat).length = 2 from rfl, Nat.add_sub_cancel, List.take_left]
  have h2 : 0 ∉ ls.flatMap (fun l => l ++ [13, 10]) := by
    intro hm
    obtain ⟨l, hl, hm⟩ := List.mem_flatMap.mp hm
    rcases List.mem_append.mp hm with hm | hm
    · exact (h l hl).2.1 hm
    · simp at hm
  unfold meaning
  rw [h1, cstr_id h2, splitLines_lines ls (fun l hl => noEnd_of (h l hl).2.2)]

theorem takeWhile_sep {x : Nat} {a r : List Nat} (h : x ∉ a) : (a ++ x :: r).takeWhile (· ≠ x) = a := by
  induction a with
  | nil => simp
  | cons c a ih =>
    simp only [List.mem_cons, not_or] at h
    rw [List.cons_append, List.takeWhile_cons, if_pos (by simpa using fun hc => h.1 hc.symm), ih h.2]

theorem dropWhile_sep {x : Nat} {a r : List Nat} (h : x ∉ a) : (a ++ x :: r).dropWhile (· ≠ x) = x :: r := by
  induction a with
  | nil => simp
  | cons c a ih =>
    simp only [List.mem_cons, not_or] at h
    rw [List.cons_append, List.dropWhile_cons, if_pos (by simpa using fun hc => h.1 hc.symm), ih h.2]

theorem dropWhile_none {x : Nat} {a : List Nat} (h : x ∉ a) : a.dropWhile (· ≠ x) = [] := by
  induction a with
  | nil => simp
  | cons c a ih =>
    simp only [List.mem_cons, not_or] at h
    rw [List.dropWhile_cons, if_pos (by simpa using fun hc => h.1 hc.symm), ih h.2]

theorem reqLine_ok (m u p : List Nat) (hm : 32 ∉ m) (hu : 32 ∉ u) : reqLine (m ++ [32] ++ u ++ [32] ++ p) = some (m, u, p) := by
  have e : m ++ [32] ++ u ++ [32] ++ p = m ++ 32 :: (u ++ 32 :: p) := by simp
  unfold reqLine
  rw [e, dropWhile_sep hm]
  simp only
  rw [dropWhile_sep hu, takeWhile_sep hm, takeWhile_sep hu]

theorem blanks_drop {a r : List Nat} (h : Blanks a) (hr : NoBlankFirst r) : (a ++ r).dropWhile blank = r := by
  induction a with
  | nil =>
    cases r with
    | nil => rfl
    | cons c r =>
      have := hr c (by simp)
      simp [List.dropWhile_cons, blank, this]
  | cons c a ih =>
    have hc := h c (by simp)
    rw [List.cons_append, List.dropWhile_cons, if_pos (by simpa [blank] using hc), ih (fun x hx => h x (by simp [hx]))]

theorem lower_eq (c : Nat) : lower c = toLower c := by
  unfold lower toLower
  have h : (65 ≤ c ∧ c ≤ 90) ↔ c ∈ bytesOf "ABCDEFGHIJKLMNOPQRSTUVWXYZ" := by
    have e : bytesOf "ABCDEFGHIJKLMNOPQRSTUVWXYZ" = (List.range 26).map (· + 65) := by decide +kernel
    rw [e]
    simp only [List.mem_map, List.mem_range]
    constructor
    · intro h; exact ⟨c - 65, by omega, by omega⟩
    · rintro ⟨x, h1, h2⟩; omega
  simp only [h]

theorem lower_blank (c : Nat) (h : c = 32 ∨ c = 9) : lower c = c := by
  unfold lower; rw [if_neg (by omega)]

theorem lower_noblank (c : Nat) (h : c ≠ 32 ∧ c ≠ 9) : lower c ≠ 32 ∧ lower c ≠ 9 := by
  unfold lower; split <;> omega

theorem extract_field (f : Field) (hf : f.Ok) :
    extract (f.name ++ f.pad ++ [58] ++ f.sep ++ f.value) = some (some (f.name.map toLower), f.value) := by
  obtain ⟨h1, h2, h3, h4, h5, h6, h7, _⟩ := hf
  have e : f.name ++ f.pad ++ [58] ++ f.sep ++ f.value = (f.name ++ f.pad) ++ 58 :: (f.sep ++ f.value) := by simp
  have hn : 58 ∉ f.name ++ f.pad := by
    intro hm
    rcases List.mem_append.mp hm with hm | hm
    · exact h2 hm
    · have := h5 58 hm; omega
  rw [e]
  unfold extract
  cases hl : f.name ++ f.pad ++ 58 :: (f.sep ++ f.value) with
  | nil => simp at hl
  | cons c r =>
    have hc : blank c = false := by
      cases hnm : f.name with
      | nil => exact absurd hnm h1
      | cons d nm =>
        rw [hnm] at hl
        simp only [List.cons_append, List.cons.injEq] at hl
        have := h3 d (by simp [hnm])
        rw [← hl.1]
        simp [blank, this]
    simp only [hc, Bool.false_eq_true, ↓reduceIte]
    rw [← hl, takeWhile_sep hn, dropWhile_sep hn]
    simp only
    rw [blanks_drop h6 h7]
    congr 3
    rw [List.map_append, List.reverse_append]
    have hp : Blanks (f.pad.map lower).reverse := by
      intro c hc
      simp only [List.mem_reverse, List.mem_map] at hc
      obtain ⟨x, hx, rfl⟩ := hc
      have := h5 x hx
      rw [lower_blank x this]; exact this
    have hr : NoBlankFirst (f.name.map lower).reverse := by
      intro c hc
      rw [← List.map_reverse, List.head?_map] at hc
      cases hh : f.name.reverse.head? with
      | none => rw [hh] at hc; simp at hc
      | some x =>
        rw [hh] at hc
        simp only [Option.map_some, Option.mem_def, Option.some.injEq] at hc
        rw [← hc]
        exact lower_noblank x (h4 x (by rw [hh]; rfl))
    rw [blanks_drop hp hr, List.reverse_reverse]
    apply List.map_congr_left
    intro a _
    exact lower_eq a

theorem lookup_replace (k v : List Nat) (t : List (List Nat × List Nat)) (k' : List Nat) :
    lookup k' (replace k v t) = if k = k' then some v else lookup k' t := by
  induction t with
  | nil => simp [replace, lookup]
  | cons e t ih =>
    obtain ⟨a, b⟩ := e
    simp only [replace]
    by_cases h : a = k
    · subst h
      simp only [↓reduceIte, lookup]
      split <;> rfl
    · rw [if_neg h]
      simp only [lookup, ih]
      by_cases h1 : a = k'
      · simp only [h1, ↓reduceIte]
        rw [if_neg]
        intro h2; exact h (h1.trans h2.symm)
      · simp only [h1, ↓reduceIte]

theorem parse_conts (cs : List (List Nat × List Nat)) (hc : ∀ c ∈ cs, c.1 ≠ [] ∧ Blanks c.1 ∧ NoBlankFirst c.2) (s : P)
    (r : List Nat × List Nat × List Nat) (n v : List Nat) (rest : List (List Nat)) (h1 : s.req = some r) (h2 : s.last = some n)
    (h3 : lookup n s.hdrs = some v) :
    ∃ s', parseLines (cs.map (fun c => c.1 ++ c.2) ++ rest) s = parseLines rest s' ∧ s'.req = some r ∧
      (∀ k, lookup k s'.hdrs = if n = k then some (v ++ cs.flatMap (fun c => 32 :: c.2)) else lookup k s.hdrs) := by
  induction cs generalizing s v with
  | nil =>
    refine ⟨s, rfl, h1, ?_⟩
    intro k
    split
    · rename_i h; subst h; simp [h3]
    · rfl
  | cons c cs ih =>
    obtain ⟨g1, g2, g3⟩ := hc c (by simp)
    have hx : extract (c.1 ++ c.2) = some (none, c.2) := by
      obtain ⟨x, y⟩ := c
      cases x with
      | nil => simp at g1
      | cons d x =>
        have hd := g2 d (by simp)
        have hb : blank d = true := by simpa [blank] using hd
        simp only [extract, List.cons_append]
        rw [if_pos hb, ← List.cons_append]
        rw [blanks_drop g2 g3]
    obtain ⟨s2, hs2⟩ : ∃ s2 : P, s2 = { s with hdrs := replace n (v ++ [32] ++ c.2) s.hdrs } := ⟨_, rfl⟩
    obtain ⟨s', e1, e2, e3⟩ := ih (fun x hx => hc x (by simp [hx])) s2 (v ++ [32] ++ c.2) (by rw [hs2]; exact h1)
      (by rw [hs2]; exact h2) (by rw [hs2]; simp [lookup_replace])
    refine ⟨s', ?_, e2, ?_⟩
    · rw [← e1]
      have hne : c.1 ++ c.2 ≠ [] := by simp [g1]
      simp only [List.map_cons, List.cons_append, parseLines, h1]
      rw [if_neg hne]
      simp only [hdrLine, hx, h2, h3, hs2]
    · intro k
      rw [e3, hs2]
      simp only [lookup_replace]
      split
      · simp
      · rfl

theorem parse_fields (fs : List Field) (hf : ∀ f ∈ fs, f.Ok) (s : P) (r : List Nat × List Nat × List Nat) (h1 : s.req = some r) :
    ∃ s', parseLines (fs.flatMap Field.lines ++ [[]]) s = some s' ∧ s'.req = some r ∧
      (∀ k, lookup k s'.hdrs = match valueOf k fs with | some v => some v | none => lookup k s.hdrs) := by
  induction fs generalizing s with
  | nil => exact ⟨s, by simp [parseLines, h1], h1, fun k => rfl⟩
  | cons f fs ih =>
    have hok := hf f (by simp)
    obtain ⟨s1, hs1⟩ : ∃ s1 : P, s1 = { s with hdrs := replace (f.name.map toLower) f.value s.hdrs, last := some (f.name.map toLower) } := ⟨_, rfl⟩
    obtain ⟨s2, e1, e2, e3⟩ := parse_conts f.conts hok.2.2.2.2.2.2.2 s1 r (f.name.map toLower) f.value (fs.flatMap Field.lines ++ [[]])
      (by rw [hs1]; exact h1) (by rw [hs1]) (by rw [hs1]; simp [lookup_replace])
    obtain ⟨s', i1, i2, i3⟩ := ih (fun x hx => hf x (by simp [hx])) s2 e2
    refine ⟨s', ?_, i2, ?_⟩
    · rw [← i1, ← e1]
      have hne : f.name ++ f.pad ++ [58] ++ f.sep ++ f.value ≠ [] := by simp
      simp only [List.flatMap_cons, Field.lines, List.cons_append, List.nil_append, parseLines, h1, List.append_assoc]
      simp only [List.append_assoc, List.cons_append, List.nil_append] at hne
      rw [if_neg hne]
      have := extract_field f hok
      simp only [List.append_assoc, List.cons_append, List.nil_append] at this
      simp only [hdrLine, List.nil_append, this, hs1]
    · intro k
      rw [i3]
      simp only [valueOf]
      cases valueOf k fs with
      | some v => rfl
      | none =>
        simp only
        rw [e3, hs1]
        simp only [lookup_replace, Field.val]
        split <;> rfl

theorem meaning_request (m u p : List Nat) (fs : List Field) (hm : 32 ∉ m) (hu : 32 ∉ u) (hf : ∀ f ∈ fs, f.Ok)
    (hl : ∀ l ∈ reqLines m u p fs, LineOk l) :
    ∃ hd, meaning (headText (reqLines m u p fs)) = some ⟨m, u, p, hd⟩ ∧ ∀ k, lookup k hd = valueOf k fs := by
  obtain ⟨s', e1, e2, e3⟩ := parse_fields fs hf ⟨some (m, u, p), [], none⟩ (m, u, p) rfl
  rw [meaning_text _ hl]
  have : parseLines (reqLines m u p fs ++ [[]]) ⟨none, [], none⟩ = some s' := by
    rw [← e1]
    simp only [reqLines, List.cons_append, parseLines]
    rw [reqLine_ok m u p hm hu]
  rw [this]
  obtain ⟨q, hd, l⟩ := s'
  simp only at e2 e3
  rw [e2]
  refine ⟨hd, rfl, ?_⟩
  intro k
  rw [e3]
  cases valueOf k fs <;> rfl

/-- Header lines that are refused. -/
theorem parse_bad (pre : List (List Nat)) (l : List Nat) (post : List (List Nat)) (s : P) (r : List Nat × List Nat × List Nat)
    (h1 : s.req = some r) (hpre : ∀ x ∈ pre, x ≠ []) (hl : l ≠ []) (hx : extract l = none) :
    parseLines (pre ++ l :: post) s = none := by
  induction pre generalizing s with
  | nil =>
    simp only [List.nil_append, parseLines, h1]
    rw [if_neg hl]
    simp [hdrLine, hx]
  | cons x pre ih =>
    simp only [List.cons_append, parseLines, h1]
    rw [if_neg (hpre x (by simp))]
    cases hh : hdrLine x s with
    | none => rfl
    | some s' =>
      simp only
      apply ih _ _ (fun y hy => hpre y (by simp [hy]))
      unfold hdrLine at hh
      split at hh
      · simp at hh
      · simp only [Option.some.injEq] at hh; rw [← hh]; exact h1
      · split at hh
        · simp at hh
        · split at hh
          · simp at hh
          · simp only [Option.some.injEq] at hh; rw [← hh]; exact h1

theorem extract_bad {l : List Nat} (hb : NoBlankFirst l) (hc : 58 ∉ l) : extract l = none := by
  unfold extract
  cases l with
  | nil => rfl
  | cons c l =>
    have := hb c (by simp)
    simp only
    rw [if_neg (by simp [blank, this]), dropWhile_none hc]

/-! ## C35 -/

/-- The result of the calls on a new connection whose peer sends `st`. -/
def receive (evs : List Ev) (st : List Nat) : Out (Fin_ × List Nat) := complete evs ⟨[], 0, 0⟩ st

theorem receive_spec (m : Nat) (h rest : List Nat) (evs : List Ev) (hh : IsHead h) (hN : 2 * m + h.length ≤ 24528) :
    (∃ s k, receive evs (lead m ++ h ++ rest) = .ok (.more s, (lead m ++ h ++ rest).drop k) ∧ k < 2 * m + h.length ∧ reads evs ≤ k) ∨
      Outcome h rest (receive evs (lead m ++ h ++ rest)) := by
  have h4 := hh.find.2
  have := drive_single evs m 0 h rest ⟨[], 0, 0⟩ hh hN (by omega) ⟨rfl, rfl⟩ (Or.inl ⟨rfl, rfl⟩)
  rw [List.append_assoc]
  simp only [List.drop_zero, Nat.zero_add] at this
  have hr : receive evs (lead m ++ (h ++ rest)) = drive evs ⟨[], 0, 0⟩ (lead m ++ (h ++ rest)) := by
    simp [receive, complete, finalize, stripFirst]
  rw [hr]
  exact this

/-- The head does not depend on the split: for every head `h` of any bytes there is one outcome (a request or a
refusal) that every sequence of reads leads to, whatever follows the head, once it delivers enough; until then
the connection waits.  Bytes after the head are kept.

The limit of 24528 bytes is what is left in the first receive buffer when a second one is used: beyond it the
claim is false, see the violations. -/
theorem C35_split_independent_partial (m : Nat) (h : List Nat) (hh : IsHead h) (hN : 2 * m + h.length ≤ 24528) :
    ∃ o : Option Req, ∀ (rest : List Nat) (evs : List Ev),
      (∃ s k, receive evs (lead m ++ h ++ rest) = .ok (.more s, (lead m ++ h ++ rest).drop k) ∧ k < 2 * m + h.length ∧ reads evs ≤ k) ∨
      (match o with
       | none => ∃ sock, receive evs (lead m ++ h ++ rest) = .ok (.bad, sock)
       | some r => ∃ left sock, receive evs (lead m ++ h ++ rest) = .ok (.done r left, sock) ∧ left.flatMap HB.data ++ sock = rest) := by
  refine ⟨meaning h, fun rest evs => ?_⟩
  rcases receive_spec m h rest evs hh hN with h1 | h1
  · exact Or.inl h1
  · right
    unfold Outcome at h1
    exact h1

/-- A well-formed request is understood, however it is split over reads: method, target and protocol are the
parts of the request line, every header has the value of its last field, with continuation lines joined. -/
theorem C35_request_parsed_partial (m : Nat) (mt u p : List Nat) (fs : List Field) (rest : List Nat) (evs : List Ev)
    (hm : 32 ∉ mt) (hu : 32 ∉ u) (hf : ∀ f ∈ fs, f.Ok) (hl : ∀ l ∈ reqLines mt u p fs, LineOk l)
    (hN : 2 * m + (headText (reqLines mt u p fs)).length ≤ 24528)
    (hr : 2 * m + (headText (reqLines mt u p fs)).length ≤ reads evs) :
    ∃ hd left sock, receive evs (lead m ++ headText (reqLines mt u p fs) ++ rest) = .ok (.done ⟨mt, u, p, hd⟩ left, sock) ∧
      (∀ k, lookup k hd = valueOf k fs) ∧ left.flatMap HB.data ++ sock = rest := by
  have hh : IsHead (headText (reqLines mt u p fs)) := by
    refine headText_isHead _ hl (by simp [reqLines]) ?_
    intro l hl
    simp only [reqLines, List.head?_cons, Option.mem_def, Option.some.injEq] at hl
    rw [← hl]
    simp
    omega
  obtain ⟨hd, e1, e2⟩ := meaning_request mt u p fs hm hu hf hl
  rcases receive_spec m _ rest evs hh hN with ⟨s, k, _, h2, h3⟩ | h1
  · omega
  · unfold Outcome at h1
    rw [e1] at h1
    obtain ⟨left, sock, g1, g2⟩ := h1
    exact ⟨hd, left, sock, g1, e2, g2⟩

/-- A head is refused when its request line has less than two spaces, or when a header line neither begins with
a blank nor has a colon. -/
theorem C35_malformed_refused_partial (m : Nat) (rl : List Nat) (hs : List (List Nat)) (rest : List Nat) (evs : List Ev)
    (hl : ∀ l ∈ rl :: hs, LineOk l) (h2 : 2 ≤ rl.length)
    (hbad : (∀ a b c, rl ≠ a ++ [32] ++ b ++ [32] ++ c) ∨ ∃ l ∈ hs, NoBlankFirst l ∧ 58 ∉ l)
    (hN : 2 * m + (headText (rl :: hs)).length ≤ 24528) (hr : 2 * m + (headText (rl :: hs)).length ≤ reads evs) :
    ∃ sock, receive evs (lead m ++ headText (rl :: hs) ++ rest) = .ok (.bad, sock) := by
  have hh : IsHead (headText (rl :: hs)) := headText_isHead _ hl (by simp) (by simpa using h2)
  have hmean : meaning (headText (rl :: hs)) = none := by
    rw [meaning_text _ hl]
    have hnone : parseLines ((rl :: hs) ++ [[]]) ⟨none, [], none⟩ = none := by
      simp only [List.cons_append, parseLines]
      cases hq : reqLine rl with
      | none => rfl
      | some r =>
        simp only
        rcases hbad with hb | ⟨l, hlm, g1, g2⟩
        · exfalso
          have htd : ∀ x : List Nat, ∀ y z, x.dropWhile (· ≠ 32) = y :: z → x = x.takeWhile (· ≠ 32) ++ [32] ++ z := by
            intro x y z hx
            have hy : y = 32 := by
              have := List.head_dropWhile_not (fun c : Nat => decide (c ≠ 32)) (l := x) (by rw [hx]; simp)
              simp only [hx, List.head_cons] at this
              simpa using this
            conv => lhs; rw [← List.takeWhile_append_dropWhile (p := fun c : Nat => decide (c ≠ 32)) (l := x), hx, hy]
            simp
          unfold reqLine at hq
          split at hq
          · simp at hq
          · rename_i y u hu
            split at hq
            · simp at hq
            · rename_i y' p hp
              have e1 := htd rl y u hu
              have e2 := htd u y' p hp
              refine hb (rl.takeWhile (· ≠ 32)) (u.takeWhile (· ≠ 32)) p ?_
              rw [List.append_assoc, List.append_assoc, ← List.append_assoc (u.takeWhile _), ← e2]
              exact e1
        · obtain ⟨pre, post, rfl⟩ := List.append_of_mem hlm
          rw [List.append_assoc, List.cons_append]
          exact parse_bad pre l _ _ r rfl (fun x hx => (hl x (by simp [hx])).1) (hl l (by simp)).1 (extract_bad g1 g2)
    rw [hnone]
  rcases receive_spec m _ rest evs hh hN with ⟨s, k, _, h3, h4⟩ | h1
  · omega
  · unfold Outcome at h1
    rw [hmean] at h1
    exact h1

/-- A head that is complete in what the previous request left behind is understood in the same way: the outcome
is the one of the same bytes on a new connection. -/
theorem C35_pipelined_partial (m : Nat) (h rest : List Nat) (allocd : Nat) (evs evs' : List Ev) (sock : List Nat) (hh : IsHead h)
    (hN : 2 * m + h.length ≤ 24528) (hr : 2 * m + h.length ≤ reads evs') :
    (∃ s1 s2, receive evs' (lead m ++ h ++ rest) = .ok (.bad, s1) ∧
      complete evs ⟨[⟨allocd, [], lead m ++ h ++ rest⟩], 0, 0⟩ sock = .ok (.bad, s2)) ∨
    (∃ r l1 l2 s1, receive evs' (lead m ++ h ++ rest) = .ok (.done r l1, s1) ∧ l1.flatMap HB.data ++ s1 = rest ∧
      complete evs ⟨[⟨allocd, [], lead m ++ h ++ rest⟩], 0, 0⟩ sock = .ok (.done r l2, sock) ∧ l2.flatMap HB.data = rest) := by
  rcases receive_spec m h rest evs' hh hN with ⟨s, k, _, h3, h4⟩ | h1
  · omega
  · have hlen : (lead m ++ (h ++ rest)).length = 2 * m + h.length + rest.length := by simp [lead_length]; omega
    rcases finalize_step m (2 * m + h.length + rest.length) h rest ⟨allocd, [], lead m ++ h ++ rest⟩ 0 hh rfl
      (by rw [List.take_of_length_le (by rw [hlen])]; simp) with ⟨g, _⟩ | ⟨_, g⟩
    · omega
    · unfold Outcome at h1
      unfold complete
      rw [g]
      cases hm : meaning h with
      | none =>
        rw [hm] at h1
        obtain ⟨s1, e1⟩ := h1
        exact Or.inl ⟨s1, sock, e1, rfl⟩
      | some r =>
        rw [hm] at h1
        obtain ⟨l1, s1, e1, e2⟩ := h1
        refine Or.inr ⟨r, l1, _, s1, e1, e2, rfl, ?_⟩
        rw [show 2 * m + h.length + rest.length - (2 * m + h.length) = rest.length by omega, List.take_length]
        split
        · rename_i hx; rw [hx]; rfl
        · simp

/-! ### Examples -/

/-- What a test can see: refused, waiting, or the request and what is left. -/
def observe (o : Out (Fin_ × List Nat)) : Option (Option (Req × List Nat)) :=
  match o with
  | .ok (.done r l, sock) => some (some (r, l.flatMap HB.data ++ sock))
  | .ok (.bad, _) => some none
  | _ => none

def exFields : List Field :=
  [⟨bytesOf "Host", [], bytesOf " ", bytesOf "example", []⟩,
   ⟨bytesOf "X-Long", bytesOf " ", [], bytesOf "a", [(bytesOf "\t ", bytesOf "b"), (bytesOf " ", bytesOf "c")]⟩,
   ⟨bytesOf "HOST", [], [], bytesOf "two", []⟩]

theorem not_infix_of {l : List Nat} (h : ∀ i < l.length, (l.drop i).take 2 ≠ [13, 10]) : ¬ [13, 10] <:+: l := by
  rintro ⟨a, b, rfl⟩
  have := h a.length (by simp)
  simp at this

/-- The hypotheses of `C35_request_parsed_partial` are met, and byte by byte reading gives the request. -/
example : (∀ f ∈ exFields, f.Ok) ∧ (∀ l ∈ reqLines (bytesOf "GET") (bytesOf "/b") (bytesOf "HTTP/1.1") exFields, LineOk l) ∧
    headText (reqLines (bytesOf "GET") (bytesOf "/b") (bytesOf "HTTP/1.1") exFields) =
      bytesOf "GET /b HTTP/1.1\r\nHost: example\r\nX-Long :a\r\n\t b\r\n c\r\nHOST:two\r\n\r\n" ∧
    valueOf (bytesOf "x-long") exFields = some (bytesOf "a b c") ∧ valueOf (bytesOf "host") exFields = some (bytesOf "two") := by
  refine ⟨?_, ?_, by decide +kernel, by decide +kernel, by decide +kernel⟩
  · intro f hf
    simp only [exFields, List.mem_cons, List.not_mem_nil, or_false] at hf
    rcases hf with rfl | rfl | rfl <;>
      simp [Field.Ok, NoBlankFirst, Blanks, bytesOf]
  · intro l hl
    have hl' : l ∈ [bytesOf "GET /b HTTP/1.1", bytesOf "Host: example", bytesOf "X-Long :a", bytesOf "\t b", bytesOf " c", bytesOf "HOST:two"] := hl
    have key : ∀ l ∈ [bytesOf "GET /b HTTP/1.1", bytesOf "Host: example", bytesOf "X-Long :a", bytesOf "\t b", bytesOf " c", bytesOf "HOST:two"],
        l ≠ [] ∧ 0 ∉ l ∧ ∀ i < l.length, (l.drop i).take 2 ≠ [13, 10] := by decide +kernel
    obtain ⟨h1, h2, h3⟩ := key l hl'
    exact ⟨h1, h2, not_infix_of h3⟩

example : observe (receive [.data 5, .again, .data 20, .data 0, .data 100]
      (bytesOf "\r\nGET /b HTTP/1.1\r\nHost: example\r\n  more\r\n\r\nGET /c")) =
    some (some (⟨bytesOf "GET", bytesOf "/b", bytesOf "HTTP/1.1", [(bytesOf "host", bytesOf "example more")]⟩, bytesOf "GET /c")) := by
  decide +kernel

example : observe (receive [.data 100] (bytesOf "GET /b\r\n\r\n")) = some none ∧
    observe (receive [.data 100] (bytesOf "GET /b HTTP/1.1\r\nHost\r\n\r\n")) = some none := by decide +kernel

/-! ### Violations

When a request is not completely received together with the end of the previous one, what is left of the read
is in a buffer without room, and the rest goes to a second buffer.  The same happens in heads of more than
24528 bytes.  Then the outcome depends on the split. -/

/-- The first part of a request, left behind by the previous one. -/
def leftOver (s : String) : S := ⟨[⟨(bytesOf s).length, [], bytesOf s⟩], 0, 0⟩

/-- A header line over two buffers: the value is wrong (`_fixup_bchain` copies the beginning of the line instead
of its end), and the request line is cut.  The same bytes in one piece give the right result. -/
theorem C35_split_header_violated :
    observe (complete [.data 100] (leftOver "GET /b HTTP/1.1\r\nHost: exam") (bytesOf "ple\r\nA: b\r\n\r\n")) =
      some (some (⟨bytesOf "GET", bytesOf "/b", bytesOf "H", [(bytesOf "host", bytesOf "examHos"), (bytesOf "a", bytesOf "b")]⟩, [])) ∧
    observe (complete [] (leftOver "GET /b HTTP/1.1\r\nHost: example\r\nA: b\r\n\r\n") []) =
      some (some (⟨bytesOf "GET", bytesOf "/b", bytesOf "HTTP/1.1", [(bytesOf "host", bytesOf "example"), (bytesOf "a", bytesOf "b")]⟩, [])) := by
  decide +kernel

/-- The last header line over two buffers: the request is refused. -/
theorem C35_split_last_header_violated :
    observe (complete [.data 100] (leftOver "GET /b HTTP/1.1\r\nHost: exam") (bytesOf "ple\r\n\r\n")) = some none := by
  decide +kernel

/-- The request line over two buffers: a read outside the buffer. -/
theorem C35_split_request_line_violated :
    complete [.data 100] (leftOver "GET /b HTT") (bytesOf "P/1.1\r\nHost: example\r\n\r\n") = .ub := by decide +kernel

/-- A head whose end is split before its last byte, or after its first, is not recognised. -/
theorem C35_split_end_violated :
    observe (complete [.data 0, .data 0] (leftOver "GET /b HTTP/1.1\r\nHost: a\r\n\r") (bytesOf "\n")) = none ∧
    complete [.data 0, .data 0] (leftOver "GET /b HTTP/1.1\r\nHost: a\r\n\r") (bytesOf "\n") ≠ .ub ∧
    observe (complete [.data 2, .data 2] (leftOver "GET /b HTTP/1.1\r\nHost: a\r") (bytesOf "\n\r\n")) = none ∧
    complete [.data 2, .data 2] (leftOver "GET /b HTTP/1.1\r\nHost: a\r") (bytesOf "\n\r\n") ≠ .ub := by decide +kernel

/-- The end of a head is seen where there is none: LF CR LF followed by LF in the next buffer. -/
theorem C35_false_end_violated :
    observe (complete [.data 100] (leftOver "GET /b HTTP/1.1\r\nHost: a\n\r\n") (bytesOf "\nA: b\r\n\r\n")) ≠
    observe (complete [] (leftOver "GET /b HTTP/1.1\r\nHost: a\n\r\n\nA: b\r\n\r\n") []) := by decide +kernel

/-- Header fields after a NUL byte are dropped silently: here the length of the body. -/
theorem C35_nul_hides_headers_violated :
    observe (receive [.data 100] (bytesOf "POST / HTTP/1.1\r\nA: b\x00\r\nContent-Length: 5\r\n\r\n")) =
      some (some (⟨bytesOf "POST", bytesOf "/", bytesOf "HTTP/1.1", [(bytesOf "a", bytesOf "b")]⟩, [])) := by decide +kernel

/-! ## C61: how the body is delimited -/

/-- The decimal number written by `ds`. -/
inductive DecNum : List Nat → Nat → Prop
  | one {d} : d < 10 → DecNum [48 + d] d
  | snoc {ds n d} : DecNum ds n → d < 10 → DecNum (ds ++ [48 + d]) (10 * n + d)

theorem digitsVal_snoc (ds : List Nat) (hd : ∀ c ∈ ds, 48 ≤ c ∧ c ≤ 57) (c a : Nat) (hc : 48 ≤ c ∧ c ≤ 57) :
    digitsVal (ds ++ [c]) a = digitsVal ds a * 10 + (c - 48) := by
  induction ds generalizing a with
  | nil => simp [digitsVal, hc]
  | cons x ds ih =>
    have := hd x (by simp)
    simp only [List.cons_append, digitsVal]
    rw [if_pos this, if_pos this]
    exact ih (fun y hy => hd y (by simp [hy])) _

theorem decNum_val {ds : List Nat} {n : Nat} (h : DecNum ds n) :
    (∀ c ∈ ds, 48 ≤ c ∧ c ≤ 57) ∧ digitsVal ds 0 = n ∧ ds ≠ [] := by
  induction h with
  | one hd =>
    refine ⟨by intro c hc; simp at hc; omega, ?_, by simp⟩
    simp only [digitsVal]
    rw [if_pos (by omega)]
    omega
  | snoc hn hd ih =>
    obtain ⟨h1, h2, h3⟩ := ih
    refine ⟨?_, ?_, by simp⟩
    · intro c hc
      rcases List.mem_append.mp hc with hc | hc
      · exact h1 c hc
      · simp at hc; omega
    · rw [digitsVal_snoc _ h1 _ _ (by omega), h2]
      omega

theorem strtoll_dec {ds : List Nat} {n : Nat} (h : DecNum ds n) (hn : n < 2 ^ 63) : strtoll ds = n := by
  obtain ⟨h1, h2, h3⟩ := decNum_val h
  cases ds with
  | nil => simp at h3
  | cons c r =>
    have hc := h1 c (by simp)
    unfold strtoll
    have hd : (c :: r).dropWhile (fun c => c = 32 || (9 ≤ c && c ≤ 13)) = c :: r := by
      rw [List.dropWhile_cons, if_neg]
      simp
      omega
    rw [hd]
    simp only
    split
    · rename_i heq; simp only [List.cons.injEq] at heq; omega
    · rename_i heq; simp only [List.cons.injEq] at heq; omega
    · rw [h2]; omega

/-- The body is chunked when the transfer coding is exactly `chunked`, whatever the content length; otherwise it
has the announced length; a request with neither header has no body. -/
theorem C61_body_framing_partial (m : Nat) (mt u p : List Nat) (fs : List Field) (rest : List Nat) (evs : List Ev)
    (hm : 32 ∉ mt) (hu : 32 ∉ u) (hf : ∀ f ∈ fs, f.Ok) (hl : ∀ l ∈ reqLines mt u p fs, LineOk l)
    (hN : 2 * m + (headText (reqLines mt u p fs)).length ≤ 24528)
    (hr : 2 * m + (headText (reqLines mt u p fs)).length ≤ reads evs) :
    ∃ r left sock, receive evs (lead m ++ headText (reqLines mt u p fs) ++ rest) = .ok (.done r left, sock) ∧
      (valueOf (bytesOf "transfer-encoding") fs = some (bytesOf "chunked") → framing r.hdrs = .chunked) ∧
      (valueOf (bytesOf "transfer-encoding") fs = none → ∀ ds n, DecNum ds n → n < 2 ^ 63 →
        valueOf (bytesOf "content-length") fs = some ds → framing r.hdrs = .length n) ∧
      (valueOf (bytesOf "transfer-encoding") fs = none → valueOf (bytesOf "content-length") fs = none → framing r.hdrs = .none) := by
  obtain ⟨hd, left, sock, e1, e2, _⟩ := C35_request_parsed_partial m mt u p fs rest evs hm hu hf hl hN hr
  refine ⟨_, left, sock, e1, ?_, ?_, ?_⟩
  · intro h
    simp only [framing, e2, h, ↓reduceIte]
  · intro h ds n hn hlt hc
    simp only [framing, e2, h, hc, reduceCtorEq, ↓reduceIte, strtoll_dec hn hlt]
  · intro h hc
    simp only [framing, e2, h, hc, reduceCtorEq, ↓reduceIte]

/-- A number as in the theorem. -/
example : DecNum (bytesOf "42") 42 := DecNum.snoc (ds := [48 + 4]) (n := 4) (d := 2) (DecNum.one (by omega)) (by omega)

/-- How the body of the request in `st` is delimited. -/
def framed (st : List Nat) : Option Framing :=
  match receive [.data 1000] st with
  | .ok (.done r _, _) => some (framing r.hdrs)
  | _ => none

example : framed (bytesOf "PUT / HTTP/1.1\r\nContent-Length: 42\r\n\r\n") = some (.length 42) ∧
    framed (bytesOf "PUT / HTTP/1.1\r\nContent-Length: 42\r\nTransfer-Encoding: chunked\r\n\r\n") = some .chunked ∧
    framed (bytesOf "PUT / HTTP/1.1\r\n\r\n") = some .none := by decide +kernel

/-- The name of the coding is compared with case, and in a list it is not seen: such bodies are taken for the
next request. -/
theorem C61_chunked_spelling_violated :
    framed (bytesOf "PUT / HTTP/1.1\r\nTransfer-Encoding: Chunked\r\n\r\n") = some .none ∧
    framed (bytesOf "PUT / HTTP/1.1\r\nTransfer-Encoding: gzip, chunked\r\n\r\n") = some .none ∧
    framed (bytesOf "PUT / HTTP/1.1\r\nTransfer-Encoding: chunked \r\n\r\n") = some .none := by decide +kernel

/-- A content length that is no number, or negative, is not refused; of several the last one counts. -/
theorem C61_bad_length_violated :
    framed (bytesOf "PUT / HTTP/1.1\r\nContent-Length: x5\r\n\r\n") = some (.length 0) ∧
    framed (bytesOf "PUT / HTTP/1.1\r\nContent-Length: -5\r\n\r\n") = some (.length (-5)) ∧
    framed (bytesOf "PUT / HTTP/1.1\r\nContent-Length: 5\r\nContent-Length: 6\r\n\r\n") = some (.length 6) := by decide +kernel

end Mtev.HttpHead
