import Verif.LogRing

/-!
Properties of the memory log stream (C43).

The specification: the stream has been given lines; those whose write returned a byte count are
numbered 0, 1, 2, ... in order.  A reader must be given a run of consecutive numbers up to the last
line, each with exactly the time stamp and text that were written.
-/

namespace Mtev.LogRing

attribute [local irreducible] Ring.off

/-- Writing lines one after the other; collects what each write returned. -/
def logAll : Ring → List Line → Out (Ring × List Nat)
  | r, [] => pure (r, [])
  | r, l :: ls => do
    let (r, c) ← r.write (l.ts ++ l.text)
    let (r, cs) ← logAll r ls
    pure (r, c :: cs)

/-- The lines whose write was accepted. -/
def accepted : List Line → List Nat → List Line
  | l :: ls, c :: cs => if c = 0 then accepted ls cs else l :: accepted ls cs
  | _, _ => []

/-- The lines from number `start` on, with their numbers. -/
def numbered (W : List Line) (start : Nat) : List (Nat × Line) :=
  (List.range' start (W.length - start)).zip (W.drop start)

/-- What a reader asking for the lines after number `after` should get when the lines from `first` on
are still held: those after `after`, or everything if `after + 1` is not a number still held. -/
def expected (W : List Line) (first after : Nat) : List (Nat × Line) :=
  numbered W (if first ≤ after + 1 ∧ after + 1 ≤ W.length then after + 1 else first)

/-- No write was refused, except for lines too long for the whole segment. -/
def NoneRefused (size : Nat) : List Line → List Nat → Prop
  | l :: ls, c :: cs => (c = 0 → size < 16 + l.text.length) ∧ NoneRefused size ls cs
  | _, _ => True

instance : ∀ (size : Nat) (ls : List Line) (cs : List Nat), Decidable (NoneRefused size ls cs)
  | size, l :: ls, c :: cs => by
    have := instDecidableNoneRefused size ls cs
    unfold NoneRefused
    exact inferInstance
  | _, [], _ => isTrue trivial
  | _, _ :: _, [] => isTrue trivial

/-! ### Writing is always safe -/

theorem Block.write_ok_exists {b : Block} {off : Nat} {d : List Nat} (h : off + d.length ≤ b.length) :
    ∃ b', b.write off d = .ok b' ∧ b'.length = b.length := by
  exact ⟨_, Block.write_ok h, Block.write_length (Block.write_ok h)⟩

theorem write_total {r : Ring} (hn : 0 < r.n) (hl : r.seg.length = r.size) (bytes : List Nat) :
    ∃ r' c, r.write bytes = .ok (r', c) ∧ r'.n = r.n ∧ r'.size = r.size ∧ r'.seg.length = r.size := by
  unfold Ring.write
  split
  · exact ⟨r, 0, rfl, rfl, rfl, hl⟩
  rename_i hle
  rw [if_neg (by omega)]
  obtain ⟨r1, offset, att, hp⟩ : ∃ a b c, r.place bytes.length = (a, b, c) := ⟨_, _, _, rfl⟩
  have hpl : r1.n = r.n ∧ r1.size = r.size ∧ r1.seg = r.seg ∧ offset + bytes.length ≤ r.size := by
    unfold Ring.place at hp
    simp only at hp
    split at hp
    · simp only [Prod.mk.injEq] at hp
      obtain ⟨rfl, rfl, -⟩ := hp
      exact ⟨rfl, rfl, rfl, by omega⟩
    · simp only [Prod.mk.injEq] at hp
      obtain ⟨rfl, rfl, -⟩ := hp
      exact ⟨rfl, rfl, rfl, by omega⟩
  obtain ⟨h1, h2, h3, h4⟩ := hpl
  rw [hp]
  simp only
  split
  · exact ⟨r1, 0, rfl, h1, h2, by rw [h3, hl]⟩
  rename_i hb
  obtain ⟨o, ho⟩ := evict_ok (r := r1) (att := att) (tl := (toI32 (r1.off r1.tail), toI32 (offset + bytes.length)))
    (r1.tail - r1.head) r1.head (by
      intro h0
      by_contra hc
      rw [Bool.not_eq_false] at hc
      exact hb ⟨by omega, hc⟩)
  rw [ho, Out.ok_bind]
  cases o with
  | none => exact ⟨r1, 0, rfl, h1, h2, by rw [h3, hl]⟩
  | some nh =>
    simp only
    unfold Ring.commit
    obtain ⟨sg, hw, hsl⟩ := Block.write_ok_exists (b := r1.seg) (off := offset) (d := bytes)
      (by rw [h3, hl]; exact h4)
    simp only
    rw [hw, Out.ok_bind]
    exact ⟨_, _, rfl, h1, h2, by simp only [hsl, h3, hl]⟩

theorem logAll_total : ∀ (ls : List Line) {r : Ring}, 0 < r.n → r.seg.length = r.size →
    ∃ r' cs, logAll r ls = .ok (r', cs) ∧ cs.length = ls.length
  | [], r, _, _ => ⟨r, [], rfl, rfl⟩
  | l :: ls, r, hn, hl => by
    obtain ⟨r1, c, e, h1, h2, h3⟩ := write_total hn hl (l.ts ++ l.text)
    obtain ⟨r2, cs, e2, h4⟩ := logAll_total ls (r := r1) (by omega) (by omega)
    refine ⟨r2, c :: cs, ?_, by simp [h4]⟩
    rw [logAll, e, Out.ok_bind]
    simp only
    rw [e2]
    rfl

/-- C43 (writing): whatever lines are written, in whatever order and of whatever sizes, to a ring with
at least one slot, no write touches memory outside the segment and no assertion fails. -/
theorem C43_write_safe (junk : Nat → Nat) {n size : Nat} (hn : 0 < n) (ls : List Line) :
    ∃ r cs, logAll (Ring.init junk n size) ls = .ok (r, cs) ∧ cs.length = ls.length :=
  logAll_total ls hn (by simp [Ring.init])

/-- A time stamp. -/
def stamp (k : Nat) : List Nat := List.replicate 16 k
def mk (k len : Nat) : Line := ⟨stamp k, List.replicate len k⟩

/-- Three lines, the last of which makes the ring wrap and drop the first. -/
example : (do
    let (_, cs) ← logAll (Ring.init (fun _ => 7) 4 100) [mk 1 20, mk 2 20, mk 3 5, mk 4 20]
    pure cs) = .ok [36, 36, 21, 36] := by decide +kernel

/-! ### The history of a ring -/

/-- The ring holds the lines of `W` from number `head` on. -/
structure Holds (r : Ring) (rs : List Rec) (W : List Line) : Prop where
  lay : Lay r rs
  tail : r.tail = W.length
  same : rs.map (·.bytes) = (W.drop r.head).map (fun l => l.ts ++ l.text)
  ts : ∀ l ∈ W, l.ts.length = 16
  newest : 2 ≤ r.n → W ≠ [] → r.head < W.length

theorem Holds.step {r r' : Ring} {rs rs' : List Rec} {W : List Line} (h : Holds r rs W) {l : Line}
    (hts : l.ts.length = 16) {j offset : Nat} (hj : j ≤ rs.length) (hlay : Lay r' rs') (hn : r'.n = r.n)
    (ht : r'.tail = r.tail + 1)
    (hrs : rs' = rs.drop j ++ [Rec.mk offset (l.ts ++ l.text)] ∨
      rs' = (rs.drop j ++ [Rec.mk offset (l.ts ++ l.text)]).tail)
    (hone : rs' = [] → r.n ≤ 1) : Holds r' rs' (W ++ [l]) := by
  have hc := h.lay.count
  have hc' := hlay.count
  have hT := h.tail
  refine ⟨hlay, by rw [ht, hT]; simp, ?_, ?_, ?_⟩
  · have key : (rs.drop j ++ [Rec.mk offset (l.ts ++ l.text)]).map (·.bytes) =
        ((W ++ [l]).drop (r.head + j)).map (fun l => l.ts ++ l.text) := by
      rw [List.drop_append_of_le_length (by omega), List.map_append, List.map_append, List.map_drop,
        h.same, ← List.map_drop, List.drop_drop]
      rfl
    rcases hrs with e | e
    · have : r'.head = r.head + j := by
        have := congrArg List.length e
        rw [List.length_append, List.length_drop, List.length_singleton] at this
        omega
      rw [e, this, key]
    · have : r'.head = r.head + j + 1 := by
        have := congrArg List.length e
        rw [List.length_tail, List.length_append, List.length_drop, List.length_singleton] at this
        omega
      rw [e, this, ← List.tail_drop, List.map_tail, List.map_tail, key]
  · intro x hx
    rw [List.mem_append, List.mem_singleton] at hx
    rcases hx with hx | rfl
    · exact h.ts x hx
    · exact hts
  · intro h2 _
    have : rs' ≠ [] := fun e => by have := hone e; omega
    have := List.length_pos_iff.mpr this
    rw [List.length_append, List.length_singleton]
    omega

/-- What a reader gets. -/
theorem Holds.since {r : Ring} {rs : List Rec} {W : List Line} (h : Holds r rs W) (hs : r.size < 2 ^ 31)
    (hW : W.length < 2 ^ 64) {after : Nat} (ha : after < 2 ^ 64) :
    r.since after = .ok (expected W r.head after) := by
  have hc := h.lay.count
  have hT := h.tail
  have hroom := h.lay.room
  -- reading from any number still held
  have loop : ∀ i, r.head ≤ i → i ≤ r.tail → r.readLoop (r.tail - i) i = .ok (numbered W i) := by
    intro i hi hi'
    obtain ⟨j, rfl⟩ := Nat.exists_eq_add_of_le hi
    obtain ⟨ls, h1, h2, h3, h4⟩ := h.lay.readLoop hs (rs.length - j) j (by omega)
    have e : r.tail - (r.head + j) = rs.length - j := by omega
    rw [e, h1]
    unfold numbered
    rw [Out.ok.injEq, ← hT, e, ← h2]
    have hl : ls.map (·.2) = W.drop (r.head + j) := by
      have h5 : ls.map (fun p => p.2.ts ++ p.2.text) = (W.drop (r.head + j)).map (fun l => l.ts ++ l.text) := by
        rw [h3, List.map_drop, h.same, ← List.map_drop, List.drop_drop]
      have h6 : ∀ l ∈ W.drop (r.head + j), l.ts.length = 16 := fun l hl => h.ts l (List.mem_of_mem_drop hl)
      generalize W.drop (r.head + j) = V at h5 h6 ⊢
      clear h1 h2 h3
      induction ls generalizing V with
      | nil =>
        cases V with
        | nil => rfl
        | cons v V => simp at h5
      | cons p ps ih =>
        cases V with
        | nil => simp at h5
        | cons v V =>
          simp only [List.map_cons, List.cons.injEq] at h5 ⊢
          obtain ⟨h51, h52⟩ := h5
          have e1 := h4 p (by simp)
          have e2 := h6 v (by simp)
          obtain ⟨e3, e4⟩ := List.append_inj h51 (by omega)
          refine ⟨?_, ih (fun q hq => h4 q (by simp [hq])) V h52 (fun q hq => h6 q (by simp [hq]))⟩
          cases hp : p.2
          cases v
          rw [hp] at e3 e4
          simp only at e3 e4
          rw [e3, e4]
    rw [← hl]
    clear * -
    induction ls with
    | nil => rfl
    | cons p ps ih => rw [List.map_cons, List.map_cons, List.zip_cons_cons, ← ih]
  have hend : numbered W W.length = [] := by unfold numbered; simp
  unfold Ring.since expected
  by_cases h0 : r.head = r.tail
  · rw [if_pos h0]
    split
    · rename_i hh
      rw [show after + 1 = W.length by omega, hend]; rfl
    · rw [show r.head = W.length by omega, hend]; rfl
  rw [if_neg h0, if_neg (by omega)]
  simp only
  by_cases hin : r.head ≤ after + 1 ∧ after + 1 ≤ W.length
  · rw [if_pos hin, Nat.mod_eq_of_lt (by omega)]
    by_cases he : after + 1 = r.tail
    · rw [if_pos he, he, hT, hend]; rfl
    · rw [if_neg he, if_neg (by omega)]
      exact loop _ hin.1 (by omega)
  · rw [if_neg hin]
    have hidx : (after + 1) % 2 ^ 64 = r.tail → False := by
      intro e
      rcases Nat.lt_or_ge (after + 1) (2 ^ 64) with hlt | hge
      · rw [Nat.mod_eq_of_lt hlt] at e; omega
      · rw [show after + 1 = 2 ^ 64 by omega, Nat.mod_self] at e; omega
    rw [if_neg hidx]
    by_cases hcond : (r.head > r.tail ∧ (after + 1) % 2 ^ 64 < r.head ∧ (after + 1) % 2 ^ 64 ≥ r.tail) ∨
          (r.head < r.tail ∧ ((after + 1) % 2 ^ 64 ≥ r.tail ∨ (after + 1) % 2 ^ 64 < r.head))
    · rw [if_pos hcond]
      exact loop _ (le_refl _) (by omega)
    · rw [if_neg hcond]
      have e : (after + 1) % 2 ^ 64 = r.head := by
        rcases Nat.lt_or_ge (after + 1) (2 ^ 64) with hlt | hge
        · rw [Nat.mod_eq_of_lt hlt] at hcond ⊢; omega
        · rw [show after + 1 = 2 ^ 64 by omega, Nat.mod_self] at hcond ⊢; omega
      rw [e]
      exact loop _ (le_refl _) (by omega)

theorem logAll_holds : ∀ (ls : List Line) {r r' : Ring} {rs : List Rec} {W : List Line} {cs : List Nat},
    Holds r rs W → r.size < 2 ^ 30 → W.length + ls.length < 2 ^ 31 → (∀ l ∈ ls, l.ts.length = 16) →
    logAll r ls = .ok (r', cs) → NoneRefused r.size ls cs →
    ∃ rs', Holds r' rs' (W ++ accepted ls cs) ∧ r'.size = r.size ∧ r'.n = r.n
  | [], r, r', rs, W, cs, h, _, _, _, e, _ => by
    simp only [logAll, Out.pure_eq, Out.ok.injEq, Prod.mk.injEq] at e
    obtain ⟨rfl, rfl⟩ := e
    exact ⟨rs, by simpa [accepted] using h, rfl, rfl⟩
  | l :: ls, r, r', rs, W, cs, h, hs, hcnt, hts, e, hnr => by
    have htl := hts l (by simp)
    have hlen : (l.ts ++ l.text).length = 16 + l.text.length := by rw [List.length_append, htl]
    rw [List.length_cons] at hcnt
    have hT := h.tail
    have hstep := write_step h.lay hs (by omega) (bytes := l.ts ++ l.text) (by omega)
    obtain ⟨r1, c, hw, -, -, -⟩ := write_total (r := r) (by have := h.lay.room; omega) h.lay.segLen (l.ts ++ l.text)
    rw [logAll, hw, Out.ok_bind] at e
    simp only at e
    cases hr : logAll r1 ls with
    | ub => rw [hr, Out.ub_bind] at e; simp at e
    | abort => rw [hr, Out.abort_bind] at e; simp at e
    | ok p =>
      obtain ⟨r2, cs'⟩ := p
      rw [hr, Out.ok_bind] at e
      simp only [Out.pure_eq, Out.ok.injEq, Prod.mk.injEq] at e
      obtain ⟨rfl, rfl⟩ := e
      obtain ⟨hc0, hnr'⟩ := hnr
      by_cases hc : c = 0
      · have hbig := hc0 hc
        rcases hstep with ⟨-, hw'⟩ | ⟨hb, -⟩
        · rw [hw'] at hw
          simp only [Out.ok.injEq, Prod.mk.injEq] at hw
          obtain ⟨rfl, -⟩ := hw
          have := logAll_holds ls h hs (by omega) (fun x hx => hts x (by simp [hx])) hr hnr'
          rwa [accepted, if_pos hc]
        · omega
      · rcases hstep with ⟨-, hw'⟩ | ⟨-, r1', offset, att, -, -, ⟨⟨r3, hw'⟩, -⟩ |
            ⟨nh, j, r3, rs', -, rfl, hj, hw', hlay, hn, hsz, ht, hrs⟩⟩
        · rw [hw'] at hw
          simp only [Out.ok.injEq, Prod.mk.injEq] at hw
          exact absurd hw.2.symm hc
        · rw [hw'] at hw
          simp only [Out.ok.injEq, Prod.mk.injEq] at hw
          exact absurd hw.2.symm hc
        · rw [hw'] at hw
          simp only [Out.ok.injEq, Prod.mk.injEq] at hw
          obtain ⟨rfl, -⟩ := hw
          have h' := h.step htl hj hlay hn ht (by
            rcases hrs with e | ⟨-, e⟩
            · exact Or.inl e
            · exact Or.inr e) (by
            intro e0
            rcases hrs with e | ⟨e', e⟩
            · rw [e0] at e; simp at e
            · rw [e0] at e
              have := congrArg List.length e
              rw [List.length_tail, List.length_append, List.length_drop, List.length_singleton,
                List.length_nil] at this
              omega)
          obtain ⟨rs2, a1, a2, a3⟩ := logAll_holds ls h' (by omega) (by simp; omega)
            (fun x hx => hts x (by simp [hx])) hr (by rw [hsz]; exact hnr')
          refine ⟨rs2, ?_, by omega, by omega⟩
          rw [accepted, if_neg hc]
          simpa using a1

theorem Holds.init (junk : Nat → Nat) {n size : Nat} (hn : 0 < n) : Holds (Ring.init junk n size) [] [] where
  lay := Lay.init junk hn
  tail := rfl
  same := by simp
  ts := by simp
  newest := by simp

theorem accepted_length_le : ∀ (ls : List Line) (cs : List Nat), (accepted ls cs).length ≤ ls.length
  | [], _ => by simp [accepted]
  | _ :: _, [] => by simp [accepted]
  | l :: ls, c :: cs => by
    have := accepted_length_le ls cs
    unfold accepted
    split <;> simp <;> omega

/-- C43 (reading), what holds of the code: if no write so far was refused (a line longer than the whole
segment may be), every reader gets the lines of a suffix of the accepted lines, numbered consecutively,
each with exactly the bytes written, without touching memory outside the segment, and the newest line
is among them if there are at least two slots.

Missing from the full statement: histories in which a write was refused, see
`C43_reader_overrun_violated`; segments of 1 GiB or more; more than 2^31 lines, see
`C43_line_numbers_violated`. -/
theorem C43_lines_since_partial (junk : Nat → Nat) {n size : Nat} (hn : 0 < n) (hs : size < 2 ^ 30)
    {ls : List Line} (hts : ∀ l ∈ ls, l.ts.length = 16) (hcount : ls.length < 2 ^ 31)
    {r : Ring} {cs : List Nat} (h : logAll (Ring.init junk n size) ls = .ok (r, cs))
    (hrun : NoneRefused size ls cs) :
    ∃ first, first ≤ (accepted ls cs).length ∧
      (2 ≤ n → accepted ls cs ≠ [] → first < (accepted ls cs).length) ∧
      ∀ after, after < 2 ^ 64 → r.since after = .ok (expected (accepted ls cs) first after) := by
  obtain ⟨rs, hh, h1, h2⟩ := logAll_holds ls (Holds.init junk (size := size) hn) hs (by simpa using hcount) hts h hrun
  rw [List.nil_append] at hh
  have hal := accepted_length_le ls cs
  have hsz : r.size = size := h1
  have hn' : r.n = n := h2
  refine ⟨r.head, ?_, ?_, fun after ha => hh.since (by omega) (by omega) ha⟩
  · have := hh.lay.count
    have := hh.tail
    omega
  · intro h2 hne
    exact hh.newest (by omega) hne

/-- The history of the example above: the first line is gone, the others are intact. -/
def demoLines : List Line := [mk 1 20, mk 2 20, mk 3 5, mk 4 20]

example : (do
    let (r, _) ← logAll (Ring.init (fun _ => 7) 4 100) demoLines
    r.since 2) = .ok [(3, mk 4 20)] := by decide +kernel
example : (∀ l ∈ demoLines, l.ts.length = 16) ∧ NoneRefused 100 demoLines [36, 36, 21, 36] ∧
    (do
      let (r, cs) ← logAll (Ring.init (fun _ => 7) 4 100) demoLines
      let ls ← r.since 0
      pure (cs, ls)) = .ok ([36, 36, 21, 36], expected demoLines 1 0) ∧
    expected demoLines 1 0 = [(1, mk 2 20), (2, mk 3 5), (3, mk 4 20)] := by decide +kernel

/-! ### Lines of at most a quarter of the segment -/

theorem logAll_small : ∀ (ls : List Line) {r : Ring} {rs : List Rec} {W : List Line},
    Holds r rs W → Small r rs → r.size < 2 ^ 30 → W.length + ls.length < 2 ^ 31 →
    (∀ l ∈ ls, l.ts.length = 16 ∧ 4 * (16 + l.text.length) ≤ r.size) →
    ∃ r' rs', logAll r ls = .ok (r', ls.map fun l => 16 + l.text.length) ∧ Holds r' rs' (W ++ ls) ∧
      Small r' rs' ∧ r'.size = r.size ∧ r'.n = r.n
  | [], r, rs, W, h, hsm, _, _, _ => ⟨r, rs, rfl, by simpa using h, hsm, rfl, rfl⟩
  | l :: ls, r, rs, W, h, hsm, hs, hcnt, hts => by
    obtain ⟨htl, hl4⟩ := hts l (by simp)
    have hlen : (l.ts ++ l.text).length = 16 + l.text.length := by rw [List.length_append, htl]
    rw [List.length_cons] at hcnt
    have hT := h.tail
    obtain ⟨r1, rs1, j, offset, hw, hsm1, hj, hn, hsz, ht, hrs⟩ :=
      write_small hsm hs (by omega) (bytes := l.ts ++ l.text) (by omega) (by omega)
    have h' := h.step htl hj hsm1.lay hn ht hrs (by
      intro e0
      have := hsm1.live
      rw [e0, hn, ht] at this
      simp only [List.length_nil] at this
      omega)
    obtain ⟨r2, rs2, e, a1, a2, a3, a4⟩ := logAll_small ls h' hsm1 (by omega) (by simp; omega)
      (fun x hx => by rw [hsz]; exact hts x (by simp [hx]))
    refine ⟨r2, rs2, ?_, by simpa using a1, a2, by omega, by omega⟩
    rw [logAll, hw, Out.ok_bind]
    simp only
    rw [e, hlen]
    rfl

/-- C43 for lines of at most a quarter of the segment: every write is accepted in full, and every
reader gets a suffix of the written lines, intact and in order, containing at least the last two (or as
many as there are slots for). -/
theorem C43_small_lines (junk : Nat → Nat) {n size : Nat} (hn : 0 < n) (hs : size < 2 ^ 30)
    {ls : List Line} (hts : ∀ l ∈ ls, l.ts.length = 16 ∧ 4 * (16 + l.text.length) ≤ size)
    (hcount : ls.length < 2 ^ 31) :
    ∃ r first, logAll (Ring.init junk n size) ls = .ok (r, ls.map fun l => 16 + l.text.length) ∧
      first + min 2 (min (n - 1) ls.length) ≤ ls.length ∧
      ∀ after, after < 2 ^ 64 → r.since after = .ok (expected ls first after) := by
  obtain ⟨r, rs, e, hh, hsm, hsz, hn'⟩ := logAll_small ls (Holds.init junk (size := size) hn)
    (Small.init junk hn) hs (by simpa using hcount) hts
  rw [List.nil_append] at hh
  have hsz : r.size = size := hsz
  have hn' : r.n = n := hn'
  refine ⟨r, r.head, e, ?_, fun after ha => hh.since (by omega) (by omega) ha⟩
  have := hh.lay.count
  have h3 := hh.tail
  have h4 := hsm.live
  rw [h3, hn'] at h4
  omega

example : (∀ l ∈ ([mk 1 9, mk 2 3, mk 3 9, mk 4 9, mk 5 0] : List Line),
      l.ts.length = 16 ∧ 4 * (16 + l.text.length) ≤ 100) ∧
    (do
      let (r, cs) ← logAll (Ring.init (fun _ => 7) 8 100) [mk 1 9, mk 2 3, mk 3 9, mk 4 9, mk 5 0]
      let ls ← r.since 1000
      pure (cs, ls)) = .ok ([25, 19, 25, 25, 16], [(1, mk 2 3), (2, mk 3 9), (3, mk 4 9), (4, mk 5 0)]) := by
  decide +kernel

/-! ### Asking for a number of lines -/

theorem Holds.nmsg {r : Ring} {rs : List Rec} {W : List Line} (h : Holds r rs W) : r.nmsg = rs.length := by
  have hc := h.lay.count
  have hroom := h.lay.room
  unfold Ring.nmsg
  rw [← hc]
  have hn : 0 < r.n := by omega
  have h1 := Nat.mod_lt r.head hn
  have h2 : (r.head + rs.length) % r.n = if r.head % r.n + rs.length < r.n then r.head % r.n + rs.length
      else r.head % r.n + rs.length - r.n := by
    rw [Nat.add_mod, Nat.mod_eq_of_lt hroom]
    split
    · rename_i h3; exact Nat.mod_eq_of_lt h3
    · rename_i h3
      rw [Nat.mod_eq_sub_mod (by omega), Nat.mod_eq_of_lt (by omega)]
  rw [h2]
  split <;> split <;> omega

/-- C43 (violated): asking for the last `k` lines never gives `k` lines.  With `c` lines held, the
reader gets the last `min k c - 1`; asking for everything gives all but the oldest.  So
`mtev_log_speculate_finish` loses the first line logged. -/
theorem C43_memory_lines_violated (junk : Nat → Nat) {n size : Nat} (hn : 0 < n) (hs : size < 2 ^ 30)
    {ls : List Line} (hts : ∀ l ∈ ls, l.ts.length = 16) (hcount : ls.length < 2 ^ 31)
    {r : Ring} {cs : List Nat} (h : logAll (Ring.init junk n size) ls = .ok (r, cs))
    (hrun : NoneRefused size ls cs) :
    ∃ first, first ≤ (accepted ls cs).length ∧ (r.since (2 ^ 64 - 1) = .ok (numbered (accepted ls cs) first)) ∧
      ∀ k : Int, k < 2 ^ 31 → first < (accepted ls cs).length →
        r.lines k = .ok (numbered (accepted ls cs) ((accepted ls cs).length + 1 -
          (if k ≤ 0 then (accepted ls cs).length - first
           else min k.toNat ((accepted ls cs).length - first)))) := by
  obtain ⟨rs, hh, h1, h2⟩ := logAll_holds ls (Holds.init junk (size := size) hn) hs (by simpa using hcount) hts h hrun
  rw [List.nil_append] at hh
  have hal := accepted_length_le ls cs
  have hsz : r.size = size := h1
  have hn' : r.n = n := h2
  have hc := hh.lay.count
  have hT := hh.tail
  generalize accepted ls cs = W at *
  refine ⟨r.head, by omega, ?_, ?_⟩
  · rw [hh.since (by omega) (by omega) (by omega)]
    unfold expected
    rw [if_neg (by omega)]
  · intro k hk hlt
    unfold Ring.lines
    rw [if_neg (by omega)]
    simp only
    rw [hh.nmsg]
    have hwant : (if k ≤ 0 then rs.length else min (i32toU32 k) rs.length) =
        if k ≤ 0 then W.length - r.head else min k.toNat (W.length - r.head) := by
      split
      · omega
      · have : i32toU32 k = k.toNat := by
          unfold i32toU32
          rw [Int.emod_eq_of_lt (by omega) (by omega)]
        rw [this]; congr 1; omega
    rw [hwant]
    generalize hw : (if k ≤ 0 then W.length - r.head else min k.toNat (W.length - r.head)) = want
    have hpos : 1 ≤ want ∧ want ≤ W.length - r.head := by
      split at hw <;> omega
    rw [if_pos (by omega), hh.since (by omega) (by omega) (by omega)]
    unfold expected
    rw [if_pos (by omega), show r.tail - want + 1 = W.length + 1 - want by omega]

example : (do
    let (r, _) ← logAll (Ring.init (fun _ => 7) 8 1000) [mk 1 9]
    r.lines 0) = .ok [] := by decide +kernel
example : (do
    let (r, _) ← logAll (Ring.init (fun _ => 7) 8 1000) [mk 1 9, mk 2 9, mk 3 9]
    r.lines 2) = .ok [(2, mk 3 9)] := by decide +kernel

/-! ### Refused writes -/

/-- A ring whose only line sits at the start of the segment and whose tail has wrapped to it. -/
structure Stuck (r : Ring) : Prop where
  n : r.n = 4
  head : r.head = 0
  tail : r.tail = 1
  size : r.size = 100
  o0 : r.off 0 = 0
  o1 : r.off 1 = 0

theorem Stuck.write {r : Ring} (h : Stuck r) {bytes : List Nat} :
    ∃ r', r.write bytes = .ok (r', 0) ∧ Stuck r' := by
  unfold Ring.write
  split
  · exact ⟨r, rfl, h⟩
  rename_i hle
  rw [h.size] at hle
  rw [if_neg (by rw [h.n]; omega)]
  have hp : ∃ c, r.place bytes.length = ({ r with cut := c }, 0, (-3, -1)) := by
    refine ⟨if 0 + bytes.length > r.cut then r.size else r.cut, ?_⟩
    unfold Ring.place
    simp only
    rw [h.tail, h.o1, if_neg (by rw [h.size]; omega)]
  obtain ⟨c, hp⟩ := hp
  rw [hp]
  simp only
  have hoff : ∀ i, Ring.off { r with cut := c } i = r.off i := fun i => off_congr (r := r) (r' := { r with cut := c }) rfl rfl i
  have hsp : badSpan (Ring.span { r with cut := c } r.head) (-3, -1)
      (toI32 (Ring.off { r with cut := c } r.tail), toI32 (0 + bytes.length)) = true := by
    unfold badSpan Ring.span
    rw [hoff, hoff, h.head, h.o0, h.o1]
    have : toI32 0 = 0 := by decide
    simp only [this]
    rw [decide_eq_true_iff]
    left
    simp
  rw [if_pos ⟨by rw [h.head, h.tail]; omega, hsp⟩]
  exact ⟨_, rfl, ⟨h.n, h.head, h.tail, h.size, by rw [hoff]; exact h.o0, by rw [hoff]; exact h.o1⟩⟩

theorem Stuck.logAll : ∀ (ls : List Line) {r : Ring}, Stuck r →
    ∃ r', logAll r ls = .ok (r', ls.map fun _ => 0)
  | [], r, _ => ⟨r, rfl⟩
  | l :: ls, r, h => by
    obtain ⟨r1, e, h1⟩ := h.write (bytes := l.ts ++ l.text)
    obtain ⟨r2, e2⟩ := Stuck.logAll ls h1
    refine ⟨r2, ?_⟩
    rw [LogRing.logAll, e, Out.ok_bind]
    simp only
    rw [e2]
    rfl

theorem logAll_cons {r r1 : Ring} {l : Line} {c : Nat} (h : r.write (l.ts ++ l.text) = .ok (r1, c))
    (ls : List Line) : logAll r (l :: ls) = (do
      let (r, cs) ← logAll r1 ls
      pure (r, c :: cs)) := by
  rw [logAll, h, Out.ok_bind]

/-- C43 (violated): a memory log can stop accepting lines for good.  In a segment of 100 bytes, after
two lines of 60 bytes every later line, of any size, is refused. -/
theorem C43_stuck_violated (ls : List Line) :
    ∃ r, logAll (Ring.init (fun _ => 0) 4 100) (mk 1 44 :: mk 2 44 :: ls) =
      .ok (r, 60 :: 0 :: ls.map fun _ => 0) := by
  have h1 : ∃ r1, (Ring.init (fun _ => 0) 4 100).write ((mk 1 44).ts ++ (mk 1 44).text) = .ok (r1, 60) ∧
      ∃ r2, r1.write ((mk 2 44).ts ++ (mk 2 44).text) = .ok (r2, 0) ∧ r2.n = 4 ∧ r2.head = 0 ∧ r2.tail = 1 ∧
        r2.size = 100 ∧ r2.off 0 = 0 ∧ r2.off 1 = 0 := by
    refine ⟨⟨0, 1, 4, [0, 60, 0, 0], 100, 100, (stamp 1 ++ List.replicate 44 1) ++ List.replicate 40 0⟩,
      by decide +kernel,
      ⟨0, 1, 4, [0, 0, 0, 0], 100, 60, (stamp 1 ++ List.replicate 44 1) ++ List.replicate 40 0⟩, by decide +kernel,
      rfl, rfl, rfl, rfl, by decide +kernel, by decide +kernel⟩
  obtain ⟨r1, e1, r2, e2, a1, a2, a3, a4, a5, a6⟩ := h1
  obtain ⟨r3, e3⟩ := Stuck.logAll ls ⟨a1, a2, a3, a4, a5, a6⟩
  refine ⟨r3, ?_⟩
  rw [logAll_cons e1, logAll_cons e2, e3]
  rfl

/-- C43 (violated): after a refused write a reader can run off the end of the segment.  The refused
line has already moved the cut and the tail's offset, so a live line's length comes out as 0 - 16. -/
theorem C43_reader_overrun_violated :
    (do
      let (r, cs) ← logAll (Ring.init (fun _ => 0) 8 200) [mk 1 134, mk 2 34, mk 3 134, mk 4 54]
      pure (cs, r.since 0)) = .ok ([150, 50, 150, 0], .ub) := by decide +kernel

/-- C43 (violated): after refused writes a reader can be given a line nobody wrote: the third line
comes back with 50 bytes of whatever lay behind it in memory. -/
theorem C43_garbage_violated :
    (do
      let (r, cs) ← logAll (Ring.init (fun _ => 7) 8 200) [mk 1 34, mk 2 34, mk 3 34, mk 4 84, mk 5 154]
      let ls ← r.since 1
      pure (cs, ls)) = .ok ([50, 50, 50, 0, 0], [(2, ⟨stamp 3, List.replicate 34 3 ++ List.replicate 50 7⟩)]) := by
  decide +kernel

/-- C43 (violated): a speculation of no lines divides by zero on the first line that fits. -/
theorem C43_no_slots_violated (junk : Nat → Nat) (size : Nat) (l : Line)
    (h : l.ts.length + l.text.length ≤ size) :
    (Ring.init junk 0 size).write (l.ts ++ l.text) = .ub := by
  unfold Ring.write
  rw [if_neg (by simp [Ring.init, List.length_append]; omega), if_pos (by rfl)]

example : (mk 1 5).ts.length + (mk 1 5).text.length ≤ 100 := by decide

/-! ### Line numbers -/

/-- C43 (violated): the line number is kept in an `int` on the way.  After 2^31 lines the next line's
number jumps to 2^64 - 2^31, and the offset just recorded is not the one the next write looks at (for
10000 slots: 3648 against 7968). -/
theorem C43_line_numbers_violated (junk : Nat → Nat) {size : Nat} (hs : size < 2 ^ 30) (l : Line)
    (hl : l.ts.length = 16 ∧ 4 * (16 + l.text.length) ≤ size) :
    ∃ r, logAll (Ring.init junk 10000 size) (List.replicate (2 ^ 31 - 1) l) =
        .ok (r, List.replicate (2 ^ 31 - 1) (16 + l.text.length)) ∧ r.tail = 2 ^ 31 - 1 ∧
      ∀ nh off r' c, r.commit nh off (l.ts ++ l.text) = .ok (r', c) →
        r'.tail = 2 ^ 64 - 2 ^ 31 ∧ r'.offs = r.offs.set 3648 (off + (l.ts ++ l.text).length) ∧
        r'.tail % r'.n = 7968 := by
  obtain ⟨r, rs, e, hh, hsm, hsz, hn'⟩ := logAll_small (List.replicate (2 ^ 31 - 1) l)
    (Holds.init junk (n := 10000) (size := size) (by decide)) (Small.init junk (by decide)) hs
    (by rw [List.length_replicate]; decide)
    (by intro x hx; rw [List.eq_of_mem_replicate hx]; exact hl)
  rw [List.map_replicate] at e
  have hn' : r.n = 10000 := hn'
  have hT : r.tail = 2 ^ 31 - 1 := by
    rw [hh.tail, List.nil_append, List.length_replicate]
  refine ⟨r, e, hT, ?_⟩
  intro nh off r' c hc
  have e1 : i32toU32 (toI32 (2 ^ 31 - 1 + 1)) % 10000 = 3648 := by decide +kernel
  have e2 : i32toU64 (toI32 (2 ^ 31 - 1 + 1)) = 2 ^ 64 - 2 ^ 31 := by decide +kernel
  unfold Ring.commit at hc
  simp only [hT, hn', e1, e2] at hc
  cases hw : r.seg.write off (l.ts ++ l.text) with
  | ub => rw [hw, Out.ub_bind] at hc; simp at hc
  | abort => rw [hw, Out.abort_bind] at hc; simp at hc
  | ok sg =>
    rw [hw, Out.ok_bind] at hc
    simp only [Out.pure_eq, Out.ok.injEq, Prod.mk.injEq] at hc
    obtain ⟨rfl, -⟩ := hc
    exact ⟨rfl, rfl, by simp only; decide +kernel⟩

example : (mk 1 5).ts.length = 16 ∧ 4 * (16 + (mk 1 5).text.length) ≤ 100000 := by decide

end Mtev.LogRing
