import Verif.Mem
import Mathlib.Data.Nat.ModEq
import Mathlib.Tactic.ClearExcept

/-!
Model of the memory log stream, /repo/src/utils/mtev_log.c:206-461.

All of it runs under one mutex, so the operations are atomic.
-/

namespace Mtev.LogRing

/-- Conversion of a non-negative value to `int`. -/
def toI32 (x : Nat) : Int := ((x + 2 ^ 31) % 2 ^ 32 : Nat) - 2 ^ 31

/-- Conversion of an `int` to `unsigned int`. -/
def i32toU32 (x : Int) : Nat := (x % 2 ^ 32).toNat
/-- Conversion of an `int` to `uint64_t` (sign extension). -/
def i32toU64 (x : Int) : Nat := (x % 2 ^ 64).toNat

/-- `membuf_ctx_t`, mtev_log.c:206-215. -/
structure Ring where
  head : Nat
  tail : Nat
  n : Nat
  offs : List Nat
  size : Nat
  cut : Nat
  seg : Block
deriving DecidableEq

/-- `log_stream_membuf_init`, mtev_log.c:217-229. -/
def Ring.init (junk : Nat → Nat) (n size : Nat) : Ring :=
  ⟨0, 0, n, List.replicate n 0, size, size, malloc junk size⟩

/-- `membuf->offsets[i % membuf->noffsets]`. -/
def Ring.off (r : Ring) (i : Nat) : Nat := r.offs.getD (i % r.n) 0

/-- `intersect_seg`, mtev_log.c:251-258. -/
def intersectSeg (a1 a2 b1 b2 : Int) : Out Bool :=
  if a1 < a2 ∧ b1 < b2 then .ok (decide ((a1 ≥ b1 ∧ a1 ≤ b2) ∨ (a2 ≥ b1 ∧ a2 ≤ b2))) else .abort

/-- `headoffset` and `headend` of a record, mtev_log.c:293-295 and 309-311. -/
def Ring.span (r : Ring) (i : Nat) : Int × Int :=
  let ho := toI32 (r.off i)
  let he := toI32 (r.off (i + 1))
  (ho, if he < ho then toI32 r.size else he)

/-- The "bounds check", mtev_log.c:300 and 313. -/
def badSpan (sp at' tl : Int × Int) : Bool :=
  decide (sp.1 ≥ sp.2 - 1 ∨ at'.1 ≥ at'.2 - 1 ∨ tl.1 ≥ tl.2 - 1)

/-- `intersect_seg(head, attempt) || intersect_seg(head, tail)`, mtev_log.c:306-307. -/
def hits (sp at' tl : Int × Int) : Out Bool := do
  let x ← intersectSeg sp.1 (sp.2 - 1) at'.1 (at'.2 - 1)
  if x then pure true else intersectSeg sp.1 (sp.2 - 1) tl.1 (tl.2 - 1)

/-- The loop moving the head on, mtev_log.c:305-316; the fuel is `tail - new_head`.  `none` is
`goto bail`. -/
def Ring.evict (r : Ring) (at' tl : Int × Int) : Nat → Nat → Out (Option Nat)
  | 0, nh => pure (some nh)
  | k+1, nh => do
    if ← hits (r.span nh) at' tl then
      if badSpan (r.span (nh + 1)) at' tl then pure none
      else r.evict at' tl k (nh + 1)
    else pure (some nh)

/-- The first half of `membuf_logio_writev`, mtev_log.c:278-287: where the record goes.  Returns the
ring with `segmentcut` and the tail's offset updated, the offset and the attempted range. -/
def Ring.place (r : Ring) (len : Nat) : Ring × Nat × (Int × Int) :=
  let offset := r.off r.tail
  let cut := if offset + len > r.cut then r.size else r.cut
  if offset + len > r.size then
    ({ r with cut := offset, offs := r.offs.set (r.tail % r.n) 0 }, 0, (offset, toI32 (offset + len)))
  else ({ r with cut := cut }, offset, (-3, -1))

/-- Appending the record, mtev_log.c:318-331.  `nexttail` is an `int`.  The several `memcpy` calls
write consecutive ranges and are one write here. -/
def Ring.commit (r : Ring) (newHead offset : Nat) (bytes : List Nat) : Out (Ring × Nat) := do
  let nexttail := toI32 (r.tail + 1)
  let slot := i32toU32 nexttail % r.n
  let head := if slot = newHead % r.n then newHead + 1 else newHead
  let seg ← r.seg.write offset bytes
  pure ({ r with head := head, offs := r.offs.set slot (offset + bytes.length), seg := seg,
                 tail := i32toU64 nexttail }, bytes.length)

/-- `membuf_logio_writev`, mtev_log.c:259-336; `bytes` is the 16-byte time stamp followed by the
text.  Returns the ring and the number of bytes logged. -/
def Ring.write (r : Ring) (bytes : List Nat) : Out (Ring × Nat) :=
  if bytes.length > r.size then pure (r, 0)
  else if r.n = 0 then .ub
  else
    let (r, offset, att) := r.place bytes.length
    let tl : Int × Int := (toI32 (r.off r.tail), toI32 (offset + bytes.length))
    if r.head ≠ r.tail ∧ badSpan (r.span r.head) att tl then pure (r, 0)
    else do
      match ← r.evict att tl (r.tail - r.head) r.head with
      | none => pure (r, 0)
      | some nh => r.commit nh offset bytes

/-- One delivered line: its number, its 16-byte time stamp, its text. -/
structure Line where
  ts : List Nat
  text : List Nat
deriving DecidableEq, Repr

/-- `unsigned int` subtraction. -/
def sub32 (a b : Nat) : Nat := (a + 2 ^ 32 - b % 2 ^ 32) % 2 ^ 32

/-- The body of the reading loop, mtev_log.c:444-455.  The callback reads the whole line, so a line
reaching outside the segment is undefined behaviour. -/
def Ring.readOne (r : Ring) (idx : Nat) : Out Line := do
  let o := r.off idx
  let o' := r.off (idx + 1)
  let len := if o < o' then o' - o else sub32 r.cut o
  let ts ← r.seg.read o 16
  let text ← r.seg.read (o + 16) (sub64 len 16)
  pure ⟨ts, text⟩

/-- The reading loop, mtev_log.c:441-457; fuel `tail - idx`.  The callback is taken never to ask to
stop; when it does the result is a prefix. -/
def Ring.readLoop (r : Ring) : Nat → Nat → Out (List (Nat × Line))
  | 0, _ => pure []
  | k+1, idx => do
    let l ← r.readOne idx
    let ls ← r.readLoop k (idx + 1)
    pure ((idx, l) :: ls)

/-- `mtev_log_memory_lines_since`, mtev_log.c:415-461. -/
def Ring.since (r : Ring) (after : Nat) : Out (List (Nat × Line)) :=
  if r.head = r.tail then pure []
  else if r.n = 0 then .ub
  else
    let idx := (after + 1) % 2 ^ 64
    if idx = r.tail then pure []
    else
      let idx := if (r.head > r.tail ∧ idx < r.head ∧ idx ≥ r.tail) ∨
          (r.head < r.tail ∧ (idx ≥ r.tail ∨ idx < r.head)) then r.head else idx
      r.readLoop (r.tail - idx) idx

/-- `nmsg`, mtev_log.c:403-405. -/
def Ring.nmsg (r : Ring) : Nat :=
  if r.tail % r.n ≥ r.head % r.n then r.tail % r.n - r.head % r.n
  else r.tail % r.n + r.n - r.head % r.n

/-- `mtev_log_memory_lines`, mtev_log.c:391-413; `lines` is zero or less for "all".  The lock is
released between the two parts; here nothing is written in between. -/
def Ring.lines (r : Ring) (lines : Int) : Out (List (Nat × Line)) :=
  if r.n = 0 then .ub
  else
    let nmsg := r.nmsg
    let want : Nat := if lines ≤ 0 then nmsg else min (i32toU32 lines) nmsg
    let idx := if r.tail ≥ want then r.tail - want else 0
    r.since idx

/-! ### Helper lemmas -/

theorem toI32_of_lt {x : Nat} (h : x < 2 ^ 31) : toI32 x = x := by
  unfold toI32
  rw [Nat.mod_eq_of_lt (by omega)]
  omega

theorem i32toU32_of {x : Nat} (h : x < 2 ^ 31) : i32toU32 (x : Int) = x := by
  unfold i32toU32
  have : (x : Int) % 2 ^ 32 = x := Int.emod_eq_of_lt (by omega) (by omega)
  rw [this]; rfl

theorem i32toU64_of {x : Nat} (h : x < 2 ^ 31) : i32toU64 (x : Int) = x := by
  unfold i32toU64
  have : (x : Int) % 2 ^ 64 = x := Int.emod_eq_of_lt (by omega) (by omega)
  rw [this]; rfl

attribute [local irreducible] toI32 i32toU32 i32toU64

theorem slot_inj {h n i j : Nat} (hi : i < n) (hj : j < n) (e : (h + i) % n = (h + j) % n) : i = j := by
  have h1 : Nat.ModEq n (h + i) (h + j) := e
  have h2 : Nat.ModEq n i j := Nat.ModEq.add_left_cancel' h h1
  have : i % n = j % n := h2
  rwa [Nat.mod_eq_of_lt hi, Nat.mod_eq_of_lt hj] at this

/-- Setting the slot of one index leaves the others alone. -/
theorem off_set_ne {r : Ring} {i j v : Nat} {r' : Ring} (h : r'.offs = r.offs.set (i % r.n) v)
    (hn : r'.n = r.n) (hne : j % r.n ≠ i % r.n) : r'.off j = r.off j := by
  unfold Ring.off
  rw [h, hn, List.getD_eq_getElem?_getD, List.getElem?_set_ne (Ne.symm hne),
    ← List.getD_eq_getElem?_getD]

theorem off_set_eq {r : Ring} {i v : Nat} {r' : Ring} (h : r'.offs = r.offs.set (i % r.n) v)
    (hn : r'.n = r.n) (hl : r.offs.length = r.n) (h0 : 0 < r.n) {j : Nat} (e : j % r.n = i % r.n) :
    r'.off j = v := by
  unfold Ring.off
  rw [h, hn, e, List.getD_eq_getElem?_getD, List.getElem?_set_self]
  · rfl
  · rw [hl]; exact Nat.mod_lt _ h0

theorem off_congr {r r' : Ring} (h : r'.offs = r.offs) (hn : r'.n = r.n) (i : Nat) :
    r'.off i = r.off i := by
  unfold Ring.off; rw [h, hn]

attribute [local irreducible] Ring.off

/-- The eviction loop stops at the tail or at a record in nobody's way. -/
theorem evict_spec {r : Ring} {att tl : Int × Int} (k : Nat) : ∀ nh {nh'},
    r.evict att tl k nh = .ok (some nh') → nh ≤ nh' ∧ nh' ≤ nh + k ∧
      (nh' < nh + k → hits (r.span nh') att tl = .ok false) := by
  induction k with
  | zero =>
    intro nh nh' e
    simp only [Ring.evict, Out.pure_eq, Out.ok.injEq, Option.some.injEq] at e
    subst e
    exact ⟨le_refl _, le_refl _, fun h => by omega⟩
  | succ k ih =>
    intro nh nh' e
    rw [Ring.evict] at e
    cases hh : hits (r.span nh) att tl with
    | ok b =>
      rw [hh, Out.ok_bind] at e
      cases b with
      | true =>
        simp only [if_true] at e
        split at e
        · simp at e
        · obtain ⟨h1, h2, h3⟩ := ih (nh + 1) e
          exact ⟨by omega, by omega, fun h => h3 (by omega)⟩
      | false =>
        simp only [Bool.false_eq_true, if_false, Out.pure_eq, Out.ok.injEq, Option.some.injEq] at e
        subst e
        exact ⟨le_refl _, by omega, fun _ => hh⟩
    | ub => rw [hh, Out.ub_bind] at e; simp at e
    | abort => rw [hh, Out.abort_bind] at e; simp at e

theorem hits_ok {sp att tl : Int × Int} (h : badSpan sp att tl = false) :
    ∃ b, hits sp att tl = .ok b ∧
      (b = true ↔ ((sp.1 ≥ att.1 ∧ sp.1 ≤ att.2 - 1) ∨ (sp.2 - 1 ≥ att.1 ∧ sp.2 - 1 ≤ att.2 - 1)) ∨
        ((sp.1 ≥ tl.1 ∧ sp.1 ≤ tl.2 - 1) ∨ (sp.2 - 1 ≥ tl.1 ∧ sp.2 - 1 ≤ tl.2 - 1))) := by
  unfold badSpan at h
  rw [decide_eq_false_iff_not] at h
  unfold hits intersectSeg
  rw [if_pos (by omega), Out.ok_bind]
  by_cases hx : (sp.1 ≥ att.1 ∧ sp.1 ≤ att.2 - 1) ∨ (sp.2 - 1 ≥ att.1 ∧ sp.2 - 1 ≤ att.2 - 1)
  · rw [decide_eq_true hx]
    exact ⟨true, rfl, iff_of_true rfl (Or.inl hx)⟩
  · rw [decide_eq_false hx]
    simp only [Bool.false_eq_true, if_false]
    rw [if_pos (by omega)]
    exact ⟨_, rfl, by rw [decide_eq_true_iff]; tauto⟩

/-- From a record that passes the bounds check the loop never fails an assertion. -/
theorem evict_ok {r : Ring} {att tl : Int × Int} : ∀ k nh,
    (0 < k → badSpan (r.span nh) att tl = false) → ∃ o, r.evict att tl k nh = .ok o
  | 0, nh, _ => ⟨_, rfl⟩
  | k+1, nh, h => by
    obtain ⟨b, hb, -⟩ := hits_ok (h (by omega))
    rw [Ring.evict, hb, Out.ok_bind]
    cases b with
    | true =>
      simp only [if_true]
      split
      · exact ⟨_, rfl⟩
      · rename_i hs
        exact evict_ok k (nh + 1) fun _ => by simpa using hs
    | false => exact ⟨_, rfl⟩

theorem hits_false {sp att tl : Int × Int} (h : hits sp att tl = .ok false) :
    ¬ (sp.1 ≥ att.1 ∧ sp.1 ≤ att.2 - 1) ∧ ¬ (sp.1 ≥ tl.1 ∧ sp.1 ≤ tl.2 - 1) := by
  unfold hits intersectSeg at h
  split at h
  · rw [Out.ok_bind] at h
    split at h
    · simp at h
    · rename_i h1
      split at h
      · rw [decide_eq_true_iff] at h1
        rw [Out.ok.injEq, decide_eq_false_iff_not] at h
        tauto
      · simp at h
  · simp at h

/-- A write does not change what lies after it. -/
theorem read_write_after {b b' : Block} {off o n : Nat} {data : List Nat}
    (h : b.write off data = .ok b') (ho : off + data.length ≤ o) : b'.read o n = b.read o n := by
  have hl := Block.write_length h
  have hd := Block.write_drop h
  unfold Block.read
  rw [hl]
  have key : ∀ c : Block, c.drop o = (c.drop (off + data.length)).drop (o - (off + data.length)) := by
    intro c
    rw [List.drop_drop]
    congr 1
    omega
  rw [key b', key b, hd]

/-! ### The layout of the live records -/

/-- A record in the segment. -/
structure Rec where
  start : Nat
  bytes : List Nat

/-- Consecutive records filling `[a, b)`. -/
def Chain : Nat → List Rec → Nat → Prop
  | a, [], b => a = b
  | a, x :: xs, b => x.start = a ∧ Chain (a + x.bytes.length) xs b

theorem Chain.le : ∀ {a b : Nat} {rs : List Rec}, Chain a rs b → a ≤ b
  | _, _, [], h => by
    have : _ = _ := h
    omega
  | _, _, _ :: _, h => by have := Chain.le h.2; omega

theorem Chain.mem : ∀ {a b : Nat} {rs : List Rec}, Chain a rs b → ∀ x ∈ rs,
    a ≤ x.start ∧ x.start + x.bytes.length ≤ b
  | _, _, [], _, x, hx => by simp at hx
  | a, b, y :: ys, h, x, hx => by
    rcases List.mem_cons.1 hx with rfl | hx
    · have := h.2.le
      have := h.1
      omega
    · have := Chain.mem h.2 x hx
      omega

theorem Chain.append : ∀ {a b c : Nat} {p q : List Rec}, Chain a p b → Chain b q c → Chain a (p ++ q) c
  | _, _, _, [], _, h, h' => by
    have : _ = _ := h
    subst this
    exact h'
  | _, _, _, _ :: _, _, h, h' => ⟨h.1, Chain.append h.2 h'⟩

theorem Chain.drop : ∀ {a b : Nat} {rs : List Rec} (j : Nat) {x : Rec}, Chain a rs b → rs[j]? = some x →
    Chain x.start (rs.drop j) b
  | _, _, [], _, _, _, h => by simp at h
  | a, b, y :: ys, 0, x, h, e => by
    simp only [List.getElem?_cons_zero, Option.some.injEq] at e
    subst e
    exact ⟨rfl, by rw [h.1]; exact h.2⟩
  | a, b, y :: ys, j+1, x, h, e => by
    simp only [List.getElem?_cons_succ] at e
    exact Chain.drop j h.2 e

/-- Some suffix is still a chain to the same end. -/
theorem Chain.drop' {a b : Nat} {rs : List Rec} (h : Chain a rs b) (j : Nat) :
    ∃ a', Chain a' (rs.drop j) b := by
  cases e : rs[j]? with
  | none =>
    rw [List.getElem?_eq_none_iff] at e
    rw [List.drop_of_length_le e]
    exact ⟨b, rfl⟩
  | some x => exact ⟨_, h.drop j e⟩

/-- What comes after a record. -/
theorem Chain.next : ∀ {a b : Nat} {rs : List Rec}, Chain a rs b → ∀ {j : Nat} {x : Rec},
    rs[j]? = some x →
    (∃ y, rs[j+1]? = some y ∧ y.start = x.start + x.bytes.length) ∨
    (j + 1 = rs.length ∧ b = x.start + x.bytes.length)
  | _, _, [], _, _, _, e => by simp at e
  | a, b, [y], h, j, x, e => by
    cases j with
    | zero =>
      simp only [List.getElem?_cons_zero, Option.some.injEq] at e
      subst e
      right
      have h2 : a + y.bytes.length = b := h.2
      have := h.1
      exact ⟨rfl, by omega⟩
    | succ j => simp at e
  | a, b, y :: z :: zs, h, j, x, e => by
    cases j with
    | zero =>
      simp only [List.getElem?_cons_zero, Option.some.injEq] at e
      subst e
      left
      refine ⟨z, by simp, ?_⟩
      have := h.1
      have := h.2.1
      omega
    | succ j =>
      simp only [List.getElem?_cons_succ] at e
      rcases Chain.next h.2 e with ⟨w, hw, h'⟩ | ⟨h1, h2⟩
      · exact Or.inl ⟨w, by simpa using hw, h'⟩
      · exact Or.inr ⟨by simp only [List.length_cons] at h1 ⊢; omega, h2⟩

/-- The live records: one run ending at the tail, or an upper run ending at the cut followed by a
run from the start of the segment to the tail. -/
def Shape (rs : List Rec) (T cut size : Nat) : Prop :=
  (∃ a, Chain a rs T) ∨
  ∃ up lo u, rs = up ++ lo ∧ up ≠ [] ∧ lo ≠ [] ∧ Chain u up cut ∧ Chain 0 lo T ∧ T ≤ u ∧ cut ≤ size

theorem Shape.tail {x : Rec} {rs : List Rec} {T cut size : Nat} (h : Shape (x :: rs) T cut size) :
    Shape rs T cut size := by
  rcases h with ⟨a, h⟩ | ⟨up, lo, u, e, h1, h2, h3, h4, h5, h6⟩
  · exact Or.inl ⟨_, h.2⟩
  · cases up with
    | nil => exact absurd rfl h1
    | cons y up =>
      rw [List.cons_append] at e
      injection e with e1 e2
      subst e1
      cases up with
      | nil => exact Or.inl ⟨0, by rw [e2]; exact h4⟩
      | cons z up =>
        exact Or.inr ⟨z :: up, lo, _, e2, by simp, h2, h3.2, h4, by omega, h6⟩

/-- The state of a ring whose live records are `rs`. -/
structure Lay (r : Ring) (rs : List Rec) : Prop where
  count : r.head + rs.length = r.tail
  room : rs.length < r.n
  offsLen : r.offs.length = r.n
  segLen : r.seg.length = r.size
  offs : ∀ (j : Nat) (x : Rec), rs[j]? = some x → r.off (r.head + j) = x.start
  bytes : ∀ x ∈ rs, r.seg.read x.start x.bytes.length = .ok x.bytes
  long : ∀ x ∈ rs, 16 ≤ x.bytes.length
  end_le : r.off r.tail ≤ r.size
  cut_le : r.cut ≤ r.size
  shape : Shape rs (r.off r.tail) r.cut r.size

theorem Lay.init (junk : Nat → Nat) {n size : Nat} (hn : 0 < n) : Lay (Ring.init junk n size) [] where
  count := rfl
  room := hn
  offsLen := by simp [Ring.init]
  segLen := by simp [Ring.init]
  offs := by intro j x h; simp at h
  bytes := by simp
  long := by simp
  end_le := by
    have : (Ring.init junk n size).off (Ring.init junk n size).tail = 0 := by
      unfold Ring.off Ring.init
      cases n <;> simp [List.replicate_succ]
    rw [this]; omega
  cut_le := le_refl _
  shape := Or.inl ⟨_, rfl⟩

theorem Lay.inb {r : Ring} {rs : List Rec} (h : Lay r rs) {x : Rec} (hx : x ∈ rs) :
    x.start + x.bytes.length ≤ r.size := by
  have := h.bytes x hx
  unfold Block.read at this
  split at this
  · rename_i hle
    rwa [h.segLen] at hle
  · simp at this

/-- The offset after a live record: its end, or zero when it is the last before the cut. -/
theorem Lay.next {r : Ring} {rs : List Rec} (h : Lay r rs) {j : Nat} {x : Rec} (e : rs[j]? = some x) :
    r.off (r.head + (j + 1)) = x.start + x.bytes.length ∨
    (r.off (r.head + (j + 1)) = 0 ∧ r.cut = x.start + x.bytes.length ∧ 0 < x.start ∧
      j + 1 < rs.length) := by
  have hT : ∀ {k}, k = rs.length → r.off (r.head + k) = r.off r.tail := by
    intro k hk; rw [hk, h.count]
  rcases h.shape with ⟨a, hc⟩ | ⟨up, lo, u, e1, h1, h2, h3, h4, h5, h6⟩
  · left
    rcases hc.next e with ⟨y, hy, h'⟩ | ⟨hj, h'⟩
    · rw [h.offs _ _ hy, h']
    · rw [hT hj, h']
  · have hlen : rs.length = up.length + lo.length := by rw [e1, List.length_append]
    have hlo : 0 < lo.length := List.length_pos_iff.mpr h2
    by_cases hju : j < up.length
    · have eu : up[j]? = some x := by rw [e1, List.getElem?_append_left hju] at e; exact e
      rcases h3.next eu with ⟨y, hy, h'⟩ | ⟨hj, h'⟩
      · left
        have hj1 : j + 1 < up.length := by
          by_contra hc
          rw [List.getElem?_eq_none (by omega)] at hy
          simp at hy
        rw [h.offs (j + 1) y (by rw [e1, List.getElem?_append_left hj1]; exact hy), h']
      · right
        cases lo with
        | nil => exact absurd rfl h2
        | cons z lo =>
          have hz : rs[j+1]? = some z := by
            rw [e1, List.getElem?_append_right (by omega)]
            simp [hj]
          have h0 : z.start = 0 := h4.1
          have hzl := h.long z (by rw [e1]; simp)
          have hle := h4.2.le
          have hxu := (h3.mem x (List.mem_of_getElem? eu)).1
          exact ⟨by rw [h.offs _ _ hz, h0], h', by omega, by omega⟩
    · left
      have el : lo[j - up.length]? = some x := by
        rw [e1, List.getElem?_append_right (by omega)] at e; exact e
      rcases h4.next el with ⟨y, hy, h'⟩ | ⟨hj, h'⟩
      · rw [h.offs (j + 1) y (by
          rw [e1, List.getElem?_append_right (by omega)]
          have : j + 1 - up.length = j - up.length + 1 := by omega
          rw [this]; exact hy), h']
      · rw [hT (by omega), h']

theorem read_split {b : Block} {o : Nat} {l : List Nat} {k : Nat} (h : b.read o l.length = .ok l)
    (hk : k ≤ l.length) : b.read o k = .ok (l.take k) ∧ b.read (o + k) (l.length - k) = .ok (l.drop k) := by
  unfold Block.read at *
  split at h
  · rename_i hle
    rw [Out.ok.injEq] at h
    rw [if_pos (by omega), if_pos (by omega)]
    constructor
    · rw [Out.ok.injEq]
      conv_rhs => rw [← h]
      rw [List.take_take, Nat.min_eq_left hk]
    · rw [Out.ok.injEq]
      conv_rhs => rw [← h]
      rw [List.drop_take, List.drop_drop]
  · simp at h

/-- A live line reads back as written. -/
theorem Lay.readOne {r : Ring} {rs : List Rec} (h : Lay r rs) (hs : r.size < 2 ^ 31) {j : Nat}
    {x : Rec} (e : rs[j]? = some x) :
    r.readOne (r.head + j) = .ok ⟨x.bytes.take 16, x.bytes.drop 16⟩ := by
  have hx := List.mem_of_getElem? e
  have hl := h.long x hx
  have hb := h.inb hx
  obtain ⟨r1, r2⟩ := read_split (h.bytes x hx) hl
  have ho := h.offs j x e
  unfold Ring.readOne
  have hlen : (if r.off (r.head + j) < r.off (r.head + j + 1) then
      r.off (r.head + j + 1) - r.off (r.head + j) else sub32 r.cut (r.off (r.head + j))) =
      x.bytes.length := by
    rw [ho, Nat.add_assoc]
    rcases h.next e with h' | ⟨h0, h1, h2, -⟩
    · rw [h', if_pos (by omega)]; omega
    · rw [h0, if_neg (by omega), h1]
      unfold sub32
      omega
  simp only
  rw [hlen, ho, r1, Out.ok_bind, sub64_le (by omega) hl, r2]
  rfl

/-- Reading from a live record to the tail. -/
theorem Lay.readLoop {r : Ring} {rs : List Rec} (h : Lay r rs) (hs : r.size < 2 ^ 31) : ∀ (k j : Nat),
    j + k = rs.length → ∃ ls, r.readLoop k (r.head + j) = .ok ls ∧
      ls.map (·.1) = List.range' (r.head + j) k ∧
      ls.map (fun p => p.2.ts ++ p.2.text) = (rs.drop j).map (·.bytes) ∧
      ∀ p ∈ ls, p.2.ts.length = 16
  | 0, j, hk => by
    refine ⟨[], rfl, rfl, ?_, by simp⟩
    rw [List.drop_of_length_le (by omega)]; rfl
  | k+1, j, hk => by
    have hj : j < rs.length := by omega
    have e : rs[j]? = some rs[j] := List.getElem?_eq_getElem hj
    obtain ⟨ls, h1, h2, h3, h4⟩ := Lay.readLoop h hs k (j + 1) (by omega)
    have hl := h.long rs[j] (List.getElem_mem hj)
    refine ⟨(r.head + j, ⟨rs[j].bytes.take 16, rs[j].bytes.drop 16⟩) :: ls, ?_, ?_, ?_, ?_⟩
    · rw [Ring.readLoop, h.readOne hs e, Out.ok_bind, Nat.add_assoc, h1]; rfl
    · rw [List.map_cons, h2, List.range'_succ, Nat.add_assoc]
    · rw [List.map_cons, h3, List.drop_eq_getElem_cons hj, List.map_cons, List.take_append_drop]
    · intro p hp
      rcases List.mem_cons.1 hp with rfl | hp
      · simp only [List.length_take]; omega
      · exact h4 p hp

/-- Appending a record after dropping `j` live ones. -/
theorem commit_lay {r r1 : Ring} {rs : List Rec} (h : Lay r rs) (hn : r1.n = r.n)
    (ht : r1.tail = r.tail) (hsz : r1.size = r.size) (hseg : r1.seg = r.seg)
    (hol : r1.offs.length = r.n) (hcut : r1.cut ≤ r.size)
    (ho : ∀ (j : Nat) (x : Rec), rs[j]? = some x → r1.off (r.head + j) = x.start)
    {offset : Nat} (hT : r1.off r.tail = offset) {bytes : List Nat} (hlong : 16 ≤ bytes.length)
    (hfit : offset + bytes.length ≤ r.size) (htail : r.tail + 1 < 2 ^ 31)
    {j : Nat} (hj : j ≤ rs.length)
    (hdis : ∀ x ∈ rs.drop j, x.start + x.bytes.length ≤ offset ∨ offset + bytes.length ≤ x.start)
    (hshape : Shape (rs.drop j ++ [Rec.mk offset bytes]) (offset + bytes.length) r1.cut r.size) :
    ∃ (r' : Ring) (rs' : List Rec), r1.commit (r.head + j) offset bytes = .ok (r', bytes.length) ∧ Lay r' rs' ∧
      r'.n = r.n ∧ r'.size = r.size ∧ r'.tail = r.tail + 1 ∧
      (rs' = rs.drop j ++ [Rec.mk offset bytes] ∨
        (rs.length + 1 - j = r.n ∧ rs' = (rs.drop j ++ [Rec.mk offset bytes]).tail)) ∧
      r'.cut = r1.cut ∧ r'.off r'.tail = offset + bytes.length ∧
      (∀ i, i % r.n ≠ (r.tail + 1) % r.n → r'.off i = r1.off i) := by
  have hc := h.count
  have hroom := h.room
  have hn0 : 0 < r.n := by omega
  -- the write
  have hw : r1.seg.length = r.size := by rw [hseg, h.segLen]
  obtain ⟨seg, hwr, hwl, -, -, -⟩ := Block.write_spec r1.seg offset bytes (by rw [hw]; exact hfit)
  have hwr' : r.seg.write offset bytes = .ok seg := by rw [← hseg]; exact hwr
  -- the slot
  have hnt : toI32 (r.tail + 1) = ((r.tail + 1 : Nat) : Int) := toI32_of_lt htail
  have hslot : i32toU32 (toI32 (r1.tail + 1)) % r1.n = (r.tail + 1) % r.n := by
    rw [ht, hn, hnt, i32toU32_of htail]
  have hnt64 : i32toU64 (toI32 (r1.tail + 1)) = r.tail + 1 := by rw [ht, hnt, i32toU64_of htail]
  set new : Rec := Rec.mk offset bytes with hnew
  set all : List Rec := rs.drop j ++ [new] with hall
  have hallLen : all.length = rs.length - j + 1 := by rw [hall]; simp
  have hslotEq : (r.tail + 1) % r.n = (r.head + j) % r.n ↔ rs.length + 1 - j = r.n := by
    have e1 : r.tail + 1 = (r.head + j) + (rs.length + 1 - j) := by clear * - hc hj; omega
    constructor
    · intro e
      by_contra hne
      rw [e1] at e
      have := slot_inj (h := r.head + j) (i := rs.length + 1 - j) (j := 0)
        (by clear * - hne hj hroom; omega) hn0 (by rw [Nat.add_zero]; exact e)
      clear * - this hj
      omega
    · intro e
      rw [e1, e, Nat.add_mod_right]
  -- the common part: index k of `all` is at head + j + k
  have hoall : ∀ (k : Nat) (x : Rec), all[k]? = some x → r1.off (r.head + j + k) = x.start := by
    intro k x hk
    by_cases hkl : k < rs.length - j
    · rw [hall, List.getElem?_append_left (by simpa using hkl), List.getElem?_drop] at hk
      rw [Nat.add_assoc]
      exact ho _ _ hk
    · rw [hall, List.getElem?_append_right (by simpa using hkl)] at hk
      have hk0 : k - (rs.drop j).length = 0 := by
        by_contra hne
        rw [List.getElem?_eq_none (by simp only [List.length_singleton]; clear * - hne; omega)] at hk
        simp at hk
      rw [hk0] at hk
      simp only [List.getElem?_cons_zero, Option.some.injEq] at hk
      subst hk
      have : r.head + j + k = r.tail := by simp at hk0 hkl; clear * - hk0 hkl hc hj; omega
      rw [this, hT]
  have hball : ∀ x ∈ all, seg.read x.start x.bytes.length = .ok x.bytes := by
    intro x hx
    rw [hall, List.mem_append, List.mem_singleton] at hx
    rcases hx with hx | rfl
    · rcases hdis x hx with hd | hd
      · rw [Block.read_write_before hwr' hd]
        exact h.bytes x (List.mem_of_mem_drop hx)
      · rw [read_write_after hwr' hd]
        exact h.bytes x (List.mem_of_mem_drop hx)
    · exact Block.read_write_same hwr'
  have hlall : ∀ x ∈ all, 16 ≤ x.bytes.length := by
    intro x hx
    rw [hall, List.mem_append, List.mem_singleton] at hx
    rcases hx with hx | rfl
    · exact h.long x (List.mem_of_mem_drop hx)
    · exact hlong
  clear_value all
  by_cases hfull : rs.length + 1 - j = r.n
  · obtain ⟨r', hr'⟩ : ∃ r' : Ring, r' = { r1 with head := r.head + j + 1, offs := r1.offs.set ((r.tail + 1) % r.n) (offset + bytes.length), seg := seg, tail := r.tail + 1 } := ⟨_, rfl⟩
    have f1 : r'.head = r.head + j + 1 := by rw [hr']
    have f2 : r'.tail = r.tail + 1 := by rw [hr']
    have f3 : r'.n = r1.n := by rw [hr']
    have f4 : r'.size = r1.size := by rw [hr']
    have f5 : r'.cut = r1.cut := by rw [hr']
    have f6 : r'.seg = seg := by rw [hr']
    have f7 : r'.offs = r1.offs.set ((r.tail + 1) % r.n) (offset + bytes.length) := by rw [hr']
    have hoT : r'.off (r.tail + 1) = offset + bytes.length :=
      off_set_eq (r := r1) (r' := r') (i := r.tail + 1) (by rw [hn]; exact f7) f3 (by rw [hol, hn])
        (by rw [hn]; exact hn0) rfl
    have hoO : ∀ i, i % r.n ≠ (r.tail + 1) % r.n → r'.off i = r1.off i := fun i hi =>
      off_set_ne (r := r1) (r' := r') (i := r.tail + 1) (by rw [hn]; exact f7) f3 (by rw [hn]; exact hi)
    refine ⟨r', all.tail, ?_, ?_, f3.trans hn, f4.trans hsz, f2, Or.inr ⟨hfull, rfl⟩, f5, f2 ▸ hoT, hoO⟩
    · unfold Ring.commit
      simp only
      have hhead : (if i32toU32 (toI32 (r1.tail + 1)) % r1.n = (r.head + j) % r1.n then r.head + j + 1
          else r.head + j) = r.head + j + 1 := by
        rw [hslot, hn]; exact if_pos (hslotEq.mpr hfull)
      rw [hwr, Out.ok_bind, hhead, hslot, hnt64, hr']
      rfl
    · have htl : all.tail.length = rs.length - j := by rw [List.length_tail, hallLen]; clear * -; omega
      have hcut' : all = all.head (by intro e; rw [e] at hallLen; simp at hallLen) :: all.tail :=
        (List.cons_head_tail _).symm
      refine ⟨?_, ?_, ?_, ?_, ?_, ?_, ?_, ?_, ?_, ?_⟩
      · rw [f1, f2]; clear * - hc hj htl hroom hfull; omega
      · rw [f3, hn]; clear * - hc hj htl hroom hfull; omega
      · rw [f7, f3, List.length_set, hol, hn]
      · rw [f6, f4, hwl, hw, hsz]
      · intro k x hk
        have hk' : all[k+1]? = some x := by rw [hcut', List.getElem?_cons_succ]; exact hk
        have hkl : k < all.tail.length := (List.getElem?_eq_some_iff.mp hk).1
        rw [f1]
        rw [hoO _ (by
          intro e
          have e1 : r.tail + 1 = (r.head + j + 1 + k) + (r.tail - (r.head + j + k)) := by
            clear * - hc hj htl hkl; omega
          rw [e1] at e
          have := slot_inj (h := r.head + j + 1 + k) (i := 0) (j := r.tail - (r.head + j + k)) (n := r.n)
            hn0 (by clear * - hc hj htl hkl hroom hallLen hfull; omega) (by rw [Nat.add_zero]; exact e)
          clear * - this hc hj htl hkl hroom hallLen
          omega)]
        have e2 : r.head + j + 1 + k = r.head + j + (k + 1) := by clear * -; omega
        rw [e2]
        exact hoall (k + 1) x hk'
      · intro x hx
        rw [f6]
        exact hball x (List.mem_of_mem_tail hx)
      · intro x hx
        exact hlall x (List.mem_of_mem_tail hx)
      · rw [f2, hoT, f4, hsz]; exact hfit
      · rw [f5, f4, hsz]; exact hcut
      · rw [f2, hoT, f5, f4, hsz]
        rw [hcut'] at hshape
        exact hshape.tail
  · obtain ⟨r', hr'⟩ : ∃ r' : Ring, r' = { r1 with head := r.head + j, offs := r1.offs.set ((r.tail + 1) % r.n) (offset + bytes.length), seg := seg, tail := r.tail + 1 } := ⟨_, rfl⟩
    have f1 : r'.head = r.head + j := by rw [hr']
    have f2 : r'.tail = r.tail + 1 := by rw [hr']
    have f3 : r'.n = r1.n := by rw [hr']
    have f4 : r'.size = r1.size := by rw [hr']
    have f5 : r'.cut = r1.cut := by rw [hr']
    have f6 : r'.seg = seg := by rw [hr']
    have f7 : r'.offs = r1.offs.set ((r.tail + 1) % r.n) (offset + bytes.length) := by rw [hr']
    have hoT : r'.off (r.tail + 1) = offset + bytes.length :=
      off_set_eq (r := r1) (r' := r') (i := r.tail + 1) (by rw [hn]; exact f7) f3 (by rw [hol, hn])
        (by rw [hn]; exact hn0) rfl
    have hoO : ∀ i, i % r.n ≠ (r.tail + 1) % r.n → r'.off i = r1.off i := fun i hi =>
      off_set_ne (r := r1) (r' := r') (i := r.tail + 1) (by rw [hn]; exact f7) f3 (by rw [hn]; exact hi)
    refine ⟨r', all, ?_, ?_, f3.trans hn, f4.trans hsz, f2, Or.inl rfl, f5, f2 ▸ hoT, hoO⟩
    · unfold Ring.commit
      simp only
      have hhead : (if i32toU32 (toI32 (r1.tail + 1)) % r1.n = (r.head + j) % r1.n then r.head + j + 1
          else r.head + j) = r.head + j := by
        rw [hslot, hn]; exact if_neg (mt hslotEq.mp hfull)
      rw [hwr, Out.ok_bind, hhead, hslot, hnt64, hr']
      rfl
    · refine ⟨?_, ?_, ?_, ?_, ?_, ?_, ?_, ?_, ?_, ?_⟩
      · rw [f1, f2]; clear * - hc hj hallLen hroom hfull; omega
      · rw [f3, hn]; clear * - hc hj hallLen hroom hfull; omega
      · rw [f7, f3, List.length_set, hol, hn]
      · rw [f6, f4, hwl, hw, hsz]
      · intro k x hk
        have hkl : k < all.length := (List.getElem?_eq_some_iff.mp hk).1
        rw [f1]
        rw [hoO _ (by
          intro e
          have e1 : r.tail + 1 = (r.head + j + k) + (r.tail + 1 - (r.head + j + k)) := by
            clear * - hc hj hallLen hkl; omega
          rw [e1] at e
          have := slot_inj (h := r.head + j + k) (i := 0) (j := r.tail + 1 - (r.head + j + k)) (n := r.n)
            hn0 (by clear * - hc hj hallLen hkl hroom hfull; omega) (by rw [Nat.add_zero]; exact e)
          clear * - this hc hj hkl hroom hallLen
          omega)]
        exact hoall k x hk
      · rw [f6]; exact hball
      · exact hlall
      · rw [f2, hoT, f4, hsz]; exact hfit
      · rw [f5, f4, hsz]; exact hcut
      · rw [f2, hoT, f5, f4, hsz]
        exact hshape

/-! ### One write -/

/-- What `place` leaves: the record's position and the ring it is committed to. -/
structure Placed (r r1 : Ring) (rs : List Rec) (offset len : Nat) (att : Int × Int) : Prop where
  n : r1.n = r.n
  head : r1.head = r.head
  tail : r1.tail = r.tail
  size : r1.size = r.size
  seg : r1.seg = r.seg
  offsLen : r1.offs.length = r.n
  cut : r1.cut ≤ r.size
  offs : ∀ (j : Nat) (x : Rec), rs[j]? = some x → r1.off (r.head + j) = x.start
  off : r1.off r.tail = offset
  fit : offset + len ≤ r.size

/-- Without wrapping. -/
theorem place_stay {r : Ring} {rs : List Rec} (h : Lay r rs) {len : Nat}
    (hf : r.off r.tail + len ≤ r.size) :
    ∃ r1, r.place len = (r1, r.off r.tail, (-3, -1)) ∧
      Placed r r1 rs (r.off r.tail) len (-3, -1) ∧ (∀ i, r1.off i = r.off i) ∧
      r1.cut = (if r.off r.tail + len > r.cut then r.size else r.cut) := by
  have hcl := h.cut_le
  obtain ⟨r1, hr1⟩ : ∃ r1 : Ring, r1 = { r with cut := if r.off r.tail + len > r.cut then r.size else r.cut } :=
    ⟨_, rfl⟩
  have ho : ∀ i, r1.off i = r.off i := fun i => off_congr (by rw [hr1]) (by rw [hr1]) i
  have hcut : r1.cut = if r.off r.tail + len > r.cut then r.size else r.cut := by rw [hr1]
  refine ⟨r1, ?_, ⟨by rw [hr1], by rw [hr1], by rw [hr1], by rw [hr1], by rw [hr1], ?_, ?_, ?_, ho _, hf⟩, ho,
    hcut⟩
  · unfold Ring.place
    simp only
    rw [if_neg (Nat.not_lt.mpr hf), hr1]
  · rw [hr1]; exact h.offsLen
  · rw [hcut]
    clear * - hcl
    split <;> omega
  · intro j x hj
    rw [ho]; exact h.offs j x hj

/-- With wrapping. -/
theorem place_wrap {r : Ring} {rs : List Rec} (h : Lay r rs) {len : Nat} (hl : len ≤ r.size)
    (hs : r.size < 2 ^ 30) (hf : r.size < r.off r.tail + len) :
    ∃ r1, r.place len = (r1, 0, (((r.off r.tail : Nat) : Int), ((r.off r.tail + len : Nat) : Int))) ∧
      Placed r r1 rs 0 len (((r.off r.tail : Nat) : Int), ((r.off r.tail + len : Nat) : Int)) ∧
      r1.cut = r.off r.tail ∧ ∀ i, i % r.n ≠ r.tail % r.n → r1.off i = r.off i := by
  have hend := h.end_le
  have hroom := h.room
  obtain ⟨r1, hr1⟩ : ∃ r1 : Ring, r1 = { r with cut := r.off r.tail, offs := r.offs.set (r.tail % r.n) 0 } :=
    ⟨_, rfl⟩
  have hne : ∀ i, i % r.n ≠ r.tail % r.n → r1.off i = r.off i := fun i hi =>
    off_set_ne (i := r.tail) (v := 0) (by rw [hr1]) (by rw [hr1]) hi
  refine ⟨r1, ?_, ⟨by rw [hr1], by rw [hr1], by rw [hr1], by rw [hr1], by rw [hr1], ?_, ?_, ?_, ?_, ?_⟩,
    by rw [hr1], hne⟩
  · unfold Ring.place
    simp only
    rw [if_pos hf, toI32_of_lt (by omega), hr1]
  · rw [hr1]; simp only [List.length_set]; exact h.offsLen
  · rw [hr1]; exact hend
  · intro j x hj
    have hjl := (List.getElem?_eq_some_iff.mp hj).1
    rw [hne _ ?_]
    · exact h.offs j x hj
    · intro e
      have hc := h.count
      rw [← hc] at e
      have := slot_inj (by clear * - hjl hroom; omega) hroom e
      clear * - this hjl
      omega
  · exact off_set_eq (i := r.tail) (v := 0) (by rw [hr1]) (by rw [hr1]) h.offsLen
      (by clear * - hroom; omega) rfl
  · clear * - hl; omega

theorem span_fst {r1 : Ring} {i v : Nat} (h : r1.off i = v) (hv : v < 2 ^ 31) : (r1.span i).1 = v := by
  unfold Ring.span
  rw [h, toI32_of_lt hv]

/-- Outcome of a write: refused without change, refused by the bounds check, or appended after
dropping some of the oldest records. -/
theorem write_step {r : Ring} {rs : List Rec} (h : Lay r rs) (hs : r.size < 2 ^ 30)
    (htail : r.tail + 1 < 2 ^ 31) {bytes : List Nat} (hlong : 16 ≤ bytes.length) :
    (r.size < bytes.length ∧ r.write bytes = .ok (r, 0)) ∨
    (bytes.length ≤ r.size ∧ ∃ r1 offset att, r.place bytes.length = (r1, offset, att) ∧
      Placed r r1 rs offset bytes.length att ∧
      (((∃ r', r.write bytes = .ok (r', 0)) ∧
          ((rs ≠ [] ∧ badSpan (r1.span r.head) att ((offset : Int), ((offset + bytes.length : Nat) : Int)) = true) ∨
            r1.evict att ((offset : Int), ((offset + bytes.length : Nat) : Int)) rs.length r.head = .ok none)) ∨
        ∃ nh j r' rs', r1.evict att ((offset : Int), ((offset + bytes.length : Nat) : Int)) rs.length r.head =
            .ok (some nh) ∧
          nh = r.head + j ∧ j ≤ rs.length ∧
          r.write bytes = .ok (r', bytes.length) ∧ Lay r' rs' ∧ r'.n = r.n ∧ r'.size = r.size ∧
          r'.tail = r.tail + 1 ∧
          (rs' = rs.drop j ++ [Rec.mk offset bytes] ∨
            (rs.length + 1 - j = r.n ∧ rs' = (rs.drop j ++ [Rec.mk offset bytes]).tail)))) := by
  by_cases hbig : r.size < bytes.length
  · refine Or.inl ⟨hbig, ?_⟩
    unfold Ring.write
    rw [if_pos hbig]; rfl
  refine Or.inr ⟨by omega, ?_⟩
  have hc := h.count
  have hroom := h.room
  have hend := h.end_le
  have hn0 : r.n ≠ 0 := by omega
  -- the part after `place`
  have main : ∀ r1 offset att, r.place bytes.length = (r1, offset, att) →
      Placed r r1 rs offset bytes.length att →
      (∀ j, j ≤ rs.length → (∀ x, rs[j]? = some x →
          hits (r1.span (r.head + j)) att ((offset : Int), ((offset + bytes.length : Nat) : Int)) = .ok false) →
        (∀ x ∈ rs.drop j, x.start + x.bytes.length ≤ offset ∨ offset + bytes.length ≤ x.start) ∧
        Shape (rs.drop j ++ [Rec.mk offset bytes]) (offset + bytes.length) r1.cut r.size) →
      ∃ r1 offset att, r.place bytes.length = (r1, offset, att) ∧
      Placed r r1 rs offset bytes.length att ∧
      (((∃ r', r.write bytes = .ok (r', 0)) ∧
          ((rs ≠ [] ∧ badSpan (r1.span r.head) att ((offset : Int), ((offset + bytes.length : Nat) : Int)) = true) ∨
            r1.evict att ((offset : Int), ((offset + bytes.length : Nat) : Int)) rs.length r.head = .ok none)) ∨
        ∃ nh j r' rs', r1.evict att ((offset : Int), ((offset + bytes.length : Nat) : Int)) rs.length r.head =
            .ok (some nh) ∧
          nh = r.head + j ∧ j ≤ rs.length ∧
          r.write bytes = .ok (r', bytes.length) ∧ Lay r' rs' ∧ r'.n = r.n ∧ r'.size = r.size ∧
          r'.tail = r.tail + 1 ∧
          (rs' = rs.drop j ++ [Rec.mk offset bytes] ∨
            (rs.length + 1 - j = r.n ∧ rs' = (rs.drop j ++ [Rec.mk offset bytes]).tail))) := by
    intro r1 offset att hp pl hstop
    refine ⟨r1, offset, att, hp, pl, ?_⟩
    have hfit := pl.fit
    have e1 : toI32 (r1.off r1.tail) = (offset : Int) := by
      rw [pl.tail, pl.off, toI32_of_lt (by clear * - hfit hs; omega)]
    have e2 : toI32 (offset + bytes.length) = ((offset + bytes.length : Nat) : Int) :=
      toI32_of_lt (by clear * - hfit hs; omega)
    have e3 : r1.tail - r1.head = rs.length := by
      rw [pl.tail, pl.head]; clear * - hc; omega
    have hw : r.write bytes = (if r1.head ≠ r1.tail ∧ badSpan (r1.span r1.head) att
          ((offset : Int), ((offset + bytes.length : Nat) : Int)) = true then pure (r1, 0)
        else do
          match ← r1.evict att ((offset : Int), ((offset + bytes.length : Nat) : Int)) rs.length r.head with
          | none => pure (r1, 0)
          | some nh => r1.commit nh offset bytes) := by
      unfold Ring.write
      rw [if_neg hbig, if_neg hn0, hp]
      simp only
      rw [e1, e2, e3, pl.head]
    by_cases hb : r1.head ≠ r1.tail ∧ badSpan (r1.span r1.head) att
          ((offset : Int), ((offset + bytes.length : Nat) : Int)) = true
    · left
      rw [hw, if_pos hb]
      refine ⟨⟨r1, rfl⟩, Or.inl ⟨?_, by rw [← pl.head]; exact hb.2⟩⟩
      intro e
      apply hb.1
      rw [pl.head, pl.tail, ← hc, e]
      rfl
    rw [if_neg hb] at hw
    obtain ⟨o, ho⟩ := evict_ok (r := r1) (att := att)
      (tl := ((offset : Int), ((offset + bytes.length : Nat) : Int))) rs.length r.head (by
        intro h0
        cases hbb : badSpan (r1.span r.head) att ((offset : Int), ((offset + bytes.length : Nat) : Int)) with
        | false => rfl
        | true =>
          exfalso
          apply hb
          rw [pl.head, pl.tail]
          exact ⟨by clear * - hc h0; omega, hbb⟩)
    rw [ho, Out.ok_bind] at hw
    cases o with
    | none =>
      left
      exact ⟨⟨r1, hw⟩, Or.inr ho⟩
    | some nh =>
      right
      obtain ⟨a1, a2, a3⟩ := evict_spec _ _ ho
      obtain ⟨j, rfl⟩ := Nat.exists_eq_add_of_le a1
      have hj : j ≤ rs.length := by clear * - a2; omega
      obtain ⟨hd, hsh⟩ := hstop j hj (by
        intro x hx
        have := (List.getElem?_eq_some_iff.mp hx).1
        exact a3 (by clear * - this; omega))
      obtain ⟨r', rs', c1, c2, c3, c4, c5, c6, -, -, -⟩ := commit_lay h pl.n pl.tail pl.size pl.seg
        pl.offsLen pl.cut pl.offs pl.off hlong pl.fit htail hj hd hsh
      exact ⟨_, j, r', rs', ho, rfl, hj, by rw [hw]; exact c1, c2, c3, c4, c5, c6⟩
  by_cases hwrap : r.size < r.off r.tail + bytes.length
  · obtain ⟨r1, hp, pl, hcut, -⟩ := place_wrap h (Nat.le_of_not_lt hbig) hs hwrap
    refine main _ _ _ hp pl ?_
    intro j hj hhit
    -- a surviving record lies in the current lap and above the new one
    have key : ∀ {a : Nat} {lo : List Rec} (i : Nat), Chain a lo (r.off r.tail) → rs.drop j = lo.drop i →
        i ≤ lo.length →
        (∀ x ∈ rs.drop j, x.start + x.bytes.length ≤ 0 ∨ 0 + bytes.length ≤ x.start) ∧
        Shape (rs.drop j ++ [Rec.mk 0 bytes]) (0 + bytes.length) r1.cut r.size := by
      intro a lo i hch hdr hi
      rw [hdr]
      cases hx : lo[i]? with
      | none =>
        rw [List.getElem?_eq_none_iff] at hx
        rw [List.drop_of_length_le hx]
        exact ⟨by simp, Or.inl ⟨0, rfl, rfl⟩⟩
      | some x =>
        have hil := (List.getElem?_eq_some_iff.mp hx).1
        have hjx : rs[j]? = some x := by
          have : (rs.drop j)[0]? = some x := by rw [hdr, List.getElem?_drop]; exact hx
          rw [List.getElem?_drop] at this
          exact this
        have hxm : x ∈ rs := List.mem_of_getElem? hjx
        have hin := h.inb hxm
        have hf := hits_false (hhit x hjx)
        rw [span_fst (pl.offs j x hjx) (by clear * - hin hs; omega)] at hf
        have hge : bytes.length ≤ x.start := by
          have := hf.2
          clear * - this
          omega
        have hch' := hch.drop i hx
        refine ⟨?_, Or.inr ⟨lo.drop i, [Rec.mk 0 bytes], x.start, rfl, ?_, by simp, ?_, ⟨rfl, rfl⟩, ?_, ?_⟩⟩
        · intro y hy
          right
          have := (hch'.mem y hy).1
          clear * - this hge
          omega
        · intro e
          have := congrArg List.length e
          rw [List.length_drop, List.length_nil] at this
          clear * - this hil
          omega
        · rw [hcut]; exact hch'
        · clear * - hge; omega
        · rw [hcut]; exact hend
    rcases h.shape with ⟨a, hch⟩ | ⟨up, lo, u, e, h1, h2, h3, h4, h5, h6⟩
    · exact key j hch rfl hj
    · by_cases hju : up.length ≤ j
      · refine key (j - up.length) h4 ?_ ?_
        · rw [e, List.drop_append, List.drop_of_length_le hju, List.nil_append]
        · rw [e, List.length_append] at hj
          clear * - hj
          omega
      · exfalso
        have hju' : j < up.length := Nat.lt_of_not_le hju
        have hjx : rs[j]? = some up[j] := by
          rw [e, List.getElem?_append_left hju', List.getElem?_eq_getElem hju']
        have hxm : up[j] ∈ rs := List.mem_of_getElem? hjx
        have hin := h.inb hxm
        have hlg := h.long _ hxm
        have hf := hits_false (hhit _ hjx)
        rw [span_fst (pl.offs j _ hjx) (by clear * - hin hs; omega)] at hf
        have hge := (h3.mem _ (List.getElem_mem hju')).1
        have := hf.1
        clear * - this hge h5 hin hwrap hlg
        omega
  · have hfit : r.off r.tail + bytes.length ≤ r.size := Nat.le_of_not_lt hwrap
    obtain ⟨r1, hp, pl, -, hcut⟩ := place_stay h hfit
    refine main _ _ _ hp pl ?_
    intro j hj hhit
    rcases h.shape with ⟨a, hch⟩ | ⟨up, lo, u, e, h1, h2, h3, h4, h5, h6⟩
    · obtain ⟨a', hch'⟩ := hch.drop' j
      exact ⟨fun x hx => Or.inl (hch'.mem x hx).2, Or.inl ⟨a', hch'.append ⟨rfl, rfl⟩⟩⟩
    · by_cases hju : up.length ≤ j
      · have hdr : rs.drop j = lo.drop (j - up.length) := by
          rw [e, List.drop_append, List.drop_of_length_le hju, List.nil_append]
        obtain ⟨a', hch'⟩ := h4.drop' (j - up.length)
        rw [hdr]
        exact ⟨fun x hx => Or.inl (hch'.mem x hx).2, Or.inl ⟨a', hch'.append ⟨rfl, rfl⟩⟩⟩
      · have hju' : j < up.length := Nat.lt_of_not_le hju
        have hjx : rs[j]? = some up[j] := by
          rw [e, List.getElem?_append_left hju', List.getElem?_eq_getElem hju']
        have hxm : up[j] ∈ rs := List.mem_of_getElem? hjx
        have hin := h.inb hxm
        have hlg := h.long _ hxm
        have hf := hits_false (hhit _ hjx)
        rw [span_fst (pl.offs j _ hjx) (by clear * - hin hs; omega)] at hf
        have hmm := h3.mem _ (List.getElem_mem hju')
        have hge : r.off r.tail + bytes.length ≤ up[j].start := by
          have := hf.2
          clear * - this hmm h5
          omega
        have hcut' : r1.cut = r.cut := by
          rw [hcut, if_neg]
          clear * - hge hmm hlg
          omega
        have hdr : rs.drop j = up.drop j ++ lo := by
          rw [e, List.drop_append]
          have : j - up.length = 0 := by clear * - hju'; omega
          rw [this, List.drop_zero]
        have hch' := h3.drop j (List.getElem?_eq_getElem hju')
        rw [hdr]
        refine ⟨?_, Or.inr ⟨up.drop j, lo ++ [Rec.mk (r.off r.tail) bytes], up[j].start, by simp, ?_, by simp,
          by rw [hcut']; exact hch', h4.append ⟨rfl, rfl⟩, hge, by rw [hcut']; exact h6⟩⟩
        · intro x hx
          rcases List.mem_append.1 hx with hx | hx
          · right
            have := (hch'.mem x hx).1
            clear * - this hge
            omega
          · exact Or.inl (h4.mem x hx).2
        · intro e'
          have := congrArg List.length e'
          rw [List.length_drop, List.length_nil] at this
          clear * - this hju'
          omega

/-- The loop goes no further than the first record in nobody's way. -/
theorem evict_le {r : Ring} {att tl : Int × Int} : ∀ (i k nh : Nat), i < k →
    (∀ m, m ≤ i → badSpan (r.span (nh + m)) att tl = false) →
    hits (r.span (nh + i)) att tl = .ok false →
    ∃ nh', r.evict att tl k nh = .ok (some nh') ∧ nh' ≤ nh + i := by
  intro i
  induction i with
  | zero =>
    intro k nh hk _ hh
    obtain ⟨k, rfl⟩ : ∃ k', k = k' + 1 := ⟨k - 1, by omega⟩
    refine ⟨nh, ?_, by omega⟩
    rw [Nat.add_zero] at hh
    rw [Ring.evict, hh, Out.ok_bind]
    rfl
  | succ i ih =>
    intro k nh hk hb hh
    obtain ⟨k, rfl⟩ : ∃ k', k = k' + 1 := ⟨k - 1, by omega⟩
    obtain ⟨b, hb0, -⟩ := hits_ok (hb 0 (by omega))
    rw [Nat.add_zero] at hb0
    rw [Ring.evict, hb0, Out.ok_bind]
    cases b with
    | false => exact ⟨nh, rfl, by omega⟩
    | true =>
      have e1 : nh + (i + 1) = nh + 1 + i := by omega
      rw [e1] at hh
      obtain ⟨nh', e, hle⟩ := ih k (nh + 1) (by omega) (fun m hm => by
        have := hb (m + 1) (by omega)
        rwa [show nh + (m + 1) = nh + 1 + m by omega] at this) hh
      refine ⟨nh', ?_, by omega⟩
      simp only [if_true]
      rw [hb 1 (by omega)]
      exact e

/-- The range of a record whose successor is where it should be. -/
theorem span_next {r1 : Ring} {i st len : Nat} (h1 : r1.off i = st)
    (h2 : r1.off (i + 1) = st + len ∨ (r1.off (i + 1) = 0 ∧ 0 < st)) (hb : st + len ≤ r1.size)
    (hs : r1.size < 2 ^ 30) :
    ∃ e : Nat, r1.span i = ((st : Int), (e : Int)) ∧ st + len ≤ e ∧
      (r1.off (i + 1) = st + len → e = st + len) := by
  unfold Ring.span
  have a1 : toI32 st = (st : Int) := toI32_of_lt (by omega)
  have a2 : toI32 r1.size = (r1.size : Int) := toI32_of_lt (by omega)
  rcases h2 with h2 | ⟨h2, h3⟩
  · refine ⟨st + len, ?_, le_refl _, fun _ => rfl⟩
    have a3 : toI32 (st + len) = ((st + len : Nat) : Int) := toI32_of_lt (by omega)
    simp only [h1, h2]
    rw [a1, a3, if_neg (by omega)]
  · refine ⟨r1.size, ?_, hb, fun h => by omega⟩
    have a3 : toI32 0 = 0 := by have := toI32_of_lt (x := 0) (by omega); simpa using this
    simp only [h1, h2]
    rw [a1, a3, a2, if_pos (by omega)]

theorem not_bad {sp att tl : Int × Int} (h1 : sp.1 < sp.2 - 1) (h2 : att.1 < att.2 - 1)
    (h3 : tl.1 < tl.2 - 1) : badSpan sp att tl = false := by
  unfold badSpan
  rw [decide_eq_false_iff_not]
  omega

/-- `off` depends on the slot only. -/
theorem off_slot {r : Ring} {i j : Nat} (h : i % r.n = j % r.n) : r.off i = r.off j := by
  unfold Ring.off; rw [h]

/-- The invariant when all lines are at most a quarter of the segment. -/
structure Small (r : Ring) (rs : List Rec) : Prop where
  lay : Lay r rs
  small : ∀ x ∈ rs, 4 * x.bytes.length ≤ r.size
  live : min 2 (min (r.n - 1) r.tail) ≤ rs.length
  grow : 4 * r.off r.tail ≤ r.tail * r.size

theorem Small.init (junk : Nat → Nat) {n size : Nat} (hn : 0 < n) : Small (Ring.init junk n size) [] where
  lay := Lay.init junk hn
  small := by simp
  live := by simp [Ring.init]
  grow := by
    have : (Ring.init junk n size).off (Ring.init junk n size).tail = 0 := by
      unfold Ring.off Ring.init
      cases n <;> simp [List.replicate_succ]
    rw [this]; omega

/-- What is left after an accepted write. -/
theorem small_after {r r' : Ring} {rs rs' : List Rec} {j offset : Nat} {bytes : List Nat} (h : Small r rs)
    (hsm : 4 * bytes.length ≤ r.size) (hn : r'.n = r.n) (hsz : r'.size = r.size)
    (ht : r'.tail = r.tail + 1) (hl : Lay r' rs') (hj : j ≤ rs.length)
    (hlive : min 2 (min (r.n - 1) (r.tail + 1)) ≤ min (rs.length - j + 1) (r.n - 1))
    (hoff : 4 * r'.off r'.tail ≤ (r.tail + 1) * r.size)
    (hrs : rs' = rs.drop j ++ [Rec.mk offset bytes] ∨
        (rs.length + 1 - j = r.n ∧ rs' = (rs.drop j ++ [Rec.mk offset bytes]).tail)) : Small r' rs' where
  lay := hl
  small := by
    have key : ∀ x ∈ rs.drop j ++ [Rec.mk offset bytes], 4 * x.bytes.length ≤ r.size := by
      intro x hx
      rw [List.mem_append, List.mem_singleton] at hx
      rcases hx with hx | rfl
      · exact h.small x (List.mem_of_mem_drop hx)
      · exact hsm
    rw [hsz]
    rcases hrs with rfl | ⟨-, rfl⟩
    · exact key
    · exact fun x hx => key x (List.mem_of_mem_tail hx)
  live := by
    have hroom := h.lay.room
    rw [hn, ht]
    refine le_trans hlive ?_
    rcases hrs with rfl | ⟨e, rfl⟩
    · rw [List.length_append, List.length_drop, List.length_singleton]
      clear * -
      omega
    · rw [List.length_tail, List.length_append, List.length_drop, List.length_singleton]
      clear * - e hj
      omega
  grow := by rw [ht, hsz] at *; exact hoff

/-- A small line is always accepted. -/
theorem write_small {r : Ring} {rs : List Rec} (h : Small r rs) (hs : r.size < 2 ^ 30)
    (htail : r.tail + 1 < 2 ^ 31) {bytes : List Nat} (hlong : 16 ≤ bytes.length)
    (hsm : 4 * bytes.length ≤ r.size) :
    ∃ r' rs' j offset, r.write bytes = .ok (r', bytes.length) ∧ Small r' rs' ∧ j ≤ rs.length ∧
      r'.n = r.n ∧ r'.size = r.size ∧ r'.tail = r.tail + 1 ∧
      (rs' = rs.drop j ++ [Rec.mk offset bytes] ∨ rs' = (rs.drop j ++ [Rec.mk offset bytes]).tail) := by
  have hc := h.lay.count
  have hroom := h.lay.room
  have hend := h.lay.end_le
  have hgrow := h.grow
  have hlive := h.live
  rcases write_step h.lay hs htail hlong with ⟨hbig, -⟩ | ⟨-, r1, offset, att, hp, pl, hres⟩
  · exfalso; clear * - hbig hsm hlong; omega
  -- it is enough that the eviction loop does not bail out, and where it stops
  have fin : (rs ≠ [] → badSpan (r1.span r.head) att ((offset : Int), ((offset + bytes.length : Nat) : Int)) = false) →
      (∃ nh', r1.evict att ((offset : Int), ((offset + bytes.length : Nat) : Int)) rs.length r.head = .ok (some nh') ∧
        min 2 (min (r.n - 1) (r.tail + 1)) ≤ min (r.head + rs.length - nh' + 1) (r.n - 1)) →
      4 * (offset + bytes.length) ≤ (r.tail + 1) * r.size →
      ∃ r' rs' j offset, r.write bytes = .ok (r', bytes.length) ∧ Small r' rs' ∧ j ≤ rs.length ∧
      r'.n = r.n ∧ r'.size = r.size ∧ r'.tail = r.tail + 1 ∧
      (rs' = rs.drop j ++ [Rec.mk offset bytes] ∨ rs' = (rs.drop j ++ [Rec.mk offset bytes]).tail) := by
    rintro hb ⟨nh', he, hl⟩ hg
    rcases hres with ⟨-, ⟨hne, hbad⟩ | hno⟩ | ⟨nh, j, r', rs', he', rfl, hj, hw, hlay, hn, hsz, ht, hrs⟩
    · rw [hb hne] at hbad; simp at hbad
    · rw [hno] at he; simp at he
    · rw [he'] at he
      simp only [Out.ok.injEq, Option.some.injEq] at he
      subst he
      have hoff : r'.off r'.tail = offset + bytes.length := by
        -- the end of the last record
        have hlast : ∃ i, rs'[i]? = some (Rec.mk offset bytes) ∧ i + 1 = rs'.length ∨ rs' = [] := by
          rcases hrs with e | ⟨e, e'⟩
          · exact ⟨(rs.drop j).length, Or.inl ⟨by rw [e]; simp, by rw [e]; simp⟩⟩
          · cases hd : rs.drop j with
            | nil => exact ⟨0, Or.inr (by rw [e', hd]; rfl)⟩
            | cons y ys =>
              exact ⟨ys.length, Or.inl ⟨by rw [e', hd]; simp, by rw [e', hd]; simp⟩⟩
        obtain ⟨i, ⟨hi, hil⟩ | hnil⟩ := hlast
        · rcases hlay.next hi with h' | ⟨-, -, -, h'⟩
          · rw [hil, hlay.count] at h'
            exact h'
          · exfalso; clear * - h' hil; omega
        · -- only with a single slot
          have hn1 : r.n = 1 := by
            rcases hrs with e | ⟨e, e'⟩
            · rw [e] at hnil; simp at hnil
            · rw [hnil] at e'
              have := congrArg List.length e'
              rw [List.length_tail, List.length_append, List.length_drop, List.length_singleton,
                List.length_nil] at this
              clear * - this e hj
              omega
          have : r1.commit (r.head + j) offset bytes = .ok (r', bytes.length) := by
            obtain ⟨r1', offset', att', hp', -, -⟩ : ∃ a b c, r.place bytes.length = (a, b, c) ∧ True ∧ True :=
              ⟨r1, offset, att, hp, trivial, trivial⟩
            have hfit := pl.fit
            have e1 : toI32 (r1.off r1.tail) = (offset : Int) := by
              rw [pl.tail, pl.off, toI32_of_lt (by clear * - hfit hs; omega)]
            have e2 : toI32 (offset + bytes.length) = ((offset + bytes.length : Nat) : Int) :=
              toI32_of_lt (by clear * - hfit hs; omega)
            have e3 : r1.tail - r1.head = rs.length := by
              rw [pl.tail, pl.head]; clear * - hc; omega
            unfold Ring.write at hw
            rw [if_neg (by clear * - hsm hlong; omega), if_neg (by clear * - hn1; omega), hp] at hw
            simp only at hw
            rw [e1, e2, e3, pl.head, he', Out.ok_bind] at hw
            split at hw
            · simp only [Out.pure_eq, Out.ok.injEq, Prod.mk.injEq] at hw
              have := hw.2
              exfalso; clear * - this hlong; omega
            · exact hw
          unfold Ring.commit at this
          simp only at this
          cases hwr : r1.seg.write offset bytes with
          | ok sg =>
            rw [hwr, Out.ok_bind] at this
            simp only [Out.pure_eq, Out.ok.injEq, Prod.mk.injEq, and_true] at this
            rw [← this]
            have hol := pl.offsLen
            rw [hn1] at hol
            unfold Ring.off
            simp only [pl.n, hn1, Nat.mod_one]
            cases ho : r1.offs with
            | nil => rw [ho] at hol; simp at hol
            | cons a as => simp
          | ub => rw [hwr, Out.ub_bind] at this; simp at this
          | abort => rw [hwr, Out.abort_bind] at this; simp at this
      refine ⟨r', rs', j, offset, hw, ?_, hj, hn, hsz, ht, ?_⟩
      · refine small_after h hsm hn hsz ht hlay hj ?_ (by rw [hoff]; exact hg) hrs
        refine le_trans hl ?_
        clear * - hj
        omega
      · rcases hrs with e | ⟨-, e⟩
        · exact Or.inl e
        · exact Or.inr e
  have hmul : (r.tail + 1) * r.size = r.tail * r.size + r.size := by ring
  by_cases hwrap : r.size < r.off r.tail + bytes.length
  · obtain ⟨r1', hp', pl', hcut, hoff⟩ := place_wrap h.lay (by clear * - hsm; omega) hs hwrap
    rw [hp'] at hp
    injection hp with q1 q2
    injection q2 with q2 q3
    subst q1 q2 q3
    have hg : 4 * (0 + bytes.length) ≤ (r.tail + 1) * r.size := by
      rw [hmul]; clear * - hsm; have := Nat.zero_le (r.tail * r.size); omega
    by_cases hrs0 : rs = []
    · refine fin (fun hne => absurd hrs0 hne) ⟨r.head, ?_, ?_⟩ hg
      · rw [hrs0]; rfl
      · rw [hrs0] at hlive hc ⊢
        simp only [List.length_nil] at hlive hc ⊢
        clear * - hlive hc
        omega
    -- the last record
    have hpos : 0 < rs.length := List.length_pos_iff.mpr hrs0
    obtain ⟨x, hx⟩ : ∃ x, rs[rs.length - 1]? = some x :=
      ⟨_, List.getElem?_eq_getElem (by clear * - hpos; omega)⟩
    have hxm := List.mem_of_getElem? hx
    have hxT : r.off r.tail = x.start + x.bytes.length := by
      rcases h.lay.next hx with h' | ⟨-, -, -, h'⟩
      · rw [show rs.length - 1 + 1 = rs.length by clear * - hpos; omega, hc] at h'
        exact h'
      · exfalso; clear * - h' hpos; omega
    have hxs := h.small x hxm
    have hx0 : r.size < 2 * x.start := by clear * - hxT hxs hwrap hsm; omega
    have hx0' : 0 < x.start := by clear * - hx0; omega
    -- the successors in the new ring
    have hnext : ∀ (j : Nat) (y : Rec), rs[j]? = some y →
        r1'.off (r.head + j + 1) = y.start + y.bytes.length ∨ (r1'.off (r.head + j + 1) = 0 ∧ 0 < y.start) := by
      intro j y hy
      have hjl := (List.getElem?_eq_some_iff.mp hy).1
      by_cases hjl' : j + 1 < rs.length
      · have hne : (r.head + j + 1) % r.n ≠ r.tail % r.n := by
          intro e
          rw [← hc, Nat.add_assoc] at e
          have := slot_inj (by clear * - hjl hroom; omega) hroom e
          clear * - this hjl'
          omega
        rw [hoff _ hne]
        rcases h.lay.next hy with h' | ⟨h', -, h0, -⟩
        · exact Or.inl h'
        · exact Or.inr ⟨h', h0⟩
      · right
        have e : j = rs.length - 1 := by clear * - hjl hjl'; omega
        rw [e, hx] at hy
        injection hy with hy
        subst hy
        refine ⟨?_, hx0'⟩
        rw [show r.head + j + 1 = r.tail by clear * - hc e hpos; omega, pl.off]
    have hspan : ∀ (j : Nat) (y : Rec), rs[j]? = some y →
        ∃ e : Nat, r1'.span (r.head + j) = ((y.start : Int), (e : Int)) ∧ y.start + y.bytes.length ≤ e ∧
          (r1'.off (r.head + j + 1) = y.start + y.bytes.length → e = y.start + y.bytes.length) := by
      intro j y hy
      exact span_next (pl.offs j y hy) (hnext j y hy) (by rw [pl.size]; exact h.lay.inb (List.mem_of_getElem? hy))
        (by rw [pl.size]; exact hs)
    have hnb : ∀ j, j < rs.length → badSpan (r1'.span (r.head + j))
        (((r.off r.tail : Nat) : Int), ((r.off r.tail + bytes.length : Nat) : Int))
        (((0 : Nat) : Int), ((0 + bytes.length : Nat) : Int)) = false := by
      intro j hj
      have hy := List.getElem?_eq_getElem hj
      obtain ⟨e, he, hle, -⟩ := hspan j _ hy
      have hlg := h.lay.long _ (List.getElem_mem hj)
      rw [he]
      refine not_bad ?_ ?_ ?_ <;> simp only <;> clear * - hle hlg hlong <;> omega
    refine fin (fun _ => hnb 0 hpos) ?_ hg
    by_cases hcnt : 2 ≤ rs.length
    · obtain ⟨y, hy⟩ : ∃ y, rs[rs.length - 2]? = some y :=
        ⟨_, List.getElem?_eq_getElem (by clear * - hcnt; omega)⟩
      have hym := List.mem_of_getElem? hy
      have hys := h.small y hym
      have hyl := h.lay.long y hym
      have hxo : r.off (r.head + (rs.length - 2 + 1)) = x.start := by
        rw [show rs.length - 2 + 1 = rs.length - 1 by clear * - hcnt; omega]
        exact h.lay.offs _ _ hx
      have hyx : x.start = y.start + y.bytes.length := by
        rcases h.lay.next hy with h' | ⟨h', -, -, -⟩
        · rw [hxo] at h'; exact h'
        · rw [hxo] at h'; exfalso; clear * - h' hx0'; omega
      have hne : (r.head + (rs.length - 2) + 1) % r.n ≠ r.tail % r.n := by
        intro e
        rw [← hc, Nat.add_assoc] at e
        have := slot_inj (by clear * - hcnt hroom; omega) hroom e
        clear * - this hcnt
        omega
      have hyo : r1'.off (r.head + (rs.length - 2) + 1) = y.start + y.bytes.length := by
        rw [hoff _ hne, Nat.add_assoc, hxo, hyx]
      obtain ⟨e, he, hle, hee⟩ := hspan _ _ hy
      have hee := hee hyo
      have hh : hits (r1'.span (r.head + (rs.length - 2)))
          (((r.off r.tail : Nat) : Int), ((r.off r.tail + bytes.length : Nat) : Int))
          (((0 : Nat) : Int), ((0 + bytes.length : Nat) : Int)) = .ok false := by
        obtain ⟨b, hb, hb'⟩ := hits_ok (hnb (rs.length - 2) (by clear * - hcnt; omega))
        cases b with
        | false => exact hb
        | true =>
          exfalso
          have := hb'.mp rfl
          rw [he] at this
          simp only at this
          clear * - this hee hxT hyx hwrap hsm hx0 hys hyl
          omega
      obtain ⟨nh', e1, e2⟩ := evict_le (rs.length - 2) rs.length r.head (by clear * - hcnt; omega)
        (fun m hm => hnb m (by clear * - hm hcnt; omega)) hh
      refine ⟨nh', e1, ?_⟩
      clear * - e2 hcnt
      omega
    · have h1 : rs.length = 1 := by clear * - hpos hcnt; omega
      have hn2 : r.n = 2 := by
        rw [h1] at hlive hroom
        by_contra hne
        have ht1 : r.tail = 1 := by clear * - hlive hroom hne hc h1; omega
        rw [ht1] at hgrow
        have hT := hwrap
        rw [ht1] at hT
        clear * - hgrow hT hsm hlong
        omega
      have hbt : badSpan (r1'.span (r.head + 1))
          (((r.off r.tail : Nat) : Int), ((r.off r.tail + bytes.length : Nat) : Int))
          (((0 : Nat) : Int), ((0 + bytes.length : Nat) : Int)) = false := by
        have e0 : r1'.off (r.head + 1) = 0 := by
          rw [show r.head + 1 = r.tail by clear * - hc h1; omega]; exact pl.off
        have e1 : r1'.off (r.head + 1 + 1) = x.start := by
          have hx' : rs[0]? = some x := by rw [h1] at hx; exact hx
          have := pl.offs 0 x hx'
          rw [← this]
          apply off_slot
          rw [pl.n, hn2]
          clear * -
          omega
        have hxi := h.lay.inb hxm
        unfold Ring.span
        simp only [e0, e1]
        rw [toI32_of_lt (x := 0) (by clear * -; omega), toI32_of_lt (x := x.start) (by clear * - hs hxi; omega),
          if_neg (by clear * - hx0'; omega)]
        refine not_bad ?_ ?_ ?_ <;> simp only <;> clear * - hlong hx0 hsm <;> omega
      obtain ⟨b, hb, -⟩ := hits_ok (hnb 0 hpos)
      rw [Nat.add_zero] at hb
      have hstop : ∃ nh', r1'.evict (((r.off r.tail : Nat) : Int), ((r.off r.tail + bytes.length : Nat) : Int))
          (((0 : Nat) : Int), ((0 + bytes.length : Nat) : Int)) rs.length r.head = .ok (some nh') ∧
          nh' ≤ r.head + 1 := by
        rw [h1, Ring.evict, hb, Out.ok_bind]
        cases b with
        | false => exact ⟨_, rfl, by clear * -; omega⟩
        | true =>
          simp only [if_true]
          rw [hbt]
          exact ⟨_, rfl, le_refl _⟩
      obtain ⟨nh', e1, e2⟩ := hstop
      refine ⟨nh', e1, ?_⟩
      clear * - e2 h1 hn2
      omega
  · have hfit : r.off r.tail + bytes.length ≤ r.size := Nat.le_of_not_lt hwrap
    obtain ⟨r1', hp', pl', hoff, -⟩ := place_stay h.lay hfit
    rw [hp'] at hp
    injection hp with q1 q2
    injection q2 with q2 q3
    subst q1 q2 q3
    have hg : 4 * (r.off r.tail + bytes.length) ≤ (r.tail + 1) * r.size := by
      rw [hmul]; clear * - hsm hgrow; omega
    by_cases hrs0 : rs = []
    · refine fin (fun hne => absurd hrs0 hne) ⟨r.head, ?_, ?_⟩ hg
      · rw [hrs0]; rfl
      · rw [hrs0] at hlive hc ⊢
        simp only [List.length_nil] at hlive hc ⊢
        clear * - hlive hc
        omega
    have hpos : 0 < rs.length := List.length_pos_iff.mpr hrs0
    have hspan : ∀ (j : Nat) (y : Rec), rs[j]? = some y →
        ∃ e : Nat, r1'.span (r.head + j) = ((y.start : Int), (e : Int)) ∧ y.start + y.bytes.length ≤ e ∧
          (r1'.off (r.head + j + 1) = y.start + y.bytes.length → e = y.start + y.bytes.length) := by
      intro j y hy
      refine span_next (pl.offs j y hy) ?_ (by rw [pl.size]; exact h.lay.inb (List.mem_of_getElem? hy))
        (by rw [pl.size]; exact hs)
      rw [hoff]
      rcases h.lay.next hy with h' | ⟨h', -, h0, -⟩
      · exact Or.inl h'
      · exact Or.inr ⟨h', h0⟩
    have hnb : ∀ j, j < rs.length → badSpan (r1'.span (r.head + j)) (-3, -1)
        (((r.off r.tail : Nat) : Int), ((r.off r.tail + bytes.length : Nat) : Int)) = false := by
      intro j hj
      have hy := List.getElem?_eq_getElem hj
      obtain ⟨e, he, hle, -⟩ := hspan j _ hy
      have hlg := h.lay.long _ (List.getElem_mem hj)
      rw [he]
      refine not_bad ?_ ?_ ?_ <;> simp only <;> clear * - hle hlg hlong <;> omega
    refine fin (fun _ => hnb 0 hpos) ?_ hg
    -- the first record of the current lap is in nobody's way
    have hz : ∃ (i : Nat) (z : Rec), i < rs.length ∧ rs[i]? = some z ∧
        r.off (r.head + i + 1) = z.start + z.bytes.length ∧ z.start + z.bytes.length ≤ r.off r.tail := by
      rcases h.lay.shape with ⟨a, hch⟩ | ⟨up, lo, u, e, h1, h2, h3, h4, h5, h6⟩
      · have hy := List.getElem?_eq_getElem hpos
        refine ⟨0, rs[0], hpos, hy, ?_, (hch.mem _ (List.getElem_mem hpos)).2⟩
        rcases hch.next hy with ⟨w, hw, h'⟩ | ⟨hw, h'⟩
        · have := h.lay.offs 1 w hw
          rw [Nat.add_zero, this, h']
        · rw [Nat.add_zero, show r.head + 1 = r.tail by clear * - hc hw; omega, h']
      · have hlp : 0 < lo.length := List.length_pos_iff.mpr h2
        have hy := List.getElem?_eq_getElem hlp
        have hlen : rs.length = up.length + lo.length := by rw [e, List.length_append]
        refine ⟨up.length, lo[0], by clear * - hlen hlp; omega, ?_, ?_, (h4.mem _ (List.getElem_mem hlp)).2⟩
        · rw [e, List.getElem?_append_right (le_refl _), Nat.sub_self]; exact hy
        · rcases h4.next hy with ⟨w, hw, h'⟩ | ⟨hw, h'⟩
          · have := h.lay.offs (up.length + 1) w (by
              rw [e, List.getElem?_append_right (by clear * -; omega),
                show up.length + 1 - up.length = 0 + 1 by clear * -; omega]
              exact hw)
            rw [Nat.add_assoc, this, h']
          · rw [show r.head + up.length + 1 = r.tail by clear * - hc hw hlen; omega, h']
    obtain ⟨i, z, hil, hzi, hzo, hzT⟩ := hz
    have hzl := h.lay.long z (List.mem_of_getElem? hzi)
    obtain ⟨e, he, hle, hee⟩ := hspan _ _ hzi
    have hee := hee (by rw [hoff]; exact hzo)
    have hh : hits (r1'.span (r.head + i)) (-3, -1)
        (((r.off r.tail : Nat) : Int), ((r.off r.tail + bytes.length : Nat) : Int)) = .ok false := by
      obtain ⟨b, hb, hb'⟩ := hits_ok (hnb i hil)
      cases b with
      | false => exact hb
      | true =>
        exfalso
        have := hb'.mp rfl
        rw [he] at this
        simp only at this
        clear * - this hee hzT hzl
        omega
    obtain ⟨nh', e1, e2⟩ := evict_le i rs.length r.head hil
      (fun m hm => hnb m (by clear * - hm hil; omega)) hh
    refine ⟨nh', e1, ?_⟩
    clear * - e2 hil
    omega

end Mtev.LogRing
