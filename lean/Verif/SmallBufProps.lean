import Verif.SmallBuf

/-!
C166: maybe buffers.  C167: the buffer JSON is printed to.
-/

namespace Mtev.SmallBuf

/-! ### C166 -/

/-- The bytes known of an array: those written last; the first element, of `w`
    bytes, is zero at first. -/
def known (w : Nat) (us : List Use) (j : Nat) : Option Nat :=
  us.foldl (fun k u => match u with
    | .grow _ _ => k
    | .put i v => if j = i then some v else k) (if j < w then some 0 else none)

/-- The bytes a caller may use: as many as declared, or asked for since. -/
def allowed (w cnt : Nat) (us : List Use) : Nat :=
  us.foldl (fun n u => match u with
    | .grow c _ => max n (c * w)
    | .put _ _ => n) (w * cnt)

/-- Callers who write only where they may, and ask for less than 2^64 bytes. -/
def Proper (w : Nat) : Nat → List Use → Prop
  | _, [] => True
  | n, .grow c _ :: us => c * w < 2 ^ 64 ∧ Proper w (max n (c * w)) us
  | n, .put i _ :: us => i < n ∧ Proper w n us

/-- The invariant of a buffer with `n` bytes allowed and `k` known. -/
structure MInv (n : Nat) (k : Nat → Option Nat) (b : Maybe) : Prop where
  sz : b.sz = n
  room : b.room = n
  mem : ∀ j v, j < n → k j = some v → b.mem j = v
  in_ : ∀ j, n ≤ j → k j = none
  live : b.live = b.block.toList
  old : ∀ x ∈ b.live, x < b.next

theorem grow_inv {w n c : Nat} {k : Nat → Option Nat} {b : Maybe} (h : MInv n k b) (junk : Nat → Nat)
    (hc : c * w < 2 ^ 64) : MInv (max n (c * w)) k (grow w c junk b) := by
  unfold grow
  rw [Nat.mod_eq_of_lt hc, h.sz]
  dsimp only
  by_cases hlt : n < c * w
  · rw [if_pos hlt, show max n (c * w) = c * w by omega]
    cases hb : b.block with
    | none =>
      have hl := h.live
      rw [hb] at hl
      refine ⟨rfl, rfl, ?_, fun j hj => h.in_ j (by omega), by simp [hl], ?_⟩
      · intro j v hj hk
        show (if j < n then _ else _) = v
        by_cases hjn : j < n
        · rw [if_pos hjn]; exact h.mem j v hjn hk
        · rw [h.in_ j (by omega)] at hk; cases hk
      · intro x hx
        rw [hl] at hx
        simp at hx
        subst hx; exact Nat.lt_succ_self _
    | some q =>
      have hl := h.live
      rw [hb] at hl
      refine ⟨rfl, rfl, ?_, fun j hj => h.in_ j (by omega), by simp [hl], ?_⟩
      · intro j v hj hk
        show (if j < b.room then _ else _) = v
        rw [h.room]
        by_cases hjn : j < n
        · rw [if_pos hjn]; exact h.mem j v hjn hk
        · rw [h.in_ j (by omega)] at hk; cases hk
      · intro x hx
        rw [hl] at hx
        simp at hx
        subst hx; exact Nat.lt_succ_self _
  · rw [if_neg hlt, show max n (c * w) = n by omega]
    exact h

theorem uses_inv {w : Nat} (us : List Use) {n : Nat} {k : Nat → Option Nat} {b : Maybe} (h : MInv n k b)
    (hp : Proper w n us) :
    ∃ b', uses w b us = .ok b' ∧ MInv (us.foldl (fun n u => match u with
        | .grow c _ => max n (c * w)
        | .put _ _ => n) n)
      (fun j => us.foldl (fun k u => match u with
        | .grow _ _ => k
        | .put i v => if j = i then some v else k) (k j)) b' := by
  induction us generalizing n k b with
  | nil => exact ⟨b, rfl, h⟩
  | cons u us ih =>
    cases u with
    | grow c junk => exact ih (grow_inv h junk hp.1) hp.2
    | put i v =>
      have hu : use w b (.put i v) = .ok { b with mem := fun j => if j = i then v else b.mem j } := by
        show put i v b = _
        unfold put
        rw [if_pos (by rw [h.room]; exact hp.1)]
      have h' : MInv n (fun j => if j = i then some v else k j)
          { b with mem := fun j => if j = i then v else b.mem j } := by
        refine ⟨h.sz, h.room, ?_, ?_, h.live, h.old⟩
        · intro j x hj hk
          dsimp only at hk ⊢
          by_cases e : j = i
          · rw [if_pos e] at hk ⊢; cases hk; rfl
          · rw [if_neg e] at hk ⊢; exact h.mem j x hj hk
        · intro j hj
          have := hp.1
          rw [if_neg (by omega)]
          exact h.in_ j hj
      obtain ⟨b', e1, e2⟩ := ih h' hp.2
      refine ⟨b', ?_, e2⟩
      unfold uses
      rw [hu]
      exact e1

/-- C166.  A caller who asks for room before writing, again and again, never
    writes outside the buffer, on the stack or on the heap; what was written
    last stays, through all the growing. -/
theorem C166_array_partial (w cnt : Nat) (junk : Nat → Nat) (us : List Use) (hc : 0 < cnt)
    (hp : Proper w (w * cnt) us) :
    ∃ b, uses w (decl w cnt junk) us = .ok b ∧ b.sz = allowed w cnt us ∧
      ∀ j v, j < allowed w cnt us → known w us j = some v → b.mem j = v := by
  have h0 : MInv (w * cnt) (fun j => if j < w then some 0 else none) (decl w cnt junk) := by
    refine ⟨rfl, rfl, ?_, ?_, rfl, fun x hx => by cases hx⟩
    · intro j v _ hk
      show (if j < w then 0 else junk j) = v
      by_cases e : j < w
      · rw [if_pos e]; simp [e] at hk; exact hk
      · simp [e] at hk
    · intro j hj
      have : w ≤ w * cnt := Nat.le_mul_of_pos_right w hc
      exact if_neg (by omega)
  obtain ⟨b, e1, e2⟩ := uses_inv us h0 hp
  exact ⟨b, e1, e2.sz, e2.mem⟩

/-- C166.  Freed at the end, nothing of it is left on the heap, and nothing is
    freed that was not allocated. -/
theorem C166_freed_partial (w cnt : Nat) (junk : Nat → Nat) (us : List Use)
    (hp : Proper w (w * cnt) us) (b : Maybe) (h : uses w (decl w cnt junk) us = .ok b) : release b = .ok [] := by
  have h0 : MInv (w * cnt) (fun _ => none) (decl w cnt junk) :=
    ⟨rfl, rfl, (fun _ _ _ hk => by cases hk), fun _ _ => rfl, rfl, (fun x hx => by cases hx)⟩
  obtain ⟨b', e1, e2⟩ := uses_inv us h0 hp
  rw [h] at e1
  cases e1
  unfold release
  have hl := e2.live
  cases hb : b.block with
  | none => rw [hb] at hl; simp [hl]
  | some q => rw [hb] at hl; simp [hl]

/-- C166.  It stays on the stack as long as no more than declared is asked
    for. -/
theorem C166_stack (w cnt c : Nat) (junk junk' : Nat → Nat) (hc : c ≤ cnt) :
    grow w c junk' (decl w cnt junk) = decl w cnt junk := by
  unfold grow
  have h1 : c * w ≤ w * cnt := by rw [Nat.mul_comm w]; exact Nat.mul_le_mul_right w hc
  have h2 : c * w % 2 ^ 64 ≤ c * w := Nat.mod_le _ _
  exact if_neg (by show ¬ w * cnt < c * w % 2 ^ 64; omega)

/-- C166.  The full claim has no bound and is false: of 2^61 elements of eight
    bytes none gets room, and the last is written outside. -/
theorem C166_overflow_violated (cnt : Nat) (junk junk' : Nat → Nat) (hc : cnt < 2 ^ 61) :
    grow 8 (2 ^ 61) junk' (decl 8 cnt junk) = decl 8 cnt junk ∧
      put (8 * (2 ^ 61 - 1)) 1 (grow 8 (2 ^ 61) junk' (decl 8 cnt junk)) = .ub := by
  have h : grow 8 (2 ^ 61) junk' (decl 8 cnt junk) = decl 8 cnt junk := by
    unfold grow
    exact if_neg (by show ¬ 8 * cnt < 2 ^ 61 * 8 % 2 ^ 64; omega)
  refine ⟨h, ?_⟩
  rw [h]
  unfold put
  exact if_neg (by show ¬ 8 * (2 ^ 61 - 1) < 8 * cnt; omega)

/-- Four-byte elements, two at first, then three. -/
def demoUse : List Use := [.put 5 9, .grow 3 (fun _ => 77), .put 11 4, .grow 5 (fun _ => 78), .put 19 3]

example : Proper 4 (4 * 2) demoUse := by simp [demoUse, Proper]

example : known 4 demoUse 5 = some 9 ∧ known 4 demoUse 0 = some 0 ∧ known 4 demoUse 12 = none ∧
    allowed 4 2 demoUse = 20 := by decide

/-! ### C167 -/

/-- The buffer holds a text, with a NUL after it if anything was appended. -/
structure Holds (text : List Nat) (p : Print) : Prop where
  pos : p.bpos = text.length
  len : p.buf.length = p.size
  fit : p.bpos < p.size
  txt : p.buf.take p.bpos = text

theorem append_holds (junk : Nat → Nat) (p : Print) (text data : List Nat) (h : Holds text p) (hb : p.size < 2 ^ 31)
    (hn : text.length + data.length < 2 ^ 30) :
    ∃ p', append true junk p data = .ok (data.length, p') ∧ Holds (text ++ data) p' ∧ p'.size < 2 ^ 31 ∧
      p'.buf[p'.bpos]? = some 0 := by
  have key : ∀ q : Print, q.bpos = p.bpos → q.buf.length = q.size → q.bpos + data.length < q.size →
      q.buf.take q.bpos = text → q.size < 2 ^ 31 →
      ∃ b1 b2, q.buf.write q.bpos data = .ok b1 ∧ b1.write (q.bpos + data.length) [0] = .ok b2 ∧
        Holds (text ++ data) ⟨q.size, q.bpos + data.length, b2⟩ ∧ b2[q.bpos + data.length]? = some 0 := by
    intro q h1 h2 h3 h4 h5
    have w1 := Block.write_ok (b := q.buf) (off := q.bpos) (data := data) (by omega)
    have hl1 : (q.buf.take q.bpos ++ data ++ q.buf.drop (q.bpos + data.length)).length = q.size := by
      simp only [List.length_append, List.length_take, List.length_drop]; omega
    have w2 := Block.write_ok (b := q.buf.take q.bpos ++ data ++ q.buf.drop (q.bpos + data.length))
      (off := q.bpos + data.length) (data := [0]) (by rw [hl1]; simp; omega)
    have hx : q.bpos = text.length := by rw [h1, h.pos]
    have htk : (q.buf.take q.bpos ++ data ++ q.buf.drop (q.bpos + data.length)).take (q.bpos + data.length) = text ++ data := by
      rw [h4]
      refine List.take_left' ?_
      simp [hx]
    refine ⟨_, _, w1, w2, ⟨?_, ?_, h3, ?_⟩, ?_⟩
    · simp [hx]
    · simp only [List.length_append, List.length_take, List.length_drop, List.length_singleton] at hl1 ⊢
      omega
    · show List.take (q.bpos + data.length) _ = _
      rw [htk, List.append_assoc]
      refine List.take_left' ?_
      simp [hx]
    · rw [htk, List.append_assoc, List.getElem?_append_right (by simp [hx])]
      simp [hx]
  have hp := h.pos
  have hf := h.fit
  have hl := h.len
  unfold append
  dsimp only
  rw [if_neg (by omega)]
  by_cases c : (p.size : Int) - p.bpos ≤ data.length
  · rw [if_pos c, if_neg (by omega), if_pos rfl]
    obtain ⟨b1, b2, e1, e2, e3, e4⟩ := key
      ⟨max (p.size * 2) (p.bpos + data.length + 8), p.bpos,
        p.buf ++ malloc junk (max (p.size * 2) (p.bpos + data.length + 8) - p.buf.length)⟩ rfl
      (by simp only [List.length_append, malloc_length]; omega) (by dsimp only; omega)
      (by dsimp only; rw [List.take_append_of_le_length (by omega)]; exact h.txt) (by dsimp only; omega)
    dsimp only at e1 e2
    dsimp only
    rw [e1]
    dsimp only
    rw [e2]
    exact ⟨_, rfl, e3, by dsimp only; omega, e4⟩
  · rw [if_neg c]
    obtain ⟨b1, b2, e1, e2, e3, e4⟩ := key p rfl h.len (by omega) h.txt hb
    dsimp only
    rw [e1]
    dsimp only
    rw [e2]
    exact ⟨_, rfl, e3, hb, e4⟩

/-- C167.  What is printed in any pieces, less than 2^30 bytes in all, is there
    in order, whole and ended by a NUL; no byte is written outside. -/
theorem C167_text_partial (junk : Nat → Nat) (ds : List (List Nat)) (hn : ds.flatten.length < 2 ^ 30) (hne : ds ≠ []) :
    ∃ p, appends junk (Print.new junk) ds = .ok p ∧ p.buf.take p.bpos = ds.flatten ∧ p.bpos = ds.flatten.length ∧
      p.buf[p.bpos]? = some 0 := by
  have : ∀ (ds : List (List Nat)) (text : List Nat) (p : Print), Holds text p → p.size < 2 ^ 31 →
      (text ++ ds.flatten).length < 2 ^ 30 → (ds ≠ [] ∨ p.buf[p.bpos]? = some 0) →
      ∃ p', appends junk p ds = .ok p' ∧ Holds (text ++ ds.flatten) p' ∧ p'.buf[p'.bpos]? = some 0 := by
    intro ds
    induction ds with
    | nil =>
      intro text p h _ _ hz
      exact ⟨p, rfl, by simpa using h, hz.resolve_left (fun h => h rfl)⟩
    | cons d ds ih =>
      intro text p h hb hl _
      simp only [List.flatten_cons, List.length_append] at hl
      obtain ⟨p', e1, e2, e3, e4⟩ := append_holds junk p text d h hb (by omega)
      obtain ⟨p'', f1, f2, f3⟩ := ih (text ++ d) p' e2 e3 (by simp only [List.length_append]; omega) (.inr e4)
      refine ⟨p'', ?_, ?_, f3⟩
      · unfold appends; rw [e1]; exact f1
      · simpa using f2
  obtain ⟨p, e1, e2, e3⟩ := this ds [] (Print.new junk) ⟨rfl, by simp [Print.new], by simp [Print.new], rfl⟩
    (by simp [Print.new]) (by simpa using hn) (.inl hne)
  exact ⟨p, e1, by simpa using e2.txt, by simpa using e2.pos, e3⟩

/-- C167.  Reset, it is empty and keeps its room. -/
theorem C167_reset (p : Print) (text : List Nat) (h : Holds text p) :
    ∃ p', p.reset = .ok p' ∧ Holds [] p' ∧ p'.size = p.size ∧ p'.buf[0]? = some 0 := by
  have hf := h.fit
  have hl := h.len
  have w := Block.write_ok (b := p.buf) (off := 0) (data := [0]) (by simp; omega)
  refine ⟨⟨p.size, 0, p.buf.take 0 ++ [0] ++ p.buf.drop (0 + [0].length)⟩, ?_, ⟨rfl, ?_, ?_, rfl⟩, rfl, ?_⟩
  · unfold Print.reset; rw [w]
  · simp; omega
  · show 0 < p.size; omega
  · simp

/-- C167.  Without memory an append says so and leaves the buffer as it was. -/
theorem C167_nomem (junk : Nat → Nat) (p : Print) (data : List Nat)
    (hfull : p.size ≤ p.bpos + data.length) (hs : p.size < 2 ^ 30) (hn : p.bpos + data.length + 8 < 2 ^ 31) :
    append false junk p data = .ok (-1, p) := by
  unfold append
  dsimp only
  rw [if_neg (by omega), if_pos (by omega), if_neg (by omega)]
  simp

/-- C167.  But formatted output says that all was printed: the text goes on
    without the piece. -/
theorem C167_nomem_violated (junk : Nat → Nat) (p : Print) (data : List Nat)
    (hfull : p.size ≤ p.bpos + data.length) (hs : p.size < 2 ^ 30) (hn : p.bpos + data.length + 8 < 2 ^ 31) :
    sprint false junk p data = .ok (data.length, p) := by
  unfold sprint
  rw [C167_nomem junk p data hfull hs hn]

/-- C167.  The full claim has no bound on the size and is false: with two
    pieces, of 2^30 bytes together, an `int` overflows. -/
theorem C167_overflow_violated (junk : Nat → Nat) (d e : List Nat) (hd : d.length = 2 ^ 30 - 8) (he : e.length = 8) :
    appends junk (Print.new junk) [d, e] = .ub := by
  obtain ⟨p, e1, e2, e3, _⟩ := append_holds junk (Print.new junk) [] d
    ⟨rfl, by simp [Print.new], by simp [Print.new], rfl⟩ (by simp [Print.new]) (by simp; omega)
  have hsz : 2 ^ 30 ≤ p.size ∧ p.size ≤ p.bpos + 8 := by
    have hp : p.bpos = d.length := by simpa using e2.pos
    have : p.size = 2 ^ 30 := by
      unfold append at e1
      dsimp only at e1
      rw [if_neg (by omega), if_pos (by simp [Print.new]; omega),
        if_neg (by simp only [Print.new]; omega), if_pos rfl] at e1
      dsimp only at e1
      split at e1
      · cases e1
      · cases e1
      · split at e1
        · cases e1
        · cases e1
        · cases e1
          simp only [Print.new, hd]
          decide
    omega
  unfold appends
  rw [e1]
  unfold appends append
  dsimp only
  rw [if_neg (by omega), if_pos (by omega), if_pos (.inl (by omega))]

example : ∃ p, appends (fun _ => 7) (Print.new (fun _ => 7)) [bytesOf "{\"a\":", bytesOf "[1,2,3,4,5,6,7,8,9,10,11,12,13]", bytesOf "}"]
    = .ok p ∧ p.buf.take p.bpos = bytesOf "{\"a\":[1,2,3,4,5,6,7,8,9,10,11,12,13]}" := by
  obtain ⟨p, h1, h2, _⟩ := C167_text_partial (fun _ => 7)
    [bytesOf "{\"a\":", bytesOf "[1,2,3,4,5,6,7,8,9,10,11,12,13]", bytesOf "}"] (by decide) (by simp)
  exact ⟨p, h1, by rw [h2]; decide⟩

end Mtev.SmallBuf
