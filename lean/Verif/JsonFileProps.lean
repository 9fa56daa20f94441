import Verif.JsonFile
import Verif.SmallBufProps

/-!
C168: JSON documents in files.
-/

namespace Mtev.JsonFile
open SmallBuf

theorem cstr_append {a b : List Nat} (ha : 0 ∉ a) : cstr (a ++ 0 :: b) = a := by
  unfold cstr
  induction a with
  | nil => simp
  | cons x a ih =>
    have hx : x ≠ 0 := fun h => ha (by simp [h])
    have := ih (fun h => ha (List.mem_cons_of_mem _ h))
    rw [List.cons_append, List.takeWhile_cons, if_pos (by simpa using hx), this]

theorem cstr_all {a : List Nat} (ha : 0 ∉ a) : cstr a = a := by
  unfold cstr
  induction a with
  | nil => rfl
  | cons x a ih =>
    have hx : x ≠ 0 := fun h => ha (by simp [h])
    rw [List.takeWhile_cons, if_pos (by simpa using hx), ih (fun h => ha (List.mem_cons_of_mem _ h))]

/-- C168.  However the reads cut the file, a text of less than 2^30 bytes
    without NULs is given to the parser whole. -/
theorem C168_read_partial (junk : Nat → Nat) (chunks : List (List Nat)) (hne : chunks ≠ [])
    (hn : chunks.flatten.length < 2 ^ 30) (h0 : 0 ∉ chunks.flatten) :
    readFd junk chunks .eof = .ok (some chunks.flatten) := by
  obtain ⟨p, e1, e2, e3, e4⟩ := C167_text_partial junk chunks hn hne
  unfold readFd
  rw [e1]
  dsimp only
  rw [if_neg hne]
  have hsplit : p.buf = chunks.flatten ++ 0 :: p.buf.drop (p.bpos + 1) := by
    obtain ⟨hl, hv⟩ := List.getElem?_eq_some_iff.1 e4
    have := (List.take_append_drop p.bpos p.buf).symm
    rw [e2, List.drop_eq_getElem_cons hl, hv] at this
    exact this
  rw [hsplit, cstr_append h0]

/-- C168.  If a read fails nothing is parsed. -/
theorem C168_error (junk : Nat → Nat) (chunks : List (List Nat)) (hn : chunks.flatten.length < 2 ^ 30) :
    readFd junk chunks .error = .ok none := by
  unfold readFd
  by_cases hne : chunks = []
  · subst hne; rfl
  · obtain ⟨p, e1, _⟩ := C167_text_partial junk chunks hn hne
    rw [e1]

/-- C168.  The full claim is false for an empty file: the parser is given memory
    never written. -/
theorem C168_empty_violated (junk : Nat → Nat) : readFd junk [] .eof = .ub := by
  unfold readFd appends
  simp

/-- C168.  And for NULs: what follows the first is not looked at, so that a
    document followed by anything is taken for the document. -/
theorem C168_nul_violated (junk : Nat → Nat) (doc rest : List Nat) (h0 : 0 ∉ doc)
    (hn : (doc ++ 0 :: rest).length < 2 ^ 30) : readFd junk [doc ++ 0 :: rest] .eof = .ok (some doc) := by
  obtain ⟨p, e1, e2, e3, e4⟩ := C167_text_partial junk [doc ++ 0 :: rest] (by simpa using hn) (by simp)
  unfold readFd
  rw [e1]
  dsimp only
  rw [if_neg (by simp)]
  have := (List.take_append_drop p.bpos p.buf).symm
  rw [e2] at this
  rw [this]
  simp only [List.flatten_cons, List.flatten_nil, List.append_nil, List.append_assoc, List.cons_append]
  rw [cstr_append h0]

theorem writeLoop_prefix (s : List Nat) (wsize : Nat) (hs : wsize = s.length) (hl : wsize < 2 ^ 32)
    (ws : List (Option Nat)) (wpos : Nat) (out : List Nat) (ho : out = s.take wpos) (hp : wpos ≤ wsize) :
    (writeLoop s wsize wpos ws out).2 <+: s ∧
    ((writeLoop s wsize wpos ws out).1 = some 0 → (writeLoop s wsize wpos ws out).2 = s) ∧
    (none ∉ ws → (writeLoop s wsize wpos ws out).1 ≠ some (-1)) ∧
    (none ∉ ws → wsize - wpos ≤ (ws.map fun n => min 1 (n.getD 0)).sum →
      (writeLoop s wsize wpos ws out).1 = some 0) := by
  induction ws generalizing wpos out with
  | nil =>
    unfold writeLoop
    by_cases c : wpos < wsize
    · rw [if_pos c]
      refine ⟨ho ▸ List.take_prefix _ _, by simp, by simp, ?_⟩
      intro _ h
      simp at h
      omega
    · rw [if_neg c]
      have : out = s := by rw [ho, List.take_of_length_le (by omega)]
      simp [this]
  | cons w ws ih =>
    unfold writeLoop
    by_cases c : wpos < wsize
    · rw [if_pos c]
      cases w with
      | none => exact ⟨ho ▸ List.take_prefix _ _, by simp, by simp, by simp⟩
      | some n =>
        dsimp only
        have hm : (wpos + min n (wsize - wpos)) % 2 ^ 32 = wpos + min n (wsize - wpos) :=
          Nat.mod_eq_of_lt (by omega)
        rw [hm]
        have ho' : out ++ (s.drop wpos).take (min n (wsize - wpos)) = s.take (wpos + min n (wsize - wpos)) := by
          rw [ho, List.take_add]
        obtain ⟨i1, i2, i3, i4⟩ := ih _ _ ho' (by omega)
        refine ⟨i1, i2, fun h => i3 (fun h' => h (List.mem_cons_of_mem _ h')), ?_⟩
        intro h hsum
        refine i4 (fun h' => h (List.mem_cons_of_mem _ h')) ?_
        simp only [List.map_cons, List.sum_cons, Option.getD_some] at hsum
        omega
    · rw [if_neg c]
      have : out = s := by rw [ho, List.take_of_length_le (by omega)]
      simp [this]

/-- C168.  However the writes are cut, what a descriptor gets is a beginning of
    the text, and all of it if success is returned.  A printed document is
    shorter than 2^32 bytes and has no NUL. -/
theorem C168_written (s : List Nat) (h0 : 0 ∉ s) (hl : s.length < 2 ^ 32) (ws : List (Option Nat)) :
    (writeFd s ws).2 <+: s ∧ ((writeFd s ws).1 = some 0 → (writeFd s ws).2 = s) := by
  unfold writeFd
  rw [cstr_all h0, Nat.mod_eq_of_lt hl]
  have := writeLoop_prefix s s.length rfl hl ws 0 [] rfl (Nat.zero_le _)
  exact ⟨this.1, this.2.1⟩

/-- C168.  Failure is returned only if a write failed, and with as many writes
    that take something as there are bytes, success is. -/
theorem C168_succeeds (s : List Nat) (h0 : 0 ∉ s) (hl : s.length < 2 ^ 32) (ws : List (Option Nat)) (hw : none ∉ ws) :
    (writeFd s ws).1 ≠ some (-1) ∧
    (s.length ≤ (ws.filter fun n => 0 < n.getD 0).length → (writeFd s ws).1 = some 0) := by
  unfold writeFd
  rw [cstr_all h0, Nat.mod_eq_of_lt hl]
  have := writeLoop_prefix s s.length rfl hl ws 0 [] rfl (Nat.zero_le _)
  refine ⟨this.2.2.1 hw, fun h => this.2.2.2 hw ?_⟩
  have hc : ∀ ws : List (Option Nat), (ws.filter fun n => 0 < n.getD 0).length = (ws.map fun n => min 1 (n.getD 0)).sum := by
    intro ws
    induction ws with
    | nil => rfl
    | cons a ws ih =>
      rw [List.filter_cons, List.map_cons, List.sum_cons, ← ih]
      by_cases c : 0 < a.getD 0
      · rw [if_pos (by simpa using c), List.length_cons]; omega
      · rw [if_neg (by simpa using c)]; omega
  rw [← hc]
  omega

/-- C168.  What was written is read back as it was. -/
theorem C168_roundtrip (s : List Nat) (h0 : 0 ∉ s) (hl : s.length < 2 ^ 30) (hs : s ≠ []) (ws : List (Option Nat))
    (hok : (writeFd s ws).1 = some 0) (chunks : List (List Nat)) (hc : chunks.flatten = (writeFd s ws).2)
    (junk : Nat → Nat) : readFd junk chunks .eof = .ok (some s) := by
  have hw := (C168_written s h0 (by omega) ws).2 hok
  rw [hw] at hc
  have hne : chunks ≠ [] := by
    rintro rfl
    exact hs hc.symm
  rw [C168_read_partial junk chunks hne (by rw [hc]; exact hl) (by rw [hc]; exact h0), hc]

example : writeFd (bytesOf "{\"a\":1}") [some 3, some 0, some 100] = (some 0, bytesOf "{\"a\":1}") := by
  decide +kernel

example : writeFd (bytesOf "{\"a\":1}") [some 3, none] = (some (-1), bytesOf "{\"a") := by decide +kernel

end Mtev.JsonFile
