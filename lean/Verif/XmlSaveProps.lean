import Verif.XmlSave

/-!
# C109, C110: saving a piece of the configuration and reading it back

What a careful reader would take is the file, or the backup if there is no file (`Fs.current`).
-/

namespace Mtev.XmlSave

/-- what a save is at any moment, if no write fails -/
theorem save_inv (new : Str) (fs : Fs) (es : List Ev) (hf : full new { fs } es) :
    Inv new fs.current (save new fs es) := (Inv.start new fs).run es hf

theorem current_cases (new : Str) (fs : Fs) (es : List Ev) (hf : full new { fs } es) :
    (save new fs es).fs.current = fs.current ∨ (save new fs es).fs.current = some new := by
  have h := (save_inv new fs es hf).cur
  split at h
  case h_11 | h_9 | h_10 =>
    split at h
    · right; unfold Fs.current; rw [h]; rfl
    · exact Or.inl h
  all_goals exact Or.inl h

/-- **C109 (nothing in between).**  Whatever is in the three files before, whichever calls fail, and wherever
the process is cut off: what a careful reader would take is what it was before or the new text.  When the call
returns 0 the file has the new text, and when it returns -1 nothing has changed for the reader.  Partial: no
write fails; see `C109_short_violated`. -/
theorem C109_atomic_partial (new : Str) (fs : Fs) (es : List Ev) (hf : full new { fs } es) :
    ((save new fs es).fs.current = fs.current ∨ (save new fs es).fs.current = some new) ∧
    ((save new fs es).pc = .done true → (save new fs es).fs.file = some new) ∧
    ((save new fs es).pc = .done false → (save new fs es).fs.current = fs.current) := by
  have h := (save_inv new fs es hf).cur
  refine ⟨current_cases new fs es hf, ?_, ?_⟩
  · intro hp; rw [hp] at h; simpa using h
  · intro hp; rw [hp] at h; simpa using h

/-- saves one after the other, each cut off or run to its end -/
def history (fs : Fs) (l : List (Str × List Ev)) : Fs := l.foldl (fun fs x => (save x.1 fs x.2).fs) fs

/-- no write fails -/
def fullAll (fs : Fs) : List (Str × List Ev) → Prop
  | [] => True
  | x :: l => full x.1 { fs } x.2 ∧ fullAll (save x.1 fs x.2).fs l

theorem history_mem : ∀ (l : List (Str × List Ev)) (fs : Fs), fullAll fs l →
    (history fs l).current = fs.current ∨ ∃ x ∈ l, (history fs l).current = some x.1
  | [], _, _ => Or.inl rfl
  | x :: l, fs, h => by
    have h1 := current_cases x.1 fs x.2 h.1
    have h2 := history_mem l (save x.1 fs x.2).fs h.2
    show (history (save x.1 fs x.2).fs l).current = _ ∨ _
    rcases h2 with h2 | ⟨y, hy, h2⟩
    · rcases h1 with h1 | h1
      · left; rw [h2, h1]
      · right; exact ⟨x, by simp, by show (history (save x.1 fs x.2).fs l).current = _; rw [h2, h1]⟩
    · right; exact ⟨y, by simp [hy], h2⟩

theorem fullAll_append : ∀ (l r : List (Str × List Ev)) (fs : Fs), fullAll fs (l ++ r) →
    fullAll fs l ∧ fullAll (history fs l) r
  | [], _, _, h => ⟨trivial, h⟩
  | x :: l, r, fs, h => by
    have := fullAll_append l r _ h.2
    exact ⟨⟨h.1, this.1⟩, this.2⟩

/-- **C109 (histories).**  After any number of saves, each cut off anywhere or run to its end, with any calls
failing: a careful reader finds the text of the last save that returned 0, or of one begun after it.  Partial as
above. -/
theorem C109_history_partial (fs : Fs) (l r : List (Str × List Ev)) (x : Str × List Ev)
    (h : fullAll fs (l ++ x :: r)) (hx : (save x.1 (history fs l) x.2).pc = .done true) :
    ∃ y ∈ x :: r, (history fs (l ++ x :: r)).current = some y.1 := by
  have h2 := (fullAll_append l (x :: r) fs h).2
  have e : history fs (l ++ x :: r) = history (save x.1 (history fs l) x.2).fs r := by
    simp [history, List.foldl_append]
  rw [e]
  rcases history_mem r _ h2.2 with h3 | ⟨y, hy, h3⟩
  · refine ⟨x, by simp, ?_⟩
    rw [h3]
    have := (C109_atomic_partial x.1 (history fs l) x.2 h2.1).2.1 hx
    unfold Fs.current
    rw [this]; rfl
  · exact ⟨y, by simp [hy], h3⟩

/-- the calls of a save in which nothing goes wrong -/
def smooth (n : Nat) : List Ev := List.replicate n .ok

theorem full_smooth (new : Str) : ∀ (n : Nat) (s : St), full new s (smooth n)
  | 0, _ => trivial
  | n + 1, s => ⟨fun _ => by decide, full_smooth new n _⟩

/-- **C109 (it succeeds).**  If no call fails, and there are not both leftovers beside the file, the call returns 0
after at most ten calls; leftovers of an earlier one are gone unless there was only a backup. -/
theorem C109_succeeds (new : Str) (fs : Fs) (h : fs.tmp = none ∨ fs.bak = none ∨ fs.file = none) :
    (save new fs (smooth 10)).pc = .done true ∧
    (save new fs (smooth 10)).fs = ⟨some new, none, if fs.file = none then fs.bak else none⟩ := by
  obtain ⟨file, tmp, bak⟩ := fs
  cases file <;> cases tmp <;> cases bak <;>
    simp_all [save, run, smooth, List.replicate, step, create]

example : (save [2] ⟨some [1], none, none⟩ (smooth 10)).fs = ⟨some [2], none, none⟩ := by decide

/-- a save cut off while it writes, and then another -/
example : (save [2, 3] ⟨some [1], none, none⟩ [.ok, .ok, .ok, .put 1]).fs = ⟨none, some [2], some [1]⟩ ∧
    fullAll ⟨some [1], none, none⟩ [([2, 3], [.ok, .ok, .ok, .put 1]), ([4], smooth 10)] ∧
    (history ⟨some [1], none, none⟩ [([2, 3], [.ok, .ok, .ok, .put 1]), ([4], smooth 10)]).current = some [4] := by
  refine ⟨by decide, ⟨?_, ?_, trivial⟩, by decide⟩
  · decide
  · exact full_smooth _ _ _

/-- **C109 (violated: the disk is full).**  If the write fails after `k` bytes the call returns 0 all the same: the
file is cut off there, and the old text is gone. -/
theorem C109_short_violated (old new : Str) (k : Nat) :
    save new ⟨some old, none, none⟩ [.ok, .ok, .ok, .put k, .fail, .ok, .ok, .ok]
      = { fs := ⟨some (new.take k), none, none⟩, pc := .done true, once := true, haveBackup := true, rv := true,
          pos := k } := by
  simp [save, run, step, create]

/-- **C109 (violated: two leftovers).**  With both leftovers beside the file (which a process cut off leaves, see
`C110_twice_violated`) the next save fails although every call does what it should, and the file is gone: only the
backup has the text. -/
theorem C109_leftover_violated (a b c new : Str) (n : Nat) :
    (save new ⟨some a, some b, some c⟩ (smooth (n + 5))).pc = .done false ∧
    (save new ⟨some a, some b, some c⟩ (smooth (n + 5))).fs = ⟨none, some b, some a⟩ := by
  have hd : ∀ (m : Nat) (s : St), s.pc = .done false → run new s (smooth m) = s := by
    intro m
    induction m with
    | zero => intro s _; rfl
    | succ m ih =>
      intro s hs
      show run new (step new s .ok) (smooth m) = s
      have : step new s .ok = s := by unfold step; rw [hs]
      rw [this]
      exact ih s hs
  have e : save new ⟨some a, some b, some c⟩ (smooth (n + 5))
      = run new (save new ⟨some a, some b, some c⟩ (smooth 5)) (smooth n) := by
    rfl
  have e5 : save new ⟨some a, some b, some c⟩ (smooth 5)
      = { fs := ⟨none, some b, some a⟩, pc := .done false, once := false, haveBackup := true } := by
    simp [save, run, smooth, List.replicate, step, create]
  rw [e, hd n _ (by rw [e5]), e5]
  exact ⟨rfl, rfl⟩

/-! ### reading back -/

/-- **C110 (not lost).**  Whatever is cut off and whichever calls fail: if what there was and the new text can be
read, then one of the two is among the elements read back.  Partial: no write fails. -/
theorem C110_kept_partial (parses : Str → Bool) (old new : Str) (fs : Fs) (es : List Ev) (h0 : fs.current = some old)
    (ho : parses old = true) (hn : parses new = true) (hf : full new { fs } es) :
    old ∈ readElement parses (save new fs es).fs ∨ new ∈ readElement parses (save new fs es).fs := by
  have key : ∀ (c : Str) (g : Fs), g.current = some c → parses c = true → c ∈ readElement parses g := by
    intro c g hc hp
    unfold readElement
    rw [List.mem_filter]
    refine ⟨?_, hp⟩
    unfold Fs.current at hc
    obtain ⟨file, tmp, bak⟩ := g
    cases file with
    | some f => simp only [Option.some_or, Option.some.injEq] at hc; subst hc; simp
    | none => simp only [Option.none_or] at hc; subst hc; cases tmp <;> simp
  rcases current_cases new fs es hf with h | h
  · left; exact key old _ (h.trans h0) ho
  · right; exact key new _ h hn

/-- **C110 (once).**  If nothing was left over and no call fails, the element is read back once, with the new text. -/
theorem C110_once_partial (parses : Str → Bool) (new : Str) (file : Option Str) (hn : parses new = true) :
    readElement parses (save new ⟨file, none, none⟩ (smooth 10)).fs = [new] := by
  rw [(C109_succeeds new ⟨file, none, none⟩ (Or.inl rfl)).2]
  cases file <;> simp [readElement, hn]

/-- **C110 (violated: three times).**  Cut off just after the new text has been put in place, the element is read back
three times: twice with the new text and once with the old. -/
theorem C110_twice_violated (parses : Str → Bool) (old new : Str) (ho : parses old = true) (hn : parses new = true) :
    readElement parses (save new ⟨some old, none, none⟩ (smooth 5)).fs = [new, new, old] := by
  simp [save, run, smooth, List.replicate, step, create, readElement, ho, hn]

/-- **C110 (attributes).**  Attributes saved by a call that returned 0 are read back.  Partial: no write fails. -/
theorem C110_attrs_partial (parses : Str → Bool) (new : Str) (fs : Fs) (es : List Ev) (hn : parses new = true)
    (hf : full new { fs } es) (hd : (save new fs es).pc = .done true) :
    readAttrs parses (save new fs es).fs = some new := by
  have := (C109_atomic_partial new fs es hf).2.1 hd
  unfold readAttrs
  rw [this]
  simp [hn]

/-- **C110 (violated: no attributes).**  Cut off between taking the old file away and putting the new one in place,
the attributes are read back neither old nor new, although the backup has them. -/
theorem C110_attrs_violated (parses : Str → Bool) (old new : Str) :
    readAttrs parses (save new ⟨some old, none, none⟩ (smooth 4)).fs = none ∧
    (save new ⟨some old, none, none⟩ (smooth 4)).fs.current = some old := by
  simp [save, run, smooth, List.replicate, step, create, readAttrs, Fs.current]

/-- **C110 (violated: lost).**  After a write that failed, which the call does not report, nothing is read back. -/
theorem C110_lost_violated (parses : Str → Bool) (old new : Str) (k : Nat) (hk : parses (new.take k) = false) :
    readElement parses (save new ⟨some old, none, none⟩ [.ok, .ok, .ok, .put k, .fail, .ok, .ok, .ok]).fs = [] := by
  rw [C109_short_violated]
  simp [readElement, hk]

end Mtev.XmlSave
