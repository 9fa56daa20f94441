/-
C40: feeding a JSON text to the tokener in pieces.
-/
import Verif.Json

namespace Mtev.Json

variable (dbl : Bytes → Option Nat)

/-! ### Specification -/

/-- An error other than "give me more". -/
def hard (e : Err) : Bool := e != .success && e != .cont

/-- A caller that feeds every piece in turn and gives up at the first hard error:
the last error and tree. -/
def feedAll (t : Tok) (p : Bytes) : List Bytes → Option (Err × Node)
  | [] => (parseEx dbl t p).map fun r => (r.err, r.obj)
  | q :: qs =>
    match parseEx dbl t p with
    | none => none
    | some r => if hard r.err then some (r.err, r.obj) else feedAll r.tok q qs

/-- A caller that feeds pieces only as long as it is asked for more. -/
def feedFirst (t : Tok) (p : Bytes) : List Bytes → Option (Err × Node)
  | [] => (parseEx dbl t p).map fun r => (r.err, r.obj)
  | q :: qs =>
    match parseEx dbl t p with
    | none => none
    | some r => if r.err ≠ .cont then some (r.err, r.obj) else feedFirst r.tok q qs

/-- A new tokener given the whole text in one call. -/
def atOnce (s : Bytes) : Option (Err × Node) :=
  (parseEx dbl newTok s).map fun r => (r.err, r.obj)

/-- Only white space. -/
def blank (s : Bytes) : Prop := ∀ c ∈ s, c = 32 ∨ (9 ≤ c ∧ c ≤ 13)

theorem isSpace_iff (c : Nat) : isSpace c = true ↔ c = 32 ∨ (9 ≤ c ∧ c ≤ 13) := by simp [isSpace]

/-! ### Facts about one turn -/

theorem micro_facts (t : Tok) (obj : Node) (c : Nat) :
    match micro dbl t obj c with
    | .redo t' _ => t'.started = t.started
    | .next t' => t'.started = t.started
    | .out t' e => t'.started = t.started ∧ e ≠ .cont ∧
        (e = .success → t'.lv.st = .finish ∧ t'.below = [])
    | .ub => True := by
  unfold micro
  cases h : t.lv.st <;> dsimp only
  all_goals first
    | (unfold mStart; split_ifs <;> simp [Tok.goSt]; done)
    | (unfold mNull; dsimp only; split_ifs <;> simp [Tok.value]; done)
    | (unfold mBoolean; dsimp only; split_ifs <;> simp [Tok.value]; done)
    | (unfold mEscape; split_ifs <;> simp [Tok.goSt]; done)
    | (unfold mUnicode; dsimp only; split_ifs <;> simp [Tok.goSt]; done)
    | (unfold mNumber; split_ifs
       · simp
       · cases mkNumber dbl t.isDouble t.pb <;> simp [Tok.value])
    | (cases hb : t.below <;> simp [h, hb]; done)
    | (cases arrayAdd t.lv.cur obj <;> simp; done)
    | (cases objectAdd t.lv.cur t.lv.fld obj <;> simp; done)
    | (split_ifs <;> simp [Tok.goSt, Tok.go, Tok.value, Tok.push]; done)

theorem char_facts (n : Nat) (t : Tok) (obj : Node) (c : Nat) :
    match char dbl n t obj c with
    | .redo _ _ => False
    | .next t' => t'.started = t.started
    | .out t' e => t'.started = t.started ∧ e ≠ .cont ∧
        (e = .success → t'.lv.st = .finish ∧ t'.below = [])
    | .ub => True := by
  induction n generalizing t obj with
  | zero => simp [char]
  | succ n ih =>
    have hm := micro_facts dbl t obj c
    unfold char
    cases h : micro dbl t obj c with
    | redo t' o' =>
      rw [h] at hm
      have := ih t' o'
      dsimp only at hm ⊢
      cases h2 : char dbl n t' o' c <;> rw [h2] at this <;> simp_all
    | next t' => rw [h] at hm; exact hm
    | out t' e => rw [h] at hm; exact hm
    | ub => trivial

theorem loop_started (t : Tok) (s : Bytes) :
    match loop dbl t s with
    | .more t' => t'.started = t.started
    | .stop t' e c => t'.started = t.started ∧ e ≠ .cont ∧
        ((∀ x ∈ s, x ≠ 0) → c ≠ 0 ∧ (e = .success → t'.lv.st = .finish ∧ t'.below = []))
    | .ub => True := by
  induction s generalizing t with
  | nil => simp [loop]
  | cons c cs ih =>
    unfold loop
    have hf := char_facts dbl turns t .null c
    cases h : char dbl turns t .null c with
    | redo => trivial
    | ub => trivial
    | out t' e =>
      rw [h] at hf
      dsimp only at hf ⊢
      exact ⟨hf.1, hf.2.1, fun hz => ⟨hz c (by simp), hf.2.2⟩⟩
    | next t' =>
      rw [h] at hf
      dsimp only at hf ⊢
      by_cases hc : c = 0
      · rw [if_pos hc]
        exact ⟨hf, by simp, fun hz => absurd hc (hz c (by simp))⟩
      · rw [if_neg hc]
        have := ih t'
        cases h2 : loop dbl t' cs with
        | more t2 => rw [h2] at this; exact this.trans hf
        | ub => trivial
        | stop t2 e c2 =>
          rw [h2] at this
          exact ⟨this.1.trans hf, this.2.1, fun hz => this.2.2 fun x hx => hz x (by simp [hx])⟩

theorem loop_cons (t : Tok) (c : Nat) (cs : Bytes) :
    loop dbl t (c :: cs) = match char dbl turns t .null c with
      | .next t' => if c = 0 then .stop t' .success c else loop dbl t' cs
      | .out t' e => .stop t' e c
      | .redo _ _ => .ub
      | .ub => .ub := rfl

theorem loop_append (t : Tok) (a b : Bytes) :
    loop dbl t (a ++ b) = match loop dbl t a with
      | .more t' => loop dbl t' b
      | r => r := by
  induction a generalizing t with
  | nil => simp [loop]
  | cons c cs ih =>
    rw [List.cons_append, loop_cons, loop_cons]
    cases h : char dbl turns t .null c with
    | next t' =>
      dsimp only
      by_cases hc : c = 0
      · simp [hc]
      · rw [if_neg hc, if_neg hc]; exact ih t'
    | _ => rfl

/-- A finished tokener answers success for any further characters. -/
theorem loop_finished (t : Tok) (c : Nat) (cs : Bytes) (h : t.lv.st = .finish) (hb : t.below = []) :
    loop dbl t (c :: cs) = .stop t .success c := by
  simp [loop, char, turns, micro, h, hb]

theorem finishCall_nz (t : Tok) (e : Err) (c : Nat) (hc : c ≠ 0) :
    finishCall t e c = ⟨t, e, if e = .success then t.lv.cur else .null⟩ := by
  simp [finishCall, hc]

theorem endErr_not_hard (t : Tok) : hard (endErr t) = false := by
  unfold endErr; split <;> rfl

theorem parseEx_started (t : Tok) (s : Bytes) (h : t.started = true) :
    parseEx dbl t s = parseMain dbl t s := by
  simp [parseEx, h]

/-- Pieces after the first, on a started tokener. -/
theorem feedAll_started (t : Tok) (p : Bytes) (ps : List Bytes) (hs : t.started = true)
    (hz : ∀ q ∈ p :: ps, ∀ x ∈ q, x ≠ 0) (hne : ∀ q ∈ ps, q ≠ []) :
    feedAll dbl t p ps = (parseMain dbl t (p ++ ps.flatten)).map fun r => (r.err, r.obj) := by
  induction ps generalizing t p with
  | nil => simp [feedAll, parseEx_started dbl t p hs]
  | cons q qs ih =>
    unfold feedAll
    rw [parseEx_started dbl t p hs]
    have hl := loop_started dbl t p
    have ha := loop_append dbl t p (q :: qs).flatten
    have hz1 : ∀ q' ∈ q :: qs, ∀ x ∈ q', x ≠ 0 := fun q' h => hz q' (by simp_all)
    have hne1 : ∀ q' ∈ qs, q' ≠ [] := fun q' h => hne q' (by simp_all)
    unfold parseMain
    cases h : loop dbl t p with
    | ub => simp only [h] at ha ⊢; rw [ha]; rfl
    | more t' =>
      simp only [h] at ha hl ⊢
      rw [ha, finishCall_nz _ _ _ (by decide)]
      simp only [endErr_not_hard, Bool.false_eq_true, if_false]
      exact ih t' q (hl.trans hs) hz1 hne1
    | stop t' e c =>
      simp only [h] at ha hl ⊢
      obtain ⟨hs', hec, hzz⟩ := hl
      obtain ⟨hc, hfin⟩ := hzz (hz p (by simp))
      rw [ha, finishCall_nz _ _ _ hc]
      by_cases he : e = .success
      · obtain ⟨hf1, hf2⟩ := hfin he
        subst he
        have h0 : hard Err.success = false := rfl
        simp only [h0, Bool.false_eq_true, if_false]
        rw [ih t' q (hs'.trans hs) hz1 hne1]
        obtain ⟨x, xs, rfl⟩ : ∃ x xs, q = x :: xs := List.exists_cons_of_ne_nil (hne q (by simp))
        have hx : x ≠ 0 := hz1 (x :: xs) (by simp) x (by simp)
        unfold parseMain
        rw [List.cons_append, loop_finished dbl t' x _ hf1 hf2]
        simp only [finishCall_nz _ _ _ hx, finishCall_nz _ _ _ hc, if_true, Option.map_some]
      · have h0 : hard e = true := by
          unfold hard; cases e <;> simp_all
        simp only [h0, if_true, Option.map_some, finishCall_nz _ _ _ hc]

theorem dropWhile_append_ne (p : Bytes) (r : Bytes) (h : ¬ blank p) :
    (p ++ r).dropWhile isSpace = p.dropWhile isSpace ++ r ∧ p.dropWhile isSpace ≠ [] := by
  induction p with
  | nil => exact absurd (by intro c hc; simp at hc) h
  | cons c cs ih =>
    by_cases hc : isSpace c = true
    · have : ¬ blank cs := fun hb => h (by intro x hx; simp at hx; rcases hx with rfl | hx; exacts [(isSpace_iff _).1 hc, hb x hx])
      simp [List.dropWhile_cons, hc, ih this]
    · simp [List.dropWhile_cons, hc]

/-- C40, the part that holds.  Whatever the text and however it is cut, a caller that
feeds all the pieces until a hard error ends with the error and the tree that the whole
text gives in one call, provided the text has no NUL, the first piece is not blank and
no later piece is empty. -/
theorem C40_pieces_partial (p : Bytes) (ps : List Bytes) (hb : ¬ blank p)
    (hz : ∀ q ∈ p :: ps, ∀ x ∈ q, x ≠ 0) (hne : ∀ q ∈ ps, q ≠ []) :
    feedAll dbl newTok p ps = atOnce dbl (p ++ ps.flatten) := by
  obtain ⟨hd, hd0⟩ := dropWhile_append_ne p ps.flatten hb
  obtain ⟨c, cs, hcs⟩ := List.exists_cons_of_ne_nil hd0
  have hzc : ∀ x ∈ c :: cs, x ≠ 0 := fun x hx =>
    hz p (by simp) x ((List.dropWhile_sublist isSpace).subset (hcs ▸ hx))
  have hwhole : ∀ r, parseEx dbl newTok (p ++ r) =
      (if c ≠ 123 ∧ c ≠ 91 then some (finishCall { newTok with started := true } .unexpected c)
       else parseMain dbl { newTok with started := true } (c :: cs ++ r)) ∨ r ≠ ps.flatten := by
    intro r
    by_cases hr : r = ps.flatten
    · subst hr
      left
      simp only [parseEx, newTok, Bool.false_eq_true, if_false, hd, hcs, List.cons_append]
    · exact Or.inr hr
  have hw : parseEx dbl newTok (p ++ ps.flatten) =
      (if c ≠ 123 ∧ c ≠ 91 then some (finishCall { newTok with started := true } .unexpected c)
       else parseMain dbl { newTok with started := true } (c :: cs ++ ps.flatten)) := by
    rcases hwhole ps.flatten with h | h
    · exact h
    · exact absurd rfl h
  have hp : parseEx dbl newTok p =
      (if c ≠ 123 ∧ c ≠ 91 then some (finishCall { newTok with started := true } .unexpected c)
       else parseMain dbl { newTok with started := true } (c :: cs)) := by
    simp only [parseEx, newTok, Bool.false_eq_true, if_false, hcs]
  unfold atOnce
  rw [hw]
  have key := feedAll_started dbl { newTok with started := true } (c :: cs) ps rfl
    (by intro q hq; simp only [List.mem_cons] at hq; rcases hq with rfl | hq
        · exact hzc
        · exact hz q (by simp [hq])) hne
  by_cases hcc : c ≠ 123 ∧ c ≠ 91
  · rw [if_pos hcc] at hp ⊢
    have hh : hard Err.unexpected = true := rfl
    cases ps with
    | nil => simp only [feedAll, hp, Option.map_some]
    | cons q qs =>
      simp only [feedAll, hp]
      rw [finishCall_nz _ _ _ (hzc c (by simp))]
      simp only [hh, if_true, Option.map_some]
  · rw [if_neg hcc] at hp ⊢
    rw [← key]
    cases ps with
    | nil => simp only [feedAll, hp, parseEx_started dbl { newTok with started := true } (c :: cs) rfl]
    | cons q qs => simp only [feedAll, hp, parseEx_started dbl { newTok with started := true } (c :: cs) rfl]

/-! ### A caller that stops at the first answer -/

/-- The tokener has a complete tree and only white space and comments can follow. -/
def Trail (t : Tok) : Prop :=
  t.below = [] ∧ t.lv.saved = .finish ∧
    (t.lv.st = .eatws ∨ t.lv.st = .finish ∨ t.lv.st = .commentStart ∨ t.lv.st = .comment ∨
      t.lv.st = .commentEol ∨ t.lv.st = .commentEnd)

theorem char_trail (t : Tok) (c : Nat) (h : Trail t) :
    match char dbl turns t .null c with
    | .next t' => Trail t' ∧ t'.lv.cur = t.lv.cur ∧ t'.lv.st ≠ .finish
    | .out t' e => t'.lv.cur = t.lv.cur ∧ (e = .success ∨ e = .comment)
    | _ => False := by
  obtain ⟨hb, hs, h⟩ := h
  rcases h with h | h | h | h | h | h
  · by_cases h1 : isSpace c = true
    · simp [char, turns, micro, h, h1, Trail, hb, hs]
    · by_cases h2 : c = 47
      · subst h2
        have h3 : isSpace 47 = false := rfl
        simp [char, turns, micro, h, h3, Trail, hb, hs, Tok.goSt]
      · simp [char, turns, micro, h, h1, h2, hb, hs, Tok.goSt]
  · simp [char, turns, micro, h, hb]
  · by_cases h1 : c = 42
    · simp [char, turns, micro, h, h1, Trail, hb, hs, Tok.goSt]
    · by_cases h2 : c = 47
      · simp [char, turns, micro, h, h2, Trail, hb, hs, Tok.goSt]
      · simp [char, turns, micro, h, h1, h2]
  · by_cases h1 : c = 42
    · simp [char, turns, micro, h, h1, Trail, hb, hs, Tok.goSt]
    · simp [char, turns, micro, h, h1, Trail, hb, hs]
  · by_cases h1 : c = 10
    · simp [char, turns, micro, h, h1, Trail, hb, hs, Tok.goSt]
    · simp [char, turns, micro, h, h1, Trail, hb, hs]
  · by_cases h1 : c = 47
    · simp [char, turns, micro, h, h1, Trail, hb, hs, Tok.goSt]
    · simp [char, turns, micro, h, h1, Trail, hb, hs, Tok.goSt]

theorem loop_trail (t : Tok) (s : Bytes) (h : Trail t) (hz : ∀ x ∈ s, x ≠ 0) :
    match loop dbl t s with
    | .more t' => Trail t' ∧ t'.lv.cur = t.lv.cur
    | .stop t' e _ => t'.lv.cur = t.lv.cur ∧ (e = .success ∨ e = .comment)
    | .ub => False := by
  induction s generalizing t with
  | nil => exact ⟨h, rfl⟩
  | cons c cs ih =>
    rw [loop_cons]
    have hc := char_trail dbl t c h
    cases h1 : char dbl turns t .null c with
    | redo => rw [h1] at hc; exact hc.elim
    | ub => rw [h1] at hc; exact hc.elim
    | out t' e => rw [h1] at hc; exact hc
    | next t' =>
      rw [h1] at hc
      dsimp only at hc ⊢
      rw [if_neg (hz c (by simp))]
      have := ih t' hc.1 (fun x hx => hz x (by simp [hx]))
      rw [hc.2.1] at this
      exact this

/-- The result of running on from a complete tree. -/
theorem parseMain_trail (t : Tok) (s : Bytes) (h : Trail t) (hz : ∀ x ∈ s, x ≠ 0) :
    ∃ r, parseMain dbl t s = some r ∧
      (r.err = .success ∧ r.obj = t.lv.cur ∨ r.err = .cont ∨ r.err = .comment) := by
  have hl := loop_trail dbl t s h hz
  have hs := loop_started dbl t s
  unfold parseMain
  cases h1 : loop dbl t s with
  | ub => rw [h1] at hl; exact hl.elim
  | more t' =>
    rw [h1] at hl
    refine ⟨_, rfl, ?_⟩
    rw [finishCall_nz _ _ _ (by decide)]
    unfold endErr
    split
    · left; exact ⟨rfl, by simpa using hl.2⟩
    · right; left; rfl
  | stop t' e c =>
    rw [h1] at hl hs
    dsimp only at hl hs ⊢
    refine ⟨_, rfl, ?_⟩
    rw [finishCall_nz _ _ _ (hs.2.2 hz).1]
    rcases hl.2 with rfl | rfl
    · left; exact ⟨rfl, by simpa using hl.1⟩
    · right; right; rfl

theorem feedFirst_started (t : Tok) (p : Bytes) (ps : List Bytes) (hs : t.started = true)
    (hz : ∀ q ∈ p :: ps, ∀ x ∈ q, x ≠ 0) :
    feedFirst dbl t p ps = (parseMain dbl t (p ++ ps.flatten)).map (fun r => (r.err, r.obj)) ∨
    ∃ v e w, feedFirst dbl t p ps = some (.success, v) ∧
      (parseMain dbl t (p ++ ps.flatten)).map (fun r => (r.err, r.obj)) = some (e, w) ∧
      (e = .cont ∨ e = .comment) := by
  induction ps generalizing t p with
  | nil => left; simp [feedFirst, parseEx_started dbl t p hs]
  | cons q qs ih =>
    unfold feedFirst
    rw [parseEx_started dbl t p hs]
    have hl := loop_started dbl t p
    have ha := loop_append dbl t p (q :: qs).flatten
    have hz1 : ∀ q' ∈ q :: qs, ∀ x ∈ q', x ≠ 0 := fun q' h => hz q' (by simp_all)
    have hz2 : ∀ x ∈ (q :: qs).flatten, x ≠ 0 := by
      intro x hx
      obtain ⟨q', hq', hx'⟩ := List.mem_flatten.1 hx
      exact hz1 q' hq' x hx'
    cases h : loop dbl t p with
    | ub =>
      left
      unfold parseMain
      simp only [h] at ha ⊢; rw [ha]; rfl
    | more t' =>
      simp only [h] at ha hl
      have e1 : parseMain dbl t p = some (finishCall t' (endErr t') 1) := by
        unfold parseMain; rw [h]
      have e2 : parseMain dbl t (p ++ (q :: qs).flatten) = parseMain dbl t' (q :: qs).flatten := by
        unfold parseMain; rw [ha]
      rw [e1, e2, finishCall_nz _ _ _ (by decide)]
      dsimp only
      by_cases he : endErr t' = .cont
      · rw [if_neg (by simp [he])]
        exact ih t' q (hl.trans hs) hz1
      · rw [if_pos he]
        have hsu : endErr t' = .success := by
          unfold endErr at he ⊢; split at he <;> simp_all
        have htr : Trail t' := by
          unfold endErr at hsu
          split at hsu
          · rename_i h'; exact ⟨h'.1, h'.2.2, Or.inl h'.2.1⟩
          · cases hsu
        obtain ⟨r, hr, hc⟩ := parseMain_trail dbl t' _ htr hz2
        rw [hr]
        rcases hc with hc | hc | hc
        · left; simp [hsu, hc.1, hc.2]
        · right; exact ⟨_, r.err, r.obj, by rw [hsu], rfl, Or.inl hc⟩
        · right; exact ⟨_, r.err, r.obj, by rw [hsu], rfl, Or.inr hc⟩
    | stop t' e c =>
      simp only [h] at ha hl
      left
      have e1 : parseMain dbl t p = some (finishCall t' e c) := by
        unfold parseMain; rw [h]
      have e2 : parseMain dbl t (p ++ (q :: qs).flatten) = some (finishCall t' e c) := by
        unfold parseMain; rw [ha]
      have hc := (hl.2.2 (hz p (by simp))).1
      rw [e1, e2, finishCall_nz _ _ _ hc]
      dsimp only
      rw [if_pos hl.2.1]
      rfl

/-- C40 for the caller that stops at the first answer other than "continue": its
answer is the one the whole text gives, unless it got its tree from a prefix and what
follows that tree is the start of a comment that is wrong or unfinished.  Pieces may be
empty here, but the first must not be blank and there must be no NUL. -/
theorem C40_first_answer_partial (p : Bytes) (ps : List Bytes) (hb : ¬ blank p)
    (hz : ∀ q ∈ p :: ps, ∀ x ∈ q, x ≠ 0) :
    feedFirst dbl newTok p ps = atOnce dbl (p ++ ps.flatten) ∨
    ∃ v e w, feedFirst dbl newTok p ps = some (.success, v) ∧
      atOnce dbl (p ++ ps.flatten) = some (e, w) ∧ (e = .cont ∨ e = .comment) := by
  obtain ⟨hd, hd0⟩ := dropWhile_append_ne p ps.flatten hb
  obtain ⟨c, cs, hcs⟩ := List.exists_cons_of_ne_nil hd0
  have hzc : ∀ x ∈ c :: cs, x ≠ 0 := fun x hx =>
    hz p (by simp) x ((List.dropWhile_sublist isSpace).subset (hcs ▸ hx))
  have hw : parseEx dbl newTok (p ++ ps.flatten) =
      (if c ≠ 123 ∧ c ≠ 91 then some (finishCall { newTok with started := true } .unexpected c)
       else parseMain dbl { newTok with started := true } (c :: cs ++ ps.flatten)) := by
    simp only [parseEx, newTok, Bool.false_eq_true, if_false, hd, hcs, List.cons_append]
  have hp : parseEx dbl newTok p =
      (if c ≠ 123 ∧ c ≠ 91 then some (finishCall { newTok with started := true } .unexpected c)
       else parseMain dbl { newTok with started := true } (c :: cs)) := by
    simp only [parseEx, newTok, Bool.false_eq_true, if_false, hcs]
  unfold atOnce
  rw [hw]
  have key := feedFirst_started dbl { newTok with started := true } (c :: cs) ps rfl
    (by intro q hq; simp only [List.mem_cons] at hq; rcases hq with rfl | hq
        · exact hzc
        · exact hz q (by simp [hq]))
  by_cases hcc : c ≠ 123 ∧ c ≠ 91
  · rw [if_pos hcc] at hp ⊢
    left
    cases ps with
    | nil => simp only [feedFirst, hp, Option.map_some]
    | cons q qs =>
      simp only [feedFirst, hp]
      rw [finishCall_nz _ _ _ (hzc c (by simp))]
      simp
  · rw [if_neg hcc] at hp ⊢
    have e : feedFirst dbl newTok p ps = feedFirst dbl { newTok with started := true } (c :: cs) ps := by
      cases ps with
      | nil => simp only [feedFirst, hp, parseEx_started dbl { newTok with started := true } (c :: cs) rfl]
      | cons q qs => simp only [feedFirst, hp, parseEx_started dbl { newTok with started := true } (c :: cs) rfl]
    rw [e]
    exact key

/-! ### No undefined behaviour -/

def isArr : Node → Prop
  | .arr _ => True
  | _ => False

def isObj : Node → Prop
  | .obj _ => True
  | _ => False

/-- What a level must look like when the tokener is about to look at state `s` of it. -/
def needs (s : St) (l : Level) : Prop :=
  match s with
  | .array | .arraySep | .arrayAdd => isArr l.cur
  | .objectFieldStart | .objectSep | .objectField => isObj l.cur
  | .objectFieldEnd | .objectValue | .objectValueAdd => isObj l.cur ∧ l.fld.isSome
  | _ => True

/-- States that white space skipping can return to. -/
def resumable (s : St) : Prop :=
  s = .start ∨ s = .finish ∨ s = .array ∨ s = .arraySep ∨ s = .objectFieldStart ∨
    s = .objectFieldEnd ∨ s = .objectValue ∨ s = .objectSep

/-- A level on top of the stack. -/
def topOk (l : Level) : Prop :=
  match l.st with
  | .eatws | .commentStart | .comment | .commentEol | .commentEnd => resumable l.saved ∧ needs l.saved l
  | .stringEscape | .escapeUnicode =>
    (l.saved = .string ∨ l.saved = .objectField) ∧ needs l.saved l
  | s => needs s l

/-- A level under the top. -/
def lowOk (l : Level) : Prop := (l.st = .arrayAdd ∨ l.st = .objectValueAdd) ∧ needs l.st l

def Inv (t : Tok) : Prop := topOk t.lv ∧ ∀ l ∈ t.below, lowOk l

/-- How many turns can follow on the same character. -/
def rankSt : St → Nat
  | .number | .null | .boolean => 6
  | .start => 7
  | .array | .objectValue => 9
  | .finish => 4
  | .arrayAdd | .objectValueAdd => 3
  | _ => 1

def rank (l : Level) : Nat := match l.st with | .eatws => 1 + rankSt l.saved | s => rankSt s

/-- Every turn from a good state keeps the state good, and a redo has fewer turns left. -/
theorem micro_inv (t : Tok) (obj : Node) (c : Nat) (h : Inv t) :
    match micro dbl t obj c with
    | .redo t' _ => Inv t' ∧ rank t'.lv < rank t.lv
    | .next t' => Inv t'
    | .out t' _ => Inv t'
    | .ub => False := by
  obtain ⟨ht, hl⟩ := h
  unfold micro
  obtain ⟨⟨st, saved, cur, fld⟩, below, pb, dblf, pos, ucs, quote, started⟩ := t
  cases st <;> dsimp only at *
  case eatws =>
    simp only [topOk] at ht
    split_ifs
    · exact ⟨ht, hl⟩
    · exact ⟨ht, hl⟩
    · obtain ⟨hr, hn⟩ := ht
      refine ⟨⟨?_, hl⟩, ?_⟩
      · simp only [Tok.goSt]
        rcases hr with rfl | rfl | rfl | rfl | rfl | rfl | rfl | rfl <;> exact hn
      · simp only [Tok.goSt, rank]
        rcases hr with rfl | rfl | rfl | rfl | rfl | rfl | rfl | rfl <;> simp [rankSt]
  case start =>
    unfold mStart
    split_ifs <;> simp_all [Inv, topOk, Tok.goSt, rank, rankSt, needs, resumable, isArr, isObj]
  case finish =>
    cases below with
    | nil => exact ⟨ht, hl⟩
    | cons l ls =>
      have h1 := hl l (by simp)
      refine ⟨⟨?_, fun l' h' => hl l' (by simp [h'])⟩, ?_⟩
      · obtain ⟨h2, h3⟩ := h1
        unfold topOk
        rcases h2 with h2 | h2 <;> simp only [h2] at h3 ⊢ <;> exact h3
      · obtain ⟨h2, h3⟩ := h1
        simp only [rank]
        rcases h2 with h2 | h2 <;> simp [h2, rankSt]
  case null =>
    unfold mNull; dsimp only
    split_ifs <;> simp_all [Inv, topOk, Tok.value, rank, rankSt, needs, resumable]
  case boolean =>
    unfold mBoolean; dsimp only
    split_ifs <;> simp_all [Inv, topOk, Tok.value, rank, rankSt, needs, resumable]
  case number =>
    unfold mNumber
    split_ifs
    · exact ⟨ht, hl⟩
    · cases mkNumber dbl dblf pb <;>
        simp_all [Inv, topOk, Tok.value, rank, rankSt, needs, resumable]
  case commentStart =>
    split_ifs <;> exact ⟨ht, hl⟩
  case comment =>
    split_ifs <;> exact ⟨ht, hl⟩
  case commentEol =>
    split_ifs <;> exact ⟨ht, hl⟩
  case commentEnd =>
    split_ifs <;> exact ⟨ht, hl⟩
  case string =>
    split_ifs <;> simp_all [Inv, topOk, Tok.value, Tok.go, needs, resumable]
  case stringEscape =>
    obtain ⟨hr, hn⟩ := ht
    unfold mEscape
    dsimp only at hr hn
    split_ifs <;> (refine ⟨?_, hl⟩) <;> rcases hr with rfl | rfl <;>
      simp_all [topOk, Tok.goSt, needs]
  case escapeUnicode =>
    obtain ⟨hr, hn⟩ := ht
    unfold mUnicode
    dsimp only at hr hn ⊢
    split_ifs <;> (refine ⟨?_, hl⟩) <;> rcases hr with rfl | rfl <;>
      simp_all [topOk, Tok.goSt, needs]
  case array =>
    split_ifs <;> simp_all [Inv, topOk, Tok.go, Tok.push, rank, rankSt, needs, resumable, resetLevel,
      lowOk]
  case arrayAdd =>
    simp only [topOk, needs] at ht
    cases cur <;> simp_all [isArr, arrayAdd, Inv, topOk, rank, rankSt, needs, resumable]
  case arraySep =>
    split_ifs <;> simp_all [Inv, topOk, Tok.go, needs, resumable]
  case objectFieldStart =>
    split_ifs <;> simp_all [Inv, topOk, Tok.go, Tok.goSt, needs, resumable]
  case objectField =>
    split_ifs <;> simp_all [Inv, topOk, Tok.go, needs, resumable]
  case objectFieldEnd =>
    split_ifs <;> simp_all [Inv, topOk, Tok.go, needs, resumable]
  case objectValue =>
    split_ifs <;> simp_all [Inv, topOk, Tok.go, Tok.push, rank, rankSt, needs, resumable, resetLevel,
      lowOk]
  case objectValueAdd =>
    simp only [topOk, needs] at ht
    cases cur <;> cases fld <;>
      simp_all [isObj, objectAdd, Inv, topOk, rank, rankSt, needs, resumable]
  case objectSep =>
    split_ifs <;> simp_all [Inv, topOk, Tok.go, needs, resumable]

theorem char_inv (n : Nat) (t : Tok) (obj : Node) (c : Nat) (h : Inv t) (hn : rank t.lv ≤ n) :
    match char dbl n t obj c with
    | .next t' => Inv t'
    | .out t' _ => Inv t'
    | _ => False := by
  induction n generalizing t obj with
  | zero =>
    exfalso
    revert hn
    unfold rank
    cases t.lv.st <;> simp [rankSt]
  | succ n ih =>
    have hm := micro_inv dbl t obj c h
    unfold char
    cases h1 : micro dbl t obj c with
    | redo t' o' => rw [h1] at hm; exact ih t' o' hm.1 (by have := hm.2; omega)
    | next t' => rw [h1] at hm; exact hm
    | out t' e => rw [h1] at hm; exact hm
    | ub => rw [h1] at hm; exact hm

theorem rank_le (t : Tok) : rank t.lv ≤ turns := by
  unfold rank turns
  cases t.lv.st <;> simp only [rankSt] <;> first | omega | (cases t.lv.saved <;> simp [rankSt])

theorem loop_inv (t : Tok) (s : Bytes) (h : Inv t) :
    match loop dbl t s with
    | .more t' => Inv t'
    | .stop t' _ _ => Inv t'
    | .ub => False := by
  induction s generalizing t with
  | nil => exact h
  | cons c cs ih =>
    rw [loop_cons]
    have hc := char_inv dbl turns t .null c h (rank_le t)
    cases h1 : char dbl turns t .null c with
    | redo => rw [h1] at hc; exact hc
    | ub => rw [h1] at hc; exact hc
    | out t' e => rw [h1] at hc; exact hc
    | next t' =>
      rw [h1] at hc
      dsimp only at hc ⊢
      split_ifs
      · exact hc
      · exact ih t' hc

theorem parseMain_inv (t : Tok) (s : Bytes) (h : Inv t) :
    ∃ r, parseMain dbl t s = some r ∧ Inv r.tok := by
  have := loop_inv dbl t s h
  unfold parseMain
  cases h1 : loop dbl t s with
  | ub => rw [h1] at this; exact this.elim
  | more t' => rw [h1] at this; exact ⟨_, rfl, this⟩
  | stop t' e c => rw [h1] at this; exact ⟨_, rfl, this⟩

theorem parseEx_inv (t : Tok) (s : Bytes) (h : Inv t) :
    ∃ r, parseEx dbl t s = some r ∧ Inv r.tok := by
  unfold parseEx
  split_ifs
  · exact parseMain_inv dbl t s h
  · dsimp only
    split
    · exact ⟨_, rfl, h⟩
    · split_ifs
      · exact ⟨_, rfl, h⟩
      · exact parseMain_inv dbl _ _ h

/-- A caller that feeds every piece whatever the answers. -/
def feedAny (t : Tok) : List Bytes → Option Tok
  | [] => some t
  | p :: ps =>
    match parseEx dbl t p with
    | none => none
    | some r => feedAny r.tok ps

/-- No sequence of calls, with any bytes at all and whatever errors came before, makes
the tokener use a missing object or key or loop on one character. -/
theorem C40_no_undefined (ps : List Bytes) : feedAny dbl newTok ps ≠ none := by
  have : ∀ t, Inv t → feedAny dbl t ps ≠ none := by
    induction ps with
    | nil => intro t _; simp [feedAny]
    | cons p ps ih =>
      intro t h
      obtain ⟨r, hr, hi⟩ := parseEx_inv dbl t p h
      simp only [feedAny, hr]
      exact ih _ hi
  exact this _ ⟨by simp [newTok, resetLevel, topOk, resumable, needs], by simp [newTok]⟩

/-! ### Witnesses -/

/-- The error of a result. -/
def errOf (r : Option (Err × Node)) : Option Err := r.map (·.1)

/-- C40 fails when the first piece is blank: the call check reports an unexpected end,
while the whole text parses. -/
theorem C40_blank_first_violated :
    errOf (feedAll (fun _ => none) newTok (bytesOf " ") [bytesOf "[]"]) = some .eof ∧
    errOf (atOnce (fun _ => none) (bytesOf " []")) = some .success := by
  decide +kernel

/-- C40 fails when a piece after trailing text is empty: the tokener asks for more. -/
theorem C40_empty_piece_violated :
    errOf (feedAll (fun _ => none) newTok (bytesOf "[]x") [[]]) = some .cont ∧
    errOf (atOnce (fun _ => none) (bytesOf "[]x")) = some .success := by
  decide +kernel

/-- C40 fails for the caller that stops at the first answer when a bad comment follows. -/
theorem C40_trailing_comment_violated :
    errOf (feedFirst (fun _ => none) newTok (bytesOf "[]") [bytesOf "/x"]) = some .success ∧
    errOf (atOnce (fun _ => none) (bytesOf "[]/x")) = some .comment := by
  decide +kernel

/-- C40 fails around a NUL byte: it ends the call, so the rest of its piece is lost but
a later piece is not. -/
theorem C40_nul_violated :
    errOf (feedAll (fun _ => none) newTok (bytesOf "{}/*" ++ [0]) [bytesOf "x"]) = some .cont ∧
    errOf (atOnce (fun _ => none) (bytesOf "{}/*" ++ [0] ++ bytesOf "x")) = some .success := by
  decide +kernel

/-- The hypotheses of `C40_pieces_partial` are met by a text cut inside a string escape,
a number and a literal. -/
example : ¬ blank (bytesOf " [ \"a\\") ∧
    errOf (feedAll (fun _ => none) newTok (bytesOf " [ \"a\\")
      [bytesOf "u00", bytesOf "e9\", 1", bytesOf "2, tr", bytesOf "ue ]"]) = some .success := by
  refine ⟨fun h => ?_, by decide +kernel⟩
  have := h 91 (by decide)
  revert this
  decide

end Mtev.Json
