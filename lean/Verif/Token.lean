import Verif.Mem

/-!
# Model of the command line tokenizer, `src/mtev_tokenizer.c`

The text is the list of its bytes without the terminating NUL (so the list contains no 0); the
place `next` points to is the list of the bytes that are left.  Only lengths of texts bound the
pointers; `int` overflow of the count is not modelled.
-/

namespace Mtev.Token

/-- The bytes that end words: tab, newline, return, blank (mtev_tokenizer.c:89-92). -/
def isWs (c : Nat) : Bool := c == 9 || c == 10 || c == 13 || c == 32

/-- The escapes of `c_unescape`, mtev_tokenizer.c:56-66; `none` is the default case. -/
def escaped (c : Nat) : Option Nat :=
  if c = 32 then some 32 else if c = 34 then some 34 else if c = 110 then some 10
  else if c = 114 then some 13 else if c = 116 then some 9 else if c = 97 then some 7
  else if c = 98 then some 8 else if c = 118 then some 11 else if c = 102 then some 12
  else if c = 48 then some 0 else if c = 92 then some 92 else none

/-- `c_unescape`, mtev_tokenizer.c:50-75: what is written over the text. -/
def unesc (only : Option Nat) : List Nat → List Nat
  | [] => []
  | [c] => [c]
  | c :: d :: t =>
    if c = 92 ∧ (only = none ∨ only = some d) then
      match escaped d with
      | some v => v :: unesc only t
      | none => c :: d :: unesc only t
    else c :: unesc only (d :: t)
termination_by structural l => l

/-- A token read as a C string. -/
def cstr (l : List Nat) : List Nat := l.takeWhile (· ≠ 0)

/-- A word behind its first character, mtev_tokenizer.c:163-187: the characters that belong to it
and what is left.  The flag says that the character before was a backslash (state `yy14`). -/
def wordRun : Bool → List Nat → List Nat × List Nat
  | _, [] => ([], [])
  | false, c :: t =>
    if isWs c then ([], c :: t) else (c :: (wordRun (c == 92) t).1, (wordRun (c == 92) t).2)
  | true, c :: t =>
    if c = 9 ∨ c = 10 ∨ c = 13 then ([], c :: t)
    else (c :: (wordRun (c == 92) t).1, (wordRun (c == 92) t).2)

/-- How the search for the closing `"` ends. -/
inductive DqEnd where
  /-- at the quote: what was between, and what is behind it -/
  | closed (body rest : List Nat)
  /-- at the end of the text behind a backslash (`yy28`) -/
  | backslash
  /-- at the end of the text (`yy33`) -/
  | missing
deriving DecidableEq, Repr

/-- Puts characters in front of what was between the quotes. -/
def DqEnd.push (p : List Nat) : DqEnd → DqEnd
  | .closed b r => .closed (p ++ b) r
  | e => e

/-- The state `dqstring`, mtev_tokenizer.c:234-290. -/
def dqRun : List Nat → DqEnd
  | [] => .missing
  | [c] => if c = 34 then .closed [] [] else if c = 92 then .backslash else .missing
  | c :: d :: t =>
    if c = 34 then .closed [] (d :: t)
    else if c = 92 then (dqRun t).push [c, d]
    else (dqRun (d :: t)).push [c]
termination_by structural l => l

/-- A token. -/
inductive Tok where
  | space
  | word (text : List Nat)
  | eof
  | unknown
deriving DecidableEq, Repr

/-- `token_scan`, mtev_tokenizer.c:78-292: the token and what is left. -/
def scan : List Nat → Tok × List Nat
  | [] => (.eof, [])
  | c :: t =>
    if isWs c then (.space, t.dropWhile isWs)
    else if c = 34 then
      match dqRun t with
      | .closed body rest => (.word (cstr (unesc none body)), rest)
      | .backslash => (.eof, [])
      | .missing => (.unknown, [])
    else if c = 39 then
      if t = [] then (.unknown, [])
      else match t.dropWhile (· ≠ 39) with
        | [] => (.eof, [])
        | _ :: rest => (.word (t.takeWhile (· ≠ 39)), rest)
    else (.word (cstr (unesc (some 32) (c :: (wordRun false t).1))), (wordRun false t).2)

/-- What `mtev_tokenize` returns. -/
structure Result where
  /-- the words stored in the vector -/
  vector : List (List Nat)
  /-- `*cnt` -/
  cnt : Nat
  /-- the return value -/
  ret : Int
deriving DecidableEq, Repr

/-- The loop of `mtev_tokenize`, mtev_tokenizer.c:295-321: `i` words were found, `vec` are those
that were stored.  Each round takes at least one character, so that `fuel` is the length of the
text plus one.  The text ends at offset `len`, and `next` is behind the NUL when the scan fails. -/
def loop (len cnt : Nat) : Nat → List Nat → Nat → List (List Nat) → Result
  | 0, _, i, vec => ⟨vec, cnt, i⟩
  | fuel + 1, l, i, vec =>
    match scan l with
    | (.space, r) => loop len cnt fuel r i vec
    | (.word w, r) => loop len cnt fuel r (i + 1) (if i < cnt then vec ++ [w] else vec)
    | (.eof, _) => ⟨vec, if i < cnt then i else cnt, i⟩
    | (.unknown, _) => ⟨vec, if i < cnt then i else cnt, -((len : Int) + 1)⟩

/-- `mtev_tokenize`, mtev_tokenizer.c:295-321. -/
def tokenize (input : List Nat) (cnt : Nat) : Result :=
  loop input.length cnt (input.length + 1) input 0 []

/-! ### Lemmas -/

theorem wordRun_le (b : Bool) (l : List Nat) : (wordRun b l).2.length ≤ l.length := by
  induction l generalizing b with
  | nil => cases b <;> simp [wordRun]
  | cons c t ih =>
    cases b <;> unfold wordRun <;> split <;> simp
    · have := ih (c == 92); omega
    · have := ih (c == 92); omega

theorem dqRun_le : ∀ (n : Nat) (l b r : List Nat), l.length ≤ n → dqRun l = .closed b r → r.length < l.length := by
  intro n
  induction n with
  | zero => intro l b r hl h; cases l with
    | nil => simp [dqRun] at h
    | cons => simp at hl
  | succ n ih =>
    intro l b r hl h
    match l with
    | [] => simp [dqRun] at h
    | [c] =>
      unfold dqRun at h
      split at h
      · simp at h; simp [← h.2]
      · split at h <;> simp at h
    | c :: d :: t =>
      unfold dqRun at h
      split at h
      · simp at h; simp [← h.2]
      · split at h
        · cases e : dqRun t with
          | closed b' r' =>
            rw [e] at h; simp [DqEnd.push] at h
            have := ih t b' r' (by simp at hl; omega) e
            simp [← h.2]; omega
          | backslash => rw [e] at h; simp [DqEnd.push] at h
          | missing => rw [e] at h; simp [DqEnd.push] at h
        · cases e : dqRun (d :: t) with
          | closed b' r' =>
            rw [e] at h; simp [DqEnd.push] at h
            have := ih (d :: t) b' r' (by simp at hl ⊢; omega) e
            simp [← h.2] at this ⊢; omega
          | backslash => rw [e] at h; simp [DqEnd.push] at h
          | missing => rw [e] at h; simp [DqEnd.push] at h

theorem dropWhile_le {α} (p : α → Bool) (l : List α) : (l.dropWhile p).length ≤ l.length := by
  induction l with
  | nil => simp
  | cons a t ih => rw [List.dropWhile_cons]; split <;> simp; omega

/-- Each token that does not end the scan takes a character. -/
theorem scan_lt {l r : List Nat} {t : Tok} (h : scan l = (t, r)) (h1 : t ≠ .eof)
    (h2 : t ≠ .unknown) : r.length < l.length := by
  cases l with
  | nil => simp only [scan, Prod.mk.injEq] at h; exact absurd h.1.symm h1
  | cons c s =>
    simp only [scan] at h
    split at h
    · simp at h; rw [← h.2]; have := dropWhile_le isWs s; simp; omega
    · split at h
      · split at h
        · rename_i e
          simp at h; rw [← h.2]
          have := dqRun_le _ _ _ _ (Nat.le_refl _) e; simp; omega
        · simp at h; exact absurd h.1.symm h1
        · simp at h; exact absurd h.1.symm h2
      · split at h
        · split at h
          · simp at h; exact absurd h.1.symm h2
          · split at h
            · simp at h; exact absurd h.1.symm h1
            · rename_i e
              simp at h; rw [← h.2]
              have := dropWhile_le (fun x => decide (x ≠ 39)) s; rw [e] at this; simp at this ⊢; omega
        · simp at h; rw [← h.2]; have := wordRun_le false s; simp; omega

theorem unesc_plain (o : Option Nat) {c : Nat} (h : c ≠ 92) (l : List Nat) :
    unesc o (c :: l) = c :: unesc o l := by
  cases l with
  | nil => simp [unesc]
  | cons d t => rw [unesc, if_neg (fun e => h e.1)]

theorem unesc_keep {o d : Nat} (h : o ≠ d) (t : List Nat) :
    unesc (some o) (92 :: d :: t) = 92 :: unesc (some o) (d :: t) := by
  rw [unesc, if_neg]
  rintro ⟨-, e | e⟩
  · simp at e
  · simp at e; exact h e

theorem unesc_esc {d v : Nat} (h : escaped d = some v) (t : List Nat) :
    unesc none (92 :: d :: t) = v :: unesc none t := by
  rw [unesc, if_pos ⟨rfl, .inl rfl⟩, h]

theorem unesc_other {d : Nat} (h : escaped d = none) (t : List Nat) :
    unesc none (92 :: d :: t) = 92 :: d :: unesc none t := by
  rw [unesc, if_pos ⟨rfl, .inl rfl⟩, h]

theorem unesc_blank (t : List Nat) : unesc (some 32) (92 :: 32 :: t) = 32 :: unesc (some 32) t := by
  rw [unesc, if_pos ⟨rfl, .inr rfl⟩]; rfl

theorem unesc_length (o : Option Nat) : ∀ (n : Nat) (l : List Nat), l.length ≤ n →
    (unesc o l).length ≤ l.length := by
  intro n
  induction n with
  | zero => intro l h; cases l with
    | nil => simp [unesc]
    | cons => simp at h
  | succ n ih =>
    intro l h
    match l with
    | [] => simp [unesc]
    | [c] => simp [unesc]
    | c :: d :: t =>
      rw [unesc]
      have h1 := ih t (by simp at h; omega)
      have h2 := ih (d :: t) (by simp at h ⊢; omega)
      split
      · split <;> simp <;> omega
      · simp at h2 ⊢; omega

theorem dqRun_plain {c : Nat} (h1 : c ≠ 34) (h2 : c ≠ 92) (l : List Nat) :
    dqRun (c :: l) = (dqRun l).push [c] := by
  cases l with
  | nil => simp [dqRun, h1, h2, DqEnd.push]
  | cons d t => rw [dqRun, if_neg h1, if_neg h2]

theorem dqRun_quote (l : List Nat) : dqRun (34 :: l) = .closed [] l := by
  cases l with
  | nil => simp [dqRun]
  | cons d t => rw [dqRun, if_pos rfl]

theorem dqRun_esc (d : Nat) (t : List Nat) : dqRun (92 :: d :: t) = (dqRun t).push [92, d] := by
  rw [dqRun, if_neg (by decide), if_pos rfl]

theorem push_push (a b : List Nat) (e : DqEnd) : (e.push a).push b = e.push (b ++ a) := by
  cases e <;> simp [DqEnd.push]

theorem cstr_id {l : List Nat} (h : 0 ∉ l) : cstr l = l := by
  unfold cstr
  induction l with
  | nil => rfl
  | cons a t ih =>
    simp only [List.mem_cons, not_or] at h
    rw [List.takeWhile_cons, if_pos (by simpa using fun e => h.1 e.symm), ih h.2]

end Mtev.Token
