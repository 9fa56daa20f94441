import Verif.Token

/-!
# Command lines are split as they are quoted (C86)
-/

namespace Mtev.Token

/-! ### Specification: how words are written -/

/-- Blanks, tabs and line ends. -/
def Blank (c : Nat) : Prop := c = 9 ∨ c = 10 ∨ c = 13 ∨ c = 32

/-- The characters with an escape: what is written behind the backslash, and what it means. -/
def escapes : List (Nat × Nat) :=
  [(32, 32), (34, 34), (110, 10), (114, 13), (116, 9), (97, 7), (98, 8), (118, 11), (102, 12),
   (48, 0), (92, 92)]

/-- `InDouble text w`: between double quotes `text` stands for `w`. -/
inductive InDouble : List Nat → List Nat → Prop
  | nil : InDouble [] []
  | plain {c t w} : c ≠ 34 → c ≠ 92 → InDouble t w → InDouble (c :: t) (c :: w)
  | esc {e v t w} : (e, v) ∈ escapes → InDouble t w → InDouble (92 :: e :: t) (v :: w)
  | other {c t w} : (∀ v, (c, v) ∉ escapes) → InDouble t w → InDouble (92 :: c :: t) (92 :: c :: w)

/-- `InBare text w`: in a word without quotes, behind its first character, `text` stands for `w`. -/
inductive InBare : List Nat → List Nat → Prop
  | nil : InBare [] []
  | plain {c t w} : ¬ Blank c → c ≠ 92 → InBare t w → InBare (c :: t) (c :: w)
  | blank {t w} : InBare t w → InBare (92 :: 32 :: t) (32 :: w)
  | back {c t w} : ¬ Blank c → c ≠ 92 → InBare t w → InBare (92 :: c :: t) (92 :: c :: w)

/-- `Spells text w`: `text` is a way to write the word `w`. -/
inductive Spells : List Nat → List Nat → Prop
  | single {w} : 39 ∉ w → Spells (39 :: (w ++ [39])) w
  | double {t w} : InDouble t w → Spells (34 :: (t ++ [34])) w
  | bare {c t w} : ¬ Blank c → c ≠ 34 → c ≠ 39 → c ≠ 92 → InBare t w → Spells (c :: t) (c :: w)

/-- `Before ws text`: the text writes the words `ws`, each followed by at least one blank. -/
inductive Before : List (List Nat) → List Nat → Prop
  | nil {a} : (∀ c ∈ a, Blank c) → Before [] a
  | cons {a t b text w ws} : (∀ c ∈ a, Blank c) → Spells t w → 0 ∉ w → Blank b → Before ws (b :: text) →
      Before (w :: ws) (a ++ (t ++ b :: text))

/-- `Line ws text`: the text is a command line with the words `ws`. -/
inductive Line : List (List Nat) → List Nat → Prop
  | ended {ws text} : Before ws text → Line ws text
  | last {ws text t w} : Before ws text → Spells t w → 0 ∉ w → Line (ws ++ [w]) (text ++ t)

/-! ### Proofs -/

theorem isWs_iff (c : Nat) : isWs c = true ↔ Blank c := by
  unfold isWs Blank; simp [or_assoc]

theorem escapes_iff (c v : Nat) : (c, v) ∈ escapes ↔ escaped c = some v := by
  unfold escapes escaped
  simp only [List.mem_cons, Prod.mk.injEq, List.not_mem_nil, or_false]
  repeat' split
  all_goals (subst_vars; try simp)
  all_goals try omega
  all_goals (constructor <;> (intro h; omega))

theorem escaped_none {c : Nat} (h : ∀ v, (c, v) ∉ escapes) : escaped c = none := by
  cases e : escaped c with
  | none => rfl
  | some v => exact absurd ((escapes_iff c v).2 e) (h v)

theorem InDouble.unesc {t w : List Nat} (h : InDouble t w) : unesc none t = w := by
  induction h with
  | nil => rfl
  | plain _ h2 _ ih => rw [unesc_plain _ h2, ih]
  | esc h1 _ ih => rw [unesc_esc ((escapes_iff _ _).1 h1), ih]
  | other h1 _ ih => rw [unesc_other (escaped_none h1), ih]

theorem InDouble.closed {t w : List Nat} (h : InDouble t w) (rest : List Nat) :
    dqRun (t ++ 34 :: rest) = .closed t rest := by
  induction h with
  | nil => exact dqRun_quote rest
  | plain h1 h2 _ ih => rw [List.cons_append, dqRun_plain h1 h2, ih]; rfl
  | esc h1 _ ih => rw [List.cons_append, List.cons_append, dqRun_esc, ih]; rfl
  | other h1 _ ih => rw [List.cons_append, List.cons_append, dqRun_esc, ih]; rfl

theorem InDouble.missing {t w : List Nat} (h : InDouble t w) : dqRun t = .missing := by
  induction h with
  | nil => rfl
  | plain h1 h2 _ ih => rw [dqRun_plain h1 h2, ih]; rfl
  | esc h1 _ ih => rw [dqRun_esc, ih]; rfl
  | other h1 _ ih => rw [dqRun_esc, ih]; rfl

/-- Nothing more of a word follows. -/
def Stop (rest : List Nat) : Prop := rest = [] ∨ ∃ b r, rest = b :: r ∧ Blank b

theorem wordRun_stop {rest : List Nat} (h : Stop rest) : wordRun false rest = ([], rest) := by
  rcases h with rfl | ⟨b, r, rfl, hb⟩
  · rfl
  · simp [wordRun, (isWs_iff b).2 hb]

theorem InBare.run {t w : List Nat} (h : InBare t w) {rest : List Nat} (hs : Stop rest) :
    wordRun false (t ++ rest) = (t, rest) ∧ Token.unesc (some 32) t = w := by
  induction h with
  | nil => exact ⟨wordRun_stop hs, rfl⟩
  | @plain c t w h1 h2 _ ih =>
    have h3 : isWs c = false := by
      rw [Bool.eq_false_iff]; intro e; exact h1 ((isWs_iff c).1 e)
    have h4 : (c == 92) = false := by simpa using h2
    refine ⟨?_, by rw [unesc_plain _ h2, ih.2]⟩
    rw [List.cons_append, wordRun, h3, h4, ih.1]; simp
  | blank _ ih =>
    refine ⟨?_, by rw [unesc_blank, ih.2]⟩
    rw [List.cons_append, List.cons_append, wordRun, if_neg (by decide)]
    simp only [beq_self_eq_true]
    rw [wordRun, if_neg (by decide)]
    have : ((32 : Nat) == 92) = false := by decide
    rw [this, ih.1]
  | @back c t w h1 h2 _ ih =>
    have h4 : (c == 92) = false := by simpa using h2
    have h5 : (32 : Nat) ≠ c := by rintro rfl; exact h1 (by unfold Blank; simp)
    refine ⟨?_, by rw [unesc_keep h5, unesc_plain _ h2, ih.2]⟩
    rw [List.cons_append, List.cons_append, wordRun, if_neg (by decide)]
    simp only [beq_self_eq_true]
    rw [wordRun, if_neg (by intro e; exact h1 (by unfold Blank; omega)), h4, ih.1]

theorem Spells.head {t w : List Nat} (h : Spells t w) : ∃ c s, t = c :: s ∧ ¬ Blank c := by
  cases h with
  | single h => exact ⟨39, _, rfl, by unfold Blank; omega⟩
  | double h => exact ⟨34, _, rfl, by unfold Blank; omega⟩
  | bare h => exact ⟨_, _, rfl, h⟩

theorem takeWhile_to {w : List Nat} (h : 39 ∉ w) (rest : List Nat) :
    (w ++ 39 :: rest).takeWhile (· ≠ 39) = w ∧
    (w ++ 39 :: rest).dropWhile (· ≠ 39) = 39 :: rest := by
  induction w with
  | nil => simp
  | cons a t ih =>
    simp only [List.mem_cons, not_or] at h
    have := ih h.2
    have ha : a ≠ 39 := fun e => h.1 e.symm
    simp only [List.cons_append]
    rw [List.takeWhile_cons, List.dropWhile_cons]
    simp only [ne_eq, ha, not_false_eq_true, decide_true, if_true]
    exact ⟨by rw [this.1], this.2⟩

theorem Spells.scan {t w : List Nat} (h : Spells t w) (h0 : 0 ∉ w) {rest : List Nat}
    (hs : Stop rest) : Token.scan (t ++ rest) = (.word w, rest) := by
  cases h with
  | single h =>
    rw [List.cons_append, Token.scan, if_neg (by decide), if_neg (by decide), if_pos rfl,
      if_neg (by simp), List.append_assoc, List.singleton_append, (takeWhile_to h rest).1,
      (takeWhile_to h rest).2]
  | double h =>
    rw [List.cons_append, Token.scan, if_neg (by decide), if_pos rfl, List.append_assoc,
      List.singleton_append, h.closed, ]
    simp only
    rw [h.unesc, cstr_id h0]
  | bare h1 h2 h3 h4 h5 =>
    obtain ⟨e1, e2⟩ := h5.run hs
    rw [List.cons_append, Token.scan, if_neg (by rw [isWs_iff]; exact h1), if_neg h2, if_neg h3, e1,
      unesc_plain _ h4, e2, cstr_id h0]

theorem dropWhile_blank {a : List Nat} (ha : ∀ c ∈ a, Blank c) {l : List Nat}
    (hl : l = [] ∨ ∃ c s, l = c :: s ∧ ¬ Blank c) : (a ++ l).dropWhile isWs = l := by
  induction a with
  | nil =>
    rcases hl with rfl | ⟨c, s, rfl, hc⟩
    · rfl
    · rw [List.nil_append, List.dropWhile_cons, if_neg (by rw [isWs_iff]; exact hc)]
  | cons b a ih =>
    rw [List.cons_append, List.dropWhile_cons, if_pos ((isWs_iff b).2 (ha b (by simp)))]
    exact ih (fun c hc => ha c (by simp [hc]))

/-- Blanks are skipped. -/
theorem loop_blank {len cnt fuel i : Nat} {vec : List (List Nat)} {a l : List Nat}
    (ha : ∀ c ∈ a, Blank c) (hl : l = [] ∨ ∃ c s, l = c :: s ∧ ¬ Blank c)
    (hf : (a ++ l).length < fuel) :
    ∃ fuel', l.length < fuel' ∧ loop len cnt fuel (a ++ l) i vec = loop len cnt fuel' l i vec := by
  cases a with
  | nil => exact ⟨fuel, by simpa using hf, rfl⟩
  | cons b a =>
    cases fuel with
    | zero => simp at hf
    | succ fuel =>
      refine ⟨fuel, by simp at hf; omega, ?_⟩
      rw [List.cons_append, loop, Token.scan, if_pos ((isWs_iff b).2 (ha b (by simp))),
        dropWhile_blank (fun c hc => ha c (by simp [hc])) hl]

/-- The vector after words were found. -/
def stored (cnt i : Nat) (vec ws : List (List Nat)) : List (List Nat) := vec ++ ws.take (cnt - i)

theorem loop_word {len cnt fuel i : Nat} {vec : List (List Nat)} {t w rest : List Nat}
    (h : Spells t w) (h0 : 0 ∉ w) (hs : Stop rest) (hf : (t ++ rest).length < fuel) :
    ∃ fuel', rest.length < fuel' ∧ loop len cnt fuel (t ++ rest) i vec =
      loop len cnt fuel' rest (i + 1) (stored cnt i vec [w]) := by
  cases fuel with
  | zero => simp at hf
  | succ fuel =>
    obtain ⟨c, s, e, -⟩ := h.head
    refine ⟨fuel, by subst e; simp at hf; omega, ?_⟩
    rw [loop, h.scan h0 hs]
    simp only
    unfold stored
    split
    · rename_i hi
      rw [List.take_of_length_le (by simp; omega)]
    · rename_i hi
      rw [show cnt - i = 0 by omega]; simp

theorem stored_cons (cnt i : Nat) (vec : List (List Nat)) (w : List Nat) (ws : List (List Nat)) :
    stored cnt (i + 1) (stored cnt i vec [w]) ws = stored cnt i vec (w :: ws) := by
  unfold stored
  by_cases h : i < cnt
  · rw [show cnt - i = (cnt - (i + 1)) + 1 by omega, List.take_succ_cons, List.take_succ_cons]
    simp
  · rw [show cnt - i = 0 by omega, show cnt - (i + 1) = 0 by omega]; simp

theorem loop_before {len cnt : Nat} {ws : List (List Nat)} {text : List Nat} (h : Before ws text) :
    ∀ {l : List Nat}, (l = [] ∨ ∃ c s, l = c :: s ∧ ¬ Blank c) →
    ∀ {fuel i : Nat} {vec : List (List Nat)}, (text ++ l).length < fuel →
    ∃ fuel', l.length < fuel' ∧ loop len cnt fuel (text ++ l) i vec =
      loop len cnt fuel' l (i + ws.length) (stored cnt i vec ws) := by
  induction h with
  | nil ha =>
    intro l hl fuel i vec hf
    obtain ⟨f, h1, h2⟩ := loop_blank (len := len) (cnt := cnt) (i := i) (vec := vec) ha hl hf
    exact ⟨f, h1, by rw [h2]; simp [stored]⟩
  | @cons a t b text w ws ha hsp h0 hb _ ih =>
    intro l hl fuel i vec hf
    obtain ⟨c, s, et, hc⟩ := hsp.head
    have e : a ++ (t ++ b :: text) ++ l = a ++ (t ++ (b :: text ++ l)) := by simp
    rw [e] at hf ⊢
    obtain ⟨f1, g1, e1⟩ := loop_blank (len := len) (cnt := cnt) (i := i) (vec := vec)
      (l := t ++ (b :: text ++ l)) ha (.inr ⟨c, s ++ (b :: text ++ l), by rw [et]; rfl, hc⟩) hf
    obtain ⟨f2, g2, e2⟩ := loop_word (len := len) (cnt := cnt) (i := i) (vec := vec) hsp h0
      (rest := b :: text ++ l) (.inr ⟨b, text ++ l, rfl, hb⟩) g1
    obtain ⟨f3, g3, e3⟩ := ih hl (fuel := f2) (i := i + 1) (vec := stored cnt i vec [w]) g2
    refine ⟨f3, g3, ?_⟩
    rw [e1, e2, e3, stored_cons]
    congr 1
    simp; omega

theorem loop_nil {len cnt fuel i : Nat} {vec : List (List Nat)} (h : 0 < fuel) :
    loop len cnt fuel [] i vec = ⟨vec, if i < cnt then i else cnt, i⟩ := by
  cases fuel with
  | zero => omega
  | succ f => rw [loop, Token.scan]

/-- C86: a command line gives exactly the words written in it, however they are quoted, the number
of words is returned, and no more words are stored than there is room for. -/
theorem C86_words {ws : List (List Nat)} {text : List Nat} (h : Line ws text) (cnt : Nat) :
    tokenize text cnt = ⟨ws.take cnt, min ws.length cnt, ws.length⟩ := by
  unfold tokenize
  have fin : ∀ n : Nat, (if n < cnt then n else cnt) = min n cnt := by intro n; split <;> omega
  cases h with
  | ended hb =>
    obtain ⟨f, g, e⟩ := loop_before (len := text.length) (cnt := cnt) hb (l := []) (.inl rfl)
      (fuel := text.length + 1) (i := 0) (vec := []) (by simp)
    rw [List.append_nil] at e
    rw [e, loop_nil (by simpa using g), Nat.zero_add, fin]
    simp [stored]
  | @last ws text t w hb hsp h0 =>
    obtain ⟨c, s, et, hc⟩ := hsp.head
    obtain ⟨f, g, e⟩ := loop_before (len := (text ++ t).length) (cnt := cnt) hb (l := t)
      (.inr ⟨c, s, et, hc⟩) (fuel := (text ++ t).length + 1) (i := 0) (vec := []) (by simp)
    obtain ⟨f2, g2, e2⟩ := loop_word (len := (text ++ t).length) (cnt := cnt) (i := 0 + ws.length)
      (vec := stored cnt 0 [] ws) hsp h0 (rest := []) (.inl rfl) (by simpa using g)
    rw [List.append_nil] at e2
    rw [e, e2, loop_nil (by simpa using g2), fin]
    have : stored cnt (0 + ws.length) (stored cnt 0 [] ws) [w] = (ws ++ [w]).take cnt := by
      unfold stored
      rw [List.take_append]; simp
    rw [this]
    simp

/-- The command line `show 'a b' "c\"d" e\ f`. -/
example : Line [bytesOf "show", bytesOf "a b", bytesOf "c\"d", bytesOf "e f"]
    (bytesOf "show 'a b' \"c\\\"d\" e\\ f") := by
  have b32 : ∀ c ∈ [32], Blank c := by simp [Blank]
  have h1 : Spells (bytesOf "show") (bytesOf "show") :=
    .bare (by unfold Blank; decide) (by decide) (by decide) (by decide)
      (.plain (by unfold Blank; decide) (by decide) (.plain (by unfold Blank; decide) (by decide)
        (.plain (by unfold Blank; decide) (by decide) .nil)))
  have h2 : Spells (39 :: (bytesOf "a b" ++ [39])) (bytesOf "a b") := .single (by decide)
  have h3 : Spells (34 :: ([99, 92, 34, 100] ++ [34])) [99, 34, 100] :=
    .double (.plain (by decide) (by decide) (.esc (by decide) (.plain (by decide) (by decide) .nil)))
  have h4 : Spells [101, 92, 32, 102] [101, 32, 102] :=
    .bare (by unfold Blank; decide) (by decide) (by decide) (by decide)
      (.blank (.plain (by unfold Blank; decide) (by decide) .nil))
  exact .last (.cons (a := []) (by simp) h1 (by decide) (b := 32) (by simp [Blank])
    (.cons (a := [32]) b32 h2 (by decide) (b := 32) (by simp [Blank])
      (.cons (a := [32]) b32 h3 (by decide) (b := 32) (by simp [Blank])
        (.nil b32)))) h4 (by decide)

/-- A way to write any word: between double quotes, with a backslash in front of double quotes and
backslashes. -/
def quote (w : List Nat) : List Nat :=
  34 :: ((w.map (fun c => if c = 34 ∨ c = 92 then [92, c] else [c])).flatten ++ [34])

/-- C86: every word can be written. -/
theorem C86_quotable (w : List Nat) : Spells (quote w) w := by
  refine .double ?_
  induction w with
  | nil => exact .nil
  | cons c w ih =>
    simp only [List.map_cons, List.flatten_cons]
    split
    · rename_i h
      refine .esc ?_ ih
      rcases h with rfl | rfl <;> decide
    · rename_i h
      push Not at h
      exact .plain h.1 h.2 ih

theorem before_quoted (ws : List (List Nat)) (h : ∀ w ∈ ws, 0 ∉ w) (a : List Nat)
    (ha : ∀ c ∈ a, Blank c) :
    Before ws (a ++ (ws.map (fun w => quote w ++ [32])).flatten) := by
  induction ws generalizing a with
  | nil => simp only [List.map_nil, List.flatten_nil, List.append_nil]; exact .nil ha
  | cons w ws ih =>
    have := ih (fun x hx => h x (by simp [hx])) [32] (by simp [Blank])
    have e : a ++ ((w :: ws).map (fun w => quote w ++ [32])).flatten =
        a ++ (quote w ++ 32 :: (ws.map (fun w => quote w ++ [32])).flatten) := by simp
    rw [e]
    exact .cons ha (C86_quotable w) (h w (by simp)) (by simp [Blank]) this

/-- C86: any words survive being written with quotes and split again. -/
theorem C86_round_trip (ws : List (List Nat)) (h : ∀ w ∈ ws, 0 ∉ w) :
    tokenize (ws.map (fun w => quote w ++ [32])).flatten ws.length = ⟨ws, ws.length, ws.length⟩ := by
  have := C86_words (.ended (before_quoted ws h [] (by simp))) ws.length
  rw [List.nil_append] at this
  rw [this]; simp

example : tokenize (([bytesOf "a\"b", [], bytesOf "x y\\"].map (fun w => quote w ++ [32])).flatten) 3 =
    ⟨[bytesOf "a\"b", [], bytesOf "x y\\"], 3, 3⟩ := by decide +kernel

/-- C86: a missing closing double quote is an error (a negative result), and the words in front of
it are stored. -/
theorem C86_missing_quote_partial {ws : List (List Nat)} {text body w : List Nat}
    (h : Before ws text) (hb : InDouble body w) (cnt : Nat) :
    tokenize (text ++ 34 :: body) cnt =
      ⟨ws.take cnt, min ws.length cnt, -(((text ++ 34 :: body).length : Int) + 1)⟩ := by
  unfold tokenize
  obtain ⟨f, g, e⟩ := loop_before (len := (text ++ 34 :: body).length) (cnt := cnt) h
    (l := 34 :: body) (.inr ⟨34, body, rfl, by unfold Blank; omega⟩)
    (fuel := (text ++ 34 :: body).length + 1) (i := 0) (vec := []) (by simp)
  rw [e]
  cases f with
  | zero => simp at g
  | succ f =>
    rw [loop, Token.scan, if_neg (by decide), if_pos rfl, hb.missing]
    simp only [Nat.zero_add]
    have : (if ws.length < cnt then ws.length else cnt) = min ws.length cnt := by split <;> omega
    rw [this]
    simp [stored]

/-- The line `a "b` meets the hypotheses of `C86_missing_quote_partial`. -/
example : tokenize (bytesOf "a \"b") 9 = ⟨[bytesOf "a"], 1, -5⟩ := by decide +kernel

/-- C86 is false of the code for other unfinished quotes: behind a single quote, or with a backslash
at the end, the unfinished word is dropped and the line taken for complete. -/
theorem C86_missing_quote_violated :
    tokenize (bytesOf "a 'b c") 9 = ⟨[bytesOf "a"], 1, 1⟩ ∧
    tokenize (bytesOf "a \"b\\") 9 = ⟨[bytesOf "a"], 1, 1⟩ := by decide +kernel

/-- C86 is false of the code for an escaped blank at the beginning of a word: it ends the word. -/
theorem C86_leading_blank_violated :
    tokenize (bytesOf "x\\ a") 9 = ⟨[bytesOf "x a"], 1, 1⟩ ∧
    tokenize (bytesOf "\\ a") 9 = ⟨[bytesOf "\\", bytesOf "a"], 2, 2⟩ := by decide +kernel

/-- C86: unescaping never needs more room than the text it overwrites. -/
theorem C86_in_place (only : Option Nat) (l : List Nat) : (unesc only l).length ≤ l.length :=
  unesc_length only l.length l (Nat.le_refl _)

theorem loop_room (len cnt : Nat) : ∀ (fuel : Nat) (l : List Nat) (i : Nat) (vec : List (List Nat)),
    l.length < fuel → vec.length = min i cnt →
    (loop len cnt fuel l i vec).vector.length ≤ cnt ∧
      (loop len cnt fuel l i vec).cnt = (loop len cnt fuel l i vec).vector.length := by
  intro fuel
  induction fuel with
  | zero => intro l i vec hl; omega
  | succ f ih =>
    intro l i vec hl h
    unfold loop
    split
    · rename_i e
      have := scan_lt e (by simp) (by simp)
      exact ih _ _ _ (by omega) h
    · rename_i e
      have := scan_lt e (by simp) (by simp)
      refine ih _ _ _ (by omega) ?_
      split
      · simp; omega
      · omega
    · simp; split <;> omega
    · simp; split <;> omega

/-- C86: whatever the text, at most `cnt` words are stored, and `*cnt` tells how many. -/
theorem C86_room (text : List Nat) (cnt : Nat) :
    (tokenize text cnt).vector.length ≤ cnt ∧
      (tokenize text cnt).cnt = (tokenize text cnt).vector.length :=
  loop_room _ _ _ _ _ _ (by simp) (by simp)

end Mtev.Token
