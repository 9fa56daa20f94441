import Verif.Logic

/-!
Model of the parsing of logic expressions: the grammar /repo/src/utils/mtev-logic.leg (compiled by `leg` to
mtev-logic-leg.c), the functions that build the tree (/repo/src/utils/mtev_logic.c:314-440) and
`mtev_logic_parse` (448-471).

A rule is a function from the input that is left.  Besides its result it says how much of the input was not
looked at when it was done: the parser reads the text character by character when it needs one
(mtev-logic-leg.c:117-133), and `mtev_logic_parse` decides by the last character read.

Simplified: the parser runs the actions of a rule after the whole expression has been recognised, here each
rule builds its result at once.  Recursion is bounded by the length of the text (`stmt_fuel` shows that a
larger bound makes no difference).
-/

namespace Mtev.Logic

/-- The result of a rule: what it built and the input that is left, and the number of characters that have not
been read. -/
structure Res (α : Type) where
  val : Option (α × List Nat)
  un : Nat

namespace Res
variable {α β : Type}

/-- Success without reading anything. -/
def pure (a : α) (s : List Nat) : Res α := ⟨some (a, s), s.length⟩

/-- Sequence. -/
def andThen (r : Res α) (k : α → List Nat → Res β) : Res β :=
  match r.val with
  | none => ⟨none, r.un⟩
  | some (a, t) => ⟨(k a t).val, min r.un (k a t).un⟩

/-- Ordered choice: the second is tried only if the first fails. -/
def orElse (r q : Res α) : Res α :=
  match r.val with
  | some x => ⟨some x, r.un⟩
  | none => ⟨q.val, min r.un q.un⟩

end Res

/-- `yymatchClass` and `yymatchChar`, mtev-logic-leg.c:142-187. -/
def one (p : Nat → Bool) : List Nat → Res (List Nat)
  | [] => ⟨none, 0⟩
  | c :: t => ⟨if p c then some ([c], t) else none, t.length⟩

/-- `yymatchString`, mtev-logic-leg.c:155-170. -/
def lit : List Nat → List Nat → Res (List Nat)
  | [], s => .pure [] s
  | k :: ks, s => (one (· = k) s).andThen fun a t => (lit ks t).andThen fun b u => .pure (a ++ b) u

/-- `[class]*`. -/
def many (p : Nat → Bool) : List Nat → Res (List Nat)
  | [] => ⟨some ([], []), 0⟩
  | c :: t => if p c then (many p t).andThen fun a u => .pure (c :: a) u else ⟨some ([], c :: t), t.length⟩

/-- `( ... )?` -/
def opt (r : Res (List Nat)) (s : List Nat) : Res (List Nat) := r.orElse (.pure [] s)

/-- `-`, the white space between tokens, mtev-logic.leg:59-61. -/
def skip : List Nat → Res Unit
  | [] => ⟨some ((), []), 0⟩
  | 13 :: 10 :: t => skip t
  | c :: t => if c = 32 ∨ c = 9 ∨ c = 10 ∨ c = 13 then skip t else ⟨some ((), c :: t), t.length⟩

/-- mtev-logic.leg:33-35. -/
def identStart (c : Nat) : Bool := (97 ≤ c && c ≤ 122) || (65 ≤ c && c ≤ 90) || c = 95
def identCont (c : Nat) : Bool := identStart c || isDigit c || c = 46

/-- `Identifier`, mtev-logic.leg:33. -/
def identifier (s : List Nat) : Res (List Nat) :=
  (one identStart s).andThen fun a t => (many identCont t).andThen fun b u => .pure (a ++ b) u

/-- `[-+]`. -/
def isSign (c : Nat) : Bool := c = 45 || c = 43

/-- `[0-9]+`. -/
def digits1 (s : List Nat) : Res (List Nat) :=
  (one isDigit s).andThen fun a t => (many isDigit t).andThen fun b u => .pure (a ++ b) u

/-- `( '.' [0-9]+ )?`. -/
def frac (s : List Nat) : Res (List Nat) :=
  opt ((one (· = 46) s).andThen fun a t => (digits1 t).andThen fun b u => .pure (a ++ b) u) s

/-- `( 'e' [-+] [0-9]+)?`. -/
def expo (s : List Nat) : Res (List Nat) :=
  opt ((one (· = 101) s).andThen fun a t => (one isSign t).andThen fun b u => (digits1 u).andThen fun c v =>
    .pure (a ++ b ++ c) v) s

/-- `Numeric`, mtev-logic.leg:37. -/
def numeric (s : List Nat) : Res (List Nat) :=
  (opt (one isSign s) s).andThen fun a t => (digits1 t).andThen fun b u => (frac u).andThen fun c v =>
    (expo v).andThen fun d w => .pure (a ++ b ++ c ++ d) w

def isOct (c : Nat) : Bool := 48 ≤ c && c ≤ 55
/-- `[abefnrtv'"\\]`. -/
def isEsc (c : Nat) : Bool :=
  c = 97 || c = 98 || c = 101 || c = 102 || c = 110 || c = 114 || c = 116 || c = 118 || c = 39 || c = 34 || c = 92

/-- `Char`, mtev-logic.leg:42-46. -/
def chr (s : List Nat) : Res (List Nat) :=
  ((one (· = 92) s).andThen fun a t => (one isEsc t).andThen fun b u => .pure (a ++ b) u).orElse <|
  ((one (· = 92) s).andThen fun a t => (one (fun c => 48 ≤ c && c ≤ 51) t).andThen fun b u =>
    (one isOct u).andThen fun c v => (one isOct v).andThen fun d w => .pure (a ++ b ++ c ++ d) w).orElse <|
  ((one (· = 92) s).andThen fun a t => (one isOct t).andThen fun b u => (opt (one isOct u) u).andThen fun c v =>
    .pure (a ++ b ++ c) v).orElse <|
  ((one (· = 92) s).andThen fun a t => (one (· = 45) t).andThen fun b u => .pure (a ++ b) u).orElse <|
  one (· ≠ 92) s

/-- `!['] Char`: `Char` unless the closing quote is next. -/
def chrNot (q : Nat) (s : List Nat) : Res (List Nat) :=
  match s with
  | [] => ⟨none, 0⟩
  | c :: t => if c = q then ⟨none, t.length⟩ else chr (c :: t)

/-- `( !['] Char )*`; `n` bounds the number of turns, each of which takes a character. -/
def chars (q : Nat) : Nat → List Nat → Res (List Nat)
  | 0, s => .pure [] s
  | n+1, s => ((chrNot q s).andThen fun a t => (chars q n t).andThen fun b u => .pure (a ++ b) u).orElse (.pure [] s)

/-- A quoted text, without the quotes. -/
def quoted (q : Nat) (s : List Nat) : Res (List Nat) :=
  (one (· = q) s).andThen fun _ t => (chars q (t.length + 1) t).andThen fun a u =>
    (one (· = q) u).andThen fun _ v => .pure a v

/-- `Literal`, mtev-logic.leg:39-40. -/
def literal (s : List Nat) : Res (List Nat) := (quoted 39 s).orElse (quoted 34 s)

/-- The letters of `mtev_logic_ast_strndup_unescape`, mtev_logic.c:388-398. -/
def escVal (c : Nat) : Option Nat :=
  match c with
  | 97 => some 7
  | 98 => some 8
  | 101 => some 27
  | 102 => some 12
  | 110 => some 10
  | 114 => some 13
  | 116 => some 9
  | 118 => some 11
  | 39 => some 39
  | 34 => some 34
  | 92 => some 92
  | _ => none

/-- The loop of `mtev_logic_ast_strndup_unescape`, mtev_logic.c:383-427.  The code works in place; the writing
position never passes the reading position. -/
def unescape : List Nat → List Nat
  | [] => []
  | [c] => if c ≠ 92 then [c] else []
  | [c, d] =>
    if c ≠ 92 then c :: unescape [d]
    else match escVal d with
      | some v => [v]
      | none => if isOct d then [d - 48] else unescape [d]
  | [c, d, e] =>
    if c ≠ 92 then c :: unescape [d, e]
    else match escVal d with
      | some v => v :: unescape [e]
      | none =>
        if isOct d then
          if isOct e then [(d - 48) * 8 + (e - 48)] else (d - 48) :: unescape [e]
        else unescape [d, e]
  | c :: d :: e :: f :: t =>
    if c ≠ 92 then c :: unescape (d :: e :: f :: t)
    else match escVal d with
      | some v => v :: unescape (e :: f :: t)
      | none =>
        if isOct d then
          if isOct e then
            if d ≤ 51 ∧ isOct f then (((d - 48) * 8 + (e - 48)) * 8 + (f - 48)) :: unescape t
            else ((d - 48) * 8 + (e - 48)) :: unescape (f :: t)
          else (d - 48) :: unescape (e :: f :: t)
        else unescape (d :: e :: f :: t)

/-- `LeftLiteral`, mtev-logic.leg:27-28.  The result is used as a C string. -/
def left (s : List Nat) : Res (List Nat) :=
  (identifier s).orElse ((literal s).andThen fun a t => .pure (cstr (unescape a)) t)

/-- `RightLiteral` and `mtev_logic_ast_var`, mtev-logic.leg:30-31, mtev_logic.c:424-440. -/
def right (s : List Nat) : Res Const :=
  ((literal s).andThen fun a t => .pure ⟨.str, cstr (unescape a)⟩ t).orElse
  ((numeric s).andThen fun a t => .pure ⟨if 46 ∈ a then .dbl else .int, a⟩ t)

/-- `Op`, mtev-logic.leg:48-55. -/
def oper (s : List Nat) : Res Op :=
  ((lit [61] s).andThen fun _ t => .pure .eq t).orElse <|
  ((lit [33, 61] s).andThen fun _ t => .pure .ne t).orElse <|
  ((lit [126] s).andThen fun _ t => .pure .re t).orElse <|
  ((lit [33, 126] s).andThen fun _ t => .pure .nre t).orElse <|
  ((lit [60, 61] s).andThen fun _ t => .pure .le t).orElse <|
  ((lit [62, 61] s).andThen fun _ t => .pure .ge t).orElse <|
  ((lit [60] s).andThen fun _ t => .pure .lt t).orElse <|
  ((lit [62] s).andThen fun _ t => .pure .gt t)

/-- `Predicate`, mtev-logic.leg:15-18. -/
def predicate (P : Pcre) (s : List Nat) : Res Node :=
  ((left s).andThen fun l t => (skip t).andThen fun _ t => (oper t).andThen fun op t => (skip t).andThen fun _ t =>
    (right t).andThen fun r t => .pure (mkPred P op l (some r)) t).orElse
  ((lit [101, 120, 105, 115, 116, 115] s).andThen fun _ t => (skip t).andThen fun _ t =>
    (one (· = 40) t).andThen fun _ t => (skip t).andThen fun _ t => (left t).andThen fun l t =>
    (skip t).andThen fun _ t => (one (· = 41) t).andThen fun _ t => .pure (mkPred P .exist l none) t)

/-- `( Comma - sc:Statement )*`, mtev-logic.leg:12-13; `st` is the rule `Statement` and `n` bounds the turns. -/
def more (st : List Nat → Res Node) : Nat → List Nat → Res (List Node)
  | 0, s => .pure [] s
  | n+1, s => ((one (· = 44) s).andThen fun _ t => (skip t).andThen fun _ t => (st t).andThen fun e t =>
      (more st n t).andThen fun es t => .pure (e :: es) t).orElse (.pure [] s)

/-- `ArgsMultiple`, mtev-logic.leg:12-13. -/
def args (st : List Nat → Res Node) (s : List Nat) : Res (List Node) :=
  (st s).andThen fun e t => (skip t).andThen fun _ t => (more st t.length t).andThen fun es t => .pure (e :: es) t

/-- `ArgsSingle`, mtev-logic.leg:11. -/
def arg (st : List Nat → Res Node) (s : List Nat) : Res (List Node) :=
  (st s).andThen fun e t => (skip t).andThen fun _ t => .pure [e] t

/-- `NotExpr`, `AndExpr` and `OrExpr`, mtev-logic.leg:20-25: the word, arguments in parentheses, white space. -/
def call (word : List Nat) (body : List Nat → Res (List Node)) (mk : List Node → Node) (s : List Nat) : Res Node :=
  (lit word s).andThen fun _ t => (skip t).andThen fun _ t => (one (· = 40) t).andThen fun _ t =>
    (skip t).andThen fun _ t => (body t).andThen fun es t => (skip t).andThen fun _ t =>
    (one (· = 41) t).andThen fun _ t => (skip t).andThen fun _ t => .pure (mk es) t

/-- `Statement` and `Expression`, mtev-logic.leg:1-9; `n` bounds the depth. -/
def stmt (P : Pcre) : Nat → List Nat → Res Node
  | 0, s => ⟨none, s.length⟩
  | n+1, s =>
    (predicate P s).orElse <|
    (call [110, 111, 116] (arg (stmt P n)) .not s).orElse <|
    (call [97, 110, 100] (args (stmt P n)) .and s).orElse <|
    call [111, 114] (args (stmt P n)) .or s

/-- `while(yyparse(&ctx)) {}`, mtev_logic.c:457-459: `yyparse` takes one expression from the text and makes it the
root.  Gives the root (null if there was no expression) and how much was not read. -/
def parseLoop (P : Pcre) : Nat → List Nat → Node → Node × Nat
  | 0, s, root => (root, s.length)
  | n+1, s, root =>
    match (stmt P (s.length + 1) s).val with
    | none => (root, (stmt P (s.length + 1) s).un)
    | some (e, t) => ((parseLoop P n t e).1, min (stmt P (s.length + 1) s).un (parseLoop P n t e).2)

/-- `mtev_logic_parse`, mtev_logic.c:448-471: null with an error message unless all was read.  The tree it gives
is stood for by its root, which is a null pointer when no expression was found. -/
def parse (P : Pcre) (text : List Nat) : Option Node :=
  let r := parseLoop P (text.length + 1) text .null
  if r.2 = 0 then some r.1 else none

/-! ### The bounds are never reached -/

namespace Res
variable {α β : Type}

/-- What is left is no longer than `s`. -/
def Le (r : Res α) (s : List Nat) : Prop := ∀ a t, r.val = some (a, t) → t.length ≤ s.length

theorem Le.andThen {r : Res α} {k : α → List Nat → Res β} {s : List Nat} (h : r.Le s)
    (hk : ∀ a t, t.length ≤ s.length → (k a t).Le s) : (r.andThen k).Le s := by
  intro b u hu
  unfold Res.andThen at hu
  cases hr : r.val with
  | none => rw [hr] at hu; simp at hu
  | some x =>
    obtain ⟨a, t⟩ := x
    rw [hr] at hu
    exact hk a t (h a t hr) b u hu

theorem Le.orElse {r q : Res α} {s : List Nat} (h : r.Le s) (hq : q.Le s) : (r.orElse q).Le s := by
  intro b u hu
  unfold Res.orElse at hu
  cases hr : r.val with
  | none => rw [hr] at hu; exact hq b u hu
  | some x => rw [hr] at hu; exact h b u (by rw [hr]; exact hu)

theorem le_pure {a : α} {s t : List Nat} (h : t.length ≤ s.length) : (pure a t).Le s := by
  intro b u hu
  simp only [pure, Option.some.injEq, Prod.mk.injEq] at hu
  rw [← hu.2]
  exact h

theorem andThen_congr {r : Res α} {k k' : α → List Nat → Res β}
    (h : ∀ a t, r.val = some (a, t) → k a t = k' a t) : r.andThen k = r.andThen k' := by
  unfold andThen
  cases hr : r.val with
  | none => rfl
  | some x => obtain ⟨a, t⟩ := x; simp only; rw [h a t hr]

end Res
open Res

theorem le_one {p : Nat → Bool} {s t : List Nat} (h : t.length ≤ s.length) : (one p t).Le s := by
  intro a u hu
  cases t with
  | nil => simp [one] at hu
  | cons c t =>
    simp only [one] at hu
    split at hu
    · simp only [Option.some.injEq, Prod.mk.injEq] at hu
      rw [← hu.2]
      simp at h
      omega
    · simp at hu

theorem one_lt {p : Nat → Bool} {s a u : List Nat} (h : (one p s).val = some (a, u)) : u.length < s.length := by
  cases s with
  | nil => simp [one] at h
  | cons c t =>
    simp only [one] at h
    split at h
    · simp only [Option.some.injEq, Prod.mk.injEq] at h
      rw [← h.2]
      simp
    · simp at h

theorem le_lit : ∀ {k s t : List Nat}, t.length ≤ s.length → (lit k t).Le s
  | [], _, _, h => le_pure h
  | _ :: _, _, _, h => Le.andThen (le_one h) fun _ _ h => Le.andThen (le_lit h) fun _ _ h => le_pure h

theorem le_many {p : Nat → Bool} : ∀ {t s : List Nat}, t.length ≤ s.length → (many p t).Le s
  | [], s, h => by
    intro a u hu
    simp only [many, Option.some.injEq, Prod.mk.injEq] at hu
    rw [← hu.2]
    simp
  | c :: t, s, h => by
    rw [many]
    split
    · exact Le.andThen (le_many (by simp at h; omega)) fun _ _ h => le_pure h
    · intro a u hu
      simp only [Option.some.injEq, Prod.mk.injEq] at hu
      rw [← hu.2]
      exact h

theorem le_opt {r : Res (List Nat)} {s t : List Nat} (hr : r.Le s) (h : t.length ≤ s.length) : (opt r t).Le s :=
  Le.orElse hr (le_pure h)

theorem le_skip : ∀ {t s : List Nat}, t.length ≤ s.length → (skip t).Le s
  | [], s, h => by
    intro a u hu
    simp only [skip, Option.some.injEq, Prod.mk.injEq] at hu
    rw [← hu.2]
    simp
  | c :: t, s, h => by
    have hd : ∀ t', t'.length ≤ t.length → (skip t').Le s := fun t' h' => le_skip (by simp at h; omega)
    unfold skip
    split
    · intro a u hu
      simp at hu
      rw [hu]
      simp
    · rename_i t' heq
      simp only [List.cons.injEq] at heq
      apply hd
      rw [heq.2]
      simp
    · rename_i c' t' _ heq
      simp only [List.cons.injEq] at heq
      split
      · exact hd _ (by rw [heq.2])
      · intro a u hu
        simp only [Option.some.injEq, Prod.mk.injEq] at hu
        rw [← hu.2, ← heq.1, ← heq.2]
        exact h
termination_by t => t.length
decreasing_by simp; omega

theorem le_identifier {s t : List Nat} (h : t.length ≤ s.length) : (identifier t).Le s :=
  Le.andThen (le_one h) fun _ _ h => Le.andThen (le_many h) fun _ _ h => le_pure h

theorem le_digits1 {s t : List Nat} (h : t.length ≤ s.length) : (digits1 t).Le s :=
  Le.andThen (le_one h) fun _ _ h => Le.andThen (le_many h) fun _ _ h => le_pure h

theorem le_numeric {s t : List Nat} (h : t.length ≤ s.length) : (numeric t).Le s :=
  Le.andThen (le_opt (le_one h) h) fun _ _ h => Le.andThen (le_digits1 h) fun _ _ h =>
    Le.andThen (le_opt (Le.andThen (le_one h) fun _ _ h => Le.andThen (le_digits1 h) fun _ _ h => le_pure h) h)
    fun _ _ h => Le.andThen (le_opt (Le.andThen (le_one h) fun _ _ h => Le.andThen (le_one h) fun _ _ h =>
      Le.andThen (le_digits1 h) fun _ _ h => le_pure h) h) fun _ _ h => le_pure h

theorem le_chr {s t : List Nat} (h : t.length ≤ s.length) : (chr t).Le s :=
  Le.orElse (Le.andThen (le_one h) fun _ _ h => Le.andThen (le_one h) fun _ _ h => le_pure h) <|
  Le.orElse (Le.andThen (le_one h) fun _ _ h => Le.andThen (le_one h) fun _ _ h => Le.andThen (le_one h) fun _ _ h =>
    Le.andThen (le_one h) fun _ _ h => le_pure h) <|
  Le.orElse (Le.andThen (le_one h) fun _ _ h => Le.andThen (le_one h) fun _ _ h =>
    Le.andThen (le_opt (le_one h) h) fun _ _ h => le_pure h) <|
  Le.orElse (Le.andThen (le_one h) fun _ _ h => Le.andThen (le_one h) fun _ _ h => le_pure h) (le_one h)

theorem le_chrNot {q : Nat} {s t : List Nat} (h : t.length ≤ s.length) : (chrNot q t).Le s := by
  cases t with
  | nil => intro a u hu; simp [chrNot] at hu
  | cons c t =>
    simp only [chrNot]
    split
    · intro a u hu; simp at hu
    · exact le_chr h

theorem le_chars {q : Nat} : ∀ {n : Nat} {s t : List Nat}, t.length ≤ s.length → (chars q n t).Le s
  | 0, _, _, h => le_pure h
  | _+1, _, _, h => Le.orElse (Le.andThen (le_chrNot h) fun _ _ h => Le.andThen (le_chars h) fun _ _ h => le_pure h)
      (le_pure h)

theorem le_quoted {q : Nat} {s t : List Nat} (h : t.length ≤ s.length) : (quoted q t).Le s :=
  Le.andThen (le_one h) fun _ _ h => Le.andThen (le_chars h) fun _ _ h => Le.andThen (le_one h) fun _ _ h => le_pure h

theorem le_literal {s t : List Nat} (h : t.length ≤ s.length) : (literal t).Le s :=
  Le.orElse (le_quoted h) (le_quoted h)

theorem le_left {s t : List Nat} (h : t.length ≤ s.length) : (left t).Le s :=
  Le.orElse (le_identifier h) (Le.andThen (le_literal h) fun _ _ h => le_pure h)

theorem le_right {s t : List Nat} (h : t.length ≤ s.length) : (right t).Le s :=
  Le.orElse (Le.andThen (le_literal h) fun _ _ h => le_pure h) (Le.andThen (le_numeric h) fun _ _ h => le_pure h)

theorem le_oper {s t : List Nat} (h : t.length ≤ s.length) : (oper t).Le s := by
  unfold oper
  repeat' apply Le.orElse
  all_goals exact Le.andThen (le_lit h) fun _ _ h => le_pure h

theorem le_predicate {P : Pcre} {s t : List Nat} (h : t.length ≤ s.length) : (predicate P t).Le s :=
  Le.orElse
    (Le.andThen (le_left h) fun _ _ h => Le.andThen (le_skip h) fun _ _ h => Le.andThen (le_oper h) fun _ _ h =>
      Le.andThen (le_skip h) fun _ _ h => Le.andThen (le_right h) fun _ _ h => le_pure h)
    (Le.andThen (le_lit h) fun _ _ h => Le.andThen (le_skip h) fun _ _ h => Le.andThen (le_one h) fun _ _ h =>
      Le.andThen (le_skip h) fun _ _ h => Le.andThen (le_left h) fun _ _ h => Le.andThen (le_skip h) fun _ _ h =>
      Le.andThen (le_one h) fun _ _ h => le_pure h)

theorem le_more {st : List Nat → Res Node} (hst : ∀ {s t : List Nat}, t.length ≤ s.length → (st t).Le s) :
    ∀ {n : Nat} {s t : List Nat}, t.length ≤ s.length → (more st n t).Le s
  | 0, _, _, h => le_pure h
  | _+1, _, _, h => Le.orElse (Le.andThen (le_one h) fun _ _ h => Le.andThen (le_skip h) fun _ _ h =>
      Le.andThen (hst h) fun _ _ h => Le.andThen (le_more hst h) fun _ _ h => le_pure h) (le_pure h)

theorem le_args {st : List Nat → Res Node} (hst : ∀ {s t : List Nat}, t.length ≤ s.length → (st t).Le s)
    {s t : List Nat} (h : t.length ≤ s.length) : (args st t).Le s :=
  Le.andThen (hst h) fun _ _ h => Le.andThen (le_skip h) fun _ _ h => Le.andThen (le_more hst h) fun _ _ h => le_pure h

theorem le_arg {st : List Nat → Res Node} (hst : ∀ {s t : List Nat}, t.length ≤ s.length → (st t).Le s)
    {s t : List Nat} (h : t.length ≤ s.length) : (arg st t).Le s :=
  Le.andThen (hst h) fun _ _ h => Le.andThen (le_skip h) fun _ _ h => le_pure h

theorem le_call {word : List Nat} {body : List Nat → Res (List Node)} {mk : List Node → Node}
    (hb : ∀ {s t : List Nat}, t.length ≤ s.length → (body t).Le s) {s t : List Nat} (h : t.length ≤ s.length) :
    (call word body mk t).Le s :=
  Le.andThen (le_lit h) fun _ _ h => Le.andThen (le_skip h) fun _ _ h => Le.andThen (le_one h) fun _ _ h =>
    Le.andThen (le_skip h) fun _ _ h => Le.andThen (hb h) fun _ _ h => Le.andThen (le_skip h) fun _ _ h =>
    Le.andThen (le_one h) fun _ _ h => Le.andThen (le_skip h) fun _ _ h => le_pure h

theorem le_stmt {P : Pcre} : ∀ {n : Nat} {s t : List Nat}, t.length ≤ s.length → (stmt P n t).Le s
  | 0, _, _, _ => by intro a u hu; simp [stmt] at hu
  | _+1, _, _, h => Le.orElse (le_predicate h) <| Le.orElse (le_call (le_arg le_stmt) h) <|
      Le.orElse (le_call (le_args le_stmt) h) (le_call (le_args le_stmt) h)

theorem more_congr {st st' : List Nat → Res Node} (hst : ∀ {s t : List Nat}, t.length ≤ s.length → (st t).Le s) :
    ∀ {n : Nat} {t : List Nat}, (∀ u : List Nat, u.length ≤ t.length → st u = st' u) → more st n t = more st' n t
  | 0, _, _ => rfl
  | n+1, t, h => by
    rw [more, more]
    congr 1
    apply andThen_congr
    intro a u hu
    have h1 := le_one (Nat.le_refl _) a u hu
    apply andThen_congr
    intro b v hv
    have h2 := Nat.le_trans (le_skip (Nat.le_refl _) b v hv) h1
    rw [← h v h2]
    apply andThen_congr
    intro e w hw
    have h3 := Nat.le_trans (hst (Nat.le_refl _) e w hw) h2
    rw [more_congr hst (fun x hx => h x (Nat.le_trans hx h3))]

theorem args_congr {st st' : List Nat → Res Node} (hst : ∀ {s t : List Nat}, t.length ≤ s.length → (st t).Le s)
    {t : List Nat} (h : ∀ u : List Nat, u.length ≤ t.length → st u = st' u) : args st t = args st' t := by
  rw [args, args, ← h t (Nat.le_refl _)]
  apply andThen_congr
  intro e u hu
  have h1 := hst (Nat.le_refl _) e u hu
  apply andThen_congr
  intro b v hv
  have h2 := Nat.le_trans (le_skip (Nat.le_refl _) b v hv) h1
  rw [more_congr hst (fun x hx => h x (Nat.le_trans hx h2))]

theorem arg_congr {st st' : List Nat → Res Node} {t : List Nat} (h : st t = st' t) : arg st t = arg st' t := by
  rw [arg, arg, h]

theorem call_congr {word : List Nat} {body body' : List Nat → Res (List Node)} {mk : List Node → Node} {s : List Nat}
    (h : ∀ t : List Nat, t.length < s.length → body t = body' t) : call word body mk s = call word body' mk s := by
  rw [call, call]
  apply andThen_congr
  intro a t ht
  have h1 := le_lit (Nat.le_refl _) a t ht
  apply andThen_congr
  intro b u hu
  have h2 := Nat.le_trans (le_skip (Nat.le_refl _) b u hu) h1
  apply andThen_congr
  intro c v hv
  have h3 := Nat.lt_of_lt_of_le (one_lt hv) h2
  apply andThen_congr
  intro d w hw
  have h4 := Nat.lt_of_le_of_lt (le_skip (Nat.le_refl _) d w hw) h3
  rw [h w h4]

/-- The bound on the depth makes no difference once it exceeds the length of the text. -/
theorem stmt_fuel {P : Pcre} : ∀ (n m : Nat) (s : List Nat), s.length < n → s.length < m → stmt P n s = stmt P m s
  | 0, _, _, h, _ => by omega
  | _, 0, _, _, h => by omega
  | n+1, m+1, s, h1, h2 => by
    have hf : ∀ t : List Nat, t.length < s.length → stmt P n t = stmt P m t :=
      fun t ht => stmt_fuel n m t (by omega) (by omega)
    rw [stmt, stmt]
    rw [call_congr (body' := arg (stmt P m)) (fun t ht => arg_congr (hf t ht)),
      call_congr (word := [97, 110, 100]) (body' := args (stmt P m))
        (fun t ht => args_congr le_stmt (fun u hu => hf u (by omega))),
      call_congr (word := [111, 114]) (body' := args (stmt P m))
        (fun t ht => args_congr le_stmt (fun u hu => hf u (by omega)))]

end Mtev.Logic
