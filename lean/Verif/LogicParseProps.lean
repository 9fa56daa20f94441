import Verif.LogicParse
import Verif.LogicProps

/-!
Properties of the parsing of logic expressions (C66).
-/

namespace Mtev.Logic

/-! ### Specification: expressions and the ways to write them -/

/-- An expression of the language. -/
inductive Expr
  | cmp (name : List Nat) (op : Op) (value : Const)
  | has (name : List Nat)
  | not (e : Expr)
  | and (es : List Expr)
  | or (es : List Expr)

/-- Blanks, tabs and line ends. -/
def Blank (w : List Nat) : Prop := ∀ c ∈ w, c = 32 ∨ c = 9 ∨ c = 10 ∨ c = 13

/-- Escape letters and what they stand for. -/
def escapes : List (Nat × Nat) :=
  [(97, 7), (98, 8), (101, 27), (102, 12), (110, 10), (114, 13), (116, 9), (118, 11), (39, 39), (34, 34), (92, 92)]

/-- The ways to write one byte between quotes `q`: itself, a letter escape, three octal digits, `\-`. -/
inductive Piece (q : Nat) : List Nat → Nat → Prop
  | plain {c : Nat} : c ≠ q → c ≠ 92 → c ≠ 0 → Piece q [c] c
  | letter {l v : Nat} : (l, v) ∈ escapes → Piece q [92, l] v
  | octal {a b c : Nat} : a ≤ 3 → b ≤ 7 → c ≤ 7 → 0 < a * 64 + b * 8 + c →
      Piece q [92, 48 + a, 48 + b, 48 + c] (a * 64 + b * 8 + c)
  | dash : Piece q [92, 45] 45

/-- The ways to write a string between quotes `q`. -/
inductive Pieces (q : Nat) : List Nat → List Nat → Prop
  | nil : Pieces q [] []
  | cons {t ts bs : List Nat} {b : Nat} : Piece q t b → Pieces q ts bs → Pieces q (t ++ ts) (b :: bs)

/-- The ways to write a string. -/
def Quoted (v t : List Nat) : Prop :=
  ∃ q body, (q = 39 ∨ q = 34) ∧ Pieces q body v ∧ t = q :: body ++ [q]

def isLetter (c : Nat) : Prop := (97 ≤ c ∧ c ≤ 122) ∨ (65 ≤ c ∧ c ≤ 90) ∨ c = 95

instance (c : Nat) : Decidable (isLetter c) := by unfold isLetter; infer_instance

/-- The ways to write a name: bare, or as a string. -/
def NameText (v t : List Nat) : Prop :=
  (t = v ∧ ∃ c r, v = c :: r ∧ isLetter c ∧ ∀ x ∈ r, isLetter x ∨ (48 ≤ x ∧ x ≤ 57) ∨ x = 46) ∨ Quoted v t

/-- Decimal digits, at least one. -/
def Digits (d : List Nat) : Prop := d ≠ [] ∧ ∀ c ∈ d, 48 ≤ c ∧ c ≤ 57

instance (d : List Nat) : Decidable (Digits d) := by unfold Digits; infer_instance

/-- The ways to write a constant: a string; an integer; a decimal fraction with an optional exponent. -/
def ConstText (c : Const) (t : List Nat) : Prop :=
  (c.ty = .str ∧ Quoted c.text t) ∨
  (c.ty = .int ∧ c.text = t ∧ ∃ sg ds, (sg = [] ∨ sg = [43] ∨ sg = [45]) ∧ Digits ds ∧ t = sg ++ ds) ∨
  (c.ty = .dbl ∧ c.text = t ∧ ∃ sg ds fs ex, (sg = [] ∨ sg = [43] ∨ sg = [45]) ∧ Digits ds ∧ Digits fs ∧
    (ex = [] ∨ ∃ s es, (s = 43 ∨ s = 45) ∧ Digits es ∧ ex = 101 :: s :: es) ∧ t = sg ++ ds ++ 46 :: fs ++ ex)

def opText : Op → List Nat
  | .eq => bytesOf "="
  | .ne => bytesOf "!="
  | .re => bytesOf "~"
  | .nre => bytesOf "!~"
  | .le => bytesOf "<="
  | .ge => bytesOf ">="
  | .lt => bytesOf "<"
  | .gt => bytesOf ">"
  | .exist => []

/-- `not`, `and`, `or`. -/
def Expr.compound : Expr → Prop
  | .cmp _ _ _ => False
  | .has _ => False
  | _ => True

mutual
/-- The ways to write an expression.  White space may stand between any two tokens inside of it.  `lax` says whether
it may also stand between a comparison that is a second or later argument and the comma after it. -/
def Writes (lax : Prop) : Expr → List Nat → Prop
  | .cmp n op c, t => ∃ tn w1 w2 tc, NameText n tn ∧ Blank w1 ∧ op ≠ .exist ∧ Blank w2 ∧ ConstText c tc ∧
      t = tn ++ w1 ++ opText op ++ w2 ++ tc
  | .has n, t => ∃ w1 w2 tn w3, Blank w1 ∧ Blank w2 ∧ NameText n tn ∧ Blank w3 ∧
      t = bytesOf "exists" ++ w1 ++ bytesOf "(" ++ w2 ++ tn ++ w3 ++ bytesOf ")"
  | .not e, t => ∃ w1 w2 te w3, Blank w1 ∧ Blank w2 ∧ Writes lax e te ∧ Blank w3 ∧
      t = bytesOf "not" ++ w1 ++ bytesOf "(" ++ w2 ++ te ++ w3 ++ bytesOf ")"
  | .and es, t => ∃ w1 w2 ta w3, Blank w1 ∧ Blank w2 ∧ WritesArgs lax es ta ∧ Blank w3 ∧
      t = bytesOf "and" ++ w1 ++ bytesOf "(" ++ w2 ++ ta ++ w3 ++ bytesOf ")"
  | .or es, t => ∃ w1 w2 ta w3, Blank w1 ∧ Blank w2 ∧ WritesArgs lax es ta ∧ Blank w3 ∧
      t = bytesOf "or" ++ w1 ++ bytesOf "(" ++ w2 ++ ta ++ w3 ++ bytesOf ")"
/-- One or more arguments, separated by commas. -/
def WritesArgs (lax : Prop) : List Expr → List Nat → Prop
  | [], _ => False
  | e :: es, t => ∃ te w tr, Writes lax e te ∧ Blank w ∧ WritesRest lax es tr ∧ t = te ++ w ++ tr
/-- The arguments after the first. -/
def WritesRest (lax : Prop) : List Expr → List Nat → Prop
  | [], t => t = []
  | e :: es, t => ∃ w te w' tr, Blank w ∧ Writes lax e te ∧ Blank w' ∧ (lax ∨ w' = [] ∨ e.compound) ∧
      WritesRest lax es tr ∧ t = bytesOf "," ++ w ++ te ++ w' ++ tr
end

mutual
/-- The tree of an expression. -/
def Expr.node : Expr → Node
  | .cmp n op c => .pred op n (some c)
  | .has n => .pred .exist n none
  | .not e => .not [e.node]
  | .and es => .and (nodes es)
  | .or es => .or (nodes es)
def nodes : List Expr → List Node
  | [] => []
  | e :: es => e.node :: nodes es
end

mutual
/-- The patterns of an expression compile. -/
def Expr.Compiles (P : Pcre) : Expr → Prop
  | .cmp _ op c => op = .re ∨ op = .nre → P.compiles c.text = true
  | .has _ => True
  | .not e => e.Compiles P
  | .and es => CompilesAll P es
  | .or es => CompilesAll P es
def CompilesAll (P : Pcre) : List Expr → Prop
  | [] => True
  | e :: es => e.Compiles P ∧ CompilesAll P es
end

mutual
/-- The truth value of an expression, given those of its comparisons and tests. -/
def Expr.holds (cmp : List Nat → Op → Const → Bool) (has : List Nat → Bool) : Expr → Bool
  | .cmp n op c => cmp n op c
  | .has n => has n
  | .not e => !e.holds cmp has
  | .and es => holdsAll cmp has es
  | .or es => holdsAny cmp has es
def holdsAll (cmp : List Nat → Op → Const → Bool) (has : List Nat → Bool) : List Expr → Bool
  | [] => true
  | e :: es => e.holds cmp has && holdsAll cmp has es
def holdsAny (cmp : List Nat → Op → Const → Bool) (has : List Nat → Bool) : List Expr → Bool
  | [] => false
  | e :: es => e.holds cmp has || holdsAny cmp has es
end

/-! ### Tokens -/

namespace Res
variable {α β : Type}
theorem andThen_some {r : Res α} {k : α → List Nat → Res β} {a : α} {t : List Nat} (h : r.val = some (a, t)) :
    (r.andThen k).val = (k a t).val := by unfold andThen; rw [h]
theorem andThen_none {r : Res α} {k : α → List Nat → Res β} (h : r.val = none) :
    (r.andThen k).val = none := by unfold andThen; rw [h]
theorem orElse_some {r q : Res α} {x} (h : r.val = some x) : (r.orElse q).val = some x := by unfold orElse; rw [h]
theorem orElse_none {r q : Res α} (h : r.val = none) : (r.orElse q).val = q.val := by unfold orElse; rw [h]
@[simp] theorem pure_val (a : α) (s : List Nat) : (pure a s).val = some (a, s) := rfl
end Res
open Res

def isWs (c : Nat) : Bool := c = 32 || c = 9 || c = 10 || c = 13

theorem one_yes {p : Nat → Bool} {c : Nat} {t : List Nat} (h : p c = true) : (one p (c :: t)).val = some ([c], t) := by
  simp [one, h]
theorem one_no {p : Nat → Bool} {s : List Nat} (h : ∀ c, s.head? = some c → p c = false) : (one p s).val = none := by
  cases s with
  | nil => rfl
  | cons c t => simp [one, h c rfl]

theorem lit_val : ∀ (k r : List Nat), (lit k (k ++ r)).val = some (k, r)
  | [], r => rfl
  | c :: k, r => by
    rw [lit, List.cons_append, andThen_some (one_yes (by simp)), andThen_some (lit_val k r)]
    rfl
theorem lit_no {k : Nat} {ks s : List Nat} (h : ∀ c, s.head? = some c → c ≠ k) : (lit (k :: ks) s).val = none := by
  rw [lit, andThen_none (one_no (fun c hc => by simpa using h c hc))]

theorem many_val {p : Nat → Bool} : ∀ {a r : List Nat}, (∀ c ∈ a, p c = true) →
    (∀ c, r.head? = some c → p c = false) → (many p (a ++ r)).val = some (a, r)
  | [], [], _, _ => rfl
  | [], c :: r, _, h => by simp [many, h c rfl]
  | x :: a, r, ha, h => by
    rw [List.cons_append, many, if_pos (ha x (by simp)),
      andThen_some (many_val (fun c hc => ha c (by simp [hc])) h)]
    rfl

theorem skip_val : ∀ s : List Nat, (skip s).val = some ((), s.dropWhile isWs)
  | [] => rfl
  | 13 :: 10 :: t => by
    rw [skip, skip_val t]
    simp [isWs]
  | c :: t => by
    by_cases hc : c = 13 ∧ t.head? = some 10
    · obtain ⟨rfl, h2⟩ := hc
      cases t with
      | nil => simp at h2
      | cons d t =>
        simp only [List.head?_cons, Option.some.injEq] at h2
        subst h2
        rw [skip, skip_val t]
        simp [isWs]
    · have he : skip (c :: t) = if c = 32 ∨ c = 9 ∨ c = 10 ∨ c = 13 then skip t else ⟨some ((), c :: t), t.length⟩ := by
        rw [skip]
        intro t' h1 h2
        subst h1 h2
        exact hc (by simp)
      rw [he]
      by_cases h : c = 32 ∨ c = 9 ∨ c = 10 ∨ c = 13
      · rw [if_pos h, skip_val t, List.dropWhile_cons_of_pos]
        simp only [isWs, Bool.or_eq_true, decide_eq_true_eq]
        omega
      · rw [if_neg h, List.dropWhile_cons_of_neg]
        simp only [isWs, Bool.or_eq_true, decide_eq_true_eq]
        omega

theorem dropWs_append {w r : List Nat} (h : Blank w) : (w ++ r).dropWhile isWs = r.dropWhile isWs := by
  induction w with
  | nil => rfl
  | cons c w ih =>
    rw [List.cons_append, List.dropWhile_cons_of_pos, ih (fun x hx => h x (by simp [hx]))]
    have := h c (by simp)
    simp only [isWs, Bool.or_eq_true, decide_eq_true_eq]
    omega

theorem dropWs_id {r : List Nat} (h : ∀ c, r.head? = some c → isWs c = false) : r.dropWhile isWs = r := by
  cases r with
  | nil => rfl
  | cons c r => rw [List.dropWhile_cons_of_neg (by rw [h c rfl]; simp)]

/-- White space and then something else. -/
theorem skip_blank {w r : List Nat} (hw : Blank w) (h : ∀ c, r.head? = some c → isWs c = false) :
    (skip (w ++ r)).val = some ((), r) := by
  rw [skip_val, dropWs_append hw, dropWs_id h]

/-! ### Literals -/

theorem escapes_spec : ∀ p ∈ escapes, isEsc p.1 = true ∧ escVal p.1 = some p.2 ∧ p.2 ≠ 0 := by decide

theorem chr_piece {q : Nat} (hq : q = 39 ∨ q = 34) {t : List Nat} {b : Nat} (h : Piece q t b) (r : List Nat) :
    (chrNot q (t ++ r)).val = some (t, r) ∧ unescape (t ++ r) = b :: unescape r ∧ b ≠ 0 ∧ t ≠ [] := by
  cases h with
  | plain h1 h2 h3 =>
    refine ⟨?_, ?_, h3, by simp⟩
    · simp [chrNot, h1, chr, orElse, andThen, one, h2]
    · cases r with
      | nil => simp [unescape, h2]
      | cons d r =>
        cases r with
        | nil => simp [unescape, h2]
        | cons e r =>
          cases r with
          | nil => simp [unescape, h2]
          | cons f r => simp [unescape, h2]
  | @letter l v hl =>
    obtain ⟨h1, h2, h3⟩ := escapes_spec _ hl
    refine ⟨?_, ?_, h3, by simp⟩
    · have : (92 : Nat) ≠ q := by omega
      simp [chrNot, this, chr, orElse, andThen, one, h1, Res.pure]
    · simp only at h2
      cases r with
      | nil => simp [unescape, h2]
      | cons e r =>
        cases r with
        | nil => simp [unescape, h2]
        | cons f r => simp [unescape, h2]
  | @octal a b c ha hb hc h0 =>
    refine ⟨?_, ?_, by omega, by simp⟩
    · have : (92 : Nat) ≠ q := by omega
      have ha' : 48 + a ≤ 51 := by omega
      have hb' : 48 + b ≤ 55 := by omega
      have hc' : 48 + c ≤ 55 := by omega
      have he : isEsc (48 + a) = false := by
        have : ∀ a : Fin 4, isEsc (48 + a.1) = false := by decide
        exact this ⟨a, by omega⟩
      simp [chrNot, this, chr, orElse, andThen, one, he, ha', hb', hc', isOct, Res.pure]
    · have he : escVal (48 + a) = none := by
        have : ∀ a : Fin 4, escVal (48 + a.1) = none := by decide
        exact this ⟨a, by omega⟩
      have h1 : isOct (48 + a) = true := by simp [isOct]; omega
      have h2 : isOct (48 + b) = true := by simp [isOct]; omega
      have h3 : isOct (48 + c) = true := by simp [isOct]; omega
      have h4 : 48 + a ≤ 51 := by omega
      simp only [List.cons_append, List.nil_append]
      rw [unescape, if_neg (by simp), he]
      simp only [h1, h2, h3, h4, if_true, and_self]
      congr 1
      omega
  | dash =>
    refine ⟨?_, ?_, by simp, by simp⟩
    · have : (92 : Nat) ≠ q := by omega
      simp [chrNot, this, chr, orElse, andThen, one, isEsc, isOct, Res.pure]
    · have he : escVal 45 = none := rfl
      have ho : isOct 45 = false := rfl
      cases r with
      | nil => simp [unescape, he, ho]
      | cons d r =>
        cases r with
        | nil => simp [unescape, he, ho]
        | cons e r =>
          cases r with
          | nil => simp [unescape, he, ho]
          | cons f r => simp [unescape, he, ho]

theorem chars_pieces {q : Nat} (hq : q = 39 ∨ q = 34) {t v : List Nat} (h : Pieces q t v) : ∀ (n : Nat) (r : List Nat),
    t.length < n → (chars q n (t ++ q :: r)).val = some (t, q :: r) := by
  induction h with
  | nil =>
    intro n r hn
    obtain ⟨m, rfl⟩ : ∃ m, n = m + 1 := ⟨n - 1, by omega⟩
    rw [chars, orElse_none]
    · rfl
    · rw [andThen_none]
      simp [chrNot]
  | @cons t ts bs b hp _ ih =>
    intro n r hn
    obtain ⟨m, rfl⟩ : ∃ m, n = m + 1 := ⟨n - 1, by omega⟩
    have := chr_piece hq hp (ts ++ q :: r)
    have hl : 0 < t.length := List.length_pos_iff.2 this.2.2.2
    rw [List.length_append] at hn
    rw [chars]
    apply orElse_some
    rw [List.append_assoc, andThen_some this.1, andThen_some (ih m r (by omega))]
    rfl

theorem unescape_pieces {q : Nat} (hq : q = 39 ∨ q = 34) {t v : List Nat} (h : Pieces q t v) :
    unescape t = v ∧ 0 ∉ v := by
  induction h with
  | nil => exact ⟨rfl, by simp⟩
  | @cons t ts bs b hp _ ih =>
    have := chr_piece hq hp ts
    rw [this.2.1, ih.1]
    refine ⟨rfl, ?_⟩
    simp only [List.mem_cons, not_or]
    exact ⟨Ne.symm this.2.2.1, ih.2⟩

theorem cstr_id {v : List Nat} (h : 0 ∉ v) : cstr v = v := by
  unfold cstr
  have := List.takeWhile_append_of_pos (p := fun b : Nat => decide (b ≠ 0)) (l₁ := v) (l₂ := [])
    (fun a ha => by simp; rintro rfl; exact h ha)
  simpa using this

theorem literal_val {v t : List Nat} (h : Quoted v t) (r : List Nat) :
    ∃ a, (literal (t ++ r)).val = some (a, r) ∧ cstr (unescape a) = v := by
  obtain ⟨q, body, hq, hp, rfl⟩ := h
  have hu := unescape_pieces hq hp
  refine ⟨body, ?_, by rw [hu.1, cstr_id hu.2]⟩
  have key : (quoted q (q :: body ++ [q] ++ r)).val = some (body, r) := by
    rw [quoted, List.append_assoc, List.cons_append, andThen_some (one_yes (by simp))]
    rw [show [q] ++ r = q :: r from rfl, andThen_some (chars_pieces hq hp _ _ (by simp; omega)),
      andThen_some (one_yes (by simp))]
    rfl
  rcases hq with rfl | rfl
  · exact orElse_some key
  · rw [literal, orElse_none, key]
    rw [quoted, andThen_none]
    exact one_no (by simp)

theorem literal_no {s : List Nat} (h : ∀ c, s.head? = some c → c ≠ 39 ∧ c ≠ 34) : (literal s).val = none := by
  rw [literal, orElse_none, quoted, andThen_none]
  · exact one_no (fun c hc => by simpa using (h c hc).2)
  · rw [quoted, andThen_none]
    exact one_no (fun c hc => by simpa using (h c hc).1)

theorem isLetter_iff {c : Nat} : isLetter c ↔ identStart c = true := by
  simp [isLetter, identStart]; omega

theorem identifier_val {c : Nat} {a r : List Nat} (hc : identStart c = true) (ha : ∀ x ∈ a, identCont x = true)
    (hr : ∀ c, r.head? = some c → identCont c = false) : (identifier (c :: a ++ r)).val = some (c :: a, r) := by
  rw [identifier, List.cons_append, andThen_some (one_yes hc), andThen_some (many_val ha hr)]
  rfl

theorem left_val {v t : List Nat} (h : NameText v t) {r : List Nat} (hr : ∀ c, r.head? = some c → identCont c = false) :
    (left (t ++ r)).val = some (v, r) := by
  rcases h with ⟨rfl, c, a, rfl, hc, ha⟩ | hq
  · apply orElse_some
    refine identifier_val (isLetter_iff.1 hc) (fun x hx => ?_) hr
    rcases ha x hx with h | h
    · simp [identCont, isLetter_iff.1 h]
    · simp [identCont, isDigit]; omega
  · obtain ⟨a, h1, h2⟩ := literal_val hq r
    rw [left, orElse_none, andThen_some h1, h2]
    · rfl
    · obtain ⟨q, body, hq, -, rfl⟩ := hq
      rw [identifier, andThen_none]
      apply one_no
      simp only [List.cons_append, List.head?_cons, Option.some.injEq, forall_eq']
      rcases hq with rfl | rfl <;> decide

/-- What may follow a comparison. -/
def EndOk (r : List Nat) : Prop := ∀ c, r.head? = some c → isWs c = true ∨ c = 44 ∨ c = 41

theorem EndOk.num {r : List Nat} (h : EndOk r) : ∀ c, r.head? = some c → isDigit c = false ∧ c ≠ 46 ∧ c ≠ 101 := by
  intro c hc
  have := h c hc
  simp only [isWs, Bool.or_eq_true, decide_eq_true_eq] at this
  simp only [isDigit, decide_eq_false_iff_not]
  omega

theorem digits1_val {d r : List Nat} (hd : Digits d) (hr : ∀ c, r.head? = some c → isDigit c = false) :
    (digits1 (d ++ r)).val = some (d, r) := by
  obtain ⟨h0, h1⟩ := hd
  cases d with
  | nil => exact absurd rfl h0
  | cons c d =>
    have hp : ∀ x ∈ c :: d, isDigit x = true := fun x hx => by simpa [isDigit] using h1 x hx
    rw [digits1, List.cons_append, andThen_some (one_yes (hp c (by simp))),
      andThen_some (many_val (fun x hx => hp x (by simp [hx])) hr)]
    rfl

theorem opt_val {r : Res (List Nat)} {s : List Nat} (h : r.val = none) : (opt r s).val = some ([], s) := by
  rw [opt, orElse_none h]; rfl

theorem head_append {a r : List Nat} (h : a ≠ []) : (a ++ r).head? = a.head? := by
  cases a with
  | nil => exact absurd rfl h
  | cons c a => rfl

theorem sign_val {sg ds r : List Nat} (hs : sg = [] ∨ sg = [43] ∨ sg = [45]) (hd : Digits ds) :
    (opt (one isSign (sg ++ ds ++ r)) (sg ++ ds ++ r)).val = some (sg, ds ++ r) := by
  rcases hs with rfl | rfl | rfl
  · rw [List.nil_append]
    apply opt_val
    apply one_no
    intro c hc
    rw [head_append hd.1] at hc
    have := hd.2 c (List.mem_of_head? hc)
    simp [isSign]; omega
  · exact orElse_some (one_yes rfl)
  · exact orElse_some (one_yes rfl)

theorem numeric_val {sg ds fr ex r : List Nat} (hs : sg = [] ∨ sg = [43] ∨ sg = [45]) (hd : Digits ds)
    (hf : fr = [] ∨ ∃ fs, Digits fs ∧ fr = 46 :: fs)
    (he : ex = [] ∨ ∃ s es, (s = 43 ∨ s = 45) ∧ Digits es ∧ ex = 101 :: s :: es) (hr : EndOk r) :
    (numeric (sg ++ ds ++ fr ++ ex ++ r)).val = some (sg ++ ds ++ fr ++ ex, r) := by
  have hn := hr.num
  have hexr : ∀ c, (ex ++ r).head? = some c → isDigit c = false ∧ c ≠ 46 := by
    rcases he with rfl | ⟨s, es, -, -, rfl⟩
    · exact fun c hc => ⟨(hn c hc).1, (hn c hc).2.1⟩
    · simp [isDigit]
  have hfr : ∀ c, (fr ++ (ex ++ r)).head? = some c → isDigit c = false := by
    rcases hf with rfl | ⟨fs, -, rfl⟩
    · exact fun c hc => (hexr c hc).1
    · simp [isDigit]
  rw [numeric]
  rw [show sg ++ ds ++ fr ++ ex ++ r = sg ++ ds ++ (fr ++ (ex ++ r)) by simp]
  rw [andThen_some (sign_val hs hd), andThen_some (digits1_val hd hfr)]
  have h1 : (frac (fr ++ (ex ++ r))).val = some (fr, ex ++ r) := by
    rcases hf with rfl | ⟨fs, hfs, rfl⟩
    · apply opt_val
      rw [andThen_none]
      exact one_no (fun c hc => by simpa using (hexr c hc).2)
    · apply orElse_some
      rw [List.cons_append, andThen_some (one_yes (by simp)), andThen_some (digits1_val hfs (fun c hc => (hexr c hc).1))]
      rfl
  rw [andThen_some h1]
  have h2 : (expo (ex ++ r)).val = some (ex, r) := by
    rcases he with rfl | ⟨s, es, hs, hes, rfl⟩
    · apply opt_val
      rw [andThen_none]
      exact one_no (fun c hc => by simpa using (hn c hc).2.2)
    · apply orElse_some
      rw [List.cons_append, List.cons_append, andThen_some (one_yes (by simp)),
        andThen_some (one_yes (by rcases hs with rfl | rfl <;> rfl)),
        andThen_some (digits1_val hes (fun c hc => (hn c hc).1))]
      rfl
  rw [andThen_some h2]
  rfl

theorem digits_no {ds : List Nat} (h : Digits ds) {x : Nat} (hx : ¬ (48 ≤ x ∧ x ≤ 57)) : x ∉ ds :=
  fun hm => hx (h.2 x hm)

theorem num_head {sg ds r : List Nat} (hs : sg = [] ∨ sg = [43] ∨ sg = [45]) (hd : Digits ds) :
    ∀ c, (sg ++ ds ++ r).head? = some c → (48 ≤ c ∧ c ≤ 57) ∨ c = 43 ∨ c = 45 := by
  intro c hc
  rcases hs with rfl | rfl | rfl
  · rw [List.nil_append, head_append hd.1] at hc
    exact Or.inl (hd.2 c (List.mem_of_head? hc))
  · simp at hc; omega
  · simp at hc; omega

theorem right_val {c : Const} {t : List Nat} (h : ConstText c t) {r : List Nat} (hr : EndOk r) :
    (right (t ++ r)).val = some (c, r) ∧ (∀ x, (t ++ r).head? = some x → isWs x = false) := by
  obtain ⟨ty, text⟩ := c
  rcases h with ⟨h1, hq⟩ | ⟨h1, h2, sg, ds, hs, hd, rfl⟩ | ⟨h1, h2, sg, ds, fs, ex, hs, hd, hf, he, rfl⟩
  · obtain ⟨a, h3, h4⟩ := literal_val hq r
    simp only at h1 hq h4
    refine ⟨?_, ?_⟩
    · apply orElse_some
      rw [andThen_some h3, h4, h1]
      rfl
    · obtain ⟨q, body, hq, -, rfl⟩ := hq
      rcases hq with rfl | rfl <;> simp [isWs]
  · simp only at h1 h2
    subst h1 h2
    have hh := num_head (r := r) hs hd
    refine ⟨?_, ?_⟩
    · rw [right, orElse_none]
      · have := numeric_val (fr := []) (ex := []) hs hd (Or.inl rfl) (Or.inl rfl) hr
        rw [List.append_nil, List.append_nil] at this
        rw [andThen_some this, if_neg]
        · rfl
        · rw [List.mem_append, not_or]
          refine ⟨?_, digits_no hd (by omega)⟩
          rcases hs with rfl | rfl | rfl <;> simp
      · rw [andThen_none]
        apply literal_no
        intro c hc
        have := hh c hc
        omega
    · intro x hx
      have := hh x hx
      simp [isWs]; omega
  · simp only at h1 h2
    subst h1 h2
    have hh := num_head (r := 46 :: fs ++ ex ++ r) hs hd
    rw [show sg ++ ds ++ (46 :: fs ++ ex ++ r) = sg ++ ds ++ 46 :: fs ++ ex ++ r by simp] at hh
    refine ⟨?_, ?_⟩
    · rw [right, orElse_none]
      · have := numeric_val (fr := 46 :: fs) (ex := ex) hs hd (Or.inr ⟨fs, hf, rfl⟩) he hr
        rw [andThen_some this, if_pos]
        · rfl
        · simp
      · rw [andThen_none]
        apply literal_no
        intro c hc
        have := hh c hc
        omega
    · intro x hx
      have := hh x hx
      simp [isWs]; omega

theorem oper_val {op : Op} (h : op ≠ .exist) {r : List Nat} (hr : ∀ c, r.head? = some c → c ≠ 61) :
    (oper (opText op ++ r)).val = some (op, r) := by
  cases op with
  | exist => exact absurd rfl h
  | eq => rfl
  | ne => rfl
  | re => rfl
  | nre => rfl
  | le => rfl
  | ge => rfl
  | lt =>
    cases r with
    | nil => rfl
    | cons c r =>
      have : c ≠ 61 := hr c rfl
      simp [oper, opText, bytesOf, lit, one, orElse, andThen, this, Res.pure]
  | gt =>
    cases r with
    | nil => rfl
    | cons c r =>
      have : c ≠ 61 := hr c rfl
      simp [oper, opText, bytesOf, lit, one, orElse, andThen, this, Res.pure]

theorem oper_paren (r : List Nat) : (oper (40 :: r)).val = none := by
  simp [oper, lit, one, orElse, andThen]

/-! ### Rules -/

theorem isWs_cont {c : Nat} (h : isWs c = true) : identCont c = false := by
  simp only [isWs, Bool.or_eq_true, decide_eq_true_eq] at h
  have : c = 32 ∨ c = 9 ∨ c = 10 ∨ c = 13 := by omega
  rcases this with rfl | rfl | rfl | rfl <;> rfl

theorem blank_head {w r : List Nat} (hw : Blank w) {p : Nat → Prop} (h1 : ∀ c, isWs c = true → p c)
    (h2 : ∀ c, r.head? = some c → p c) : ∀ c, (w ++ r).head? = some c → p c := by
  intro c hc
  cases w with
  | nil => exact h2 c hc
  | cons x w =>
    simp only [List.cons_append, List.head?_cons, Option.some.injEq] at hc
    subst hc
    apply h1
    have := hw x (by simp)
    simp only [isWs, Bool.or_eq_true, decide_eq_true_eq]
    omega

theorem opText_head {op : Op} (h : op ≠ .exist) : ∀ (r : List Nat) c, (opText op ++ r).head? = some c →
    isWs c = false ∧ identCont c = false := by
  intro r c hc
  cases op with
  | exist => exact absurd rfl h
  | _ =>
    simp only [opText, bytesOf, List.head?_append] at hc
    simp at hc
    subst hc
    exact ⟨rfl, rfl⟩

theorem predicate_cmp {P : Pcre} {n : List Nat} {op : Op} {c : Const} {tn w1 w2 tc r : List Nat}
    (hn : NameText n tn) (h1 : Blank w1) (ho : op ≠ .exist) (h2 : Blank w2) (hc : ConstText c tc) (hr : EndOk r) :
    (predicate P (tn ++ w1 ++ opText op ++ w2 ++ tc ++ r)).val = some (mkPred P op n (some c), r) := by
  have hrv := right_val hc hr
  have hop := opText_head ho
  rw [predicate]
  apply orElse_some
  rw [show tn ++ w1 ++ opText op ++ w2 ++ tc ++ r = tn ++ (w1 ++ (opText op ++ (w2 ++ (tc ++ r)))) by simp]
  rw [andThen_some (left_val hn (blank_head h1 (fun c => isWs_cont) (fun c h => (hop _ c h).2))),
    andThen_some (skip_blank h1 (fun c h => (hop _ c h).1)), andThen_some (oper_val ho ?_),
    andThen_some (skip_blank h2 hrv.2), andThen_some hrv.1]
  · rfl
  · apply blank_head (p := fun c => c ≠ 61) h2
    · rintro c hw rfl
      simp [isWs] at hw
    · rintro c hh rfl
      rcases hc with ⟨-, q, body, hq, -, rfl⟩ | ⟨-, -, sg, ds, hs, hd, rfl⟩ | ⟨-, -, sg, ds, fs, ex, hs, hd, -, -, rfl⟩
      · simp at hh; omega
      · have := num_head hs hd _ hh
        omega
      · rw [show sg ++ ds ++ 46 :: fs ++ ex ++ r = sg ++ ds ++ (46 :: fs ++ ex ++ r) by simp] at hh
        have := num_head hs hd _ hh
        omega

/-- A word and an opening parenthesis is not a comparison. -/
theorem cmp_word {P : Pcre} {c : Nat} {a w r : List Nat} (hc : identStart c = true) (ha : ∀ x ∈ a, identCont x = true)
    (hw : Blank w) : ((left (c :: a ++ (w ++ 40 :: r))).andThen fun l t => (skip t).andThen fun _ t =>
      (oper t).andThen fun op t => (skip t).andThen fun _ t =>
      (right t).andThen fun r t => .pure (mkPred P op l (some r)) t).val = none := by
  have hl : (left (c :: a ++ (w ++ 40 :: r))).val = some (c :: a, w ++ 40 :: r) := by
    apply orElse_some
    apply identifier_val hc ha
    apply blank_head hw (fun c => isWs_cont)
    simp only [List.head?_cons, Option.some.injEq, forall_eq']
    rfl
  rw [andThen_some hl, andThen_some (skip_blank hw (by simp [isWs])), andThen_none (oper_paren r)]

theorem predicate_has {P : Pcre} {n w1 w2 tn w3 r : List Nat} (h1 : Blank w1) (h2 : Blank w2) (hn : NameText n tn)
    (h3 : Blank w3) :
    (predicate P (bytesOf "exists" ++ w1 ++ bytesOf "(" ++ w2 ++ tn ++ w3 ++ bytesOf ")" ++ r)).val =
      some (.pred .exist n none, r) := by
  rw [show bytesOf "exists" ++ w1 ++ bytesOf "(" ++ w2 ++ tn ++ w3 ++ bytesOf ")" ++ r =
    101 :: [120, 105, 115, 116, 115] ++ (w1 ++ 40 :: (w2 ++ (tn ++ (w3 ++ 41 :: r)))) by simp [bytesOf]]
  rw [predicate, orElse_none (cmp_word rfl (by decide) h1)]
  rw [show (101 :: [120, 105, 115, 116, 115] : List Nat) = [101, 120, 105, 115, 116, 115] from rfl,
    andThen_some (lit_val _ _), andThen_some (skip_blank h1 (by simp [isWs])), andThen_some (one_yes (by simp)),
    andThen_some (skip_blank h2 ?_), andThen_some (left_val hn ?_), andThen_some (skip_blank h3 (by simp [isWs])),
    andThen_some (one_yes (by simp))]
  · rfl
  · apply blank_head h3 (fun c => isWs_cont)
    simp only [List.head?_cons, Option.some.injEq, forall_eq']
    rfl
  · intro c hc
    rcases hn with ⟨rfl, d, r', rfl, hd, -⟩ | ⟨q, body, hq, -, rfl⟩
    · simp only [List.cons_append, List.head?_cons, Option.some.injEq] at hc
      subst hc
      simp only [isLetter] at hd
      simp [isWs]; omega
    · simp only [List.cons_append, List.head?_cons, Option.some.injEq] at hc
      subst hc
      simp [isWs]; omega

/-- A word that begins with another letter is not `exists`. -/
theorem predicate_word {P : Pcre} {c : Nat} {a w r : List Nat} (hc : identStart c = true) (he : c ≠ 101)
    (ha : ∀ x ∈ a, identCont x = true) (hw : Blank w) :
    (predicate P (c :: a ++ (w ++ 40 :: r))).val = none := by
  rw [predicate, orElse_none (cmp_word hc ha hw), andThen_none]
  apply lit_no
  simp [he]

theorem call_val {word ta w1 w2 w3 x r : List Nat} {body : List Nat → Res (List Node)} {mk : List Node → Node}
    {es : List Node} (h1 : Blank w1) (h2 : Blank w2)
    (hh : ∀ c, (ta ++ w3 ++ 41 :: r).head? = some c → isWs c = false)
    (hb : (body (ta ++ w3 ++ 41 :: r)).val = some (es, x)) (hx : x.dropWhile isWs = 41 :: r) :
    (call word body mk (word ++ (w1 ++ 40 :: (w2 ++ (ta ++ w3 ++ 41 :: r))))).val = some (mk es, r.dropWhile isWs) := by
  have hs : (skip x).val = some ((), 41 :: r) := by rw [skip_val, hx]
  rw [call, andThen_some (lit_val _ _), andThen_some (skip_blank h1 (by simp [isWs])), andThen_some (one_yes (by simp)),
    andThen_some (skip_blank h2 hh), andThen_some hb, andThen_some hs, andThen_some (one_yes (by simp)),
    andThen_some (skip_val r)]
  rfl

theorem call_no {k : Nat} {ks s : List Nat} {body : List Nat → Res (List Node)} {mk : List Node → Node}
    (h : ∀ c, s.head? = some c → c ≠ k) : (call (k :: ks) body mk s).val = none := by
  rw [call, andThen_none (lit_no h)]

/-! ### Expressions -/

instance : (e : Expr) → Decidable e.compound
  | .cmp _ _ _ => .isFalse id
  | .has _ => .isFalse id
  | .not _ => .isTrue trivial
  | .and _ => .isTrue trivial
  | .or _ => .isTrue trivial

/-- What is left after an expression. -/
def post (e : Expr) (r : List Nat) : List Nat := if e.compound then r.dropWhile isWs else r

theorem dropWs_idem (r : List Nat) : (r.dropWhile isWs).dropWhile isWs = r.dropWhile isWs := by
  apply dropWs_id
  intro c hc
  have := List.head?_dropWhile_not isWs r
  rw [hc] at this
  simpa using this

theorem post_drop (e : Expr) (r : List Nat) : (post e r).dropWhile isWs = r.dropWhile isWs := by
  unfold post
  split
  · exact dropWs_idem r
  · rfl

theorem name_head {v t : List Nat} (h : NameText v t) (r : List Nat) : ∀ c, (t ++ r).head? = some c → isWs c = false := by
  intro c hc
  rcases h with ⟨rfl, d, r', rfl, hd, -⟩ | ⟨q, body, hq, -, rfl⟩
  · simp only [List.cons_append, List.head?_cons, Option.some.injEq] at hc
    subst hc
    simp only [isLetter] at hd
    simp [isWs]; omega
  · simp only [List.cons_append, List.head?_cons, Option.some.injEq] at hc
    subst hc
    simp [isWs]; omega

theorem writes_head {e : Expr} {t : List Nat} (h : Writes False e t) (r : List Nat) :
    ∀ c, (t ++ r).head? = some c → isWs c = false := by
  cases e with
  | cmp n op k =>
    rw [Writes] at h
    obtain ⟨tn, w1, w2, tc, hn, -, -, -, -, rfl⟩ := h
    rw [show tn ++ w1 ++ opText op ++ w2 ++ tc ++ r = tn ++ (w1 ++ opText op ++ w2 ++ tc ++ r) by simp]
    exact name_head hn _
  | has n =>
    rw [Writes] at h
    obtain ⟨w1, w2, tn, w3, -, -, -, -, rfl⟩ := h
    simp [bytesOf, isWs]
  | not e =>
    rw [Writes] at h
    obtain ⟨w1, w2, tn, w3, -, -, -, -, rfl⟩ := h
    simp [bytesOf, isWs]
  | and es =>
    rw [Writes] at h
    obtain ⟨w1, w2, tn, w3, -, -, -, -, rfl⟩ := h
    simp [bytesOf, isWs]
  | or es =>
    rw [Writes] at h
    obtain ⟨w1, w2, tn, w3, -, -, -, -, rfl⟩ := h
    simp [bytesOf, isWs]

theorem args_head {es : List Expr} {t : List Nat} (h : WritesArgs False es t) (r : List Nat) :
    ∀ c, (t ++ r).head? = some c → isWs c = false := by
  cases es with
  | nil => rw [WritesArgs] at h; exact h.elim
  | cons e es =>
    rw [WritesArgs] at h
    obtain ⟨te, w, tr, he, -, -, rfl⟩ := h
    rw [List.append_assoc, List.append_assoc]
    exact writes_head he _

theorem endOk_blank {w r : List Nat} (hw : Blank w) (hr : EndOk r) : EndOk (w ++ r) := by
  unfold EndOk
  exact blank_head hw (fun c h => Or.inl h) hr

theorem rest_endOk {es : List Expr} {t r : List Nat} (h : WritesRest False es t) (hr : EndOk r) : EndOk (t ++ r) := by
  cases es with
  | nil => rw [WritesRest] at h; subst h; exact hr
  | cons e es =>
    rw [WritesRest] at h
    obtain ⟨w, te, w', tr, -, -, -, -, -, rfl⟩ := h
    intro c hc
    simp [bytesOf] at hc
    omega

mutual
theorem stmt_val {P : Pcre} : ∀ (e : Expr) (n : Nat) (t r : List Nat), Writes False e t → e.Compiles P → t.length < n →
    EndOk r → (stmt P n (t ++ r)).val = some (e.node, post e r)
  | .cmp n op c, 0, t, r, _, _, hl, _ => by omega
  | .cmp n op c, m+1, t, r, h, hp, _, hr => by
    rw [Writes] at h
    obtain ⟨tn, w1, w2, tc, hn, h1, ho, h2, hc, rfl⟩ := h
    rw [stmt]
    apply orElse_some
    rw [predicate_cmp hn h1 ho h2 hc hr]
    rw [Expr.Compiles] at hp
    have : mkPred P op n (some c) = .pred op n (some c) := by
      cases op <;> simp [mkPred] <;> simp at hp <;> exact hp
    rw [this, post, if_neg (by simp [Expr.compound]), Expr.node]
  | .has n, 0, t, r, _, _, hl, _ => by omega
  | .has n, m+1, t, r, h, _, _, _ => by
    rw [Writes] at h
    obtain ⟨w1, w2, tn, w3, h1, h2, hn, h3, rfl⟩ := h
    rw [stmt]
    apply orElse_some
    rw [predicate_has h1 h2 hn h3, post, if_neg (by simp [Expr.compound]), Expr.node]
  | .not e, 0, t, r, _, _, hl, _ => by omega
  | .not e, m+1, t, r, h, hp, hl, hr => by
    rw [Writes] at h
    obtain ⟨w1, w2, te, w3, h1, h2, he, h3, rfl⟩ := h
    rw [show bytesOf "not" ++ w1 ++ bytesOf "(" ++ w2 ++ te ++ w3 ++ bytesOf ")" ++ r =
      110 :: [111, 116] ++ (w1 ++ 40 :: (w2 ++ (te ++ w3 ++ 41 :: r))) by simp [bytesOf]]
    simp only [List.length_append] at hl
    have hm : te.length < m := by simp [bytesOf] at hl; omega
    rw [Expr.Compiles] at hp
    have hs := stmt_val e m te (w3 ++ 41 :: r) he hp hm (endOk_blank h3 (by intro c hc; simp at hc; omega))
    have hd : (post e (w3 ++ 41 :: r)).dropWhile isWs = 41 :: r := by
      rw [post_drop, dropWs_append h3, dropWs_id (by simp [isWs])]
    rw [stmt, orElse_none (predicate_word rfl (by decide) (by decide) h1)]
    apply orElse_some
    rw [show (110 :: [111, 116] : List Nat) = [110, 111, 116] from rfl]
    rw [call_val (es := [e.node]) (x := 41 :: r) h1 h2 ?_ ?_ (dropWs_id (by simp [isWs]))]
    · rw [post, if_pos (by simp [Expr.compound]), Expr.node]
    · rw [List.append_assoc]
      exact writes_head he _
    · rw [arg, List.append_assoc, andThen_some hs, andThen_some (a := ()) (t := 41 :: r)]
      · rfl
      · rw [skip_val, hd]
  | .and es, 0, t, r, _, _, hl, _ => by omega
  | .and es, m+1, t, r, h, hp, hl, hr => by
    rw [Writes] at h
    obtain ⟨w1, w2, ta, w3, h1, h2, ha, h3, rfl⟩ := h
    rw [show bytesOf "and" ++ w1 ++ bytesOf "(" ++ w2 ++ ta ++ w3 ++ bytesOf ")" ++ r =
      97 :: [110, 100] ++ (w1 ++ 40 :: (w2 ++ (ta ++ w3 ++ 41 :: r))) by simp [bytesOf]]
    simp only [List.length_append] at hl
    have hm : ta.length < m := by simp [bytesOf] at hl; omega
    rw [Expr.Compiles] at hp
    obtain ⟨x, hx, hd⟩ := args_val es m ta (w3 ++ 41 :: r) r ha hp hm
      (by rw [dropWs_append h3, dropWs_id (by simp [isWs])])
      (endOk_blank h3 (by intro c hc; simp at hc; omega))
    rw [stmt, orElse_none (predicate_word rfl (by decide) (by decide) h1)]
    rw [orElse_none (call_no (by simp))]
    apply orElse_some
    rw [show (97 :: [110, 100] : List Nat) = [97, 110, 100] from rfl]
    rw [call_val (es := nodes es) (x := x) h1 h2 ?_ ?_ hd]
    · rw [post, if_pos (by simp [Expr.compound]), Expr.node]
    · rw [List.append_assoc]
      exact args_head ha _
    · rw [List.append_assoc]
      exact hx
  | .or es, 0, t, r, _, _, hl, _ => by omega
  | .or es, m+1, t, r, h, hp, hl, hr => by
    rw [Writes] at h
    obtain ⟨w1, w2, ta, w3, h1, h2, ha, h3, rfl⟩ := h
    rw [show bytesOf "or" ++ w1 ++ bytesOf "(" ++ w2 ++ ta ++ w3 ++ bytesOf ")" ++ r =
      111 :: [114] ++ (w1 ++ 40 :: (w2 ++ (ta ++ w3 ++ 41 :: r))) by simp [bytesOf]]
    simp only [List.length_append] at hl
    have hm : ta.length < m := by simp [bytesOf] at hl; omega
    rw [Expr.Compiles] at hp
    obtain ⟨x, hx, hd⟩ := args_val es m ta (w3 ++ 41 :: r) r ha hp hm
      (by rw [dropWs_append h3, dropWs_id (by simp [isWs])])
      (endOk_blank h3 (by intro c hc; simp at hc; omega))
    rw [stmt, orElse_none (predicate_word rfl (by decide) (by decide) h1)]
    rw [orElse_none (call_no (by simp)), orElse_none (call_no (by simp))]
    rw [show (111 :: [114] : List Nat) = [111, 114] from rfl]
    rw [call_val (es := nodes es) (x := x) h1 h2 ?_ ?_ hd]
    · rw [post, if_pos (by simp [Expr.compound]), Expr.node]
    · rw [List.append_assoc]
      exact args_head ha _
    · rw [List.append_assoc]
      exact hx
theorem args_val {P : Pcre} : ∀ (es : List Expr) (n : Nat) (t y r : List Nat), WritesArgs False es t →
    CompilesAll P es → t.length < n → y.dropWhile isWs = 41 :: r → EndOk y →
    ∃ x, (args (stmt P n) (t ++ y)).val = some (nodes es, x) ∧ x.dropWhile isWs = 41 :: r
  | [], _, _, _, _, h, _, _, _, _ => by rw [WritesArgs] at h; exact h.elim
  | e :: es, n, t, y, r, h, hp, hl, hy, hye => by
    rw [WritesArgs] at h
    obtain ⟨te, w, tr, he, hw, hre, rfl⟩ := h
    rw [CompilesAll] at hp
    simp only [List.length_append] at hl
    have hs := stmt_val e n te (w ++ (tr ++ y)) he hp.1 (by omega) (endOk_blank hw (rest_endOk hre hye))
    have hk : (skip (post e (w ++ (tr ++ y)))).val = some ((), (tr ++ y).dropWhile isWs) := by
      rw [skip_val, post_drop, dropWs_append hw]
    obtain ⟨x, hx, hd⟩ := more_val es n tr ((tr ++ y).dropWhile isWs) ((tr ++ y).dropWhile isWs).length y r hre hp.2
      (by omega) hy hye
      (by
        intro hne
        cases es with
        | nil => exact absurd rfl hne
        | cons e' es' =>
          rw [WritesRest] at hre
          obtain ⟨w0, te', w', tr', -, -, -, -, -, rfl⟩ := hre
          apply dropWs_id
          simp [bytesOf, isWs])
      (by
        intro h0
        subst h0
        rw [WritesRest] at hre
        subst hre
        rw [List.nil_append, dropWs_idem])
      (by
        intro hne
        cases es with
        | nil => exact absurd rfl hne
        | cons e' es' =>
          rw [WritesRest] at hre
          obtain ⟨w0, te', w', tr', -, -, -, -, -, rfl⟩ := hre
          rw [dropWs_id (by simp [bytesOf, isWs])]
          simp)
    refine ⟨x, ?_, hd⟩
    rw [args, show te ++ w ++ tr ++ y = te ++ (w ++ (tr ++ y)) by simp, andThen_some hs, andThen_some hk, andThen_some hx,
      nodes]
    rfl
theorem more_val {P : Pcre} : ∀ (es : List Expr) (n : Nat) (t z : List Nat) (k : Nat) (y r : List Nat), WritesRest False es t →
    CompilesAll P es → t.length < n → y.dropWhile isWs = 41 :: r → EndOk y →
    (es ≠ [] → z = t ++ y) → (es = [] → z.dropWhile isWs = y.dropWhile isWs) → (es ≠ [] → t.length ≤ k) →
    ∃ x, (more (stmt P n) k z).val = some (nodes es, x) ∧ x.dropWhile isWs = 41 :: r
  | [], n, t, z, k, y, r, h, _, _, hy, _, _, hz, _ => by
    refine ⟨z, ?_, by rw [hz rfl, hy]⟩
    cases k with
    | zero => rfl
    | succ k =>
      rw [more, orElse_none]
      · rfl
      · rw [andThen_none]
        apply one_no
        intro c hc
        simp only [decide_eq_false_iff_not]
        rintro rfl
        have h2 := hz rfl
        rw [hy] at h2
        cases z with
        | nil => simp at hc
        | cons c z =>
          simp only [List.head?_cons, Option.some.injEq] at hc
          subst hc
          rw [List.dropWhile_cons_of_neg (by simp [isWs])] at h2
          simp at h2
  | e :: es, n, t, z, k, y, r, h, hp, hl, hy, hye, hz1, _, hk => by
    have hz := hz1 (by simp)
    have hk := hk (by simp)
    subst hz
    rw [WritesRest] at h
    obtain ⟨w, te, w', tr, hw, he, hw', hc, hre, rfl⟩ := h
    rw [CompilesAll] at hp
    simp only [List.length_append] at hl hk
    have h1 : (bytesOf ",").length = 1 := rfl
    obtain ⟨k', rfl⟩ : ∃ k', k = k' + 1 := ⟨k - 1, by omega⟩
    have hs := stmt_val e n te (w' ++ (tr ++ y)) he hp.1 (by omega) (endOk_blank hw' (rest_endOk hre hye))
    obtain ⟨x, hx, hd⟩ := more_val es n tr (post e (w' ++ (tr ++ y))) k' y r hre hp.2 (by omega) hy hye
      (by
        intro hne
        cases es with
        | nil => exact absurd rfl hne
        | cons e' es' =>
          rw [WritesRest] at hre
          obtain ⟨w0, te', w'', tr', -, -, -, -, -, rfl⟩ := hre
          unfold post
          split
          · rw [dropWs_append hw', dropWs_id (by simp [bytesOf, isWs])]
          · rename_i hnc
            rcases hc with hc | hc | hc
            · exact hc.elim
            · rw [hc, List.nil_append]
            · exact absurd hc hnc)
      (by
        intro h0
        subst h0
        rw [WritesRest] at hre
        subst hre
        rw [List.nil_append, post_drop, dropWs_append hw'])
      (by omega)
    refine ⟨x, ?_, hd⟩
    rw [more]
    apply orElse_some
    rw [show bytesOf "," ++ w ++ te ++ w' ++ tr ++ y = 44 :: (w ++ (te ++ (w' ++ (tr ++ y)))) by simp [bytesOf]]
    rw [andThen_some (one_yes (by simp)), andThen_some (skip_blank hw (writes_head he _)), andThen_some hs,
      andThen_some hx, nodes]
    rfl
end

/-- C66 (acceptance), part: every way to write an expression, except white space between a comparison that is a second
or later argument and the comma after it, is accepted and gives the tree of that expression. -/
theorem C66_parse_partial {P : Pcre} {e : Expr} {text : List Nat} (h : Writes False e text) (hp : e.Compiles P) :
    parse P text = some e.node := by
  have hs := stmt_val e (text.length + 1) text [] h hp (by omega) (by intro c hc; simp at hc)
  rw [List.append_nil] at hs
  have h0 : post e [] = [] := by unfold post; split <;> rfl
  rw [h0] at hs
  have hne : text ≠ [] := by
    rintro rfl
    have := stmt_val e 1 [] [] h hp (by simp) (by intro c hc; simp at hc)
    exact absurd this (by simp [stmt, predicate, left, identifier, one, literal, quoted, orElse, andThen, lit, call])
  unfold parse
  rw [parseLoop, hs]
  obtain ⟨m, hm⟩ : ∃ m, text.length = m + 1 := ⟨text.length - 1, by
    have := List.length_pos_iff.2 hne; omega⟩
  have hl : parseLoop P text.length [] e.node = (e.node, 0) := by
    rw [hm, parseLoop]
    simp [stmt, predicate, left, identifier, one, literal, quoted, orElse, andThen, lit, call]
  simp only [hl]
  simp

/-- A way to write `and(not( exists ("a b")),x.y <= -3.5e+2,or(n=1))` is meant. -/
example : parse demoP (bytesOf "and ( not(exists ('a\\040b')) ,x.y\n<= -3.5e+2, or(n=1) , z~\"w\" )") =
    some (Expr.and [.not (.has (bytesOf "a b")), .cmp (bytesOf "x.y") .le ⟨.dbl, bytesOf "-3.5e+2"⟩,
      .or [.cmp (bytesOf "n") .eq ⟨.int, bytesOf "1"⟩], .cmp (bytesOf "z") .re ⟨.str, bytesOf "w"⟩]).node := by
  apply C66_parse_partial
  · have hb : Blank [] := by simp [Blank]
    have hs : Blank [32] := by simp [Blank]
    have hnl : Blank [10] := by simp [Blank]
    have plain : ∀ c, c ≠ 39 → c ≠ 92 → c ≠ 0 → Piece 39 [c] c := fun c => Piece.plain
    rw [Writes]
    refine ⟨[32], [32], bytesOf "not(exists ('a\\040b')) ,x.y\n<= -3.5e+2, or(n=1) , z~\"w\"", [32], hs, hs, ?_, hs, rfl⟩
    rw [WritesArgs]
    refine ⟨bytesOf "not(exists ('a\\040b'))", [32], bytesOf ",x.y\n<= -3.5e+2, or(n=1) , z~\"w\"", ?_, hs, ?_, rfl⟩
    · rw [Writes]
      refine ⟨[], [], bytesOf "exists ('a\\040b')", [], hb, hb, ?_, hb, rfl⟩
      rw [Writes]
      refine ⟨[32], [], bytesOf "'a\\040b'", [], hs, hb, Or.inr ⟨39, bytesOf "a\\040b", Or.inl rfl, ?_, rfl⟩, hb, rfl⟩
      exact Pieces.cons (ts := bytesOf "\\040b") (plain 97 (by decide) (by decide) (by decide))
        (Pieces.cons (ts := bytesOf "b") (Piece.octal (a := 0) (b := 4) (c := 0) (by decide) (by decide) (by decide) (by decide))
          (Pieces.cons (ts := []) (plain 98 (by decide) (by decide) (by decide)) Pieces.nil))
    · rw [WritesRest]
      refine ⟨[], bytesOf "x.y\n<= -3.5e+2", [], bytesOf ", or(n=1) , z~\"w\"", hb, ?_, hb, Or.inr (Or.inl rfl), ?_, rfl⟩
      · rw [Writes]
        refine ⟨bytesOf "x.y", [10], [32], bytesOf "-3.5e+2", ?_, hnl, by decide, hs, ?_, rfl⟩
        · exact Or.inl ⟨rfl, 120, bytesOf ".y", rfl, by decide, by decide⟩
        · exact Or.inr (Or.inr ⟨rfl, rfl, [45], bytesOf "3", bytesOf "5", bytesOf "e+2", by simp, by decide, by decide,
            Or.inr ⟨43, bytesOf "2", by simp, by decide, rfl⟩, rfl⟩)
      · rw [WritesRest]
        refine ⟨[32], bytesOf "or(n=1)", [32], bytesOf ", z~\"w\"", hs, ?_, hs, Or.inr (Or.inr trivial), ?_, rfl⟩
        · rw [Writes]
          refine ⟨[], [], bytesOf "n=1", [], hb, hb, ?_, hb, rfl⟩
          rw [WritesArgs]
          refine ⟨bytesOf "n=1", [], [], ?_, hb, by rw [WritesRest], rfl⟩
          rw [Writes]
          refine ⟨bytesOf "n", [], [], bytesOf "1", ?_, hb, by decide, hb, ?_, rfl⟩
          · exact Or.inl ⟨rfl, 110, [], rfl, by decide, by simp⟩
          · exact Or.inr (Or.inl ⟨rfl, rfl, [], bytesOf "1", by simp, by decide, rfl⟩)
        · rw [WritesRest]
          refine ⟨[32], bytesOf "z~\"w\"", [], [], hs, ?_, hb, Or.inr (Or.inl rfl), by rw [WritesRest], rfl⟩
          rw [Writes]
          refine ⟨bytesOf "z", [], [], bytesOf "\"w\"", ?_, hb, by decide, hb, ?_, rfl⟩
          · exact Or.inl ⟨rfl, 122, [], rfl, by decide, by simp⟩
          · exact Or.inl ⟨rfl, 34, bytesOf "w", Or.inr rfl, Pieces.cons (ts := []) (Piece.plain (by decide) (by decide) (by decide)) Pieces.nil, rfl⟩
  · simp [Expr.Compiles, CompilesAll, demoP, bytesOf]

/-! ### Evaluation of a parsed expression -/

mutual
/-- Every comparison of the expression is `C`, every test for existence `H`. -/
def Expr.All (C : List Nat → Op → Const → Prop) (H : List Nat → Prop) : Expr → Prop
  | .cmp n op c => C n op c
  | .has n => H n
  | .not e => e.All C H
  | .and es => AllAll C H es
  | .or es => AllAll C H es
def AllAll (C : List Nat → Op → Const → Prop) (H : List Nat → Prop) : List Expr → Prop
  | [] => True
  | e :: es => e.All C H ∧ AllAll C H es
end

mutual
theorem all_has {C : List Nat → Op → Const → Prop} {H : List Nat → Prop} (hH : ∀ n, H n) : ∀ e : Expr,
    e.All C (fun _ => True) → e.All C H
  | .cmp n op c, h => by rw [Expr.All] at h ⊢; exact h
  | .has n, _ => by rw [Expr.All]; exact hH n
  | .not e, h => by rw [Expr.All] at h ⊢; exact all_has hH e h
  | .and es, h => by rw [Expr.All] at h ⊢; exact allAll_has hH es h
  | .or es, h => by rw [Expr.All] at h ⊢; exact allAll_has hH es h
theorem allAll_has {C : List Nat → Op → Const → Prop} {H : List Nat → Prop} (hH : ∀ n, H n) : ∀ es : List Expr,
    AllAll C (fun _ => True) es → AllAll C H es
  | [], _ => by rw [AllAll]; trivial
  | e :: es, h => by rw [AllAll] at h ⊢; exact ⟨all_has hH e h.1, allAll_has hH es h.2⟩
end

mutual
theorem wf_node {Q : Op → List Nat → Option Const → Prop} : ∀ e : Expr,
    e.All (fun n op c => Q op n (some c)) (fun n => Q .exist n none) → Wf Q e.node
  | .cmp n op c, h => by rw [Expr.All] at h; rw [Expr.node, Wf]; exact h
  | .has n, h => by rw [Expr.All] at h; rw [Expr.node, Wf]; exact h
  | .not e, h => by
    rw [Expr.All] at h
    rw [Expr.node, Wf, WfAll, WfAll]
    exact ⟨rfl, wf_node e h, trivial⟩
  | .and es, h => by rw [Expr.All] at h; rw [Expr.node, Wf]; exact wf_nodes es h
  | .or es, h => by rw [Expr.All] at h; rw [Expr.node, Wf]; exact wf_nodes es h
theorem wf_nodes {Q : Op → List Nat → Option Const → Prop} : ∀ es : List Expr,
    AllAll (fun n op c => Q op n (some c)) (fun n => Q .exist n none) es → WfAll Q (nodes es)
  | [], _ => by rw [nodes, WfAll]; trivial
  | e :: es, h => by rw [AllAll] at h; rw [nodes, WfAll]; exact ⟨wf_node e h.1, wf_nodes es h.2⟩
end

def valueOf (cmp : List Nat → Op → Const → Bool) (has : List Nat → Bool) (op : Op) (l : List Nat) (r : Option Const) : Bool :=
  match r with
  | some c => cmp l op c
  | none => has l

mutual
theorem truth_node {cmp : List Nat → Op → Const → Bool} {has : List Nat → Bool} : ∀ e : Expr,
    truth (valueOf cmp has) e.node = e.holds cmp has
  | .cmp n op c => by rw [Expr.node, truth, Expr.holds]; rfl
  | .has n => by rw [Expr.node, truth, Expr.holds]; rfl
  | .not e => by rw [Expr.node, truth, truthAll, truthAll, truth_node e, Expr.holds, Bool.and_true]
  | .and es => by rw [Expr.node, truth, Expr.holds, truthAll_nodes es]
  | .or es => by rw [Expr.node, truth, Expr.holds, truthAny_nodes es]
theorem truthAll_nodes {cmp : List Nat → Op → Const → Bool} {has : List Nat → Bool} : ∀ es : List Expr,
    truthAll (valueOf cmp has) (nodes es) = holdsAll cmp has es
  | [] => by rw [nodes, truthAll, holdsAll]
  | e :: es => by rw [nodes, truthAll, holdsAll, truth_node e, truthAll_nodes es]
theorem truthAny_nodes {cmp : List Nat → Op → Const → Bool} {has : List Nat → Bool} : ∀ es : List Expr,
    truthAny (valueOf cmp has) (nodes es) = holdsAny cmp has es
  | [] => by rw [nodes, truthAny, holdsAny]
  | e :: es => by rw [nodes, truthAny, holdsAny, truth_node e, truthAny_nodes es]
end

/-- C66 (meaning), part: the text of an expression is accepted, and executing what was read gives the value of the
expression.  (`cmp` gives the values of the comparisons, C29 says what they are; `has` says which names the lookup
knows.) -/
theorem C66_meaning_partial {F : Dbl} {P : Pcre} {lookup : List Nat → Option (Val F)} {e : Expr} {text : List Nat}
    {cmp : List Nat → Op → Const → Bool} (h : Writes False e text) (hp : e.Compiles P)
    (hc : e.All (fun n op c => execPred F P lookup op n (some c) = .ok (cmp n op c)) (fun _ => True)) :
    ∃ root, parse P text = some root ∧
      exec F P lookup root = .ok (e.holds cmp (fun n => (lookup n).isSome)) := by
  refine ⟨_, C66_parse_partial h hp, ?_⟩
  rw [← truth_node]
  apply C29_formula
  apply wf_node
  have conv : (∀ e : Expr, e.All (fun n op c => execPred F P lookup op n (some c) = .ok (cmp n op c)) (fun _ => True) →
      e.All (fun n op c => execPred F P lookup op n (some c) = .ok (valueOf cmp (fun n => (lookup n).isSome) op n (some c)))
        (fun n => execPred F P lookup .exist n none = .ok (valueOf cmp (fun n => (lookup n).isSome) .exist n none))) := by
    intro e
    exact all_has (fun n => rfl) e
  exact conv e hc

/-- `not(host = 'db1')` read and executed. -/
example : ∃ root, parse demoP (bytesOf "not(host='db1')") = some root ∧ exec demoF demoP demoLookup root = .ok true := by
  have := C66_meaning_partial (F := demoF) (P := demoP) (lookup := demoLookup)
    (e := .not (.cmp (bytesOf "host") .eq ⟨.str, bytesOf "db1"⟩)) (text := bytesOf "not(host='db1')")
    (cmp := fun _ _ _ => false)
    (by
      have hb : Blank [] := by simp [Blank]
      rw [Writes]
      refine ⟨[], [], bytesOf "host='db1'", [], hb, hb, ?_, hb, rfl⟩
      rw [Writes]
      refine ⟨bytesOf "host", [], [], bytesOf "'db1'", ?_, hb, by decide, hb, ?_, rfl⟩
      · exact Or.inl ⟨rfl, 104, bytesOf "ost", rfl, by decide, by decide⟩
      · refine Or.inl ⟨rfl, 39, bytesOf "db1", Or.inl rfl, ?_, rfl⟩
        exact Pieces.cons (ts := bytesOf "b1") (Piece.plain (by decide) (by decide) (by decide))
          (Pieces.cons (ts := bytesOf "1") (Piece.plain (by decide) (by decide) (by decide))
            (Pieces.cons (ts := []) (Piece.plain (by decide) (by decide) (by decide)) Pieces.nil)))
    (by simp [Expr.Compiles])
    (by rw [Expr.All, Expr.All]; rfl)
  simpa [Expr.holds] using this

/-! ### Where the parser differs from the language -/

/-- The root of a parsed text is this comparison. -/
def isCmp (r : Option Node) (n : List Nat) (op : Op) (c : Const) : Bool :=
  match r with
  | some (.pred o l (some k)) => o = op && l = n && k = c
  | _ => false
/-- The text was accepted but there is no tree. -/
def isNull (r : Option Node) : Bool :=
  match r with
  | some .null => true
  | _ => false

/-- White space before the comma after a second argument is refused (but not after a first one). -/
theorem C66_space_before_comma_violated :
    (parse demoP (bytesOf "and(a=1, b=2 , c=3)")).isNone = true ∧ (parse demoP (bytesOf "and(a=1 , b=2, c=3)")).isSome = true ∧
    ∃ e, Writes True e (bytesOf "and(a=1, b=2 , c=3)") := by
  refine ⟨by decide +kernel, by decide +kernel, ?_⟩
  refine ⟨.and [.cmp (bytesOf "a") .eq ⟨.int, bytesOf "1"⟩, .cmp (bytesOf "b") .eq ⟨.int, bytesOf "2"⟩,
    .cmp (bytesOf "c") .eq ⟨.int, bytesOf "3"⟩], ?_⟩
  have hb : Blank [] := by simp [Blank]
  have hs : Blank [32] := by simp [Blank]
  have hc : ∀ n v, isLetter n → 48 ≤ v ∧ v ≤ 57 → Writes True (.cmp [n] .eq ⟨.int, [v]⟩) [n, 61, v] := by
    intro n v hn hv
    rw [Writes]
    refine ⟨[n], [], [], [v], Or.inl ⟨rfl, n, [], rfl, hn, by simp⟩, hb, by decide, hb, ?_, rfl⟩
    exact Or.inr (Or.inl ⟨rfl, rfl, [], [v], by simp, ⟨by simp, by simpa using hv⟩, rfl⟩)
  rw [Writes]
  refine ⟨[], [], bytesOf "a=1, b=2 , c=3", [], hb, hb, ?_, hb, rfl⟩
  rw [WritesArgs]
  refine ⟨bytesOf "a=1", [], bytesOf ", b=2 , c=3", hc 97 49 (by decide) (by decide), hb, ?_, rfl⟩
  rw [WritesRest]
  refine ⟨[32], bytesOf "b=2", [32], bytesOf ", c=3", hs, hc 98 50 (by decide) (by decide), hs, Or.inl trivial, ?_, rfl⟩
  rw [WritesRest]
  exact ⟨[32], bytesOf "c=3", [], [], hs, hc 99 51 (by decide) (by decide), hb, Or.inl trivial, by rw [WritesRest], rfl⟩

/-- Text that is not an expression is accepted: a name alone, the empty text, an unfinished expression.  There is
no tree then, and executing it (or asking for a name in it) is undefined. -/
theorem C66_no_tree_violated :
    isNull (parse demoP (bytesOf "foo")) = true ∧ isNull (parse demoP []) = true ∧
    isNull (parse demoP (bytesOf "and(a=1,")) = true ∧ isNull (parse demoP (bytesOf "a = 'x")) = true ∧
    exec demoF demoP demoLookup .null = .ub ∧ hasPred .null [97] = .ub := by
  refine ⟨?_, ?_, ?_, ?_, by rw [exec], by rw [hasPred]⟩ <;> decide +kernel

/-- What follows an expression is ignored if the parser looked at all of it: a name, a number's exponent without
sign, an unfinished second expression; of two expressions the last one counts. -/
theorem C66_trailing_violated :
    isCmp (parse demoP (bytesOf "a=1 ")) [97] .eq ⟨.int, [49]⟩ = true ∧ (parse demoP (bytesOf "a=1  ")).isNone = true ∧
    isCmp (parse demoP (bytesOf "a=1junk")) [97] .eq ⟨.int, [49]⟩ = true ∧
    isCmp (parse demoP (bytesOf "a=1e5")) [97] .eq ⟨.int, [49]⟩ = true ∧
    isCmp (parse demoP (bytesOf "a=1and(b=2,c")) [97] .eq ⟨.int, [49]⟩ = true ∧
    isCmp (parse demoP (bytesOf "a='x'b=2")) [98] .eq ⟨.int, [50]⟩ = true := by
  refine ⟨?_, ?_, ?_, ?_, ?_, ?_⟩ <;> decide +kernel

/-- A number with an exponent and no point is read as the integer before the exponent (with C29_exponent_violated). -/
theorem C66_exponent_violated :
    isCmp (parse demoP (bytesOf "a=1e+3")) [97] .eq ⟨.int, bytesOf "1e+3"⟩ = true ∧
    Const.l ⟨.int, bytesOf "1e+3"⟩ = 1 := by
  refine ⟨?_, ?_⟩ <;> decide +kernel

/-- A string ends at an escaped NUL. -/
theorem C66_nul_violated :
    isCmp (parse demoP (bytesOf "a='x\\000y'")) [97] .eq ⟨.str, bytesOf "x"⟩ = true := by decide +kernel

/-- A pattern that does not compile is accepted and there is no tree. -/
theorem C66_pattern_violated : isNull (parse demoP (bytesOf "a~'('")) = true := by decide +kernel

end Mtev.Logic
