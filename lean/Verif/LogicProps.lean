import Verif.Logic

/-!
Properties of logic expressions (C29).
-/

namespace Mtev.Logic

/-! ### Formulas -/

mutual
/-- The truth value of a formula whose predicates have the truth values `v`. -/
def truth (v : Op → List Nat → Option Const → Bool) : Node → Bool
  | .null => false
  | .pred op l r => v op l r
  | .not es => !truthAll v es
  | .and es => truthAll v es
  | .or es => truthAny v es
def truthAll (v : Op → List Nat → Option Const → Bool) : List Node → Bool
  | [] => true
  | e :: es => truth v e && truthAll v es
def truthAny (v : Op → List Nat → Option Const → Bool) : List Node → Bool
  | [] => false
  | e :: es => truth v e || truthAny v es
end

mutual
/-- A formula as the grammar builds it from patterns that compile: no null pointers, `not` of exactly
one formula; and every predicate `Q`. -/
def Wf (Q : Op → List Nat → Option Const → Prop) : Node → Prop
  | .null => False
  | .pred op l r => Q op l r
  | .not es => es.length = 1 ∧ WfAll Q es
  | .and es => WfAll Q es
  | .or es => WfAll Q es
def WfAll (Q : Op → List Nat → Option Const → Prop) : List Node → Prop
  | [] => True
  | e :: es => Wf Q e ∧ WfAll Q es
end

theorem truthAll_spec (v) : ∀ es, truthAll v es = true ↔ ∀ e ∈ es, truth v e = true
  | [] => by simp [truthAll]
  | e :: es => by simp [truthAll, truthAll_spec v es]

theorem truthAny_spec (v) : ∀ es, truthAny v es = true ↔ ∃ e ∈ es, truth v e = true
  | [] => by simp [truthAny]
  | e :: es => by simp [truthAny, truthAny_spec v es]

variable {F : Dbl} {P : Pcre} {lookup : List Nat → Option (Val F)}

mutual
theorem exec_truth {v : Op → List Nat → Option Const → Bool} : ∀ (e : Node),
    Wf (fun op l r => execPred F P lookup op l r = .ok (v op l r)) e → exec F P lookup e = .ok (truth v e)
  | .null, h => absurd h (by simp [Wf])
  | .pred op l r, h => by simpa [Wf, exec, truth] using h
  | .not es, h => by
    rw [Wf] at h
    rw [exec, truth]
    exact execNot_truth es h.2 h.1
  | .and es, h => by
    rw [Wf] at h
    rw [exec, truth]
    exact execAnd_truth es h
  | .or es, h => by
    rw [Wf] at h
    rw [exec, truth]
    exact execOr_truth es h
theorem execNot_truth {v : Op → List Nat → Option Const → Bool} : ∀ (es : List Node),
    WfAll (fun op l r => execPred F P lookup op l r = .ok (v op l r)) es → es.length = 1 →
    execNot F P lookup es = .ok (!truthAll v es)
  | [], _, h => by simp at h
  | e :: es, h, h1 => by
    rw [WfAll] at h
    have h0 : es = [] := by simpa using h1
    rw [execNot, exec_truth e h.1, h0]
    simp [truthAll]
theorem execAnd_truth {v : Op → List Nat → Option Const → Bool} : ∀ (es : List Node),
    WfAll (fun op l r => execPred F P lookup op l r = .ok (v op l r)) es →
    execAnd F P lookup es = .ok (truthAll v es)
  | [], _ => by simp [execAnd, truthAll]
  | e :: es, h => by
    rw [WfAll] at h
    rw [execAnd, exec_truth e h.1, Out.ok_bind, truthAll]
    cases truth v e
    · simp
    · simp only [if_true, Bool.true_and]
      exact execAnd_truth es h.2
theorem execOr_truth {v : Op → List Nat → Option Const → Bool} : ∀ (es : List Node),
    WfAll (fun op l r => execPred F P lookup op l r = .ok (v op l r)) es →
    execOr F P lookup es = .ok (truthAny v es)
  | [], _ => by simp [execOr, truthAny]
  | e :: es, h => by
    rw [WfAll] at h
    rw [execOr, exec_truth e h.1, Out.ok_bind, truthAny]
    cases truth v e
    · simp only [Bool.false_eq_true, if_false, Bool.false_or]
      exact execOr_truth es h.2
    · simp
end

/-- C29 (formulas): if the predicates of an expression have values, executing the expression gives the
value of the boolean formula, whatever its shape and depth. -/
theorem C29_formula {v : Op → List Nat → Option Const → Bool} {e : Node}
    (h : Wf (fun op l r => execPred F P lookup op l r = .ok (v op l r)) e) :
    exec F P lookup e = .ok (truth v e) := exec_truth e h

/-- What the formula's value is, connective by connective. -/
theorem C29_truth (v : Op → List Nat → Option Const → Bool) :
    (∀ es, truth v (.and es) = true ↔ ∀ e ∈ es, truth v e = true) ∧
    (∀ es, truth v (.or es) = true ↔ ∃ e ∈ es, truth v e = true) ∧
    (∀ e, truth v (.not [e]) = !truth v e) := by
  refine ⟨fun es => by rw [truth]; exact truthAll_spec v es, fun es => by rw [truth]; exact truthAny_spec v es, ?_⟩
  intro e
  simp [truth, truthAll]

/-! ### A concrete setting for the examples -/

/-- Doubles replaced by integers: enough to show the hypotheses can be met. -/
def demoF : Dbl where
  D := Int
  ofInt := id
  strtod := strtoll
  fmtG := fmtInt
  lt := fun a b => a < b
  eq := fun a b => a = b

/-- A pattern matches when it is a prefix. -/
def demoP : Pcre where
  compiles := fun p => p ≠ [40]
  matchesAt := fun p s => p.isPrefixOf s

def demoLookup : List Nat → Option (Val demoF) := fun k =>
  if k = bytesOf "host" then some (.str (some (bytesOf "web12")) true)
  else if k = bytesOf "count" then some (.int 42)
  else if k = bytesOf "text" then some (.str (some (bytesOf " -7")) true)
  else none

def sc (s : String) : Option Const := some ⟨.str, bytesOf s⟩
def ic (s : String) : Option Const := some ⟨.int, bytesOf s⟩

/-- `and(host ~ 'web', or(not(count > 50), missing = 'x'))` -/
def demoNode : Node := .and [.pred .re (bytesOf "host") (sc "web"),
  .or [.not [.pred .gt (bytesOf "count") (ic "50")], .pred .eq (bytesOf "missing") (sc "x")]]

def demoV : Op → List Nat → Option Const → Bool := fun op l _ => decide (op = .re ∨ l = bytesOf "host")

example : Wf (fun op l r => execPred demoF demoP demoLookup op l r = .ok (demoV op l r)) demoNode := by
  simp only [demoNode, Wf, WfAll, List.length_singleton]
  refine ⟨?_, ⟨⟨trivial, ?_, trivial⟩, ?_, trivial⟩, trivial⟩ <;> decide +kernel
example : exec demoF demoP demoLookup demoNode = .ok true := by decide +kernel

/-! ### Missing variables -/

/-- C29 (missing variables): a predicate on a name that is not found (or is a null string) is true for
the two negative operators and false for all others; `exists` says whether the name was found. -/
theorem C29_missing (left : List Nat) (right : Option Const) (op : Op) :
    execPred F P lookup .exist left right = .ok (lookup left).isSome ∧
    (lookup left = none ∨ (∃ t, lookup left = some (.str none t)) → op ≠ .exist →
      execPred F P lookup op left right = .ok (decide (op = .ne ∨ op = .nre))) := by
  constructor
  · unfold execPred; simp
  · intro h hop
    unfold execPred
    simp only
    rw [if_neg hop]
    rcases h with h | ⟨t, h⟩ <;> rw [h]

example : execPred demoF demoP demoLookup .ne (bytesOf "missing") (ic "5") = .ok true := by decide +kernel

/-! ### Comparison operators -/

/-- How the six comparison operators must relate: `R` is one of less, equal, greater. -/
inductive Rel
  | less | equal | greater
deriving DecidableEq

/-- The meaning of an operator given how the two sides compare. -/
def Op.holds : Op → Rel → Bool
  | .lt, r => r = .less
  | .le, r => r = .less ∨ r = .equal
  | .eq, r => r = .equal
  | .ne, r => r ≠ .equal
  | .ge, r => r = .greater ∨ r = .equal
  | .gt, r => r = .greater
  | _, _ => false

/-- The six comparison operators. -/
def Op.cmp : Op → Bool
  | .lt | .le | .eq | .ne | .ge | .gt => true
  | _ => false

/-- Lexicographic order on byte strings. -/
def lexLt : List Nat → List Nat → Prop
  | _, [] => False
  | [], _ :: _ => True
  | a :: as, b :: bs => a < b ∨ (a = b ∧ lexLt as bs)

/-- The order of strings in expressions: shorter first, then lexicographic. -/
def shortLex (a b : List Nat) : Prop := a.length < b.length ∨ (a.length = b.length ∧ lexLt a b)

/-- `r` says how `a` and `b` compare in the string order. -/
def relStr (a b : List Nat) (r : Rel) : Prop :=
  match r with
  | .less => shortLex a b
  | .equal => a = b
  | .greater => shortLex b a

theorem lexLt_irrefl : ∀ a, ¬ lexLt a a
  | [] => by simp [lexLt]
  | a :: as => by simp [lexLt, lexLt_irrefl as]

theorem lexLt_trans : ∀ {a b c}, lexLt a b → lexLt b c → lexLt a c
  | _, [], _, h, _ => by simp [lexLt] at h
  | _, _ :: _, [], _, h => by simp [lexLt] at h
  | [], _ :: _, _ :: _, _, _ => trivial
  | a :: as, b :: bs, c :: cs, h1, h2 => by
    simp only [lexLt] at h1 h2 ⊢
    rcases h1 with h1 | ⟨rfl, h1⟩
    · rcases h2 with h2 | ⟨rfl, h2⟩
      · left; omega
      · exact Or.inl h1
    · rcases h2 with h2 | ⟨rfl, h2⟩
      · exact Or.inl h2
      · exact Or.inr ⟨rfl, lexLt_trans h1 h2⟩

theorem lexLt_tri : ∀ {a b : List Nat}, a.length = b.length → lexLt a b ∨ a = b ∨ lexLt b a
  | [], [], _ => Or.inr (Or.inl rfl)
  | [], _ :: _, h => by simp at h
  | _ :: _, [], h => by simp at h
  | a :: as, b :: bs, h => by
    rcases Nat.lt_trichotomy a b with h1 | h1 | h1
    · exact Or.inl (Or.inl h1)
    · subst h1
      rcases lexLt_tri (a := as) (b := bs) (by simpa using h) with h2 | h2 | h2
      · exact Or.inl (Or.inr ⟨rfl, h2⟩)
      · exact Or.inr (Or.inl (by rw [h2]))
      · exact Or.inr (Or.inr (Or.inr ⟨rfl, h2⟩))
    · exact Or.inr (Or.inr (Or.inl h1))

/-- The string order is a strict total order. -/
theorem C29_string_order :
    (∀ a, ¬ shortLex a a) ∧ (∀ a b c, shortLex a b → shortLex b c → shortLex a c) ∧
    (∀ a b, shortLex a b ∨ a = b ∨ shortLex b a) := by
  refine ⟨fun a h => ?_, fun a b c h1 h2 => ?_, fun a b => ?_⟩
  · rcases h with h | ⟨-, h⟩
    · omega
    · exact lexLt_irrefl a h
  · rcases h1 with h1 | ⟨h1, h1'⟩ <;> rcases h2 with h2 | ⟨h2, h2'⟩
    · exact Or.inl (by omega)
    · exact Or.inl (by omega)
    · exact Or.inl (by omega)
    · exact Or.inr ⟨by omega, lexLt_trans h1' h2'⟩
  · rcases Nat.lt_trichotomy a.length b.length with h | h | h
    · exact Or.inl (Or.inl h)
    · rcases lexLt_tri h with h' | h' | h'
      · exact Or.inl (Or.inr ⟨h, h'⟩)
      · exact Or.inr (Or.inl h')
      · exact Or.inr (Or.inr (Or.inr ⟨h.symm, h'⟩))
    · exact Or.inr (Or.inr (Or.inl h))

theorem memcmp_spec : ∀ {a b : List Nat}, a.length = b.length →
    (memcmp a b < 0 ↔ lexLt a b) ∧ (memcmp a b = 0 ↔ a = b)
  | [], [], _ => by simp [memcmp, lexLt]
  | [], _ :: _, h => by simp at h
  | _ :: _, [], h => by simp at h
  | a :: as, b :: bs, h => by
    obtain ⟨h1, h2⟩ := memcmp_spec (a := as) (b := bs) (by simpa using h)
    simp only [memcmp, lexLt]
    split
    · rename_i he
      subst he
      simp [h1, h2]
    · rename_i he
      constructor
      · constructor
        · intro; left; omega
        · rintro (h | ⟨h, -⟩) <;> omega
      · constructor
        · intro; omega
        · intro h; injection h; omega

theorem strllcmp_spec {a b : List Nat} (ha : a.length < 2 ^ 31) (hb : b.length < 2 ^ 31) {r : Rel}
    (h : relStr a b r) :
    (strllcmp a b < 0 ↔ r = .less) ∧ (strllcmp a b = 0 ↔ r = .equal) ∧ (strllcmp a b > 0 ↔ r = .greater) := by
  unfold strllcmp
  by_cases hl : a.length = b.length
  · rw [if_neg (by simpa using hl)]
    obtain ⟨h1, h2⟩ := memcmp_spec hl
    cases r with
    | less =>
      have h3 : memcmp a b < 0 := by
        rw [h1]
        rcases h with h | ⟨-, h⟩
        · omega
        · exact h
      refine ⟨iff_of_true h3 rfl, iff_of_false (by omega) (by simp), iff_of_false (by omega) (by simp)⟩
    | equal =>
      have h3 : memcmp a b = 0 := h2.mpr h
      refine ⟨iff_of_false (by omega) (by simp), iff_of_true h3 rfl, iff_of_false (by omega) (by simp)⟩
    | greater =>
      have h4 : lexLt b a := by
        rcases h with h | ⟨-, h⟩
        · omega
        · exact h
      have h5 : ¬ lexLt a b := fun h6 => lexLt_irrefl _ (lexLt_trans h4 h6)
      have h6 : a ≠ b := fun e => by subst e; exact lexLt_irrefl _ h4
      rw [← h1] at h5
      have h7 : ¬ memcmp a b = 0 := fun e => h6 (h2.mp e)
      refine ⟨iff_of_false h5 (by simp), iff_of_false h7 (by simp), iff_of_true (by omega) rfl⟩
  · rw [if_pos hl]
    have hc : sizeToInt (sub64 a.length b.length) = (a.length : Int) - b.length := by
      rcases Nat.lt_or_ge b.length a.length with h' | h'
      · exact sizeToInt_pos ha h'
      · exact sizeToInt_neg hb (by omega)
    rw [hc]
    cases r with
    | less =>
      have : a.length < b.length := by
        rcases h with h | ⟨h, -⟩
        · exact h
        · exact absurd h hl
      refine ⟨iff_of_true (by omega) rfl, iff_of_false (by omega) (by simp), iff_of_false (by omega) (by simp)⟩
    | equal => exact absurd (congrArg List.length h) hl
    | greater =>
      have : b.length < a.length := by
        rcases h with h | ⟨h, -⟩
        · exact h
        · exact absurd h.symm hl
      refine ⟨iff_of_false (by omega) (by simp), iff_of_false (by omega) (by simp), iff_of_true (by omega) rfl⟩

theorem opZero_holds {op : Op} (hop : op.cmp = true) {c : Int} {r : Rel}
    (h : (c < 0 ↔ r = .less) ∧ (c = 0 ↔ r = .equal) ∧ (c > 0 ↔ r = .greater)) : opZero op c = op.holds r := by
  obtain ⟨h1, h2, h3⟩ := h
  have hc : c < 0 ∨ c = 0 ∨ c > 0 := by omega
  cases op <;> simp [Op.cmp] at hop <;> cases r <;> simp at h1 h2 h3 <;> simp [opZero, Op.holds] <;> omega

/-- The text a value is compared as with a string constant. -/
def textOf (F : Dbl) : Val F → List Nat
  | .str s _ => s.getD []
  | .int l => fmtInt l
  | .dbl d => F.fmtG d

/-- C29 (strings): comparing with a string constant orders strings by length and then bytewise; every
operator agrees with that one order.  For strings below 4096 bytes, or without NUL bytes, followed by a
NUL and below 2^31 bytes. -/
theorem C29_string_compare {op : Op} (hop : op.cmp = true) {left : List Nat} {c : Const} (hc : c.ty = .str)
    {v : Val F} (hv : lookup left = some v) (hnull : ∀ t, v ≠ .str none t)
    (hlen : (textOf F v).length < 4096 ∨
      ∃ s, v = .str (some s) true ∧ 0 ∉ s ∧ s.length < 2 ^ 31)
    (hcl : c.text.length < 2 ^ 31) {r : Rel} (h : relStr (textOf F v) c.text r) :
    execPred F P lookup op left (some c) = .ok (op.holds r) := by
  have hs : stringOf F v = .ok (textOf F v) := by
    cases v with
    | int l => rfl
    | dbl d => rfl
    | str s t =>
      cases s with
      | none => exact absurd rfl (hnull t)
      | some s =>
        simp only [stringOf, textOf, Option.getD_some] at hlen ⊢
        rcases hlen with hlen | ⟨s', e, h0, -⟩
        · rw [if_neg (by omega)]
        · injection e with e1 e2
          injection e1 with e1
          subst e1 e2
          split
          · rw [if_pos rfl]
          · rfl
  have hlt : (textOf F v).length < 2 ^ 31 := by
    rcases hlen with hlen | ⟨s, rfl, -, hlen⟩
    · omega
    · exact hlen
  have hne : op ≠ .exist := by rintro rfl; simp [Op.cmp] at hop
  have hz := opZero_holds hop (strllcmp_spec hlt hcl h)
  unfold execPred
  simp only
  rw [if_neg hne, hv]
  cases v with
  | str s t =>
    cases s with
    | none => exact absurd rfl (hnull t)
    | some s =>
      simp only [hc, if_true]
      rw [hs, Out.ok_bind]
      cases op <;> first | (simp [Op.cmp] at hop; done) | (simp only [hz]; rfl)
  | int l =>
    simp only [hc, if_true]
    rw [hs, Out.ok_bind]
    cases op <;> first | (simp [Op.cmp] at hop; done) | (simp only [hz]; rfl)
  | dbl d =>
    simp only [hc, if_true]
    rw [hs, Out.ok_bind]
    cases op <;> first | (simp [Op.cmp] at hop; done) | (simp only [hz]; rfl)

/-- "web12" is longer than "xyz", so it is greater. -/
example : relStr (textOf demoF (.str (some (bytesOf "web12")) true)) (bytesOf "xyz") .greater ∧
    execPred demoF demoP demoLookup .gt (bytesOf "host") (sc "xyz") = .ok true ∧
    execPred demoF demoP demoLookup .le (bytesOf "host") (sc "xyz") = .ok false := by
  refine ⟨Or.inl (by decide), by decide +kernel, by decide +kernel⟩

/-- `r` says how two integers compare. -/
def relInt (a b : Int) (r : Rel) : Prop :=
  match r with
  | .less => a < b
  | .equal => a = b
  | .greater => a > b

theorem opInt_holds {op : Op} (hop : op.cmp = true) {a b : Int} {r : Rel} (h : relInt a b r) :
    opInt op a b = .ok (op.holds r) := by
  cases op <;> simp [Op.cmp] at hop <;> cases r <;> simp only [relInt] at h <;> simp [opInt, Op.holds] <;> omega

/-- A string that is a number: optional white space, optional sign, digits. -/
structure IntText (s : List Nat) (l : Int) : Prop where
  short : s.length < 128
  form : ∃ (ws sg ds : List Nat), s = ws ++ sg ++ ds ∧ (∀ b ∈ ws, isSpace b = true) ∧
    (sg = [] ∨ sg = [43] ∨ sg = [45]) ∧ ds ≠ [] ∧ (∀ b ∈ ds, isDigit b = true) ∧
    l = clamp (if sg = [45] then -(digitsVal ds : Int) else digitsVal ds)

theorem takeWhile_append_stop {p : Nat → Bool} : ∀ {a b : List Nat}, (∀ x ∈ a, p x = true) →
    (∀ x, b.head? = some x → p x = false) → (a ++ b).takeWhile p = a
  | [], b, _, hb => by
    cases b with
    | nil => rfl
    | cons y ys => simp [hb y rfl]
  | x :: a, b, ha, hb => by
    rw [List.cons_append, List.takeWhile_cons, if_pos (ha x (by simp)),
      takeWhile_append_stop (fun y hy => ha y (by simp [hy])) hb]

theorem isDigit_not_space {b : Nat} (h : isDigit b = true) : isSpace b = false ∧ b ≠ 0 ∧ b ≠ 43 ∧ b ≠ 45 := by
  unfold isDigit at h
  unfold isSpace
  simp only [decide_eq_true_eq] at h
  simp only [decide_eq_false_iff_not]
  omega

theorem strtoll_text {s : List Nat} {l : Int} (h : IntText s l) : cstr s = s ∧ strtoll s = (l, s.length) := by
  obtain ⟨ws, sg, ds, rfl, hws, hsg, hds, hdig, rfl⟩ := h.form
  have hd1 : ∃ d ds', ds = d :: ds' := by
    cases ds with
    | nil => exact absurd rfl hds
    | cons d ds' => exact ⟨d, ds', rfl⟩
  obtain ⟨d, ds', hdd⟩ := hd1
  have hd := isDigit_not_space (hdig d (by rw [hdd]; simp))
  constructor
  · unfold cstr
    have key : ∀ b ∈ ws ++ sg ++ ds, (fun b => decide (b ≠ 0)) b = true := ?_
    · have := takeWhile_append_stop (b := []) key (by simp)
      rwa [List.append_nil] at this
    intro b hb
    simp only [ne_eq, decide_not, Bool.not_eq_eq_eq_not, Bool.not_true, decide_eq_false_iff_not]
    rw [List.mem_append, List.mem_append] at hb
    rcases hb with (hb | hb) | hb
    · have := hws b hb
      unfold isSpace at this
      simp only [decide_eq_true_eq] at this
      omega
    · rcases hsg with rfl | rfl | rfl <;> simp at hb <;> omega
    · exact (isDigit_not_space (hdig b hb)).2.1
  · have hw : (ws ++ sg ++ ds).takeWhile isSpace = ws := by
      rw [List.append_assoc]
      apply takeWhile_append_stop hws
      intro x hx
      rcases hsg with rfl | rfl | rfl
      · rw [List.nil_append, hdd] at hx
        simp only [List.head?_cons, Option.some.injEq] at hx
        subst hx
        exact hd.1
      · simp only [List.cons_append, List.head?_cons, Option.some.injEq] at hx
        subst hx
        rfl
      · simp only [List.cons_append, List.head?_cons, Option.some.injEq] at hx
        subst hx
        rfl
    have hdt : ds.takeWhile isDigit = ds := by
      have := takeWhile_append_stop (b := []) hdig (by simp)
      rwa [List.append_nil] at this
    unfold strtoll
    simp only
    rw [hw, List.append_assoc, List.drop_left]
    rcases hsg with rfl | rfl | rfl
    · rw [List.nil_append]
      have : takeSign ds = (false, 0, ds) := by
        rw [hdd]
        unfold takeSign
        split
        · rename_i e; injection e; omega
        · rename_i e; injection e; omega
        · rfl
      rw [this]
      simp only [hdt, if_neg hds]
      simp
    · simp only [takeSign, List.cons_append, List.nil_append, hdt, if_neg hds]
      simp
      omega
    · simp only [takeSign, List.cons_append, List.nil_append, hdt, if_neg hds]
      simp
      omega

/-- C29 (integers): comparing an integer, or a string that is one, with an integer constant is integer
comparison (values outside 64 bits saturate). -/
theorem C29_int_compare {op : Op} (hop : op.cmp = true) {left : List Nat} {c : Const} (hc : c.ty = .int)
    {v : Val F} (hv : lookup left = some v) {l k : Int} (hk : ∃ t, IntText t k ∧ c.text = t)
    (hl : v = .int l ∨ ∃ s t, v = .str (some s) t ∧ IntText s l) {r : Rel} (h : relInt l k r) :
    execPred F P lookup op left (some c) = .ok (op.holds r) := by
  obtain ⟨t, hk, ht⟩ := hk
  have hcl : c.l = k := by unfold Const.l; rw [ht, (strtoll_text hk).2]
  have hn : numOf F v = .ok (.int l) := by
    rcases hl with rfl | ⟨s, t, rfl, hs⟩
    · rfl
    · have := strtoll_text hs
      simp only [numOf]
      rw [if_neg (by have := hs.short; omega), this.1, this.2]
      simp
  have hne : op ≠ .exist := by rintro rfl; simp [Op.cmp] at hop
  unfold execPred
  simp only
  rw [if_neg hne, hv]
  have fin : (do
      match ← numOf F v with
      | .none => pure false
      | .int l => if c.ty = .dbl then opDbl F op (F.ofInt l) (c.n F) else opInt op l c.l
      | .dbl d => opDbl F op d (if c.ty = .dbl then c.n F else F.ofInt c.l)) = Out.ok (op.holds r) := by
    rw [hn, Out.ok_bind]
    simp only [hc]
    rw [if_neg (by simp), hcl]
    exact opInt_holds hop h
  rcases hl with rfl | ⟨s, t, rfl, hs⟩
  · simp only
    rw [if_neg (by rw [hc]; simp)]
    exact fin
  · simp only
    rw [if_neg (by rw [hc]; simp)]
    exact fin

example : IntText (bytesOf " -7") (-7) ∧ IntText (bytesOf "12") 12 ∧
    execPred demoF demoP demoLookup .lt (bytesOf "text") (ic "12") = .ok true ∧
    execPred demoF demoP demoLookup .ge (bytesOf "text") (ic "12") = .ok false := by
  refine ⟨⟨by decide, [32], [45], [55], by decide, by decide, by decide, by decide, by decide, by decide⟩,
    ⟨by decide, [], [], [49, 50], by decide, by decide, by decide, by decide, by decide, by decide⟩, ?_, ?_⟩ <;>
    decide +kernel

/-- IEEE comparison: two numbers that equal themselves (are not NaN) are less, equal or greater. -/
structure Dbl.Ieee (F : Dbl) : Prop where
  tri : ∀ x y, F.eq x x = true → F.eq y y = true →
    (F.lt x y = true ∧ F.eq x y = false ∧ F.lt y x = false) ∨
    (F.lt x y = false ∧ F.eq x y = true ∧ F.lt y x = false) ∨
    (F.lt x y = false ∧ F.eq x y = false ∧ F.lt y x = true)

/-- C29 (all numbers): on a value that converts to a number, if neither side is NaN, the six operators
agree with one of less, equal, greater. -/
theorem C29_number_ops_agree (hF : F.Ieee) {left : List Nat} {c : Const} (hc : c.ty ≠ .str)
    {v : Val F} (hv : lookup left = some v) (hnull : ∀ t, v ≠ .str none t)
    (hnum : (∃ l, numOf F v = .ok (.int l) ∧ F.eq (F.ofInt l) (F.ofInt l) = true) ∨
      ∃ d, numOf F v = .ok (.dbl d) ∧ F.eq d d = true)
    (hcn : F.eq (c.n F) (c.n F) = true) (hcl : F.eq (F.ofInt c.l) (F.ofInt c.l) = true) :
    ∃ r, ∀ op : Op, op.cmp = true → execPred F P lookup op left (some c) = .ok (op.holds r) := by
  -- the numeric part of the predicate
  have red : ∀ op : Op, op.cmp = true → execPred F P lookup op left (some c) = (do
      match ← numOf F v with
      | .none => pure false
      | .int l => if c.ty = .dbl then opDbl F op (F.ofInt l) (c.n F) else opInt op l c.l
      | .dbl d => opDbl F op d (if c.ty = .dbl then c.n F else F.ofInt c.l)) := by
    intro op hop
    have hne : op ≠ .exist := by rintro rfl; simp [Op.cmp] at hop
    unfold execPred
    simp only
    rw [if_neg hne, hv]
    cases v with
    | str s t =>
      cases s with
      | none => exact absurd rfl (hnull t)
      | some s => simp only; rw [if_neg hc]; rfl
    | int l => simp only; rw [if_neg hc]; rfl
    | dbl d => simp only; rw [if_neg hc]; rfl
  have dbl : ∀ x y : F.D, F.eq x x = true → F.eq y y = true →
      ∃ r, ∀ op : Op, op.cmp = true → opDbl F op x y = .ok (op.holds r) := by
    intro x y hx hy
    rcases hF.tri x y hx hy with ⟨h1, h2, h3⟩ | ⟨h1, h2, h3⟩ | ⟨h1, h2, h3⟩
    · exact ⟨.less, fun op hop => by cases op <;> simp [Op.cmp] at hop <;> simp [opDbl, Op.holds, h1, h2, h3]⟩
    · exact ⟨.equal, fun op hop => by cases op <;> simp [Op.cmp] at hop <;> simp [opDbl, Op.holds, h1, h2, h3]⟩
    · exact ⟨.greater, fun op hop => by cases op <;> simp [Op.cmp] at hop <;> simp [opDbl, Op.holds, h1, h2, h3]⟩
  rcases hnum with ⟨l, hl, hll⟩ | ⟨d, hd, hdd⟩
  · by_cases hcd : c.ty = .dbl
    · obtain ⟨r, hr⟩ := dbl (F.ofInt l) (c.n F) hll hcn
      refine ⟨r, fun op hop => ?_⟩
      rw [red op hop, hl, Out.ok_bind]
      simp only [hcd, if_true]
      exact hr op hop
    · have : ∃ r, relInt l c.l r := by
        rcases Int.lt_trichotomy l c.l with h | h | h
        · exact ⟨.less, h⟩
        · exact ⟨.equal, h⟩
        · exact ⟨.greater, h⟩
      obtain ⟨r, hr⟩ := this
      refine ⟨r, fun op hop => ?_⟩
      rw [red op hop, hl, Out.ok_bind]
      simp only [if_neg hcd]
      exact opInt_holds hop hr
  · have hy : F.eq (if c.ty = .dbl then c.n F else F.ofInt c.l) (if c.ty = .dbl then c.n F else F.ofInt c.l) = true := by
      split <;> assumption
    obtain ⟨r, hr⟩ := dbl d _ hdd hy
    refine ⟨r, fun op hop => ?_⟩
    rw [red op hop, hd, Out.ok_bind]
    exact hr op hop

example : demoF.Ieee := ⟨fun x y _ _ => by
  simp only [demoF, decide_eq_true_eq, decide_eq_false_iff_not]
  change Int at x y
  omega⟩

/-! ### Which names an expression mentions -/

mutual
/-- The name occurs on the left of a predicate. -/
def mentions : Node → List Nat → Prop
  | .null, _ => False
  | .pred _ l _, v => l = v
  | .and es, v => mentionsAny es v
  | .or es, v => mentionsAny es v
  | .not es, v => mentionsAny es v
def mentionsAny : List Node → List Nat → Prop
  | [], _ => False
  | e :: es, v => mentions e v ∨ mentionsAny es v
end

mutual
theorem hasPred_iff : ∀ (e : Node) (v : List Nat), Wf (fun _ _ _ => True) e →
    ∃ b, hasPred e v = .ok b ∧ (b = true ↔ mentions e v)
  | .null, _, h => absurd h (by simp [Wf])
  | .pred _ l _, v, _ => ⟨decide (l = v), by rw [hasPred], by rw [mentions]; simp⟩
  | .and es, v, h => by rw [Wf] at h; rw [hasPred, mentions]; exact hasPredAny_iff es v h
  | .or es, v, h => by rw [Wf] at h; rw [hasPred, mentions]; exact hasPredAny_iff es v h
  | .not es, v, h => by rw [Wf] at h; rw [hasPred, mentions]; exact hasPredAny_iff es v h.2
theorem hasPredAny_iff : ∀ (es : List Node) (v : List Nat), WfAll (fun _ _ _ => True) es →
    ∃ b, hasPredAny es v = .ok b ∧ (b = true ↔ mentionsAny es v)
  | [], _, _ => ⟨false, by rw [hasPredAny], by rw [mentionsAny]; simp⟩
  | e :: es, v, h => by
    rw [WfAll] at h
    obtain ⟨b, hb, h1⟩ := hasPred_iff e v h.1
    obtain ⟨b', hb', h2⟩ := hasPredAny_iff es v h.2
    rw [hasPredAny, hb, Out.ok_bind, mentionsAny]
    cases b with
    | true => exact ⟨true, rfl, by simp [h1.mp rfl]⟩
    | false =>
      simp only [Bool.false_eq_true, if_false]
      refine ⟨b', hb', ?_⟩
      rw [h2]
      have : ¬ mentions e v := fun hm => by simpa using h1.mpr hm
      tauto
end

/-- C29 (names): `mtev_logic_has_predicate` says whether a name occurs in the expression. -/
theorem C29_has_predicate {e : Node} (h : Wf (fun _ _ _ => True) e) (v : List Nat) :
    ∃ b, hasPred e v = .ok b ∧ (b = true ↔ mentions e v) := hasPred_iff e v h

/-- An expression gives the same answer for two assignments that agree on the names it mentions. -/
theorem execPred_congr {lookup' : List Nat → Option (Val F)} {op : Op} {l : List Nat} {r : Option Const}
    (h : lookup l = lookup' l) : execPred F P lookup op l r = execPred F P lookup' op l r := by
  unfold execPred; rw [h]

mutual
theorem exec_congr {lookup' : List Nat → Option (Val F)} : ∀ (e : Node),
    (∀ v, mentions e v → lookup v = lookup' v) → exec F P lookup e = exec F P lookup' e
  | .null, _ => by rw [exec, exec]
  | .pred op l r, h => by rw [exec, exec]; exact execPred_congr (h l (by rw [mentions]))
  | .not es, h => by rw [exec, exec]; exact execNot_congr es (fun v hv => h v (by rw [mentions]; exact hv))
  | .and es, h => by rw [exec, exec]; exact execAnd_congr es (fun v hv => h v (by rw [mentions]; exact hv))
  | .or es, h => by rw [exec, exec]; exact execOr_congr es (fun v hv => h v (by rw [mentions]; exact hv))
theorem execNot_congr {lookup' : List Nat → Option (Val F)} : ∀ (es : List Node),
    (∀ v, mentionsAny es v → lookup v = lookup' v) → execNot F P lookup es = execNot F P lookup' es
  | [], _ => by rw [execNot, execNot]
  | e :: es, h => by
    rw [execNot, execNot, exec_congr e (fun v hv => h v (by rw [mentionsAny]; exact Or.inl hv))]
theorem execAnd_congr {lookup' : List Nat → Option (Val F)} : ∀ (es : List Node),
    (∀ v, mentionsAny es v → lookup v = lookup' v) → execAnd F P lookup es = execAnd F P lookup' es
  | [], _ => by rw [execAnd, execAnd]
  | e :: es, h => by
    rw [execAnd, execAnd, exec_congr e (fun v hv => h v (by rw [mentionsAny]; exact Or.inl hv)),
      execAnd_congr es (fun v hv => h v (by rw [mentionsAny]; exact Or.inr hv))]
theorem execOr_congr {lookup' : List Nat → Option (Val F)} : ∀ (es : List Node),
    (∀ v, mentionsAny es v → lookup v = lookup' v) → execOr F P lookup es = execOr F P lookup' es
  | [], _ => by rw [execOr, execOr]
  | e :: es, h => by
    rw [execOr, execOr, exec_congr e (fun v hv => h v (by rw [mentionsAny]; exact Or.inl hv)),
      execOr_congr es (fun v hv => h v (by rw [mentionsAny]; exact Or.inr hv))]
end

/-- C29 (locality): the result depends only on the variables the expression mentions. -/
theorem C29_only_mentioned {lookup' : List Nat → Option (Val F)} {e : Node}
    (h : ∀ v, mentions e v → lookup v = lookup' v) : exec F P lookup e = exec F P lookup' e :=
  exec_congr e h

example : mentions demoNode (bytesOf "count") ∧ ¬ mentions demoNode (bytesOf "text") := by
  simp only [demoNode, mentions, mentionsAny]
  decide

/-! ### Where the code departs from the boolean reading -/

/-- C29 (violated): `!=` is not the negation of `=`: a string that is not a number neither equals a
number nor differs from it. -/
theorem C29_ne_violated :
    execPred demoF demoP demoLookup .eq (bytesOf "host") (ic "5") = .ok false ∧
    execPred demoF demoP demoLookup .ne (bytesOf "host") (ic "5") = .ok false := by
  decide +kernel

/-- C29 (violated): matching a number against a pattern written as a number aborts the process,
for every number and every such pattern. -/
theorem C29_regex_number_violated {left : List Nat} {c : Const} (hc : c.ty = .int) {l : Int}
    (hv : lookup left = some (.int l)) : execPred F P lookup .re left (some c) = .abort := by
  unfold execPred
  simp only
  rw [if_neg (by simp), hv]
  simp only [hc]
  rw [if_neg (by simp)]
  simp [numOf, opInt]

example : demoLookup (bytesOf "count") = some (.int 42) := by
  unfold demoLookup; rw [if_neg (by decide), if_pos rfl]

/-- C29 (violated): a value of 128 bytes or more compared with a number parses uninitialised memory. -/
theorem C29_long_value_violated {left : List Nat} {c : Const} (hc : c.ty ≠ .str) {op : Op} (hop : op ≠ .exist)
    {s : List Nat} {t : Bool} (hs : 128 ≤ s.length) (hv : lookup left = some (.str (some s) t)) :
    execPred F P lookup op left (some c) = .ub := by
  unfold execPred
  simp only
  rw [if_neg hop, hv]
  simp only [if_neg hc]
  simp only [numOf]
  rw [if_pos hs]
  rfl

example : 128 ≤ (List.replicate 200 49 : List Nat).length := by rw [List.length_replicate]; omega

/-- C29 (violated): an expression with a pattern that does not compile is accepted, and executing it
dereferences a null pointer. -/
theorem C29_bad_pattern_violated {left : List Nat} {c : Const} (hc : P.compiles c.text = false) :
    exec F P lookup (mkPred P .re left (some c)) = .ub := by
  simp [mkPred, hc, exec]

example : demoP.compiles (bytesOf "(") = false := by decide

/-- C29 (violated): two different strings whose lengths differ by exactly 2^32 compare as equal. -/
theorem C29_huge_strings_violated {a b : List Nat} (h : a.length = b.length + 2 ^ 32) (hb : b.length < 2 ^ 32) :
    strllcmp a b = 0 := by
  unfold strllcmp
  rw [if_pos (by omega), sub64_le (by omega) (by omega), h, Nat.add_sub_cancel_left]
  decide

example : (List.replicate (2 ^ 32 + 3) 7 : List Nat).length = (List.replicate 3 8 : List Nat).length + 2 ^ 32 := by
  rw [List.length_replicate, List.length_replicate]; omega

/-- C29 (violated): an integer constant written with an exponent loses it: `1e+3` is 1. -/
theorem C29_exponent_violated : Const.l ⟨.int, bytesOf "1e+3"⟩ = 1 := by decide +kernel

end Mtev.Logic
