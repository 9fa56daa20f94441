import Verif.ConfEnv

/-!
# C103, C104, C105: the environment in the configuration

Specifications, from `docs-md/config/README.md` and `ChangeLog.md`:

* a section is switched off if and only if some requirement on it or on an ancestor is
  not met; a requirement is that a variable be set, be set and equal to a text, or be set
  and match a regular expression, and with `!` in front that this not be so;
* in a value, every `{{ENV:default:{KEY}}}` stands for the value of `KEY` in the
  environment, or for the default if there is none, and the rest of the value is kept;
* a value `ENV:default:{KEY}` stands for the value of `KEY`, or for the default.
-/

namespace Mtev.ConfEnv

/-! ## C103: `require_env` -/

/-- what can be required -/
inductive Req where
  | isSet (var : Str)
  | equals (var val : Str)
  | like (var regex : Str)

/-- the requirement with or without `!` in front, as it is written -/
def Req.text : Req → Str
  | .isSet v => v
  | .equals v x => v ++ 61 :: x
  | .like v r => v ++ 126 :: r

def written (neg : Bool) (q : Req) : Str := if neg then 33 :: q.text else q.text

/-- **Specification.**  The requirement holds in an environment. -/
def Req.holds (env : Env) (re : Re) : Req → Prop
  | .isSet v => ∃ x, env v = some x
  | .equals v x => env v = some x
  | .like v r => ∃ x m, env v = some x ∧ re r = some m ∧ m x = true

/-- with `!`, it must not -/
def Meets (env : Env) (re : Re) (neg : Bool) (q : Req) : Prop :=
  if neg then ¬ q.holds env re else q.holds env re

/-- the name of the variable -/
def Req.var : Req → Str
  | .isSet v => v
  | .equals v _ => v
  | .like v _ => v

/-- requirements written so that the code reads them as meant: the name has no `=` or `~` in it
and does not begin with `!`, a regular expression compiles and has no `=` in it, and the
text fits; and an unset variable is not compared with something an empty one would meet -/
structure Plain (env : Env) (re : Re) (q : Req) : Prop where
  noEq : 61 ∉ q.var
  noTilde : 126 ∉ q.var
  noBang : q.text.head? ≠ some 33
  fits : q.text.length < 4095
  equalsSet : ∀ v, q = .equals v [] → env v ≠ none
  regex : ∀ v r, q = .like v r → 61 ∉ r ∧ ∃ m, re r = some m ∧ (env v = none → m [] = false)

theorem check_plain (env : Env) (re : Re) (neg : Bool) (q : Req) (h : Plain env re q) :
    check env re neg q.text = .off ↔ ¬ Meets env re neg q := by
  unfold check Meets
  cases q with
  | isSet v =>
    have h1 : chr 61 (Req.isSet v).text = none := chr_none _ _ h.noEq
    have h2 : chr 126 (Req.isSet v).text = none := chr_none _ _ h.noTilde
    rw [h1, h2]
    have e : (env (Req.isSet v).text).isSome = true ↔ (Req.isSet v).holds env re := by
      rw [Option.isSome_iff_exists]; rfl
    by_cases hh : (env (Req.isSet v).text).isSome
    · rw [if_pos hh]; cases neg <;> simp [← e, hh]
    · rw [if_neg hh]; cases neg <;> simp [← e, hh]
  | equals v x =>
    have h1 : chr 61 (Req.equals v x).text = some v.length := chr_at _ _ _ h.noEq
    rw [h1]
    simp only
    have e1 : (Req.equals v x).text.take v.length = v := by
      unfold Req.text; exact List.take_left'  rfl
    have e2 : (Req.equals v x).text.drop (v.length + 1) = x := by
      unfold Req.text; rw [List.drop_append, List.drop_eq_nil_of_le (by omega), List.nil_append,
        show v.length + 1 - v.length = 1 by omega]; rfl
    rw [e1, e2]
    have e : (env v).getD [] = x ↔ (Req.equals v x).holds env re := by
      unfold Req.holds
      cases hv : env v with
      | some y => simp [hv]
      | none =>
        constructor
        · intro hx
          subst hx
          exact absurd hv (h.equalsSet v rfl)
        · intro hx
          have h' : env v = some x := hx
          rw [hv] at h'; cases h'
    by_cases hh : (env v).getD [] = x
    · rw [if_pos hh]; cases neg <;> simp [← e, hh]
    · rw [if_neg hh]; cases neg <;> simp [← e, hh]
  | like v r =>
    obtain ⟨hr1, m, hr2, hr3⟩ := h.regex v r rfl
    have h1 : chr 61 (Req.like v r).text = none := by
      apply chr_none
      unfold Req.text
      rw [List.mem_append, List.mem_cons]
      rintro (h' | h' | h')
      · exact h.noEq h'
      · cases h'
      · exact hr1 h'
    have h2 : chr 126 (Req.like v r).text = some v.length := chr_at _ _ _ h.noTilde
    rw [h1, h2]
    simp only
    have e1 : (Req.like v r).text.take v.length = v := by
      unfold Req.text; exact List.take_left' rfl
    have e2 : (Req.like v r).text.drop (v.length + 1) = r := by
      unfold Req.text; rw [List.drop_append, List.drop_eq_nil_of_le (by omega), List.nil_append,
        show v.length + 1 - v.length = 1 by omega]; rfl
    rw [e1, e2, hr2]
    simp only
    have e : m ((env v).getD []) = true ↔ (Req.like v r).holds env re := by
      unfold Req.holds
      cases hv : env v with
      | some y => simp [hv, hr2]
      | none => simp [hv, hr3 hv]
    by_cases hh : m ((env v).getD []) = true
    · rw [if_pos hh]; cases neg <;> simp [← e, hh]
    · rw [if_neg hh]; cases neg <;> simp [← e, hh]

theorem loop_plain (env : Env) (re : Re) : ∀ (qs : List Req) (last : Option (Bool × Req)),
    (∀ q ∈ qs, Plain env re q) → (∀ b q, last = some (b, q) → Plain env re q) →
    ∃ b, loop env re false 0 (qs.map Req.text ++ (last.toList.map fun p => written p.1 p.2)) = .ok b ∧
      (b = true ↔ (∃ q ∈ qs, ¬ Meets env re false q) ∨ ∃ n q, last = some (n, q) ∧ ¬ Meets env re n q)
  | [], none, _, _ => ⟨false, rfl, by simp⟩
  | [], some (n, q), _, h => by
    have hp := h n q rfl
    show ∃ b, loop env re false 0 [written n q] = .ok b ∧ _
    unfold loop
    have hfit : (written n q).take 4095 = written n q := by
      apply List.take_of_length_le
      unfold written
      have := hp.fits
      cases n <;> simp <;> omega
    simp only [hfit]
    cases n with
    | false =>
      have hw : written false q = q.text := rfl
      rw [hw]
      have hb : (q.text.head? = some 33) = False := by simpa using hp.noBang
      simp only [hb, if_false, Nat.not_lt_zero, List.drop_zero]
      have hc := check_plain env re false q hp
      cases hk : check env re false q.text with
      | off => exact ⟨true, rfl, by simpa using hc.mp hk⟩
      | met =>
        refine ⟨false, rfl, ?_⟩
        rw [hk] at hc
        simpa using hc
    | true =>
      have hw : written true q = 33 :: q.text := rfl
      rw [hw]
      simp only [List.head?_cons, if_true, Nat.zero_add, List.drop_succ_cons, List.drop_zero, List.length_cons]
      rw [if_neg (by omega)]
      have hc := check_plain env re true q hp
      cases hk : check env re true q.text with
      | off => exact ⟨true, rfl, by simpa using hc.mp hk⟩
      | met =>
        refine ⟨false, rfl, ?_⟩
        rw [hk] at hc
        simpa using hc
  | q :: qs, last, hq, hl => by
    have hp := hq q (by simp)
    obtain ⟨b, hb, hiff⟩ := loop_plain env re qs last (fun q' h' => hq q' (by simp [h'])) hl
    rw [List.map_cons, List.cons_append]
    unfold loop
    have hfit : q.text.take 4095 = q.text := by
      apply List.take_of_length_le
      have := hp.fits
      omega
    have hbang : (q.text.head? = some 33) = False := by simpa using hp.noBang
    simp only [hfit, hbang, if_false, Nat.not_lt_zero, List.drop_zero]
    have hc := check_plain env re false q hp
    cases hk : check env re false q.text with
    | off =>
      refine ⟨true, rfl, ?_⟩
      simp only [true_iff]
      exact Or.inl ⟨q, by simp, hc.mp hk⟩
    | met =>
      refine ⟨b, hb, ?_⟩
      rw [hk] at hc
      simp only [reduceCtorEq, false_iff] at hc
      rw [hiff]
      constructor
      · rintro (⟨q', h1, h2⟩ | h)
        · exact Or.inl ⟨q', by simp [h1], h2⟩
        · exact Or.inr h
      · rintro (⟨q', h1, h2⟩ | h)
        · rcases List.mem_cons.mp h1 with rfl | h1
          · exact absurd h2 hc
          · exact Or.inl ⟨q', h1, h2⟩
        · exact Or.inr h

/-- **C103.**  If no requirement but the last on the way from the root has a `!`, and they are
plainly written, a section is switched off exactly when some requirement on it or on an
ancestor is not met.  (Part: see below for what else goes wrong.) -/
theorem C103_off_partial (env : Env) (re : Re) (qs : List Req) (last : Option (Bool × Req))
    (h : ∀ q ∈ qs, Plain env re q) (h' : ∀ b q, last = some (b, q) → Plain env re q) :
    ∃ b, envOff env re (qs.map Req.text ++ (last.toList.map fun p => written p.1 p.2)) = .ok b ∧
      (b = true ↔ (∃ q ∈ qs, ¬ Meets env re false q) ∨ ∃ n q, last = some (n, q) ∧ ¬ Meets env re n q) :=
  loop_plain env re qs last h h'

/-- an environment with one variable -/
def only (k v : Str) : Env := fun x => if x = k then some v else none

/-- the requirements `FOO` and `!BAR=42` with `FOO` set are met -/
example : envOff (only (bytesOf "FOO") []) (fun _ => none) [bytesOf "FOO", bytesOf "!BAR=42"] = .ok false ∧
    envOff (only (bytesOf "BAR") (bytesOf "42")) (fun _ => none) [bytesOf "!BAR=42"] = .ok true := by
  decide +kernel

example : Plain (only (bytesOf "FOO") []) (fun _ => none) (.equals (bytesOf "BAR") (bytesOf "42")) where
  noEq := by decide +kernel
  noTilde := by decide +kernel
  noBang := by decide +kernel
  fits := by decide +kernel
  equalsSet := by
    intro v h
    have h2 : bytesOf "42" = [] := (Req.equals.inj h).2
    exact absurd h2 (by decide +kernel)
  regex := by intro v r h; cases h

/-- **C103 (nothing required).**  A section without requirements is not switched off. -/
theorem C103_none (env : Env) (re : Re) : envOff env re [] = .ok false := rfl

/-- **C103 (a regular expression that does not compile).**  It switches the section off, with or
without `!`. -/
theorem C103_bad_regex (env : Env) (re : Re) (neg : Bool) (v r : Str) (h1 : 61 ∉ v) (h2 : 126 ∉ v) (h3 : 61 ∉ r)
    (h4 : (v ++ 126 :: r).head? ≠ some 33) (h5 : (v ++ 126 :: r).length < 4095) (h : re r = none)
    (rest : List Str) : envOff env re (written neg (.like v r) :: rest) = .ok true := by
  have e : check env re neg (v ++ 126 :: r) = .off := by
    unfold check
    have c1 : chr 61 (v ++ 126 :: r) = none := by
      apply chr_none
      rw [List.mem_append, List.mem_cons]
      rintro (h' | h' | h')
      · exact h1 h'
      · cases h'
      · exact h3 h'
    rw [c1, chr_at _ _ _ h2]
    simp only
    rw [show (v ++ 126 :: r).drop (v.length + 1) = r by
      rw [List.drop_append, List.drop_eq_nil_of_le (by omega), List.nil_append,
        show v.length + 1 - v.length = 1 by omega]; rfl, h]
  unfold envOff loop
  have hfit : (written neg (.like v r)).take 4095 = written neg (.like v r) := by
    apply List.take_of_length_le
    unfold written Req.text
    cases neg <;> simp at h5 ⊢ <;> omega
  simp only [hfit]
  cases neg with
  | false =>
    rw [show written false (.like v r) = v ++ 126 :: r from rfl]
    have hb : ((v ++ 126 :: r).head? = some 33) = False := by simpa using h4
    simp only [hb, if_false, Nat.not_lt_zero, List.drop_zero]
    rw [e]
  | true =>
    rw [show written true (.like v r) = 33 :: (v ++ 126 :: r) from rfl]
    simp only [List.head?_cons, if_true, Nat.zero_add, List.drop_succ_cons, List.drop_zero, List.length_cons]
    rw [if_neg (by omega), e]

/-- **C103 (violated: a requirement below one with `!`).**  It is negated too, and its first byte is
skipped: with `!A` on an ancestor, a section that requires `FOO` is not switched off though
`FOO` is not set. -/
theorem C103_negation_violated (env : Env) (re : Re) (h1 : env (bytesOf "A") = none)
    (h2 : env (bytesOf "FOO") = none) (h3 : env (bytesOf "OO") = none) :
    ¬ Meets env re false (.isSet (bytesOf "FOO")) ∧
      envOff env re [bytesOf "!A", bytesOf "FOO"] = .ok false := by
  constructor
  · unfold Meets Req.holds
    rintro ⟨x, hx⟩
    rw [h2] at hx; cases hx
  · have e1 : bytesOf "!A" = 33 :: bytesOf "A" := by decide +kernel
    have e2 : (bytesOf "FOO").take 4095 = bytesOf "FOO" := by decide +kernel
    have e3 : (bytesOf "FOO").drop 1 = bytesOf "OO" := by decide +kernel
    have e4 : (33 :: bytesOf "A").take 4095 = 33 :: bytesOf "A" := by decide +kernel
    have c1 : ∀ s ∈ [bytesOf "A", bytesOf "OO"], chr 61 s = none ∧ chr 126 s = none := by decide +kernel
    have k : ∀ s ∈ [bytesOf "A", bytesOf "OO"], env s = none → check env re true s = .met := by
      intro s hs he
      unfold check
      rw [(c1 s hs).1, (c1 s hs).2]
      simp only
      rw [he]; rfl
    unfold envOff
    rw [e1]
    unfold loop
    simp only [e4, List.head?_cons, if_true, Nat.zero_add, List.drop_succ_cons, List.drop_zero, List.length_cons]
    rw [if_neg (by omega), k _ (by simp) h1]
    simp only
    unfold loop
    have hb : ((bytesOf "FOO").head? = some 33) = False := by
      have : ¬ (bytesOf "FOO").head? = some 33 := by decide +kernel
      simpa using this
    have hl : ¬ (bytesOf "FOO").length < 1 := by decide +kernel
    simp only [e2, hb, if_false, if_neg hl, e3]
    rw [k _ (by simp) h3]
    rfl

/-- **C103 (violated: and the other way).**  A section whose requirements are all met is switched off. -/
theorem C103_negation_off_violated :
    let env : Env := fun x => if x = bytesOf "XPATH" ∨ x = bytesOf "PATH" then some [] else none
    Meets env (fun _ => none) true (.isSet (bytesOf "DEBUG")) ∧
      Meets env (fun _ => none) false (.isSet (bytesOf "XPATH")) ∧
      envOff env (fun _ => none) [bytesOf "!DEBUG", bytesOf "XPATH"] = .ok true := by
  refine ⟨?_, ?_, ?_⟩
  · unfold Meets Req.holds
    rintro ⟨x, hx⟩
    have hn : (fun x => if x = bytesOf "XPATH" ∨ x = bytesOf "PATH" then some [] else none : Env) (bytesOf "DEBUG")
        = none := by decide +kernel
    exact absurd (hn.symm.trans hx) (fun h => nomatch h)
  · exact ⟨[], by decide +kernel⟩
  · decide +kernel

/-- **C103 (violated: an empty requirement below one with `!`).**  What is left over in the buffer is
read. -/
theorem C103_leftover_violated (env : Env) (re : Re) (h1 : env (bytesOf "A") = none) :
    envOff env re [bytesOf "!A", []] = .ub := by
  have e1 : bytesOf "!A" = 33 :: bytesOf "A" := by decide +kernel
  have e4 : (33 :: bytesOf "A").take 4095 = 33 :: bytesOf "A" := by decide +kernel
  have c1 : chr 61 (bytesOf "A") = none ∧ chr 126 (bytesOf "A") = none := by decide +kernel
  have k : check env re true (bytesOf "A") = .met := by
    unfold check
    rw [c1.1, c1.2]
    simp only
    rw [h1]; rfl
  unfold envOff
  rw [e1]
  unfold loop
  simp only [e4, List.head?_cons, if_true, Nat.zero_add, List.drop_succ_cons, List.drop_zero, List.length_cons]
  rw [if_neg (by omega), k]
  rfl

/-- **C103 (violated: an unset variable).**  It meets `FOO=`, which requires that it be set. -/
theorem C103_unset_violated (env : Env) (re : Re) (h : env (bytesOf "FOO") = none) :
    ¬ Meets env re false (.equals (bytesOf "FOO") []) ∧
      envOff env re [written false (.equals (bytesOf "FOO") [])] = .ok false := by
  constructor
  · unfold Meets Req.holds
    simp [h]
  · have e : written false (.equals (bytesOf "FOO") []) = bytesOf "FOO" ++ [61] := rfl
    rw [e]
    have e1 : (bytesOf "FOO" ++ [61]).take 4095 = bytesOf "FOO" ++ [61] := by decide +kernel
    have e2 : chr 61 (bytesOf "FOO" ++ [61]) = some 3 := by decide +kernel
    have e3 : (bytesOf "FOO" ++ [61]).take 3 = bytesOf "FOO" := by decide +kernel
    have e4 : (bytesOf "FOO" ++ [61]).drop 4 = [] := by decide +kernel
    have hb : ((bytesOf "FOO" ++ [61]).head? = some 33) = False := by
      have : ¬ (bytesOf "FOO" ++ [61]).head? = some 33 := by decide +kernel
      simpa using this
    unfold envOff loop
    simp only [e1, hb, if_false, Nat.not_lt_zero, List.drop_zero]
    unfold check
    rw [e2]
    simp only [e3, e4, h, Option.getD_none, if_true]
    rfl

/-- **C103 (violated: a regular expression with `=` in it).**  It is not read as one. -/
theorem C103_regex_violated :
    let env := only (bytesOf "FOO") (bytesOf "a=b")
    let re : Re := fun r => some fun s => decide (s = r)
    Meets env re false (.like (bytesOf "FOO") (bytesOf "a=b")) ∧
      envOff env re [written false (.like (bytesOf "FOO") (bytesOf "a=b"))] = .ok true := by
  refine ⟨⟨bytesOf "a=b", _, ?_, rfl, ?_⟩, ?_⟩
  · decide +kernel
  · decide +kernel
  · decide +kernel

/-! ## C104: `{{ENV:default:{KEY}}}` -/

/-- a place to fill in -/
structure Sub where
  fac : Str
  dflt : Str
  key : Str
deriving DecidableEq, Repr

def Sub.text (s : Sub) : Str := [123, 123] ++ s.fac ++ 58 :: s.dflt ++ [58, 123] ++ s.key ++ [125, 125, 125]

/-- a value: a text, then places to fill in, each followed by a text -/
structure Tmpl where
  first : Str
  rest : List (Sub × Str)

def tail (rest : List (Sub × Str)) : Str := (rest.map fun p => p.1.text ++ p.2).flatten

/-- the value as it is in the file -/
def Tmpl.text (t : Tmpl) : Str := t.first ++ tail t.rest

/-- **Specification.**  What a place stands for -/
def Sub.means (env : Env) (s : Sub) : Str :=
  if s.fac = bytesOf "ENV" then (env s.key).getD s.dflt else s.dflt

def filled (env : Env) (rest : List (Sub × Str)) : Str := (rest.map fun p => p.1.means env ++ p.2).flatten

/-- **Specification.**  What the value stands for -/
def Tmpl.means (env : Env) (t : Tmpl) : Str := t.first ++ filled env t.rest

/-- a place that can be told from the text around it, and is filled with something that
fits and can not be taken for another place -/
structure Sub.Good (env : Env) (s : Sub) : Prop where
  fac : 58 ∉ s.fac
  dflt : 58 ∉ s.dflt
  key : 125 ∉ s.key
  some : s.means env ≠ []
  fits : (s.means env).length ≤ 1023
  noBrace : 123 ∉ s.means env

theorem means_eq (env : Env) (s : Sub) : (envLook env s.fac s.key).getD s.dflt = s.means env := by
  unfold envLook Sub.means
  split <;> simp

theorem parts_text (s : Sub) (r : Str) (h1 : 58 ∉ s.fac) (h2 : 58 ∉ s.dflt) :
    parts (s.fac ++ 58 :: s.dflt ++ [58, 123] ++ s.key ++ [125, 125, 125] ++ r)
      = some (s.fac, s.dflt, 123 :: (s.key ++ 125 :: 125 :: 125 :: r)) := by
  have e : s.fac ++ 58 :: s.dflt ++ [58, 123] ++ s.key ++ [125, 125, 125] ++ r
      = s.fac ++ 58 :: (s.dflt ++ 58 :: (123 :: (s.key ++ 125 :: 125 :: 125 :: r))) := by simp
  rw [e]
  have d : ∀ (l q : Str), (l ++ 58 :: q).drop (l.length + 1) = q := by
    intro l q
    rw [List.drop_append, List.drop_eq_nil_of_le (by omega), List.nil_append,
      show l.length + 1 - l.length = 1 by omega]; rfl
  unfold parts
  rw [chr_at _ _ _ h1]
  simp only [d]
  rw [chr_at _ _ _ h2]
  simp only [d, List.take_left]

/-- one place is filled in -/
theorem step_sub (env : Env) (P l : Str) (s : Sub) (r : Str) (hl : Clean l) (hs : s.Good env) :
    step (envLook env) (P ++ l ++ s.text ++ r) P.length
      = .again (P ++ l ++ s.means env ++ r) ((P ++ l).length + 1) := by
  unfold step
  rw [if_neg (by simp)]
  have e0 : P ++ l ++ s.text ++ r = P ++ (l ++ 123 :: 123 :: (s.fac ++ 58 :: s.dflt ++ [58, 123] ++ s.key ++ [125, 125, 125] ++ r)) := by
    unfold Sub.text; simp
  rw [e0, List.drop_left, find_clean _ _ hl]
  simp only
  have e1 : (P ++ (l ++ 123 :: 123 :: (s.fac ++ 58 :: s.dflt ++ [58, 123] ++ s.key ++ [125, 125, 125] ++ r))).drop
      (P.length + l.length + 2) = s.fac ++ 58 :: s.dflt ++ [58, 123] ++ s.key ++ [125, 125, 125] ++ r := by
    rw [show P ++ (l ++ 123 :: 123 :: (s.fac ++ 58 :: s.dflt ++ [58, 123] ++ s.key ++ [125, 125, 125] ++ r))
      = (P ++ l ++ [123, 123]) ++ (s.fac ++ 58 :: s.dflt ++ [58, 123] ++ s.key ++ [125, 125, 125] ++ r) by simp]
    exact List.drop_left' (by simp; omega)
  rw [e1, parts_text s r hs.fac hs.dflt]
  simp only [List.head?_cons, ne_eq, not_true_eq_false, if_false, List.drop_succ_cons, List.drop_zero]
  rw [find_three _ _ _ hs.key]
  simp only
  rw [List.take_left' rfl, means_eq, List.take_of_length_le hs.fits]
  have e2 : (P ++ (l ++ 123 :: 123 :: (s.fac ++ 58 :: s.dflt ++ [58, 123] ++ s.key ++ [125, 125, 125] ++ r))).take
      (P.length + l.length) = P ++ l := by
    rw [← List.append_assoc]
    exact List.take_left' (by simp)
  have e3 : (s.key ++ 125 :: 125 :: 125 :: r).drop (s.key.length + 3) = r := by
    rw [show s.key ++ 125 :: 125 :: 125 :: r = (s.key ++ [125, 125, 125]) ++ r by simp]
    exact List.drop_left' (by simp)
  rw [e2, e3, List.length_append]

theorem fixup_tail (env : Env) : ∀ (rest : List (Sub × Str)) (P l : Str), Clean l →
    (∀ p ∈ rest, p.1.Good env ∧ Clean p.2) →
    fixup (envLook env) (rest.length + 1) (P ++ l ++ tail rest) P.length = some (.ok (P ++ l ++ filled env rest))
  | [], P, l, hl, _ => by
    unfold fixup
    have e : step (envLook env) (P ++ l ++ tail []) P.length = .done (P ++ l ++ tail []) := by
      unfold step
      rw [if_neg (by simp)]
      have : tail [] = [] := rfl
      rw [this, List.append_nil, List.drop_left, find_clean_none _ hl]
    rw [e]
    rfl
  | p :: rest, P, l, hl, h => by
    have hp := h p (by simp)
    have e : tail (p :: rest) = p.1.text ++ (p.2 ++ tail rest) := by
      unfold tail; simp
    have e' : filled env (p :: rest) = p.1.means env ++ (p.2 ++ filled env rest) := by
      unfold filled; simp
    rw [e, e', List.length_cons]
    unfold fixup
    rw [← List.append_assoc, step_sub env P l p.1 _ hl hp.1]
    simp only
    obtain ⟨c, m, hm⟩ : ∃ c m, p.1.means env = c :: m := by
      cases hm : p.1.means env with
      | nil => exact absurd hm hp.1.some
      | cons c m => exact ⟨c, m, rfl⟩
    have hb := hp.1.noBrace
    rw [hm] at hb
    have ih := fixup_tail env rest (P ++ l ++ [c]) (m ++ p.2)
      (clean_append m p.2 (fun h' => hb (List.mem_cons_of_mem _ h')) hp.2) (fun q hq => h q (by simp [hq]))
    have e1 : (P ++ l ++ [c]).length = (P ++ l).length + 1 := by simp; omega
    rw [e1] at ih
    have e2 : P ++ l ++ p.1.means env ++ (p.2 ++ tail rest) = P ++ l ++ [c] ++ (m ++ p.2) ++ tail rest := by
      rw [hm]; simp
    have e3 : P ++ l ++ (p.1.means env ++ (p.2 ++ filled env rest)) = P ++ l ++ [c] ++ (m ++ p.2) ++ filled env rest := by
      rw [hm]; simp
    rw [e2, e3]
    exact ih

/-- **C104.**  A value whose texts have no two opening braces in a row, and whose places are
filled with something not empty, not too long and without an opening brace, comes out
with every place filled in and the texts unchanged.  (Part: what happens otherwise is
below.) -/
theorem C104_filled_partial (env : Env) (t : Tmpl) (h0 : Clean t.first)
    (h : ∀ p ∈ t.rest, p.1.Good env ∧ Clean p.2) :
    ∃ f, hashString env f t.text = some (.ok (t.means env)) := by
  refine ⟨t.rest.length + 1, ?_⟩
  have := fixup_tail env t.rest [] t.first h0 h
  simpa [hashString, Tmpl.text, Tmpl.means] using this

/-- **C104 (nothing to fill in).**  A value without two opening braces in a row is left as it is. -/
theorem C104_untouched (env : Env) (v : Str) (h : find [123, 123] v = none) :
    hashString env 1 v = some (.ok v) := by
  unfold hashString fixup step
  rw [if_neg (by simp), List.drop_zero, h]

/-- more turns change nothing -/
theorem C104_one_result (env : Env) (v : Str) (start : Nat) (f g : Nat) (r r' : Out Str)
    (h : fixup (envLook env) f v start = some r) (h' : fixup (envLook env) g v start = some r') : r = r' := by
  induction f generalizing v start g with
  | zero => cases h
  | succ f ih =>
    cases g with
    | zero => cases h'
    | succ g =>
      unfold fixup at h h'
      cases hs : step (envLook env) v start with
      | done w => rw [hs] at h h'; simp only [Option.some.injEq] at h h'; rw [← h, ← h']
      | outside => rw [hs] at h h'; simp only [Option.some.injEq] at h h'; rw [← h, ← h']
      | again w s => rw [hs] at h h'; exact ih w s g h h'

example : hashString (only (bytesOf "PORT") (bytesOf "80")) 9
    (bytesOf "http://{{ENV:localhost:{HOST}}}:{{ENV:8080:{PORT}}}/x") = some (.ok (bytesOf "http://localhost:80/x")) := by
  decide +kernel

example : Sub.Good (only (bytesOf "PORT") (bytesOf "80"))
    { fac := bytesOf "ENV", dflt := bytesOf "8080", key := bytesOf "PORT" } where
  fac := by decide +kernel
  dflt := by decide +kernel
  key := by decide +kernel
  some := by decide +kernel
  fits := by decide +kernel
  noBrace := by decide +kernel

/-- **C104 (violated: an empty value at the end).**  If what is filled in is empty and is the end
of the value, the string is read behind its end. -/
theorem C104_overread_violated (env : Env) (h : env (bytesOf "A") = none) :
    hashString env 9 (bytesOf "{{ENV::{A}}}") = some .ub := by
  have e : step (envLook env) (bytesOf "{{ENV::{A}}}") 0 = .again [] 1 := by
    unfold step
    rw [if_neg (by simp)]
    rw [show find [123, 123] ((bytesOf "{{ENV::{A}}}").drop 0) = some 0 by decide +kernel]
    simp only
    rw [show parts ((bytesOf "{{ENV::{A}}}").drop (0 + 0 + 2))
      = some (bytesOf "ENV", [], bytesOf "{A}}}") by decide +kernel]
    simp only
    rw [if_neg (by decide +kernel)]
    rw [show find [125, 125, 125] ((bytesOf "{A}}}").drop 1) = some 1 by decide +kernel]
    simp only
    have e1 : ((bytesOf "{A}}}").drop 1).take 1 = bytesOf "A" := by decide +kernel
    have e2 : ((bytesOf "{A}}}").drop 1).drop (1 + 3) = [] := by decide +kernel
    rw [e1, e2]
    unfold envLook
    rw [if_pos rfl, h]
    rfl
  unfold hashString
  rw [show (9 : Nat) = 8 + 1 from rfl]
  unfold fixup
  rw [e]
  rfl

/-- **C104 (violated: a place after one left empty).**  It is not filled in. -/
theorem C104_skipped_violated :
    let env := only (bytesOf "B") (bytesOf "b")
    let t : Tmpl := { first := [], rest := [({ fac := bytesOf "ENV", dflt := [], key := bytesOf "A" }, []),
      ({ fac := bytesOf "ENV", dflt := [], key := bytesOf "B" }, [])] }
    t.means env = bytesOf "b" ∧ hashString env 9 t.text = some (.ok (bytesOf "{{ENV::{B}}}")) := by
  decide +kernel

/-- **C104 (violated: braces before a place).**  They and the text after them are lost, and the
variable is not looked up: the facility is taken to begin after them. -/
theorem C104_braces_violated :
    let env := only (bytesOf "A") (bytesOf "a")
    let t : Tmpl := { first := bytesOf "x {{ y ", rest := [({ fac := bytesOf "ENV", dflt := bytesOf "d", key := bytesOf "A" }, [])] }
    t.means env = bytesOf "x {{ y a" ∧ hashString env 9 t.text = some (.ok (bytesOf "x d")) := by
  decide +kernel

/-- **C104 (violated: places in the environment).**  What a variable contains is looked through for
places again. -/
theorem C104_rescan_violated :
    let env : Env := fun x => if x = bytesOf "A" then some (bytesOf "-{{ENV::{B}}}-") else
      if x = bytesOf "B" then some (bytesOf "secret") else none
    let t : Tmpl := { first := [], rest := [({ fac := bytesOf "ENV", dflt := [], key := bytesOf "A" }, [])] }
    t.means env = bytesOf "-{{ENV::{B}}}-" ∧ hashString env 9 t.text = some (.ok (bytesOf "-secret-")) := by
  decide +kernel

/-- **C104 (violated: a variable that names itself).**  The loop never ends and the value grows. -/
theorem C104_endless_violated (f : Nat) :
    hashString (only (bytesOf "A") (bytesOf "y{{ENV::{A}}}")) f (bytesOf "{{ENV::{A}}}") = none := by
  let env := only (bytesOf "A") (bytesOf "y{{ENV::{A}}}")
  have h : ∀ f n, fixup (envLook env) f (List.replicate n 121 ++ bytesOf "{{ENV::{A}}}") n = none := by
    intro f
    induction f with
    | zero => intro n; rfl
    | succ f ih =>
      intro n
      unfold fixup
      have e : step (envLook env) (List.replicate n 121 ++ bytesOf "{{ENV::{A}}}") n
          = .again (List.replicate (n + 1) 121 ++ bytesOf "{{ENV::{A}}}") (n + 1) := by
        have d : ∀ k, (List.replicate n 121 ++ bytesOf "{{ENV::{A}}}").drop (n + k)
            = (bytesOf "{{ENV::{A}}}").drop k := by
          intro k
          rw [List.drop_append, List.drop_eq_nil_of_le (by simp), List.nil_append, List.length_replicate,
            Nat.add_sub_cancel_left]
        unfold step
        rw [if_neg (by simp)]
        have d0 := d 0
        rw [Nat.add_zero, List.drop_zero] at d0
        rw [d0, show find [123, 123] (bytesOf "{{ENV::{A}}}") = some 0 by decide +kernel]
        simp only [Nat.add_zero]
        rw [d 2, show parts ((bytesOf "{{ENV::{A}}}").drop 2)
          = some (bytesOf "ENV", [], bytesOf "{A}}}") by decide +kernel]
        simp only
        rw [if_neg (by decide +kernel)]
        rw [show find [125, 125, 125] ((bytesOf "{A}}}").drop 1) = some 1 by decide +kernel]
        simp only
        have e1 : ((bytesOf "{A}}}").drop 1).take 1 = bytesOf "A" := by decide +kernel
        have e2 : ((bytesOf "{A}}}").drop 1).drop (1 + 3) = [] := by decide +kernel
        rw [e1, e2, List.take_left' (by simp), List.append_nil]
        have e3 : ((envLook env (bytesOf "ENV") (bytesOf "A")).getD []).take 1023 = 121 :: bytesOf "{{ENV::{A}}}" := by
          decide +kernel
        rw [e3, List.replicate_succ']
        simp
      rw [e]
      exact ih (n + 1)
  exact h f 0

/-- **C104 (violated: a long value).**  It is cut after 1023 bytes. -/
theorem C104_cut_violated (env : Env) (v : Str) (hA : env (bytesOf "A") = some v) (hv : 1023 < v.length)
    (hb : 123 ∉ v) : hashString env 9 (bytesOf "{{ENV::{A}}}") = some (.ok (v.take 1023)) ∧ v.take 1023 ≠ v := by
  constructor
  · have e : step (envLook env) (bytesOf "{{ENV::{A}}}") 0 = .again (v.take 1023) 1 := by
      unfold step
      rw [if_neg (by simp)]
      rw [show find [123, 123] ((bytesOf "{{ENV::{A}}}").drop 0) = some 0 by decide +kernel]
      simp only
      rw [show parts ((bytesOf "{{ENV::{A}}}").drop (0 + 0 + 2))
        = some (bytesOf "ENV", [], bytesOf "{A}}}") by decide +kernel]
      simp only
      rw [if_neg (by decide +kernel)]
      rw [show find [125, 125, 125] ((bytesOf "{A}}}").drop 1) = some 1 by decide +kernel]
      simp only
      have e1 : ((bytesOf "{A}}}").drop 1).take 1 = bytesOf "A" := by decide +kernel
      have e2 : ((bytesOf "{A}}}").drop 1).drop (1 + 3) = [] := by decide +kernel
      rw [e1, e2]
      unfold envLook
      rw [if_pos rfl, hA]
      simp
    have e' : step (envLook env) (v.take 1023) 1 = .done (v.take 1023) := by
      unfold step
      rw [if_neg (by rw [List.length_take]; omega)]
      have : find [123, 123] ((v.take 1023).drop 1) = none := by
        apply find_none
        · simp
        · intro i hi
          rw [← Bool.not_eq_true, prefix_two]
          rintro ⟨h1, _⟩
          exact hb (List.mem_of_mem_take (List.mem_of_mem_drop (List.mem_of_mem_drop (List.mem_of_getElem? h1))))
      rw [this]
    unfold hashString
    rw [show (9 : Nat) = 7 + 1 + 1 from rfl]
    unfold fixup
    rw [e]
    simp only
    unfold fixup
    rw [e']
  · intro h
    have := congrArg List.length h
    rw [List.length_take] at this
    omega

/-! ## C105: `ENV:default:{KEY}` -/

/-- a value of the form -/
def form (dflt key : Str) : Str := bytesOf "ENV:" ++ dflt ++ [58, 123] ++ key ++ [125]

theorem form_eq (dflt key : Str) : form dflt key = bytesOf "ENV:" ++ (dflt ++ 58 :: 123 :: (key ++ [125])) := by
  unfold form; simp

theorem env4 : (bytesOf "ENV:").length = 4 := by decide +kernel

/-- no place in the default looks like the beginning of a key -/
def NoKey (dflt : Str) : Prop := ∀ i, i < dflt.length → List.isPrefixOf [58, 123] ((dflt ++ [58]).drop i) = false

theorem find_key (dflt r : Str) (h : NoKey dflt) : find [58, 123] (dflt ++ 58 :: 123 :: r) = some dflt.length := by
  apply find_at
  · simp
  · simp
  · intro i hi
    have h' := h i hi
    rw [← Bool.not_eq_true] at h' ⊢
    intro hc
    apply h'
    have e1 : (dflt ++ 58 :: 123 :: r).drop i = dflt.drop i ++ 58 :: 123 :: r :=
      List.drop_append_of_le_length (by omega)
    have e2 : (dflt ++ [58]).drop i = dflt.drop i ++ [58] := List.drop_append_of_le_length (by omega)
    rw [e1] at hc
    rw [e2]
    have hne : dflt.drop i ≠ [] := by
      intro h0
      have := congrArg List.length h0
      rw [List.length_drop, List.length_nil] at this
      omega
    match hd : dflt.drop i with
    | [] => exact absurd hd hne
    | [a] => rw [hd] at hc; simp [List.isPrefixOf] at hc
    | a :: b :: q =>
      rw [hd] at hc
      simp only [List.cons_append, List.isPrefixOf, Bool.and_true] at hc ⊢
      exact hc

/-- **C105.**  A value of the form stands for the variable, or for the default if it is not set, if
the default does not contain `:{` and the name is at most 127 bytes. -/
theorem C105_form_partial (env : Env) (dflt key : Str) (h : NoKey dflt) (hk : key.length ≤ 127) :
    oldFixup env (form dflt key) = some ((env key).getD dflt) := by
  unfold oldFixup
  rw [form_eq, if_pos (List.take_left' env4), List.drop_left' env4, find_key dflt _ h]
  simp only
  have e1 : (dflt ++ 58 :: 123 :: (key ++ [125])).drop (dflt.length + 1) = 123 :: (key ++ [125]) := by
    rw [List.drop_append, List.drop_eq_nil_of_le (by omega), List.nil_append,
      show dflt.length + 1 - dflt.length = 1 by omega]; rfl
  rw [e1]
  have e2 : (123 :: (key ++ [125])).getLast? = some 125 := by
    rw [← List.cons_append, List.getLast?_concat]
  rw [if_pos e2, List.drop_succ_cons, List.drop_zero, List.dropLast_concat, List.take_of_length_le hk,
    List.take_left' rfl]

/-- **C105 (other values).**  Only a value of the form is replaced. -/
theorem C105_only (env : Env) (v w : Str) (h : oldFixup env v = some w) : ∃ dflt key, v = form dflt key := by
  unfold oldFixup at h
  split at h
  · rename_i h4
    cases hf : find [58, 123] (v.drop 4) with
    | none => rw [hf] at h; cases h
    | some i =>
      rw [hf] at h
      simp only at h
      split at h
      · rename_i hl
        have hs := find_spec _ _ _ hf
        -- what follows the default
        obtain ⟨r, hr⟩ : ∃ r, (v.drop 4).drop i = 58 :: 123 :: r := by
          have h1 := hs.1
          match hd : (v.drop 4).drop i with
          | [] => rw [hd] at h1; simp [List.isPrefixOf] at h1
          | [a] => rw [hd] at h1; simp [List.isPrefixOf] at h1
          | a :: b :: r =>
            rw [hd] at h1
            simp only [List.isPrefixOf, Bool.and_true, Bool.and_eq_true, beq_iff_eq] at h1
            exact ⟨r, by rw [← h1.1, ← h1.2]⟩
        have hd : (v.drop 4).drop (i + 1) = 123 :: r := by
          rw [← List.drop_drop, hr]; rfl
        rw [hd] at hl
        have hr0 : r ≠ [] := by
          rintro rfl
          simp at hl
        have hl' : r.getLast? = some 125 := by
          rw [List.getLast?_cons_of_ne_nil hr0] at hl
          exact hl
        refine ⟨(v.drop 4).take i, r.dropLast, ?_⟩
        rw [form_eq]
        have e1 : r.dropLast ++ [125] = r := by
          rw [List.getLast?_eq_some_getLast hr0] at hl'
          rw [← Option.some.inj hl']; exact List.dropLast_concat_getLast hr0
        rw [e1, ← hr, List.take_append_drop, ← h4, List.take_append_drop]
      · cases h
  · cases h

example : oldFixup (only (bytesOf "PORT") (bytesOf "80")) (bytesOf "ENV:2222:{PORT}") = some (bytesOf "80") ∧
    oldFixup (fun _ => none) (bytesOf "ENV:2222:{PORT}") = some (bytesOf "2222") ∧
    oldFixup (only (bytesOf "PORT") (bytesOf "80")) (bytesOf "http://localhost:ENV:2222:{PORT}/") = none := by
  decide +kernel

/-- **C105 (strings).**  So a string that is read has the value of the variable or the default,
if there are no two opening braces in a row in it. -/
theorem C105_string_partial (env : Env) (dflt key : Str) (h : NoKey dflt) (hk : key.length ≤ 127)
    (hb : find [123, 123] (form dflt key) = none) :
    getString env 1 (form dflt key) = some (.ok ((env key).getD dflt)) := by
  have h1 := C104_untouched env _ hb
  unfold getString
  rw [show fixup (envLook env) 1 (form dflt key) 0 = some (.ok (form dflt key)) from h1]
  simp only
  rw [C105_form_partial env dflt key h hk]
  rfl

/-- **C105 (violated: sets of values).**  There the form is not replaced, whatever the environment. -/
theorem C105_hash_violated (env : Env) (dflt key : Str) (hb : find [123, 123] (form dflt key) = none) :
    hashString env 1 (form dflt key) = some (.ok (form dflt key)) := C104_untouched env _ hb

example : hashString (only (bytesOf "PORT") (bytesOf "80")) 1 (form (bytesOf "2222") (bytesOf "PORT"))
    = some (.ok (bytesOf "ENV:2222:{PORT}")) := by decide +kernel

/-- **C105 (violated: a long name).**  Another variable is looked up. -/
theorem C105_name_violated (env : Env) (dflt key : Str) (h : NoKey dflt) (hk : 127 < key.length) :
    oldFixup env (form dflt key) = some ((env (key.take 127)).getD dflt) ∧ key.take 127 ≠ key := by
  constructor
  · unfold oldFixup
    rw [form_eq, if_pos (List.take_left' env4), List.drop_left' env4, find_key dflt _ h]
    simp only
    have e1 : (dflt ++ 58 :: 123 :: (key ++ [125])).drop (dflt.length + 1) = 123 :: (key ++ [125]) := by
      rw [List.drop_append, List.drop_eq_nil_of_le (by omega), List.nil_append,
        show dflt.length + 1 - dflt.length = 1 by omega]; rfl
    rw [e1]
    have e2 : (123 :: (key ++ [125])).getLast? = some 125 := by
      rw [← List.cons_append, List.getLast?_concat]
    rw [if_pos e2, List.drop_succ_cons, List.drop_zero, List.dropLast_concat, List.take_left' rfl]
  · intro h'
    have := congrArg List.length h'
    rw [List.length_take] at this
    omega

/-- **C105 (violated: a default with `:{` in it).**  The default is cut there and another variable is
looked up. -/
theorem C105_default_violated :
    oldFixup (only (bytesOf "K") (bytesOf "v")) (form (bytesOf "a:{b}") (bytesOf "K")) = some (bytesOf "a") := by
  decide +kernel

end Mtev.ConfEnv
