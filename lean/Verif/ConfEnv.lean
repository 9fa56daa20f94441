import Verif.Mem

/-!
# The environment in the configuration

`src/mtev_conf.c`: `mtev_conf_env_off` (`require_env`), `mtev_conf_generic_fixup` with
`mtev_conf_env_interpolate` (`{{ENV:default:{KEY}}}`), `mtev_conf_OLD_env_fixup`
(`ENV:default:{KEY}`).

Strings are their bytes, without NUL.  The environment is a function; regular
expressions are given: which texts compile, and what they match.

Simplified: memory is not short.
-/

namespace Mtev.ConfEnv

abbrev Str := List Nat
abbrev Env := Str → Option Str

/-- `strstr`: where a text occurs first -/
def find (pat : Str) : Str → Option Nat
  | [] => if pat = [] then some 0 else none
  | c :: s => if pat.isPrefixOf (c :: s) then some 0 else (find pat s).map (· + 1)

/-- `strchr` -/
def chr (c : Nat) (s : Str) : Option Nat := find [c] s

/-! ### `require_env` -/

/-- regular expressions: `none` if the text does not compile -/
abbrev Re := Str → Option (Str → Bool)

inductive Verdict where
  | met
  | off
deriving DecidableEq, Repr

/-- one requirement, `mtev_conf.c:3747-3791`: `expr` is the text looked at -/
def check (env : Env) (re : Re) (negate : Bool) (expr : Str) : Verdict :=
  match chr 61 expr with
  | some i =>
    if (if (env (expr.take i)).getD [] = expr.drop (i + 1) then negate else !negate) then .off else .met
  | none =>
    match chr 126 expr with
    | some i =>
      match re (expr.drop (i + 1)) with
      | none => .off
      | some m => if (if m ((env (expr.take i)).getD []) then negate else !negate) then .off else .met
    | none => if (if (env expr).isSome then negate else !negate) then .off else .met

/-- the loop of `mtev_conf_env_off`, `mtev_conf.c:3744-3795`, over the attributes of the
ancestors that have one, from the root to the section; `negate` and how far `expr` is
into the buffer are kept from one to the next.  `ub`: the text begins behind the end of
what was read, in what is left over of an earlier one. -/
def loop (env : Env) (re : Re) : Bool → Nat → List Str → Out Bool
  | _, _, [] => .ok false
  | negate, off, a :: as =>
    let buf := a.take 4095
    let bang := buf.head? = some 33
    let negate := if bang then true else negate
    let off := if bang then off + 1 else off
    if buf.length < off then .ub
    else
      match check env re negate (buf.drop off) with
      | .off => .ok true
      | .met => loop env re negate off as

/-- `mtev_conf_env_off`, `mtev_conf.c:3723-3801` -/
def envOff (env : Env) (re : Re) (attrs : List Str) : Out Bool := loop env re false 0 attrs

/-! ### `{{facility:default:{key}}}` -/

/-- what the hooks know: for a facility and a key, the value if there is one
(`mtev_conf_value_interpolate_hook_invoke`) -/
abbrev Look := Str → Str → Option Str

/-- the facility `ENV`, `mtev_conf_env_interpolate`, `mtev_conf.c:3854-3874` -/
def envLook (env : Env) : Look := fun fac key => if fac = bytesOf "ENV" then env key else none

inductive Step where
  /-- nothing more to do -/
  | done (v : Str)
  /-- again, from this place on -/
  | again (v : Str) (start : Nat)
  /-- the place is outside the string -/
  | outside
deriving DecidableEq, Repr

/-- from `facility` to `key`: the texts of facility, default, and what follows the
second colon, `mtev_conf.c:3816-3822` -/
def parts (s : Str) : Option (Str × Str × Str) :=
  match chr 58 s with
  | none => none
  | some i =>
    match chr 58 (s.drop (i + 1)) with
    | none => none
    | some j => some (s.take i, (s.drop (i + 1)).take j, (s.drop (i + 1)).drop (j + 1))

/-- one turn of the loop of `mtev_conf_generic_fixup`, `mtev_conf.c:3812-3850`.  (The test
of the characters of the default has no effect: its `continue` belongs to the inner loop.) -/
def step (look : Look) (v : Str) (start : Nat) : Step :=
  if v.length < start then .outside
  else
    match find [123, 123] (v.drop start) with
    | none => .done v
    | some i =>
      match parts (v.drop (start + i + 2)) with
      | none => .done v
      | some (fac, dflt, key) =>
        if key.head? ≠ some 123 then .again v (start + i + 1)
        else
          match find [125, 125, 125] (key.drop 1) with
          | none => .done v
          | some n =>
            let repl := ((look fac ((key.drop 1).take n)).getD dflt).take 1023
            .again (v.take (start + i) ++ repl ++ (key.drop 1).drop (n + 3)) (start + i + 1)

/-- `mtev_conf_generic_fixup`, with a limit on the turns (`none`: more are needed);
`ub` if the string is read outside -/
def fixup (look : Look) : Nat → Str → Nat → Option (Out Str)
  | 0, _, _ => none
  | f + 1, v, start =>
    match step look v start with
    | .done v => some (.ok v)
    | .outside => some .ub
    | .again v start => fixup look f v start

/-! ### `ENV:default:{KEY}` -/

/-- `mtev_conf_OLD_env_fixup`, `mtev_conf.c:3876-3902`: the new value if there is one -/
def oldFixup (env : Env) (v : Str) : Option Str :=
  if v.take 4 = bytesOf "ENV:" then
    match find [58, 123] (v.drop 4) with
    | none => none
    | some i =>
      let key := (v.drop 4).drop (i + 1)
      if key.getLast? = some 125 then
        some ((env (((key.drop 1).dropLast).take 127)).getD ((v.drop 4).take i))
      else none
  else none

/-- the value of a string, `_mtev_conf_get_string`, `mtev_conf.c:2175-2176`; a number of
turns is given for the first substitution -/
def getString (env : Env) (f : Nat) (v : Str) : Option (Out Str) :=
  match fixup (envLook env) f v 0 with
  | some (.ok v') => some (.ok ((oldFixup env v').getD v'))
  | o => o

/-- a value in a set of values, `mtev_conf.c:1856-1857` and `1876-1877` -/
def hashString (env : Env) (f : Nat) (v : Str) : Option (Out Str) := fixup (envLook env) f v 0

/-! ### searching -/

theorem find_spec (pat : Str) : ∀ (s : Str) (i : Nat), find pat s = some i →
    pat.isPrefixOf (s.drop i) = true ∧ i ≤ s.length
  | [], i, h => by
    unfold find at h
    split at h
    · rename_i hp
      cases h
      subst hp
      exact ⟨by simp, by simp⟩
    · cases h
  | c :: s, i, h => by
    unfold find at h
    split at h
    · rename_i hp
      cases h
      exact ⟨hp, by simp⟩
    · rw [Option.map_eq_some_iff] at h
      obtain ⟨j, hj, rfl⟩ := h
      have := find_spec pat s j hj
      exact ⟨by simpa using this.1, by simp; exact this.2⟩

/-- the first place: it is there and at none before -/
theorem find_at (pat : Str) : ∀ (l r : Str), r ≠ [] → pat.isPrefixOf r = true →
    (∀ i, i < l.length → pat.isPrefixOf ((l ++ r).drop i) = false) → find pat (l ++ r) = some l.length
  | [], [], h, _, _ => absurd rfl h
  | [], c :: r, _, h, _ => by
    show find pat (c :: r) = some 0
    unfold find
    rw [if_pos h]
  | c :: l, r, hne, hp, h => by
    show find pat (c :: (l ++ r)) = _
    unfold find
    have h0 := h 0 (by simp)
    rw [List.drop_zero] at h0
    have h0' : pat.isPrefixOf (c :: (l ++ r)) = false := h0
    rw [if_neg (by rw [h0']; decide)]
    rw [find_at pat l r hne hp fun i hi => ?_]
    · rfl
    · have := h (i + 1) (by simp; omega)
      simpa using this

theorem find_none (pat : Str) : ∀ (s : Str), pat ≠ [] →
    (∀ i, i < s.length → pat.isPrefixOf (s.drop i) = false) → find pat s = none
  | [], hp, _ => by unfold find; rw [if_neg hp]
  | c :: s, hp, h => by
    unfold find
    have h0 := h 0 (by simp)
    rw [List.drop_zero] at h0
    rw [if_neg (by rw [h0]; decide)]
    rw [find_none pat s hp fun i hi => ?_]
    · rfl
    · have := h (i + 1) (by simp; omega)
      simpa using this

theorem chr_at (c : Nat) (l r : Str) (h : c ∉ l) : chr c (l ++ c :: r) = some l.length := by
  apply find_at
  · simp
  · simp
  · intro i hi
    rw [List.drop_append_of_le_length (by omega), List.drop_eq_getElem_cons hi]
    simp only [List.cons_append, List.isPrefixOf, List.isPrefixOf_nil_left, Bool.and_true, beq_eq_false_iff_ne]
    intro e
    exact h (e ▸ List.getElem_mem hi)

theorem chr_none (c : Nat) (s : Str) (h : c ∉ s) : chr c s = none := by
  apply find_none
  · simp
  · intro i hi
    rw [List.drop_eq_getElem_cons hi]
    simp only [List.isPrefixOf, List.isPrefixOf_nil_left, Bool.and_true, beq_eq_false_iff_ne]
    intro e
    exact h (e ▸ List.getElem_mem hi)

/-- a text of three times the same byte is found behind one without it -/
theorem find_three (c : Nat) (l r : Str) (h : c ∉ l) :
    find [c, c, c] (l ++ c :: c :: c :: r) = some l.length := by
  apply find_at
  · simp
  · simp
  · intro i hi
    rw [List.drop_append_of_le_length (by omega), List.drop_eq_getElem_cons hi]
    simp only [List.cons_append, List.isPrefixOf, Bool.and_eq_false_imp, beq_iff_eq]
    intro e
    exact absurd (e ▸ List.getElem_mem hi) h

/-- a literal: nowhere two opening braces, and none at the end -/
def Clean (l : Str) : Prop := ∀ i, List.isPrefixOf [123, 123] ((l ++ [123]).drop i) = false

theorem prefix_two (s : Str) : List.isPrefixOf [123, 123] s = true ↔ s[0]? = some 123 ∧ s[1]? = some 123 := by
  match s with
  | [] => simp
  | [a] => simp [List.isPrefixOf]
  | a :: b :: r =>
    simp only [List.isPrefixOf, Bool.and_true, Bool.and_eq_true, beq_iff_eq, List.getElem?_cons_zero,
      List.getElem?_cons_succ, Option.some.injEq]
    exact ⟨fun h => ⟨h.1.symm, h.2.symm⟩, fun h => ⟨h.1.symm, h.2.symm⟩⟩

theorem find_clean (l r : Str) (h : Clean l) :
    find [123, 123] (l ++ 123 :: 123 :: r) = some l.length := by
  apply find_at
  · simp
  · simp
  · intro i hi
    have h' := h i
    rw [← Bool.not_eq_true, prefix_two] at h' ⊢
    intro hc
    apply h'
    rw [List.getElem?_drop, List.getElem?_drop] at hc ⊢
    have e : ∀ j, j < l.length + 1 → (l ++ 123 :: 123 :: r)[j]? = (l ++ [123])[j]? := by
      intro j hj
      rw [show l ++ 123 :: 123 :: r = (l ++ [123]) ++ 123 :: r by simp, List.getElem?_append_left (by simpa using hj)]
    rw [e _ (by omega), e _ (by omega)] at hc
    exact hc

theorem find_clean_none (l : Str) (h : Clean l) : find [123, 123] l = none := by
  apply find_none
  · simp
  · intro i hi
    have h' := h i
    rw [← Bool.not_eq_true, prefix_two] at h' ⊢
    intro hc
    apply h'
    rw [List.getElem?_drop, List.getElem?_drop] at hc ⊢
    have e : ∀ (j x : Nat), l[j]? = some x → (l ++ [123])[j]? = some x := by
      intro j x hx
      rw [List.getElem?_append_left (List.getElem?_eq_some_iff.mp hx).1]
      exact hx
    exact ⟨e _ _ hc.1, e _ _ hc.2⟩

theorem clean_append (r l : Str) (hr : 123 ∉ r) (hl : Clean l) : Clean (r ++ l) := by
  intro i
  rw [← Bool.not_eq_true, prefix_two]
  intro hc
  rw [List.getElem?_drop, List.getElem?_drop, List.append_assoc] at hc
  by_cases hi : i < r.length
  · have h1 := hc.1
    rw [Nat.add_zero, List.getElem?_append_left hi] at h1
    exact hr (List.mem_of_getElem? h1)
  · have h' := hl (i - r.length)
    rw [← Bool.not_eq_true, prefix_two, List.getElem?_drop, List.getElem?_drop] at h'
    apply h'
    have e : ∀ j, r.length ≤ j → (r ++ (l ++ [123]))[j]? = (l ++ [123])[j - r.length]? :=
      fun j hj => List.getElem?_append_right hj
    rw [e _ (by omega), e _ (by omega)] at hc
    rw [show i - r.length + 0 = i + 0 - r.length by omega, show i - r.length + 1 = i + 1 - r.length by omega]
    exact hc

end Mtev.ConfEnv
