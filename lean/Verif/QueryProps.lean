import Verif.Query

/-!
Property theorems for in-place URL decoding (C36) and query-string parsing
(C55).
-/
namespace Mtev.Query

/-! ### Specification -/

/-- `c` is a hexadecimal digit character of value `v`. -/
inductive Hex : Nat → Nat → Prop
  | digit {v} : v ≤ 9 → Hex (48 + v) v
  | upper {v} : 10 ≤ v → v ≤ 15 → Hex (65 + (v - 10)) v
  | lower {v} : 10 ≤ v → v ≤ 15 → Hex (97 + (v - 10)) v

/-- `Decodes text bytes`: the form-decoding of `text` is `bytes`.  `%` and two
hexadecimal digits stand for the byte, `+` for a space, a `%` without two
digits after it and every other character for itself. -/
inductive Decodes : List Nat → List Nat → Prop
  | nil : Decodes [] []
  | escape {a b x y t s} : Hex a x → Hex b y → Decodes t s → Decodes (37 :: a :: b :: t) ((16 * x + y) :: s)
  | malformed {t s} : (∀ a b r x y, t = a :: b :: r → Hex a x → Hex b y → False) → Decodes t s →
      Decodes (37 :: t) (37 :: s)
  | plus {t s} : Decodes t s → Decodes (43 :: t) (32 :: s)
  | plain {c t s} : c ≠ 37 → c ≠ 43 → Decodes t s → Decodes (c :: t) (c :: s)

/-- Upper-case hexadecimal digit. -/
def hexChar (v : Nat) : Nat := if v ≤ 9 then 48 + v else 65 + (v - 10)

/-- Characters `application/x-www-form-urlencoded` leaves alone. -/
def Kept (c : Nat) : Prop :=
  (48 ≤ c ∧ c ≤ 57) ∨ (65 ≤ c ∧ c ≤ 90) ∨ (97 ≤ c ∧ c ≤ 122) ∨ c = 42 ∨ c = 45 ∨ c = 46 ∨ c = 95

instance (c : Nat) : Decidable (Kept c) := by unfold Kept; infer_instance

/-- The standard form encoding. -/
def formEncode : List Nat → List Nat
  | [] => []
  | c :: t =>
    (if Kept c then [c] else if c = 32 then [43] else [37, hexChar (c / 16), hexChar (c % 16)]) ++ formEncode t

/-! ### Bridge -/

theorem hexOf_iff {c v : Nat} : hexOf c = some v ↔ Hex c v := by
  constructor
  · intro h
    unfold hexOf at h
    split at h
    · simp only [Option.some.injEq] at h; subst h
      have := Hex.digit (v := c - 48) (by omega)
      rwa [show 48 + (c - 48) = c by omega] at this
    · split at h
      · simp only [Option.some.injEq] at h; subst h
        have := Hex.lower (v := c - 97 + 10) (by omega) (by omega)
        rwa [show 97 + (c - 97 + 10 - 10) = c by omega] at this
      · split at h
        · simp only [Option.some.injEq] at h; subst h
          have := Hex.upper (v := c - 65 + 10) (by omega) (by omega)
          rwa [show 65 + (c - 65 + 10 - 10) = c by omega] at this
        · simp at h
  · intro h
    unfold hexOf
    cases h with
    | digit h => rw [if_pos (by omega)]; simp
    | upper h1 h2 => rw [if_neg (by omega), if_neg (by omega), if_pos (by omega)]; simp; omega
    | lower h1 h2 => rw [if_neg (by omega), if_pos (by omega)]; simp; omega

theorem decodes_eq {t s : List Nat} (h : Decodes t s) : s = decode t := by
  induction h with
  | nil => simp [decode]
  | escape ha hb _ ih => rw [decode_escape (hexOf_iff.2 ha) (hexOf_iff.2 hb), ih]
  | malformed hb _ ih =>
    rw [decode_bad (fun a b r x y h1 h2 h3 => hb a b r x y h1 (hexOf_iff.1 h2) (hexOf_iff.1 h3)), ih]
  | plus _ ih => rw [decode_plain (by decide), ih]; rfl
  | plain h1 h2 _ ih => rw [decode_plain h1, if_neg h2, ih]

theorem decodes_decode (n : Nat) : ∀ t : List Nat, t.length ≤ n → Decodes t (decode t) := by
  induction n with
  | zero => intro t h; rw [List.length_eq_zero_iff.1 (by omega : t.length = 0)]; simpa [decode] using Decodes.nil
  | succ n ih =>
    intro t h
    rcases t with _ | ⟨c, r⟩
    · simpa [decode] using Decodes.nil
    simp only [List.length_cons] at h
    by_cases h37 : c = 37
    · subst h37
      by_cases hg : ∃ a b q x y, r = a :: b :: q ∧ hexOf a = some x ∧ hexOf b = some y
      · obtain ⟨a, b, q, x, y, hr, ha, hb⟩ := hg
        subst hr
        simp only [List.length_cons] at h
        rw [decode_escape ha hb]
        exact .escape (hexOf_iff.1 ha) (hexOf_iff.1 hb) (ih q (by omega))
      · rw [decode_bad (fun a b q x y h1 h2 h3 => hg ⟨a, b, q, x, y, h1, h2, h3⟩)]
        exact .malformed (fun a b q x y h1 h2 h3 =>
          hg ⟨a, b, q, x, y, h1, hexOf_iff.2 h2, hexOf_iff.2 h3⟩) (ih r (by omega))
    · rw [decode_plain h37]
      by_cases h43 : c = 43
      · rw [if_pos h43, h43]; exact .plus (ih r (by omega))
      · rw [if_neg h43]; exact .plain h37 h43 (ih r (by omega))

/-! ### C36 -/

/-- C36 (total and unique).  Every text has exactly one decoding. -/
theorem C36_decoding_unique (text : List Nat) : ∃! bytes, Decodes text bytes :=
  ⟨decode text, decodes_decode _ text (Nat.le_refl _), fun _ h => decodes_eq h⟩

/-- C36 (in place).  Decoding the C string `text` that sits anywhere in memory
(`before`, the string, its NUL, `after`) never leaves the string's own bytes:
afterwards the memory holds the decoding of `text` at the same place followed by
a NUL, everything before and after is untouched, and the total size is the
same. -/
theorem C36_in_place (before text after bytes : List Nat) (htext : 0 ∉ text)
    (hdec : Decodes text bytes) :
    ∃ stale, inplace (before ++ text ++ 0 :: after) before.length =
        .ok (before ++ bytes ++ 0 :: (stale ++ after)) ∧
      bytes.length + stale.length = text.length := by
  obtain ⟨tail, h1, h2⟩ := decodeLoop_spec text.length before [] text after (Nat.le_refl _) htext
  rw [decodes_eq hdec]
  refine ⟨tail, ?_, by simpa using h2⟩
  unfold inplace
  simpa using h1

/-- C36 (never grows). -/
theorem C36_never_grows (text bytes : List Nat) (h : Decodes text bytes) :
    bytes.length ≤ text.length := by
  induction h <;> simp_all <;> omega

theorem hex_hexChar {v : Nat} (h : v < 16) : Hex (hexChar v) v := by
  unfold hexChar
  by_cases h9 : v ≤ 9
  · rw [if_pos h9]; exact .digit h9
  · rw [if_neg h9]; exact .upper (by omega) (by omega)

/-- C36 (inverse of form encoding).  Decoding the standard form encoding of any
bytes gives the bytes back. -/
theorem C36_inverts_encoding (bytes : List Nat) (hb : IsBytes bytes) : Decodes (formEncode bytes) bytes := by
  induction bytes with
  | nil => exact .nil
  | cons c t ih =>
    obtain ⟨hc, ht⟩ := isBytes_cons.1 hb
    have := ih ht
    unfold formEncode
    by_cases hk : Kept c
    · rw [if_pos hk]
      exact .plain (by rintro rfl; revert hk; decide) (by rintro rfl; revert hk; decide) this
    · rw [if_neg hk]
      by_cases h32 : c = 32
      · rw [if_pos h32, h32]; exact .plus this
      · rw [if_neg h32]
        have h := Decodes.escape (hex_hexChar (v := c / 16) (by omega)) (hex_hexChar (v := c % 16) (by omega)) this
        rwa [show 16 * (c / 16) + c % 16 = c by omega] at h

/-- C36, consequence of NUL-terminated results: an escaped zero byte cuts the
decoded string short for every later reader (`strlen`). -/
theorem C36_nul_truncates (a b : List Nat) (ha : IsBytes a) (h0 : 0 ∉ a) :
    upToNul (decode (formEncode (a ++ 0 :: b))) = a := by
  have henc : ∀ l, formEncode (l ++ 0 :: b) = formEncode l ++ formEncode (0 :: b) := by
    intro l; induction l with
    | nil => rfl
    | cons c t ih => simp [formEncode, ih]
  have hd : ∀ l, IsBytes l → Decodes (formEncode l ++ formEncode (0 :: b)) (l ++ decode (formEncode (0 :: b))) := by
    intro l hl
    induction l with
    | nil => exact decodes_decode _ _ (Nat.le_refl _)
    | cons c t ih =>
      obtain ⟨hc, ht⟩ := isBytes_cons.1 hl
      have := ih ht
      unfold formEncode
      by_cases hk : Kept c
      · rw [if_pos hk]
        exact .plain (by rintro rfl; revert hk; decide) (by rintro rfl; revert hk; decide) this
      · rw [if_neg hk]
        by_cases h32 : c = 32
        · rw [if_pos h32, h32]; exact .plus this
        · rw [if_neg h32]
          have h := Decodes.escape (hex_hexChar (v := c / 16) (by omega)) (hex_hexChar (v := c % 16) (by omega)) this
          rwa [show 16 * (c / 16) + c % 16 = c by omega] at h
  have hz : decode (formEncode (0 :: b)) = 0 :: decode (formEncode b) := by
    have : formEncode (0 :: b) = 37 :: 48 :: 48 :: formEncode b := by simp [formEncode, Kept, hexChar]
    rw [this, decode_escape (x := 0) (y := 0) (by decide) (by decide)]
  rw [henc, ← decodes_eq (hd a ha), hz]
  unfold upToNul
  rw [List.takeWhile_append_of_pos (by
    intro x hx; simp; rintro rfl; exact h0 hx)]
  simp

/-! ### C55: query parameters -/

/-- A parameter of a query string: key, and value unless the `=` is missing. -/
abbrev Param := List Nat × Option (List Nat)

/-- The standard spelling of one parameter. -/
def spell : Param → List Nat
  | (k, none) => formEncode k
  | (k, some v) => formEncode k ++ 61 :: formEncode v

/-- Parameters joined with `&`. -/
def spellAll : List Param → List Nat
  | [] => []
  | [p] => spell p
  | p :: ps => spell p ++ 38 :: spellAll ps

theorem formEncode_clean (s : List Nat) : ∀ c ∈ formEncode s, c ≠ 38 ∧ c ≠ 61 ∧ c ≠ 63 ∧ c ≠ 0 := by
  induction s with
  | nil => simp [formEncode]
  | cons x t ih =>
    intro c hc
    unfold formEncode at hc
    rcases List.mem_append.1 hc with h | h
    · by_cases hk : Kept x
      · rw [if_pos hk] at h
        rw [List.mem_singleton.1 h]
        unfold Kept at hk; omega
      · rw [if_neg hk] at h
        by_cases h32 : x = 32
        · rw [if_pos h32] at h; rw [List.mem_singleton.1 h]; decide
        · rw [if_neg h32] at h
          have hx : ∀ v, hexChar v ≠ 38 ∧ hexChar v ≠ 61 ∧ hexChar v ≠ 63 ∧ hexChar v ≠ 0 ∨ 9 < v := by
            intro v; unfold hexChar
            by_cases h9 : v ≤ 9
            · rw [if_pos h9]; omega
            · right; omega
          have hx2 : ∀ v, 9 < v → hexChar v ≠ 38 ∧ hexChar v ≠ 61 ∧ hexChar v ≠ 63 ∧ hexChar v ≠ 0 := by
            intro v hv; unfold hexChar; rw [if_neg (by omega)]; omega
          have hx3 : ∀ v, hexChar v ≠ 38 ∧ hexChar v ≠ 61 ∧ hexChar v ≠ 63 ∧ hexChar v ≠ 0 := fun v =>
            (hx v).elim id (hx2 v)
          simp only [List.mem_cons, List.not_mem_nil, or_false] at h
          rcases h with h | h | h <;> rw [h]
          · decide
          · exact hx3 _
          · exact hx3 _
    · exact ih c h

theorem cutAt_none {d : Nat} {s : List Nat} (h : d ∉ s) : cutAt d s = (s, none) := by
  induction s with
  | nil => rfl
  | cons x t ih =>
    simp only [List.mem_cons, not_or] at h
    unfold cutAt; rw [if_neg (fun e => h.1 e.symm), ih h.2]

theorem cutAt_some {d : Nat} {a b : List Nat} (h : d ∉ a) : cutAt d (a ++ d :: b) = (a, some b) := by
  induction a with
  | nil => simp [cutAt]
  | cons x t ih =>
    simp only [List.mem_cons, not_or] at h
    rw [List.cons_append]
    unfold cutAt; rw [if_neg (fun e => h.1 e.symm), ih h.2]

theorem upToNul_self {s : List Nat} (h : 0 ∉ s) : upToNul s = s := by
  unfold upToNul
  induction s with
  | nil => rfl
  | cons x t ih =>
    simp only [List.mem_cons, not_or] at h
    rw [List.takeWhile_cons, if_pos (by simpa using fun e => h.1 e.symm), ih h.2]

theorem decode_formEncode {s : List Nat} (h : IsBytes s) : decode (formEncode s) = s :=
  (decodes_eq (C36_inverts_encoding s h)).symm

/-- A parameter that can be spelled: bytes without NUL, and a key without `=`
is not empty. -/
def Spellable (p : Param) : Prop :=
  IsBytes p.1 ∧ 0 ∉ p.1 ∧ (p.2 = none → p.1 ≠ []) ∧ ∀ v, p.2 = some v → IsBytes v ∧ 0 ∉ v

theorem param_spell {p : Param} (h : Spellable p) : param (spell p) = p := by
  obtain ⟨k, v⟩ := p
  obtain ⟨h1, h2, h3, h4⟩ := h
  simp only at h1 h2 h3 h4
  have hk : 61 ∉ formEncode k := fun hm => (formEncode_clean k 61 hm).2.1 rfl
  cases v with
  | none =>
    unfold param spell
    simp only [cutAt_none hk, decode_formEncode h1, upToNul_self h2]
  | some v =>
    obtain ⟨h5, h6⟩ := h4 v rfl
    unfold param spell
    simp only [cutAt_some hk, decode_formEncode h1, decode_formEncode h5, upToNul_self h2, upToNul_self h6]

theorem tokens_run {s rest cur : List Nat} (h : 38 ∉ s) : tokens (s ++ rest) cur = tokens rest (cur ++ s) := by
  induction s generalizing cur with
  | nil => simp
  | cons x t ih =>
    simp only [List.mem_cons, not_or] at h
    rw [List.cons_append]
    simp only [tokens]
    rw [if_neg (fun e => h.1 e.symm), ih h.2]
    simp

theorem spell_clean (p : Param) : 38 ∉ spell p := by
  obtain ⟨k, v⟩ := p
  cases v with
  | none => exact fun h => (formEncode_clean k 38 h).1 rfl
  | some v =>
    intro h
    unfold spell at h
    rcases List.mem_append.1 h with h | h
    · exact (formEncode_clean k 38 h).1 rfl
    · rcases List.mem_cons.1 h with h | h
      · omega
      · exact (formEncode_clean v 38 h).1 rfl

theorem formEncode_ne_nil {s : List Nat} (h : s ≠ []) : formEncode s ≠ [] := by
  cases s with
  | nil => exact absurd rfl h
  | cons c t =>
    unfold formEncode
    by_cases hk : Kept c
    · simp [hk]
    · by_cases h32 : c = 32
      · rw [if_neg hk, if_pos h32]; simp
      · simp [hk, h32]

theorem spell_ne_nil {p : Param} (h : Spellable p) : spell p ≠ [] := by
  obtain ⟨k, v⟩ := p
  cases v with
  | none => exact formEncode_ne_nil (h.2.2.1 rfl)
  | some v => simp [spell]

theorem tokens_spellAll {ps : List Param} (h : ∀ p ∈ ps, Spellable p) :
    tokens (spellAll ps) [] = ps.map spell := by
  induction ps with
  | nil => simp [spellAll, tokens]
  | cons p ps ih =>
    have hp := h p (by simp)
    have ih' := ih fun q hq => h q (by simp [hq])
    cases ps with
    | nil =>
      have h1 := tokens_run (s := spell p) (rest := []) (cur := []) (spell_clean p)
      simp only [List.append_nil, List.nil_append] at h1
      simp only [spellAll, h1, tokens, spell_ne_nil hp, if_false]
      rfl
    | cons q qs =>
      simp only [spellAll]
      rw [tokens_run (spell_clean p)]
      simp only [List.nil_append, tokens, if_true, spell_ne_nil hp, if_false]
      rw [ih']
      rfl

/-- What a handler sees for key `k`: the stored value, if the key is there. -/
def lookup (tbl : List Param) (k : List Nat) : Option (Option (List Nat)) :=
  (tbl.find? (fun e => e.1 = k)).map (·.2)

theorem lookup_store (tbl : List Param) (p : Param) (k : List Nat) :
    lookup (store tbl p) k = match lookup tbl k with
      | some v => some v
      | none => if p.1 = k then some p.2 else none := by
  unfold lookup store
  by_cases h : tbl.any (fun e => e.1 = p.1) = true
  · rw [if_pos h]
    cases hf : tbl.find? (fun e => e.1 = k) with
    | some v => simp
    | none =>
      simp only [Option.map_none]
      by_cases hk : p.1 = k
      · obtain ⟨e, he1, he2⟩ := List.any_eq_true.1 h
        have := List.find?_eq_none.1 hf e he1
        simp at this he2
        exact absurd (he2.trans hk) this
      · rw [if_neg hk]
  · rw [if_neg h, List.find?_append]
    cases hf : tbl.find? (fun e => e.1 = k) with
    | some v => simp
    | none => by_cases hk : p.1 = k <;> simp [hk]

theorem lookup_foldl (ps tbl : List Param) (k : List Nat) :
    lookup (ps.foldl store tbl) k = match lookup tbl k with
      | some v => some v
      | none => lookup ps k := by
  induction ps generalizing tbl with
  | nil =>
    rw [List.foldl_nil]
    cases h : lookup tbl k <;> rfl
  | cons p ps ih =>
    rw [List.foldl_cons, ih, lookup_store]
    cases h : lookup tbl k with
    | some v => rfl
    | none =>
      simp only
      by_cases hk : p.1 = k
      · simp [hk, lookup]
      · simp [hk, lookup]

/-- C55 (query parameters).  For a request target spelled in the standard way
from a path and any list of parameters, the handler sees the original path, and
for every key the value of the first parameter with that key (nothing if there
is none; a key without `=` has no value); the raw query string is kept. -/
theorem C55_query_roundtrip (path : List Nat) (hp : IsBytes path) (hp0 : 0 ∉ path)
    (ps : List Param) (h : ∀ p ∈ ps, Spellable p) :
    (parseUri (formEncode path ++ 63 :: spellAll ps)).path = path ∧
    (parseUri (formEncode path ++ 63 :: spellAll ps)).origQs = some (spellAll ps) ∧
    ∀ k, lookup (parseUri (formEncode path ++ 63 :: spellAll ps)).params k =
      ((ps.find? (fun p => p.1 = k)).map (·.2)) := by
  have h63 : 63 ∉ formEncode path := fun hm => (formEncode_clean path 63 hm).2.2.1 rfl
  unfold parseUri
  rw [cutAt_some h63]
  refine ⟨by simp only [decode_formEncode hp, upToNul_self hp0], rfl, fun k => ?_⟩
  simp only
  rw [tokens_spellAll h, List.map_map, lookup_foldl]
  have hmap : ps.map (param ∘ spell) = ps := by
    conv => rhs; rw [← List.map_id ps]
    exact List.map_congr_left fun p hp => param_spell (h p hp)
  rw [hmap]
  rfl

/-- Pieces of text written one after the other with `&` between them. -/
def joinAmp : List (List Nat) → List Nat
  | [] => []
  | [p] => p
  | p :: ps => p ++ 38 :: joinAmp ps

theorem tokens_joinAmp : ∀ {ps : List (List Nat)}, (∀ p ∈ ps, 38 ∉ p) →
    tokens (joinAmp ps) [] = ps.filter (fun p => p ≠ [])
  | [], _ => by simp [joinAmp, tokens]
  | [p], h => by
    have h1 := tokens_run (s := p) (rest := []) (cur := []) (h p (by simp))
    rw [List.append_nil] at h1
    simp only [joinAmp, h1, tokens, List.nil_append]
    by_cases hp : p = [] <;> simp [hp]
  | p :: q :: ps, h => by
    have ih := tokens_joinAmp (ps := q :: ps) (fun x hx => h x (List.mem_cons_of_mem _ hx))
    simp only [joinAmp]
    rw [tokens_run (h p (by simp))]
    simp only [List.nil_append, tokens, if_true]
    by_cases hp : p = []
    · rw [if_pos hp, ih, hp]; simp
    · rw [if_neg hp, ih]; simp [hp]

/-- C55 (empty pieces).  Empty pieces between, before or after the `&`
separators of a query contribute no parameter: the table is the one of the
query written with the non-empty pieces only. -/
theorem C55_empty_pieces_ignored (path : List Nat) (hp : 63 ∉ path) (ps : List (List Nat))
    (h : ∀ p ∈ ps, 38 ∉ p) :
    (parseUri (path ++ 63 :: joinAmp ps)).params =
      (parseUri (path ++ 63 :: joinAmp (ps.filter (fun p => p ≠ [])))).params ∧
    ((∀ p ∈ ps, p = []) → (parseUri (path ++ 63 :: joinAmp ps)).params = []) := by
  have h2 : ∀ p ∈ ps.filter (fun p => p ≠ []), 38 ∉ p := fun p hm => h p (List.mem_filter.1 hm).1
  unfold parseUri
  rw [cutAt_some hp, cutAt_some hp]
  simp only
  rw [tokens_joinAmp h, tokens_joinAmp h2, List.filter_filter]
  refine ⟨by simp, fun he => ?_⟩
  have : ps.filter (fun p => decide (p ≠ [])) = [] := by
    rw [List.filter_eq_nil_iff]; intro p hm; simp [he p hm]
  rw [this]; rfl

example : (parseUri (bytesOf "/a" ++ 63 :: joinAmp [[], bytesOf "x=1", [], [], bytesOf "y"])).params =
    [(bytesOf "x", some (bytesOf "1")), (bytesOf "y", none)] := by decide +kernel

/-- C55 (no query).  Without `?` there are no parameters. -/
theorem C55_no_query (uri : List Nat) (h : 63 ∉ uri) :
    (parseUri uri).params = [] ∧ (parseUri uri).origQs = none := by
  unfold parseUri; rw [cutAt_none h]; exact ⟨rfl, rfl⟩

/-- C55 (keys are unique).  Whatever the request target, no key appears twice
in the parameter table. -/
theorem C55_keys_nodup (uri : List Nat) : ((parseUri uri).params.map (·.1)).Nodup := by
  have hst : ∀ (ps tbl : List Param), (tbl.map (·.1)).Nodup → ((ps.foldl store tbl).map (·.1)).Nodup := by
    intro ps
    induction ps with
    | nil => intro tbl h; exact h
    | cons p ps ih =>
      intro tbl h
      rw [List.foldl_cons]
      apply ih
      unfold store
      split
      · exact h
      · rename_i hn
        rw [List.map_append]
        refine List.nodup_append.2 ⟨h, by simp, ?_⟩
        intro a ha b hb hab
        simp at hb
        obtain ⟨e, he1, he2⟩ := List.mem_map.1 ha
        apply hn
        rw [List.any_eq_true]
        exact ⟨e, he1, by simp [he2, hab, hb]⟩
  unfold parseUri
  split
  · simp
  · exact hst _ _ (by simp)

/-! ### Concrete cases -/

/-- A percent sign at the very end, a half escape, a good escape and a plus. -/
example : Decodes (bytesOf "a%4a+%2%") (bytesOf "aJ %2%") := by
  have h : decode [97, 37, 52, 97, 43, 37, 50, 37] = [97, 74, 32, 37, 50, 37] := by
    rw [decode_plain (by decide), decode_escape (x := 4) (y := 10) (by decide) (by decide),
      decode_plain (by decide), decode_bad (by
        intro a b r x y h1 h2 h3
        simp only [List.cons.injEq] at h1
        rw [← h1.2.1] at h3
        revert h3; simp [hexOf]), decode_plain (by decide), decode_bad (by simp), decode]
    rfl
  have e1 : bytesOf "a%4a+%2%" = [97, 37, 52, 97, 43, 37, 50, 37] := by decide +kernel
  have e2 : bytesOf "aJ %2%" = [97, 74, 32, 37, 50, 37] := by decide +kernel
  rw [e1, e2, ← h]
  exact decodes_decode _ _ (Nat.le_refl _)

example : Spellable (bytesOf "na me", some (bytesOf "a&b=c?")) := by
  refine ⟨by decide +kernel, by decide +kernel, by simp, ?_⟩
  intro v hv; cases hv; decide +kernel

example : formEncode (bytesOf "a b&ü") = bytesOf "a+b%26%FC" := by decide +kernel

end Mtev.Query
