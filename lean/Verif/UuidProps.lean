import Verif.Uuid

/-! # Properties C08 and C44: UUIDs -/

namespace Mtev.Uuid

/-! ## Specification -/

/-- The value of an ASCII hexadecimal digit of either case. -/
inductive HexDigit : Nat → Nat → Prop
  | dec (v : Nat) : v < 10 → HexDigit (48 + v) v
  | upper (v : Nat) : 10 ≤ v → v < 16 → HexDigit (55 + v) v
  | lower (v : Nat) : 10 ≤ v → v < 16 → HexDigit (87 + v) v

/-- `HexText t bs`: `t` is the bytes `bs` in hexadecimal, two digits each, any case. -/
inductive HexText : List Nat → List Nat → Prop
  | nil : HexText [] []
  | cons {c d v w : Nat} {t bs : List Nat} : HexDigit c v → HexDigit d w → HexText t bs →
      HexText (c :: d :: t) ((16 * v + w) :: bs)

/-- RFC 4122 text form: hex groups of 4, 2, 2, 2 and 6 bytes separated by dashes. -/
def UuidText (t u : List Nat) : Prop :=
  ∃ a b c d e A B C D E, HexText a A ∧ HexText b B ∧ HexText c C ∧ HexText d D ∧ HexText e E ∧
    A.length = 4 ∧ B.length = 2 ∧ C.length = 2 ∧ D.length = 2 ∧ E.length = 6 ∧
    t = a ++ 45 :: (b ++ 45 :: (c ++ 45 :: (d ++ 45 :: e))) ∧ u = A ++ (B ++ (C ++ (D ++ E)))

/-- ASCII letter case folding. -/
def lowerCase (c : Nat) : Nat := if 65 ≤ c ∧ c ≤ 90 then c + 32 else c

/-! ## Bridge -/

theorem hexDigit_iff {c v : Nat} : HexDigit c v ↔ isxdigit c = true ∧ hexvalue c = v := by
  constructor
  · intro h
    cases h with
    | dec v h =>
      have : ∀ x : Fin 10, isxdigit (48 + x.val) = true ∧ hexvalue (48 + x.val) = x.val := by decide +kernel
      exact this ⟨v, h⟩
    | upper v h1 h2 =>
      have : ∀ x : Fin 16, 10 ≤ x.val → isxdigit (55 + x.val) = true ∧ hexvalue (55 + x.val) = x.val := by decide +kernel
      exact this ⟨v, h2⟩ h1
    | lower v h1 h2 =>
      have : ∀ x : Fin 16, 10 ≤ x.val → isxdigit (87 + x.val) = true ∧ hexvalue (87 + x.val) = x.val := by decide +kernel
      exact this ⟨v, h2⟩ h1
  · rintro ⟨h1, rfl⟩
    have hc : c < 256 := by simp [isxdigit] at h1; omega
    have : ∀ x : Fin 256, isxdigit x.val = true →
        (hexvalue x.val < 10 ∧ x.val = 48 + hexvalue x.val) ∨
        (10 ≤ hexvalue x.val ∧ hexvalue x.val < 16 ∧ x.val = 55 + hexvalue x.val) ∨
        (10 ≤ hexvalue x.val ∧ hexvalue x.val < 16 ∧ x.val = 87 + hexvalue x.val) := by decide +kernel
    rcases this ⟨c, hc⟩ h1 with ⟨h, e⟩ | ⟨h, h', e⟩ | ⟨h, h', e⟩
    · simp only at e h; rw [e]; rw [← e]; exact HexDigit.dec _ h |> (fun q => by rwa [← e] at q)
    · simp only at e h h'; exact HexDigit.upper _ h h' |> (fun q => by rwa [← e] at q)
    · simp only at e h h'; exact HexDigit.lower _ h h' |> (fun q => by rwa [← e] at q)

theorem pair_eq {c d v w : Nat} (h1 : HexDigit c v) (h2 : HexDigit d w) :
    ((hexvalue c * 0x10) ||| hexvalue d) % 256 = 16 * v + w := by
  rw [hexDigit_iff] at h1 h2
  have a := hexvalue_lt h1.1
  have b := hexvalue_lt h2.1
  rw [h1.2] at a ⊢; rw [h2.2] at b ⊢
  rw [or_eq_add 4 (by omega) (by omega)]
  omega

theorem takeHex_ok (n : Nat) (p acc o r : List Nat) :
    takeHex n p acc = .ok o r ↔ ∃ t bs, HexText t bs ∧ bs.length = n ∧ p = t ++ r ∧ o = acc ++ bs := by
  induction n generalizing p acc with
  | zero =>
    simp only [takeHex, Run.ok.injEq]
    constructor
    · rintro ⟨rfl, rfl⟩; exact ⟨[], [], .nil, rfl, by simp, by simp⟩
    · rintro ⟨t, bs, h, h1, h2, h3⟩
      have : bs = [] := List.length_eq_zero_iff.mp h1
      subst this
      cases h
      simp_all
  | succ n ih =>
    constructor
    · intro h
      match p, h with
      | [], h => simp [takeHex] at h
      | [c], h => simp only [takeHex] at h; split at h <;> simp at h
      | c :: d :: p', h =>
        simp only [takeHex] at h
        split at h
        · simp at h
        · split at h
          · simp at h
          · rename_i hc hd
            simp at hc hd
            rw [ih] at h
            obtain ⟨t, bs, k1, k2, k3, k4⟩ := h
            have hc' := hexDigit_iff.mpr ⟨hc, rfl⟩
            have hd' := hexDigit_iff.mpr ⟨hd, rfl⟩
            refine ⟨c :: d :: t, _, .cons hc' hd' k1, by simp [k2], by simp [k3], ?_⟩
            rw [k4, pair_eq hc' hd']; simp
    · rintro ⟨t, bs, h, h1, h2, h3⟩
      cases h with
      | nil => simp at h1
      | cons hc hd k =>
        rename_i c d v w t' bs'
        subst h2 h3
        simp only [List.cons_append, takeHex]
        rw [if_neg (by simp [(hexDigit_iff.mp hc).1]), if_neg (by simp [(hexDigit_iff.mp hd).1]), ih]
        exact ⟨t', bs', k, by simpa using h1, rfl, by rw [pair_eq hc hd]; simp⟩

theorem HexText.length {t bs : List Nat} (h : HexText t bs) : t.length = 2 * bs.length := by
  induction h with
  | nil => rfl
  | cons _ _ _ ih => simp [ih]; omega

theorem run_some {n len : Nat} {p out u : List Nat}
    (h : ∀ k < n, len + 2 * k < 36 ∧ ¬ (len + 2 * k = 8 ∨ len + 2 * k = 13 ∨ len + 2 * k = 18 ∨ len + 2 * k = 23)) :
    parseLoop len p out = some (true, u) ↔
      ∃ t bs r, HexText t bs ∧ bs.length = n ∧ p = t ++ r ∧ parseLoop (len + 2 * n) r (out ++ bs) = some (true, u) := by
  rw [parseLoop_run n len p out h]
  constructor
  · intro hh
    cases hr : takeHex n p out with
    | oob => rw [hr] at hh; simp at hh
    | bad o => rw [hr] at hh; simp at hh
    | ok o r =>
      rw [hr] at hh
      obtain ⟨t, bs, a, b, c, d⟩ := (takeHex_ok n p out o r).mp hr
      exact ⟨t, bs, r, a, b, c, by rw [← d]; exact hh⟩
  · rintro ⟨t, bs, r, a, b, c, d⟩
    rw [(takeHex_ok n p out (out ++ bs) r).mpr ⟨t, bs, a, b, c, rfl⟩]
    exact d

theorem dash_some {len : Nat} {p out u : List Nat} (h : len = 8 ∨ len = 13 ∨ len = 18 ∨ len = 23) :
    parseLoop len p out = some (true, u) ↔ ∃ r, p = 45 :: r ∧ parseLoop (len + 1) r out = some (true, u) := by
  rw [parseLoop_dash len p out h]
  match p with
  | [] => simp
  | c :: r =>
    simp only
    split
    · rename_i hc; simp [hc]
    · rename_i hc; simp at hc; simp [hc]

theorem end_some {p out u : List Nat} :
    parseLoop 36 p out = some (true, u) ↔ (∃ r, p = 0 :: r) ∧ u = out := by
  rw [parseLoop_end]
  match p with
  | [] => simp
  | c :: r =>
    simp only [Option.some.injEq, Prod.mk.injEq, beq_iff_eq, List.cons.injEq, exists_and_left, exists_eq', and_true]
    exact and_congr Iff.rfl eq_comm

theorem takeHex_oob (n : Nat) (p acc : List Nat) (h : takeHex n p acc = .oob) : 0 ∉ p := by
  induction n generalizing p acc with
  | zero => simp [takeHex] at h
  | succ n ih =>
    match p, h with
    | [], _ => simp
    | [c], h =>
      simp only [takeHex] at h
      split at h
      · simp at h
      · rename_i hc
        intro hm
        simp at hm
        subst hm
        simp [isxdigit_zero] at hc
    | c :: d :: p', h =>
      simp only [takeHex] at h
      split at h
      · simp at h
      · split at h
        · simp at h
        · rename_i hc hd
          have := ih _ _ h
          intro hm
          simp only [List.mem_cons] at hm
          rcases hm with hm | hm | hm
          · subst hm; simp [isxdigit_zero] at hc
          · subst hm; simp [isxdigit_zero] at hd
          · exact this hm

theorem HexText.noZero {t bs : List Nat} (h : HexText t bs) : 0 ∉ t := by
  induction h with
  | nil => simp
  | cons h1 h2 _ ih =>
    simp only [List.mem_cons, not_or]
    refine ⟨?_, ?_, ih⟩
    · cases h1 <;> omega
    · cases h2 <;> omega

theorem run_none {n len : Nat} {p out : List Nat}
    (h : ∀ k < n, len + 2 * k < 36 ∧ ¬ (len + 2 * k = 8 ∨ len + 2 * k = 13 ∨ len + 2 * k = 18 ∨ len + 2 * k = 23))
    (h0 : 0 ∈ p) (hn : parseLoop len p out = none) : ∃ r o, 0 ∈ r ∧ parseLoop (len + 2 * n) r o = none := by
  rw [parseLoop_run n len p out h] at hn
  cases hr : takeHex n p out with
  | oob => exact absurd h0 (takeHex_oob n p out hr)
  | bad o => rw [hr] at hn; simp at hn
  | ok o r =>
    rw [hr] at hn
    obtain ⟨t, bs, a, b, c, d⟩ := (takeHex_ok n p out o r).mp hr
    refine ⟨r, o, ?_, hn⟩
    rw [c, List.mem_append] at h0
    rcases h0 with h0 | h0
    · exact absurd h0 a.noZero
    · exact h0

theorem dash_none {len : Nat} {p out : List Nat} (h : len = 8 ∨ len = 13 ∨ len = 18 ∨ len = 23)
    (h0 : 0 ∈ p) (hn : parseLoop len p out = none) : ∃ r o, 0 ∈ r ∧ parseLoop (len + 1) r o = none := by
  rw [parseLoop_dash len p out h] at hn
  match p, h0, hn with
  | c :: r, h0, hn =>
    simp only at hn
    split at hn
    · simp at hn
    · rename_i hc
      simp at hc
      subst hc
      simp at h0
      exact ⟨r, out, h0, hn⟩

/-! ## C08 -/

/-- `mtev_uuid_parse` returns 0 and stores `u` exactly when the NUL terminated text is the RFC 4122
form of `u`. -/
theorem C08_uuid_parse_iff (mem u : List Nat) :
    parse mem = some (true, u) ↔ ∃ t junk, mem = t ++ 0 :: junk ∧ UuidText t u := by
  unfold parse
  constructor
  · intro h
    rw [run_some (n := 4) (by omega)] at h
    obtain ⟨a, A, r, ha, la, rfl, h⟩ := h
    rw [dash_some (by omega)] at h
    obtain ⟨r, rfl, h⟩ := h
    rw [run_some (n := 2) (by omega)] at h
    obtain ⟨b, B, r, hb, lb, rfl, h⟩ := h
    rw [dash_some (by omega)] at h
    obtain ⟨r, rfl, h⟩ := h
    rw [run_some (n := 2) (by omega)] at h
    obtain ⟨c, C, r, hc, lc, rfl, h⟩ := h
    rw [dash_some (by omega)] at h
    obtain ⟨r, rfl, h⟩ := h
    rw [run_some (n := 2) (by omega)] at h
    obtain ⟨d, D, r, hd, ld, rfl, h⟩ := h
    rw [dash_some (by omega)] at h
    obtain ⟨r, rfl, h⟩ := h
    rw [run_some (n := 6) (by omega)] at h
    obtain ⟨e, E, r, he, le, rfl, h⟩ := h
    rw [end_some] at h
    obtain ⟨⟨junk, rfl⟩, rfl⟩ := h
    exact ⟨_, junk, by simp, a, b, c, d, e, A, B, C, D, E, ha, hb, hc, hd, he, la, lb, lc, ld, le, rfl, by simp⟩
  · rintro ⟨t, junk, rfl, a, b, c, d, e, A, B, C, D, E, ha, hb, hc, hd, he, la, lb, lc, ld, le, rfl, rfl⟩
    rw [run_some (n := 4) (by omega)]
    refine ⟨a, A, _, ha, la, by rw [List.append_assoc], ?_⟩
    rw [dash_some (by omega)]
    refine ⟨_, rfl, ?_⟩
    rw [run_some (n := 2) (by omega)]
    refine ⟨b, B, _, hb, lb, by rw [List.append_eq, List.append_assoc], ?_⟩
    rw [dash_some (by omega)]
    refine ⟨_, rfl, ?_⟩
    rw [run_some (n := 2) (by omega)]
    refine ⟨c, C, _, hc, lc, by rw [List.append_eq, List.append_assoc], ?_⟩
    rw [dash_some (by omega)]
    refine ⟨_, rfl, ?_⟩
    rw [run_some (n := 2) (by omega)]
    refine ⟨d, D, _, hd, ld, by rw [List.append_eq, List.append_assoc], ?_⟩
    rw [dash_some (by omega)]
    refine ⟨_, rfl, ?_⟩
    rw [run_some (n := 6) (by omega)]
    refine ⟨e, E, _, he, le, by rw [List.append_eq], ?_⟩
    rw [end_some]
    exact ⟨⟨junk, rfl⟩, by simp⟩

/-- Parsing a NUL terminated string never reads past the terminator. -/
theorem C08_uuid_parse_in_bounds (mem : List Nat) (h : 0 ∈ mem) : parse mem ≠ none := by
  intro hn
  unfold parse at hn
  obtain ⟨r, o, h, hn⟩ := run_none (n := 4) (by omega) h hn
  obtain ⟨r, o, h, hn⟩ := dash_none (by omega) h hn
  obtain ⟨r, o, h, hn⟩ := run_none (n := 2) (by omega) h hn
  obtain ⟨r, o, h, hn⟩ := dash_none (by omega) h hn
  obtain ⟨r, o, h, hn⟩ := run_none (n := 2) (by omega) h hn
  obtain ⟨r, o, h, hn⟩ := dash_none (by omega) h hn
  obtain ⟨r, o, h, hn⟩ := run_none (n := 2) (by omega) h hn
  obtain ⟨r, o, h, hn⟩ := dash_none (by omega) h hn
  obtain ⟨r, o, h, hn⟩ := run_none (n := 6) (by omega) h hn
  rw [parseLoop_end] at hn
  match r, h, hn with
  | c :: r, _, hn => simp at hn

example : parse (bytesOf "550e8400-E29b-41d4-a716-446655440000" ++ [0, 7]) =
    some (true, [0x55, 0x0e, 0x84, 0x00, 0xe2, 0x9b, 0x41, 0xd4, 0xa7, 0x16, 0x44, 0x66, 0x55, 0x44, 0x00, 0x00]) := by
  decide +kernel
example : parse (bytesOf "550e8400-E29b-41d4-a716-44665544000" ++ [0]) =
    some (false, [0x55, 0x0e, 0x84, 0x00, 0xe2, 0x9b, 0x41, 0xd4, 0xa7, 0x16, 0x44, 0x66, 0x55, 0x44, 0x00]) := by
  decide +kernel

/-! ### Unparsing -/

theorem cmap_digit {cmap : List Nat} (hm : cmap = reverseLut ∨ cmap = reverseUut) {v : Nat} (h : v < 16) :
    HexDigit (cmap.getD v 0) v := by
  rw [hexDigit_iff]
  have k1 : ∀ x : Fin 16, isxdigit (reverseLut.getD x.val 0) = true ∧ hexvalue (reverseLut.getD x.val 0) = x.val := by decide +kernel
  have k2 : ∀ x : Fin 16, isxdigit (reverseUut.getD x.val 0) = true ∧ hexvalue (reverseUut.getD x.val 0) = x.val := by decide +kernel
  rcases hm with rfl | rfl
  · exact k1 ⟨v, h⟩
  · exact k2 ⟨v, h⟩

theorem nibbles {b : Nat} (h : b < 256) : (b &&& 0xf0) >>> 4 = b / 16 ∧ b &&& 0x0f = b % 16 := by
  have : ∀ x : Fin 256, (x.val &&& 0xf0) >>> 4 = x.val / 16 ∧ x.val &&& 0x0f = x.val % 16 := by decide +kernel
  exact this ⟨b, h⟩

/-- Hex text of a list of bytes with a given digit table. -/
def hexOf (cmap : List Nat) : List Nat → List Nat
  | [] => []
  | b :: r => cmap.getD (b / 16) 0 :: cmap.getD (b % 16) 0 :: hexOf cmap r

theorem hexOf_text {cmap : List Nat} (hm : cmap = reverseLut ∨ cmap = reverseUut) (u : List Nat) (hu : IsBytes u) :
    HexText (hexOf cmap u) u := by
  induction u with
  | nil => exact .nil
  | cons b r ih =>
    rw [isBytes_cons] at hu
    have := HexText.cons (cmap_digit hm (show b / 16 < 16 by omega)) (cmap_digit hm (show b % 16 < 16 by omega)) (ih hu.2)
    rw [show 16 * (b / 16) + b % 16 = b by omega] at this
    exact this

theorem len16 {u : List Nat} (h : u.length = 16) : ∃ a0 a1 a2 a3 a4 a5 a6 a7 a8 a9 a10 a11 a12 a13 a14 a15,
    u = [a0, a1, a2, a3, a4, a5, a6, a7, a8, a9, a10, a11, a12, a13, a14, a15] := by
  match u, h with
  | [a0, a1, a2, a3, a4, a5, a6, a7, a8, a9, a10, a11, a12, a13, a14, a15], _ => exact ⟨_, _, _, _, _, _, _, _, _, _, _, _, _, _, _, _, rfl⟩

theorem unparse_form (cmap u : List Nat) (hu : IsBytes u) (hl : u.length = 16) :
    unparseInternal cmap u = hexOf cmap (u.take 4) ++ 45 :: (hexOf cmap ((u.drop 4).take 2) ++ 45 ::
      (hexOf cmap ((u.drop 6).take 2) ++ 45 :: (hexOf cmap ((u.drop 8).take 2) ++ 45 :: hexOf cmap (u.drop 10)))) ++ [0] := by
  obtain ⟨a0, a1, a2, a3, a4, a5, a6, a7, a8, a9, a10, a11, a12, a13, a14, a15, rfl⟩ := len16 hl
  simp only [isBytes_cons] at hu
  obtain ⟨h0, h1, h2, h3, h4, h5, h6, h7, h8, h9, h10, h11, h12, h13, h14, h15, _⟩ := hu
  simp (config := { decide := true }) only [unparseInternal, unparseLoop, (nibbles h0).1, (nibbles h0).2, (nibbles h1).1, (nibbles h1).2,
    (nibbles h2).1, (nibbles h2).2, (nibbles h3).1, (nibbles h3).2, (nibbles h4).1, (nibbles h4).2, (nibbles h5).1, (nibbles h5).2,
    (nibbles h6).1, (nibbles h6).2, (nibbles h7).1, (nibbles h7).2, (nibbles h8).1, (nibbles h8).2, (nibbles h9).1, (nibbles h9).2,
    (nibbles h10).1, (nibbles h10).2, (nibbles h11).1, (nibbles h11).2, (nibbles h12).1, (nibbles h12).2, (nibbles h13).1, (nibbles h13).2,
    (nibbles h14).1, (nibbles h14).2, (nibbles h15).1, (nibbles h15).2, if_true, if_false]
  rfl

theorem unparse_text {cmap : List Nat} (hm : cmap = reverseLut ∨ cmap = reverseUut) (u : List Nat) (hu : IsBytes u)
    (hl : u.length = 16) : ∃ t, unparseInternal cmap u = t ++ [0] ∧ UuidText t u := by
  refine ⟨_, unparse_form cmap u hu hl, ?_⟩
  have tk : ∀ k, IsBytes (u.take k) := fun k b hb => hu b (List.mem_of_mem_take hb)
  have dk : ∀ k, IsBytes (u.drop k) := fun k b hb => hu b (List.mem_of_mem_drop hb)
  have tdk : ∀ k, IsBytes ((u.drop k).take 2) := fun k b hb => dk k b (List.mem_of_mem_take hb)
  refine ⟨_, _, _, _, _, _, _, _, _, _, hexOf_text hm _ (tk 4), hexOf_text hm _ (tdk 4), hexOf_text hm _ (tdk 6),
    hexOf_text hm _ (tdk 8), hexOf_text hm _ (dk 10), by simp; omega, by simp; omega, by simp; omega, by simp; omega, by simp; omega, rfl, ?_⟩
  obtain ⟨a0, a1, a2, a3, a4, a5, a6, a7, a8, a9, a10, a11, a12, a13, a14, a15, rfl⟩ := len16 hl
  rfl

/-- Parsing what either unparse function wrote gives back the same 16 bytes; exactly 37 bytes are
written (36 characters and the terminator). -/
theorem C08_uuid_roundtrip (u : List Nat) (hu : IsBytes u) (hl : u.length = 16) (junk : List Nat) :
    parse (unparseLower u ++ junk) = some (true, u) ∧ parse (unparseUpper u ++ junk) = some (true, u) ∧
    (unparseLower u).length = 37 ∧ (unparseUpper u).length = 37 := by
  have key : ∀ cmap, (cmap = reverseLut ∨ cmap = reverseUut) →
      parse (unparseInternal cmap u ++ junk) = some (true, u) ∧ (unparseInternal cmap u).length = 37 := by
    intro cmap hm
    obtain ⟨t, e, ht⟩ := unparse_text hm u hu hl
    constructor
    · rw [C08_uuid_parse_iff]
      exact ⟨t, junk, by rw [e]; simp, ht⟩
    · rw [e]
      obtain ⟨a, b, c, d, e, A, B, C, D, E, ha, hb, hc, hd, he, la, lb, lc, ld, le, rfl, rfl⟩ := ht
      simp [ha.length, hb.length, hc.length, hd.length, he.length, la, lb, lc, ld, le]
  exact ⟨(key _ (Or.inl rfl)).1, (key _ (Or.inr rfl)).1, (key _ (Or.inl rfl)).2, (key _ (Or.inr rfl)).2⟩

theorem hexDigit_lower {c v d w : Nat} (h1 : HexDigit c v) (h2 : HexDigit d w) : lowerCase c = lowerCase d ↔ v = w := by
  unfold lowerCase
  cases h1 <;> cases h2 <;> (repeat' split) <;> omega

theorem hexText_lower {t A s B : List Nat} (h1 : HexText t A) (h2 : HexText s B) (hl : A.length = B.length) :
    t.map lowerCase = s.map lowerCase ↔ A = B := by
  induction h1 generalizing s B with
  | nil =>
    have : B = [] := List.length_eq_zero_iff.mp hl.symm
    subst this; cases h2; simp
  | cons hc hd _ ih =>
    cases h2 with
    | nil => simp at hl
    | cons hc' hd' k =>
      have h1 := hexDigit_lower hc hc'
      have h2 := hexDigit_lower hd hd'
      have h3 := ih k (by simpa using hl)
      simp only [List.map_cons, List.cons.injEq, h1, h2, h3]
      have b1 := hexvalue_lt (hexDigit_iff.mp hd).1
      have b2 := hexvalue_lt (hexDigit_iff.mp hd').1
      rw [(hexDigit_iff.mp hd).2] at b1
      rw [(hexDigit_iff.mp hd').2] at b2
      constructor
      · rintro ⟨rfl, rfl, rfl⟩; exact ⟨rfl, rfl⟩
      · rintro ⟨h, rfl⟩; exact ⟨by omega, by omega, rfl⟩

theorem append_inj_iff {a a' b b' : List Nat} (h : a.length = a'.length) : a ++ b = a' ++ b' ↔ a = a' ∧ b = b' :=
  ⟨fun e => List.append_inj e h, fun ⟨e, f⟩ => by rw [e, f]⟩

/-- Two accepted texts denote the same UUID exactly when they agree up to letter case. -/
theorem C08_uuid_case_insensitive (t s u v : List Nat) (h1 : parse (t ++ [0]) = some (true, u))
    (h2 : parse (s ++ [0]) = some (true, v)) (ht : 0 ∉ t) (hs : 0 ∉ s) :
    u = v ↔ t.map lowerCase = s.map lowerCase := by
  have strip : ∀ x w, 0 ∉ x → parse (x ++ [0]) = some (true, w) → UuidText x w := by
    intro x w hx h
    obtain ⟨y, junk, e, hy⟩ := (C08_uuid_parse_iff _ _).mp h
    have hny : 0 ∉ y := by
      obtain ⟨a, b, c, d, e, A, B, C, D, E, ha, hb, hc, hd, he, la, lb, lc, ld, le, rfl, rfl⟩ := hy
      simp [ha.noZero, hb.noZero, hc.noZero, hd.noZero, he.noZero]
    have : x = y := by
      have := congrArg (fun l => l.takeWhile (· ≠ 0)) e
      beta_reduce at this
      rw [List.takeWhile_append_of_pos (fun a ha => by simp; rintro rfl; exact hx ha),
        List.takeWhile_append_of_pos (fun a ha => by simp; rintro rfl; exact hny ha)] at this
      simpa using this
    rw [this]; exact hy
  have A1 := strip t u ht h1
  have A2 := strip s v hs h2
  obtain ⟨a, b, c, d, e, A, B, C, D, E, ha, hb, hc, hd, he, la, lb, lc, ld, le, rfl, rfl⟩ := A1
  obtain ⟨a', b', c', d', e', A', B', C', D', E', ha', hb', hc', hd', he', la', lb', lc', ld', le', rfl, rfl⟩ := A2
  simp only [List.map_append, List.map_cons]
  have q1 := ha.length; have q2 := hb.length; have q3 := hc.length; have q4 := hd.length
  have r1 := ha'.length; have r2 := hb'.length; have r3 := hc'.length; have r4 := hd'.length
  rw [append_inj_iff (by omega), append_inj_iff (by omega), append_inj_iff (by omega), append_inj_iff (by omega),
    append_inj_iff (by simp; omega), List.cons.injEq, append_inj_iff (by simp; omega), List.cons.injEq,
    append_inj_iff (by simp; omega), List.cons.injEq, append_inj_iff (by simp; omega), List.cons.injEq,
    hexText_lower ha ha' (by omega), hexText_lower hb hb' (by omega), hexText_lower hc hc' (by omega),
    hexText_lower hd hd' (by omega), hexText_lower he he' (by omega)]
  tauto

example : (parse (bytesOf "550e8400-E29b-41d4-a716-446655440000" ++ [0])).map Prod.snd =
    (parse (bytesOf "550E8400-e29b-41d4-A716-446655440000" ++ [0])).map Prod.snd := by decide +kernel

/-! ## C44 -/

/-- A generated UUID carries version 4 and the RFC 4122 variant, and the other 122 bits are the
random bits unchanged. -/
theorem C44_uuid_generate_v4 (rnd : List Nat) (hr : IsBytes rnd) (hl : rnd.length = 16) :
    (generate rnd).length = 16 ∧ IsBytes (generate rnd) ∧
    (generate rnd).getD 6 0 / 16 = 4 ∧ (generate rnd).getD 6 0 % 16 = rnd.getD 6 0 % 16 ∧
    (generate rnd).getD 8 0 / 64 = 2 ∧ (generate rnd).getD 8 0 % 64 = rnd.getD 8 0 % 64 ∧
    ∀ i, i ≠ 6 → i ≠ 8 → (generate rnd).getD i 0 = rnd.getD i 0 := by
  obtain ⟨a0, a1, a2, a3, a4, a5, a6, a7, a8, a9, a10, a11, a12, a13, a14, a15, rfl⟩ := len16 hl
  simp only [isBytes_cons] at hr
  obtain ⟨h0, h1, h2, h3, h4, h5, h6, h7, h8, h9, h10, h11, h12, h13, h14, h15, hn⟩ := hr
  have k : ∀ x : Fin 256, (((x.val &&& 0x0f) ||| 0x40) < 256 ∧ ((x.val &&& 0x0f) ||| 0x40) / 16 = 4 ∧
      ((x.val &&& 0x0f) ||| 0x40) % 16 = x.val % 16) ∧ (((x.val &&& 0x3f) ||| 0x80) < 256 ∧
      ((x.val &&& 0x3f) ||| 0x80) / 64 = 2 ∧ ((x.val &&& 0x3f) ||| 0x80) % 64 = x.val % 64) := by decide +kernel
  obtain ⟨⟨p1, p2, p3⟩, _⟩ := k ⟨a6, h6⟩
  obtain ⟨_, ⟨q1, q2, q3⟩⟩ := k ⟨a8, h8⟩
  simp only at p1 p2 p3 q1 q2 q3
  have e : generate [a0, a1, a2, a3, a4, a5, a6, a7, a8, a9, a10, a11, a12, a13, a14, a15] =
    [a0, a1, a2, a3, a4, a5, (a6 &&& 0x0f) ||| 0x40, a7, (a8 &&& 0x3f) ||| 0x80, a9, a10, a11, a12, a13, a14, a15] := rfl
  rw [e]
  refine ⟨rfl, ?_, p2, p3, q2, q3, ?_⟩
  · simp only [isBytes_cons]
    exact ⟨h0, h1, h2, h3, h4, h5, p1, h7, q1, h9, h10, h11, h12, h13, h14, h15, hn⟩
  · intro i hi6 hi8
    match i, hi6, hi8 with
    | 0, _, _ | 1, _, _ | 2, _, _ | 3, _, _ | 4, _, _ | 5, _, _ | 7, _, _ | 9, _, _ | 10, _, _ | 11, _, _
    | 12, _, _ | 13, _, _ | 14, _, _ | 15, _, _ => rfl
    | n + 16, _, _ => rfl
    | 6, h, _ => exact absurd rfl h
    | 8, _, h => exact absurd rfl h

example : generate (List.replicate 16 0xff) =
    [255, 255, 255, 255, 255, 255, 0x4f, 255, 0xbf, 255, 255, 255, 255, 255, 255, 255] := by decide +kernel

end Mtev.Uuid
