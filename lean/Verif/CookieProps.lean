import Verif.Cookie
import Verif.QueryProps
import Mathlib.Data.List.Induction

/-! # Property C76: the signed login cookie -/

namespace Mtev.Cookie

open Mtev.Url (Denotes Unreserved encodeText encodeByte)

/-! ## Specification -/

/-- A field of the cookie: one byte of length, then the bytes. -/
def field (s : List Nat) : List Nat := s.length :: s

/-- What gets signed: five fields. -/
def message (nonce user auth expiry : List Nat) : List Nat :=
  field (bytesOf "hmac_cookie") ++ field nonce ++ field user ++ field auth ++ field expiry

/-- A character that separates cookies in a header. -/
def Sep (c : Nat) : Prop := c = 32 ∨ c = 59

/-- The text `p` ends where a cookie can begin. -/
def Boundary (p : List Nat) : Prop := p = [] ∨ ∃ q c, p = q ++ [c] ∧ Sep c

/-- `v` is the value of the first cookie called `mtevauth` in the header. -/
def FirstCookie (header v : List Nat) : Prop :=
  ∃ pre post, header = pre ++ bytesOf "mtevauth=" ++ v ++ post ∧ Boundary pre ∧ (∀ c ∈ v, ¬ Sep c) ∧
    (post = [] ∨ ∃ c r, post = c :: r ∧ Sep c) ∧
    ∀ p q, pre = p ++ bytesOf "mtevauth=" ++ q → ¬ Boundary p

/-- A string without NUL whose length fits in a byte. -/
def ShortName (s : List Nat) : Prop := IsBytes s ∧ 0 ∉ s ∧ s.length < 256

instance (c : Nat) : Decidable (Sep c) := by unfold Sep; infer_instance

/-! ## Fields -/

theorem cstr_eq {s : List Nat} (h : 0 ∉ s) : cstr s = s := by
  unfold cstr
  induction s with
  | nil => rfl
  | cons x t ih =>
    simp only [List.mem_cons, not_or] at h
    rw [List.takeWhile_cons_of_pos (by simpa using Ne.symm h.1), ih h.2]

theorem advpart_field (pre s post : List Nat) :
    advpart (pre ++ field s ++ post) pre.length = some (s, (pre ++ field s).length) := by
  unfold advpart field
  have e1 : (pre ++ s.length :: s ++ post).getD pre.length 0 = s.length := by
    simp [List.getD_eq_getElem?_getD]
  rw [e1, if_neg (by simp), if_neg (by simp; omega)]
  have e2 : (pre ++ s.length :: s ++ post).drop (pre.length + 1) = s ++ post := by
    have : pre ++ s.length :: s ++ post = (pre ++ [s.length]) ++ (s ++ post) := by simp
    rw [this]
    exact List.drop_left' (by simp)
  rw [e2]
  simp
  omega

theorem advpart_inv {pre tail s : List Nat} {r : Nat} (h : advpart (pre ++ tail) pre.length = some (s, r)) :
    ∃ post, tail = field s ++ post ∧ r = (pre ++ field s).length := by
  unfold advpart at h
  split at h
  · simp at h
  split at h
  · simp at h
  rename_i h1 h2
  cases tail with
  | nil => simp at h1
  | cons l t =>
    have e1 : (pre ++ l :: t).getD pre.length 0 = l := by simp [List.getD_eq_getElem?_getD]
    have e2 : (pre ++ l :: t).drop (pre.length + 1) = t := by
      have : pre ++ l :: t = (pre ++ [l]) ++ t := by simp
      rw [this]
      exact List.drop_left' (by simp)
    rw [e1] at h2 h
    rw [e2] at h
    simp only [Option.some.injEq, Prod.mk.injEq] at h
    have hl : l ≤ t.length := by simp at h2; omega
    have hs : s.length = l := by rw [← h.1]; simp; omega
    refine ⟨t.drop l, ?_, ?_⟩
    · unfold field
      rw [hs, ← h.1]
      simp
    · rw [← h.2]; simp [field, hs]; omega

theorem field_lt {s t p : List Nat} (h : IsBytes (p ++ field s ++ t)) : s.length < 256 := by
  apply h
  simp [field]

theorem toArray_ok {n : Nat} {s : List Nat} (h : s.length + 1 ≤ n) : toArray n s = .ok (cstr s) := by
  unfold toArray; rw [if_pos h]

/-! ## The payload -/

theorem hdr_eq : hdrText = bytesOf "hmac_cookie" := rfl

/-- What `checkPayload` does with a payload of six fields. -/
theorem checkPayload_fields (sign : List Nat → Option (List Nat)) (now : Int) (nonce user auth t s rest : List Nat)
    (hu : user.length < 256) (ha : auth.length < 256) (ht : t.length < 256) :
    checkPayload sign now (message nonce user auth t ++ field s ++ rest) =
      if (now > 0 ∧ (strtoull (cstr t) : Int) > now) ∧ sign (message nonce user auth t) = some s
      then .ok (some (cstr user, cstr auth)) else .ok none := by
  have a1 := advpart_field [] hdrText (field nonce ++ field user ++ field auth ++ field t ++ field s ++ rest)
  have a2 := advpart_field (field hdrText) nonce (field user ++ field auth ++ field t ++ field s ++ rest)
  have a3 := advpart_field (field hdrText ++ field nonce) user (field auth ++ field t ++ field s ++ rest)
  have a4 := advpart_field (field hdrText ++ field nonce ++ field user) auth (field t ++ field s ++ rest)
  have a5 := advpart_field (field hdrText ++ field nonce ++ field user ++ field auth) t (field s ++ rest)
  have a6 := advpart_field (field hdrText ++ field nonce ++ field user ++ field auth ++ field t) s rest
  have em : message nonce user auth t = field hdrText ++ field nonce ++ field user ++ field auth ++ field t := rfl
  rw [em]
  simp only [List.nil_append, List.length_nil, ← List.append_assoc] at a1 a2 a3 a4 a5 a6
  unfold checkPayload
  simp only [a1, a2, a3, a4, a5, a6, ne_eq, not_true_eq_false, if_false]
  rw [toArray_ok (by omega), toArray_ok (by omega), toArray_ok (by omega)]
  simp only [Out.ok_bind]
  have etk : List.take (field hdrText ++ field nonce ++ field user ++ field auth ++ field t).length
      (field hdrText ++ field nonce ++ field user ++ field auth ++ field t ++ field s ++ rest)
      = field hdrText ++ field nonce ++ field user ++ field auth ++ field t := by
    rw [List.append_assoc (_ ++ field t)]; exact List.take_left' rfl
  rw [etk]
  generalize field hdrText ++ field nonce ++ field user ++ field auth ++ field t = m
  by_cases hn : now > 0 ∧ (strtoull (cstr t) : Int) > now
  · rw [if_pos hn]
    cases hs : sign m with
    | none => simp
    | some w =>
      by_cases hw : w = s
      · simp [hw, hn]
      · simp [hw]
  · rw [if_neg hn, if_neg (fun h => hn h.1)]

/-- A payload that is not six fields (with the right first one) is refused. -/
theorem checkPayload_inv (sign : List Nat → Option (List Nat)) (now : Int) (p : List Nat) (hp : IsBytes p) :
    checkPayload sign now p = .ok none ∨
    ∃ nonce user auth t s rest, p = message nonce user auth t ++ field s ++ rest ∧
      user.length < 256 ∧ auth.length < 256 ∧ t.length < 256 := by
  unfold checkPayload
  cases e1 : advpart p 0 with
  | none => exact .inl rfl
  | some x1 =>
    obtain ⟨h, r1⟩ := x1
    obtain ⟨p1, rfl, rfl⟩ := advpart_inv (pre := []) (tail := p) e1
    simp only [List.nil_append]
    by_cases hh : h = hdrText
    · subst hh
      simp only [ne_eq, not_true_eq_false, if_false]
      cases e2 : advpart (field hdrText ++ p1) (field hdrText).length with
      | none => exact .inl rfl
      | some x2 =>
        obtain ⟨nonce, r2⟩ := x2
        obtain ⟨p2, rfl, rfl⟩ := advpart_inv e2
        rw [← List.append_assoc] at hp ⊢
        simp only
        cases e3 : advpart (field hdrText ++ field nonce ++ p2) (field hdrText ++ field nonce).length with
        | none => exact .inl rfl
        | some x3 =>
          obtain ⟨user, r3⟩ := x3
          obtain ⟨p3, rfl, rfl⟩ := advpart_inv e3
          rw [← List.append_assoc] at hp ⊢
          have hu := field_lt hp
          simp only
          rw [toArray_ok (by omega)]
          simp only [Out.ok_bind]
          cases e4 : advpart (field hdrText ++ field nonce ++ field user ++ p3) (field hdrText ++ field nonce ++ field user).length with
          | none => exact .inl rfl
          | some x4 =>
            obtain ⟨auth, r4⟩ := x4
            obtain ⟨p4, rfl, rfl⟩ := advpart_inv e4
            rw [← List.append_assoc] at hp ⊢
            have ha := field_lt hp
            simp only
            rw [toArray_ok (by omega)]
            simp only [Out.ok_bind]
            cases e5 : advpart (field hdrText ++ field nonce ++ field user ++ field auth ++ p4)
                (field hdrText ++ field nonce ++ field user ++ field auth).length with
            | none => exact .inl rfl
            | some x5 =>
              obtain ⟨t, r5⟩ := x5
              obtain ⟨p5, rfl, rfl⟩ := advpart_inv e5
              rw [← List.append_assoc] at hp ⊢
              have ht := field_lt hp
              simp only
              rw [toArray_ok (by omega)]
              simp only [Out.ok_bind]
              by_cases hn : now > 0 ∧ (strtoull (cstr t) : Int) > now
              · rw [if_pos hn]
                cases e6 : advpart (field hdrText ++ field nonce ++ field user ++ field auth ++ field t ++ p5)
                  (field hdrText ++ field nonce ++ field user ++ field auth ++ field t).length with
                | none => exact .inl rfl
                | some x6 =>
                  obtain ⟨s, r6⟩ := x6
                  obtain ⟨p6, rfl, rfl⟩ := advpart_inv e6
                  exact .inr ⟨nonce, user, auth, t, s, p6, by rw [← List.append_assoc]; rfl, hu, ha, ht⟩
              · rw [if_neg hn]; exact .inl rfl
    · left; simp [hh]

/-! ## Cookies of a header -/

theorem tokens_last {w : List Nat} (cur : List Nat) (hw : ∀ c ∈ w, ¬ Sep c) :
    tokens w cur = if cur ++ w = [] then [] else [cur ++ w] := by
  induction w generalizing cur with
  | nil => simp [tokens]
  | cons x t ih =>
    rw [tokens, if_neg (show ¬ (x = 32 ∨ x = 59) from hw x (by simp)), ih _ (fun c hc => hw c (by simp [hc]))]
    simp

theorem tokens_word {w : List Nat} (cur : List Nat) (s : Nat) (r : List Nat) (hw : ∀ c ∈ w, ¬ Sep c) (hs : Sep s) :
    tokens (w ++ s :: r) cur = if cur ++ w = [] then tokens r [] else (cur ++ w) :: tokens r [] := by
  induction w generalizing cur with
  | nil => simp only [List.nil_append, List.append_nil]; rw [tokens, if_pos (show s = 32 ∨ s = 59 from hs)]
  | cons x t ih =>
    rw [List.cons_append, tokens, if_neg (show ¬ (x = 32 ∨ x = 59) from hw x (by simp)), ih _ (fun c hc => hw c (by simp [hc]))]
    simp

theorem checkTokens_nil_cons (sign : List Nat → Option (List Nat)) (now : Int) (w : List Nat) (ts : List (List Nat)) :
    checkTokens sign now (if w = [] then ts else w :: ts) =
      if w.take 9 = nameText then checkValue sign now (w.drop 9) else checkTokens sign now ts := by
  by_cases h : w = []
  · subst h; simp [nameText, bytesOf]
  · rw [if_neg h, checkTokens]

/-- A text is a word, or a word, a separator and a text. -/
theorem split_word (h : List Nat) : (∀ c ∈ h, ¬ Sep c) ∨
    ∃ w s r, h = w ++ s :: r ∧ (∀ c ∈ w, ¬ Sep c) ∧ Sep s := by
  induction h with
  | nil => left; simp
  | cons x t ih =>
    by_cases hx : Sep x
    · exact .inr ⟨[], x, t, rfl, by simp, hx⟩
    · rcases ih with h | ⟨w, s, r, rfl, hw, hs⟩
      · left; intro c hc; rcases List.mem_cons.mp hc with rfl | hc
        · exact hx
        · exact h c hc
      · refine .inr ⟨x :: w, s, r, rfl, ?_, hs⟩
        intro c hc; rcases List.mem_cons.mp hc with rfl | hc
        · exact hx
        · exact hw c hc

theorem name_len : nameText.length = 9 := by decide
theorem name_eq : nameText = bytesOf "mtevauth=" := rfl
theorem name_word : ∀ c ∈ nameText, ¬ Sep c := by decide

theorem take9 {w : List Nat} (h : w.take 9 = nameText) : w = nameText ++ w.drop 9 := by
  rw [← h]; simp

/-- Words before the first separator are determined. -/
theorem word_unique {w w' : List Nat} {s s' : Nat} {r r' : List Nat} (hw : ∀ c ∈ w, ¬ Sep c) (hw' : ∀ c ∈ w', ¬ Sep c)
    (hs : Sep s) (hs' : Sep s') (h : w ++ s :: r = w' ++ s' :: r') : w = w' ∧ s = s' ∧ r = r' := by
  induction w generalizing w' with
  | nil =>
    cases w' with
    | nil => simpa using h
    | cons a b => simp at h; exact absurd (h.1 ▸ hs) (hw' a (by simp))
  | cons x t ih =>
    cases w' with
    | nil => simp at h; exact absurd (h.1 ▸ hs') (hw x (by simp))
    | cons a b =>
      simp only [List.cons_append, List.cons.injEq] at h
      obtain ⟨h1, h2, h3⟩ := ih (fun c hc => hw c (by simp [hc])) (fun c hc => hw' c (by simp [hc])) h.2
      exact ⟨by rw [h.1, h1], h2, h3⟩

theorem Boundary.word {w : List Nat} (hw : ∀ c ∈ w, ¬ Sep c) (h : Boundary w) : w = [] := by
  rcases h with h | ⟨q, c, rfl, hc⟩
  · exact h
  · exact absurd hc (hw c (by simp))

/-- A boundary that is not the start lies after the first separator. -/
theorem Boundary.tail {pre : List Nat} (h : Boundary pre) (hne : pre ≠ []) :
    ∃ w s r, pre = w ++ s :: r ∧ (∀ c ∈ w, ¬ Sep c) ∧ Sep s ∧ Boundary r := by
  rcases split_word pre with hw | ⟨w, s, r, rfl, hw, hs⟩
  · exact absurd (h.word hw) hne
  · refine ⟨w, s, r, rfl, hw, hs, ?_⟩
    rcases h with h | ⟨q, c, h, hc⟩
    · simp at h
    · rcases List.eq_nil_or_concat r with rfl | ⟨r', d, hr⟩
      · exact .inl rfl
      · right
        rw [List.concat_eq_append] at hr
        subst hr
        refine ⟨r', d, rfl, ?_⟩
        have h' : (w ++ s :: r') ++ [d] = q ++ [c] := by rw [← h]; simp
        have := List.append_inj_right' h' rfl
        simp at this; exact this ▸ hc

theorem Boundary.cons {w : List Nat} {s : Nat} {r : List Nat} (hs : Sep s) (h : Boundary r) : Boundary (w ++ s :: r) := by
  rcases h with rfl | ⟨q, c, rfl, hc⟩
  · exact .inr ⟨w, s, rfl, hs⟩
  · exact .inr ⟨w ++ s :: q, c, by simp, hc⟩

theorem checkTokens_first (sign : List Nat → Option (List Nat)) (now : Int) (n : Nat) :
    ∀ {h v : List Nat}, h.length ≤ n → FirstCookie h v → checkTokens sign now (tokens h []) = checkValue sign now v := by
  induction n with
  | zero =>
    intro h v hl ⟨pre, post, e, _⟩
    have := congrArg List.length e
    rw [← name_eq] at this
    simp [name_len] at this; omega
  | succ n ih =>
    intro h v hl ⟨pre, post, e, hb, hv, hp, hn⟩
    rw [← name_eq] at e hn
    have hnv : ∀ c ∈ nameText ++ v, ¬ Sep c := by
      intro c hc; rcases List.mem_append.mp hc with hc | hc
      · exact name_word c hc
      · exact hv c hc
    by_cases hpre : pre = []
    · subst hpre
      simp only [List.nil_append] at e
      have hf : (nameText ++ v).take 9 = nameText := List.take_left' name_len
      have hd : (nameText ++ v).drop 9 = v := List.drop_left' name_len
      rcases hp with rfl | ⟨c, r, rfl, hc⟩
      · rw [List.append_nil] at e
        rw [e, tokens_last _ hnv, List.nil_append, checkTokens_nil_cons, if_pos hf, hd]
      · rw [e, tokens_word _ _ _ hnv hc, List.nil_append, checkTokens_nil_cons, if_pos hf, hd]
    · obtain ⟨w, s, r, rfl, hw, hs, hbr⟩ := hb.tail hpre
      have e' : h = w ++ s :: (r ++ nameText ++ v ++ post) := by rw [e]; simp
      rw [e', tokens_word _ _ _ hw hs, List.nil_append, checkTokens_nil_cons, if_neg]
      · apply ih
        · have := congrArg List.length e'; simp at this; simp; omega
        · refine ⟨r, post, rfl, hbr, hv, hp, ?_⟩
          intro p q hpq hbp
          rw [← name_eq] at hpq
          exact hn (w ++ s :: p) q (by rw [hpq]; simp) (hbp.cons hs)
      · intro ht
        refine hn [] (w.drop 9 ++ s :: r) ?_ (.inl rfl)
        rw [List.nil_append, ← List.append_assoc, ← take9 ht]

theorem checkTokens_inv (sign : List Nat → Option (List Nat)) (now : Int) (n : Nat) :
    ∀ {h : List Nat}, h.length ≤ n → checkTokens sign now (tokens h []) = .ok none ∨ ∃ v, FirstCookie h v := by
  induction n with
  | zero =>
    intro h hl
    have : h = [] := List.length_eq_zero_iff.mp (by omega)
    subst this; left; simp [tokens, checkTokens]
  | succ n ih =>
    intro h hl
    rcases split_word h with hw | ⟨w, s, r, rfl, hw, hs⟩
    · rw [tokens_last _ hw, List.nil_append, checkTokens_nil_cons]
      split
      · rename_i ht
        right
        refine ⟨h.drop 9, [], [], ?_, .inl rfl, fun c hc => hw c (List.mem_of_mem_drop hc), .inl rfl, ?_⟩
        · rw [← name_eq]; simpa using take9 ht
        · intro p q hpq
          have := congrArg List.length hpq
          rw [← name_eq] at this; simp [name_len] at this; omega
      · left; rfl
    · rw [tokens_word _ _ _ hw hs, List.nil_append, checkTokens_nil_cons]
      split
      · rename_i ht
        right
        refine ⟨w.drop 9, [], s :: r, ?_, .inl rfl, fun c hc => hw c (List.mem_of_mem_drop hc), .inr ⟨s, r, rfl, hs⟩, ?_⟩
        · rw [← name_eq, List.nil_append, ← take9 ht]
        · intro p q hpq
          have := congrArg List.length hpq
          rw [← name_eq] at this; simp [name_len] at this; omega
      · rename_i ht
        rcases ih (h := r) (by simp at hl; omega) with h0 | ⟨v, pre, post, e, hb, hv, hp, hn⟩
        · exact .inl h0
        · right
          refine ⟨v, w ++ s :: pre, post, by rw [e]; simp, hb.cons hs, hv, hp, ?_⟩
          intro p q hpq hbp
          rw [← name_eq] at hpq hn
          by_cases hpe : p = []
          · subst hpe
            apply ht
            simp only [List.nil_append] at hpq
            rcases split_word q with hq | ⟨w', s', r', rfl, hw', hs'⟩
            · exfalso
              have hs2 : s ∈ nameText ++ q := by rw [← hpq]; simp
              rcases List.mem_append.mp hs2 with h1 | h1
              · exact name_word s h1 hs
              · exact hq s h1 hs
            · rw [← List.append_assoc] at hpq
              have := (word_unique hw (fun c hc => by
                rcases List.mem_append.mp hc with hc | hc
                · exact name_word c hc
                · exact hw' c hc) hs hs' hpq).1
              rw [this]; exact List.take_left' name_len
          · obtain ⟨w2, s2, r2, rfl, hw2, hs2, hb2⟩ := hbp.tail hpe
            have hpq' : w ++ s :: pre = w2 ++ s2 :: (r2 ++ nameText ++ q) := by rw [hpq]; simp
            obtain ⟨_, _, h3⟩ := word_unique hw hw2 hs hs2 hpq'
            exact hn r2 q h3 hb2

/-! ## Numbers -/

theorem dec_digit (n : Nat) : ∀ c ∈ dec n, 48 ≤ c ∧ c ≤ 57 := by
  induction n using dec.induct with
  | case1 n h => rw [dec, if_pos h]; intro c hc; simp at hc; omega
  | case2 n h ih =>
    rw [dec, if_neg h]
    intro c hc
    rcases List.mem_append.mp hc with hc | hc
    · exact ih c hc
    · simp at hc; omega

theorem digitsVal_append {a b : List Nat} (h : ∀ c ∈ a, 48 ≤ c ∧ c ≤ 57) (k : Nat) :
    digitsVal (a ++ b) k = digitsVal b (digitsVal a k) := by
  induction a generalizing k with
  | nil => rfl
  | cons x t ih =>
    have hx := h x (by simp)
    simp only [List.cons_append, digitsVal, hx, and_self, if_true]
    exact ih (fun c hc => h c (by simp [hc])) _

theorem digitsVal_dec (n : Nat) : digitsVal (dec n) 0 = n := by
  induction n using dec.induct with
  | case1 n h =>
    rw [dec, if_pos h]
    simp only [digitsVal]
    rw [if_pos (by omega)]; omega
  | case2 n h ih =>
    rw [dec, if_neg h, digitsVal_append (dec_digit _), ih]
    simp only [digitsVal]
    rw [if_pos (by omega)]; omega

theorem dec_ne (n : Nat) : dec n ≠ [] := by rw [dec]; split <;> simp

theorem strtoull_dec {n : Nat} (h : n < 2 ^ 64) : strtoull (dec n) = n := by
  have hd := dec_digit n
  have hv := digitsVal_dec n
  cases e : dec n with
  | nil => exact absurd e (dec_ne n)
  | cons c r =>
    have hc := hd c (by rw [e]; simp)
    unfold strtoull
    have e1 : (c :: r).dropWhile (fun c => c = 32 || (9 ≤ c && c ≤ 13)) = c :: r := by
      rw [List.dropWhile_cons_of_neg]
      simp; omega
    rw [e1]
    split
    · rename_i h1; simp at h1; omega
    · rename_i h1; simp at h1; omega
    · rename_i h1 _ _; rw [← e, hv]; omega

theorem cstr_dec (n : Nat) : cstr (dec n) = dec n :=
  cstr_eq (fun h => by have := dec_digit n 0 h; omega)

theorem dec_length {n : Nat} (k : Nat) (h : n < 10 ^ (k + 1)) : (dec n).length ≤ k + 1 := by
  induction k generalizing n with
  | zero => rw [dec, if_pos (by omega)]; simp
  | succ k ih =>
    rw [dec]
    split
    · simp
    · have : n / 10 < 10 ^ (k + 1) := by
        rw [Nat.div_lt_iff_lt_mul (by omega)]; rw [pow_succ] at h; omega
      have := ih this
      simp; omega

theorem dec_isBytes (n : Nat) : IsBytes (dec n) := fun c hc => by have := dec_digit n c hc; omega

/-- `%zu` prints the decimal representation. -/
theorem dec_eq (n : Nat) : dec n = bytesOf (toString n) := by
  have hd : ∀ k, k < 10 → (Nat.digitChar k).toNat = 48 + k := by
    intro k hk
    have : ∀ x : Fin 10, (Nat.digitChar x.val).toNat = 48 + x.val := by decide
    exact this ⟨k, hk⟩
  have key : ∀ n, dec n = (Nat.toDigits 10 n).map Char.toNat := by
    intro n
    induction n using dec.induct with
    | case1 n h => rw [dec, if_pos h, Nat.toDigits_of_lt_base h]; simp [hd n h]
    | case2 n h ih =>
      rw [dec, if_neg h, Nat.toDigits_of_base_le (by omega) (by omega), ih]
      simp [hd (n % 10) (by omega)]
  rw [key]
  show _ = ((Nat.repr n).toList).map Char.toNat
  rw [Nat.toList_repr]

/-! ## Issuing: everything stays in the static part of the buffer -/

/-- The buffer holds `d` in its static part. -/
structure Stat (b : DynBuffer.Buf) (d : List Nat) : Prop where
  heap : b.heap = none
  len : b.stat.length = 4096
  size : b.size = 4096
  pos : b.pos = d.length
  data : b.stat.take b.pos = d
  fits : d.length ≤ 4096

theorem Stat.cur {b : DynBuffer.Buf} {d : List Nat} (h : Stat b d) : b.cur = b.stat := by
  simp [DynBuffer.Buf.cur, h.heap]

theorem ensure_stat (junk : Nat → Nat) {b : DynBuffer.Buf} {d : List Nat} (h : Stat b d) {n : Nat} (hn : d.length + n ≤ 4096) :
    DynBuffer.ensure junk b n = .ok b := by
  unfold DynBuffer.ensure
  rw [h.pos, h.size]
  simp only
  rw [if_neg (by omega)]

theorem add_stat (junk : Nat → Nat) {b : DynBuffer.Buf} {d : List Nat} (h : Stat b d) {x : List Nat}
    (hn : d.length + x.length ≤ 4096) : ∃ b', DynBuffer.add junk b x = .ok b' ∧ Stat b' (d ++ x) := by
  unfold DynBuffer.add
  rw [ensure_stat junk h hn]
  simp only [Out.ok_bind]
  have hp := h.pos
  have hl := h.len
  obtain ⟨c, hc, -⟩ : ∃ c, b.cur.write b.pos x = .ok c ∧ True := by
    rw [h.cur]; exact ⟨_, Block.write_ok (by omega), trivial⟩
  rw [hc]
  simp only [Out.ok_bind]
  refine ⟨_, rfl, ?_⟩
  rw [h.cur] at hc
  have e : b.setCur c = { b with stat := c } := by unfold DynBuffer.Buf.setCur; rw [h.heap]
  rw [e]
  have ht := Block.write_take hc
  rw [h.data] at ht
  exact ⟨h.heap, by simp only; rw [Block.write_length hc]; exact hl, h.size, by simp [hp], ht, by simpa using hn⟩

/-- What is stored of a string: its length is kept in one byte. -/
def stored (s : List Nat) : List Nat := s.take (s.length % 256)

theorem stored_length (s : List Nat) : (stored s).length = s.length % 256 := by
  have := Nat.mod_le s.length 256
  simp [stored]; omega

theorem stored_short {s : List Nat} (h : s.length < 256) : stored s = s := by
  simp [stored, Nat.mod_eq_of_lt h]

theorem addPart_stat (junk : Nat → Nat) {b : DynBuffer.Buf} {d : List Nat} (h : Stat b d) (s : List Nat)
    (hn : d.length + 1 + (stored s).length ≤ 4096) :
    ∃ b', addPart junk b s = .ok b' ∧ Stat b' (d ++ field (stored s)) := by
  unfold addPart
  obtain ⟨b1, e1, h1⟩ := add_stat junk h (x := [s.length % 256]) (by simp; omega)
  rw [e1]
  simp only [Out.ok_bind]
  obtain ⟨b2, e2, h2⟩ := add_stat junk h1 (x := stored s) (by simp; omega)
  refine ⟨b2, e2, ?_⟩
  have : d ++ field (stored s) = d ++ [s.length % 256] ++ stored s := by simp [field, stored_length]
  rw [this]; exact h2

theorem write_at {b : Block} {o : Nat} {x : List Nat} (h : o + x.length ≤ b.length) :
    b.write o x = .ok (b.take o ++ x ++ b.drop (o + x.length)) := Block.write_ok h

theorem addSignature_stat (junk : Nat → Nat) (sign : List Nat → Option (List Nat)) {b : DynBuffer.Buf} {d : List Nat}
    (h : Stat b d) (hn : d.length + 257 ≤ 4096) :
    (sign d = none → addSignature junk sign b = .ok none) ∧
    ∀ s, sign d = some s → s.length < 256 →
      ∃ b', addSignature junk sign b = .ok (some b') ∧ Stat b' (d ++ field s) := by
  unfold addSignature
  obtain ⟨b1, e1, h1⟩ := add_stat junk h (x := [0]) (by simp; omega)
  have hen := ensure_stat junk h1 (n := 256) (by simp; omega)
  have hsd : b1.cur.take b.pos = d := by
    have := h1.data
    rw [h1.cur, h.pos]
    have e : List.take d.length (b1.stat.take b1.pos) = List.take d.length (d ++ [0]) := by rw [this]
    rw [List.take_take] at e
    have h1p := h1.pos
    simp only [List.length_append, List.length_singleton] at h1p
    rw [h1p, Nat.min_eq_left (by omega)] at e
    rw [e]; simp
  simp only [e1, Out.ok_bind, hen, hsd]
  have hbp := h.pos
  have h1p : b1.pos = d.length + 1 := by simpa using h1.pos
  have hwp : (writePointer b).inHeap = false ∧ (writePointer b).off = d.length := by
    simp [writePointer, h.heap, hbp]
  constructor
  · intro hs; rw [hs]
  · intro s hs hl
    rw [hs]
    simp only
    rw [if_neg (by omega)]
    have hlen := h1.len
    have hw : b1.cur.write b1.pos s = .ok (b1.stat.take b1.pos ++ s ++ b1.stat.drop (b1.pos + s.length)) := by
      rw [h1.cur]; exact Block.write_ok (by omega)
    have hd1 := h1.data
    rw [hw, hd1]
    simp only [Out.ok_bind]
    have e : b1.setCur (d ++ [0] ++ s ++ b1.stat.drop (b1.pos + s.length)) =
        { b1 with stat := d ++ [0] ++ s ++ b1.stat.drop (b1.pos + s.length) } := by
      unfold DynBuffer.Buf.setCur; rw [h1.heap]
    rw [e]
    unfold poke
    rw [hwp.1, hwp.2]
    simp only [Bool.false_eq_true, if_false]
    have hw2 : Block.write (d ++ [0] ++ s ++ b1.stat.drop (b1.pos + s.length)) d.length [s.length % 256] =
        .ok (d ++ field s ++ b1.stat.drop (b1.pos + s.length)) := by
      rw [Block.write_ok (by simp)]
      congr 1
      have ea : d ++ [0] ++ s ++ b1.stat.drop (b1.pos + s.length) = d ++ ([0] ++ (s ++ b1.stat.drop (b1.pos + s.length))) := by simp
      rw [ea]
      have eb : (d ++ ([0] ++ (s ++ b1.stat.drop (b1.pos + s.length)))).drop (d.length + 1) = s ++ b1.stat.drop (b1.pos + s.length) := by
        rw [← List.append_assoc]; exact List.drop_left' (by simp)
      simp only [List.length_singleton]
      rw [eb]
      simp [field, Nat.mod_eq_of_lt hl]
    rw [hw2]
    simp only [Out.ok_bind]
    refine ⟨_, rfl, h1.heap, ?_, h1.size, ?_, ?_, ?_⟩
    · simp [field, h1p]; omega
    · simp [field, h1p]; omega
    · simp only
      exact List.take_left' (by simp [field, h1p]; omega)
    · simp [field]; omega

theorem encodeByte_pos_chars {b : Nat} (hb : b < 256) : ∀ c ∈ encodeByte b, c ≠ 0 ∧ c < 256 ∧ ¬ Sep c := by
  have : ∀ x : Fin 256, ∀ c ∈ encodeByte x.val, c ≠ 0 ∧ c < 256 ∧ ¬ Sep c := by decide +kernel
  exact this ⟨b, hb⟩

theorem encodeText_chars {d : List Nat} (hd : IsBytes d) : ∀ c ∈ encodeText d, c ≠ 0 ∧ c < 256 ∧ ¬ Sep c := by
  induction d with
  | nil => simp [encodeText]
  | cons b t ih =>
    rw [isBytes_cons] at hd
    intro c hc
    rw [encodeText] at hc
    rcases List.mem_append.mp hc with hc | hc
    · exact encodeByte_pos_chars hd.1 c hc
    · exact ih hd.2 c hc

theorem cstr_stop {s t : List Nat} (h : 0 ∉ s) : cstr (s ++ 0 :: t) = s := by
  unfold cstr
  induction s with
  | nil => simp
  | cons x r ih =>
    simp only [List.mem_cons, not_or] at h
    rw [List.cons_append, List.takeWhile_cons_of_pos (by simpa using Ne.symm h.1), ih h.2]

theorem encodeText_ne {d : List Nat} (h : d ≠ []) : (encodeText d).length ≠ 0 := by
  cases d with
  | nil => exact absurd rfl h
  | cons b t =>
    have := Url.encodeByte_length_pos b
    rw [encodeText, List.length_append]; omega

theorem encodeCookie_stat (junk : Nat → Nat) {b : DynBuffer.Buf} {d : List Nat} (h : Stat b d) (hb : IsBytes d)
    (hne : d ≠ []) (hn : d.length + (d.length * 3 + 1) ≤ 4096) :
    encodeCookie junk b = .ok (some (encodeText d)) := by
  unfold encodeCookie
  have hp := h.pos
  have hl := h.len
  rw [hp, ensure_stat junk h (by unfold Url.encodeLen; omega)]
  simp only [Out.ok_bind]
  have hdat := h.data
  rw [hp] at hdat
  rw [h.cur, hp]
  obtain ⟨m, e, ht, hm⟩ := Url.C02_url_encode_in_place b.stat 0 d.length (by omega) (by unfold Url.encodeLen; omega)
  have hs : List.take d.length (List.drop 0 b.stat) = d := by simpa using hdat
  rw [hs] at e ht
  have hen : Url.encode d b.stat.length = ⟨(encodeText d).length, encodeText d ++ [0]⟩ := by
    unfold Url.encode; rw [if_neg (by omega)]
  rw [hen] at e ht
  rw [e]
  have hpos := encodeText_ne hne
  simp only at ht ⊢
  generalize hk : (encodeText d).length = k at *
  cases k with
  | zero => exact absurd rfl hpos
  | succ k =>
    show Out.ok (some (cstr m)) = _
    congr 2
    have : m = encodeText d ++ 0 :: m.drop (k + 1 + 1) := by
      conv_lhs => rw [← List.take_append_drop (k + 1 + 1) m]
      rw [ht]; simp
    rw [this]
    exact cstr_stop (fun h0 => (encodeText_chars hb 0 h0).1 rfl)

/-- The text that is signed. -/
def signedText (e : Env) (user auth : List Nat) : List Nat :=
  message e.nonce (stored user) (stored auth) (dec (e.now + e.maxAge))

/-- The value of the cookie. -/
def cookieValue (e : Env) (user auth s : List Nat) : List Nat := encodeText (signedText e user auth ++ field s)

theorem isBytes_field {s : List Nat} (h : IsBytes s) (hl : s.length < 256) : IsBytes (field s) := by
  intro x hx
  rcases List.mem_cons.mp hx with rfl | hx
  · exact hl
  · exact h x hx

theorem isBytes_app {s t : List Nat} (h : IsBytes s) (h' : IsBytes t) : IsBytes (s ++ t) := isBytes_append.mpr ⟨h, h'⟩

theorem stored_isBytes {s : List Nat} (h : IsBytes s) : IsBytes (stored s) := fun x hx => h x (List.mem_of_mem_take hx)

theorem stored_lt (s : List Nat) : (stored s).length < 256 := by rw [stored_length]; exact Nat.mod_lt _ (by omega)

theorem signedText_isBytes {e : Env} {user auth : List Nat} (hnb : IsBytes e.nonce) (hn8 : e.nonce.length = 8)
    (hu : IsBytes user) (ha : IsBytes auth) (ht : e.now + e.maxAge < 2 ^ 64) : IsBytes (signedText e user auth) := by
  have hd : (dec (e.now + e.maxAge)).length ≤ 20 := dec_length 19 (by omega)
  refine isBytes_app (isBytes_app (isBytes_app (isBytes_app ?_ ?_) ?_) ?_) ?_
  · decide
  · exact isBytes_field hnb (by omega)
  · exact isBytes_field (stored_isBytes hu) (stored_lt _)
  · exact isBytes_field (stored_isBytes ha) (stored_lt _)
  · exact isBytes_field (dec_isBytes _) (by omega)

theorem issue_eq (junk : Nat → Nat) (sign : List Nat → Option (List Nat)) (b0 : DynBuffer.Buf) (hb0 : b0.stat.length = 4096)
    (e : Env) (user auth : List Nat) (hn8 : e.nonce.length = 8) (hnb : IsBytes e.nonce) (hu : IsBytes user) (ha : IsBytes auth)
    (ht : e.now + e.maxAge < 2 ^ 64) :
    (sign (signedText e user auth) = none → issue junk sign b0 e user auth = .ok none) ∧
    ∀ s, sign (signedText e user auth) = some s → s.length < 256 → IsBytes s →
      issue junk sign b0 e user auth = .ok (some (nameText ++ cookieValue e user auth s ++ bytesOf "; Max-Age=" ++
        dec e.maxAge ++ domainAttr e.domain e.host)) := by
  have hd : (dec (e.now + e.maxAge)).length ≤ 20 := dec_length 19 (by omega)
  have hL : (field hdrText).length = 12 := by decide
  have hsh : stored hdrText = hdrText := stored_short (by decide)
  have hsn : stored e.nonce = e.nonce := stored_short (by omega)
  have hst : stored (dec (e.now + e.maxAge)) = dec (e.now + e.maxAge) := stored_short (by omega)
  have hul := stored_lt user
  have hal := stored_lt auth
  have h0 : Stat (DynBuffer.init b0) [] := ⟨rfl, hb0, rfl, rfl, by simp [DynBuffer.init], by simp⟩
  have lf : ∀ s : List Nat, (field s).length = s.length + 1 := fun s => by simp [field]
  obtain ⟨b1, e1, h1⟩ := addPart_stat junk h0 hdrText (by rw [hsh]; decide)
  obtain ⟨b2, e2, h2⟩ := addPart_stat junk h1 e.nonce (by rw [hsh, hsn]; simp only [List.length_append, List.length_nil, hL]; omega)
  obtain ⟨b3, e3, h3⟩ := addPart_stat junk h2 user (by
    rw [hsh, hsn]; simp only [List.length_append, List.length_nil, hL, lf e.nonce]; omega)
  obtain ⟨b4, e4, h4⟩ := addPart_stat junk h3 auth (by
    rw [hsh, hsn]; simp only [List.length_append, List.length_nil, hL, lf e.nonce, lf (stored user)]; omega)
  obtain ⟨b5, e5, h5⟩ := addPart_stat junk h4 (dec (e.now + e.maxAge)) (by
    rw [hsh, hsn, hst]; simp only [List.length_append, List.length_nil, hL, lf e.nonce, lf (stored user), lf (stored auth)]; omega)
  rw [hsh, hsn, hst, List.nil_append] at h5
  have hlen5 : (signedText e user auth).length + 257 ≤ 4096 ∧ (signedText e user auth).length ≤ 554 := by
    simp only [signedText, message, List.length_append, lf, show (bytesOf "hmac_cookie").length = 11 by decide]; omega
  have h5' : Stat b5 (signedText e user auth) := h5
  obtain ⟨n0, n1⟩ := addSignature_stat junk sign h5' hlen5.1
  unfold issue
  simp only [e1, e2, e3, e4, e5, Out.ok_bind]
  constructor
  · intro hs; rw [n0 hs]; rfl
  · intro s hs hsl hsb
    obtain ⟨b6, e6, h6⟩ := n1 s hs hsl
    rw [e6]
    simp only [Out.ok_bind]
    have hbytes : IsBytes (signedText e user auth ++ field s) :=
      isBytes_app (signedText_isBytes hnb hn8 hu ha ht) (isBytes_field hsb hsl)
    have := encodeCookie_stat junk h6 hbytes (by simp [field]) (by
      simp only [List.length_append, lf]; omega)
    rw [this]
    rfl

/-! ## The whole check -/

theorem decode_denotes {v p : List Nat} (hv : IsBytes v) (h : Denotes v p) (sign : List Nat → Option (List Nat)) (now : Int) :
    checkValue sign now v = checkPayload sign now p := by
  unfold checkValue
  rw [(Url.C01_url_decode_exact v hv _ (Nat.le_refl _)).1 p h]
  simp

theorem checkPayload_nil (sign : List Nat → Option (List Nat)) (now : Int) : checkPayload sign now [] = .ok none := by
  simp [checkPayload, advpart]

theorem decode_not {v : List Nat} (hv : IsBytes v) (h : ¬ ∃ p, Denotes v p) (sign : List Nat → Option (List Nat)) (now : Int) :
    checkValue sign now v = .ok none := by
  unfold checkValue
  simp only
  rw [(Url.C01_url_decode_exact v hv _ (Nat.le_refl _)).2 h]
  simp [checkPayload_nil]

theorem hexDigit_lt {a x : Nat} (h : Url.hexDigit a = some x) : x < 16 := by
  unfold Url.hexDigit at h
  split at h
  · simp at h; omega
  split at h
  · simp at h; omega
  split at h
  · simp at h; omega
  · simp at h

theorem denotes_isBytes {v p : List Nat} (hv : IsBytes v) (h : Denotes v p) : IsBytes p := by
  induction h with
  | nil => exact hv
  | plain h1 _ ih => rw [isBytes_cons] at hv ⊢; exact ⟨hv.1, ih hv.2⟩
  | esc h1 h2 _ ih =>
    rw [isBytes_cons, isBytes_cons, isBytes_cons] at hv
    rw [isBytes_cons]
    have := hexDigit_lt h1
    have := hexDigit_lt h2
    exact ⟨by omega, ih hv.2.2.2⟩

theorem first_isBytes {h v : List Nat} (hh : IsBytes h) (hf : FirstCookie h v) : IsBytes v := by
  obtain ⟨pre, post, rfl, -⟩ := hf
  intro x hx; exact hh x (by simp [hx])

theorem field_inj {s s' r r' : List Nat} (h : field s ++ r = field s' ++ r') : s = s' ∧ r = r' := by
  unfold field at h
  simp only [List.cons_append, List.cons.injEq] at h
  exact List.append_inj h.2 h.1

theorem message_inj {n u a t n' u' a' t' : List Nat} (h : message n u a t = message n' u' a' t') :
    n = n' ∧ u = u' ∧ a = a' ∧ t = t' := by
  unfold message at h
  simp only [List.append_assoc] at h
  obtain ⟨-, h⟩ := field_inj h
  obtain ⟨h1, h⟩ := field_inj h
  obtain ⟨h2, h⟩ := field_inj h
  obtain ⟨h3, h⟩ := field_inj h
  have h4 := field_inj (r := []) (r' := []) (by simpa using h)
  exact ⟨h1, h2, h3, h4.1⟩

/-! ## Theorems -/

/-- **C76.** Which requests are authenticated, and as whom: exactly those whose first `mtevauth`
cookie is the percent-encoding of six length-prefixed fields, the sixth being the signature of the
first five, the fifth (read by `strtoull`) being later than now.  The check accesses no memory out
of bounds, whatever the header. -/
theorem C76_check_exact (sign : List Nat → Option (List Nat)) (now : Int) (header : List Nat)
    (hb : IsBytes header) (h0 : 0 ∉ header) :
    (∃ r, check sign now (some header) = .ok r) ∧
    ∀ U A, check sign now (some header) = .ok (some (U, A)) ↔
      ∃ v nonce user auth t s rest, FirstCookie header v ∧
        Denotes v (message nonce user auth t ++ field s ++ rest) ∧ sign (message nonce user auth t) = some s ∧
        0 < now ∧ now < strtoull (cstr t) ∧ U = cstr user ∧ A = cstr auth := by
  have hc : check sign now (some header) = checkTokens sign now (tokens header []) := by
    rw [check, cstr_eq h0]
  rw [hc]
  rcases checkTokens_inv sign now header.length (h := header) (Nat.le_refl _) with e | ⟨v, hv⟩
  · refine ⟨⟨none, e⟩, fun U A => ⟨fun h => by rw [e] at h; simp at h, ?_⟩⟩
    rintro ⟨v, nonce, user, auth, t, s, rest, hv, hd, hs, hn1, hn2, -, -⟩
    have hbv := first_isBytes hb hv
    have hbp := denotes_isBytes hbv hd
    have e2 := checkTokens_first sign now _ (Nat.le_refl _) hv
    have hu : user.length < 256 := hbp _ (by simp [message, field])
    have ha : auth.length < 256 := hbp _ (by simp [message, field])
    have ht : t.length < 256 := hbp _ (by simp [message, field])
    rw [e, decode_denotes hbv hd, checkPayload_fields sign now _ _ _ _ _ _ hu ha ht, if_pos ⟨⟨hn1, hn2⟩, hs⟩] at e2
    simp at e2
  · have e2 := checkTokens_first sign now _ (Nat.le_refl _) hv
    have hbv := first_isBytes hb hv
    have back : ∀ U A, (∃ v nonce user auth t s rest, FirstCookie header v ∧
        Denotes v (message nonce user auth t ++ field s ++ rest) ∧ sign (message nonce user auth t) = some s ∧
        0 < now ∧ now < strtoull (cstr t) ∧ U = cstr user ∧ A = cstr auth) →
        checkTokens sign now (tokens header []) = .ok (some (U, A)) := by
      rintro U A ⟨v, nonce, user, auth, t, s, rest, hv, hd, hs, hn1, hn2, rfl, rfl⟩
      have hbv := first_isBytes hb hv
      have hbp := denotes_isBytes hbv hd
      have e2 := checkTokens_first sign now _ (Nat.le_refl _) hv
      have hu : user.length < 256 := hbp _ (by simp [message, field])
      have ha : auth.length < 256 := hbp _ (by simp [message, field])
      have ht : t.length < 256 := hbp _ (by simp [message, field])
      rw [decode_denotes hbv hd, checkPayload_fields sign now _ _ _ _ _ _ hu ha ht, if_pos ⟨⟨hn1, hn2⟩, hs⟩] at e2
      exact e2
    by_cases hd : ∃ p, Denotes v p
    · obtain ⟨p, hd⟩ := hd
      have hbp := denotes_isBytes hbv hd
      rw [decode_denotes hbv hd] at e2
      rcases checkPayload_inv sign now p hbp with e3 | ⟨nonce, user, auth, t, s, rest, rfl, hu, ha, ht⟩
      · rw [e3] at e2
        exact ⟨⟨_, e2⟩, fun U A => ⟨fun h => by rw [e2] at h; simp at h, fun h => back U A h⟩⟩
      · rw [checkPayload_fields sign now _ _ _ _ _ _ hu ha ht] at e2
        by_cases hcnd : (now > 0 ∧ (strtoull (cstr t) : Int) > now) ∧ sign (message nonce user auth t) = some s
        · rw [if_pos hcnd] at e2
          refine ⟨⟨_, e2⟩, fun U A => ⟨fun h => ?_, fun h => back U A h⟩⟩
          rw [e2] at h
          simp only [Out.ok.injEq, Option.some.injEq, Prod.mk.injEq] at h
          exact ⟨v, nonce, user, auth, t, s, rest, hv, hd, hcnd.2, hcnd.1.1, hcnd.1.2, h.1.symm, h.2.symm⟩
        · rw [if_neg hcnd] at e2
          exact ⟨⟨_, e2⟩, fun U A => ⟨fun h => by rw [e2] at h; simp at h, fun h => back U A h⟩⟩
    · rw [decode_not hbv hd] at e2
      exact ⟨⟨_, e2⟩, fun U A => ⟨fun h => by rw [e2] at h; simp at h, fun h => back U A h⟩⟩

/-- One issue of a cookie. -/
structure Issue where
  now : Nat
  nonce : List Nat
  user : List Nat
  auth : List Nat

/-- The text signed for it. -/
def Issue.text (i : Issue) (maxAge : Nat) : List Nat :=
  message i.nonce i.user i.auth (bytesOf (toString (i.now + maxAge)))

/-- **C76, proved for names of up to 255 bytes.** A cookie issued for a user is a well formed
`Set-Cookie` header whose value, sent back as the first `mtevauth` cookie of any request,
authenticates exactly that user (with the same `auth`) during exactly `max_age` seconds.
Missing: longer names, for which it is false (`C76_long_user_violated`). -/
theorem C76_roundtrip_partial (junk : Nat → Nat) (sign : List Nat → Option (List Nat)) (b0 : DynBuffer.Buf)
    (hb0 : b0.stat.length = 4096) (e : Env) (user auth s : List Nat)
    (hu : ShortName user) (ha : ShortName auth) (hn : e.nonce.length = 8 ∧ IsBytes e.nonce) (ht : e.now + e.maxAge < 2 ^ 64)
    (hs : sign ((Issue.mk e.now e.nonce user auth).text e.maxAge) = some s) (hsl : s.length < 256) (hsb : IsBytes s) :
    ∃ v, issue junk sign b0 e user auth = .ok (some (bytesOf "mtevauth=" ++ v ++ bytesOf "; Max-Age=" ++
        bytesOf (toString e.maxAge) ++ domainAttr e.domain e.host)) ∧
      (∀ c ∈ v, ¬ Sep c ∧ c ≠ 0 ∧ c < 256) ∧
      ∀ header, IsBytes header → 0 ∉ header → FirstCookie header v →
        ∀ now : Int, check sign now (some header) =
          .ok (if 0 < now ∧ now < ((e.now + e.maxAge : Nat) : Int) then some (user, auth) else none) := by
  have hst : signedText e user auth = (Issue.mk e.now e.nonce user auth).text e.maxAge := by
    unfold signedText Issue.text
    rw [stored_short hu.2.2, stored_short ha.2.2, dec_eq]
  have hbt := signedText_isBytes hn.2 hn.1 hu.1 ha.1 ht
  have hbytes : IsBytes (signedText e user auth ++ field s) := isBytes_app hbt (isBytes_field hsb hsl)
  refine ⟨cookieValue e user auth s, ?_, ?_, ?_⟩
  · rw [(issue_eq junk sign b0 hb0 e user auth hn.1 hn.2 hu.1 ha.1 ht).2 s (by rw [hst]; exact hs) hsl hsb]
    rw [name_eq, dec_eq]
  · intro c hc
    have := encodeText_chars hbytes c hc
    exact ⟨this.2.2, this.1, this.2.1⟩
  · intro header hb h0 hf now
    have hbv := first_isBytes hb hf
    have hd : Denotes (cookieValue e user auth s) (signedText e user auth ++ field s ++ []) := by
      rw [List.append_nil]; exact Url.encodeText_denotes hbytes
    have hdl : (dec (e.now + e.maxAge)).length ≤ 20 := dec_length 19 (by omega)
    rw [check, cstr_eq h0, checkTokens_first sign now _ (Nat.le_refl _) hf, decode_denotes hbv hd]
    unfold signedText
    rw [checkPayload_fields sign now _ _ _ _ _ _ (stored_lt _) (stored_lt _) (by omega)]
    rw [stored_short hu.2.2, stored_short ha.2.2, cstr_eq hu.2.1, cstr_eq ha.2.1, cstr_dec, strtoull_dec ht]
    have hsg : sign (message e.nonce user auth (dec (e.now + e.maxAge))) = some s := by
      rw [dec_eq]; exact hs
    by_cases hc : 0 < now ∧ now < ((e.now + e.maxAge : Nat) : Int)
    · rw [if_pos ⟨hc, hsg⟩, if_pos hc]
    · rw [if_neg (fun h => hc h.1), if_neg hc]

/-- **C76.** If the signer failed, no cookie is set and nothing bad happens; whatever the names. -/
theorem C76_issue_failed (junk : Nat → Nat) (b0 : DynBuffer.Buf) (hb0 : b0.stat.length = 4096) (e : Env)
    (user auth : List Nat) (hn : e.nonce.length = 8 ∧ IsBytes e.nonce) (hu : IsBytes user) (ha : IsBytes auth)
    (ht : e.now + e.maxAge < 2 ^ 64) :
    issue junk (fun _ => none) b0 e user auth = .ok none :=
  (issue_eq junk _ b0 hb0 e user auth hn.1 hn.2 hu ha ht).1 rfl

/-- Time stamps as `strtoull` reads them: blanks, an optional sign, digits up to something else. -/
theorem C76_stamp {n : Nat} (h : n < 2 ^ 64) (w rest : List Nat) (hw : ∀ c ∈ w, c = 32 ∨ 9 ≤ c ∧ c ≤ 13)
    (hr : ∀ c r, rest = c :: r → c < 48 ∨ 57 < c) :
    strtoull (w ++ bytesOf (toString n) ++ rest) = n ∧ strtoull (w ++ bytesOf "+" ++ bytesOf (toString n) ++ rest) = n ∧
    strtoull (w ++ bytesOf "-" ++ bytesOf (toString n) ++ rest) = (2 ^ 64 - n) % 2 ^ 64 := by
  rw [← dec_eq]
  have hv : digitsVal (dec n ++ rest) 0 = n := by
    rw [digitsVal_append (dec_digit _), digitsVal_dec]
    cases rest with
    | nil => rfl
    | cons c r =>
      have := hr c r rfl
      simp only [digitsVal]
      rw [if_neg (by omega)]
  have hdrop : ∀ x : Nat, (¬ (x = 32 ∨ 9 ≤ x ∧ x ≤ 13)) → ∀ l : List Nat,
      (w ++ x :: l).dropWhile (fun c => c = 32 || (9 ≤ c && c ≤ 13)) = x :: l := by
    intro x hx l
    induction w with
    | nil => rw [List.nil_append, List.dropWhile_cons_of_neg]; simpa using hx
    | cons y w ih =>
      rw [List.cons_append, List.dropWhile_cons_of_pos (by simpa using hw y (by simp)), ih (fun c hc => hw c (by simp [hc]))]
  refine ⟨?_, ?_, ?_⟩
  · cases e : dec n with
    | nil => exact absurd e (dec_ne n)
    | cons c r =>
      have hc := dec_digit n c (by rw [e]; simp)
      have e1 : w ++ c :: r ++ rest = w ++ c :: (r ++ rest) := by simp
      unfold strtoull
      rw [e1, hdrop c (by omega)]
      rw [e, List.cons_append] at hv
      split
      · rename_i h1; simp at h1; omega
      · rename_i h1; simp at h1; omega
      · rw [hv]; omega
  · have e1 : w ++ bytesOf "+" ++ dec n ++ rest = w ++ 43 :: (dec n ++ rest) := by simp [bytesOf]
    unfold strtoull
    rw [e1, hdrop 43 (by omega)]
    simp only [hv]
    omega
  · have e1 : w ++ bytesOf "-" ++ dec n ++ rest = w ++ 45 :: (dec n ++ rest) := by simp [bytesOf]
    unfold strtoull
    rw [e1, hdrop 45 (by omega)]
    simp only [hv, if_pos h]

example : strtoull (bytesOf " +17x") = 17 := (C76_stamp (n := 17) (by decide) [32] (bytesOf "x") (by decide)
  (by rintro c r h; cases h; decide)).2.1

/-- **C76.** A client cannot become someone else, or outlive a cookie: if every text whose valid
signature the client presents was signed for one of the `issued` cookies (which is what the
unforgeability of the HMAC provides), then the user the request is authenticated as was issued a
cookie with that very user and `auth`, less than `max_age` seconds ago. -/
theorem C76_unforgeable (sign : List Nat → Option (List Nat)) (maxAge : Nat) (issued : List Issue)
    (hi : ∀ i ∈ issued, ShortName i.user ∧ ShortName i.auth ∧ i.now + maxAge < 2 ^ 64)
    (now : Int) (header : List Nat) (hb : IsBytes header) (h0 : 0 ∉ header)
    (hunf : ∀ v m s rest, FirstCookie header v → Denotes v (m ++ field s ++ rest) → sign m = some s →
      ∃ i ∈ issued, m = i.text maxAge)
    (U A : List Nat) (h : check sign now (some header) = .ok (some (U, A))) :
    ∃ i ∈ issued, U = i.user ∧ A = i.auth ∧ now < ((i.now + maxAge : Nat) : Int) := by
  obtain ⟨v, nonce, user, auth, t, s, rest, hv, hd, hs, hn1, hn2, rfl, rfl⟩ :=
    ((C76_check_exact sign now header hb h0).2 U A).mp h
  obtain ⟨i, hmem, hm⟩ := hunf v _ s rest hv hd hs
  obtain ⟨h1, h2, h3⟩ := hi i hmem
  obtain ⟨-, rfl, rfl, rfl⟩ := message_inj hm
  refine ⟨i, hmem, cstr_eq h1.2.1, cstr_eq h2.2.1, ?_⟩
  rw [← dec_eq, cstr_dec, strtoull_dec h3] at hn2
  exact hn2

/-- **C76.** Without a cookie of that name nobody is authenticated. -/
theorem C76_no_cookie (sign : List Nat → Option (List Nat)) (now : Int) :
    check sign now none = .ok none ∧
    ∀ header, 0 ∉ header → (¬ ∃ v, FirstCookie header v) → check sign now (some header) = .ok none := by
  refine ⟨rfl, fun header h0 hn => ?_⟩
  rw [check, cstr_eq h0]
  exact (checkTokens_inv sign now header.length (Nat.le_refl _)).resolve_right hn

/-- **C76, violated for long names.** A user name of 256 bytes or more is cut to its length modulo
256 when the cookie is written: whoever is logged in as `x ++ y`, with `y` of 256 bytes, gets a
cookie that authenticates them as `x`. -/
theorem C76_long_user_violated (junk : Nat → Nat) (sign : List Nat → Option (List Nat)) (b0 : DynBuffer.Buf)
    (hb0 : b0.stat.length = 4096) (e : Env) (x y auth s : List Nat) (hx : ShortName x) (hy : IsBytes y ∧ 0 ∉ y ∧ y.length = 256)
    (ha : ShortName auth) (hn : e.nonce.length = 8 ∧ IsBytes e.nonce) (ht : e.now + e.maxAge < 2 ^ 64)
    (hs : sign ((Issue.mk e.now e.nonce x auth).text e.maxAge) = some s) (hsl : s.length < 256) (hsb : IsBytes s) :
    ∃ v tail, issue junk sign b0 e (x ++ y) auth = .ok (some (bytesOf "mtevauth=" ++ v ++ tail)) ∧
      ∀ header, IsBytes header → 0 ∉ header → FirstCookie header v →
        ∀ now : Int, 0 < now → now < ((e.now + e.maxAge : Nat) : Int) →
          check sign now (some header) = .ok (some (x, auth)) := by
  have hxy : stored (x ++ y) = x := by
    have : (x ++ y).length % 256 = x.length := by
      have := hx.2.2
      simp [hy.2.2]; omega
    unfold stored
    rw [this]; simp
  have hst : signedText e (x ++ y) auth = signedText e x auth := by
    unfold signedText; rw [hxy, stored_short hx.2.2]
  obtain ⟨v, hv, -, hc⟩ := C76_roundtrip_partial junk sign b0 hb0 e x auth s hx ha hn ht hs hsl hsb
  have hs' : sign (signedText e x auth) = some s := by
    unfold signedText
    rw [stored_short hx.2.2, stored_short ha.2.2, dec_eq]; exact hs
  have e1 := (issue_eq junk sign b0 hb0 e (x ++ y) auth hn.1 hn.2 (isBytes_app hx.1 hy.1) ha.1 ht).2 s (by rw [hst]; exact hs') hsl hsb
  have e2 := (issue_eq junk sign b0 hb0 e x auth hn.1 hn.2 hx.1 ha.1 ht).2 s hs' hsl hsb
  have ecv : cookieValue e (x ++ y) auth s = cookieValue e x auth s := by unfold cookieValue; rw [hst]
  have : issue junk sign b0 e (x ++ y) auth = issue junk sign b0 e x auth := by rw [e1, e2, ecv]
  refine ⟨v, bytesOf "; Max-Age=" ++ bytesOf (toString e.maxAge) ++ domainAttr e.domain e.host, ?_, ?_⟩
  · rw [this, hv]; simp
  · intro header h1 h2 h3 now h4 h5
    rw [hc header h1 h2 h3 now, if_pos ⟨h4, h5⟩]

/-! ## The domain of the cookie -/

theorem lastIndex_none {c : Nat} {l : List Nat} (h : c ∉ l) : lastIndex c l = none := by
  induction l with
  | nil => rfl
  | cons x t ih =>
    simp only [List.mem_cons, not_or] at h
    rw [lastIndex, ih h.2]; simp [Ne.symm h.1]

theorem lastIndex_last {c : Nat} (a : List Nat) {r : List Nat} (h : c ∉ r) : lastIndex c (a ++ c :: r) = some a.length := by
  induction a with
  | nil => rw [List.nil_append, lastIndex, lastIndex_none h]; simp
  | cons x t ih => rw [List.cons_append, lastIndex, ih]; rfl

/-- **C76.** The cookie is for the domain of the host without its first label and without the port,
and only if that still has a dot and ends in a letter (not for addresses or short names). -/
theorem C76_domain (label d port : List Nat) (hl : 46 ∉ label ∧ 0 ∉ label) (hd : 58 ∉ d ∧ 0 ∉ d)
    (hp : port = [] ∨ ∃ r, port = 58 :: r ∧ 58 ∉ r ∧ 46 ∉ r ∧ 0 ∉ r) :
    ∀ x, hostDomain (label ++ 46 :: d ++ port) = some x ↔
      x = d ∧ 46 ∈ d ∧ ∃ q c, d = q ++ [c] ∧ (65 ≤ c ∧ c ≤ 90 ∨ 97 ≤ c ∧ c ≤ 122) := by
  intro x
  have h0 : 0 ∉ label ++ 46 :: d ++ port := by
    intro h
    simp only [List.append_assoc, List.mem_append, List.cons_append, List.mem_cons] at h
    rcases h with h | h | h | h
    · exact hl.2 h
    · omega
    · exact hd.2 h
    · rcases hp with rfl | ⟨r, rfl, -, -, h3⟩
      · simp at h
      · rcases List.mem_cons.mp h with h | h
        · omega
        · exact h3 h
  have hdw : (label ++ 46 :: d ++ port).dropWhile (· ≠ 46) = 46 :: d ++ port := by
    rw [List.append_assoc, List.dropWhile_append_of_pos]
    · simp
    · intro x hx
      have : x ≠ 46 := fun e => hl.1 (e ▸ hx)
      simpa using this
  have hlast : hostLast (46 :: d ++ port) = d.length := by
    unfold hostLast
    rcases hp with rfl | ⟨r, rfl, h1, -, -⟩
    · rw [lastIndex_none (by simp [hd.1])]; simp
    · rw [lastIndex_last (46 :: d) h1]; simp
  have hport : 46 ∉ port := by
    rcases hp with rfl | ⟨r, rfl, -, h2, -⟩
    · simp
    · simp [h2]
  unfold hostDomain
  rw [cstr_eq h0, hdw]
  simp only
  rw [if_neg (by simp), hlast]
  have e1 : (46 :: d ++ port).drop 1 = d ++ port := by simp
  have e2 : (d ++ port).take d.length = d := by simp
  rw [e1, e2]
  have e3 : (46 ∈ d ++ port) ↔ 46 ∈ d := by simp [hport]
  simp only [e3]
  rcases List.eq_nil_or_concat d with rfl | ⟨q, c, hq⟩
  · simp
  · rw [List.concat_eq_append] at hq
    have e4 : (46 :: d ++ port).getD d.length 0 = c := by
      have : 46 :: d ++ port = (46 :: q) ++ c :: port := by rw [hq]; simp
      rw [this]
      have hlq : d.length = (46 :: q).length := by rw [hq]; simp
      rw [hlq, List.getD_eq_getElem?_getD, List.getElem?_append_right (Nat.le_refl _)]
      simp
    rw [e4]
    have e5 : (∃ q' c', d = q' ++ [c'] ∧ (65 ≤ c' ∧ c' ≤ 90 ∨ 97 ≤ c' ∧ c' ≤ 122)) ↔ isAlpha c = true := by
      constructor
      · rintro ⟨q', c', h1, h2⟩
        rw [hq] at h1
        have := List.append_inj_right' h1 rfl
        simp at this
        rw [this]; simpa [isAlpha] using h2
      · intro h
        exact ⟨q, c, hq, by simpa [isAlpha] using h⟩
    rw [e5]
    constructor
    · intro h
      split at h
      · rename_i hc
        simp only [Option.some.injEq] at h
        exact ⟨h.symm, hc.2⟩
      · simp at h
    · rintro ⟨rfl, h46, hc⟩
      rw [if_pos]
      refine ⟨?_, h46, hc⟩
      have : q ≠ [] := by
        rintro rfl
        rw [hq] at h46
        simp at h46
        rw [← h46] at hc
        exact absurd hc (by decide)
      have := List.length_pos_iff.mpr this
      rw [hq]; simp; omega

/-- A host without a dot gives no domain. -/
theorem C76_domain_none (host : List Nat) (h : 46 ∉ host) : hostDomain host = none := by
  unfold hostDomain
  have : (cstr host).dropWhile (· ≠ 46) = [] := by
    have h' : 46 ∉ cstr host := fun e => h ((List.takeWhile_sublist _).subset e)
    generalize cstr host = l at h'
    induction l with
    | nil => rfl
    | cons a t ih =>
      simp only [List.mem_cons, not_or] at h'
      rw [List.dropWhile_cons_of_pos (by simpa using Ne.symm h'.1), ih h'.2]
  simp only [this, if_true]

/-! ## The login form -/

/-- A form field as percent-encoded text. -/
def formField (p : List Nat × List Nat) : List Nat := encodeText p.1 ++ bytesOf "=" ++ encodeText p.2

/-- The posted form. -/
def formText (ps : List (List Nat × List Nat)) : List Nat := Query.joinAmp (ps.map formField)

/-- The value of the last field with that name. -/
def lastNamed (n : List Nat) (ps : List (List Nat × List Nat)) : Option (List Nat) :=
  ((ps.filter (fun p => p.1 = n)).getLast?).map Prod.snd

theorem encodeText_plain {d : List Nat} (hd : IsBytes d) (x : Nat) (hx : x = 38 ∨ x = 61 ∨ x = 0) : x ∉ encodeText d := by
  have key : ∀ y : Fin 256, 38 ∉ encodeByte y.val ∧ 61 ∉ encodeByte y.val ∧ 0 ∉ encodeByte y.val := by decide +kernel
  induction d with
  | nil => simp [encodeText]
  | cons b t ih =>
    rw [isBytes_cons] at hd
    rw [encodeText, List.mem_append]
    have k := key ⟨b, hd.1⟩
    rintro (h | h)
    · rcases hx with rfl | rfl | rfl
      · exact k.1 h
      · exact k.2.1 h
      · exact k.2.2 h
    · exact ih hd.2 h

theorem decodeHere_encode {d : List Nat} (hd : IsBytes d) (h0 : 0 ∉ d) : decodeHere (encodeText d) = (d.length, d) := by
  unfold decodeHere
  rw [(Url.C01_url_decode_exact _ (Url.encodeText_isBytes hd) ((encodeText d).length + 1) (Nat.le_refl _)).1 d (Url.encodeText_denotes hd)]
  simp [cstr_eq h0]

theorem formStep_field (f : Form) {p : List Nat × List Nat} (h1 : IsBytes p.1 ∧ 0 ∉ p.1) (h2 : IsBytes p.2 ∧ 0 ∉ p.2) :
    formStep f (formField p) =
      if p.1 = bytesOf "username" then { f with user := some p.2 }
      else if p.1 = bytesOf "password" then { f with pass := some p.2 }
      else if p.1 = bytesOf "whereto" then { f with whereto := some p.2 } else f := by
  unfold formStep formField
  have e : encodeText p.1 ++ bytesOf "=" ++ encodeText p.2 = encodeText p.1 ++ 61 :: encodeText p.2 := by
    simp [bytesOf]
  rw [e, Query.cutAt_some (encodeText_plain h1.1 61 (by simp))]
  simp only [decodeHere_encode h1.1 h1.2, Option.map_some, decodeHere_encode h2.1 h2.2]
  by_cases hn : p.1 = []
  · rw [hn]; simp [bytesOf]
  · rw [if_pos (List.length_pos_iff.mpr hn)]

/-- **C76.** The login form: for every form made of percent-encoded fields, the user name and the
password that are checked, and the place to return to, are those of the last field of that name. -/
theorem C76_login_form (ps : List (List Nat × List Nat))
    (h : ∀ p ∈ ps, (IsBytes p.1 ∧ 0 ∉ p.1) ∧ (IsBytes p.2 ∧ 0 ∉ p.2)) :
    loginForm (formText ps) = ⟨lastNamed (bytesOf "username") ps, lastNamed (bytesOf "password") ps,
      lastNamed (bytesOf "whereto") ps⟩ := by
  have hclean : ∀ q ∈ ps.map formField, 38 ∉ q ∧ 0 ∉ q ∧ q ≠ [] := by
    intro q hq
    obtain ⟨p, hp, rfl⟩ := List.mem_map.mp hq
    obtain ⟨h1, h2⟩ := h p hp
    unfold formField
    refine ⟨?_, ?_, ?_⟩
    · simp [bytesOf, encodeText_plain h1.1 38 (by simp), encodeText_plain h2.1 38 (by simp)]
    · simp [bytesOf, encodeText_plain h1.1 0 (by simp), encodeText_plain h2.1 0 (by simp)]
    · simp [bytesOf]
  have h0 : 0 ∉ formText ps := by
    unfold formText
    generalize ps.map formField = qs at hclean
    clear h
    induction qs with
    | nil => simp [Query.joinAmp]
    | cons q r ih =>
      cases r with
      | nil => simpa [Query.joinAmp] using (hclean q (by simp)).2.1
      | cons q' r =>
        have h1 := (hclean q (by simp)).2.1
        have h2 := ih (fun x hx => hclean x (by simp [hx]))
        simp only [Query.joinAmp, List.mem_append, List.mem_cons]
        simp [h1, h2]
  unfold loginForm
  rw [cstr_eq h0]
  unfold formText
  rw [Query.tokens_joinAmp (fun q hq => (hclean q hq).1)]
  have hf : (ps.map formField).filter (fun p => p ≠ []) = ps.map formField := by
    rw [List.filter_eq_self]
    intro q hq
    simpa using (hclean q hq).2.2
  rw [hf]
  clear h0 hf hclean
  induction ps using List.reverseRecOn with
  | nil => rfl
  | append_singleton ps p ih =>
    have ih := ih (fun q hq => h q (by simp [hq]))
    obtain ⟨h1, h2⟩ := h p (by simp)
    rw [List.map_append, List.foldl_append, ih]
    simp only [List.map_cons, List.map_nil, List.foldl_cons, List.foldl_nil]
    rw [formStep_field _ h1 h2]
    have hl : ∀ n, lastNamed n (ps ++ [p]) = if p.1 = n then some p.2 else lastNamed n ps := by
      intro n
      unfold lastNamed
      rw [List.filter_append]
      by_cases hn : p.1 = n
      · simp [hn]
      · simp [hn]
    rw [hl, hl, hl]
    have hup : bytesOf "username" ≠ bytesOf "password" := by decide
    have huw : bytesOf "username" ≠ bytesOf "whereto" := by decide
    have hpw : bytesOf "password" ≠ bytesOf "whereto" := by decide
    by_cases c1 : p.1 = bytesOf "username"
    · simp [c1, hup, huw]
    · by_cases c2 : p.1 = bytesOf "password"
      · simp [c2, hup.symm, hpw]
      · by_cases c3 : p.1 = bytesOf "whereto"
        · simp [c3, huw.symm, hpw.symm]
        · simp [c1, c2, c3]

example : loginForm (bytesOf "username=bob&password=p%20w&whereto=%2Fx") =
    ⟨some (bytesOf "bob"), some (bytesOf "p w"), some (bytesOf "/x")⟩ := by decide +kernel

/-- **C76, violated for forms as browsers send them.** A browser encodes a blank in a form field as
`+`, which the decoder refuses; the refusal is taken for an empty text, so the password `p w` is
checked as the empty password. -/
theorem C76_login_blank_violated :
    loginForm (bytesOf "username=bob&password=p+w") = ⟨some (bytesOf "bob"), some [], none⟩ := by decide +kernel

/-- Where the browser is sent after a login: the last field `whereto` of the form, or `/`. -/
theorem C76_redirect (ps : List (List Nat × List Nat))
    (h : ∀ p ∈ ps, (IsBytes p.1 ∧ 0 ∉ p.1) ∧ (IsBytes p.2 ∧ 0 ∉ p.2)) :
    (∀ v, v ≠ [] → lastNamed (bytesOf "whereto") ps = some v → location (loginForm (formText ps)) = v) ∧
    ((∀ v, lastNamed (bytesOf "whereto") ps = some v → v = []) → location (loginForm (formText ps)) = bytesOf "/") := by
  rw [C76_login_form ps h]
  unfold location
  constructor
  · intro v hv e
    simp only [e, if_neg hv]
  · intro hv
    cases e : lastNamed (bytesOf "whereto") ps with
    | none => rfl
    | some v => simp only [hv v e, if_true]

/-! ## Cases -/

/-- A toy signature: the sum of the bytes, on two bytes. -/
def toySign (m : List Nat) : Option (List Nat) := some [m.sum % 251, m.length % 251]

def toyEnv : Env := ⟨1700000000, 86400, [1, 2, 3, 4, 5, 6, 7, 255], none, some (bytesOf "app.example.com:8080")⟩

def toyHeader (v : List Nat) : List Nat := bytesOf "a=b; " ++ bytesOf "mtevauth=" ++ v ++ bytesOf ";x"

example : ShortName (bytesOf "alice") ∧ ShortName (bytesOf "admin group") := by
  unfold ShortName; decide

/-- The hypotheses of the round trip and of `FirstCookie` on a concrete cookie: accepted, expired. -/
example : ∃ v, FirstCookie (toyHeader v) v ∧ IsBytes (toyHeader v) ∧ 0 ∉ toyHeader v ∧
    check toySign 1700000001 (some (toyHeader v)) = .ok (some (bytesOf "alice", bytesOf "admin group")) ∧
    check toySign 1700086400 (some (toyHeader v)) = .ok none := by
  have h1 : ShortName (bytesOf "alice") := by unfold ShortName; decide
  have h2 : ShortName (bytesOf "admin group") := by unfold ShortName; decide
  obtain ⟨v, -, hv, hc⟩ := C76_roundtrip_partial (fun _ => 0) toySign ⟨List.replicate 4096 0, none, 4096, 0⟩
    (List.length_replicate ..) toyEnv _ _ _ h1 h2 ⟨rfl, by decide⟩ (by decide) rfl (by simp)
    (fun x hx => by simp at hx; omega)
  have hf : FirstCookie (toyHeader v) v :=
    ⟨bytesOf "a=b; ", bytesOf ";x", rfl, .inr ⟨bytesOf "a=b;", 32, by decide, .inl rfl⟩, fun c hx => (hv c hx).1,
      .inr ⟨59, bytesOf "x", by decide, .inr rfl⟩, fun p q hpq => by
        have := congrArg List.length hpq
        rw [← name_eq] at this
        simp only [List.length_append, name_len, show (bytesOf "a=b; ").length = 5 by decide] at this
        omega⟩
  have hb : IsBytes (toyHeader v) := isBytes_app (isBytes_app (by decide) (fun c hx => (hv c hx).2.2)) (by decide)
  have h0 : 0 ∉ toyHeader v := by
    intro h
    rcases List.mem_append.mp h with h | h
    · rcases List.mem_append.mp h with h | h
      · exact absurd h (by decide)
      · exact (hv 0 h).2.1 rfl
    · exact absurd h (by decide)
  refine ⟨v, hf, hb, h0, ?_, ?_⟩
  · rw [hc _ hb h0 hf]; rfl
  · rw [hc _ hb h0 hf]; rfl

/-- The hypotheses of `C76_unforgeable`, with a signer that signed one text. -/
example : ∃ header, IsBytes header ∧ 0 ∉ header ∧
    let i : Issue := ⟨1700000000, [1, 2, 3, 4, 5, 6, 7, 8], bytesOf "bob", bytesOf "x"⟩
    let sign := fun m => if m = i.text 60 then some [9, 9] else none
    (∀ v m s rest, FirstCookie header v → Denotes v (m ++ field s ++ rest) → sign m = some s → ∃ j ∈ [i], m = j.text 60) ∧
    check sign 1700000059 (some header) = .ok (some (bytesOf "bob", bytesOf "x")) := by
  refine ⟨bytesOf "mtevauth=" ++ encodeText (Issue.text ⟨1700000000, [1, 2, 3, 4, 5, 6, 7, 8], bytesOf "bob", bytesOf "x"⟩ 60 ++ field [9, 9]),
    ?_, ?_, ?_, ?_⟩
  · decide +kernel
  · decide +kernel
  · intro v m s rest _ _ hs
    by_cases hm : m = Issue.text ⟨1700000000, [1, 2, 3, 4, 5, 6, 7, 8], bytesOf "bob", bytesOf "x"⟩ 60
    · exact ⟨_, List.mem_singleton.mpr rfl, hm⟩
    · simp only [if_neg hm] at hs; simp at hs
  · decide +kernel

example : hostDomain (bytesOf "app.example.com:8080") = some (bytesOf "example.com") := by decide
example : hostDomain (bytesOf "10.0.0.1") = none := by decide

end Mtev.Cookie
