import Verif.LuaPack
import Mathlib.Data.Nat.Digits.Defs

/-!
# C116 `string.pack` and `string.unpack`
-/

namespace Mtev.LuaPack

/-- a value that a code can carry: a number of the code's range, a string without NUL for `z`, a string whose length fits
the length field for the others -/
def Carries (c : Nat) (v : Val) : Prop :=
  (∃ w sg z, numCode c = some (w, sg) ∧ v = .num z ∧ fits w sg z = true) ∨
  (c = 122 ∧ ∃ s, v = .str s ∧ 0 ∉ s) ∨
  (∃ s, v = .str s ∧ ((c = 112 ∧ s.length < 2 ^ 8) ∨ (c = 80 ∧ s.length < 2 ^ 15) ∨ (c = 97 ∧ s.length < 2 ^ 31)))

/-- the values are those of the format, one for each letter that takes one -/
def Suits : List Op → List Val → Prop
  | [], vs => vs = []
  | .order _ :: t, vs => Suits t vs
  | .text _ :: _, _ => False
  | .item c :: t, vs => if c = 32 ∨ c = 44 then Suits t vs else ∃ v vs', vs = v :: vs' ∧ Carries c v ∧ Suits t vs'

theorem numCode_none_str {c : Nat} (h : c = 112 ∨ c = 80 ∨ c = 97 ∨ c = 122) : numCode c = none := by
  rcases h with rfl | rfl | rfl | rfl <;> rfl

theorem enc_dec (sw : Bool) (c : Nat) (v : Val) (h : Carries c v) :
    ∃ b, enc sw c v = .ok b ∧ ∀ pre suf : Str, (pre ++ b ++ suf).length < 2 ^ 31 →
      dec sw c (pre ++ b ++ suf) pre.length = .ok (some (v, pre.length + b.length)) := by
  rcases h with ⟨w, sg, z, hc, rfl, hf⟩ | ⟨rfl, s, rfl, hs⟩ | ⟨s, rfl, hs⟩
  · refine ⟨toBytes sw w z, by simp [enc, hc, hf], ?_⟩
    intro pre suf _
    unfold dec
    rw [hc]
    simp only
    rw [if_neg (by simp [toBytes_length]), read_mid' pre _ suf _ _ rfl (toBytes_length sw w z).symm]
    simp only [R.bind, from_to sw sg w z hf, toBytes_length]
  · refine ⟨s ++ [0], by simp [enc], ?_⟩
    intro pre suf _
    have e : numCode 122 = none := rfl
    unfold dec
    rw [e]
    simp only [if_true]
    rw [if_neg (by simp; omega), if_neg (by omega)]
    have e2 : ((pre ++ (s ++ [0]) ++ suf).drop (pre.length : Int).toNat).takeWhile (· ≠ 0) = s := by
      simp only [Int.toNat_natCast, List.append_assoc, List.drop_left]
      rw [List.takeWhile_append_of_pos]
      · simp
      · intro x hx
        have : x ≠ 0 := by rintro rfl; exact hs hx
        simpa using this
    rw [e2]
    simp only [List.length_append, List.length_singleton]
    congr 3
  · have hc : c = 112 ∨ c = 80 ∨ c = 97 := by
      rcases hs with h | h | h
      · exact Or.inl h.1
      · exact Or.inr (Or.inl h.1)
      · exact Or.inr (Or.inr h.1)
    have hne : c ≠ 65 ∧ c ≠ 122 := by omega
    obtain ⟨w, hw, hfit⟩ : ∃ w, strCode c = some w ∧ fits w (lenSigned c) (s.length : Int) = true := by
      rcases hs with ⟨rfl, h⟩ | ⟨rfl, h⟩ | ⟨rfl, h⟩
      · exact ⟨1, rfl, by simp [fits, lenSigned]; omega⟩
      · exact ⟨2, rfl, by simp [fits, lenSigned]; omega⟩
      · exact ⟨4, rfl, by simp [fits, lenSigned]; omega⟩
    refine ⟨toBytes sw w s.length ++ s, by simp [enc, hne.1, hne.2, hw], ?_⟩
    intro pre suf hlen
    simp only [List.length_append, toBytes_length] at hlen
    have hr1 : read (pre ++ (toBytes sw w s.length ++ s) ++ suf) (pre.length : Int) w = .ok (toBytes sw w s.length) := by
      have : pre ++ (toBytes sw w s.length ++ s) ++ suf = pre ++ toBytes sw w s.length ++ (s ++ suf) := by simp
      rw [this]
      exact read_mid' pre _ _ _ _ rfl (toBytes_length sw w _).symm
    have hr2 : read (pre ++ (toBytes sw w s.length ++ s) ++ suf) ((pre.length : Int) + w) s.length = .ok s := by
      have : pre ++ (toBytes sw w s.length ++ s) ++ suf = (pre ++ toBytes sw w s.length) ++ s ++ suf := by simp
      rw [this]
      exact read_mid' _ _ _ _ _ (by simp [toBytes_length]) rfl
    unfold dec
    rw [numCode_none_str (by omega)]
    simp only [if_neg hne.2, hw]
    rw [if_neg (by simp [toBytes_length]; omega), hr1]
    simp only [R.bind, from_to sw _ w _ hfit]
    rw [if_neg (by omega), if_neg (by simp [toBytes_length]; omega), if_neg (by omega)]
    simp only [Int.toNat_natCast, hr2]
    congr 3
    simp [toBytes_length]; omega

theorem roundtrip_ops : ∀ (t : List Op) (sw : Bool) (vs : List Val), Suits t vs →
    ∃ b, packOps t sw vs = .ok b ∧ ∀ pre suf : Str, (pre ++ b ++ suf).length < 2 ^ 31 →
      unpackOps (pre ++ b ++ suf) t sw pre.length = .ok (vs, pre.length + b.length)
  | [], sw, vs, h => by
    have h : vs = [] := h
    subst h
    exact ⟨[], rfl, fun pre suf _ => by simp [unpackOps]⟩
  | .order c :: t, sw, vs, h => by
    obtain ⟨b, h1, h2⟩ := roundtrip_ops t (doEndian c) vs h
    exact ⟨b, h1, fun pre suf hl => h2 pre suf hl⟩
  | .text _ :: _, _, _, h => absurd h id
  | .item c :: t, sw, vs, h => by
    unfold Suits at h
    by_cases hc : c = 32 ∨ c = 44
    · rw [if_pos hc] at h
      obtain ⟨b, h1, h2⟩ := roundtrip_ops t sw vs h
      refine ⟨b, by simp only [packOps, if_pos hc, h1], fun pre suf hl => ?_⟩
      simp only [unpackOps, if_pos hc]
      exact h2 pre suf hl
    · rw [if_neg hc] at h
      obtain ⟨v, vs', rfl, hv, ht⟩ := h
      obtain ⟨b, e1, e2⟩ := enc_dec sw c v hv
      obtain ⟨r, h1, h2⟩ := roundtrip_ops t sw vs' ht
      refine ⟨b ++ r, by simp only [packOps, if_neg hc, e1, h1, R.bind], fun pre suf hl => ?_⟩
      have ea : pre ++ (b ++ r) ++ suf = pre ++ b ++ (r ++ suf) := by simp
      have eb : pre ++ (b ++ r) ++ suf = (pre ++ b) ++ r ++ suf := by simp
      have d1 := e2 pre (r ++ suf) (by rw [← ea]; exact hl)
      have d2 := h2 (pre ++ b) suf (by rw [← eb]; exact hl)
      rw [← ea] at d1
      rw [← eb] at d2
      simp only [unpackOps, if_neg hc, d1, R.bind]
      have : ((pre.length : Int) + b.length) = ((pre ++ b).length : Nat) := by simp
      rw [this, d2]
      simp only [List.length_append]
      congr 2
      push_cast; omega

theorem ops_same : ∀ t : List (Nat × Nat), (∀ x ∈ t, x.1 ≠ 65) → ops true t = ops false t
  | [], _ => rfl
  | (c, n) :: t, h => by
    have h1 : c ≠ 65 := h (c, n) (by simp)
    simp [ops, h1, ops_same t fun x hx => h x (by simp [hx])]

/-- **C116** What was packed is unpacked: for every format (any letters, counts and changes of byte order) and all values
it can carry, `unpack` with the same format gives the values back, wherever the packed bytes are within a string, and the
position after them.

Partial: no `A` in the format (it means different things to the two functions), no floating point.
Missing: longer strings, see `C116_length_violated`. -/
theorem C116_roundtrip_partial (f : Str) (vs : List Val) (hA : ∀ x ∈ tokens f, x.1 ≠ 65)
    (h : Suits (ops true (tokens f)) vs) :
    ∃ b, pack f vs = .ok b ∧ ∀ pre suf : Str, (pre ++ b ++ suf).length < 2 ^ 31 →
      unpack (pre ++ b ++ suf) f (pre.length + 1) = .ok (vs, pre.length + b.length + 1) := by
  obtain ⟨b, h1, h2⟩ := roundtrip_ops _ false vs h
  refine ⟨b, h1, fun pre suf hl => ?_⟩
  unfold unpack
  rw [← ops_same _ hA]
  have : ((pre.length : Int) + 1 - 1) = pre.length := by omega
  rw [this, h2 pre suf hl]
  rfl

/-- two numbers in big-endian order, then two strings and a negative number in little-endian order -/
example : pack (bytesOf ">H2<zpi") [.num 258, .num 3, .str (bytesOf "ab"), .str (bytesOf "cde"), .num (-2)] =
    .ok [1, 2, 0, 3, 97, 98, 0, 3, 99, 100, 101, 254, 255, 255, 255] := by decide +kernel

example : unpack [9, 1, 2, 0, 3, 97, 98, 0, 3, 99, 100, 101, 254, 255, 255, 255, 9] (bytesOf ">H2<zpi") 2 =
    .ok ([.num 258, .num 3, .str (bytesOf "ab"), .str (bytesOf "cde"), .num (-2)], 17) := by decide +kernel

/-- the hypotheses hold for it -/
example : (∀ x ∈ tokens (bytesOf ">H2<zpi"), x.1 ≠ 65) ∧ Suits (ops true (tokens (bytesOf ">H2<zpi")))
    [.num 258, .num 3, .str (bytesOf "ab"), .str (bytesOf "cde"), .num (-2)] := by
  have e : tokens (bytesOf ">H2<zpi") = [(62, 1), (72, 2), (60, 1), (122, 1), (112, 1), (105, 1)] := by decide +kernel
  rw [e]
  refine ⟨by decide, ?_⟩
  have e2 : ops true [(62, 1), (72, 2), (60, 1), (122, 1), (112, 1), (105, 1)] =
      [.order 62, .item 72, .item 72, .order 60, .item 122, .item 112, .item 105] := by decide +kernel
  rw [e2]
  refine ⟨_, _, rfl, Or.inl ⟨2, false, 258, rfl, rfl, by decide⟩, _, _, rfl, Or.inl ⟨2, false, 3, rfl, rfl, by decide⟩,
    _, _, rfl, Or.inr (Or.inl ⟨rfl, _, rfl, by decide⟩), _, _, rfl, Or.inr (Or.inr ⟨_, rfl, Or.inl ⟨rfl, by decide⟩⟩),
    _, _, rfl, Or.inl ⟨4, true, -2, rfl, rfl, by decide⟩, rfl⟩

theorem value_ofDigits : ∀ s : Str, value s = Nat.ofDigits 256 s
  | [] => rfl
  | b :: s => by rw [value, value_ofDigits s, Nat.ofDigits_cons]

theorem digits_lt : ∀ w n, ∀ b ∈ digits w n, b < 256
  | 0, _, b, h => by simp [digits] at h
  | w + 1, n, b, h => by
    simp only [digits, List.mem_cons] at h
    rcases h with rfl | h
    · omega
    · exact digits_lt w _ b h

/-- **C116** The byte order: a number that is not negative is packed as its base-256 digits, as many as the code says,
least significant first by default and after `<`, most significant first after `>`. -/
theorem C116_order (c w : Nat) (sg : Bool) (n : Nat) (hc : numCode c = some (w, sg)) (hf : fits w sg n = true) :
    ∃ b : Str, b.length = w ∧ (∀ x ∈ b, x < 256) ∧ Nat.ofDigits 256 b = n ∧
      enc (doEndian 60) c (.num n) = .ok b ∧ enc (doEndian 62) c (.num n) = .ok b.reverse := by
  have hn : (n : Int) % ((256 ^ w : Nat) : Int) = n := by
    apply Int.emod_eq_of_lt (by omega)
    unfold fits at hf
    cases sg
    · simp only [Bool.false_eq_true, if_false, decide_eq_true_eq] at hf; omega
    · simp only [if_true, decide_eq_true_eq] at hf; omega
  have hlt : n < 256 ^ w := by
    have := Int.emod_lt_of_pos (n : Int) (by exact_mod_cast Nat.pos_of_ne_zero (by positivity) : (0 : Int) < ((256 ^ w : Nat) : Int))
    omega
  refine ⟨digits w n, digits_length w n, digits_lt w n, ?_, ?_, ?_⟩
  · rw [← value_ofDigits, value_digits w n hlt]
  · have : doEndian 60 = false := by decide
    simp only [enc, hc, hf, if_true, this, toBytes, hn, doSwap]
    simp
  · have : doEndian 62 = true := by decide
    simp only [enc, hc, hf, if_true, this, toBytes, hn, doSwap]
    simp

example : numCode 73 = some (4, false) ∧ fits 4 false 66051 = true ∧
    enc (doEndian 62) 73 (.num 66051) = .ok [0, 1, 2, 3] := by decide

/-- the letters of numbers: smallest and largest number, bytes -/
def Types : List (Nat × Int × Int × Nat) :=
  [(99, -128, 127, 1), (98, 0, 255, 1), (104, -32768, 32767, 2), (72, 0, 65535, 2), (105, -2147483648, 2147483647, 4),
   (73, 0, 4294967295, 4), (108, -9223372036854775808, 9223372036854775807, 8), (76, 0, 18446744073709551615, 8)]

theorem types_code : ∀ x ∈ Types, ∃ sg, numCode x.1 = some (x.2.2.2, sg) ∧ x.1 ≠ 32 ∧ x.1 ≠ 44 ∧ tokens [x.1] = [(x.1, 1)] ∧
    tokens [60, x.1] = [(60, 1), (x.1, 1)] ∧ tokens [61, x.1] = [(61, 1), (x.1, 1)] ∧ tokens [62, x.1] = [(62, 1), (x.1, 1)] ∧
    isEndian x.1 = false ∧ x.1 ≠ 65 ∧ ∀ z, fits x.2.2.2 sg z = true ↔ x.2.1 ≤ z ∧ z ≤ x.2.2.1 := by
  intro x hx
  simp only [Types, List.mem_cons, List.not_mem_nil, or_false] at hx
  rcases hx with rfl | rfl | rfl | rfl | rfl | rfl | rfl | rfl
  all_goals
    refine ⟨_, rfl, by decide, by decide, by decide +kernel, by decide +kernel, by decide +kernel, by decide +kernel, by decide, by decide, ?_⟩
    intro z
    simp only [fits, Bool.false_eq_true, if_false, if_true, decide_eq_true_eq]
    norm_num
    omega

theorem pack_one (o : Option Nat) (ho : o = none ∨ o = some 60 ∨ o = some 61 ∨ o = some 62) (x : Nat × Int × Int × Nat) (hx : x ∈ Types)
    (z : Int) : pack (o.toList ++ [x.1]) [.num z] = (enc (decide (o = some 62)) x.1 (.num z)).bind fun b => .ok (b ++ []) := by
  obtain ⟨sg, h1, h2, h3, t0, t1, t2, t3, h4, h5, _⟩ := types_code x hx
  have hop : ∀ c, isEndian c = true → ops true [(c, 1), (x.1, 1)] = [.order c, .item x.1] := by
    intro c hc
    simp [ops, hc, h4]
  have hop1 : ops true [(x.1, 1)] = [.item x.1] := by simp [ops, h4]
  rcases ho with rfl | rfl | rfl | rfl
  · simp only [Option.toList_none, List.nil_append, pack, t0, hop1, packOps, if_neg (not_or.2 ⟨h2, h3⟩)]
    rfl
  · simp only [Option.toList_some, List.cons_append, List.nil_append, pack, t1, hop 60 (by decide), packOps, if_neg (not_or.2 ⟨h2, h3⟩)]
    rfl
  · simp only [Option.toList_some, List.cons_append, List.nil_append, pack, t2, hop 61 (by decide), packOps, if_neg (not_or.2 ⟨h2, h3⟩)]
    rfl
  · simp only [Option.toList_some, List.cons_append, List.nil_append, pack, t3, hop 62 (by decide), packOps, if_neg (not_or.2 ⟨h2, h3⟩)]
    rfl

/-- **C116** Each letter packs the numbers of its type, in its number of bytes, the least significant one first by default, after
`<` and after `=`, the most significant one first after `>`.  Numbers outside the type are not allowed (C leaves converting
them undefined). -/
theorem C116_types (c : Nat) (lo hi : Int) (w : Nat) (h : (c, lo, hi, w) ∈ Types) (z : Int) :
    (lo ≤ z ∧ z ≤ hi → ∃ b : Str, b.length = w ∧ (∀ x ∈ b, x < 256) ∧ ((Nat.ofDigits 256 b : Nat) : Int) = z % 256 ^ w ∧
      pack [c] [.num z] = .ok b ∧ pack [60, c] [.num z] = .ok b ∧ pack [61, c] [.num z] = .ok b ∧
      pack [62, c] [.num z] = .ok b.reverse) ∧
    (¬ (lo ≤ z ∧ z ≤ hi) → pack [c] [.num z] = .ub) := by
  obtain ⟨sg, h1, _, _, _, _, _, _, _, _, hf⟩ := types_code _ h
  simp only at h1 hf
  have p0 := pack_one none (by simp) _ h z
  have p1 := pack_one (some 60) (by simp) _ h z
  have p2 := pack_one (some 61) (by simp) _ h z
  have p3 := pack_one (some 62) (by simp) _ h z
  simp only [Option.toList_none, Option.toList_some, List.cons_append, List.nil_append] at p0 p1 p2 p3
  constructor
  · intro hz
    have hfit := (hf z).2 hz
    have hp : (0 : Int) < ((256 ^ w : Nat) : Int) := by exact_mod_cast Nat.pos_of_ne_zero (by positivity)
    have h0 := Int.emod_nonneg z (by omega : ((256 ^ w : Nat) : Int) ≠ 0)
    have hlt := Int.emod_lt_of_pos z hp
    refine ⟨digits w (z % ((256 ^ w : Nat) : Int)).toNat, digits_length _ _, digits_lt _ _, ?_, ?_, ?_, ?_, ?_⟩
    · rw [← value_ofDigits, value_digits _ _ (by omega), Int.toNat_of_nonneg h0]
      push_cast; rfl
    · rw [p0]; simp [enc, h1, hfit, R.bind, toBytes, doSwap]
    · rw [p1]; simp [enc, h1, hfit, R.bind, toBytes, doSwap]
    · rw [p2]; simp [enc, h1, hfit, R.bind, toBytes, doSwap]
    · rw [p3]; simp [enc, h1, hfit, R.bind, toBytes, doSwap]
  · intro hz
    have hfit : fits w sg z = false := by
      cases hc : fits w sg z
      · rfl
      · exact absurd ((hf z).1 hc) hz
    rw [p0]; simp [enc, h1, hfit, R.bind]

example : pack [62, 105] [.num (-2)] = .ok [255, 255, 255, 254] := by decide +kernel

theorem number_digits : ∀ (d : Str), (∀ x ∈ d, 48 ≤ x ∧ x ≤ 57) → ∀ (n : Nat) (f : Str), (∀ x ∈ f.head?, ¬ (48 ≤ x ∧ x ≤ 57)) →
    number n (d ++ f) = d.foldl (fun a x => 10 * a + (x - 48)) n ∧ skip (d ++ f) = f
  | [], _, n, [], _ => ⟨rfl, rfl⟩
  | [], _, n, c :: f, h => by
    have : isDigit c = false := by simp only [isDigit, decide_eq_false_iff_not]; exact h c (by simp)
    simp [number, skip, this]
  | x :: d, hd, n, f, h => by
    have : isDigit x = true := by simp only [isDigit, decide_eq_true_eq]; exact hd x (by simp)
    obtain ⟨h1, h2⟩ := number_digits d (fun y hy => hd y (by simp [hy])) (10 * n + (x - 48)) f h
    simp [number, skip, this, h1, h2]

theorem tokens_count (c : Nat) (d f : Str) (hd : ∀ x ∈ d, 48 ≤ x ∧ x ≤ 57) (hne : d ≠ []) (hf : ∀ x ∈ f.head?, ¬ (48 ≤ x ∧ x ≤ 57)) :
    tokens (c :: (d ++ f)) = (c, d.foldl (fun a x => 10 * a + (x - 48)) 0) :: tokens f := by
  obtain ⟨h1, h2⟩ := number_digits d hd 0 f hf
  rw [tokens, h1, h2]
  cases d with
  | nil => exact absurd rfl hne
  | cons x d =>
    have : isDigit x = true := by simp only [isDigit, decide_eq_true_eq]; exact hd x (by simp)
    simp [this]

theorem tokens_plain (c : Nat) (f : Str) (hf : ∀ x ∈ f.head?, ¬ (48 ≤ x ∧ x ≤ 57)) : tokens (c :: f) = (c, 1) :: tokens f := by
  rw [tokens]
  cases f with
  | nil => simp [skip]
  | cons x f =>
    have : isDigit x = false := by simp only [isDigit, decide_eq_false_iff_not]; exact hf x (by simp)
    simp [skip, this]

theorem ops_replicate (fp : Bool) (c : Nat) (he : isEndian c = false) (hA : c ≠ 65) (hc : ¬ (48 ≤ c ∧ c ≤ 57)) (f : Str)
    (hf : ∀ x ∈ f.head?, ¬ (48 ≤ x ∧ x ≤ 57)) : ∀ n, ops fp (tokens (List.replicate n c ++ f)) = List.replicate n (.item c) ++ ops fp (tokens f)
  | 0 => rfl
  | n + 1 => by
    rw [List.replicate_succ, List.cons_append, tokens_plain c _ (by
      cases n with
      | zero => exact hf
      | succ n => simpa [List.replicate_succ] using hc)]
    simp only [ops, he, hA, Bool.false_eq_true, if_false, false_and, List.replicate_succ, List.replicate_zero, List.cons_append,
      List.nil_append, ops_replicate fp c he hA hc f hf n]

/-- **C116** A number after a letter repeats it: `i3` means the same as `iii`, for every number.  Not for the byte orders, and `A`
(the length of a string when unpacking). -/
theorem C116_repeat (c : Nat) (d f : Str) (hd : ∀ x ∈ d, 48 ≤ x ∧ x ≤ 57) (hne : d ≠ []) (hf : ∀ x ∈ f.head?, ¬ (48 ≤ x ∧ x ≤ 57))
    (h : c ≠ 60 ∧ c ≠ 61 ∧ c ≠ 62 ∧ c ≠ 65) (hc : ¬ (48 ≤ c ∧ c ≤ 57)) (vs : List Val) (s : Str) (init : Int) :
    pack (c :: (d ++ f)) vs = pack (List.replicate (Nat.ofDigits 10 (d.reverse.map (· - 48))) c ++ f) vs ∧
    unpack s (c :: (d ++ f)) init = unpack s (List.replicate (Nat.ofDigits 10 (d.reverse.map (· - 48))) c ++ f) init := by
  have hn : ∀ (d : Str) (a : Nat), d.foldl (fun a x => 10 * a + (x - 48)) a =
      Nat.ofDigits 10 (d.reverse.map (· - 48)) + 10 ^ d.length * a := by
    intro d
    induction d with
    | nil => intro a; simp
    | cons x d ih =>
      intro a
      rw [List.foldl_cons, ih]
      simp only [List.reverse_cons, List.map_append, List.map_cons, List.map_nil, Nat.ofDigits_append, Nat.ofDigits_singleton,
        List.length_map, List.length_reverse, List.length_cons]
      ring
  have hn0 := hn d 0
  simp only [Nat.mul_zero, Nat.add_zero] at hn0
  have he : isEndian c = false := by simp only [isDigit, isEndian, decide_eq_false_iff_not]; omega
  have key : ∀ fp, ops fp (tokens (c :: (d ++ f))) = ops fp (tokens (List.replicate (Nat.ofDigits 10 (d.reverse.map (· - 48))) c ++ f)) := by
    intro fp
    rw [ops_replicate fp c he h.2.2.2 hc f hf, tokens_count c d f hd hne hf, hn0]
    simp only [ops, he, h.2.2.2, Bool.false_eq_true, if_false, false_and]
  constructor
  · unfold pack; rw [key]
  · unfold unpack; rw [key]

example : pack (bytesOf "b12") (List.replicate 12 (.num 7)) = .ok (List.replicate 12 7) := by decide +kernel

/-! ### foreign data -/

/-- codes whose length field is signed -/
def Plain (o : Op) : Prop :=
  match o with
  | .order _ => True
  | .text n => n < 2 ^ 30
  | .item c => c ≠ 80 ∧ c ≠ 97

theorem read_ok (s : Str) (i : Int) (n : Nat) (h0 : 0 ≤ i) (h : i + n ≤ s.length) : ∃ b, read s i n = .ok b ∧ b.length = n := by
  unfold read
  rw [if_pos ⟨h0, by omega⟩]
  refine ⟨_, rfl, ?_⟩
  simp only [List.length_take, List.length_drop, List.length_append, List.length_singleton]
  omega

theorem value_lt : ∀ (s : Str), IsBytes s → value s < 256 ^ s.length
  | [], _ => by simp [value]
  | b :: s, h => by
    rw [isBytes_cons] at h
    have := value_lt s h.2
    simp only [value, List.length_cons, Nat.pow_succ]
    omega

theorem dec_safe (sw : Bool) (c : Nat) (s : Str) (i : Int) (h0 : 0 ≤ i) (hl : s.length < 2 ^ 30) (hs : IsBytes s)
    (hc : c ≠ 80 ∧ c ≠ 97) :
    dec sw c s i = .error ∨ dec sw c s i = .ok none ∨ ∃ v j, dec sw c s i = .ok (some (v, j)) ∧ i ≤ j ∧ j ≤ s.length + 1 := by
  unfold dec
  cases hn : numCode c with
  | some x =>
    obtain ⟨w, sg⟩ := x
    simp only
    split
    · exact Or.inr (Or.inl rfl)
    · obtain ⟨b, hb, _⟩ := read_ok s i w h0 (by omega)
      rw [hb]
      exact Or.inr (Or.inr ⟨_, _, rfl, by omega, by omega⟩)
  | none =>
    simp only
    by_cases hz : c = 122
    · rw [if_pos hz]
      split
      · exact Or.inr (Or.inl rfl)
      · rw [if_neg (by omega)]
        refine Or.inr (Or.inr ⟨_, _, rfl, by omega, ?_⟩)
        have h1 := (List.takeWhile_sublist (· ≠ 0) (l := s.drop i.toNat)).length_le
        simp only [List.length_drop] at h1
        omega
    · rw [if_neg hz]
      cases hw : strCode c with
      | none => exact Or.inl rfl
      | some w =>
        have hcw : c = 112 ∧ w = 1 := by
          unfold strCode at hw
          by_cases h1 : c = 112
          · rw [if_pos h1] at hw; exact ⟨h1, by simpa using hw.symm⟩
          · rw [if_neg h1, if_neg hc.1, if_neg hc.2] at hw; cases hw
        obtain ⟨rfl, rfl⟩ := hcw
        simp only
        split
        · exact Or.inr (Or.inl rfl)
        · rename_i h2
          have hread : read s i 1 = .ok (((s ++ [0]).drop i.toNat).take 1) := by
            unfold read
            rw [if_pos ⟨h0, by omega⟩]
          rw [hread]
          have hb : IsBytes (((s ++ [0]).drop i.toNat).take 1) := by
            intro x hx
            have := List.mem_of_mem_drop (List.mem_of_mem_take hx)
            simp only [List.mem_append, List.mem_singleton] at this
            rcases this with h | h
            · exact hs x h
            · omega
          have hbl : (((s ++ [0]).drop i.toNat).take 1).length = 1 := by
            simp only [List.length_take, List.length_drop, List.length_append, List.length_singleton]; omega
          generalize ((s ++ [0]).drop i.toNat).take 1 = b at *
          have hv : value b < 256 := by
            have := value_lt b hb
            rw [hbl] at this; simpa using this
          have hfb : fromBytes sw (lenSigned 112) b = (value b : Nat) := by
            obtain ⟨y, rfl⟩ := List.length_eq_one_iff.1 hbl
            have e1 : doSwap sw [y] = [y] := by unfold doSwap; split <;> rfl
            have e2 : lenSigned 112 = false := rfl
            simp [fromBytes, e1, e2]
          simp only [R.bind, hfb]
          rw [if_neg (by omega)]
          split
          · exact Or.inr (Or.inl rfl)
          · rw [if_neg (by omega)]
            obtain ⟨t, ht, _⟩ := read_ok s (i + 1) (value b) (by omega) (by omega)
            simp only [Nat.cast_one, Int.toNat_natCast, ht]
            exact Or.inr (Or.inr ⟨_, _, rfl, by omega, by omega⟩)

theorem safe_ops (s : Str) (hl : s.length < 2 ^ 30) (hs : IsBytes s) : ∀ (t : List Op) (sw : Bool) (i : Int), 0 ≤ i →
    i < 2 ^ 30 + 1 → (∀ o ∈ t, Plain o) → unpackOps s t sw i ≠ .ub
  | [], _, _, _, _, _ => by simp [unpackOps]
  | .order c :: t, sw, i, h0, h1, h => by
    simp only [unpackOps]
    exact safe_ops s hl hs t _ i h0 h1 fun o ho => h o (by simp [ho])
  | .text n :: t, sw, i, h0, h1, h => by
    have hn : n < 2 ^ 30 := h (.text n) (by simp)
    have ht : ∀ o ∈ t, Plain o := fun o ho => h o (by simp [ho])
    simp only [unpackOps]
    by_cases hz : n = 0
    · rw [if_pos hz]
      have := safe_ops s hl hs t sw i h0 h1 ht
      cases hu : unpackOps s t sw i with
      | ub => exact absurd hu this
      | ok r => simp [R.bind]
      | error => simp [R.bind]
    · rw [if_neg hz]
      split
      · omega
      · split
        · simp
        · obtain ⟨b, hb, _⟩ := read_ok s i n h0 (by omega)
          rw [hb]
          have := safe_ops s hl hs t sw (i + n) (by omega) (by omega) ht
          simp only [R.bind]
          cases hu : unpackOps s t sw (i + n) with
          | ub => exact absurd hu this
          | ok r => simp [R.bind]
          | error => simp [R.bind]
  | .item c :: t, sw, i, h0, h1, h => by
    have hc : c ≠ 80 ∧ c ≠ 97 := h (.item c) (by simp)
    have ht : ∀ o ∈ t, Plain o := fun o ho => h o (by simp [ho])
    simp only [unpackOps]
    split
    · exact safe_ops s hl hs t sw i h0 h1 ht
    · rcases dec_safe sw c s i h0 hl hs hc with e | e | ⟨v, j, e, hj, hj2⟩
      · rw [e]; simp [R.bind]
      · rw [e]; simp [R.bind]
      · rw [e]
        simp only [R.bind]
        have := safe_ops s hl hs t sw j (by omega) (by omega) ht
        cases hu : unpackOps s t sw j with
        | ub => exact absurd hu this
        | ok r => simp [R.bind]
        | error => simp [R.bind]

/-- **C116** Unpacking any bytes with any format never reads outside the string.

Partial: strings and counts below 2^30, a starting position of at least 1 and no more than 2^30, and no `P` or `a` in the
format.  Missing: see `C116_negative_violated`, `C116_init_violated`, `C116_count_violated`. -/
theorem C116_safe_partial (s f : Str) (init : Int) (hs : IsBytes s) (hl : s.length < 2 ^ 30) (h1 : 1 ≤ init)
    (h2 : init ≤ 2 ^ 30) (hf : ∀ o ∈ ops false (tokens f), Plain o) : unpack s f init ≠ .ub := by
  have := safe_ops s hl hs _ false (init - 1) (by omega) (by omega) hf
  unfold unpack
  cases hu : unpackOps s (ops false (tokens f)) false (init - 1) with
  | ub => exact absurd hu this
  | ok r => simp [R.bind]
  | error => simp [R.bind]

example : ∀ o ∈ ops false (tokens (bytesOf "<zpI3A10")), Plain o := by
  have e : ops false (tokens (bytesOf "<zpI3A10")) =
      [.order 60, .item 122, .item 112, .item 73, .item 73, .item 73, .text 10] := by decide +kernel
  rw [e]
  simp [Plain]

/-- **C116 violated** Two bytes from outside make `P` read with a length of -1, which `lua_pushlstring` takes for 2^64-1. -/
theorem C116_negative_violated : unpack [255, 255] (bytesOf "P") 1 = .ub := by decide +kernel

/-- **C116 violated** A starting position of 0 reads the byte before the string. -/
theorem C116_init_violated : unpack (bytesOf "abc") (bytesOf "b") 0 = .ub := by decide +kernel

/-- **C116 violated** A count in the format near 2^31 overflows the check. -/
theorem C116_count_violated : unpack (bytesOf "abc") (bytesOf "bA2147483647") 1 = .ub := by decide +kernel

theorem toBytes_256 (n : Nat) (h : n = 256) : toBytes false 1 (n : Int) = [0] := by subst h; decide

/-- **C116 violated** A string of 256 bytes is packed by `p` with the length 0, and unpacked as an empty string. -/
theorem C116_length_violated (s : Str) (h : s.length = 256) :
    pack (bytesOf "p") [.str s] = .ok (0 :: s) ∧ unpack (0 :: s) (bytesOf "p") 1 = .ok ([.str []], 2) := by
  have e : ops true (tokens (bytesOf "p")) = [.item 112] := by decide +kernel
  have e' : ops false (tokens (bytesOf "p")) = [.item 112] := by decide +kernel
  constructor
  · unfold pack
    rw [e]
    simp [packOps, enc, strCode, R.bind, toBytes_256 _ h]
  · unfold unpack
    rw [e']
    have hr : read (0 :: s) 0 1 = .ok [0] := by simp [read]; omega
    have hr2 : read (0 :: s) 1 0 = .ok [] := by simp [read]; omega
    have hf : fromBytes false (lenSigned 112) [0] = 0 := by decide
    have hd : dec false 112 (0 :: s) 0 = .ok (some (.str [], 1)) := by
      have hn : numCode 112 = none := rfl
      have hs : strCode 112 = some 1 := rfl
      simp [dec, hn, hs, hr, hr2, hf, R.bind, h]
    simp [unpackOps, hd, R.bind]

/-- **C116 violated** A string of 40000 bytes packed by `P` cannot be unpacked: the length is read as a negative number. -/
theorem C116_word_violated : ∀ (s : Str), s.length = 40000 → ∃ b, pack (bytesOf "P") [.str s] = .ok b ∧
    unpack b (bytesOf "P") 1 = .ub := by
  intro s h
  have e : ops true (tokens (bytesOf "P")) = [.item 80] := by decide +kernel
  have e' : ops false (tokens (bytesOf "P")) = [.item 80] := by decide +kernel
  have hb : toBytes false 2 ((40000 : Nat) : Int) = [64, 156] := by decide
  refine ⟨64 :: 156 :: s, ?_, ?_⟩
  · unfold pack
    rw [e]
    simp only [packOps, enc, strCode, h, hb]
    have hb2 : toBytes false 2 40000 = [64, 156] := hb
    simp [R.bind, hb2]
  · unfold unpack
    rw [e']
    have hr : read (64 :: 156 :: s) 0 2 = .ok [64, 156] := by simp [read]; omega
    have hf : fromBytes false (lenSigned 80) [64, 156] = -25536 := by decide
    have hd : dec false 80 (64 :: 156 :: s) 0 = .ub := by
      have hn : numCode 80 = none := rfl
      have hs : strCode 80 = some 2 := rfl
      simp only [dec, hn, hs]
      rw [if_neg (by decide), if_neg (by simp [h])]
      simp only [Nat.cast_ofNat, hr, R.bind, hf]
      rw [if_neg (by decide), if_neg (by simp [h]), if_pos (by decide)]
    simp [unpackOps, hd, R.bind]

end Mtev.LuaPack
