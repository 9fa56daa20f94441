import Verif.DynBuffer

/-!
# Model of `src/utils/mtev_str.c`

Substring search (`strnstrn`, also the fallback of `mtev_memmem`), `mtev_strndup`, the growable
string buffers and the `strlcpy`/`strlcat` fallbacks.  The `int` value −1 used as "no state" by the
search is `none`, other values `j` are `some j`.  Lengths are taken to be non-negative.
-/

namespace Mtev.Str

/-! ## Knuth–Morris–Pratt search -/

/-- The inner loops `while (j > -1 && pattern[j] != c) j = table[j];`, mtev_str.c:47-48 and 69-70.
Reading outside `pat`, or a table slot not yet written, is `ub`; so is running out of `fuel`
(a loop that would not end within that many steps). -/
def walk (pat : Block) (tab : List (Option Nat)) (c : Nat) : Nat → Option Nat → Out (Option Nat)
  | _, none => .ok none
  | 0, some _ => .ub
  | fuel + 1, some j =>
    match pat[j]? with
    | none => .ub
    | some p =>
      if p = c then .ok (some j)
      else match tab[j]? with
        | none => .ub
        | some t => walk pat tab c fuel t

/-- `j + 1` where −1 is `none`. -/
def succ : Option Nat → Nat
  | none => 0
  | some j => j + 1

/-- The loop of `kmp_precompute`, mtev_str.c:46-54, with `m` iterations left at index `i`. The table
slots are written in order, so the table is the list of the slots written; it has room for
`KMPPATSIZE` = 256 (mtev_str.c:40, 60). -/
def precompLoop (pat : Block) : Nat → Nat → Option Nat → List (Option Nat) → Out (List (Option Nat))
  | 0, _, _, tab => .ok tab
  | m + 1, i, j, tab =>
    match pat[i]? with
    | none => .ub
    | some c => do
      let j ← walk pat tab c (i + 1) j
      let i := i + 1
      let j := succ j
      match pat[i]?, pat[j]? with
      | some a, some b =>
        if 256 ≤ i then .ub
        else if a = b then
          match tab[j]? with
          | none => .ub
          | some t => precompLoop pat m i (some j) (tab ++ [t])
        else precompLoop pat m i (some j) (tab ++ [some j])
      | _, _ => .ub

/-- `kmp_precompute`, mtev_str.c:41-55. -/
def precompute (pat : Block) (n : Nat) : Out (List (Option Nat)) := precompLoop pat n 0 none [none]

/-- The loop of `match_needle_haystack`, mtev_str.c:68-75: `i` is the state, `j` the position of
the remaining haystack. The result is the offset of the returned pointer. -/
def matchLoop (pat : Block) (n : Nat) (tab : List (Option Nat)) : List Nat → Nat → Nat → Out (Option Nat)
  | [], _, _ => .ok none
  | c :: r, i, j => do
    let k ← walk pat tab c (n + 1) (some i)
    let i := succ k
    let j := j + 1
    if n ≤ i then .ok (some (j - i)) else matchLoop pat n tab r i j

/-- `strnstrn` = `match_needle_haystack`, mtev_str.c:57-84. `needle` is the memory at the needle
pointer, `n` the length given; `hay` is the haystack range. A needle over 256 is fatal. -/
def strnstrn (needle : Block) (n : Nat) (hay : List Nat) : Out (Option Nat) :=
  if n = 0 then .ok (some 0)
  else if 256 < n then .abort
  else do
    let tab ← precompute needle n
    matchLoop needle n tab hay 0 0

/-! ## Duplicates -/

/-- `mtev_strndup`, mtev_str.c:96-106: the length scan and the copy; `src` is the memory at `src`. -/
def strndupLen (src : Block) (len : Nat) : Nat → Nat → Out Nat
  | slen, 0 => .ok slen
  | slen, k + 1 =>
    if slen < len then
      match src[slen]? with
      | none => .ub
      | some c => if c = 0 then .ok slen else strndupLen src len (slen + 1) k
    else .ok slen

def strndup (junk : Nat → Nat) (src : Block) (len : Nat) : Out Block := do
  let slen ← strndupLen src len 0 len
  let s ← src.read 0 slen
  let dst ← (malloc junk (slen + 1)).write 0 s
  dst.write slen [0]

/-! ## Growable buffers -/

/-- `GROWTH_FACTOR`, mtev_str.c:38. -/
def growth (a : Nat) : Nat := a + a >>> 1 + 1

open DynBuffer (toInt32)

/-- `mtev_prependable_str_buff_t`, mtev_str.h:43-47: `str` is the offset of `string` in `buff`. -/
structure Pre where
  buff : Block
  str : Nat
  len : Nat
deriving Repr

/-- `mtev_prepend_str_alloc_sized`, mtev_str.c:132-140. -/
def preAlloc (n : Nat) : Pre := ⟨calloc (n + 1), n, n⟩

/-- `mtev_prepend_str`, mtev_str.c:113-130. The `int` new length is as computed by the code; a
negative one makes the allocation fail, shown as `ub`. -/
def prepend (b : Pre) (s : List Nat) : Out Pre := do
  let b ← if b.str < s.length then do
      let stored := b.len - b.str
      let newLen := toInt32 (growth (b.len + s.length))
      if newLen < 0 then .ub
      else do
        let newLen := newLen.toNat
        let old ← b.buff.read b.str stored
        if newLen < stored then .ub
        else do
          let tmp ← (calloc (newLen + 1)).write (newLen - stored) old
          let tmp ← tmp.write newLen [0]
          (.ok ⟨tmp, newLen - stored, newLen⟩ : Out Pre)
    else .ok b
  if b.str < s.length then .ub
  else do
    let buff ← b.buff.write (b.str - s.length) s
    .ok ⟨buff, b.str - s.length, b.len⟩

/-- `mtev_prepend_strlen`, mtev_str.c:155-161 (non-NULL). -/
def preLen (b : Pre) : Nat := b.len - b.str

/-- `mtev_str_buff_t`, mtev_str.h:49-53: `fin` is the offset of `end` in `string`. -/
structure App where
  str : Block
  fin : Nat
  len : Nat
deriving Repr

/-- `mtev_str_buff_alloc_sized`, mtev_str.c:179-188. -/
def appAlloc (n : Nat) : App := ⟨calloc n, 0, n⟩

/-- `mtev_append_str_buff`, mtev_str.c:163-177. -/
def append (b : App) (s : List Nat) : Out App := do
  let b ← if b.len - b.fin < s.length then do
      let newLen := toInt32 (growth (b.len + s.length))
      if newLen < 0 then .ub
      else do
        let newLen := newLen.toNat
        let old ← b.str.read 0 b.fin
        let tmp ← (calloc newLen).write 0 old
        (.ok ⟨tmp, b.fin, newLen⟩ : Out App)
    else .ok b
  let str ← b.str.write b.fin s
  .ok ⟨str, b.fin + s.length, b.len⟩

/-- `mtev_str_buff_to_string`, mtev_str.c:211-218: the memory handed to the caller. -/
def toString (b : App) : Block := b.str

/-! ## `strlcpy` and `strlcat` fallbacks -/

/-- `strlen`: the first NUL of a block; reading past the block is `ub`. -/
def strlen (b : Block) : Out Nat := if 0 ∈ b then .ok (b.takeWhile (· ≠ 0)).length else .ub

/-- The C string at the start of a block. -/
def cstr (b : Block) : List Nat := b.takeWhile (· ≠ 0)

/-- `strlcpy`, mtev_str.c:220-230; `strncpy` pads with NULs. `src` is a C string (no NUL inside). -/
def strlcpy (dst : Block) (src : List Nat) (size : Nat) : Out (Block × Nat) :=
  if size ≠ 0 then do
    let dst ← dst.write 0 (src.take (size - 1) ++ List.replicate (size - 1 - src.length) 0)
    let dst ← dst.write (size - 1) [0]
    .ok (dst, src.length)
  else do
    let dst ← dst.write 0 [0]
    .ok (dst, src.length)

/-- `strlcat`, mtev_str.c:236-248; `strncat(dst, src, sz)` appends at most `sz` bytes and a NUL. -/
def strlcat (dst : Block) (src : List Nat) (size : Nat) : Out (Block × Nat) := do
  let dl ← strlen dst
  let sz := toInt32 (sub64 size (dl + 1))
  if sz ≥ 0 then do
    let dst ← dst.write dl (src.take sz.toNat ++ [0])
    let dst ← dst.write (dl + sz.toNat) [0]
    .ok (dst, dl + src.length)
  else .ok (dst, dl + src.length)

/-! ## Correctness of the failure table -/

theorem concat_suffix_concat {a b : List Nat} {x y : Nat} : a ++ [x] <:+ b ++ [y] ↔ a <:+ b ∧ x = y := by
  rw [← List.reverse_prefix]
  simp only [List.reverse_append, List.reverse_cons, List.reverse_nil, List.nil_append, List.singleton_append,
    List.cons_prefix_cons, List.reverse_prefix]
  exact and_comm

theorem take_succ_eq {P : List Nat} {k c : Nat} (h : P[k]? = some c) : P.take (k + 1) = P.take k ++ [c] := by
  rw [List.take_add_one, h]; rfl

/-- Extending a prefix match by one character. -/
theorem take_succ_suffix {P T : List Nat} {k c : Nat} (hk : k < P.length) :
    P.take (k + 1) <:+ T ++ [c] ↔ P.take k <:+ T ∧ P[k]? = some c := by
  have h : P[k]? = some P[k] := List.getElem?_eq_getElem hk
  rw [take_succ_eq h, concat_suffix_concat, h]
  simp

/-- `k` is the length of a proper border of `P.take i`. -/
def Border (P : List Nat) (k i : Nat) : Prop := k < i ∧ P.take k <:+ P.take i

/-- Specification of a table slot: the longest proper border followed by another character. -/
def IsFail (P : List Nat) (i : Nat) : Option Nat → Prop
  | none => ∀ k, Border P k i → P[k]? = P[i]?
  | some m => Border P m i ∧ P[m]? ≠ P[i]? ∧ ∀ k, Border P k i → P[k]? ≠ P[i]? → k ≤ m

/-- The table so far is right. -/
def TabOk (P : List Nat) (tab : List (Option Nat)) : Prop := ∀ i t, tab[i]? = some t → IsFail P i t

theorem border_of_suffixes {P T : List Nat} {k i : Nat} (hki : k < i) (hi : i ≤ P.length) (h1 : P.take k <:+ T) (h2 : P.take i <:+ T) :
    Border P k i :=
  ⟨hki, List.suffix_of_suffix_length_le h1 h2 (by simp; omega)⟩

/-- What the inner loop computes: the longest `k ≤ j` with `P.take k` a suffix of `T` and followed
by `c`. -/
theorem walk_spec {P : Block} {tab : List (Option Nat)} {c : Nat} {T : List Nat} (ht : TabOk P tab) :
    ∀ (fuel : Nat) (j : Option Nat), (∀ m, j = some m → m < fuel ∧ m < tab.length ∧ m < P.length ∧ P.take m <:+ T) →
    ∃ r, walk P tab c fuel j = .ok r ∧
      (∀ m, r = some m → (∃ q, j = some q ∧ m ≤ q) ∧ P.take m <:+ T ∧ P[m]? = some c) ∧
      (∀ q, j = some q → ∀ k, k ≤ q → P.take k <:+ T → P[k]? = some c → ∃ m, r = some m ∧ k ≤ m) := by
  intro fuel
  induction fuel with
  | zero =>
    intro j hj
    cases j with
    | none => exact ⟨none, by simp [walk], by simp, by simp⟩
    | some m => exact absurd (hj m rfl).1 (by omega)
  | succ fuel ih =>
    intro j hj
    cases j with
    | none => exact ⟨none, by simp [walk], by simp, by simp⟩
    | some q =>
      obtain ⟨hf, htl, hpl, hs⟩ := hj q rfl
      have hp : P[q]? = some P[q] := List.getElem?_eq_getElem hpl
      have hq : tab[q]? = some tab[q] := List.getElem?_eq_getElem htl
      rw [walk, hp]
      simp only
      by_cases hc : P[q] = c
      · rw [if_pos hc]
        refine ⟨some q, rfl, ?_, ?_⟩
        · intro m hm
          simp only [Option.some.injEq] at hm
          subst hm
          exact ⟨⟨q, rfl, Nat.le_refl _⟩, hs, by rw [hp, hc]⟩
        · intro q' hq' k hk _ _
          simp only [Option.some.injEq] at hq'
          subst hq'
          exact ⟨q, rfl, hk⟩
      · rw [if_neg hc, hq]
        simp only
        have hfail := ht q tab[q] hq
        obtain ⟨r, e, f, g⟩ := ih tab[q] (by
          intro m hm
          rw [hm] at hfail
          obtain ⟨⟨hlt, hb⟩, _, _⟩ := hfail
          exact ⟨by omega, by omega, by omega, hb.trans hs⟩)
        refine ⟨r, e, ?_, ?_⟩
        · intro m hm
          obtain ⟨⟨q', hq', hle⟩, h2, h3⟩ := f m hm
          rw [hq'] at hfail
          exact ⟨⟨q, rfl, by have := hfail.1.1; omega⟩, h2, h3⟩
        · intro q' hq' k hk hks hkc
          simp only [Option.some.injEq] at hq'
          subst hq'
          have hkq : k ≠ q := by
            rintro rfl
            rw [hp] at hkc
            simp at hkc
            exact hc hkc
          have hb : Border P k q := border_of_suffixes (by omega) (by omega) hks hs
          have hne : P[k]? ≠ P[q]? := by
            rw [hkc, hp]
            intro h
            simp at h
            exact hc h.symm
          cases htq : tab[q] with
          | none => rw [htq] at hfail; exact absurd (hfail k hb) hne
          | some m =>
            rw [htq] at hfail
            have hle := hfail.2.2 k hb hne
            exact g m htq k hle hks hkc

/-- Loop invariant of the precomputation: the longest proper border of `P.take i`. -/
def LongestBorder (P : List Nat) (i : Nat) : Option Nat → Prop
  | none => i = 0
  | some j => Border P j i ∧ ∀ k, Border P k i → k ≤ j

theorem longest_step {P : Block} {i : Nat} {j r : Option Nat} {c : Nat} (hi : P[i]? = some c) (hj : LongestBorder P i j)
    (h1 : ∀ m, r = some m → (∃ q, j = some q ∧ m ≤ q) ∧ P.take m <:+ P.take i ∧ P[m]? = some c)
    (h2 : ∀ q, j = some q → ∀ k, k ≤ q → P.take k <:+ P.take i → P[k]? = some c → ∃ m, r = some m ∧ k ≤ m) :
    LongestBorder P (i + 1) (some (succ r)) := by
  have hil : i < P.length := by
    by_contra hh
    rw [List.getElem?_eq_none (by omega)] at hi
    simp at hi
  have et := take_succ_eq hi
  constructor
  · constructor
    · cases r with
      | none => simp [succ]
      | some m =>
        obtain ⟨⟨q, hq, hle⟩, _, _⟩ := h1 m rfl
        rw [hq] at hj
        have := hj.1.1
        simp [succ]; omega
    · cases r with
      | none => simp [succ]
      | some m =>
        obtain ⟨⟨q, hq, hle⟩, hs, hc⟩ := h1 m rfl
        rw [hq] at hj
        have := hj.1.1
        rw [et]
        exact (take_succ_suffix (by omega)).mpr ⟨hs, hc⟩
  · rintro k ⟨hk, hs⟩
    cases k with
    | zero => omega
    | succ k =>
      rw [et] at hs
      obtain ⟨hs', hc⟩ := (take_succ_suffix (by omega)).mp hs
      have hki : k < i := by omega
      cases j with
      | none => have : i = 0 := hj; omega
      | some q =>
        obtain ⟨m, hm, hle⟩ := h2 q rfl k (hj.2 k ⟨hki, hs'⟩) hs' hc
        rw [hm]; simp [succ]; omega

theorem precompLoop_spec {P : Block} : ∀ (m i : Nat) (j : Option Nat) (tab : List (Option Nat)),
    i + m < P.length → i + m < 256 → tab.length = i + 1 → TabOk P tab → LongestBorder P i j →
    ∃ tab', precompLoop P m i j tab = .ok tab' ∧ tab'.length = i + m + 1 ∧ TabOk P tab' := by
  intro m
  induction m with
  | zero => intro i j tab _ _ hl ht _; exact ⟨tab, rfl, by omega, ht⟩
  | succ m ih =>
    intro i j tab hP h256 hl ht hj
    have hi : P[i]? = some P[i] := List.getElem?_eq_getElem (by omega)
    obtain ⟨r, e, h1, h2⟩ := walk_spec (c := P[i]) (T := P.take i) ht (i + 1) j (by
      intro m hm
      rw [hm] at hj
      have := hj.1.1
      exact ⟨by omega, by omega, by omega, hj.1.2⟩)
    have hlb := longest_step hi hj h1 h2
    have hlt : succ r < i + 1 := hlb.1.1
    have ha : P[i + 1]? = some P[i + 1] := List.getElem?_eq_getElem (by omega)
    have hb : P[succ r]? = some (P[succ r]'(by omega)) := List.getElem?_eq_getElem (by omega)
    rw [precompLoop, hi]
    simp only [e, Out.ok_bind, ha, hb]
    rw [if_neg (by omega)]
    have hgen : ∀ t, IsFail P (i + 1) t → TabOk P (tab ++ [t]) := by
      intro t hf k t' hk
      by_cases hkl : k < tab.length
      · rw [List.getElem?_append_left hkl] at hk; exact ht k t' hk
      · rw [List.getElem?_append_right (by omega)] at hk
        have hk0 : k - tab.length = 0 := by
          by_contra hh
          rw [List.getElem?_eq_none (by simp; omega)] at hk
          simp at hk
        rw [hk0] at hk
        simp at hk
        subst hk
        rw [show k = i + 1 by omega]; exact hf
    by_cases hab : P[i + 1] = P[succ r]'(by omega)
    · rw [if_pos hab]
      have hq : tab[succ r]? = some (tab[succ r]'(by omega)) := List.getElem?_eq_getElem (by omega)
      rw [hq]
      simp only
      have hfail : IsFail P (i + 1) (tab[succ r]'(by omega)) := by
        have hf := ht (succ r) _ hq
        have heq : P[succ r]? = P[i + 1]? := by rw [ha, hb, hab]
        -- proper borders of `i+1` other than the longest are borders of the longest
        have hsub : ∀ k, Border P k (i + 1) → P[k]? ≠ P[i + 1]? → Border P k (succ r) := by
          intro k hk hne
          have hle := hlb.2 k hk
          have : k ≠ succ r := by rintro rfl; exact hne heq
          exact border_of_suffixes (by omega) (by omega) hk.2 hlb.1.2
        generalize tab[succ r]'(by omega) = t at hf
        cases t with
        | none =>
          intro k hk
          by_contra hne
          exact hne (by rw [← heq]; exact hf k (hsub k hk hne))
        | some q =>
          refine ⟨⟨by have := hf.1.1; omega, hf.1.2.trans hlb.1.2⟩, by rw [← heq]; exact hf.2.1, ?_⟩
          intro k hk hne
          exact hf.2.2 k (hsub k hk hne) (by rw [heq]; exact hne)
      obtain ⟨tab', e', l', t'⟩ := ih (i + 1) (some (succ r)) (tab ++ [tab[succ r]'(by omega)]) (by omega) (by omega)
        (by simp; omega) (hgen _ hfail) hlb
      exact ⟨tab', e', by omega, t'⟩
    · rw [if_neg hab]
      have hfail : IsFail P (i + 1) (some (succ r)) := by
        refine ⟨hlb.1, ?_, fun k hk _ => hlb.2 k hk⟩
        rw [ha, hb]
        intro h
        simp at h
        exact hab h.symm
      obtain ⟨tab', e', l', t'⟩ := ih (i + 1) (some (succ r)) (tab ++ [some (succ r)]) (by omega) (by omega)
        (by simp; omega) (hgen _ hfail) hlb
      exact ⟨tab', e', by omega, t'⟩

theorem precompute_spec {P : Block} {n : Nat} (hP : n < P.length) (hn : n < 256) :
    ∃ tab, precompute P n = .ok tab ∧ tab.length = n + 1 ∧ TabOk P tab := by
  obtain ⟨tab, e, l, t⟩ := precompLoop_spec (P := P) n 0 none [none] (by omega) (by omega) rfl (by
    intro i t h
    cases i with
    | zero => simp at h; subst h; intro k hk; exact absurd hk.1 (by omega)
    | succ i => simp at h) rfl
  exact ⟨tab, e, by omega, t⟩

/-- The longest proper prefix of the needle that ends the text read so far. -/
def MatchInv (P : List Nat) (n i : Nat) (T : List Nat) : Prop :=
  i < n ∧ P.take i <:+ T ∧ ∀ k, k ≤ n → P.take k <:+ T → k ≤ i

theorem matchLoop_spec {P : Block} {n : Nat} {tab : List (Option Nat)} (hn : 0 < n) (hP : n ≤ P.length) (htl : n ≤ tab.length) (ht : TabOk P tab) :
    ∀ (rest : List Nat) (T : List Nat) (i : Nat), MatchInv P n i T →
    (∀ T', T' <+: T → ¬ P.take n <:+ T') →
    ∃ r, matchLoop P n tab rest i T.length = .ok r ∧
      (∀ o, r = some o → ∃ T1 T2, rest = T1 ++ T2 ∧ P.take n <:+ T ++ T1 ∧ o + n = (T ++ T1).length ∧
        ∀ T', T' <+: T ++ T1 → T' ≠ T ++ T1 → ¬ P.take n <:+ T') ∧
      (r = none → ∀ T', T' <+: T ++ rest → ¬ P.take n <:+ T') := by
  intro rest
  induction rest with
  | nil =>
    intro T i hi hno
    refine ⟨none, rfl, by simp, ?_⟩
    intro _ T' hT'
    rw [List.append_nil] at hT'
    exact hno T' hT'
  | cons c rest ih =>
    intro T i hi hno
    obtain ⟨hin, his, him⟩ := hi
    obtain ⟨r, e, h1, h2⟩ := walk_spec (c := c) (T := T) ht (n + 1) (some i) (by
      intro m hm
      simp only [Option.some.injEq] at hm
      subst hm
      exact ⟨by omega, by omega, by omega, his⟩)
    rw [matchLoop]
    simp only [e, Out.ok_bind]
    have hsuf : P.take (succ r) <:+ T ++ [c] := by
      cases r with
      | none => simp [succ]
      | some m =>
        obtain ⟨⟨q, hq, hle⟩, hs, hc⟩ := h1 m rfl
        simp only [Option.some.injEq] at hq
        exact (take_succ_suffix (by omega)).mpr ⟨hs, hc⟩
    have hmax : ∀ k, k ≤ n → P.take k <:+ T ++ [c] → k ≤ succ r := by
      intro k hk hs
      cases k with
      | zero => omega
      | succ k =>
        obtain ⟨hs', hc⟩ := (take_succ_suffix (by omega)).mp hs
        obtain ⟨m, hm, hle⟩ := h2 i rfl k (him k (by omega) hs') hs' hc
        rw [hm]; simp [succ]; omega
    have hle : succ r ≤ n := by
      cases r with
      | none => simp [succ]
      | some m =>
        obtain ⟨⟨q, hq, hle⟩, _, _⟩ := h1 m rfl
        simp only [Option.some.injEq] at hq
        simp [succ]; omega
    have hpre : ∀ T', T' <+: T ++ [c] → T' ≠ T ++ [c] → T' <+: T := by
      intro T' h1 h2
      rcases List.prefix_concat_iff.mp h1 with h | h
      · exact absurd h h2
      · exact h
    by_cases hge : n ≤ succ r
    · rw [if_pos hge]
      have heq : succ r = n := by omega
      refine ⟨_, rfl, ?_, by simp⟩
      intro o ho
      simp only [Option.some.injEq] at ho
      rw [heq] at hsuf
      have hl := hsuf.length_le
      simp at hl
      refine ⟨[c], rest, rfl, hsuf, by simp; omega, ?_⟩
      intro T' h1 h2
      exact hno T' (hpre T' h1 h2)
    · rw [if_neg hge]
      have hno' : ∀ T', T' <+: T ++ [c] → ¬ P.take n <:+ T' := by
        intro T' h1
        by_cases h2 : T' = T ++ [c]
        · subst h2
          intro h3
          exact hge (hmax n (Nat.le_refl _) h3)
        · exact hno T' (hpre T' h1 h2)
      obtain ⟨r', e', f', g'⟩ := ih (T ++ [c]) (succ r) ⟨by omega, hsuf, hmax⟩ hno'
      rw [List.length_append, List.length_singleton] at e'
      refine ⟨r', e', ?_, ?_⟩
      · intro o ho
        obtain ⟨T1, T2, hr, h3, h4, h5⟩ := f' o ho
        rw [List.append_assoc, List.singleton_append] at h3 h4 h5
        exact ⟨c :: T1, T2, by simp [hr], h3, h4, h5⟩
      · intro hr T' hT'
        have := g' hr T'
        rw [List.append_assoc, List.singleton_append] at this
        exact this hT'

end Mtev.Str
