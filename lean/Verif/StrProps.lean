import Verif.Str

/-!
# C09 (substring search), C10/C48 (growable buffers), C42 (`strlcpy`/`strlcat`), C47 (`mtev_strndup`)
-/

namespace Mtev.Str

open DynBuffer (toInt32)

/-! ## C09 -/

/-- `o` is the position of the first occurrence of `nd` in `hay`; `none`: there is none. -/
def FirstOcc (nd hay : List Nat) : Option Nat → Prop
  | some o => nd <+: hay.drop o ∧ ∀ o', o' < o → ¬ nd <+: hay.drop o'
  | none => ∀ o, ¬ nd <+: hay.drop o

theorem occ_end {nd hay : List Nat} {o : Nat} (hne : nd ≠ []) (h : nd <+: hay.drop o) :
    o + nd.length ≤ hay.length ∧ nd <:+ hay.take (o + nd.length) := by
  have hl := h.length_le
  have hpos : 0 < nd.length := List.length_pos_iff.mpr hne
  simp at hl
  refine ⟨by omega, ?_⟩
  obtain ⟨t, ht⟩ := h
  refine ⟨hay.take o, ?_⟩
  have e : (hay.drop o).take nd.length = nd := by rw [← ht]; simp
  rw [List.take_add, e]

/-- **C09 (partial).** For needles of 1 to 255 bytes followed by at least one readable byte,
the search touches no memory outside its objects and returns the position of the first
occurrence, or NULL exactly when there is none. Missing: needles of 256 bytes, and needles at the
very end of their memory object, where the code misbehaves (`..._violated`). -/
theorem C09_strnstrn_first_partial (needle : Block) (n : Nat) (hay : List Nat) (h0 : 0 < n) (h1 : n ≤ 255) (h2 : n < needle.length) :
    ∃ r, strnstrn needle n hay = .ok r ∧ FirstOcc (needle.take n) hay r := by
  obtain ⟨tab, e, l, t⟩ := precompute_spec (P := needle) (n := n) h2 (by omega)
  obtain ⟨r, er, f, g⟩ := matchLoop_spec (P := needle) (n := n) (tab := tab) h0 (by omega) (by omega) t hay [] 0
    ⟨h0, by simp, by
      intro k hk hs
      have := hs.length_le
      simp only [List.length_take, List.length_nil] at this; omega⟩
    (by
      intro T' hT' hs
      have := hs.length_le
      rw [List.prefix_nil.mp hT'] at this
      simp only [List.length_take, List.length_nil] at this; omega)
  have hlen : (needle.take n).length = n := by simp; omega
  have hne : needle.take n ≠ [] := by intro h; rw [h] at hlen; simp at hlen; omega
  refine ⟨r, ?_, ?_⟩
  · unfold strnstrn
    rw [if_neg (by omega), if_neg (by omega), e]
    exact er
  · cases r with
    | none =>
      intro o ho
      obtain ⟨ho1, ho2⟩ := occ_end hne ho
      exact g rfl _ (by simpa using List.take_prefix _ _) ho2
    | some o =>
      obtain ⟨T1, T2, rfl, hs, hl, hm⟩ := f o rfl
      rw [List.nil_append] at hs hl hm
      obtain ⟨X, hX⟩ := hs
      have hXl : X.length = o := by
        have := congrArg List.length hX
        simp only [List.length_append, hlen] at this; omega
      constructor
      · rw [← hX, List.append_assoc, List.drop_append_of_le_length (by omega), List.drop_of_length_le (by omega)]
        exact ⟨T2, rfl⟩
      · intro o' ho' hp
        obtain ⟨ho1, ho2⟩ := occ_end hne hp
        rw [hlen] at ho1 ho2
        have e2 : (T1 ++ T2).take (o' + n) = T1.take (o' + n) := List.take_append_of_le_length (by omega)
        rw [e2] at ho2
        refine hm _ (List.take_prefix _ _) ?_ ho2
        intro h
        have := congrArg List.length h
        simp at this
        omega

/-- **C09.** The empty needle is found at the start, and a needle over 256 bytes is a fatal error,
not a wrong answer. -/
theorem C09_strnstrn_extremes (needle : Block) (n : Nat) (hay : List Nat) :
    strnstrn needle 0 hay = .ok (some 0) ∧ (256 < n → strnstrn needle n hay = .abort) := by
  constructor
  · rfl
  · intro h; unfold strnstrn; rw [if_neg (by omega), if_pos h]

/-- **C09, violated.** A needle of exactly 256 bytes passes the size check and overflows the table by
one slot; and a needle whose memory ends with it has the byte after it read. -/
theorem C09_strnstrn_violated :
    strnstrn (List.replicate 257 97) 256 [] = .ub ∧ strnstrn (bytesOf "a") 1 (bytesOf "a") = .ub := by
  decide +kernel

/-- The 255-byte bound is sharp and the overflow does not depend on the needle's contents. -/
theorem C09_strnstrn_256 (needle : Block) (h : 256 < needle.length) (hay : List Nat) :
    strnstrn needle 256 hay = .ub := by
  have key : ∀ (m i : Nat) (j : Option Nat) (tab : List (Option Nat)), 0 < m → i + m = 256 → tab.length = i + 1 →
      TabOk needle tab → LongestBorder needle i j → precompLoop needle m i j tab = .ub := by
    intro m
    induction m with
    | zero => intro i j tab h; omega
    | succ m ih =>
      intro i j tab _ him hl ht hj
      have hi : needle[i]? = some (needle[i]'(by omega)) := List.getElem?_eq_getElem (by omega)
      obtain ⟨r, e, h1, h2⟩ := walk_spec (c := needle[i]'(by omega)) (T := needle.take i) ht (i + 1) j (by
        intro m hm
        rw [hm] at hj
        have := hj.1.1
        exact ⟨by omega, by omega, by omega, hj.1.2⟩)
      have hlb := longest_step hi hj h1 h2
      by_cases hm : m = 0
      · have hlt : succ r < i + 1 := hlb.1.1
        have ha : needle[i + 1]? = some (needle[i + 1]'(by omega)) := List.getElem?_eq_getElem (by omega)
        have hb : needle[succ r]? = some (needle[succ r]'(by omega)) := List.getElem?_eq_getElem (by omega)
        rw [precompLoop, hi]
        simp only [e, Out.ok_bind, ha, hb]
        rw [if_pos (by omega)]
      · -- the first iterations behave as in `precompLoop_spec`; take one and recurse
        obtain ⟨tab1, e1, l1, t1⟩ := precompLoop_spec (P := needle) 1 i j tab (by omega) (by omega) hl ht hj
        rw [precompLoop, hi] at e1 ⊢
        simp only [e, Out.ok_bind] at e1 ⊢
        have hlt : succ r < i + 1 := hlb.1.1
        have ha : needle[i + 1]? = some (needle[i + 1]'(by omega)) := List.getElem?_eq_getElem (by omega)
        have hb : needle[succ r]? = some (needle[succ r]'(by omega)) := List.getElem?_eq_getElem (by omega)
        simp only [ha, hb] at e1 ⊢
        rw [if_neg (by omega)] at e1 ⊢
        split at e1
        · rename_i hab
          rw [if_pos hab]
          have hq : tab[succ r]? = some (tab[succ r]'(by omega)) := List.getElem?_eq_getElem (by omega)
          rw [hq] at e1 ⊢
          simp only [precompLoop, Out.ok.injEq] at e1 ⊢
          rw [← e1] at t1
          exact ih _ _ _ (by omega) (by omega) (by simp; omega) t1 hlb
        · rename_i hab
          rw [if_neg hab]
          simp only [precompLoop, Out.ok.injEq] at e1
          rw [← e1] at t1
          exact ih _ _ _ (by omega) (by omega) (by simp; omega) t1 hlb
  unfold strnstrn
  rw [if_neg (by omega), if_neg (by omega)]
  have : precompute needle 256 = .ub := key 256 0 none [none] (by omega) (by omega) rfl (by
    intro i t h
    cases i with
    | zero => simp at h; subst h; intro k hk; exact absurd hk.1 (by omega)
    | succ i => simp at h) rfl
  rw [this]; rfl

example : strnstrn (bytesOf "aabaaab?") 7 (bytesOf "aabaabaaabx") = .ok (some 3) := by decide +kernel
example : strnstrn (bytesOf "abac?") 4 (bytesOf "ababab") = .ok none := by decide +kernel

/-! ## C47: `mtev_strndup` -/

theorem strndupLen_spec (src : Block) (len : Nat) : ∀ (k slen : Nat), slen + k = len →
    (∀ j, j < slen → ∃ c, src[j]? = some c ∧ c ≠ 0) →
    (len ≤ src.length ∨ 0 ∈ src) →
    strndupLen src len slen k = .ok ((src.take len).takeWhile (· ≠ 0)).length := by
  intro k
  induction k with
  | zero =>
    intro slen h hnz _
    rw [strndupLen]
    have hl : len ≤ src.length := by
      by_contra hh
      obtain ⟨c, hc, _⟩ := hnz (len - 1) (by omega)
      have := List.getElem?_eq_none (l := src) (i := len - 1) (by
        rcases Nat.lt_or_ge (len - 1) src.length with h1 | h1
        · omega
        · exact h1)
      rw [this] at hc; simp at hc
    have hall : (src.take len).takeWhile (· ≠ 0) = src.take len := by
      have key : ∀ l : List Nat, (∀ x ∈ l, x ≠ 0) → l.takeWhile (· ≠ 0) = l := by
        intro l
        induction l with
        | nil => simp
        | cons a l ih =>
          intro h
          rw [List.takeWhile_cons_of_pos (by simpa using h a (by simp)), ih (fun x hx => h x (by simp [hx]))]
      refine key _ ?_
      intro x hx
      obtain ⟨j, hj, rfl⟩ := List.getElem_of_mem hx
      simp at hj
      obtain ⟨c, hc, hne⟩ := hnz j (by omega)
      rw [List.getElem?_eq_getElem (by omega)] at hc
      simp at hc
      simp [hc, hne]
    rw [hall]
    congr 1
    simp; omega
  | succ k ih =>
    intro slen h hnz hin
    rw [strndupLen, if_pos (by omega)]
    have hsl : slen < src.length := by
      by_contra hh
      rcases hin with h1 | h1
      · omega
      · obtain ⟨j, hj, h0⟩ := List.getElem_of_mem h1
        obtain ⟨c, hc, hne⟩ := hnz j (by omega)
        rw [List.getElem?_eq_getElem hj] at hc
        simp at hc
        omega
    rw [List.getElem?_eq_getElem hsl]
    simp only
    by_cases hc : src[slen] = 0
    · rw [if_pos hc]
      congr 1
      have e1 : src.take len = src.take slen ++ (src.drop slen).take (len - slen) := by
        rw [← List.take_add]; congr 1; omega
      have e2 : src.drop slen = src[slen] :: src.drop (slen + 1) := List.drop_eq_getElem_cons hsl
      have e3 : len - slen = (len - slen - 1) + 1 := by omega
      rw [e1, e2, e3, List.take_succ_cons, hc, List.takeWhile_append_of_pos]
      · simp; omega
      · intro x hx
        obtain ⟨j, hj, rfl⟩ := List.getElem_of_mem hx
        simp at hj
        obtain ⟨c, hc', hne⟩ := hnz j (by omega)
        rw [List.getElem?_eq_getElem (by omega)] at hc'
        simp at hc'
        simp [hc', hne]
    · rw [if_neg hc]
      refine ih (slen + 1) (by omega) ?_ hin
      intro j hj
      by_cases hj2 : j = slen
      · subst hj2; exact ⟨_, List.getElem?_eq_getElem hsl, hc⟩
      · exact hnz j (by omega)

/-- **C47.** `mtev_strndup(src, len)` returns a NUL-terminated copy of the bytes before the first NUL
or the first `len` bytes, whichever is shorter, reading nothing past them; the memory it needs is
exactly what it allocates. -/
theorem C47_strndup (junk : Nat → Nat) (src : Block) (len : Nat) (h : len ≤ src.length ∨ 0 ∈ src) :
    strndup junk src len = .ok ((src.take len).takeWhile (· ≠ 0) ++ [0]) := by
  have e := strndupLen_spec src len len 0 (by omega) (by intro j hj; omega) h
  unfold strndup
  rw [e]
  simp only [Out.ok_bind]
  have hp : (src.take len).takeWhile (· ≠ 0) <+: src := (List.takeWhile_prefix _).trans (List.take_prefix _ _)
  have hl := hp.length_le
  rw [Block.read_ok (by omega)]
  simp only [Out.ok_bind, List.drop_zero]
  have ht : src.take ((src.take len).takeWhile (· ≠ 0)).length = (src.take len).takeWhile (· ≠ 0) := by
    conv_rhs => rw [List.prefix_iff_eq_take.mp hp]
  rw [ht]
  generalize (src.take len).takeWhile (· ≠ 0) = w
  rw [Block.write_ok (by simp)]
  simp only [Out.ok_bind]
  rw [Block.write_ok (by simp)]
  simp

example : strndup (fun _ => 170) (bytesOf "hello") 3 = .ok (bytesOf "hel" ++ [0]) := by decide +kernel
example : strndup (fun _ => 170) [104, 0] 7 = .ok [104, 0] := by decide +kernel

/-! ## C10: prepending -/

structure PreInv (b : Pre) : Prop where
  len : b.buff.length = b.len + 1
  str : b.str ≤ b.len
  nul : b.buff[b.len]? = some 0

/-- The text `string` points to. -/
def preContent (b : Pre) : List Nat := (b.buff.drop b.str).take (b.len - b.str)

theorem growth_eq (a : Nat) : growth a = a + a / 2 + 1 := by
  simp [growth, Nat.shiftRight_eq_div_pow]

theorem write_at (b : Block) (off : Nat) (s : List Nat) (h : off + s.length ≤ b.length) :
    ∃ b', b.write off s = .ok b' ∧ b'.length = b.length ∧ b'.drop off = s ++ b.drop (off + s.length) ∧
      b'.take off = b.take off ∧ ∀ i, off + s.length ≤ i → b'[i]? = b[i]? := by
  refine ⟨_, Block.write_ok h, ?_, ?_, ?_, ?_⟩
  · simp; omega
  · rw [List.append_assoc, List.drop_append_of_le_length (by simp; omega), List.drop_of_length_le (by simp)]
    rfl
  · rw [List.append_assoc, List.take_append_of_le_length (by simp; omega), List.take_take, Nat.min_self]
  · intro i hi
    rw [List.getElem?_append_right (by simp; omega), List.getElem?_drop]
    congr 1
    simp; omega

theorem prepend_spec {b : Pre} (s : List Nat) (h : PreInv b) (hb : b.len + s.length < 2 ^ 30) :
    ∃ b', prepend b s = .ok b' ∧ PreInv b' ∧ preContent b' = s ++ preContent b ∧
      b'.len ≤ max b.len (3 * ((b.len - b.str) + s.length) + 1) ∧ b'.len - b'.str = (b.len - b.str) + s.length := by
  -- the common last part
  have last : ∀ b1 : Pre, PreInv b1 → s.length ≤ b1.str →
      ∃ b', (if b1.str < s.length then (.ub : Out Pre) else do
        let buff ← b1.buff.write (b1.str - s.length) s
        .ok ⟨buff, b1.str - s.length, b1.len⟩) = .ok b' ∧ PreInv b' ∧ preContent b' = s ++ preContent b1 ∧
        b'.len = b1.len ∧ b'.len - b'.str = (b1.len - b1.str) + s.length := by
    intro b1 i hs
    have hl := i.len
    have hst := i.str
    rw [if_neg (by omega)]
    obtain ⟨c, e, l, d, _, g⟩ := write_at b1.buff (b1.str - s.length) s (by omega)
    rw [e]
    refine ⟨_, rfl, ⟨by simp [l, hl], by simp; omega, ?_⟩, ?_, rfl, by simp; omega⟩
    · simp only
      rw [g _ (by omega)]; exact i.nul
    · simp only [preContent]
      rw [d, List.take_append, List.take_of_length_le (by omega)]
      congr 1
      rw [show b1.str - s.length + s.length = b1.str by omega]
      congr 1
      omega
  have hl := h.len
  have hst := h.str
  unfold prepend
  by_cases hlt : b.str < s.length
  · rw [if_pos hlt]
    have hg := growth_eq (b.len + s.length)
    have hi : toInt32 (growth (b.len + s.length)) = (growth (b.len + s.length) : Int) :=
      DynBuffer.toInt32_small (by omega)
    simp only [hi]
    rw [if_neg (by omega), Block.read_ok (by omega)]
    simp only [Int.toNat_natCast, Out.ok_bind]
    rw [if_neg (by omega)]
    generalize hN : growth (b.len + s.length) = N at *
    have hcl : ((b.buff.drop b.str).take (b.len - b.str)).length = b.len - b.str := by simp; omega
    obtain ⟨c, e, l, d, _, _⟩ := write_at (calloc (N + 1)) (N - (b.len - b.str)) ((b.buff.drop b.str).take (b.len - b.str))
      (by rw [hcl]; simp; omega)
    rw [e]
    simp only [Out.ok_bind]
    obtain ⟨c2, e2, l2, d2, t2, _⟩ := write_at c N [0] (by rw [l]; simp)
    rw [e2]
    simp only [Out.ok_bind]
    rw [hcl] at d
    have e5 : N - (b.len - b.str) + (b.len - b.str) = N := by omega
    rw [e5] at d
    have inv1 : PreInv ⟨c2, N - (b.len - b.str), N⟩ := by
      refine ⟨by simp [l2, l], by simp, ?_⟩
      simp only
      have := congrArg (fun x : List Nat => x[0]?) d2
      simpa using this
    have cont1 : preContent ⟨c2, N - (b.len - b.str), N⟩ = preContent b := by
      simp only [preContent]
      have h3 : c2.take N = c.take N := t2
      have e6 : ∀ x : List Nat, (x.drop (N - (b.len - b.str))).take (N - (N - (b.len - b.str))) =
          (x.take N).drop (N - (b.len - b.str)) := by
        intro x; rw [List.drop_take]
      rw [e6, h3, ← e6, d, List.take_append_of_le_length (by rw [hcl]; omega), List.take_of_length_le (by rw [hcl]; omega)]
    obtain ⟨b', e7, i7, c7, l7, s7⟩ := last _ inv1 (by simp; omega)
    exact ⟨b', e7, i7, by rw [c7, cont1], by simp at l7; omega, by simp at s7; omega⟩
  · rw [if_neg hlt]
    simp only [Out.ok_bind]
    obtain ⟨b', e7, i7, c7, l7, s7⟩ := last b h (by omega)
    exact ⟨b', e7, i7, c7, by omega, s7⟩

/-- Prepend the pieces in turn. -/
def prependAll (b : Pre) : List (List Nat) → Out Pre
  | [] => .ok b
  | s :: r => do let b ← prepend b s; prependAll b r

theorem prependAll_spec (ss : List (List Nat)) {b : Pre} (h : PreInv b)
    (hb : max b.len (3 * (b.len - b.str + (ss.map List.length).sum) + 1) + (ss.map List.length).sum < 2 ^ 30) :
    ∃ b', prependAll b ss = .ok b' ∧ PreInv b' ∧ preContent b' = ss.reverse.flatten ++ preContent b := by
  induction ss generalizing b with
  | nil => exact ⟨b, rfl, h, by simp⟩
  | cons s r ih =>
    simp only [List.map_cons, List.sum_cons] at hb
    obtain ⟨b1, e, i, c, l, st⟩ := prepend_spec s h (by omega)
    obtain ⟨b2, e2, i2, c2⟩ := ih i (by omega)
    refine ⟨b2, by simp [prependAll, e, e2], i2, ?_⟩
    rw [c2, c]; simp

/-- **C10 (partial).** Any sequence of prepends yields the pieces in reverse order, NUL-terminated,
`mtev_prepend_strlen` returns its length, and no access is out of bounds. Missing: buffers of 2^27
bytes and more, where the `int` length of the code eventually overflows. -/
theorem C10_prepend_partial (n : Nat) (ss : List (List Nat)) (hn : n < 2 ^ 27) (hs : (ss.map List.length).sum < 2 ^ 27) :
    ∃ b, prependAll (preAlloc n) ss = .ok b ∧ (b.buff.drop b.str).take (preLen b) = ss.reverse.flatten ∧
      preLen b = (ss.map List.length).sum ∧ b.buff[b.str + preLen b]? = some 0 := by
  have i0 : PreInv (preAlloc n) := ⟨by simp [preAlloc], by simp [preAlloc], by simp [preAlloc, calloc]⟩
  obtain ⟨b, e, i, c⟩ := prependAll_spec ss i0 (by simp [preAlloc]; omega)
  have c0 : preContent (preAlloc n) = [] := by simp [preContent, preAlloc]
  rw [c0, List.append_nil] at c
  refine ⟨b, e, c, ?_, ?_⟩
  · have := congrArg List.length c
    have hl := i.len
    have hst := i.str
    simp only [preContent, List.length_take, List.length_drop, List.length_flatten, List.map_reverse, List.sum_reverse] at this
    unfold preLen; omega
  · have hst := i.str
    rw [preLen, show b.str + (b.len - b.str) = b.len by omega]; exact i.nul

/-! ## C10, C48: appending -/

structure AppInv (b : App) : Prop where
  len : b.str.length = b.len
  fin : b.fin ≤ b.len
  zero : ∀ x ∈ b.str.drop b.fin, x = 0

def appContent (b : App) : List Nat := b.str.take b.fin

theorem append_spec {b : App} (s : List Nat) (h : AppInv b) (hb : b.len + s.length < 2 ^ 30) :
    ∃ b', append b s = .ok b' ∧ AppInv b' ∧ appContent b' = appContent b ++ s ∧
      b'.len ≤ max b.len (3 * (b.fin + s.length) + 1) ∧ b'.fin = b.fin + s.length ∧
      (b.len - b.fin < s.length → b'.fin < b'.len) := by
  have last : ∀ b1 : App, AppInv b1 → b1.fin + s.length ≤ b1.len →
      ∃ b', (do
        let str ← b1.str.write b1.fin s
        .ok (⟨str, b1.fin + s.length, b1.len⟩ : App)) = .ok b' ∧ AppInv b' ∧ appContent b' = appContent b1 ++ s ∧
        b'.len = b1.len ∧ b'.fin = b1.fin + s.length := by
    intro b1 i hs
    have hl := i.len
    have hw := Block.write_ok (b := b1.str) (off := b1.fin) (data := s) (by omega)
    have ht := Block.write_take hw
    have hd := Block.write_drop hw
    have hln := Block.write_length hw
    rw [hw]
    refine ⟨_, rfl, ⟨by rw [← hl]; exact hln, hs, ?_⟩, ht, rfl, rfl⟩
    intro x hx
    rw [hd] at hx
    refine i.zero x ?_
    rw [← List.drop_drop] at hx
    exact List.drop_subset _ _ hx
  have hl := h.len
  have hf := h.fin
  unfold append
  by_cases hlt : b.len - b.fin < s.length
  · rw [if_pos hlt]
    have hg := growth_eq (b.len + s.length)
    have hi : toInt32 (growth (b.len + s.length)) = (growth (b.len + s.length) : Int) :=
      DynBuffer.toInt32_small (by omega)
    simp only [hi]
    rw [if_neg (by omega), Block.read_ok (by omega)]
    simp only [Int.toNat_natCast, Out.ok_bind, List.drop_zero]
    generalize hN : growth (b.len + s.length) = N at *
    have hcl : (b.str.take b.fin).length = b.fin := by simp; omega
    have hw := Block.write_ok (b := calloc N) (off := 0) (data := b.str.take b.fin) (by rw [hcl]; simp; omega)
    rw [hw]
    simp only [Out.ok_bind]
    have inv1 : AppInv ⟨(calloc N).take 0 ++ b.str.take b.fin ++ (calloc N).drop (0 + (b.str.take b.fin).length), b.fin, N⟩ := by
      refine ⟨by have := Block.write_length hw; simpa using this, by simp; omega, ?_⟩
      intro x hx
      have hd := Block.write_drop hw
      rw [hcl, Nat.zero_add] at hd
      simp only [hcl, Nat.zero_add] at hx
      rw [hd] at hx
      exact List.eq_of_mem_replicate (List.drop_subset _ _ hx)
    obtain ⟨b', e7, i7, c7, l7, s7⟩ := last _ inv1 (by simp; omega)
    refine ⟨b', e7, i7, ?_, by simp at l7; omega, by simpa using s7, by simp at l7 s7; omega⟩
    rw [c7]
    have ht := Block.write_take hw
    rw [hcl, Nat.zero_add] at ht
    simp only [appContent, hcl, Nat.zero_add]
    rw [ht]; simp
  · rw [if_neg hlt]
    simp only [Out.ok_bind]
    obtain ⟨b', e7, i7, c7, l7, s7⟩ := last b h (by omega)
    exact ⟨b', e7, i7, c7, by omega, s7, fun h => absurd h hlt⟩

def appendAll (b : App) : List (List Nat) → Out App
  | [] => .ok b
  | s :: r => do let b ← append b s; appendAll b r

theorem appendAll_spec (ss : List (List Nat)) {b : App} (h : AppInv b)
    (hb : max b.len (3 * (b.fin + (ss.map List.length).sum) + 1) + (ss.map List.length).sum < 2 ^ 30) :
    ∃ b', appendAll b ss = .ok b' ∧ AppInv b' ∧ appContent b' = appContent b ++ ss.flatten ∧
      b'.fin = b.fin + (ss.map List.length).sum := by
  induction ss generalizing b with
  | nil => exact ⟨b, rfl, h, by simp, by simp⟩
  | cons s r ih =>
    simp only [List.map_cons, List.sum_cons] at hb
    obtain ⟨b1, e, i, c, l, st, _⟩ := append_spec s h (by omega)
    obtain ⟨b2, e2, i2, c2, f2⟩ := ih i (by omega)
    refine ⟨b2, by simp [appendAll, e, e2], i2, ?_, by simp; omega⟩
    rw [c2, c]; simp

/-- **C10 (partial).** Any sequence of appends yields the concatenation of the pieces,
`mtev_str_buff_len` its length, and no access is out of bounds. Missing: as for prepends. -/
theorem C10_append_partial (n : Nat) (ss : List (List Nat)) (hn : n < 2 ^ 27) (hs : (ss.map List.length).sum < 2 ^ 27) :
    ∃ b, appendAll (appAlloc n) ss = .ok b ∧ (toString b).take b.fin = ss.flatten ∧ b.fin = ss.flatten.length := by
  have i0 : AppInv (appAlloc n) := ⟨by simp [appAlloc], by simp [appAlloc], by
    intro x hx; exact List.eq_of_mem_replicate (List.drop_subset _ _ hx)⟩
  obtain ⟨b, e, i, c, f⟩ := appendAll_spec ss i0 (by simp [appAlloc]; omega)
  refine ⟨b, e, ?_, ?_⟩
  · simpa [appContent, appAlloc, toString] using c
  · rw [f]; simp [appAlloc, List.length_flatten]

/-- **C48 (partial).** The string handed out by `mtev_str_buff_to_string` is NUL-terminated inside
its memory unless the pieces fill the buffer exactly. Missing: the exactly full buffer, where there
is no terminator (`..._violated`). -/
theorem C48_to_string_terminated_partial (n : Nat) (ss : List (List Nat)) (hn : n < 2 ^ 27) (hs : (ss.map List.length).sum < 2 ^ 27)
    (b : App) (hb : appendAll (appAlloc n) ss = .ok b) (hfull : b.fin < b.len) :
    (toString b)[ss.flatten.length]? = some 0 := by
  have i0 : AppInv (appAlloc n) := ⟨by simp [appAlloc], by simp [appAlloc], by
    intro x hx; exact List.eq_of_mem_replicate (List.drop_subset _ _ hx)⟩
  obtain ⟨b', e, i, c, f⟩ := appendAll_spec ss i0 (by simp [appAlloc]; omega)
  rw [hb] at e
  simp only [Out.ok.injEq] at e
  subst e
  have hl := i.len
  have hfl : ss.flatten.length = b.fin := by rw [f]; simp [appAlloc, List.length_flatten]
  rw [hfl]
  unfold toString
  rw [List.getElem?_eq_getElem (by omega)]
  congr 1
  refine i.zero _ ?_
  rw [List.drop_eq_getElem_cons (by omega)]
  exact List.mem_cons_self

/-- **C48, violated.** Appending 8 bytes to a default buffer fills it exactly and the returned
string has no terminator in its memory. -/
theorem C48_to_string_violated :
    ∃ b, appendAll (appAlloc 8) [bytesOf "12345678"] = .ok b ∧ toString b = bytesOf "12345678" ∧ 0 ∉ toString b :=
  ⟨_, rfl, by decide +kernel, by decide +kernel⟩

example : ∃ b, appendAll (appAlloc 8) [bytesOf "1234", bytesOf "567890"] = .ok b ∧ appContent b = bytesOf "1234567890" ∧ b.len = 22 :=
  ⟨_, rfl, by decide +kernel, by decide +kernel⟩
example : ∃ b, prependAll (preAlloc 8) [bytesOf "worldworld", bytesOf "hello "] = .ok b ∧ preContent b = bytesOf "hello worldworld" :=
  ⟨_, rfl, by decide +kernel⟩

/-! ## C42 -/

theorem cstr_append_nul {s r : List Nat} (hs : ∀ x ∈ s, x ≠ 0) : cstr (s ++ 0 :: r) = s := by
  unfold cstr
  rw [List.takeWhile_append_of_pos (by simpa using hs)]
  simp

/-- **C42 (partial).** With `size > 0` and a destination of at least `size` bytes, `strlcpy` leaves
in it the terminated string of the first `size-1` bytes of the source, touches nothing from
`dst[size]` on and returns the source length. Missing: `size = 0`, see `..._violated`. -/
theorem C42_strlcpy_partial (dst : Block) (src : List Nat) (size : Nat) (hsrc : ∀ x ∈ src, x ≠ 0) (hs : 0 < size) (hd : size ≤ dst.length) :
    ∃ d, strlcpy dst src size = .ok (d, src.length) ∧ cstr d = src.take (size - 1) ∧ d.drop size = dst.drop size ∧
      d.length = dst.length := by
  unfold strlcpy
  rw [if_pos (by omega)]
  have hl : (src.take (size - 1) ++ List.replicate (size - 1 - src.length) 0).length = size - 1 := by simp; omega
  obtain ⟨m, hw, e3, e1, _, e2⟩ := Block.write_spec dst 0 (src.take (size - 1) ++ List.replicate (size - 1 - src.length) 0)
    (by rw [hl]; omega)
  rw [hw]
  rw [hl] at e1 e2
  simp only [Out.ok_bind]
  obtain ⟨d, hw2, f3, f1, _, f2⟩ := Block.write_spec m (size - 1) [0] (by simp; omega)
  rw [hw2]
  simp only [List.length_singleton, Nat.zero_add, show size - 1 + 1 = size by omega] at f1 f2 e1 e2
  refine ⟨_, rfl, ?_, ?_, by rw [f3, e3]⟩
  · rw [← List.take_append_drop size d, f1, e1]
    simp only [List.take_zero, List.nil_append, List.append_assoc, List.singleton_append]
    have hnz : ∀ x ∈ src.take (size - 1), x ≠ 0 := fun x hx => hsrc x (List.take_subset _ _ hx)
    cases hr : size - 1 - src.length with
    | zero => simpa using cstr_append_nul hnz
    | succ k => simpa [List.replicate_succ] using cstr_append_nul hnz
  · rw [f2]
    have h2 := congrArg (List.drop 1) e2
    rw [List.drop_drop, List.drop_drop, show size - 1 + 1 = size by omega] at h2
    exact h2

/-- **C42, violated.** With `size = 0` the fallback `strlcpy` stores a byte although the caller gave
it no room. -/
theorem C42_strlcpy_violated (src : List Nat) : strlcpy [] src 0 = .ub ∧ strlcpy [65] src 0 = .ok ([0], src.length) := by
  constructor <;> rfl

/-- **C42 (partial).** For `size` below 2^31 and a terminated destination of at least `size` bytes,
`strlcat` leaves the terminated concatenation cut to `size-1` bytes if the destination string is
shorter than `size`, and the destination unchanged otherwise; it touches nothing from `dst[size]` on
and returns the length of the full concatenation. Missing: `size ≥ 2^31` (`..._violated`). -/
theorem C42_strlcat_partial (dst : Block) (src : List Nat) (size : Nat) (hsrc : ∀ x ∈ src, x ≠ 0) (hs : size < 2 ^ 31)
    (hd : size ≤ dst.length) (hnul : 0 ∈ dst) (hdl : (cstr dst).length < 2 ^ 31) :
    ∃ d, strlcat dst src size = .ok (d, (cstr dst).length + src.length) ∧
      (if (cstr dst).length < size then cstr d = (cstr dst ++ src).take (size - 1) ∧ d.drop size = dst.drop size else d = dst) := by
  have hsl : strlen dst = .ok (dst.takeWhile (· ≠ 0)).length := if_pos hnul
  simp only [strlcat, hsl, Out.ok_bind]
  have hc : (dst.takeWhile (· ≠ 0)) = cstr dst := rfl
  rw [hc]
  have hpre : cstr dst <+: dst := List.takeWhile_prefix _
  have htk : dst.take (cstr dst).length = cstr dst := (List.prefix_iff_eq_take.mp hpre).symm
  have hcnz : ∀ x ∈ cstr dst, x ≠ 0 := by
    intro x hx
    have := List.all_takeWhile (p := fun x => decide (x ≠ 0)) (l := dst)
    rw [List.all_eq_true] at this
    simpa using this x hx
  generalize hL : (cstr dst).length = L at *
  by_cases hlt : L < size
  · have e : toInt32 (sub64 size (L + 1)) = ((size - L - 1 : Nat) : Int) := by
      rw [sub64_le (by omega) (by omega), show size - (L + 1) = size - L - 1 by omega]
      exact DynBuffer.toInt32_small (by omega)
    rw [e, if_pos (by omega)]
    simp only [if_pos hlt]
    simp only [Int.toNat_natCast]
    have hl : (src.take (size - L - 1) ++ [0]).length ≤ size - L := by simp; omega
    obtain ⟨m, hw, e3, e1, _, e4⟩ := Block.write_spec dst L (src.take (size - L - 1) ++ [0]) (by omega)
    rw [hw]
    simp only [Out.ok_bind]
    obtain ⟨d, hw2, _, f0, f1, f2⟩ := Block.write_spec m (L + (size - L - 1)) [0] (by simp; omega)
    rw [hw2]
    refine ⟨d, rfl, ?_, ?_⟩
    · have hsz : L + (size - L - 1) = size - 1 := by omega
      rw [hsz] at f0 f1
      rw [htk] at e1
      have hnz : ∀ x ∈ cstr dst ++ src.take (size - L - 1), x ≠ 0 := by
        intro x hx
        rcases List.mem_append.mp hx with h | h
        · exact hcnz x h
        · exact hsrc x (List.take_subset _ _ h)
      have htarget : (cstr dst ++ src).take (size - 1) = cstr dst ++ src.take (size - L - 1) := by
        rw [List.take_append, List.take_of_length_le (by omega), hL]
        congr 2; omega
      rw [htarget]
      simp only [List.length_append, List.length_take, List.length_singleton] at e1
      by_cases hsl : src.length < size - L - 1
      · -- the source ends before the limit: the first NUL is the one of strncat
        have h2 := congrArg (List.take (L + (src.length + 1))) f1
        rw [List.take_take, List.take_take, Nat.min_eq_left (by omega)] at h2
        rw [show min (size - L - 1) src.length = src.length by omega] at e1
        rw [e1] at h2
        rw [← List.take_append_drop (L + (src.length + 1)) d, h2, ← List.append_assoc, List.append_assoc]
        exact cstr_append_nul hnz
      · have h2 := congrArg (List.take (size - 1)) e1
        rw [List.take_take, show min (size - L - 1) src.length = size - L - 1 by omega, Nat.min_eq_left (by omega)] at h2
        have hln : (cstr dst ++ src.take (size - L - 1)).length = size - 1 := by
          rw [List.length_append, List.length_take]; omega
        rw [← List.append_assoc, ← hln, List.take_left, hln] at h2
        rw [h2] at f0
        rw [← List.take_append_drop (size - 1 + [0].length) d, f0, List.append_assoc]
        exact cstr_append_nul hnz
    · rw [show L + (size - L - 1) + [0].length = size by simp; omega] at f2
      rw [f2]
      have h2 := congrArg (List.drop (size - (L + (src.take (size - L - 1) ++ [0]).length))) e4
      generalize (src.take (size - L - 1) ++ [0]).length = K at *
      rw [List.drop_drop, List.drop_drop, show L + K + (size - (L + K)) = size by omega] at h2
      exact h2
  · have e : toInt32 (sub64 size (L + 1)) < 0 := by
      rw [sub64_gt (by omega) (by omega)]
      unfold toInt32
      split <;> omega
    rw [if_neg (by omega)]
    simp only [if_neg hlt]
    exact ⟨dst, rfl, rfl⟩

/-- **C42, violated.** With `size = 2^31 + 1` the fallback `strlcat` appends nothing to an empty
string, whatever the room. -/
theorem C42_strlcat_violated (dst : Block) (src : List Nat) (h : dst.head? = some 0) :
    strlcat dst src (2 ^ 31 + 1) = .ok (dst, src.length) ∧ cstr dst = [] := by
  cases dst with
  | nil => simp at h
  | cons a r =>
    simp at h
    subst h
    refine ⟨?_, by simp [cstr]⟩
    unfold strlcat strlen
    rw [if_pos (by simp)]
    simp only [Out.ok_bind, ne_eq, decide_not, not_true, decide_true, Bool.not_true, List.takeWhile_cons, Bool.false_eq_true, if_false, List.length_nil]
    rw [if_neg (by decide +kernel)]
    simp

example : strlcpy (List.replicate 4 255) (bytesOf "hello") 4 = .ok (bytesOf "hel" ++ [0], 5) := by decide +kernel
example : strlcat (bytesOf "ab" ++ [0, 255, 255]) (bytesOf "hello") 5 = .ok (bytesOf "abhe" ++ [0], 7) := by decide +kernel

end Mtev.Str
