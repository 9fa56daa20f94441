import Verif.Basic

/-!
# Model of `src/utils/mtev_uuid_parse.c` and `src/utils/mtev_uuid_generate.c`

`mem` is the memory readable from `in`; reading past its end is the outcome `none`.
`isxdigit` is that of the "C" locale and is applied to the byte (the code passes a possibly
negative `char`; the C library used accepts that).
-/

namespace Mtev.Uuid

/-- `lut`, mtev_uuid_parse.c:9-19 (entries not listed are zero). -/
def lut : List Nat :=
  List.replicate 48 0 ++ [0, 1, 2, 3, 4, 5, 6, 7, 8, 9] ++ List.replicate 7 0 ++ [10, 11, 12, 13, 14, 15] ++
  List.replicate 26 0 ++ [10, 11, 12, 13, 14, 15] ++ List.replicate 153 0

/-- `hexvalue`, mtev_uuid_parse.c:21. -/
def hexvalue (c : Nat) : Nat := lut.getD c 0

/-- C `isxdigit`. -/
def isxdigit (c : Nat) : Bool := (48 ≤ c && c ≤ 57) || (65 ≤ c && c ≤ 70) || (97 ≤ c && c ≤ 102)

/-- The `for` loop of `mtev_uuid_parse`, mtev_uuid_parse.c:36-57, from position `len`; result: whether
0 is returned, and the bytes stored in `uu` so far.  `out` holds `*out` truncated to a byte. -/
def parseLoop (len : Nat) (p out : List Nat) : Option (Bool × List Nat) :=
  if h : len < 36 then
    if len = 8 ∨ len = 13 ∨ len = 18 ∨ len = 23 then
      match p with
      | [] => none
      | c :: r => if c ≠ 45 then some (false, out) else parseLoop (len + 1) r out
    else
      match p with
      | [] => none
      | c :: r =>
        if !isxdigit c then some (false, out)
        else match r with
          | [] => none
          | d :: r' =>
            if !isxdigit d then some (false, out)
            else parseLoop (len + 2) r' (out ++ [((hexvalue c * 0x10) ||| hexvalue d) % 256])
  else match p with
    | [] => none
    | c :: _ => some (c == 0, out)
termination_by 36 - len

/-- `mtev_uuid_parse`, mtev_uuid_parse.c:30-58. -/
def parse (mem : List Nat) : Option (Bool × List Nat) := parseLoop 0 mem []

/-- `reverse_lut`, mtev_uuid_parse.c:23-25. -/
def reverseLut : List Nat := [48, 49, 50, 51, 52, 53, 54, 55, 56, 57, 97, 98, 99, 100, 101, 102]

/-- `reverse_uut`, mtev_uuid_parse.c:26-28. -/
def reverseUut : List Nat := [48, 49, 50, 51, 52, 53, 54, 55, 56, 57, 65, 66, 67, 68, 69, 70]

/-- The loop of `mtev_uuid_unparse_internal`, mtev_uuid_parse.c:65-76, from index `i`. -/
def unparseLoop (cmap : List Nat) (i : Nat) : List Nat → List Nat
  | [] => []
  | b :: r =>
    [cmap.getD ((b &&& 0xf0) >>> 4) 0, cmap.getD (b &&& 0x0f) 0] ++
    (if i = 3 ∨ i = 5 ∨ i = 7 ∨ i = 9 then [45] else []) ++ unparseLoop cmap (i + 1) r

/-- `mtev_uuid_unparse_internal`, mtev_uuid_parse.c:60-78: the bytes stored at `out`. -/
def unparseInternal (cmap uu : List Nat) : List Nat := unparseLoop cmap 0 uu ++ [0]

/-- `mtev_uuid_unparse_lower` and `mtev_uuid_unparse`, mtev_uuid_parse.c:80-87. -/
def unparseLower (uu : List Nat) : List Nat := unparseInternal reverseLut uu

/-- `mtev_uuid_unparse_upper`, mtev_uuid_parse.c:88-91. -/
def unparseUpper (uu : List Nat) : List Nat := unparseInternal reverseUut uu

/-- `mtev_uuid_generate`, mtev_uuid_generate.c:9-16; `rnd` is what `mtev_rand_buf` delivered. -/
def generate (rnd : List Nat) : List Nat :=
  let p := rnd.set 6 ((rnd.getD 6 0 &&& 0x0f) ||| 0x40)
  p.set 8 ((p.getD 8 0 &&& 0x3f) ||| 0x80)

/-! ## Lemmas -/

/-- Reading `n` pairs of hex digits: out of bounds, refused, or the bytes and what follows. -/
inductive Run where
  | oob
  | bad (out : List Nat)
  | ok (bytes rest : List Nat)

def takeHex : Nat → List Nat → List Nat → Run
  | 0, p, acc => .ok acc p
  | _ + 1, [], _ => .oob
  | n + 1, c :: r, acc =>
    if !isxdigit c then .bad acc
    else match r with
      | [] => .oob
      | d :: r' => if !isxdigit d then .bad acc
        else takeHex n r' (acc ++ [((hexvalue c * 0x10) ||| hexvalue d) % 256])

theorem parseLoop_run (n len : Nat) (p out : List Nat)
    (h : ∀ k < n, len + 2 * k < 36 ∧ ¬ (len + 2 * k = 8 ∨ len + 2 * k = 13 ∨ len + 2 * k = 18 ∨ len + 2 * k = 23)) :
    parseLoop len p out = match takeHex n p out with
      | .oob => none
      | .bad o => some (false, o)
      | .ok o r => parseLoop (len + 2 * n) r o := by
  induction n generalizing len p out with
  | zero => simp [takeHex]
  | succ n ih =>
    obtain ⟨h1, h2⟩ := h 0 (by omega)
    simp only [Nat.mul_zero, Nat.add_zero] at h1 h2
    rw [parseLoop.eq_def, dif_pos h1, if_neg h2]
    match p with
    | [] => simp [takeHex]
    | c :: r =>
      simp only [takeHex]
      split
      · rfl
      · match r with
        | [] => rfl
        | d :: r' =>
          simp only
          split
          · rfl
          · rw [ih]
            · rw [show len + 2 + 2 * n = len + 2 * (n + 1) by omega]
            · intro k hk
              have := h (k + 1) (by omega)
              rw [show len + 2 + 2 * k = len + 2 * (k + 1) by omega]; exact this

theorem parseLoop_dash (len : Nat) (p out : List Nat) (h : len = 8 ∨ len = 13 ∨ len = 18 ∨ len = 23) :
    parseLoop len p out = match p with
      | [] => none
      | c :: r => if c ≠ 45 then some (false, out) else parseLoop (len + 1) r out := by
  rw [parseLoop.eq_def, dif_pos (by omega), if_pos h]

theorem parseLoop_end (p out : List Nat) :
    parseLoop 36 p out = match p with | [] => none | c :: _ => some (c == 0, out) := by
  rw [parseLoop.eq_def, dif_neg (by omega)]

theorem hexvalue_lt {c : Nat} (h : isxdigit c = true) : hexvalue c < 16 := by
  have hc : c < 256 := by simp [isxdigit] at h; omega
  have : ∀ x : Fin 256, isxdigit x.val = true → hexvalue x.val < 16 := by decide +kernel
  exact this ⟨c, hc⟩ h

theorem isxdigit_zero : isxdigit 0 = false := by decide

end Mtev.Uuid
