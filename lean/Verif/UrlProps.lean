import Verif.Url

/-! # Properties C01, C02, C03: URL and HTML encoding -/

namespace Mtev.Url

/-! ## Specification (RFC 3986 percent-encoding, independent of the tables in the code) -/

/-- An unreserved character: `A-Z a-z 0-9 - . _ ~`. -/
def Unreserved (c : Nat) : Prop :=
  (65 ≤ c ∧ c ≤ 90) ∨ (97 ≤ c ∧ c ≤ 122) ∨ (48 ≤ c ∧ c ≤ 57) ∨ c = 45 ∨ c = 46 ∨ c = 95 ∨ c = 126

/-- Value of a hexadecimal digit character. -/
def hexDigit (c : Nat) : Option Nat :=
  if 48 ≤ c ∧ c ≤ 57 then some (c - 48)
  else if 65 ≤ c ∧ c ≤ 70 then some (c - 55)
  else if 97 ≤ c ∧ c ≤ 102 then some (c - 87)
  else none

/-- `Denotes text bytes`: `text` is a percent-encoding of `bytes`. -/
inductive Denotes : List Nat → List Nat → Prop
  | nil : Denotes [] []
  | plain {c t s} : Unreserved c → Denotes t s → Denotes (c :: t) (c :: s)
  | esc {a b x y t s} : hexDigit a = some x → hexDigit b = some y → Denotes t s →
      Denotes (37 :: a :: b :: t) ((16 * x + y) :: s)

/-! ## Bridge lemmas -/

instance (c : Nat) : Decidable (Unreserved c) := by unfold Unreserved; infer_instance

theorem isallowed_iff {c : Nat} (hc : c < 256) : isallowed c = true ↔ Unreserved c := by
  have : ∀ x : Fin 256, isallowed x.val = true ↔ Unreserved x.val := by decide +kernel
  exact this ⟨c, hc⟩

theorem isHex_iff {c : Nat} (hc : c < 256) :
    (isHexByTable c = true → hexDigit c = some (hexval c)) ∧
    (isHexByTable c = false → hexDigit c = none) := by
  have : ∀ x : Fin 256, (isHexByTable x.val = true → hexDigit x.val = some (hexval x.val)) ∧
    (isHexByTable x.val = false → hexDigit x.val = none) := by decide +kernel
  exact this ⟨c, hc⟩

theorem hexval_lt (c : Nat) : hexval c < 16 := by
  unfold hexval
  by_cases h : c < 256
  · have : ∀ x : Fin 256, hexvalTable.getD x.val 0 < 16 := by decide +kernel
    exact this ⟨c, h⟩
  · have : hexvalTable.length ≤ c := by
      have : hexvalTable.length = 256 := by decide +kernel
      omega
    simp [List.getD_eq_getElem?_getD, List.getElem?_eq_none this]

theorem hexval_combine (a b : Nat) : ((hexval a <<< 4) ||| hexval b) % 256 = 16 * hexval a + hexval b := by
  have ha := hexval_lt a
  have hb := hexval_lt b
  rw [Nat.shiftLeft_eq, or_eq_add 4 (by omega) (by omega)]
  omega

theorem decodeLoop_denotes {t s : List Nat} (h : Denotes t s) (ht : IsBytes t) (acc : List Nat) :
    decodeLoop t acc = (true, acc ++ s) := by
  induction h generalizing acc with
  | nil => simp [decodeLoop]
  | @plain c t s hc _ ih =>
    rw [isBytes_cons] at ht
    have h37 : c ≠ 37 := by unfold Unreserved at hc; omega
    rw [decodeLoop]
    · rw [if_pos ((isallowed_iff ht.1).2 hc), ih ht.2]; simp
    · exact h37
  | @esc a b x y t s ha hb _ ih =>
    rw [isBytes_cons, isBytes_cons, isBytes_cons] at ht
    obtain ⟨_, h1, h2, h3⟩ := ht
    have ea : isHexByTable a = true := by
      cases h : isHexByTable a with
      | true => rfl
      | false => rw [(isHex_iff h1).2 h] at ha; cases ha
    have eb : isHexByTable b = true := by
      cases h : isHexByTable b with
      | true => rfl
      | false => rw [(isHex_iff h2).2 h] at hb; cases hb
    have ha' := (isHex_iff h1).1 ea
    have hb' := (isHex_iff h2).1 eb
    rw [ha] at ha'; rw [hb] at hb'
    cases ha'; cases hb'
    rw [decodeLoop]
    simp only [ea, eb, Bool.and_self, if_true]
    rw [ih h3, hexval_combine]; simp

theorem denotes_of_decodeLoop {t acc out : List Nat} (ht : IsBytes t)
    (h : decodeLoop t acc = (true, out)) : ∃ s, out = acc ++ s ∧ Denotes t s := by
  induction t, acc using decodeLoop.induct with
  | case1 acc => simp [decodeLoop] at h; exact ⟨[], by simp [h], .nil⟩
  | case2 acc a b rest hx ih =>
    rw [decodeLoop] at h
    simp only [hx, if_true] at h
    rw [isBytes_cons, isBytes_cons, isBytes_cons] at ht
    obtain ⟨_, h1, h2, h3⟩ := ht
    obtain ⟨s, hs, hd⟩ := ih h3 h
    simp only [Bool.and_eq_true] at hx
    refine ⟨(16 * hexval a + hexval b) :: s, ?_, ?_⟩
    · rw [hs, hexval_combine]; simp
    · exact .esc ((isHex_iff h1).1 hx.1) ((isHex_iff h2).1 hx.2) hd
  | case3 acc a b rest hx =>
    rw [decodeLoop] at h
    simp only [hx] at h
    simp at h
  | case4 rest acc hno =>
    match rest, hno with
    | [], _ => simp [decodeLoop] at h
    | [_], _ => simp [decodeLoop] at h
    | a :: b :: r, hno => exact absurd rfl (hno a b r)
  | case5 c rest acc hc ha ih =>
    rw [isBytes_cons] at ht
    rw [decodeLoop] at h
    · rw [if_pos ha] at h
      obtain ⟨s, hs, hd⟩ := ih ht.2 h
      exact ⟨c :: s, by rw [hs]; simp, .plain ((isallowed_iff ht.1).1 ha) hd⟩
    · exact hc
  | case6 c rest acc hc ha =>
    rw [decodeLoop] at h
    · rw [if_neg ha] at h; simp at h
    · exact hc

theorem encodeByte_denotes {b : Nat} (hb : b < 256) {t s : List Nat} (h : Denotes t s) :
    Denotes (encodeByte b ++ t) (b :: s) := by
  unfold encodeByte
  split
  · rename_i ha; exact .plain ((isallowed_iff hb).1 ha) h
  · have key : ∀ x : Fin 256,
        hexDigit (hexchars.getD (x.val >>> 4) 0) = some (x.val / 16) ∧
        hexDigit (hexchars.getD (x.val % 16) 0) = some (x.val % 16) := by decide +kernel
    obtain ⟨k1, k2⟩ := key ⟨b, hb⟩
    have e : b = 16 * (b / 16) + b % 16 := by omega
    have := Denotes.esc k1 k2 h
    simp only at this
    rw [← e] at this
    exact this

theorem encodeText_denotes {s : List Nat} (hs : IsBytes s) : Denotes (encodeText s) s := by
  induction s with
  | nil => exact .nil
  | cons b r ih => rw [isBytes_cons] at hs; exact encodeByte_denotes hs.1 (ih hs.2)

theorem encodeText_isBytes {s : List Nat} (hs : IsBytes s) : IsBytes (encodeText s) := by
  induction s with
  | nil => exact .nil
  | cons b r ih =>
    rw [isBytes_cons] at hs
    rw [encodeText, isBytes_append]
    refine ⟨?_, ih hs.2⟩
    have key : ∀ x : Fin 256, ∀ c ∈ encodeByte x.val, c < 256 := by decide +kernel
    exact key ⟨b, hs.1⟩

/-! ## C01 -/

/-- C01.  Encoding any byte string into a big enough buffer succeeds; decoding the text that was
written (without its terminator) succeeds and stores exactly the original bytes. -/
theorem C01_url_roundtrip (s : List Nat) (hs : IsBytes s) (dl : Nat) (hdl : encodeLen s.length ≤ dl) :
    let e := encode s dl
    let text := e.written.take e.ret
    e.written = text ++ [0] ∧
    ∀ dl2, maxDecodeLen text.length ≤ dl2 → decode text dl2 = ⟨s.length, s⟩ := by
  have h : ¬ dl < s.length * 3 := by unfold encodeLen at hdl; omega
  simp only [encode, if_neg h, List.take_left]
  refine ⟨trivial, fun dl2 h2 => ?_⟩
  unfold maxDecodeLen at h2
  unfold decode
  rw [if_neg (by omega), decodeLoop_encodeText hs]
  simp

/-- The hypotheses of `C01_url_roundtrip` met by a text with reserved, unreserved and high bytes. -/
example : encode (bytesOf "a b%~" ++ [255]) 19 = ⟨12, bytesOf "a%20b%25~%FF" ++ [0]⟩ ∧
    decode (bytesOf "a%20b%25~%FF") 13 = ⟨6, bytesOf "a b%~" ++ [255]⟩ := by decide +kernel

/-- C01.  The encoder's text is a percent-encoding of the source, and every character of it is
unreserved or `%` (so it never needs encoding again inside a URL component). -/
theorem C01_url_encode_alphabet (s : List Nat) (hs : IsBytes s) (dl : Nat) (hdl : encodeLen s.length ≤ dl) :
    let text := (encode s dl).written.take (encode s dl).ret
    Denotes text s ∧ ∀ c ∈ text, Unreserved c ∨ c = 37 := by
  have h : ¬ dl < s.length * 3 := by unfold encodeLen at hdl; omega
  simp only [encode, if_neg h, List.take_left]
  refine ⟨encodeText_denotes hs, ?_⟩
  clear h hdl
  induction s with
  | nil => intro c hc; cases hc
  | cons b r ih =>
    rw [isBytes_cons] at hs
    intro c hc
    rw [encodeText, List.mem_append] at hc
    rcases hc with hc | hc
    · have key : ∀ x : Fin 256, ∀ c ∈ encodeByte x.val, Unreserved c ∨ c = 37 := by decide +kernel
      exact key ⟨b, hs.1⟩ c hc
    · exact ih hs.2 c hc

/-- C01.  The decoder accepts exactly the percent-encodings and returns what they denote. -/
theorem C01_url_decode_exact (t : List Nat) (ht : IsBytes t) (dl : Nat) (hdl : maxDecodeLen t.length ≤ dl) :
    (∀ s, Denotes t s → decode t dl = ⟨s.length, s⟩) ∧
    ((¬ ∃ s, Denotes t s) → (decode t dl).ret = 0) := by
  unfold maxDecodeLen at hdl
  constructor
  · intro s hs
    unfold decode
    rw [if_neg (by omega), decodeLoop_denotes hs ht]; simp
  · intro hn
    unfold decode
    rw [if_neg (by omega)]
    match hr : decodeLoop t [] with
    | (true, out) =>
      obtain ⟨s, _, hd⟩ := denotes_of_decodeLoop ht hr
      exact absurd ⟨s, hd⟩ hn
    | (false, out) => simp

example : Denotes (bytesOf "%4a.") [74, 46] := .esc (x := 4) (y := 10) rfl rfl (.plain (by decide) .nil)
example : ¬ ∃ s, Denotes (bytesOf "a b") s := by
  rintro ⟨s, h⟩
  cases h with | plain _ h => cases h with | plain h _ => exact absurd h (by decide)

/-- C01.  The encoder is injective: two byte strings with the same encoding are equal. -/
theorem C01_url_encode_injective (s t : List Nat) (hs : IsBytes s) (ht : IsBytes t) (d1 d2 : Nat)
    (h1 : encodeLen s.length ≤ d1) (h2 : encodeLen t.length ≤ d2)
    (h : (encode s d1).written = (encode t d2).written) : s = t := by
  unfold encodeLen at h1 h2
  simp only [encode, if_neg (show ¬ d1 < s.length * 3 by omega), if_neg (show ¬ d2 < t.length * 3 by omega)] at h
  have h' : encodeText s = encodeText t := List.append_cancel_right h
  have a := decodeLoop_encodeText hs []
  rw [h', decodeLoop_encodeText ht []] at a
  simpa using a.symm

/-! ## C02 -/

/-- C02 (false as stated): with `dest_len` exactly `3 * src_len` and every byte escaped, the
terminating NUL is stored at `dest[dest_len]`. -/
theorem C02_url_encode_overflow_violated :
    ∃ s dl, IsBytes s ∧ (encode s dl).ret ≠ 0 ∧ (encode s dl).written.length > dl :=
  ⟨[32], 3, by intro b hb; simp at hb; omega, by decide, by decide⟩

theorem encodeText_length_eq_iff (s : List Nat) :
    (encodeText s).length = 3 * s.length ↔ ∀ b ∈ s, isallowed b = false := by
  induction s with
  | nil => simp [encodeText]
  | cons b r ih =>
    have hl := encodeText_length_le r
    simp only [encodeText, List.length_append, List.length_cons, List.forall_mem_cons, ← ih]
    unfold encodeByte
    cases h : isallowed b <;> simp <;> omega

/-- C02 (part that holds): the encoder leaves its buffer in exactly one situation, `dest_len`
equal to `3 * src_len` with no unreserved byte in the source, and then by exactly one byte; in
particular a buffer of `mtev_url_encode_len` bytes is never exceeded.  Missing from the full
claim: that one situation. -/
theorem C02_url_encode_bounds_partial (s : List Nat) (hs : IsBytes s) (dl : Nat) :
    ((encode s dl).written.length > dl ↔ dl = 3 * s.length ∧ ∀ b ∈ s, ¬ Unreserved b) ∧
    (encode s dl).written.length ≤ dl + 1 ∧
    (dl < 3 * s.length → encode s dl = ⟨0, []⟩) := by
  have hl := encodeText_length_le s
  have hiff := encodeText_length_eq_iff s
  have hall : (∀ b ∈ s, isallowed b = false) ↔ ∀ b ∈ s, ¬ Unreserved b := by
    constructor
    · intro h b hb hu
      have := h b hb; rw [(isallowed_iff (hs b hb)).2 hu] at this; cases this
    · intro h b hb
      cases hx : isallowed b with
      | false => rfl
      | true => exact absurd ((isallowed_iff (hs b hb)).1 hx) (h b hb)
  rw [hall] at hiff
  unfold encode
  split
  · refine ⟨?_, by simp, fun _ => rfl⟩
    simp; omega
  · refine ⟨?_, ?_, by omega⟩
    · rw [← hiff]; simp; omega
    · simp; omega

/-- A buffer sized by the library's own length function is never overrun. -/
theorem C02_url_encode_len_suffices (s : List Nat) (dl : Nat) (h : encodeLen s.length ≤ dl) :
    (encode s dl).written.length ≤ dl ∧ (encode s dl).written.getLast? = some 0 := by
  have hl := encodeText_length_le s
  unfold encodeLen at h
  unfold encode
  rw [if_neg (by omega)]
  simp; omega

example : encodeLen (bytesOf "x y").length ≤ 10 ∧ (encode (bytesOf "x y") 10).written = bytesOf "x%20y" ++ [0] := by
  decide +kernel

/-- The decoder stores strictly fewer bytes than `dest_len`, whatever the text. -/
theorem C02_url_decode_bounds (t : List Nat) (dl : Nat) :
    (decode t dl).written.length ≤ dl ∧ ((decode t dl).written ≠ [] → (decode t dl).written.length < dl) := by
  unfold decode
  split
  · simp
  · have := decodeLoop_length t []
    simp only [List.length_nil] at this
    constructor
    · simp; omega
    · intro _; simp; omega

/-- Encoding in place: when the source lies anywhere inside a destination buffer of at least
`mtev_url_encode_len` bytes, no access leaves the buffer and the result is the same text as
encoding from a separate source. -/
theorem C02_url_encode_in_place (mem : List Nat) (off n : Nat) (hin : off + n ≤ mem.length)
    (hcap : encodeLen n ≤ mem.length) :
    let src := (mem.drop off).take n
    ∃ m, encodeInPlace mem off n = some ((encode src mem.length).ret, m) ∧
      m.take ((encode src mem.length).ret + 1) = (encode src mem.length).written ∧
      m.length = mem.length := by
  intro src
  unfold encodeLen at hcap
  have hsrc : src.length = n := by simp [src]; omega
  have hst : mem.length - n + src.length ≤ mem.length := by omega
  have hm1 : (mem.take (mem.length - n) ++ src ++ mem.drop (mem.length - n + src.length)).length = mem.length := by
    simp; omega
  have key := inplaceLoop_spec n mem.length (by omega) src []
    (mem.take (mem.length - n) ++ src ++ mem.drop (mem.length - n + src.length)) hm1
    (by simp [hsrc]) (by simp [encodeText])
    (by
      rw [List.drop_of_length_le (l := mem) (by omega), List.append_nil, hsrc]
      rw [List.drop_append, List.drop_of_length_le (by simp)]
      simp)
  obtain ⟨m, h1, h2, h3⟩ := key
  refine ⟨m, ?_, ?_, h3⟩
  · unfold encodeInPlace
    simp only
    rw [if_neg (by omega), if_neg (by omega)]
    show (match store mem (mem.length - n) src with | none => none | some m => _) = _
    rw [store_ok hst]
    simp only
    rw [if_neg (by omega)]
    rw [hsrc] at h1
    simp only [encodeText, List.length_nil, List.nil_append] at h1
    rw [hsrc]
    rw [h1]
    unfold encode
    rw [if_neg (by omega)]
  · unfold encode
    rw [if_neg (by omega)]
    simpa using h2

example : (encodeInPlace (bytesOf "a b" ++ [0,0,0,0,0,0,0]) 0 3).map (fun r => (r.1, r.2.take 6)) =
    some (5, bytesOf "a%20b" ++ [0]) := by decide +kernel

/-! ## C03 -/

/-- `HtmlDenotes text src`: `text` is `src` with each of `< > & " '` replaced by its entity and
no other markup-significant character. -/
inductive HtmlDenotes : List Nat → List Nat → Prop
  | nil : HtmlDenotes [] []
  | plain {c t s} : c ≠ 60 → c ≠ 62 → c ≠ 38 → c ≠ 34 → c ≠ 39 → HtmlDenotes t s → HtmlDenotes (c :: t) (c :: s)
  | lt {t s} : HtmlDenotes t s → HtmlDenotes (bytesOf "&lt;" ++ t) (60 :: s)
  | gt {t s} : HtmlDenotes t s → HtmlDenotes (bytesOf "&gt;" ++ t) (62 :: s)
  | amp {t s} : HtmlDenotes t s → HtmlDenotes (bytesOf "&amp;" ++ t) (38 :: s)
  | quot {t s} : HtmlDenotes t s → HtmlDenotes (bytesOf "&#34;" ++ t) (34 :: s)
  | apos {t s} : HtmlDenotes t s → HtmlDenotes (bytesOf "&#39;" ++ t) (39 :: s)

/-- The source as `mtev_html_encode` sees it: it stops at the first NUL. -/
def cstr (s : List Nat) : List Nat := s.takeWhile (· ≠ 0)

theorem htmlByte_denotes (b : Nat) {t s : List Nat} (h : HtmlDenotes t s) :
    HtmlDenotes (htmlByte b ++ t) (b :: s) := by
  unfold htmlByte
  split
  · rename_i h1; subst h1; exact .lt h
  split
  · rename_i h1; subst h1; exact .gt h
  split
  · rename_i h1; subst h1; exact .amp h
  split
  · rename_i h1; subst h1; exact .quot h
  split
  · rename_i h1; subst h1; exact .apos h
  · exact .plain (by assumption) (by assumption) (by assumption) (by assumption) (by assumption) h

/-- All of the source escaped. -/
def htmlText (s : List Nat) : List Nat := s.flatMap htmlByte

theorem htmlText_denotes (s : List Nat) : HtmlDenotes (htmlText s) s := by
  induction s with
  | nil => exact .nil
  | cons b r ih => simpa [htmlText] using htmlByte_denotes b ih

theorem htmlByte_length_le (b : Nat) : (htmlByte b).length ≤ 5 := by
  unfold htmlByte; repeat' split
  all_goals simp

theorem htmlLoop_success (dl : Nat) (src acc : List Nat) :
    htmlLoop dl src acc = ⟨(acc ++ htmlText (cstr src)).length, acc ++ htmlText (cstr src) ++ [0]⟩ ∨
    (htmlLoop dl src acc).ret = 0 := by
  induction src generalizing acc with
  | nil => left; simp [htmlLoop, cstr, htmlText]
  | cons b r ih =>
    rw [htmlLoop]
    split
    · rename_i h; left; simp [cstr, h, htmlText]
    · rename_i h
      split
      · right; rfl
      · have := ih (acc ++ htmlByte b)
        simpa [cstr, h, htmlText] using this

theorem htmlLoop_fits (dl : Nat) (src acc : List Nat) (h : acc.length + 5 * src.length + 2 ≤ dl) :
    htmlLoop dl src acc = ⟨(acc ++ htmlText (cstr src)).length, acc ++ htmlText (cstr src) ++ [0]⟩ := by
  induction src generalizing acc with
  | nil => simp [htmlLoop, cstr, htmlText]
  | cons b r ih =>
    simp only [List.length_cons] at h
    rw [htmlLoop]
    split
    · rename_i h0; simp [cstr, h0, htmlText]
    · rename_i h0
      have hs : htmlSlack b ≤ 6 := by unfold htmlSlack; repeat' split
                                      all_goals omega
      rw [if_neg (by omega)]
      have := htmlByte_length_le b
      rw [ih (acc ++ htmlByte b) (by simp; omega)]
      simp [cstr, h0, htmlText]

/-- C03.  When `mtev_html_encode` reports success (non-zero), the text it wrote is the source (up
to its first NUL) with every `< > & " '` replaced by its entity, followed by one NUL. -/
theorem C03_html_encode_escapes (s : List Nat) (dl : Nat) (h : (htmlEncode s dl).ret ≠ 0) :
    HtmlDenotes ((htmlEncode s dl).written.take (htmlEncode s dl).ret) (cstr s) ∧
    (htmlEncode s dl).written = (htmlEncode s dl).written.take (htmlEncode s dl).ret ++ [0] := by
  unfold htmlEncode at h ⊢
  split at h
  · exact absurd rfl h
  · rename_i hd
    rw [if_neg hd]
    rcases htmlLoop_success dl s [] with hr | hr
    · rw [hr]
      simp only [List.nil_append, List.take_left]
      exact ⟨htmlText_denotes _, trivial⟩
    · exact absurd hr h

/-- A consequence readable without the grammar: no raw `<`, `>`, `"` or `'` in a successful output. -/
theorem C03_html_encode_no_markup (s : List Nat) (dl : Nat) (h : (htmlEncode s dl).ret ≠ 0) :
    ∀ c ∈ (htmlEncode s dl).written, c ≠ 60 ∧ c ≠ 62 ∧ c ≠ 34 ∧ c ≠ 39 := by
  obtain ⟨h1, h2⟩ := C03_html_encode_escapes s dl h
  rw [h2]
  generalize (htmlEncode s dl).written.take (htmlEncode s dl).ret = t at h1
  generalize cstr s = s' at h1
  intro c hc
  rw [List.mem_append] at hc
  rcases hc with hc | hc
  · induction h1 with
    | nil => cases hc
    | plain a1 a2 a3 a4 a5 _ ih =>
      rcases List.mem_cons.1 hc with hc | hc
      · subst hc; exact ⟨a1, a2, a4, a5⟩
      · exact ih hc
    | lt _ ih | gt _ ih | amp _ ih | quot _ ih | apos _ ih =>
      rw [List.mem_append] at hc
      rcases hc with hc | hc
      · clear ih; revert c; decide
      · exact ih hc
  · simp at hc; omega

example : htmlEncode (bytesOf "<a&'") 64 = ⟨15, bytesOf "&lt;a&amp;&#39;" ++ [0]⟩ := by decide +kernel

/-- C03.  No store is outside the buffer, on success or failure. -/
theorem C03_html_encode_bounds (s : List Nat) (dl : Nat) : (htmlEncode s dl).written.length ≤ dl := by
  unfold htmlEncode
  split
  · simp
  · exact htmlLoop_bound dl s [] (by simp; omega)

/-- C03 (false as stated): the library's own size for one byte, 6, is refused for `"&"`. -/
theorem C03_html_encode_len_violated :
    ∃ s, cstr s ≠ [] ∧ (htmlEncode s (htmlEncodeLen s.length)).ret = 0 :=
  ⟨[38], by decide, by decide⟩

/-- C03 (part that holds): one byte more than `mtev_html_encode_len` always suffices.  Missing:
the size returned by the length function itself. -/
theorem C03_html_encode_len_partial (s : List Nat) (dl : Nat) (h : htmlEncodeLen s.length + 1 ≤ dl) :
    ∃ text, htmlEncode s dl = ⟨text.length, text ++ [0]⟩ ∧ HtmlDenotes text (cstr s) := by
  unfold htmlEncodeLen at h
  unfold htmlEncode
  rw [if_neg (by omega), htmlLoop_fits dl s [] (by simp; omega)]
  exact ⟨htmlText (cstr s), by simp, htmlText_denotes _⟩

example : htmlEncode [38] 7 = ⟨5, bytesOf "&amp;" ++ [0]⟩ := by decide +kernel

end Mtev.Url
