import Verif.SlzLoop
import Verif.SlzCrc

/-!
# C74: what the gzip and deflate compressors write decompresses to the data

The specification is `Inflate`: a decompressor written from RFC 1951 and RFC 1952.
-/
namespace Mtev.Slz
open Mtev.Inflate

/-- what a standard decompressor makes of the bytes in each of the two formats. -/
def decode : Fmt → List Nat → Option (List Nat)
  | .deflate => inflate
  | .gzip => gunzip

/-! ### Helpers -/

/-- what precedes the deflate stream. -/
def hdr : Fmt → List Nat
  | .deflate => []
  | .gzip => gzipHdr

theorem emits_inflateBits {bs t : List Bool} {u : Nat} {h : List Nat}
    (e : Emits ⟨.header, 0, []⟩ bs ⟨.finished, u, h⟩) : inflateBits (bs ++ t) = some (h, t) := by
  obtain ⟨k, hk, hr⟩ := e
  unfold inflateBits
  have : (bs ++ t).length = k + (bs.length - k + t.length) := by simp; omega
  rw [this, hr, run.eq_def]

theorem inflate_of {q : List Nat} {bs pad : List Bool} {h : List Nat}
    (hq : bytesBits q = bs ++ pad) (hp : pad.length < 8)
    (e : Emits ⟨.header, 0, []⟩ bs ⟨.finished, bs.length, h⟩) : inflate q = some h := by
  unfold inflate
  rw [hq, emits_inflateBits e]
  simp only [hp, if_true]

theorem gunzip_of {q : List Nat} {bs pad : List Bool} {h : List Nat} (crc ilen : Nat)
    (hq : bytesBits q = bs ++ pad) (hp : pad.length < 8)
    (e : Emits ⟨.header, 0, []⟩ bs ⟨.finished, bs.length, h⟩)
    (hc : crc < 2 ^ 32) (hi : ilen < 2 ^ 32) :
    gunzip (gzipHdr ++ q ++ le32 crc ++ le32 ilen) =
      if crc = crc32 h ∧ ilen = h.length % 2 ^ 32 then some h else none := by
  unfold gunzip
  have t4 : (gzipHdr ++ q ++ le32 crc ++ le32 ilen).take 4 = [31, 139, 8, 0] := by
    simp [gzipHdr]
  have tl : ¬ (gzipHdr ++ q ++ le32 crc ++ le32 ilen).length < 10 := by
    simp [gzipHdr]
  have td : (gzipHdr ++ q ++ le32 crc ++ le32 ilen).drop 10 = q ++ le32 crc ++ le32 ilen := by
    simp [gzipHdr]
  rw [t4, td, if_neg (by simp only [ne_eq, not_true_eq_false, false_or]; exact tl)]
  have hb : bytesBits (q ++ le32 crc ++ le32 ilen) =
      bs ++ (pad ++ (bitsLE 32 crc ++ bitsLE 32 ilen)) := by
    rw [bytesBits_append, bytesBits_append, hq, bytesBits_le32, bytesBits_le32]
    simp only [List.append_assoc]
  rw [hb, emits_inflateBits e]
  simp only
  have hm : (pad ++ (bitsLE 32 crc ++ bitsLE 32 ilen)).length % 8 = pad.length := by
    simp only [List.length_append, length_bitsLE]; omega
  rw [hm, List.drop_left, takeLE_bits]
  simp only
  have := takeLE_bits 32 ilen []
  rw [List.append_nil] at this
  rw [this]
  simp only [true_and, Nat.mod_eq_of_lt hc, Nat.mod_eq_of_lt hi]

/-- a stream that has sent `h` so far, in either format. -/
def Sent (f : Fmt) (s : Strm) (h : List Nat) : Prop :=
  match f with
  | .deflate => Open s.state ∧ Rel [] s (modeOf s.state) h
  | .gzip => Open (gzHeader s).state ∧ Rel gzipHdr (gzHeader s) (modeOf (gzHeader s).state) h ∧
      s.crc = crc32 h ∧ s.ilen = h.length % 2 ^ 32

theorem gzHeader_open {s : Strm} (h : Started s.state) : gzHeader s = s := by
  unfold gzHeader
  rw [if_neg]
  rcases h with e | e | e | e <;> rw [e] <;> decide

theorem gzHeader_keeps (s : Strm) : Same s (gzHeader s) := by
  unfold gzHeader; split <;> exact ⟨rfl, rfl, rfl⟩

theorem Open.started {s : St} (h : Open s) : Started s := by
  rcases h with h | h
  · exact Or.inl h
  · exact Or.inr (Or.inl h)

theorem sent_init (f : Fmt) : Sent f (slzInit f) [] := by
  cases f with
  | deflate =>
    refine ⟨Or.inl rfl, ⟨by show 0 < 32; decide, by show 0 < 2 ^ 0; decide⟩, List.prefix_rfl,
      [], rfl, Emits.nil _⟩
  | gzip =>
    refine ⟨Or.inl rfl, ⟨⟨by show 0 < 32; decide, by show 0 < 2 ^ 0; decide⟩, List.prefix_rfl,
      [], ?_, Emits.nil _⟩, rfl, rfl⟩
    show bytesBits ([] ++ gzipHdr) ++ bitsLE 0 0 = _
    simp [bitsLE]

/-- one call of the compressor: `more` or not. -/
theorem sent_encode {f : Fmt} {s : Strm} {h d : List Nat} (more : Bool) (hs : Sent f s h)
    (hh : ∀ x ∈ h, x < 256) (hb : ∀ x ∈ d, x < 256) (hn : d.length ≤ 65535) :
    ∃ s', slzEncode f s d more = .ok s' ∧ (more = true → Sent f s' (h ++ d)) ∧
      Started s'.state ∧
      Rel (hdr f) s' (modeOf s'.state) (h ++ d) ∧
      (f = .gzip → s'.crc = crc32 (h ++ d) ∧ s'.ilen = (h ++ d).length % 2 ^ 32) := by
  cases f with
  | deflate =>
    obtain ⟨ho, r⟩ := hs
    obtain ⟨s', e, r', st, op, -⟩ := encode_rel more hb hn ho r
    exact ⟨s', e, fun hm => ⟨op hm, r'⟩, st, r', fun h => by cases h⟩
  | gzip =>
    obtain ⟨ho, r, hc, hi⟩ := hs
    have k := gzHeader_keeps s
    obtain ⟨s', e, r', st, op, hl, hcrc, hil⟩ :=
      encode_rel (s := { (gzHeader s) with crc := crcBy4 (gzHeader s).crc d }) (p := gzipHdr) more hb hn
        ho (r.congr rfl rfl rfl)
    have c1 : s'.crc = crc32 (h ++ d) := by
      rw [hcrc]; show crcBy4 (gzHeader s).crc d = _
      rw [k.2.1, hc, crcBy4_crc32 h d hh hb]
    have i1 : s'.ilen = (h ++ d).length % 2 ^ 32 := by
      rw [hil]; show ((gzHeader s).ilen + d.length) % 2 ^ 32 = _
      rw [k.2.2, hi, List.length_append]; omega
    refine ⟨s', e, fun hm => ?_, st, r', fun _ => ⟨c1, i1⟩⟩
    unfold Sent
    simp only
    rw [gzHeader_open st]
    exact ⟨op hm, r', c1, i1⟩

theorem crc32_lt {h : List Nat} (hh : ∀ x ∈ h, x < 256) : crc32 h < 2 ^ 32 :=
  Nat.xor_lt_two_pow (crcReg_lt (by decide) hh) (by decide)

/-- the end of the stream: whatever was sent is what the bytes hold, if the check words fit. -/
theorem finish_decode {f : Fmt} {s : Strm} {h : List Nat} (st : Started s.state)
    (r : Rel (hdr f) s (modeOf s.state) h)
    (hc : f = .gzip → s.crc < 2 ^ 32 ∧ s.ilen < 2 ^ 32) :
    decode f (slzFinish f s).out =
      if f = .gzip → s.crc = crc32 h ∧ s.ilen = h.length % 2 ^ 32 then some h else none := by
  cases f with
  | deflate =>
    obtain ⟨q, pad, bs, ho, hq, hp, he, -⟩ := finish_rel st r
    show inflate (finish1951 s).out = _
    have ho' : (finish1951 s).out = q := ho
    rw [ho', inflate_of hq hp he, if_pos (fun h => by cases h)]
  | gzip =>
    obtain ⟨q, pad, bs, ho, hq, hp, he, e1, e2, -⟩ := finish_rel st r
    obtain ⟨hc, hi⟩ := hc rfl
    show gunzip (gzFinish s).out = _
    have : (gzFinish s).out = gzipHdr ++ q ++ le32 s.crc ++ le32 s.ilen := by
      unfold gzFinish
      simp only [copy32]
      rw [gzHeader_open st, ho, e1, e2]; rfl
    rw [this, gunzip_of _ _ hq hp he hc hi]
    simp only [true_implies]

theorem finish_sent {f : Fmt} {s : Strm} {h : List Nat} (st : Started s.state)
    (hh : ∀ x ∈ h, x < 256)
    (r : Rel (hdr f) s (modeOf s.state) h)
    (hc : f = .gzip → s.crc = crc32 h ∧ s.ilen = h.length % 2 ^ 32) :
    decode f (slzFinish f s).out = some h := by
  rw [finish_decode st r, if_pos hc]
  intro hf
  rw [(hc hf).1, (hc hf).2]
  exact ⟨crc32_lt hh, Nat.mod_lt _ (by decide)⟩

/-! ### C74 -/

/-- C74, one call (`mtev_compress_gzip`, `mtev_compress_deflate`, `mtev_compress`): what is written
for at most 65535 bytes is a gzip member, or a deflate stream, that decompresses to them, and
nothing outside the input is read.  Missing from the full claim: more than 65535 bytes, for which
it is false (`C74_large_violated`). -/
theorem C74_oneshot_partial (f : Fmt) (data : List Nat) (hb : ∀ x ∈ data, x < 256)
    (hn : data.length ≤ 65535) :
    ∃ out, oneShot f data = .ok out ∧ decode f out = some data := by
  obtain ⟨s', e, -, st, r, hc⟩ := sent_encode false (sent_init f) (by simp) hb hn
  rw [List.nil_append] at r hc
  refine ⟨_, by unfold oneShot; rw [e]; rfl, finish_sent st hb r hc⟩

theorem feed_ok {f : Fmt} (pieces : List (List Nat)) {c : Ctx} {h : List Nat}
    (hs : Sent f c.s h) (hf : c.flushed = false) (hh : ∀ x ∈ h, x < 256)
    (hb : ∀ d ∈ pieces, (∀ x ∈ d, x < 256) ∧ d.length ≤ 65535) :
    ∃ c', feed f c pieces = .ok c' ∧ Sent f c'.s (h ++ pieces.flatten) ∧ c'.flushed = false ∧
      (c'.begun = true ↔ c.begun = true ∨ pieces ≠ []) ∧ (∀ x ∈ h ++ pieces.flatten, x < 256) ∧
      (pieces ≠ [] → Started c'.s.state) := by
  induction pieces generalizing c h with
  | nil => exact ⟨c, rfl, by simpa using hs, hf, by simp, by simpa using hh, by simp⟩
  | cons d ds ih =>
    obtain ⟨hd, hl⟩ := hb d (by simp)
    obtain ⟨s', e, hs', st, -, -⟩ := sent_encode true hs hh hd hl
    have hh' : ∀ x ∈ h ++ d, x < 256 := by
      intro x hx
      rcases List.mem_append.mp hx with hx | hx
      · exact hh x hx
      · exact hd x hx
    obtain ⟨c', e', s1, f1, b1, y1, z1⟩ := ih (c := { c with begun := true, s := s' }) (h := h ++ d)
      (hs' rfl) hf hh' (fun d hd => hb d (by simp [hd]))
    refine ⟨c', ?_, by simpa using s1, f1, ?_, by simpa using y1, ?_⟩
    · rw [feed, compress, e]
      exact e'
    · rw [b1]; simp
    · intro _
      by_cases hds : ds = []
      · subst hds
        rw [feed] at e'
        cases e'
        exact st
      · exact z1 hds

/-- C74, stream (`mtev_stream_compress` any number of times, then
`mtev_stream_compress_flush`): the concatenation of what the calls write decompresses to the
concatenation of the pieces, whatever the pieces, also empty ones, of at most 65535 bytes each.
Missing: larger pieces (`C74_large_violated`) and no piece at all (`C74_nothing_violated`). -/
theorem C74_stream_partial (f : Fmt) (pieces : List (List Nat)) (h0 : pieces ≠ [])
    (hb : ∀ d ∈ pieces, (∀ x ∈ d, x < 256) ∧ d.length ≤ 65535) :
    ∃ out, streamed f pieces = .ok (some out) ∧ decode f out = some pieces.flatten := by
  obtain ⟨c, e, s, fl, bg, hx, st⟩ :=
    feed_ok pieces (c := ctxInit f) (sent_init f) rfl (by simp) hb
  have hbg : c.begun = true := bg.mpr (Or.inr h0)
  refine ⟨(slzFinish f c.s).out, ?_, ?_⟩
  · unfold streamed flush
    rw [e]
    simp only [Out.bind, hbg, fl]
    rfl
  · rw [List.nil_append] at s hx
    refine finish_sent (st h0) hx ?_ ?_
    · cases f with
      | deflate => exact s.2
      | gzip =>
        have := s.2.1
        rw [gzHeader_open (st h0)] at this
        exact this
    · intro hf
      subst hf
      exact ⟨s.2.2.1, s.2.2.2⟩

/-- a second `mtev_stream_compress_flush` writes nothing (mtev_compress.c:341-344). -/
theorem C74_flush_once (f : Fmt) (c c' : Ctx) (h : flush f c = some c') :
    flush f c' = some c' := by
  unfold flush at h
  by_cases hb : c.begun = false
  · simp [hb] at h
  · by_cases hf : c.flushed = true
    · simp only [hb, hf, if_true] at h
      cases h
      simp [flush, hb, hf]
    · simp only [hb, hf] at h
      cases h
      simp [flush, hb]

/-- C74 is false of a stream to which nothing was ever given: the flush fails and no byte is
written, which is neither a gzip member nor a deflate stream of the empty data. -/
theorem C74_nothing_violated (f : Fmt) :
    streamed f [] = .ok none ∧ decode f [] ≠ some [] := by
  constructor
  · rfl
  · cases f <;> decide

/-- a case: text with a repetition, in pieces, one of them empty, in both formats. -/
example : ∃ out, streamed .gzip [[97, 98, 99, 100, 101, 102], [], [97, 98, 99, 100, 101, 102, 200]] =
    .ok (some out) ∧ gunzip out =
      some [97, 98, 99, 100, 101, 102, 97, 98, 99, 100, 101, 102, 200] :=
  C74_stream_partial .gzip _ (by simp) (by decide)
example : oneShot .deflate [120, 120, 120, 120, 120, 120, 120, 120, 120, 120, 120, 120] =
    .ok [170, 64, 2, 128, 1, 0] := by decide +kernel
example : oneShot .gzip [120] =
    .ok (gzipHdr ++ [171, 0, 0, 131, 22, 220, 140, 1, 0, 0, 0]) := by decide +kernel

/-! ### Large inputs -/

/-- no four bytes occur twice. -/
def NoRepeat (data : List Nat) : Prop :=
  ∀ i j, i < j → j + 4 ≤ data.length → wordAt data i ≠ wordAt data j

/-- the table holds nothing but words seen before. -/
def RefsOk (inp : List Nat) (pos : Nat) (refs : Nat → Nat) : Prop :=
  ∀ h, refs h = 2 ^ 64 - 32769 ∨ ∃ j, j < pos ∧ refs h = j + wordAt inp j * 2 ^ 32

theorem lstep_lit {inp : List Nat} {l : Loop} (hb : ∀ x ∈ inp, x < 256) (nr : NoRepeat inp)
    (hl : l.pos + l.rem = inp.length) (h4 : 4 ≤ l.rem) (hn : inp.length < 2 ^ 31)
    (hr : RefsOk inp l.pos l.refs) :
    lstep inp l = .ok (asLit (remember l (wordAt inp l.pos)) (wordAt inp l.pos)) ∧
      RefsOk inp (l.pos + 1) (remember l (wordAt inp l.pos)).refs := by
  have hw : ∀ i, wordAt inp i < 2 ^ 32 := fun i => wordAt_lt hb i
  constructor
  · unfold lstep rd32
    rw [if_pos (by omega)]
    simp only [Out.bind]
    rcases hr (slzHash (wordAt inp l.pos)) with e | ⟨j, hj, e⟩
    · rw [e]
      by_cases he : (2 ^ 64 - 32769) / 2 ^ 32 ≠ wordAt inp l.pos
      · rw [if_pos he]
      · rw [if_neg he]
        have hg : 32768 ≤ gap (remember l (wordAt inp l.pos)).pos ((2 ^ 64 - 32769) % 2 ^ 32) := by
          show 32768 ≤ gap l.pos _
          unfold gap
          have : l.pos < (2 ^ 64 - 32769) % 2 ^ 32 := by omega
          rw [sub64_gt (by decide) this]
          rw [sub64_le (by omega) (by omega)]
          omega
        rw [if_pos hg]
    · rw [e]
      have hd : (j + wordAt inp j * 2 ^ 32) / 2 ^ 32 = wordAt inp j := by
        rw [Nat.add_mul_div_right _ _ (by decide), Nat.div_eq_of_lt (by omega), Nat.zero_add]
      rw [hd, if_pos (nr j l.pos hj (by omega))]
  · intro h
    show setRef l.refs _ _ h = _ ∨ ∃ j, _ ∧ setRef l.refs _ _ h = _
    unfold setRef
    by_cases hh : h = slzHash (wordAt inp l.pos)
    · simp only [hh, if_true]
      refine Or.inr ⟨l.pos, by omega, ?_⟩
      have := hw l.pos
      rw [Nat.mod_eq_of_lt (by omega)]
    · simp only [hh, if_false]
      rcases hr h with e | ⟨j, hj, e⟩
      · exact Or.inl e
      · exact Or.inr ⟨j, by omega, e⟩

theorem high_cons_drop {inp : List Nat} {i : Nat} (hb : ∀ x ∈ inp, x < 256) (h : i < inp.length) :
    high (inp.drop i) = (if 144 ≤ wordAt inp i % 256 then 1 else 0) + high (inp.drop (i + 1)) := by
  rw [List.drop_eq_getElem_cons h]
  unfold high
  rw [List.countP_cons]
  have e : wordAt inp i % 256 = inp[i] := by
    have h1 : inp.getD i 0 = inp[i] := by simp [h]
    have h2 : inp[i] < 256 := hb _ (List.getElem_mem h)
    unfold wordAt
    omega
  rw [e]
  by_cases h9 : 144 ≤ inp[i] <;> simp [h9] <;> omega

theorem lloop_lit {inp : List Nat} (hb : ∀ x ∈ inp, x < 256) (nr : NoRepeat inp)
    (hn : inp.length < 2 ^ 31) (fuel : Nat) {l : Loop}
    (hl : l.pos + l.rem = inp.length) (hr : RefsOk inp l.pos l.refs) (hf : l.rem ≤ fuel)
    (hp : l.plit = l.pos) (h9 : l.bit9 + high (inp.drop l.pos) = high inp) :
    ∃ l', lloop inp fuel l = .ok l' ∧ l'.s = l.s ∧ l'.pos + l'.rem = inp.length ∧
      l'.plit = l'.pos ∧ l'.bit9 + high (inp.drop l'.pos) = high inp := by
  induction fuel generalizing l with
  | zero => exact ⟨l, rfl, rfl, hl, hp, h9⟩
  | succ fuel ih =>
    rw [lloop]
    by_cases h4 : 4 ≤ l.rem
    · rw [if_pos h4]
      obtain ⟨e, hr'⟩ := lstep_lit hb nr hl h4 hn hr
      rw [e]
      simp only [Out.bind]
      obtain ⟨l', e', a, b, c, d⟩ := ih
        (l := asLit (remember l (wordAt inp l.pos)) (wordAt inp l.pos))
        (by show l.pos + 1 + (l.rem - 1) = _; omega) hr' (by show l.rem - 1 ≤ _; omega)
        (by show l.plit + 1 = l.pos + 1; omega)
        (by
          show l.bit9 + _ + high (inp.drop (l.pos + 1)) = _
          rw [← h9, high_cons_drop hb (i := l.pos) (by omega)]
          omega)
      exact ⟨l', e', a, b, c, d⟩
    · rw [if_neg h4]
      exact ⟨l, rfl, rfl, hl, hp, h9⟩

/-- with no repetition everything is literal. -/
theorem encode_lit {s : Strm} {inp : List Nat} (more : Bool) (hb : ∀ x ∈ inp, x < 256)
    (nr : NoRepeat inp) (hn : inp.length < 2 ^ 31) (hlv : s.level = true) (h0 : 0 < inp.length)
    (h52 : 52 ≤ high inp) :
    encode s inp more = .ok { (copyLit inp.length s inp inp.length more) with
      ilen := ((copyLit inp.length s inp inp.length more).ilen + inp.length) % 2 ^ 32 } := by
  unfold encode
  rw [if_neg (by rw [hlv]; decide)]
  obtain ⟨l, e, a, b, c, d⟩ := lloop_lit hb nr hn inp.length (l := ⟨s, 0, inp.length, 0, 0, noRefs⟩)
    (by simp) (fun h => Or.inl rfl) (Nat.le_refl _) rfl (by simp)
  rw [e]
  simp only [Out.bind]
  unfold finalDump
  have h1 : l.plit + l.rem = inp.length := by omega
  simp only [h1, h0, if_true, b, d, a, dumpLit, h52, Nat.sub_self, List.drop_zero]

theorem copied_two {buf : List Nat} {n fuel : Nat} (h : 65535 < n) (h2 : n ≤ 131070)
    (hf : 2 ≤ fuel) : copied fuel buf n = buf.take 65535 ++ buf.take (n - 65535) := by
  match fuel, hf with
  | k + 2, _ =>
    rw [copied, copied, if_pos h, if_neg (by omega), List.append_nil,
      Nat.min_eq_right (by omega), Nat.min_eq_left (by omega)]

theorem getD_append_right' {a b : List Nat} {i : Nat} (h : a.length ≤ i) :
    (a ++ b).getD i 0 = b.getD (i - a.length) 0 := by
  simp only [List.getD_eq_getElem?_getD]
  rw [List.getElem?_append_right h]

theorem not_copied {data : List Nat} (nr : NoRepeat data) (h : 65539 ≤ data.length)
    (h2 : data.length ≤ 131070) :
    data.take 65535 ++ data.take (data.length - 65535) ≠ data := by
  intro e
  have key : ∀ i, i < 4 → data.getD (65535 + i) 0 = data.getD i 0 := by
    intro i hi
    conv_lhs => rw [← e]
    rw [getD_append_right' (by simp)]
    have : (data.take 65535).length = 65535 := by simp; omega
    rw [this, Nat.add_sub_cancel_left]
    simp only [List.getD_eq_getElem?_getD]
    rw [List.getElem?_take, if_pos (by omega)]
  refine nr 0 65535 (by omega) (by omega) ?_
  have a := key 0 (by decide)
  have b := key 1 (by decide)
  have c := key 2 (by decide)
  have d := key 3 (by decide)
  unfold wordAt
  simp only [Nat.add_zero, Nat.zero_add] at a b c d ⊢
  rw [a, b, c, d]

/-- C74 is false above 65535 bytes: whenever no four bytes repeat and 52 bytes are above 143, the
second stored block repeats the beginning of the data instead of going on (slz.c:333 does not
advance `buf`).  The deflate stream is valid and holds other data of the same length; the gzip
member is refused or holds other data. -/
theorem C74_large_violated (data : List Nat) (hb : ∀ x ∈ data, x < 256) (h : 65539 ≤ data.length)
    (h2 : data.length ≤ 131070) (nr : NoRepeat data)
    (h9 : 52 ≤ data.countP (fun x => decide (144 ≤ x))) (f : Fmt) :
    ∃ out, oneShot f data = .ok out ∧ decode f out ≠ some data ∧
      (f = .deflate →
        inflate out = some (data.take 65535 ++ data.take (data.length - 65535))) := by
  have key : ∀ (s : Strm) (p : List Nat), s.level = true → Open s.state →
      Rel p s (modeOf s.state) [] →
      ∃ s', encode s data false = .ok s' ∧ Started s'.state ∧
        Rel p s' (modeOf s'.state) (data.take 65535 ++ data.take (data.length - 65535)) ∧
        s'.crc = s.crc ∧ s'.ilen < 2 ^ 32 := by
    intro s p hlv ho r
    obtain ⟨a, b, c⟩ := copyLit_rel data.length (len := data.length) false hb (Nat.le_refl _)
      (Nat.le_refl _) (by omega) ho r
    rw [copied_two (by omega) h2 (by omega), List.nil_append] at a
    refine ⟨_, encode_lit false hb nr (by omega) hlv (by omega) h9, ?_, ?_, b.2.1,
      Nat.mod_lt _ (by decide)⟩
    · simp only [c]; exact Or.inr (Or.inr (Or.inr rfl))
    · simp only [c]; exact a.congr rfl rfl rfl
  have hne := not_copied nr h h2
  cases f with
  | deflate =>
    obtain ⟨ho, r⟩ := sent_init .deflate
    obtain ⟨s', e, st, r', -⟩ := key (init1951 true) [] rfl ho r
    have hd := finish_decode (f := .deflate) st r' (fun h => by cases h)
    rw [if_pos (fun h => by cases h)] at hd
    refine ⟨(finish1951 s').out, ?_, ?_, fun _ => hd⟩
    · show (encode (init1951 true) data false).bind _ = _
      rw [e]; rfl
    · rw [show decode .deflate (finish1951 s').out = _ from hd]
      intro h; exact hne (Option.some.inj h)
  | gzip =>
    obtain ⟨ho, r, -⟩ := sent_init .gzip
    obtain ⟨s', e, st, r', hc, hi⟩ :=
      key { (gzHeader (init1952 true)) with crc := crcBy4 (gzHeader (init1952 true)).crc data }
        gzipHdr rfl ho (r.congr rfl rfl rfl)
    have h0 : crcBy4 (gzHeader (init1952 true)).crc data = crc32 data :=
      crcBy4_crc32 [] data (by simp) hb
    have hd := finish_decode (f := .gzip) st r' (fun _ => ⟨by
      rw [hc]; show crcBy4 (gzHeader (init1952 true)).crc data < _; rw [h0]; exact crc32_lt hb, hi⟩)
    refine ⟨(gzFinish s').out, ?_, ?_, fun h => by cases h⟩
    · show (gzEncode (init1952 true) data false).bind _ = _
      unfold gzEncode
      simp only
      rw [e]; rfl
    · rw [show decode .gzip (gzFinish s').out = _ from hd]
      split
      · intro h; exact hne (Option.some.inj h)
      · simp

/-- data in which no four bytes repeat: the place of a byte modulo 4 in its upper two bits, one
digit of the place divided by 4 in the others. -/
def unrepeated (n : Nat) : List Nat :=
  (List.range n).map fun i => i % 4 * 64 + i / 4 / 64 ^ (i % 4) % 64

theorem unrepeated_get {n i : Nat} (h : i < n) :
    (unrepeated n).getD i 0 = i % 4 * 64 + i / 4 / 64 ^ (i % 4) % 64 := by
  simp [unrepeated, h]

theorem digits0 {k m : Nat} (hk : k < 2 ^ 18) (hm : m < 2 ^ 18)
    (c0 : (k + 0) / 64 ^ 0 % 64 = (m + 0) / 64 ^ 0 % 64)
    (c1 : (k + 0) / 64 ^ 1 % 64 = (m + 0) / 64 ^ 1 % 64)
    (c2 : (k + 0) / 64 ^ 2 % 64 = (m + 0) / 64 ^ 2 % 64)
    (c3 : (k + 0) / 64 ^ 3 % 64 = (m + 0) / 64 ^ 3 % 64) : k = m := by
  simp only [Nat.pow_zero, Nat.div_one, Nat.pow_one, Nat.add_zero] at c0 c1 c2 c3
  clear c3
  omega

theorem digits1 {k m : Nat} (hk : k < 2 ^ 18) (hm : m < 2 ^ 18)
    (c0 : (k + 0) / 64 ^ 1 % 64 = (m + 0) / 64 ^ 1 % 64)
    (c1 : (k + 0) / 64 ^ 2 % 64 = (m + 0) / 64 ^ 2 % 64)
    (c2 : (k + 0) / 64 ^ 3 % 64 = (m + 0) / 64 ^ 3 % 64)
    (c3 : (k + 1) / 64 ^ 0 % 64 = (m + 1) / 64 ^ 0 % 64) : k = m := by
  simp only [Nat.pow_zero, Nat.div_one, Nat.pow_one, Nat.add_zero] at c0 c1 c2 c3
  clear c2
  omega

theorem digits2 {k m : Nat} (hk : k < 2 ^ 18) (hm : m < 2 ^ 18)
    (c0 : (k + 0) / 64 ^ 2 % 64 = (m + 0) / 64 ^ 2 % 64)
    (c1 : (k + 0) / 64 ^ 3 % 64 = (m + 0) / 64 ^ 3 % 64)
    (c2 : (k + 1) / 64 ^ 0 % 64 = (m + 1) / 64 ^ 0 % 64)
    (c3 : (k + 1) / 64 ^ 1 % 64 = (m + 1) / 64 ^ 1 % 64) : k = m := by
  simp only [Nat.pow_zero, Nat.div_one, Nat.pow_one, Nat.add_zero] at c0 c1 c2 c3
  clear c1
  omega

theorem digits3 {k m : Nat} (hk : k < 2 ^ 18) (hm : m < 2 ^ 18)
    (c0 : (k + 0) / 64 ^ 3 % 64 = (m + 0) / 64 ^ 3 % 64)
    (c1 : (k + 1) / 64 ^ 0 % 64 = (m + 1) / 64 ^ 0 % 64)
    (c2 : (k + 1) / 64 ^ 1 % 64 = (m + 1) / 64 ^ 1 % 64)
    (c3 : (k + 1) / 64 ^ 2 % 64 = (m + 1) / 64 ^ 2 % 64) : k = m := by
  simp only [Nat.pow_zero, Nat.div_one, Nat.pow_one, Nat.add_zero] at c0 c1 c2 c3
  clear c0
  omega

theorem digit_move {a b k m d c : Nat}
    (h : a / 4 / 64 ^ (a % 4) % 64 = b / 4 / 64 ^ (b % 4) % 64) (ha : a % 4 = d) (hb : b % 4 = d)
    (ka : a / 4 = k + c) (kb : b / 4 = m + c) : (k + c) / 64 ^ d % 64 = (m + c) / 64 ^ d % 64 := by
  rwa [ha, hb, ka, kb] at h

theorem digit_eq (a b : Nat) (h : a % 4 * 64 + a / 4 / 64 ^ (a % 4) % 64 =
    b % 4 * 64 + b / 4 / 64 ^ (b % 4) % 64) :
    a % 4 = b % 4 ∧ a / 4 / 64 ^ (a % 4) % 64 = b / 4 / 64 ^ (b % 4) % 64 := by
  generalize a / 4 / 64 ^ (a % 4) = x at h ⊢
  generalize b / 4 / 64 ^ (b % 4) = y at h ⊢
  omega

theorem four_eq (a b c d a' b' c' d' : Nat) (ha : a < 256) (hb : b < 256) (hc : c < 256)
    (hd : d < 256) (ha' : a' < 256) (hb' : b' < 256) (hc' : c' < 256) (hd' : d' < 256)
    (h : a + b * 256 + c * 65536 + d * 16777216 = a' + b' * 256 + c' * 65536 + d' * 16777216) :
    a = a' ∧ b = b' ∧ c = c' ∧ d = d' := by omega

/-- the hypotheses of `C74_large_violated` are met, for every length up to a megabyte. -/
theorem unrepeated_ok (n : Nat) (h : n ≤ 2 ^ 20) : NoRepeat (unrepeated n) := by
  intro i j hij hj
  have hl : (unrepeated n).length = n := by simp [unrepeated]
  rw [hl] at hj
  intro e
  have hlt : ∀ a, (a % 4 * 64 + a / 4 / 64 ^ (a % 4) % 64) < 256 := fun a => by omega
  have g : ∀ a, a < n → (unrepeated n).getD a 0 = a % 4 * 64 + a / 4 / 64 ^ (a % 4) % 64 :=
    fun a ha => unrepeated_get ha
  unfold wordAt at e
  rw [g _ (by omega), g _ (by omega), g _ (by omega), g _ (by omega), g _ (by omega),
    g _ (by omega), g _ (by omega), g _ (by omega)] at e
  have b : ∀ t, t < 4 → (i + t) % 4 = (j + t) % 4 ∧
      (i + t) / 4 / 64 ^ ((i + t) % 4) % 64 = (j + t) / 4 / 64 ^ ((j + t) % 4) % 64 := by
    have i0 := hlt i
    have i1 := hlt (i + 1)
    have i2 := hlt (i + 2)
    have i3 := hlt (i + 3)
    have j0 := hlt j
    have j1 := hlt (j + 1)
    have j2 := hlt (j + 2)
    have j3 := hlt (j + 3)
    intro t ht
    apply digit_eq
    have w := four_eq _ _ _ _ _ _ _ _ i0 i1 i2 i3 j0 j1 j2 j3 e
    match t, ht with
    | 0, _ => exact w.1
    | 1, _ => exact w.2.1
    | 2, _ => exact w.2.2.1
    | 3, _ => exact w.2.2.2
  have b0 := b 0 (by decide)
  have b1 := b 1 (by decide)
  have b2 := b 2 (by decide)
  have b3 := b 3 (by decide)
  clear e b hlt g
  have he : i % 4 = j % 4 := b0.1
  suffices i / 4 = j / 4 by omega
  have hk : i / 4 < 2 ^ 18 := by omega
  have hm : j / 4 < 2 ^ 18 := by omega
  replace b0 := b0.2
  replace b1 := b1.2
  replace b2 := b2.2
  replace b3 := b3.2
  rcases (by omega : i % 4 = 0 ∨ i % 4 = 1 ∨ i % 4 = 2 ∨ i % 4 = 3) with hi | hi | hi | hi
  · exact digits0 hk hm
      (digit_move b0 (d := 0) (c := 0) (by clear b0 b1 b2 b3; omega) (by clear b0 b1 b2 b3; omega)
        (by clear b0 b1 b2 b3; omega) (by clear b0 b1 b2 b3; omega))
      (digit_move b1 (d := 1) (c := 0) (by clear b0 b1 b2 b3; omega) (by clear b0 b1 b2 b3; omega)
        (by clear b0 b1 b2 b3; omega) (by clear b0 b1 b2 b3; omega))
      (digit_move b2 (d := 2) (c := 0) (by clear b0 b1 b2 b3; omega) (by clear b0 b1 b2 b3; omega)
        (by clear b0 b1 b2 b3; omega) (by clear b0 b1 b2 b3; omega))
      (digit_move b3 (d := 3) (c := 0) (by clear b0 b1 b2 b3; omega) (by clear b0 b1 b2 b3; omega)
        (by clear b0 b1 b2 b3; omega) (by clear b0 b1 b2 b3; omega))
  · exact digits1 hk hm
      (digit_move b0 (d := 1) (c := 0) (by clear b0 b1 b2 b3; omega) (by clear b0 b1 b2 b3; omega)
        (by clear b0 b1 b2 b3; omega) (by clear b0 b1 b2 b3; omega))
      (digit_move b1 (d := 2) (c := 0) (by clear b0 b1 b2 b3; omega) (by clear b0 b1 b2 b3; omega)
        (by clear b0 b1 b2 b3; omega) (by clear b0 b1 b2 b3; omega))
      (digit_move b2 (d := 3) (c := 0) (by clear b0 b1 b2 b3; omega) (by clear b0 b1 b2 b3; omega)
        (by clear b0 b1 b2 b3; omega) (by clear b0 b1 b2 b3; omega))
      (digit_move b3 (d := 0) (c := 1) (by clear b0 b1 b2 b3; omega) (by clear b0 b1 b2 b3; omega)
        (by clear b0 b1 b2 b3; omega) (by clear b0 b1 b2 b3; omega))
  · exact digits2 hk hm
      (digit_move b0 (d := 2) (c := 0) (by clear b0 b1 b2 b3; omega) (by clear b0 b1 b2 b3; omega)
        (by clear b0 b1 b2 b3; omega) (by clear b0 b1 b2 b3; omega))
      (digit_move b1 (d := 3) (c := 0) (by clear b0 b1 b2 b3; omega) (by clear b0 b1 b2 b3; omega)
        (by clear b0 b1 b2 b3; omega) (by clear b0 b1 b2 b3; omega))
      (digit_move b2 (d := 0) (c := 1) (by clear b0 b1 b2 b3; omega) (by clear b0 b1 b2 b3; omega)
        (by clear b0 b1 b2 b3; omega) (by clear b0 b1 b2 b3; omega))
      (digit_move b3 (d := 1) (c := 1) (by clear b0 b1 b2 b3; omega) (by clear b0 b1 b2 b3; omega)
        (by clear b0 b1 b2 b3; omega) (by clear b0 b1 b2 b3; omega))
  · exact digits3 hk hm
      (digit_move b0 (d := 3) (c := 0) (by clear b0 b1 b2 b3; omega) (by clear b0 b1 b2 b3; omega)
        (by clear b0 b1 b2 b3; omega) (by clear b0 b1 b2 b3; omega))
      (digit_move b1 (d := 0) (c := 1) (by clear b0 b1 b2 b3; omega) (by clear b0 b1 b2 b3; omega)
        (by clear b0 b1 b2 b3; omega) (by clear b0 b1 b2 b3; omega))
      (digit_move b2 (d := 1) (c := 1) (by clear b0 b1 b2 b3; omega) (by clear b0 b1 b2 b3; omega)
        (by clear b0 b1 b2 b3; omega) (by clear b0 b1 b2 b3; omega))
      (digit_move b3 (d := 2) (c := 1) (by clear b0 b1 b2 b3; omega) (by clear b0 b1 b2 b3; omega)
        (by clear b0 b1 b2 b3; omega) (by clear b0 b1 b2 b3; omega))

example : (∀ x ∈ unrepeated 70000, x < 256) ∧ 65539 ≤ (unrepeated 70000).length ∧
    (unrepeated 70000).length ≤ 131070 ∧ NoRepeat (unrepeated 70000) ∧
    52 ≤ (unrepeated 70000).countP (fun x => decide (144 ≤ x)) := by
  refine ⟨?_, by simp [unrepeated], by simp [unrepeated], unrepeated_ok _ (by decide), ?_⟩
  · intro x hx
    simp only [unrepeated, List.mem_map] at hx
    obtain ⟨a, -, rfl⟩ := hx
    omega
  · have h : (unrepeated 70000).take 400 = unrepeated 400 := by
      unfold unrepeated
      rw [← List.map_take, List.take_range, Nat.min_eq_left (by decide)]
    have h2 : (unrepeated 400).countP (fun x => decide (144 ≤ x)) ≤
        (unrepeated 70000).countP (fun x => decide (144 ≤ x)) := by
      rw [← h]
      exact List.Sublist.countP_le (List.take_sublist _ _)
    exact Nat.le_trans (by decide +kernel) h2

end Mtev.Slz
