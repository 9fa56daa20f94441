import Verif.SlzBits

/-! Helper lemmas for `SlzProps`: what a decompressor makes of what each function of the compressor
sends. -/
namespace Mtev.Slz
open Mtev.Inflate

/-- a decompressor at `c` that reads `bs` comes to `c'`, whatever follows. -/
def Emits (c : Cfg) (bs : List Bool) (c' : Cfg) : Prop :=
  ∃ k, k ≤ bs.length ∧ ∀ fuel t, run (k + fuel) c (bs ++ t) = run fuel c' t

theorem Emits.nil (c : Cfg) : Emits c [] c := ⟨0, by simp, fun fuel t => by simp⟩

theorem Emits.trans {c c' c'' : Cfg} {a b : List Bool} (h : Emits c a c') (g : Emits c' b c'') :
    Emits c (a ++ b) c'' := by
  obtain ⟨k, hk, hr⟩ := h
  obtain ⟨j, hj, gr⟩ := g
  refine ⟨k + j, by simp; omega, fun fuel t => ?_⟩
  rw [List.append_assoc, Nat.add_assoc, hr, gr]

theorem run_one {c c' : Cfg} {b r : List Bool} (fuel : Nat) (hm : c.mode ≠ .finished)
    (h : step c b = some (c', r)) : run (fuel + 1) c b = run fuel c' r := by
  rw [run]
  cases hc : c.mode with
  | finished => exact absurd hc hm
  | header => simp only [h]
  | codes l => simp only [h]

theorem Emits.one {c c' : Cfg} {bs : List Bool} (hm : c.mode ≠ .finished) (hn : bs ≠ [])
    (h : ∀ t, step c (bs ++ t) = some (c', t)) : Emits c bs c' := by
  refine ⟨1, List.length_pos_iff.mpr hn, fun fuel t => ?_⟩
  rw [Nat.add_comm, run_one fuel hm (h t)]

theorem emits_lit (l : Bool) (u : Nat) (h : List Nat) (x : Nat) (hx : x < 256) :
    Emits ⟨.codes l, u, h⟩ (bitsLE (fixedHuff.getD x 0 % 16) (fixedHuff.getD x 0 / 16))
      ⟨.codes l, u + fixedHuff.getD x 0 % 16, h ++ [x]⟩ := by
  obtain ⟨h1, h2, h3⟩ := fixedHuff_ok ⟨x, hx⟩
  simp only at h1 h2 h3
  apply Emits.one (by simp)
  · intro e
    have := congrArg List.length e
    rw [length_bitsLE, h3] at this
    revert this; simp; split <;> simp
  · intro t
    unfold step
    simp only [symbol_append t h1, List.nil_append, hx, if_true]
    simp [length_bitsLE]

theorem emits_eob (l : Bool) (u : Nat) (h : List Nat) :
    Emits ⟨.codes l, u, h⟩ (bitsLE 7 0) ⟨afterBlock l, u + 7, h⟩ := by
  have h1 : symbol (bitsLE 7 0) = some (256, []) := by decide
  apply Emits.one (by simp) (by decide)
  intro t
  unfold step
  simp only [symbol_append t h1, List.nil_append]
  simp [length_bitsLE]

theorem emits_fixed (l : Bool) (u : Nat) (h : List Nat) :
    Emits ⟨.header, u, h⟩ (bitsLE 3 (if l then 3 else 2)) ⟨.codes l, u + 3, h⟩ := by
  apply Emits.one (by simp) (by cases l <;> decide)
  intro t
  cases l <;> rfl

theorem emits_ref (l : Bool) (u : Nat) (h : List Nat) (m d : Nat) (hm : 3 ≤ m) (hm2 : m ≤ 258)
    (hd : 1 ≤ d) (hd2 : d ≤ 32768) (hh : d ≤ h.length) :
    Emits ⟨.codes l, u, h⟩
      (bitsLE (lenFh.getD m 0 / 65536) (lenFh.getD m 0 % 65536) ++
        bitsLE (distTable (d - 1) % 32) (distTable (d - 1) / 32))
      ⟨.codes l, u + (lenFh.getD m 0 / 65536 + distTable (d - 1) % 32), copyBack m d h⟩ := by
  obtain ⟨g, _, _, g4⟩ := lenFh_ok ⟨m, by omega⟩ hm
  simp only at g g4
  obtain ⟨d1, _, _, _⟩ := distTable_ok d hd hd2
  apply Emits.one (by simp)
  · intro e
    have := congrArg List.length e
    rw [List.length_append, length_bitsLE, List.length_nil] at this
    omega
  · intro t
    unfold lenGood at g
    cases hs : symbol (bitsLE (lenFh.getD m 0 / 65536) (lenFh.getD m 0 % 65536)) with
    | none => simp only [hs, Bool.false_eq_true] at g
    | some p =>
      obtain ⟨sym, r⟩ := p
      simp only [hs, Bool.and_eq_true, decide_eq_true_eq, beq_iff_eq] at g
      obtain ⟨g1, g2⟩ := g
      unfold step
      simp only
      rw [List.append_assoc, symbol_append _ hs]
      simp only [show ¬ sym < 256 by omega, show ¬ sym = 256 by omega, if_false]
      rw [withExtra_append _ g2]
      simp only [List.nil_append]
      have d2 : distance (bitsLE (distTable (d - 1) % 32) (distTable (d - 1) / 32) ++ t) =
          some (d, t) := by
        unfold distance at d1 ⊢
        cases e5 : takeMSB 5 0 (bitsLE (distTable (d - 1) % 32) (distTable (d - 1) / 32)) with
        | none => simp [e5] at d1
        | some p =>
          obtain ⟨c, r'⟩ := p
          rw [takeMSB_append t e5]
          simp only [e5] at d1 ⊢
          rw [withExtra_append t d1, List.nil_append]
      rw [d2]
      simp only [show ¬ h.length < d by omega, if_false]
      simp [length_bitsLE]
      omega

theorem emits_stored (l : Bool) (u : Nat) (h data : List Nat) (hl : data.length ≤ 65535)
    (hb : ∀ x ∈ data, x < 256) :
    Emits ⟨.header, u, h⟩
      (bitsLE 3 (if l then 1 else 0) ++ (List.replicate ((8 - (u + 3) % 8) % 8) false ++
        (bitsLE 16 data.length ++ (bitsLE 16 (65535 - data.length) ++ bytesBits data))))
      ⟨afterBlock l, u + (3 + ((8 - (u + 3) % 8) % 8 + (16 + (16 + 8 * data.length)))),
        h ++ data⟩ := by
  apply Emits.one (by simp) (by cases l <;> simp [bitsLE])
  intro t
  have e3 : bitsLE 3 (if l then 1 else 0) = [l, false, false] := by cases l <;> rfl
  rw [e3]
  simp only [List.cons_append, List.nil_append, step]
  unfold stored
  simp only
  rw [if_neg (by simp)]
  rw [List.append_assoc, List.drop_append_of_le_length (by simp)]
  rw [List.drop_of_length_le (by simp), List.nil_append, List.append_assoc, List.append_assoc,
    takeLE_bits]
  simp only
  rw [takeLE_bits]
  simp only
  have a1 : data.length % 2 ^ 16 = data.length := Nat.mod_eq_of_lt (by omega)
  have a2 : (65535 - data.length) % 2 ^ 16 = 65535 - data.length := Nat.mod_eq_of_lt (by omega)
  rw [a1, a2, if_neg (by omega), takeBytes_bits data hb]
  simp only [Option.some.injEq, Prod.mk.injEq, Cfg.mk.injEq, and_true, true_and]
  omega

/-! ### Following the compressor -/

/-- after the bytes `p`, what `s` has sent brings a decompressor to mode `m` with output `h`. -/
def Rel (p : List Nat) (s : Strm) (m : Mode) (h : List Nat) : Prop :=
  Wf s ∧ p <+: s.out ∧
    ∃ bs, sbits s = bytesBits p ++ bs ∧ Emits ⟨.header, 0, []⟩ bs ⟨m, bs.length, h⟩

/-- the parts of the stream that do not matter for the bits. -/
theorem Rel.congr {p : List Nat} {s s' : Strm} {m : Mode} {h : List Nat} (r : Rel p s m h)
    (h1 : s'.queue = s.queue) (h2 : s'.qbits = s.qbits) (h3 : s'.out = s.out) : Rel p s' m h := by
  have e : sbits s' = sbits s := by unfold sbits; rw [h1, h2, h3]
  obtain ⟨w, hp, bs, hb, he⟩ := r
  exact ⟨by unfold Wf; rw [h1, h2]; exact w, by rw [h3]; exact hp, bs, by rw [e]; exact hb, he⟩

theorem enqueue_prefix (s : Strm) (x n : Nat) : s.out <+: (enqueue s x n).out := by
  unfold enqueue; simp only; split
  · exact List.prefix_append _ _
  · exact List.prefix_rfl

theorem Rel.enq {p : List Nat} {s : Strm} {m m' : Mode} {h h' : List Nat} {x n : Nat}
    (r : Rel p s m h) (hx : x < 2 ^ n) (hn : n ≤ 32)
    (he : ∀ u, Emits ⟨m, u, h⟩ (bitsLE n x) ⟨m', u + n, h'⟩) : Rel p (enqueue s x n) m' h' := by
  obtain ⟨w, hp, bs, hb, hbs⟩ := r
  obtain ⟨w', hs⟩ := enqueue_wf w hx hn
  refine ⟨w', hp.trans (enqueue_prefix s x n), bs ++ bitsLE n x, by rw [hs, hb, List.append_assoc], ?_⟩
  have := hbs.trans (he bs.length)
  rwa [List.length_append, length_bitsLE]

/-- fields kept by sending. -/
def Same (s s' : Strm) : Prop := s'.level = s.level ∧ s'.crc = s.crc ∧ s'.ilen = s.ilen

theorem Same.refl (s : Strm) : Same s s := ⟨rfl, rfl, rfl⟩
theorem Same.trans {a b c : Strm} (h : Same a b) (g : Same b c) : Same a c :=
  ⟨g.1.trans h.1, g.2.1.trans h.2.1, g.2.2.trans h.2.2⟩

theorem enqueue_keeps (s : Strm) (x n : Nat) :
    Same s (enqueue s x n) ∧ (enqueue s x n).state = s.state := by
  unfold enqueue; simp only; split <;> exact ⟨⟨rfl, rfl, rfl⟩, rfl⟩

theorem sendEob_keeps (s : Strm) : Same s (sendEob s) ∧ (sendEob s).state = s.state :=
  enqueue_keeps s 0 7

/-- the decompressor's mode that goes with a state. -/
def modeOf : St → Mode
  | .eob => .header
  | .fixed => .codes false
  | .last => .codes true
  | .done => .finished
  | .init => .header
  | .ended => .finished

theorem sendHuff_rel {p : List Nat} {s : Strm} {l : Bool} {h : List Nat} {x : Nat}
    (r : Rel p s (.codes l) h) (hx : x < 256) : Rel p (sendHuff s x) (.codes l) (h ++ [x]) := by
  obtain ⟨h1, h2, h3⟩ := fixedHuff_ok ⟨x, hx⟩
  simp only at h1 h2 h3
  refine r.enq h2 ?_ (fun u => emits_lit l u h x hx)
  rw [h3]; split <;> omega

theorem sendAll_rel {p : List Nat} {s : Strm} {l : Bool} {h : List Nat} (d : List Nat)
    (r : Rel p s (.codes l) h) (hd : ∀ x ∈ d, x < 256) :
    Rel p (sendAll s d) (.codes l) (h ++ d) ∧ Same s (sendAll s d) ∧
      (sendAll s d).state = s.state := by
  induction d generalizing s h with
  | nil => exact ⟨by simpa [sendAll] using r, Same.refl s, rfl⟩
  | cons x d ih =>
    have r' := sendHuff_rel r (hd x (by simp))
    obtain ⟨a, b, c⟩ := ih r' (fun y hy => hd y (by simp [hy]))
    have k := enqueue_keeps s (fixedHuff.getD x 0 / 16) (fixedHuff.getD x 0 % 16)
    refine ⟨by simpa [sendAll] using a, k.1.trans b, c.trans k.2⟩

theorem sendEob_rel {p : List Nat} {s : Strm} {l : Bool} {h : List Nat}
    (r : Rel p s (.codes l) h) : Rel p (sendEob s) (afterBlock l) h :=
  r.enq (by decide) (by decide) (fun u => emits_eob l u h)

theorem huffHeader_rel {p : List Nat} {s : Strm} {h : List Nat} (more : Bool)
    (hs : s.state = .eob ∨ s.state = .fixed) (r : Rel p s (modeOf s.state) h) :
    Rel p (huffHeader s more) (.codes (!more)) h ∧ Same s (huffHeader s more) ∧
      (huffHeader s more).state = (if more then .fixed else .last) := by
  unfold huffHeader
  rcases hs with hs | hs
  · rw [hs] at r
    simp only [hs, if_true]
    have r' : Rel p { s with state := if more then .fixed else .last } .header h :=
      r.congr rfl rfl rfl
    have k := enqueue_keeps { s with state := if more then St.fixed else St.last }
      (if more then 2 else 3) 3
    refine ⟨?_, k.1, k.2⟩
    refine r'.enq (by cases more <;> decide) (by decide) (fun u => ?_)
    cases more
    · exact emits_fixed true u h
    · exact emits_fixed false u h
  · rw [hs] at r
    simp only [hs, show ¬ (St.fixed = St.eob) by decide, if_false]
    cases more with
    | true => exact ⟨r, Same.refl s, by simpa using hs⟩
    | false =>
      simp only [if_true]
      have r1 : Rel p { (sendEob s) with state := St.last } .header h :=
        (sendEob_rel (l := false) r).congr rfl rfl rfl
      have k := enqueue_keeps { (sendEob s) with state := St.last } 3 3
      have k1 := sendEob_keeps s
      refine ⟨r1.enq (by decide) (by decide) (fun u => emits_fixed true u h), ?_, k.2⟩
      exact ⟨k.1.1.trans k1.1.1, k.1.2.1.trans k1.1.2.1, k.1.2.2.trans k1.1.2.2⟩

theorem copyLitHuff_rel {p : List Nat} {s : Strm} {h : List Nat} (d : List Nat) (more : Bool)
    (hd : ∀ x ∈ d, x < 256)
    (hs : s.state = .eob ∨ s.state = .fixed) (r : Rel p s (modeOf s.state) h) :
    Rel p (copyLitHuff s d more) (.codes (!more)) (h ++ d) ∧ Same s (copyLitHuff s d more) ∧
      (copyLitHuff s d more).state = (if more then .fixed else .last) := by
  obtain ⟨a, b, c⟩ := huffHeader_rel more hs r
  obtain ⟨a', b', c'⟩ := sendAll_rel d a hd
  exact ⟨a', b.trans b', c'.trans c⟩

/-- what the stored blocks of `copy_lit` hold. -/
def copied : Nat → List Nat → Nat → List Nat
  | 0, _, _ => []
  | fuel + 1, buf, len =>
    buf.take (min len 65535) ++ (if 65535 < len then copied fuel buf (len - 65535) else [])

theorem closeBlock_rel {p : List Nat} {s : Strm} {h : List Nat}
    (hs : s.state = .eob ∨ s.state = .fixed) (r : Rel p s (modeOf s.state) h) :
    Rel p (closeBlock s) .header h ∧ Same s (closeBlock s) := by
  unfold closeBlock
  rcases hs with hs | hs
  · rw [if_pos hs]; rw [hs] at r; exact ⟨r, Same.refl s⟩
  · rw [if_neg (by rw [hs]; decide)]; rw [hs] at r
    exact ⟨sendEob_rel (l := false) r, (sendEob_keeps s).1⟩

/-- one stored block. -/
def storeBlock (s : Strm) (l : Bool) (data : List Nat) : Strm :=
  let s := flushBits (enqueue s (if l then 1 else 0) 3)
  let s := copy16 (copy16 s data.length) (not32 data.length)
  { s with out := s.out ++ data }

theorem bytesBits_two (x : Nat) : bytesBits [x % 256, x / 256 % 256] = bitsLE 16 x := by
  have m : ∀ x, bitsLE 8 (x % 256) = bitsLE 8 x := fun x => bitsLE_mod 8 x
  simp only [bytesBits, List.flatMap_cons, List.flatMap_nil, m, List.append_nil]
  rw [show (16 : Nat) = 8 + 8 from rfl, bitsLE_add]; rfl

theorem storeBlock_rel {p : List Nat} {s : Strm} {h : List Nat} (l : Bool) (data : List Nat)
    (hl : data.length ≤ 65535) (hb : ∀ x ∈ data, x < 256) (r : Rel p s .header h) :
    Rel p (storeBlock s l data) (afterBlock l) (h ++ data) := by
  obtain ⟨w, hp, bs, hbs, he⟩ := r
  obtain ⟨w1, h1⟩ := enqueue_wf (s := s) (x := if l then 1 else 0) (n := 3) w
    (by cases l <;> decide) (by decide)
  obtain ⟨w2, h2⟩ := flush_wf w1
  have hq : (flushBits (enqueue s (if l then 1 else 0) 3)).qbits = 0 := rfl
  have hq2 : (flushBits (enqueue s (if l then 1 else 0) 3)).queue = 0 := rfl
  have e0 : sbits (flushBits (enqueue s (if l then 1 else 0) 3)) =
      bytesBits (flushBits (enqueue s (if l then 1 else 0) 3)).out := by
    unfold sbits; rw [hq]; simp [bitsLE]
  have hn : bitsLE 16 (not32 data.length) = bitsLE 16 (65535 - data.length) := by
    rw [← bitsLE_mod 16 (not32 _)]
    congr 1
    unfold not32
    omega
  have hlen : (sbits (enqueue s (if l then 1 else 0) 3)).length % 8 = (bs.length + 3) % 8 := by
    rw [h1, hbs]; simp [length_bytesBits, length_bitsLE]
    try omega
  refine ⟨⟨by show 0 < 32; decide, by show 0 < 2 ^ 0; decide⟩, ?_,
    bs ++ (bitsLE 3 (if l then 1 else 0) ++ (List.replicate ((8 - (bs.length + 3) % 8) % 8) false ++
        (bitsLE 16 data.length ++ (bitsLE 16 (65535 - data.length) ++ bytesBits data)))), ?_, ?_⟩
  · refine (hp.trans (enqueue_prefix s (if l then 1 else 0) 3)).trans ?_
    show _ <+: (((enqueue s (if l then 1 else 0) 3).out ++ _) ++ _ ++ _) ++ _
    simp only [List.append_assoc]
    exact List.prefix_append _ _
  · have : sbits (storeBlock s l data) =
      bytesBits ((flushBits (enqueue s (if l then 1 else 0) 3)).out ++
        [data.length % 256, data.length / 256 % 256] ++
        [not32 data.length % 256, not32 data.length / 256 % 256] ++ data) ++ bitsLE 0 0 := rfl
    rw [this, bytesBits_append, bytesBits_append, bytesBits_append, bytesBits_two, bytesBits_two,
      ← e0, h2, hlen, h1, hbs, hn]
    simp [bitsLE]
  · have := he.trans (emits_stored l bs.length h data hl hb)
    simpa [length_bitsLE, length_bytesBits] using this

theorem copyLit_succ (fuel : Nat) (s : Strm) (buf : List Nat) (len : Nat) (more : Bool)
    (hbuf : len ≤ buf.length) :
    copyLit (fuel + 1) s buf len more =
      (let l := !(more || decide (65535 < len))
       let s' := storeBlock { (closeBlock s) with state := if l then .done else .eob } l
          (buf.take (min len 65535))
       if 65535 < len then copyLit fuel s' buf (len - 65535) more else s') := by
  rw [copyLit]
  by_cases h : 65535 < len
  · have h0 : 0 < len - 65535 := by omega
    have hl : (buf.take 65535).length = 65535 := by simp; omega
    have hmin : min len 65535 = 65535 := by omega
    simp only [h, if_true, h0, decide_true, Bool.or_true, Bool.not_true, storeBlock, hl, hmin,
      Bool.false_eq_true, if_false]
  · have hl : (buf.take (min len 65535)).length = len := by simp; omega
    have hmin : min len 65535 = len := by omega
    simp only [h, if_false, Nat.sub_self, Nat.lt_irrefl, decide_false, Bool.or_false, storeBlock, hl,
      hmin]
    cases more <;> simp [hbuf, Nat.min_eq_left]

theorem storeBlock_keeps (s : Strm) (l : Bool) (data : List Nat) :
    Same s (storeBlock s l data) ∧ (storeBlock s l data).state = s.state := by
  have k := enqueue_keeps s (if l then 1 else 0) 3
  exact ⟨⟨k.1.1, k.1.2.1, k.1.2.2⟩, k.2⟩

theorem copyLit_rel {p : List Nat} (fuel : Nat) {s : Strm} {h buf : List Nat} {len : Nat}
    (more : Bool) (hb : ∀ x ∈ buf, x < 256) (hbuf : len ≤ buf.length) (hf : len ≤ fuel)
    (h0 : 0 < len)
    (hs : s.state = .eob ∨ s.state = .fixed) (r : Rel p s (modeOf s.state) h) :
    Rel p (copyLit fuel s buf len more) (afterBlock (!more)) (h ++ copied fuel buf len) ∧
      Same s (copyLit fuel s buf len more) ∧
      (copyLit fuel s buf len more).state = (if more then .eob else .done) := by
  induction fuel generalizing s h len with
  | zero => omega
  | succ fuel ih =>
    rw [copyLit_succ _ _ _ _ _ hbuf]
    simp only
    obtain ⟨a, b⟩ := closeBlock_rel hs r
    have hd : ∀ x ∈ buf.take (min len 65535), x < 256 := fun x hx => hb x (List.mem_of_mem_take hx)
    have hl : (buf.take (min len 65535)).length ≤ 65535 := by rw [List.length_take]; omega
    by_cases h6 : 65535 < len
    · simp only [h6, decide_true, Bool.or_true, Bool.not_true, if_true, copied]
      have a1 : Rel p { (closeBlock s) with state := St.eob } .header h := a.congr rfl rfl rfl
      have a2 := storeBlock_rel false _ hl hd a1
      have k := storeBlock_keeps { (closeBlock s) with state := St.eob } false
        (buf.take (min len 65535))
      have hst : (storeBlock { (closeBlock s) with state := St.eob } false
        (buf.take (min len 65535))).state = .eob := k.2
      obtain ⟨x, y, z⟩ := ih (s := storeBlock { (closeBlock s) with state := St.eob } false
        (buf.take (min len 65535))) (h := h ++ buf.take (min len 65535)) (len := len - 65535)
        (by omega) (by omega) (by omega) (Or.inl hst) (by rw [hst]; exact a2)
      simp only [Bool.false_eq_true, if_false]
      refine ⟨by rw [← List.append_assoc]; exact x, ?_, z⟩
      have k1 : Same (closeBlock s) { (closeBlock s) with state := St.eob } := ⟨rfl, rfl, rfl⟩
      exact b.trans (k1.trans (k.1.trans y))
    · simp only [h6, decide_false, Bool.or_false, if_false, copied, List.append_nil]
      have a1 : Rel p { (closeBlock s) with state := if (!more) = true then St.done else St.eob }
          .header h := a.congr rfl rfl rfl
      have a2 := storeBlock_rel (!more) _ hl hd a1
      have k := storeBlock_keeps
        { (closeBlock s) with state := if (!more) = true then St.done else St.eob } (!more)
        (buf.take (min len 65535))
      refine ⟨a2, ?_, ?_⟩
      · have k1 : Same (closeBlock s)
          { (closeBlock s) with state := if (!more) = true then St.done else St.eob } :=
          ⟨rfl, rfl, rfl⟩
        exact b.trans (k1.trans k.1)
      · rw [k.2]; cases more <;> rfl

end Mtev.Slz
