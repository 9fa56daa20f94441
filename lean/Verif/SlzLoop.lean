import Verif.SlzEmit

/-! Helper lemmas for `SlzProps`: the main loop of the compressor. -/
namespace Mtev.Slz
open Mtev.Inflate

theorem firstDiff_spec (inp : List Nat) (a b n : Nat) :
    (∀ k, firstDiff inp a b n = some k →
      k < n ∧ ∀ i, i < k → inp.getD (a + i) 0 = inp.getD (b + i) 0) ∧
    (firstDiff inp a b n = none → ∀ i, i < n → inp.getD (a + i) 0 = inp.getD (b + i) 0) := by
  induction n with
  | zero => simp [firstDiff]
  | succ n ih =>
    rw [firstDiff]
    cases h : firstDiff inp a b n with
    | some k =>
      refine ⟨?_, by simp⟩
      intro k' e
      simp only [Option.some.injEq] at e
      subst e
      have := ih.1 k h
      exact ⟨by omega, this.2⟩
    | none =>
      have hn := ih.2 h
      simp only
      by_cases he : inp.getD (a + n) 0 = inp.getD (b + n) 0
      · rw [if_pos he]
        refine ⟨by simp, ?_⟩
        intro _ i hi
        rcases Nat.lt_succ_iff_lt_or_eq.mp hi with h1 | h1
        · exact hn i h1
        · rw [h1]; exact he
      · rw [if_neg he]
        refine ⟨?_, by simp⟩
        intro k e
        simp only [Option.some.injEq] at e
        subst e
        exact ⟨by omega, hn⟩

theorem rd_ok {inp : List Nat} {i : Nat} (h : i < inp.length) : rd inp i = .ok (inp.getD i 0) := by
  unfold rd
  rw [List.getElem?_eq_getElem h]
  simp [List.getD_eq_getElem?_getD, List.getElem?_eq_getElem h]

theorem matchTail_ok {inp : List Nat} {a b max : Nat} (ha : a + max ≤ inp.length)
    (hb : b + max ≤ inp.length) (fuel len : Nat) (hl : len ≤ max)
    (he : ∀ i, i < len → inp.getD (a + i) 0 = inp.getD (b + i) 0) :
    ∃ m, matchTail inp a b max fuel len = .ok m ∧ m ≤ max ∧
      ∀ i, i < m → inp.getD (a + i) 0 = inp.getD (b + i) 0 := by
  induction fuel generalizing len with
  | zero => exact ⟨len, rfl, hl, he⟩
  | succ fuel ih =>
    rw [matchTail]
    by_cases h : len < max
    · rw [if_pos h, rd_ok (by omega), rd_ok (by omega)]
      simp only [Out.bind]
      split
      · rename_i e
        apply ih (len + 1) (by omega)
        intro i hi
        rcases Nat.lt_succ_iff_lt_or_eq.mp hi with h1 | h1
        · exact he i h1
        · rw [h1]; exact e
      · exact ⟨len, rfl, hl, he⟩
    · rw [if_neg h]; exact ⟨len, rfl, hl, he⟩

theorem memmatch_ok {inp : List Nat} {a b max : Nat} (ha : a + max ≤ inp.length)
    (hb : b + max ≤ inp.length) (fuel len : Nat) (hl : len ≤ max)
    (he : ∀ i, i < len → inp.getD (a + i) 0 = inp.getD (b + i) 0) :
    ∃ m, memmatch inp a b max fuel len = .ok m ∧ m ≤ max ∧
      ∀ i, i < m → inp.getD (a + i) 0 = inp.getD (b + i) 0 := by
  induction fuel generalizing len with
  | zero => exact ⟨len, rfl, hl, he⟩
  | succ fuel ih =>
    have ext : ∀ len k, (∀ i, i < len → inp.getD (a + i) 0 = inp.getD (b + i) 0) →
        (∀ i, i < k → inp.getD (a + len + i) 0 = inp.getD (b + len + i) 0) →
        ∀ i, i < len + k → inp.getD (a + i) 0 = inp.getD (b + i) 0 := by
      intro len k h1 h2 i hi
      by_cases hlt : i < len
      · exact h1 i hlt
      · have := h2 (i - len) (by omega)
        rwa [show a + len + (i - len) = a + i by omega,
          show b + len + (i - len) = b + i by omega] at this
    rw [memmatch]
    by_cases h : max < len + 16
    · rw [if_pos h]; exact matchTail_ok ha hb _ len hl he
    · rw [if_neg h]
      have c1 : cmp8 inp (a + len) (b + len) = .ok (firstDiff inp (a + len) (b + len) 8) := by
        unfold cmp8; rw [if_pos (by omega)]
      have c2 : cmp8 inp (a + (len + 8)) (b + (len + 8)) =
          .ok (firstDiff inp (a + (len + 8)) (b + (len + 8)) 8) := by
        unfold cmp8; rw [if_pos (by omega)]
      rw [c1]
      simp only [Out.bind]
      have s1 := firstDiff_spec inp (a + len) (b + len) 8
      cases d1 : firstDiff inp (a + len) (b + len) 8 with
      | some k =>
        obtain ⟨k1, k2⟩ := s1.1 k d1
        exact ⟨len + k, rfl, by omega, ext len k he k2⟩
      | none =>
        have e1 := ext len 8 he (s1.2 d1)
        simp only [c2, Out.bind]
        have s2 := firstDiff_spec inp (a + (len + 8)) (b + (len + 8)) 8
        cases d2 : firstDiff inp (a + (len + 8)) (b + (len + 8)) 8 with
        | some k =>
          obtain ⟨k1, k2⟩ := s2.1 k d2
          exact ⟨len + 8 + k, rfl, by omega, ext (len + 8) k e1 k2⟩
        | none =>
          have e2 := ext (len + 8) 8 e1 (s2.2 d2)
          exact ih (len + 16) (by omega) e2

theorem wordAt_lt {inp : List Nat} (hb : ∀ x ∈ inp, x < 256) (i : Nat) :
    wordAt inp i < 2 ^ 32 := by
  have g : ∀ i, inp.getD i 0 < 256 := by
    intro i
    rw [List.getD_eq_getElem?_getD]
    cases h : inp[i]? with
    | none => simp
    | some x => simpa using hb x (List.mem_of_getElem? h)
  have := g i; have := g (i + 1); have := g (i + 2); have := g (i + 3)
  unfold wordAt; omega

theorem wordAt_eq {inp : List Nat} (hb : ∀ x ∈ inp, x < 256) {i j : Nat}
    (h : wordAt inp i = wordAt inp j) : ∀ k, k < 4 → inp.getD (i + k) 0 = inp.getD (j + k) 0 := by
  have g : ∀ i, inp.getD i 0 < 256 := by
    intro i
    rw [List.getD_eq_getElem?_getD]
    cases h : inp[i]? with
    | none => simp
    | some x => simpa using hb x (List.mem_of_getElem? h)
  have := g i; have := g (i + 1); have := g (i + 2); have := g (i + 3)
  have := g j; have := g (j + 1); have := g (j + 2); have := g (j + 3)
  unfold wordAt at h
  intro k hk
  have h0 : inp.getD i 0 = inp.getD j 0 := by omega
  have h1 : inp.getD (i + 1) 0 = inp.getD (j + 1) 0 := by omega
  have h2 : inp.getD (i + 2) 0 = inp.getD (j + 2) 0 := by omega
  have h3 : inp.getD (i + 3) 0 = inp.getD (j + 3) 0 := by omega
  match k, hk with
  | 0, _ => exact h0
  | 1, _ => exact h1
  | 2, _ => exact h2
  | 3, _ => exact h3

theorem take_succ_getD {inp : List Nat} {n : Nat} (h : n < inp.length) :
    inp.take (n + 1) = inp.take n ++ [inp.getD n 0] := by
  rw [List.take_succ, List.getD_eq_getElem?_getD, List.getElem?_eq_getElem h]
  rfl

/-- copying back reproduces the input when the two places agree. -/
theorem copyBack_input {inp : List Nat} (A : List Nat) (m pos last : Nat) (hl : last < pos)
    (hn : pos + m ≤ inp.length)
    (he : ∀ i, i < m → inp.getD (pos + i) 0 = inp.getD (last + i) 0) :
    copyBack m (pos - last) (A ++ inp.take pos) = A ++ inp.take (pos + m) := by
  induction m generalizing pos last with
  | zero => rfl
  | succ m ih =>
    rw [copyBack]
    have hlen : (A ++ inp.take pos).length = A.length + pos := by simp; omega
    have hg : (A ++ inp.take pos).getD ((A ++ inp.take pos).length - (pos - last)) 0 =
        inp.getD pos 0 := by
      rw [hlen, List.getD_eq_getElem?_getD,
        show A.length + pos - (pos - last) = A.length + last by omega,
        List.getElem?_append_right (by omega), Nat.add_sub_cancel_left,
        List.getElem?_take_of_lt hl]
      have := he 0 (by omega)
      simp only [Nat.add_zero] at this
      rw [this, List.getD_eq_getElem?_getD]
    rw [hg, List.append_assoc, ← take_succ_getD (by omega)]
    have := ih (pos + 1) (last + 1) (by omega) (by omega) (fun i hi => by
      have := he (i + 1) (by omega)
      rwa [show pos + 1 + i = pos + (i + 1) by omega, show last + 1 + i = last + (i + 1) by omega])
    rw [show pos + 1 - (last + 1) = pos - last by omega] at this
    rw [this, show pos + 1 + m = pos + (m + 1) by omega]

theorem copied_small {fuel : Nat} {buf : List Nat} {len : Nat} (h : len ≤ 65535) (hf : 0 < fuel) :
    copied fuel buf len = buf.take len := by
  cases fuel with
  | zero => omega
  | succ fuel => rw [copied, if_neg (by omega), List.append_nil, Nat.min_eq_left h]

theorem dumpLit_rel {p : List Nat} {s : Strm} {h inp : List Nat} {pos plit bit9 : Nat} (more : Bool)
    (hb : ∀ x ∈ inp, x < 256) (hp : pos ≤ inp.length) (hpl : plit ≤ pos) (h0 : 0 < plit)
    (hsm : plit ≤ 65535)
    (hs : s.state = .eob ∨ s.state = .fixed) (r : Rel p s (modeOf s.state) h) :
    Rel p (dumpLit s inp pos plit bit9 more) (modeOf (dumpLit s inp pos plit bit9 more).state)
        (h ++ (inp.drop (pos - plit)).take plit) ∧
      Same s (dumpLit s inp pos plit bit9 more) ∧
      (dumpLit s inp pos plit bit9 more).state =
        (if 52 ≤ bit9 then (if more then .eob else .done) else (if more then .fixed else .last)) := by
  unfold dumpLit
  by_cases h52 : 52 ≤ bit9
  · simp only [h52, if_true]
    obtain ⟨a, b, c⟩ := copyLit_rel plit (buf := inp.drop (pos - plit)) more
      (fun x hx => hb x (List.mem_of_mem_drop hx)) (by simp; omega) (Nat.le_refl _) h0 hs r
    refine ⟨?_, b, c⟩
    rw [c]
    rw [copied_small hsm h0] at a
    cases more <;> exact a
  · simp only [h52, if_false]
    obtain ⟨a, b, c⟩ := copyLitHuff_rel ((inp.drop (pos - plit)).take plit) more
      (fun x hx => hb x (List.mem_of_mem_drop (List.mem_of_mem_take hx))) hs r
    refine ⟨?_, b, c⟩
    rw [c]
    cases more <;> exact a

theorem take_drop_join (inp : List Nat) (pos plit : Nat) (h : plit ≤ pos) :
    inp.take (pos - plit) ++ (inp.drop (pos - plit)).take plit = inp.take pos := by
  have : pos = (pos - plit) + plit := by omega
  conv_rhs => rw [this, List.take_add]

/-- invariant of the main loop. -/
structure Inv (p H inp : List Nat) (l : Loop) : Prop where
  len : l.pos + l.rem = inp.length
  plit : l.plit ≤ l.pos
  st : l.s.state = .eob ∨ l.s.state = .fixed
  rel : Rel p l.s (modeOf l.s.state) (H ++ inp.take (l.pos - l.plit))
  refs : ∀ h, l.refs h = 2 ^ 64 - 32769 ∨
    ∃ q, q < l.pos ∧ q + 4 ≤ inp.length ∧ l.refs h = q + wordAt inp q * 2 ^ 32

theorem asLit_inv {p H inp : List Nat} {l : Loop} (w : Nat) (i : Inv p H inp l) (hr : 1 ≤ l.rem)
    (hrefs : ∀ h, l.refs h = 2 ^ 64 - 32769 ∨
      ∃ q, q < l.pos + 1 ∧ q + 4 ≤ inp.length ∧ l.refs h = q + wordAt inp q * 2 ^ 32) :
    Inv p H inp (asLit l w) := by
  refine ⟨?_, ?_, i.st, ?_, hrefs⟩
  · have := i.len; simp only [asLit]; omega
  · have := i.plit; simp only [asLit]; omega
  · have e : (asLit l w).pos - (asLit l w).plit = l.pos - l.plit := by simp only [asLit]; omega
    rw [e]; exact i.rel

theorem openFixed_rel {p : List Nat} {s : Strm} {h : List Nat}
    (hs : s.state = .eob ∨ s.state = .fixed) (r : Rel p s (modeOf s.state) h) :
    Rel p (openFixed s) (.codes false) h ∧ Same s (openFixed s) ∧ (openFixed s).state = .fixed := by
  unfold openFixed
  rcases hs with hs | hs
  · rw [hs] at r
    rw [if_pos hs]
    have r' : Rel p { s with state := St.fixed } .header h := r.congr rfl rfl rfl
    have k := enqueue_keeps { s with state := St.fixed } 2 3
    exact ⟨r'.enq (by decide) (by decide) (fun u => emits_fixed false u h), k.1, k.2⟩
  · rw [hs] at r
    rw [if_neg (by rw [hs]; decide)]
    exact ⟨r, Same.refl s, hs⟩

theorem sendRef_inv {p H inp : List Nat} {l : Loop} {mlen last : Nat} (hb : ∀ x ∈ inp, x < 256)
    (hn : inp.length ≤ 65535) (i : Inv p H inp l) (hl : last < l.pos) (hd : l.pos - last ≤ 32768)
    (hm : 4 ≤ mlen) (hm2 : mlen ≤ 258) (hm3 : mlen ≤ l.rem)
    (he : ∀ i, i < mlen → inp.getD (l.pos + i) 0 = inp.getD (last + i) 0)
    (hrefs : ∀ h, l.refs h = 2 ^ 64 - 32769 ∨
      ∃ q, q < l.pos + 1 ∧ q + 4 ≤ inp.length ∧ l.refs h = q + wordAt inp q * 2 ^ 32) :
    Inv p H inp (sendRef inp l mlen (lenFh.getD mlen 0) (distTable (l.pos - last - 1))) ∧
    Same l.s (sendRef inp l mlen (lenFh.getD mlen 0) (distTable (l.pos - last - 1))).s := by
  obtain ⟨g, g2, g3, g4⟩ := lenFh_ok ⟨mlen, by omega⟩ (by simp; omega)
  simp only at g2 g3 g4
  obtain ⟨_, d2, d3, d4⟩ := distTable_ok (l.pos - last) (by omega) hd
  have hlen := i.len
  have hpl := i.plit
  -- pending literals
  have key : ∃ s1, (if 0 < l.plit then dumpLit l.s inp l.pos l.plit l.bit9 true else l.s) = s1 ∧
      Rel p s1 (modeOf s1.state) (H ++ inp.take l.pos) ∧ Same l.s s1 ∧
      (s1.state = .eob ∨ s1.state = .fixed) := by
    refine ⟨_, rfl, ?_⟩
    by_cases h0 : 0 < l.plit
    · simp only [h0, if_true]
      obtain ⟨a, b, c⟩ := dumpLit_rel (bit9 := l.bit9) true hb (by omega) hpl h0 (by omega) i.st i.rel
      rw [List.append_assoc, take_drop_join _ _ _ hpl] at a
      refine ⟨a, b, ?_⟩
      rw [c]
      by_cases h52 : 52 ≤ l.bit9 <;> simp [h52]
    · simp only [h0, if_false]
      have : l.plit = 0 := by omega
      have r := i.rel
      rw [this, Nat.sub_zero] at r
      exact ⟨r, Same.refl _, i.st⟩
  obtain ⟨s1, e1, r1, k1, t1⟩ := key
  obtain ⟨r2, k2, t2⟩ := openFixed_rel t1 r1
  have hH : l.pos - last ≤ (H ++ inp.take l.pos).length := by simp; omega
  -- length and distance together
  have both : Rel p (enqueue (enqueue (openFixed s1) (lenFh.getD mlen 0 % 65536)
        (lenFh.getD mlen 0 / 65536)) (distTable (l.pos - last - 1) / 32)
        (distTable (l.pos - last - 1) % 32)) (.codes false) (H ++ inp.take (l.pos + mlen)) := by
    obtain ⟨w, hp, bs, hbs, hbe⟩ := r2
    obtain ⟨w1, h1⟩ := enqueue_wf w g2 (by omega)
    obtain ⟨w2, h2⟩ := enqueue_wf w1 d2 (by omega)
    refine ⟨w2, (hp.trans (enqueue_prefix _ _ _)).trans (enqueue_prefix _ _ _),
      bs ++ (bitsLE (lenFh.getD mlen 0 / 65536) (lenFh.getD mlen 0 % 65536) ++
        bitsLE (distTable (l.pos - last - 1) % 32) (distTable (l.pos - last - 1) / 32)), ?_, ?_⟩
    · rw [h2, h1, hbs]; simp only [List.append_assoc]
    · have := hbe.trans (emits_ref false bs.length (H ++ inp.take l.pos) mlen (l.pos - last)
        (by omega) hm2 (by omega) hd hH)
      rw [copyBack_input H mlen l.pos last hl (by omega) he] at this
      rw [List.length_append, List.length_append, length_bitsLE, length_bitsLE]
      exact this
  have ka := enqueue_keeps (openFixed s1) (lenFh.getD mlen 0 % 65536) (lenFh.getD mlen 0 / 65536)
  have kb := enqueue_keeps (enqueue (openFixed s1) (lenFh.getD mlen 0 % 65536)
    (lenFh.getD mlen 0 / 65536)) (distTable (l.pos - last - 1) / 32)
    (distTable (l.pos - last - 1) % 32)
  have hstate := kb.2.trans (ka.2.trans t2)
  have eS : (sendRef inp l mlen (lenFh.getD mlen 0) (distTable (l.pos - last - 1))).s =
      enqueue (enqueue (openFixed s1) (lenFh.getD mlen 0 % 65536)
        (lenFh.getD mlen 0 / 65536)) (distTable (l.pos - last - 1) / 32)
        (distTable (l.pos - last - 1) % 32) := by
    unfold sendRef; rw [e1]
  refine ⟨⟨?_, ?_, ?_, ?_, ?_⟩, ?_⟩
  · simp only [sendRef]; omega
  · simp only [sendRef]; omega
  · rw [eS]; exact Or.inr hstate
  · rw [eS, hstate]; exact both
  · intro h
    rcases hrefs h with e | ⟨q, q1, q2, q3⟩
    · exact Or.inl e
    · exact Or.inr ⟨q, by simp only [sendRef]; omega, q2, q3⟩
  · rw [eS]; exact k1.trans (k2.trans (ka.1.trans kb.1))

theorem sendRef_refs (inp : List Nat) (l : Loop) (r : Nat → Nat) (m c d : Nat) :
    (sendRef inp l m c d).s = (sendRef inp { l with refs := r } m c d).s := rfl

theorem lstep_inv {p H inp : List Nat} {l : Loop} (hb : ∀ x ∈ inp, x < 256)
    (hn : inp.length ≤ 65535) (i : Inv p H inp l) (hr : 4 ≤ l.rem) :
    ∃ l', lstep inp l = .ok l' ∧ Inv p H inp l' ∧ Same l.s l'.s ∧ l'.rem < l.rem := by
  have hlen := i.len
  have hw := wordAt_lt hb l.pos
  have hrd : rd32 inp l.pos = .ok (wordAt inp l.pos) := by
    unfold rd32; rw [if_pos (by omega)]
  unfold lstep
  rw [hrd]
  simp only [Out.bind]
  have hput : (l.pos + wordAt inp l.pos * 2 ^ 32) % 2 ^ 64 = l.pos + wordAt inp l.pos * 2 ^ 32 :=
    Nat.mod_eq_of_lt (by omega)
  generalize hl1 : remember l (wordAt inp l.pos) = l1
  have i1 : ∀ h, l1.refs h = 2 ^ 64 - 32769 ∨
      ∃ q, q < l1.pos + 1 ∧ q + 4 ≤ inp.length ∧ l1.refs h = q + wordAt inp q * 2 ^ 32 := by
    intro h
    subst hl1
    simp only [remember, setRef]
    by_cases e : h = slzHash (wordAt inp l.pos)
    · right
      refine ⟨l.pos, by omega, by omega, ?_⟩
      rw [if_pos e]; exact hput
    · rw [if_neg e]
      rcases i.refs h with e | ⟨q, q1, q2, q3⟩
      · exact Or.inl e
      · exact Or.inr ⟨q, by omega, q2, q3⟩
  have hs1 : l1.s = l.s ∧ l1.pos = l.pos ∧ l1.rem = l.rem ∧ l1.plit = l.plit ∧ l1.bit9 = l.bit9 := by
    subst hl1; exact ⟨rfl, rfl, rfl, rfl, rfl⟩
  obtain ⟨s1, s2, s3, s4, s5⟩ := hs1
  have hInv0 : ∀ w, Inv p H inp (asLit l1 w) ∧ Same l.s (asLit l1 w).s ∧ (asLit l1 w).rem < l.rem := by
    intro w
    refine ⟨?_, by rw [← s1]; exact Same.refl _, by simp only [asLit]; omega⟩
    refine ⟨?_, ?_, ?_, ?_, i1⟩
    · simp only [asLit]; omega
    · have := i.plit; simp only [asLit]; omega
    · simp only [asLit, s1]; exact i.st
    · have e : (asLit l1 w).pos - (asLit l1 w).plit = l.pos - l.plit := by
        simp only [asLit]; omega
      rw [e]
      have e2 : (asLit l1 w).s = l.s := by rw [← s1]; rfl
      rw [e2]; exact i.rel
  by_cases hent : l.refs (slzHash (wordAt inp l.pos)) / 2 ^ 32 ≠ wordAt inp l.pos
  · rw [if_pos hent]; exact ⟨_, rfl, hInv0 _⟩
  · rw [if_neg hent]
    by_cases hgap : 32768 ≤ gap l1.pos (l.refs (slzHash (wordAt inp l.pos)) % 2 ^ 32)
    · rw [if_pos hgap]; exact ⟨_, rfl, hInv0 _⟩
    · rw [if_neg hgap]
      -- the entry is a real one
      have hreal : ∃ q, q < l.pos ∧ q + 4 ≤ inp.length ∧
          l.refs (slzHash (wordAt inp l.pos)) % 2 ^ 32 = q ∧ wordAt inp q = wordAt inp l.pos := by
        rcases i.refs (slzHash (wordAt inp l.pos)) with e | ⟨q, q1, q2, q3⟩
        · exfalso
          apply hgap
          rw [e, s2]
          unfold gap sub64
          omega
        · have hwq := wordAt_lt hb q
          refine ⟨q, q1, q2, by rw [q3]; omega, ?_⟩
          have : l.refs (slzHash (wordAt inp l.pos)) / 2 ^ 32 = wordAt inp l.pos := by
            simpa using hent
          rw [q3] at this
          omega
      obtain ⟨q, q1, q2, q3, q4⟩ := hreal
      rw [q3] at hgap ⊢
      have hg : gap l1.pos q = l.pos - q - 1 := by
        rw [s2]; unfold gap sub64; omega
      rw [hg] at hgap ⊢
      simp only [s2, s3]
      generalize hmax : (if 258 < l.rem then 258 else l.rem) - 4 = max
      have hmx : max + 4 ≤ 258 ∧ max + 4 ≤ l.rem := by
        rw [← hmax]; split <;> omega
      obtain ⟨m, m1, m2, m3⟩ := memmatch_ok (inp := inp) (a := l.pos + 4) (b := q + 4) (max := max)
        (by omega) (by omega) max 0 (by omega) (by intro i hi; omega)
      rw [m1]
      simp only [Out.bind]
      split
      · exact ⟨_, rfl, hInv0 _⟩
      · split
        · exact ⟨_, rfl, hInv0 _⟩
        · refine ⟨_, rfl, ?_⟩
          have he : ∀ i, i < m + 4 → inp.getD (l1.pos + i) 0 = inp.getD (q + i) 0 := by
            intro i hi
            rw [s2]
            by_cases h4 : i < 4
            · exact (wordAt_eq hb q4 i h4).symm
            · have := m3 (i - 4) (by omega)
              rwa [show l.pos + 4 + (i - 4) = l.pos + i by omega,
                show q + 4 + (i - 4) = q + i by omega] at this
          have main := sendRef_inv (p := p) (H := H) (l := { l1 with refs := noRefs }) (mlen := m + 4)
            (last := q) hb hn ?_ (by show q < l1.pos; omega) (by show l1.pos - q ≤ _; omega) (by omega)
            (by omega) (by show _ ≤ l1.rem; omega) he (fun h => Or.inl rfl)
          · have hS : (sendRef inp l1 (m + 4) (lenFh.getD (m + 4) 0) (distTable (l.pos - q - 1))).s =
              (sendRef inp { l1 with refs := noRefs } (m + 4) (lenFh.getD (m + 4) 0)
                (distTable (({ l1 with refs := noRefs } : Loop).pos - q - 1))).s := by
              rw [← s2]; exact sendRef_refs inp l1 noRefs _ _ _
            obtain ⟨mi, mk⟩ := main
            refine ⟨⟨?_, ?_, ?_, ?_, ?_⟩, ?_, ?_⟩
            · simp only [sendRef]; omega
            · simp only [sendRef]; omega
            · rw [hS]; exact mi.st
            · rw [hS]; exact mi.rel
            · intro h
              rcases i1 h with e | ⟨q, q1, q2, q3⟩
              · exact Or.inl e
              · exact Or.inr ⟨q, by simp only [sendRef]; omega, q2, q3⟩
            · rw [hS]
              rw [← s1]; exact mk
            · simp only [sendRef]; omega
          · refine ⟨?_, ?_, ?_, ?_, fun h => Or.inl rfl⟩
            · show l1.pos + l1.rem = _; omega
            · have := i.plit; show l1.plit ≤ l1.pos; omega
            · show l1.s.state = _ ∨ l1.s.state = _; rw [s1]; exact i.st
            · show Rel p l1.s (modeOf l1.s.state) (H ++ inp.take (l1.pos - l1.plit))
              rw [s1, s2, s4]; exact i.rel

theorem lloop_inv {p H inp : List Nat} (hb : ∀ x ∈ inp, x < 256) (hn : inp.length ≤ 65535)
    (fuel : Nat) {l : Loop} (i : Inv p H inp l) (hf : l.rem ≤ fuel) :
    ∃ l', lloop inp fuel l = .ok l' ∧ Inv p H inp l' ∧ Same l.s l'.s ∧ l'.rem < 4 := by
  induction fuel generalizing l with
  | zero => exact ⟨l, rfl, i, Same.refl _, by omega⟩
  | succ fuel ih =>
    rw [lloop]
    by_cases h4 : 4 ≤ l.rem
    · rw [if_pos h4]
      obtain ⟨l', e, i', k', hr⟩ := lstep_inv hb hn i h4
      rw [e]
      simp only [Out.bind]
      obtain ⟨l'', e2, i2, k2, hr2⟩ := ih i' (by omega)
      exact ⟨l'', e2, i2, k'.trans k2, hr2⟩
    · rw [if_neg h4]; exact ⟨l, rfl, i, Same.refl _, by omega⟩

/-- states in which the stream is not yet closed, and in which it may be. -/
def Open (s : St) : Prop := s = .eob ∨ s = .fixed
def Started (s : St) : Prop := s = .eob ∨ s = .fixed ∨ s = .last ∨ s = .done

theorem encode_rel {p : List Nat} {s : Strm} {h inp : List Nat} (more : Bool)
    (hb : ∀ x ∈ inp, x < 256) (hn : inp.length ≤ 65535) (hs : Open s.state)
    (r : Rel p s (modeOf s.state) h) :
    ∃ s', encode s inp more = .ok s' ∧ Rel p s' (modeOf s'.state) (h ++ inp) ∧
      Started s'.state ∧ (more = true → Open s'.state) ∧ s'.level = s.level ∧ s'.crc = s.crc ∧
      s'.ilen = (s.ilen + inp.length) % 2 ^ 32 := by
  unfold encode
  by_cases hlev : s.level = false
  · rw [if_pos hlev]
    by_cases h0 : 0 < inp.length
    · simp only [h0, if_true]
      obtain ⟨a, b, c⟩ := dumpLit_rel (bit9 := 52) more hb (Nat.le_refl _) (Nat.le_refl _) h0 hn hs r
      rw [Nat.sub_self, List.drop_zero, List.take_length] at a
      refine ⟨_, rfl, a.congr rfl rfl rfl, ?_, ?_, b.1, b.2.1, by rw [← b.2.2]⟩
      · simp only [c]; cases more <;> simp [Started]
      · intro hm; subst hm; simp only [c]; simp [Open]
    · simp only [h0, if_false]
      have : inp = [] := List.length_eq_zero_iff.mp (by omega)
      subst this
      refine ⟨_, rfl, ?_, ?_, fun _ => hs, rfl, rfl, rfl⟩
      · rw [List.append_nil]; exact r.congr rfl rfl rfl
      · rcases hs with e | e <;> simp [Started, e]
  · rw [if_neg hlev]
    have i0 : Inv p h inp ⟨s, 0, inp.length, 0, 0, noRefs⟩ := by
      refine ⟨by simp, Nat.le_refl _, hs, ?_, fun h => Or.inl rfl⟩
      simpa using r
    obtain ⟨l, e, i, k, hr⟩ := lloop_inv hb hn inp.length i0 (Nat.le_refl _)
    rw [e]
    simp only [Out.bind]
    unfold finalDump
    have hlen := i.len
    have hpl := i.plit
    by_cases h0 : 0 < l.plit + l.rem
    · simp only [h0, if_true]
      have e2 : l.pos - l.plit = inp.length - (l.plit + l.rem) := by omega
      have r' := i.rel
      rw [e2] at r'
      obtain ⟨a, b, c⟩ := dumpLit_rel (pos := l.pos + l.rem) (plit := l.plit + l.rem)
        (bit9 := l.bit9 + high (inp.drop l.pos)) more hb (by omega) (by omega) h0 (by omega) i.st
        i.rel
      have hj : inp.take (l.pos - l.plit) ++ (inp.drop (l.pos + l.rem - (l.plit + l.rem))).take
          (l.plit + l.rem) = inp := by
        have := take_drop_join inp (l.pos + l.rem) (l.plit + l.rem) (by omega)
        rw [show l.pos + l.rem - (l.plit + l.rem) = l.pos - l.plit by omega] at this ⊢
        rw [this, List.take_of_length_le (by omega)]
      rw [List.append_assoc, hj] at a
      have kk := k.trans b
      refine ⟨_, rfl, a.congr rfl rfl rfl, ?_, ?_, kk.1, kk.2.1, by rw [← kk.2.2]⟩
      · simp only [c]
        by_cases h52 : 52 ≤ l.bit9 + high (inp.drop l.pos) <;> cases more <;> simp [Started, h52]
      · intro hm; subst hm; simp only [c]
        by_cases h52 : 52 ≤ l.bit9 + high (inp.drop l.pos) <;> simp [Open, h52]
    · simp only [h0, if_false]
      have e2 : l.pos - l.plit = inp.length := by omega
      have r' := i.rel
      rw [e2, List.take_length] at r'
      refine ⟨_, rfl, r'.congr rfl rfl rfl, ?_, fun _ => i.st, k.1, k.2.1, by rw [← k.2.2]⟩
      rcases i.st with e | e <;> simp [Started, e]

theorem finish_rel {p : List Nat} {s : Strm} {h : List Nat} (hs : Started s.state)
    (r : Rel p s (modeOf s.state) h) :
    ∃ q pad bs, (finish1951 s).out = p ++ q ∧ bytesBits q = bs ++ pad ∧ pad.length < 8 ∧
      Emits ⟨.header, 0, []⟩ bs ⟨.finished, bs.length, h⟩ ∧
      (finish1951 s).crc = s.crc ∧ (finish1951 s).ilen = s.ilen ∧
      (finish1951 s).qbits = 0 ∧ (finish1951 s).queue = 0 := by
  have r1 : Rel p (finishOpen s) (modeOf (finishOpen s).state) h ∧ Same s (finishOpen s) ∧
      ((finishOpen s).state = .eob ∨ (finishOpen s).state = .done) := by
    unfold finishOpen
    rcases hs with e | e | e | e
    · simp [e]; rw [e] at r; exact ⟨r, Same.refl s⟩
    · rw [if_pos e]
      rw [e] at r
      have k := sendEob_keeps { s with state := St.eob }
      refine ⟨?_, k.1, Or.inl k.2⟩
      rw [k.2]
      exact sendEob_rel (l := false) (r.congr rfl rfl rfl)
    · rw [if_neg (by rw [e]; decide), if_pos e]
      rw [e] at r
      have k := sendEob_keeps { s with state := St.done }
      refine ⟨?_, k.1, Or.inr k.2⟩
      rw [k.2]
      exact sendEob_rel (l := true) (r.congr rfl rfl rfl)
    · simp [e]; rw [e] at r; exact ⟨r, Same.refl s⟩
  obtain ⟨a, b, c⟩ := r1
  have r2 : Rel p (finishLast (finishOpen s)) .finished h ∧
      Same (finishOpen s) (finishLast (finishOpen s)) := by
    unfold finishLast
    rcases c with c | c
    · rw [if_neg (by rw [c]; decide)]
      rw [c] at a
      have k1 := enqueue_keeps (finishOpen s) 3 3
      have k2 := sendEob_keeps (enqueue (finishOpen s) 3 3)
      refine ⟨?_, ?_⟩
      · have x := a.enq (x := 3) (n := 3) (by decide) (by decide) (fun u => emits_fixed true u h)
        exact (sendEob_rel (l := true) x).congr rfl rfl rfl
      · have := k1.1.trans k2.1
        exact ⟨this.1, this.2.1, this.2.2⟩
    · rw [if_pos c]; rw [c] at a; exact ⟨a, Same.refl _⟩
  obtain ⟨⟨w, ⟨q0, hp⟩, bs, hbs, he⟩, k2⟩ := r2
  obtain ⟨w', hf⟩ := flush_wf w
  have kk := b.trans k2
  refine ⟨q0 ++ flushed (finishLast (finishOpen s)),
    List.replicate ((8 - (sbits (finishLast (finishOpen s))).length % 8) % 8) false, bs, ?_, ?_, ?_,
    he, kk.2.1, kk.2.2, rfl, rfl⟩
  · show (finishLast (finishOpen s)).out ++ _ = _
    rw [← hp, List.append_assoc]
  · have e0 : sbits (flushBits (finishLast (finishOpen s))) =
        bytesBits ((finishLast (finishOpen s)).out ++ flushed (finishLast (finishOpen s))) ++
          bitsLE 0 0 := rfl
    rw [e0] at hf
    simp only [bitsLE, List.append_nil] at hf
    rw [hbs] at hf
    rw [← hp, List.append_assoc, bytesBits_append p, List.append_assoc (bytesBits p)] at hf
    have := List.append_cancel_left hf
    rw [this, hbs]
  · simp only [List.length_replicate]; omega

end Mtev.Slz
