import Verif.SlzLoop

/-! Helper lemmas for `SlzRoomProps`: how many bits each function of the compressor sends. -/
namespace Mtev.Slz
open Mtev.Inflate

/-- bits written or queued. -/
def nbits (s : Strm) : Nat := 8 * s.out.length + s.qbits

theorem nbits_enqueue (s : Strm) (x n : Nat) : nbits (enqueue s x n) = nbits s + n := by
  unfold enqueue nbits
  simp only
  split
  · simp only [List.length_append, le32, List.length_cons, List.length_nil]; omega
  · simp only; omega

theorem qbits_enqueue {s : Strm} (x : Nat) {n : Nat} (h : s.qbits < 32) (hn : n ≤ 32) :
    (enqueue s x n).qbits < 32 := by
  unfold enqueue
  simp only
  split <;> simp only <;> omega

theorem length_flushed (s : Strm) : 8 * (flushed s).length ≤ s.qbits + 7 := by
  unfold flushed
  simp only [List.length_append]
  by_cases h0 : 0 < s.qbits <;> by_cases h1 : 8 < s.qbits <;> by_cases h2 : 16 < s.qbits <;>
    by_cases h3 : 24 < s.qbits <;> simp [h0, h1, h2, h3] <;> omega

theorem nbits_flush (s : Strm) : nbits (flushBits s) ≤ nbits s + 7 := by
  have := length_flushed s
  unfold flushBits nbits
  simp only [List.length_append]
  omega

theorem state_enqueue (s : Strm) (x n : Nat) : (enqueue s x n).state = s.state :=
  (enqueue_keeps s x n).2

theorem fixedHuff_bits : ∀ c : Fin 256,
    fixedHuff.getD c 0 % 16 = 8 + (if 144 ≤ c.val then 1 else 0) := by decide +kernel

theorem sendAll_bits {s : Strm} {l : List Nat} (hl : ∀ x ∈ l, x < 256) :
    nbits (sendAll s l) = nbits s + 8 * l.length + high l ∧ (sendAll s l).state = s.state ∧
      (s.qbits < 32 → (sendAll s l).qbits < 32) := by
  induction l generalizing s with
  | nil => simp [sendAll, high]
  | cons x l ih =>
    have hx := hl x (by simp)
    obtain ⟨a, b, c⟩ := ih (s := sendHuff s x) (fun y hy => hl y (by simp [hy]))
    have e : sendAll s (x :: l) = sendAll (sendHuff s x) l := rfl
    have hf := fixedHuff_bits ⟨x, hx⟩
    simp only at hf
    have hh : high (x :: l) = high l + (if 144 ≤ x then 1 else 0) := by
      unfold high; rw [List.countP_cons]; simp
    rw [e, a, b]
    refine ⟨?_, state_enqueue _ _ _, fun hq => c (qbits_enqueue _ hq (by rw [hf]; split <;> omega))⟩
    unfold sendHuff
    rw [nbits_enqueue, hf, hh, List.length_cons]
    omega

/-- what a state may have cost beyond the data: block headers and ends. -/
def slack : St → Nat
  | .eob => 0
  | .fixed => 3
  | .last => 13
  | .done => 20
  | .init => 0
  | .ended => 0

/-- at most `X` bits for the data. -/
def Within (s : Strm) (X : Nat) : Prop := nbits s ≤ X + slack s.state ∧ s.qbits < 32

theorem huffHeader_within {s : Strm} {X : Nat} (more : Bool) (hs : Open s.state)
    (w : Within s X) : Within (huffHeader s more) X ∧
      (huffHeader s more).state = (if more then .fixed else .last) := by
  obtain ⟨w1, w2⟩ := w
  unfold huffHeader
  rcases hs with hs | hs
  · rw [if_pos hs]
    rw [hs] at w1
    refine ⟨⟨?_, qbits_enqueue _ w2 (by decide)⟩, state_enqueue _ _ _⟩
    rw [nbits_enqueue, state_enqueue]
    show nbits s + 3 ≤ X + slack (if more then .fixed else .last)
    cases more <;> simp [slack] at w1 ⊢ <;> omega
  · rw [if_neg (by rw [hs]; decide)]
    cases more with
    | true => simp only [if_true, Bool.true_eq_false, if_false]; exact ⟨⟨w1, w2⟩, hs⟩
    | false =>
      rw [hs] at w1
      simp only [if_true]
      refine ⟨⟨?_, qbits_enqueue _ ?_ (by decide)⟩, state_enqueue _ _ _⟩
      · rw [nbits_enqueue, state_enqueue]
        show nbits (sendEob s) + 3 ≤ X + slack .last
        unfold sendEob
        rw [nbits_enqueue]
        simp [slack] at w1 ⊢; omega
      · show (sendEob s).qbits < 32
        exact qbits_enqueue _ w2 (by decide)

theorem storeBlock_bits (s : Strm) (l : Bool) (data : List Nat) :
    nbits (storeBlock s l data) ≤ nbits s + 42 + 8 * data.length ∧
      (storeBlock s l data).qbits = 0 := by
  have h := nbits_flush (enqueue s (if l then 1 else 0) 3)
  rw [nbits_enqueue] at h
  refine ⟨?_, rfl⟩
  have e : nbits (storeBlock s l data) =
      nbits (flushBits (enqueue s (if l then 1 else 0) 3)) + 32 + 8 * data.length := by
    unfold storeBlock copy16 nbits
    simp only [List.length_append, List.length_cons, List.length_nil]
    omega
  omega

theorem copyLit_bits (fuel : Nat) {s : Strm} {buf : List Nat} {len : Nat} (more : Bool)
    (hbuf : len ≤ buf.length) (hf : len ≤ fuel) (h0 : 0 < len) (hs : Open s.state)
    (hq : s.qbits < 32) :
    nbits (copyLit fuel s buf len more) ≤
        nbits s + (if s.state = .eob then 0 else 7) + 8 * len + 42 + 42 * ((len - 1) / 65535) ∧
      (copyLit fuel s buf len more).qbits < 32 ∧
      (copyLit fuel s buf len more).state = (if more then .eob else .done) := by
  induction fuel generalizing s len with
  | zero => omega
  | succ fuel ih =>
    rw [copyLit_succ _ _ _ _ _ hbuf]
    simp only
    have hc : nbits (closeBlock s) = nbits s + (if s.state = .eob then 0 else 7) := by
      unfold closeBlock
      split
      · rfl
      · exact nbits_enqueue _ _ _
    have hst : ∀ st, nbits { (closeBlock s) with state := st } = nbits (closeBlock s) := fun _ => rfl
    have hl : (buf.take (min len 65535)).length = min len 65535 := by rw [List.length_take]; omega
    by_cases h6 : 65535 < len
    · simp only [h6, decide_true, Bool.or_true, Bool.not_true, if_true, Bool.false_eq_true, if_false]
      have k := storeBlock_bits { (closeBlock s) with state := St.eob } false
        (buf.take (min len 65535))
      have ks := (storeBlock_keeps { (closeBlock s) with state := St.eob } false
        (buf.take (min len 65535))).2
      simp only at ks
      generalize storeBlock { (closeBlock s) with state := St.eob } false
        (buf.take (min len 65535)) = s1 at k ks ⊢
      obtain ⟨a, b, c⟩ := ih (s := s1) (len := len - 65535) (by omega) (by omega) (by omega)
        (Or.inl ks) (by omega)
      refine ⟨?_, b, c⟩
      rw [ks, if_pos rfl] at a
      have hd : (len - 1) / 65535 = (len - 65535 - 1) / 65535 + 1 := by omega
      rw [hd]
      have k1 := k.1
      rw [hst, hc, hl] at k1
      omega
    · simp only [h6, decide_false, Bool.or_false, if_false]
      have k := storeBlock_bits
        { (closeBlock s) with state := if (!more) = true then St.done else St.eob } (!more)
        (buf.take (min len 65535))
      have ks := (storeBlock_keeps
        { (closeBlock s) with state := if (!more) = true then St.done else St.eob } (!more)
        (buf.take (min len 65535))).2
      simp only at ks
      refine ⟨?_, by rw [k.2]; decide, ?_⟩
      · refine Nat.le_trans k.1 ?_
        rw [hl]
        refine Nat.le_trans (Nat.add_le_add_right (Nat.add_le_add_right
          (Nat.le_of_eq ((hst _).trans hc)) _) _) ?_
        omega
      · rw [ks]; cases more <;> rfl

/-- dumping pending literals: never more than nine bits per byte, nor more than a bit for every
byte above 143 on top of eight per byte (and of the headers of further stored blocks). -/
theorem dumpLit_within {s : Strm} {inp : List Nat} {pos plit : Nat} {X : Nat} (more : Bool)
    (hb : ∀ x ∈ inp, x < 256) (hpos : pos ≤ inp.length) (hpl : plit ≤ pos) (h0 : 0 < plit)
    (hs : Open s.state) (w : Within s X) :
    let d := (inp.drop (pos - plit)).take plit
    let s' := dumpLit s inp pos plit (high d) more
    Within s' (X + 8 * plit + high d + (if 52 ≤ high d then 42 * (plit / 65535) else 0)) ∧
      (52 ≤ high d → nbits s' ≤ X + 8 * plit + 52 + 42 * ((plit - 1) / 65535)) ∧
      (more = true → Open s'.state) ∧ Started s'.state := by
  intro d s'
  have hdl : d.length = plit := by simp only [d, List.length_take, List.length_drop]; omega
  by_cases h52 : 52 ≤ high d
  · have e : s' = copyLit plit s (inp.drop (pos - plit)) plit more := by
      simp only [s', dumpLit, h52, if_true]
    obtain ⟨a, b, c⟩ := copyLit_bits plit (s := s) (buf := inp.drop (pos - plit)) (len := plit) more
      (by simp; omega) (Nat.le_refl _) h0 hs w.2
    have hle : (plit - 1) / 65535 ≤ plit / 65535 := Nat.div_le_div_right (by omega)
    have h1 := w.1
    rw [e]
    rw [if_pos h52]
    have key : nbits (copyLit plit s (inp.drop (pos - plit)) plit more) ≤
        X + 8 * plit + 52 + 42 * ((plit - 1) / 65535) := by
      rcases hs with hs | hs
      · rw [hs] at a h1
        simp only [if_true, slack] at a h1
        omega
      · rw [hs] at a h1
        simp only [slack] at a h1
        rw [if_neg (by decide)] at a
        omega
    refine ⟨⟨?_, b⟩, fun _ => key, ?_, ?_⟩
    · omega
    · intro hm; subst hm; rw [c]; exact Or.inl rfl
    · rw [c]; cases more <;> simp [Started]
  · have e : s' = sendAll (huffHeader s more) d := by
      simp only [s', dumpLit, h52, if_false]; rfl
    obtain ⟨⟨a, a2⟩, b⟩ := huffHeader_within more hs w
    have hd : ∀ x ∈ d, x < 256 := fun x hx => hb x (List.mem_of_mem_drop (List.mem_of_mem_take hx))
    obtain ⟨c1, c2, c3⟩ := sendAll_bits (s := huffHeader s more) hd
    rw [e]
    refine ⟨⟨?_, c3 a2⟩, fun h => absurd h h52, ?_, ?_⟩
    · rw [if_neg h52, c1, c2, hdl]; omega
    · intro hm; subst hm; rw [c2, b]; exact Or.inr rfl
    · rw [c2, b]; cases more <;> simp [Started]

theorem openFixed_within {s : Strm} {X : Nat} (hs : Open s.state) (w : Within s X) :
    Within (openFixed s) X ∧ (openFixed s).state = .fixed := by
  unfold openFixed
  obtain ⟨w1, w2⟩ := w
  rcases hs with hs | hs
  · rw [if_pos hs]
    rw [hs] at w1
    refine ⟨⟨?_, qbits_enqueue _ w2 (by decide)⟩, state_enqueue _ _ _⟩
    rw [nbits_enqueue, state_enqueue]
    show nbits s + 3 ≤ X + 3
    simp [slack] at w1; omega
  · rw [if_neg (by rw [hs]; decide)]
    exact ⟨⟨w1, w2⟩, hs⟩

theorem high_append (a b : List Nat) : high (a ++ b) = high a + high b := by
  unfold high; rw [List.countP_append]

theorem high_le (a : List Nat) : high a ≤ a.length := by
  unfold high; exact List.countP_le_length

/-- invariant of the main loop: the two allowances. -/
structure Room (A B : Nat) (inp : List Nat) (l : Loop) : Prop where
  len : l.pos + l.rem = inp.length
  plit : l.plit ≤ l.pos
  st : Open l.s.state
  bit9 : l.bit9 = high ((inp.drop (l.pos - l.plit)).take l.plit)
  nine : Within l.s (A + 9 * (l.pos - l.plit))
  eight : Within l.s (B + 8 * (l.pos - l.plit) + 2 * high (inp.take (l.pos - l.plit)) +
    42 * ((l.pos - l.plit) / 65535))

theorem asLit_room {A B : Nat} {inp : List Nat} {l : Loop} (hb : ∀ x ∈ inp, x < 256)
    (i : Room A B inp l) (hr : 1 ≤ l.rem) : Room A B inp (asLit l (wordAt inp l.pos)) := by
  have h1 := i.len
  have h2 := i.plit
  have e : (asLit l (wordAt inp l.pos)).pos - (asLit l (wordAt inp l.pos)).plit = l.pos - l.plit := by
    show l.pos + 1 - (l.plit + 1) = _; omega
  refine ⟨by show l.pos + 1 + (l.rem - 1) = _; omega, by show l.plit + 1 ≤ l.pos + 1; omega, i.st,
    ?_, by rw [e]; exact i.nine, by rw [e]; exact i.eight⟩
  rw [e]
  show l.bit9 + _ = high ((inp.drop (l.pos - l.plit)).take (l.plit + 1))
  have hlt : l.plit < (inp.drop (l.pos - l.plit)).length := by simp; omega
  rw [List.take_succ_eq_append_getElem hlt, high_append, ← i.bit9]
  congr 1
  rw [List.getElem_drop]
  have e2 : l.pos - l.plit + l.plit = l.pos := by omega
  simp only [e2]
  have hp : l.pos < inp.length := by omega
  have e3 : wordAt inp l.pos % 256 = inp[l.pos] := by
    have h1 : inp.getD l.pos 0 = inp[l.pos] := by simp [hp]
    have h2 : inp[l.pos] < 256 := hb _ (List.getElem_mem hp)
    unfold wordAt
    omega
  rw [e3]
  by_cases h9 : 144 ≤ inp[l.pos] <;> simp [high, h9]

theorem Within.mono {s : Strm} {X Y : Nat} (w : Within s X) (h : X ≤ Y) : Within s Y :=
  ⟨Nat.le_trans w.1 (by omega), w.2⟩

theorem high_take_add (inp : List Nat) (a b : Nat) :
    high (inp.take (a + b)) = high (inp.take a) + high ((inp.drop a).take b) := by
  rw [List.take_add, high_append]

/-- the allowances after a reference. -/
theorem sendRef_room {A B : Nat} {inp : List Nat} {l : Loop} {mlen code dist : Nat}
    (hb : ∀ x ∈ inp, x < 256) (i : Room A B inp l) (hm : 4 ≤ mlen) (hm3 : mlen ≤ l.rem)
    (h6 : ¬ (52 ≤ l.bit9 ∧ mlen < 6)) (hcode : code / 65536 ≤ 13) (hdist : dist % 32 ≤ 18)
    (hgood : dist % 32 + code / 65536 + 8 < 8 * mlen + l.bit9) :
    Room A B inp (sendRef inp l mlen code dist) := by
  have hlen := i.len
  have hpl := i.plit
  have hhi : high (inp.take l.pos) = high (inp.take (l.pos - l.plit)) + l.bit9 := by
    have := high_take_add inp (l.pos - l.plit) l.plit
    rw [show l.pos - l.plit + l.plit = l.pos by omega] at this
    rw [this, i.bit9]
  have hb9 : l.bit9 ≤ l.plit := by
    rw [i.bit9]; refine Nat.le_trans (high_le _) ?_; rw [List.length_take]; omega
  -- after the pending literals
  have key : ∃ s1 X Y, (if 0 < l.plit then dumpLit l.s inp l.pos l.plit l.bit9 true else l.s) = s1 ∧
      Open s1.state ∧ Within s1 X ∧ Within s1 Y ∧ X + dist % 32 + code / 65536 ≤ A + 9 * (l.pos + mlen) ∧
      Y + dist % 32 + code / 65536 ≤ B + 8 * (l.pos + mlen) + 2 * high (inp.take l.pos) +
        42 * ((l.pos + mlen) / 65535) := by
    by_cases h0 : 0 < l.plit
    · have n := dumpLit_within true hb (by omega) hpl h0 i.st i.nine
      have e := dumpLit_within true hb (by omega) hpl h0 i.st i.eight
      simp only at n e
      rw [← i.bit9] at n e
      rw [if_pos h0]
      have hdiv : (l.pos - l.plit) / 65535 + l.plit / 65535 ≤ (l.pos + mlen) / 65535 := by omega
      by_cases h52 : 52 ≤ l.bit9
      · refine ⟨_, A + 9 * l.pos, _, rfl, n.2.2.1 trivial, ⟨?_, n.1.2⟩, e.1, by omega, ?_⟩
        · have := n.2.1 h52
          have hx : 42 * ((l.plit - 1) / 65535) + 52 ≤ l.plit := by omega
          omega
        · rw [if_pos h52]; omega
      · refine ⟨_, _, _, rfl, n.2.2.1 trivial, n.1, e.1, ?_, ?_⟩
        · rw [if_neg h52]; omega
        · rw [if_neg h52]; omega
    · have : l.plit = 0 := by omega
      refine ⟨l.s, _, _, by rw [if_neg h0], i.st, i.nine, i.eight, ?_, ?_⟩
      · omega
      · rw [this, Nat.sub_zero] at hhi ⊢
        have : l.pos / 65535 ≤ (l.pos + mlen) / 65535 := Nat.div_le_div_right (by omega)
        omega
  obtain ⟨s1, X, Y, e1, o1, wX, wY, hX, hY⟩ := key
  obtain ⟨⟨a1, a2⟩, b1⟩ := openFixed_within o1 wX
  obtain ⟨⟨c1, _⟩, _⟩ := openFixed_within o1 wY
  have eS : (sendRef inp l mlen code dist).s =
      enqueue (enqueue (openFixed s1) (code % 65536) (code / 65536)) (dist / 32) (dist % 32) := by
    unfold sendRef; rw [e1]
  have hst : (sendRef inp l mlen code dist).s.state = .fixed := by
    rw [eS, state_enqueue, state_enqueue, b1]
  have hnb : nbits (sendRef inp l mlen code dist).s = nbits (openFixed s1) + code / 65536 + dist % 32 := by
    rw [eS, nbits_enqueue, nbits_enqueue]
  have hqb : (sendRef inp l mlen code dist).s.qbits < 32 := by
    rw [eS]; exact qbits_enqueue _ (qbits_enqueue _ a2 (by omega)) (by omega)
  have ep : (sendRef inp l mlen code dist).pos - (sendRef inp l mlen code dist).plit = l.pos + mlen := by
    show l.pos + mlen - 0 = _; omega
  have hmono : high (inp.take l.pos) ≤ high (inp.take (l.pos + mlen)) := by
    rw [high_take_add]; omega
  refine ⟨by show l.pos + mlen + (l.rem - mlen) = _; omega, by show 0 ≤ _; omega, Or.inr hst, ?_, ?_, ?_⟩
  · show 0 = high (List.take 0 _)
    simp [high]
  · rw [ep]
    refine ⟨?_, hqb⟩
    rw [hnb, hst]
    rw [b1] at a1
    omega
  · rw [ep]
    refine ⟨?_, hqb⟩
    rw [hnb, hst]
    rw [b1] at c1
    omega

theorem matchTail_le (inp : List Nat) (a b max fuel len m : Nat) (hl : len ≤ max)
    (h : matchTail inp a b max fuel len = .ok m) : m ≤ max := by
  induction fuel generalizing len with
  | zero => simp [matchTail] at h; omega
  | succ fuel ih =>
    rw [matchTail] at h
    split at h
    · cases hx : rd inp (a + len) with
      | ok x =>
        cases hy : rd inp (b + len) with
        | ok y =>
          rw [hx] at h; simp only [Out.bind] at h; rw [hy] at h; simp only [Out.bind] at h
          split at h
          · exact ih _ (by omega) h
          · cases h; omega
        | ub => rw [hx] at h; simp only [Out.bind] at h; rw [hy] at h; cases h
        | abort => rw [hx] at h; simp only [Out.bind] at h; rw [hy] at h; cases h
      | ub => rw [hx] at h; cases h
      | abort => rw [hx] at h; cases h
    · cases h; omega

theorem firstDiff_lt {inp : List Nat} {a b n k : Nat} (h : firstDiff inp a b n = some k) : k < n := by
  induction n with
  | zero => cases h
  | succ n ih =>
    rw [firstDiff] at h
    cases hf : firstDiff inp a b n with
    | some j => rw [hf] at h; cases h; exact Nat.lt_succ_of_lt (ih hf)
    | none =>
      rw [hf] at h
      simp only at h
      split at h
      · cases h
      · cases h; omega

theorem cmp8_lt {inp : List Nat} {a b k : Nat} (h : cmp8 inp a b = .ok (some k)) : k < 8 := by
  unfold cmp8 at h
  split at h
  · injection h with h; exact firstDiff_lt h
  · cases h

theorem memmatch_le (inp : List Nat) (a b max fuel len m : Nat) (hl : len ≤ max)
    (h : memmatch inp a b max fuel len = .ok m) : m ≤ max := by
  induction fuel generalizing len with
  | zero => simp [memmatch] at h; omega
  | succ fuel ih =>
    rw [memmatch] at h
    split at h
    · exact matchTail_le _ _ _ _ _ _ _ hl h
    · cases hx : cmp8 inp (a + len) (b + len) with
      | ok x =>
        rw [hx] at h
        simp only [Out.bind] at h
        cases x with
        | some k => have := cmp8_lt hx; cases h; omega
        | none =>
          simp only at h
          cases hy : cmp8 inp (a + (len + 8)) (b + (len + 8)) with
          | ok y =>
            rw [hy] at h
            simp only [Out.bind] at h
            cases y with
            | some k => have := cmp8_lt hy; cases h; omega
            | none => exact ih _ (by omega) h
          | ub => rw [hy] at h; cases h
          | abort => rw [hy] at h; cases h
      | ub => rw [hx] at h; cases h
      | abort => rw [hx] at h; cases h

theorem lenFh_all : ∀ x ∈ lenFh, x / 65536 ≤ 13 := by decide +kernel

theorem lenFh_bits (m : Nat) : lenFh.getD m 0 / 65536 ≤ 13 := by
  by_cases h : m < lenFh.length
  · have : lenFh.getD m 0 = lenFh[m] := by simp only [List.getD_eq_getElem?_getD]; simp [h]
    rw [this]
    exact lenFh_all _ (List.getElem_mem h)
  · have : lenFh.getD m 0 = 0 := by
      simp only [List.getD_eq_getElem?_getD]
      rw [List.getElem?_eq_none (by omega)]; rfl
    rw [this]; decide

theorem remember_room {A B : Nat} {inp : List Nat} {l : Loop} (w : Nat) (i : Room A B inp l) :
    Room A B inp (remember l w) := ⟨i.len, i.plit, i.st, i.bit9, i.nine, i.eight⟩

theorem lstep_room {A B : Nat} {inp : List Nat} {l l' : Loop} (hb : ∀ x ∈ inp, x < 256)
    (i : Room A B inp l) (hr : 4 ≤ l.rem) (h : lstep inp l = .ok l') : Room A B inp l' := by
  unfold lstep at h
  have hrd : rd32 inp l.pos = .ok (wordAt inp l.pos) := by
    have := i.len
    unfold rd32; rw [if_pos (by omega)]
  rw [hrd] at h
  simp only [Out.bind] at h
  have i1 := remember_room (wordAt inp l.pos) i
  have hp : (remember l (wordAt inp l.pos)).pos = l.pos := rfl
  have hrem : (remember l (wordAt inp l.pos)).rem = l.rem := rfl
  have hlit := asLit_room hb i1 (by rw [hrem]; omega)
  rw [hp] at hlit
  generalize l.refs (slzHash (wordAt inp l.pos)) % 2 ^ 32 = last at h
  generalize l.refs (slzHash (wordAt inp l.pos)) / 2 ^ 32 = ent at h
  generalize remember l (wordAt inp l.pos) = l1 at *
  split at h
  · cases h; exact hlit
  · split at h
    · cases h; exact hlit
    · rename_i hgap
      generalize hmx : (if 258 < l1.rem then 258 else l1.rem) - 4 = mx at h
      cases hm : memmatch inp (l1.pos + 4) (last + 4) mx mx 0 with
      | ub => rw [hm] at h; cases h
      | abort => rw [hm] at h; cases h
      | ok m =>
        rw [hm] at h
        simp only at h
        have hle := memmatch_le _ _ _ _ _ _ _ (Nat.zero_le _) hm
        have hd := distTable_ok (gap l1.pos last + 1) (by omega) (by omega)
        rw [Nat.add_sub_cancel] at hd
        have hc := lenFh_bits (m + 4)
        generalize lenFh.getD (m + 4) 0 = code at *
        generalize distTable (gap l1.pos last) = dist at *
        split at h
        · cases h; exact hlit
        · rename_i h6
          split at h
          · cases h; exact hlit
          · rename_i hg
            injection h with h
            rw [← h]
            exact sendRef_room hb i1 (by omega) (by split at hmx <;> omega) h6 hc hd.2.2.1 (by omega)

theorem lloop_room {A B : Nat} {inp : List Nat} (hb : ∀ x ∈ inp, x < 256) (fuel : Nat)
    {l l' : Loop} (i : Room A B inp l) (h : lloop inp fuel l = .ok l') : Room A B inp l' := by
  induction fuel generalizing l with
  | zero => cases h; exact i
  | succ fuel ih =>
    rw [lloop] at h
    split at h
    · rename_i h4
      cases hs : lstep inp l with
      | ok l1 => rw [hs] at h; exact ih (lstep_room hb i h4 hs) h
      | ub => rw [hs] at h; cases h
      | abort => rw [hs] at h; cases h
    · cases h; exact i

/-- one call of the compressor, at any length. -/
theorem encode_room {A B : Nat} {s s' : Strm} {inp : List Nat} (more : Bool)
    (hb : ∀ x ∈ inp, x < 256) (hlv : s.level = true) (hs : Open s.state) (wA : Within s A)
    (wB : Within s B) (h : encode s inp more = .ok s') :
    Within s' (A + 9 * inp.length) ∧
      Within s' (B + 8 * inp.length + 2 * high inp + 42 * (inp.length / 65535)) ∧
      (more = true → Open s'.state) ∧ Started s'.state := by
  unfold encode at h
  rw [if_neg (by rw [hlv]; decide)] at h
  have i0 : Room A B inp ⟨s, 0, inp.length, 0, 0, noRefs⟩ := by
    refine ⟨by simp, Nat.le_refl _, hs, by simp [high], by simpa using wA, ?_⟩
    simpa [high] using wB
  cases hl : lloop inp inp.length ⟨s, 0, inp.length, 0, 0, noRefs⟩ with
  | ub => rw [hl] at h; cases h
  | abort => rw [hl] at h; cases h
  | ok l =>
    rw [hl] at h
    have i := lloop_room hb _ i0 hl
    injection h with h
    rw [← h]
    unfold finalDump
    have hlen := i.len
    have hpl := i.plit
    by_cases h0 : 0 < l.plit + l.rem
    · simp only [h0, if_true]
      have hd : l.bit9 + high (inp.drop l.pos) =
          high ((inp.drop (l.pos + l.rem - (l.plit + l.rem))).take (l.plit + l.rem)) := by
        rw [show l.pos + l.rem - (l.plit + l.rem) = l.pos - l.plit by omega, List.take_add, high_append,
          ← i.bit9, List.drop_drop, show l.pos - l.plit + l.plit = l.pos by omega,
          List.take_of_length_le (by simp; omega)]
      have n := dumpLit_within (pos := l.pos + l.rem) (plit := l.plit + l.rem) more hb (by omega)
        (by omega) h0 i.st i.nine
      have e := dumpLit_within (pos := l.pos + l.rem) (plit := l.plit + l.rem) more hb (by omega)
        (by omega) h0 i.st i.eight
      simp only at n e
      have hb9 : high ((inp.drop (l.pos + l.rem - (l.plit + l.rem))).take (l.plit + l.rem)) ≤
          l.plit + l.rem := by
        refine Nat.le_trans (high_le _) ?_
        rw [List.length_take]; omega
      have hhi : high inp = high (inp.take (l.pos - l.plit)) +
          high ((inp.drop (l.pos + l.rem - (l.plit + l.rem))).take (l.plit + l.rem)) := by
        rw [← high_append, show l.pos + l.rem - (l.plit + l.rem) = l.pos - l.plit by omega,
          ← List.take_add, List.take_of_length_le (by omega)]
      rw [hd]
      generalize high ((inp.drop (l.pos + l.rem - (l.plit + l.rem))).take (l.plit + l.rem)) = b9 at *
      generalize dumpLit l.s inp (l.pos + l.rem) (l.plit + l.rem) b9 more = s1 at *
      obtain ⟨⟨n1, n2⟩, n3, n4⟩ := n
      obtain ⟨⟨e1, e2⟩, -, -⟩ := e
      have hdiv : (l.pos - l.plit) / 65535 + (l.plit + l.rem) / 65535 ≤ inp.length / 65535 := by omega
      refine ⟨⟨?_, n2⟩, ⟨?_, n2⟩, n4⟩
      · show nbits s1 ≤ _ + slack s1.state
        by_cases h52 : 52 ≤ b9
        · have := n3 h52
          have hx : 42 * ((l.plit + l.rem - 1) / 65535) + 52 ≤ l.plit + l.rem := by omega
          omega
        · rw [if_neg h52] at n1; omega
      · show nbits s1 ≤ _ + slack s1.state
        split at e1 <;> omega
    · simp only [h0, if_false]
      have hz : l.pos - l.plit = inp.length := by omega
      have n := i.nine
      have e := i.eight
      rw [hz] at n e
      rw [List.take_length] at e
      refine ⟨n, e, fun _ => i.st, ?_⟩
      rcases i.st with h | h
      · exact Or.inl h
      · exact Or.inr (Or.inl h)

/-- the end of the stream. -/
theorem finish_room {s : Strm} {X : Nat} (hs : Started s.state) (w : Within s X) :
    8 * (finish1951 s).out.length ≤ X + 27 ∧ (finish1951 s).qbits = 0 := by
  obtain ⟨w1, w2⟩ := w
  refine ⟨?_, rfl⟩
  have h := nbits_flush (finishLast (finishOpen s))
  have e : nbits (flushBits (finishLast (finishOpen s))) = 8 * (finish1951 s).out.length := rfl
  rw [e] at h
  suffices nbits (finishLast (finishOpen s)) ≤ X + 20 by omega
  have hl : ∀ t : Strm, nbits { (sendEob (enqueue t 3 3)) with state := St.done } = nbits t + 10 := by
    intro t
    show nbits (enqueue (enqueue t 3 3) 0 7) = _
    rw [nbits_enqueue, nbits_enqueue]
  rcases hs with hs | hs | hs | hs <;> rw [hs] at w1 <;> simp only [slack] at w1
  · have : finishOpen s = s := by unfold finishOpen; simp [hs]
    rw [this]
    unfold finishLast
    rw [if_neg (by rw [hs]; decide), hl]; omega
  · have : finishOpen s = sendEob { s with state := .eob } := by unfold finishOpen; simp [hs]
    have hst : (sendEob { s with state := St.eob }).state = .eob := (sendEob_keeps _).2
    rw [this]
    unfold finishLast
    rw [if_neg (by rw [hst]; decide), hl]
    have : nbits (sendEob { s with state := St.eob }) = nbits s + 7 := nbits_enqueue _ _ _
    omega
  · have : finishOpen s = sendEob { s with state := .done } := by unfold finishOpen; simp [hs]
    have hst : (sendEob { s with state := St.done }).state = .done := (sendEob_keeps _).2
    rw [this]
    unfold finishLast
    rw [if_pos hst]
    have : nbits (sendEob { s with state := St.done }) = nbits s + 7 := nbits_enqueue _ _ _
    omega
  · have : finishOpen s = s := by unfold finishOpen; simp [hs]
    rw [this]
    unfold finishLast
    rw [if_pos hs]; omega

end Mtev.Slz
