import Verif.Slz

/-! Helper lemmas about bits, used by the theorems on the compressor (`SlzProps`). -/
namespace Mtev.Slz
open Mtev.Inflate

theorem length_bitsLE (n v : Nat) : (bitsLE n v).length = n := by
  induction n generalizing v with
  | zero => rfl
  | succ n ih => simp [bitsLE, ih]

theorem bitsLE_add (m n v : Nat) : bitsLE (m + n) v = bitsLE m v ++ bitsLE n (v / 2 ^ m) := by
  induction m generalizing v with
  | zero => simp [bitsLE]
  | succ m ih =>
    have : m + 1 + n = (m + n) + 1 := by omega
    rw [this, bitsLE, bitsLE, ih, Nat.div_div_eq_div_mul]
    simp [Nat.pow_succ, Nat.mul_comm]

theorem bitsLE_mod (n v : Nat) : bitsLE n (v % 2 ^ n) = bitsLE n v := by
  induction n generalizing v with
  | zero => rfl
  | succ n ih =>
    have h1 : v % 2 ^ (n + 1) % 2 = v % 2 := by
      rw [Nat.mod_mod_of_dvd]; exact Dvd.intro_left (2 ^ n) rfl
    have h2 : v % 2 ^ (n + 1) / 2 = v / 2 % 2 ^ n := by
      rw [Nat.pow_succ, Nat.mul_comm, Nat.mod_mul_right_div_self]
    rw [bitsLE, bitsLE, h1, h2, ih]

theorem bitsLE_append {m v : Nat} (n w : Nat) (h : v < 2 ^ m) :
    bitsLE (m + n) (v + w * 2 ^ m) = bitsLE m v ++ bitsLE n w := by
  rw [bitsLE_add]
  have h1 : bitsLE m (v + w * 2 ^ m) = bitsLE m v := by
    rw [← bitsLE_mod m (v + w * 2 ^ m), Nat.add_mul_mod_self_right, Nat.mod_eq_of_lt h]
  have h2 : (v + w * 2 ^ m) / 2 ^ m = w := by
    rw [Nat.add_mul_div_right _ _ (Nat.two_pow_pos m), Nat.div_eq_of_lt h]; omega
  rw [h1, h2]

theorem bytesBits_append (a b : List Nat) : bytesBits (a ++ b) = bytesBits a ++ bytesBits b := by
  simp [bytesBits]

theorem length_bytesBits (a : List Nat) : (bytesBits a).length = 8 * a.length := by
  induction a with
  | nil => rfl
  | cons x a ih =>
    have : bytesBits (x :: a) = bitsLE 8 x ++ bytesBits a := rfl
    rw [this]; simp [ih, length_bitsLE]; omega

theorem bytesBits_le32 (v : Nat) : bytesBits (le32 v) = bitsLE 32 v := by
  have e : bytesBits (le32 v) = bitsLE 8 (v % 256) ++ (bitsLE 8 (v / 256 % 256) ++
      (bitsLE 8 (v / 65536 % 256) ++ (bitsLE 8 (v / 16777216 % 256)))) := by
    simp [bytesBits, le32]
  have m : ∀ x, bitsLE 8 (x % 256) = bitsLE 8 x := fun x => bitsLE_mod 8 x
  rw [e, m, m, m, m]
  rw [show (32 : Nat) = 8 + (8 + (8 + 8)) from rfl, bitsLE_add, bitsLE_add, bitsLE_add]
  simp [Nat.div_div_eq_div_mul]

/-- the bits sent so far: the bytes written, then the queue. -/
def sbits (s : Strm) : List Bool := bytesBits s.out ++ bitsLE s.qbits s.queue

/-- the queue holds fewer than 32 bits and nothing above them. -/
def Wf (s : Strm) : Prop := s.qbits < 32 ∧ s.queue < 2 ^ s.qbits

theorem enqueue_wf {s : Strm} {x n : Nat} (w : Wf s) (hx : x < 2 ^ n) (hn : n ≤ 32) :
    Wf (enqueue s x n) ∧ sbits (enqueue s x n) = sbits s ++ bitsLE n x := by
  obtain ⟨wq, wv⟩ := w
  have hlt : s.queue + x * 2 ^ s.qbits < 2 ^ (s.qbits + n) := by
    rw [Nat.pow_add]
    calc s.queue + x * 2 ^ s.qbits < 2 ^ s.qbits + x * 2 ^ s.qbits := by omega
      _ = (x + 1) * 2 ^ s.qbits := by rw [Nat.add_mul]; omega
      _ ≤ 2 ^ n * 2 ^ s.qbits := Nat.mul_le_mul_right _ hx
      _ = 2 ^ s.qbits * 2 ^ n := Nat.mul_comm _ _
  have hle : 2 ^ (s.qbits + n) ≤ 2 ^ 64 := Nat.pow_le_pow_right (by omega) (by omega)
  have hmod : (s.queue + x * 2 ^ s.qbits) % 2 ^ 64 = s.queue + x * 2 ^ s.qbits :=
    Nat.mod_eq_of_lt (by omega)
  unfold enqueue
  simp only [hmod]
  split
  · rename_i h32
    refine ⟨⟨by show s.qbits + n - 32 < 32; omega, ?_⟩, ?_⟩
    · show (s.queue + x * 2 ^ s.qbits) / 2 ^ 32 < 2 ^ (s.qbits + n - 32)
      rw [Nat.div_lt_iff_lt_mul (by decide), ← Nat.pow_add]
      rwa [show s.qbits + n - 32 + 32 = s.qbits + n by omega]
    · show bytesBits (s.out ++ le32 _) ++ bitsLE _ _ = _
      rw [bytesBits_append, bytesBits_le32, bitsLE_mod 32, List.append_assoc, ← bitsLE_add 32]
      rw [show 32 + (s.qbits + n - 32) = s.qbits + n by omega, bitsLE_append _ _ wv]
      simp [sbits]
  · refine ⟨⟨by show s.qbits + n < 32; omega, hlt⟩, ?_⟩
    show bytesBits s.out ++ bitsLE (s.qbits + n) _ = _
    rw [bitsLE_append _ _ wv]
    simp [sbits]

theorem bitsLE_zero (n : Nat) : bitsLE n 0 = List.replicate n false := by
  induction n with
  | zero => rfl
  | succ n ih => simp [bitsLE, ih, List.replicate_succ]

/-- `flush_bits` pads with zero bits to the next byte boundary. -/
theorem flush_wf {s : Strm} (w : Wf s) :
    Wf (flushBits s) ∧ sbits (flushBits s) =
      sbits s ++ List.replicate ((8 - (sbits s).length % 8) % 8) false := by
  obtain ⟨wq, wv⟩ := w
  refine ⟨⟨by show 0 < 32; decide, by show 0 < 2 ^ 0; decide⟩, ?_⟩
  have len : (sbits s).length = 8 * s.out.length + s.qbits := by
    simp [sbits, length_bytesBits, length_bitsLE]
  have hm : (sbits s).length % 8 = s.qbits % 8 := by omega
  show bytesBits (s.out ++ flushed s) ++ bitsLE 0 0 = _
  rw [hm, bytesBits_append]
  simp only [bitsLE, List.append_nil]
  unfold sbits
  rw [List.append_assoc]
  congr 1
  have m : ∀ x, bitsLE 8 (x % 256) = bitsLE 8 x := fun x => bitsLE_mod 8 x
  have pad : ∀ a b, s.qbits + b = a → bitsLE a s.queue =
      bitsLE s.qbits s.queue ++ List.replicate b false := by
    intro a b e
    rw [← e, bitsLE_add, Nat.div_eq_of_lt wv, bitsLE_zero]
  have e1 : bytesBits [s.queue % 256] = bitsLE 8 s.queue := by
    simp [bytesBits, m]
  have e2 : bytesBits [s.queue % 256, s.queue / 256 % 256] = bitsLE 16 s.queue := by
    simp only [bytesBits, List.flatMap_cons, List.flatMap_nil, m, List.append_nil]
    rw [show (16 : Nat) = 8 + 8 from rfl, bitsLE_add]; rfl
  have e3 : bytesBits [s.queue % 256, s.queue / 256 % 256, s.queue / 65536 % 256] =
      bitsLE 24 s.queue := by
    simp only [bytesBits, List.flatMap_cons, List.flatMap_nil, m, List.append_nil]
    rw [show (24 : Nat) = 8 + (8 + 8) from rfl, bitsLE_add, bitsLE_add]
    simp [Nat.div_div_eq_div_mul]
  have e4 : bytesBits [s.queue % 256, s.queue / 256 % 256, s.queue / 65536 % 256,
      s.queue / 16777216 % 256] = bitsLE 32 s.queue := bytesBits_le32 s.queue
  unfold flushed
  by_cases h0 : 0 < s.qbits
  · by_cases h8 : 8 < s.qbits
    · by_cases h16 : 16 < s.qbits
      · by_cases h24 : 24 < s.qbits
        · simp only [h0, h8, h16, h24, if_true, List.cons_append, List.nil_append]
          rw [e4]; apply pad; omega
        · simp only [h0, h8, h16, h24, if_true, if_false, List.cons_append, List.nil_append,
            List.append_nil]
          rw [e3]; apply pad; omega
      · have h24 : ¬ 24 < s.qbits := by omega
        simp only [h0, h8, h16, h24, if_true, if_false, List.cons_append, List.nil_append,
            List.append_nil]
        rw [e2]; apply pad; omega
    · have h16 : ¬ 16 < s.qbits := by omega
      have h24 : ¬ 24 < s.qbits := by omega
      simp only [h0, h8, h16, h24, if_true, if_false, List.append_nil]
      rw [e1]; apply pad; omega
  · have h8 : ¬ 8 < s.qbits := by omega
    have h16 : ¬ 16 < s.qbits := by omega
    have h24 : ¬ 24 < s.qbits := by omega
    have z : s.qbits = 0 := by omega
    simp only [h8, h16, h24, z, if_false, List.append_nil]
    simp [bytesBits, bitsLE]

/-! ### Reading back -/

theorem takeLE_bits (n v : Nat) (t : List Bool) :
    takeLE n (bitsLE n v ++ t) = some (v % 2 ^ n, t) := by
  induction n generalizing v with
  | zero => simp [takeLE, bitsLE, Nat.mod_one]
  | succ n ih =>
    rw [bitsLE, List.cons_append, takeLE, ih]
    simp only [Option.some.injEq, Prod.mk.injEq, and_true]
    have h2 : v % 2 ^ (n + 1) = v % 2 + 2 * (v / 2 % 2 ^ n) := by
      rw [Nat.pow_succ, Nat.mul_comm, Nat.mod_mul]
    rw [h2]
    rcases Nat.mod_two_eq_zero_or_one v with h | h <;> simp [h] <;> omega

theorem takeLE_append {n : Nat} {b : List Bool} {v : Nat} {r : List Bool} (t : List Bool)
    (h : takeLE n b = some (v, r)) : takeLE n (b ++ t) = some (v, r ++ t) := by
  induction n generalizing b v r with
  | zero => simp [takeLE] at h ⊢; exact ⟨h.1, by rw [h.2]⟩
  | succ n ih =>
    cases b with
    | nil => simp [takeLE] at h
    | cons x b =>
      rw [takeLE] at h
      rw [List.cons_append, takeLE]
      cases e : takeLE n b with
      | none => simp [e] at h
      | some p =>
        obtain ⟨v', r'⟩ := p
        simp only [e, Option.some.injEq, Prod.mk.injEq] at h
        rw [ih e]
        simp [h.1, h.2]

theorem takeMSB_append {n acc : Nat} {b : List Bool} {v : Nat} {r : List Bool} (t : List Bool)
    (h : takeMSB n acc b = some (v, r)) : takeMSB n acc (b ++ t) = some (v, r ++ t) := by
  induction n generalizing b acc with
  | zero => simp [takeMSB] at h ⊢; exact ⟨h.1, by rw [h.2]⟩
  | succ n ih =>
    cases b with
    | nil => simp [takeMSB] at h
    | cons x b => rw [takeMSB] at h; rw [List.cons_append, takeMSB]; exact ih h

theorem symbol_append {b : List Bool} {v : Nat} {r : List Bool} (t : List Bool)
    (h : symbol b = some (v, r)) : symbol (b ++ t) = some (v, r ++ t) := by
  unfold symbol at h ⊢
  cases e7 : takeMSB 7 0 b with
  | none => simp [e7] at h
  | some p7 =>
    obtain ⟨c7, r7⟩ := p7
    rw [takeMSB_append t e7]
    simp only [e7] at h ⊢
    split
    · rename_i h23
      simp only [h23, if_true, Option.some.injEq, Prod.mk.injEq] at h
      simp [← h.1, ← h.2]
    · rename_i h23
      simp only [h23, if_false] at h
      cases e8 : takeMSB 1 c7 r7 with
      | none => simp [e8] at h
      | some p8 =>
        obtain ⟨c8, r8⟩ := p8
        rw [takeMSB_append t e8]
        simp only [e8] at h ⊢
        split
        · rename_i h191
          simp only [h191, if_true, Option.some.injEq, Prod.mk.injEq] at h
          simp [← h.1, ← h.2]
        · rename_i h191
          simp only [h191, if_false] at h
          split
          · rename_i h199
            simp only [h199, if_true, Option.some.injEq, Prod.mk.injEq] at h
            simp [← h.1, ← h.2]
          · rename_i h199
            simp only [h199, if_false] at h
            cases e9 : takeMSB 1 c8 r8 with
            | none => simp [e9] at h
            | some p9 =>
              obtain ⟨c9, r9⟩ := p9
              rw [takeMSB_append t e9]
              simp only [e9, Option.some.injEq, Prod.mk.injEq] at h ⊢
              simp [← h.1, ← h.2]

theorem withExtra_append {tab : List (Nat × Nat)} {c : Nat} {b : List Bool} {v : Nat}
    {r : List Bool} (t : List Bool) (h : withExtra tab c b = some (v, r)) :
    withExtra tab c (b ++ t) = some (v, r ++ t) := by
  unfold withExtra at h ⊢
  cases e : tab[c]? with
  | none => simp [e] at h
  | some p =>
    obtain ⟨x, base⟩ := p
    simp only [e] at h ⊢
    cases e2 : takeLE x b with
    | none => simp [e2] at h
    | some p2 =>
      obtain ⟨y, r2⟩ := p2
      rw [takeLE_append t e2]
      simp only [e2, Option.some.injEq, Prod.mk.injEq] at h ⊢
      simp [← h.1, ← h.2]

theorem takeBytes_bits (l : List Nat) (hl : ∀ x ∈ l, x < 256) (t : List Bool) :
    takeBytes l.length (bytesBits l ++ t) = some (l, t) := by
  induction l with
  | nil => rfl
  | cons x l ih =>
    have e : bytesBits (x :: l) = bitsLE 8 x ++ bytesBits l := rfl
    rw [e, List.append_assoc, List.length_cons, takeBytes, takeLE_bits]
    have hx : x % 2 ^ 8 = x := Nat.mod_eq_of_lt (hl x (by simp))
    simp only [hx]
    rw [ih (fun y hy => hl y (by simp [hy]))]

/-! ### The tables -/

theorem fixedHuff_ok : ∀ c : Fin 256,
    symbol (bitsLE (fixedHuff.getD c 0 % 16) (fixedHuff.getD c 0 / 16)) = some (c.val, []) ∧
    fixedHuff.getD c 0 / 16 < 2 ^ (fixedHuff.getD c 0 % 16) ∧
    fixedHuff.getD c 0 % 16 = (if 144 ≤ c.val then 9 else 8) := by decide +kernel

/-- what `len_fh` holds: the code of a length symbol and its extra bits. -/
def lenGood (m : Nat) : Bool :=
  match symbol (bitsLE (lenFh.getD m 0 / 65536) (lenFh.getD m 0 % 65536)) with
  | none => false
  | some (sym, r) => decide (256 < sym) && (withExtra lengths (sym - 257) r == some (m, []))

theorem lenFh_ok : ∀ m : Fin 259, 3 ≤ m.val →
    lenGood m.val = true ∧ lenFh.getD m 0 % 65536 < 2 ^ (lenFh.getD m 0 / 65536) ∧
    lenFh.getD m 0 / 65536 ≤ 13 ∧ 7 ≤ lenFh.getD m 0 / 65536 := by decide +kernel

theorem fallThrough_spec (d : Nat) (t : List (Nat × Nat)) :
    (fallThrough d t = 0 ∧ ∀ p ∈ t, ¬ (p.1 ≤ d ∧ d ≤ p.2)) ∨
    (0 < fallThrough d t ∧ fallThrough d t ≤ t.length ∧
      ∃ p, t[t.length - fallThrough d t]? = some p ∧ p.1 ≤ d ∧ d ≤ p.2) := by
  induction t with
  | nil => left; simp [fallThrough]
  | cons p t ih =>
    obtain ⟨lo, hi⟩ := p
    by_cases h : lo ≤ d ∧ d ≤ hi
    · right; simp [fallThrough, h]
    · have e : fallThrough d ((lo, hi) :: t) = fallThrough d t := by simp [fallThrough, h]
      rw [e]
      rcases ih with ⟨a, b⟩ | ⟨a, b, q, c, c2⟩
      · left
        refine ⟨a, ?_⟩
        intro p hp
        rcases List.mem_cons.mp hp with rfl | hp
        · exact h
        · exact b p hp
      · right
        refine ⟨a, by simp; omega, q, ?_, c2⟩
        rw [List.length_cons, show t.length + 1 - fallThrough d t =
          (t.length - fallThrough d t) + 1 by omega, List.getElem?_cons_succ]
        exact c

/-- the labels of `dist_to_code` are the classes of RFC 1951. -/
theorem distCases_ok : ∀ c : Fin 30, 0 < c.val →
    (match distCases[29 - c.val]?, distances[c.val]? with
     | some (lo, hi), some (n, base) =>
        decide (lo = base ∧ hi + 1 = base + 2 ^ n ∧ n = distBits c ∧ (base - 1) % 2 ^ n = 0 ∧ 1 ≤ base)
     | _, _ => false) = true := by decide +kernel

theorem distToCode_class (d : Nat) (h1 : 1 ≤ d) (h2 : d ≤ 32768) :
    ∃ base, distances[distToCode d]? = some (distBits (distToCode d), base) ∧
      distToCode d < 30 ∧ base + (d - 1) % 2 ^ distBits (distToCode d) = d := by
  unfold distToCode
  rcases fallThrough_spec d distCases with ⟨h0, hn⟩ | ⟨hp, hl, ⟨lo, hi⟩, hq, hlo, hhi⟩
  · rw [h0]
    have : d = 1 := by
      simp [distCases] at hn
      omega
    subst this
    exact ⟨1, rfl, by decide, rfl⟩
  · have hlen : distCases.length = 29 := rfl
    have := distCases_ok ⟨fallThrough d distCases, by omega⟩ hp
    simp only at this
    rw [hlen] at hq
    rw [hq] at this
    cases e : distances[fallThrough d distCases]? with
    | none => simp [e] at this
    | some p =>
      obtain ⟨n, base⟩ := p
      simp only [e, decide_eq_true_eq] at this
      obtain ⟨t1, t2, t3, t4, t5⟩ := this
      refine ⟨base, by rw [t3], by omega, ?_⟩
      simp only at hlo hhi
      rw [← t3]
      have hd : d - 1 = (base - 1) + (d - base) := by omega
      have hlt : d - base < 2 ^ n := by omega
      rw [hd, Nat.add_mod, t4, Nat.zero_add, Nat.mod_mod, Nat.mod_eq_of_lt hlt]
      omega

theorem rev5_ok : ∀ c : Fin 32, takeMSB 5 0 (bitsLE 5 (rev5 c)) = some (c.val, []) ∧
    rev5 c < 32 := by decide +kernel

theorem distTable_ok (d : Nat) (h1 : 1 ≤ d) (h2 : d ≤ 32768) :
    distance (bitsLE (distTable (d - 1) % 32) (distTable (d - 1) / 32)) = some (d, []) ∧
    distTable (d - 1) / 32 < 2 ^ (distTable (d - 1) % 32) ∧
    distTable (d - 1) % 32 ≤ 18 ∧ 5 ≤ distTable (d - 1) % 32 := by
  obtain ⟨base, hb, hc, hd⟩ := distToCode_class d h1 h2
  have hd1 : d - 1 + 1 = d := by omega
  have hbits : distBits (distToCode d) ≤ 13 := by unfold distBits; omega
  obtain ⟨r1, r2⟩ := rev5_ok ⟨distToCode d, by omega⟩
  simp only at r1 r2
  have hX : (d - 1) % 2 ^ distBits (distToCode d) < 2 ^ distBits (distToCode d) :=
    Nat.mod_lt _ (Nat.two_pow_pos _)
  unfold distTable
  simp only [hd1]
  generalize (d - 1) % 2 ^ distBits (distToCode d) = X at *
  generalize distBits (distToCode d) = n at *
  have e1 : ((rev5 (distToCode d) + X * 32) * 32 + n + 5) % 32 = 5 + n := by omega
  have e2 : ((rev5 (distToCode d) + X * 32) * 32 + n + 5) / 32 = rev5 (distToCode d) + X * 2 ^ 5 := by
    omega
  rw [e1, e2]
  refine ⟨?_, ?_, by omega, by omega⟩
  · rw [bitsLE_append _ _ (show rev5 (distToCode d) < 2 ^ 5 from r2)]
    unfold distance
    rw [takeMSB_append _ r1]
    simp only [List.nil_append]
    unfold withExtra
    rw [hb]
    have := takeLE_bits n X []
    rw [List.append_nil] at this
    simp only [this, Nat.mod_eq_of_lt hX, hd]
  · rw [Nat.pow_add]
    have : X + 1 ≤ 2 ^ n := hX
    omega

end Mtev.Slz
