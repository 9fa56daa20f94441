import Verif.Hll

/-! # Property C13: HyperLogLog state depends only on the set of elements -/

namespace Mtev.Hll

/-! ## Specification

An element is represented by its 32-bit hash.  The top `b` bits select a register; the rank is the
1-based position of the first one bit among the remaining `32 - b` bits, or `33 - b` if there is none. -/

def IsRank (b h r : Nat) : Prop :=
  1 ≤ r ∧ r ≤ 33 - b ∧ (∀ j, 1 ≤ j → j < r → h.testBit (32 - b - j) = false) ∧
  (r ≤ 32 - b → h.testBit (32 - b - r) = true)

/-- `v` is the maximal rank among the elements of register `i`, or 0 if there are none. -/
def IsRegister (b : Nat) (els : List Nat) (i v : Nat) : Prop :=
  (∀ h ∈ els, h / 2 ^ (32 - b) = i → ∃ r, IsRank b h r ∧ r ≤ v) ∧
  (v = 0 ∨ ∃ h ∈ els, h / 2 ^ (32 - b) = i ∧ IsRank b h v)

/-! ## Proof -/

theorem rank_spec (b h : Nat) (hb : 4 ≤ b) (hb' : b ≤ 20) : IsRank b h (rank b h) := by
  obtain ⟨h1, h2⟩ := rank_le b h hb'
  refine ⟨h1, h2, ?_, ?_⟩
  · intro j hj hlt
    have e : h.testBit (32 - b - j) = (h % 2 ^ (32 - b)).testBit (32 - b - j) := by
      rw [Nat.testBit_mod_two_pow]; simp; omega
    rw [e]
    unfold rank at hlt
    simp only at hlt
    generalize h % 2 ^ (32 - b) = w at *
    split at hlt
    · rename_i h0; simp [h0]
    · rename_i h0
      apply Nat.testBit_lt_two_pow
      calc w < 2 ^ (Nat.log2 w + 1) := Nat.lt_log2_self
        _ ≤ 2 ^ (32 - b - j) := Nat.pow_le_pow_right (by omega) (by omega)
  · intro hle
    have e : h.testBit (32 - b - rank b h) = (h % 2 ^ (32 - b)).testBit (32 - b - rank b h) := by
      rw [Nat.testBit_mod_two_pow]; simp; omega
    rw [e]
    have hwl : h % 2 ^ (32 - b) < 2 ^ (32 - b) := Nat.mod_lt _ (Nat.two_pow_pos _)
    unfold rank at hle ⊢
    simp only at hle ⊢
    generalize h % 2 ^ (32 - b) = w at *
    split at hle
    · omega
    · rename_i h0
      rw [if_neg h0]
      have hlt : Nat.log2 w < 32 - b := (Nat.log2_lt h0).mpr hwl
      rw [show 32 - b - (32 - b - Nat.log2 w) = Nat.log2 w by omega]
      exact Nat.testBit_log2 h0

theorem rank_unique (b h r s : Nat) (h1 : IsRank b h r) (h2 : IsRank b h s) : r = s := by
  obtain ⟨a1, a2, a3, a4⟩ := h1
  obtain ⟨b1, b2, b3, b4⟩ := h2
  rcases Nat.lt_trichotomy r s with h | h | h
  · have := b3 r a1 h; rw [a4 (by omega)] at this; cases this
  · exact h
  · have := a3 s b1 h; rw [b4 (by omega)] at this; cases this

/-- The state reached is the one described by the registers. -/
theorem addAll_inv (b : Nat) (hb : 4 ≤ b) (hb' : b ≤ 20) (els pre regs : List Nat) (he : ∀ h ∈ els, h < 2 ^ 32)
    (hl : regs.length = 2 ^ b) (hr : ∀ i, i < 2 ^ b → IsRegister b pre i (regs.getD i 0)) :
    ∃ out, addAll b regs els = some out ∧ out.length = 2 ^ b ∧
      ∀ i, i < 2 ^ b → IsRegister b (pre ++ els) i (out.getD i 0) := by
  induction els generalizing pre regs with
  | nil => exact ⟨regs, rfl, hl, by simpa using hr⟩
  | cons h t ih =>
    have hh := he h (by simp)
    rw [addAll, add_eq b hb hb' regs hl h hh]
    simp only
    have hidx := index_lt b h hb' hh
    have hdiv : h >>> (32 - b) = h / 2 ^ (32 - b) := Nat.shiftRight_eq_div_pow _ _
    rw [hdiv] at hidx ⊢
    have := ih (pre ++ [h]) (regs.set (h / 2 ^ (32 - b)) (max (regs.getD (h / 2 ^ (32 - b)) 0) (rank b h)))
      (fun x hx => he x (by simp [hx])) (by simpa using hl) ?_
    · simpa using this
    · intro i hi
      obtain ⟨k1, k2⟩ := hr i hi
      by_cases hii : h / 2 ^ (32 - b) = i
      · subst hii
        have hv : (regs.set (h / 2 ^ (32 - b)) (max (regs.getD (h / 2 ^ (32 - b)) 0) (rank b h))).getD (h / 2 ^ (32 - b)) 0
            = max (regs.getD (h / 2 ^ (32 - b)) 0) (rank b h) := by
          rw [List.getD_eq_getElem?_getD, List.getElem?_set_self (by omega)]; rfl
        rw [hv]
        constructor
        · intro x hx hxi
          rw [List.mem_append, List.mem_singleton] at hx
          rcases hx with hx | hx
          · obtain ⟨r, r1, r2⟩ := k1 x hx hxi
            exact ⟨r, r1, Nat.le_trans r2 (Nat.le_max_left _ _)⟩
          · subst hx
            exact ⟨rank b x, rank_spec b x hb hb', Nat.le_max_right _ _⟩
        · right
          rcases Nat.le_total (regs.getD (h / 2 ^ (32 - b)) 0) (rank b h) with hle | hle
          · rw [Nat.max_eq_right hle]
            exact ⟨h, by simp, rfl, rank_spec b h hb hb'⟩
          · rw [Nat.max_eq_left hle]
            rcases k2 with k2 | ⟨x, x1, x2, x3⟩
            · have := (rank_le b h hb').1; omega
            · exact ⟨x, by simp [x1], x2, x3⟩
      · have hv : (regs.set (h / 2 ^ (32 - b)) (max (regs.getD (h / 2 ^ (32 - b)) 0) (rank b h))).getD i 0 = regs.getD i 0 := by
          rw [List.getD_eq_getElem?_getD, List.getElem?_set_ne hii, ← List.getD_eq_getElem?_getD]
        rw [hv]
        constructor
        · intro x hx hxi
          rw [List.mem_append, List.mem_singleton] at hx
          rcases hx with hx | hx
          · exact k1 x hx hxi
          · subst hx; exact absurd hxi hii
        · rcases k2 with k2 | ⟨x, x1, x2⟩
          · exact Or.inl k2
          · exact Or.inr ⟨x, by simp [x1], x2⟩

theorem isRegister_unique {b : Nat} {l1 l2 : List Nat} (hset : ∀ h, h ∈ l1 ↔ h ∈ l2) {i v w : Nat}
    (h1 : IsRegister b l1 i v) (h2 : IsRegister b l2 i w) : v = w := by
  have key : ∀ (a c : List Nat) (p q : Nat), (∀ h, h ∈ a → h ∈ c) → IsRegister b a i p → IsRegister b c i q → p ≤ q := by
    intro a c p q hac hp hq
    rcases hp.2 with h0 | ⟨x, x1, x2, x3⟩
    · omega
    · obtain ⟨r, r1, r2⟩ := hq.1 x (hac x x1) x2
      have := rank_unique b x _ _ x3 r1
      omega
  exact Nat.le_antisymm (key _ _ _ _ (fun h => (hset h).mp) h1 h2) (key _ _ _ _ (fun h => (hset h).mpr) h2 h1)

theorem addAll_spec (b : Nat) (hb : 4 ≤ b) (hb' : b ≤ 20) (els : List Nat) (he : ∀ h ∈ els, h < 2 ^ 32) :
    ∃ out, addAll b (List.replicate (2 ^ b) 0) els = some out ∧ out.length = 2 ^ b ∧
      ∀ i, i < 2 ^ b → IsRegister b els i (out.getD i 0) := by
  have := addAll_inv b hb hb' els [] (List.replicate (2 ^ b) 0) he (by simp) ?_
  · simpa using this
  · intro i hi
    have hz : (List.replicate (2 ^ b) 0).getD i 0 = 0 := by
      rw [List.getD_eq_getElem?_getD, List.getElem?_replicate]; split <;> rfl
    rw [hz]
    exact ⟨by simp, Or.inl rfl⟩

theorem ext_getD {l1 l2 : List Nat} (h : l1.length = l2.length) (he : ∀ i, i < l1.length → l1.getD i 0 = l2.getD i 0) : l1 = l2 := by
  apply List.ext_getElem h
  intro i h1 h2
  have := he i h1
  simpa [List.getD_eq_getElem?_getD, List.getElem?_eq_getElem h1, List.getElem?_eq_getElem h2] using this

/-! ## Theorems -/

/-- The constructor accepts exactly the precisions 4 to 20 and starts with all registers zero. -/
theorem C13_hll_alloc (bitcount : Int) :
    alloc bitcount = if 4 ≤ bitcount ∧ bitcount ≤ 20 then some (bitcount.toNat, List.replicate (2 ^ bitcount.toNat) 0) else none := by
  unfold alloc
  split
  · rw [if_neg (by omega)]
  · rw [if_pos (by omega), Nat.shiftLeft_eq, Nat.one_mul]

/-- No addition is undefined, and after any sequence of additions every register holds the maximal
rank of the elements it received (0 if none), at most `33 - b`. -/
theorem C13_hll_registers (b : Nat) (hb : 4 ≤ b) (hb' : b ≤ 20) (els : List Nat) (he : ∀ h ∈ els, h < 2 ^ 32) :
    ∃ out, addAll b (List.replicate (2 ^ b) 0) els = some out ∧ out.length = 2 ^ b ∧
      ∀ i, i < 2 ^ b → IsRegister b els i (out.getD i 0) ∧ out.getD i 0 ≤ 33 - b := by
  obtain ⟨out, h1, h2, h3⟩ := addAll_spec b hb hb' els he
  refine ⟨out, h1, h2, fun i hi => ⟨h3 i hi, ?_⟩⟩
  rcases (h3 i hi).2 with h | ⟨x, _, _, hx⟩
  · omega
  · exact hx.2.1

/-- Two sequences with the same set of elements give the same state: order and repetition do not
matter. -/
theorem C13_hll_set_semantics (b : Nat) (hb : 4 ≤ b) (hb' : b ≤ 20) (l1 l2 : List Nat)
    (h1 : ∀ h ∈ l1, h < 2 ^ 32) (hset : ∀ h, h ∈ l1 ↔ h ∈ l2) :
    addAll b (List.replicate (2 ^ b) 0) l1 = addAll b (List.replicate (2 ^ b) 0) l2 := by
  obtain ⟨o1, e1, n1, r1⟩ := addAll_spec b hb hb' l1 h1
  obtain ⟨o2, e2, n2, r2⟩ := addAll_spec b hb hb' l2 (fun h hh => h1 h ((hset h).mpr hh))
  rw [e1, e2]
  congr 1
  refine ext_getD (by omega) ?_
  intro i hi
  exact isRegister_unique hset (r1 i (by omega)) (r2 i (by omega))

/-- The state of a union is the register-wise maximum of the two states. -/
theorem C13_hll_union (b : Nat) (hb : 4 ≤ b) (hb' : b ≤ 20) (l1 l2 : List Nat)
    (h1 : ∀ h ∈ l1, h < 2 ^ 32) (h2 : ∀ h ∈ l2, h < 2 ^ 32) :
    ∃ o1 o2 o, addAll b (List.replicate (2 ^ b) 0) l1 = some o1 ∧ addAll b (List.replicate (2 ^ b) 0) l2 = some o2 ∧
      addAll b (List.replicate (2 ^ b) 0) (l1 ++ l2) = some o ∧ o = List.zipWith max o1 o2 := by
  obtain ⟨o1, e1, n1, r1⟩ := addAll_spec b hb hb' l1 h1
  obtain ⟨o2, e2, n2, r2⟩ := addAll_spec b hb hb' l2 h2
  obtain ⟨o, e, n, r⟩ := addAll_spec b hb hb' (l1 ++ l2) (by
    intro h hh; rw [List.mem_append] at hh; rcases hh with hh | hh
    · exact h1 h hh
    · exact h2 h hh)
  refine ⟨o1, o2, o, e1, e2, e, ?_⟩
  refine ext_getD (by simp; omega) ?_
  intro i hi
  have hz : (List.zipWith max o1 o2).getD i 0 = max (o1.getD i 0) (o2.getD i 0) := by
    simp only [List.getD_eq_getElem?_getD, List.getElem?_zipWith]
    rw [List.getElem?_eq_getElem (show i < o1.length by omega), List.getElem?_eq_getElem (show i < o2.length by omega)]
    rfl
  rw [hz]
  refine isRegister_unique (fun h => Iff.rfl) (r i (by omega)) ?_
  have q1 := r1 i (by omega)
  have q2 := r2 i (by omega)
  constructor
  · intro x hx hxi
    rw [List.mem_append] at hx
    rcases hx with hx | hx
    · obtain ⟨s, s1, s2⟩ := q1.1 x hx hxi; exact ⟨s, s1, Nat.le_trans s2 (Nat.le_max_left _ _)⟩
    · obtain ⟨s, s1, s2⟩ := q2.1 x hx hxi; exact ⟨s, s1, Nat.le_trans s2 (Nat.le_max_right _ _)⟩
  · rcases Nat.le_total (o1.getD i 0) (o2.getD i 0) with hle | hle
    · rw [Nat.max_eq_right hle]
      rcases q2.2 with q | ⟨x, x1, x2⟩
      · exact Or.inl q
      · exact Or.inr ⟨x, by simp [x1], x2⟩
    · rw [Nat.max_eq_left hle]
      rcases q1.2 with q | ⟨x, x1, x2⟩
      · exact Or.inl q
      · exact Or.inr ⟨x, by simp [x1], x2⟩

theorem sums_acc (l : List Nat) (p : Nat × Nat) :
    l.foldl (fun p x => (p.1 + (if x = 0 then 1 else 0), p.2 + 16777216 / (1 <<< x))) p =
      (p.1 + (estimateSums l).1, p.2 + (estimateSums l).2) := by
  unfold estimateSums
  induction l generalizing p with
  | nil => simp
  | cons x t ih =>
    simp only [List.foldl_cons, Nat.zero_add]
    rw [ih, ih (if x = 0 then 1 else 0, _)]
    simp only [Nat.add_assoc]

theorem sums_cons (x : Nat) (l : List Nat) :
    estimateSums (x :: l) = ((if x = 0 then 1 else 0) + (estimateSums l).1, 16777216 / 2 ^ x + (estimateSums l).2) := by
  conv_lhs => unfold estimateSums
  rw [List.foldl_cons, sums_acc, Nat.shiftLeft_eq, Nat.one_mul, Nat.zero_add, Nat.zero_add]

/-- Adding more elements can only lower the two integer inputs of the cardinality estimate (count of
zero registers and scaled harmonic sum), so the estimate never falls when elements are added. -/
theorem C13_hll_sums_antitone (b : Nat) (hb : 4 ≤ b) (hb' : b ≤ 20) (l1 l2 : List Nat)
    (h1 : ∀ h ∈ l1, h < 2 ^ 32) (h2 : ∀ h ∈ l2, h < 2 ^ 32) :
    ∃ o1 o, addAll b (List.replicate (2 ^ b) 0) l1 = some o1 ∧ addAll b (List.replicate (2 ^ b) 0) (l1 ++ l2) = some o ∧
      (estimateSums o).1 ≤ (estimateSums o1).1 ∧ (estimateSums o).2 ≤ (estimateSums o1).2 := by
  obtain ⟨o1, o2, o, e1, e2, e, rfl⟩ := C13_hll_union b hb hb' l1 l2 h1 h2
  obtain ⟨o1', e1', n1, r1⟩ := addAll_spec b hb hb' l1 h1
  obtain ⟨o2', e2', n2, r2⟩ := addAll_spec b hb hb' l2 h2
  rw [e1] at e1'; rw [e2] at e2'
  cases e1'; cases e2'
  refine ⟨o1, _, e1, e, ?_⟩
  have hlen : o1.length = o2.length := by omega
  clear e1 e2 e n1 n2 r1 r2
  induction o1 generalizing o2 with
  | nil => simp [estimateSums]
  | cons x t ih =>
    match o2, hlen with
    | y :: u, hlen =>
      have := ih u (by simpa using hlen)
      rw [List.zipWith_cons_cons, sums_cons, sums_cons]
      simp only
      constructor
      · have : (if max x y = 0 then 1 else 0) ≤ (if x = 0 then 1 else 0) := by
          split
          · rw [if_pos (by omega)]
          · omega
        omega
      · have : 16777216 / 2 ^ max x y ≤ 16777216 / 2 ^ x :=
          Nat.div_le_div_left (Nat.pow_le_pow_right (by omega) (Nat.le_max_left _ _)) (Nat.two_pow_pos _)
        omega

example : addAll 4 (List.replicate 16 0) [0x10000000, 0xF8000000, 0x1000_0000, 0x1000_4000] =
    some [0, 29, 0, 0, 0, 0, 0, 0, 0, 0, 0, 0, 0, 0, 0, 1] := by decide +kernel
example : addAll 4 (List.replicate 16 0) [0x10004000, 0xF8000000, 0x10000000] =
    addAll 4 (List.replicate 16 0) [0x10000000, 0xF8000000, 0x10000000, 0x10004000] := by decide +kernel

end Mtev.Hll
