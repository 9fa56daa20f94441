import Verif.Basic

/-!
Model of the branch-free base-2 logarithms of `/repo/src/utils/mtev_intern.c`
lines 136-157, which pick the free list of the string-interning arenas.
-/
namespace Mtev.Log2

/-- `MultiplyDeBruijnBitPosition`, mtev_intern.c:137-141. -/
def table : List Nat :=
  [0, 9, 1, 10, 13, 21, 2, 29, 11, 14, 16, 18, 22, 25, 3, 30,
   8, 12, 20, 28, 15, 17, 24, 7, 19, 27, 23, 6, 26, 5, 4, 31]

/-- The bit smearing of mtev_intern.c:145-149. -/
def smear (v : Nat) : Nat :=
  let v := v ||| (v >>> 1)
  let v := v ||| (v >>> 2)
  let v := v ||| (v >>> 4)
  let v := v ||| (v >>> 8)
  v ||| (v >>> 16)

/-- `fast_log2_rd`, mtev_intern.c:143-151; `v` is a 32-bit value. -/
def log2rd (v : Nat) : Nat := table.getD (((smear v * 0x07C4ACDD) % 2 ^ 32) >>> 27) 0

/-- `fast_log2_ru`, mtev_intern.c:152-157; 32-bit wrap-around in both statements. -/
def log2ru (v : Nat) : Nat := log2rd ((v * 2 % 2 ^ 32 + 2 ^ 32 - 1) % 2 ^ 32)

/-- One smearing step doubles the reach. -/
theorem smear_step {v w s : Nat} (h : ∀ i, w.testBit i = true ↔ ∃ j, j < s ∧ v.testBit (i + j) = true) :
    ∀ i, (w ||| (w >>> s)).testBit i = true ↔ ∃ j, j < s + s ∧ v.testBit (i + j) = true := by
  intro i
  rw [Nat.testBit_or, Nat.testBit_shiftRight, Bool.or_eq_true, h, h]
  constructor
  · rintro (⟨j, h1, h2⟩ | ⟨j, h1, h2⟩)
    · exact ⟨j, by omega, h2⟩
    · exact ⟨s + j, by omega, by rw [show i + (s + j) = s + i + j by omega]; exact h2⟩
  · rintro ⟨j, h1, h2⟩
    by_cases hj : j < s
    · exact .inl ⟨j, hj, h2⟩
    · exact .inr ⟨j - s, by omega, by rw [show s + i + (j - s) = i + j by omega]; exact h2⟩

theorem smear_testBit (v i : Nat) :
    (smear v).testBit i = true ↔ ∃ j, j < 32 ∧ v.testBit (i + j) = true := by
  have h0 : ∀ i, v.testBit i = true ↔ ∃ j, j < 1 ∧ v.testBit (i + j) = true := by
    intro i; constructor
    · intro h; exact ⟨0, by omega, by simpa using h⟩
    · rintro ⟨j, h1, h2⟩; rw [show j = 0 by omega] at h2; simpa using h2
  exact smear_step (smear_step (smear_step (smear_step (smear_step h0)))) i

/-- Smearing fills every bit below the highest set one. -/
theorem smear_eq {v k : Nat} (hk : k < 32) (h1 : 2 ^ k ≤ v) (h2 : v < 2 ^ (k + 1)) :
    smear v = 2 ^ (k + 1) - 1 := by
  apply Nat.eq_of_testBit_eq
  intro i
  rw [Nat.testBit_two_pow_sub_one]
  have hk' : v.testBit k = true := by
    rw [Nat.testBit_eq_decide_div_mod_eq]
    have : v / 2 ^ k = 1 := by
      rw [Nat.pow_succ] at h2
      refine Nat.div_eq_of_lt_le (by simpa using h1) (by omega)
    simp [this]
  by_cases hi : i < k + 1
  · rw [decide_eq_true hi, smear_testBit]
    exact ⟨k - i, by omega, by rw [show i + (k - i) = k by omega]; exact hk'⟩
  · rw [decide_eq_false hi]
    by_contra hc
    have hc : (smear v).testBit i = true := by simpa using hc
    rw [smear_testBit] at hc
    obtain ⟨j, _, h4⟩ := hc
    have := Nat.ge_two_pow_of_testBit h4
    have h5 : 2 ^ (k + 1) ≤ 2 ^ (i + j) := Nat.pow_le_pow_right (by omega) (by omega)
    omega

theorem table_ok : ∀ k : Fin 32, table.getD ((((2 ^ (k.val + 1) - 1) * 0x07C4ACDD) % 2 ^ 32) >>> 27) 0 = k.val := by
  decide +kernel

theorem log2rd_eq {v k : Nat} (hk : k < 32) (h1 : 2 ^ k ≤ v) (h2 : v < 2 ^ (k + 1)) : log2rd v = k := by
  unfold log2rd
  rw [smear_eq hk h1 h2]
  exact table_ok ⟨k, hk⟩

end Mtev.Log2
