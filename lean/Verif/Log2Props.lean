import Verif.Log2

/-!
Property theorems for the fast logarithms (C27).
-/
namespace Mtev.Log2

/-- C27 (rounding down).  For every 32-bit `v > 0` the result `k` of
`fast_log2_rd` is the floor of log2: `2^k ≤ v < 2^(k+1)`. -/
theorem C27_round_down (v : Nat) (h0 : 0 < v) (h : v < 2 ^ 32) :
    2 ^ log2rd v ≤ v ∧ v < 2 ^ (log2rd v + 1) := by
  have h1 : 2 ^ v.log2 ≤ v := Nat.log2_self_le (by omega)
  have h2 : v < 2 ^ (v.log2 + 1) := Nat.lt_log2_self
  have hk : v.log2 < 32 := by
    by_contra hc
    have : 2 ^ 32 ≤ 2 ^ v.log2 := Nat.pow_le_pow_right (by omega) (by omega)
    omega
  rw [log2rd_eq hk h1 h2]
  exact ⟨h1, h2⟩

/-- C27 (rounding up).  For every `v` from 1 to 2^31 the result `k` of
`fast_log2_ru` is the ceiling of log2: `v ≤ 2^k`, and no smaller power of two
is enough. -/
theorem C27_round_up (v : Nat) (h0 : 0 < v) (h : v ≤ 2 ^ 31) :
    v ≤ 2 ^ log2ru v ∧ ∀ j, j < log2ru v → 2 ^ j < v := by
  unfold log2ru
  have hw : (v * 2 % 2 ^ 32 + 2 ^ 32 - 1) % 2 ^ 32 = 2 * v - 1 := by
    by_cases hv : v = 2 ^ 31
    · subst hv; decide
    · rw [Nat.mod_eq_of_lt (by omega : v * 2 < 2 ^ 32)]; omega
  rw [hw]
  obtain ⟨h1, h2⟩ := C27_round_down (2 * v - 1) (by omega) (by omega)
  generalize hk : log2rd (2 * v - 1) = k at h1 h2
  rw [Nat.pow_succ] at h2
  refine ⟨by omega, fun j hj => ?_⟩
  have : 2 ^ (j + 1) ≤ 2 ^ k := Nat.pow_le_pow_right (by omega) (by omega)
  rw [Nat.pow_succ] at this
  omega

/-- C27 (the edges of the range).  Zero is mapped to 0 rounding down and to 31
rounding up, and above 2^31 rounding up is no longer an upper bound. -/
theorem C27_edges : log2rd 0 = 0 ∧ log2ru 0 = 31 ∧
    ∀ v, 2 ^ 31 < v → v < 2 ^ 32 → 2 ^ log2ru v < v := by
  refine ⟨by decide +kernel, by decide +kernel, fun v h1 h2 => ?_⟩
  unfold log2ru
  have hw : (v * 2 % 2 ^ 32 + 2 ^ 32 - 1) % 2 ^ 32 = 2 * v - 2 ^ 32 - 1 := by omega
  rw [hw]
  obtain ⟨h3, h4⟩ := C27_round_down (2 * v - 2 ^ 32 - 1) (by omega) (by omega)
  omega

example : log2rd 1000 = 9 ∧ log2ru 1000 = 10 ∧ log2rd 1024 = 10 ∧ log2ru 1024 = 10 ∧ log2ru 1025 = 11 := by
  decide +kernel

end Mtev.Log2
