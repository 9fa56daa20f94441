import Verif.Rand

/-!
C165: random numbers and random bytes.
-/

namespace Mtev.Rand

/-- The bytes of the numbers drawn, one after the other, the lowest byte of
    each first. -/
def stream (blob : Nat → Nat) (j : Nat) : Nat := blob (j / 8) / 256 ^ (j % 8) % 256

/-- C165.  A buffer of up to 2^32 - 8 bytes is filled with the bytes of the
    numbers drawn, in `len / 8 + 2` rounds or fewer; the memory behind it is
    left as it was, and the length is returned. -/
theorem C165_fill_partial (blob mem : Nat → Nat) (len : Nat) (hl : len ≤ 2 ^ 32 - 8) :
    ∃ m, fill blob mem len (len / 8 + 2) = some (len, m) ∧ (∀ j, j < len → m j = stream blob j) ∧
      ∀ j, len ≤ j → m j = mem j := by
  obtain ⟨s, h1, h2, h3⟩ := loop_done (blob := blob) (mem := mem) hl (len / 8 + 1) ⟨0, 0, mem⟩
    ⟨rfl, fun j h => absurd h (Nat.not_lt_zero _), fun _ _ => rfl⟩ (by show len ≤ 0 + 8 * (len / 8 + 1); omega)
  refine ⟨s.buf, ?_, ?_, ?_⟩
  · unfold fill; rw [h1]; rfl
  · intro j hj; exact h2.inn j (by omega) hj
  · intro j hj; exact h2.out j (.inr hj)

/-- C165.  The full claim has no bound and is false: a larger buffer is filled
    again and again, without end. -/
theorem C165_endless_violated (blob mem : Nat → Nat) (len : Nat) (hl : 2 ^ 32 - 8 < len) (rounds : Nat) :
    fill blob mem len rounds = none := by
  unfold fill
  rw [loop_endless hl rounds _ rfl (by show 0 < 2 ^ 32; decide)]
  rfl

/-- C165.  The secure one, for lengths an `int` holds: either all of the buffer
    is filled and its length returned, or nothing is touched and 0 returned;
    and it fails only with the library. -/
theorem C165_secure_partial (works : Bool) (rnd mem : Nat → Nat) (len : Nat) (hl : len < 2 ^ 31) :
    (works = true → (secure works rnd mem len).1 = len ∧ (∀ j, j < len → (secure works rnd mem len).2 j = rnd j) ∧
      ∀ j, len ≤ j → (secure works rnd mem len).2 j = mem j) ∧
    (works = false → secure works rnd mem len = (0, mem)) := by
  have ht : toInt len = len := by
    unfold toInt
    rw [Nat.mod_eq_of_lt (show len < 2 ^ 32 by omega), if_pos hl]
  constructor
  · rintro rfl
    have hs : secure true rnd mem len = (len, fun j : Nat => if (j : Int) < (len : Int) then rnd j else mem j) := by
      unfold secure
      rw [ht, if_pos ⟨rfl, by omega⟩]
    rw [hs]
    refine ⟨rfl, fun j hj => ?_, fun j hj => ?_⟩
    · exact if_pos (by omega)
    · exact if_neg (by omega)
  · rintro rfl
    simp [secure]

/-- C165.  Beyond, it is false: for each multiple of 2^32 the length is
    returned and not one byte is written. -/
theorem C165_secure_violated (rnd mem : Nat → Nat) (n : Nat) :
    secure true rnd mem (n * 2 ^ 32) = (n * 2 ^ 32, mem) := by
  have ht : toInt (n * 2 ^ 32) = 0 := by simp [toInt]
  unfold secure
  rw [ht, if_pos ⟨rfl, Int.le_refl 0⟩]
  refine Prod.ext rfl (funext fun j => ?_)
  show (if (j : Int) < 0 then rnd j else mem j) = mem j
  exact if_neg (by omega)

/-- C165.  Numbers are of 64 bits. -/
theorem C165_bits (lib : Option Nat) (times : Nat → Nat) : rand lib times < 2 ^ 64 := by
  have ho : ∀ x, x < 2 ^ 48 → out48 x < 2 ^ 64 := by
    intro x hx
    unfold out48
    split <;> omega
  have hl : ∀ x, lcg x < 2 ^ 48 := fun x => Nat.mod_lt _ (by decide)
  unfold rand mix
  exact Nat.xor_lt_two_pow (Nat.mod_lt _ (by decide)) (ho _ (hl _))

/-- C165.  If the library has randomness, `mtev_rand_trysecure` returns its
    number as it is. -/
theorem C165_trysecure (v : Nat) (lib' : Option Nat) (times : Nat → Nat) : trysecure (some v) lib' times = v := rfl

/-- C165.  Numbers of `mtev_rand` depend on the upper 48 bits of a seed of 64. -/
theorem C165_seed (s s' : Nat) (times times' : Nat → Nat) (h : s / 2 ^ 16 = s' / 2 ^ 16) :
    rand (some s) times = rand (some s') times' := by
  unfold rand
  simp only [Option.getD_some, h]

/-- C165.  That every number of 64 bits may come is false: for each one that
    may come there are more than 65,000 that never do, whatever the library and
    the clock give. -/
theorem C165_range_violated :
    ∃ never : Finset Nat, never ⊆ Finset.range (2 ^ 64) ∧ 2 ^ 64 - 2 ^ 48 ≤ never.card ∧
      ∀ v ∈ never, ∀ (lib : Option Nat) (times : Nat → Nat), (∀ s, lib = some s → s < 2 ^ 64) → rand lib times ≠ v := by
  let g : Nat → Nat := fun w => rand (some (w * 2 ^ 16)) (fun _ => 0)
  refine ⟨Finset.range (2 ^ 64) \ (Finset.range (2 ^ 48)).image g, Finset.sdiff_subset, ?_, ?_⟩
  · have h1 := Finset.le_card_sdiff ((Finset.range (2 ^ 48)).image g) (Finset.range (2 ^ 64))
    have h2 : ((Finset.range (2 ^ 48)).image g).card ≤ 2 ^ 48 := by
      have := Finset.card_image_le (s := Finset.range (2 ^ 48)) (f := g)
      rwa [Finset.card_range] at this
    rw [Finset.card_range] at h1
    omega
  · intro v hv lib times hlib he
    have hn := (Finset.mem_sdiff.1 hv).2
    apply hn
    have hfb : ∀ t, fallback t < 2 ^ 64 := by
      intro t
      have : ∀ (l : List Nat) (s : Nat), s < 2 ^ 64 →
          l.foldl (fun s i => (s <<< 8 % 2 ^ 64) ^^^ (t i % 2 ^ 64)) s < 2 ^ 64 := by
        intro l
        induction l with
        | nil => intro s h; exact h
        | cons a l ih =>
          intro s _
          exact ih _ (Nat.xor_lt_two_pow (Nat.mod_lt _ (by decide)) (Nat.mod_lt _ (by decide)))
      exact this _ 0 (by decide)
    have hsc : lib.getD (fallback times) < 2 ^ 64 := by
      cases lib with
      | none => exact hfb times
      | some s => exact hlib s rfl
    refine Finset.mem_image.2 ⟨lib.getD (fallback times) / 2 ^ 16, Finset.mem_range.2 (by omega), ?_⟩
    rw [← he]
    show rand (some (lib.getD (fallback times) / 2 ^ 16 * 2 ^ 16)) _ = _
    unfold rand
    simp only [Option.getD_some, Nat.mul_div_cancel _ (show 0 < 2 ^ 16 by decide)]

/-- Eleven bytes: one number and three bytes of another. -/
example : ((fill (fun k => 0x0807060504030201 + k * 16) (fun _ => 255) 11 3).map
    fun r => (r.1, (List.range 13).map r.2)) = some (11, [1, 2, 3, 4, 5, 6, 7, 8, 17, 2, 3, 255, 255]) := by decide

example : rand (some 0) (fun _ => 0) = rand (some 65535) (fun _ => 7) := C165_seed _ _ _ _ rfl

example : (secure true (fun _ => 1) (fun _ => 0) 5).1 = 5 := by decide

end Mtev.Rand
