import Mathlib.Tactic.Linarith
import Mathlib.Tactic.Ring
import Mathlib.Tactic.Tauto
import Mathlib.Tactic.ByContra
import Mathlib.Tactic.Set
import Mathlib.Tactic.Push
import Mathlib.Tactic.IntervalCases
import Mathlib.Tactic.Conv

/-!
# Shared helpers

Bytes are modelled as natural numbers below 256 (`IsBytes`).  C bit operations
on unsigned values are written with Lean's `Nat` shifts and masks; truncation to
the C type is written `% 256`, `% 2^32`, ... where it can matter.
-/

namespace Mtev

/-- A list of C `unsigned char` values. -/
def IsBytes (s : List Nat) : Prop := ∀ b ∈ s, b < 256

instance (s : List Nat) : Decidable (IsBytes s) := by unfold IsBytes; infer_instance

theorem IsBytes.nil : IsBytes [] := by intro b hb; cases hb

theorem isBytes_cons {a : Nat} {s : List Nat} : IsBytes (a :: s) ↔ a < 256 ∧ IsBytes s := by
  simp [IsBytes]

theorem isBytes_append {s t : List Nat} : IsBytes (s ++ t) ↔ IsBytes s ∧ IsBytes t := by
  simp only [IsBytes, List.mem_append]
  constructor
  · intro h; exact ⟨fun b hb => h b (Or.inl hb), fun b hb => h b (Or.inr hb)⟩
  · rintro ⟨h1, h2⟩ b (hb | hb)
    · exact h1 b hb
    · exact h2 b hb

/-- The bytes of an ASCII string literal, used only to write readable examples. -/
def bytesOf (s : String) : List Nat := s.toList.map Char.toNat

/-- `a | b` is `a + b` when `a` only has bits from `k` up and `b` only bits below `k`. -/
theorem or_eq_add {a b : Nat} (k : Nat) (ha : a % 2 ^ k = 0) (hb : b < 2 ^ k) :
    a ||| b = a + b := by
  have h := Nat.two_pow_add_eq_or_of_lt hb (a / 2 ^ k)
  have h2 : 2 ^ k * (a / 2 ^ k) = a := by
    have := Nat.div_add_mod a (2 ^ k); omega
  rw [h2] at h
  exact h.symm

/-- Lift a check over all 256 bytes to a statement about any byte. -/
theorem forall_byte {P : Nat → Prop} (h : ∀ x : Fin 256, P x.val) {b : Nat} (hb : b < 256) : P b :=
  h ⟨b, hb⟩

end Mtev
