import Verif.Basic
import Mathlib.Algebra.BigOperators.Fin
import Mathlib.Algebra.Order.BigOperators.Group.Finset

/-!
Shared vocabulary of the concurrent models: `n` threads, each with its own
local state, updated one at a time.
-/
namespace Mtev

open Finset

/-- Thread `i` moves to local state `v`. -/
def upd {n : Nat} {α : Type} (p : Fin n → α) (i : Fin n) (v : α) : Fin n → α :=
  fun j => if j = i then v else p j

@[simp] theorem upd_same {n : Nat} {α : Type} (p : Fin n → α) (i : Fin n) (v : α) :
    upd p i v i = v := by simp [upd]

theorem upd_other {n : Nat} {α : Type} (p : Fin n → α) (i j : Fin n) (v : α) (h : j ≠ i) :
    upd p i v j = p j := by simp [upd, h]

theorem upd_cases {n : Nat} {α : Type} (p : Fin n → α) (i j : Fin n) (v : α) :
    (j = i ∧ upd p i v j = v) ∨ (j ≠ i ∧ upd p i v j = p j) := by
  by_cases h : j = i
  · left; subst h; simp
  · right; exact ⟨h, upd_other p i j v h⟩

/-- A sum over all threads, after one of them moved. -/
theorem sum_upd {n : Nat} {α : Type} (f : α → Nat) (p : Fin n → α) (i : Fin n) (v : α) :
    (∑ j, f (upd p i v j)) + f (p i) = (∑ j, f (p j)) + f v := by
  have h1 : (∑ j, f (upd p i v j)) = f v + ∑ j ∈ univ.erase i, f (upd p i v j) := by
    rw [← Finset.add_sum_erase _ _ (mem_univ i)]; simp
  have h2 : (∑ j, f (p j)) = f (p i) + ∑ j ∈ univ.erase i, f (p j) := by
    rw [← Finset.add_sum_erase _ _ (mem_univ i)]
  have h3 : ∑ j ∈ univ.erase i, f (upd p i v j) = ∑ j ∈ univ.erase i, f (p j) := by
    apply Finset.sum_congr rfl
    intro j hj
    rw [upd_other _ _ _ _ (Finset.ne_of_mem_erase hj)]
  omega

theorem le_sum {n : Nat} {α : Type} (f : α → Nat) (p : Fin n → α) (i : Fin n) :
    f (p i) ≤ ∑ j, f (p j) := by
  rw [← Finset.add_sum_erase _ _ (mem_univ i)]; omega

theorem le_sum2 {n : Nat} {α : Type} (f : α → Nat) (p : Fin n → α) (i j : Fin n) (h : i ≠ j) :
    f (p i) + f (p j) ≤ ∑ k, f (p k) := by
  rw [← Finset.add_sum_erase _ _ (mem_univ i),
    ← Finset.add_sum_erase _ _ (show j ∈ univ.erase i by simp [h.symm])]; omega

/-- Bound on a sum from a bound on every term. -/
theorem sum_le_mul {n : Nat} {α : Type} (f : α → Nat) (p : Fin n → α) (b : Nat)
    (h : ∀ a, f a ≤ b) : (∑ j, f (p j)) ≤ n * b := by
  calc (∑ j, f (p j)) ≤ ∑ _j : Fin n, b := Finset.sum_le_sum fun j _ => h _
    _ = n * b := by simp

end Mtev
