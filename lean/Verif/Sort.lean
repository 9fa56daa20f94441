import Verif.Basic
import Mathlib.Data.List.Perm.Basic

/-!
# Model of `src/utils/mtev_sort.c`

A linked list is modelled by the sequence of its nodes (`get_next`/`set_next` are assumed to be
plain accessors of a NULL terminated list).  The counters `left_size`, `right_size` of the code are
kept; `list_size` is not truncated to `int`, so lists of 2^30 or more nodes are outside the model.
-/

namespace Mtev.Sort

variable {α : Type}

/-- The merge loop, mtev_sort.c:40-68.  `left` holds the `left_size` nodes still to be taken from the
left run, `right` the rest of the list from the `right` pointer, `rs` is `right_size`, `out` what has
been linked behind `head`.  Result: `out` and `right`. -/
def mergeRun (cmp : α → α → Int) : List α → Nat → List α → List α → List α × List α
  | [], 0, right, out => (out, right)
  | [], _ + 1, [], out => (out, [])
  | [], rs + 1, r :: right, out => mergeRun cmp [] rs right (out ++ [r])
  | l :: left, 0, right, out => mergeRun cmp left 0 right (out ++ [l])
  | l :: left, rs + 1, [], out => mergeRun cmp left (rs + 1) [] (out ++ [l])
  | l :: left, rs + 1, r :: right, out =>
    if cmp l r < 0 then mergeRun cmp left (rs + 1) (r :: right) (out ++ [l])
    else mergeRun cmp (l :: left) rs right (out ++ [r])
termination_by left rs right => left.length + rs + right.length

/-- One pass over the list, mtev_sort.c:25-71, with `list_size = n + 1`: the new list and `num_merges`.
The walk of lines 35-38 splits off the first `list_size` nodes. -/
def pass (cmp : α → α → Int) (n : Nat) : Nat → List α → List α → Nat → List α × Nat
  | 0, _, out, merges => (out, merges)
  | _ + 1, [], out, merges => (out, merges)
  | fuel + 1, left, out, merges =>
    let (out', right) := mergeRun cmp (left.take (n + 1)) (n + 1) (left.drop (n + 1)) out
    pass cmp n fuel right out' (merges + 1)

/-- The `do ... while (num_merges > 1)` loop, mtev_sort.c:24-73, starting with `list_size = n + 1`. The
fuel is only there to make the recursion structural; `sort` gives enough of it. -/
def sortLoop (cmp : α → α → Int) : Nat → Nat → List α → List α
  | 0, _, l => l
  | fuel + 1, n, l =>
    let (l', merges) := pass cmp n (l.length + 1) l [] 0
    if merges > 1 then sortLoop cmp fuel (2 * n + 1) l' else l'

/-- `mtev_merge_sort`, mtev_sort.c:13-75. -/
def sort (cmp : α → α → Int) (l : List α) : List α :=
  match l with
  | [] => []
  | [x] => [x]
  | _ => sortLoop cmp (l.length + 1) 0 l

/-! ## Lemmas -/

/-- The merge of two complete runs. -/
def mrg (cmp : α → α → Int) : List α → List α → List α
  | [], r => r
  | l, [] => l
  | l :: ls, r :: rs => if cmp l r < 0 then l :: mrg cmp ls (r :: rs) else r :: mrg cmp (l :: ls) rs
termination_by a b => a.length + b.length

theorem mrg_nil_right (cmp : α → α → Int) (l : List α) : mrg cmp l [] = l := by
  cases l <;> simp [mrg]

theorem mergeRun_eq (cmp : α → α → Int) (left : List α) (rs : Nat) (right out : List α) :
    mergeRun cmp left rs right out = (out ++ mrg cmp left (right.take rs), right.drop rs) := by
  fun_induction mergeRun cmp left rs right out with
  | case1 => simp [mrg]
  | case2 => simp [mrg]
  | case3 out rs r right ih => rw [ih]; simp [mrg]
  | case4 right out l left ih => rw [ih]; simp [mrg_nil_right]
  | case5 out l left rs ih => rw [ih]; simp [mrg_nil_right]
  | case6 out l left rs r right h ih => rw [ih]; simp [mrg, h]
  | case7 out l left rs r right h ih => rw [ih]; simp [mrg, h]

/-- One pass with runs of length `k`, in closed form. -/
def passText (cmp : α → α → Int) (k : Nat) (h : 0 < k) (l : List α) : List α :=
  match l with
  | [] => []
  | x :: xs => mrg cmp ((x :: xs).take k) (((x :: xs).drop k).take k) ++ passText cmp k h ((x :: xs).drop (k + k))
termination_by l.length
decreasing_by simp; omega

theorem pass_eq (cmp : α → α → Int) (n fuel : Nat) (l out : List α) (m : Nat) (h : l.length ≤ fuel) :
    pass cmp n fuel l out m =
      (out ++ passText cmp (n + 1) (Nat.succ_pos n) l, m + (l.length + 2 * n + 1) / (2 * n + 2)) := by
  induction fuel generalizing l out m with
  | zero =>
    have : l = [] := List.length_eq_zero_iff.mp (by omega)
    subst this
    simp [pass, passText]
  | succ fuel ih =>
    match l with
    | [] => simp [pass, passText]
    | x :: xs =>
      rw [pass, mergeRun_eq]
      · simp only
        rw [ih _ _ _ (by simp at h ⊢; omega), passText]
        simp only [List.append_assoc, List.drop_drop, Prod.mk.injEq, List.length_drop, true_and]
        have hp : 0 < (x :: xs).length := by simp
        generalize (x :: xs).length = L at h hp ⊢
        by_cases hL : L ≤ 2 * n + 2
        · rw [show L - (n + 1 + (n + 1)) + 2 * n + 1 = 2 * n + 1 by omega, Nat.div_eq_of_lt (by omega),
            Nat.div_eq_of_lt_le (k := 1) (by omega) (by omega)]
        · rw [show L + 2 * n + 1 = (L - (n + 1 + (n + 1)) + 2 * n + 1) + (2 * n + 2) by omega,
            Nat.add_div_right _ (by omega)]
          omega
      · simp

end Mtev.Sort
