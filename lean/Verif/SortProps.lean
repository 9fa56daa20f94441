import Verif.Sort

/-! # Properties C12, C45: linked list merge sort -/

namespace Mtev.Sort

variable {α : Type}

/-! ## Specification -/

/-- A comparator in the style of `qsort` whose sign describes a total preorder: `cmp a b < 0` exactly
when `a` is strictly before `b`, the order is transitive, and any two elements are comparable. -/
structure Consistent (cmp : α → α → Int) (le : α → α → Prop) : Prop where
  lt_iff : ∀ a b, cmp a b < 0 ↔ ¬ le b a
  total : ∀ a b, le a b ∨ le b a
  trans : ∀ a b c, le a b → le b c → le a c

/-- In comparator order. -/
def Ordered (le : α → α → Prop) (l : List α) : Prop := l.Pairwise le

/-! ## Proof -/

/-- What one run of the current list is, relative to the same stretch of the original list. -/
structure Good (le : α → α → Prop) [DecidableRel le] (c o : List α) : Prop where
  ordered : Ordered le c
  perm : c.Perm o
  rev : ∀ a, c.filter (fun x => decide (le a x ∧ le x a)) = (o.filter (fun x => decide (le a x ∧ le x a))).reverse

theorem mrg_perm (cmp : α → α → Int) (l r : List α) : (mrg cmp l r).Perm (l ++ r) := by
  fun_induction mrg cmp l r with
  | case1 => simp
  | case2 l => simp
  | case3 l ls r rs h ih => simpa using ih
  | case4 l ls r rs h ih =>
    have := ih.cons r
    exact this.trans (List.perm_middle.symm)

theorem mrg_ordered {cmp : α → α → Int} {le : α → α → Prop} (hc : Consistent cmp le) (l r : List α)
    (hl : Ordered le l) (hr : Ordered le r) : Ordered le (mrg cmp l r) := by
  fun_induction mrg cmp l r with
  | case1 => exact hr
  | case2 l => exact hl
  | case3 l ls r rs h ih =>
    unfold Ordered at *
    rw [List.pairwise_cons] at hl ⊢
    refine ⟨?_, ih hl.2 hr⟩
    intro x hx
    have := (mrg_perm cmp ls (r :: rs)).mem_iff.mp hx
    rw [List.mem_append, List.mem_cons] at this
    have hlr : le l r := (hc.total l r).resolve_right ((hc.lt_iff l r).mp h)
    rcases this with h1 | h1 | h1
    · exact hl.1 x h1
    · rw [h1]; exact hlr
    · exact hc.trans _ _ _ hlr ((List.pairwise_cons.mp hr).1 x h1)
  | case4 l ls r rs h ih =>
    unfold Ordered at *
    have hrl : le r l := by
      by_contra hn
      exact h ((hc.lt_iff l r).mpr hn)
    rw [List.pairwise_cons] at hr ⊢
    refine ⟨?_, ih hl hr.2⟩
    intro x hx
    have := (mrg_perm cmp (l :: ls) rs).mem_iff.mp hx
    rw [List.mem_append, List.mem_cons] at this
    rcases this with (h1 | h1) | h1
    · rw [h1]; exact hrl
    · exact hc.trans _ _ _ hrl ((List.pairwise_cons.mp hl).1 x h1)
    · exact hr.1 x h1

theorem mrg_filter {cmp : α → α → Int} {le : α → α → Prop} [DecidableRel le] (hc : Consistent cmp le) (l r : List α)
    (hl : Ordered le l) (hr : Ordered le r) (a : α) :
    (mrg cmp l r).filter (fun x => decide (le a x ∧ le x a)) =
      r.filter (fun x => decide (le a x ∧ le x a)) ++ l.filter (fun x => decide (le a x ∧ le x a)) := by
  fun_induction mrg cmp l r with
  | case1 => simp
  | case2 l => simp
  | case3 l ls r rs h ih =>
    unfold Ordered at *
    have hlr : ¬ le r l := (hc.lt_iff l r).mp h
    rw [List.filter_cons, ih (List.pairwise_cons.mp hl).2 hr]
    by_cases hq : le a l ∧ le l a
    · have hnil : (r :: rs).filter (fun x => decide (le a x ∧ le x a)) = [] := by
        rw [List.filter_eq_nil_iff]
        intro x hx
        simp only [decide_eq_true_eq]
        intro hxa
        have hrx : le r x := by
          rcases List.mem_cons.mp hx with h1 | h1
          · rw [h1]; exact (hc.total r r).elim id id
          · exact (List.pairwise_cons.mp hr).1 x h1
        exact hlr (hc.trans _ _ _ hrx (hc.trans _ _ _ hxa.2 hq.1))
      rw [hnil, List.filter_cons_of_pos (a := l) (by simpa using hq)]
      simp only [hq, and_self, decide_true, if_true, List.nil_append]
    · rw [List.filter_cons_of_neg (a := l) (by simpa using hq)]
      simp [hq]
  | case4 l ls r rs h ih =>
    unfold Ordered at *
    rw [List.filter_cons, ih hl (List.pairwise_cons.mp hr).2]
    conv_rhs => rw [List.filter_cons]
    split <;> simp

theorem Good.mrg {cmp : α → α → Int} {le : α → α → Prop} [DecidableRel le] (hc : Consistent cmp le)
    {c o c' o' : List α} (h : Good le c o) (h' : Good le c' o') : Good le (mrg cmp c c') (o ++ o') where
  ordered := mrg_ordered hc _ _ h.ordered h'.ordered
  perm := (mrg_perm cmp c c').trans (h.perm.append h'.perm)
  rev a := by rw [mrg_filter hc _ _ h.ordered h'.ordered, h.rev, h'.rev]; simp

/-- The current list is made of runs of length `k` (the last may be shorter), each `Good`. -/
inductive Runs (le : α → α → Prop) [DecidableRel le] (k : Nat) : List α → List α → Prop
  | nil : Runs le k [] []
  | last {c o : List α} : Good le c o → 0 < c.length → c.length ≤ k → Runs le k c o
  | cons {c o r ro : List α} : Good le c o → c.length = k → Runs le k r ro → Runs le k (c ++ r) (o ++ ro)

theorem passText_nil (cmp : α → α → Int) (k : Nat) (h : 0 < k) : passText cmp k h [] = [] := by rw [passText]

theorem passText_cons (cmp : α → α → Int) (k : Nat) (h : 0 < k) (l : List α) :
    passText cmp k h l = mrg cmp (l.take k) ((l.drop k).take k) ++ passText cmp k h (l.drop (k + k)) := by
  cases l with
  | nil => simp [passText_nil, mrg]
  | cons x xs => rw [passText]

theorem Good.nil {le : α → α → Prop} [DecidableRel le] : Good le ([] : List α) [] where
  ordered := List.Pairwise.nil
  perm := List.Perm.nil
  rev _ := rfl

theorem Runs.pass {cmp : α → α → Int} {le : α → α → Prop} [DecidableRel le] (hc : Consistent cmp le) (k : Nat) (hk : 0 < k)
    (n : Nat) (l o : List α) (hn : l.length ≤ n) (h : Runs le k l o) : Runs le (2 * k) (passText cmp k hk l) o := by
  induction n generalizing l o with
  | zero =>
    have hl : l = [] := List.length_eq_zero_iff.mp (by omega)
    subst hl
    generalize hz : ([] : List α) = z at h
    cases h with
    | nil => rw [passText_nil]; exact .nil
    | last g hp _ => rw [← hz] at hp; simp at hp
    | cons g hl _ =>
      rename_i c o r ro _
      have : c.length + r.length = 0 := by rw [← List.length_append, ← hz]; rfl
      omega
  | succ n ih =>
    cases h with
    | nil => rw [passText_nil]; exact .nil
    | last g hp hle =>
      rw [passText_cons, List.take_of_length_le hle, List.drop_of_length_le hle, List.drop_of_length_le (by omega), passText_nil]
      simp only [List.take_nil, mrg_nil_right, List.append_nil]
      exact .last g hp (by omega)
    | cons g hl hr =>
      rename_i c o r ro
      subst hl
      rw [passText_cons, List.take_left, List.drop_left]
      have hd : (c ++ r).drop (c.length + c.length) = r.drop c.length := by rw [← List.drop_drop, List.drop_left]
      rw [hd]
      cases hr with
      | nil =>
        simp only [List.take_nil, List.drop_nil, passText_nil, List.append_nil, mrg_nil_right]
        exact .last g (by omega) (by omega)
      | last g' hp' hle' =>
        rw [List.take_of_length_le (by omega), List.drop_of_length_le (by omega), passText_nil, List.append_nil]
        have gg := g.mrg hc g'
        have e := (mrg_perm cmp c r).length_eq
        rw [List.length_append] at e
        exact .last gg (by omega) (by omega)
      | cons g' hl' hr' =>
        rename_i c' o' r' ro'
        rw [show (c' ++ r').take c.length = c' by rw [← hl', List.take_left],
          show (c' ++ r').drop c.length = r' by rw [← hl', List.drop_left], ← List.append_assoc o o' ro']
        have gg := g.mrg hc g'
        have e := (mrg_perm cmp c c').length_eq
        rw [List.length_append] at e
        refine .cons gg (by omega) ?_
        exact ih r' ro' (by simp at hn; omega) hr'

theorem Runs.length {le : α → α → Prop} [DecidableRel le] {k : Nat} {l o : List α} (h : Runs le k l o) : l.length = o.length := by
  induction h with
  | nil => rfl
  | last g _ _ => exact g.perm.length_eq
  | cons g _ _ ih => simp [g.perm.length_eq, ih]

theorem Runs.single {le : α → α → Prop} [DecidableRel le] {k : Nat} (hk : 0 < k) {l o : List α} (h : Runs le k l o)
    (hl : l.length ≤ k) : Good le l o := by
  cases h with
  | nil => exact Good.nil
  | last g _ _ => exact g
  | cons g hc hr =>
    rename_i c o r ro
    have hr0 : r = [] := List.length_eq_zero_iff.mp (by simp at hl; omega)
    have := hr.length
    subst hr0
    have : ro = [] := List.length_eq_zero_iff.mp (by simpa using this.symm)
    subst this
    simpa using g

theorem sortLoop_good {cmp : α → α → Int} {le : α → α → Prop} [DecidableRel le] (hc : Consistent cmp le)
    (fuel n : Nat) (l o : List α) (h : Runs le (n + 1) l o) (hf : l.length < n + 1 + fuel) :
    Good le (sortLoop cmp fuel n l) o := by
  induction fuel generalizing n l with
  | zero => exact h.single (by omega) (by omega)
  | succ fuel ih =>
    rw [sortLoop, pass_eq _ _ _ _ _ _ (by omega)]
    simp only [List.nil_append, Nat.zero_add]
    have h' := h.pass hc (n + 1) (by omega) l.length l o (Nat.le_refl _)
    have e := h'.length
    have e' := h.length
    split
    · exact ih (2 * n + 1) _ (by rw [show 2 * n + 1 + 1 = 2 * (n + 1) by omega]; exact h') (by omega)
    · rename_i hm
      refine h'.single (by omega) ?_
      by_contra hlt
      apply hm
      have : 2 ≤ (l.length + 2 * n + 1) / (2 * n + 2) := by
        rw [Nat.le_div_iff_mul_le (by omega)]; omega
      omega

theorem Runs.start {le : α → α → Prop} [DecidableRel le] (htot : ∀ a b, le a b ∨ le b a) (l : List α) : Runs le 1 l l := by
  induction l with
  | nil => exact .nil
  | cons x xs ih =>
    have g : Good le [x] [x] := by
      refine ⟨List.pairwise_singleton _ _, List.Perm.refl _, ?_⟩
      intro a
      rw [List.filter_cons]
      split <;> simp
    exact .cons g rfl ih

theorem sort_good {cmp : α → α → Int} {le : α → α → Prop} [DecidableRel le] (hc : Consistent cmp le) (l : List α) :
    Good le (sort cmp l) l := by
  match l with
  | [] => exact Good.nil
  | [x] =>
    have := Runs.start hc.total [x]
    exact this.single (by omega) (by simp)
  | x :: y :: r =>
    rw [sort]
    · exact sortLoop_good hc _ 0 _ _ (Runs.start hc.total _) (by omega)
    · simp
    · simp

/-! ## Theorems -/

/-- The result is in comparator order and is a permutation of the nodes given, for every list and
every consistent comparator. -/
theorem C12_merge_sort_sorts {cmp : α → α → Int} {le : α → α → Prop} (hc : Consistent cmp le) (l : List α) :
    Ordered le (sort cmp l) ∧ (sort cmp l).Perm l := by
  classical
  have := sort_good hc l
  exact ⟨this.ordered, this.perm⟩

/-- The nodes survive even if the comparator is inconsistent (not an order at all): the result is
always a permutation of the input. -/
theorem C12_merge_sort_perm (cmp : α → α → Int) (l : List α) : (sort cmp l).Perm l := by
  have hp : ∀ (k : Nat) (hk : 0 < k) (n : Nat) (l : List α), l.length ≤ n → (passText cmp k hk l).Perm l := by
    intro k hk n
    induction n with
    | zero =>
      intro l hl
      have : l = [] := List.length_eq_zero_iff.mp (by omega)
      subst this; rw [passText_nil]
    | succ n ih =>
      intro l hl
      by_cases h0 : l = []
      · subst h0; rw [passText_nil]
      have hpos := List.length_pos_iff.mpr h0
      rw [passText_cons]
      have h1 := mrg_perm cmp (l.take k) ((l.drop k).take k)
      have h2 := ih (l.drop (k + k)) (by simp; omega)
      have h3 := h1.append h2
      rw [← List.drop_drop, List.append_assoc, List.take_append_drop, List.take_append_drop, List.drop_drop] at h3
      exact h3
  have hs : ∀ fuel n (l : List α), (sortLoop cmp fuel n l).Perm l := by
    intro fuel
    induction fuel with
    | zero => intro n l; exact List.Perm.refl _
    | succ fuel ih =>
      intro n l
      rw [sortLoop, pass_eq _ _ _ _ _ _ (by omega)]
      simp only [List.nil_append]
      have := hp (n + 1) (by omega) l.length l (Nat.le_refl _)
      split
      · exact (ih _ _).trans this
      · exact this
  match l with
  | [] => exact List.Perm.refl _
  | [x] => exact List.Perm.refl _
  | x :: y :: r =>
    rw [sort]
    · exact hs _ _ _
    · simp
    · simp

/-- Nodes that compare equal come out in exactly the reverse of the order they went in, which with
`C12_merge_sort_sorts` determines the result completely.  (What holds instead of stability.) -/
theorem C45_merge_sort_reverses_ties_partial {cmp : α → α → Int} {le : α → α → Prop} [DecidableRel le] (hc : Consistent cmp le)
    (l : List α) (a : α) :
    (sort cmp l).filter (fun x => decide (le a x ∧ le x a)) =
      (l.filter (fun x => decide (le a x ∧ le x a))).reverse := (sort_good hc l).rev a

/-- The source comment calls the sort stable; it is not.  Witness: two records with the same key are
swapped. -/
theorem C45_merge_sort_stable_violated :
    ∃ (cmp : Nat × Nat → Nat × Nat → Int) (le : Nat × Nat → Nat × Nat → Prop) (l : List (Nat × Nat)),
      Consistent cmp le ∧ Ordered le l ∧ sort cmp l ≠ l := by
  refine ⟨fun a b => (a.1 : Int) - b.1, fun a b => a.1 ≤ b.1, [(1, 0), (1, 1)], ⟨?_, ?_, ?_⟩, ?_, ?_⟩
  · intro a b; show (a.1 : Int) - b.1 < 0 ↔ ¬ b.1 ≤ a.1; omega
  · intro a b; show a.1 ≤ b.1 ∨ b.1 ≤ a.1; omega
  · intro a b c; show a.1 ≤ b.1 → b.1 ≤ c.1 → a.1 ≤ c.1; omega
  · unfold Ordered; simp
  · simp [sort, sortLoop, pass, mergeRun]

example : Consistent (fun a b : Int => a - b) (· ≤ ·) :=
  ⟨by intro a b; omega, by intro a b; omega, by intro a b c; omega⟩

example : sort (fun a b : Int => a - b) [5, 3, 9, 3, 1, 7, 2] = [1, 2, 3, 3, 5, 7, 9] := by
  simp [sort, sortLoop, pass, mergeRun]

end Mtev.Sort
