import Verif.Arena
import Verif.Log2Props

/-!
C26: the memory behind interned strings.

The specification speaks about bytes: `cover l x` is the number of pieces of `l` that contain the byte at
address `x`.
-/

namespace Mtev.Arena

open Mtev.Log2

/-- The byte at address `x` belongs to the piece. -/
def Frag.Has (f : Frag) (x : Nat) : Prop := f.base ≤ x ∧ x < f.base + f.size

instance (f : Frag) (x : Nat) : Decidable (f.Has x) := by unfold Frag.Has; infer_instance

/-- How many pieces contain the byte at address `x`. -/
def cover : List Frag → Nat → Nat
  | [], _ => 0
  | f :: r, x => (if f.Has x then 1 else 0) + cover r x

/-- Two pieces have no byte in common. -/
def Apart (a b : Frag) : Prop := ∀ x, ¬ (a.Has x ∧ b.Has x)

/-- The free memory of the pool. -/
def free (s : A) : List Frag := s.staged ++ s.slots.flatten

/-- All pieces: what is allocated, what waits to be reused, and what is free. -/
def pieces (s : A) : List Frag := s.live ++ free s

/-- The sizes of pieces added up. -/
def total : List Frag → Nat
  | [] => 0
  | f :: r => f.size + total r

/-! ### Additive weights -/

/-- A weight of pieces that adds up when a piece is cut. -/
def Additive (w : Frag → Nat) : Prop := ∀ b s t, w ⟨b, s + t⟩ = w ⟨b, s⟩ + w ⟨b + s, t⟩

def wsum (w : Frag → Nat) : List Frag → Nat
  | [] => 0
  | f :: r => w f + wsum w r

theorem wsum_append (w : Frag → Nat) (l m : List Frag) : wsum w (l ++ m) = wsum w l + wsum w m := by
  induction l with
  | nil => simp [wsum]
  | cons a l ih => simp only [List.cons_append, wsum, ih]; omega

theorem wsum_perm {w : Frag → Nat} {l m : List Frag} (h : l.Perm m) : wsum w l = wsum w m := by
  induction h with
  | nil => rfl
  | cons x _ ih => simp only [wsum, ih]
  | swap x y l => simp only [wsum]; omega
  | trans _ _ h1 h2 => exact h1.trans h2

theorem cover_eq (l : List Frag) (x : Nat) : cover l x = wsum (fun f => if f.Has x then 1 else 0) l := by
  induction l with
  | nil => rfl
  | cons a l ih => simp only [cover, wsum, ih]

theorem total_eq (l : List Frag) : total l = wsum Frag.size l := by
  induction l with
  | nil => rfl
  | cons a l ih => simp only [total, wsum, ih]

theorem add_has (x : Nat) : Additive (fun f => if f.Has x then 1 else 0) := by
  intro b s t
  have h1 : (⟨b, s + t⟩ : Frag).Has x ↔ b ≤ x ∧ x < b + (s + t) := Iff.rfl
  have h2 : (⟨b, s⟩ : Frag).Has x ↔ b ≤ x ∧ x < b + s := Iff.rfl
  have h3 : (⟨b + s, t⟩ : Frag).Has x ↔ b + s ≤ x ∧ x < b + s + t := Iff.rfl
  by_cases k1 : (⟨b, s + t⟩ : Frag).Has x <;> by_cases k2 : (⟨b, s⟩ : Frag).Has x <;>
    by_cases k3 : (⟨b + s, t⟩ : Frag).Has x <;> simp only [k1, k2, k3, if_true, if_false] <;>
    rw [h1] at k1 <;> rw [h2] at k2 <;> rw [h3] at k3 <;> omega

theorem add_size : Additive Frag.size := fun _ _ _ => rfl

theorem add_cut {w : Frag → Nat} (hw : Additive w) (b s t : Nat) (h : t ≤ s) :
    w ⟨b, s - t⟩ + w ⟨b + s - t, t⟩ = w ⟨b, s⟩ := by
  have := hw b (s - t) t
  rw [show s - t + t = s by omega, show b + (s - t) = b + s - t by omega] at this
  exact this.symm

theorem add_zero {w : Frag → Nat} (hw : Additive w) (b : Nat) : w ⟨b, 0⟩ = 0 := by
  have := hw b 0 0
  simp only [Nat.add_zero] at this
  omega

/-! ### The levels -/

theorem level_ok {n sz i : Nat} (h : level n sz = .ok i) : i < n ∧ 2 ^ (i + 2) ≤ sz ∧ 4 ≤ sz % 2 ^ 32 := by
  unfold level at h
  simp only at h
  by_cases h0 : sz % 2 ^ 32 = 0
  · rw [h0] at h
    have : log2rd 0 = 0 := C27_edges.1
    rw [this] at h
    simp at h
  · obtain ⟨h1, _⟩ := C27_round_down (sz % 2 ^ 32) (by omega) (Nat.mod_lt _ (by norm_num))
    have hm := Nat.mod_le sz (2 ^ 32)
    generalize log2rd (sz % 2 ^ 32) = k at h h1
    generalize hz : sz % 2 ^ 32 = z at h1 hm
    split at h
    · cases h
    · rename_i hk
      have h4 : 2 ^ 2 ≤ 2 ^ k := Nat.pow_le_pow_right (by omega) (by omega)
      split at h
      · split at h
        · cases h
        · injection h with h
          have : 2 ^ (i + 2) ≤ 2 ^ k := Nat.pow_le_pow_right (by omega) (by omega)
          refine ⟨by omega, by omega, by omega⟩
      · injection h with h
        have : i + 2 = k := by omega
        rw [this]
        exact ⟨by omega, by omega, by omega⟩

theorem level_some {n sz : Nat} (hn : 0 < n) (h : 4 ≤ sz) (h2 : sz < 2 ^ 32) : ∃ i, level n sz = .ok i := by
  unfold level
  simp only
  rw [Nat.mod_eq_of_lt h2]
  obtain ⟨_, h3⟩ := C27_round_down sz (by omega) h2
  generalize log2rd sz = k at h3
  have hk : ¬ k < 2 := by
    intro hk
    have : 2 ^ (k + 1) ≤ 2 ^ 2 := Nat.pow_le_pow_right (by omega) (by omega)
    omega
  rw [if_neg hk]
  split
  · rw [if_neg (by omega)]; exact ⟨_, rfl⟩
  · exact ⟨_, rfl⟩

theorem flatten_modify (w : Frag → Nat) (f : Frag) : ∀ (i : Nat) (l : List (List Frag)), i < l.length →
    wsum w (pushAt i f l).flatten = w f + wsum w l.flatten
  | _, [], h => by simp at h
  | 0, a :: l, _ => by simp [pushAt, wsum]
  | i + 1, a :: l, h => by
    have := flatten_modify w f i l (by simpa using h)
    simp only [pushAt, List.modify_succ_cons, List.flatten_cons, wsum_append] at this ⊢
    rw [this]; omega

theorem flatten_set (w : Frag → Nat) (m : List Frag) : ∀ (i : Nat) (l : List (List Frag)) (a : List Frag),
    l[i]? = some a → wsum w (l.set i m).flatten + wsum w a = wsum w m + wsum w l.flatten
  | _, [], a, h => by simp at h
  | 0, b :: l, a, h => by
    simp only [List.getElem?_cons_zero, Option.some.injEq] at h
    subst h
    simp only [List.set_cons_zero, List.flatten_cons, wsum_append]; omega
  | i + 1, b :: l, a, h => by
    simp only [List.getElem?_cons_succ] at h
    have := flatten_set w m i l a h
    simp only [List.set_cons_succ, List.flatten_cons, wsum_append]; omega

/-- Sizes of the fragments in a level. -/
def Lv (l : List (List Frag)) : Prop := ∀ i fs, l[i]? = some fs → ∀ f ∈ fs, lsize i ≤ f.size

theorem lv_push {l : List (List Frag)} {i : Nat} {f : Frag} (h : Lv l) (hf : lsize i ≤ f.size) :
    Lv (pushAt i f l) := by
  intro j fs hj g hg
  unfold pushAt at hj
  rw [List.getElem?_modify] at hj
  by_cases hij : i = j
  · subst hij
    simp only [if_true] at hj
    cases hl : l[i]? with
    | none => rw [hl] at hj; simp at hj
    | some m =>
      rw [hl] at hj
      simp only [Option.map_eq_map, Option.map_some, Option.some.injEq] at hj
      subst hj
      rcases List.mem_cons.1 hg with h1 | h1
      · exact h1 ▸ hf
      · exact h i m hl g h1
  · simp only [hij, if_false] at hj
    cases hl : l[j]? with
    | none => rw [hl] at hj; simp at hj
    | some m =>
      rw [hl] at hj
      simp only [Option.map_eq_map, Option.map_some, Option.some.injEq, id] at hj
      subst hj
      exact h j _ hl g hg

theorem lv_set {l : List (List Frag)} {i : Nat} {m : List Frag} (h : Lv l) (hm : ∀ f ∈ m, lsize i ≤ f.size) :
    Lv (l.set i m) := by
  intro j fs hj g hg
  rw [List.getElem?_set] at hj
  by_cases hij : i = j
  · subst hij
    rw [if_pos rfl] at hj
    split at hj
    · injection hj with hj; subst hj; exact hm g hg
    · cases hj
  · rw [if_neg hij] at hj
    exact h j fs hj g hg

theorem lv_empty (l : List (List Frag)) : Lv (l.map (fun _ => [])) := by
  intro j fs hj g hg
  rw [List.getElem?_map] at hj
  cases hl : l[j]? with
  | none => rw [hl] at hj; simp at hj
  | some m => rw [hl] at hj; simp at hj; subst hj; simp at hg

/-! ### What the functions keep -/

/-- The two states have the same pieces as far as weights see, and every piece is a multiple of `m`. -/
structure Keep (s t : A) : Prop where
  ext : t.ext = s.ext
  len : t.slots.length = s.slots.length
  lv : Lv s.slots → Lv t.slots

theorem Keep.refl (s : A) : Keep s s := ⟨rfl, rfl, id⟩
theorem Keep.trans {s t u : A} (h : Keep s t) (k : Keep t u) : Keep s u :=
  ⟨k.ext.trans h.ext, k.len.trans h.len, k.lv ∘ h.lv⟩

theorem replace_spec {f : Frag} {s t : A} (h : replace f s = .ok t) :
    Keep s t ∧ t.staged = s.staged ∧ t.extents = s.extents ∧ t.live = s.live ∧
    (∀ w, wsum w t.slots.flatten = w f + wsum w s.slots.flatten) := by
  unfold replace at h
  cases hl : level s.slots.length f.size with
  | ub => rw [hl] at h; cases h
  | abort => rw [hl] at h; cases h
  | ok i =>
    rw [hl, Out.ok_bind] at h
    injection h with h
    subst h
    obtain ⟨h1, h2, _⟩ := level_ok hl
    refine ⟨⟨rfl, by simp [pushAt], fun hv => lv_push hv h2⟩, rfl, rfl, rfl, fun w => flatten_modify w f i _ h1⟩

theorem mem_pushAt {i : Nat} {f g : Frag} {l : List (List Frag)} (h : g ∈ (pushAt i f l).flatten) :
    g = f ∨ g ∈ l.flatten := by
  induction l generalizing i with
  | nil => simp [pushAt] at h
  | cons a l ih =>
    cases i with
    | zero =>
      simp only [pushAt, List.modify_zero_cons, List.flatten_cons, List.cons_append, List.mem_cons] at h ⊢
      exact h
    | succ i =>
      simp only [pushAt, List.modify_succ_cons, List.flatten_cons, List.mem_append] at h ⊢
      rcases h with h | h
      · exact Or.inr (Or.inl h)
      · rcases ih h with h | h
        · exact Or.inl h
        · exact Or.inr (Or.inr h)

theorem replace_mem {f : Frag} {s t : A} (h : replace f s = .ok t) (g : Frag) (hg : g ∈ t.slots.flatten) :
    g = f ∨ g ∈ s.slots.flatten := by
  unfold replace at h
  cases hl : level s.slots.length f.size with
  | ub => rw [hl] at h; cases h
  | abort => rw [hl] at h; cases h
  | ok i =>
    rw [hl, Out.ok_bind] at h
    injection h with h
    subst h
    exact mem_pushAt hg

theorem mem_flatten_set {i : Nat} {m : List Frag} {g : Frag} {l : List (List Frag)} (h : g ∈ (l.set i m).flatten) :
    g ∈ m ∨ g ∈ l.flatten := by
  rw [List.mem_flatten] at h ⊢
  obtain ⟨b, hb, hg⟩ := h
  rcases List.mem_or_eq_of_mem_set hb with h1 | h1
  · exact Or.inr ⟨b, h1, hg⟩
  · exact Or.inl (h1 ▸ hg)

theorem mem_flatten_get {i : Nat} {m : List Frag} {l : List (List Frag)} (h : l[i]? = some m) {g : Frag}
    (hg : g ∈ m) : g ∈ l.flatten := List.mem_flatten.2 ⟨m, List.mem_of_getElem? h, hg⟩

/-- All pieces are multiples of four, and none is empty. -/
def Quad (s : A) : Prop := ∀ f ∈ pieces s, f.size % 4 = 0 ∧ 0 < f.size

/-- The effect of an allocation of `len` bytes. -/
structure Took (len : Nat) (s t : A) (a : Nat) : Prop where
  keep : Keep s t
  staged : t.staged = s.staged
  extents : t.extents = s.extents
  live : t.live = ⟨a, len⟩ :: s.live
  sum : ∀ w, Additive w → wsum w t.slots.flatten + w ⟨a, len⟩ = wsum w s.slots.flatten
  quad : Quad s → Quad t

theorem borrow_spec {i len : Nat} {s t : A} {r : Option Nat} (h : borrow i len s = .ok (t, r)) :
    match r with
    | none => t = s ∧ s.slots[i]? = some []
    | some a => Took len s t a := by
  unfold borrow at h
  split at h
  · cases h
  · rename_i he
    injection h with h; injection h with h1 h2; subst h1; subst h2; exact ⟨rfl, he⟩
  · rename_i n rr he
    split at h
    · cases h
    split at h
    · cases h
    rename_i hsz hlen
    split at h
    · cases h
    rename_i hmod
    simp only at h
    have hq : Quad s → n.size % 4 = 0 := fun q =>
      (q n (by simp only [pieces, free, List.mem_append]; exact Or.inr (Or.inr (mem_flatten_get he (by simp))))).1
    split at h
    · rename_i hbig
      injection h with h; injection h with h1 h2; subst h1; subst h2
      refine ⟨⟨rfl, by simp, fun hv => lv_set hv ?_⟩, rfl, rfl, rfl, fun w hw => ?_, fun q f hf => ?_⟩
      · intro f hf
        rcases List.mem_cons.1 hf with h1 | h1
        · rw [h1]; show lsize i ≤ n.size - len; omega
        · exact hv i _ he f (List.mem_cons_of_mem _ h1)
      · have := flatten_set w (⟨n.base, n.size - len⟩ :: rr) i s.slots _ he
        have hc := add_cut hw n.base n.size len (by omega)
        simp only [wsum] at this
        have hn : w ⟨n.base, n.size⟩ = w n := rfl
        show wsum w (s.slots.set i (⟨n.base, n.size - len⟩ :: rr)).flatten + w ⟨n.base + n.size - len, len⟩ = _
        omega
      · have h4 := hq q
        simp only [pieces, free, List.mem_append, List.mem_cons] at hf
        rcases hf with (hf | hf) | hf | hf
        · subst hf; show len % 4 = 0 ∧ 0 < len; omega
        · exact q f (by simp only [pieces, List.mem_append]; exact Or.inl hf)
        · exact q f (by simp only [pieces, free, List.mem_append]; exact Or.inr (Or.inl hf))
        · rcases mem_flatten_set hf with hf | hf
          · rcases List.mem_cons.1 hf with hf | hf
            · subst hf
              have : 0 < lsize i := by unfold lsize; positivity
              show (n.size - len) % 4 = 0 ∧ 0 < n.size - len; omega
            · exact q f (by simp only [pieces, free, List.mem_append]; exact Or.inr (Or.inr (mem_flatten_get he (by simp [hf]))))
          · exact q f (by simp only [pieces, free, List.mem_append]; exact Or.inr (Or.inr hf))
    split at h
    · cases h
    rename_i hns hge
    have hlvr : Lv s.slots → Lv (s.slots.set i rr) := fun hv => lv_set hv fun f hf => hv i _ he f (by simp [hf])
    have hset : ∀ w, wsum w (s.slots.set i rr).flatten + w n = wsum w s.slots.flatten := by
      intro w
      have := flatten_set w rr i s.slots _ he
      simp only [wsum] at this
      omega
    split at h
    · rename_i heq
      injection h with h; injection h with h1 h2; subst h1; subst h2
      refine ⟨⟨rfl, by simp, hlvr⟩, rfl, rfl, rfl, fun w hw => ?_, fun q f hf => ?_⟩
      · have := hset w
        have hc := add_cut hw n.base n.size len (by omega)
        rw [show n.size - len = 0 by omega, add_zero hw] at hc
        have hn : w ⟨n.base, n.size⟩ = w n := rfl
        show wsum w (s.slots.set i rr).flatten + w ⟨n.base + n.size - len, len⟩ = _
        omega
      · simp only [pieces, free, List.mem_append, List.mem_cons] at hf
        rcases hf with (hf | hf) | hf | hf
        · subst hf; show len % 4 = 0 ∧ 0 < len; omega
        · exact q f (by simp only [pieces, List.mem_append]; exact Or.inl hf)
        · exact q f (by simp only [pieces, free, List.mem_append]; exact Or.inr (Or.inl hf))
        · rcases mem_flatten_set hf with hf | hf
          · exact q f (by simp only [pieces, free, List.mem_append]; exact Or.inr (Or.inr (mem_flatten_get he (by simp [hf]))))
          · exact q f (by simp only [pieces, free, List.mem_append]; exact Or.inr (Or.inr hf))
    · rename_i hne
      cases hr : replace ⟨n.base, n.size - len⟩ { s with slots := s.slots.set i rr, live := ⟨n.base + n.size - len, len⟩ :: s.live } with
      | ub => rw [hr] at h; cases h
      | abort => rw [hr] at h; cases h
      | ok u =>
        rw [hr, Out.ok_bind] at h
        injection h with h; injection h with h1 h2; subst h1; subst h2
        obtain ⟨k, k1, k2, k3, k4⟩ := replace_spec hr
        refine ⟨⟨k.ext, by rw [k.len]; simp, fun hv => k.lv (hlvr hv)⟩, k1, k2, k3, fun w hw => ?_, fun q f hf => ?_⟩
        · rw [k4 w]
          have := hset w
          have hc := add_cut hw n.base n.size len (by omega)
          have hn : w ⟨n.base, n.size⟩ = w n := rfl
          show w ⟨n.base, n.size - len⟩ + wsum w (s.slots.set i rr).flatten + w ⟨n.base + n.size - len, len⟩ = _
          omega
        · have h4 := hq q
          simp only [pieces, free, List.mem_append, k1, k3, List.mem_cons] at hf
          rcases hf with (hf | hf) | hf | hf
          · subst hf; show len % 4 = 0 ∧ 0 < len; omega
          · exact q f (by simp only [pieces, List.mem_append]; exact Or.inl hf)
          · exact q f (by simp only [pieces, free, List.mem_append]; exact Or.inr (Or.inl hf))
          · rcases replace_mem hr f hf with hf | hf
            · subst hf; show (n.size - len) % 4 = 0 ∧ 0 < n.size - len; omega
            · rcases mem_flatten_set hf with hf | hf
              · exact q f (by simp only [pieces, free, List.mem_append]; exact Or.inr (Or.inr (mem_flatten_get he (by simp [hf]))))
              · exact q f (by simp only [pieces, free, List.mem_append]; exact Or.inr (Or.inr hf))

theorem scan_spec {len : Nat} : ∀ {n i : Nat} {s t : A} {r : Option Nat}, scan len n i s = .ok (t, r) →
    match r with
    | none => t = s ∧ ∀ j, i ≤ j → j < i + n → s.slots[j]? = some []
    | some a => Took len s t a
  | 0, i, s, t, r, h => by
    simp only [scan] at h
    injection h with h; injection h with h1 h2; subst h1; subst h2
    exact ⟨rfl, fun j _ _ => by omega⟩
  | n + 1, i, s, t, r, h => by
    simp only [scan] at h
    cases hb : borrow i len s with
    | ub => rw [hb] at h; cases h
    | abort => rw [hb] at h; cases h
    | ok p =>
      obtain ⟨u, q⟩ := p
      rw [hb, Out.ok_bind] at h
      have hs := borrow_spec hb
      cases q with
      | some a =>
        simp only at h
        injection h with h; injection h with h1 h2; subst h1; subst h2
        exact hs
      | none =>
        simp only at h hs
        obtain ⟨hu, hs⟩ := hs
        subst hu
        have ih := scan_spec h
        cases r with
        | some a => exact ih
        | none =>
          obtain ⟨h1, h2⟩ := ih
          refine ⟨h1, fun j hj hj2 => ?_⟩
          by_cases hij : j = i
          · rw [hij]; exact hs
          · exact h2 j (by omega) (by omega)

/-! ### Compaction -/

theorem collapse_sum {w : Frag → Nat} (hw : Additive w) : ∀ (l : List Frag) (a : Frag),
    wsum w (collapse a l) = w a + wsum w l
  | [], a => rfl
  | b :: r, a => by
    simp only [collapse]
    split
    · rename_i h
      rw [collapse_sum hw r]
      have := hw a.base a.size b.size
      rw [h] at this
      rw [this]
      simp only [wsum]
      have h1 : w ⟨a.base, a.size⟩ = w a := rfl
      have h2 : w ⟨b.base, b.size⟩ = w b := rfl
      omega
    · simp only [wsum, collapse_sum hw r]

theorem collapse_quad : ∀ (l : List Frag) (a : Frag), (∀ f ∈ a :: l, f.size % 4 = 0 ∧ 0 < f.size) →
    ∀ f ∈ collapse a l, f.size % 4 = 0 ∧ 0 < f.size
  | [], a, h => by simpa [collapse] using h
  | b :: r, a, h => by
    simp only [collapse]
    have ha := h a (by simp)
    have hb := h b (by simp)
    split
    · refine collapse_quad r _ fun f hf => ?_
      rcases List.mem_cons.1 hf with hf | hf
      · subst hf; show (a.size + b.size) % 4 = 0 ∧ 0 < a.size + b.size; omega
      · exact h f (by simp [hf])
    · intro f hf
      rcases List.mem_cons.1 hf with hf | hf
      · exact hf ▸ ha
      · exact collapse_quad r b (fun f hf => h f (List.mem_cons_of_mem _ hf)) f hf

theorem replaceAll_spec : ∀ {l : List Frag} {s t : A}, replaceAll l s = .ok t →
    Keep s t ∧ t.staged = s.staged ∧ t.extents = s.extents ∧ t.live = s.live ∧
    (∀ w, wsum w t.slots.flatten = wsum w l + wsum w s.slots.flatten) ∧
    (∀ g ∈ t.slots.flatten, g ∈ l ∨ g ∈ s.slots.flatten)
  | [], s, t, h => by
    simp only [replaceAll] at h
    injection h with h; subst h
    exact ⟨Keep.refl _, rfl, rfl, rfl, fun w => by simp [wsum], fun g hg => Or.inr hg⟩
  | f :: l, s, t, h => by
    simp only [replaceAll] at h
    cases hr : replace f s with
    | ub => rw [hr] at h; cases h
    | abort => rw [hr] at h; cases h
    | ok u =>
      rw [hr, Out.ok_bind] at h
      obtain ⟨k, k1, k2, k3, k4⟩ := replace_spec hr
      obtain ⟨m, m1, m2, m3, m4, m5⟩ := replaceAll_spec h
      refine ⟨k.trans m, m1.trans k1, m2.trans k2, m3.trans k3, fun w => ?_, fun g hg => ?_⟩
      · rw [m4, k4]; simp only [wsum]; omega
      · rcases m5 g hg with hg | hg
        · exact Or.inl (List.mem_cons_of_mem _ hg)
        · rcases replace_mem hr g hg with hg | hg
          · exact Or.inl (hg ▸ List.mem_cons_self ..)
          · exact Or.inr hg

theorem flatten_empty (l : List (List Frag)) : (l.map (fun _ => ([] : List Frag))).flatten = [] := by
  induction l with
  | nil => rfl
  | cons a l ih => simp [ih]

/-- The effect of compaction. -/
structure Packed (s t : A) : Prop where
  keep : Keep s t
  staged : t.staged = []
  extents : t.extents = s.extents
  live : t.live = s.live
  sum : ∀ w, Additive w → wsum w (free t) = wsum w (free s)
  quad : Quad s → Quad t

theorem compact_spec {s t : A} (h : compact s = .ok t) : Packed s t := by
  unfold compact at h
  simp only at h
  have hp : (Sort.sort cmp (free s)).Perm (free s) := Sort.C12_merge_sort_perm cmp (free s)
  rw [show s.staged ++ s.slots.flatten = free s from rfl] at h
  have hlen : (s.slots.map (fun _ => ([] : List Frag))).length = s.slots.length := by simp
  cases hs : Sort.sort cmp (free s) with
  | nil =>
    rw [hs] at h hp
    simp only at h
    injection h with h; subst h
    have hf : free s = [] := hp.symm.eq_nil
    refine ⟨⟨rfl, hlen, fun _ => lv_empty _⟩, rfl, rfl, rfl, fun w _ => ?_, fun q f hf' => ?_⟩
    · rw [hf]; simp only [free, flatten_empty]; rfl
    · refine q f ?_
      simp only [pieces, free, flatten_empty, List.append_nil] at hf' ⊢
      exact List.mem_append_left _ hf'
  | cons a r =>
    rw [hs] at h hp
    simp only at h
    obtain ⟨m, m1, m2, m3, m4, m5⟩ := replaceAll_spec h
    refine ⟨⟨m.ext, m.len.trans hlen, fun _ => m.lv (lv_empty _)⟩, m1, m2, m3, fun w hw => ?_, fun q f hf => ?_⟩
    · show wsum w (t.staged ++ t.slots.flatten) = _
      rw [m1, List.nil_append, m4, flatten_empty, collapse_sum hw]
      have := wsum_perm (w := w) hp
      simp only [wsum] at this ⊢
      omega
    · simp only [pieces, free, List.mem_append, m1, m3, List.not_mem_nil, false_or] at hf
      rcases hf with hf | hf
      · exact q f (List.mem_append_left _ hf)
      · rcases m5 f hf with hf | hf
        · refine collapse_quad r a (fun g hg => q g (List.mem_append_right _ (hp.mem_iff.1 hg))) f hf
        · rw [flatten_empty] at hf; simp at hf

/-! ### The search -/

/-- The effect of `mtev_intern_pool_find`: perhaps compaction and new extents, then an allocation. -/
structure Grown (len : Nat) (s t : A) (r : Option Nat) : Prop where
  keep : Keep s t
  live : t.live = (match r with | some a => [⟨a, len⟩] | none => []) ++ s.live
  sum : ∀ w, Additive w → wsum w (pieces s) = wsum w s.extents → wsum w (pieces t) = wsum w t.extents
  quad : s.ext % 4 = 0 → 0 < s.ext → Quad s → Quad t

theorem Took.grown {len a : Nat} {s t : A} (h : Took len s t a) : Grown len s t (some a) := by
  refine ⟨h.keep, by rw [h.live]; rfl, fun w hw hs => ?_, fun _ _ => h.quad⟩
  have := h.sum w hw
  rw [h.extents, ← hs]
  simp only [pieces, free, wsum_append, h.live, h.staged, wsum]
  omega

theorem Packed.grown {len : Nat} {s t : A} (h : Packed s t) : Grown len s t none := by
  refine ⟨h.keep, by rw [h.live]; rfl, fun w hw hs => ?_, fun _ _ => h.quad⟩
  have := h.sum w hw
  rw [h.extents, ← hs]
  simp only [pieces, wsum_append, h.live, this]

theorem Grown.refl (len : Nat) (s : A) : Grown len s s none := ⟨Keep.refl _, rfl, fun _ _ h => h, fun _ _ h => h⟩

theorem Grown.trans {len : Nat} {s t u : A} {r : Option Nat} (h : Grown len s t none) (k : Grown len t u r) :
    Grown len s u r := by
  refine ⟨h.keep.trans k.keep, by rw [k.live, h.live]; rfl, fun w hw hs => k.sum w hw (h.sum w hw hs), fun h4 h0 q => ?_⟩
  exact k.quad (by rw [h.keep.ext]; exact h4) (by rw [h.keep.ext]; exact h0) (h.quad h4 h0 q)

theorem scan_grown {len n i : Nat} {s t : A} {r : Option Nat} (h : scan len n i s = .ok (t, r)) : Grown len s t r := by
  have := scan_spec h
  cases r with
  | some a => exact Took.grown this
  | none => obtain ⟨h1, _⟩ := this; subst h1; exact Grown.refl _ _

theorem turn_grown {len tgt : Nat} {first f2 : Bool} {s t : A} {r : Option Nat}
    (h : turn len tgt first s = .ok (t, r, f2)) : Grown len s t r := by
  unfold turn at h
  cases hsc : scan len (s.slots.length - tgt) tgt s with
  | ub => rw [hsc] at h; cases h
  | abort => rw [hsc] at h; cases h
  | ok p =>
    obtain ⟨u, q⟩ := p
    rw [hsc, Out.ok_bind] at h
    have hg := scan_grown hsc
    cases q with
    | some a =>
      simp only at h
      injection h with h; injection h with h1 h2; injection h2 with h2 h3; subst h1; subst h2
      exact hg
    | none =>
      simp only at h
      split at h
      · cases hc : compact u with
        | ub => rw [hc] at h; cases h
        | abort => rw [hc] at h; cases h
        | ok v =>
          rw [hc, Out.ok_bind] at h
          cases hs2 : scan len (v.slots.length - tgt) tgt v with
          | ub => rw [hs2] at h; cases h
          | abort => rw [hs2] at h; cases h
          | ok p2 =>
            obtain ⟨x, y⟩ := p2
            rw [hs2, Out.ok_bind] at h
            injection h with h; injection h with h1 h2; injection h2 with h2 h3; subst h1; subst h2
            exact (hg.trans (compact_spec hc).grown).trans (scan_grown hs2)
      · injection h with h; injection h with h1 h2; injection h2 with h2 h3; subst h1; subst h2
        exact hg

theorem extend_grown {len b : Nat} {s t : A} (h : extend b s = .ok t) : Grown len s t none := by
  unfold extend at h
  obtain ⟨k, k1, k2, k3, k4⟩ := replace_spec h
  refine ⟨⟨k.ext, k.len, k.lv⟩, by rw [k3]; rfl, fun w hw hs => ?_, fun h4 h0 q f hf => ?_⟩
  · rw [k2]
    simp only [pieces, free, wsum_append, k3, k1, k4, wsum] at hs ⊢
    omega
  · simp only [pieces, free, List.mem_append, k1, k3] at hf
    rcases hf with hf | hf | hf
    · exact q f (List.mem_append_left _ hf)
    · exact q f (List.mem_append_right _ (List.mem_append_left _ hf))
    · rcases replace_mem h f hf with hf | hf
      · subst hf; exact ⟨h4, h0⟩
      · exact q f (List.mem_append_right _ (List.mem_append_right _ hf))

theorem findLoop_grown {len tgt : Nat} : ∀ {maps : List Nat} {first : Bool} {s t : A} {r : Option Nat},
    findLoop len tgt maps first s = .ok (t, r) → Grown len s t r := by
  intro maps
  induction maps with
  | nil =>
    intro first s t r h
    unfold findLoop at h
    cases ht : turn len tgt first s with
    | ub => rw [ht] at h; cases h
    | abort => rw [ht] at h; cases h
    | ok p =>
      obtain ⟨u, q, f2⟩ := p
      rw [ht, Out.ok_bind] at h
      have hg := turn_grown ht
      cases q <;> (simp only at h; injection h with h; injection h with h1 h2; subst h1; subst h2; exact hg)
  | cons b maps ih =>
    intro first s t r h
    unfold findLoop at h
    cases ht : turn len tgt first s with
    | ub => rw [ht] at h; cases h
    | abort => rw [ht] at h; cases h
    | ok p =>
      obtain ⟨u, q, f2⟩ := p
      rw [ht, Out.ok_bind] at h
      have hg := turn_grown ht
      cases q with
      | some a => simp only at h; injection h with h; injection h with h1 h2; subst h1; subst h2; exact hg
      | none =>
        simp only at h
        cases he : extend b u with
        | ub => rw [he] at h; cases h
        | abort => rw [he] at h; cases h
        | ok v =>
          rw [he, Out.ok_bind] at h
          exact (hg.trans (extend_grown he)).trans (ih h)

/-! ### Accounting -/

theorem find_grown {len : Nat} {maps : List Nat} {s t : A} {r : Option Nat} (h : find len maps s = .ok (t, r)) :
    Grown len s t r := by
  unfold find at h
  split at h
  · cases h
  split at h
  · cases h
  split at h
  · cases h
  exact findLoop_grown h

theorem wsum_erase {w : Frag → Nat} {l : List Frag} {f : Frag} (h : f ∈ l) : w f + wsum w (l.erase f) = wsum w l := by
  rw [wsum_perm (List.perm_cons_erase h)]; rfl

theorem release_spec {b : Nat} {s t : A} (h : release b s = .ok t) :
    Keep s t ∧ t.extents = s.extents ∧ (∀ w, wsum w (pieces t) = wsum w (pieces s)) ∧ (Quad s → Quad t) := by
  unfold release at h
  split at h
  · cases h
  · rename_i f hf
    injection h with h; subst h
    have hm : f ∈ s.live := List.mem_of_find?_eq_some hf
    refine ⟨⟨rfl, rfl, id⟩, rfl, fun w => ?_, fun q g hg => ?_⟩
    · have := wsum_erase (w := w) hm
      simp only [pieces, free, wsum_append, wsum]
      omega
    · simp only [pieces, free, List.mem_append, List.mem_cons] at hg
      rcases hg with hg | (hg | hg) | hg
      · exact q g (List.mem_append_left _ (List.mem_of_mem_erase hg))
      · exact q g (List.mem_append_left _ (hg ▸ hm))
      · exact q g (List.mem_append_right _ (List.mem_append_left _ hg))
      · exact q g (List.mem_append_right _ (List.mem_append_right _ hg))

/-- What every history keeps. -/
structure Inv (ext : Nat) (s : A) : Prop where
  hext : s.ext = ext
  len : s.slots.length = nslots ext
  lv : Lv s.slots
  sum : ∀ w, Additive w → wsum w (pieces s) = wsum w s.extents
  quad : ext % 4 = 0 → 0 < ext → Quad s

theorem inv_init (ext : Nat) : Inv ext (init ext) := by
  have hf : (List.replicate (nslots ext) ([] : List Frag)).flatten = [] := by simp
  refine ⟨rfl, by simp [init], fun i fs h f hf => ?_, fun w _ => ?_, fun _ _ f hf' => ?_⟩
  · simp only [init, List.getElem?_replicate] at h
    split at h
    · injection h with h; subst h; simp at hf
    · cases h
  · simp only [init, pieces, free, hf, List.append_nil, List.nil_append]
  · simp only [init, pieces, free, hf, List.append_nil, List.not_mem_nil] at hf'

theorem inv_grown {ext len : Nat} {s t : A} {r : Option Nat} (h : Inv ext s) (k : Grown len s t r) : Inv ext t :=
  ⟨k.keep.ext.trans h.hext, k.keep.len.trans h.len, k.keep.lv h.lv, fun w hw => k.sum w hw (h.sum w hw),
   fun h4 h0 => k.quad (by rw [h.hext]; exact h4) (by rw [h.hext]; exact h0) (h.quad h4 h0)⟩

theorem inv_step {ext : Nat} {op : Op} {s t : A} (hi : Inv ext s) (h : step op s = .ok t) : Inv ext t := by
  cases op with
  | alloc l maps =>
    simp only [step] at h
    cases hf : find (wrapped l) maps s with
    | ub => rw [hf] at h; cases h
    | abort => rw [hf] at h; cases h
    | ok p =>
      obtain ⟨u, q⟩ := p
      rw [hf, Out.ok_bind] at h
      injection h with h; subst h
      exact inv_grown hi (find_grown hf)
  | release b =>
    obtain ⟨k, k1, k2, k3⟩ := release_spec (show release b s = .ok t from h)
    exact ⟨k.ext.trans hi.hext, k.len.trans hi.len, k.lv hi.lv, fun w hw => by rw [k2, k1]; exact hi.sum w hw,
      fun h4 h0 => k3 (hi.quad h4 h0)⟩
  | compact => exact inv_grown hi (compact_spec (show compact s = .ok t from h)).grown (len := 0)

theorem inv_run {ext : Nat} : ∀ {ops : List Op} {s t : A}, Inv ext s → run ops s = .ok t → Inv ext t
  | [], s, t, hi, h => by simp only [run] at h; injection h with h; exact h ▸ hi
  | op :: ops, s, t, hi, h => by
    simp only [run] at h
    cases hs : step op s with
    | ub => rw [hs] at h; cases h
    | abort => rw [hs] at h; cases h
    | ok u => rw [hs, Out.ok_bind] at h; exact inv_run (inv_step hi hs) h

/-- C26 (accounting).  After any history of allocations, releases and compactions, every byte of the extents
belongs to exactly as many pieces (allocated, waiting or free) as there are extents that contain it, and no other
byte belongs to any: nothing is lost and nothing is invented. -/
theorem C26_every_byte_accounted (ext : Nat) (ops : List Op) (s : A) (h : run ops (init ext) = .ok s) (x : Nat) :
    cover (pieces s) x = cover s.extents x := by
  rw [cover_eq, cover_eq]
  exact (inv_run (inv_init ext) h).sum _ (add_has x)

theorem cover_mem {l : List Frag} {f : Frag} {x : Nat} (hf : f ∈ l) (hx : f.Has x) : 0 < cover l x := by
  induction l with
  | nil => simp at hf
  | cons a l ih =>
    simp only [cover]
    rcases List.mem_cons.1 hf with h | h
    · subst h; rw [if_pos hx]; omega
    · have := ih h; omega

theorem cover_pos {l : List Frag} {x : Nat} (h : 0 < cover l x) : ∃ f ∈ l, f.Has x := by
  induction l with
  | nil => simp [cover] at h
  | cons a l ih =>
    by_cases ha : a.Has x
    · exact ⟨a, by simp, ha⟩
    · simp only [cover, if_neg ha, Nat.zero_add] at h
      obtain ⟨f, h1, h2⟩ := ih h
      exact ⟨f, List.mem_cons_of_mem _ h1, h2⟩

theorem cover_pairwise {l : List Frag} (h : ∀ x, cover l x ≤ 1) : l.Pairwise Apart := by
  induction l with
  | nil => exact List.Pairwise.nil
  | cons a l ih =>
    refine List.Pairwise.cons (fun b hb x hx => ?_) (ih fun x => ?_)
    · have h1 := h x
      simp only [cover, if_pos hx.1] at h1
      have := cover_mem hb hx.2
      omega
    · have := h x
      simp only [cover] at this
      omega

/-- C26 (no overlap).  If the system's extents have no byte in common, then after any history no two pieces
have: two live strings never share a byte, nor do a live string and a free fragment; and every byte of a piece
lies in an extent. -/
theorem C26_no_overlap (ext : Nat) (ops : List Op) (s : A) (h : run ops (init ext) = .ok s)
    (hm : ∀ x, cover s.extents x ≤ 1) :
    (s.live ++ s.staged ++ s.slots.flatten).Pairwise Apart ∧
    ∀ f ∈ s.live ++ s.staged ++ s.slots.flatten, ∀ x, f.Has x → ∃ e ∈ s.extents, e.Has x := by
  have hp : pieces s = s.live ++ s.staged ++ s.slots.flatten := by simp [pieces, free]
  rw [← hp]
  have hc := C26_every_byte_accounted ext ops s h
  refine ⟨cover_pairwise fun x => by rw [hc]; exact hm x, fun f hf x hx => ?_⟩
  apply cover_pos
  rw [← hc]
  exact cover_mem hf hx

/-- C26 (compaction keeps every byte).  Compaction does not touch the live strings, and a byte is free after it
exactly when it was before (counted as often). -/
theorem C26_compaction_keeps (s t : A) (h : compact s = .ok t) :
    t.live = s.live ∧ t.extents = s.extents ∧ t.staged = [] ∧
    ∀ x, cover (t.staged ++ t.slots.flatten) x = cover (s.staged ++ s.slots.flatten) x := by
  have k := compact_spec h
  refine ⟨k.live, k.extents, k.staged, fun x => ?_⟩
  rw [cover_eq, cover_eq]
  exact k.sum _ (add_has x)

/-! ### Safety and success -/

theorem le_wsum {w : Frag → Nat} {l : List Frag} {f : Frag} (h : f ∈ l) : w f ≤ wsum w l := by
  induction l with
  | nil => simp at h
  | cons a l ih =>
    simp only [wsum]
    rcases List.mem_cons.1 h with h | h
    · subst h; omega
    · have := ih h; omega

theorem replace_ok {f : Frag} {s : A} (hn : 0 < s.slots.length) (h : 4 ≤ f.size) (h2 : f.size < 2 ^ 32) :
    ∃ t, replace f s = .ok t := by
  obtain ⟨i, hi⟩ := level_some hn h h2
  unfold replace
  rw [hi]
  exact ⟨_, rfl⟩

theorem borrow_ok {i len : Nat} {s : A} (hi : i < s.slots.length) (hv : Lv s.slots) (hq : Quad s)
    (h8 : 8 < len) (h4 : len % 4 = 0) (hl : len ≤ lsize i) (ht : ∀ f ∈ free s, f.size < 2 ^ 32) :
    ∃ p, borrow i len s = .ok p := by
  unfold borrow
  rw [List.getElem?_eq_getElem hi]
  cases hs : s.slots[i] with
  | nil => exact ⟨_, rfl⟩
  | cons n r =>
    have he : s.slots[i]? = some (n :: r) := by rw [List.getElem?_eq_getElem hi, hs]
    have hn := hv i _ he n (by simp)
    have hm : n ∈ free s := List.mem_append_right _ (mem_flatten_get he (by simp))
    have hq' := hq n (List.mem_append_right _ hm)
    have ht' := ht n hm
    simp only
    rw [if_neg (by omega), if_neg (by omega), if_neg (by omega)]
    split
    · exact ⟨_, rfl⟩
    · rw [if_neg (by omega)]
      split
      · exact ⟨_, rfl⟩
      · rename_i hne
        obtain ⟨t, ht⟩ := replace_ok (f := ⟨n.base, n.size - len⟩)
          (s := { s with slots := s.slots.set i r, live := ⟨n.base + n.size - len, len⟩ :: s.live })
          (by simp only [List.length_set]; omega) (by show 4 ≤ n.size - len; omega) (by show n.size - len < 2 ^ 32; omega)
        rw [ht]
        exact ⟨_, rfl⟩

theorem lsize_mono {i j : Nat} (h : i ≤ j) : lsize i ≤ lsize j := Nat.pow_le_pow_right (by omega) (by omega)

theorem scan_ok {len : Nat} : ∀ {n i : Nat} {s : A}, i + n ≤ s.slots.length → Lv s.slots → Quad s →
    8 < len → len % 4 = 0 → len ≤ lsize i → (∀ f ∈ free s, f.size < 2 ^ 32) → ∃ p, scan len n i s = .ok p
  | 0, i, s, _, _, _, _, _, _, _ => ⟨_, rfl⟩
  | n + 1, i, s, hi, hv, hq, h8, h4, hl, ht => by
    simp only [scan]
    obtain ⟨⟨u, r⟩, hb⟩ := borrow_ok (i := i) (by omega) hv hq h8 h4 hl ht
    rw [hb, Out.ok_bind]
    have hs := borrow_spec hb
    cases r with
    | some a => exact ⟨_, rfl⟩
    | none =>
      simp only at hs
      show ∃ p, scan len n (i + 1) u = .ok p
      rw [hs.1]
      exact scan_ok (by omega) hv hq h8 h4 (hl.trans (lsize_mono (by omega))) ht

theorem replaceAll_ok : ∀ {l : List Frag} {s : A}, 0 < s.slots.length →
    (∀ f ∈ l, 4 ≤ f.size ∧ f.size < 2 ^ 32) → ∃ t, replaceAll l s = .ok t
  | [], s, _, _ => ⟨_, rfl⟩
  | f :: l, s, hn, h => by
    simp only [replaceAll]
    obtain ⟨t, ht⟩ := replace_ok (s := s) hn (h f (by simp)).1 (h f (by simp)).2
    rw [ht, Out.ok_bind]
    exact replaceAll_ok (by rw [(replace_spec ht).1.len]; exact hn) fun g hg => h g (List.mem_cons_of_mem _ hg)

theorem compact_ok {s : A} (hn : 0 < s.slots.length) (hq : Quad s) (ht : wsum Frag.size (free s) < 2 ^ 32) :
    ∃ t, compact s = .ok t := by
  unfold compact
  simp only
  have hp : (Sort.sort cmp (free s)).Perm (free s) := Sort.C12_merge_sort_perm cmp (free s)
  rw [show s.staged ++ s.slots.flatten = free s from rfl]
  cases hs : Sort.sort cmp (free s) with
  | nil => exact ⟨_, rfl⟩
  | cons a r =>
    rw [hs] at hp
    apply replaceAll_ok
    · simp only [List.length_map]; exact hn
    · intro f hf
      have h1 := collapse_quad r a (fun g hg => hq g (List.mem_append_right _ (hp.mem_iff.1 hg))) f hf
      have h2 := le_wsum (w := Frag.size) hf
      rw [collapse_sum add_size] at h2
      have h3 := wsum_perm (w := Frag.size) hp
      simp only [wsum] at h3
      omega

/-- A state of a well-formed pool, with less than 4 GiB of extents even after `n` more. -/
structure Good (ext n : Nat) (s : A) : Prop where
  inv : Inv ext s
  e4 : ext % 4 = 0
  e16 : 16 ≤ ext
  e31 : ext ≤ 2 ^ 31
  room : wsum Frag.size s.extents + n * ext < 2 ^ 32

theorem Good.quad {ext n : Nat} {s : A} (h : Good ext n s) : Quad s := h.inv.quad h.e4 (by have := h.e16; omega)

theorem Good.small {ext n : Nat} {s : A} (h : Good ext n s) : wsum Frag.size (free s) < 2 ^ 32 := by
  have h1 := h.inv.sum _ add_size
  have h2 := h.room
  simp only [pieces, wsum_append] at h1
  omega

theorem Good.each {ext n : Nat} {s : A} (h : Good ext n s) : ∀ f ∈ free s, f.size < 2 ^ 32 := by
  intro f hf
  have := le_wsum (w := Frag.size) hf
  have := h.small
  omega

theorem log2ru_ge {v k : Nat} (h : 2 ^ k < v) (h2 : v ≤ 2 ^ 31) : k < log2ru v := by
  have h0 := Nat.two_pow_pos k
  obtain ⟨h3, _⟩ := C27_round_up v (by omega) h2
  by_contra hc
  have : 2 ^ log2ru v ≤ 2 ^ k := Nat.pow_le_pow_right (by omega) (by omega)
  omega

theorem nslots_eq {ext : Nat} (h : ext ≤ 2 ^ 31) : nslots ext = log2ru ext - 1 := by
  unfold nslots
  rw [Nat.mod_eq_of_lt (by omega)]
  omega

theorem Good.pos {ext n : Nat} {s : A} (h : Good ext n s) : 0 < s.slots.length := by
  rw [h.inv.len, nslots_eq h.e31]
  have := log2ru_ge (k := 3) (v := ext) (by have := h.e16; omega) h.e31
  omega

theorem log2ru_mono {a b : Nat} (h0 : 0 < a) (h : a ≤ b) (h2 : b ≤ 2 ^ 31) : log2ru a ≤ log2ru b := by
  obtain ⟨h3, _⟩ := C27_round_up b (by omega) h2
  obtain ⟨_, h4⟩ := C27_round_up a h0 (by omega)
  by_contra hc
  have := h4 (log2ru b) (by omega)
  omega

theorem wrapped_facts {l : Nat} (h : 1 ≤ l) : 8 < wrapped l ∧ wrapped l % 4 = 0 := by
  unfold wrapped; omega

/-- The level at which the search starts is large enough and exists. -/
theorem target {ext len : Nat} (h8 : 8 < len) (hl : len ≤ ext) (h31 : ext ≤ 2 ^ 31) :
    2 ≤ log2ru len ∧ len ≤ lsize (log2ru len - 2) ∧ log2ru len - 2 < nslots ext := by
  have h1 := log2ru_ge (k := 3) (v := len) (by omega) (by omega)
  obtain ⟨h2, _⟩ := C27_round_up len (by omega) (by omega)
  have h3 := log2ru_mono (by omega) hl h31
  rw [nslots_eq h31]
  refine ⟨by omega, ?_, by omega⟩
  unfold lsize
  rw [show log2ru len - 2 + 2 = log2ru len by omega]
  exact h2

theorem good_grown {ext n len : Nat} {s t : A} {r : Option Nat} (h : Good ext n s) (k : Grown len s t r)
    (he : t.extents = s.extents) : Good ext n t :=
  ⟨inv_grown h.inv k, h.e4, h.e16, h.e31, by rw [he]; exact h.room⟩

theorem turn_ok {ext n len tgt : Nat} {first : Bool} {s : A} (h : Good ext n s) (h8 : 8 < len) (h4 : len % 4 = 0)
    (hl : len ≤ lsize tgt) : ∃ t r f2, turn len tgt first s = .ok (t, r, f2) ∧ t.extents = s.extents := by
  unfold turn
  have hsc : ∀ {u : A}, Good ext n u → ∃ v r, scan len (u.slots.length - tgt) tgt u = .ok (v, r) ∧ v.extents = u.extents := by
    intro u hu
    by_cases ht : tgt ≤ u.slots.length
    · obtain ⟨⟨v, r⟩, hv⟩ := scan_ok (n := u.slots.length - tgt) (i := tgt) (by omega) hu.inv.lv hu.quad h8 h4 hl hu.each
      refine ⟨v, r, hv, ?_⟩
      have hs := scan_spec hv
      cases r with
      | none => simp only at hs; rw [hs.1]
      | some a => exact Took.extents hs
    · rw [show u.slots.length - tgt = 0 by omega]
      exact ⟨u, none, rfl, rfl⟩
  obtain ⟨u, r, hu, hue⟩ := hsc h
  rw [hu, Out.ok_bind]
  have hgu := scan_grown hu
  cases r with
  | some a => exact ⟨_, _, _, rfl, hue⟩
  | none =>
    simp only
    split
    · have gu := good_grown h hgu hue
      obtain ⟨v, hv⟩ := compact_ok gu.pos gu.quad gu.small
      have hve := (compact_spec hv).extents
      have gv := good_grown gu (compact_spec hv).grown (len := 0) hve
      obtain ⟨x, r, hx, hxe⟩ := hsc gv
      rw [hv, Out.ok_bind, hx, Out.ok_bind]
      exact ⟨_, _, _, rfl, by rw [hxe, hve, hue]⟩
    · exact ⟨_, _, _, rfl, hue⟩

theorem extend_ok {ext n b : Nat} {s : A} (h : Good ext (n + 1) s) :
    ∃ t, extend b s = .ok t ∧ t.extents = ⟨b, ext⟩ :: s.extents ∧ Good ext n t := by
  unfold extend
  have h1 := h.e16
  have h2 := h.e31
  have h3 := h.inv.hext
  obtain ⟨t, ht⟩ := replace_ok (f := ⟨b, s.ext⟩) (s := { s with extents := ⟨b, s.ext⟩ :: s.extents }) h.pos
    (by show 4 ≤ s.ext; omega) (by show s.ext < 2 ^ 32; omega)
  have hg : Grown 0 s t none := extend_grown (b := b) (by unfold extend; exact ht)
  have he := (replace_spec ht).2.2.1
  refine ⟨t, ht, by rw [he, h3], inv_grown h.inv hg, h.e4, h1, h2, ?_⟩
  have h4 := h.room
  rw [he]
  simp only [wsum]
  rw [h3]
  rw [Nat.add_mul] at h4
  omega

theorem findLoop_ok {ext len tgt : Nat} (h8 : 8 < len) (h4 : len % 4 = 0) (hl : len ≤ lsize tgt) :
    ∀ {maps : List Nat} {first : Bool} {s : A}, Good ext maps.length s →
      ∃ p, findLoop len tgt maps first s = .ok p := by
  intro maps
  induction maps with
  | nil =>
    intro first s h
    unfold findLoop
    obtain ⟨t, r, f2, ht, _⟩ := turn_ok (first := first) h h8 h4 hl
    rw [ht, Out.ok_bind]
    cases r <;> exact ⟨_, rfl⟩
  | cons b maps ih =>
    intro first s h
    unfold findLoop
    obtain ⟨t, r, f2, ht, hte⟩ := turn_ok (first := first) h h8 h4 hl
    rw [ht, Out.ok_bind]
    cases r with
    | some a => exact ⟨_, rfl⟩
    | none =>
      have gt := good_grown h (turn_grown ht) hte
      obtain ⟨u, hu, _, gu⟩ := extend_ok (b := b) gt
      simp only
      rw [hu, Out.ok_bind]
      exact ih gu

/-- What a caller may do: intern an object of at least one byte that fits in an extent and in 2^23 bytes, release
what is allocated, compact. -/
def Proper (op : Op) (s : A) : Prop :=
  match op with
  | .alloc l _ => 1 ≤ l ∧ wrapped l ≤ s.ext ∧ wrapped l ≤ 2 ^ 23
  | .release b => ∃ f ∈ s.live, f.base = b
  | .compact => True

/-- How many extents a call may add. -/
def mapsOf : Op → Nat
  | .alloc _ maps => maps.length
  | _ => 0

/-- C26 (safety, partial).  A pool whose extent size is a multiple of four, from 16 bytes to 2 GiB, and whose
extents stay below 4 GiB in total: after any history, every proper call works on its own data structures only and
none of the assertions fails.  (Larger pools: see the violation below.) -/
theorem C26_safe_partial (ext : Nat) (h4 : ext % 4 = 0) (h16 : 16 ≤ ext) (h31 : ext ≤ 2 ^ 31) (ops : List Op) (s : A)
    (h : run ops (init ext) = .ok s) (op : Op) (hp : Proper op s)
    (hroom : total s.extents + mapsOf op * ext < 2 ^ 32) : ∃ t, step op s = .ok t := by
  have hi := inv_run (inv_init ext) h
  rw [total_eq] at hroom
  have g : Good ext (mapsOf op) s := ⟨hi, h4, h16, h31, hroom⟩
  cases op with
  | alloc l maps =>
    obtain ⟨h1, h2, h3⟩ := hp
    rw [hi.hext] at h2
    obtain ⟨h8, hm4⟩ := wrapped_facts h1
    obtain ⟨t1, t2, _⟩ := target h8 h2 h31
    simp only [step, find]
    rw [if_neg (by rw [hi.hext]; omega), if_neg (by rw [hi.hext]; omega), if_neg (by omega)]
    obtain ⟨⟨t, r⟩, ht⟩ := findLoop_ok (first := true) h8 hm4 t2 g
    rw [ht]
    exact ⟨_, rfl⟩
  | release b =>
    obtain ⟨f, hf, hb⟩ := hp
    show ∃ t, release b s = .ok t
    unfold release
    cases hfi : s.live.find? (fun f => f.base = b) with
    | some g => exact ⟨_, rfl⟩
    | none =>
      have := List.find?_eq_none.1 hfi f hf
      simp [hb] at this
  | compact => exact compact_ok g.pos g.quad g.small

/-- C26 (an allocation).  A request that is answered gets exactly one new piece of the wrapped size, and the
pieces already handed out are untouched. -/
theorem C26_alloc_new_piece (l : Nat) (maps : List Nat) (s t : A) (a : Nat)
    (h : find (wrapped l) maps s = .ok (t, some a)) : t.live = ⟨a, wrapped l⟩ :: s.live := by
  have := (find_grown h).live
  simpa using this

/-! ### Maximal fragments after compaction -/

theorem cmp_consistent : Sort.Consistent cmp (fun a b => a.base ≤ b.base) := by
  refine ⟨fun a b => ?_, fun a b => by omega, fun a b c => by omega⟩
  unfold cmp
  split <;> simp <;> omega

theorem collapse_gaps : ∀ (l : List Frag) (a : Frag),
    (a :: l).Pairwise (fun f g => f.base + f.size ≤ g.base) → (∀ f ∈ a :: l, 0 < f.size) →
    (collapse a l).Pairwise (fun f g => f.base + f.size < g.base) ∧ ∀ g ∈ collapse a l, a.base ≤ g.base ∧ 0 < g.size
  | [], a, _, h0 => by
    simp only [collapse]
    exact ⟨by simp, fun g hg => by simp at hg; subst hg; exact ⟨le_refl _, h0 g (by simp)⟩⟩
  | b :: r, a, hp, h0 => by
    simp only [collapse]
    obtain ⟨h1, h2⟩ := List.pairwise_cons.1 hp
    obtain ⟨h3, h4⟩ := List.pairwise_cons.1 h2
    have ha := h0 a (by simp)
    have hb := h0 b (by simp)
    split
    · rename_i hab
      have := collapse_gaps r ⟨a.base, a.size + b.size⟩
        (List.pairwise_cons.2 ⟨fun g hg => by have := h3 g hg; show a.base + (a.size + b.size) ≤ g.base; omega, h4⟩)
        (fun f hf => by
          rcases List.mem_cons.1 hf with hf | hf
          · subst hf; show 0 < a.size + b.size; omega
          · exact h0 f (by simp [hf]))
      exact this
    · rename_i hab
      obtain ⟨i1, i2⟩ := collapse_gaps r b h2 fun f hf => h0 f (List.mem_cons_of_mem _ hf)
      have hab' := h1 b (by simp)
      refine ⟨List.pairwise_cons.2 ⟨fun g hg => ?_, i1⟩, fun g hg => ?_⟩
      · have := i2 g hg; omega
      · rcases List.mem_cons.1 hg with hg | hg
        · subst hg; exact ⟨le_refl _, ha⟩
        · have := i2 g hg; omega

theorem pairwise_perm_apart {l m : List Frag} (h : l.Perm m) (hm : m.Pairwise Apart) : l.Pairwise Apart :=
  (h.pairwise_iff fun {_ _} hab x hx => hab x ⟨hx.2, hx.1⟩).2 hm

/-- C26 (compaction).  After any history, if the extents have no byte in common, compaction leaves no two free
fragments side by side: free space is in maximal pieces. -/
theorem C26_compaction_maximal (ext : Nat) (h4 : ext % 4 = 0) (h0 : 0 < ext) (ops : List Op) (s t : A)
    (h : run ops (init ext) = .ok s) (hm : ∀ x, cover s.extents x ≤ 1) (hc : compact s = .ok t) :
    ∀ f ∈ t.staged ++ t.slots.flatten, ∀ g ∈ t.staged ++ t.slots.flatten, f.base + f.size ≠ g.base := by
  have hi := inv_run (inv_init ext) h
  have hq := hi.quad h4 h0
  have hap : (free s).Pairwise Apart := by
    have := (C26_no_overlap ext ops s h hm).1
    rw [List.append_assoc] at this
    exact (List.pairwise_append.1 this).2.1
  have hp : (Sort.sort cmp (free s)).Perm (free s) := Sort.C12_merge_sort_perm cmp (free s)
  have ho : (Sort.sort cmp (free s)).Pairwise (fun a b => a.base ≤ b.base) :=
    (Sort.C12_merge_sort_sorts cmp_consistent (free s)).1
  unfold compact at hc
  simp only at hc
  rw [show s.staged ++ s.slots.flatten = free s from rfl] at hc
  cases hs : Sort.sort cmp (free s) with
  | nil =>
    rw [hs] at hc
    simp only at hc
    injection hc with hc; subst hc
    intro f hf
    simp only [flatten_empty, List.append_nil, List.not_mem_nil] at hf
  | cons a r =>
    rw [hs] at hc hp ho
    simp only at hc
    obtain ⟨_, m1, _, _, _, m5⟩ := replaceAll_spec hc
    have hsz : ∀ f ∈ a :: r, 0 < f.size := fun f hf =>
      (hq f (List.mem_append_right _ (hp.mem_iff.1 hf))).2
    have hpa := pairwise_perm_apart hp hap
    have hgap : (a :: r).Pairwise (fun f g => f.base + f.size ≤ g.base) := by
      have hboth := (List.pairwise_and_iff.2 ⟨ho, hpa⟩)
      refine List.Pairwise.imp_of_mem (fun {f g} hf hg hfg => ?_) hboth
      obtain ⟨h1, h2⟩ := hfg
      by_contra hcon
      exact h2 g.base ⟨⟨h1, by omega⟩, ⟨le_refl _, by have := hsz g hg; omega⟩⟩
    obtain ⟨g1, g2⟩ := collapse_gaps r a hgap hsz
    have hmem : ∀ f ∈ t.staged ++ t.slots.flatten, f ∈ collapse a r := by
      intro f hf
      rw [m1] at hf
      simp only [List.nil_append] at hf
      rcases m5 f hf with hf | hf
      · exact hf
      · rw [flatten_empty] at hf; simp at hf
    intro f hf g hg
    have hf' := hmem f hf
    have hg' := hmem g hg
    obtain ⟨i, hi', hfi⟩ := List.getElem_of_mem hf'
    obtain ⟨j, hj', hgj⟩ := List.getElem_of_mem hg'
    have hfs := (g2 f hf').2
    rw [List.pairwise_iff_getElem] at g1
    rcases Nat.lt_trichotomy i j with hij | hij | hij
    · have := g1 i j hi' hj' hij; rw [hfi, hgj] at this; omega
    · subst hij; rw [hfi] at hgj; subst hgj; omega
    · have := g1 j i hj' hi' hij; rw [hfi, hgj] at this; omega

/-! ### C62: requests are answered -/

/-- C62 (partial).  Whatever the extent size (a multiple of four, from 16 bytes to 2 GiB; extents below 4 GiB in
total), a request of at most the largest power of two in the extent size is answered as soon as the system gives
one more extent, if not before.  Missing: requests between that power and the extent size, see the violation. -/
theorem C62_alloc_answered_partial (ext k : Nat) (h4 : ext % 4 = 0) (h16 : 16 ≤ ext) (h31 : ext ≤ 2 ^ 31)
    (hk : 2 ^ k ≤ ext ∧ ext < 2 ^ (k + 1)) (ops : List Op) (s : A) (h : run ops (init ext) = .ok s)
    (l : Nat) (hl : 1 ≤ l) (hfit : wrapped l ≤ 2 ^ k) (h23 : wrapped l ≤ 2 ^ 23) (b : Nat)
    (hroom : total s.extents + ext < 2 ^ 32) :
    ∃ t a, find (wrapped l) [b] s = .ok (t, some a) := by
  have hi := inv_run (inv_init ext) h
  rw [total_eq] at hroom
  have g : Good ext 1 s := ⟨hi, h4, h16, h31, by omega⟩
  obtain ⟨h8, hm4⟩ := wrapped_facts hl
  have hle : wrapped l ≤ ext := hfit.trans hk.1
  obtain ⟨t1, t2, t3⟩ := target h8 hle h31
  unfold find
  rw [if_neg (by rw [hi.hext]; omega), if_neg (by rw [hi.hext]; omega), if_neg (by omega)]
  generalize htgt : log2ru (wrapped l) - 2 = tgt at t2 t3
  unfold findLoop
  obtain ⟨u, r, f2, hu, hue⟩ := turn_ok (first := true) g h8 hm4 t2
  rw [hu, Out.ok_bind]
  cases r with
  | some a => exact ⟨_, _, rfl⟩
  | none =>
    have gu := good_grown g (turn_grown hu) hue
    obtain ⟨v, hv, _, gv⟩ := extend_ok (b := b) gu
    simp only
    rw [hv, Out.ok_bind]
    unfold findLoop
    -- the new extent is in a level the search looks at
    have hlev : ∃ i fs, tgt ≤ i ∧ i < v.slots.length ∧ v.slots[i]? = some (⟨b, ext⟩ :: fs) := by
      unfold extend replace at hv
      cases hlv : level u.slots.length u.ext with
      | ub => simp only [hlv] at hv; cases hv
      | abort => simp only [hlv] at hv; cases hv
      | ok i =>
        simp only [hlv, Out.ok_bind] at hv
        injection hv with hv
        have hue2 : u.ext = ext := gu.inv.hext
        rw [hue2] at hlv
        have hul : u.slots.length = nslots ext := gu.inv.len
        have hlen : i < u.slots.length := (level_ok hlv).1
        have hik : tgt ≤ i := by
          unfold level at hlv
          simp only at hlv
          rw [Nat.mod_eq_of_lt (by omega)] at hlv
          obtain ⟨d1, d2⟩ := C27_round_down ext (by omega) (by omega)
          have hdk : log2rd ext = k := by
            rcases Nat.lt_trichotomy (log2rd ext) k with hlt | heq | hgt
            · have : 2 ^ (log2rd ext + 1) ≤ 2 ^ k := Nat.pow_le_pow_right (by omega) (by omega)
              omega
            · exact heq
            · have : 2 ^ (k + 1) ≤ 2 ^ log2rd ext := Nat.pow_le_pow_right (by omega) (by omega)
              omega
          rw [hdk] at hlv
          have htk : log2ru (wrapped l) ≤ k := by
            by_contra hc
            obtain ⟨_, d3⟩ := C27_round_up (wrapped l) (by omega) (by omega)
            have := d3 k (by omega)
            omega
          split at hlv
          · cases hlv
          · split at hlv
            · split at hlv
              · cases hlv
              · injection hlv with hlv; omega
            · injection hlv with hlv; omega
        obtain ⟨m, hm⟩ : ∃ m, u.slots[i]? = some m := ⟨_, List.getElem?_eq_getElem hlen⟩
        refine ⟨i, m, hik, ?_, ?_⟩
        · rw [← hv]; simp [pushAt]; exact hlen
        · rw [← hv]; simp [pushAt, hm, hue2]
    obtain ⟨i, fs, hi1, hi2, hi3⟩ := hlev
    obtain ⟨⟨x, rx⟩, hx⟩ := scan_ok (n := v.slots.length - tgt) (i := tgt) (by omega) gv.inv.lv gv.quad h8 hm4 t2 gv.each
    unfold turn
    rw [hx, Out.ok_bind]
    cases rx with
    | some a => exact ⟨_, _, rfl⟩
    | none =>
      have hs := (scan_spec hx).2 i hi1 (by omega)
      rw [hi3] at hs
      simp at hs

/-! ### The claim is false for other sizes -/

/-- The state of a pool with extent size 12288 whose extents are all free and apart. -/
def stuck (l m : List Frag) : A := ⟨12288, List.replicate 11 [] ++ [l, []], [], m, []⟩

theorem stuck_replace (l m : List Frag) (b : Nat) :
    replace ⟨b, 12288⟩ (stuck l m) = .ok (stuck (⟨b, 12288⟩ :: l) m) := by
  have hl : level 13 12288 = .ok 11 := by decide +kernel
  unfold replace stuck
  simp only [List.length_append, List.length_replicate, List.length_cons, List.length_nil, hl, Out.ok_bind]
  rfl

theorem stuck_replaceAll : ∀ (l k m : List Frag), (∀ f ∈ l, f.size = 12288) →
    replaceAll l (stuck k m) = .ok (stuck (l.reverse ++ k) m)
  | [], k, m, _ => by simp [replaceAll]
  | f :: l, k, m, h => by
    simp only [replaceAll]
    have hf : f = ⟨f.base, 12288⟩ := by have := h f (by simp); cases f; simp only at this; rw [this]
    rw [hf, stuck_replace, Out.ok_bind, stuck_replaceAll l _ m fun g hg => h g (List.mem_cons_of_mem _ hg)]
    simp

theorem collapse_none : ∀ (l : List Frag) (a : Frag),
    (∀ f ∈ a :: l, ∀ g ∈ a :: l, f.base + f.size ≠ g.base) → collapse a l = a :: l
  | [], a, _ => rfl
  | b :: r, a, h => by
    simp only [collapse]
    rw [if_neg (h a (by simp) b (by simp)),
      collapse_none r b fun f hf g hg => h f (List.mem_cons_of_mem _ hf) g (List.mem_cons_of_mem _ hg)]

theorem stuck_compact (l m : List Frag) (h : ∀ f ∈ l, f.size = 12288)
    (hn : ∀ f ∈ l, ∀ g ∈ l, f.base + 12288 ≠ g.base) :
    ∃ l', l'.Perm l ∧ compact (stuck l m) = .ok (stuck l' m) := by
  unfold compact
  have hall : (stuck l m).staged ++ (stuck l m).slots.flatten = l := by simp [stuck]
  simp only
  rw [hall]
  have hp := Sort.C12_merge_sort_perm cmp l
  have hmt : { stuck l m with staged := [], slots := (stuck l m).slots.map (fun _ => []) } = stuck [] m := by
    simp [stuck]
  cases hs : Sort.sort cmp l with
  | nil => rw [hs] at hp; exact ⟨[], hp, by simp only; rw [hmt]⟩
  | cons a r =>
    rw [hs] at hp
    simp only
    have hin : ∀ f ∈ a :: r, f ∈ l := fun f hf => hp.mem_iff.1 hf
    rw [collapse_none r a fun f hf g hg => by rw [h f (hin f hf)]; exact hn f (hin f hf) g (hin g hg), hmt,
      stuck_replaceAll _ _ _ fun f hf => h f (hin f hf)]
    exact ⟨_, by simpa using (List.reverse_perm (a :: r)).trans hp, rfl⟩

theorem stuck_scan (l m : List Frag) : scan 8196 ((stuck l m).slots.length - 12) 12 (stuck l m) = .ok (stuck l m, none) := by
  simp [stuck, scan, borrow]

theorem stuck_turn (l m : List Frag) (first : Bool) (h : ∀ f ∈ l, f.size = 12288)
    (hn : ∀ f ∈ l, ∀ g ∈ l, f.base + 12288 ≠ g.base) :
    ∃ l' f2, l'.Perm l ∧ turn 8196 12 first (stuck l m) = .ok (stuck l' m, none, f2) := by
  unfold turn
  rw [stuck_scan, Out.ok_bind]
  simp only
  split
  · obtain ⟨l', hp, hc⟩ := stuck_compact l m h hn
    rw [hc, Out.ok_bind, stuck_scan, Out.ok_bind]
    exact ⟨l', false, hp, rfl⟩
  · exact ⟨l, first, List.Perm.refl _, rfl⟩

theorem stuck_loop : ∀ (maps : List Nat) (first : Bool) (l m : List Frag), (∀ f ∈ l, f.size = 12288) →
    (∀ a ∈ maps ++ l.map Frag.base, ∀ b ∈ maps ++ l.map Frag.base, a + 12288 ≠ b) →
    ∃ s, findLoop 8196 12 maps first (stuck l m) = .ok (s, none) ∧ s.extents.length = m.length + maps.length := by
  intro maps
  induction maps with
  | nil =>
    intro first l m h hn
    obtain ⟨l', f2, _, ht⟩ := stuck_turn l m first h fun f hf g hg =>
      hn f.base (by simpa using ⟨f, hf, rfl⟩) g.base (by simpa using ⟨g, hg, rfl⟩)
    unfold findLoop
    rw [ht, Out.ok_bind]
    exact ⟨_, rfl, by simp [stuck]⟩
  | cons b maps ih =>
    intro first l m h hn
    obtain ⟨l', f2, hp, ht⟩ := stuck_turn l m first h fun f hf g hg =>
      hn f.base (by simp only [List.mem_append, List.mem_map]; exact Or.inr ⟨f, hf, rfl⟩) g.base
        (by simp only [List.mem_append, List.mem_map]; exact Or.inr ⟨g, hg, rfl⟩)
    unfold findLoop
    rw [ht, Out.ok_bind]
    simp only
    have he : extend b (stuck l' m) = .ok (stuck (⟨b, 12288⟩ :: l') (⟨b, 12288⟩ :: m)) := by
      have := stuck_replace l' (⟨b, 12288⟩ :: m) b
      unfold extend
      exact this
    rw [he, Out.ok_bind]
    obtain ⟨s, h1, h2⟩ := ih f2 (⟨b, 12288⟩ :: l') (⟨b, 12288⟩ :: m) (fun f hf => by
        rcases List.mem_cons.1 hf with hf | hf
        · rw [hf]
        · exact h f (hp.mem_iff.1 hf)) (fun x hx y hy => by
        have hsub : ∀ z, z ∈ maps ++ (⟨b, 12288⟩ :: l' : List Frag).map Frag.base → z ∈ b :: maps ++ l.map Frag.base := by
          intro z hz
          simp only [List.map_cons, List.mem_append, List.mem_cons, List.mem_map, List.cons_append] at hz ⊢
          rcases hz with hz | hz | ⟨f, hf, hz⟩
          · exact Or.inr (Or.inl hz)
          · exact Or.inl hz
          · exact Or.inr (Or.inr ⟨f, hp.mem_iff.1 hf, hz⟩)
        exact hn x (hsub x hx) y (hsub y hy))
    exact ⟨s, h1, by rw [h2]; simp; omega⟩

/-- C62 is false for requests above the largest power of two in the extent size.  In a pool with extents of 12288
bytes, interning an object of 8188 bytes never returns: however many extents the system hands out (none starting
where another one ends), every one of them is added to the pool and the search goes on. -/
theorem C62_alloc_never_returns_violated (maps : List Nat) (h : ∀ a ∈ maps, ∀ b ∈ maps, a + 12288 ≠ b) :
    wrapped 8188 ≤ (init 12288).ext ∧
    ∃ s, find (wrapped 8188) maps (init 12288) = .ok (s, none) ∧ s.extents.length = maps.length := by
  refine ⟨by decide, ?_⟩
  have hin : init 12288 = stuck [] [] := by decide +kernel
  have hw : wrapped 8188 = 8196 := by decide
  have hg : log2ru 8196 = 14 := by decide +kernel
  obtain ⟨s, h1, h2⟩ := stuck_loop maps true [] [] (by simp) (by simpa using h)
  refine ⟨s, ?_, by simpa using h2⟩
  rw [hin, hw]
  unfold find
  rw [if_neg (by simp [stuck]), if_neg (by simp [stuck]), hg]
  exact h1

/-- C26 is false for pools of 4 GiB: when two adjacent extents of 2 GiB become free again, compaction merges them
to a fragment of 2^32 bytes, whose size is taken for 0, and stores it two elements before the array of levels. -/
theorem C26_four_gib_violated :
    run (Op.alloc (2 ^ 23 - 8) [2 ^ 40] :: List.replicate 255 (Op.alloc (2 ^ 23 - 8) []) ++
      [Op.alloc (2 ^ 23 - 8) [2 ^ 40 + 2 ^ 31], Op.release (2 ^ 40 + 2 ^ 32 - 2 ^ 23)] ++
      (List.range 256).reverse.map (fun i => Op.release (2 ^ 40 + i * 2 ^ 23)) ++ [Op.compact]) (init (2 ^ 31)) = .ub := by
  decide +kernel

/-- C26 is false for extent sizes that are not multiples of four: what is left of an extent can be smaller than
the smallest level. -/
theorem C26_odd_extent_violated : step (.alloc 8 [4096]) (init 17) = .ub := by decide +kernel

/-! ### Concrete cases -/

/-- Some allocations, releases and a compaction in a pool of 64-byte extents. -/
def sample : List Op :=
  [.alloc 5 [1000], .alloc 20 [], .alloc 30 [2000], .release 1048, .alloc 3 [3000], .release 2012, .release 1020,
   .compact]

/-- The state after it: one string of 40 bytes is live, the rest of its extent is one fragment, the other extent is
free as a whole. -/
def sampleEnd : A :=
  ⟨64, [[], [], [⟨2000, 24⟩], [], [⟨1000, 64⟩]], [], [⟨2000, 64⟩, ⟨1000, 64⟩], [⟨2024, 40⟩]⟩

theorem sample_run : run sample (init 64) = .ok sampleEnd := by decide +kernel

theorem sample_apart (x : Nat) : cover sampleEnd.extents x ≤ 1 := by
  have h1 : (⟨2000, 64⟩ : Frag).Has x ↔ 2000 ≤ x ∧ x < 2000 + 64 := Iff.rfl
  have h2 : (⟨1000, 64⟩ : Frag).Has x ↔ 1000 ≤ x ∧ x < 1000 + 64 := Iff.rfl
  by_cases k1 : (⟨2000, 64⟩ : Frag).Has x <;> by_cases k2 : (⟨1000, 64⟩ : Frag).Has x <;>
    simp only [sampleEnd, cover, k1, k2, if_true, if_false] <;> rw [h1] at k1 <;> rw [h2] at k2 <;> omega

example : (sampleEnd.live ++ sampleEnd.staged ++ sampleEnd.slots.flatten).Pairwise Apart :=
  (C26_no_overlap 64 sample sampleEnd sample_run sample_apart).1

example : ∃ t, step .compact sampleEnd = .ok t :=
  C26_safe_partial 64 (by decide) (by decide) (by decide) sample sampleEnd sample_run .compact trivial (by decide)

example : ∃ t a, find (wrapped 50) [5000] sampleEnd = .ok (t, some a) :=
  C62_alloc_answered_partial 64 6 (by decide) (by decide) (by decide) (by decide) sample sampleEnd sample_run 50
    (by decide) (by decide) (by decide) 5000 (by decide)

example : ∃ s, find (wrapped 8188) [0, 16384, 65536] (init 12288) = .ok (s, none) ∧ s.extents.length = 3 :=
  (C62_alloc_never_returns_violated [0, 16384, 65536] (by decide)).2

end Mtev.Arena
