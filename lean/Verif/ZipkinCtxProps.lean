import Verif.ZipkinCtx

/-!
Properties of spans attached to events: C134.

Specification: a reference is held by the program (it was given one and has not given it back) or by the context of an event. A
span must be there as long as a reference is held, be freed when the last one goes, and a span made for an event must be published,
once, when the event (or its callback) is over.
-/
namespace Mtev.ZipkinCtx

open Finset

variable {n : Nat}

/-- 1 if it is this span. -/
def one (o : Option Nat) (x : Nat) : Nat := if o = some x then 1 else 0

/-- References a context holds to span `x`. -/
def refs : Option Ctx → Nat → Nat
  | none, _ => 0
  | some c, x => one c.span x + one c.parent x + one c.client x

/-- Whether the context is to publish span `x`. -/
def owns : Option Ctx → Nat → Nat
  | none, _ => 0
  | some c, x => if c.my then one c.span x else 0

/-- References held to span `x`. -/
def held (st : St n) (x : Nat) : Nat := st.user x + ∑ e, refs (st.ctx e) x

/-- What a program may do: use spans it holds a reference to, or that are attached to an event which is not the one changed. -/
def Legal (st : St n) : Op n → Prop
  | .spanRef s => 0 < st.user s ∨ ∃ e, 0 < refs (st.ctx e) s
  | .spanDrop s => 0 < st.user s
  | .attach (some e) s _ _ _ => 0 < st.user s ∨ ∃ e', e' ≠ e ∧ 0 < refs (st.ctx e') s
  | .attach none _ _ _ _ => False
  | _ => True

/-- Known defect: an event with a named callback whose span was not sampled is freed. -/
def Crash (st : St n) : Op n → Prop
  | .finish e named => named = true ∧ ∃ c, st.ctx e = some c ∧ c.my = true ∧ c.span = none
  | _ => False

/-- An event whose callbacks are traced is not copied inside its callback, and no callback runs inside itself. -/
def Orderly (st : St n) : Op n → Prop
  | .copy _ f => ∀ c, st.ctx f = some c → c.parent ≠ none → c.my = false
  | .prep e _ => ∀ c, st.ctx e = some c → c.parent ≠ none → c.my = false
  | _ => True

/-- The states a program can reach. -/
inductive Reach : St n → Prop where
  | init : Reach (St.init n)
  | step {st st' : St n} {o : Op n} : Reach st → Legal st o → step st o = .ok st' → Reach st'

/-- The states reached without the copies described above. -/
inductive Calm : St n → Prop where
  | init : Calm (St.init n)
  | step {st st' : St n} {o : Op n} : Calm st → Legal st o → Orderly st o → step st o = .ok st' → Calm st'

/-! ## The invariant -/

theorem refs_some (c : Ctx) (x : Nat) : refs (some c) x = one c.span x + one c.parent x + one c.client x := rfl
theorem refs_none (x : Nat) : refs none x = 0 := rfl
theorem owns_some (c : Ctx) (x : Nat) : owns (some c) x = if c.my then one c.span x else 0 := rfl
theorem owns_none (x : Nat) : owns none x = 0 := rfl


/-- With contexts `p`, `k` references and `j` duties to publish are unaccounted for. -/
structure Inv (p : Fin n → Option Ctx) (st : St n) (k j : Nat → Nat) : Prop where
  rc : ∀ x, st.user x + (∑ e, refs (p e) x) + k x = st.rc x
  own : ∀ x, st.pub.count x + (∑ e, owns (p e) x) + j x = st.made.count x
  fresh : ∀ x, st.next ≤ x → st.rc x = 0 ∧ st.made.count x = 0
  once : ∀ x, st.made.count x ≤ 1

theorem Inv.move {p : Fin n → Option Ctx} {st : St n} {k j k' j' : Nat → Nat} (h : Inv p st k j) (e : Fin n) (c : Option Ctx)
    (hk : ∀ x, k' x + refs c x = k x + refs (p e) x) (hj : ∀ x, j' x + owns c x = j x + owns (p e) x) :
    Inv (upd p e c) st k' j' := by
  refine ⟨fun x => ?_, fun x => ?_, h.fresh, h.once⟩
  · have := sum_upd (fun c => refs c x) p e c
    have := h.rc x
    have := hk x
    omega
  · have := sum_upd (fun c => owns c x) p e c
    have := h.own x
    have := hj x
    omega

theorem Inv.slack {p : Fin n → Option Ctx} {st : St n} {k j k' j' : Nat → Nat} (h : Inv p st k j) (hk : ∀ x, k x = k' x) (hj : ∀ x, j x = j' x) :
    Inv p st k' j' := by
  rw [← funext hk, ← funext hj]
  exact h

theorem Inv.set {p : Fin n → Option Ctx} {st : St n} {k j : Nat → Nat} (h : Inv p st k j) (e : Fin n) (c : Option Ctx) :
    Inv p (set e c st) k j := ⟨h.rc, h.own, h.fresh, h.once⟩

/-- Same except for the counters. -/
structure Same (a b : St n) : Prop where
  ctx : b.ctx = a.ctx
  user : b.user = a.user

theorem put_eq (f : Nat → Nat) (s v x : Nat) : put f s v x = if x = s then v else f x := rfl

theorem one_some (s x : Nat) : one (some s) x = if x = s then 1 else 0 := by
  unfold one
  by_cases h : x = s
  · rw [if_pos h, if_pos (by rw [h])]
  · rw [if_neg h, if_neg (by simpa using fun e => h e.symm)]

theorem one_none (x : Nat) : one none x = 0 := by simp [one]

theorem ref_ok {p : Fin n → Option Ctx} {st : St n} {k j k' : Nat → Nat} (h : Inv p st k j) (s : Nat)
    (hs : 0 < st.user s + (∑ e, refs (p e) s) + k s) (hk : ∀ x, k' x = k x + one (some s) x) :
    ∃ st', ref s st = .ok st' ∧ Inv p st' k' j ∧ Same st st' := by
  have h0 : st.rc s ≠ 0 := by have := h.rc s; omega
  refine ⟨{ st with rc := put st.rc s (st.rc s + 1) }, by rw [ref, if_neg h0], ⟨fun x => ?_, h.own, fun x hx => ?_, h.once⟩, ⟨rfl, rfl⟩⟩
  · have := h.rc x
    have := hk x
    rw [one_some] at this
    simp only [put_eq]
    split <;> simp_all <;> omega
  · obtain ⟨h1, h2⟩ := h.fresh x hx
    refine ⟨?_, h2⟩
    simp only [put_eq]
    rw [if_neg (by rintro rfl; exact h0 h1)]
    exact h1

theorem drop_ok {p : Fin n → Option Ctx} {st : St n} {k j k' : Nat → Nat} (h : Inv p st k j) (o : Option Nat)
    (hk : ∀ x, k x = k' x + one o x) : ∃ st', drop o st = .ok st' ∧ Inv p st' k' j ∧ Same st st' := by
  cases o with
  | none => exact ⟨st, rfl, h.slack (fun x => by rw [hk x, one_none]; rfl) (fun _ => rfl), ⟨rfl, rfl⟩⟩
  | some s =>
    have h0 : st.rc s ≠ 0 := by
      have := h.rc s
      have h2 := hk s
      rw [one_some, if_pos rfl] at h2
      omega
    refine ⟨{ st with rc := put st.rc s (st.rc s - 1) }, by rw [drop, if_neg h0], ⟨fun x => ?_, h.own, fun x hx => ?_, h.once⟩, ⟨rfl, rfl⟩⟩
    · have := h.rc x
      have := hk x
      rw [one_some] at this
      simp only [put_eq]
      split <;> simp_all <;> omega
    · obtain ⟨h1, h2⟩ := h.fresh x hx
      refine ⟨?_, h2⟩
      simp only [put_eq]
      rw [if_neg (by rintro rfl; exact h0 h1)]
      exact h1

theorem publish_ok {p : Fin n → Option Ctx} {st : St n} {k j k' j' : Nat → Nat} (h : Inv p st k j) (o : Option Nat)
    (hk : ∀ x, k x = k' x + one o x) (hj : ∀ x, j x = j' x + one o x) :
    ∃ st', publish o st = .ok st' ∧ Inv p st' k' j' ∧ Same st st' := by
  cases o with
  | none => exact ⟨st, rfl, h.slack (fun x => by rw [hk x, one_none]; rfl) (fun x => by rw [hj x, one_none]; rfl), ⟨rfl, rfl⟩⟩
  | some s =>
    have h0 : st.rc s ≠ 0 := by
      have := h.rc s
      have h2 := hk s
      rw [one_some, if_pos rfl] at h2
      omega
    have h1 : Inv p { st with pub := st.pub ++ [s] } k j' := by
      refine ⟨h.rc, fun x => ?_, h.fresh, h.once⟩
      have h1 := h.own x
      have h2 := hj x
      rw [one_some] at h2
      simp only [List.count_append, List.count_singleton, beq_iff_eq]
      by_cases hx : x = s
      · subst hx; simp at *; omega
      · rw [if_neg (fun e => hx e.symm)]; rw [if_neg hx] at h2; omega
    obtain ⟨st', e1, e2, e3⟩ := drop_ok h1 (some s) hk
    exact ⟨st', by rw [publish, if_neg h0, e1], e2, ⟨e3.ctx, e3.user⟩⟩

theorem look_ok {p : Fin n → Option Ctx} {st : St n} {k j : Nat → Nat} (h : Inv p st k j) (s : Nat)
    (hs : 0 < st.user s + (∑ e, refs (p e) s) + k s) : look s st = .ok st := by
  have h0 : st.rc s ≠ 0 := by have := h.rc s; omega
  rw [look, if_neg h0]

theorem spanFor_ok {p : Fin n → Option Ctx} {st : St n} {k j : Nat → Nat} (h : Inv p st k j) (b : Bool) :
    Inv p (spanFor b st).2 (fun x => k x + one (spanFor b st).1 x) (fun x => j x + one (spanFor b st).1 x) ∧ Same st (spanFor b st).2 := by
  cases b with
  | false => exact ⟨by simpa [spanFor, one_none] using h, ⟨rfl, rfl⟩⟩
  | true =>
    refine ⟨⟨fun x => ?_, fun x => ?_, fun x hx => ?_, fun x => ?_⟩, ⟨rfl, rfl⟩⟩
    · have h1 := h.rc x
      have h2 := h.fresh st.next (le_refl _)
      simp only [spanFor, if_true, one_some, put_eq]
      by_cases hx : x = st.next
      · subst hx; simp only [if_true]; omega
      · simp only [if_neg hx]; omega
    · have h1 := h.own x
      simp only [spanFor, if_true, one_some, List.count_append, List.count_singleton, beq_iff_eq]
      by_cases hx : x = st.next
      · subst hx; simp only [if_true]; omega
      · rw [if_neg hx, if_neg (fun e => hx e.symm)]; omega
    · simp only [spanFor, if_true] at hx ⊢
      obtain ⟨h1, h2⟩ := h.fresh x (by omega)
      simp only [put_eq, List.count_append, List.count_singleton, beq_iff_eq]
      rw [if_neg (by omega), if_neg (by omega)]
      exact ⟨h1, by omega⟩
    · have h1 := h.once x
      have h2 := h.fresh st.next (le_refl _)
      simp only [spanFor, if_true, List.count_append, List.count_singleton, beq_iff_eq]
      by_cases hx : st.next = x
      · subst hx; simp only [if_true]; omega
      · rw [if_neg hx]; omega

theorem spanNew_ok {p : Fin n → Option Ctx} {st : St n} {k j : Nat → Nat} (h : Inv p st k j) (b : Bool) :
    Inv p (spanNew b st).2 (fun x => k x + one (spanNew b st).1 x) j ∧ Same st (spanNew b st).2 := by
  cases b with
  | false => exact ⟨by simpa [spanNew, one_none] using h, ⟨rfl, rfl⟩⟩
  | true =>
    refine ⟨⟨fun x => ?_, h.own, fun x hx => ?_, h.once⟩, ⟨rfl, rfl⟩⟩
    · have h1 := h.rc x
      have h2 := h.fresh st.next (le_refl _)
      simp only [spanNew, if_true, one_some, put_eq]
      by_cases hx : x = st.next
      · subst hx; simp only [if_true]; omega
      · simp only [if_neg hx]; omega
    · simp only [spanNew, if_true] at hx ⊢
      obtain ⟨h1, h2⟩ := h.fresh x (by omega)
      simp only [put_eq]
      rw [if_neg (by omega)]
      exact ⟨h1, h2⟩

theorem refO_ok {p : Fin n → Option Ctx} {st : St n} {k j k' : Nat → Nat} (h : Inv p st k j) (o : Option Nat)
    (hs : ∀ s, o = some s → 0 < st.user s + (∑ e, refs (p e) s) + k s) (hk : ∀ x, k' x = k x + one o x) :
    ∃ st', refO o st = .ok st' ∧ Inv p st' k' j ∧ Same st st' := by
  cases o with
  | none => exact ⟨st, rfl, h.slack (fun x => by rw [hk x, one_none]; rfl) (fun _ => rfl), ⟨rfl, rfl⟩⟩
  | some s => exact ref_ok h s (hs s rfl) hk

theorem ok_b {α β : Type} (a : α) (f : α → Out β) : (Out.ok a).bind f = f a := by rw [Out.bind]

theorem upd_self (p : Fin n → Option Ctx) (e : Fin n) : upd p e (p e) = p := by
  funext x
  unfold upd
  split
  · rename_i h; rw [h]
  · rfl

/-- Freeing a context gives back all it holds. -/
theorem ctxFree_ok {st : St n} {k j : Nat → Nat} (h : Inv st.ctx st k j) (e : Fin n) :
    ∃ st', ctxFree e st = .ok st' ∧ st'.ctx = upd st.ctx e none ∧ Inv st'.ctx st' k j ∧ st'.user = st.user := by
  unfold ctxFree
  cases hc : st.ctx e with
  | none => exact ⟨st, rfl, by rw [← hc, upd_self], h, rfl⟩
  | some c =>
    simp only
    have h0 := h.move e none (k' := fun x => k x + one c.span x + one c.parent x + one c.client x)
      (j' := fun x => j x + if c.my then one c.span x else 0) (fun x => by rw [hc]; simp only [refs_some, refs_none]; omega)
      (fun x => by rw [hc]; simp only [owns_some, owns_none]; omega)
    have h1 : ∃ a, (if c.my then publish c.span st else drop c.span st) = .ok a ∧
        Inv (upd st.ctx e none) a (fun x => k x + one c.parent x + one c.client x) j ∧ Same st a := by
      cases hm : c.my with
      | true =>
        simp only [hm, if_true] at h0 ⊢
        exact publish_ok h0 _ (fun x => by omega) (fun x => by omega)
      | false =>
        simp only [hm, Bool.false_eq_true, if_false, Nat.add_zero] at h0 ⊢
        exact drop_ok h0 _ (fun x => by omega)
    obtain ⟨a, a1, a2, a3⟩ := h1
    obtain ⟨b, b1, b2, b3⟩ := drop_ok a2 c.parent (k' := fun x => k x + one c.client x) (fun x => by omega)
    obtain ⟨d, d1, d2, d3⟩ := drop_ok b2 c.client (k' := k) (fun x => rfl)
    rw [a1, ok_b, b1, ok_b, d1, ok_b]
    refine ⟨_, rfl, ?_, ?_, ?_⟩
    · show upd d.ctx e none = _
      rw [d3.ctx, b3.ctx, a3.ctx]
    · have : (set e none d).ctx = upd st.ctx e none := by
        show upd d.ctx e none = _
        rw [d3.ctx, b3.ctx, a3.ctx]
      rw [this]
      exact d2.set e none
    · show d.user = _
      rw [d3.user, b3.user, a3.user]

/-- Outside its callback an event whose callbacks are traced has no span. -/
def Shape (p : Fin n → Option Ctx) : Prop := ∀ e c, p e = some c → c.parent ≠ none → c.my = false → c.span = none

theorem Shape.upd {p : Fin n → Option Ctx} (h : Shape p) (e : Fin n) (c : Option Ctx)
    (hc : ∀ d, c = some d → d.parent ≠ none → d.my = false → d.span = none) : Shape (upd p e c) := by
  intro e' d hd
  rcases upd_cases p e e' c with ⟨_, h2⟩ | ⟨_, h2⟩
  · rw [h2] at hd; exact hc d hd
  · rw [h2] at hd; exact h e' d hd

theorem refs_le_sum (p : Fin n → Option Ctx) (e : Fin n) (s : Nat) : refs (p e) s ≤ ∑ e, refs (p e) s :=
  Finset.single_le_sum (f := fun e => refs (p e) s) (fun _ _ => Nat.zero_le _) (Finset.mem_univ e)

theorem one_self (s : Nat) : one (some s) s = 1 := by simp [one]

/-- What a step leaves unaccounted for. -/
def After (st : St n) (k j : Nat → Nat) (o : Op n) (st' : St n) : Prop :=
  ∃ k' j', Inv st'.ctx st' k' j' ∧ ((∀ e s, o = .prep e s → ∀ c, st.ctx e = some c → c.parent ≠ none → c.span = none) → k' = k ∧ j' = j)

theorem After.same {st : St n} {k j : Nat → Nat} {o : Op n} {st' : St n} (h : Inv st'.ctx st' k j) : After st k j o st' :=
  ⟨k, j, h, fun _ => ⟨rfl, rfl⟩⟩

theorem attach_ok {st : St n} {k j : Nat → Nat} (h : Inv st.ctx st k j) (e : Fin n) (s : Nat) (child b : Bool) (lvl : Level)
    (hl : 0 < st.user s ∨ ∃ e', e' ≠ e ∧ 0 < refs (st.ctx e') s) :
    ∃ st', attach (some e) s child b lvl st = .ok st' ∧ Inv st'.ctx st' k j := by
  obtain ⟨a, a1, a2, a3, a4⟩ := ctxFree_ok h e
  have hs : 0 < a.user s + (∑ e, refs (a.ctx e) s) + k s := by
    rcases hl with hl | ⟨e', h1, h2⟩
    · rw [a4]; omega
    · have := refs_le_sum a.ctx e' s
      rw [a2, upd_other _ _ _ _ h1] at this
      rw [a2]
      omega
  have hae : a.ctx e = none := by rw [a2]; exact upd_same _ _ _
  simp only [attach]
  rw [a1, ok_b]
  cases child with
  | true =>
    simp only [if_true]
    rw [look_ok a3 s hs, ok_b]
    obtain ⟨b1, b2⟩ := spanFor_ok a3 b
    refine ⟨_, rfl, ?_⟩
    have h3 := b1.move e (some ⟨lvl, true, none, (spanFor b a).1, none⟩) (k' := k) (j' := j)
      (fun x => by rw [hae]; simp only [refs_some, refs_none, one_none]; omega) (fun x => by rw [hae]; simp only [owns_some, owns_none, if_true]; omega)
    show Inv (upd (spanFor b a).2.ctx e _) _ _ _
    rw [b2.ctx]
    exact h3.set e _
  | false =>
    simp only [Bool.false_eq_true, if_false]
    obtain ⟨d, d1, d2, d3⟩ := ref_ok a3 s hs (k' := fun x => k x + one (some s) x) (fun x => rfl)
    rw [d1, ok_b]
    refine ⟨_, rfl, ?_⟩
    have h3 := d2.move e (some ⟨lvl, false, none, some s, none⟩) (k' := k) (j' := j)
      (fun x => by rw [hae]; simp only [refs_some, refs_none, one_none]; omega)
      (fun x => by rw [hae]; simp only [owns_some, owns_none, Bool.false_eq_true, if_false])
    show Inv (upd d.ctx e _) _ _ _
    rw [d3.ctx]
    exact h3.set e _

theorem active_refs (c : Ctx) (s : Nat) (h : c.active = some s) : 0 < one c.span s + one c.parent s := by
  unfold Ctx.active at h
  cases hs : c.span with
  | none => rw [hs] at h; simp only at h; rw [h, one_self]; omega
  | some y => rw [hs] at h; simp only [Option.some.injEq] at h; subst h; rw [one_self]; omega

theorem clientNew_ok {st : St n} {k j : Nat → Nat} (h : Inv st.ctx st k j) (e : Fin n) (b : Bool) :
    ∃ st', clientNew e b st = .ok st' ∧ Inv st'.ctx st' k j := by
  unfold clientNew
  cases hc : st.ctx e with
  | none => exact ⟨st, rfl, h⟩
  | some c =>
    simp only
    cases hp : c.active with
    | none => exact ⟨st, rfl, h⟩
    | some s =>
      simp only
      have h1 := (h.move e (some { c with client := none }) (k' := fun x => k x + one c.client x) (j' := j)
        (fun x => by rw [hc]; simp only [refs_some, refs_none, one_none]; omega) (fun x => by rw [hc]; simp only [owns_some, owns_none])).set e (some { c with client := none })
      obtain ⟨d, d1, d2, d3⟩ := drop_ok h1 c.client (k' := k) (fun x => rfl)
      rw [d1, ok_b]
      have hs : 0 < d.user s + (∑ e', refs (upd st.ctx e (some { c with client := none }) e') s) + k s := by
        have := refs_le_sum (upd st.ctx e (some { c with client := none })) e s
        rw [upd_same] at this
        have h2 := active_refs c s hp
        simp only [refs_some] at this
        omega
      rw [look_ok d2 s hs, ok_b]
      obtain ⟨q1, q2⟩ := spanNew_ok d2 b
      refine ⟨_, rfl, ?_⟩
      have h3 := q1.move e (some { c with client := (spanNew b d).1 }) (k' := k) (j' := j)
        (fun x => by rw [upd_same]; simp only [refs_some, refs_none, one_none]; omega) (fun x => by rw [upd_same]; simp only [owns_some, owns_none])
      show Inv (upd (spanNew b d).2.ctx e _) _ _ _
      have h4 : upd (spanNew b d).2.ctx e (some { c with client := (spanNew b d).1 }) =
          upd (upd st.ctx e (some { c with client := none })) e (some { c with client := (spanNew b d).1 }) := by
        rw [q2.ctx, d3.ctx]
        rfl
      rw [h4]
      exact h3.set e _

theorem clientEnd_ok {st : St n} {k j : Nat → Nat} (h : Inv st.ctx st k j) (e : Fin n) :
    ∃ st', clientEnd e st = .ok st' ∧ Inv st'.ctx st' k j := by
  unfold clientEnd
  cases hc : st.ctx e with
  | none => exact ⟨st, rfl, h⟩
  | some c =>
    simp only
    have h1 := h.move e (some { c with client := none }) (k' := fun x => k x + one c.client x) (j' := j)
        (fun x => by rw [hc]; simp only [refs_some, refs_none, one_none]; omega) (fun x => by rw [hc]; simp only [owns_some, owns_none])
    obtain ⟨d, d1, d2, d3⟩ := drop_ok h1 c.client (k' := k) (fun x => rfl)
    rw [d1, ok_b]
    refine ⟨_, rfl, ?_⟩
    show Inv (upd d.ctx e _) _ _ _
    rw [d3.ctx]
    exact d2.set e _

theorem prep_ok {st : St n} {k j : Nat → Nat} (h : Inv st.ctx st k j) (e : Fin n) (b : Bool) :
    ∃ st', prep e b st = .ok st' ∧ After st k j (.prep e b) st' := by
  unfold prep
  cases hc : st.ctx e with
  | none => exact ⟨st, rfl, .same h⟩
  | some c =>
    simp only
    cases hp : c.parent with
    | none => exact ⟨st, rfl, .same h⟩
    | some s =>
      simp only
      by_cases hl : c.level ≠ .callbacks
      · rw [if_pos hl]; exact ⟨st, rfl, .same h⟩
      · rw [if_neg hl]
        have hs : 0 < st.user s + (∑ e', refs (st.ctx e') s) + k s := by
          have := refs_le_sum st.ctx e s
          rw [hc] at this
          simp only [refs_some, refs_none, hp, one_self] at this
          omega
        rw [look_ok h s hs, ok_b]
        obtain ⟨q1, q2⟩ := spanFor_ok h b
        refine ⟨_, rfl, fun x => k x + one c.span x, fun x => j x + (if c.my then one c.span x else 0), ?_, fun hx => ?_⟩
        · have h3 := q1.move e (some { c with span := (spanFor b st).1, my := true }) (k' := fun x => k x + one c.span x)
            (j' := fun x => j x + (if c.my then one c.span x else 0))
            (fun x => by rw [hc]; simp only [refs_some, refs_none, hp]; omega) (fun x => by rw [hc]; simp only [owns_some, owns_none, if_true]; omega)
          show Inv (upd (spanFor b st).2.ctx e _) _ _ _
          rw [q2.ctx]
          simp only [hp] at h3
          exact h3.set e _
        · have h4 := hx e b rfl c hc (by rw [hp]; exact Option.some_ne_none _)
          rw [h4]
          simp only [one_none, ite_self, Nat.add_zero, and_self]

theorem cleanup_ok {st : St n} {k j : Nat → Nat} (h : Inv st.ctx st k j) (e : Fin n) :
    ∃ st', cleanup e st = .ok st' ∧ Inv st'.ctx st' k j := by
  unfold cleanup
  cases hc : st.ctx e with
  | none => exact ⟨st, rfl, h⟩
  | some c =>
    simp only
    by_cases hl : c.parent = none ∨ c.level ≠ .callbacks ∨ c.my = false
    · rw [if_pos hl]; exact ⟨st, rfl, h⟩
    · rw [if_neg hl]
      push Not at hl
      have hm : c.my = true := by simpa using hl.2.2
      have h1 := h.move e (some { c with my := false, span := none }) (k' := fun x => k x + one c.span x) (j' := fun x => j x + one c.span x)
        (fun x => by rw [hc]; simp only [refs_some, refs_none, one_none]; omega)
        (fun x => by rw [hc]; simp only [owns_some, owns_none, hm, if_true, Bool.false_eq_true, if_false]; omega)
      obtain ⟨d, d1, d2, d3⟩ := publish_ok h1 c.span (k' := k) (j' := j) (fun x => rfl) (fun x => rfl)
      rw [d1, ok_b]
      refine ⟨_, rfl, ?_⟩
      show Inv (upd d.ctx e _) _ _ _
      rw [d3.ctx]
      exact d2.set e _

theorem start_ok {st : St n} {k j : Nat → Nat} (h : Inv st.ctx st k j) (e f : Fin n) (b : Bool) :
    ∃ st', start e f b st = .ok st' ∧ Inv st'.ctx st' k j := by
  unfold start
  by_cases he : st.ctx e ≠ none
  · rw [if_pos he]; exact ⟨st, rfl, h⟩
  · rw [if_neg he]
    have he' : st.ctx e = none := by simpa using he
    cases hc : st.ctx f with
    | none => exact ⟨st, rfl, h⟩
    | some p =>
      simp only
      obtain ⟨a, a1, a2, a3⟩ := refO_ok h p.span (k' := fun x => k x + one p.span x) (fun s hs => by
        have := refs_le_sum st.ctx f s
        rw [hc] at this
        simp only [refs_some, refs_none, hs, one_self] at this
        omega) (fun x => rfl)
      rw [a1, ok_b]
      cases hp : p.span with
      | none =>
        simp only
        refine ⟨_, rfl, ?_⟩
        show Inv (upd a.ctx e _) _ _ _
        rw [a3.ctx]
        exact (a2.move e _ (k' := k) (j' := j) (fun x => by rw [he', hp]; simp only [refs_some, refs_none, one_none]) (fun x => by rw [he']; simp only [owns_some, owns_none, Bool.false_eq_true, if_false])).set e _
      | some s =>
        simp only
        rw [hp] at a2
        by_cases h1 : p.level = .lifetime
        · rw [if_pos h1]
          have hs : 0 < a.user s + (∑ e', refs (st.ctx e') s) + (k s + one (some s) s) := by rw [one_self]; omega
          rw [look_ok a2 s hs, ok_b]
          obtain ⟨q1, q2⟩ := spanFor_ok a2 b
          obtain ⟨d, d1, d2, d3⟩ := drop_ok q1 (some s) (k' := fun x => k x + one (spanFor b a).1 x) (fun x => by omega)
          rw [d1, ok_b]
          refine ⟨_, rfl, ?_⟩
          show Inv (upd d.ctx e _) _ _ _
          rw [d3.ctx, q2.ctx, a3.ctx]
          exact (d2.move e _ (k' := k) (j' := j) (fun x => by rw [he']; simp only [refs_some, refs_none, one_none]; omega)
            (fun x => by rw [he']; simp only [owns_some, owns_none, if_true]; omega)).set e _
        · rw [if_neg h1]
          by_cases h2 : p.level = .callbacks
          · rw [if_pos h2]
            refine ⟨_, rfl, ?_⟩
            show Inv (upd a.ctx e _) _ _ _
            rw [a3.ctx]
            exact (a2.move e _ (k' := k) (j' := j) (fun x => by rw [he']; simp only [refs_some, refs_none, one_none]; omega) (fun x => by rw [he']; simp only [owns_some, owns_none, Bool.false_eq_true, if_false])).set e _
          · rw [if_neg h2]
            refine ⟨_, rfl, ?_⟩
            show Inv (upd a.ctx e _) _ _ _
            rw [a3.ctx]
            exact (a2.move e _ (k' := k) (j' := j) (fun x => by rw [he']; simp only [refs_some, refs_none, one_none]; omega) (fun x => by rw [he']; simp only [owns_some, owns_none, Bool.false_eq_true, if_false])).set e _

theorem finish_ok {st : St n} {k j : Nat → Nat} (h : Inv st.ctx st k j) (e : Fin n) (b : Bool) (hb : ¬ Crash st (.finish e b)) :
    ∃ st', finish e b st = .ok st' ∧ Inv st'.ctx st' k j := by
  obtain ⟨a, a1, _, a3, _⟩ := ctxFree_ok h e
  unfold finish
  cases hc : st.ctx e with
  | none => exact ⟨st, rfl, h⟩
  | some c =>
    simp only
    by_cases hm : (c.my && b) = true
    · rw [if_pos hm]
      simp only [Bool.and_eq_true] at hm
      cases hs : c.span with
      | none => exact absurd ⟨hm.2, c, hc, hm.1, hs⟩ hb
      | some s =>
        simp only
        rw [look_ok h s (by
          have := refs_le_sum st.ctx e s
          rw [hc] at this
          simp only [refs_some, refs_none, hs, one_self] at this
          omega), ok_b]
        exact ⟨a, a1, a3⟩
    · rw [if_neg hm]
      exact ⟨a, a1, a3⟩

theorem copy_ok {st : St n} {k j : Nat → Nat} (h : Inv st.ctx st k j) (e f : Fin n) :
    ∃ st', copy e f st = .ok st' ∧ Inv st'.ctx st' k j := by
  unfold copy
  by_cases he : st.ctx e ≠ none
  · rw [if_pos he]; exact ⟨st, rfl, h⟩
  · rw [if_neg he]
    have he' : st.ctx e = none := by simpa using he
    cases hc : st.ctx f with
    | none => exact ⟨st, rfl, h⟩
    | some c =>
      simp only
      have hef : e ≠ f := by rintro rfl; rw [he'] at hc; exact absurd hc (by simp)
      have h0 := (h.move f (some { c with my := false }) (k' := k) (j' := fun x => j x + owns (some c) x)
        (fun x => by rw [hc]; simp only [refs_some, refs_none]) (fun x => by rw [hc]; simp [owns_some, owns_none])).set f (some { c with my := false })
      have hin : ∀ s, 0 < refs (some c) s → 0 < ∑ e', refs (upd st.ctx f (some { c with my := false }) e') s := by
        intro s hs
        have := refs_le_sum (upd st.ctx f (some { c with my := false })) f s
        rw [upd_same] at this
        simp only [refs_some, refs_none] at this hs
        omega
      obtain ⟨a, a1, a2, a3⟩ := refO_ok h0 c.span (k' := fun x => k x + one c.span x) (fun s hs => by
        have := hin s (by simp only [refs_some, refs_none, hs, one_self]; omega)
        omega) (fun x => rfl)
      obtain ⟨b, b1, b2, b3⟩ := refO_ok a2 c.parent (k' := fun x => k x + one c.span x + one c.parent x) (fun s hs => by
        have := hin s (by simp only [refs_some, refs_none, hs, one_self]; omega)
        omega) (fun x => rfl)
      obtain ⟨d, d1, d2, d3⟩ := refO_ok b2 c.client (k' := fun x => k x + one c.span x + one c.parent x + one c.client x) (fun s hs => by
        have := hin s (by simp only [refs_some, refs_none, hs, one_self]; omega)
        omega) (fun x => rfl)
      rw [a1, ok_b, b1, ok_b, d1, ok_b]
      refine ⟨_, rfl, ?_⟩
      show Inv (upd d.ctx e _) _ _ _
      rw [d3.ctx, b3.ctx, a3.ctx]
      show Inv (upd (upd st.ctx f _) e _) _ _ _
      exact (d2.move e (some c) (k' := k) (j' := j) (fun x => by rw [upd_other _ _ _ _ hef, he']; simp only [refs_some, refs_none]; omega)
        (fun x => by rw [upd_other _ _ _ _ hef, he']; simp only [owns_none, Nat.add_zero])).set e _

theorem step_ok {st : St n} {k j : Nat → Nat} (h : Inv st.ctx st k j) (o : Op n) (hl : Legal st o) (hc : ¬ Crash st o) :
    ∃ st', step st o = .ok st' ∧ After st k j o st' := by
  cases o with
  | spanNew b =>
    obtain ⟨q1, q2⟩ := spanNew_ok h b
    simp only [step]
    cases hb : b with
    | false => exact ⟨st, rfl, .same h⟩
    | true =>
      subst hb
      simp only [spanNew, if_true]
      refine ⟨_, rfl, .same ⟨fun x => ?_, h.own, q1.fresh, h.once⟩⟩
      have := q1.rc x
      simp only [spanNew, if_true, one_some] at this
      simp only [put_eq] at this ⊢
      by_cases hx : x = st.next
      · subst hx; simp only [if_true] at this ⊢; omega
      · simp only [if_neg hx] at this ⊢; omega
  | spanRef s =>
    obtain ⟨a, a1, a2, a3⟩ := ref_ok h s (k' := fun x => k x + one (some s) x) (by
      rcases hl with hl | ⟨e, hl⟩
      · omega
      · have := refs_le_sum st.ctx e s; omega) (fun x => rfl)
    simp only [step]
    rw [a1, ok_b]
    refine ⟨_, rfl, .same ⟨fun x => ?_, ?_, a2.fresh, a2.once⟩⟩
    · have h1 := a2.rc x
      simp only [a3.ctx, a3.user, put_eq, one_some] at h1 ⊢
      by_cases hx : x = s
      · subst hx; simp only [if_true] at h1 ⊢; omega
      · simp only [if_neg hx] at h1 ⊢; omega
    · simp only [a3.ctx]; exact a2.own
  | spanDrop s =>
    have hu : 0 < st.user s := hl
    have h1 : Inv st.ctx { st with user := put st.user s (st.user s - 1) } (fun x => k x + one (some s) x) j := by
      refine ⟨fun x => ?_, h.own, h.fresh, h.once⟩
      have := h.rc x
      simp only [put_eq, one_some]
      by_cases hx : x = s
      · subst hx; simp only [if_true]; omega
      · simp only [if_neg hx]; omega
    obtain ⟨a, a1, a2, a3⟩ := drop_ok h1 (some s) (k' := k) (fun x => rfl)
    simp only [step]
    have h0 : st.rc s ≠ 0 := by have := h.rc s; omega
    simp only [drop, if_neg h0, ok_b] at a1 ⊢
    refine ⟨_, rfl, .same ?_⟩
    simp only [Out.ok.injEq] at a1
    subst a1
    exact a2
  | attach e s c b l =>
    cases e with
    | none => exact hl.elim
    | some e =>
      obtain ⟨a, a1, a2⟩ := attach_ok h e s c b l hl
      exact ⟨a, a1, .same a2⟩
  | clientNew e b =>
    obtain ⟨a, a1, a2⟩ := clientNew_ok h e b
    exact ⟨a, a1, .same a2⟩
  | clientEnd e =>
    obtain ⟨a, a1, a2⟩ := clientEnd_ok h e
    exact ⟨a, a1, .same a2⟩
  | prep e b => exact prep_ok h e b
  | cleanup e =>
    obtain ⟨a, a1, a2⟩ := cleanup_ok h e
    exact ⟨a, a1, .same a2⟩
  | start e f b =>
    obtain ⟨a, a1, a2⟩ := start_ok h e f b
    exact ⟨a, a1, .same a2⟩
  | finish e b =>
    obtain ⟨a, a1, a2⟩ := finish_ok h e b hc
    exact ⟨a, a1, .same a2⟩
  | copy e f =>
    obtain ⟨a, a1, a2⟩ := copy_ok h e f
    exact ⟨a, a1, .same a2⟩

theorem bind_ok {α β : Type} {a : Out α} {f : α → Out β} {r : β} (h : a.bind f = .ok r) : ∃ x, a = .ok x ∧ f x = .ok r := by
  cases a with
  | ok x => rw [ok_b] at h; exact ⟨x, rfl, h⟩
  | ub => rw [Out.bind] at h; exact absurd h (by simp)
  | abort => rw [Out.bind] at h; exact absurd h (by simp)

theorem ref_ctx {s : Nat} {st st' : St n} (h : ref s st = .ok st') : st'.ctx = st.ctx := by
  unfold ref at h
  split at h
  · exact absurd h (by simp)
  · cases h; rfl

theorem drop_ctx {o : Option Nat} {st st' : St n} (h : drop o st = .ok st') : st'.ctx = st.ctx := by
  cases o with
  | none => cases h; rfl
  | some s =>
    simp only [drop] at h
    split at h
    · exact absurd h (by simp)
    · cases h; rfl

theorem publish_ctx {o : Option Nat} {st st' : St n} (h : publish o st = .ok st') : st'.ctx = st.ctx := by
  cases o with
  | none => cases h; rfl
  | some s =>
    simp only [publish] at h
    split at h
    · exact absurd h (by simp)
    · have h2 := drop_ctx h
      exact h2

theorem look_ctx {s : Nat} {st st' : St n} (h : look s st = .ok st') : st'.ctx = st.ctx := by
  unfold look at h
  split at h
  · exact absurd h (by simp)
  · cases h; rfl

theorem refO_ctx {o : Option Nat} {st st' : St n} (h : refO o st = .ok st') : st'.ctx = st.ctx := by
  cases o with
  | none => cases h; rfl
  | some s => exact ref_ctx h

theorem spanFor_ctx (b : Bool) (st : St n) : (spanFor b st).2.ctx = st.ctx := by cases b <;> rfl
theorem spanNew_ctx (b : Bool) (st : St n) : (spanNew b st).2.ctx = st.ctx := by cases b <;> rfl

theorem ctxFree_shape {e : Fin n} {st st' : St n} (h : ctxFree e st = .ok st') (hs : Shape st.ctx) : Shape st'.ctx := by
  unfold ctxFree at h
  cases hc : st.ctx e with
  | none => rw [hc] at h; cases h; exact hs
  | some c =>
    rw [hc] at h
    simp only at h
    obtain ⟨b, h1, h⟩ := bind_ok h
    obtain ⟨a, h0, h1⟩ := bind_ok h1
    obtain ⟨d, h2, h⟩ := bind_ok h
    cases h
    have h3 : a.ctx = st.ctx := by
      split at h0
      · exact publish_ctx h0
      · exact drop_ctx h0
    show Shape (upd d.ctx e none)
    rw [drop_ctx h2, drop_ctx h1, h3]
    exact hs.upd e _ (by simp)

theorem step_shape {st st' : St n} {o : Op n} (h : step st o = .ok st') (ho : Orderly st o) (hs : Shape st.ctx) : Shape st'.ctx := by
  cases o with
  | spanNew b =>
    simp only [step] at h
    cases b with
    | false => cases h; exact hs
    | true => cases h; exact hs
  | spanRef s =>
    simp only [step] at h
    obtain ⟨a, h1, h⟩ := bind_ok h
    cases h
    show Shape a.ctx
    rw [ref_ctx h1]; exact hs
  | spanDrop s =>
    simp only [step] at h
    obtain ⟨a, h1, h⟩ := bind_ok h
    cases h
    show Shape a.ctx
    rw [drop_ctx h1]; exact hs
  | attach e s c b l =>
    cases e with
    | none => simp only [step, attach] at h; exact absurd h (by simp)
    | some e =>
      simp only [step, attach] at h
      obtain ⟨a, h1, h⟩ := bind_ok h
      have h2 := ctxFree_shape h1 hs
      cases c with
      | true =>
        simp only [if_true] at h
        obtain ⟨d, h3, h⟩ := bind_ok h
        cases h
        show Shape (upd (spanFor b d).2.ctx e _)
        rw [spanFor_ctx, look_ctx h3]
        exact h2.upd e _ (by rintro _ ⟨⟩; simp)
      | false =>
        simp only [Bool.false_eq_true, if_false] at h
        obtain ⟨d, h3, h⟩ := bind_ok h
        cases h
        show Shape (upd d.ctx e _)
        rw [ref_ctx h3]
        exact h2.upd e _ (by rintro _ ⟨⟩; simp)
  | clientNew e b =>
    simp only [step, clientNew] at h
    cases hc : st.ctx e with
    | none => rw [hc] at h; cases h; exact hs
    | some c =>
      rw [hc] at h
      simp only at h
      cases hp : c.active with
      | none => rw [hp] at h; cases h; exact hs
      | some p =>
        rw [hp] at h
        simp only at h
        obtain ⟨a, h1, h⟩ := bind_ok h
        obtain ⟨d, h2, h⟩ := bind_ok h
        cases h
        show Shape (upd (spanNew b d).2.ctx e _)
        rw [spanNew_ctx, look_ctx h2, drop_ctx h1]
        exact (hs.upd e _ (by rintro _ ⟨⟩; exact hs e c hc)).upd e _ (by rintro _ ⟨⟩; exact hs e c hc)
  | clientEnd e =>
    simp only [step, clientEnd] at h
    cases hc : st.ctx e with
    | none => rw [hc] at h; cases h; exact hs
    | some c =>
      rw [hc] at h
      simp only at h
      obtain ⟨a, h1, h⟩ := bind_ok h
      cases h
      show Shape (upd a.ctx e _)
      rw [drop_ctx h1]
      exact hs.upd e _ (by rintro _ ⟨⟩; exact hs e c hc)
  | prep e b =>
    simp only [step, prep] at h
    cases hc : st.ctx e with
    | none => rw [hc] at h; cases h; exact hs
    | some c =>
      rw [hc] at h
      simp only at h
      cases hp : c.parent with
      | none => rw [hp] at h; cases h; exact hs
      | some p =>
        rw [hp] at h
        simp only at h
        split at h
        · cases h; exact hs
        · obtain ⟨a, h1, h⟩ := bind_ok h
          cases h
          show Shape (upd (spanFor b a).2.ctx e _)
          rw [spanFor_ctx, look_ctx h1]
          exact hs.upd e _ (by rintro _ ⟨⟩; simp)
  | cleanup e =>
    simp only [step, cleanup] at h
    cases hc : st.ctx e with
    | none => rw [hc] at h; cases h; exact hs
    | some c =>
      rw [hc] at h
      simp only at h
      split at h
      · cases h; exact hs
      · obtain ⟨a, h1, h⟩ := bind_ok h
        cases h
        show Shape (upd a.ctx e _)
        rw [publish_ctx h1]
        exact hs.upd e _ (by rintro _ ⟨⟩; simp)
  | start e f b =>
    simp only [step, start] at h
    split at h
    · cases h; exact hs
    · cases hc : st.ctx f with
      | none => rw [hc] at h; cases h; exact hs
      | some p =>
        rw [hc] at h
        simp only at h
        obtain ⟨a, h1, h⟩ := bind_ok h
        have ha := refO_ctx h1
        cases hp : p.span with
        | none =>
          rw [hp] at h
          cases h
          show Shape (upd a.ctx e _)
          rw [ha]
          exact hs.upd e _ (by rintro _ ⟨⟩; simp)
        | some s =>
          rw [hp] at h
          simp only at h
          split at h
          · obtain ⟨d, h2, h⟩ := bind_ok h
            obtain ⟨g, h3, h⟩ := bind_ok h
            cases h
            show Shape (upd g.ctx e _)
            rw [drop_ctx h3, spanFor_ctx, look_ctx h2, ha]
            exact hs.upd e _ (by rintro _ ⟨⟩; simp)
          · split at h
            · cases h
              show Shape (upd a.ctx e _)
              rw [ha]
              exact hs.upd e _ (by rintro _ ⟨⟩; simp)
            · cases h
              show Shape (upd a.ctx e _)
              rw [ha]
              exact hs.upd e _ (by rintro _ ⟨⟩; simp)
  | finish e b =>
    simp only [step, finish] at h
    cases hc : st.ctx e with
    | none => rw [hc] at h; cases h; exact hs
    | some c =>
      rw [hc] at h
      simp only at h
      split at h
      · cases hp : c.span with
        | none => rw [hp] at h; exact absurd h (by simp)
        | some s =>
          rw [hp] at h
          simp only at h
          obtain ⟨a, h1, h⟩ := bind_ok h
          exact ctxFree_shape h (by rw [look_ctx h1]; exact hs)
      · exact ctxFree_shape h hs
  | copy e f =>
    simp only [step, copy] at h
    split at h
    · cases h; exact hs
    · cases hc : st.ctx f with
      | none => rw [hc] at h; cases h; exact hs
      | some c =>
        rw [hc] at h
        simp only at h
        obtain ⟨a, h1, h⟩ := bind_ok h
        obtain ⟨b, h2, h⟩ := bind_ok h
        obtain ⟨d, h3, h⟩ := bind_ok h
        cases h
        show Shape (upd d.ctx e _)
        rw [refO_ctx h3, refO_ctx h2, refO_ctx h1]
        exact (hs.upd f _ (by rintro _ ⟨⟩; exact fun h1 _ => hs f c hc h1 (ho c hc h1))).upd e _ (by rintro _ ⟨⟩; exact hs f c hc)

theorem inv_init : Inv (St.init n).ctx (St.init n) (fun _ => 0) (fun _ => 0) := by
  refine ⟨fun x => ?_, fun x => ?_, fun x _ => ⟨rfl, rfl⟩, fun x => ?_⟩ <;> simp [St.init, refs, owns]

theorem crash_ub {st : St n} {o : Op n} (h : Crash st o) : step st o = .ub := by
  cases o <;> try exact h.elim
  rename_i e b
  obtain ⟨hb, c, h1, h2, h3⟩ := h
  simp only [step, finish, h1, h2, hb, Bool.and_self, if_true, h3]

theorem reach_inv {st : St n} (h : Reach st) : ∃ k j, Inv st.ctx st k j := by
  induction h with
  | init => exact ⟨_, _, inv_init⟩
  | @step st st' o h1 h2 h3 ih =>
    obtain ⟨k, j, hi⟩ := ih
    have hc : ¬ Crash st o := fun hc => by rw [crash_ub hc] at h3; exact absurd h3 (by simp)
    obtain ⟨s2, e1, k', j', e2, _⟩ := step_ok hi o h2 hc
    rw [h3] at e1
    cases e1
    exact ⟨k', j', e2⟩

theorem calm_inv {st : St n} (h : Calm st) : Inv st.ctx st (fun _ => 0) (fun _ => 0) ∧ Shape st.ctx := by
  induction h with
  | init => exact ⟨inv_init, fun e c hc => absurd hc (by simp [St.init])⟩
  | @step st st' o h1 h2 h4 h3 ih =>
    obtain ⟨hi, hs⟩ := ih
    have hc : ¬ Crash st o := fun hc => by rw [crash_ub hc] at h3; exact absurd h3 (by simp)
    obtain ⟨s2, e1, k', j', e2, e3⟩ := step_ok hi o h2 hc
    rw [h3] at e1
    cases e1
    obtain ⟨rfl, rfl⟩ := e3 (by
      rintro e b rfl c h5 h6
      exact hs e c h5 h6 (h4 c h5 h6))
    exact ⟨e2, step_shape h3 h4 hs⟩

/-! ## C134 -/

/-- **C134** (part) Whatever a program that uses only spans it has does with its spans and events, no freed span is used. Missing:
freeing an event whose own span was not sampled, see `C134_crash_violated`. -/
theorem C134_safe_partial (st : St n) (h : Reach st) (o : Op n) (hl : Legal st o) (hc : ¬ Crash st o) : ∃ st', step st o = .ok st' := by
  obtain ⟨k, j, hi⟩ := reach_inv h
  obtain ⟨st', h1, _⟩ := step_ok hi o hl hc
  exact ⟨st', h1⟩

/-- **C134** A span somebody holds is not freed, and its counter is at least the number of references held. -/
theorem C134_alive (st : St n) (h : Reach st) (s : Nat) : held st s ≤ st.rc s := by
  obtain ⟨k, j, hi⟩ := reach_inv h
  have := hi.rc s
  unfold held
  omega

/-- **C134** A span made for an event is published by the events at most once. -/
theorem C134_once (st : St n) (h : Reach st) (s : Nat) : st.pub.count s ≤ st.made.count s ∧ st.made.count s ≤ 1 := by
  obtain ⟨k, j, hi⟩ := reach_inv h
  have := hi.own s
  exact ⟨by omega, hi.once s⟩

/-- **C134** (part) If events whose callbacks are traced are not copied inside their callbacks, a span's counter is the number of
references held: it is freed with the last of them. -/
theorem C134_counted_partial (st : St n) (h : Calm st) (s : Nat) : st.rc s = held st s := by
  have := (calm_inv h).1.rc s
  unfold held
  omega

/-- **C134** (part) ... and once the events are gone every span made for one has been published, just once. -/
theorem C134_published_partial (st : St n) (h : Calm st) (hn : ∀ e, st.ctx e = none) (s : Nat) (hs : s ∈ st.made) : st.pub.count s = 1 := by
  obtain ⟨hi, _⟩ := calm_inv h
  have h1 := hi.own s
  have h2 := hi.once s
  have h3 : ∑ e, owns (st.ctx e) s = 0 := Finset.sum_eq_zero fun e _ => by rw [hn e]; rfl
  have h4 := List.count_pos_iff.2 hs
  omega

/-- What can be seen of a state: the counters, the spans made for events, those published, the contexts. -/
structure View where
  rc : List Nat
  made : List Nat
  pub : List Nat
  ctx : List (Option Ctx)
  deriving DecidableEq

/-- What a run of calls leaves. -/
def result (n : Nat) (os : List (Op n)) : Out View :=
  (runs (St.init n) os).bind fun st => .ok ⟨(List.range st.next).map st.rc, st.made, st.pub, (List.finRange n).map st.ctx⟩

/-- A program's span attached to an event, an event started by it with its own span, callbacks, and everything given back. -/
example : result 2 [.spanNew true, .attach (some 0) 0 true true .callbacks, .spanDrop 0, .start 1 0 true, .clientNew 1 true, .prep 1 true,
    .cleanup 1, .prep 1 true, .cleanup 1, .finish 0 true, .finish 1 true] =
    .ok ⟨[0, 0, 0, 0, 0], [1, 3, 4], [3, 4, 1], [none, none]⟩ := by decide +kernel

/-- **C134** What an event gets of the one that runs when it is made: a span of its own if lifetimes are traced, the running one's as
parent if callbacks are, and the running one's otherwise. -/
theorem C134_inherit (st st' : St n) (e f : Fin n) (b : Bool) (p : Ctx) (s : Nat) (he : st.ctx e = none) (hf : st.ctx f = some p) (hs : p.span = some s)
    (h : step st (.start e f b) = .ok st') :
    st'.ctx e = some (match p.level with
      | .lifetime => ⟨.lifetime, true, none, if b then some st.next else none, none⟩
      | .callbacks => ⟨.callbacks, false, some s, none, none⟩
      | .none => ⟨.none, false, none, some s, none⟩) ∧
    st'.made = st.made ++ (if p.level = .lifetime ∧ b = true then [st.next] else []) := by
  have hr : st.rc s ≠ 0 := by
    intro h0
    simp only [step, start, he, ne_eq, not_true_eq_false, if_false, hf, hs, refO, ref, h0, if_true, Out.bind] at h
    exact absurd h (by simp)
  have hn : ∀ q : Nat, (put st.rc s (st.rc s + 1)) s ≠ 0 := fun _ => by simp [put]
  simp only [step, start, he, ne_eq, not_true_eq_false, if_false, hf, hs, refO, ref, hr, ok_b, look] at h
  cases hl : p.level <;> simp only [hl, reduceCtorEq, if_true, if_false, false_and, true_and] at h ⊢
  · cases h; simp [set]
  · rw [if_neg (hn 0), ok_b] at h
    obtain ⟨g, h1, h⟩ := bind_ok h
    cases h
    simp only [drop] at h1
    split at h1
    · exact absurd h1 (by simp)
    · cases h1
      cases b <;> simp [set, spanFor]
  · cases h; simp [set]

/-- **C134** Around a callback that is traced: a span is made before and published after it. -/
theorem C134_callback (st a d : St n) (e : Fin n) (c : Ctx) (p : Nat) (h : st.ctx e = some c) (hl : c.level = .callbacks) (hp : c.parent = some p)
    (h1 : step st (.prep e true) = .ok a) (h2 : step a (.cleanup e) = .ok d) :
    (∃ c', a.ctx e = some c' ∧ c'.active = some st.next) ∧ d.made = st.made ++ [st.next] ∧ d.pub = st.pub ++ [st.next] ∧
      d.ctx e = some { c with span := none, my := false } := by
  simp only [step, prep, h, hp, hl, ne_eq, not_true_eq_false, if_false] at h1
  obtain ⟨x, hx, h3⟩ := bind_ok h1
  have hx' : x = st := by
    unfold look at hx
    split at hx
    · exact absurd hx (by simp)
    · cases hx; rfl
  subst hx'
  clear h1 hx
  cases h3
  simp only [step, cleanup, set, spanFor, upd_same, if_true, reduceCtorEq, ne_eq, not_true_eq_false, false_or, if_false, Bool.true_eq_false] at h2 ⊢
  obtain ⟨y, hy, h2⟩ := bind_ok h2
  cases h2
  simp only [publish, drop] at hy
  split at hy
  · exact absurd hy (by simp)
  · clear h2
    cases hy
    refine ⟨⟨_, rfl, rfl⟩, rfl, rfl, ?_⟩
    simp [hl, hp]

/-- **C134** fails for an event with a span of its own that is not sampled: freeing the event reads through NULL. -/
theorem C134_crash_violated (st : St n) (e : Fin n) (c : Ctx) (h : st.ctx e = some c) (hm : c.my = true) (hs : c.span = none) :
    step st (.finish e true) = .ub := crash_ub ⟨rfl, c, h, hm, hs⟩

/-- Such an event is one to which a child span was attached that was not sampled. -/
example : result 1 [.spanNew true, .attach (some 0) 0 true false .lifetime] = .ok ⟨[1], [], [], [some ⟨.lifetime, true, none, none, none⟩]⟩ ∧
    result 1 [.spanNew true, .attach (some 0) 0 true false .lifetime, .finish 0 true] = .ub := by decide +kernel

/-- **C134** fails for an event traced by callback that is copied inside its callback (the usual way to move a socket on): when the
callback of the copy runs, the copy's span is forgotten; it is neither published nor freed although everything has been given back. -/
theorem C134_copy_violated : result 3 [.spanNew true, .attach (some 0) 0 false true .callbacks, .spanDrop 0, .start 1 0 true, .prep 1 true, .copy 2 1,
    .cleanup 1, .finish 1 true, .prep 2 true, .cleanup 2, .finish 2 true, .finish 0 true] =
    .ok ⟨[0, 1, 0], [1, 2], [2], [none, none, none]⟩ := by decide +kernel

/-- **C134** fails if an event's own active span is attached to it: it is freed first and used then. -/
theorem C134_attach_violated (child : Bool) : result 1 [.spanNew true, .attach (some 0) 0 true true .lifetime, .attach (some 0) 1 child true .lifetime] = .ub := by
  cases child <;> decide +kernel

/-- **C134** fails for the documented way to attach a span to the current event. -/
theorem C134_null_violated (st : St n) (s : Nat) (child sampled : Bool) (lvl : Level) : step st (.attach none s child sampled lvl) = .ub := rfl

end Mtev.ZipkinCtx
