import Verif.EvFd

/-!
The lock of a descriptor in the model `EvFd`: who holds it, and what `executor` says, in every state that can be
reached by any actions at all.
-/

namespace Mtev.EvFd

variable {n : Nat} (fdOf : Nat → Nat)

/-- The descriptor whose lock the thread holds in this frame while `executor` names it. -/
def Frame.st (f : Nat) : Frame n → Bool
  | .body true j => j.fd fdOf = f
  | .put true e _ _ => fdOf e = f
  | .del true g _ => g = f
  | .readd e _ => fdOf e = f
  | .relA g _ => g = f
  | .cb e _ => fdOf e = f
  | .fin e _ => fdOf e = f
  | .mvDel e _ => fdOf e = f
  | .mvAdd e _ => fdOf e = f
  | .modE e _ => fdOf e = f
  | .setM e _ => fdOf e = f
  | _ => false

/-- The thread holds the lock of `f` because of this frame. -/
def Frame.ow (f : Nat) : Frame n → Bool
  | .setEx j => j.fd fdOf = f
  | .relB g _ => g = f
  | fr => fr.st fdOf f

def cntS (f : Nat) (l : List (Frame n)) : Nat := l.countP (Frame.st fdOf f)
def cntO (f : Nat) (l : List (Frame n)) : Nat := l.countP (Frame.ow fdOf f)

/-- What an action of `t` does to the lock of `f`. -/
inductive Eff (f : Nat) (s s' : St n) (t : Fin n) : Prop
  | same (hl : s'.lock f = s.lock f) (he : s'.ex f = s.ex f) (ho : cntO fdOf f (s'.stk t) = cntO fdOf f (s.stk t))
      (hs : cntS fdOf f (s'.stk t) = cntS fdOf f (s.stk t))
  | acq (h : s.lock f = false) (hl : s'.lock f = true) (he : s'.ex f = s.ex f)
      (ho : cntO fdOf f (s'.stk t) = cntO fdOf f (s.stk t) + 1) (hs : cntS fdOf f (s'.stk t) = cntS fdOf f (s.stk t))
  | setEx (hl : s'.lock f = s.lock f) (he : s'.ex f = some t) (ho : cntO fdOf f (s'.stk t) = cntO fdOf f (s.stk t))
      (hs : cntS fdOf f (s'.stk t) = cntS fdOf f (s.stk t) + 1) (h : cntS fdOf f (s'.stk t) ≤ cntO fdOf f (s'.stk t))
  | relA (hl : s'.lock f = s.lock f) (he : s'.ex f = none) (ho : cntO fdOf f (s'.stk t) = cntO fdOf f (s.stk t))
      (hs : cntS fdOf f (s.stk t) = cntS fdOf f (s'.stk t) + 1)
  | relB (hl : s'.lock f = false) (he : s'.ex f = s.ex f) (ho : cntO fdOf f (s.stk t) = cntO fdOf f (s'.stk t) + 1)
      (hs : cntS fdOf f (s'.stk t) = cntS fdOf f (s.stk t)) (h : cntS fdOf f (s.stk t) < cntO fdOf f (s.stk t))

theorem st_ow {f : Nat} {fr : Frame n} (h : fr.st fdOf f = true) : fr.ow fdOf f = true := by
  cases fr <;> simp_all [Frame.st, Frame.ow]

theorem cntS_le (f : Nat) (l : List (Frame n)) : cntS fdOf f l ≤ cntO fdOf f l := by
  unfold cntS cntO
  apply List.countP_mono_left
  intro x _ h
  exact st_ow fdOf h

@[simp] theorem nxt_stk (s : St n) (t : Fin n) (l : List (Frame n)) : (nxt s t l).stk t = l := by simp [nxt]
@[simp] theorem nxt_lock (s : St n) (t : Fin n) (l : List (Frame n)) : (nxt s t l).lock = s.lock := rfl
@[simp] theorem nxt_ex (s : St n) (t : Fin n) (l : List (Frame n)) : (nxt s t l).ex = s.ex := rfl
@[simp] theorem nxt_slot (s : St n) (t : Fin n) (l : List (Frame n)) : (nxt s t l).slot = s.slot := rfl
@[simp] theorem nxt_mask (s : St n) (t : Fin n) (l : List (Frame n)) : (nxt s t l).mask = s.mask := rfl
@[simp] theorem nxt_owner (s : St n) (t : Fin n) (l : List (Frame n)) : (nxt s t l).owner = s.owner := rfl
@[simp] theorem nxt_intr (s : St n) (t : Fin n) (l : List (Frame n)) : (nxt s t l).intr = s.intr := rfl
@[simp] theorem nxt_queue (s : St n) (t : Fin n) (l : List (Frame n)) : (nxt s t l).queue = s.queue := rfl
@[simp] theorem cross_stk (s : St n) (e : Nat) (m : Mask) : (cross s e m).stk = s.stk := rfl
@[simp] theorem cross_lock (s : St n) (e : Nat) (m : Mask) : (cross s e m).lock = s.lock := rfl
@[simp] theorem cross_ex (s : St n) (e : Nat) (m : Mask) : (cross s e m).ex = s.ex := rfl

@[simp] theorem cntO_cons (f : Nat) (fr : Frame n) (l) : cntO fdOf f (fr :: l) = cntO fdOf f l + if fr.ow fdOf f then 1 else 0 := by
  simp [cntO, List.countP_cons]
@[simp] theorem cntS_cons (f : Nat) (fr : Frame n) (l) : cntS fdOf f (fr :: l) = cntS fdOf f l + if fr.st fdOf f then 1 else 0 := by
  simp [cntS, List.countP_cons]

/-- Only the acting thread's stack changes. -/
theorem act_other (s : St n) (t u : Fin n) (a : Act n) (h : u ≠ t) : (act fdOf s t a).stk u = s.stk u := by
  have hn : ∀ (s' : St n) l, (nxt s' t l).stk u = s'.stk u := fun s' l => by simp [nxt, upd_other _ _ _ _ h]
  unfold act
  split
  · rfl
  cases a with
  | go =>
    simp only
    split
    · next fr rest _ =>
      cases fr with
      | body own j =>
        cases j <;> simp only [frameStep, bodyStep] <;> (try split) <;> (try split) <;> simp only [hn, cross_stk]
      | fin e nm => simp only [frameStep, finStep]; repeat' split
                    all_goals first | rfl | simp only [hn]
      | _ => simp only [frameStep] <;> (try split) <;> first | rfl | simp only [hn, cross_stk]
    · rfl
  | setOwner e v =>
    simp only
    repeat' split
    all_goals first | rfl | simp only [hn]
  | fire =>
    simp only
    repeat' split
    all_goals first | rfl | simp only [hn]
  | _ =>
    simp only
    repeat' split
    all_goals first | rfl | simp only [hn]

theorem ite_or (f g : Nat) {a b : Nat} : (if (decide (g = f)) = true then a else b) = if g = f then a else b := by simp

theorem act_eff (f : Nat) (s : St n) (t : Fin n) (a : Act n) : Eff fdOf f s (act fdOf s t a) t := by
  have refl : Eff fdOf f s s t := .same rfl rfl rfl rfl
  unfold act
  split
  · exact refl
  cases a with
  | go =>
    simp only
    split
    · next fr rest hst =>
      have hs := cntS_le fdOf f rest
      cases fr with
      | tryL j =>
        simp only [frameStep]
        split
        · exact .same rfl rfl (by simp [hst, Frame.ow, Frame.st]) (by simp [hst, Frame.st])
        · next hl =>
          by_cases hf : j.fd fdOf = f
          · subst hf
            exact .acq (by simpa using hl) (by simp [ch]) rfl (by simp [hst, Frame.ow, Frame.st]) (by simp [hst, Frame.st])
          · exact .same (by simp [ch, Ne.symm hf]) rfl (by simp [hst, Frame.ow, Frame.st, hf]) (by simp [hst, Frame.st])
      | spin j =>
        simp only [frameStep]
        split
        · exact refl
        · next hl =>
          by_cases hf : j.fd fdOf = f
          · subst hf
            exact .acq (by simpa using hl) (by simp [ch]) rfl (by simp [hst, Frame.ow, Frame.st]) (by simp [hst, Frame.st])
          · exact .same (by simp [ch, Ne.symm hf]) rfl (by simp [hst, Frame.ow, Frame.st, hf]) (by simp [hst, Frame.st])
      | setEx j =>
        simp only [frameStep]
        by_cases hf : j.fd fdOf = f
        · subst hf
          exact .setEx rfl (by simp [ch]) (by simp [hst, Frame.ow, Frame.st]) (by simp [hst, Frame.st])
            (by simp [Frame.ow, Frame.st, hs])
        · exact .same rfl (by simp [ch, Ne.symm hf]) (by simp [hst, Frame.ow, Frame.st, hf]) (by simp [hst, Frame.st, hf])
      | relA g k =>
        simp only [frameStep]
        by_cases hf : g = f
        · subst hf
          exact .relA rfl (by simp [ch]) (by simp [hst, Frame.ow, Frame.st]) (by simp [hst, Frame.st])
        · exact .same rfl (by simp [ch, Ne.symm hf]) (by simp [hst, Frame.ow, Frame.st, hf]) (by simp [hst, Frame.st, hf])
      | relB g k =>
        simp only [frameStep]
        by_cases hf : g = f
        · subst hf
          refine .relB (by simp [ch]) rfl ?_ ?_ (by simp [hst, Frame.ow, Frame.st]; omega)
          · rw [nxt_stk, hst]; split <;> simp [Frame.ow, Frame.st]
          · rw [nxt_stk, hst]; split <;> simp [Frame.st]
        · refine .same (by simp [ch, Ne.symm hf]) rfl ?_ ?_
          · rw [nxt_stk, hst]; split <;> simp [Frame.ow, Frame.st, hf]
          · rw [nxt_stk, hst]; split <;> simp [Frame.st]
      | chk j =>
        simp only [frameStep]; split <;>
          exact .same rfl rfl (by simp [hst, Frame.ow, Frame.st]) (by simp [hst, Frame.st])
      | body own j =>
        cases own <;> cases j <;> simp only [frameStep, bodyStep, fini] <;> (try split) <;> (try split) <;>
          (refine .same rfl rfl ?_ ?_ <;> simp_all [Frame.ow, Frame.st, Job.fd] <;> (repeat' split) <;>
            simp_all)
      | put own e sp ep =>
        cases own <;> simp only [frameStep, fini] <;> split <;>
          (refine .same rfl rfl ?_ ?_ <;> simp [hst, Frame.ow, Frame.st])
      | del own g sp =>
        cases own <;> simp only [frameStep, fini] <;>
          (refine .same rfl rfl ?_ ?_ <;> simp [hst, Frame.ow, Frame.st])
      | fin e nm =>
        simp only [frameStep, finStep]
        repeat' split
        all_goals (refine .same rfl rfl ?_ ?_ <;> simp [hst, Frame.ow, Frame.st])
      | _ =>
        simp only [frameStep] <;> (try split) <;>
          first | exact refl | (refine .same rfl rfl ?_ ?_ <;> simp [hst, Frame.ow, Frame.st])
    · exact refl
  | setOwner e v =>
    simp only
    split
    · split
      · next e' mv rest hst =>
        split
        · next he => subst he; refine .same rfl rfl ?_ ?_ <;> simp [hst, Frame.ow, Frame.st]
        · refine .same rfl rfl ?_ ?_ <;> simp [hst]
      · exact .same rfl rfl rfl rfl
    · exact refl
  | pop =>
    simp only
    split
    · next h _ => refine .same rfl rfl ?_ ?_ <;> simp [h, Frame.ow, Frame.st]
    · exact refl
  | fire =>
    simp only
    split
    · next h _ =>
      split
      · exact .same rfl rfl rfl rfl
      · split
        · exact .same rfl rfl rfl rfl
        · refine .same rfl rfl ?_ ?_ <;> simp [h, Frame.ow, Frame.st]
    · exact refl
  | ret nm =>
    simp only
    split
    · next h => refine .same rfl rfl ?_ ?_ <;> simp [h, Frame.ow, Frame.st]
    · exact refl
  | _ =>
    simp only
    repeat' split
    all_goals first | exact refl | (refine .same rfl rfl ?_ ?_ <;> simp [Frame.ow, Frame.st])

/-- At most one thread holds the lock of `f`, the lock is taken exactly when one does, and `executor` names it
between `setEx` and `relA`. -/
structure LockInv (f : Nat) (s : St n) : Prop where
  one : ∀ t, cntO fdOf f (s.stk t) ≤ 1
  uniq : ∀ t u, cntO fdOf f (s.stk t) = 1 → cntO fdOf f (s.stk u) = 1 → t = u
  free : s.lock f = false → ∀ t, cntO fdOf f (s.stk t) = 0
  held : s.lock f = true → ∃ t, cntO fdOf f (s.stk t) = 1
  ex : ∀ t, s.ex f = some t ↔ cntS fdOf f (s.stk t) = 1

theorem lockInv_step {f : Nat} {s s' : St n} {t : Fin n} (h : LockInv fdOf f s) (ho : ∀ u, u ≠ t → s'.stk u = s.stk u)
    (e : Eff fdOf f s s' t) : LockInv fdOf f s' := by
  have hle := cntS_le fdOf f (s.stk t)
  have h1 := h.one t
  have hx : s.ex f = some t ↔ cntS fdOf f (s.stk t) = 1 := h.ex t
  cases e with
  | same hl he ho' hs' =>
    have cO : ∀ u, cntO fdOf f (s'.stk u) = cntO fdOf f (s.stk u) := fun u => by
      by_cases hu : u = t
      · rw [hu, ho']
      · rw [ho u hu]
    have cS : ∀ u, cntS fdOf f (s'.stk u) = cntS fdOf f (s.stk u) := fun u => by
      by_cases hu : u = t
      · rw [hu, hs']
      · rw [ho u hu]
    exact ⟨fun u => by rw [cO]; exact h.one u, fun u v => by rw [cO, cO]; exact h.uniq u v,
      fun hf u => by rw [cO]; exact h.free (hl ▸ hf) u, fun hf => by simp only [cO]; exact h.held (hl ▸ hf),
      fun u => by rw [cS, he]; exact h.ex u⟩
  | acq h0 hl he ho' hs' =>
    have z := h.free h0
    have cO : ∀ u, u ≠ t → cntO fdOf f (s'.stk u) = 0 := fun u hu => by rw [ho u hu]; exact z u
    have cT : cntO fdOf f (s'.stk t) = 1 := by rw [ho', z t]
    have cS : ∀ u, cntS fdOf f (s'.stk u) = cntS fdOf f (s.stk u) := fun u => by
      by_cases hu : u = t
      · rw [hu, hs']
      · rw [ho u hu]
    refine ⟨fun u => ?_, fun u v hu hv => ?_, fun hf => ?_, fun _ => ⟨t, cT⟩, fun u => by rw [cS, he]; exact h.ex u⟩
    · by_cases hu : u = t
      · rw [hu, cT]
      · rw [cO u hu]; omega
    · by_cases e1 : u = t
      · by_cases e2 : v = t
        · rw [e1, e2]
        · rw [cO v e2] at hv; omega
      · rw [cO u e1] at hu; omega
    · rw [hl] at hf; cases hf
  | setEx hl he ho' hs' hle' =>
    have cO : ∀ u, cntO fdOf f (s'.stk u) = cntO fdOf f (s.stk u) := fun u => by
      by_cases hu : u = t
      · rw [hu, ho']
      · rw [ho u hu]
    have one : cntO fdOf f (s.stk t) = 1 := by omega
    refine ⟨fun u => by rw [cO]; exact h.one u, fun u v => by rw [cO, cO]; exact h.uniq u v,
      fun hf u => by rw [cO]; exact h.free (hl ▸ hf) u, fun hf => by simp only [cO]; exact h.held (hl ▸ hf), fun u => ?_⟩
    rw [he]
    by_cases hu : u = t
    · subst hu
      simp only [true_iff]; omega
    · have : cntS fdOf f (s'.stk u) ≠ 1 := by
        intro hc
        have := cntS_le fdOf f (s'.stk u)
        have h2 := h.one u
        rw [cO u] at this
        exact hu (h.uniq u t (by omega) one)
      simp [this, Ne.symm hu]
  | relA hl he ho' hs' =>
    have cO : ∀ u, cntO fdOf f (s'.stk u) = cntO fdOf f (s.stk u) := fun u => by
      by_cases hu : u = t
      · rw [hu, ho']
      · rw [ho u hu]
    have one : cntO fdOf f (s.stk t) = 1 := by omega
    refine ⟨fun u => by rw [cO]; exact h.one u, fun u v => by rw [cO, cO]; exact h.uniq u v,
      fun hf u => by rw [cO]; exact h.free (hl ▸ hf) u, fun hf => by simp only [cO]; exact h.held (hl ▸ hf), fun u => ?_⟩
    rw [he]
    simp only [reduceCtorEq, false_iff]
    intro hc
    by_cases hu : u = t
    · subst hu; omega
    · have := cntS_le fdOf f (s'.stk u)
      have h2 := h.one u
      rw [cO u] at this
      exact hu (h.uniq u t (by omega) one)
  | relB hl he ho' hs' hlt =>
    have one : cntO fdOf f (s.stk t) = 1 := by omega
    have cO : ∀ u, cntO fdOf f (s'.stk u) = 0 := fun u => by
      by_cases hu : u = t
      · rw [hu]; omega
      · rw [ho u hu]
        have h2 := h.one u
        have : cntO fdOf f (s.stk u) ≠ 1 := fun hc => hu (h.uniq u t hc one)
        omega
    have cS : ∀ u, cntS fdOf f (s'.stk u) = cntS fdOf f (s.stk u) := fun u => by
      by_cases hu : u = t
      · rw [hu, hs']
      · rw [ho u hu]
    refine ⟨fun u => by rw [cO]; omega, fun u v hu => by rw [cO] at hu; omega, fun _ => cO, fun hf => ?_,
      fun u => by rw [cS, he]; exact h.ex u⟩
    rw [hl] at hf; cases hf

theorem lockInv_run {D : St n → Fin n → Act n → Prop} {s : St n} (h : Run fdOf D s) (f : Nat) : LockInv fdOf f s := by
  induction h with
  | init mask owner =>
    exact ⟨by simp [init, cntO], by simp [init, cntO], by simp [init, cntO], by simp [init], by simp [init, cntS]⟩
  | step t a _ _ ih => exact lockInv_step fdOf ih (fun u hu => act_other fdOf _ t u a hu) (act_eff fdOf f _ t a)

/-! ### The shape of the stacks -/

/-- All but the top frame are callbacks. -/
def Shape (l : List (Frame n)) : Prop := ∀ fr ∈ l.tail, ∃ e mv, fr = .cb e mv

theorem shape_nil : Shape ([] : List (Frame n)) := by simp [Shape]

theorem shape_top {fr fr' : Frame n} {l : List (Frame n)} (h : Shape (fr :: l)) : Shape (fr' :: l) := h

theorem shape_rest {fr : Frame n} {l : List (Frame n)} (h : Shape (fr :: l)) : Shape l :=
  fun x hx => h x (List.mem_of_mem_tail hx)

theorem shape_fini {fr : Frame n} {l : List (Frame n)} (h : Shape (fr :: l)) (own : Bool) (f : Nat) : Shape (fini own f l) := by
  unfold fini
  split
  · exact h
  · exact shape_rest h

theorem shape_push {l : List (Frame n)} (h : Shape l) (hf : free l = true) (fr : Frame n) : Shape (fr :: l) := by
  cases l with
  | nil => intro x hx; cases hx
  | cons a l =>
    cases a <;> simp only [free] at hf <;> try cases hf
    intro x hx
    rcases List.mem_cons.1 hx with rfl | hx
    · exact ⟨_, _, rfl⟩
    · exact h x hx

theorem shape_act {s : St n} (h : ∀ t, Shape (s.stk t)) (t : Fin n) (a : Act n) : Shape ((act fdOf s t a).stk t) := by
  have hn : ∀ (s' : St n) l, (nxt s' t l).stk t = l := fun s' l => by simp [nxt]
  have ht := h t
  unfold act
  split
  · exact ht
  cases a with
  | go =>
    simp only
    split
    · next fr rest hst =>
      rw [hst] at ht
      cases fr with
      | body own j =>
        cases j <;> simp only [frameStep, bodyStep] <;> (try split) <;> (try split) <;> rw [hn] <;>
          first | exact shape_top ht | exact shape_fini ht _ _ | exact shape_rest ht
      | put own e sp ep =>
        simp only [frameStep]
        split
        · rw [hn]; exact shape_fini ht _ _
        · rw [hst]; exact ht
      | del own g sp => simp only [frameStep]; rw [hn]; exact shape_fini ht _ _
      | fin e nm =>
        simp only [frameStep, finStep]
        repeat' split
        all_goals first | (rw [hn]; exact shape_top ht) | (rw [hst]; exact ht)
      | relB g k =>
        simp only [frameStep]
        rw [hn]
        split
        · exact shape_top ht
        · exact shape_rest ht
      | _ =>
        simp only [frameStep] <;> (try split) <;>
          first
            | (rw [hn]; exact shape_top ht)
            | (rw [hn]; exact shape_rest ht)
            | (rw [hst]; exact ht)
    · exact ht
  | setOwner e v =>
    simp only
    split
    · split
      · next e' mv rest hst =>
        have hst' : s.stk t = .cb e' mv :: rest := hst
        rw [hst'] at ht
        split <;> (rw [hn]; exact shape_top ht)
      · exact ht
    · exact ht
  | pop =>
    simp only
    split
    · rw [hn]; intro x hx; cases hx
    · exact ht
  | fire =>
    simp only
    split
    · split
      · exact ht
      · split
        · exact ht
        · rw [hn]; intro x hx; cases hx
    · exact ht
  | ret nm =>
    simp only
    split
    · next hst => rw [hst] at ht; rw [hn]; exact shape_top ht
    · exact ht
  | wait b => simp only; split <;> exact ht
  | add e m =>
    simp only
    split
    · next hf =>
      split
      · exact ht
      · rw [hn]; exact shape_push ht hf _
    · exact ht
  | rem e =>
    simp only
    split
    · next hf =>
      split
      · exact ht
      · rw [hn]; exact shape_push ht hf _
    · exact ht
  | remFd f =>
    simp only
    split
    · next hf => rw [hn]; exact shape_push ht hf.1 _
    · exact ht
  | trig e m =>
    simp only
    split
    · next hf => rw [hn]; exact shape_push ht hf _
    · exact ht
  | update e m =>
    simp only
    split
    · next hf =>
      split
      · exact ht
      · rw [hn]; exact shape_push ht hf _
    · exact ht

theorem shape_run {D : St n → Fin n → Act n → Prop} {s : St n} (h : Run fdOf D s) (t : Fin n) : Shape (s.stk t) := by
  induction h generalizing t with
  | init mask owner => exact shape_nil
  | step u a _ _ ih =>
    by_cases e : t = u
    · subst e; exact shape_act fdOf ih t a
    · rw [act_other fdOf _ _ _ _ e]; exact ih t

/-! ### Calls that found the lock taken by their own thread -/

/-- The call goes on without having taken the lock. -/
def Frame.nested : Frame n → Option Nat
  | .body false j => some (j.fd fdOf)
  | .put false e _ _ => some (fdOf e)
  | .del false f _ => some f
  | _ => none

theorem cnt_cbs {f : Nat} : ∀ {l : List (Frame n)}, (∀ fr ∈ l, ∃ e mv, fr = .cb e mv) → cntO fdOf f l = cntS fdOf f l
  | [], _ => rfl
  | fr :: l, h => by
    rw [cntO_cons, cntS_cons, cnt_cbs fun x hx => h x (by simp [hx])]
    obtain ⟨e, mv, rfl⟩ := h fr (by simp)
    rfl

theorem not_nested_rest {fr : Frame n} {l : List (Frame n)} (h : Shape (fr :: l)) {g : Frame n} {rest : List (Frame n)} {f : Nat}
    (e : l = g :: rest) (hg : g.nested fdOf = some f) : False := by
  obtain ⟨x, mv, hx⟩ := h g (by rw [e]; simp)
  rw [hx] at hg
  cases hg

theorem nested_from {s : St n} {t : Fin n} (hsh : Shape (s.stk t)) {a : Act n} {fr : Frame n} {rest : List (Frame n)} {f : Nat}
    (h : (act fdOf s t a).stk t = fr :: rest) (hf : fr.nested fdOf = some f) :
    (∃ fr', s.stk t = fr' :: rest ∧ fr'.nested fdOf = some f) ∨ (∃ j, s.stk t = .chk j :: rest ∧ j.fd fdOf = f ∧ s.ex f = some t) := by
  have hn : ∀ (s' : St n) l, (nxt s' t l).stk t = l := fun s' l => by simp [nxt]
  unfold act at h
  split at h
  · exact .inl ⟨_, h, hf⟩
  cases a with
  | go =>
    simp only at h
    split at h
    · next fr0 rest0 hst =>
      rw [hst] at hsh
      cases fr0 with
      | chk j =>
        simp only [frameStep] at h
        split at h
        · next hex => rw [hn] at h; cases h; cases hf; exact .inr ⟨j, hst, rfl, hex⟩
        · rw [hn] at h; cases h; cases hf
      | body own j =>
        left
        cases own <;> cases j <;> simp only [frameStep, bodyStep, fini] at h <;> (repeat' split at h) <;> rw [hn] at h <;>
          first
            | exact absurd (not_nested_rest fdOf hsh h hf) id
            | (cases h; cases hf; done)
            | (cases h; cases hf; exact ⟨_, hst, rfl⟩)
            | (simp at *; done)
      | put own e sp ep =>
        cases own <;> simp only [frameStep, fini] at h <;> (repeat' split at h) <;>
          first
            | exact .inl ⟨_, h, hf⟩
            | (rw [hn] at h; exact absurd (not_nested_rest fdOf hsh h hf) id)
            | (rw [hn] at h; cases h; cases hf; done)
            | (simp at *; done)
      | fin e nm =>
        exfalso
        simp only [frameStep, finStep] at h
        repeat' split at h
        all_goals first | (rw [hn] at h; cases h; cases hf; done) | (rw [hst] at h; cases h; cases hf)
      | relB g k =>
        exfalso
        simp only [frameStep] at h
        rw [hn] at h
        split at h
        · cases h; cases hf
        · exact not_nested_rest fdOf hsh h hf
      | _ =>
        simp only [frameStep, fini] at h <;> (repeat' split at h) <;>
          first
            | (rw [hn] at h; exact absurd (not_nested_rest fdOf hsh h hf) id)
            | (rw [hn] at h; cases h; cases hf; done)
            | (rw [hst] at h; cases h; cases hf; done)
    · exact .inl ⟨_, h, hf⟩
  | setOwner e v =>
    simp only at h
    repeat' split at h
    all_goals first | exact .inl ⟨_, h, hf⟩ | (rw [hn] at h; cases h; cases hf)
  | fire =>
    simp only at h
    repeat' split at h
    all_goals first | exact .inl ⟨_, h, hf⟩ | (rw [hn] at h; cases h; cases hf)
  | _ =>
    simp only at h
    repeat' split at h
    all_goals first | exact .inl ⟨_, h, hf⟩ | (rw [hn] at h; cases h; cases hf)

/-- Then the thread holds it by a callback below. -/
theorem nested_held {D : St n → Fin n → Act n → Prop} {s : St n} (h : Run fdOf D s) :
    ∀ t fr rest f, s.stk t = fr :: rest → fr.nested fdOf = some f → cntO fdOf f rest = 1 := by
  induction h with
  | init mask owner => intro t fr rest f h; cases h
  | @step s u a hr hd ih =>
    intro t fr rest f hst hf
    by_cases e : t = u
    · subst e
      have hsh := shape_run fdOf hr t
      rcases nested_from fdOf hsh hst hf with ⟨fr', h, hf'⟩ | ⟨j, h, hj, hex⟩
      · exact ih t fr' rest f h hf'
      · have hl := lockInv_run fdOf hr f
        have hx := (hl.ex t).1 hex
        rw [h] at hsh hx
        rw [cnt_cbs fdOf (l := rest) hsh]
        simpa [Frame.st] using hx
    · rw [act_other fdOf _ _ _ _ e] at hst
      exact ih t fr rest f hst hf

end Mtev.EvFd
