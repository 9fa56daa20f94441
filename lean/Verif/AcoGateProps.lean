import Verif.AcoGate

/-!
Properties of coroutines that wait for work: C135.

Specification: `pending st g` jobs are out for gate `g`. A wait for a gate returns when, and only when, no job is out for it.
-/
namespace Mtev.AcoGate

variable {n : Nat}

/-- Jobs that are out for a gate. -/
def pending (st : St n) (g : Nat) : Nat := st.jobs.countP (·.1 = g)

/-- A coroutine uses the gates it made, and not after waiting for them; no queue with a limit is full. -/
def Legal (st : St n) : Op n → Prop
  | .queue c g | .wait c g => g < st.next ∧ (st.gate g).owner = c ∧ (st.gate g).waited = false
  | .tryFail _ _ => False
  | _ => True

/-- The states reached. -/
inductive Reach [NeZero n] : St n → Prop where
  | init : Reach St.init
  | step {st st' : St n} {o : Op n} : Reach st → enabled st o → Legal st o → step st o = .ok st' → Reach st'

/-- The invariant. -/
structure Inv (st : St n) : Prop where
  ref : ∀ g, g < st.next → (st.gate g).freed = false → (st.gate g).ref = (if (st.gate g).waited then 0 else 1) + pending st g
  job : ∀ j ∈ st.jobs, j.1 < st.next ∧ (st.gate j.1).freed = false ∧ (st.gate j.1).owner = j.2
  loc : ∀ c g, st.loc c = .wait g → g < st.next ∧ (st.gate g).freed = false ∧ (st.gate g).owner = c ∧ (st.gate g).waited = true ∧ 0 < pending st g
  cur : ∀ c, st.cur = some c → st.loc c = .run
  wtd : ∀ g, g < st.next → (st.gate g).waited = true → 0 < pending st g → st.loc (st.gate g).owner = .wait g
  opn : ∀ g, g < st.next → (st.gate g).waited = false → (st.gate g).freed = false
  one : ∀ g, g < st.next → (st.gate g).once = true → (st.gate g).waited = true
  fin : ∀ g, g < st.next → (st.gate g).once = false → (st.gate g).waited = true → pending st g = 0 → (st.gate g).freed = true

theorem put_same (f : Nat → Gate n) (g : Nat) (v : Gate n) : put f g v g = v := by simp [put]
theorem put_other (f : Nat → Gate n) (g x : Nat) (v : Gate n) (h : x ≠ g) : put f g v x = f x := by simp [put, h]

theorem pending_cons (st : St n) (g : Nat) (c : Fin n) (x : Nat) :
    ((g, c) :: st.jobs).countP (·.1 = x) = pending st x + if g = x then 1 else 0 := by
  rw [List.countP_cons]
  simp [pending]

theorem pending_erase (st : St n) (j : Nat × Fin n) (hj : j ∈ st.jobs) (x : Nat) :
    (st.jobs.erase j).countP (·.1 = x) + (if j.1 = x then 1 else 0) = pending st x := by
  have h := (List.perm_cons_erase hj).countP_eq (fun y : Nat × Fin n => decide (y.1 = x))
  rw [List.countP_cons] at h
  simp only [pending, decide_eq_true_eq] at h ⊢
  exact h.symm

theorem pending_pos {st : St n} {g : Nat} (h : 0 < pending st g) : ∃ j ∈ st.jobs, j.1 = g := by
  obtain ⟨j, hj, h2⟩ := List.countP_pos_iff.1 h
  exact ⟨j, hj, by simpa using h2⟩

theorem pending_of_mem {st : St n} {j : Nat × Fin n} (h : j ∈ st.jobs) : 0 < pending st j.1 :=
  List.countP_pos_iff.2 ⟨j, h, by simp⟩

theorem inv_init [NeZero n] : Inv (St.init : St n) := by
  constructor <;> simp [St.init]

/-- A completion. -/
theorem complete_inv {st : St n} (h : Inv st) (hc : st.cur = none) (j : Nat × Fin n) (hj : j ∈ st.jobs) :
    ∃ st', complete j st = .ok st' ∧ Inv st' ∧ st'.jobs = st.jobs.erase j := by
  obtain ⟨j1, j2, j3⟩ := h.job j hj
  have hp := pending_of_mem hj
  have hr := h.ref j.1 j1 j2
  have hpe := pending_erase st j hj
  unfold complete
  simp only
  rw [if_neg (by rw [j2, hr]; simp; intro _ h; omega)]
  by_cases h0 : (st.gate j.1).ref - 1 = 0
  · rw [if_pos h0]
    have hw : (st.gate j.1).waited = true := by
      by_contra hw
      rw [if_neg hw] at hr
      omega
    have hl := h.wtd j.1 j1 hw hp
    rw [j3] at hl
    rw [hw] at hr
    simp only [if_true] at hr
    have hp1 : pending st j.1 = 1 := by omega
    have hz : (st.jobs.erase j).countP (·.1 = j.1) = 0 := by have := hpe j.1; simp only [if_true] at this; omega
    have hpx : ∀ x, x ≠ j.1 → (st.jobs.erase j).countP (·.1 = x) = pending st x := by
      intro x hx
      have := hpe x
      rw [if_neg (fun e => hx e.symm)] at this
      omega
    unfold resume
    simp only [hl, put_same]
    have main : ∀ G : Gate n, G.owner = j.2 → G.waited = true → (G.once = (st.gate j.1).once) → (G.freed = false → G.ref = 0) → (G.once = false → G.freed = true) →
        Inv ({ st with cur := some j.2, loc := upd st.loc j.2 .run, gate := put st.gate j.1 G, jobs := st.jobs.erase j } : St n) := by
      intro G g1 g2 g3 g4 g5
      refine ⟨fun g hg hf => ?_, fun i hi => ?_, fun c g hcg => ?_, fun c hcc => ?_, fun g hg hgw hgp => ?_, fun g hg hgw => ?_, fun g hg hgo => ?_, fun g hg hgo hgw hgp => ?_⟩
      · by_cases e : g = j.1
        · subst e
          simp only [put_same] at hf ⊢
          rw [g4 hf, g2]
          simp only [if_true, pending]
          omega
        · simp only [put_other _ _ _ _ e] at hf ⊢
          rw [h.ref g hg hf]
          simp only [pending]
          rw [hpx g e]
          rfl
      · have hi' := List.mem_of_mem_erase hi
        have e : i.1 ≠ j.1 := by
          intro e
          have : 0 < (st.jobs.erase j).countP (·.1 = j.1) := List.countP_pos_iff.2 ⟨i, hi, by simp [e]⟩
          omega
        simp only [put_other _ _ _ _ e]
        exact h.job i hi'
      · rcases upd_cases st.loc j.2 c .run with ⟨_, e⟩ | ⟨e0, e⟩
        · simp only [e] at hcg; exact absurd hcg (by simp)
        · simp only [e] at hcg
          obtain ⟨a1, a2, a3, a4, a5⟩ := h.loc c g hcg
          have e2 : g ≠ j.1 := by rintro rfl; rw [j3] at a3; exact e0 a3.symm
          simp only [put_other _ _ _ _ e2]
          refine ⟨a1, a2, a3, a4, ?_⟩
          simp only [pending]
          rw [hpx g e2]
          exact a5
      · simp only [Option.some.injEq] at hcc
        subst hcc
        simp
      · by_cases e : g = j.1
        · subst e
          simp only [pending] at hgp
          omega
        · simp only [put_other _ _ _ _ e] at hgw ⊢
          simp only [pending] at hgp
          rw [hpx g e] at hgp
          have := h.wtd g hg hgw hgp
          rw [upd_other]
          · exact this
          · intro e3
            rw [e3, hl] at this
            simp only [At.wait.injEq] at this
            exact e this.symm
      · by_cases e : g = j.1
        · subst e
          simp only [put_same] at hgw ⊢
          rw [g2] at hgw
          exact absurd hgw (by simp)
        · simp only [put_other _ _ _ _ e] at hgw ⊢
          exact h.opn g hg hgw
      · by_cases e : g = j.1
        · subst e
          simp only [put_same]
          exact g2
        · simp only [put_other _ _ _ _ e] at hgo ⊢
          exact h.one g hg hgo
      · by_cases e : g = j.1
        · subst e
          simp only [put_same] at hgo ⊢
          exact g5 hgo
        · simp only [put_other _ _ _ _ e] at hgo hgw ⊢
          simp only [pending] at hgp
          rw [hpx g e] at hgp
          exact h.fin g hg hgo hgw hgp
    by_cases ho : (st.gate j.1).once = true
    · rw [if_pos ho]
      refine ⟨_, rfl, ?_, rfl⟩
      exact main { st.gate j.1 with ref := (st.gate j.1).ref - 1 } j3 hw rfl (fun _ => h0) (fun e => by simp only at e; rw [ho] at e; exact absurd e (by simp))
    · rw [if_neg ho, if_neg (by rw [j2]; simp)]
      refine ⟨_, rfl, ?_, rfl⟩
      have e4 : ∀ (a b : Gate n), put (put st.gate j.1 a) j.1 b = put st.gate j.1 b := by
        intro a b
        funext x
        unfold put
        split <;> rfl
      rw [e4]
      exact main _ j3 hw rfl (fun e => by simp at e) (fun _ => rfl)
  · rw [if_neg h0]
    have hpx : ∀ x, (st.jobs.erase j).countP (·.1 = x) = pending st x - if j.1 = x then 1 else 0 := by
      intro x
      have := hpe x
      omega
    have hpp : 0 < (st.jobs.erase j).countP (·.1 = j.1) ∨ (st.gate j.1).waited = false := by
      have := hpe j.1
      rw [if_pos rfl] at this
      cases hw : (st.gate j.1).waited with
      | true => rw [hw] at hr; simp only [if_true] at hr; left; omega
      | false => right; rfl
    refine ⟨_, rfl, ⟨fun g hg hf => ?_, fun i hi => ?_, fun c g hcg => ?_, fun c hcc => ?_, fun g hg hgw hgp => ?_, fun g hg hgw => ?_, fun g hg hgo => ?_, fun g hg hgo hgw hgp => ?_⟩, rfl⟩
    · rw [show pending _ g = (st.jobs.erase j).countP (·.1 = g) from rfl, hpx]
      by_cases e : g = j.1
      · subst e
        simp only [put_same] at hf ⊢
        simp only [if_true]
        omega
      · simp only [put_other _ _ _ _ e] at hf ⊢
        rw [if_neg (show ¬ j.1 = g from fun e' => e e'.symm), h.ref g hg hf]
        omega
    · have hi' := List.mem_of_mem_erase hi
      by_cases e : i.1 = j.1
      · rw [e]
        simp only [put_same]
        exact ⟨j1, j2, by rw [j3, ← (h.job i hi').2.2, e, j3]⟩
      · simp only [put_other _ _ _ _ e]
        exact h.job i hi'
    · obtain ⟨a1, a2, a3, a4, a5⟩ := h.loc c g hcg
      by_cases e : g = j.1
      · subst e
        simp only [put_same]
        refine ⟨a1, a2, a3, a4, ?_⟩
        rcases hpp with hpp | hpp
        · exact hpp
        · rw [a4] at hpp; exact absurd hpp (by simp)
      · simp only [put_other _ _ _ _ e]
        refine ⟨a1, a2, a3, a4, ?_⟩
        simp only [pending, hpx]
        rw [if_neg (fun e' => e e'.symm)]
        exact a5
    · simp only at hcc
      rw [hc] at hcc
      exact absurd hcc (by simp)
    · rw [show pending _ g = (st.jobs.erase j).countP (·.1 = g) from rfl, hpx] at hgp
      by_cases e : g = j.1
      · subst e
        simp only [put_same] at hgw ⊢
        exact h.wtd j.1 hg hgw hp
      · simp only [put_other _ _ _ _ e] at hgw ⊢
        exact h.wtd g hg hgw (by omega)
    · by_cases e : g = j.1
      · subst e
        simp only [put_same] at hgw ⊢
        exact j2
      · simp only [put_other _ _ _ _ e] at hgw ⊢
        exact h.opn g hg hgw
    · by_cases e : g = j.1
      · subst e
        simp only [put_same] at hgo ⊢
        exact h.one j.1 hg hgo
      · simp only [put_other _ _ _ _ e] at hgo ⊢
        exact h.one g hg hgo
    · by_cases e : g = j.1
      · subst e
        simp only [put_same] at hgo hgw ⊢
        rcases hpp with hpp | hpp
        · simp only [pending] at hgp; omega
        · rw [hgw] at hpp; exact absurd hpp (by simp)
      · simp only [put_other _ _ _ _ e] at hgo hgw ⊢
        simp only [pending, hpx] at hgp
        rw [if_neg (fun e' => e e'.symm)] at hgp
        exact h.fin g hg hgo hgw hgp

theorem step_inv {st : St n} (h : Inv st) (o : Op n) (he : enabled st o) (hl : Legal st o) : ∃ st', step st o = .ok st' ∧ Inv st' := by
  cases o with
  | begin_ c =>
    obtain ⟨h1, h2⟩ := he
    refine ⟨_, rfl, ⟨h.ref, h.job, h.loc, fun c' hc' => ?_, h.wtd, h.opn, h.one, h.fin⟩⟩
    simp only [Option.some.injEq] at hc'
    subst hc'
    exact h2
  | gate c =>
    refine ⟨_, rfl, ⟨fun g hg hf => ?_, fun j hj => ?_, fun c' g hcg => ?_, h.cur, fun g hg hw hp => ?_, fun g hg hw => ?_, fun g hg ho => ?_, fun g hg ho hw hp => ?_⟩⟩
    · simp only [mkGate] at hg hf ⊢
      by_cases e : g = st.next
      · subst e
        simp only [put_same, Bool.false_eq_true, if_false]
        have : pending st st.next = 0 := by
          by_contra h0
          obtain ⟨j, j1, j2⟩ := pending_pos (Nat.pos_of_ne_zero h0)
          have := (h.job j j1).1
          omega
        simp only [pending] at this ⊢
        omega
      · simp only [put_other _ _ _ _ e] at hf ⊢
        exact h.ref g (by omega) hf
    · obtain ⟨a1, a2, a3⟩ := h.job j hj
      simp only [mkGate, put_other _ _ _ _ (show j.1 ≠ st.next by omega)]
      exact ⟨by omega, a2, a3⟩
    · obtain ⟨a1, a2, a3, a4, a5⟩ := h.loc c' g hcg
      simp only [mkGate, put_other _ _ _ _ (show g ≠ st.next by omega)]
      exact ⟨by omega, a2, a3, a4, a5⟩
    · simp only [mkGate] at hg hw ⊢
      by_cases e : g = st.next
      · subst e
        simp only [put_same] at hw
        exact absurd hw (by simp)
      · simp only [put_other _ _ _ _ e] at hw ⊢
        exact h.wtd g (by omega) hw hp
    · simp only [mkGate] at hg hw ⊢
      by_cases e : g = st.next
      · subst e; simp only [put_same]
      · simp only [put_other _ _ _ _ e] at hw ⊢
        exact h.opn g (by omega) hw
    · simp only [mkGate] at hg ho ⊢
      by_cases e : g = st.next
      · subst e; simp only [put_same] at ho; exact absurd ho (by simp)
      · simp only [put_other _ _ _ _ e] at ho ⊢
        exact h.one g (by omega) ho
    · simp only [mkGate] at hg ho hw ⊢
      by_cases e : g = st.next
      · subst e; simp only [put_same] at hw; exact absurd hw (by simp)
      · simp only [put_other _ _ _ _ e] at ho hw ⊢
        exact h.fin g (by omega) ho hw hp
  | queue c g0 =>
    obtain ⟨l1, l2, l3⟩ := hl
    have l4 := h.opn g0 l1 l3
    simp only [step, queue]
    rw [if_neg (by rw [l4]; simp)]
    refine ⟨_, rfl, ⟨fun g hg hf => ?_, fun j hj => ?_, fun c' g hcg => ?_, h.cur, fun g hg hw hp => ?_, fun g hg hw => ?_, fun g hg ho => ?_, fun g hg ho hw hp => ?_⟩⟩
    · simp only [pending] at hf ⊢
      rw [pending_cons]
      by_cases e : g = g0
      · subst e
        simp only [put_same, if_true] at hf ⊢
        rw [h.ref g hg hf]
        omega
      · simp only [put_other _ _ _ _ e] at hf ⊢
        rw [h.ref g hg hf, if_neg (show ¬ g0 = g from fun e' => e e'.symm)]
        omega
    · simp only [List.mem_cons] at hj
      rcases hj with rfl | hj
      · simp only [put_same]
        exact ⟨l1, l4, l2⟩
      · obtain ⟨a1, a2, a3⟩ := h.job j hj
        by_cases e : j.1 = g0
        · rw [e] at a1 a2 a3 ⊢
          simp only [put_same]
          exact ⟨a1, a2, a3⟩
        · simp only [put_other _ _ _ _ e]
          exact ⟨a1, a2, a3⟩
    · obtain ⟨a1, a2, a3, a4, a5⟩ := h.loc c' g hcg
      have e : g ≠ g0 := by rintro rfl; rw [l3] at a4; exact absurd a4 (by simp)
      simp only [put_other _ _ _ _ e]
      refine ⟨a1, a2, a3, a4, ?_⟩
      simp only [pending]
      rw [pending_cons]
      omega
    · by_cases e : g = g0
      · subst e
        simp only [put_same] at hw
        rw [l3] at hw; exact absurd hw (by simp)
      · simp only [put_other _ _ _ _ e] at hw ⊢
        simp only [pending] at hp
        rw [pending_cons, if_neg (fun e' => e e'.symm)] at hp
        exact h.wtd g hg hw (by omega)
    · by_cases e : g = g0
      · subst e; simp only [put_same]; exact l4
      · simp only [put_other _ _ _ _ e] at hw ⊢
        exact h.opn g hg hw
    · by_cases e : g = g0
      · subst e; simp only [put_same] at ho ⊢; exact h.one g hg ho
      · simp only [put_other _ _ _ _ e] at ho ⊢
        exact h.one g hg ho
    · by_cases e : g = g0
      · subst e; simp only [put_same] at hw; rw [l3] at hw; exact absurd hw (by simp)
      · simp only [put_other _ _ _ _ e] at ho hw ⊢
        simp only [pending] at hp
        rw [pending_cons, if_neg (fun e' => e e'.symm)] at hp
        exact h.fin g hg ho hw (by omega)
  | tryFail c g => exact hl.elim
  | direct c =>
    have hcur : st.cur = some c := he
    have hrun := h.cur c hcur
    have hz : pending st st.next = 0 := by
      by_contra h0
      obtain ⟨j, j1, j2⟩ := pending_pos (Nat.pos_of_ne_zero h0)
      have := (h.job j j1).1
      omega
    refine ⟨_, rfl, ⟨fun g hg hf => ?_, fun j hj => ?_, fun c' g hcg => ?_, fun c' hc' => ?_, fun g hg hw hp => ?_, fun g hg hw => ?_, fun g hg ho => ?_, fun g hg ho hw hp => ?_⟩⟩
    · simp only [direct, mkGate, pending] at hg hf ⊢
      rw [pending_cons]
      by_cases e : g = st.next
      · subst e
        simp only [put_same, if_true, hz]
      · simp only [put_other _ _ _ _ e] at hf ⊢
        rw [if_neg (show ¬ st.next = g from fun e' => e e'.symm)]
        exact h.ref g (by omega) hf
    · simp only [direct, mkGate, List.mem_cons] at hj ⊢
      rcases hj with rfl | hj
      · simp only [put_same]
        exact ⟨by omega, trivial, trivial⟩
      · obtain ⟨a1, a2, a3⟩ := h.job j hj
        simp only [put_other _ _ _ _ (show j.1 ≠ st.next by omega)]
        exact ⟨by omega, a2, a3⟩
    · simp only [direct, mkGate, pending] at hcg ⊢
      rw [pending_cons]
      rcases upd_cases st.loc c c' (.wait st.next) with ⟨e0, e⟩ | ⟨e0, e⟩
      · rw [e] at hcg
        simp only [At.wait.injEq] at hcg
        subst hcg
        simp only [put_same, if_true]
        exact ⟨by omega, trivial, e0.symm, trivial, by omega⟩
      · rw [e] at hcg
        obtain ⟨a1, a2, a3, a4, a5⟩ := h.loc c' g hcg
        simp only [put_other _ _ _ _ (show g ≠ st.next by omega)]
        exact ⟨by omega, a2, a3, a4, by omega⟩
    · simp only [direct] at hc'
      exact absurd hc' (by simp)
    · simp only [direct, mkGate, pending] at hg hw hp ⊢
      rw [pending_cons] at hp
      by_cases e : g = st.next
      · subst e
        simp only [put_same, upd_same]
      · simp only [put_other _ _ _ _ e] at hw ⊢
        rw [if_neg (fun e' => e e'.symm)] at hp
        have := h.wtd g (by omega) hw (by omega)
        rw [upd_other]
        · exact this
        · intro e3; rw [e3, hrun] at this; exact absurd this (by simp)
    · simp only [direct, mkGate] at hg hw ⊢
      by_cases e : g = st.next
      · subst e; simp only [put_same] at hw; exact absurd hw (by simp)
      · simp only [put_other _ _ _ _ e] at hw ⊢
        exact h.opn g (by omega) hw
    · simp only [direct, mkGate] at hg ho ⊢
      by_cases e : g = st.next
      · subst e; simp only [put_same]
      · simp only [put_other _ _ _ _ e] at ho ⊢
        exact h.one g (by omega) ho
    · simp only [direct, mkGate, pending] at hg ho hw hp ⊢
      rw [pending_cons] at hp
      by_cases e : g = st.next
      · subst e; simp only [put_same] at ho; exact absurd ho (by simp)
      · simp only [put_other _ _ _ _ e] at ho hw ⊢
        exact h.fin g (by omega) ho hw (by omega)
  | wait c g0 =>
    obtain ⟨l1, l2, l3⟩ := hl
    have hcur : st.cur = some c := he
    have hrun := h.cur c hcur
    have l4 := h.opn g0 l1 l3
    have hr := h.ref g0 l1 l4
    rw [l3] at hr
    simp only [Bool.false_eq_true, if_false] at hr
    simp only [step, wait]
    rw [if_neg (by rw [l4, hr]; simp)]
    have hno : ∀ c' g, st.loc c' = .wait g → g ≠ g0 := by
      rintro c' g hcg rfl
      have := (h.loc c' g hcg).2.2.2.1
      rw [l3] at this; exact absurd this (by simp)
    by_cases h0 : (st.gate g0).ref - 1 = 0
    · rw [if_pos h0]
      have hz : pending st g0 = 0 := by omega
      have hnj : ∀ j ∈ st.jobs, j.1 ≠ g0 := by
        rintro j hj rfl
        have := pending_of_mem hj
        omega
      refine ⟨_, rfl, ⟨fun g hg hf => ?_, fun j hj => ?_, fun c' g hcg => ?_, h.cur, fun g hg hw hp => ?_, fun g hg hw => ?_, fun g hg ho => ?_, fun g hg ho hw hp => ?_⟩⟩
      · by_cases e : g = g0
        · subst e; simp only [put_same] at hf; exact absurd hf (by simp)
        · simp only [put_other _ _ _ _ e] at hf ⊢
          exact h.ref g hg hf
      · simp only [put_other _ _ _ _ (hnj j hj)]
        exact h.job j hj
      · simp only [put_other _ _ _ _ (hno c' g hcg)]
        exact h.loc c' g hcg
      · by_cases e : g = g0
        · subst e; exact absurd hp (by show ¬ 0 < pending st g; omega)
        · simp only [put_other _ _ _ _ e] at hw ⊢
          exact h.wtd g hg hw hp
      · by_cases e : g = g0
        · subst e; simp only [put_same] at hw; exact absurd hw (by simp)
        · simp only [put_other _ _ _ _ e] at hw ⊢
          exact h.opn g hg hw
      · by_cases e : g = g0
        · subst e; simp only [put_same]
        · simp only [put_other _ _ _ _ e] at ho ⊢
          exact h.one g hg ho
      · by_cases e : g = g0
        · subst e; simp only [put_same]
        · simp only [put_other _ _ _ _ e] at ho hw ⊢
          exact h.fin g hg ho hw hp
    · rw [if_neg h0]
      have hz : 0 < pending st g0 := by omega
      refine ⟨_, rfl, ⟨fun g hg hf => ?_, fun j hj => ?_, fun c' g hcg => ?_, fun c' hc' => ?_, fun g hg hw hp => ?_, fun g hg hw => ?_, fun g hg ho => ?_, fun g hg ho hw hp => ?_⟩⟩
      · by_cases e : g = g0
        · subst e
          simp only [put_same, if_true]
          show _ = 0 + pending st g
          omega
        · simp only [put_other _ _ _ _ e] at hf ⊢
          exact h.ref g hg hf
      · obtain ⟨a1, a2, a3⟩ := h.job j hj
        by_cases e : j.1 = g0
        · rw [e] at a1 a2 a3 ⊢
          simp only [put_same]
          exact ⟨a1, a2, a3⟩
        · simp only [put_other _ _ _ _ e]
          exact ⟨a1, a2, a3⟩
      · rcases upd_cases st.loc c c' (.wait g0) with ⟨e0, e⟩ | ⟨e0, e⟩
        · simp only [e, At.wait.injEq] at hcg
          subst hcg
          simp only [put_same]
          exact ⟨l1, l4, by rw [l2, e0], trivial, hz⟩
        · simp only [e] at hcg
          simp only [put_other _ _ _ _ (hno c' g hcg)]
          exact h.loc c' g hcg
      · exact absurd hc' (by simp)
      · by_cases e : g = g0
        · subst e
          simp only [put_same, l2, upd_same]
        · simp only [put_other _ _ _ _ e] at hw ⊢
          have := h.wtd g hg hw hp
          rw [upd_other]
          · exact this
          · intro e3; rw [e3, hrun] at this; exact absurd this (by simp)
      · by_cases e : g = g0
        · subst e; simp only [put_same] at hw; exact absurd hw (by simp)
        · simp only [put_other _ _ _ _ e] at hw ⊢
          exact h.opn g hg hw
      · by_cases e : g = g0
        · subst e; simp only [put_same]
        · simp only [put_other _ _ _ _ e] at ho ⊢
          exact h.one g hg ho
      · by_cases e : g = g0
        · subst e
          exact absurd hp (by show ¬ pending st g = 0; omega)
        · simp only [put_other _ _ _ _ e] at ho hw ⊢
          exact h.fin g hg ho hw hp
  | sleep c =>
    have hcur : st.cur = some c := he
    have hrun := h.cur c hcur
    refine ⟨_, rfl, ⟨h.ref, h.job, fun c' g hcg => ?_, fun c' hc' => ?_, fun g hg hw hp => ?_, h.opn, h.one, h.fin⟩⟩
    · rcases upd_cases st.loc c c' .other with ⟨e0, e⟩ | ⟨e0, e⟩
      · simp only [e] at hcg; exact absurd hcg (by simp)
      · simp only [e] at hcg; exact h.loc c' g hcg
    · exact absurd hc' (by simp)
    · have := h.wtd g hg hw hp
      simp only
      rw [upd_other]
      · exact this
      · intro e3; rw [e3, hrun] at this; exact absurd this (by simp)
  | leave c => exact ⟨_, rfl, ⟨h.ref, h.job, h.loc, fun c' hc' => absurd hc' (by simp), h.wtd, h.opn, h.one, h.fin⟩⟩
  | wake c =>
    obtain ⟨h1, h2⟩ := he
    simp only [step, resume, h2]
    refine ⟨_, rfl, ⟨h.ref, h.job, fun c' g hcg => ?_, fun c' hc' => ?_, fun g hg hw hp => ?_, h.opn, h.one, h.fin⟩⟩
    · rcases upd_cases st.loc c c' .run with ⟨e0, e⟩ | ⟨e0, e⟩
      · simp only [e] at hcg; exact absurd hcg (by simp)
      · simp only [e] at hcg; exact h.loc c' g hcg
    · simp only [Option.some.injEq] at hc'
      subst hc'
      simp
    · have := h.wtd g hg hw hp
      simp only
      rw [upd_other]
      · exact this
      · intro e3; rw [e3, h2] at this; exact absurd this (by simp)
  | complete j =>
    obtain ⟨st', h1, h2, _⟩ := complete_inv h he.1 j he.2
    exact ⟨st', h1, h2⟩

theorem reach_inv [NeZero n] {st : St n} (h : Reach st) : Inv st := by
  induction h with
  | init => exact inv_init
  | step _ h2 h3 h4 ih =>
    obtain ⟨s, h5, h6⟩ := step_inv ih _ h2 h3
    rw [h4] at h5
    cases h5
    exact h6

/-- C135: nothing a coroutine may do with gates of its own, and no completion, uses a gate that is gone or resumes a coroutine that
is not suspended. What is missing: gates used by several coroutines and queues that are full, see C135_shared_violated and
C135_try_violated. -/
theorem C135_safe_partial [NeZero n] {st : St n} (h : Reach st) (o : Op n) (he : enabled st o) (hl : Legal st o) :
    ∃ st', step st o = .ok st' := by
  obtain ⟨s, h1, _⟩ := step_inv (reach_inv h) o he hl
  exact ⟨s, h1⟩

/-- C135: a coroutine in a wait for a gate has work out for it: it is not forgotten there, some completion is still to come. -/
theorem C135_no_hang [NeZero n] {st : St n} (h : Reach st) (c : Fin n) (g : Nat) (hw : st.loc c = .wait g) :
    ∃ j ∈ st.jobs, j.1 = g ∧ j.2 = c := by
  obtain ⟨_, _, a3, _, a5⟩ := (reach_inv h).loc c g hw
  obtain ⟨j, hj, e⟩ := pending_pos a5
  have := ((reach_inv h).job j hj).2.2
  exact ⟨j, hj, e, by rw [← this, e, a3]⟩

/-- What a completion does to the coroutines: all stay where they are, or the one the job knows runs. -/
theorem complete_loc {st st' : St n} (j : Nat × Fin n) (h : complete j st = .ok st') :
    st'.jobs = st.jobs.erase j ∧
      (((st.gate j.1).ref - 1 ≠ 0 ∧ st'.loc = st.loc ∧ st'.cur = st.cur) ∨
        ((st.gate j.1).ref - 1 = 0 ∧ st'.loc = upd st.loc j.2 .run ∧ st'.cur = some j.2)) := by
  unfold complete at h
  simp only at h
  split at h
  · cases h
  split at h
  · rename_i h0
    unfold resume at h
    simp only at h
    split at h
    · cases h
    · cases h; exact ⟨rfl, Or.inr ⟨h0, rfl, rfl⟩⟩
    · split at h
      · cases h; exact ⟨rfl, Or.inr ⟨h0, rfl, rfl⟩⟩
      · split at h
        · cases h
        · cases h; exact ⟨rfl, Or.inr ⟨h0, rfl, rfl⟩⟩
  · rename_i h0
    cases h
    exact ⟨rfl, Or.inl ⟨h0, rfl, rfl⟩⟩

/-- C135: a wait does not return early. Whenever a coroutine leaves a wait for a gate, by whatever happens, no job is out for that
gate any more, and it is this coroutine that runs. -/
theorem C135_wait [NeZero n] {st st' : St n} (h : Reach st) (o : Op n) (he : enabled st o) (hl : Legal st o) (hs : step st o = .ok st')
    (c : Fin n) (g : Nat) (hw : st.loc c = .wait g) (hn : st'.loc c ≠ .wait g) : pending st' g = 0 ∧ st'.cur = some c := by
  have inv := reach_inv h
  obtain ⟨a1, a2, a3, a4, a5⟩ := inv.loc c g hw
  have hcur : ∀ c', st.cur = some c' → c ≠ c' := by
    rintro c' h1 rfl
    rw [inv.cur c h1] at hw
    cases hw
  have hu : ∀ c' v, c ≠ c' → upd st.loc c' v c = st.loc c := fun c' v e => upd_other _ _ _ _ e
  cases o with
  | begin_ c' => simp only [step] at hs; cases hs; exact absurd hw hn
  | gate c' => simp only [step] at hs; cases hs; exact absurd hw hn
  | queue c' g' =>
    simp only [step, queue] at hs
    split at hs
    · cases hs
    · cases hs; exact absurd hw hn
  | tryFail c' g' => exact hl.elim
  | direct c' =>
    simp only [step] at hs; cases hs
    exact absurd ((hu c' _ (hcur c' he)).trans hw) hn
  | wait c' g' =>
    simp only [step, wait] at hs
    split at hs
    · cases hs
    split at hs
    · cases hs; exact absurd hw hn
    · cases hs; exact absurd ((hu c' _ (hcur c' he)).trans hw) hn
  | sleep c' => simp only [step] at hs; cases hs; exact absurd ((hu c' _ (hcur c' he)).trans hw) hn
  | leave c' => simp only [step] at hs; cases hs; exact absurd hw hn
  | wake c' =>
    have h2 : st.loc c' = .other := he.2
    simp only [step, resume, h2] at hs; cases hs
    exact absurd ((hu c' _ (by rintro rfl; rw [h2] at hw; cases hw)).trans hw) hn
  | complete j =>
    obtain ⟨b0, b | b⟩ := complete_loc j hs
    · rw [b.2.1] at hn; exact absurd hw hn
    · obtain ⟨b1, b2, b3⟩ := b
      obtain ⟨j1, j2, j3⟩ := inv.job j he.2
      have e : c = j.2 := by
        by_contra e
        rw [b2, hu _ _ e] at hn
        exact hn hw
      have hp := pending_of_mem he.2
      have hr := inv.ref j.1 j1 j2
      have hw' : (st.gate j.1).waited = true := by
        by_contra hw'
        rw [if_neg hw'] at hr
        omega
      have hl' := inv.wtd j.1 j1 hw' hp
      rw [j3, ← e, hw] at hl'
      have eg : g = j.1 := by injection hl'
      subst eg
      rw [hw'] at hr
      simp only [if_true] at hr
      have := pending_erase st j he.2 j.1
      simp only [if_true] at this
      refine ⟨?_, by rw [b3, e]⟩
      unfold pending
      rw [b0]
      omega

/-- C135: the last completion brings the coroutine back, at once. -/
theorem C135_last [NeZero n] {st : St n} (h : Reach st) (hc : st.cur = none) (c : Fin n) (g : Nat) (hw : st.loc c = .wait g)
    (j : Nat × Fin n) (hj : j ∈ st.jobs) (hg : j.1 = g) (h1 : pending st g = 1) :
    ∃ st', step st (.complete j) = .ok st' ∧ st'.cur = some c ∧ st'.loc c = .run := by
  have inv := reach_inv h
  obtain ⟨a1, a2, a3, a4, _⟩ := inv.loc c g hw
  obtain ⟨st', hs⟩ := C135_safe_partial h (.complete j) ⟨hc, hj⟩ trivial
  refine ⟨st', hs, ?_⟩
  have hr := inv.ref g a1 a2
  rw [a4] at hr
  simp only [if_true] at hr
  obtain ⟨_, b | b⟩ := complete_loc j hs
  · rw [hg] at b; exact absurd b.1 (by omega)
  · have e : j.2 = c := by rw [← (inv.job j hj).2.2, hg, a3]
    rw [b.2.1, b.2.2, e]
    exact ⟨rfl, by simp⟩

/-- C135: a wait returns at once if nothing is out, and otherwise the coroutine is suspended in it. -/
theorem C135_enter [NeZero n] {st : St n} (h : Reach st) (c : Fin n) (hc : st.cur = some c) (g : Nat) (hl : Legal st (.wait c g)) :
    ∃ st', step st (.wait c g) = .ok st' ∧
      (pending st g = 0 → st'.cur = some c ∧ st'.loc c = .run ∧ (st'.gate g).freed = true) ∧
      (pending st g ≠ 0 → st'.cur = none ∧ st'.loc c = .wait g ∧ (st'.gate g).freed = false) := by
  have inv := reach_inv h
  obtain ⟨l1, l2, l3⟩ := hl
  have l4 := inv.opn g l1 l3
  have hr := inv.ref g l1 l4
  rw [l3] at hr
  simp only [Bool.false_eq_true, if_false] at hr
  simp only [step, wait]
  rw [if_neg (by rw [l4, hr]; simp)]
  by_cases h0 : pending st g = 0
  · rw [if_pos (by omega)]
    exact ⟨_, rfl, fun _ => ⟨hc, inv.cur c hc, by simp [put_same]⟩, fun e => absurd h0 e⟩
  · rw [if_neg (by omega)]
    exact ⟨_, rfl, fun e => absurd e h0, fun _ => ⟨rfl, by simp, by simp [put_same, l4]⟩⟩

/-- C135: a gate that was waited for is released when its work is done, and not before. -/
theorem C135_released [NeZero n] {st : St n} (h : Reach st) (g : Nat) (hg : g < st.next) (ho : (st.gate g).once = false) :
    (st.gate g).freed = true ↔ (st.gate g).waited = true ∧ pending st g = 0 := by
  have inv := reach_inv h
  refine ⟨fun hf => ⟨?_, ?_⟩, fun ⟨h1, h2⟩ => inv.fin g hg ho h1 h2⟩
  · by_contra hw
    rw [inv.opn g hg (by simpa using hw)] at hf
    cases hf
  · by_contra hp
    obtain ⟨j, hj, e⟩ := pending_pos (Nat.pos_of_ne_zero hp)
    have := (inv.job j hj).2.1
    rw [e, hf] at this
    cases this

/-- Operations one after the other, each possible when it happens. -/
def run (st : St n) : List (Op n) → Out (St n)
  | [] => .ok st
  | o :: os => (step st o).bind fun st' => run st' os

/-- C135 is violated: the forms that wait at once never release their gate. The coroutine runs again, nothing is out, and the memory
stays. -/
theorem C135_leak_violated : ∃ st : St 1, Reach st ∧ st.cur = some 0 ∧ st.jobs = [] ∧ (st.gate 0).waited = true ∧ (st.gate 0).freed = false := by
  have r1 : Reach (n := 1) _ := .step (o := .begin_ 0) .init ⟨rfl, rfl⟩ trivial rfl
  have r2 : Reach (n := 1) _ := .step (o := .direct 0) r1 rfl trivial rfl
  have r3 : Reach (n := 1) _ := .step (o := .complete (0, 0)) r2 ⟨rfl, by simp [direct, St.init]⟩ trivial rfl
  exact ⟨_, r3, rfl, rfl, rfl, rfl⟩

/-- C135 is violated: if a queue has no room, eventer_aco_try_run_asynch_queue_subqueue_gated frees the gate it was given, and the
wait that follows uses it. -/
theorem C135_try_violated : run (St.init : St 1) [.begin_ 0, .gate 0, .tryFail 0 0, .wait 0 0] = .ub := rfl

/-- So does the completion of a job that was out before. -/
theorem C135_try_pending_violated :
    run (St.init : St 1) [.begin_ 0, .gate 0, .queue 0 0, .tryFail 0 0, .leave 0, .complete (0, 0)] = .ub := rfl

/-- C135 is violated: the last completion resumes the coroutine that queued that job, not the one that waits. With a gate made by one
and used by another, the one that waits stays there with nothing out, and the other goes on from a wait of its own. -/
theorem C135_shared_violated :
    ∃ st : St 2, run (St.init : St 2) [.begin_ 0, .gate 0, .leave 0, .begin_ 1, .queue 1 0, .sleep 1, .begin_ 0, .wait 0 0, .complete (0, 1)] = .ok st ∧
      st.loc 0 = .wait 0 ∧ st.jobs = [] ∧ st.cur = some 1 :=
  ⟨_, rfl, rfl, rfl, rfl⟩

/-- Three jobs and a wait: suspended by the wait, back with the third completion, the gate released. -/
example : ∃ st : St 2, run (St.init : St 2) [.begin_ 1, .gate 1, .queue 1 0, .queue 1 0, .queue 1 0, .wait 1 0, .complete (0, 1), .complete (0, 1)] = .ok st ∧
    st.loc 1 = .wait 0 ∧ st.cur = none ∧ pending st 0 = 1 ∧ ∃ st', step st (.complete (0, 1)) = .ok st' ∧ st'.cur = some 1 ∧
      (st'.gate 0).freed = true :=
  ⟨_, rfl, rfl, rfl, rfl, _, rfl, rfl, rfl⟩

/-- A state meeting the hypotheses of C135_wait, C135_last and C135_no_hang: a coroutine waits for one job. -/
example : ∃ st : St 1, Reach st ∧ st.cur = none ∧ st.loc 0 = .wait 0 ∧ pending st 0 = 1 := by
  have r1 : Reach (n := 1) _ := .step (o := .begin_ 0) .init ⟨rfl, rfl⟩ trivial rfl
  have r2 : Reach (n := 1) _ := .step (o := .gate 0) r1 rfl trivial rfl
  have r3 : Reach (n := 1) _ := .step (o := .queue 0 0) r2 rfl ⟨by decide, rfl, rfl⟩ rfl
  have r4 : Reach (n := 1) _ := .step (o := .wait 0 0) r3 rfl ⟨by decide, rfl, rfl⟩ rfl
  exact ⟨_, r4, rfl, rfl, rfl⟩

end Mtev.AcoGate
