import Verif.JobDeps
import Verif.JobqInv

/-!
C32: a job's completion is delivered exactly once, and only when the job and all the jobs it spawned, directly
or indirectly, have finished.
-/

namespace Mtev.JobDeps

open Mtev.Jobq (count_eraseIdx countP_eraseIdx)

/-! ### Specification -/

/-- `c` was spawned by `p`, or by a job that is below `p`. -/
inductive Below (s : S) (p : Nat) : Nat → Prop
  | child {c : Nat} : s.par c = some p → Below s p c
  | further {b c : Nat} : Below s p b → s.par c = some b → Below s p c

/-! ### Invariant -/

/-- The jobs whose counter has reached zero. -/
def zeroed (s : S) : List Nat := s.threads.flatMap Thr.stack ++ (s.back ++ s.delivered)

/-- The jobs spawned by `j` whose counter has not reached zero. -/
def openKids (s : S) (j : Nat) : Nat :=
  (List.range s.n).countP (fun c => decide (s.par c = some j) && !(zeroed s).contains c)

structure Inv (s : S) : Prop where
  place : ∀ j, s.queued.count j + s.running.count j + s.finished.count j = if j < s.n then 1 else 0
  par : ∀ c p, s.par c = some p → p < c ∧ c < s.n
  idle : ∀ c p, s.par c = some p → p ∈ s.running ∨ p ∈ s.finished
  once : ∀ j, (zeroed s).count j ≤ 1
  sub : ∀ j ∈ zeroed s, j ∈ s.finished
  dep : ∀ j, s.dep j = s.running.count j + s.threads.countP (fun t => decide (t.dec = some j)) + openKids s j
  zero : ∀ j ∈ zeroed s, s.dep j = 0
  pos : ∀ j ∈ s.finished, j ∉ zeroed s → 0 < s.dep j
  decs : ∀ t ∈ s.threads, ∀ j, t.dec = some j → j ∈ s.running ∨ j ∈ s.finished
  ok : s.bad = false

theorem countP_congr' {l : List Nat} {p q : Nat → Bool} (h : ∀ c ∈ l, p c = q c) : l.countP p = l.countP q := by
  apply List.countP_congr
  intro c hc
  rw [h c hc]

theorem openKids_zero {s : S} {j : Nat} (h : openKids s j = 0) {c : Nat} (hc : c < s.n) (hp : s.par c = some j) : c ∈ zeroed s := by
  rw [openKids, List.countP_eq_zero] at h
  have := h c (by simpa using hc)
  simp only [hp, decide_true, Bool.true_and, Bool.not_eq_true', Bool.not_eq_false] at this
  simpa using this

theorem openKids_of_none {s : S} {j : Nat} (h : ∀ c, s.par c ≠ some j) : openKids s j = 0 := by
  rw [openKids, List.countP_eq_zero]
  intro c _
  simp [h c]

/-- The open children when only the job `j` is added to the zeroed ones. -/
theorem countP_remove {l : List Nat} (hn : l.Nodup) {j : Nat} {p q : Nat → Bool} (hj : j ∈ l) (hpj : q j = false)
    (hne : ∀ c, c ≠ j → p c = q c) : l.countP p = l.countP q + if p j then 1 else 0 := by
  induction l with
  | nil => cases hj
  | cons a l ih =>
    rw [List.nodup_cons] at hn
    rw [List.countP_cons, List.countP_cons]
    by_cases ha : a = j
    · subst ha
      have : l.countP p = l.countP q := countP_congr' (fun c hc => hne c (by rintro rfl; exact hn.1 hc))
      rw [this, hpj]
      simp
    · rcases List.mem_cons.mp hj with hj | hj
      · exact absurd hj.symm ha
      · rw [ih hn.2 hj, hne a ha]
        omega

theorem flatMap_count_eraseIdx {l : List Thr} {i : Nat} {t : Thr} (h : l[i]? = some t) (x : Nat) :
    (l.flatMap Thr.stack).count x = ((l.eraseIdx i).flatMap Thr.stack).count x + t.stack.count x := by
  induction l generalizing i with
  | nil => simp at h
  | cons a l ih =>
    cases i with
    | zero =>
      simp only [List.getElem?_cons_zero, Option.some.injEq] at h
      subst h
      rw [List.eraseIdx_zero, List.tail_cons, List.flatMap_cons, List.count_append]
      omega
    | succ i =>
      simp only [List.getElem?_cons_succ] at h
      rw [List.eraseIdx_cons_succ, List.flatMap_cons, List.flatMap_cons, List.count_append, List.count_append, ih h]
      omega

theorem mem_congr_of_count {a b : List Nat} (h : ∀ x, a.count x = b.count x) (x : Nat) : x ∈ a ↔ x ∈ b := by
  rw [← List.count_pos_iff, ← List.count_pos_iff, h x]

/-- Steps that do not change who is zeroed. -/
theorem openKids_congr {s t : S} (hn : t.n = s.n) (hp : t.par = s.par) (hz : ∀ x, (zeroed t).count x = (zeroed s).count x) (j : Nat) :
    openKids t j = openKids s j := by
  unfold openKids
  rw [hn, hp]
  apply countP_congr'
  intro c _
  have := mem_congr_of_count hz c
  have hb : (zeroed t).contains c = (zeroed s).contains c := by
    rw [Bool.eq_iff_iff]
    simpa using this
  rw [hb]

theorem inv_init : Inv init := by
  constructor <;> simp [init, zeroed, openKids]

theorem openKids_new {s : S} (h : Inv s) {t : S} {p : Option Nat} (hn : t.n = s.n + 1) (hp : t.par = put s.par s.n p) (hz : zeroed t = zeroed s) (j : Nat) :
    openKids t j = openKids s j + if p = some j then 1 else 0 := by
  unfold openKids
  rw [hn, hp, hz, List.range_succ, List.countP_append, List.countP_cons, List.countP_nil]
  have h1 : (List.range s.n).countP (fun c => decide (put s.par s.n p c = some j) && !(zeroed s).contains c) = (List.range s.n).countP (fun c => decide (s.par c = some j) && !(zeroed s).contains c) := by
    apply countP_congr'
    intro c hc
    have : c ≠ s.n := by have := List.mem_range.mp hc; omega
    simp [put, this]
  have h2 : s.n ∉ zeroed s := by
    intro hm
    have := h.sub _ hm
    have hc := h.place s.n
    have := List.count_pos_iff.mpr this
    rw [if_neg (by omega)] at hc
    omega
  rw [h1]
  simp only [put, if_true]
  have h3 : (zeroed s).contains s.n = false := by simpa using h2
  rw [h3]
  by_cases hpj : p = some j <;> simp [hpj]

theorem not_queued_of_running {s : S} (h : Inv s) {j : Nat} (hj : j ∈ s.running) : j ∉ s.queued ∧ j ∉ s.finished ∧ j < s.n := by
  have hp := h.place j
  have h1 := List.count_pos_iff.mpr hj
  refine ⟨fun hq => ?_, fun hq => ?_, ?_⟩
  · have := List.count_pos_iff.mpr hq; split at hp <;> omega
  · have := List.count_pos_iff.mpr hq; split at hp <;> omega
  · by_contra hh; rw [if_neg hh] at hp; omega

/-- A job that has not been started has no counter. -/
theorem dep_fresh {s : S} (h : Inv s) {j : Nat} (h1 : j ∉ s.running) (h2 : j ∉ s.finished) :
    s.running.count j = 0 ∧ s.threads.countP (fun t => decide (t.dec = some j)) = 0 ∧ openKids s j = 0 ∧ j ∉ zeroed s := by
  refine ⟨List.count_eq_zero.mpr h1, ?_, ?_, fun hz => h2 (h.sub j hz)⟩
  · rw [List.countP_eq_zero]
    intro u hu hd
    rcases h.decs u hu j (by simpa using hd) with hh | hh
    · exact h1 hh
    · exact h2 hh
  · apply openKids_of_none
    intro c hc
    rcases h.idle c j hc with hh | hh
    · exact h1 hh
    · exact h2 hh

theorem not_delivered {s : S} {j : Nat} (h : j ∉ zeroed s) : s.delivered.contains j = false := by
  have : j ∉ s.delivered := fun hm => h (by simp [zeroed, hm])
  simpa using this

theorem fresh_n {s : S} (h : Inv s) : s.n ∉ s.queued ∧ s.n ∉ s.running ∧ s.n ∉ s.finished := by
  have := h.place s.n
  rw [if_neg (by omega)] at this
  refine ⟨fun hm => ?_, fun hm => ?_, fun hm => ?_⟩ <;> (have := List.count_pos_iff.mpr hm; omega)

/-- Steps of a thread, seen from outside. -/
theorem inv_thr {s : S} (h : Inv s) {i : Nat} {u : Thr} (hu : s.threads[i]? = some u) : Inv (thrStep i u s) := by
  have hmem : u ∈ s.threads := List.mem_of_getElem? hu
  have hcnt := fun x => flatMap_count_eraseIdx hu x
  have hcp := fun p => countP_eraseIdx hu p
  have herase : ∀ v ∈ s.threads.eraseIdx i, v ∈ s.threads := fun v hv => List.mem_of_mem_eraseIdx hv
  rcases hd : u.dec with _ | j
  · rcases hst : u.stack with _ | ⟨j, st⟩
    · -- the thread ends
      have ht : thrStep i u s = { s with threads := s.threads.eraseIdx i } := by
        unfold thrStep; rw [hd, hst]
      rw [ht]
      have hz : ∀ x, (zeroed { s with threads := s.threads.eraseIdx i }).count x = (zeroed s).count x := by
        intro x
        simp only [zeroed, List.count_append, hcnt x, hst, List.count_nil]
        omega
      have hzm := mem_congr_of_count hz
      have hk := openKids_congr (s := s) (t := { s with threads := s.threads.eraseIdx i }) rfl rfl hz
      refine ⟨h.place, h.par, h.idle, fun x => by rw [hz]; exact h.once x, fun x hx => h.sub x ((hzm x).mp hx), ?_, fun x hx => h.zero x ((hzm x).mp hx), fun x hx hnz => h.pos x hx (fun hh => hnz ((hzm x).mpr hh)), fun v hv => h.decs v (herase v hv), h.ok⟩
      intro x
      have := h.dep x
      have := hcp (fun t => decide (t.dec = some x))
      rw [hd] at this
      rw [hk x]
      simp at this ⊢
      omega
    · -- a job is enqueued
      have ht : thrStep i u s = { s with threads := s.threads.eraseIdx i ++ [⟨none, st⟩], back := s.back ++ [j], bad := s.bad || s.delivered.contains j } := by
        unfold thrStep; rw [hd, hst]
      rw [ht]
      have hz : ∀ x, (zeroed { s with threads := s.threads.eraseIdx i ++ [⟨none, st⟩], back := s.back ++ [j], bad := s.bad || s.delivered.contains j }).count x = (zeroed s).count x := by
        intro x
        simp only [zeroed, List.flatMap_append, List.flatMap_cons, List.flatMap_nil, List.count_append, List.count_cons, hcnt x, hst, List.count_nil]
        omega
      have hzm := mem_congr_of_count hz
      have hk := openKids_congr (s := s) (t := { s with threads := s.threads.eraseIdx i ++ [⟨none, st⟩], back := s.back ++ [j], bad := s.bad || s.delivered.contains j }) rfl rfl hz
      have hnd : s.delivered.contains j = false := by
        have h1 := h.once j
        have h2 := hcnt j
        rw [hst, List.count_cons_self] at h2
        simp only [zeroed, List.count_append] at h1
        have : s.delivered.count j = 0 := by omega
        have := List.count_eq_zero.mp this
        simpa using this
      refine ⟨h.place, h.par, h.idle, fun x => by rw [hz]; exact h.once x, fun x hx => h.sub x ((hzm x).mp hx), ?_, fun x hx => h.zero x ((hzm x).mp hx), fun x hx hnz => h.pos x hx (fun hh => hnz ((hzm x).mpr hh)), ?_, ?_⟩
      · intro x
        have := h.dep x
        have := hcp (fun t => decide (t.dec = some x))
        rw [hd] at this
        rw [hk x]
        simp at this ⊢
        omega
      · intro v hv x hx
        rcases List.mem_append.mp hv with hv | hv
        · exact h.decs v (herase v hv) x hx
        · simp at hv; subst hv; cases hx
      · show (s.bad || s.delivered.contains j) = false
        rw [h.ok, hnd]; rfl
  · -- a counter is decremented
    have hthr : 0 < s.threads.countP (fun t => decide (t.dec = some j)) := List.countP_pos_iff.mpr ⟨u, hmem, by simp [hd]⟩
    have hpos : 0 < s.dep j := by have := h.dep j; omega
    have hjz : j ∉ zeroed s := fun hz => by have := h.zero j hz; omega
    have hnd := not_delivered hjz
    have hplace := h.decs u hmem j hd
    have hjn : j < s.n := by
      have hp := h.place j
      have : 0 < s.running.count j ∨ 0 < s.finished.count j := by
        rcases hplace with hh | hh
        · exact .inl (List.count_pos_iff.mpr hh)
        · exact .inr (List.count_pos_iff.mpr hh)
      by_contra hh
      rw [if_neg hh] at hp
      omega
    have hbad : (s.bad || decide (s.dep j = 0) || s.delivered.contains j) = false := by
      rw [h.ok, hnd]
      have : s.dep j ≠ 0 := by omega
      simp [this]
    by_cases h1 : s.dep j - 1 = 0
    · have ht : thrStep i u s = { s with dep := put s.dep j (s.dep j - 1), threads := s.threads.eraseIdx i ++ [⟨s.par j, j :: u.stack⟩], bad := s.bad || decide (s.dep j = 0) || s.delivered.contains j } := by
        unfold thrStep; rw [hd]; simp only [if_pos h1]
      rw [ht]
      obtain ⟨t, htd⟩ : ∃ t : S, t = { s with dep := put s.dep j (s.dep j - 1), threads := s.threads.eraseIdx i ++ [⟨s.par j, j :: u.stack⟩], bad := s.bad || decide (s.dep j = 0) || s.delivered.contains j } := ⟨_, rfl⟩
      rw [← htd]
      have hz : ∀ x, (zeroed t).count x = (zeroed s).count x + if j = x then 1 else 0 := by
        intro x
        rw [htd]
        simp only [zeroed, List.flatMap_append, List.flatMap_cons, List.flatMap_nil, List.append_nil, List.count_append, List.count_cons, hcnt x]
        by_cases hx : j = x <;> simp [hx] <;> omega
      have hzm : ∀ x, x ∈ zeroed t ↔ (x = j ∨ x ∈ zeroed s) := by
        intro x
        rw [← List.count_pos_iff, ← List.count_pos_iff, hz x]
        by_cases hx : j = x
        · simp [hx]
        · rw [if_neg hx]
          constructor
          · intro hh; exact .inr (by omega)
          · rintro (hh | hh)
            · exact absurd hh.symm hx
            · omega
      -- nothing else holds the job
      have hdj := h.dep j
      have hone : s.running.count j = 0 ∧ s.threads.countP (fun t => decide (t.dec = some j)) = 1 ∧ openKids s j = 0 := by omega
      have hjf : j ∈ s.finished := by
        rcases hplace with hh | hh
        · have := List.count_pos_iff.mpr hh; omega
        · exact hh
      have hkids : ∀ x, openKids s x = openKids t x + if s.par j = some x then 1 else 0 := by
        intro x
        unfold openKids
        have hn : t.n = s.n := by rw [htd]
        have hp : t.par = s.par := by rw [htd]
        rw [hn, hp]
        have := countP_remove (l := List.range s.n) List.nodup_range (j := j)
          (p := fun c => decide (s.par c = some x) && !(zeroed s).contains c)
          (q := fun c => decide (s.par c = some x) && !(zeroed t).contains c)
          (List.mem_range.mpr hjn)
          (by
            have : (zeroed t).contains j = true := by simpa using (hzm j).mpr (.inl rfl)
            simp only [this, Bool.not_true, Bool.and_false])
          (by
            intro c hc
            have : (zeroed t).contains c = (zeroed s).contains c := by
              rw [Bool.eq_iff_iff]
              simp only [List.contains_iff_mem]
              rw [hzm c]
              constructor
              · rintro (hh | hh)
                · exact absurd hh hc
                · exact hh
              · exact .inr
            simp only [this])
        rw [this]
        congr 1
        have : (zeroed s).contains j = false := by simpa using hjz
        simp only [this, Bool.not_false, Bool.and_true, decide_eq_true_eq]
      have hdep : t.dep = put s.dep j (s.dep j - 1) := by rw [htd]
      have hrun : t.running = s.running := by rw [htd]
      have hfin : t.finished = s.finished := by rw [htd]
      have htp : t.par = s.par := by rw [htd]
      have htt : t.threads = s.threads.eraseIdx i ++ [⟨s.par j, j :: u.stack⟩] := by rw [htd]
      refine ⟨by rw [htd]; exact h.place, by rw [htd]; exact h.par, by rw [htd]; exact h.idle, ?_, ?_, ?_, ?_, ?_, ?_, by rw [htd]; exact hbad⟩
      · intro x
        rw [hz]
        split
        · rename_i e
          subst e
          have := List.count_eq_zero.mpr hjz
          omega
        · have := h.once x; omega
      · intro x hx
        rw [hfin]
        rcases (hzm x).mp hx with rfl | hx
        · exact hjf
        · exact h.sub x hx
      · intro x
        have e1 := h.dep x
        have e2 := hcp (fun t => decide (t.dec = some x))
        have e3 := hkids x
        rw [hd] at e2
        rw [hdep, hrun, htt, List.countP_append, List.countP_cons, List.countP_nil]
        simp only [Option.some.injEq, decide_eq_true_eq] at e2 ⊢
        unfold put
        by_cases hx : j = x
        · subst hx
          simp only [if_true] at e2 ⊢
          by_cases hp : s.par j = some j
          · have := (h.par j j hp).1; omega
          · rw [if_neg hp] at e3 ⊢; omega
        · rw [if_neg hx] at e2
          rw [if_neg (fun e => hx e.symm)]
          omega
      · intro x hx
        rw [hdep]
        unfold put
        rcases (hzm x).mp hx with rfl | hx
        · rw [if_pos rfl]; exact h1
        · split
          · exact h1
          · exact h.zero x hx
      · intro x hx hnz
        rw [hfin] at hx
        rw [hdep]
        have hxj : x ≠ j := fun e => hnz ((hzm x).mpr (.inl e))
        unfold put
        rw [if_neg hxj]
        exact h.pos x hx (fun hh => hnz ((hzm x).mpr (.inr hh)))
      · intro v hv x hx
        rw [htt] at hv
        rw [hrun, hfin]
        rcases List.mem_append.mp hv with hv | hv
        · exact h.decs v (herase v hv) x hx
        · simp only [List.mem_cons, List.not_mem_nil, or_false] at hv
          subst hv
          exact h.idle j x hx
    · have ht : thrStep i u s = { s with dep := put s.dep j (s.dep j - 1), threads := s.threads.eraseIdx i ++ [⟨none, u.stack⟩], bad := s.bad || decide (s.dep j = 0) || s.delivered.contains j } := by
        unfold thrStep; rw [hd]; simp only [if_neg h1]
      rw [ht]
      obtain ⟨t, htd⟩ : ∃ t : S, t = { s with dep := put s.dep j (s.dep j - 1), threads := s.threads.eraseIdx i ++ [⟨none, u.stack⟩], bad := s.bad || decide (s.dep j = 0) || s.delivered.contains j } := ⟨_, rfl⟩
      rw [← htd]
      have hz : ∀ x, (zeroed t).count x = (zeroed s).count x := by
        intro x
        rw [htd]
        simp only [zeroed, List.flatMap_append, List.flatMap_cons, List.flatMap_nil, List.append_nil, List.count_append, hcnt x]
      have hzm := mem_congr_of_count hz
      have hk := openKids_congr (s := s) (t := t) (by rw [htd]) (by rw [htd]) hz
      have hdep : t.dep = put s.dep j (s.dep j - 1) := by rw [htd]
      have hrun : t.running = s.running := by rw [htd]
      have hfin : t.finished = s.finished := by rw [htd]
      have htt : t.threads = s.threads.eraseIdx i ++ [⟨none, u.stack⟩] := by rw [htd]
      refine ⟨by rw [htd]; exact h.place, by rw [htd]; exact h.par, by rw [htd]; exact h.idle, fun x => by rw [hz]; exact h.once x, ?_, ?_, ?_, ?_, ?_, by rw [htd]; exact hbad⟩
      · intro x hx
        rw [hfin]
        exact h.sub x ((hzm x).mp hx)
      · intro x
        have e1 := h.dep x
        have e2 := hcp (fun t => decide (t.dec = some x))
        rw [hd] at e2
        rw [hk x, hdep, hrun, htt, List.countP_append, List.countP_cons, List.countP_nil]
        simp only [Option.some.injEq, decide_eq_true_eq, reduceCtorEq, if_false] at e2 ⊢
        unfold put
        by_cases hx : j = x
        · subst hx
          simp only [if_true] at e2 ⊢
          omega
        · rw [if_neg hx] at e2
          rw [if_neg (fun e => hx e.symm)]
          omega
      · intro x hx
        have hx := (hzm x).mp hx
        rw [hdep]
        unfold put
        rw [if_neg (by rintro rfl; exact hjz hx)]
        exact h.zero x hx
      · intro x hx hnz
        rw [hfin] at hx
        rw [hdep]
        unfold put
        split
        · omega
        · exact h.pos x hx (fun hh => hnz ((hzm x).mpr hh))
      · intro v hv x hx
        rw [htt] at hv
        rw [hrun, hfin]
        rcases List.mem_append.mp hv with hv | hv
        · exact h.decs v (herase v hv) x hx
        · simp only [List.mem_cons, List.not_mem_nil, or_false] at hv
          subst hv
          cases hx

theorem inv_step {op : Op} {s t : S} (h : Inv s) (hs : step op s = some t) : Inv t := by
  obtain ⟨hfq, hfr, hff⟩ := fresh_n h
  have hfresh := dep_fresh h hfr hff
  cases op with
  | create =>
    simp only [step, Option.some.injEq] at hs
    have hk := fun j => openKids_new h (t := t) (p := none) (by rw [← hs]) (by rw [← hs]) (by rw [← hs]; rfl) j
    have hz : zeroed t = zeroed s := by rw [← hs]; rfl
    have hdep : t.dep = put s.dep s.n 0 := by rw [← hs]
    have hpar : t.par = put s.par s.n none := by rw [← hs]
    have hrun : t.running = s.running := by rw [← hs]
    have hfin : t.finished = s.finished := by rw [← hs]
    have hthr : t.threads = s.threads := by rw [← hs]
    have hn : t.n = s.n + 1 := by rw [← hs]
    have hq : t.queued = s.queued ++ [s.n] := by rw [← hs]
    refine ⟨?_, ?_, ?_, by rw [hz]; exact h.once, by rw [hz, hfin]; exact h.sub, ?_, ?_, ?_, by rw [hthr, hrun, hfin]; exact h.decs, by rw [← hs]; exact h.ok⟩
    · intro j
      have := h.place j
      rw [hq, hrun, hfin, hn, List.count_append, List.count_cons, List.count_nil]
      have e : (if j < s.n + 1 then 1 else 0) = (if j < s.n then 1 else 0) + (if s.n = j then 1 else 0) := by
        split <;> split <;> split <;> omega
      simp only [beq_iff_eq]
      omega
    · intro c p hc
      rw [hpar] at hc
      unfold put at hc
      split at hc
      · cases hc
      · have := h.par c p hc; omega
    · intro c p hc
      rw [hpar] at hc
      rw [hrun, hfin]
      unfold put at hc
      split at hc
      · cases hc
      · exact h.idle c p hc
    · intro j
      rw [hdep, hrun, hthr, hk j]
      unfold put
      split
      · rename_i e; subst e; simp; omega
      · have := h.dep j; simp; omega
    · intro j hj
      rw [hz] at hj
      rw [hdep]
      unfold put
      split
      · rfl
      · exact h.zero j hj
    · intro j hj hnz
      rw [hfin] at hj
      rw [hz] at hnz
      rw [hdep]
      unfold put
      rw [if_neg (by rintro rfl; exact hff hj)]
      exact h.pos j hj hnz
  | spawn i =>
    simp only [step] at hs
    rcases hl : s.running[i]? with _ | p
    · rw [hl] at hs; cases hs
    · rw [hl] at hs
      simp only [Option.some.injEq] at hs
      have hpr : p ∈ s.running := List.mem_of_getElem? hl
      obtain ⟨hpq, hpf, hpn⟩ := not_queued_of_running h hpr
      have hpz : p ∉ zeroed s := fun hh => hpf (h.sub p hh)
      have hk := fun j => openKids_new h (t := t) (p := some p) (by rw [← hs]) (by rw [← hs]) (by rw [← hs]; rfl) j
      have hz : zeroed t = zeroed s := by rw [← hs]; rfl
      have hdep : t.dep = put (put s.dep s.n 0) p (s.dep p + 1) := by rw [← hs]
      have hpar : t.par = put s.par s.n (some p) := by rw [← hs]
      have hrun : t.running = s.running := by rw [← hs]
      have hfin : t.finished = s.finished := by rw [← hs]
      have hthr : t.threads = s.threads := by rw [← hs]
      have hn : t.n = s.n + 1 := by rw [← hs]
      have hq : t.queued = s.queued ++ [s.n] := by rw [← hs]
      have hb : t.bad = false := by
        rw [← hs]
        show (s.bad || s.delivered.contains p) = false
        rw [h.ok, not_delivered hpz]; rfl
      refine ⟨?_, ?_, ?_, by rw [hz]; exact h.once, by rw [hz, hfin]; exact h.sub, ?_, ?_, ?_, by rw [hthr, hrun, hfin]; exact h.decs, hb⟩
      · intro j
        have := h.place j
        rw [hq, hrun, hfin, hn, List.count_append, List.count_cons, List.count_nil]
        have e : (if j < s.n + 1 then 1 else 0) = (if j < s.n then 1 else 0) + (if s.n = j then 1 else 0) := by
          split <;> split <;> split <;> omega
        simp only [beq_iff_eq]
        omega
      · intro c q hc
        rw [hpar] at hc
        unfold put at hc
        split at hc
        · cases hc; omega
        · have := h.par c q hc; omega
      · intro c q hc
        rw [hpar] at hc
        rw [hrun, hfin]
        unfold put at hc
        split at hc
        · cases hc; exact .inl hpr
        · exact h.idle c q hc
      · intro j
        rw [hdep, hrun, hthr, hk j]
        unfold put
        by_cases hjp : j = p
        · subst hjp
          rw [if_pos rfl, if_pos rfl, h.dep j]
          omega
        · rw [if_neg hjp]
          rw [if_neg (show ¬ some p = some j by simpa using fun e => hjp e.symm)]
          split
          · rename_i e; subst e; omega
          · have := h.dep j; omega
      · intro j hj
        rw [hz] at hj
        rw [hdep]
        unfold put
        rw [if_neg (by rintro rfl; exact hpz hj)]
        split
        · rfl
        · exact h.zero j hj
      · intro j hj hnz
        rw [hfin] at hj
        rw [hz] at hnz
        rw [hdep]
        unfold put
        rw [if_neg (by rintro rfl; exact hpf hj), if_neg (by rintro rfl; exact hff hj)]
        exact h.pos j hj hnz
  | start i =>
    simp only [step] at hs
    rcases hl : s.queued[i]? with _ | j
    · rw [hl] at hs; cases hs
    · rw [hl] at hs
      simp only [Option.some.injEq] at hs
      have hjq : j ∈ s.queued := List.mem_of_getElem? hl
      have hjr : j ∉ s.running ∧ j ∉ s.finished := by
        have hp := h.place j
        have := List.count_pos_iff.mpr hjq
        refine ⟨fun hm => ?_, fun hm => ?_⟩ <;> (have := List.count_pos_iff.mpr hm; split at hp <;> omega)
      have hf := dep_fresh h hjr.1 hjr.2
      have hce := fun x => count_eraseIdx hl x
      have hz : zeroed t = zeroed s := by rw [← hs]; rfl
      have hk := openKids_congr (s := s) (t := t) (by rw [← hs]) (by rw [← hs]) (fun x => by rw [hz])
      have hdep : t.dep = put s.dep j (s.dep j + 1) := by rw [← hs]
      have hpar : t.par = s.par := by rw [← hs]
      have hrun : t.running = s.running ++ [j] := by rw [← hs]
      have hfin : t.finished = s.finished := by rw [← hs]
      have hthr : t.threads = s.threads := by rw [← hs]
      have hn : t.n = s.n := by rw [← hs]
      have hq : t.queued = s.queued.eraseIdx i := by rw [← hs]
      have hb : t.bad = false := by
        rw [← hs]
        show (s.bad || s.delivered.contains j) = false
        rw [h.ok, not_delivered hf.2.2.2]; rfl
      refine ⟨?_, by rw [hpar, hn]; exact h.par, ?_, by rw [hz]; exact h.once, by rw [hz, hfin]; exact h.sub, ?_, ?_, ?_, ?_, hb⟩
      · intro x
        have := h.place x
        have := hce x
        rw [hq, hrun, hfin, hn, List.count_append, List.count_cons, List.count_nil]
        omega
      · intro c q hc
        rw [hpar] at hc
        rw [hrun, hfin]
        rcases h.idle c q hc with hh | hh
        · exact .inl (by simp [hh])
        · exact .inr hh
      · intro x
        rw [hdep, hrun, hthr, hk x, List.count_append, List.count_cons, List.count_nil]
        unfold put
        by_cases hx : x = j
        · subst hx
          have := h.dep x
          simp
          omega
        · rw [if_neg hx]
          have hb' : (j == x) = false := by simpa using fun e => hx e.symm
          have := h.dep x
          rw [hb']
          simp
          omega
      · intro x hx
        rw [hz] at hx
        rw [hdep]
        unfold put
        rw [if_neg (by rintro rfl; exact hf.2.2.2 hx)]
        exact h.zero x hx
      · intro x hx hnz
        rw [hfin] at hx
        rw [hz] at hnz
        rw [hdep]
        unfold put
        split
        · omega
        · exact h.pos x hx hnz
      · intro v hv x hx
        rw [hthr] at hv
        rw [hrun, hfin]
        rcases h.decs v hv x hx with hh | hh
        · exact .inl (by simp [hh])
        · exact .inr hh
  | finish i =>
    simp only [step] at hs
    rcases hl : s.running[i]? with _ | j
    · rw [hl] at hs; cases hs
    · rw [hl] at hs
      simp only [Option.some.injEq] at hs
      have hjr : j ∈ s.running := List.mem_of_getElem? hl
      obtain ⟨hjq, hjf, hjn⟩ := not_queued_of_running h hjr
      have hjz : j ∉ zeroed s := fun hh => hjf (h.sub j hh)
      have hce := fun x => count_eraseIdx hl x
      have hz : zeroed t = zeroed s := by rw [← hs]; simp [zeroed]
      have hk := openKids_congr (s := s) (t := t) (by rw [← hs]) (by rw [← hs]) (fun x => by rw [hz])
      have hdep : t.dep = s.dep := by rw [← hs]
      have hpar : t.par = s.par := by rw [← hs]
      have hrun : t.running = s.running.eraseIdx i := by rw [← hs]
      have hfin : t.finished = s.finished ++ [j] := by rw [← hs]
      have hthr : t.threads = s.threads ++ [⟨some j, []⟩] := by rw [← hs]
      have hn : t.n = s.n := by rw [← hs]
      have hq : t.queued = s.queued := by rw [← hs]
      have hmv : ∀ x, x ∈ s.running ∨ x ∈ s.finished → x ∈ t.running ∨ x ∈ t.finished := by
        intro x hx
        rw [hrun, hfin]
        rcases hx with hx | hx
        · by_cases hxj : x = j
          · right; simp [hxj]
          · left
            have := hce x
            rw [← List.count_pos_iff]
            have := List.count_pos_iff.mpr hx
            have hb' : (j == x) = false := by simpa using fun e => hxj e.symm
            have hc1 := hce x
            rw [hb'] at hc1
            simp only [Bool.false_eq_true, if_false] at hc1
            omega
        · right; simp [hx]
      refine ⟨?_, by rw [hpar, hn]; exact h.par, ?_, by rw [hz]; exact h.once, ?_, ?_, ?_, ?_, ?_, by rw [← hs]; exact h.ok⟩
      · intro x
        have := h.place x
        have := hce x
        rw [hq, hrun, hfin, hn, List.count_append, List.count_cons, List.count_nil]
        omega
      · intro c q hc
        rw [hpar] at hc
        exact hmv q (h.idle c q hc)
      · intro x hx
        rw [hz] at hx
        rw [hfin]
        simp [h.sub x hx]
      · intro x
        have e1 := h.dep x
        have e2 := hce x
        rw [hdep, hrun, hthr, hk x, List.countP_append, List.countP_cons, List.countP_nil]
        by_cases hx : j = x
        · subst hx
          simp at e2 ⊢
          omega
        · have hb' : (j == x) = false := by simpa using hx
          rw [hb'] at e2
          simp [hx] at e2 ⊢
          omega
      · intro x hx
        rw [hz] at hx
        rw [hdep]
        exact h.zero x hx
      · intro x hx hnz
        rw [hz] at hnz
        rw [hdep]
        rw [hfin] at hx
        rcases List.mem_append.mp hx with hx | hx
        · exact h.pos x hx hnz
        · have : x = j := by simpa using hx
          subst this
          have := h.dep x
          have := List.count_pos_iff.mpr hjr
          omega
      · intro v hv x hx
        rw [hthr] at hv
        rcases List.mem_append.mp hv with hv | hv
        · exact hmv x (h.decs v hv x hx)
        · simp only [List.mem_cons, List.not_mem_nil, or_false] at hv
          subst hv
          cases hx
          rw [hfin]
          right; simp
  | thr i =>
    simp only [step] at hs
    rcases hl : s.threads[i]? with _ | u
    · rw [hl] at hs; cases hs
    · rw [hl] at hs
      simp only [Option.some.injEq] at hs
      rw [← hs]
      exact inv_thr h hl
  | deliver =>
    simp only [step] at hs
    rcases hb : s.back with _ | ⟨j, r⟩
    · rw [hb] at hs; cases hs
    · rw [hb] at hs
      simp only [Option.some.injEq] at hs
      have hz : ∀ x, (zeroed t).count x = (zeroed s).count x := by
        intro x
        rw [← hs]
        simp only [zeroed, hb, List.count_append, List.count_cons, List.count_nil]
        omega
      have hzm := mem_congr_of_count hz
      have hk := openKids_congr (s := s) (t := t) (by rw [← hs]) (by rw [← hs]) hz
      refine ⟨by rw [← hs]; exact h.place, by rw [← hs]; exact h.par, by rw [← hs]; exact h.idle, fun x => by rw [hz]; exact h.once x, ?_, ?_, ?_, ?_, by rw [← hs]; exact h.decs, by rw [← hs]; exact h.ok⟩
      · intro x hx
        have := h.sub x ((hzm x).mp hx)
        rw [← hs]; exact this
      · intro x
        rw [hk x, ← hs]
        exact h.dep x
      · intro x hx
        have := h.zero x ((hzm x).mp hx)
        rw [← hs]; exact this
      · intro x hx hnz
        have hx' : x ∈ s.finished := by rw [← hs] at hx; exact hx
        have := h.pos x hx' (fun hh => hnz ((hzm x).mpr hh))
        rw [← hs]; exact this

theorem inv_reach {s : S} (h : Reach s) : Inv s := by
  induction h with
  | init => exact inv_init
  | step op _ hs ih => exact inv_step ih hs

/-! ### C32 -/

theorem kids_zeroed {s : S} (h : Inv s) {j c : Nat} (hj : j ∈ zeroed s) (hc : s.par c = some j) : c ∈ zeroed s := by
  have h1 := h.zero j hj
  have h2 := h.dep j
  exact openKids_zero (by omega) (h.par c j hc).2 hc

/-- C32: a completion is handed to the event loop only when the job, and every job below it in the tree of
spawned jobs, has finished its work. -/
theorem C32_only_when_all_finished {s : S} (h : Reach s) {j : Nat} (hj : j ∈ s.back ++ s.delivered) :
    j ∈ s.finished ∧ ∀ c, Below s j c → c ∈ s.finished := by
  have hi := inv_reach h
  have hz : j ∈ zeroed s := List.mem_append_right _ hj
  have key : ∀ c, Below s j c → c ∈ zeroed s := by
    intro c hc
    induction hc with
    | child hp => exact kids_zeroed hi hz hp
    | further _ hp ih => exact kids_zeroed hi ih hp
  exact ⟨hi.sub j hz, fun c hc => hi.sub c (key c hc)⟩

/-- C32: no completion is delivered twice. -/
theorem C32_at_most_once {s : S} (h : Reach s) : (s.back ++ s.delivered).Nodup := by
  rw [List.nodup_iff_count]
  intro j
  have := (inv_reach h).once j
  rw [zeroed, List.count_append] at this
  omega

/-- C32: no freed job is touched and no counter goes below zero. -/
theorem C32_memory_safe {s : S} (h : Reach s) : s.bad = false := (inv_reach h).ok

/-- C32: when all work is done and the threads have nothing left to do, every job's completion has been handed to
the event loop, exactly once. -/
theorem C32_all_delivered {s : S} (h : Reach s) (hq : s.queued = []) (hr : s.running = []) (ht : s.threads = []) :
    (s.back ++ s.delivered).Perm (List.range s.n) := by
  have hi := inv_reach h
  have hz : zeroed s = s.back ++ s.delivered := by simp [zeroed, ht]
  have hfin : ∀ j, j < s.n → j ∈ s.finished := by
    intro j hj
    have := hi.place j
    rw [hq, hr, if_pos hj] at this
    rw [← List.count_pos_iff]
    simp at this
    omega
  have key : ∀ d j, s.n - j ≤ d → j < s.n → j ∈ zeroed s := by
    intro d
    induction d with
    | zero => intro j h1 h2; omega
    | succ d ih =>
      intro j h1 h2
      by_contra hnz
      have hp := hi.pos j (hfin j h2) hnz
      have hd := hi.dep j
      rw [hr, ht] at hd
      simp only [List.count_nil, List.countP_nil] at hd
      have hk : openKids s j ≠ 0 := by omega
      apply hk
      rw [openKids, List.countP_eq_zero]
      intro c hc hh
      simp only [Bool.and_eq_true, decide_eq_true_eq, Bool.not_eq_true'] at hh
      have := hi.par c j hh.1
      have := ih c (by omega) this.2
      have h3 := hh.2
      simp [this] at h3
  rw [List.perm_iff_count]
  intro j
  have h1 := hi.once j
  rw [hz] at h1
  by_cases hj : j < s.n
  · have := List.count_pos_iff.mpr (key s.n j (by omega) hj)
    rw [hz] at this
    have h2 : (List.range s.n).count j = 1 := by
      have h4 := (List.nodup_iff_count.mp (List.nodup_range (n := s.n))) j
      have h5 := List.count_pos_iff.mpr (List.mem_range.mpr hj)
      omega
    omega
  · have h2 : (List.range s.n).count j = 0 := by
      rw [List.count_eq_zero]; simpa using hj
    have h3 : (s.back ++ s.delivered).count j = 0 := by
      rw [List.count_eq_zero]
      intro hm
      have := hi.sub j (by rw [hz]; exact hm)
      have hp := hi.place j
      rw [if_neg hj] at hp
      have := List.count_pos_iff.mpr this
      omega
    omega

/-- A job spawns two jobs, one of which spawns a third; they finish in the order root, left, grandchild, right. -/
def demoOps : List Op :=
  [.create, .start 0, .spawn 0, .spawn 0, .start 0, .spawn 1, .start 0, .start 0, .finish 0, .thr 0, .thr 0,
   .finish 0, .thr 0, .thr 0, .finish 1, .thr 0, .thr 0, .thr 0, .thr 0]

/-- What can be seen of a state. -/
def observe (s : S) : List (List Nat) :=
  [[s.n], s.queued, s.running, s.finished, s.back, s.delivered, [s.threads.length]]

example : ∃ s, Reach s ∧ observe s = [[4], [], [2], [0, 1, 3], [1], [], [1]] ∧ Below s 0 3 := by
  have h : (run demoOps init).map (fun s => (observe s, s.par 1, s.par 3)) = some ([[4], [], [2], [0, 1, 3], [1], [], [1]], some 0, some 1) := by decide +kernel
  rcases hd : run demoOps init with _ | s
  · rw [hd] at h; cases h
  · rw [hd] at h
    simp only [Option.map_some, Option.some.injEq, Prod.mk.injEq] at h
    exact ⟨s, run_reach .init hd, by rw [← h.1], .further (.child h.2.1) h.2.2⟩

/-- The completion of the root comes before the completion of the job that finished last: a completion callback
must not expect that the callbacks of the spawned jobs have been called.  The property speaks of the jobs having
finished, not of their completions. -/
theorem C32_completion_order_remark :
    ∃ s, Reach s ∧ s.delivered = [0, 1] ∧ s.par 1 = some 0 := by
  have h : (run [.create, .start 0, .spawn 0, .start 0, .finish 0, .thr 0, .thr 0, .finish 0, .thr 0, .thr 0, .thr 0, .thr 0, .deliver, .deliver] init).map (fun s => (s.delivered, s.par 1)) = some ([0, 1], some 0) := by decide +kernel
  rcases hd : run [.create, .start 0, .spawn 0, .start 0, .finish 0, .thr 0, .thr 0, .finish 0, .thr 0, .thr 0, .thr 0, .thr 0, .deliver, .deliver] init with _ | s
  · rw [hd] at h; cases h
  · rw [hd] at h
    simp only [Option.map_some, Option.some.injEq, Prod.mk.injEq] at h
    exact ⟨s, run_reach .init hd, h.1, h.2⟩

end Mtev.JobDeps
