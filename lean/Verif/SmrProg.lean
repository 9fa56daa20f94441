import Verif.SmrHist

/-!
Progress: maintenance completes the lists that came back, the barrier and the collector reach every
block once no section is open.
-/

namespace Mtev.Smr

variable {cfg : Conf} {s s' : St} {t : Nat}

theorem run_app {s1 s2 : St} {es fs : List Ev} (h1 : run cfg s es = .ok s1) (h2 : run cfg s1 fs = .ok s2) :
    run cfg s (es ++ fs) = .ok s2 := by
  induction es generalizing s with
  | nil => cases h1; exact h2
  | cons e es ih =>
    obtain ⟨s3, h3, h4⟩ := run_cons h1
    show (step cfg s e).bind _ = _
    rw [h3]; exact ih h4

theorem run_one {s1 s2 : St} {e : Ev} {es : List Ev} (h1 : step cfg s e = .ok s1) (h2 : run cfg s1 es = .ok s2) :
    run cfg s (e :: es) = .ok s2 := run_app (es := [e]) (by show (step cfg s e).bind _ = _; rw [h1]; rfl) h2

theorem run_freed {es : List Ev} {b : Nat} (hb : s.mem b = .freed) (hs : run cfg s es = .ok s') : s'.mem b = .freed := by
  induction es generalizing s with
  | nil => cases hs; exact hb
  | cons e es ih =>
    obtain ⟨s1, h1, h2⟩ := run_cons hs
    refine ih (s := s1) ?_ h2
    rcases step_eff h1 with h3 | ⟨t, c, rfl, hc, h3, hm⟩ | ⟨t, c, rfl, hc, hm, _, _, h5, _⟩
    · rcases h3.mem b with ⟨h4, _⟩ | ⟨_, _, h4, _⟩
      · rw [h4]; exact hb
      · exact h4
    · rw [hm, upd_other _ _ _ (by rintro rfl; rw [hb] at hc; cases hc)]
      exact hb
    · rw [hm, upd_other _ _ _ (by rintro rfl; rw [hb] at hc; cases hc)]
      exact hb

theorem good_one (he : cfg.early = false) (hr : cfg.reuse = false) (g : Good s) {e : Ev} (h : step cfg s e = .ok s') : Good s' :=
  run_good he hr g (es := [e]) (run_one h rfl)

/-- Steps of thread `t` alone. -/
abbrev goes (t n : Nat) : List Ev := List.replicate n (.go t 0 [])

/-- What stays when a thread completes lists. -/
structure Same' (s s' : St) : Prop where
  opens : s'.opens = s.opens
  gcq : s'.gcq = s.gcq
  gc : s'.gc = s.gc
  asynch : s'.asynch = s.asynch

theorem Same'.trans {a b c : St} (h : Same' a b) (g : Same' b c) : Same' a c :=
  ⟨g.opens.trans h.opens, g.gcq.trans h.gcq, g.gc.trans h.gc, g.asynch.trans h.asynch⟩

theorem complete_nil {c o : Nat} (hx : s.ars c = some ⟨o, []⟩) :
    complete s c = .ok ({ s with ars := Function.update s.ars c none }, true) := by
  simp [complete, hx]

theorem complete_cons {loc : Nat → Loc} {pos : Nat → Pos} (hi : Inv loc pos s) {c o b : Nat} {r : List Nat}
    (hx : s.ars c = some ⟨o, b :: r⟩) :
    complete s c = .ok ({ s with ars := Function.update s.ars c (some ⟨o, r⟩), mem := Function.update s.mem b .freed, log := s.log ++ [b] }, false) := by
  have hm : s.mem b = .retired := hi.mem b (by rw [(hi.ars c _ hx).loc b (by simp)]; trivial)
  simp only [complete, hx, realFree, hm]
  rfl

theorem back_some (he : cfg.early = false) (hr : cfg.reuse = false) {m : Meth} {k : K} {c o : Nat} (l : List Nat) :
    ∀ s, Good s → (s.th t).pc = .back m (some c) k → s.ars c = some ⟨o, l⟩ →
    ∃ n s', run cfg s (goes t n) = .ok s' ∧ Good s' ∧ s'.th t = { s.th t with pc := .back m none k } ∧ Same' s s' ∧
      s'.grs = s.grs ∧ (∀ a, a ≠ c → s'.ars a = s.ars a) ∧ (∀ b ∈ l, s'.mem b = .freed) := by
  induction l with
  | nil =>
    intro s g hp hx
    have hs : step cfg s (.go t 0 []) = .ok (({ s with ars := Function.update s.ars c none } : St).setPc t (.back m none k)) := by
      simp only [step, goOn, hp, complete_nil hx]; rfl
    refine ⟨1, _, run_one hs rfl, good_one he hr g hs, upd_same _ _ _, ⟨rfl, rfl, rfl, rfl⟩, rfl, fun a ha => upd_other _ _ _ ha, ?_⟩
    intro b hb; cases hb
  | cons b r ih =>
    intro s g hp hx
    obtain ⟨loc, pos, hi⟩ := g.inv
    have hs : step cfg s (.go t 0 []) = .ok { s with ars := Function.update s.ars c (some ⟨o, r⟩), mem := Function.update s.mem b .freed, log := s.log ++ [b] } := by
      simp only [step, goOn, hp, complete_cons hi hx]; rfl
    obtain ⟨n, s', h1, h2, h3, h4, h5, h6, h7⟩ := ih _ (good_one he hr g hs) hp (upd_same _ _ _)
    refine ⟨n + 1, s', run_one hs h1, h2, h3, ⟨h4.1, h4.2, h4.3, h4.4⟩, h5, fun a ha => (h6 a ha).trans (upd_other _ _ _ ha), ?_⟩
    intro x hx'
    rcases List.mem_cons.1 hx' with rfl | hx'
    · exact run_freed (by exact upd_same _ _ _) h1
    · exact h7 x hx'

/-- All lists that came back are completed. -/
theorem back_none (he : cfg.early = false) (hr : cfg.reuse = false) (h0 : t ≠ 0) {m : Meth} {k : K} (q : List Nat) :
    ∀ s, Good s → (s.th t).pc = .back m none k → (s.th t).ret = true → (s.grs t).queue = q →
    ∃ n s', run cfg s (goes t n) = .ok s' ∧ Good s' ∧ s'.th t = s.th t ∧ Same' s s' ∧ (s'.grs t).queue = [] ∧
      (∀ a ∈ q, ∀ x, s.ars a = some x → ∀ b ∈ x.blks, s'.mem b = .freed) := by
  induction q with
  | nil =>
    intro s g hp _ hq
    exact ⟨0, s, rfl, g, rfl, ⟨rfl, rfl, rfl, rfl⟩, hq, fun a ha => by cases ha⟩
  | cons c r ih =>
    intro s g hp hret hq
    obtain ⟨loc, pos, hi⟩ := g.inv
    have hal : (s.grs t).alive = true := g.j.alive t h0 hret
    obtain ⟨⟨o, l⟩, hx⟩ := Option.ne_none_iff_exists'.1 (hi.queue t c (by rw [hq]; simp)).2
    have hcr : c ∉ r := by
      have := hi.queueN t
      rw [hq] at this
      exact (List.nodup_cons.1 this).1
    have hs : step cfg s (.go t 0 []) = .ok ((s.setG t { s.grs t with queue := r }).setPc t (.back m (some c) k)) := by
      simp only [step, goOn, hp, hq, hal, Bool.true_eq_false, if_false]
    have g1 := good_one he hr g hs
    have ht1 : ((s.setG t { s.grs t with queue := r }).setPc t (.back m (some c) k)).th t = { s.th t with pc := .back m (some c) k } :=
      upd_same _ _ _
    have hg1 : ((s.setG t { s.grs t with queue := r }).setPc t (.back m (some c) k)).grs t = { s.grs t with queue := r } :=
      upd_same _ _ _
    obtain ⟨n1, s1, a1, a2, a3, a4, a5, a6, a7⟩ := back_some he hr (t := t) (m := m) (k := k) (c := c) (o := o) l _ g1
      (by rw [ht1]) hx
    have e1 : s1.th t = s.th t := by rw [a3, ht1]; cases hh : s.th t; rw [hh] at hp; simp only at hp; subst hp; rfl
    obtain ⟨n2, s2, b1, b2, b3, b4, b5, b6⟩ := ih s1 a2 (by rw [e1]; exact hp) (by rw [e1]; exact hret) (by rw [a5, hg1])
    refine ⟨1 + (n1 + n2), s2, ?_, b2, b3.trans e1, ⟨b4.1.trans a4.1, b4.2.trans a4.2, b4.3.trans a4.3, b4.4.trans a4.4⟩, b5, ?_⟩
    · rw [goes, ← List.replicate_append_replicate, ← List.replicate_append_replicate]
      exact run_app (run_one hs rfl) (run_app a1 b1)
    · intro a ha x hxa b hb
      by_cases hac : a = c
      · subst hac
        rw [hx] at hxa; cases hxa
        exact run_freed (a7 b hb) b1
      · have ha : a ∈ r := by
          rcases List.mem_cons.1 ha with h | h
          · exact absurd h hac
          · exact h
        exact b6 a ha x (by rw [a6 a hac]; exact hxa) b hb

/-- Dispatch. -/
theorem disp_all (he : cfg.early = false) (hr : cfg.reuse = false) (l : List Nat) :
    ∀ s, Good s → (s.th t).pc = .disp l .user →
    ∃ s', run cfg s (goes t (l.length + 1)) = .ok s' ∧ Good s' ∧ s'.th t = { s.th t with pc := .user } ∧
      (∀ b ∈ l, s'.mem b = .freed) := by
  induction l with
  | nil =>
    intro s g hp
    have hs : step cfg s (.go t 0 []) = .ok (s.setPc t .user) := by simp only [step, goOn, hp, finish]
    exact ⟨_, run_one hs rfl, good_one he hr g hs, upd_same _ _ _, fun b hb => by cases hb⟩
  | cons b r ih =>
    intro s g hp
    obtain ⟨loc, pos, hi⟩ := g.inv
    have hpc := (hi.thr t).pc
    rw [hp] at hpc
    have hm : s.mem b = .retired := hi.mem b (by rw [(hpc.1 b (by simp)).1]; trivial)
    have hs : step cfg s (.go t 0 []) = .ok { s.setPc t (.disp r .user) with mem := Function.update s.mem b .freed, log := s.log ++ [b] } := by
      simp only [step, goOn, hp, realFree, show (s.setPc t (.disp r .user)).mem b = .retired from hm]
      rfl
    have ht1 : (s.setPc t (.disp r .user)).th t = { s.th t with pc := .disp r .user } := upd_same _ _ _
    obtain ⟨s', h1, h2, h3, h4⟩ := ih _ (good_one he hr g hs) (by show ((s.setPc t (.disp r .user)).th t).pc = _; rw [ht1])
    refine ⟨s', run_one hs h1, h2, by rw [h3]; show { (s.setPc t (.disp r .user)).th t with pc := Pc.user } = _; rw [ht1], ?_⟩
    intro x hx
    rcases List.mem_cons.1 hx with rfl | hx
    · exact run_freed (by exact upd_same _ _ _) h1
    · exact h4 x hx

/-- An application thread outside this library that has used it. -/
structure Ready (s : St) (t : Nat) : Prop where
  nz : t ≠ 0
  ret : (s.th t).ret = true
  pc : (s.th t).pc = .user
  reg : (s.th t).reg = true

/-- The call and the completion of what came back. -/
theorem maint_back (he : cfg.early = false) (hr : cfg.reuse = false) (g : Good s) (h : Ready s t) (m : Meth) :
    ∃ n s', run cfg s (.maint t m :: goes t n) = .ok s' ∧ Good s' ∧ s'.th t = { s.th t with pc := .back m none .user } ∧
      Same' s s' ∧ (s'.grs t).queue = [] ∧ (s'.grs t).alive = true ∧
      (∀ a ∈ (s.grs t).queue, ∀ x, s.ars a = some x → ∀ b ∈ x.blks, s'.mem b = .freed) := by
  have hs : step cfg s (.maint t m) = .ok (s.setPc t (.back m none .user)) := by
    simp only [step, h.nz, h.ret, h.pc, h.reg, ne_eq, not_false_eq_true, and_self, if_true]
  have ht1 : (s.setPc t (.back m none .user)).th t = { s.th t with pc := .back m none .user } := upd_same _ _ _
  obtain ⟨n, s', a1, a2, a3, a4, a5, a6⟩ := back_none he hr h.nz (s.grs t).queue _ (good_one he hr g hs) (m := m) (k := .user)
    (by rw [ht1]) (by rw [ht1]; exact h.ret) rfl
  refine ⟨n, s', run_one hs a1, a2, by rw [a3, ht1], ⟨a4.1, a4.2, a4.3, a4.4⟩, a5, ?_, a6⟩
  exact a2.j.alive t h.nz (by show (s'.th t).ret = true; rw [a3, ht1]; exact h.ret)

theorem barrier_all (he : cfg.early = false) (hr : cfg.reuse = false) (g : Good s) (h : Ready s t)
    (hn : (s.th t).needs % 2 = 1) (ha : (s.th t).active = 0) (ho : s.opens = []) :
    ∃ n s', run cfg s (.maint t .barrier :: goes t n) = .ok s' ∧ (s'.th t).pc = .user ∧
      (∀ e ∈ (s.th t).pend, s'.mem e.1 = .freed) ∧
      (∀ a ∈ (s.grs t).queue, ∀ x, s.ars a = some x → ∀ b ∈ x.blks, s'.mem b = .freed) := by
  obtain ⟨n, s1, a1, a2, a3, a4, a5, a6, a7⟩ := maint_back he hr g h .barrier
  have hnz : (s.th t).needs ≠ 0 := by omega
  have hs2 : step cfg s1 (.go t 0 []) = .ok ((s1.setT t { s1.th t with needs := (s1.th t).needs + 1 }).setPc t (.wait [] .user)) := by
    simp only [step, goOn, a3, a5, a6, decideOn, Bool.true_eq_false, if_false, hnz, ha, hn]
    simp [a4.opens, ho, St.setT]
  have ht2 : ((s1.setT t { s1.th t with needs := (s1.th t).needs + 1 }).setPc t (.wait [] .user)).th t =
      { s1.th t with needs := (s1.th t).needs + 1, pc := .wait [] .user } := by
    simp [St.setPc, St.setT]
  have g2 := good_one he hr a2 hs2
  generalize (s1.setT t { s1.th t with needs := (s1.th t).needs + 1 }).setPc t (.wait [] .user) = s2 at hs2 ht2 g2
  have hs3 : step cfg s2 (.go t 0 []) = .ok ((s2.setT t { s2.th t with pend := [] }).setPc t (.disp ((s2.th t).pend.map (·.1)) .user)) := by
    simp only [step, goOn, ht2, quiet, List.all_nil, if_true]
  obtain ⟨s4, b1, b2, b3, b4⟩ := disp_all he hr ((s2.th t).pend.map (·.1)) _ (good_one he hr g2 hs3) (t := t)
    (by simp [St.setPc, St.setT])
  refine ⟨n + (1 + (1 + (((s2.th t).pend.map (·.1)).length + 1))), s4, ?_, by rw [b3], ?_, ?_⟩
  · rw [goes, ← List.replicate_append_replicate, ← List.replicate_append_replicate, ← List.replicate_append_replicate]
    exact run_app (es := .maint t .barrier :: goes t n) a1 (run_app (run_one hs2 rfl) (run_app (run_one hs3 rfl) b1))
  · intro e hm
    refine b4 e.1 (List.mem_map.2 ⟨e, ?_, rfl⟩)
    rw [ht2, a3]; exact hm
  · intro a haq x hx b hb
    exact run_freed (a7 a haq x hx b hb) (run_one hs2 (run_one hs3 b1))

/-! ### The collector -/

abbrev gcs (n : Nat) : List Ev := List.replicate n (.gc 1)

/-- What the collector leaves alone while it drains a queue. -/
structure Off (s s' : St) : Prop where
  th : s'.th = s.th
  opens : s'.opens = s.opens
  gcq : s'.gcq = s.gcq
  asynch : s'.asynch = s.asynch
  ars : ∀ c ∈ s.gcq, s'.ars c = s.ars c

theorem Off.trans {a b c : St} (h : Off a b) (g : Off b c) : Off a c :=
  ⟨g.th.trans h.th, g.opens.trans h.opens, g.gcq.trans h.gcq, g.asynch.trans h.asynch,
    fun x hx => (g.ars x (by rw [h.gcq]; exact hx)).trans (h.ars x hx)⟩

theorem gc_next (he : cfg.early = false) (hr : cfg.reuse = false) (g : Good s) :
    ∃ s1, gcStep s 1 = .ok s1 ∧ Good s1 ∧ run cfg s (gcs 1) = .ok s1 := by
  rcases step_good he hr g (.gc 1) with ⟨s1, h1, h2⟩ | ⟨_, t, b, h, _⟩
  · exact ⟨s1, h1, h2, run_one h1 rfl⟩
  · cases h

theorem drain_some (he : cfg.early = false) (hr : cfg.reuse = false) {o d w : Nat} {r : List Nat} (l : List Nat) :
    ∀ s, Good s → s.gc = .drain o (some d) r → s.ars d = some ⟨w, l⟩ →
    ∃ n s', run cfg s (gcs n) = .ok s' ∧ Good s' ∧ s'.gc = .drain o none r ∧ Off s s' ∧ s'.grs = s.grs := by
  induction l with
  | nil =>
    intro s g hg hx
    obtain ⟨loc, pos, hi⟩ := g.inv
    have hgo := hi.gc
    rw [hg] at hgo
    obtain ⟨s1, h1, h2, h3⟩ := gc_next he hr g
    have hs : gcStep s 1 = .ok { s with ars := Function.update s.ars d none, gc := .drain o none r } := by
      unfold gcStep
      rw [hg]
      simp only [complete_nil hx]
      rfl
    rw [hs] at h1
    cases h1
    refine ⟨1, _, h3, h2, rfl, ⟨rfl, rfl, rfl, rfl, fun c hc => upd_other _ _ _ ?_⟩, rfl⟩
    rintro rfl
    have := hgo.1
    rw [(hi.gcq c hc).1] at this; cases this
  | cons b l ih =>
    intro s g hg hx
    obtain ⟨loc, pos, hi⟩ := g.inv
    have hgo := hi.gc
    rw [hg] at hgo
    obtain ⟨s1, h1, h2, h3⟩ := gc_next he hr g
    have hs : gcStep s 1 = .ok { s with ars := Function.update s.ars d (some ⟨w, l⟩), mem := Function.update s.mem b .freed, log := s.log ++ [b] } := by
      unfold gcStep
      simp only [hg, complete_cons hi hx]
      rfl
    rw [hs] at h1
    cases h1
    have h4 : Off s { s with ars := Function.update s.ars d (some ⟨w, l⟩), mem := Function.update s.mem b .freed, log := s.log ++ [b] } := by
      refine ⟨rfl, rfl, rfl, rfl, fun c hc => upd_other _ _ _ ?_⟩
      rintro rfl
      have := hgo.1
      rw [(hi.gcq c hc).1] at this; cases this
    obtain ⟨n, s2, a1, a2, a3, a4, a5⟩ := ih { s with ars := Function.update s.ars d (some ⟨w, l⟩), mem := Function.update s.mem b .freed, log := s.log ++ [b] } h2 hg (upd_same _ _ _)
    refine ⟨1 + n, s2, ?_, a2, a3, h4.trans a4, a5⟩
    rw [gcs, ← List.replicate_append_replicate]
    exact run_app h3 a1

theorem drain_none (he : cfg.early = false) (hr : cfg.reuse = false) {o : Nat} {r : List Nat} (q : List Nat) :
    ∀ s, Good s → s.gc = .drain o none r → (s.grs o).queue = q →
    ∃ n s', run cfg s (gcs n) = .ok s' ∧ Good s' ∧ s'.gc = .give r ∧ Off s s' ∧ ∀ u, u ≠ o → s'.grs u = s.grs u := by
  induction q with
  | nil =>
    intro s g hg hq
    have hal : (s.grs o).alive = true := g.j.alive2 o (.inr (.inr (by show works s.gc = _; rw [hg]; rfl)))
    obtain ⟨s1, h1, h2, h3⟩ := gc_next he hr g
    simp only [gcStep, hg, hal, hq, Bool.true_eq_false, if_false] at h1
    cases h1
    exact ⟨1, _, h3, h2, rfl, ⟨rfl, rfl, rfl, rfl, fun _ _ => rfl⟩, fun u hu => upd_other _ _ _ hu⟩
  | cons d q ih =>
    intro s g hg hq
    obtain ⟨loc, pos, hi⟩ := g.inv
    have hal : (s.grs o).alive = true := g.j.alive2 o (.inr (.inr (by show works s.gc = _; rw [hg]; rfl)))
    obtain ⟨⟨w, l⟩, hx⟩ := Option.ne_none_iff_exists'.1 (hi.queue o d (by rw [hq]; simp)).2
    obtain ⟨s1, h1, h2, h3⟩ := gc_next he hr g
    simp only [gcStep, hg, hal, hq, Bool.true_eq_false, if_false] at h1
    cases h1
    obtain ⟨n1, s2, a1, a2, a3, a4, a5⟩ := drain_some he hr l _ h2 rfl hx
    obtain ⟨n2, s3, b1, b2, b3, b4, b5⟩ := ih s2 a2 a3 (by rw [a5]; simp [St.setG])
    refine ⟨1 + (n1 + n2), s3, ?_, b2, b3, ?_, ?_⟩
    · rw [gcs, ← List.replicate_append_replicate, ← List.replicate_append_replicate]
      exact run_app h3 (run_app a1 b1)
    · exact Off.trans ⟨a4.th, a4.opens, a4.gcq, a4.asynch, a4.ars⟩ b4
    · intro u hu
      rw [b5 u hu, a5]
      exact upd_other _ _ _ hu

/-- The collector gives back the lists it has taken, and is idle again. -/
theorem give_last (he : cfg.early = false) (hr : cfg.reuse = false) {a o : Nat} {l : List Nat} (g : Good s)
    (hg : s.gc = .give [a]) (ha : s.ars a = some ⟨o, l⟩) :
    ∃ n s', run cfg s (gcs n) = .ok s' ∧ Good s' ∧ s'.gc = .idle ∧ Off s s' ∧
      (∀ u, (s.th u).pc ≠ .dead → ∀ x ∈ (s.grs u).queue, x ∈ (s'.grs u).queue) ∧
      ((s.th o).pc ≠ .dead → a ∈ (s'.grs o).queue ∧ s'.ars a = s.ars a) := by
  have fin : ∀ u : St, Good u → u.gc = .give [] → ∃ u', run cfg u (gcs 1) = .ok u' ∧ Good u' ∧ u'.gc = .idle ∧ Off u u' ∧
      u'.grs = u.grs ∧ u'.ars = u.ars := by
    intro u gu hu
    obtain ⟨s1, h1, h2, h3⟩ := gc_next he hr gu
    simp only [gcStep, hu] at h1
    cases h1
    exact ⟨_, h3, h2, rfl, ⟨rfl, rfl, rfl, rfl, fun _ _ => rfl⟩, rfl, rfl⟩
  obtain ⟨s1, h1, g1, r1⟩ := gc_next he hr g
  simp only [gcStep, hg, ha] at h1
  split at h1
  · cases h1
  cases h1
  obtain ⟨s2, h2, g2, r2⟩ := gc_next he hr g1
  simp only [gcStep] at h2
  split at h2
  · cases h2
  cases h2
  obtain ⟨s3, h3, g3, r3⟩ := gc_next he hr g2
  simp only [gcStep] at h3
  split at h3
  · cases h3
  have hq : ∀ u, ∀ x ∈ (s.grs u).queue,
      x ∈ (Function.update (Function.update s.grs o { s.grs o with queue := (s.grs o).queue ++ [a] }) o
        { Function.update s.grs o { s.grs o with queue := (s.grs o).queue ++ [a] } o with
          req := (Function.update s.grs o { s.grs o with queue := (s.grs o).queue ++ [a] } o).req + 1 } u).queue := by
    intro u x hx
    by_cases hu : u = o
    · subst hu; simp [hx]
    · simp [Function.update_apply, hu, hx]
  have r123 : run cfg s (gcs (1 + (1 + 1))) = .ok s3 := by
    rw [gcs, ← List.replicate_append_replicate, ← List.replicate_append_replicate]
    exact run_app r1 (run_app r2 r3)
  split at h3
  · cases h3
    obtain ⟨s4, h4, g4, r4⟩ := gc_next he hr g3
    simp only [gcStep] at h4
    split at h4
    · cases h4
    split at h4
    · cases h4
      have hd := g4.j.drain o none [] rfl
      obtain ⟨n, s5, a1, a2, a3, a4, a5⟩ := drain_none he hr _ _ g4 rfl rfl
      obtain ⟨s6, b1, b2, b3, b4, b5, b6⟩ := fin s5 a2 a3
      refine ⟨(1 + (1 + 1)) + (1 + (n + 1)), s6, ?_, b2, b3, ?_, ?_, ?_⟩
      · rw [gcs, ← List.replicate_append_replicate (n := 1 + (1 + 1)), ← List.replicate_append_replicate (n := 1) (m := n + 1), ← List.replicate_append_replicate (n := n)]
        exact run_app r123 (run_app r4 (run_app a1 b1))
      · exact Off.trans (b := s5) ⟨a4.th, a4.opens, a4.gcq, a4.asynch, a4.ars⟩ b4
      · intro u hu x hx
        have huo : u ≠ o := by rintro rfl; exact hu hd.1
        rw [b5, a5 u huo]
        exact hq u x hx
      · intro h; exact absurd hd.1 h
    · cases h4
      obtain ⟨s6, b1, b2, b3, b4, b5, b6⟩ := fin _ g4 rfl
      refine ⟨(1 + (1 + 1)) + (1 + 1), s6, ?_, b2, b3, ?_, ?_, ?_⟩
      · rw [gcs, ← List.replicate_append_replicate (n := 1 + (1 + 1)), ← List.replicate_append_replicate (n := 1) (m := 1)]
        exact run_app r123 (run_app r4 b1)
      · exact ⟨b4.th, b4.opens, b4.gcq, b4.asynch, b4.ars⟩
      · intro u hu x hx
        rw [b5]
        exact hq u x hx
      · intro h
        rw [b5, b6]
        exact ⟨by simp [St.setG], rfl⟩
  · cases h3
    obtain ⟨s6, b1, b2, b3, b4, b5, b6⟩ := fin _ g3 rfl
    refine ⟨(1 + (1 + 1)) + 1, s6, ?_, b2, b3, ?_, ?_, ?_⟩
    · rw [gcs, ← List.replicate_append_replicate (n := 1 + (1 + 1))]
      exact run_app r123 b1
    · exact ⟨b4.th, b4.opens, b4.gcq, b4.asynch, b4.ars⟩
    · intro u hu x hx
      rw [b5]
      exact hq u x hx
    · intro h
      rw [b5, b6]
      exact ⟨by simp [St.setG], rfl⟩

/-- Every list queued for the collector comes back to its owner. -/
theorem comes_back (he : cfg.early = false) (hr : cfg.reuse = false) {c : Nat} {l : List Nat} (q : List Nat) :
    ∀ s, Good s → s.gc = .idle → s.asynch = true → s.opens = [] → s.gcq = q → c ∈ q → s.ars c = some ⟨t, l⟩ →
    (s.th t).pc ≠ .dead →
    ∃ n s', run cfg s (gcs n) = .ok s' ∧ Good s' ∧ s'.th = s.th ∧ c ∈ (s'.grs t).queue ∧ s'.ars c = some ⟨t, l⟩ := by
  induction q with
  | nil => intro s _ _ _ _ _ hc; cases hc
  | cons a q ih =>
    intro s g hg has ho hq hc hx hd
    obtain ⟨loc, pos, hi⟩ := g.inv
    obtain ⟨⟨o, la⟩, hxa⟩ := Option.ne_none_iff_exists'.1 (hi.gcq a (by rw [hq]; simp)).2
    obtain ⟨s1, h1, g1, r1⟩ := gc_next he hr g
    simp only [gcStep, hg, has, hq, ho, ne_eq, reduceCtorEq, not_false_eq_true, and_self, if_true] at h1
    cases h1
    obtain ⟨s2, h2, g2, r2⟩ := gc_next he hr g1
    simp only [gcStep] at h2
    cases h2
    obtain ⟨n, s3, a1, a2, a3, a4, a5, a6⟩ := give_last he hr g2 rfl hxa
    have hrun : run cfg s (gcs (1 + (1 + n))) = .ok s3 := by
      rw [gcs, ← List.replicate_append_replicate, ← List.replicate_append_replicate]
      exact run_app r1 (run_app r2 a1)
    by_cases hca : c = a
    · subst hca
      rw [hx] at hxa; cases hxa
      obtain ⟨h5, h6⟩ := a6 hd
      exact ⟨_, s3, hrun, a2, a4.th, h5, by rw [h6]; exact hx⟩
    · have hcq : c ∈ q := by
        rcases List.mem_cons.1 hc with h | h
        · exact absurd h hca
        · exact h
      obtain ⟨n2, s4, b1, b2, b3, b4, b5⟩ := ih s3 a2 a3 (by rw [a4.asynch]) (by rw [a4.opens])
        (by rw [a4.gcq]; rfl) hcq (by rw [a4.ars c (by exact hcq)]; exact hx) (by rw [a4.th]; exact hd)
      refine ⟨(1 + (1 + n)) + n2, s4, ?_, b2, by rw [b3, a4.th], b4, b5⟩
      rw [gcs, ← List.replicate_append_replicate (n := 1 + (1 + n))]
      exact run_app hrun b1

/-- A fresh address for `malloc`. -/
theorem fresh_list (g : Good s) : ∃ a, s.ars a = none ∧ a ∉ s.used := by
  obtain ⟨a, ha⟩ : ∃ a, a ∉ s.used := by
    refine ⟨s.used.foldr max 0 + 1, fun h => ?_⟩
    have : ∀ (l : List Nat) (x : Nat), x ∈ l → x ≤ l.foldr max 0 := by
      intro l
      induction l with
      | nil => intro x hx; cases hx
      | cons y l ih =>
        intro x hx
        rcases List.mem_cons.1 hx with rfl | hx
        · simp
        · exact Nat.le_trans (ih x hx) (by simp)
    have := this _ _ h
    omega
  refine ⟨a, ?_, ha⟩
  cases h : s.ars a with
  | none => rfl
  | some x => exact absurd (g.j.used a x.owner (by simp [core, h])) ha

/-- Asynchronous maintenance, the collector, and the next maintenance. -/
theorem asynch_all (he : cfg.early = false) (hr : cfg.reuse = false) (g : Good s) (h : Ready s t)
    (hn : (s.th t).needs % 2 = 1) (has : s.asynch = true) (ho : s.opens = []) (hg : s.gc = .idle) :
    ∃ a n1 n2 n3 s', run cfg s (.maint t .asynch :: goes t n1 ++ .go t a [] :: goes t 3 ++ gcs n2 ++ .maint t .asynch :: goes t n3) =
      .ok s' ∧ ∀ e ∈ (s.th t).pend, s'.mem e.1 = .freed := by
  obtain ⟨n, s1, a1, a2, a3, a4, a5, a6, a7⟩ := maint_back he hr g h .asynch
  have hnz : (s.th t).needs ≠ 0 := by omega
  have hs2 : step cfg s1 (.go t 0 []) = .ok ((s1.setT t { s1.th t with needs := (s1.th t).needs + 1 }).setPc t (.mk false .user)) := by
    simp only [step, goOn, a3, a5, a6, decideOn, Bool.true_eq_false, if_false, hnz, hn, a4.asynch, has]
    simp [St.setT]
  have ht2 : ((s1.setT t { s1.th t with needs := (s1.th t).needs + 1 }).setPc t (.mk false .user)).th t =
      { s1.th t with needs := (s1.th t).needs + 1, pc := .mk false .user } := by
    simp [St.setPc, St.setT]
  have g2 := good_one he hr a2 hs2
  have k2 : Same' s1 ((s1.setT t { s1.th t with needs := (s1.th t).needs + 1 }).setPc t (.mk false .user)) := ⟨rfl, rfl, rfl, rfl⟩
  generalize (s1.setT t { s1.th t with needs := (s1.th t).needs + 1 }).setPc t (.mk false .user) = s2 at hs2 ht2 g2 k2
  obtain ⟨a, ha1, ha2⟩ := fresh_list g2
  have e2 : (s2.th t).pend = (s.th t).pend := by rw [ht2, a3]
  have e2r : (s2.th t).ret = true ∧ (s2.th t).reg = true := by rw [ht2, a3]; exact ⟨h.ret, h.reg⟩
  have hs3 : step cfg s2 (.go t a []) = .ok { (s2.setT t { s2.th t with pend := [] }).setPc t (.made a false .user) with ars := Function.update s2.ars a (some ⟨t, (s2.th t).pend.map (·.1)⟩), used := a :: s2.used } := by
    simp only [step, goOn, ht2, ha1, ha2, not_false_eq_true, or_true, and_self, if_true]
  have ht3 : ((s2.setT t { s2.th t with pend := [] }).setPc t (.made a false .user)).th t =
      { s2.th t with pend := [], pc := .made a false .user } := by simp [St.setPc, St.setT]
  have g3 := good_one he hr g2 hs3
  have hs4 : step cfg { (s2.setT t { s2.th t with pend := [] }).setPc t (.made a false .user) with ars := Function.update s2.ars a (some ⟨t, (s2.th t).pend.map (·.1)⟩), used := a :: s2.used } (.go t 0 []) = .ok (({ (s2.setT t { s2.th t with pend := [] }).setPc t (.made a false .user) with ars := Function.update s2.ars a (some ⟨t, (s2.th t).pend.map (·.1)⟩), used := a :: s2.used } : St).setPc t (.marked a .user)) := by
    simp only [step, goOn, ht3, Bool.false_eq_true, if_false]
  have x3 : ∃ s3 : St, step cfg s2 (.go t a []) = .ok s3 ∧ Good s3 ∧ s3.th t = { s2.th t with pend := [], pc := .made a false .user } ∧
      s3.ars a = some ⟨t, (s2.th t).pend.map (·.1)⟩ ∧ Same' s2 s3 := ⟨_, hs3, g3, ht3, upd_same _ _ _, ⟨rfl, rfl, rfl, rfl⟩⟩
  clear hs3 ht3 g3 hs4
  obtain ⟨s3, hs3, g3, ht3, har3, k3⟩ := x3
  have hs4 : step cfg s3 (.go t 0 []) = .ok (s3.setPc t (.marked a .user)) := by
    simp only [step, goOn, ht3, Bool.false_eq_true, if_false]
  have x4 : ∃ s4 : St, step cfg s3 (.go t 0 []) = .ok s4 ∧ Good s4 ∧ s4.th t = { s2.th t with pend := [], pc := .marked a .user } ∧
      s4.ars a = some ⟨t, (s2.th t).pend.map (·.1)⟩ ∧ Same' s3 s4 :=
    ⟨_, hs4, good_one he hr g3 hs4, by simp [St.setPc, St.setT, ht3], har3, ⟨rfl, rfl, rfl, rfl⟩⟩
  clear hs4
  obtain ⟨s4, hs4, g4, ht4, har4, k4⟩ := x4
  have hs5 : step cfg s4 (.go t 0 []) = .ok { s4.setPc t (.queued .user) with gcq := s4.gcq ++ [a] } := by
    simp only [step, goOn, ht4]
  have x5 : ∃ s5 : St, step cfg s4 (.go t 0 []) = .ok s5 ∧ Good s5 ∧ s5.th t = { s2.th t with pend := [], pc := .queued .user } ∧
      s5.ars a = some ⟨t, (s2.th t).pend.map (·.1)⟩ ∧ s5.gcq = s4.gcq ++ [a] ∧ s5.gc = s4.gc ∧ s5.asynch = s4.asynch ∧
      s5.opens = s4.opens :=
    ⟨_, hs5, good_one he hr g4 hs5, by simp [St.setPc, St.setT, ht4], har4, rfl, rfl, rfl, rfl⟩
  clear hs5
  obtain ⟨s5, hs5, g5, ht5, har5, kq, kg, ka, ko⟩ := x5
  have hal : (s5.grs t).alive = true := g5.j.alive t h.nz (by show (s5.th t).ret = true; rw [ht5]; exact e2r.1)
  have hs6 : step cfg s5 (.go t 0 []) = .ok ((s5.setG t { s5.grs t with enq := (s5.grs t).enq + 1 }).setPc t .user) := by
    simp only [step, goOn, ht5, hal, Bool.true_eq_false, if_false, finish]
  have x6 : ∃ s6 : St, step cfg s5 (.go t 0 []) = .ok s6 ∧ Good s6 ∧ s6.th t = { s2.th t with pend := [], pc := .user } ∧
      s6.ars a = some ⟨t, (s2.th t).pend.map (·.1)⟩ ∧ Same' s5 s6 :=
    ⟨_, hs6, good_one he hr g5 hs6, by simp [St.setPc, St.setT, St.setG, ht5], har5, ⟨rfl, rfl, rfl, rfl⟩⟩
  clear hs6
  obtain ⟨s6, hs6, g6, ht6, har6, k6⟩ := x6
  obtain ⟨n2, s7, b1, b2, b3, b4, b5⟩ := comes_back he hr s6.gcq s6 g6
    (by rw [k6.gc, kg, k4.gc, k3.gc, k2.gc, a4.gc]; exact hg)
    (by rw [k6.asynch, ka, k4.asynch, k3.asynch, k2.asynch, a4.asynch]; exact has)
    (by rw [k6.opens, ko, k4.opens, k3.opens, k2.opens, a4.opens]; exact ho) rfl
    (by rw [k6.gcq, kq]; simp) har6 (by rw [ht6]; simp)
  have rd : Ready s7 t := ⟨h.nz, by rw [b3, ht6]; exact e2r.1, by rw [b3, ht6], by rw [b3, ht6]; exact e2r.2⟩
  obtain ⟨n3, s8, c1, _, _, _, _, _, c7⟩ := maint_back he hr b2 rd .asynch
  refine ⟨a, n + 1, n2, n3, s8, ?_, ?_⟩
  · refine run_app (run_app (run_app (s1 := s2) ?_ (run_one hs3 ?_)) b1) c1
    · rw [goes, ← List.replicate_append_replicate]
      exact run_app (es := .maint t .asynch :: goes t n) a1 (run_one hs2 rfl)
    · exact run_one hs4 (run_one hs5 (run_one hs6 rfl))
  · intro e hm
    refine c7 a b4 _ b5 e.1 ?_
    rw [e2]
    exact List.mem_map.2 ⟨e, hm, rfl⟩

end Mtev.Smr
