import Verif.SmrStep

/-! The invariants of safe memory reclamation hold in every history. -/

namespace Mtev.Smr

variable {loc : Nat → Loc} {pos : Nat → Pos} {s : St} {t : Nat}

theorem Inv.gcIdle (h : Inv loc pos s) (h0 : (s.th 0).pc = .user) (hg : s.gc = .idle) (k : Nat) :
    Inv loc pos { s with gc := .sync (s.gcq.take k) (s.opens.map (·.1)), gcq := s.gcq.drop k } := by
  refine h.moveG h0 rfl rfl rfl rfl (fun a u _ ha => ⟨rfl, ha⟩) (fun a y ha => ⟨ha, fun h1 h2 => absurd h1 h2⟩)
    (fun a ha => h.gcq a (List.mem_of_mem_drop ha)) (fun a ha => h.gcq a (List.mem_of_mem_take ha)) ?_ h.queue h.queueN ?_
  · simp only [gcSet, List.take_append_drop]
    have := h.outN
    rw [hg] at this
    simpa [gcSet] using this
  · intro a _ y _ b _
    exact h.opens b

open Classical in
theorem Inv.gcSync (h : Inv loc pos s) (h0 : (s.th 0).pc = .user) {set snap : List Nat} (hg : s.gc = .sync set snap)
    (hq : Smr.quiet s snap = true) : ∃ pos', Inv loc pos' { s with gc := .give set } := by
  have hset := h.set
  have houtN := h.outN
  have hgc := h.gc
  rw [hg] at hset houtN hgc
  have hnp : ∀ a p, pos a = p → p ≠ .out → a ∉ set := by
    intro a p h1 h2 h3
    rw [(hset a h3).1] at h1
    exact h2 h1.symm
  refine ⟨fun a => if a ∈ set then .giv else pos a, h.moveG h0 rfl rfl rfl rfl ?_ ?_ ?_ ?_ houtN ?_ h.queueN trivial⟩
  · intro a u h1 h2
    have : a ∉ set := by rcases h1 with h1 | h1 <;> exact hnp a _ h1 (by simp)
    exact ⟨by simp [this], h2⟩
  · intro a y ha
    refine ⟨ha, fun h1 h2 b hb => ?_⟩
    by_cases has : a ∈ set
    · exact h.quiet hq (hgc a has y ha b hb)
    · simp only [has, if_false] at h1; exact absurd h1 h2
  · intro a ha
    have hn : a ∉ set := by
      intro has
      exact (List.nodup_append.1 houtN).2.2 a has a ha rfl
    simp only [hn, if_false]
    exact h.gcq a ha
  · intro a ha
    have ha : a ∈ set := ha
    simp only [ha, if_true]
    exact ⟨rfl, (hset a ha).2⟩
  · intro o a ha
    have := h.queue o a ha
    have hn : a ∉ set := hnp a _ this.1 (by simp)
    simp only [hn, if_false]
    exact this

theorem Inv.gcGive (h : Inv loc pos s) (h0 : (s.th 0).pc = .user) {a o : Nat} {r : List Nat}
    (hg : s.gc = .give (a :: r)) :
    Inv loc (Function.update pos a (.ret o))
      { s.setG o { s.grs o with queue := (s.grs o).queue ++ [a] } with gc := .gave a o r } := by
  have hset := h.set
  have houtN := h.outN
  rw [hg] at hset houtN
  have hn : a ∉ r ++ s.gcq := (List.nodup_cons.1 houtN).1
  have ha := hset a (by simp [gcSet])
  have hne : ∀ c p, pos c = p → p ≠ .giv → c ≠ a := by
    rintro c p h1 h2 rfl
    rw [ha.1] at h1
    exact h2 h1.symm
  refine h.moveG h0 rfl rfl rfl rfl ?_ ?_ ?_ ?_ (List.nodup_cons.1 houtN).2 ?_ ?_ trivial
  · intro c u h1 h2
    refine ⟨upd_other _ _ _ ?_, h2⟩
    rcases h1 with h1 | h1 <;> exact hne _ _ h1 (by simp)
  · intro c y hc
    refine ⟨hc, fun h1 h2 => ?_⟩
    exfalso
    by_cases hca : c = a
    · subst hca; exact h2 (by rw [ha.1]; trivial)
    · rw [upd_other _ _ _ hca] at h1; exact h2 h1
  · intro c hc
    have := h.gcq c hc
    exact ⟨by rw [upd_other _ _ _ (hne _ _ this.1 (by simp))]; exact this.1, this.2⟩
  · intro c hc
    have hc : c ∈ r := hc
    have := hset c (by simp [gcSet, hc])
    have hca : c ≠ a := fun e => hn (List.mem_append_left _ (e ▸ hc))
    exact ⟨by rw [upd_other _ _ _ hca]; exact this.1, this.2⟩
  · intro u c hc
    by_cases hu : u = o
    · subst hu
      simp only [St.setG, upd_same, List.mem_append, List.mem_singleton] at hc
      rcases hc with hc | rfl
      · have := h.queue u c hc
        exact ⟨by rw [upd_other _ _ _ (hne _ _ this.1 (by simp))]; exact this.1, this.2⟩
      · exact ⟨by simp, ha.2⟩
    · simp only [St.setG, upd_other _ _ _ hu] at hc
      have := h.queue u c hc
      exact ⟨by rw [upd_other _ _ _ (hne _ _ this.1 (by simp))]; exact this.1, this.2⟩
  · intro u
    by_cases hu : u = o
    · subst hu
      simp only [St.setG, upd_same]
      rw [List.nodup_append]
      refine ⟨h.queueN u, by simp, ?_⟩
      intro c hc d hd
      simp only [List.mem_singleton] at hd
      subst hd
      exact hne _ _ (h.queue u c hc).1 (by simp)
    · simp only [St.setG, upd_other _ _ _ hu]; exact h.queueN u

/-- The collector goes on without touching lists. -/
theorem Inv.gcPlain (h : Inv loc pos s) (h0 : (s.th 0).pc = .user) {g : Gc} (hset : gcSet g = gcSet s.gc)
    (hp : setPos g = setPos s.gc) (hgc : GcOk pos s.ars (view s) g) : Inv loc pos { s with gc := g } := by
  refine h.moveG h0 rfl rfl rfl rfl (fun a u _ ha => ⟨rfl, ha⟩) (fun a y ha => ⟨ha, fun h1 h2 => absurd h1 h2⟩)
    h.gcq ?_ ?_ h.queue h.queueN hgc
  · show ∀ a ∈ gcSet g, pos a = setPos g ∧ _
    rw [hset, hp]; exact h.set
  · show (gcSet g ++ s.gcq).Nodup
    rw [hset]; exact h.outN

theorem Inv.gcTake (h : Inv loc pos s) (h0 : (s.th 0).pc = .user) {o c : Nat} {q r : List Nat}
    (hg : s.gc = .drain o none r) (hq : (s.grs o).queue = c :: q) :
    Inv loc (Function.update pos c .gcur)
      { s.setG o { s.grs o with queue := q } with gc := .drain o (some c) r } := by
  have hset := h.set
  have houtN := h.outN
  rw [hg] at hset houtN
  have hc := h.queue o c (by rw [hq]; simp)
  have hn := h.queueN o
  rw [hq] at hn
  have hne : ∀ a p, pos a = p → p ≠ .ret o → a ≠ c := by
    rintro a p h1 h2 rfl
    rw [hc.1] at h1
    exact h2 h1.symm
  refine h.moveG h0 rfl rfl rfl rfl ?_ ?_ ?_ ?_ houtN ?_ ?_ ⟨by simp, hc.2⟩
  · intro a u h1 h2
    refine ⟨upd_other _ _ _ ?_, h2⟩
    rcases h1 with h1 | h1 <;> exact hne _ _ h1 (by simp)
  · intro a y ha
    refine ⟨ha, fun h1 h2 => ?_⟩
    exfalso
    by_cases hca : a = c
    · subst hca; exact h2 (by rw [hc.1]; trivial)
    · rw [upd_other _ _ _ hca] at h1; exact h2 h1
  · intro a ha
    have := h.gcq a ha
    exact ⟨by rw [upd_other _ _ _ (hne _ _ this.1 (by simp))]; exact this.1, this.2⟩
  · intro a ha
    have := hset a ha
    refine ⟨?_, this.2⟩
    rw [upd_other _ _ _ (hne _ _ this.1 (by simp [setPos]))]; exact this.1
  · intro u a ha
    by_cases hu : u = o
    · subst hu
      simp only [St.setG, upd_same] at ha
      have h1 := h.queue u a (by rw [hq]; exact List.mem_cons_of_mem _ ha)
      have : a ≠ c := by rintro rfl; exact (List.nodup_cons.1 hn).1 ha
      exact ⟨by rw [upd_other _ _ _ this]; exact h1.1, h1.2⟩
    · simp only [St.setG, upd_other _ _ _ hu] at ha
      have h1 := h.queue u a ha
      exact ⟨by rw [upd_other _ _ _ (hne _ _ h1.1 (by simp [hu]))]; exact h1.1, h1.2⟩
  · intro u
    by_cases hu : u = o
    · subst hu; simp only [St.setG, upd_same]; exact (List.nodup_cons.1 hn).2
    · simp only [St.setG, upd_other _ _ _ hu]; exact h.queueN u

theorem Inv.gcDone (h : Inv loc pos s) (h0 : (s.th 0).pc = .user) {o c : Nat} {r : List Nat}
    (hg : s.gc = .drain o (some c) r) :
    Inv loc pos { s with ars := Function.update s.ars c none, gc := .drain o none r } := by
  have hset := h.set
  have houtN := h.outN
  have hgc := h.gc
  rw [hg] at hset houtN hgc
  have hne : ∀ a p, pos a = p → p ≠ .gcur → a ≠ c := by
    rintro a p h1 h2 rfl
    rw [hgc.1] at h1
    exact h2 h1.symm
  have hk : ∀ a p, pos a = p → p ≠ .gcur → s.ars a ≠ none → Function.update s.ars c none a ≠ none := by
    intro a p h1 h2 h3
    rw [upd_other _ _ _ (hne a p h1 h2)]; exact h3
  refine h.moveG h0 rfl rfl rfl rfl ?_ ?_ ?_ ?_ houtN ?_ h.queueN trivial
  · intro a u h1 h2
    refine ⟨rfl, ?_⟩
    rcases h1 with h1 | h1 <;> exact hk a _ h1 (by simp) h2
  · intro a y ha
    refine ⟨?_, fun h1 h2 => absurd h1 h2⟩
    simp only [Function.update_apply] at ha
    split at ha
    · cases ha
    · exact ha
  · intro a ha; exact ⟨(h.gcq a ha).1, hk a _ (h.gcq a ha).1 (by simp) (h.gcq a ha).2⟩
  · intro a ha; exact ⟨(hset a ha).1, hk a _ (hset a ha).1 (by simp [setPos]) (hset a ha).2⟩
  · intro o a ha; exact ⟨(h.queue o a ha).1, hk a _ (h.queue o a ha).1 (by simp) (h.queue o a ha).2⟩

/-- What `complete` does. -/
theorem complete_cases {s s' : St} {a : Nat} {d : Bool} (hs : complete s a = .ok (s', d)) :
    (d = true ∧ s' = { s with ars := Function.update s.ars a none }) ∨ (d = false) := by
  cases d
  · exact .inr rfl
  · refine .inl ⟨rfl, ?_⟩
    unfold complete at hs
    split at hs
    · cases hs
    · split at hs
      · cases hs; rfl
      · unfold realFree at hs
        simp only at hs
        split at hs <;> simp at hs

theorem bind_ok {α β : Type} {x : Out α} {f : α → Out β} {y : β} (h : x.bind f = .ok y) :
    ∃ a, x = .ok a ∧ f a = .ok y := by
  cases x with
  | ok a => exact ⟨a, rfl, h⟩
  | ub => cases h
  | abort => cases h

theorem Inv.gcStep (h : Inv loc pos s) (h0 : (s.th 0).pc = .user) {n : Nat} {s' : St}
    (hs : gcStep s n = .ok s') : ∃ loc' pos', Inv loc' pos' s' := by
  unfold Smr.gcStep at hs
  split at hs
  · rename_i hg
    split at hs
    · cases hs; exact ⟨_, _, h.gcIdle h0 hg _⟩
    · cases hs; exact ⟨_, _, h⟩
  · rename_i set snap hg
    split at hs
    · rename_i hq
      cases hs
      obtain ⟨p, hp⟩ := h.gcSync h0 hg hq
      exact ⟨_, p, hp⟩
    · cases hs; exact ⟨_, _, h⟩
  · rename_i hg
    cases hs
    exact ⟨_, _, h.gcPlain h0 (by rw [hg]; rfl) (by rw [hg]; rfl) trivial⟩
  · rename_i a r hg
    split at hs
    · cases hs
    · split at hs
      · cases hs
      · cases hs; exact ⟨_, _, h.gcGive h0 hg⟩
  · rename_i a o r hg
    split at hs
    · cases hs
    · cases hs
      have h1 := h.setG (o := o) (g := { s.grs o with req := (s.grs o).req + 1 }) rfl
      exact ⟨_, _, h1.gcPlain (s := s.setG o _) h0 (by show _ = gcSet s.gc; rw [hg]; rfl) (by show _ = setPos s.gc; rw [hg]; rfl) trivial⟩
  · rename_i a o r hg
    split at hs
    · cases hs
    · split at hs
      · cases hs; exact ⟨_, _, h.gcPlain h0 (by rw [hg]; rfl) (by rw [hg]; rfl) trivial⟩
      · cases hs; exact ⟨_, _, h.gcPlain h0 (by rw [hg]; rfl) (by rw [hg]; rfl) trivial⟩
  · rename_i a o r hg
    split at hs
    · cases hs
    · split at hs
      · cases hs; exact ⟨_, _, h.gcPlain h0 (by rw [hg]; rfl) (by rw [hg]; rfl) trivial⟩
      · cases hs; exact ⟨_, _, h.gcPlain h0 (by rw [hg]; rfl) (by rw [hg]; rfl) trivial⟩
  · rename_i o r hg
    split at hs
    · cases hs
    · split at hs
      · rename_i hq
        cases hs
        have h1 := h.setG (o := o) (g := { s.grs o with alive := false }) rfl
        exact ⟨_, _, h1.gcPlain (s := s.setG o _) h0 (by show _ = gcSet s.gc; rw [hg]; rfl) (by show _ = setPos s.gc; rw [hg]; rfl) trivial⟩
      · rename_i c q hq
        cases hs
        exact ⟨_, _, h.gcTake h0 hg hq⟩
  · rename_i o c r hg
    obtain ⟨⟨s1, d⟩, h1, h2⟩ := bind_ok hs
    cases h2
    rcases complete_cases h1 with ⟨rfl, rfl⟩ | rfl
    · exact ⟨_, _, h.gcDone h0 hg⟩
    · have := h.gc
      rw [hg] at this
      obtain ⟨l, hl⟩ := h.completeB (by rw [this.1]; trivial) h1
      exact ⟨l, _, hl⟩

theorem map_filter_nodup {l : List (Nat × List Nat)} (h : (l.map (·.1)).Nodup) (p : Nat × List Nat → Bool) :
    ((l.filter p).map (·.1)).Nodup := by
  exact h.sublist (List.filter_sublist.map _)

theorem inj_of_nodup_map {l : List (Nat × List Nat)} (h : (l.map (·.1)).Nodup) {x y : Nat × List Nat}
    (hx : x ∈ l) (hy : y ∈ l) (e : x.1 = y.1) : x = y := by
  induction l with
  | nil => cases hx
  | cons z l ih =>
    simp only [List.map_cons, List.nodup_cons, List.mem_map, not_exists, not_and] at h
    rcases List.mem_cons.1 hx with rfl | hx <;> rcases List.mem_cons.1 hy with rfl | hy
    · rfl
    · exact absurd e.symm (h.1 _ hy)
    · exact absurd e (h.1 _ (by assumption))
    · exact ih h.2 hx hy

theorem Inv.goOn {cfg : Conf} (h : Inv loc pos s) {a : Nat} {sel : List Nat} {s' : St}
    (hs : goOn cfg s t a sel = .ok s') : ∃ loc' pos', Inv loc' pos' s' := by
  unfold Smr.goOn at hs
  simp only at hs
  split at hs
  · cases hs; exact ⟨_, _, h⟩
  · cases hs; exact ⟨_, _, h⟩
  · rename_i m k hp
    have hd : (s.th t).pc ≠ .dead := by rw [hp]; simp
    split at hs
    · cases hs
    · split at hs
      · cases hs; exact ⟨_, _, h.decideOn hd m k⟩
      · rename_i c r hq
        cases hs
        obtain ⟨p, hp⟩ := h.take hd hq (.inl ⟨m, k, rfl⟩)
        exact ⟨_, p, hp⟩
  · rename_i m c k hp
    have hd : (s.th t).pc ≠ .dead := by rw [hp]; simp
    obtain ⟨⟨s1, d⟩, h1, h2⟩ := bind_ok hs
    have hpc := (h.thr t).pc
    rw [hp] at hpc
    cases h2
    rcases complete_cases h1 with ⟨rfl, rfl⟩ | rfl
    · exact ⟨_, _, h.done hd hpc.1 (.inl ⟨m, k, rfl⟩)⟩
    · obtain ⟨l, hl⟩ := h.completeB (by rw [hpc.1]; trivial) h1
      exact ⟨l, _, hl⟩
  · rename_i snap k hp
    have hd : (s.th t).pc ≠ .dead := by rw [hp]; simp
    split at hs
    · rename_i hq
      cases hs
      have hpc := (h.thr t).pc
      rw [hp] at hpc
      obtain ⟨l, hl⟩ := h.toDisp (k := k) (pend' := []) (l := (s.th t).pend.map (·.1)) hd (h.thr t).pendN
        (by
          intro b hb
          obtain ⟨e, he, rfl⟩ := List.mem_map.1 hb
          exact ⟨⟨e, he, rfl⟩, h.quiet hq (hpc e he)⟩) (by simp) (by simp)
      refine ⟨l, pos, ?_⟩
      simpa [St.setPc, St.setT] using hl
    · cases hs; exact ⟨_, _, h⟩
  · rename_i k hp
    have hd : (s.th t).pc ≠ .dead := by rw [hp]; simp
    cases hs
    obtain ⟨l, hl⟩ := h.toDisp (k := k)
      (pend' := (s.th t).pend.filter (fun e => !(decide (e.1 ∈ sel) && Smr.quiet s e.2)))
      (l := ((s.th t).pend.filter (fun e => decide (e.1 ∈ sel) && Smr.quiet s e.2)).map (·.1)) hd
      (map_filter_nodup (h.thr t).pendN _)
      (by
        intro b hb
        obtain ⟨e, he, rfl⟩ := List.mem_map.1 hb
        obtain ⟨he, hq⟩ := List.mem_filter.1 he
        simp only [Bool.and_eq_true] at hq
        exact ⟨⟨e, he, rfl⟩, h.quiet hq.2 ((h.thr t).pend e he).2⟩)
      (by
        intro e he
        obtain ⟨he, hq⟩ := List.mem_filter.1 he
        refine ⟨he, fun hm => ?_⟩
        obtain ⟨e', he', hee⟩ := List.mem_map.1 hm
        obtain ⟨he', hq'⟩ := List.mem_filter.1 he'
        have : e' = e := inj_of_nodup_map (h.thr t).pendN he' he hee
        subst this
        simp only [hq', Bool.not_true] at hq
        cases hq)
      (map_filter_nodup (h.thr t).pendN _)
    refine ⟨l, pos, ?_⟩
    simpa [St.setPc, St.setT] using hl
  · rename_i k hp
    have hd : (s.th t).pc ≠ .dead := by rw [hp]; simp
    cases hs
    exact ⟨_, _, h.finish hd k⟩
  · rename_i b r k hp
    exact ⟨_, _, h.dispatch hp hs⟩
  · rename_i f k hp
    have hd : (s.th t).pc ≠ .dead := by rw [hp]; simp
    split at hs
    · rename_i hc
      cases hs
      exact h.fill hd hc.1
    · cases hs; exact ⟨_, _, h⟩
  · rename_i c f k hp
    have hd : (s.th t).pc ≠ .dead := by rw [hp]; simp
    have hpc := (h.thr t).pc
    rw [hp] at hpc
    split at hs
    · split at hs
      · cases hs
      · split at hs
        · cases hs
          have h1 := h.setG (o := t) (g := { s.grs t with fin := some c }) rfl
          exact ⟨_, _, h1.setPc (s := s.setG t _) hd (by simp) hpc⟩
        · cases hs
    · cases hs
      exact ⟨_, _, h.setPc hd (by simp) hpc⟩
  · rename_i c k hp
    cases hs
    exact ⟨_, _, h.hand hp⟩
  · rename_i k hp
    have hd : (s.th t).pc ≠ .dead := by rw [hp]; simp
    split at hs
    · cases hs
    · cases hs
      have h1 := h.setG (o := t) (g := { s.grs t with enq := (s.grs t).enq + 1 }) rfl
      exact ⟨_, _, h1.finish (s := s.setG t _) hd k⟩
  · rename_i hp
    have hd : (s.th t).pc ≠ .dead := by rw [hp]; simp
    split at hs
    · cases hs
    · split at hs
      · cases hs
        have h1 := h.setG (o := t) (g := { s.grs t with alive := false }) rfl
        exact ⟨_, _, h1.leave⟩
      · rename_i c r hq
        cases hs
        obtain ⟨p, hp⟩ := h.take hd hq (.inr rfl)
        exact ⟨_, p, hp⟩
  · rename_i c hp
    have hd : (s.th t).pc ≠ .dead := by rw [hp]; simp
    obtain ⟨⟨s1, d⟩, h1, h2⟩ := bind_ok hs
    have hpc := (h.thr t).pc
    rw [hp] at hpc
    cases h2
    rcases complete_cases h1 with ⟨rfl, rfl⟩ | rfl
    · exact ⟨_, _, h.done hd hpc.1 (.inr rfl)⟩
    · obtain ⟨l, hl⟩ := h.completeB (by rw [hpc.1]; trivial) h1
      exact ⟨l, _, hl⟩


/-! ### The other calls -/

theorem Inv.reset (h : Inv loc pos s) (h0 : (s.th 0).pc = .user) (g : Gr) (hg : g.queue = []) :
    Inv loc pos (s.setG t g) := by
  refine h.moveG h0 rfl rfl rfl rfl (fun a u _ ha => ⟨rfl, ha⟩) (fun a y ha => ⟨ha, fun h1 h2 => absurd h1 h2⟩)
    h.gcq h.set h.outN ?_ ?_ h.gc
  · intro o a ha
    by_cases hu : o = t
    · subst hu; simp [St.setG, hg] at ha
    · simp only [St.setG, upd_other _ _ _ hu] at ha; exact h.queue o a ha
  · intro o
    by_cases hu : o = t
    · subst hu; simp [St.setG, hg]
    · simp only [St.setG, upd_other _ _ _ hu]; exact h.queueN o

/-- The thread's readers are gone. -/
theorem Inv.drop (h : Inv loc pos s) : Inv loc pos (s.setT t { s.th t with hold := fun _ => [] }) := by
  have ht := h.secs.thr t
  have hvm : ∀ b snap, covers (view s) b snap →
      covers (view (s.setT t { s.th t with hold := fun _ => [] })) b snap := by
    intro b snap
    apply covers_mono
    intro u k b hb
    by_cases hu : u = t
    · subst hu; simp [view, St.setT] at hb
    · simp only [view, St.setT, upd_other _ _ _ hu] at hb ⊢; exact ⟨hb, trivial⟩
  refine h.sect rfl (h.secs.setT rfl rfl rfl ?_ (fun _ => rfl)) ?_ rfl rfl (fun _ => rfl) rfl rfl (fun b snap _ => hvm b snap)
  · exact ⟨ht.reg, ht.unreg, ht.stk, ht.deep, ht.small, ht.opened, ht.lt, fun k hk => by simp at hk⟩
  · have := (h.thr t).frame (loc' := loc) (pos' := pos) (ars' := s.ars) (fun _ _ => rfl) (fun _ _ ha => ⟨rfl, ha⟩) (fun b snap _ => hvm b snap)
    exact ⟨this.pend, this.pendN, this.pc⟩

/-- A section nobody reads in is closed. -/
theorem Inv.shut (h : Inv loc pos s) {s2 : St} (hp : (s.th t).pc ≠ .dead) (hr : (s.th t).reg = true)
    (hh : (s.th t).hold = fun _ => [])
    (hs : closeSec (s.setT t { s.th t with deep := Function.update (s.th t).deep (s.th t).ctx 0 }) t (s.th t).ctx = .ok s2) :
    Inv loc pos s2 ∧ (s2.th t).pc = (s.th t).pc := by
  have ht := h.secs.thr t
  unfold closeSec at hs
  simp only [setT_same] at hs
  split at hs
  · cases hs
  rename_i q hq
  cases hs
  generalize hx : ({ s.th t with
        secs := Function.update (s.th t).secs (s.th t).ctx ⟨0, none⟩, active := (s.th t).active - 1
        deep := Function.update (s.th t).deep (s.th t).ctx 0 } : Th) = x
  generalize hs2 : ({ (s.setT t { s.th t with deep := Function.update (s.th t).deep (s.th t).ctx 0 }).setT t { s.th t with
        secs := Function.update (s.th t).secs (s.th t).ctx ⟨0, none⟩, active := (s.th t).active - 1
        deep := Function.update (s.th t).deep (s.th t).ctx 0 } with
      opens := s.opens.filter (fun p => decide (p.1 ≠ q)) } : St) = s2
  have hgoal : Inv loc pos s2 ∧ (s2.th t).pc = (s.th t).pc := by
    have hth : s2.th = Function.update s.th t x := by subst hx hs2; simp [St.setT]
    have hop : s2.opens = s.opens.filter (fun p => decide (p.1 ≠ q)) := by subst hs2; rfl
    have hnx : s2.next = s.next := by subst hs2; rfl
    have hxh : x.hold = fun _ => [] := by subst hx; exact hh
    have hvm : ∀ b snap, covers (view s) b snap → covers (view s2) b snap := by
      intro b snap
      apply covers_mono
      intro u k b hb
      simp only [view, hth] at hb ⊢
      by_cases hu : u = t
      · subst hu; rw [upd_same, hxh] at hb; simp at hb
      · rw [upd_other _ _ _ hu] at hb ⊢; exact ⟨hb, rfl⟩
    have hf : ∀ u k q', ((s.th u).secs k).q = some q' → (u = t → k ≠ (s.th t).ctx) → (q', u) ∈ s.opens →
        (q', u) ∈ s.opens.filter (fun p => decide (p.1 ≠ q)) := by
      intro u k q' h1' h2 h3
      refine List.mem_filter.2 ⟨h3, ?_⟩
      simp only [decide_eq_true_eq]
      rintro rfl
      obtain ⟨a, b⟩ := h.secs.inj _ _ _ _ _ h1' hq
      exact h2 a b
    refine ⟨h.sect hth ⟨?_, ?_⟩ ?_ (by subst hs2; rfl) (by subst hs2; rfl) (by intro o; subst hs2; rfl) (by subst hs2; rfl) (by subst hs2; rfl) (fun b snap _ => hvm b snap), ?_⟩
    · intro u
      rw [hth, hop, hnx]
      by_cases hu : u = t
      · subst hu
        rw [upd_same]
        subst hx
        refine ⟨fun _ => ht.reg hr, fun hh => by simp [hr] at hh, ht.stk, ?_, ?_, ?_, ?_, ?_⟩
        · intro k
          by_cases hk : k = (s.th u).ctx
          · subst hk; simp
          · simp [hk, ht.deep]
        · intro k
          by_cases hk : k = (s.th u).ctx
          · subst hk; simp
          · simpa [hk] using ht.small k
        · intro k hk0
          by_cases hk : k = (s.th u).ctx
          · subst hk; simp at hk0
          · simp only [upd_other _ _ _ hk] at hk0 ⊢
            obtain ⟨q', hq', ho⟩ := ht.opened k hk0
            exact ⟨q', hq', fun a => hf u k q' hq' (fun _ => hk) (ho a)⟩
        · intro k q' hq'
          by_cases hk : k = (s.th u).ctx
          · subst hk; simp at hq'
          · simp only [upd_other _ _ _ hk] at hq'; exact ht.lt k q' hq'
        · intro k hk
          simp only [hh] at hk
          exact absurd rfl hk
      · rw [upd_other _ _ _ hu]
        exact (h.secs.thr u).more (fun q' hk ho => by
          obtain ⟨k, hk⟩ := hk
          exact hf u k q' hk (fun a => absurd a hu) ho) (Nat.le_refl _)
    · have hq' : ∀ u k q', ((s2.th u).secs k).q = some q' → ((s.th u).secs k).q = some q' := by
        intro u k q' hq
        rw [hth] at hq
        by_cases hu : u = t
        · subst hu
          rw [upd_same] at hq
          subst hx
          by_cases hk : k = (s.th u).ctx
          · subst hk; simp at hq
          · simp only [upd_other _ _ _ hk] at hq; exact hq
        · rw [upd_other _ _ _ hu] at hq; exact hq
      intro u k u' k' q a b
      exact h.secs.inj _ _ _ _ _ (hq' _ _ _ a) (hq' _ _ _ b)
    · have := (h.thr t).frame (loc' := loc) (pos' := pos) (ars' := s.ars) (fun _ _ => rfl) (fun _ _ ha => ⟨rfl, ha⟩) (fun b snap _ => hvm b snap)
      subst hx
      exact ⟨this.pend, this.pendN, this.pc⟩
    · rw [hth, upd_same]; subst hx; rfl
  subst hx hs2
  simpa [St.setT] using hgoal

theorem Inv.finiStart (h : Inv loc pos s) (hp : (s.th t).pc ≠ .dead) {s' : St}
    (hs : finiStart s t = .ok s') : Inv loc pos s' := by
  have h1 := h.drop (t := t)
  unfold Smr.finiStart at hs
  simp only at hs
  generalize hs1 : s.setT t { s.th t with hold := fun _ => [] } = s1 at hs h1
  have hx : s1.th t = { s.th t with hold := fun _ => [] } := by subst hs1; simp
  have hp1 : (s1.th t).pc ≠ .dead := by rw [hx]; exact hp
  split at hs
  · split at hs
    · cases hs; exact h1.setPc hp1 (by simp) trivial
    · cases hs; exact h1.leave
  · rename_i hr
    have hr : (s.th t).reg = true := by simpa using hr
    have hr1 : (s1.th t).reg = true := by rw [hx]; exact hr
    split at hs
    · cases hs
    · rename_i i hi
      have hi' : i = (s1.th t).ctx := by
        have h2 := (h1.secs.thr t).reg hr1
        have h3 : (s1.th t).sec = some i := by rw [hx]; exact hi
        rw [h2] at h3; exact (Option.some.inj h3).symm
      split at hs
      · obtain ⟨s2, h2, h3⟩ := bind_ok hs
        cases h3
        subst hi'
        have hd : s1.setT t { (s1.th t) with deep := Function.update (s1.th t).deep (s1.th t).ctx 0 } =
            s1.setT t { s.th t with hold := fun _ => [], deep := Function.update (s.th t).deep (s.th t).ctx 0 } := by
          rw [hx]
        rw [← hd] at h2
        obtain ⟨h4, h5⟩ := h1.shut hp1 hr1 (by rw [hx]) h2
        exact h4.setPc (by rw [h5]; exact hp1) (by simp) trivial
      · cases hs; exact h1.setPc hp1 (by simp) trivial

theorem appl_wait {s : St} {t : Nat} (h0 : (s.th 0).pc = .user) (h : appl s t = true) :
    ∀ snap k, (s.th t).pc ≠ .wait snap k := by
  unfold appl at h
  split at h
  · rename_i e; subst e; rw [h0]; simp
  · intro snap k hd; simp [hd] at h

/-- Thread 0 runs the collector and nothing else. -/
structure Z (s : St) : Prop where
  pc : (s.th 0).pc = .user
  off : s.asynch = false → (s.th 0).reg = false ∧ s.gc = .idle

theorem Inv.step {cfg : Conf} (he : cfg.early = false) (h : Inv loc pos s) (z : Z s) {e : Ev} {s' : St}
    (hs : step cfg s e = .ok s') : ∃ loc' pos', Inv loc' pos' s' := by
  cases e with
  | init t =>
    simp only [Smr.step] at hs
    split at hs
    · rename_i hc
      cases hs
      have h1 : Inv loc pos (s.setT t { s.th t with ret := true }) :=
        h.local rfl ⟨rfl, rfl, rfl, rfl, rfl, rfl, rfl⟩ ⟨id, id⟩ rfl (h.thr t).pc
      refine ⟨_, _, h1.reset ?_ _ rfl⟩
      simp only [St.setT, upd_other _ _ _ (Ne.symm hc.1)]; exact z.pc
    · cases hs; exact ⟨_, _, h⟩
  | gcOn =>
    simp only [Smr.step] at hs
    cases hs
    split
    · exact ⟨_, _, h⟩
    · rename_i ha
      obtain ⟨hr, _⟩ := z.off (by simpa using ha)
      have ht := h.secs.thr 0
      have hc := ht.unreg hr (by rw [z.pc]; simp)
      refine ⟨_, _, h.sect (t := 0) rfl (h.secs.setT rfl rfl rfl ?_ (fun _ => rfl)) ?_ rfl rfl (fun _ => rfl) rfl rfl
        (fun _ _ _ hc => covers_of_eq (view_upd (t := 0) rfl (by rfl) (by intro; rfl)) hc)⟩
      · exact ⟨fun _ => by rw [hc.1], fun hh => by simp at hh, ht.stk, ht.deep, ht.small, ht.opened, ht.lt, ht.hold⟩
      · have hv : view ({ s.setT 0 { s.th 0 with ret := true, reg := true, sec := some 0 } with asynch := true } : St) = view s :=
          view_upd (t := 0) rfl (by rfl) (by intro; rfl)
        rw [hv]
        have := h.thr 0
        exact ⟨this.pend, this.pendN, this.pc⟩
  | begin t =>
    simp only [Smr.step] at hs
    split at hs
    · rename_i hc
      obtain ⟨s2, h2, h3⟩ := bind_ok hs
      cases h3
      exact ⟨_, _, h.begin (appl_pc z.pc hc.1) hc.2 h2⟩
    · cases hs; exact ⟨_, _, h⟩
  | end_ t =>
    simp only [Smr.step] at hs
    split at hs
    · rename_i hc
      obtain ⟨s2, h2, h3⟩ := bind_ok hs
      cases h3
      exact ⟨_, _, h.fin_ (appl_pc z.pc hc.1) hc.2 h2⟩
    · cases hs; exact ⟨_, _, h⟩
  | resume t k =>
    simp only [Smr.step] at hs
    split at hs
    · rename_i hc
      cases hs
      have hr : (s.th t).reg = true := by
        rcases hc.2.2.2.2 with h1 | h1
        · rw [he] at h1; cases h1
        · exact h1
      exact ⟨_, _, h.resume hr⟩
    · cases hs; exact ⟨_, _, h⟩
  | yield t =>
    simp only [Smr.step] at hs
    split at hs
    · cases hs; exact ⟨_, _, h⟩
    · rename_i p c r hst
      split at hs
      · rename_i hc
        cases hs
        exact ⟨_, _, h.yield hst (appl_pc z.pc hc)⟩
      · cases hs; exact ⟨_, _, h⟩
  | alloc t b =>
    simp only [Smr.step] at hs
    split at hs
    · rename_i hc
      cases hs
      have h1 := h.initEpoch (appl_pc z.pc hc.1)
      obtain ⟨r, c, e, hr⟩ := initEpoch_fields s t
      rw [e] at h1 ⊢
      exact ⟨_, _, h1.setMem (not_listed_of_mem h (by rw [hc.2]; simp)) (by simp)⟩
    · cases hs; exact ⟨_, _, h⟩
  | acq t b =>
    simp only [Smr.step] at hs
    split at hs
    · rename_i hc
      cases hs
      exact ⟨_, _, h.acq (appl_pc z.pc hc.1) hc.2.1 hc.2.2⟩
    · cases hs; exact ⟨_, _, h⟩
  | free t b =>
    simp only [Smr.step] at hs
    split at hs
    · rename_i hc
      have hp := appl_pc z.pc hc
      have h1 := h.initEpoch hp
      obtain ⟨r, c, e, hr⟩ := initEpoch_fields s t
      unfold safeFree at hs
      simp only at hs
      rw [e] at h1 hs
      split at hs
      · rename_i hb
        cases hs
        exact ⟨_, _, h1.free hb (by simpa using appl_wait z.pc hc)⟩
      · cases hs
      · cases hs; exact ⟨_, _, h1⟩
    · cases hs; exact ⟨_, _, h⟩
  | old t b =>
    simp only [Smr.step] at hs
    split at hs
    · rename_i hc
      cases hs
      have hd : (s.th t).pc ≠ .dead := by rw [hc.2.2.1]; simp
      split
      · exact ⟨_, _, h.setPc hd (by simp) (fun e _ => h.opens _)⟩
      · exact ⟨_, _, h.setPc hd (by simp) trivial⟩
    · cases hs; exact ⟨_, _, h⟩
  | maint t m =>
    simp only [Smr.step] at hs
    split at hs
    · rename_i hc
      cases hs
      have hd : (s.th t).pc ≠ .dead := by rw [hc.2.2.1]; simp
      exact ⟨_, _, h.setPc hd (by simp) trivial⟩
    · cases hs; exact ⟨_, _, h⟩
  | fini t =>
    simp only [Smr.step] at hs
    split at hs
    · rename_i hc
      have hd : (s.th t).pc ≠ .dead := by rw [hc.2.2.1]; simp
      exact ⟨_, _, h.finiStart hd hs⟩
    · cases hs; exact ⟨_, _, h⟩
  | go t a sel => exact h.goOn hs
  | gc n => exact h.gcStep z.pc hs

end Mtev.Smr
