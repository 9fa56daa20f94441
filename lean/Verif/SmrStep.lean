import Verif.SmrInv

/-! The invariants of safe memory reclamation hold after every step. -/

namespace Mtev.Smr

variable {loc : Nat → Loc} {pos : Nat → Pos} {s : St} {t : Nat}

theorem Inv.acq (h : Inv loc pos s) {b : Nat} (hp : (s.th t).pc ≠ .dead)
    (hd : 0 < (s.th t).deep (s.th t).ctx) (hb : s.mem b = .live) :
    Inv loc pos (s.setT t { s.th t with
      hold := Function.update (s.th t).hold (s.th t).ctx (b :: (s.th t).hold (s.th t).ctx) }) := by
  generalize hx : ({ s.th t with
      hold := Function.update (s.th t).hold (s.th t).ctx (b :: (s.th t).hold (s.th t).ctx) } : Th) = x
  have ht := h.secs.thr t
  have hvm : ∀ b' snap, s.mem b' ≠ .live → covers (view s) b' snap → covers (view (s.setT t x)) b' snap := by
    intro b' snap hb' hc u k hm
    have hne : b' ≠ b := by rintro rfl; exact hb' hb
    have he : b' ∈ (view s u k).1 ∧ (view (s.setT t x) u k).2 = (view s u k).2 := by
      simp only [view, St.setT] at hm ⊢
      by_cases hu : u = t
      · subst hu
        rw [upd_same] at hm ⊢
        subst hx
        by_cases hk : k = (s.th u).ctx
        · subst hk; simp [hne] at hm; exact ⟨hm, rfl⟩
        · simp only [upd_other _ _ _ hk] at hm; exact ⟨hm, rfl⟩
      · rw [upd_other _ _ _ hu] at hm ⊢; exact ⟨hm, rfl⟩
    obtain ⟨q, hq, hq'⟩ := hc u k he.1
    exact ⟨q, by rw [he.2]; exact hq, hq'⟩
  refine h.sect rfl (h.secs.setT rfl rfl rfl ?_ (by intro k; subst hx; rfl)) ?_ rfl rfl (fun _ => rfl) rfl rfl hvm
  · subst hx
    refine ⟨ht.reg, ht.unreg, ht.stk, ht.deep, ht.small, ht.opened, ht.lt, ?_⟩
    intro k hk
    refine ⟨?_, hp⟩
    by_cases hk' : k = (s.th t).ctx
    · subst hk'; rw [ht.deep] at hd; exact hd
    · simp only [upd_other _ _ _ hk'] at hk; exact (ht.hold k hk).1
  · have := (h.thr t).frame (loc' := loc) (pos' := pos) (ars' := s.ars) (fun _ _ => rfl) (fun _ _ ha => ⟨rfl, ha⟩)
      (fun b snap hl => hvm b snap (by rw [h.mem b hl]; simp))
    subst hx
    exact ⟨this.pend, this.pendN, this.pc⟩

theorem Inv.resume (h : Inv loc pos s) {k : Nat} (hr : (s.th t).reg = true) :
    Inv loc pos (s.setT t { s.th t with sec := some k, ctx := k, stack := ((s.th t).sec, (s.th t).ctx) :: (s.th t).stack }) := by
  have ht := h.secs.thr t
  refine h.sect rfl (h.secs.setT rfl rfl rfl ?_ (fun _ => rfl)) ?_ rfl rfl (fun _ => rfl) rfl rfl
    (fun _ _ _ hc => covers_of_eq (view_upd (t := t) rfl (by rfl) (by intro; rfl)) hc)
  · refine ⟨fun _ => rfl, fun hh => by simp [hr] at hh, ?_, ht.deep, ht.small, ht.opened, ht.lt, ht.hold⟩
    intro p hp
    rcases List.mem_cons.1 hp with rfl | hp
    · exact ht.reg hr
    · exact ht.stk p hp
  · rw [view_upd (s := s) (t := t) rfl (by rfl) (by intro; rfl)]; exact ⟨(h.thr t).pend, (h.thr t).pendN, (h.thr t).pc⟩

theorem Inv.yield (h : Inv loc pos s) {p : Option Nat} {c : Nat} {r : List (Option Nat × Nat)}
    (he : (s.th t).stack = (p, c) :: r) (hd : (s.th t).pc ≠ .dead) :
    Inv loc pos (s.setT t { s.th t with sec := p, ctx := c, stack := r }) := by
  have ht := h.secs.thr t
  refine h.sect rfl (h.secs.setT rfl rfl rfl ?_ (fun _ => rfl)) ?_ rfl rfl (fun _ => rfl) rfl rfl
    (fun _ _ _ hc => covers_of_eq (view_upd (t := t) rfl (by rfl) (by intro; rfl)) hc)
  · refine ⟨fun _ => ht.stk (p, c) (by rw [he]; simp), ?_, fun x hx => ht.stk x (by rw [he]; exact List.mem_cons_of_mem _ hx),
      ht.deep, ht.small, ht.opened, ht.lt, ht.hold⟩
    intro hr
    have := (ht.unreg hr hd).2
    rw [he] at this; cases this
  · rw [view_upd (s := s) (t := t) rfl (by rfl) (by intro; rfl)]; exact ⟨(h.thr t).pend, (h.thr t).pendN, (h.thr t).pc⟩

/-- The memory of a block nobody has listed. -/
theorem Inv.setMem (h : Inv loc pos s) {b : Nat} {m : Mem} {l : List Nat} (hb : ¬ (loc b).listed)
    (hc : m = .freed → covers (view s) b []) :
    Inv loc pos { s with mem := Function.update s.mem b m, log := l } := by
  refine ⟨h.secs.eq rfl rfl rfl, h.thr, h.ars, h.gcq, h.set, h.outN, h.queue, h.queueN, h.gc, ?_, ?_⟩
  · intro b' hl
    have hne : b' ≠ b := by rintro rfl; exact hb hl
    simp only [upd_other _ _ _ hne]
    exact h.mem b' hl
  · intro b' hf
    by_cases hne : b' = b
    · subst hne; simp only [upd_same] at hf; exact hc hf
    · simp only [upd_other _ _ _ hne] at hf
      exact h.freed b' hf

/-- Everybody who holds a block is in an open section. -/
theorem Inv.opens (h : Inv loc pos s) (b : Nat) : covers (view s) b (s.opens.map (·.1)) := by
  intro u k hb
  have ht := h.secs.thr u
  obtain ⟨h1, h2⟩ := ht.hold k (by intro hh; simp only [view, hh] at hb; cases hb)
  obtain ⟨q, hq, ho⟩ := ht.opened k h1
  exact ⟨q, hq, List.mem_map.2 ⟨(q, u), ho h2, rfl⟩⟩

theorem Inv.quiet (h : Inv loc pos s) {b : Nat} {snap : List Nat} (hq : quiet s snap = true)
    (hc : covers (view s) b snap) : covers (view s) b [] := by
  intro u k hb
  exfalso
  have ht := h.secs.thr u
  obtain ⟨h1, h2⟩ := ht.hold k (by intro hh; simp only [view, hh] at hb; cases hb)
  obtain ⟨q, hq1, ho⟩ := ht.opened k h1
  obtain ⟨q', hq', hm⟩ := hc u k hb
  simp only [view, hq1, Option.some.injEq] at hq'
  subst hq'
  unfold Smr.quiet at hq
  rw [List.all_eq_true] at hq
  have := hq q hm
  simp only [Bool.not_eq_true', List.any_eq_false, beq_iff_eq] at this
  exact this (q, u) (ho h2) rfl

theorem not_listed_of_mem (h : Inv loc pos s) {b : Nat} (hb : s.mem b ≠ .retired) : ¬ (loc b).listed :=
  fun hl => hb (h.mem b hl)

/-- Blocks change their places; the rest stays. -/
theorem Inv.reloc (h : Inv loc pos s) {loc' : Nat → Loc} {x : Th} (hth : Same (s.th t) x)
    (hd : (x.pc ≠ .dead → (s.th t).pc ≠ .dead) ∧ ((s.th t).pc ≠ .dead → x.pc ≠ .dead))
    (hT : T loc' pos s.ars (view s) t x)
    (hl : ∀ b, loc' b = loc b ∨ (∃ u, u = t ∧ loc b = .pend u) ∨ (∃ u, u = t ∧ loc b = .disp u))
    (hm : ∀ b, (loc' b).listed → (loc b).listed) :
    Inv loc' pos (s.setT t x) := by
  have hv : view (s.setT t x) = view s := view_upd rfl hth.hold (by intro k; rw [hth.secs])
  refine ⟨h.secs.same rfl rfl rfl hth hd, thr_upd h rfl (by rw [hv]; exact hT) ?_
    (fun _ _ _ _ ha => ⟨rfl, ha⟩) (fun _ _ _ hc => by rw [hv]; exact hc), ?_, h.gcq, h.set, h.outN, h.queue,
    h.queueN, by rw [hv]; exact h.gc, fun b hb => h.mem b (hm b hb), by rw [hv]; exact h.freed⟩
  · intro b u hu hb
    rcases hl b with e | ⟨w, rfl, e⟩ | ⟨w, rfl, e⟩
    · exact e
    · rw [e] at hb; rcases hb with hb | hb <;> cases hb; exact absurd rfl hu
    · rw [e] at hb; rcases hb with hb | hb <;> cases hb; exact absurd rfl hu
  · rw [hv]; intro a y ha
    have := h.ars a y ha
    refine ⟨this.nodup, fun b hb => ?_, this.clear⟩
    have hb' := this.loc b hb
    rcases hl b with e | ⟨w, rfl, e⟩ | ⟨w, rfl, e⟩
    · rw [e, hb']
    · rw [e] at hb'; cases hb'
    · rw [e] at hb'; cases hb'

open Classical in
/-- Some of the pending entries of a thread are to be dispatched. -/
theorem Inv.toDisp (h : Inv loc pos s) {pend' : List (Nat × List Nat)} {l : List Nat} {k : K}
    (hd : (s.th t).pc ≠ .dead) (hl : l.Nodup)
    (hlb : ∀ b ∈ l, (∃ e ∈ (s.th t).pend, e.1 = b) ∧ covers (view s) b [])
    (hp : ∀ e ∈ pend', e ∈ (s.th t).pend ∧ e.1 ∉ l) (hpn : (pend'.map (·.1)).Nodup) :
    ∃ loc', Inv loc' pos (s.setT t { s.th t with pend := pend', pc := .disp l k }) := by
  refine ⟨fun b => if b ∈ l then .disp t else loc b, h.reloc ⟨rfl, rfl, rfl, rfl, rfl, rfl, rfl⟩
    ⟨fun _ => hd, fun _ => by simp⟩ ⟨?_, hpn, ?_, hl⟩ ?_ ?_⟩
  · intro e he
    obtain ⟨h1, h2⟩ := hp e he
    simp only [h2, if_false]
    exact (h.thr t).pend e h1
  · intro b hb
    simp only [hb, if_true]
    exact ⟨trivial, (hlb b hb).2⟩
  · intro b
    by_cases hb : b ∈ l
    · obtain ⟨⟨e, he, hb'⟩, _⟩ := hlb b hb
      subst hb'
      exact .inr (.inl ⟨t, rfl, ((h.thr t).pend e he).1⟩)
    · simp [hb]
  · intro b
    by_cases hb : b ∈ l
    · obtain ⟨⟨e, he, hb'⟩, _⟩ := hlb b hb
      subst hb'
      intro _; rw [((h.thr t).pend e he).1]; trivial
    · simp [hb]

theorem Inv.free (h : Inv loc pos s) {b : Nat} {n : Nat} (hb : s.mem b = .live)
    (hpc : ∀ snap k, (s.th t).pc ≠ .wait snap k) :
    Inv (Function.update loc b (.pend t)) pos
      { s.setT t { s.th t with needs := n, pend := (s.th t).pend ++ [(b, s.opens.map (·.1))] } with
        mem := Function.update s.mem b .retired } := by
  have hnl : ¬ (loc b).listed := not_listed_of_mem h (by rw [hb]; simp)
  have hne : ∀ b', (loc b').listed → b' ≠ b := by rintro b' hl rfl; exact hnl hl
  generalize hx : ({ s.th t with needs := n, pend := (s.th t).pend ++ [(b, s.opens.map (·.1))] } : Th) = x
  have hv : view ({ s.setT t x with mem := Function.update s.mem b .retired } : St) = view s :=
    view_upd rfl (by subst hx; rfl) (by subst hx; intro _; rfl)
  have hpn : ∀ e ∈ (s.th t).pend, e.1 ≠ b := by
    intro e he; apply hne; rw [((h.thr t).pend e he).1]; trivial
  refine ⟨h.secs.same (t := t) (x := x) rfl rfl rfl (by subst hx; exact ⟨rfl, rfl, rfl, rfl, rfl, rfl, rfl⟩)
      (by subst hx; exact ⟨id, id⟩), thr_upd h (t := t) (x := x) rfl ?_ ?_ (fun _ _ _ _ ha => ⟨rfl, ha⟩)
      (fun _ _ _ hc => by rw [hv]; exact hc), ?_, h.gcq, h.set, h.outN, h.queue, h.queueN, by rw [hv]; exact h.gc, ?_, ?_⟩
  · rw [hv]
    subst hx
    refine ⟨?_, ?_, ?_⟩
    · intro e he
      rcases List.mem_append.1 he with he | he
      · simp only [upd_other _ _ _ (hpn e he)]; exact (h.thr t).pend e he
      · simp only [List.mem_singleton] at he
        subst he
        exact ⟨by simp, h.opens b⟩
    · simp only [List.map_append, List.map_cons, List.map_nil]
      rw [List.nodup_append]
      refine ⟨(h.thr t).pendN, by simp, ?_⟩
      intro c hc d hd'
      simp only [List.mem_singleton] at hd'
      subst hd'
      obtain ⟨e, he, rfl⟩ := List.mem_map.1 hc
      exact hpn e he
    · have := (h.thr t).pc
      cases hp : (s.th t).pc with
      | wait snap k => exact absurd hp (hpc snap k)
      | disp l k =>
        rw [hp] at this
        refine ⟨fun b' hb' => ?_, this.2⟩
        have h1 := this.1 b' hb'
        rw [upd_other _ _ _ (hne b' (by rw [h1.1]; trivial))]
        exact h1
      | back m c k => rw [hp] at this; cases c <;> exact this
      | term c => rw [hp] at this; cases c <;> exact this
      | _ => rw [hp] at this; exact this
  · intro b' u hu hl
    exact upd_other _ _ _ (hne b' (by rcases hl with hl | hl <;> (rw [hl]; trivial)))
  · rw [hv]; intro a y ha
    have := h.ars a y ha
    refine ⟨this.nodup, fun b' hb' => ?_, this.clear⟩
    rw [upd_other _ _ _ (hne b' (by rw [this.loc b' hb']; trivial))]
    exact this.loc b' hb'
  · intro b' hl
    by_cases hbb : b' = b
    · subst hbb; simp
    · simp only [upd_other _ _ _ hbb] at hl ⊢; exact h.mem b' hl
  · intro b' hf
    rw [hv]
    by_cases hbb : b' = b
    · subst hbb; simp at hf
    · simp only [upd_other _ _ _ hbb] at hf; exact h.freed b' hf

/-- Dispatch the next entry. -/
theorem Inv.dispatch (h : Inv loc pos s) {b : Nat} {r : List Nat} {k : K} {s' : St}
    (hpc : (s.th t).pc = .disp (b :: r) k) (hs : realFree (s.setPc t (.disp r k)) b = .ok s') :
    Inv (Function.update loc b .gone) pos s' := by
  have ht := (h.thr t).pc
  rw [hpc] at ht
  obtain ⟨h1, h2⟩ := ht
  have hb := h1 b (by simp)
  have hbr : b ∉ r := (List.nodup_cons.1 h2).1
  have hne : ∀ b' l, loc b' = l → (∀ u, l ≠ .disp u) → b' ≠ b := by
    rintro b' l h3 h4 rfl
    rw [hb.1] at h3
    exact h4 t h3.symm
  have hg : Inv (Function.update loc b .gone) pos (s.setPc t (.disp r k)) := by
    refine h.reloc ⟨rfl, rfl, rfl, rfl, rfl, rfl, rfl⟩ ⟨fun _ => by rw [hpc]; simp, fun _ => by simp⟩ ⟨?_, (h.thr t).pendN, ?_, (List.nodup_cons.1 h2).2⟩ ?_ ?_
    · intro e he
      have := (h.thr t).pend e he
      rw [upd_other _ _ _ (hne _ _ this.1 (by simp))]
      exact this
    · intro b' hb'
      rw [upd_other _ _ _ (by rintro rfl; exact hbr hb')]
      exact h1 b' (List.mem_cons_of_mem _ hb')
    · intro b'
      by_cases hbb : b' = b
      · subst hbb; exact .inr (.inr ⟨t, rfl, hb.1⟩)
      · exact .inl (upd_other _ _ _ hbb)
    · intro b'
      by_cases hbb : b' = b
      · subst hbb; simp [Loc.listed]
      · rw [upd_other _ _ _ hbb]; exact id
  unfold realFree at hs
  split at hs
  · cases hs
    refine hg.setMem (by simp [Loc.listed]) (fun _ => ?_)
    have hv : view (s.setPc t (.disp r k)) = view s := view_upd rfl rfl (fun _ => rfl)
    rw [hv]; exact hb.2
  · cases hs
  · cases hs

/-- `mtev_gc_sync_complete` dispatches an entry. -/
theorem Inv.completeB (h : Inv loc pos s) {a : Nat} {s' : St} (hc : (pos a).clear)
    (hs : complete s a = .ok (s', false)) : ∃ loc', Inv loc' pos s' := by
  unfold complete at hs
  split at hs
  · cases hs
  · rename_i x hx
    split at hs
    · cases hs
    · rename_i b r hbl
      have hA := h.ars a x hx
      have hbm : b ∈ x.blks := by rw [hbl]; simp
      have hb := hA.loc b hbm
      have hcb := hA.clear hc b hbm
      have hn := hA.nodup
      rw [hbl] at hn
      have hbr : b ∉ r := (List.nodup_cons.1 hn).1
      have hne : ∀ b' l, loc b' = l → l ≠ .ar a → b' ≠ b := by
        rintro b' l h3 h4 rfl
        rw [hb] at h3
        exact h4 h3.symm
      have hars : ∀ a', s.ars a' ≠ none → Function.update s.ars a (some { x with blks := r }) a' ≠ none := by
        intro a' ha'
        by_cases haa : a' = a
        · subst haa; simp
        · rw [upd_other _ _ _ haa]; exact ha'
      have hg : Inv (Function.update loc b .gone) pos { s with ars := Function.update s.ars a (some { x with blks := r }) } := by
        refine ⟨h.secs.eq rfl rfl rfl, ?_, ?_, fun a' ha' => ⟨(h.gcq a' ha').1, hars a' (h.gcq a' ha').2⟩,
          fun a' ha' => ⟨(h.set a' ha').1, hars a' (h.set a' ha').2⟩, h.outN,
          fun o a' ha' => ⟨(h.queue o a' ha').1, hars a' (h.queue o a' ha').2⟩, h.queueN, ?_, ?_, h.freed⟩
        · intro u
          refine (h.thr u).frame ?_ (fun a' _ ha' => ⟨rfl, hars a' ha'⟩) (fun _ _ _ hc => hc)
          intro b' hb'
          apply upd_other
          rcases hb' with hb' | hb' <;> exact hne b' _ hb' (by simp)
        · intro a' y hy
          by_cases haa : a' = a
          · subst haa
            simp only [upd_same, Option.some.injEq] at hy
            subst hy
            refine ⟨(List.nodup_cons.1 hn).2, fun b' hb' => ?_, fun hc b' hb' => hA.clear hc b' (by rw [hbl]; exact List.mem_cons_of_mem _ hb')⟩
            rw [upd_other _ _ _ (by rintro rfl; exact hbr hb')]
            exact hA.loc b' (by rw [hbl]; exact List.mem_cons_of_mem _ hb')
          · simp only [upd_other _ _ _ haa] at hy
            have := h.ars a' y hy
            refine ⟨this.nodup, fun b' hb' => ?_, this.clear⟩
            rw [upd_other _ _ _ (hne b' _ (this.loc b' hb') (by simp [haa]))]
            exact this.loc b' hb'
        · have hg := h.gc
          show GcOk pos _ (view s) s.gc
          cases hx' : s.gc with
          | sync set snap =>
            rw [hx'] at hg
            intro a' ha' y hy b' hb'
            by_cases haa : a' = a
            · subst haa
              simp only [upd_same, Option.some.injEq] at hy
              subst hy
              exact hg a' ha' x hx b' (by rw [hbl]; exact List.mem_cons_of_mem _ hb')
            · simp only [upd_other _ _ _ haa] at hy
              exact hg a' ha' y hy b' hb'
          | drain o c r' =>
            rw [hx'] at hg
            cases c with
            | none => trivial
            | some a' => exact ⟨hg.1, hars a' hg.2⟩
          | _ => trivial
        · intro b' hl
          by_cases hbb : b' = b
          · subst hbb; simp [Loc.listed] at hl
          · rw [upd_other _ _ _ hbb] at hl; exact h.mem b' hl
      unfold realFree at hs
      simp only at hs
      split at hs
      · simp only [Out.ok_bind, Out.ok.injEq, Prod.mk.injEq, and_true] at hs
        subst hs
        exact ⟨_, hg.setMem (by simp [Loc.listed]) (fun _ => hcb)⟩
      · cases hs
      · cases hs

/-- Lists change their places. -/
theorem Inv.move (h : Inv loc pos s) {pos' : Nat → Pos} {s' : St} {x : Th}
    (hth : s'.th = Function.update s.th t x) (ho : s'.opens = s.opens) (hn : s'.next = s.next) (hm : s'.mem = s.mem)
    (e : Same (s.th t) x) (hd : (x.pc ≠ .dead → (s.th t).pc ≠ .dead) ∧ ((s.th t).pc ≠ .dead → x.pc ≠ .dead))
    (hpend : x.pend = (s.th t).pend) (hpc : PcOk loc pos' s'.ars (view s) t x.pend x.pc)
    (hoth : ∀ a u, u ≠ t → pos a = .made u ∨ pos a = .cur u → s.ars a ≠ none → pos' a = pos a ∧ s'.ars a ≠ none)
    (hars : ∀ a y, s'.ars a = some y → s.ars a = some y ∧
      ((pos' a).clear → ¬ (pos a).clear → ∀ b ∈ y.blks, covers (view s) b []))
    (hgcq : ∀ a ∈ s'.gcq, pos' a = .out ∧ s'.ars a ≠ none)
    (hset : ∀ a ∈ gcSet s'.gc, pos' a = setPos s'.gc ∧ s'.ars a ≠ none)
    (houtN : (gcSet s'.gc ++ s'.gcq).Nodup)
    (hqueue : ∀ o, ∀ a ∈ (s'.grs o).queue, pos' a = .ret o ∧ s'.ars a ≠ none)
    (hqueueN : ∀ o, (s'.grs o).queue.Nodup)
    (hgc : GcOk pos' s'.ars (view s) s'.gc) : Inv loc pos' s' := by
  have hv : view s' = view s := view_upd hth e.hold (by intro k; rw [e.secs])
  refine ⟨h.secs.same hth ho hn e hd, thr_upd h hth ?_ (fun _ _ _ _ => rfl) hoth
    (fun _ _ _ hc => by rw [hv]; exact hc), ?_, hgcq, hset, houtN, hqueue, hqueueN, by rw [hv]; exact hgc, ?_, ?_⟩
  · rw [hv]
    exact ⟨by rw [hpend]; exact (h.thr t).pend, by rw [hpend]; exact (h.thr t).pendN, hpc⟩
  · rw [hv]; intro a y ha
    obtain ⟨h1, h2⟩ := hars a y ha
    have := h.ars a y h1
    refine ⟨this.nodup, this.loc, fun hc => ?_⟩
    by_cases hc' : (pos a).clear
    · exact this.clear hc'
    · exact h2 hc hc'
  · rw [hm]; exact h.mem
  · rw [hm, hv]; exact h.freed

theorem same_rfl (x : Th) : Same x x := ⟨rfl, rfl, rfl, rfl, rfl, rfl, rfl⟩

/-- The collector changed; the threads did not. -/
theorem Inv.moveG (h : Inv loc pos s) (h0 : (s.th 0).pc = .user) {pos' : Nat → Pos} {s' : St}
    (hth : s'.th = s.th) (ho : s'.opens = s.opens) (hn : s'.next = s.next) (hm : s'.mem = s.mem)
    (hoth : ∀ a u, pos a = .made u ∨ pos a = .cur u → s.ars a ≠ none → pos' a = pos a ∧ s'.ars a ≠ none)
    (hars : ∀ a y, s'.ars a = some y → s.ars a = some y ∧
      ((pos' a).clear → ¬ (pos a).clear → ∀ b ∈ y.blks, covers (view s) b []))
    (hgcq : ∀ a ∈ s'.gcq, pos' a = .out ∧ s'.ars a ≠ none)
    (hset : ∀ a ∈ gcSet s'.gc, pos' a = setPos s'.gc ∧ s'.ars a ≠ none)
    (houtN : (gcSet s'.gc ++ s'.gcq).Nodup)
    (hqueue : ∀ o, ∀ a ∈ (s'.grs o).queue, pos' a = .ret o ∧ s'.ars a ≠ none)
    (hqueueN : ∀ o, (s'.grs o).queue.Nodup)
    (hgc : GcOk pos' s'.ars (view s) s'.gc) : Inv loc pos' s' := by
  refine h.move (t := 0) (x := s.th 0) ?_ ho hn hm (same_rfl _) ⟨id, id⟩ rfl ?_ (fun a u _ => hoth a u)
    hars hgcq hset houtN hqueue hqueueN hgc
  · rw [hth, Function.update_eq_self]
  · rw [h0]; trivial

theorem Inv.setG (h : Inv loc pos s) {o : Nat} {g : Gr} (hq : g.queue = (s.grs o).queue) :
    Inv loc pos (s.setG o g) := by
  have hqq : ∀ u, ((s.setG o g).grs u).queue = (s.grs u).queue := by
    intro u
    by_cases hu : u = o
    · subst hu; simp [St.setG, hq]
    · simp [St.setG, hu]
  refine h.sect (t := 0) (x := s.th 0) (by simp [St.setG]) (h.secs.eq rfl rfl rfl) ?_ rfl rfl hqq rfl rfl (fun _ _ _ hc => hc)
  exact h.thr 0

theorem Inv.leave (h : Inv loc pos s) : Inv loc pos (leave s t) := by
  generalize hx : ({ s.th t with reg := false, ret := false, pc := .dead, pend := [], active := 0, hold := fun _ => [] } : Th) = x
  have hth : (Smr.leave s t).th = Function.update s.th t x := by subst hx; rfl
  have hvm : ∀ b snap, covers (view s) b snap → covers (view (Smr.leave s t)) b snap := by
    intro b snap
    apply covers_mono
    intro u k b hb
    simp only [view, hth] at hb ⊢
    by_cases hu : u = t
    · subst hu; rw [upd_same] at hb; subst hx; simp at hb
    · rw [upd_other _ _ _ hu] at hb ⊢; exact ⟨hb, rfl⟩
  have ht := h.secs.thr t
  have hq' : ∀ u k, (((Smr.leave s t).th u).secs k).q = ((s.th u).secs k).q := by
    intro u k
    rw [hth]
    by_cases hu : u = t
    · subst hu; rw [upd_same]; subst hx; rfl
    · rw [upd_other _ _ _ hu]
  refine h.sect hth ⟨?_, ?_⟩ ?_ rfl rfl (fun _ => rfl) rfl rfl (fun b snap _ => hvm b snap)
  · intro u
    rw [hth]
    by_cases hu : u = t
    · subst hu
      rw [upd_same]
      subst hx
      refine ⟨fun hh => by simp at hh, fun _ hh => by simp at hh, ht.stk, ht.deep, ht.small, ?_, ht.lt, fun k hk => by simp at hk⟩
      intro k hk
      obtain ⟨q, hq, _⟩ := ht.opened k hk
      exact ⟨q, hq, fun hh => by simp at hh⟩
    · rw [upd_other _ _ _ hu]
      refine (h.secs.thr u).more (fun q _ ho => ?_) (Nat.le_refl _)
      exact List.mem_filter.2 ⟨ho, by simp [hu]⟩
  · intro u k u' k' q a b
    rw [hq'] at a b
    exact h.secs.inj _ _ _ _ _ a b
  · subst hx
    exact ⟨fun e he => by simp at he, by simp, trivial⟩

theorem Inv.finish (h : Inv loc pos s) (hd : (s.th t).pc ≠ .dead) (k : K) : Inv loc pos (finish s t k) := by
  cases k <;> simp only [Smr.finish]
  · exact h.setPc hd (by simp) trivial
  · split
    · exact h.setPc hd (by simp) trivial
    · exact h.setPc hd (by simp) trivial
  · exact h.setPc hd (by simp) trivial
  · exact h.leave
  · split
    · exact h.setPc hd (by simp) trivial
    · exact h.leave

theorem Inv.decideOn (h : Inv loc pos s) (hd : (s.th t).pc ≠ .dead) (m : Meth) (k : K) :
    Inv loc pos (decideOn s t m k) := by
  unfold Smr.decideOn
  simp only
  generalize (if s.asynch = false ∧ m = .asynch then Meth.barrier else m) = m
  split
  · exact h.finish hd k
  split
  · exact h.finish hd k
  split
  · exact h.finish hd k
  have h1 := h.setNeeds t ((s.th t).needs + 1)
  have hd1 : ((s.setT t { s.th t with needs := (s.th t).needs + 1 }).th t).pc ≠ .dead := by simpa using hd
  cases m
  · exact h1.setPc hd1 (by simp) (fun e _ => h1.opens e.1)
  · exact h1.setPc hd1 (by simp) trivial
  · exact h1.setPc hd1 (by simp) trivial
  · exact h1.finish hd1 k

/-- A thread takes a list from its return queue. -/
theorem Inv.take (h : Inv loc pos s) {c : Nat} {r : List Nat} {p : Pc} (hd : (s.th t).pc ≠ .dead)
    (hq : (s.grs t).queue = c :: r) (hp : (∃ m k, p = .back m (some c) k) ∨ p = .term (some c)) :
    ∃ pos', Inv loc pos' ((s.setG t { s.grs t with queue := r }).setPc t p) := by
  have hc := h.queue t c (by rw [hq]; simp)
  have hn := h.queueN t
  rw [hq] at hn
  have hne : ∀ a p, pos a = p → p ≠ .ret t → a ≠ c := by
    rintro a p h1 h2 rfl
    rw [hc.1] at h1
    exact h2 h1.symm
  have hpd : p ≠ .dead := by rcases hp with ⟨m, k, rfl⟩ | rfl <;> simp
  refine ⟨Function.update pos c (.cur t), h.move (t := t) (x := { s.th t with pc := p }) rfl rfl rfl rfl ⟨rfl, rfl, rfl, rfl, rfl, rfl, rfl⟩
    ⟨fun _ => hd, fun _ => hpd⟩ rfl ?_ ?_ ?_ ?_ ?_ h.outN ?_ ?_ ?_⟩
  · rcases hp with ⟨m, k, rfl⟩ | rfl <;> exact ⟨by simp, hc.2⟩
  · intro a u hu h1 h2
    refine ⟨upd_other _ _ _ ?_, h2⟩
    rcases h1 with h1 | h1 <;> exact hne _ _ h1 (by simp)
  · intro a y ha
    refine ⟨ha, fun _ h2 => ?_⟩
    exfalso
    by_cases hac : a = c
    · subst hac; exact h2 (by rw [hc.1]; trivial)
    · rename_i h1; rw [upd_other _ _ _ hac] at h1; exact h2 h1
  · intro a ha
    have := h.gcq a ha
    exact ⟨by rw [upd_other _ _ _ (hne _ _ this.1 (by simp))]; exact this.1, this.2⟩
  · intro a ha
    have := h.set a ha
    refine ⟨?_, this.2⟩
    rw [upd_other _ _ _ (hne _ _ this.1 (by unfold setPos; split <;> simp))]; exact this.1
  · intro o a ha
    by_cases ho : o = t
    · subst ho
      simp only [St.setPc, St.setG, St.setT, upd_same] at ha
      have h1 := h.queue o a (by rw [hq]; exact List.mem_cons_of_mem _ ha)
      have : a ≠ c := by rintro rfl; exact (List.nodup_cons.1 hn).1 ha
      exact ⟨by rw [upd_other _ _ _ this]; exact h1.1, h1.2⟩
    · simp only [St.setPc, St.setG, St.setT, upd_other _ _ _ ho] at ha
      have h1 := h.queue o a ha
      exact ⟨by rw [upd_other _ _ _ (hne _ _ h1.1 (by simp [ho]))]; exact h1.1, h1.2⟩
  · intro o
    by_cases ho : o = t
    · subst ho; simp only [St.setPc, St.setG, St.setT, upd_same]; exact (List.nodup_cons.1 hn).2
    · simp only [St.setPc, St.setG, St.setT, upd_other _ _ _ ho]; exact h.queueN o
  · have := h.gc
    show GcOk _ s.ars (view s) s.gc
    cases hg : s.gc with
    | sync set snap => rw [hg] at this; exact this
    | drain o c' r' =>
      rw [hg] at this
      cases c' with
      | none => trivial
      | some a => exact ⟨by rw [upd_other _ _ _ (hne _ _ this.1 (by simp))]; exact this.1, this.2⟩
    | _ => trivial

/-- A thread has completed a list. -/
theorem Inv.done (h : Inv loc pos s) {c : Nat} {p : Pc} (hd : (s.th t).pc ≠ .dead) (hc : pos c = .cur t)
    (hp : (∃ m k, p = .back m none k) ∨ p = .term none) :
    Inv loc pos (St.setPc { s with ars := Function.update s.ars c none } t p) := by
  have hpd : p ≠ .dead := by rcases hp with ⟨m, k, rfl⟩ | rfl <;> simp
  have hne : ∀ a p, pos a = p → p ≠ .cur t → a ≠ c := by
    rintro a p h1 h2 rfl
    rw [hc] at h1
    exact h2 h1.symm
  have hk : ∀ a p, pos a = p → p ≠ .cur t → s.ars a ≠ none → Function.update s.ars c none a ≠ none := by
    intro a p h1 h2 h3
    rw [upd_other _ _ _ (hne a p h1 h2)]; exact h3
  refine h.move (t := t) (x := { s.th t with pc := p }) rfl rfl rfl rfl ⟨rfl, rfl, rfl, rfl, rfl, rfl, rfl⟩
    ⟨fun _ => hd, fun _ => hpd⟩ rfl ?_ ?_ ?_ ?_ ?_ h.outN ?_ h.queueN ?_
  · rcases hp with ⟨m, k, rfl⟩ | rfl <;> trivial
  · intro a u hu h1 h2
    refine ⟨rfl, ?_⟩
    rcases h1 with h1 | h1 <;> exact hk a _ h1 (by simp [hu]) h2
  · intro a y ha
    refine ⟨?_, fun h1 h2 => absurd h1 h2⟩
    simp only [St.setPc, St.setT, Function.update_apply] at ha
    split at ha
    · cases ha
    · exact ha
  · intro a ha; exact ⟨(h.gcq a ha).1, hk a _ (h.gcq a ha).1 (by simp) (h.gcq a ha).2⟩
  · intro a ha; exact ⟨(h.set a ha).1, hk a _ (h.set a ha).1 (by unfold setPos; split <;> simp) (h.set a ha).2⟩
  · intro o a ha; exact ⟨(h.queue o a ha).1, hk a _ (h.queue o a ha).1 (by simp) (h.queue o a ha).2⟩
  · have := h.gc
    show GcOk _ _ (view s) s.gc
    cases hg : s.gc with
    | sync set snap =>
      rw [hg] at this
      intro a ha y hy
      simp only [St.setPc, St.setT, Function.update_apply] at hy
      split at hy
      · cases hy
      · exact this a ha y hy
    | drain o c' r' =>
      rw [hg] at this
      cases c' with
      | none => trivial
      | some a => exact ⟨this.1, hk a _ this.1 (by simp) this.2⟩
    | _ => trivial

open Classical in
/-- `mtev_memory_queue_asynch` fills a list. -/
theorem Inv.fill (h : Inv loc pos s) {a : Nat} {f : Bool} {k : K} {us : List Nat} (hd : (s.th t).pc ≠ .dead)
    (ha : s.ars a = none) :
    ∃ loc' pos', Inv loc' pos' { (s.setT t { s.th t with pend := [] }).setPc t (.made a f k) with
      ars := Function.update s.ars a (some ⟨t, (s.th t).pend.map (·.1)⟩), used := us } := by
  generalize hl : (s.th t).pend.map (·.1) = l
  have hll : ∀ b ∈ l, loc b = .pend t := by
    intro b hb
    rw [← hl] at hb
    obtain ⟨e, he, rfl⟩ := List.mem_map.1 hb
    exact ((h.thr t).pend e he).1
  have hnl : ∀ b lo, loc b = lo → lo ≠ .pend t → b ∉ l := by
    intro b lo h1 h2 h3
    rw [hll b h3] at h1
    exact h2 h1.symm
  have hna : ∀ a', s.ars a' ≠ none → a' ≠ a := by rintro a' h1 rfl; exact h1 ha
  have hk : ∀ a', s.ars a' ≠ none → Function.update s.ars a (some (⟨t, l⟩ : Ar)) a' ≠ none := by
    intro a' h1; rw [upd_other _ _ _ (hna a' h1)]; exact h1
  generalize hs' : ({ (s.setT t { s.th t with pend := [] }).setPc t (.made a f k) with
      ars := Function.update s.ars a (some ⟨t, l⟩), used := us } : St) = s'
  have hth : s'.th = Function.update s.th t { s.th t with pend := [], pc := .made a f k } := by
    subst hs'; simp [St.setPc, St.setT]
  have hv : view s' = view s := view_upd hth rfl (by intro; rfl)
  have ear : s'.ars = Function.update s.ars a (some ⟨t, l⟩) := by subst hs'; rfl
  have egq : s'.gcq = s.gcq := by subst hs'; rfl
  have egc : s'.gc = s.gc := by subst hs'; rfl
  have egr : s'.grs = s.grs := by subst hs'; rfl
  have eme : s'.mem = s.mem := by subst hs'; rfl
  refine ⟨fun b => if b ∈ l then .ar a else loc b, Function.update pos a (.made t),
    h.secs.same hth (by subst hs'; rfl) (by subst hs'; rfl) ⟨rfl, rfl, rfl, rfl, rfl, rfl, rfl⟩ ⟨fun _ => hd, fun _ => by simp⟩,
    thr_upd h hth ?_ ?_ ?_ ?_, ?_, ?_, ?_, ?_, ?_, ?_, ?_, ?_, ?_⟩
  · rw [ear]
    exact ⟨fun e he => by simp at he, by simp, by simp [PcOk]⟩
  · intro b u hu hb
    have : b ∉ l := by rcases hb with hb | hb <;> exact hnl b _ hb (by simp [hu])
    simp [this]
  · intro a' u hu _ h2
    rw [ear]
    exact ⟨upd_other _ _ _ (hna a' h2), hk a' h2⟩
  · intro b snap _ hc; rw [hv]; exact hc
  · rw [hv, ear]
    intro a' y hy
    by_cases haa : a' = a
    · subst haa
      simp only [upd_same, Option.some.injEq] at hy
      subst hy
      refine ⟨by rw [← hl]; exact (h.thr t).pendN, fun b hb => by simp only at hb; simp [hb], fun hc => by simp [Pos.clear] at hc⟩
    · simp only [upd_other _ _ _ haa] at hy
      have := h.ars a' y hy
      refine ⟨this.nodup, fun b hb => ?_, fun hc => this.clear (by rw [upd_other _ _ _ haa] at hc; exact hc)⟩
      have hb' := this.loc b hb
      have : b ∉ l := hnl b _ hb' (by simp)
      simp [this, hb']
  · rw [egq, ear]; intro a' ha'
    have := h.gcq a' ha'
    exact ⟨by rw [upd_other _ _ _ (hna a' this.2)]; exact this.1, hk a' this.2⟩
  · rw [egc, ear]; intro a' ha'
    have := h.set a' ha'
    exact ⟨by rw [upd_other _ _ _ (hna a' this.2)]; exact this.1, hk a' this.2⟩
  · rw [egc, egq]; exact h.outN
  · rw [egr, ear]; intro o a' ha'
    have := h.queue o a' ha'
    exact ⟨by rw [upd_other _ _ _ (hna a' this.2)]; exact this.1, hk a' this.2⟩
  · rw [egr]; exact h.queueN
  · rw [egc, ear, hv]
    have := h.gc
    cases hg : s.gc with
    | sync set snap =>
      rw [hg] at this
      intro a' ha' y hy
      have h2 := (h.set a' (by rw [hg]; exact ha')).2
      rw [upd_other _ _ _ (hna a' h2)] at hy
      exact this a' ha' y hy
    | drain o c' r' =>
      rw [hg] at this
      cases c' with
      | none => trivial
      | some a' => exact ⟨by rw [upd_other _ _ _ (hna a' this.2)]; exact this.1, hk a' this.2⟩
    | _ => trivial
  · rw [eme]; intro b hb
    by_cases hbl : b ∈ l
    · exact h.mem b (by rw [hll b hbl]; trivial)
    · simp only [hbl, if_false] at hb; exact h.mem b hb
  · rw [eme, hv]; exact h.freed

/-- A thread hands a list to the collector. -/
theorem Inv.hand (h : Inv loc pos s) {c : Nat} {k : K} (hp : (s.th t).pc = .marked c k) :
    Inv loc (Function.update pos c .out) { s.setPc t (.queued k) with gcq := s.gcq ++ [c] } := by
  have hpc := (h.thr t).pc
  rw [hp] at hpc
  obtain ⟨hc, hca⟩ := hpc
  have hne : ∀ a p, pos a = p → p ≠ .made t → a ≠ c := by
    rintro a p h1 h2 rfl
    rw [hc] at h1
    exact h2 h1.symm
  refine h.move (t := t) (x := { s.th t with pc := .queued k }) rfl rfl rfl rfl ⟨rfl, rfl, rfl, rfl, rfl, rfl, rfl⟩
    ⟨fun _ => by rw [hp]; simp, fun _ => by simp⟩ rfl trivial ?_ ?_ ?_ ?_ ?_ ?_ h.queueN ?_
  · intro a u hu h1 h2
    refine ⟨upd_other _ _ _ ?_, h2⟩
    rcases h1 with h1 | h1 <;> exact hne _ _ h1 (by simp [hu])
  · intro a y ha
    refine ⟨ha, fun h1 h2 => ?_⟩
    exfalso
    by_cases hac : a = c
    · subst hac; simp [Pos.clear] at h1
    · rw [upd_other _ _ _ hac] at h1; exact h2 h1
  · intro a ha
    rcases List.mem_append.1 ha with ha | ha
    · have := h.gcq a ha
      exact ⟨by rw [upd_other _ _ _ (hne _ _ this.1 (by simp))]; exact this.1, this.2⟩
    · simp only [List.mem_singleton] at ha
      subst ha
      exact ⟨by simp, hca⟩
  · intro a ha
    have := h.set a ha
    refine ⟨?_, this.2⟩
    rw [upd_other _ _ _ (hne _ _ this.1 (by unfold setPos; split <;> simp))]; exact this.1
  · show (gcSet s.gc ++ (s.gcq ++ [c])).Nodup
    rw [← List.append_assoc, List.nodup_append]
    refine ⟨h.outN, by simp, ?_⟩
    intro a ha b hb
    simp only [List.mem_singleton] at hb
    subst hb
    rcases List.mem_append.1 ha with ha | ha
    · exact hne _ _ (h.set a ha).1 (by unfold setPos; split <;> simp)
    · exact hne _ _ (h.gcq a ha).1 (by simp)
  · intro o a ha
    have := h.queue o a ha
    exact ⟨by rw [upd_other _ _ _ (hne _ _ this.1 (by simp))]; exact this.1, this.2⟩
  · have := h.gc
    show GcOk _ s.ars (view s) s.gc
    cases hg : s.gc with
    | sync set snap => rw [hg] at this; exact this
    | drain o c' r' =>
      rw [hg] at this
      cases c' with
      | none => trivial
      | some a => exact ⟨by rw [upd_other _ _ _ (hne _ _ this.1 (by simp))]; exact this.1, this.2⟩
    | _ => trivial

end Mtev.Smr
