import Verif.SmrLive

/-! Where blocks waiting to be freed are listed, and what steps do to that. -/

namespace Mtev.Smr

variable {s s' : St} {t b : Nat}

def dispOf : Pc → List Nat
  | .disp l _ => l
  | _ => []

/-- Block `b` is pending at a thread, being dispatched by one, or in a list. -/
def Listed (s : St) (b : Nat) : Prop :=
  (∃ t, (∃ e ∈ (s.th t).pend, e.1 = b) ∨ b ∈ dispOf (s.th t).pc) ∨ ∃ a x, s.ars a = some x ∧ b ∈ x.blks

/-- A thread has ended. -/
def Ended (s : St) : Prop := ∃ t, (s.th t).pc = .dead

/-- What the steps other than allocation and `mtev_memory_safe_free` do. -/
structure Eff (s s' : St) : Prop where
  lst : ∀ b, Listed s' b → Listed s b
  mem : ∀ b, (s'.mem b = s.mem b ∧ (b ∈ s'.log ↔ b ∈ s.log)) ∨
    (Listed s b ∧ s.mem b = .retired ∧ s'.mem b = .freed ∧ b ∈ s'.log)
  nodup : s.log.Nodup → (∀ b ∈ s.log, s.mem b = .freed) → s'.log.Nodup
  kept : ∀ b, Listed s b → Listed s' b ∨ s'.mem b = .freed ∨ Ended s'
  ended : Ended s → Ended s'

theorem Eff.refl (s : St) : Eff s s :=
  ⟨fun _ h => h, fun _ => .inl ⟨rfl, Iff.rfl⟩, fun h _ => h, fun _ h => .inl h, id⟩

theorem Eff.trans {a b c : St} (h : Eff a b) (g : Eff b c) : Eff a c := by
  refine ⟨fun x hx => h.lst x (g.lst x hx), ?_, ?_, ?_, fun e => g.ended (h.ended e)⟩
  · intro x
    rcases g.mem x with ⟨g1, g2⟩ | ⟨g1, g2, g3, g4⟩
    · rcases h.mem x with ⟨h1, h2⟩ | ⟨h1, h2, h3, h4⟩
      · exact .inl ⟨g1.trans h1, g2.trans h2⟩
      · exact .inr ⟨h1, h2, g1.trans h3, g2.2 h4⟩
    · rcases h.mem x with ⟨h1, h2⟩ | ⟨h1, h2, h3, h4⟩
      · exact .inr ⟨h.lst x g1, h1 ▸ g2, g3, g4⟩
      · rw [h3] at g2; cases g2
  · intro h1 h2
    refine g.nodup (h.nodup h1 h2) ?_
    intro x hx
    rcases h.mem x with ⟨h3, h4⟩ | ⟨_, _, h5, _⟩
    · rw [h3]; exact h2 x (h4.1 hx)
    · exact h5
  · intro x hx
    rcases h.kept x hx with h1 | h1 | h1
    · exact g.kept x h1
    · rcases g.mem x with ⟨g1, _⟩ | ⟨_, g2, _, _⟩
      · exact .inr (.inl (g1.trans h1))
      · rw [h1] at g2; cases g2
    · exact .inr (.inr (g.ended h1))

/-- Nothing of interest changed. -/
theorem Eff.same (hm : s'.mem = s.mem) (hl : s'.log = s.log) (ha : s'.ars = s.ars)
    (hp : ∀ t, (s'.th t).pend = (s.th t).pend) (hd : ∀ t, dispOf (s'.th t).pc = dispOf (s.th t).pc)
    (he : ∀ t, (s.th t).pc = .dead → (s'.th t).pc = .dead) : Eff s s' := by
  have hL : ∀ b, Listed s' b ↔ Listed s b := by
    intro b; simp only [Listed, ha, hp, hd]
  exact ⟨fun b => (hL b).1, fun b => .inl ⟨by rw [hm], by rw [hl]⟩, fun h _ => by rw [hl]; exact h,
    fun b h => .inl ((hL b).2 h), fun ⟨t, h⟩ => ⟨t, he t h⟩⟩

theorem Eff.setT {x : Th} (hp : x.pend = (s.th t).pend) (hd : dispOf x.pc = dispOf (s.th t).pc)
    (he : (s.th t).pc ≠ .dead ∨ x.pc = .dead) : Eff s (s.setT t x) := by
  refine Eff.same rfl rfl rfl ?_ ?_ ?_
  · intro u; by_cases e : u = t
    · subst e; simpa [St.setT] using hp
    · simp [St.setT, e]
  · intro u; by_cases e : u = t
    · subst e; simpa [St.setT] using hd
    · simp [St.setT, e]
  · intro u hu; by_cases e : u = t
    · subst e
      rcases he with he | he
      · exact absurd hu he
      · simpa [St.setT] using he
    · simpa [St.setT, e] using hu

theorem Eff.setPc {p : Pc} (hd : dispOf p = dispOf (s.th t).pc) (he : (s.th t).pc ≠ .dead) : Eff s (s.setPc t p) :=
  .setT rfl hd (.inl he)

theorem Eff.setG (g : Gr) : Eff s (s.setG t g) := .same rfl rfl rfl (fun _ => rfl) (fun _ => rfl) (fun _ h => h)

theorem Eff.leave : Eff s (leave s t) := by
  have hE : Ended (Smr.leave s t) := ⟨t, by simp [Smr.leave, St.setT]⟩
  refine ⟨?_, fun b => .inl ⟨rfl, Iff.rfl⟩, fun h _ => h, fun b _ => .inr (.inr hE), fun _ => hE⟩
  rintro b (⟨u, h⟩ | ⟨a, x, h⟩)
  · by_cases e : u = t
    · subst e; simp [Smr.leave, St.setT, dispOf] at h
    · left
      refine ⟨u, ?_⟩
      simpa [Smr.leave, St.setT, e] using h
  · exact .inr ⟨a, x, h⟩

theorem Eff.finish (hd : dispOf (s.th t).pc = []) (he : (s.th t).pc ≠ .dead) (k : K) : Eff s (finish s t k) := by
  cases k <;> simp only [Smr.finish]
  · exact .setPc hd.symm he
  · split <;> exact .setPc hd.symm he
  · exact .setPc hd.symm he
  · exact .leave
  · split
    · exact .setPc hd.symm he
    · exact .leave

theorem Eff.decideOn (hd : dispOf (s.th t).pc = []) (he : (s.th t).pc ≠ .dead) (m : Meth) (k : K) :
    Eff s (decideOn s t m k) := by
  unfold Smr.decideOn
  simp only
  generalize (if s.asynch = false ∧ m = .asynch then Meth.barrier else m) = m
  split
  · exact .finish hd he k
  split
  · exact .finish hd he k
  split
  · exact .finish hd he k
  have h1 : Eff s (s.setT t { s.th t with needs := (s.th t).needs + 1 }) := .setT rfl rfl (.inl he)
  cases m
  · exact h1.trans (.setPc (by rw [setT_same]; exact hd.symm) (by simpa using he))
  · exact h1.trans (.setPc (by rw [setT_same]; exact hd.symm) (by simpa using he))
  · exact h1.trans (.setPc (by rw [setT_same]; exact hd.symm) (by simpa using he))
  · exact h1.trans (.finish (by simpa using hd) (by simpa using he) k)

/-- A block is freed. -/
theorem Eff.real {s1 : St} (hs : realFree s1 b = .ok s') (hm : s1.mem = s.mem) (hl : s1.log = s.log)
    (hb : Listed s b) (h1 : ∀ x, Listed s1 x → Listed s x) (h2 : ∀ x, x ≠ b → Listed s x → Listed s1 x)
    (h3 : Ended s → Ended s1) : Eff s s' := by
  unfold realFree at hs
  split at hs
  · rename_i hr
    cases hs
    rw [hm] at hr
    refine ⟨fun x hx => h1 x hx, ?_, ?_, ?_, h3⟩
    · intro x
      by_cases e : x = b
      · subst e
        exact .inr ⟨hb, hr, by simp, by simp⟩
      · exact .inl ⟨by simp [e, hm], by simp [e, hl]⟩
    · intro hn hf
      simp only [hl]
      rw [List.nodup_append]
      refine ⟨hn, by simp, ?_⟩
      rintro x hx y hy rfl
      simp only [List.mem_singleton] at hy
      subst hy
      rw [hf x hx] at hr; cases hr
    · intro x hx
      by_cases e : x = b
      · subst e; exact .inr (.inl (by simp))
      · exact .inl (h2 x e hx)
  · cases hs
  · cases hs

theorem Eff.complete {a : Nat} {d : Bool} (hs : complete s a = .ok (s', d)) : Eff s s' ∧ s'.th = s.th := by
  unfold Smr.complete at hs
  split at hs
  · cases hs
  · rename_i x hx
    split at hs
    · rename_i hb
      cases hs
      refine ⟨⟨?_, fun b => .inl ⟨rfl, Iff.rfl⟩, fun h _ => h, ?_, id⟩, rfl⟩
      · rintro b (h | ⟨a', y, h, hy⟩)
        · exact .inl h
        · simp only [Function.update_apply] at h
          split at h
          · cases h
          · exact .inr ⟨a', y, h, hy⟩
      · rintro b (h | ⟨a', y, h, hy⟩)
        · exact .inl (.inl h)
        · left; right
          by_cases e : a' = a
          · subst e; rw [hx] at h; cases h; rw [hb] at hy; cases hy
          · exact ⟨a', y, by simpa [e] using h, hy⟩
    · rename_i b r hb
      obtain ⟨s1, h1, h2⟩ := bind_ok hs
      cases h2
      refine ⟨?_, ?_⟩
      · refine Eff.real h1 rfl rfl (.inr ⟨a, x, hx, by rw [hb]; simp⟩) ?_ ?_ id
        · rintro c (h | ⟨a', y, h, hy⟩)
          · exact .inl h
          · simp only [Function.update_apply] at h
            split at h
            · rename_i e
              cases h
              exact .inr ⟨a', x, e ▸ hx, by rw [hb]; exact List.mem_cons_of_mem _ hy⟩
            · exact .inr ⟨a', y, h, hy⟩
        · rintro c hc (h | ⟨a', y, h, hy⟩)
          · exact .inl h
          · right
            by_cases e : a' = a
            · subst e
              rw [hx] at h; cases h
              rw [hb] at hy
              refine ⟨a', { x with blks := r }, by simp, ?_⟩
              rcases List.mem_cons.1 hy with e | e
              · exact absurd e hc
              · exact e
            · exact ⟨a', y, by simpa [e] using h, hy⟩
      · unfold realFree at h1
        split at h1
        · cases h1; rfl
        · cases h1
        · cases h1

/-- Pending entries begin to be dispatched. -/
theorem Eff.split {l : List Nat} {p : List (Nat × List Nat)} {k : K} (hd : dispOf (s.th t).pc = [])
    (he : (s.th t).pc ≠ .dead) (h : ∀ b, (∃ e ∈ (s.th t).pend, e.1 = b) ↔ (∃ e ∈ p, e.1 = b) ∨ b ∈ l) :
    Eff s ((s.setT t { s.th t with pend := p }).setPc t (.disp l k)) := by
  have hL : ∀ b, Listed ((s.setT t { s.th t with pend := p }).setPc t (.disp l k)) b ↔ Listed s b := by
    intro b
    unfold Listed
    refine or_congr ⟨?_, ?_⟩ Iff.rfl
    · rintro ⟨u, hu⟩
      by_cases e : u = t
      · subst e
        simp only [St.setPc, St.setT, upd_same, dispOf] at hu
        exact ⟨u, .inl ((h b).2 hu)⟩
      · exact ⟨u, by simpa [St.setPc, St.setT, e] using hu⟩
    · rintro ⟨u, hu⟩
      by_cases e : u = t
      · subst e
        rw [hd] at hu
        refine ⟨u, ?_⟩
        simp only [St.setPc, St.setT, upd_same, dispOf]
        rcases hu with hu | hu
        · exact (h b).1 hu
        · cases hu
      · exact ⟨u, by simpa [St.setPc, St.setT, e] using hu⟩
  refine ⟨fun b => (hL b).1, fun b => .inl ⟨rfl, Iff.rfl⟩, fun h _ => h, fun b hb => .inl ((hL b).2 hb), ?_⟩
  rintro ⟨u, hu⟩
  have e : u ≠ t := by rintro rfl; exact he hu
  exact ⟨u, by simpa [St.setPc, St.setT, e] using hu⟩

theorem goOn_eff {cfg : Conf} {a : Nat} {sel : List Nat} (hs : goOn cfg s t a sel = .ok s') : Eff s s' := by
  unfold goOn at hs
  simp only at hs
  split at hs
  · cases hs; exact .refl s
  · cases hs; exact .refl s
  · rename_i m k hp
    split at hs
    · cases hs
    · split at hs
      · cases hs; exact .decideOn (by rw [hp]; rfl) (by rw [hp]; simp) m k
      · cases hs; exact (Eff.setG _).trans (.setPc (by show _ = dispOf (s.th t).pc; rw [hp]; rfl) (by show (s.th t).pc ≠ _; rw [hp]; simp))
  · rename_i m c k hp
    obtain ⟨⟨s1, d⟩, h1, h2⟩ := bind_ok hs
    cases h2
    obtain ⟨h3, h4⟩ := Eff.complete h1
    cases d
    · exact h3
    · exact h3.trans (.setPc (by rw [h4, hp]; rfl) (by rw [h4, hp]; simp))
  · rename_i snap k hp
    split at hs
    · cases hs
      exact .split (by rw [hp]; rfl) (by rw [hp]; simp) (by intro b; simp)
    · cases hs; exact .refl s
  · rename_i k hp
    cases hs
    refine .split (by rw [hp]; rfl) (by rw [hp]; simp) ?_
    intro b
    constructor
    · rintro ⟨e, he, rfl⟩
      by_cases hc : (decide (e.1 ∈ sel) && Smr.quiet s e.2) = true
      · right; exact List.mem_map.2 ⟨e, List.mem_filter.2 ⟨he, hc⟩, rfl⟩
      · left; exact ⟨e, List.mem_filter.2 ⟨he, by rw [Bool.not_eq_true] at hc; simp [hc]⟩, rfl⟩
    · rintro (⟨e, he, rfl⟩ | hb)
      · exact ⟨e, (List.mem_filter.1 he).1, rfl⟩
      · obtain ⟨e, he, rfl⟩ := List.mem_map.1 hb
        exact ⟨e, (List.mem_filter.1 he).1, rfl⟩
  · rename_i k hp
    cases hs
    exact .finish (by rw [hp]; rfl) (by rw [hp]; simp) k
  · rename_i b r k hp
    refine Eff.real (s1 := s.setPc t (.disp r k)) hs rfl rfl (.inl ⟨t, .inr (by rw [hp]; simp [dispOf])⟩) ?_ ?_ ?_
    · rintro x (⟨u, h⟩ | h)
      · left
        by_cases e : u = t
        · subst e
          simp only [St.setPc, St.setT, upd_same, dispOf] at h
          refine ⟨u, ?_⟩
          rcases h with h | h
          · exact .inl h
          · right; rw [hp]; exact List.mem_cons_of_mem _ h
        · exact ⟨u, by simpa [St.setPc, St.setT, e] using h⟩
      · exact .inr h
    · rintro x hx (⟨u, h⟩ | h)
      · left
        by_cases e : u = t
        · subst e
          refine ⟨u, ?_⟩
          simp only [St.setPc, St.setT, upd_same, dispOf]
          rcases h with h | h
          · exact .inl h
          · right
            rw [hp] at h
            rcases List.mem_cons.1 h with h | h
            · exact absurd h hx
            · exact h
        · exact ⟨u, by simpa [St.setPc, St.setT, e] using h⟩
      · exact .inr h
    · rintro ⟨u, hu⟩
      have e : u ≠ t := by rintro rfl; rw [hp] at hu; cases hu
      exact ⟨u, by simpa [St.setPc, St.setT, e] using hu⟩
  · rename_i f k hp
    split at hs
    · rename_i hc
      cases hs
      have hL : ∀ b, Listed { (s.setT t { s.th t with pend := [] }).setPc t (.made a f k) with
          ars := Function.update s.ars a (some ⟨t, (s.th t).pend.map (·.1)⟩), used := a :: s.used } b ↔ Listed s b := by
        intro b
        constructor
        · rintro (⟨u, h⟩ | ⟨a', y, h, hy⟩)
          · left
            by_cases e : u = t
            · subst e; simp [St.setPc, St.setT, dispOf] at h
            · exact ⟨u, by simpa [St.setPc, St.setT, e] using h⟩
          · simp only [Function.update_apply] at h
            split at h
            · cases h
              obtain ⟨e, he, rfl⟩ := List.mem_map.1 hy
              exact .inl ⟨t, .inl ⟨e, he, rfl⟩⟩
            · exact .inr ⟨a', y, h, hy⟩
        · rintro (⟨u, h⟩ | ⟨a', y, h, hy⟩)
          · by_cases e : u = t
            · subst e
              rw [hp] at h
              rcases h with ⟨e, he, rfl⟩ | h
              · exact .inr ⟨a, ⟨u, (s.th u).pend.map (·.1)⟩, by simp, List.mem_map.2 ⟨e, he, rfl⟩⟩
              · cases h
            · exact .inl ⟨u, by simpa [St.setPc, St.setT, e] using h⟩
          · have e : a' ≠ a := by rintro rfl; rw [hc.1] at h; cases h
            exact .inr ⟨a', y, by simpa [e] using h, hy⟩
      refine ⟨fun b => (hL b).1, fun b => .inl ⟨rfl, Iff.rfl⟩, fun h _ => h, fun b hb => .inl ((hL b).2 hb), ?_⟩
      rintro ⟨u, hu⟩
      have e : u ≠ t := by rintro rfl; rw [hp] at hu; cases hu
      exact ⟨u, by simpa [St.setPc, St.setT, e] using hu⟩
    · cases hs; exact .refl s
  · rename_i c f k hp
    split at hs
    · split at hs
      · cases hs
      · split at hs
        · cases hs
          exact (Eff.setG _).trans (.setPc (by show _ = dispOf (s.th t).pc; rw [hp]; rfl) (by show (s.th t).pc ≠ _; rw [hp]; simp))
        · cases hs
    · cases hs
      exact .setPc (by rw [hp]; rfl) (by rw [hp]; simp)
  · rename_i c k hp
    cases hs
    have h1 : Eff s (s.setPc t (.queued k)) := .setPc (by rw [hp]; rfl) (by rw [hp]; simp)
    exact h1.trans (.same rfl rfl rfl (fun _ => rfl) (fun _ => rfl) (fun _ h => h))
  · rename_i k hp
    split at hs
    · cases hs
    · cases hs
      exact (Eff.setG _).trans (.finish (by show dispOf (s.th t).pc = []; rw [hp]; rfl) (by show (s.th t).pc ≠ _; rw [hp]; simp) k)
  · rename_i hp
    split at hs
    · cases hs
    · split at hs
      · cases hs
        exact (Eff.setG _).trans .leave
      · cases hs
        exact (Eff.setG _).trans (.setPc (by show _ = dispOf (s.th t).pc; rw [hp]; rfl) (by show (s.th t).pc ≠ _; rw [hp]; simp))
  · rename_i c hp
    obtain ⟨⟨s1, d⟩, h1, h2⟩ := bind_ok hs
    cases h2
    obtain ⟨h3, h4⟩ := Eff.complete h1
    cases d
    · exact h3
    · exact h3.trans (.setPc (by rw [h4, hp]; rfl) (by rw [h4, hp]; simp))

theorem Eff.gcOnly {s s' : St} (h1 : s'.th = s.th) (h2 : s'.mem = s.mem) (h3 : s'.log = s.log) (h4 : s'.ars = s.ars) :
    Eff s s' := .same h2 h3 h4 (fun _ => by rw [h1]) (fun _ => by rw [h1]) (fun _ h => by rw [h1]; exact h)

theorem gcStep_eff {n : Nat} (hs : gcStep s n = .ok s') : Eff s s' := by
  unfold gcStep at hs
  split at hs
  · split at hs <;> cases hs
    · exact .gcOnly rfl rfl rfl rfl
    · exact .refl s
  · split at hs <;> cases hs
    · exact .gcOnly rfl rfl rfl rfl
    · exact .refl s
  · cases hs; exact .gcOnly rfl rfl rfl rfl
  · split at hs
    · cases hs
    · split at hs <;> cases hs
      exact .gcOnly rfl rfl rfl rfl
  · split at hs <;> cases hs
    exact .gcOnly rfl rfl rfl rfl
  · split at hs
    · cases hs
    · split at hs <;> cases hs <;> exact .gcOnly rfl rfl rfl rfl
  · split at hs
    · cases hs
    · split at hs <;> cases hs <;> exact .gcOnly rfl rfl rfl rfl
  · split at hs
    · cases hs
    · split at hs <;> cases hs <;> exact .gcOnly rfl rfl rfl rfl
  · obtain ⟨⟨s1, d⟩, h1, h2⟩ := bind_ok hs
    cases h2
    obtain ⟨h3, h4⟩ := Eff.complete h1
    cases d
    · exact h3
    · exact h3.trans (.gcOnly rfl rfl rfl rfl)

/-! ### The other steps -/

theorem Plain.eff {s s' : St} {t : Nat} (h : Plain s s' t) (hm : s'.mem = s.mem) (hl : s'.log = s.log)
    (hp : (s'.th t).pend = (s.th t).pend) : Eff s s' := by
  obtain ⟨x, hx, h1, _, _⟩ := h.th
  have hoth : ∀ u, u ≠ t → s'.th u = s.th u := by intro u hu; rw [hx, upd_other _ _ _ hu]
  have hpc : (s'.th t).pc = (s.th t).pc := by rw [hx, upd_same, h1]
  refine .same hm hl h.ars ?_ ?_ ?_
  · intro u; by_cases e : u = t
    · subst e; exact hp
    · rw [hoth u e]
  · intro u; by_cases e : u = t
    · subst e; rw [hpc]
    · rw [hoth u e]
  · intro u; by_cases e : u = t
    · subst e; rw [hpc]; exact id
    · rw [hoth u e]; exact id

theorem Eff.epoch (s : St) (t : Nat) : Eff s (initEpoch s t) := by
  obtain ⟨r, c, e, _⟩ := initEpoch_fields s t
  rw [e]
  refine .setT rfl rfl ?_
  by_cases h : (s.th t).pc = .dead
  · exact .inr h
  · exact .inl h

theorem Eff.setTp {x : Th} (hp : x.pend = (s.th t).pend) (hd : x.pc = (s.th t).pc) : Eff s (s.setT t x) := by
  refine .setT hp (by rw [hd]) ?_
  by_cases h : (s.th t).pc = .dead
  · exact .inr (hd.trans h)
  · exact .inl h

theorem Eff.thp {x : Th} (hth : s'.th = Function.update s.th t x) (hp : x.pend = (s.th t).pend) (hd : x.pc = (s.th t).pc)
    (h1 : s'.mem = s.mem) (h2 : s'.log = s.log) (h3 : s'.ars = s.ars) : Eff s s' :=
  (Eff.setTp (t := t) (x := x) hp hd).trans (.same h1 h2 h3 (fun _ => by rw [hth]; rfl) (fun _ => by rw [hth]; rfl)
    (fun _ h => by rw [hth]; exact h))

theorem closeSec_eff {i : Nat} (hs : closeSec s t i = .ok s') : Eff s s' := by
  unfold closeSec at hs
  simp only at hs
  split at hs
  · cases hs
  · cases hs
    exact .thp (t := t) rfl rfl rfl rfl rfl rfl

theorem memBegin_eff (hs : memBegin s t = .ok s') : Eff s s' := by
  unfold memBegin at hs
  refine (Eff.epoch s t).trans ?_
  simp only at hs
  split at hs
  · cases hs
  · split at hs
    · cases hs
      exact .thp (t := t) rfl rfl rfl rfl rfl rfl
    · cases hs; exact .setTp rfl rfl

theorem memEnd_eff (hs : memEnd s t = .ok s') : Eff s s' := by
  unfold memEnd at hs
  refine (Eff.epoch s t).trans ?_
  simp only at hs
  split at hs
  · cases hs
  · split at hs
    · exact closeSec_eff hs
    · cases hs; exact .setTp rfl rfl

theorem finiStart_eff (hp : (s.th t).pc = .user) (hs : finiStart s t = .ok s') : Eff s s' := by
  unfold finiStart at hs
  simp only at hs
  have h1 : Eff s (s.setT t { s.th t with hold := fun _ => [] }) := .setTp rfl rfl
  refine h1.trans ?_
  generalize hs1 : s.setT t { s.th t with hold := fun _ => [] } = s1 at hs
  have hx : s1.th t = { s.th t with hold := fun _ => [] } := by subst hs1; simp
  have hp1 : (s1.th t).pc = .user := by rw [hx]; exact hp
  split at hs
  · split at hs
    · cases hs; exact .setPc (by rw [hp1]; rfl) (by rw [hp1]; simp)
    · cases hs; exact .leave
  · split at hs
    · cases hs
    · split at hs
      · obtain ⟨s2, h2, h3⟩ := bind_ok hs
        cases h3
        have h4 := closeSec_eff h2
        have h5 : Eff s1 (s1.setT t { s.th t with hold := fun _ => [], deep := Function.update (s.th t).deep (s.th t).ctx 0 }) :=
          .setTp (by rw [hx]) (by rw [hx])
        have h6 : (s2.th t).pc = .user := by
          unfold closeSec at h2
          simp only at h2
          split at h2
          · cases h2
          · cases h2; simpa [St.setT] using hp
        exact (h5.trans h4).trans (.setPc (by rw [h6]; rfl) (by rw [h6]; simp))
      · cases hs; exact .setPc (by rw [hp1]; rfl) (by rw [hp1]; simp)

/-- What one step does to blocks: nothing, an allocation, a free by the application, or a cleanup. -/
theorem step_eff {cfg : Conf} {e : Ev} (hs : step cfg s e = .ok s') :
    Eff s s' ∨ (∃ t b, e = .alloc t b ∧ s.mem b = .fresh ∧ Eff s { s' with mem := s.mem } ∧ s'.mem = Function.update s.mem b .live) ∨
      (∃ t b, e = .free t b ∧ s.mem b = .live ∧ s'.mem = Function.update s.mem b .retired ∧ s'.log = s.log ∧ Listed s' b ∧
        (∀ x, x ≠ b → (Listed s' x ↔ Listed s x)) ∧ (Ended s → Ended s')) := by
  cases e with
  | init t =>
    left
    simp only [step] at hs
    split at hs
    · cases hs
      exact (Eff.setTp (t := t) (x := { s.th t with ret := true }) rfl rfl).trans (.setG _)
    · cases hs; exact .refl s
  | gcOn =>
    left
    simp only [step] at hs
    cases hs
    split
    · exact .refl s
    · exact .thp (t := 0) rfl rfl rfl rfl rfl rfl
  | begin t =>
    left
    simp only [step] at hs
    split at hs
    · obtain ⟨s2, h2, h3⟩ := bind_ok hs
      cases h3
      exact (memBegin_eff h2).trans (.setTp rfl rfl)
    · cases hs; exact .refl s
  | end_ t =>
    left
    simp only [step] at hs
    split at hs
    · obtain ⟨s2, h2, h3⟩ := bind_ok hs
      cases h3
      exact (memEnd_eff h2).trans (.setTp rfl rfl)
    · cases hs; exact .refl s
  | resume t k =>
    left
    simp only [step] at hs
    split at hs
    · cases hs; exact .setTp rfl rfl
    · cases hs; exact .refl s
  | yield t =>
    left
    simp only [step] at hs
    split at hs
    · cases hs; exact .refl s
    · split at hs
      · cases hs; exact .setTp rfl rfl
      · cases hs; exact .refl s
  | alloc t b =>
    simp only [step] at hs
    split at hs
    · rename_i hc
      cases hs
      right; left
      refine ⟨t, b, rfl, hc.2, ?_, rfl⟩
      have hm : (initEpoch s t).mem = s.mem := by
        obtain ⟨r, c, e, _⟩ := initEpoch_fields s t
        rw [e]; rfl
      exact (Eff.epoch s t).trans (.same hm.symm rfl rfl (fun _ => rfl) (fun _ => rfl) (fun _ h => h))
    · cases hs; exact .inl (.refl s)
  | acq t b =>
    left
    simp only [step] at hs
    split at hs
    · cases hs; exact .setTp rfl rfl
    · cases hs; exact .refl s
  | free t b =>
    simp only [step] at hs
    split at hs
    · have hm : (initEpoch s t).mem = s.mem ∧ (initEpoch s t).log = s.log := by
        obtain ⟨r, c, e, _⟩ := initEpoch_fields s t
        rw [e]; exact ⟨rfl, rfl⟩
      have he := Eff.epoch s t
      have hL : ∀ x, Listed (initEpoch s t) x ↔ Listed s x := by
        obtain ⟨r, c, e, _⟩ := initEpoch_fields s t
        intro x
        rw [e]
        unfold Listed
        refine or_congr (exists_congr fun u => ?_) Iff.rfl
        by_cases e : u = t
        · subst e; simp [St.setT]
        · simp [St.setT, e]
      unfold safeFree at hs
      simp only at hs
      split at hs
      · rename_i hb
        cases hs
        rw [hm.1] at hb
        right; right
        refine ⟨t, b, rfl, hb, by rw [hm.1], hm.2, ?_, ?_, ?_⟩
        · left
          refine ⟨t, .inl ⟨(b, (initEpoch s t).opens.map (·.1)), ?_, rfl⟩⟩
          simp [St.setT]
        · intro x hx
          rw [← hL x]
          unfold Listed
          refine or_congr (exists_congr fun u => ?_) Iff.rfl
          by_cases e : u = t
          · subst e
            simp only [St.setT, upd_same]
            refine or_congr ?_ Iff.rfl
            constructor
            · rintro ⟨e, he, rfl⟩
              rcases List.mem_append.1 he with he | he
              · exact ⟨e, he, rfl⟩
              · simp only [List.mem_singleton] at he
                subst he
                exact absurd rfl hx
            · rintro ⟨e, he, rfl⟩
              exact ⟨e, List.mem_append_left _ he, rfl⟩
          · simp [St.setT, e]
        · intro hE
          obtain ⟨u, hu⟩ := he.ended hE
          refine ⟨u, ?_⟩
          by_cases e : u = t
          · subst e; simpa [St.setT] using hu
          · simpa [St.setT, e] using hu
      · cases hs
      · cases hs; exact .inl he
    · cases hs; exact .inl (.refl s)
  | old t b =>
    left
    simp only [step] at hs
    split at hs
    · rename_i hc
      cases hs
      refine .setPc ?_ (by rw [hc.2.2.1]; simp)
      rw [hc.2.2.1]; split <;> rfl
    · cases hs; exact .refl s
  | maint t m =>
    left
    simp only [step] at hs
    split at hs
    · rename_i hc
      cases hs
      exact .setPc (by rw [hc.2.2.1]; rfl) (by rw [hc.2.2.1]; simp)
    · cases hs; exact .refl s
  | fini t =>
    left
    simp only [step] at hs
    split at hs
    · rename_i hc
      exact finiStart_eff hc.2.2.1 hs
    · cases hs; exact .refl s
  | go t a sel => exact .inl (goOn_eff hs)
  | gc n => exact .inl (gcStep_eff hs)

end Mtev.Smr
