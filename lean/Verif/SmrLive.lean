import Verif.SmrCore

/-! No step of the library is undefined: lifting the handshake to the whole state. -/

namespace Mtev.Smr

variable {s : St} {t : Nat}

theorem core_setT (s : St) (t : Nat) (x : Th) : core (s.setT t x) = { core s with
    pc := Function.update (core s).pc t x.pc
    ret := Function.update (core s).ret t x.ret
    reg := Function.update (core s).reg t x.reg } := by
  simp only [core, St.setT, C.mk.injEq, and_self, and_true, true_and]
  refine ⟨?_, ?_, ?_⟩ <;> funext u <;> by_cases e : u = t <;> simp [Function.update_apply, e]

theorem core_setPc (s : St) (t : Nat) (p : Pc) :
    core (s.setPc t p) = { core s with pc := Function.update (core s).pc t p } := by
  unfold St.setPc
  rw [core_setT]
  simp only [C.mk.injEq, and_self, and_true, true_and]
  constructor <;> funext u <;> by_cases e : u = t <;> simp [Function.update_apply, e, core]

theorem core_same {s : St} {t : Nat} {x : Th} (h1 : x.pc = (s.th t).pc) (h2 : x.ret = (s.th t).ret)
    (h3 : x.reg = (s.th t).reg) : core (s.setT t x) = core s := by
  rw [core_setT, h1, h2, h3]
  simp only [core]
  congr 1 <;> funext u <;> by_cases e : u = t <;> simp [Function.update_apply, e]

theorem core_pend (s : St) (t : Nat) (p : List (Nat × List Nat)) :
    core (s.setT t { s.th t with pend := p }) = core s := core_same rfl rfl rfl

theorem core_setG (s : St) (t : Nat) (g : Gr) : core (s.setG t g) = { core s with
    alive := Function.update (core s).alive t g.alive
    enq := Function.update (core s).enq t g.enq
    req := Function.update (core s).req t g.req
    fin := Function.update (core s).fin t g.fin } := by
  simp only [core, St.setG, C.mk.injEq, and_self, and_true, true_and]
  refine ⟨?_, ?_, ?_, ?_⟩ <;> funext u <;> by_cases e : u = t <;> simp [Function.update_apply, e]

theorem upd_eta {α : Type} (f : Nat → α) (t : Nat) (v : α) (h : v = f t) : Function.update f t v = f := by
  subst h; simp

theorem core_queue (s : St) (t : Nat) (q : List Nat) : core (s.setG t { s.grs t with queue := q }) = core s := by
  rw [core_setG]
  simp only [core]
  congr 1 <;> exact upd_eta _ _ _ rfl

theorem core_initEpoch (s : St) (t : Nat) : core (initEpoch s t) = { core s with reg := Function.update (core s).reg t true } := by
  unfold initEpoch
  split
  · rename_i h
    rw [upd_eta _ _ _ (by exact h.symm)]
  · rw [core_setT]
    simp only [core]
    congr 1 <;> exact upd_eta _ _ _ rfl

theorem core_leave (s : St) (t : Nat) : core (leave s t) = { core s with
    pc := Function.update (core s).pc t .dead
    ret := Function.update (core s).ret t false
    reg := Function.update (core s).reg t false } := by
  unfold leave
  exact core_setT s t { s.th t with reg := false, ret := false, pc := .dead, pend := [], active := 0, hold := fun _ => [] }

theorem J.finish' (h : J (core s)) (h1 : isQ (s.th t).pc = false) (h2 : has (s.th t).pc = none)
    (h3 : (s.th t).pc ≠ .dead) (hr : (s.th t).reg = true) (hret : (s.th t).ret = true) {k : K}
    (k2 : k = .fin2 → s.asynch = true) (k4 : k = .fin4 → (s.grs t).enq = 0) : J (core (finish s t k)) := by
  have hno : (core s).reg t = false → ∀ p : Pc, p = .user ∨ ∃ x, p = .term x := by
    intro e; have : (core s).reg t = true := hr; rw [this] at e; cases e
  cases k <;> simp only [Smr.finish]
  · rw [core_setPc]; exact h.setPc h1 h2 h3 rfl rfl (by simp) rfl (by simp [Smr.ending]) (by simp [inQ]) (fun e => hno e _) hret
  · split
    · rename_i ha
      rw [core_setPc]; exact h.setPc h1 h2 h3 rfl rfl (by simp) rfl (by simp [Smr.ending]) (fun _ => ha) (fun e => hno e _) hret
    · rename_i ha
      rw [core_setPc]
      refine h.setPc h1 h2 h3 rfl rfl (by simp) rfl (fun _ => ?_) (by simp [inQ]) (fun e => hno e _) hret
      by_contra hc
      exact ha (h.on t (.inl (Nat.pos_of_ne_zero hc)))
  · rw [core_setPc]; exact h.setPc h1 h2 h3 rfl rfl (by simp) rfl (by simp [Smr.ending]) (fun _ => k2 rfl) (fun e => hno e _) hret
  · rw [core_leave]; exact h.leave h1 h2
  · split
    · rw [core_setPc]; exact h.setPc h1 h2 h3 rfl rfl (by simp) rfl (fun _ => k4 rfl) (by simp [inQ]) (fun _ => .inr ⟨_, rfl⟩) hret
    · rw [core_leave]; exact h.leave h1 h2

theorem J.decideOn' (h : J (core s)) (h1 : isQ (s.th t).pc = false) (h2 : has (s.th t).pc = none)
    (h3 : (s.th t).pc ≠ .dead) (hr : (s.th t).reg = true) (hret : (s.th t).ret = true) {k : K} {m : Meth}
    (k2 : k = .fin2 → s.asynch = true) (k4 : k = .fin4 → (s.grs t).enq = 0 ∧ m = .barrier) :
    J (core (decideOn s t m k)) := by
  unfold Smr.decideOn
  simp only
  generalize hm : (if s.asynch = false ∧ m = .asynch then Meth.barrier else m) = m'
  have hm1 : k = .fin4 → m' = .barrier := by
    intro e; rw [(k4 e).2] at hm; simpa using hm.symm
  have hm2 : m' = .asynch → s.asynch = true := by
    intro e; rw [e] at hm; split at hm
    · cases hm
    · rename_i hc; subst hm; simpa using hc
  have hf := h.finish' h1 h2 h3 hr hret k2 (fun e => (k4 e).1)
  split
  · exact hf
  split
  · exact hf
  split
  · exact hf
  have hc : core (s.setT t { s.th t with needs := (s.th t).needs + 1 }) = core s := core_same rfl rfl rfl
  have hno : (core s).reg t = false → ∀ p : Pc, p = .user ∨ ∃ x, p = .term x := by
    intro e; have : (core s).reg t = true := hr; rw [this] at e; cases e
  cases m' with
  | none =>
    have h' : J (core (s.setT t { s.th t with needs := (s.th t).needs + 1 })) := by rw [hc]; exact h
    exact h'.finish' (by simpa using h1) (by simpa using h2) (by simpa using h3) (by simpa using hr) (by simpa using hret) k2 (fun e => (k4 e).1)
  | barrier =>
    simp only
    rw [core_setPc, hc]
    refine h.setPc h1 h2 h3 rfl rfl (by simp) (by cases k <;> rfl) ?_ ?_ (fun e => hno e _) hret
    · intro e; exact (k4 (by cases k <;> simp [Smr.ending] at e ⊢)).1
    · intro e; exact k2 (by cases k <;> simp [inQ] at e ⊢)
  | poll =>
    simp only
    rw [core_setPc, hc]
    refine h.setPc h1 h2 h3 rfl rfl (by simp) ?_ ?_ ?_ (fun e => hno e _) hret
    · cases k <;> first | rfl | exact absurd (hm1 rfl) (by simp)
    · simp [Smr.ending]
    · intro e; exact k2 (by cases k <;> simp [inQ] at e ⊢)
  | asynch =>
    simp only
    rw [core_setPc, hc]
    refine h.setPc h1 h2 h3 rfl rfl (by simp) ?_ ?_ ?_ (fun e => hno e _) hret
    · cases k <;> first | rfl | exact absurd (hm1 rfl) (by simp)
    · simp [Smr.ending]
    · intro e; exact hm2 rfl

variable {loc : Nat → Loc} {pos : Nat → Pos}

/-- `complete` succeeds, and only a list can vanish. -/
theorem complete_ok (h : Inv loc pos s) {a : Nat} (hc : (pos a).clear) (ha : s.ars a ≠ none) :
    ∃ s' d, complete s a = .ok (s', d) ∧ s'.th = s.th ∧ s'.grs = s.grs ∧ s'.gc = s.gc ∧ s'.asynch = s.asynch ∧
      core s' = if d then { core s with ow := Function.update (core s).ow a none } else core s := by
  unfold complete
  cases e : s.ars a with
  | none => exact absurd e ha
  | some x =>
    simp only
    cases hb : x.blks with
    | nil =>
      refine ⟨_, true, rfl, rfl, rfl, rfl, rfl, ?_⟩
      simp only [core, if_true, C.mk.injEq, and_self, and_true, true_and]
      funext u
      by_cases e : u = a <;> simp [Function.update_apply, e]
    | cons b r =>
      have hm := h.mem b (by rw [(h.ars a x e).loc b (by rw [hb]; simp)]; trivial)
      refine ⟨{ s with ars := Function.update s.ars a (some { x with blks := r }), mem := Function.update s.mem b .freed, log := s.log ++ [b] }, false, ?_, rfl, rfl, rfl, rfl, ?_⟩
      · simp only [realFree, hm]; rfl
      · simp only [core, C.mk.injEq, and_self, and_true, true_and, if_false, Bool.false_eq_true]
        funext u
        by_cases e' : u = a <;> simp [Function.update_apply, e', e]

theorem not_out (h : Inv loc pos s) {a : Nat} (hc : (pos a).clear) (hg : pos a ≠ .giv) :
    a ∉ (core s).out ∧ ∀ u, has ((core s).pc u) ≠ some a := by
  constructor
  · intro hm
    rcases List.mem_append.1 hm with hm | hm
    · have := (h.set a hm).1
      cases hs : s.gc <;> rw [hs] at this <;> simp only [setPos] at this
      all_goals first | exact hg this | (rw [this] at hc; exact hc)
    · rw [(h.gcq a hm).1] at hc; exact hc
  · intro u hu
    have hp := (h.thr u).pc
    have hu : has (s.th u).pc = some a := hu
    cases e : (s.th u).pc <;> rw [e] at hu hp <;> simp only [has, Option.some.injEq, reduceCtorEq] at hu
    all_goals subst hu; rw [hp.1] at hc; exact hc

/-! ### What a thread leaves alone -/

structure Keep (s s' : St) : Prop where
  th : s'.th 0 = s.th 0
  asynch : s'.asynch = s.asynch
  gc : s'.gc = s.gc

theorem Keep.refl (s : St) : Keep s s := ⟨rfl, rfl, rfl⟩
theorem Keep.trans {a b c : St} (h : Keep a b) (g : Keep b c) : Keep a c :=
  ⟨g.th.trans h.th, g.asynch.trans h.asynch, g.gc.trans h.gc⟩
theorem Keep.setT {s : St} {t : Nat} (h : t ≠ 0) (x : Th) : Keep s (s.setT t x) :=
  ⟨upd_other _ _ _ h.symm, rfl, rfl⟩
theorem Keep.setPc {s : St} {t : Nat} (h : t ≠ 0) (p : Pc) : Keep s (s.setPc t p) := Keep.setT h _
theorem Keep.setG (s : St) (t : Nat) (g : Gr) : Keep s (s.setG t g) := ⟨rfl, rfl, rfl⟩
theorem Keep.leave {s : St} {t : Nat} (h : t ≠ 0) : Keep s (Smr.leave s t) := ⟨upd_other _ _ _ h.symm, rfl, rfl⟩
theorem Keep.finish {s : St} {t : Nat} (h : t ≠ 0) (k : K) : Keep s (Smr.finish s t k) := by
  cases k <;> simp only [Smr.finish]
  · exact .setPc h _
  · split <;> exact .setPc h _
  · exact .setPc h _
  · exact .leave h
  · split
    · exact .setPc h _
    · exact .leave h
theorem Keep.decideOn {s : St} {t : Nat} (h : t ≠ 0) (m : Meth) (k : K) : Keep s (Smr.decideOn s t m k) := by
  unfold Smr.decideOn
  simp only
  generalize (if s.asynch = false ∧ m = .asynch then Meth.barrier else m) = m
  split
  · exact .finish h k
  split
  · exact .finish h k
  split
  · exact .finish h k
  have h1 : Keep s (s.setT t { s.th t with needs := (s.th t).needs + 1 }) := .setT h _
  cases m
  · exact h1.trans (.setPc h _)
  · exact h1.trans (.setPc h _)
  · exact h1.trans (.setPc h _)
  · exact h1.trans (.finish h k)

theorem initEpoch_keep {s : St} {t : Nat} (h : t ≠ 0) : Keep s (initEpoch s t) := by
  unfold initEpoch
  split
  · exact .refl s
  · exact .setT h _

/-! ### A thread goes on -/

structure Good (s : St) : Prop where
  inv : ∃ loc pos, Inv loc pos s
  j : J (core s)
  z : Z s

theorem Z.keep {s s' : St} (z : Z s) (h : Keep s s') : Z s' :=
  ⟨by rw [h.th]; exact z.pc, fun e => by rw [h.th, h.gc]; exact z.off (by rw [← h.asynch]; exact e)⟩

theorem goOn_good {cfg : Conf} (hr : cfg.reuse = false) (g : Good s) (t a : Nat) (sel : List Nat) :
    ∃ s', goOn cfg s t a sel = .ok s' ∧ J (core s') ∧ Z s' := by
  obtain ⟨⟨loc, pos, hi⟩, h, z⟩ := g
  by_cases h0 : t = 0
  · subst h0
    refine ⟨s, ?_, h, z⟩
    simp only [goOn, z.pc]
  cases hp : (s.th t).pc with
  | user => exact ⟨s, by simp only [goOn, hp], h, z⟩
  | dead => exact ⟨s, by simp only [goOn, hp], h, z⟩
  | back m cur k =>
    have hd : (s.th t).pc ≠ .dead := by rw [hp]; simp
    have hret : (s.th t).ret = true := by
      cases e : (s.th t).ret with
      | true => rfl
      | false => have := (h.new t e hd).2; rw [show (core s).pc t = (s.th t).pc from rfl, hp] at this; cases this
    have hreg : (s.th t).reg = true := by
      cases e : (s.th t).reg with
      | true => rfl
      | false =>
        rcases (h.reg t e hd).2 with e | ⟨_, e⟩ <;> rw [show (core s).pc t = (s.th t).pc from rfl, hp] at e <;> cases e
    have hal := h.alive t h0 hret
    have hq : isQ (s.th t).pc = false := by rw [hp]; rfl
    have hh : has (s.th t).pc = none := by rw [hp]; rfl
    have hw := h.wf t
    have hen := h.ending t
    have hon := h.on t
    rw [show (core s).pc t = (s.th t).pc from rfl, hp] at hw hen hon
    have hno : (core s).reg t = false → ∀ p : Pc, p = .user ∨ ∃ x, p = .term x := by
      intro e; have : (core s).reg t = true := hreg; rw [this] at e; cases e
    have k2 : k = .fin2 → s.asynch = true := fun e => hon (.inr (by subst e; rfl))
    have k4 : k = .fin4 → (s.grs t).enq = 0 ∧ m = .barrier := by
      intro e; subst e
      exact ⟨hen rfl, by cases m <;> simp [wf] at hw ⊢⟩
    cases cur with
    | none =>
      cases hqq : (s.grs t).queue with
      | nil =>
        refine ⟨decideOn s t m k, ?_, h.decideOn' hq hh hd hreg hret k2 k4, z.keep (.decideOn h0 m k)⟩
        have hal : (s.grs t).alive = true := hal
        simp only [goOn, hp, hqq, hal]; rfl
      | cons c r =>
        refine ⟨(s.setG t { s.grs t with queue := r }).setPc t (.back m (some c) k), ?_, ?_, z.keep ((Keep.setG _ _ _).trans (.setPc h0 _))⟩
        · have hal : (s.grs t).alive = true := hal
          simp only [goOn, hp, hqq, hal]; rfl
        · rw [core_setPc, core_queue]
          exact h.setPc hq hh hd rfl rfl (by simp) (by cases k <;> exact hw)
            (fun e => hen (by cases k <;> exact e)) (fun e => hon (.inr (by cases k <;> exact e))) (fun e => hno e _) hret
    | some c =>
      have hpc := (hi.thr t).pc
      rw [hp] at hpc
      have hcl : (pos c).clear := by rw [hpc.1]; trivial
      obtain ⟨s1, d, he, e1, e2, e3, e4, e5⟩ := complete_ok hi hcl hpc.2
      have hk1 : Keep s s1 := ⟨by rw [e1], e4, e3⟩
      cases d with
      | false =>
        refine ⟨s1, ?_, by rw [e5]; exact h, z.keep hk1⟩
        simp only [goOn, hp, he]; rfl
      | true =>
        refine ⟨s1.setPc t (.back m none k), ?_, ?_, z.keep (hk1.trans (.setPc h0 _))⟩
        · simp only [goOn, hp, he]; rfl
        · obtain ⟨n1, n2⟩ := not_out hi hcl (by rw [hpc.1]; simp)
          rw [core_setPc, e5]
          have h' := h.free n1 n2
          exact h'.setPc hq hh hd rfl rfl (by simp) (by cases k <;> exact hw)
            (fun e => hen (by cases k <;> exact e)) (fun e => hon (.inr (by cases k <;> exact e))) (fun e => hno e _) hret
  | wait snap k =>
    have hd : (s.th t).pc ≠ .dead := by rw [hp]; simp
    have hret : (s.th t).ret = true := by
      cases e : (s.th t).ret with
      | true => rfl
      | false => have := (h.new t e hd).2; rw [show (core s).pc t = (s.th t).pc from rfl, hp] at this; cases this
    have hreg : (s.th t).reg = true := by
      cases e : (s.th t).reg with
      | true => rfl
      | false =>
        rcases (h.reg t e hd).2 with e | ⟨_, e⟩ <;> rw [show (core s).pc t = (s.th t).pc from rfl, hp] at e <;> cases e
    have hq : isQ (s.th t).pc = false := by rw [hp]; rfl
    have hh : has (s.th t).pc = none := by rw [hp]; rfl
    have hen := h.ending t
    have hon := h.on t
    rw [show (core s).pc t = (s.th t).pc from rfl, hp] at hen hon
    have hno : (core s).reg t = false → ∀ p : Pc, p = .user ∨ ∃ x, p = .term x := by
      intro e; have : (core s).reg t = true := hreg; rw [this] at e; cases e
    by_cases hqu : Smr.quiet s snap = true
    · refine ⟨(s.setT t { s.th t with pend := [] }).setPc t (.disp ((s.th t).pend.map (·.1)) k), by simp only [goOn, hp, hqu]; rfl, ?_, z.keep ((Keep.setT h0 _).trans (.setPc h0 _))⟩
      rw [core_setPc, core_pend]
      exact h.setPc hq hh hd rfl rfl (by simp) (by cases k <;> rfl)
        (fun e => hen (by cases k <;> exact e)) (fun e => hon (.inr (by cases k <;> exact e))) (fun e => hno e _) hret
    · exact ⟨s, by simp only [goOn, hp, hqu]; rfl, h, z⟩
  | poll k =>
    have hd : (s.th t).pc ≠ .dead := by rw [hp]; simp
    have hret : (s.th t).ret = true := by
      cases e : (s.th t).ret with
      | true => rfl
      | false => have := (h.new t e hd).2; rw [show (core s).pc t = (s.th t).pc from rfl, hp] at this; cases this
    have hreg : (s.th t).reg = true := by
      cases e : (s.th t).reg with
      | true => rfl
      | false =>
        rcases (h.reg t e hd).2 with e | ⟨_, e⟩ <;> rw [show (core s).pc t = (s.th t).pc from rfl, hp] at e <;> cases e
    have hq : isQ (s.th t).pc = false := by rw [hp]; rfl
    have hh : has (s.th t).pc = none := by rw [hp]; rfl
    have hw := h.wf t
    have hon := h.on t
    rw [show (core s).pc t = (s.th t).pc from rfl, hp] at hw hon
    have hno : (core s).reg t = false → ∀ p : Pc, p = .user ∨ ∃ x, p = .term x := by
      intro e; have : (core s).reg t = true := hreg; rw [this] at e; cases e
    refine ⟨(s.setT t { s.th t with pend := (s.th t).pend.filter (fun e => !(decide (e.1 ∈ sel) && Smr.quiet s e.2)) }).setPc t
      (.disp (((s.th t).pend.filter (fun e => decide (e.1 ∈ sel) && Smr.quiet s e.2)).map (·.1)) k), by simp only [goOn, hp], ?_, z.keep ((Keep.setT h0 _).trans (.setPc h0 _))⟩
    rw [core_setPc, core_pend]
    refine h.setPc hq hh hd rfl rfl (by simp) (by cases k <;> rfl) ?_ (fun e => hon (.inr (by cases k <;> exact e))) (fun e => hno e _) hret
    intro e
    cases k <;> first | (simp [Smr.ending] at e; done) | (simp [wf] at hw; done)
  | disp l k =>
    have hd : (s.th t).pc ≠ .dead := by rw [hp]; simp
    have hret : (s.th t).ret = true := by
      cases e : (s.th t).ret with
      | true => rfl
      | false => have := (h.new t e hd).2; rw [show (core s).pc t = (s.th t).pc from rfl, hp] at this; cases this
    have hreg : (s.th t).reg = true := by
      cases e : (s.th t).reg with
      | true => rfl
      | false =>
        rcases (h.reg t e hd).2 with e | ⟨_, e⟩ <;> rw [show (core s).pc t = (s.th t).pc from rfl, hp] at e <;> cases e
    have hq : isQ (s.th t).pc = false := by rw [hp]; rfl
    have hh : has (s.th t).pc = none := by rw [hp]; rfl
    have hen := h.ending t
    have hon := h.on t
    rw [show (core s).pc t = (s.th t).pc from rfl, hp] at hen hon
    have hno : (core s).reg t = false → ∀ p : Pc, p = .user ∨ ∃ x, p = .term x := by
      intro e; have : (core s).reg t = true := hreg; rw [this] at e; cases e
    cases l with
    | nil =>
      exact ⟨_, by simp only [goOn, hp], h.finish' hq hh hd hreg hret (fun e => hon (.inr (by subst e; rfl)))
        (fun e => hen (by subst e; rfl)), z.keep (.finish h0 k)⟩
    | cons b r =>
      have hpc := (hi.thr t).pc
      rw [hp] at hpc
      have hm := hi.mem b (by rw [(hpc.1 b (by simp)).1]; trivial)
      refine ⟨{ s.setPc t (.disp r k) with mem := Function.update s.mem b .freed, log := s.log ++ [b] }, ?_, ?_, z.keep ((Keep.setPc h0 (.disp r k)).trans ⟨rfl, rfl, rfl⟩)⟩
      · simp only [goOn, hp]
        unfold realFree
        rw [show (s.setPc t (.disp r k)).mem b = s.mem b from rfl, hm]
        rfl
      · show J (core (s.setPc t (.disp r k)))
        rw [core_setPc]
        exact h.setPc hq hh hd rfl rfl (by simp) (by cases k <;> rfl)
          (fun e => hen (by cases k <;> exact e)) (fun e => hon (.inr (by cases k <;> exact e))) (fun e => hno e _) hret
  | mk f k =>
    by_cases hc : s.ars a = none ∧ (cfg.reuse = true ∨ a ∉ s.used)
    · have hu : a ∉ s.used := by
        rcases hc.2 with e | e
        · rw [hr] at e; cases e
        · exact e
      refine ⟨{ (s.setT t { s.th t with pend := [] }).setPc t (.made a f k) with
        ars := Function.update s.ars a (some ⟨t, (s.th t).pend.map (·.1)⟩), used := a :: s.used }, ?_, ?_,
        z.keep ((Keep.setT h0 _).trans ((Keep.setPc h0 (.made a f k)).trans ⟨rfl, rfl, rfl⟩))⟩
      · simp only [goOn, hp, hc, hu, not_false_eq_true, or_true, and_self, if_true]
      have := h.fill hp hu
      convert this using 1
      have e1 := core_setPc (s.setT t { s.th t with pend := [] }) t (.made a f k)
      rw [core_pend] at e1
      have e2 := congrArg C.pc e1
      have e3 := congrArg C.ret e1
      have e4 := congrArg C.reg e1
      simp only [core] at e2 e3 e4 ⊢
      simp only [e2, e3, e4, C.mk.injEq, and_true, true_and]
      refine ⟨rfl, rfl, rfl, rfl, ?_, rfl, rfl, rfl⟩
      funext u
      by_cases e : u = a <;> simp [Function.update_apply, e]
    · exact ⟨s, by simp only [goOn, hp, hc, if_false], h, z⟩
  | made c f k =>
    have hd : (s.th t).pc ≠ .dead := by rw [hp]; simp
    have hret : (s.th t).ret = true := by
      cases e : (s.th t).ret with
      | true => rfl
      | false => have := (h.new t e hd).2; rw [show (core s).pc t = (s.th t).pc from rfl, hp] at this; cases this
    have hal : (s.grs t).alive = true := h.alive t h0 hret
    have hf : (s.grs t).fin = none := by
      cases e : (s.grs t).fin with
      | none => rfl
      | some F => rcases h.fin t F e with e | e | e <;> rw [show (core s).pc t = (s.th t).pc from rfl, hp] at e <;> cases e
    cases f with
    | true =>
      refine ⟨(s.setG t { s.grs t with fin := some c }).setPc t (.marked c k), by simp only [goOn, hp, hal, hf]; rfl, ?_, z.keep ((Keep.setG _ _ _).trans (.setPc h0 _))⟩
      have := h.mark hp
      rw [core_setPc, core_setG]
      convert this using 2
      · exact upd_eta _ _ _ rfl
      · exact upd_eta _ _ _ rfl
      · exact upd_eta _ _ _ rfl
    | false =>
      refine ⟨_, by simp only [goOn, hp]; rfl, ?_, z.keep (.setPc h0 _)⟩
      rw [core_setPc]
      exact h.pass hp
  | marked c k =>
    refine ⟨{ s.setPc t (.queued k) with gcq := s.gcq ++ [c] }, by simp only [goOn, hp], ?_, z.keep ((Keep.setPc h0 (.queued k)).trans ⟨rfl, rfl, rfl⟩)⟩
    have := h.hand h0 hp
    convert this using 1
    have e1 := core_setPc s t (.queued k)
    have e2 := congrArg C.pc e1
    have e3 := congrArg C.ret e1
    have e4 := congrArg C.reg e1
    simp only [core] at e2 e3 e4 ⊢
    simp only [e2, e3, e4, C.mk.injEq, and_true, true_and]
    exact ⟨rfl, rfl, rfl, rfl, rfl, rfl, rfl, rfl⟩
  | queued k =>
    have hd : (s.th t).pc ≠ .dead := by rw [hp]; simp
    have hret : (s.th t).ret = true := by
      cases e : (s.th t).ret with
      | true => rfl
      | false => have := (h.new t e hd).2; rw [show (core s).pc t = (s.th t).pc from rfl, hp] at this; cases this
    have hal : (s.grs t).alive = true := h.alive t h0 hret
    have has : s.asynch = true := h.on t (.inr (by rw [show (core s).pc t = (s.th t).pc from rfl, hp]; rfl))
    have hcg : core (s.setG t { s.grs t with enq := (s.grs t).enq + 1 }) =
        { core s with enq := Function.update (core s).enq t ((core s).enq t + 1) } := by
      rw [core_setG]
      simp only [core]
      congr 1 <;> exact upd_eta _ _ _ rfl
    refine ⟨finish (s.setG t { s.grs t with enq := (s.grs t).enq + 1 }) t k, by simp only [goOn, hp, hal]; rfl, ?_, z.keep ((Keep.setG _ _ _).trans (.finish h0 k))⟩
    cases k <;> simp only [Smr.finish]
    · rw [core_setPc, hcg]; exact h.inc hp (by simp) rfl rfl (by simp) rfl rfl
    · rw [if_pos (show (s.setG t { s.grs t with enq := (s.grs t).enq + 1 }).asynch = true from has), core_setPc, hcg]
      exact h.inc hp (by simp) rfl rfl (by simp) rfl rfl
    · rw [core_setPc, hcg]; exact h.inc hp (by simp) rfl rfl (by simp) rfl rfl
    · rw [core_leave, hcg]; exact h.incLeave hp
    · have := h.wf t
      rw [show (core s).pc t = (s.th t).pc from rfl, hp] at this
      cases this
  | term cur =>
    have hd : (s.th t).pc ≠ .dead := by rw [hp]; simp
    have hret : (s.th t).ret = true := by
      cases e : (s.th t).ret with
      | true => rfl
      | false => have := (h.new t e hd).2; rw [show (core s).pc t = (s.th t).pc from rfl, hp] at this; cases this
    have hal : (s.grs t).alive = true := h.alive t h0 hret
    have hq : isQ (s.th t).pc = false := by rw [hp]; rfl
    have hh : has (s.th t).pc = none := by rw [hp]; rfl
    have hen := h.ending t
    rw [show (core s).pc t = (s.th t).pc from rfl, hp] at hen
    cases cur with
    | none =>
      cases hqq : (s.grs t).queue with
      | nil =>
        refine ⟨leave (s.setG t { s.grs t with alive := false }) t, ?_, ?_, z.keep ((Keep.setG _ _ _).trans (.leave h0))⟩
        · simp only [goOn, hp, hqq, hal]; simp [hqq]
        · have := h.term (t := t) (by rw [show (core s).pc t = (s.th t).pc from rfl, hp]; rfl)
          rw [core_leave, core_setG]
          convert this using 2
          · exact upd_eta _ _ _ rfl
          · exact upd_eta _ _ _ rfl
          · exact upd_eta _ _ _ rfl
      | cons c r =>
        refine ⟨(s.setG t { s.grs t with queue := r }).setPc t (.term (some c)), ?_, ?_, z.keep ((Keep.setG _ _ _).trans (.setPc h0 _))⟩
        · simp only [goOn, hp, hqq, hal]; rfl
        · rw [core_setPc, core_queue]
          exact h.setPc hq hh hd rfl rfl (by simp) rfl (fun _ => hen rfl) (by simp [inQ]) (fun _ => .inr ⟨_, rfl⟩) hret
    | some c =>
      have hpc := (hi.thr t).pc
      rw [hp] at hpc
      have hcl : (pos c).clear := by rw [hpc.1]; trivial
      obtain ⟨s1, d, he, e1, e2, e3, e4, e5⟩ := complete_ok hi hcl hpc.2
      have hk1 : Keep s s1 := ⟨by rw [e1], e4, e3⟩
      cases d with
      | false =>
        refine ⟨s1, ?_, by rw [e5]; exact h, z.keep hk1⟩
        simp only [goOn, hp, he]; rfl
      | true =>
        refine ⟨s1.setPc t (.term none), ?_, ?_, z.keep (hk1.trans (.setPc h0 _))⟩
        · simp only [goOn, hp, he]; rfl
        · obtain ⟨n1, n2⟩ := not_out hi hcl (by rw [hpc.1]; simp)
          rw [core_setPc, e5]
          have h' := h.free n1 n2
          exact h'.setPc hq hh hd rfl rfl (by simp) rfl (fun _ => hen rfl) (by simp [inQ]) (fun _ => .inr ⟨_, rfl⟩) hret

theorem gcStep_good (g : Good s) (n : Nat) : ∃ s', gcStep s n = .ok s' ∧ J (core s') ∧ Z s' := by
  obtain ⟨⟨loc, pos, hi⟩, h, z⟩ := g
  have zz : ∀ s' : St, s'.th = s.th → s'.asynch = s.asynch → s.gc ≠ .idle → Z s' := by
    intro s' h1 h2 h3
    refine ⟨by rw [h1]; exact z.pc, fun e => ?_⟩
    rw [h2] at e
    exact absurd (z.off e).2 h3
  have hgc : (core s).gc = s.gc := rfl
  cases hg : s.gc with
  | idle =>
    by_cases hc : s.asynch = true ∧ s.gcq ≠ []
    · refine ⟨{ s with gc := .sync (s.gcq.take (min (max n 1) 100)) (s.opens.map (·.1)), gcq := s.gcq.drop (min (max n 1) 100) }, ?_, h.gcIdle (by rw [hgc, hg]), ⟨z.pc, fun e => ?_⟩⟩
      · simp only [gcStep, hg, if_pos hc]
      · have e : s.asynch = false := e
        rw [hc.1] at e; cases e
    · exact ⟨s, by simp only [gcStep, hg, if_neg hc], h, z⟩
  | sync set snap =>
    by_cases hq : Smr.quiet s snap = true
    · exact ⟨{ s with gc := .give set }, by simp only [gcStep, hg, hq]; rfl, h.gcSync (snap := snap) (by rw [hgc, hg]), zz _ rfl rfl (by rw [hg]; simp)⟩
    · exact ⟨s, by simp only [gcStep, hg, hq]; rfl, h, z⟩
  | give l =>
    cases l with
    | nil => exact ⟨{ s with gc := .idle }, by simp only [gcStep, hg], h.gcNone (by rw [hgc, hg]), zz _ rfl rfl (by rw [hg]; simp)⟩
    | cons a r =>
      have ha := (hi.set a (by rw [hg]; simp [gcSet])).2
      cases e : s.ars a with
      | none => exact absurd e ha
      | some x =>
        have how : (core s).ow a = some x.owner := by simp [core, e]
        have hal : (s.grs x.owner).alive = true := by
          refine h.alive2 x.owner (.inl ?_)
          intro hn
          have : a ∈ (core s).outs x.owner := List.mem_filter.2 ⟨by simp [C.out, hgc, hg, gcSet], by simp [how]⟩
          rw [hn] at this
          cases this
        refine ⟨{ s.setG x.owner { s.grs x.owner with queue := (s.grs x.owner).queue ++ [a] } with gc := .gave a x.owner r }, by simp only [gcStep, hg, e, hal]; rfl, ?_, zz _ rfl rfl (by rw [hg]; simp)⟩
        have e1 := core_queue s x.owner ((s.grs x.owner).queue ++ [a])
        have : core { s.setG x.owner { s.grs x.owner with queue := (s.grs x.owner).queue ++ [a] } with gc := .gave a x.owner r } =
            { core s with gc := .gave a x.owner r } := by rw [← e1]; rfl
        rw [this]
        exact h.gcGive (by rw [hgc, hg]) how
  | gave a o r =>
    have hal : (s.grs o).alive = true := h.alive2 o (.inr (.inl (by rw [hgc, hg]; rfl)))
    refine ⟨{ s.setG o { s.grs o with req := (s.grs o).req + 1 } with gc := .check a o r }, by simp only [gcStep, hg, hal]; rfl, ?_, zz _ rfl rfl (by rw [hg]; simp)⟩
    have e1 := core_setG s o { s.grs o with req := (s.grs o).req + 1 }
    have : core { s.setG o { s.grs o with req := (s.grs o).req + 1 } with gc := .check a o r } =
        { core s with gc := .check a o r, req := Function.update (core s).req o ((core s).req o + 1) } := by
      have e2 : core { s.setG o { s.grs o with req := (s.grs o).req + 1 } with gc := .check a o r } =
          { core (s.setG o { s.grs o with req := (s.grs o).req + 1 }) with gc := .check a o r } := rfl
      rw [e2, e1]
      simp only [core]
      congr 1 <;> exact upd_eta _ _ _ rfl
    rw [this]
    exact h.gcGave (by rw [hgc, hg])
  | check a o r =>
    have hal : (s.grs o).alive = true := h.alive2 o (.inr (.inr (by rw [hgc, hg]; rfl)))
    by_cases hf : (s.grs o).fin = some a
    · exact ⟨{ s with gc := .test a o r }, by simp only [gcStep, hg, hal, hf]; rfl, h.gcCheck (by rw [hgc, hg]) hf, zz _ rfl rfl (by rw [hg]; simp)⟩
    · exact ⟨{ s with gc := .give r }, by simp only [gcStep, hg, hal, hf]; rfl, h.gcSkip (.inl ⟨a, o, by rw [hgc, hg]⟩), zz _ rfl rfl (by rw [hg]; simp)⟩
  | test a o r =>
    have hal : (s.grs o).alive = true := h.alive2 o (.inr (.inr (by rw [hgc, hg]; rfl)))
    by_cases hf : (s.grs o).req = (s.grs o).enq
    · exact ⟨{ s with gc := .drain o none r }, by simp only [gcStep, hg, hal, hf]; rfl, h.gcTest (by rw [hgc, hg]) hf, zz _ rfl rfl (by rw [hg]; simp)⟩
    · exact ⟨{ s with gc := .give r }, by simp only [gcStep, hg, hal, hf]; rfl, h.gcSkip (.inr ⟨a, o, by rw [hgc, hg]⟩), zz _ rfl rfl (by rw [hg]; simp)⟩
  | drain o cur r =>
    have hal : (s.grs o).alive = true := h.alive2 o (.inr (.inr (by rw [hgc, hg]; rfl)))
    cases cur with
    | none =>
      cases hqq : (s.grs o).queue with
      | nil =>
        refine ⟨{ s.setG o { s.grs o with alive := false } with gc := .give r }, by simp only [gcStep, hg, hal, hqq]; simp [hqq], ?_, zz _ rfl rfl (by rw [hg]; simp)⟩
        have e1 := core_setG s o { s.grs o with alive := false }
        have : core { s.setG o { s.grs o with alive := false } with gc := .give r } =
            { core s with gc := .give r, alive := Function.update (core s).alive o false } := by
          have e2 : core { s.setG o { s.grs o with alive := false } with gc := .give r } =
              { core (s.setG o { s.grs o with alive := false }) with gc := .give r } := rfl
          rw [e2, e1]
          simp only [core]
          congr 1 <;> exact upd_eta _ _ _ rfl
        rw [this]
        exact h.gcEnd (x := none) (by rw [hgc, hg])
      | cons c q =>
        refine ⟨{ s.setG o { s.grs o with queue := q } with gc := .drain o (some c) r }, by simp only [gcStep, hg, hal, hqq]; rfl, ?_, zz _ rfl rfl (by rw [hg]; simp)⟩
        have e1 := core_queue s o q
        have : core { s.setG o { s.grs o with queue := q } with gc := .drain o (some c) r } =
            { core s with gc := .drain o (some c) r } := by rw [← e1]; rfl
        rw [this]
        exact h.gcDrain (x := none) (by rw [hgc, hg])
    | some c =>
      have hpc := hi.gc
      rw [hg] at hpc
      have hcl : (pos c).clear := by rw [hpc.1]; trivial
      obtain ⟨s1, d, he, e1, e2, e3, e4, e5⟩ := complete_ok hi hcl hpc.2
      cases d with
      | false =>
        refine ⟨s1, ?_, by rw [e5]; exact h, zz _ e1 e4 (by rw [hg]; simp)⟩
        simp only [gcStep, hg, he]; rfl
      | true =>
        refine ⟨{ s1 with gc := .drain o none r }, ?_, ?_, zz _ e1 e4 (by rw [hg]; simp)⟩
        · simp only [gcStep, hg, he]; rfl
        · obtain ⟨n1, n2⟩ := not_out hi hcl (by rw [hpc.1]; simp)
          have h' := (h.free n1 n2).gcDrain (x := some c) (y := none) (r := r) (o := o) (by show (core s).gc = _; rw [hgc, hg])
          have : core { s1 with gc := .drain o none r } = { core s1 with gc := .drain o none r } := rfl
          rw [this, e5]
          exact h'

/-! ### All steps -/

theorem J.fields {s s' : St} (h : J (core s)) {t : Nat} {x : Th} (hth : s'.th = Function.update s.th t x)
    (h1 : x.pc = (s.th t).pc) (h2 : x.ret = (s.th t).ret) (h3 : x.reg = (s.th t).reg)
    (e1 : s'.grs = s.grs) (e2 : s'.ars = s.ars) (e3 : s'.used = s.used) (e4 : s'.gcq = s.gcq) (e5 : s'.gc = s.gc)
    (e6 : s'.asynch = s.asynch) : J (core s') := by
  have : core s' = core (s.setT t x) := by simp only [core, hth, e1, e2, e3, e4, e5, e6]; rfl
  rw [this, core_same h1 h2 h3]
  exact h

theorem J.epoch (h : J (core s)) (t : Nat) : J (core (initEpoch s t)) := by
  rw [core_initEpoch]; exact h.regOn

theorem initEpoch_zero (z : Z s) {t : Nat} (ha : appl s t = true) : Z (initEpoch s t) := by
  by_cases h0 : t = 0
  · subst h0
    have hn : s.asynch ≠ false := by
      intro e
      simp only [appl, (z.off e).2, if_true] at ha
      cases ha
    unfold initEpoch
    split
    · exact z
    · exact ⟨by simpa using z.pc, fun e => absurd e hn⟩
  · exact z.keep (initEpoch_keep h0)

theorem Z.th' {s s' : St} (z : Z s) {t : Nat} {x : Th} (hth : s'.th = Function.update s.th t x)
    (h1 : x.pc = (s.th t).pc) (h3 : x.reg = (s.th t).reg) (e5 : s'.gc = s.gc) (e6 : s'.asynch = s.asynch) : Z s' := by
  have hp : (s'.th 0).pc = (s.th 0).pc ∧ (s'.th 0).reg = (s.th 0).reg := by
    rw [hth]
    by_cases e : 0 = t
    · subst e; rw [upd_same]; exact ⟨h1, h3⟩
    · rw [upd_other _ _ _ e]; exact ⟨rfl, rfl⟩
  exact ⟨by rw [hp.1]; exact z.pc, fun e => by rw [hp.2, e5]; exact z.off (by rw [← e6]; exact e)⟩

/-- Only a thread's sections changed. -/
structure Plain (s s' : St) (t : Nat) : Prop where
  th : ∃ x, s'.th = Function.update s.th t x ∧ x.pc = (s.th t).pc ∧ x.ret = (s.th t).ret ∧ x.reg = (s.th t).reg
  grs : s'.grs = s.grs
  ars : s'.ars = s.ars
  used : s'.used = s.used
  gcq : s'.gcq = s.gcq
  gc : s'.gc = s.gc
  asynch : s'.asynch = s.asynch

theorem Plain.setT (s : St) (t : Nat) (x : Th) (h : x.pc = (s.th t).pc ∧ x.ret = (s.th t).ret ∧ x.reg = (s.th t).reg) :
    Plain s (s.setT t x) t := ⟨⟨x, rfl, h⟩, rfl, rfl, rfl, rfl, rfl, rfl⟩

theorem Plain.trans {a b c : St} {t : Nat} (h : Plain a b t) (g : Plain b c t) : Plain a c t := by
  obtain ⟨x, hx, h1, h2, h3⟩ := h.th
  obtain ⟨y, hy, g1, g2, g3⟩ := g.th
  refine ⟨⟨y, ?_, ?_, ?_, ?_⟩, g.grs.trans h.grs, g.ars.trans h.ars, g.used.trans h.used, g.gcq.trans h.gcq, g.gc.trans h.gc, g.asynch.trans h.asynch⟩
  · rw [hy, hx, Function.update_idem]
  · rw [g1, hx, upd_same, h1]
  · rw [g2, hx, upd_same, h2]
  · rw [g3, hx, upd_same, h3]

theorem Plain.j {a b : St} {t : Nat} (h : Plain a b t) (j : J (core a)) : J (core b) := by
  obtain ⟨x, hx, h1, h2, h3⟩ := h.th
  exact j.fields hx h1 h2 h3 h.grs h.ars h.used h.gcq h.gc h.asynch

theorem Plain.z {a b : St} {t : Nat} (h : Plain a b t) (z : Z a) : Z b := by
  obtain ⟨x, hx, h1, h2, h3⟩ := h.th
  exact z.th' hx h1 h3 h.gc h.asynch

theorem closeSec_plain {s : St} {t i q : Nat} (h : ((s.th t).secs i).q = some q) :
    ∃ s', closeSec s t i = .ok s' ∧ Plain s s' t := by
  unfold closeSec
  simp only [h]
  exact ⟨_, rfl, ⟨⟨_, rfl, rfl, rfl, rfl⟩, rfl, rfl, rfl, rfl, rfl, rfl⟩⟩

theorem memBegin_ok (h : InvS (initEpoch s t)) :
    ∃ s', memBegin s t = .ok s' ∧ Plain (initEpoch s t) s' t := by
  have hr : ((initEpoch s t).th t).reg = true := by
    obtain ⟨r, c, e, hr⟩ := initEpoch_fields s t
    rw [e]; simpa using hr
  have hsec := (h.thr t).reg hr
  unfold memBegin
  simp only [hsec]
  split
  · exact ⟨_, rfl, ⟨⟨_, rfl, rfl, rfl, rfl⟩, rfl, rfl, rfl, rfl, rfl, rfl⟩⟩
  · exact ⟨_, rfl, .setT _ _ _ ⟨rfl, rfl, rfl⟩⟩

theorem memEnd_ok (h : InvS (initEpoch s t)) (hd : 0 < ((initEpoch s t).th t).deep ((initEpoch s t).th t).ctx) :
    ∃ s', memEnd s t = .ok s' ∧ Plain (initEpoch s t) s' t := by
  have hr : ((initEpoch s t).th t).reg = true := by
    obtain ⟨r, c, e, hr⟩ := initEpoch_fields s t
    rw [e]; simpa using hr
  have ht := h.thr t
  have hsec := ht.reg hr
  unfold memEnd
  simp only [hsec]
  split
  · obtain ⟨q, hq, _⟩ := ht.opened _ (by rw [← ht.deep]; exact hd)
    exact closeSec_plain hq
  · exact ⟨_, rfl, .setT _ _ _ ⟨rfl, rfl, rfl⟩⟩

theorem note_plain (s : St) (t : Nat) : Plain s (noteBegin s t) t ∧ Plain s (noteEnd s t) t :=
  ⟨.setT _ _ _ ⟨rfl, rfl, rfl⟩, .setT _ _ _ ⟨rfl, rfl, rfl⟩⟩

theorem user_facts (h : J (core s)) (hr : (s.th t).ret = true) (hp : (s.th t).pc = .user) {p : Pc}
    (p1 : isQ p = false) (p2 : has p = none) (p3 : p ≠ .dead) (p4 : wf p = true)
    (p5 : ending p = true → (s.grs t).enq = 0) (p6 : inQ p = false)
    (p7 : (s.th t).reg = true ∨ ∃ x, p = .term x) : J (core (s.setPc t p)) := by
  rw [core_setPc]
  have e : (core s).pc t = .user := hp
  refine h.setPc (by rw [e]; rfl) (by rw [e]; rfl) (by rw [e]; simp) p1 p2 p3 p4 p5 (by rw [p6]; simp) ?_ hr
  intro e
  rcases p7 with h7 | h7
  · have e : (s.th t).reg = false := e
    rw [h7] at e; cases e
  · exact .inr h7

theorem finiStart_good (g : Good s) (h0 : t ≠ 0) (hr : (s.th t).ret = true) (hp : (s.th t).pc = .user) :
    ∃ s', finiStart s t = .ok s' ∧ J (core s') ∧ Z s' := by
  obtain ⟨⟨loc, pos, hi⟩, h, z⟩ := g
  have hpl : Plain s (s.setT t { s.th t with hold := fun _ => [] }) t := .setT _ _ _ ⟨rfl, rfl, rfl⟩
  have h1 := hpl.j h
  have z1 := hpl.z z
  have hi1 := hi.drop (t := t)
  unfold finiStart
  simp only
  generalize hs1 : s.setT t { s.th t with hold := fun _ => [] } = s1 at h1 z1 hi1
  have hx : s1.th t = { s.th t with hold := fun _ => [] } := by subst hs1; simp
  have hg1 : s1.grs = s.grs := by subst hs1; rfl
  have hr1 : (s1.th t).ret = true := by rw [hx]; exact hr
  have hp1 : (s1.th t).pc = .user := by rw [hx]; exact hp
  have e1 : (core s1).pc t = .user := hp1
  by_cases hreg : (s.th t).reg = false
  · rw [if_pos hreg]
    have hreg1 : (s1.th t).reg = false := by rw [hx]; exact hreg
    split
    · refine ⟨_, rfl, user_facts h1 hr1 hp1 rfl rfl (by simp) rfl (fun _ => ?_) rfl (.inr ⟨_, rfl⟩), z1.keep (.setPc h0 _)⟩
      exact (h1.reg t hreg1 (by rw [e1]; simp)).1
    · refine ⟨_, rfl, ?_, z1.keep (.leave h0)⟩
      rw [core_leave]; exact h1.leave (by rw [e1]; rfl) (by rw [e1]; rfl)
  · rw [if_neg hreg]
    have hreg : (s.th t).reg = true := by simpa using hreg
    have hreg1 : (s1.th t).reg = true := by rw [hx]; exact hreg
    have hsec : (s.th t).sec = some (s.th t).ctx := (hi.secs.thr t).reg hreg
    simp only [hsec]
    split
    · rename_i hn
      obtain ⟨q, hq, _⟩ := (hi.secs.thr t).opened (s.th t).ctx (by omega)
      have hpl2 : Plain s1 (s1.setT t { s.th t with
          sec := some (s.th t).ctx, deep := Function.update (s.th t).deep (s.th t).ctx 0, hold := fun _ => [] }) t :=
        .setT _ _ _ ⟨hp1.symm ▸ hp, by rw [hx], by rw [hx]⟩
      have hq2 : (((s1.setT t { s.th t with
          sec := some (s.th t).ctx, deep := Function.update (s.th t).deep (s.th t).ctx 0, hold := fun _ => [] }).th t).secs (s.th t).ctx).q = some q := by
        rw [setT_same]; exact hq
      obtain ⟨s2, e2, hpl3⟩ := closeSec_plain hq2
      have hpl4 := hpl2.trans hpl3
      refine ⟨s2.setPc t (.back .asynch none .fin1), ?_, ?_, (hpl4.z z1).keep (.setPc h0 _)⟩
      · rw [e2]; rfl
      · obtain ⟨x, hxx, x1, x2, x3⟩ := hpl4.th
        refine user_facts (hpl4.j h1) ?_ ?_ rfl rfl (by simp) rfl (by simp [ending]) rfl (.inl ?_)
        · rw [hxx, upd_same, x2]; exact hr1
        · rw [hxx, upd_same, x1]; exact hp1
        · rw [hxx, upd_same, x3]; exact hreg1
    · exact ⟨_, rfl, user_facts h1 hr1 hp1 rfl rfl (by simp) rfl (by simp [ending]) rfl (.inl hreg1), z1.keep (.setPc h0 _)⟩

/-- No step is undefined, and the only assertion that fails is that of a double free. -/
theorem step_good {cfg : Conf} (he : cfg.early = false) (hr : cfg.reuse = false) (g : Good s) (e : Ev) :
    (∃ s', step cfg s e = .ok s' ∧ Good s') ∨
      (step cfg s e = .abort ∧ ∃ t b, e = .free t b ∧ appl s t = true ∧ s.mem b = .retired) := by
  suffices h : (∃ s', step cfg s e = .ok s' ∧ J (core s') ∧ Z s') ∨
      (step cfg s e = .abort ∧ ∃ t b, e = .free t b ∧ appl s t = true ∧ s.mem b = .retired) by
    rcases h with ⟨s', h1, h2, h3⟩ | h
    · obtain ⟨loc, pos, hi⟩ := g.inv
      exact .inl ⟨s', h1, hi.step he g.z h1, h2, h3⟩
    · exact .inr h
  obtain ⟨loc, pos, hi⟩ := g.inv
  have h := g.j
  have z := g.z
  have hid : ∃ s', Out.ok s = Out.ok s' ∧ J (core s') ∧ Z s' := ⟨s, rfl, h, z⟩
  cases e with
  | init t =>
    left
    simp only [step]
    split
    · rename_i hc
      refine ⟨_, rfl, ?_, z.keep ((Keep.setT hc.1 _).trans (.setG _ _ _))⟩
      have := h.init (t := t) hc.2.1 hc.2.2
      rw [core_setG, core_setT]
      convert this using 2
      · exact upd_eta _ _ _ rfl
      · exact upd_eta _ _ _ rfl
    · exact hid
  | gcOn =>
    left
    simp only [step]
    split
    · exact hid
    · refine ⟨_, rfl, ?_, ⟨?_, fun e => ?_⟩⟩
      · have := h.gcOn z.pc
        have e1 := core_setT s 0 { s.th 0 with ret := true, reg := true, sec := some 0 }
        have e2 : core { s.setT 0 { s.th 0 with ret := true, reg := true, sec := some 0 } with asynch := true } =
          { core (s.setT 0 { s.th 0 with ret := true, reg := true, sec := some 0 }) with asynch := true } := rfl
        rw [e2, e1]
        convert this using 2
        exact upd_eta _ _ _ rfl
      · simpa using z.pc
      · cases e
  | begin t =>
    left
    simp only [step]
    split
    · rename_i hc
      obtain ⟨s2, h2, hp⟩ := memBegin_ok (hi.initEpoch (appl_pc z.pc hc.1)).secs
      have hp2 := hp.trans (note_plain s2 t).1
      refine ⟨noteBegin s2 t, by rw [h2]; rfl, hp2.j (h.epoch t), hp2.z (initEpoch_zero z hc.1)⟩
    · exact hid
  | end_ t =>
    left
    simp only [step]
    split
    · rename_i hc
      have hd : 0 < ((initEpoch s t).th t).deep ((initEpoch s t).th t).ctx := by
        obtain ⟨r, c, e, _⟩ := initEpoch_fields s t
        rw [e]; simpa using hc.2
      obtain ⟨s2, h2, hp⟩ := memEnd_ok (hi.initEpoch (appl_pc z.pc hc.1)).secs hd
      have hp2 := hp.trans (note_plain s2 t).2
      refine ⟨noteEnd s2 t, by rw [h2]; rfl, hp2.j (h.epoch t), hp2.z (initEpoch_zero z hc.1)⟩
    · exact hid
  | resume t k =>
    left
    simp only [step]
    split
    · have hp : Plain s (s.setT t { s.th t with sec := some k, ctx := k, stack := ((s.th t).sec, (s.th t).ctx) :: (s.th t).stack }) t :=
        .setT _ _ _ ⟨rfl, rfl, rfl⟩
      exact ⟨_, rfl, hp.j h, hp.z z⟩
    · exact hid
  | yield t =>
    left
    simp only [step]
    split
    · exact hid
    · rename_i p c r hst
      split
      · have hp : Plain s (s.setT t { s.th t with sec := p, ctx := c, stack := r }) t := .setT _ _ _ ⟨rfl, rfl, rfl⟩
        exact ⟨_, rfl, hp.j h, hp.z z⟩
      · exact hid
  | alloc t b =>
    left
    simp only [step]
    split
    · rename_i hc
      exact ⟨_, rfl, h.epoch t, initEpoch_zero z hc.1 |>.th' (t := t) (x := (initEpoch s t).th t) (by simp) rfl rfl rfl rfl⟩
    · exact hid
  | acq t b =>
    left
    simp only [step]
    split
    · have hp : Plain s (s.setT t { s.th t with hold := Function.update (s.th t).hold (s.th t).ctx (b :: (s.th t).hold (s.th t).ctx) }) t :=
        .setT _ _ _ ⟨rfl, rfl, rfl⟩
      exact ⟨_, rfl, hp.j h, hp.z z⟩
    · exact hid
  | free t b =>
    simp only [step]
    split
    · rename_i hc
      have hm : (initEpoch s t).mem = s.mem := by
        obtain ⟨r, c, e, _⟩ := initEpoch_fields s t
        rw [e]; rfl
      unfold safeFree
      simp only [hm]
      cases hb : s.mem b with
      | live =>
        left
        refine ⟨_, rfl, ?_, ?_⟩
        · exact (h.epoch t).fields (t := t) rfl rfl rfl rfl rfl rfl rfl rfl rfl rfl
        · exact (initEpoch_zero z hc).th' (t := t) rfl rfl rfl rfl rfl
      | retired => right; exact ⟨rfl, t, b, rfl, hc, hb⟩
      | fresh => left; exact ⟨_, rfl, h.epoch t, initEpoch_zero z hc⟩
      | freed => left; exact ⟨_, rfl, h.epoch t, initEpoch_zero z hc⟩
    · exact .inl hid
  | old t b =>
    left
    simp only [step]
    split
    · rename_i hc
      refine ⟨_, rfl, ?_, z.keep (.setPc hc.1 _)⟩
      cases b
      · exact user_facts h hc.2.1 hc.2.2.1 rfl rfl (by simp) rfl (by simp [ending]) rfl (.inl hc.2.2.2.1)
      · exact user_facts h hc.2.1 hc.2.2.1 rfl rfl (by simp) rfl (by simp [ending]) rfl (.inl hc.2.2.2.1)
    · exact hid
  | maint t m =>
    left
    simp only [step]
    split
    · rename_i hc
      exact ⟨_, rfl, user_facts h hc.2.1 hc.2.2.1 rfl rfl (by simp) rfl (by simp [ending]) rfl (.inl hc.2.2.2), z.keep (.setPc hc.1 _)⟩
    · exact hid
  | fini t =>
    left
    simp only [step]
    split
    · rename_i hc
      exact finiStart_good g hc.1 hc.2.1 hc.2.2.1
    · exact hid
  | go t a sel => exact .inl (goOn_good hr g t a sel)
  | gc n => exact .inl (gcStep_good g n)

end Mtev.Smr
