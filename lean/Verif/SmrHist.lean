import Verif.SmrEff

/-!
From single steps to histories; what stays as it is when others act.
-/

namespace Mtev.Smr

/-! ### From steps to histories -/

theorem complete_keep {s s' : St} {a : Nat} {d : Bool} (hs : complete s a = .ok (s', d)) : Keep s s' := by
  unfold complete at hs
  split at hs
  · cases hs
  · split at hs
    · cases hs; exact ⟨rfl, rfl, rfl⟩
    · obtain ⟨s1, h1, h2⟩ := bind_ok hs
      cases h2
      unfold realFree at h1
      split at h1
      · cases h1; exact ⟨rfl, rfl, rfl⟩
      · cases h1
      · cases h1

theorem goOn_keep {cfg : Conf} {s s' : St} {t a : Nat} {sel : List Nat} (h0 : t ≠ 0)
    (hs : goOn cfg s t a sel = .ok s') : Keep s s' := by
  unfold goOn at hs
  simp only at hs
  split at hs
  · cases hs; exact .refl s
  · cases hs; exact .refl s
  · split at hs
    · cases hs
    · split at hs
      · cases hs; exact .decideOn h0 _ _
      · cases hs; exact (Keep.setG _ _ _).trans (.setPc h0 _)
  · obtain ⟨⟨s1, d⟩, h1, h2⟩ := bind_ok hs
    cases h2
    cases d
    · exact complete_keep h1
    · exact (complete_keep h1).trans (.setPc h0 _)
  · split at hs
    · cases hs; exact (Keep.setT h0 _).trans (.setPc h0 _)
    · cases hs; exact .refl s
  · cases hs; exact (Keep.setT h0 _).trans (.setPc h0 _)
  · cases hs; exact .finish h0 _
  · rename_i b r k hp
    unfold realFree at hs
    split at hs
    · cases hs; exact (Keep.setPc h0 (.disp r k)).trans ⟨rfl, rfl, rfl⟩
    · cases hs
    · cases hs
  · rename_i f k hp
    split at hs
    · cases hs; exact (Keep.setT h0 _).trans ((Keep.setPc h0 (.made a f k)).trans ⟨rfl, rfl, rfl⟩)
    · cases hs; exact .refl s
  · split at hs
    · split at hs
      · cases hs
      · split at hs
        · cases hs; exact (Keep.setG _ _ _).trans (.setPc h0 _)
        · cases hs
    · cases hs; exact .setPc h0 _
  · rename_i c k hp
    cases hs; exact (Keep.setPc h0 (.queued k)).trans ⟨rfl, rfl, rfl⟩
  · split at hs
    · cases hs
    · cases hs; exact (Keep.setG _ _ _).trans (.finish h0 _)
  · split at hs
    · cases hs
    · split at hs
      · cases hs; exact (Keep.setG _ _ _).trans (.leave h0)
      · cases hs; exact (Keep.setG _ _ _).trans (.setPc h0 _)
  · obtain ⟨⟨s1, d⟩, h1, h2⟩ := bind_ok hs
    cases h2
    cases d
    · exact complete_keep h1
    · exact (complete_keep h1).trans (.setPc h0 _)

theorem gcStep_z {s s' : St} {n : Nat} (z : Z s) (hs : gcStep s n = .ok s') : Z s' := by
  have zz : ∀ s' : St, s'.th = s.th → s'.asynch = s.asynch → s.gc ≠ .idle → Z s' := by
    intro s' h1 h2 h3
    refine ⟨by rw [h1]; exact z.pc, fun e => ?_⟩
    rw [h2] at e
    exact absurd (z.off e).2 h3
  unfold gcStep at hs
  split at hs
  · split at hs
    · rename_i hc
      cases hs
      refine ⟨z.pc, fun e => ?_⟩
      have e : s.asynch = false := e
      rw [hc.1] at e; cases e
    · cases hs; exact z
  · rename_i hg
    split at hs <;> cases hs
    · exact zz _ rfl rfl (by rw [hg]; simp)
    · exact z
  · rename_i hg; cases hs; exact zz _ rfl rfl (by rw [hg]; simp)
  · rename_i hg
    split at hs
    · cases hs
    · split at hs <;> cases hs
      exact zz _ rfl rfl (by rw [hg]; simp)
  · rename_i hg
    split at hs <;> cases hs
    exact zz _ rfl rfl (by rw [hg]; simp)
  · rename_i hg
    split at hs
    · cases hs
    · split at hs <;> cases hs <;> exact zz _ rfl rfl (by rw [hg]; simp)
  · rename_i hg
    split at hs
    · cases hs
    · split at hs <;> cases hs <;> exact zz _ rfl rfl (by rw [hg]; simp)
  · rename_i hg
    split at hs
    · cases hs
    · split at hs <;> cases hs <;> exact zz _ rfl rfl (by rw [hg]; simp)
  · rename_i hg
    obtain ⟨⟨s1, d⟩, h1, h2⟩ := bind_ok hs
    cases h2
    obtain ⟨_, h4⟩ := Eff.complete h1
    cases d
    · exact zz _ h4 (complete_keep h1).asynch (by rw [hg]; simp)
    · exact zz _ h4 (complete_keep h1).asynch (by rw [hg]; simp)

theorem closeSec_plain' {s s' : St} {t i : Nat} (hs : closeSec s t i = .ok s') : Plain s s' t := by
  cases hq : ((s.th t).secs i).q with
  | none => unfold closeSec at hs; simp only [hq] at hs; cases hs
  | some q =>
    obtain ⟨s2, h1, h2⟩ := closeSec_plain hq
    rw [h1] at hs; cases hs; exact h2

theorem Z.setT {s : St} (z : Z s) {t : Nat} {x : Th} (h1 : x.pc = (s.th t).pc) (h2 : x.ret = (s.th t).ret)
    (h3 : x.reg = (s.th t).reg) : Z (s.setT t x) := (Plain.setT s t x ⟨h1, h2, h3⟩).z z

theorem step_z {cfg : Conf} {s s' : St} {e : Ev} (z : Z s) (hs : step cfg s e = .ok s') : Z s' := by
  cases e with
  | init t =>
    simp only [step] at hs
    split at hs
    · rename_i hc
      cases hs
      exact z.keep ((Keep.setT hc.1 _).trans (.setG _ _ _))
    · cases hs; exact z
  | gcOn =>
    simp only [step] at hs
    cases hs
    split
    · exact z
    · exact ⟨by simpa using z.pc, fun e => by cases e⟩
  | begin t =>
    simp only [step] at hs
    split at hs
    · rename_i hc
      obtain ⟨s2, h2, h3⟩ := bind_ok hs
      cases h3
      have z1 := initEpoch_zero z hc.1
      unfold memBegin at h2
      simp only at h2
      split at h2
      · cases h2
      · rename_i i _
        split at h2
        · cases h2
          have hp : Plain (initEpoch s t) (openSec (initEpoch s t) t i) t := ⟨⟨_, rfl, rfl, rfl, rfl⟩, rfl, rfl, rfl, rfl, rfl, rfl⟩
          exact (hp.trans (note_plain _ t).1).z z1
        · cases h2
          exact (note_plain _ t).1.z (z1.setT rfl rfl rfl)
    · cases hs; exact z
  | end_ t =>
    simp only [step] at hs
    split at hs
    · rename_i hc
      obtain ⟨s2, h2, h3⟩ := bind_ok hs
      cases h3
      have z1 := initEpoch_zero z hc.1
      unfold memEnd at h2
      simp only at h2
      split at h2
      · cases h2
      · split at h2
        · exact ((closeSec_plain' h2).trans (note_plain _ t).2).z z1
        · cases h2
          exact (note_plain _ t).2.z (z1.setT rfl rfl rfl)
    · cases hs; exact z
  | resume t k =>
    simp only [step] at hs
    split at hs
    · cases hs; exact z.setT rfl rfl rfl
    · cases hs; exact z
  | yield t =>
    simp only [step] at hs
    split at hs
    · cases hs; exact z
    · split at hs
      · cases hs; exact z.setT rfl rfl rfl
      · cases hs; exact z
  | alloc t b =>
    simp only [step] at hs
    split at hs
    · rename_i hc
      cases hs
      exact (initEpoch_zero z hc.1).th' (t := t) (x := (initEpoch s t).th t) (by simp) rfl rfl rfl rfl
    · cases hs; exact z
  | acq t b =>
    simp only [step] at hs
    split at hs
    · cases hs; exact z.setT rfl rfl rfl
    · cases hs; exact z
  | free t b =>
    simp only [step] at hs
    split at hs
    · rename_i hc
      have z1 := initEpoch_zero z hc
      unfold safeFree at hs
      simp only at hs
      split at hs
      · cases hs; exact z1.th' (t := t) rfl rfl rfl rfl rfl
      · cases hs
      · cases hs; exact z1
    · cases hs; exact z
  | old t b =>
    simp only [step] at hs
    split at hs
    · rename_i hc
      cases hs; exact z.keep (.setPc hc.1 _)
    · cases hs; exact z
  | maint t m =>
    simp only [step] at hs
    split at hs
    · rename_i hc
      cases hs; exact z.keep (.setPc hc.1 _)
    · cases hs; exact z
  | fini t =>
    simp only [step] at hs
    split at hs
    · rename_i hc
      unfold finiStart at hs
      simp only at hs
      have z1 : Z (s.setT t { s.th t with hold := fun _ => [] }) := z.keep (.setT hc.1 _)
      split at hs
      · split at hs
        · cases hs; exact z1.keep (.setPc hc.1 _)
        · cases hs; exact z1.keep (.leave hc.1)
      · split at hs
        · cases hs
        · split at hs
          · obtain ⟨s2, h2, h3⟩ := bind_ok hs
            cases h3
            exact ((closeSec_plain' h2).z (z1.keep (.setT hc.1 _))).keep (.setPc hc.1 _)
          · cases hs; exact z1.keep (.setPc hc.1 _)
    · cases hs; exact z
  | go t a sel =>
    by_cases h0 : t = 0
    · subst h0
      simp only [step, goOn, z.pc] at hs
      cases hs; exact z
    · exact z.keep (goOn_keep h0 hs)
  | gc n => exact gcStep_z z hs

theorem inv_start : Inv (fun _ => .app) (fun _ => .nowhere) {} := by
  refine ⟨⟨fun t => ⟨fun h => by simp at h, fun _ _ => ⟨rfl, rfl⟩, fun p hp => by simp at hp, fun _ => rfl, fun _ => by simp,
    fun k hk => by simp at hk, fun k q hq => by simp at hq, fun k hk => by simp at hk⟩, fun t k t' k' q hq => by simp at hq⟩,
    fun t => ⟨fun e he => by simp at he, by simp, trivial⟩, fun a x hx => by simp at hx, fun a ha => by simp at ha,
    fun a ha => by simp [gcSet] at ha, by simp [gcSet], fun o a ha => by simp at ha, fun o => by simp, trivial, ?_, ?_⟩
  · intro b hb; cases hb
  · intro b hb; cases hb

theorem z_start : Z {} := ⟨rfl, fun _ => ⟨rfl, rfl⟩⟩

theorem good_start : Good {} := by
  refine ⟨⟨_, _, inv_start⟩, ?_, z_start⟩
  constructor <;> simp [core, C.outs, C.out, gcSet, isQ, inQ, wf, ending, gaves, works, pasts, has]

theorem run_cons {cfg : Conf} {s s' : St} {e : Ev} {es : List Ev} (h : run cfg s (e :: es) = .ok s') :
    ∃ s1, step cfg s e = .ok s1 ∧ run cfg s1 es = .ok s' := bind_ok h

theorem run_append {cfg : Conf} {s s' : St} {es fs : List Ev} (h : run cfg s (es ++ fs) = .ok s') :
    ∃ s1, run cfg s es = .ok s1 ∧ run cfg s1 fs = .ok s' := by
  induction es generalizing s with
  | nil => exact ⟨s, rfl, h⟩
  | cons e es ih =>
    obtain ⟨s1, h1, h2⟩ := run_cons h
    obtain ⟨s2, h3, h4⟩ := ih h2
    exact ⟨s2, by show (step cfg s e).bind _ = _; rw [h1]; exact h3, h4⟩

theorem run_inv {cfg : Conf} (he : cfg.early = false) {s s' : St} {es : List Ev} (hi : ∃ loc pos, Inv loc pos s) (z : Z s)
    (hs : run cfg s es = .ok s') : (∃ loc pos, Inv loc pos s') ∧ Z s' := by
  induction es generalizing s with
  | nil => cases hs; exact ⟨hi, z⟩
  | cons e es ih =>
    obtain ⟨s1, h1, h2⟩ := run_cons hs
    obtain ⟨loc, pos, h⟩ := hi
    exact ih (h.step he z h1) (step_z z h1) h2

theorem reach_inv {cfg : Conf} (he : cfg.early = false) {s : St} {es : List Ev} (hs : run cfg {} es = .ok s) :
    (∃ loc pos, Inv loc pos s) ∧ Z s := run_inv he ⟨_, _, inv_start⟩ z_start hs

/-! ### What a step leaves alone -/

/-- Thread `o`, its return queue and its lists are as before. -/
structure Frame (o : Nat) (s s' : St) : Prop where
  th : s'.th o = s.th o
  gr : s'.grs o = s.grs o

theorem Frame.refl {o : Nat} (s : St) : Frame o s s := ⟨rfl, rfl⟩
theorem Frame.trans {o : Nat} {a b c : St} (h : Frame o a b) (g : Frame o b c) : Frame o a c :=
  ⟨g.th.trans h.th, g.gr.trans h.gr⟩
theorem Frame.setT {o t : Nat} {s : St} (h : o ≠ t) (x : Th) : Frame o s (s.setT t x) := ⟨upd_other _ _ _ h, rfl⟩
theorem Frame.setPc {o t : Nat} {s : St} (h : o ≠ t) (p : Pc) : Frame o s (s.setPc t p) := Frame.setT h _
theorem Frame.setG {o t : Nat} {s : St} (h : o ≠ t) (g : Gr) : Frame o s (s.setG t g) := ⟨rfl, upd_other _ _ _ h⟩
theorem Frame.leave {o t : Nat} {s : St} (h : o ≠ t) : Frame o s (Smr.leave s t) := ⟨upd_other _ _ _ h, rfl⟩
theorem Frame.finish {o t : Nat} {s : St} (h : o ≠ t) (k : K) : Frame o s (Smr.finish s t k) := by
  cases k <;> simp only [Smr.finish]
  · exact .setPc h _
  · split <;> exact .setPc h _
  · exact .setPc h _
  · exact .leave h
  · split
    · exact .setPc h _
    · exact .leave h
theorem Frame.decideOn {o t : Nat} {s : St} (h : o ≠ t) (m : Meth) (k : K) : Frame o s (Smr.decideOn s t m k) := by
  unfold Smr.decideOn
  simp only
  generalize (if s.asynch = false ∧ m = .asynch then Meth.barrier else m) = m
  split
  · exact .finish h k
  split
  · exact .finish h k
  split
  · exact .finish h k
  have h1 : Frame o s (s.setT t { s.th t with needs := (s.th t).needs + 1 }) := .setT h _
  cases m
  · exact h1.trans (.setPc h _)
  · exact h1.trans (.setPc h _)
  · exact h1.trans (.setPc h _)
  · exact h1.trans (.finish h k)

theorem complete_frame {o : Nat} {s s' : St} {a : Nat} {d : Bool} (hs : complete s a = .ok (s', d)) : Frame o s s' := by
  unfold complete at hs
  split at hs
  · cases hs
  · split at hs
    · cases hs; exact ⟨rfl, rfl⟩
    · obtain ⟨s1, h1, h2⟩ := bind_ok hs
      cases h2
      unfold realFree at h1
      split at h1
      · cases h1; exact ⟨rfl, rfl⟩
      · cases h1
      · cases h1

theorem goOn_frame {cfg : Conf} {s s' : St} {t a o : Nat} {sel : List Nat} (h0 : o ≠ t)
    (hs : goOn cfg s t a sel = .ok s') : Frame o s s' := by
  unfold goOn at hs
  simp only at hs
  split at hs
  · cases hs; exact .refl s
  · cases hs; exact .refl s
  · split at hs
    · cases hs
    · split at hs
      · cases hs; exact .decideOn h0 _ _
      · cases hs; exact (Frame.setG h0 _).trans (.setPc h0 _)
  · obtain ⟨⟨s1, d⟩, h1, h2⟩ := bind_ok hs
    cases h2
    cases d
    · exact complete_frame h1
    · exact (complete_frame h1).trans (.setPc h0 _)
  · split at hs
    · cases hs; exact (Frame.setT h0 _).trans (.setPc h0 _)
    · cases hs; exact .refl s
  · cases hs; exact (Frame.setT h0 _).trans (.setPc h0 _)
  · cases hs; exact .finish h0 _
  · rename_i b r k hp
    unfold realFree at hs
    split at hs
    · cases hs; exact (Frame.setPc h0 (.disp r k)).trans ⟨rfl, rfl⟩
    · cases hs
    · cases hs
  · rename_i f k hp
    split at hs
    · cases hs; exact (Frame.setT h0 _).trans ((Frame.setPc h0 (.made a f k)).trans ⟨rfl, rfl⟩)
    · cases hs; exact .refl s
  · split at hs
    · split at hs
      · cases hs
      · split at hs
        · cases hs; exact (Frame.setG h0 _).trans (.setPc h0 _)
        · cases hs
    · cases hs; exact .setPc h0 _
  · rename_i c k hp
    cases hs; exact (Frame.setPc h0 (.queued k)).trans ⟨rfl, rfl⟩
  · split at hs
    · cases hs
    · cases hs; exact (Frame.setG h0 _).trans (.finish h0 _)
  · split at hs
    · cases hs
    · split at hs
      · cases hs; exact (Frame.setG h0 _).trans (.leave h0)
      · cases hs; exact (Frame.setG h0 _).trans (.setPc h0 _)
  · obtain ⟨⟨s1, d⟩, h1, h2⟩ := bind_ok hs
    cases h2
    cases d
    · exact complete_frame h1
    · exact (complete_frame h1).trans (.setPc h0 _)

theorem initEpoch_frame {s : St} {t o : Nat} (h : o ≠ t) : Frame o s (initEpoch s t) := by
  unfold initEpoch
  split
  · exact .refl s
  · exact .setT h _

theorem Plain.frame {s s' : St} {t o : Nat} (h : o ≠ t) (p : Plain s s' t) : Frame o s s' := by
  obtain ⟨x, hx, _⟩ := p.th
  exact ⟨by rw [hx]; exact upd_other _ _ _ h, by rw [p.grs]⟩

/-- The thread an event is about. -/
def who : Ev → Option Nat
  | .init t | .begin t | .end_ t | .resume t _ | .yield t | .alloc t _ | .acq t _ | .free t _ | .old t _ | .maint t _
  | .fini t | .go t _ _ => some t
  | .gcOn => some 0
  | .gc _ => none

theorem step_frame {cfg : Conf} {s s' : St} {e : Ev} {o t : Nat} (hw : who e = some t) (h : o ≠ t)
    (hs : step cfg s e = .ok s') : Frame o s s' := by
  cases e <;> simp only [who, Option.some.injEq, reduceCtorEq] at hw <;> subst hw <;> simp only [step] at hs
  case go => exact goOn_frame h hs
  case init => 
    split at hs <;> cases hs
    · exact (Frame.setT h _).trans (.setG h _)
    · exact .refl s
  case gcOn =>
    cases hs
    split
    · exact .refl s
    · exact ⟨upd_other _ _ _ h, rfl⟩
  case begin t =>
    split at hs
    · obtain ⟨s2, h2, h3⟩ := bind_ok hs
      cases h3
      have z1 : Frame o s (initEpoch s t) := initEpoch_frame h
      refine z1.trans ?_
      unfold memBegin at h2
      simp only at h2
      split at h2
      · cases h2
      · split at h2 <;> cases h2
        · rename_i i _ _
          have hp : Plain (initEpoch s t) (openSec (initEpoch s t) t i) t := ⟨⟨_, rfl, rfl, rfl, rfl⟩, rfl, rfl, rfl, rfl, rfl, rfl⟩
          exact (hp.trans (note_plain _ t).1).frame h
        · exact (Frame.setT h _).trans ((note_plain _ t).1.frame h)
    · cases hs; exact .refl s
  case end_ t =>
    split at hs
    · obtain ⟨s2, h2, h3⟩ := bind_ok hs
      cases h3
      have z1 : Frame o s (initEpoch s t) := initEpoch_frame h
      refine z1.trans ?_
      unfold memEnd at h2
      simp only at h2
      split at h2
      · cases h2
      · split at h2
        · exact ((closeSec_plain' h2).trans (note_plain _ t).2).frame h
        · cases h2
          exact (Frame.setT h _).trans ((note_plain _ t).2.frame h)
    · cases hs; exact .refl s
  case resume =>
    split at hs <;> cases hs
    · exact .setT h _
    · exact .refl s
  case yield =>
    split at hs
    · cases hs; exact .refl s
    · split at hs <;> cases hs
      · exact .setT h _
      · exact .refl s
  case alloc t b =>
    split at hs <;> cases hs
    · exact (initEpoch_frame h).trans ⟨rfl, rfl⟩
    · exact .refl s
  case acq =>
    split at hs <;> cases hs
    · exact .setT h _
    · exact .refl s
  case free t b =>
    split at hs
    · unfold safeFree at hs
      simp only at hs
      split at hs <;> cases hs
      · exact (initEpoch_frame h).trans ⟨upd_other _ _ _ h, rfl⟩
      · exact initEpoch_frame h
    · cases hs; exact .refl s
  case old =>
    split at hs <;> cases hs
    · exact .setPc h _
    · exact .refl s
  case maint =>
    split at hs <;> cases hs
    · exact .setPc h _
    · exact .refl s
  case fini t =>
    split at hs
    · unfold finiStart at hs
      simp only at hs
      have z1 : Frame o s (s.setT t { s.th t with hold := fun _ => [] }) := .setT h _
      refine z1.trans ?_
      split at hs
      · split at hs <;> cases hs
        · exact .setPc h _
        · exact .leave h
      · split at hs
        · cases hs
        · split at hs
          · obtain ⟨s2, h2, h3⟩ := bind_ok hs
            cases h3
            exact (Frame.setT h _).trans (((closeSec_plain' h2).frame h).trans (.setPc h _))
          · cases hs; exact .setPc h _
    · cases hs; exact .refl s

theorem gcStep_th {s s' : St} {n : Nat} (hs : gcStep s n = .ok s') : s'.th = s.th := by
  unfold gcStep at hs
  split at hs
  · split at hs <;> cases hs <;> rfl
  · split at hs <;> cases hs <;> rfl
  · cases hs; rfl
  · split at hs
    · cases hs
    · split at hs <;> cases hs
      rfl
  · split at hs <;> cases hs
    rfl
  · split at hs
    · cases hs
    · split at hs <;> cases hs <;> rfl
  · split at hs
    · cases hs
    · split at hs <;> cases hs <;> rfl
  · split at hs
    · cases hs
    · split at hs <;> cases hs <;> rfl
  · obtain ⟨⟨s1, d⟩, h1, h2⟩ := bind_ok hs
    cases h2
    obtain ⟨_, h4⟩ := Eff.complete h1
    cases d <;> exact h4

/-! ### Blocks that stay pending -/

/-- Block `b` is pending at thread `t`, which is the collector or has its bit cleared. -/
def Stay (t b : Nat) (s : St) : Prop :=
  (∃ e ∈ (s.th t).pend, e.1 = b) ∧ (t ≠ 0 → (s.th t).needs % 2 = 0) ∧
    ((s.th t).pc = .user ∨ (t ≠ 0 ∧ ∃ m c, (s.th t).pc = .back m c .user))

/-- Events that end the stay. -/
def wakes (t : Nat) : Ev → Bool
  | .free u _ => u == t && t != 0
  | .fini u => u == t
  | _ => false

structure Idle (t : Nat) (s s' : St) : Prop where
  pend : (s'.th t).pend = (s.th t).pend
  needs : (s'.th t).needs = (s.th t).needs
  pc : (s'.th t).pc = (s.th t).pc

theorem Idle.refl {t : Nat} (s : St) : Idle t s s := ⟨rfl, rfl, rfl⟩
theorem Idle.trans {t : Nat} {a b c : St} (h : Idle t a b) (g : Idle t b c) : Idle t a c :=
  ⟨g.pend.trans h.pend, g.needs.trans h.needs, g.pc.trans h.pc⟩
theorem Idle.setT {t : Nat} {s : St} {x : Th} (h1 : x.pend = (s.th t).pend) (h2 : x.needs = (s.th t).needs)
    (h3 : x.pc = (s.th t).pc) : Idle t s (s.setT t x) := by
  have e : (s.setT t x).th t = x := upd_same _ _ _
  exact ⟨by rw [e]; exact h1, by rw [e]; exact h2, by rw [e]; exact h3⟩

theorem initEpoch_idle {s : St} {t : Nat} : Idle t s (initEpoch s t) := by
  unfold initEpoch
  split
  · exact .refl s
  · exact .setT rfl rfl rfl

theorem note_idle (s : St) (t : Nat) : Idle t s (noteBegin s t) ∧ Idle t s (noteEnd s t) := by
  refine ⟨.setT rfl rfl rfl, ?_⟩
  unfold noteEnd
  simp only
  first | exact .setT rfl rfl rfl | (split <;> exact .setT rfl rfl rfl)

theorem openSec_idle (s : St) (t i : Nat) : Idle t s (openSec s t i) := by
  have e : (openSec s t i).th t = _ := upd_same _ _ _
  exact ⟨by rw [e], by rw [e], by rw [e]⟩

theorem closeSec_idle {s s' : St} {t i : Nat} (hs : closeSec s t i = .ok s') : Idle t s s' := by
  unfold closeSec at hs
  simp only at hs
  split at hs <;> cases hs
  constructor <;> simp [St.setT]

theorem Stay.th {t b : Nat} {s s' : St} (h : Stay t b s) (e1 : (s'.th t).pend = (s.th t).pend)
    (e2 : (s'.th t).needs = (s.th t).needs) (e3 : (s'.th t).pc = (s.th t).pc) : Stay t b s' := by
  unfold Stay; rw [e1, e2, e3]; exact h

theorem Stay.idle {t b : Nat} {s s' : St} (h : Stay t b s) (e : Idle t s s') : Stay t b s' := h.th e.pend e.needs e.pc

theorem Stay.goOn {cfg : Conf} {t b a : Nat} {sel : List Nat} {s s' : St} (h : Stay t b s)
    (hs : goOn cfg s t a sel = .ok s') : Stay t b s' := by
  obtain ⟨h1, h2, h3⟩ := h
  rcases h3 with h3 | ⟨h0, m, c, h3⟩
  · simp only [Smr.goOn, h3] at hs
    cases hs
    exact ⟨h1, h2, .inl h3⟩
  · cases c with
    | none =>
      simp only [Smr.goOn, h3] at hs
      split at hs
      · cases hs
      · split at hs
        · cases hs
          have : decideOn s t m .user = s.setPc t .user := by
            unfold decideOn
            simp [h2 h0, finish]
          rw [this]
          exact ⟨by simpa [St.setPc, St.setT] using h1, fun h => by simpa [St.setPc, St.setT] using h2 h, .inl (by simp [St.setPc, St.setT])⟩
        · rename_i x r _
          cases hs
          exact ⟨by simpa [St.setPc, St.setT, St.setG] using h1, fun h => by simpa [St.setPc, St.setT, St.setG] using h2 h,
            .inr ⟨h0, m, some x, by simp [St.setPc, St.setT, St.setG]⟩⟩
    | some c =>
      simp only [Smr.goOn, h3] at hs
      obtain ⟨⟨s1, d⟩, h4, h5⟩ := bind_ok hs
      cases h5
      have e := (complete_frame (o := t) h4).th
      cases d
      · exact ⟨by simpa [e] using h1, fun h => by simpa [e] using h2 h, .inr ⟨h0, m, some c, by simpa [e] using h3⟩⟩
      · exact ⟨by simpa [St.setPc, St.setT, e] using h1, fun h => by simpa [St.setPc, St.setT, e] using h2 h,
            .inr ⟨h0, m, none, by simp [St.setPc, St.setT]⟩⟩

theorem Stay.step {cfg : Conf} {t b : Nat} {s s' : St} {e : Ev} (h : Stay t b s) (hw : wakes t e = false)
    (hs : step cfg s e = .ok s') : Stay t b s' := by
  cases hu : who e with
  | none =>
    cases e <;> simp only [who, reduceCtorEq] at hu
    have := gcStep_th hs
    exact h.th (by rw [this]) (by rw [this]) (by rw [this])
  | some u =>
    by_cases htu : t = u
    swap
    · have := (step_frame hu htu hs).th
      exact h.th (by rw [this]) (by rw [this]) (by rw [this])
    subst htu
    cases e <;> simp only [who, Option.some.injEq, reduceCtorEq] at hu <;> subst hu <;> simp only [Smr.step] at hs
    case go => exact h.goOn hs
    case init => 
      split at hs <;> cases hs
      · refine h.idle ((Idle.setT (x := { s.th _ with ret := true }) rfl rfl rfl).trans ⟨rfl, rfl, rfl⟩)
      · exact h
    case gcOn =>
      cases hs
      split
      · exact h
      · exact h.idle ((Idle.setT (x := { s.th 0 with ret := true, reg := true, sec := some 0 }) rfl rfl rfl).trans ⟨rfl, rfl, rfl⟩)
    case begin t =>
      split at hs
      · obtain ⟨s2, h2, h3⟩ := bind_ok hs
        cases h3
        refine h.idle (initEpoch_idle.trans ?_)
        unfold memBegin at h2
        simp only at h2
        split at h2
        · cases h2
        · split at h2 <;> cases h2
          · exact (openSec_idle _ _ _).trans (note_idle _ _).1
          · exact Idle.trans (.setT (by rfl) (by rfl) (by rfl)) (note_idle _ t).1
      · cases hs; exact h
    case end_ t =>
      split at hs
      · obtain ⟨s2, h2, h3⟩ := bind_ok hs
        cases h3
        refine h.idle (initEpoch_idle.trans ?_)
        unfold memEnd at h2
        simp only at h2
        split at h2
        · cases h2
        · split at h2
          · exact (closeSec_idle h2).trans (note_idle _ _).2
          · cases h2
            exact Idle.trans (.setT (by rfl) (by rfl) (by rfl)) (note_idle _ t).2
      · cases hs; exact h
    case resume =>
      split at hs <;> cases hs
      · exact h.idle (.setT rfl rfl rfl)
      · exact h
    case yield =>
      split at hs
      · cases hs; exact h
      · split at hs <;> cases hs
        · exact h.idle (.setT rfl rfl rfl)
        · exact h
    case alloc t b' =>
      split at hs <;> cases hs
      · exact h.idle ((initEpoch_idle (s := s) (t := t)).trans ⟨rfl, rfl, rfl⟩)
      · exact h
    case acq =>
      split at hs <;> cases hs
      · exact h.idle (.setT rfl rfl rfl)
      · exact h
    case free t b' =>
      have h0 : t = 0 := by simpa [wakes] using hw
      split at hs
      · have h' := h.idle (initEpoch_idle (s := s) (t := t))
        unfold safeFree at hs
        simp only at hs
        split at hs <;> cases hs
        · obtain ⟨⟨e, he, hb⟩, h2, h3⟩ := h'
          refine ⟨⟨e, ?_, hb⟩, fun h => absurd h0 h, ?_⟩
          · simp only [St.setT, Function.update_self]
            exact List.mem_append_left _ he
          · simpa only [St.setT, Function.update_self] using h3
        · exact h'
      · cases hs; exact h
    case old =>
      split at hs
      · rename_i hc
        have := h.2.1 hc.1
        omega
      · cases hs; exact h
    case maint =>
      split at hs <;> cases hs
      · rename_i hc
        obtain ⟨h1, h2, h3⟩ := h
        exact ⟨by simpa [St.setPc, St.setT] using h1, fun h => by simpa [St.setPc, St.setT] using h2 h,
          .inr ⟨hc.1, _, none, by simp only [St.setPc, St.setT, Function.update_self]; rfl⟩⟩
      · exact h
    case fini t => simp [wakes] at hw

theorem run_stay {cfg : Conf} {t b : Nat} {s s' : St} {es : List Ev} (h : Stay t b s) (hw : ∀ e ∈ es, wakes t e = false)
    (hs : run cfg s es = .ok s') : Stay t b s' := by
  induction es generalizing s with
  | nil => cases hs; exact h
  | cons e es ih =>
    obtain ⟨s1, h1, h2⟩ := run_cons hs
    exact ih (h.step (hw e (by simp)) h1) (fun e' he => hw e' (by simp [he])) h2

theorem Inv.stay {loc : Nat → Loc} {pos : Nat → Pos} {s : St} (h : Inv loc pos s) {t b : Nat} (hs : Stay t b s) :
    s.mem b = .retired := by
  obtain ⟨⟨e, he, rfl⟩, _⟩ := hs
  exact h.mem _ (by rw [((h.thr t).pend e he).1]; trivial)

/-! ### Lists in the queue of a thread that ended -/

/-- Thread `o` has ended, the collector is done with it, and list `F` with block `b` is in its queue. -/
structure Stuck (o F b : Nat) (s : St) : Prop where
  pc : (s.th o).pc = .dead
  cnt : (s.grs o).enq = (s.grs o).req
  gc : works s.gc ≠ some o
  queue : F ∈ (s.grs o).queue
  blk : ∃ x, s.ars F = some x ∧ b ∈ x.blks

theorem complete_ars {s s' : St} {a F : Nat} {d : Bool} (hs : complete s a = .ok (s', d)) (h : F ≠ a) : s'.ars F = s.ars F := by
  unfold complete at hs
  split at hs
  · cases hs
  · split at hs
    · cases hs; exact upd_other _ _ _ h
    · obtain ⟨s1, h1, h2⟩ := bind_ok hs
      cases h2
      unfold realFree at h1
      split at h1
      · cases h1; exact upd_other _ _ _ h
      · cases h1
      · cases h1

theorem finish_ars (s : St) (t : Nat) (k : K) : (finish s t k).ars = s.ars := by
  cases k <;> simp only [finish] <;> (try split) <;> rfl

theorem decideOn_ars (s : St) (t : Nat) (m : Meth) (k : K) : (decideOn s t m k).ars = s.ars := by
  unfold decideOn
  simp only
  generalize (if s.asynch = false ∧ m = .asynch then Meth.barrier else m) = m
  split
  · exact finish_ars _ _ _
  split
  · exact finish_ars _ _ _
  split
  · exact finish_ars _ _ _
  cases m <;> first | rfl | exact finish_ars _ _ _

theorem goOn_ars {cfg : Conf} {s s' : St} {t a F : Nat} {sel : List Nat} (hF : s.ars F ≠ none)
    (h1 : ∀ m k, (s.th t).pc ≠ .back m (some F) k) (h2 : (s.th t).pc ≠ .term (some F))
    (hs : goOn cfg s t a sel = .ok s') : s'.ars F = s.ars F := by
  unfold goOn at hs
  simp only at hs
  split at hs
  · cases hs; rfl
  · cases hs; rfl
  · split at hs
    · cases hs
    · split at hs <;> cases hs
      · rw [decideOn_ars]
      · rfl
  · rename_i m c k hp
    obtain ⟨⟨s1, d⟩, h3, h4⟩ := bind_ok hs
    cases h4
    have hc : F ≠ c := fun e => h1 m k (by rw [e]; exact hp)
    have := complete_ars h3 hc
    cases d <;> exact this
  · split at hs <;> cases hs <;> rfl
  · cases hs; rfl
  · cases hs; rw [finish_ars]
  · unfold realFree at hs
    split at hs <;> cases hs
    rfl
  · split at hs
    · rename_i hc
      cases hs
      exact upd_other _ _ _ (fun e => hF (by rw [e]; exact hc.1))
    · cases hs; rfl
  · split at hs
    · split at hs
      · cases hs
      · split at hs <;> cases hs
        rfl
    · cases hs; rfl
  · cases hs; rfl
  · split at hs <;> cases hs
    rw [finish_ars]; rfl
  · split at hs
    · cases hs
    · split at hs <;> cases hs <;> rfl
  · rename_i c hp
    obtain ⟨⟨s1, d⟩, h3, h4⟩ := bind_ok hs
    cases h4
    have hc : F ≠ c := fun e => h2 (by rw [e]; exact hp)
    have := complete_ars h3 hc
    cases d <;> exact this

theorem initEpoch_ars (s : St) (t : Nat) : (initEpoch s t).ars = s.ars ∧ (initEpoch s t).gc = s.gc := by
  unfold initEpoch; split <;> exact ⟨rfl, rfl⟩

theorem step_ars {cfg : Conf} {s s' : St} {e : Ev} (hg : ∀ t a sel, e ≠ .go t a sel) (hg2 : ∀ n, e ≠ .gc n)
    (hs : step cfg s e = .ok s') : s'.ars = s.ars ∧ s'.gc = s.gc := by
  cases e <;> simp only [Smr.step] at hs
  case go => exact absurd rfl (hg _ _ _)
  case gc => exact absurd rfl (hg2 _)
  case init => split at hs <;> cases hs <;> exact ⟨rfl, rfl⟩
  case gcOn => cases hs; split <;> exact ⟨rfl, rfl⟩
  case begin t =>
    split at hs
    · obtain ⟨s2, h2, h3⟩ := bind_ok hs
      cases h3
      unfold memBegin at h2
      simp only at h2
      have := initEpoch_ars s t
      split at h2
      · cases h2
      · split at h2 <;> cases h2 <;> exact this
    · cases hs; exact ⟨rfl, rfl⟩
  case end_ t =>
    split at hs
    · obtain ⟨s2, h2, h3⟩ := bind_ok hs
      cases h3
      have p := (note_plain s2 t).2
      unfold memEnd at h2
      simp only at h2
      have := initEpoch_ars s t
      split at h2
      · cases h2
      · split at h2
        · have q := closeSec_plain' h2
          exact ⟨p.ars.trans (q.ars.trans this.1), p.gc.trans (q.gc.trans this.2)⟩
        · cases h2
          exact ⟨p.ars.trans this.1, p.gc.trans this.2⟩
    · cases hs; exact ⟨rfl, rfl⟩
  case resume => split at hs <;> cases hs <;> exact ⟨rfl, rfl⟩
  case yield =>
    split at hs
    · cases hs; exact ⟨rfl, rfl⟩
    · split at hs <;> cases hs <;> exact ⟨rfl, rfl⟩
  case alloc t b => split at hs <;> cases hs <;> first | exact initEpoch_ars s t | exact ⟨rfl, rfl⟩
  case acq => split at hs <;> cases hs <;> exact ⟨rfl, rfl⟩
  case free t b =>
    split at hs
    · unfold safeFree at hs
      simp only at hs
      split at hs <;> cases hs <;> exact initEpoch_ars s t
    · cases hs; exact ⟨rfl, rfl⟩
  case old => split at hs <;> cases hs <;> exact ⟨rfl, rfl⟩
  case maint => split at hs <;> cases hs <;> exact ⟨rfl, rfl⟩
  case fini t =>
    split at hs
    · unfold finiStart at hs
      simp only at hs
      split at hs
      · split at hs <;> cases hs <;> exact ⟨rfl, rfl⟩
      · split at hs
        · cases hs
        · split at hs
          · obtain ⟨s2, h2, h3⟩ := bind_ok hs
            cases h3
            have q := closeSec_plain' h2
            exact ⟨q.ars, q.gc⟩
          · cases hs; exact ⟨rfl, rfl⟩
    · cases hs; exact ⟨rfl, rfl⟩

/-- A thread that ended does nothing. -/
theorem dead_step {cfg : Conf} {s s' : St} {e : Ev} {o : Nat} (h0 : o ≠ 0) (hd : (s.th o).pc = .dead) (hr : (s.th o).ret = false)
    (hw : who e = some o) (hs : step cfg s e = .ok s') : s' = s := by
  have ha : appl s o = false := by simp [appl, hr, h0]
  cases e <;> simp only [who, Option.some.injEq, reduceCtorEq] at hw <;>
    first
    | (subst hw; simp [Smr.step, ha, hd, hr, goOn] at hs; exact hs.symm)
    | exact absurd hw.symm h0
    | (subst hw; simp only [Smr.step, ha] at hs; split at hs <;> simp at hs <;> exact hs.symm)

theorem Stuck.out {o F b : Nat} {s : St} (h : Stuck o F b s) (j : J (core s)) : (core s).outs o = [] ∧ gaves s.gc ≠ some o := by
  have hc := j.count o
  have e1 : (core s).enq o = (core s).req o := h.cnt
  have e2 : isQ ((core s).pc o) = false := by show isQ (s.th o).pc = false; rw [h.pc]; rfl
  rw [e1, e2] at hc
  refine ⟨List.length_eq_zero_iff.1 (by simp at hc; omega), fun e => ?_⟩
  have e : gaves (core s).gc = some o := e
  simp [e] at hc
  omega

theorem Stuck.step {cfg : Conf} {o F b : Nat} {s s' : St} {e : Ev} (g : Good s) (h : Stuck o F b s)
    (hs : step cfg s e = .ok s') : Stuck o F b s' := by
  obtain ⟨⟨loc, pos, hi⟩, j, z⟩ := g
  have h0 : o ≠ 0 := by rintro rfl; have := h.pc; rw [z.pc] at this; cases this
  obtain ⟨ho, hga⟩ := h.out j
  have hpos := (hi.queue o F h.queue).1
  have hF := (hi.queue o F h.queue).2
  obtain ⟨x, hx, hb⟩ := h.blk
  cases hu : who e with
  | some u =>
    by_cases hou : o = u
    · subst hou
      rw [dead_step h0 h.pc (j.dead o h.pc) hu hs]; exact h
    have fr := step_frame hu hou hs
    by_cases hg : ∃ t a sel, e = .go t a sel
    · obtain ⟨t, a, sel, rfl⟩ := hg
      have htu : t = u := by cases hu; rfl
      subst htu
      have hp := (hi.thr t).pc
      have ha : s'.ars F = s.ars F := by
        refine goOn_ars hF ?_ ?_ hs
        · intro m k e
          rw [e] at hp; rw [hp.1] at hpos; cases hpos
        · intro e
          rw [e] at hp; rw [hp.1] at hpos; cases hpos
      have hgc : s'.gc = s.gc := by
        by_cases h00 : t = 0
        · subst h00
          simp only [Smr.step, goOn, z.pc] at hs
          cases hs; rfl
        · exact (goOn_keep h00 hs).gc
      exact ⟨by rw [fr.th]; exact h.pc, by rw [fr.gr]; exact h.cnt, by rw [hgc]; exact h.gc, by rw [fr.gr]; exact h.queue,
        x, by rw [ha]; exact hx, hb⟩
    · obtain ⟨ha, hgc⟩ := step_ars (fun t a sel e' => hg ⟨t, a, sel, e'⟩) (by rintro n rfl; cases hu) hs
      exact ⟨by rw [fr.th]; exact h.pc, by rw [fr.gr]; exact h.cnt, by rw [hgc]; exact h.gc, by rw [fr.gr]; exact h.queue,
        x, by rw [ha]; exact hx, hb⟩
  | none =>
    cases e <;> simp only [who, reduceCtorEq] at hu
    have hth := gcStep_th hs
    have H : s'.grs o = s.grs o → works s'.gc ≠ some o → s'.ars F = s.ars F → Stuck o F b s' := fun e1 e2 e3 =>
      ⟨by rw [hth]; exact h.pc, by rw [e1]; exact h.cnt, e2, by rw [e1]; exact h.queue, x, by rw [e3]; exact hx, hb⟩
    have hw := h.gc
    have hgo := hi.gc
    have hall : ∀ a ∈ gcSet s.gc, (s.ars a).map Ar.owner ≠ some o := by
      intro a ha e
      have : a ∈ (core s).outs o := by
        unfold C.outs C.out
        rw [List.mem_filter]
        exact ⟨List.mem_append_left _ ha, by simpa [core] using e⟩
      rw [ho] at this; cases this
    simp only [Smr.step] at hs
    unfold gcStep at hs
    split at hs
    · split at hs <;> cases hs
      · exact H rfl (by simp [works]) rfl
      · exact h
    · split at hs <;> cases hs
      · exact H rfl (by simp [works]) rfl
      · exact h
    · cases hs; exact H rfl (by simp [works]) rfl
    · rename_i a r hg
      split at hs
      · cases hs
      · rename_i ar har
        have hne : o ≠ ar.owner := by
          intro e
          refine hall a (by rw [hg]; simp [gcSet]) ?_
          rw [har, e]; rfl
        split at hs <;> cases hs
        exact H (upd_other _ _ _ hne) (by simp [works]) rfl
    · rename_i a o' r hg
      rw [hg] at hga
      have hne : o ≠ o' := fun e => hga (by simp [gaves, e])
      split at hs <;> cases hs
      exact H (upd_other _ _ _ hne) (by simp only [works]; intro e; cases e; exact hne rfl) rfl
    · rename_i a o' r hg
      rw [hg] at hw
      split at hs
      · cases hs
      · split at hs <;> cases hs
        · exact H rfl hw rfl
        · exact H rfl (by simp [works]) rfl
    · rename_i a o' r hg
      rw [hg] at hw
      split at hs
      · cases hs
      · split at hs <;> cases hs
        · exact H rfl hw rfl
        · exact H rfl (by simp [works]) rfl
    · rename_i o' r hg
      rw [hg] at hw
      have hne : o ≠ o' := fun e => hw (by simp [works, e])
      split at hs
      · cases hs
      · split at hs <;> cases hs
        · exact H (upd_other _ _ _ hne) (by simp [works]) rfl
        · exact H (upd_other _ _ _ hne) hw rfl
    · rename_i o' c r hg
      rw [hg] at hw hgo
      have hne : o ≠ o' := fun e => hw (by simp [works, e])
      obtain ⟨⟨s1, d⟩, h3, h4⟩ := bind_ok hs
      cases h4
      have hc : F ≠ c := fun e => by rw [e, hgo.1] at hpos; cases hpos
      have e1 := complete_ars h3 hc
      have e2 := (complete_frame (o := o) h3).gr
      have e3 := (complete_keep h3).gc
      cases d
      · exact H e2 (by simp only [Bool.false_eq_true, if_false]; rw [e3, hg]; exact hw) e1
      · exact H e2 hw e1

theorem run_stuck {cfg : Conf} (he : cfg.early = false) (hr : cfg.reuse = false) {o F b : Nat} {s s' : St} {es : List Ev}
    (g : Good s) (h : Stuck o F b s) (hs : run cfg s es = .ok s') : Good s' ∧ Stuck o F b s' := by
  induction es generalizing s with
  | nil => cases hs; exact ⟨g, h⟩
  | cons e es ih =>
    obtain ⟨s1, h1, h2⟩ := run_cons hs
    rcases step_good he hr g e with ⟨s2, h3, g2⟩ | ⟨h3, _⟩
    · rw [h1] at h3; cases h3
      exact ih g2 (h.step g h1) h2
    · rw [h1] at h3; cases h3

theorem run_good {cfg : Conf} (he : cfg.early = false) (hr : cfg.reuse = false) {s s' : St} {es : List Ev}
    (g : Good s) (hs : run cfg s es = .ok s') : Good s' := by
  induction es generalizing s with
  | nil => cases hs; exact g
  | cons e es ih =>
    obtain ⟨s1, h1, h2⟩ := run_cons hs
    rcases step_good he hr g e with ⟨s2, h3, g2⟩ | ⟨h3, _⟩
    · rw [h1] at h3; cases h3
      exact ih g2 h2
    · rw [h1] at h3; cases h3

theorem Stuck.retired {o F b : Nat} {s : St} (g : Good s) (h : Stuck o F b s) : s.mem b = .retired := by
  obtain ⟨⟨loc, pos, hi⟩, _, _⟩ := g
  obtain ⟨x, hx, hb⟩ := h.blk
  exact hi.mem b (by rw [(hi.ars F x hx).loc b hb]; trivial)

/-! ### Accounting -/

/-- The log against the blocks and the events so far. -/
structure Acc (es : List Ev) (s : St) : Prop where
  nodup : s.log.Nodup
  log : ∀ b, b ∈ s.log ↔ s.mem b = .freed
  asked : ∀ b, s.mem b = .retired ∨ s.mem b = .freed → ∃ t, .free t b ∈ es
  kept : ∀ b, s.mem b = .retired → Listed s b ∨ Ended s
  fresh : ∀ b, Listed s b → s.mem b = .retired ∨ s.mem b = .freed

theorem Acc.step {cfg : Conf} {es : List Ev} {s s' : St} {e : Ev} (h : Acc es s) (hs : step cfg s e = .ok s') :
    Acc (es ++ [e]) s' := by
  have key : ∀ u : St, Eff s u → Acc es u := by
    intro u hu
    refine ⟨hu.nodup h.nodup (fun b hb => (h.log b).1 hb), ?_, ?_, ?_, ?_⟩
    · intro b
      rcases hu.mem b with ⟨h1, h2⟩ | ⟨_, _, h3, h4⟩
      · rw [h1, h2]; exact h.log b
      · exact ⟨fun _ => h3, fun _ => h4⟩
    · intro b hb
      rcases hu.mem b with ⟨h1, _⟩ | ⟨_, h2, _, _⟩
      · rw [h1] at hb; exact h.asked b hb
      · exact h.asked b (.inl h2)
    · intro b hb
      rcases hu.mem b with ⟨h1, _⟩ | ⟨_, _, h3, _⟩
      · rcases h.kept b (h1 ▸ hb) with h2 | h2
        · rcases hu.kept b h2 with h3 | h3 | h3
          · exact .inl h3
          · rw [h3] at hb; cases hb
          · exact .inr h3
        · exact .inr (hu.ended h2)
      · rw [h3] at hb; cases hb
    · intro b hb
      have := h.fresh b (hu.lst b hb)
      rcases hu.mem b with ⟨h1, _⟩ | ⟨_, _, h3, _⟩
      · rw [h1]; exact this
      · exact .inr h3
  have mono : ∀ b, (∃ t, Ev.free t b ∈ es) → ∃ t, Ev.free t b ∈ es ++ [e] := fun b ⟨t, ht⟩ => ⟨t, List.mem_append_left _ ht⟩
  rcases step_eff hs with h1 | ⟨t, b, rfl, hb, h1, hm⟩ | ⟨t, b, rfl, hb, hm, hl, h1, h2, h3⟩
  · have a := key _ h1
    exact ⟨a.nodup, a.log, fun b hb => mono b (a.asked b hb), a.kept, a.fresh⟩
  · have a := key _ h1
    have e : ∀ x, s'.mem x = if x = b then .live else s.mem x := by intro x; rw [hm, Function.update_apply]
    refine ⟨a.nodup, ?_, ?_, ?_, ?_⟩
    · intro x
      rw [e]
      split
      · rename_i hx
        subst hx
        refine ⟨fun hl => ?_, fun h => by cases h⟩
        have : s.mem x = .freed := (a.log x).1 hl
        rw [hb] at this; cases this
      · exact a.log x
    · intro x hx
      rw [e] at hx
      split at hx
      · rcases hx with hx | hx <;> cases hx
      · exact mono x (a.asked x hx)
    · intro x hx
      rw [e] at hx
      split at hx
      · cases hx
      · exact a.kept x hx
    · intro x hx
      have h5 : s.mem x = .retired ∨ s.mem x = .freed := a.fresh x hx
      rw [e]
      split
      · rename_i hxb
        subst hxb
        rw [hb] at h5; rcases h5 with h5 | h5 <;> cases h5
      · exact h5
  · have e : ∀ x, s'.mem x = if x = b then .retired else s.mem x := by intro x; rw [hm, Function.update_apply]
    refine ⟨by rw [hl]; exact h.nodup, ?_, ?_, ?_, ?_⟩
    · intro x
      rw [hl, e, h.log]
      split
      · rename_i hx; subst hx; rw [hb]; simp
      · exact Iff.rfl
    · intro x hx
      by_cases hxb : x = b
      · subst hxb; exact ⟨t, by simp⟩
      · rw [e, if_neg hxb] at hx; exact mono x (h.asked x hx)
    · intro x hx
      by_cases hxb : x = b
      · subst hxb; exact .inl h1
      · rw [e, if_neg hxb] at hx
        rcases h.kept x hx with h4 | h4
        · exact .inl ((h2 x hxb).2 h4)
        · exact .inr (h3 h4)
    · intro x hx
      by_cases hxb : x = b
      · subst hxb; rw [e, if_pos rfl]; exact .inl rfl
      · rw [e, if_neg hxb]; exact h.fresh x ((h2 x hxb).1 hx)

theorem run_acc {cfg : Conf} {es fs : List Ev} {s s' : St} (h : Acc es s) (hs : run cfg s fs = .ok s') : Acc (es ++ fs) s' := by
  induction fs generalizing s es with
  | nil => cases hs; simpa using h
  | cons e fs ih =>
    obtain ⟨s1, h1, h2⟩ := run_cons hs
    have := ih (h.step h1) h2
    simpa using this

theorem acc_start : Acc [] {} := by
  refine ⟨by simp, fun b => by simp, fun b hb => by simp at hb, fun b hb => by simp at hb, fun b hb => ?_⟩
  obtain ⟨t, ⟨e, he, _⟩ | hb⟩ | ⟨a, x, hx, _⟩ := hb
  · simp at he
  · simp [dispOf] at hb
  · simp at hx

/-- A block nobody knows of any more stays that way. -/
theorem run_lost {cfg : Conf} {es : List Ev} {s s' : St} {b : Nat} (hb : s.mem b = .retired) (hl : ¬ Listed s b)
    (hs : run cfg s es = .ok s') : s'.mem b = .retired := by
  induction es generalizing s with
  | nil => cases hs; exact hb
  | cons e es ih =>
    obtain ⟨s1, h1, h2⟩ := run_cons hs
    rcases step_eff h1 with h3 | ⟨t, c, rfl, hc, h3, hm⟩ | ⟨t, c, rfl, hc, hm, _, _, h5, _⟩
    · refine ih ?_ (fun h => hl (h3.lst b h)) h2
      rcases h3.mem b with ⟨h4, _⟩ | ⟨h4, _⟩
      · rw [h4]; exact hb
      · exact absurd h4 hl
    · refine ih (s := s1) ?_ (fun h => hl (h3.lst b h)) h2
      rw [hm, upd_other _ _ _ (by rintro rfl; rw [hb] at hc; cases hc)]
      exact hb
    · have hne : b ≠ c := by rintro rfl; rw [hb] at hc; cases hc
      refine ih ?_ (fun h => hl ((h5 b hne).1 h)) h2
      rw [hm, upd_other _ _ _ hne]
      exact hb

end Mtev.Smr
