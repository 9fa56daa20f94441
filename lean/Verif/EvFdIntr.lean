import Verif.EvFdKern

/-!
Programs that keep the rules, continued: what the kernel is asked to report.
-/

namespace Mtev.EvFd

variable {n : Nat} (fdOf : Nat → Nat)

/-- No thread's epoll set has `f`. -/
def NoneAt (f : Nat) (s : St n) : Prop := ∀ u, s.intr u f = none

/-- The epoll set of `t` and no other has `f`. -/
def At (f : Nat) (s : St n) (t : Fin n) : Prop := (∀ v, v ≠ t → s.intr v f = none) ∧ ∃ p, s.intr t f = some p

/-- The epoll set of `t` and no other has `f`, for `p`. -/
def Exact (f : Nat) (s : St n) (t : Fin n) (p : Ep) : Prop := (∀ v, v ≠ t → s.intr v f = none) ∧ s.intr t f = some p

/-- What the kernel is asked for is what is registered. -/
structure K0 (f : Nat) (s : St n) : Prop where
  none : s.slot f = none → NoneAt f s
  at' : ∀ e, s.slot f = some e → At f s (s.owner e)
  val : ∀ e, s.slot f = some e → s.mask e ≠ .zero → Exact f s (s.owner e) (toEp (s.mask e))

/-- The same while the callback of `e` returns. -/
structure KC (f : Nat) (s : St n) (t : Fin n) (e : Nat) : Prop where
  own : s.slot f = some e → At f s t
  other : s.slot f ≠ some e → K0 f s

/-- The kernel's interest in the frames of `f`. -/
def Kf (f : Nat) (s : St n) (t : Fin n) : Frame n → Prop
  | .put _ e sp ep => s.slot f = some e ∧ s.owner e = sp ∧ ep = toEp (s.mask e) ∧ s.mask e ≠ .zero ∧ NoneAt f s
  | .del _ _ sp => s.slot f = none ∧ ∀ v, v ≠ sp → s.intr v f = none
  | .readd e _ => s.slot f = some e ∧ s.owner e = t ∧ s.mask e = .zero ∧ NoneAt f s
  | .cb e true => KC f s t e
  | .fin e _ => KC f s t e
  | .mvDel e nm => nm ≠ .zero ∧ s.slot f = some e ∧ At f s t
  | .mvAdd e nm => nm ≠ .zero ∧ s.slot f = some e ∧ NoneAt f s
  | .modE e nm => nm ≠ .zero ∧ s.slot f = some e ∧ s.owner e = t ∧ At f s t
  | .setM e nm => nm ≠ .zero ∧ ((s.slot f = some e ∧ Exact f s (s.owner e) (toEp nm)) ∨ (s.slot f = none ∧ NoneAt f s))
  | .upd e sp _ ep => s.slot f = some e ∧ s.owner e = t ∧ sp = t ∧ At f s t ∧ ep = toEp (s.mask e) ∧ s.mask e ≠ .zero
  | _ => K0 f s

/-- The kernel's interest with a frame on top. -/
def Kc (f : Nat) (s : St n) (t : Fin n) (fr : Frame n) : Prop := if fr.fd fdOf = f then Kf f s t fr else K0 f s

/-- The kernel's interest with a stack. -/
def KT (f : Nat) (s : St n) (t : Fin n) : List (Frame n) → Prop
  | [] => K0 f s
  | fr :: _ => Kc fdOf f s t fr

/-- Frames in which the kernel's interest may be behind. -/
def Frame.stage : Frame n → Bool
  | .put _ _ _ _ => true
  | .del _ _ _ => true
  | .readd _ _ => true
  | .cb _ true => true
  | .fin _ _ => true
  | .mvDel _ _ => true
  | .mvAdd _ _ => true
  | .modE _ _ => true
  | .setM _ _ => true
  | .upd _ _ _ _ => true
  | _ => false

/-- The thread is in such a frame of `f`. -/
def Stage (f : Nat) (l : List (Frame n)) : Prop := ∃ fr rest, l = fr :: rest ∧ fr.stage = true ∧ fr.fd fdOf = f

theorem kf_other {f : Nat} {s : St n} {t : Fin n} {fr : Frame n} (h : fr.stage = false) : Kf f s t fr = K0 f s := by
  cases fr with
  | cb e mv => cases mv <;> simp [Frame.stage] at h; rfl
  | _ => first | rfl | simp [Frame.stage] at h

theorem kt_other {f : Nat} {s : St n} {t : Fin n} {l : List (Frame n)} (h : ¬ Stage fdOf f l) : KT fdOf f s t l ↔ K0 f s := by
  cases l with
  | nil => exact Iff.rfl
  | cons fr rest =>
    show Kc fdOf f s t fr ↔ K0 f s
    unfold Kc
    split
    · next hf =>
      rw [kf_other]
      by_contra hc
      exact h ⟨fr, rest, rfl, by simpa using hc, hf⟩
    · exact Iff.rfl

theorem low_not_stage {fr : Frame n} {rest : List (Frame n)} (h : Low (fr :: rest)) (f : Nat) : ¬ Stage fdOf f rest := by
  rintro ⟨g, r, rfl, h1, _⟩
  obtain ⟨e, rfl⟩ := h.cb g (by simp)
  cases h1

/-- A thread in such a frame has the lock. -/
theorem stage_held {s : St n} (hb : Base fdOf s) {t : Fin n} (hl : Low (s.stk t)) {f : Nat} (h : Stage fdOf f (s.stk t)) :
    cntO fdOf f (s.stk t) = 1 := by
  obtain ⟨fr, rest, hst, h1, h2⟩ := h
  have one := (hb.lock f).one t
  have up : 1 ≤ cntO fdOf f (s.stk t) := by
    by_cases ho : fr.ow fdOf f = true
    · exact cnt_mem fdOf (by rw [hst]; simp) ho
    · by_cases hn : fr.nested fdOf = some f
      · have := hb.nested t fr rest f hst hn
        rw [hst, cntO_cons]; omega
      · cases fr with
        | upd e sp ad ep =>
          obtain ⟨r, hr⟩ := hl.upd e sp ad ep rest hst
          exact cnt_mem fdOf (fr := .cb e false) (by rw [hst, hr]; simp) (by simpa [Frame.ow, Frame.st, Frame.fd] using h2)
        | put own e sp ep =>
          cases own
          · exact absurd (by simpa [Frame.nested, Frame.fd] using h2) hn
          · exact absurd (by simpa [Frame.ow, Frame.st, Frame.fd] using h2) ho
        | del own g sp =>
          cases own
          · exact absurd (by simpa [Frame.nested, Frame.fd] using h2) hn
          · exact absurd (by simpa [Frame.ow, Frame.st, Frame.fd] using h2) ho
        | _ => first | (simp [Frame.stage] at h1; done) | exact absurd (by simpa [Frame.ow, Frame.st, Frame.fd] using h2) ho
  omega

theorem ow_fd {fr : Frame n} {f : Nat} (h : fr.ow fdOf f = true) : fr.fd fdOf = f := by
  cases fr with
  | body o j => cases o <;> simp [Frame.ow, Frame.st] at h; exact h
  | put o e sp ep => cases o <;> simp [Frame.ow, Frame.st] at h; exact h
  | del o g sp => cases o <;> simp [Frame.ow, Frame.st] at h; exact h
  | _ => simp [Frame.ow, Frame.st] at h <;> exact h

theorem keeps_refl (f : Nat) (s : St n) : Keeps fdOf f s s := ⟨rfl, fun _ => rfl, fun _ _ => rfl, fun _ _ => rfl⟩

/-- While a thread has the lock of `f` the others leave `f` alone. -/
theorem hold_keeps {s : St n} (hb : Base fdOf s) (hp : PInv fdOf s) (hso : SlotOk fdOf s) {t v : Fin n} (hl : Low (s.stk t))
    (hv : v ≠ t) {a : Act n} (hg : Good fdOf s t a) {f : Nat} (hh : cntO fdOf f (s.stk v) = 1) : Keeps fdOf f s (act fdOf s t a) := by
  have ht : cntO fdOf f (s.stk t) = 0 := by
    have h1 := (hb.lock f).one t
    by_contra hc
    exact hv ((hb.lock f).uniq v t hh (by omega))
  obtain ⟨g, hgm, hgo⟩ := List.countP_pos_iff.1 (show 0 < cntO fdOf f (s.stk v) by omega)
  have hgf := ow_fd fdOf hgo
  have hcb : ∀ e mv rest, s.stk t = .cb e mv :: rest → fdOf e ≠ f := by
    intro e mv rest hst he
    have := cnt_mem fdOf (f := f) (fr := .cb e mv) (l := s.stk t) (by rw [hst]; simp) (by simpa [Frame.ow, Frame.st] using he)
    omega
  have ne : ∀ {e x}, fdOf e ≠ f → fdOf x = f → x ≠ e := fun h1 h2 h3 => h1 (h3 ▸ h2)
  by_cases hd : s.dead = true
  · have e0 : act fdOf s t a = s := by simp [act, hd]
    rw [e0]; exact keeps_refl fdOf f s
  have hd' : s.dead = false := by simpa using hd
  cases a with
  | go =>
    cases hst : s.stk t with
    | nil =>
      have e0 : act fdOf s t .go = s := by simp [act, hst]
      rw [e0]; exact keeps_refl fdOf f s
    | cons fr rest =>
      have e0 : act fdOf s t .go = frameStep fdOf s t rest fr := by simp [act, hd, hst]
      rw [e0]
      by_cases hf : fr.fd fdOf = f
      · have hns : fr.stage = false := by
          by_contra hc
          have := stage_held fdOf hb hl ⟨fr, rest, hst, by simpa using hc, hf⟩
          omega
        have how : fr.ow fdOf f = false := by
          by_contra hc
          have := cnt_mem fdOf (f := f) (fr := fr) (l := s.stk t) (by rw [hst]; simp) (by simpa using hc)
          omega
        cases fr with
        | body o j =>
          have := body_holds fdOf hb hst
          rw [show j.fd fdOf = f from hf] at this
          omega
        | _ =>
          first
            | (simp [Frame.stage] at hns; done)
            | (simp only [frameStep] <;> (repeat' split) <;> exact ⟨rfl, fun _ => rfl, fun _ _ => rfl, fun _ _ => rfl⟩)
      · exact frame_keeps fdOf hf hso
  | add e m =>
    have he : fdOf e ≠ f := by
      intro he
      exact hv (hg.2.2.2.1 v g hgm (hgf.trans he.symm)).1
    simp only [act, hd']
    repeat' split
    all_goals first | exact ⟨rfl, fun _ => rfl, fun _ _ => rfl, fun _ _ => rfl⟩ | skip
    exact ⟨rfl, fun _ => rfl, fun x hx => ch_other _ _ _ _ (ne he hx), fun _ _ => rfl⟩
  | update e m =>
    obtain ⟨⟨rest, hst⟩, _⟩ := hg
    have he := hcb e false rest hst
    simp only [act, hd']
    repeat' split
    all_goals first | exact ⟨rfl, fun _ => rfl, fun _ _ => rfl, fun _ _ => rfl⟩ | skip
    all_goals exact ⟨rfl, fun _ => rfl, fun x hx => ch_other _ _ _ _ (ne he hx), fun _ _ => rfl⟩
  | setOwner e u =>
    have he : fdOf e ≠ f := by
      rcases hg with ⟨⟨rest, hst⟩, _⟩ | ⟨_, _, h2, _⟩
      · exact hcb e false rest hst
      · intro he; exact h2 v g hgm (hgf.trans he.symm)
    simp only [act, hd']
    repeat' split
    all_goals first | exact ⟨rfl, fun _ => rfl, fun _ _ => rfl, fun _ _ => rfl⟩ | skip
    all_goals exact ⟨rfl, fun _ => rfl, fun _ _ => rfl, fun x hx => ch_other _ _ _ _ (ne he hx)⟩
  | fire =>
    simp only [act, hd']
    repeat' split
    all_goals exact ⟨rfl, fun _ => rfl, fun _ _ => rfl, fun _ _ => rfl⟩
  | _ =>
    simp only [act, hd'] <;> (repeat' split) <;> exact ⟨rfl, fun _ => rfl, fun _ _ => rfl, fun _ _ => rfl⟩

theorem k0_keeps {f : Nat} {s s' : St n} (hso : SlotOk fdOf s) (hk : Keeps fdOf f s s') (h : K0 f s) : K0 f s' := by
  constructor
  · intro h1 u
    rw [hk.intr]; exact h.none (hk.slot ▸ h1) u
  · intro e h1
    rw [hk.slot] at h1
    rw [hk.owner e (hso f e h1)]
    obtain ⟨a, p, b⟩ := h.at' e h1
    exact ⟨fun v hv => by rw [hk.intr]; exact a v hv, p, by rw [hk.intr]; exact b⟩
  · intro e h1 h2
    rw [hk.slot] at h1
    rw [hk.owner e (hso f e h1)]
    rw [hk.mask e (hso f e h1)] at h2 ⊢
    obtain ⟨a, b⟩ := h.val e h1 h2
    exact ⟨fun v hv => by rw [hk.intr]; exact a v hv, by rw [hk.intr]; exact b⟩

theorem none_keeps {f : Nat} {s s' : St n} (hk : Keeps fdOf f s s') (h : NoneAt f s) : NoneAt f s' := fun u => by rw [hk.intr]; exact h u

theorem at_keeps {f : Nat} {s s' : St n} {t : Fin n} (hk : Keeps fdOf f s s') (h : At f s t) : At f s' t := by
  obtain ⟨a, p, b⟩ := h
  exact ⟨fun v hv => by rw [hk.intr]; exact a v hv, p, by rw [hk.intr]; exact b⟩

theorem exact_keeps {f : Nat} {s s' : St n} {t : Fin n} {p : Ep} (hk : Keeps fdOf f s s') (h : Exact f s t p) : Exact f s' t p := by
  obtain ⟨a, b⟩ := h
  exact ⟨fun v hv => by rw [hk.intr]; exact a v hv, by rw [hk.intr]; exact b⟩

theorem kc_keeps {f : Nat} {s s' : St n} (hso : SlotOk fdOf s) (hk : Keeps fdOf f s s') {t : Fin n} {fr : Frame n}
    (h : Kc fdOf f s t fr) : Kc fdOf f s' t fr := by
  unfold Kc at h ⊢
  split
  · next hf =>
    rw [if_pos hf] at h
    have kc : ∀ e, KC f s t e → KC f s' t e := fun e h => by
      constructor
      · intro h1; rw [hk.slot] at h1; exact at_keeps fdOf hk (h.own h1)
      · intro h1; rw [hk.slot] at h1; exact k0_keeps fdOf hso hk (h.other h1)
    cases fr with
    | cb e mv =>
      cases mv
      · exact k0_keeps fdOf hso hk h
      · exact kc e h
    | fin e nm => exact kc e h
    | put o e sp ep =>
      obtain ⟨a, b, c, d, x⟩ := h
      exact ⟨by rw [hk.slot]; exact a, by rw [hk.owner e hf]; exact b, by rw [hk.mask e hf]; exact c, by rw [hk.mask e hf]; exact d,
        none_keeps fdOf hk x⟩
    | del o g sp => exact ⟨by rw [hk.slot]; exact h.1, fun v hv => by rw [hk.intr]; exact h.2 v hv⟩
    | readd e m =>
      obtain ⟨a, b, c, x⟩ := h
      exact ⟨by rw [hk.slot]; exact a, by rw [hk.owner e hf]; exact b, by rw [hk.mask e hf]; exact c, none_keeps fdOf hk x⟩
    | mvDel e nm => exact ⟨h.1, by rw [hk.slot]; exact h.2.1, at_keeps fdOf hk h.2.2⟩
    | mvAdd e nm => exact ⟨h.1, by rw [hk.slot]; exact h.2.1, none_keeps fdOf hk h.2.2⟩
    | modE e nm => exact ⟨h.1, by rw [hk.slot]; exact h.2.1, by rw [hk.owner e hf]; exact h.2.2.1, at_keeps fdOf hk h.2.2.2⟩
    | setM e nm =>
      refine ⟨h.1, ?_⟩
      rcases h.2 with ⟨a, b⟩ | ⟨a, b⟩
      · exact .inl ⟨by rw [hk.slot]; exact a, by rw [hk.owner e hf]; exact exact_keeps fdOf hk b⟩
      · exact .inr ⟨by rw [hk.slot]; exact a, none_keeps fdOf hk b⟩
    | upd e sp ad ep =>
      obtain ⟨a, b, c, d, x, y⟩ := h
      exact ⟨by rw [hk.slot]; exact a, by rw [hk.owner e hf]; exact b, c, at_keeps fdOf hk d, by rw [hk.mask e hf]; exact x,
        by rw [hk.mask e hf]; exact y⟩
    | _ => exact k0_keeps fdOf hso hk h
  · next hf => rw [if_neg hf] at h; exact k0_keeps fdOf hso hk h

/-! ### The step of the thread itself -/

theorem upd_intr (i : Fin n → Nat → Option Ep) (sp u : Fin n) (f : Nat) (v : Option Ep) :
    Mtev.upd i sp (ch (i sp) f v) u f = if u = sp then v else i u f := by
  by_cases h : u = sp
  · subst h; simp [ch]
  · simp [upd_other _ _ _ _ h, h]

theorem epAdd_none {s : St n} {sp : Fin n} {f : Nat} {ep : Ep} (h : NoneAt f s) :
    ∃ i, epAdd s sp f ep = some i ∧ (∀ v, v ≠ sp → i v f = none) ∧ i sp f = some ep := by
  refine ⟨_, by unfold epAdd; rw [h sp], fun v hv => ?_, ?_⟩
  · rw [upd_intr, if_neg hv]; exact h v
  · rw [upd_intr, if_pos rfl]

theorem epEither_at {s : St n} {sp : Fin n} {f : Nat} {ep : Ep} (b : Bool) (h : At f s sp) :
    ∃ i, epEither s b sp f ep = some i ∧ (∀ v, v ≠ sp → i v f = none) ∧ i sp f = some ep := by
  obtain ⟨h1, p, h2⟩ := h
  refine ⟨Mtev.upd s.intr sp (ch (s.intr sp) f (some ep)), ?_, fun v hv => ?_, ?_⟩
  · cases b <;> simp [epEither, epAdd, epMod, h2]
  · rw [upd_intr, if_neg hv]; exact h1 v hv
  · rw [upd_intr, if_pos rfl]

theorem epDel_none {s : St n} {sp : Fin n} {f : Nat} (h : ∀ v, v ≠ sp → s.intr v f = none) (u : Fin n) :
    ((epDel s sp f).getD s.intr) u f = none := by
  unfold epDel
  cases h2 : s.intr sp f with
  | none =>
    simp only [Option.getD]
    by_cases hu : u = sp
    · rw [hu]; exact h2
    · exact h u hu
  | some p =>
    simp only [Option.getD]
    rw [upd_intr]
    split
    · rfl
    · next hu => exact h u hu

/-- Two states that agree on `f`. -/
theorem k0_same {f : Nat} {s s' : St n} (h1 : s'.slot = s.slot) (h2 : s'.intr = s.intr) (h3 : s'.mask = s.mask) (h4 : s'.owner = s.owner)
    (h : K0 f s) : K0 f s' := by
  constructor
  · intro a u; rw [h2]; exact h.none (h1 ▸ a) u
  · intro e a; unfold At; rw [h2, h4]; exact h.at' e (h1 ▸ a)
  · intro e a b
    rw [h3] at b ⊢
    unfold Exact
    rw [h2, h4]; exact h.val e (h1 ▸ a) b

/-- The step of a frame, for the descriptor of the frame. -/
theorem kt_go {s : St n} (hp : PInv fdOf s) {t : Fin n} (hl : Low (s.stk t)) {fr0 : Frame n} {rest : List (Frame n)}
    (hst : s.stk t = fr0 :: rest) (hk : Kf (fr0.fd fdOf) s t fr0) :
    KT fdOf (fr0.fd fdOf) (frameStep fdOf s t rest fr0) t ((frameStep fdOf s t rest fr0).stk t) := by
  have h0 := hp t fr0 (by rw [hst]; simp)
  generalize hf : fr0.fd fdOf = f at hk ⊢
  have low : ∀ (s' : St n), K0 f s' → KT fdOf f s' t rest := by
    intro s' h
    rw [kt_other fdOf (low_not_stage fdOf (hst ▸ hl) f)]
    exact h
  have lw : ∀ (s' : St n), K0 f (nxt s' t rest) → KT fdOf f (nxt s' t rest) t ((nxt s' t rest).stk t) := by
    intro s' h
    rw [nxt_stk]; exact low _ h
  have top : ∀ (s' : St n) (fr1 : Frame n), fr1.fd fdOf = f → Kf f (nxt s' t (fr1 :: rest)) t fr1 →
      KT fdOf f (nxt s' t (fr1 :: rest)) t ((nxt s' t (fr1 :: rest)).stk t) := by
    intro s' fr1 h1 h2
    rw [nxt_stk]
    show Kc fdOf f _ t fr1
    unfold Kc
    rw [if_pos h1]
    exact h2
  have fn : ∀ (s' : St n) own, K0 f (nxt s' t (fini own f rest)) →
      KT fdOf f (nxt s' t (fini own f rest)) t ((nxt s' t (fini own f rest)).stk t) := by
    intro s' own h
    cases own
    · exact lw s' h
    · exact top s' (.relA f none) rfl h
  cases fr0 with
  | tryL j =>
    simp only [frameStep]
    split
    · exact top s (.chk j) hf (k0_same (s := s) rfl rfl rfl rfl hk)
    · exact top { s with lock := ch s.lock (j.fd fdOf) true } (.setEx j) hf (k0_same (s := s) rfl rfl rfl rfl hk)
  | chk j =>
    simp only [frameStep]
    split
    · exact top s (.body false j) hf (k0_same (s := s) rfl rfl rfl rfl hk)
    · exact top s (.spin j) hf (k0_same (s := s) rfl rfl rfl rfl hk)
  | spin j =>
    simp only [frameStep]
    split
    · rw [hst]
      show Kc fdOf f s t _
      unfold Kc
      rw [if_pos hf]; exact hk
    · exact top { s with lock := ch s.lock (j.fd fdOf) true } (.setEx j) hf (k0_same (s := s) rfl rfl rfl rfl hk)
  | setEx j => exact top { s with ex := ch s.ex (j.fd fdOf) (some t) } (.body true j) hf (k0_same (s := s) rfl rfl rfl rfl hk)
  | body own j =>
    have hk : K0 f s := hk
    cases j with
    | add e sp ep =>
      have hf : fdOf e = f := hf
      obtain ⟨a, b, c, d, _⟩ := h0
      refine top { s with slot := ch s.slot (fdOf e) (some e), reg := ch s.reg e (s.reg e + 1) } (.put own e sp ep) hf ?_
      exact ⟨by rw [← hf]; exact ch_same .., b, c, d, hk.none (hf ▸ a)⟩
    | rem e sp =>
      have hf : fdOf e = f := hf
      simp only [frameStep, bodyStep]
      split
      · next hs =>
        refine top { s with slot := ch s.slot (fdOf e) none, out := ch s.out e (s.out e + 1) } (.del own (fdOf e) sp) hf ?_
        have hat := hk.at' e (hf ▸ hs)
        rw [h0.1, ← h0.2] at hat
        exact ⟨by rw [← hf]; exact ch_same .., hat.1⟩
      · rw [hf]; exact fn s own (k0_same (s := s) rfl rfl rfl rfl hk)
    | remFd g =>
      have hf : g = f := hf
      obtain ⟨e, hs, ho⟩ := h0
      simp only [frameStep, bodyStep, hs]
      refine top { s with slot := ch s.slot g none, out := ch s.out e (s.out e + 1) } (.del own g (s.owner e)) hf ?_
      exact ⟨by rw [← hf]; exact ch_same .., (hk.at' e (hf ▸ hs)).1⟩
    | reAdd e m =>
      have hf : fdOf e = f := hf
      cases own
      · exact lw (cross s e m) (k0_same (s := s) rfl rfl rfl rfl hk)
      · cases hs : s.slot (fdOf e) with
        | some e' =>
          simp only [frameStep, bodyStep, hs, if_true]
          exact top s (.relA (fdOf e) (some (e, m))) hf (k0_same (s := s) rfl rfl rfl rfl hk)
        | none =>
          simp only [frameStep, bodyStep, hs, if_true]
          refine top { s with
            slot := ch s.slot (fdOf e) (some e)
            mask := ch s.mask e .zero
            reg := ch s.reg e (s.reg e + 1) } (.readd e m) hf ?_
          exact ⟨by rw [← hf]; exact ch_same .., h0, ch_same .., hk.none (hf ▸ hs)⟩
    | run e m =>
      have hf : fdOf e = f := hf
      cases own
      · exact lw s (k0_same (s := s) rfl rfl rfl rfl hk)
      · exact top s (.cb e false) hf (k0_same (s := s) rfl rfl rfl rfl hk)
  | put own e sp ep =>
    have hf : fdOf e = f := hf
    obtain ⟨a, b, c, d, x⟩ := hk
    obtain ⟨i, hi, h1, h2⟩ := epAdd_none (sp := sp) (ep := ep) x
    simp only [frameStep]
    rw [hf, hi]
    refine fn { s with intr := i } own ⟨fun h => ?_, fun e' h => ?_, fun e' h hm => ?_⟩
    · rw [show s.slot f = none from h] at a; cases a
    · have h : s.slot f = some e' := h
      rw [a] at h; cases h
      exact ⟨by show ∀ v, v ≠ s.owner e → _; rw [b]; exact h1, ep, by show i (s.owner e) f = _; rw [b]; exact h2⟩
    · have h : s.slot f = some e' := h
      rw [a] at h; cases h
      exact ⟨by show ∀ v, v ≠ s.owner e → _; rw [b]; exact h1, by show i (s.owner e) f = some (toEp (s.mask e)); rw [b, ← c]; exact h2⟩
  | del own g sp =>
    have hf : g = f := hf
    subst hf
    have hn := epDel_none hk.2
    have hk1 : s.slot g = none := hk.1
    refine fn { s with intr := (epDel s sp g).getD s.intr } own ⟨fun _ u => hn u, fun e' h => ?_, fun e' h => ?_⟩
    · rw [show s.slot g = some e' from h] at hk1; cases hk1
    · rw [show s.slot g = some e' from h] at hk1; cases hk1
  | readd e m =>
    have hf : fdOf e = f := hf
    obtain ⟨a, b, c, x⟩ := hk
    obtain ⟨i, hi, h1, h2⟩ := epAdd_none (sp := s.owner e) (ep := toEp m) x
    simp only [frameStep]
    rw [hf, hi]
    refine top { s with intr := i } (.relA f (some (e, m))) rfl ⟨fun h => ?_, fun e' h => ?_, fun e' h hm => ?_⟩
    · rw [show s.slot f = none from h] at a; cases a
    · have h : s.slot f = some e' := h
      rw [a] at h; cases h
      exact ⟨h1, _, h2⟩
    · have h : s.slot f = some e' := h
      rw [a] at h; cases h
      exact absurd c hm
  | relA g k => exact top { s with ex := ch s.ex g none } (.relB g k) hf (k0_same (s := s) rfl rfl rfl rfl hk)
  | relB g k =>
    cases k with
    | none => exact lw { s with lock := ch s.lock g false } (k0_same (s := s) rfl rfl rfl rfl hk)
    | some p =>
      have hf : g = f := hf
      exact top { s with lock := ch s.lock g false } (.t2 p.1 p.2) ((h0 p rfl).2.trans hf) (k0_same (s := s) rfl rfl rfl rfl hk)
  | t0 e m =>
    simp only [frameStep]
    split
    · exact lw (cross s e m) (k0_same (s := s) rfl rfl rfl rfl hk)
    · exact top s (.t1 e m) hf (k0_same (s := s) rfl rfl rfl rfl hk)
  | t1 e m =>
    simp only [frameStep]
    split
    · exact top s (.tryL (.reAdd e m)) hf (k0_same (s := s) rfl rfl rfl rfl hk)
    · exact top s (.t2 e m) hf (k0_same (s := s) rfl rfl rfl rfl hk)
  | t2 e m =>
    simp only [frameStep]
    split
    · exact top s (.tryL (.run e m)) hf (k0_same (s := s) rfl rfl rfl rfl hk)
    · exact lw s (k0_same (s := s) rfl rfl rfl rfl hk)
  | cb e mv =>
    show KT fdOf f s t (s.stk t)
    rw [hst]
    show Kc fdOf f s t _
    unfold Kc
    rw [if_pos hf]; exact hk
  | fin e nm =>
    have hf : fdOf e = f := hf
    subst hf
    simp only [frameStep, finStep]
    by_cases hz : nm = .zero
    · rw [if_neg (by simp [hz]), if_neg (h0.1 hz)]
      exact top s (.relA (fdOf e) none) rfl (k0_same (s := s) rfl rfl rfl rfl (hk.other (h0.1 hz)))
    · rw [if_pos hz]
      by_cases hs : s.slot (fdOf e) = none
      · rw [if_pos hs]
        have := hk.other (by rw [hs]; simp)
        exact top s (.setM e nm) rfl ⟨hz, .inr ⟨hs, this.none hs⟩⟩
      · rw [if_neg hs]
        have hs' : s.slot (fdOf e) = some e := (h0.2 hz).resolve_left hs
        by_cases ho : s.owner e = t
        · rw [if_neg (by simp [ho])]
          exact top s (.modE e nm) rfl ⟨hz, hs', ho, hk.own hs'⟩
        · rw [if_pos ho]
          exact top s (.mvDel e nm) rfl ⟨hz, hs', hk.own hs'⟩
  | mvDel e nm =>
    have hf : fdOf e = f := hf
    subst hf
    obtain ⟨a, b, c⟩ := hk
    exact top { s with intr := (epDel s t (fdOf e)).getD s.intr } (.mvAdd e nm) rfl ⟨a, b, epDel_none c.1⟩
  | mvAdd e nm =>
    have hf : fdOf e = f := hf
    subst hf
    obtain ⟨a, b, c⟩ := hk
    obtain ⟨i, hi, h1, h2⟩ := epAdd_none (sp := s.owner e) (ep := toEp nm) c
    simp only [frameStep]
    rw [hi]
    exact top { s with intr := i } (.setM e nm) rfl ⟨a, .inl ⟨b, h1, h2⟩⟩
  | modE e nm =>
    have hf : fdOf e = f := hf
    subst hf
    obtain ⟨a, b, c, d⟩ := hk
    simp only [frameStep]
    rw [c]
    obtain ⟨i, hi, h1, h2⟩ := epEither_at (ep := toEp nm) (decide (s.mask e = .zero)) d
    rw [hi]
    exact top { s with intr := i } (.setM e nm) rfl ⟨a, .inl ⟨b, by show ∀ v, v ≠ s.owner e → _; rw [c]; exact h1,
      by show i (s.owner e) _ = _; rw [c]; exact h2⟩⟩
  | setM e nm =>
    have hf : fdOf e = f := hf
    subst hf
    obtain ⟨a, b⟩ := hk
    refine top { s with mask := ch s.mask e nm } (.relA (fdOf e) none) rfl ?_
    rcases b with ⟨b, c⟩ | ⟨b, c⟩
    · refine ⟨fun h => ?_, fun e' h => ?_, fun e' h hm => ?_⟩
      · rw [show s.slot (fdOf e) = none from h] at b; cases b
      · have h : s.slot (fdOf e) = some e' := h
        rw [b] at h; cases h
        exact ⟨c.1, _, c.2⟩
      · have h : s.slot (fdOf e) = some e' := h
        rw [b] at h; cases h
        refine ⟨c.1, ?_⟩
        show s.intr (s.owner e) (fdOf e) = some (toEp (ch s.mask e nm e))
        rw [ch_same]; exact c.2
    · refine ⟨fun _ => c, fun e' h => ?_, fun e' h hm => ?_⟩
      · rw [show s.slot (fdOf e) = some e' from h] at b; cases b
      · rw [show s.slot (fdOf e) = some e' from h] at b; cases b
  | upd e sp ad ep =>
    have hf : fdOf e = f := hf
    subst hf
    obtain ⟨a, b, c, d, x, y⟩ := hk
    subst c
    obtain ⟨i, hi, h1, h2⟩ := epEither_at (ep := ep) ad d
    simp only [frameStep]
    rw [hi]
    refine lw { s with intr := i } ⟨fun h => ?_, fun e' h => ?_, fun e' h hm => ?_⟩
    · rw [show s.slot (fdOf e) = none from h] at a; cases a
    · have h : s.slot (fdOf e) = some e' := h
      rw [a] at h; cases h
      exact ⟨by show ∀ v, v ≠ s.owner e → _; rw [b]; exact h1, ep, by show i (s.owner e) _ = _; rw [b]; exact h2⟩
    · have h : s.slot (fdOf e) = some e' := h
      rw [a] at h; cases h
      exact ⟨by show ∀ v, v ≠ s.owner e → _; rw [b]; exact h1, by show i (s.owner e) _ = some (toEp (s.mask e)); rw [b, ← x]; exact h2⟩

/-- The new top of the stack is about the same descriptor. -/
theorem go_fd {s : St n} (hp : PInv fdOf s) {t : Fin n} (hl : Low (s.stk t)) {fr0 : Frame n} {rest : List (Frame n)}
    (hst : s.stk t = fr0 :: rest) {f : Nat} (hf : fr0.fd fdOf ≠ f) : ¬ Stage fdOf f ((frameStep fdOf s t rest fr0).stk t) := by
  have h0 := hp t fr0 (by rw [hst]; simp)
  have hl : ¬ Stage fdOf f rest := low_not_stage fdOf (hst ▸ hl) f
  have tp : ∀ (s' : St n) (fr1 : Frame n), fr1.fd fdOf ≠ f → ¬ Stage fdOf f ((nxt s' t (fr1 :: rest)).stk t) := by
    rintro s' fr1 h1 ⟨g, r, h2, _, h3⟩
    rw [nxt_stk] at h2
    cases h2
    exact h1 h3
  have lw : ∀ (s' : St n), ¬ Stage fdOf f ((nxt s' t rest).stk t) := by
    intro s'; rw [nxt_stk]; exact hl
  have sm : ∀ (s' : St n), s'.stk = s.stk → ¬ Stage fdOf f (s'.stk t) := by
    rintro s' h ⟨g, r, h2, _, h3⟩
    rw [h, hst] at h2
    cases h2
    exact hf h3
  have fn : ∀ (s' : St n) own g, g ≠ f → ¬ Stage fdOf f ((nxt s' t (fini own g rest)).stk t) := by
    intro s' own g hg
    cases own
    · exact lw s'
    · exact tp s' (.relA g none) hg
  cases fr0 with
  | body own j =>
    cases j <;> simp only [frameStep, bodyStep] <;> (repeat' split) <;>
      first | exact fn _ _ _ hf | exact lw _ | exact tp _ _ hf
  | fin e nm =>
    simp only [frameStep, finStep]
    repeat' split
    all_goals first | exact tp _ _ hf | exact sm _ rfl
  | relB g k => cases k with
    | none => exact lw _
    | some p => exact tp { s with lock := ch s.lock g false } (.t2 p.1 p.2) (by rw [show (Frame.t2 p.1 p.2 : Frame n).fd fdOf = g from (h0 p rfl).2]; exact hf)
  | _ => simp only [frameStep] <;> (try split) <;>
           first | exact fn _ _ _ hf | exact lw _ | exact tp _ _ hf | exact sm _ rfl

theorem free_not_stage {l : List (Frame n)} (hf : free l = true) (hm : ¬ HasMoved l) (f : Nat) : ¬ Stage fdOf f l := by
  rintro ⟨g, r, rfl, h1, _⟩
  have hx : ∃ e mv, g = .cb e mv := by
    cases g <;> simp [free] at hf
    exact ⟨_, _, rfl⟩
  obtain ⟨e, mv, rfl⟩ := hx
  cases mv
  · cases h1
  · exact hm ⟨e, r, rfl⟩

/-- The kernel's interest after an action of the thread itself. -/
theorem kt_act {s : St n} (hp : PInv fdOf s) (hso : SlotOk fdOf s) {t : Fin n} (hl : Low (s.stk t)) {a : Act n} (hg : Good fdOf s t a)
    {f : Nat} (hk : KT fdOf f s t (s.stk t)) : KT fdOf f (act fdOf s t a) t ((act fdOf s t a).stk t) := by
  by_cases hd : s.dead = true
  · have e0 : act fdOf s t a = s := by simp [act, hd]
    rw [e0]; exact hk
  have hd' : s.dead = false := by simpa using hd
  -- a call is made
  have push : ∀ (s' : St n) (fr1 : Frame n), fr1.stage = false → K0 f s' →
      KT fdOf f (nxt s' t (fr1 :: s.stk t)) t ((nxt s' t (fr1 :: s.stk t)).stk t) := by
    intro s' fr1 h1 h2
    rw [nxt_stk, kt_other]
    · exact k0_same (s := s') rfl rfl rfl rfl h2
    · rintro ⟨g, r, h3, h4, _⟩
      cases h3
      rw [h1] at h4; cases h4
  have old : free (s.stk t) = true → ¬ HasMoved (s.stk t) → K0 f s := by
    intro h1 h2
    exact (kt_other fdOf (free_not_stage fdOf h1 h2 f)).1 hk
  have dead : ∀ (s' : St n), s'.stk = s.stk → s'.slot = s.slot → s'.intr = s.intr → s'.mask = s.mask → s'.owner = s.owner → ∀ l, l = s.stk t →
      KT fdOf f s' t l := by
    intro s' _ h1 h2 h3 h4 l h5
    subst h5
    have kp : Keeps fdOf f s s' := ⟨by rw [h1], fun u => by rw [h2], fun e _ => by rw [h3], fun e _ => by rw [h4]⟩
    cases hst : s.stk t with
    | nil => rw [hst] at hk; exact k0_keeps fdOf hso kp hk
    | cons fr rest => rw [hst] at hk; exact kc_keeps fdOf hso kp hk
  cases a with
  | go =>
    cases hst : s.stk t with
    | nil =>
      have e0 : act fdOf s t .go = s := by simp [act, hst]
      rw [e0]; exact hk
    | cons fr rest =>
      have e0 : act fdOf s t .go = frameStep fdOf s t rest fr := by simp [act, hd, hst]
      rw [e0]
      rw [hst] at hk
      have hk : Kc fdOf f s t fr := hk
      unfold Kc at hk
      by_cases hf : fr.fd fdOf = f
      · rw [if_pos hf] at hk
        subst hf
        exact kt_go fdOf hp hl hst hk
      · rw [if_neg hf] at hk
        rw [kt_other fdOf (go_fd fdOf hp hl hst hf)]
        exact k0_keeps fdOf hso (frame_keeps fdOf hf hso) hk
  | add e m =>
    simp only [act, if_neg hd]
    split
    · next hf =>
      rw [if_neg hg.2.1]
      refine push { s with mask := ch s.mask e m } _ rfl ?_
      have h0 := old hf hg.1
      refine ⟨h0.none, h0.at', fun e' h hm => ?_⟩
      have h : s.slot f = some e' := h
      have hx : e' ≠ e := by
        rintro rfl
        have := hg.2.2.1
        rw [hso f e' h, h] at this; cases this
      have hm : ch s.mask e m e' ≠ .zero := hm
      show Exact f s (s.owner e') (toEp (ch s.mask e m e'))
      rw [ch_other _ _ _ _ hx] at hm ⊢
      exact h0.val e' h hm
    · exact hk
  | rem e =>
    simp only [act, if_neg hd]
    split
    · next hf =>
      split
      · apply dead <;> rfl
      · exact push s _ rfl (old hf hg.1)
    · exact hk
  | remFd g =>
    simp only [act, if_neg hd]
    split
    · next hf => exact push s _ rfl (old hf.1 hg.1)
    · exact hk
  | trig e m =>
    simp only [act, if_neg hd]
    split
    · next hf => exact push s _ rfl (old hf hg.1)
    · exact hk
  | update e m =>
    obtain ⟨⟨rest, hst⟩, hs, hm⟩ := hg
    have hf : free (s.stk t) = true := by rw [hst]; rfl
    have h0 := old hf (by rw [hst]; exact not_moved_cb)
    have ho : s.owner e = t := hp t (.cb e false) (by rw [hst]; simp)
    simp only [act, if_neg hd, hf, if_neg hm, if_true]
    rw [nxt_stk]
    show Kc fdOf f _ t _
    unfold Kc
    split
    · next he =>
      have he : fdOf e = f := he
      have hat := h0.at' e (he ▸ hs)
      rw [ho] at hat
      refine ⟨he ▸ hs, ho, ho, hat, ?_, ?_⟩
      · show toEp m = toEp (ch s.mask e m e)
        rw [ch_same]
      · show ch s.mask e m e ≠ _
        rw [ch_same]; exact hm
    · next he =>
      have he : fdOf e ≠ f := he
      refine k0_keeps fdOf hso ⟨rfl, fun _ => rfl, fun x hx => ?_, fun _ _ => rfl⟩ h0
      exact ch_other _ _ _ _ (fun h => he (h ▸ hx))
  | setOwner e u =>
    rcases hg with ⟨⟨rest, hst⟩, hs⟩ | ⟨hm, hs, hfr, _⟩
    · have h0 := old (by rw [hst]; rfl) (by rw [hst]; exact not_moved_cb)
      have ho : s.owner e = t := hp t (.cb e false) (by rw [hst]; simp)
      have e0 : act fdOf s t (.setOwner e u) = nxt { s with owner := ch s.owner e u } t (.cb e true :: rest) := by
        simp [act, hd, hst, free]
      rw [e0, nxt_stk]
      show Kc fdOf f _ t _
      unfold Kc
      have k0' : s.slot f ≠ some e → K0 f { s with owner := ch s.owner e u } := by
        intro hne
        refine ⟨h0.none, fun e' h => ?_, fun e' h hm => ?_⟩
        · have hx : e' ≠ e := fun hx => hne (hx ▸ h)
          show At f s (ch s.owner e u e')
          rw [ch_other _ _ _ _ hx]; exact h0.at' e' h
        · have hx : e' ≠ e := fun hx => hne (hx ▸ h)
          show Exact f s (ch s.owner e u e') _
          rw [ch_other _ _ _ _ hx]; exact h0.val e' h hm
      split
      · next he =>
        constructor
        · intro h
          have := h0.at' e h
          rw [ho] at this; exact this
        · intro h
          exact k0_same (s := { s with owner := ch s.owner e u }) rfl rfl rfl rfl (k0' h)
      · next he =>
        have he : fdOf e ≠ f := he
        exact k0_same (s := { s with owner := ch s.owner e u }) rfl rfl rfl rfl (k0' fun h => he (hso f e h))
    · by_cases hf : free (s.stk t) = true
      · have h0 := old hf hm
        have hne : s.slot f ≠ some e := by
          intro h
          rw [hso f e h] at hs
          exact hs h
        have k0' : K0 f { s with owner := ch s.owner e u } := by
          refine ⟨h0.none, fun e' h => ?_, fun e' h hm => ?_⟩
          · have hx : e' ≠ e := fun hx => hne (hx ▸ h)
            show At f s (ch s.owner e u e')
            rw [ch_other _ _ _ _ hx]; exact h0.at' e' h
          · have hx : e' ≠ e := fun hx => hne (hx ▸ h)
            show Exact f s (ch s.owner e u e') _
            rw [ch_other _ _ _ _ hx]; exact h0.val e' h hm
        have hstk : (act fdOf s t (.setOwner e u)).stk t = s.stk t := by
          cases hst : s.stk t with
          | nil => simp [act, hd, hst, free]
          | cons x rest =>
            cases x <;> simp [act, hd, hst, free]
            next x mv =>
            have hx : x ≠ e := fun hx => hfr t (.cb x mv) (by rw [hst]; simp) (by rw [hx]; rfl)
            simp [hx]
        have hk0 : K0 f (act fdOf s t (.setOwner e u)) := by
          simp only [act, if_neg hd, hf, if_true]
          have h' := k0'
          repeat' split
          all_goals exact k0_same (s := { s with owner := ch s.owner e u }) rfl rfl rfl rfl h'
        rw [hstk, kt_other fdOf (free_not_stage fdOf hf hm f)]
        exact hk0
      · have e0 : act fdOf s t (.setOwner e u) = s := by simp [act, hf]
        rw [e0]; exact hk
  | ret nm =>
    simp only [act, if_neg hd]
    split
    · next e mv rest hst =>
      rw [nxt_stk]
      rw [hst] at hk
      have hk : Kc fdOf f s t (.cb e mv) := hk
      show Kc fdOf f _ t _
      unfold Kc at hk ⊢
      by_cases he : fdOf e = f
      · rw [if_pos (show Frame.fd fdOf (Frame.cb e mv : Frame n) = f from he)] at hk
        rw [if_pos (show Frame.fd fdOf (Frame.fin e nm : Frame n) = f from he)]
        have kc : KC f s t e := by
          cases mv
          · have hk : K0 f s := hk
            have ho : s.owner e = t := hp t (.cb e false) (by rw [hst]; simp)
            refine ⟨fun h => ?_, fun _ => hk⟩
            have := hk.at' e h
            rw [ho] at this; exact this
          · exact hk
        exact ⟨kc.own, fun h => k0_same (s := s) rfl rfl rfl rfl (kc.other h)⟩
      · rw [if_neg (show ¬ Frame.fd fdOf (Frame.cb e mv : Frame n) = f from he)] at hk
        rw [if_neg (show ¬ Frame.fd fdOf (Frame.fin e nm : Frame n) = f from he)]
        exact k0_same (s := s) rfl rfl rfl rfl hk
    · exact hk
  | pop =>
    simp only [act, if_neg hd]
    split
    · next q hst hq =>
      rw [hst] at hk
      rw [nxt_stk, kt_other]
      · exact k0_same (s := s) rfl rfl rfl rfl hk
      · rintro ⟨g, r, h3, h4, _⟩
        cases h3; cases h4
    · exact hk
  | wait b =>
    simp only [act, if_neg hd]
    split
    · apply dead <;> rfl
    · exact hk
  | fire =>
    simp only [act, if_neg hd]
    split
    · next hst hq =>
      split
      · apply dead <;> rfl
      · split
        · apply dead <;> rfl
        · rw [hst] at hk
          rw [nxt_stk, kt_other]
          · exact k0_same (s := s) rfl rfl rfl rfl hk
          · rintro ⟨g, r, h3, h4, _⟩
            cases h3; cases h4
    · exact hk

/-- The kernel's interest in `f`, from the thread that has the lock. -/
def KInv (f : Nat) (s : St n) : Prop := ∀ t, (∀ v, v ≠ t → ¬ Stage fdOf f (s.stk v)) → KT fdOf f s t (s.stk t)

theorem kinv_run {s : St n} (h : Run fdOf (Good fdOf) s) (f : Nat) : KInv fdOf f s := by
  induction h with
  | init mask owner =>
    intro t _
    exact ⟨fun _ _ => rfl, fun e h => (by cases h), fun e h => (by cases h)⟩
  | @step s t a hr hg ih =>
    have hb := base_run fdOf hr
    obtain ⟨hp, hso⟩ := pinv_run fdOf hr
    have hlow := low_run fdOf hr
    intro w hw
    by_cases hwt : w = t
    · subst hwt
      refine kt_act fdOf hp hso (hlow w) hg (ih w ?_)
      intro v hv
      have := hw v hv
      rwa [act_other fdOf _ _ _ _ hv] at this
    · have hst : (act fdOf s t a).stk w = s.stk w := act_other fdOf _ _ _ _ hwt
      rw [hst]
      by_cases hws : Stage fdOf f (s.stk w)
      · have hh := stage_held fdOf hb (hlow w) hws
        have hk := ih w (by
          intro v hv hc
          exact hv ((hb.lock f).uniq v w (stage_held fdOf hb (hlow v) hc) hh))
        have kp := hold_keeps fdOf hb hp hso (hlow t) hwt hg hh
        cases hst : s.stk w with
        | nil => rw [hst] at hk; exact k0_keeps fdOf hso kp hk
        | cons fr rest => rw [hst] at hk; exact kc_keeps fdOf hso kp hk
      · rw [kt_other fdOf hws]
        refine (kt_other fdOf (hw t (Ne.symm hwt))).1 (kt_act fdOf hp hso (hlow t) hg (ih t ?_))
        intro v hv
        by_cases hvw : v = w
        · rw [hvw]; exact hws
        · have := hw v hvw
          rwa [act_other fdOf _ _ _ _ hv] at this

theorem kinv_held {s : St n} (h : Run fdOf (Good fdOf) s) {t : Fin n} {fr : Frame n} {rest : List (Frame n)} (hst : s.stk t = fr :: rest)
    (hs : fr.stage = true) : Kf (fr.fd fdOf) s t fr := by
  have hb := base_run fdOf h
  have hlow := low_run fdOf h
  have hk := kinv_run fdOf h (fr.fd fdOf) t (by
    intro v hv hc
    exact hv ((hb.lock _).uniq v t (stage_held fdOf hb (hlow v) hc) (stage_held fdOf hb (hlow t) ⟨fr, rest, hst, hs, rfl⟩)))
  rw [hst] at hk
  have hk : Kc fdOf _ s t fr := hk
  unfold Kc at hk
  rwa [if_pos rfl] at hk

/-! ### Events with mask 0 -/

/-- Frames that will set the mask of `e`. -/
def Frame.pend (e : Nat) : Frame n → Bool
  | .readd e' _ => e' = e
  | .relA _ (some p) => p.1 = e
  | .relB _ (some p) => p.1 = e
  | .t2 e' _ => e' = e
  | .tryL (.run e' _) => e' = e
  | .chk (.run e' _) => e' = e
  | .spin (.run e' _) => e' = e
  | .setEx (.run e' _) => e' = e
  | .body true (.run e' _) => e' = e
  | .fin e' _ => e' = e
  | .mvDel e' _ => e' = e
  | .mvAdd e' _ => e' = e
  | .modE e' _ => e' = e
  | .setM e' _ => e' = e
  | _ => false

/-- A thread is about to set the mask of `e`. -/
def Pending (e : Nat) (l : List (Frame n)) : Prop :=
  (∃ mv, Frame.cb e mv ∈ l) ∨ ∃ fr rest, l = fr :: rest ∧ fr.pend e = true ∧ cntO fdOf (fdOf e) rest = 0

theorem act_busy {s : St n} {t : Fin n} {a : Act n} (hf : free (s.stk t) = false) (ha : a ≠ .go) : (act fdOf s t a).stk t = s.stk t := by
  have hn : s.stk t ≠ [] := by intro h; rw [h] at hf; cases hf
  have hc : ∀ e mv rest, s.stk t ≠ .cb e mv :: rest := by intro e mv rest h; rw [h] at hf; cases hf
  by_cases hd : s.dead = true
  · simp [act, hd]
  cases a with
  | go => exact absurd rfl ha
  | ret nm =>
    simp only [act, if_neg hd]
  | pop =>
    simp only [act, if_neg hd]
    split
    · next h _ => exact absurd h hn
    · rfl
  | wait b =>
    simp only [act, if_neg hd]
    split <;> rfl
  | fire =>
    simp only [act, if_neg hd]
    split
    · next h _ => exact absurd h hn
    · rfl
  | _ => simp [act, hd, hf]

theorem pend_go {s : St n} (hr : Run fdOf (Good fdOf) s) {t : Fin n} {fr : Frame n} {rest : List (Frame n)} (hst : s.stk t = fr :: rest)
    {e : Nat} (hpe : fr.pend e = true) (hc : cntO fdOf (fdOf e) rest = 0) (hs : s.slot (fdOf e) = some e)
    (hm : (frameStep fdOf s t rest fr).mask e = .zero) : Pending fdOf e ((frameStep fdOf s t rest fr).stk t) := by
  have hp := (pinv_run fdOf hr).1
  have hb := base_run fdOf hr
  have h0 := hp t fr (by rw [hst]; simp)
  have tp : ∀ (s' : St n) (fr1 : Frame n), fr1.pend e = true → Pending fdOf e ((nxt s' t (fr1 :: rest)).stk t) := by
    intro s' fr1 h1
    exact .inr ⟨fr1, rest, nxt_stk .., h1, hc⟩
  have sm : Pending fdOf e (s.stk t) := .inr ⟨fr, rest, hst, hpe, hc⟩
  cases fr with
  | readd e' m => exact tp _ _ hpe
  | relA f k => cases k with
    | none => cases hpe
    | some p => exact tp _ _ hpe
  | relB f k => cases k with
    | none => cases hpe
    | some p => exact tp _ _ hpe
  | t2 e' m =>
    have he : e' = e := by simpa [Frame.pend] using hpe
    subst he
    simp only [frameStep, if_pos hs]
    exact tp _ _ (by simp [Frame.pend])
  | tryL j => cases j with
    | run e' m =>
      simp only [frameStep]
      split <;> exact tp _ _ hpe
    | _ => cases hpe
  | chk j => cases j with
    | run e' m =>
      have he : e' = e := by simpa [Frame.pend] using hpe
      subst he
      simp only [frameStep]
      split
      · next hx =>
        have h1 := ((hb.lock (fdOf e')).ex t).1 hx
        have h2 := cntS_le fdOf (fdOf e') rest
        rw [hst, cntS_cons] at h1
        simp [Frame.st] at h1
        omega
      · exact tp _ _ hpe
    | _ => cases hpe
  | spin j => cases j with
    | run e' m =>
      simp only [frameStep]
      split
      · exact sm
      · exact tp _ _ hpe
    | _ => cases hpe
  | setEx j => cases j with
    | run e' m => exact tp _ _ hpe
    | _ => cases hpe
  | body own j => cases own with
    | false => cases hpe
    | true => cases j with
      | run e' m =>
        have he : e' = e := by simpa [Frame.pend] using hpe
        subst he
        exact .inl ⟨false, by simp [frameStep, bodyStep]⟩
      | _ => cases hpe
  | fin e' nm =>
    have he : e' = e := by simpa [Frame.pend] using hpe
    subst he
    simp only [frameStep, finStep]
    by_cases hz : nm = .zero
    · exact absurd hs (h0.1 hz)
    · rw [if_pos hz, if_neg (by rw [hs]; simp)]
      split
      · exact tp _ _ hpe
      · exact tp _ _ hpe
  | mvDel e' nm => exact tp _ _ hpe
  | mvAdd e' nm => exact tp _ _ hpe
  | modE e' nm =>
    simp only [frameStep]
    split
    · exact tp _ _ hpe
    · exact sm
  | setM e' nm =>
    have he : e' = e := by simpa [Frame.pend] using hpe
    subst he
    have hk := kinv_held fdOf hr hst rfl
    have hm : ch s.mask e' nm e' = .zero := hm
    rw [ch_same] at hm
    exact absurd hm hk.1
  | _ => cases hpe

/-- A registered event with mask 0 is about to get another one. -/
theorem pending_run {s : St n} (h : Run fdOf (Good fdOf) s) (f e : Nat) (hs : s.slot f = some e) (hm : s.mask e = .zero) :
    ∃ t, Pending fdOf e (s.stk t) := by
  induction h with
  | init mask owner => cases hs
  | @step s t a hr hg ih =>
    have hb := base_run fdOf hr
    obtain ⟨hp, hso⟩ := pinv_run fdOf hr
    have hlow := low_run fdOf hr
    by_cases hs0 : s.slot f = some e
    · have hfe : fdOf e = f := hso f e hs0
      by_cases hm0 : s.mask e = .zero
      · obtain ⟨u, hu⟩ := ih hs0 hm0
        by_cases hut : u = t
        · subst hut
          refine ⟨u, ?_⟩
          rcases hu with ⟨mv, hcb⟩ | ⟨fr, rest, hst, hpe, hc⟩
          · by_cases ht : ∃ rest, s.stk u = .cb e mv :: rest
            · obtain ⟨rest, hst⟩ := ht
              by_cases hd : s.dead = true
              · left; exact ⟨mv, by simp only [act, if_pos hd]; exact hcb⟩
              have hmem : ∀ l, l = s.stk u → Pending fdOf e l := fun l h => .inl ⟨mv, h ▸ hcb⟩
              cases a with
              | ret nm =>
                right
                have h1 := (hb.lock (fdOf e)).one u
                rw [hst, cntO_cons] at h1
                simp [Frame.ow, Frame.st] at h1
                exact ⟨.fin e nm, rest, by simp [act, hd, hst], by simp [Frame.pend], by omega⟩
              | setOwner x w =>
                by_cases hx : e = x
                · exact .inl ⟨true, by simp [act, hd, hst, free, hx]⟩
                · exact .inl ⟨mv, by simp [act, hd, hst, free, hx]⟩
              | go => exact hmem _ (by simp [act, hd, hst, frameStep])
              | pop => exact hmem _ (by simp [act, hst])
              | wait b => exact hmem _ (by simp [act, hst])
              | fire => exact hmem _ (by simp [act, hst])
              | _ =>
                left
                refine ⟨mv, ?_⟩
                simp only [act, if_neg hd]
                repeat' split
                all_goals first | exact hcb | (rw [nxt_stk]; exact List.mem_cons_of_mem _ hcb)
            · left
              refine ⟨mv, ?_⟩
              cases act_top fdOf hg with
              | same h => rw [h]; exact hcb
              | repl fr0 fr1 rest h h' hu =>
                rw [h']
                rw [h] at hcb
                rcases List.mem_cons.1 hcb with h1 | h1
                · exact absurd ⟨rest, h1 ▸ h⟩ ht
                · exact List.mem_cons_of_mem _ h1
              | low fr0 h =>
                generalize (act fdOf s u a).stk u = l at h
                rw [h] at hcb
                rcases List.mem_cons.1 hcb with h1 | h1
                · exact absurd ⟨l, h1 ▸ h⟩ ht
                · exact h1
              | push fr1 h => rw [h]; exact List.mem_cons_of_mem _ hcb
          · by_cases ha : a = .go
            · subst ha
              by_cases hd : s.dead = true
              · right; exact ⟨fr, rest, by simp only [act, if_pos hd]; exact hst, hpe, hc⟩
              have e0 : act fdOf s u .go = frameStep fdOf s u rest fr := by simp [act, hd, hst]
              rw [e0] at hm ⊢
              exact pend_go fdOf hr hst hpe hc (hfe ▸ hs0) hm
            · right
              refine ⟨fr, rest, ?_, hpe, hc⟩
              rw [act_busy fdOf _ ha, hst]
              rw [hst]
              cases fr <;> first | rfl | (simp [Frame.pend] at hpe; done)
        · exact ⟨u, by rw [act_other fdOf _ _ _ _ hut]; exact hu⟩
      · exfalso
        rcases act_mask fdOf t a e with h | ⟨ha, rest, m, h | h⟩ | ⟨m, rfl⟩ | ⟨m, rfl⟩
        · exact hm0 (h ▸ hm)
        · subst ha
          by_cases hd : s.dead = true
          · simp only [act, if_pos hd] at hm; exact hm0 hm
          have e0 : act fdOf s t .go = frameStep fdOf s t rest (.body true (.reAdd e m)) := by simp [act, hd, h]
          rw [e0] at hm
          simp only [frameStep, bodyStep, hfe, hs0, if_true] at hm
          exact hm0 hm
        · subst ha
          by_cases hd : s.dead = true
          · simp only [act, if_pos hd] at hm; exact hm0 hm
          have e0 : act fdOf s t .go = frameStep fdOf s t rest (.setM e m) := by simp [act, hd, h]
          rw [e0] at hm
          have hm : ch s.mask e m e = .zero := hm
          rw [ch_same] at hm
          exact (kinv_held fdOf hr h rfl).1 hm
        · have := hg.2.2.1
          rw [hfe, hs0] at this; cases this
        · have hz := hg.2.2
          simp only [act] at hm
          repeat' split at hm
          all_goals first | exact hm0 hm | skip
          all_goals
            have hm : ch s.mask e m e = .zero := hm
            rw [ch_same] at hm
            exact hz hm
    · rcases act_slot fdOf hb hp t a f with h | ⟨_, _, ⟨e', _, _, h⟩ | ⟨h1, e', own, j, rest, h2, h3, h4, h5, h6⟩⟩
      · rw [h] at hs; exact absurd hs hs0
      · rw [h] at hs; cases hs
      · rw [h2] at hs; cases hs
        have hd : ¬ s.dead = true := by
          intro hd
          simp only [act, if_pos hd] at h2
          rw [h1] at h2; cases h2
        have ha : a = .go := by
          by_contra ha
          have hb1 := hb.lock
          have : (act fdOf s t a).slot f = s.slot f := by
            have hn : s.stk t ≠ [] := by rw [h4]; simp
            have hf : free (s.stk t) = false := by rw [h4]; rfl
            cases a with
            | go => exact absurd rfl ha
            | ret nm => simp [act, hd, h4]
            | pop => simp [act, hd, h4]
            | wait b => simp [act, hd, h4]
            | fire => simp [act, hd, h4]
            | _ => simp [act, hd, hf]
          rw [this, h1] at h2; cases h2
        subst ha
        have e0 : act fdOf s t .go = frameStep fdOf s t rest (.body own j) := by simp [act, hd, h4]
        have hP := hp t (.body own j) (by rw [h4]; simp)
        rcases h6 with ⟨sp, ep, rfl⟩ | ⟨rfl, m, rfl⟩
        · rw [e0] at hm
          exact absurd hm hP.2.2.2.1
        · refine ⟨t, .inr ⟨.readd e m, rest, ?_, by simp [Frame.pend], ?_⟩⟩
          · rw [e0]
            simp only [frameStep, bodyStep, if_true, show s.slot (fdOf e) = none by rw [h3]; exact h1]
            exact nxt_stk ..
          · have h7 := (hb.lock (fdOf e)).one t
            rw [h4, cntO_cons] at h7
            simp [Frame.ow, Frame.st, Job.fd] at h7
            omega

end Mtev.EvFd
