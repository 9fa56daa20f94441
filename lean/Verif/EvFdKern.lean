import Verif.EvFdOwn

/-!
Programs that keep the rules, continued: the assertions hold in all reachable states, and the kernel's interest.
-/

namespace Mtev.EvFd

variable {n : Nat} (fdOf : Nat → Nat)

/-- Frames below the top are callbacks, with the assertions of callbacks. -/
theorem cb_P {s s' : St n} {t : Fin n} (ho : s'.owner = s.owner) {fr : Frame n} (hp : P fdOf s t fr) (h : ∃ e mv, fr = .cb e mv) :
    P fdOf s' t fr := by
  obtain ⟨e, mv, rfl⟩ := h
  cases mv
  · exact (congrFun ho e).trans hp
  · trivial

/-- The assertion of a job while the thread goes from one frame of it to the next. -/
theorem PJ_move {s s' : St n} {t : Fin n} {j : Job n} (hp : PJ fdOf s t j) (h1 : s'.slot = s.slot) (h2 : s'.owner = s.owner)
    (h3 : s'.mask = s.mask) (h4 : s'.queue = s.queue)
    (h5 : ∀ u fr, fr ∈ s'.stk u → fr ∈ s.stk u ∨ (u = t ∧ fr.job = some j)) : PJ fdOf s' t j := by
  cases j with
  | add e sp ep =>
    obtain ⟨a, b, c, d, x, y⟩ := hp
    refine ⟨by rw [h1]; exact a, by rw [h2]; exact b, by rw [h3]; exact c, by rw [h3]; exact d, ?_, by rw [h4]; exact y⟩
    intro u fr hm hf
    rcases h5 u fr hm with h | ⟨h, h'⟩
    · exact x u fr h hf
    · exact .inr ⟨h, .inr h'⟩
  | rem e sp => exact ⟨by rw [h2]; exact hp.1, hp.2⟩
  | remFd f =>
    obtain ⟨e, a, b⟩ := hp
    exact ⟨e, by rw [h1]; exact a, by rw [h2]; exact b⟩
  | reAdd e m => exact (congrFun h2 e).trans hp
  | run e m => exact ⟨by rw [h2]; exact hp.1, by rw [h1]; exact hp.2⟩

theorem mem_nxt {s : St n} {t u : Fin n} {fr : Frame n} {fr0 : Frame n} {rest : List (Frame n)} (hst : s.stk t = fr0 :: rest)
    {s0 : St n} (h0 : s0.stk = s.stk) {fr1 : Frame n} (h : fr ∈ (nxt s0 t (fr1 :: rest)).stk u) :
    fr ∈ s.stk u ∨ (u = t ∧ fr = fr1) := by
  by_cases hu : u = t
  · subst hu
    rw [nxt_stk] at h
    rcases List.mem_cons.1 h with h | h
    · exact .inr ⟨rfl, h⟩
    · exact .inl (by rw [hst]; simp [h])
  · left
    simpa [nxt, upd_other _ _ _ _ hu, h0] using h

theorem P_dead {s : St n} {t : Fin n} {fr : Frame n} (h : P fdOf s t fr) : P fdOf { s with dead := true } t fr := by
  cases fr with
  | tryL j => cases j <;> exact h
  | chk j => cases j <;> exact h
  | spin j => cases j <;> exact h
  | setEx j => cases j <;> exact h
  | body o j => cases j <;> exact h
  | cb e mv => cases mv <;> exact h
  | _ => exact h

/-- The assertions of the thread that makes the step, when its call goes on. -/
theorem P_go {s : St n} (hb : Base fdOf s) (hp : PInv fdOf s) {t : Fin n} {fr0 : Frame n} {rest : List (Frame n)}
    (hst : s.stk t = fr0 :: rest) {fr : Frame n} (h : fr ∈ (frameStep fdOf s t rest fr0).stk t) :
    P fdOf (frameStep fdOf s t rest fr0) t fr := by
  have h0 := hp t fr0 (by rw [hst]; simp)
  have hr : ∀ (s' : St n), s'.owner = s.owner → ∀ fr ∈ rest, P fdOf s' t fr := by
    intro s' ho fr hf
    refine cb_P fdOf ho (hp t fr (by rw [hst]; simp [hf])) ?_
    exact hb.shape t fr (by rw [hst]; exact hf)
  -- a new top
  have top : ∀ (s' : St n) (fr1 : Frame n), s'.owner = s.owner → P fdOf (nxt s' t (fr1 :: rest)) t fr1 →
      ∀ fr ∈ (nxt s' t (fr1 :: rest)).stk t, P fdOf (nxt s' t (fr1 :: rest)) t fr := by
    intro s' fr1 ho h1 fr hf
    rw [nxt_stk] at hf
    rcases List.mem_cons.1 hf with rfl | hf
    · exact h1
    · exact hr (nxt s' t (fr1 :: rest)) ho fr hf
  have low : ∀ (s' : St n), s'.owner = s.owner → ∀ fr ∈ (nxt s' t rest).stk t, P fdOf (nxt s' t rest) t fr := by
    intro s' ho fr hf
    rw [nxt_stk] at hf
    exact hr (nxt s' t rest) ho fr hf
  have jb : ∀ (s' : St n) (fr1 : Frame n) (j : Job n), s'.owner = s.owner → s'.slot = s.slot → s'.mask = s.mask → s'.queue = s.queue →
      s'.stk = s.stk → fr0.job = some j → fr1.job = some j →
      ∀ fr ∈ (nxt s' t (fr1 :: rest)).stk t, P fdOf (nxt s' t (fr1 :: rest)) t fr := by
    intro s' fr1 j ho hs hm hq hk hj0 hj1
    refine top s' fr1 ho ?_
    rw [job_P fdOf hj1]
    rw [job_P fdOf hj0] at h0
    refine PJ_move fdOf h0 hs ho hm hq ?_
    intro u g hg
    rcases mem_nxt hst hk hg with h | ⟨h, rfl⟩
    · exact .inl h
    · exact .inr ⟨h, hj1⟩
  have fn : ∀ (s' : St n) own f, s'.owner = s.owner → ∀ fr ∈ (nxt s' t (fini own f rest)).stk t, P fdOf (nxt s' t (fini own f rest)) t fr := by
    intro s' own f ho
    cases own
    · exact low s' ho
    · exact top s' (.relA f none) ho (fun p hk => by cases hk)
  cases fr0 with
  | tryL j =>
    simp only [frameStep] at h ⊢
    split at h <;> rename_i hl
    · rw [if_pos hl]; exact jb _ _ j rfl rfl rfl rfl rfl rfl rfl fr h
    · rw [if_neg hl]; exact jb { s with lock := ch s.lock (j.fd fdOf) true } _ j rfl rfl rfl rfl rfl rfl rfl fr h
  | chk j =>
    simp only [frameStep] at h ⊢
    split at h <;> rename_i hl
    · rw [if_pos hl]; exact jb _ _ j rfl rfl rfl rfl rfl rfl rfl fr h
    · rw [if_neg hl]; exact jb _ _ j rfl rfl rfl rfl rfl rfl rfl fr h
  | spin j =>
    simp only [frameStep] at h ⊢
    split at h <;> rename_i hl
    · rw [if_pos hl]; exact hp t fr h
    · rw [if_neg hl]; exact jb { s with lock := ch s.lock (j.fd fdOf) true } _ j rfl rfl rfl rfl rfl rfl rfl fr h
  | setEx j => exact jb { s with ex := ch s.ex (j.fd fdOf) (some t) } _ j rfl rfl rfl rfl rfl rfl rfl fr h
  | body own j =>
    cases j with
    | add e sp ep =>
      exact top { s with slot := ch s.slot (fdOf e) (some e), reg := ch s.reg e (s.reg e + 1) } (.put own e sp ep) rfl trivial fr h
    | rem e sp =>
      simp only [frameStep, bodyStep] at h ⊢
      split at h <;> rename_i hl
      · rw [if_pos hl]
        exact top { s with slot := ch s.slot (fdOf e) none, out := ch s.out e (s.out e + 1) } (.del own (fdOf e) sp) rfl trivial fr h
      · rw [if_neg hl]; exact fn s own _ rfl fr h
    | remFd f =>
      obtain ⟨e, hs, ho⟩ := h0
      simp only [frameStep, bodyStep, hs] at h ⊢
      exact top { s with slot := ch s.slot f none, out := ch s.out e (s.out e + 1) } (.del own f (s.owner e)) rfl trivial fr h
    | reAdd e m =>
      cases own
      · exact low (cross s e m) rfl fr h
      · cases hs : s.slot (fdOf e) with
        | some e' =>
          simp only [frameStep, bodyStep, hs, if_true] at h ⊢
          exact top s (.relA (fdOf e) (some (e, m))) rfl (fun p hk => by cases hk; exact ⟨h0, rfl⟩) fr h
        | none =>
          simp only [frameStep, bodyStep, hs, if_true] at h ⊢
          exact top { s with
            slot := ch s.slot (fdOf e) (some e)
            mask := ch s.mask e .zero
            reg := ch s.reg e (s.reg e + 1) } (.readd e m) rfl h0 fr h
    | run e m =>
      cases own
      · exact low s rfl fr h
      · exact top s (.cb e false) rfl h0.1 fr h
  | put own e sp ep =>
    simp only [frameStep] at h ⊢
    split at h
    · next i hi => exact fn { s with intr := i } own _ rfl fr h
    · next hi => exact P_dead fdOf (hp t fr h)
  | del own f sp => exact fn { s with intr := (epDel s sp f).getD s.intr } own _ rfl fr h
  | readd e m =>
    exact top { s with intr := (epAdd s (s.owner e) (fdOf e) (toEp m)).getD s.intr } (.relA (fdOf e) (some (e, m))) rfl
      (fun p hk => by cases hk; exact ⟨h0, rfl⟩) fr h
  | relA f k => exact top { s with ex := ch s.ex f none } (.relB f k) rfl h0 fr h
  | relB f k =>
    cases k with
    | none => exact low { s with lock := ch s.lock f false } rfl fr h
    | some p =>
      exact top { s with lock := ch s.lock f false } (.t2 p.1 p.2) rfl (h0 p rfl).1 fr h
  | t0 e m =>
    simp only [frameStep] at h ⊢
    split at h <;> rename_i hl
    · rw [if_pos hl]; exact low (cross s e m) rfl fr h
    · rw [if_neg hl]; exact top s (.t1 e m) rfl (show s.owner e = t by simpa using hl) fr h
  | t1 e m =>
    simp only [frameStep] at h ⊢
    split at h <;> rename_i hl
    · rw [if_pos hl]; exact top s (.tryL (.reAdd e m)) rfl h0 fr h
    · rw [if_neg hl]; exact top s (.t2 e m) rfl h0 fr h
  | t2 e m =>
    simp only [frameStep] at h ⊢
    split at h <;> rename_i hl
    · rw [if_pos hl]; exact top s (.tryL (.run e m)) rfl ⟨h0, hl⟩ fr h
    · rw [if_neg hl]; exact low s rfl fr h
  | cb e mv => exact hp t fr h
  | fin e nm =>
    simp only [frameStep, finStep] at h ⊢
    by_cases hz : nm = .zero
    · rw [if_neg (by simp [hz]), if_neg (h0.1 hz)] at h ⊢
      exact top s (.relA (fdOf e) none) rfl (fun p hk => by cases hk) fr h
    · rw [if_pos hz] at h ⊢
      by_cases hs : s.slot (fdOf e) = none
      · rw [if_pos hs] at h ⊢
        exact top s (.setM e nm) rfl trivial fr h
      · rw [if_neg hs] at h ⊢
        by_cases ho : s.owner e = t
        · rw [if_neg (by simp [ho])] at h ⊢
          exact top s (.modE e nm) rfl ho fr h
        · rw [if_pos ho] at h ⊢
          exact top s (.mvDel e nm) rfl trivial fr h
  | mvDel e nm => exact top { s with intr := (epDel s t (fdOf e)).getD s.intr } (.mvAdd e nm) rfl trivial fr h
  | mvAdd e nm =>
    exact top { s with intr := (epAdd s (s.owner e) (fdOf e) (toEp nm)).getD s.intr } (.setM e nm) rfl trivial fr h
  | modE e nm =>
    simp only [frameStep] at h ⊢
    split at h
    · next i hi => exact top { s with intr := i } (.setM e nm) rfl trivial fr h
    · next hi => exact P_dead fdOf (hp t fr h)
  | setM e nm =>
    exact top { s with mask := ch s.mask e nm } (.relA (fdOf e) none) rfl (fun p hk => by cases hk) fr h
  | upd e sp ad ep =>
    simp only [frameStep] at h ⊢
    split at h
    · next i hi => exact low { s with intr := i } rfl fr h
    · next hi => exact P_dead fdOf (hp t fr h)

/-- The assertions of the thread that makes the step. -/
theorem P_own {s : St n} (hb : Base fdOf s) (hp : PInv fdOf s) {t : Fin n} {a : Act n} (hg : Good fdOf s t a) {fr : Frame n}
    (h : fr ∈ (act fdOf s t a).stk t) : P fdOf (act fdOf s t a) t fr := by
  by_cases hd : s.dead = true
  · have e0 : act fdOf s t a = s := by simp [act, hd]
    rw [e0] at h ⊢
    exact hp t fr h
  have hd' : s.dead = false := by simpa using hd
  -- frames of a thread that makes a call are callbacks
  have cbs : free (s.stk t) = true → ∀ fr ∈ s.stk t, ∃ e mv, fr = .cb e mv := by
    intro hf fr hm
    cases hst : s.stk t with
    | nil => rw [hst] at hm; cases hm
    | cons x rest =>
      rw [hst] at hm hf
      rcases List.mem_cons.1 hm with rfl | hm
      · cases fr <;> simp [free] at hf
        exact ⟨_, _, rfl⟩
      · exact hb.shape t fr (by rw [hst]; exact hm)
  have push : free (s.stk t) = true → ∀ (s' : St n) (fr1 : Frame n), s'.owner = s.owner → P fdOf (nxt s' t (fr1 :: s.stk t)) t fr1 →
      ∀ fr ∈ (nxt s' t (fr1 :: s.stk t)).stk t, P fdOf (nxt s' t (fr1 :: s.stk t)) t fr := by
    intro hf s' fr1 ho h1 fr hm
    rw [nxt_stk] at hm
    rcases List.mem_cons.1 hm with rfl | hm
    · exact h1
    · exact cb_P fdOf (s' := nxt s' t (fr1 :: s.stk t)) ho (hp t fr hm) (cbs hf fr hm)
  cases a with
  | go =>
    cases hst : s.stk t with
    | nil =>
      have e0 : act fdOf s t .go = s := by simp [act, hst]
      rw [e0] at h ⊢
      exact hp t fr h
    | cons fr0 rest =>
      have e0 : act fdOf s t .go = frameStep fdOf s t rest fr0 := by simp [act, hd, hst]
      rw [e0] at h ⊢
      exact P_go fdOf hb hp hst h
  | add e m =>
    obtain ⟨_, hm, hs, hfr, hq⟩ := hg
    by_cases hf : free (s.stk t) = true
    · have e0 : act fdOf s t (.add e m) = nxt { s with mask := ch s.mask e m } t (.tryL (.add e (s.owner e) (toEp m)) :: s.stk t) := by
        simp [act, hd, hf, hm]
      rw [e0] at h ⊢
      refine push hf { s with mask := ch s.mask e m } (.tryL (.add e (s.owner e) (toEp m))) rfl ?_ fr h
      refine ⟨hs, rfl, by simp [nxt, ch], by simpa [nxt, ch] using hm, ?_, hq⟩
      intro u g hgm hgf
      right
      by_cases hu : u = t
      · subst hu
        rw [nxt_stk] at hgm
        rcases List.mem_cons.1 hgm with rfl | hgm
        · exact ⟨rfl, .inr rfl⟩
        · exact ⟨rfl, .inl (hfr u g hgm hgf).2⟩
      · have hgm' : g ∈ s.stk u := by simpa [nxt, upd_other _ _ _ _ hu] using hgm
        exact absurd (hfr u g hgm' hgf).1 hu
    · have e0 : act fdOf s t (.add e m) = s := by simp [act, hf]
      rw [e0] at h ⊢
      exact hp t fr h
  | rem e =>
    by_cases hf : free (s.stk t) = true
    · by_cases hm : s.mask e = .zero
      · have e0 : act fdOf s t (.rem e) = { s with dead := true } := by simp [act, hd, hf, hm]
        rw [e0] at h ⊢
        exact P_dead fdOf (hp t fr h)
      · have e0 : act fdOf s t (.rem e) = nxt s t (.tryL (.rem e (s.owner e)) :: s.stk t) := by simp [act, hd, hf, hm]
        rw [e0] at h ⊢
        exact push hf s (.tryL (.rem e (s.owner e))) rfl ⟨hg.2, hg.2⟩ fr h
    · have e0 : act fdOf s t (.rem e) = s := by simp [act, hf]
      rw [e0] at h ⊢
      exact hp t fr h
  | remFd f =>
    by_cases hf : free (s.stk t) = true ∧ s.slot f ≠ none
    · have e0 : act fdOf s t (.remFd f) = nxt s t (.tryL (.remFd f) :: s.stk t) := by simp [act, hd, hf.1, hf.2]
      rw [e0] at h ⊢
      refine push hf.1 s (.tryL (.remFd f)) rfl ?_ fr h
      obtain ⟨e, he⟩ := Option.ne_none_iff_exists'.1 hf.2
      exact ⟨e, he, hg.2 e he⟩
    · have e0 : act fdOf s t (.remFd f) = s := by simp only [act, if_neg hf]; simp
      rw [e0] at h ⊢
      exact hp t fr h
  | trig e m =>
    by_cases hf : free (s.stk t) = true
    · have e0 : act fdOf s t (.trig e m) = nxt s t (.t0 e m :: s.stk t) := by simp [act, hd, hf]
      rw [e0] at h ⊢
      exact push hf s (.t0 e m) rfl trivial fr h
    · have e0 : act fdOf s t (.trig e m) = s := by simp [act, hf]
      rw [e0] at h ⊢
      exact hp t fr h
  | update e m =>
    obtain ⟨⟨rest, hst⟩, hs, hm⟩ := hg
    have hf : free (s.stk t) = true := by rw [hst]; rfl
    have e0 : act fdOf s t (.update e m) =
        nxt { s with mask := ch s.mask e m } t (.upd e (s.owner e) (s.mask e = .zero) (toEp m) :: s.stk t) := by
      simp [act, hd, hf, hm]
    rw [e0] at h ⊢
    refine push hf { s with mask := ch s.mask e m } (.upd e (s.owner e) (s.mask e = .zero) (toEp m)) rfl ?_ fr h
    exact hp t (.cb e false) (by rw [hst]; simp)
  | setOwner e u =>
    by_cases hf : free (s.stk t) = true
    · rcases hg with ⟨⟨rest, hst⟩, _⟩ | ⟨_, _, h2, _⟩
      · have e0 : act fdOf s t (.setOwner e u) = nxt { s with owner := ch s.owner e u } t (.cb e true :: rest) := by
          simp [act, hd, hst, free]
        rw [e0] at h ⊢
        rw [nxt_stk] at h
        rcases List.mem_cons.1 h with rfl | h
        · trivial
        · have hP := hp t fr (by rw [hst]; simp [h])
          obtain ⟨x, mv, rfl⟩ := hb.shape t fr (by rw [hst]; exact h)
          cases mv with
          | true => trivial
          | false =>
            have hx : x ≠ e := by
              intro hx
              have h1 := (hb.lock (fdOf e)).one t
              rw [hst, cntO_cons] at h1
              have h2 := cnt_mem fdOf (f := fdOf e) h (by simp [Frame.ow, Frame.st, hx])
              simp [Frame.ow, Frame.st] at h1
              omega
            exact (ch_other _ _ _ _ hx).trans hP
      · have key : ∀ s' : St n, s'.owner = ch s.owner e u → ∀ fr ∈ s.stk t, P fdOf s' t fr := by
          intro s' ho fr hm
          have hP := hp t fr hm
          have hfe := h2 t fr hm
          obtain ⟨x, mv, rfl⟩ := cbs hf fr hm
          cases mv with
          | true => trivial
          | false =>
            have hx : x ≠ e := fun hx => hfe (by rw [hx]; rfl)
            exact (congrFun ho x).trans ((ch_other _ _ _ _ hx).trans hP)
        cases hst : s.stk t with
        | nil =>
          have e0 : act fdOf s t (.setOwner e u) = { s with owner := ch s.owner e u } := by
            simp [act, hd, hst, free]
          rw [e0] at h ⊢
          exact key _ rfl fr h
        | cons x rest =>
          obtain ⟨x, mv, rfl⟩ := cbs hf x (by rw [hst]; simp)
          have hx : x ≠ e := fun hx => h2 t (.cb x mv) (by rw [hst]; simp) (by rw [hx]; rfl)
          have e0 : act fdOf s t (.setOwner e u) = nxt { s with owner := ch s.owner e u } t (.cb x mv :: rest) := by
            simp [act, hd, hst, free, hx]
          rw [e0] at h ⊢
          rw [nxt_stk, ← hst] at h
          exact key _ rfl fr h
    · have e0 : act fdOf s t (.setOwner e u) = s := by simp [act, hf]
      rw [e0] at h ⊢
      exact hp t fr h
  | ret nm =>
    cases hst : s.stk t with
    | nil =>
      have e0 : act fdOf s t (.ret nm) = s := by simp [act, hst]
      rw [e0] at h ⊢
      exact hp t fr h
    | cons x rest =>
      by_cases hx : ∃ e mv, x = .cb e mv
      · obtain ⟨e, mv, rfl⟩ := hx
        have e0 : act fdOf s t (.ret nm) = nxt s t (.fin e nm :: rest) := by simp [act, hd, hst]
        rw [e0] at h ⊢
        rw [nxt_stk] at h
        rcases List.mem_cons.1 h with rfl | h
        · exact hg e mv rest hst
        · exact cb_P fdOf (s := s) (s' := nxt s t (.fin e nm :: rest)) rfl (hp t fr (by rw [hst]; simp [h]))
            (hb.shape t fr (by rw [hst]; exact h))
      · have e0 : act fdOf s t (.ret nm) = s := by
          simp only [act, hst]
          cases x <;> simp_all
        rw [e0] at h ⊢
        exact hp t fr h
  | pop =>
    by_cases hx : ∃ e m q, s.stk t = [] ∧ s.queue t = (e, m) :: q
    · obtain ⟨e, m, q, h1, h2⟩ := hx
      have e0 : act fdOf s t .pop = nxt { s with queue := Mtev.upd s.queue t q } t [.t0 e m] := by simp [act, hd, h1, h2]
      rw [e0] at h ⊢
      rw [nxt_stk] at h
      rw [List.mem_singleton.1 h]
      trivial
    · have e0 : act fdOf s t .pop = s := by
        simp only [act, hd']
        split <;> simp_all
      rw [e0] at h ⊢
      exact hp t fr h
  | wait b =>
    by_cases hx : s.stk t = [] ∧ s.batch t = [] ∧ (b.all fun p => reports (s.intr t p.1) p.2) = true
    · have : (act fdOf s t (.wait b)).stk t = [] := by simp only [act, hd', if_pos hx]; exact hx.1
      rw [this] at h; cases h
    · have e0 : act fdOf s t (.wait b) = s := by simp only [act, if_neg hx]; simp
      rw [e0] at h ⊢
      exact hp t fr h
  | fire =>
    by_cases hx : ∃ f p b, s.stk t = [] ∧ s.batch t = (f, p) :: b
    · obtain ⟨f, p, b, h1, h2⟩ := hx
      simp only [act, hd', h1, h2] at h ⊢
      cases hs : s.slot f with
      | none => simp [hs, h1] at h
      | some e =>
        simp only [hs] at h ⊢
        by_cases ho : s.owner e = t
        · simp [ho] at h ⊢
          rw [h]; trivial
        · simp [ho, h1] at h
    · have e0 : act fdOf s t .fire = s := by
        simp only [act, hd']
        split <;> simp_all
      rw [e0] at h ⊢
      exact hp t fr h

/-- The rules' assertions hold in all reachable states. -/
theorem pinv_run {s : St n} (h : Run fdOf (Good fdOf) s) : PInv fdOf s ∧ SlotOk fdOf s := by
  induction h with
  | init mask owner =>
    constructor
    · intro t fr hf; cases hf
    · intro f e h; cases h
  | @step s t a hr hg ih =>
    obtain ⟨hp, hso⟩ := ih
    have hb := base_run fdOf hr
    constructor
    · intro v fr hf
      by_cases hv : v = t
      · subst hv; exact P_own fdOf hb hp hg hf
      · rw [act_other fdOf _ _ _ _ hv] at hf
        exact P_other fdOf hb hp hso hv hg hf
    · intro f e he
      rcases act_slot fdOf hb hp t a f with h | ⟨_, _, ⟨e', h1, h2, h3⟩ | ⟨h1, e', own, j, rest, h2, h3, _⟩⟩
      · rw [h] at he; exact hso f e he
      · rw [h3] at he; cases he
      · rw [h2] at he; cases he; exact h3

/-! ### Stacks of programs that keep the rules -/

/-- How the stack of the thread changes. -/
inductive Top (s : St n) (t : Fin n) (a : Act n) (l : List (Frame n)) : Prop
  | same (h : l = s.stk t)
  | repl (fr0 fr1 : Frame n) (rest : List (Frame n)) (h : s.stk t = fr0 :: rest) (h' : l = fr1 :: rest)
      (hu : ∀ e sp ad ep, fr1 ≠ .upd e sp ad ep)
  | low (fr0 : Frame n) (h : s.stk t = fr0 :: l)
  | push (fr1 : Frame n) (h : l = fr1 :: s.stk t) (hm : ¬ HasMoved (s.stk t)) (hf : free (s.stk t) = true)
      (hu : ∀ e sp ad ep, fr1 = .upd e sp ad ep → ∃ rest, s.stk t = .cb e false :: rest)

theorem not_moved_cb {e : Nat} {rest : List (Frame n)} : ¬ HasMoved (.cb e false :: rest) := by
  rintro ⟨e', r, h⟩; cases h

theorem not_moved_nil : ¬ HasMoved ([] : List (Frame n)) := by
  rintro ⟨e', r, h⟩; cases h

theorem act_top {s : St n} {t : Fin n} {a : Act n} (hg : Good fdOf s t a) : Top s t a ((act fdOf s t a).stk t) := by
  by_cases hd : s.dead = true
  · exact .same (by simp [act, hd])
  cases a with
  | go =>
    cases hst : s.stk t with
    | nil => exact .same (by simp [act, hst])
    | cons fr rest =>
      have e0 : act fdOf s t .go = frameStep fdOf s t rest fr := by simp [act, hd, hst]
      rw [e0]
      have rp : ∀ (s' : St n) fr1, (∀ e sp ad ep, fr1 ≠ .upd e sp ad ep) → Top s t .go ((nxt s' t (fr1 :: rest)).stk t) :=
        fun s' fr1 h => .repl fr fr1 rest hst (nxt_stk ..) h
      have lw : ∀ (s' : St n), Top s t .go ((nxt s' t rest).stk t) := fun s' => .low fr (by rw [nxt_stk]; exact hst)
      have fn : ∀ (s' : St n) own f, Top s t .go ((nxt s' t (fini own f rest)).stk t) := by
        intro s' own f
        cases own
        · exact lw s'
        · exact rp s' _ (by intro e sp ad ep h; cases h)
      cases fr with
      | body own j =>
        cases j <;> simp only [frameStep, bodyStep] <;> (repeat' split) <;>
          first | exact fn .. | exact lw _ | exact rp _ _ (by intro e sp ad ep h; cases h)
      | fin e nm =>
        simp only [frameStep, finStep]
        repeat' split
        all_goals first | exact rp _ _ (by intro e sp ad ep h; cases h) | exact .same rfl
      | relB f k => cases k with
        | none => exact lw _
        | some p => exact rp _ _ (by intro e sp ad ep h; cases h)
      | _ => simp only [frameStep] <;> (try split) <;>
               first | exact fn .. | exact lw _ | exact rp _ _ (by intro e sp ad ep h; cases h) | exact .same rfl
  | add e m =>
    simp only [act, hd]
    repeat' split
    all_goals first | exact .same rfl | skip
    next hf _ => exact .push _ (nxt_stk ..) hg.1 hf (by intro e sp ad ep h; cases h)
  | rem e =>
    simp only [act, hd]
    repeat' split
    all_goals first | exact .same rfl | skip
    next hf _ => exact .push _ (nxt_stk ..) hg.1 hf (by intro e sp ad ep h; cases h)
  | remFd f =>
    simp only [act, hd]
    repeat' split
    all_goals first | exact .same rfl | skip
    next hf => exact .push _ (nxt_stk ..) hg.1 hf.1 (by intro e sp ad ep h; cases h)
  | trig e m =>
    simp only [act, hd]
    repeat' split
    all_goals first | exact .same rfl | skip
    next hf => exact .push _ (nxt_stk ..) hg.1 hf (by intro e sp ad ep h; cases h)
  | update e m =>
    obtain ⟨⟨rest, hst⟩, _⟩ := hg
    simp only [act, hd]
    repeat' split
    all_goals first | exact .same rfl | skip
    next hf _ =>
      exact .push _ (nxt_stk ..) (by rw [hst]; exact not_moved_cb) hf (by intro e sp ad ep h; cases h; exact ⟨rest, hst⟩)
  | setOwner e u =>
    simp only [act, hd]
    repeat' split
    all_goals first | exact .same rfl | skip
    · next hst _ => exact .repl _ _ _ hst (nxt_stk ..) (by intro e sp ad ep h; cases h)
    · next hst _ => exact .repl _ _ _ hst (nxt_stk ..) (by intro e sp ad ep h; cases h)
  | ret nm =>
    simp only [act, hd]
    repeat' split
    all_goals first | exact .same rfl | skip
    next hst => exact .repl _ _ _ hst (nxt_stk ..) (by intro e sp ad ep h; cases h)
  | pop =>
    simp only [act, hd]
    repeat' split
    all_goals first | exact .same rfl | skip
    next hst _ =>
      exact .push _ (by rw [nxt_stk, hst]) (by rw [hst]; exact not_moved_nil) (by rw [hst]; rfl) (by intro e sp ad ep h; cases h)
  | wait b =>
    simp only [act, hd]
    repeat' split
    all_goals exact .same rfl
  | fire =>
    simp only [act, hd]
    repeat' split
    all_goals first | exact .same rfl | skip
    next hst _ _ _ _ _ =>
      exact .push _ (by rw [nxt_stk, hst]) (by rw [hst]; exact not_moved_nil) (by rw [hst]; rfl) (by intro e sp ad ep h; cases h)

/-- Below the top there are callbacks that did not give their events away; an update is made in the event's callback. -/
structure Low (l : List (Frame n)) : Prop where
  cb : ∀ fr ∈ l.tail, ∃ e, fr = .cb e false
  upd : ∀ e sp ad ep rest, l = .upd e sp ad ep :: rest → ∃ rest', rest = .cb e false :: rest'

theorem low_run {s : St n} (h : Run fdOf (Good fdOf) s) (t : Fin n) : Low (s.stk t) := by
  induction h with
  | init mask owner =>
    exact ⟨by intro fr h; simp [init] at h, by intro e sp ad ep rest h; simp [init] at h⟩
  | @step s v a hr hg ih =>
    by_cases hv : t = v
    · subst hv
      cases act_top fdOf hg with
      | same h => rw [h]; exact ih
      | repl fr0 fr1 rest h h' hu =>
        rw [h']
        refine ⟨fun fr hf => ih.cb fr (by rw [h]; exact hf), ?_⟩
        intro e sp ad ep r hr
        cases hr
        exact absurd rfl (hu e sp ad ep)
      | low fr0 h =>
        refine ⟨fun fr hf => ih.cb fr (by rw [h]; exact List.mem_of_mem_tail hf), ?_⟩
        intro e sp ad ep r hr
        obtain ⟨x, hx⟩ := ih.cb (.upd e sp ad ep) (by rw [h, hr]; simp)
        cases hx
      | push fr1 h hm hf hu =>
        rw [h]
        constructor
        · intro fr hfr
          have hfr : fr ∈ s.stk t := hfr
          cases hst : s.stk t with
          | nil => rw [hst] at hfr; cases hfr
          | cons x rest =>
            rw [hst] at hfr hf hm
            rcases List.mem_cons.1 hfr with rfl | hfr
            · have hx : ∃ e mv, fr = .cb e mv := by
                cases fr <;> simp [free] at hf
                exact ⟨_, _, rfl⟩
              obtain ⟨e, mv, rfl⟩ := hx
              cases mv
              · exact ⟨e, rfl⟩
              · exact absurd ⟨e, rest, rfl⟩ hm
            · exact ih.cb fr (by rw [hst]; exact hfr)
        · intro e sp ad ep r hr
          injection hr with h1 h2
          rw [← h2]
          exact hu e sp ad ep h1
    · rw [act_other fdOf _ _ _ _ hv]
      exact ih

end Mtev.EvFd
