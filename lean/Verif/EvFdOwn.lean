import Verif.EvFdInv

/-!
Programs that keep the rules of the eventer (`Good`), in the model `EvFd`: invariants about the owner of an event,
its registration and the kernel's interest, by assertions on the frames of the threads.
-/

namespace Mtev.EvFd

variable {n : Nat} (fdOf : Nat → Nat)

/-- The descriptor a frame is about. -/
def Frame.fd : Frame n → Nat
  | .tryL j => j.fd fdOf
  | .chk j => j.fd fdOf
  | .spin j => j.fd fdOf
  | .setEx j => j.fd fdOf
  | .body _ j => j.fd fdOf
  | .put _ e _ _ => fdOf e
  | .del _ f _ => f
  | .readd e _ => fdOf e
  | .relA f _ => f
  | .relB f _ => f
  | .t0 e _ => fdOf e
  | .t1 e _ => fdOf e
  | .t2 e _ => fdOf e
  | .cb e _ => fdOf e
  | .fin e _ => fdOf e
  | .mvDel e _ => fdOf e
  | .mvAdd e _ => fdOf e
  | .modE e _ => fdOf e
  | .setM e _ => fdOf e
  | .upd e _ _ _ => fdOf e

/-- The thread is registering an event. -/
def Frame.adding : Frame n → Bool
  | .tryL (.add _ _ _) => true
  | .chk (.add _ _ _) => true
  | .spin (.add _ _ _) => true
  | .setEx (.add _ _ _) => true
  | .body _ (.add _ _ _) => true
  | .put _ _ _ _ => true
  | _ => false

/-- The callback in progress has given its event to another thread. -/
def HasMoved (l : List (Frame n)) : Prop := ∃ e rest, l = .cb e true :: rest

/-- The rules.
An event is added when its descriptor is not registered and nothing else goes on with it, save the callback that adds;
it is removed by its owner; it is not triggered while its descriptor is being added; it is updated in its callback;
it gets another owner when nothing goes on with its descriptor, or in its callback right before the return;
a callback returns 0 if its event is no longer registered or another one is in its place. -/
def Good (s : St n) (t : Fin n) : Act n → Prop
  | .go => True
  | .pop => True
  | .wait _ => True
  | .fire => True
  | .add e m => ¬ HasMoved (s.stk t) ∧ m ≠ .zero ∧ s.slot (fdOf e) = none ∧
      (∀ u fr, fr ∈ s.stk u → fr.fd fdOf = fdOf e → u = t ∧ ∃ e', fr = .cb e' false) ∧
      ∀ u p, p ∈ s.queue u → fdOf p.1 ≠ fdOf e
  | .rem e => ¬ HasMoved (s.stk t) ∧ s.owner e = t
  | .remFd f => ¬ HasMoved (s.stk t) ∧ ∀ e, s.slot f = some e → s.owner e = t
  | .trig e _ => ¬ HasMoved (s.stk t) ∧ ∀ u fr, fr ∈ s.stk u → fr.fd fdOf = fdOf e → fr.adding = false
  | .update e m => (∃ rest, s.stk t = .cb e false :: rest) ∧ s.slot (fdOf e) = some e ∧ m ≠ .zero
  | .setOwner e _ => ((∃ rest, s.stk t = .cb e false :: rest) ∧ (s.slot (fdOf e) = none ∨ s.slot (fdOf e) = some e)) ∨
      (¬ HasMoved (s.stk t) ∧ s.slot (fdOf e) ≠ some e ∧ (∀ u fr, fr ∈ s.stk u → fr.fd fdOf ≠ fdOf e) ∧
        ∀ u p, p ∈ s.queue u → fdOf p.1 ≠ fdOf e)
  | .ret nm => ∀ e mv rest, s.stk t = .cb e mv :: rest →
      (nm = .zero → s.slot (fdOf e) ≠ some e) ∧ (nm ≠ .zero → s.slot (fdOf e) = none ∨ s.slot (fdOf e) = some e)

/-! ### Assertions -/

/-- Frames of other calls that may be there while an event is added. -/
def Frame.remish : Frame n → Bool
  | .tryL (.rem _ _) => true
  | .chk (.rem _ _) => true
  | .spin (.rem _ _) => true
  | .setEx (.rem _ _) => true
  | .body _ (.rem _ _) => true
  | .relA _ none => true
  | .relB _ none => true
  | _ => false

/-- The job of a frame that is getting the lock. -/
def Frame.job : Frame n → Option (Job n)
  | .tryL j => some j
  | .chk j => some j
  | .spin j => some j
  | .setEx j => some j
  | .body _ j => some j
  | _ => none

/-- What holds while thread `t` gets the lock for a job. -/
def PJ (s : St n) (t : Fin n) : Job n → Prop
  | .add e sp ep => s.slot (fdOf e) = none ∧ s.owner e = sp ∧ ep = toEp (s.mask e) ∧ s.mask e ≠ .zero ∧
      (∀ u fr, fr ∈ s.stk u → fr.fd fdOf = fdOf e →
        fr.remish = true ∨ (u = t ∧ ((∃ e', fr = .cb e' false) ∨ fr.job = some (.add e sp ep)))) ∧
      ∀ u p, p ∈ s.queue u → fdOf p.1 ≠ fdOf e
  | .rem e sp => s.owner e = t ∧ sp = t
  | .remFd f => ∃ e, s.slot f = some e ∧ s.owner e = t
  | .reAdd e _ => s.owner e = t
  | .run e _ => s.owner e = t ∧ s.slot (fdOf e) = some e

/-- What holds while thread `t` is in a frame. -/
def P (s : St n) (t : Fin n) : Frame n → Prop
  | .tryL j => PJ fdOf s t j
  | .chk j => PJ fdOf s t j
  | .spin j => PJ fdOf s t j
  | .setEx j => PJ fdOf s t j
  | .body _ j => PJ fdOf s t j
  | .t1 e _ => s.owner e = t
  | .t2 e _ => s.owner e = t
  | .readd e _ => s.owner e = t
  | .relA f k => ∀ p, k = some p → s.owner p.1 = t ∧ fdOf p.1 = f
  | .relB f k => ∀ p, k = some p → s.owner p.1 = t ∧ fdOf p.1 = f
  | .cb e false => s.owner e = t
  | .upd e _ _ _ => s.owner e = t
  | .modE e _ => s.owner e = t
  | .fin e nm => (nm = .zero → s.slot (fdOf e) ≠ some e) ∧ (nm ≠ .zero → s.slot (fdOf e) = none ∨ s.slot (fdOf e) = some e)
  | _ => True

/-- Events are registered at their own descriptor. -/
def SlotOk (s : St n) : Prop := ∀ f e, s.slot f = some e → fdOf e = f

/-- All assertions. -/
def PInv (s : St n) : Prop := ∀ t fr, fr ∈ s.stk t → P fdOf s t fr

/-- The state of `f` is the same. -/
structure Keeps (f : Nat) (s s' : St n) : Prop where
  slot : s'.slot f = s.slot f
  intr : ∀ u, s'.intr u f = s.intr u f
  mask : ∀ e, fdOf e = f → s'.mask e = s.mask e
  owner : ∀ e, fdOf e = f → s'.owner e = s.owner e

theorem ch_same {α : Type} (g : Nat → α) (k : Nat) (v : α) : ch g k v k = v := by simp [ch]
theorem ch_other {α : Type} (g : Nat → α) (k x : Nat) (v : α) (h : x ≠ k) : ch g k v x = g x := by simp [ch, h]

theorem intr_other {s : St n} {sp : Fin n} {f g : Nat} {v : Option Ep} (h : f ≠ g) (u : Fin n) :
    Mtev.upd s.intr sp (ch (s.intr sp) g v) u f = s.intr u f := by
  rcases upd_cases s.intr sp u (ch (s.intr sp) g v) with ⟨e, h'⟩ | ⟨_, h'⟩
  · rw [h', ch_other _ _ _ _ h, e]
  · rw [h']

theorem epAdd_other {s : St n} {sp : Fin n} {f g : Nat} {ep : Ep} {i} (h : f ≠ g) (e : epAdd s sp g ep = some i) (u : Fin n) :
    i u f = s.intr u f := by
  unfold epAdd at e
  split at e
  · cases e
  · cases e; exact intr_other h u

theorem epMod_other {s : St n} {sp : Fin n} {f g : Nat} {ep : Ep} {i} (h : f ≠ g) (e : epMod s sp g ep = some i) (u : Fin n) :
    i u f = s.intr u f := by
  unfold epMod at e
  split at e
  · cases e; exact intr_other h u
  · cases e

theorem epDel_other {s : St n} {sp : Fin n} {f g : Nat} (h : f ≠ g) (u : Fin n) :
    ((epDel s sp g).getD s.intr) u f = s.intr u f := by
  unfold epDel
  split
  · exact intr_other h u
  · rfl

theorem epAddD_other {s : St n} {sp : Fin n} {f g : Nat} {ep : Ep} (h : f ≠ g) (u : Fin n) :
    ((epAdd s sp g ep).getD s.intr) u f = s.intr u f := by
  cases e : epAdd s sp g ep with
  | none => rfl
  | some i => exact epAdd_other h e u

theorem epEither_other {s : St n} {sp : Fin n} {f g : Nat} {ep : Ep} {i} {b : Bool} (h : f ≠ g)
    (e : epEither s b sp g ep = some i) (u : Fin n) : i u f = s.intr u f := by
  unfold epEither at e
  cases ha : epAdd s sp g ep <;> cases hm : epMod s sp g ep <;> rw [ha, hm] at e <;> cases b <;> simp at e <;>
    first
      | (subst e; exact epMod_other h hm u)
      | (subst e; exact epAdd_other h ha u)

/-- A step in a frame of another descriptor leaves `f` alone. -/
theorem frame_keeps {s : St n} {t : Fin n} {rest : List (Frame n)} {fr : Frame n} {f : Nat} (h : fr.fd fdOf ≠ f) (hs : SlotOk fdOf s) :
    Keeps fdOf f s (frameStep fdOf s t rest fr) := by
  have h' : f ≠ fr.fd fdOf := Ne.symm h
  have refl : Keeps fdOf f s s := ⟨rfl, fun _ => rfl, fun _ _ => rfl, fun _ _ => rfl⟩
  have ne : ∀ {e x}, fdOf e ≠ f → fdOf x = f → x ≠ e := fun h1 h2 h3 => h1 (h3 ▸ h2)
  cases fr with
  | body own j =>
    cases j <;> simp only [Frame.fd, Job.fd] at h h' <;> simp only [frameStep, bodyStep] <;> (try split) <;> (try split) <;>
      first
        | exact refl
        | exact ⟨rfl, fun _ => rfl, fun _ _ => rfl, fun _ _ => rfl⟩
        | exact ⟨ch_other _ _ _ _ h', fun _ => rfl, fun _ _ => rfl, fun _ _ => rfl⟩
        | exact ⟨ch_other _ _ _ _ h', fun _ => rfl, fun x hx => ch_other _ _ _ _ (ne h hx), fun _ _ => rfl⟩
  | put own e sp ep =>
    simp only [frameStep]
    split
    · next hi => exact ⟨rfl, fun u => epAdd_other h' hi u, fun _ _ => rfl, fun _ _ => rfl⟩
    · exact ⟨rfl, fun _ => rfl, fun _ _ => rfl, fun _ _ => rfl⟩
  | del own g sp => exact ⟨rfl, fun u => epDel_other h' u, fun _ _ => rfl, fun _ _ => rfl⟩
  | readd e m => exact ⟨rfl, fun u => epAddD_other h' u, fun _ _ => rfl, fun _ _ => rfl⟩
  | mvDel e m => exact ⟨rfl, fun u => epDel_other h' u, fun _ _ => rfl, fun _ _ => rfl⟩
  | mvAdd e m => exact ⟨rfl, fun u => epAddD_other h' u, fun _ _ => rfl, fun _ _ => rfl⟩
  | modE e m =>
    simp only [frameStep]
    split
    · next hi => exact ⟨rfl, fun u => epEither_other h' hi u, fun _ _ => rfl, fun _ _ => rfl⟩
    · exact ⟨rfl, fun _ => rfl, fun _ _ => rfl, fun _ _ => rfl⟩
  | upd e sp add ep =>
    simp only [frameStep]
    split
    · next hi => exact ⟨rfl, fun u => epEither_other h' hi u, fun _ _ => rfl, fun _ _ => rfl⟩
    · exact ⟨rfl, fun _ => rfl, fun _ _ => rfl, fun _ _ => rfl⟩
  | setM e m => exact ⟨rfl, fun _ => rfl, fun x hx => ch_other _ _ _ _ (ne h hx), fun _ _ => rfl⟩
  | fin e nm =>
    simp only [frameStep, finStep]
    repeat' split
    all_goals first
      | exact ⟨rfl, fun _ => rfl, fun _ _ => rfl, fun _ _ => rfl⟩
      | exact ⟨ch_other _ _ _ _ h', fun _ => rfl, fun _ _ => rfl, fun _ _ => rfl⟩
  | _ =>
    simp only [frameStep] <;> (try split) <;> exact ⟨rfl, fun _ => rfl, fun _ _ => rfl, fun _ _ => rfl⟩

/-! ### What an action changes -/

/-- What holds in all reachable states. -/
structure Base (s : St n) : Prop where
  lock : ∀ f, LockInv fdOf f s
  shape : ∀ t, Shape (s.stk t)
  nested : ∀ t fr rest f, s.stk t = fr :: rest → fr.nested fdOf = some f → cntO fdOf f rest = 1

theorem base_run {D : St n → Fin n → Act n → Prop} {s : St n} (h : Run fdOf D s) : Base fdOf s :=
  ⟨lockInv_run fdOf h, shape_run fdOf h, nested_held fdOf h⟩

theorem cnt_mem {f : Nat} {fr : Frame n} {l : List (Frame n)} (h : fr ∈ l) (ho : fr.ow fdOf f = true) : 1 ≤ cntO fdOf f l := by
  unfold cntO
  exact List.countP_pos_iff.2 ⟨fr, h, ho⟩

theorem body_holds {s : St n} (hb : Base fdOf s) {t : Fin n} {own : Bool} {j : Job n} {rest : List (Frame n)}
    (h : s.stk t = .body own j :: rest) : cntO fdOf (j.fd fdOf) (s.stk t) = 1 := by
  have h1 := (hb.lock (j.fd fdOf)).one t
  cases own
  · have := hb.nested t _ rest (j.fd fdOf) h rfl
    rw [h, cntO_cons] at h1 ⊢
    omega
  · have := cnt_mem fdOf (f := j.fd fdOf) (fr := .body true j) (l := s.stk t) (by rw [h]; simp) (by simp [Frame.ow, Frame.st])
    omega

/-- How an action changes the event registered for `f`. -/
theorem act_slot {s : St n} (hb : Base fdOf s) (hp : PInv fdOf s) (t : Fin n) (a : Act n) (f : Nat) :
    (act fdOf s t a).slot f = s.slot f ∨
    (cntO fdOf f (s.stk t) = 1 ∧ (act fdOf s t a).owner = s.owner ∧
      ((∃ e, s.slot f = some e ∧ s.owner e = t ∧ (act fdOf s t a).slot f = none) ∨
       (s.slot f = none ∧ ∃ e own j rest, (act fdOf s t a).slot f = some e ∧ fdOf e = f ∧ s.stk t = .body own j :: rest ∧
          j.fd fdOf = f ∧ ((∃ sp ep, j = .add e sp ep) ∨ (own = true ∧ ∃ m, j = .reAdd e m))))) := by
  by_cases hd : s.dead = true
  · left; simp [act, hd]
  cases a with
  | go =>
    cases hst : s.stk t with
    | nil => left; simp [act, hst]
    | cons fr rest =>
      have e0 : act fdOf s t .go = frameStep fdOf s t rest fr := by simp [act, hd, hst]
      rw [e0, ← hst]
      have hfr := hp t fr (by rw [hst]; simp)
      cases fr with
      | body own j =>
        have hc := body_holds fdOf hb hst
        cases j with
        | add e sp ep =>
          by_cases hf : f = fdOf e
          · subst hf
            exact .inr ⟨hc, rfl, .inr ⟨hfr.1, e, own, _, rest, by simp [frameStep, bodyStep, ch], rfl, hst, rfl, .inl ⟨sp, ep, rfl⟩⟩⟩
          · left; simp [frameStep, bodyStep, ch, hf]
        | rem e sp =>
          simp only [frameStep, bodyStep]
          split
          · next hs =>
            by_cases hf : f = fdOf e
            · subst hf
              exact .inr ⟨hc, rfl, .inl ⟨e, hs, hfr.1, by simp [ch]⟩⟩
            · left; simp [ch, hf]
          · left; rfl
        | remFd g =>
          obtain ⟨e, hs, ho⟩ := hfr
          simp only [frameStep, bodyStep, hs]
          by_cases hf : f = g
          · subst hf
            exact .inr ⟨hc, rfl, .inl ⟨e, hs, ho, by simp [ch]⟩⟩
          · left; simp [ch, hf]
        | reAdd e m =>
          simp only [frameStep, bodyStep]
          split
          · next ho =>
            split
            · left; rfl
            · next hs =>
              by_cases hf : f = fdOf e
              · subst hf
                exact .inr ⟨hc, rfl, .inr ⟨hs, e, own, _, rest, by simp [ch], rfl, hst, rfl, .inr ⟨ho, m, rfl⟩⟩⟩
              · left; simp [ch, hf]
          · left; rfl
        | run e m =>
          left
          simp only [frameStep, bodyStep]
          split <;> rfl
      | fin e nm =>
        left
        simp only [frameStep, finStep]
        split
        · repeat' split
          all_goals rfl
        · next hz =>
          have hz : nm = .zero := by simpa using hz
          rw [if_neg (hfr.1 hz)]; rfl
      | _ => left; simp only [frameStep] <;> (try split) <;> rfl
  | setOwner e u => left; simp only [act, hd]; repeat' split
                    all_goals rfl
  | fire => left; simp only [act, hd]; repeat' split
            all_goals rfl
  | _ => left; simp only [act, hd] <;> (repeat' split) <;> rfl

/-- How an action changes the owner of an event. -/
theorem act_owner {s : St n} {t : Fin n} {a : Act n} (hg : Good fdOf s t a) (e : Nat) :
    (act fdOf s t a).owner e = s.owner e ∨
    (∃ rest u, s.stk t = .cb e false :: rest ∧ a = .setOwner e u) ∨
    (s.slot (fdOf e) ≠ some e ∧ (∀ u fr, fr ∈ s.stk u → fr.fd fdOf ≠ fdOf e) ∧ ∀ u p, p ∈ s.queue u → fdOf p.1 ≠ fdOf e) := by
  by_cases hd : s.dead = true
  · left; simp [act, hd]
  cases a with
  | go =>
    left
    cases hst : s.stk t with
    | nil => simp [act, hst]
    | cons fr rest =>
      have e0 : act fdOf s t .go = frameStep fdOf s t rest fr := by simp [act, hd, hst]
      rw [e0]
      cases fr with
      | body own j => cases j <;> simp only [frameStep, bodyStep] <;> (repeat' split) <;> rfl
      | fin e nm =>
        simp only [frameStep, finStep]
        repeat' split
        all_goals rfl
      | _ => simp only [frameStep] <;> (try split) <;> rfl
  | setOwner e' u =>
    by_cases he : e = e'
    · subst he
      rcases hg with ⟨⟨rest, h⟩, _⟩ | ⟨_, h1, h2, h3⟩
      · exact .inr (.inl ⟨rest, u, h, rfl⟩)
      · exact .inr (.inr ⟨h1, h2, h3⟩)
    · left
      simp only [act, hd]
      repeat' split
      all_goals first | rfl | simp [ch, he]
  | fire => left; simp only [act, hd]; repeat' split
            all_goals rfl
  | _ => left; simp only [act, hd] <;> (repeat' split) <;> rfl

/-- How an action changes the mask of an event. -/
theorem act_mask {s : St n} (t : Fin n) (a : Act n) (e : Nat) :
    (act fdOf s t a).mask e = s.mask e ∨
    (a = .go ∧ ∃ rest m, s.stk t = .body true (.reAdd e m) :: rest ∨ s.stk t = .setM e m :: rest) ∨
    (∃ m, a = .add e m) ∨ (∃ m, a = .update e m) := by
  by_cases hd : s.dead = true
  · left; simp [act, hd]
  cases a with
  | go =>
    cases hst : s.stk t with
    | nil => left; simp [act, hst]
    | cons fr rest =>
      have e0 : act fdOf s t .go = frameStep fdOf s t rest fr := by simp [act, hd, hst]
      rw [e0]
      cases fr with
      | body own j =>
        cases j with
        | reAdd e' m =>
          by_cases he : e = e'
          · subst he
            cases own
            · left; rfl
            · exact .inr (.inl ⟨rfl, rest, m, .inl rfl⟩)
          · left
            simp only [frameStep, bodyStep]
            repeat' split
            all_goals first | rfl | simp [ch, he]
        | _ => left; simp only [frameStep, bodyStep] <;> (repeat' split) <;> rfl
      | setM e' m =>
        by_cases he : e = e'
        · subst he
          exact .inr (.inl ⟨rfl, rest, m, .inr rfl⟩)
        · left; simp [frameStep, ch, he]
      | fin e nm =>
        left
        simp only [frameStep, finStep]
        repeat' split
        all_goals rfl
      | _ => left; simp only [frameStep] <;> (try split) <;> rfl
  | setOwner e u => left; simp only [act, hd]; repeat' split
                    all_goals rfl
  | add e' m =>
    by_cases he : e = e'
    · subst he; exact .inr (.inr (.inl ⟨m, rfl⟩))
    · left
      simp only [act, hd]
      repeat' split
      all_goals first | rfl | simp [ch, he]
  | update e' m =>
    by_cases he : e = e'
    · subst he; exact .inr (.inr (.inr ⟨m, rfl⟩))
    · left
      simp only [act, hd]
      repeat' split
      all_goals first | rfl | simp [ch, he]
  | fire => left; simp only [act, hd]; repeat' split
            all_goals rfl
  | _ => left; simp only [act, hd] <;> (repeat' split) <;> rfl

/-- Triggers are queued by a thread that triggers the event. -/
theorem act_queue {s : St n} (t : Fin n) (a : Act n) (u : Fin n) (p : Nat × Mask) (h : p ∈ (act fdOf s t a).queue u) :
    p ∈ s.queue u ∨ ∃ rest, s.stk t = .t0 p.1 p.2 :: rest ∨ s.stk t = .body false (.reAdd p.1 p.2) :: rest := by
  by_cases hd : s.dead = true
  · left; simpa [act, hd] using h
  cases a with
  | go =>
    cases hst : s.stk t with
    | nil => left; simpa [act, hst, hd] using h
    | cons fr rest =>
      have e0 : act fdOf s t .go = frameStep fdOf s t rest fr := by simp [act, hd, hst]
      rw [e0] at h
      have hx : ∀ e m, p ∈ (cross s e m).queue u → p ∈ s.queue u ∨ p = (e, m) := by
        intro e m h
        change p ∈ Mtev.upd s.queue (s.owner e) ((e, m) :: s.queue (s.owner e)) u at h
        rcases upd_cases s.queue (s.owner e) u ((e, m) :: s.queue (s.owner e)) with ⟨e1, h'⟩ | ⟨_, h'⟩
        · rw [h'] at h
          rcases List.mem_cons.1 h with h | h
          · exact .inr h
          · exact .inl (e1 ▸ h)
        · rw [h'] at h; exact .inl h
      cases fr with
      | body own j =>
        cases j with
        | reAdd e m =>
          simp only [frameStep, bodyStep] at h
          split at h
          · left; split at h <;> exact h
          · next ho =>
            rcases hx e m h with h | rfl
            · exact .inl h
            · exact .inr ⟨rest, .inr (by simp at ho; rw [ho])⟩
        | _ => left; simp only [frameStep, bodyStep] at h <;> (repeat' split at h) <;> exact h
      | t0 e m =>
        simp only [frameStep] at h
        split at h
        · rcases hx e m h with h | rfl
          · exact .inl h
          · exact .inr ⟨rest, .inl rfl⟩
        · exact .inl h
      | fin e nm =>
        left
        simp only [frameStep, finStep] at h
        repeat' split at h
        all_goals exact h
      | _ => left; simp only [frameStep] at h <;> (repeat' split at h) <;> exact h
  | setOwner e u => left; simp only [act, hd] at h; repeat' split at h
                    all_goals exact h
  | fire => left; simp only [act, hd] at h; repeat' split at h
            all_goals exact h
  | pop =>
    left
    simp only [act, hd] at h
    repeat' split at h
    all_goals first | exact h | skip
    next e m q _ hq =>
      change p ∈ Mtev.upd s.queue t q u at h
      rcases upd_cases s.queue t u q with ⟨e1, h'⟩ | ⟨_, h'⟩
      · rw [h'] at h
        rw [e1, hq]
        exact List.mem_cons_of_mem _ h
      · rw [h'] at h; exact h
  | _ => left; simp only [act, hd] at h <;> (repeat' split at h) <;> exact h

/-! ### Steps of other threads keep the assertions of a thread -/

/-- While an event is added by another thread, this one only gets frames that are harmless for it. -/
theorem add_quiet {s : St n} (hp : PInv fdOf s) (hso : SlotOk fdOf s) {t v : Fin n} (hv : v ≠ t) {a : Act n} (hg : Good fdOf s t a)
    {f : Nat} {fr0 : Frame n} (h0 : fr0 ∈ s.stk v) (hf0 : fr0.fd fdOf = f) (ha0 : fr0.adding = true)
    (hsl : s.slot f = none) (hr : ∀ fr, fr ∈ s.stk t → fr.fd fdOf = f → fr.remish = true)
    (hq : ∀ u p, p ∈ s.queue u → fdOf p.1 ≠ f) {fr : Frame n} (h : fr ∈ (act fdOf s t a).stk t) (hf : fr.fd fdOf = f) :
    fr.remish = true := by
  by_cases hd : s.dead = true
  · exact hr fr (by simpa [act, hd] using h) hf
  have hrest : ∀ {l fr0}, s.stk t = fr0 :: l → fr ∈ l → fr.remish = true := fun h1 h2 => hr fr (by rw [h1]; simp [h2]) hf
  cases a with
  | go =>
    cases hst : s.stk t with
    | nil => exact hr fr (by simpa [act, hd, hst] using h) hf
    | cons g rest =>
      have e0 : act fdOf s t .go = frameStep fdOf s t rest g := by simp [act, hd, hst]
      rw [e0] at h
      have hP := hp t g (by rw [hst]; simp)
      have hmem : fr ∈ s.stk t → fr.remish = true := fun h => hr fr h hf
      by_cases hgf : g.fd fdOf = f
      · have hgr := hr g (by rw [hst]; simp) hgf
        have key : ∀ {s' : St n} {x}, fr ∈ (nxt s' t (x :: rest)).stk t → x.remish = true → fr.remish = true := by
          intro s' x h hx
          rw [nxt_stk] at h
          rcases List.mem_cons.1 h with rfl | h
          · exact hx
          · exact hrest hst h
        have key0 : ∀ {s' : St n}, fr ∈ (nxt s' t rest).stk t → fr.remish = true := by
          intro s' h; rw [nxt_stk] at h; exact hrest hst h
        cases g with
        | tryL j => cases j <;> simp [Frame.remish] at hgr
                    simp only [frameStep] at h; split at h <;> exact key h rfl
        | chk j => cases j <;> simp [Frame.remish] at hgr
                   simp only [frameStep] at h; split at h <;> exact key h rfl
        | spin j => cases j <;> simp [Frame.remish] at hgr
                    simp only [frameStep] at h
                    split at h
                    · exact hmem h
                    · exact key h rfl
        | setEx j => cases j <;> simp [Frame.remish] at hgr
                     simp only [frameStep] at h; exact key h rfl
        | body own j =>
          cases j <;> simp [Frame.remish] at hgr
          next e sp =>
          have hgf' : fdOf e = f := hgf
          simp only [frameStep, bodyStep, hgf', hsl, fini] at h
          simp only [reduceCtorEq, if_false] at h
          split at h
          · exact key h rfl
          · exact key0 h
        | relA g k =>
          cases k <;> simp [Frame.remish] at hgr
          simp only [frameStep] at h; exact key h rfl
        | relB g k =>
          cases k <;> simp [Frame.remish] at hgr
          simp only [frameStep] at h; exact key0 h
        | _ => simp [Frame.remish] at hgr
      · have key : ∀ {s' : St n} {x}, fr ∈ (nxt s' t (x :: rest)).stk t → x.fd fdOf ≠ f → fr.remish = true := by
          intro s' x h hx
          rw [nxt_stk] at h
          rcases List.mem_cons.1 h with rfl | h
          · exact absurd hf hx
          · exact hrest hst h
        have key0 : ∀ {s' : St n}, fr ∈ (nxt s' t rest).stk t → fr.remish = true := by
          intro s' h; rw [nxt_stk] at h; exact hrest hst h
        cases g with
        | body own j =>
          cases j <;> simp only [frameStep, bodyStep, fini] at h <;> (repeat' split at h) <;>
            first | exact key h hgf | exact key0 h
        | fin e nm =>
          simp only [frameStep, finStep] at h
          repeat' split at h
          all_goals first | exact key h hgf | exact hmem h
        | relB g k =>
          simp only [frameStep] at h
          split at h
          · next e m => exact key h (by rw [← (hP (e, m) rfl).2] at hgf; exact hgf)
          · exact key0 h
        | _ =>
          simp only [frameStep, fini] at h <;> (repeat' split at h) <;>
            first | exact key h hgf | exact key0 h | exact hmem h
  | add e m =>
    simp only [act, hd] at h
    by_cases he : fdOf e = f
    · exact absurd (hg.2.2.2.1 v fr0 h0 (hf0.trans he.symm)).1 hv
    · repeat' split at h
      all_goals first | exact hr fr h hf | skip
      rw [nxt_stk] at h
      rcases List.mem_cons.1 h with rfl | h
      · exact absurd hf he
      · exact hr fr h hf
  | rem e =>
    simp only [act, hd] at h
    repeat' split at h
    all_goals first | exact hr fr h hf | skip
    rw [nxt_stk] at h
    rcases List.mem_cons.1 h with rfl | h
    · rfl
    · exact hr fr h hf
  | remFd g =>
    simp only [act, hd] at h
    repeat' split at h
    all_goals first | exact hr fr h hf | skip
    next hx =>
    rw [nxt_stk] at h
    rcases List.mem_cons.1 h with rfl | h
    · have hf' : g = f := hf
      exact absurd (hf' ▸ hsl) hx.2
    · exact hr fr h hf
  | trig e m =>
    simp only [act, hd] at h
    repeat' split at h
    all_goals first | exact hr fr h hf | skip
    rw [nxt_stk] at h
    rcases List.mem_cons.1 h with rfl | h
    · have := hg.2 v fr0 h0 (hf0.trans hf.symm)
      rw [ha0] at this; cases this
    · exact hr fr h hf
  | update e m =>
    obtain ⟨⟨rest, hst⟩, h2, _⟩ := hg
    simp only [act, hd] at h
    by_cases he : fdOf e = f
    · rw [he, hsl] at h2; cases h2
    · repeat' split at h
      all_goals first | exact hr fr h hf | skip
      rw [nxt_stk] at h
      rcases List.mem_cons.1 h with rfl | h
      · exact absurd hf he
      · exact hr fr h hf
  | setOwner e u =>
    simp only [act, hd] at h
    repeat' split at h
    all_goals first | exact hr fr h hf | skip
    · next e' mv rest hst he =>
      have hst' : s.stk t = .cb e' mv :: rest := hst
      rw [nxt_stk] at h
      rcases List.mem_cons.1 h with rfl | h
      · have := hr (.cb e' mv) (by rw [hst']; simp) (by rw [he]; exact hf)
        simp [Frame.remish] at this
      · exact hrest hst' h
    · next e' mv rest hst he =>
      have hst' : s.stk t = .cb e' mv :: rest := hst
      rw [nxt_stk] at h
      rcases List.mem_cons.1 h with rfl | h
      · have := hr (.cb e' mv) (by rw [hst']; simp) hf
        simp [Frame.remish] at this
      · exact hrest hst' h
  | ret nm =>
    simp only [act, hd] at h
    repeat' split at h
    all_goals first | exact hr fr h hf | skip
    next e' mv rest hst =>
    rw [nxt_stk] at h
    rcases List.mem_cons.1 h with rfl | h
    · have := hr (.cb e' mv) (by rw [hst]; simp) hf
      simp [Frame.remish] at this
    · exact hrest hst h
  | pop =>
    simp only [act, hd] at h
    repeat' split at h
    all_goals first | exact hr fr h hf | skip
    next e m q _ hqq =>
    rw [nxt_stk] at h
    rw [List.mem_singleton.1 h] at hf
    exact absurd (show fdOf e = f from hf) (hq t (e, m) (by rw [hqq]; simp))
  | wait b =>
    simp only [act, hd] at h
    repeat' split at h
    all_goals exact hr fr h hf
  | fire =>
    simp only [act, hd] at h
    repeat' split at h
    all_goals first | exact hr fr h hf | skip
    next g p b _ _ _ e hse _ =>
    rw [nxt_stk] at h
    rw [List.mem_singleton.1 h] at hf
    have h2 : s.slot g = some e := hse
    have h1 := hso _ _ h2
    have hf' : fdOf e = f := hf
    rw [← h1, hf', hsl] at h2
    cases h2

theorem job_fd {fr : Frame n} {j : Job n} (h : fr.job = some j) : fr.fd fdOf = j.fd fdOf := by
  cases fr <;> simp [Frame.job] at h <;> subst h <;> rfl

theorem job_adding {fr : Frame n} {e : Nat} {sp : Fin n} {ep : Ep} (h : fr.job = some (.add e sp ep)) : fr.adding = true := by
  cases fr <;> simp [Frame.job] at h <;> subst h <;> rfl

theorem job_P {s : St n} {t : Fin n} {fr : Frame n} {j : Job n} (h : fr.job = some j) : P fdOf s t fr = PJ fdOf s t j := by
  cases fr <;> simp [Frame.job] at h <;> subst h <;> rfl

theorem owner_stays {s : St n} (hp : PInv fdOf s) {t v : Fin n} (hv : v ≠ t) {a : Act n} (hg : Good fdOf s t a) {e : Nat}
    {fr : Frame n} (hf : fr ∈ s.stk v) (he : fr.fd fdOf = fdOf e) (ho : s.owner e = v) : (act fdOf s t a).owner e = v := by
  rcases act_owner fdOf hg e with h | ⟨rest, u, h, _⟩ | ⟨_, h, _⟩
  · rw [h, ho]
  · have := hp t (.cb e false) (by rw [h]; simp)
    exact absurd (ho.symm.trans this) hv
  · exact absurd he (h v fr hf)

theorem slot_stays {s : St n} (hb : Base fdOf s) (hp : PInv fdOf s) {t v : Fin n} (hv : v ≠ t) {a : Act n} {e : Nat}
    {f : Nat} (ho : s.owner e = v) (hs : s.slot f = some e) : (act fdOf s t a).slot f = some e := by
  rcases act_slot fdOf hb hp t a f with h | ⟨_, _, ⟨e', h1, h2, _⟩ | ⟨h1, _⟩⟩
  · rw [h, hs]
  · rw [hs] at h1; cases h1
    exact absurd (ho.symm.trans h2) hv
  · rw [hs] at h1; cases h1

/-- The assertions of a thread are kept by the steps of the others. -/
theorem P_other {s : St n} (hb : Base fdOf s) (hp : PInv fdOf s) (hso : SlotOk fdOf s) {t v : Fin n} (hv : v ≠ t) {a : Act n}
    (hg : Good fdOf s t a) {fr : Frame n} (hf : fr ∈ s.stk v) : P fdOf (act fdOf s t a) v fr := by
  have hP := hp v fr hf
  cases hj : fr.job with
  | some j =>
    rw [job_P fdOf hj] at hP ⊢
    have hfd := job_fd fdOf hj
    cases j with
    | add e sp ep =>
      obtain ⟨h1, h2, h3, h4, h5, h6⟩ := hP
      have hrem : ∀ g, g ∈ s.stk t → g.fd fdOf = fdOf e → g.remish = true := by
        intro g hg hge
        rcases h5 t g hg hge with h | ⟨h, _⟩
        · exact h
        · exact absurd h.symm hv
      have hm : (act fdOf s t a).mask e = s.mask e := by
        rcases act_mask fdOf t a e with h | ⟨_, rest, m, h | h⟩ | ⟨m, rfl⟩ | ⟨m, rfl⟩
        · exact h
        · have := hrem (.body true (.reAdd e m)) (by rw [h]; simp) rfl
          cases this
        · have := hrem (.setM e m) (by rw [h]; simp) rfl
          cases this
        · exact absurd (hg.2.2.2.1 v fr hf hfd).1 hv
        · have := hg.2.1
          rw [h1] at this; cases this
      refine ⟨?_, ?_, by rw [hm]; exact h3, by rw [hm]; exact h4, ?_, ?_⟩
      · rcases act_slot fdOf hb hp t a (fdOf e) with h | ⟨_, _, ⟨e', h, _⟩ | ⟨_, e', own, j, rest, _, _, hst, hjf, hj'⟩⟩
        · rw [h, h1]
        · rw [h1] at h; cases h
        · have := hrem (.body own j) (by rw [hst]; simp) hjf
          rcases hj' with ⟨sp', ep', rfl⟩ | ⟨_, m, rfl⟩ <;> cases this
      · rcases act_owner fdOf hg e with h | ⟨rest, u, h, _⟩ | ⟨_, h, _⟩
        · rw [h, h2]
        · have := hrem (.cb e false) (by rw [h]; simp) rfl
          cases this
        · exact absurd hfd (h v fr hf)
      · intro u g hgm hgf
        by_cases hu : u = t
        · subst hu
          left
          exact add_quiet fdOf hp hso hv hg hf (f := fdOf e) hfd (job_adding hj) h1 hrem h6 hgm hgf
        · rw [act_other fdOf _ _ _ _ hu] at hgm
          exact h5 u g hgm hgf
      · intro u p hpm
        rcases act_queue fdOf t a u p hpm with h | ⟨rest, h | h⟩
        · exact h6 u p h
        · intro hpe
          have := hrem (.t0 p.1 p.2) (by rw [h]; simp) hpe
          cases this
        · intro hpe
          have := hrem (.body false (.reAdd p.1 p.2)) (by rw [h]; simp) hpe
          cases this
    | rem e sp => exact ⟨owner_stays fdOf hp hv hg hf hfd hP.1, hP.2⟩
    | remFd f =>
      obtain ⟨e, h1, h2⟩ := hP
      have hfe : fr.fd fdOf = fdOf e := hfd.trans (hso _ _ h1).symm
      exact ⟨e, slot_stays fdOf hb hp hv h2 h1, owner_stays fdOf hp hv hg hf hfe h2⟩
    | reAdd e m => exact owner_stays fdOf hp hv hg hf hfd hP
    | run e m => exact ⟨owner_stays fdOf hp hv hg hf hfd hP.1, slot_stays fdOf hb hp hv hP.1 hP.2⟩
  | none =>
    cases fr with
    | t1 e m => exact owner_stays fdOf hp hv hg hf rfl hP
    | t2 e m => exact owner_stays fdOf hp hv hg hf rfl hP
    | readd e m => exact owner_stays fdOf hp hv hg hf rfl hP
    | relA f k =>
      intro p hk
      exact ⟨owner_stays fdOf hp hv hg hf (hP p hk).2.symm (hP p hk).1, (hP p hk).2⟩
    | relB f k =>
      intro p hk
      exact ⟨owner_stays fdOf hp hv hg hf (hP p hk).2.symm (hP p hk).1, (hP p hk).2⟩
    | cb e mv =>
      cases mv
      · exact owner_stays fdOf hp hv hg hf rfl hP
      · trivial
    | upd e sp ad ep => exact owner_stays fdOf hp hv hg hf rfl hP
    | modE e m => exact owner_stays fdOf hp hv hg hf rfl hP
    | fin e nm =>
      have hs : (act fdOf s t a).slot (fdOf e) = s.slot (fdOf e) := by
        rcases act_slot fdOf hb hp t a (fdOf e) with h | ⟨h, _⟩
        · exact h
        · have h1 := cnt_mem fdOf (f := fdOf e) hf (by simp [Frame.ow, Frame.st])
          have h2 := (hb.lock (fdOf e)).one v
          exact absurd ((hb.lock (fdOf e)).uniq v t (by omega) h) hv
      have hP' : (nm = .zero → s.slot (fdOf e) ≠ some e) ∧ (nm ≠ .zero → s.slot (fdOf e) = none ∨ s.slot (fdOf e) = some e) := hP
      rw [← hs] at hP'
      exact hP'
    | tryL j => cases hj
    | chk j => cases hj
    | spin j => cases hj
    | setEx j => cases hj
    | body o j => cases hj
    | _ => trivial

end Mtev.EvFd
