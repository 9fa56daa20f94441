import Verif.Mem
import Verif.Basic

/-!
How libmtev runs libcurl inside the event loop (src/utils/mtev_curl.c): the
sockets curl asks to have watched, and the contexts and events that do it.
-/

namespace Mtev.CurlEv

/-- A context: its references and its event.
    /repo/src/utils/mtev_curl.c 127-131 (`curl_context_t`).  `e` is set with the
    context (244-260) and cleared only when it is freed (133-139). -/
structure Ctx where
  refs : Nat
  ev : Nat
deriving DecidableEq, Repr

/-- An event: its socket, its mask and its closure, the context.
    /repo/src/utils/mtev_curl.c 258 (`eventer_alloc_fd`) -/
structure Ev where
  sock : Nat
  mask : Nat
  ctx : Nat
deriving DecidableEq, Repr

/-- The state of one event loop thread.  `sp` is what curl keeps with a socket
    (`curl_multi_assign`), `ctx` and `ev` are the contexts and events that are
    allocated, `mst` is the event a descriptor is registered with, `kern` the
    mask the kernel watches it with.
    /repo/src/utils/mtev_curl.c 49-52; /repo/src/eventer/eventer_epoll_impl.c
    (`master_fds`).  Simplified: identities are counted and not used again; the
    locks of descriptors are left out, all of it runs on the one thread. -/
structure St where
  sp : Nat → Option Nat
  ctx : Nat → Option Ctx
  ev : Nat → Option Ev
  mst : Nat → Option Nat
  kern : Nat → Option Nat
  next : Nat

/-- Nothing watched yet. -/
def St.init : St := ⟨fun _ => none, fun _ => none, fun _ => none, fun _ => none, fun _ => none, 0⟩

/-- A function changed at one point.  Helper. -/
def upd {α : Type} (f : Nat → α) (i : Nat) (a : α) : Nat → α := fun j => if j = i then a else f j

/-- A call of curl's socket function: watch a socket with a mask, or stop. -/
inductive Act where
  | want (s mask : Nat)
  | drop (s : Nat)
deriving DecidableEq, Repr

/-- `curl_context_deref`.  /repo/src/utils/mtev_curl.c 133-139 -/
def deref (s : St) (c : Nat) : Out St :=
  match s.ctx c with
  | none => .ub
  | some k => .ok { s with ctx := upd s.ctx c (if k.refs = 1 then none else some { k with refs := k.refs - 1 }) }

/-- `eventer_curl_handle_socket`.  /repo/src/utils/mtev_curl.c 234-284, with
    `eventer_add`, `eventer_update` and `eventer_remove_fd` of
    /repo/src/eventer/eventer_epoll_impl.c 135-184, 224-258, 259-282.  A context
    that was freed is `ub`.  A removal of a socket with neither context nor
    event closes it (277-280), which does not show here. -/
def act (s : St) : Act → Out St
  | .want f m => match s.sp f with
    | none =>
        .ok { sp := upd s.sp f (some s.next), ctx := upd s.ctx s.next (some ⟨1, s.next⟩),
              ev := upd s.ev s.next (some ⟨f, m, s.next⟩), mst := upd s.mst f (some s.next),
              kern := upd s.kern f (some m), next := s.next + 1 }
    | some c => match s.ctx c with
      | none => .ub
      | some k => match s.ev k.ev with
        | none => .ub
        | some x => .ok { s with ev := upd s.ev k.ev (some { x with mask := m }), kern := upd s.kern x.sock (some m) }
  | .drop f =>
      let c? := match s.sp f with
        | some c => some c
        | none => (s.mst f).bind fun e => (s.ev e).map (·.ctx)
      match c? with
      | none => .ok s
      | some c => match s.ctx c with
        | none => .ub
        | some k => match s.ev k.ev with
          | none => .ub
          | some x => match deref { s with mst := upd s.mst x.sock none, kern := upd s.kern x.sock none } c with
            | .ok s' => .ok { s' with sp := upd s'.sp f none }
            | .ub => .ub
            | .abort => .abort

/-- Several calls.  Helper. -/
def acts : St → List Act → Out St
  | s, [] => .ok s
  | s, a :: as => match act s a with
    | .ok s' => acts s' as
    | .ub => .ub
    | .abort => .abort

/-- A descriptor is ready: the callback tells curl, curl makes the calls `as`,
    and the loop takes the mask returned.
    /repo/src/utils/mtev_curl.c 183-201 (`eventer_curl_perform`: the context is
    held meanwhile, so that its `e` is not cleared when curl drops the socket
    and the mask of the event is returned);
    /repo/src/eventer/eventer_epoll_impl.c 380-441 (the kernel is given the
    mask if the descriptor is registered with any event). -/
def fire (s : St) (f : Nat) (as : List Act) : Out St :=
  match s.mst f with
  | none => .ok s
  | some e => match s.ev e with
    | none => .ub
    | some x => match s.ctx x.ctx with
      | none => .ub
      | some k => match acts { s with ctx := upd s.ctx x.ctx (some { k with refs := k.refs + 1 }) } as with
        | .ub => .ub
        | .abort => .abort
        | .ok s2 => match s2.ev e with
          | none => .ub
          | some y => match deref s2 x.ctx with
            | .ub => .ub
            | .abort => .abort
            | .ok s3 => .ok (if s3.mst f = none then s3 else { s3 with kern := upd s3.kern f (some y.mask) })

/-- What happens on the loop's thread: curl makes calls outside of a socket's
    callback (from a timer, 202-214, or a new request, 343-348), or in one. -/
inductive Op where
  | tick (as : List Act)
  | fire (f : Nat) (as : List Act)

/-- One of them.  /repo/src/utils/mtev_curl.c 183-214, 343-348 -/
def step (s : St) : Op → Out St
  | .tick as => acts s as
  | .fire f as => fire s f as

/-- Any number of them. -/
def run : St → List Op → Out St
  | s, [] => .ok s
  | s, x :: xs => match step s x with
    | .ok s' => run s' xs
    | .ub => .ub
    | .abort => .abort

/-! ### The timer -/

/-- The timers of a thread: those pending (identity, milliseconds at which due),
    and the one remembered.
    /repo/src/utils/mtev_curl.c 53 (`_global_curl_timeout`) -/
structure Tm where
  pending : List (Nat × Nat)
  ptr : Option Nat
  next : Nat
deriving DecidableEq, Repr

/-- A call of curl's timer function: a new timeout in milliseconds, or none
    any more. -/
inductive TAct where
  | set (ms : Nat)
  | cancel
deriving DecidableEq, Repr

/-- `eventer_curl_start_timeout` at the time `now`.
    /repo/src/utils/mtev_curl.c 215-233.  Removing a timer that is not pending
    any more does nothing (/repo/src/eventer/eventer_impl.c 1179-1193). -/
def tact (now : Nat) (t : Tm) : TAct → Tm
  | .set ms => { pending := t.pending ++ [(t.next, now + (if ms = 0 then 1 else ms))], ptr := some t.next,
                 next := t.next + 1 }
  | .cancel => match t.ptr with
    | none => t
    | some p => { t with pending := t.pending.filter (fun x => x.1 != p), ptr := none }

/-- `eventer_curl_on_timeout` for the timer `i`: the loop has taken it off;
    curl makes the calls `as` while it is told, and `bs` come from handlers of
    requests that are done.
    /repo/src/utils/mtev_curl.c 202-214 -/
def tfire (now : Nat) (t : Tm) (i : Nat) (as bs : List TAct) : Tm :=
  let t1 := { t with pending := t.pending.filter (fun x => x.1 != i) }
  let t2 := as.foldl (tact now) t1
  bs.foldl (tact now) { t2 with ptr := none }

/-! ### The invariant -/

theorem upd_self {α : Type} (f : Nat → α) (i : Nat) (a : α) : upd f i a i = a := by simp [upd]

theorem upd_ne {α : Type} (f : Nat → α) {i j : Nat} (a : α) (h : j ≠ i) : upd f i a j = f j := by simp [upd, h]

/-- What the events say of the sockets curl has asked for. -/
def regd (s : St) (f : Nat) : Option Nat :=
  (s.sp f).bind fun c => (s.ctx c).bind fun k => (s.ev k.ev).map (·.mask)

/-- `h` is the context a callback holds. -/
structure Inv (h : Option Nat) (s : St) : Prop where
  sock : ∀ f c, s.sp f = some c → ∃ e m, s.ctx c = some ⟨1 + (if h = some c then 1 else 0), e⟩ ∧
    s.ev e = some ⟨f, m, c⟩ ∧ s.mst f = some e
  off : ∀ f, s.sp f = none → s.mst f = none
  koff : ∀ f, s.sp f = none → s.kern f = none
  held : ∀ c, h = some c → (∃ f, s.sp f = some c) ∨ (∃ e, s.ctx c = some ⟨1, e⟩)
  used : ∀ c k, s.ctx c = some k → (∃ f, s.sp f = some c) ∨ h = some c
  freshc : ∀ c k, s.ctx c = some k → c < s.next
  freshe : ∀ e x, s.ev e = some x → e < s.next

theorem Inv.inj {h : Option Nat} {s : St} (hI : Inv h s) {f g c : Nat} (hf : s.sp f = some c) (hg : s.sp g = some c) :
    f = g := by
  obtain ⟨e, m, h1, h2, _⟩ := hI.sock f c hf
  obtain ⟨e', m', h1', h2', _⟩ := hI.sock g c hg
  rw [h1] at h1'
  cases h1'
  rw [h2] at h2'
  cases h2'
  rfl

theorem inv_init : Inv none St.init where
  sock := by intro f c h; cases h
  off := by intro f _; rfl
  koff := by intro f _; rfl
  held := by intro c h; cases h
  used := by intro c k h; cases h
  freshc := by intro c k h; cases h
  freshe := by intro c k h; cases h

/-- The mask asked for after a call. -/
def after (f : Nat) (old : Option Nat) : Act → Option Nat
  | .want g m => if g = f then some m else old
  | .drop g => if g = f then none else old

/-- The kernel watches what the events say. -/
def Kern (s : St) : Prop := ∀ f, s.kern f = regd s f

theorem after_want (f g m : Nat) (old : Option Nat) : after f old (.want g m) = if g = f then some m else old := rfl

theorem after_drop (f g : Nat) (old : Option Nat) : after f old (.drop g) = if g = f then none else old := rfl

theorem act_inv {h : Option Nat} {s : St} (hI : Inv h s) (a : Act) :
    ∃ s', act s a = .ok s' ∧ Inv h s' ∧ (∀ f, regd s' f = after f (regd s f) a) ∧
      (∀ f, s'.kern f = after f (s.kern f) a) ∧ (∀ e, s.ev e ≠ none → s'.ev e ≠ none) := by
  cases a with
  | want f m =>
    cases hf : s.sp f with
    | none =>
      have hnc : ∀ c, (∃ g, s.sp g = some c) → c ≠ s.next := by
        rintro c ⟨g, hg⟩ rfl
        obtain ⟨e, m', h1, _⟩ := hI.sock g _ hg
        exact absurd (hI.freshc _ _ h1) (Nat.lt_irrefl _)
      have hhn : h ≠ some s.next := by
        intro hh
        rcases hI.held _ hh with hx | ⟨e, he⟩
        · exact hnc _ hx rfl
        · exact absurd (hI.freshc _ _ he) (Nat.lt_irrefl _)
      have old : ∀ g c, g ≠ f → upd s.sp f (some s.next) g = some c → s.sp g = some c := by
        intro g c hg h; rwa [upd_ne _ _ hg] at h
      have ha : act s (.want f m) = .ok { sp := upd s.sp f (some s.next), ctx := upd s.ctx s.next (some ⟨1, s.next⟩), ev := upd s.ev s.next (some ⟨f, m, s.next⟩), mst := upd s.mst f (some s.next), kern := upd s.kern f (some m), next := s.next + 1 } := by
        simp only [act, hf]
      refine ⟨_, ha, ⟨?_, ?_, ?_, ?_, ?_, ?_, ?_⟩, ?_, ?_, ?_⟩
      · intro g c hg
        by_cases hgf : g = f
        · subst hgf
          simp only [upd_self, Option.some.injEq] at hg
          subst hg
          refine ⟨s.next, m, ?_, ?_, ?_⟩
          · simp only [upd_self, if_neg hhn]
          · simp only [upd_self]
          · simp only [upd_self]
        · have hg' := old g c hgf hg
          obtain ⟨e, m', h1, h2, h3⟩ := hI.sock g c hg'
          have hen : e ≠ s.next := fun hh => absurd (hI.freshe e _ h2) (by omega)
          refine ⟨e, m', ?_, ?_, ?_⟩
          · simp only [upd_ne _ _ (hnc c ⟨g, hg'⟩)]; exact h1
          · simp only [upd_ne _ _ hen]; exact h2
          · simp only [upd_ne _ _ hgf]; exact h3
      · intro g hg
        by_cases hgf : g = f
        · subst hgf; simp only [upd_self] at hg; cases hg
        · simp only [upd_ne _ _ hgf] at hg ⊢; exact hI.off g hg
      · intro g hg
        by_cases hgf : g = f
        · subst hgf; simp only [upd_self] at hg; cases hg
        · simp only [upd_ne _ _ hgf] at hg ⊢; exact hI.koff g hg
      · intro c hc
        rcases hI.held c hc with ⟨g, hg⟩ | ⟨e, he⟩
        · refine .inl ⟨g, ?_⟩
          have : g ≠ f := by rintro rfl; rw [hf] at hg; cases hg
          simp only [upd_ne _ _ this]; exact hg
        · refine .inr ⟨e, ?_⟩
          have : c ≠ s.next := fun hh => absurd (hI.freshc c _ he) (by omega)
          simp only [upd_ne _ _ this]; exact he
      · intro c k hc
        by_cases hcn : c = s.next
        · exact .inl ⟨f, by simp only [upd_self, hcn]⟩
        · simp only [upd_ne _ _ hcn] at hc
          rcases hI.used c k hc with ⟨g, hg⟩ | hh
          · refine .inl ⟨g, ?_⟩
            have : g ≠ f := by rintro rfl; rw [hf] at hg; cases hg
            simp only [upd_ne _ _ this]; exact hg
          · exact .inr hh
      · intro c k hc
        show c < s.next + 1
        by_cases hcn : c = s.next
        · omega
        · simp only [upd_ne _ _ hcn] at hc
          have := hI.freshc c k hc; omega
      · intro c k hc
        show c < s.next + 1
        by_cases hcn : c = s.next
        · omega
        · simp only [upd_ne _ _ hcn] at hc
          have := hI.freshe c k hc; omega
      · intro g
        rw [after_want]
        unfold regd
        by_cases hgf : f = g
        · subst hgf
          simp [upd_self]
        · rw [if_neg hgf]
          simp only [upd_ne _ _ (fun h => hgf h.symm)]
          cases hg : s.sp g with
          | none => rfl
          | some c =>
            obtain ⟨e, m', h1, h2, _⟩ := hI.sock g c hg
            have hen : e ≠ s.next := fun hh => absurd (hI.freshe e _ h2) (by omega)
            simp only [Option.bind_some, upd_ne _ _ (hnc c ⟨g, hg⟩), h1, upd_ne _ _ hen]
      · intro g
        rw [after_want]
        by_cases hgf : f = g
        · subst hgf; simp only [upd_self, if_true]
        · rw [if_neg hgf]; simp only [upd_ne _ _ (fun h => hgf h.symm)]
      · intro e he
        by_cases hen : e = s.next
        · subst hen; simp [upd_self]
        · simp only [upd_ne _ _ hen]; exact he
    | some c =>
      obtain ⟨e, m', h1, h2, h3⟩ := hI.sock f c hf
      have ha : act s (.want f m) = .ok { s with ev := upd s.ev e (some ⟨f, m, c⟩), kern := upd s.kern f (some m) } := by
        simp only [act, hf, h1, h2]
      refine ⟨_, ha, ⟨?_, hI.off, ?_, hI.held, hI.used, hI.freshc, ?_⟩, ?_, ?_, ?_⟩
      · intro g c' hg
        obtain ⟨e', m'', k1, k2, k3⟩ := hI.sock g c' hg
        by_cases he : e' = e
        · subst he
          rw [h2] at k2
          cases k2
          exact ⟨e', m, k1, by simp only [upd_self], k3⟩
        · exact ⟨e', m'', k1, by simp only [upd_ne _ _ he]; exact k2, k3⟩
      · intro g hg
        have : g ≠ f := by rintro rfl; rw [show s.sp g = none from hg] at hf; cases hf
        simp only [upd_ne _ _ this]; exact hI.koff g hg
      · intro e' x hx
        by_cases he : e' = e
        · subst he; exact hI.freshe _ _ h2
        · simp only [upd_ne _ _ he] at hx; exact hI.freshe _ _ hx
      · intro g
        rw [after_want]
        unfold regd
        by_cases hgf : f = g
        · subst hgf
          simp [hf, h1, upd_self]
        · rw [if_neg hgf]
          cases hg : s.sp g with
          | none => simp [hg]
          | some c' =>
            obtain ⟨e', m'', k1, k2, _⟩ := hI.sock g c' hg
            have he : e' ≠ e := by
              rintro rfl
              rw [h2] at k2; cases k2; exact hgf rfl
            simp only [hg, Option.bind_some, k1, upd_ne _ _ he]
      · intro g
        rw [after_want]
        by_cases hgf : f = g
        · subst hgf; simp only [upd_self, if_true]
        · rw [if_neg hgf]; simp only [upd_ne _ _ (fun h => hgf h.symm)]
      · intro e' he'
        by_cases he : e' = e
        · subst he; simp [upd_self]
        · simp only [upd_ne _ _ he]; exact he'
  | drop f =>
    cases hf : s.sp f with
    | none =>
      have hm := hI.off f hf
      refine ⟨s, by simp [act, hf, hm], hI, ?_, ?_, fun e he => he⟩
      · intro g
        rw [after_drop]
        by_cases hgf : f = g
        · subst hgf; rw [if_pos rfl]; unfold regd; simp [hf]
        · rw [if_neg hgf]
      · intro g
        rw [after_drop]
        by_cases hgf : f = g
        · subst hgf; rw [if_pos rfl]; exact hI.koff f hf
        · rw [if_neg hgf]
    | some c =>
      obtain ⟨e, m', h1, h2, h3⟩ := hI.sock f c hf
      have ha : act s (.drop f) = .ok { s with mst := upd s.mst f none, kern := upd s.kern f none, ctx := upd s.ctx c (if h = some c then some ⟨1, e⟩ else none), sp := upd s.sp f none } := by
        simp only [act, hf, h1, h2, deref]
        by_cases hh : h = some c
        · simp [hh]
        · simp [hh]
      have ne : ∀ g c', g ≠ f → s.sp g = some c' → c' ≠ c := by
        rintro g c' hg hg' rfl
        exact hg (hI.inj hg' hf)
      refine ⟨_, ha, ⟨?_, ?_, ?_, ?_, ?_, ?_, hI.freshe⟩, ?_, ?_, fun e he => he⟩
      · intro g c' hg
        by_cases hgf : g = f
        · subst hgf; simp only [upd_self] at hg; cases hg
        · simp only [upd_ne _ _ hgf] at hg
          obtain ⟨e', m'', k1, k2, k3⟩ := hI.sock g c' hg
          refine ⟨e', m'', ?_, k2, ?_⟩
          · simp only [upd_ne _ _ (ne g c' hgf hg)]; exact k1
          · simp only [upd_ne _ _ hgf]; exact k3
      · intro g hg
        by_cases hgf : g = f
        · subst hgf; simp only [upd_self]
        · simp only [upd_ne _ _ hgf] at hg ⊢; exact hI.off g hg
      · intro g hg
        by_cases hgf : g = f
        · subst hgf; simp only [upd_self]
        · simp only [upd_ne _ _ hgf] at hg ⊢; exact hI.koff g hg
      · intro c' hc'
        by_cases hcc : c' = c
        · subst hcc
          exact .inr ⟨e, by simp only [upd_self, if_pos hc']⟩
        · rcases hI.held c' hc' with ⟨g, hg⟩ | ⟨e', he'⟩
          · refine .inl ⟨g, ?_⟩
            have : g ≠ f := by rintro rfl; rw [hf] at hg; cases hg; exact hcc rfl
            simp only [upd_ne _ _ this]; exact hg
          · exact .inr ⟨e', by simp only [upd_ne _ _ hcc]; exact he'⟩
      · intro c' k hc'
        by_cases hcc : c' = c
        · subst hcc
          by_cases hh : h = some c'
          · exact .inr hh
          · simp only [upd_self, if_neg hh] at hc'; cases hc'
        · simp only [upd_ne _ _ hcc] at hc'
          rcases hI.used c' k hc' with ⟨g, hg⟩ | hh
          · refine .inl ⟨g, ?_⟩
            have : g ≠ f := by rintro rfl; rw [hf] at hg; cases hg; exact hcc rfl
            simp only [upd_ne _ _ this]; exact hg
          · exact .inr hh
      · intro c' k hc'
        by_cases hcc : c' = c
        · subst hcc; exact hI.freshc _ _ h1
        · simp only [upd_ne _ _ hcc] at hc'; exact hI.freshc _ _ hc'
      · intro g
        rw [after_drop]
        unfold regd
        by_cases hgf : f = g
        · subst hgf; simp [upd_self]
        · rw [if_neg hgf]
          simp only [upd_ne _ _ (fun h => hgf h.symm)]
          cases hg : s.sp g with
          | none => rfl
          | some c' =>
            simp only [Option.bind_some, upd_ne _ _ (ne g c' (fun h => hgf h.symm) hg)]
      · intro g
        rw [after_drop]
        by_cases hgf : f = g
        · subst hgf; simp only [upd_self, if_true]
        · rw [if_neg hgf]; simp only [upd_ne _ _ (fun h => hgf h.symm)]

theorem acts_inv {h : Option Nat} {s : St} (hI : Inv h s) (as : List Act) :
    ∃ s', acts s as = .ok s' ∧ Inv h s' ∧ (∀ f, regd s' f = as.foldl (after f) (regd s f)) ∧
      (∀ f, s'.kern f = as.foldl (after f) (s.kern f)) ∧ (∀ e, s.ev e ≠ none → s'.ev e ≠ none) := by
  induction as generalizing s with
  | nil => exact ⟨s, rfl, hI, fun _ => rfl, fun _ => rfl, fun _ h => h⟩
  | cons a as ih =>
    obtain ⟨s₁, h1, i1, r1, k1, e1⟩ := act_inv hI a
    obtain ⟨s₂, h2, i2, r2, k2, e2⟩ := ih i1
    refine ⟨s₂, ?_, i2, ?_, ?_, fun e he => e2 e (e1 e he)⟩
    · unfold acts; rw [h1]; exact h2
    · intro f; rw [r2, r1]; rfl
    · intro f; rw [k2, k1]; rfl

theorem act_keep {h : Option Nat} {s s' : St} (hI : Inv h s) {a : Act} (ha : act s a = .ok s') {f c e : Nat} {n : Nat}
    (hf : s.sp f = some c) (hc : s.ctx c = some ⟨n, e⟩) (hd : a ≠ .drop f) :
    s'.sp f = some c ∧ ∃ n', s'.ctx c = some ⟨n', e⟩ := by
  cases a with
  | want g m =>
    cases hg : s.sp g with
    | none =>
      simp only [act, hg] at ha
      have hgf : f ≠ g := by rintro rfl; rw [hf] at hg; cases hg
      have hcn : c ≠ s.next := fun hh => absurd (hI.freshc c _ hc) (by omega)
      rw [← Out.ok.inj ha]
      exact ⟨by simp only [upd_ne _ _ hgf]; exact hf, n, by simp only [upd_ne _ _ hcn]; exact hc⟩
    | some c' =>
      obtain ⟨e', m', h1, h2, h3⟩ := hI.sock g c' hg
      simp only [act, hg, h1, h2] at ha
      rw [← Out.ok.inj ha]
      exact ⟨hf, n, hc⟩
  | drop g =>
    have hgf : f ≠ g := by rintro rfl; exact hd rfl
    cases hg : s.sp g with
    | none =>
      simp only [act, hg, hI.off g hg, Option.bind_none] at ha
      rw [← Out.ok.inj ha]
      exact ⟨hf, n, hc⟩
    | some c' =>
      obtain ⟨e', m', h1, h2, h3⟩ := hI.sock g c' hg
      have hcc : c ≠ c' := by rintro rfl; exact hgf (hI.inj hf hg)
      simp only [act, hg, h1, h2, deref] at ha
      rw [← Out.ok.inj ha]
      exact ⟨by simp only [upd_ne _ _ hgf]; exact hf, n, by simp only [upd_ne _ _ hcc]; exact hc⟩

theorem acts_keep {h : Option Nat} {s s' : St} (hI : Inv h s) {as : List Act} (ha : acts s as = .ok s') {f c e n : Nat}
    (hf : s.sp f = some c) (hc : s.ctx c = some ⟨n, e⟩) (hd : Act.drop f ∉ as) :
    s'.sp f = some c ∧ ∃ n', s'.ctx c = some ⟨n', e⟩ := by
  induction as generalizing s n with
  | nil => cases ha; exact ⟨hf, n, hc⟩
  | cons a as ih =>
    obtain ⟨s₁, h1, i1, _⟩ := act_inv hI a
    obtain ⟨k1, n', k2⟩ := act_keep hI h1 hf hc (fun h => hd (h ▸ List.mem_cons_self))
    unfold acts at ha
    rw [h1] at ha
    exact ih i1 ha k1 k2 (fun h => hd (List.mem_cons_of_mem _ h))

/-- Curl does not, within the callback of a socket, drop it and end up wanting
    the same number again. -/
def Calm (f : Nat) (as : List Act) : Prop := Act.drop f ∉ as ∨ as.foldl (after f) none = none

theorem foldl_after_none (f : Nat) (as : List Act) (h : as.foldl (after f) none = none) (h2 : Act.drop f ∈ as)
    (o : Option Nat) : as.foldl (after f) o = none := by
  induction as generalizing o with
  | nil => cases h2
  | cons a as ih =>
    rw [List.foldl_cons] at h ⊢
    rcases List.mem_cons.1 h2 with rfl | h3
    · rw [after_drop, if_pos rfl] at h ⊢; exact h
    · cases a with
      | want g m =>
        rw [after_want] at h ⊢
        by_cases hg : g = f
        · rw [if_pos hg] at h ⊢; exact h
        · rw [if_neg hg] at h ⊢; exact ih h h3 o
      | drop g =>
        rw [after_drop] at h ⊢
        by_cases hg : g = f
        · rw [if_pos hg] at h ⊢; exact h
        · rw [if_neg hg] at h ⊢; exact ih h h3 o

theorem regd_none {h : Option Nat} {s : St} (hI : Inv h s) {f : Nat} (hr : regd s f = none) : s.sp f = none := by
  cases hf : s.sp f with
  | none => rfl
  | some c =>
    obtain ⟨e, m, h1, h2, _⟩ := hI.sock f c hf
    simp [regd, hf, h1, h2] at hr

theorem fire_inv {s : St} (hI : Inv none s) (f : Nat) (as : List Act) :
    ∃ s', fire s f as = .ok s' ∧ Inv none s' ∧
      (∀ g, regd s' g = if s.mst f = none then regd s g else as.foldl (after g) (regd s g)) ∧
      (Kern s → Calm f as → Kern s') ∧ (∀ e, s.ev e ≠ none → s'.ev e ≠ none) := by
  cases hm : s.mst f with
  | none =>
    exact ⟨s, by unfold fire; rw [hm], hI, fun g => by rw [if_pos rfl], fun hk _ => hk, fun _ h => h⟩
  | some e =>
    cases hf : s.sp f with
    | none => rw [hI.off f hf] at hm; cases hm
    | some c =>
      obtain ⟨e', m, h1, h2, h3⟩ := hI.sock f c hf
      rw [hm] at h3
      cases h3
      simp only [reduceCtorEq, if_false, Nat.add_zero] at h1
      generalize hs1 : ({ s with ctx := upd s.ctx c (some ⟨2, e⟩) } : St) = s1
      have e1 : s1.ev = s.ev ∧ s1.sp = s.sp ∧ s1.mst = s.mst ∧ s1.kern = s.kern ∧ s1.next = s.next ∧
        s1.ctx = upd s.ctx c (some ⟨2, e⟩) := by subst hs1; exact ⟨rfl, rfl, rfl, rfl, rfl, rfl⟩
      obtain ⟨ee, es, em, ek, en, ec⟩ := e1
      have i1 : Inv (some c) s1 := by
        refine ⟨?_, ?_, ?_, ?_, ?_, ?_, ?_⟩
        · intro g c' hg
          rw [es] at hg
          rw [ee, em, ec]
          by_cases hcc : c' = c
          · subst hcc
            have := hI.inj hg hf
            subst this
            exact ⟨e, m, by rw [upd_self, if_pos rfl], h2, hm⟩
          · obtain ⟨e', m', k1, k2, k3⟩ := hI.sock g c' hg
            refine ⟨e', m', ?_, k2, k3⟩
            rw [upd_ne _ _ hcc, k1, if_neg (by simp), if_neg (by simpa using fun h => hcc h.symm)]
        · rw [es, em]; exact hI.off
        · rw [es, ek]; exact hI.koff
        · intro c' hc'
          cases hc'
          exact .inl ⟨f, by rw [es]; exact hf⟩
        · intro c' k hc'
          rw [ec] at hc'
          rw [es]
          by_cases hcc : c' = c
          · exact .inr (by rw [hcc])
          · rw [upd_ne _ _ hcc] at hc'
            rcases hI.used c' k hc' with hx | hx
            · exact .inl hx
            · cases hx
        · intro c' k hc'
          rw [ec] at hc'
          rw [en]
          by_cases hcc : c' = c
          · rw [hcc]; exact hI.freshc _ _ h1
          · rw [upd_ne _ _ hcc] at hc'; exact hI.freshc _ _ hc'
        · rw [ee, en]; exact hI.freshe
      have r1 : ∀ g, regd s1 g = regd s g := by
        intro g
        unfold regd
        rw [ee, es, ec]
        cases hg : s.sp g with
        | none => rfl
        | some c' =>
          simp only [Option.bind_some]
          by_cases hcc : c' = c
          · subst hcc; rw [upd_self, h1]; rfl
          · rw [upd_ne _ _ hcc]
      obtain ⟨s2, a2, i2, r2, k2, v2⟩ := acts_inv i1 as
      have hy : ∃ y, s2.ev e = some y := by
        cases hy : s2.ev e with
        | none => exact absurd hy (v2 e (by rw [ee, h2]; simp))
        | some y => exact ⟨y, rfl⟩
      obtain ⟨y, hy⟩ := hy
      -- the reference is given back
      have hd : ∃ s3, deref s2 c = .ok s3 ∧ Inv none s3 ∧ (∀ g, regd s3 g = regd s2 g) ∧ s3.mst = s2.mst ∧
          s3.kern = s2.kern ∧ s3.ev = s2.ev ∧ s3.sp = s2.sp := by
        rcases i2.held c rfl with ⟨g, hg⟩ | ⟨e₂, he₂⟩
        · obtain ⟨e₂, m₂, q1, q2, q3⟩ := i2.sock g c hg
          rw [if_pos rfl] at q1
          have hde : deref s2 c = .ok { s2 with ctx := upd s2.ctx c (some ⟨1, e₂⟩) } := by simp [deref, q1]
          refine ⟨_, hde, ⟨?_, i2.off, i2.koff, ?_, ?_, ?_, i2.freshe⟩, ?_, rfl, rfl, rfl, rfl⟩
          · intro g' c' hg'
            obtain ⟨e₃, m₃, p1, p2, p3⟩ := i2.sock g' c' hg'
            refine ⟨e₃, m₃, ?_, p2, p3⟩
            by_cases hcc : c' = c
            · subst hcc
              rw [if_pos rfl, q1] at p1
              cases p1
              simp [upd_self]
            · simp only [upd_ne _ _ hcc, p1]
              rw [if_neg (by simpa using fun h => hcc h.symm), if_neg (by simp)]
          · intro c' hc'; cases hc'
          · intro c' k hc'
            by_cases hcc : c' = c
            · exact .inl ⟨g, by rw [hcc]; exact hg⟩
            · simp only [upd_ne _ _ hcc] at hc'
              rcases i2.used c' k hc' with hx | hx
              · exact .inl hx
              · cases hx; exact absurd rfl hcc
          · intro c' k hc'
            by_cases hcc : c' = c
            · rw [hcc]; exact i2.freshc _ _ q1
            · simp only [upd_ne _ _ hcc] at hc'; exact i2.freshc _ _ hc'
          · intro g'
            unfold regd
            show (s2.sp g').bind _ = _
            cases hg' : s2.sp g' with
            | none => rfl
            | some c' =>
              simp only [Option.bind_some]
              by_cases hcc : c' = c
              · subst hcc; rw [upd_self, q1]; simp
              · rw [upd_ne _ _ hcc]
        · have hno : ∀ g, s2.sp g ≠ some c := by
            intro g hg
            obtain ⟨e₃, m₃, p1, _⟩ := i2.sock g c hg
            rw [he₂, if_pos rfl] at p1
            simp at p1
          have hde : deref s2 c = .ok { s2 with ctx := upd s2.ctx c none } := by simp [deref, he₂]
          refine ⟨_, hde, ⟨?_, i2.off, i2.koff, ?_, ?_, ?_, i2.freshe⟩, ?_, rfl, rfl, rfl, rfl⟩
          · intro g' c' hg'
            obtain ⟨e₃, m₃, p1, p2, p3⟩ := i2.sock g' c' hg'
            refine ⟨e₃, m₃, ?_, p2, p3⟩
            have hcc : c' ≠ c := by rintro rfl; exact hno g' hg'
            simp only [upd_ne _ _ hcc, p1]
            rw [if_neg (by simpa using fun h => hcc h.symm), if_neg (by simp)]
          · intro c' hc'; cases hc'
          · intro c' k hc'
            by_cases hcc : c' = c
            · subst hcc; simp [upd_self] at hc'
            · simp only [upd_ne _ _ hcc] at hc'
              rcases i2.used c' k hc' with hx | hx
              · exact .inl hx
              · cases hx; exact absurd rfl hcc
          · intro c' k hc'
            by_cases hcc : c' = c
            · subst hcc; simp [upd_self] at hc'
            · simp only [upd_ne _ _ hcc] at hc'; exact i2.freshc _ _ hc'
          · intro g'
            unfold regd
            show (s2.sp g').bind _ = _
            cases hg' : s2.sp g' with
            | none => rfl
            | some c' =>
              have hcc : c' ≠ c := by rintro rfl; exact hno g' hg'
              simp only [Option.bind_some, upd_ne _ _ hcc]
      obtain ⟨s3, d3, i3, r3, m3, k3, v3, p3⟩ := hd
      have hfire : fire s f as = .ok (if s3.mst f = none then s3 else { s3 with kern := upd s3.kern f (some y.mask) }) := by
        unfold fire
        simp only [hm, h2, h1, hs1, Nat.reduceAdd, a2, hy, d3]
      have hr : ∀ g, regd s3 g = as.foldl (after g) (regd s g) := by
        intro g; rw [r3, r2, r1]
      refine ⟨_, hfire, ?_, ?_, ?_, ?_⟩
      · split
        · exact i3
        · rename_i hne
          refine ⟨i3.sock, i3.off, ?_, i3.held, i3.used, i3.freshc, i3.freshe⟩
          intro g hg
          have : g ≠ f := by rintro rfl; exact hne (i3.off g hg)
          simp only [upd_ne _ _ this]; exact i3.koff g hg
      · intro g
        rw [if_neg (show ¬ (some e = none) by simp)]
        split
        · exact hr g
        · exact hr g
      · intro hk hcalm
        have hk3 : Kern s3 := by
          intro g
          rw [k3, k2, ek, hk g, hr]
        split
        · exact hk3
        · rename_i hne
          intro g
          show upd s3.kern f (some y.mask) g = regd s3 g
          by_cases hgf : g = f
          · subst hgf
            rw [upd_self]
            by_cases hdr : Act.drop g ∈ as
            · have hz : as.foldl (after g) none = none := hcalm.resolve_left (fun h => h hdr)
              have : regd s3 g = none := by rw [hr]; exact foldl_after_none g as hz hdr _
              exact absurd (i3.off g (regd_none i3 this)) hne
            · obtain ⟨q1, n', q2⟩ := acts_keep i1 a2 (by rw [es]; exact hf) (by rw [ec, upd_self]) hdr
              rw [r3]
              unfold regd
              rw [q1]
              simp only [Option.bind_some, q2, hy, Option.map_some]
          · rw [upd_ne _ _ hgf]; exact hk3 g
      · intro e₂ he₂
        have : s3.ev e₂ ≠ none := by rw [v3]; exact v2 e₂ (by rw [ee]; exact he₂)
        split
        · exact this
        · exact this

end Mtev.CurlEv
