import Verif.Smr

/-! Invariants of the model of safe memory reclamation, Smr.lean. -/

namespace Mtev.Smr

/-- Where a block is. -/
inductive Loc where
  | app | pend (t : Nat) | ar (a : Nat) | disp (t : Nat) | gone

/-- Where a list is: filled by a thread, on its way to the collector, synchronized, in a return queue,
being completed by a thread or the collector. -/
inductive Pos where
  | nowhere | made (t : Nat) | out | giv | ret (o : Nat) | cur (t : Nat) | gcur

def Loc.listed : Loc → Prop
  | .pend _ | .ar _ | .disp _ => True
  | _ => False

def Pos.clear : Pos → Prop
  | .giv | .ret _ | .cur _ | .gcur => True
  | _ => False

/-- The lists the collector has taken and not handed back. -/
def gcSet : Gc → List Nat
  | .idle => []
  | .sync set _ => set
  | .give set => set
  | .gave _ _ r => r
  | .check _ _ r => r
  | .test _ _ r => r
  | .drain _ _ r => r

def setPos : Gc → Pos
  | .sync _ _ => .out
  | _ => .giv

/-- What each coroutine of each thread holds, and the serial number of its section. -/
abbrev View := Nat → Nat → List Nat × Option Nat

def view (s : St) : View := fun t k => ((s.th t).hold k, ((s.th t).secs k).q)

/-- Whoever holds `b` is in a section of `snap`. -/
def covers (v : View) (b : Nat) (snap : List Nat) : Prop :=
  ∀ t k, b ∈ (v t k).1 → ∃ q, (v t k).2 = some q ∧ q ∈ snap

/-- Sections of one thread. -/
structure TS (opens : List (Nat × Nat)) (next t : Nat) (x : Th) : Prop where
  reg : x.reg = true → x.sec = some x.ctx
  unreg : x.reg = false → x.pc ≠ .dead → x.ctx = 0 ∧ x.stack = []
  stk : ∀ p ∈ x.stack, p.1 = some p.2
  deep : ∀ k, x.deep k = (x.secs k).n
  small : ∀ k, (x.secs k).n < 2 ^ 32
  opened : ∀ k, 0 < (x.secs k).n → ∃ q, (x.secs k).q = some q ∧ (x.pc ≠ .dead → (q, t) ∈ opens)
  lt : ∀ k q, (x.secs k).q = some q → q < next
  hold : ∀ k, x.hold k ≠ [] → 0 < (x.secs k).n ∧ x.pc ≠ .dead

structure InvS (s : St) : Prop where
  thr : ∀ t, TS s.opens s.next t (s.th t)
  inj : ∀ t k t' k' q, ((s.th t).secs k).q = some q → ((s.th t').secs k').q = some q → t = t' ∧ k = k'

/-- What holds at the place a thread is. -/
def PcOk (loc : Nat → Loc) (pos : Nat → Pos) (ars : Nat → Option Ar) (v : View) (t : Nat)
    (pend : List (Nat × List Nat)) : Pc → Prop
  | .wait snap _ => ∀ e ∈ pend, covers v e.1 snap
  | .disp l _ => (∀ b ∈ l, loc b = .disp t ∧ covers v b []) ∧ l.Nodup
  | .made a _ _ | .marked a _ => pos a = .made t ∧ ars a ≠ none
  | .back _ (some a) _ | .term (some a) => pos a = .cur t ∧ ars a ≠ none
  | _ => True

structure T (loc : Nat → Loc) (pos : Nat → Pos) (ars : Nat → Option Ar) (v : View) (t : Nat)
    (x : Th) : Prop where
  pend : ∀ e ∈ x.pend, loc e.1 = .pend t ∧ covers v e.1 e.2
  pendN : (x.pend.map (·.1)).Nodup
  pc : PcOk loc pos ars v t x.pend x.pc

structure ArOk (loc : Nat → Loc) (pos : Nat → Pos) (v : View) (a : Nat) (x : Ar) : Prop where
  nodup : x.blks.Nodup
  loc : ∀ b ∈ x.blks, loc b = .ar a
  clear : (pos a).clear → ∀ b ∈ x.blks, covers v b []

def GcOk (pos : Nat → Pos) (ars : Nat → Option Ar) (v : View) : Gc → Prop
  | .sync set snap => ∀ a ∈ set, ∀ x, ars a = some x → ∀ b ∈ x.blks, covers v b snap
  | .drain _ (some a) _ => pos a = .gcur ∧ ars a ≠ none
  | _ => True

structure Inv (loc : Nat → Loc) (pos : Nat → Pos) (s : St) : Prop where
  secs : InvS s
  thr : ∀ t, T loc pos s.ars (view s) t (s.th t)
  ars : ∀ a x, s.ars a = some x → ArOk loc pos (view s) a x
  gcq : ∀ a ∈ s.gcq, pos a = .out ∧ s.ars a ≠ none
  set : ∀ a ∈ gcSet s.gc, pos a = setPos s.gc ∧ s.ars a ≠ none
  outN : (gcSet s.gc ++ s.gcq).Nodup
  queue : ∀ o, ∀ a ∈ (s.grs o).queue, pos a = .ret o ∧ s.ars a ≠ none
  queueN : ∀ o, (s.grs o).queue.Nodup
  gc : GcOk pos s.ars (view s) s.gc
  mem : ∀ b, (loc b).listed → s.mem b = .retired
  freed : ∀ b, s.mem b = .freed → covers (view s) b []

theorem upd_same {α : Type} (f : Nat → α) (t : Nat) (x : α) : Function.update f t x t = x := by simp
theorem upd_other {α : Type} (f : Nat → α) (t : Nat) (x : α) {u : Nat} (h : u ≠ t) :
    Function.update f t x u = f u := by simp [Function.update_apply, h]

/-! ### Sections -/

theorem TS.more {op op' : List (Nat × Nat)} {n n' t : Nat} {x : Th} (h : TS op n t x)
    (ho : ∀ q, (∃ k, (x.secs k).q = some q) → (q, t) ∈ op → (q, t) ∈ op') (hn : n ≤ n') : TS op' n' t x where
  reg := h.reg
  unreg := h.unreg
  stk := h.stk
  deep := h.deep
  small := h.small
  opened k hk := by
    obtain ⟨q, h1, h2⟩ := h.opened k hk
    exact ⟨q, h1, fun hd => ho q ⟨k, h1⟩ (h2 hd)⟩
  lt k q hq := Nat.lt_of_lt_of_le (h.lt k q hq) hn
  hold := h.hold

/-- A thread changed; its serial numbers and the open sections did not. -/
theorem InvS.setT {s s' : St} (h : InvS s) {t : Nat} {x : Th} (hth : s'.th = Function.update s.th t x)
    (ho : s'.opens = s.opens) (hn : s'.next = s.next) (hx : TS s.opens s.next t x)
    (hq : ∀ k, (x.secs k).q = ((s.th t).secs k).q) : InvS s' := by
  have hq' : ∀ u k, ((s'.th u).secs k).q = ((s.th u).secs k).q := by
    intro u k
    rw [hth]
    by_cases hu : u = t
    · subst hu; rw [upd_same]; exact hq k
    · rw [upd_other _ _ _ hu]
  constructor
  · intro u
    rw [ho, hn, hth]
    by_cases hu : u = t
    · subst hu; rw [upd_same]; exact hx
    · rw [upd_other _ _ _ hu]; exact h.thr u
  · intro u k u' k' q h1 h2
    rw [hq'] at h1 h2
    exact h.inj u k u' k' q h1 h2

/-- The fields the sections of a thread depend on. -/
structure Same (x y : Th) : Prop where
  reg : y.reg = x.reg
  sec : y.sec = x.sec
  ctx : y.ctx = x.ctx
  stack : y.stack = x.stack
  deep : y.deep = x.deep
  secs : y.secs = x.secs
  hold : y.hold = x.hold

theorem TS.same {op : List (Nat × Nat)} {n t : Nat} {x y : Th} (h : TS op n t x) (e : Same x y)
    (hd : (y.pc ≠ .dead → x.pc ≠ .dead) ∧ (x.pc ≠ .dead → y.pc ≠ .dead)) : TS op n t y := by
  obtain ⟨e1, e2, e3, e4, e5, e6, e7⟩ := e
  constructor
  · rw [e1, e2, e3]; exact h.reg
  · rw [e1, e3, e4]; intro a b; exact h.unreg a (hd.1 b)
  · rw [e4]; exact h.stk
  · rw [e5, e6]; exact h.deep
  · rw [e6]; exact h.small
  · rw [e6]; intro k hk
    obtain ⟨q, h1, h2⟩ := h.opened k hk
    exact ⟨q, h1, fun a => h2 (hd.1 a)⟩
  · rw [e6]; exact h.lt
  · rw [e7, e6]; intro k hk; exact ⟨(h.hold k hk).1, hd.2 (h.hold k hk).2⟩

theorem InvS.same {s s' : St} (h : InvS s) {t : Nat} {x : Th} (hth : s'.th = Function.update s.th t x)
    (ho : s'.opens = s.opens) (hn : s'.next = s.next) (e : Same (s.th t) x)
    (hd : (x.pc ≠ .dead → (s.th t).pc ≠ .dead) ∧ ((s.th t).pc ≠ .dead → x.pc ≠ .dead)) : InvS s' :=
  h.setT hth ho hn ((h.thr t).same e hd) (by intro k; rw [e.secs])

theorem InvS.eq {s s' : St} (h : InvS s) (hth : s'.th = s.th) (ho : s'.opens = s.opens)
    (hn : s'.next = s.next) : InvS s' := by
  constructor
  · rw [hth, ho, hn]; exact h.thr
  · rw [hth]; exact h.inj

/-! ### Frames -/

theorem covers_none {v : View} {b : Nat} {snap : List Nat} (h : covers v b []) : covers v b snap := by
  intro t k hb
  obtain ⟨q, _, hq⟩ := h t k hb
  simp at hq

theorem T.frame {loc loc' : Nat → Loc} {pos pos' : Nat → Pos} {ars ars' : Nat → Option Ar} {v v' : View}
    {t : Nat} {x : Th} (h : T loc pos ars v t x)
    (hl : ∀ b, loc b = .pend t ∨ loc b = .disp t → loc' b = loc b)
    (hp : ∀ a, pos a = .made t ∨ pos a = .cur t → ars a ≠ none → pos' a = pos a ∧ ars' a ≠ none)
    (hv : ∀ b snap, (loc b).listed → covers v b snap → covers v' b snap) : T loc' pos' ars' v' t x := by
  have hpend : ∀ e ∈ x.pend, loc e.1 = .pend t := fun e he => (h.pend e he).1
  constructor
  · intro e he
    obtain ⟨h1, h2⟩ := h.pend e he
    exact ⟨by rw [hl _ (.inl h1), h1], hv _ _ (by rw [h1]; trivial) h2⟩
  · exact h.pendN
  · have hpc := h.pc
    cases hx : x.pc with
    | wait snap k =>
      rw [hx] at hpc
      exact fun e he => hv _ _ (by rw [hpend e he]; trivial) (hpc e he)
    | disp l k =>
      rw [hx] at hpc
      refine ⟨fun b hb => ?_, hpc.2⟩
      obtain ⟨h1, h2⟩ := hpc.1 b hb
      exact ⟨by rw [hl _ (.inr h1), h1], hv _ _ (by rw [h1]; trivial) h2⟩
    | made a f k =>
      rw [hx] at hpc
      obtain ⟨h1, h2⟩ := hp a (.inl hpc.1) hpc.2
      exact ⟨by rw [h1]; exact hpc.1, h2⟩
    | marked a k =>
      rw [hx] at hpc
      obtain ⟨h1, h2⟩ := hp a (.inl hpc.1) hpc.2
      exact ⟨by rw [h1]; exact hpc.1, h2⟩
    | back m c k =>
      rw [hx] at hpc
      cases c with
      | none => trivial
      | some a =>
        obtain ⟨h1, h2⟩ := hp a (.inr hpc.1) hpc.2
        exact ⟨by rw [h1]; exact hpc.1, h2⟩
    | term c =>
      rw [hx] at hpc
      cases c with
      | none => trivial
      | some a =>
        obtain ⟨h1, h2⟩ := hp a (.inr hpc.1) hpc.2
        exact ⟨by rw [h1]; exact hpc.1, h2⟩
    | _ => trivial

/-- All the threads, after thread `t` changed. -/
theorem thr_upd {loc loc' : Nat → Loc} {pos pos' : Nat → Pos} {s s' : St} (h : Inv loc pos s) {t : Nat}
    {x : Th} (hth : s'.th = Function.update s.th t x)
    (hx : T loc' pos' s'.ars (view s') t x)
    (hl : ∀ b u, u ≠ t → loc b = .pend u ∨ loc b = .disp u → loc' b = loc b)
    (hp : ∀ a u, u ≠ t → pos a = .made u ∨ pos a = .cur u → s.ars a ≠ none → pos' a = pos a ∧ s'.ars a ≠ none)
    (hv : ∀ b snap, (loc b).listed → covers (view s) b snap → covers (view s') b snap) :
    ∀ u, T loc' pos' s'.ars (view s') u (s'.th u) := by
  intro u
  rw [hth]
  by_cases hu : u = t
  · subst hu; rw [upd_same]; exact hx
  · rw [upd_other _ _ _ hu]
    exact (h.thr u).frame (fun b => hl b u hu) (fun a => hp a u hu) hv

theorem view_upd {s s' : St} {t : Nat} {x : Th} (hth : s'.th = Function.update s.th t x)
    (hh : x.hold = (s.th t).hold) (hq : ∀ k, (x.secs k).q = ((s.th t).secs k).q) : view s' = view s := by
  funext u k
  simp only [view, hth]
  by_cases hu : u = t
  · subst hu; rw [upd_same, hh, hq]
  · rw [upd_other _ _ _ hu]

/-- A thread changed, and with it what its coroutines hold. -/
theorem Inv.sect {loc : Nat → Loc} {pos : Nat → Pos} {s s' : St} (h : Inv loc pos s) {t : Nat} {x : Th}
    (hth : s'.th = Function.update s.th t x) (hS : InvS s')
    (hT : T loc pos s.ars (view s') t x)
    (e1 : s'.ars = s.ars) (e2 : s'.gcq = s.gcq) (e3 : ∀ o, (s'.grs o).queue = (s.grs o).queue)
    (e4 : s'.gc = s.gc) (e5 : s'.mem = s.mem)
    (hv : ∀ b snap, s.mem b ≠ .live → covers (view s) b snap → covers (view s') b snap) : Inv loc pos s' := by
  have hv' : ∀ b snap, (loc b).listed → covers (view s) b snap → covers (view s') b snap := by
    intro b snap hb
    apply hv
    rw [h.mem b hb]; simp
  refine ⟨hS, thr_upd h hth (by rw [e1]; exact hT) (fun _ _ _ _ => rfl)
    (fun _ _ _ _ ha => ⟨rfl, by rw [e1]; exact ha⟩) hv', ?_, ?_, ?_, ?_, ?_, ?_, ?_, ?_, ?_⟩
  · rw [e1]; intro a y ha
    have := h.ars a y ha
    exact ⟨this.nodup, this.loc, fun hc b hb => hv' b _ (by rw [this.loc b hb]; trivial) (this.clear hc b hb)⟩
  · rw [e1, e2]; exact h.gcq
  · rw [e1, e4]; exact h.set
  · rw [e2, e4]; exact h.outN
  · intro o; rw [e1, e3]; exact h.queue o
  · intro o; rw [e3]; exact h.queueN o
  · rw [e4, e1]
    have hg := h.gc
    cases hx : s.gc with
    | sync set snap =>
      rw [hx] at hg
      intro a ha y hy b hb
      exact hv' b _ (by rw [(h.ars a y hy).loc b hb]; trivial) (hg a ha y hy b hb)
    | drain o c r =>
      rw [hx] at hg
      cases c with
      | none => trivial
      | some a => exact hg
    | _ => trivial
  · rw [e5]; exact h.mem
  · intro b hb
    rw [e5] at hb
    exact hv b _ (by rw [hb]; simp) (h.freed b hb)

theorem covers_of_eq {v v' : View} (e : v' = v) {b : Nat} {snap : List Nat} (h : covers v b snap) :
    covers v' b snap := by rw [e]; exact h

theorem covers_mono {v v' : View} (e : ∀ t k, ∀ b ∈ (v' t k).1, b ∈ (v t k).1 ∧ (v' t k).2 = (v t k).2)
    {b : Nat} {snap : List Nat} (h : covers v b snap) : covers v' b snap := by
  intro t k hb
  obtain ⟨h1, h2⟩ := e t k b hb
  obtain ⟨q, hq, hm⟩ := h t k h1
  exact ⟨q, by rw [h2]; exact hq, hm⟩

/-- Only the thread changed, in ways that matter to nobody else. -/
theorem Inv.local {loc : Nat → Loc} {pos : Nat → Pos} {s s' : St} (h : Inv loc pos s) {t : Nat} {x : Th}
    (he : s' = s.setT t x) (e : Same (s.th t) x)
    (hd : (x.pc ≠ .dead → (s.th t).pc ≠ .dead) ∧ ((s.th t).pc ≠ .dead → x.pc ≠ .dead))
    (hpend : x.pend = (s.th t).pend) (hpc : PcOk loc pos s.ars (view s) t x.pend x.pc) : Inv loc pos s' := by
  subst he
  have hv : view (s.setT t x) = view s := view_upd rfl e.hold (by intro k; rw [e.secs])
  have ht : T loc pos s.ars (view s) t x := ⟨by rw [hpend]; exact (h.thr t).pend, by rw [hpend]; exact (h.thr t).pendN, hpc⟩
  exact h.sect rfl (h.secs.same rfl rfl rfl e hd) (by rw [hv]; exact ht) rfl rfl (fun _ => rfl) rfl rfl
    (fun _ _ _ hc => by rw [hv]; exact hc)

theorem Inv.setPc {loc : Nat → Loc} {pos : Nat → Pos} {s : St} (h : Inv loc pos s) {t : Nat} {p : Pc}
    (ho : (s.th t).pc ≠ .dead) (hn : p ≠ .dead) (hpc : PcOk loc pos s.ars (view s) t (s.th t).pend p) :
    Inv loc pos (s.setPc t p) :=
  h.local rfl ⟨rfl, rfl, rfl, rfl, rfl, rfl, rfl⟩ ⟨fun _ => ho, fun _ => hn⟩ rfl hpc

theorem Inv.setNeeds {loc : Nat → Loc} {pos : Nat → Pos} {s : St} (h : Inv loc pos s) (t n : Nat) :
    Inv loc pos (s.setT t { s.th t with needs := n }) :=
  h.local rfl ⟨rfl, rfl, rfl, rfl, rfl, rfl, rfl⟩ ⟨id, id⟩ rfl (h.thr t).pc

theorem setT_setT (s : St) (t : Nat) (x y : Th) : (s.setT t x).setT t y = s.setT t y := by
  simp [St.setT]

@[simp] theorem setT_same (s : St) (t : Nat) (x : Th) : (s.setT t x).th t = x := by simp [St.setT]

theorem Inv.initEpoch {loc : Nat → Loc} {pos : Nat → Pos} {s : St} (h : Inv loc pos s) {t : Nat}
    (hp : (s.th t).pc ≠ .dead) : Inv loc pos (initEpoch s t) := by
  unfold Smr.initEpoch
  split
  · exact h
  · rename_i hr
    have hr : (s.th t).reg = false := by simpa using hr
    have ht := h.secs.thr t
    have hv : view (s.setT t { s.th t with reg := true, sec := some 0 }) = view s := view_upd rfl rfl (fun _ => rfl)
    refine h.sect rfl (h.secs.setT rfl rfl rfl ?_ (fun _ => rfl)) ?_ rfl rfl (fun _ => rfl) rfl rfl
      (fun _ _ _ hc => covers_of_eq hv hc)
    · exact ⟨fun _ => by rw [(ht.unreg hr hp).1], fun h => by simp at h, ht.stk, ht.deep, ht.small, ht.opened,
        ht.lt, ht.hold⟩
    · rw [hv]; exact ⟨(h.thr t).pend, (h.thr t).pendN, (h.thr t).pc⟩

theorem initEpoch_fields (s : St) (t : Nat) : ∃ r c, initEpoch s t = s.setT t { s.th t with reg := r, sec := c } ∧
    r = true := by
  unfold initEpoch
  split
  · rename_i hr
    refine ⟨(s.th t).reg, (s.th t).sec, ?_, hr⟩
    simp [St.setT]
  · exact ⟨true, some 0, rfl, rfl⟩

/-- `appl` threads are alive. -/
theorem appl_pc {s : St} {t : Nat} (h0 : (s.th 0).pc = .user) (h : appl s t = true) : (s.th t).pc ≠ .dead := by
  unfold appl at h
  split at h
  · rename_i e; subst e; rw [h0]; simp
  · intro hd; simp [hd] at h

theorem Inv.begin {loc : Nat → Loc} {pos : Nat → Pos} {s s2 : St} (h : Inv loc pos s) {t : Nat}
    (hp : (s.th t).pc ≠ .dead) (hd : (s.th t).deep (s.th t).ctx + 1 < 2 ^ 32)
    (hs : memBegin s t = .ok s2) : Inv loc pos (noteBegin s2 t) := by
  obtain ⟨r, c, e, hr⟩ := initEpoch_fields s t
  subst hr
  have h1 := h.initEpoch hp
  unfold memBegin at hs
  rw [e] at hs h1
  generalize hs1 : s.setT t { s.th t with reg := true, sec := c } = s1 at hs h1
  have hp1 : (s1.th t).pc ≠ .dead := by subst hs1; simpa using hp
  have hd1 : (s1.th t).deep (s1.th t).ctx + 1 < 2 ^ 32 := by subst hs1; simpa using hd
  have hr1 : (s1.th t).reg = true := by subst hs1; simp
  clear hs1 e
  have ht := h1.secs.thr t
  have hsec := ht.reg hr1
  simp only [hsec] at hs
  split at hs
  · rename_i hn
    cases hs
    have hnh : (s1.th t).hold (s1.th t).ctx = [] := by
      by_contra hh
      have := (ht.hold _ hh).1
      omega
    generalize hx : ({ s1.th t with
        secs := Function.update (s1.th t).secs (s1.th t).ctx ⟨1, some s1.next⟩, active := (s1.th t).active + 1,
        deep := Function.update (s1.th t).deep (s1.th t).ctx ((s1.th t).deep (s1.th t).ctx + 1) } : Th) = x
    have hth : (noteBegin (openSec s1 t (s1.th t).ctx) t).th = Function.update s1.th t x := by
      subst hx; simp [noteBegin, openSec, St.setT]
    have hvm : ∀ b snap, covers (view s1) b snap → covers (view (noteBegin (openSec s1 t (s1.th t).ctx) t)) b snap := by
      intro b snap
      apply covers_mono
      intro u k b hb
      simp only [view, hth] at hb ⊢
      by_cases hu : u = t
      · subst hu
        rw [upd_same] at hb ⊢
        subst hx
        refine ⟨hb, ?_⟩
        by_cases hk : k = (s1.th u).ctx
        · subst hk; simp [hnh] at hb
        · simp [hk]
      · rw [upd_other _ _ _ hu] at hb ⊢; exact ⟨hb, rfl⟩
    refine h1.sect hth ⟨?_, ?_⟩ ?_ rfl rfl (fun _ => rfl) rfl rfl (fun b snap _ => hvm b snap)
    · intro u
      rw [hth]
      by_cases hu : u = t
      · subst hu
        rw [upd_same]
        subst hx
        refine ⟨fun _ => hsec, fun hh => by simp [hr1] at hh, ht.stk, ?_, ?_, ?_, ?_, ?_⟩
        · intro k
          by_cases hk : k = (s1.th u).ctx
          · subst hk; simp [ht.deep, hn]
          · simp [hk, ht.deep]
        · intro k
          by_cases hk : k = (s1.th u).ctx
          · subst hk; simp
          · simpa [hk] using ht.small k
        · intro k hk0
          by_cases hk : k = (s1.th u).ctx
          · subst hk; exact ⟨s1.next, by simp, fun _ => by simp [noteBegin, openSec, St.setT]⟩
          · simp only [upd_other _ _ _ hk] at hk0 ⊢
            obtain ⟨q, hq, ho⟩ := ht.opened k hk0
            exact ⟨q, hq, fun a => by simp only [noteBegin, openSec, St.setT]; exact List.mem_cons_of_mem _ (ho a)⟩
        · intro k q hq
          simp only [noteBegin, openSec, St.setT]
          by_cases hk : k = (s1.th u).ctx
          · subst hk; simp at hq; omega
          · simp only [upd_other _ _ _ hk] at hq
            have := ht.lt k q hq
            omega
        · intro k hk
          refine ⟨?_, hp1⟩
          by_cases hk' : k = (s1.th u).ctx
          · subst hk'; simp
          · simp only [upd_other _ _ _ hk']; exact (ht.hold k hk).1
      · rw [upd_other _ _ _ hu]
        exact (h1.secs.thr u).more (fun q _ ho => by simp only [noteBegin, openSec, St.setT]; exact List.mem_cons_of_mem _ ho)
          (by simp [noteBegin, openSec, St.setT])
    · have hlt : ∀ u k, ((s1.th u).secs k).q ≠ some s1.next := by
        intro u k hq
        have := (h1.secs.thr u).lt k _ hq
        omega
      have hq' : ∀ u k q, (((noteBegin (openSec s1 t (s1.th t).ctx) t).th u).secs k).q = some q →
          (u = t ∧ k = (s1.th t).ctx ∧ q = s1.next) ∨ ((s1.th u).secs k).q = some q := by
        intro u k q hq
        rw [hth] at hq
        by_cases hu : u = t
        · subst hu
          rw [upd_same] at hq
          subst hx
          by_cases hk : k = (s1.th u).ctx
          · subst hk; simp at hq; exact .inl ⟨rfl, rfl, hq.symm⟩
          · simp only [upd_other _ _ _ hk] at hq; exact .inr hq
        · rw [upd_other _ _ _ hu] at hq; exact .inr hq
      intro u k u' k' q a b
      rcases hq' u k q a with ⟨a1, a2, a3⟩ | a1 <;> rcases hq' u' k' q b with ⟨b1, b2, b3⟩ | b1
      · exact ⟨by omega, by omega⟩
      · subst a3; exact absurd b1 (hlt _ _)
      · subst b3; exact absurd a1 (hlt _ _)
      · exact h1.secs.inj _ _ _ _ _ a1 b1
    · have := (h1.thr t).frame (loc' := loc) (pos' := pos) (ars' := s1.ars) (fun _ _ => rfl) (fun _ _ ha => ⟨rfl, ha⟩) (fun b snap _ => hvm b snap)
      subst hx
      exact ⟨this.pend, this.pendN, this.pc⟩
  · rename_i hn
    cases hs
    have hsm : ((s1.th t).secs (s1.th t).ctx).n + 1 < 2 ^ 32 := by rw [← ht.deep]; exact hd1
    generalize hx : ({ s1.th t with
        sec := some (s1.th t).ctx
        secs := Function.update (s1.th t).secs (s1.th t).ctx
          ⟨(((s1.th t).secs (s1.th t).ctx).n + 1) % 2 ^ 32, ((s1.th t).secs (s1.th t).ctx).q⟩,
        deep := Function.update (s1.th t).deep (s1.th t).ctx ((s1.th t).deep (s1.th t).ctx + 1) } : Th) = x
    have he : noteBegin (s1.setT t { s1.th t with
        sec := some (s1.th t).ctx
        secs := Function.update (s1.th t).secs (s1.th t).ctx
          ⟨(((s1.th t).secs (s1.th t).ctx).n + 1) % 2 ^ 32, ((s1.th t).secs (s1.th t).ctx).q⟩ }) t =
        s1.setT t x := by
      subst hx; simp [noteBegin, St.setT]
    rw [he]
    have hq : ∀ k, (x.secs k).q = ((s1.th t).secs k).q := by
      intro k
      subst hx
      by_cases hk : k = (s1.th t).ctx
      · subst hk; simp
      · simp [hk]
    have hv : view (s1.setT t x) = view s1 := view_upd rfl (by subst hx; rfl) hq
    refine h1.sect rfl (h1.secs.setT rfl rfl rfl ?_ hq) ?_ rfl rfl (fun _ => rfl) rfl rfl
      (fun _ _ _ hc => covers_of_eq hv hc)
    · subst hx
      refine ⟨fun _ => rfl, fun hh => by simp [hr1] at hh, ht.stk, ?_, ?_, ?_, ?_, ?_⟩
      · intro k
        by_cases hk : k = (s1.th t).ctx
        · subst hk; simp only [upd_same]; rw [ht.deep, Nat.mod_eq_of_lt hsm]
        · simp [hk, ht.deep]
      · intro k
        by_cases hk : k = (s1.th t).ctx
        · subst hk; simp only [upd_same]; exact Nat.mod_lt _ (by simp)
        · simpa [hk] using ht.small k
      · intro k hk0
        by_cases hk : k = (s1.th t).ctx
        · subst hk; simp only [upd_same]; exact ht.opened _ (by omega)
        · simp only [upd_other _ _ _ hk] at hk0 ⊢; exact ht.opened k hk0
      · intro k q; rw [hq]; exact ht.lt k q
      · intro k hk
        refine ⟨?_, hp1⟩
        by_cases hk' : k = (s1.th t).ctx
        · subst hk'; simp only [upd_same]; rw [Nat.mod_eq_of_lt hsm]; omega
        · simp only [upd_other _ _ _ hk']; exact (ht.hold k hk).1
    · rw [hv]; have := h1.thr t; subst hx; exact ⟨this.pend, this.pendN, this.pc⟩

theorem Inv.fin_ {loc : Nat → Loc} {pos : Nat → Pos} {s s2 : St} (h : Inv loc pos s) {t : Nat}
    (hp : (s.th t).pc ≠ .dead) (hd : 0 < (s.th t).deep (s.th t).ctx)
    (hs : memEnd s t = .ok s2) : Inv loc pos (noteEnd s2 t) := by
  obtain ⟨r, c, e, hr⟩ := initEpoch_fields s t
  subst hr
  have h1 := h.initEpoch hp
  unfold memEnd at hs
  rw [e] at hs h1
  generalize hs1 : s.setT t { s.th t with reg := true, sec := c } = s1 at hs h1
  have hp1 : (s1.th t).pc ≠ .dead := by subst hs1; simpa using hp
  have hd1 : 0 < (s1.th t).deep (s1.th t).ctx := by subst hs1; simpa using hd
  have hr1 : (s1.th t).reg = true := by subst hs1; simp
  clear hs1 e
  have ht := h1.secs.thr t
  have hsec := ht.reg hr1
  simp only [hsec] at hs
  have hn0 : 0 < ((s1.th t).secs (s1.th t).ctx).n := by rw [← ht.deep]; exact hd1
  have hsm := ht.small (s1.th t).ctx
  split at hs
  · rename_i hn
    obtain ⟨q, hq, hqo⟩ := ht.opened _ hn0
    unfold closeSec at hs
    simp only [hq] at hs
    cases hs
    generalize hs2 : ({ s1.setT t { s1.th t with
        secs := Function.update (s1.th t).secs (s1.th t).ctx ⟨0, none⟩, active := (s1.th t).active - 1 } with
      opens := s1.opens.filter (fun p => decide (p.1 ≠ q)) } : St) = s2
    have hdn : (s1.th t).deep (s1.th t).ctx = 1 := by rw [ht.deep]; exact hn
    generalize hx : ({ s1.th t with
        secs := Function.update (s1.th t).secs (s1.th t).ctx ⟨0, none⟩, active := (s1.th t).active - 1
        deep := Function.update (s1.th t).deep (s1.th t).ctx 0
        hold := Function.update (s1.th t).hold (s1.th t).ctx [] } : Th) = x
    have hth : (noteEnd s2 t).th = Function.update s1.th t x := by
      subst hx hs2; simp [noteEnd, St.setT, hdn]
    have hop : (noteEnd s2 t).opens = s1.opens.filter (fun p => decide (p.1 ≠ q)) := by subst hs2; rfl
    have hnx : (noteEnd s2 t).next = s1.next := by subst hs2; rfl
    have hvm : ∀ b snap, covers (view s1) b snap → covers (view (noteEnd s2 t)) b snap := by
      intro b snap
      apply covers_mono
      intro u k b hb
      simp only [view, hth] at hb ⊢
      by_cases hu : u = t
      · subst hu
        rw [upd_same] at hb ⊢
        subst hx
        by_cases hk : k = (s1.th u).ctx
        · subst hk; simp at hb
        · simp only [upd_other _ _ _ hk] at hb ⊢; exact ⟨hb, trivial⟩
      · rw [upd_other _ _ _ hu] at hb ⊢; exact ⟨hb, rfl⟩
    have hf : ∀ u k q', ((s1.th u).secs k).q = some q' → (u = t → k ≠ (s1.th t).ctx) → (q', u) ∈ s1.opens →
        (q', u) ∈ s1.opens.filter (fun p => decide (p.1 ≠ q)) := by
      intro u k q' h1' h2 h3
      refine List.mem_filter.2 ⟨h3, ?_⟩
      simp only [decide_eq_true_eq]
      rintro rfl
      obtain ⟨a, b⟩ := h1.secs.inj _ _ _ _ _ h1' hq
      exact h2 a b
    refine h1.sect hth ⟨?_, ?_⟩ ?_ (by subst hs2; rfl) (by subst hs2; rfl) (by intro o; subst hs2; rfl) (by subst hs2; rfl) (by subst hs2; rfl) (fun b snap _ => hvm b snap)
    · intro u
      rw [hth, hop, hnx]
      by_cases hu : u = t
      · subst hu
        rw [upd_same]
        subst hx
        refine ⟨fun _ => hsec, fun hh => by simp [hr1] at hh, ht.stk, ?_, ?_, ?_, ?_, ?_⟩
        · intro k
          by_cases hk : k = (s1.th u).ctx
          · subst hk; simp
          · simp [hk, ht.deep]
        · intro k
          by_cases hk : k = (s1.th u).ctx
          · subst hk; simp
          · simpa [hk] using ht.small k
        · intro k hk0
          by_cases hk : k = (s1.th u).ctx
          · subst hk; simp at hk0
          · simp only [upd_other _ _ _ hk] at hk0 ⊢
            obtain ⟨q', hq', ho⟩ := ht.opened k hk0
            exact ⟨q', hq', fun a => hf u k q' hq' (fun _ => hk) (ho a)⟩
        · intro k q' hq'
          by_cases hk : k = (s1.th u).ctx
          · subst hk; simp at hq'
          · simp only [upd_other _ _ _ hk] at hq'; exact ht.lt k q' hq'
        · intro k hk
          refine ⟨?_, hp1⟩
          by_cases hk' : k = (s1.th u).ctx
          · subst hk'; simp at hk
          · simp only [upd_other _ _ _ hk'] at hk ⊢; exact (ht.hold k hk).1
      · rw [upd_other _ _ _ hu]
        exact (h1.secs.thr u).more (fun q' hk ho => by
          obtain ⟨k, hk⟩ := hk
          exact hf u k q' hk (fun a => absurd a hu) ho) (Nat.le_refl _)
    · have hq' : ∀ u k q', (((noteEnd s2 t).th u).secs k).q = some q' → ((s1.th u).secs k).q = some q' := by
        intro u k q' hq
        rw [hth] at hq
        by_cases hu : u = t
        · subst hu
          rw [upd_same] at hq
          subst hx
          by_cases hk : k = (s1.th u).ctx
          · subst hk; simp at hq
          · simp only [upd_other _ _ _ hk] at hq; exact hq
        · rw [upd_other _ _ _ hu] at hq; exact hq
      intro u k u' k' q a b
      exact h1.secs.inj _ _ _ _ _ (hq' _ _ _ a) (hq' _ _ _ b)
    · have := (h1.thr t).frame (loc' := loc) (pos' := pos) (ars' := s1.ars) (fun _ _ => rfl) (fun _ _ ha => ⟨rfl, ha⟩) (fun b snap _ => hvm b snap)
      subst hx
      exact ⟨this.pend, this.pendN, this.pc⟩
  · rename_i hn
    cases hs
    have hdn : (s1.th t).deep (s1.th t).ctx ≠ 1 := by rw [ht.deep]; exact hn
    have hm : (((s1.th t).secs (s1.th t).ctx).n + (2 ^ 32 - 1)) % 2 ^ 32 = ((s1.th t).secs (s1.th t).ctx).n - 1 := by omega
    generalize hx : ({ s1.th t with
        sec := some (s1.th t).ctx
        secs := Function.update (s1.th t).secs (s1.th t).ctx
          ⟨((s1.th t).secs (s1.th t).ctx).n - 1, ((s1.th t).secs (s1.th t).ctx).q⟩,
        deep := Function.update (s1.th t).deep (s1.th t).ctx ((s1.th t).deep (s1.th t).ctx - 1) } : Th) = x
    have he : noteEnd (s1.setT t { s1.th t with
        sec := some (s1.th t).ctx
        secs := Function.update (s1.th t).secs (s1.th t).ctx
          ⟨(((s1.th t).secs (s1.th t).ctx).n + (2 ^ 32 - 1)) % 2 ^ 32, ((s1.th t).secs (s1.th t).ctx).q⟩ }) t =
        s1.setT t x := by
      subst hx; simp only [noteEnd, St.setT, upd_same, hdn, if_false, hm, Function.update_idem]
    rw [he]
    have hq : ∀ k, (x.secs k).q = ((s1.th t).secs k).q := by
      intro k
      subst hx
      by_cases hk : k = (s1.th t).ctx
      · subst hk; simp
      · simp [hk]
    have hv : view (s1.setT t x) = view s1 := view_upd rfl (by subst hx; rfl) hq
    refine h1.sect rfl (h1.secs.setT rfl rfl rfl ?_ hq) ?_ rfl rfl (fun _ => rfl) rfl rfl
      (fun _ _ _ hc => covers_of_eq hv hc)
    · subst hx
      refine ⟨fun _ => rfl, fun hh => by simp [hr1] at hh, ht.stk, ?_, ?_, ?_, ?_, ?_⟩
      · intro k
        by_cases hk : k = (s1.th t).ctx
        · subst hk; simp only [upd_same]; rw [ht.deep]
        · simp [hk, ht.deep]
      · intro k
        by_cases hk : k = (s1.th t).ctx
        · subst hk; simp only [upd_same]; omega
        · simpa [hk] using ht.small k
      · intro k hk0
        by_cases hk : k = (s1.th t).ctx
        · subst hk; simp only [upd_same]; exact ht.opened _ (by omega)
        · simp only [upd_other _ _ _ hk] at hk0 ⊢; exact ht.opened k hk0
      · intro k q; rw [hq]; exact ht.lt k q
      · intro k hk
        refine ⟨?_, hp1⟩
        by_cases hk' : k = (s1.th t).ctx
        · subst hk'; simp only [upd_same]; omega
        · simp only [upd_other _ _ _ hk']; exact (ht.hold k hk).1
    · rw [hv]; have := h1.thr t; subst hx; exact ⟨this.pend, this.pendN, this.pc⟩

end Mtev.Smr
