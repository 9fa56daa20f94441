import Verif.SmrRun

/-! What keeps the return queue of a thread allocated while it is needed: the invariant of the handshake
between a thread that ends and the collector. -/

namespace Mtev.Smr

/-- The part of the state the handshake depends on; `ow a`: the owner of list `a`; `outs`: the lists on
their way to the collector or taken by it. -/
structure C where
  pc : Nat → Pc
  ret : Nat → Bool
  reg : Nat → Bool
  alive : Nat → Bool
  enq : Nat → Nat
  req : Nat → Nat
  fin : Nat → Option Nat
  ow : Nat → Option Nat
  used : List Nat
  gcq : List Nat
  gc : Gc
  asynch : Bool

def core (s : St) : C where
  pc t := (s.th t).pc
  ret t := (s.th t).ret
  reg t := (s.th t).reg
  alive t := (s.grs t).alive
  enq t := (s.grs t).enq
  req t := (s.grs t).req
  fin t := (s.grs t).fin
  ow a := (s.ars a).map Ar.owner
  used := s.used
  gcq := s.gcq
  gc := s.gc
  asynch := s.asynch

def C.out (c : C) : List Nat := gcSet c.gc ++ c.gcq

def C.outs (c : C) (o : Nat) : List Nat := c.out.filter (fun a => c.ow a = some o)

def isQ : Pc → Bool
  | .queued _ => true
  | _ => false

/-- In `mtev_memory_queue_asynch`, or sure to call it. -/
def inQ : Pc → Bool
  | .back _ _ .fin2 | .wait _ .fin2 | .poll .fin2 | .disp _ .fin2 | .mk _ _ | .made _ _ _ | .marked _ _ | .queued _ => true
  | _ => false

/-- Holding list `a` that is not yet queued. -/
def has : Pc → Option Nat
  | .made a _ _ | .marked a _ => some a
  | _ => none

/-- Ending without the collector. -/
def ending : Pc → Bool
  | .term _ | .back _ _ .fin4 | .wait _ .fin4 | .disp _ .fin4 => true
  | _ => false

def wf : Pc → Bool
  | .back m _ .fin4 => m == .barrier
  | .poll .fin4 | .mk _ .fin4 | .made _ _ .fin4 | .marked _ .fin4 | .queued .fin4 => false
  | .mk true k | .made _ true k => k == .fin3
  | _ => true

/-- The collector hands back to `o` now. -/
def gaves : Gc → Option Nat
  | .gave _ o _ => some o
  | _ => none

def works : Gc → Option Nat
  | .check _ o _ | .test _ o _ | .drain o _ _ => some o
  | _ => none

def pasts : Gc → Option Nat
  | .gave a _ _ | .check a _ _ | .test a _ _ => some a
  | _ => none

structure J (c : C) : Prop where
  count : ∀ o, c.enq o + (if isQ (c.pc o) then 1 else 0) =
    c.req o + (c.outs o).length + (if gaves c.gc = some o then 1 else 0)
  on : ∀ t, 0 < c.enq t ∨ inQ (c.pc t) = true → c.asynch = true
  wf : ∀ t, wf (c.pc t) = true
  ending : ∀ t, ending (c.pc t) = true → c.enq t = 0
  reg : ∀ t, c.reg t = false → c.pc t ≠ .dead → c.enq t = 0 ∧ (c.pc t = .user ∨ ∃ x, c.pc t = .term x)
  new : ∀ t, c.ret t = false → c.pc t ≠ .dead → c.enq t = 0 ∧ c.pc t = .user
  dead : ∀ t, c.pc t = .dead → c.ret t = false
  alive : ∀ t, t ≠ 0 → c.ret t = true → c.alive t = true
  alive2 : ∀ o, c.outs o ≠ [] ∨ gaves c.gc = some o ∨ works c.gc = some o → c.alive o = true
  req : ∀ o, works c.gc = some o → 0 < c.req o
  fin : ∀ t F, c.fin t = some F → c.pc t = .marked F .fin3 ∨ c.pc t = .queued .fin3 ∨ c.pc t = .dead
  last : ∀ t F, c.fin t = some F → c.pc t = .queued .fin3 ∨ c.pc t = .dead →
    c.outs t = [] ∨ (c.outs t).getLast? = some F
  past : ∀ a, pasts c.gc = some a → a ∈ c.used ∧ a ∉ c.out ∧ ∀ t, has (c.pc t) ≠ some a
  test : ∀ a o r, c.gc = .test a o r → c.fin o = some a
  drain : ∀ o x r, c.gc = .drain o x r → c.pc o = .dead ∧ c.outs o = []
  used : ∀ a o, c.ow a = some o → a ∈ c.used
  own : ∀ t a, has (c.pc t) = some a → c.ow a = some t ∧ a ∉ c.out
  hasN : ∀ t u a, has (c.pc t) = some a → has (c.pc u) = some a → t = u
  owned : ∀ a ∈ c.out, c.ow a ≠ none
  outN : c.out.Nodup

variable {c : C} {t : Nat}

syntax "keep" ident* : tactic
open Lean in
macro_rules
  | `(tactic| keep) => do
    let h := mkIdent `h
    `(tactic| (clear $h; simp only [C.outs, C.out, Function.update_apply] at *; grind))
  | `(tactic| keep $x $xs*) => do
    let f := mkIdent (`J ++ x.getId)
    let h := mkIdent `h
    `(tactic| (have := $f $h; keep $xs*))

syntax "fields" : tactic
macro_rules
  | `(tactic| fields) => `(tactic| refine ⟨?_, ?_, ?_, ?_, ?_, ?_, ?_, ?_, ?_, ?_, ?_, ?_, ?_, ?_, ?_, ?_, ?_, ?_, ?_, ?_⟩)

/-- A thread goes on outside `mtev_memory_queue_asynch`, or into it. -/
theorem J.setPc (h : J c) {p : Pc} (h1 : isQ (c.pc t) = false) (h2 : has (c.pc t) = none) (h3 : c.pc t ≠ .dead)
    (p1 : isQ p = false) (p2 : has p = none) (p3 : p ≠ .dead) (p4 : Smr.wf p = true)
    (p5 : Smr.ending p = true → c.enq t = 0) (p6 : inQ p = true → c.asynch = true)
    (p7 : c.reg t = false → p = .user ∨ ∃ x, p = .term x) (p8 : c.ret t = true) :
    J { c with pc := Function.update c.pc t p } := by
  have hf : c.fin t = none := by
    cases hf : c.fin t with
    | none => rfl
    | some F => rcases h.fin t F hf with e | e | e <;> simp [e, has, isQ] at h1 h2 h3
  fields
  · keep count
  · keep on
  · keep wf
  · keep ending
  · keep reg
  · keep new
  · keep dead
  · keep alive
  · keep alive2
  · keep req
  · keep fin
  · keep last
  · keep past
  · keep test
  · keep drain
  · keep used
  · keep own
  · keep hasN
  · keep owned
  · keep outN

/-- A new list. -/
theorem J.fill (h : J c) {f : Bool} {k : K} {a : Nat} (hp : c.pc t = .mk f k) (ha : a ∉ c.used) :
    J { c with pc := Function.update c.pc t (.made a f k), ow := Function.update c.ow a (some t), used := a :: c.used } := by
  have hf : c.fin t = none := by
    cases hf : c.fin t with
    | none => rfl
    | some F => rcases h.fin t F hf with e | e | e <;> simp [e] at hp
  have hno : ∀ o, c.ow a ≠ some o := fun o e => ha (h.used a o e)
  have hao : a ∉ c.out := fun hm => by
    cases e : c.ow a with
    | none => exact h.owned a hm e
    | some o => exact hno o e
  have hw := h.wf t
  rw [hp] at hw
  have hw' : Smr.wf (.made a f k) = true := by cases f <;> cases k <;> simp [Smr.wf] at hw ⊢
  have hou : ∀ o, ({ c with pc := Function.update c.pc t (.made a f k), ow := Function.update c.ow a (some t), used := a :: c.used } : C).outs o = c.outs o := by
    intro o
    unfold C.outs
    apply List.filter_congr
    intro b hb
    have hb : b ∈ c.out := hb
    have : b ≠ a := by rintro rfl; exact hao hb
    simp only [Function.update_apply, this, if_false]
  have hm1 : has (.made a f k) = some a := rfl
  have hm2 : isQ (.made a f k) = false := rfl
  have hm3 : inQ (.made a f k) = true := rfl
  have hm4 : Smr.ending (.made a f k) = false := rfl
  have hm5 : inQ (c.pc t) = true := by rw [hp]; rfl
  have hm6 : isQ (c.pc t) = false := by rw [hp]; rfl
  have hm7 : has (c.pc t) = none := by rw [hp]; rfl
  fields
  · simp only [hou]; keep count
  · keep on
  · keep wf
  · keep ending
  · keep reg
  · keep new
  · keep dead
  · keep alive
  · simp only [hou]; keep alive2
  · keep req
  · keep fin
  · simp only [hou]; keep last
  · keep past
  · keep test
  · simp only [hou]; keep drain
  · keep used
  · keep own used
  · keep hasN own
  · keep owned
  · keep outN

/-- The final mark. -/
theorem J.mark (h : J c) {k : K} {a : Nat} (hp : c.pc t = .made a true k) :
    J { c with pc := Function.update c.pc t (.marked a k), fin := Function.update c.fin t (some a) } := by
  have hf : c.fin t = none := by
    cases hf : c.fin t with
    | none => rfl
    | some F => rcases h.fin t F hf with e | e | e <;> simp [e] at hp
  have hk : k = .fin3 := by
    have hw := h.wf t
    rw [hp] at hw
    cases k <;> simp [Smr.wf] at hw ⊢
  subst hk
  have hw' : Smr.wf (.marked a .fin3) = true := rfl
  have hm1 : has (.marked a .fin3) = some a := rfl
  have hm2 : isQ (.marked a .fin3) = false := rfl
  have hm3 : inQ (.marked a .fin3) = true := rfl
  have hm4 : Smr.ending (.marked a .fin3) = false := rfl
  have hm5 : inQ (c.pc t) = true := by rw [hp]; rfl
  have hm6 : isQ (c.pc t) = false := by rw [hp]; rfl
  have hm7 : has (c.pc t) = some a := by rw [hp]; rfl
  fields
  · keep count
  · keep on
  · keep wf
  · keep ending
  · keep reg
  · keep new
  · keep dead
  · keep alive
  · keep alive2
  · keep req
  · keep fin
  · keep last
  · keep past
  · keep test fin
  · keep drain
  · keep used
  · keep own
  · keep hasN
  · keep owned
  · keep outN

/-- No final mark. -/
theorem J.pass (h : J c) {k : K} {a : Nat} (hp : c.pc t = .made a false k) :
    J { c with pc := Function.update c.pc t (.marked a k) } := by
  have hf : c.fin t = none := by
    cases hf : c.fin t with
    | none => rfl
    | some F => rcases h.fin t F hf with e | e | e <;> simp [e] at hp
  have hw' : Smr.wf (.marked a k) = true := by
    have hw := h.wf t
    rw [hp] at hw
    cases k <;> simp [Smr.wf] at hw ⊢
  have hm1 : has (.marked a k) = some a := rfl
  have hm2 : isQ (.marked a k) = false := rfl
  have hm3 : inQ (.marked a k) = true := rfl
  have hm4 : Smr.ending (.marked a k) = false := rfl
  have hm5 : inQ (c.pc t) = true := by rw [hp]; rfl
  have hm6 : isQ (c.pc t) = false := by rw [hp]; rfl
  have hm7 : has (c.pc t) = some a := by rw [hp]; rfl
  fields
  · keep count
  · keep on
  · keep wf
  · keep ending
  · keep reg
  · keep new
  · keep dead
  · keep alive
  · keep alive2
  · keep req
  · keep fin
  · keep last
  · keep past
  · keep test
  · keep drain
  · keep used
  · keep own
  · keep hasN
  · keep owned
  · keep outN

/-- The list is queued. -/
theorem J.hand (h : J c) (h0 : t ≠ 0) {k : K} {a : Nat} (hp : c.pc t = .marked a k) :
    J { c with pc := Function.update c.pc t (.queued k), gcq := c.gcq ++ [a] } := by
  have hw' : Smr.wf (.queued k) = true := by
    have hw := h.wf t
    rw [hp] at hw
    cases k <;> simp [Smr.wf] at hw ⊢
  have hfin : ∀ F, c.fin t = some F → F = a ∧ k = .fin3 := by
    intro F hF
    rcases h.fin t F hF with e | e | e <;> rw [hp] at e <;> simp at e
    exact ⟨e.1.symm, e.2⟩
  have hret : c.ret t = true := by
    cases e : c.ret t with
    | true => rfl
    | false => have := (h.new t e (by rw [hp]; simp)).2; rw [hp] at this; cases this
  have hal := h.alive t h0 hret
  have how : c.ow a = some t ∧ a ∉ c.out := h.own t a (by rw [hp]; rfl)
  have hout : ({ c with pc := Function.update c.pc t (.queued k), gcq := c.gcq ++ [a] } : C).out = c.out ++ [a] := by
    simp [C.out]
  have hou : ∀ o, ({ c with pc := Function.update c.pc t (.queued k), gcq := c.gcq ++ [a] } : C).outs o =
      c.outs o ++ (if o = t then [a] else []) := by
    intro o
    unfold C.outs
    rw [hout, List.filter_append]
    congr 1
    simp only [List.filter_cons, List.filter_nil, how.1]
    by_cases e : o = t
    · simp [e]
    · simp [e, Ne.symm e]
  have hm1 : has (.queued k) = none := rfl
  have hm2 : isQ (.queued k) = true := rfl
  have hm3 : inQ (.queued k) = true := rfl
  have hm4 : Smr.ending (.queued k) = false := rfl
  have hm5 : inQ (c.pc t) = true := by rw [hp]; rfl
  have hm6 : isQ (c.pc t) = false := by rw [hp]; rfl
  have hm7 : has (c.pc t) = some a := by rw [hp]; rfl
  fields
  · simp only [hou]
    intro o
    have := h.count o
    by_cases e : o = t
    · subst e; simp only [upd_same, hm2, hm6] at this ⊢; simp at this ⊢; omega
    · simp only [upd_other _ _ _ e, e, if_false, List.append_nil]; exact this
  · keep on
  · keep wf
  · keep ending
  · keep reg
  · keep new
  · keep dead
  · keep alive
  · simp only [hou]; have := h.alive2; clear h; grind
  · keep req
  · keep fin
  · simp only [hou]
    intro u F hF hpu
    by_cases e : u = t
    · subst e; right; simp [(hfin F hF).1]
    · simp only [upd_other _ _ _ e] at hpu
      simp only [e, if_false, List.append_nil]
      exact h.last u F hF hpu
  · simp only [hout]
    intro b hb
    obtain ⟨h1, h2, h3⟩ := h.past b hb
    refine ⟨h1, ?_, ?_⟩
    · have := h3 t
      rw [hm7] at this
      simp only [List.mem_append, List.mem_singleton, not_or]
      exact ⟨h2, fun e => this (by rw [e])⟩
    · intro u
      by_cases e : u = t
      · subst e; simp only [upd_same, hm1]; simp
      · simp only [upd_other _ _ _ e]; exact h3 u
  · keep test
  · simp only [hou]
    intro o x r hg
    obtain ⟨h1, h2⟩ := h.drain o x r hg
    have e : o ≠ t := by rintro rfl; rw [hp] at h1; cases h1
    simp [upd_other _ _ _ e, e, h1, h2]
  · keep used
  · simp only [hout]; have h1 := h.own; have h2 := h.hasN; clear h; (try simp only [Function.update_apply]); grind
  · keep hasN
  · simp only [hout]; have h1 := h.owned; clear h; (try simp only [Function.update_apply]); grind
  · rw [hout, List.nodup_append]
    refine ⟨h.outN, by simp, ?_⟩
    rintro x hx y hy rfl
    simp only [List.mem_singleton] at hy
    subst hy
    exact how.2 hx

/-- The increment. -/
theorem J.inc (h : J c) {k : K} {p : Pc} (hp : c.pc t = .queued k) (hk : k ≠ .fin3)
    (p1 : isQ p = false) (p2 : has p = none) (p3 : p ≠ .dead) (p4 : Smr.wf p = true)
    (p5 : Smr.ending p = false) :
    J { c with pc := Function.update c.pc t p, enq := Function.update c.enq t (c.enq t + 1) } := by
  have hf : c.fin t = none := by
    cases hf : c.fin t with
    | none => rfl
    | some F =>
      rcases h.fin t F hf with e | e | e <;> rw [hp] at e <;> simp at e
      exact absurd e hk
  have has : c.asynch = true := h.on t (.inr (by rw [hp]; rfl))
  have hret : c.ret t = true := by
    cases e : c.ret t with
    | true => rfl
    | false => have := (h.new t e (by rw [hp]; simp)).2; rw [hp] at this; cases this
  have hreg : c.reg t = true := by
    cases e : c.reg t with
    | true => rfl
    | false =>
      rcases (h.reg t e (by rw [hp]; simp)).2 with e | ⟨_, e⟩ <;> rw [hp] at e <;> cases e
  have hm5 : inQ (c.pc t) = true := by rw [hp]; rfl
  have hm6 : isQ (c.pc t) = true := by rw [hp]; rfl
  have hm7 : Smr.has (c.pc t) = none := by rw [hp]; rfl
  fields
  · intro o
    have := h.count o
    by_cases e : o = t
    · subst e; simp only [upd_same, p1, hm6, C.outs, C.out] at this ⊢; simp at this ⊢; omega
    · simp only [upd_other _ _ _ e]; exact this
  · keep on
  · keep wf
  · keep ending
  · keep reg
  · keep new
  · keep dead
  · keep alive
  · keep alive2
  · keep req
  · keep fin
  · keep last
  · keep past
  · keep test
  · keep drain
  · keep used
  · keep own
  · keep hasN
  · keep owned
  · keep outN

/-- The increment, and the end. -/
theorem J.incLeave (h : J c) {k : K} (hp : c.pc t = .queued k) :
    J { c with
      pc := Function.update c.pc t .dead
      ret := Function.update c.ret t false
      reg := Function.update c.reg t false
      enq := Function.update c.enq t (c.enq t + 1) } := by
  have has : c.asynch = true := h.on t (.inr (by rw [hp]; rfl))
  have hnd : c.pc t ≠ .dead := by rw [hp]; simp
  have hq : ∀ F, c.fin t = some F → c.pc t = .queued .fin3 := by
    intro F hF
    rcases h.fin t F hF with e | e | e
    · rw [hp] at e; cases e
    · exact e
    · exact absurd e hnd
  have m1 : Smr.has .dead = none := rfl
  have m2 : isQ .dead = false := rfl
  have m3 : inQ .dead = false := rfl
  have m4 : Smr.ending .dead = false := rfl
  have m5 : Smr.wf .dead = true := rfl
  have hm5 : inQ (c.pc t) = true := by rw [hp]; rfl
  have hm6 : isQ (c.pc t) = true := by rw [hp]; rfl
  have hm7 : Smr.has (c.pc t) = none := by rw [hp]; rfl
  fields
  · intro o
    have := h.count o
    by_cases e : o = t
    · subst e; simp only [upd_same, m2, hm6, C.outs, C.out] at this ⊢; simp at this ⊢; omega
    · simp only [upd_other _ _ _ e]; exact this
  · keep on
  · keep wf
  · keep ending
  · keep reg on
  · keep new
  · keep dead
  · keep alive dead
  · keep alive2
  · keep req
  · keep fin
  · keep last
  · keep past
  · keep test
  · keep drain
  · keep used
  · keep own
  · keep hasN
  · keep owned
  · keep outN

/-- The end. -/
theorem J.leave (h : J c) (h1 : isQ (c.pc t) = false) (h2 : has (c.pc t) = none) :
    J { c with
      pc := Function.update c.pc t .dead
      ret := Function.update c.ret t false
      reg := Function.update c.reg t false } := by
  have hq : ∀ F, c.fin t = some F → c.pc t = .dead := by
    intro F hF
    rcases h.fin t F hF with e | e | e
    · rw [e] at h2; cases h2
    · rw [e] at h1; cases h1
    · exact e
  have m1 : Smr.has .dead = none := rfl
  have m2 : isQ .dead = false := rfl
  have m3 : inQ .dead = false := rfl
  have m4 : Smr.ending .dead = false := rfl
  have m5 : Smr.wf .dead = true := rfl
  fields
  · keep count
  · keep on
  · keep wf
  · keep ending
  · keep reg
  · keep new
  · keep dead
  · keep alive dead
  · keep alive2
  · keep req
  · keep fin
  · keep last
  · keep past
  · keep test
  · keep drain
  · keep used
  · keep own
  · keep hasN
  · keep owned
  · keep outN

/-- The end without the collector. -/
theorem J.term (h : J c) (h4 : Smr.ending (c.pc t) = true) :
    J { c with
      pc := Function.update c.pc t .dead
      ret := Function.update c.ret t false
      reg := Function.update c.reg t false
      alive := Function.update c.alive t false } := by
  have he := h.ending t h4
  have h1 : isQ (c.pc t) = false := by cases e : c.pc t <;> simp [e, Smr.ending] at h4 <;> rfl
  have h2 : has (c.pc t) = none := by cases e : c.pc t <;> simp [e, Smr.ending] at h4 <;> rfl
  have hnd : c.pc t ≠ .dead := by intro e; rw [e] at h4; cases h4
  have hq : ∀ F, c.fin t ≠ some F := by
    intro F hF
    rcases h.fin t F hF with e | e | e
    · rw [e] at h2; cases h2
    · rw [e] at h1; cases h1
    · exact hnd e
  have hc := h.count t
  rw [he, h1] at hc
  have hg : gaves c.gc ≠ some t := by intro e; simp [e] at hc
  have hl : c.outs t = [] := by
    rw [← List.length_eq_zero_iff]; simp [hg] at hc; omega
  have hr : c.req t = 0 := by simp [hg] at hc; omega
  have hw : works c.gc ≠ some t := fun e => by have := h.req t e; omega
  have m1 : Smr.has .dead = none := rfl
  have m2 : isQ .dead = false := rfl
  have m3 : inQ .dead = false := rfl
  have m4 : Smr.ending .dead = false := rfl
  have m5 : Smr.wf .dead = true := rfl
  fields
  · keep count
  · keep on
  · keep wf
  · keep ending
  · keep reg
  · keep new
  · keep dead
  · keep alive
  · keep alive2
  · keep req
  · keep fin
  · keep last
  · keep past
  · keep test
  · keep drain
  · keep used
  · keep own
  · keep hasN
  · keep owned
  · keep outN

/-- A new thread. -/
theorem J.init (h : J c) (h0 : c.ret t = false) (hp : c.pc t = .user) :
    J { c with
      ret := Function.update c.ret t true
      alive := Function.update c.alive t true
      enq := Function.update c.enq t 0
      req := Function.update c.req t 0
      fin := Function.update c.fin t none } := by
  have he := (h.new t h0 (by rw [hp]; simp)).1
  have hc := h.count t
  have h1 : isQ (c.pc t) = false := by rw [hp]; rfl
  rw [he, h1] at hc
  have hg : gaves c.gc ≠ some t := by intro e; simp [e] at hc
  have hl : c.outs t = [] := by
    rw [← List.length_eq_zero_iff]; simp [hg] at hc; omega
  have hr : c.req t = 0 := by simp [hg] at hc; omega
  have hw : works c.gc ≠ some t := fun e => by have := h.req t e; omega
  fields
  · intro o
    by_cases e : o = t
    · subst e
      have hl' : c.outs o = [] := hl
      simp only [upd_same, h1, hg]
      show 0 + _ = 0 + (c.outs o).length + _
      rw [hl']; simp
    · simp only [upd_other _ _ _ e]; exact h.count o
  · keep on
  · keep wf
  · keep ending
  · keep reg
  · keep new
  · keep dead
  · keep alive
  · keep alive2
  · keep req
  · keep fin
  · keep last
  · keep past
  · keep test fin
  · keep drain
  · keep used
  · keep own
  · keep hasN
  · keep owned
  · keep outN

/-- The thread registers. -/
theorem J.regOn (h : J c) : J { c with reg := Function.update c.reg t true } := by
  fields
  · keep count
  · keep on
  · keep wf
  · keep ending
  · keep reg
  · keep new
  · keep dead
  · keep alive
  · keep alive2
  · keep req
  · keep fin
  · keep last
  · keep past
  · keep test
  · keep drain
  · keep used
  · keep own
  · keep hasN
  · keep owned
  · keep outN

/-- The collector starts. -/
theorem J.gcOn (h : J c) (h0 : c.pc 0 = .user) :
    J { c with ret := Function.update c.ret 0 true, reg := Function.update c.reg 0 true, asynch := true } := by
  fields
  · keep count
  · keep on
  · keep wf
  · keep ending
  · keep reg
  · keep new
  · keep dead
  · keep alive
  · keep alive2
  · keep req
  · keep fin
  · keep last
  · keep past
  · keep test
  · keep drain
  · keep used
  · keep own
  · keep hasN
  · keep owned
  · keep outN

/-- A list is freed. -/
theorem J.free (h : J c) {a : Nat} (ha : a ∉ c.out) (hh : ∀ t, has (c.pc t) ≠ some a) :
    J { c with ow := Function.update c.ow a none } := by
  have hou : ∀ o, ({ c with ow := Function.update c.ow a none } : C).outs o = c.outs o := by
    intro o
    unfold C.outs
    apply List.filter_congr
    intro b hb
    have hb : b ∈ c.out := hb
    have : b ≠ a := by rintro rfl; exact ha hb
    simp only [Function.update_apply, this, if_false]
  fields
  · simp only [hou]; keep count
  · keep on
  · keep wf
  · keep ending
  · keep reg
  · keep new
  · keep dead
  · keep alive
  · simp only [hou]; keep alive2
  · keep req
  · keep fin
  · simp only [hou]; keep last
  · keep past
  · keep test
  · simp only [hou]; keep drain
  · keep used
  · keep own
  · keep hasN
  · keep owned
  · keep outN

/-- The collector takes lists. -/
theorem J.gcIdle (h : J c) {n : Nat} {l : List Nat} (hg : c.gc = .idle) :
    J { c with gc := .sync (c.gcq.take n) l, gcq := c.gcq.drop n } := by
  have hout : ({ c with gc := .sync (c.gcq.take n) l, gcq := c.gcq.drop n } : C).out = c.out := by
    simp [C.out, gcSet, hg]
  have hou : ∀ o', ({ c with gc := .sync (c.gcq.take n) l, gcq := c.gcq.drop n } : C).outs o' = c.outs o' := by
    intro o'; unfold C.outs; rw [hout]
  fields
  · simp only [hou]; have h1 := h.count; clear h; (try simp only [hg, gaves, works, pasts, Function.update_apply] at h1 ⊢); grind
  · have h1 := h.on; clear h; (try simp only [hg, gaves, works, pasts, Function.update_apply] at h1 ⊢); grind
  · have h1 := h.wf; clear h; (try simp only [hg, gaves, works, pasts, Function.update_apply] at h1 ⊢); grind
  · have h1 := h.ending; clear h; (try simp only [hg, gaves, works, pasts, Function.update_apply] at h1 ⊢); grind
  · have h1 := h.reg; clear h; (try simp only [hg, gaves, works, pasts, Function.update_apply] at h1 ⊢); grind
  · have h1 := h.new; clear h; (try simp only [hg, gaves, works, pasts, Function.update_apply] at h1 ⊢); grind
  · have h1 := h.dead; clear h; (try simp only [hg, gaves, works, pasts, Function.update_apply] at h1 ⊢); grind
  · have h1 := h.alive; clear h; (try simp only [hg, gaves, works, pasts, Function.update_apply] at h1 ⊢); grind
  · simp only [hou]; have h1 := h.alive2; clear h; (try simp only [hg, gaves, works, pasts, Function.update_apply] at h1 ⊢); grind
  · have h1 := h.req; clear h; (try simp only [hg, gaves, works, pasts, Function.update_apply] at h1 ⊢); grind
  · have h1 := h.fin; clear h; (try simp only [hg, gaves, works, pasts, Function.update_apply] at h1 ⊢); grind
  · simp only [hou]; have h1 := h.last; clear h; (try simp only [hg, gaves, works, pasts, Function.update_apply] at h1 ⊢); grind
  · simp only [hout]; have h1 := h.past; clear h; (try simp only [hg, gaves, works, pasts, Function.update_apply] at h1 ⊢); grind
  · have h1 := h.test; clear h; (try simp only [hg, gaves, works, pasts, Function.update_apply] at h1 ⊢); grind
  · simp only [hou]; have h1 := h.drain; clear h; (try simp only [hg, gaves, works, pasts, Function.update_apply] at h1 ⊢); grind
  · have h1 := h.used; clear h; (try simp only [hg, gaves, works, pasts, Function.update_apply] at h1 ⊢); grind
  · simp only [hout]; have h1 := h.own; clear h; (try simp only [hg, gaves, works, pasts, Function.update_apply] at h1 ⊢); grind
  · have h1 := h.hasN; clear h; (try simp only [hg, gaves, works, pasts, Function.update_apply] at h1 ⊢); grind
  · simp only [hout]; have h1 := h.owned; clear h; (try simp only [hg, gaves, works, pasts, Function.update_apply] at h1 ⊢); grind
  · simp only [hout]; have h1 := h.outN; clear h; (try simp only [hg, gaves, works, pasts, Function.update_apply] at h1 ⊢); grind

/-- The collector has synchronized. -/
theorem J.gcSync (h : J c) {l snap : List Nat} (hg : c.gc = .sync l snap) :
    J { c with gc := .give l } := by
  have hout : ({ c with gc := .give l } : C).out = c.out := by
    simp [C.out, gcSet, hg]
  have hou : ∀ o', ({ c with gc := .give l } : C).outs o' = c.outs o' := by
    intro o'; unfold C.outs; rw [hout]
  fields
  · simp only [hou]; have h1 := h.count; clear h; (try simp only [hg, gaves, works, pasts, Function.update_apply] at h1 ⊢); grind
  · have h1 := h.on; clear h; (try simp only [hg, gaves, works, pasts, Function.update_apply] at h1 ⊢); grind
  · have h1 := h.wf; clear h; (try simp only [hg, gaves, works, pasts, Function.update_apply] at h1 ⊢); grind
  · have h1 := h.ending; clear h; (try simp only [hg, gaves, works, pasts, Function.update_apply] at h1 ⊢); grind
  · have h1 := h.reg; clear h; (try simp only [hg, gaves, works, pasts, Function.update_apply] at h1 ⊢); grind
  · have h1 := h.new; clear h; (try simp only [hg, gaves, works, pasts, Function.update_apply] at h1 ⊢); grind
  · have h1 := h.dead; clear h; (try simp only [hg, gaves, works, pasts, Function.update_apply] at h1 ⊢); grind
  · have h1 := h.alive; clear h; (try simp only [hg, gaves, works, pasts, Function.update_apply] at h1 ⊢); grind
  · simp only [hou]; have h1 := h.alive2; clear h; (try simp only [hg, gaves, works, pasts, Function.update_apply] at h1 ⊢); grind
  · have h1 := h.req; clear h; (try simp only [hg, gaves, works, pasts, Function.update_apply] at h1 ⊢); grind
  · have h1 := h.fin; clear h; (try simp only [hg, gaves, works, pasts, Function.update_apply] at h1 ⊢); grind
  · simp only [hou]; have h1 := h.last; clear h; (try simp only [hg, gaves, works, pasts, Function.update_apply] at h1 ⊢); grind
  · simp only [hout]; have h1 := h.past; clear h; (try simp only [hg, gaves, works, pasts, Function.update_apply] at h1 ⊢); grind
  · have h1 := h.test; clear h; (try simp only [hg, gaves, works, pasts, Function.update_apply] at h1 ⊢); grind
  · simp only [hou]; have h1 := h.drain; clear h; (try simp only [hg, gaves, works, pasts, Function.update_apply] at h1 ⊢); grind
  · have h1 := h.used; clear h; (try simp only [hg, gaves, works, pasts, Function.update_apply] at h1 ⊢); grind
  · simp only [hout]; have h1 := h.own; clear h; (try simp only [hg, gaves, works, pasts, Function.update_apply] at h1 ⊢); grind
  · have h1 := h.hasN; clear h; (try simp only [hg, gaves, works, pasts, Function.update_apply] at h1 ⊢); grind
  · simp only [hout]; have h1 := h.owned; clear h; (try simp only [hg, gaves, works, pasts, Function.update_apply] at h1 ⊢); grind
  · simp only [hout]; have h1 := h.outN; clear h; (try simp only [hg, gaves, works, pasts, Function.update_apply] at h1 ⊢); grind

/-- No list is left. -/
theorem J.gcNone (h : J c) (hg : c.gc = .give []) :
    J { c with gc := .idle } := by
  have hout : ({ c with gc := .idle } : C).out = c.out := by
    simp [C.out, gcSet, hg]
  have hou : ∀ o', ({ c with gc := .idle } : C).outs o' = c.outs o' := by
    intro o'; unfold C.outs; rw [hout]
  fields
  · simp only [hou]; have h1 := h.count; clear h; (try simp only [hg, gaves, works, pasts, Function.update_apply] at h1 ⊢); grind
  · have h1 := h.on; clear h; (try simp only [hg, gaves, works, pasts, Function.update_apply] at h1 ⊢); grind
  · have h1 := h.wf; clear h; (try simp only [hg, gaves, works, pasts, Function.update_apply] at h1 ⊢); grind
  · have h1 := h.ending; clear h; (try simp only [hg, gaves, works, pasts, Function.update_apply] at h1 ⊢); grind
  · have h1 := h.reg; clear h; (try simp only [hg, gaves, works, pasts, Function.update_apply] at h1 ⊢); grind
  · have h1 := h.new; clear h; (try simp only [hg, gaves, works, pasts, Function.update_apply] at h1 ⊢); grind
  · have h1 := h.dead; clear h; (try simp only [hg, gaves, works, pasts, Function.update_apply] at h1 ⊢); grind
  · have h1 := h.alive; clear h; (try simp only [hg, gaves, works, pasts, Function.update_apply] at h1 ⊢); grind
  · simp only [hou]; have h1 := h.alive2; clear h; (try simp only [hg, gaves, works, pasts, Function.update_apply] at h1 ⊢); grind
  · have h1 := h.req; clear h; (try simp only [hg, gaves, works, pasts, Function.update_apply] at h1 ⊢); grind
  · have h1 := h.fin; clear h; (try simp only [hg, gaves, works, pasts, Function.update_apply] at h1 ⊢); grind
  · simp only [hou]; have h1 := h.last; clear h; (try simp only [hg, gaves, works, pasts, Function.update_apply] at h1 ⊢); grind
  · simp only [hout]; have h1 := h.past; clear h; (try simp only [hg, gaves, works, pasts, Function.update_apply] at h1 ⊢); grind
  · have h1 := h.test; clear h; (try simp only [hg, gaves, works, pasts, Function.update_apply] at h1 ⊢); grind
  · simp only [hou]; have h1 := h.drain; clear h; (try simp only [hg, gaves, works, pasts, Function.update_apply] at h1 ⊢); grind
  · have h1 := h.used; clear h; (try simp only [hg, gaves, works, pasts, Function.update_apply] at h1 ⊢); grind
  · simp only [hout]; have h1 := h.own; clear h; (try simp only [hg, gaves, works, pasts, Function.update_apply] at h1 ⊢); grind
  · have h1 := h.hasN; clear h; (try simp only [hg, gaves, works, pasts, Function.update_apply] at h1 ⊢); grind
  · simp only [hout]; have h1 := h.owned; clear h; (try simp only [hg, gaves, works, pasts, Function.update_apply] at h1 ⊢); grind
  · simp only [hout]; have h1 := h.outN; clear h; (try simp only [hg, gaves, works, pasts, Function.update_apply] at h1 ⊢); grind

/-- A list is handed back. -/
theorem J.gcGive (h : J c) {a o : Nat} {r : List Nat} (hg : c.gc = .give (a :: r)) (ho : c.ow a = some o) :
    J { c with gc := .gave a o r } := by
  have hout : c.out = a :: ({ c with gc := .gave a o r } : C).out := by
    simp [C.out, gcSet, hg]
  have hou : ∀ o', c.outs o' = (if o' = o then [a] else []) ++ ({ c with gc := .gave a o r } : C).outs o' := by
    intro o'
    unfold C.outs
    rw [hout, List.filter_cons]
    simp only [ho]
    by_cases e : o' = o
    · simp [e]
    · simp [e, Ne.symm e]
  have hN := h.outN
  rw [hout, List.nodup_cons] at hN
  generalize hc' : ({ c with gc := .gave a o r } : C) = c' at hout hou hN
  have e1 : c'.pc = c.pc := by subst hc'; rfl
  have e2 : c'.ow = c.ow := by subst hc'; rfl
  have e3 : c'.used = c.used := by subst hc'; rfl
  have e4 : c'.enq = c.enq := by subst hc'; rfl
  have e5 : c'.req = c.req := by subst hc'; rfl
  have e6 : c'.gc = .gave a o r := by subst hc'; rfl
  have e7 : c'.alive = c.alive := by subst hc'; rfl
  have e8 : c'.fin = c.fin := by subst hc'; rfl
  have e9 : c'.ret = c.ret := by subst hc'; rfl
  have e10 : c'.reg = c.reg := by subst hc'; rfl
  have e11 : c'.asynch = c.asynch := by subst hc'; rfl
  clear hc'
  fields
  · intro u
    have := h.count u
    rw [hou u] at this
    simp only [e1, e4, e5, e6, gaves, hg, List.length_append] at this ⊢
    by_cases e : u = o
    · subst e; simp at this ⊢; omega
    · simp [e, Ne.symm e] at this ⊢; omega
  · rw [e1, e4, e11]; exact h.on
  · rw [e1]; exact h.wf
  · rw [e1, e4]; exact h.ending
  · rw [e1, e4, e10]; exact h.reg
  · rw [e1, e4, e9]; exact h.new
  · rw [e1, e9]; exact h.dead
  · rw [e7, e9]; exact h.alive
  · intro u hu
    rw [e7]
    refine h.alive2 u (.inl ?_)
    rw [hou u]
    rcases hu with hu | hu | hu
    · simp [hu]
    · simp only [e6, gaves, Option.some.injEq] at hu; subst hu; simp
    · simp [e6, works] at hu
  · intro u hu; simp [e6, works] at hu
  · rw [e1, e8]; exact h.fin
  · rw [e1, e8]
    intro u F hF hp
    have := h.last u F hF hp
    rw [hou u] at this
    by_cases e : u = o
    · subst e
      simp only [if_true, List.singleton_append] at this
      rcases this with this | this
      · cases this
      · cases hl : c'.outs u with
        | nil => left; rfl
        | cons x y => rw [hl] at this; right; simpa using this
    · simpa [e] using this
  · intro b hb
    simp only [e6, pasts, Option.some.injEq] at hb
    subst hb
    rw [e1, e3]
    refine ⟨h.used _ _ ho, hN.1, ?_⟩
    intro u hu
    exact (h.own u _ hu).2 (by rw [hout]; simp)
  · intro b u r' hr; rw [e6] at hr; cases hr
  · intro b u r' hr; rw [e6] at hr; cases hr
  · rw [e2, e3]; exact h.used
  · rw [e1, e2]
    intro u b hb
    obtain ⟨h1, h2⟩ := h.own u b hb
    exact ⟨h1, fun h3 => h2 (by rw [hout]; exact List.mem_cons_of_mem _ h3)⟩
  · rw [e1]; exact h.hasN
  · rw [e2]; exact fun b hb => h.owned b (by rw [hout]; exact List.mem_cons_of_mem _ hb)
  · exact hN.2

/-- A list is counted. -/
theorem J.gcGave (h : J c) {a o : Nat} {r : List Nat} (hg : c.gc = .gave a o r) :
    J { c with gc := .check a o r, req := Function.update c.req o (c.req o + 1) } := by
  have hout : ({ c with gc := .check a o r, req := Function.update c.req o (c.req o + 1) } : C).out = c.out := by
    simp [C.out, gcSet, hg]
  have hou : ∀ o', ({ c with gc := .check a o r, req := Function.update c.req o (c.req o + 1) } : C).outs o' = c.outs o' := by
    intro o'; unfold C.outs; rw [hout]
  fields
  · simp only [hou]; have h1 := h.count; clear h; (try simp only [hg, gaves, works, pasts, Function.update_apply] at h1 ⊢); grind
  · have h1 := h.on; clear h; (try simp only [hg, gaves, works, pasts, Function.update_apply] at h1 ⊢); grind
  · have h1 := h.wf; clear h; (try simp only [hg, gaves, works, pasts, Function.update_apply] at h1 ⊢); grind
  · have h1 := h.ending; clear h; (try simp only [hg, gaves, works, pasts, Function.update_apply] at h1 ⊢); grind
  · have h1 := h.reg; clear h; (try simp only [hg, gaves, works, pasts, Function.update_apply] at h1 ⊢); grind
  · have h1 := h.new; clear h; (try simp only [hg, gaves, works, pasts, Function.update_apply] at h1 ⊢); grind
  · have h1 := h.dead; clear h; (try simp only [hg, gaves, works, pasts, Function.update_apply] at h1 ⊢); grind
  · have h1 := h.alive; clear h; (try simp only [hg, gaves, works, pasts, Function.update_apply] at h1 ⊢); grind
  · simp only [hou]; have h1 := h.alive2; clear h; (try simp only [hg, gaves, works, pasts, Function.update_apply] at h1 ⊢); grind
  · have h1 := h.req; clear h; (try simp only [hg, gaves, works, pasts, Function.update_apply] at h1 ⊢); grind
  · have h1 := h.fin; clear h; (try simp only [hg, gaves, works, pasts, Function.update_apply] at h1 ⊢); grind
  · simp only [hou]; have h1 := h.last; clear h; (try simp only [hg, gaves, works, pasts, Function.update_apply] at h1 ⊢); grind
  · simp only [hout]; have h1 := h.past; clear h; (try simp only [hg, gaves, works, pasts, Function.update_apply] at h1 ⊢); grind
  · have h1 := h.test; clear h; (try simp only [hg, gaves, works, pasts, Function.update_apply] at h1 ⊢); grind
  · simp only [hou]; have h1 := h.drain; clear h; (try simp only [hg, gaves, works, pasts, Function.update_apply] at h1 ⊢); grind
  · have h1 := h.used; clear h; (try simp only [hg, gaves, works, pasts, Function.update_apply] at h1 ⊢); grind
  · simp only [hout]; have h1 := h.own; clear h; (try simp only [hg, gaves, works, pasts, Function.update_apply] at h1 ⊢); grind
  · have h1 := h.hasN; clear h; (try simp only [hg, gaves, works, pasts, Function.update_apply] at h1 ⊢); grind
  · simp only [hout]; have h1 := h.owned; clear h; (try simp only [hg, gaves, works, pasts, Function.update_apply] at h1 ⊢); grind
  · simp only [hout]; have h1 := h.outN; clear h; (try simp only [hg, gaves, works, pasts, Function.update_apply] at h1 ⊢); grind

/-- The final list is seen. -/
theorem J.gcCheck (h : J c) {a o : Nat} {r : List Nat} (hg : c.gc = .check a o r) (hf : c.fin o = some a) :
    J { c with gc := .test a o r } := by
  have hout : ({ c with gc := .test a o r } : C).out = c.out := by
    simp [C.out, gcSet, hg]
  have hou : ∀ o', ({ c with gc := .test a o r } : C).outs o' = c.outs o' := by
    intro o'; unfold C.outs; rw [hout]
  fields
  · simp only [hou]; have h1 := h.count; clear h; (try simp only [hg, gaves, works, pasts, Function.update_apply] at h1 ⊢); grind
  · have h1 := h.on; clear h; (try simp only [hg, gaves, works, pasts, Function.update_apply] at h1 ⊢); grind
  · have h1 := h.wf; clear h; (try simp only [hg, gaves, works, pasts, Function.update_apply] at h1 ⊢); grind
  · have h1 := h.ending; clear h; (try simp only [hg, gaves, works, pasts, Function.update_apply] at h1 ⊢); grind
  · have h1 := h.reg; clear h; (try simp only [hg, gaves, works, pasts, Function.update_apply] at h1 ⊢); grind
  · have h1 := h.new; clear h; (try simp only [hg, gaves, works, pasts, Function.update_apply] at h1 ⊢); grind
  · have h1 := h.dead; clear h; (try simp only [hg, gaves, works, pasts, Function.update_apply] at h1 ⊢); grind
  · have h1 := h.alive; clear h; (try simp only [hg, gaves, works, pasts, Function.update_apply] at h1 ⊢); grind
  · simp only [hou]; have h1 := h.alive2; clear h; (try simp only [hg, gaves, works, pasts, Function.update_apply] at h1 ⊢); grind
  · have h1 := h.req; clear h; (try simp only [hg, gaves, works, pasts, Function.update_apply] at h1 ⊢); grind
  · have h1 := h.fin; clear h; (try simp only [hg, gaves, works, pasts, Function.update_apply] at h1 ⊢); grind
  · simp only [hou]; have h1 := h.last; clear h; (try simp only [hg, gaves, works, pasts, Function.update_apply] at h1 ⊢); grind
  · simp only [hout]; have h1 := h.past; clear h; (try simp only [hg, gaves, works, pasts, Function.update_apply] at h1 ⊢); grind
  · have h1 := h.test; clear h; (try simp only [hg, gaves, works, pasts, Function.update_apply] at h1 ⊢); grind
  · simp only [hou]; have h1 := h.drain; clear h; (try simp only [hg, gaves, works, pasts, Function.update_apply] at h1 ⊢); grind
  · have h1 := h.used; clear h; (try simp only [hg, gaves, works, pasts, Function.update_apply] at h1 ⊢); grind
  · simp only [hout]; have h1 := h.own; clear h; (try simp only [hg, gaves, works, pasts, Function.update_apply] at h1 ⊢); grind
  · have h1 := h.hasN; clear h; (try simp only [hg, gaves, works, pasts, Function.update_apply] at h1 ⊢); grind
  · simp only [hout]; have h1 := h.owned; clear h; (try simp only [hg, gaves, works, pasts, Function.update_apply] at h1 ⊢); grind
  · simp only [hout]; have h1 := h.outN; clear h; (try simp only [hg, gaves, works, pasts, Function.update_apply] at h1 ⊢); grind

/-- Not the final list. -/
theorem J.gcSkip (h : J c) {r : List Nat} (hg : (∃ a o, c.gc = .check a o r) ∨ ∃ a o, c.gc = .test a o r) :
    J { c with gc := .give r } := by
  have hout : ({ c with gc := .give r } : C).out = c.out := by
    rcases hg with ⟨a, o, hg⟩ | ⟨a, o, hg⟩ <;> simp [C.out, gcSet, hg]
  have hou : ∀ o, ({ c with gc := .give r } : C).outs o = c.outs o := by
    intro o; unfold C.outs; rw [hout]
  have hgg : gaves c.gc = none := by rcases hg with ⟨a, o, hg⟩ | ⟨a, o, hg⟩ <;> simp [hg, gaves]
  fields
  · simp only [hou]; have h1 := h.count; clear h; (try simp only [hgg, gaves, works, pasts, Function.update_apply] at h1 ⊢); grind
  · have h1 := h.on; clear h; (try simp only [hgg, gaves, works, pasts, Function.update_apply] at h1 ⊢); grind
  · have h1 := h.wf; clear h; (try simp only [hgg, gaves, works, pasts, Function.update_apply] at h1 ⊢); grind
  · have h1 := h.ending; clear h; (try simp only [hgg, gaves, works, pasts, Function.update_apply] at h1 ⊢); grind
  · have h1 := h.reg; clear h; (try simp only [hgg, gaves, works, pasts, Function.update_apply] at h1 ⊢); grind
  · have h1 := h.new; clear h; (try simp only [hgg, gaves, works, pasts, Function.update_apply] at h1 ⊢); grind
  · have h1 := h.dead; clear h; (try simp only [hgg, gaves, works, pasts, Function.update_apply] at h1 ⊢); grind
  · have h1 := h.alive; clear h; (try simp only [hgg, gaves, works, pasts, Function.update_apply] at h1 ⊢); grind
  · simp only [hou]; have h1 := h.alive2; clear h; (try simp only [hgg, gaves, works, pasts, Function.update_apply] at h1 ⊢); grind
  · have h1 := h.req; clear h; (try simp only [hgg, gaves, works, pasts, Function.update_apply] at h1 ⊢); grind
  · have h1 := h.fin; clear h; (try simp only [hgg, gaves, works, pasts, Function.update_apply] at h1 ⊢); grind
  · simp only [hou]; have h1 := h.last; clear h; (try simp only [hgg, gaves, works, pasts, Function.update_apply] at h1 ⊢); grind
  · simp only [hout]; have h1 := h.past; clear h; (try simp only [hgg, gaves, works, pasts, Function.update_apply] at h1 ⊢); grind
  · have h1 := h.test; clear h; (try simp only [hgg, gaves, works, pasts, Function.update_apply] at h1 ⊢); grind
  · simp only [hou]; have h1 := h.drain; clear h; (try simp only [hgg, gaves, works, pasts, Function.update_apply] at h1 ⊢); grind
  · have h1 := h.used; clear h; (try simp only [hgg, gaves, works, pasts, Function.update_apply] at h1 ⊢); grind
  · simp only [hout]; have h1 := h.own; clear h; (try simp only [hgg, gaves, works, pasts, Function.update_apply] at h1 ⊢); grind
  · have h1 := h.hasN; clear h; (try simp only [hgg, gaves, works, pasts, Function.update_apply] at h1 ⊢); grind
  · simp only [hout]; have h1 := h.owned; clear h; (try simp only [hgg, gaves, works, pasts, Function.update_apply] at h1 ⊢); grind
  · simp only [hout]; have h1 := h.outN; clear h; (try simp only [hgg, gaves, works, pasts, Function.update_apply] at h1 ⊢); grind

/-- The thread is done. -/
theorem J.gcTest (h : J c) {a o : Nat} {r : List Nat} (hg : c.gc = .test a o r) (he : c.req o = c.enq o) :
    J { c with gc := .drain o none r } := by
  have hout : ({ c with gc := .drain o none r } : C).out = c.out := by
    simp [C.out, gcSet, hg]
  have hou : ∀ o', ({ c with gc := .drain o none r } : C).outs o' = c.outs o' := by
    intro o'; unfold C.outs; rw [hout]
  have hfin := h.test a o r hg
  have hpast := h.past a (by rw [hg]; rfl)
  have hc := h.count o
  have hl : c.pc o = .queued .fin3 ∨ c.pc o = .dead → c.outs o = [] := by
    intro hp
    rcases h.last o a hfin hp with h1 | h1
    · exact h1
    · exact absurd (List.mem_filter.1 (List.mem_of_getLast? h1)).1 hpast.2.1
  have hdone : c.pc o = .dead ∧ c.outs o = [] := by
    rcases h.fin o a hfin with e | e | e
    · exact absurd (by rw [e]; rfl) (hpast.2.2 o)
    · have h1 := hl (.inl e)
      rw [h1, e, he, hg] at hc
      simp [isQ, gaves] at hc
    · exact ⟨e, hl (.inr e)⟩
  fields
  · simp only [hou]; have h1 := h.count; clear h; (try simp only [hg, gaves, works, pasts, Function.update_apply] at h1 ⊢); grind
  · have h1 := h.on; clear h; (try simp only [hg, gaves, works, pasts, Function.update_apply] at h1 ⊢); grind
  · have h1 := h.wf; clear h; (try simp only [hg, gaves, works, pasts, Function.update_apply] at h1 ⊢); grind
  · have h1 := h.ending; clear h; (try simp only [hg, gaves, works, pasts, Function.update_apply] at h1 ⊢); grind
  · have h1 := h.reg; clear h; (try simp only [hg, gaves, works, pasts, Function.update_apply] at h1 ⊢); grind
  · have h1 := h.new; clear h; (try simp only [hg, gaves, works, pasts, Function.update_apply] at h1 ⊢); grind
  · have h1 := h.dead; clear h; (try simp only [hg, gaves, works, pasts, Function.update_apply] at h1 ⊢); grind
  · have h1 := h.alive; clear h; (try simp only [hg, gaves, works, pasts, Function.update_apply] at h1 ⊢); grind
  · simp only [hou]; have h1 := h.alive2; clear h; (try simp only [hg, gaves, works, pasts, Function.update_apply] at h1 ⊢); grind
  · have h1 := h.req; clear h; (try simp only [hg, gaves, works, pasts, Function.update_apply] at h1 ⊢); grind
  · have h1 := h.fin; clear h; (try simp only [hg, gaves, works, pasts, Function.update_apply] at h1 ⊢); grind
  · simp only [hou]; have h1 := h.last; clear h; (try simp only [hg, gaves, works, pasts, Function.update_apply] at h1 ⊢); grind
  · simp only [hout]; have h1 := h.past; clear h; (try simp only [hg, gaves, works, pasts, Function.update_apply] at h1 ⊢); grind
  · have h1 := h.test; clear h; (try simp only [hg, gaves, works, pasts, Function.update_apply] at h1 ⊢); grind
  · simp only [hou]; have h1 := h.drain; clear h; (try simp only [hg, gaves, works, pasts, Function.update_apply] at h1 ⊢); grind
  · have h1 := h.used; clear h; (try simp only [hg, gaves, works, pasts, Function.update_apply] at h1 ⊢); grind
  · simp only [hout]; have h1 := h.own; clear h; (try simp only [hg, gaves, works, pasts, Function.update_apply] at h1 ⊢); grind
  · have h1 := h.hasN; clear h; (try simp only [hg, gaves, works, pasts, Function.update_apply] at h1 ⊢); grind
  · simp only [hout]; have h1 := h.owned; clear h; (try simp only [hg, gaves, works, pasts, Function.update_apply] at h1 ⊢); grind
  · simp only [hout]; have h1 := h.outN; clear h; (try simp only [hg, gaves, works, pasts, Function.update_apply] at h1 ⊢); grind

/-- A list more or less. -/
theorem J.gcDrain (h : J c) {o : Nat} {x y : Option Nat} {r : List Nat} (hg : c.gc = .drain o x r) :
    J { c with gc := .drain o y r } := by
  have hout : ({ c with gc := .drain o y r } : C).out = c.out := by
    simp [C.out, gcSet, hg]
  have hou : ∀ o', ({ c with gc := .drain o y r } : C).outs o' = c.outs o' := by
    intro o'; unfold C.outs; rw [hout]
  fields
  · simp only [hou]; have h1 := h.count; clear h; (try simp only [hg, gaves, works, pasts, Function.update_apply] at h1 ⊢); grind
  · have h1 := h.on; clear h; (try simp only [hg, gaves, works, pasts, Function.update_apply] at h1 ⊢); grind
  · have h1 := h.wf; clear h; (try simp only [hg, gaves, works, pasts, Function.update_apply] at h1 ⊢); grind
  · have h1 := h.ending; clear h; (try simp only [hg, gaves, works, pasts, Function.update_apply] at h1 ⊢); grind
  · have h1 := h.reg; clear h; (try simp only [hg, gaves, works, pasts, Function.update_apply] at h1 ⊢); grind
  · have h1 := h.new; clear h; (try simp only [hg, gaves, works, pasts, Function.update_apply] at h1 ⊢); grind
  · have h1 := h.dead; clear h; (try simp only [hg, gaves, works, pasts, Function.update_apply] at h1 ⊢); grind
  · have h1 := h.alive; clear h; (try simp only [hg, gaves, works, pasts, Function.update_apply] at h1 ⊢); grind
  · simp only [hou]; have h1 := h.alive2; clear h; (try simp only [hg, gaves, works, pasts, Function.update_apply] at h1 ⊢); grind
  · have h1 := h.req; clear h; (try simp only [hg, gaves, works, pasts, Function.update_apply] at h1 ⊢); grind
  · have h1 := h.fin; clear h; (try simp only [hg, gaves, works, pasts, Function.update_apply] at h1 ⊢); grind
  · simp only [hou]; have h1 := h.last; clear h; (try simp only [hg, gaves, works, pasts, Function.update_apply] at h1 ⊢); grind
  · simp only [hout]; have h1 := h.past; clear h; (try simp only [hg, gaves, works, pasts, Function.update_apply] at h1 ⊢); grind
  · have h1 := h.test; clear h; (try simp only [hg, gaves, works, pasts, Function.update_apply] at h1 ⊢); grind
  · simp only [hou]; have h1 := h.drain; clear h; (try simp only [hg, gaves, works, pasts, Function.update_apply] at h1 ⊢); grind
  · have h1 := h.used; clear h; (try simp only [hg, gaves, works, pasts, Function.update_apply] at h1 ⊢); grind
  · simp only [hout]; have h1 := h.own; clear h; (try simp only [hg, gaves, works, pasts, Function.update_apply] at h1 ⊢); grind
  · have h1 := h.hasN; clear h; (try simp only [hg, gaves, works, pasts, Function.update_apply] at h1 ⊢); grind
  · simp only [hout]; have h1 := h.owned; clear h; (try simp only [hg, gaves, works, pasts, Function.update_apply] at h1 ⊢); grind
  · simp only [hout]; have h1 := h.outN; clear h; (try simp only [hg, gaves, works, pasts, Function.update_apply] at h1 ⊢); grind

/-- The return queue is freed. -/
theorem J.gcEnd (h : J c) {o : Nat} {x : Option Nat} {r : List Nat} (hg : c.gc = .drain o x r) :
    J { c with gc := .give r, alive := Function.update c.alive o false } := by
  have hout : ({ c with gc := .give r, alive := Function.update c.alive o false } : C).out = c.out := by
    simp [C.out, gcSet, hg]
  have hou : ∀ o', ({ c with gc := .give r, alive := Function.update c.alive o false } : C).outs o' = c.outs o' := by
    intro o'; unfold C.outs; rw [hout]
  have hdr := h.drain o x r hg
  have hdd := h.dead o hdr.1
  fields
  · simp only [hou]; have h1 := h.count; clear h; (try simp only [hg, gaves, works, pasts, Function.update_apply] at h1 ⊢); grind
  · have h1 := h.on; clear h; (try simp only [hg, gaves, works, pasts, Function.update_apply] at h1 ⊢); grind
  · have h1 := h.wf; clear h; (try simp only [hg, gaves, works, pasts, Function.update_apply] at h1 ⊢); grind
  · have h1 := h.ending; clear h; (try simp only [hg, gaves, works, pasts, Function.update_apply] at h1 ⊢); grind
  · have h1 := h.reg; clear h; (try simp only [hg, gaves, works, pasts, Function.update_apply] at h1 ⊢); grind
  · have h1 := h.new; clear h; (try simp only [hg, gaves, works, pasts, Function.update_apply] at h1 ⊢); grind
  · have h1 := h.dead; clear h; (try simp only [hg, gaves, works, pasts, Function.update_apply] at h1 ⊢); grind
  · have h1 := h.alive; clear h; (try simp only [hg, gaves, works, pasts, Function.update_apply] at h1 ⊢); grind
  · simp only [hou]; have h1 := h.alive2; clear h; (try simp only [hg, gaves, works, pasts, Function.update_apply] at h1 ⊢); grind
  · have h1 := h.req; clear h; (try simp only [hg, gaves, works, pasts, Function.update_apply] at h1 ⊢); grind
  · have h1 := h.fin; clear h; (try simp only [hg, gaves, works, pasts, Function.update_apply] at h1 ⊢); grind
  · simp only [hou]; have h1 := h.last; clear h; (try simp only [hg, gaves, works, pasts, Function.update_apply] at h1 ⊢); grind
  · simp only [hout]; have h1 := h.past; clear h; (try simp only [hg, gaves, works, pasts, Function.update_apply] at h1 ⊢); grind
  · have h1 := h.test; clear h; (try simp only [hg, gaves, works, pasts, Function.update_apply] at h1 ⊢); grind
  · simp only [hou]; have h1 := h.drain; clear h; (try simp only [hg, gaves, works, pasts, Function.update_apply] at h1 ⊢); grind
  · have h1 := h.used; clear h; (try simp only [hg, gaves, works, pasts, Function.update_apply] at h1 ⊢); grind
  · simp only [hout]; have h1 := h.own; clear h; (try simp only [hg, gaves, works, pasts, Function.update_apply] at h1 ⊢); grind
  · have h1 := h.hasN; clear h; (try simp only [hg, gaves, works, pasts, Function.update_apply] at h1 ⊢); grind
  · simp only [hout]; have h1 := h.owned; clear h; (try simp only [hg, gaves, works, pasts, Function.update_apply] at h1 ⊢); grind
  · simp only [hout]; have h1 := h.outN; clear h; (try simp only [hg, gaves, works, pasts, Function.update_apply] at h1 ⊢); grind

end Mtev.Smr
