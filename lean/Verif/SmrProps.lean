import Verif.SmrProg

/-!
C81-C84: safe memory reclamation. The application reads blocks inside critical sections, replaces them
and hands the old ones to `mtev_memory_safe_free`; their cleanup must wait for the readers.
-/

namespace Mtev.Smr

/-! ### C81 -/

/-- A reader is safe: as long as a coroutine of a thread is inside the section in which it obtained block
`b`, the cleanup of `b` has not run, whatever any thread or the collector has done in between. -/
theorem C81_readers_partial {cfg : Conf} (he : cfg.early = false) {es : List Ev} {s : St}
    (hs : run cfg {} es = .ok s) (t k b : Nat) (hb : b ∈ (s.th t).hold k) : s.mem b ≠ .freed := by
  obtain ⟨⟨loc, pos, h⟩, _⟩ := reach_inv he hs
  intro hf
  obtain ⟨q, _, hq⟩ := h.freed b hf t k hb
  cases hq

/-- What a history shows, for examples. -/
def obs (r : Out St) (f : St → Bool) : Bool :=
  match r with
  | .ok s => f s
  | _ => false

/-- Thread 1 reads block 1 in a coroutine's section, yields, frees the block from the main stack, calls
for a barrier and waits; after the coroutine has ended its section the block is cleaned up. -/
def reading : List Ev := [.init 1, .alloc 1 1, .resume 1 5, .begin 1, .acq 1 1, .yield 1, .free 1 1, .init 2,
  .alloc 2 2, .free 2 2, .maint 2 .barrier, .go 2 0 [], .go 2 0 [], .go 2 0 []]

example : obs (run ⟨false, false⟩ {} reading) (fun s => (s.th 1).hold 5 == [1] && s.mem 1 == .retired &&
    s.mem 2 == .retired) = true := by decide +kernel

example : obs (run ⟨false, false⟩ {} (reading ++ [.resume 1 5, .end_ 1, .go 2 0 [], .go 2 0 [], .old 1 true, .go 1 0 [], .go 1 0 []]))
    (fun s => s.log == [2, 1]) = true := by decide +kernel

/-! ### C82 -/

/-- Whatever application and threads do (within the rules of Smr.lean), no step of the library uses freed
memory, follows a null section or fails an assertion, except that of a block freed twice. -/
theorem C82_defined_partial {cfg : Conf} (he : cfg.early = false) (hr : cfg.reuse = false) (es : List Ev) :
    (∃ s, run cfg {} es = .ok s) ∨ (run cfg {} es = .abort ∧
      ∃ es1 t b es2 s, es = es1 ++ .free t b :: es2 ∧ run cfg {} es1 = .ok s ∧ s.mem b = .retired) := by
  suffices H : ∀ s, Good s → (∃ s', run cfg s es = .ok s') ∨ (run cfg s es = .abort ∧
      ∃ es1 t b es2 s', es = es1 ++ .free t b :: es2 ∧ run cfg s es1 = .ok s' ∧ s'.mem b = .retired) from H {} good_start
  induction es with
  | nil => exact fun s _ => .inl ⟨s, rfl⟩
  | cons e es ih =>
    intro s g
    rcases step_good he hr g e with ⟨s1, h1, g1⟩ | ⟨h1, t, b, rfl, _, hb⟩
    · have hrun : ∀ l, run cfg s (e :: l) = run cfg s1 l := by
        intro l; show (step cfg s e).bind _ = _; rw [h1]; rfl
      rcases ih s1 g1 with ⟨s2, h2⟩ | ⟨h2, es1, t, b, es2, s2, rfl, h3, h4⟩
      · exact .inl ⟨s2, by rw [hrun]; exact h2⟩
      · exact .inr ⟨by rw [hrun]; exact h2, e :: es1, t, b, es2, s2, rfl, by rw [hrun]; exact h3, h4⟩
    · refine .inr ⟨?_, [], t, b, es, s, rfl, rfl, hb⟩
      show (step cfg s _).bind _ = _; rw [h1]; rfl

example : obs (run ⟨false, false⟩ {} [.init 1, .alloc 1 1, .free 1 1, .free 1 1]) (fun _ => true) = false := by decide +kernel

/-- The address of a list freed by its owner is given by `malloc` to the owner's last list; the collector
takes it for the last list, finds all lists returned, and frees the queue its owner is about to use. -/
def reused : List Ev := [.init 1, .gcOn, .alloc 1 1, .free 1 1, .maint 1 .asynch, .go 1 0 [], .go 1 7 [], .go 1 0 [],
  .go 1 0 [], .go 1 0 [], .gc 1, .gc 1, .gc 1, .gc 1,
  .fini 1, .go 1 0 [], .go 1 0 [], .go 1 0 [], .go 1 0 [], .go 1 0 [], .go 1 7 [], .go 1 0 [],
  .gc 1, .gc 1, .gc 1, .go 1 0 [], .go 1 0 []]

def isUb : Out St → Bool
  | .ub => true
  | _ => false

theorem ub_of (r : Out St) (h : isUb r = true) : r = .ub := by cases r <;> simp_all [isUb]

theorem C82_address_reuse_violated : run ⟨false, true⟩ {} reused = .ub := ub_of _ (by decide +kernel)

/-- A coroutine that is the first to use the library on its thread leaves the thread without a section. -/
theorem C82_first_use_in_coroutine_violated :
    run ⟨true, false⟩ {} [.init 1, .resume 1 5, .begin 1, .end_ 1, .yield 1, .begin 1] = .ub := ub_of _ (by decide +kernel)

/-! ### C83 -/

/-- Every cleanup is run at most once, and only for a block somebody has handed over. -/
theorem C83_once {cfg : Conf} {es : List Ev} {s : St} (hs : run cfg {} es = .ok s) :
    s.log.Nodup ∧ ∀ b ∈ s.log, ∃ t, .free t b ∈ es := by
  have h := run_acc acc_start hs
  exact ⟨h.nodup, fun b hb => by simpa using h.asked b (.inr ((h.log b).1 hb))⟩

/-- Handing over a block again before its cleanup is caught. -/
theorem C83_double_free {cfg : Conf} {es : List Ev} {s : St} (hs : run cfg {} es = .ok s) {t b : Nat}
    (ha : appl s t = true) (hm : s.mem b = .retired) :
    (∃ u, .free u b ∈ es) ∧ b ∉ s.log ∧ run cfg {} (es ++ [.free t b]) = .abort := by
  have h := run_acc acc_start hs
  refine ⟨by simpa using h.asked b (.inl hm), ?_, ?_⟩
  · intro hl
    rw [(h.log b).1 hl] at hm
    cases hm
  have h1 : step cfg s (.free t b) = .abort := by
    simp only [step, ha, if_true, safeFree]
    have : (initEpoch s t).mem b = .retired := by unfold initEpoch; split <;> exact hm
    simp only [this]
  have : ∀ (es : List Ev) (s0 : St), run cfg s0 es = .ok s → run cfg s0 (es ++ [.free t b]) = .abort := by
    intro es
    induction es with
    | nil => intro s0 h0; cases h0; show (step cfg s _).bind _ = _; rw [h1]; rfl
    | cons e es ih =>
      intro s0 h0
      obtain ⟨s1, h2, h3⟩ := run_cons h0
      show (step cfg s0 e).bind _ = _
      rw [h2]; exact ih s1 h3
  exact this es {} hs

example : obs (run ⟨false, false⟩ {} [.init 1, .alloc 1 1, .free 1 1]) (fun s => appl s 1 && s.mem 1 == .retired &&
  s.log == []) = true := by decide +kernel

/-- As long as no thread has ended, no block handed over is forgotten: it waits at a thread or in a list,
or its cleanup has been run. -/
theorem C83_kept_partial {cfg : Conf} {es : List Ev} {s : St} (hs : run cfg {} es = .ok s)
    (hd : ∀ t, (s.th t).pc ≠ .dead) (b : Nat) (hb : s.mem b = .retired ∨ s.mem b = .freed) : Listed s b ∨ b ∈ s.log := by
  have h := run_acc acc_start hs
  rcases hb with hb | hb
  · rcases h.kept b hb with h1 | ⟨t, ht⟩
    · exact .inl h1
    · exact absurd ht (hd t)
  · exact .inr ((h.log b).2 hb)

/-- A thread that ends inside a section (without the collector) forgets its blocks: `begin_end > 1` in
`mtev_memory_fini_thread` (mtev_memory.c:184) misses the section that is open once. -/
def openEnd : List Ev := [.init 1, .begin 1, .alloc 1 1, .free 1 1, .fini 1, .go 1 0 [], .go 1 0 [], .go 1 0 []]

/-- No list is in use, and no thread has anything but those of `ts`. -/
theorem not_listed {s : St} {b : Nat} (h1 : ∀ t, (s.th t).pend = [] ∧ dispOf (s.th t).pc = []) (h2 : ∀ a, s.ars a = none) :
    ¬ Listed s b := by
  rintro (⟨t, ⟨e, he, _⟩ | h⟩ | ⟨a, x, hx, _⟩)
  · rw [(h1 t).1] at he; cases he
  · rw [(h1 t).2] at h; cases h
  · rw [h2 a] at hx; cases hx

theorem C83_open_section_violated : ∃ es s, run ⟨false, false⟩ {} es = .ok s ∧ .free 1 1 ∈ es ∧ (s.th 1).pc = .dead ∧
    ∀ fs s', run ⟨false, false⟩ s fs = .ok s' → 1 ∉ s'.log := by
  have hex : ∃ s, run ⟨false, false⟩ {} openEnd = .ok s ∧ (s.th 1).pc = .dead ∧ s.mem 1 = .retired ∧ ¬ Listed s 1 := by
    refine ⟨_, rfl, rfl, rfl, not_listed ?_ (fun a => rfl)⟩
    intro t
    by_cases h : t = 1
    · subst h; exact ⟨rfl, rfl⟩
    · constructor <;> simp [initEpoch, openSec, noteBegin, memBegin, leave, finish, decideOn, St.setT, St.setPc, St.setG, Function.update_apply, h, dispOf]
  obtain ⟨s, h1, h2, h3, h4⟩ := hex
  refine ⟨openEnd, s, h1, by decide, h2, ?_⟩
  intro fs s' hs hl
  have h5 := run_lost h3 h4 hs
  have h6 := (run_acc (run_acc acc_start h1) hs).log 1
  rw [h6.1 hl] at h5; cases h5

/-- The collector comes to the thread's last list between its being queued and its being counted, and
takes it for granted that others are on their way: the queue is never drained. -/
def handshake : List Ev := [.init 1, .gcOn, .init 2, .begin 2, .alloc 1 1, .free 1 1, .maint 1 .poll, .go 1 0 [], .go 1 0 [], .go 1 0 [],
  .end_ 2, .fini 1, .go 1 0 [], .go 1 0 [], .go 1 7 [], .go 1 0 [], .go 1 0 [],
  .gc 1, .gc 1, .gc 1, .gc 1, .gc 1, .gc 1, .gc 1, .go 1 0 []]

theorem C83_handshake_violated : ∃ es s, run ⟨false, false⟩ {} es = .ok s ∧ .free 1 1 ∈ es ∧ (s.th 1).pc = .dead ∧
    ∀ fs s', run ⟨false, false⟩ s fs = .ok s' → 1 ∉ s'.log := by
  have hex : ∃ s, run ⟨false, false⟩ {} handshake = .ok s ∧ Stuck 1 7 1 s := by
    have : ∃ s, run ⟨false, false⟩ {} handshake = .ok s ∧ ((s.th 1).pc = .dead ∧ (s.grs 1).enq = (s.grs 1).req ∧ s.gc = .idle ∧
        (s.grs 1).queue = [7] ∧ s.ars 7 = some ⟨1, [1]⟩) := ⟨_, rfl, rfl, rfl, rfl, rfl, rfl⟩
    obtain ⟨s, h1, h2, h3, h4, h5, h6⟩ := this
    exact ⟨s, h1, h2, h3, by rw [h4]; simp [works], by rw [h5]; simp, _, h6, by simp⟩
  obtain ⟨s, h1, h2⟩ := hex
  refine ⟨handshake, s, h1, by decide, h2.pc, ?_⟩
  intro fs s' hs hl
  obtain ⟨g, h3⟩ := run_stuck rfl rfl (run_good rfl rfl good_start h1) h2 hs
  have h5 := h3.retired g
  have h6 := (run_acc (run_acc acc_start h1) hs).log 1
  rw [h6.1 hl] at h5; cases h5

/-! ### C84 -/

/-- A barrier while no section is open cleans up everything the thread has handed over since the last
maintenance, and everything the collector has given back to it. -/
theorem C84_barrier_partial {cfg : Conf} (he : cfg.early = false) (hr : cfg.reuse = false) {es : List Ev} {s : St}
    (hs : run cfg {} es = .ok s) {t : Nat} (h : Ready s t) (hn : (s.th t).needs % 2 = 1) (ha : (s.th t).active = 0)
    (ho : s.opens = []) :
    ∃ n s', run cfg s (.maint t .barrier :: goes t n) = .ok s' ∧ (s'.th t).pc = .user ∧
      (∀ e ∈ (s.th t).pend, e.1 ∈ s'.log) ∧
      (∀ a ∈ (s.grs t).queue, ∀ x, s.ars a = some x → ∀ b ∈ x.blks, b ∈ s'.log) := by
  obtain ⟨n, s', h1, h2, h3, h4⟩ := barrier_all he hr (run_good he hr good_start hs) h hn ha ho
  have hl := (run_acc (run_acc acc_start hs) h1).log
  exact ⟨n, s', h1, h2, fun e hm => (hl _).2 (h3 e hm), fun a haq x hx b hb => (hl _).2 (h4 a haq x hx b hb)⟩

/-- With the collector running and no section open, asynchronous maintenance, the collector's work and the
next maintenance clean up everything the thread had handed over. -/
theorem C84_asynch_partial {cfg : Conf} (he : cfg.early = false) (hr : cfg.reuse = false) {es : List Ev} {s : St}
    (hs : run cfg {} es = .ok s) {t : Nat} (h : Ready s t) (hn : (s.th t).needs % 2 = 1) (has : s.asynch = true)
    (ho : s.opens = []) (hg : s.gc = .idle) :
    ∃ a n1 n2 n3 s', run cfg s (.maint t .asynch :: goes t n1 ++ .go t a [] :: goes t 3 ++ gcs n2 ++ .maint t .asynch :: goes t n3) =
      .ok s' ∧ ∀ e ∈ (s.th t).pend, e.1 ∈ s'.log := by
  obtain ⟨a, n1, n2, n3, s', h1, h2⟩ := asynch_all he hr (run_good he hr good_start hs) h hn has ho hg
  have hl := (run_acc (run_acc acc_start hs) h1).log
  exact ⟨a, n1, n2, n3, s', h1, fun e hm => (hl _).2 (h2 e hm)⟩

/-- Whenever a thread does maintenance of any kind, everything the collector has given back to it is
cleaned up. -/
theorem C84_returned {cfg : Conf} (he : cfg.early = false) (hr : cfg.reuse = false) {es : List Ev} {s : St}
    (hs : run cfg {} es = .ok s) {t : Nat} (h : Ready s t) (m : Meth) :
    ∃ n s', run cfg s (.maint t m :: goes t n) = .ok s' ∧ (s'.grs t).queue = [] ∧
      (∀ a ∈ (s.grs t).queue, ∀ x, s.ars a = some x → ∀ b ∈ x.blks, b ∈ s'.log) := by
  obtain ⟨n, s', h1, _, _, _, h5, _, h7⟩ := maint_back he hr (run_good he hr good_start hs) h m
  have hl := (run_acc (run_acc acc_start hs) h1).log
  exact ⟨n, s', h1, h5, fun a haq x hx b hb => (hl _).2 (h7 a haq x hx b hb)⟩

/-- Three blocks handed over; the first is on its way, the others are pending. -/
def working : List Ev := [.init 1, .gcOn, .alloc 1 1, .alloc 1 2, .alloc 1 3, .free 1 1, .maint 1 .asynch, .go 1 0 [], .go 1 7 [], .go 1 0 [],
  .go 1 0 [], .go 1 0 [], .gc 1, .gc 1, .gc 1, .gc 1, .gc 1, .gc 1, .free 1 2, .free 1 3]

example : obs (run ⟨false, false⟩ {} working) (fun s => (s.th 1).ret && (s.th 1).pc == .user && (s.th 1).reg && (s.th 1).needs % 2 == 1 &&
    (s.th 1).active == 0 && s.opens == [] && s.asynch && s.gc == .idle && (s.th 1).pend.map (·.1) == [2, 3] && (s.grs 1).queue == [7] &&
    s.log == []) = true := by decide +kernel

example : obs (run ⟨false, false⟩ {} (working ++ .maint 1 .barrier :: goes 1 10)) (fun s => s.log == [1, 2, 3]) = true := by decide +kernel

/-- `mtev_memory_maintenance_ex` clears the bit before it tries: if the attempt fails because somebody is
reading, nothing short of another `mtev_memory_safe_free` by the same thread, or its end, will make any
maintenance try again. -/
def tried : List Ev := [.init 1, .init 2, .begin 2, .alloc 1 1, .free 1 1, .maint 1 .poll, .go 1 0 [], .go 1 0 [1], .go 1 0 [], .end_ 2]

theorem C84_try_violated : ∃ es s, run ⟨false, false⟩ {} es = .ok s ∧ .free 1 1 ∈ es ∧ s.opens = [] ∧
    ∀ fs s', (∀ e ∈ fs, (∀ b, e ≠ .free 1 b) ∧ e ≠ .fini 1) → run ⟨false, false⟩ s fs = .ok s' → 1 ∉ s'.log := by
  have hex : ∃ s, run ⟨false, false⟩ {} tried = .ok s ∧ s.opens = [] ∧ Stay 1 1 s := by
    refine ⟨_, rfl, rfl, ⟨(1, [0]), ?_, rfl⟩, fun _ => rfl, .inl rfl⟩
    decide +kernel
  obtain ⟨s, h1, h2, h3⟩ := hex
  refine ⟨tried, s, h1, by decide, h2, ?_⟩
  intro fs s' hfs hs hl
  have hw : ∀ e ∈ fs, wakes 1 e = false := by
    intro e hm
    obtain ⟨a, b⟩ := hfs e hm
    cases e <;> simp only [wakes]
    · rename_i t x
      by_cases ht : t = 1
      · subst ht; exact absurd rfl (a x)
      · simp [ht]
    · rename_i t
      by_cases ht : t = 1
      · subst ht; exact absurd rfl b
      · simp [ht]
  obtain ⟨⟨loc, pos, hi⟩, _⟩ := run_inv (cfg := ⟨false, false⟩) rfl (reach_inv rfl h1).1 (reach_inv rfl h1).2 hs
  have h5 := hi.stay (run_stay h3 hw hs)
  have h6 := (run_acc (run_acc acc_start h1) hs).log 1
  rw [h6.1 hl] at h5; cases h5

/-- What a cleanup function hands over on the collector's thread is never cleaned up: the collector does
no maintenance of its own. -/
def collected : List Ev := [.init 1, .gcOn, .alloc 1 1, .alloc 1 2, .free 1 1, .fini 1, .go 1 0 [], .go 1 7 [], .go 1 0 [], .go 1 0 [],
  .go 1 0 [], .go 1 0 [], .go 1 8 [], .go 1 0 [], .go 1 0 [], .go 1 0 [],
  .gc 2, .gc 0, .gc 0, .gc 0, .gc 0, .gc 0, .gc 0, .gc 0, .gc 0, .gc 0, .free 0 2]

theorem C84_collector_violated : ∃ es s, run ⟨false, false⟩ {} es = .ok s ∧ .free 0 2 ∈ es ∧
    ∀ fs s', run ⟨false, false⟩ s fs = .ok s' → 2 ∉ s'.log := by
  have hex : ∃ s, run ⟨false, false⟩ {} collected = .ok s ∧ Stay 0 2 s := by
    refine ⟨_, rfl, ⟨(2, []), ?_, rfl⟩, fun h => absurd rfl h, .inl rfl⟩
    decide +kernel
  obtain ⟨s, h1, h3⟩ := hex
  refine ⟨collected, s, h1, by decide, ?_⟩
  intro fs s' hs hl
  obtain ⟨⟨loc, pos, hi⟩, z⟩ := reach_inv (cfg := ⟨false, false⟩) rfl h1
  have key : ∀ (fs : List Ev) (u : St), Stay 0 2 u → run ⟨false, false⟩ u fs = .ok s' → Stay 0 2 s' := by
    intro fs
    induction fs with
    | nil => intro u hu h; cases h; exact hu
    | cons e fs ih =>
      intro u hu h
      obtain ⟨u1, h4, h5⟩ := run_cons h
      refine ih u1 ?_ h5
      cases hw : wakes 0 e with
      | false => exact hu.step hw h4
      | true =>
        cases e <;> simp only [wakes, Bool.false_eq_true] at hw
        · simp at hw
        · rename_i t
          have : t = 0 := by simpa using hw
          subst this
          simp only [step, ne_eq, not_true_eq_false, false_and, if_false] at h4
          cases h4; exact hu
  obtain ⟨⟨loc, pos, hi⟩, _⟩ := run_inv (cfg := ⟨false, false⟩) rfl ⟨loc, pos, hi⟩ z hs
  have h5 := hi.stay (key fs s h3 hs)
  have h6 := (run_acc (run_acc acc_start h1) hs).log 2
  rw [h6.1 hl] at h5; cases h5

end Mtev.Smr
