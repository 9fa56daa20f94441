import Verif.Flow

/-!
C22: the flow regulator under arbitrary concurrency.  `create n low high` is a
new regulator with `n` clients, `run s h` the state after the history `h` of
client actions, for every interleaving `h`.
-/
namespace Mtev.Flow

/-! ### Specification -/

/-- The `k`-th toggle event (counting from 0) of a well-behaved regulator:
DISABLE handed out, DISABLE acknowledged, ENABLE handed out, ENABLE
acknowledged, and over again. -/
def expected {n : Nat} (k : Nat) (i : Fin n) : Ev n :=
  if k % 4 = 0 then .issue i .disable
  else if k % 4 = 1 then .ack i .disable
  else if k % 4 = 2 then .issue i .enable
  else .ack i .enable

/-- Nobody is inside a call and nobody still owes an acknowledgement. -/
def Quiescent {n : Nat} (s : St n) : Prop := ∀ i, free (s.pc i) = true

/-- Client `i` has been handed a toggle that it has not acknowledged. -/
def Owes {n : Nat} (s : St n) (i : Fin n) : Prop :=
  s.pc i = .idle (.tog .disable) ∨ s.pc i = .idle (.tog .enable) ∨
  (∃ m, s.pc i = .ackD m) ∨ (∃ m, s.pc i = .ackE m)

/-! ### Theorems -/

/-- C22: the work counter is exactly the work reported as accepted minus the
work released, and never exceeds the high limit, at every moment of every
interleaving. -/
theorem C22_counter_exact {n low high : Nat} {s0 : St n} (hw : high < 2 ^ 32)
    (hc : create n low high = some s0) (h : List (Fin n × Act)) :
    (run s0 h).cur + (run s0 h).rel = ∑ i, (run s0 h).yes i ∧ (run s0 h).cur ≤ (run s0 h).high := by
  have hi := inv_run h (inv_create hw hc)
  refine ⟨?_, hi.bound⟩
  rw [← hi.count]
  exact Finset.sum_congr rfl fun j _ => hi.match_ j

/-- C22: a client is told that its work item was accepted (KEEP from
`raise_one`, true from `stable_try_raise_one`) exactly as often as it took a
slot of the counter: no slot is leaked, none is promised twice. -/
theorem C22_accept_iff_reserved {n low high : Nat} {s0 : St n} (hw : high < 2 ^ 32)
    (hc : create n low high = some s0) (h : List (Fin n × Act)) (i : Fin n) :
    (run s0 h).yes i = (run s0 h).got i :=
  ((inv_run h (inv_create hw hc)).match_ i).symm

/-- C22: no assertion of the regulator fails as long as clients release only
work that was accepted and acknowledge what they were handed. -/
theorem C22_no_abort {n low high : Nat} {s0 : St n} (hw : high < 2 ^ 32)
    (hc : create n low high = some s0) (h : List (Fin n × Act)) (i : Fin n) :
    (run s0 h).pc i ≠ .crash := by
  intro e
  have := (inv_run h (inv_create hw hc)).wf i
  rw [e] at this
  cases this

/-- C22: DISABLE and ENABLE strictly alternate, each is acknowledged before the
next one is handed out, and it is acknowledged by the client it was given to. -/
theorem C22_toggles_alternate {n low high : Nat} {s0 : St n} (hw : high < 2 ^ 32)
    (hc : create n low high = some s0) (h : List (Fin n × Act)) :
    (∀ k (hk : k < (run s0 h).evs.length), ∃ i, (run s0 h).evs[k] = expected k i) ∧
    (∀ k i (hk : 2 * k + 1 < (run s0 h).evs.length),
      (run s0 h).evs[2 * k] = expected (2 * k) i →
      (run s0 h).evs[2 * k + 1] = expected (2 * k + 1) i) := by
  have hi := inv_run h (inv_create hw hc)
  have key : ∀ k (hk : k < (run s0 h).evs.length),
      (run s0 h).evs[k] = expected k (who (run s0 h).evs[k]) := by
    intro k hk
    have h1 := hi.kinds k hk
    generalize (run s0 h).evs[k] = e at h1
    have h4 : k % 4 < 4 := Nat.mod_lt _ (by omega)
    unfold expected
    generalize k % 4 = r at h1 h4
    have : r = 0 ∨ r = 1 ∨ r = 2 ∨ r = 3 := by omega
    rcases this with rfl | rfl | rfl | rfl <;> cases e <;> rename_i x t <;> cases t <;>
      simp [kindOk, who] at h1 ⊢
  refine ⟨fun k hk => ⟨_, key k hk⟩, ?_⟩
  intro k i hk he
  have h2 := hi.pairs (2 * k) hk (by omega)
  rw [key (2 * k + 1) hk, h2, he]
  congr 1
  unfold expected
  split
  · rfl
  · split
    · rfl
    · split <;> rfl

/-- C22: at most one client at a time owes an acknowledgement. -/
theorem C22_single_owner {n low high : Nat} {s0 : St n} (hw : high < 2 ^ 32)
    (hc : create n low high = some s0) (h : List (Fin n × Act)) (i j : Fin n)
    (hi : Owes (run s0 h) i) (hj : Owes (run s0 h) j) : i = j := by
  have inv := inv_run h (inv_create hw hc)
  have cls : ∀ k, Owes (run s0 h) k →
      holdD ((run s0 h).pc k) = true ∨ holdE ((run s0 h).pc k) = true := by
    rintro k (e | e | ⟨m, e⟩ | ⟨m, e⟩) <;> rw [e] <;> simp [holdD, holdE]
  rcases cls i hi with a | a <;> rcases cls j hj with b | b
  · have x := ((inv.hD i).1 a).2; have y := ((inv.hD j).1 b).2
    rw [x] at y; simpa using y
  · have x := ((inv.hD i).1 a).1; have y := ((inv.hE j).1 b).1
    omega
  · have x := ((inv.hE i).1 a).1; have y := ((inv.hD j).1 b).1
    omega
  · have x := ((inv.hE i).1 a).2; have y := ((inv.hE j).1 b).2
    rw [x] at y; simpa using y

/-- C22: no lost wake-up.  If everybody is done and the last toggle was an
acknowledged DISABLE, then the counter is above the low mark, so that a later
release will hand out ENABLE; the flow is never left disabled with the work
drained. -/
theorem C22_no_lost_wakeup {n low high : Nat} {s0 : St n} (hw : high < 2 ^ 32)
    (hc : create n low high = some s0) (h : List (Fin n × Act)) (i : Fin n)
    (hq : Quiescent (run s0 h)) (hl : (run s0 h).evs.getLast? = some (.ack i .disable)) :
    (run s0 h).low < (run s0 h).cur := by
  have inv := inv_run h (inv_create hw hc)
  by_contra hcon
  have hne : (run s0 h).evs ≠ [] := by intro e; rw [e] at hl; cases hl
  have hpos : 0 < (run s0 h).evs.length := List.length_pos_of_ne_nil hne
  have hk := inv.kinds ((run s0 h).evs.length - 1) (by omega)
  have hlen := inv.len
  rw [List.getLast?_eq_getElem?, List.getElem?_eq_getElem (by omega)] at hl
  rw [Option.some.inj hl] at hk
  have h4 : ((run s0 h).evs.length - 1) % 4 < 4 := Nat.mod_lt _ (by omega)
  have : ((run s0 h).evs.length - 1) % 4 = 1 := by
    generalize ((run s0 h).evs.length - 1) % 4 = r at hk h4
    have : r = 0 ∨ r = 1 ∨ r = 2 ∨ r = 3 := by omega
    rcases this with rfl | rfl | rfl | rfl <;> simp [kindOk] at hk ⊢
  obtain ⟨j, hj⟩ := inv.wake (by omega) (by omega)
  have := (free_facts _ (hq j)).2.2.2
  rw [this] at hj; cases hj

/-- C22: what `raise_one` does when nobody interferes: it takes a slot if there
is one, otherwise it hands out DISABLE if the flow is enabled and reports
DISABLED if it is not. -/
theorem C22_raise_alone {n low high : Nat} {s0 : St n} (hw : high < 2 ^ 32)
    (hc : create n low high = some s0) (h : List (Fin n × Act)) (i : Fin n)
    (hf : free ((run s0 h).pc i) = true) :
    let s := run s0 h
    let s' := run s [(i, .raise), (i, .tick), (i, .tick)]
    (s.cur < s.high → s'.pc i = .idle (.tog .keep) ∧ s'.cur = s.cur + 1) ∧
    (s.cur = s.high → s.evs.length % 4 = 0 → s'.pc i = .idle (.tog .disable) ∧ s'.cur = s.cur ∧
      s'.evs = s.evs ++ [.issue i .disable]) ∧
    (s.cur = s.high → s.evs.length % 4 ≠ 0 → s'.pc i = .idle (.tog .disabled) ∧ s'.cur = s.cur) := by
  have inv := inv_run h (inv_create hw hc)
  have hlen := inv.len
  have hword := inv.word
  generalize run s0 h = s at *
  dsimp only
  have h1 : exec s i .raise = goto s i (.up1 .raise 1) := by simp [exec, hf]
  have hrun : run s [(i, .raise), (i, .tick), (i, .tick)] = tick (tick (goto s i (.up1 .raise 1)) i) i := by
    rw [← h1]; rfl
  rw [hrun]
  refine ⟨?_, ?_, ?_⟩
  · intro hlt
    rw [tick_up1 (s := goto s i (.up1 .raise 1)) (goto_pc _ _ _),
      if_neg (show ¬ (goto s i (.up1 .raise 1)).cur = (goto s i (.up1 .raise 1)).high from
        fun e => absurd e (Nat.ne_of_lt hlt)),
      tick_up2 (goto_pc _ _ _)]
    rw [if_pos (show (goto (goto s i (.up1 .raise 1)) i
      (.up2 .raise 1 (goto s i (.up1 .raise 1)).cur)).cur = (goto s i (.up1 .raise 1)).cur from rfl)]
    refine ⟨upd_same _ _ _, ?_⟩
    exact Nat.mod_eq_of_lt (show s.cur + 1 < 2 ^ 32 by omega)
  · intro heq hl
    have hr : s.reg = 0 := by omega
    rw [tick_up1 (s := goto s i (.up1 .raise 1)) (goto_pc _ _ _),
      if_pos (show (goto s i (.up1 .raise 1)).cur = (goto s i (.up1 .raise 1)).high from heq),
      tick_upT (goto_pc _ _ _),
      if_pos (show (goto (goto s i (.up1 .raise 1)) i (.upT .raise)).reg = 0 from hr)]
    exact ⟨upd_same _ _ _, rfl, rfl⟩
  · intro heq hl
    have hr : s.reg ≠ 0 := by omega
    rw [tick_up1 (s := goto s i (.up1 .raise 1)) (goto_pc _ _ _),
      if_pos (show (goto s i (.up1 .raise 1)).cur = (goto s i (.up1 .raise 1)).high from heq),
      tick_upT (goto_pc _ _ _),
      if_neg (show ¬ (goto (goto s i (.up1 .raise 1)) i (.upT .raise)).reg = 0 from hr)]
    exact ⟨upd_same _ _ _, rfl⟩

/-- C22: what `lower` does when nobody interferes: it releases the work, and it
hands out ENABLE exactly when the flow is disabled and the counter has come
down to the low mark. -/
theorem C22_lower_alone {n low high : Nat} {s0 : St n} (hw : high < 2 ^ 32)
    (hc : create n low high = some s0) (h : List (Fin n × Act)) (i : Fin n) (b : Nat)
    (hf : free ((run s0 h).pc i) = true) (hb : b ≤ releasable (run s0 h)) :
    let s := run s0 h
    let s' := run s [(i, .lower b), (i, .tick), (i, .tick), (i, .tick)]
    s'.cur + b = s.cur ∧
    (s'.pc i = .idle (.tog .enable) ∨ s'.pc i = .idle (.tog .keep)) ∧
    (s'.pc i = .idle (.tog .enable) ↔ s'.cur ≤ s.low ∧ s.evs.length % 4 = 2) := by
  have inv := inv_run h (inv_create hw hc)
  have hlen := inv.len
  have hle : b ≤ (run s0 h).cur := by
    have h1 := inv.count
    have h2 := inv.begun
    have h3 : (∑ j, (run s0 h).got j) = ∑ j, (run s0 h).yes j :=
      Finset.sum_congr rfl fun j _ => inv.match_ j
    unfold releasable at hb
    omega
  generalize run s0 h = s at *
  dsimp only
  have h1 : exec s i (.lower b) = goto { s with beg := s.beg + b } i (.lo1 .lower b) := by
    simp [exec, hf, hb]
  generalize hs1 : ({ s with beg := s.beg + b } : St n) = s1 at h1
  have e1 : s1.cur = s.cur := by subst hs1; rfl
  have e2 : s1.low = s.low := by subst hs1; rfl
  have e3 : s1.reg = s.reg := by subst hs1; rfl
  have hrun : run s [(i, .lower b), (i, .tick), (i, .tick), (i, .tick)] =
      tick (tick (tick (goto s1 i (.lo1 .lower b)) i) i) i := by
    rw [← h1]; rfl
  rw [hrun, tick_lo1 (s := goto s1 i (.lo1 .lower b)) (goto_pc _ _ _),
    if_pos (show b ≤ (goto s1 i (.lo1 .lower b)).cur from by rw [← e1] at hle; exact hle),
    tick_lo2 (goto_pc _ _ _)]
  rw [if_pos (show (goto (goto s1 i (.lo1 .lower b)) i
      (.lo2 .lower b (goto s1 i (.lo1 .lower b)).cur)).cur = (goto s1 i (.lo1 .lower b)).cur from rfl)]
  have e4 : (goto s1 i (.lo1 .lower b)).cur = s.cur := e1
  have e5 : (goto (goto s1 i (.lo1 .lower b)) i
      (.lo2 .lower b (goto s1 i (.lo1 .lower b)).cur)).low = s.low := e2
  rw [e5]
  by_cases hlow : s.cur - b ≤ s.low
  · rw [if_pos (by rw [e4]; exact hlow), tick_loT (goto_pc _ _ _)]
    split
    · rename_i hr'
      have hr : s.reg = 2 := e3.symm.trans hr'
      refine ⟨?_, Or.inl (upd_same _ _ _), ?_⟩
      · show s1.cur - b + b = s.cur
        omega
      · refine iff_of_true (upd_same _ _ _) ⟨?_, by omega⟩
        show s1.cur - b ≤ s.low
        omega
    · rename_i hr'
      have hr : ¬ s.reg = 2 := fun e => hr' (e3.trans e)
      refine ⟨?_, Or.inr (upd_same _ _ _), ?_⟩
      · show s1.cur - b + b = s.cur
        omega
      · refine iff_of_false ?_ (by omega)
        show ¬ upd _ i _ i = _
        rw [upd_same]; simp [ret]
  · rw [if_neg (by rw [e4]; exact hlow)]
    rw [tick_idle (s := finish _ i .lower .keep) (upd_same _ _ _)]
    refine ⟨?_, Or.inr (upd_same _ _ _), ?_⟩
    · show s1.cur - b + b = s.cur
      omega
    · refine iff_of_false ?_ ?_
      · show ¬ upd _ i _ i = _
        rw [upd_same]; simp [ret]
      · rintro ⟨h9, _⟩
        have : s1.cur - b ≤ s.low := h9
        omega

/-! ### Concrete cases -/

/-- Two clients racing on a regulator with marks 0 and 1: client 0 fills it,
client 1 is handed DISABLE, client 0 drains it before client 1 acknowledges,
and the acknowledgement hands client 1 the ENABLE. -/
def raceHistory : List (Fin 2 × Act) :=
  [(0, .raise), (0, .tick), (0, .tick),
   (1, .raise), (1, .tick), (1, .tick),
   (0, .lower 1), (0, .tick), (0, .tick), (0, .tick),
   (1, .ack), (1, .tick), (1, .tick), (1, .tick), (1, .tick)]

example : ∃ s, create 2 0 1 = some s ∧
    (run s raceHistory).evs = [.issue 1 .disable, .ack 1 .disable, .issue 1 .enable] ∧
    (run s raceHistory).pc 1 = .idle (.tog .enable) ∧ (run s raceHistory).cur = 0 :=
  ⟨_, rfl, by decide, by decide, by decide⟩

/-- A quiescent disabled regulator (hypotheses of the wake-up theorem): marks
0 and 1, one client fills it and is refused the second item. -/
example : ∃ s, create 1 0 1 = some s ∧
    Quiescent (run s ([.tryRaise, .tick, .tick, .tryRaise, .tick, .tick, .tick, .tick, .tick].map
      (fun a => ((0 : Fin 1), a)))) ∧
    (run s ([.tryRaise, .tick, .tick, .tryRaise, .tick, .tick, .tick, .tick, .tick].map
      (fun a => ((0 : Fin 1), a)))).evs.getLast? = some (.ack 0 .disable) :=
  ⟨_, rfl, by unfold Quiescent; decide, by decide⟩

end Mtev.Flow
