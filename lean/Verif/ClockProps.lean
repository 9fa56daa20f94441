import Verif.Clock
import Mathlib.Tactic.Common
import Mathlib.Tactic.Linarith

/-!
C154: the fast clock runs with the system's clock and does not go back.
-/

namespace Mtev.Clock

/-- How far a clock is from the system's at a sample. -/
def off (c : Scale) (s : Sample) : Int := nanos c s.ticks - (s.ts : Int)

/-- Is it within so many nanoseconds? -/
def near (b : Int) (c : Scale) (s : Sample) : Bool := decide (-b ≤ off c s) && decide (off c s ≤ b)

/-- **C154 (partial).** As long as a CPU's clock is not calibrated again,
its readings do not decrease.  Missing: readings before and after a
calibration (`C154_backwards_violated`) and on two CPUs
(`C154_cpus_violated`). -/
theorem C154_monotone_partial (fast : Bool) (c : Core) (t1 t2 s1 s2 : Nat) (ht : t1 ≤ t2) (hs : s1 ≤ s2) :
    getNanos fast c t1 s1 ≤ getNanos fast c t2 s2 := by
  unfold getNanos
  by_cases h : fast = true ∧ c.sc.skew ≠ 0
  · rw [if_pos h, if_pos h]
    unfold nanos raw
    have : t1 * c.sc.ens / c.sc.eticks ≤ t2 * c.sc.ens / c.sc.eticks :=
      Nat.div_le_div_right (Nat.mul_le_mul_right _ ht)
    omega
  · rw [if_neg h, if_neg h]
    omega

/-- Six sorted differences with an acceptable average: the four in the
middle are near. -/
theorem six_near (l : List Int) (hl : l.length = 6) (hs : l.Pairwise (· ≤ ·)) (hf : findSkew l ≠ 0) :
    4 ≤ (l.filter (fun x => decide (-101 ≤ findSkew l - x) && decide (findSkew l - x ≤ 101))).length := by
  match l, hl with
  | [a0, a1, a2, a3, a4, a5], _ =>
    have hav : ∃ avg, average [a0, a1, a2, a3, a4, a5] = avg := ⟨_, rfl⟩
    obtain ⟨avg, hav⟩ := hav
    simp only [List.pairwise_cons, List.mem_cons, List.not_mem_nil, or_false, forall_eq_or_imp, forall_eq] at hs
    obtain ⟨_, ⟨h12, h13, h14, h15⟩, ⟨h23, h24, h25⟩, ⟨h34, h35⟩, h45, _⟩ := hs
    have hfs : findSkew [a0, a1, a2, a3, a4, a5] =
        if a4 - avg > 100 then 0 else if avg - a1 > 100 then 0 else if avg = 0 then 1 else avg := by
      unfold findSkew
      rw [hav]
      rfl
    have hb1 : a4 - avg ≤ 100 := by
      by_contra hc
      rw [hfs, if_pos (by omega)] at hf
      exact hf rfl
    have hb2 : avg - a1 ≤ 100 := by
      by_contra hc
      rw [hfs, if_neg (by omega), if_pos (by omega)] at hf
      exact hf rfl
    have hk : ∃ k, findSkew [a0, a1, a2, a3, a4, a5] = k ∧ avg ≤ k ∧ k ≤ avg + 1 ∧ (k = avg ∨ (avg = 0 ∧ k = 1)) := by
      rw [hfs, if_neg (by omega), if_neg (by omega)]
      by_cases h0 : avg = 0
      · rw [if_pos h0]; exact ⟨1, rfl, by omega, by omega, .inr ⟨h0, rfl⟩⟩
      · rw [if_neg h0]; exact ⟨avg, rfl, by omega, by omega, .inl rfl⟩
    obtain ⟨k, hke, hk1, hk2, _⟩ := hk
    rw [hke]
    have g : ∀ x : Int, a1 ≤ x → x ≤ a4 →
        (fun x : Int => decide (-101 ≤ k - x) && decide (k - x ≤ 101)) x = true := by
      intro x hx1 hx2
      simp only [Bool.and_eq_true, decide_eq_true_eq]
      omega
    have g1 := g a1 (by omega) (by omega)
    have g2 := g a2 (by omega) (by omega)
    have g3 := g a3 (by omega) (by omega)
    have g4 := g a4 (by omega) (by omega)
    generalize (fun x : Int => decide (-101 ≤ k - x) && decide (k - x ≤ 101)) = P at *
    have h1 : P a1 = true := g1
    have h2 : P a2 = true := g2
    have h3 : P a3 = true := g3
    have h4 : P a4 = true := g4
    cases g0 : P a0 <;> cases g5 : P a5 <;> simp [List.filter_cons, g0, h1, h2, h3, h4, g5]

/-- **C154.** A calibration that sets a CPU's clock leaves it within 101
nanoseconds of the system's clock at four at least of the six
moments the two were compared. -/
theorem C154_close (c : Core) (ticks now : Nat) (ss : List Sample) (h6 : ss.length = 6)
    (hnew : (calibrate c ticks now ss).sc ≠ c.sc) (hset : (calibrate c ticks now ss).sc.skew ≠ 0) :
    4 ≤ (ss.filter (near 101 (calibrate c ticks now ss).sc)).length := by
  unfold calibrate at hnew hset ⊢
  by_cases h1 : c.markTime = 0 ∨ ticks - c.markTicks = 0
  · simp only [h1, if_true] at hnew
    exact absurd rfl hnew
  · simp only [h1, if_false] at hnew hset ⊢
    generalize hk : findSkew ((ss.map (thisSkew (ticks - c.markTicks) (now - c.markTime))).insertionSort (· ≤ ·)) = k at *
    by_cases hk0 : k ≠ 0
    · rw [if_pos hk0]
      have hl : ((ss.map (thisSkew (ticks - c.markTicks) (now - c.markTime))).insertionSort (· ≤ ·)).length = 6 := by
        rw [List.length_insertionSort, List.length_map, h6]
      have hs := six_near _ hl (List.pairwise_insertionSort (· ≤ ·) _) (by rw [hk]; exact hk0)
      rw [hk] at hs
      have hp := (List.perm_insertionSort (· ≤ ·)
        (ss.map (thisSkew (ticks - c.markTicks) (now - c.markTime)))).filter
          (fun x => decide (-101 ≤ k - x) && decide (k - x ≤ 101))
      rw [hp.length_eq, List.filter_map, List.length_map] at hs
      refine Nat.le_trans hs (Nat.le_of_eq ?_)
      congr 1
      apply List.filter_congr
      intro s _
      have e : off ⟨ticks - c.markTicks, now - c.markTime, k⟩ s =
          k - thisSkew (ticks - c.markTicks) (now - c.markTime) s := by
        unfold off nanos thisSkew
        simp only
        omega
      show _ = near 101 ⟨ticks - c.markTicks, now - c.markTime, k⟩ s
      unfold near
      rw [e]
      rfl
    · rw [if_neg hk0] at hset hnew
      by_cases h2 : (ss.getLast?.map Sample.h2).getD 0 - c.lastSync > 15000000000
      · rw [if_pos h2] at hset
        exact absurd rfl hset
      · rw [if_neg h2] at hnew
        exact absurd rfl hnew

/-- **C154.** A sample that is far too small and one that is far too large
have no effect: when the other four differences are the same, that is
the skew. -/
theorem C154_outliers (a b d : Int) (h0 : d ≠ 0) : findSkew [a, d, d, d, d, b] = d := by
  have hav : average [a, d, d, d, d, b] = d := by
    unfold average
    show ((d + (d + (d + (d + 0)))) : Int).tdiv 4 = d
    have : (d + (d + (d + (d + 0)))) = d * 4 := by omega
    rw [this]
    exact Int.mul_tdiv_cancel d (by decide)
  unfold findSkew
  rw [hav]
  show (if d - d > 100 then 0 else if d - d > 100 then 0 else if d = 0 then 1 else d) = d
  rw [if_neg (by omega), if_neg (by omega), if_neg h0]

/-- **C154.** A CPU that could not be compared for fifteen seconds uses the
system's clock. -/
theorem C154_desync (c : Core) (ticks now : Nat) (ss : List Sample) (sys : Nat)
    (hfail : findSkew ((ss.map (thisSkew (ticks - c.markTicks) (now - c.markTime))).insertionSort (· ≤ ·)) = 0)
    (hspan : c.markTime ≠ 0 ∧ c.markTicks < ticks)
    (hlate : c.lastSync + 15000000000 < (ss.getLast?.map Sample.h2).getD 0) (fast : Bool) (t : Nat) :
    getNanos fast (calibrate c ticks now ss) t sys = sys := by
  have : (calibrate c ticks now ss).sc.skew = 0 := by
    unfold calibrate
    have h1 : ¬ (c.markTime = 0 ∨ ticks - c.markTicks = 0) := by
      rintro (h | h)
      · exact hspan.1 h
      · omega
    simp only [h1, if_false, hfail, ne_eq, not_true_eq_false]
    rw [if_pos (by omega)]
  unfold getNanos
  rw [if_neg]
  rintro ⟨_, h⟩
  exact h this

/-- The samples of an example: the counter makes two ticks in a
nanosecond. -/
def exSamples (t h d1 d2 : Nat) : List Sample :=
  (List.range 6).map (fun i => ⟨h + 100 * i - d1, t + 200 * i, h + 100 * i + d2⟩)

/-- A clock that was calibrated ten seconds after the start. -/
def exCore : Core := calibrate ⟨⟨1, 1, 0⟩, 0, 10000000000, 5000000000, 0⟩ 20000000000 10000000000
  (exSamples 20000000000 10000000000 20 20)

example : exCore.sc = ⟨10000000000, 5000000000, 1⟩ ∧ exCore.lastSync = 10000000520 ∧
    (exSamples 20000000000 10000000000 20 20).length = 6 ∧
    4 ≤ ((exSamples 20000000000 10000000000 20 20).filter (near 101 exCore.sc)).length ∧
    getNanos true exCore 20000002000 0 = 10000001001 := by decide +kernel

example : findSkew (((exSamples 40000000000 20000000000 20 20).zipIdx.map (fun p =>
      thisSkew 20000000000 10000000000 { p.1 with h1 := p.1.h1 + 1000 * p.2 })).insertionSort (· ≤ ·)) = 0 := by
  decide +kernel

/-- **C154 is false of the code:** a reading after a calibration may be
smaller than one before: here by more than two milliseconds, after the
system's clock was slewed by half a millisecond a second for five
seconds. -/
theorem C154_backwards_violated :
    ∃ (c : Core) (ticks now : Nat) (ss : List Sample) (t1 t2 : Nat),
      t1 < ticks ∧ (∀ s ∈ ss, ticks ≤ s.ticks ∧ s.ticks < t2 ∧ s.h1 ≤ s.h2) ∧
      getNanos true (calibrate c ticks now ss) t2 0 + 2000000 < getNanos true c t1 0 :=
  ⟨exCore, 30000000000, 14997500000, exSamples 30000000000 14997500000 20 20, 29999999000, 30000010000,
    by decide +kernel, by decide +kernel, by decide +kernel⟩

/-- **C154 is false of the code:** on two CPUs a later reading may be the
smaller one, though both were compared with the system's clock at moments
that lie between its two readings. -/
theorem C154_cpus_violated :
    ∃ (c : Core) (ticks now : Nat) (ss ss' : List Sample) (t1 t2 : Nat),
      (∀ s ∈ ss ++ ss', s.h1 * 2 ≤ s.ticks ∧ s.ticks ≤ s.h2 * 2) ∧ t1 < t2 ∧
      getNanos true (calibrate c ticks now ss') t2 0 < getNanos true (calibrate c ticks now ss) t1 0 :=
  ⟨⟨⟨1, 1, 0⟩, 0, 10000000000, 5000000000, 0⟩, 20000000000, 10000000000,
    exSamples 20000000000 10000000000 0 180, exSamples 20000000000 10000000000 180 0, 20000010000, 20000010100,
    by decide +kernel, by decide +kernel, by decide +kernel⟩

/-! The time of day. -/

/-- **C154.** The fast time of day is a proper one (microseconds below a
million), and `mtev_now_us` and `mtev_now_ms` are the microseconds and
milliseconds since the epoch. -/
theorem C154_day (hr last skew : Nat) (sys : Tv)
    (hs : skew ≠ 0) (hl : last ≤ hr ∧ hr - last < 15000000000) :
    (gettimeofday hr last skew false sys).usec < 1000000 ∧
    nowUs (gettimeofday hr last skew false sys) = (hr + skew) / 1000 ∧
    nowMs (gettimeofday hr last skew false sys) = (hr + skew) / 1000000 := by
  unfold gettimeofday
  rw [if_pos ⟨hs, rfl, hl.2, hl.1⟩]
  unfold nowUs nowMs
  simp only
  refine ⟨Nat.mod_lt _ (by omega), by omega, by omega⟩

example : gettimeofday 5000000000 4000000000 1700000000123456789 false ⟨0, 0⟩ = ⟨1700000005, 123456⟩ := by decide

/-- **C154.** Otherwise, and whenever the skew is older than fifteen
seconds, it is the system's. -/
theorem C154_day_system (hr last skew : Nat) (useSys : Bool) (sys : Tv)
    (h : skew = 0 ∨ useSys = true ∨ last + 15000000000 ≤ hr ∨ hr < last) :
    gettimeofday hr last skew useSys sys = sys := by
  unfold gettimeofday
  rw [if_neg]
  rintro ⟨h1, h2, h3, h4⟩
  rcases h with h | h | h | h
  · exact h1 h
  · rw [h2] at h; cases h
  · omega
  · omega

/-- **C154 is false of the code:** for up to fifteen seconds the time of
day does not follow the system's when that is set. -/
theorem C154_step_violated (hr last skew : Nat) (hs : skew ≠ 0) (hl : last ≤ hr ∧ hr - last < 15000000000) (sys sys' : Tv) :
    gettimeofday hr last skew false sys = gettimeofday hr last skew false sys' := by
  unfold gettimeofday
  rw [if_pos ⟨hs, rfl, hl.2, hl.1⟩, if_pos ⟨hs, rfl, hl.2, hl.1⟩]

/-! `mtev_time_maintain`, documented as safe to call at any time. -/

/-- **C154 (partial).** It is, once the fast clock was started, when no
other thread does so for the same CPU. -/
theorem C154_maintain_partial (bound due : Bool) (errno : Nat) (c : Core) (ticks now : Nat) (ss : List Sample) :
    ∃ c', maintain bound true due false errno c ticks now ss = .ok c' ∧
      (c' = c ∨ (bound = true ∧ due = true ∧ c' = calibrate c ticks now ss)) := by
  cases bound <;> cases due
  · exact ⟨c, rfl, .inl rfl⟩
  · exact ⟨c, rfl, .inl rfl⟩
  · exact ⟨c, rfl, .inl rfl⟩
  · exact ⟨_, rfl, .inr ⟨rfl, rfl, rfl⟩⟩

/-- **C154 is false of the code:** it jumps to a null pointer before the
clock is started, and aborts the process when another thread maintains
the same CPU (the error is looked for in `errno`, where it is not). -/
theorem C154_maintain_violated (c : Core) (ticks now : Nat) (ss : List Sample) :
    (∀ due busy errno, maintain true false due busy errno c ticks now ss = .ub) ∧
    maintain true true true true 0 c ticks now ss = .abort :=
  ⟨fun _ _ _ => rfl, rfl⟩

end Mtev.Clock
