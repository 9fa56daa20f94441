import Verif.Asn1Time
import Mathlib.Tactic.Linarith

/-!
# C95: the dates in certificates mean what the calendar says
-/

namespace Mtev.Asn1Time

/-! ### the calendar -/

/-- the days of a month -/
def monthDays (y m : Nat) : Nat :=
  if m = 2 then (if y % 4 = 0 ∧ (y % 100 ≠ 0 ∨ y % 400 = 0) then 29 else 28)
  else if m = 4 ∨ m = 6 ∨ m = 9 ∨ m = 11 then 30 else 31

/-- year, month, day -/
structure Date where
  y : Nat
  m : Nat
  d : Nat
deriving DecidableEq, Repr

def Date.Valid (t : Date) : Prop := 1 ≤ t.m ∧ t.m ≤ 12 ∧ 1 ≤ t.d ∧ t.d ≤ monthDays t.y t.m

def tomorrow (t : Date) : Date :=
  if t.d < monthDays t.y t.m then ⟨t.y, t.m, t.d + 1⟩
  else if t.m < 12 then ⟨t.y, t.m + 1, 1⟩ else ⟨t.y + 1, 1, 1⟩

/-- the date is that many days after 1 January 1970 -/
inductive IsDay : Date → Int → Prop
  | epoch : IsDay ⟨1970, 1, 1⟩ 0
  | next {t n} : IsDay t n → IsDay (tomorrow t) (n + 1)
  | prev {t n} : t.Valid → IsDay (tomorrow t) (n + 1) → IsDay t n

/-! ### the days of the code are those of the calendar -/

theorem cents2_closed (y : Nat) : ∀ (fuel k : Nat), 1 ≤ k → 100 * k ≤ y + 99 → y ≤ 100 * k + 100 * fuel →
    cents2 y fuel (100 * k) = (((y - 1) / 100 - (y - 1) / 400 : Nat) : Int)
      - (((100 * k - 1) / 100 - (100 * k - 1) / 400 : Nat) : Int)
  | 0, k, h1, h2, h3 => by unfold cents2; omega
  | fuel + 1, k, h1, h2, h3 => by
    unfold cents2
    split
    · have ih := cents2_closed y fuel (k + 1) (by omega) (by omega) (by omega)
      rw [show 100 * k + 100 = 100 * (k + 1) by ring, ih]
      split <;> omega
    · omega

theorem corr_late {y : Nat} (h : 1970 ≤ y) : corr y = (((y - 1969) / 4 : Nat) : Int) -
    (if 2001 ≤ y then (((y - 1) / 100 - (y - 1) / 400 - 15 : Nat) : Int) else 0) := by
  unfold corr
  rw [if_neg (by omega)]
  have e : (y - 1970 + 1) / 4 = (y - 1969) / 4 := by omega
  rw [e]
  split
  · rw [cents2_closed y y 21 (by omega) (by omega) (by omega)]
    omega
  · cases y with
    | zero => omega
    | succ y => rw [cents2, if_neg (by omega)]

theorem leap_iff (y : Nat) : isLeap y = true ↔ y % 4 = 0 ∧ (y % 100 ≠ 0 ∨ y % 400 = 0) := by
  unfold isLeap
  simp only [Bool.or_eq_true, Bool.and_eq_true, decide_eq_true_eq]
  omega

theorem corr_step (y : Nat) : corr (y + 1) = corr y + (if isLeap y then 1 else 0) := by
  by_cases h : y < 1970
  · have : ∀ y : Fin 1970, corr (y.val + 1) = corr y.val + (if isLeap y.val then 1 else 0) := by decide +kernel
    exact this ⟨y, h⟩
  · rw [corr_late (by omega), corr_late (by omega)]
    by_cases hl : isLeap y = true
    · rw [if_pos hl]
      rw [leap_iff] at hl
      split <;> split <;> omega
    · rw [if_neg hl]
      rw [leap_iff] at hl
      split <;> split <;> omega

theorem feb (y : Nat) : (if isLeap y = true then (29 : Int) else 28)
    = ((if y % 4 = 0 ∧ (y % 100 ≠ 0 ∨ y % 400 = 0) then 29 else 28 : Nat) : Int) := by
  by_cases h : isLeap y = true
  · rw [if_pos h, if_pos ((leap_iff y).1 h)]; rfl
  · rw [if_neg h, if_neg (fun hh => h ((leap_iff y).2 hh))]; rfl

/-- the start of the months of a year -/
theorem month_step (y m : Nat) (h1 : 1 ≤ m) (h2 : m < 12) :
    ((days (isLeap y)).take m).sum = ((days (isLeap y)).take (m - 1)).sum + monthDays y m := by
  have hf := feb y
  unfold days monthDays
  interval_cases m <;> simp [hf] <;> ring

theorem year_sum (y : Nat) : ((days (isLeap y)).take 11).sum + 31 = 365 + (if isLeap y then 1 else 0) := by
  unfold days
  by_cases h : isLeap y = true <;> simp [h]

theorem step {t : Date} (h : t.Valid) : (tomorrow t).Valid ∧
    dayNum (tomorrow t).y (tomorrow t).m (tomorrow t).d = dayNum t.y t.m t.d + 1 := by
  obtain ⟨y, m, d⟩ := t
  obtain ⟨h1, h2, h3, h4⟩ := h
  simp only at h1 h2 h3 h4
  have hpos : ∀ y m, 1 ≤ monthDays y m := by
    intro y m
    unfold monthDays
    split
    · split <;> omega
    · split <;> omega
  unfold tomorrow
  simp only
  split
  · rename_i hd
    refine ⟨⟨h1, h2, by simp, hd⟩, ?_⟩
    simp only [dayNum]
    push_cast
    omega
  · split
    · rename_i hd hm
      refine ⟨⟨by simp, by simp; omega, by simp, hpos _ _⟩, ?_⟩
      have := month_step y m h1 hm
      simp only [dayNum, Nat.add_sub_cancel]
      rw [this]
      have : d = monthDays y m := by omega
      push_cast
      omega
    · rename_i hd hm
      refine ⟨⟨by simp, by simp, by simp, hpos _ _⟩, ?_⟩
      have hm12 : m = 12 := by omega
      subst hm12
      have h31 : monthDays y 12 = 31 := rfl
      have := year_sum y
      have c := corr_step y
      simp only [dayNum, c, Nat.sub_self, List.take_zero, List.sum_nil]
      push_cast
      have e : ((days (isLeap y)).take (12 - 1)).sum = 365 + (if isLeap y = true then 1 else 0) - 31 := by
        show ((days (isLeap y)).take 11).sum = _
        omega
      rw [e]
      omega

theorem isDay_num {t : Date} {n : Int} (h : IsDay t n) : t.Valid ∧ dayNum t.y t.m t.d = n := by
  induction h with
  | epoch => exact ⟨⟨by decide, by decide, by decide, by decide⟩, by decide +kernel⟩
  | next _ ih =>
    obtain ⟨v, e⟩ := ih
    obtain ⟨v', e'⟩ := step v
    exact ⟨v', by rw [e', e]⟩
  | prev v _ ih =>
    obtain ⟨_, e'⟩ := step v
    have := ih.2
    exact ⟨v, by omega⟩

/-! ### every date has its day -/

theorem take_nonneg (y m : Nat) (h1 : 1 ≤ m) (h2 : m ≤ 12) : 0 ≤ ((days (isLeap y)).take (m - 1)).sum ∧
    ((days (isLeap y)).take (m - 1)).sum + monthDays y m ≤ 365 + (if isLeap y then 1 else 0) ∧
    (m ≠ 1 → 31 ≤ ((days (isLeap y)).take (m - 1)).sum) := by
  have hf := feb y
  unfold days monthDays
  by_cases h : isLeap y = true
  · have := (leap_iff y).1 h
    interval_cases m <;> simp [h, this]
  · have h' : (if y % 4 = 0 ∧ (y % 100 ≠ 0 ∨ y % 400 = 0) then 29 else 28) = 28 :=
      if_neg (fun hh => h ((leap_iff y).2 hh))
    rw [h']
    interval_cases m <;> simp [h]

theorem year_mono {a b : Nat} (h : a < b) :
    ((a : Int) - 1970) * 365 + corr a + 365 + (if isLeap a then 1 else 0) ≤ ((b : Int) - 1970) * 365 + corr b := by
  induction b with
  | zero => omega
  | succ b ih =>
    have c := corr_step b
    rcases Nat.lt_succ_iff_lt_or_eq.1 h with h | rfl
    · have := ih h
      split at c <;> push_cast <;> omega
    · push_cast; omega

theorem num_zero {t : Date} (h : t.Valid) (h0 : dayNum t.y t.m t.d = 0) : t = ⟨1970, 1, 1⟩ := by
  obtain ⟨y, m, d⟩ := t
  obtain ⟨h1, h2, h3, h4⟩ := h
  simp only at h1 h2 h3 h4 h0
  obtain ⟨t1, t2, t3⟩ := take_nonneg y m h1 h2
  have hc : corr 1970 = 0 := by decide +kernel
  unfold dayNum at h0
  have hy : y = 1970 := by
    by_contra hne
    rcases Nat.lt_or_gt_of_ne hne with hlt | hgt
    · have := year_mono hlt
      rw [hc] at this
      push_cast at this
      omega
    · have := year_mono hgt
      rw [hc] at this
      push_cast at this
      split at this <;> omega
  subst hy
  rw [hc] at h0
  have hm : m = 1 := by
    by_contra hm
    have := t3 hm
    omega
  subst hm
  simp at h0
  have : d = 1 := by omega
  subst this
  rfl

theorem has_yesterday {t : Date} (h : t.Valid) (hy : 1 ≤ t.y) : ∃ u : Date, u.Valid ∧ tomorrow u = t := by
  obtain ⟨y, m, d⟩ := t
  obtain ⟨h1, h2, h3, h4⟩ := h
  simp only at h1 h2 h3 h4 hy
  have hpos : ∀ y m, 1 ≤ monthDays y m := by
    intro y m
    unfold monthDays
    split
    · split <;> omega
    · split <;> omega
  by_cases hd : 1 < d
  · refine ⟨⟨y, m, d - 1⟩, ⟨h1, h2, by simp; omega, by simp; omega⟩, ?_⟩
    unfold tomorrow
    simp only
    rw [if_pos (by omega)]
    congr; omega
  · have : d = 1 := by omega
    subst this
    by_cases hm : 1 < m
    · refine ⟨⟨y, m - 1, monthDays y (m - 1)⟩, ⟨by simp; omega, by simp; omega, hpos _ _, le_refl _⟩, ?_⟩
      unfold tomorrow
      simp only
      rw [if_neg (by omega), if_pos (by omega)]
      congr; omega
    · have : m = 1 := by omega
      subst this
      refine ⟨⟨y - 1, 12, 31⟩, ⟨by simp, by simp, by simp, by simp [monthDays]⟩, ?_⟩
      unfold tomorrow
      simp only
      rw [if_neg (by simp [monthDays]), if_neg (by omega)]
      congr; omega

theorem early {t : Date} (h : t.Valid) (hy : t.y = 0) : dayNum t.y t.m t.d < 0 := by
  obtain ⟨h1, h2, h3, h4⟩ := h
  obtain ⟨t1, t2, t3⟩ := take_nonneg t.y t.m h1 h2
  have := year_mono (a := t.y) (b := 1970) (by omega)
  have hc : corr 1970 = 0 := by decide +kernel
  rw [hc] at this
  unfold dayNum
  push_cast at this
  omega

theorem isDay_of_num : ∀ (k : Nat) (t : Date), t.Valid →
    (dayNum t.y t.m t.d = k ∨ dayNum t.y t.m t.d = -(k : Int)) → IsDay t (dayNum t.y t.m t.d)
  | 0, t, v, h => by
    have h0 : dayNum t.y t.m t.d = 0 := by omega
    rw [h0, num_zero v h0]
    exact .epoch
  | k + 1, t, v, h => by
    rcases h with h | h
    · have hy : 1 ≤ t.y := by
        by_contra hy
        have := early v (by omega)
        omega
      obtain ⟨u, vu, rfl⟩ := has_yesterday v hy
      have e := (step vu).2
      rw [e]
      exact .next (isDay_of_num k u vu (.inl (by push_cast at h; omega)))
    · obtain ⟨v', e⟩ := step v
      have ih := isDay_of_num k (tomorrow t) v' (.inr (by push_cast at h; omega))
      rw [e] at ih
      exact .prev v ih

/-- every date of the calendar is some number of days from 1970 -/
theorem C95_calendar (t : Date) (h : t.Valid) : ∃ n, IsDay t n := by
  refine ⟨_, isDay_of_num (dayNum t.y t.m t.d).natAbs t h ?_⟩
  omega

/-! ### texts -/

def d2 (n : Nat) : Str := [48 + n / 10, 48 + n % 10]
def d4 (n : Nat) : Str := d2 (n / 100) ++ d2 (n % 100)

/-- a zone: `Z`, or hours and minutes before or behind -/
inductive Zone where
  | z
  | east (h m : Nat)
  | west (h m : Nat)

def Zone.text : Zone → Str
  | .z => [90]
  | .east h m => 43 :: (d2 h ++ d2 m)
  | .west h m => 45 :: (d2 h ++ d2 m)

/-- minutes ahead of universal time -/
def Zone.minutes : Zone → Int
  | .z => 0
  | .east h m => h * 60 + m
  | .west h m => -(h * 60 + m)

def Zone.Valid : Zone → Prop
  | .z => True
  | .east h m => h ≤ 12 ∧ m ≤ 59
  | .west h m => h ≤ 12 ∧ m ≤ 59

/-- a time of day, perhaps without seconds -/
structure Clock where
  h : Nat
  mi : Nat
  sec : Option Nat

def Clock.Valid (c : Clock) : Prop := c.h ≤ 23 ∧ c.mi ≤ 59 ∧ ∀ s, c.sec = some s → s ≤ 59

def Clock.text (c : Clock) : Str := d2 c.h ++ d2 c.mi ++ (match c.sec with | some s => d2 s | none => [])

/-- the text of a time: `GeneralizedTime` with four digits for the year and perhaps a
fraction of a second, `UTCTime` with two and none -/
def text (gen : Bool) (y m d : Nat) (c : Clock) (frac : Str) (z : Zone) : Str :=
  (if gen then d4 y else d2 (y % 100)) ++ d2 m ++ d2 d ++ c.text ++ frac ++ z.text

/-- the years each form can say -/
def YearOk (gen : Bool) (y : Nat) : Prop := if gen then y ≤ 9999 else 1950 ≤ y ∧ y ≤ 2049

/-- nothing, or a point or comma and digits; only in a `GeneralizedTime` -/
def FracOk (gen : Bool) (f : Str) : Prop :=
  f = [] ∨ (gen = true ∧ ∃ c ds, f = c :: ds ∧ (c = 46 ∨ c = 44) ∧ ∀ x ∈ ds, 48 ≤ x ∧ x ≤ 57)

theorem hd_cons (c : Nat) (s : Str) : hd (c :: s) = c := rfl

theorem pint_d2 {n lo hi : Nat} (s : Str) (e : Bool) (hn : n < 100) (h1 : lo ≤ n) (h2 : n ≤ hi) :
    pint 2 lo hi (d2 n ++ s) e = (n, s, e) := by
  have a : isDigit (48 + n / 10) = true := by unfold isDigit; simp; omega
  have b : isDigit (48 + n % 10) = true := by unfold isDigit; simp; omega
  unfold pint d2
  simp only [List.cons_append, List.nil_append, pintGo, hd_cons, List.tail_cons, a, b, if_true]
  have : (0 * 10 + (48 + n / 10 - 48)) * 10 + (48 + n % 10 - 48) = n := by omega
  rw [this]
  simp [Nat.not_lt.2 h1, Nat.not_lt.2 h2]

theorem pint_d4 {n : Nat} (s : Str) (e : Bool) (hn : n ≤ 9999) : pint 4 0 9999 (d4 n ++ s) e = (n, s, e) := by
  have a : isDigit (48 + n / 100 / 10) = true := by unfold isDigit; simp; omega
  have b : isDigit (48 + n / 100 % 10) = true := by unfold isDigit; simp; omega
  have c : isDigit (48 + n % 100 / 10) = true := by unfold isDigit; simp; omega
  have d : isDigit (48 + n % 100 % 10) = true := by unfold isDigit; simp; omega
  unfold pint d4 d2
  simp only [List.cons_append, List.nil_append, pintGo, hd_cons, List.tail_cons, a, b, c, d, if_true]
  have : (((0 * 10 + (48 + n / 100 / 10 - 48)) * 10 + (48 + n / 100 % 10 - 48)) * 10 + (48 + n % 100 / 10 - 48)) * 10
      + (48 + n % 100 % 10 - 48) = n := by omega
  rw [this]
  simp [Nat.not_lt.2 hn]

theorem digit_d2 (n : Nat) (hn : n < 100) (s : Str) : isDigit (hd (d2 n ++ s)) = true := by
  unfold d2 isDigit
  simp [hd_cons]
  omega

theorem fields_text {gen : Bool} {y m d : Nat} {c : Clock} {rest : Str} (hy : YearOk gen y)
    (hm : 1 ≤ m ∧ m ≤ 12) (hd' : 1 ≤ d ∧ d ≤ 31) (hc : c.Valid)
    (hr : c.sec = none → isDigit (hd rest) = false) :
    fields gen ((if gen then d4 y else d2 (y % 100)) ++ d2 m ++ d2 d ++ c.text ++ rest)
      = (⟨y, m, d, c.h, c.mi, c.sec.getD 0⟩, rest, false) := by
  obtain ⟨c1, c2, c3⟩ := hc
  have key : ∀ r : Str, (if gen then pint 4 0 9999 ((if gen then d4 y else d2 (y % 100)) ++ r) false
        else pint 2 0 99 ((if gen then d4 y else d2 (y % 100)) ++ r) false)
      = (if gen then y else y % 100, r, false) := by
    intro r
    cases gen with
    | true =>
      simp only [if_true]
      exact pint_d4 r false (by simpa [YearOk] using hy)
    | false =>
      simp only [Bool.false_eq_true, if_false]
      exact pint_d2 r false (by omega) (by omega) (by omega)
  have ky : (if gen then (if gen then y else y % 100) else
      if (if gen then y else y % 100) < 50 then (if gen then y else y % 100) + 2000
      else (if gen then y else y % 100) + 1900) = y := by
    cases gen with
    | true => simp
    | false =>
      simp only [YearOk, Bool.false_eq_true, if_false] at hy ⊢
      split <;> omega
  unfold fields
  simp only [List.append_assoc]
  rw [key]
  simp only
  rw [ky, pint_d2 _ _ (by omega) hm.1 hm.2]
  simp only
  rw [pint_d2 _ _ (by omega) hd'.1 hd'.2]
  unfold Clock.text
  simp only [List.append_assoc]
  rw [pint_d2 _ _ (by omega) (by omega) c1]
  simp only
  rw [pint_d2 _ _ (by omega) (by omega) c2]
  cases hs : c.sec with
  | none =>
    simp only [List.nil_append, hr hs, Bool.false_eq_true, if_false, Option.getD_none]
  | some s =>
    have := c3 s hs
    simp only [Option.getD_some]
    rw [if_pos (digit_d2 s (by omega) rest), pint_d2 _ _ (by omega) (by omega) this]

theorem zone_text {z : Zone} (h : z.Valid) : zone z.text = some z.minutes := by
  cases z with
  | z => rfl
  | east hh m =>
    obtain ⟨h1, h2⟩ := h
    have e1 := pint_d2 (n := hh) (lo := 0) (hi := 12) (d2 m) false (by omega) (by omega) h1
    have e2 := pint_d2 (n := m) (lo := 0) (hi := 59) [] false (by omega) (by omega) h2
    rw [List.append_nil] at e2
    simp [zone, Zone.text, hd_cons, List.tail_cons, e1, e2, Zone.minutes]
  | west hh m =>
    obtain ⟨h1, h2⟩ := h
    have e1 := pint_d2 (n := hh) (lo := 0) (hi := 12) (d2 m) false (by omega) (by omega) h1
    have e2 := pint_d2 (n := m) (lo := 0) (hi := 59) [] false (by omega) (by omega) h2
    rw [List.append_nil] at e2
    simp [zone, Zone.text, hd_cons, List.tail_cons, e1, e2, Zone.minutes]

theorem zone_head (z : Zone) : ∃ c s, z.text = c :: s ∧ isFrac c = false ∧ isDigit c = false := by
  cases z with
  | z => exact ⟨90, [], rfl, by decide, by decide⟩
  | east h m => exact ⟨43, _, rfl, by decide, by decide⟩
  | west h m => exact ⟨45, _, rfl, by decide, by decide⟩

theorem get_text {gen : Bool} {y m d : Nat} {c : Clock} {frac : Str} {z : Zone} (hy : YearOk gen y)
    (hm : 1 ≤ m ∧ m ≤ 12) (hd' : 1 ≤ d ∧ d ≤ 31) (hc : c.Valid) (hf : FracOk gen frac) (hz : z.Valid) :
    get gen (text gen y m d c frac z) = finish y m d c.h c.mi (c.sec.getD 0) z.minutes := by
  obtain ⟨zc, zs, ez, z1, z2⟩ := zone_head z
  have hrest : isDigit (hd (frac ++ z.text)) = false := by
    rcases hf with rfl | ⟨_, fc, ds, rfl, hc, _⟩
    · rw [List.nil_append, ez]; exact z2
    · rcases hc with rfl | rfl <;> rfl
  unfold get text
  rw [List.append_assoc _ frac, fields_text hy hm hd' hc (fun _ => hrest)]
  simp only [Bool.false_eq_true, if_false]
  have hr : (if gen then (frac ++ z.text).dropWhile isFrac else frac ++ z.text) = z.text := by
    rcases hf with rfl | ⟨hg, fc, ds, rfl, hc, hds⟩
    · rw [List.nil_append]
      split
      · rw [ez, List.dropWhile_cons]; simp [z1]
      · rfl
    · rw [if_pos hg, List.dropWhile_append_of_pos]
      · rw [ez, List.dropWhile_cons]; simp [z1]
      · intro x hx
        rcases List.mem_cons.1 hx with rfl | hx
        · rcases hc with rfl | rfl <;> rfl
        · have := hds x hx
          unfold isFrac isDigit
          simp [this]
  rw [hr]
  have : z.text.isEmpty = false := by rw [ez]; rfl
  rw [this, zone_text hz]
  simp

/-- the seconds since 1970 that a time means, if its day is `n` -/
def seconds (n : Int) (c : Clock) (z : Zone) : Int :=
  n * 86400 + (c.h : Int) * 3600 + (c.mi : Int) * 60 + (c.sec.getD 0 : Nat) - z.minutes * 60

/-- **C95 (dates).** For every date of the calendar, time of day and zone, in either
form, with or without seconds and fractions: the time read is the number of seconds
between it and the start of 1970.

Partial: zones up to twelve hours from universal time, and not the hours around the
start of 1970 where zone and year disagree (`C95_around_1970_violated`). -/
theorem C95_dates_partial (gen : Bool) (t : Date) (n : Int) (hn : IsDay t n) (c : Clock) (frac : Str) (z : Zone)
    (hy : YearOk gen t.y) (hc : c.Valid) (hf : FracOk gen frac) (hz : z.Valid)
    (hs : 1970 ≤ t.y ↔ 0 ≤ seconds n c z) :
    get gen (text gen t.y t.m t.d c frac z) = .ok (seconds n c z) := by
  obtain ⟨⟨v1, v2, v3, v4⟩, e⟩ := isDay_num hn
  have h31 : monthDays t.y t.m ≤ 31 := by
    unfold monthDays
    split
    · split <;> omega
    · split <;> omega
  rw [get_text hy ⟨v1, v2⟩ ⟨v3, by omega⟩ hc hf hz]
  unfold finish
  simp only [e]
  have et : ((c.sec.getD 0 : Nat) : Int) + ((c.mi : Int) - z.minutes) * 60 + (c.h : Int) * 3600 + n * 86400
      = seconds n c z := by unfold seconds; ring
  rw [et]
  by_cases h70 : t.y < 1970
  · rw [if_pos h70, if_neg (by omega)]
  · rw [if_neg h70, if_neg (by omega)]

/-- **C95 (around 1970).** The times left out are refused: a time of 1969 in one zone
that is in 1970 in universal time, or the other way round. -/
theorem C95_around_1970_violated (gen : Bool) (t : Date) (n : Int) (hn : IsDay t n) (c : Clock) (frac : Str)
    (z : Zone) (hy : YearOk gen t.y) (hc : c.Valid) (hf : FracOk gen frac) (hz : z.Valid)
    (hs : ¬ (1970 ≤ t.y ↔ 0 ≤ seconds n c z)) :
    get gen (text gen t.y t.m t.d c frac z) = .range := by
  obtain ⟨⟨v1, v2, v3, v4⟩, e⟩ := isDay_num hn
  have h31 : monthDays t.y t.m ≤ 31 := by
    unfold monthDays
    split
    · split <;> omega
    · split <;> omega
  rw [get_text hy ⟨v1, v2⟩ ⟨v3, by omega⟩ hc hf hz]
  unfold finish
  simp only [e]
  have et : ((c.sec.getD 0 : Nat) : Int) + ((c.mi : Int) - z.minutes) * 60 + (c.h : Int) * 3600 + n * 86400
      = seconds n c z := by unfold seconds; ring
  rw [et]
  by_cases h70 : t.y < 1970
  · rw [if_pos h70, if_pos (by omega)]
  · rw [if_neg h70, if_pos (by omega)]

/-- some dates: the end of 32 bit times, a leap day, 1900, an hour east -/
example : get true (bytesOf "20380119031407Z") = .ok 2147483647 ∧
    get false (bytesOf "000229120000Z") = .ok 951825600 ∧
    get false (bytesOf "7001010100+0100") = .ok 0 ∧
    get true (bytesOf "19000301000000.25Z") = .ok (-2203891200) ∧
    get true (bytesOf "24000229000000Z") = .ok 13574563200 := by decide +kernel

example : text true 2038 1 19 ⟨3, 14, some 7⟩ [] .z = bytesOf "20380119031407Z" ∧
    text false 1970 1 1 ⟨1, 0, none⟩ [] (.east 1 0) = bytesOf "7001010100+0100" := by decide +kernel

example : ∃ n, IsDay ⟨2000, 2, 29⟩ n ∧ n = 11016 := by
  obtain ⟨n, h⟩ := C95_calendar ⟨2000, 2, 29⟩ ⟨by decide, by decide, by decide, by decide⟩
  refine ⟨n, h, ?_⟩
  rw [← (isDay_num h).2]
  decide +kernel

example : get false (bytesOf "691231233000-0100") = .range := by decide +kernel

/-! ### what is refused -/

/-- the digits of a number -/
def AllDigits (s : Str) : Prop := ∀ x ∈ s, 48 ≤ x ∧ x ≤ 57

theorem pintGo_inv : ∀ (n : Nat) (s : Str) (acc v : Nat) (s' : Str), pintGo n s acc = (v, s', true) →
    ∃ ds, s = ds ++ s' ∧ ds.length = n ∧ AllDigits ds
  | 0, s, acc, v, s', h => by
    cases h
    exact ⟨[], rfl, rfl, by simp [AllDigits]⟩
  | n + 1, s, acc, v, s', h => by
    unfold pintGo at h
    split at h
    · rename_i hd'
      cases s with
      | nil => simp [hd, isDigit] at hd'
      | cons c s =>
        obtain ⟨ds, e1, e2, e3⟩ := pintGo_inv n _ _ _ _ h
        refine ⟨c :: ds, by rw [List.tail_cons] at e1; rw [e1]; rfl, by simp [e2], ?_⟩
        intro x hx
        rcases List.mem_cons.1 hx with rfl | hx
        · exact of_decide_eq_true hd'
        · exact e3 x hx
    · cases h

theorem pint_inv {n lo hi : Nat} {s : Str} {e : Bool} (h : (pint n lo hi s e).2.2 = false) :
    e = false ∧ lo ≤ (pint n lo hi s e).1 ∧ (pint n lo hi s e).1 ≤ hi ∧
    ∃ ds, s = ds ++ (pint n lo hi s e).2.1 ∧ ds.length = n ∧ AllDigits ds := by
  unfold pint at h ⊢
  split at h
  · rename_i v s' hp
    simp only [Bool.or_eq_false_iff, decide_eq_false_iff_not, Nat.not_lt] at h
    exact ⟨h.1.1, h.1.2, h.2, pintGo_inv _ _ _ _ _ hp⟩
  · cases h

theorem zone_inv {r : Str} {off : Int} (hz : zone r = some off) : r = [90] ∨
    ∃ sg ds', r = sg :: ds' ∧ (sg = 43 ∨ sg = 45) ∧ ds'.length = 4 ∧ AllDigits ds' := by
  unfold zone at hz
  split at hz
  · rename_i h90
    split at hz
    · rename_i ht
      left
      cases r with
      | nil => simp [hd] at h90
      | cons c r => simp [hd_cons] at h90 ht; simp [h90, ht]
    · cases hz
  · split at hz
    · rename_i hsg
      simp only at hz
      generalize hA : pint 2 0 12 r.tail false = A at hz
      generalize hB : pint 2 0 59 A.2.1 A.2.2 = B at hz
      split at hz
      · cases hz
      · rename_i hmm
        split at hz
        · rename_i hend
          right
          have i2 := pint_inv (n := 2) (lo := 0) (hi := 59) (s := A.2.1) (e := A.2.2) (by rw [hB]; simpa using hmm)
          rw [hB] at i2
          have i1 := pint_inv (n := 2) (lo := 0) (hi := 12) (s := r.tail) (e := false) (by rw [hA]; exact i2.1)
          rw [hA] at i1
          obtain ⟨_, _, _, ds2, q2, l2, a2⟩ := i2
          obtain ⟨_, _, _, ds1, q1, l1, a1⟩ := i1
          rw [hend, List.append_nil] at q2
          rw [q2] at q1
          cases r with
          | nil => simp [hd] at hsg
          | cons c r =>
            rw [List.tail_cons] at q1
            refine ⟨c, ds1 ++ ds2, by rw [q1], ?_, by simp [l1, l2], ?_⟩
            · simp [hd_cons] at hsg; tauto
            · intro x hx
              rcases List.mem_append.1 hx with hx | hx
              · exact a1 x hx
              · exact a2 x hx
        · cases hz
    · cases hz

theorem fields_inv {s : Str} (he : (fields false s).2.2 = false) :
    (∃ ds, s = ds ++ (fields false s).2.1 ∧ AllDigits ds ∧ (ds.length = 10 ∨ ds.length = 12)) ∧
    1 ≤ (fields false s).1.m ∧ (fields false s).1.m ≤ 12 ∧
    1 ≤ (fields false s).1.d ∧ (fields false s).1.d ≤ 31 := by
  unfold fields at he ⊢
  simp only [Bool.false_eq_true, if_false] at he ⊢
  generalize hY : pint 2 0 99 s false = Y at he ⊢
  generalize hM : pint 2 1 12 Y.2.1 Y.2.2 = M at he ⊢
  generalize hD : pint 2 1 31 M.2.1 M.2.2 = D at he ⊢
  generalize hH : pint 2 0 23 D.2.1 D.2.2 = Hh at he ⊢
  generalize hI : pint 2 0 59 Hh.2.1 Hh.2.2 = I at he ⊢
  have main : I.2.2 = false → (∃ ds, s = ds ++ I.2.1 ∧ AllDigits ds ∧ ds.length = 10) ∧
      1 ≤ M.1 ∧ M.1 ≤ 12 ∧ 1 ≤ D.1 ∧ D.1 ≤ 31 := by
    intro hi
    have i5 := pint_inv (n := 2) (lo := 0) (hi := 59) (s := Hh.2.1) (e := Hh.2.2) (by rw [hI]; exact hi)
    rw [hI] at i5
    have i4 := pint_inv (n := 2) (lo := 0) (hi := 23) (s := D.2.1) (e := D.2.2) (by rw [hH]; exact i5.1)
    rw [hH] at i4
    have i3 := pint_inv (n := 2) (lo := 1) (hi := 31) (s := M.2.1) (e := M.2.2) (by rw [hD]; exact i4.1)
    rw [hD] at i3
    have i2 := pint_inv (n := 2) (lo := 1) (hi := 12) (s := Y.2.1) (e := Y.2.2) (by rw [hM]; exact i3.1)
    rw [hM] at i2
    have i1 := pint_inv (n := 2) (lo := 0) (hi := 99) (s := s) (e := false) (by rw [hY]; exact i2.1)
    rw [hY] at i1
    obtain ⟨_, _, _, d5, q5, l5, a5⟩ := i5
    obtain ⟨_, _, _, d4', q4, l4, a4⟩ := i4
    obtain ⟨_, b3, b3', d3, q3, l3, a3⟩ := i3
    obtain ⟨_, b2, b2', d2', q2, l2, a2⟩ := i2
    obtain ⟨_, _, _, d1, q1, l1, a1⟩ := i1
    refine ⟨⟨d1 ++ d2' ++ d3 ++ d4' ++ d5, ?_, ?_, ?_⟩, b2, b2', b3, b3'⟩
    · rw [q5] at q4; rw [q4] at q3; rw [q3] at q2; rw [q2] at q1; rw [q1]; simp
    · intro x hx
      simp only [List.mem_append] at hx
      rcases hx with (((hx | hx) | hx) | hx) | hx
      · exact a1 x hx
      · exact a2 x hx
      · exact a3 x hx
      · exact a4 x hx
      · exact a5 x hx
    · simp [l1, l2, l3, l4, l5]
  by_cases hdig : isDigit (hd I.2.1) = true
  · rw [if_pos hdig] at he ⊢
    obtain ⟨hi, _, _, d6, q6, l6, a6⟩ := pint_inv he
    obtain ⟨⟨ds, q, a, l⟩, b⟩ := main hi
    refine ⟨⟨ds ++ d6, ?_, ?_, .inr (by simp [l, l6])⟩, b⟩
    · rw [List.append_assoc, ← q6]; exact q
    · intro x hx
      rcases List.mem_append.1 hx with hx | hx
      · exact a x hx
      · exact a6 x hx
  · rw [if_neg hdig] at he ⊢
    obtain ⟨⟨ds, q, a, l⟩, b⟩ := main he
    exact ⟨⟨ds, q, a, .inl l⟩, b⟩

/-- **C95 (format).** A `UTCTime` that is accepted has ten or twelve digits and then
`Z` or a sign and four digits, and nothing behind; in a month from 1 to 12, on a day
from 1 to 31. -/
theorem C95_format (s : Str) (t : Int) (h : get false s = .ok t) :
    (∃ ds zs, s = ds ++ zs ∧ AllDigits ds ∧ (ds.length = 10 ∨ ds.length = 12) ∧
      (zs = [90] ∨ ∃ sg ds', zs = sg :: ds' ∧ (sg = 43 ∨ sg = 45) ∧ ds'.length = 4 ∧ AllDigits ds')) ∧
    1 ≤ (fields false s).1.m ∧ (fields false s).1.m ≤ 12 ∧
    1 ≤ (fields false s).1.d ∧ (fields false s).1.d ≤ 31 := by
  unfold get at h
  simp only [Bool.false_eq_true, if_false, Bool.false_and] at h
  split at h
  · cases h
  · rename_i he
    cases hz : zone (fields false s).2.1 with
    | none => rw [hz] at h; cases h
    | some off =>
      obtain ⟨⟨ds, q, a, l⟩, b⟩ := fields_inv (by simpa using he)
      exact ⟨⟨ds, _, q, a, l, zone_inv hz⟩, b⟩

/-- **C95 (days that do not exist).** Up to 31 days are accepted in every month: the
31st of February is read as a day in March. -/
theorem C95_no_such_day_violated (y : Nat) (hy : 1970 ≤ y ∧ y ≤ 9999) (n : Int) (hn : IsDay ⟨y, 2, 28⟩ n) (c : Clock)
    (hc : c.Valid) :
    get true (text true y 2 31 c [] .z) = .ok (seconds (n + 3) c .z) := by
  obtain ⟨⟨v1, v2, v3, v4⟩, e⟩ := isDay_num hn
  rw [get_text (by simpa [YearOk] using hy.2) ⟨by decide, by decide⟩ ⟨by decide, by decide⟩ hc (.inl rfl) (z := .z) trivial]
  have e31 : dayNum y 2 31 = n + 3 := by
    have : dayNum y 2 28 = n := e
    unfold dayNum at this ⊢
    push_cast at this ⊢
    omega
  have pos : 0 ≤ n + 3 := by
    have := year_mono (a := 1969) (b := y) (by omega)
    have hc : corr 1969 = 0 := by decide +kernel
    rw [hc] at this
    have hl : isLeap 1969 = false := by decide +kernel
    rw [hl] at this
    have t1 : 0 ≤ ((days (isLeap y)).take 1).sum := (take_nonneg y 2 (by omega) (by omega)).1
    rw [← e31]
    unfold dayNum
    simp only [Bool.false_eq_true, if_false] at this
    push_cast at this ⊢
    omega
  unfold finish
  simp only [e31]
  rw [if_neg (by omega)]
  have et : ((c.sec.getD 0 : Nat) : Int) + ((c.mi : Int) - Zone.minutes .z) * 60 + (c.h : Int) * 3600 + (n + 3) * 86400
      = seconds (n + 3) c .z := by unfold seconds; ring
  rw [et]
  rw [if_neg]
  have hz : Zone.minutes .z = 0 := rfl
  unfold seconds
  rw [hz]
  omega

example : get true (bytesOf "20210231000000Z") = get true (bytesOf "20210303000000Z") := by decide +kernel

end Mtev.Asn1Time
