import Verif.Confstr

/-!
# C14 (durations) and C15 (timestamps): configuration strings

## Specification of durations

`Tokens tab s toks`: the text `s` is a sequence of tokens, each optional blanks, a decimal number,
optional blanks, a unit name of the table; then optional blanks.  `toks` lists number and multiplier.
-/

namespace Mtev.Confstr

inductive Tokens (tab : List (List Nat × Nat)) : List Nat → List (Nat × Nat) → Prop
  | nil (sp : List Nat) : (∀ c ∈ sp, isspace c = true) → Tokens tab sp []
  | cons (sp ds sp2 u rest : List Nat) (m : Nat) (toks : List (Nat × Nat)) :
      (∀ c ∈ sp, isspace c = true) → ds ≠ [] → (∀ c ∈ ds, isdigit c = true) →
      (∀ c ∈ sp2, isspace c = true) → u ≠ [] → (∀ c ∈ u, isalpha c = true) →
      tab.lookup u = some m → Tokens tab rest toks →
      Tokens tab (sp ++ (ds ++ (sp2 ++ (u ++ rest)))) ((decimal ds, m) :: toks)

/-- The sum of the tokens, each number clamped as `strtoul` does, without wrapping. -/
def clampedSum (toks : List (Nat × Nat)) : Nat := (toks.map (fun t => min t.1 (2 ^ 64 - 1) * t.2)).sum

/-- The duration the text denotes. -/
def exactSum (toks : List (Nat × Nat)) : Nat := (toks.map (fun t => t.1 * t.2)).sum

theorem span_eq {p : Nat → Bool} (a r : List Nat) (ha : ∀ c ∈ a, p c = true) (hr : ∀ c t, r = c :: t → p c = false) :
    (a ++ r).takeWhile p = a ∧ (a ++ r).dropWhile p = r := by
  induction a with
  | nil =>
    match r with
    | [] => simp
    | c :: t => simp [hr c t rfl]
  | cons x a ih =>
    have := ih (fun c hc => ha c (by simp [hc]))
    simp [ha x (by simp), this]

theorem takeWhile_all {p : Nat → Bool} (s : List Nat) : ∀ c ∈ s.takeWhile p, p c = true := by
  induction s with
  | nil => simp
  | cons x s ih =>
    intro c hc
    rw [List.takeWhile_cons] at hc
    split at hc
    · rcases List.mem_cons.mp hc with rfl | hc
      · assumption
      · exact ih c hc
    · simp at hc

theorem find_lookup (tab : List (List Nat × Nat)) (u : List Nat) :
    (tab.find? (fun e => e.1 == u)).map (·.2) = tab.lookup u := by
  induction tab with
  | nil => rfl
  | cons e tab ih =>
    obtain ⟨k, m⟩ := e
    rw [List.find?_cons, List.lookup_cons]
    have : (k == u) = (u == k) := Bool.beq_comm
    simp only [this]
    cases h : (u == k) <;> simp [ih]

theorem space_not_digit (c : Nat) (h : isspace c = true) : isdigit c = false := by
  simp [isspace, isdigit] at *; omega
theorem space_not_alpha (c : Nat) (h : isspace c = true) : isalpha c = false := by
  simp [isspace, isalpha] at *; omega
theorem digit_not_alpha (c : Nat) (h : isdigit c = true) : isalpha c = false := by
  simp [isdigit, isalpha] at *; omega
theorem alpha_not_digit (c : Nat) (h : isalpha c = true) : isdigit c = false := by
  simp [isdigit, isalpha] at *; omega
theorem alpha_not_space (c : Nat) (h : isalpha c = true) : isspace c = false := by
  simp [isspace, isalpha] at *; omega
theorem digit_not_space (c : Nat) (h : isdigit c = true) : isspace c = false := by
  simp [isspace, isdigit] at *; omega

theorem tokens_head_not_alpha {tab s toks} (h : Tokens tab s toks) : ∀ c t, s = c :: t → isalpha c = false := by
  cases h with
  | nil _ hsp => rintro c t rfl; exact space_not_alpha c (hsp c (by simp))
  | cons sp ds sp2 u rest m toks hsp hne hds =>
    intro c t he
    match sp, ds, hne with
    | [], d :: ds, _ => simp at he; obtain ⟨rfl, _⟩ := he; exact digit_not_alpha _ (hds _ (by simp))
    | x :: sp, _, _ => simp at he; obtain ⟨rfl, _⟩ := he; exact space_not_alpha _ (hsp _ (by simp))

theorem durLoop_complete {tab input toks} (h : Tokens tab input toks) (out : Nat) (ho : out < 2 ^ 64) (ok : Bool) :
    durLoop tab input out ok = (ok || decide (toks ≠ []), (out + clampedSum toks) % 2 ^ 64) := by
  induction h generalizing out ok with
  | nil sp hsp =>
    rw [durLoop.eq_def]
    have : sp.dropWhile isspace = [] := by
      have := (span_eq sp [] hsp (by simp)).2
      simpa using this
    split
    · simp [clampedSum]; omega
    · rename_i c s h; rw [this] at h; simp at h
  | cons sp ds sp2 u rest m toks hsp hne hds hsp2 hune hu hl ht ih =>
    rw [durLoop.eq_def]
    match ds, hne with
    | d :: ds, _ =>
    match u, hune with
    | a :: u, _ =>
    have e1 : (sp ++ ((d :: ds) ++ (sp2 ++ ((a :: u) ++ rest)))).dropWhile isspace =
        (d :: ds) ++ (sp2 ++ ((a :: u) ++ rest)) :=
      (span_eq sp _ hsp (by
        rintro c t he; simp at he; rw [← he.1]; exact digit_not_space d (hds d (by simp)))).2
    have e2 := span_eq (p := isdigit) (d :: ds) (sp2 ++ ((a :: u) ++ rest)) hds (by
      rintro c t he
      match sp2, hsp2 with
      | [], _ => simp at he; rw [← he.1]; exact alpha_not_digit a (hu a (by simp))
      | x :: sp2, h2 => simp at he; rw [← he.1]; exact space_not_digit x (h2 x (by simp)))
    have e3 := (span_eq (p := isspace) sp2 ((a :: u) ++ rest) hsp2 (by
      rintro c t he; simp at he; rw [← he.1]; exact alpha_not_space a (hu a (by simp)))).2
    have e4 := span_eq (p := isalpha) (a :: u) rest hu (tokens_head_not_alpha ht)
    split
    · rename_i h; rw [e1] at h; simp at h
    · rename_i c s h
      rw [e1] at h
      simp only [List.cons_append, List.cons.injEq] at h
      obtain ⟨rfl, rfl⟩ := h
      simp only [List.cons_append] at e2 e3 e4
      rw [dif_neg (by simp [hds d (by simp)])]
      simp only [strtoul, e2, e3, e4]
      have hf := find_lookup tab (a :: u)
      rw [hl] at hf
      cases hff : tab.find? (fun e => e.1 == a :: u) with
      | none => rw [hff] at hf; simp at hf
      | some e =>
        rw [hff] at hf
        simp at hf
        simp only [List.isEmpty_cons, Bool.false_eq_true, if_false]
        rw [ih _ (Nat.mod_lt _ (by decide)) true]
        simp only [clampedSum, List.map_cons, List.sum_cons, hf, Nat.mod_add_mod]
        simp [Nat.add_assoc]

theorem durLoop_sound (tab : List (List Nat × Nat)) (input : List Nat) (out : Nat) (ok : Bool) (v : Nat)
    (h : durLoop tab input out ok = (true, v)) : ∃ toks, Tokens tab input toks := by
  fun_induction durLoop tab input out ok with
  | case1 input out ok he =>
    refine ⟨[], .nil _ ?_⟩
    have := takeWhile_all (p := isspace) input
    have e := List.takeWhile_append_dropWhile (p := isspace) (l := input)
    rw [he, List.append_nil] at e
    rwa [e] at this
  | case2 | case3 | case4 => simp at h
  | case5 input out ok c s he hd n u unit hu e hf ih =>
    obtain ⟨toks, ht⟩ := ih h
    have e0 := List.takeWhile_append_dropWhile (p := isspace) (l := input)
    have e1 := List.takeWhile_append_dropWhile (p := isdigit) (l := c :: s)
    have e2 := List.takeWhile_append_dropWhile (p := isspace) (l := (c :: s).dropWhile isdigit)
    have e3 := List.takeWhile_append_dropWhile (p := isalpha) (l := u)
    have hl := find_lookup tab unit
    rw [hf] at hl
    have := Tokens.cons (tab := tab) (input.takeWhile isspace) ((c :: s).takeWhile isdigit)
      (((c :: s).dropWhile isdigit).takeWhile isspace) unit (u.dropWhile isalpha) e.2 toks
      (takeWhile_all _) (by simp at hd; simp [List.takeWhile_cons, hd]) (takeWhile_all _) (takeWhile_all _)
      (by simpa using hu) (takeWhile_all _) hl.symm ht
    have hin : input = input.takeWhile isspace ++ ((c :: s).takeWhile isdigit ++
        (((c :: s).dropWhile isdigit).takeWhile isspace ++ (unit ++ u.dropWhile isalpha))) := by
      show _ = _ ++ (_ ++ (_ ++ (u.takeWhile isalpha ++ u.dropWhile isalpha)))
      rw [e3]
      show _ = _ ++ (_ ++ (_ ++ ((c :: s).dropWhile isdigit).dropWhile isspace))
      rw [e2, e1, ← he, e0]
    exact ⟨_, Eq.mpr (congrArg (fun x => Tokens tab x _) hin) this⟩

/-- **C14.** A duration string is accepted exactly when it is a non-empty sequence of
number–unit tokens whose units the table knows, and the value written is the sum of number times
multiplier, computed with saturating numbers and 64-bit wrap-around. -/
theorem C14_duration_iff (tab : List (List Nat × Nat)) (input : List Nat) (v : Nat) :
    parseDuration input tab = (true, v) ↔
      ∃ toks, toks ≠ [] ∧ Tokens tab input toks ∧ v = clampedSum toks % 2 ^ 64 := by
  constructor
  · intro h
    obtain ⟨toks, ht⟩ := durLoop_sound tab input 0 false v h
    have := durLoop_complete ht 0 (by decide) false
    unfold parseDuration at h
    rw [h] at this
    simp only [Bool.false_or, Prod.mk.injEq, Nat.zero_add] at this
    exact ⟨toks, by simpa using this.1.symm, ht, this.2⟩
  · rintro ⟨toks, hne, ht, rfl⟩
    rw [parseDuration, durLoop_complete ht 0 (by decide) false]
    simp [hne]

/-- **C14.** When the denoted duration fits 64 bits, the value is exact: the sum of every number
times its unit's multiplier. (Multipliers of the built-in tables are positive.) -/
theorem C14_duration_exact_partial (tab : List (List Nat × Nat)) (input : List Nat) (toks : List (Nat × Nat))
    (hne : toks ≠ []) (ht : Tokens tab input toks) (hpos : ∀ t ∈ toks, 0 < t.2) (hfit : exactSum toks < 2 ^ 64) :
    parseDuration input tab = (true, exactSum toks) := by
  refine (C14_duration_iff _ _ _).mpr ⟨toks, hne, ht, ?_⟩
  have : clampedSum toks = exactSum toks := by
    unfold clampedSum exactSum at *
    clear ht hne
    induction toks with
    | nil => rfl
    | cons t toks ih =>
      simp only [List.map_cons, List.sum_cons] at *
      have h1 := hpos t (by simp)
      have h2 : t.1 ≤ t.1 * t.2 := Nat.le_mul_of_pos_right _ h1
      rw [ih (fun x hx => hpos x (by simp [hx])) (by omega), Nat.min_eq_left (by omega)]
  rw [this, Nat.mod_eq_of_lt hfit]

/-- **C14, violated.** Durations too large for 64 bits are not rejected: the second text denotes
18446744073709552000 ns, the call succeeds and writes another number; and
a number too large for `strtoul` is replaced by the largest one. -/
theorem C14_duration_overflow_violated :
    parseDuration (bytesOf "18446744073709551616 ns") durationsNs = (true, 18446744073709551615) ∧
    parseDuration (bytesOf "18446744073709552 us") durationsNs = (true, 384) := by decide +kernel

/-- Length of every unit name in nanoseconds. -/
def unitNs : List (List Nat × Nat) :=
  [(bytesOf "ns", 1), (bytesOf "us", 10 ^ 3), (bytesOf "ms", 10 ^ 6),
   (bytesOf "s", 10 ^ 9), (bytesOf "sec", 10 ^ 9), (bytesOf "second", 10 ^ 9), (bytesOf "seconds", 10 ^ 9),
   (bytesOf "m", 60 * 10 ^ 9), (bytesOf "min", 60 * 10 ^ 9), (bytesOf "minute", 60 * 10 ^ 9), (bytesOf "minutes", 60 * 10 ^ 9),
   (bytesOf "h", 3600 * 10 ^ 9), (bytesOf "hr", 3600 * 10 ^ 9), (bytesOf "hour", 3600 * 10 ^ 9), (bytesOf "hours", 3600 * 10 ^ 9),
   (bytesOf "d", 86400 * 10 ^ 9), (bytesOf "day", 86400 * 10 ^ 9), (bytesOf "days", 86400 * 10 ^ 9),
   (bytesOf "w", 604800 * 10 ^ 9), (bytesOf "wk", 604800 * 10 ^ 9), (bytesOf "week", 604800 * 10 ^ 9), (bytesOf "weeks", 604800 * 10 ^ 9)]

/-- **C14.** In each of the four built-in tables, every unit's multiplier is its true length in the
table's resolution (1 ns, 1 us, 1 ms, 1 s), and every name of length ≥ the resolution is present —
except days and weeks in the ns table and weeks in the us table. -/
theorem C14_duration_units :
    (∀ e ∈ unitNs, durationsNs.lookup e.1 = if e.2 ≤ 3600 * 10 ^ 9 then some e.2 else none) ∧
    (∀ e ∈ unitNs, durationsUs.lookup e.1 = if 10 ^ 3 ≤ e.2 ∧ e.2 ≤ 86400 * 10 ^ 9 then some (e.2 / 10 ^ 3) else none) ∧
    (∀ e ∈ unitNs, durationsMs.lookup e.1 = if 10 ^ 6 ≤ e.2 then some (e.2 / 10 ^ 6) else none) ∧
    (∀ e ∈ unitNs, durationsS.lookup e.1 = if 10 ^ 9 ≤ e.2 then some (e.2 / 10 ^ 9) else none) ∧
    (∀ t ∈ [durationsNs, durationsUs, durationsMs, durationsS], ∀ e ∈ t, (unitNs.lookup e.1).isSome ∧ 0 < e.2) := by
  decide +kernel

example : parseDuration (bytesOf "1h 30 min2s") durationsS = (true, 5402) := by decide +kernel
example : Tokens durationsS (bytesOf "1h 30 min") [(1, 3600), (30, 60)] :=
  .cons [] (bytesOf "1") [] (bytesOf "h") (bytesOf " 30 min") 3600 _ (by decide) (by decide) (by decide) (by decide)
    (by decide) (by decide) (by decide +kernel)
    (.cons (bytesOf " ") (bytesOf "30") (bytesOf " ") (bytesOf "min") [] 60 _ (by decide) (by decide) (by decide) (by decide)
      (by decide) (by decide) (by decide +kernel) (.nil [] (by decide)))
example : parseDuration (bytesOf "5") durationsS = (false, 0) := by decide +kernel
example : parseDuration (bytesOf "  ") durationsS = (false, 0) := by decide +kernel

/-! ## Specification of timestamps: the proleptic Gregorian calendar, and the RFC 3339 shape -/

def Leap (y : Nat) : Prop := y % 4 = 0 ∧ (y % 100 ≠ 0 ∨ y % 400 = 0)
instance (y : Nat) : Decidable (Leap y) := by unfold Leap; infer_instance

/-- Days of month `m` (1..12) of year `y`. -/
def monthDays (y m : Nat) : Nat :=
  if m = 2 then (if Leap y then 29 else 28) else if m = 4 ∨ m = 6 ∨ m = 9 ∨ m = 11 then 30 else 31

/-- Days from 0000-01-01 to the first day of year `y`. -/
def daysToYear : Nat → Nat
  | 0 => 0
  | y + 1 => daysToYear y + (if Leap y then 366 else 365)

/-- Days from the first of January to the first of month `m` (1..12) of year `y`. -/
def daysToMonth (y m : Nat) : Nat := ((List.range m).map (fun k => if k = 0 then 0 else monthDays y k)).sum

/-- Seconds since 1970-01-01T00:00:00Z (no leap seconds). -/
def posix (y m d h mi s : Nat) : Int :=
  86400 * ((daysToYear y + daysToMonth y m + d : Int) - (daysToYear 1970 + 1)) + 3600 * h + 60 * mi + s

/-- A numeric field: blanks, then one to `n` digits with value `v` between `lo` and `hi`. -/
def Field (lo hi n v : Nat) (f : List Nat) : Prop :=
  ∃ sp ds, f = sp ++ ds ∧ (∀ c ∈ sp, c = 32) ∧ ds ≠ [] ∧ ds.length ≤ n ∧ (∀ c ∈ ds, isdigit c = true) ∧
    decimal ds = v ∧ lo ≤ v ∧ v ≤ hi

/-- A zone: `Z`, `z`, or a sign and `hours:minutes`, with its offset in seconds. -/
inductive Zone : List Nat → Int → Prop
  | utc (c : Nat) : c = 90 ∨ c = 122 → Zone [c] 0
  | plus (fh fm : List Nat) (h m : Nat) : Field 0 23 2 h fh → Field 0 59 2 m fm →
      Zone (43 :: (fh ++ 58 :: fm)) (3600 * h + 60 * m)
  | minus (fh fm : List Nat) (h m : Nat) : Field 0 23 2 h fh → Field 0 59 2 m fm →
      Zone (45 :: (fh ++ 58 :: fm)) (-(3600 * h + 60 * m))

/-- `year-month-dayThour:minute:second` and a zone. -/
def Stamp (input : List Nat) (y m d h mi s : Nat) (off : Int) : Prop :=
  ∃ fy fm fd t fh fi fs z, input = fy ++ 45 :: (fm ++ 45 :: (fd ++ t :: (fh ++ 58 :: (fi ++ 58 :: (fs ++ z))))) ∧
    (t = 84 ∨ t = 116) ∧ Field 0 9999 4 y fy ∧ Field 1 12 2 m fm ∧ Field 1 31 2 d fd ∧
    Field 0 23 2 h fh ∧ Field 0 59 2 mi fi ∧ Field 0 59 2 s fs ∧ Zone z off

theorem getNumber_sound {lo hi n v : Nat} {rp rest : List Nat} (hn : 1 ≤ n) (h : getNumber lo hi n rp = some (v, rest)) :
    ∃ f, rp = f ++ rest ∧ Field lo hi n v f := by
  unfold getNumber at h
  have e0 := List.takeWhile_append_dropWhile (p := (· == 32)) (l := rp)
  have a0 := takeWhile_all (p := (· == 32)) rp
  split at h
  · simp at h
  · rename_i c r he
    rw [he] at e0
    split at h
    · simp at h
    · rename_i hd
      obtain ⟨ds, h1, h2, h3, h4⟩ := moreDigits_sound hi (n - 1) (c - 48) r
      simp only at h
      split at h
      · simp at h
      · rename_i hr
        simp only [Option.some.injEq] at h
        rw [h] at h1 h4 hr
        simp only at h1 h4 hr
        refine ⟨rp.takeWhile (· == 32) ++ c :: ds, ?_, _, c :: ds, rfl, ?_, by simp, by simp; omega, ?_, ?_, by omega, by omega⟩
        · rw [List.append_assoc, List.cons_append, ← h1, e0]
        · intro x hx; simpa using a0 x hx
        · intro x hx
          rcases List.mem_cons.mp hx with rfl | hx
          · simpa using hd
          · exact h3 x hx
        · simp [decimal, h4]

theorem getNumber_complete {lo hi n v : Nat} {f rest : List Nat} (h : Field lo hi n v f)
    (hr : ∀ c r, rest = c :: r → isdigit c = false) : getNumber lo hi n (f ++ rest) = some (v, rest) := by
  obtain ⟨sp, ds, rfl, hsp, hne, hlen, hd, hv, h1, h2⟩ := h
  match ds, hne with
  | d :: ds, _ =>
    have hdd := hd d (by simp)
    have e := (span_eq (p := (· == 32)) sp ((d :: ds) ++ rest) (by simpa using hsp) (by
      intro c t he
      simp at he
      rw [← he.1]
      rw [isdigit_iff] at hdd
      simp; omega)).2
    unfold getNumber
    rw [List.append_assoc, e]
    simp only [List.cons_append, hdd, Bool.not_true, Bool.false_eq_true, if_false]
    have hm := moreDigits_complete hi (n - 1) (d - 48) ds rest (by simp at hlen; omega)
      (fun x hx => hd x (by simp [hx])) (by simp [decimal] at hv; omega) hr
    have hv' : ds.foldl (fun a d => a * 10 + (d - 48)) (d - 48) = v := by simpa [decimal] using hv
    rw [hm, hv']
    simp; omega

theorem matchChar_eq {c : Nat} {s r : List Nat} : matchChar c s = some r ↔ s = c :: r := by
  cases s with
  | nil => simp [matchChar]
  | cons d t =>
    simp only [matchChar]
    split
    · rename_i h; simp [h]
    · rename_i h; simp [h]

theorem strptimeHM_sound {s rest : List Nat} {h m : Int} (hp : strptimeHM s = some (h, m, rest)) :
    ∃ fh fm nh nm, s = fh ++ 58 :: (fm ++ rest) ∧ Field 0 23 2 nh fh ∧ Field 0 59 2 nm fm ∧ h = nh ∧ m = nm := by
  unfold strptimeHM at hp
  split at hp
  · simp at hp
  · rename_i nh s1 e1
    split at hp
    · simp at hp
    · rename_i s2 e2
      split at hp
      · simp at hp
      · rename_i nm s3 e3
        simp only [Option.some.injEq, Prod.mk.injEq] at hp
        obtain ⟨f1, rfl, g1⟩ := getNumber_sound (by decide) e1
        obtain rfl := matchChar_eq.mp e2
        obtain ⟨f2, rfl, g2⟩ := getNumber_sound (by decide) e3
        exact ⟨f1, f2, nh, nm, by rw [hp.2.2], g1, g2, hp.1.symm, hp.2.1.symm⟩

theorem strptimeHM_complete {fh fm rest : List Nat} {h m : Nat} (h1 : Field 0 23 2 h fh) (h2 : Field 0 59 2 m fm)
    (hr : ∀ c r, rest = c :: r → isdigit c = false) :
    strptimeHM (fh ++ 58 :: (fm ++ rest)) = some ((h : Int), (m : Int), rest) := by
  unfold strptimeHM
  rw [getNumber_complete h1 (by rintro c r he; simp at he; rw [← he.1]; rfl)]
  simp only [matchChar, if_true]
  rw [getNumber_complete h2 hr]

theorem strptimeHMS_sound {s rest : List Nat} {h m sec : Int} (hp : strptimeHMS s = some (h, m, sec, rest)) :
    ∃ fh fm fs nh nm ns, s = fh ++ 58 :: (fm ++ 58 :: (fs ++ rest)) ∧ Field 0 23 2 nh fh ∧ Field 0 59 2 nm fm ∧
      Field 0 61 2 ns fs ∧ h = nh ∧ m = nm ∧ sec = ns := by
  unfold strptimeHMS at hp
  split at hp
  · simp at hp
  · rename_i h1 m1 s1 e1
    split at hp
    · simp at hp
    · rename_i s2 e2
      split at hp
      · simp at hp
      · rename_i ns s3 e3
        simp only [Option.some.injEq, Prod.mk.injEq] at hp
        obtain ⟨f1, f2, nh, nm, rfl, g1, g2, e4, e5⟩ := strptimeHM_sound e1
        obtain rfl := matchChar_eq.mp e2
        obtain ⟨f3, rfl, g3⟩ := getNumber_sound (by decide) e3
        exact ⟨f1, f2, f3, nh, nm, ns, by rw [hp.2.2.2], g1, g2, g3, by omega, by omega, by omega⟩

theorem strptimeHMS_complete {fh fm fs rest : List Nat} {h m s : Nat} (h1 : Field 0 23 2 h fh) (h2 : Field 0 59 2 m fm)
    (h3 : Field 0 61 2 s fs) (hr : ∀ c r, rest = c :: r → isdigit c = false) :
    strptimeHMS (fh ++ 58 :: (fm ++ 58 :: (fs ++ rest))) = some ((h : Int), (m : Int), (s : Int), rest) := by
  unfold strptimeHMS
  rw [strptimeHM_complete h1 h2 (by rintro c r he; simp at he; rw [← he.1]; rfl)]
  simp only [matchChar, if_true]
  rw [getNumber_complete h3 hr]

theorem strptimeDate_sound {s rest : List Nat} {y m d : Int} (hp : strptimeDate s = some (y, m, d, rest)) :
    ∃ fy fm fd ny nm nd, s = fy ++ 45 :: (fm ++ 45 :: (fd ++ rest)) ∧ Field 0 9999 4 ny fy ∧ Field 1 12 2 nm fm ∧
      Field 1 31 2 nd fd ∧ y = (ny : Int) - 1900 ∧ m = (nm : Int) - 1 ∧ d = nd := by
  unfold strptimeDate at hp
  split at hp
  · simp at hp
  · rename_i ny s1 e1
    split at hp
    · simp at hp
    · rename_i s2 e2
      split at hp
      · simp at hp
      · rename_i nm s3 e3
        split at hp
        · simp at hp
        · rename_i s4 e4
          split at hp
          · simp at hp
          · rename_i nd s5 e5
            simp only [Option.some.injEq, Prod.mk.injEq] at hp
            obtain ⟨f1, rfl, g1⟩ := getNumber_sound (by decide) e1
            obtain rfl := matchChar_eq.mp e2
            obtain ⟨f2, rfl, g2⟩ := getNumber_sound (by decide) e3
            obtain rfl := matchChar_eq.mp e4
            obtain ⟨f3, rfl, g3⟩ := getNumber_sound (by decide) e5
            exact ⟨f1, f2, f3, ny, nm, nd, by rw [hp.2.2.2], g1, g2, g3, by omega, by omega, by omega⟩

theorem strptimeDate_complete {fy fm fd rest : List Nat} {y m d : Nat} (h1 : Field 0 9999 4 y fy) (h2 : Field 1 12 2 m fm)
    (h3 : Field 1 31 2 d fd) (hr : ∀ c r, rest = c :: r → isdigit c = false) :
    strptimeDate (fy ++ 45 :: (fm ++ 45 :: (fd ++ rest))) = some ((y : Int) - 1900, (m : Int) - 1, (d : Int), rest) := by
  unfold strptimeDate
  rw [getNumber_complete h1 (by rintro c r he; simp at he; rw [← he.1]; rfl)]
  simp only [matchChar, if_true]
  rw [getNumber_complete h2 (by rintro c r he; simp at he; rw [← he.1]; rfl)]
  simp only [matchChar, if_true]
  rw [getNumber_complete h3 hr]

theorem Field.range {lo hi n v f} (h : Field lo hi n v f) : lo ≤ v ∧ v ≤ hi := by
  obtain ⟨_, _, _, _, _, _, _, _, h1, h2⟩ := h; exact ⟨h1, h2⟩

theorem Field.weaken {lo hi hi' n v f} (h : Field lo hi n v f) (hh : v ≤ hi') : Field lo hi' n v f := by
  obtain ⟨a, b, c, d, e, f, g, i, h1, h2⟩ := h; exact ⟨a, b, c, d, e, f, g, i, h1, hh⟩

theorem parseZone_iff {s : List Nat} {off : Int} : parseZone s = some off ↔ Zone s off := by
  constructor
  · intro h
    unfold parseZone at h
    split at h
    · simp at h
    · rename_i c r
      split at h
      · rename_i hc
        split at h
        · simp at h
        · rename_i hh mm rest e
          obtain ⟨fh, fm, nh, nm, rfl, g1, g2, rfl, rfl⟩ := strptimeHM_sound e
          split at h
          · simp at h
          · split at h
            · simp at h
            · rename_i hr
              simp only [ne_eq, not_not] at hr
              subst hr
              simp only [Option.some.injEq] at h
              rw [List.append_nil]
              rcases hc with rfl | rfl
              · have := Zone.minus fh fm nh nm g1 g2
                rw [if_pos rfl] at h
                rw [← h]
                have e : (((nh : Int) * 60 + nm) * 60 * -1) = -(3600 * nh + 60 * nm) := by omega
                rw [e]; exact this
              · have := Zone.plus fh fm nh nm g1 g2
                rw [if_neg (by decide)] at h
                rw [← h]
                have e : (((nh : Int) * 60 + nm) * 60) = (3600 * nh + 60 * nm) := by omega
                rw [e]; exact this
      · split at h
        · rename_i hc
          split at h
          · simp at h
          · rename_i hr
            simp at hr h
            subst hr; subst h
            exact .utc c (by omega)
        · simp at h
  · intro h
    cases h with
    | utc c hc => rcases hc with rfl | rfl <;> rfl
    | plus fh fm h m h1 h2 =>
      have := strptimeHM_complete h1 h2 (rest := []) (by simp)
      rw [List.append_nil] at this
      have r1 := h1.range
      have r2 := h2.range
      simp only [parseZone, this]
      have : isValidTime h m 0 = true := by simp [isValidTime]; omega
      simp [this]; omega
    | minus fh fm h m h1 h2 =>
      have := strptimeHM_complete h1 h2 (rest := []) (by simp)
      rw [List.append_nil] at this
      have r1 := h1.range
      have r2 := h2.range
      simp only [parseZone, this]
      have : isValidTime h m 0 = true := by simp [isValidTime]; omega
      simp [this]; omega

theorem zone_not_digit {z off} (h : Zone z off) : ∀ c r, z = c :: r → isdigit c = false := by
  cases h with
  | utc c hc => rintro d r he; simp at he; rw [← he.1]; rcases hc with rfl | rfl <;> rfl
  | plus | minus => rintro d r he; simp at he; rw [← he.1]; rfl

theorem daysToYear_closed (y : Nat) : daysToYear y = 365 * y + (y + 3) / 4 - (y + 99) / 100 + (y + 399) / 400 := by
  induction y with
  | zero => rfl
  | succ y ih =>
    rw [daysToYear, ih]
    by_cases hl : Leap y
    · rw [if_pos hl]; unfold Leap at hl; omega
    · rw [if_neg hl]; unfold Leap at hl; omega

theorem daysToMonth_eq (y m : Nat) (h1 : 1 ≤ m) (h2 : m ≤ 12) :
    (daysToMonth y m : Int) = cumdays.getD (m - 1) 0 + (if Leap y ∧ 3 ≤ m then 1 else 0) := by
  by_cases hl : Leap y <;> interval_cases m <;> simp [daysToMonth, List.range_succ, monthDays, cumdays, hl]

theorem leap_tmod (y : Nat) (h : 1900 ≤ y) :
    (Int.tmod (y : Int) 4 = 0 ∧ (Int.tmod (y : Int) 100 ≠ 0 ∨ Int.tmod (y : Int) 400 = 0)) ↔ Leap y := by
  unfold Leap
  rw [Int.tmod_eq_emod_of_nonneg (by omega), Int.tmod_eq_emod_of_nonneg (by omega), Int.tmod_eq_emod_of_nonneg (by omega)]
  omega

theorem timegm_eq (y m d h mi s : Nat) (hy : 1968 ≤ y) (h1 : 1 ≤ m) (h2 : m ≤ 12) :
    timegm ((y : Int) - 1900) ((m : Int) - 1) d h mi s = posix y m d h mi s := by
  have hm := daysToMonth_eq y m h1 h2
  have hl := leap_tmod y (by omega)
  have ey : (1900 : Int) + (y - 1900) = y := by omega
  have et : ((m : Int) - 1).toNat = m - 1 := by omega
  unfold timegm posix
  simp only [ey, et]
  rw [hm, daysToYear_closed, daysToYear_closed]
  rw [Int.tdiv_eq_ediv_of_nonneg (by omega), Int.tdiv_eq_ediv_of_nonneg (by omega), Int.tdiv_eq_ediv_of_nonneg (by omega)]
  by_cases hle : Leap y
  · have hx := hl.mpr hle
    by_cases h3 : 3 ≤ m
    · rw [if_neg (fun hh => absurd hh.2.2 (by omega)), if_pos ⟨hle, h3⟩]
      unfold Leap at hle
      omega
    · rw [if_pos ⟨hx.1, hx.2, by omega⟩, if_neg (fun hh => h3 hh.2)]
      unfold Leap at hle
      omega
  · rw [if_neg (fun hh => hle (hl.mp ⟨hh.1, hh.2.1⟩)), if_neg (fun hh => hle hh.1)]
    unfold Leap at hle
    omega

/-- Before 1968 the computed value may be wrong, but it is below minus one day and a half. -/
theorem timegm_early (y m d h mi s : Nat) (hy : y < 1968) (hy2 : 1900 ≤ y) (h1 : 1 ≤ m) (h2 : m ≤ 12) (hd : d ≤ 31) (hh : h ≤ 23)
    (hmi : mi ≤ 59) (hs : s ≤ 59) :
    timegm ((y : Int) - 1900) ((m : Int) - 1) d h mi s < -200000 ∧ posix y m d h mi s < -200000 := by
  have hm := daysToMonth_eq y m h1 h2
  have hc : cumdays.getD (m - 1) 0 ≤ 334 := by interval_cases m <;> decide
  have ey : (1900 : Int) + (y - 1900) = y := by omega
  have et : ((m : Int) - 1).toNat = m - 1 := by omega
  constructor
  · unfold timegm
    simp only [ey, et]
    have e1 : Int.tdiv ((y : Int) - 1968) 4 ≤ 0 := by
      have := Int.neg_tdiv (a := 1968 - (y : Int)) (b := 4)
      rw [show -(1968 - (y : Int)) = y - 1968 by omega] at this
      rw [this, Int.tdiv_eq_ediv_of_nonneg (by omega)]
      omega
    have e2 : Int.tdiv ((y : Int) - 1900) 100 = 0 := by
      rw [Int.tdiv_eq_ediv_of_nonneg (by omega)]; omega
    have e3 : Int.tdiv ((y : Int) - 1600) 400 = 0 := by
      rw [Int.tdiv_eq_ediv_of_nonneg (by omega)]; omega
    rw [e2, e3]
    generalize Int.tdiv ((y : Int) - 1968) 4 = q at e1
    generalize cumdays.getD (m - 1) 0 = c at hc
    split <;> omega
  · unfold posix
    rw [hm, daysToYear_closed, daysToYear_closed]
    generalize cumdays.getD (m - 1) 0 = c at hc
    split <;> omega

theorem isValidDate_iff (y m d : Nat) (h1 : 1 ≤ m) (h2 : m ≤ 12) (hd1 : 1 ≤ d) (hd : d ≤ 31) (hy : 1900 ≤ y)
    (hc : ¬ (m = 2 ∧ d = 29 ∧ y % 100 = 0)) :
    isValidDate ((y : Int) - 1900) ((m : Int) - 1) d = true ↔ d ≤ monthDays y m := by
  unfold isValidDate monthDays
  rw [if_neg (by omega)]
  by_cases hm : m = 2
  · subst hm
    simp only [show ((2 : Nat) : Int) - 1 = 1 from rfl, if_true]
    rw [Int.tmod_eq_emod_of_nonneg (by omega), Int.tmod_eq_emod_of_nonneg (by omega), Int.tmod_eq_emod_of_nonneg (by omega)]
    by_cases hl : Leap y
    · rw [if_pos hl]; unfold Leap at hl
      by_cases hx : ((y : Int) - 1900) % 4 = 0 ∧ (((y : Int) - 1900) % 100 ≠ 0 ∨ ((y : Int) - 1900) % 400 = 0)
      · rw [if_pos hx]; simp
      · rw [if_neg hx]; simp; omega
    · rw [if_neg hl]; unfold Leap at hl
      by_cases hx : ((y : Int) - 1900) % 4 = 0 ∧ (((y : Int) - 1900) % 100 ≠ 0 ∨ ((y : Int) - 1900) % 400 = 0)
      · rw [if_pos hx]; simp; omega
      · rw [if_neg hx]; simp
  · rw [if_neg hm]
    have hm' : ¬ ((m : Int) - 1 = 1) := by omega
    by_cases h4 : m = 4 ∨ m = 6 ∨ m = 9 ∨ m = 11
    · have h4' : (m : Int) - 1 = 3 ∨ (m : Int) - 1 = 5 ∨ (m : Int) - 1 = 8 ∨ (m : Int) - 1 = 10 := by omega
      simp only [if_pos h4, if_neg hm', if_pos h4']; simp
    · have h4' : ¬ ((m : Int) - 1 = 3 ∨ (m : Int) - 1 = 5 ∨ (m : Int) - 1 = 8 ∨ (m : Int) - 1 = 10) := by omega
      simp only [if_neg h4, if_neg hm', if_neg h4']; simp

theorem zone_range {z off} (h : Zone z off) : -86400 < off ∧ off < 86400 := by
  cases h with
  | utc => omega
  | plus _ _ _ _ h1 h2 => have := h1.range; have := h2.range; omega
  | minus _ _ _ _ h1 h2 => have := h1.range; have := h2.range; omega

/-- What the parser computes on a well-shaped stamp. -/
theorem parseTimeGm_stamp {input : List Nat} {y m d h mi s : Nat} {off : Int} (hst : Stamp input y m d h mi s off) :
    parseTimeGm input =
      if isValidDate ((y : Int) - 1900) ((m : Int) - 1) d = false then .errFormat
      else if timegm ((y : Int) - 1900) ((m : Int) - 1) d h mi s - off < 0 then .errUnrepresentable
      else .ok (timegm ((y : Int) - 1900) ((m : Int) - 1) d h mi s - off).toNat := by
  obtain ⟨fy, fm, fd, t, fh, fi, fs, z, rfl, ht, gy, gm, gd, gh, gi, gs, gz⟩ := hst
  unfold parseTimeGm
  rw [strptimeDate_complete gy gm gd (by rintro c r he; simp at he; rw [← he.1]; rcases ht with rfl | rfl <;> rfl)]
  simp only [ht, not_true, if_false]
  rw [strptimeHMS_complete gh gi (gs.weaken (by have := gs.range; omega)) (zone_not_digit gz)]
  have h1 := gh.range
  have h2 := gi.range
  have h3 := gs.range
  have hv : isValidTime h mi s = true := by simp [isValidTime]; omega
  simp only [hv, parseZone_iff.mpr gz]
  cases isValidDate ((y : Int) - 1900) ((m : Int) - 1) d <;> simp

/-- **C15 (partial).** On every RFC 3339 stamp other than a 29th of February of a year divisible by
100, the parser succeeds with `v` exactly when the date exists in the Gregorian calendar and `v`
is the number of seconds from the Unix epoch to the instant denoted (so a negative count never
succeeds). Missing: 29 February of century years, where the code is wrong (`..._violated` below). -/
theorem C15_time_gm_partial (input : List Nat) (y m d h mi s : Nat) (off : Int) (v : Nat)
    (hst : Stamp input y m d h mi s off) (hc : ¬ (m = 2 ∧ d = 29 ∧ y % 100 = 0)) :
    parseTimeGm input = .ok v ↔ d ≤ monthDays y m ∧ posix y m d h mi s - off = v := by
  rw [parseTimeGm_stamp hst]
  obtain ⟨fy, fm, fd, t, fh, fi, fs, z, rfl, ht, gy, gm, gd, gh, gi, gs, gz⟩ := hst
  have rm := gm.range
  have rd := gd.range
  have rh := gh.range
  have ri := gi.range
  have rs := gs.range
  have rz := zone_range gz
  by_cases hy : 1968 ≤ y
  · rw [timegm_eq y m d h mi s hy rm.1 rm.2]
    have hv := isValidDate_iff y m d rm.1 rm.2 rd.1 rd.2 (by omega) hc
    generalize posix y m d h mi s = P
    by_cases hd : d ≤ monthDays y m
    · rw [if_neg (by rw [hv.mpr hd]; simp)]
      by_cases hn : P - off < 0
      · rw [if_pos hn]; simp; omega
      · rw [if_neg hn]; simp [hd]; omega
    · rw [if_pos (by rw [← hv] at hd; simpa using hd)]; simp [hd]
  · have hp : posix y m d h mi s < -200000 := by
      by_cases h19 : 1900 ≤ y
      · exact (timegm_early y m d h mi s (by omega) h19 rm.1 rm.2 rd.2 rh.2 ri.2 rs.2).2
      · have hm := daysToMonth_eq y m rm.1 rm.2
        have hcd : cumdays.getD (m - 1) 0 ≤ 334 := by
          obtain ⟨a, b⟩ := rm
          interval_cases m <;> decide
        unfold posix
        rw [hm, daysToYear_closed, daysToYear_closed]
        generalize cumdays.getD (m - 1) 0 = c at hcd
        split <;> omega
    have hr : ¬ (d ≤ monthDays y m ∧ posix y m d h mi s - off = v) := by omega
    simp only [hr, iff_false]
    by_cases h19 : 1900 ≤ y
    · have ht := (timegm_early y m d h mi s (by omega) h19 rm.1 rm.2 rd.2 rh.2 ri.2 rs.2).1
      split
      · simp
      · rw [if_pos (by omega)]; simp
    · rw [if_pos (by unfold isValidDate; rw [if_pos (by omega)])]; simp

/-- **C15.** Nothing else is accepted: success implies the input is an RFC 3339 stamp. -/
theorem C15_time_gm_only_stamps (input : List Nat) (v : Nat) (hp : parseTimeGm input = .ok v) :
    ∃ y m d h mi s off, Stamp input y m d h mi s off := by
  unfold parseTimeGm at hp
  split at hp
  · simp at hp
  · simp at hp
  · rename_i y mo d t s e
    obtain ⟨fy, fm, fd, ny, nm, nd, rfl, gy, gm, gd, rfl, rfl, rfl⟩ := strptimeDate_sound e
    split at hp
    · simp at hp
    · rename_i ht
      split at hp
      · simp at hp
      · split at hp
        · simp at hp
        · rename_i h mi sec s' e2
          obtain ⟨fh, fi, fs, nh, ni, ns, rfl, gh, gi, gs, rfl, rfl, rfl⟩ := strptimeHMS_sound e2
          split at hp
          · simp at hp
          · rename_i hv
            have hs : ns ≤ 59 := by
              simp [isValidTime] at hv; omega
            split at hp
            · simp at hp
            · rename_i off hz
              exact ⟨ny, nm, nd, nh, ni, ns, off, fy, fm, fd, t, fh, fi, fs, s', rfl, by omega, gy, gm, gd, gh, gi,
                gs.weaken hs, parseZone_iff.mp hz⟩

/-- **C15, violated.** The existing date 29 February 2000 is rejected, and the 29th of February
2300, which does not exist, is accepted (as the 1st of March). -/
theorem C15_time_gm_violated :
    (Stamp (bytesOf "2000-02-29T00:00:00Z") 2000 2 29 0 0 0 0 ∧ 29 ≤ monthDays 2000 2 ∧
      parseTimeGm (bytesOf "2000-02-29T00:00:00Z") = .errFormat) ∧
    (Stamp (bytesOf "2300-02-29T00:00:00Z") 2300 2 29 0 0 0 0 ∧ ¬ 29 ≤ monthDays 2300 2 ∧
      parseTimeGm (bytesOf "2300-02-29T00:00:00Z") = parseTimeGm (bytesOf "2300-03-01T00:00:00Z") ∧
      ∃ v, parseTimeGm (bytesOf "2300-02-29T00:00:00Z") = .ok v) := by
  have f : ∀ (lo hi n v : Nat) (ds : List Nat), ds ≠ [] → ds.length ≤ n → (∀ c ∈ ds, isdigit c = true) → decimal ds = v →
      lo ≤ v → v ≤ hi → Field lo hi n v ds := fun lo hi n v ds a b c d e g => ⟨[], ds, by simp, by simp, a, b, c, d, e, g⟩
  refine ⟨⟨⟨bytesOf "2000", bytesOf "02", bytesOf "29", 84, bytesOf "00", bytesOf "00", bytesOf "00", bytesOf "Z",
    by decide +kernel, .inl rfl, ?_, ?_, ?_, ?_, ?_, ?_, .utc 90 (.inl rfl)⟩, by decide, by decide +kernel⟩,
    ⟨bytesOf "2300", bytesOf "02", bytesOf "29", 84, bytesOf "00", bytesOf "00", bytesOf "00", bytesOf "Z",
    by decide +kernel, .inl rfl, ?_, ?_, ?_, ?_, ?_, ?_, .utc 90 (.inl rfl)⟩, by decide, by decide +kernel,
    ⟨10418889600, by decide +kernel⟩⟩ <;>
  exact f _ _ _ _ _ (by decide) (by decide) (by decide) (by decide +kernel) (by decide) (by decide)

example : parseTimeGm (bytesOf "2016-02-29T12:34:56+01:30") = .ok 1456743896 := by decide +kernel
example : parseTimeGm (bytesOf "1970-01-01T00:00:00+00:01") = .errUnrepresentable := by decide +kernel
example : parseTimeGm (bytesOf "1969-12-31T23:00:00-02:00") = .ok 3600 := by decide +kernel
example : posix 2016 2 29 12 34 56 - 5400 = 1456743896 := by
  unfold posix; rw [daysToYear_closed, daysToYear_closed]; decide +kernel

/-! ## C46: booleans -/

/-- **C46.** `yes/true/on` are true, `no/false/off` are false, in any letter case, and nothing else
is accepted. -/
theorem C46_boolean_iff (input : List Nat) (b : Bool) :
    parseBoolean input = some b ↔
      ∃ w ∈ (if b then [bytesOf "yes", bytesOf "true", bytesOf "on"] else [bytesOf "no", bytesOf "false", bytesOf "off"]),
        input.map lower = w := by
  have e : ∀ w ∈ [bytesOf "yes", bytesOf "true", bytesOf "on", bytesOf "no", bytesOf "false", bytesOf "off"],
      w.map lower = w := by decide +kernel
  simp only [List.mem_cons, List.not_mem_nil, or_false, forall_eq_or_imp, forall_eq] at e
  obtain ⟨e1, e2, e3, e4, e5, e6⟩ := e
  have nodup : [bytesOf "yes", bytesOf "true", bytesOf "on", bytesOf "no", bytesOf "false", bytesOf "off"].Nodup := by
    decide +kernel
  unfold parseBoolean caseEq
  rw [e1, e2, e3, e4, e5, e6]
  simp only [Bool.or_eq_true, beq_iff_eq]
  generalize input.map lower = w
  generalize bytesOf "yes" = a1 at *
  generalize bytesOf "true" = a2 at *
  generalize bytesOf "on" = a3 at *
  generalize bytesOf "no" = a4 at *
  generalize bytesOf "false" = a5 at *
  generalize bytesOf "off" = a6 at *
  simp only [List.nodup_cons, List.mem_cons, List.not_mem_nil, or_false, not_or] at nodup
  cases b
  · simp only [Bool.false_eq_true, if_false, List.mem_cons, List.not_mem_nil, or_false, exists_eq_or_imp, exists_eq_left]
    by_cases h1 : (w = a1 ∨ w = a2) ∨ w = a3
    · rw [if_pos h1]
      simp only [Option.some.injEq, Bool.true_eq_false, false_iff]
      rintro (h | h | h) <;> subst h <;> rcases h1 with (h1 | h1) | h1 <;> subst h1 <;> simp_all
    · rw [if_neg h1]
      by_cases h2 : (w = a4 ∨ w = a5) ∨ w = a6
      · rw [if_pos h2]; simp only [true_iff]; tauto
      · rw [if_neg h2]; simp; tauto
  · simp only [if_true, List.mem_cons, List.not_mem_nil, or_false, exists_eq_or_imp, exists_eq_left]
    by_cases h1 : (w = a1 ∨ w = a2) ∨ w = a3
    · rw [if_pos h1]; simp only [true_iff]; tauto
    · rw [if_neg h1]
      by_cases h2 : (w = a4 ∨ w = a5) ∨ w = a6
      · rw [if_pos h2]; simp; tauto
      · rw [if_neg h2]; simp; tauto

example : parseBoolean (bytesOf "TrUe") = some true := by decide +kernel
example : parseBoolean (bytesOf "oFF") = some false := by decide +kernel
example : parseBoolean (bytesOf "1") = none := by decide +kernel

end Mtev.Confstr
