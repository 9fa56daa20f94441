import Verif.Basic

/-!
# Model of `src/utils/mtev_confstr.c`

A C string is the list of its bytes without the terminator; the end of the list is the NUL.
`isspace`, `isdigit`, `isalpha` are those of the "C" locale.  `strtoul` (base 10, 64-bit
`unsigned long`) and `strptime` are modelled after the C library (glibc): `strptime` numeric fields
skip blanks, take at most `n` digits while another digit could still stay in range, and are then
range checked.
-/

namespace Mtev.Confstr

def isspace (c : Nat) : Bool := c == 32 || (9 ≤ c && c ≤ 13)
def isdigit (c : Nat) : Bool := 48 ≤ c && c ≤ 57
def isalpha (c : Nat) : Bool := (65 ≤ c && c ≤ 90) || (97 ≤ c && c ≤ 122)

/-- Value of a run of decimal digits. -/
def decimal (ds : List Nat) : Nat := ds.foldl (fun a d => a * 10 + (d - 48)) 0

/-! ## Durations -/

/-- The multipliers of mtev_confstr.c:7-40, for a table whose resolution unit is `1/base` seconds:
each `DURATION_x_MUL` step. -/
def secEntries (s : Nat) : List (List Nat × Nat) :=
  [(bytesOf "s", s), (bytesOf "sec", s), (bytesOf "second", s), (bytesOf "seconds", s)]
def minEntries (m : Nat) : List (List Nat × Nat) :=
  [(bytesOf "m", m), (bytesOf "min", m), (bytesOf "minute", m), (bytesOf "minutes", m)]
def hrEntries (h : Nat) : List (List Nat × Nat) :=
  [(bytesOf "h", h), (bytesOf "hr", h), (bytesOf "hour", h), (bytesOf "hours", h)]
def dayEntries (d : Nat) : List (List Nat × Nat) :=
  [(bytesOf "d", d), (bytesOf "day", d), (bytesOf "days", d)]
def weekEntries (w : Nat) : List (List Nat × Nat) :=
  [(bytesOf "w", w), (bytesOf "wk", w), (bytesOf "week", w), (bytesOf "weeks", w)]

/-- `mtev_duration_definition_ns`, mtev_confstr.c:79-88 (the terminating entry is the list end). -/
def durationsNs : List (List Nat × Nat) :=
  [(bytesOf "ns", 1), (bytesOf "us", 1000 * 1), (bytesOf "ms", 1000 * (1000 * 1))] ++
  secEntries (1000 * (1000 * 1000)) ++ minEntries (60 * (1000 * (1000 * 1000))) ++
  hrEntries (60 * (60 * (1000 * (1000 * 1000))))

/-- `mtev_duration_definition_us`, mtev_confstr.c:90-99. -/
def durationsUs : List (List Nat × Nat) :=
  [(bytesOf "us", 1), (bytesOf "ms", 1000 * 1)] ++
  secEntries (1000 * 1000) ++ minEntries (60 * (1000 * 1000)) ++
  hrEntries (60 * (60 * (1000 * 1000))) ++ dayEntries (24 * (60 * (60 * (1000 * 1000))))

/-- `mtev_duration_definition_ms`, mtev_confstr.c:101-110. -/
def durationsMs : List (List Nat × Nat) :=
  [(bytesOf "ms", 1)] ++ secEntries (1000 * 1) ++ minEntries (60 * (1000 * 1)) ++
  hrEntries (60 * (60 * (1000 * 1))) ++ dayEntries (24 * (60 * (60 * (1000 * 1)))) ++
  weekEntries (7 * (24 * (60 * (60 * (1000 * 1)))))

/-- `mtev_duration_definition_s`, mtev_confstr.c:112-120. -/
def durationsS : List (List Nat × Nat) :=
  secEntries 1 ++ minEntries (60 * 1) ++ hrEntries (60 * (60 * 1)) ++ dayEntries (24 * (60 * (60 * 1))) ++
  weekEntries (7 * (24 * (60 * (60 * 1))))

/-- `strtoul(input, &end, 10)` on a text that starts with a digit: value (saturating at
`ULONG_MAX`) and the rest. -/
def strtoul (s : List Nat) : Nat × List Nat :=
  (min (decimal (s.takeWhile isdigit)) (2 ^ 64 - 1), s.dropWhile isdigit)

/-- The loop of `mtev_confstr_parse_duration`, mtev_confstr.c:158-197; result: whether SUCCESS is
returned, and `*output`. -/
def durLoop (tab : List (List Nat × Nat)) (input : List Nat) (out : Nat) (success : Bool) : Bool × Nat :=
  match h : input.dropWhile isspace with
  | [] => (success, out)
  | c :: s =>
    if hd : isdigit c = false then (false, out)
    else
      let n := strtoul (c :: s)
      let u := n.2.dropWhile isspace
      let unit := u.takeWhile isalpha
      if unit.isEmpty then (false, out)
      else match tab.find? (fun e => e.1 == unit) with
        | none => (false, out)
        | some e => durLoop tab (u.dropWhile isalpha) ((out + n.1 * e.2) % 2 ^ 64) true
termination_by input.length
decreasing_by
  have h1 : (input.dropWhile isspace).length ≤ input.length := (List.dropWhile_sublist _).length_le
  simp only [strtoul] at *
  have h2 : ((c :: s).dropWhile isdigit).length ≤ s.length := by
    rw [List.dropWhile_cons_of_pos (by simpa using hd)]
    exact (List.dropWhile_sublist _).length_le
  have h3 := (List.dropWhile_sublist (l := (c :: s).dropWhile isdigit) isspace).length_le
  have h4 := (List.dropWhile_sublist (l := ((c :: s).dropWhile isdigit).dropWhile isspace) isalpha).length_le
  rw [h] at h1
  simp only [List.length_cons] at h1
  show (List.dropWhile isalpha (List.dropWhile isspace (List.dropWhile isdigit (c :: s)))).length < input.length
  omega

/-- `mtev_confstr_parse_duration`, mtev_confstr.c:149-198. -/
def parseDuration (input : List Nat) (tab : List (List Nat × Nat)) : Bool × Nat := durLoop tab input 0 false

/-! ## Booleans -/

def lower (c : Nat) : Nat := if 65 ≤ c ∧ c ≤ 90 then c + 32 else c

/-- `!strcasecmp(a, b)` in the "C" locale. -/
def caseEq (a b : List Nat) : Bool := a.map lower == b.map lower

/-- `mtev_confstr_parse_boolean`, mtev_confstr.c:135-146. -/
def parseBoolean (input : List Nat) : Option Bool :=
  if caseEq input (bytesOf "yes") || caseEq input (bytesOf "true") || caseEq input (bytesOf "on") then some true
  else if caseEq input (bytesOf "no") || caseEq input (bytesOf "false") || caseEq input (bytesOf "off") then some false
  else none

/-! ## Times -/

/-- Digit loop of glibc `get_number`: at most `n` more digits while `val * 10 <= to`. -/
def moreDigits (hi : Nat) : Nat → Nat → List Nat → Nat × List Nat
  | 0, val, rp => (val, rp)
  | n + 1, val, rp =>
    match rp with
    | [] => (val, rp)
    | c :: r => if val * 10 ≤ hi ∧ isdigit c = true then moreDigits hi n (val * 10 + (c - 48)) r else (val, rp)

/-- glibc `get_number (from, to, n)`. -/
def getNumber (lo hi n : Nat) (rp : List Nat) : Option (Nat × List Nat) :=
  match rp.dropWhile (· == 32) with
  | [] => none
  | c :: r =>
    if !isdigit c then none
    else
      let p := moreDigits hi (n - 1) (c - 48) r
      if p.1 < lo ∨ p.1 > hi then none else some p

/-- A literal format character of `strptime`. -/
def matchChar (c : Nat) : List Nat → Option (List Nat)
  | [] => none
  | d :: r => if d = c then some r else none

/-- `strptime(input, "%Y-%m-%d", ..)`: `tm_year`, `tm_mon`, `tm_mday` and the rest. -/
def strptimeDate (s : List Nat) : Option (Int × Int × Int × List Nat) :=
  match getNumber 0 9999 4 s with
  | none => none
  | some (y, s) =>
    match matchChar 45 s with
    | none => none
    | some s =>
      match getNumber 1 12 2 s with
      | none => none
      | some (m, s) =>
        match matchChar 45 s with
        | none => none
        | some s =>
          match getNumber 1 31 2 s with
          | none => none
          | some (d, s) => some ((y : Int) - 1900, (m : Int) - 1, (d : Int), s)

/-- `strptime(input, "%R", ..)` (`%H:%M`). -/
def strptimeHM (s : List Nat) : Option (Int × Int × List Nat) :=
  match getNumber 0 23 2 s with
  | none => none
  | some (h, s) =>
    match matchChar 58 s with
    | none => none
    | some s =>
      match getNumber 0 59 2 s with
      | none => none
      | some (m, s) => some ((h : Int), (m : Int), s)

/-- `strptime(input, "%T", ..)` (`%H:%M:%S`). -/
def strptimeHMS (s : List Nat) : Option (Int × Int × Int × List Nat) :=
  match strptimeHM s with
  | none => none
  | some (h, m, s) =>
    match matchChar 58 s with
    | none => none
    | some s =>
      match getNumber 0 61 2 s with
      | none => none
      | some (sec, s) => some (h, m, (sec : Int), s)

/-- `is_valid_date`, mtev_confstr.c:200-225 (it is called with `tm_year`, the year minus 1900). -/
def isValidDate (year month day : Int) : Bool :=
  if year < 0 ∨ month < 0 ∨ month > 11 ∨ day < 1 ∨ day > 31 then false
  else
    let maxDays : Int :=
      if month = 1 then
        if Int.tmod year 4 = 0 ∧ (Int.tmod year 100 ≠ 0 ∨ Int.tmod year 400 = 0) then 29 else 28
      else if month = 3 ∨ month = 5 ∨ month = 8 ∨ month = 10 then 30
      else 31
    if day > maxDays then false else true

/-- `is_valid_time`, mtev_confstr.c:227-233. -/
def isValidTime (h m s : Int) : Bool :=
  if h < 0 ∨ h > 23 ∨ m < 0 ∨ m > 59 ∨ s < 0 ∨ s > 59 then false else true

/-- `cumdays`, mtev_confstr.c:251-252. -/
def cumdays : List Int := [0, 31, 59, 90, 120, 151, 181, 212, 243, 273, 304, 334]

/-- `mtev_timegm`, mtev_confstr.c:245-269, with C's truncating division. -/
def timegm (tmYear tmMon mday hour min sec : Int) : Int :=
  let year := 1900 + tmYear
  let result := (year - 1970) * 365 + cumdays.getD tmMon.toNat 0
  let result := result + Int.tdiv (year - 1968) 4
  let result := result - Int.tdiv (year - 1900) 100
  let result := result + Int.tdiv (year - 1600) 400
  let result := if Int.tmod year 4 = 0 ∧ (Int.tmod year 100 ≠ 0 ∨ Int.tmod year 400 = 0) ∧ tmMon < 2 then result - 1 else result
  let result := result + (mday - 1)
  let result := result * 24 + hour
  let result := result * 60 + min
  result * 60 + sec

/-- Return codes of `mtev_confstr_parse_time_gm`, with `*output` on success. -/
inductive TimeRes where
  | ok (v : Nat)
  | errFormat
  | errUnrepresentable
deriving Repr, DecidableEq

/-- The zone suffix, mtev_confstr.c:301-324: offset in seconds; `none` is ERR_FORMAT. -/
def parseZone (s : List Nat) : Option Int :=
  match s with
  | [] => none
  | c :: r =>
    if c = 45 ∨ c = 43 then
      match strptimeHM r with
      | none => none
      | some (h, m, rest) =>
        if !isValidTime h m 0 then none
        else
          let off := (h * 60 + m) * 60
          if rest ≠ [] then none else some (if c = 45 then off * -1 else off)
    else if c = 122 ∨ c = 90 then (if r ≠ [] then none else some 0)
    else none

/-- `mtev_confstr_parse_time_gm`, mtev_confstr.c:273-336. -/
def parseTimeGm (input : List Nat) : TimeRes :=
  match strptimeDate input with
  | none => .errFormat
  | some (_, _, _, []) => .errFormat
  | some (y, mo, d, t :: s) =>
    if ¬ (t = 84 ∨ t = 116) then .errFormat
    else if !isValidDate y mo d then .errFormat
    else match strptimeHMS s with
      | none => .errFormat
      | some (h, mi, sec, s) =>
        if !isValidTime h mi sec then .errFormat
        else match parseZone s with
          | none => .errFormat
          | some off =>
            let base := timegm y mo d h mi sec - off
            if base < 0 then .errUnrepresentable else .ok base.toNat

/-! ## Lemmas -/

theorem isdigit_iff {c : Nat} : isdigit c = true ↔ 48 ≤ c ∧ c ≤ 57 := by simp [isdigit]

theorem decimal_append (a b : List Nat) (d : Nat) : decimal (a ++ [d]) = decimal a * 10 + (d - 48) := by
  simp [decimal, List.foldl_append]

theorem foldl_decimal_mono (ds : List Nat) (v : Nat) : v ≤ ds.foldl (fun a d => a * 10 + (d - 48)) v := by
  induction ds generalizing v with
  | nil => simp
  | cons d r ih => simp only [List.foldl_cons]; exact Nat.le_trans (by omega) (ih _)

/-- What `moreDigits` consumed. -/
theorem moreDigits_sound (hi n val : Nat) (rp : List Nat) :
    ∃ ds, rp = ds ++ (moreDigits hi n val rp).2 ∧ ds.length ≤ n ∧ (∀ d ∈ ds, isdigit d = true) ∧
      (moreDigits hi n val rp).1 = ds.foldl (fun a d => a * 10 + (d - 48)) val := by
  induction n generalizing val rp with
  | zero => exact ⟨[], by simp [moreDigits]⟩
  | succ n ih =>
    match rp with
    | [] => exact ⟨[], by simp [moreDigits]⟩
    | c :: r =>
      rw [moreDigits]
      split
      · rename_i h
        obtain ⟨ds, h1, h2, h3, h4⟩ := ih (val * 10 + (c - 48)) r
        refine ⟨c :: ds, by rw [List.cons_append, ← h1], by simpa using h2, ?_, h4⟩
        intro d hd
        rcases List.mem_cons.mp hd with rfl | hd
        · exact h.2
        · exact h3 d hd
      · exact ⟨[], by simp⟩

theorem moreDigits_complete (hi n val : Nat) (ds rest : List Nat) (hn : ds.length ≤ n) (hd : ∀ d ∈ ds, isdigit d = true)
    (hv : ds.foldl (fun a d => a * 10 + (d - 48)) val ≤ hi) (hr : ∀ c r, rest = c :: r → isdigit c = false) :
    moreDigits hi n val (ds ++ rest) = (ds.foldl (fun a d => a * 10 + (d - 48)) val, rest) := by
  induction ds generalizing n val with
  | nil =>
    match n, rest with
    | 0, _ => rfl
    | n + 1, [] => rfl
    | n + 1, c :: r => simp [moreDigits, hr c r rfl]
  | cons d ds ih =>
    match n, hn with
    | n + 1, hn =>
      rw [List.cons_append, moreDigits]
      have h1 : val * 10 ≤ hi := by
        have := foldl_decimal_mono ds (val * 10 + (d - 48))
        simp only [List.foldl_cons] at hv
        omega
      rw [if_pos ⟨h1, hd d (by simp)⟩]
      exact ih n _ (by simpa using hn) (fun x hx => hd x (by simp [hx])) (by simpa using hv)

end Mtev.Confstr
