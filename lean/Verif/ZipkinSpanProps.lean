import Verif.ZipkinSpan

/-!
# C131, C132, C133: identities, times and headers of spans
-/

namespace Mtev.ZipkinSpan

/-! ## C131: identities and sampling -/

theorem traceid_nonneg (r : Int) : 0 ≤ traceid r := by unfold traceid; split <;> omega

/-- **C131** A span made without a trace starts one: its identity is the trace's, it has no parent, and the identity is not negative. -/
theorem C131_root (P : Sampling) (draw : Nat → Nat) (rand : Nat → Int) (parent span : Option Int) (debug : Option Bool) (force : Bool)
    (s : Ids) (h : spanNew P draw rand none parent span debug force = some s) :
    s.id = s.trace ∧ s.parent = none ∧ 0 ≤ s.trace ∧ s.debug = debug := by
  unfold spanNew at h
  simp only at h
  split at h
  · cases h
  · split at h
    · cases h
    · cases h; exact ⟨rfl, rfl, traceid_nonneg _, rfl⟩

/-- **C131** With a trace and a span given, the span has just these, and the parent given. -/
theorem C131_given (P : Sampling) (draw : Nat → Nat) (rand : Nat → Int) (t i : Int) (parent : Option Int) (debug : Option Bool)
    (force : Bool) (s : Ids) (h : spanNew P draw rand (some t) parent (some i) debug force = some s) : s = ⟨t, parent, i, debug⟩ := by
  unfold spanNew at h
  simp only at h
  split at h
  · cases h
  · cases parent with
    | none => cases h; rfl
    | some p =>
      simp only at h
      split at h
      · cases h
      · cases h; rfl

/-- **C131** With a trace only, the span is the first of the trace. -/
theorem C131_first (P : Sampling) (draw : Nat → Nat) (rand : Nat → Int) (t : Int) (debug : Option Bool)
    (force : Bool) (s : Ids) (h : spanNew P draw rand (some t) none none debug force = some s) : s = ⟨t, none, t, debug⟩ := by
  unfold spanNew at h
  simp only at h
  split at h
  · cases h
  · cases h; rfl

/-- **C131** A child belongs to the trace of its parent, names it as its parent, has an identity of its own that was drawn and is not
negative, and is marked as its parent is. -/
theorem C131_child (P : Sampling) (draw : Nat → Nat) (rand : Nat → Int) (p s : Ids) (h : newChild P draw rand p = some s) :
    s.trace = p.trace ∧ s.parent = some p.id ∧ s.debug = p.debug ∧ 0 ≤ s.id ∧ (s.id = rand 1 ∨ s.id = -rand 1 - 1) := by
  unfold newChild spanNew at h
  simp only [Option.getD_none] at h
  split at h
  · cases h
  · split at h
    · cases h
    · cases h
      refine ⟨rfl, rfl, rfl, traceid_nonneg _, ?_⟩
      simp only [traceid]
      split
      · exact Or.inr rfl
      · exact Or.inl rfl

/-- **C131** A forced span is always made. -/
theorem C131_force (P : Sampling) (draw : Nat → Nat) (rand : Nat → Int) (trace parent span : Option Int) (debug : Option Bool) :
    (spanNew P draw rand trace parent span debug true).isSome := by
  unfold spanNew
  cases trace <;> cases parent <;> cases span <;> simp

/-- **C131** With all probabilities 1 every span is made. -/
theorem C131_always (draw : Nat → Nat) (rand : Nat → Int) (trace parent span : Option Int) (debug : Option Bool) (force : Bool) :
    (spanNew ⟨one, one, one⟩ draw rand trace parent span debug force).isSome := by
  unfold spanNew
  cases trace <;> cases parent <;> cases span <;> simp [unlucky]

/-- **C131** A debug span is made whatever the other two probabilities are. -/
theorem C131_debug (P : Sampling) (hp : P.debug = one) (draw : Nat → Nat) (rand : Nat → Int) (trace parent span : Option Int)
    (force : Bool) : (spanNew P draw rand trace parent span (some true) force).isSome := by
  unfold spanNew
  cases trace <;> cases parent <;> cases span <;> cases force <;> simp [unlucky, hp]

/-- Which probability decides: that for debug spans, else for new traces, else for spans with a parent; else none does. -/
def decides (P : Sampling) (trace parent : Option Int) (debug : Option Bool) : Option (Nat × Nat) :=
  if debug = some true then some (P.debug, 0)
  else if trace = none then some (P.fresh, 1)
  else if parent = none then none
  else some (P.parented, 2)

/-- **C131** A span is left out just if it is not forced and the number drawn (below one) is above the probability that applies. -/
theorem C131_sampling (P : Sampling) (draw : Nat → Nat) (hd : ∀ i, draw i < one) (rand : Nat → Int) (trace parent span : Option Int)
    (debug : Option Bool) (force : Bool) : spanNew P draw rand trace parent span debug force = none ↔
      force = false ∧ ∃ p k, decides P trace parent debug = some (p, k) ∧ draw k > p := by
  have hu : ∀ p k, unlucky p (draw k) = true ↔ draw k > p := by
    intro p k
    have := hd k
    simp only [unlucky, Bool.and_eq_true, decide_eq_true_eq]
    constructor
    · exact fun h => h.2
    · exact fun h => ⟨by omega, h⟩
  have hdb : debug = some true ∨ debug ≠ some true := by tauto
  unfold spanNew decides
  cases force
  · rcases hdb with rfl | hne
    · simp only [Bool.not_false, Bool.true_and, BEq.rfl, Bool.or_true, Bool.false_eq_true, Bool.not_true, Bool.false_and, if_false, if_true]
      by_cases h : unlucky P.debug (draw 0) = true
      · rw [if_pos h]
        simp only [true_iff]
        exact ⟨trivial, _, _, rfl, (hu _ _).1 h⟩
      · rw [if_neg h]
        have : ¬ draw 0 > P.debug := fun hh => h ((hu _ _).2 hh)
        constructor
        · intro hh; cases trace <;> cases parent <;> cases span <;> simp at hh
        · rintro ⟨-, p, k, he, hk⟩
          simp only [Option.some.injEq, Prod.mk.injEq] at he
          obtain ⟨rfl, rfl⟩ := he
          exact absurd hk this
    · have hb : (debug == some true) = false := by simpa using hne
      simp only [hb, if_neg hne, Bool.not_false, Bool.true_and, Bool.and_false, Bool.false_and, Bool.false_eq_true, if_false, Bool.or_self, true_and]
      cases trace with
      | none =>
        simp only [if_true]
        by_cases h : unlucky P.fresh (draw 1) = true
        · rw [if_pos h]; simp only [true_iff]; exact ⟨_, _, rfl, (hu _ _).1 h⟩
        · rw [if_neg h]
          have : ¬ draw 1 > P.fresh := fun hh => h ((hu _ _).2 hh)
          simp only [reduceCtorEq, false_iff]
          rintro ⟨p, k, he, hk⟩
          simp only [Option.some.injEq, Prod.mk.injEq] at he
          obtain ⟨rfl, rfl⟩ := he
          exact this hk
      | some t =>
        simp only [reduceCtorEq, if_false]
        cases parent with
        | none => cases span <;> simp
        | some p =>
          simp only [reduceCtorEq, if_false]
          by_cases h : unlucky P.parented (draw 2) = true
          · rw [if_pos h]; simp only [true_iff]; exact ⟨_, _, rfl, (hu _ _).1 h⟩
          · rw [if_neg h]
            have : ¬ draw 2 > P.parented := fun hh => h ((hu _ _).2 hh)
            simp only [reduceCtorEq, false_iff]
            rintro ⟨p, k, he, hk⟩
            simp only [Option.some.injEq, Prod.mk.injEq] at he
            obtain ⟨rfl, rfl⟩ := he
            exact this hk
  · have := C131_force P draw rand trace parent span debug
    unfold spanNew at this
    rw [Option.isSome_iff_ne_none] at this
    simp only [Bool.true_eq_false, false_and, iff_false]
    exact this

/-- **C131** fails for probability 0: a span is made if the number drawn is 0. -/
theorem C131_zero_violated : spanNew ⟨0, one, one⟩ (fun _ => 0) (fun _ => 7) none none none none false = some ⟨7, none, 7, none⟩ := by
  decide

example : newChild ⟨0, one, one⟩ (fun _ => 5) (fun _ => -3) ⟨1, none, 9, none⟩ = some ⟨1, some 9, 2, none⟩ := by decide

example : spanNew ⟨0, 2 ^ 47, one⟩ (fun _ => 2 ^ 47 + 1) (fun _ => -3) (some 1) (some 9) none none false = none := by decide

/-! ## C132: times -/

/-- the earliest of some times -/
def earliest (t : Int) (l : List Int) : Int := l.foldl min t

/-- the latest of some times -/
def latest (t : Int) (l : List Int) : Int := l.foldl max t

theorem annotate_eq (s : Times) (t : Int) (hs : 0 < s.timestamp) (hd : 0 ≤ s.duration) (ht : 0 < t) :
    annotate s t = if t < s.timestamp then ⟨t, s.duration⟩ else ⟨s.timestamp, max s.duration (t - s.timestamp)⟩ := by
  obtain ⟨ts, d⟩ := s
  simp only at hs hd
  unfold annotate
  by_cases h : t < ts
  · simp [h]
  · have h0 : ts ≠ 0 := by omega
    have h1 : ¬ (ts = 0 ∨ t < ts) := by omega
    simp only [if_neg h1, if_neg h]
    by_cases h2 : t > ts
    · rw [if_pos ⟨h0, h2⟩]
      by_cases h3 : t - ts > d
      · rw [if_pos h3, max_eq_right (by omega)]
      · rw [if_neg h3, max_eq_left (by omega)]
    · rw [if_neg (by omega), max_eq_left (by omega)]

/-- **C132** The span starts at the earliest time of all, in whatever order they come (times are after 1970). -/
theorem C132_start (s : Times) (hs : 0 < s.timestamp) (hd : 0 ≤ s.duration) (l : List Int) (hl : ∀ t ∈ l, 0 < t) :
    (l.foldl annotate s).timestamp = earliest s.timestamp l := by
  induction l generalizing s with
  | nil => rfl
  | cons t l ih =>
    have ht := hl t (by simp)
    have he := annotate_eq s t hs hd ht
    by_cases h : t < s.timestamp
    · rw [if_pos h] at he
      rw [List.foldl_cons, he, ih ⟨t, s.duration⟩ ht hd (fun x hx => hl x (by simp [hx]))]
      simp only [earliest, List.foldl_cons, min_eq_right (le_of_lt h)]
    · rw [if_neg h] at he
      rw [List.foldl_cons, he, ih ⟨s.timestamp, max s.duration (t - s.timestamp)⟩ hs (by simp only; omega) (fun x hx => hl x (by simp [hx]))]
      simp only [earliest, List.foldl_cons, min_eq_left (not_lt.1 h)]

/-- **C132** If no time is before the start of the span, it lasts until the latest of them. -/
theorem C132_duration_partial (s : Times) (hs : 0 < s.timestamp) (hd : 0 ≤ s.duration) (l : List Int) (hl : ∀ t ∈ l, s.timestamp ≤ t) :
    (l.foldl annotate s).timestamp = s.timestamp ∧
    (l.foldl annotate s).timestamp + (l.foldl annotate s).duration = latest (s.timestamp + s.duration) l := by
  induction l generalizing s with
  | nil => exact ⟨rfl, rfl⟩
  | cons t l ih =>
    have ht := hl t (by simp)
    have he := annotate_eq s t hs hd (by omega)
    rw [if_neg (by omega)] at he
    have h2 := ih (annotate s t) (by rw [he]; exact hs) (by rw [he]; simp only; omega)
      (fun x hx => by rw [he]; exact hl x (by simp [hx]))
    rw [List.foldl_cons]
    rw [he] at h2 ⊢
    refine ⟨h2.1, h2.2.trans ?_⟩
    have h3 : s.timestamp + max s.duration (t - s.timestamp) = max (s.timestamp + s.duration) t := by omega
    simp only [h3, latest, List.foldl_cons]

/-- **C132** In whatever order the times come, the span does not last beyond the latest of them. -/
theorem C132_within (s : Times) (hs : 0 < s.timestamp) (hd : 0 ≤ s.duration) (l : List Int) (hl : ∀ t ∈ l, 0 < t) :
    0 ≤ (l.foldl annotate s).duration ∧
    (l.foldl annotate s).timestamp + (l.foldl annotate s).duration ≤ latest (s.timestamp + s.duration) l := by
  have hmono : ∀ (l : List Int) (a b : Int), a ≤ b → latest a l ≤ latest b l := by
    intro l
    induction l with
    | nil => intro a b h; exact h
    | cons x l ih => intro a b h; exact ih _ _ (by omega)
  induction l generalizing s with
  | nil => exact ⟨hd, le_refl _⟩
  | cons t l ih =>
    have ht := hl t (by simp)
    have he := annotate_eq s t hs hd ht
    have h1 : 0 < (annotate s t).timestamp ∧ 0 ≤ (annotate s t).duration ∧
        (annotate s t).timestamp + (annotate s t).duration ≤ max (s.timestamp + s.duration) t := by
      rw [he]
      split
      · exact ⟨ht, hd, by simp only; omega⟩
      · exact ⟨hs, by simp only; omega, by simp only; omega⟩
    obtain ⟨k1, k2⟩ := ih (annotate s t) h1.1 h1.2.1 (fun x hx => hl x (by simp [hx]))
    rw [List.foldl_cons]
    exact ⟨k1, k2.trans (hmono l _ _ h1.2.2)⟩

/-- **C132** fails if a time before the start comes after later ones: a span with annotations at 50 and 200 lasts from 50 to 150. -/
theorem C132_duration_violated : [200, 50].foldl annotate ⟨100, 0⟩ = ⟨50, 100⟩ := by decide

example : [150, 120, 300].foldl annotate ⟨100, 0⟩ = ⟨100, 200⟩ := by decide

/-! ## C133: identities in headers -/

theorem takeWhile_hex (ds rest : Str) (h : ∀ c ∈ ds, isHex c = true) (hr : ∀ c, rest.head? = some c → isHex c = false) :
    (ds ++ rest).takeWhile isHex = ds ∧ (ds ++ rest).dropWhile isHex = rest := by
  induction ds with
  | nil =>
    cases rest with
    | nil => simp
    | cons c r => simp [hr c rfl]
  | cons d ds ih =>
    obtain ⟨h1, h2⟩ := ih fun c hc => h c (by simp [hc])
    simp [h d (by simp), h1, h2]

theorem not_space_of_hex (c : Nat) (h : isHex c = true) : isSpace c = false := by
  unfold isHex hexVal at h
  unfold isSpace
  split at h
  · simp; omega
  · split at h
    · simp; omega
    · split at h
      · simp; omega
      · simp at h

theorem not_sign_of_hex (c : Nat) (h : isHex c = true) : c ≠ 45 ∧ c ≠ 43 ∧ c ≠ 120 ∧ c ≠ 88 := by
  refine ⟨?_, ?_, ?_, ?_⟩ <;> rintro rfl <;> revert h <;> decide

theorem sign_hex (ds rest : Str) (h : ∀ c ∈ ds, isHex c = true) (hne : ds ≠ []) : sign (ds ++ rest) = (false, ds ++ rest) := by
  cases ds with
  | nil => exact absurd rfl hne
  | cons d ds =>
    have := not_sign_of_hex d (h d (by simp))
    unfold sign
    split
    · rename_i heq; simp at heq; omega
    · rename_i heq; simp at heq; omega
    · rfl

theorem prefix_hex (ds rest : Str) (h : ∀ c ∈ ds, isHex c = true) (hne : ds ≠ [])
    (hr : ∀ c, rest.head? = some c → c ≠ 120 ∧ c ≠ 88) : prefix0x (ds ++ rest) = ds ++ rest ∧ skip0x (ds ++ rest) = ds ++ rest := by
  have hx : ∀ x r, ds ++ rest = 48 :: x :: r → x ≠ 120 ∧ x ≠ 88 := by
    intro x r he
    match ds, hne, h with
    | [d], _, _ =>
      simp at he
      exact hr x (by rw [he.2]; rfl)
    | d :: e :: ds, _, h =>
      simp at he
      have := not_sign_of_hex e (h e (by simp))
      rw [← he.2.1]; exact ⟨this.2.2.1, this.2.2.2⟩
  constructor
  · unfold prefix0x
    split
    · rename_i x d r heq
      have := hx x _ heq
      rw [if_neg (by tauto)]
      exact heq.symm
    · rfl
  · unfold skip0x
    split
    · rename_i x r heq
      have := hx x _ heq
      rw [if_neg (by tauto)]
      exact heq.symm
    · rfl

theorem strtoull_hex (ds rest : Str) (h : ∀ c ∈ ds, isHex c = true) (hne : ds ≠ [])
    (hr : ∀ c, rest.head? = some c → isHex c = false ∧ c ≠ 120 ∧ c ≠ 88) :
    strtoull16 (ds ++ rest) = (min (value ds) (2 ^ 64 - 1), rest) := by
  have hd : (ds ++ rest).dropWhile isSpace = ds ++ rest := by
    cases ds with
    | nil => exact absurd rfl hne
    | cons d ds => simp [not_space_of_hex d (h d (by simp))]
  obtain ⟨h1, h2⟩ := takeWhile_hex ds rest h (fun c hc => (hr c hc).1)
  unfold strtoull16
  rw [hd, sign_hex ds rest h hne]
  simp only
  rw [(prefix_hex ds rest h hne (fun c hc => (hr c hc).2)).1, h1, h2, if_neg hne]
  simp only [Bool.false_eq_true, if_false, Prod.mk.injEq, and_true]
  split
  · rw [min_eq_right (by omega)]
  · rw [min_eq_left (by omega)]

/-- **C133** Spaces, an optional `0x`, hexadecimal digits in either case, then nothing or something after a space: the number is what
the digits say, as 64 bit with sign, if it is below 2^64. -/
theorem C133_digits_partial (ws ds rest : Str) (pre : Bool) (hw : ∀ c ∈ ws, isSpace c = true) (h : ∀ c ∈ ds, isHex c = true)
    (hne : ds ≠ []) (hr : ∀ c, rest.head? = some c → isSpace c = true) (hv : value ds < 2 ^ 64) :
    strToId (ws ++ (if pre then [48, 120] else []) ++ ds ++ rest) = some (toI64 (value ds)) := by
  have hrest : ∀ c, rest.head? = some c → isHex c = false ∧ c ≠ 120 ∧ c ≠ 88 := by
    intro c hc
    have hs := hr c hc
    refine ⟨?_, ?_, ?_⟩
    · by_contra hh
      rw [not_space_of_hex c (by simpa using hh)] at hs
      cases hs
    · rintro rfl; exact absurd hs (by decide)
    · rintro rfl; exact absurd hs (by decide)
  have hdrop : ∀ t : Str, (∀ c, t.head? = some c → isSpace c = false) → (ws ++ t).dropWhile isSpace = t := by
    intro t ht
    clear hr hrest
    induction ws with
    | nil =>
      cases t with
      | nil => rfl
      | cons c t => simp [ht c rfl]
    | cons w ws ih =>
      rw [List.cons_append, List.dropWhile_cons, if_pos (hw w (by simp))]
      exact ih fun c hc => hw c (by simp [hc])
  have hskip : skip0x ((ws ++ (if pre then [48, 120] else []) ++ ds ++ rest).dropWhile isSpace) = ds ++ rest := by
    rw [List.append_assoc, List.append_assoc]
    cases pre with
    | true =>
      rw [hdrop _ (by intro c hc; simp at hc; subst hc; decide)]
      simp [skip0x]
    | false =>
      have hh : ∀ c, ((if false = true then [48, 120] else []) ++ (ds ++ rest)).head? = some c → isSpace c = false := by
        intro c hc
        cases ds with
        | nil => exact absurd rfl hne
        | cons d ds =>
          simp at hc
          subst hc
          exact not_space_of_hex d (h d (by simp))
      rw [hdrop _ hh]
      simp only [Bool.false_eq_true, if_false, List.nil_append]
      exact (prefix_hex ds rest h hne (fun c hc => (hrest c hc).2)).2
  unfold strToId
  simp only
  rw [hskip, if_neg (by simp [hne]), strtoull_hex ds rest h hne hrest, min_eq_left (by omega)]
  cases rest with
  | nil => rfl
  | cons c r => simp [hr c rfl]

theorem hexVal_hexChar (d : Nat) (h : d < 16) : hexVal (hexChar d) = some d := by
  interval_cases d <;> rfl

theorem value_digits (n : Nat) : value ((Nat.digits 16 n).reverse.map hexChar) = n := by
  have hlt : ∀ d ∈ Nat.digits 16 n, d < 16 := fun d hd => Nat.digits_lt_base (by norm_num) hd
  have : ∀ l : List Nat, (∀ d ∈ l, d < 16) → value (l.reverse.map hexChar) = Nat.ofDigits 16 l := by
    intro l
    induction l with
    | nil => intro _; rfl
    | cons d l ih =>
      intro hl
      have := ih fun x hx => hl x (by simp [hx])
      unfold value at this ⊢
      rw [List.reverse_cons, List.map_append, List.foldl_append, this]
      simp only [List.map_cons, List.map_nil, List.foldl_cons, List.foldl_nil, hexVal_hexChar d (hl d (by simp)), Option.getD_some]
      rw [Nat.ofDigits_cons]
      ring
  rw [this _ hlt, Nat.ofDigits_digits]

theorem hex_spec (id : Int) : hex id ≠ [] ∧ (∀ c ∈ hex id, isHex c = true) ∧ value (hex id) = (id % 2 ^ 64).toNat := by
  unfold hex
  simp only
  by_cases h : (id % 2 ^ 64).toNat = 0
  · rw [if_pos h, h]
    refine ⟨by simp, ?_, by decide⟩
    intro c hc
    simp at hc
    subst hc
    decide
  · rw [if_neg h]
    refine ⟨?_, ?_, value_digits _⟩
    · simp only [ne_eq, List.map_eq_nil_iff, List.reverse_eq_nil_iff]
      exact Nat.digits_ne_nil_iff_ne_zero.2 h
    · intro c hc
      simp only [List.mem_map, List.mem_reverse] at hc
      obtain ⟨d, hd, rfl⟩ := hc
      unfold isHex
      rw [hexVal_hexChar d (Nat.digits_lt_base (by norm_num) hd)]
      rfl

/-- a 64 bit number with sign -/
def I64 (v : Int) : Prop := -2 ^ 63 ≤ v ∧ v < 2 ^ 63

/-- **C133** What is written into a header is read back as the same identity. -/
theorem C133_roundtrip (id : Int) (h : I64 id) : strToId (hdrValue id) = some id := by
  obtain ⟨h1, h2, h3⟩ := hex_spec id
  have hv : value (hex id) < 2 ^ 64 := by rw [h3]; omega
  have := C133_digits_partial [] (hex id) [] true (by simp) h2 h1 (by simp) hv
  simp only [List.nil_append, if_true, List.append_nil] at this
  unfold hdrValue
  rw [this, h3]
  unfold toI64
  obtain ⟨a, b⟩ := h
  split <;> congr 1 <;> omega

/-- **C133** The server's span is the client's: same trace, same parent, same identity, whether forced by debug or not. -/
theorem C133_propagate (P : Sampling) (draw : Nat → Nat) (rand : Nat → Int) (s t : Ids) (h1 : I64 s.trace) (h2 : I64 s.id)
    (h3 : ∀ p ∈ s.parent, I64 p) (ht : beginSpan P draw rand (clientHdrs s) = some t) :
    t.trace = s.trace ∧ t.parent = s.parent ∧ t.id = s.id ∧ (t.debug = some true ↔ s.debug = some true) := by
  unfold beginSpan clientHdrs at ht
  simp only [Option.bind_some, C133_roundtrip _ h1, C133_roundtrip _ h2] at ht
  have hp : (s.parent.map hdrValue).bind strToId = s.parent := by
    cases hh : s.parent with
    | none => rfl
    | some p => simp [C133_roundtrip p (h3 p (by rw [hh]; rfl))]
  rw [hp] at ht
  have := C131_given P draw rand s.trace s.id s.parent _ false t ht
  rw [this]
  refine ⟨rfl, rfl, rfl, ?_⟩
  simp only
  by_cases hd : s.debug = some true
  · simp [hd]
  · have : (s.debug == some true) = false := by simpa using hd
    simp [this, hd]

/-- **C133** A debug span of a client always has its counterpart on a server whose probability for debug spans is 1. -/
theorem C133_debug (P : Sampling) (hp : P.debug = one) (draw : Nat → Nat) (rand : Nat → Int) (s : Ids) (hd : s.debug = some true) :
    (beginSpan P draw rand (clientHdrs s)).isSome := by
  unfold beginSpan clientHdrs
  simp only [hd, BEq.rfl, if_true]
  exact C131_debug P hp draw rand _ _ _ false

/-- **C133** fails for longer identities, such as those of 128 bits: whatever the digits are, if the number is not below 2^64 the
identity is -1, so that different traces become one. -/
theorem C133_long_violated (ds : Str) (h : ∀ c ∈ ds, isHex c = true) (hv : 2 ^ 64 ≤ value ds) : strToId ds = some (-1) := by
  have hne : ds ≠ [] := by rintro rfl; simp [value] at hv
  have hd : ds.dropWhile isSpace = ds := by
    cases ds with
    | nil => rfl
    | cons d ds => simp [not_space_of_hex d (h d (by simp))]
  have hs := (prefix_hex ds [] h hne (by simp)).2
  have hu := strtoull_hex ds [] h hne (by simp)
  rw [List.append_nil] at hs hu
  unfold strToId
  simp only
  rw [hd, hs, if_neg hne, hu, min_eq_right (by omega)]
  decide

/-- **C133** fails for texts that are no numbers: `0x` and a space is read as 0, `0x-1` as -1, and `1 and more` as 1. -/
theorem C133_junk_violated : strToId (bytesOf "0x ") = some 0 ∧ strToId (bytesOf "0x-1") = some (-1) ∧
    strToId (bytesOf "1 and more") = some 1 := by decide +kernel

/-- **C133** Digits followed by anything else but a space are refused. -/
theorem C133_refused (ds rest : Str) (c : Nat) (h : ∀ c ∈ ds, isHex c = true) (hne : ds ≠ []) (hc : isHex c = false) (hs : isSpace c = false)
    (hx : c ≠ 120 ∧ c ≠ 88) : strToId (ds ++ c :: rest) = none := by
  have hd : (ds ++ c :: rest).dropWhile isSpace = ds ++ c :: rest := by
    cases ds with
    | nil => exact absurd rfl hne
    | cons d ds => simp [not_space_of_hex d (h d (by simp))]
  have hsk := (prefix_hex ds (c :: rest) h hne (by rintro x hxx; simp at hxx; subst hxx; exact hx)).2
  have hu := strtoull_hex ds (c :: rest) h hne (by rintro x hxx; simp at hxx; subst hxx; exact ⟨hc, hx⟩)
  unfold strToId
  simp only
  rw [hd, hsk, if_neg (by simp), hu]
  simp [hs]

example : strToId (bytesOf " 0xDeadBeef") = some 3735928559 := by decide +kernel

example : strToId (bytesOf "463ac35c9f6413ad48485a3953bb6124") = strToId (bytesOf "80f198ee56343ba864fe8b2a57d3eff7") := by decide +kernel

/-- A small letter as a capital. -/
def capital (c : Nat) : Nat := if 97 ≤ c ∧ c ≤ 122 then c - 32 else c

theorem hexVal_capital (c : Nat) : hexVal (capital c) = hexVal c := by
  unfold hexVal capital
  split_ifs <;> first | omega | rfl | (congr 1; omega)

theorem isSpace_capital (c : Nat) : isSpace (capital c) = isSpace c := by
  unfold capital
  split_ifs with h
  · have h1 : isSpace c = false := by simp [isSpace]; omega
    have h2 : isSpace (c - 32) = false := by simp [isSpace]; omega
    rw [h1, h2]
  · rfl

theorem capital_eq (c k : Nat) (hk : k < 65) : capital c = k ↔ c = k := by
  unfold capital
  split_ifs <;> omega

theorem capital_x (x : Nat) : (capital x = 120 ∨ capital x = 88) ↔ (x = 120 ∨ x = 88) := by
  unfold capital
  split_ifs <;> omega

theorem drop_capital (p : Nat → Bool) (hp : ∀ c, p (capital c) = p c) (s : Str) :
    (s.map capital).dropWhile p = (s.dropWhile p).map capital := by
  rw [List.dropWhile_map, show p ∘ capital = p from funext hp]

theorem take_capital (p : Nat → Bool) (hp : ∀ c, p (capital c) = p c) (s : Str) :
    (s.map capital).takeWhile p = (s.takeWhile p).map capital := by
  rw [List.takeWhile_map, show p ∘ capital = p from funext hp]

theorem sign_capital (s : Str) : sign (s.map capital) = ((sign s).1, (sign s).2.map capital) := by
  cases s with
  | nil => rfl
  | cons c r =>
    by_cases h1 : c = 45
    · subst h1; rfl
    by_cases h2 : c = 43
    · subst h2; rfl
    have a1 : capital c ≠ 45 := fun h => h1 ((capital_eq c 45 (by omega)).1 h)
    have a2 : capital c ≠ 43 := fun h => h2 ((capital_eq c 43 (by omega)).1 h)
    have e1 : sign (c :: r) = (false, c :: r) := by unfold sign; split <;> simp_all
    have e2 : sign (capital c :: r.map capital) = (false, capital c :: r.map capital) := by unfold sign; split <;> simp_all
    rw [List.map_cons, e1, e2]
    rfl

theorem isHex_capital (c : Nat) : isHex (capital c) = isHex c := by simp only [isHex, hexVal_capital]

theorem prefix_capital (s : Str) : prefix0x (s.map capital) = (prefix0x s).map capital := by
  match s with
  | [] => rfl
  | [a] => by_cases h : a = 48 <;> simp [prefix0x]
  | [a, b] => simp [prefix0x]
  | a :: x :: d :: r =>
    by_cases h : a = 48
    · subst h
      simp only [List.map_cons, show capital 48 = 48 from rfl, prefix0x, capital_x, isHex_capital]
      split_ifs <;> simp [show capital 48 = 48 from rfl]
    · have a1 : capital a ≠ 48 := fun h' => h ((capital_eq a 48 (by omega)).1 h')
      have e1 : ∀ (a : Nat) (l : Str), a ≠ 48 → prefix0x (a :: l) = a :: l := by
        intro a l ha; unfold prefix0x; split <;> simp_all
      rw [List.map_cons, e1 _ _ a1, e1 _ _ h]
      rfl

theorem skip_capital (s : Str) : skip0x (s.map capital) = (skip0x s).map capital := by
  match s with
  | [] => rfl
  | [a] => simp [skip0x]
  | a :: x :: r =>
    by_cases h : a = 48
    · subst h
      simp only [List.map_cons, show capital 48 = 48 from rfl, skip0x, capital_x]
      split_ifs <;> simp [show capital 48 = 48 from rfl]
    · have a1 : capital a ≠ 48 := fun h' => h ((capital_eq a 48 (by omega)).1 h')
      have e1 : ∀ (a : Nat) (l : Str), a ≠ 48 → skip0x (a :: l) = a :: l := by
        intro a l ha; unfold skip0x; split <;> simp_all
      rw [List.map_cons, e1 _ _ a1, e1 _ _ h]
      rfl

theorem value_capital (s : Str) : value (s.map capital) = value s := by
  simp only [value, List.foldl_map, hexVal_capital]

theorem strtoull_capital (s : Str) : strtoull16 (s.map capital) = ((strtoull16 s).1, (strtoull16 s).2.map capital) := by
  simp only [strtoull16, drop_capital _ isSpace_capital, sign_capital, prefix_capital, take_capital _ isHex_capital, drop_capital _ isHex_capital,
    value_capital, List.map_eq_nil_iff]
  split <;> rfl

/-- C133: identities are read the same in small letters and in capitals. -/
theorem C133_case (s : Str) : strToId (s.map capital) = strToId s := by
  simp only [strToId, drop_capital _ isSpace_capital, skip_capital, strtoull_capital, List.map_eq_nil_iff]
  split
  · rfl
  · generalize (strtoull16 (skip0x (s.dropWhile isSpace))) = p
    obtain ⟨v, rest⟩ := p
    cases rest with
    | nil => rfl
    | cons c r => simp only [List.map_cons, isSpace_capital]

example : strToId (bytesOf "0xDEADbeef") = some 3735928559 ∧ (bytesOf "0xdeadbeef").map capital = bytesOf "0XDEADBEEF" := by decide +kernel

end Mtev.ZipkinSpan
