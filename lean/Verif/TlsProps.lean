import Verif.Tls
import Mathlib.Data.List.Induction
import Mathlib.Data.List.Infix

/-!
# C90, C91: certificates of TLS peers

C90: a peer is let in only with a certificate that is valid, apart from the
checks that were turned off.

C91: the names reported for a peer are those of its certificate.
-/

namespace Mtev.Tls

/-! ## what a valid certificate is -/

/-- the time is outside the certificate's dates -/
def OutOfDate (now : Int) (c : Cert) : Prop :=
  (∃ t, c.notBefore = some t ∧ now < t) ∨ (∃ t, c.notAfter = some t ∧ t ≤ now)

/-- OpenSSL reports that no trusted authority stands behind the certificate: it is
signed by itself, or its issuer is unknown or not trusted -/
def Untrusted (c : Call) : Prop := c.err = 18 ∨ c.err = 19 ∨ c.err = 20 ∨ c.err = 27 ∨ c.err = 21

/-- OpenSSL objects for some other reason: a bad signature, a revoked certificate,
dates that cannot be read, … -/
def Otherwise (c : Call) : Prop := c.ok = false ∧ ¬ Untrusted c ∧ c.err ≠ 9 ∧ c.err ≠ 10

/-- fit to be let in, given which checks are off -/
def Fit (skipCa skipDates : Bool) (now : Int) (c : Call) : Prop :=
  ¬ Otherwise c ∧ (Untrusted c → skipCa = true) ∧ (OutOfDate now c.cert → skipDates = true)

/-- when OpenSSL objects to dates (9, 10), they are wrong by the clock read a
moment later, too -/
def SameClock (now : Int) (c : Call) : Prop :=
  c.ok = false → c.err = 9 ∨ c.err = 10 → OutOfDate now c.cert

theorem untrusted_iff (c : Call) : c.err ∈ chainErrs ↔ Untrusted c := by
  simp [chainErrs, Untrusted]

theorem dates_iff (now : Int) (c : Cert) : verifyDates now c ≠ 0 ↔ OutOfDate now c := by
  unfold verifyDates OutOfDate cmpTime
  rcases c.notBefore with _ | a <;> rcases c.notAfter with _ | b <;> simp
  · by_cases h : b ≤ now <;> simp [h]
  · by_cases h : a ≤ now
    · simp [h]
    · simp [h]; omega
  · by_cases h : a ≤ now
    · by_cases h2 : b ≤ now <;> simp [h, h2]
    · simp [h]
      left; omega

/-- what the two tests decide -/
theorem decide_iff (o : Option Opts) (now : Int) (ctx : Ctx) (c : Call) :
    (decideCert o now ctx c).2 = true ↔
      (Untrusted c → noCa o = true) ∧ (OutOfDate now c.cert → ignoreDates o = true) ∧
      (c.ok = true ∨ Untrusted c ∨ OutOfDate now c.cert) := by
  unfold decideCert
  rw [← untrusted_iff, ← dates_iff]
  by_cases h1 : c.err ∈ chainErrs <;> by_cases h2 : verifyDates now c.cert = 0 <;>
    cases h3 : noCa o <;> cases h4 : ignoreDates o <;> simp [h1, h2]

theorem decide_subject (o : Option Opts) (now : Int) (ctx : Ctx) (c : Call) :
    (decideCert o now ctx c).1.subject = ctx.subject ∧ (decideCert o now ctx c).1.sanList = ctx.sanList := by
  unfold decideCert
  split
  · exact ⟨rfl, rfl⟩
  · dsimp only
    split
    · split <;> exact ⟨rfl, rfl⟩
    · exact ⟨rfl, rfl⟩

/-- one call of the callback never fails and decides as said -/
theorem call_spec (o : Option Opts) (now : Int) (ctx : Ctx) (c : Call) :
    ∃ r, verifyCb (some (verifyCert o now)) ctx c = .ok r ∧
      (r.2 = true ↔ (Untrusted c → noCa o = true) ∧ (OutOfDate now c.cert → ignoreDates o = true) ∧
        (c.ok = true ∨ Untrusted c ∨ OutOfDate now c.cert)) ∧
      r.1.subject = some (oneline 1022 c.cert.subject []) ∧
      r.1.sanList = if (c.cert.dns.foldl addName none).getD [] = [] then ctx.sanList
        else c.cert.dns.foldl addName none := by
  unfold verifyCb verifyCert
  simp only
  rw [getSan_spec, Out.ok_bind]
  refine ⟨_, rfl, decide_iff _ _ _ _, ?_, ?_⟩
  · rw [(decide_subject _ _ _ _).1]
    split <;> split <;> rfl
  · rw [(decide_subject _ _ _ _).2]
    split
    · split <;> rfl
    · rfl

theorem chain_spec (o : Option Opts) (now : Int) : ∀ (cs : List Call) (ctx : Ctx),
    ∃ r, verifyChain (some (verifyCert o now)) cs ctx = .ok r ∧
      (r.2 = true ↔ ∀ c ∈ cs, (Untrusted c → noCa o = true) ∧
        (OutOfDate now c.cert → ignoreDates o = true) ∧
        (c.ok = true ∨ Untrusted c ∨ OutOfDate now c.cert))
  | [], ctx => ⟨_, rfl, by simp⟩
  | c :: cs, ctx => by
    obtain ⟨r, h1, h2, _⟩ := call_spec o now ctx c
    unfold verifyChain
    rw [h1, Out.ok_bind]
    cases hr : r.2 with
    | false =>
      refine ⟨(r.1, false), by simp, ?_⟩
      constructor
      · intro h; cases h
      · intro h
        have := h2.2 (h c (by simp))
        rw [hr] at this
        cases this
    | true =>
      obtain ⟨r', h3, h4⟩ := chain_spec o now cs r.1
      refine ⟨r', by simpa using h3, ?_⟩
      rw [h4]
      simp only [List.mem_cons, forall_eq_or_imp]
      exact ⟨fun h => ⟨h2.1 hr, h⟩, fun h => h.2⟩

/-- is a peer that shows a chain let in, with the settings given? -/
def LetIn (o : Option Opts) (now : Int) (cs : List Call) : Prop :=
  ∃ ctx, accept (some (verifyCert o now)) {} (some cs) = .ok (ctx, true)

theorem letIn_iff (o : Option Opts) (now : Int) (cs : List Call) :
    LetIn o now cs ↔ ∀ c ∈ cs, (Untrusted c → noCa o = true) ∧
        (OutOfDate now c.cert → ignoreDates o = true) ∧
        (c.ok = true ∨ Untrusted c ∨ OutOfDate now c.cert) := by
  obtain ⟨⟨ctx, b⟩, h1, h2⟩ := chain_spec o now cs {}
  rw [← h2]
  unfold LetIn accept
  simp only [h1]
  constructor
  · rintro ⟨x, h⟩; cases h; rfl
  · intro h; exact ⟨ctx, by cases h; rfl⟩

/-- **C90 (sound).** A peer that shows a chain is let in only if each certificate
that OpenSSL presents for judgement is fit: trusted unless that check is off,
within its dates, and with no other objection; this for every chain of every
length and every sequence of objections.  The check for a trusted authority is off
if and only if there are no settings or `optional_no_ca` is exactly `true`.

Partial: the check of dates is on, see `C90_ignore_dates_violated`; and the peer
shows a chain, see `C90_no_certificate_violated`. -/
theorem C90_sound_partial (o : Opts) (now : Int) (cs : List Call)
    (hd : o.ignoreDates ≠ some (bytesOf "true")) (h : LetIn (some o) now cs) :
    ∀ c ∈ cs, Fit (decide (o.optionalNoCa = some (bytesOf "true"))) false now c := by
  intro c hc
  obtain ⟨h1, h2, h3⟩ := (letIn_iff _ _ _).1 h c hc
  have hi : ignoreDates (some o) = false := by simpa [ignoreDates, str] using hd
  have ho : ¬ OutOfDate now c.cert := fun hh => by simp [hi] at h2; exact h2 hh
  refine ⟨?_, ?_, fun hh => absurd hh ho⟩
  · rintro ⟨o1, o2, _⟩
    rcases h3 with h3 | h3 | h3
    · rw [o1] at h3; cases h3
    · exact o2 h3
    · exact ho h3
  · intro hu
    have := h1 hu
    simpa [noCa, str] using this

/-- **C90 (complete).** A peer whose certificates are all fit is let in, whatever
checks are off. -/
theorem C90_complete (o : Option Opts) (now : Int) (cs : List Call)
    (hs : ∀ c ∈ cs, SameClock now c)
    (h : ∀ c ∈ cs, Fit (noCa o) (ignoreDates o) now c) : LetIn o now cs := by
  rw [letIn_iff]
  intro c hc
  obtain ⟨h1, h2, h3⟩ := h c hc
  refine ⟨h2, h3, ?_⟩
  cases hok : c.ok with
  | true => exact .inl rfl
  | false =>
    by_cases hu : Untrusted c
    · exact .inr (.inl hu)
    · right; right
      by_cases h9 : c.err = 9 ∨ c.err = 10
      · exact hs c hc hok h9
      · exact absurd ⟨hok, hu, fun hh => h9 (.inl hh), fun hh => h9 (.inr hh)⟩ h1

/-- which settings turn a check off -/
theorem C90_switches (o : Opts) :
    (noCa (some o) = true ↔ o.optionalNoCa = some (bytesOf "true")) ∧
    (ignoreDates (some o) = true ↔ o.ignoreDates = some (bytesOf "true")) ∧
    noCa none = true ∧ ignoreDates none = true := by
  simp [noCa, ignoreDates, str]

/-! ### cases -/

def good : Cert := ⟨[(bytesOf "O", bytesOf "Acme"), (bytesOf "CN", bytesOf "host")], [bytesOf "host"], some 0, some 100⟩
def strict : Opts := ⟨none, none⟩
def lax : Opts := ⟨none, some (bytesOf "true")⟩

/-- a chain of an authority and a host, both in order -/
example : LetIn (some strict) 50 [⟨true, 0, { good with dns := [] }⟩, ⟨true, 0, good⟩] := by
  rw [letIn_iff]
  simp [Untrusted, OutOfDate, good]

example : Fit false false 50 ⟨true, 0, good⟩ ∧ SameClock 50 ⟨true, 0, good⟩ := by
  simp [Fit, Otherwise, Untrusted, OutOfDate, SameClock, good]

/-- a certificate signed by itself is not let in, unless that is asked for -/
example : ¬ LetIn (some strict) 50 [⟨false, 18, good⟩] ∧
    LetIn (some ⟨some (bytesOf "true"), none⟩) 50 [⟨false, 18, good⟩] := by
  rw [letIn_iff, letIn_iff]
  simp [Untrusted, OutOfDate, good, noCa, strict, str, ignoreDates]

/-- **C90 (`ignore_dates`).** With `ignore_dates` a revoked certificate (error 23),
or one with a forged signature (error 7), is refused while it is within its dates,
and let in once it has expired. -/
theorem C90_ignore_dates_violated : ∀ e ∈ [7, 23],
    ¬ LetIn (some lax) 50 [⟨false, e, good⟩] ∧ LetIn (some lax) 150 [⟨false, e, good⟩] ∧
    Otherwise ⟨false, e, good⟩ := by
  intro e he
  rw [letIn_iff, letIn_iff]
  simp only [List.mem_cons, List.not_mem_nil, or_false] at he
  rcases he with rfl | rfl <;>
    simp [Untrusted, OutOfDate, good, Otherwise, lax, ignoreDates, str, noCa]

/-- **C90 (no certificate).** A peer without a certificate is let in exactly if the
verification function refuses it: the answer is read the wrong way round.  So with
the library's own function, which refuses it, every such peer is let in. -/
theorem C90_no_certificate_violated :
    (∀ (f : VF) ctx ctx' (b : Bool), f ctx false none = .ok (ctx', b) →
      accept (some f) ctx none = .ok (ctx', !b)) ∧
    ∀ (o : Option Opts) (now : Int) (ctx : Ctx), ∃ ctx',
      verifyCert o now ctx false none = .ok (ctx', false) ∧
      accept (some (verifyCert o now)) ctx none = .ok (ctx', true) := by
  constructor
  · intro f ctx ctx' b h
    simp only [accept, setup]
    rw [h, Out.ok_bind]
  · intro o now ctx
    exact ⟨_, rfl, rfl⟩

/-- **C90 (message).** A certificate that is not valid yet is reported as expired. -/
theorem C90_message_violated :
    (decideCert (some strict) (-1) {} ⟨true, 0, good⟩).1.certError
      = some (.inl (bytesOf "Certificate expired.")) ∧ ¬ (100 : Int) ≤ -1 := by
  refine ⟨by decide +kernel, by decide⟩

/-! ## C91: names -/

/-- **C91 (room).** Whatever alternative names a certificate has, of whatever
number, length and bytes, gathering them stays within the buffer. -/
theorem C91_room (ctx : Ctx) (c : Cert) : ∃ ctx', getSan ctx c = .ok ctx' :=
  ⟨_, getSan_spec ctx c⟩

/-- names one after the other, with a comma and a blank between them -/
def commas : List (List Nat) → List Nat
  | [] => []
  | [d] => d
  | d :: ds => d ++ [44, 32] ++ commas ds

theorem commas_snoc (d : List Nat) : ∀ ds : List (List Nat), ds ≠ [] →
    commas (ds ++ [d]) = commas ds ++ [44, 32] ++ d
  | [x], _ => rfl
  | x :: y :: ds, _ => by
    have := commas_snoc d (y :: ds) (by simp)
    simp only [List.cons_append, commas] at this ⊢
    rw [this]
    simp

theorem takeWhile_all {d : List Nat} (h : 0 ∉ d) : d.takeWhile (· ≠ 0) = d := by
  have := List.takeWhile_append_of_pos (p := fun x : Nat => decide (x ≠ 0)) (l₁ := d) (l₂ := []) (by
    intro x hx
    have : x ≠ 0 := fun h0 => h (h0 ▸ hx)
    simpa using this)
  simpa using this

theorem fold_names (ds : List (List Nat)) (hz : ∀ d ∈ ds, 0 ∉ d)
    (hfit : (commas ds).length ≤ 4095) (hne : ds ≠ []) : ds.foldl addName none = some (commas ds) := by
  induction ds using List.reverseRecOn with
  | nil => exact absurd rfl hne
  | append_singleton ds d ih =>
    rw [List.foldl_append, List.foldl_cons, List.foldl_nil]
    cases ds with
    | nil =>
      simp only [List.nil_append, commas] at hfit
      simp only [List.foldl_nil, List.nil_append, commas, addName]
      rw [if_neg (by omega), takeWhile_all (hz d (by simp))]
    | cons x ds =>
      rw [commas_snoc d _ (by simp)] at hfit ⊢
      rw [ih (fun y hy => hz y (List.mem_append_left _ hy))
        (by simp only [List.length_append] at hfit; omega) (by simp)]
      simp only [addName]
      simp only [List.length_append, List.length_cons, List.length_nil] at hfit
      rw [if_neg (by omega), takeWhile_all (hz d (by simp))]

theorem commas_ne {ds : List (List Nat)} (h : ∃ d ∈ ds, d ≠ []) : commas ds ≠ [] := by
  obtain ⟨d, hd, hn⟩ := h
  cases ds with
  | nil => simp at hd
  | cons x ds =>
    cases ds with
    | nil => simp at hd; subst hd; exact hn
    | cons y ds => simp [commas]

/-- **C91 (alternative names).** After a chain has been accepted, the list of
alternative names is that of the last certificate judged, in order and complete.

Partial: the certificate has such names, none with a zero byte, and they fit into
4095 bytes (`C91_zero_violated`, `C91_stale_violated`). -/
theorem C91_names_partial (o : Option Opts) (now : Int) (cs : List Call) (c : Call) (ctx ctx' : Ctx)
    (h : accept (some (verifyCert o now)) ctx (some (cs ++ [c])) = .ok (ctx', true))
    (hz : ∀ d ∈ c.cert.dns, 0 ∉ d) (hn : ∃ d ∈ c.cert.dns, d ≠ [])
    (hfit : (commas c.cert.dns).length ≤ 4095) :
    ctx'.sanList = some (commas c.cert.dns) := by
  unfold accept at h
  simp only at h
  induction cs generalizing ctx with
  | nil =>
    obtain ⟨r, h1, _, _, h4⟩ := call_spec o now ctx c
    simp only [List.nil_append, verifyChain] at h
    rw [h1, Out.ok_bind] at h
    rw [fold_names _ hz hfit (by intro h0; rw [h0] at hn; simp at hn)] at h4
    rw [if_neg (by simpa using commas_ne hn)] at h4
    cases hr : r.2 <;> rw [hr] at h <;> simp at h
    rw [← h]; exact h4
  | cons x cs ih =>
    obtain ⟨r, h1, _⟩ := call_spec o now ctx x
    simp only [List.cons_append, verifyChain] at h
    rw [h1, Out.ok_bind] at h
    cases hr : r.2 <;> rw [hr] at h
    · simp at h
    · simp only [if_true] at h; exact ih _ h

example : ∃ ctx', accept (some (verifyCert (some strict) 50)) {}
    (some [⟨true, 0, { good with dns := [bytesOf "a", bytesOf "b"] }⟩]) = .ok (ctx', true) ∧
    ctx'.sanList = some (bytesOf "a, b") := by
  obtain ⟨ctx', h⟩ := (letIn_iff (some strict) 50 [⟨true, 0, { good with dns := [bytesOf "a", bytesOf "b"] }⟩]).2
    (by simp [Untrusted, OutOfDate, good])
  refine ⟨ctx', h, ?_⟩
  exact C91_names_partial _ _ [] _ {} ctx' h (by decide +kernel) (by decide +kernel) (by decide +kernel)

/-- **C91 (zero bytes).** An authority that signs the name `bank\0.example` for its
holder makes that holder be reported as `bank`. -/
theorem C91_zero_violated (ctx : Ctx) :
    getSan ctx { good with dns := [bytesOf "bank" ++ [0] ++ bytesOf ".example"] }
      = .ok { ctx with sanList := some (bytesOf "bank") } := by
  rw [getSan_spec]
  have : (([bytesOf "bank" ++ [0] ++ bytesOf ".example"] : List (List Nat)).foldl addName none)
      = some (bytesOf "bank") := by decide +kernel
  simp only [this]
  rw [if_neg (by decide +kernel)]

/-- **C91 (names of the authority).** The names of the authority's certificate stay
when the peer's own certificate has none. -/
theorem C91_stale_violated : ∃ ctx', accept (some (verifyCert (some strict) 50)) {}
    (some [⟨true, 0, { good with dns := [bytesOf "ca"] }⟩, ⟨true, 0, { good with dns := [] }⟩])
      = .ok (ctx', true) ∧ ctx'.sanList = some (bytesOf "ca") := by
  obtain ⟨ctx', h⟩ := (letIn_iff (some strict) 50
    [⟨true, 0, { good with dns := [bytesOf "ca"] }⟩, ⟨true, 0, { good with dns := [] }⟩]).2
    (by simp [Untrusted, OutOfDate, good])
  refine ⟨ctx', h, ?_⟩
  unfold accept at h
  simp only at h
  obtain ⟨r, h1, _, _, h2⟩ := call_spec (some strict) 50 {} ⟨true, 0, { good with dns := [bytesOf "ca"] }⟩
  obtain ⟨r', i1, _, _, i2⟩ := call_spec (some strict) 50 r.1 ⟨true, 0, { good with dns := [] }⟩
  simp only [verifyChain] at h
  rw [h1, Out.ok_bind] at h
  cases hr : r.2 <;> rw [hr] at h
  · simp at h
  · simp only [if_true] at h
    rw [i1, Out.ok_bind] at h
    cases hr' : r'.2 <;> rw [hr'] at h
    · simp at h
    · simp only [if_true, Out.ok.injEq, Prod.mk.injEq, and_true] at h
      rw [← h, i2]
      simp only [List.foldl_nil, Option.getD_none, if_true]
      rw [h2]
      decide +kernel

/-- **C91 (subject).** After a chain has been judged the subject is that of the last
certificate judged. -/
theorem C91_subject (o : Option Opts) (now : Int) (cs : List Call) (c : Call) (ctx ctx' : Ctx)
    (h : accept (some (verifyCert o now)) ctx (some (cs ++ [c])) = .ok (ctx', true)) :
    ctx'.subject = some (oneline 1022 c.cert.subject []) := by
  unfold accept at h
  simp only at h
  induction cs generalizing ctx with
  | nil =>
    obtain ⟨r, h1, _, h3, _⟩ := call_spec o now ctx c
    simp only [List.nil_append, verifyChain] at h
    rw [h1, Out.ok_bind] at h
    cases hr : r.2 <;> rw [hr] at h <;> simp at h
    rw [← h]; exact h3
  | cons x cs ih =>
    obtain ⟨r, h1, _⟩ := call_spec o now ctx x
    simp only [List.cons_append, verifyChain] at h
    rw [h1, Out.ok_bind] at h
    cases hr : r.2 <;> rw [hr] at h
    · simp at h
    · simp only [if_true] at h; exact ih _ h

/-- one entry of a subject, as text -/
def entry (e : List Nat × List Nat) : List Nat := [47] ++ e.1 ++ [61] ++ e.2

theorem oneline_all (len : Nat) : ∀ (es : List (List Nat × List Nat)) (acc : List Nat),
    (acc ++ es.flatMap entry).length ≤ len → oneline len es acc = acc ++ es.flatMap entry
  | [], acc, _ => by simp [oneline]
  | (k, v) :: es, acc, h => by
    rw [List.flatMap_cons, ← List.append_assoc] at h
    rw [oneline, if_neg (by
      simp only [List.length_append, entry] at h
      simp only [List.length_append]; omega)]
    have := oneline_all len es (acc ++ entry (k, v)) h
    have e : acc ++ ([47] ++ k ++ [61] ++ v) = acc ++ entry (k, v) := by simp [entry]
    rw [List.flatMap_cons, ← List.append_assoc acc (entry (k, v)), ← this, ← e]

theorem afterCn_skip : ∀ (p s : List Nat), (∀ t, t <:+ p → t ≠ [] → ¬ [67, 78, 61] <+: (t ++ s)) →
    afterCn (p ++ s) = afterCn s
  | [], s, _ => rfl
  | x :: p, s, h => by
    have h1 := h (x :: p) (List.suffix_refl _) (by simp)
    rw [List.cons_append, afterCn, if_neg (by
      rw [List.isPrefixOf_iff_prefix]; exact h1)]
    exact afterCn_skip p s (fun t ht hn => h t (ht.trans (List.suffix_cons _ _)) hn)

/-- **C91 (common name).** The name a peer is known by is the common name in its
certificate's subject.

Partial: the subject is at most 1022 bytes long as text, the common name has no
slash, and nothing before it looks like one: no earlier place in the text reads
`CN=` (`C91_common_name_violated`). -/
theorem C91_common_name_partial (o : Option Opts) (now : Int) (cs : List Call) (c : Call)
    (ctx ctx' : Ctx) (as bs : List (List Nat × List Nat)) (v : List Nat)
    (h : accept (some (verifyCert o now)) ctx (some (cs ++ [c])) = .ok (ctx', true))
    (hs : c.cert.subject = as ++ (bytesOf "CN", v) :: bs)
    (hlen : (c.cert.subject.flatMap entry).length ≤ 1022) (hv : 47 ∉ v)
    (hclear : ∀ t, t <:+ as.flatMap entry ++ [47] → t ≠ [] → ¬ bytesOf "CN=" <+: t ++ bytesOf "CN=") :
    remoteCn ctx' = some v := by
  have h1 := C91_subject o now cs c ctx ctx' h
  rw [oneline_all _ _ _ (by simpa using hlen), List.nil_append, hs] at h1
  have cn3 : bytesOf "CN=" = [67, 78, 61] := by decide +kernel
  have cn2 : bytesOf "CN" = [67, 78] := by decide +kernel
  have e1 : (as ++ (bytesOf "CN", v) :: bs).flatMap entry
      = (as.flatMap entry ++ [47]) ++ ([67, 78, 61] ++ (v ++ bs.flatMap entry)) := by
    rw [List.flatMap_append, List.flatMap_cons]
    simp [entry, cn2]
  rw [e1] at h1
  unfold remoteCn
  rw [h1, Option.bind_some, afterCn_skip]
  · rw [List.cons_append, afterCn, if_pos (by simp)]
    simp only [List.cons_append, List.nil_append, List.drop_succ_cons, List.drop_zero, Option.map_some]
    congr 1
    have hv' : ∀ x ∈ v, (decide (x ≠ 47)) = true := by
      intro x hx
      have : x ≠ 47 := fun h0 => hv (h0 ▸ hx)
      simpa using this
    rw [List.takeWhile_append_of_pos hv']
    cases bs with
    | nil => simp
    | cons b bs => simp [entry]
  · intro t ht hn hp
    apply hclear t ht hn
    rw [cn3]
    rw [← List.append_assoc] at hp
    exact List.prefix_of_prefix_length_le hp (List.prefix_append _ _)
      (by simp)

example : ∃ ctx', accept (some (verifyCert (some strict) 50)) {} (some [⟨true, 0, good⟩]) = .ok (ctx', true) ∧
    remoteCn ctx' = some (bytesOf "host") := by
  obtain ⟨ctx', h⟩ := (letIn_iff (some strict) 50 [⟨true, 0, good⟩]).2 (by simp [Untrusted, OutOfDate, good])
  refine ⟨ctx', h, ?_⟩
  refine C91_common_name_partial _ _ [] _ {} ctx' [(bytesOf "O", bytesOf "Acme")] [] _ h rfl
    (by decide +kernel) (by decide +kernel) ?_
  intro t ht
  rw [← List.mem_tails] at ht
  have key : ∀ t ∈ ([(bytesOf "O", bytesOf "Acme")].flatMap entry ++ [47]).tails,
      t ≠ [] → ¬ bytesOf "CN=" <+: t ++ bytesOf "CN=" := by decide +kernel
  exact key t ht

/-- **C91 (pretending).** A certificate for `guest` in an organisation that calls
itself `x/CN=admin` is known by the name `admin`. -/
theorem C91_common_name_violated : ∃ ctx', accept (some (verifyCert (some strict) 50)) {}
    (some [⟨true, 0, { good with subject := [(bytesOf "O", bytesOf "x/CN=admin"), (bytesOf "CN", bytesOf "guest")] }⟩])
      = .ok (ctx', true) ∧ remoteCn ctx' = some (bytesOf "admin") := by
  obtain ⟨ctx', h⟩ := (letIn_iff (some strict) 50
    [⟨true, 0, { good with subject := [(bytesOf "O", bytesOf "x/CN=admin"), (bytesOf "CN", bytesOf "guest")] }⟩]).2
    (by simp [Untrusted, OutOfDate, good])
  refine ⟨ctx', h, ?_⟩
  have h1 := C91_subject _ _ [] _ {} ctx' h
  unfold remoteCn
  rw [h1]
  decide +kernel

end Mtev.Tls
