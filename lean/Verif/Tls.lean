import Verif.Mem

/-!
# Checking the certificate of a TLS peer

`eventer/eventer_SSL_fd_opset.c`: `verify_cb`, `eventer_ssl_verify_cert`,
`eventer_ssl_verify_dates`, `eventer_ssl_get_san_values`, `eventer_SSL_setup`,
and the common name taken by `mtev_listener.c` and `mtev_reverse_socket.cpp`.

OpenSSL by contract: verifying a chain is a sequence of calls of the callback,
each with a certificate, OpenSSL's own opinion (`ok`) and an error number, and the
chain is accepted if and only if every call answers nonzero; the first zero ends
it.  A server that has set `SSL_VERIFY_PEER` only (`:1085`) lets clients without a
certificate in.
-/

namespace Mtev.Tls

/-- what is read of a certificate: the entries of the subject (short name and
value), the DNS entries of its alternative names, and its dates (`none` cannot be
read).  Other kinds of alternative names are skipped by the code (`:297`). -/
structure Cert where
  subject : List (List Nat × List Nat)
  dns : List (List Nat)
  notBefore : Option Int
  notAfter : Option Int
deriving DecidableEq, Repr

/-- one call of the callback -/
structure Call where
  ok : Bool
  err : Nat
  cert : Cert
deriving DecidableEq, Repr

/-- what the connection remembers (`struct eventer_ssl_ctx_t`, `:153-170`).  The
issuer and the dates are left out; texts of OpenSSL's errors are numbers here. -/
structure Ctx where
  subject : Option (List Nat) := none
  certError : Option (List Nat ⊕ Nat) := none
  sanList : Option (List Nat) := none
deriving DecidableEq, Repr

/-- the settings the decision depends on (`:358-363`); as text, like in the code -/
structure Opts where
  optionalNoCa : Option (List Nat)
  ignoreDates : Option (List Nat)
deriving DecidableEq, Repr

/-- `X509_cmp_time(t, &now)`: -1 up to `now`, 1 later, 0 if it cannot be read (OpenSSL) -/
def cmpTime (t : Option Int) (now : Int) : Int :=
  match t with
  | none => 0
  | some t => if t ≤ now then -1 else 1

/-- `eventer_ssl_verify_dates` (`:246-263`); 9 and 10 are
`X509_V_ERR_CERT_NOT_YET_VALID` and `X509_V_ERR_CERT_HAS_EXPIRED` -/
def verifyDates (now : Int) (c : Cert) : Nat :=
  if cmpTime c.notBefore now > 0 then 9
  else if cmpTime c.notAfter now < 0 then 10
  else 0

/-- where the gathering of names is: the buffer `cn[4096]`, `pos` and `written` (`:289-290`) -/
structure San where
  buf : Block
  pos : Nat
  written : Bool

/-- one name (`:294-316`): the comma if it is not the first, the bytes, the
terminator, and `strlen` -/
def sanPut (s : San) (data : List Nat) : Out San := do
  let b ← if s.written then s.buf.write s.pos [44, 32] else Out.ok s.buf
  let p := if s.written then s.pos + 2 else s.pos
  let b ← b.write p data
  let b ← b.write (data.length + p) [0]
  if 0 ∈ b then .ok { buf := b, pos := (b.takeWhile (· ≠ 0)).length, written := true } else .ub

/-- with the tests of the room (`:299-312`): names that do not fit are skipped -/
def sanStep (s : San) (data : List Nat) : Out San :=
  if (if s.written then data.length + s.pos > 4096 - 3 else data.length + s.pos > 4096 - 1) then .ok s
  else sanPut s data

def sanLoop : List (List Nat) → San → Out San
  | [], s => .ok s
  | d :: ds, s => sanStep s d >>= sanLoop ds

/-- `eventer_ssl_get_san_values` (`:276-328`) -/
def getSan (ctx : Ctx) (c : Cert) : Out Ctx :=
  sanLoop c.dns ⟨calloc 4096, 0, false⟩ >>= fun s =>
    .ok (if s.pos > 0 then { ctx with sanList := some (s.buf.takeWhile (· ≠ 0)) } else ctx)

/-- the five numbers of `:373-377`: `X509_V_ERR_DEPTH_ZERO_SELF_SIGNED_CERT`,
`_SELF_SIGNED_CERT_IN_CHAIN`, `_UNABLE_TO_GET_ISSUER_CERT_LOCALLY`, `_CERT_UNTRUSTED`,
`_UNABLE_TO_VERIFY_LEAF_SIGNATURE` -/
def chainErrs : List Nat := [18, 19, 20, 27, 21]

def str (o : Option (List Nat)) : Bool := o == some (bytesOf "true")

/-- `opt_no_ca` and `ignore_dates` (`:358-368`): without settings both are "true" -/
def noCa : Option Opts → Bool
  | none => true
  | some o => str o.optionalNoCa

def ignoreDates : Option Opts → Bool
  | none => true
  | some o => str o.ignoreDates

/-- the two tests of `eventer_ssl_verify_cert` (`:370-398`) -/
def decideCert (o : Option Opts) (now : Int) (ctx : Ctx) (c : Call) : Ctx × Bool :=
  if c.err ∈ chainErrs ∧ noCa o = false then ({ ctx with certError := some (.inr c.err) }, false)
  else
    let ok := if c.err ∈ chainErrs then true else c.ok
    if verifyDates now c.cert ≠ 0 then
      if ignoreDates o then (ctx, true)
      else
        -- `(v_res < 0) ? "Certificate not yet valid." : "Certificate expired."`
        ({ ctx with certError := some (.inl (bytesOf "Certificate expired.")) }, false)
    else (ctx, ok)

/-- a verification function: the answer to one call, or to the one without a
certificate (`x509ctx == NULL`) -/
def VF := Ctx → Bool → Option Call → Out (Ctx × Bool)

/-- `eventer_ssl_verify_cert` (`:329-402`).  Without a certificate the answer is
always 0 (`:340-356`).  `SSL_set_verify_result` is left out: OpenSSL sets the
result again after the callbacks. -/
def verifyCert (o : Option Opts) (now : Int) : VF := fun ctx _ok c =>
  match c with
  | none => .ok ({ ctx with certError := some (.inl (bytesOf "No certificate store present.")) }, false)
  | some c => getSan { ctx with certError := none } c.cert >>= fun ctx => .ok (decideCert o now ctx c)

/-- `X509_NAME_oneline`: a slash, the short name, an equals sign and the value for
each entry, up to the first that does not fit (OpenSSL; escapes of bytes outside
printable ASCII are left out) -/
def oneline (len : Nat) : List (List Nat × List Nat) → List Nat → List Nat
  | [], acc => acc
  | (k, v) :: es, acc =>
    let e := [47] ++ k ++ [61] ++ v
    if (acc ++ e).length > len then acc else oneline len es (acc ++ e)

/-- `eventer_ssl_set_peer_subject` (`:404-415`): the buffer has 1024 bytes and
OpenSSL is given 1023, one of them for the terminator -/
def setSubject (ctx : Ctx) (c : Cert) : Ctx := { ctx with subject := some (oneline 1022 c.subject []) }

/-- `verify_cb` (`:501-545`) -/
def verifyCb (f : Option VF) (ctx : Ctx) (c : Call) : Out (Ctx × Bool) :=
  let ctx := setSubject ctx c.cert
  let ctx := if c.ok then ctx else { ctx with certError := some (.inr c.err) }
  match f with
  | some f => f ctx c.ok (some c)
  | none => .ok (ctx, c.ok)

/-- OpenSSL's verification of a chain (contract in the head of this file) -/
def verifyChain (f : Option VF) : List Call → Ctx → Out (Ctx × Bool)
  | [], ctx => .ok (ctx, true)
  | c :: cs, ctx => verifyCb f ctx c >>= fun r => if r.2 then verifyChain f cs r.1 else .ok (r.1, false)

/-- `eventer_SSL_setup` without a peer's certificate (`:1386-1407`): its result is
that of the verification function, and nonzero means failure to the caller (`:1445`) -/
def setup (f : Option VF) (ctx : Ctx) : Out (Ctx × Bool) :=
  match f with
  | some f => f ctx false none >>= fun r => .ok (r.1, !r.2)
  | none => .ok (ctx, true)

/-- `eventer_SSL_accept` / `eventer_SSL_connect` up to the end of the handshake
(`:1441-1454`): is the connection made?  `none`: the peer shows no certificate -/
def accept (f : Option VF) (ctx : Ctx) : Option (List Call) → Out (Ctx × Bool)
  | some cs => verifyChain f cs ctx
  | none => setup f ctx

/-- `strstr(s, "CN=")` and what follows it -/
def afterCn : List Nat → Option (List Nat)
  | [] => none
  | c :: s => if [67, 78, 61].isPrefixOf (c :: s) then some ((c :: s).drop 3) else afterCn s

/-- the name under which a peer is known (`mtev_listener.c:251-262`,
`mtev_reverse_socket.cpp:1502-1512`) -/
def remoteCn (ctx : Ctx) : Option (List Nat) :=
  (ctx.subject.bind afterCn).map (·.takeWhile (· ≠ 47))

/-! ## the list of names -/

/-- what one more name does to the text gathered so far -/
def addName (acc : Option (List Nat)) (d : List Nat) : Option (List Nat) :=
  match acc with
  | none => if d.length > 4095 then none else some (d.takeWhile (· ≠ 0))
  | some a => if d.length + a.length > 4093 then some a else some (a ++ [44, 32] ++ d.takeWhile (· ≠ 0))

/-- buffer and text -/
structure Shows (s : San) (acc : Option (List Nat)) : Prop where
  len : s.buf.length = 4096
  wr : s.written = acc.isSome
  text : s.buf.takeWhile (· ≠ 0) = acc.getD []
  pos : s.pos = (acc.getD []).length
  fits : (acc.getD []).length ≤ 4095

theorem takeWhile_put {a d r : List Nat} (ha : ∀ x ∈ a, x ≠ 0) :
    (a ++ d ++ 0 :: r).takeWhile (· ≠ 0) = a ++ d.takeWhile (· ≠ 0) := by
  induction a with
  | nil =>
    simp only [List.nil_append]
    induction d with
    | nil => simp
    | cons x d ih =>
      by_cases hx : x = 0
      · subst hx; simp
      · simp only [List.cons_append, List.takeWhile_cons, hx, ne_eq, not_false_eq_true, decide_true,
          if_true]
        rw [ih]
  | cons x a ih =>
    have hx := ha x (by simp)
    simp only [List.cons_append, List.takeWhile_cons, hx, ne_eq, not_false_eq_true, decide_true, if_true]
    rw [ih (fun y hy => ha y (by simp [hy]))]

theorem write_ok {b : Block} {off : Nat} {d : List Nat} (h : off + d.length ≤ b.length) :
    b.write off d = .ok (b.take off ++ d ++ b.drop (off + d.length)) := if_pos h

theorem take_takeWhile {b : List Nat} {k : Nat} (h : k = (b.takeWhile (· ≠ 0)).length) :
    b.take k = b.takeWhile (· ≠ 0) := by
  have := List.takeWhile_append_dropWhile (p := (· ≠ 0)) (l := b)
  conv_lhs => rw [← this]
  rw [List.take_left' h.symm]

theorem takeWhile_len_le {d : List Nat} : (d.takeWhile (· ≠ 0)).length ≤ d.length :=
  (List.takeWhile_prefix _).length_le

/-- writing `d` and a terminator behind `a` -/
theorem put_spec {b : Block} {a d : List Nat} (hb : b.length = 4096) (hp : b.take a.length = a)
    (ha : ∀ x ∈ a, x ≠ 0) (hl : d.length + a.length ≤ 4095) :
    ∃ b1 b2 : Block, b.write a.length d = .ok b1 ∧ b1.write (d.length + a.length) [0] = .ok b2 ∧
      0 ∈ b2 ∧ b2.length = 4096 ∧ b2.takeWhile (· ≠ 0) = a ++ d.takeWhile (· ≠ 0) := by
  refine ⟨_, _, write_ok (by omega), write_ok (by simp; omega), ?_, ?_, ?_⟩
  · simp
  · simp; omega
  · rw [hp]
    have h1 : (a ++ d ++ b.drop (a.length + d.length)).take (d.length + a.length) = a ++ d := by
      rw [List.take_left' (by simp; omega)]
    rw [h1, List.append_assoc (a ++ d), List.singleton_append]
    exact takeWhile_put ha

theorem takeWhile_nonzero {l : List Nat} : ∀ x ∈ l.takeWhile (· ≠ 0), x ≠ 0 := by
  intro x hx
  have := List.all_eq_true.1 (List.all_takeWhile (p := fun y : Nat => decide (y ≠ 0)) (l := l)) x hx
  simpa using this

theorem sanPut_spec {s : San} {acc : Option (List Nat)} {d : List Nat} (h : Shows s acc)
    (hl : if s.written then d.length + s.pos ≤ 4093 else d.length + s.pos ≤ 4095) :
    ∃ s', sanPut s d = .ok s' ∧
      Shows s' (some ((match acc with | none => [] | some a => a ++ [44, 32]) ++ d.takeWhile (· ≠ 0))) := by
  have htake : s.buf.take (acc.getD []).length = acc.getD [] := by
    rw [take_takeWhile (by rw [h.text]), h.text]
  have hnz : ∀ x ∈ acc.getD [], x ≠ 0 := by rw [← h.text]; exact takeWhile_nonzero
  cases acc with
  | none =>
    have hw : s.written = false := h.wr
    have hpos : s.pos = 0 := h.pos
    rw [hw, hpos] at hl
    simp only [Bool.false_eq_true, if_false] at hl
    obtain ⟨b1, b2, h1, h2, h3, h4, h5⟩ := put_spec (b := s.buf) (a := []) (d := d) h.len rfl
      (by simp) (by simpa using hl)
    refine ⟨⟨b2, d.takeWhile (· ≠ 0) |>.length, true⟩, ?_, ?_⟩
    · simp only [List.nil_append] at h5
      simp only [sanPut, hw, hpos, Bool.false_eq_true, if_false, Out.ok_bind]
      simp only [List.length_nil] at h1 h2
      rw [h1, Out.ok_bind, h2, Out.ok_bind, if_pos h3, h5]
    · refine ⟨h4, rfl, ?_, ?_, ?_⟩
      · simpa using h5
      · simp
      · have := takeWhile_len_le (d := d)
        simp only [Option.getD_some, List.nil_append]; omega
  | some a =>
    have hw : s.written = true := h.wr
    have hpos : s.pos = a.length := h.pos
    simp only [Option.getD_some] at htake hnz
    rw [hw, hpos] at hl
    simp only [if_true] at hl
    have w0 : s.buf.write a.length [44, 32]
        = .ok (s.buf.take a.length ++ [44, 32] ++ s.buf.drop (a.length + 2)) :=
      write_ok (by rw [h.len]; simp; omega)
    obtain ⟨b1, b2, h1, h2, h3, h4, h5⟩ := put_spec
      (b := s.buf.take a.length ++ [44, 32] ++ s.buf.drop (a.length + 2)) (a := a ++ [44, 32]) (d := d)
      (by simp [h.len]; omega)
      (by rw [htake]; exact List.take_left' rfl)
      (by
        intro x hx
        rw [List.mem_append] at hx
        rcases hx with hx | hx
        · exact hnz x hx
        · simp at hx; omega)
      (by simp; omega)
    refine ⟨⟨b2, (a ++ [44, 32] ++ d.takeWhile (· ≠ 0)).length, true⟩, ?_, ?_⟩
    · simp only [sanPut, hw, hpos, if_true]
      simp only [List.length_append, List.length_cons, List.length_nil, Nat.zero_add] at h1 h2
      rw [w0, Out.ok_bind, h1, Out.ok_bind, h2, Out.ok_bind, if_pos h3, h5]
    · refine ⟨h4, rfl, ?_, ?_, ?_⟩
      · simpa using h5
      · simp
      · have := takeWhile_len_le (d := d)
        simp only [Option.getD_some, List.length_append, List.length_cons, List.length_nil]; omega

theorem sanStep_spec {s : San} {acc : Option (List Nat)} (d : List Nat) (h : Shows s acc) :
    ∃ s', sanStep s d = .ok s' ∧ Shows s' (addName acc d) := by
  unfold sanStep
  cases acc with
  | none =>
    have hw : s.written = false := h.wr
    have hpos : s.pos = 0 := h.pos
    simp only [addName]
    by_cases hd : d.length > 4095
    · refine ⟨s, by rw [hw, hpos]; simp; omega, by rw [if_pos hd]; exact h⟩
    · obtain ⟨s', h1, h2⟩ := sanPut_spec (d := d) h (by rw [hw, hpos]; simp; omega)
      refine ⟨s', ?_, by rw [if_neg hd]; simpa using h2⟩
      rw [if_neg (by rw [hw, hpos]; simp; omega), h1]
  | some a =>
    have hw : s.written = true := h.wr
    have hpos : s.pos = a.length := h.pos
    simp only [addName]
    by_cases hd : d.length + a.length > 4093
    · refine ⟨s, by rw [hw, hpos]; simp; omega, by rw [if_pos hd]; exact h⟩
    · obtain ⟨s', h1, h2⟩ := sanPut_spec (d := d) h (by rw [hw, hpos]; simp; omega)
      refine ⟨s', ?_, by rw [if_neg hd]; exact h2⟩
      rw [if_neg (by rw [hw, hpos]; simp; omega), h1]

theorem sanLoop_spec : ∀ (ds : List (List Nat)) (s : San) (acc : Option (List Nat)), Shows s acc →
    ∃ s', sanLoop ds s = .ok s' ∧ Shows s' (ds.foldl addName acc)
  | [], s, _, h => ⟨s, rfl, h⟩
  | d :: ds, s, acc, h => by
    obtain ⟨s1, h1, h2⟩ := sanStep_spec d h
    obtain ⟨s2, h3, h4⟩ := sanLoop_spec ds s1 _ h2
    exact ⟨s2, by simp only [sanLoop]; rw [h1, Out.ok_bind, h3], h4⟩

theorem takeWhile_zeros (n : Nat) : (List.replicate n 0).takeWhile (· ≠ 0) = [] := by
  cases n with
  | zero => rfl
  | succ n => rw [List.replicate_succ, List.takeWhile_cons]; simp

theorem shows_start : Shows ⟨calloc 4096, 0, false⟩ none :=
  ⟨List.length_replicate, rfl, takeWhile_zeros 4096, rfl, by simp⟩

/-- gathering names never leaves the buffer, and what it does -/
theorem getSan_spec (ctx : Ctx) (c : Cert) :
    getSan ctx c = .ok (if (c.dns.foldl addName none).getD [] = [] then ctx
      else { ctx with sanList := c.dns.foldl addName none }) := by
  obtain ⟨s, h1, h2⟩ := sanLoop_spec c.dns _ _ shows_start
  unfold getSan
  rw [h1, Out.ok_bind, h2.text, h2.pos]
  cases hf : c.dns.foldl addName none with
  | none => simp
  | some a =>
    cases a with
    | nil => simp
    | cons x a => simp

theorem getSan_others (ctx : Ctx) (c : Cert) : ∃ ctx', getSan ctx c = .ok ctx' ∧
    ctx'.subject = ctx.subject ∧ ctx'.certError = ctx.certError := by
  rw [getSan_spec]
  refine ⟨_, rfl, ?_, ?_⟩ <;> split <;> rfl

end Mtev.Tls
