import Verif.TlsCtx
import Mathlib.Data.List.Induction
import Mathlib.Data.List.TakeWhile

/-!
# C92, C93: TLS contexts are those asked for

C92: a connection gets a context made from its own settings, and not older than
the cache's time limit.

C93: the protocol versions spoken are those the layer asks for.
-/

namespace Mtev.TlsCtx

/-- what a program may do, in any order -/
inductive Op where
  | new (now : Int) (server : Bool) (s : Settings)
  | crl (k crl : Str)

def after (H : List Nat → List Nat) (w : World) : List Op → Cache → Cache
  | [], c => c
  | .new now server s :: ops, c => after H w ops (newCtx H w c now server s).1
  | .crl k crl :: ops, c => after H w ops (useCrl c k crl)

/-- the request an entry was made for -/
def From (H : List Nat → List Nat) (reqs : List (Int × Bool × Settings)) (k : Str) (n : Node) : Prop :=
  ∃ r ∈ reqs, k = keyText H r.2.1 (resolve r.2.2) ∧ n.built.server = r.2.1 ∧
    n.built.use = resolve r.2.2 ∧ n.built.at_ = n.created

def Good (H : List Nat → List Nat) (reqs : List (Int × Bool × Settings)) (c : Cache) : Prop :=
  ∀ k n, c.get k = some n → From H reqs k n

def reqsOf : List Op → List (Int × Bool × Settings)
  | [] => []
  | .new now server s :: ops => (now, server, s) :: reqsOf ops
  | .crl .. :: ops => reqsOf ops

theorem fresh_built {w : World} {e now : Int} {u : Use} {n n' : Node} (h : fresh w e now u n = some n') :
    n'.built = n.built ∧ n'.created = n.created ∧ now - n.created ≤ e := by
  unfold fresh at h
  split at h
  · cases h
  · rename_i h1
    split at h
    · split at h
      · cases h; exact ⟨rfl, rfl, by omega⟩
      · cases h
    · cases h; exact ⟨rfl, rfl, by omega⟩

theorem From.mono {H r1 r2 k n} (h : From H r1 k n) (hs : ∀ x ∈ r1, x ∈ r2) : From H r2 k n := by
  obtain ⟨r, hr, h⟩ := h
  exact ⟨r, hs r hr, h⟩

theorem miss_good {H w c now server s reqs} (h : Good H reqs c) (hin : (now, server, s) ∈ reqs) :
    Good H reqs (miss H w c now server (resolve s)).1 ∧
    ∀ b, (miss H w c now server (resolve s)).2 = some b →
      b.at_ = now ∧ b.server = server ∧ b.use = resolve s := by
  unfold miss
  split
  · refine ⟨?_, ?_⟩
    · intro k n hk
      rw [get_put] at hk
      split at hk
      · rename_i e
        cases hk
        exact ⟨_, hin, e, rfl, rfl, rfl⟩
      · exact h k n hk
    · intro b hb
      cases hb
      exact ⟨rfl, rfl, rfl⟩
  · exact ⟨h, by intro b hb; cases hb⟩

theorem new_good {H w c now server s reqs} (h : Good H reqs c) (hin : (now, server, s) ∈ reqs) :
    Good H reqs (newCtx H w c now server s).1 ∧
    ∀ b, (newCtx H w c now server s).2 = some b →
      (b.at_ = now ∨ now - b.at_ ≤ c.expiry) ∧
      ∃ r ∈ reqs, keyText H server (resolve s) = keyText H r.2.1 (resolve r.2.2) ∧
        b.server = r.2.1 ∧ b.use = resolve r.2.2 := by
  unfold newCtx
  simp only
  split
  · rename_i n hn
    obtain ⟨r, hr, hk, h1, h2, h3⟩ := h _ _ hn
    split
    · rename_i n' hn'
      obtain ⟨f1, f2, f3⟩ := fresh_built hn'
      refine ⟨?_, ?_⟩
      · intro k m hm
        rw [get_put] at hm
        split at hm
        · rename_i e
          cases hm
          rw [e]
          exact ⟨r, hr, hk, by rw [f1]; exact h1, by rw [f1]; exact h2, by rw [f1, f2]; exact h3⟩
        · exact h k m hm
      · intro b hb
        cases hb
        rw [f1]
        exact ⟨.inr (by omega), r, hr, hk, h1, h2⟩
    · have := miss_good (w := w) (now := now) (server := server) (s := s) (reqs := reqs)
        (c := c.del (keyText H server (resolve s)))
        (by
          intro k m hm
          rw [get_del] at hm
          split at hm
          · cases hm
          · exact h k m hm) hin
      refine ⟨this.1, fun b hb => ?_⟩
      obtain ⟨b1, b2, b3⟩ := this.2 b hb
      exact ⟨.inl b1, _, hin, rfl, b2, b3⟩
  · have := miss_good (w := w) (now := now) (server := server) (s := s) h hin
    refine ⟨this.1, fun b hb => ?_⟩
    obtain ⟨b1, b2, b3⟩ := this.2 b hb
    exact ⟨.inl b1, _, hin, rfl, b2, b3⟩

theorem crl_good {H c reqs k crl} (h : Good H reqs c) : Good H reqs (useCrl c k crl) := by
  intro k' n hn
  unfold Cache.get useCrl at hn
  simp only [List.find?_map, Option.map_map] at hn
  have hg : ∀ e : Str × Node, ((fun e => e.1 == k') ∘ (fun e : Str × Node =>
      if e.1 = k ∧ e.2.built.crl = none then (e.1, { e.2 with built := { e.2.built with crl := some crl } })
      else e)) e = (e.1 == k') := by
    intro e; simp only [Function.comp]; split <;> rfl
  rw [show ((fun e => e.1 == k') ∘ (fun e : Str × Node =>
      if e.1 = k ∧ e.2.built.crl = none then (e.1, { e.2 with built := { e.2.built with crl := some crl } })
      else e)) = (fun e => e.1 == k') from funext hg] at hn
  cases hf : c.nodes.find? (fun e => e.1 == k') with
  | none => rw [hf] at hn; cases hn
  | some e =>
    rw [hf] at hn
    have hget : c.get k' = some e.2 := by unfold Cache.get; rw [hf]; rfl
    obtain ⟨r, hr, h1, h2, h3, h4⟩ := h k' e.2 hget
    simp only [Option.map_some, Function.comp, Option.some.injEq] at hn
    split at hn
    · rw [← hn]; exact ⟨r, hr, h1, h2, h3, h4⟩
    · rw [← hn]; exact ⟨r, hr, h1, h2, h3, h4⟩

theorem miss_expiry {H w c now server u} : (miss H w c now server u).1.expiry = c.expiry := by
  unfold miss; split <;> rfl

theorem new_expiry {H w c now server s} : (newCtx H w c now server s).1.expiry = c.expiry := by
  unfold newCtx
  simp only
  split
  · split
    · rfl
    · rw [miss_expiry]; rfl
  · rw [miss_expiry]

theorem after_good {H w} : ∀ (ops : List Op) (reqs : List (Int × Bool × Settings)) (c : Cache),
    Good H reqs c → Good H (reqsOf ops ++ reqs) (after H w ops c) ∧ (after H w ops c).expiry = c.expiry
  | [], reqs, c, h => ⟨h, rfl⟩
  | .new now server s :: ops, reqs, c, h => by
    have h1 : Good H ((now, server, s) :: reqs) c := fun k n hn =>
      (h k n hn).mono (fun x hx => by simp [hx])
    have h2 := (new_good (w := w) h1 (List.mem_cons_self)).1
    obtain ⟨h3, h4⟩ := after_good ops _ _ h2
    simp only [after, reqsOf]
    refine ⟨fun k n hn => (h3 k n hn).mono ?_, by rw [h4, new_expiry]⟩
    intro x hx
    simp only [List.mem_append, List.mem_cons] at hx ⊢
    tauto
  | .crl k crl :: ops, reqs, c, h => by
    obtain ⟨h3, h4⟩ := after_good (H := H) (w := w) ops _ _ (crl_good (k := k) (crl := crl) h)
    exact ⟨h3, h4⟩

/-- **C92 (contexts).** Whatever contexts were asked for before, with whatever
settings and at whatever times: the context handed out was made for the same role,
with the same layer and with settings whose values, one after the other up to the
first missing one, read the same; and it was made within the cache's time limit.

Partial: layers of at most 16000 bytes, and no two of the requests collide in the
digest.  What is missing for "the same settings": `C92_no_certificate_violated`,
`C92_joined_violated`; see `C92_one_change`. -/
theorem C92_context_partial {H : List Nat → List Nat} (hH : ∀ x, (H x).length = 32 ∧ ∀ b ∈ H x, b < 256)
    (w : World) (expiry : Int) (ops : List Op) (now : Int) (server : Bool) (s : Settings) (b : Built)
    (hlay : ∀ r ∈ (now, server, s) :: reqsOf ops, ((resolve r.2.2).layer.getD []).length ≤ 16000)
    (hcol : ∀ r ∈ reqsOf ops, H (hashed (parts (resolve r.2.2))) = H (hashed (parts (resolve s))) →
      hashed (parts (resolve r.2.2)) = hashed (parts (resolve s)))
    (h : (newCtx H w (after H w ops { expiry := expiry }) now server s).2 = some b) :
    b.server = server ∧ b.use.layer.getD [] = (resolve s).layer.getD [] ∧
    hashed (parts b.use) = hashed (parts (resolve s)) ∧ (b.at_ = now ∨ now - b.at_ ≤ expiry) := by
  have h0 := after_good (H := H) (w := w) ops [] { expiry := expiry } (by
    intro k n hn; simp [Cache.get] at hn)
  rw [List.append_nil] at h0
  have h1 : Good H ((now, server, s) :: reqsOf ops) (after H w ops { expiry := expiry }) :=
    fun k n hn => (h0.1 k n hn).mono (fun x hx => by simp [hx])
  obtain ⟨ht, r, hr, hk, e1, e2⟩ := (new_good (w := w) h1 (List.mem_cons_self)).2 b h
  rw [h0.2] at ht
  obtain ⟨k1, k2, k3⟩ := key_inj hH (hlay _ List.mem_cons_self) (hlay r hr) hk
  refine ⟨by rw [e1, k1], by rw [e2, k2], ?_, ht⟩
  rw [e2]
  rcases List.mem_cons.1 hr with rfl | hr
  · rfl
  · exact hcol r hr k3.symm

/-- the values a context is made from, other than its layer -/
def values (u : Use) : List (Option Str) :=
  [u.certificate, u.key, u.ca, u.caAccept, u.ciphers, some u.npn, u.crl]

/-- **C92 (one change).** Two sets of settings that name a certificate, a key, an
authority and ciphers, and that differ in one value only, never read the same. -/
theorem C92_one_change (u v : Use) (i : Nat)
    (hu : u.certificate.isSome ∧ u.key.isSome ∧ u.ca.isSome ∧ u.caAccept.isSome ∧ u.ciphers.isSome)
    (hv : v.certificate.isSome ∧ v.key.isSome ∧ v.ca.isSome ∧ v.caAccept.isSome ∧ v.ciphers.isSome)
    (hc : u.crl.isSome = v.crl.isSome)
    (hi : ∀ j, j ≠ i → (values u)[j]? = (values v)[j]?)
    (h : hashed (parts u) = hashed (parts v)) : values u = values v := by
  obtain ⟨l, c1, k1, a1, aa1, ci1, cr1, n1⟩ := u
  obtain ⟨l', c2, k2, a2, aa2, ci2, cr2, n2⟩ := v
  simp only [Option.isSome_iff_exists] at hu hv
  obtain ⟨⟨c1, rfl⟩, ⟨k1, rfl⟩, ⟨a1, rfl⟩, ⟨aa1, rfl⟩, ⟨ci1, rfl⟩⟩ := hu
  obtain ⟨⟨c2, rfl⟩, ⟨k2, rfl⟩, ⟨a2, rfl⟩, ⟨aa2, rfl⟩, ⟨ci2, rfl⟩⟩ := hv
  have g0 := hi 0
  have g1 := hi 1
  have g2 := hi 2
  have g3 := hi 3
  have g4 := hi 4
  have g5 := hi 5
  have g6 := hi 6
  simp only [values, List.getElem?_cons_zero, List.getElem?_cons_succ, Option.some.injEq] at g0 g1 g2 g3 g4 g5 g6
  simp only at hc
  rcases i with _ | _ | _ | _ | _ | _ | _ | i
  all_goals
    simp at g0 g1 g2 g3 g4 g5 g6
    cases cr1 <;> cases cr2 <;> simp at hc <;> simp_all [parts, values, hashed]

/-- **C92 (which setting counts).** A value given as text counts before one in a
file; the authorities offered to clients are those given for that purpose, or else
those clients are checked against; the protocols offered are those of `alpn`, or
else of `npn`, or else the default. -/
theorem C92_settings (s : Settings) :
    (∀ a, s.certificate = some a → (resolve s).certificate = some a) ∧
    (s.certificate = none → (resolve s).certificate = s.certificateFile) ∧
    (∀ a, s.key = some a → (resolve s).key = some a) ∧
    (s.key = none → (resolve s).key = s.keyFile) ∧
    (∀ a, s.caAccept = some a → (resolve s).caAccept = some a) ∧
    (s.caAccept = none → (resolve s).caAccept = s.caChain) ∧
    (∀ a, s.alpn = some a → (resolve s).npn = a) ∧
    (∀ a, s.alpn = none → s.npn = some a → (resolve s).npn = a) ∧
    (s.alpn = none → s.npn = none → (resolve s).npn = bytesOf "h2,http/1.1") := by
  refine ⟨?_, ?_, ?_, ?_, ?_, ?_, ?_, ?_, ?_⟩ <;> intros <;> simp_all [resolve]

/-! ### the files -/

/-- the files as they were when the context was made, and at the last look -/
def Looked (w : World) (n : Node) : Prop :=
  n.built.at_ = n.created ∧
  (n.certInfo = finfo w n.created (fileOf n.built.use.certificate) ∧
    finfo w n.lastStat (fileOf n.built.use.certificate) = n.certInfo) ∧
  (n.keyInfo = finfo w n.created (fileOf n.built.use.key) ∧
    finfo w n.lastStat (fileOf n.built.use.key) = n.keyInfo) ∧
  (n.caInfo = finfo w n.created (fileOf n.built.use.ca) ∧
    finfo w n.lastStat (fileOf n.built.use.ca) = n.caInfo)

/-- the files of a context were the same at time `t` as when it was made -/
def Unchanged (w : World) (b : Built) (t : Int) : Prop :=
  ∀ f ∈ [b.use.certificate, b.use.key, b.use.ca], finfo w t (fileOf f) = finfo w b.at_ (fileOf f)

theorem Looked.unchanged {w : World} {n : Node} (h : Looked w n) : Unchanged w n.built n.lastStat := by
  obtain ⟨h0, ⟨h1, h2⟩, ⟨h3, h4⟩, ⟨h5, h6⟩⟩ := h
  intro f hf
  rw [h0]
  simp only [List.mem_cons, List.not_mem_nil, or_false] at hf
  rcases hf with rfl | rfl | rfl
  · rw [h2, h1]
  · rw [h4, h3]
  · rw [h6, h5]

theorem Looked.make {w : World} {now : Int} {server : Bool} {u : Use} : Looked w (make w now server u) :=
  ⟨rfl, ⟨rfl, rfl⟩, ⟨rfl, rfl⟩, ⟨rfl, rfl⟩⟩

theorem Looked.fresh {w : World} {e now : Int} {n n' : Node} (h : Looked w n)
    (hf : fresh w e now n.built.use n = some n') : Looked w n' ∧ now - n'.lastStat ≤ 5 := by
  unfold TlsCtx.fresh at hf
  split at hf
  · cases hf
  · split at hf
    · split at hf
      · rename_i hc
        cases hf
        obtain ⟨h0, ⟨h1, _⟩, ⟨h3, _⟩, ⟨h5, _⟩⟩ := h
        exact ⟨⟨h0, ⟨h1, hc.1⟩, ⟨h3, hc.2.1⟩, ⟨h5, hc.2.2⟩⟩, by simp⟩
      · cases hf
    · cases hf
      exact ⟨h, by omega⟩

def AllLooked (w : World) (c : Cache) : Prop := ∀ k n, c.get k = some n → Looked w n

theorem miss_looked {H w c now server u} (h : AllLooked w c) :
    AllLooked w (miss H w c now server u).1 ∧
    ∀ b, (miss H w c now server u).2 = some b → ∃ t, now - t ≤ 5 ∧ Unchanged w b t := by
  unfold miss
  split
  · refine ⟨?_, ?_⟩
    · intro k n hk
      rw [get_put] at hk
      split at hk
      · cases hk; exact Looked.make
      · exact h k n hk
    · intro b hb
      cases hb
      exact ⟨now, by simp, fun f _ => rfl⟩
  · exact ⟨h, by intro b hb; cases hb⟩

theorem new_looked {H w c now server s reqs} (hg : Good H reqs c) (h : AllLooked w c)
    (hkey : ∀ r ∈ reqs, keyText H r.2.1 (resolve r.2.2) = keyText H server (resolve s) →
      resolve r.2.2 = resolve s) :
    AllLooked w (newCtx H w c now server s).1 ∧
    ∀ b, (newCtx H w c now server s).2 = some b → ∃ t, now - t ≤ 5 ∧ Unchanged w b t := by
  unfold newCtx
  simp only
  split
  · rename_i n hn
    obtain ⟨r, hr, hk, h1, h2, h3⟩ := hg _ _ hn
    have hu : n.built.use = resolve s := by rw [h2]; exact hkey r hr hk.symm
    split
    · rename_i n' hn'
      rw [← hu] at hn'
      obtain ⟨f1, f2⟩ := (h _ _ hn).fresh hn'
      refine ⟨?_, ?_⟩
      · intro k m hm
        rw [get_put] at hm
        split at hm
        · cases hm; exact f1
        · exact h k m hm
      · intro b hb
        cases hb
        exact ⟨n'.lastStat, f2, f1.unchanged⟩
    · exact miss_looked (by
        intro k m hm
        rw [get_del] at hm
        split at hm
        · cases hm
        · exact h k m hm)
  · exact miss_looked h

theorem crl_looked {w c k crl} (h : AllLooked w c) : AllLooked w (useCrl c k crl) := by
  intro k' n hn
  unfold Cache.get useCrl at hn
  simp only [List.find?_map, Option.map_map] at hn
  have hg : ∀ e : Str × Node, ((fun e => e.1 == k') ∘ (fun e : Str × Node =>
      if e.1 = k ∧ e.2.built.crl = none then (e.1, { e.2 with built := { e.2.built with crl := some crl } })
      else e)) e = (e.1 == k') := by
    intro e; simp only [Function.comp]; split <;> rfl
  rw [show ((fun e => e.1 == k') ∘ (fun e : Str × Node =>
      if e.1 = k ∧ e.2.built.crl = none then (e.1, { e.2 with built := { e.2.built with crl := some crl } })
      else e)) = (fun e => e.1 == k') from funext hg] at hn
  cases hf : c.nodes.find? (fun e => e.1 == k') with
  | none => rw [hf] at hn; cases hn
  | some e =>
    rw [hf] at hn
    have hget : c.get k' = some e.2 := by unfold Cache.get; rw [hf]; rfl
    have hl := h k' e.2 hget
    simp only [Option.map_some, Function.comp, Option.some.injEq] at hn
    split at hn
    · rw [← hn]; exact hl
    · rw [← hn]; exact hl

/-- no two of the requests are taken for the same although they differ -/
def Apart (H : List Nat → List Nat) (reqs : List (Int × Bool × Settings)) : Prop :=
  ∀ r ∈ reqs, ∀ q ∈ reqs, keyText H r.2.1 (resolve r.2.2) = keyText H q.2.1 (resolve q.2.2) →
    resolve r.2.2 = resolve q.2.2

theorem after_looked {H w} : ∀ (ops : List Op) (reqs : List (Int × Bool × Settings)) (c : Cache),
    Good H reqs c → AllLooked w c → Apart H (reqsOf ops ++ reqs) → AllLooked w (after H w ops c)
  | [], reqs, c, _, h, _ => h
  | .new now server s :: ops, reqs, c, hg, h, ha => by
    have h1 : Good H ((now, server, s) :: reqs) c := fun k n hn =>
      (hg k n hn).mono (fun x hx => by simp [hx])
    have h2 := (new_good (w := w) h1 (List.mem_cons_self)).1
    simp only [after]
    refine after_looked ops _ _ h2 ?_ ?_
    · refine (new_looked h1 h ?_).1
      intro r hr hk
      refine ha r ?_ (now, server, s) (by simp [reqsOf]) hk
      simp only [reqsOf, List.cons_append, List.mem_cons, List.mem_append] at hr ⊢
      tauto
    · intro r hr q hq
      refine ha r ?_ q ?_
      · simp only [reqsOf, List.cons_append, List.mem_cons, List.mem_append] at hr ⊢; tauto
      · simp only [reqsOf, List.cons_append, List.mem_cons, List.mem_append] at hq ⊢; tauto
  | .crl k crl :: ops, reqs, c, hg, h, ha => by
    simp only [after]
    exact after_looked ops reqs _ (crl_good hg) (crl_looked h) ha

/-- **C92 (files).** Whatever contexts were asked for before: the files a context
that is handed out was made from (certificate, key, authorities) were, at some time
not more than five seconds ago, the same as when it was made (inode and time of
modification).  Partial: no two requests that differ are taken for the same (see
`C92_context_partial`), and the files of accepted authorities and of the revocation
list are not looked at. -/
theorem C92_files_partial {H : List Nat → List Nat} (w : World) (expiry : Int) (ops : List Op)
    (now : Int) (server : Bool) (s : Settings) (b : Built)
    (ha : Apart H ((now, server, s) :: reqsOf ops))
    (h : (newCtx H w (after H w ops { expiry := expiry }) now server s).2 = some b) :
    ∃ t, now - t ≤ 5 ∧ ∀ f ∈ [b.use.certificate, b.use.key, b.use.ca],
      finfo w t (fileOf f) = finfo w b.at_ (fileOf f) := by
  have h0 := after_good (H := H) (w := w) ops [] { expiry := expiry } (by
    intro k n hn; simp [Cache.get] at hn)
  rw [List.append_nil] at h0
  have h1 : Good H ((now, server, s) :: reqsOf ops) (after H w ops { expiry := expiry }) :=
    fun k n hn => (h0.1 k n hn).mono (fun x hx => by simp [hx])
  have h2 : AllLooked w (after H w ops { expiry := expiry }) := by
    refine after_looked ops [] _ (by intro k n hn; simp [Cache.get] at hn)
      (by intro k n hn; simp [Cache.get] at hn) ?_
    rw [List.append_nil]
    intro r hr q hq
    exact ha r (by simp [hr]) q (by simp [hq])
  exact (new_looked h1 h2 (fun r hr hk => ha r hr _ List.mem_cons_self hk)).2 b h

/-! ### cases -/

/-- a digest for the cases (any function to 32 bytes will do) -/
def H0 (l : List Nat) : List Nat := (List.range 32).map (fun i => (l.foldl (fun a x => a * 31 + x) 7 + i) % 256)

def w0 : World := ⟨fun _ _ => (1, 0), fun _ _ _ => true⟩

def full : Settings :=
  { certificate := some (bytesOf "/c"), key := some (bytesOf "/k"), caChain := some (bytesOf "/ca"),
    ciphers := some (bytesOf "HIGH") }

/-- a second request within five seconds gets the same context, a later one a new one -/
example : (newCtx H0 w0 (after H0 w0 [.new 10 true full] {}) 14 true full).2
      = some ⟨true, resolve full, 10, none⟩ ∧
    (newCtx H0 w0 (after H0 w0 [.new 10 true full] {}) 16 true full).2
      = some ⟨true, resolve full, 16, none⟩ ∧
    ∀ x, (H0 x).length = 32 ∧ ∀ b ∈ H0 x, b < 256 := by
  refine ⟨by decide +kernel, by decide +kernel, fun x => ⟨by simp [H0], ?_⟩⟩
  intro b hb
  simp only [H0, List.mem_map] at hb
  obtain ⟨i, _, rfl⟩ := hb
  omega

/-- **C92 (no certificate).** Clients without a certificate of their own share one
context whatever authority and ciphers they ask for: for every digest, the second
one's server is checked against the first one's authority. -/
theorem C92_no_certificate_violated (H : List Nat → List Nat) :
    (newCtx H w0 (newCtx H w0 {} 10 false (plain none none none (some (bytesOf "/ca-of-a")) none)).1 12 false
      (plain none none none (some (bytesOf "/ca-of-b")) (some (bytesOf "HIGH")))).2
      = some ⟨false, resolve (plain none none none (some (bytesOf "/ca-of-a")) none), 10, none⟩ := by
  have hk : keyText H false (resolve (plain none none none (some (bytesOf "/ca-of-a")) none))
      = keyText H false (resolve (plain none none none (some (bytesOf "/ca-of-b")) (some (bytesOf "HIGH")))) := by
    have he : ∀ a b, hashed (parts (resolve (plain none none none a b))) = [] := fun _ _ => rfl
    have hl : ∀ a b, (resolve (plain none none none a b)).layer = none := fun _ _ => rfl
    unfold keyText
    rw [he, he, hl, hl]
  have h1 : (newCtx H w0 {} 10 false (plain none none none (some (bytesOf "/ca-of-a")) none)).1
      = Cache.put {} (keyText H false (resolve (plain none none none (some (bytesOf "/ca-of-a")) none)))
          (make w0 10 false (resolve (plain none none none (some (bytesOf "/ca-of-a")) none))) := by
    simp [newCtx, Cache.get, miss, w0]
  rw [h1]
  unfold newCtx
  simp only
  rw [get_put, if_pos hk.symm]
  simp only
  have h2 : fresh w0 (Cache.put {} (keyText H false (resolve (plain none none none (some (bytesOf "/ca-of-a")) none)))
          (make w0 10 false (resolve (plain none none none (some (bytesOf "/ca-of-a")) none)))).expiry 12
      (resolve (plain none none none (some (bytesOf "/ca-of-b")) (some (bytesOf "HIGH"))))
      (make w0 10 false (resolve (plain none none none (some (bytesOf "/ca-of-a")) none)))
      = some (make w0 10 false (resolve (plain none none none (some (bytesOf "/ca-of-a")) none))) := by
    simp [fresh, Cache.put, make]
  rw [h2]
  rfl

/-- **C92 (joined values).** Values are joined without a mark between them, so
different settings read the same: here certificate `/ab` with key `c`, and
certificate `/a` with key `bc`. -/
theorem C92_joined_violated (ca ciphers : Option Str) (server : Bool) (H : List Nat → List Nat) :
    keyText H server (resolve (plain none (some (bytesOf "/ab")) (some (bytesOf "c")) ca ciphers))
      = keyText H server (resolve (plain none (some (bytesOf "/a")) (some (bytesOf "bc")) ca ciphers)) := by
  simp only [keyText, plain, resolve, parts, hashed]
  rfl

/-- **C92 (`ca_file`).** The documented setting `ca_file` has no effect: the context
is made without an authority. -/
theorem C92_ca_file_violated (s : Settings) (h : s.caChain = none) :
    (resolve s).ca = none ∧ resolve s = resolve { s with caFile := none } := by
  refine ⟨h, rfl⟩

/-- **C92 (revocation with inline authorities).** When the authority is given as
text, the revocation list asked for is not looked at. -/
theorem C92_inline_violated (w : World) (now : Int) (server : Bool) (s : Settings) (ca : Str)
    (h : s.caChain = some ca) (hn : 10 ∈ ca) :
    checksCrl (make w now server (resolve s)).built = false := by
  simp [checksCrl, make, resolve, h, fileOf, hn]

/-- with a file, or with the system's authorities, it is -/
example : checksCrl (make w0 0 true (resolve { full with crl := some (bytesOf "/crl") })).built = true := by
  decide +kernel

/-- **C92 (revocation of others).** A connection that asks for a revocation list
after its context was made puts it into the context of every other connection with
the same settings. -/
theorem C92_shared_crl_violated :
    (newCtx H0 w0 (after H0 w0 [.new 10 true full, .crl (keyText H0 true (resolve full)) (bytesOf "/crl")] {})
      12 true full).2 = some ⟨true, resolve full, 10, some (bytesOf "/crl")⟩ := by decide +kernel

/-! ## C93: versions -/

inductive Kind where
  | atLeast | atMost | exactly | on | off
deriving DecidableEq, Repr

/-- an option: what it says of which version, as spelt -/
structure Item where
  kind : Kind
  version : Nat
  spelling : Str

/-- the documented names -/
def nameOf : Nat → Str
  | 1 => bytesOf "TLSv1"
  | 2 => bytesOf "TLSv1.1"
  | 3 => bytesOf "TLSv1.2"
  | _ => bytesOf "TLSv1.3"

/-- equal but for upper and lower case -/
def SameLetters (s t : Str) : Prop :=
  List.Forall₂ (fun x y => x = y ∨ (65 ≤ x ∧ x ≤ 90 ∧ y = x + 32) ∨ (65 ≤ y ∧ y ≤ 90 ∧ x = y + 32)) s t

theorem SameLetters.lower {s t : Str} (h : SameLetters s t) : s.map lower = t.map lower := by
  unfold SameLetters at h
  induction h with
  | nil => rfl
  | cons h1 _ ih =>
    rw [List.map_cons, List.map_cons, ih]
    congr 1
    unfold TlsCtx.lower
    split <;> split <;> omega

/-- a version from TLSv1 to TLSv1.3, spelt with any case -/
def Item.Valid (i : Item) : Prop :=
  1 ≤ i.version ∧ i.version ≤ 4 ∧ SameLetters i.spelling (nameOf i.version)

def Item.text (i : Item) : Str :=
  (match i.kind with
  | .atLeast => bytesOf ">="
  | .atMost => bytesOf "<="
  | .exactly => bytesOf "="
  | .on => []
  | .off => bytesOf "!") ++ i.spelling

/-- options with commas between them -/
def joined : List Str → Str
  | [] => []
  | [t] => t
  | t :: ts => t ++ [44] ++ joined ts

/-- the last option that says something -/
def final {α} (f : Item → Option α) (is : List Item) : Option α := is.reverse.findSome? f

/-- a version is asked for: not below the last lower bound, not above the last upper
bound, and not turned off by the last option that names it -/
def Wanted (is : List Item) (v : Nat) : Prop :=
  (∀ lo, final (fun i => if i.kind = .atLeast ∨ i.kind = .exactly then some i.version else none) is = some lo → lo ≤ v) ∧
  (∀ hi, final (fun i => if i.kind = .atMost ∨ i.kind = .exactly then some i.version else none) is = some hi → v ≤ hi) ∧
  final (fun i => if (i.kind = .on ∨ i.kind = .off) ∧ i.version = v then some i.kind else none) is ≠ some .off

theorem tokens_go (t : Str) (ht : 44 ∉ t) : ∀ (cur rest : Str),
    tokens.go (t ++ rest) cur = tokens.go rest (cur ++ t) := by
  induction t with
  | nil => intro cur rest; simp
  | cons c t ih =>
    intro cur rest
    have hc : c ≠ 44 := fun h => ht (by simp [h])
    rw [List.cons_append, tokens.go, if_neg hc, ih (fun h => ht (by simp [h]))]
    simp

theorem tokens_joined : ∀ ts : List Str, (∀ t ∈ ts, t ≠ [] ∧ 44 ∉ t) → tokens (joined ts) = ts
  | [], _ => rfl
  | [t], h => by
    obtain ⟨h1, h2⟩ := h t (by simp)
    unfold tokens joined
    have := tokens_go t h2 [] []
    rw [List.append_nil] at this
    rw [this]
    simp [tokens.go, h1]
  | t :: t' :: ts, h => by
    obtain ⟨h1, h2⟩ := h t (by simp)
    have ih := tokens_joined (t' :: ts) (fun x hx => h x (by simp [hx]))
    unfold tokens at ih ⊢
    unfold joined
    rw [List.append_assoc, tokens_go t h2]
    simp only [List.nil_append, List.cons_append, tokens.go, if_true, if_neg h1]
    rw [ih]

theorem versionOf_congr {a b : Str} (h : a.map lower = b.map lower) : versionOf a = versionOf b := by
  unfold versionOf ieq
  rw [h]

theorem ieq_congr {a b c : Str} (h : a.map lower = b.map lower) : ieq a c = ieq b c := by
  unfold ieq; rw [h]

theorem valid_version {i : Item} (h : i.Valid) : versionOf i.spelling = some i.version ∧
    ieq i.spelling (bytesOf "SSLv3") = false ∧ ∃ c s, i.spelling = c :: s ∧ lower c = 116 := by
  obtain ⟨h1, h2, h3⟩ := h
  replace h3 := h3.lower
  rw [versionOf_congr h3, ieq_congr h3]
  have hv : i.version = 1 ∨ i.version = 2 ∨ i.version = 3 ∨ i.version = 4 := by omega
  have key : versionOf (nameOf i.version) = some i.version ∧
      ieq (nameOf i.version) (bytesOf "SSLv3") = false ∧
      ((nameOf i.version).map lower).head? = some 116 := by
    rcases hv with h | h | h | h <;> rw [h] <;> decide +kernel
  refine ⟨key.1, key.2.1, ?_⟩
  have h4 := key.2.2
  rw [← h3] at h4
  cases hs : i.spelling with
  | nil => rw [hs] at h4; simp at h4
  | cons c s =>
    rw [hs] at h4
    exact ⟨c, s, rfl, by simpa using h4⟩

theorem lower_punct {c : Nat} (h : lower c = 116) : c ≠ 62 ∧ c ≠ 60 ∧ c ≠ 61 ∧ c ≠ 33 ∧ c ≠ 44 := by
  refine ⟨?_, ?_, ?_, ?_, ?_⟩ <;> rintro rfl <;> simp [lower] at h

theorem no_comma {a b : Str} (h : a.map lower = b.map lower) (hb : 44 ∉ b.map lower) : 44 ∉ a := by
  intro ha
  apply hb
  rw [← h, List.mem_map]
  exact ⟨44, ha, rfl⟩

theorem text_ok {i : Item} (h : i.Valid) : i.text ≠ [] ∧ 44 ∉ i.text := by
  obtain ⟨_, _, c, s, hs, hc⟩ := valid_version h
  have hv : i.version = 1 ∨ i.version = 2 ∨ i.version = 3 ∨ i.version = 4 := by
    obtain ⟨h1, h2, _⟩ := h; omega
  have hn : 44 ∉ i.spelling := no_comma h.2.2.lower (by rcases hv with h | h | h | h <;> rw [h] <;> decide +kernel)
  refine ⟨by unfold Item.text; rw [hs]; simp, ?_⟩
  unfold Item.text
  rw [List.mem_append]
  rintro (h1 | h1)
  · cases hk : i.kind <;> rw [hk] at h1 <;> revert h1 <;> decide +kernel
  · exact hn h1

/-- what an option does to the limits -/
def apply (l : Layer) (i : Item) : Layer :=
  match i.kind with
  | .atLeast => { l with min := i.version }
  | .atMost => { l with max := i.version }
  | .exactly => { l with min := i.version, max := i.version }
  | .on => { l with off := l.off.filter (· ≠ i.version) }
  | .off => { l with off := i.version :: l.off }

theorem option_text {i : Item} (l : Layer) (h : i.Valid) : option l i.text = apply l i := by
  obtain ⟨h1, h2, c, s, hs, hc⟩ := valid_version h
  obtain ⟨p1, p2, p3, p4, _⟩ := lower_punct hc
  have b1 : bytesOf ">=" = [62, 61] := by decide +kernel
  have b2 : bytesOf "<=" = [60, 61] := by decide +kernel
  have b3 : bytesOf "=" = [61] := by decide +kernel
  have b4 : bytesOf "!" = [33] := by decide +kernel
  unfold Item.text apply
  cases hk : i.kind <;> simp only [b1, b2, b3, b4, List.cons_append, List.nil_append]
  · simp only [option, h1]
  · simp only [option, h1]
  · simp only [option, h1]
  · rw [hs] at h1 h2 ⊢
    unfold option
    split <;> simp_all
  · simp only [option, h1, h2]
    simp

theorem final_snoc {α} (f : Item → Option α) (is : List Item) (i : Item) :
    final f (is ++ [i]) = (f i <|> final f is) := by
  unfold final
  rw [List.reverse_append]
  simp [List.findSome?_cons]
  cases f i <;> rfl

theorem fold_spec (is : List Item) (h : ∀ i ∈ is, i.Valid) :
    (is.map Item.text).foldl option {} = is.foldl apply {} := by
  induction is using List.reverseRecOn with
  | nil => rfl
  | append_singleton is i ih =>
    rw [List.map_append, List.foldl_append, List.foldl_append, ih (fun x hx => h x (by simp [hx]))]
    simp only [List.map_cons, List.map_nil, List.foldl_cons, List.foldl_nil]
    exact option_text _ (h i (by simp))

theorem apply_spec (is : List Item) (v : Nat) :
    (is.foldl apply {}).min = (final (fun i => if i.kind = .atLeast ∨ i.kind = .exactly then some i.version else none) is).getD 0 ∧
    (is.foldl apply {}).max = (final (fun i => if i.kind = .atMost ∨ i.kind = .exactly then some i.version else none) is).getD 0 ∧
    (v ∈ (is.foldl apply {}).off ↔ final (fun i => if (i.kind = .on ∨ i.kind = .off) ∧ i.version = v then some i.kind else none) is = some .off) := by
  induction is using List.reverseRecOn with
  | nil => simp [final]
  | append_singleton is i ih =>
    rw [List.foldl_append]
    simp only [final_snoc, List.foldl_cons, List.foldl_nil]
    obtain ⟨i1, i2, i3⟩ := ih
    generalize is.foldl apply {} = l at i1 i2 i3
    unfold apply
    cases hk : i.kind <;> simp [i1, i2, i3]
    · by_cases hv : i.version = v
      · simp [hv]
      · simp [hv, i3]
        intro _; exact fun hh => hv hh.symm
    · by_cases hv : i.version = v
      · simp [hv]
      · simp [hv, i3]
        intro hh; exact absurd hh.symm hv

theorem optionsOf_colon {p o : Str} (hp : 58 ∉ p) (hl : (p ++ [58] ++ o).length ≤ 255) :
    optionsOf (p ++ [58] ++ o) = o := by
  unfold optionsOf
  simp only
  rw [List.take_of_length_le hl]
  have : (p ++ [58] ++ o).dropWhile (fun x => decide (x ≠ 58)) = 58 :: o := by
    rw [List.append_assoc, List.dropWhile_append_of_pos]
    · simp
    · intro x hx
      have : x ≠ 58 := fun h => hp (h ▸ hx)
      simpa using this
  rw [this]

/-- **C93 (versions).** A layer of a protocol and options speaks exactly the
versions its options ask for, in whatever order, number and case they are written.

Partial: the layer has options (`C93_protocol_violated`), at most 255 bytes
(`C93_long_violated`), and uses the names the code knows
(`C93_documented_default_violated`). -/
theorem C93_versions_partial (proto : Str) (is : List Item) (hp : 58 ∉ proto) (hi : ∀ i ∈ is, i.Valid)
    (hl : (proto ++ [58] ++ joined (is.map Item.text)).length ≤ 255) (v : Nat) :
    speaks (parseLayer (some (proto ++ [58] ++ joined (is.map Item.text)))) v = true ↔ Wanted is v := by
  unfold parseLayer
  rw [Option.getD_some, optionsOf_colon hp hl, tokens_joined _ (by
    intro t ht
    rw [List.mem_map] at ht
    obtain ⟨i, hi', rfl⟩ := ht
    exact text_ok (hi i hi')), fold_spec is hi]
  obtain ⟨h1, h2, h3⟩ := apply_spec is v
  have pos : ∀ (f : Item → Option Nat) (lo : Nat), (∀ i x, f i = some x → x = i.version) →
      final f is = some lo → 1 ≤ lo := by
    intro f lo hf h
    obtain ⟨i, hi', hx⟩ := List.exists_of_findSome?_eq_some h
    rw [hf i lo hx]
    exact (hi i (by simpa using hi')).1
  unfold speaks Wanted
  simp only [Bool.and_eq_true, Bool.or_eq_true, beq_iff_eq, decide_eq_true_eq, Bool.not_eq_true',
    List.contains_eq_mem, decide_eq_false_iff_not]
  rw [h1, h2, h3]
  rw [and_assoc]
  refine and_congr ?_ (and_congr ?_ Iff.rfl)
  · cases hf : final (fun i => if i.kind = .atLeast ∨ i.kind = .exactly then some i.version else none) is with
    | none => simp
    | some lo =>
      have := pos _ lo (by intro i x hx; split at hx <;> simp_all) hf
      simp; omega
  · cases hf : final (fun i => if i.kind = .atMost ∨ i.kind = .exactly then some i.version else none) is with
    | none => simp
    | some lo =>
      have := pos _ lo (by intro i x hx; split at hx <;> simp_all) hf
      simp; omega

/-- the versions of a layer, for the cases -/
def versions (l : String) : List Nat := [1, 2, 3, 4].filter (speaks (parseLayer (some (bytesOf l))))

example : versions "tlsv1:>=TLSv1.1,!TLSv1.3" = [2, 3] ∧ versions "x:=tlsv1.2" = [3] ∧
    versions "x:!tlsv1,!tlsv1.1,tlsv1" = [1, 3, 4] := by decide +kernel

example : Item.Valid ⟨.atLeast, 3, bytesOf "tlsV1.2"⟩ ∧
    joined ([⟨.atLeast, 3, bytesOf "tlsV1.2"⟩, ⟨.off, 4, bytesOf "TLSv1.3"⟩].map Item.text)
      = bytesOf ">=tlsV1.2,!TLSv1.3" := by
  refine ⟨⟨by decide, by decide, by unfold SameLetters; decide +kernel⟩, by decide +kernel⟩

/-- without a layer: TLSv1.2 and later -/
theorem C93_default : [0, 1, 2, 3, 4].filter (speaks (parseLayer none)) = [3, 4] := by decide +kernel

/-- **C93 (protocol).** A layer that is only a protocol does not limit the versions:
all are spoken, SSLv3 included, whatever protocol is named. -/
theorem C93_protocol_violated (proto : Str) (hp : 58 ∉ proto) (v : Nat) :
    speaks (parseLayer (some proto)) v = true := by
  have h : optionsOf proto = bytesOf "all" := by
    unfold optionsOf
    simp only
    have : (proto.take 255).dropWhile (fun x => decide (x ≠ 58)) = [] := by
      rw [List.dropWhile_eq_nil_iff]
      intro x hx
      have : x ≠ 58 := fun h => hp (h ▸ List.mem_of_mem_take hx)
      simpa using this
    rw [this]
  unfold parseLayer
  rw [Option.getD_some, h]
  have : (tokens (bytesOf "all")).foldl option {} = {} := by decide +kernel
  rw [this]
  simp [speaks]

/-- **C93 (documented default).** The layer the documentation gives as the default,
written out, turns no version off: `tls1.2` is no name the code knows. -/
theorem C93_documented_default_violated :
    versions "tlsv1:>=tls1.2,cipher_server_preference" = [1, 2, 3, 4] := by decide +kernel

/-- **C93 (long layers).** What is beyond 255 bytes is dropped without a word. -/
theorem C93_long_violated : speaks (parseLayer (some (bytesOf "tlsv1:" ++ List.replicate 250 44 ++ bytesOf ">=tlsv1.2"))) 1
    = true ∧ speaks (parseLayer (some (bytesOf "tlsv1:" ++ List.replicate 200 44 ++ bytesOf ">=tlsv1.2"))) 1 = false := by
  decide +kernel

end Mtev.TlsCtx
