import Verif.Heartbeat

/-!
C70.  Heartbeat datagrams: a message handed to the sender reaches the
`process_input` callback of a receiver with the same key, whole, once and in
order, whatever else arrives at the socket; nothing else reaches it; and the
handler returns without touching memory that is not its own.
-/

namespace Mtev.Heartbeat

/-! ### Specification -/

/-- What a datagram is worth to a receiver, independently of everything that
arrived before: the message, if the datagram holds as many bytes as it
announces, they decrypt, and the text has the two magic words behind its first
eight bytes. -/
def worth (c : Cipher) (d : Bytes) : Option Bytes :=
  if d.length < 20 then none
  else if d.length < 4 + un32 d then none
  else
    match c.dec ((d.drop 4).take 16) ((d.drop 20).take (un32 d - 16)) with
    | (p, true) => if (p.drop 8).take 8 = magic then some (p.drop 16) else none
    | (_, false) => none

/-- The announced length is one a sender can produce (at least the size of the
initialisation vector, below 2^31), and what the datagram decrypts to, if it is
whole and does, is long enough for the two magic words. -/
def Sane (c : Cipher) (d : Bytes) : Prop :=
  20 ≤ d.length → 16 ≤ un32 d ∧ un32 d < 2147483648 ∧
    (4 + un32 d ≤ d.length → ∀ p, c.dec ((d.drop 4).take 16) ((d.drop 20).take (un32 d - 16)) = (p, true) →
      16 ≤ p.length)

/-- The call of `process_input` that delivers `m`. -/
def delivers (m : Bytes) : Call := ⟨m.length, m⟩

/-! ### Helper lemmas -/

theorem toInt32_small {n : Nat} (h : n < 2147483648) : toInt32 n = n := by
  unfold toInt32; rw [if_pos h]

theorem open_spec (c : Cipher) (s : St) (iv ct : Bytes) (hr : ct.length ≤ s.room)
    (hl : ∀ p, c.dec iv ct = (p, true) → 16 ≤ p.length) :
    ∃ s', open_ c s iv ct = .next s'
      (match c.dec iv ct with
        | (p, true) => if (p.drop 8).take 8 = magic then some (delivers (p.drop 16)) else none
        | (_, false) => none) := by
  have hdl := c.dec_len iv ct
  unfold open_
  rcases hd : c.dec iv ct with ⟨p, ok⟩
  rw [hd] at hdl
  simp only at hdl ⊢
  rw [if_neg (by omega)]
  cases ok with
  | false => exact ⟨_, rfl⟩
  | true =>
    have hp := hl p hd
    rw [if_neg (by simp), fetch_store 8 8 (by omega)]
    simp only
    by_cases hm : (p.drop 8).take 8 = magic
    · rw [if_neg (by simpa using hm), if_pos hm]
      rw [show ((p.length : Int) - 16).toNat = p.length - 16 by omega,
        fetch_store _ 16 (by omega)]
      simp only
      refine ⟨{ s with text := store s.text p }, ?_⟩
      rw [List.take_of_length_le (by simp)]
      simp only [delivers, List.length_drop]
      rw [show ((p.length - 16 : Nat) : Int) = (p.length : Int) - 16 by omega]
    · rw [if_pos (by simpa using hm), if_neg hm]
      exact ⟨_, rfl⟩

theorem round_spec (c : Cipher) (s : St) (d : Bytes) (mem : Bool) (hf : Fits s) (hs : Sane c d)
    (hm : mem = true ∨ un32 d ≤ 15036) :
    ∃ s', round c s d mem = .next s' ((worth c d).map delivers) := by
  unfold round worth
  by_cases h20 : d.length < 20
  · rw [if_pos h20, if_pos h20]; exact ⟨_, rfl⟩
  · obtain ⟨h1, h2, h3⟩ := hs (by omega)
    rw [if_neg h20, if_neg h20]
    simp only
    rw [toInt32_small h2, if_neg (by
      rintro ⟨ha, hb⟩
      rcases hm with hm | hm
      · rw [hm] at hb; simp at hb
      · have := hf.2; omega), if_neg (by omega), if_neg (by omega)]
    have hroom := grow_room hf (len := (un32 d : Int)) (by omega)
    rw [Int.toNat_natCast] at hroom ⊢
    rw [if_neg (by omega)]
    by_cases hlen : d.length < 4 + un32 d
    · rw [if_pos hlen, if_pos (by omega)]
      exact ⟨_, rfl⟩
    · rw [if_neg hlen, if_neg (by omega)]
      obtain ⟨s', ho⟩ := open_spec c (grow s (un32 d : Int)) ((d.drop 4).take 16)
        ((d.drop 20).take (un32 d - 16)) (by simp; omega) (h3 (by omega))
      refine ⟨s', ?_⟩
      rw [ho]
      congr 1
      rcases c.dec ((d.drop 4).take 16) ((d.drop 20).take (un32 d - 16)) with ⟨p, ok⟩
      cases ok with
      | false => rfl
      | true => simp only; split <;> rfl

/-! ### Theorems -/

/-- C70, sender: the cipher text always fits in the buffer made for it, so that
every message is sent. -/
theorem C70_sends (c : Cipher) (iv gib m : Bytes) (hg : gib.length = 8) :
    datagram c iv gib m =
      some (be32 (16 + (c.enc iv (gib ++ magic ++ m)).length) ++ iv ++
        c.enc iv (gib ++ magic ++ m)) := by
  unfold datagram
  simp only
  have h := c.enc_len iv (gib ++ magic ++ m)
  have hm : magic.length = 8 := rfl
  simp only [List.length_append, hg, hm] at h
  rw [if_neg]
  unfold cipherRoom
  split <;> omega

/-- C70, sender: length, initialisation vector and cipher text stay inside the
buffer made for them, for every message. -/
theorem C70_fits (c : Cipher) (iv gib m : Bytes) (hg : gib.length = 8) :
    20 + (c.enc iv (gib ++ magic ++ m)).length ≤ cipherRoom (36 + m.length) := by
  have h := c.enc_len iv (gib ++ magic ++ m)
  have hm : magic.length = 8 := rfl
  simp only [List.length_append, hg, hm] at h
  unfold cipherRoom
  split <;> omega

/-- C70, sender: a `create_output` that writes its message when it has the room
and otherwise asks for the room it needs gets its message sent, whatever its size. -/
theorem C70_composes (m : Bytes) :
    compose (fun room => if m.length ≤ room then .inl m else .inr m.length) = some m := by
  unfold compose
  by_cases h : m.length ≤ 15000 <;> simp [h]

/-- C70: what the sender makes of a message is worth that message to the
receiver, also when the network appends bytes to it. -/
theorem C70_round_trip (c : Cipher) (iv gib m d junk : Bytes) (hi : iv.length = 16)
    (hg : gib.length = 8) (hb : m.length < 2147483000) (hd : datagram c iv gib m = some d) :
    worth c (d ++ junk) = some m ∧ Sane c (d ++ junk) := by
  rw [C70_sends c iv gib m hg, Option.some.injEq] at hd
  have hlen := c.enc_len iv (gib ++ magic ++ m)
  generalize hct : c.enc iv (gib ++ magic ++ m) = ct at *
  have hml : magic.length = 8 := rfl
  simp only [List.length_append, hg, hml] at hlen
  have hu : un32 (d ++ junk) = 16 + ct.length := by
    rw [← hd]
    simp only [List.append_assoc]
    exact un32_be32 (by omega) _
  have hdl : (d ++ junk).length = 20 + ct.length + junk.length := by
    rw [← hd]; simp [be32, hi]; omega
  have hiv : ((d ++ junk).drop 4).take 16 = iv := by
    rw [← hd]; simp [be32, ← hi]
  have hctx : ((d ++ junk).drop 20).take ct.length = ct := by
    have : (d ++ junk).drop 20 = ct ++ junk := by
      rw [← hd]
      have : (be32 (16 + ct.length) ++ iv).length = 20 := by simp [be32, hi]
      rw [← this, List.append_assoc, List.drop_left]
    rw [this, List.take_left]
  have hdec : c.dec iv ct = (gib ++ magic ++ m, true) := by rw [← hct]; exact c.round _ _
  constructor
  · unfold worth
    rw [if_neg (by omega), if_neg (by omega), hu, hiv,
      show 16 + ct.length - 16 = ct.length by omega, hctx, hdec]
    simp only
    have e1 : (gib ++ magic ++ m).drop 8 = magic ++ m := by
      rw [← hg, List.append_assoc, List.drop_left]
    have e2 : (gib ++ magic ++ m).drop 16 = m := by
      have : (gib ++ magic).length = 16 := by simp [hg, hml]
      rw [← this, List.drop_left]
    rw [e1, e2, show (8 : Nat) = magic.length from rfl, List.take_left, if_pos rfl]
  · intro _
    rw [hu, hiv, show 16 + ct.length - 16 = ct.length by omega, hctx, hdec]
    refine ⟨by omega, by omega, ?_⟩
    intro _ p hp
    simp only [Prod.mk.injEq, and_true] at hp
    rw [← hp]; simp [hg, hml]; omega

/-- C70, receiver: whatever sane datagrams wait at the socket, the handler
returns, and it calls `process_input` with the message of each datagram that is
worth one, in order, and for no other.  (The full claim has no condition on the
datagrams: see the `violated` theorems.  A datagram that announces more than the
stack buffers hold is skipped when `malloc` fails.) -/
theorem C70_delivers_partial (c : Cipher) (ds : List (Bytes × Bool))
    (hs : ∀ d ∈ ds, Sane c d.1 ∧ (d.2 = true ∨ un32 d.1 ≤ 15036)) :
    handler c St.init ds = .done (ds.filterMap (fun d => (worth c d.1).map delivers)) := by
  have key : ∀ (ds : List (Bytes × Bool)) (s : St), Fits s →
      (∀ d ∈ ds, Sane c d.1 ∧ (d.2 = true ∨ un32 d.1 ≤ 15036)) →
      handler c s ds = .done (ds.filterMap (fun d => (worth c d.1).map delivers)) := by
    intro ds
    induction ds with
    | nil => intros; rfl
    | cons d rest ih =>
      intro s hf h
      obtain ⟨h1, h2⟩ := h d (by simp)
      obtain ⟨s', hr⟩ := round_spec c s d.1 d.2 hf h1 h2
      have := ih s' (round_fits hf hr) (fun x hx => h x (by simp [hx]))
      unfold handler
      rw [hr]
      simp only [this, Result.cons]
      rw [List.filterMap_cons]
      cases worth c d.1 <;> simp
  exact key ds _ fits_init hs

/-- C70: for every content of the socket, hostile or not, and every outcome of
`malloc`, the handler writes only inside its buffers. -/
theorem C70_stays_in_buffers (c : Cipher) (ds : List (Bytes × Bool)) :
    handler c St.init ds ≠ .wild := by
  have key : ∀ (ds : List (Bytes × Bool)) (s : St), Fits s → handler c s ds ≠ .wild := by
    intro ds
    induction ds with
    | nil => intro s _ h; simp [handler] at h
    | cons d rest ih =>
      intro s hf
      unfold handler
      cases hr : round c s d.1 d.2 with
      | next s' call =>
        have := ih s' (round_fits hf hr)
        simp only
        cases hh : handler c s' rest <;> simp_all [Result.cons]
      | stay => simp
      | indet => simp
      | overflow => simp
      | wild =>
        exfalso
        unfold round at hr
        split at hr
        · simp at hr
        · simp only at hr
          split at hr
          · simp at hr
          · split at hr
            · simp at hr
            · split at hr
              · simp at hr
              · rename_i h16
                have hroom := grow_room hf (len := toInt32 (un32 d.1)) (by omega)
                rw [if_neg (by omega)] at hr
                split at hr
                · simp at hr
                · unfold open_ at hr
                  simp only at hr
                  have := c.dec_len ((d.1.drop 4).take 16)
                    ((d.1.drop 20).take ((toInt32 (un32 d.1)).toNat - 16))
                  rw [List.length_take] at this
                  rw [if_neg (by omega)] at hr
                  split at hr
                  · simp at hr
                  · split at hr
                    · simp at hr
                    · split at hr
                      · simp at hr
                      · split at hr <;> simp at hr
  exact key ds _ fits_init

/-- The claim that the handler returns fails for anybody who can send to the
port: one datagram of at least twenty bytes that announces fewer than sixteen
is never taken from the socket, and the handler loops on it for ever, whatever
was or will be received. -/
theorem C70_stuck_violated (c : Cipher) (ds : List (Bytes × Bool)) (d : Bytes) (mem : Bool)
    (rest : List (Bytes × Bool))
    (hs : ∀ d ∈ ds, Sane c d.1 ∧ (d.2 = true ∨ un32 d.1 ≤ 15036))
    (hl : 20 ≤ d.length) (hu : un32 d < 16) :
    handler c St.init (ds ++ (d, mem) :: rest) =
      .spin (ds.filterMap (fun d => (worth c d.1).map delivers)) := by
  have key : ∀ (ds : List (Bytes × Bool)) (s : St), Fits s →
      (∀ d ∈ ds, Sane c d.1 ∧ (d.2 = true ∨ un32 d.1 ≤ 15036)) →
      handler c s (ds ++ (d, mem) :: rest) =
        .spin (ds.filterMap (fun d => (worth c d.1).map delivers)) := by
    intro ds
    induction ds with
    | nil =>
      intro s hf _
      rw [List.nil_append]
      unfold handler round
      simp only
      rw [if_neg (by omega), toInt32_small (by omega),
        if_neg (by rintro ⟨h, _⟩; have := hf.2; omega), if_neg (by omega), if_pos (by omega)]
      rfl
    | cons d rest ih =>
      intro s hf h
      obtain ⟨h1, h2⟩ := h d (by simp)
      obtain ⟨s', hr⟩ := round_spec c s d.1 d.2 hf h1 h2
      have := ih s' (round_fits hf hr) (fun x hx => h x (by simp [hx]))
      rw [List.cons_append]
      unfold handler
      rw [hr]
      simp only [this, Result.cons]
      rw [List.filterMap_cons]
      cases worth c d.1 <;> simp
  exact key ds _ fits_init hs

/-- The claim that only messages are delivered fails: after a good message, a
datagram that decrypts to at most eight bytes is taken for a message of negative
length, because the magic words of the message before are still in the buffer. -/
theorem C70_stale_violated (c : Cipher) (iv gib m d p iv' ct : Bytes) (hi : iv.length = 16)
    (hg : gib.length = 8) (hb : m.length ≤ 14000) (hd : datagram c iv gib m = some d)
    (hi' : iv'.length = 16) (hc : ct.length ≤ 14000) (hp : p.length ≤ 8)
    (hdec : c.dec iv' ct = (p, true)) :
    worth c (be32 (16 + ct.length) ++ iv' ++ ct) = none ∧
    handler c St.init [(d, true), (be32 (16 + ct.length) ++ iv' ++ ct, true)] =
      .done [delivers m, ⟨(p.length : Int) - 16, []⟩] := by
  -- the second datagram
  generalize hd2 : be32 (16 + ct.length) ++ iv' ++ ct = d2
  have hu2 : un32 d2 = 16 + ct.length := by
    rw [← hd2, List.append_assoc]; exact un32_be32 (by omega) _
  have hl2 : d2.length = 20 + ct.length := by rw [← hd2]; simp [be32, hi']; omega
  have hiv2 : (d2.drop 4).take 16 = iv' := by rw [← hd2]; simp [be32, ← hi']
  have hct2 : (d2.drop 20).take ct.length = ct := by
    have : (be32 (16 + ct.length) ++ iv').length = 20 := by simp [be32, hi']
    rw [← hd2, ← this, List.drop_left, List.take_length]
  -- the first datagram
  have h1 := C70_round_trip c iv gib m d [] hi hg (by omega) hd
  rw [List.append_nil] at h1
  rw [C70_sends c iv gib m hg, Option.some.injEq] at hd
  have hlen := c.enc_len iv (gib ++ magic ++ m)
  have hdec1 := c.round iv (gib ++ magic ++ m)
  generalize hct : c.enc iv (gib ++ magic ++ m) = ct1 at *
  have hml : magic.length = 8 := rfl
  simp only [List.length_append, hg, hml] at hlen
  have hu : un32 d = 16 + ct1.length := by
    rw [← hd, List.append_assoc]; exact un32_be32 (by omega) _
  have hdl : d.length = 20 + ct1.length := by rw [← hd]; simp [be32, hi]; omega
  have hiv : (d.drop 4).take 16 = iv := by rw [← hd]; simp [be32, ← hi]
  have hctx : (d.drop 20).take ct1.length = ct1 := by
    have : (be32 (16 + ct1.length) ++ iv).length = 20 := by simp [be32, hi]
    rw [← hd, ← this, List.drop_left, List.take_length]
  have htl : (gib ++ magic ++ m).length = 16 + m.length := by simp [hg, hml]; omega
  -- the first round
  have hr1 : round c St.init d true =
      .next { St.init with text := store St.init.text (gib ++ magic ++ m) } (some (delivers m)) := by
    unfold round
    rw [if_neg (by omega)]
    simp only
    have hgrow : grow St.init (un32 d : Int) = St.init := by
      unfold grow
      rw [if_neg]
      show ¬ ((15036 : Nat) : Int) < _
      omega
    rw [toInt32_small (by omega), hgrow, if_neg (by simp), if_neg (by omega), if_neg (by omega),
      Int.toNat_natCast, if_neg (by show ¬ 15036 < _; omega), if_neg (by omega), hiv, hu,
      show 16 + ct1.length - 16 = ct1.length by omega, hctx]
    unfold open_
    rw [hdec1]
    simp only
    rw [if_neg (by show ¬ 15036 < _; omega), if_neg (by simp), fetch_store 8 8 (by omega)]
    simp only
    have e1 : (gib ++ magic ++ m).drop 8 = magic ++ m := by
      rw [← hg, List.append_assoc, List.drop_left]
    have e2 : (gib ++ magic ++ m).drop 16 = m := by
      have : (gib ++ magic).length = 16 := by simp [hg, hml]
      rw [← this, List.drop_left]
    rw [e1, show List.take 8 (magic ++ m) = magic from rfl, if_neg (by simp), htl,
      show (((16 + m.length : Nat) : Int) - 16).toNat = m.length by omega,
      fetch_store _ 16 (by omega), e2, List.take_length]
    simp only [delivers]
    rw [show ((16 + m.length : Nat) : Int) - 16 = (m.length : Int) by omega]
  refine ⟨?_, ?_⟩
  · unfold worth
    rw [if_neg (by omega), if_neg (by omega), hu2, hiv2,
      show 16 + ct.length - 16 = ct.length by omega, hct2, hdec]
    simp only
    rw [if_neg]
    rw [List.drop_eq_nil_of_le (by omega)]
    simp [magic]
  · unfold handler
    rw [hr1]
    simp only
    unfold handler
    have hr2 : ∃ s', round c { St.init with text := store St.init.text (gib ++ magic ++ m) } d2 true =
        .next s' (some ⟨(p.length : Int) - 16, []⟩) := by
      unfold round
      rw [if_neg (by omega)]
      simp only
      have hgrow : ∀ t, grow { St.init with text := t } (un32 d2 : Int) = { St.init with text := t } := by
        intro t
        unfold grow
        rw [if_neg]
        show ¬ ((15036 : Nat) : Int) < _
        omega
      rw [toInt32_small (by omega), hgrow, if_neg (by simp), if_neg (by omega), if_neg (by omega),
        Int.toNat_natCast, if_neg (by show ¬ 15036 < _; omega), if_neg (by omega), hiv2, hu2,
        show 16 + ct.length - 16 = ct.length by omega, hct2]
      unfold open_
      rw [hdec]
      simp only
      rw [if_neg (by show ¬ 15036 < _; omega), if_neg (by simp)]
      have hf : fetch (store (store St.init.text (gib ++ magic ++ m)) p) 8 8 = some magic := by
        rw [fetch_congr (u := store St.init.text (gib ++ magic ++ m)) 8 8
          (fun i hi1 _ => store_ge (by omega)), fetch_store 8 8 (by omega)]
        have e1 : (gib ++ magic ++ m).drop 8 = magic ++ m := by
          rw [← hg, List.append_assoc, List.drop_left]
        rw [e1]; rfl
      rw [hf]
      simp only
      rw [if_neg (by simp), show ((p.length : Int) - 16).toNat = 0 by omega]
      exact ⟨_, rfl⟩
    obtain ⟨s', hr2⟩ := hr2
    rw [hr2]
    simp [handler, Result.cons]

/-- A datagram that decrypts to a short text right away makes the handler decide
on bytes that were never written. -/
theorem C70_indeterminate_violated (c : Cipher) (p iv ct : Bytes) (hi : iv.length = 16)
    (hc : ct.length ≤ 14000) (hp : p.length < 16) (hdec : c.dec iv ct = (p, true)) :
    handler c St.init [(be32 (16 + ct.length) ++ iv ++ ct, true)] = .indet := by
  generalize hd2 : be32 (16 + ct.length) ++ iv ++ ct = d2
  have hu2 : un32 d2 = 16 + ct.length := by
    rw [← hd2, List.append_assoc]; exact un32_be32 (by omega) _
  have hl2 : d2.length = 20 + ct.length := by rw [← hd2]; simp [be32, hi]; omega
  have hiv2 : (d2.drop 4).take 16 = iv := by rw [← hd2]; simp [be32, ← hi]
  have hct2 : (d2.drop 20).take ct.length = ct := by
    have : (be32 (16 + ct.length) ++ iv).length = 20 := by simp [be32, hi]
    rw [← hd2, ← this, List.drop_left, List.take_length]
  unfold handler round
  simp only
  have hgrow : grow St.init (un32 d2 : Int) = St.init := by
    unfold grow
    rw [if_neg]
    show ¬ ((15036 : Nat) : Int) < _
    omega
  rw [if_neg (by omega), toInt32_small (by omega), hgrow, if_neg (by simp), if_neg (by omega),
    if_neg (by omega), Int.toNat_natCast, if_neg (by show ¬ 15036 < _; omega), if_neg (by omega),
    hiv2, hu2, show 16 + ct.length - 16 = ct.length by omega, hct2]
  unfold open_
  rw [hdec]
  simp only
  rw [if_neg (by show ¬ 15036 < _; omega), if_neg (by simp)]
  have hf : ∀ n o, o + n = 16 → 0 < n → fetch (store St.init.text p) o n = none := by
    intro n
    induction n with
    | zero => intro o _ h; omega
    | succ n ih =>
      intro o ho _
      unfold fetch
      by_cases hn : n = 0
      · subst hn
        rw [store_ge (show p.length ≤ o by omega)]
        rfl
      · rw [ih (o + 1) (by omega) (by omega)]
        split
        · rename_i h2; simp at h2
        · rfl
  rw [hf 8 8 rfl (by omega)]

/-! ### Non-trivial cases -/

/-- A cipher for the examples: the identity with a marker of one to sixteen bytes at the
end, as PKCS padding. -/
def toy : Cipher where
  enc _ p := p ++ List.replicate (16 - p.length % 16) (16 - p.length % 16)
  dec _ c :=
    match c.getLast? with
    | some n => if n ≤ c.length ∧ 0 < n then (c.take (c.length - n), true) else ([], false)
    | none => ([], false)
  enc_len _ p := by simp
  dec_len _ c := by
    split
    · split <;> simp
    · simp
  round _ p := by
    have h : 0 < 16 - p.length % 16 := by omega
    generalize 16 - p.length % 16 = n at h
    obtain ⟨k, rfl⟩ : ∃ k, n = k + 1 := ⟨n - 1, by omega⟩
    have hl : (p ++ List.replicate (k + 1) (k + 1)).getLast? = some (k + 1) := by
      rw [List.replicate_succ', ← List.append_assoc, List.getLast?_concat]
    rw [hl]
    simp

/-- Two messages with a broken datagram, a short one and a wrong one between. -/
def wire : List (Bytes × Bool) :=
  [((datagram toy (List.replicate 16 7) (List.replicate 8 1) [10, 11, 12]).getD [], true),
   ([1, 2, 3], true),
   (be32 400 ++ List.replicate 16 7 ++ [1, 2, 3], false),
   (be32 48 ++ List.replicate 16 7 ++ List.replicate 32 1, true),
   ((datagram toy (List.replicate 16 9) (List.replicate 8 3) (List.replicate 40 5)).getD [], true)]

/-- The calls of a run that ended. -/
def Result.calls : Result → Option (List Call)
  | .done l => some l
  | _ => none

example : (handler toy St.init wire).calls =
    some [⟨3, [10, 11, 12]⟩, ⟨40, List.replicate 40 5⟩] := by decide +kernel

example : wire.map (fun d => (worth toy d.1).isSome) = [true, false, false, false, true] := by
  decide +kernel

/-- The datagrams of `wire` that decrypt hold the magic words or more. -/
example : ∀ d ∈ wire, 20 ≤ d.1.length → 16 ≤ un32 d.1 ∧ un32 d.1 < 2147483648 ∧
    (4 + un32 d.1 ≤ d.1.length →
      (toy.dec ((d.1.drop 4).take 16) ((d.1.drop 20).take (un32 d.1 - 16))).2 = true →
      16 ≤ (toy.dec ((d.1.drop 4).take 16) ((d.1.drop 20).take (un32 d.1 - 16))).1.length) := by
  decide +kernel

/-- Twenty zero bytes stop the receiver. -/
example : handler toy St.init ((List.replicate 20 0, true) :: wire) = .spin [] :=
  C70_stuck_violated toy [] _ _ _ (by simp) (by decide) (by decide)

/-- Sixteen bytes of padding decrypt to the empty text. -/
example : toy.dec (List.replicate 16 0) (List.replicate 16 16) = ([], true) := by decide

end Mtev.Heartbeat
