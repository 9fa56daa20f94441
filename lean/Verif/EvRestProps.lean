import Verif.EvRest

/-!
C171: the listing of events.
-/

namespace Mtev.EvRest

/-- The text and port of an address. -/
def spec (ntop6 : List Nat → List Nat) : Addr → Option (List Nat × Nat)
  | .v4 a p => some (dec (a.getD 0 0) ++ 46 :: dec (a.getD 1 0) ++ 46 :: dec (a.getD 2 0) ++ 46 :: dec (a.getD 3 0), p)
  | .v6 a p => some (ntop6 a, p)
  | _ => none

/-- C171.  A socket is shown with its descriptor, its mask and its own address. -/
theorem C171_local (ntop6 : List Nat → List Nat) (e : Ev) (h : e.mask &&& 7 ≠ 0) :
    (shown ntop6 e).fd_ = some e.fd_ ∧ (shown ntop6 e).mask = some e.mask ∧
      (shown ntop6 e).here = spec ntop6 e.here := by
  unfold shown
  rw [if_pos h]
  refine ⟨rfl, rfl, ?_⟩
  cases e.here <;> simp [showLocal, spec, ntop4]

/-- C171.  And with the address of its peer, if that is not of IPv6. -/
theorem C171_remote_partial (ntop6 : List Nat → List Nat) (e : Ev) (h : e.mask &&& 7 ≠ 0)
    (h6 : ∀ a p, e.there ≠ .v6 a p) : (shown ntop6 e).there = spec ntop6 e.there := by
  unfold shown
  rw [if_pos h]
  show showRemote ntop6 e.there = _
  cases ht : e.there with
  | v4 a p => simp [showRemote, spec, ntop4]
  | v6 a p => exact absurd ht (h6 a p)
  | other => rfl
  | absent => rfl

/-- C171.  For peers of IPv6 it is false: those whose addresses begin with the
    same four bytes are shown the same, and the text shown has no colon, as
    the text of each such address has. -/
theorem C171_remote_violated (ntop6 : List Nat → List Nat) (h6 : ∀ a, 58 ∈ ntop6 a) (e e' : Ev) (h : e.mask &&& 7 ≠ 0)
    (h' : e'.mask &&& 7 ≠ 0) (a b : List Nat) (p : Nat) (ha : e.there = .v6 a p) (hb : e'.there = .v6 b p)
    (hlt : ∀ i, a.getD i 0 < 256) (hab : ∀ i, i < 4 → a.getD i 0 = b.getD i 0) :
    (shown ntop6 e).there = (shown ntop6 e').there ∧ (shown ntop6 e).there ≠ spec ntop6 e.there := by
  have e1 : (shown ntop6 e).there = some (ntop4 a, p) := by
    unfold shown; rw [if_pos h]; show showRemote ntop6 e.there = _; rw [ha]; rfl
  have e2 : (shown ntop6 e').there = some (ntop4 b, p) := by
    unfold shown; rw [if_pos h']; show showRemote ntop6 e'.there = _; rw [hb]; rfl
  constructor
  · rw [e1, e2]
    unfold ntop4
    rw [hab 0 (by decide), hab 1 (by decide), hab 2 (by decide), hab 3 (by decide)]
  · rw [e1, ha]
    intro he
    simp only [spec, Option.some.injEq, Prod.mk.injEq, and_true] at he
    have hm := h6 a
    rw [← he] at hm
    have hd : ∀ n, n < 256 → 58 ∉ dec n := by
      intro n hn
      unfold dec
      split
      · simp; omega
      · split <;> simp <;> omega
    simp only [ntop4, List.mem_append, List.mem_singleton] at hm
    have h0 := hd _ (hlt 0)
    have h1 := hd _ (hlt 1)
    have h2 := hd _ (hlt 2)
    have h3 := hd _ (hlt 3)
    rcases hm with ((((((x | x) | x) | x) | x) | x) | x)
    · exact h0 x
    · cases x
    · exact h1 x
    · cases x
    · exact h2 x
    · cases x
    · exact h3 x

/-- C171.  A timer is shown with the millisecond at which it is due, and as
    nothing else. -/
theorem C171_timer (ntop6 : List Nat → List Nat) (e : Ev) (h : e.mask = 8) (hs : e.sec < 2 ^ 54) :
    shown ntop6 e = ⟨none, none, none, none, some ((e.sec * 1000000 + e.usec) / 1000)⟩ := by
  unfold shown
  rw [h, if_neg (by decide), if_pos (by decide)]
  rw [Nat.mod_eq_of_lt (by omega)]
  have : e.sec * 1000 + e.usec / 1000 = (e.sec * 1000000 + e.usec) / 1000 := by omega
  rw [this]

example : (shown (fun _ => bytesOf "2001:db8::1") ⟨5, 7, .v4 [10, 0, 0, 255] 80,
    .v6 [0x20, 1, 0xd, 0xb8, 0, 0, 0, 0, 0, 0, 0, 0, 0, 0, 0, 1] 443, 0, 0⟩) =
    ⟨some 7, some (bytesOf "10.0.0.255", 80), some (bytesOf "32.1.13.184", 443), some 5, none⟩ := by decide

end Mtev.EvRest
