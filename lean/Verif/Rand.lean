import Verif.Basic
import Mathlib.Data.Finset.Card
import Mathlib.Data.Finset.Range

/-!
Random numbers and buffers of random bytes (src/utils/mtev_rand.c).
-/

namespace Mtev.Rand

/-- One step of the C library's 48 bit generator on a state given by the caller
    (`jrand48`, with the constants of POSIX). -/
def lcg (x : Nat) : Nat := (0x5DEECE66D * x + 0xB) % 2 ^ 48

/-- What `jrand48` returns, a signed number of 32 bits, as a `uint64_t`. -/
def out48 (x : Nat) : Nat := if x / 2 ^ 16 < 2 ^ 31 then x / 2 ^ 16 else x / 2 ^ 16 + (2 ^ 64 - 2 ^ 32)

/-- `(v << 31) ^ r`.  /repo/src/utils/mtev_rand.c 33, 35 -/
def mix (v r : Nat) : Nat := (v <<< 31 % 2 ^ 64) ^^^ r

/-- The seed without the library's generator: eight times mixed.
    /repo/src/utils/mtev_rand.c 22-27 -/
def fallback (times : Nat → Nat) : Nat :=
  (List.range 8).foldl (fun s i => (s <<< 8 % 2 ^ 64) ^^^ (times i % 2 ^ 64)) 0

/-- `mtev_rand`: a seed of 64 bits from the library or from the clock, of which
    the upper six bytes become the state, and three draws.
    /repo/src/utils/mtev_rand.c 16-37.  `initialized` is never set, so that each
    call takes a new seed.  Bytes are in the order of a little-endian machine. -/
def rand (lib : Option Nat) (times : Nat → Nat) : Nat :=
  let scratch := lib.getD (fallback times)
  let w1 := lcg (scratch / 2 ^ 16)
  let w2 := lcg w1
  let w3 := lcg w2
  mix (mix (out48 w1) (out48 w2)) (out48 w3)

/-- `mtev_rand_trysecure`.  /repo/src/utils/mtev_rand.c 48-53.  `lib` is the
    library's answer to this call, `lib'` that to the one inside `mtev_rand`. -/
def trysecure (lib lib' : Option Nat) (times : Nat → Nat) : Nat :=
  match lib with
  | some v => v
  | none => rand lib' times

/-- The loop's variables: the index, an `unsigned int`, the calls made, and the
    memory from the start of the buffer. -/
structure FS where
  i : Nat
  k : Nat
  buf : Nat → Nat

/-- The body of the loop of `mtev_rand_buf` and `mtev_rand_buf_trysecure`, with
    `blob k` the number the k-th call gives.
    /repo/src/utils/mtev_rand.c 58-61, 74-77 -/
def body (blob : Nat → Nat) (len : Nat) (s : FS) : FS :=
  let n := if len - s.i < 8 then len - s.i else 8
  { i := (s.i + 8) % 2 ^ 32, k := s.k + 1,
    buf := fun j => if s.i ≤ j ∧ j < s.i + n then blob s.k / 256 ^ (j - s.i) % 256 else s.buf j }

/-- The loop, for `fuel` rounds at most; `none` if it still runs. -/
def loop (blob : Nat → Nat) (len : Nat) : Nat → FS → Option FS
  | 0, _ => none
  | fuel + 1, s => if s.i < len then loop blob len fuel (body blob len s) else some s

/-- `mtev_rand_buf` and `mtev_rand_buf_trysecure` on the memory `mem`: the value
    returned and the memory then, if it is done after `fuel` rounds.
    /repo/src/utils/mtev_rand.c 55-63, 71-79 -/
def fill (blob : Nat → Nat) (mem : Nat → Nat) (len fuel : Nat) : Option (Nat × (Nat → Nat)) :=
  (loop blob len fuel ⟨0, 0, mem⟩).map fun s => (len, s.buf)

/-- A `size_t` given for an `int`. -/
def toInt (n : Nat) : Int := if n % 2 ^ 32 < 2 ^ 31 then (n % 2 ^ 32 : Nat) else (n % 2 ^ 32 : Nat) - 2 ^ 32

/-- `mtev_rand_buf_secure`: the value returned and the memory then.  The
    library fills as many bytes as it is told, with `rnd`, or fails; it fails for
    negative numbers.
    /repo/src/utils/mtev_rand.c 65-69 -/
def secure (works : Bool) (rnd mem : Nat → Nat) (len : Nat) : Nat × (Nat → Nat) :=
  if works ∧ 0 ≤ toInt len then (len, fun j => if (j : Int) < toInt len then rnd j else mem j)
  else (0, mem)

/-! ### Lemmas -/

/-- After `k` rounds without the index wrapping. -/
structure Done (blob mem : Nat → Nat) (len : Nat) (s : FS) : Prop where
  idx : s.i = 8 * s.k
  inn : ∀ j, j < s.i → j < len → s.buf j = blob (j / 8) / 256 ^ (j % 8) % 256
  out : ∀ j, (s.i ≤ j ∨ len ≤ j) → s.buf j = mem j

theorem body_done {blob mem : Nat → Nat} {len : Nat} {s : FS} (h : Done blob mem len s) (hl : len ≤ 2 ^ 32 - 8)
    (hi : s.i < len) : Done blob mem len (body blob len s) ∧ (body blob len s).i = s.i + 8 := by
  have h8 : s.i % 8 = 0 := by rw [h.idx]; omega
  have hlen : s.i + 8 < 2 ^ 32 := by omega
  have hb : (body blob len s).i = s.i + 8 := Nat.mod_eq_of_lt hlen
  refine ⟨⟨?_, ?_, ?_⟩, hb⟩
  · rw [hb]; show s.i + 8 = 8 * (s.k + 1); rw [h.idx]; omega
  · intro j hj hjl
    rw [hb] at hj
    show (if s.i ≤ j ∧ j < s.i + (if len - s.i < 8 then len - s.i else 8) then _ else _) = _
    by_cases c : s.i ≤ j
    · rw [if_pos ⟨c, by split <;> omega⟩]
      have e1 : j / 8 = s.k := by have := h.idx; omega
      have e2 : j % 8 = j - s.i := by have := h.idx; omega
      rw [e1, e2]
    · rw [if_neg (fun x => c x.1)]
      exact h.inn j (by omega) hjl
  · intro j hj
    rw [hb] at hj
    show (if s.i ≤ j ∧ j < s.i + (if len - s.i < 8 then len - s.i else 8) then _ else _) = _
    rw [if_neg ?_]
    · exact h.out j (by omega)
    · rintro ⟨a, b⟩
      split at b <;> omega

theorem loop_done {blob mem : Nat → Nat} {len : Nat} (hl : len ≤ 2 ^ 32 - 8) (fuel : Nat) (s : FS)
    (h : Done blob mem len s) (hf : len ≤ s.i + 8 * fuel) :
    ∃ s', loop blob len (fuel + 1) s = some s' ∧ Done blob mem len s' ∧ len ≤ s'.i := by
  induction fuel generalizing s with
  | zero =>
    unfold loop
    rw [if_neg (by omega)]
    exact ⟨s, rfl, h, by omega⟩
  | succ n ih =>
    unfold loop
    by_cases c : s.i < len
    · rw [if_pos c]
      obtain ⟨h1, h2⟩ := body_done h hl c
      exact ih _ h1 (by omega)
    · rw [if_neg c]
      exact ⟨s, rfl, h, by omega⟩

theorem loop_endless {blob : Nat → Nat} {len : Nat} (hl : 2 ^ 32 - 8 < len) (fuel : Nat) (s : FS) (h8 : s.i % 8 = 0)
    (hs : s.i < 2 ^ 32) : loop blob len fuel s = none := by
  induction fuel generalizing s with
  | zero => rfl
  | succ n ih =>
    unfold loop
    rw [if_pos (by omega)]
    refine ih _ ?_ (Nat.mod_lt _ (by decide))
    show (s.i + 8) % 2 ^ 32 % 8 = 0
    omega

end Mtev.Rand
