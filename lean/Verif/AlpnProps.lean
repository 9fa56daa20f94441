import Verif.Alpn

/-!
# C94: the application protocol is one both sides speak
-/

namespace Mtev.Alpn
open Mtev.TlsCtx (Str tokens)

theorem sel_mem {reg : Str → Option Fn} {all : List Str} (hne : all ≠ []) : ∀ (ps : List Str) (f : Option Fn) (p : Str),
    sel reg all ps f = some p → p ∈ all
  | [], _, _, h => by cases h
  | q :: ps, f, p, h => by
    unfold sel at h
    split at h
    · exact sel_mem hne ps _ p h
    · split at h
      · rename_i hc
        cases h
        exact call_mem hne hc
      · cases h
      · exact sel_mem hne ps _ p h

/-- **C94 (offered).** Whatever functions are registered, and whatever a client
offers: a protocol that is chosen is one of those the client offered. -/
theorem C94_offered (reg : Str → Option Fn) (npn : Option Str) (ps : List Str) (p : Str)
    (h : select reg npn (wire ps) = some p) : p ∈ ps := by
  rw [select_wire] at h
  split at h
  · cases h
  · cases ps with
    | nil => cases h
    | cons q qs => exact sel_mem (by simp) _ _ _ h

/-- **C94 (known).** If a protocol is chosen, then one that the client offered is
registered. -/
theorem C94_known (reg : Str → Option Fn) (npn : Option Str) (ps : List Str)
    (h : ∀ p ∈ ps, reg p = none) : select reg npn (wire ps) = none := by
  rw [select_wire]
  split
  · rfl
  · have : ∀ (all qs : List Str), (∀ p ∈ qs, reg p = none) → sel reg all qs none = none := by
      intro all qs
      induction qs with
      | nil => intro _; rfl
      | cons q qs ih =>
        intro hq
        unfold sel
        rw [hq q (by simp)]
        exact ih (fun p hp => hq p (by simp [hp]))
    exact this ps ps h

/-- **C94 (off).** A context that advertises nothing chooses nothing. -/
theorem C94_off (reg : Str → Option Fn) (ins : Str) : select reg none ins = none := rfl

theorem sel_h2 {all : List Str} (hin : h2 ∈ all) : ∀ (pre post : List Str), http11 ∉ pre →
    sel std all (pre ++ h2 :: post) none = some h2
  | [], post, _ => by
    rw [List.nil_append, sel, show std h2 = some .nghttp2 from rfl]
    simp [call, nghttp2_wire, hin]
  | q :: pre, post, hn => by
    rw [List.cons_append, sel]
    by_cases hq : q = h2
    · rw [hq, show std h2 = some .nghttp2 from rfl]
      simp [call, nghttp2_wire, hin]
    · have hq' : q ≠ http11 := fun h => hn (by simp [h])
      rw [show std q = none by simp [std, hq, hq']]
      exact sel_h2 hin pre post (fun h => hn (by simp [h]))

theorem matcher_first (ps : List Str) : call (.matcher http11) (wire (http11 :: ps)) = .more := by
  rw [matcher_wire, if_pos]
  simp [wire]

theorem sel_first {rest : List Str} (hin : h2 ∈ rest) : ∀ (qs : List Str), h2 ∈ qs →
    sel std (http11 :: rest) qs (some (.matcher http11)) = some h2
  | [], h => by cases h
  | q :: qs, h => by
    rw [sel]
    by_cases hq : q = h2
    · rw [hq, show std h2 = some .nghttp2 from rfl]
      simp [call, nghttp2_wire, hin]
    · have : (std q).or (some (.matcher http11)) = some (.matcher http11) := by
        unfold std
        rw [if_neg hq]
        split <;> rfl
      rw [this]
      simp only [matcher_first]
      exact sel_first hin qs (by
        rcases List.mem_cons.1 h with h | h
        · exact absurd h.symm hq
        · exact h)

/-- **C94 (HTTP/2).** A client that offers HTTP/2 gets it, among whatever else it
offers.

Partial: HTTP/1.1 is not offered before it, or is offered first of all
(`C94_unknown_violated` has the other cases). -/
theorem C94_h2_partial (npn : Str) (pre post : List Str)
    (h : http11 ∉ pre ∨ pre.head? = some http11) :
    select std (some npn) (wire (pre ++ h2 :: post)) = some h2 := by
  rw [select_wire]
  simp only [Option.isNone_some, Bool.false_eq_true, if_false]
  rcases h with h | h
  · exact sel_h2 (by simp) pre post h
  · cases pre with
    | nil => cases h
    | cons q qs =>
      simp only [List.head?_cons, Option.some.injEq] at h
      subst h
      rw [List.cons_append, sel, show std http11 = some (.matcher http11) by decide +kernel]
      simp only [Option.some_or, matcher_first]
      exact sel_first (by simp) _ (by simp)

/-- a browser's offers, in both orders, and an offer with names unknown here -/
example : select std (some (wire [h2, http11])) (wire [h2, http11]) = some h2 ∧
    select std (some (wire [h2, http11])) (wire [http11, h2]) = some h2 ∧
    select std (some (wire [h2, http11])) (wire [bytesOf "spdy/3.1", bytesOf "x", h2]) = some h2 ∧
    select std (some (wire [h2, http11])) (wire [bytesOf "spdy/3.1"]) = none := by decide +kernel

/-- **C94 (HTTP/1.1).** A client that offers HTTP/1.1 first and not HTTP/2 gets no
protocol at all: the comparison in the matcher is the wrong way round. -/
theorem C94_http11_violated (npn : Option Str) (rest : List Str) (h : h2 ∉ rest) :
    select std npn (wire (http11 :: rest)) = none := by
  rw [select_wire]
  split
  · rfl
  · rw [sel, show std http11 = some (.matcher http11) by decide +kernel]
    simp only [Option.some_or, matcher_first]
    have : ∀ qs : List Str, h2 ∉ qs → sel std (http11 :: rest) qs (some (.matcher http11)) = none := by
      intro qs
      induction qs with
      | nil => intro _; rfl
      | cons q qs ih =>
        intro hq
        have hq2 : q ≠ h2 := fun h => hq (by simp [h])
        have : (std q).or (some (.matcher http11)) = some (.matcher http11) := by
          unfold std
          rw [if_neg hq2]
          split <;> rfl
        rw [sel, this]
        simp only [matcher_first]
        exact ih (fun h => hq (by simp [h]))
    exact this rest h

/-- **C94 (unknown protocols).** A client that offers some protocol of eight bytes
nobody registered, and then HTTP/1.1, is told that the server speaks the former. -/
theorem C94_unknown_violated (npn p : Str) (hp : p.length = 8) (hn : p ≠ http11) (rest : List Str) :
    select std (some npn) (wire (p :: http11 :: rest)) = some p ∧ std p = none := by
  have h2p : p ≠ h2 := by rintro rfl; simp [h2] at hp
  have hs : std p = none := by simp [std, h2p, hn]
  refine ⟨?_, hs⟩
  rw [select_wire]
  simp only [Option.isNone_some, Bool.false_eq_true, if_false]
  rw [sel, hs]
  simp only [Option.or_none]
  rw [sel, show std http11 = some (.matcher http11) by decide +kernel]
  simp only [Option.some_or]
  rw [matcher_wire, if_neg]
  · simp [hp, http11]
  · have h8 : http11.length = 8 := rfl
    rw [h8, wire, List.cons_append, List.drop_one, List.tail_cons, ← hp, List.take_left]
    exact hn

/-- a case: SPDY -/
example : select std (some (wire [h2, http11])) (wire [bytesOf "spdy/3.1", http11]) = some (bytesOf "spdy/3.1") := by
  decide +kernel

/-- **C94 (not advertised).** A server configured for HTTP/1.1 only still takes
HTTP/2. -/
theorem C94_unadvertised_violated (post : List Str) :
    select std (some (wire [http11])) (wire (h2 :: post)) = some h2 :=
  C94_h2_partial _ [] post (.inl (by simp))

/-- **C94 (registered without a function).** The documented way to register a
protocol takes the client's first protocol, whatever it is. -/
theorem C94_always_violated (npn p q : Str) (hpq : q ≠ p) (rest : List Str) :
    select (fun x => if x = p then some .always else none) (some npn) (wire (q :: p :: rest)) = some q := by
  rw [select_wire]
  simp only [Option.isNone_some, Bool.false_eq_true, if_false]
  rw [sel]
  simp only [hpq, if_false, Option.or_none]
  rw [sel]
  simp only [if_true, Option.some_or]
  have h1 := byteAt_wire [] q (p :: rest)
  have h2 := name_wire [] q (p :: rest)
  simp only [List.nil_append, wire, List.length_nil] at h1 h2
  simp only [call, wire]
  rw [h1, h2]

/-! ### advertising -/

theorem tokens_go_room : ∀ (s cur : Str),
    ((tokens.go s cur).map (fun t => t.length + 1)).sum ≤ s.length + cur.length + 1
  | [], cur => by
    unfold tokens.go
    split
    · simp
    · simp
  | c :: s, cur => by
    unfold tokens.go
    split
    · split
      · have := tokens_go_room s []
        simp at this ⊢; omega
      · have := tokens_go_room s []
        simp at this ⊢; omega
    · have := tokens_go_room s (cur ++ [c])
      simp at this ⊢; omega

/-- the protocols that are advertised: those registered, as long as the list has
less than 255 bytes -/
def shown (reg : Str → Option Fn) : List Str → Nat → List Str
  | [], _ => []
  | p :: ps, n =>
    if (reg p).isSome ∧ n + p.length + 1 < 255 then p :: shown reg ps (n + p.length + 1) else shown reg ps n

theorem advGo_ok (reg : Str → Option Fn) : ∀ (ps : List Str) (b : Block) (off : Nat),
    off + (ps.map (fun t => t.length + 1)).sum ≤ b.length →
    ∃ b', advGo reg ps b off = .ok (b', off + (wire (shown reg ps off)).length) ∧
      b'.take (off + (wire (shown reg ps off)).length) = b.take off ++ wire (shown reg ps off) ∧
      b'.length = b.length
  | [], b, off, _ => ⟨b, by simp [advGo, shown, wire], by simp [shown, wire], rfl⟩
  | p :: ps, b, off, h => by
    simp only [List.map_cons, List.sum_cons] at h
    unfold advGo shown
    by_cases hc : (reg p).isSome ∧ off + p.length + 1 < 255
    · rw [if_pos hc, if_pos hc]
      have w1 : off + [p.length].length ≤ b.length := by simp; omega
      rw [Block.write_ok w1, Out.ok_bind]
      have hl : (b.take off ++ [p.length] ++ b.drop (off + [p.length].length)).length = b.length :=
        Block.write_length (Block.write_ok w1)
      have w2 : off + 1 + p.length ≤ (b.take off ++ [p.length] ++ b.drop (off + [p.length].length)).length := by
        rw [hl]; omega
      rw [Block.write_ok w2, Out.ok_bind]
      have hl2 := Block.write_length (Block.write_ok w2)
      obtain ⟨b', e1, e2, e3⟩ := advGo_ok reg ps _ (off + p.length + 1) (by rw [hl2, hl]; omega)
      refine ⟨b', ?_, ?_, by rw [e3, hl2, hl]⟩
      · rw [e1]
        simp [wire]; omega
      · have : off + (wire (p :: shown reg ps (off + p.length + 1))).length
            = off + p.length + 1 + (wire (shown reg ps (off + p.length + 1))).length := by
          simp [wire]; omega
        rw [this, e2]
        have ht : (b.take off).length = off := by simp; omega
        have hA : (b.take off ++ [p.length]).length = off + 1 := by simp [ht]
        have : (b.take off ++ [p.length] ++ b.drop (off + [p.length].length)).take (off + 1)
            = b.take off ++ [p.length] := by
          rw [← hA, List.take_left]
        rw [this]
        have hB : (b.take off ++ [p.length] ++ p).length = off + p.length + 1 := by simp [ht]; omega
        rw [← hB, List.take_left]
        simp [wire]
    · rw [if_neg hc, if_neg hc]
      exact advGo_ok reg ps b off (by omega)

/-- **C94 (advertising).** For every list in the configuration, whatever is in the
memory it gets: the list is written without leaving the memory, and what the context
has is the encoding of the registered protocols in their order, as many as fit. -/
theorem C94_advertise (reg : Str → Option Fn) (junk : Nat → Nat) (npn : Str) :
    advertise reg junk npn = .ok (if shown reg (tokens npn) 0 = [] then none
      else some (wire (shown reg (tokens npn) 0))) := by
  have h := tokens_go_room npn []
  obtain ⟨b', e1, e2, _⟩ := advGo_ok reg (tokens npn) (malloc junk (1 + npn.length + 1)) 0 (by
    rw [malloc_length]; unfold tokens; simp at h ⊢; omega)
  unfold advertise
  rw [e1, Out.ok_bind]
  simp only [Nat.zero_add, List.take_zero, List.nil_append] at e2 ⊢
  rw [e2]
  cases hs : shown reg (tokens npn) 0 with
  | nil => simp [wire]
  | cons p ps => simp [wire]

/-- when everything fits, that is all registered ones -/
theorem C94_advertise_all (reg : Str → Option Fn) : ∀ (ps : List Str) (n : Nat),
    n + (ps.map (fun t => t.length + 1)).sum < 255 → shown reg ps n = ps.filter (fun p => (reg p).isSome)
  | [], _, _ => rfl
  | p :: ps, n, h => by
    simp only [List.map_cons, List.sum_cons] at h
    unfold shown
    by_cases hr : (reg p).isSome
    · rw [if_pos ⟨hr, by omega⟩, C94_advertise_all reg ps _ (by omega)]
      simp [hr]
    · rw [if_neg (fun hh => hr hh.1), C94_advertise_all reg ps _ (by omega)]
      simp [hr]

example (junk : Nat → Nat) : advertise std junk (bytesOf "h2,spdy/1,http/1.1") = .ok (some (wire [h2, http11])) := by
  rw [C94_advertise]; decide +kernel

/-- **C94 (next protocol).** To clients that ask with the older extension, only the
first protocol is advertised. -/
theorem C94_next_violated (p : Str) (ps : List Str) : nextProto (wire (p :: ps)) = wire [p] := by
  have h1 := byteAt_wire [] p ps
  simp only [List.nil_append, wire, List.length_nil] at h1
  simp only [nextProto, wire]
  rw [h1, Nat.add_comm, List.cons_append, List.take_succ_cons, List.take_left]
  simp

end Mtev.Alpn
