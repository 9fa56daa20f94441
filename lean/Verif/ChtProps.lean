import Verif.Cht
import Mathlib.Order.Interval.Finset.Nat

/-!
Properties of the consistent hash table (C16, C59).
-/

namespace Mtev.Cht

/-- A ring `mtev_cht_set_nodes` may build for `cnt` nodes: the hashed points, sorted by position
in any of the ways `qsort` may, then passed through the collision fix-up. -/
def Built (nbits weight cnt : Nat) (h : Nat → Nat → Nat) (s ring : List RP) : Prop :=
  QSorted (fill nbits weight cnt h) s ∧ ring = fixup (maxPos nbits) s

/-- Specification of where a lookup starts: `ring[m]` is the highest point at or below the hash,
or, when there is none, the highest point of all (the arc that wraps). -/
def StartAt (ring : List RP) (hash m : Nat) : Prop :=
  ∃ hm : m < ring.length,
    (ring[m].pos ≤ hash ∧ ∀ p ∈ ring, p.pos ≤ hash → p.pos ≤ ring[m].pos) ∨
    ((∀ p ∈ ring, hash < p.pos) ∧ ∀ p ∈ ring, p.pos ≤ ring[m].pos)

/-- Specification of a lookup: going round the ring from point `m`, the distinct owners in the
order they are first met, the first `w` of them. -/
def firstOwners (ring : List RP) (m w : Nat) : List Nat :=
  ((ring.rotate m).map RP.node).eraseDups.take w

theorem mem_fill {nbits weight cnt : Nat} {h : Nat → Nat → Nat} {p : RP} :
    p ∈ fill nbits weight cnt h ↔ ∃ i, i < cnt ∧ ∃ j, j < weight ∧
      (⟨maskHash nbits (h i j), i % 65536, j % 65536⟩ : RP) = p := by
  simp [fill]

theorem fill_length (nbits weight cnt : Nat) (h : Nat → Nat → Nat) :
    (fill nbits weight cnt h).length = cnt * weight := by
  simp [fill, List.length_flatMap]

theorem built_nodes {nbits weight cnt : Nat} {h : Nat → Nat → Nat} {s ring : List RP}
    (hb : Built nbits weight cnt h s ring) (hc : cnt ≤ 65536) (hw : 1 ≤ weight) :
    (∀ n, n ∈ ring.map RP.node ↔ n < cnt) ∧ ring.length = cnt * weight := by
  obtain ⟨⟨hp, _⟩, e⟩ := hb
  have ht := fixup_tags (maxPos nbits) s
  rw [← e] at ht
  have h1 : ring.map RP.node = s.map RP.node := by
    have := congrArg (List.map Prod.fst) ht
    simp only [tags, List.map_map] at this
    exact this
  constructor
  · intro n
    rw [h1, (hp.map RP.node).mem_iff, List.mem_map]
    constructor
    · rintro ⟨p, hp, rfl⟩
      obtain ⟨i, hi, j, hj, rfl⟩ := mem_fill.mp hp
      simp
      omega
    · intro hn
      exact ⟨_, mem_fill.mpr ⟨n, hn, 0, by omega, rfl⟩, by simp; omega⟩
  · rw [e, fixup_length, hp.length_eq, fill_length]

/-- C16 (distinctness and number), for every hash function, weight, node set of at most 65536
nodes, whatever collisions occur: a lookup of `w` nodes (`w` at most 256 and at most the number of
nodes) never asserts and returns exactly `w` different valid nodes, namely the first `w` distinct
owners met going round the ring from some point. -/
theorem C16_lookup_distinct {nbits weight cnt : Nat} {h : Nat → Nat → Nat} {s ring : List RP}
    (hb : Built nbits weight cnt h s ring) (hc1 : 1 ≤ cnt) (hc : cnt ≤ 65536) (hw : 1 ≤ weight)
    (hash w : Nat) (hw256 : w ≤ 256) (hwc : w ≤ cnt) :
    ∃ ids m, vlookupN cnt ring hash w = .ok (some ids) ∧
      startIdx ring hash = .ok m ∧ m < ring.length ∧
      ids = firstOwners ring m w ∧
      ids.length = w ∧ ids.Nodup ∧ ∀ n ∈ ids, n < cnt := by
  obtain ⟨hn, hl⟩ := built_nodes hb hc hw
  have hpos : 0 < ring.length := by rw [hl]; exact Nat.mul_pos hc1 hw
  obtain ⟨m, hm, hml⟩ := startIdx_ok ring hash (List.length_pos_iff.mp hpos)
  have hrot : ∀ n, n ∈ ((ring.rotate m).map RP.node).eraseDups ↔ n < cnt := by
    intro n
    rw [mem_eraseDups, ← hn n]
    simp [List.mem_rotate]
  have hnd := nodup_eraseDups ((ring.rotate m).map RP.node)
  have hlen : ((ring.rotate m).map RP.node).eraseDups.length = cnt := by
    have hperm : ((ring.rotate m).map RP.node).eraseDups.Perm (List.range cnt) := by
      rw [List.perm_ext_iff_of_nodup hnd List.nodup_range]
      intro n; rw [hrot, List.mem_range]
    simpa using hperm.length_eq
  have hcol : collect w cnt []
      ((List.range ring.length).map fun t => (ring.getD ((m + t) % ring.length) ⟨0, 0, 0⟩).node) =
      firstOwners ring m w := by
    rw [owners_rotate ring m hml, collect_spec w cnt _ [] (by simp)]
    simp only [firstOwners, List.nil_append, List.length_nil, Nat.sub_zero]
    rw [Nat.min_eq_left hwc]
    congr 2
    apply List.filter_eq_self.mpr
    simp
  have hfl : (firstOwners ring m w).length = w := by
    rw [firstOwners, List.length_take, hlen]; omega
  refine ⟨firstOwners ring m w, m, ?_, hm, hml, rfl, hfl, ?_, ?_⟩
  · unfold vlookupN
    have e1 : ¬ ((w : Int) > 256) := by omega
    simp only [e1, if_false]
    have e2 : ¬ ((w : Int) < 0) := by omega
    simp only [e2, if_false, Int.toNat_natCast]
    rw [if_neg (by omega), hm, Out.ok_bind]
    rw [hcol, hfl, if_neg (by omega), List.take_of_length_le (by omega)]
    rfl
  · exact hnd.sublist (List.take_sublist _ _)
  · intro n hn'
    exact (hrot n).mp (List.mem_of_mem_take hn')

theorem mono_of_pairwise {s : List RP} (hs : s.Pairwise (fun a b => a.pos ≤ b.pos)) : Mono s := by
  intro i j hij hj
  rw [posAt_lt (by omega), posAt_lt hj]
  rcases Nat.eq_or_lt_of_le hij with e | hlt
  · subst e; exact le_refl _
  · exact List.pairwise_iff_getElem.mp hs i j _ hj hlt

theorem pairwise_of_adj {r : List RP}
    (h : ∀ i, i + 1 < r.length → posAt r i < posAt r (i+1)) :
    r.Pairwise (fun a b => a.pos < b.pos) := by
  rw [List.pairwise_iff_getElem]
  intro i j hi hj hij
  rw [← posAt_lt hi, ← posAt_lt hj]
  induction j with
  | zero => omega
  | succ j ih =>
    have hj' := h j hj
    rcases Nat.eq_or_lt_of_le (Nat.le_of_lt_succ hij) with e | hlt
    · subst e; exact hj'
    · have := ih (by omega) hlt
      omega

theorem startAt_of_strict {r : List RP} (hp : r.Pairwise (fun a b => a.pos < b.pos)) (hash m : Nat)
    (hm : startIdx r hash = .ok m) (hne : r ≠ []) : StartAt r hash m := by
  have hl : 0 < r.length := List.length_pos_iff.mpr hne
  have hmono : Mono r := mono_of_pairwise (hp.imp (fun h => le_of_lt h))
  obtain ⟨m', hm', hml⟩ := startIdx_ok r hash hne
  rw [hm] at hm'
  injection hm' with e
  rw [← e] at hml
  have hany := bsearch_any r hash (r.length + 1) 0 r.length 0 (by omega) hl (Or.inl rfl)
  have hs := bsearch_sorted r hash hmono (r.length + 1) 0 r.length 0 (by omega) hl (le_refl _)
    (Or.inl rfl) (Or.inl rfl)
  unfold startIdx at hm
  simp only at hany hs hm
  generalize bsearch r hash (r.length + 1) 0 r.length 0 = x at *
  refine ⟨hml, ?_⟩
  split at hm
  · rename_i hc
    have hx := hany.2 hc
    rw [if_pos hx] at hm
    injection hm with hm
    subst hx
    refine Or.inr ⟨?_, ?_⟩
    · intro p hp'
      obtain ⟨j, hj, rfl⟩ := List.getElem_of_mem hp'
      have := hmono 0 j (by omega) hj
      rw [posAt_lt hj] at this
      omega
    · intro p hp'
      obtain ⟨j, hj, rfl⟩ := List.getElem_of_mem hp'
      have := hmono j m (by omega) hml
      rw [posAt_lt hj, posAt_lt hml] at this
      exact this
  · rename_i hc
    injection hm with hm
    subst hm
    rw [posAt_lt hml] at hc hs
    refine Or.inl ⟨by omega, ?_⟩
    intro p hp' hle
    obtain ⟨j, hj, rfl⟩ := List.getElem_of_mem hp'
    rcases hs with h | ⟨h, h2⟩ | ⟨h, h2⟩
    · omega
    · by_contra hlt
      have hjx : ¬ j ≤ x := fun hjx => by
        have := hmono j x hjx hml
        rw [posAt_lt hj, posAt_lt hml] at this
        omega
      rcases h2 with h2 | h2
      · omega
      · have := hmono (x+1) j (by omega) hj
        rw [posAt_lt hj] at this
        omega
    · have e0 : r[x].pos = posAt r 0 := by
        rw [← posAt_lt hml, h]
      omega

/-- The hashed points, in order, do not pile up just above the lowest one: at most `j` points lie
below `lowest + j`.  Holds in particular when no two points collide. -/
def NoPile (s : List RP) : Prop := ∀ j (hj : j < s.length), (s[0]'(by omega)).pos + j ≤ s[j].pos

theorem noPile_of_distinct {s : List RP} (hs : s.Pairwise (fun a b => a.pos ≤ b.pos))
    (hd : (s.map RP.pos).Nodup) : NoPile s := by
  intro j hj
  induction j with
  | zero => simp
  | succ j ih =>
    have h1 := ih (by omega)
    have h2 := List.pairwise_iff_getElem.mp hs j (j+1) (by omega) hj (by omega)
    have h3 : s[j].pos ≠ s[j+1].pos := by
      intro he
      have := (List.Nodup.getElem_inj_iff hd (i := j) (j := j+1)
        (hi := by simp; omega) (hj := by simp; omega)).mp (by simpa using he)
      omega
    omega

/-- C16 (order and position), partial: when the hashed points do not pile up at the bottom of the
ring (`NoPile`; true when no two points collide), the ring is strictly increasing and a lookup
starts at the point whose arc contains the hash, so it returns the first `w` distinct owners from
there on.  Without that hypothesis the ring need not be sorted: `C16_unsorted_violated`. -/
theorem C16_ring_order_partial {nbits weight cnt : Nat} {h : Nat → Nat → Nat} {s ring : List RP}
    (hb : Built nbits weight cnt h s ring) (hc1 : 1 ≤ cnt) (hc : cnt ≤ 65536) (hw : 1 ≤ weight)
    (hnp : NoPile s) (hash w : Nat) (hw256 : w ≤ 256) (hwc : w ≤ cnt) :
    ring.Pairwise (fun a b => a.pos < b.pos) ∧
    ∃ m, StartAt ring hash m ∧ vlookupN cnt ring hash w = .ok (some (firstOwners ring m w)) := by
  have hs := hb.1.2
  have hm := mono_of_pairwise hs
  have hsp : Spread s := by
    intro j hj
    rw [posAt_lt (show 0 < s.length by omega), posAt_lt hj]
    exact hnp j hj
  obtain ⟨-, hst⟩ := fixup_strict (max := maxPos nbits) hsp hm
  rw [← hb.2] at hst
  have hp := pairwise_of_adj hst
  obtain ⟨ids, m, h1, h2, h3, h4, -⟩ := C16_lookup_distinct hb hc1 hc hw hash w hw256 hwc
  refine ⟨hp, m, startAt_of_strict hp hash m h2 ?_, ?_⟩
  · intro e; subst e; simp at h3
  · rw [h1, h4]

/-- An empty table answers -1. -/
theorem C16_empty (r : List RP) (hash : Nat) (w : Int) : vlookupN 0 r hash w = .ok none := by
  simp [vlookupN]

/-- C16 fails: three points hashing to the lowest position leave the ring out of order, because
the fix-up never moves the first point.  Any hash with these values does it; here 4 nodes. -/
theorem C16_unsorted_violated : ∃ (h : Nat → Nat → Nat) (s ring : List RP),
    Built 16 1 4 h s ring ∧ ring.map RP.pos = [5, 4, 5, 6] := by
  refine ⟨fun i _ => if i = 3 then 6 else 5, fill 16 1 4 (fun i _ => if i = 3 then 6 else 5), _,
    ⟨⟨List.Perm.refl _, ?_⟩, rfl⟩, ?_⟩ <;> decide +kernel

/-- C16 fails: asking for more nodes than exist returns one node twice, for every table. -/
theorem C16_duplicate_violated {nbits weight cnt : Nat} {h : Nat → Nat → Nat} {s ring : List RP}
    (hb : Built nbits weight cnt h s ring) (hc1 : 1 ≤ cnt) (hw : 1 ≤ weight)
    (hash w : Nat) (hw256 : w ≤ 256) (hwc : cnt < w) :
    ∃ ids, vlookupN cnt ring hash w = .ok (some ids) ∧ ids.length = cnt + 1 ∧ ¬ ids.Nodup := by
  have hc : cnt ≤ 65536 := by omega
  obtain ⟨hn, hl⟩ := built_nodes hb hc hw
  have hpos : 0 < ring.length := by rw [hl]; exact Nat.mul_pos hc1 hw
  obtain ⟨m, hm, hml⟩ := startIdx_ok ring hash (List.length_pos_iff.mp hpos)
  have hrot : ∀ n, n ∈ ((ring.rotate m).map RP.node).eraseDups ↔ n < cnt := by
    intro n
    rw [mem_eraseDups, ← hn n]
    simp [List.mem_rotate]
  have hnd := nodup_eraseDups ((ring.rotate m).map RP.node)
  have hlen : ((ring.rotate m).map RP.node).eraseDups.length = cnt := by
    have hperm : ((ring.rotate m).map RP.node).eraseDups.Perm (List.range cnt) := by
      rw [List.perm_ext_iff_of_nodup hnd List.nodup_range]
      intro n; rw [hrot, List.mem_range]
    simpa using hperm.length_eq
  have hcol : collect w cnt []
      ((List.range ring.length).map fun t => (ring.getD ((m + t) % ring.length) ⟨0, 0, 0⟩).node) =
      ((ring.rotate m).map RP.node).eraseDups := by
    rw [owners_rotate ring m hml, collect_spec w cnt _ [] (by simp)]
    simp only [List.nil_append, List.length_nil, Nat.sub_zero]
    rw [Nat.min_eq_right (by omega)]
    have : (List.filter (fun x => !([] : List Nat).contains x) ((ring.rotate m).map RP.node)) =
        (ring.rotate m).map RP.node := List.filter_eq_self.mpr (by simp)
    rw [this, List.take_of_length_le (by omega)]
  refine ⟨((ring.rotate m).map RP.node).eraseDups ++ [(ring.getD m ⟨0, 0, 0⟩).node], ?_, ?_, ?_⟩
  · unfold vlookupN
    have e1 : ¬ ((w : Int) > 256) := by omega
    simp only [e1, if_false]
    have e2 : ¬ ((w : Int) < 0) := by omega
    simp only [e2, if_false, Int.toNat_natCast]
    rw [if_neg (by omega), hm, Out.ok_bind]
    rw [hcol, hlen, if_pos (by omega), List.take_of_length_le (by rw [List.length_append, hlen]; simp; omega)]
    rfl
  · rw [List.length_append, hlen]; rfl
  · intro hbad
    rw [List.nodup_append] at hbad
    have hmem : (ring.getD m ⟨0, 0, 0⟩).node ∈ ((ring.rotate m).map RP.node).eraseDups := by
      rw [hrot, ← hn]
      rw [List.getD_eq_getElem?_getD, List.getElem?_eq_getElem hml]
      exact List.mem_map.mpr ⟨_, List.getElem_mem hml, rfl⟩
    exact hbad.2.2 _ hmem _ (by simp) rfl

/-- A table allocated with 31 hash bits cannot be given nodes without undefined behaviour
(`1 << 31` in `mtev_cht_set_nodes`). -/
theorem C16_bits31_violated (weight n : Nat) : trim 31 weight n = .ub := by
  cases n <;> simp [trim]

/-- Trimming keeps the ring within the number of positions, and is maximal. -/
theorem C16_trim {nbits weight n k : Nat} (hb : nbits < 32) (h : trim nbits weight n = .ok k) :
    k ≤ n ∧ k * weight ≤ 2 ^ nbits ∧ (k < n → 2 ^ nbits < (k + 1) * weight) := by
  induction n with
  | zero =>
    simp only [trim] at h
    split at h
    · simp at h
    · injection h with h; subst h; simp
  | succ n ih =>
    simp only [trim] at h
    rw [if_neg (by omega)] at h
    split at h
    · simp at h
    · split at h
      · obtain ⟨a, b, c⟩ := ih h
        refine ⟨by omega, b, fun _ => ?_⟩
        by_cases hk : k < n
        · exact c hk
        · have : k = n := by omega
          subst this; assumption
      · injection h with h
        subst h
        exact ⟨le_refl _, by omega, fun hh => by omega⟩

/-! ### C59: the share reported for a node -/

/-- The owner of the last point at or below `x`, `d` if there is none. -/
def predNode (d : Nat) : List RP → Nat → Nat
  | [], _ => d
  | p :: rest, x => if x < p.pos then d else predNode p.node rest x

theorem predNode_lt {d x : Nat} {r : List RP} (h : ∀ p ∈ r, x < p.pos) : predNode d r x = d := by
  cases r with
  | nil => rfl
  | cons p rest => simp [predNode, h p (by simp)]

theorem predNode_at : ∀ (r : List RP) (d x m : Nat) (_ : r.Pairwise (fun a b => a.pos < b.pos))
    (hm : m < r.length), r[m].pos ≤ x → (∀ p ∈ r, p.pos ≤ x → p.pos ≤ r[m].pos) →
    predNode d r x = r[m].node
  | [], _, _, _, _, hm, _, _ => by simp at hm
  | p :: rest, d, x, m, hp, hm, hle, hmax => by
    rw [List.pairwise_cons] at hp
    cases m with
    | zero =>
      simp only [List.getElem_cons_zero] at hle hmax ⊢
      rw [predNode, if_neg (by omega)]
      apply predNode_lt
      intro q hq
      have h1 := hp.1 q hq
      by_contra hlt
      have := hmax q (by simp [hq]) (by omega)
      omega
    | succ m =>
      simp only [List.getElem_cons_succ] at hle hmax ⊢
      have hm' : m < rest.length := by simpa using hm
      have h1 := hp.1 _ (List.getElem_mem hm')
      rw [predNode, if_neg (by omega)]
      exact predNode_at rest p.node x m hp.2 hm' hle (fun q hq => hmax q (by simp [hq]))

open Finset in
theorem card_pred (node max : Nat) : ∀ (r : List RP) (d lo : Nat),
    r.Pairwise (fun a b => a.pos < b.pos) → (∀ p ∈ r, lo ≤ p.pos ∧ p.pos ≤ max) → lo ≤ max + 1 →
    max < 2 ^ 32 →
    ((Ico lo (max + 1)).filter (fun x => predNode d r x = node)).card =
      match r with
      | [] => if d = node then max + 1 - lo else 0
      | s :: _ => (if d = node then s.pos - lo else 0) + (ownedMid node r +
          match r.getLast? with
          | some l => if l.node = node then max - l.pos + 1 else 0
          | none => 0)
  | [], d, lo, _, _, _, _ => by
    simp only [predNode]
    by_cases h : d = node <;> simp [h]
  | s :: rest, d, lo, hp, hb, hlo, hmax => by
    rw [List.pairwise_cons] at hp
    have hs := hb s (by simp)
    have hsplit : Ico lo (max + 1) = Ico lo s.pos ∪ Ico s.pos (max + 1) := by
      rw [Ico_union_Ico_eq_Ico hs.1 (by omega)]
    rw [hsplit, filter_union, card_union_of_disjoint]
    swap
    · rw [disjoint_left]
      intro x hx hy
      simp at hx hy
      omega
    have e1 : ((Ico lo s.pos).filter (fun x => predNode d (s :: rest) x = node)).card =
        if d = node then s.pos - lo else 0 := by
      have : (Ico lo s.pos).filter (fun x => predNode d (s :: rest) x = node) =
          (Ico lo s.pos).filter (fun _ => d = node) := by
        apply filter_congr
        intro x hx
        simp at hx
        simp [predNode, hx.2]
      rw [this]
      by_cases h : d = node <;> simp [h]
    have e2 : ((Ico s.pos (max + 1)).filter (fun x => predNode d (s :: rest) x = node)) =
        (Ico s.pos (max + 1)).filter (fun x => predNode s.node rest x = node) := by
      apply filter_congr
      intro x hx
      simp at hx
      have : ¬ x < s.pos := by omega
      simp [predNode, this]
    have ih := card_pred node max rest s.node s.pos hp.2
      (fun p hp' => ⟨le_of_lt (hp.1 p hp'), (hb p (by simp [hp'])).2⟩) (by omega) hmax
    rw [e1, e2, ih]
    simp only
    congr 1
    cases rest with
    | nil =>
      simp only [ownedMid, List.getLast?_singleton, Nat.zero_add]
      split <;> omega
    | cons e rest' =>
      simp only [ownedMid]
      have he := hp.1 e (by simp)
      have hem := hb e (by simp)
      have : (e.pos + 2 ^ 32 - s.pos) % 2 ^ 32 = e.pos - s.pos := by
        rw [show e.pos + 2 ^ 32 - s.pos = (e.pos - s.pos) + 2 ^ 32 by omega, Nat.add_mod_right,
          Nat.mod_eq_of_lt (by omega)]
      rw [this, List.getLast?_cons_cons]
      omega

open Finset in
/-- C59, partial in the same way as C16: the share reported for a node (computed exactly, as a
numerator over `max + 1`) is the number of hash values a single lookup sends to that node. -/
theorem C59_share_partial {nbits weight cnt : Nat} {h : Nat → Nat → Nat} {s ring : List RP}
    (hb : Built nbits weight cnt h s ring) (hbits : nbits ≤ 32)
    (hh : ∀ i j, h i j < 2 ^ 32) (hc1 : 1 ≤ cnt) (hc : cnt ≤ 65536) (hw : 1 ≤ weight)
    (hnp : NoPile s) (node : Nat) :
    owned (maxPos nbits) node ring =
      ((range (2 ^ nbits)).filter fun hash => vlookupN cnt ring hash 1 = .ok (some [node])).card := by
  have hne : ring ≠ [] := by
    intro e
    have := (built_nodes hb hc hw).2
    rw [e] at this
    have hpos := Nat.mul_pos hc1 hw
    simp at this; omega
  have hp := (C16_ring_order_partial hb hc1 hc hw hnp 0 0 (by omega) (by omega)).1
  have h2 : 0 < 2 ^ nbits := Nat.pos_of_ne_zero (by simp)
  have hmx : maxPos nbits + 1 = 2 ^ nbits := by simp [maxPos]; omega
  have hle : ∀ p ∈ ring, p.pos ≤ maxPos nbits := by
    rw [hb.2]
    apply fixup_le
    intro p hp'
    obtain ⟨i, _, j, _, rfl⟩ := mem_fill.mp (hb.1.1.mem_iff.mp hp')
    simp only [maskHash]
    split
    · rename_i e; have := hh i j; subst e; omega
    · have := Nat.mod_lt (h i j) h2; omega
  have h32 : maxPos nbits < 2 ^ 32 := by
    have : 2 ^ nbits ≤ 2 ^ 32 := Nat.pow_le_pow_right (by omega) hbits
    omega
  obtain ⟨last, hlast⟩ : ∃ last, ring.getLast? = some last := by
    cases e : ring.getLast? with
    | none => simp [List.getLast?_eq_none_iff] at e; exact absurd e hne
    | some l => exact ⟨l, rfl⟩
  -- what one lookup answers
  have hone : ∀ hash, vlookupN cnt ring hash 1 = .ok (some [predNode last.node ring hash]) := by
    intro hash
    obtain ⟨-, m, ⟨hm, hst⟩, hv⟩ := C16_ring_order_partial hb hc1 hc hw hnp hash 1 (by omega) hc1
    rw [Nat.cast_one] at hv
    rw [hv]
    have hfo : firstOwners ring m 1 = [ring[m].node] := by
      have hrot : ring.rotate m = ring[m] :: (ring.drop (m+1) ++ ring.take m) := by
        rw [List.rotate_eq_drop_append_take (le_of_lt hm), List.drop_eq_getElem_cons hm]
        rfl
      rw [firstOwners, hrot, List.map_cons, List.eraseDups_cons]
      rfl
    rw [hfo]
    congr 3
    rcases hst with ⟨a, b⟩ | ⟨a, b⟩
    · exact (predNode_at ring _ hash m hp hm a b).symm
    · rw [predNode_lt a]
      have hl : 0 < ring.length := by omega
      have hlm : m = ring.length - 1 := by
        by_contra hx
        have h1 := List.pairwise_iff_getElem.mp hp m (ring.length - 1) hm (by omega) (by omega)
        have := b _ (List.getElem_mem (show ring.length - 1 < ring.length by omega))
        omega
      rw [List.getLast?_eq_getElem?, List.getElem?_eq_getElem (by omega)] at hlast
      injection hlast with hlast
      rw [← hlast]
      subst hlm
      rfl
  have hcard := card_pred node (maxPos nbits) ring last.node 0 hp
    (fun p hp' => ⟨by omega, hle p hp'⟩) (by omega) h32
  have e : ((range (2 ^ nbits)).filter fun hash => vlookupN cnt ring hash 1 = .ok (some [node])) =
      (Ico 0 (maxPos nbits + 1)).filter (fun x => predNode last.node ring x = node) := by
    rw [hmx, ← range_eq_Ico]
    apply filter_congr
    intro x _
    rw [hone x]
    simp
  rw [e, hcard]
  cases ring with
  | nil => exact absurd rfl hne
  | cons p rest =>
    simp only [owned, hlast, List.head?_cons]
    split <;> omega

/-! ### The hypotheses are met by ordinary tables -/

/-- Three nodes of weight 2 with distinct points on a 16-bit ring. -/
def exHash : Nat → Nat → Nat := fun i j => (i * 7919 + j * 30011 + 100) % 65536
def exSorted : List RP :=
  [⟨100, 0, 0⟩, ⟨8019, 1, 0⟩, ⟨15938, 2, 0⟩, ⟨30111, 0, 1⟩, ⟨38030, 1, 1⟩, ⟨45949, 2, 1⟩]

theorem exBuilt : Built 16 2 3 exHash exSorted exSorted := by
  refine ⟨⟨?_, ?_⟩, ?_⟩
  · decide +kernel
  · decide +kernel
  · have hsp : Spread exSorted := by unfold Spread; decide +kernel
    have : sweepDown exSorted = none := by decide +kernel
    have h1 : passDown exSorted = exSorted := untilStable_none this _
    have h2 : sweepUp (maxPos 16) exSorted = none := by decide +kernel
    rw [fixup, h1, passUp, untilStable_none h2]

example : NoPile exSorted := by unfold NoPile; decide +kernel
example : vlookupN 3 exSorted 9000 2 = .ok (some [1, 2]) := by decide +kernel
example : vlookupN 3 exSorted 50 3 = .ok (some [2, 0, 1]) := by decide +kernel
example : vlookupN 3 exSorted 50 5 = .ok (some [2, 0, 1, 2]) := by decide +kernel
example : trim 16 100 1000 = .ok 655 := by decide +kernel

end Mtev.Cht
