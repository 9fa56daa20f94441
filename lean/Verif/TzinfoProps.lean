import Verif.Tzinfo

/-!
# C124, C125, C126: time zones
-/

namespace Mtev.Tzinfo

/-! ## Specification -/

/-- transition `k` is the last one that is not after `t` -/
def InForce (tt : List Int) (t : Int) (k : Nat) : Prop :=
  (∃ x, tt[k]? = some x ∧ x ≤ t) ∧ ∀ j x, k < j → tt[j]? = some x → t < x

/-- the transition that counts at `t`: the last one not after `t`; before all of them, the first -/
def Counts (tt : List Int) (t : Int) (k : Nat) : Prop := InForce tt t k ∨ (k = 0 ∧ ∀ x ∈ tt, t < x)

/-- the zone after transition `k` -/
def ZoneOf (i : Info) (k : Nat) (z : Zone) : Prop := ∃ y, i.types[k]? = some y ∧ i.zones[y]? = some z

def IsByte (b : Nat) : Prop := b < 256

/-- four bytes, most significant first -/
def encInt (z : Int) : Str :=
  let n := (z % 2 ^ 32).toNat
  [n / 2 ^ 24, n / 2 ^ 16 % 256, n / 2 ^ 8 % 256, n % 256]

def encZone (z : Zone) : Str := encInt z.offset ++ [(z.dst % 256).toNat, (z.idx % 256).toNat]

/-- the format of a zone file (the first block of it; more may follow) -/
def encode (i : Info) (header rest : Str) : Str :=
  bytesOf "TZif" ++ header ++ encInt (i.leaps.length / 2 : Nat) ++ encInt i.times.length ++ encInt i.zones.length ++
    encInt i.chars.length ++ (i.times.map encInt).flatten ++ i.types ++ (i.zones.map encZone).flatten ++ i.chars ++
    (i.leaps.map encInt).flatten ++ rest

def Is32 (z : Int) : Prop := -(2 ^ 31) ≤ z ∧ z < 2 ^ 31
def Is8 (z : Int) : Prop := -128 ≤ z ∧ z < 128

/-- what can be in a zone file -/
structure Valid (i : Info) : Prop where
  times : ∀ x ∈ i.times, Is32 x
  leaps : ∀ x ∈ i.leaps, Is32 x
  types : i.types.length = i.times.length ∧ ∀ y ∈ i.types, y < i.zones.length
  zones : ∀ z ∈ i.zones, Is32 z.offset ∧ Is8 z.dst ∧ 0 ≤ z.idx ∧ z.idx < 128
  names : ∀ z ∈ i.zones, ∃ q : Nat, z.idx.toNat ≤ q ∧ i.chars[q]? = some 0
  sizes : i.times.length ≤ 10240 ∧ 1 ≤ i.zones.length ∧ i.zones.length ≤ 10240 ∧ i.leaps.length ≤ 20480 ∧
    i.leaps.length % 2 = 0 ∧ i.chars.length ≤ 256000

/-! ## Reading -/

theorem readInts_length : ∀ n s l r, readInts n s = some (l, r) → l.length = n
  | 0, s, l, r, h => by simp [readInts] at h; simp [← h.1]
  | n + 1, s, l, r, h => by
    unfold readInts at h
    split at h
    · cases h
    · split at h
      · cases h
      · rename_i l' s' h2
        simp only [Option.some.injEq, Prod.mk.injEq] at h
        rw [← h.1, List.length_cons, readInts_length n _ _ _ h2]

theorem readTypes_spec (c : Nat) : ∀ n s l r, readTypes c n s = some (l, r) → l.length = n ∧ ∀ y ∈ l, y < c
  | 0, s, l, r, h => by
    simp only [readTypes, Option.some.injEq, Prod.mk.injEq] at h
    rw [← h.1]; simp
  | n + 1, [], l, r, h => by simp [readTypes] at h
  | n + 1, b :: s, l, r, h => by
    unfold readTypes at h
    split at h
    · cases h
    · split at h
      · cases h
      · rename_i hb _ l' s' h2
        simp only [Option.some.injEq, Prod.mk.injEq] at h
        obtain ⟨h3, h4⟩ := readTypes_spec c n _ _ _ h2
        rw [← h.1]
        refine ⟨by simp [h3], ?_⟩
        intro y hy
        simp only [List.mem_cons] at hy
        rcases hy with rfl | hy
        · omega
        · exact h4 y hy

theorem readZones_length : ∀ n s l r, readZones n s = some (l, r) → l.length = n
  | 0, s, l, r, h => by simp [readZones] at h; simp [← h.1]
  | n + 1, s, l, r, h => by
    unfold readZones at h
    split at h
    · split at h
      · cases h
      · rename_i l' s' h2
        simp only [Option.some.injEq, Prod.mk.injEq] at h
        rw [← h.1, List.length_cons, readZones_length n _ _ _ h2]
    · cases h

theorem readTables_spec {a b c d : Nat} {s : Str} {i : Info} (h : readTables a b c d s = some i) :
    i.times.length = b ∧ i.types.length = b ∧ i.zones.length = c ∧ (∀ y ∈ i.types, y < c) ∧
      ∀ z ∈ i.zones, nameOk i.chars z = true := by
  unfold readTables at h
  split at h
  · cases h
  · rename_i times s1 e1
    split at h
    · cases h
    · rename_i types s2 e2
      split at h
      · cases h
      · rename_i zones s3 e3
        split at h
        · cases h
        · split at h
          · cases h
          · rename_i hall
            split at h
            · cases h
            · simp only [Option.some.injEq] at h
              subst h
              obtain ⟨t1, t2⟩ := readTypes_spec _ _ _ _ _ e2
              simp only [Bool.not_eq_false, List.all_eq_true] at hall
              exact ⟨readInts_length _ _ _ _ e1, t1, readZones_length _ _ _ _ e3, t2, hall⟩

theorem parse_spec {file : Str} {i : Info} (h : parse file = some i) :
    i.times.length ≤ 10240 ∧ i.types.length = i.times.length ∧ 1 ≤ i.zones.length ∧ (∀ y ∈ i.types, y < i.zones.length) ∧
      ∀ z ∈ i.zones, nameOk i.chars z = true := by
  unfold parse at h
  split at h
  · cases h
  · split at h
    · rename_i leapcnt timecnt typecnt charcnt s _
      split at h
      · cases h
      · split at h
        · cases h
        · split at h
          · cases h
          · split at h
            · cases h
            · obtain ⟨a, b, c, d, e⟩ := readTables_spec h
              refine ⟨by omega, by rw [a, b], by omega, ?_, e⟩
              rw [c]; exact d
    · cases h

/-- **C125** Whatever is in a zone file: if it is accepted, there is a zone, each transition leads to one, and the name of
each is within the names and has an end there. -/
theorem C125_parse (file : Str) (i : Info) (h : parse file = some i) :
    i.types.length = i.times.length ∧ i.zones ≠ [] ∧ (∀ y ∈ i.types, ∃ z, i.zones[y]? = some z) ∧
      ∀ z ∈ i.zones, 0 ≤ z.idx ∧ ∃ q : Nat, z.idx.toNat ≤ q ∧ i.chars[q]? = some 0 := by
  obtain ⟨_, h1, h2, h3, h4⟩ := parse_spec h
  refine ⟨h1, ?_, ?_, ?_⟩
  · intro h; rw [h] at h2; simp at h2
  · intro y hy
    exact ⟨i.zones[y]'(h3 y hy), List.getElem?_eq_getElem _⟩
  · intro z hz
    have := h4 z hz
    simp only [nameOk, Bool.and_eq_true, decide_eq_true_eq] at this
    obtain ⟨⟨a, b⟩, c⟩ := this
    refine ⟨a, ?_⟩
    obtain ⟨j, hj⟩ := List.mem_iff_getElem?.1 c
    rw [List.getElem?_drop] at hj
    exact ⟨z.idx.toNat + j, by omega, hj⟩

/-! ### round trip -/

theorem readInt_enc (z : Int) (h : Is32 z) (s : Str) : readInt (encInt z ++ s) = some (z, s) := by
  obtain ⟨h1, h2⟩ := h
  simp only [encInt, List.cons_append, List.nil_append, readInt, Option.some.injEq, Prod.mk.injEq, and_true]
  have : ((z % 2 ^ 32).toNat : Int) = z % 2 ^ 32 := Int.toNat_of_nonneg (Int.emod_nonneg _ (by norm_num))
  have hlt : (z % 2 ^ 32).toNat < 2 ^ 32 := by omega
  generalize (z % 2 ^ 32).toNat = n at *
  have e : ((n / 2 ^ 24 * 256 + n / 2 ^ 16 % 256) * 256 + n / 2 ^ 8 % 256) * 256 + n % 256 = n := by omega
  rw [e]
  split <;> omega

theorem readInts_enc : ∀ (l : List Int), (∀ x ∈ l, Is32 x) → ∀ s, readInts l.length ((l.map encInt).flatten ++ s) = some (l, s)
  | [], _, s => rfl
  | x :: l, h, s => by
    simp only [List.length_cons, readInts, List.map_cons, List.flatten_cons, List.append_assoc]
    rw [readInt_enc x (h x (by simp))]
    simp only
    rw [readInts_enc l (fun y hy => h y (by simp [hy])) s]

theorem readTypes_enc (c : Nat) : ∀ (l : List Nat), (∀ y ∈ l, y < c) → ∀ s, readTypes c l.length (l ++ s) = some (l, s)
  | [], _, s => rfl
  | x :: l, h, s => by
    have := h x (by simp)
    simp only [List.length_cons, List.cons_append, readTypes]
    rw [if_neg (by omega), readTypes_enc c l (fun y hy => h y (by simp [hy])) s]

theorem int8_enc (z : Int) (h : Is8 z) : int8 (z % 256).toNat = z := by
  obtain ⟨h1, h2⟩ := h
  unfold int8
  split <;> omega

theorem readZones_enc : ∀ (l : List Zone), (∀ z ∈ l, Is32 z.offset ∧ Is8 z.dst ∧ Is8 z.idx) → ∀ s,
    readZones l.length ((l.map encZone).flatten ++ s) = some (l, s)
  | [], _, s => rfl
  | x :: l, h, s => by
    obtain ⟨h1, h2, h3⟩ := h x (by simp)
    simp only [List.length_cons, List.map_cons, List.flatten_cons, encZone, List.append_assoc, readZones]
    rw [readInt_enc _ h1]
    simp only [List.cons_append, List.nil_append]
    rw [readZones_enc l (fun y hy => h y (by simp [hy])) s]
    simp only [int8_enc _ h2, int8_enc _ h3]

/-- **C125** A file in the format of zone files is read as what it says: all transitions, zones, names and leap seconds. -/
theorem C125_roundtrip (i : Info) (hv : Valid i) (header rest : Str) (hh : header.length = 24) :
    parse (encode i header rest) = some i := by
  obtain ⟨s1, s2, s3, s4, s5, s6⟩ := hv.sizes
  have hne : i.chars.length ≥ 1 := by
    cases hz : i.zones with
    | nil => rw [hz] at s2; simp at s2
    | cons z l =>
      obtain ⟨q, _, hq⟩ := hv.names z (by simp [hz])
      have := (List.getElem?_eq_some_iff.1 hq).1
      omega
  have e0 : (encode i header rest).take 4 = [84, 90, 105, 102] := by
    unfold encode
    simp only [List.append_assoc]
    rfl
  have e1 : (encode i header rest).drop 28 = (([((i.leaps.length / 2 : Nat) : Int), (i.times.length : Int), (i.zones.length : Int),
      (i.chars.length : Int)]).map encInt).flatten ++ ((i.times.map encInt).flatten ++ (i.types ++ ((i.zones.map encZone).flatten ++
      (i.chars ++ ((i.leaps.map encInt).flatten ++ rest))))) := by
    unfold encode
    simp only [List.append_assoc]
    rw [← List.append_assoc, List.drop_append_of_le_length (by simp [hh]; decide)]
    rw [List.drop_of_length_le (by simp [hh]; decide)]
    simp
  unfold parse
  rw [if_neg (by rw [e0]; simp), e1]
  have hi : ∀ x ∈ [((i.leaps.length / 2 : Nat) : Int), (i.times.length : Int), (i.zones.length : Int), (i.chars.length : Int)], Is32 x := by
    intro x hx
    simp only [List.mem_cons, List.not_mem_nil, or_false] at hx
    unfold Is32
    rcases hx with rfl | rfl | rfl | rfl <;> omega
  have := readInts_enc _ hi ((i.times.map encInt).flatten ++ (i.types ++ ((i.zones.map encZone).flatten ++
      (i.chars ++ ((i.leaps.map encInt).flatten ++ rest)))))
  rw [show (4 : Nat) = [((i.leaps.length / 2 : Nat) : Int), (i.times.length : Int), (i.zones.length : Int), (i.chars.length : Int)].length from rfl,
    this]
  simp only
  rw [if_neg (by omega), if_neg (by omega), if_neg (by omega), if_neg (by omega)]
  simp only [Int.toNat_natCast]
  unfold readTables
  rw [readInts_enc _ hv.times]
  simp only
  rw [← hv.types.1, readTypes_enc _ _ hv.types.2]
  simp only
  rw [readZones_enc _ (fun z hz => by
    obtain ⟨a, b, c, d⟩ := hv.zones z hz
    exact ⟨a, b, by unfold Is8; omega⟩)]
  simp only [List.take_left', List.drop_left', List.length_append]
  rw [if_neg (by omega)]
  have hall : i.zones.all (nameOk i.chars) = true := by
    rw [List.all_eq_true]
    intro z hz
    obtain ⟨q, h1, h2⟩ := hv.names z hz
    obtain ⟨_, _, h3, h4⟩ := hv.zones z hz
    have hlt := (List.getElem?_eq_some_iff.1 h2).1
    simp only [nameOk, Bool.and_eq_true, decide_eq_true_eq]
    refine ⟨⟨h3, by omega⟩, ?_⟩
    rw [List.mem_iff_getElem?]
    exact ⟨q - z.idx.toNat, by rw [List.getElem?_drop, Nat.add_sub_cancel' h1]; exact h2⟩
  rw [hall]
  simp only [Bool.true_eq_false, if_false]
  have e2 : 2 * (i.leaps.length / 2) = i.leaps.length := by omega
  rw [e2, readInts_enc _ hv.leaps]

/-! ### and back -/

theorem readInt_inv {s t : Str} {x : Int} (hb : ∀ b ∈ s, IsByte b) (h : readInt s = some (x, t)) : s = encInt x ++ t ∧ Is32 x := by
  unfold readInt at h
  split at h
  · rename_i a b c d t'
    simp only [Option.some.injEq, Prod.mk.injEq] at h
    obtain ⟨h1, rfl⟩ := h
    have ha : a < 256 := hb a (by simp)
    have hb' : b < 256 := hb b (by simp)
    have hc : c < 256 := hb c (by simp)
    have hd : d < 256 := hb d (by simp)
    have hn : ((a * 256 + b) * 256 + c) * 256 + d < 2 ^ 32 := by omega
    have e : (x % 2 ^ 32).toNat = ((a * 256 + b) * 256 + c) * 256 + d := by
      rw [← h1]
      split <;> omega
    refine ⟨?_, ?_⟩
    · simp only [encInt, e, List.cons_append, List.nil_append, List.cons.injEq, and_true]
      omega
    · rw [← h1]
      unfold Is32
      split <;> omega
  · cases h

theorem readInts_inv : ∀ (n : Nat) (s : Str) (l : List Int) (r : Str), (∀ b ∈ s, IsByte b) → readInts n s = some (l, r) →
    s = (l.map encInt).flatten ++ r ∧ ∀ x ∈ l, Is32 x
  | 0, s, l, r, _, h => by
    simp only [readInts, Option.some.injEq, Prod.mk.injEq] at h
    obtain ⟨rfl, rfl⟩ := h
    exact ⟨rfl, by simp⟩
  | n + 1, s, l, r, hb, h => by
    unfold readInts at h
    split at h
    · cases h
    · rename_i x s1 h1
      split at h
      · cases h
      · rename_i l' s' h2
        simp only [Option.some.injEq, Prod.mk.injEq] at h
        obtain ⟨rfl, rfl⟩ := h
        obtain ⟨e1, e2⟩ := readInt_inv hb h1
        obtain ⟨e3, e4⟩ := readInts_inv n s1 l' s' (fun b hx => hb b (by rw [e1]; simp [hx])) h2
        refine ⟨?_, ?_⟩
        · rw [e1, e3]; simp
        · intro y hy
          simp only [List.mem_cons] at hy
          rcases hy with rfl | hy
          · exact e2
          · exact e4 y hy

theorem readTypes_inv (c : Nat) : ∀ (n : Nat) (s l r : Str), readTypes c n s = some (l, r) → s = l ++ r
  | 0, s, l, r, h => by
    simp only [readTypes, Option.some.injEq, Prod.mk.injEq] at h
    obtain ⟨rfl, rfl⟩ := h
    rfl
  | n + 1, [], l, r, h => by simp [readTypes] at h
  | n + 1, b :: s, l, r, h => by
    unfold readTypes at h
    split at h
    · cases h
    · split at h
      · cases h
      · rename_i hb _ l' s' h2
        simp only [Option.some.injEq, Prod.mk.injEq] at h
        obtain ⟨rfl, rfl⟩ := h
        rw [readTypes_inv c n _ _ _ h2]
        rfl

theorem int8_inv (b : Nat) (h : IsByte b) : Is8 (int8 b) ∧ ((int8 b) % 256).toNat = b := by
  unfold IsByte at h
  unfold Is8 int8
  split <;> omega

theorem readZones_inv : ∀ (n : Nat) (s : Str) (l : List Zone) (r : Str), (∀ b ∈ s, IsByte b) → readZones n s = some (l, r) →
    s = (l.map encZone).flatten ++ r ∧ ∀ z ∈ l, Is32 z.offset ∧ Is8 z.dst ∧ Is8 z.idx
  | 0, s, l, r, _, h => by
    simp only [readZones, Option.some.injEq, Prod.mk.injEq] at h
    obtain ⟨rfl, rfl⟩ := h
    exact ⟨rfl, by simp⟩
  | n + 1, s, l, r, hb, h => by
    unfold readZones at h
    split at h
    · rename_i o d i s1 h1
      split at h
      · cases h
      · rename_i l' s' h2
        simp only [Option.some.injEq, Prod.mk.injEq] at h
        obtain ⟨rfl, rfl⟩ := h
        obtain ⟨e1, e2⟩ := readInt_inv hb h1
        obtain ⟨d1, d2⟩ := int8_inv d (hb d (by rw [e1]; simp))
        obtain ⟨i1, i2⟩ := int8_inv i (hb i (by rw [e1]; simp))
        obtain ⟨e3, e4⟩ := readZones_inv n s1 l' s' (fun b hx => hb b (by rw [e1]; simp [hx])) h2
        refine ⟨?_, ?_⟩
        · rw [e1, e3]
          simp only [List.map_cons, List.flatten_cons, encZone, d2, i2]
          simp
        · intro y hy
          simp only [List.mem_cons] at hy
          rcases hy with rfl | hy
          · exact ⟨e2, d1, i1⟩
          · exact e4 y hy
    · cases h

theorem readTables_inv {a b c d : Nat} {s : Str} {i : Info} (hb : ∀ x ∈ s, IsByte x) (h : readTables a b c d s = some i) :
    i.chars.length = d ∧ i.leaps.length = 2 * a ∧ (∀ x ∈ i.times, Is32 x) ∧ (∀ x ∈ i.leaps, Is32 x) ∧
      (∀ z ∈ i.zones, Is32 z.offset ∧ Is8 z.dst ∧ Is8 z.idx) ∧
      ∃ rest, s = (i.times.map encInt).flatten ++ (i.types ++ ((i.zones.map encZone).flatten ++ (i.chars ++ ((i.leaps.map encInt).flatten ++ rest)))) := by
  unfold readTables at h
  split at h
  · cases h
  · rename_i times s1 e1
    split at h
    · cases h
    · rename_i types s2 e2
      split at h
      · cases h
      · rename_i zones s3 e3
        split at h
        · cases h
        · rename_i hlen
          split at h
          · cases h
          · split at h
            · cases h
            · rename_i leaps rest e4
              simp only [Option.some.injEq] at h
              subst h
              obtain ⟨f1, g1⟩ := readInts_inv _ _ _ _ hb e1
              have hb1 : ∀ x ∈ s1, IsByte x := fun x hx => hb x (by rw [f1]; simp [hx])
              have f2 := readTypes_inv _ _ _ _ _ e2
              have hb2 : ∀ x ∈ s2, IsByte x := fun x hx => hb1 x (by rw [f2]; simp [hx])
              obtain ⟨f3, g3⟩ := readZones_inv _ _ _ _ hb2 e3
              have hb3 : ∀ x ∈ s3, IsByte x := fun x hx => hb2 x (by rw [f3]; simp [hx])
              obtain ⟨f4, g4⟩ := readInts_inv _ _ _ _ (fun x hx => hb3 x (List.mem_of_mem_drop hx)) e4
              refine ⟨by simp; omega, readInts_length _ _ _ _ e4, g1, g4, g3, rest, ?_⟩
              simp only
              rw [← f4, List.take_append_drop, ← f3, ← f2, ← f1]

/-- **C125** Only files in that format are accepted: a file that is accepted is exactly what the format makes of what was read, and
what was read is in the limits. -/
theorem C125_exact (file : Str) (hb : ∀ b ∈ file, IsByte b) (i : Info) (h : parse file = some i) :
    Valid i ∧ ∃ header rest : Str, header.length = 24 ∧ file = encode i header rest := by
  obtain ⟨p1, p2, p3, p4⟩ := C125_parse file i h
  obtain ⟨_, _, _, q4, _⟩ := parse_spec h
  unfold parse at h
  split at h
  · cases h
  · rename_i hm
    split at h
    · rename_i leapcnt timecnt typecnt charcnt s hr
      split at h
      · cases h
      · split at h
        · cases h
        · split at h
          · cases h
          · split at h
            · cases h
            · obtain ⟨f, g⟩ := readInts_inv _ _ _ _ (fun x hx => hb x (List.mem_of_mem_drop hx)) hr
              obtain ⟨t1, _, t3, _, _⟩ := readTables_spec h
              have hbs : ∀ x ∈ s, IsByte x := fun x hx => hb x (List.mem_of_mem_drop (by rw [f]; simp [hx]))
              obtain ⟨c1, c2, c3, c4, c5, rest, c6⟩ := readTables_inv hbs h
              refine ⟨⟨c3, c4, ⟨p1, q4⟩, fun z hz => ?_, fun z hz => (p4 z hz).2, by omega⟩, (file.drop 4).take 24, rest, ?_, ?_⟩
              · obtain ⟨z1, z2, z3⟩ := c5 z hz
                exact ⟨z1, z2, (p4 z hz).1, z3.2⟩
              · have : (file.drop 28).length ≥ 1 := by rw [f]; simp [encInt]
                simp only [List.length_drop] at this
                simp only [List.length_take, List.length_drop]
                omega
              · have e0 : file = bytesOf "TZif" ++ ((file.drop 4).take 24 ++ file.drop 28) := by
                  have h4 : file.take 4 = bytesOf "TZif" := by
                    simp only [ne_eq, Decidable.not_not] at hm
                    rw [hm]; decide
                  rw [← h4]
                  have : file.drop 28 = (file.drop 4).drop 24 := by rw [List.drop_drop]
                  rw [this, List.take_append_drop, List.take_append_drop]
                have h5 : ((i.leaps.length / 2 : Nat) : Int) = leapcnt := by omega
                have h6 : ((i.times.length : Nat) : Int) = timecnt := by omega
                have h7 : ((i.zones.length : Nat) : Int) = typecnt := by omega
                have h8 : ((i.chars.length : Nat) : Int) = charcnt := by omega
                unfold encode
                rw [h5, h6, h7, h8]
                conv_lhs => rw [e0, f, c6]
                simp
    · cases h

/-- **C125** The name of a zone is what stands in the file at its place, up to the NUL. -/
theorem C125_zone_name (pre name suf : Str) (z : Zone) (hz : z.idx = pre.length) (hn : 0 ∉ name) : zoneName (pre ++ (name ++ 0 :: suf)) z = name := by
  unfold zoneName
  rw [hz, Int.toNat_natCast, List.drop_left', List.takeWhile_append_of_pos (by intro x hx; simp; rintro rfl; exact hn hx)]
  · simp
  · rfl

/-! ### the name -/

/-- **C125** The name of the whole is that of the first zone that is not summer time.

Partial: there is one.  Missing: see `C125_name_violated`. -/
theorem C125_name_partial (i : Info) (a b : List Zone) (z : Zone) (hz : i.zones = a ++ z :: b) (ha : ∀ x ∈ a, x.dst ≠ 0)
    (hd : z.dst = 0) : infoName i = .ok (zoneName i.chars z) := by
  have : (i.zones.takeWhile fun z => z.dst ≠ 0) = a := by
    rw [hz, List.takeWhile_append_of_pos (by simpa using ha), List.takeWhile_cons_of_neg (by simp [hd])]
    simp
  unfold infoName
  rw [this, hz]
  simp

/-- **C125 violated** A file in which every zone is summer time is accepted, and asking for the name reads behind the zones. -/
theorem C125_name_violated (file : Str) (i : Info) (_h : parse file = some i) (hd : ∀ z ∈ i.zones, z.dst ≠ 0) :
    infoName i = .ub := by
  have : (i.zones.takeWhile fun z => z.dst ≠ 0) = i.zones := by
    have : ∀ l : List Zone, (∀ z ∈ l, z.dst ≠ 0) → (l.takeWhile fun z => z.dst ≠ 0) = l := by
      intro l hl
      have := List.takeWhile_append_of_pos (p := fun z : Zone => decide (z.dst ≠ 0)) (l₁ := l) (l₂ := []) (by simpa using hl)
      simpa using this
    exact this _ hd
  unfold infoName
  rw [this]
  simp

def summer : Info := ⟨[], [], [⟨3600, 1, 0⟩], [67, 0], []⟩

example : ∃ file, parse file = some summer ∧ (∀ z ∈ summer.zones, z.dst ≠ 0) := by
  refine ⟨encode summer (List.replicate 24 0) [], ?_, by decide⟩
  decide +kernel

/-! ## The zone at a time -/

theorem search_spec (tt : List Int) (t : Int) (P : Nat → Nat → Prop)
    (hP : ∀ l r, P l r → l < (l + r) / 2 → P l ((l + r) / 2 - 1) ∧ P ((l + r) / 2 + 1) r) :
    ∀ fuel l r, P l r → (1 ≤ l ∧ l ≤ r ∧ r ≤ tt.length) → (l = 1 ∨ ∃ x, tt[l - 1]? = some x ∧ x < t) →
      (r = tt.length ∨ ∃ x, tt[r + 1]? = some x ∧ t < x) → r - l < fuel →
    ∃ k, search tt t fuel l r = .ok k ∧
      ((2 ≤ k ∧ tt[k - 1]? = some t) ∨
       (∃ q, P k q ∧ (1 ≤ k ∧ k ≤ q ∧ q ≤ k + 1 ∧ q ≤ tt.length) ∧ (k = 1 ∨ ∃ x, tt[k - 1]? = some x ∧ x < t) ∧
          (q = tt.length ∨ ∃ x, tt[q + 1]? = some x ∧ t < x)))
  | 0, l, r, _, _, _, _, h => by omega
  | fuel + 1, l, r, hp, ho, hl, hr, hf => by
    unfold search
    simp only
    by_cases hi : (l + r) / 2 > l
    · rw [if_pos hi, if_neg (by omega)]
      have hlt : (l + r) / 2 < tt.length := by omega
      rw [List.getElem?_eq_getElem hlt]
      simp only
      obtain ⟨p1, p2⟩ := hP l r hp hi
      by_cases h1 : tt[(l + r) / 2] = t
      · rw [if_pos h1]
        refine ⟨_, rfl, Or.inl ⟨by omega, ?_⟩⟩
        simp only [Nat.add_sub_cancel]
        rw [List.getElem?_eq_getElem hlt, h1]
      · rw [if_neg h1]
        by_cases h2 : tt[(l + r) / 2] > t
        · rw [if_pos h2]
          apply search_spec tt t P hP fuel l _ p1 (by omega) hl _ (by omega)
          right
          refine ⟨_, ?_, h2⟩
          rw [Nat.sub_add_cancel (by omega)]
          exact List.getElem?_eq_getElem hlt
        · rw [if_neg h2]
          apply search_spec tt t P hP fuel _ r p2 (by omega) _ hr (by omega)
          right
          refine ⟨_, ?_, lt_of_le_of_ne (not_lt.1 h2) h1⟩
          simp only [Nat.add_sub_cancel]
          exact List.getElem?_eq_getElem hlt
    · rw [if_neg hi]
      have : (l + r) / 2 = l := by omega
      rw [this]
      exact ⟨l, rfl, Or.inr ⟨r, hp, by omega, hl, hr⟩⟩

/-- earlier transitions are earlier -/
def Ascending (tt : List Int) : Prop := ∀ (a b : Nat) (x y : Int), a < b → tt[a]? = some x → tt[b]? = some y → x < y

theorem finish {i : Info} {t x : Int} {k j : Nat} (h1 : i.types.length = i.times.length)
    (h3 : ∀ y ∈ i.types, y < i.zones.length) (hs : search i.times t (i.times.length + 1) 1 i.times.length = .ok k)
    (hn : i.times.length ≠ 0) (hk : k < i.times.length) (hx : i.times[k]? = some x) (hj : j = (if t > x then k + 1 else k) - 1) :
    ∃ z, zoneAt i t = .ok z ∧ ZoneOf i j z := by
  have hjlt : j < i.types.length := by
    rw [hj, h1]
    split <;> omega
  have hy := h3 _ (List.getElem_mem hjlt)
  refine ⟨i.zones[i.types[j]], ?_, i.types[j], List.getElem?_eq_getElem hjlt, List.getElem?_eq_getElem hy⟩
  unfold zoneAt
  simp only
  rw [if_neg hn, hs]
  simp only [Out.ok_bind]
  rw [Nat.min_eq_left (by omega), hx]
  simp only
  rw [← hj, List.getElem?_eq_getElem hjlt]
  simp only
  rw [List.getElem?_eq_getElem hy]

/-- **C124** A file with no transitions has its first zone always. -/
theorem C124_none (file : Str) (i : Info) (h : parse file = some i) (hn : i.times = []) (t : Int) :
    ∃ z, zoneAt i t = .ok z ∧ i.zones[0]? = some z := by
  obtain ⟨_, _, h2, _, _⟩ := parse_spec h
  refine ⟨i.zones[0], ?_, List.getElem?_eq_getElem _⟩
  unfold zoneAt
  rw [hn]
  simp [List.getElem?_eq_getElem (show 0 < i.zones.length by omega)]

theorem counts_pos {tt : List Int} {t : Int} {k j : Nat} {x : Int} (hc : Counts tt t k) (hx : tt[j]? = some x) (hlt : x < t) : j ≤ k := by
  rcases hc with ⟨_, h⟩ | ⟨_, h⟩
  · by_contra hj
    have := h j x (by omega) hx
    omega
  · have := h x (List.mem_of_getElem? hx)
    omega

theorem counts_neg {tt : List Int} {t : Int} {k j : Nat} {x : Int} (ha : Ascending tt) (hc : Counts tt t k) (hx : tt[j]? = some x)
    (hlt : t < x) (hj : 1 ≤ j) : k < j := by
  rcases hc with ⟨⟨y, hy, hyt⟩, _⟩ | ⟨h, _⟩
  · by_contra hjk
    rcases Nat.lt_or_ge j k with h | h
    · have := ha j k x y h hx hy
      omega
    · have : j = k := by omega
      subst this
      rw [hx] at hy
      cases hy
      omega
  · omega

theorem counts_lt {tt : List Int} {t : Int} {k : Nat} (hn : tt ≠ []) (hc : Counts tt t k) : k < tt.length := by
  rcases hc with ⟨⟨y, hy, _⟩, _⟩ | ⟨h, _⟩
  · exact (List.getElem?_eq_some_iff.1 hy).1
  · rw [h]; exact List.length_pos_iff.2 hn

/-- **C124** At every time but the transitions, the zone is that of the last transition before it (of the first one, before
all).

Partial: the number of transitions is 2, 4, 8, 16, ….  Missing: see `C124_wrong_violated`, `C124_last_violated`,
`C124_single_violated`, `C124_exact_violated`. -/
theorem C124_at_partial (file : Str) (i : Info) (h : parse file = some i) (ha : Ascending i.times) (m : Nat) (hm : 1 ≤ m)
    (hn : i.times.length = 2 ^ m) (t : Int) (ht : t ∉ i.times) (k : Nat) (hk : Counts i.times t k) :
    ∃ z, zoneAt i t = .ok z ∧ ZoneOf i k z := by
  obtain ⟨_, h1, h2, h3, _⟩ := parse_spec h
  have hpos : 2 ≤ i.times.length := by
    rw [hn]; exact Nat.pow_le_pow_right (n := 2) (i := 1) (by norm_num) hm
  obtain ⟨q, hs, hq⟩ := search_spec i.times t
    (fun l r => (r = i.times.length ∧ ∃ m, 1 ≤ m ∧ r + 1 = l + 2 ^ m) ∨ (r < i.times.length ∧ ∃ m, r + 2 = l + 2 ^ m))
    (by
      intro l r hp hi
      rcases hp with ⟨a, m, hm, e⟩ | ⟨a, m, e⟩
      · rcases m with _ | _ | m
        · omega
        · simp at e; omega
        · rw [Nat.pow_succ, Nat.pow_succ] at e
          have : 0 < 2 ^ m := Nat.two_pow_pos m
          refine ⟨Or.inr ⟨by omega, m + 1, by rw [Nat.pow_succ]; omega⟩, Or.inl ⟨a, m + 1, by omega, by rw [Nat.pow_succ]; omega⟩⟩
      · rcases m with _ | _ | m
        · simp at e; omega
        · simp at e; omega
        · rw [Nat.pow_succ, Nat.pow_succ] at e
          have : 0 < 2 ^ m := Nat.two_pow_pos m
          exact ⟨Or.inr ⟨by omega, m + 1, by rw [Nat.pow_succ]; omega⟩, Or.inr ⟨a, m + 1, by rw [Nat.pow_succ]; omega⟩⟩)
    (i.times.length + 1) 1 i.times.length (Or.inl ⟨rfl, m, hm, by omega⟩) (by omega) (Or.inl rfl) (Or.inl rfl) (by omega)
  rcases hq with ⟨_, hq⟩ | ⟨r, hp, ho, hl, hr⟩
  · exact absurd (List.mem_of_getElem? hq) ht
  · have hne : i.times ≠ [] := by intro h; rw [h] at hpos; simp at hpos
    have hkn := counts_lt hne hk
    have hqlt : q < i.times.length := by
      rcases hp with ⟨a, m, hm, e⟩ | ⟨a, m, e⟩
      · have : 2 ≤ 2 ^ m := Nat.pow_le_pow_right (n := 2) (i := 1) (by norm_num) hm
        omega
      · omega
    have hqk : q - 1 ≤ k := by
      rcases hl with hl | ⟨x, hx, hlt⟩
      · omega
      · exact counts_pos hk hx hlt
    have hkq : k ≤ q := by
      rcases hr with hr | ⟨x, hx, hlt⟩
      · omega
      · have := counts_neg ha hk hx hlt (by omega)
        rcases hp with ⟨a, m, hm, e⟩ | ⟨a, m, e⟩
        · omega
        · rcases m with _ | _ | m
          · simp at e; omega
          · simp at e; omega
          · rw [Nat.pow_succ, Nat.pow_succ] at e
            have : 0 < 2 ^ m := Nat.two_pow_pos m
            omega
    have hx := List.getElem?_eq_getElem hqlt
    refine finish h1 h3 hs (by omega) hqlt hx ?_
    have htx : i.times[q] ≠ t := fun e => ht (e ▸ List.getElem_mem hqlt)
    by_cases hgt : t > i.times[q]
    · rw [if_pos hgt]
      have := counts_pos hk hx hgt
      omega
    · rw [if_neg hgt]
      have := counts_neg ha hk hx (lt_of_le_of_ne (not_lt.1 hgt) (Ne.symm htx)) (by omega)
      omega

/-- **C124** Before the last transition, whatever their number, nothing is read out of bounds and the zone is the one in force
or the one in force before it.

Partial: it should be the one in force. -/
theorem C124_near_partial (file : Str) (i : Info) (h : parse file = some i) (ha : Ascending i.times) (hn : 2 ≤ i.times.length)
    (t x : Int) (hx : i.times[i.times.length - 1]? = some x) (ht : t < x) (k : Nat) (hk : Counts i.times t k) :
    ∃ z, zoneAt i t = .ok z ∧ (ZoneOf i k z ∨ (1 ≤ k ∧ ZoneOf i (k - 1) z)) := by
  obtain ⟨_, h1, h2, h3, _⟩ := parse_spec h
  obtain ⟨q, hs, hq⟩ := search_spec i.times t (fun _ _ => True) (fun _ _ _ _ => ⟨trivial, trivial⟩)
    (i.times.length + 1) 1 i.times.length trivial (by omega) (Or.inl rfl) (Or.inl rfl) (by omega)
  have hne : i.times ≠ [] := by intro h; rw [h] at hn; simp at hn
  have hkl := counts_neg ha hk hx ht (by omega)
  rcases hq with ⟨hq2, hq⟩ | ⟨r, _, ho, hl, hr⟩
  · have hqlt : q < i.times.length := by
      have h5 := (List.getElem?_eq_some_iff.1 hq).1
      by_contra hc
      have : q - 1 = i.times.length - 1 := by omega
      rw [this, hx] at hq
      cases hq
      omega
    have hx2 := List.getElem?_eq_getElem hqlt
    have hlt : t < i.times[q] := ha (q - 1) q t _ (by omega) hq hx2
    obtain ⟨z, hz, hzo⟩ := finish (j := q - 1) h1 h3 hs (by omega) hqlt hx2 (by rw [if_neg (by omega)])
    refine ⟨z, hz, Or.inl ?_⟩
    have e : k = q - 1 := by
      have a := counts_neg ha hk hx2 hlt (by omega)
      rcases hk with ⟨_, hk⟩ | ⟨_, hk⟩
      · by_contra hc
        have := hk (q - 1) t (by omega) hq
        omega
      · have := hk t (List.mem_of_getElem? hq)
        omega
    rw [e]; exact hzo
  · have hqk : q - 1 ≤ k := by
      rcases hl with hl | ⟨x, hx, hlt⟩
      · omega
      · exact counts_pos hk hx hlt
    have hqlt : q < i.times.length := by
      clear hl hr
      omega
    have hkq : k ≤ q + 1 := by
      rcases hr with hr | ⟨x, hx, hlt⟩
      · omega
      · have := counts_neg ha hk hx hlt (by omega)
        omega
    have hx2 := List.getElem?_eq_getElem hqlt
    obtain ⟨z, hz, hzo⟩ := finish h1 h3 hs (by omega) hqlt hx2 rfl
    refine ⟨z, hz, ?_⟩
    by_cases hgt : t > i.times[q]
    · rw [if_pos hgt] at hzo
      have := counts_pos hk hx2 hgt
      have e : k = q ∨ k = q + 1 := by omega
      rcases e with e | e
      · left; rw [e]; exact hzo
      · right; rw [e]; exact ⟨by omega, hzo⟩
    · rw [if_neg hgt] at hzo
      by_cases he : t = i.times[q]
      · -- exactly the transition
        have : k = q := by
          have hle : q ≤ k := by
            rcases hk with ⟨_, hk⟩ | ⟨_, hk⟩
            · by_contra hc
              have := hk q _ (by omega) hx2
              omega
            · have := hk _ (List.mem_of_getElem? hx2)
              omega
          by_contra hc
          rcases hk with ⟨⟨y, hy, hyt⟩, _⟩ | ⟨hk, _⟩
          · have := ha q k _ _ (by omega) hx2 hy
            omega
          · omega
        right; rw [this]; exact ⟨by omega, hzo⟩
      · have := counts_neg ha hk hx2 (lt_of_le_of_ne (not_lt.1 hgt) he) (by omega)
        left
        have : k = q - 1 := by omega
        rw [this]; exact hzo

/-- a zone with transitions at 10, 20, …, each to its own zone -/
def steps (n : Nat) : Info :=
  ⟨(List.range n).map fun k : Nat => 10 * (k : Int) + 10, List.range n, (List.range n).map fun k : Nat => ⟨60 * (k : Int), 0, 0⟩, [65, 0], []⟩

theorem steps_valid (n : Nat) (h1 : 1 ≤ n) (h2 : n ≤ 10240) : Valid (steps n) := by
  refine ⟨?_, by simp [steps], by simp [steps], ?_, ?_, by simp [steps]; omega⟩
  · intro x hx
    simp only [steps, List.mem_map, List.mem_range] at hx
    obtain ⟨k, hk, rfl⟩ := hx
    unfold Is32; omega
  · intro x hx
    simp only [steps, List.mem_map, List.mem_range] at hx
    obtain ⟨k, hk, rfl⟩ := hx
    unfold Is32 Is8
    refine ⟨?_, ?_, ?_, ?_⟩ <;> simp only <;> omega
  · intro x hx
    simp only [steps, List.mem_map, List.mem_range] at hx
    obtain ⟨k, hk, rfl⟩ := hx
    exact ⟨1, by simp, rfl⟩

theorem steps_ascending (n : Nat) : Ascending (steps n).times := by
  intro a b x y hab hx hy
  simp only [steps, List.getElem?_map, Option.map_eq_some_iff, List.getElem?_range', List.getElem?_eq_some_iff] at hx hy
  obtain ⟨k, ⟨hk1, hk2⟩, rfl⟩ := hx
  obtain ⟨l, ⟨hl1, hl2⟩, rfl⟩ := hy
  simp at hk2 hl2
  omega

theorem steps_parsed (n : Nat) (h1 : 1 ≤ n) (h2 : n ≤ 10240) : ∃ file, parse file = some (steps n) :=
  ⟨_, C125_roundtrip _ (steps_valid n h1 h2) (List.replicate 24 0) [] (by simp)⟩

example : ∃ z, zoneAt (steps 8) 45 = .ok z ∧ ZoneOf (steps 8) 3 z := by
  obtain ⟨file, hf⟩ := steps_parsed 8 (by norm_num) (by norm_num)
  refine C124_at_partial file _ hf (steps_ascending 8) 3 (by norm_num) rfl 45 (by decide) 3 (Or.inl ⟨⟨40, by decide, by norm_num⟩, ?_⟩)
  intro j x hj hx
  have hj8 := (List.getElem?_eq_some_iff.1 hx).1
  have := steps_ascending 8 3 j 40 x hj (by decide) hx
  have : j < 8 := by simpa [steps] using hj8
  interval_cases j <;> simp [steps] at hx <;> omega

/-- **C124 violated** With five transitions, at a time between the third and the fourth the zone of the second is given. -/
theorem C124_wrong_violated : (∃ file, parse file = some (steps 5)) ∧ InForce (steps 5).times 35 2 ∧
    zoneAt (steps 5) 35 = .ok ⟨60, 0, 0⟩ ∧ ¬ ZoneOf (steps 5) 2 ⟨60, 0, 0⟩ := by
  refine ⟨steps_parsed 5 (by norm_num) (by norm_num), ⟨⟨30, by decide, by norm_num⟩, ?_⟩, by decide +kernel, ?_⟩
  · intro j x hj hx
    have hj8 := (List.getElem?_eq_some_iff.1 hx).1
    have : j < 5 := by simpa [steps] using hj8
    interval_cases j <;> simp [steps] at hx <;> omega
  · rintro ⟨y, h1, h2⟩
    have : y = 2 := by simpa [steps] using h1.symm
    subst this
    revert h2
    decide

/-- **C124 violated** With three transitions, a time after the last one reads behind the transitions. -/
theorem C124_last_violated : (∃ file, parse file = some (steps 3)) ∧ zoneAt (steps 3) 100 = .ub :=
  ⟨steps_parsed 3 (by norm_num) (by norm_num), by decide +kernel⟩

/-- **C124 violated** With one transition, every time does. -/
theorem C124_single_violated (file : Str) (i : Info) (_h : parse file = some i) (hn : i.times.length = 1) (t : Int) :
    zoneAt i t = .ub := by
  unfold zoneAt
  simp only [hn]
  have hs : search i.times t (1 + 1) 1 1 = .ok 1 := by simp [search]
  rw [hs]
  have : i.times[1]? = none := List.getElem?_eq_none (by omega)
  simp [this]

/-- **C124 violated** At the very second of a transition the zone before it may be given. -/
theorem C124_exact_violated : (∃ file, parse file = some (steps 2)) ∧ InForce (steps 2).times 20 1 ∧
    zoneAt (steps 2) 20 = .ok ⟨0, 0, 0⟩ ∧ ¬ ZoneOf (steps 2) 1 ⟨0, 0, 0⟩ := by
  refine ⟨steps_parsed 2 (by norm_num) (by norm_num), ⟨⟨20, by decide, by norm_num⟩, ?_⟩, by decide +kernel, ?_⟩
  · intro j x hj hx
    have hj8 := (List.getElem?_eq_some_iff.1 hx).1
    have : j < 2 := by simpa [steps] using hj8
    omega
  · rintro ⟨y, h1, h2⟩
    have : y = 1 := by simpa [steps] using h1.symm
    subst this
    revert h2
    decide

/-! ## Formats -/

/-- `hhmm` with its sign -/
def hhmm (offset : Int) : Str :=
  let m := offset.natAbs / 60
  [if offset < 0 then 45 else 43, 48 + m / 60 / 10, 48 + m / 60 % 10, 48 + m % 60 / 10, 48 + m % 60 % 10]

/-- the format with `%Z` and `%z` replaced; `%%` stays -/
inductive Expands (name zone : Str) : Str → Str → Prop where
  | done : Expands name zone [] []
  | name {f g : Str} : Expands name zone f g → Expands name zone (37 :: 90 :: f) (name ++ g)
  | zone {f g : Str} : Expands name zone f g → Expands name zone (37 :: 122 :: f) (zone ++ g)
  | percent {f g : Str} : Expands name zone f g → Expands name zone (37 :: 37 :: f) (37 :: 37 :: g)
  | other {f g : Str} (h : ∀ c ∈ f.head?, c ≠ 90 ∧ c ≠ 122 ∧ c ≠ 37) : Expands name zone f g → Expands name zone (37 :: f) (37 :: g)
  | plain {c : Nat} {f g : Str} (h : c ≠ 37) : Expands name zone f g → Expands name zone (c :: f) (c :: g)

theorem two_spec (n : Nat) (h : n < 100) : two n = [48 + n / 10, 48 + n % 10] := by
  have : ∀ n : Fin 100, two n = [48 + n.val / 10, 48 + n.val % 10] := by decide +kernel
  exact this ⟨n, h⟩

/-- **C126** `%z` is the offset as hours and minutes, with its sign, two digits each.  Partial: below 100 hours. -/
theorem C126_offset_partial (offset : Int) (h1 : -360000 < offset) (h2 : offset < 360000) : zoneText offset = .ok (hhmm offset) := by
  unfold zoneText hhmm
  rw [if_neg (by omega)]
  have e1 : offset.natAbs / 3600 = offset.natAbs / 60 / 60 := by omega
  have e2 : (offset.natAbs - 3600 * (offset.natAbs / 3600)) / 60 = offset.natAbs / 60 % 60 := by omega
  rw [two_spec _ (by omega), two_spec _ (by omega), e2, e1]
  by_cases h : offset ≥ 0
  · rw [if_pos h, if_neg (by omega)]; rfl
  · rw [if_neg h, if_pos (by omega)]; rfl

example : zoneText (-12600) = .ok (bytesOf "-0330") := by decide +kernel

/-- **C126 violated** An offset of -2^31, which a file can have, is negated. -/
theorem C126_offset_violated : zoneText (-(2 ^ 31)) = .ub := by decide +kernel

/-- how much has been stored -/
def Fits (p : Str) (out : Nat) : Prop := (out < 2047 → p.length = out) ∧ (2047 ≤ out → 2047 ≤ p.length)

theorem take_cut (p s g : Str) (h : p.length ≤ 2047) : (p ++ s.take (2047 - p.length) ++ g).take 2047 = (p ++ (s ++ g)).take 2047 := by
  by_cases hs : s.length ≤ 2047 - p.length
  · rw [List.take_of_length_le hs, List.append_assoc]
  · rw [List.append_assoc, List.take_append, List.take_append, List.take_append, List.take_append, List.take_take]
    simp only [List.length_take]
    have e1 : 2047 - p.length - min (2047 - p.length) s.length = 0 := by omega
    have e2 : 2047 - p.length - s.length = 0 := by omega
    rw [e1, e2, Nat.min_self]

theorem expand_spec (name : Str) (offset : Int) (z : Str) (hz : zoneText offset = .ok z) {f g : Str} (h : Expands name z f g) :
    ∀ (p : Str) (out : Nat), Fits p out →
    ∃ p' out', expand name offset f p out = .ok (p', out') ∧ p'.take (min out' 2047) = (p ++ g).take 2047 := by
  have stop : ∀ (c : Nat) (f g p : Str) (out : Nat), Fits p out → ¬ out < 2047 →
      ∃ p' out', expand name offset (c :: f) p out = .ok (p', out') ∧ p'.take (min out' 2047) = (p ++ g).take 2047 := by
    intro c f g p out hf ho
    refine ⟨p, out, by unfold expand; rw [if_neg ho], ?_⟩
    have := hf.2 (by omega)
    rw [Nat.min_eq_right (by omega), List.take_append_of_le_length this]
  have cutfit : ∀ (p s : Str) (out : Nat), p.length = out → out < 2047 → Fits (p ++ printed out s) (out + s.length) := by
    intro p s out hp ho
    unfold Fits printed
    simp only [List.length_append, List.length_take]
    omega
  induction h with
  | done =>
    intro p out hf
    refine ⟨p, out, rfl, ?_⟩
    rw [List.append_nil]
    by_cases ho : out < 2047
    · have := hf.1 ho
      rw [List.take_of_length_le (by omega), List.take_of_length_le (by omega)]
    · rw [Nat.min_eq_right (by omega)]
  | @name f g _ ih =>
    intro p out hf
    by_cases ho : out < 2047
    · have hp := hf.1 ho
      obtain ⟨p', o', h1, h2⟩ := ih (p ++ printed out name) (out + name.length) (cutfit p name out hp ho)
      refine ⟨p', o', by unfold expand; rw [if_pos ho, if_pos rfl]; exact h1, ?_⟩
      rw [h2, printed, ← hp, Nat.sub_right_comm]
      exact take_cut p name g (by omega)
    · exact stop _ _ _ _ _ hf ho
  | @zone f g _ ih =>
    intro p out hf
    by_cases ho : out < 2047
    · have hp := hf.1 ho
      obtain ⟨p', o', h1, h2⟩ := ih (p ++ printed out z) (out + z.length) (cutfit p z out hp ho)
      refine ⟨p', o', by unfold expand; rw [if_pos ho, if_pos rfl]; simp only [hz, Out.ok_bind]; exact h1, ?_⟩
      rw [h2, printed, ← hp, Nat.sub_right_comm]
      exact take_cut p z g (by omega)
    · exact stop _ _ _ _ _ hf ho
  | @percent f g _ ih =>
    intro p out hf
    by_cases ho : out < 2047
    · have hp := hf.1 ho
      obtain ⟨p', o', h1, h2⟩ := ih (p ++ [37, 37]) (out + 2) (by unfold Fits; simp only [List.length_append, List.length_cons, List.length_nil]; omega)
      refine ⟨p', o', by unfold expand; rw [if_pos ho, if_pos rfl]; simp only; rw [if_pos (by omega)]; exact h1, ?_⟩
      rw [h2, List.append_assoc]; rfl
    · exact stop _ _ _ _ _ hf ho
  | @other f g hc _ ih =>
    intro p out hf
    by_cases ho : out < 2047
    · have hp := hf.1 ho
      obtain ⟨p', o', h1, h2⟩ := ih (p ++ [37]) (out + 1) (by unfold Fits; simp only [List.length_append, List.length_cons, List.length_nil]; omega)
      refine ⟨p', o', ?_, ?_⟩
      · unfold expand
        rw [if_pos ho, if_pos rfl]
        split
        · simp at hc
        · simp at hc
        · simp at hc
        · exact h1
      · rw [h2, List.append_assoc]; rfl
    · exact stop _ _ _ _ _ hf ho
  | @plain c f g hc _ ih =>
    intro p out hf
    by_cases ho : out < 2047
    · have hp := hf.1 ho
      obtain ⟨p', o', h1, h2⟩ := ih (p ++ [c]) (out + 1) (by unfold Fits; simp only [List.length_append, List.length_cons, List.length_nil]; omega)
      refine ⟨p', o', by unfold expand; rw [if_pos ho, if_neg hc]; exact h1, ?_⟩
      rw [h2, List.append_assoc]; rfl
    · exact stop _ _ _ _ _ hf ho

/-- every format has an expansion -/
theorem expands_exists (name zone : Str) : ∀ (n : Nat) (f : Str), f.length ≤ n → ∃ g, Expands name zone f g
  | _, [], _ => ⟨[], .done⟩
  | 0, _ :: _, h => by simp at h
  | n + 1, c :: f, h => by
    simp only [List.length_cons] at h
    by_cases hc : c = 37
    · subst hc
      cases f with
      | nil =>
        exact ⟨[37], .other (by simp) .done⟩
      | cons d f =>
        simp only [List.length_cons] at h
        obtain ⟨g, hg⟩ := expands_exists name zone n f (by omega)
        obtain ⟨g2, hg2⟩ := expands_exists name zone n (d :: f) (by simp only [List.length_cons]; omega)
        by_cases h1 : d = 90
        · subst h1; exact ⟨_, .name hg⟩
        · by_cases h2 : d = 122
          · subst h2; exact ⟨_, .zone hg⟩
          · by_cases h3 : d = 37
            · subst h3; exact ⟨_, .percent hg⟩
            · exact ⟨_, .other (by simp [h1, h2, h3]) hg2⟩
    · obtain ⟨g, hg⟩ := expands_exists name zone n f (by omega)
      exact ⟨_, .plain hc hg⟩

/-- **C126** For every format, name and offset, nothing is stored outside the buffer, and `strftime` gets a format of at most
2047 bytes.  Partial: the offset is not -2^31. -/
theorem C126_safe_partial (fmt name : Str) (offset : Int) (h : offset ≠ -(2 ^ 31)) :
    ∃ g, format fmt name offset = .ok g ∧ g.length ≤ 2047 := by
  have hz : ∃ z, zoneText offset = .ok z := by unfold zoneText; rw [if_neg h]; exact ⟨_, rfl⟩
  obtain ⟨z, hz⟩ := hz
  obtain ⟨g, hg⟩ := expands_exists name z _ fmt (Nat.le_refl _)
  obtain ⟨p, o, h1, h2⟩ := expand_spec name offset z hz hg [] 0 ⟨fun _ => rfl, fun h => by omega⟩
  refine ⟨p.take (min o 2047), by unfold format; rw [h1]; rfl, by simp only [List.length_take]; omega⟩

/-- **C126** It is the format with `%Z` replaced by the name and `%z` by the offset, everywhere and nothing else.

Partial: with the replacements it has at most 2047 bytes.  Missing: what is longer is cut off. -/
theorem C126_format_partial (fmt name : Str) (offset : Int) (h1 : -360000 < offset) (h2 : offset < 360000) (g : Str)
    (hg : Expands name (hhmm offset) fmt g) (hl : g.length ≤ 2047) : format fmt name offset = .ok g := by
  obtain ⟨p, o, e1, e2⟩ := expand_spec name offset _ (C126_offset_partial offset h1 h2) hg [] 0 ⟨fun _ => rfl, fun h => by omega⟩
  unfold format
  rw [e1]
  show Out.ok (p.take (min o 2047)) = .ok g
  rw [e2, List.nil_append, List.take_of_length_le hl]

/-- the format `%H%z %Z%%` -/
example : Expands (bytesOf "CET") (hhmm 3600) (bytesOf "%H%z %Z%%") (bytesOf "%H+0100 CET%%") := by
  refine .other (by decide) (.plain (by decide) (.zone (g := bytesOf " CET%%") (.plain (by decide) ?_)))
  exact .name (g := bytesOf "%%") (.percent .done)

/-- **C126 violated** A longer one is cut off without notice. -/
theorem C126_long_violated (c : Nat) (h : c ≠ 37) (h0 : c ≠ 0) :
    ∃ fmt g, Expands [65] (hhmm 0) fmt g ∧ (∀ x ∈ fmt, x ≠ 0) ∧ format fmt [65] 0 = .ok (g.take 2047) ∧ g.length = 3000 := by
  have : ∀ n, Expands [65] (hhmm 0) (List.replicate n c) (List.replicate n c) := by
    intro n
    induction n with
    | zero => exact .done
    | succ n ih => exact .plain h ih
  refine ⟨_, _, this 3000, fun x hx => by rw [List.eq_of_mem_replicate hx]; exact h0, ?_, List.length_replicate⟩
  obtain ⟨p, o, e1, e2⟩ := expand_spec [65] 0 _ (C126_offset_partial 0 (by norm_num) (by norm_num)) (this 3000) [] 0
    ⟨fun _ => rfl, fun h => by omega⟩
  unfold format
  rw [e1]
  show Out.ok (p.take (min o 2047)) = _
  rw [e2, List.nil_append]

end Mtev.Tzinfo
