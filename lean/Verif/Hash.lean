import Verif.Mem
import Mathlib.Data.List.Nodup
import Mathlib.Data.List.Perm.Basic

/-!
Model of the hash table, /repo/src/utils/mtev_hash.c and mtev_hash.h.

`ck_hs` (Concurrency Kit, not part of the repository) is taken by its contract: a collection of
object pointers searched with the comparison callback `hs_compare`.  The callback, the key objects
it reads, and everything mtev does around `ck_hs` are modelled.  Calls are atomic: the lock modes
and lock-free readers are not modelled.
-/

namespace Mtev.Hash

/-- A `uint32_t` in memory (little endian). -/
def le32 (n : Nat) : List Nat := [n % 256, n / 256 % 256, n / 65536 % 256, n / 16777216 % 256]
def unle32 : List Nat → Nat
  | [a, b, c, d] => a + 256 * b + 65536 * c + 16777216 * d
  | _ => 0

/-- Filling in a `ck_key_t` (mtev_hash.h:95-98): label, terminator, length field;
mtev_hash.c:296-298, 336-338, 388-390, 442-444.  `buf` starts at the length field. -/
def fillKey (buf : Block) (k : List Nat) : Out Block := do
  let b ← buf.write 4 k
  let b ← b.write (4 + k.length) [0]
  b.write 0 (le32 ((k.length + 4) % 2 ^ 32))

/-- The key inside the attribute object allocated by `mtev_hash_store`/`_set`
(mtev_hash.c:293,333): `sizeof(ck_hash_attr_t)` is 24 and the key starts at offset 16. -/
def attrKey (k : List Nat) : Out Block := fillKey (calloc (24 + k.length + 1 - 16)) k

/-- The search key built by `mtev_hash_retrieve`/`_delete` (mtev_hash.c:373-390,428-444):
on the stack below `ONSTACK_KEY_SIZE` = 128 (contents arbitrary), else from `calloc`. -/
def searchKey (junk : Nat → Nat) (k : List Nat) : Out Block :=
  if k.length ≥ 128 then fillKey (calloc (8 + k.length + 1)) k
  else fillKey (malloc junk (4 + 128)) k

/-- `hs_compare`, mtev_hash.c:65-76. -/
def hsCompare (prev cur : Block) : Out Bool := do
  let lp ← prev.read 0 4
  let lc ← cur.read 0 4
  if unle32 lp = unle32 lc then do
    let a ← prev.read 0 (unle32 lp)
    let b ← cur.read 0 (unle32 lp)
    pure (decide (a = b))
  else pure false

/-- `ck_hash_attr_t`, mtev_hash.h:100-104, with an allocation number. -/
structure Attr where
  id : Nat
  key : Block
  keyPtr : Nat
  data : Nat
deriving DecidableEq, Repr

/-- Calls of the caller's free functions. -/
inductive Cb where
  | key (p : Nat)
  | data (p : Nat)
deriving DecidableEq, Repr

/-- The table: objects in the `ck_hs`, next allocation number, objects freed so far. -/
structure Tbl where
  ents : List Attr
  next : Nat
  freed : List Nat
deriving DecidableEq, Repr

def Tbl.empty : Tbl := ⟨[], 0, []⟩

/-- Contract of `ck_hs_get`: the object that compares equal. -/
def hsGet : List Attr → Block → Out (Option Attr)
  | [], _ => pure none
  | e :: rest, k => do
    let eq ← hsCompare e.key k
    if eq then pure (some e) else hsGet rest k

/-- Contract of `ck_hs_put`: add unless an equal object is present. -/
def hsPut (l : List Attr) (a : Attr) : Out (Bool × List Attr) := do
  match ← hsGet l a.key with
  | some _ => pure (false, l)
  | none => pure (true, l ++ [a])

/-- Contract of `ck_hs_set`: add, displacing an equal object. -/
def hsSet (l : List Attr) (a : Attr) : Out (Option Attr × List Attr) := do
  match ← hsGet l a.key with
  | some o => pure (some o, l.map fun e => if e.id = o.id then a else e)
  | none => pure (none, l ++ [a])

/-- Contract of `ck_hs_remove`. -/
def hsRemove (l : List Attr) (k : Block) : Out (Option Attr × List Attr) := do
  match ← hsGet l k with
  | some o => pure (some o, l.filter fun e => e.id ≠ o.id)
  | none => pure (none, l)

/-- `mtev_hash_store`, mtev_hash.c:279-313. -/
def store (t : Tbl) (k : List Nat) (kp d : Nat) : Out (Tbl × Bool) := do
  let key ← attrKey k
  let a : Attr := ⟨t.next, key, kp, d⟩
  let (ok, l) ← hsPut t.ents a
  if ok then pure (⟨l, t.next + 1, t.freed⟩, true)
  else pure (⟨l, t.next + 1, t.freed ++ [a.id]⟩, false)

/-- `mtev_hash_set`, mtev_hash.c:315-368; also returns the old key pointer and data. -/
def set (t : Tbl) (k : List Nat) (kp d : Nat) : Out (Tbl × Option (Nat × Nat)) := do
  let key ← attrKey k
  let a : Attr := ⟨t.next, key, kp, d⟩
  match ← hsSet t.ents a with
  | (some o, l) => pure (⟨l, t.next + 1, t.freed ++ [o.id]⟩, some (o.keyPtr, o.data))
  | (none, l) => pure (⟨l, t.next + 1, t.freed⟩, none)

/-- The optional callbacks on one pair. -/
def cbs (kf df : Bool) (kp d : Nat) : List Cb :=
  (if kf then [Cb.key kp] else []) ++ (if df then [Cb.data d] else [])

/-- `mtev_hash_replace`, mtev_hash.c:267-277; `true` is `MTEV_HASH_SUCCESS_REPLACEMENT`. -/
def replace (t : Tbl) (k : List Nat) (kp d : Nat) (kf df : Bool) : Out (Tbl × Bool × List Cb) := do
  match ← set t k kp d with
  | (t, some (okp, od)) => pure (t, true, cbs kf df okp od)
  | (t, none) => pure (t, false, [])

/-- `mtev_hash_retrieve`, mtev_hash.c:370-408. -/
def retrieve (junk : Nat → Nat) (t : Tbl) (k : List Nat) : Out (Option Nat) := do
  let key ← searchKey junk k
  match ← hsGet t.ents key with
  | some a => pure (some a.data)
  | none => pure none

/-- `mtev_hash_delete`, mtev_hash.c:423-465. -/
def delete (junk : Nat → Nat) (t : Tbl) (k : List Nat) (kf df : Bool) :
    Out (Tbl × Bool × List Cb) := do
  let key ← searchKey junk k
  match ← hsRemove t.ents key with
  | (some o, l) => pure (⟨l, t.next, t.freed ++ [o.id]⟩, true, cbs kf df o.keyPtr o.data)
  | (none, _) => pure (t, false, [])

/-- `mtev_hash_size`, mtev_hash.c:258-265 (`ck_hs_count`). -/
def size (t : Tbl) : Nat := t.ents.length

/-- A complete iteration with `mtev_hash_adv`, mtev_hash.c:525-555, over an unchanging table:
key bytes (taken from the object's own copy), key pointer and data of each pair. -/
def iterate (t : Tbl) : List (List Nat × Nat × Nat) :=
  t.ents.map fun e => ((e.key.drop 4).take (unle32 (e.key.take 4) - 4), e.keyPtr, e.data)

/-- `mtev_hash_delete_all`, mtev_hash.c:467-495. -/
def deleteAll (t : Tbl) (kf df : Bool) : Tbl × List Cb :=
  (⟨[], t.next, t.freed ++ t.ents.map Attr.id⟩, t.ents.flatMap fun e => cbs kf df e.keyPtr e.data)

/-- `strdup` of the C string in the memory `mem`: undefined behaviour when no NUL is found. -/
def strdup (mem : Block) : Out Block :=
  if 0 ∈ mem then .ok (mem.takeWhile (· ≠ 0) ++ [0]) else .ub

/-- One turn of `mtev_hash_merge_as_dict`, mtev_hash.c:515-518.  `kmem` is the memory at the source
key pointer, `klen` the iterated key length, `kp`/`d` the fresh pointers of the copies. -/
def mergeStep (t : Tbl) (kmem : Block) (klen kp d : Nat) : Out (Tbl × List Cb) := do
  let copy ← strdup kmem
  let k ← copy.read 0 klen
  let (t, _, c) ← replace t k kp d true true
  pure (t, c)

/-! ### Lemmas -/

theorem unle32_le32 {n : Nat} (h : n < 2 ^ 32) : unle32 (le32 n) = n := by
  simp only [le32, unle32]; omega

/-- Key objects as built: length, label, and whatever follows. -/
def IsKey (b : Block) (k : List Nat) : Prop :=
  k.length + 4 < 2 ^ 32 ∧ ∃ tail, b = le32 (k.length + 4) ++ (k ++ tail)

theorem fillKey_spec {buf : Block} {k : List Nat} (hk : k.length + 4 < 2 ^ 32)
    (hb : k.length + 5 ≤ buf.length) : ∃ b, fillKey buf k = .ok b ∧ IsKey b k := by
  obtain ⟨b1, e1, l1, t1, -, -⟩ := Block.write_spec buf 4 k (by omega)
  obtain ⟨b2, e2, l2, t2, p2, -⟩ := Block.write_spec b1 (4 + k.length) [0] (by simp; omega)
  obtain ⟨b3, e3, l3, t3, -, d3⟩ := Block.write_spec b2 0 (le32 ((k.length + 4) % 2 ^ 32))
    (by simp [le32]; omega)
  refine ⟨b3, ?_, hk, b3.drop (4 + k.length), ?_⟩
  · unfold fillKey
    rw [e1, Out.ok_bind, e2, Out.ok_bind, e3]
  · have hl4 : (le32 ((k.length + 4) % 2 ^ 32)).length = 4 := rfl
    rw [hl4, Nat.zero_add] at t3 d3
    simp only [List.take_zero, List.nil_append] at t3
    have h1 : b3.take 4 = le32 (k.length + 4) := by
      rw [t3, Nat.mod_eq_of_lt hk]
    have h2 : (b3.drop 4).take k.length = k := by
      rw [d3, List.take_drop, p2, t1, List.drop_append_of_le_length (by simp; omega)]
      rw [List.drop_of_length_le (by simp)]
      rfl
    calc b3 = b3.take 4 ++ b3.drop 4 := (List.take_append_drop 4 b3).symm
      _ = le32 (k.length + 4) ++ ((b3.drop 4).take k.length ++ (b3.drop 4).drop k.length) := by
          rw [h1, List.take_append_drop]
      _ = _ := by rw [h2, List.drop_drop]

theorem attrKey_spec {k : List Nat} (hk : k.length + 4 < 2 ^ 32) :
    ∃ b, attrKey k = .ok b ∧ IsKey b k :=
  fillKey_spec hk (by simp; omega)

theorem searchKey_spec (junk : Nat → Nat) {k : List Nat} (hk : k.length + 4 < 2 ^ 32) :
    ∃ b, searchKey junk k = .ok b ∧ IsKey b k := by
  unfold searchKey
  split
  · exact fillKey_spec hk (by simp; omega)
  · exact fillKey_spec hk (by simp; omega)

theorem IsKey.read4 {b : Block} {k : List Nat} (h : IsKey b k) :
    b.read 0 4 = .ok (le32 (k.length + 4)) := by
  obtain ⟨hl, tail, rfl⟩ := h
  rw [Block.read_ok (by simp [le32])]
  simp [le32]

theorem IsKey.readAll {b : Block} {k : List Nat} (h : IsKey b k) :
    b.read 0 (k.length + 4) = .ok (le32 (k.length + 4) ++ k) := by
  obtain ⟨hl, tail, rfl⟩ := h
  rw [Block.read_ok (by simp [le32])]
  rw [List.drop_zero, ← List.append_assoc, List.take_append_of_le_length (by simp [le32])]
  rw [List.take_of_length_le (by simp [le32])]

theorem hsCompare_spec {a b : Block} {k k' : List Nat} (ha : IsKey a k) (hb : IsKey b k') :
    hsCompare a b = .ok (decide (k = k')) := by
  unfold hsCompare
  rw [ha.read4, Out.ok_bind, hb.read4, Out.ok_bind, unle32_le32 ha.1, unle32_le32 hb.1]
  split
  · rename_i e
    rw [ha.readAll, Out.ok_bind, e, hb.readAll, Out.ok_bind]
    have e' : k.length = k'.length := by omega
    by_cases hk : k = k'
    · subst hk; simp
    · have : ¬ le32 (k'.length + 4) ++ k = le32 (k'.length + 4) ++ k' := by
        intro h; exact hk (List.append_cancel_left h)
      simp [hk]
  · rename_i e
    have : k ≠ k' := by rintro rfl; exact e rfl
    simp [this]

/-- The bytes of the key held by an object. -/
def keyOf (a : Attr) : List Nat := (a.key.drop 4).take (unle32 (a.key.take 4) - 4)

theorem keyOf_eq {a : Attr} {k : List Nat} (h : IsKey a.key k) : keyOf a = k := by
  obtain ⟨hl, tail, e⟩ := h
  unfold keyOf
  rw [e]
  have h1 : (le32 (k.length + 4) ++ (k ++ tail)).take 4 = le32 (k.length + 4) := by simp [le32]
  have h2 : (le32 (k.length + 4) ++ (k ++ tail)).drop 4 = k ++ tail := by simp [le32]
  rw [h1, h2, unle32_le32 hl]
  simp

/-- Well-formed tables: every object holds a key, keys and object numbers are distinct, every
object ever allocated is either in the table or was freed exactly once. -/
structure WF (t : Tbl) : Prop where
  keys : ∀ a ∈ t.ents, IsKey a.key (keyOf a)
  distinct : (t.ents.map keyOf).Nodup
  ids : (t.ents.map Attr.id ++ t.freed).Perm (List.range t.next)

theorem WF.empty : WF Tbl.empty := ⟨by simp [Tbl.empty], by simp [Tbl.empty], by simp [Tbl.empty]⟩

/-- The pair stored under a key. -/
def lookup (t : Tbl) (k : List Nat) : Option (Nat × Nat) :=
  (t.ents.find? fun a => keyOf a = k).map fun a => (a.keyPtr, a.data)

theorem hsGet_spec {l : List Attr} {b : Block} {k : List Nat}
    (hl : ∀ a ∈ l, IsKey a.key (keyOf a)) (hb : IsKey b k) :
    hsGet l b = .ok (l.find? fun a => keyOf a = k) := by
  induction l with
  | nil => rfl
  | cons e rest ih =>
    rw [hsGet, hsCompare_spec (hl e (by simp)) hb, Out.ok_bind]
    by_cases h : keyOf e = k
    · simp [h]
    · rw [ih (fun a ha => hl a (by simp [ha]))]
      simp [h]

theorem find?_some_mem {l : List Attr} {k : List Nat} {a : Attr}
    (h : l.find? (fun a => keyOf a = k) = some a) : a ∈ l ∧ keyOf a = k := by
  refine ⟨List.mem_of_find?_eq_some h, ?_⟩
  have := List.find?_some h
  simpa using this

theorem find?_eq_of_mem {l : List Attr} {k : List Nat} {a : Attr} (hd : (l.map keyOf).Nodup)
    (ha : a ∈ l) (hk : keyOf a = k) : l.find? (fun a => keyOf a = k) = some a := by
  cases h : l.find? (fun a => keyOf a = k) with
  | none =>
    rw [List.find?_eq_none] at h
    exact absurd (by simpa using hk) (h a ha)
  | some b =>
    obtain ⟨hb, hbk⟩ := find?_some_mem h
    have := List.inj_on_of_nodup_map hd hb ha (by rw [hbk, hk])
    rw [this]

theorem find?_none {l : List Attr} {k : List Nat} (h : l.find? (fun a => keyOf a = k) = none) :
    ∀ a ∈ l, keyOf a ≠ k := by
  intro a ha hk
  rw [List.find?_eq_none] at h
  exact h a ha (by simpa using hk)

theorem lookup_some_iff {t : Tbl} (hd : (t.ents.map keyOf).Nodup) {k : List Nat} {p : Nat × Nat} :
    lookup t k = some p ↔ ∃ a ∈ t.ents, keyOf a = k ∧ (a.keyPtr, a.data) = p := by
  unfold lookup
  constructor
  · intro h
    rw [Option.map_eq_some_iff] at h
    obtain ⟨a, ha, e⟩ := h
    obtain ⟨h1, h2⟩ := find?_some_mem ha
    exact ⟨a, h1, h2, e⟩
  · rintro ⟨a, h1, h2, e⟩
    rw [find?_eq_of_mem hd h1 h2, Option.map_some, e]

theorem option_ext {α : Type} {a b : Option α} (h : ∀ x, a = some x ↔ b = some x) : a = b := by
  cases a with
  | none => cases b with
    | none => rfl
    | some y => exact absurd ((h y).mpr rfl) (by simp)
  | some x => exact ((h x).mp rfl).symm

theorem ids_inj {t : Tbl} (h : WF t) {a b : Attr} (ha : a ∈ t.ents) (hb : b ∈ t.ents)
    (e : a.id = b.id) : a = b := by
  have hn : (t.ents.map Attr.id ++ t.freed).Nodup := h.ids.nodup_iff.mpr List.nodup_range
  exact List.inj_on_of_nodup_map (List.nodup_append.mp hn).1 ha hb e

theorem id_lt {t : Tbl} (h : WF t) {a : Attr} (ha : a ∈ t.ents) : a.id < t.next := by
  have : a.id ∈ t.ents.map Attr.id ++ t.freed := by
    rw [List.mem_append]; exact Or.inl (List.mem_map.mpr ⟨a, ha, rfl⟩)
  have := h.ids.mem_iff.mp this
  simpa using this

/-- Appending a fresh object under an absent key. -/
theorem WF.append {t : Tbl} (h : WF t) {a : Attr} {k : List Nat} (hk : IsKey a.key k)
    (hid : a.id = t.next) (hn : t.ents.find? (fun a => keyOf a = k) = none) :
    WF ⟨t.ents ++ [a], t.next + 1, t.freed⟩ ∧
    ∀ k', lookup ⟨t.ents ++ [a], t.next + 1, t.freed⟩ k' =
      if k' = k then some (a.keyPtr, a.data) else lookup t k' := by
  have hka := keyOf_eq hk
  have hwf : WF ⟨t.ents ++ [a], t.next + 1, t.freed⟩ := by
    refine ⟨?_, ?_, ?_⟩
    · intro b hb
      rw [List.mem_append, List.mem_singleton] at hb
      rcases hb with hb | rfl
      · exact h.keys b hb
      · rw [hka]; exact hk
    · simp only [List.map_append, List.map_cons, List.map_nil]
      rw [List.nodup_append]
      refine ⟨h.distinct, by simp, ?_⟩
      intro x hx y hy
      rw [List.mem_singleton] at hy
      subst hy
      rw [List.mem_map] at hx
      obtain ⟨b, hb, rfl⟩ := hx
      rw [hka]
      exact find?_none hn b hb
    · simp only [List.map_append, List.map_cons, List.map_nil, hid]
      rw [List.range_succ]
      have h1 : (t.ents.map Attr.id ++ [t.next] ++ t.freed).Perm
          ((t.ents.map Attr.id ++ t.freed) ++ [t.next]) := by
        rw [List.append_assoc, List.append_assoc]
        exact List.Perm.append_left _ List.perm_append_comm
      exact h1.trans (h.ids.append_right _)
  refine ⟨hwf, fun k' => ?_⟩
  apply option_ext
  intro p
  rw [lookup_some_iff hwf.distinct]
  split
  · rename_i e
    subst e
    constructor
    · rintro ⟨b, hb, hbk, e⟩
      rw [List.mem_append, List.mem_singleton] at hb
      rcases hb with hb | rfl
      · exact absurd hbk (find?_none hn b hb)
      · rw [e]
    · intro e
      injection e with e
      exact ⟨a, by simp, hka, e⟩
  · rename_i hne
    rw [lookup_some_iff h.distinct]
    constructor
    · rintro ⟨b, hb, hbk, e⟩
      rw [List.mem_append, List.mem_singleton] at hb
      rcases hb with hb | rfl
      · exact ⟨b, hb, hbk, e⟩
      · exact absurd (by rw [← hbk, hka]) hne
    · rintro ⟨b, hb, hbk, e⟩
      exact ⟨b, by simp [hb], hbk, e⟩

/-- An object allocated and freed at once. -/
theorem WF.bump {t : Tbl} (h : WF t) : WF ⟨t.ents, t.next + 1, t.freed ++ [t.next]⟩ := by
  refine ⟨h.keys, h.distinct, ?_⟩
  rw [List.range_succ, ← List.append_assoc]
  exact h.ids.append_right _

/-- Displacing an object. -/
theorem WF.displace {t : Tbl} (h : WF t) {a o : Attr} {k : List Nat} (hk : IsKey a.key k)
    (hid : a.id = t.next) (hn : t.ents.find? (fun a => keyOf a = k) = some o) :
    let t' : Tbl := ⟨t.ents.map fun e => if e.id = o.id then a else e, t.next + 1, t.freed ++ [o.id]⟩
    WF t' ∧ ∀ k', lookup t' k' = if k' = k then some (a.keyPtr, a.data) else lookup t k' := by
  intro t'
  have hka := keyOf_eq hk
  obtain ⟨ho, hok⟩ := find?_some_mem hn
  have hkeys : t'.ents.map keyOf = t.ents.map keyOf := by
    simp only [t', List.map_map]
    apply List.map_congr_left
    intro e he
    simp only [Function.comp]
    split
    · rename_i hid'
      rw [ids_inj h he ho hid', hka, hok]
    · rfl
  have hwf : WF t' := by
    refine ⟨?_, ?_, ?_⟩
    · intro b hb
      simp only [t', List.mem_map] at hb
      obtain ⟨e, he, rfl⟩ := hb
      split
      · rw [hka]; exact hk
      · exact h.keys e he
    · rw [hkeys]; exact h.distinct
    · have hids : t'.ents.map Attr.id =
          t.ents.map (fun e => if e.id = o.id then t.next else e.id) := by
        simp only [t', List.map_map]
        apply List.map_congr_left
        intro e _
        simp only [Function.comp]
        split
        · exact hid
        · rfl
      obtain ⟨l1, l2, hs⟩ := List.append_of_mem ho
      have hids' : t'.ents.map Attr.id = l1.map Attr.id ++ t.next :: l2.map Attr.id := by
        rw [hids, hs]
        have hnd : (t.ents.map Attr.id).Nodup :=
          (List.nodup_append.mp (h.ids.nodup_iff.mpr List.nodup_range)).1
        rw [hs, List.map_append, List.map_cons, List.nodup_append, List.nodup_cons] at hnd
        rw [List.map_append, List.map_cons, if_pos rfl]
        congr 1
        · apply List.map_congr_left
          intro e he
          rw [if_neg]
          intro hc
          exact hnd.2.2 e.id (List.mem_map.mpr ⟨e, he, rfl⟩) o.id (by simp) hc
        · congr 1
          apply List.map_congr_left
          intro e he
          rw [if_neg]
          intro hc
          exact hnd.2.1.1 (by rw [← hc]; exact List.mem_map.mpr ⟨e, he, rfl⟩)
      have h0 := h.ids
      rw [hs, List.map_append, List.map_cons] at h0
      show (t'.ents.map Attr.id ++ (t.freed ++ [o.id])).Perm (List.range (t.next + 1))
      rw [hids', List.range_succ]
      have h1 : (l1.map Attr.id ++ t.next :: l2.map Attr.id ++ (t.freed ++ [o.id])).Perm
          ((l1.map Attr.id ++ o.id :: l2.map Attr.id ++ t.freed) ++ [t.next]) := by
        rw [List.perm_iff_count]
        intro x
        simp only [List.count_append, List.count_cons, List.count_nil]
        omega
      exact h1.trans (h0.append_right _)
  refine ⟨hwf, fun k' => ?_⟩
  apply option_ext
  intro p
  rw [lookup_some_iff hwf.distinct]
  have hmem : ∀ b, b ∈ t'.ents ↔ b = a ∨ (b ∈ t.ents ∧ b.id ≠ o.id) := by
    intro b
    simp only [t', List.mem_map]
    constructor
    · rintro ⟨e, he, rfl⟩
      split
      · exact Or.inl rfl
      · rename_i hne
        exact Or.inr ⟨he, hne⟩
    · rintro (rfl | ⟨hb, hne⟩)
      · exact ⟨o, ho, if_pos rfl⟩
      · exact ⟨b, hb, if_neg hne⟩
  split
  · rename_i e
    subst e
    constructor
    · rintro ⟨b, hb, hbk, e⟩
      rcases (hmem b).mp hb with rfl | ⟨hb, hne⟩
      · rw [e]
      · exact absurd (congrArg Attr.id
          (List.inj_on_of_nodup_map h.distinct hb ho (by rw [hbk, hok]))) hne
    · intro e
      injection e with e
      exact ⟨a, (hmem a).mpr (Or.inl rfl), hka, e⟩
  · rename_i hne
    rw [lookup_some_iff h.distinct]
    constructor
    · rintro ⟨b, hb, hbk, e⟩
      rcases (hmem b).mp hb with rfl | ⟨hb, hne'⟩
      · exact absurd (by rw [← hbk, hka]) hne
      · exact ⟨b, hb, hbk, e⟩
    · rintro ⟨b, hb, hbk, e⟩
      refine ⟨b, (hmem b).mpr (Or.inr ⟨hb, fun hc => ?_⟩), hbk, e⟩
      have := ids_inj h hb ho hc
      subst this
      exact hne (by rw [← hbk, hok])

/-- Removing an object. -/
theorem WF.remove {t : Tbl} (h : WF t) {o : Attr} {k : List Nat}
    (hn : t.ents.find? (fun a => keyOf a = k) = some o) :
    let t' : Tbl := ⟨t.ents.filter fun e => e.id ≠ o.id, t.next, t.freed ++ [o.id]⟩
    WF t' ∧ (∀ k', lookup t' k' = if k' = k then none else lookup t k') := by
  intro t'
  obtain ⟨ho, hok⟩ := find?_some_mem hn
  have hmem : ∀ b, b ∈ t'.ents ↔ (b ∈ t.ents ∧ b.id ≠ o.id) := by
    intro b; simp [t']
  have hwf : WF t' := by
    refine ⟨?_, ?_, ?_⟩
    · intro b hb
      exact h.keys b ((hmem b).mp hb).1
    · exact h.distinct.sublist (List.Sublist.map _ List.filter_sublist)
    · obtain ⟨l1, l2, hs⟩ := List.append_of_mem ho
      have hnd : (t.ents.map Attr.id).Nodup :=
          (List.nodup_append.mp (h.ids.nodup_iff.mpr List.nodup_range)).1
      rw [hs, List.map_append, List.map_cons, List.nodup_append, List.nodup_cons] at hnd
      have hf : t'.ents = l1 ++ l2 := by
        simp only [t']
        rw [hs, List.filter_append, List.filter_cons_of_neg (by simp)]
        congr 1
        · rw [List.filter_eq_self]
          intro e he
          simp only [ne_eq, decide_not, Bool.not_eq_true', decide_eq_false_iff_not]
          intro hc
          exact hnd.2.2 e.id (List.mem_map.mpr ⟨e, he, rfl⟩) o.id (by simp) hc
        · rw [List.filter_eq_self]
          intro e he
          simp only [ne_eq, decide_not, Bool.not_eq_true', decide_eq_false_iff_not]
          intro hc
          exact hnd.2.1.1 (by rw [← hc]; exact List.mem_map.mpr ⟨e, he, rfl⟩)
      have h0 := h.ids
      rw [hs, List.map_append, List.map_cons] at h0
      show (t'.ents.map Attr.id ++ (t.freed ++ [o.id])).Perm (List.range t.next)
      rw [hf, List.map_append]
      refine List.Perm.trans ?_ h0
      rw [List.perm_iff_count]
      intro x
      simp only [List.count_append, List.count_cons, List.count_nil]
      omega
  refine ⟨hwf, fun k' => ?_⟩
  apply option_ext
  intro p
  rw [lookup_some_iff hwf.distinct]
  split
  · rename_i e
    subst e
    constructor
    · rintro ⟨b, hb, hbk, e⟩
      obtain ⟨hb, hne⟩ := (hmem b).mp hb
      exact absurd (congrArg Attr.id
          (List.inj_on_of_nodup_map h.distinct hb ho (by rw [hbk, hok]))) hne
    · intro e; cases e
  · rename_i hne
    rw [lookup_some_iff h.distinct]
    constructor
    · rintro ⟨b, hb, hbk, e⟩
      exact ⟨b, ((hmem b).mp hb).1, hbk, e⟩
    · rintro ⟨b, hb, hbk, e⟩
      refine ⟨b, (hmem b).mpr ⟨hb, fun hc => ?_⟩, hbk, e⟩
      have := ids_inj h hb ho hc
      subst this
      exact hne (by rw [← hbk, hok])

theorem WF.clear {t : Tbl} (h : WF t) : WF ⟨[], t.next, t.freed ++ t.ents.map Attr.id⟩ := by
  refine ⟨by simp, by simp, ?_⟩
  simp only [List.map_nil, List.nil_append]
  exact List.perm_append_comm.trans h.ids

/-! ### Operation specifications -/

theorem store_spec {t : Tbl} (h : WF t) {k : List Nat} (hk : k.length + 4 < 2 ^ 32) (kp d : Nat) :
    ∃ t', store t k kp d = .ok (t', (lookup t k).isNone) ∧ WF t' ∧
      ∀ k', lookup t' k' =
        if k' = k ∧ lookup t k = none then some (kp, d) else lookup t k' := by
  obtain ⟨b, e, hb⟩ := attrKey_spec hk
  unfold store
  rw [e, Out.ok_bind]
  simp only [hsPut]
  rw [hsGet_spec h.keys hb, Out.ok_bind]
  cases hf : t.ents.find? (fun a => keyOf a = k) with
  | some o =>
    have hlk : lookup t k = some (o.keyPtr, o.data) := by simp [lookup, hf]
    refine ⟨⟨t.ents, t.next + 1, t.freed ++ [t.next]⟩, ?_, h.bump, ?_⟩
    · simp [hlk]
    · intro k'
      rw [if_neg (by rw [hlk]; simp)]
      rfl
  | none =>
    have hlk : lookup t k = none := by simp [lookup, hf]
    obtain ⟨h1, h2⟩ := h.append (a := ⟨t.next, b, kp, d⟩) hb rfl hf
    refine ⟨⟨t.ents ++ [⟨t.next, b, kp, d⟩], t.next + 1, t.freed⟩, ?_, h1, ?_⟩
    · simp [hlk]
    · intro k'
      rw [h2 k']
      simp [hlk]

theorem set_spec {t : Tbl} (h : WF t) {k : List Nat} (hk : k.length + 4 < 2 ^ 32) (kp d : Nat) :
    ∃ t', set t k kp d = .ok (t', lookup t k) ∧ WF t' ∧
      ∀ k', lookup t' k' = if k' = k then some (kp, d) else lookup t k' := by
  obtain ⟨b, e, hb⟩ := attrKey_spec hk
  unfold set
  rw [e, Out.ok_bind]
  simp only [hsSet]
  rw [hsGet_spec h.keys hb, Out.ok_bind]
  cases hf : t.ents.find? (fun a => keyOf a = k) with
  | some o =>
    have hlk : lookup t k = some (o.keyPtr, o.data) := by simp [lookup, hf]
    obtain ⟨h1, h2⟩ := h.displace (a := ⟨t.next, b, kp, d⟩) hb rfl hf
    exact ⟨_, by simp only [Out.pure_eq, Out.ok_bind, hlk], h1, h2⟩
  | none =>
    have hlk : lookup t k = none := by simp [lookup, hf]
    obtain ⟨h1, h2⟩ := h.append (a := ⟨t.next, b, kp, d⟩) hb rfl hf
    exact ⟨_, by simp only [Out.pure_eq, Out.ok_bind, hlk], h1, h2⟩

theorem replace_spec {t : Tbl} (h : WF t) {k : List Nat} (hk : k.length + 4 < 2 ^ 32) (kp d : Nat)
    (kf df : Bool) :
    ∃ t', replace t k kp d kf df = .ok (t', (lookup t k).isSome,
        match lookup t k with
        | some (p, x) => cbs kf df p x
        | none => []) ∧ WF t' ∧
      ∀ k', lookup t' k' = if k' = k then some (kp, d) else lookup t k' := by
  obtain ⟨t', e, h1, h2⟩ := set_spec h hk kp d
  refine ⟨t', ?_, h1, h2⟩
  unfold replace
  rw [e, Out.ok_bind]
  cases lookup t k with
  | none => rfl
  | some p => rfl

theorem retrieve_spec (junk : Nat → Nat) {t : Tbl} (h : WF t) {k : List Nat}
    (hk : k.length + 4 < 2 ^ 32) :
    retrieve junk t k = .ok ((lookup t k).map Prod.snd) := by
  obtain ⟨b, e, hb⟩ := searchKey_spec junk hk
  unfold retrieve lookup
  rw [e, Out.ok_bind, hsGet_spec h.keys hb, Out.ok_bind]
  cases t.ents.find? (fun a => keyOf a = k) <;> rfl

theorem delete_spec (junk : Nat → Nat) {t : Tbl} (h : WF t) {k : List Nat}
    (hk : k.length + 4 < 2 ^ 32) (kf df : Bool) :
    ∃ t', delete junk t k kf df = .ok (t', (lookup t k).isSome,
        match lookup t k with
        | some (p, x) => cbs kf df p x
        | none => []) ∧ WF t' ∧
      ∀ k', lookup t' k' = if k' = k then none else lookup t k' := by
  obtain ⟨b, e, hb⟩ := searchKey_spec junk hk
  unfold delete
  rw [e, Out.ok_bind]
  simp only [hsRemove]
  rw [hsGet_spec h.keys hb, Out.ok_bind]
  cases hf : t.ents.find? (fun a => keyOf a = k) with
  | some o =>
    have hlk : lookup t k = some (o.keyPtr, o.data) := by simp [lookup, hf]
    obtain ⟨h1, h2⟩ := h.remove hf
    exact ⟨_, by simp only [Out.pure_eq, Out.ok_bind, hlk]; rfl, h1, h2⟩
  | none =>
    have hlk : lookup t k = none := by simp [lookup, hf]
    refine ⟨t, by simp [hlk], h, fun k' => ?_⟩
    split
    · rename_i e; rw [e, hlk]
    · rfl

theorem iterate_eq (t : Tbl) : iterate t = t.ents.map fun e => (keyOf e, e.keyPtr, e.data) := rfl

theorem mem_iterate {t : Tbl} (h : WF t) {k : List Nat} {p d : Nat} :
    (k, p, d) ∈ iterate t ↔ lookup t k = some (p, d) := by
  rw [iterate_eq, lookup_some_iff h.distinct, List.mem_map]
  constructor
  · rintro ⟨a, ha, e⟩
    injection e with e1 e2
    exact ⟨a, ha, e1, e2⟩
  · rintro ⟨a, ha, rfl, e⟩
    exact ⟨a, ha, by rw [← e]⟩

theorem iterate_keys {t : Tbl} : (iterate t).map Prod.fst = t.ents.map keyOf := by
  rw [iterate_eq, List.map_map]; rfl

end Mtev.Hash
