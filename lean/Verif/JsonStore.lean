import Verif.Json
import Mathlib.Data.List.Basic
import Mathlib.Data.List.Perm.Subperm

/-!
Model of the containers behind JSON objects and arrays:
`src/json-lib/mtev_json_linkhash.c` (open addressing hash table with an
insertion order list), `src/json-lib/mtev_json_arraylist.c` (growing array)
and the object functions of `src/json-lib/mtev_json_object.c`.

Simplifications, common to the whole file:
* the doubly linked list through the slots (`head`, `tail`, `next`, `prev`) is
  the list `ord` of slot indices from head to tail;
* memory allocation succeeds (`jl_lh_abort` exits the process otherwise);
* the `int` fields `size` and `count` do not overflow (that needs more than
  2^29 members);
* the statistics counters are left out;
* key strings passed in are not the ones stored in the table.
-/

namespace Mtev.JsonStore

open Mtev.Json (Bytes)

set_option linter.unusedSectionVars false

variable {K V : Type} [DecidableEq K]

/-- One `jl_lh_entry` (internal_linkhash.h:28-33, 47-66): the key is `LH_EMPTY`,
`LH_FREED` or a string. -/
inductive Slot (K V : Type) where
  | empty
  | freed
  | full (k : K) (v : V)
deriving DecidableEq, Repr

/-- `struct jl_lh_table` (internal_linkhash.h:72-136). -/
structure Tbl (K V : Type) where
  slots : List (Slot K V)
  ord : List Nat
  count : Nat
deriving DecidableEq, Repr

/-- The field `size` of `struct jl_lh_table`: the length of the array `table`
(mtev_json_linkhash.c:65, 69). -/
def Tbl.size (t : Tbl K V) : Nat := t.slots.length

/-- mtev_json_linkhash.c:41-49 `jl_lh_char_hash`: 32 bit arithmetic; a byte of
128 or more is sign extended (plain `char` is signed on the supported
platforms). -/
def charHash (k : Bytes) : Nat :=
  k.foldl (fun h c =>
    (h * 129 + (if c < 128 then c else c + (4294967296 - 256)) + 0x9e370001) % 4294967296) 0

/-- mtev_json_linkhash.c:56-77 `jl_lh_table_new`. -/
def new (size : Nat) : Tbl K V := ⟨List.replicate size .empty, [], 0⟩

/-- `if(++n == (unsigned long)t->size) n = 0;` (mtev_json_linkhash.c:134, 166). -/
def next (size n : Nat) : Nat := if n + 1 = size then 0 else n + 1

/-- The loop of `jl_lh_table_lookup_entry` (mtev_json_linkhash.c:162-167), cut
after `fuel` rounds: `none` says the loop is still running.  `some none` is the
NULL answer, `some (some n)` is `&t->table[n]`. -/
def look (t : Tbl K V) (k : K) : Nat → Nat → Option (Option Nat)
  | 0, _ => none
  | fuel + 1, n =>
    match t.slots[n]? with
    | some .empty => some none
    | some .freed => look t k fuel (next t.size n)
    | some (.full k' _) => if k' = k then some (some n) else look t k fuel (next t.size n)
    | none => none

/-- mtev_json_linkhash.c:156-168 `jl_lh_table_lookup_entry`.  `none` says the
loop has visited every slot once without an answer; `look_forever` shows that
it then never ends. -/
def lookupEntry (h : K → Nat) (t : Tbl K V) (k : K) : Option (Option Nat) :=
  look t k t.size (h k % t.size)

/-- The value stored in slot `n` (mtev_json_linkhash.c:174 `e->v`). -/
def Tbl.val? (t : Tbl K V) (n : Nat) : Option V :=
  match t.slots[n]? with
  | some (.full _ v) => some v
  | _ => none

/-- mtev_json_linkhash.c:171-176 `jl_lh_table_lookup`, and
`mtev_json_object_object_get` (mtev_json_object.c:294-297). -/
def lookup (h : K → Nat) (t : Tbl K V) (k : K) : Option (Option V) :=
  match lookupEntry h t k with
  | none => none
  | some none => some none
  | some (some n) => some (t.val? n)

/-- The loop of `jl_lh_table_insert` (mtev_json_linkhash.c:131-135), cut after
`fuel` rounds. -/
def slotFor (t : Tbl K V) : Nat → Nat → Option Nat
  | 0, _ => none
  | fuel + 1, n =>
    match t.slots[n]? with
    | some (.full _ _) => slotFor t fuel (next t.size n)
    | some _ => some n
    | none => none

/-- mtev_json_linkhash.c:128-152, `jl_lh_table_insert` after the check of the
load.  `none`: the loop does not end. -/
def insertRaw (h : K → Nat) (t : Tbl K V) (k : K) (v : V) : Option (Tbl K V) :=
  match slotFor t t.size (h k % t.size) with
  | none => none
  | some n => some ⟨t.slots.set n (.full k v), t.ord ++ [n], t.count + 1⟩

/-- The test `t->count > t->size * 0.66` (mtev_json_linkhash.c:126) in whole
numbers.  The sizes that occur are 16 times a power of two, for which the
product is never whole, so that the rounding of doubles plays no role. -/
def Tbl.crowded (t : Tbl K V) : Bool := decide (t.size * 66 < t.count * 100)

/-- The walk over the list in `jl_lh_table_resize` (mtev_json_linkhash.c:97-101).
The inner `jl_lh_table_insert` could itself resize; `move_not_crowded` shows
that it does not. -/
def move (h : K → Nat) (t : Tbl K V) : List Nat → Tbl K V → Option (Tbl K V)
  | [], nt => some nt
  | n :: rest, nt =>
    match t.slots[n]? with
    | some (.full k v) =>
      match insertRaw h nt k v with
      | some nt' => move h t rest nt'
      | none => none
    | _ => move h t rest nt

/-- mtev_json_linkhash.c:91-109 `jl_lh_table_resize`: `count` stays as it is. -/
def resize (h : K → Nat) (t : Tbl K V) (newSize : Nat) : Option (Tbl K V) :=
  match move h t t.ord (new newSize) with
  | some nt => some ⟨nt.slots, nt.ord, t.count⟩
  | none => none

/-- mtev_json_linkhash.c:121-153 `jl_lh_table_insert`. -/
def insert (h : K → Nat) (t : Tbl K V) (k : K) (v : V) : Option (Tbl K V) :=
  match (if t.crowded then resize h t (t.size * 2) else some t) with
  | some t' => insertRaw h t' k v
  | none => none

/-- mtev_json_linkhash.c:179-206 `jl_lh_table_delete_entry` of a slot in use. -/
def deleteEntry (t : Tbl K V) (n : Nat) : Tbl K V :=
  ⟨t.slots.set n .freed, t.ord.erase n, t.count - 1⟩

/-- mtev_json_linkhash.c:209-214 `jl_lh_table_delete`, and
`mtev_json_object_object_del` (mtev_json_object.c:299-302). -/
def delete (h : K → Nat) (t : Tbl K V) (k : K) : Option (Tbl K V) :=
  match lookupEntry h t k with
  | none => none
  | some none => some t
  | some (some n) => some (deleteEntry t n)

/-- mtev_json_object.c:287-292 `mtev_json_object_object_add`. -/
def add (h : K → Nat) (t : Tbl K V) (k : K) (v : V) : Option (Tbl K V) :=
  match delete h t k with
  | some t' => insert h t' k v
  | none => none

/-- mtev_json_object.c:245-254 `mtev_json_object_new_object`
(`JSON_OBJECT_DEF_HASH_ENTRIES` is 16, mtev_json_object.h). -/
def newObject : Tbl K V := new 16

/-- The walk `mtev_json_object_get_object_head` / `mtev_json_entry_next`
(mtev_json_object.c:267-285): the entries in list order. -/
def entries (t : Tbl K V) : List (K × V) :=
  t.ord.filterMap fun (n : Nat) =>
    match t.slots[n]? with
    | some (.full k v) => some (k, v)
    | _ => none

/-! ### Probing -/

theorem next_eq {size n : Nat} (h : n < size) : next size n = (n + 1) % size := by
  unfold next
  split
  · rename_i e; rw [e, Nat.mod_self]
  · rw [Nat.mod_eq_of_lt (by omega)]

theorem next_pos (size st d : Nat) (h : 0 < size) :
    next size ((st + d) % size) = (st + (d + 1)) % size := by
  rw [next_eq (Nat.mod_lt _ h), Nat.mod_add_mod]; rfl

/-- The probe for `k` stops at slot `n`. -/
def Stops (t : Tbl K V) (k : K) (n : Nat) : Prop :=
  t.slots[n]? = some .empty ∨ ∃ v, t.slots[n]? = some (.full k v)

theorem slot_some {t : Tbl K V} (n : Nat) (h : 0 < t.size) (st : Nat) :
    ∃ s, t.slots[(st + n) % t.size]? = some s :=
  ⟨_, List.getElem?_eq_getElem (Nat.mod_lt _ h)⟩

theorem look_pass {t : Tbl K V} {k : K} (h : 0 < t.size) (st : Nat) :
    ∀ (fuel d : Nat), (∀ j, j < fuel → ¬ Stops t k ((st + (d + j)) % t.size)) →
      look t k fuel ((st + d) % t.size) = none := by
  intro fuel
  induction fuel with
  | zero => intros; rfl
  | succ f ih =>
    intro d hno
    obtain ⟨s, hs⟩ := slot_some (t := t) d h st
    have h0 : ¬ Stops t k ((st + d) % t.size) := by simpa using hno 0 (by omega)
    have hr := ih (d + 1) (fun j hj => by
      have := hno (j + 1) (by omega)
      rwa [show d + (j + 1) = d + 1 + j by omega] at this)
    unfold look
    rw [hs, next_pos _ _ _ h]
    cases s with
    | empty => exact absurd (Or.inl hs) h0
    | freed => exact hr
    | full k' v =>
      dsimp only
      split
      · rename_i e; subst e; exact absurd (Or.inr ⟨v, hs⟩) h0
      · exact hr

theorem look_hit {t : Tbl K V} {k : K} (h : 0 < t.size) (st : Nat) :
    ∀ (m fuel d : Nat), m < fuel → (∀ j, j < m → ¬ Stops t k ((st + (d + j)) % t.size)) →
      Stops t k ((st + (d + m)) % t.size) →
      look t k fuel ((st + d) % t.size) =
        some (match t.slots[(st + (d + m)) % t.size]? with
              | some .empty => none
              | _ => some ((st + (d + m)) % t.size)) := by
  intro m
  induction m with
  | zero =>
    intro fuel d hf _ hs
    obtain ⟨f, rfl⟩ : ∃ f, fuel = f + 1 := ⟨fuel - 1, by omega⟩
    rw [Nat.add_zero] at hs ⊢
    unfold look
    rcases hs with hs | ⟨v, hs⟩ <;> simp [hs]
  | succ m ih =>
    intro fuel d hf hno hs
    obtain ⟨f, rfl⟩ : ∃ f, fuel = f + 1 := ⟨fuel - 1, by omega⟩
    obtain ⟨s, hsl⟩ := slot_some (t := t) d h st
    have h0 : ¬ Stops t k ((st + d) % t.size) := by simpa using hno 0 (by omega)
    have hr := ih f (d + 1) (by omega) (fun j hj => by
      have := hno (j + 1) (by omega)
      rwa [show d + (j + 1) = d + 1 + j by omega] at this)
      (by rwa [show d + 1 + m = d + (m + 1) by omega])
    rw [show d + 1 + m = d + (m + 1) by omega] at hr
    unfold look
    rw [hsl, next_pos _ _ _ h]
    cases s with
    | empty => exact absurd (Or.inl hsl) h0
    | freed => exact hr
    | full k' v =>
      dsimp only
      split
      · rename_i e; subst e; exact absurd (Or.inr ⟨v, hsl⟩) h0
      · exact hr

theorem first_nat (P : Nat → Prop) (n : Nat) :
    (∀ j, j < n → ¬ P j) ∨ ∃ m, m < n ∧ P m ∧ ∀ j, j < m → ¬ P j := by
  induction n with
  | zero => left; intro j hj; omega
  | succ n ih =>
    rcases ih with h | ⟨m, hm, hp, hl⟩
    · by_cases hp : P n
      · exact Or.inr ⟨n, by omega, hp, h⟩
      · left
        intro j hj
        rcases Nat.lt_succ_iff_lt_or_eq.1 hj with h1 | rfl
        · exact h j h1
        · exact hp
    · exact Or.inr ⟨m, by omega, hp, hl⟩

/-- What a lookup that ends has found. -/
theorem look_cases {t : Tbl K V} {k : K} (h : 0 < t.size) (st fuel : Nat) :
    (look t k fuel (st % t.size) = none ∧ ∀ j, j < fuel → ¬ Stops t k ((st + j) % t.size)) ∨
    (look t k fuel (st % t.size) = some none ∧ ∃ m, m < fuel ∧
      t.slots[(st + m) % t.size]? = some .empty ∧ ∀ j, j < m → ¬ Stops t k ((st + j) % t.size)) ∨
    (∃ m v, m < fuel ∧ look t k fuel (st % t.size) = some (some ((st + m) % t.size)) ∧
      t.slots[(st + m) % t.size]? = some (.full k v) ∧
      ∀ j, j < m → ¬ Stops t k ((st + j) % t.size)) := by
  rcases first_nat (fun j => Stops t k ((st + j) % t.size)) fuel with hno | ⟨m, hm, hp, hl⟩
  · left
    refine ⟨?_, hno⟩
    have := look_pass (t := t) (k := k) h st fuel 0 (by simpa using hno)
    simpa using this
  · right
    have hh := look_hit (t := t) (k := k) h st m fuel 0 hm (by simpa using hl) (by simpa using hp)
    simp only [Nat.zero_add, Nat.add_zero] at hh
    rcases hp with hp | ⟨v, hp⟩
    · left; rw [hh, hp]; exact ⟨rfl, m, hm, hp, hl⟩
    · right
      refine ⟨m, v, hm, ?_, hp, hl⟩
      rw [hh, hp]

/-- A lookup that has gone round the table once without an answer never ends. -/
theorem look_forever {t : Tbl K V} {k : K} (h : 0 < t.size) (st : Nat)
    (hn : look t k t.size (st % t.size) = none) (fuel : Nat) :
    look t k fuel (st % t.size) = none := by
  have hno : ∀ j, j < t.size → ¬ Stops t k ((st + j) % t.size) := by
    rcases look_cases (t := t) (k := k) h st t.size with ⟨_, h2⟩ | ⟨h1, _⟩ | ⟨m, v, _, h1, _⟩
    · exact h2
    · rw [h1] at hn; simp at hn
    · rw [h1] at hn; simp at hn
  have hall : ∀ j, ¬ Stops t k ((st + j) % t.size) := by
    intro j
    have := hno (j % t.size) (Nat.mod_lt _ h)
    rwa [Nat.add_mod_mod] at this
  have := look_pass (t := t) (k := k) h st fuel 0 (fun j _ => by simpa using hall j)
  simpa using this

theorem slotFor_hit {t : Tbl K V} (h : 0 < t.size) (st : Nat) :
    ∀ (fuel d : Nat),
      (∃ m, m < fuel ∧ slotFor t fuel ((st + d) % t.size) = some ((st + (d + m)) % t.size) ∧
        (∀ k v, t.slots[(st + (d + m)) % t.size]? ≠ some (.full k v)) ∧
        ∀ j, j < m → ∃ k v, t.slots[(st + (d + j)) % t.size]? = some (.full k v)) ∨
      (slotFor t fuel ((st + d) % t.size) = none ∧
        ∀ j, j < fuel → ∃ k v, t.slots[(st + (d + j)) % t.size]? = some (.full k v)) := by
  intro fuel
  induction fuel with
  | zero => intro d; right; exact ⟨rfl, fun j hj => by omega⟩
  | succ f ih =>
    intro d
    obtain ⟨s, hs⟩ := slot_some (t := t) d h st
    unfold slotFor
    rw [hs, next_pos _ _ _ h]
    cases s with
    | empty =>
      left
      refine ⟨0, by omega, by simp, ?_, fun j hj => by omega⟩
      intro k v; rw [Nat.add_zero, hs]; simp
    | freed =>
      left
      refine ⟨0, by omega, by simp, ?_, fun j hj => by omega⟩
      intro k v; rw [Nat.add_zero, hs]; simp
    | full k' v' =>
      rcases ih (d + 1) with ⟨m, hm, he, hnf, hl⟩ | ⟨he, hl⟩
      · left
        refine ⟨m + 1, by omega, ?_, ?_, ?_⟩
        · rw [show d + (m + 1) = d + 1 + m by omega]; exact he
        · rw [show d + (m + 1) = d + 1 + m by omega]; exact hnf
        · intro j hj
          cases j with
          | zero => exact ⟨k', v', by simpa using hs⟩
          | succ j =>
            rw [show d + (j + 1) = d + 1 + j by omega]; exact hl j (by omega)
      · right
        refine ⟨he, ?_⟩
        intro j hj
        cases j with
        | zero => exact ⟨k', v', by simpa using hs⟩
        | succ j =>
          rw [show d + (j + 1) = d + 1 + j by omega]; exact hl j (by omega)

/-! ### Invariant -/

/-- What every table reached from `new` satisfies. -/
structure Inv (h : K → Nat) (t : Tbl K V) : Prop where
  pos : 0 < t.size
  nodup : t.ord.Nodup
  mem : ∀ n : Nat, n ∈ t.ord ↔ ∃ k v, t.slots[n]? = some (.full k v)
  uniq : ∀ (i j : Nat) k v w, t.slots[i]? = some (.full k v) → t.slots[j]? = some (.full k w) → i = j
  cnt : t.count = t.ord.length
  reach : ∀ (i : Nat) k v, t.slots[i]? = some (.full k v) →
    ∃ d, d < t.size ∧ (h k + d) % t.size = i ∧
      ∀ j, j < d → t.slots[(h k + j) % t.size]? ≠ some .empty

theorem inv_new (h : K → Nat) {size : Nat} (hs : 0 < size) : Inv h (new size : Tbl K V) := by
  have hx : ∀ (n : Nat) k v, (new size : Tbl K V).slots[n]? ≠ some (.full k v) := by
    intro n k v hc
    simp [new, List.getElem?_replicate] at hc
  refine ⟨by simpa [Tbl.size, new] using hs, by simp [new], ?_, ?_, by simp [new], ?_⟩
  · intro n
    constructor
    · intro hm; simp [new] at hm
    · rintro ⟨k, v, hk⟩; exact absurd hk (hx n k v)
  · intro i j k v w hi; exact absurd hi (hx i k v)
  · intro i k v hi; exact absurd hi (hx i k v)

theorem mem_entries {t : Tbl K V} {h : K → Nat} (inv : Inv h t) (k : K) (v : V) :
    (k, v) ∈ entries t ↔ ∃ n : Nat, t.slots[n]? = some (.full k v) := by
  unfold entries
  rw [List.mem_filterMap]
  constructor
  · rintro ⟨n, hn, hv⟩
    refine ⟨n, ?_⟩
    split at hv
    · rename_i heq
      simp only [Option.some.injEq, Prod.mk.injEq] at hv
      rw [heq, hv.1, hv.2]
    · simp at hv
  · rintro ⟨n, hn⟩
    exact ⟨n, (inv.mem n).2 ⟨k, v, hn⟩, by rw [hn]⟩

theorem length_filterMap_all {α β : Type} (f : α → Option β) (l : List α)
    (h : ∀ a ∈ l, (f a).isSome) : (l.filterMap f).length = l.length := by
  induction l with
  | nil => rfl
  | cons a l ih =>
    have ha := h a (by simp)
    obtain ⟨b, hb⟩ := Option.isSome_iff_exists.1 ha
    rw [List.filterMap_cons, hb]
    simp [ih (fun x hx => h x (by simp [hx]))]

theorem entries_length {t : Tbl K V} {h : K → Nat} (inv : Inv h t) :
    (entries t).length = t.count := by
  rw [inv.cnt]
  apply length_filterMap_all
  intro n hn
  obtain ⟨k, v, hk⟩ := (inv.mem n).1 hn
  rw [hk]; rfl

theorem ord_lt {t : Tbl K V} {h : K → Nat} (inv : Inv h t) {n : Nat} (hn : n ∈ t.ord) :
    n < t.size := by
  obtain ⟨k, v, hk⟩ := (inv.mem n).1 hn
  exact (List.getElem?_eq_some_iff.1 hk).1

/-- Pigeonhole: not all slots are in use when there are fewer entries. -/
theorem free_slot {t : Tbl K V} {h : K → Nat} (inv : Inv h t) (hc : t.count < t.size) (st : Nat) :
    ∃ m, m < t.size ∧ ∀ k v, t.slots[(st + m) % t.size]? ≠ some (.full k v) := by
  by_contra hno
  push Not at hno
  have hsub : ∀ i, i < t.size → i ∈ t.ord := by
    intro i hi
    obtain ⟨k, v, hk⟩ := hno ((i + t.size * (st + 1) - st) % t.size) (Nat.mod_lt _ inv.pos)
    have hle : st ≤ t.size * (st + 1) := by
      calc st ≤ 1 * (st + 1) := by omega
        _ ≤ t.size * (st + 1) := Nat.mul_le_mul_right _ inv.pos
    rw [Nat.add_mod_mod, show st + (i + t.size * (st + 1) - st) = i + t.size * (st + 1) by omega,
      Nat.add_mul_mod_self_left, Nat.mod_eq_of_lt hi] at hk
    exact (inv.mem i).2 ⟨k, v, hk⟩
  have h1 : (List.range t.size).Subperm t.ord :=
    List.subperm_of_subset List.nodup_range (fun i hi => hsub i (List.mem_range.1 hi))
  have h2 := h1.length_le
  rw [List.length_range, ← inv.cnt] at h2
  omega

/-- What a lookup answers, when it ends. -/
theorem lookupEntry_spec {t : Tbl K V} {h : K → Nat} (inv : Inv h t) (k : K) :
    (lookupEntry h t k = none ∧ (∀ n : Nat, t.slots[n]? ≠ some .empty) ∧
      ∀ v, (k, v) ∉ entries t) ∨
    (lookupEntry h t k = some none ∧ ∀ v, (k, v) ∉ entries t) ∨
    (∃ n v, lookupEntry h t k = some (some n) ∧ t.slots[n]? = some (.full k v)) := by
  unfold lookupEntry
  rcases look_cases (t := t) (k := k) inv.pos (h k) t.size with ⟨h1, h2⟩ | ⟨h1, m, hm, he, hl⟩ |
    ⟨m, v, hm, h1, he, hl⟩
  · left
    have hall : ∀ i, i < t.size → ¬ Stops t k i := by
      intro i hi hst
      have hle : h k ≤ t.size * (h k + 1) := by
        calc h k ≤ 1 * (h k + 1) := by omega
          _ ≤ t.size * (h k + 1) := Nat.mul_le_mul_right _ inv.pos
      apply h2 ((i + t.size * (h k + 1) - h k) % t.size) (Nat.mod_lt _ inv.pos)
      rw [Nat.add_mod_mod, show h k + (i + t.size * (h k + 1) - h k) = i + t.size * (h k + 1) by
        omega, Nat.add_mul_mod_self_left, Nat.mod_eq_of_lt hi]
      exact hst
    refine ⟨h1, ?_, ?_⟩
    · intro n hn
      exact hall n (List.getElem?_eq_some_iff.1 hn).1 (Or.inl hn)
    · intro v hv
      obtain ⟨n, hn⟩ := (mem_entries inv k v).1 hv
      exact hall n (List.getElem?_eq_some_iff.1 hn).1 (Or.inr ⟨v, hn⟩)
  · right; left
    refine ⟨h1, ?_⟩
    intro v hv
    obtain ⟨n, hn⟩ := (mem_entries inv k v).1 hv
    obtain ⟨d, hd, hdn, hde⟩ := inv.reach n k v hn
    rcases Nat.lt_trichotomy d m with hlt | rfl | hgt
    · apply hl d hlt; rw [hdn]; exact Or.inr ⟨v, hn⟩
    · rw [hdn, hn] at he; simp at he
    · exact hde m hgt he
  · right; right
    exact ⟨_, v, h1, he⟩

theorem lookup_found {t : Tbl K V} {h : K → Nat} (inv : Inv h t) {k : K} {v : V}
    (hm : (k, v) ∈ entries t) : ∃ n, lookupEntry h t k = some (some n) ∧
      t.slots[n]? = some (.full k v) := by
  rcases lookupEntry_spec inv k with ⟨_, _, h1⟩ | ⟨_, h1⟩ | ⟨n, w, h1, h2⟩
  · exact absurd hm (h1 v)
  · exact absurd hm (h1 v)
  · obtain ⟨m, hmv⟩ := (mem_entries inv k v).1 hm
    have := inv.uniq _ _ _ _ _ h2 hmv
    subst this
    exact ⟨n, h1, hmv⟩

/-! ### Deleting -/

theorem filterMap_same {α β : Type} {f g : α → Option β} {l : List α}
    (h : ∀ a ∈ l, f a = g a) : l.filterMap f = l.filterMap g := by
  induction l with
  | nil => rfl
  | cons a l ih =>
    rw [List.filterMap_cons, List.filterMap_cons, h a (by simp),
      ih (fun x hx => h x (by simp [hx]))]


theorem set_get {s : List (Slot K V)} {n : Nat} (x : Slot K V) (hn : n < s.length) (i : Nat) :
    (s.set n x)[i]? = if i = n then some x else s[i]? := by
  rw [List.getElem?_set]
  by_cases e : n = i
  · subst e; simp [hn]
  · rw [if_neg e, if_neg (Ne.symm e)]

theorem filterMap_erase_eq {α β : Type} [DecidableEq α] (f g : α → Option β) (p : β → Bool) (n : α)
    (l : List α) (hn : l.Nodup) (hfg : ∀ a ∈ l, a ≠ n → f a = g a)
    (hp : ∀ a ∈ l, a ≠ n → ∀ b, f a = some b → p b = true)
    (hq : ∀ b, f n = some b → p b = false) :
    (l.erase n).filterMap g = (l.filterMap f).filter p := by
  induction l with
  | nil => rfl
  | cons a l ih =>
    rw [List.nodup_cons] at hn
    by_cases e : a = n
    · subst e
      rw [List.erase_cons_head]
      have hrest : l.filterMap g = (l.filterMap f).filter p := by
        have : l.filterMap g = l.filterMap f := by
          apply filterMap_same
          intro x hx
          exact (hfg x (by simp [hx]) (by rintro rfl; exact hn.1 hx)).symm
        rw [this, eq_comm, List.filter_eq_self]
        intro b hb
        obtain ⟨x, hx, hxb⟩ := List.mem_filterMap.1 hb
        exact hp x (by simp [hx]) (by rintro rfl; exact hn.1 hx) b hxb
      cases hf : f a with
      | none => rw [List.filterMap_cons, hf]; exact hrest
      | some b =>
        rw [List.filterMap_cons, hf]
        simp only
        rw [List.filter_cons, hq b hf]
        simpa using hrest
    · rw [List.erase_cons_tail (by simpa using e)]
      have ih' := ih hn.2 (fun x hx => hfg x (by simp [hx])) (fun x hx => hp x (by simp [hx]))
      rw [List.filterMap_cons, List.filterMap_cons, hfg a (by simp) e]
      cases hg : g a with
      | none => exact ih'
      | some b =>
        simp only
        rw [List.filter_cons, hp a (by simp) e b (by rw [hfg a (by simp) e, hg]), ih']
        rfl

theorem deleteEntry_inv {t : Tbl K V} {h : K → Nat} (inv : Inv h t) {n : Nat} {k : K} {v : V}
    (hn : t.slots[n]? = some (.full k v)) : Inv h (deleteEntry t n) := by
  have hlt : n < t.slots.length := (List.getElem?_eq_some_iff.1 hn).1
  have hsz : (deleteEntry t n).size = t.size := by simp [deleteEntry, Tbl.size]
  have hg : ∀ i, (deleteEntry t n).slots[i]? = if i = n then some .freed else t.slots[i]? :=
    fun i => set_get _ hlt i
  have hfull : ∀ i k' v', (deleteEntry t n).slots[i]? = some (.full k' v') →
      i ≠ n ∧ t.slots[i]? = some (.full k' v') := by
    intro i k' v' hi
    rw [hg] at hi
    by_cases e : i = n
    · rw [if_pos e] at hi; simp at hi
    · rw [if_neg e] at hi; exact ⟨e, hi⟩
  have hmem : n ∈ t.ord := (inv.mem n).2 ⟨k, v, hn⟩
  refine ⟨hsz ▸ inv.pos, inv.nodup.erase n, ?_, ?_, ?_, ?_⟩
  · intro i
    show i ∈ t.ord.erase n ↔ _
    rw [inv.nodup.mem_erase_iff, inv.mem, hg]
    by_cases e : i = n
    · simp [e]
    · simp [e]
  · intro i j k' v' w' hi hj
    exact inv.uniq i j k' v' w' (hfull _ _ _ hi).2 (hfull _ _ _ hj).2
  · show t.count - 1 = (t.ord.erase n).length
    rw [List.length_erase_of_mem hmem, inv.cnt]
  · intro i k' v' hi
    obtain ⟨d, hd, he, hj⟩ := inv.reach i k' v' (hfull _ _ _ hi).2
    rw [hsz]
    refine ⟨d, hd, he, ?_⟩
    intro j hjd
    rw [hg]
    split
    · simp
    · exact hj j hjd

theorem deleteEntry_entries {t : Tbl K V} {h : K → Nat} (inv : Inv h t) {n : Nat} {k : K} {v : V}
    (hn : t.slots[n]? = some (.full k v)) :
    entries (deleteEntry t n) = (entries t).filter (fun e => !decide (e.1 = k)) := by
  have hlt : n < t.slots.length := (List.getElem?_eq_some_iff.1 hn).1
  have hg : ∀ i, (deleteEntry t n).slots[i]? = if i = n then some .freed else t.slots[i]? :=
    fun i => set_get _ hlt i
  unfold entries
  apply filterMap_erase_eq
  · exact inv.nodup
  · intro a _ hne
    rw [hg, if_neg hne]
  · intro a _ hne b hb
    split at hb
    · rename_i k' v' heq
      simp only [Option.some.injEq] at hb
      subst hb
      simp only [Bool.not_eq_true', decide_eq_false_iff_not]
      rintro rfl
      exact hne (inv.uniq _ _ _ _ _ heq hn)
    · simp at hb
  · intro b hb
    rw [hn] at hb
    simp only [Option.some.injEq] at hb
    subst hb
    simp

theorem filter_absent (l : List (K × V)) (k : K) (h : ∀ v, (k, v) ∉ l) :
    l.filter (fun e => !decide (e.1 = k)) = l := by
  rw [List.filter_eq_self]
  rintro ⟨a, b⟩ hab
  simp only [Bool.not_eq_true', decide_eq_false_iff_not]
  rintro rfl
  exact h b hab

theorem delete_spec {t t' : Tbl K V} {h : K → Nat} (inv : Inv h t) {k : K}
    (hd : delete h t k = some t') :
    Inv h t' ∧ t'.size = t.size ∧ t'.count ≤ t.count ∧
      entries t' = (entries t).filter (fun e => !decide (e.1 = k)) := by
  unfold delete at hd
  rcases lookupEntry_spec inv k with ⟨h1, _, _⟩ | ⟨h1, h2⟩ | ⟨n, v, h1, h2⟩
  · rw [h1] at hd; simp at hd
  · rw [h1] at hd
    simp only [Option.some.injEq] at hd
    subst hd
    exact ⟨inv, rfl, Nat.le_refl _, (filter_absent _ _ h2).symm⟩
  · rw [h1] at hd
    simp only [Option.some.injEq] at hd
    subst hd
    exact ⟨deleteEntry_inv inv h2, by simp [deleteEntry, Tbl.size], Nat.sub_le _ _,
      deleteEntry_entries inv h2⟩

/-! ### Inserting -/

theorem insertRaw_spec {t : Tbl K V} {h : K → Nat} (inv : Inv h t) {k : K} (v : V)
    (hc : t.count < t.size) (hk : ∀ w, (k, w) ∉ entries t) :
    ∃ t', insertRaw h t k v = some t' ∧ Inv h t' ∧ t'.size = t.size ∧
      t'.count = t.count + 1 ∧ entries t' = entries t ++ [(k, v)] ∧
      ((∀ n : Nat, t.slots[n]? ≠ some .freed) → ∀ n : Nat, t'.slots[n]? ≠ some .freed) := by
  obtain ⟨m, hm, he, hnf, hl⟩ : ∃ m, m < t.size ∧
      slotFor t t.size (h k % t.size) = some ((h k + m) % t.size) ∧
      (∀ k' v', t.slots[(h k + m) % t.size]? ≠ some (.full k' v')) ∧
      ∀ j, j < m → ∃ k' v', t.slots[(h k + j) % t.size]? = some (.full k' v') := by
    rcases slotFor_hit (t := t) inv.pos (h k) t.size 0 with ⟨m, hm, he, hnf, hl⟩ | ⟨_, hl⟩
    · exact ⟨m, hm, by simpa using he, by simpa using hnf, by simpa using hl⟩
    · obtain ⟨m, hm, hx⟩ := free_slot inv hc (h k)
      obtain ⟨k', v', hkv⟩ := hl m hm
      rw [Nat.zero_add] at hkv
      exact absurd hkv (hx k' v')
  unfold insertRaw
  rw [he]
  generalize hn : (h k + m) % t.size = n at *
  have hlt : n < t.slots.length := by rw [← hn]; exact Nat.mod_lt _ inv.pos
  refine ⟨_, rfl, ?_⟩
  have hg : ∀ i, (t.slots.set n (.full k v))[i]? = if i = n then some (.full k v) else t.slots[i]? :=
    fun i => set_get _ hlt i
  have hnm : n ∉ t.ord := by
    intro hc'
    obtain ⟨a, b, hab⟩ := (inv.mem n).1 hc'
    exact hnf a b hab
  have hnk : ∀ (i : Nat) w, t.slots[i]? ≠ some (.full k w) := by
    intro i w hi
    exact hk w ((mem_entries inv k w).2 ⟨i, hi⟩)
  refine ⟨⟨?_, ?_, ?_, ?_, ?_, ?_⟩, by simp [Tbl.size], rfl, ?_, ?_⟩
  · simpa [Tbl.size] using inv.pos
  · show (t.ord ++ [n]).Nodup
    rw [List.nodup_append]
    refine ⟨inv.nodup, by simp, ?_⟩
    intro a ha b hb
    simp only [List.mem_singleton] at hb
    subst hb
    rintro rfl
    exact hnm ha
  · intro i
    show i ∈ t.ord ++ [n] ↔ _
    dsimp only
    rw [hg, List.mem_append, List.mem_singleton, inv.mem]
    by_cases e : i = n
    · simp [e]
    · simp [e]
  · intro i j k' v' w' hi hj
    dsimp only at hi hj
    rw [hg] at hi hj
    by_cases e : i = n <;> by_cases e' : j = n
    · rw [e, e']
    · rw [if_pos e] at hi; rw [if_neg e'] at hj
      simp only [Option.some.injEq, Slot.full.injEq] at hi
      rw [← hi.1] at hj
      exact absurd hj (hnk j w')
    · rw [if_pos e'] at hj; rw [if_neg e] at hi
      simp only [Option.some.injEq, Slot.full.injEq] at hj
      rw [← hj.1] at hi
      exact absurd hi (hnk i v')
    · rw [if_neg e] at hi; rw [if_neg e'] at hj
      exact inv.uniq i j k' v' w' hi hj
  · show t.count + 1 = (t.ord ++ [n]).length
    rw [List.length_append, inv.cnt]; rfl
  · intro i k' v' hi
    have hsz : (Tbl.size (K := K) (V := V) ⟨t.slots.set n (.full k v), t.ord ++ [n], t.count + 1⟩)
        = t.size := by simp [Tbl.size]
    dsimp only at hi
    rw [hsz]
    dsimp only
    rw [hg] at hi
    by_cases e : i = n
    · rw [if_pos e] at hi
      simp only [Option.some.injEq, Slot.full.injEq] at hi
      rw [← hi.1, e]
      refine ⟨m, hm, hn, ?_⟩
      intro j hj
      rw [hg]
      split
      · simp
      · obtain ⟨a, b, hab⟩ := hl j hj
        rw [hab]; simp
    · rw [if_neg e] at hi
      obtain ⟨d, hd, hdi, hx⟩ := inv.reach i k' v' hi
      refine ⟨d, hd, hdi, ?_⟩
      intro j hj
      rw [hg]
      split
      · simp
      · exact hx j hj
  · show List.filterMap _ (t.ord ++ [n]) = _
    rw [List.filterMap_append]
    congr 1
    · apply filterMap_same
      intro a ha
      dsimp only
      rw [hg, if_neg (by rintro rfl; exact hnm ha)]
    · simp [hg]
  · intro hnofr i
    dsimp only
    rw [hg]
    split
    · simp
    · exact hnofr i

theorem move_spec {t : Tbl K V} {h : K → Nat} :
    ∀ (l : List Nat) (nt : Tbl K V), Inv h nt → nt.count + l.length < nt.size →
      (∀ n : Nat, nt.slots[n]? ≠ some .freed) →
      (∀ n ∈ l, ∃ k v, t.slots[n]? = some (.full k v) ∧ ∀ w, (k, w) ∉ entries nt) →
      (l.Pairwise fun a b => ∀ k v w, t.slots[a]? = some (.full k v) →
        t.slots[b]? ≠ some (.full k w)) →
      ∃ nt', move h t l nt = some nt' ∧ Inv h nt' ∧ nt'.size = nt.size ∧
        nt'.count = nt.count + l.length ∧
        (∀ n : Nat, nt'.slots[n]? ≠ some .freed) ∧
        entries nt' = entries nt ++ l.filterMap (fun (n : Nat) =>
          match t.slots[n]? with
          | some (.full k v) => some (k, v)
          | _ => none) := by
  intro l
  induction l with
  | nil =>
    intro nt inv _ hf _ _
    exact ⟨nt, rfl, inv, rfl, by simp, hf, by simp⟩
  | cons n l ih =>
    intro nt inv hc hf hm hp
    obtain ⟨k, v, hk, hw⟩ := hm n (by simp)
    rw [List.length_cons] at hc
    obtain ⟨t1, h1, h2, h3, h4, h5, h6⟩ := insertRaw_spec inv v (by omega) hw
    rw [List.pairwise_cons] at hp
    obtain ⟨t2, g1, g2, g3, g4, g5, g6⟩ := ih t1 h2 (by omega) (h6 hf) (by
      intro a ha
      obtain ⟨k', v', hk', hw'⟩ := hm a (by simp [ha])
      refine ⟨k', v', hk', ?_⟩
      intro w hmem
      rw [h5, List.mem_append] at hmem
      rcases hmem with hmem | hmem
      · exact hw' w hmem
      · simp only [List.mem_singleton, Prod.mk.injEq] at hmem
        rw [hmem.1] at hk'
        exact hp.1 a ha k v v' hk hk') hp.2
    refine ⟨t2, ?_, g2, by omega, by simp; omega, g5, ?_⟩
    · unfold move
      rw [hk]
      simp only [h1, g1]
    · rw [g6, h5, List.filterMap_cons, hk]
      simp

/-- While a table is being copied into one of twice the size, the copy is
never so full that it would be enlarged itself (mtev_json_linkhash.c:126). -/
theorem move_not_crowded {t nt : Tbl K V} (hs : nt.size = t.size * 2) (hc : nt.count ≤ t.count)
    (ht : t.count ≤ t.size) : nt.crowded = false := by
  unfold Tbl.crowded
  rw [hs, decide_eq_false_iff_not]
  omega

theorem resize_spec {t : Tbl K V} {h : K → Nat} (inv : Inv h t) (hc : t.count ≤ t.size) :
    ∃ t', resize h t (t.size * 2) = some t' ∧ Inv h t' ∧ t'.size = t.size * 2 ∧
      t'.count = t.count ∧ (∀ n : Nat, t'.slots[n]? ≠ some .freed) ∧ entries t' = entries t := by
  have hpos := inv.pos
  have hns : (new (t.size * 2) : Tbl K V).size = t.size * 2 := by simp [new, Tbl.size]
  obtain ⟨t2, g1, g2, g3, g4, g5, g6⟩ := move_spec (t := t) t.ord (new (t.size * 2))
    (inv_new h (by omega)) (by rw [hns, ← inv.cnt]; simp [new]; omega)
    (by intro n hn; simp [new, List.getElem?_replicate] at hn)
    (by
      intro n hn
      obtain ⟨k, v, hk⟩ := (inv.mem n).1 hn
      exact ⟨k, v, hk, by intro w hw; simp [entries, new] at hw⟩)
    (by
      apply inv.nodup.imp
      intro a b hab k v w ha hb
      exact hab (inv.uniq a b k v w ha hb))
  have hcnt : t2.count = t.count := by rw [g4, inv.cnt]; simp [new]
  refine ⟨⟨t2.slots, t2.ord, t.count⟩, ?_, ?_, by rw [← hns, ← g3]; rfl, rfl, g5, ?_⟩
  · unfold resize; rw [g1]
  · rw [← hcnt]; exact g2
  · show entries t2 = _
    rw [g6]; simp [entries, new]

/-- Load of the tables that occur: not more than two thirds, plus one entry. -/
def Light (t : Tbl K V) : Prop := 16 ≤ t.size ∧ t.count * 100 ≤ t.size * 66 + 100

theorem insert_spec {t : Tbl K V} {h : K → Nat} (inv : Inv h t) (li : Light t) {k : K} (v : V)
    (hk : ∀ w, (k, w) ∉ entries t) :
    ∃ t', insert h t k v = some t' ∧ Inv h t' ∧ Light t' ∧
      entries t' = entries t ++ [(k, v)] ∧
      ((∀ n : Nat, t.slots[n]? ≠ some .freed) → ∀ n : Nat, t'.slots[n]? ≠ some .freed) := by
  obtain ⟨l1, l2⟩ := li
  unfold insert
  by_cases hcr : t.crowded = true
  · rw [if_pos hcr]
    obtain ⟨t1, g1, g2, g3, g4, g5, g6⟩ := resize_spec inv (by omega)
    obtain ⟨t2, f1, f2, f3, f4, f5, f6⟩ := insertRaw_spec (k := k) g2 v (by omega) (by rw [g6]; exact hk)
    refine ⟨t2, by rw [g1]; exact f1, f2, ⟨by omega, by omega⟩, by rw [f5, g6], fun _ => f6 g5⟩
  · rw [if_neg hcr]
    unfold Tbl.crowded at hcr
    rw [decide_eq_true_eq] at hcr
    obtain ⟨t2, f1, f2, f3, f4, f5, f6⟩ := insertRaw_spec (k := k) inv v (by omega) hk
    exact ⟨t2, f1, f2, ⟨by omega, by omega⟩, f5, f6⟩

theorem add_spec {t t' : Tbl K V} {h : K → Nat} (inv : Inv h t) (li : Light t) {k : K} {v : V}
    (ha : add h t k v = some t') :
    Inv h t' ∧ Light t' ∧
      entries t' = (entries t).filter (fun e => !decide (e.1 = k)) ++ [(k, v)] := by
  unfold add at ha
  split at ha
  · rename_i t1 hd
    obtain ⟨g1, g2, g3, g4⟩ := delete_spec inv hd
    obtain ⟨t2, f1, f2, f3, f4, _⟩ := insert_spec (k := k) g1 ⟨by rw [g2]; exact li.1, by
      have := li.2; rw [g2]; omega⟩ v (by
        intro w hw
        rw [g4, List.mem_filter] at hw
        simp at hw)
    rw [f1] at ha
    simp only [Option.some.injEq] at ha
    subst ha
    exact ⟨f2, f3, by rw [f4, g4]⟩
  · simp at ha

theorem inv_newObject (h : K → Nat) : Inv h (newObject : Tbl K V) := inv_new h (by decide)

theorem light_newObject : Light (newObject : Tbl K V) := by
  constructor <;> simp [newObject, new, Tbl.size]

/-- With no freed slot there is an empty one, so that lookups end. -/
theorem empty_of_no_freed {t : Tbl K V} {h : K → Nat} (inv : Inv h t) (li : Light t)
    (hf : ∀ n : Nat, t.slots[n]? ≠ some .freed) : ∃ n : Nat, t.slots[n]? = some .empty := by
  obtain ⟨m, hm, hx⟩ := free_slot inv (by have := li.1; have := li.2; omega) 0
  obtain ⟨s, hs⟩ := slot_some (t := t) m inv.pos 0
  refine ⟨_, hs.trans ?_⟩
  cases s with
  | empty => rfl
  | freed => exact absurd hs (hf _)
  | full k v => exact absurd hs (hx k v)

theorem delete_total {t : Tbl K V} {h : K → Nat} (inv : Inv h t)
    (he : ∃ n : Nat, t.slots[n]? = some .empty) (k : K) : ∃ t', delete h t k = some t' := by
  unfold delete
  rcases lookupEntry_spec inv k with ⟨h1, h2, _⟩ | ⟨h1, _⟩ | ⟨n, v, h1, h2⟩
  · obtain ⟨n, hn⟩ := he; exact absurd hn (h2 n)
  · rw [h1]; exact ⟨_, rfl⟩
  · rw [h1]; exact ⟨_, rfl⟩

theorem add_total {t : Tbl K V} {h : K → Nat} (inv : Inv h t) (li : Light t)
    (he : ∃ n : Nat, t.slots[n]? = some .empty) (k : K) (v : V) : ∃ t', add h t k v = some t' := by
  obtain ⟨t1, h1⟩ := delete_total inv he k
  obtain ⟨g1, g2, g3, g4⟩ := delete_spec inv h1
  obtain ⟨t2, f1, _⟩ := insert_spec (k := k) g1 ⟨by rw [g2]; exact li.1, by
    have := li.2; rw [g2]; omega⟩ v (by
      intro w hw
      rw [g4, List.mem_filter] at hw
      simp at hw)
  exact ⟨t2, by unfold add; rw [h1]; exact f1⟩

/-! ### Freed slots -/

/-- At most `D` slots are marked as freed. -/
def FrB (t : Tbl K V) (D : Nat) : Prop :=
  ∃ fr : List Nat, (∀ n : Nat, t.slots[n]? = some .freed → n ∈ fr) ∧ fr.length ≤ D

theorem insertRaw_slot {t t' : Tbl K V} {h : K → Nat} (hp : 0 < t.size) {k : K} {v : V}
    (hi : insertRaw h t k v = some t') :
    ∃ m, m < t.size ∧ t'.slots = t.slots.set ((h k + m) % t.size) (.full k v) ∧
      (∀ k' v', t.slots[(h k + m) % t.size]? ≠ some (.full k' v')) ∧
      ∀ j, j < m → ∃ k' v', t.slots[(h k + j) % t.size]? = some (.full k' v') := by
  unfold insertRaw at hi
  rcases slotFor_hit (t := t) hp (h k) t.size 0 with ⟨m, hm, he, hnf, hl⟩ | ⟨he, _⟩
  · simp only [Nat.zero_add, Nat.add_zero] at he hnf hl
    rw [he] at hi
    simp only [Option.some.injEq] at hi
    exact ⟨m, hm, by rw [← hi], hnf, hl⟩
  · simp only [Nat.add_zero] at he
    rw [he] at hi
    simp at hi

theorem frb_set {t t' : Tbl K V} {D n : Nat} {k : K} {v : V} (hn : n < t.slots.length)
    (hs : t'.slots = t.slots.set n (.full k v)) (hf : FrB t D) : FrB t' D := by
  obtain ⟨fr, h1, h2⟩ := hf
  refine ⟨fr, ?_, h2⟩
  intro i hi
  rw [hs, set_get _ hn] at hi
  split at hi
  · simp at hi
  · exact h1 i hi

theorem frb_reuse {t t' : Tbl K V} {D n : Nat} {k : K} {v : V}
    (hn : t.slots[n]? = some .freed) (hs : t'.slots = t.slots.set n (.full k v))
    (hf : FrB t (D + 1)) : FrB t' D := by
  obtain ⟨fr, h1, h2⟩ := hf
  have hlt : n < t.slots.length := (List.getElem?_eq_some_iff.1 hn).1
  refine ⟨fr.erase n, ?_, ?_⟩
  · intro i hi
    rw [hs, set_get _ hlt] at hi
    split at hi
    · simp at hi
    · rename_i e
      exact (List.mem_erase_of_ne e).2 (h1 i hi)
  · rw [List.length_erase_of_mem (h1 n hn)]; omega

theorem frb_delete {t t' : Tbl K V} {h : K → Nat} (inv : Inv h t) {D : Nat} {k : K}
    (hd : delete h t k = some t') (hf : FrB t D) : FrB t' (D + 1) := by
  obtain ⟨fr, h1, h2⟩ := hf
  unfold delete at hd
  rcases lookupEntry_spec inv k with ⟨g1, _, _⟩ | ⟨g1, _⟩ | ⟨n, v, g1, g2⟩
  · rw [g1] at hd; simp at hd
  · rw [g1] at hd
    simp only [Option.some.injEq] at hd
    subst hd
    exact ⟨fr, h1, by omega⟩
  · rw [g1] at hd
    simp only [Option.some.injEq] at hd
    subst hd
    refine ⟨n :: fr, ?_, by simp; omega⟩
    intro i hi
    rw [deleteEntry, set_get _ (List.getElem?_eq_some_iff.1 g2).1] at hi
    split at hi
    · rename_i e; simp [e]
    · simp [h1 i hi]

/-- Adding, which first deletes the old member, leaves no more freed slots. -/
theorem frb_add {t t' : Tbl K V} {h : K → Nat} (inv : Inv h t) (li : Light t) {D : Nat} {k : K}
    {v : V} (ha : add h t k v = some t') (hf : FrB t D) : FrB t' D := by
  unfold add at ha
  split at ha
  · rename_i t1 hd
    obtain ⟨g1, g2, g3, g4⟩ := delete_spec inv hd
    have hk1 : ∀ w, (k, w) ∉ entries t1 := by
      intro w hw
      rw [g4, List.mem_filter] at hw
      simp at hw
    have l1 := li.1
    have l2 := li.2
    by_cases hcr : t1.crowded = true
    · -- the copy has no freed slot
      obtain ⟨t2, f1, f2, f3, f4, f5, f6⟩ := resize_spec g1 (by omega)
      obtain ⟨t3, e1, e2, e3, e4, e5, e6⟩ := insertRaw_spec (k := k) f2 v (by omega)
        (by rw [f6]; exact hk1)
      unfold insert at ha
      rw [if_pos hcr, f1] at ha
      simp only [e1, Option.some.injEq] at ha
      subst ha
      exact ⟨[], fun n hn => absurd hn (e6 f5 n), by simp⟩
    · unfold insert at ha
      rw [if_neg hcr] at ha
      simp only at ha
      obtain ⟨m, hm, hs, hnf, hl⟩ := insertRaw_slot g1.pos ha
      have hlt : (h k + m) % t1.size < t1.slots.length := Nat.mod_lt _ g1.pos
      unfold delete at hd
      rcases lookupEntry_spec inv k with ⟨q1, _, _⟩ | ⟨q1, _⟩ | ⟨n, w, q1, q2⟩
      · rw [q1] at hd; simp at hd
      · rw [q1] at hd
        simp only [Option.some.injEq] at hd
        subst hd
        exact frb_set hlt hs hf
      · rw [q1] at hd
        simp only [Option.some.injEq] at hd
        have hnl : n < t.slots.length := (List.getElem?_eq_some_iff.1 q2).1
        have hg : ∀ i, t1.slots[i]? = if i = n then some .freed else t.slots[i]? := by
          intro i; rw [← hd]; exact set_get _ hnl i
        obtain ⟨d, hd1, hd2, hd3⟩ := inv.reach n k w q2
        have hmd : m ≤ d := by
          by_contra hgt
          obtain ⟨a, b, hab⟩ := hl d (by omega)
          rw [g2, hd2, hg, if_pos rfl] at hab
          simp at hab
        have hfr : t1.slots[(h k + m) % t1.size]? = some .freed := by
          obtain ⟨s, hsl⟩ := slot_some (t := t1) m g1.pos (h k)
          cases s with
          | freed => exact hsl
          | full a b => exact absurd hsl (hnf a b)
          | empty =>
            exfalso
            rw [hg] at hsl
            split at hsl
            · simp at hsl
            · rename_i hne
              rcases Nat.lt_or_eq_of_le hmd with h5 | h5
              · rw [g2] at hsl; exact hd3 m h5 hsl
              · rw [g2, h5, hd2] at hne; exact hne rfl
        apply frb_reuse hfr hs
        obtain ⟨fr, h1, h2⟩ := hf
        refine ⟨n :: fr, ?_, by simp; omega⟩
        intro i hi
        rw [hg] at hi
        split at hi
        · rename_i e; simp [e]
        · simp [h1 i hi]
  · simp at ha

/-- As long as entries and freed slots do not fill the table there is an empty
slot. -/
theorem empty_of_frb {t : Tbl K V} {h : K → Nat} (inv : Inv h t) {D : Nat} (hf : FrB t D)
    (hc : t.count + D < t.size) : ∃ n : Nat, t.slots[n]? = some .empty := by
  by_contra hno
  push Not at hno
  obtain ⟨fr, h1, h2⟩ := hf
  have hsub : ∀ i ∈ List.range t.size, i ∈ t.ord ++ fr := by
    intro i hi
    have hlt : i < t.slots.length := List.mem_range.1 hi
    have hs : t.slots[i]? = some t.slots[i] := List.getElem?_eq_getElem hlt
    rw [List.mem_append]
    cases hx : t.slots[i] with
    | empty => rw [hx] at hs; exact absurd hs (hno i)
    | freed => rw [hx] at hs; exact Or.inr (h1 i hs)
    | full k v => rw [hx] at hs; exact Or.inl ((inv.mem i).2 ⟨k, v, hs⟩)
  have h3 := (List.subperm_of_subset List.nodup_range hsub).length_le
  rw [List.length_range, List.length_append, ← inv.cnt] at h3
  omega

/-! ### Arrays -/

/-- `struct jl_array_list` (internal_arraylist.h:24-30): `size` is the length of
`cells`; a NULL element is `none`. -/
structure Arr (V : Type) where
  cells : List (Option V)
  len : Nat
deriving DecidableEq, Repr

/-- mtev_json_arraylist.c:27-42 `jl_array_list_new`
(`MTEV_ARRAY_LIST_DEFAULT_SIZE` is 32). -/
def arrNew : Arr V := ⟨List.replicate 32 none, 0⟩

/-- mtev_json_arraylist.c:54-59 `jl_array_list_get_idx`: only the upper bound is
checked. -/
def arrGet (a : Arr V) (i : Int) : Out (Option V) :=
  if (a.len : Int) ≤ i then .ok none
  else if i < 0 then .ub
  else match a.cells[i.toNat]? with
    | some x => .ok x
    | none => .ub

/-- mtev_json_arraylist.c:61-73 `jl_array_list_expand_internal`; `size << 1`
beyond the range of `int` is undefined. -/
def arrExpand (a : Arr V) (max : Int) : Out (Arr V) :=
  if max < (a.cells.length : Int) then .ok a
  else if 2147483648 ≤ a.cells.length * 2 then .ub
  else
    let newSize := if a.cells.length * 2 < max.toNat then max.toNat else a.cells.length * 2
    .ok { a with cells := a.cells ++ List.replicate (newSize - a.cells.length) none }

/-- mtev_json_arraylist.c:75-83 `jl_array_list_put_idx`: the new array and the
element released by `free_fn`. -/
def arrPut (a : Arr V) (i : Int) (x : Option V) : Out (Arr V × Option V) :=
  if 2147483647 ≤ i then .ub
  else match arrExpand a (i + 1) with
    | .ok b =>
      if i < 0 then .ub
      else match b.cells[i.toNat]? with
        | some old =>
          .ok (⟨b.cells.set i.toNat x, if b.len ≤ i.toNat then i.toNat + 1 else b.len⟩, old)
        | none => .ub
    | .ub => .ub
    | .abort => .abort

/-- mtev_json_arraylist.c:85-89 `jl_array_list_add`. -/
def arrAdd (a : Arr V) (x : Option V) : Out (Arr V × Option V) := arrPut a a.len x

/-- The array holds the list `l`; everything behind it is NULL. -/
structure Holds (a : Arr V) (l : List (Option V)) : Prop where
  len : a.len = l.length
  fits : a.len ≤ a.cells.length
  big : 32 ≤ a.cells.length
  at_ : ∀ i, a.cells[i]? = if i < a.cells.length then some ((l[i]?).getD none) else none

theorem holds_new : Holds (arrNew : Arr V) [] := by
  refine ⟨rfl, by simp [arrNew], by simp [arrNew], ?_⟩
  intro i
  show (List.replicate 32 none)[i]? = if i < (List.replicate 32 (none : Option V)).length then _ else _
  rw [List.getElem?_replicate, List.length_replicate]
  rfl

theorem holds_get {a : Arr V} {l : List (Option V)} (ha : Holds a l) {i : Int} (hi : 0 ≤ i) :
    arrGet a i = .ok ((l[i.toNat]?).getD none) := by
  unfold arrGet
  have hl := ha.len
  by_cases hle : (a.len : Int) ≤ i
  · rw [if_pos hle, List.getElem?_eq_none (by omega)]; rfl
  · rw [if_neg hle, if_neg (by omega), ha.at_, if_pos (by have := ha.fits; omega)]

theorem holds_put {a : Arr V} {l : List (Option V)} (ha : Holds a l) {i : Nat}
    (hi : i < 1073741823) (x : Option V) :
    ∃ b, arrPut a i x = .ok (b, (l[i]?).getD none) ∧
      Holds b ((l ++ List.replicate (i + 1 - l.length) none).set i x) := by
  obtain ⟨h1, h2, h3, h4⟩ := ha
  obtain ⟨b, he, hb1, hb2, hb3, hb4⟩ : ∃ b, arrExpand a ((i : Int) + 1) = .ok b ∧
      b.len = a.len ∧ i < b.cells.length ∧ a.cells.length ≤ b.cells.length ∧
      ∀ j, b.cells[j]? = if j < b.cells.length then some ((l[j]?).getD none) else none := by
    unfold arrExpand
    by_cases hs : ((i : Int) + 1) < (a.cells.length : Int)
    · rw [if_pos hs]; exact ⟨a, rfl, rfl, by omega, Nat.le_refl _, h4⟩
    · rw [if_neg hs, if_neg (by omega)]
      have hcat : ∀ N, a.cells.length ≤ N → ∀ j,
          (a.cells ++ List.replicate (N - a.cells.length) none)[j]? =
            if j < N then some ((l[j]?).getD none) else none := by
        intro N hN j
        by_cases hj : j < a.cells.length
        · rw [List.getElem?_append_left hj, h4, if_pos hj, if_pos (by omega)]
        · rw [List.getElem?_append_right (by omega), List.getElem?_replicate,
            List.getElem?_eq_none (l := l) (by omega)]
          by_cases hjN : j < N
          · rw [if_pos (by omega), if_pos hjN]; rfl
          · rw [if_neg (by omega), if_neg hjN]
      refine ⟨_, rfl, rfl, ?_, ?_, ?_⟩
      · simp only [List.length_append, List.length_replicate]
        split <;> omega
      · simp
      · intro j
        simp only [List.length_append, List.length_replicate]
        rw [hcat _ (by split <;> omega)]
        congr 1
        split <;> simp <;> omega
  unfold arrPut
  rw [if_neg (by omega), he]
  simp only
  rw [if_neg (by omega), Int.toNat_natCast, hb4, if_pos hb2]
  refine ⟨_, rfl, ?_⟩
  refine ⟨?_, ?_, ?_, ?_⟩
  · simp only [List.length_set, List.length_append, List.length_replicate]
    split <;> omega
  · simp only [List.length_set]
    split <;> omega
  · simp only [List.length_set]; omega
  · intro j
    simp only [List.length_set]
    rw [List.getElem?_set, List.getElem?_set]
    by_cases e : i = j
    · subst e
      rw [if_pos rfl, if_pos rfl, if_pos hb2, if_pos hb2, if_pos (by
        simp only [List.length_append, List.length_replicate]; omega)]
      rfl
    · rw [if_neg e, if_neg e, hb4]
      split
      · congr 1
        by_cases hj : j < l.length
        · rw [List.getElem?_append_left hj]
        · rw [List.getElem?_eq_none (by omega), List.getElem?_append_right (by omega),
            List.getElem?_replicate]
          split <;> rfl
      · rfl

end Mtev.JsonStore
