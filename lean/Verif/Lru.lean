import Verif.CacheHeap

/-!
# LRU cache (/repo/src/utils/mtev_lru.c)

The mutex makes put/get/remove/invalidate atomic, so a history is a list of operations.  The
`ck_hs` hash set is trusted and is a duplicate-free list of entries looked up by key bytes.
-/

namespace Mtev.Lru
open Mtev.Cache

/-- `struct mtev_lru`, mtev_lru.c:14-23 region.  `list` is the TAILQ from head to tail.  Simplified: sizes are
unbounded integers (in bounded mode they stay at or below `max_entries`). -/
structure LRU where
  max : Int
  heap : Heap
  list : List Nat
  hash : List Nat
  size : Int
  ec : Nat

/-- `mtev_lru_create`, mtev_lru.c:86-106. -/
def create (max : Int) : LRU := ⟨max, Heap.empty, [], [], 0, 0⟩

/-- `ck_hs_get`/`ck_hs_remove` by key (trusted container). -/
def hsFind (h : Heap) (hash : List Nat) (k : List Nat) : Option Nat :=
  hash.find? (fun i => (h.ent i).key == k)

/-- `TAILQ_REMOVE`: removing an entry whose links are not in the list (never linked, or NULL) is
undefined behaviour. -/
def tailqRemove (l : List Nat) (i : Nat) : Out (List Nat) :=
  if i ∈ l then .ok (l.erase i) else .ub

/-- The loop of `mtev_lru_invalidate`, mtev_lru.c:121-125: take the first, release it. -/
def releaseAll : Heap → List Nat → Out Heap
  | h, [] => .ok h
  | h, i :: l => do let h ← h.release i; releaseAll h l

/-- `mtev_lru_invalidate`, mtev_lru.c:116-130. -/
def invalidate (c : LRU) : Out LRU := do
  let h ← releaseAll c.heap c.list
  .ok { c with heap := h, list := [], hash := [], size := 0 }

/-- `expire_oldest_lru_cache_no_lock`, mtev_lru.c:135-155.  `TAILQ_LAST` of an empty list is NULL and
is dereferenced; the garbage collection step takes a remainder by the number of hashed entries. -/
def expire (c : LRU) : Out LRU := do
  match c.list.getLast? with
  | none => .ub
  | some e =>
    let list ← tailqRemove c.list e
    let hash := match hsFind c.heap c.hash (c.heap.ent e).key with
      | some x => c.hash.erase x
      | none => c.hash
    if c.ec = 10000 ∧ hash.length = 0 then .ub
    else
      let ec := (if c.ec = 10000 then 0 else c.ec) + 1
      let h ← c.heap.release e
      .ok { c with list := list, size := c.size - 1, hash := hash, ec := ec, heap := h }

/-- `add_lru_cache_no_lock`, mtev_lru.c:157-167. -/
def add (c : LRU) (e : Nat) : Out LRU := do
  if c.max > 0 then
    let c ← if c.size + 1 > c.max then expire c else .ok c
    .ok { c with list := e :: c.list, size := c.size + 1 }
  else .ok { c with size := c.size + 1 }

/-- `touch_lru_cache_no_lock`, mtev_lru.c:169-178.  Simplified: an entry found in the hash of a bounded
cache has non-NULL links, so the guard of line 173 holds. -/
def touch (c : LRU) (e : Nat) : Out LRU := do
  if c.max > 0 then
    let list ← tailqRemove c.list e
    .ok { c with list := e :: list }
  else .ok c

/-- `mtev_lru_put`, mtev_lru.c:181-206.  `ck_hs_set` does not fail (no allocation failure). -/
def put (c : LRU) (k : List Nat) (v : Nat) : Out LRU := do
  let e := c.heap.next
  let h := c.heap.alloc k v
  match hsFind c.heap c.hash k with
  | some p =>
    let list ← tailqRemove c.list p
    let h ← h.release p
    add { c with heap := h, hash := e :: c.hash.erase p, list := list } e
  | none => add { c with heap := h, hash := e :: c.hash } e

/-- `mtev_lru_get`, mtev_lru.c:208-239: token and value. -/
def get (c : LRU) (k : List Nat) : Out (LRU × Option (Nat × Option Nat)) := do
  match hsFind c.heap c.hash k with
  | some r =>
    let c ← touch c r
    let h ← c.heap.retain r
    .ok ({ c with heap := h }, some (r, (h.ent r).val))
  | none => .ok (c, none)

/-- `mtev_lru_release` of a token, mtev_lru.c:241-256. -/
def release (c : LRU) (i : Nat) : Out LRU := do
  let h ← c.heap.release i
  .ok { c with heap := h }

/-- `mtev_lru_remove`, mtev_lru.c:259-299: returns the entry found and its value. -/
def remove (c : LRU) (k : List Nat) : Out (LRU × Option (Nat × Option Nat)) := do
  match hsFind c.heap c.hash k with
  | some r =>
    let list ← if c.max > 0 then tailqRemove c.list r else .ok c.list
    let v := (c.heap.ent r).val
    let h ← c.heap.clearVal r
    let h ← h.release r
    let hash := c.hash.erase r
    let ec := (if c.ec = 10000 ∧ hash.length > 0 then 0 else c.ec) + 1
    .ok ({ c with heap := h, list := list, hash := hash, size := c.size - 1, ec := ec }, some (r, v))
  | none => .ok (c, none)

/-! ## Invariant of a bounded cache -/

/-- Cache contents from most to least recently used. -/
def abs (c : LRU) : List (List Nat × Option Nat) :=
  c.list.map (fun i => ((c.heap.ent i).key, (c.heap.ent i).val))

/-- References expected for entry `i`: one from the cache, `held i` from clients. -/
def own (hash : List Nat) (held : Nat → Nat) (i : Nat) : Nat := (if i ∈ hash then 1 else 0) + held i

structure Inv (c : LRU) (held : Nat → Nat) : Prop where
  pos : 0 < c.max
  owned : Owned c.heap (own c.hash held)
  nodup : c.hash.Nodup
  inj : ∀ i ∈ c.hash, ∀ j ∈ c.hash, (c.heap.ent i).key = (c.heap.ent j).key → i = j
  perm : c.list.Perm c.hash
  len : (c.list.length : Int) ≤ c.size
  lim : c.size ≤ c.max

theorem inv_create {m : Int} (hm : 0 < m) : Inv (create m) (fun _ => 0) :=
  ⟨hm, owned_congr owned_empty (by simp [own, create]), by simp [create], by simp [create], by simp [create],
    by simp [create], by simp [create]; omega⟩

theorem Inv.nodupL {c : LRU} {held} (v : Inv c held) : c.list.Nodup := v.perm.nodup_iff.2 v.nodup
theorem Inv.mem {c : LRU} {held} (v : Inv c held) {i : Nat} : i ∈ c.list ↔ i ∈ c.hash := v.perm.mem_iff

theorem hsFind_some {h : Heap} {l : List Nat} {k : List Nat} {i : Nat} (e : hsFind h l k = some i) :
    i ∈ l ∧ (h.ent i).key = k := by
  unfold hsFind at e
  exact ⟨List.mem_of_find?_eq_some e, by simpa using List.find?_some e⟩

theorem hsFind_none {h : Heap} {l : List Nat} {k : List Nat} (e : hsFind h l k = none) :
    ∀ i ∈ l, (h.ent i).key ≠ k := by
  unfold hsFind at e
  intro i hi hk
  have := List.find?_eq_none.1 e i hi
  simp [hk] at this

theorem hsFind_unique {h : Heap} {l : List Nat} (inj : ∀ i ∈ l, ∀ j ∈ l, (h.ent i).key = (h.ent j).key → i = j)
    {i : Nat} (hi : i ∈ l) : hsFind h l (h.ent i).key = some i := by
  cases e : hsFind h l (h.ent i).key with
  | none => exact absurd rfl (hsFind_none e i hi)
  | some j =>
    obtain ⟨h1, h2⟩ := hsFind_some e
    rw [inj j h1 i hi h2]

/-- Removing the unique entry with key `k` is filtering the contents by key. -/
theorem map_erase_filter {h : Heap} {l : List Nat} (nd : l.Nodup)
    (inj : ∀ i ∈ l, ∀ j ∈ l, (h.ent i).key = (h.ent j).key → i = j) {p : Nat} (hp : p ∈ l) :
    (l.erase p).map (fun i => ((h.ent i).key, (h.ent i).val)) =
      (l.map (fun i => ((h.ent i).key, (h.ent i).val))).filter (fun kv => kv.1 ≠ (h.ent p).key) := by
  rw [nd.erase_eq_filter, List.filter_map]
  congr 1
  apply List.filter_congr
  intro i hi
  simp only [Function.comp]
  by_cases c : i = p
  · simp [c]
  · have : (h.ent i).key ≠ (h.ent p).key := fun e => c (inj i hi p hp e)
    simp [c, this]

theorem map_filter_none {h : Heap} {l : List Nat} {k : List Nat} (hn : ∀ i ∈ l, (h.ent i).key ≠ k) :
    (l.map (fun i => ((h.ent i).key, (h.ent i).val))).filter (fun kv => kv.1 ≠ k) =
      l.map (fun i => ((h.ent i).key, (h.ent i).val)) := by
  rw [List.filter_eq_self]
  intro a ha
  obtain ⟨i, hi, rfl⟩ := List.mem_map.1 ha
  simp [hn i hi]

theorem map_same {h h' : Heap} {l : List Nat} (d : ∀ i ∈ l, (h'.ent i).key = (h.ent i).key ∧ (h'.ent i).val = (h.ent i).val) :
    l.map (fun i => ((h'.ent i).key, (h'.ent i).val)) = l.map (fun i => ((h.ent i).key, (h.ent i).val)) := by
  apply List.map_congr_left
  intro i hi
  rw [(d i hi).1, (d i hi).2]

theorem tailqRemove_mem {l : List Nat} {i : Nat} (h : i ∈ l) : tailqRemove l i = .ok (l.erase i) := if_pos h

/-- State in the middle of `put`: the new entry is in the hash but not yet in the list. -/
structure Mid (c : LRU) (e : Nat) (held : Nat → Nat) : Prop where
  pos : 0 < c.max
  owned : Owned c.heap (own c.hash held)
  nodup : c.hash.Nodup
  inj : ∀ i ∈ c.hash, ∀ j ∈ c.hash, (c.heap.ent i).key = (c.heap.ent j).key → i = j
  perm : (e :: c.list).Perm c.hash
  len : (c.list.length : Int) ≤ c.size
  lim : c.size ≤ c.max

theorem own_erase {l : List Nat} (nd : l.Nodup) {held : Nat → Nat} {p : Nat} (hp : p ∈ l) (j : Nat) :
    (if j = p then own l held p - 1 else own l held j) = own (l.erase p) held j := by
  unfold own
  by_cases c : j = p
  · subst c; simp [hp, nd.mem_erase_iff]
  · simp [c, nd.mem_erase_iff]

theorem expire_ub {c : LRU} (h : c.list = []) : expire c = .ub := by
  unfold expire; simp [h]

theorem expire_spec {c : LRU} {e : Nat} {held} (m : Mid c e held) (hne : c.list ≠ []) :
    ∃ c', expire c = .ok c' ∧ Mid c' e held ∧ c'.list = c.list.dropLast ∧ c'.size = c.size - 1 ∧
      c'.max = c.max ∧ SameData c.heap c'.heap ∧ abs c' = (abs c).dropLast := by
  obtain ⟨l, x, hl⟩ := List.eq_nil_or_concat c.list |>.resolve_left hne
  rw [List.concat_eq_append] at hl
  have hlast : c.list.getLast? = some x := by rw [hl]; simp
  have hx : x ∈ c.list := by rw [hl]; simp
  have hxh : x ∈ c.hash := m.perm.mem_iff.1 (List.mem_cons_of_mem _ hx)
  have ndl : (e :: c.list).Nodup := m.perm.nodup_iff.2 m.nodup
  have hxe : x ≠ e := by rintro rfl; exact (List.nodup_cons.1 ndl).1 hx
  have hle : c.list.erase x = l := by
    rw [hl, List.erase_append_right]
    · simp
    · have := (List.nodup_cons.1 ndl).2
      rw [hl, List.nodup_append] at this
      intro hh; exact this.2.2 x hh x (by simp) rfl
  have hf := hsFind_unique m.inj hxh
  have hperm : (e :: l).Perm (c.hash.erase x) := by
    have := m.perm.erase x
    rwa [List.erase_cons_tail (by simpa using Ne.symm hxe), hle] at this
  obtain ⟨h', r1, r2, r3, _⟩ := release_spec m.owned (i := x) (by unfold own; simp [hxh])
  unfold expire
  rw [hlast]
  simp only [tailqRemove_mem hx, hf, Out.ok_bind, r1]
  rw [if_neg (by rintro ⟨_, h0⟩; have := hperm.length_eq; simp [h0] at this)]
  refine ⟨_, rfl, ⟨m.pos, ?_, m.nodup.erase x, ?_, ?_, ?_, ?_⟩, ?_, rfl, rfl, r3, ?_⟩
  · exact owned_congr r2 (own_erase m.nodup hxh)
  · intro i hi j hj hk
    rw [r3.key, r3.key] at hk
    exact m.inj i (List.mem_of_mem_erase hi) j (List.mem_of_mem_erase hj) hk
  · simp only [hle]; exact hperm
  · simp only [hle]; have := m.len; rw [hl] at this; simp at this; omega
  · have := m.lim; simp only; omega
  · simp only [hle]; rw [hl]; simp
  · simp only [abs, hle]
    rw [map_same (h := c.heap) (fun i _ => ⟨r3.key i, r3.val i⟩)]
    rw [hl]; simp

theorem add_spec {c : LRU} {e : Nat} {held} (m : Mid c e held) (hok : c.size + 1 > c.max → c.list ≠ []) :
    ∃ c', add c e = .ok c' ∧ Inv c' held ∧ c'.size = min (c.size + 1) c.max ∧ c'.max = c.max ∧
      SameData c.heap c'.heap ∧
      abs c' = ((c.heap.ent e).key, (c.heap.ent e).val) ::
        (if c.size + 1 > c.max then (abs c).dropLast else abs c) := by
  unfold add
  rw [if_pos m.pos]
  by_cases hs : c.size + 1 > c.max
  · obtain ⟨c1, e1, m1, l1, s1, x1, d1, a1⟩ := expire_spec m (hok hs)
    simp only [if_pos hs, e1, Out.ok_bind]
    have := m.lim
    have := m1.len
    refine ⟨_, rfl, ⟨m1.pos, m1.owned, m1.nodup, m1.inj, m1.perm, ?_, ?_⟩, ?_, x1, d1, ?_⟩
    · simp; omega
    · simp only; omega
    · simp only; omega
    · show (_ :: abs c1) = _
      simp only [a1, d1.key, d1.val, if_pos hs]
  · simp only [if_neg hs, Out.ok_bind]
    have := m.len
    refine ⟨_, rfl, ⟨m.pos, m.owned, m.nodup, m.inj, m.perm, ?_, ?_⟩, ?_, rfl, SameData.refl _, rfl⟩
    · simp; omega
    · simp only; omega
    · simp only; omega

/-- Contents without key `k`. -/
def without (k : List Nat) (l : List (List Nat × Option Nat)) : List (List Nat × Option Nat) :=
  l.filter (fun kv => kv.1 ≠ k)

theorem own_alloc {hash : List Nat} {held : Nat → Nat} {n : Nat} (hn : own hash held n = 0) (j : Nat) :
    (if j = n then 1 else own hash held j) = own (n :: hash) held j := by
  unfold own at *
  by_cases c : j = n
  · subst c; simp; split at hn <;> omega
  · simp [c]

theorem mid_fresh {c : LRU} {held} (v : Inv c held) (k : List Nat) (val : Nat)
    (hk : ∀ i ∈ c.hash, (c.heap.ent i).key ≠ k) :
    Mid { c with heap := c.heap.alloc k val, hash := c.heap.next :: c.hash } c.heap.next held := by
  have hn : own c.hash held c.heap.next = 0 := v.owned.dead _ (v.owned.fresh _ (Nat.le_refl _))
  have hnm : c.heap.next ∉ c.hash := by intro hh; unfold own at hn; rw [if_pos hh] at hn; omega
  refine ⟨v.pos, owned_congr (owned_alloc v.owned k val) (own_alloc hn), List.nodup_cons.2 ⟨hnm, v.nodup⟩, ?_,
    v.perm.cons _, v.len, v.lim⟩
  intro i hi j hj he
  have key : ∀ i, ((c.heap.alloc k val).ent i).key = if i = c.heap.next then k else (c.heap.ent i).key := by
    intro i; unfold Heap.alloc; simp only; split <;> rfl
  rw [key, key] at he
  simp only [List.mem_cons] at hi hj
  rcases hi with hi | hi <;> rcases hj with hj | hj
  · rw [hi, hj]
  · have : j ≠ c.heap.next := fun h => hnm (h ▸ hj)
    rw [if_pos hi, if_neg this] at he; exact absurd he.symm (hk j hj)
  · have : i ≠ c.heap.next := fun h => hnm (h ▸ hi)
    rw [if_neg this, if_pos hj] at he; exact absurd he (hk i hi)
  · have h1 : i ≠ c.heap.next := fun h => hnm (h ▸ hi)
    have h2 : j ≠ c.heap.next := fun h => hnm (h ▸ hj)
    rw [if_neg h1, if_neg h2] at he; exact v.inj i hi j hj he

/-- Dropping the cached entry `p` keeps the invariant except that the size is not reduced. -/
theorem inv_drop {c : LRU} {held} (v : Inv c held) {p : Nat} (hp : p ∈ c.hash) {h' : Heap}
    (o : Owned h' (own (c.hash.erase p) held)) (hk : ∀ i, (h'.ent i).key = (c.heap.ent i).key) :
    Inv { c with heap := h', hash := c.hash.erase p, list := c.list.erase p } held := by
  refine ⟨v.pos, o, v.nodup.erase p, ?_, v.perm.erase p, ?_, v.lim⟩
  · intro i hi j hj he
    rw [hk, hk] at he
    exact v.inj i (List.mem_of_mem_erase hi) j (List.mem_of_mem_erase hj) he
  · have := v.len
    have h1 := List.length_erase_of_mem (v.mem.2 hp)
    simp only [h1]; omega

theorem alloc_key (h : Heap) (k : List Nat) (v i : Nat) (hi : i ≠ h.next) : (h.alloc k v).ent i = h.ent i := by
  simp [Heap.alloc, hi]

theorem not_mem_next {c : LRU} {held} (v : Inv c held) : c.heap.next ∉ c.hash := by
  have hn : own c.hash held c.heap.next = 0 := v.owned.dead _ (v.owned.fresh _ (Nat.le_refl _))
  intro hh; unfold own at hn; rw [if_pos hh] at hn; omega

/-- Releasing then allocating and allocating then releasing another entry are the same up to the
data that matters: stated directly for the middle of a replacing `put`. -/
theorem mid_replace {c : LRU} {held} (v : Inv c held) (k : List Nat) (val : Nat) {p : Nat}
    (hp : p ∈ c.hash) (hkp : (c.heap.ent p).key = k) :
    ∃ h', (c.heap.alloc k val).release p = .ok h' ∧ SameData (c.heap.alloc k val) h' ∧
      Mid { c with heap := h', hash := c.heap.next :: c.hash.erase p, list := c.list.erase p } c.heap.next held := by
  have hnm := not_mem_next v
  have hpn : p ≠ c.heap.next := fun h => hnm (h ▸ hp)
  have hn : own c.hash held c.heap.next = 0 := v.owned.dead _ (v.owned.fresh _ (Nat.le_refl _))
  have oa := owned_alloc v.owned k val
  obtain ⟨h', r1, r2, r3, _⟩ := release_spec oa (i := p) (by simp only [if_neg hpn]; unfold own; simp [hp])
  refine ⟨h', r1, r3, ?_⟩
  have hnm' : c.heap.next ∉ c.hash.erase p := fun h => hnm (List.mem_of_mem_erase h)
  have key : ∀ i ∈ c.hash, (h'.ent i).key = (c.heap.ent i).key := by
    intro i hi; rw [r3.key, alloc_key _ _ _ _ (fun h => hnm (h ▸ hi))]
  have keyn : (h'.ent c.heap.next).key = k := by rw [r3.key]; simp [Heap.alloc]
  refine ⟨v.pos, owned_congr r2 ?_, List.nodup_cons.2 ⟨hnm', v.nodup.erase p⟩, ?_, (v.perm.erase p).cons _, ?_, v.lim⟩
  · intro j
    by_cases c1 : j = p
    · subst c1; simp only [if_true, if_neg hpn]
      unfold own; simp [hp, v.nodup.mem_erase_iff, hpn]
    · simp only [if_neg c1]
      by_cases c2 : j = c.heap.next
      · subst c2; unfold own at hn ⊢; simp; split at hn <;> omega
      · simp only [if_neg c2]; unfold own; simp [c1, c2, v.nodup.mem_erase_iff]
  · intro i hi j hj he
    simp only [List.mem_cons] at hi hj
    have ne : ∀ i ∈ c.hash.erase p, (c.heap.ent i).key ≠ k := by
      intro i hi hh
      rw [v.nodup.mem_erase_iff] at hi
      exact hi.1 (v.inj i hi.2 p hp (hh.trans hkp.symm))
    rcases hi with hi | hi <;> rcases hj with hj | hj
    · rw [hi, hj]
    · rw [hi, keyn, key j (List.mem_of_mem_erase hj)] at he; exact absurd he.symm (ne j hj)
    · rw [hj, keyn, key i (List.mem_of_mem_erase hi)] at he; exact absurd he (ne i hi)
    · rw [key i (List.mem_of_mem_erase hi), key j (List.mem_of_mem_erase hj)] at he
      exact v.inj i (List.mem_of_mem_erase hi) j (List.mem_of_mem_erase hj) he
  · have := v.len
    have h1 := List.length_erase_of_mem (v.mem.2 hp)
    simp only [h1]; omega

theorem injL {c : LRU} {held} (v : Inv c held) :
    ∀ i ∈ c.list, ∀ j ∈ c.list, (c.heap.ent i).key = (c.heap.ent j).key → i = j :=
  fun i hi j hj => v.inj i (v.mem.1 hi) j (v.mem.1 hj)

/-- Complete description of `put` on a bounded cache, including how the recorded size moves. -/
theorem put_spec {c : LRU} {held} (v : Inv c held) (k : List Nat) (val : Nat)
    (hok : c.size + 1 > c.max → without k (abs c) ≠ []) :
    ∃ c', put c k val = .ok c' ∧ Inv c' held ∧ c'.size = min (c.size + 1) c.max ∧ c'.max = c.max ∧
      SameData (c.heap.alloc k val) c'.heap ∧
      abs c' = (k, some val) :: (if c.size + 1 > c.max then (without k (abs c)).dropLast else without k (abs c)) := by
  unfold put
  have hnm := not_mem_next v
  cases hf : hsFind c.heap c.hash k with
  | none =>
    have hk := hsFind_none hf
    have m := mid_fresh v k val hk
    have ha : abs { c with heap := c.heap.alloc k val, hash := c.heap.next :: c.hash } = abs c := by
      unfold abs
      apply map_same
      intro i hi
      simp only
      rw [alloc_key _ _ _ _ (fun h => hnm (h ▸ v.mem.1 hi))]
      exact ⟨rfl, rfl⟩
    have hw : without k (abs c) = abs c := map_filter_none (fun i hi => hk i (v.mem.1 hi))
    obtain ⟨c', e1, i1, s1, x1, d1, a1⟩ := add_spec m (by
      intro h hl; apply hok h; rw [hw]; unfold abs; simp only at hl; rw [hl]; rfl)
    refine ⟨c', e1, i1, s1, x1, d1, ?_⟩
    rw [a1, ha, hw]
    simp [Heap.alloc]
  | some p =>
    obtain ⟨hp, hkp⟩ := hsFind_some hf
    obtain ⟨h', r1, r2, m⟩ := mid_replace v k val hp hkp
    have hpl := v.mem.2 hp
    simp only [tailqRemove_mem hpl, Out.ok_bind, r1]
    have hw : (c.list.erase p).map (fun i => ((c.heap.ent i).key, (c.heap.ent i).val)) = without k (abs c) := by
      rw [map_erase_filter v.nodupL (injL v) hpl, hkp]; rfl
    have ha : abs { c with heap := h', hash := c.heap.next :: c.hash.erase p, list := c.list.erase p } =
        without k (abs c) := by
      rw [← hw]; unfold abs
      apply map_same
      intro i hi
      simp only
      rw [r2.key, r2.val, alloc_key _ _ _ _ (fun h => hnm (h ▸ v.mem.1 (List.mem_of_mem_erase hi)))]
      exact ⟨rfl, rfl⟩
    obtain ⟨c', e1, i1, s1, x1, d1, a1⟩ := add_spec m (by
      intro h hl; apply hok h; rw [← hw]; simp only at hl; rw [hl]; rfl)
    refine ⟨c', e1, i1, s1, x1, r2.trans d1, ?_⟩
    rw [a1, ha]
    simp only [r2.key, r2.val]
    simp [Heap.alloc]

/-- When the recorded size says full but nothing is left to evict, `put` dereferences NULL. -/
theorem put_ub {c : LRU} {held} (v : Inv c held) (k : List Nat) (val : Nat)
    (hs : c.size + 1 > c.max) (hw : without k (abs c) = []) : put c k val = .ub := by
  have hadd : ∀ (c : LRU) (e : Nat), c.max > 0 → c.size + 1 > c.max → c.list = [] → add c e = .ub := by
    intro c e h1 h2 h3
    unfold add
    rw [if_pos h1]
    simp only [if_pos h2, expire_ub h3, Out.ub_bind]
  unfold put
  cases hf : hsFind c.heap c.hash k with
  | none =>
    have hk := hsFind_none hf
    have hw' : without k (abs c) = abs c := map_filter_none (fun i hi => hk i (v.mem.1 hi))
    refine hadd _ _ v.pos hs ?_
    rw [hw'] at hw
    simpa [abs] using hw
  | some p =>
    obtain ⟨hp, hkp⟩ := hsFind_some hf
    obtain ⟨h', r1, r2, m⟩ := mid_replace v k val hp hkp
    have hpl := v.mem.2 hp
    simp only [tailqRemove_mem hpl, Out.ok_bind, r1]
    refine hadd _ _ v.pos hs ?_
    have hw' : (c.list.erase p).map (fun i => ((c.heap.ent i).key, (c.heap.ent i).val)) = without k (abs c) := by
      rw [map_erase_filter v.nodupL (injL v) hpl, hkp]; rfl
    rw [hw] at hw'
    simpa using hw'

/-- The cached value under `k`, if any (specification-side lookup in the contents). -/
def lookup (k : List Nat) (l : List (List Nat × Option Nat)) : Option (Option Nat) :=
  (l.find? (fun kv => kv.1 == k)).map Prod.snd

theorem lookup_hit {c : LRU} {held} (v : Inv c held) {k : List Nat} {p : Nat} (hf : hsFind c.heap c.hash k = some p) :
    lookup k (abs c) = some (c.heap.ent p).val := by
  obtain ⟨hp, hkp⟩ := hsFind_some hf
  have hpl := v.mem.2 hp
  unfold lookup abs
  rw [List.find?_map]
  have : c.list.find? ((fun kv : List Nat × Option Nat => kv.1 == k) ∘ fun i => ((c.heap.ent i).key, (c.heap.ent i).val)) = some p := by
    have := hsFind_unique (injL v) hpl
    rw [hkp] at this
    exact this
  rw [this]; rfl

theorem lookup_miss {c : LRU} {held} (v : Inv c held) {k : List Nat} (hf : hsFind c.heap c.hash k = none) :
    lookup k (abs c) = none := by
  have hk := hsFind_none hf
  unfold lookup
  rw [List.find?_eq_none.2]
  · rfl
  · intro x hx
    obtain ⟨i, hi, rfl⟩ := List.mem_map.1 hx
    simpa using hk i (v.mem.1 hi)

theorem get_miss {c : LRU} {held} (v : Inv c held) (k : List Nat) (h : lookup k (abs c) = none) :
    get c k = .ok (c, none) := by
  unfold get
  cases hf : hsFind c.heap c.hash k with
  | none => rfl
  | some p => rw [lookup_hit v hf] at h; exact absurd h (by simp)

theorem get_hit {c : LRU} {held} (v : Inv c held) (k : List Nat) {x : Option Nat} (h : lookup k (abs c) = some x) :
    ∃ c' p, get c k = .ok (c', some (p, x)) ∧ Inv c' (fun j => if j = p then held p + 1 else held j) ∧
      c'.size = c.size ∧ c'.max = c.max ∧ SameData c.heap c'.heap ∧ abs c' = (k, x) :: without k (abs c) ∧
      p ∈ c.hash := by
  unfold get
  cases hf : hsFind c.heap c.hash k with
  | none => rw [lookup_miss v hf] at h; exact absurd h (by simp)
  | some p =>
    rw [lookup_hit v hf] at h
    obtain ⟨hp, hkp⟩ := hsFind_some hf
    have hpl := v.mem.2 hp
    have hx : (c.heap.ent p).val = x := by simpa using h
    obtain ⟨h', r1, r2, r3⟩ := retain_spec v.owned (i := p) (by unfold own; simp [hp])
    subst hx
    unfold touch
    simp only [if_pos (show c.max > 0 from v.pos), tailqRemove_mem hpl, Out.ok_bind, r1, r3.val]
    refine ⟨_, p, rfl, ⟨v.pos, owned_congr r2 ?_, v.nodup, ?_, ?_, ?_, v.lim⟩, rfl, rfl, r3, ?_, hp⟩
    · intro j; by_cases c1 : j = p <;> simp [own, c1] ; omega
    · intro i hi j hj he
      rw [r3.key, r3.key] at he; exact v.inj i hi j hj he
    · exact (List.perm_cons_erase hpl).symm.trans v.perm
    · have := v.len
      have h1 := List.length_erase_of_mem hpl
      have h2 := List.length_pos_of_mem hpl
      simp only [List.length_cons, h1]; omega
    · unfold abs without
      rw [map_same (h := c.heap) (fun i _ => ⟨r3.key i, r3.val i⟩), List.map_cons, map_erase_filter v.nodupL (injL v) hpl, hkp]

theorem remove_miss {c : LRU} {held} (v : Inv c held) (k : List Nat) (h : lookup k (abs c) = none) :
    remove c k = .ok (c, none) := by
  unfold remove
  cases hf : hsFind c.heap c.hash k with
  | none => rfl
  | some p => rw [lookup_hit v hf] at h; exact absurd h (by simp)

theorem remove_hit {c : LRU} {held} (v : Inv c held) (k : List Nat) {x : Option Nat} (h : lookup k (abs c) = some x) :
    ∃ c' p, remove c k = .ok (c', some (p, x)) ∧ Inv c' held ∧ c'.size = c.size - 1 ∧ c'.max = c.max ∧
      abs c' = without k (abs c) ∧ p ∈ c.hash ∧ p ∉ c'.hash ∧
      (∀ i, (c'.heap.ent i).key = (c.heap.ent i).key) ∧
      (∀ i, (c'.heap.ent i).val = if i = p then none else (c.heap.ent i).val) ∧ c'.heap.next = c.heap.next := by
  unfold remove
  cases hf : hsFind c.heap c.hash k with
  | none => rw [lookup_miss v hf] at h; exact absurd h (by simp)
  | some p =>
    rw [lookup_hit v hf] at h
    obtain ⟨hp, hkp⟩ := hsFind_some hf
    have hpl := v.mem.2 hp
    have hx : (c.heap.ent p).val = x := by simpa using h
    have h1p : 1 ≤ own c.hash held p := by unfold own; simp [hp]
    obtain ⟨h0, r1, r2, rk, rv, rn⟩ := clearVal_spec v.owned h1p
    subst hx
    obtain ⟨h', q1, q2, q3, _⟩ := release_spec r2 h1p
    simp only [if_pos (show c.max > 0 from v.pos), tailqRemove_mem hpl, Out.ok_bind, r1, q1]
    have key : ∀ i, (h'.ent i).key = (c.heap.ent i).key := by
      intro i; rw [q3.key, rk]
    have vals : ∀ i, (h'.ent i).val = if i = p then none else (c.heap.ent i).val := by
      intro i; rw [q3.val, rv]
    have iv := inv_drop v hp (owned_congr q2 (own_erase v.nodup hp)) key
    refine ⟨_, p, rfl, ⟨v.pos, iv.owned, iv.nodup, iv.inj, iv.perm, ?_, ?_⟩, rfl, rfl, ?_, hp, ?_, key, vals, q3.next.trans rn⟩
    · have := v.len
      have h1 := List.length_erase_of_mem hpl
      have h2 := List.length_pos_of_mem hpl
      simp only [h1]; omega
    · have := v.lim; simp only; omega
    · unfold abs without
      simp only
      have e1 : (c.list.erase p).map (fun i => ((h'.ent i).key, (h'.ent i).val)) =
          (c.list.erase p).map (fun i => ((c.heap.ent i).key, (c.heap.ent i).val)) := by
        apply map_same
        intro i hi
        have : i ≠ p := (v.nodupL.mem_erase_iff.1 hi).1
        exact ⟨key i, by rw [vals, if_neg this]⟩
      rw [e1, map_erase_filter v.nodupL (injL v) hpl, hkp]
    · intro hh
      exact (v.nodup.mem_erase_iff.1 hh).1 rfl

theorem release_tok {c : LRU} {held} (v : Inv c held) {i : Nat} (hi : 1 ≤ held i) :
    ∃ c', release c i = .ok c' ∧ Inv c' (fun j => if j = i then held i - 1 else held j) ∧
      c'.size = c.size ∧ c'.max = c.max ∧ abs c' = abs c ∧ SameData c.heap c'.heap := by
  obtain ⟨h', q1, q2, q3, _⟩ := release_spec v.owned (i := i) (by unfold own; omega)
  unfold release
  simp only [q1, Out.ok_bind]
  refine ⟨_, rfl, ⟨v.pos, owned_congr q2 ?_, v.nodup, ?_, v.perm, v.len, v.lim⟩, rfl, rfl, ?_, q3⟩
  · intro j; by_cases c1 : j = i
    · subst c1; simp [own]; omega
    · simp [own, c1]
  · intro a ha b hb he; rw [q3.key, q3.key] at he; exact v.inj a ha b hb he
  · exact map_same (fun a _ => ⟨q3.key a, q3.val a⟩)

theorem releaseAll_spec {held : Nat → Nat} : ∀ (l : List Nat) (h : Heap), l.Nodup → Owned h (own l held) →
    ∃ h', releaseAll h l = .ok h' ∧ Owned h' (own [] held) ∧ SameData h h'
  | [], h, _, o => ⟨h, rfl, o, SameData.refl h⟩
  | i :: l, h, nd, o => by
    obtain ⟨h1, q1, q2, q3, _⟩ := release_spec o (i := i) (by unfold own; simp)
    have nd' := List.nodup_cons.1 nd
    have o1 : Owned h1 (own l held) := owned_congr q2 (by
      intro j; by_cases c : j = i
      · subst c; simp [own, nd'.1]
      · simp [own, c])
    obtain ⟨h2, r1, r2, r3⟩ := releaseAll_spec l h1 nd'.2 o1
    refine ⟨h2, ?_, r2, q3.trans r3⟩
    unfold releaseAll; simp only [q1, Out.ok_bind, r1]

theorem invalidate_spec {c : LRU} {held} (v : Inv c held) :
    ∃ c', invalidate c = .ok c' ∧ Inv c' held ∧ c'.size = 0 ∧ c'.max = c.max ∧ abs c' = [] ∧ SameData c.heap c'.heap := by
  have o : Owned c.heap (own c.list held) := owned_congr v.owned (by
    intro j; unfold own; by_cases hj : j ∈ c.hash
    · simp [hj, v.mem.2 hj]
    · have : j ∉ c.list := fun h => hj (v.mem.1 h)
      simp [hj, this])
  obtain ⟨h', q1, q2, q3⟩ := releaseAll_spec c.list c.heap v.nodupL o
  unfold invalidate
  simp only [q1, Out.ok_bind]
  refine ⟨_, rfl, ⟨v.pos, q2, by simp, by simp, by simp, by simp, ?_⟩, rfl, rfl, rfl, q3⟩
  have := v.pos; simp only; omega

end Mtev.Lru
