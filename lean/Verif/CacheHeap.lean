import Verif.Mem

/-!
# Reference counted cache entries (shared by the LRU and LFU models)

Entries are identified by their allocation number: entry `n` is the one made by the `n`-th `put`.
Touching an entry after it was freed is undefined behaviour.
-/

namespace Mtev.Cache

/-- `struct lru_entry` (/repo/src/utils/mtev_lru.c:62-80 region) and `struct lfu_entry`
(/repo/src/utils/mtev_lfu.c:14-26): key bytes, value pointer (`none` is NULL), reference count.
`live` is false once `free` was called on it.  Simplified: the reference count is a natural number,
not a 64-bit word. -/
structure Entry where
  key : List Nat
  val : Option Nat
  ref : Nat
  live : Bool
deriving DecidableEq, Repr

/-- All entries ever allocated, and the calls of `free_fn` made so far (which entry, with which
argument). -/
structure Heap where
  ent : Nat → Entry
  next : Nat
  freed : List (Nat × Option Nat)

/-- Before the first allocation. -/
def Heap.empty : Heap := ⟨fun _ => ⟨[], none, 0, false⟩, 0, []⟩

/-- Replace one entry. -/
def Heap.set (h : Heap) (i : Nat) (e : Entry) : Heap :=
  { h with ent := fun j => if j = i then e else h.ent j }

/-- `malloc` and initialisation of an entry, mtev_lru.c:184-188 / mtev_lfu.c:315-319. -/
def Heap.alloc (h : Heap) (k : List Nat) (v : Nat) : Heap :=
  { ent := fun j => if j = h.next then ⟨k, some v, 1, true⟩ else h.ent j,
    next := h.next + 1, freed := h.freed }

/-- `ck_pr_inc_64(&r->ref_cnt)`, mtev_lru.c:231 / mtev_lfu.c:373. -/
def Heap.retain (h : Heap) (i : Nat) : Out Heap :=
  if (h.ent i).live then .ok (h.set i { h.ent i with ref := (h.ent i).ref + 1 }) else .ub

/-- `mtev_lru_release`, mtev_lru.c:241-256; `mtev_lfu_release_f`, mtev_lfu.c:383-398. -/
def Heap.release (h : Heap) (i : Nat) : Out Heap :=
  if (h.ent i).live then
    if (h.ent i).ref = 1 then
      .ok { h.set i { h.ent i with ref := 0, live := false } with freed := h.freed ++ [(i, (h.ent i).val)] }
    else .ok (h.set i { h.ent i with ref := (h.ent i).ref - 1 })
  else .ub

/-- `r->entry = NULL`, mtev_lru.c:286 / mtev_lfu.c:442. -/
def Heap.clearVal (h : Heap) (i : Nat) : Out Heap :=
  if (h.ent i).live then .ok (h.set i { h.ent i with val := none }) else .ub

/-- `own i` references to entry `i` exist. -/
structure Owned (h : Heap) (own : Nat → Nat) : Prop where
  ref_eq : ∀ i, (h.ent i).live = true → (h.ent i).ref = own i ∧ 1 ≤ own i
  dead : ∀ i, (h.ent i).live = false → own i = 0
  fresh : ∀ i, h.next ≤ i → (h.ent i).live = false
  freed_once : ∀ i, (h.freed.map Prod.fst).count i = if i < h.next ∧ (h.ent i).live = false then 1 else 0
  freed_val : ∀ p ∈ h.freed, p.2 = (h.ent p.1).val

theorem Owned.freed_dead {h : Heap} {own : Nat → Nat} (o : Owned h own) {p : Nat × Option Nat}
    (hp : p ∈ h.freed) : (h.ent p.1).live = false ∧ p.1 < h.next := by
  have h1 := o.freed_once p.1
  have h2 : 0 < (h.freed.map Prod.fst).count p.1 := List.count_pos_iff.2 (List.mem_map_of_mem hp)
  split at h1
  · rename_i hc; exact ⟨hc.2, hc.1⟩
  · omega

theorem Owned.live {h : Heap} {own : Nat → Nat} (o : Owned h own) {i : Nat} (hi : 1 ≤ own i) :
    (h.ent i).live = true := by
  by_contra hc
  have := o.dead i (by simpa using hc)
  omega

theorem Owned.lt {h : Heap} {own : Nat → Nat} (o : Owned h own) {i : Nat} (hi : 1 ≤ own i) : i < h.next := by
  by_contra hc
  have h1 := o.fresh i (by omega)
  have h2 := o.live hi
  rw [h1] at h2
  exact Bool.noConfusion h2

theorem owned_empty : Owned Heap.empty (fun _ => 0) :=
  ⟨by simp [Heap.empty], by simp [Heap.empty], by simp [Heap.empty], by simp [Heap.empty], by simp [Heap.empty]⟩

theorem owned_congr {h : Heap} {f g : Nat → Nat} (o : Owned h f) (e : ∀ i, f i = g i) : Owned h g := by
  have : f = g := funext e
  exact this ▸ o

theorem owned_alloc {h : Heap} {own : Nat → Nat} (o : Owned h own) (k : List Nat) (v : Nat) :
    Owned (h.alloc k v) (fun j => if j = h.next then 1 else own j) := by
  refine ⟨?_, ?_, ?_, ?_, ?_⟩
  · intro i hi
    by_cases c : i = h.next
    · simp [Heap.alloc, c]
    · simp [Heap.alloc, c] at hi ⊢; exact o.ref_eq i hi
  · intro i hi
    by_cases c : i = h.next
    · simp [Heap.alloc, c] at hi
    · simp [Heap.alloc, c] at hi ⊢; exact o.dead i hi
  · intro i hi
    have c : i ≠ h.next := by simp [Heap.alloc] at hi; omega
    simp [Heap.alloc, c] at hi ⊢; exact o.fresh i (by omega)
  · intro i
    have := o.freed_once i
    by_cases c : i = h.next
    · subst c; simp [Heap.alloc] at this ⊢; exact this
    · simp only [Heap.alloc, if_neg c]; rw [this]
      by_cases hd : (h.ent i).live = false
      · simp only [hd, and_true]
        by_cases hl : i < h.next
        · simp only [if_pos hl, if_pos (show i < h.next + 1 by omega)]
        · rw [if_neg hl, if_neg (by omega)]
      · simp [hd]
  · intro p hp
    have := o.freed_dead hp
    simp only [Heap.alloc, if_neg (show p.1 ≠ h.next by omega)]
    exact o.freed_val p hp

theorem owned_set {h : Heap} {own : Nat → Nat} (o : Owned h own) {i : Nat} (e : Entry)
    (hl : (h.ent i).live = true) (he : e.live = true) (n : Nat) (hn : e.ref = n) (h1 : 1 ≤ n) :
    Owned (h.set i e) (fun j => if j = i then n else own j) := by
  refine ⟨?_, ?_, ?_, ?_, ?_⟩
  · intro j hj
    by_cases c : j = i
    · simp [Heap.set, c]; exact ⟨hn, h1⟩
    · simp [Heap.set, c] at hj ⊢; exact o.ref_eq j hj
  · intro j hj
    by_cases c : j = i
    · simp [Heap.set, c, he] at hj
    · simp [Heap.set, c] at hj ⊢; exact o.dead j hj
  · intro j hj
    have hj' : h.next ≤ j := hj
    by_cases c : j = i
    · subst c; have := o.fresh j hj'; rw [hl] at this; exact Bool.noConfusion this
    · simp [Heap.set, c]; exact o.fresh j hj'
  · intro j
    have := o.freed_once j
    by_cases c : j = i
    · subst c; simp only [Heap.set, if_true, he]; rw [this, hl]
    · simp only [Heap.set, if_neg c]; exact this
  · intro p hp
    have := o.freed_dead hp
    have c : p.1 ≠ i := by intro c; rw [c, hl] at this; exact Bool.noConfusion this.1
    simp only [Heap.set, if_neg c]
    exact o.freed_val p hp

/-- What `release` leaves alone: keys and values of all entries. -/
structure SameData (h h' : Heap) : Prop where
  key : ∀ i, (h'.ent i).key = (h.ent i).key
  val : ∀ i, (h'.ent i).val = (h.ent i).val
  next : h'.next = h.next

theorem SameData.refl (h : Heap) : SameData h h := ⟨fun _ => rfl, fun _ => rfl, rfl⟩
theorem SameData.trans {a b c : Heap} (x : SameData a b) (y : SameData b c) : SameData a c :=
  ⟨fun i => (y.key i).trans (x.key i), fun i => (y.val i).trans (x.val i), y.next.trans x.next⟩

theorem retain_spec {h : Heap} {own : Nat → Nat} (o : Owned h own) {i : Nat} (hi : 1 ≤ own i) :
    ∃ h', h.retain i = .ok h' ∧ Owned h' (fun j => if j = i then own i + 1 else own j) ∧ SameData h h' := by
  have hl := o.live hi
  refine ⟨_, by unfold Heap.retain; rw [if_pos hl], owned_set o _ hl (by exact hl) _ ?_ (by omega), ?_, ?_, rfl⟩
  · simp [(o.ref_eq i hl).1]
  · intro j; by_cases c : j = i <;> simp [Heap.set, c]
  · intro j; by_cases c : j = i <;> simp [Heap.set, c]

theorem clearVal_spec {h : Heap} {own : Nat → Nat} (o : Owned h own) {i : Nat} (hi : 1 ≤ own i) :
    ∃ h', h.clearVal i = .ok h' ∧ Owned h' own ∧ (∀ j, (h'.ent j).key = (h.ent j).key) ∧
      (∀ j, (h'.ent j).val = if j = i then none else (h.ent j).val) ∧ h'.next = h.next := by
  have hl := o.live hi
  refine ⟨h.set i { h.ent i with val := none }, by unfold Heap.clearVal; rw [if_pos hl],
    owned_congr (owned_set o _ hl (by exact hl) (own i) (o.ref_eq i hl).1 hi) ?_, ?_, ?_, rfl⟩
  · intro j; by_cases c : j = i <;> simp [c]
  · intro j; by_cases c : j = i <;> simp [Heap.set, c]
  · intro j; by_cases c : j = i <;> simp [Heap.set, c]

theorem release_spec {h : Heap} {own : Nat → Nat} (o : Owned h own) {i : Nat} (hi : 1 ≤ own i) :
    ∃ h', h.release i = .ok h' ∧ Owned h' (fun j => if j = i then own i - 1 else own j) ∧ SameData h h' ∧
      h'.freed = h.freed ++ (if own i = 1 then [(i, (h.ent i).val)] else []) := by
  have hl := o.live hi
  have hr := (o.ref_eq i hl).1
  unfold Heap.release
  rw [if_pos hl]
  by_cases h1 : (h.ent i).ref = 1
  · rw [if_pos h1]
    refine ⟨_, rfl, ⟨?_, ?_, ?_, ?_, ?_⟩, ⟨?_, ?_, rfl⟩, ?_⟩
    · intro j hj
      by_cases c : j = i
      · simp [Heap.set, c] at hj
      · simp [Heap.set, c] at hj ⊢; exact o.ref_eq j hj
    · intro j hj
      by_cases c : j = i
      · simp [c]; omega
      · simp [Heap.set, c] at hj ⊢; exact o.dead j hj
    · intro j hj
      by_cases c : j = i
      · simp [Heap.set, c]
      · simp [Heap.set, c]; exact o.fresh j hj
    · intro j
      have := o.freed_once j
      by_cases c : j = i
      · subst c
        have hlt := o.lt hi
        simp [Heap.set] at this ⊢
        simp [hl] at this
        simp [this, hlt]
      · simp [Heap.set, c] at this ⊢
        rw [this]; simp [Ne.symm c]
    · intro p hp
      rw [List.mem_append, List.mem_singleton] at hp
      rcases hp with hp | hp
      · by_cases c : p.1 = i
        · simp [Heap.set, c]; rw [o.freed_val p hp, c]
        · simp [Heap.set, c]; exact o.freed_val p hp
      · subst hp; simp [Heap.set]
    · intro j; by_cases c : j = i <;> simp [Heap.set, c]
    · intro j; by_cases c : j = i <;> simp [Heap.set, c]
    · rw [if_pos (by omega)]
  · rw [if_neg h1]
    refine ⟨_, rfl, ?_, ⟨?_, ?_, rfl⟩, ?_⟩
    · exact owned_set o _ hl (by exact hl) _ (by simp [hr]) (by omega)
    · intro j; by_cases c : j = i <;> simp [Heap.set, c]
    · intro j; by_cases c : j = i <;> simp [Heap.set, c]
    · rw [if_neg (by omega)]; simp [Heap.set]

end Mtev.Cache
