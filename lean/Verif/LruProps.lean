import Verif.Lru
import Mathlib.Data.List.Perm.Subperm

/-!
# C18: the LRU cache

Histories are arbitrary lists of operations.  A client only releases tokens it holds: `World` counts
the tokens handed out and `step` ignores a release the client has no right to.
-/

namespace Mtev.Lru
open Mtev.Cache

inductive Op where
  | put (k : List Nat) (v : Nat)
  | get (k : List Nat)
  | release (tok : Nat)
  | remove (k : List Nat)
  | invalidate
deriving DecidableEq, Repr

/-- What a caller sees: nothing, a miss, or a hit with the value (`none` is NULL). -/
inductive Res where
  | done
  | miss
  | hit (x : Option Nat)
deriving DecidableEq, Repr

/-- The cache together with what its users know: tokens held, the sequence of puts made (the token of
the `i`-th put is `i`), and which of them were handed out by `remove`. -/
structure World where
  c : LRU
  held : Nat → Nat
  puts : List (List Nat × Nat)
  removed : List Nat

def world (max : Int) : World := ⟨create max, fun _ => 0, [], []⟩

def step (w : World) : Op → Out (World × Res)
  | .put k v => do
    let c ← put w.c k v
    .ok ({ w with c := c, puts := w.puts ++ [(k, v)] }, .done)
  | .get k => do
    let r ← get w.c k
    match r with
    | (c, none) => .ok ({ w with c := c }, .miss)
    | (c, some (t, x)) => .ok ({ w with c := c, held := fun j => if j = t then w.held t + 1 else w.held j }, .hit x)
  | .release t =>
    if 1 ≤ w.held t then do
      let c ← release w.c t
      .ok ({ w with c := c, held := fun j => if j = t then w.held t - 1 else w.held j }, .done)
    else .ok (w, .done)
  | .remove k => do
    let r ← remove w.c k
    match r with
    | (c, none) => .ok ({ w with c := c }, .miss)
    | (c, some (t, x)) => .ok ({ w with c := c, removed := t :: w.removed }, .hit x)
  | .invalidate => do
    let c ← invalidate w.c
    .ok ({ w with c := c }, .done)

/-- Run a history, collecting the results. -/
def run (w : World) : List Op → Out (World × List Res)
  | [] => .ok (w, [])
  | op :: h => do
    let r ← step w op
    let q ← run r.1 h
    .ok (q.1, r.2 :: q.2)

/-! ## Specification -/

/-- The ideal bounded cache: pairs from most to least recently used. -/
def ideal (M : Nat) (l : List (List Nat × Nat)) : Op → List (List Nat × Nat) × Res
  | .put k v => (((k, v) :: l.filter (fun kv => kv.1 ≠ k)).take M, .done)
  | .get k => match l.find? (fun kv => kv.1 == k) with
    | some kv => (kv :: l.filter (fun kv => kv.1 ≠ k), .hit (some kv.2))
    | none => (l, .miss)
  | .release _ => (l, .done)
  | .remove k => match l.find? (fun kv => kv.1 == k) with
    | some kv => (l.filter (fun kv => kv.1 ≠ k), .hit (some kv.2))
    | none => (l, .miss)
  | .invalidate => ([], .done)

def idealRun (M : Nat) (l : List (List Nat × Nat)) : List Op → List (List Nat × Nat) × List Res
  | [] => (l, [])
  | op :: h => let r := ideal M l op; let q := idealRun M r.1 h; (q.1, r.2 :: q.2)

/-- No `put` of a key that is in the cache at that moment. -/
def NoReplace (M : Nat) (l : List (List Nat × Nat)) : List Op → Prop
  | [] => True
  | op :: h => (match op with | .put k _ => ∀ kv ∈ l, kv.1 ≠ k | _ => True) ∧ NoReplace M (ideal M l op).1 h

/-- The value a correct map would hold under `k` after a history (no eviction). -/
def cur (k : List Nat) (o : Option Nat) : Op → Option Nat
  | .put k' v => if k' = k then some v else o
  | .remove k' => if k' = k then none else o
  | .invalidate => none
  | _ => o

def lastPut (k : List Nat) (h : List Op) : Option Nat := h.foldl (cur k) none

/-! ## Invariant over histories -/

structure WInv (w : World) : Prop where
  inv : Inv w.c w.held
  cnt : w.c.heap.next = w.puts.length
  data : ∀ i k v, w.puts[i]? = some (k, v) →
    (w.c.heap.ent i).key = k ∧ (w.c.heap.ent i).val = if i ∈ w.removed then none else some v
  rem : ∀ i ∈ w.removed, i ∉ w.c.hash ∧ i < w.puts.length
  remNd : w.removed.Nodup

theorem WInv.lt {w : World} (v : WInv w) {i : Nat} (h : i ∈ w.c.hash) : i < w.puts.length := by
  rw [← v.cnt]
  exact v.inv.owned.lt (by unfold own; simp [h])

theorem WInv.same {w : World} (v : WInv w) {c' : LRU} {held'} (i1 : Inv c' held') (d : SameData w.c.heap c'.heap)
    (hm : ∀ i ∈ w.removed, i ∉ c'.hash) :
    WInv { w with c := c', held := held' } := by
  refine ⟨i1, d.next.trans v.cnt, ?_, fun i hi => ⟨hm i hi, (v.rem i hi).2⟩, v.remNd⟩
  intro i k x hi
  simp only [d.key, d.val]
  exact v.data i k x hi

/-- The values of cached entries are the ones put, so no cached entry has a NULL value. -/
theorem abs_val {w : World} (v : WInv w) : ∀ kv ∈ abs w.c, ∃ x, kv.2 = some x := by
  intro kv hkv
  obtain ⟨i, hi, rfl⟩ := List.mem_map.1 hkv
  have hh := v.inv.mem.1 hi
  have hl := v.lt hh
  rcases hp : w.puts[i] with ⟨k, x⟩
  have h1 := v.data i k x (by rw [List.getElem?_eq_getElem hl, hp])
  have h2 : i ∉ w.removed := fun h => (v.rem i h).1 hh
  exact ⟨x, by simp only [h1.2, if_neg h2]⟩

theorem removed_dead {w : World} (v : WInv w) {c' : LRU} (i1 : ∃ held', Inv c' held')
    (hk : ∀ i ∈ c'.hash, (∃ x, (c'.heap.ent i).val = some x)) (hv : ∀ i ∈ w.removed, (c'.heap.ent i).val = none) :
    ∀ i ∈ w.removed, i ∉ c'.hash := by
  intro i hi hc
  obtain ⟨x, hx⟩ := hk i hc
  rw [hv i hi] at hx
  exact absurd hx (by simp)

theorem hash_val_of_abs {c : LRU} {held} (v : Inv c held) (h : ∀ kv ∈ abs c, ∃ x, kv.2 = some x) :
    ∀ i ∈ c.hash, ∃ x, (c.heap.ent i).val = some x := by
  intro i hi
  exact h ((c.heap.ent i).key, (c.heap.ent i).val) (List.mem_map.2 ⟨i, v.mem.2 hi, rfl⟩)

theorem removed_val {w : World} (v : WInv w) {i : Nat} (hi : i ∈ w.removed) : (w.c.heap.ent i).val = none := by
  have hl := (v.rem i hi).2
  rcases hp : w.puts[i] with ⟨k, x⟩
  have h1 := v.data i k x (by rw [List.getElem?_eq_getElem hl, hp])
  rw [h1.2, if_pos hi]

theorem mem_without {k : List Nat} {l : List (List Nat × Option Nat)} {a} (h : a ∈ without k l) : a ∈ l :=
  (List.mem_filter.1 h).1

/-- Every completed step keeps the invariant; contents change as stated. -/
theorem step_spec {w : World} (v : WInv w) (op : Op) {w' : World} {r : Res} (hs : step w op = .ok (w', r)) :
    WInv w' ∧ w'.c.max = w.c.max ∧
    (match op with
      | .put k x => abs w'.c = (k, some x) :: (if w.c.size + 1 > w.c.max then (without k (abs w.c)).dropLast else without k (abs w.c))
          ∧ w'.c.size = min (w.c.size + 1) w.c.max ∧ r = .done
      | .get k => (match lookup k (abs w.c) with
          | some x => abs w'.c = (k, x) :: without k (abs w.c) ∧ r = .hit x
          | none => abs w'.c = abs w.c ∧ r = .miss) ∧ w'.c.size = w.c.size
      | .release _ => abs w'.c = abs w.c ∧ w'.c.size = w.c.size ∧ r = .done
      | .remove k => (match lookup k (abs w.c) with
          | some x => abs w'.c = without k (abs w.c) ∧ r = .hit x ∧ w'.c.size = w.c.size - 1
          | none => abs w'.c = abs w.c ∧ r = .miss ∧ w'.c.size = w.c.size)
      | .invalidate => abs w'.c = [] ∧ w'.c.size = 0 ∧ r = .done) := by
  cases op with
  | put k x =>
    by_cases hok : w.c.size + 1 > w.c.max → without k (abs w.c) ≠ []
    · obtain ⟨c', e1, i1, s1, m1, d1, a1⟩ := put_spec v.inv k x hok
      simp only [step, e1, Out.ok_bind, Out.ok.injEq, Prod.mk.injEq] at hs
      obtain ⟨rfl, rfl⟩ := hs
      refine ⟨⟨i1, ?_, ?_, ?_, v.remNd⟩, m1, a1, s1, rfl⟩
      · simp only [d1.next, Heap.alloc, List.length_append, List.length_singleton, v.cnt]
      · intro i k' x' hi
        simp only at hi ⊢
        rw [d1.key, d1.val]
        by_cases hlt : i < w.puts.length
        · rw [List.getElem?_append_left hlt] at hi
          rw [alloc_key _ _ _ _ (by rw [v.cnt]; omega)]
          exact v.data i k' x' hi
        · rw [List.getElem?_append_right (by omega)] at hi
          have h0 : i - w.puts.length = 0 := by
            by_contra hc
            rw [List.getElem?_eq_none (by simp; omega)] at hi
            exact absurd hi (by simp)
          have hieq : i = w.c.heap.next := by rw [v.cnt]; omega
          rw [h0] at hi
          simp at hi
          obtain ⟨rfl, rfl⟩ := hi
          have hnr : i ∉ w.removed := fun h => hlt (v.rem i h).2
          rw [if_neg hnr, hieq]
          simp [Heap.alloc]
      · intro i hi
        refine ⟨?_, by have := (v.rem i hi).2; simp; omega⟩
        refine removed_dead v ⟨_, i1⟩ (hash_val_of_abs i1 ?_) ?_ i hi
        · intro kv hkv
          rw [a1] at hkv
          rcases List.mem_cons.1 hkv with rfl | hkv
          · exact ⟨x, rfl⟩
          · refine abs_val v kv (mem_without (k := k) ?_)
            split at hkv
            · exact List.dropLast_subset _ hkv
            · exact hkv
        · intro j hj
          rw [d1.val, alloc_key _ _ _ _ (by have := (v.rem j hj).2; rw [v.cnt]; omega)]
          exact removed_val v hj
    · push Not at hok
      rw [step, put_ub v.inv k x hok.1 hok.2] at hs
      simp at hs
  | get k =>
    cases hl : lookup k (abs w.c) with
    | none =>
      simp only [step, get_miss v.inv k hl, Out.ok_bind, Out.ok.injEq, Prod.mk.injEq] at hs
      obtain ⟨rfl, rfl⟩ := hs
      simp only [hl]
      exact ⟨v, by simp⟩
    | some x =>
      obtain ⟨c', p, e1, i1, s1, m1, d1, a1, hp⟩ := get_hit v.inv k hl
      simp only [step, e1, Out.ok_bind, Out.ok.injEq, Prod.mk.injEq] at hs
      obtain ⟨rfl, rfl⟩ := hs
      simp only [hl]
      refine ⟨WInv.same v i1 d1 ?_, m1, ⟨a1, trivial⟩, s1⟩
      refine removed_dead v ⟨_, i1⟩ (hash_val_of_abs i1 ?_) ?_
      · intro kv hkv
        rw [a1] at hkv
        rcases List.mem_cons.1 hkv with rfl | hkv
        · unfold lookup at hl
          cases hf : (abs w.c).find? (fun kv => kv.1 == k) with
          | none => rw [hf] at hl; simp at hl
          | some kv =>
            rw [hf] at hl
            simp at hl
            obtain ⟨y, hy⟩ := abs_val v kv (List.mem_of_find?_eq_some hf)
            exact ⟨y, by simp only; rw [← hl, hy]⟩
        · exact abs_val v kv (mem_without hkv)
      · intro j hj; rw [d1.val]; exact removed_val v hj
  | release t =>
    by_cases ht : 1 ≤ w.held t
    · obtain ⟨c', e1, i1, s1, m1, a1, d1⟩ := release_tok v.inv ht
      simp only [step, if_pos ht, e1, Out.ok_bind, Out.ok.injEq, Prod.mk.injEq] at hs
      obtain ⟨rfl, rfl⟩ := hs
      refine ⟨WInv.same v i1 d1 ?_, m1, a1, s1, rfl⟩
      refine removed_dead v ⟨_, i1⟩ (hash_val_of_abs i1 ?_) ?_
      · rw [a1]; exact abs_val v
      · intro j hj; rw [d1.val]; exact removed_val v hj
    · simp only [step, if_neg ht, Out.ok.injEq, Prod.mk.injEq] at hs
      obtain ⟨rfl, rfl⟩ := hs
      exact ⟨v, rfl, rfl, rfl, rfl⟩
  | remove k =>
    cases hl : lookup k (abs w.c) with
    | none =>
      simp only [step, remove_miss v.inv k hl, Out.ok_bind, Out.ok.injEq, Prod.mk.injEq] at hs
      obtain ⟨rfl, rfl⟩ := hs
      simp only [hl]
      exact ⟨v, by simp⟩
    | some x =>
      obtain ⟨c', p, e1, i1, s1, m1, a1, hp, hp', hk, hv, hn⟩ := remove_hit v.inv k hl
      simp only [step, e1, Out.ok_bind, Out.ok.injEq, Prod.mk.injEq] at hs
      obtain ⟨rfl, rfl⟩ := hs
      simp only [hl]
      refine ⟨⟨i1, hn.trans v.cnt, ?_, ?_, ?_⟩, m1, a1, trivial, s1⟩
      · intro i k' x' hi
        simp only
        rw [hk, hv]
        obtain ⟨h1, h2⟩ := v.data i k' x' hi
        refine ⟨h1, ?_⟩
        by_cases c : i = p
        · simp [c]
        · simp [c, h2]
      · intro i hi
        rcases List.mem_cons.1 hi with rfl | hi
        · exact ⟨hp', v.lt hp⟩
        · refine ⟨?_, (v.rem i hi).2⟩
          refine removed_dead v ⟨_, i1⟩ (hash_val_of_abs i1 ?_) ?_ i hi
          · rw [a1]; intro kv hkv; exact abs_val v kv (mem_without hkv)
          · intro j hj; rw [hv, removed_val v hj]; simp
      · exact List.nodup_cons.2 ⟨fun h => (v.rem p h).1 hp, v.remNd⟩
  | invalidate =>
    obtain ⟨c', e1, i1, s1, m1, a1, d1⟩ := invalidate_spec v.inv
    simp only [step, e1, Out.ok_bind, Out.ok.injEq, Prod.mk.injEq] at hs
    obtain ⟨rfl, rfl⟩ := hs
    refine ⟨WInv.same v i1 d1 ?_, m1, a1, s1, rfl⟩
    refine removed_dead v ⟨_, i1⟩ (hash_val_of_abs i1 ?_) ?_
    · rw [a1]; simp
    · intro j hj; rw [d1.val]; exact removed_val v hj

theorem winv_world {M : Int} (hM : 0 < M) : WInv (world M) :=
  ⟨inv_create hM, rfl, by simp [world], by simp [world], by simp [world]⟩

theorem run_cons {w : World} {op : Op} {h : List Op} {w' : World} {rs : List Res}
    (hr : run w (op :: h) = .ok (w', rs)) :
    ∃ w1 r rs', step w op = .ok (w1, r) ∧ run w1 h = .ok (w', rs') ∧ rs = r :: rs' := by
  unfold run at hr
  cases hs : step w op with
  | ub => simp [hs] at hr
  | abort => simp [hs] at hr
  | ok p =>
    obtain ⟨w1, r⟩ := p
    simp only [hs, Out.ok_bind] at hr
    cases hq : run w1 h with
    | ub => simp [hq] at hr
    | abort => simp [hq] at hr
    | ok q =>
      obtain ⟨w2, rs'⟩ := q
      simp only [hq, Out.ok_bind, Out.ok.injEq, Prod.mk.injEq] at hr
      exact ⟨w1, r, rs', rfl, by rw [hq, hr.1], hr.2.symm⟩

theorem run_inv : ∀ (h : List Op) {w w' : World} {rs : List Res}, WInv w → run w h = .ok (w', rs) →
    WInv w' ∧ w'.c.max = w.c.max
  | [], w, w', rs, v, hr => by
    simp only [run, Out.ok.injEq, Prod.mk.injEq] at hr
    rw [← hr.1]; exact ⟨v, rfl⟩
  | op :: h, w, w', rs, v, hr => by
    obtain ⟨w1, r, rs', h1, h2, _⟩ := run_cons hr
    obtain ⟨v1, m1, _⟩ := step_spec v op h1
    obtain ⟨v2, m2⟩ := run_inv h v1 h2
    exact ⟨v2, m2.trans m1⟩

/-! ## Theorems -/

/-- The keys on which a `get` would hit. -/
def present (w : World) (k : List Nat) : Prop := ∃ w' x, step w (.get k) = .ok (w', .hit x)

theorem present_lookup {w : World} (v : WInv w) {k : List Nat} (h : present w k) : (lookup k (abs w.c)).isSome := by
  obtain ⟨w', x, hs⟩ := h
  obtain ⟨_, _, h3, _⟩ := step_spec v _ hs
  cases hl : lookup k (abs w.c) with
  | none => simp [hl] at h3
  | some y => rfl

/-- C18: after any history, at most `M` different keys are present. -/
theorem C18_never_over_limit (M : Int) (hM : 0 < M) (h : List Op) (w : World) (rs : List Res)
    (hr : run (world M) h = .ok (w, rs)) (ks : List (List Nat)) (nd : ks.Nodup)
    (hp : ∀ k ∈ ks, present w k) : (ks.length : Int) ≤ M := by
  obtain ⟨v, hm⟩ := run_inv h (winv_world hM) hr
  have sub : ks ⊆ (abs w.c).map Prod.fst := by
    intro k hk
    have := present_lookup v (hp k hk)
    unfold lookup at this
    cases hf : (abs w.c).find? (fun kv => kv.1 == k) with
    | none => simp [hf] at this
    | some kv =>
      have h1 := List.mem_of_find?_eq_some hf
      have h2 : kv.1 = k := by simpa using List.find?_some hf
      exact List.mem_map.2 ⟨kv, h1, h2⟩
  have hlen := (List.subperm_of_subset nd sub).length_le
  simp only [List.length_map, abs] at hlen
  have h1 := v.inv.len
  have h2 := v.inv.lim
  have h3 : w.c.max = M := hm
  omega

theorem lookup_without_self (k : List Nat) (l : List (List Nat × Option Nat)) : lookup k (without k l) = none := by
  unfold lookup without
  rw [List.find?_eq_none.2]
  · rfl
  · intro x hx; have := List.mem_filter.1 hx; simpa using this.2

theorem lookup_without_other {k k' : List Nat} (hk : k' ≠ k) (l : List (List Nat × Option Nat)) :
    lookup k (without k' l) = lookup k l := by
  unfold lookup without
  rw [List.find?_filter]
  congr 1
  induction l with
  | nil => rfl
  | cons a l ih =>
    by_cases c : a.1 = k
    · simp [c, Ne.symm hk]
    · simp only [List.find?_cons]
      have : (a.1 == k) = false := by simpa using c
      simp only [this]
      simpa using ih

theorem lookup_cons (k k' : List Nat) (x : Option Nat) (l : List (List Nat × Option Nat)) :
    lookup k ((k', x) :: l) = if k' = k then some x else lookup k l := by
  unfold lookup
  by_cases c : k' = k
  · simp [c]
  · have : (k' == k) = false := by simpa using c
    simp [c]

theorem lookup_dropLast {k : List Nat} {l : List (List Nat × Option Nat)} {x : Option Nat}
    (h : lookup k l.dropLast = some x) : lookup k l = some x := by
  rcases List.eq_nil_or_concat l with rfl | ⟨l', a, rfl⟩
  · simpa using h
  · rw [List.concat_eq_append] at *
    simp only [List.dropLast_concat] at h
    unfold lookup at *
    rw [List.find?_append]
    cases hf : l'.find? (fun kv => kv.1 == k) with
    | none => simp [hf] at h
    | some y => simp [hf] at h ⊢; exact h

theorem lookup_lastPut : ∀ (h : List Op) {w w' : World} {rs : List Res} (g : List Nat → Option Nat), WInv w →
    (∀ k x, lookup k (abs w.c) = some x → x = g k ∧ x ≠ none) → run w h = .ok (w', rs) →
    ∀ k x, lookup k (abs w'.c) = some x → x = h.foldl (cur k) (g k) ∧ x ≠ none
  | [], w, w', rs, g, v, hg, hr => by
    simp only [run, Out.ok.injEq, Prod.mk.injEq] at hr
    rw [← hr.1]; exact hg
  | op :: h, w, w', rs, g, v, hg, hr => by
    obtain ⟨w1, r, rs', h1, h2, _⟩ := run_cons hr
    obtain ⟨v1, m1, ha⟩ := step_spec v op h1
    refine lookup_lastPut h (fun k => cur k (g k) op) v1 ?_ h2
    intro k x hx
    cases op with
    | put k' y =>
      simp only at ha
      rw [ha.1, lookup_cons] at hx
      simp only [cur]
      by_cases c : k' = k
      · rw [if_pos c] at hx ⊢; simp at hx; simp [← hx]
      · rw [if_neg c] at hx ⊢
        have hx2 : lookup k (without k' (abs w.c)) = some x := by
          split at hx
          · exact lookup_dropLast hx
          · exact hx
        rw [lookup_without_other c] at hx2
        exact hg k x hx2
    | get k' =>
      simp only at ha
      simp only [cur]
      apply hg k x
      cases hl : lookup k' (abs w.c) with
      | none => simp only [hl] at ha; rw [ha.1.1] at hx; exact hx
      | some y =>
        simp only [hl] at ha
        rw [ha.1.1, lookup_cons] at hx
        by_cases c : k' = k
        · rw [if_pos c] at hx; rw [← c, hl, hx]
        · rw [if_neg c, lookup_without_other c] at hx; exact hx
    | release t => simp only at ha; rw [ha.1] at hx; exact hg k x hx
    | remove k' =>
      simp only at ha
      simp only [cur]
      cases hl : lookup k' (abs w.c) with
      | none =>
        simp only [hl] at ha; rw [ha.1] at hx
        have c : k' ≠ k := by rintro rfl; rw [hl] at hx; exact absurd hx (by simp)
        rw [if_neg c]; exact hg k x hx
      | some y =>
        simp only [hl] at ha
        rw [ha.1] at hx
        have c : k' ≠ k := by rintro rfl; rw [lookup_without_self] at hx; exact absurd hx (by simp)
        rw [lookup_without_other c] at hx
        rw [if_neg c]; exact hg k x hx
    | invalidate => simp only at ha; rw [ha.1] at hx; simp [lookup] at hx

/-- C18: a `get` that hits returns the value most recently put under that key, and that put has not
been undone by a remove or invalidate.  All histories, including replacing puts. -/
theorem C18_get_returns_last_put (M : Int) (hM : 0 < M) (h : List Op) (w : World) (rs : List Res)
    (hr : run (world M) h = .ok (w, rs)) (k : List Nat) (w' : World) (x : Option Nat)
    (hg : step w (.get k) = .ok (w', .hit x)) : ∃ v, x = some v ∧ lastPut k h = some v := by
  obtain ⟨v, hm⟩ := run_inv h (winv_world hM) hr
  obtain ⟨_, _, h3, _⟩ := step_spec v _ hg
  cases hl : lookup k (abs w.c) with
  | none => simp [hl] at h3
  | some y =>
    simp [hl] at h3
    have := lookup_lastPut h (fun _ => none) (winv_world hM) (by intro k x hx; simp [world, create, abs, lookup] at hx) hr k y hl
    obtain ⟨e, hne⟩ := this
    rw [h3.2]
    cases y with
    | none => exact absurd rfl hne
    | some z => exact ⟨z, rfl, e.symm⟩

/-- Put number `i` (of key `k`) is still the one a `get` of its key returns. -/
def cachedNow (w : World) (i : Nat) (k : List Nat) : Prop := ∃ c' x, get w.c k = .ok (c', some (i, x))

/-- C18: every value is freed at most once; never while a token for it is held or while the cache
still has it; and once the cache has dropped it and no token is held it has been freed, with the
value that was put, unless `remove` handed that value to its caller (then `free_fn` got NULL).  A value is
handed out by `remove` at most once.  All histories, including replacing puts. -/
theorem C18_freed_exactly_once (M : Int) (hM : 0 < M) (h : List Op) (w : World) (rs : List Res)
    (hr : run (world M) h = .ok (w, rs)) (i : Nat) (k : List Nat) (v : Nat) (hi : w.puts[i]? = some (k, v)) :
    (w.c.heap.freed.map Prod.fst).count i ≤ 1 ∧
    (1 ≤ w.held i ∨ cachedNow w i k → ∀ x, (i, x) ∉ w.c.heap.freed) ∧
    (w.held i = 0 → ¬ cachedNow w i k →
      (w.c.heap.freed.map Prod.fst).count i = 1 ∧ (i, if i ∈ w.removed then none else some v) ∈ w.c.heap.freed) ∧
    (∀ x, (i, x) ∈ w.c.heap.freed → x = if i ∈ w.removed then none else some v) ∧
    w.removed.count i ≤ 1 := by
  obtain ⟨wv, hm⟩ := run_inv h (winv_world hM) hr
  obtain ⟨hk, hv⟩ := wv.data i k v hi
  have o := wv.inv.owned
  have hf := o.freed_once i
  have hlt : i < w.c.heap.next := by
    rw [wv.cnt]; by_contra hc; rw [List.getElem?_eq_none (by omega)] at hi; exact absurd hi (by simp)
  have cach : cachedNow w i k ↔ i ∈ w.c.hash := by
    constructor
    · rintro ⟨c', x, hg⟩
      unfold get at hg
      cases hs : hsFind w.c.heap w.c.hash k with
      | none => simp [hs] at hg
      | some p =>
        have hp := (hsFind_some hs).1
        have hl := lookup_hit wv.inv hs
        obtain ⟨c2, p2, e2, _⟩ := get_hit wv.inv k hl
        unfold get at e2
        rw [hs] at e2 hg
        simp only at e2 hg
        have hpl := wv.inv.mem.2 hp
        obtain ⟨h', r1, _, _⟩ := retain_spec o (i := p) (by unfold own; simp [hp])
        unfold touch at hg
        simp only [if_pos (show w.c.max > 0 from wv.inv.pos), tailqRemove_mem hpl, Out.ok_bind, r1, Out.ok.injEq,
          Prod.mk.injEq, Option.some.injEq] at hg
        rw [← hg.2.1]; exact hp
    · intro hh
      have hs := hsFind_unique wv.inv.inj hh
      rw [hk] at hs
      have hpl := wv.inv.mem.2 hh
      obtain ⟨h', r1, _, _⟩ := retain_spec o (i := i) (by unfold own; simp [hh])
      unfold cachedNow get touch
      rw [hs]
      simp only [if_pos (show w.c.max > 0 from wv.inv.pos), tailqRemove_mem hpl, Out.ok_bind, r1]
      exact ⟨_, _, rfl⟩
  have hval : ∀ x, (i, x) ∈ w.c.heap.freed → x = if i ∈ w.removed then none else some v := by
    intro x hx; have := o.freed_val _ hx; simp only at this; rw [this, hv]
  refine ⟨by rw [hf]; split <;> omega, ?_, ?_, hval, by rw [wv.remNd.count]; split <;> omega⟩
  · intro hor x hx
    have hd := (o.freed_dead hx).1
    have h0 := o.dead _ hd
    simp only [own] at h0
    rcases hor with h1 | h1
    · omega
    · rw [if_pos (cach.1 h1)] at h0; omega
  · intro h0 hnc
    have hnh : i ∉ w.c.hash := fun h => hnc (cach.2 h)
    have hd : (w.c.heap.ent i).live = false := by
      by_contra hc
      have := (o.ref_eq i (by simpa using hc)).2
      unfold own at this; rw [if_neg hnh, h0] at this; omega
    rw [if_pos ⟨hlt, hd⟩] at hf
    refine ⟨hf, ?_⟩
    have hmem : i ∈ w.c.heap.freed.map Prod.fst := List.count_pos_iff.1 (by omega)
    obtain ⟨p, hp, rfl⟩ := List.mem_map.1 hmem
    have := hval p.2 hp
    rw [← this]; exact hp

/-! ### Exact behaviour without replacement -/

def tag (kv : List Nat × Nat) : List Nat × Option Nat := (kv.1, some kv.2)

theorem without_tag (k : List Nat) (l : List (List Nat × Nat)) :
    without k (l.map tag) = (l.filter (fun kv => kv.1 ≠ k)).map tag := by
  unfold without; rw [List.filter_map]; rfl

theorem lookup_tag (k : List Nat) (l : List (List Nat × Nat)) :
    lookup k (l.map tag) = (l.find? (fun kv => kv.1 == k)).map (fun kv => some kv.2) := by
  unfold lookup; rw [List.find?_map]
  show Option.map _ (Option.map _ (l.find? (fun kv => kv.1 == k))) = _
  cases l.find? (fun kv => kv.1 == k) <;> rfl

theorem ideal_length (M : Nat) (l : List (List Nat × Nat)) (h : l.length ≤ M) (op : Op) :
    (ideal M l op).1.length ≤ M := by
  cases op with
  | put k v => simp [ideal]
  | get k =>
    simp only [ideal]
    cases hf : l.find? (fun kv => kv.1 == k) with
    | none => exact h
    | some kv =>
      have hm := List.mem_of_find?_eq_some hf
      have hk : kv.1 = k := by simpa using List.find?_some hf
      have : (l.filter (fun kv => kv.1 ≠ k)).length < l.length := by
        apply List.length_filter_lt_length_iff_exists.2
        exact ⟨kv, hm, by simp [hk]⟩
      simp only [List.length_cons]; omega
  | release t => exact h
  | remove k =>
    simp only [ideal]
    cases hf : l.find? (fun kv => kv.1 == k) with
    | none => exact h
    | some kv => have := List.length_filter_le (fun kv : List Nat × Nat => decide (kv.1 ≠ k)) l; simp only; omega
  | invalidate => simp [ideal]

theorem exact_aux (M : Nat) (hM : 0 < M) : ∀ (h : List Op) {w : World} {l : List (List Nat × Nat)}, WInv w →
    w.c.max = M → abs w.c = l.map tag → w.c.size = l.length → l.length ≤ M → (l.map Prod.fst).Nodup →
    NoReplace M l h →
    ∃ w' rs, run w h = .ok (w', rs) ∧ rs = (idealRun M l h).2 ∧ abs w'.c = (idealRun M l h).1.map tag ∧
      w'.c.size = (idealRun M l h).1.length
  | [], w, l, v, hm, ha, hs, hl, hnd, hnr => ⟨w, [], rfl, rfl, ha, hs⟩
  | op :: h, w, l, v, hm, ha, hs, hl, hnd, hnr => by
    -- the step succeeds
    have hok : ∃ w1 r, step w op = .ok (w1, r) := by
      cases op with
      | put k x =>
        have hk := hnr.1
        simp only at hk
        have hw : without k (abs w.c) = abs w.c := by
          unfold without; rw [List.filter_eq_self, ha]
          intro a ha'; obtain ⟨b, hb, rfl⟩ := List.mem_map.1 ha'; simp [tag, hk b hb]
        obtain ⟨c', e1, _⟩ := put_spec v.inv k x (by
          intro hgt; rw [hw, ha]; intro h0
          have : l.length = 0 := by simpa using congrArg List.length h0
          omega)
        (simp only [step, e1, Out.ok_bind]; exact ⟨_, _, rfl⟩)
      | get k =>
        cases hlk : lookup k (abs w.c) with
        | none => (simp only [step, get_miss v.inv k hlk, Out.ok_bind]; exact ⟨_, _, rfl⟩)
        | some x => obtain ⟨c', p, e1, _⟩ := get_hit v.inv k hlk; (simp only [step, e1, Out.ok_bind]; exact ⟨_, _, rfl⟩)
      | release t =>
        by_cases ht : 1 ≤ w.held t
        · obtain ⟨c', e1, _⟩ := release_tok v.inv ht; (simp only [step, if_pos ht, e1, Out.ok_bind]; exact ⟨_, _, rfl⟩)
        · (simp only [step, if_neg ht]; exact ⟨_, _, rfl⟩)
      | remove k =>
        cases hlk : lookup k (abs w.c) with
        | none => (simp only [step, remove_miss v.inv k hlk, Out.ok_bind]; exact ⟨_, _, rfl⟩)
        | some x => obtain ⟨c', p, e1, _⟩ := remove_hit v.inv k hlk; (simp only [step, e1, Out.ok_bind]; exact ⟨_, _, rfl⟩)
      | invalidate => obtain ⟨c', e1, _⟩ := invalidate_spec v.inv; (simp only [step, e1, Out.ok_bind]; exact ⟨_, _, rfl⟩)
    obtain ⟨w1, r, h1⟩ := hok
    obtain ⟨v1, m1, hst⟩ := step_spec v op h1
    have key : abs w1.c = (ideal M l op).1.map tag ∧ w1.c.size = (ideal M l op).1.length ∧ r = (ideal M l op).2 ∧
        ((ideal M l op).1.map Prod.fst).Nodup := by
      cases op with
      | put k x =>
        simp only at hst
        have hk := hnr.1
        simp only at hk
        have hfl : l.filter (fun kv => kv.1 ≠ k) = l := by
          rw [List.filter_eq_self]; intro a ha'; simpa using hk a ha'
        obtain ⟨a1, s1, rfl⟩ := hst
        rw [ha, without_tag, hfl, hs, hm] at a1
        rw [hs, hm] at s1
        have nd2 : (((k, x) :: l).map Prod.fst).Nodup := by
          rw [List.map_cons, List.nodup_cons]
          refine ⟨?_, hnd⟩
          intro hh; obtain ⟨b, hb, hb'⟩ := List.mem_map.1 hh; exact hk b hb hb'
        simp only [ideal, hfl]
        refine ⟨?_, ?_, trivial, ?_⟩
        · rw [a1]
          by_cases hfull : l.length = M
          · rw [if_pos (by omega)]
            obtain ⟨M', rfl⟩ : ∃ M', M = M' + 1 := ⟨M - 1, by omega⟩
            rw [List.take_succ_cons, List.map_cons, ← List.map_dropLast, List.dropLast_eq_take, hfull]
            rfl
          · rw [if_neg (by omega), List.take_of_length_le (by simp; omega)]; rfl
        · rw [s1, List.length_take]; simp; omega
        · rw [List.map_take]; exact nd2.sublist (List.take_sublist _ _)
      | get k =>
        simp only [ha, lookup_tag] at hst
        simp only [ideal]
        cases hf : l.find? (fun kv => kv.1 == k) with
        | none => simp only [hf, Option.map_none] at hst; exact ⟨hst.1.1, by rw [hst.2, hs], hst.1.2, hnd⟩
        | some kv =>
          simp only [hf, Option.map_some] at hst
          have hkm := List.mem_of_find?_eq_some hf
          have hk : kv.1 = k := by simpa using List.find?_some hf
          have hlen := v1.inv
          have ab : abs w1.c = (kv :: l.filter (fun kv => kv.1 ≠ k)).map tag := by
            rw [hst.1.1, without_tag, List.map_cons]; simp [tag, hk]
          have hle : (kv :: l.filter (fun kv => kv.1 ≠ k)).length = l.length := by
            have hp : (l.map Prod.fst).filter (fun a => a ≠ k) = (l.map Prod.fst).erase k := by
              rw [hnd.erase_eq_filter]; congr 1; funext a; by_cases ha : a = k <;> simp [ha]
            have h2 := congrArg List.length hp
            rw [List.filter_map, List.length_map, List.length_erase_of_mem (List.mem_map.2 ⟨kv, hkm, hk⟩), List.length_map] at h2
            have h3 := List.length_pos_of_mem hkm
            simp only [List.length_cons]
            have h4 : (l.filter (fun kv => decide (kv.1 ≠ k))).length = l.length - 1 := h2
            omega
          refine ⟨ab, ?_, hst.1.2, ?_⟩
          · rw [hst.2, hs, ← hle]
          · rw [List.map_cons, List.nodup_cons]
            constructor
            · intro hh; obtain ⟨b, hb, hb'⟩ := List.mem_map.1 hh
              have := (List.mem_filter.1 hb).2
              rw [hb', hk] at this; simp at this
            · exact hnd.sublist (List.Sublist.map _ List.filter_sublist)
      | release t => simp only at hst; simp only [ideal]; exact ⟨by rw [hst.1, ha], by rw [hst.2.1, hs], hst.2.2, hnd⟩
      | remove k =>
        simp only [ha, lookup_tag] at hst
        simp only [ideal]
        cases hf : l.find? (fun kv => kv.1 == k) with
        | none => simp only [hf, Option.map_none] at hst; exact ⟨hst.1, by rw [hst.2.2, hs], hst.2.1, hnd⟩
        | some kv =>
          simp only [hf, Option.map_some] at hst
          have hkm := List.mem_of_find?_eq_some hf
          have hk : kv.1 = k := by simpa using List.find?_some hf
          have hle : (l.filter (fun kv => kv.1 ≠ k)).length = l.length - 1 := by
            have hp : (l.map Prod.fst).filter (fun a => a ≠ k) = (l.map Prod.fst).erase k := by
              rw [hnd.erase_eq_filter]; congr 1; funext a; by_cases ha : a = k <;> simp [ha]
            have h2 := congrArg List.length hp
            rw [List.filter_map, List.length_map, List.length_erase_of_mem (List.mem_map.2 ⟨kv, hkm, hk⟩), List.length_map] at h2
            exact h2
          have h3 := List.length_pos_of_mem hkm
          refine ⟨by rw [hst.1, without_tag], ?_, hst.2.1, hnd.sublist (List.Sublist.map _ List.filter_sublist)⟩
          rw [hst.2.2, hs, hle]; omega
      | invalidate => simp only at hst; simp only [ideal]; exact ⟨by rw [hst.1]; rfl, by rw [hst.2.1]; rfl, hst.2.2, by simp⟩
    obtain ⟨k1, k2, k3, k4⟩ := key
    obtain ⟨w', rs, e1, e2, e3, e4⟩ := exact_aux M hM h v1 (m1.trans hm) k1 k2 (ideal_length M l hl op) k4 hnr.2
    refine ⟨w', r :: rs, ?_, ?_, e3, e4⟩
    · unfold run; simp only [h1, e1, Out.ok_bind]
    · simp only [idealRun, k3, e2]

/-- C18 (partial: the full property would allow any history; the code breaks on puts of a key that is
present, see `C18_replace_crash_violated`).  Without such puts no history crashes, every result is the
one of the ideal LRU cache of capacity `M` (evict only when full, and then the least recently put or
got), and the reported size is the number of entries. -/
theorem C18_exact_partial (M : Nat) (hM : 0 < M) (h : List Op) (hn : NoReplace M [] h) :
    ∃ w, run (world M) h = .ok (w, (idealRun M [] h).2) ∧ w.c.size = (idealRun M [] h).1.length := by
  obtain ⟨w', rs, e1, e2, _, e4⟩ := exact_aux M hM h (w := world M) (l := []) (winv_world (by omega)) rfl rfl rfl
    (by simp) (by simp) hn
  exact ⟨w', by rw [e1, e2], e4⟩

/-- C18 is false of the code: storing the same key `M + 1` times makes a cache of capacity `M`
dereference NULL (the replaced entry leaves the list but is still counted). -/
theorem C18_replace_crash_violated (M : Nat) (hM : 0 < M) (k : List Nat) (v : Nat) :
    run (world M) (List.replicate (M + 1) (.put k v)) = .ub := by
  have gen : ∀ (n : Nat) (w : World), WInv w → w.c.max = M → abs w.c = [(k, some v)] → w.c.size + n = M →
      run w (List.replicate (n + 1) (.put k v)) = .ub := by
    intro n
    induction n with
    | zero =>
      intro w wv hm ha hs
      have : put w.c k v = .ub := put_ub wv.inv k v (by push_cast at hs; omega) (by rw [ha]; simp [without])
      simp [run, step, this]
    | succ n ih =>
      intro w wv hm ha hs
      obtain ⟨c', e1, i1, s1, m1, d1, a1⟩ := put_spec wv.inv k v (by intro hgt; exfalso; push_cast at hs; omega)
      have hst : step w (.put k v) = .ok ({ w with c := c', puts := w.puts ++ [(k, v)] }, .done) := by
        simp only [step, e1, Out.ok_bind]
      have v1 := (step_spec wv _ hst).1
      have := ih _ v1 (m1.trans hm) (by
        rw [if_neg (by push_cast at hs; omega), ha] at a1
        rw [a1]; simp [without]) (by rw [s1]; push_cast at hs ⊢; omega)
      rw [List.replicate_succ, run]
      simp only [hst, Out.ok_bind, this, Out.ub_bind]
  have wv := winv_world (M := (M : Int)) (by omega)
  obtain ⟨c', e1, i1, s1, m1, d1, a1⟩ := put_spec wv.inv k v (by
    intro hgt; exfalso; simp [world, create] at hgt; omega)
  have hst : step (world M) (.put k v) = .ok ({ world M with c := c', puts := (world M).puts ++ [(k, v)] }, .done) := by
    simp only [step, e1, Out.ok_bind]
  have v1 := (step_spec wv _ hst).1
  have hz : (world (M : Int)).c.size = 0 := rfl
  have hx : (world (M : Int)).c.max = M := rfl
  have := gen (M - 1) _ v1 (m1.trans rfl) (by
    rw [if_neg (by rw [hz, hx]; omega)] at a1
    rw [a1]; simp [world, create, abs, without]) (by
    simp only [s1, hz, hx]; omega)
  rw [List.replicate_succ, run]
  have hM1 : M - 1 + 1 = M := by omega
  rw [hM1] at this
  simp only [hst, Out.ok_bind, this, Out.ub_bind]

/-- C18 is false of the code also without a crash: after replacing `a` once, a cache of capacity three
evicts `a` although it holds only two entries. -/
theorem C18_premature_eviction_violated :
    ∃ w rs, run (world 3) [.put [97] 1, .put [97] 2, .put [98] 3, .put [99] 4, .get [97]] = .ok (w, rs) ∧
      rs.getLast? = some .miss ∧ w.c.list.length = 2 ∧ w.c.size = 3 := by
  refine ⟨_, _, rfl, ?_⟩
  decide +kernel

/-! ### The hypotheses are met by real histories -/

/-- A history with eviction, a held token surviving it, a remove, and no replacement. -/
def demo : List Op :=
  [.put [1] 10, .put [2] 20, .get [1], .put [3] 30, .get [2], .release 0, .remove [3], .put [2] 21, .get [2]]

example : NoReplace 2 [] demo := by simp [demo, NoReplace, ideal]
example : (match run (world 2) demo with | .ok (_, rs) => rs | _ => []) =
    [.done, .done, .hit (some 10), .done, .miss, .done, .hit (some 30), .done, .hit (some 21)] := by decide +kernel
example : (match run (world 2) demo with | .ok (w, _) => w.c.heap.freed | _ => []) = [(1, some 20), (2, none)] := by
  decide +kernel
/-- A replacing history that does not crash, for the theorems over all histories. -/
example : (match run (world 3) [.put [97] 1, .get [97], .put [97] 2, .get [97], .release 0] with
    | .ok (w, rs) => (rs, w.c.heap.freed) | _ => ([], [])) =
    ([.done, .hit (some 1), .done, .hit (some 2), .done], [(0, some 1)]) := by decide +kernel

end Mtev.Lru
