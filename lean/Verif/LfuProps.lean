import Verif.Lfu
import Verif.LruProps

/-!
# C19: the LFU cache

Operations, results and the client side are as for the LRU cache (`Verif.LruProps`).
-/

namespace Mtev.Lfu
open Mtev.Cache
open Mtev.Lru (Op Res own lastPut cur)

/-- The cache and what its users know: tokens held, puts made (the token of the `i`-th put is `i`),
and which of them were handed out by `remove`. -/
structure World where
  c : LFU
  held : Nat → Nat
  puts : List (List Nat × Nat)
  removed : List Nat

def world (max : Int) : World := ⟨create max, fun _ => 0, [], []⟩

/-- A refused put (cache disabled) shows as `miss`. -/
def step (w : World) : Op → Out (World × Res)
  | .put k v => do
    let r ← put w.c k v
    match r with
    | (c, true) => .ok ({ w with c := c, puts := w.puts ++ [(k, v)] }, .done)
    | (c, false) => .ok ({ w with c := c }, .miss)
  | .get k => do
    let r ← get w.c k
    match r with
    | (c, none) => .ok ({ w with c := c }, .miss)
    | (c, some (t, x)) => .ok ({ w with c := c, held := fun j => if j = t then w.held t + 1 else w.held j }, .hit x)
  | .release t =>
    if 1 ≤ w.held t then do
      let c ← release w.c t
      .ok ({ w with c := c, held := fun j => if j = t then w.held t - 1 else w.held j }, .done)
    else .ok (w, .done)
  | .remove k => do
    let r ← remove w.c k
    match r with
    | (c, none) => .ok ({ w with c := c }, .miss)
    | (c, some (t, x)) => .ok ({ w with c := c, removed := t :: w.removed }, .hit x)
  | .invalidate => do
    let c ← invalidate w.c
    .ok ({ w with c := c }, .done)

def run (w : World) : List Op → Out (World × List Res)
  | [] => .ok (w, [])
  | op :: h => do
    let r ← step w op
    let q ← run r.1 h
    .ok (q.1, r.2 :: q.2)

/-! ## Specification: the ideal LFU cache -/

/-- Key, value and number of uses (the put and each get count one), in order of last use. -/
abbrev Item := List Nat × Nat × Nat

/-- Evict the entry of least use count; among several, the one used longest ago. -/
def idealEvict (l : List Item) : List Item :=
  match l.find? (fun p => l.all (fun q => p.2.2 ≤ q.2.2)) with
  | some x => l.filter (fun y => y.1 ≠ x.1)
  | none => l

def ideal (M : Nat) (l : List Item) : Op → List Item × Res
  | .put k v =>
    let l1 := l.filter (fun x => x.1 ≠ k)
    ((if l1.length + 1 > M then idealEvict l1 else l1) ++ [(k, v, 1)], .done)
  | .get k => match l.find? (fun x => x.1 == k) with
    | some x => (l.filter (fun x => x.1 ≠ k) ++ [(k, x.2.1, x.2.2 + 1)], .hit (some x.2.1))
    | none => (l, .miss)
  | .release _ => (l, .done)
  | .remove k => match l.find? (fun x => x.1 == k) with
    | some x => (l.filter (fun x => x.1 ≠ k), .hit (some x.2.1))
    | none => (l, .miss)
  | .invalidate => ([], .done)

def idealRun (M : Nat) (l : List Item) : List Op → List Item × List Res
  | [] => (l, [])
  | op :: h => let r := ideal M l op; let q := idealRun M r.1 h; (q.1, r.2 :: q.2)

/-! ## Invariant over histories -/

def tag (x : Item) : List Nat × Option Nat × Nat := (x.1, some x.2.1, x.2.2)

structure WInv (w : World) (l : List Item) : Prop where
  inv : ∃ L, Inv w.c w.held L ∧ abs w.c L = l.map tag
  cnt : w.c.heap.next = w.puts.length
  data : ∀ i k v, w.puts[i]? = some (k, v) →
    (w.c.heap.ent i).key = k ∧ (w.c.heap.ent i).val = if i ∈ w.removed then none else some v
  rem : ∀ i ∈ w.removed, i < w.puts.length
  remNd : w.removed.Nodup

theorem without_tag (k : List Nat) (l : List Item) :
    without k (l.map tag) = (l.filter (fun x => x.1 ≠ k)).map tag := by
  unfold without; rw [List.filter_map]; rfl

theorem lookup_tag (k : List Nat) (l : List Item) :
    lookup k (l.map tag) = (l.find? (fun x => x.1 == k)).map (fun x => (some x.2.1, x.2.2)) := by
  unfold lookup; rw [List.find?_map]
  show Option.map _ (Option.map _ (l.find? (fun x => x.1 == k))) = _
  cases l.find? (fun x => x.1 == k) <;> rfl

theorem evict_tag (l : List Item) : evict (l.map tag) = (idealEvict l).map tag := by
  unfold evict idealEvict
  have e : (l.map tag).find? (fun p => (l.map tag).all (fun q => p.2.2 ≤ q.2.2)) =
      (l.find? (fun p => l.all (fun q => p.2.2 ≤ q.2.2))).map tag := by
    rw [List.find?_map]
    congr 2
    funext p
    simp only [Function.comp, List.all_map]
    rfl
  rw [e]
  cases l.find? (fun p => l.all (fun q => p.2.2 ≤ q.2.2)) with
  | none => rfl
  | some x => exact without_tag x.1 l

/-- A cached entry has a value, so it was not removed. -/
theorem hash_val {c : LFU} {held L} {l : List Item} (v : Inv c held L) (ha : abs c L = l.map tag) {i : Nat} (hi : i ∈ c.hash) :
    ∃ x, (c.heap.ent i).val = some x := by
  obtain ⟨f, hL⟩ := v.memL hi
  have : ((c.heap.ent i).key, (c.heap.ent i).val, f) ∈ abs c L := List.mem_map.2 ⟨(i, f), hL, rfl⟩
  rw [ha] at this
  obtain ⟨x, _, hx⟩ := List.mem_map.1 this
  unfold tag at hx
  simp only [Prod.mk.injEq] at hx
  exact ⟨x.2.1, hx.2.1.symm⟩

theorem WInv.not_removed {w : World} {l : List Item} (v : WInv w l) {i : Nat} (hi : i ∈ w.c.hash) : i ∉ w.removed := by
  obtain ⟨L, vi, ha⟩ := v.inv
  intro hr
  have hl := v.rem i hr
  rcases hp : w.puts[i] with ⟨k, x⟩
  have h1 := v.data i k x (by rw [List.getElem?_eq_getElem hl, hp])
  obtain ⟨y, hy⟩ := hash_val vi ha hi
  rw [h1.2, if_pos hr] at hy
  exact absurd hy (by simp)

theorem WInv.lt {w : World} {l : List Item} (v : WInv w l) {i : Nat} (h : i ∈ w.c.hash) : i < w.puts.length := by
  obtain ⟨L, vi, ha⟩ := v.inv
  rw [← v.cnt]
  exact vi.owned.lt (by unfold own; simp [h])

theorem WInv.same {w : World} {l l' : List Item} (v : WInv w l) {c' : LFU} {held' L'} (i1 : Inv c' held' L') (a1 : abs c' L' = l'.map tag)
    (d : SameData w.c.heap c'.heap) : WInv { w with c := c', held := held' } l' := by
  refine ⟨⟨L', i1, a1⟩, d.next.trans v.cnt, ?_, v.rem, v.remNd⟩
  intro i k x hi
  simp only [d.key, d.val]
  exact v.data i k x hi

theorem winv_world {M : Int} (hM : 0 < M) : WInv (world M) [] :=
  ⟨⟨[], inv_create hM, rfl⟩, rfl, by simp [world], by simp [world], by simp [world]⟩

/-- Every step succeeds and is the ideal step. -/
theorem step_spec {M : Nat} {w : World} {l : List Item} (v : WInv w l) (hm : w.c.max = M) (op : Op) :
    ∃ w', step w op = .ok (w', (ideal M l op).2) ∧ WInv w' (ideal M l op).1 ∧ w'.c.max = M := by
  obtain ⟨L, vi, ha⟩ := v.inv
  cases op with
  | put k x =>
    obtain ⟨c', L', e1, i1, m1, d1, a1⟩ := put_spec vi k x
    simp only [step, e1, Out.ok_bind]
    refine ⟨_, rfl, ⟨⟨L', i1, ?_⟩, ?_, ?_, ?_, v.remNd⟩, m1.trans hm⟩
    · rw [a1, ha, without_tag, evict_tag, hm]
      simp only [ideal, List.length_map, List.map_append]
      by_cases hc : (l.filter (fun x => decide (x.1 ≠ k))).length + 1 > M
      · rw [if_pos hc, if_pos (by omega)]; rfl
      · rw [if_neg hc, if_neg (by omega)]; rfl
    · simp only [d1.next, Heap.alloc, List.length_append, List.length_singleton, v.cnt]
    · intro i k' x' hi
      simp only at hi ⊢
      rw [d1.key, d1.val]
      by_cases hlt : i < w.puts.length
      · rw [List.getElem?_append_left hlt] at hi
        rw [Lru.alloc_key _ _ _ _ (by rw [v.cnt]; omega)]
        exact v.data i k' x' hi
      · rw [List.getElem?_append_right (by omega)] at hi
        have h0 : i - w.puts.length = 0 := by
          by_contra hc
          rw [List.getElem?_eq_none (by simp; omega)] at hi
          exact absurd hi (by simp)
        have hieq : i = w.c.heap.next := by rw [v.cnt]; omega
        rw [h0] at hi
        simp at hi
        obtain ⟨rfl, rfl⟩ := hi
        have hnr : i ∉ w.removed := fun h => hlt (v.rem i h)
        rw [if_neg hnr, hieq]
        simp [Heap.alloc]
    · intro i hi
      have := v.rem i hi; simp; omega
  | get k =>
    have hlk := lookup_tag k l
    rw [← ha] at hlk
    simp only [ideal]
    cases hf : l.find? (fun x => x.1 == k) with
    | none =>
      rw [hf] at hlk
      simp only [step, get_miss vi k hlk, Out.ok_bind]
      exact ⟨_, rfl, v, hm⟩
    | some x =>
      rw [hf] at hlk
      obtain ⟨c', L', p, e1, i1, m1, d1, a1, hp, _⟩ := get_hit vi k hlk
      simp only [step, e1, Out.ok_bind]
      refine ⟨_, rfl, WInv.same v i1 ?_ d1, m1.trans hm⟩
      rw [a1, ha, without_tag, List.map_append]; rfl
  | release t =>
    by_cases ht : 1 ≤ w.held t
    · obtain ⟨c', e1, i1, m1, a1, d1⟩ := release_tok vi ht
      simp only [step, if_pos ht, e1, Out.ok_bind]
      exact ⟨_, rfl, WInv.same v i1 (a1.trans ha) d1, m1.trans hm⟩
    · simp only [step, if_neg ht]
      exact ⟨_, rfl, v, hm⟩
  | remove k =>
    have hlk := lookup_tag k l
    rw [← ha] at hlk
    simp only [ideal]
    cases hf : l.find? (fun x => x.1 == k) with
    | none =>
      rw [hf] at hlk
      simp only [step, remove_miss vi k hlk, Out.ok_bind]
      exact ⟨_, rfl, v, hm⟩
    | some x =>
      rw [hf] at hlk
      obtain ⟨c', L', p, e1, i1, m1, a1, hp, hp', hk, hv, hn⟩ := remove_hit vi k hlk
      simp only [step, e1, Out.ok_bind]
      refine ⟨_, rfl, ⟨⟨L', i1, by rw [a1, ha, without_tag]⟩, hn.trans v.cnt, ?_, ?_, ?_⟩, m1.trans hm⟩
      · intro i k' x' hi
        simp only
        rw [hk, hv]
        obtain ⟨h1, h2⟩ := v.data i k' x' hi
        refine ⟨h1, ?_⟩
        by_cases c : i = p
        · simp [c]
        · simp [c, h2]
      · intro i hi
        rcases List.mem_cons.1 hi with rfl | hi
        · exact v.lt hp
        · exact v.rem i hi
      · exact List.nodup_cons.2 ⟨v.not_removed hp, v.remNd⟩
  | invalidate =>
    obtain ⟨c', e1, i1, m1, d1⟩ := invalidate_spec vi
    simp only [step, e1, Out.ok_bind]
    exact ⟨_, rfl, WInv.same v i1 rfl d1, m1.trans hm⟩

theorem run_spec {M : Nat} : ∀ (h : List Op) {w : World} {l : List Item}, WInv w l → w.c.max = M →
    ∃ w', run w h = .ok (w', (idealRun M l h).2) ∧ WInv w' (idealRun M l h).1 ∧ w'.c.max = M
  | [], w, l, v, hm => ⟨w, rfl, v, hm⟩
  | op :: h, w, l, v, hm => by
    obtain ⟨w1, e1, v1, m1⟩ := step_spec v hm op
    obtain ⟨w2, e2, v2, m2⟩ := run_spec h v1 m1
    refine ⟨w2, ?_, v2, m2⟩
    unfold run
    simp only [e1, e2, Out.ok_bind]
    rfl

/-! ## Theorems -/

/-- C19: for every capacity and every history, no operation has undefined behaviour, every result is
the one of the ideal LFU cache (evict only when full; then the least used, oldest first; a replaced
key starts again at one), and the reported size is the number of entries. -/
theorem C19_exact (M : Nat) (hM : 0 < M) (h : List Op) :
    ∃ w, run (world M) h = .ok (w, (idealRun M [] h).2) ∧ w.c.size = (idealRun M [] h).1.length := by
  obtain ⟨w, e, v, m⟩ := run_spec (M := M) h (w := world M) (winv_world (by omega)) rfl
  refine ⟨w, e, ?_⟩
  obtain ⟨L, vi, ha⟩ := v.inv
  have := congrArg List.length ha
  simp only [abs, view, List.length_map] at this
  rw [vi.size, this]

/-- C19: the cache never holds more than its limit. -/
theorem C19_never_over_limit (M : Nat) (hM : 0 < M) (h : List Op) (w : World) (rs : List Res)
    (hr : run (world M) h = .ok (w, rs)) : w.c.size ≤ M ∧ w.c.hash.length ≤ M := by
  obtain ⟨w', e, v, m⟩ := run_spec (M := M) h (w := world M) (winv_world (by omega)) rfl
  rw [hr] at e
  simp only [Out.ok.injEq, Prod.mk.injEq] at e
  rw [← e.1] at v m
  obtain ⟨L, vi, ha⟩ := v.inv
  have h1 := vi.size
  have h2 := vi.lim
  have h3 := vi.perm.length_eq
  simp only [List.length_map] at h3
  rw [m] at h2
  exact ⟨h2, by omega⟩

/-- The value in the ideal contents under `k`. -/
def val? (k : List Nat) (l : List Item) : Option Nat := (l.find? (fun x => x.1 == k)).map (fun x => x.2.1)

theorem val?_filter {k k' : List Nat} (l : List Item) {v : Nat} (h : val? k (l.filter (fun x => x.1 ≠ k')) = some v) :
    k' ≠ k ∧ val? k l = some v := by
  unfold val? at h ⊢
  rw [List.find?_filter] at h
  induction l with
  | nil => simp at h
  | cons a l ih =>
    by_cases c : a.1 = k
    · by_cases c2 : a.1 = k'
      · have : k' = k := c2.symm.trans c
        exfalso
        subst this
        cases hf : List.find? (fun a => decide (decide (a.1 ≠ k') = true ∧ (a.1 == k') = true)) (a :: l) with
        | none => rw [hf] at h; simp at h
        | some b => have := List.find?_some hf; simp at this
      · refine ⟨fun e => c2 (c.trans e.symm), ?_⟩
        simp only [List.find?_cons] at h ⊢
        have e1 : (a.1 == k) = true := by simpa using c
        simp only [e1] at h ⊢
        simpa [c2] using h
    · have e1 : (a.1 == k) = false := by simpa using c
      simp only [List.find?_cons, e1] at h ⊢
      simp at h
      exact ih (by simpa using h)

theorem val?_append {k k' : List Nat} (l : List Item) {v v' n : Nat} (h : val? k (l ++ [(k', v', n)]) = some v) :
    val? k l = some v ∨ (k' = k ∧ v' = v) := by
  unfold val? at h ⊢
  rw [List.find?_append] at h
  cases hf : l.find? (fun x => x.1 == k) with
  | some x => rw [hf] at h; left; simpa using h
  | none =>
    rw [hf] at h
    right
    by_cases c : k' = k
    · simp [c] at h; exact ⟨c, h⟩
    · have e1 : (k' == k) = false := by simpa using c
      simp [List.find?_cons, e1] at h

theorem val?_evict {k : List Nat} (l : List Item) {v : Nat} (h : val? k (idealEvict l) = some v) : val? k l = some v := by
  unfold idealEvict at h
  split at h
  · exact (val?_filter l h).2
  · exact h

theorem ideal_lastPut (M : Nat) : ∀ (h : List Op) (l : List Item) (g : List Nat → Option Nat),
    (∀ k v, val? k l = some v → g k = some v) → ∀ k v, val? k (idealRun M l h).1 = some v → h.foldl (cur k) (g k) = some v
  | [], l, g, hg => hg
  | op :: h, l, g, hg => by
    refine ideal_lastPut M h (ideal M l op).1 (fun k => cur k (g k) op) ?_
    intro k v hv
    cases op with
    | put k' x =>
      simp only [ideal] at hv
      simp only [cur]
      have hfil : ∀ {v}, val? k (if (l.filter (fun x => decide (x.1 ≠ k'))).length + 1 > M then idealEvict (l.filter (fun x => decide (x.1 ≠ k')))
          else l.filter (fun x => decide (x.1 ≠ k'))) = some v → k' ≠ k ∧ val? k l = some v := by
        intro v h
        split at h
        · exact val?_filter l (val?_evict _ h)
        · exact val?_filter l h
      rcases val?_append _ hv with h1 | ⟨h1, h2⟩
      · obtain ⟨h2, h3⟩ := hfil h1
        rw [if_neg h2]; exact hg k v h3
      · rw [if_pos h1, h2]
    | get k' =>
      simp only [ideal] at hv
      simp only [cur]
      cases hf : l.find? (fun x => x.1 == k') with
      | none => rw [hf] at hv; exact hg k v hv
      | some x =>
        rw [hf] at hv
        simp only at hv
        rcases val?_append _ hv with h1 | ⟨h1, h2⟩
        · exact hg k v (val?_filter l h1).2
        · exact hg k v (by unfold val?; rw [← h1, hf, ← h2]; rfl)
    | release t => exact hg k v hv
    | remove k' =>
      simp only [ideal] at hv
      simp only [cur]
      cases hf : l.find? (fun x => x.1 == k') with
      | none =>
        rw [hf] at hv
        have c : k' ≠ k := by rintro rfl; simp only [val?, hf] at hv; exact absurd hv (by simp)
        rw [if_neg c]; exact hg k v hv
      | some x =>
        rw [hf] at hv
        obtain ⟨h2, h3⟩ := val?_filter l hv
        rw [if_neg h2]; exact hg k v h3
    | invalidate => simp [ideal, val?] at hv

/-- C19: a `get` that hits returns the value most recently put under that key, not undone since. -/
theorem C19_get_returns_last_put (M : Nat) (hM : 0 < M) (h : List Op) (w : World) (rs : List Res)
    (hr : run (world M) h = .ok (w, rs)) (k : List Nat) (w' : World) (x : Option Nat)
    (hg : step w (.get k) = .ok (w', .hit x)) : ∃ v, x = some v ∧ lastPut k h = some v := by
  obtain ⟨w0, e, v, m⟩ := run_spec (M := M) h (w := world M) (winv_world (by omega)) rfl
  rw [hr] at e
  simp only [Out.ok.injEq, Prod.mk.injEq] at e
  rw [← e.1] at v m
  obtain ⟨w1, e1, _, _⟩ := step_spec v m (.get k)
  rw [hg] at e1
  simp only [Out.ok.injEq, Prod.mk.injEq, ideal] at e1
  cases hf : (idealRun M [] h).1.find? (fun x => x.1 == k) with
  | none => simp [hf] at e1
  | some y =>
    simp [hf] at e1
    refine ⟨y.2.1, e1.2, ?_⟩
    exact ideal_lastPut M h [] (fun _ => none) (by simp [val?]) k y.2.1 (by simp [val?, hf])

/-- Put number `i` (of key `k`) is still the one a `get` of its key returns. -/
def cachedNow (w : World) (i : Nat) (k : List Nat) : Prop := ∃ c' x, get w.c k = .ok (c', some (i, x))

/-- C19: every value is freed at most once, never while a token for it is held or the cache still
has it; once dropped by the cache and released by all it has been freed, with the value that was put
unless `remove` handed it out. -/
theorem C19_freed_exactly_once (M : Nat) (hM : 0 < M) (h : List Op) (w : World) (rs : List Res)
    (hr : run (world M) h = .ok (w, rs)) (i : Nat) (k : List Nat) (v : Nat) (hi : w.puts[i]? = some (k, v)) :
    (w.c.heap.freed.map Prod.fst).count i ≤ 1 ∧
    (1 ≤ w.held i ∨ cachedNow w i k → ∀ x, (i, x) ∉ w.c.heap.freed) ∧
    (w.held i = 0 → ¬ cachedNow w i k →
      (w.c.heap.freed.map Prod.fst).count i = 1 ∧ (i, if i ∈ w.removed then none else some v) ∈ w.c.heap.freed) ∧
    (∀ x, (i, x) ∈ w.c.heap.freed → x = if i ∈ w.removed then none else some v) ∧
    w.removed.count i ≤ 1 := by
  obtain ⟨w0, e, wv, m⟩ := run_spec (M := M) h (w := world M) (winv_world (by omega)) rfl
  rw [hr] at e
  simp only [Out.ok.injEq, Prod.mk.injEq] at e
  rw [← e.1] at wv m
  obtain ⟨L, vi, ha⟩ := wv.inv
  obtain ⟨hk, hv⟩ := wv.data i k v hi
  have o := vi.owned
  have hf := o.freed_once i
  have hpos := vi.pos
  have hlt : i < w.c.heap.next := by
    rw [wv.cnt]; by_contra hc; rw [List.getElem?_eq_none (by omega)] at hi; exact absurd hi (by simp)
  have cach : cachedNow w i k ↔ i ∈ w.c.hash := by
    constructor
    · rintro ⟨c', x, hg⟩
      cases hl : lookup k (abs w.c L) with
      | none => rw [get_miss vi k hl] at hg; simp at hg
      | some y =>
        obtain ⟨c2, L2, p, e2, _, _, _, _, hp, _⟩ := get_hit vi k hl
        rw [e2] at hg
        simp only [Out.ok.injEq, Prod.mk.injEq, Option.some.injEq] at hg
        rw [← hg.2.1]; exact hp
    · intro hh
      obtain ⟨f, hL⟩ := vi.memL hh
      obtain ⟨c2, L2, p, e2, _, _, _, _, hp, hpk⟩ := get_hit vi k (lookup_hit vi hk hL)
      have : p = i := vi.inj p hp i hh (hpk.trans hk.symm)
      subst this
      exact ⟨c2, _, e2⟩
  have hval : ∀ x, (i, x) ∈ w.c.heap.freed → x = if i ∈ w.removed then none else some v := by
    intro x hx; have := o.freed_val _ hx; simp only at this; rw [this, hv]
  refine ⟨by rw [hf]; split <;> omega, ?_, ?_, hval, by rw [wv.remNd.count]; split <;> omega⟩
  · intro hor x hx
    have hd := (o.freed_dead hx).1
    have h0 := o.dead _ hd
    simp only [own] at h0
    rcases hor with h1 | h1
    · omega
    · rw [if_pos (cach.1 h1)] at h0; omega
  · intro h0 hnc
    have hnh : i ∉ w.c.hash := fun h => hnc (cach.2 h)
    have hd : (w.c.heap.ent i).live = false := by
      by_contra hc
      have := (o.ref_eq i (by simpa using hc)).2
      unfold own at this; rw [if_neg hnh, h0] at this; omega
    rw [if_pos ⟨hlt, hd⟩] at hf
    refine ⟨hf, ?_⟩
    have hmem : i ∈ w.c.heap.freed.map Prod.fst := List.count_pos_iff.1 (by omega)
    obtain ⟨p, hp, rfl⟩ := List.mem_map.1 hmem
    have := hval p.2 hp
    rw [← this]; exact hp

/-- C19: capacity zero disables the cache: puts are refused, nothing is ever found. -/
theorem C19_disabled (h : List Op) : ∃ w rs, run (world 0) h = .ok (w, rs) ∧ ∀ x, Res.hit x ∉ rs := by
  have gen : ∀ (h : List Op) (w : World), w.c = create 0 → (∀ i, w.held i = 0) →
      ∃ w' rs, run w h = .ok (w', rs) ∧ ∀ x, Res.hit x ∉ rs := by
    intro h
    induction h with
    | nil => intro w _ _; exact ⟨w, [], rfl, by simp⟩
    | cons op h ih =>
      intro w hc hh
      have : ∃ w1 r, step w op = .ok (w1, r) ∧ w1.c = create 0 ∧ (∀ i, w1.held i = 0) ∧ ∀ x, r ≠ .hit x := by
        cases op with
        | put k v =>
          have : put (create 0) k v = .ok (create 0, false) := by unfold put; rw [if_pos (show (create 0).max = 0 from rfl)]
          exact ⟨{ w with c := create 0 }, .miss, by simp only [step, hc, this, Out.ok_bind], rfl, hh, by simp⟩
        | get k =>
          have : get (create 0) k = .ok (create 0, none) := by unfold get; rw [if_pos (show (create 0).max = 0 from rfl)]
          exact ⟨{ w with c := create 0 }, .miss, by simp only [step, hc, this, Out.ok_bind], rfl, hh, by simp⟩
        | release t => exact ⟨w, .done, by simp [step, hh t], hc, hh, by simp⟩
        | remove k =>
          have : remove (create 0) k = .ok (create 0, none) := by unfold remove; rw [if_pos (show (create 0).max = 0 from rfl)]
          exact ⟨{ w with c := create 0 }, .miss, by simp only [step, hc, this, Out.ok_bind], rfl, hh, by simp⟩
        | invalidate =>
          have : invalidate (create 0) = .ok (create 0) := by simp [invalidate, create, allIds, Lru.releaseAll]
          exact ⟨{ w with c := create 0 }, .done, by simp only [step, hc, this, Out.ok_bind], rfl, hh, by simp⟩
      obtain ⟨w1, r, e1, c1, h1, n1⟩ := this
      obtain ⟨w2, rs, e2, n2⟩ := ih w1 c1 h1
      refine ⟨w2, r :: rs, by unfold run; simp only [e1, e2, Out.ok_bind], ?_⟩
      intro x hx
      rcases List.mem_cons.1 hx with e | hx
      · exact n1 x e.symm
      · exact n2 x hx
  exact gen h (world 0) rfl (fun _ => rfl)

/-! ### Concrete histories -/

example : (match run (world 2) [.put [1] 10, .put [2] 20, .get [1], .get [1], .get [2], .put [3] 30, .get [2], .get [1],
    .release 0, .put [1] 11, .get [3], .remove [1]] with | .ok (w, rs) => (rs, w.c.heap.freed, w.c.size) | _ => ([], [], 0)) =
    ([.done, .done, .hit (some 10), .hit (some 10), .hit (some 20), .done, .miss, .hit (some 10),
      .done, .done, .hit (some 30), .hit (some 11)], [(3, none)], 1) := by decide +kernel

end Mtev.Lfu
