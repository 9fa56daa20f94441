import Verif.LfuProps

/-!
# C51, C52: unbounded caches, and returning memory

`mtev_lru.h` documents that with `max_entries == -1` the cache "devolves to a normal hashtable".
-/

namespace Mtev.Cache
open Mtev.Lru (Op Res own hsFind hsFind_some hsFind_none)

/-! ## Specification: a finite map -/

def mapStep (m : List (List Nat × Nat)) : Op → List (List Nat × Nat) × Res
  | .put k v => ((k, v) :: m.filter (fun kv => kv.1 ≠ k), .done)
  | .get k => match m.find? (fun kv => kv.1 == k) with
    | some kv => (m, .hit (some kv.2))
    | none => (m, .miss)
  | .release _ => (m, .done)
  | .remove k => match m.find? (fun kv => kv.1 == k) with
    | some kv => (m.filter (fun kv => kv.1 ≠ k), .hit (some kv.2))
    | none => (m, .miss)
  | .invalidate => ([], .done)

def mapRun (m : List (List Nat × Nat)) : List Op → List Res
  | [] => []
  | op :: h => (mapStep m op).2 :: mapRun (mapStep m op).1 h

/-- No put of a key that is present. -/
def Fresh (m : List (List Nat × Nat)) : List Op → Prop
  | [] => True
  | op :: h => (match op with | .put k _ => ∀ kv ∈ m, kv.1 ≠ k | _ => True) ∧ Fresh (mapStep m op).1 h

/-! ## Invariant of an unbounded LRU: everything is in the hash, nothing in the list -/

structure UInv (c : Lru.LRU) (live : Nat → Nat) (m : List (List Nat × Nat)) : Prop where
  neg : c.max ≤ 0
  nolist : c.list = []
  owned : Owned c.heap live
  cov : ∀ i ∈ c.hash, 1 ≤ live i
  nodup : c.hash.Nodup
  inj : ∀ i ∈ c.hash, ∀ j ∈ c.hash, (c.heap.ent i).key = (c.heap.ent j).key → i = j
  data : c.hash.map (fun i => ((c.heap.ent i).key, (c.heap.ent i).val)) = m.map Lru.tag

theorem u_find {c : Lru.LRU} {live m} (v : UInv c live m) (k : List Nat) :
    (hsFind c.heap c.hash k).map (fun i => (c.heap.ent i).val) = (m.find? (fun kv => kv.1 == k)).map (fun kv => some kv.2) := by
  rw [← Lru.lookup_tag, ← v.data]
  unfold Lru.lookup hsFind
  rw [List.find?_map, Option.map_map]
  rfl

/-- One step of an unbounded LRU whose client holds `held` tokens, is a step of the map; `live` counts the
references that exist (an invalidated entry keeps one for ever). -/
theorem u_step {w : Lru.World} {live : Nat → Nat} {m : List (List Nat × Nat)} (v : UInv w.c live m)
    (hl : ∀ i, w.held i + (if i ∈ w.c.hash then 1 else 0) ≤ live i) (op : Op)
    (hf : match op with | .put k _ => ∀ kv ∈ m, kv.1 ≠ k | _ => True) :
    ∃ w' live', Lru.step w op = .ok (w', (mapStep m op).2) ∧ UInv w'.c live' (mapStep m op).1 ∧
      ∀ i, w'.held i + (if i ∈ w'.c.hash then 1 else 0) ≤ live' i := by
  have hmax : ¬ w.c.max > 0 := by have := v.neg; omega
  have hnone : ∀ k, (∀ kv ∈ m, kv.1 ≠ k) → hsFind w.c.heap w.c.hash k = none := by
    intro k hk
    have := u_find v k
    rw [List.find?_eq_none.2 (by intro kv hkv; simpa using hk kv hkv)] at this
    simpa using this
  cases op with
  | put k x =>
    have hs := hnone k hf
    have hkn := hsFind_none hs
    have dead0 : live w.c.heap.next = 0 := v.owned.dead _ (v.owned.fresh _ (Nat.le_refl _))
    have hnm : w.c.heap.next ∉ w.c.hash := fun h => by have := v.cov _ h; omega
    have hadd : Lru.put w.c k x = .ok { w.c with heap := w.c.heap.alloc k x, hash := w.c.heap.next :: w.c.hash, size := w.c.size + 1 } := by
      unfold Lru.put
      simp only [hs, Lru.add, if_neg hmax]
    simp only [Lru.step, hadd, Out.ok_bind]
    refine ⟨_, _, rfl, ⟨v.neg, v.nolist, owned_alloc v.owned k x, ?_, List.nodup_cons.2 ⟨hnm, v.nodup⟩, ?_, ?_⟩, ?_⟩
    · intro i hi
      rcases List.mem_cons.1 hi with rfl | hi
      · simp
      · have : i ≠ w.c.heap.next := fun h => hnm (h ▸ hi)
        simp only [if_neg this]; exact v.cov i hi
    · have key : ∀ i, ((w.c.heap.alloc k x).ent i).key = if i = w.c.heap.next then k else (w.c.heap.ent i).key := by
        intro i; unfold Heap.alloc; simp only; split <;> rfl
      intro i hi j hj he
      simp only [key] at he
      simp only [List.mem_cons] at hi hj
      rcases hi with hi | hi <;> rcases hj with hj | hj
      · rw [hi, hj]
      · have : j ≠ w.c.heap.next := fun h => hnm (h ▸ hj)
        rw [if_pos hi, if_neg this] at he; exact absurd he.symm (hkn j hj)
      · have : i ≠ w.c.heap.next := fun h => hnm (h ▸ hi)
        rw [if_neg this, if_pos hj] at he; exact absurd he (hkn i hi)
      · have h1 : i ≠ w.c.heap.next := fun h => hnm (h ▸ hi)
        have h2 : j ≠ w.c.heap.next := fun h => hnm (h ▸ hj)
        rw [if_neg h1, if_neg h2] at he; exact v.inj i hi j hj he
    · have hfl : m.filter (fun kv => kv.1 ≠ k) = m := by
        rw [List.filter_eq_self]; intro a ha; simpa using hf a ha
      simp only [mapStep, hfl, List.map_cons]
      rw [← v.data]
      congr 1
      · simp [Heap.alloc, Lru.tag]
      · apply Lru.map_same
        intro i hi
        rw [Lru.alloc_key _ _ _ _ (fun h => hnm (h ▸ hi))]
        exact ⟨rfl, rfl⟩
    · intro i
      have := hl i
      by_cases c : i = w.c.heap.next
      · subst c; rw [if_neg hnm] at this; simp; omega
      · simp [c]; exact this
  | get k =>
    have hfd := u_find v k
    simp only [mapStep]
    cases hs : hsFind w.c.heap w.c.hash k with
    | none =>
      cases hm : m.find? (fun kv => kv.1 == k) with
      | some kv => simp [hs, hm] at hfd
      | none =>
        have : Lru.get w.c k = .ok (w.c, none) := by unfold Lru.get; rw [hs]
        simp only [Lru.step, this, Out.ok_bind]
        exact ⟨_, live, rfl, v, hl⟩
    | some p =>
      cases hm : m.find? (fun kv => kv.1 == k) with
      | none => simp [hs, hm] at hfd
      | some kv =>
        simp [hs, hm] at hfd
        have hp := (hsFind_some hs).1
        obtain ⟨h', r1, r2, r3⟩ := retain_spec v.owned (v.cov p hp)
        have : Lru.get w.c k = .ok ({ w.c with heap := h' }, some (p, some kv.2)) := by
          unfold Lru.get; rw [hs]; simp only [Lru.touch, if_neg hmax, Out.ok_bind, r1, r3.val, hfd]
        simp only [Lru.step, this, Out.ok_bind]
        refine ⟨_, _, rfl, ⟨v.neg, v.nolist, r2, ?_, v.nodup, ?_, ?_⟩, ?_⟩
        · intro i hi; have := v.cov i hi; by_cases c : i = p
          · subst c; simp
          · simp [c]; exact this
        · intro i hi j hj he; rw [r3.key, r3.key] at he; exact v.inj i hi j hj he
        · rw [← v.data]; exact Lru.map_same (fun i _ => ⟨r3.key i, r3.val i⟩)
        · intro i; have := hl i
          by_cases c : i = p
          · subst c; simp only [if_true]; omega
          · simp only [if_neg c]; exact this
  | release t =>
    simp only [mapStep]
    by_cases ht : 1 ≤ w.held t
    · have h1 : 1 ≤ live t := by have := hl t; omega
      obtain ⟨h', q1, q2, q3, _⟩ := release_spec v.owned h1
      have : Lru.release w.c t = .ok { w.c with heap := h' } := by
        unfold Lru.release; simp only [q1, Out.ok_bind]
      simp only [Lru.step, if_pos ht, this, Out.ok_bind]
      refine ⟨_, _, rfl, ⟨v.neg, v.nolist, q2, ?_, v.nodup, ?_, ?_⟩, ?_⟩
      · intro i hi; have h2 := hl i; rw [if_pos hi] at h2
        by_cases c : i = t
        · subst c; simp; omega
        · simp [c]; exact v.cov i hi
      · intro i hi j hj he; rw [q3.key, q3.key] at he; exact v.inj i hi j hj he
      · rw [← v.data]; exact Lru.map_same (fun i _ => ⟨q3.key i, q3.val i⟩)
      · intro i; have := hl i
        by_cases c : i = t
        · subst c; simp only [if_true]; omega
        · simp only [if_neg c]; exact this
    · simp only [Lru.step, if_neg ht]
      exact ⟨_, live, rfl, v, hl⟩
  | remove k =>
    have hfd := u_find v k
    simp only [mapStep]
    cases hs : hsFind w.c.heap w.c.hash k with
    | none =>
      cases hm : m.find? (fun kv => kv.1 == k) with
      | some kv => simp [hs, hm] at hfd
      | none =>
        have : Lru.remove w.c k = .ok (w.c, none) := by unfold Lru.remove; rw [hs]
        simp only [Lru.step, this, Out.ok_bind]
        exact ⟨_, live, rfl, v, hl⟩
    | some p =>
      cases hm : m.find? (fun kv => kv.1 == k) with
      | none => simp [hs, hm] at hfd
      | some kv =>
        simp [hs, hm] at hfd
        obtain ⟨hp, hkp⟩ := hsFind_some hs
        obtain ⟨h0, r1, r2, rk, rv, rn⟩ := clearVal_spec v.owned (v.cov p hp)
        obtain ⟨h', q1, q2, q3, _⟩ := release_spec r2 (v.cov p hp)
        have key : ∀ i, (h'.ent i).key = (w.c.heap.ent i).key := by intro i; rw [q3.key, rk]
        have vals : ∀ i, (h'.ent i).val = if i = p then none else (w.c.heap.ent i).val := by intro i; rw [q3.val, rv]
        have : ∃ ec, Lru.remove w.c k = .ok ({ w.c with heap := h', hash := w.c.hash.erase p, size := w.c.size - 1, ec := ec }, some (p, some kv.2)) := by
          unfold Lru.remove; rw [hs]; simp only [if_neg hmax, Out.ok_bind, r1, q1, hfd]
          exact ⟨_, rfl⟩
        obtain ⟨ec, this⟩ := this
        simp only [Lru.step, this, Out.ok_bind]
        refine ⟨_, _, rfl, ⟨v.neg, v.nolist, q2, ?_, v.nodup.erase p, ?_, ?_⟩, ?_⟩
        · intro i hi
          obtain ⟨h1, h2⟩ := v.nodup.mem_erase_iff.1 hi
          simp only [if_neg h1]; exact v.cov i h2
        · intro i hi j hj he
          simp only [key] at he
          exact v.inj i (List.mem_of_mem_erase hi) j (List.mem_of_mem_erase hj) he
        · simp only
          have e1 : (w.c.hash.erase p).map (fun i => ((h'.ent i).key, (h'.ent i).val)) =
              (w.c.hash.erase p).map (fun i => ((w.c.heap.ent i).key, (w.c.heap.ent i).val)) := by
            apply Lru.map_same
            intro i hi
            have : i ≠ p := (v.nodup.mem_erase_iff.1 hi).1
            exact ⟨key i, by rw [vals, if_neg this]⟩
          rw [e1, Lru.map_erase_filter v.nodup v.inj hp, v.data, hkp]
          exact Lru.without_tag k m
        · intro i
          have h1 := hl i
          by_cases c : i = p
          · subst c; simp only [if_true, v.nodup.mem_erase_iff]; rw [if_pos hp] at h1; simp; omega
          · simp only [if_neg c, v.nodup.mem_erase_iff]; simpa [c] using h1
  | invalidate =>
    have : Lru.invalidate w.c = .ok { w.c with list := [], hash := [], size := 0 } := by
      unfold Lru.invalidate; rw [v.nolist]; simp only [Lru.releaseAll, Out.ok_bind]
    simp only [Lru.step, this, Out.ok_bind]
    refine ⟨_, live, rfl, ⟨v.neg, rfl, v.owned, by simp, by simp, by simp, rfl⟩, ?_⟩
    intro i; have := hl i; simp; omega

/-- C51 (partial: missing is the put of a key that is present, where the code unlinks an entry that
was never linked, see `C51_unbounded_replace_violated`): without such puts an unbounded LRU returns for
every operation what a finite map would. -/
theorem C51_unbounded_lru_partial (M : Int) (hM : M ≤ 0) (h : List Op) (hf : Fresh [] h) :
    ∃ w, Lru.run (Lru.world M) h = .ok (w, mapRun [] h) := by
  have gen : ∀ (h : List Op) (w : Lru.World) (live : Nat → Nat) (m : List (List Nat × Nat)), UInv w.c live m →
      (∀ i, w.held i + (if i ∈ w.c.hash then 1 else 0) ≤ live i) → Fresh m h → ∃ w', Lru.run w h = .ok (w', mapRun m h) := by
    intro h
    induction h with
    | nil => intro w live m _ _ _; exact ⟨w, rfl⟩
    | cons op h ih =>
      intro w live m v hl hf
      obtain ⟨w1, live1, e1, v1, l1⟩ := u_step v hl op hf.1
      obtain ⟨w2, e2⟩ := ih w1 live1 _ v1 l1 hf.2
      refine ⟨w2, ?_⟩
      unfold Lru.run
      simp only [e1, e2, Out.ok_bind, mapRun]
  refine gen h (Lru.world M) (fun _ => 0) [] ⟨hM, rfl, owned_empty, ?_, ?_, ?_, rfl⟩ ?_ hf
  · simp [Lru.world, Lru.create]
  · simp [Lru.world, Lru.create]
  · simp [Lru.world, Lru.create]
  · simp [Lru.world, Lru.create]

/-- C51 is false of the code: replacing a key of an unbounded cache uses uninitialised links, in both
caches. -/
theorem C51_unbounded_replace_violated (k : List Nat) (v v' : Nat) :
    Lru.run (Lru.world (-1)) [.put k v, .put k v'] = .ub ∧ Lfu.run (Lfu.world (-1)) [.put k v, .put k v'] = .ub := by
  have h1 : Lru.put (Lru.create (-1)) k v = .ok { Lru.create (-1) with heap := Heap.empty.alloc k v, hash := [0], size := 1 } := by
    simp [Lru.put, Lru.create, hsFind, Lru.add, Heap.empty]
  have h2 : Lru.put { Lru.create (-1) with heap := Heap.empty.alloc k v, hash := [0], size := 1 } k v' = .ub := by
    simp [Lru.put, Lru.create, hsFind, Heap.alloc, Heap.empty, Lru.tailqRemove]
  have h3 : Lfu.put (Lfu.create (-1)) k v = .ok ({ Lfu.create (-1) with heap := Heap.empty.alloc k v, hash := [0], size := 1 }, true) := by
    simp [Lfu.put, Lfu.create, hsFind, Lfu.add, Heap.empty]
  have h4 : Lfu.put { Lfu.create (-1) with heap := Heap.empty.alloc k v, hash := [0], size := 1 } k v' = .ub := by
    simp [Lfu.put, Lfu.create, hsFind, Heap.alloc, Heap.empty, Lfu.unlink, Lfu.removeB]
  constructor
  · simp only [Lru.run, Lru.step, Lru.world, h1, Out.ok_bind, h2, Out.ub_bind]
  · simp only [Lfu.run, Lfu.step, Lfu.world, h3, Out.ok_bind, h4, Out.ub_bind]

/-- C52 (partial: holds for the values of bounded caches): after `invalidate`, once all tokens are released,
every value ever put into a bounded LRU or LFU has been freed exactly once (with NULL for the values `remove`
handed out). -/
theorem C52_values_returned_partial (M : Nat) (hM : 0 < M) (h : List Op) :
    (∀ w rs, Lru.run (Lru.world M) (h ++ [.invalidate]) = .ok (w, rs) → (∀ i, w.held i = 0) →
      ∀ i k v, w.puts[i]? = some (k, v) → (w.c.heap.freed.map Prod.fst).count i = 1) ∧
    (∀ w rs, Lfu.run (Lfu.world M) (h ++ [.invalidate]) = .ok (w, rs) → (∀ i, w.held i = 0) →
      ∀ i k v, w.puts[i]? = some (k, v) → (w.c.heap.freed.map Prod.fst).count i = 1) := by
  constructor
  · intro w rs hr hh i k v hi
    have key : w.c.hash = [] := by
      have split : ∀ (h : List Op) (w0 : Lru.World) (w : Lru.World) rs, Lru.run w0 (h ++ [.invalidate]) = .ok (w, rs) →
          ∃ w1, Lru.step w1 .invalidate = .ok (w, .done) := by
        intro h
        induction h with
        | nil =>
          intro w0 w rs hr
          obtain ⟨w1, r, rs', e1, e2, _⟩ := Lru.run_cons hr
          simp only [Lru.run, Out.ok.injEq, Prod.mk.injEq] at e2
          rw [← e2.1]
          refine ⟨w0, ?_⟩
          rw [e1]
          simp only [Lru.step] at e1
          cases hc : Lru.invalidate w0.c with
          | ub => simp [hc] at e1
          | abort => simp [hc] at e1
          | ok c => simp only [hc, Out.ok_bind, Out.ok.injEq, Prod.mk.injEq] at e1; rw [e1.2]
        | cons op h ih =>
          intro w0 w rs hr
          obtain ⟨w1, r, rs', e1, e2, _⟩ := Lru.run_cons hr
          exact ih w1 w rs' e2
      obtain ⟨w1, e⟩ := split h _ w rs hr
      simp only [Lru.step] at e
      cases hc : Lru.invalidate w1.c with
      | ub => simp [hc] at e
      | abort => simp [hc] at e
      | ok c =>
        simp only [hc, Out.ok_bind, Out.ok.injEq, Prod.mk.injEq] at e
        rw [← e.1]
        unfold Lru.invalidate at hc
        cases hx : Lru.releaseAll w1.c.heap w1.c.list with
        | ub => simp [hx] at hc
        | abort => simp [hx] at hc
        | ok h' => simp only [hx, Out.ok_bind, Out.ok.injEq] at hc; rw [← hc]
    refine ((Lru.C18_freed_exactly_once M (by omega) _ w rs hr i k v hi).2.2.1 (hh i) ?_).1
    rintro ⟨c', x, hg⟩
    simp [Lru.get, hsFind, key] at hg
  · intro w rs hr hh i k v hi
    obtain ⟨w0, e, wv, m⟩ := Lfu.run_spec (M := M) (h ++ [.invalidate]) (w := Lfu.world M) (Lfu.winv_world (by omega)) rfl
    rw [hr] at e
    simp only [Out.ok.injEq, Prod.mk.injEq] at e
    rw [← e.1] at wv m
    have emp : ∀ (h : List Op) (l : List Lfu.Item), (Lfu.idealRun M l (h ++ [.invalidate])).1 = [] := by
      intro h
      induction h with
      | nil => intro l; rfl
      | cons op h ih => intro l; exact ih _
    rw [emp] at wv
    obtain ⟨L, vi, ha⟩ := wv.inv
    refine ((Lfu.C19_freed_exactly_once M hM _ w rs hr i k v hi).2.2.1 (hh i) ?_).1
    rintro ⟨c', x, hg⟩
    have : Lfu.lookup k (Lfu.abs w.c L) = none := by rw [ha]; rfl
    rw [Lfu.get_miss vi k this] at hg
    simp at hg

/-- C52 is false of the code: an unbounded LRU forgets its entries on `invalidate` without freeing them,
and a bounded LFU loses a frequency bucket whenever the only entry of a bucket moves to an existing next one. -/
theorem C52_leak_violated :
    (∃ w rs, Lru.run (Lru.world (-1)) [.put [97] 1, .invalidate, .get [97]] = .ok (w, rs) ∧
      rs.getLast? = some .miss ∧ w.c.heap.freed = [] ∧ w.held 0 = 0) ∧
    (∃ w rs, Lfu.run (Lfu.world 2) [.put [1] 10, .put [2] 20, .get [1], .get [2], .invalidate] = .ok (w, rs) ∧
      w.c.ballocs = 2 ∧ w.c.bfrees = 1) :=
  ⟨⟨_, _, rfl, by decide +kernel⟩, ⟨_, _, rfl, by decide +kernel⟩⟩

/-! ### Hypotheses are met -/

example : Fresh [] [.put [1] 10, .put [2] 20, .get [1], .remove [1], .put [1] 11, .release 0, .get [2]] := by
  simp [Fresh, mapStep]
example : mapRun [] [.put [1] 10, .put [2] 20, .get [1], .remove [1], .put [1] 11, .release 0, .get [2]] =
    [.done, .done, .hit (some 10), .hit (some 10), .done, .done, .hit (some 20)] := by decide
example : ∃ w rs, Lru.run (Lru.world 2) ([.put [1] 10, .put [2] 20, .put [3] 30, .get [2], .release 1] ++ [.invalidate]) = .ok (w, rs) ∧
    (w.c.heap.freed.map Prod.fst) = [0, 1, 2] := ⟨_, _, rfl, by decide +kernel⟩

end Mtev.Cache
