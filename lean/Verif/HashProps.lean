import Verif.Hash

/-!
Properties of the hash table (C28).
-/

namespace Mtev.Hash

/-- The operations of the API.  Keys are byte strings; key pointers and data pointers are numbers. -/
inductive Op where
  | store (k : List Nat) (kp d : Nat)
  | set (k : List Nat) (kp d : Nat)
  | replace (k : List Nat) (kp d : Nat) (kf df : Bool)
  | retrieve (k : List Nat)
  | delete (k : List Nat) (kf df : Bool)
  | size
  | iterate
  | deleteAll (kf df : Bool)

/-- What an operation answers. -/
inductive Res where
  | flag (b : Bool)
  | old (o : Option (Nat × Nat))
  | data (o : Option Nat)
  | count (n : Nat)
  | pairs (l : List (List Nat × Nat × Nat))

def step (junk : Nat → Nat) (t : Tbl) : Op → Out (Tbl × Res × List Cb)
  | .store k kp d => do let (t, b) ← store t k kp d; pure (t, .flag b, [])
  | .set k kp d => do let (t, o) ← set t k kp d; pure (t, .old o, [])
  | .replace k kp d kf df => do let (t, b, c) ← replace t k kp d kf df; pure (t, .flag b, c)
  | .retrieve k => do let o ← retrieve junk t k; pure (t, .data o, [])
  | .delete k kf df => do let (t, b, c) ← delete junk t k kf df; pure (t, .flag b, c)
  | .size => pure (t, .count (size t), [])
  | .iterate => pure (t, .pairs (iterate t), [])
  | .deleteAll kf df => let (t, c) := deleteAll t kf df; pure (t, .flag true, c)

def run (junk : Nat → Nat) : Tbl → List Op → Out (Tbl × List (Res × List Cb))
  | t, [] => pure (t, [])
  | t, op :: rest => do
    let (t, r, c) ← step junk t op
    let (t, l) ← run junk t rest
    pure (t, (r, c) :: l)

/-! ### Specification: a finite map from byte strings to (key pointer, data) -/

abbrev Map := List Nat → Option (Nat × Nat)

def Map.put (m : Map) (k : List Nat) (v : Nat × Nat) : Map := fun k' => if k' = k then some v else m k'
def Map.drop (m : Map) (k : List Nat) : Map := fun k' => if k' = k then none else m k'

/-- The callbacks owed for the pair under `k`, if any: key first, then data. -/
def owed (m : Map) (k : List Nat) (kf df : Bool) : List Cb :=
  match m k with
  | some (p, d) => (if kf then [Cb.key p] else []) ++ (if df then [Cb.data d] else [])
  | none => []

/-- `l` lists each pair of the map exactly once. -/
def Enumerates (l : List (List Nat × Nat × Nat)) (m : Map) : Prop :=
  (l.map Prod.fst).Nodup ∧ ∀ k p d, (k, p, d) ∈ l ↔ m k = some (p, d)

/-- The answer, callbacks and next map an operation must give. -/
def Spec (m : Map) : Op → Res → List Cb → Map → Prop
  | .store k kp d, r, c, m' =>
    r = .flag (m k).isNone ∧ c = [] ∧ m' = if m k = none then m.put k (kp, d) else m
  | .set k kp d, r, c, m' => r = .old (m k) ∧ c = [] ∧ m' = m.put k (kp, d)
  | .replace k kp d kf df, r, c, m' =>
    r = .flag (m k).isSome ∧ c = owed m k kf df ∧ m' = m.put k (kp, d)
  | .retrieve k, r, c, m' => r = .data ((m k).map Prod.snd) ∧ c = [] ∧ m' = m
  | .delete k kf df, r, c, m' =>
    r = .flag (m k).isSome ∧ c = owed m k kf df ∧ m' = m.drop k
  | .size, r, c, m' => (∃ l, Enumerates l m ∧ r = .count l.length) ∧ c = [] ∧ m' = m
  | .iterate, r, c, m' => (∃ l, Enumerates l m ∧ r = .pairs l) ∧ c = [] ∧ m' = m
  | .deleteAll kf df, _, c, m' =>
    (∃ l, Enumerates l m ∧ c = l.flatMap fun x => owed m x.1 kf df) ∧ m' = fun _ => none

/-- A history answered as the map would. -/
inductive Answers : Map → List Op → List (Res × List Cb) → Map → Prop where
  | nil (m) : Answers m [] [] m
  | cons {m op r c m' ops outs m''} : Spec m op r c m' → Answers m' ops outs m'' →
      Answers m (op :: ops) ((r, c) :: outs) m''

def Op.keyLen : Op → Nat
  | .store k _ _ | .set k _ _ | .replace k _ _ _ _ | .retrieve k | .delete k _ _ => k.length
  | _ => 0

theorem enumerates_iterate {t : Tbl} (h : WF t) : Enumerates (iterate t) (lookup t) :=
  ⟨by rw [iterate_keys]; exact h.distinct, fun _ _ _ => mem_iterate h⟩

theorem step_spec (junk : Nat → Nat) {t : Tbl} (h : WF t) (op : Op)
    (hk : op.keyLen + 4 < 2 ^ 32) :
    ∃ t' r c, step junk t op = .ok (t', r, c) ∧ WF t' ∧ Spec (lookup t) op r c (lookup t') := by
  cases op with
  | store k kp d =>
    obtain ⟨t', e, h1, h2⟩ := store_spec h hk kp d
    refine ⟨t', _, _, by rw [step, e]; rfl, h1, rfl, rfl, ?_⟩
    funext k'
    rw [h2 k']
    by_cases hn : lookup t k = none
    · simp [hn, Map.put]
    · simp [hn]
  | set k kp d =>
    obtain ⟨t', e, h1, h2⟩ := set_spec h hk kp d
    exact ⟨t', _, _, by rw [step, e]; rfl, h1, rfl, rfl, funext h2⟩
  | replace k kp d kf df =>
    obtain ⟨t', e, h1, h2⟩ := replace_spec h hk kp d kf df
    exact ⟨t', _, _, by rw [step, e]; rfl, h1, rfl, rfl, funext h2⟩
  | retrieve k =>
    exact ⟨t, _, _, by rw [step, retrieve_spec junk h hk]; rfl, h, rfl, rfl, rfl⟩
  | delete k kf df =>
    obtain ⟨t', e, h1, h2⟩ := delete_spec junk h hk kf df
    exact ⟨t', _, _, by rw [step, e]; rfl, h1, rfl, rfl, funext h2⟩
  | size =>
    refine ⟨t, _, _, rfl, h, ⟨iterate t, enumerates_iterate h, ?_⟩, rfl, rfl⟩
    simp [size, iterate]
  | iterate => exact ⟨t, _, _, rfl, h, ⟨iterate t, enumerates_iterate h, rfl⟩, rfl, rfl⟩
  | deleteAll kf df =>
    refine ⟨_, _, _, rfl, h.clear, ⟨iterate t, enumerates_iterate h, ?_⟩, ?_⟩
    · simp only [deleteAll, iterate_eq, List.flatMap_map]
      apply List.flatMap_congr
      intro e he
      have : lookup t (keyOf e) = some (e.keyPtr, e.data) :=
        (lookup_some_iff h.distinct).mpr ⟨e, he, rfl, rfl⟩
      simp [owed, this, cbs]
    · funext k
      simp [deleteAll, lookup]

theorem run_spec (junk : Nat → Nat) (ops : List Op) {t : Tbl} (h : WF t)
    (hk : ∀ op ∈ ops, op.keyLen + 4 < 2 ^ 32) :
    ∃ t' outs, run junk t ops = .ok (t', outs) ∧ WF t' ∧
      Answers (lookup t) ops outs (lookup t') := by
  induction ops generalizing t with
  | nil => exact ⟨t, [], rfl, h, .nil _⟩
  | cons op ops ih =>
    obtain ⟨t1, r, c, e1, h1, s1⟩ := step_spec junk h op (hk op (by simp))
    obtain ⟨t2, outs, e2, h2, s2⟩ := ih h1 (fun o ho => hk o (by simp [ho]))
    refine ⟨t2, (r, c) :: outs, ?_, h2, .cons s1 s2⟩
    rw [run, e1, Out.ok_bind]
    simp only
    rw [e2]; rfl

/-- C28: every history of store, set, replace, retrieve, delete, size, iteration and delete-all on
a new table runs without undefined behaviour and is answered, callbacks included, as the finite map
would.  Keys are any byte strings an `int` length can describe. -/
theorem C28_map (junk : Nat → Nat) (ops : List Op) (hk : ∀ op ∈ ops, op.keyLen < 2 ^ 31) :
    ∃ t outs m, run junk Tbl.empty ops = .ok (t, outs) ∧
      Answers (fun _ => none) ops outs m ∧ Enumerates (iterate t) m := by
  obtain ⟨t, outs, e, h, s⟩ := run_spec junk ops WF.empty
    (fun op ho => by have := hk op ho; omega)
  exact ⟨t, outs, lookup t, e, s, enumerates_iterate h⟩

/-- C28, memory: after any history every object the table allocated is either in the table or was
freed, never both and never twice. -/
theorem C28_objects (junk : Nat → Nat) (ops : List Op) (hk : ∀ op ∈ ops, op.keyLen < 2 ^ 31)
    {t : Tbl} {outs : List (Res × List Cb)} (hr : run junk Tbl.empty ops = .ok (t, outs)) :
    (t.ents.map Attr.id ++ t.freed).Nodup ∧
      ∀ i, i < t.next ↔ i ∈ t.ents.map Attr.id ∨ i ∈ t.freed := by
  obtain ⟨t', outs', e, h, -⟩ := run_spec junk ops WF.empty
    (fun op ho => by have := hk op ho; omega)
  rw [hr] at e
  injection e with e
  injection e with e1 e2
  subst e1
  refine ⟨h.ids.nodup_iff.mpr List.nodup_range, fun i => ?_⟩
  rw [← List.mem_range, ← h.ids.mem_iff, List.mem_append]

/-! ### Merging dictionaries -/

/-- A source pair as `mtev_hash_merge_as_dict` sees it: the memory at its key pointer, its key
length, and the pointers of the copies it makes. -/
structure SrcPair where
  kmem : Block
  klen : Nat
  kp : Nat
  d : Nat

def merge : Tbl → List SrcPair → Out (Tbl × List Cb)
  | t, [] => pure (t, [])
  | t, x :: rest => do
    let (t, c) ← mergeStep t x.kmem x.klen x.kp x.d
    let (t, c') ← merge t rest
    pure (t, c ++ c')

/-- The map after merging: every source pair wins. -/
def mergeMap (m : Map) : List (List Nat × SrcPair) → Map
  | [] => m
  | (k, x) :: rest => mergeMap (m.put k (x.kp, x.d)) rest

theorem merge_spec {t : Tbl} (h : WF t) (src : List (List Nat × SrcPair))
    (hs : ∀ x ∈ src, x.1.length < 2 ^ 31 ∧ x.2.klen = x.1.length ∧ 0 ∉ x.1 ∧
      ∃ rest, x.2.kmem = x.1 ++ 0 :: rest) :
    ∃ t' c, merge t (src.map Prod.snd) = .ok (t', c) ∧ WF t' ∧
      lookup t' = mergeMap (lookup t) src := by
  induction src generalizing t with
  | nil => exact ⟨t, [], rfl, h, rfl⟩
  | cons x src ih =>
    obtain ⟨k, x⟩ := x
    obtain ⟨hl, hkl, h0, rest, hm⟩ := hs (k, x) (by simp)
    simp only at hl hkl h0 hm
    obtain ⟨t1, e1, h1, l1⟩ := replace_spec h (k := k) (by omega) x.kp x.d true true
    obtain ⟨t2, c2, e2, h2, l2⟩ := ih h1 (fun y hy => hs y (by simp [hy]))
    have hdup : strdup x.kmem = .ok (k ++ [0]) := by
      unfold strdup
      rw [hm, if_pos (by simp)]
      congr 2
      rw [List.takeWhile_append_of_pos (by
        intro a ha; simp; rintro rfl; exact h0 ha)]
      simp
    have hread : Block.read (k ++ [0]) 0 x.klen = .ok k := by
      rw [hkl, Block.read_ok (by simp)]
      simp
    have hstep : ∃ c1, mergeStep t x.kmem x.klen x.kp x.d = .ok (t1, c1) := by
      unfold mergeStep
      rw [hdup, Out.ok_bind, hread, Out.ok_bind, e1, Out.ok_bind]
      exact ⟨_, rfl⟩
    obtain ⟨c1, es⟩ := hstep
    refine ⟨t2, c1 ++ c2, ?_, h2, ?_⟩
    · simp only [List.map_cons, merge]
      rw [es, Out.ok_bind]
      simp only
      rw [e2]; rfl
    · rw [l2, mergeMap]
      congr 1
      exact funext l1

/-- C28 (merge), partial: when every source key is free of NUL bytes and followed by a NUL in
memory, merging into any reachable table overrides it with every source pair. -/
theorem C28_merge_partial (junk : Nat → Nat) (ops : List Op) (hk : ∀ op ∈ ops, op.keyLen < 2 ^ 31)
    {t : Tbl} {outs : List (Res × List Cb)} (hr : run junk Tbl.empty ops = .ok (t, outs))
    (src : List (List Nat × SrcPair))
    (hs : ∀ x ∈ src, x.1.length < 2 ^ 31 ∧ x.2.klen = x.1.length ∧ 0 ∉ x.1 ∧
      ∃ rest, x.2.kmem = x.1 ++ 0 :: rest) :
    ∃ m m' t' c, Answers (fun _ => none) ops outs m ∧ merge t (src.map Prod.snd) = .ok (t', c) ∧
      m' = mergeMap m src ∧ Enumerates (iterate t') m' := by
  obtain ⟨t0, outs', e, h, s⟩ := run_spec junk ops WF.empty
    (fun op ho => by have := hk op ho; omega)
  rw [hr] at e
  injection e with e
  injection e with e1 e2
  subst e1 e2
  obtain ⟨t', c, e, h', l⟩ := merge_spec h src hs
  exact ⟨_, _, t', c, s, e, rfl, l ▸ enumerates_iterate h'⟩

/-- C28 fails for merging: a source key with a NUL byte before its last position (legal for every
other operation) makes the merge read past the end of the copy. -/
theorem C28_merge_violated (t : Tbl) (a b rest : List Nat) (ha : 0 ∉ a) (hb : b ≠ []) (kp d : Nat) :
    mergeStep t ((a ++ 0 :: b) ++ 0 :: rest) (a ++ 0 :: b).length kp d = .ub := by
  unfold mergeStep
  have hdup : strdup ((a ++ 0 :: b) ++ 0 :: rest) = .ok (a ++ [0]) := by
    unfold strdup
    rw [if_pos (by simp)]
    congr 2
    rw [List.append_assoc, List.takeWhile_append_of_pos (by
      intro x hx; simp; rintro rfl; exact ha hx)]
    simp
  rw [hdup, Out.ok_bind]
  have : Block.read (a ++ [0]) 0 (a ++ 0 :: b).length = .ub := by
    unfold Block.read
    rw [if_neg]
    have : 0 < b.length := List.length_pos_iff.mpr hb
    simp; omega
  rw [this]; rfl

/-! ### Concrete cases -/

example : (run (fun _ => 7) Tbl.empty
    [.store (bytesOf "a") 1 10, .store (bytesOf "a") 2 20, .retrieve (bytesOf "a"),
     .replace (bytesOf "a") 3 30 true true, .store [] 4 40, .size,
     .delete (bytesOf "a") true false, .retrieve (bytesOf "a")]).bind (fun x => .ok (x.2.map Prod.snd))
    = .ok [[], [], [], [Cb.key 1, Cb.data 10], [], [], [Cb.key 3], []] := by
  decide +kernel

example : ∀ op ∈ [Op.store (bytesOf "a") 1 10, .replace (List.replicate 200 65) 3 30 true true],
    op.keyLen < 2 ^ 31 := by decide +kernel

example : ∃ rest, (bytesOf "key" ++ [0, 9]) = bytesOf "key" ++ 0 :: rest := ⟨[9], rfl⟩

end Mtev.Hash
