import Verif.JsonStore
import Mathlib.Data.List.Induction

/-!
C69.  The members of a JSON object behave as an insertion ordered map and the
elements of a JSON array as a list.

Specification: the members of an object are a list of pairs, oldest first.
Setting a key drops the old member of that name and appends the new one;
deleting a key drops the member.  An array is a list; setting an index behind
the end pads with nulls.
-/

namespace Mtev.JsonStore

open Mtev.Json (Bytes bytesOf)

set_option linter.unusedSectionVars false

variable {K V : Type} [DecidableEq K]

/-! ### Specification -/

/-- The calls that change an object. -/
inductive Op (K V : Type) where
  | add (k : K) (v : V)
  | del (k : K)

/-- The members after one call. -/
def Op.on (l : List (K × V)) : Op K V → List (K × V)
  | .add k v => l.filter (fun e => !decide (e.1 = k)) ++ [(k, v)]
  | .del k => l.filter (fun e => !decide (e.1 = k))

/-- The members after a history of calls on a new object. -/
def members (ops : List (Op K V)) : List (K × V) := ops.foldl Op.on []

/-- The key a call is about. -/
def Op.key : Op K V → K
  | .add k _ => k
  | .del k => k

/-- The last call about `k` set it to `v`. -/
def LastSet (k : K) (v : V) (ops : List (Op K V)) : Prop :=
  ∃ before after, ops = before ++ .add k v :: after ∧ ∀ o ∈ after, o.key ≠ k

/-- How many calls are deletions. -/
def dels : List (Op K V) → Nat
  | [] => 0
  | .add _ _ :: rest => dels rest
  | .del _ :: rest => dels rest + 1

/-! ### The object after a history -/

/-- One call; `none` says that it does not return. -/
def Op.run (h : K → Nat) (t : Tbl K V) : Op K V → Option (Tbl K V)
  | .add k v => JsonStore.add h t k v
  | .del k => JsonStore.delete h t k

/-- A history of calls; `none` says that one of them does not return. -/
def run (h : K → Nat) : List (Op K V) → Tbl K V → Option (Tbl K V)
  | [], t => some t
  | o :: rest, t => (o.run h t).bind (run h rest)

theorem op_spec {h : K → Nat} {t t' : Tbl K V} (inv : Inv h t) (li : Light t) {o : Op K V}
    (ho : o.run h t = some t') : Inv h t' ∧ Light t' ∧ entries t' = o.on (entries t) := by
  cases o with
  | add k v => exact add_spec inv li ho
  | del k =>
    obtain ⟨h1, h2, h3, h4⟩ := delete_spec inv ho
    exact ⟨h1, ⟨by rw [h2]; exact li.1, by have := li.2; rw [h2]; omega⟩, h4⟩

theorem run_spec {h : K → Nat} : ∀ (ops : List (Op K V)) (t t' : Tbl K V), Inv h t → Light t →
    run h ops t = some t' →
      Inv h t' ∧ Light t' ∧ entries t' = ops.foldl Op.on (entries t) := by
  intro ops
  induction ops with
  | nil =>
    intro t t' inv li hr
    simp only [run, Option.some.injEq] at hr
    subst hr
    exact ⟨inv, li, rfl⟩
  | cons o rest ih =>
    intro t t' inv li hr
    simp only [run, Option.bind_eq_some_iff] at hr
    obtain ⟨t1, h1, h2⟩ := hr
    obtain ⟨g1, g2, g3⟩ := op_spec inv li h1
    obtain ⟨f1, f2, f3⟩ := ih t1 t' g1 g2 h2
    exact ⟨f1, f2, by rw [f3, g3]; rfl⟩

theorem entries_newObject : entries (newObject : Tbl K V) = [] := rfl

theorem lookup_assoc {h : K → Nat} {t : Tbl K V} (inv : Inv h t) {k : K} {r : Option V}
    (hl : lookup h t k = some r) : r = none ∧ (∀ v, (k, v) ∉ entries t) ∨
      ∃ v, r = some v ∧ (k, v) ∈ entries t := by
  unfold lookup at hl
  rcases lookupEntry_spec inv k with ⟨h1, _, _⟩ | ⟨h1, h2⟩ | ⟨n, v, h1, h2⟩
  · rw [h1] at hl; simp at hl
  · rw [h1] at hl
    simp only [Option.some.injEq] at hl
    exact Or.inl ⟨hl.symm, h2⟩
  · rw [h1] at hl
    simp only [Option.some.injEq, Tbl.val?, h2] at hl
    exact Or.inr ⟨v, hl.symm, (mem_entries inv k v).2 ⟨n, h2⟩⟩

/-! ### Theorems -/

/-- C69, what the calls give when they return.  Whatever the hash function and
the history of calls on a new object: walking the object gives the members of
the specification in order, and looking up a key gives its value or nothing. -/
theorem C69_object_partial (h : K → Nat) (ops : List (Op K V)) (t : Tbl K V)
    (hr : run h ops newObject = some t) :
    entries t = members ops ∧ t.count = (members ops).length ∧
    ∀ k r, lookup h t k = some r →
      (∀ v, r = some v ↔ (k, v) ∈ members ops) ∧ (r = none ↔ ∀ v, (k, v) ∉ members ops) := by
  obtain ⟨h1, _, h3⟩ := run_spec ops _ _ (inv_newObject h) light_newObject hr
  rw [entries_newObject] at h3
  have h4 : entries t = members ops := h3
  refine ⟨h4, by rw [← h4, entries_length h1], ?_⟩
  intro k r hl
  have huniq : ∀ v w, (k, v) ∈ entries t → (k, w) ∈ entries t → v = w := by
    intro v w hv hw
    obtain ⟨i, hi⟩ := (mem_entries h1 k v).1 hv
    obtain ⟨j, hj⟩ := (mem_entries h1 k w).1 hw
    have e := h1.uniq i j k v w hi hj
    subst e
    rw [hi] at hj
    simpa using hj
  rw [← h4]
  rcases lookup_assoc h1 hl with ⟨rfl, hno⟩ | ⟨v, rfl, hv⟩
  · exact ⟨fun v => ⟨fun e => by simp at e, fun hm => absurd hm (hno v)⟩, fun _ => hno, fun _ => rfl⟩
  · refine ⟨fun w => ⟨fun e => ?_, fun hm => ?_⟩, fun e => by simp at e, fun hno => absurd hv (hno v)⟩
    · simp only [Option.some.injEq] at e; rw [← e]; exact hv
    · rw [huniq v w hv hm]

/-- C69, the calls return.  In a history with at most four deletions every call
returns, and so does every lookup afterwards.  (The full claim has no bound on
the deletions; it fails from five on, see `C69_lookup_never_ends_violated`.) -/
theorem C69_returns_partial (h : K → Nat) (ops : List (Op K V)) (hd : dels ops ≤ 4) :
    ∃ t, run h ops newObject = some t ∧ ∀ k, ∃ r, lookup h t k = some r := by
  have key : ∀ (ops : List (Op K V)) (t : Tbl K V) (D : Nat), Inv h t → Light t → FrB t D →
      D + dels ops ≤ 4 → ∃ t', run h ops t = some t' ∧ Inv h t' ∧ Light t' ∧ FrB t' 4 := by
    intro ops
    induction ops with
    | nil =>
      intro t D inv li hf hD
      obtain ⟨fr, h1, h2⟩ := hf
      exact ⟨t, rfl, inv, li, fr, h1, by simp [dels] at hD; omega⟩
    | cons o rest ih =>
      intro t D inv li hf hD
      have hsz : t.count + D < t.size := by
        have := li.1; have := li.2
        have : dels (o :: rest) ≥ 0 := Nat.zero_le _
        omega
      have he := empty_of_frb inv hf hsz
      cases o with
      | add k v =>
        obtain ⟨t1, h1⟩ := add_total inv li he k v
        obtain ⟨g1, g2, _⟩ := add_spec inv li h1
        obtain ⟨t2, f1, f2⟩ := ih t1 D g1 g2 (frb_add inv li h1 hf) (by simpa [dels] using hD)
        exact ⟨t2, by simp only [run, Op.run, h1, Option.bind_some]; exact f1, f2⟩
      | del k =>
        obtain ⟨t1, h1⟩ := delete_total inv he k
        have ho : (Op.del (V := V) k).run h t = some t1 := h1
        obtain ⟨g1, g2, _⟩ := op_spec inv li ho
        obtain ⟨t2, f1, f2⟩ := ih t1 (D + 1) g1 g2 (frb_delete inv h1 hf) (by
          simp only [dels] at hD; omega)
        exact ⟨t2, by simp only [run, ho, Option.bind_some]; exact f1, f2⟩
  obtain ⟨t, h1, h2, h3, h4⟩ := key ops newObject 0 (inv_newObject h) light_newObject
    ⟨[], fun n hn => by
      have hn' : (List.replicate 16 (Slot.empty : Slot K V))[n]? = some .freed := hn
      rw [List.getElem?_replicate] at hn'
      split at hn' <;> simp at hn', by simp⟩ (by omega)
  refine ⟨t, h1, ?_⟩
  intro k
  obtain ⟨n, hn⟩ := empty_of_frb h2 h4 (by have := h3.1; have := h3.2; omega)
  unfold lookup
  rcases lookupEntry_spec h2 k with ⟨_, g2, _⟩ | ⟨g1, _⟩ | ⟨m, v, g1, _⟩
  · exact absurd hn (g2 n)
  · exact ⟨none, by rw [g1]⟩
  · exact ⟨t.val? m, by rw [g1]⟩

/-- C69: deleting or setting a key that is present always returns, in every
state a history can reach, and so does looking it up. -/
theorem C69_present_returns (h : K → Nat) (ops : List (Op K V)) (t : Tbl K V)
    (hr : run h ops newObject = some t) (k : K) (v : V) (hm : (k, v) ∈ members ops) (w : V) :
    lookup h t k = some (some v) ∧ (∃ t', delete h t k = some t') ∧ ∃ t', add h t k w = some t' := by
  obtain ⟨h1, h2, h3⟩ := run_spec ops _ _ (inv_newObject h) light_newObject hr
  rw [entries_newObject] at h3
  have h4 : (k, v) ∈ entries t := by rw [h3]; exact hm
  obtain ⟨n, g1, g2⟩ := lookup_found h1 h4
  have hd : delete h t k = some (deleteEntry t n) := by unfold delete; rw [g1]
  refine ⟨?_, ⟨_, hd⟩, ?_⟩
  · unfold lookup; rw [g1]; simp [Tbl.val?, g2]
  · obtain ⟨e1, e2, e3, e4⟩ := delete_spec h1 hd
    obtain ⟨t2, f1, _⟩ := insert_spec (k := k) e1 ⟨by rw [e2]; exact h2.1, by
      have := h2.2; rw [e2]; omega⟩ w (by
        intro w' hw
        rw [e4, List.mem_filter] at hw
        simp at hw)
    exact ⟨t2, by unfold add; rw [hd]; exact f1⟩

theorem lastSet_snoc (k : K) (v : V) (ops : List (Op K V)) (o : Op K V) :
    LastSet k v (ops ++ [o]) ↔ o = .add k v ∨ (o.key ≠ k ∧ LastSet k v ops) := by
  constructor
  · rintro ⟨a, b, he, hb⟩
    rcases List.eq_nil_or_concat b with rfl | ⟨b', o', rfl⟩
    · have := List.append_inj' he rfl
      simp at this
      exact Or.inl this.2
    · rw [List.concat_eq_append, ← List.cons_append, ← List.append_assoc] at he
      have := List.append_inj' he rfl
      simp only [List.cons.injEq, and_true] at this
      obtain ⟨h1, h2⟩ := this
      right
      refine ⟨by rw [h2]; exact hb o' (by simp), a, b', h1, fun x hx => hb x (by simp [hx])⟩
  · rintro (rfl | ⟨h1, a, b, rfl, hb⟩)
    · exact ⟨ops, [], rfl, by simp⟩
    · refine ⟨a, b ++ [o], by simp, ?_⟩
      intro x hx
      rw [List.mem_append, List.mem_singleton] at hx
      rcases hx with hx | rfl
      · exact hb x hx
      · exact h1

/-- The specification says what one expects: no name occurs twice, and the
members are exactly the values last set. -/
theorem C69_members (ops : List (Op K V)) :
    ((members ops).map Prod.fst).Nodup ∧
    ∀ k v, (k, v) ∈ members ops ↔ LastSet k v ops := by
  have hsnoc : ∀ (o : Op K V) ops, members (ops ++ [o]) = o.on (members ops) := by
    intro o ops; simp [members, List.foldl_append]
  induction ops using List.reverseRecOn with
  | nil => exact ⟨by simp [members], by intro k v; simp [members, LastSet]⟩
  | append_singleton ops o ih =>
    obtain ⟨ih1, ih2⟩ := ih
    have hfil : ∀ k' : K, (((members ops).filter (fun e => !decide (e.1 = k'))).map Prod.fst).Nodup :=
      fun k' => List.Nodup.sublist (List.Sublist.map _ List.filter_sublist) ih1
    rw [hsnoc]
    cases o with
    | add k' v' =>
      refine ⟨?_, ?_⟩
      · simp only [Op.on, List.map_append, List.map_cons, List.map_nil]
        rw [List.nodup_append]
        refine ⟨hfil k', by simp, ?_⟩
        intro a ha b hb
        simp only [List.mem_singleton] at hb
        subst hb
        rintro rfl
        obtain ⟨e, he1, he2⟩ := List.mem_map.1 ha
        rw [List.mem_filter] at he1
        simp [he2] at he1
      · intro k v
        rw [lastSet_snoc, ← ih2]
        simp only [Op.on, Op.key, List.mem_append, List.mem_filter, List.mem_singleton,
          Prod.mk.injEq, Op.add.injEq, Bool.not_eq_true', decide_eq_false_iff_not]
        constructor
        · rintro (⟨h1, h2⟩ | ⟨h1, h2⟩)
          · exact Or.inr ⟨Ne.symm h2, h1⟩
          · exact Or.inl ⟨h1.symm, h2.symm⟩
        · rintro (⟨h1, h2⟩ | ⟨h1, h2⟩)
          · exact Or.inr ⟨h1.symm, h2.symm⟩
          · exact Or.inl ⟨h2, Ne.symm h1⟩
    | del k' =>
      refine ⟨hfil k', ?_⟩
      intro k v
      rw [lastSet_snoc, ← ih2]
      simp only [Op.on, Op.key, List.mem_filter, Bool.not_eq_true', decide_eq_false_iff_not]
      constructor
      · rintro ⟨h1, h2⟩; exact Or.inr ⟨Ne.symm h2, h1⟩
      · rintro (h1 | ⟨h1, h2⟩)
        · simp at h1
        · exact ⟨h2, Ne.symm h1⟩

/-! ### The defect -/

/-- Five members set and deleted, then eleven others set: sixteen one-letter
names that fall into the sixteen slots of a new object. -/
def hangOps : List (Op Bytes Nat) :=
  [97, 98, 99, 100, 101].map (fun c => .add [c] 1) ++
  [97, 98, 99, 100, 101].map (fun c => .del [c]) ++
  [102, 103, 104, 105, 106, 107, 108, 109, 110, 111, 112].map (fun c => .add [c] 2)

/-- The full claim "every call returns" fails: after five deletions the object
holds eleven members, and looking up a name that is not there (here `x`) never
returns, however long one waits.  Adding or deleting that name does not return
either. -/
theorem C69_lookup_never_ends_violated :
    ∃ t, run charHash hangOps newObject = some t ∧
      (members hangOps).length = 11 ∧ dels hangOps = 5 ∧
      (∀ v, (bytesOf "x", v) ∉ members hangOps) ∧
      (∀ rounds, look t (bytesOf "x") rounds (charHash (bytesOf "x") % t.size) = none) ∧
      ∀ v, add charHash t (bytesOf "x") v = none := by
  have hrun : (run charHash hangOps newObject).isSome = true := by decide +kernel
  obtain ⟨t, ht⟩ := Option.isSome_iff_exists.1 hrun
  have hl : ∀ t, run charHash hangOps newObject = some t →
      lookupEntry charHash t (bytesOf "x") = none := by
    intro t ht
    have : (match run charHash hangOps newObject with
      | some t => lookupEntry charHash t (bytesOf "x")
      | none => none) = none := by decide +kernel
    rw [ht] at this
    exact this
  have hx := hl t ht
  have hpos := (run_spec hangOps _ _ (inv_newObject _) light_newObject ht).1.pos
  refine ⟨t, ht, by decide +kernel, by decide +kernel, ?_, ?_, ?_⟩
  · intro v hv
    have : (members hangOps).all (fun e => !decide (e.1 = bytesOf "x")) = true := by decide +kernel
    rw [List.all_eq_true] at this
    have := this _ hv
    simp at this
  · intro rounds
    exact look_forever hpos _ hx rounds
  · intro v
    unfold add delete
    rw [hx]

/-! ### Arrays -/

/-- The calls that change an array; a null element is `none`. -/
inductive AOp (V : Type) where
  | put (i : Nat) (x : Option V)
  | add (x : Option V)

/-- The list after one call. -/
def AOp.on (l : List (Option V)) : AOp V → List (Option V)
  | .put i x => (l ++ List.replicate (i + 1 - l.length) none).set i x
  | .add x => l ++ [x]

/-- What the call releases: the element it overwrites. -/
def AOp.frees (l : List (Option V)) : AOp V → Option V
  | .put i _ => (l[i]?).getD none
  | .add _ => none

/-- The index the call writes to. -/
def AOp.idx (l : List (Option V)) : AOp V → Nat
  | .put i _ => i
  | .add _ => l.length

/-- One call on the model. -/
def AOp.run (a : Arr V) : AOp V → Out (Arr V × Option V)
  | .put i x => arrPut a i x
  | .add x => arrAdd a x

/-- The array and the elements released, after a history of calls. -/
def arun : List (AOp V) → Arr V → Out (Arr V × List (Option V))
  | [], a => .ok (a, [])
  | o :: rest, a =>
    match o.run a with
    | .ok (b, f) =>
      match arun rest b with
      | .ok (c, fs) => .ok (c, f :: fs)
      | .ub => .ub
      | .abort => .abort
    | .ub => .ub
    | .abort => .abort

/-- The elements released by a history, by the specification. -/
def freed : List (AOp V) → List (Option V) → List (Option V)
  | [], _ => []
  | o :: rest, l => o.frees l :: freed rest (o.on l)

/-- All indices written to are below 2^30 - 1. -/
def InRange : List (AOp V) → List (Option V) → Prop
  | [], _ => True
  | o :: rest, l => o.idx l < 1073741823 ∧ InRange rest (o.on l)

theorem aop_holds {a : Arr V} {l : List (Option V)} (ha : Holds a l) (o : AOp V)
    (hi : o.idx l < 1073741823) :
    ∃ b, o.run a = .ok (b, o.frees l) ∧ Holds b (o.on l) := by
  cases o with
  | put i x => exact holds_put ha hi x
  | add x =>
    have hi' : l.length < 1073741823 := hi
    obtain ⟨b, h1, h2⟩ := holds_put ha hi' x
    refine ⟨b, ?_, ?_⟩
    · show arrPut a (a.len : Int) x = _
      rw [ha.len, h1]
      simp [AOp.frees]
    · rw [show l.length + 1 - l.length = 1 by omega] at h2
      have : (l ++ List.replicate 1 none).set l.length x = l ++ [x] := by
        simp
      rw [this] at h2
      exact h2

/-- C69, arrays: after any history of appends and writes at indices that are
not negative, the array holds the list of the specification, each read gives
the element there (nothing behind the end), and each call has released the
element it replaced and no other. -/
theorem C69_array (ops : List (AOp V)) (hr : InRange ops []) :
    ∃ a, arun ops arrNew = .ok (a, freed ops []) ∧
      a.len = (ops.foldl AOp.on []).length ∧
      ∀ i : Nat, arrGet a i = .ok (((ops.foldl AOp.on [])[i]?).getD none) := by
  have key : ∀ (ops : List (AOp V)) (a : Arr V) (l : List (Option V)), Holds a l → InRange ops l →
      ∃ b, arun ops a = .ok (b, freed ops l) ∧ Holds b (ops.foldl AOp.on l) := by
    intro ops
    induction ops with
    | nil => intro a l ha _; exact ⟨a, rfl, ha⟩
    | cons o rest ih =>
      intro a l ha hr
      obtain ⟨b, h1, h2⟩ := aop_holds ha o hr.1
      obtain ⟨c, h3, h4⟩ := ih b _ h2 hr.2
      exact ⟨c, by simp only [arun, h1, h3, freed], h4⟩
  obtain ⟨a, h1, h2⟩ := key ops arrNew [] holds_new hr
  refine ⟨a, h1, h2.len, ?_⟩
  intro i
  have := holds_get h2 (i := (i : Int)) (by omega)
  simpa using this

/-- Reading or writing at a negative index is not rejected: it touches memory
before the array, in every array. -/
theorem C69_negative_index_violated (a : Arr V) (i : Int) (hi : i < 0) (x : Option V) :
    arrGet a i = .ub ∧ arrPut a i x = .ub := by
  constructor
  · unfold arrGet
    rw [if_neg (by omega), if_pos hi]
  · unfold arrPut
    rw [if_neg (by omega)]
    split
    · rw [if_pos hi]
    · rfl
    · rename_i h; unfold arrExpand at h; split at h
      · simp at h
      · split at h <;> simp at h

/-! ### Non-trivial cases -/

/-- Twenty members, one overwritten, three deleted: the table has grown. -/
def busyOps : List (Op Bytes Nat) :=
  (List.range 20).map (fun c => .add [97 + c, 98] c) ++
  [.add [100, 98] 77, .del [97, 98], .del [99, 98], .del [1], .add [97, 98] 5]

example : dels busyOps ≤ 4 ∧ (members busyOps).length = 19 ∧
    (run charHash busyOps newObject).map (fun t => (t.size, t.count, lookup charHash t [100, 98],
      lookup charHash t [99, 98])) = some (32, 19, some (some 77), some none) := by
  decide +kernel

example : (members busyOps).getLast? = some ([97, 98], 5) := by decide +kernel

/-- A colliding pair: both names start at the same slot. -/
example : charHash (bytesOf "a") % 16 = charHash (bytesOf "q") % 16 ∧
    (run charHash [.add (bytesOf "a") 1, .add (bytesOf "q") 2, .del (bytesOf "a")] newObject).map
      (fun t => (entries t, lookup charHash t (bytesOf "q"))) =
        some ([(bytesOf "q", 2)], some (some 2)) := by
  decide +kernel

example : charHash [200] = (4294967296 - 56 + 0x9e370001) % 4294967296 := by decide +kernel

example : InRange [AOp.add (some 1), .put 3 (some 2), .put 0 none, .add (some 9)] [] ∧
    [AOp.add (some 1), .put 3 (some 2), .put 0 none, .add (some 9)].foldl AOp.on [] =
      [none, none, none, some 2, some 9] := by
  simp [InRange, AOp.idx, AOp.on]

example : freed [AOp.add (some 1), .put 3 (some 2), .put 0 none, .add (some 9)] [] =
    [none, none, some 1, none] := by decide

end Mtev.JsonStore
