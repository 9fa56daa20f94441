import Verif.HugeHash
import Mathlib.Tactic.Common

/-!
C150: the disk-backed hash is a map: stored values are found, replaced and
deleted as asked.  C151: its iterators return every entry once, in key
order, and calls come to an end while they are open.
-/

namespace Mtev.HugeHash

/-! Specification of C150. -/

/-- What a program may assume: a map, and which threads iterate. -/
structure Spec where
  m : Str → Option Str
  it : Nat → Bool

/-- Is the answer right? -/
def right (s : Spec) (t : Nat) : Op → Ans → Prop
  | .put p, .bool true => p.over = true ∨ s.m p.k = none
  | .put p, .bool false =>
      (p.over = false ∧ s.m p.k ≠ none) ∨ p.k.length = 0 ∨ 511 < p.k.length ∨ p.err = true
  | .get k, .ptr (some r) => s.m k = some r.val
  | .get k, .ptr none => s.m k = none ∨ s.it t = true
  | .del k _ _, .bool true => s.m k ≠ none
  | .del _ _ _, .bool false => True
  | .size, .num n => ∃ ks : List Str, ks.Nodup ∧ ks.length = n ∧ ∀ k, k ∈ ks ↔ s.m k ≠ none
  | .iter, .opened b => b = !(s.it t)
  | .adv, .pair _ => True
  | .close, .closed (some (_, p, true)) => p.over = true ∨ s.m p.k = none
  | .close, .closed _ => True
  | _, .held => True
  | _, _ => False

/-- The map with one key set or removed. -/
def setKey (m : Str → Option Str) (k : Str) (v : Option Str) : Str → Option Str :=
  fun k' => if k' = k then v else m k'

/-- What the program may assume after a call: only a call that answered
true has changed the map. -/
def next (s : Spec) (t : Nat) : Op → Ans → Spec
  | .put p, .bool true => { s with m := setKey s.m p.k (some p.v) }
  | .del k _ _, .bool true => { s with m := setKey s.m k none }
  | .iter, .opened true => { s with it := fun x => if x = t then true else s.it x }
  | .close, .closed (some (_, p, true)) =>
      { m := setKey s.m p.k (some p.v), it := fun x => if x = t then false else s.it x }
  | .close, .closed _ => { s with it := fun x => if x = t then false else s.it x }
  | _, _ => s

/-- All answers are right. -/
def Right : Spec → List (Nat × Op × Ans) → Prop
  | _, [] => True
  | s, (t, o, a) :: r => right s t o a ∧ Right (next s t o a) r

/-- The table and what the program assumes agree. -/
def Agree (w : World) (s : Spec) : Prop :=
  (∀ k, look k w.ents = s.m k) ∧ Sorted w.ents ∧ ∀ t, iterating w t = s.it t

theorem iterating_advance (t x : Nat) (l : List It) :
    (advance t l).any (fun i => decide (i.tid = x)) = l.any (fun i => decide (i.tid = x)) := by
  induction l with
  | nil => rfl
  | cons i r ih =>
    unfold advance
    split
    · simp
    · simp only [List.any_cons, ih]

theorem iterating_close (t x : Nat) (l : List It) :
    (l.filter (fun i => decide (i.tid ≠ t))).any (fun i => decide (i.tid = x)) =
      if x = t then false else l.any (fun i => decide (i.tid = x)) := by
  induction l with
  | nil => simp
  | cons i r ih =>
    by_cases hi : i.tid = t
    · rw [List.filter_cons_of_neg (by simp [hi]), ih]
      by_cases hx : x = t
      · simp [hx]
      · have : ¬ t = x := fun e => hx e.symm
        simp [hx, hi, this]
    · rw [List.filter_cons_of_pos (by simp [hi]), List.any_cons, ih]
      by_cases hx : x = t
      · subst hx; simp [hi]
      · simp [hx]

theorem agree_set (w w' : World) (s : Spec) (k v : Str) (h : Agree w s)
    (he : w'.ents = ins k v w.ents) (hi : w'.its = w.its) :
    Agree w' { s with m := setKey s.m k (some v) } := by
  refine ⟨fun k' => ?_, by rw [he]; exact sorted_ins _ _ _ h.2.1, fun t => ?_⟩
  · rw [he, look_ins, h.1]; rfl
  · rw [← h.2.2 t]; unfold iterating; rw [hi]

theorem agree_same (w w' : World) (s : Spec) (h : Agree w s)
    (he : w'.ents = w.ents) (hi : w'.its = w.its) : Agree w' s := by
  refine ⟨fun k' => by rw [he]; exact h.1 k', by rw [he]; exact h.2.1, fun t => ?_⟩
  rw [← h.2.2 t]; unfold iterating; rw [hi]

theorem badKey_iff (k : Str) : badKey k = true ↔ k.length = 0 ∨ 511 < k.length := by
  simp [badKey]

theorem wake_spec (w : World) (s : Spec) (h : Agree w s) :
    match (wake w).2 with
    | some (_, p, true) => (p.over = true ∨ s.m p.k = none) ∧
        Agree (wake w).1 { s with m := setKey s.m p.k (some p.v) }
    | _ => Agree (wake w).1 s := by
  unfold wake
  cases hw : w.waiter with
  | none => exact h
  | some tp =>
    obtain ⟨t, p⟩ := tp
    cases hi : w.its.isEmpty with
    | false => simpa using h
    | true =>
      have hi' : w.its = [] := by simpa using hi
      simp only [if_true]
      generalize hw1 : ({ w with waiter := none, held := w.held.filter (fun x => decide (x ≠ t)) } : World) = w1
      have a1 : Agree w1 s := agree_same w w1 s h (by rw [← hw1]) (by rw [← hw1])
      obtain ⟨e1, e2, _, _, _⟩ := resize_ents w1
      have a2 : Agree (resize w1) s := agree_same w1 _ s a1 e1 e2
      have hp := put_spec 3 (resize w1) p
      cases hq : put 3 (resize w1) p with
      | ret b w2 =>
        rw [hq] at hp
        obtain ⟨h1, _, _, h4, h5⟩ := hp
        cases b with
        | true =>
          refine ⟨?_, agree_set _ _ s _ _ a2 (h5 rfl).1 h1⟩
          rw [← a2.1]
          exact (h5 rfl).2
        | false => exact agree_same _ _ s a2 (h4 rfl).1 h1
      | wait => exact a1
      | spin w2 =>
        rw [hq] at hp
        exact agree_same _ _ s a2 hp.1 hp.2.1

theorem call_spec (w : World) (s : Spec) (t : Nat) (o : Op) (h : Agree w s) :
    right s t o (call w t o).2 ∧ Agree (call w t o).1 (next s t o (call w t o).2) := by
  have held : right s t o .held ∧ next s t o .held = s := by cases o <;> exact ⟨trivial, rfl⟩
  unfold call
  cases hh : w.held.contains t with
  | true =>
    simp only [if_true]
    exact ⟨held.1, by rw [held.2]; exact h⟩
  | false =>
    simp only [Bool.false_eq_true, if_false]
    have hw : ∀ w' : World, w'.ents = w.ents → w'.its = w.its →
        right s t o Ans.held ∧ Agree w' (next s t o Ans.held) :=
      fun w' e1 e2 => ⟨held.1, by rw [held.2]; exact agree_same _ _ s h e1 e2⟩
    cases o with
    | size =>
      refine ⟨⟨w.ents.map Prod.fst, sorted_keys_nodup _ h.2.1, by simp, fun k => ?_⟩, h⟩
      rw [← h.1 k, List.mem_map]
      constructor
      · rintro ⟨⟨a, b⟩, hm, rfl⟩ e
        rw [(look_mem _ h.2.1 a b).mpr hm] at e
        cases e
      · intro hne
        cases hl : look k w.ents with
        | none => exact absurd hl hne
        | some v => exact ⟨(k, v), (look_mem _ h.2.1 k v).mp hl, rfl⟩
    | adv =>
      cases hi : iterating w t with
      | true =>
        simp only [if_true]
        refine ⟨trivial, h.1, h.2.1, fun x => ?_⟩
        show iterating _ x = s.it x
        rw [← h.2.2 x]
        exact iterating_advance t x w.its
      | false => exact ⟨trivial, h⟩
    | close =>
      have a1 : Agree { w with its := w.its.filter (fun i => decide (i.tid ≠ t)) }
          { s with it := fun x => if x = t then false else s.it x } := by
        refine ⟨h.1, h.2.1, fun x => ?_⟩
        show iterating _ x = if x = t then false else s.it x
        rw [← h.2.2 x]
        exact iterating_close t x w.its
      have := wake_spec _ _ a1
      show right s t .close (Ans.closed _) ∧ Agree _ (next s t .close (Ans.closed _))
      generalize wake { w with its := w.its.filter (fun i => decide (i.tid ≠ t)) } = r at this ⊢
      obtain ⟨w', d⟩ := r
      cases d with
      | none => exact ⟨trivial, this⟩
      | some d =>
        obtain ⟨x, p, b⟩ := d
        cases b with
        | true => exact ⟨this.1, this.2⟩
        | false => exact ⟨trivial, this⟩
    | put p =>
      cases hwt : w.waiter.isSome with
      | true => simpa using hw { w with held := t :: w.held } rfl rfl
      | false =>
        simp only [Bool.false_eq_true, if_false]
        have hp := put_spec 3 w p
        cases hq : put 3 w p with
        | ret b w2 =>
          rw [hq] at hp
          obtain ⟨h1, _, _, h4, h5⟩ := hp
          cases b with
          | true =>
            refine ⟨?_, agree_set _ _ s _ _ h (h5 rfl).1 h1⟩
            show p.over = true ∨ s.m p.k = none
            rw [← h.1]
            exact (h5 rfl).2
          | false =>
            refine ⟨?_, agree_same _ _ s h (h4 rfl).1 h1⟩
            show (p.over = false ∧ s.m p.k ≠ none) ∨ p.k.length = 0 ∨ 511 < p.k.length ∨ p.err = true
            rw [← h.1]
            rcases (h4 rfl).2 with e | e | e
            · exact .inl e
            · rcases (badKey_iff _).mp e with e | e
              · exact .inr (.inl e)
              · exact .inr (.inr (.inl e))
            · exact .inr (.inr (.inr e))
        | wait => exact hw { w with waiter := some (t, p), held := t :: w.held } rfl rfl
        | spin w2 =>
          rw [hq] at hp
          exact hw { w2 with held := t :: w2.held } hp.1 hp.2.1
    | get k =>
      cases hwt : w.waiter.isSome with
      | true => simpa using hw { w with held := t :: w.held } rfl rfl
      | false =>
        simp only [Bool.false_eq_true, if_false]
        cases hi : iterating w t with
        | true =>
          simp only [if_true]
          refine ⟨.inr ?_, h⟩
          rw [← h.2.2, hi]
        | false =>
          simp only [Bool.false_eq_true, if_false]
          cases hl : look k w.ents with
          | none => exact ⟨.inl (by rw [← h.1, hl]), h⟩
          | some v =>
            refine ⟨?_, h⟩
            show s.m k = some v
            rw [← h.1, hl]
    | del k cost err =>
      cases hwt : w.waiter.isSome with
      | true => simpa using hw { w with held := t :: w.held } rfl rfl
      | false =>
        simp only [Bool.false_eq_true, if_false]
        cases hc : ((look k w.ents).isNone || err || full w cost) with
        | true => exact ⟨trivial, h⟩
        | false =>
          simp only [Bool.false_eq_true, if_false]
          refine ⟨?_, fun k' => ?_, sorted_rem _ _ h.2.1, h.2.2⟩
          · show s.m k ≠ none
            intro e
            rw [← h.1] at e
            simp [e] at hc
          · show look k' (rem k w.ents) = setKey s.m k none k'
            rw [look_rem, h.1]; rfl
    | iter =>
      cases hwt : w.waiter.isSome with
      | true => simpa using hw { w with held := t :: w.held } rfl rfl
      | false =>
        simp only [Bool.false_eq_true, if_false]
        cases hi : iterating w t with
        | true =>
          simp only [if_true]
          refine ⟨?_, h⟩
          show false = !(s.it t)
          rw [← h.2.2, hi]; rfl
        | false =>
          simp only [Bool.false_eq_true, if_false]
          refine ⟨?_, h.1, h.2.1, fun x => ?_⟩
          · show true = !(s.it t)
            rw [← h.2.2, hi]; rfl
          · show (decide (t = x) || iterating w x) = if x = t then true else s.it x
            rw [h.2.2]
            by_cases hx : x = t
            · simp [hx]
            · have : ¬ t = x := fun e => hx e.symm
              simp [hx, this]

theorem agree_trace (cs : List (Nat × Op)) (w : World) (s : Spec) (h : Agree w s) :
    Right s (trace w cs) := by
  induction cs generalizing w s with
  | nil => trivial
  | cons c r ih =>
    obtain ⟨t, o⟩ := c
    obtain ⟨h1, h2⟩ := call_spec w s t o h
    exact ⟨h1, ih _ _ h2⟩

/-- **C150 (partial).** Whatever calls whatever threads make of a table
that starts empty, the answers are those of a map: storing answers true
only for a key that is not there (replacing, for any), and the value is
then what retrieving returns; a store that answers false had the key
already, or an unusable key, or an error; deleting answers true only for
a key that is there, and it is gone; nothing else changes the map; the size
is the number of keys; and a thread that does not iterate is never told
a key is missing that is there.  Missing: that calls return
(`C150_hang_violated`), that deletes succeed (`C150_delete_violated`),
that what was retrieved can be read (`C150_pointer_violated`), and that
iterating threads find what is there (`C150_iterating_violated`). -/
theorem C150_map_partial (cs : List (Nat × Op)) :
    Right ⟨fun _ => none, fun _ => false⟩ (trace fresh cs) :=
  agree_trace cs fresh _ ⟨fun _ => rfl, List.Pairwise.nil, fun _ => rfl⟩

/-- The keys and values of the examples. -/
def exPut (over : Bool) (k v : String) (cost : Nat) : Op := .put ⟨over, bytesOf k, bytesOf v, cost, false⟩

example : (trace fresh [(0, exPut false "foo" "bar" 3), (0, exPut false "foo" "x" 3),
      (1, .get (bytesOf "foo")), (1, exPut true "foo" "x" 2), (0, exPut false "a" "" 1), (0, .size),
      (0, .get (bytesOf "foo")), (0, .del (bytesOf "foo") 2 false), (0, .get (bytesOf "foo"))]).map (·.2.2) =
    [.bool true, .bool false, .ptr (some ⟨bytesOf "bar", 1⟩), .bool true, .bool true, .num 2,
      .ptr (some ⟨bytesOf "x", 3⟩), .bool true, .ptr none] := by decide +kernel

/-- A table whose pages are within its map. -/
def Within (w : World) : Prop := (w.used + 2) * 4096 ≤ w.mapsize

theorem within_fresh : Within fresh := by unfold Within fresh; decide

/-- **C150 (partial).** A store of a new key, or a replacement, that needs
at most a fifth of the map returns true when no iterator is open (also
when the map has to grow for it), and the key then has the new value. -/
theorem C150_stored_partial (w : World) (t : Nat) (p : Put) (hw : Within w)
    (hfree : w.held.contains t = false) (hwt : w.waiter = none) (hits : w.its = [])
    (hkey : 0 < p.k.length ∧ p.k.length ≤ 511) (herr : p.err = false)
    (hnew : p.over = true ∨ look p.k w.ents = none)
    (hcost : (p.cost + 2) * 4096 * 5 ≤ w.mapsize) :
    (call w t (.put p)).2 = .bool true ∧ look p.k (call w t (.put p)).1.ents = some p.v := by
  have hb : badKey p.k = false := by
    unfold badKey
    simp only [Bool.or_eq_false_iff, decide_eq_false_iff_not]
    omega
  have hatt : ∀ x : World, x.ents = w.ents → full x p.cost = false →
      attempt x p = some (true, { x with ents := ins p.k p.v x.ents, used := x.used + p.cost, gen := x.gen + 1 }) := by
    intro x hx hf
    unfold attempt
    rw [if_neg, if_neg, if_neg]
    · rw [hf]; simp
    · rw [hb, herr]; simp
    · rw [hx]
      rcases hnew with e | e <;> simp [e]
  have main : ∃ x : World, x.ents = w.ents ∧ put 3 w p =
      .ret true { x with ents := ins p.k p.v x.ents, used := x.used + p.cost, gen := x.gen + 1 } := by
    cases hf : full w p.cost with
    | false =>
      refine ⟨w, rfl, ?_⟩
      unfold put
      rw [hatt w rfl hf]
    | true =>
      have hf' : w.mapsize / 4096 ≤ w.used + 1 + p.cost := by simpa [full] using hf
      have hr : resize w = { w with mapsize := w.mapsize * 3 / 2 + w.mapsize * 3 / 2 % 4096, gen := w.gen + 1 } := by
        unfold resize
        rw [if_neg]
        omega
      have hn : attempt w p = none := by
        unfold attempt
        rw [if_neg, if_neg, if_pos hf]
        · rw [hb, herr]; simp
        · rcases hnew with e | e <;> simp [e]
      have hf2 : full (resize w) p.cost = false := by
        rw [hr]
        unfold full Within at *
        simp only [decide_eq_false_iff_not]
        omega
      refine ⟨resize w, (resize_ents w).1, ?_⟩
      unfold put
      rw [hn]
      simp only [hits, List.isEmpty_nil, if_true]
      unfold put
      rw [hatt _ (resize_ents w).1 hf2]
  obtain ⟨x, hx, hp⟩ := main
  have hc : call w t (.put p) =
      ({ x with ents := ins p.k p.v x.ents, used := x.used + p.cost, gen := x.gen + 1 }, .bool true) := by
    unfold call
    rw [hfree, hwt]
    simp only [Bool.false_eq_true, if_false, Option.isSome_none]
    rw [hp]
  rw [hc]
  refine ⟨rfl, ?_⟩
  show look p.k (ins p.k p.v x.ents) = some p.v
  rw [look_ins, if_pos rfl]

/-- A full table that grows for a store: a map of 256 pages of which 250
are in use. -/
def exFull : World := { fresh with used := 250 }

example : Within exFull ∧ full exFull 30 = true ∧
    (call exFull 0 (exPut false "k" "v" 30)).2 = .bool true ∧
    (call exFull 0 (exPut false "k" "v" 30)).1.mapsize = 1572864 := by
  unfold Within; decide +kernel

/-- **C150 is false of the code:** a store that does not fit into the map
while less than four fifths of it are in use never returns: the map is
not made larger, and the store is tried again for ever.  So it is with
storing a megabyte in a new table. -/
theorem C150_hang_violated :
    (∀ (n : Nat) (w : World) (p : Put), w.its = [] → attempt w p = none →
      w.used * 4096 * 10 < w.mapsize * 8 → put n w p = .spin w) ∧
    (call fresh 0 (exPut false "k" "v" 256)).2 = .held := by
  refine ⟨fun n w p hi ha hu => ?_, by decide +kernel⟩
  induction n with
  | zero => rfl
  | succ n ih =>
    unfold put
    rw [ha]
    simp only [hi, List.isEmpty_nil, if_true]
    have : resize w = w := by unfold resize; rw [if_pos hu]
    rw [this, ih]

/-- **C150 is false of the code:** a delete in a full map fails, as
only stores make the map larger: the key stays. -/
theorem C150_delete_violated :
    ∃ (cs : List (Nat × Op)) (k v : Str), look k (run exFull cs).ents = some v ∧
      call (run exFull cs) 0 (.del k 4 false) = (run exFull cs, .bool false) :=
  ⟨[(0, exPut false "k" "v" 3)], bytesOf "k", bytesOf "v", by decide +kernel, by
    unfold call; rw [show (run exFull [(0, exPut false "k" "v" 3)]).held.contains 0 = false by decide +kernel]
    simp only [Bool.false_eq_true, if_false]
    rw [show (run exFull [(0, exPut false "k" "v" 3)]).waiter.isSome = false by decide +kernel]
    simp only [Bool.false_eq_true, if_false]
    rw [if_pos (by decide +kernel)]⟩

/-- What was retrieved can be read until the next write. -/
theorem C150_pointer_partial (w : World) (t : Nat) (k : Str) (r : Ref)
    (h : (call w t (.get k)).2 = .ptr (some r)) :
    look k w.ents = some r.val ∧ deref (call w t (.get k)).1 r = .ok r.val := by
  unfold call at h ⊢
  cases hh : w.held.contains t with
  | true => rw [hh] at h; simp at h
  | false =>
    rw [hh] at h
    simp only [Bool.false_eq_true, if_false] at h ⊢
    cases hwt : w.waiter.isSome with
    | true => rw [hwt] at h; simp at h
    | false =>
      rw [hwt] at h
      simp only [Bool.false_eq_true, if_false] at h ⊢
      cases hi : iterating w t with
      | true => rw [hi] at h; simp at h
      | false =>
        rw [hi] at h
        simp only [Bool.false_eq_true, if_false] at h ⊢
        cases hl : look k w.ents with
        | none => rw [hl] at h; simp at h
        | some v =>
          rw [hl] at h
          simp only [Option.map_some, Ans.ptr.injEq, Option.some.injEq] at h
          subst h
          exact ⟨rfl, by simp [deref]⟩

/-- **C150 is false of the code:** the memory `mtev_huge_hash_retrieve`
returns is not readable any more after a store of another key, though the
table still has the key with this value: the transaction that kept it
in place ended inside the call. -/
theorem C150_pointer_violated :
    ∃ (w : World) (k v : Str) (r : Ref) (o : Op),
      (call w 0 (.get k)).2 = .ptr (some r) ∧ r.val = v ∧
      (call w 1 o).2 = .bool true ∧ look k (call w 1 o).1.ents = some v ∧
      deref (call w 1 o).1 r = .ub :=
  ⟨run fresh [(0, exPut false "k" "v" 3)], bytesOf "k", bytesOf "v", ⟨bytesOf "v", 1⟩,
    exPut false "other" "x" 2, by decide +kernel, rfl, by decide +kernel, by decide +kernel,
    by unfold deref; rw [if_neg (by decide +kernel)]⟩

/-- **C150 is false of the code:** a thread with an open iterator is told
that every key is missing. -/
theorem C150_iterating_violated :
    ∀ (w : World) (t : Nat) (k : Str), iterating w t = true →
      (call w t (.get k)).2 = .ptr none ∨ (call w t (.get k)).2 = .held := by
  intro w t k hi
  unfold call
  cases hh : w.held.contains t with
  | true => right; simp
  | false =>
    simp only [Bool.false_eq_true, if_false]
    cases hwt : w.waiter.isSome with
    | true => right; simp
    | false => left; simp [hi]

example : ∃ w : World, w = run fresh [(0, exPut false "k" "v" 3), (0, .iter)] ∧
    iterating w 0 = true ∧ look (bytesOf "k") w.ents = some (bytesOf "v") ∧
    (call w 0 (.get (bytesOf "k"))).2 = .ptr none := ⟨_, rfl, by decide +kernel, by decide +kernel, by decide +kernel⟩

/-! C151: iterators. -/

/-- The answers a thread gets to advancing its iterator, in order. -/
def pairsOf (t : Nat) : List (Nat × Op × Ans) → List (Option (Str × Str))
  | [] => []
  | (x, .adv, .pair q) :: r => if x = t then q :: pairsOf t r else pairsOf t r
  | _ :: r => pairsOf t r

/-- What an iterator over these entries answers when advanced `n` times. -/
def walk : Nat → Ents → List (Option (Str × Str))
  | 0, _ => []
  | n + 1, l => l.head? :: walk n l.tail

/-- The iterator of thread `t` has `l` still to return. -/
def Has (w : World) (t : Nat) (l : Ents) : Prop :=
  w.its.find? (fun i => decide (i.tid = t)) = some ⟨t, l⟩

theorem has_iterating (w : World) (t : Nat) (l : Ents) (h : Has w t l) : iterating w t = true := by
  unfold iterating
  rw [List.any_eq_true]
  exact ⟨_, List.mem_of_find?_eq_some h, by simp⟩

theorem find_advance_self (t : Nat) (l : Ents) (is : List It)
    (h : is.find? (fun i => decide (i.tid = t)) = some ⟨t, l⟩) :
    (advance t is).find? (fun i => decide (i.tid = t)) = some ⟨t, l.tail⟩ := by
  induction is with
  | nil => simp at h
  | cons i r ih =>
    unfold advance
    by_cases hi : i.tid = t
    · rw [if_pos hi]
      rw [List.find?_cons_of_pos (by simp [hi])] at h
      rw [List.find?_cons_of_pos (by simp [hi])]
      cases h; rfl
    · rw [if_neg hi]
      rw [List.find?_cons_of_neg (by simp [hi])] at h
      rw [List.find?_cons_of_neg (by simp [hi])]
      exact ih h

theorem find_advance_other (x t : Nat) (hx : x ≠ t) (is : List It) :
    (advance x is).find? (fun i => decide (i.tid = t)) = is.find? (fun i => decide (i.tid = t)) := by
  induction is with
  | nil => rfl
  | cons i r ih =>
    unfold advance
    by_cases hi : i.tid = x
    · rw [if_pos hi]
      have : ¬ i.tid = t := fun e => hx (by rw [← hi, e])
      rw [List.find?_cons_of_neg (by simp [this]), List.find?_cons_of_neg (by simp [this])]
    · rw [if_neg hi]
      by_cases ht : i.tid = t
      · rw [List.find?_cons_of_pos (by simp [ht]), List.find?_cons_of_pos (by simp [ht])]
      · rw [List.find?_cons_of_neg (by simp [ht]), List.find?_cons_of_neg (by simp [ht]), ih]

theorem find_close_other (x t : Nat) (hx : x ≠ t) (is : List It) :
    (is.filter (fun i => decide (i.tid ≠ x))).find? (fun i => decide (i.tid = t)) =
      is.find? (fun i => decide (i.tid = t)) := by
  induction is with
  | nil => rfl
  | cons i r ih =>
    by_cases hi : i.tid = x
    · have : ¬ i.tid = t := fun e => hx (by rw [← hi, e])
      rw [List.filter_cons_of_neg (by simp [hi]), List.find?_cons_of_neg (by simp [this]), ih]
    · rw [List.filter_cons_of_pos (by simp [hi])]
      by_cases ht : i.tid = t
      · rw [List.find?_cons_of_pos (by simp [ht]), List.find?_cons_of_pos (by simp [ht])]
      · rw [List.find?_cons_of_neg (by simp [ht]), List.find?_cons_of_neg (by simp [ht]), ih]

theorem wake_its (w : World) : (wake w).1.its = w.its := by
  unfold wake
  cases hw : w.waiter with
  | none => rfl
  | some tp =>
    obtain ⟨t, p⟩ := tp
    cases hi : w.its.isEmpty with
    | false => rfl
    | true =>
      simp only [if_true]
      generalize hw1 : ({ w with waiter := none, held := w.held.filter (fun x => decide (x ≠ t)) } : World) = w1
      have hp := put_spec 3 (resize w1) p
      have e : (resize w1).its = w.its := by rw [(resize_ents w1).2.1, ← hw1]
      cases hq : put 3 (resize w1) p with
      | ret b w2 => rw [hq] at hp; exact hp.1.trans e
      | wait => rw [← hw1]
      | spin w2 => rw [hq] at hp; exact hp.2.1.trans e

/-- A call other than closing or advancing one's own iterator leaves it
where it stands. -/
theorem call_has (w : World) (t x : Nat) (o : Op) (l : Ents) (h : Has w t l)
    (hn : x = t → o ≠ .close) :
    (x = t ∧ o = .adv ∧ (call w x o).2 = .pair l.head? ∧ Has (call w x o).1 t l.tail) ∨
    (pairsOf t [(x, o, (call w x o).2)] = [] ∧ Has (call w x o).1 t l) := by
  have hit := has_iterating w t l h
  unfold call
  cases hh : w.held.contains x with
  | true =>
    right
    simp only [if_true]
    refine ⟨?_, h⟩
    cases o <;> rfl
  | false =>
    simp only [Bool.false_eq_true, if_false]
    cases o with
    | size => right; exact ⟨rfl, h⟩
    | adv =>
      by_cases hx : x = t
      · subst hx
        left
        rw [hit]
        simp only [if_true]
        refine ⟨trivial, trivial, ?_, find_advance_self x l w.its h⟩
        unfold current
        rw [h]
      · right
        cases hi : iterating w x with
        | true =>
          simp only [if_true]
          refine ⟨by simp [pairsOf, hx], ?_⟩
          unfold Has
          rw [← h]
          exact find_advance_other x t hx w.its
        | false => exact ⟨by simp [pairsOf, hx], h⟩
    | close =>
      right
      have hx : x ≠ t := fun e => hn e rfl
      refine ⟨rfl, ?_⟩
      unfold Has
      show (wake _).1.its.find? _ = _
      rw [wake_its, ← h]
      exact find_close_other x t hx w.its
    | put p =>
      right
      cases hwt : w.waiter.isSome with
      | true => exact ⟨rfl, h⟩
      | false =>
        simp only [Bool.false_eq_true, if_false]
        have hp := put_spec 3 w p
        cases hq : put 3 w p with
        | ret b w2 =>
          rw [hq] at hp
          refine ⟨rfl, ?_⟩
          unfold Has; rw [← h]; simp only [hp.1]
        | wait => exact ⟨rfl, h⟩
        | spin w2 =>
          rw [hq] at hp
          refine ⟨rfl, ?_⟩
          unfold Has; rw [← h]; simp only [hp.2.1]
    | get k =>
      right
      cases hwt : w.waiter.isSome with
      | true => exact ⟨rfl, h⟩
      | false =>
        simp only [Bool.false_eq_true, if_false]
        cases hi : iterating w x <;> exact ⟨rfl, h⟩
    | del k cost err =>
      right
      cases hwt : w.waiter.isSome with
      | true => exact ⟨rfl, h⟩
      | false =>
        simp only [Bool.false_eq_true, if_false]
        cases hc : ((look k w.ents).isNone || err || full w cost) <;> exact ⟨rfl, h⟩
    | iter =>
      right
      cases hwt : w.waiter.isSome with
      | true => exact ⟨rfl, h⟩
      | false =>
        simp only [Bool.false_eq_true, if_false]
        cases hi : iterating w x with
        | true => exact ⟨rfl, h⟩
        | false =>
          refine ⟨rfl, ?_⟩
          have hx : ¬ x = t := fun e => by rw [e, hit] at hi; cases hi
          unfold Has
          simp only [Bool.false_eq_true, if_false]
          rw [List.find?_cons_of_neg (by simp [hx])]
          exact h

theorem pairsOf_cons (t : Nat) (e : Nat × Op × Ans) (r : List (Nat × Op × Ans)) :
    pairsOf t (e :: r) = pairsOf t [e] ++ pairsOf t r := by
  obtain ⟨x, o, a⟩ := e
  cases o <;> cases a <;> simp [pairsOf]
  split <;> simp

theorem has_walk (cs : List (Nat × Op)) (w : World) (t : Nat) (l : Ents) (h : Has w t l)
    (hn : (t, .close) ∉ cs) :
    ∃ n, pairsOf t (trace w cs) = walk n l := by
  induction cs generalizing w l with
  | nil => exact ⟨0, rfl⟩
  | cons c r ih =>
    obtain ⟨x, o⟩ := c
    have hn1 : x = t → o ≠ .close := by
      rintro rfl rfl
      exact hn List.mem_cons_self
    have hn2 : (t, Op.close) ∉ r := fun e => hn (List.mem_cons_of_mem _ e)
    show ∃ n, pairsOf t ((x, o, (call w x o).2) :: trace (call w x o).1 r) = walk n l
    rw [pairsOf_cons]
    rcases call_has w t x o l h hn1 with ⟨rfl, rfl, ha, hh⟩ | ⟨ha, hh⟩
    · obtain ⟨n, e⟩ := ih _ _ hh hn2
      refine ⟨n + 1, ?_⟩
      rw [ha, e]
      simp [pairsOf, walk]
    · obtain ⟨n, e⟩ := ih _ _ hh hn2
      exact ⟨n, by rw [ha, e]; rfl⟩

theorem agree_run (cs : List (Nat × Op)) (w : World) (s : Spec) (h : Agree w s) :
    Sorted (run w cs).ents := by
  induction cs generalizing w s with
  | nil => exact h.2.1
  | cons c r ih => exact ih _ _ (call_spec w s c.1 c.2 h).2

/-- **C151.** An iterator opened in a table that any calls have made
returns, however many times it is advanced and whatever calls are made
meanwhile by this and other threads, the entries the table had when it was
opened: each once, in increasing order of their keys, and then nothing
more. -/
theorem C151_walk (before after : List (Nat × Op)) (t : Nat)
    (ho : (call (run fresh before) t .iter).2 = .opened true) (hn : (t, .close) ∉ after) :
    ∃ l : Ents, l.Pairwise (fun p q => klt p.1 q.1 = true) ∧
      (∀ k v, (k, v) ∈ l ↔ look k (run fresh before).ents = some v) ∧
      ∃ n, pairsOf t (trace (call (run fresh before) t .iter).1 after) = walk n l := by
  have hs : Sorted (run fresh before).ents :=
    agree_run before fresh ⟨fun _ => none, fun _ => false⟩ ⟨fun _ => rfl, List.Pairwise.nil, fun _ => rfl⟩
  generalize run fresh before = w at *
  refine ⟨w.ents, hs, fun k v => (look_mem _ hs k v).symm, ?_⟩
  apply has_walk after _ t w.ents _ hn
  unfold call at ho ⊢
  cases hh : w.held.contains t with
  | true => rw [hh] at ho; simp at ho
  | false =>
    rw [hh] at ho
    simp only [Bool.false_eq_true, if_false] at ho ⊢
    cases hwt : w.waiter.isSome with
    | true => rw [hwt] at ho; simp at ho
    | false =>
      rw [hwt] at ho
      simp only [Bool.false_eq_true, if_false] at ho ⊢
      cases hi : iterating w t with
      | true => rw [hi] at ho; simp at ho
      | false =>
        unfold Has
        simp only [Bool.false_eq_true, if_false]
        rw [List.find?_cons_of_pos (by simp)]

example : pairsOf 0 (trace fresh [(0, exPut false "b" "1" 3), (0, exPut false "a" "2" 1), (0, .iter),
      (0, .adv), (1, exPut false "c" "3" 1), (0, .del (bytesOf "b") 2 false), (0, .adv), (0, .adv)]) =
    [some (bytesOf "a", bytesOf "2"), some (bytesOf "b", bytesOf "1"), none] := by decide +kernel

/-- A world in which two threads wait for each other: one iterates and is
inside a call, the other waits to resize. -/
theorem stuck_stays (cs : List (Nat × Op)) (w : World) (a b : Nat) (p : Put)
    (ha : w.held.contains a = true) (hb : w.held.contains b = true)
    (hi : iterating w a = true) (hw : w.waiter = some (b, p)) :
    (run w cs).held.contains a = true ∧ (run w cs).held.contains b = true := by
  induction cs generalizing w with
  | nil => exact ⟨ha, hb⟩
  | cons c r ih =>
    obtain ⟨x, o⟩ := c
    have key : ∀ w' : World, w'.its = w.its → w'.waiter = w.waiter → w'.held = w.held ∨ w'.held = x :: w.held →
        (run w' r).held.contains a = true ∧ (run w' r).held.contains b = true := by
      intro w' e1 e2 e3
      refine ih w' ?_ ?_ ?_ (by rw [e2, hw])
      · rcases e3 with e | e
        · rw [e]; exact ha
        · rw [e, List.contains_cons, ha]; simp
      · rcases e3 with e | e
        · rw [e]; exact hb
        · rw [e, List.contains_cons, hb]; simp
      · unfold iterating at hi ⊢; rw [e1]; exact hi
    have hwt : w.waiter.isSome = true := by rw [hw]; rfl
    show (run (call w x o).1 r).held.contains a = true ∧ (run (call w x o).1 r).held.contains b = true
    unfold call
    cases hh : w.held.contains x with
    | true => exact key w rfl rfl (.inl rfl)
    | false =>
      simp only [Bool.false_eq_true, if_false]
      cases o with
      | size => exact key w rfl rfl (.inl rfl)
      | adv =>
        cases hx : iterating w x with
        | false => exact key w rfl rfl (.inl rfl)
        | true =>
          simp only [if_true]
          refine ih _ ha hb ?_ hw
          unfold iterating at hi ⊢
          rw [← hi]
          exact iterating_advance x a w.its
      | close =>
        have hxa : ¬ a = x := fun e => by rw [e, hh] at ha; cases ha
        generalize hw1 : ({ w with its := w.its.filter (fun i => decide (i.tid ≠ x)) } : World) = w1
        have e1 : iterating w1 a = true := by
          rw [← hw1]
          unfold iterating at hi ⊢
          show (w.its.filter (fun i => decide (i.tid ≠ x))).any (fun i => decide (i.tid = a)) = true
          rw [iterating_close x a w.its, if_neg hxa, hi]
        have e2 : w1.its.isEmpty = false := by
          cases he : w1.its with
          | nil => unfold iterating at e1; rw [he] at e1; simp at e1
          | cons i r => rfl
        have e3 : wake w1 = (w1, none) := by
          unfold wake
          have : w1.waiter = some (b, p) := by rw [← hw1]; exact hw
          rw [this]
          simp only [e2, Bool.false_eq_true, if_false]
        show (run (wake w1).1 r).held.contains a = true ∧ (run (wake w1).1 r).held.contains b = true
        rw [e3]
        exact ih w1 (by rw [← hw1]; exact ha) (by rw [← hw1]; exact hb) e1 (by rw [← hw1]; exact hw)
      | put q => simp only [hwt, if_true]; exact key { w with held := x :: w.held } rfl rfl (.inr rfl)
      | get k => simp only [hwt, if_true]; exact key { w with held := x :: w.held } rfl rfl (.inr rfl)
      | del k cost err => simp only [hwt, if_true]; exact key { w with held := x :: w.held } rfl rfl (.inr rfl)
      | iter => simp only [hwt, if_true]; exact key { w with held := x :: w.held } rfl rfl (.inr rfl)

/-- **C151 is false of the code:** a thread that deletes while it iterates
never gets on, and neither does a thread whose store has to make the map
larger meanwhile, whatever the others do: one waits for the
lock the other's iterator holds, the other for the one before it in
the queue. -/
theorem C151_deadlock_violated :
    ∃ cs : List (Nat × Op), (0, Op.iter) ∈ cs ∧ ∀ more : List (Nat × Op),
      (run exFull (cs ++ more)).held.contains 0 = true ∧
      (run exFull (cs ++ more)).held.contains 1 = true := by
  refine ⟨[(0, .iter), (1, exPut false "k" "v" 30), (0, .del (bytesOf "a") 1 false)], by simp, fun more => ?_⟩
  show (run (run exFull [(0, .iter), (1, exPut false "k" "v" 30), (0, .del (bytesOf "a") 1 false)]) more).held.contains 0 = true ∧ _
  exact stuck_stays more _ 0 1 ⟨false, bytesOf "k", bytesOf "v", 30, false⟩
    (by decide +kernel) (by decide +kernel) (by decide +kernel) (by decide +kernel)

/-- **C151 is false of the code:** a thread that stores while it iterates
may wait for itself: if the store has to make the map larger it does not
return, whatever the others do. -/
theorem C151_self_violated :
    ∃ cs : List (Nat × Op), (∀ c ∈ cs, c.1 = 0) ∧ ∀ more : List (Nat × Op),
      (run exFull (cs ++ more)).held.contains 0 = true := by
  refine ⟨[(0, .iter), (0, exPut false "k" "v" 30)], by simp, fun more => ?_⟩
  show (run (run exFull [(0, .iter), (0, exPut false "k" "v" 30)]) more).held.contains 0 = true
  exact (stuck_stays more _ 0 0 ⟨false, bytesOf "k", bytesOf "v", 30, false⟩
    (by decide +kernel) (by decide +kernel) (by decide +kernel) (by decide +kernel)).1

/-- **C151 (partial).** A store that waits for an iterator of another
thread to be closed goes on when the last one is: closing it is
enough, and the store then has its answer (if what it needs is at most a
fifth of the map).  Missing: threads that make calls while they iterate
(`C151_deadlock_violated`, `C151_self_violated`). -/
theorem C151_released_partial (w : World) (a b : Nat) (p : Put) (hw : Within w)
    (ha : w.held.contains a = false) (hwt : w.waiter = some (b, p))
    (hits : ∀ i ∈ w.its, i.tid = a)
    (hkey : 0 < p.k.length ∧ p.k.length ≤ 511) (herr : p.err = false)
    (hnew : p.over = true ∨ look p.k w.ents = none)
    (hcost : (p.cost + 2) * 4096 * 5 ≤ w.mapsize) :
    (call w a .close).2 = .closed (some (b, p, true)) ∧
      look p.k (call w a .close).1.ents = some p.v ∧
      (call w a .close).1.held.contains b = false ∧ (call w a .close).1.waiter = none := by
  have hi : w.its.filter (fun i => decide (i.tid ≠ a)) = [] := by
    rw [List.filter_eq_nil_iff]
    intro i h
    simp [hits i h]
  generalize hw1 : ({ w with its := [], waiter := none, held := w.held.filter (fun x => decide (x ≠ b)) } : World) = w1
  have hwi : Within (resize w1) := by
    unfold Within at hw ⊢
    have h1 : w1.used = w.used := by rw [← hw1]
    have h2 : w1.mapsize = w.mapsize := by rw [← hw1]
    unfold resize
    split
    · rw [h1, h2]; exact hw
    · simp only [h1, h2]; omega
  have hms : w.mapsize ≤ (resize w1).mapsize := by
    have h2 : w1.mapsize = w.mapsize := by rw [← hw1]
    unfold resize
    split
    · rw [h2]
    · simp only [h2]; omega
  obtain ⟨e1, e2, _, e4, e5⟩ := resize_ents w1
  have hst := C150_stored_partial { resize w1 with held := [] } b p hwi (by simp)
    (by show (resize w1).waiter = none; rw [e4, ← hw1]) (by show (resize w1).its = []; rw [e2, ← hw1]) hkey herr
    (by show p.over = true ∨ look p.k (resize w1).ents = none; rw [e1, ← hw1]; exact hnew)
    (Nat.le_trans hcost hms)
  have hput : ∃ w2, put 3 (resize w1) p = .ret true w2 := by
    have hsp := put_not_wait 3 (resize w1) p (by rw [e2, ← hw1])
    have hh : ∀ (n : Nat) (x : World) (h : List Nat),
        put n { x with held := h } p = match put n x p with
          | .ret bb y => .ret bb { y with held := h }
          | .wait => .wait
          | .spin y => .spin { y with held := h } := by
      intro n
      induction n with
      | zero => intro x h; rfl
      | succ n ih =>
        intro x h
        have hr : resize { x with held := h } = { resize x with held := h } := by
          unfold resize
          by_cases hc : x.used * 4096 * 10 < x.mapsize * 8
          · rw [if_pos hc, if_pos hc]
          · rw [if_neg hc, if_neg hc]
        have hat : attempt { x with held := h } p = (attempt x p).map (fun r => (r.1, { r.2 with held := h })) := by
          unfold attempt
          by_cases c1 : (!p.over && (look p.k x.ents).isSome) = true
          · rw [if_pos c1, if_pos c1]; rfl
          · rw [if_neg c1, if_neg c1]
            by_cases c2 : (badKey p.k || p.err) = true
            · rw [if_pos c2, if_pos c2]; rfl
            · rw [if_neg c2, if_neg c2]
              by_cases c3 : full x p.cost = true
              · rw [if_pos c3, if_pos (by exact c3)]; rfl
              · rw [if_neg c3, if_neg (by exact c3)]; rfl
        unfold put
        rw [hat]
        cases attempt x p with
        | some r => obtain ⟨bb, y⟩ := r; rfl
        | none =>
          simp only [Option.map_none]
          cases hie : x.its.isEmpty with
          | true => simp only [if_true]; rw [hr, ih]
          | false => simp
    have h1 := hst.1
    unfold call at h1
    rw [show (({ resize w1 with held := [] } : World).held.contains b) = false by simp] at h1
    simp only [Bool.false_eq_true, if_false] at h1
    rw [show (({ resize w1 with held := [] } : World).waiter.isSome) = false by
      show (resize w1).waiter.isSome = false; rw [e4, ← hw1]; rfl] at h1
    simp only [Bool.false_eq_true, if_false] at h1
    rw [hh] at h1
    cases hq : put 3 (resize w1) p with
    | ret bb y =>
      rw [hq] at h1
      simp only [Ans.bool.injEq] at h1
      exact ⟨y, by rw [h1]⟩
    | wait => exact absurd hq hsp
    | spin y => rw [hq] at h1; simp at h1
  obtain ⟨w2, hp⟩ := hput
  have hsp := put_spec 3 (resize w1) p
  rw [hp] at hsp
  obtain ⟨_, h2, h3, _, h5⟩ := hsp
  have hc : call w a .close = (w2, .closed (some (b, p, true))) := by
    unfold call
    rw [ha]
    simp only [Bool.false_eq_true, if_false]
    rw [hi]
    unfold wake
    simp only [hwt, List.isEmpty_nil, if_true]
    rw [hw1, hp]
  rw [hc]
  refine ⟨rfl, ?_, ?_, ?_⟩
  · show look p.k w2.ents = some p.v
    rw [(h5 rfl).1, look_ins, if_pos rfl]
  · show w2.held.contains b = false
    rw [h3, e5, ← hw1]
    simp
  · show w2.waiter = none
    rw [h2, e4, ← hw1]

example : (trace exFull [(0, .iter), (1, exPut false "k" "v" 30), (2, exPut false "z" "v" 1), (0, .adv), (0, .close),
      (1, .get (bytesOf "k"))]).map (·.2.2) =
    [.opened true, .held, .held, .pair none,
      .closed (some (1, ⟨false, bytesOf "k", bytesOf "v", 30, false⟩, true)), .ptr (some ⟨bytesOf "v", 2⟩)] := by
  decide +kernel

end Mtev.HugeHash
