import Verif.Mem

/-!
# The backing store: which pieces of the configuration are written

`src/mtev_conf.c:1000-1172`: `mtev_conf_backingstore_remove`, `mtev_conf_backingstore_dirty`,
`mtev_conf_backingstore_write`, `mtev_conf_shatter_write`.

A section kept in a backing store is a file (a leaf) or a directory with a file `.attrs` for its attributes.  Each has a
name for good (`name#17`), here a number.  A piece is written if the time it was last changed is after the time of
the last write.

Simplified: what happens while one file is saved is in `XmlSave` (here saving a file succeeds or fails); texts are given;
`.attrs` of the store itself is left out.
-/

namespace Mtev.ConfStore

abbrev Str := List Nat

/-- the sections of a backing store, in order: files with their texts, directories with their attributes (if any) and
what is in them -/
inductive Tree where
  | nil
  | leaf (id : Nat) (text : Str) (rest : Tree)
  | dir (id : Nat) (attrs : Option Str) (kids rest : Tree)
deriving DecidableEq, Repr

/-- `ctx i`: the time of the last change, `none` if the section was never written out (`_private == NULL`);
`file i`: what is on disk, for a directory in its `.attrs`;
`free`: `backingstore_freelist`; `flush`: `last_config_flush` -/
structure St where
  tree : Tree := .nil
  ctx : Nat → Option Nat := fun _ => none
  file : Nat → Option Str := fun _ => none
  free : List Nat := []
  flush : Nat := 0

def put {α : Type} (f : Nat → α) (i : Nat) (v : α) : Nat → α := fun j => if j = i then v else f j

theorem put_same {α : Type} (f : Nat → α) (i : Nat) (v : α) : put f i v i = v := by simp [put]
theorem put_other {α : Type} (f : Nat → α) (i j : Nat) (v : α) (h : j ≠ i) : put f i v j = f j := by simp [put, h]

/-- a section that was never written is marked now, `mtev_conf.c:1069-1079` -/
def mark (now : Nat → Nat) (id : Nat) (s : St) : St := { s with ctx := put s.ctx id (some ((s.ctx id).getD (now id))) }

/-- was it changed since the last write? `mtev_conf.c:1083`, `1109` -/
def dirty (id : Nat) (s : St) : Bool := decide ((s.ctx id).getD 0 > s.flush)

/-- saving attributes, `mtev_conf.c:1048-1063`: without any, the file is removed -/
def saveAttrs (luck : Nat → Bool) (id : Nat) (attrs : Option Str) (s : St) : Option St :=
  match attrs with
  | some a => if luck id then some { s with file := put s.file id (some a) } else none
  | none => some { s with file := put s.file id none }

/-- `mtev_conf_backingstore_write`, `mtev_conf.c:1041-1116`; the flag says whether it succeeded -/
def write (now : Nat → Nat) (luck : Nat → Bool) : Tree → St → St × Bool
  | .nil, s => (s, true)
  | .leaf id text rest, s =>
    let s := mark now id s
    if dirty id s then
      if luck id then write now luck rest { s with file := put s.file id (some text) } else (s, false)
    else write now luck rest s
  | .dir id attrs kids rest, s =>
    let s := mark now id s
    match (if dirty id s then saveAttrs luck id attrs s else some s) with
    | none => (s, false)
    | some s =>
      match write now luck kids s with
      | (s, true) => write now luck rest s
      | (s, false) => (s, false)

/-- the removed sections: `unlink` the file, or else the attributes, `mtev_conf.c:1121-1146` -/
def sweep (s : St) : St := { s with file := fun i => if i ∈ s.free then none else s.file i, free := [] }

/-- `mtev_conf_shatter_write`, `mtev_conf.c:1118-1172`: the result of writing is not looked at; `done` is the time when it
is over -/
def flush (now : Nat → Nat) (luck : Nat → Bool) (done : Nat) (s : St) : St :=
  let s := sweep s
  { (write now luck s.tree s).1 with flush := done }

/-- `mtev_conf_backingstore_dirty`, `mtev_conf.c:1026-1039`, on a section that was written out before -/
def touch (t id : Nat) (s : St) : St := { s with ctx := put s.ctx id (some t) }

/-- `mtev_conf_backingstore_remove` on such a section, `mtev_conf.c:1011-1020`: its own name is put on the list -/
def discard (id : Nat) (s : St) : St := { s with free := s.free ++ [id] }

/-! ### pieces -/

/-- every section with what should be in its file -/
def Tree.pieces : Tree → List (Nat × Option Str)
  | .nil => []
  | .leaf id text rest => (id, some text) :: rest.pieces
  | .dir id attrs kids rest => (id, attrs) :: (kids.pieces ++ rest.pieces)

def Tree.ids (t : Tree) : List Nat := t.pieces.map Prod.fst

theorem mem_ids {t : Tree} {x : Nat × Option Str} (h : x ∈ t.pieces) : x.1 ∈ t.ids := List.mem_map.2 ⟨x, h, rfl⟩

theorem ids_leaf (id : Nat) (text : Str) (rest : Tree) : (Tree.leaf id text rest).ids = id :: rest.ids := rfl
theorem ids_dir (id : Nat) (a : Option Str) (kids rest : Tree) :
    (Tree.dir id a kids rest).ids = id :: (kids.ids ++ rest.ids) := by simp [Tree.ids, Tree.pieces]

/-- on disk as it should be, or to be written -/
def Due (s : St) (x : Nat × Option Str) : Prop := s.file x.1 = x.2 ∨ s.ctx x.1 = none ∨ ∃ t, s.ctx x.1 = some t ∧ s.flush < t

theorem mark_ctx (now : Nat → Nat) (id : Nat) (s : St) (j : Nat) (h : j ≠ id) : (mark now id s).ctx j = s.ctx j :=
  put_other _ _ _ _ h

/-- a section that is due and not changed is on disk; otherwise it is found changed -/
theorem due_dirty {now : Nat → Nat} {s : St} {x : Nat × Option Str} (hd : Due s x) (hn : s.flush < now x.1) :
    dirty x.1 (mark now x.1 s) = true ∨ (dirty x.1 (mark now x.1 s) = false ∧ s.file x.1 = x.2) := by
  cases he : dirty x.1 (mark now x.1 s) with
  | true => exact Or.inl rfl
  | false =>
    refine Or.inr ⟨rfl, ?_⟩
    simp only [dirty, mark, put_same, Option.getD_some, decide_eq_false_iff_not, Nat.not_lt, gt_iff_lt] at he
    rcases hd with h | h | ⟨t, h, ht⟩
    · exact h
    · rw [h] at he; simp only [Option.getD_none] at he; omega
    · rw [h] at he; simp only [Option.getD_some] at he; omega

theorem write_spec (now : Nat → Nat) (luck : Nat → Bool) : ∀ (t : Tree) (s : St), t.ids.Nodup →
    (∀ x ∈ t.pieces, Due s x) → (∀ i ∈ t.ids, s.flush < now i) → (∀ i ∈ t.ids, luck i = true) →
    ∃ s', write now luck t s = (s', true) ∧ (∀ x ∈ t.pieces, s'.file x.1 = x.2) ∧ (∀ i, i ∉ t.ids → s'.file i = s.file i) ∧
      s'.tree = s.tree ∧ s'.free = s.free ∧ s'.flush = s.flush ∧ (∀ i, i ∉ t.ids → s'.ctx i = s.ctx i) ∧
      (∀ i ∈ t.ids, s'.ctx i ≠ none)
  | .nil, s, _, _, _, _ => ⟨s, rfl, by simp [Tree.pieces], fun _ _ => rfl, rfl, rfl, rfl, fun _ _ => rfl, by simp [Tree.ids, Tree.pieces]⟩
  | .leaf id text rest, s, hnd, hdue, hnow, hl => by
    rw [ids_leaf, List.nodup_cons] at hnd
    have hd := hdue (id, some text) (by simp [Tree.pieces])
    obtain ⟨s1, e1, f1, o1, c1, t1, fr1, fl1⟩ : ∃ s1 : St, write now luck (.leaf id text rest) s = write now luck rest s1 ∧
        s1.file id = some text ∧ (∀ j, j ≠ id → s1.file j = s.file j) ∧ (∀ j, j ≠ id → s1.ctx j = s.ctx j) ∧
        s1.tree = s.tree ∧ s1.free = s.free ∧ s1.flush = s.flush ∧ s1.ctx id ≠ none := by
      rcases due_dirty hd (hnow id (by simp [ids_leaf])) with hx | ⟨hx, hf⟩
      · refine ⟨{ mark now id s with file := put s.file id (some text) }, ?_, put_same _ _ _,
          fun j hj => put_other _ _ _ _ hj, fun j hj => put_other _ _ _ _ hj, rfl, rfl, rfl, ?_⟩
        · simp only at hx
          simp only [write, hx, if_true, hl id (by simp [ids_leaf])]
          rfl
        · simp [mark, put_same]
      · refine ⟨mark now id s, ?_, hf, fun _ _ => rfl, fun j hj => put_other _ _ _ _ hj, rfl, rfl, rfl, ?_⟩
        · simp only at hx
          simp only [write, hx]
          simp
        · simp [mark, put_same]
    obtain ⟨fl1, cid⟩ := fl1
    obtain ⟨s', e2, g1, g2, g3, g4, g5, g6, g7⟩ := write_spec now luck rest s1 hnd.2 (by
      intro x hx
      have hxi : x.1 ≠ id := by intro h; exact hnd.1 (h ▸ mem_ids hx)
      have := hdue x (by simp [Tree.pieces, hx])
      simp only [Due, o1 _ hxi, c1 _ hxi, fl1]
      exact this) (by
      intro i hi; rw [fl1]; exact hnow i (by simp [ids_leaf, hi])) (fun i hi => hl i (by simp [ids_leaf, hi]))
    refine ⟨s', by rw [e1, e2], ?_, ?_, by rw [g3, t1], by rw [g4, fr1], by rw [g5, fl1], ?_, ?_⟩
    · intro x hx
      simp only [Tree.pieces, List.mem_cons] at hx
      rcases hx with rfl | hx
      · rw [g2 _ hnd.1]; exact f1
      · exact g1 x hx
    · intro i hi
      simp only [ids_leaf, List.mem_cons, not_or] at hi
      rw [g2 i hi.2, o1 i hi.1]
    · intro i hi
      simp only [ids_leaf, List.mem_cons, not_or] at hi
      rw [g6 i hi.2, c1 i hi.1]
    · intro i hi
      simp only [ids_leaf, List.mem_cons] at hi
      by_cases hir : i ∈ rest.ids
      · exact g7 i hir
      · rcases hi with rfl | hi
        · rw [g6 _ hir]; exact cid
        · exact absurd hi hir
  | .dir id attrs kids rest, s, hnd, hdue, hnow, hl => by
    rw [ids_dir, List.nodup_cons, List.nodup_append] at hnd
    obtain ⟨hn1, hn2, hn3, hn4⟩ := hnd
    simp only [List.mem_append, not_or] at hn1
    have hd := hdue (id, attrs) (by simp [Tree.pieces])
    obtain ⟨s1, e1, f1, o1, c1, t1, fr1, fl1, cid⟩ : ∃ s1 : St,
        (if dirty id (mark now id s) then saveAttrs luck id attrs (mark now id s) else some (mark now id s)) = some s1 ∧
        s1.file id = attrs ∧ (∀ j, j ≠ id → s1.file j = s.file j) ∧ (∀ j, j ≠ id → s1.ctx j = s.ctx j) ∧
        s1.tree = s.tree ∧ s1.free = s.free ∧ s1.flush = s.flush ∧ s1.ctx id ≠ none := by
      rcases due_dirty hd (hnow id (by simp [ids_dir])) with hx | ⟨hx, hf⟩
      · refine ⟨{ mark now id s with file := put s.file id attrs }, ?_, put_same _ _ _,
          fun j hj => put_other _ _ _ _ hj, fun j hj => put_other _ _ _ _ hj, rfl, rfl, rfl, ?_⟩
        · simp only at hx
          simp only [hx, if_true, saveAttrs, hl id (by simp [ids_dir])]
          cases attrs <;> rfl
        · simp [mark, put_same]
      · refine ⟨mark now id s, ?_, hf, fun _ _ => rfl, fun j hj => put_other _ _ _ _ hj, rfl, rfl, rfl, ?_⟩
        · simp only at hx
          simp [hx]
        · simp [mark, put_same]
    obtain ⟨s2, e2, g1, g2, g3, g4, g5, g6, g7⟩ := write_spec now luck kids s1 hn2 (by
      intro x hx
      have hxi : x.1 ≠ id := by intro h; exact hn1.1 (h ▸ mem_ids hx)
      have := hdue x (by simp [Tree.pieces, hx])
      simp only [Due, o1 _ hxi, c1 _ hxi, fl1]
      exact this) (by
      intro i hi; rw [fl1]; exact hnow i (by simp [ids_dir, hi])) (fun i hi => hl i (by simp [ids_dir, hi]))
    obtain ⟨s', e3, h1, h2, h3, h4, h5, h6, h7⟩ := write_spec now luck rest s2 hn3 (by
      intro x hx
      have hxi : x.1 ≠ id := by intro h; exact hn1.2 (h ▸ mem_ids hx)
      have hxk : x.1 ∉ kids.ids := fun h => hn4 _ h _ (mem_ids hx) rfl
      have := hdue x (by simp [Tree.pieces, hx])
      simp only [Due, g2 _ hxk, g6 _ hxk, g5, o1 _ hxi, c1 _ hxi, fl1]
      exact this) (by
      intro i hi; rw [g5, fl1]; exact hnow i (by simp [ids_dir, hi])) (fun i hi => hl i (by simp [ids_dir, hi]))
    refine ⟨s', ?_, ?_, ?_, by rw [h3, g3, t1], by rw [h4, g4, fr1], by rw [h5, g5, fl1], ?_, ?_⟩
    · simp only [write, e1, e2, e3]
    · intro x hx
      simp only [Tree.pieces, List.mem_cons, List.mem_append] at hx
      rcases hx with rfl | hx | hx
      · rw [h2 _ hn1.2, g2 _ hn1.1]; exact f1
      · have hxr : x.1 ∉ rest.ids := fun h => hn4 _ (mem_ids hx) _ h rfl
        rw [h2 _ hxr]; exact g1 x hx
      · exact h1 x hx
    · intro i hi
      simp only [ids_dir, List.mem_cons, List.mem_append, not_or] at hi
      rw [h2 i hi.2.2, g2 i hi.2.1, o1 i hi.1]
    · intro i hi
      simp only [ids_dir, List.mem_cons, List.mem_append, not_or] at hi
      rw [h6 i hi.2.2, g6 i hi.2.1, c1 i hi.1]
    · intro i hi
      simp only [ids_dir, List.mem_cons, List.mem_append] at hi
      by_cases hir : i ∈ rest.ids
      · exact h7 i hir
      · rw [h6 _ hir]
        by_cases hik : i ∈ kids.ids
        · exact g7 i hik
        · rw [g6 _ hik]
          rcases hi with rfl | hi | hi
          · exact cid
          · exact absurd hi hik
          · exact absurd hi hir

end Mtev.ConfStore
