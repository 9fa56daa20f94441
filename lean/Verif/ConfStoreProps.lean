import Verif.ConfStore

/-!
# C115 The backing store follows the configuration

After a write the files of the store are exactly the sections there are, with their present texts.
-/

namespace Mtev.ConfStore

/-- nothing is lost so far: sections have different names, each is on disk as it should be or will be written, and what is
on disk beyond them is marked for removal -/
structure Good (s : St) : Prop where
  nodup : s.tree.ids.Nodup
  due : ∀ x ∈ s.tree.pieces, Due s x
  rest : ∀ i, i ∉ s.tree.ids → s.file i = none ∨ i ∈ s.free
  free : ∀ i ∈ s.free, i ∉ s.tree.ids

/-- the files are exactly the sections -/
def Synced (s : St) : Prop := ∀ i v, s.file i = some v ↔ (i, some v) ∈ s.tree.pieces

/-- what a program may do between two writes: any number of sections added (with names of their own), changed (and marked
so at a time after the last write) and removed (and marked so) -/
structure Edit (s s' : St) : Prop where
  file : s'.file = s.file
  flush : s'.flush = s.flush
  nodup : s'.tree.ids.Nodup
  pieces : ∀ x ∈ s'.tree.pieces,
    (x ∈ s.tree.pieces ∧ s'.ctx x.1 = s.ctx x.1) ∨          -- as before
    s'.ctx x.1 = none ∨                                       -- new
    ∃ t, s'.ctx x.1 = some t ∧ s.flush < t                    -- changed
  gone : ∀ i ∈ s.tree.ids, i ∉ s'.tree.ids → i ∈ s'.free
  keep : ∀ i ∈ s.free, i ∈ s'.free
  free : ∀ i ∈ s'.free, i ∉ s'.tree.ids

theorem Good.edit {s s' : St} (h : Good s) (e : Edit s s') : Good s' where
  nodup := e.nodup
  due := by
    intro x hx
    rcases e.pieces x hx with ⟨h1, h2⟩ | h1 | ⟨t, h1, h2⟩
    · have := h.due x h1
      simpa [Due, e.file, e.flush, h2] using this
    · exact Or.inr (Or.inl h1)
    · exact Or.inr (Or.inr ⟨t, h1, by rw [e.flush]; exact h2⟩)
  rest := by
    intro i hi
    by_cases hs : i ∈ s.tree.ids
    · exact Or.inr (e.gone i hs hi)
    · rcases h.rest i hs with h1 | h1
      · exact Or.inl (by rw [e.file]; exact h1)
      · exact Or.inr (e.keep i h1)
  free := e.free

theorem nodup_val {t : Tree} (h : t.ids.Nodup) {i : Nat} {a b : Option Str} (ha : (i, a) ∈ t.pieces) (hb : (i, b) ∈ t.pieces) :
    a = b := by
  unfold Tree.ids at h
  generalize t.pieces = l at *
  induction l with
  | nil => simp at ha
  | cons x l ih =>
    simp only [List.map_cons, List.nodup_cons, List.mem_map, not_exists, not_and] at h
    simp only [List.mem_cons] at ha hb
    rcases ha with ha | ha <;> rcases hb with hb | hb
    · rw [← ha] at hb; exact (Prod.mk.inj hb).2.symm
    · rw [← ha] at h; exact absurd rfl (h.1 (i, b) hb)
    · rw [← hb] at h; exact absurd rfl (h.1 (i, a) ha)
    · exact ih h.2 ha hb

theorem sweep_good {s : St} (h : Good s) : Good (sweep s) ∧ ∀ i, i ∉ s.tree.ids → (sweep s).file i = none := by
  have hf : ∀ i ∈ s.tree.ids, (sweep s).file i = s.file i := by
    intro i hi
    have : i ∉ s.free := fun hx => h.free i hx hi
    simp [sweep, this]
  have h2 : ∀ i, i ∉ s.tree.ids → (sweep s).file i = none := by
    intro i hi
    simp only [sweep]
    rcases h.rest i hi with h1 | h1
    · split
      · rfl
      · exact h1
    · rw [if_pos h1]
  refine ⟨⟨h.nodup, ?_, fun i hi => Or.inl (h2 i hi), by simp [sweep]⟩, h2⟩
  intro x hx
  have := h.due x hx
  simp only [Due, hf x.1 (mem_ids hx)]
  exact this

/-- **C115** After a write in which no save failed, the files of the store are exactly the sections, with their texts and
attributes; and nothing is lost from then on either.

Partial: the clock has moved on since the last write, and no save fails.
Missing: see `C115_clock_violated`, `C115_retry_violated`. -/
theorem C115_flush_partial (now : Nat → Nat) (luck : Nat → Bool) (done : Nat) (s : St) (h : Good s)
    (hn : ∀ i ∈ s.tree.ids, s.flush < now i) (hl : ∀ i ∈ s.tree.ids, luck i = true) :
    Synced (flush now luck done s) ∧ Good (flush now luck done s) ∧ (flush now luck done s).tree = s.tree := by
  obtain ⟨h1, h2⟩ := sweep_good h
  obtain ⟨s', e, g1, g2, g3, g4, g5, g6, g7⟩ := write_spec now luck s.tree (sweep s) h1.nodup h1.due
    (by simpa [sweep] using hn) hl
  have hfl : flush now luck done s = { s' with flush := done } := by
    simp only [flush]
    rw [show (sweep s).tree = s.tree from rfl, e]
  have hfile : (flush now luck done s).file = s'.file := by rw [hfl]
  have htree : (flush now luck done s).tree = s.tree := by rw [hfl]; exact g3
  have hrest : ∀ i, i ∉ s.tree.ids → s'.file i = none := fun i hi => by rw [g2 i hi]; exact h2 i hi
  refine ⟨?_, ⟨?_, ?_, ?_, ?_⟩, htree⟩
  · intro i v
    rw [hfile, htree]
    constructor
    · intro hi
      have hm : i ∈ s.tree.ids := by
        by_contra hm
        rw [hrest i hm] at hi; cases hi
      obtain ⟨⟨j, w⟩, hx, hj⟩ := List.mem_map.1 hm
      simp only at hj
      subst hj
      have := g1 _ hx
      simp only at this
      rw [hi] at this
      rw [this]; exact hx
    · intro hi; exact g1 _ hi
  · rw [htree]; exact h.nodup
  · intro x hx
    rw [htree] at hx
    exact Or.inl (by rw [hfile]; exact g1 x hx)
  · intro i hi
    rw [htree] at hi
    exact Or.inl (by rw [hfile]; exact hrest i hi)
  · rw [hfl]
    intro i hi
    rw [g4] at hi
    simp [sweep] at hi

/-- a history: writes in which no save fails and the clock has moved on, and anything in between; `true` if it ends with
a write -/
inductive History : St → Bool → Prop where
  | start : History {} false
  | edit {s s' : St} {b : Bool} : History s b → Edit s s' → History s' false
  | write {s : St} {b : Bool} (now : Nat → Nat) (luck : Nat → Bool) (done : Nat) : History s b →
      (∀ i ∈ s.tree.ids, s.flush < now i) → (∀ i ∈ s.tree.ids, luck i = true) → History (flush now luck done s) true

/-- **C115** Over any history of edits and writes: after each write the files of the store are exactly the sections.
Partial: as above. -/
theorem C115_history_partial {s : St} {b : Bool} (h : History s b) : Good s ∧ (b = true → Synced s) := by
  induction h with
  | start =>
    refine ⟨⟨by simp [Tree.ids, Tree.pieces], by simp [Tree.pieces], fun _ _ => Or.inl rfl, by simp⟩, by simp⟩
  | edit _ e ih => exact ⟨ih.1.edit e, by simp⟩
  | write now luck done _ hn hl ih =>
    obtain ⟨a, b, _⟩ := C115_flush_partial now luck done _ ih.1 hn hl
    exact ⟨b, fun _ => a⟩

/-- **C115** What was not changed is not written again: a file whose section is unchanged since the last write is left
alone, whatever fails. -/
theorem C115_quiet (now : Nat → Nat) (luck : Nat → Bool) (id : Nat) : ∀ (t : Tree) (s : St),
    (∃ w, s.ctx id = some w ∧ w ≤ s.flush) → (write now luck t s).1.file id = s.file id := by
  have hm : ∀ (j : Nat) (s : St), (∃ w, s.ctx id = some w ∧ w ≤ s.flush) →
      (∃ w, (mark now j s).ctx id = some w ∧ w ≤ (mark now j s).flush) ∧ (j = id → dirty j (mark now j s) = false) := by
    intro j s ⟨w, h1, h2⟩
    constructor
    · refine ⟨w, ?_, h2⟩
      by_cases hj : id = j
      · subst hj; simp [mark, put_same, h1]
      · rw [mark_ctx _ _ _ _ hj, h1]
    · rintro rfl
      simp only [dirty, mark, put_same, h1, Option.getD_some, decide_eq_false_iff_not]
      omega
  have key : ∀ (t : Tree) (s : St), (∃ w, s.ctx id = some w ∧ w ≤ s.flush) →
      (write now luck t s).1.file id = s.file id ∧
      ∃ w, (write now luck t s).1.ctx id = some w ∧ w ≤ (write now luck t s).1.flush := by
    intro t
    induction t with
    | nil => intro s h; exact ⟨rfl, h⟩
    | leaf j text rest ih =>
      intro s h
      obtain ⟨m1, m2⟩ := hm j s h
      simp only [write]
      by_cases hd : dirty j (mark now j s) = true
      · have hj : id ≠ j := by rintro rfl; rw [m2 rfl] at hd; cases hd
        rw [if_pos hd]
        by_cases hl : luck j = true
        · rw [if_pos hl]
          have := ih { mark now j s with file := put (mark now j s).file j (some text) } m1
          refine ⟨?_, this.2⟩
          rw [this.1]
          exact put_other _ _ _ _ hj
        · rw [if_neg hl]; exact ⟨rfl, m1⟩
      · rw [if_neg hd]
        exact ih _ m1
    | dir j attrs kids rest ihk ihr =>
      intro s h
      obtain ⟨m1, m2⟩ := hm j s h
      simp only [write]
      have h0 : (if dirty j (mark now j s) = true then saveAttrs luck j attrs (mark now j s) else some (mark now j s)) = none ∨
          ∃ s1, (if dirty j (mark now j s) = true then saveAttrs luck j attrs (mark now j s) else some (mark now j s)) = some s1 ∧
            s1.file id = s.file id ∧ ∃ w, s1.ctx id = some w ∧ w ≤ s1.flush := by
        by_cases hd : dirty j (mark now j s) = true
        · have hj : id ≠ j := by rintro rfl; rw [m2 rfl] at hd; cases hd
          rw [if_pos hd]
          cases attrs with
          | none => exact Or.inr ⟨_, rfl, put_other _ _ _ _ hj, m1⟩
          | some a =>
            by_cases hl : luck j = true
            · exact Or.inr ⟨{ mark now j s with file := put (mark now j s).file j (some a) }, by simp [saveAttrs, hl], put_other _ _ _ _ hj, m1⟩
            · exact Or.inl (by simp [saveAttrs, hl])
        · rw [if_neg hd]
          exact Or.inr ⟨_, rfl, rfl, m1⟩
      rcases h0 with e | ⟨s1, e, f1, c1⟩
      · rw [e]; exact ⟨rfl, m1⟩
      · rw [e]
        simp only
        obtain ⟨k1, k2⟩ := ihk s1 c1
        rcases hw : write now luck kids s1 with ⟨s2, b⟩
        rw [hw] at k1 k2
        cases b with
        | false => exact ⟨by rw [k1, f1], k2⟩
        | true =>
          simp only
          obtain ⟨r1, r2⟩ := ihr s2 k2
          exact ⟨by rw [r1, k1, f1], r2⟩
  exact fun t s h => (key t s h).1

theorem discards_free : ∀ (l : List Nat) (s : St), (l.foldl (fun s i => discard i s) s).free = s.free ++ l ∧
    (l.foldl (fun s i => discard i s) s).file = s.file ∧ (l.foldl (fun s i => discard i s) s).ctx = s.ctx ∧
    (l.foldl (fun s i => discard i s) s).tree = s.tree ∧ (l.foldl (fun s i => discard i s) s).flush = s.flush
  | [], s => by simp
  | a :: l, s => by
    obtain ⟨h1, h2, h3, h4, h5⟩ := discards_free l (discard a s)
    simp only [List.foldl_cons]
    refine ⟨by rw [h1]; simp [discard], h2, h3, h4, h5⟩

/-- **C115** Removing any number of files is such an edit: after the next write they are gone, and only they.

Partial: each of the removed sections is removed by itself.  Missing: see `C115_mess_violated`. -/
theorem C115_remove_partial (s : St) (h : Good s) (t : Tree) (l : List Nat) (hn : t.ids.Nodup) (hp : ∀ x ∈ t.pieces, x ∈ s.tree.pieces)
    (hl : ∀ i ∈ s.tree.ids, i ∉ t.ids ↔ i ∈ l) (hs : ∀ i ∈ l, i ∈ s.tree.ids) (now : Nat → Nat) (luck : Nat → Bool) (done : Nat)
    (hnow : ∀ i ∈ t.ids, s.flush < now i) (hluck : ∀ i ∈ t.ids, luck i = true) :
    Synced (flush now luck done (l.foldl (fun s i => discard i s) { s with tree := t })) := by
  obtain ⟨h1, h2, h3, h4, h5⟩ := discards_free l { s with tree := t }
  have e : Edit s (l.foldl (fun s i => discard i s) { s with tree := t }) := by
    refine ⟨h2, h5, by rw [h4]; exact hn, ?_, ?_, ?_, ?_⟩
    · intro x hx
      rw [h4] at hx
      exact Or.inl ⟨hp x hx, by rw [h3]⟩
    · intro i hi hj
      rw [h4] at hj
      rw [h1]
      exact List.mem_append_right _ ((hl i hi).1 hj)
    · intro i hi
      rw [h1]
      exact List.mem_append_left _ hi
    · intro i hi
      rw [h1] at hi
      rw [h4]
      rcases List.mem_append.1 hi with hi | hi
      · intro hm
        obtain ⟨x, hx, rfl⟩ := List.mem_map.1 hm
        exact h.free _ hi (mem_ids (hp x hx))
      · exact (hl i (hs i hi)).2 hi
  refine (C115_flush_partial now luck done _ (h.edit e) ?_ ?_).1
  · rw [h4, h5]; exact hnow
  · rw [h4]; exact hluck

/-- **C115** Changing a section and marking it is one: after the next write its file has the new text.

Partial: as before, and the time of the mark is after the last write. -/
theorem C115_change_partial (s : St) (h : Good s) (t : Tree) (id when_ : Nat) (hn : t.ids = s.tree.ids)
    (hp : ∀ x ∈ t.pieces, x.1 ≠ id → x ∈ s.tree.pieces) (hw : s.flush < when_) (now : Nat → Nat) (luck : Nat → Bool) (done : Nat)
    (hnow : ∀ i ∈ t.ids, s.flush < now i) (hluck : ∀ i ∈ t.ids, luck i = true) :
    Synced (flush now luck done (touch when_ id { s with tree := t })) := by
  have e : Edit s (touch when_ id { s with tree := t }) := by
    refine ⟨rfl, rfl, by show t.ids.Nodup; rw [hn]; exact h.nodup, ?_, ?_, fun _ hi => hi, ?_⟩
    · intro x hx
      by_cases hid : x.1 = id
      · exact Or.inr (Or.inr ⟨when_, by rw [hid]; exact put_same _ _ _, hw⟩)
      · exact Or.inl ⟨hp x hx hid, put_other _ _ _ _ hid⟩
    · intro i hi hj
      exact absurd (show i ∈ t.ids by rw [hn]; exact hi) hj
    · intro i hi
      show i ∉ t.ids
      rw [hn]
      exact h.free i hi
  exact (C115_flush_partial now luck done _ (h.edit e) hnow hluck).1

/-! ### a store -/

/-- a directory with a file in it, and a file -/
def sample : Tree := .dir 1 (some [65]) (.leaf 2 [66] .nil) (.leaf 3 [67] .nil)

def fresh : St := { tree := sample }

theorem fresh_edit : Edit {} fresh :=
  ⟨rfl, rfl, by decide, fun _ _ => Or.inr (Or.inl rfl), by simp [Tree.ids, Tree.pieces], by simp, by simp [fresh]⟩

def ok : Nat → Bool := fun _ => true

/-- the store after a write, with two sections changed and one removed -/
def edited : St :=
  discard 3 (touch 20 1 (touch 20 2 { flush (fun _ => 5) ok 10 fresh with tree := .dir 1 (some [75]) (.leaf 2 [76] .nil) .nil }))

theorem edited_edit : Edit (flush (fun _ => 5) ok 10 fresh) edited := by
  have e1 : (flush (fun _ => 5) ok 10 fresh).tree.ids = [1, 2, 3] := by decide
  have e2 : edited.tree.ids = [1, 2] := by decide
  have e3 : edited.free = [3] := by decide
  refine ⟨rfl, rfl, by decide, ?_, ?_, ?_, ?_⟩
  · intro x hx
    refine Or.inr (Or.inr ⟨20, ?_, by decide⟩)
    have e4 : edited.tree.pieces = [(1, some [75]), (2, some [76])] := by decide
    rw [e4] at hx
    simp only [List.mem_cons, List.not_mem_nil, or_false] at hx
    rcases hx with rfl | rfl <;> rfl
  · intro i hi hj
    rw [e1] at hi
    rw [e2] at hj
    rw [e3]
    simp only [List.mem_cons, List.not_mem_nil, or_false, not_or] at hi hj ⊢
    omega
  · intro i hi
    have : (flush (fun _ => 5) ok 10 fresh).free = [] := by decide
    rw [this] at hi; simp at hi
  · intro i hi
    rw [e3] at hi
    rw [e2]
    simp only [List.mem_cons, List.not_mem_nil, or_false, not_or] at hi ⊢
    omega

/-- three sections are written, then two are changed and one is removed, then it is written again -/
example : Synced (flush (fun _ => 30) ok 40 edited) :=
  (C115_history_partial (.write _ ok 40 (.edit (.write (fun _ => 5) ok 10 (.edit .start fresh_edit)
    (fun _ _ => Nat.succ_pos 4) fun _ _ => rfl) edited_edit) (fun _ _ => by decide) fun _ _ => rfl)).2 rfl

/-- the two files are removed, one after the other -/
example : Synced (flush (fun _ => 20) ok 30 ([2, 3].foldl (fun s i => discard i s)
    { flush (fun _ => 5) ok 10 fresh with tree := .dir 1 (some [65]) .nil .nil })) :=
  C115_remove_partial _ (C115_history_partial (.write (fun _ => 5) ok 10 (.edit .start fresh_edit)
    (fun _ _ => Nat.succ_pos 4) fun _ _ => rfl)).1 _ _ (by decide) (by decide) (by decide) (by decide) _ _ _
    (fun _ _ => by decide) fun _ _ => rfl

/-- **C115 violated** If a save fails once (a full disk), the change is not written by later writes either, though they do
not fail: failing is not noticed and the time of the last write moves on. -/
theorem C115_retry_violated :
    let s := flush (fun _ => 5) (fun i => decide (i ≠ 3)) 10 fresh
    let later := fun n => (flush (fun _ => 5) ok (20 + n) s)
    s.file 3 = none ∧ ∀ n, (later n).file 3 = none := by
  refine ⟨by decide, fun n => ?_⟩
  have : ((flush (fun _ => 5) ok (20 + n) (flush (fun _ => 5) (fun i => decide (i ≠ 3)) 10 fresh)).file 3) =
      (flush (fun _ => 5) ok 20 (flush (fun _ => 5) (fun i => decide (i ≠ 3)) 10 fresh)).file 3 := rfl
  show (flush (fun _ => 5) ok (20 + n) (flush (fun _ => 5) (fun i => decide (i ≠ 3)) 10 fresh)).file 3 = none
  rw [this]
  decide

/-- **C115 violated** A change made when the clock (which can be set back) shows a time up to that of the last write is not
written, by this write or any later one. -/
theorem C115_clock_violated (t : Nat) (ht : t ≤ 10) :
    let s := flush (fun _ => 5) ok 10 fresh
    let s' : St := touch t 3 { s with tree := .dir 1 (some [65]) (.leaf 2 [66] .nil) (.leaf 3 [99] .nil) }
    s.file 3 = some [67] ∧ ∀ now luck done, (flush now luck done s').file 3 = some [67] := by
  refine ⟨by decide, fun now luck done => ?_⟩
  show (write now luck _ (sweep (touch t 3 _))).1.file 3 = _
  rw [C115_quiet now luck 3 _ _ ⟨t, by simp [sweep, touch, put], by simpa [sweep, touch, flush] using ht⟩]
  have : (flush (fun _ => 5) ok 10 fresh).file 3 = some [67] ∧ 3 ∉ (flush (fun _ => 5) ok 10 fresh).free := by decide
  have e : ∀ (x : St) (i : Nat), i ∉ x.free → (sweep x).file i = x.file i := fun x i h => if_neg h
  rw [e (touch t 3 _) 3]
  · exact this.1
  · exact this.2

/-- **C115 violated** Removing a directory marks its own name only: the files in it stay on disk (and are read back at the
next start). -/
theorem C115_mess_violated :
    let s := flush (fun _ => 5) ok 10 fresh
    let s' := flush (fun _ => 20) ok 30 (discard 1 { s with tree := .leaf 3 [67] .nil })
    s'.file 2 = some [66] ∧ 2 ∉ s'.tree.ids := by
  constructor
  · decide
  · decide

end Mtev.ConfStore
