import Verif.Mem
import Mathlib.Data.List.Nodup

/-!
Model of the indexed skip list, `/repo/src/utils/mtev_skiplist.c` lines 34-497.

A list is a stack of rows, top row first; a row is the sequence of its nodes
without the place-holder head column.  A node is a pair of an identity and its
data: the copies of one element in the rows of a tower (linked by `up`/`down`)
and in the secondary indexes (linked by `previndex`/`nextindex`) carry the same
identity.  Following `down` from a node is the suffix of the next row after the
node of that identity.

Simplifications: the `next`/`prev`/`up`/`down` pointers are not represented
individually, a row is a list; `height` is the number of rows; the `int` element
counter is a natural number.  Random heights are arbitrary: each insertion is
given the number of consecutive one bits drawn.  `preheight` is never set by the
code and left out.
-/
namespace Mtev.Skiplist

variable {α κ : Type}

/-- A node: identity and data. -/
abbrev Node (α : Type) := Nat × α

/-- A comparator pair, mtev_skiplist.c:35-36; `fp` stands for the address of the
`compare` function, by which the list of indexes is ordered (:85-95). -/
structure Cmp (α κ : Type) where
  fp : Nat
  compare : α → α → Int
  comparek : κ → α → Int

/-- One skip list (`struct _iskiplist` without its indexes). -/
structure SL (α : Type) where
  rows : List (List (Node α))
  size : Nat
deriving DecidableEq, Repr

/-- `mtev_skiplisti_init`, mtev_skiplist.c:81-83. -/
def SL.empty : SL α := ⟨[], 0⟩

/-- The bottom row: `mtev_skiplist_getlist` and `mtev_skiplist_next`,
mtev_skiplist.c:154-158, 266-271. -/
def SL.elems (s : SL α) : List (Node α) := s.rows.getLast?.getD []

/-- `MAX_HEIGHT`, mtev_skiplist.c:32 (private to the file). -/
def maxHeight : Nat := 24

/-- The nodes after `m` in a row; `none` is the head column. -/
def after (m : Option Nat) (row : List (Node α)) : List (Node α) :=
  match m with
  | none => row
  | some i => (row.dropWhile fun n => n.1 ≠ i).tail

/-- How a search in one row ends. -/
inductive Stop (α : Type)
  | found (n : Node α)
  | at (m : Option Nat)

/-- Moving right in one row: the `m->next` comparisons of
mtev_skiplist.c:235-262 and 329-345. `cmp` is the comparator applied to the
searched value. -/
def scan (cmp : α → Int) (m : Option Nat) : List (Node α) → Stop α
  | [] => .at m
  | n :: rest =>
    if cmp n.2 = 0 then .found n
    else if cmp n.2 < 0 then .at m
    else scan cmp (some n.1) rest

/-- The search through all rows: the node found, or for each row the node after
which the value belongs. -/
def search (cmp : α → Int) : Option Nat → List (List (Node α)) → Node α ⊕ List (Option Nat)
  | _, [] => .inr []
  | m, row :: rest =>
    match scan cmp m (after m row) with
    | .found n => .inl n
    | .at m' => match search cmp m' rest with
      | .inl n => .inl n
      | .inr ms => .inr (m' :: ms)

/-- Linking a new node after `m` in a row, mtev_skiplist.c:350-358. -/
def insertAfter (m : Option Nat) (new : Node α) (row : List (Node α)) : List (Node α) :=
  match m with
  | none => new :: row
  | some i => match row with
    | [] => [new]
    | n :: rest => if n.1 = i then n :: new :: rest else n :: insertAfter (some i) new rest

/-- Linking the new node into the lowest `nh` rows, mtev_skiplist.c:336-362. -/
def insertRows (nh : Nat) (new : Node α) : List (List (Node α)) → List (Option Nat) → List (List (Node α))
  | row :: rest, m :: ms =>
    (if rest.length + 1 ≤ nh then insertAfter m new row else row) :: insertRows nh new rest ms
  | rows, _ => rows

/-- The height drawn for a new node, mtev_skiplist.c:311-315. -/
def pickHeight (height coins : Nat) : Nat := min (1 + coins) (min (height + 1) maxHeight)

/-- `mtev_skiplist_insert_compare` without the indexes, mtev_skiplist.c:298-362
and 376-377.  Returns whether a node was inserted. -/
def SL.insert (c : Cmp α κ) (id : Nat) (d : α) (coins : Nat) (s : SL α) : SL α × Bool :=
  let rows := if s.rows.isEmpty then [[]] else s.rows                       -- :305-310
  let nh := pickHeight rows.length coins
  let rows := List.replicate (nh - rows.length) [] ++ rows                  -- :318-323
  match search (c.compare d) none rows with
  | .inl _ => (⟨rows, s.size⟩, false)                                       -- :332-334
  | .inr ms => (⟨insertRows nh (id, d) rows ms, s.size + 1⟩, true)

/-- `mtev_skiplisti_find_compare`, mtev_skiplist.c:216-265, for the node. -/
def SL.find (c : Cmp α κ) (k : κ) (s : SL α) : Option (Node α) :=
  match search (c.comparek k) none s.rows with
  | .inl n => some n
  | .inr _ => none

/-- The neighbours reported by `mtev_skiplisti_find_compare`,
mtev_skiplist.c:246-247 (found) and 254-255 (not found). -/
def SL.neighbors (c : Cmp α κ) (k : κ) (s : SL α) : Option (Node α) × Option (Node α) :=
  match search (c.comparek k) none s.rows with
  | .inl n => ((s.elems.takeWhile fun x => x.1 ≠ n.1).getLast?, (after (some n.1) s.elems).head?)
  | .inr ms => match ms.getLast?.getD none with
    | none => (none, s.elems.head?)
    | some i => (s.elems.find? fun x => x.1 = i, (after (some i) s.elems).head?)

/-- `mtev_skiplisti_remove`, mtev_skiplist.c:393-418, for one list: unlink the
tower, drop empty rows from the top. -/
def SL.remove (id : Nat) (s : SL α) : SL α :=
  ⟨(s.rows.map fun row => row.filter fun n => n.1 ≠ id).dropWhile (·.isEmpty), s.size - 1⟩

/-! ### A list with its indexes -/

/-- `mtev_skiplist` with `index`: the primary list and the secondary indexes in
the order of their comparator addresses. `next` is the identity of the next node
allocated. -/
structure MSL (α κ : Type) where
  prim : Cmp α κ
  main : SL α
  idx : List (Cmp α κ × SL α)
  next : Nat

/-- `mtev_skiplist_alloc` and `mtev_skiplist_set_compare`, mtev_skiplist.c:97-124. -/
def MSL.empty (c : Cmp α κ) : MSL α κ := ⟨c, .empty, [], 0⟩

/-- The insertions into the indexes, mtev_skiplist.c:363-375: `none` when an
index refuses (`mtevAssert(ni)`). `coins i` are the draws for index `i`. -/
def insertIdx (id : Nat) (d : α) (coins : Nat → Nat) : Nat → List (Cmp α κ × SL α) → Option (List (Cmp α κ × SL α))
  | _, [] => some []
  | i, (c, s) :: rest =>
    match s.insert c id d (coins i) with
    | (s', true) => (insertIdx id d coins (i + 1) rest).map ((c, s') :: ·)
    | (_, false) => none

/-- `mtev_skiplist_insert`, mtev_skiplist.c:291-378. The returned flag says
whether the node pointer is non-NULL. -/
def MSL.insert (d : α) (coins : Nat → Nat) (l : MSL α κ) : Out (MSL α κ × Bool) :=
  match l.main.insert l.prim l.next d (coins 0) with
  | (s, false) => .ok ({ l with main := s }, false)
  | (s, true) => match insertIdx l.next d coins 1 l.idx with
    | none => .abort
    | some idx => .ok ({ l with main := s, idx := idx, next := l.next + 1 }, true)

/-- The list a comparator selects: the primary list (`none`) or index `i`,
mtev_skiplist.c:206-212, 427-433. -/
def MSL.pick (l : MSL α κ) : Option Nat → Option (Cmp α κ × SL α)
  | none => some (l.prim, l.main)
  | some i => l.idx[i]?

/-- `mtev_skiplist_find_compare`, mtev_skiplist.c:183-215: the data found. -/
def MSL.find (via : Option Nat) (k : κ) (l : MSL α κ) : Out (Option α) :=
  match l.pick via with
  | none => .abort                                                          -- :210
  | some (c, s) => .ok ((s.find c k).map (·.2))

/-- The neighbours of `mtev_skiplist_find_neighbors_compare`. -/
def MSL.neighbors (via : Option Nat) (k : κ) (l : MSL α κ) : Out (Option α × Option α) :=
  match l.pick via with
  | none => .abort
  | some (c, s) => .ok (((s.neighbors c k).1.map (·.2)), (s.neighbors c k).2.map (·.2))

/-- Removing an element from the primary list and, along `nextindex`, from every
index, mtev_skiplist.c:393-396. -/
def MSL.removeNode (id : Nat) (l : MSL α κ) : MSL α κ :=
  { l with main := l.main.remove id, idx := l.idx.map fun p => (p.1, p.2.remove id) }

/-- `mtev_skiplist_remove_compare`, mtev_skiplist.c:419-438: return value and the
data passed to `myfree`. -/
def MSL.remove (via : Option Nat) (k : κ) (l : MSL α κ) : Out (MSL α κ × Bool × List α) :=
  match l.pick via with
  | none => .abort                                                          -- :431
  | some (c, s) => match s.find c k with
    | none => .ok (l, false, [])
    | some n => .ok (l.removeNode n.1, true, [n.2])

/-- `mtev_skiplist_pop`, mtev_skiplist.c:478-488. -/
def MSL.pop (l : MSL α κ) : MSL α κ × Option α :=
  match l.main.elems with
  | [] => (l, none)
  | n :: _ => (l.removeNode n.1, some n.2)

/-- `mtev_skiplist_peek`, mtev_skiplist.c:489-497. -/
def MSL.peek (l : MSL α κ) : Option α := l.main.elems.head?.map (·.2)

/-- The build loop of `mtev_skiplist_add_index`, mtev_skiplist.c:140-151.  The
loop variable is the rest of the row it walks on, of list number `p` (0 is the
primary list); after each insertion it has moved `k` lists further along
`nextindex` and continues on that list's row. -/
def buildIndex (l : MSL α κ) (c : Cmp α κ) (k : Nat) (coins : Nat → Nat) :
    Nat → Nat → List (Node α) → SL α → Out (SL α)
  | _, _, [], ni => .ok ni
  | 0, _, _ :: _, ni => .ok ni
  | fuel + 1, p, n :: rest, ni =>
    match ni.insert c n.1 n.2 (coins n.1) with
    | (_, false) => .ub                                                     -- :147, nsln is NULL
    | (ni, true) =>
      if k = 0 then buildIndex l c k coins fuel p rest ni
      else
        let p' := p + k                                                     -- :145
        match l.idx[p' - 1]? with
        | none => .ub                                                       -- :147, m is NULL
        | some (_, s) => buildIndex l c k coins fuel p' (after (some n.1) s.elems) ni

/-- `mtev_skiplist_add_index`, mtev_skiplist.c:126-152. The fuel bounds the
number of insertions by the number of elements: a further one would be of an
element already present. -/
def MSL.addIndex (c : Cmp α κ) (coins : Nat → Nat) (l : MSL α κ) : Out (MSL α κ) :=
  if l.idx.any (fun p => p.1.fp = c.fp) then .ok l
  else do
    let before := l.idx.filter fun p => p.1.fp < c.fp
    let ni ← buildIndex l c before.length coins (l.main.elems.length + 1) 0 l.main.elems .empty
    .ok { l with idx := before ++ (c, ni) :: l.idx.filter fun p => ¬ p.1.fp < c.fp }

/-! ### Order -/

/-- A comparator for the order `le`: negative exactly when strictly smaller, and
zero only for elements equal in the order.  It may treat equal elements as
greater (like `eventer_timecompare`). -/
structure Ord (cmp : α → α → Int) (le : α → α → Prop) : Prop where
  total : ∀ a b, le a b ∨ le b a
  trans : ∀ a b c, le a b → le b c → le a c
  lt_iff : ∀ a b, cmp a b < 0 ↔ ¬ le b a
  zero : ∀ a b, cmp a b = 0 → le a b

/-- A strict comparator: zero for all elements equal in the order. -/
structure SOrd (cmp : α → α → Int) (le : α → α → Prop) : Prop extends Ord cmp le where
  eq : ∀ a b, le a b → le b a → cmp a b = 0

/-- The position of a searched value among the elements: everything below it comes
before everything equal or above. -/
structure Cut (cmp : α → Int) (le : α → α → Prop) : Prop where
  lt : ∀ a b, le a b → cmp a < 0 → cmp b < 0
  gt : ∀ a b, le a b → 0 < cmp b → 0 ≤ cmp a

theorem Ord.cut {cmp : α → α → Int} {le : α → α → Prop} (h : Ord cmp le) (d : α) : Cut (cmp d) le where
  lt := by
    intro a b hab h1
    rw [h.lt_iff] at h1 ⊢
    exact fun h2 => h1 (h.trans _ _ _ hab h2)
  gt := by
    intro a b hab h1
    by_contra h2
    have := (h.lt_iff d a).1 (by omega)
    have h3 : le b d := by
      by_contra h3
      have := (h.lt_iff d b).2 h3
      omega
    exact this (h.trans _ _ _ hab h3)

/-- A row: sorted, with distinct identities. -/
def RowOk (le : α → α → Prop) (row : List (Node α)) : Prop :=
  row.Pairwise (fun a b => le a.2 b.2) ∧ (row.map (·.1)).Nodup

theorem RowOk.sublist {le : α → α → Prop} {r s : List (Node α)} (h : RowOk le s) (hs : r.Sublist s) : RowOk le r :=
  ⟨h.1.sublist hs, h.2.sublist (hs.map _)⟩

/-- `m` is the last node of `pre`, or the head when `pre` is empty. -/
def LastIs (m : Option Nat) (pre : List (Node α)) : Prop := pre.getLast?.map (·.1) = m

theorem after_append {m : Option Nat} {pre suf : List (Node α)} (hm : LastIs m pre)
    (hn : ((pre ++ suf).map (·.1)).Nodup) : after m (pre ++ suf) = suf := by
  unfold LastIs at hm
  rcases List.eq_nil_or_concat pre with rfl | ⟨p, x, rfl⟩
  · simp only [List.getLast?_nil, Option.map_none] at hm
    subst hm
    rfl
  · simp only [List.concat_eq_append, List.getLast?_append, List.getLast?_singleton, Option.some_or,
      Option.map_some] at hm
    subst hm
    rw [List.concat_eq_append] at hn ⊢
    have hx : ∀ n ∈ p, n.1 ≠ x.1 := by
      intro n hnp e
      rw [List.append_assoc, List.map_append, List.nodup_append] at hn
      exact hn.2.2 n.1 (List.mem_map_of_mem hnp) x.1 (by simp) e
    unfold after
    simp only
    rw [List.append_assoc, List.dropWhile_append_of_pos (by simpa using hx)]
    simp

theorem insertAfter_append {m : Option Nat} {pre suf : List (Node α)} (new : Node α) (hm : LastIs m pre)
    (hn : ((pre ++ suf).map (·.1)).Nodup) : insertAfter m new (pre ++ suf) = pre ++ new :: suf := by
  unfold LastIs at hm
  rcases List.eq_nil_or_concat pre with rfl | ⟨p, x, rfl⟩
  · simp only [List.getLast?_nil, Option.map_none] at hm
    subst hm
    rw [List.nil_append, List.nil_append]; unfold insertAfter; rfl
  · simp only [List.concat_eq_append, List.getLast?_append, List.getLast?_singleton, Option.some_or,
      Option.map_some] at hm
    subst hm
    rw [List.concat_eq_append] at hn ⊢
    rw [List.append_assoc] at hn ⊢
    rw [List.append_assoc]
    induction p with
    | nil => simp [insertAfter]
    | cons y p ih =>
      have hy : y.1 ≠ x.1 := by
        intro e
        rw [List.cons_append, List.map_cons, List.nodup_cons] at hn
        exact hn.1 (by simp [e])
      rw [List.cons_append, insertAfter.eq_def]
      simp only
      rw [if_neg hy, ih (by rw [List.cons_append, List.map_cons, List.nodup_cons] at hn; exact hn.2)]
      rfl

/-- The nodes a new value goes after. -/
def leq (cmp : α → Int) (n : Node α) : Bool := decide (¬ cmp n.2 < 0)

/-- What a scan of a row's suffix does. -/
theorem scan_spec {cmp : α → Int} {le : α → α → Prop} (hc : Cut cmp le) (suf : List (Node α)) :
    ∀ (m : Option Nat) (pre : List (Node α)), LastIs m pre → RowOk le (pre ++ suf) →
      (∀ x ∈ pre, 0 ≤ cmp x.2) → (∀ x, pre.getLast? = some x → 0 < cmp x.2) →
      match scan cmp m suf with
      | .found n => n ∈ suf ∧ cmp n.2 = 0
      | .at m' => ∃ pre' suf', pre ++ suf = pre' ++ suf' ∧ LastIs m' pre' ∧ (∀ x ∈ pre', 0 ≤ cmp x.2) ∧
          (∀ x ∈ suf', cmp x.2 < 0) ∧ (∀ x, pre'.getLast? = some x → 0 < cmp x.2) := by
  induction suf with
  | nil =>
    intro m pre hm hr hp hl
    exact ⟨pre, [], rfl, hm, hp, by simp, hl⟩
  | cons n rest ih =>
    intro m pre hm hr hp hl
    rw [scan]
    by_cases h0 : cmp n.2 = 0
    · rw [if_pos h0]; exact ⟨List.mem_cons_self, h0⟩
    · rw [if_neg h0]
      by_cases hlt : cmp n.2 < 0
      · rw [if_pos hlt]
        refine ⟨pre, n :: rest, rfl, hm, hp, ?_, hl⟩
        intro x hx
        rcases List.mem_cons.1 hx with rfl | hx
        · exact hlt
        · have hs := (List.pairwise_append.1 hr.1).2.1
          exact hc.lt _ _ ((List.pairwise_cons.1 hs).1 x hx) hlt
      · rw [if_neg hlt]
        have := ih (some n.1) (pre ++ [n]) (by simp [LastIs]) (by simpa using hr)
          (by
            intro x hx
            rcases List.mem_append.1 hx with hx | hx
            · exact hp x hx
            · rw [List.mem_singleton.1 hx]; omega)
          (by
            intro x hx
            rw [List.getLast?_concat] at hx
            cases hx; omega)
        cases hs : scan cmp (some n.1) rest with
        | found k => rw [hs] at this; exact ⟨List.mem_cons_of_mem _ this.1, this.2⟩
        | «at» m' =>
          rw [hs] at this
          obtain ⟨pre', suf', e, r⟩ := this
          exact ⟨pre', suf', by rw [← e]; simp, r⟩

/-- The rows of a skip list: each row is a sublist of the one below, the bottom
row is sorted with distinct identities. -/
def RowsOk (le : α → α → Prop) : List (List (Node α)) → Prop
  | [] => True
  | [row] => RowOk le row
  | row :: row' :: rest => row.Sublist row' ∧ RowsOk le (row' :: rest)

theorem RowsOk.row {le : α → α → Prop} {row : List (Node α)} {rest : List (List (Node α))}
    (h : RowsOk le (row :: rest)) : RowOk le row := by
  induction rest generalizing row with
  | nil => exact h
  | cons r rest ih => exact (ih h.2).sublist h.1

theorem RowsOk.tail {le : α → α → Prop} {row : List (Node α)} {rest : List (List (Node α))}
    (h : RowsOk le (row :: rest)) : RowsOk le rest := by
  cases rest with
  | nil => trivial
  | cons r rest => exact h.2

/-- The bottom row. -/
def bottom (rows : List (List (Node α))) : List (Node α) := rows.getLast?.getD []

theorem bottom_cons (row : List (Node α)) {rest : List (List (Node α))} (h : rest ≠ []) :
    bottom (row :: rest) = bottom rest := by
  unfold bottom
  cases rest with
  | nil => exact absurd rfl h
  | cons a b => rw [List.getLast?_cons_cons]

theorem sublist_bottom {le : α → α → Prop} {row : List (Node α)} {rest : List (List (Node α))}
    (h : RowsOk le (row :: rest)) : row.Sublist (bottom (row :: rest)) := by
  induction rest generalizing row with
  | nil => simp [bottom]
  | cons r rest ih =>
    rw [bottom_cons _ (by simp)]
    exact h.1.trans (ih h.2)

/-- What the slots of a search say about the rows. -/
def SlotsOk (cmp : α → Int) : List (List (Node α)) → List (Option Nat) → Prop
  | [], [] => True
  | row :: rest, m :: ms => (∃ pre suf, row = pre ++ suf ∧ LastIs m pre ∧ (∀ x ∈ pre, 0 ≤ cmp x.2) ∧
      (∀ x ∈ suf, cmp x.2 < 0) ∧ (∀ x, pre.getLast? = some x → 0 < cmp x.2)) ∧ SlotsOk cmp rest ms
  | _, _ => False

theorem search_spec {cmp : α → Int} {le : α → α → Prop} (hc : Cut cmp le) (rows : List (List (Node α))) :
    ∀ m, RowsOk le rows →
      (∀ row rest, rows = row :: rest → ∃ pre suf, row = pre ++ suf ∧ LastIs m pre ∧ (∀ x ∈ pre, 0 ≤ cmp x.2) ∧
        (∀ x, pre.getLast? = some x → 0 < cmp x.2)) →
      match search cmp m rows with
      | .inl n => n ∈ bottom rows ∧ cmp n.2 = 0
      | .inr ms => SlotsOk cmp rows ms := by
  induction rows with
  | nil => intro m _ _; simp [search, SlotsOk]
  | cons row rest ih =>
    intro m hr hm
    obtain ⟨pre, suf, rfl, h1, h2, h3⟩ := hm row rest rfl
    rw [search, after_append h1 hr.row.2]
    have hs := scan_spec hc suf m pre h1 hr.row h2 h3
    cases hsc : scan cmp m suf with
    | found n =>
      rw [hsc] at hs
      exact ⟨(sublist_bottom hr).subset (List.mem_append_right _ hs.1), hs.2⟩
    | «at» m' =>
      rw [hsc] at hs
      obtain ⟨pre', suf', e, g1, g2, g3, g4⟩ := hs
      simp only
      have hrec := ih m' hr.tail (by
        intro row2 rest2 e2
        subst e2
        have hsub : (pre ++ suf).Sublist row2 := hr.1
        rw [e] at hsub
        -- the copy of the last node of pre' in the row below
        rcases List.eq_nil_or_concat pre' with rfl | ⟨p, x, rfl⟩
        · exact ⟨[], row2, rfl, g1, by simp, by simp⟩
        · rw [List.concat_eq_append] at g1 g2 g4 hsub
          have hx : x ∈ row2 := hsub.subset (by simp)
          obtain ⟨a, b, rfl⟩ := List.append_of_mem hx
          have hx0 : 0 < cmp x.2 := g4 x (by simp)
          refine ⟨a ++ [x], b, by simp, ?_, ?_, ?_⟩
          · unfold LastIs at g1 ⊢
            simpa using g1
          · intro y hy
            rcases List.mem_append.1 hy with hy | hy
            · have hp := (List.pairwise_append.1 hr.tail.row.1).2.2 y hy x (by simp)
              exact hc.gt _ _ hp hx0
            · rw [List.mem_singleton.1 hy]; omega
          · intro y hy
            rw [List.getLast?_concat] at hy
            cases hy; exact hx0)
      cases hse : search cmp m' rest with
      | inl n =>
        rw [hse] at hrec
        simp only at hrec ⊢
        cases rest with
        | nil => simp [search] at hse
        | cons r2 rest2 => rw [bottom_cons _ (by simp)]; exact hrec
      | inr ms =>
        rw [hse] at hrec
        exact ⟨⟨pre', suf', e, g1, g2, g3, g4⟩, hrec⟩

theorem search_head {cmp : α → Int} {le : α → α → Prop} (hc : Cut cmp le) {rows : List (List (Node α))}
    (hr : RowsOk le rows) :
    match search cmp none rows with
    | .inl n => n ∈ bottom rows ∧ cmp n.2 = 0
    | .inr ms => SlotsOk cmp rows ms :=
  search_spec hc rows none hr fun row _ _ => ⟨[], row, rfl, rfl, by simp, by simp⟩

/-- Inserting a node at its place in a row. -/
def place (cmp : α → Int) (new : Node α) (row : List (Node α)) : List (Node α) :=
  row.filter (leq cmp) ++ new :: row.filter fun n => ! leq cmp n

theorem insertAfter_place {cmp : α → Int} {m : Option Nat} {pre suf : List (Node α)} (new : Node α)
    (hm : LastIs m pre) (hn : ((pre ++ suf).map (·.1)).Nodup) (h1 : ∀ x ∈ pre, 0 ≤ cmp x.2)
    (h2 : ∀ x ∈ suf, cmp x.2 < 0) : insertAfter m new (pre ++ suf) = place cmp new (pre ++ suf) := by
  rw [insertAfter_append new hm hn, place, List.filter_append, List.filter_append]
  have e1 : pre.filter (leq cmp) = pre := List.filter_eq_self.2 fun x hx => by
    have := h1 x hx; simp [leq]; omega
  have e2 : suf.filter (leq cmp) = [] := List.filter_eq_nil_iff.2 fun x hx => by
    have := h2 x hx; simp [leq]; omega
  have e3 : pre.filter (fun n => ! leq cmp n) = [] := List.filter_eq_nil_iff.2 fun x hx => by
    have := h1 x hx; simp [leq]; omega
  have e4 : suf.filter (fun n => ! leq cmp n) = suf := List.filter_eq_self.2 fun x hx => by
    have := h2 x hx; simp [leq]; omega
  rw [e1, e2, e3, e4]; simp

theorem place_sublist {cmp : α → Int} {new : Node α} {r s : List (Node α)} (h : r.Sublist s) :
    (place cmp new r).Sublist (place cmp new s) :=
  (h.filter _).append ((h.filter _).cons_cons _)

theorem insertRows_spec {cmp : α → Int} {le : α → α → Prop} (nh : Nat) (hnh : 1 ≤ nh) (new : Node α)
    (rows : List (List (Node α))) : ∀ ms, RowsOk le rows → SlotsOk cmp rows ms → rows ≠ [] →
      RowOk le (place cmp new (bottom rows)) →
      RowsOk le (insertRows nh new rows ms) ∧ bottom (insertRows nh new rows ms) = place cmp new (bottom rows) ∧
      (insertRows nh new rows ms).length = rows.length ∧
      ∀ row rest, rows = row :: rest → ∃ rest', insertRows nh new rows ms =
        (if rows.length ≤ nh then place cmp new row else row) :: rest' := by
  induction rows with
  | nil => intro _ _ _ h; exact absurd rfl h
  | cons row rest ih =>
    intro ms hr hs _ hbot
    cases ms with
    | nil => exact absurd hs (by simp [SlotsOk])
    | cons m ms =>
      obtain ⟨⟨pre, suf, e, g1, g2, g3, _⟩, hs'⟩ := hs
      have hins : insertAfter m new row = place cmp new row := by
        have hn := hr.row.2
        rw [e] at hn ⊢
        exact insertAfter_place new g1 hn g2 g3
      rw [insertRows, hins]
      cases rest with
      | nil =>
        cases ms with
        | cons a b => exact absurd hs' (by simp [SlotsOk])
        | nil =>
          simp only [List.length_nil, Nat.zero_add, if_pos hnh, insertRows]
          refine ⟨?_, ?_, rfl, ?_⟩
          · simpa [bottom, RowsOk] using hbot
          · simp [bottom]
          · intro row' rest' e'
            cases e'
            exact ⟨[], by simp [hnh]⟩
      | cons r2 rest2 =>
        rw [bottom_cons _ (by simp)] at hbot
        obtain ⟨i1, i2, i3, i4⟩ := ih ms hr.tail hs' (by simp) hbot
        obtain ⟨rest', i5⟩ := i4 r2 rest2 rfl
        refine ⟨?_, ?_, by simp [i3], ?_⟩
        · rw [i5] at i1 ⊢
          refine ⟨?_, i1⟩
          by_cases h : (r2 :: rest2).length + 1 ≤ nh
          · rw [if_pos h, if_pos (by omega)]
            exact place_sublist hr.1
          · rw [if_neg h]
            by_cases h' : (r2 :: rest2).length ≤ nh
            · rw [if_pos h']
              have hrow2 := hr.tail.row
              have : r2.Sublist (place cmp new r2) := by
                cases ms with
                | nil => exact absurd hs' (by simp [SlotsOk])
                | cons m2 ms2 =>
                  obtain ⟨⟨pre2, suf2, e2, k1, k2, k3, _⟩, _⟩ := hs'
                  have hn := hrow2.2
                  rw [e2] at hn ⊢
                  rw [← insertAfter_place new k1 hn k2 k3, insertAfter_append new k1 hn]
                  exact (List.Sublist.refl _).append (List.sublist_cons_self _ _)
              exact hr.1.trans this
            · rw [if_neg h']; exact hr.1
        · have hne2 : insertRows nh new (r2 :: rest2) ms ≠ [] := by rw [i5]; simp
          have hne3 : r2 :: rest2 ≠ [] := by simp
          rw [bottom_cons _ hne2, i2, bottom_cons row hne3]
        · intro row' rest'' e'
          cases e'
          exact ⟨_, rfl⟩

theorem grow_ok {le : α → α → Prop} {rows : List (List (Node α))} (h : RowsOk le rows) (hne : rows ≠ []) (n : Nat) :
    RowsOk le (List.replicate n [] ++ rows) ∧ bottom (List.replicate n [] ++ rows) = bottom rows := by
  induction n with
  | zero => exact ⟨h, rfl⟩
  | succ n ih =>
    rw [List.replicate_succ, List.cons_append]
    have hne' : List.replicate n [] ++ rows ≠ [] := by simp [hne]
    refine ⟨?_, by rw [bottom_cons _ hne']; exact ih.2⟩
    cases hx : List.replicate n ([] : List (Node α)) ++ rows with
    | nil => exact absurd hx hne'
    | cons a b => rw [hx] at ih; exact ⟨List.nil_sublist _, ih.1⟩

/-- The invariant of one list. -/
structure SL.Ok (le : α → α → Prop) (s : SL α) : Prop where
  rows : RowsOk le s.rows
  size : s.size = s.elems.length

theorem SL.elems_eq (s : SL α) : s.elems = bottom s.rows := rfl

theorem place_rowOk {cmp : α → α → Int} {le : α → α → Prop} (h : Ord cmp le) {row : List (Node α)}
    (hr : RowOk le row) {new : Node α} (hid : new.1 ∉ row.map (·.1)) :
    RowOk le (place (cmp new.2) new row) := by
  refine ⟨?_, ?_⟩
  · rw [place, List.pairwise_append]
    refine ⟨hr.1.filter _, List.pairwise_cons.2 ⟨?_, hr.1.filter _⟩, ?_⟩
    · intro x hx
      have := (List.mem_filter.1 hx).2
      simp only [leq, decide_not, Bool.not_not, decide_eq_true_eq] at this
      rcases h.total new.2 x.2 with h' | h'
      · exact h'
      · exact absurd h' ((h.lt_iff _ _).1 this)
    · intro a ha b hb
      have ha' := (List.mem_filter.1 ha).2
      simp only [leq, decide_not, Bool.not_eq_true', decide_eq_false_iff_not] at ha'
      have hle : le a.2 new.2 := by
        by_contra hc
        exact ha' ((h.lt_iff _ _).2 hc)
      rcases List.mem_cons.1 hb with rfl | hb
      · exact hle
      · have := (List.mem_filter.1 hb).2
        simp only [leq, decide_not, Bool.not_not, decide_eq_true_eq] at this
        rcases h.total new.2 b.2 with h' | h'
        · exact h.trans _ _ _ hle h'
        · exact absurd h' ((h.lt_iff _ _).1 this)
  · have hperm : (place (cmp new.2) new row).Perm (new :: row) := by
      rw [place]
      refine List.perm_middle.trans (List.Perm.cons _ ?_)
      have := List.filter_append_perm (leq (cmp new.2)) row
      simpa using this
    have := hperm.map (·.1)
    rw [this.nodup_iff, List.map_cons, List.nodup_cons]
    exact ⟨hid, hr.2⟩

theorem place_perm (cmp : α → Int) (new : Node α) (row : List (Node α)) : (place cmp new row).Perm (new :: row) := by
  rw [place]
  refine List.perm_middle.trans (List.Perm.cons _ ?_)
  have := List.filter_append_perm (leq cmp) row
  simpa using this

theorem bottom_rowOk {le : α → α → Prop} {rows : List (List (Node α))} (h : RowsOk le rows) :
    RowOk le (bottom rows) := by
  induction rows with
  | nil => exact ⟨by simp [bottom], by simp [bottom]⟩
  | cons row rest ih =>
    cases rest with
    | nil => exact h
    | cons r rest => rw [bottom_cons _ (by simp)]; exact ih h.2

/-- Insertion into one list. -/
theorem SL.insert_spec {c : Cmp α κ} {le : α → α → Prop} (hc : Ord c.compare le) {s : SL α} (hs : s.Ok le)
    {id : Nat} (d : α) (coins : Nat) (hid : id ∉ s.elems.map (·.1)) :
    ∃ s' b, s.insert c id d coins = (s', b) ∧ s'.Ok le ∧
      (b = true → s'.elems = place (c.compare d) (id, d) s.elems ∧
        (SOrd c.compare le → ∀ x ∈ s.elems, c.compare d x.2 ≠ 0)) ∧
      (b = false → s'.elems = s.elems ∧ ∃ x ∈ s.elems, c.compare d x.2 = 0) := by
  unfold SL.insert
  simp only
  set rows0 := if s.rows.isEmpty then [[]] else s.rows with hrows0
  have h0 : RowsOk le rows0 ∧ rows0 ≠ [] ∧ bottom rows0 = s.elems := by
    rw [hrows0]
    cases hr : s.rows with
    | nil => simp [RowsOk, RowOk, bottom, SL.elems_eq, hr]
    | cons a b =>
      have := hs.rows
      rw [hr] at this
      exact ⟨by simpa using this, by simp, by simp [SL.elems_eq, hr]⟩
  obtain ⟨h1, h2, h3⟩ := h0
  set nh := pickHeight rows0.length coins with hnh
  have hnh1 : 1 ≤ nh := by simp only [hnh, pickHeight, maxHeight]; omega
  obtain ⟨g1, g2⟩ := grow_ok h1 h2 (nh - rows0.length)
  set rows1 := List.replicate (nh - rows0.length) [] ++ rows0 with hrows1
  have hne : rows1 ≠ [] := by rw [hrows1]; simp [h2]
  have hsr := search_head (hc.cut d) g1
  cases hse : search (c.compare d) none rows1 with
  | inl n =>
    rw [hse] at hsr
    simp only at hsr ⊢
    rw [g2, h3] at hsr
    refine ⟨_, _, rfl, ⟨g1, ?_⟩, by simp, fun _ => ⟨?_, n, hsr.1, hsr.2⟩⟩
    · show s.size = (bottom rows1).length
      rw [g2, h3]; exact hs.size
    · show bottom rows1 = _
      rw [g2, h3]
  | inr ms =>
    rw [hse] at hsr
    simp only at hsr ⊢
    have hpl : RowOk le (place (c.compare d) (id, d) (bottom rows1)) := by
      rw [g2, h3]
      have hb : RowOk le s.elems := by rw [← h3]; exact bottom_rowOk h1
      exact place_rowOk hc (new := (id, d)) hb hid
    obtain ⟨i1, i2, i3, _⟩ := insertRows_spec nh hnh1 (id, d) rows1 ms g1 hsr hne hpl
    refine ⟨_, _, rfl, ⟨i1, ?_⟩, fun _ => ⟨?_, ?_⟩, by simp⟩
    · show s.size + 1 = (bottom _).length
      rw [i2, g2, h3, (place_perm _ _ _).length_eq, List.length_cons, hs.size]
    · show bottom _ = _
      rw [i2, g2, h3]
    · intro hso x hx hx0
      · have hx2 : le d x.2 := hc.zero _ _ hx0
        -- in the bottom row, the last node passed compares strictly greater
        have hbs : ∀ (rows : List (List (Node α))) ms, RowsOk le rows → rows ≠ [] → SlotsOk (c.compare d) rows ms →
            ∃ pre suf, bottom rows = pre ++ suf ∧ (∀ x ∈ suf, c.compare d x.2 < 0) ∧
              (∀ x, pre.getLast? = some x → 0 < c.compare d x.2) := by
          intro rows
          induction rows with
          | nil => intro _ _ h; exact absurd rfl h
          | cons row rest ih =>
            intro ms hr _ hsl
            cases ms with
            | nil => exact absurd hsl (by simp [SlotsOk])
            | cons m ms =>
              cases rest with
              | nil =>
                obtain ⟨⟨pre, suf, e, _, _, k3, k4⟩, _⟩ := hsl
                exact ⟨pre, suf, by simpa [bottom] using e, k3, k4⟩
              | cons r rest =>
                rw [bottom_cons _ (by simp)]
                exact ih ms hr.tail (by simp) hsl.2
        obtain ⟨pre, suf, e, k3, k4⟩ := hbs rows1 ms g1 hne hsr
        rw [g2, h3] at e
        rw [e] at hx
        rcases List.mem_append.1 hx with hx | hx
        · rcases List.eq_nil_or_concat pre with rfl | ⟨p, z, rfl⟩
          · simp at hx
          · rw [List.concat_eq_append] at hx e k4
            have hz := k4 z (by simp)
            have hle : le x.2 z.2 := by
              rcases List.mem_append.1 hx with hx | hx
              · have hb : RowOk le s.elems := by rw [← h3]; exact bottom_rowOk h1
                rw [e] at hb
                have := (List.pairwise_append.1 (List.pairwise_append.1 hb.1).1).2.2 x hx z (by simp)
                exact this
              · rw [List.mem_singleton.1 hx]; rcases hc.total z.2 z.2 with h | h <;> exact h
            have hdz : le d z.2 := hc.trans _ _ _ hx2 hle
            have hzd : le z.2 d := by
              by_contra hcn
              have := (hc.lt_iff d z.2).2 hcn
              omega
            have := hso.eq _ _ hdz hzd
            omega
        · have := k3 x hx; omega

theorem SL.remove_elems (id : Nat) (s : SL α) : (s.remove id).elems = s.elems.filter fun n => n.1 ≠ id := by
  unfold SL.remove SL.elems
  simp only
  generalize s.rows = rows
  induction rows with
  | nil => simp
  | cons row rest ih =>
    rw [List.map_cons, List.dropWhile_cons]
    cases rest with
    | nil =>
      by_cases h : (row.filter fun n => decide (n.1 ≠ id)).isEmpty = true
      · rw [if_pos h]
        rw [List.isEmpty_iff] at h
        simp only [List.map_nil, List.dropWhile_nil, List.getLast?_nil, Option.getD_none, List.getLast?_singleton, Option.getD_some]
        exact h.symm
      · rw [if_neg h]; simp
    | cons r rest =>
      rw [List.getLast?_cons_cons]
      by_cases h : (row.filter fun n => decide (n.1 ≠ id)).isEmpty = true
      · rw [if_pos h]; exact ih
      · rw [if_neg h, List.map_cons, List.getLast?_cons_cons, ← List.map_cons, List.getLast?_map]
        cases (r :: rest).getLast? <;> simp

theorem rowsOk_filter {le : α → α → Prop} (p : Node α → Bool) {rows : List (List (Node α))} (h : RowsOk le rows) :
    RowsOk le (rows.map fun row => row.filter p) := by
  induction rows with
  | nil => trivial
  | cons row rest ih =>
    cases rest with
    | nil => exact RowOk.sublist (le := le) h List.filter_sublist
    | cons r rest => exact ⟨h.1.filter _, ih h.2⟩

theorem rowsOk_dropWhile {le : α → α → Prop} (p : List (Node α) → Bool) {rows : List (List (Node α))}
    (h : RowsOk le rows) : RowsOk le (rows.dropWhile p) := by
  induction rows with
  | nil => trivial
  | cons row rest ih =>
    rw [List.dropWhile_cons]
    split
    · exact ih h.tail
    · exact h

/-- Removal from one list. -/
theorem SL.remove_ok {le : α → α → Prop} {s : SL α} (hs : s.Ok le) {id : Nat} (hid : id ∈ s.elems.map (·.1)) :
    (s.remove id).Ok le := by
  refine ⟨rowsOk_dropWhile _ (rowsOk_filter _ hs.rows), ?_⟩
  rw [SL.remove_elems]
  show s.size - 1 = _
  rw [hs.size]
  have hn : (s.elems.map (·.1)).Nodup := (bottom_rowOk hs.rows).2
  generalize s.elems = l at hid hn
  induction l with
  | nil => simp at hid
  | cons x l ih =>
    rw [List.map_cons, List.nodup_cons] at hn
    rw [List.filter_cons]
    by_cases hx : x.1 = id
    · rw [if_neg (by simp [hx])]
      rw [List.filter_eq_self.2]
      · simp
      · intro y hy
        simp only [decide_eq_true_eq]
        intro e
        exact hn.1 (by rw [hx, ← e]; exact List.mem_map_of_mem hy)
    · rw [if_pos (by simp [hx])]
      have hid' : id ∈ l.map (·.1) := by
        rcases List.mem_cons.1 hid with h | h
        · exact absurd h.symm hx
        · exact h
      have hpos : 0 < l.length := List.length_pos_of_mem (List.mem_map.1 hid').choose_spec.1
      have := ih hid' hn.2
      simp only [List.length_cons] at this ⊢
      omega


/-! ### Searching for a key -/

/-- The position of a key: it cuts the order into smaller, matching and greater
elements. -/
structure KeyCut (cmp : α → Int) (le : α → α → Prop) : Prop where
  lt : ∀ a b, le a b → cmp a < 0 → cmp b < 0
  gt : ∀ a b, le a b → 0 < cmp b → 0 < cmp a

theorem KeyCut.cut {cmp : α → Int} {le : α → α → Prop} (h : KeyCut cmp le) : Cut cmp le :=
  ⟨h.lt, fun a b hab hb => by have := h.gt a b hab hb; omega⟩

theorem slots_bottom {cmp : α → Int} {le : α → α → Prop} (rows : List (List (Node α))) :
    ∀ ms, RowsOk le rows → rows ≠ [] → SlotsOk cmp rows ms →
      ∃ pre suf m, bottom rows = pre ++ suf ∧ ms.getLast? = some m ∧ LastIs m pre ∧
        (∀ x ∈ suf, cmp x.2 < 0) ∧ (∀ x, pre.getLast? = some x → 0 < cmp x.2) := by
  induction rows with
  | nil => intro _ _ h; exact absurd rfl h
  | cons row rest ih =>
    intro ms hr _ hsl
    cases ms with
    | nil => exact absurd hsl (by simp [SlotsOk])
    | cons m ms =>
      cases rest with
      | nil =>
        cases ms with
        | cons a b => exact absurd hsl.2 (by simp [SlotsOk])
        | nil =>
          obtain ⟨⟨pre, suf, e, k1, _, k3, k4⟩, _⟩ := hsl
          exact ⟨pre, suf, m, by simpa [bottom] using e, rfl, k1, k3, k4⟩
      | cons r rest =>
        rw [bottom_cons _ (by simp)]
        cases ms with
        | nil => exact absurd hsl.2 (by simp [SlotsOk])
        | cons m2 ms2 =>
          rw [List.getLast?_cons_cons]
          exact ih (m2 :: ms2) hr.tail (by simp) hsl.2

theorem keyCut_split {cmp : α → Int} {le : α → α → Prop} (refl : ∀ a, le a a) (hk : KeyCut cmp le)
    {pre suf : List (Node α)} (hr : RowOk le (pre ++ suf)) (hl : ∀ x, pre.getLast? = some x → 0 < cmp x.2) :
    ∀ x ∈ pre, 0 < cmp x.2 := by
  intro x hx
  rcases List.eq_nil_or_concat pre with rfl | ⟨p, z, rfl⟩
  · simp at hx
  · rw [List.concat_eq_append] at hx hr hl
    have hz := hl z (by simp)
    rcases List.mem_append.1 hx with hx | hx
    · exact hk.gt _ _ ((List.pairwise_append.1 (List.pairwise_append.1 hr.1).1).2.2 x hx z (by simp)) hz
    · rw [List.mem_singleton.1 hx]; exact hz

/-- A search for a key finds a matching element if there is one. -/
theorem SL.find_spec {c : Cmp α κ} {le : α → α → Prop} (refl : ∀ a, le a a) {k : κ} (hk : KeyCut (c.comparek k) le)
    {s : SL α} (hs : s.Ok le) :
    match s.find c k with
    | some n => n ∈ s.elems ∧ c.comparek k n.2 = 0
    | none => ∀ x ∈ s.elems, c.comparek k x.2 ≠ 0 := by
  unfold SL.find
  have hsr := search_head hk.cut hs.rows
  cases hse : search (c.comparek k) none s.rows with
  | inl n => rw [hse] at hsr; exact hsr
  | inr ms =>
    rw [hse] at hsr
    simp only at hsr ⊢
    intro x hx hx0
    by_cases hne : s.rows = []
    · rw [SL.elems_eq, hne] at hx; simp [bottom] at hx
    · obtain ⟨pre, suf, m, e, _, _, k3, k4⟩ := slots_bottom s.rows ms hs.rows hne hsr
      have hr := bottom_rowOk hs.rows
      rw [SL.elems_eq, e] at hx
      rw [e] at hr
      rcases List.mem_append.1 hx with hx | hx
      · have := keyCut_split refl hk hr k4 x hx; omega
      · have := k3 x hx; omega

theorem takeWhile_ne {l a b : List (Node α)} {n : Node α} (e : l = a ++ n :: b) (hn : (l.map (·.1)).Nodup) :
    (l.takeWhile fun x => x.1 ≠ n.1) = a ∧ after (some n.1) l = b := by
  subst e
  have hx : ∀ y ∈ a, y.1 ≠ n.1 := by
    intro y hy e
    rw [List.map_append, List.nodup_append] at hn
    exact hn.2.2 y.1 (List.mem_map_of_mem hy) n.1 (by simp) e
  constructor
  · rw [List.takeWhile_append_of_pos (by simpa using hx)]
    simp
  · unfold after
    simp only
    rw [List.dropWhile_append_of_pos (by simpa using hx)]
    simp

/-- The neighbours of a key: around the matching node, or around its place. -/
theorem SL.neighbors_spec {c : Cmp α κ} {le : α → α → Prop} (refl : ∀ a, le a a) {k : κ}
    (hk : KeyCut (c.comparek k) le) {s : SL α} (hs : s.Ok le) :
    (∃ a n b, s.elems = a ++ n :: b ∧ c.comparek k n.2 = 0 ∧ s.neighbors c k = (a.getLast?, b.head?)) ∨
    (∃ a b, s.elems = a ++ b ∧ (∀ x ∈ a, 0 < c.comparek k x.2) ∧ (∀ x ∈ b, c.comparek k x.2 < 0) ∧
      s.neighbors c k = (a.getLast?, b.head?)) := by
  unfold SL.neighbors
  have hsr := search_head hk.cut hs.rows
  have hb := bottom_rowOk hs.rows
  rw [← SL.elems_eq] at hb
  cases hse : search (c.comparek k) none s.rows with
  | inl n =>
    rw [hse] at hsr
    simp only at hsr ⊢
    obtain ⟨a, b, e⟩ := List.append_of_mem hsr.1
    rw [← SL.elems_eq] at e
    have := takeWhile_ne e hb.2
    exact .inl ⟨a, n, b, e, hsr.2, by rw [this.1, this.2]⟩
  | inr ms =>
    rw [hse] at hsr
    simp only at hsr ⊢
    right
    by_cases hne : s.rows = []
    · have he : s.elems = [] := by rw [SL.elems_eq, hne]; rfl
      rw [hne] at hse
      simp only [search, Sum.inr.injEq] at hse
      subst hse
      exact ⟨[], [], he, by simp, by simp, by simp [he]⟩
    · obtain ⟨pre, suf, m, e, hm, hlast, k3, k4⟩ := slots_bottom s.rows ms hs.rows hne hsr
      rw [← SL.elems_eq] at e
      have hb' := hb
      rw [e] at hb'
      refine ⟨pre, suf, e, keyCut_split refl hk hb' k4, k3, ?_⟩
      rw [hm, Option.getD_some]
      unfold LastIs at hlast
      cases hp : pre.getLast? with
      | none =>
        rw [hp] at hlast
        simp only [Option.map_none] at hlast
        subst hlast
        rw [List.getLast?_eq_none_iff] at hp
        subst hp
        simp [e]
      | some z =>
        rw [hp] at hlast
        simp only [Option.map_some] at hlast
        subst hlast
        simp only
        obtain ⟨p, hpz⟩ := List.getLast?_eq_some_iff.1 hp
        have e2 : s.elems = p ++ z :: suf := by rw [e, hpz]; simp
        have := takeWhile_ne e2 hb.2
        rw [this.2]
        congr 1
        rw [e2, List.find?_append]
        have hnone : p.find? (fun x => decide (x.1 = z.1)) = none := by
          rw [List.find?_eq_none]
          intro y hy hyz
          have hn := hb.2
          rw [e2, List.map_append, List.nodup_append] at hn
          exact hn.2.2 y.1 (List.mem_map_of_mem hy) z.1 (by simp) (by simpa using hyz)
        rw [hnone]
        simp

end Mtev.Skiplist
