import Verif.Basic
import Mathlib.Data.List.Induction

/-!
# Reading the configuration: values and sets of values along a tree

`src/mtev_conf.c`: `mtev_conf_get_into_hash`, `mtev_conf_get_elements_into_hash`,
and `_mtev_conf_get_string` for paths `ancestor-or-self::node()/@name`.

A document is the list of its elements in document order; an element knows its
parent.  What libxml2 answers for the paths the code uses is written out:
`ancestor-or-self::node()/name` (the children with that name of an element and its
ancestors), `//*[@id="x"]` and `*`; a set of nodes is in document order.

Simplified: paths are plain names (no longer than the buffers) and ids have no
quotes in them; the text of an element is given as it is after substitution
(modelled in `ConfEnv`); a table is a list of pairs.
-/

namespace Mtev.ConfTree

abbrev Str := List Nat

/-- an element; `ns` is the prefix of its namespace -/
structure El where
  parent : Option Nat
  name : Str
  ns : Option Str := none
  attrs : List (Str × Str) := []
  text : Str := []
deriving DecidableEq, Repr

abbrev Doc := List El

/-- the parent of an element -/
def par (d : Doc) (i : Nat) : Option Nat := (d[i]?).bind (·.parent)

/-- a value of an attribute, `xmlGetProp` -/
def attr (d : Doc) (i : Nat) (a : Str) : Option Str := (d[i]?).bind fun e => e.attrs.lookup a

/-- an element and its ancestors, `ancestor-or-self::node()`, the element first;
`n` is more than there can be -/
def up (d : Doc) : Nat → Nat → List Nat
  | 0, _ => []
  | n + 1, i =>
    i :: match par d i with
      | some p => up d n p
      | none => []

/-- where a search starts: an element, or the document -/
def above (d : Doc) : Option Nat → List Nat
  | some i => up d (i + 1) i
  | none => []

inductive Path where
  /-- `ancestor-or-self::node()/name` -/
  | rel (name : Str)
  /-- `//*[@id="x"]` -/
  | byId (id : Str)
deriving DecidableEq, Repr

/-- does an element belong to what the path selects?  The root element is a child
of the document, which is above everything. -/
def selects (d : Doc) (sec : Option Nat) (path : Path) (j : Nat) : Bool :=
  match d[j]? with
  | none => false
  | some e =>
    match path with
    | .rel name => decide (e.name = name ∧ e.ns = none) &&
        (match e.parent with
          | none => true
          | some p => decide (p ∈ above d sec))
    | .byId id => decide (e.attrs.lookup (bytesOf "id") = some id)

/-- the set of nodes, in document order -/
def nodeset (d : Doc) (sec : Option Nat) (path : Path) : List Nat :=
  (List.range d.length).filter fun j => selects d sec path j

/-- the table that is filled -/
abbrev Table := List (Str × Str)

def Table.get (t : Table) (k : Str) : Option Str := List.lookup k t

/-- `mtev_hash_replace` -/
def Table.put (t : Table) (k v : Str) : Table := (k, v) :: t

/-- the key of an element, `mtev_conf.c:1843-1848` and `1867-1872` -/
def keyOf (e : El) : Str :=
  if e.name = bytesOf "value" then (e.attrs.lookup (bytesOf "name")).getD e.name else e.name

/-- `mtev_conf_get_elements_into_hash` with the path `*`, `mtev_conf.c:1810-1896`:
the elements below `c` in the namespace asked for -/
def elements (d : Doc) (ns : Option Str) (c : Nat) (t : Table) : Table :=
  d.foldl (fun t e => if e.parent = some c ∧ e.ns = ns then t.put (keyOf e) e.text else t) t

/-- the name of an element -/
def nameOf (d : Doc) (i : Nat) : Str := ((d[i]?).map (·.name)).getD []

/-- do something with what there is, or keep the table -/
def given {α : Type} (o : Option α) (t : Table) (g : α → Option Table) : Option Table :=
  match o with
  | some x => g x
  | none => some t

theorem given_some {α : Type} (x : α) (t : Table) (g : α → Option Table) : given (some x) t g = g x := rfl
theorem given_none {α : Type} (t : Table) (g : α → Option Table) : given none t g = some t := rfl

/-- `mtev_conf_get_into_hash`, `mtev_conf.c:1898-1959`; the first argument is how
deep the recursion may go (`none`: deeper) -/
def intoHash (d : Doc) (ns : Option Str) : Nat → Option Nat → Path → Table → Option Table
  | 0, _, _, _ => none
  | f + 1, sec, path, t =>
    match (nodeset d sec path).getLast? with
    | none => some t
    | some node =>
      (given (nodeset d sec path).dropLast.getLast? t fun p =>
        if some p ≠ sec then intoHash d ns f (some p) (.rel (nameOf d node)) t else some t).bind fun t =>
      (given (attr d node (bytesOf "inherit")) t fun id => intoHash d ns f none (.byId id) t).bind fun t =>
      some (elements d ns node t)

/-- `_mtev_conf_get_string` for `ancestor-or-self::node()/@name`,
`mtev_conf.c:2125-2182`: the last of the attributes found, in document order -/
def inherited (d : Doc) (i : Nat) (a : Str) : Option Str :=
  ((List.range d.length).filterMap fun j =>
    if j ∈ above d (some i) then attr d j a else none).getLast?

/-! ### trees -/

/-- parents come first -/
def Tree (d : Doc) : Prop := ∀ i p, par d i = some p → p < i

theorem par_lt {d : Doc} {i p : Nat} (h : par d i = some p) : i < d.length := by
  unfold par at h
  cases hi : d[i]? with
  | none => rw [hi] at h; cases h
  | some e => exact (List.getElem?_eq_some_iff.mp hi).1

theorem up_enough {d : Doc} (ht : Tree d) : ∀ (n m i : Nat), i < n → i < m → up d n i = up d m i
  | 0, _, i, h, _ => by omega
  | _, 0, i, _, h => by omega
  | n + 1, m + 1, i, h1, h2 => by
    unfold up
    cases hp : par d i with
    | none => rfl
    | some p =>
      have := ht i p hp
      simp only
      rw [up_enough ht n m p (by omega) (by omega)]

theorem above_some {d : Doc} (ht : Tree d) (i : Nat) : above d (some i)
    = i :: (match par d i with
      | some p => above d (some p)
      | none => []) := by
  have h0 : above d (some i) = i :: (match par d i with
      | some p => up d i p
      | none => []) := rfl
  rw [h0]
  cases hp : par d i with
  | none => rfl
  | some p =>
    simp only
    rw [up_enough ht i (p + 1) p (ht i p hp) (by omega)]
    rfl

/-- `a` is `i` or an ancestor of it -/
inductive Anc (d : Doc) : Nat → Nat → Prop where
  | refl (i : Nat) : Anc d i i
  | step (i p a : Nat) (h : par d i = some p) (h' : Anc d p a) : Anc d i a

theorem mem_above {d : Doc} (ht : Tree d) : ∀ (i a : Nat), a ∈ above d (some i) ↔ Anc d i a := by
  intro i
  induction i using Nat.strong_induction_on with
  | _ i ih =>
    intro a
    rw [above_some ht]
    cases hp : par d i with
    | none =>
      simp only [List.mem_singleton]
      constructor
      · rintro rfl; exact .refl _
      · intro h
        cases h with
        | refl => rfl
        | step _ p _ h' _ => rw [hp] at h'; cases h'
    | some p =>
      simp only [List.mem_cons]
      rw [ih p (ht i p hp)]
      constructor
      · rintro (rfl | h)
        · exact .refl _
        · exact .step _ _ _ hp h
      · intro h
        cases h with
        | refl => exact Or.inl rfl
        | step _ p' _ h' h'' => rw [hp] at h'; cases h'; exact Or.inr h''

theorem Anc.trans {d : Doc} {a b c : Nat} (h : Anc d a b) (h' : Anc d b c) : Anc d a c := by
  induction h with
  | refl => exact h'
  | step i p a hp _ ih => exact .step _ _ _ hp (ih h')

theorem Anc.le {d : Doc} (ht : Tree d) {a b : Nat} (h : Anc d a b) : b ≤ a := by
  induction h with
  | refl => exact Nat.le_refl _
  | step i p a hp _ ih => have := ht i p hp; omega

/-- two ancestors are in line -/
theorem Anc.line {d : Doc} {i a b : Nat} (ha : Anc d i a) (hb : Anc d i b) : Anc d a b ∨ Anc d b a := by
  induction ha with
  | refl => exact Or.inl hb
  | step i p a hp ha ih =>
    cases hb with
    | refl => exact Or.inr (.step _ _ _ hp ha)
    | step _ p' _ hp' hb' => rw [hp] at hp'; cases hp'; exact ih hb'

/-! ### tables -/

theorem get_put (t : Table) (k k' v : Str) :
    (t.put k v).get k' = if k' = k then some v else t.get k' := by
  unfold Table.put Table.get
  rw [List.lookup_cons]
  by_cases h : k' = k
  · subst h; simp
  · have : (k' == k) = false := by simpa using h
    rw [this, if_neg h]

/-- the value of a key directly below `c`: that of the last element with the key -/
def own (d : Doc) (ns : Option Str) (c : Nat) (k : Str) : Option Str :=
  (d.filter fun e => decide (e.parent = some c ∧ e.ns = ns ∧ keyOf e = k)).getLast?.map (·.text)

theorem elements_get (d : Doc) (ns : Option Str) (c : Nat) (t : Table) (k : Str) :
    (elements d ns c t).get k = (own d ns c k).or (t.get k) := by
  unfold elements own
  induction d using List.reverseRecOn generalizing t with
  | nil => simp
  | append_singleton l e ih =>
    rw [List.foldl_append, List.filter_append]
    simp only [List.foldl_cons, List.foldl_nil]
    by_cases h1 : e.parent = some c ∧ e.ns = ns
    · rw [if_pos h1, get_put]
      by_cases h2 : k = keyOf e
      · rw [if_pos h2]
        have : List.filter (fun e => decide (e.parent = some c ∧ e.ns = ns ∧ keyOf e = k)) [e] = [e] := by
          simp [h1, h2]
        rw [this, List.getLast?_concat]
        rfl
      · rw [if_neg h2]
        have : List.filter (fun e => decide (e.parent = some c ∧ e.ns = ns ∧ keyOf e = k)) [e] = [] := by
          simp [Ne.symm h2]
        rw [this, List.append_nil]
        exact ih t
    · rw [if_neg h1]
      have : List.filter (fun e => decide (e.parent = some c ∧ e.ns = ns ∧ keyOf e = k)) [e] = [] := by
        rw [List.filter_cons_of_neg, List.filter_nil]
        simp only [decide_eq_true_eq]
        exact fun h => h1 ⟨h.1, h.2.1⟩
      rw [this, List.append_nil]
      exact ih t

end Mtev.ConfTree
