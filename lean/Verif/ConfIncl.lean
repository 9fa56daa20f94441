import Verif.Mem
import Mathlib.Data.List.Nodup

/-!
# Included files: taking the document apart for writing, and putting it together again

`src/mtev_conf.c:884-956` (`mtev_conf_kansas_city_shuffle_redo`, `…_undo`), `968-998`
(`remove_emancipated_child_node`, `mtev_conf_include_remove`) and libxml2's `xmlUnlinkNode`, for one
`<include>` element whose `file` matches any number of files (a pattern).

Nodes are numbers; the pointers of a node are maps.  `kids` and `last` are those of the `<include>` element,
`rootKids i` is the first child of the root element of file `i`, `own n` is the file recorded in `_private`.
Loops have a limit on the turns: `none` if it is reached.

Simplified: no snippets; files included from included ones are other elements and are handled by the same code on
other nodes.
-/

namespace Mtev.ConfIncl

/-- what a node's `parent` points to -/
inductive Par where
  /-- the `<include>` element -/
  | incl
  /-- the root element of file `i` -/
  | root (i : Nat)
  | nothing
deriving DecidableEq, Repr

structure Heap where
  next : Nat → Option Nat
  prev : Nat → Option Nat
  parent : Nat → Par
  own : Nat → Option Nat
  kids : Option Nat
  last : Option Nat
  rootKids : Nat → Option Nat

def put {α : Type} (f : Nat → α) (i : Nat) (v : α) : Nat → α := fun j => if j = i then v else f j

theorem put_same {α : Type} (f : Nat → α) (i : Nat) (v : α) : put f i v i = v := by simp [put]
theorem put_other {α : Type} (f : Nat → α) (i j : Nat) (v : α) (h : j ≠ i) : put f i v j = f j := by simp [put, h]

/-- `if(p) p->field = v` -/
def putAt {α : Type} (f : Nat → α) (p : Option Nat) (v : α) : Nat → α :=
  match p with
  | some i => put f i v
  | none => f

/-- the first loop of undo, `mtev_conf.c:925-934`: whose node is it?  One that is nobody's belongs with the one before;
a first one that is nobody's stops the program (`assert(udata)`) -/
def adopt : Nat → Heap → Option Nat → Option Nat → Option (Out Heap)
  | _, h, _, none => some (.ok h)
  | 0, _, _, some _ => none
  | f + 1, h, prev, some n =>
    match (h.own n).or (prev.bind h.own) with
    | none => some .abort
    | some i => adopt f { h with own := put h.own n (some i), parent := put h.parent n (.root i) } (some n) (h.next n)

/-- one turn of the second loop, `mtev_conf.c:939-947` -/
def part (h : Heap) (prev : Option Nat) (n : Nat) : Heap :=
  match prev with
  | some p => if h.own p ≠ h.own n then { h with prev := put h.prev n none, next := put h.next p none } else h
  | none => h

/-- the second loop, `mtev_conf.c:936-949`: cut between nodes of different files -/
def split : Nat → Heap → Option Nat → Option Nat → Option Heap
  | _, h, _, none => some h
  | 0, _, _, some _ => none
  | f + 1, h, prev, some n => split f (part h prev n) (some n) ((part h prev n).next n)

/-- undo for one of the files, `mtev_conf.c:923-952`; `old` is what was below the element in the main file -/
def undoOne (f : Nat) (old : Option Nat) (i : Nat) (h : Heap) : Option (Out Heap) :=
  match adopt f h none h.kids with
  | some (.ok h) =>
    match split f h none h.kids with
    | some h => some (.ok (if i = 0 then { h with kids := old } else h))
    | none => none
  | r => r

/-- `mtev_conf_kansas_city_shuffle_undo`, `mtev_conf.c:917-956`: files `i`, `i+1`, …, `n` of them -/
def undo (f : Nat) (old : Option Nat) : Nat → Nat → Heap → Option (Out Heap)
  | _, 0, h => some (.ok h)
  | i, n + 1, h =>
    match undoOne f old i h with
    | some (.ok h) => undo f old (i + 1) n h
    | r => r

/-- the last node of a list, `mtev_conf.c:902` -/
def endOf : Nat → Heap → Nat → Option Nat
  | 0, _, _ => none
  | f + 1, h, n =>
    match h.next n with
    | none => some n
    | some m => endOf f h m

/-- the loop `mtev_conf.c:907-911` -/
def claim : Nat → Heap → Option Nat → Option Heap
  | _, h, none => some h
  | 0, _, some _ => none
  | f + 1, h, some n => claim f { h with parent := put h.parent n .incl, last := some n } (h.next n)

/-- attaching the nodes of file `i`, `mtev_conf.c:893-905`; `ub` where a null pointer is followed -/
def attach (f : Nat) (i : Nat) (h : Heap) : Option (Out Heap) :=
  match h.kids with
  | none => some (.ok { h with kids := h.rootKids i })
  | some k =>
    if i = 0 then some (.ok { h with kids := h.rootKids i })
    else
      match endOf f h k with
      | none => none
      | some n =>
        match h.rootKids i with
        | none => some .ub
        | some m => some (.ok { h with prev := put h.prev m (h.next n), next := put h.next n (some m) })

/-- `mtev_conf_kansas_city_shuffle_redo`, `mtev_conf.c:884-915` -/
def redo (f : Nat) : Nat → Nat → Heap → Option (Out Heap)
  | _, 0, h => some (.ok h)
  | i, n + 1, h =>
    match attach f i h with
    | some (.ok h) =>
      match claim f h h.kids with
      | some h => redo f (i + 1) n h
      | none => none
    | r => r

/-- the loop `mtev_conf.c:1488-1493` -/
def own : Nat → Nat → Heap → Option Nat → Option Heap
  | _, _, h, none => some h
  | 0, _, _, some _ => none
  | f + 1, i, h, some n => own f i { h with parent := put h.parent n .incl, own := put h.own n (some i) } (h.next n)

/-- what `mtev_conf_magic_mix` does with the nodes of file `i` at loading, `mtev_conf.c:1484-1499` -/
def mixOne (f : Nat) (i : Nat) (h : Heap) : Option Heap :=
  match own f i { h with kids := if i = 0 then none else h.kids } (h.rootKids i) with
  | none => none
  | some h =>
    match h.kids with
    | none => some { h with kids := h.rootKids i }
    | some k =>
      match endOf f h k with
      | none => none
      | some n => some { h with next := put h.next n (h.rootKids i) }

/-- the loop over the files that match, `mtev_conf.c:1452-1506` -/
def load (f : Nat) : Nat → Nat → Heap → Option Heap
  | _, 0, h => some h
  | i, n + 1, h =>
    match mixOne f i h with
    | some h => load f (i + 1) n h
    | none => none

/-- libxml2's `xmlAddChild` of a new node to the `<include>` element -/
def append (node : Nat) (h : Heap) : Out Heap :=
  match h.kids with
  | none => .ok { h with kids := some node, last := some node, parent := put h.parent node .incl }
  | some _ =>
    match h.last with
    | none => .ub
    | some p => .ok { h with next := put h.next p (some node), prev := put h.prev node (some p), last := some node
                             parent := put h.parent node .incl }

/-- the node before `node`, or the last one, `mtev_conf.c:981` -/
def before : Nat → Heap → Nat → Nat → Option Nat
  | 0, _, _, _ => none
  | f + 1, h, p, node =>
    match h.next p with
    | none => some p
    | some m => if m = node then some p else before f h m node

/-- `remove_emancipated_child_node` for the root of file `i`, `mtev_conf.c:968-985` -/
def emancipate (f : Nat) (i : Nat) (node : Nat) (h : Heap) : Option Heap :=
  match h.rootKids i with
  | none => some h
  | some k =>
    if k = node then
      some { h with
        rootKids := put h.rootKids i (h.next node)
        prev := putAt h.prev (h.next node) (h.prev node) }
    else
      match before f h k node with
      | none => none
      | some p =>
        some { h with
          next := put h.next p (h.next node)
          prev := putAt h.prev (h.next node) (some p) }

/-- `mtev_conf_include_remove`, `mtev_conf.c:987-998`, over the files of the element -/
def includeRemove (f : Nat) (node : Nat) : Nat → Nat → Heap → Option Heap
  | _, 0, h => some h
  | i, n + 1, h =>
    if h.parent node = .incl then
      match emancipate f i node h with
      | some h => includeRemove f node (i + 1) n h
      | none => none
    else includeRemove f node (i + 1) n h

/-- libxml2's `xmlUnlinkNode` for a child of the `<include>` element -/
def unlink (node : Nat) (h : Heap) : Heap :=
  { h with
    kids := if h.kids = some node then h.next node else h.kids
    last := if h.last = some node then h.prev node else h.last
    prev := put (putAt h.prev (h.next node) (h.prev node)) node none
    next := put (putAt h.next (h.prev node) (h.next node)) node none
    parent := put h.parent node .nothing }

/-- removing an element as the console does: `CONF_REMOVE` and `xmlUnlinkNode`, `mtev_conf.h:350-353`,
`mtev_conf.c:3289-3295` -/
def remove (f : Nat) (files : Nat) (node : Nat) (h : Heap) : Option Heap :=
  (includeRemove f node 0 files h).map (unlink node)

/-- writing takes apart, writes and puts together, `mtev_conf.c:2645-2719` (the writing itself is `ConfFile`) -/
def write (f : Nat) (old : Option Nat) (files : Nat) (h : Heap) : Option (Out Heap) :=
  match undo f old 0 files h with
  | some (.ok h) => redo f 0 files h
  | r => r

/-! ### lists in the heap -/

/-- the pointer leads through these nodes to the end -/
def Chain (next : Nat → Option Nat) : Option Nat → List Nat → Prop
  | p, [] => p = none
  | p, a :: l => p = some a ∧ Chain next (next a) l

theorem Chain.congr {nx nx' : Nat → Option Nat} : ∀ (l : List Nat) {p : Option Nat}, Chain nx p l →
    (∀ n ∈ l, nx' n = nx n) → Chain nx' p l
  | [], _, h, _ => h
  | a :: l, _, h, he => ⟨h.1, by
      rw [he a (by simp)]
      exact Chain.congr l h.2 fun n hn => he n (by simp [hn])⟩

theorem Chain.head {nx : Nat → Option Nat} : ∀ (l : List Nat) {p : Option Nat}, Chain nx p l → p = l.head?
  | [], _, h => h
  | _ :: _, _, h => h.1

theorem Chain.append {nx : Nat → Option Nat} : ∀ (a b : List Nat) {p : Option Nat}, a ≠ [] →
    Chain nx p (a ++ b) → Chain nx (b.head?) b
  | [], _, _, h, _ => absurd rfl h
  | [x], b, _, _, h => by
    have := h.2
    have e := Chain.head b this
    rw [← e]; exact this
  | x :: y :: a, b, _, _, h => Chain.append (y :: a) b (by simp) h.2

/-- joining two lists -/
theorem Chain.join {nx : Nat → Option Nat} : ∀ (a : List Nat) (z : Nat) (b : List Nat) {p : Option Nat},
    Chain nx p (a ++ [z]) → Chain nx b.head? b → z ∉ b → (∀ x ∈ a, x ≠ z) →
    Chain (put nx z b.head?) p (a ++ [z] ++ b)
  | [], z, b, p, h, hb, hz, _ => by
    refine ⟨h.1, ?_⟩
    rw [put_same]
    exact Chain.congr b hb fun n hn => put_other _ _ _ _ (by rintro rfl; exact hz hn)
  | y :: a, z, b, p, h, hb, hz, ha => by
    refine ⟨h.1, ?_⟩
    rw [put_other _ _ _ _ (ha y (by simp))]
    exact Chain.join a z b h.2 hb hz fun x hx => ha x (by simp [hx])

/-- cutting a list in two -/
theorem Chain.cut {nx : Nat → Option Nat} : ∀ (a : List Nat) (z : Nat) (b : List Nat) {p : Option Nat},
    Chain nx p (a ++ z :: b) → z ∉ b → (∀ x ∈ a, x ≠ z) →
    Chain (put nx z none) p (a ++ [z]) ∧ Chain (put nx z none) b.head? b
  | [], z, b, p, h, hz, _ => by
    have e := Chain.head b h.2
    refine ⟨⟨h.1, put_same _ _ _⟩, ?_⟩
    rw [← e]
    exact Chain.congr b h.2 fun n hn => put_other _ _ _ _ (by rintro rfl; exact hz hn)
  | y :: a, z, b, p, h, hz, ha => by
    have := Chain.cut a z b h.2 hz fun x hx => ha x (by simp [hx])
    refine ⟨⟨h.1, ?_⟩, this.2⟩
    rw [put_other _ _ _ _ (ha y (by simp))]
    exact this.1


/-! ### the loops -/

/-- a value for all nodes of a list -/
def setAll {α : Type} (f : Nat → α) (l : List Nat) (v : Nat → α) : Nat → α := fun n => if n ∈ l then v n else f n

theorem setAll_nil {α : Type} (f : Nat → α) (v : Nat → α) : setAll f [] v = f := by
  funext n; simp [setAll]

theorem setAll_put {α : Type} (f : Nat → α) (a : Nat) (l : List Nat) (v : Nat → α) :
    setAll (put f a (v a)) l v = setAll f (a :: l) v := by
  funext n
  simp only [setAll, put, List.mem_cons]
  by_cases h1 : n ∈ l
  · simp [h1]
  · by_cases h2 : n = a
    · simp [h1, h2]
    · simp [h1, h2]

theorem claim_spec : ∀ (l : List Nat) (f : Nat) (h : Heap) (p : Option Nat), Chain h.next p l → l.length ≤ f →
    claim f h p = some { h with parent := setAll h.parent l (fun _ => .incl), last := l.getLast?.or h.last }
  | [], f, h, p, hc, _ => by
    have hc : p = none := hc
    subst hc
    cases f <;> simp [claim, setAll_nil]
  | a :: l, 0, _, _, _, hf => by simp at hf
  | a :: l, f + 1, h, p, hc, hf => by
    obtain ⟨rfl, hc⟩ := hc
    rw [claim, claim_spec l f { h with parent := put h.parent a .incl, last := some a } _ hc (by simpa using hf)]
    simp only [Option.some.injEq, Heap.mk.injEq, true_and, and_true]
    refine ⟨setAll_put h.parent a l (fun _ => .incl), ?_⟩
    rw [List.getLast?_cons]
    cases l.getLast? <;> simp

theorem own_spec : ∀ (l : List Nat) (f : Nat) (i : Nat) (h : Heap) (p : Option Nat), Chain h.next p l → l.length ≤ f →
    own f i h p = some { h with parent := setAll h.parent l (fun _ => .incl), own := setAll h.own l (fun _ => some i) }
  | [], f, i, h, p, hc, _ => by
    have hc : p = none := hc
    subst hc
    cases f <;> simp [own, setAll_nil]
  | a :: l, 0, _, _, _, _, hf => by simp at hf
  | a :: l, f + 1, i, h, p, hc, hf => by
    obtain ⟨rfl, hc⟩ := hc
    rw [own, own_spec l f i { h with parent := put h.parent a .incl, own := put h.own a (some i) } _ hc (by simpa using hf)]
    simp only [Option.some.injEq, Heap.mk.injEq, true_and, and_true]
    exact ⟨setAll_put h.parent a l (fun _ => .incl), setAll_put h.own a l (fun _ => some i)⟩

theorem endOf_spec : ∀ (l : List Nat) (z : Nat) (f : Nat) (h : Heap) (k : Nat), Chain h.next (some k) (l ++ [z]) →
    l.length < f → endOf f h k = some z
  | _, _, 0, _, _, _, hf => by simp at hf
  | [], z, f + 1, h, k, hc, _ => by
    obtain ⟨h1, h2⟩ := hc
    have h2 : h.next z = none := h2
    cases h1
    simp [endOf, h2]
  | a :: l, z, f + 1, h, k, hc, hf => by
    obtain ⟨h1, h2⟩ := hc
    obtain rfl : k = a := Option.some.inj h1
    change Chain h.next (h.next k) (l ++ [z]) at h2
    have e := Chain.head _ h2
    cases hh : (l ++ [z]) with
    | nil => simp at hh
    | cons m t =>
      have e : h.next k = some m := by rw [e, hh]; rfl
      rw [endOf, e]
      simp only
      exact endOf_spec l z f h m (by rw [← e]; exact h2) (by simpa using hf)

/-- whose each node of a list turns out to be -/
def Adopts (ow : Nat → Option Nat) (g : Nat → Nat) : Option Nat → List Nat → Prop
  | _, [] => True
  | p, n :: l => (ow n = some (g n) ∨ (ow n = none ∧ ∃ q, p = some q ∧ g q = g n)) ∧ Adopts ow g (some n) l

theorem Adopts.congr {ow ow' : Nat → Option Nat} {g : Nat → Nat} : ∀ (l : List Nat) {p : Option Nat},
    Adopts ow g p l → (∀ n ∈ l, ow' n = ow n) → Adopts ow' g p l
  | [], _, _, _ => trivial
  | a :: l, _, h, he => ⟨by rw [he a (by simp)]; exact h.1, Adopts.congr l h.2 fun n hn => he n (by simp [hn])⟩

theorem adopt_spec (g : Nat → Nat) : ∀ (l : List Nat) (f : Nat) (h : Heap) (prev p : Option Nat), Chain h.next p l →
    l.length ≤ f → l.Nodup → Adopts h.own g prev l → (∀ q, prev = some q → h.own q = some (g q)) →
    adopt f h prev p = some (.ok { h with
      own := setAll h.own l (fun n => some (g n)), parent := setAll h.parent l (fun n => .root (g n)) })
  | [], f, h, prev, p, hc, _, _, _, _ => by
    have hc : p = none := hc
    subst hc
    cases f <;> simp [adopt, setAll_nil]
  | a :: l, 0, _, _, _, _, hf, _, _, _ => by simp at hf
  | a :: l, f + 1, h, prev, p, hc, hf, hn, ha, hp => by
    obtain ⟨rfl, hc⟩ := hc
    have e : (h.own a).or (prev.bind h.own) = some (g a) := by
      rcases ha.1 with h1 | ⟨h1, q, rfl, h2⟩
      · simp [h1]
      · simp [h1, hp q rfl, h2]
    rw [adopt, e]
    simp only
    rw [List.nodup_cons] at hn
    rw [adopt_spec g l f { h with own := put h.own a (some (g a)), parent := put h.parent a (.root (g a)) } (some a) _ hc (by simpa using hf) hn.2
      (Adopts.congr l ha.2 fun n hm => put_other _ _ _ _ (by rintro rfl; exact hn.1 hm))
      (by intro q hq; cases hq; exact put_same _ _ _)]
    simp only [Option.some.injEq, Out.ok.injEq, Heap.mk.injEq, true_and, and_true]
    exact ⟨setAll_put h.parent a l (fun n => .root (g n)), setAll_put h.own a l (fun n => some (g n))⟩

/-- the pointer of a node after cutting -/
def cutAt (nx : Nat → Option Nat) (g : Nat → Nat) (n : Nat) : Option Nat :=
  match nx n with
  | some m => if g n ≠ g m then none else some m
  | none => none

theorem split_spec (g : Nat → Nat) : ∀ (l : List Nat) (f : Nat) (h : Heap) (prev p : Option Nat), Chain h.next p l →
    l.length ≤ f → l.Nodup → (∀ n ∈ l, h.own n = some (g n)) →
    (∀ q, prev = some q → h.own q = some (g q) ∧ h.next q = p ∧ q ∉ l) →
    ∃ nx pv, split f h prev p = some { h with next := nx, prev := pv } ∧
      (∀ n, n ∈ l ∨ prev = some n → nx n = cutAt h.next g n) ∧ ∀ n, n ∉ l → prev ≠ some n → nx n = h.next n
  | [], f, h, prev, p, hc, _, _, _, hp => by
    have hc : p = none := hc
    subst hc
    refine ⟨h.next, h.prev, by cases f <;> simp [split], ?_, fun _ _ _ => rfl⟩
    intro n hn
    rcases hn with hn | hn
    · cases hn
    · simp [cutAt, (hp n hn).2.1]
  | a :: l, 0, _, _, _, _, hf, _, _, _ => by simp at hf
  | a :: l, f + 1, h, prev, p, hc, hf, hn, ho, hp => by
    obtain ⟨rfl, hc⟩ := hc
    have hn' := hn
    rw [List.nodup_cons] at hn
    have hlen : l.length ≤ f := by simpa using hf
    have hao : h.own a = some (g a) := ho a (by simp)
    rw [split]
    cases prev with
    | none =>
      simp only [part]
      obtain ⟨nx, pv, e, h1, h2⟩ := split_spec g l f h (some a) _ hc hlen hn.2 (fun n hm => ho n (by simp [hm]))
        (by intro q hq; cases hq; exact ⟨hao, rfl, hn.1⟩)
      refine ⟨nx, pv, e, ?_, ?_⟩
      · intro n hm
        rcases hm with hm | hm
        · apply h1
          rcases List.mem_cons.1 hm with rfl | hm
          · exact Or.inr rfl
          · exact Or.inl hm
        · cases hm
      · intro n hm _
        simp only [List.mem_cons, not_or] at hm
        exact h2 n hm.2 (by simpa using Ne.symm hm.1)
    | some q =>
      obtain ⟨hq1, hq2, hq3⟩ := hp q rfl
      simp only [List.mem_cons, not_or] at hq3
      simp only [part]
      by_cases hd : h.own q ≠ h.own a
      · rw [if_pos hd]
        have hg : g q ≠ g a := by
          intro hg; apply hd; rw [hq1, hao, hg]
        have hnx : ∀ n ∈ l, put h.next q none n = h.next n := fun n hm =>
          put_other _ _ _ _ (by rintro rfl; exact hq3.2 hm)
        have ha' : put h.next q none a = h.next a := put_other _ _ _ _ (Ne.symm hq3.1)
        obtain ⟨nx, pv, e, h1, h2⟩ := split_spec g l f { h with prev := put h.prev a none, next := put h.next q none }
          (some a) (put h.next q none a) (by rw [ha']; exact Chain.congr l hc hnx) hlen hn.2
          (fun n hm => ho n (by simp [hm])) (by intro x hx; cases hx; exact ⟨hao, rfl, hn.1⟩)
        refine ⟨nx, pv, e, ?_, ?_⟩
        · intro n hm
          have hcase : n = q ∨ (n ≠ q ∧ (n ∈ l ∨ some a = some n)) := by
            rcases hm with hm | hm
            · rcases List.mem_cons.1 hm with rfl | hm
              · exact Or.inr ⟨Ne.symm hq3.1, Or.inr rfl⟩
              · exact Or.inr ⟨by rintro rfl; exact hq3.2 hm, Or.inl hm⟩
            · cases hm; exact Or.inl rfl
          rcases hcase with rfl | ⟨hnq, hm⟩
          · rw [h2 n hq3.2 (by simpa using Ne.symm hq3.1)]
            simp [put_same, cutAt, hq2, hg]
          · rw [h1 n hm]
            simp only [cutAt, put_other _ _ _ _ hnq]
        · intro n hm hm'
          simp only [List.mem_cons, not_or] at hm
          rw [h2 n hm.2 (by simpa using Ne.symm hm.1)]
          exact put_other _ _ _ _ (by rintro rfl; exact hm' rfl)
      · rw [if_neg hd]
        have hg : g q = g a := by
          have : h.own q = h.own a := not_not.1 hd
          rw [hq1, hao] at this
          exact Option.some.inj this
        obtain ⟨nx, pv, e, h1, h2⟩ := split_spec g l f h (some a) _ hc hlen hn.2 (fun n hm => ho n (by simp [hm]))
          (by intro q hq; cases hq; exact ⟨hao, rfl, hn.1⟩)
        refine ⟨nx, pv, e, ?_, ?_⟩
        · intro n hm
          rcases hm with hm | hm
          · apply h1
            rcases List.mem_cons.1 hm with rfl | hm
            · exact Or.inr rfl
            · exact Or.inl hm
          · cases hm
            rw [h2 q hq3.2 (by simpa using Ne.symm hq3.1)]
            simp [cutAt, hq2, hg]
        · intro n hm hm'
          simp only [List.mem_cons, not_or] at hm
          exact h2 n hm.2 (by simpa using Ne.symm hm.1)

/-- each file's nodes form a list of their own after the cuts -/
theorem Chain.cut_seg {nx nx' : Nat → Option Nat} {g : Nat → Nat} {i : Nat} : ∀ (s b : List Nat) {p : Option Nat},
    Chain nx p (s ++ b) → (∀ n ∈ s, g n = i) → (∀ n ∈ b, g n ≠ i) → (∀ n ∈ s, nx' n = cutAt nx g n) →
    Chain nx' s.head? s
  | [], _, _, _, _, _, _ => rfl
  | [a], b, p, hc, hs, hb, hx => by
    refine ⟨rfl, ?_⟩
    change nx' a = none
    rw [hx a (by simp), cutAt]
    have e := Chain.head b hc.2
    rw [e]
    cases b with
    | nil => rfl
    | cons m t =>
      have : g a ≠ g m := by rw [hs a (by simp)]; exact Ne.symm (hb m (by simp))
      simp [this]
  | a :: c :: s, b, p, hc, hs, hb, hx => by
    refine ⟨rfl, ?_⟩
    have e : nx a = some c := hc.2.1
    have : nx' a = some c := by
      rw [hx a (by simp), cutAt, e]
      simp [hs a (by simp), hs c (by simp)]
    rw [this]
    exact Chain.cut_seg (c :: s) b hc.2 (fun n hn => hs n (by simp [List.mem_cons.1 hn])) hb
      (fun n hn => hx n (by simp [List.mem_cons.1 hn]))

end Mtev.ConfIncl
