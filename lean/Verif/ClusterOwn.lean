import Verif.ChtProps
import Mathlib.Data.List.Sort

/-!
Model of the configuration of a cluster and of the ownership of keys
(`mtev_cluster_update_internal`, `mtev_cluster_compile`, `mtev_cluster_do_i_own`,
`mtev_cluster_filter_owners` in `src/mtev_cluster.c`) on top of the consistent
hash table (`Verif.Cht`).
-/

namespace Mtev.ClusterOwn

open Mtev.Cht

/-- A cluster as configured: sequence number and the UUIDs of its nodes (a number
each).  Names, addresses and times are left out. -/
structure Conf where
  seq : Int
  ids : List Nat
deriving DecidableEq, Repr

/-- Insertion of a node into a sorted list. -/
def insertId (x : Nat) : List Nat → List Nat
  | [] => [x]
  | y :: t => if x ≤ y then x :: y :: t else y :: insertId x t

/-- `qsort` with `mtev_cluster_node_compare` (mtev_cluster.c:206-211, 771-773).
The order of nodes with equal UUIDs is not specified by `qsort`; such nodes are
equal here. -/
def sortIds (l : List Nat) : List Nat := l.foldr insertId []

/-- What `global_clusters` holds under one name, and the return value of
`mtev_cluster_update_internal` (mtev_cluster.c:779-833): 0 new, 1 updated, 2 not
newer.  A configuration that cannot be read or written (-1) changes nothing and
is not modelled. -/
def update (cur : Option Conf) (new : Conf) : Option Conf × Int :=
  match cur with
  | none => (some { new with ids := sortIds new.ids }, 0)
  | some c =>
    if new.seq ≤ c.seq then (some c, 2)
    else (some { new with ids := sortIds new.ids }, 1)

/-- What the nodes of a cluster have in common: the hash of a node name (the
printed UUID) with an initial value, the hash of a key, and the `qsort` of the
ring. -/
structure Common where
  nodeHash : Nat → Nat → Nat
  keyHash : List Nat → Nat
  qsort : List RP → List RP

/-- mtev_cluster.c:525-548 `mtev_cluster_compile`: the ring of 32 points per node
and 32 bits (mtev_cht.c:35-36, 174-176). -/
def ring (m : Common) (ids : List Nat) : List RP :=
  fixup (maxPos 32) (m.qsort (fill 32 32 ids.length (fun i j => m.nodeHash (ids.getD i 0) j)))

/-- The owners of a key as UUIDs, in the order of the ring.  `none`: the lookup
failed. -/
def owners (m : Common) (ids : List Nat) (key : List Nat) (w : Int) : Out (Option (List Nat)) :=
  match vlookupN ids.length (ring m ids) (m.keyHash key) w with
  | .ok (some l) => .ok (some (l.map (fun i => ids.getD i 0)))
  | .ok none => .ok none
  | .ub => .ub
  | .abort => .abort

/-- mtev_cluster.c:928-950 `mtev_cluster_do_i_own` on the node `me`. -/
def doIOwn (m : Common) (ids : List Nat) (me : Nat) (key : List Nat) (w : Int) : Out Bool :=
  if ids.length = 0 then .ok false
  else
    let w := if w < 0 then 1 else w
    let w := if w > ids.length then (ids.length : Int) else w
    match owners m ids key w with
    | .ok (some l) => .ok (decide (me ∈ l))
    | .ok none => .ok false
    | .ub => .ub
    | .abort => .abort

/-- mtev_cluster.c:956-981 `mtev_cluster_filter_owners` on the node `me`: the set
and the returned boolean.  `keep` is the filter of the caller. -/
def filterOwners (m : Common) (ids : List Nat) (me : Nat) (key : List Nat) (w : Int)
    (keep : Nat → Bool) : Out (List Nat × Bool) :=
  if ids.length = 0 then .ok ([], false)
  else if w < 1 then .ok ([], false)
  else
    let w := if w > ids.length then (ids.length : Int) else w
    match owners m ids key w with
    | .ok (some l) =>
      match l.filter keep with
      | [] => .ok ([], false)
      | x :: t => .ok (x :: t, decide (x = me))
    | .ok none => .ok ([], false)
    | .ub => .ub
    | .abort => .abort

/-! ### Lemmas -/

theorem insertId_perm (x : Nat) : ∀ l, (insertId x l).Perm (x :: l) := by
  intro l
  induction l with
  | nil => exact List.Perm.refl _
  | cons y t ih =>
    rw [insertId]
    split
    · exact List.Perm.refl _
    · exact (ih.cons y).trans (List.Perm.swap x y t)

theorem sortIds_perm : ∀ l, (sortIds l).Perm l := by
  intro l
  induction l with
  | nil => exact List.Perm.refl _
  | cons x t ih =>
    show (insertId x (sortIds t)).Perm (x :: t)
    exact (insertId_perm x _).trans (ih.cons x)

theorem insertId_sorted (x : Nat) : ∀ l : List Nat, l.Pairwise (· ≤ ·) →
    (insertId x l).Pairwise (· ≤ ·) := by
  intro l
  induction l with
  | nil => intro _; simp [insertId]
  | cons y t ih =>
    intro h
    rw [List.pairwise_cons] at h
    rw [insertId]
    split
    next hxy =>
      rw [List.pairwise_cons]
      refine ⟨?_, List.pairwise_cons.mpr h⟩
      intro z hz
      rcases List.mem_cons.mp hz with rfl | hz
      · exact hxy
      · exact Nat.le_trans hxy (h.1 z hz)
    next hxy =>
      rw [List.pairwise_cons]
      refine ⟨?_, ih h.2⟩
      intro z hz
      rcases List.mem_cons.mp ((insertId_perm x t).mem_iff.mp hz) with rfl | hz
      · omega
      · exact h.1 z hz

theorem sortIds_sorted : ∀ l, (sortIds l).Pairwise (· ≤ ·) := by
  intro l
  induction l with
  | nil => exact List.Pairwise.nil
  | cons x t ih => exact insertId_sorted x _ ih

theorem sortIds_eq_of_perm {a b : List Nat} (h : a.Perm b) : sortIds a = sortIds b := by
  apply List.Perm.eq_of_pairwise (le := (· ≤ ·))
  · intro x y _ _ h1 h2
    exact Nat.le_antisymm h1 h2
  · exact sortIds_sorted a
  · exact sortIds_sorted b
  · exact (sortIds_perm a).trans (h.trans (sortIds_perm b).symm)

end Mtev.ClusterOwn
