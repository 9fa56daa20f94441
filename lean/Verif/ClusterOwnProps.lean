import Verif.ClusterOwn

/-!
C73: every key of a cluster has the asked number of owners, and all nodes agree
who they are, whatever the order in which nodes and configurations reached them.

The specification: a list of different nodes of the asked length such that every
node answers "mine" exactly if it is in the list.
-/

namespace Mtev.ClusterOwn

open Mtev.Cht

/-- `qsort` sorts. -/
def Sorts (m : Common) : Prop := ∀ l, QSorted l (m.qsort l)

theorem owners_ok (m : Common) (hm : Sorts m) (ids : List Nat) (hnd : ids.Nodup)
    (h1 : 1 ≤ ids.length) (h2 : ids.length ≤ 65536) (key : List Nat) (w : Nat) (hw : w ≤ 256)
    (hwn : w ≤ ids.length) :
    ∃ l, owners m ids key w = .ok (some l) ∧ l.Nodup ∧ l.length = w ∧ ∀ x ∈ l, x ∈ ids := by
  have hb : Built 32 32 ids.length (fun i j => m.nodeHash (ids.getD i 0) j)
      (m.qsort (fill 32 32 ids.length (fun i j => m.nodeHash (ids.getD i 0) j))) (ring m ids) :=
    ⟨hm _, rfl⟩
  obtain ⟨l, _, e1, -, -, -, e5, e6, e7⟩ :=
    C16_lookup_distinct hb h1 h2 (by decide) (m.keyHash key) w hw hwn
  refine ⟨l.map (fun i => ids.getD i 0), ?_, ?_, by simpa using e5, ?_⟩
  · simp only [owners, e1]
  · apply List.Nodup.map_on _ e6
    intro x hx y hy hxy
    have hx' := e7 x hx
    have hy' := e7 y hy
    simp only [List.getD_eq_getElem?_getD, List.getElem?_eq_getElem hx',
      List.getElem?_eq_getElem hy', Option.getD_some] at hxy
    exact (List.Nodup.getElem_inj_iff hnd).mp hxy
  · intro x hx
    obtain ⟨i, hi, rfl⟩ := List.mem_map.mp hx
    have hi' := e7 i hi
    simp only [List.getD_eq_getElem?_getD, List.getElem?_eq_getElem hi', Option.getD_some]
    exact List.getElem_mem hi'

/-- The number of owners asked for: one if negative. -/
def asked (w : Int) : Nat := if w < 0 then 1 else w.toNat

/-- C73: exactly `w` nodes of the cluster (all of them if there are fewer, one if
`w` is negative) answer that they own a key, as long as this is at most 256; the
claim without the limit is false, see `C73_cap_violated`. -/
theorem C73_owners_partial (m : Common) (hm : Sorts m) (ids : List Nat) (hnd : ids.Nodup)
    (h1 : 1 ≤ ids.length) (h2 : ids.length ≤ 65536) (key : List Nat) (w : Int)
    (hw : min (asked w) ids.length ≤ 256) :
    ∃ l : List Nat, l.Nodup ∧ l.length = min (asked w) ids.length ∧ (∀ x ∈ l, x ∈ ids) ∧
      ∀ me, doIOwn m ids me key w = .ok (decide (me ∈ l)) := by
  obtain ⟨l, e1, e2, e3, e4⟩ := owners_ok m hm ids hnd h1 h2 key (min (asked w) ids.length) hw (by omega)
  refine ⟨l, e2, e3, e4, ?_⟩
  intro me
  have hcl : (if (if w < 0 then 1 else w) > (ids.length : Int) then (ids.length : Int)
      else if w < 0 then 1 else w) = ((min (asked w) ids.length : Nat) : Int) := by
    simp only [asked]
    by_cases hneg : w < 0
    · simp only [hneg, if_true]
      have : ¬ ((1 : Int) > (ids.length : Int)) := by omega
      rw [if_neg this]
      omega
    · simp only [hneg, if_false]
      split <;> omega
  rw [doIOwn, if_neg (by omega)]
  simp only [hcl, e1]

/-- C73: in a cluster of more than 256 nodes asked for an owner on every node,
some node does not own the key. -/
theorem C73_cap_violated (m : Common) (hm : Sorts m) (ids : List Nat) (hnd : ids.Nodup)
    (h1 : 256 < ids.length) (h2 : ids.length ≤ 65536) (key : List Nat) :
    ∃ me ∈ ids, doIOwn m ids me key ids.length = .ok false := by
  obtain ⟨l, e1, e2, e3, e4⟩ := owners_ok m hm ids hnd (by omega) h2 key 256 (by omega) (by omega)
  have hex : ∃ me ∈ ids, me ∉ l := by
    by_contra hc
    push Not at hc
    have := hnd.subperm hc
    have := this.length_le
    omega
  obtain ⟨me, hme, hml⟩ := hex
  refine ⟨me, hme, ?_⟩
  have hsame : owners m ids key (ids.length : Int) = owners m ids key ((256 : Nat) : Int) := by
    have hv : vlookupN ids.length (ring m ids) (m.keyHash key) (ids.length : Int) =
        vlookupN ids.length (ring m ids) (m.keyHash key) ((256 : Nat) : Int) := by
      have ha : ((ids.length : Int) > 256) := by omega
      simp only [vlookupN, ha, if_true]
      rfl
    simp only [owners, hv]
  rw [doIOwn, if_neg (by omega)]
  have hc1 : (if (if (ids.length : Int) < 0 then 1 else (ids.length : Int)) > (ids.length : Int) then
      (ids.length : Int) else if (ids.length : Int) < 0 then 1 else (ids.length : Int)) =
      (ids.length : Int) := by
    have : ¬ ((ids.length : Int) < 0) := by omega
    simp only [this, if_false]
    split <;> rfl
  simp only [hc1, hsame, e1, hml, decide_false]

/-- C73: every node that filters the owners of a key alike gets the same set, of
owners only, and exactly the node at its head is told that it comes first. -/
theorem C73_first_owner_partial (m : Common) (hm : Sorts m) (ids : List Nat) (hnd : ids.Nodup)
    (h1 : 1 ≤ ids.length) (h2 : ids.length ≤ 65536) (key : List Nat) (w : Int) (hw1 : 1 ≤ w)
    (hw : min (asked w) ids.length ≤ 256) (keep : Nat → Bool) :
    ∃ l : List Nat, (∀ me, doIOwn m ids me key w = .ok (decide (me ∈ l))) ∧
      ∀ me, filterOwners m ids me key w keep =
        .ok (l.filter keep, decide ((l.filter keep).head? = some me)) := by
  obtain ⟨l, e1, e2, e3, e4⟩ := owners_ok m hm ids hnd h1 h2 key (min (asked w) ids.length) hw (by omega)
  have hneg : ¬ w < 0 := by omega
  have hcl : (if w > (ids.length : Int) then (ids.length : Int) else w) =
      ((min (asked w) ids.length : Nat) : Int) := by
    simp only [asked, hneg, if_false]
    split <;> omega
  refine ⟨l, ?_, ?_⟩
  · intro me
    rw [doIOwn, if_neg (by omega)]
    simp only [hneg, if_false, hcl, e1]
  · intro me
    rw [filterOwners, if_neg (by omega), if_neg (by omega)]
    simp only [hcl, e1]
    cases hf : l.filter keep with
    | nil => simp
    | cons x t => simp

/-! ### Configurations -/

/-- The configuration a node ends up with after receiving some. -/
def adopt (cs : List Conf) : Option Conf := cs.foldl (fun c n => (update c n).1) none

/-- C73: a node ends up with a configuration of the highest sequence number it
was given, its nodes in the order of their identities. -/
theorem C73_newest (cs : List Conf) (h : cs ≠ []) :
    ∃ c ∈ cs, adopt cs = some ⟨c.seq, sortIds c.ids⟩ ∧ ∀ d ∈ cs, d.seq ≤ c.seq := by
  have main : ∀ (cs : List Conf) (cur : Option Conf) (c0 : Conf),
      (cur = some ⟨c0.seq, sortIds c0.ids⟩) →
      ∃ c, (c = c0 ∨ c ∈ cs) ∧
        cs.foldl (fun c n => (update c n).1) cur = some ⟨c.seq, sortIds c.ids⟩ ∧
        c0.seq ≤ c.seq ∧ ∀ d ∈ cs, d.seq ≤ c.seq := by
    intro cs
    induction cs with
    | nil => intro cur c0 hc; exact ⟨c0, .inl rfl, hc, Int.le_refl _, by simp⟩
    | cons n t ih =>
      intro cur c0 hc
      subst hc
      by_cases hle : n.seq ≤ c0.seq
      · obtain ⟨c, k1, k2, k3, k4⟩ := ih (some ⟨c0.seq, sortIds c0.ids⟩) c0 rfl
        refine ⟨c, ?_, ?_, k3, ?_⟩
        · rcases k1 with k1 | k1
          · exact .inl k1
          · exact .inr (by simp [k1])
        · rw [List.foldl_cons]
          simp only [update, hle, if_true]
          exact k2
        · intro d hd
          rcases List.mem_cons.mp hd with rfl | hd
          · omega
          · exact k4 d hd
      · obtain ⟨c, k1, k2, k3, k4⟩ := ih (some ⟨n.seq, sortIds n.ids⟩) n rfl
        refine ⟨c, ?_, ?_, by omega, ?_⟩
        · rcases k1 with k1 | k1
          · exact .inr (by simp [k1])
          · exact .inr (by simp [k1])
        · rw [List.foldl_cons]
          simp only [update, hle, if_false]
          exact k2
        · intro d hd
          rcases List.mem_cons.mp hd with rfl | hd
          · exact k3
          · exact k4 d hd
  cases cs with
  | nil => exact absurd rfl h
  | cons n t =>
    obtain ⟨c, k1, k2, k3, k4⟩ := main t (some ⟨n.seq, sortIds n.ids⟩) n rfl
    refine ⟨c, ?_, ?_, ?_⟩
    · rcases k1 with k1 | k1
      · simp [k1]
      · simp [k1]
    · rw [adopt, List.foldl_cons]
      exact k2
    · intro d hd
      rcases List.mem_cons.mp hd with rfl | hd
      · exact k3
      · exact k4 d hd

/-- C73: nodes that received the same configurations, in whatever order and as
often as they like, the nodes listed in whatever order, give the same answers
about every key (on the same node).  Configurations of equal number must list
the same nodes. -/
theorem C73_agree (m : Common) (as bs : List Conf) (hne : as ≠ [])
    (hab : ∀ a ∈ as, ∃ b ∈ bs, b.seq = a.seq ∧ b.ids.Perm a.ids)
    (hba : ∀ b ∈ bs, ∃ a ∈ as, a.seq = b.seq ∧ a.ids.Perm b.ids)
    (hone : ∀ a ∈ as, ∀ a' ∈ as, a.seq = a'.seq → a.ids.Perm a'.ids) :
    ∃ ca cb, adopt as = some ca ∧ adopt bs = some cb ∧
      ∀ me key w, doIOwn m ca.ids me key w = doIOwn m cb.ids me key w := by
  have hne' : bs ≠ [] := by
    intro hc
    cases as with
    | nil => exact hne rfl
    | cons a t =>
      obtain ⟨b, hb, -⟩ := hab a (by simp)
      rw [hc] at hb
      exact absurd hb (by simp)
  obtain ⟨ca, a1, a2, a3⟩ := C73_newest as hne
  obtain ⟨cb, b1, b2, b3⟩ := C73_newest bs hne'
  refine ⟨_, _, a2, b2, ?_⟩
  obtain ⟨b', hb', e1, e2⟩ := hab ca a1
  obtain ⟨a', ha', f1, f2⟩ := hba cb b1
  have h1 := b3 b' hb'
  have h2 := a3 a' ha'
  have h3 : ca.seq = a'.seq := by omega
  have : sortIds ca.ids = sortIds cb.ids :=
    sortIds_eq_of_perm ((hone ca a1 a' ha' h3).trans f2)
  intro me key w
  show doIOwn m (sortIds ca.ids) me key w = doIOwn m (sortIds cb.ids) me key w
  rw [this]

/-! ### Examples -/

/-- Insertion sort by position. -/
def isort (l : List RP) : List RP := l.mergeSort (fun a b => decide (a.pos ≤ b.pos))

theorem isort_sorts (h : Nat → Nat → Nat) (k : List Nat → Nat) : Sorts ⟨h, k, isort⟩ := by
  intro l
  refine ⟨List.mergeSort_perm _ _, ?_⟩
  have := List.pairwise_mergeSort (le := fun a b : RP => decide (a.pos ≤ b.pos))
    (fun a b c h1 h2 => by simp only [decide_eq_true_eq] at *; omega)
    (fun a b => by simp only [Bool.or_eq_true, decide_eq_true_eq]; omega) l
  exact this.imp (fun h => by simpa using h)

/-- Three nodes and two copies: there are two owners. -/
example (h : Nat → Nat → Nat) (k : List Nat → Nat) (key : List Nat) :
    ∃ l : List Nat, l.Nodup ∧ l.length = 2 ∧ (∀ x ∈ l, x ∈ [7, 8, 9]) ∧
      ∀ me, doIOwn ⟨h, k, isort⟩ [7, 8, 9] me key 2 = .ok (decide (me ∈ l)) :=
  C73_owners_partial ⟨h, k, isort⟩ (isort_sorts h k) [7, 8, 9] (by decide) (by decide) (by decide)
    key 2 (by decide)

/-- Three configurations in two orders. -/
example : adopt [⟨1, [3, 1]⟩, ⟨7, [2, 1, 3]⟩, ⟨5, [1]⟩] = some ⟨7, [1, 2, 3]⟩ ∧
    adopt [⟨7, [3, 2, 1]⟩, ⟨5, [1]⟩, ⟨1, [1, 3]⟩, ⟨7, [3, 2, 1]⟩] = some ⟨7, [1, 2, 3]⟩ := by decide

end Mtev.ClusterOwn
