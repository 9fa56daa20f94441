import Verif.Lru

/-!
# LFU cache (/repo/src/utils/mtev_lfu.c)

The mutex makes put/get/remove/invalidate atomic.  The `ck_hs` hash set is trusted.  The frequency list is
the list of its buckets in order: frequency and entries (head first).  Simplified: an entry's
`frequency_list_head` pointer is not stored but is the bucket that contains the entry (the code sets it
at lines 251 and 287 whenever it inserts); an entry in no bucket has an uninitialised pointer, using it is undefined
behaviour.
-/

namespace Mtev.Lfu
open Mtev.Cache
open Mtev.Lru (hsFind own)

abbrev Buckets := List (Nat × List Nat)

/-- `struct mtev_lfu`, mtev_lfu.c:35-44.  `ballocs`/`bfrees` count bucket allocations and frees.
Simplified: the size is an unbounded integer. -/
structure LFU where
  max : Int
  heap : Heap
  buckets : Buckets
  hash : List Nat
  size : Int
  ec : Nat
  ballocs : Nat
  bfrees : Nat

/-- `mtev_lfu_create`, mtev_lfu.c:98-118. -/
def create (max : Int) : LFU := ⟨max, Heap.empty, [], [], 0, 0, 0, 0⟩

/-- `remove_from_frequency_list_no_lock`, mtev_lfu.c:167-182: the remaining buckets, and whether the
entry's bucket became empty and was unlinked.  `none`: the entry is in no bucket. -/
def removeB : Buckets → Nat → Option (Buckets × Bool)
  | [], _ => none
  | (f, ids) :: rest, i =>
    if i ∈ ids then
      if ids.erase i = [] then some (rest, true) else some ((f, ids.erase i) :: rest, false)
    else match removeB rest i with
      | some (r, b) => some ((f, ids) :: r, b)
      | none => none

/-- How many buckets `touch` allocates (first) and loses without freeing (second). -/
abbrev Cost := Nat × Nat

/-- `touch_lfu_cache_no_lock`, mtev_lfu.c:257-289, on the frequency list: the entry moves to the
bucket of the next higher frequency, which is the following one if its frequency fits, else the
emptied bucket reused in its place, else a new one. -/
def touchB : Buckets → Nat → Option (Buckets × Cost)
  | [], _ => none
  | (f, ids) :: rest, i =>
    if i ∈ ids then
      match rest with
      | (g, js) :: post =>
        if g = f + 1 then
          if ids.erase i = [] then some ((g, js ++ [i]) :: post, (0, 1))
          else some ((f, ids.erase i) :: (g, js ++ [i]) :: post, (0, 0))
        else if ids.erase i = [] then some ((f + 1, [i]) :: (g, js) :: post, (0, 0))
        else some ((f, ids.erase i) :: (f + 1, [i]) :: (g, js) :: post, (1, 0))
      | [] =>
        if ids.erase i = [] then some ([(f + 1, [i])], (0, 0))
        else some ([(f, ids.erase i), (f + 1, [i])], (1, 0))
    else match touchB rest i with
      | some (r, b) => some ((f, ids) :: r, b)
      | none => none

/-- Entries of all buckets in list order. -/
def allIds (bs : Buckets) : List Nat := bs.flatMap Prod.snd

/-- `mtev_lfu_invalidate`, mtev_lfu.c:128-147. -/
def invalidate (c : LFU) : Out LFU := do
  let h ← Lru.releaseAll c.heap (allIds c.buckets)
  .ok { c with heap := h, buckets := [], hash := [], size := 0, bfrees := c.bfrees + c.buckets.length }

/-- Take an entry out of the frequency list and free the bucket if it was emptied (lines 196 and
212-214, 330-334, 435-438). -/
def unlink (c : LFU) (i : Nat) : Out LFU :=
  match removeB c.buckets i with
  | some (bs, emptied) => .ok { c with buckets := bs, bfrees := c.bfrees + if emptied then 1 else 0 }
  | none => .ub

/-- `expire_least_lfu_cache_no_lock`, mtev_lfu.c:189-215. -/
def expire (c : LFU) : Out LFU := do
  match c.buckets with
  | (_, e :: _) :: _ =>
    let c ← unlink c e
    let hash := match hsFind c.heap c.hash (c.heap.ent e).key with
      | some x => c.hash.erase x
      | none => c.hash
    if c.ec = 10000 ∧ hash.length = 0 then .ub
    else
      let ec := (if c.ec = 10000 then 0 else c.ec) + 1
      let h ← c.heap.release e
      .ok { c with size := c.size - 1, hash := hash, ec := ec, heap := h }
  | _ => .ub

/-- Lines 244-252: append to the bucket of frequency one, made if the first bucket is another. -/
def insertB : Buckets → Nat → Buckets × Cost
  | [], i => ([(1, [i])], (1, 0))
  | (f, ids) :: rest, i =>
    if f > 1 then ((1, [i]) :: (f, ids) :: rest, (1, 0)) else ((f, ids ++ [i]) :: rest, (0, 0))

/-- `add_lfu_cache_no_lock`, mtev_lfu.c:237-255. -/
def add (c : LFU) (e : Nat) : Out LFU := do
  if c.max > 0 then
    let c ← if c.size + 1 > c.max then expire c else .ok c
    .ok { c with buckets := (insertB c.buckets e).1, ballocs := c.ballocs + (insertB c.buckets e).2.1, size := c.size + 1 }
  else .ok { c with size := c.size + 1 }

/-- `touch_lfu_cache_no_lock`, mtev_lfu.c:257-289. -/
def touch (c : LFU) (e : Nat) : Out LFU :=
  if c.max > 0 then
    match touchB c.buckets e with
    | some (bs, a, _) => .ok { c with buckets := bs, ballocs := c.ballocs + a }
    | none => .ub
  else .ok c

/-- `mtev_lfu_put`, mtev_lfu.c:292-341; the flag is the returned boolean.  `ck_hs_set` does not fail. -/
def put (c : LFU) (k : List Nat) (v : Nat) : Out (LFU × Bool) := do
  if c.max = 0 then .ok (c, false)
  else
    let e := c.heap.next
    let h := c.heap.alloc k v
    match hsFind c.heap c.hash k with
    | some p =>
      let c ← unlink c p
      let h ← h.release p
      let c ← add { c with heap := h, hash := e :: c.hash.erase p, size := c.size - 1 } e
      .ok (c, true)
    | none => do
      let c ← add { c with heap := h, hash := e :: c.hash } e
      .ok (c, true)

/-- `mtev_lfu_get`, mtev_lfu.c:343-381: token and value. -/
def get (c : LFU) (k : List Nat) : Out (LFU × Option (Nat × Option Nat)) := do
  if c.max = 0 then .ok (c, none)
  else match hsFind c.heap c.hash k with
    | some r =>
      let c ← touch c r
      let h ← c.heap.retain r
      .ok ({ c with heap := h }, some (r, (h.ent r).val))
    | none => .ok (c, none)

/-- `mtev_lfu_release`, mtev_lfu.c:383-404. -/
def release (c : LFU) (i : Nat) : Out LFU := do
  let h ← c.heap.release i
  .ok { c with heap := h }

/-- `mtev_lfu_remove`, mtev_lfu.c:407-455. -/
def remove (c : LFU) (k : List Nat) : Out (LFU × Option (Nat × Option Nat)) := do
  if c.max = 0 then .ok (c, none)
  else match hsFind c.heap c.hash k with
    | some r =>
      let c ← if c.max > 0 then unlink c r else .ok c
      let v := (c.heap.ent r).val
      let h ← c.heap.clearVal r
      let h ← h.release r
      let hash := c.hash.erase r
      let ec := (if c.ec = 10000 ∧ hash.length > 0 then 0 else c.ec) + 1
      .ok ({ c with heap := h, hash := hash, size := c.size - 1, ec := ec }, some (r, v))
    | none => .ok (c, none)

/-! ## The frequency list -/

/-- Entries of the bucket of frequency `g`. -/
def atF : Buckets → Nat → List Nat
  | [], _ => []
  | (f, ids) :: rest, g => if f = g then ids else atF rest g

/-- Frequencies strictly increase from above `lo`; no bucket is empty. -/
def OkB : Nat → Buckets → Prop
  | _, [] => True
  | lo, (f, ids) :: rest => lo < f ∧ ids ≠ [] ∧ OkB f rest

theorem atF_low {lo : Nat} {bs : Buckets} (h : OkB lo bs) : ∀ g, g ≤ lo → atF bs g = [] := by
  induction bs generalizing lo with
  | nil => intros; rfl
  | cons b rest ih =>
    obtain ⟨f, ids⟩ := b
    intro g hg
    have h1 := h.1
    rw [atF, if_neg (by omega)]
    exact ih h.2.2 g (by omega)

theorem OkB.mono {lo lo' : Nat} {bs : Buckets} (h : OkB lo bs) (hl : lo' ≤ lo) : OkB lo' bs := by
  cases bs with
  | nil => trivial
  | cons b rest => obtain ⟨f, ids⟩ := b; exact ⟨lt_of_le_of_lt hl h.1, h.2.1, h.2.2⟩

/-- `i` is in the bucket of frequency `f` and in no other. -/
def In (bs : Buckets) (i f : Nat) : Prop := i ∈ atF bs f ∧ ∀ g, g ≠ f → i ∉ atF bs g

theorem removeB_spec {lo : Nat} {bs : Buckets} {i f : Nat} (ok : OkB lo bs) (h : In bs i f) :
    ∃ bs' b, removeB bs i = some (bs', b) ∧ OkB lo bs' ∧
      ∀ g, atF bs' g = if g = f then (atF bs f).erase i else atF bs g := by
  induction bs generalizing lo with
  | nil => exact absurd h.1 (by simp [atF])
  | cons b rest ih =>
    obtain ⟨f0, ids⟩ := b
    obtain ⟨o1, o2, o3⟩ := ok
    by_cases hf : f0 = f
    · subst hf
      have hi : i ∈ ids := by simpa [atF] using h.1
      have low := atF_low o3 f0 (Nat.le_refl _)
      unfold removeB
      rw [if_pos hi]
      by_cases he : ids.erase i = []
      · rw [if_pos he]
        refine ⟨_, _, rfl, o3.mono (by omega), ?_⟩
        intro g
        by_cases hg : g = f0
        · subst hg; simp [atF, he, low]
        · simp [atF, hg, Ne.symm hg]
      · rw [if_neg he]
        refine ⟨_, _, rfl, ⟨o1, he, o3⟩, ?_⟩
        intro g
        by_cases hg : g = f0
        · subst hg; simp [atF]
        · simp [atF, hg, Ne.symm hg]
    · have hni : i ∉ ids := by have := h.2 f0 hf; simpa [atF] using this
      have hin : In rest i f := by
        refine ⟨by simpa [atF, hf] using h.1, fun g hg => ?_⟩
        by_cases hg0 : f0 = g
        · subst hg0; rw [atF_low o3 f0 (Nat.le_refl _)]; simp
        · simpa [atF, hg0] using h.2 g hg
      obtain ⟨bs', b, e1, e2, e3⟩ := ih o3 hin
      unfold removeB
      rw [if_neg hni, e1]
      refine ⟨_, _, rfl, ⟨o1, o2, e2⟩, ?_⟩
      intro g
      by_cases hg0 : f0 = g
      · subst hg0; simp [atF, hf]
      · simp only [atF, if_neg hg0, if_neg hf, e3]

theorem touchB_spec {lo : Nat} {bs : Buckets} {i f : Nat} (ok : OkB lo bs) (h : In bs i f) :
    ∃ bs' a, touchB bs i = some (bs', a) ∧ OkB lo bs' ∧
      ∀ g, atF bs' g = if g = f then (atF bs f).erase i else if g = f + 1 then atF bs (f + 1) ++ [i] else atF bs g := by
  induction bs generalizing lo with
  | nil => exact absurd h.1 (by simp [atF])
  | cons b rest ih =>
    obtain ⟨f0, ids⟩ := b
    obtain ⟨o1, o2, o3⟩ := ok
    by_cases hf : f0 = f
    · subst hf
      have hi : i ∈ ids := by simpa [atF] using h.1
      unfold touchB
      rw [if_pos hi]
      cases rest with
      | nil =>
        by_cases he : ids.erase i = []
        · simp only [if_pos he]
          refine ⟨_, _, rfl, ⟨by omega, by simp, trivial⟩, ?_⟩
          intro g
          by_cases hg : g = f0
          · subst hg; simp [atF, he]
          · by_cases hg1 : g = f0 + 1
            · subst hg1; simp [atF]
            · simp [atF, hg, Ne.symm hg, hg1, Ne.symm hg1]
        · simp only [if_neg he]
          refine ⟨_, _, rfl, ⟨o1, he, by omega, by simp, trivial⟩, ?_⟩
          intro g
          by_cases hg : g = f0
          · subst hg; simp [atF]
          · by_cases hg1 : g = f0 + 1
            · subst hg1; simp [atF]
            · simp [atF, hg, Ne.symm hg, hg1, Ne.symm hg1]
      | cons b2 post =>
        obtain ⟨g2, js⟩ := b2
        obtain ⟨q1, q2, q3⟩ := o3
        have low := atF_low q3
        by_cases hg2 : g2 = f0 + 1
        · subst hg2
          simp only [if_true]
          by_cases he : ids.erase i = []
          · simp only [if_pos he]
            refine ⟨_, _, rfl, ⟨by omega, by simp, q3⟩, ?_⟩
            intro g
            by_cases hg : g = f0
            · subst hg; simp [atF, he, low g (by omega)]
            · by_cases hg1 : g = f0 + 1
              · subst hg1; simp [atF]
              · simp [atF, hg, Ne.symm hg, hg1, Ne.symm hg1]
          · simp only [if_neg he]
            refine ⟨_, _, rfl, ⟨o1, he, by omega, by simp, q3⟩, ?_⟩
            intro g
            by_cases hg : g = f0
            · subst hg; simp [atF]
            · by_cases hg1 : g = f0 + 1
              · subst hg1; simp [atF]
              · simp [atF, hg, Ne.symm hg, hg1, Ne.symm hg1]
        · simp only [if_neg hg2]
          have low1 := low (f0 + 1) (by omega)
          by_cases he : ids.erase i = []
          · simp only [if_pos he]
            refine ⟨_, _, rfl, ⟨by omega, by simp, by omega, q2, q3⟩, ?_⟩
            intro g
            by_cases hg : g = f0
            · subst hg
              have : g2 ≠ g := by omega
              simp [atF, he, this, low g (by omega)]
            · by_cases hg1 : g = f0 + 1
              · subst hg1; simp [atF, hg2, low1]
              · simp [atF, hg, Ne.symm hg, hg1, Ne.symm hg1]
          · simp only [if_neg he]
            refine ⟨_, _, rfl, ⟨o1, he, by omega, by simp, by omega, q2, q3⟩, ?_⟩
            intro g
            by_cases hg : g = f0
            · subst hg; simp [atF]
            · by_cases hg1 : g = f0 + 1
              · subst hg1; simp [atF, hg2, low1]
              · simp [atF, hg, Ne.symm hg, hg1, Ne.symm hg1]
    · have hni : i ∉ ids := by have := h.2 f0 hf; simpa [atF] using this
      have hin : In rest i f := by
        refine ⟨by simpa [atF, hf] using h.1, fun g hg => ?_⟩
        by_cases hg0 : f0 = g
        · subst hg0; rw [atF_low o3 f0 (Nat.le_refl _)]; simp
        · simpa [atF, hg0] using h.2 g hg
      have hlt : f0 < f := by
        by_contra hc
        have := atF_low o3 f (by omega)
        have h1 := hin.1
        rw [this] at h1; simp at h1
      obtain ⟨bs', b, e1, e2, e3⟩ := ih o3 hin
      unfold touchB
      rw [if_neg hni, e1]
      refine ⟨_, _, rfl, ⟨o1, o2, e2⟩, ?_⟩
      intro g
      by_cases hg0 : f0 = g
      · subst hg0; simp [atF, hf, show f0 ≠ f + 1 by omega]
      · simp only [atF, if_neg hg0, if_neg hf, e3, if_neg (show f0 ≠ f + 1 by omega)]

theorem insertB_spec {bs : Buckets} {i : Nat} (ok : OkB 0 bs) :
    OkB 0 (insertB bs i).1 ∧ ∀ g, atF (insertB bs i).1 g = if g = 1 then atF bs 1 ++ [i] else atF bs g := by
  cases bs with
  | nil =>
    refine ⟨⟨by omega, by simp, trivial⟩, ?_⟩
    intro g; by_cases hg : g = 1
    · subst hg; simp [insertB, atF]
    · simp [insertB, atF, hg, Ne.symm hg]
  | cons b rest =>
    obtain ⟨f, ids⟩ := b
    obtain ⟨o1, o2, o3⟩ := ok
    by_cases hf : f > 1
    · simp only [insertB, if_pos hf]
      refine ⟨⟨by omega, by simp, by omega, o2, o3⟩, ?_⟩
      intro g; by_cases hg : g = 1
      · subst hg
        simp [atF, show f ≠ 1 by omega, atF_low o3 1 (by omega)]
      · simp [atF, hg, Ne.symm hg]
    · simp only [insertB, if_neg hf]
      have hf1 : f = 1 := by omega
      subst hf1
      refine ⟨⟨by omega, by simp, o3⟩, ?_⟩
      intro g; by_cases hg : g = 1
      · subst hg; simp [atF]
      · simp [atF, hg, Ne.symm hg]

/-! ## Refinement of the frequency list

`L` lists the entries with their use counts in the order in which they were last put or got. -/

structure Ref (bs : Buckets) (L : List (Nat × Nat)) : Prop where
  ok : OkB 0 bs
  nd : (L.map Prod.fst).Nodup
  at_eq : ∀ g, atF bs g = (L.filter (fun p => p.2 = g)).map Prod.fst

/-- `L` without entry `i`. -/
def dropId (i : Nat) (L : List (Nat × Nat)) : List (Nat × Nat) := L.filter (fun p => p.1 ≠ i)

theorem fst_unique {L : List (Nat × Nat)} (nd : (L.map Prod.fst).Nodup) {i f g : Nat} (h1 : (i, f) ∈ L) (h2 : (i, g) ∈ L) :
    f = g := by
  induction L with
  | nil => simp at h1
  | cons p L ih =>
    rw [List.map_cons, List.nodup_cons] at nd
    have aux : ∀ {x}, (i, x) ∈ L → i ∈ L.map Prod.fst := fun h => List.mem_map.2 ⟨_, h, rfl⟩
    rcases List.mem_cons.1 h1 with rfl | h1 <;> rcases List.mem_cons.1 h2 with h2 | h2
    · simpa using h2.symm
    · exact absurd (aux h2) nd.1
    · rw [← h2] at nd; exact absurd (aux h1) nd.1
    · exact ih nd.2 h1 h2

theorem ref_in {bs : Buckets} {L : List (Nat × Nat)} (r : Ref bs L) {i f : Nat} (h : (i, f) ∈ L) : In bs i f := by
  constructor
  · rw [r.at_eq]; exact List.mem_map.2 ⟨(i, f), List.mem_filter.2 ⟨h, by simp⟩, rfl⟩
  · intro g hg hm
    rw [r.at_eq] at hm
    obtain ⟨⟨a, b⟩, hp, he⟩ := List.mem_map.1 hm
    obtain ⟨p1, p2⟩ := List.mem_filter.1 hp
    simp only at he p2
    subst he
    simp at p2
    subst p2
    exact hg (fst_unique r.nd p1 h)

theorem erase_at {bs : Buckets} {L : List (Nat × Nat)} (r : Ref bs L) {i f : Nat} (h : (i, f) ∈ L) (g : Nat) :
    (if g = f then (atF bs f).erase i else atF bs g) = ((dropId i L).filter (fun p => p.2 = g)).map Prod.fst := by
  have comm : (dropId i L).filter (fun p => p.2 = g) = (L.filter (fun p => p.2 = g)).filter (fun p => p.1 ≠ i) := by
    unfold dropId; rw [List.filter_filter, List.filter_filter]; congr 1; funext p; rw [Bool.and_comm]
  by_cases hg : g = f
  · subst hg
    rw [if_pos rfl, r.at_eq, comm]
    have nd : ((L.filter (fun p => p.2 = g)).map Prod.fst).Nodup := r.nd.sublist (List.Sublist.map _ List.filter_sublist)
    rw [nd.erase_eq_filter, List.filter_map]
    congr 1
    apply List.filter_congr
    intro p _
    by_cases c : p.1 = i <;> simp [c]
  · rw [if_neg hg, r.at_eq, comm]
    congr 1
    symm
    rw [List.filter_eq_self]
    intro p hp
    obtain ⟨p1, p2⟩ := List.mem_filter.1 hp
    by_contra hc
    simp at hc p2
    apply hg
    have : (i, g) ∈ L := by rw [← hc, ← p2]; exact p1
    exact fst_unique r.nd this h

theorem dropId_nd {L : List (Nat × Nat)} (nd : (L.map Prod.fst).Nodup) (i : Nat) : ((dropId i L).map Prod.fst).Nodup :=
  nd.sublist (List.Sublist.map _ List.filter_sublist)

theorem not_mem_dropId (i : Nat) (L : List (Nat × Nat)) : i ∉ (dropId i L).map Prod.fst := by
  intro h
  obtain ⟨p, hp, he⟩ := List.mem_map.1 h
  have := (List.mem_filter.1 hp).2
  simp [he] at this

theorem ref_remove {bs : Buckets} {L : List (Nat × Nat)} (r : Ref bs L) {i f : Nat} (h : (i, f) ∈ L) :
    ∃ bs' b, removeB bs i = some (bs', b) ∧ Ref bs' (dropId i L) := by
  obtain ⟨bs', b, e1, e2, e3⟩ := removeB_spec r.ok (ref_in r h)
  exact ⟨bs', b, e1, ⟨e2, dropId_nd r.nd i, fun g => (e3 g).trans (erase_at r h g)⟩⟩

theorem ref_touch {bs : Buckets} {L : List (Nat × Nat)} (r : Ref bs L) {i f : Nat} (h : (i, f) ∈ L) :
    ∃ bs' a, touchB bs i = some (bs', a) ∧ Ref bs' (dropId i L ++ [(i, f + 1)]) := by
  obtain ⟨bs', b, e1, e2, e3⟩ := touchB_spec r.ok (ref_in r h)
  refine ⟨bs', b, e1, e2, ?_, ?_⟩
  · rw [List.map_append, List.nodup_append]
    refine ⟨dropId_nd r.nd i, by simp, ?_⟩
    intro a ha b hb he
    simp at hb
    subst hb; subst he
    exact not_mem_dropId a L ha
  · intro g
    rw [e3, List.filter_append, List.map_append, ← erase_at r h g]
    by_cases hg : g = f
    · subst hg; simp
    · by_cases hg1 : g = f + 1
      · subst hg1; simp
      · simp [hg, hg1, Ne.symm hg1]

theorem ref_insert {bs : Buckets} {L : List (Nat × Nat)} (r : Ref bs L) {i : Nat} (h : i ∉ L.map Prod.fst) :
    Ref (insertB bs i).1 (L ++ [(i, 1)]) := by
  obtain ⟨e2, e3⟩ := insertB_spec (i := i) r.ok
  refine ⟨e2, ?_, ?_⟩
  · rw [List.map_append, List.nodup_append]
    refine ⟨r.nd, by simp, ?_⟩
    intro a ha b hb he
    simp at hb
    subst hb; subst he
    exact h ha
  · intro g
    rw [e3, List.filter_append, List.map_append]
    by_cases hg : g = 1
    · subst hg; simp [r.at_eq]
    · simp [hg, Ne.symm hg, r.at_eq]

theorem okB_min {bs : Buckets} {lo g i : Nat} (ok : OkB lo bs) (h : i ∈ atF bs g) : lo < g := by
  by_contra hc
  rw [atF_low ok g (by omega)] at h
  simp at h

theorem find_congr {α : Type} {p q : α → Bool} : ∀ {l : List α}, (∀ x ∈ l, p x = q x) → l.find? p = l.find? q
  | [], _ => rfl
  | a :: l, h => by
    rw [List.find?_cons, List.find?_cons, h a (by simp), find_congr (l := l) (fun x hx => h x (List.mem_cons_of_mem _ hx))]

/-- The entry evicted: first among those of least use count. -/
def victim (L : List (Nat × Nat)) : Option (Nat × Nat) := L.find? (fun p => L.all (fun q => p.2 ≤ q.2))

theorem ref_victim {bs : Buckets} {L : List (Nat × Nat)} (r : Ref bs L) (hne : L ≠ []) :
    ∃ f x ids rest, bs = (f, x :: ids) :: rest ∧ victim L = some (x, f) := by
  cases hb : bs with
  | nil =>
    exfalso
    obtain ⟨p, L', rfl⟩ := List.exists_cons_of_ne_nil hne
    have := r.at_eq p.2
    rw [hb] at this
    simp [atF] at this
  | cons b rest =>
    obtain ⟨f, ids⟩ := b
    have ok := r.ok
    rw [hb] at ok
    obtain ⟨o1, o2, o3⟩ := ok
    obtain ⟨x, ids', rfl⟩ := List.exists_cons_of_ne_nil o2
    refine ⟨f, x, ids', rest, rfl, ?_⟩
    have hmin : ∀ q ∈ L, f ≤ q.2 := by
      intro q hq
      have : q.1 ∈ atF bs q.2 := (ref_in r (f := q.2) (i := q.1) hq).1
      rw [hb] at this
      by_cases hf : f = q.2
      · omega
      · simp only [atF, if_neg hf] at this
        exact Nat.le_of_lt (okB_min o3 this)
    have hat := r.at_eq f
    rw [hb] at hat
    simp only [atF, if_true] at hat
    have hfilter : (L.filter (fun p => p.2 = f)).head? = some (x, f) := by
      cases hl : L.filter (fun p => p.2 = f) with
      | nil => rw [hl] at hat; simp at hat
      | cons p t =>
        rw [hl] at hat
        simp at hat
        have hp := List.mem_filter.1 (show p ∈ L.filter (fun p => p.2 = f) by rw [hl]; simp)
        have h2 : p.2 = f := by simpa using hp.2
        simp [← h2, hat.1]
    have hmem : (x, f) ∈ L := (List.mem_filter.1 (List.mem_of_mem_head? hfilter)).1
    rw [List.head?_filter] at hfilter
    unfold victim
    rw [← hfilter]
    apply find_congr
    intro p hp
    have h1 := hmin p hp
    rw [Bool.eq_iff_iff]
    simp only [List.all_eq_true, decide_eq_true_eq]
    constructor
    · intro h; have := h _ hmem; simp only at this; omega
    · intro h q hq; have := hmin q hq; omega

/-! ## Invariant of a bounded cache -/

structure Inv (c : LFU) (held : Nat → Nat) (L : List (Nat × Nat)) : Prop where
  pos : 0 < c.max
  owned : Owned c.heap (own c.hash held)
  nodup : c.hash.Nodup
  inj : ∀ i ∈ c.hash, ∀ j ∈ c.hash, (c.heap.ent i).key = (c.heap.ent j).key → i = j
  ref : Ref c.buckets L
  perm : (L.map Prod.fst).Perm c.hash
  size : c.size = L.length
  lim : c.size ≤ c.max

/-- Contents as the user sees them: key, value and use count, in order of last use. -/
def view (h : Heap) (L : List (Nat × Nat)) : List (List Nat × Option Nat × Nat) :=
  L.map (fun p => ((h.ent p.1).key, (h.ent p.1).val, p.2))

def abs (c : LFU) (L : List (Nat × Nat)) : List (List Nat × Option Nat × Nat) := view c.heap L

theorem inv_create {m : Int} (hm : 0 < m) : Inv (create m) (fun _ => 0) [] :=
  ⟨hm, owned_congr owned_empty (by simp [own, create]), by simp [create], by simp [create],
    ⟨trivial, by simp, by simp [create, atF]⟩, by simp [create], by simp [create], by simp [create]; omega⟩

theorem Inv.mem {c : LFU} {held L} (v : Inv c held L) {i : Nat} : i ∈ L.map Prod.fst ↔ i ∈ c.hash := v.perm.mem_iff

theorem Inv.memL {c : LFU} {held L} (v : Inv c held L) {i : Nat} (h : i ∈ c.hash) : ∃ f, (i, f) ∈ L := by
  obtain ⟨p, hp, rfl⟩ := List.mem_map.1 (v.mem.2 h)
  exact ⟨p.2, hp⟩

theorem Inv.injL {c : LFU} {held L} (v : Inv c held L) : ∀ p ∈ L, ∀ q ∈ L, (c.heap.ent p.1).key = (c.heap.ent q.1).key → p = q := by
  intro p hp q hq he
  have h1 := v.inj p.1 (v.mem.1 (List.mem_map.2 ⟨p, hp, rfl⟩)) q.1 (v.mem.1 (List.mem_map.2 ⟨q, hq, rfl⟩)) he
  have h2 : p.2 = q.2 := fst_unique v.ref.nd (i := p.1) hp (by rw [h1]; exact hq)
  exact Prod.ext h1 h2

/-- Contents without key `k`. -/
def without (k : List Nat) (l : List (List Nat × Option Nat × Nat)) : List (List Nat × Option Nat × Nat) :=
  l.filter (fun x => x.1 ≠ k)

/-- Contents after evicting: the first of least use count goes. -/
def evict (l : List (List Nat × Option Nat × Nat)) : List (List Nat × Option Nat × Nat) :=
  match l.find? (fun p => l.all (fun q => p.2.2 ≤ q.2.2)) with
  | some x => without x.1 l
  | none => l

theorem view_dropId {h : Heap} {L : List (Nat × Nat)} (inj : ∀ p ∈ L, ∀ q ∈ L, (h.ent p.1).key = (h.ent q.1).key → p = q)
    {i f : Nat} (hi : (i, f) ∈ L) : view h (dropId i L) = without (h.ent i).key (view h L) := by
  unfold view without dropId
  rw [List.filter_map]
  congr 1
  apply List.filter_congr
  intro p hp
  simp only [Function.comp]
  by_cases c : p.1 = i
  · simp [c]
  · have : (h.ent p.1).key ≠ (h.ent i).key := by
      intro e; have := inj p hp (i, f) hi e; rw [this] at c; exact c rfl
    simp [c, this]

theorem view_none {h : Heap} {L : List (Nat × Nat)} {k : List Nat} (hn : ∀ p ∈ L, (h.ent p.1).key ≠ k) :
    without k (view h L) = view h L := by
  unfold without
  rw [List.filter_eq_self]
  intro a ha
  obtain ⟨p, hp, rfl⟩ := List.mem_map.1 ha
  simp [hn p hp]

theorem view_same {h h' : Heap} {L : List (Nat × Nat)}
    (d : ∀ p ∈ L, (h'.ent p.1).key = (h.ent p.1).key ∧ (h'.ent p.1).val = (h.ent p.1).val) : view h' L = view h L := by
  apply List.map_congr_left
  intro p hp
  rw [(d p hp).1, (d p hp).2]

theorem view_evict {h : Heap} {L : List (Nat × Nat)} (inj : ∀ p ∈ L, ∀ q ∈ L, (h.ent p.1).key = (h.ent q.1).key → p = q)
    {x f : Nat} (hv : victim L = some (x, f)) : view h (dropId x L) = evict (view h L) := by
  have hm : (x, f) ∈ L := List.mem_of_find?_eq_some hv
  rw [view_dropId inj hm]
  unfold evict
  have : (view h L).find? (fun p => (view h L).all (fun q => p.2.2 ≤ q.2.2)) =
      some ((h.ent x).key, (h.ent x).val, f) := by
    unfold victim at hv
    have e : (view h L).find? (fun p => (view h L).all (fun q => p.2.2 ≤ q.2.2)) =
        (L.find? (fun p => L.all (fun q => p.2 ≤ q.2))).map (fun p => ((h.ent p.1).key, (h.ent p.1).val, p.2)) := by
      unfold view
      rw [List.find?_map]
      congr 2
      funext p
      simp only [Function.comp, List.all_map]
      rfl
    rw [e, hv]; rfl
  rw [this]

theorem perm_dropId {L : List (Nat × Nat)} {hash : List Nat} (nd : (L.map Prod.fst).Nodup) (p : (L.map Prod.fst).Perm hash) (i : Nat) :
    ((dropId i L).map Prod.fst).Perm (hash.erase i) := by
  have h1 : (dropId i L).map Prod.fst = (L.map Prod.fst).erase i := by
    rw [nd.erase_eq_filter, List.filter_map]
    unfold dropId
    congr 1
    apply List.filter_congr
    intro p _
    by_cases c : p.1 = i <;> simp [c]
  rw [h1]; exact p.erase i

theorem length_dropId {L : List (Nat × Nat)} (nd : (L.map Prod.fst).Nodup) {i f : Nat} (h : (i, f) ∈ L) :
    (dropId i L).length + 1 = L.length := by
  have := (perm_dropId nd (List.Perm.refl _) i).length_eq
  rw [List.length_erase_of_mem (List.mem_map.2 ⟨_, h, rfl⟩)] at this
  simp only [List.length_map] at this
  have := List.length_pos_of_mem h
  omega

/-- State in the middle of `put`: the new entry is in the hash but in no bucket. -/
structure Mid (c : LFU) (e : Nat) (held : Nat → Nat) (L : List (Nat × Nat)) : Prop where
  pos : 0 < c.max
  owned : Owned c.heap (own c.hash held)
  nodup : c.hash.Nodup
  inj : ∀ i ∈ c.hash, ∀ j ∈ c.hash, (c.heap.ent i).key = (c.heap.ent j).key → i = j
  ref : Ref c.buckets L
  perm : (e :: L.map Prod.fst).Perm c.hash
  size : c.size = L.length
  lim : c.size ≤ c.max

theorem Mid.injL {c : LFU} {e held L} (v : Mid c e held L) :
    ∀ p ∈ L, ∀ q ∈ L, (c.heap.ent p.1).key = (c.heap.ent q.1).key → p = q := by
  intro p hp q hq he
  have mem : ∀ p ∈ L, p.1 ∈ c.hash := fun p hp => v.perm.mem_iff.1 (List.mem_cons_of_mem _ (List.mem_map.2 ⟨p, hp, rfl⟩))
  have h1 := v.inj p.1 (mem p hp) q.1 (mem q hq) he
  exact Prod.ext h1 (fst_unique v.ref.nd (i := p.1) hp (by rw [h1]; exact hq))

theorem expire_spec {c : LFU} {e : Nat} {held L} (m : Mid c e held L) (hne : L ≠ []) :
    ∃ c' L', expire c = .ok c' ∧ Mid c' e held L' ∧ c'.size = c.size - 1 ∧
      c'.max = c.max ∧ SameData c.heap c'.heap ∧ abs c' L' = evict (abs c L) := by
  obtain ⟨f, x, ids, rest, hb, hv⟩ := ref_victim m.ref hne
  have hm : (x, f) ∈ L := List.mem_of_find?_eq_some hv
  have hxh : x ∈ c.hash := m.perm.mem_iff.1 (List.mem_cons_of_mem _ (List.mem_map.2 ⟨_, hm, rfl⟩))
  have ndl := m.perm.nodup_iff.2 m.nodup
  have hxe : x ≠ e := by
    rintro rfl; exact (List.nodup_cons.1 ndl).1 (List.mem_map.2 ⟨_, hm, rfl⟩)
  obtain ⟨bs', b, r1, r2⟩ := ref_remove m.ref hm
  have hu : unlink c x = .ok { c with buckets := bs', bfrees := c.bfrees + if b then 1 else 0 } := by
    unfold unlink; rw [r1]
  have hf := Lru.hsFind_unique m.inj hxh
  have hperm : (e :: (dropId x L).map Prod.fst).Perm (c.hash.erase x) := by
    have := m.perm.erase x
    rw [List.erase_cons_tail (by simpa using Ne.symm hxe)] at this
    refine List.Perm.trans ?_ this
    exact (perm_dropId m.ref.nd (List.Perm.refl _) x).cons e
  obtain ⟨h', q1, q2, q3, _⟩ := release_spec m.owned (i := x) (by unfold own; simp [hxh])
  unfold expire
  rw [hb]
  simp only [hu, Out.ok_bind, hf, q1]
  rw [if_neg (by rintro ⟨_, h0⟩; have := hperm.length_eq; simp [h0] at this)]
  have hl := length_dropId m.ref.nd hm
  have hs := m.size
  have hlim := m.lim
  refine ⟨_, dropId x L, rfl, ⟨m.pos, owned_congr q2 (Lru.own_erase m.nodup hxh), m.nodup.erase x, ?_, r2, hperm, ?_, ?_⟩,
    rfl, rfl, q3, ?_⟩
  · intro i hi j hj hk
    rw [q3.key, q3.key] at hk
    exact m.inj i (List.mem_of_mem_erase hi) j (List.mem_of_mem_erase hj) hk
  · simp only; omega
  · simp only; omega
  · unfold abs
    simp only
    rw [view_same (h := c.heap) (fun p _ => ⟨q3.key p.1, q3.val p.1⟩)]
    exact view_evict m.injL hv

theorem add_spec {c : LFU} {e : Nat} {held L} (m : Mid c e held L) :
    ∃ c' L', add c e = .ok c' ∧ Inv c' held L' ∧ c'.max = c.max ∧ SameData c.heap c'.heap ∧
      abs c' L' = (if c.size + 1 > c.max then evict (abs c L) else abs c L) ++ [((c.heap.ent e).key, (c.heap.ent e).val, 1)] := by
  unfold add
  rw [if_pos m.pos]
  have fin : ∀ {c : LFU} {L}, Mid c e held L → c.size + 1 ≤ c.max →
      Inv { c with buckets := (insertB c.buckets e).1, ballocs := c.ballocs + (insertB c.buckets e).2.1, size := c.size + 1 } held
        (L ++ [(e, 1)]) := by
    intro c L m hle
    have ndl := m.perm.nodup_iff.2 m.nodup
    refine ⟨m.pos, m.owned, m.nodup, m.inj, ref_insert m.ref (List.nodup_cons.1 ndl).1, ?_, ?_, hle⟩
    · rw [List.map_append]
      exact (List.perm_append_comm).trans m.perm
    · have := m.size; simp; omega
  by_cases hs : c.size + 1 > c.max
  · have hL : L ≠ [] := by
      rintro rfl; have := m.size; have := m.pos; simp at *; omega
    obtain ⟨c1, L1, e1, m1, s1, x1, d1, a1⟩ := expire_spec m hL
    simp only [if_pos hs, e1, Out.ok_bind]
    have hl := m.lim
    refine ⟨_, _, rfl, fin m1 (by omega), x1, d1, ?_⟩
    show view c1.heap (L1 ++ [(e, 1)]) = _
    rw [← a1, abs, view, List.map_append, ← d1.key, ← d1.val]; rfl
  · simp only [if_neg hs, Out.ok_bind]
    refine ⟨_, _, rfl, fin m (by omega), rfl, SameData.refl _, ?_⟩
    show view c.heap (L ++ [(e, 1)]) = _
    rw [view, List.map_append]; rfl

theorem not_mem_next {c : LFU} {held L} (v : Inv c held L) : c.heap.next ∉ c.hash := by
  have hn : own c.hash held c.heap.next = 0 := v.owned.dead _ (v.owned.fresh _ (Nat.le_refl _))
  intro hh; unfold own at hn; rw [if_pos hh] at hn; omega

/-- Replacing: the old entry leaves the buckets, the hash and its reference goes; the new is hashed. -/
theorem mid_replace {c : LFU} {held L} (v : Inv c held L) (k : List Nat) (val : Nat) {p f : Nat}
    (hp : p ∈ c.hash) (hkp : (c.heap.ent p).key = k) (hpL : (p, f) ∈ L) :
    ∃ c1 h', unlink c p = .ok c1 ∧ c1.heap = c.heap ∧ c1.hash = c.hash ∧ c1.size = c.size ∧ c1.max = c.max ∧
      (c.heap.alloc k val).release p = .ok h' ∧ SameData (c.heap.alloc k val) h' ∧
      Mid { c1 with heap := h', hash := c.heap.next :: c.hash.erase p, size := c.size - 1 } c.heap.next held (dropId p L) := by
  have hnm := not_mem_next v
  have hpn : p ≠ c.heap.next := fun h => hnm (h ▸ hp)
  have hn : own c.hash held c.heap.next = 0 := v.owned.dead _ (v.owned.fresh _ (Nat.le_refl _))
  have oa := owned_alloc v.owned k val
  obtain ⟨h', r1, r2, r3, _⟩ := release_spec oa (i := p) (by simp only [if_neg hpn]; unfold own; simp [hp])
  obtain ⟨bs', b, u1, u2⟩ := ref_remove v.ref hpL
  have hu : unlink c p = .ok { c with buckets := bs', bfrees := c.bfrees + if b then 1 else 0 } := by
    unfold unlink; rw [u1]
  refine ⟨_, h', hu, rfl, rfl, rfl, rfl, r1, r3, ?_⟩
  have hnm' : c.heap.next ∉ c.hash.erase p := fun h => hnm (List.mem_of_mem_erase h)
  have key : ∀ i ∈ c.hash, (h'.ent i).key = (c.heap.ent i).key := by
    intro i hi; rw [r3.key, Lru.alloc_key _ _ _ _ (fun h => hnm (h ▸ hi))]
  have keyn : (h'.ent c.heap.next).key = k := by rw [r3.key]; simp [Heap.alloc]
  have hl := length_dropId v.ref.nd hpL
  have hs := v.size
  have hlim := v.lim
  refine ⟨v.pos, owned_congr r2 ?_, List.nodup_cons.2 ⟨hnm', v.nodup.erase p⟩, ?_, u2,
    (perm_dropId v.ref.nd v.perm p).cons _, ?_, ?_⟩
  · intro j
    by_cases c1 : j = p
    · subst c1; simp only [if_true, if_neg hpn]
      unfold own; simp [hp, v.nodup.mem_erase_iff, hpn]
    · simp only [if_neg c1]
      by_cases c2 : j = c.heap.next
      · subst c2; unfold own at hn ⊢; simp; split at hn <;> omega
      · simp only [if_neg c2]; unfold own; simp [c1, c2, v.nodup.mem_erase_iff]
  · intro i hi j hj he
    simp only [List.mem_cons] at hi hj
    have ne : ∀ i ∈ c.hash.erase p, (c.heap.ent i).key ≠ k := by
      intro i hi hh
      rw [v.nodup.mem_erase_iff] at hi
      exact hi.1 (v.inj i hi.2 p hp (hh.trans hkp.symm))
    rcases hi with hi | hi <;> rcases hj with hj | hj
    · rw [hi, hj]
    · rw [hi, keyn, key j (List.mem_of_mem_erase hj)] at he; exact absurd he.symm (ne j hj)
    · rw [hj, keyn, key i (List.mem_of_mem_erase hi)] at he; exact absurd he (ne i hi)
    · rw [key i (List.mem_of_mem_erase hi), key j (List.mem_of_mem_erase hj)] at he
      exact v.inj i (List.mem_of_mem_erase hi) j (List.mem_of_mem_erase hj) he
  · simp only; omega
  · simp only; omega

theorem mid_fresh {c : LFU} {held L} (v : Inv c held L) (k : List Nat) (val : Nat)
    (hk : ∀ i ∈ c.hash, (c.heap.ent i).key ≠ k) :
    Mid { c with heap := c.heap.alloc k val, hash := c.heap.next :: c.hash } c.heap.next held L := by
  have hnm := not_mem_next v
  have hn : own c.hash held c.heap.next = 0 := v.owned.dead _ (v.owned.fresh _ (Nat.le_refl _))
  refine ⟨v.pos, owned_congr (owned_alloc v.owned k val) (Lru.own_alloc hn), List.nodup_cons.2 ⟨hnm, v.nodup⟩, ?_,
    v.ref, v.perm.cons _, v.size, v.lim⟩
  intro i hi j hj he
  have key : ∀ i, ((c.heap.alloc k val).ent i).key = if i = c.heap.next then k else (c.heap.ent i).key := by
    intro i; unfold Heap.alloc; simp only; split <;> rfl
  rw [key, key] at he
  simp only [List.mem_cons] at hi hj
  rcases hi with hi | hi <;> rcases hj with hj | hj
  · rw [hi, hj]
  · have : j ≠ c.heap.next := fun h => hnm (h ▸ hj)
    rw [if_pos hi, if_neg this] at he; exact absurd he.symm (hk j hj)
  · have : i ≠ c.heap.next := fun h => hnm (h ▸ hi)
    rw [if_neg this, if_pos hj] at he; exact absurd he (hk i hi)
  · have h1 : i ≠ c.heap.next := fun h => hnm (h ▸ hi)
    have h2 : j ≠ c.heap.next := fun h => hnm (h ▸ hj)
    rw [if_neg h1, if_neg h2] at he; exact v.inj i hi j hj he

/-- Complete description of `put`. -/
theorem put_spec {c : LFU} {held L} (v : Inv c held L) (k : List Nat) (val : Nat) :
    ∃ c' L', put c k val = .ok (c', true) ∧ Inv c' held L' ∧ c'.max = c.max ∧
      SameData (c.heap.alloc k val) c'.heap ∧
      abs c' L' = (if ((without k (abs c L)).length : Int) + 1 > c.max then evict (without k (abs c L)) else without k (abs c L))
        ++ [(k, some val, 1)] := by
  unfold put
  have hnm := not_mem_next v
  have hpos := v.pos
  rw [if_neg (by omega)]
  cases hf : hsFind c.heap c.hash k with
  | none =>
    have hk := Lru.hsFind_none hf
    have m := mid_fresh v k val hk
    have hmem : ∀ p ∈ L, p.1 ∈ c.hash := fun p hp => v.mem.1 (List.mem_map.2 ⟨p, hp, rfl⟩)
    have ha : abs { c with heap := c.heap.alloc k val, hash := c.heap.next :: c.hash } L = abs c L := by
      apply view_same
      intro p hp
      simp only
      rw [Lru.alloc_key _ _ _ _ (fun h => hnm (h ▸ hmem p hp))]
      exact ⟨rfl, rfl⟩
    have hw : without k (abs c L) = abs c L := view_none (fun p hp => hk p.1 (hmem p hp))
    obtain ⟨c', L', e1, i1, x1, d1, a1⟩ := add_spec m
    simp only [e1, Out.ok_bind]
    refine ⟨c', L', rfl, i1, x1, d1, ?_⟩
    rw [a1, ha, hw]
    have hlen : ((abs c L).length : Int) = c.size := by rw [v.size]; simp [abs, view]
    rw [hlen]
    simp [Heap.alloc]
  | some p =>
    obtain ⟨hp, hkp⟩ := Lru.hsFind_some hf
    obtain ⟨f, hpL⟩ := v.memL hp
    obtain ⟨c1, h', u1, u2, u3, u4, u5, r1, r2, m⟩ := mid_replace v k val hp hkp hpL
    simp only [u1, u3, u4, Out.ok_bind, r1]
    have hw : view c.heap (dropId p L) = without k (abs c L) := by
      rw [view_dropId v.injL hpL, hkp]; rfl
    have ha : abs { c1 with heap := h', hash := c.heap.next :: c.hash.erase p, size := c.size - 1 } (dropId p L) =
        without k (abs c L) := by
      rw [← hw]
      apply view_same
      intro q hq
      simp only
      have : q.1 ∈ c.hash := v.mem.1 (List.mem_map.2 ⟨q, (List.mem_filter.1 hq).1, rfl⟩)
      rw [r2.key, r2.val, Lru.alloc_key _ _ _ _ (fun h => hnm (h ▸ this))]
      exact ⟨rfl, rfl⟩
    obtain ⟨c', L', e1, i1, x1, d1, a1⟩ := add_spec m
    simp only [e1, Out.ok_bind]
    refine ⟨c', L', rfl, i1, x1.trans u5, r2.trans d1, ?_⟩
    rw [a1, ha]
    have hlen : ((without k (abs c L)).length : Int) = c.size - 1 := by
      rw [← hw, v.size]; have := length_dropId v.ref.nd hpL; simp [view]; omega
    rw [hlen]
    simp only [r2.key, r2.val, u5]
    simp [Heap.alloc]

/-- Value and use count under `k` in the contents. -/
def lookup (k : List Nat) (l : List (List Nat × Option Nat × Nat)) : Option (Option Nat × Nat) :=
  (l.find? (fun x => x.1 == k)).map Prod.snd

theorem lookup_hit {c : LFU} {held L} (v : Inv c held L) {k : List Nat} {p f : Nat} (hkp : (c.heap.ent p).key = k)
    (hpL : (p, f) ∈ L) : lookup k (abs c L) = some ((c.heap.ent p).val, f) := by
  unfold lookup abs view
  rw [List.find?_map]
  have : L.find? ((fun x : List Nat × Option Nat × Nat => x.1 == k) ∘ fun p => ((c.heap.ent p.1).key, (c.heap.ent p.1).val, p.2)) =
      some (p, f) := by
    cases hf : L.find? ((fun x : List Nat × Option Nat × Nat => x.1 == k) ∘ fun p => ((c.heap.ent p.1).key, (c.heap.ent p.1).val, p.2)) with
    | none =>
      have := List.find?_eq_none.1 hf _ hpL
      simp [hkp] at this
    | some q =>
      have h1 := List.mem_of_find?_eq_some hf
      have h2 := List.find?_some hf
      simp at h2
      rw [v.injL q h1 (p, f) hpL (h2.trans hkp.symm)]
  rw [this]; rfl

theorem lookup_miss {c : LFU} {held L} (v : Inv c held L) {k : List Nat} (hf : hsFind c.heap c.hash k = none) :
    lookup k (abs c L) = none := by
  have hk := Lru.hsFind_none hf
  unfold lookup
  rw [List.find?_eq_none.2]
  · rfl
  · intro x hx
    obtain ⟨p, hp, rfl⟩ := List.mem_map.1 hx
    simpa using hk p.1 (v.mem.1 (List.mem_map.2 ⟨p, hp, rfl⟩))

theorem get_miss {c : LFU} {held L} (v : Inv c held L) (k : List Nat) (h : lookup k (abs c L) = none) :
    get c k = .ok (c, none) := by
  have hpos := v.pos
  unfold get
  rw [if_neg (by omega)]
  cases hf : hsFind c.heap c.hash k with
  | none => rfl
  | some p =>
    obtain ⟨hp, hkp⟩ := Lru.hsFind_some hf
    obtain ⟨f, hpL⟩ := v.memL hp
    rw [lookup_hit v hkp hpL] at h; exact absurd h (by simp)

theorem get_hit {c : LFU} {held L} (v : Inv c held L) (k : List Nat) {x : Option Nat} {n : Nat}
    (h : lookup k (abs c L) = some (x, n)) :
    ∃ c' L' p, get c k = .ok (c', some (p, x)) ∧ Inv c' (fun j => if j = p then held p + 1 else held j) L' ∧
      c'.max = c.max ∧ SameData c.heap c'.heap ∧ abs c' L' = without k (abs c L) ++ [(k, x, n + 1)] ∧ p ∈ c.hash ∧
      (c.heap.ent p).key = k := by
  have hpos := v.pos
  unfold get
  rw [if_neg (by omega)]
  cases hf : hsFind c.heap c.hash k with
  | none => rw [lookup_miss v hf] at h; exact absurd h (by simp)
  | some p =>
    obtain ⟨hp, hkp⟩ := Lru.hsFind_some hf
    obtain ⟨f, hpL⟩ := v.memL hp
    rw [lookup_hit v hkp hpL] at h
    obtain ⟨rfl, rfl⟩ : (c.heap.ent p).val = x ∧ f = n := by simpa using h
    obtain ⟨bs', a, t1, t2⟩ := ref_touch v.ref hpL
    obtain ⟨h', r1, r2, r3⟩ := retain_spec v.owned (i := p) (by unfold own; simp [hp])
    have ht : touch c p = .ok { c with buckets := bs', ballocs := c.ballocs + a.1 } := by
      unfold touch; rw [if_pos hpos, t1]
    simp only [ht, Out.ok_bind, r1, r3.val]
    have hl := length_dropId v.ref.nd hpL
    have hs := v.size
    refine ⟨_, dropId p L ++ [(p, f + 1)], p, rfl, ⟨v.pos, owned_congr r2 ?_, v.nodup, ?_, t2, ?_, ?_, v.lim⟩, rfl, r3, ?_, hp, hkp⟩
    · intro j; by_cases c1 : j = p <;> simp [own, c1] ; omega
    · intro i hi j hj he
      rw [r3.key, r3.key] at he; exact v.inj i hi j hj he
    · rw [List.map_append]
      refine List.perm_append_comm.trans ?_
      refine ((perm_dropId v.ref.nd v.perm p).cons p).trans ?_
      exact (List.perm_cons_erase hp).symm
    · simp; omega
    · show view h' (dropId p L ++ [(p, f + 1)]) = _
      rw [view_same (h := c.heap) (fun q _ => ⟨r3.key q.1, r3.val q.1⟩), view, List.map_append]
      show view c.heap (dropId p L) ++ _ = _
      rw [view_dropId v.injL hpL, hkp]; simp [abs, hkp]

theorem remove_miss {c : LFU} {held L} (v : Inv c held L) (k : List Nat) (h : lookup k (abs c L) = none) :
    remove c k = .ok (c, none) := by
  have hpos := v.pos
  unfold remove
  rw [if_neg (by omega)]
  cases hf : hsFind c.heap c.hash k with
  | none => rfl
  | some p =>
    obtain ⟨hp, hkp⟩ := Lru.hsFind_some hf
    obtain ⟨f, hpL⟩ := v.memL hp
    rw [lookup_hit v hkp hpL] at h; exact absurd h (by simp)

theorem remove_hit {c : LFU} {held L} (v : Inv c held L) (k : List Nat) {x : Option Nat} {n : Nat}
    (h : lookup k (abs c L) = some (x, n)) :
    ∃ c' L' p, remove c k = .ok (c', some (p, x)) ∧ Inv c' held L' ∧ c'.max = c.max ∧
      abs c' L' = without k (abs c L) ∧ p ∈ c.hash ∧ p ∉ c'.hash ∧
      (∀ i, (c'.heap.ent i).key = (c.heap.ent i).key) ∧
      (∀ i, (c'.heap.ent i).val = if i = p then none else (c.heap.ent i).val) ∧ c'.heap.next = c.heap.next := by
  have hpos := v.pos
  unfold remove
  rw [if_neg (by omega)]
  cases hf : hsFind c.heap c.hash k with
  | none => rw [lookup_miss v hf] at h; exact absurd h (by simp)
  | some p =>
    obtain ⟨hp, hkp⟩ := Lru.hsFind_some hf
    obtain ⟨f, hpL⟩ := v.memL hp
    rw [lookup_hit v hkp hpL] at h
    obtain ⟨rfl, rfl⟩ : (c.heap.ent p).val = x ∧ f = n := by simpa using h
    have h1p : 1 ≤ own c.hash held p := by unfold own; simp [hp]
    obtain ⟨h0, r1, r2, rk, rv, rn⟩ := clearVal_spec v.owned h1p
    obtain ⟨h', q1, q2, q3, _⟩ := release_spec r2 h1p
    obtain ⟨bs', b, u1, u2⟩ := ref_remove v.ref hpL
    have hu : unlink c p = .ok { c with buckets := bs', bfrees := c.bfrees + if b then 1 else 0 } := by
      unfold unlink; rw [u1]
    simp only [if_pos (show c.max > 0 from hpos), hu, Out.ok_bind, r1, q1]
    have key : ∀ i, (h'.ent i).key = (c.heap.ent i).key := by intro i; rw [q3.key, rk]
    have vals : ∀ i, (h'.ent i).val = if i = p then none else (c.heap.ent i).val := by intro i; rw [q3.val, rv]
    have hl := length_dropId v.ref.nd hpL
    have hs := v.size
    have hlim := v.lim
    refine ⟨_, dropId p L, p, rfl, ⟨v.pos, owned_congr q2 (Lru.own_erase v.nodup hp), v.nodup.erase p, ?_, u2,
      perm_dropId v.ref.nd v.perm p, ?_, ?_⟩, rfl, ?_, hp, ?_, key, vals, q3.next.trans rn⟩
    · intro i hi j hj he
      rw [key, key] at he
      exact v.inj i (List.mem_of_mem_erase hi) j (List.mem_of_mem_erase hj) he
    · simp only; omega
    · simp only; omega
    · show view h' (dropId p L) = _
      have e1 : view h' (dropId p L) = view c.heap (dropId p L) := by
        apply view_same
        intro q hq
        have : q.1 ≠ p := by simpa using (List.mem_filter.1 hq).2
        exact ⟨key q.1, by rw [vals, if_neg this]⟩
      rw [e1, view_dropId v.injL hpL, hkp]; rfl
    · intro hh
      exact (v.nodup.mem_erase_iff.1 hh).1 rfl

theorem release_tok {c : LFU} {held L} (v : Inv c held L) {i : Nat} (hi : 1 ≤ held i) :
    ∃ c', release c i = .ok c' ∧ Inv c' (fun j => if j = i then held i - 1 else held j) L ∧
      c'.max = c.max ∧ abs c' L = abs c L ∧ SameData c.heap c'.heap := by
  obtain ⟨h', q1, q2, q3, _⟩ := release_spec v.owned (i := i) (by unfold own; omega)
  unfold release
  simp only [q1, Out.ok_bind]
  refine ⟨_, rfl, ⟨v.pos, owned_congr q2 ?_, v.nodup, ?_, v.ref, v.perm, v.size, v.lim⟩, rfl, ?_, q3⟩
  · intro j; by_cases c1 : j = i
    · subst c1; simp [own]; omega
    · simp [own, c1]
  · intro a ha b hb he; rw [q3.key, q3.key] at he; exact v.inj a ha b hb he
  · exact view_same (fun p _ => ⟨q3.key p.1, q3.val p.1⟩)

theorem mem_allIds {lo : Nat} {bs : Buckets} (ok : OkB lo bs) (i : Nat) : i ∈ allIds bs ↔ ∃ g, i ∈ atF bs g := by
  induction bs generalizing lo with
  | nil => simp [allIds, atF]
  | cons b rest ih =>
    obtain ⟨f, ids⟩ := b
    obtain ⟨o1, o2, o3⟩ := ok
    have ih' := ih o3
    simp only [allIds, List.flatMap_cons, List.mem_append] at ih' ⊢
    rw [ih']
    constructor
    · rintro (h | ⟨g, h⟩)
      · exact ⟨f, by simpa [atF] using h⟩
      · have := okB_min o3 h
        exact ⟨g, by simp only [atF, if_neg (show f ≠ g by omega)]; exact h⟩
    · rintro ⟨g, h⟩
      by_cases hg : f = g
      · left; simpa [atF, hg] using h
      · right; exact ⟨g, by simpa [atF, hg] using h⟩

theorem nodup_allIds {lo : Nat} {bs : Buckets} (ok : OkB lo bs) (nd : ∀ g, (atF bs g).Nodup)
    (dj : ∀ i g g', i ∈ atF bs g → i ∈ atF bs g' → g = g') : (allIds bs).Nodup := by
  induction bs generalizing lo with
  | nil => simp [allIds]
  | cons b rest ih =>
    obtain ⟨f, ids⟩ := b
    obtain ⟨o1, o2, o3⟩ := ok
    have lift : ∀ {i g}, i ∈ atF rest g → i ∈ atF ((f, ids) :: rest) g := by
      intro i g h
      have := okB_min o3 h
      simp only [atF, if_neg (show f ≠ g by omega)]; exact h
    have nd' : ∀ g, (atF rest g).Nodup := by
      intro g
      by_cases hg : g ≤ f
      · rw [atF_low o3 g hg]; simp
      · have := nd g; simpa [atF, show f ≠ g by omega] using this
    have h2 := ih o3 nd' (fun i g g' h h' => dj i g g' (lift h) (lift h'))
    simp only [allIds, List.flatMap_cons] at h2 ⊢
    rw [List.nodup_append]
    refine ⟨by simpa [atF] using nd f, h2, ?_⟩
    intro a ha b hb hab
    subst hab
    obtain ⟨g, hg⟩ := (mem_allIds o3 a).1 hb
    have h3 := okB_min o3 hg
    have h4 := dj a f g (by simpa [atF] using ha) (lift hg)
    omega

theorem invalidate_spec {c : LFU} {held L} (v : Inv c held L) :
    ∃ c', invalidate c = .ok c' ∧ Inv c' held [] ∧ c'.max = c.max ∧ SameData c.heap c'.heap := by
  have r := v.ref
  have inm : ∀ i, i ∈ allIds c.buckets ↔ i ∈ c.hash := by
    intro i
    rw [mem_allIds r.ok, ← v.mem]
    constructor
    · rintro ⟨g, h⟩
      rw [r.at_eq] at h
      obtain ⟨p, hp, rfl⟩ := List.mem_map.1 h
      exact List.mem_map.2 ⟨p, (List.mem_filter.1 hp).1, rfl⟩
    · intro h
      obtain ⟨p, hp, rfl⟩ := List.mem_map.1 h
      exact ⟨p.2, (ref_in r (i := p.1) (f := p.2) hp).1⟩
  have nd : (allIds c.buckets).Nodup := by
    refine nodup_allIds r.ok ?_ ?_
    · intro g; rw [r.at_eq]; exact r.nd.sublist (List.Sublist.map _ List.filter_sublist)
    · intro i g g' h h'
      rw [r.at_eq] at h h'
      obtain ⟨p, hp, rfl⟩ := List.mem_map.1 h
      obtain ⟨q, hq, he⟩ := List.mem_map.1 h'
      obtain ⟨p1, p2⟩ := List.mem_filter.1 hp
      obtain ⟨q1, q2⟩ := List.mem_filter.1 hq
      have := fst_unique r.nd (i := p.1) (f := p.2) (g := q.2) p1 (by rw [← he]; exact q1)
      simp at p2 q2; omega
  have o : Owned c.heap (own (allIds c.buckets) held) := owned_congr v.owned (by
    intro j; unfold own; by_cases hj : j ∈ c.hash
    · simp [hj, (inm j).2 hj]
    · have : j ∉ allIds c.buckets := fun h => hj ((inm j).1 h)
      simp [hj, this])
  obtain ⟨h', q1, q2, q3⟩ := Lru.releaseAll_spec _ c.heap nd o
  unfold invalidate
  simp only [q1, Out.ok_bind]
  have := v.pos
  exact ⟨_, rfl, ⟨v.pos, q2, by simp, by simp, ⟨trivial, by simp, by simp [atF]⟩, by simp, rfl, by simp only; omega⟩, rfl, q3⟩

end Mtev.Lfu
