import Verif.Mem
import Mathlib.Data.List.Rotate
import Mathlib.Data.List.Nodup
import Mathlib.Data.List.Perm.Basic

/-!
Model of the consistent hash table, /repo/src/utils/mtev_cht.c (whole file except the
`mtev_cht_free` wrapper and the caller-owned node storage).
-/

namespace Mtev.Cht

/-- `struct ring_pos`, mtev_cht.c:40-44.  `node_idx` and `vnode` are `unsigned short`. -/
structure RP where
  pos : Nat
  node : Nat
  vnode : Nat
deriving DecidableEq, Repr

/-- `mtev_cht_alloc_custom`'s normalisation of `nbits`, mtev_cht.c:165-167. -/
def normBits (nbits : Nat) : Nat :=
  let n := if nbits = 0 then 32 else nbits
  let n := if n > 32 then 32 else n
  if n < 16 then 16 else n

/-- `mtev_cht_alloc_custom`'s normalisation of `weight`, mtev_cht.c:169. -/
def normWeight (w : Nat) : Nat := if w < 1 then 1 else w

/-- `max`, mtev_cht.c:86-87: the largest ring position. -/
def maxPos (nbits : Nat) : Nat := 2 ^ nbits - 1

/-- `mtev_cht_hash`, mtev_cht.c:54-62: the 32-bit hash masked to `nbits`.  The hash function
itself (`mtev_hash__hash`) is a parameter of the model: `hv` is its result. -/
def maskHash (nbits hv : Nat) : Nat := if nbits = 32 then hv else hv % 2 ^ nbits

/-- The HASH step of `mtev_cht_calculate_ring`, mtev_cht.c:89-99.  `h i j` is the 32-bit hash of
the name of node `i` with initial value `j`. -/
def fill (nbits weight cnt : Nat) (h : Nat → Nat → Nat) : List RP :=
  (List.range cnt).flatMap fun i =>
    (List.range weight).map fun j => ⟨maskHash nbits (h i j), i % 65536, j % 65536⟩

/-- What `qsort` with `ring_node_cmp` (mtev_cht.c:70-76,102) may return: any ordering by position
of the same elements (`qsort` is not stable, so ties come in any order). -/
def QSorted (l l' : List RP) : Prop :=
  l'.Perm l ∧ l'.Pairwise (fun a b => a.pos ≤ b.pos)

def posAt (r : List RP) (i : Nat) : Nat := (r.getD i ⟨0, 0, 0⟩).pos

/-- The `for(i=rsize-1;i>0;i--)` search of the first collision pass, mtev_cht.c:108-111: the
largest index `i` whose position equals that of `i-1` and is not 0. -/
def scanDown (r : List RP) : Nat → Option Nat
  | 0 => none
  | i+1 => if posAt r i = posAt r (i+1) ∧ posAt r i ≠ 0 then some (i+1) else scanDown r i

/-- Whether the inner loop at mtev_cht.c:113-120 touches index `j`, having collided at `i`. -/
def hitDown (v i j : Nat) (p : RP) : Bool := 1 ≤ j && j < i && p.pos == v && 0 < p.pos

/-- One turn of the `while(collision)` loop at mtev_cht.c:106-123; `none` when `collision` stays 0.
After the inner loop `i` is 0, so the `for` loop ends too.  The inner loop visits each index
`i-1 .. 1` once and compares with the untouched `e`, so it is written as an indexed map. -/
def sweepDown (r : List RP) : Option (List RP) :=
  match scanDown r (r.length - 1) with
  | none => none
  | some i =>
    let v := posAt r i
    if (r.mapIdx fun j p => hitDown v i j p).any id then
      some (r.mapIdx fun j p => if hitDown v i j p then { p with pos := p.pos - 1 } else p)
    else none

/-- The `for(i=0;i<rsize-1;i++)` search of the second pass, mtev_cht.c:128-131; `n` indices left. -/
def scanUp (r : List RP) (max : Nat) : Nat → Nat → Option Nat
  | _, 0 => none
  | i, n+1 =>
    if posAt r i = posAt r (i+1) ∧ posAt r (i+1) ≠ max then some i else scanUp r max (i+1) n

/-- Whether the inner loop at mtev_cht.c:133-140 touches index `j`. -/
def hitUp (v max i j : Nat) (p : RP) : Bool := i < j && p.pos == v && p.pos < max

/-- One turn of the `while(collision)` loop at mtev_cht.c:126-143. -/
def sweepUp (max : Nat) (r : List RP) : Option (List RP) :=
  match scanUp r max 0 (r.length - 1) with
  | none => none
  | some i =>
    let v := posAt r i
    if (r.mapIdx fun j p => hitUp v max i j p).any id then
      some (r.mapIdx fun j p => if hitUp v max i j p then { p with pos := p.pos + 1 } else p)
    else none

/-- A `while(collision)` loop, with fuel. -/
def untilStable (sweep : List RP → Option (List RP)) : Nat → List RP → List RP
  | 0, r => r
  | n+1, r => match sweep r with
    | none => r
    | some r' => untilStable sweep n r'

def sumPos (r : List RP) : Nat := (r.map RP.pos).sum

/-- Both collision passes, mtev_cht.c:104-143.  The fuel is enough for the loops to stop
by themselves (`passDown_stable`, `passUp_stable`). -/
def passDown (r : List RP) : List RP := untilStable sweepDown (sumPos r + 1) r
def passUp (max : Nat) (r : List RP) : List RP :=
  untilStable (sweepUp max) (r.length * max + 1 - sumPos r) r

/-- The ring left by `mtev_cht_calculate_ring` from the sorted array. -/
def fixup (max : Nat) (sorted : List RP) : List RP := passUp max (passDown sorted)

/-- Numerator (over `max + 1`) of what mtev_cht.c:145-158 adds to the share of `node`.  The code
computes in `double`; the model is exact, and `uint32_t` subtraction wraps. -/
def ownedMid (node : Nat) : List RP → Nat
  | s :: e :: rest =>
    (if s.node = node then (e.pos + 2 ^ 32 - s.pos) % 2 ^ 32 else 0) + ownedMid node (e :: rest)
  | _ => 0

def owned (max node : Nat) (r : List RP) : Nat :=
  ownedMid node r +
    (match r.getLast?, r.head? with
     | some s, some e => if s.node = node then max - s.pos + 1 + e.pos else 0
     | _, _ => 0)

/-- `mtev_cht_set_nodes`' trimming of `node_cnt`, mtev_cht.c:192-194 (`n` is already ≥ 0).
`1 << 31` does not fit an `int`, and neither may the product: both are undefined behaviour. -/
def trim (nbits weight : Nat) : Nat → Out Nat
  | 0 => if nbits = 31 then .ub else .ok 0
  | n+1 =>
    if nbits = 32 then .ok (n+1)
    else if nbits = 31 ∨ (n+1) * weight ≥ 2 ^ 31 then .ub
    else if (n+1) * weight > 2 ^ nbits then trim nbits weight n else .ok (n+1)

/-- The binary search, mtev_cht.c:218-228, with fuel; returns the final `m`. -/
def bsearch (r : List RP) (hash : Nat) : Nat → Nat → Nat → Nat → Nat
  | 0, _, _, m => m
  | n+1, lo, hi, m =>
    if lo < hi then
      let m := (lo + hi) / 2
      let val := posAt r m
      if hash = val then m
      else if hash < val then bsearch r hash n lo m m
      else if lo = m then m
      else bsearch r hash n m hi m
    else m

/-- The collecting loop, mtev_cht.c:235-240, over the owners still to visit. -/
def collect (w cnt : Nat) : List Nat → List Nat → List Nat
  | acc, [] => acc
  | acc, id :: rest =>
    if acc.length < w ∧ acc.length < cnt then
      if id ∈ acc then collect w cnt acc rest else collect w cnt (acc ++ [id]) rest
    else acc

/-- The value `m` has when collecting starts, mtev_cht.c:218-234. -/
def startIdx (r : List RP) (hash : Nat) : Out Nat :=
  let m := bsearch r hash (r.length + 1) 0 r.length 0
  if hash < posAt r m then
    if m = 0 then .ok (r.length - 1) else .abort
  else .ok m

/-- `mtev_cht_vlookup_n`, mtev_cht.c:205-247.  `none` is the return value -1; `some ids` lists the
indices of the nodes stored through `nodes`, whose number is the return value. -/
def vlookupN (cnt : Nat) (r : List RP) (hash : Nat) (w : Int) : Out (Option (List Nat)) :=
  let w := if w > 256 then 256 else w
  let w := (if w < 0 then 0 else w).toNat
  if cnt < 1 then .ok none
  else do
    let m ← startIdx r hash
    let owners := (List.range r.length).map fun t => (r.getD ((m + t) % r.length) ⟨0, 0, 0⟩).node
    let found := collect w cnt [] owners
    let found := if found.length < w then found ++ [(r.getD m ⟨0, 0, 0⟩).node] else found
    pure (some (found.take w))

/-! ### Lemmas -/

theorem posAt_lt {r : List RP} {i : Nat} (h : i < r.length) : posAt r i = (r[i]'h).pos := by
  simp [posAt, List.getD_eq_getElem?_getD, List.getElem?_eq_getElem h]

theorem scanDown_some {r : List RP} {n i : Nat} (h : scanDown r n = some i) :
    1 ≤ i ∧ i ≤ n ∧ posAt r (i-1) = posAt r i ∧ posAt r i ≠ 0 := by
  induction n with
  | zero => simp [scanDown] at h
  | succ n ih =>
    rw [scanDown] at h
    split at h
    · rename_i hc
      injection h with h
      subst h
      refine ⟨by omega, by omega, ?_, ?_⟩
      · simpa using hc.1
      · rw [← hc.1]; exact hc.2
    · obtain ⟨a, b, c⟩ := ih h
      exact ⟨a, by omega, c⟩

theorem scanDown_none {r : List RP} {n : Nat} (h : scanDown r n = none) :
    ∀ i, i < n → posAt r i = posAt r (i+1) → posAt r i = 0 := by
  induction n with
  | zero => intro i hi; omega
  | succ n ih =>
    rw [scanDown] at h
    split at h
    · simp at h
    · rename_i hc
      intro i hi he
      by_cases e : i = n
      · subst e
        by_contra h0
        exact hc ⟨he, h0⟩
      · exact ih h i (by omega) he

theorem scanUp_some {r : List RP} {max i n k : Nat} (h : scanUp r max i n = some k) :
    i ≤ k ∧ k < i + n ∧ posAt r k = posAt r (k+1) ∧ posAt r (k+1) ≠ max := by
  induction n generalizing i with
  | zero => simp [scanUp] at h
  | succ n ih =>
    rw [scanUp] at h
    split at h
    · rename_i hc
      injection h with h
      subst h
      exact ⟨by omega, by omega, hc⟩
    · obtain ⟨a, b, c⟩ := ih h
      exact ⟨by omega, by omega, c⟩

theorem scanUp_none {r : List RP} {max i n : Nat} (h : scanUp r max i n = none) :
    ∀ k, i ≤ k → k < i + n → posAt r k = posAt r (k+1) → posAt r (k+1) = max := by
  induction n generalizing i with
  | zero => intro k h1 h2; omega
  | succ n ih =>
    rw [scanUp] at h
    split at h
    · simp at h
    · rename_i hc
      intro k h1 h2 he
      by_cases e : k = i
      · subst e
        by_contra h0
        exact hc ⟨he, h0⟩
      · exact ih h k (by omega) (by omega) he

/-- The ring as far as the collision passes preserve it. -/
def tags (r : List RP) : List (Nat × Nat) := r.map fun p => (p.node, p.vnode)

theorem tags_mapIdx (r : List RP) (b : Nat → RP → Bool) (g : RP → Nat) :
    tags (r.mapIdx fun j p => if b j p then { p with pos := g p } else p) = tags r := by
  apply List.ext_getElem
  · simp [tags]
  · intro i h1 h2
    simp only [tags, List.getElem_map, List.getElem_mapIdx]
    split <;> rfl

theorem sum_le_of_pointwise : ∀ (a b : List RP), a.length = b.length →
    (∀ i (h1 : i < a.length) (h2 : i < b.length), a[i].pos ≤ b[i].pos) → sumPos a ≤ sumPos b
  | [], [], _, _ => by simp
  | [], _ :: _, h, _ => by simp at h
  | _ :: _, [], h, _ => by simp at h
  | x :: a, y :: b, h, hp => by
    have h0 := hp 0 (by simp) (by simp)
    have ih := sum_le_of_pointwise a b (by simpa using h) (fun i h1 h2 => by
      have := hp (i+1) (by simpa using h1) (by simpa using h2)
      simpa using this)
    simp [sumPos] at h0 ih ⊢
    omega

theorem sum_lt_of_pointwise : ∀ (a b : List RP), a.length = b.length →
    (∀ i (h1 : i < a.length) (h2 : i < b.length), a[i].pos ≤ b[i].pos) →
    (∃ i, ∃ (h1 : i < a.length) (h2 : i < b.length), a[i].pos < b[i].pos) → sumPos a < sumPos b
  | [], _, _, _, ⟨i, h1, _⟩ => by simp at h1
  | _ :: _, [], h, _, _ => by simp at h
  | x :: a, y :: b, h, hp, ⟨i, h1, h2, hlt⟩ => by
    have hp' : ∀ i (h1 : i < a.length) (h2 : i < b.length), a[i].pos ≤ b[i].pos := fun i h1 h2 => by
      have := hp (i+1) (by simpa using h1) (by simpa using h2)
      simpa using this
    cases i with
    | zero =>
      have ih := sum_le_of_pointwise a b (by simpa using h) hp'
      simp [sumPos] at hlt ih ⊢
      omega
    | succ i =>
      have h0 := hp 0 (by simp) (by simp)
      have ih := sum_lt_of_pointwise a b (by simpa using h) hp'
        ⟨i, by simpa using h1, by simpa using h2, by simpa using hlt⟩
      simp [sumPos] at h0 ih ⊢
      omega

theorem sweepDown_some {r r' : List RP} (h : sweepDown r = some r') :
    ∃ i, 1 ≤ i ∧ i < r.length ∧ posAt r (i-1) = posAt r i ∧ posAt r i ≠ 0 ∧
      r' = r.mapIdx (fun j p => if hitDown (posAt r i) i j p then { p with pos := p.pos - 1 } else p) ∧
      (∃ j, ∃ hj : j < r.length, hitDown (posAt r i) i j r[j] = true) := by
  rw [sweepDown] at h
  split at h
  · simp at h
  · rename_i i hs
    obtain ⟨h1, h2, h3, h4⟩ := scanDown_some hs
    simp only at h
    split at h
    · rename_i ha
      injection h with h
      refine ⟨i, h1, by omega, h3, h4, h.symm, ?_⟩
      rw [List.any_eq_true] at ha
      obtain ⟨x, hx, hxt⟩ := ha
      obtain ⟨j, hj, e⟩ := List.getElem_of_mem hx
      refine ⟨j, by simpa using hj, ?_⟩
      rw [List.getElem_mapIdx] at e
      rw [e]; exact hxt
    · simp at h

theorem sweepDown_length {r r' : List RP} (h : sweepDown r = some r') : r'.length = r.length := by
  obtain ⟨i, -, -, -, -, e, -⟩ := sweepDown_some h
  rw [e]; simp

theorem sweepDown_tags {r r' : List RP} (h : sweepDown r = some r') : tags r' = tags r := by
  obtain ⟨i, -, -, -, -, e, -⟩ := sweepDown_some h
  rw [e]; exact tags_mapIdx r _ (fun p => p.pos - 1)

theorem sweepDown_sum {r r' : List RP} (h : sweepDown r = some r') : sumPos r' < sumPos r := by
  obtain ⟨i, -, -, -, -, e, j, hj, hh⟩ := sweepDown_some h
  subst e
  apply sum_lt_of_pointwise
  · simp
  · intro k h1 h2
    rw [List.getElem_mapIdx]
    split <;> simp
  · refine ⟨j, by simpa using hj, hj, ?_⟩
    rw [List.getElem_mapIdx, if_pos hh]
    simp [hitDown] at hh
    simp; omega

theorem sweepUp_some {max : Nat} {r r' : List RP} (h : sweepUp max r = some r') :
    ∃ i, i + 1 < r.length ∧ posAt r i = posAt r (i+1) ∧ posAt r (i+1) ≠ max ∧
      r' = r.mapIdx (fun j p => if hitUp (posAt r i) max i j p then { p with pos := p.pos + 1 } else p) ∧
      (∃ j, ∃ hj : j < r.length, hitUp (posAt r i) max i j r[j] = true) := by
  rw [sweepUp] at h
  split at h
  · simp at h
  · rename_i i hs
    obtain ⟨h1, h2, h3, h4⟩ := scanUp_some hs
    simp only at h
    split at h
    · rename_i ha
      injection h with h
      refine ⟨i, by omega, h3, h4, h.symm, ?_⟩
      rw [List.any_eq_true] at ha
      obtain ⟨x, hx, hxt⟩ := ha
      obtain ⟨j, hj, e⟩ := List.getElem_of_mem hx
      refine ⟨j, by simpa using hj, ?_⟩
      rw [List.getElem_mapIdx] at e
      rw [e]; exact hxt
    · simp at h

theorem sweepUp_length {max : Nat} {r r' : List RP} (h : sweepUp max r = some r') :
    r'.length = r.length := by
  obtain ⟨i, -, -, -, e, -⟩ := sweepUp_some h
  rw [e]; simp

theorem sweepUp_tags {max : Nat} {r r' : List RP} (h : sweepUp max r = some r') :
    tags r' = tags r := by
  obtain ⟨i, -, -, -, e, -⟩ := sweepUp_some h
  rw [e]; exact tags_mapIdx r _ (fun p => p.pos + 1)

theorem sweepUp_sum {max : Nat} {r r' : List RP} (h : sweepUp max r = some r') :
    sumPos r < sumPos r' := by
  obtain ⟨i, -, -, -, e, j, hj, hh⟩ := sweepUp_some h
  subst e
  apply sum_lt_of_pointwise
  · simp
  · intro k h1 h2
    rw [List.getElem_mapIdx]
    split <;> simp
  · refine ⟨j, hj, by simpa using hj, ?_⟩
    rw [List.getElem_mapIdx, if_pos hh]
    simp

theorem sweepUp_le {max : Nat} {r r' : List RP} (h : sweepUp max r = some r')
    (hm : ∀ p ∈ r, p.pos ≤ max) : ∀ p ∈ r', p.pos ≤ max := by
  obtain ⟨i, -, -, -, e, -⟩ := sweepUp_some h
  subst e
  intro p hp
  obtain ⟨j, hj, e⟩ := List.getElem_of_mem hp
  rw [List.getElem_mapIdx] at e
  have hj' : j < r.length := by simpa using hj
  have := hm _ (List.getElem_mem hj')
  split at e
  · rename_i hh
    simp [hitUp] at hh
    subst e
    simp; omega
  · subst e; exact this

theorem sum_le_max {max : Nat} {r : List RP} (hm : ∀ p ∈ r, p.pos ≤ max) :
    sumPos r ≤ r.length * max := by
  induction r with
  | nil => simp [sumPos]
  | cons x r ih =>
    have h0 := hm x (by simp)
    have := ih (fun p hp => hm p (by simp [hp]))
    simp [sumPos, Nat.succ_mul] at this ⊢
    omega

/-- Any property kept by a sweep is kept by the loop. -/
theorem untilStable_inv {sweep : List RP → Option (List RP)} {P : List RP → Prop}
    (hk : ∀ r r', P r → sweep r = some r' → P r') :
    ∀ n r, P r → P (untilStable sweep n r)
  | 0, _, h => h
  | n+1, r, h => by
    rw [untilStable]
    split
    · exact h
    · rename_i r' e
      exact untilStable_inv hk n r' (hk r r' h e)

/-- The fuel suffices: the first collision loop leaves a ring in which a further turn finds no
collision to fix. -/
theorem down_stable : ∀ n (r : List RP), sumPos r < n → sweepDown (untilStable sweepDown n r) = none
  | 0, _, h => by omega
  | n+1, r, h => by
    rw [untilStable]
    split
    · assumption
    · rename_i r' e
      have := sweepDown_sum e
      exact down_stable n r' (by omega)

theorem passDown_stable (r : List RP) : sweepDown (passDown r) = none :=
  down_stable _ _ (by omega)

theorem up_stable {max : Nat} : ∀ n (r : List RP), (∀ p ∈ r, p.pos ≤ max) →
    r.length * max < n + sumPos r → sweepUp max (untilStable (sweepUp max) n r) = none
  | 0, r, hm, h => by have := sum_le_max hm; omega
  | n+1, r, hm, h => by
    rw [untilStable]
    split
    · assumption
    · rename_i r' e
      have h1 := sweepUp_sum e
      have h2 := sweepUp_length e
      exact up_stable n r' (sweepUp_le e hm) (by rw [h2]; omega)

theorem passUp_stable {max : Nat} (r : List RP) (hm : ∀ p ∈ r, p.pos ≤ max) :
    sweepUp max (passUp max r) = none := by
  apply up_stable _ _ hm
  have := sum_le_max hm
  omega

theorem fixup_tags (max : Nat) (r : List RP) : tags (fixup max r) = tags r := by
  have h1 : tags (passDown r) = tags r :=
    untilStable_inv (P := fun x => tags x = tags r)
      (fun a b ha hb => by rw [sweepDown_tags hb, ha]) _ _ rfl
  have h2 : tags (fixup max r) = tags (passDown r) :=
    untilStable_inv (P := fun x => tags x = tags (passDown r))
      (fun a b ha hb => by rw [sweepUp_tags hb, ha]) _ _ rfl
  rw [h2, h1]

theorem fixup_length (max : Nat) (r : List RP) : (fixup max r).length = r.length := by
  have := congrArg List.length (fixup_tags max r)
  simpa [tags] using this

/-! ### When the fix-up leaves a strictly ordered ring -/

/-- Positions in ring order do not pile up directly above the lowest one. -/
def Spread (r : List RP) : Prop := ∀ j, j < r.length → posAt r 0 + j ≤ posAt r j

def Mono (r : List RP) : Prop := ∀ i j, i ≤ j → j < r.length → posAt r i ≤ posAt r j

theorem posAt_mapIdx (r : List RP) (f : Nat → RP → RP) {j : Nat} (h : j < r.length) :
    posAt (r.mapIdx f) j = (f j r[j]).pos := by
  rw [posAt_lt (by simpa using h), List.getElem_mapIdx]

theorem sweepDown_keep {r r' : List RP} (h : sweepDown r = some r') (hs : Spread r) (hm : Mono r) :
    Spread r' ∧ Mono r' ∧ posAt r' 0 = posAt r 0 := by
  obtain ⟨i, h1, h2, h3, h4, e, -⟩ := sweepDown_some h
  have hp : ∀ j, j < r.length → posAt r' j =
      if 1 ≤ j ∧ j < i ∧ posAt r j = posAt r i then posAt r j - 1 else posAt r j := by
    intro j hj
    rw [e, posAt_mapIdx _ _ hj, posAt_lt hj]
    by_cases hh : 1 ≤ j ∧ j < i ∧ (r[j]).pos = posAt r i
    · have hb : hitDown (posAt r i) i j r[j] = true := by
        simp [hitDown]; omega
      rw [if_pos hh, if_pos hb]
    · have hb : ¬ hitDown (posAt r i) i j r[j] = true := by
        intro hb
        simp [hitDown] at hb
        omega
      rw [if_neg hh, if_neg hb]
  have hl := sweepDown_length h
  have h0 : posAt r' 0 = posAt r 0 := by
    rw [hp 0 (by omega), if_neg (by omega)]
  refine ⟨?_, ?_, h0⟩
  · intro j hj
    rw [hl] at hj
    rw [h0, hp j hj]
    have a := hs j hj
    have b := hs i h2
    split
    · rename_i hc; omega
    · exact a
  · intro a b hab hb
    rw [hl] at hb
    rw [hp a (by omega), hp b hb]
    have m1 := hm a b hab hb
    have sb := hs b hb
    split <;> split
    · omega
    · omega
    · rename_i ha hb'
      have ha0 : a < r.length := by omega
      rcases Nat.eq_or_lt_of_le m1 with he | hl2
      · have : a = 0 := by
          by_contra hne
          exact ha ⟨by omega, by omega, by omega⟩
        subst this
        omega
      · omega
    · exact m1

theorem passDown_strict {r : List RP} (hs : Spread r) (hm : Mono r) :
    Mono (passDown r) ∧ posAt (passDown r) 0 = posAt r 0 ∧
      ∀ i, i + 1 < r.length → posAt (passDown r) i < posAt (passDown r) (i+1) := by
  have hk := untilStable_inv (sweep := sweepDown)
    (P := fun x => Spread x ∧ Mono x ∧ posAt x 0 = posAt r 0 ∧ x.length = r.length)
    (fun a b ha hb => by
      obtain ⟨k1, k2, k3⟩ := sweepDown_keep hb ha.1 ha.2.1
      exact ⟨k1, k2, by rw [k3]; exact ha.2.2.1, by rw [sweepDown_length hb]; exact ha.2.2.2⟩)
    (sumPos r + 1) r ⟨hs, hm, rfl, rfl⟩
  change Spread (passDown r) ∧ Mono (passDown r) ∧ posAt (passDown r) 0 = posAt r 0 ∧
    (passDown r).length = r.length at hk
  obtain ⟨k1, k2, k3, k4⟩ := hk
  refine ⟨k2, k3, fun i hi => ?_⟩
  have st := passDown_stable r
  have hle := k2 i (i+1) (by omega) (by omega)
  rcases Nat.lt_or_eq_of_le hle with h | h
  · exact h
  · exfalso
    have hsp := k1 (i+1) (by omega)
    rw [sweepDown] at st
    split at st
    · rename_i hn
      have := scanDown_none hn i (by omega) h
      omega
    · rename_i k hk
      obtain ⟨a1, a2, a3, a4⟩ := scanDown_some hk
      simp only at st
      split at st
      · simp at st
      · rename_i hany
        apply hany
        have hk1 : k - 1 ≥ 1 := by
          by_contra hlt
          have : k = 1 := by omega
          subst this
          have := k1 1 (by omega)
          simp at a3
          omega
        rw [List.any_eq_true]
        refine ⟨true, ?_, rfl⟩
        have hlt : k - 1 < (passDown r).length := by omega
        have : true = hitDown (posAt (passDown r) k) k (k-1) (passDown r)[k-1] := by
          rw [posAt_lt hlt] at a3
          simp [hitDown]
          omega
        rw [this]
        rw [List.mem_mapIdx]
        exact ⟨k-1, hlt, rfl⟩

theorem sweepUp_none_of_strict {max : Nat} {r : List RP}
    (h : ∀ i, i + 1 < r.length → posAt r i < posAt r (i+1)) : sweepUp max r = none := by
  cases hc : sweepUp max r with
  | none => rfl
  | some r' =>
    obtain ⟨i, h1, h2, -⟩ := sweepUp_some hc
    have := h i h1
    omega

theorem untilStable_none {sweep : List RP → Option (List RP)} {r : List RP}
    (h : sweep r = none) : ∀ n, untilStable sweep n r = r
  | 0 => rfl
  | n+1 => by rw [untilStable, h]

theorem fixup_strict {max : Nat} {r : List RP} (hs : Spread r) (hm : Mono r) :
    fixup max r = passDown r ∧
      ∀ i, i + 1 < (fixup max r).length → posAt (fixup max r) i < posAt (fixup max r) (i+1) := by
  obtain ⟨h1, h2, h3⟩ := passDown_strict hs hm
  have hl : (passDown r).length = r.length :=
    untilStable_inv (P := fun x => x.length = r.length)
      (fun a b ha hb => by rw [sweepDown_length hb, ha]) _ _ rfl
  have e : fixup max r = passDown r :=
    untilStable_none (sweepUp_none_of_strict (by rw [hl]; exact h3)) _
  rw [e]
  exact ⟨rfl, by rw [hl]; exact h3⟩

theorem passDown_le {max : Nat} {r : List RP} (hm : ∀ p ∈ r, p.pos ≤ max) :
    ∀ p ∈ passDown r, p.pos ≤ max := by
  refine untilStable_inv (P := fun x => ∀ p ∈ x, p.pos ≤ max) ?_ _ _ hm
  intro a b ha hb p hp
  obtain ⟨i, -, -, -, -, e, -⟩ := sweepDown_some hb
  subst e
  obtain ⟨j, hj, e⟩ := List.getElem_of_mem hp
  rw [List.getElem_mapIdx] at e
  have hj' : j < a.length := by simpa using hj
  have := ha _ (List.getElem_mem hj')
  split at e <;> (subst e; simp; omega)

theorem fixup_le {max : Nat} {r : List RP} (hm : ∀ p ∈ r, p.pos ≤ max) :
    ∀ p ∈ fixup max r, p.pos ≤ max :=
  untilStable_inv (P := fun x => ∀ p ∈ x, p.pos ≤ max) (fun _ _ ha hb => sweepUp_le hb ha) _ _
    (passDown_le hm)

/-! ### Binary search -/

/-- What the search guarantees on any ring, ordered or not. -/
theorem bsearch_any (r : List RP) (hash : Nat) : ∀ n lo hi m, hi - lo < n → lo < hi →
    (lo = 0 ∨ posAt r lo < hash) →
    let x := bsearch r hash n lo hi m
    x < hi ∧ (hash < posAt r x → x = 0) := by
  intro n
  induction n with
  | zero => intro lo hi m h; omega
  | succ n ih =>
    intro lo hi m h hlt hlo
    simp only [bsearch, if_pos hlt]
    have hm1 : (lo + hi) / 2 < hi := by omega
    have hm2 : lo ≤ (lo + hi) / 2 := by omega
    generalize (lo + hi) / 2 = k at *
    split
    · rename_i he
      exact ⟨hm1, fun hh => by omega⟩
    · rename_i hne
      split
      · rename_i hl
        by_cases hk : lo < k
        · obtain ⟨a, b⟩ := ih lo k k (by omega) hk hlo
          exact ⟨by omega, b⟩
        · have hke : k = lo := by omega
          subst hke
          have hx : bsearch r hash n k k k = k := by
            cases n <;> simp [bsearch]
          rw [hx]
          refine ⟨hm1, fun hh => ?_⟩
          rcases hlo with h0 | h0
          · exact h0
          · omega
      · rename_i hnl
        split
        · rename_i he2
          exact ⟨hm1, fun hh => by omega⟩
        · rename_i he2
          exact ih k hi k (by omega) hm1 (Or.inr (by omega))

/-- On an ordered ring the search finds the last position at or below the hash. -/
theorem bsearch_sorted (r : List RP) (hash : Nat) (hm : Mono r) : ∀ n lo hi m, hi - lo < n →
    lo < hi → hi ≤ r.length → (lo = 0 ∨ posAt r lo < hash) →
    (hi = r.length ∨ hash < posAt r hi) →
    let x := bsearch r hash n lo hi m
    hash = posAt r x ∨
    (posAt r x < hash ∧ (x + 1 = r.length ∨ hash < posAt r (x+1))) ∨
    (x = 0 ∧ hash < posAt r 0) := by
  intro n
  induction n with
  | zero => intro lo hi m h; omega
  | succ n ih =>
    intro lo hi m h hlt hle hlo hhi
    simp only [bsearch, if_pos hlt]
    have hm1 : (lo + hi) / 2 < hi := by omega
    have hm2 : lo ≤ (lo + hi) / 2 := by omega
    have hm3 : lo = (lo + hi) / 2 → hi = lo + 1 := by omega
    generalize (lo + hi) / 2 = k at *
    split
    · rename_i he
      exact Or.inl he
    · rename_i hne
      split
      · rename_i hl
        by_cases hk : lo < k
        · exact ih lo k k (by omega) hk (by omega) hlo (Or.inr hl)
        · have hke : k = lo := by omega
          subst hke
          have hx : bsearch r hash n k k k = k := by
            cases n <;> simp [bsearch]
          rw [hx]
          rcases hlo with h0 | h0
          · subst h0; exact Or.inr (Or.inr ⟨rfl, hl⟩)
          · omega
      · rename_i hnl
        split
        · rename_i he2
          have h1 := hm3 he2
          refine Or.inr (Or.inl ⟨by omega, ?_⟩)
          rw [← he2, ← h1]
          exact hhi
        · rename_i he2
          exact ih k hi k (by omega) hm1 hle (Or.inr (by omega)) hhi

theorem startIdx_ok (r : List RP) (hash : Nat) (hr : r ≠ []) :
    ∃ m, startIdx r hash = .ok m ∧ m < r.length := by
  have hl : 0 < r.length := List.length_pos_iff.mpr hr
  obtain ⟨h1, h2⟩ := bsearch_any r hash (r.length + 1) 0 r.length 0 (by omega) hl (Or.inl rfl)
  unfold startIdx
  simp only
  split
  · rename_i hc
    rw [if_pos (h2 hc)]
    exact ⟨_, rfl, by omega⟩
  · exact ⟨_, rfl, h1⟩

/-! ### Collecting -/

theorem collect_spec (w cnt : Nat) : ∀ (xs acc : List Nat), acc.length ≤ min w cnt →
    collect w cnt acc xs =
      acc ++ ((xs.filter fun x => !acc.contains x).eraseDups).take (min w cnt - acc.length)
  | [], acc, _ => by simp [collect]
  | id :: rest, acc, h => by
    rw [collect]
    split
    · rename_i hc
      split
      · rename_i hm
        rw [collect_spec w cnt rest acc h]
        simp [hm]
      · rename_i hm
        rw [collect_spec w cnt rest (acc ++ [id]) (by simp; omega)]
        have e1 : (id :: rest).filter (fun x => !acc.contains x) =
            id :: rest.filter (fun x => !acc.contains x) := by
          simp [hm]
        rw [e1, List.eraseDups_cons]
        have e2 : min w cnt - acc.length = (min w cnt - (acc ++ [id]).length) + 1 := by
          simp; omega
        rw [e2, List.take_succ_cons]
        rw [List.filter_filter]
        simp only [List.append_assoc, List.cons_append, List.nil_append]
        congr 4
        apply List.filter_congr
        intro x _
        simp [Bool.and_comm, Bool.not_or]
        by_cases hx : x = id <;> simp [hx]
    · rename_i hc
      have : min w cnt - acc.length = 0 := by omega
      rw [this]; simp

theorem mem_eraseDups' {x : Nat} : ∀ {n : Nat} {l : List Nat}, l.length ≤ n →
    (x ∈ l.eraseDups ↔ x ∈ l) := by
  intro n
  induction n with
  | zero => intro l h; have : l = [] := List.length_eq_zero_iff.mp (by omega); subst this; simp
  | succ n ih =>
    intro l h
    cases l with
    | nil => simp
    | cons a as =>
      rw [List.eraseDups_cons]
      have hl : (as.filter fun b => !b == a).length ≤ n :=
        le_trans (List.length_filter_le _ _) (by simpa using h)
      simp only [List.mem_cons, ih hl, List.mem_filter]
      by_cases hx : x = a <;> simp [hx]

theorem mem_eraseDups {x : Nat} {l : List Nat} : x ∈ l.eraseDups ↔ x ∈ l :=
  mem_eraseDups' (le_refl _)

theorem nodup_eraseDups' : ∀ {n : Nat} {l : List Nat}, l.length ≤ n → l.eraseDups.Nodup := by
  intro n
  induction n with
  | zero => intro l h; have : l = [] := List.length_eq_zero_iff.mp (by omega); subst this; simp
  | succ n ih =>
    intro l h
    cases l with
    | nil => simp
    | cons a as =>
      rw [List.eraseDups_cons]
      have hl : (as.filter fun b => !b == a).length ≤ n :=
        le_trans (List.length_filter_le _ _) (by simpa using h)
      rw [List.nodup_cons]
      refine ⟨?_, ih hl⟩
      rw [mem_eraseDups]
      simp

theorem nodup_eraseDups (l : List Nat) : l.eraseDups.Nodup := nodup_eraseDups' (le_refl _)

/-- The owners visited, in the order they are visited, are the ring rotated to start at `m`. -/
theorem owners_rotate (r : List RP) (m : Nat) (hm : m < r.length) :
    ((List.range r.length).map fun t => (r.getD ((m + t) % r.length) ⟨0, 0, 0⟩).node) =
      (r.rotate m).map RP.node := by
  apply List.ext_getElem
  · simp
  · intro i h1 h2
    have hi : i < r.length := by simpa using h1
    have hlt : (m + i) % r.length < r.length := Nat.mod_lt _ (by omega)
    simp only [List.getElem_map, List.getElem_range, List.getElem_rotate]
    rw [List.getD_eq_getElem?_getD, List.getElem?_eq_getElem hlt]
    simp [Nat.add_comm]

end Mtev.Cht
