import Verif.Skiplist

/-!
Property C20: the skip list is an ordered set; C57: its neighbours; C58: adding an
index.

The specification speaks of the list of elements only.
-/
namespace Mtev.Skiplist

variable {α κ : Type}

/-! ### Specification -/

/-- A comparison function as `qsort` wants it. -/
structure IsCompare (cmp : α → α → Int) : Prop where
  swap_lt : ∀ a b, cmp a b < 0 ↔ 0 < cmp b a
  trans : ∀ a b c, cmp a b ≤ 0 → cmp b c ≤ 0 → cmp a c ≤ 0

/-- The key comparison agrees with the order of the elements. -/
structure IsKeyCompare (cmp : α → α → Int) (cmpk : κ → α → Int) : Prop where
  lt : ∀ k a b, cmp a b ≤ 0 → cmpk k a < 0 → cmpk k b < 0
  gt : ∀ k a b, cmp a b ≤ 0 → 0 < cmpk k b → 0 < cmpk k a

/-- A usable comparator pair. -/
def Good (c : Cmp α κ) : Prop := IsCompare c.compare ∧ IsKeyCompare c.compare c.comparek

/-- A call that changes the list. `via` selects the comparator: `none` is the
list's own, `some i` the one of index `i`. -/
inductive Op (α κ : Type)
  | insert (d : α) (coins : Nat → Nat)
  | remove (via : Option Nat) (k : κ)
  | pop

/-- What a call reports. -/
inductive Res (α : Type)
  | inserted (ok : Bool)
  | removed (freed : Option α)
  | popped (d : Option α)
deriving DecidableEq

/-- The comparator selected. -/
def select (prim : Cmp α κ) (idx : List (Cmp α κ)) : Option Nat → Option (Cmp α κ)
  | none => some prim
  | some i => idx[i]?

/-- One call on an ordered list of elements. -/
inductive Step (prim : Cmp α κ) (idx : List (Cmp α κ)) : List α → Op α κ → Res α → List α → Prop
  | insertNew (a b : List α) (d : α) (coins : Nat → Nat) : (∀ x ∈ a, prim.compare x d < 0) →
      (∀ x ∈ b, prim.compare d x < 0) → Step prim idx (a ++ b) (.insert d coins) (.inserted true) (a ++ d :: b)
  | insertDup (l : List α) (d x : α) (coins : Nat → Nat) : x ∈ l → prim.compare d x = 0 →
      Step prim idx l (.insert d coins) (.inserted false) l
  | remove (a b : List α) (x : α) (via : Option Nat) (c : Cmp α κ) (k : κ) : select prim idx via = some c →
      c.comparek k x = 0 → Step prim idx (a ++ x :: b) (.remove via k) (.removed (some x)) (a ++ b)
  | removeNone (l : List α) (via : Option Nat) (c : Cmp α κ) (k : κ) : select prim idx via = some c →
      (∀ x ∈ l, c.comparek k x ≠ 0) → Step prim idx l (.remove via k) (.removed none) l
  | popNone : Step prim idx [] .pop (.popped none) []
  | pop (x : α) (l : List α) : Step prim idx (x :: l) .pop (.popped (some x)) l

/-- A history of calls. -/
inductive Steps (prim : Cmp α κ) (idx : List (Cmp α κ)) : List α → List (Op α κ) → List (Res α) → List α → Prop
  | nil (l : List α) : Steps prim idx l [] [] l
  | cons {l l' l'' : List α} {op : Op α κ} {r : Res α} {ops : List (Op α κ)} {rs : List (Res α)} :
      Step prim idx l op r l' → Steps prim idx l' ops rs l'' → Steps prim idx l (op :: ops) (r :: rs) l''

/-- The calls use comparators the list has. -/
def OpOk (n : Nat) : Op α κ → Prop
  | .remove (some i) _ => i < n
  | _ => True

/-! ### The calls on the model -/

/-- One call. -/
def step (l : MSL α κ) : Op α κ → Out (MSL α κ × Res α)
  | .insert d coins => do
    let (l, b) ← l.insert d coins
    .ok (l, .inserted b)
  | .remove via k => do
    let (l, _, fr) ← l.remove via k
    .ok (l, .removed fr.head?)
  | .pop => .ok (l.pop.1, .popped l.pop.2)

/-- A history. -/
def run : MSL α κ → List (Op α κ) → Out (MSL α κ × List (Res α))
  | l, [] => .ok (l, [])
  | l, op :: ops => do
    let (l, r) ← step l op
    let (l, rs) ← run l ops
    .ok (l, r :: rs)

/-- A new list with its indexes, all added before the first insertion. -/
def fresh (prim : Cmp α κ) (cs : List (Cmp α κ)) : Out (MSL α κ) :=
  cs.foldlM (fun l c => l.addIndex c (fun _ => 0)) (MSL.empty prim)

/-! ### Refinement -/

theorem Good.sord {c : Cmp α κ} (h : Good c) : SOrd c.compare (fun a b => c.compare a b ≤ 0) where
  total := by
    intro a b
    have := h.1.swap_lt a b
    have := h.1.swap_lt b a
    omega
  trans := h.1.trans
  lt_iff := by
    intro a b
    rw [h.1.swap_lt a b]; omega
  zero := by intro a b h0; omega
  eq := by
    intro a b h1 h2
    have := h.1.swap_lt a b
    have := h.1.swap_lt b a
    omega

theorem Good.refl {c : Cmp α κ} (h : Good c) (a : α) : c.compare a a ≤ 0 := by
  have := h.1.swap_lt a a; omega

theorem Good.key {c : Cmp α κ} (h : Good c) (k : κ) : KeyCut (c.comparek k) (fun a b => c.compare a b ≤ 0) :=
  ⟨h.2.lt k, h.2.gt k⟩

/-- The order of a comparator. -/
abbrev leOf (c : Cmp α κ) (a b : α) : Prop := c.compare a b ≤ 0

/-- The invariant of a list with indexes holding `xs`. -/
structure Inv (l : MSL α κ) (xs : List α) : Prop where
  prim : Good l.prim
  main : l.main.Ok (leOf l.prim)
  elems : l.main.elems.map (·.2) = xs
  strict : xs.Pairwise fun a b => l.prim.compare a b < 0
  ids : ∀ n ∈ l.main.elems, n.1 < l.next
  idx : ∀ p ∈ l.idx, Good p.1 ∧ p.2.Ok (leOf p.1) ∧ p.2.elems.Perm l.main.elems

theorem cmp_swap {c : Cmp α κ} (h : Good c) {a b : α} (hab : c.compare a b = 0) : c.compare b a = 0 := by
  have := h.1.swap_lt a b
  have := h.1.swap_lt b a
  omega

theorem insertIdx_spec {l : MSL α κ} {xs : List α} (h : Inv l xs) (d : α) (coins : Nat → Nat)
    {main' : List (Node α)} (hmain : main'.Perm ((l.next, d) :: l.main.elems)) :
    ∀ (rest : List (Cmp α κ × SL α)) i, (∀ p ∈ rest, p ∈ l.idx) →
      match insertIdx l.next d coins i rest with
      | some rest' => rest'.map (·.1) = rest.map (·.1) ∧
          (∀ p ∈ rest', Good p.1 ∧ p.2.Ok (leOf p.1) ∧ p.2.elems.Perm main')
      | none => ∃ p ∈ rest, ∃ x ∈ xs, p.1.compare d x = 0 := by
  intro rest
  induction rest with
  | nil => intro i _; simp [insertIdx]
  | cons p rest ih =>
    intro i hsub
    obtain ⟨c, s⟩ := p
    obtain ⟨hg, hok, hperm⟩ := h.idx (c, s) (hsub _ (by simp))
    simp only at hg hok hperm
    rw [insertIdx]
    have hid : l.next ∉ s.elems.map (·.1) := by
      intro hm
      obtain ⟨n, hn, e⟩ := List.mem_map.1 hm
      have := h.ids n (hperm.subset hn)
      omega
    obtain ⟨s', b, e1, e2, e3, e4⟩ := SL.insert_spec hg.sord.toOrd hok d (coins i) hid
    rw [e1]
    cases b with
    | false =>
      obtain ⟨_, x, hx, hx0⟩ := e4 rfl
      refine ⟨(c, s), by simp, x.2, ?_, hx0⟩
      rw [← h.elems]
      exact List.mem_map_of_mem (hperm.subset hx)
    | true =>
      simp only
      have hrec := ih (i + 1) fun q hq => hsub q (List.mem_cons_of_mem _ hq)
      cases hr : insertIdx l.next d coins (i + 1) rest with
      | none =>
        rw [hr] at hrec
        obtain ⟨q, hq, r⟩ := hrec
        exact ⟨q, List.mem_cons_of_mem _ hq, r⟩
      | some rest' =>
        rw [hr] at hrec
        simp only [Option.map_some]
        refine ⟨by simp [hrec.1], ?_⟩
        intro q hq
        rcases List.mem_cons.1 hq with rfl | hq
        · refine ⟨hg, e2, ?_⟩
          rw [(e3 rfl).1]
          exact (place_perm _ _ _).trans ((hperm.cons _).trans hmain.symm)
        · exact hrec.2 q hq

theorem place_split {cmp : α → Int} (new : Node α) (row : List (Node α)) (hne : ∀ x ∈ row, cmp x.2 ≠ 0)
    (hsort : row = row.filter (leq cmp) ++ row.filter fun n => ! leq cmp n) :
    ∃ a b : List α, row.map (·.2) = a ++ b ∧ (place cmp new row).map (·.2) = a ++ new.2 :: b ∧
      (∀ x ∈ a, 0 < cmp x) ∧ (∀ x ∈ b, cmp x < 0) := by
  refine ⟨(row.filter (leq cmp)).map (·.2), (row.filter fun n => ! leq cmp n).map (·.2), ?_, ?_, ?_, ?_⟩
  · rw [← List.map_append, ← hsort]
  · simp [place]
  · intro x hx
    obtain ⟨n, hn, rfl⟩ := List.mem_map.1 hx
    have h1 := (List.mem_filter.1 hn).2
    have h2 := hne n (List.mem_filter.1 hn).1
    simp only [leq, decide_not, Bool.not_eq_true', decide_eq_false_iff_not] at h1
    omega
  · intro x hx
    obtain ⟨n, hn, rfl⟩ := List.mem_map.1 hx
    have h1 := (List.mem_filter.1 hn).2
    simpa [leq] using h1

/-- A sorted row splits at the place of a value. -/
theorem sorted_split {cmp : α → Int} {le : α → α → Prop} (hc : Cut cmp le) {row : List (Node α)}
    (hs : row.Pairwise fun a b => le a.2 b.2) : row = row.filter (leq cmp) ++ row.filter fun n => ! leq cmp n := by
  induction row with
  | nil => rfl
  | cons x row ih =>
    obtain ⟨h1, h2⟩ := List.pairwise_cons.1 hs
    by_cases hx : cmp x.2 < 0
    · have hall : ∀ y ∈ row, leq cmp y = false := by
        intro y hy
        have := hc.lt _ _ (h1 y hy) hx
        simp [leq, this]
      have hx' : leq cmp x = false := by simp [leq, hx]
      have e1 : (x :: row).filter (leq cmp) = [] := List.filter_eq_nil_iff.2 fun y hy => by
        rcases List.mem_cons.1 hy with rfl | hy
        · simp [hx']
        · simp [hall y hy]
      have e2 : (x :: row).filter (fun n => ! leq cmp n) = x :: row := List.filter_eq_self.2 fun y hy => by
        rcases List.mem_cons.1 hy with rfl | hy
        · simp [hx']
        · simp [hall y hy]
      rw [e1, e2]; rfl
    · have hx' : leq cmp x = true := by simp [leq]; omega
      rw [List.filter_cons_of_pos hx', List.filter_cons_of_neg (by simp [hx']), List.cons_append, ← ih h2]

theorem insert_step {l : MSL α κ} {xs : List α} (h : Inv l xs) (d : α) (coins : Nat → Nat) :
    match l.insert d coins with
    | .ok (l', b) => l'.prim = l.prim ∧ l'.idx.map (·.1) = l.idx.map (·.1) ∧ ∃ xs', Inv l' xs' ∧
        Step l.prim (l.idx.map (·.1)) xs (.insert d coins) (.inserted b) xs'
    | .abort => (∀ x ∈ xs, l.prim.compare d x ≠ 0) ∧ ∃ c ∈ l.idx.map (·.1), ∃ x ∈ xs, c.compare d x = 0
    | .ub => False := by
  unfold MSL.insert
  have hid : l.next ∉ l.main.elems.map (·.1) := by
    intro hm
    obtain ⟨n, hn, e⟩ := List.mem_map.1 hm
    have := h.ids n hn
    omega
  obtain ⟨s', b, e1, e2, e3, e4⟩ := SL.insert_spec h.prim.sord.toOrd h.main d (coins 0) hid
  rw [e1]
  cases b with
  | false =>
    obtain ⟨q1, x, hx, hx0⟩ := e4 rfl
    simp only
    refine ⟨trivial, trivial, xs, ⟨h.prim, e2, by rw [q1]; exact h.elems, h.strict, by simpa [q1] using h.ids, ?_⟩, ?_⟩
    · intro p hp
      obtain ⟨a, b, c⟩ := h.idx p hp
      exact ⟨a, b, by simpa [q1] using c⟩
    · exact .insertDup xs d x.2 coins (by rw [← h.elems]; exact List.mem_map_of_mem hx) hx0
  | true =>
    obtain ⟨q1, q2⟩ := e3 rfl
    have hne := q2 h.prim.sord
    simp only
    have hidx := insertIdx_spec h d coins (main' := s'.elems) (by rw [q1]; exact place_perm _ _ _) l.idx 1
      (fun _ hp => hp)
    cases hi : insertIdx l.next d coins 1 l.idx with
    | none =>
      rw [hi] at hidx
      obtain ⟨p, hp, x, hx, hx0⟩ := hidx
      refine ⟨?_, p.1, List.mem_map_of_mem hp, x, hx, hx0⟩
      intro y hy
      rw [← h.elems] at hy
      obtain ⟨n, hn, rfl⟩ := List.mem_map.1 hy
      exact hne n hn
    | some idx' =>
      rw [hi] at hidx
      simp only
      have hrow : RowOk (leOf l.prim) l.main.elems := bottom_rowOk h.main.rows
      have hsplit := sorted_split (h.prim.sord.toOrd.cut d) hrow.1
      obtain ⟨a, b, r1, r2, r3, r4⟩ := place_split (l.next, d) l.main.elems hne hsplit
      rw [h.elems] at r1
      subst r1
      have hlt : ∀ x ∈ a, l.prim.compare x d < 0 := fun x hx => (h.prim.1.swap_lt x d).2 (r3 x hx)
      refine ⟨trivial, hidx.1, a ++ d :: b, ⟨h.prim, e2, by rw [q1]; exact r2, ?_, ?_, hidx.2⟩, ?_⟩
      · obtain ⟨p1, p2, p3⟩ := List.pairwise_append.1 h.strict
        rw [List.pairwise_append]
        refine ⟨p1, List.pairwise_cons.2 ⟨r4, p2⟩, ?_⟩
        intro x hx y hy
        rcases List.mem_cons.1 hy with rfl | hy
        · exact hlt x hx
        · exact p3 x hx y hy
      · intro n hn
        rw [q1] at hn
        have := (place_perm _ _ _).subset hn
        rcases List.mem_cons.1 this with rfl | hn
        · simp
        · have := h.ids n hn; simp only; omega
      · exact .insertNew a b d coins hlt r4

theorem removeNode_inv {l : MSL α κ} {xs : List α} (h : Inv l xs) {n : Node α} (hn : n ∈ l.main.elems) :
    ∃ a b, xs = a ++ n.2 :: b ∧ Inv (l.removeNode n.1) (a ++ b) := by
  obtain ⟨a, b, e⟩ := List.append_of_mem hn
  have hrow : RowOk (leOf l.prim) l.main.elems := bottom_rowOk h.main.rows
  have hfil : (l.main.elems.filter fun x => x.1 ≠ n.1) = a ++ b := by
    have hnd := hrow.2
    rw [e, List.map_append, List.map_cons, List.nodup_append] at hnd
    obtain ⟨_, h2, h3⟩ := hnd
    rw [List.nodup_cons] at h2
    rw [e, List.filter_append, List.filter_cons, if_neg (by simp)]
    congr 1
    · exact List.filter_eq_self.2 fun y hy => by
        have := h3 y.1 (List.mem_map_of_mem hy) n.1 (by simp)
        simpa using this
    · exact List.filter_eq_self.2 fun y hy => by
        have : y.1 ≠ n.1 := fun e => h2.1 (by rw [← e]; exact List.mem_map_of_mem hy)
        simpa using this
  have hel : (l.main.remove n.1).elems = a ++ b := by rw [SL.remove_elems]; exact hfil
  refine ⟨a.map (·.2), b.map (·.2), by rw [← h.elems, e]; simp, ?_⟩
  refine ⟨h.prim, SL.remove_ok h.main (List.mem_map_of_mem hn), ?_, ?_, ?_, ?_⟩
  · show (l.main.remove n.1).elems.map _ = _
    rw [hel]; simp
  · have := h.strict
    rw [← h.elems, e] at this
    refine this.sublist ?_
    rw [List.map_append, List.map_cons]
    exact (List.Sublist.refl _).append (List.sublist_cons_self _ _)
  · intro x hx
    have hx' : x ∈ (l.main.remove n.1).elems := hx
    rw [SL.remove_elems] at hx'
    exact h.ids x (List.mem_filter.1 hx').1
  · intro p hp
    obtain ⟨q, hq, rfl⟩ := List.mem_map.1 hp
    obtain ⟨g1, g2, g3⟩ := h.idx q hq
    refine ⟨g1, SL.remove_ok g2 (List.mem_map_of_mem (g3.symm.subset hn)), ?_⟩
    show (q.2.remove n.1).elems.Perm (l.main.remove n.1).elems
    rw [SL.remove_elems, SL.remove_elems]
    exact g3.filter _

theorem pick_spec {l : MSL α κ} {xs : List α} (h : Inv l xs) {via : Option Nat}
    (hv : ∀ i, via = some i → i < l.idx.length) :
    ∃ c s, l.pick via = some (c, s) ∧ select l.prim (l.idx.map (·.1)) via = some c ∧ Good c ∧ s.Ok (leOf c) ∧
      s.elems.Perm l.main.elems := by
  cases via with
  | none => exact ⟨l.prim, l.main, rfl, rfl, h.prim, h.main, List.Perm.refl _⟩
  | some i =>
    have hi := hv i rfl
    have hg := h.idx _ (List.getElem_mem hi)
    refine ⟨l.idx[i].1, l.idx[i].2, ?_, ?_, hg.1, hg.2.1, hg.2.2⟩
    · simp [MSL.pick, hi]
    · simp [select, hi]

theorem remove_step {l : MSL α κ} {xs : List α} (h : Inv l xs) {via : Option Nat} (k : κ)
    (hv : ∀ i, via = some i → i < l.idx.length) :
    ∃ l' b fr, l.remove via k = .ok (l', b, fr) ∧ l'.prim = l.prim ∧ l'.idx.map (·.1) = l.idx.map (·.1) ∧
      fr.length ≤ 1 ∧ (b = true ↔ fr ≠ []) ∧ ∃ xs', Inv l' xs' ∧
        Step l.prim (l.idx.map (·.1)) xs (.remove via k) (.removed fr.head?) xs' := by
  obtain ⟨c, s, hp, hsel, hg, hok, hperm⟩ := pick_spec h hv
  unfold MSL.remove
  rw [hp]
  simp only
  have hf := SL.find_spec hg.refl (hg.key k) hok
  cases hfind : s.find c k with
  | none =>
    rw [hfind] at hf
    refine ⟨_, _, _, rfl, rfl, rfl, by simp, by simp, xs, h, .removeNone xs via c k hsel ?_⟩
    intro x hx
    rw [← h.elems] at hx
    obtain ⟨n, hn, rfl⟩ := List.mem_map.1 hx
    exact hf n (hperm.symm.subset hn)
  | some n =>
    rw [hfind] at hf
    obtain ⟨a, b, e, hinv⟩ := removeNode_inv h (hperm.subset hf.1)
    refine ⟨_, _, _, rfl, rfl, ?_, by simp, by simp, a ++ b, hinv, ?_⟩
    · simp [MSL.removeNode]
    · rw [e]; exact .remove a b n.2 via c k hsel hf.2

theorem pop_step {l : MSL α κ} {xs : List α} (h : Inv l xs) :
    (l.pop.1).prim = l.prim ∧ (l.pop.1).idx.map (·.1) = l.idx.map (·.1) ∧ ∃ xs', Inv l.pop.1 xs' ∧
      Step l.prim (l.idx.map (·.1)) xs .pop (.popped l.pop.2) xs' := by
  unfold MSL.pop
  cases he : l.main.elems with
  | nil =>
    have hx : xs = [] := by rw [← h.elems, he]; rfl
    exact ⟨rfl, rfl, xs, h, by rw [hx]; exact .popNone⟩
  | cons n rest =>
    simp only
    have hrow : RowOk (leOf l.prim) l.main.elems := bottom_rowOk h.main.rows
    obtain ⟨a, b, e, hinv⟩ := removeNode_inv h (n := n) (by rw [he]; simp)
    refine ⟨rfl, by simp [MSL.removeNode], a ++ b, hinv, ?_⟩
    -- the head of the row is the head of the list
    have hx : xs = n.2 :: rest.map (·.2) := by rw [← h.elems, he]; rfl
    have ha : a = [] := by
      cases a with
      | nil => rfl
      | cons y a =>
        exfalso
        have hy : y = n.2 := by rw [hx] at e; exact (List.cons.inj e).1.symm
        have hs := h.strict
        rw [e, hy, List.cons_append, List.pairwise_cons] at hs
        have h1 := hs.1 n.2 (by simp)
        have h2 := h.prim.1.swap_lt n.2 n.2
        omega
    subst ha
    rw [e]
    exact .pop n.2 b

theorem run_spec (ops : List (Op α κ)) : ∀ (l : MSL α κ) (xs : List α), Inv l xs →
    (∀ op ∈ ops, OpOk l.idx.length op) →
    match run l ops with
    | .ok (l', rs) => l'.prim = l.prim ∧ l'.idx.map (·.1) = l.idx.map (·.1) ∧
        ∃ xs', Inv l' xs' ∧ Steps l.prim (l.idx.map (·.1)) xs ops rs xs'
    | .abort => ∃ pre d coins rest rs mid, ops = pre ++ .insert d coins :: rest ∧
        Steps l.prim (l.idx.map (·.1)) xs pre rs mid ∧ (∀ x ∈ mid, l.prim.compare d x ≠ 0) ∧
        ∃ c ∈ l.idx.map (·.1), ∃ x ∈ mid, c.compare d x = 0
    | .ub => False := by
  induction ops with
  | nil => intro l xs h _; exact ⟨rfl, rfl, xs, h, .nil xs⟩
  | cons op ops ih =>
    intro l xs h hok
    have hlen : ∀ l' : MSL α κ, l'.idx.map (·.1) = l.idx.map (·.1) → l'.idx.length = l.idx.length := by
      intro l' e
      have := congrArg List.length e
      simpa using this
    -- continue after a successful call
    have cont : ∀ (l' : MSL α κ) (r : Res α) (xs' : List α), l'.prim = l.prim →
        l'.idx.map (·.1) = l.idx.map (·.1) → Inv l' xs' →
        Step l.prim (l.idx.map (·.1)) xs op r xs' → step l op = .ok (l', r) →
        match run l (op :: ops) with
        | .ok (l', rs) => l'.prim = l.prim ∧ l'.idx.map (·.1) = l.idx.map (·.1) ∧
            ∃ xs', Inv l' xs' ∧ Steps l.prim (l.idx.map (·.1)) xs (op :: ops) rs xs'
        | .abort => ∃ pre d coins rest rs mid, op :: ops = pre ++ .insert d coins :: rest ∧
            Steps l.prim (l.idx.map (·.1)) xs pre rs mid ∧ (∀ x ∈ mid, l.prim.compare d x ≠ 0) ∧
            ∃ c ∈ l.idx.map (·.1), ∃ x ∈ mid, c.compare d x = 0
        | .ub => False := by
      intro l' r xs' h1 h2 h3 h4 h5
      rw [run, h5, Out.ok_bind]
      have hrec := ih l' xs' h3 fun o ho => by rw [hlen l' h2]; exact hok o (List.mem_cons_of_mem _ ho)
      simp only
      cases hr : run l' ops with
      | ok p =>
        obtain ⟨l2, rs⟩ := p
        rw [hr] at hrec
        simp only at hrec
        rw [Out.ok_bind]
        obtain ⟨g1, g2, xs2, g3, g4⟩ := hrec
        exact ⟨g1.trans h1, g2.trans h2, xs2, g3, .cons h4 (by rw [h1, h2] at g4; exact g4)⟩
      | abort =>
        rw [hr] at hrec
        simp only at hrec
        rw [Out.abort_bind]
        obtain ⟨pre, d, coins, rest, rs, mid, g1, g2, g3, g4⟩ := hrec
        rw [h1, h2] at g2
        rw [h1] at g3
        rw [h2] at g4
        exact ⟨op :: pre, d, coins, rest, r :: rs, mid, by rw [g1]; rfl, .cons h4 g2, g3, g4⟩
      | ub => rw [hr] at hrec; exact hrec.elim
    cases op with
    | insert d coins =>
      have hi := insert_step h d coins
      cases hr : l.insert d coins with
      | ok p =>
        obtain ⟨l', b⟩ := p
        rw [hr] at hi
        simp only at hi
        obtain ⟨g1, g2, xs', g3, g4⟩ := hi
        exact cont l' _ xs' g1 g2 g3 g4 (by rw [step, hr, Out.ok_bind])
      | abort =>
        rw [hr] at hi
        simp only at hi
        rw [run, step, hr, Out.abort_bind, Out.abort_bind]
        exact ⟨[], d, coins, ops, [], xs, rfl, .nil xs, hi.1, hi.2⟩
      | ub => rw [hr] at hi; exact hi.elim
    | remove via k =>
      have hv : ∀ i, via = some i → i < l.idx.length := by
        intro i e
        subst e
        exact hok (.remove (some i) k) (by simp)
      obtain ⟨l', b, fr, e1, g1, g2, _, _, xs', g3, g4⟩ := remove_step h k hv
      exact cont l' _ xs' g1 g2 g3 g4 (by rw [step, e1, Out.ok_bind])
    | pop =>
      obtain ⟨g1, g2, xs', g3, g4⟩ := pop_step h
      exact cont l.pop.1 _ xs' g1 g2 g3 g4 (by rw [step])

/-! ### Adding indexes -/

theorem elems_empty : (SL.empty : SL α).elems = [] := rfl

theorem addIndex_empty {c : Cmp α κ} {l : MSL α κ} (he : l.main.elems = []) (coins : Nat → Nat) :
    ∃ l', l.addIndex c coins = .ok l' ∧ l'.prim = l.prim ∧ l'.main = l.main ∧ l'.next = l.next ∧
      ∀ p ∈ l'.idx, p ∈ l.idx ∨ p = (c, SL.empty) := by
  unfold MSL.addIndex
  by_cases h : (l.idx.any fun p => decide (p.1.fp = c.fp)) = true
  · rw [if_pos h]; exact ⟨l, rfl, rfl, rfl, rfl, fun p hp => .inl hp⟩
  · rw [if_neg h, he]
    refine ⟨_, rfl, rfl, rfl, rfl, ?_⟩
    intro p hp
    rcases List.mem_append.1 hp with hp | hp
    · exact .inl (List.mem_filter.1 hp).1
    · rcases List.mem_cons.1 hp with hp | hp
      · exact .inr hp
      · exact .inl (List.mem_filter.1 hp).1

theorem inv_empty {prim : Cmp α κ} (hp : Good prim) : Inv (MSL.empty prim) [] :=
  ⟨hp, ⟨trivial, rfl⟩, rfl, .nil, by intro n hn; exact absurd hn (by simp [MSL.empty, SL.elems, SL.empty]),
   by intro p hp; simp [MSL.empty] at hp⟩

theorem fresh_spec {prim : Cmp α κ} (hp : Good prim) (cs : List (Cmp α κ)) (hcs : ∀ c ∈ cs, Good c) :
    ∃ l, fresh prim cs = .ok l ∧ l.prim = prim ∧ Inv l [] := by
  unfold fresh
  have main : ∀ (cs : List (Cmp α κ)) (l : MSL α κ), (∀ c ∈ cs, Good c) → l.prim = prim → Inv l [] →
      ∃ l', cs.foldlM (fun l c => l.addIndex c (fun _ => 0)) l = .ok l' ∧ l'.prim = prim ∧ Inv l' [] := by
    intro cs
    induction cs with
    | nil => intro l _ h1 h2; exact ⟨l, rfl, h1, h2⟩
    | cons c cs ih =>
      intro l hc h1 h2
      have he : l.main.elems = [] := List.map_eq_nil_iff.1 h2.elems
      obtain ⟨l', e1, e2, e3, e4, e5⟩ := addIndex_empty (c := c) he (fun _ => 0)
      rw [List.foldlM_cons, e1]
      have hb : ∀ f : MSL α κ → Out (MSL α κ), ((Out.ok l' : Out (MSL α κ)) >>= f) = f l' := fun f => Out.ok_bind l' f
      rw [hb]
      refine ih l' (fun x hx => hc x (List.mem_cons_of_mem _ hx)) (e2.trans h1) ?_
      refine ⟨by rw [e2]; exact h2.prim, by rw [e2, e3]; exact h2.main, by rw [e3]; exact h2.elems, .nil,
        by rw [e3, e4]; exact h2.ids, ?_⟩
      intro p hp
      rcases e5 p hp with hp | rfl
      · rw [e3]; exact h2.idx p hp
      · refine ⟨hc c (by simp), ⟨trivial, rfl⟩, ?_⟩
        rw [e3, he]; exact List.Perm.refl _
  exact main cs _ hcs rfl (inv_empty hp)

/-- **C20.**  For every list built with any indexes, every history of insertions,
removals through any comparator and pops, and every outcome of the random
heights: each call reports and does exactly what the ordered set does, the list
ends up with exactly the elements of the ordered set in strict comparator order,
the size is their number, `peek` is the first.  The only way a call does not
return is the assertion for an element that an index, but not the list itself,
takes for a duplicate. -/
theorem C20_ordered_set (prim : Cmp α κ) (cs : List (Cmp α κ)) (hp : Good prim) (hcs : ∀ c ∈ cs, Good c)
    (ops : List (Op α κ)) :
    ∃ l, fresh prim cs = .ok l ∧ ((∀ op ∈ ops, OpOk l.idx.length op) →
      match run l ops with
      | .ok (l', rs) => ∃ xs, Steps prim (l.idx.map (·.1)) [] ops rs xs ∧
          l'.main.elems.map (·.2) = xs ∧ xs.Pairwise (fun a b => prim.compare a b < 0) ∧
          l'.main.size = xs.length ∧ l'.peek = xs.head?
      | .abort => ∃ pre d coins rest rs mid, ops = pre ++ .insert d coins :: rest ∧
          Steps prim (l.idx.map (·.1)) [] pre rs mid ∧ (∀ x ∈ mid, prim.compare d x ≠ 0) ∧
          ∃ c ∈ l.idx.map (·.1), ∃ x ∈ mid, c.compare d x = 0
      | .ub => False) := by
  obtain ⟨l, e1, e2, e3⟩ := fresh_spec hp cs hcs
  refine ⟨l, e1, fun hok => ?_⟩
  have hr := run_spec ops l [] e3 hok
  cases hrun : run l ops with
  | ok p =>
    obtain ⟨l', rs⟩ := p
    rw [hrun] at hr
    simp only at hr ⊢
    obtain ⟨g1, g2, xs, g3, g4⟩ := hr
    rw [e2] at g4
    refine ⟨xs, g4, g3.elems, ?_, ?_, ?_⟩
    · have := g3.strict
      rwa [g1, e2] at this
    · rw [g3.main.size, ← g3.elems, List.length_map]
    · rw [MSL.peek, ← g3.elems, List.head?_map]
  | abort =>
    rw [hrun] at hr
    simp only at hr ⊢
    rw [e2] at hr
    exact hr
  | ub => rw [hrun] at hr; exact hr

/-- **C20 (lookup).**  After any history, a lookup through the list's comparator or
that of any index returns a matching element of the set if there is one, and
nothing otherwise; and every index lists the same elements in its own order. -/
theorem C20_find (prim : Cmp α κ) (cs : List (Cmp α κ)) (hp : Good prim) (hcs : ∀ c ∈ cs, Good c)
    (ops : List (Op α κ)) :
    ∃ l, fresh prim cs = .ok l ∧ ((∀ op ∈ ops, OpOk l.idx.length op) → ∀ l' rs, run l ops = .ok (l', rs) →
      ∃ xs, Steps prim (l.idx.map (·.1)) [] ops rs xs ∧
        (∀ via c, select prim (l.idx.map (·.1)) via = some c → ∀ k, ∃ r, l'.find via k = .ok r ∧
          (∀ x, r = some x → x ∈ xs ∧ c.comparek k x = 0) ∧
          (r = none → ∀ x ∈ xs, c.comparek k x ≠ 0)) ∧
        (∀ p ∈ l'.idx, (p.2.elems.map (·.2)).Perm xs ∧
          (p.2.elems.map (·.2)).Pairwise fun a b => p.1.compare a b ≤ 0)) := by
  obtain ⟨l, e1, e2, e3⟩ := fresh_spec hp cs hcs
  refine ⟨l, e1, fun hok l' rs hrun => ?_⟩
  have hr := run_spec ops l [] e3 hok
  rw [hrun] at hr
  simp only at hr
  obtain ⟨g1, g2, xs, g3, g4⟩ := hr
  rw [e2] at g4 g1
  refine ⟨xs, g4, ?_, ?_⟩
  · intro via c hsel k
    have hv : ∀ i, via = some i → i < l'.idx.length := by
      intro i e
      subst e
      have hlt : i < (l.idx.map (·.1)).length := by
        by_contra hc
        simp only [select] at hsel
        rw [List.getElem?_eq_none (by omega)] at hsel
        cases hsel
      rw [← g2] at hlt
      simpa using hlt
    obtain ⟨c', s, hpk, hsel', hg, hok', hperm⟩ := pick_spec g3 hv
    rw [g1, g2, hsel] at hsel'
    cases hsel'
    unfold MSL.find
    rw [hpk]
    have hf := SL.find_spec hg.refl (hg.key k) hok'
    refine ⟨_, rfl, ?_, ?_⟩
    · intro x hx
      cases hfind : s.find c k with
      | none => rw [hfind] at hx; cases hx
      | some n =>
        rw [hfind] at hx hf
        cases hx
        exact ⟨by rw [← g3.elems]; exact List.mem_map_of_mem (hperm.subset hf.1), hf.2⟩
    · intro hx x hxs
      cases hfind : s.find c k with
      | some n => rw [hfind] at hx; cases hx
      | none =>
        rw [hfind] at hf
        rw [← g3.elems] at hxs
        obtain ⟨n, hn, rfl⟩ := List.mem_map.1 hxs
        exact hf n (hperm.symm.subset hn)
  · intro p hp
    obtain ⟨q1, q2, q3⟩ := g3.idx p hp
    refine ⟨by rw [← g3.elems]; exact q3.map _, ?_⟩
    have := (bottom_rowOk q2.rows).1
    rw [List.pairwise_map]
    exact this

/-- **C57 (neighbours).**  After any history, a neighbour lookup through the list's
own comparator reports the elements directly before and after the matching
element, or around the place where the key belongs. -/
theorem C57_neighbors (prim : Cmp α κ) (cs : List (Cmp α κ)) (hp : Good prim) (hcs : ∀ c ∈ cs, Good c)
    (ops : List (Op α κ)) :
    ∃ l, fresh prim cs = .ok l ∧ ((∀ op ∈ ops, OpOk l.idx.length op) → ∀ l' rs, run l ops = .ok (l', rs) →
      ∃ xs, Steps prim (l.idx.map (·.1)) [] ops rs xs ∧ ∀ k, ∃ a b,
        l'.neighbors none k = .ok (a.getLast?, b.head?) ∧
        ((∃ x, xs = a ++ x :: b ∧ prim.comparek k x = 0) ∨
         (xs = a ++ b ∧ (∀ x ∈ a, 0 < prim.comparek k x) ∧ (∀ x ∈ b, prim.comparek k x < 0)))) := by
  obtain ⟨l, e1, e2, e3⟩ := fresh_spec hp cs hcs
  refine ⟨l, e1, fun hok l' rs hrun => ?_⟩
  have hr := run_spec ops l [] e3 hok
  rw [hrun] at hr
  simp only at hr
  obtain ⟨g1, g2, xs, g3, g4⟩ := hr
  rw [e2] at g4 g1
  refine ⟨xs, g4, fun k => ?_⟩
  have hn := SL.neighbors_spec g3.prim.refl (g3.prim.key k) g3.main
  unfold MSL.neighbors MSL.pick
  simp only
  rw [g1] at hn ⊢
  rcases hn with ⟨a, n, b, q1, q2, q3⟩ | ⟨a, b, q1, q2, q3, q4⟩
  · refine ⟨a.map (·.2), b.map (·.2), ?_, .inl ⟨n.2, ?_, q2⟩⟩
    · rw [q3, List.getLast?_map, List.head?_map]
    · rw [← g3.elems, q1]; simp
  · refine ⟨a.map (·.2), b.map (·.2), ?_, .inr ⟨?_, ?_, ?_⟩⟩
    · rw [q4, List.getLast?_map, List.head?_map]
    · rw [← g3.elems, q1]; simp
    · intro x hx
      obtain ⟨n, hn, rfl⟩ := List.mem_map.1 hx
      exact q2 n hn
    · intro x hx
      obtain ⟨n, hn, rfl⟩ := List.mem_map.1 hx
      exact q3 n hn

/-! ### Examples and the index defect -/

/-- Integers in increasing order. -/
def up : Cmp Int Int := ⟨1, fun a b => a - b, fun k a => k - a⟩
/-- Integers in decreasing order. -/
def down : Cmp Int Int := ⟨2, fun a b => b - a, fun k a => a - k⟩
/-- Increasing again, as a third function. -/
def up3 : Cmp Int Int := ⟨3, fun a b => a - b, fun k a => k - a⟩

theorem good_up : Good up :=
  ⟨⟨fun a b => by simp only [up]; omega, fun a b c => by simp only [up]; omega⟩,
   ⟨fun k a b => by simp only [up]; omega, fun k a b => by simp only [up]; omega⟩⟩

theorem good_down : Good down :=
  ⟨⟨fun a b => by simp only [down]; omega, fun a b c => by simp only [down]; omega⟩,
   ⟨fun k a b => by simp only [down]; omega, fun k a b => by simp only [down]; omega⟩⟩

/-- Three insertions with different heights, a duplicate, a removal through the
index, and a pop. -/
def demo : List (Op Int Int) :=
  [.insert 5 (fun _ => 0), .insert 3 (fun i => 2 + i), .insert 9 (fun _ => 7), .insert 3 (fun _ => 1),
   .remove (some 0) 5, .pop]

example : (match fresh up [down] with
    | .ok l => (match run l demo with
      | .ok (l', rs) => (l'.main.elems.map (·.2), rs)
      | _ => ([], []))
    | _ => ([], [])) =
    ([9], [.inserted true, .inserted true, .inserted true, .inserted false, .removed (some 5), .popped (some 3)]) := by
  decide +kernel

/-- Adding an index that sorts first. -/
theorem add_index_inv {l : MSL α κ} {xs : List α} (h : Inv l xs) {c : Cmp α κ} (hc : Good c)
    (hfirst : ∀ p ∈ l.idx, c.fp < p.1.fp) (hdiff : xs.Pairwise fun a b => c.compare b a ≠ 0)
    (coins : Nat → Nat) :
    ∃ l' s, l.addIndex c coins = .ok l' ∧ l'.main = l.main ∧ l'.idx = (c, s) :: l.idx ∧ Inv l' xs := by
  unfold MSL.addIndex
  have hany : (l.idx.any fun p => decide (p.1.fp = c.fp)) = false := by
    rw [List.any_eq_false]
    intro p hp
    have := hfirst p hp
    simp; omega
  rw [hany, if_neg (by simp)]
  have hbefore : (l.idx.filter fun p => decide (p.1.fp < c.fp)) = [] := List.filter_eq_nil_iff.2 fun p hp => by
    have := hfirst p hp
    simp; omega
  have hafter : (l.idx.filter fun p => decide (¬ p.1.fp < c.fp)) = l.idx := List.filter_eq_self.2 fun p hp => by
    have := hfirst p hp
    simp; omega
  rw [hbefore, hafter]
  -- the build loop walks the primary list
  have build : ∀ (rest done : List (Node α)) (ni : SL α) (fuel : Nat), l.main.elems = done ++ rest →
      rest.length < fuel → ni.Ok (leOf c) → ni.elems.Perm done →
      ∃ ni', buildIndex l c 0 coins fuel 0 rest ni = .ok ni' ∧ ni'.Ok (leOf c) ∧ ni'.elems.Perm l.main.elems := by
    intro rest
    induction rest with
    | nil =>
      intro done ni fuel e _ h1 h2
      refine ⟨ni, by cases fuel <;> rfl, h1, by rw [e]; simpa using h2⟩
    | cons n rest ih =>
      intro done ni fuel e hf h1 h2
      cases fuel with
      | zero => simp at hf
      | succ fuel =>
        rw [buildIndex]
        have hrow : RowOk (leOf l.prim) l.main.elems := bottom_rowOk h.main.rows
        have hid : n.1 ∉ ni.elems.map (·.1) := by
          intro hm
          have hnd := hrow.2
          rw [e, List.map_append, List.nodup_append] at hnd
          exact hnd.2.2 n.1 ((h2.map (·.1)).subset hm) n.1 (by simp) rfl
        obtain ⟨s', b, e1, e2, e3, e4⟩ := SL.insert_spec hc.sord.toOrd h1 n.2 (coins n.1) hid
        rw [e1]
        cases b with
        | false =>
          exfalso
          obtain ⟨_, x, hx, hx0⟩ := e4 rfl
          have hd := hdiff
          rw [← h.elems, e, List.map_append, List.pairwise_append] at hd
          exact hd.2.2 x.2 (List.mem_map_of_mem (h2.subset hx)) n.2 (by simp) hx0
        | true =>
          simp only [if_true]
          have hperm : s'.elems.Perm (done ++ [n]) := by
            rw [(e3 rfl).1]
            refine (place_perm _ _ _).trans ((h2.cons _).trans ?_)
            exact List.perm_append_comm (l₁ := [n])
          exact ih (done ++ [n]) s' fuel (by rw [e]; simp) (by simp at hf; omega) e2 hperm
  obtain ⟨ni', b1, b2, b3⟩ := build l.main.elems [] SL.empty (l.main.elems.length + 1) rfl (by omega)
    ⟨trivial, rfl⟩ (List.Perm.refl _)
  simp only [List.length_nil]
  rw [b1, Out.ok_bind]
  refine ⟨_, ni', rfl, rfl, rfl, h.prim, h.main, h.elems, h.strict, h.ids, ?_⟩
  intro p hp
  rcases List.mem_cons.1 hp with rfl | hp
  · exact ⟨hc, b2, b3⟩
  · exact h.idx p hp

/-- **C58 (adding an index), partial.**  After any history, adding an index whose
comparator address is below those of all existing indexes works, provided it does
not take two of the elements for equal: the new index then lists exactly the
elements of the list in its own order. Adding any index to a list that never held
elements is part of `C20_ordered_set`. Missing: other indexes on a non-empty list,
which is wrong in the code (`C58_second_index_violated`,
`C58_lost_elements_violated`). -/
theorem C58_add_index_partial (prim : Cmp α κ) (cs : List (Cmp α κ)) (hp : Good prim) (hcs : ∀ c ∈ cs, Good c)
    (ops : List (Op α κ)) :
    ∃ l, fresh prim cs = .ok l ∧ ((∀ op ∈ ops, OpOk l.idx.length op) → ∀ l' rs, run l ops = .ok (l', rs) →
      ∃ xs, Steps prim (l.idx.map (·.1)) [] ops rs xs ∧ ∀ c coins, Good c → (∀ p ∈ l'.idx, c.fp < p.1.fp) →
        (xs.Pairwise fun a b => c.compare b a ≠ 0) →
        ∃ l'' s, l'.addIndex c coins = .ok l'' ∧ l''.main = l'.main ∧ l''.idx = (c, s) :: l'.idx ∧
          (s.elems.map (·.2)).Perm xs ∧ (s.elems.map (·.2)).Pairwise fun a b => c.compare a b ≤ 0) := by
  obtain ⟨l, e1, e2, e3⟩ := fresh_spec hp cs hcs
  refine ⟨l, e1, fun hok l' rs hrun => ?_⟩
  have hr := run_spec ops l [] e3 hok
  rw [hrun] at hr
  simp only at hr
  obtain ⟨g1, g2, xs, g3, g4⟩ := hr
  rw [e2] at g4 g1
  refine ⟨xs, g4, fun c coins hc hf hd => ?_⟩
  obtain ⟨l'', s, q1, q2, q3, q4⟩ := add_index_inv g3 hc hf hd coins
  have hs := q4.idx (c, s) (by rw [q3]; simp)
  refine ⟨l'', s, q1, q2, q3, ?_, ?_⟩
  · rw [← q4.elems]; exact hs.2.2.map _
  · rw [List.pairwise_map]
    exact (bottom_rowOk hs.2.1.rows).1

/-- The hypotheses of `C58_add_index_partial` on a list with two elements and an
index. -/
example : (match fresh { up with fp := 4 } [down] with
    | .ok l => (match run l [.insert 1 (fun _ => 0), .insert 2 (fun _ => 0)] with
      | .ok (l', _) => (match l'.addIndex up (fun _ => 0) with
        | .ok l'' => l''.idx.map fun p => p.2.elems.map (·.2)
        | _ => [])
      | _ => [])
    | _ => []) = [[1, 2], [2, 1]] := by decide +kernel

/-- **C58 is violated by the code**: on a list holding 1 and 2 with one index
(increasing), adding a second index with a higher address runs into a NULL node. -/
theorem C58_second_index_violated :
    ∃ l l', fresh up [{ up with fp := 2 }] = .ok l ∧
      run l [.insert 1 (fun _ => 0), .insert 2 (fun _ => 0)] = .ok (l', [.inserted true, .inserted true]) ∧
      l'.addIndex up3 (fun _ => 0) = .ub :=
  ⟨_, _, rfl, rfl, rfl⟩

/-- … and with a decreasing first index the elements but the first go missing. -/
theorem C58_lost_elements_violated :
    ∃ l l' l'', fresh up [down] = .ok l ∧
      run l [.insert 1 (fun _ => 0), .insert 2 (fun _ => 0)] = .ok (l', [.inserted true, .inserted true]) ∧
      l'.addIndex up3 (fun _ => 0) = .ok l'' ∧ l''.find (some 1) 1 = .ok (some 1) ∧
      l''.find (some 1) 2 = .ok none :=
  ⟨_, _, _, rfl, rfl, rfl, rfl, rfl⟩

end Mtev.Skiplist
