import Verif.ConfTree

/-!
# C102: values of a section come from the nearest place that has them

Specification: an attribute asked for "with inheritance" is that of the section or of
its nearest ancestor having it.  A set of key/value pairs is merged from the top down:
a `config` gives a key if the key is directly below it, or else if the `config` it
names in `inherit` gives it; at a section, a key has the value given by the `config`
of the nearest ancestor-or-self whose `config` gives the key
(`docs-md/config/inherit.md`).
-/

namespace Mtev.ConfTree

/-! ### attributes -/

/-- `a` is the nearest among `i` and its ancestors that has the attribute -/
def Nearest (d : Doc) (i : Nat) (name : Str) (a : Nat) (v : Str) : Prop :=
  Anc d i a ∧ attr d a name = some v ∧ ∀ b, Anc d i b → Anc d b a → b ≠ a → attr d b name = none

theorem Anc.gt {d : Doc} (ht : Tree d) {a b : Nat} (h : Anc d a b) (hne : a ≠ b) : b < a := by
  have := h.le ht; omega

theorem attr_lt {d : Doc} {i : Nat} {a v : Str} (h : attr d i a = some v) : i < d.length := by
  unfold attr at h
  cases hi : d[i]? with
  | none => rw [hi] at h; cases h
  | some e => exact (List.getElem?_eq_some_iff.mp hi).1

/-- the last hit of a search through `0 … n-1` -/
theorem last_hit {β : Type} (f : Nat → Option β) : ∀ (n : Nat) (v : β),
    ((List.range n).filterMap f).getLast? = some v
      ↔ ∃ j, j < n ∧ f j = some v ∧ ∀ k, j < k → k < n → f k = none
  | 0, v => by simp
  | n + 1, v => by
    rw [List.range_succ, List.filterMap_append]
    cases hf : f n with
    | none =>
      rw [List.filterMap_cons_none hf, List.filterMap_nil, List.append_nil, last_hit f n v]
      constructor
      · rintro ⟨j, h1, h2, h3⟩
        refine ⟨j, by omega, h2, fun k hk hk' => ?_⟩
        by_cases hkn : k = n
        · rw [hkn]; exact hf
        · exact h3 k hk (by omega)
      · rintro ⟨j, h1, h2, h3⟩
        have : j ≠ n := by intro h; rw [h, hf] at h2; cases h2
        exact ⟨j, by omega, h2, fun k hk hk' => h3 k hk (by omega)⟩
    | some w =>
      rw [List.filterMap_cons_some hf, List.filterMap_nil, List.getLast?_concat]
      constructor
      · intro h
        exact ⟨n, by omega, by rw [hf, Option.some.inj h], fun k hk hk' => by omega⟩
      · rintro ⟨j, h1, h2, h3⟩
        by_cases hj : j = n
        · rw [hj, hf] at h2; exact h2
        · have := h3 n (by omega) (by omega)
          rw [hf] at this; cases this

/-- **C102 (attributes).**  An attribute read with inheritance has the value it has at
the section or at the nearest ancestor that has it, and no value if there is none. -/
theorem C102_attribute (d : Doc) (ht : Tree d) (i : Nat) (name : Str) (v : Str) :
    inherited d i name = some v ↔ ∃ a, Nearest d i name a v := by
  unfold inherited
  rw [last_hit]
  constructor
  · rintro ⟨j, hj, h, hl⟩
    by_cases hm : j ∈ above d (some i)
    · rw [if_pos hm] at h
      refine ⟨j, (mem_above ht i j).mp hm, h, fun b hb hba hne => ?_⟩
      have hlt := hba.gt ht hne
      cases hv : attr d b name with
      | none => rfl
      | some w =>
        have := hl b hlt (attr_lt hv)
        rw [if_pos ((mem_above ht i b).mpr hb), hv] at this
        cases this
    · rw [if_neg hm] at h; cases h
  · rintro ⟨a, ha, hv, hn⟩
    refine ⟨a, attr_lt hv, by rw [if_pos ((mem_above ht i a).mpr ha)]; exact hv, fun k hk _ => ?_⟩
    by_cases hm : k ∈ above d (some i)
    · rw [if_pos hm]
      have hk' := (mem_above ht i k).mp hm
      rcases hk'.line ha with h | h
      · exact hn k hk' h (by omega)
      · have := h.le ht; omega
    · rw [if_neg hm]

/-! ### sets of values -/

/-- **Specification.**  The key an element is for: the name a `value` element carries, and else the
name of the element -/
def IsKey (e : El) (k : Str) : Prop :=
  (e.name = bytesOf "value" ∧ e.attrs.lookup (bytesOf "name") = some k) ∨
  (e.name = k ∧ (k ≠ bytesOf "value" ∨ e.attrs.lookup (bytesOf "name") = none))

theorem keyOf_iff (e : El) (k : Str) : keyOf e = k ↔ IsKey e k := by
  unfold keyOf IsKey
  by_cases h : e.name = bytesOf "value"
  · rw [if_pos h]
    cases hl : e.attrs.lookup (bytesOf "name") with
    | none => simp
    | some n =>
      simp only [Option.getD_some, Option.some.injEq, reduceCtorEq, or_false]
      constructor
      · exact fun e => Or.inl ⟨h, e⟩
      · rintro (⟨_, e⟩ | ⟨e1, e2⟩)
        · exact e
        · exact absurd (e1 ▸ h) e2
  · rw [if_neg h]
    constructor
    · intro e1; exact Or.inr ⟨e1, Or.inl (e1 ▸ h)⟩
    · rintro (⟨e1, _⟩ | ⟨e1, _⟩)
      · exact absurd e1 h
      · exact e1

theorem last_filter {α : Type} (p : α → Bool) (l : List α) (x : α) :
    (l.filter p).getLast? = some x ↔ ∃ pre post, l = pre ++ x :: post ∧ p x = true ∧ ∀ y ∈ post, p y = false := by
  induction l using List.reverseRecOn with
  | nil => simp
  | append_singleton l e ih =>
    rw [List.filter_append]
    by_cases he : p e = true
    · simp only [List.filter_cons, he, if_true, List.filter_nil, List.getLast?_append, List.getLast?_singleton,
        Option.some_or, Option.some.injEq]
      constructor
      · rintro rfl; exact ⟨l, [], rfl, he, by simp⟩
      · rintro ⟨pre, post, h1, h2, h3⟩
        rcases List.eq_nil_or_concat post with rfl | ⟨q, z, rfl⟩
        · have := List.append_inj_right' h1 rfl; simpa using this
        · rw [List.concat_eq_append, ← List.cons_append, ← List.append_assoc] at h1
          have hz := List.append_inj_right' h1 rfl
          have := h3 z (by simp)
          simp only [List.cons.injEq, and_true] at hz
          rw [← hz, he] at this; cases this
    · simp only [Bool.not_eq_true] at he
      simp only [List.filter_cons, he, Bool.false_eq_true, if_false, List.filter_nil, List.append_nil]
      rw [ih]
      constructor
      · rintro ⟨pre, post, rfl, h2, h3⟩
        refine ⟨pre, post ++ [e], by simp, h2, ?_⟩
        intro y hy
        rcases List.mem_append.mp hy with h | h
        · exact h3 y h
        · rw [List.mem_singleton.mp h]; exact he
      · rintro ⟨pre, post, h1, h2, h3⟩
        rcases List.eq_nil_or_concat post with rfl | ⟨q, z, rfl⟩
        · have := List.append_inj_right' h1 rfl
          simp only [List.cons.injEq, and_true] at this
          rw [← this, he] at h2; cases h2
        · rw [List.concat_eq_append, ← List.cons_append, ← List.append_assoc] at h1
          exact ⟨pre, q, List.append_inj_left' h1 rfl, h2, fun y hy => h3 y (by simp [hy])⟩

/-- **C102 (what a `config` says itself).**  The value of a key is the text of the last element for that key
in it, in the namespace asked for. -/
theorem C102_own (d : Doc) (ns : Option Str) (c : Nat) (k v : Str) :
    own d ns c k = some v ↔
      ∃ pre e post, d = pre ++ e :: post ∧ e.parent = some c ∧ e.ns = ns ∧ IsKey e k ∧ e.text = v ∧
        ∀ x ∈ post, ¬ (x.parent = some c ∧ x.ns = ns ∧ IsKey x k) := by
  unfold own
  rw [Option.map_eq_some_iff]
  constructor
  · rintro ⟨e, he, hv⟩
    rw [last_filter] at he
    obtain ⟨pre, post, h1, h2, h3⟩ := he
    simp only [decide_eq_true_eq, decide_eq_false_iff_not, keyOf_iff] at h2 h3
    exact ⟨pre, e, post, h1, h2.1, h2.2.1, h2.2.2, hv, h3⟩
  · rintro ⟨pre, e, post, h1, h2, h3, h4, hv, h5⟩
    refine ⟨e, ?_, hv⟩
    rw [last_filter]
    refine ⟨pre, post, h1, ?_, ?_⟩
    · simp only [decide_eq_true_eq, keyOf_iff]; exact ⟨h2, h3, h4⟩
    · simp only [decide_eq_false_iff_not, keyOf_iff]; exact h5

example : IsKey { parent := none, name := bytesOf "value", attrs := [(bytesOf "name", bytesOf "k")] } (bytesOf "k") ∧
    IsKey { parent := none, name := bytesOf "k" } (bytesOf "k") := by
  unfold IsKey; decide

/-- the element an id names, if exactly one has it -/
def Named (d : Doc) (id : Str) (c : Nat) : Prop :=
  attr d c (bytesOf "id") = some id ∧ ∀ c', attr d c' (bytesOf "id") = some id → c' = c

/-- **Specification.**  `c` gives the key `k` the value `v`: directly, or by what it
inherits from -/
inductive Gives (d : Doc) (ns : Option Str) (k : Str) : Nat → Str → Prop where
  | own (c : Nat) (v : Str) (h : own d ns c k = some v) : Gives d ns k c v
  | inherit (c c' : Nat) (id v : Str) (h : own d ns c k = none)
      (hi : attr d c (bytesOf "inherit") = some id) (hc : Named d id c')
      (h' : Gives d ns k c' v) : Gives d ns k c v

/-- `c` is a `config` (an element called `name`) of the element `a` -/
def ConfigOf (d : Doc) (name : Str) (a c : Nat) : Prop :=
  ∃ e, d[c]? = some e ∧ e.name = name ∧ e.ns = none ∧ e.parent = some a

/-- **Specification.**  The value of a key at a section: given by the `config` of the
section or of an ancestor, and by that of no nearer one -/
def At (d : Doc) (ns : Option Str) (name : Str) (sec : Nat) (k v : Str) : Prop :=
  ∃ a c, Anc d sec a ∧ ConfigOf d name a c ∧ Gives d ns k c v ∧
    ∀ b c', Anc d sec b → Anc d b a → b ≠ a → ConfigOf d name b c' → ∀ w, ¬ Gives d ns k c' w

/-- documents as one writes them: along the ancestors of the section there is at most one
`config` each, it comes before the `config`s further down, none is inside another,
the root is not called so and the section is none itself; an id occurs once -/
structure Tidy (d : Doc) (name : Str) (sec : Nat) : Prop where
  tree : Tree d
  inside : sec < d.length
  one : ∀ a c c', Anc d sec a → ConfigOf d name a c → ConfigOf d name a c' → c = c'
  order : ∀ a b c c', Anc d sec a → Anc d a b → a ≠ b → ConfigOf d name a c → ConfigOf d name b c' →
    c' < c
  nested : ∀ a c c', Anc d sec a → ConfigOf d name a c → ¬ ConfigOf d name c c'
  root : ∀ (i : Nat) (e : El), d[i]? = some e → e.parent = none → e.name ≠ name
  notSelf : ∀ a, ¬ ConfigOf d name a sec
  /-- every id named in an `inherit` is that of one element -/
  ids : ∀ c id, attr d c (bytesOf "inherit") = some id → ∃ c', Named d id c'

theorem sorted_nodeset (d : Doc) (sec : Option Nat) (path : Path) :
    (nodeset d sec path).Pairwise (· < ·) :=
  List.Pairwise.filter _ List.pairwise_lt_range

theorem mem_nodeset_rel {d : Doc} (ht : Tree d) {name : Str}
    (hroot : ∀ (i : Nat) (e : El), d[i]? = some e → e.parent = none → e.name ≠ name) (sec j : Nat) :
    j ∈ nodeset d (some sec) (.rel name) ↔ ∃ a, Anc d sec a ∧ ConfigOf d name a j := by
  unfold nodeset
  rw [List.mem_filter]
  constructor
  · rintro ⟨_, h⟩
    unfold selects at h
    cases he : d[j]? with
    | none => rw [he] at h; cases h
    | some e =>
      rw [he] at h
      simp only [Bool.and_eq_true, decide_eq_true_eq] at h
      obtain ⟨⟨h1, h2⟩, h3⟩ := h
      cases hp : e.parent with
      | none => exact absurd h1 (hroot j e he hp)
      | some p =>
        rw [hp] at h3
        simp only [decide_eq_true_eq] at h3
        exact ⟨p, (mem_above ht sec p).mp h3, e, he, h1, h2, hp⟩
  · rintro ⟨a, ha, e, he, h1, h2, h3⟩
    refine ⟨List.mem_range.mpr (List.getElem?_eq_some_iff.mp he).1, ?_⟩
    unfold selects
    rw [he]
    simp only [h1, h2, h3, and_self, decide_true, Bool.true_and, decide_eq_true_eq]
    exact (mem_above ht sec a).mpr ha

theorem nodeset_id {d : Doc} {id : Str} {c : Nat} (h : Named d id c) :
    nodeset d none (.byId id) = [c] := by
  have hmem : ∀ j, j ∈ nodeset d none (.byId id) ↔ j = c := by
    intro j
    unfold nodeset
    rw [List.mem_filter]
    constructor
    · rintro ⟨_, h'⟩
      apply h.2
      unfold selects at h'
      unfold attr
      cases he : d[j]? with
      | none => rw [he] at h'; cases h'
      | some e => rw [he] at h'; simpa using h'
    · rintro rfl
      have h1 := h.1
      refine ⟨List.mem_range.mpr (attr_lt h1), ?_⟩
      unfold selects
      unfold attr at h1
      cases he : d[j]? with
      | none => rw [he] at h1; cases h1
      | some e => rw [he] at h1; simpa using h1
  have hs := sorted_nodeset d none (.byId id)
  generalize nodeset d none (.byId id) = L at hmem hs
  match L with
  | [] => exact absurd ((hmem c).mpr rfl) (by simp)
  | [x] => rw [(hmem x).mp (by simp)]
  | x :: y :: r =>
    have hx := (hmem x).mp (by simp)
    have hy := (hmem y).mp (by simp)
    have := (List.pairwise_cons.mp hs).1 y (by simp)
    omega

/-- two sorted lists with the same members are the same -/
theorem sorted_ext : ∀ {l m : List Nat}, l.Pairwise (· < ·) → m.Pairwise (· < ·) →
    (∀ x, x ∈ l ↔ x ∈ m) → l = m
  | [], [], _, _, _ => rfl
  | [], y :: m, _, _, h => absurd ((h y).mpr (by simp)) (by simp)
  | x :: l, [], _, _, h => absurd ((h x).mp (by simp)) (by simp)
  | x :: l, y :: m, hl, hm, h => by
    rw [List.pairwise_cons] at hl hm
    have hxy : x = y := by
      have h1 := (h x).mp (by simp)
      have h2 := (h y).mpr (by simp)
      rw [List.mem_cons] at h1 h2
      rcases h1 with h1 | h1
      · exact h1
      · rcases h2 with h2 | h2
        · exact h2.symm
        · have := hm.1 x h1; have := hl.1 y h2; omega
    subst hxy
    rw [sorted_ext hl.2 hm.2 fun z => ?_]
    have hz := h z
    rw [List.mem_cons, List.mem_cons] at hz
    constructor
    · intro hm'
      rcases hz.mp (Or.inr hm') with h' | h'
      · have := hl.1 z hm'; omega
      · exact h'
    · intro hm'
      rcases hz.mpr (Or.inr hm') with h' | h'
      · have := hm.1 z hm'; omega
      · exact h'

/-- one step up: what is found from a `config` is what was found up to it -/
theorem nodeset_up {d : Doc} {name : Str} {sec : Nat} (h : Tidy d name sec) (S R : List Nat) (q : Nat)
    (hL : nodeset d (some sec) (.rel name) = S ++ q :: R) :
    nodeset d (some q) (.rel name) = S ++ [q] := by
  have hs := sorted_nodeset d (some sec) (.rel name)
  rw [hL] at hs
  have hs' := List.pairwise_append.mp hs
  have hq : q ∈ nodeset d (some sec) (.rel name) := by rw [hL]; simp
  obtain ⟨b, hb, hqb⟩ := (mem_nodeset_rel h.tree h.root sec q).mp hq
  have hpar : par d q = some b := by
    obtain ⟨e, he, _, _, hp⟩ := hqb
    unfold par; rw [he]; exact hp
  apply sorted_ext (sorted_nodeset _ _ _)
  · rw [List.pairwise_append]
    refine ⟨hs'.1, by simp, fun x hx y hy => ?_⟩
    exact hs'.2.2 x hx y (by rw [List.mem_singleton] at hy; rw [hy]; simp)
  · intro j
    have hle : j ∈ S ++ [q] ↔ j ∈ nodeset d (some sec) (.rel name) ∧ j ≤ q := by
      rw [hL]
      simp only [List.mem_append, List.mem_cons, List.not_mem_nil, or_false]
      constructor
      · rintro (hj | rfl)
        · exact ⟨Or.inl hj, Nat.le_of_lt (hs'.2.2 j hj q (by simp))⟩
        · exact ⟨Or.inr (Or.inl rfl), Nat.le_refl _⟩
      · rintro ⟨hj | hj | hj, hle⟩
        · exact Or.inl hj
        · exact Or.inr hj
        · have := (List.pairwise_cons.mp hs'.2.1).1 j hj; omega
    rw [hle, mem_nodeset_rel h.tree h.root, mem_nodeset_rel h.tree h.root]
    constructor
    · rintro ⟨a, ha, hja⟩
      cases ha with
      | refl => exact absurd hja (h.nested b q j hb hqb)
      | step _ p _ hp ha' =>
        rw [hpar] at hp; cases hp
        refine ⟨⟨a, hb.trans ha', hja⟩, ?_⟩
        by_cases hab : b = a
        · subst hab
          rw [h.one b q j hb hqb hja]
        · exact Nat.le_of_lt (h.order b a q j hb ha' hab hqb hja)
    · rintro ⟨⟨a, ha, hja⟩, hjq⟩
      rcases hb.line ha with h1 | h1
      · exact ⟨a, .step _ _ _ hpar h1, hja⟩
      · by_cases hab : a = b
        · subst hab; exact ⟨a, .step _ _ _ hpar (.refl _), hja⟩
        · have := h.order a b j q ha h1 hab hja hqb; omega

/-- a `config` of the section or an ancestor is tidy itself -/
theorem Tidy.up {d : Doc} {name : Str} {sec : Nat} (h : Tidy d name sec) {b q : Nat} (hb : Anc d sec b)
    (hqb : ConfigOf d name b q) (hq : ∀ a, ¬ ConfigOf d name q a) :
    ∀ a c c', Anc d q a → ConfigOf d name a c → ConfigOf d name a c' → c = c' := by
  intro a c c' ha hc hc'
  have hpar : par d q = some b := by
    obtain ⟨e, he, _, _, hp⟩ := hqb
    unfold par; rw [he]; exact hp
  cases ha with
  | refl => exact absurd hc (hq c)
  | step _ p _ hp ha' =>
    rw [hpar] at hp; cases hp
    exact h.one a c c' (hb.trans ha') hc hc'

theorem snoc {α : Type} (l : List α) : l = [] ∨ ∃ l' x, l = l' ++ [x] := by
  induction l using List.reverseRecOn with
  | nil => exact Or.inl rfl
  | append_singleton l x _ => exact Or.inr ⟨l, x, rfl⟩

/-- how a table changes: the keys given are put in, the others stay -/
def Puts (k : Str) (G : Str → Prop) (t t' : Table) : Prop :=
  ∀ v, t'.get k = some v ↔ G v ∨ ((∀ w, ¬ G w) ∧ t.get k = some v)

theorem Puts.id (k : Str) (t : Table) : Puts k (fun _ => False) t t := by
  intro v; simp

/-- what `c` inherits from gives -/
def GivesBy (d : Doc) (ns : Option Str) (k : Str) (c : Nat) (v : Str) : Prop :=
  ∃ id c', attr d c (bytesOf "inherit") = some id ∧ Named d id c' ∧ Gives d ns k c' v

theorem gives_iff (d : Doc) (ns : Option Str) (k : Str) (c : Nat) (v : Str) :
    Gives d ns k c v ↔ own d ns c k = some v ∨ (own d ns c k = none ∧ GivesBy d ns k c v) := by
  constructor
  · intro h
    cases h with
    | own _ _ h => exact Or.inl h
    | inherit _ c' id _ h hi hc h' => exact Or.inr ⟨h, id, c', hi, hc, h'⟩
  · rintro (h | ⟨h, id, c', hi, hc, h'⟩)
    · exact .own _ _ h
    · exact .inherit _ _ _ _ h hi hc h'

/-- own elements after what is inherited -/
theorem puts_own (d : Doc) (ns : Option Str) (k : Str) (c : Nat) (t t' : Table)
    (h : Puts k (GivesBy d ns k c) t t') : Puts k (Gives d ns k c) t (elements d ns c t') := by
  intro v
  rw [elements_get, gives_iff]
  cases ho : own d ns c k with
  | some w =>
    rw [show (some w).or (t'.get k) = some w from rfl]
    simp only [Option.some.injEq, reduceCtorEq, false_and, or_false]
    constructor
    · intro h'; exact Or.inl h'
    · rintro (h' | ⟨h', _⟩)
      · exact h'
      · exact absurd (Gives.own _ _ ho) (h' w)
  | none =>
    simp only [Option.or_none, Option.none_or, reduceCtorEq, true_and, false_or]
    rw [h v]
    have : (∀ w, ¬ Gives d ns k c w) ↔ ∀ w, ¬ GivesBy d ns k c w := by
      constructor
      · intro h' w hw
        exact h' w ((gives_iff d ns k c w).mpr (Or.inr ⟨ho, hw⟩))
      · intro h' w hw
        rcases (gives_iff d ns k c w).mp hw with h'' | ⟨_, h''⟩
        · rw [ho] at h''; cases h''
        · exact h' w h''
    rw [this]

theorem Puts.trans {k : Str} {G H : Str → Prop} {t t' t'' : Table} (h : Puts k G t t')
    (h' : Puts k H t' t'') : Puts k (fun v => H v ∨ ((∀ w, ¬ H w) ∧ G v)) t t'' := by
  intro v
  rw [h' v, h v]
  constructor
  · rintro (hv | ⟨hn, hv | ⟨hg, hv⟩⟩)
    · exact Or.inl (Or.inl hv)
    · exact Or.inl (Or.inr ⟨hn, hv⟩)
    · refine Or.inr ⟨fun w hw => ?_, hv⟩
      rcases hw with hw | ⟨_, hw⟩
      · exact hn w hw
      · exact hg w hw
  · rintro ((hv | ⟨hn, hv⟩) | ⟨hn, hv⟩)
    · exact Or.inl hv
    · exact Or.inr ⟨hn, Or.inl hv⟩
    · refine Or.inr ⟨fun w hw => hn w (Or.inl hw), Or.inr ⟨fun w hw => ?_, hv⟩⟩
      exact hn w (Or.inr ⟨fun u hu => hn u (Or.inl hu), hw⟩)

theorem Puts.congr {k : Str} {G H : Str → Prop} {t t' : Table} (h : Puts k G t t')
    (e : ∀ v, G v ↔ H v) : Puts k H t t' := by
  intro v
  rw [h v, e v]
  constructor
  · rintro (h' | ⟨h', h''⟩)
    · exact Or.inl h'
    · exact Or.inr ⟨fun w hw => h' w ((e w).mpr hw), h''⟩
  · rintro (h' | ⟨h', h''⟩)
    · exact Or.inl h'
    · exact Or.inr ⟨fun w hw => h' w ((e w).mp hw), h''⟩

/-- what is got by id -/
theorem intoHash_id {d : Doc} {ns : Option Str} {k : Str}
    (hids : ∀ c id, attr d c (bytesOf "inherit") = some id → ∃ c', Named d id c') :
    ∀ (f : Nat) (id : Str) (c : Nat) (t t' : Table), Named d id c →
      intoHash d ns f none (.byId id) t = some t' → Puts k (Gives d ns k c) t t'
  | 0, _, _, _, _, _, h => by cases h
  | f + 1, id, c, t, t', hc, h => by
    unfold intoHash at h
    rw [nodeset_id hc] at h
    simp only [List.getLast?_singleton, List.dropLast_singleton, List.getLast?_nil, given_some, given_none, Option.bind_some] at h
    cases hi : attr d c (bytesOf "inherit") with
    | none =>
      rw [hi] at h
      simp only [given_some, given_none, Option.bind_some, Option.some.injEq] at h
      rw [← h]
      apply puts_own
      refine (Puts.id k t).congr fun v => ?_
      constructor
      · exact fun h => h.elim
      · rintro ⟨id', _, h1, _⟩; rw [hi] at h1; cases h1
    | some id' =>
      rw [hi] at h
      simp only [given_some, given_none] at h
      obtain ⟨c', hc'⟩ := hids c id' hi
      cases hr : intoHash d ns f none (.byId id') t with
      | none => rw [hr] at h; cases h
      | some t1 =>
        rw [hr] at h
        simp only [given_some, given_none, Option.bind_some, Option.some.injEq] at h
        rw [← h]
        apply puts_own
        refine (intoHash_id hids f id' c' t t1 hc' hr).congr fun v => ?_
        constructor
        · intro hv; exact ⟨id', c', hi, hc', hv⟩
        · rintro ⟨id'', c'', h1, h2, h3⟩
          rw [hi] at h1; cases h1
          rw [← hc'.2 c'' h2.1]; exact h3

/-- the last of a list that gives the key -/
def LastGives (d : Doc) (ns : Option Str) (k : Str) (L : List Nat) (v : Str) : Prop :=
  ∃ S c R, L = S ++ c :: R ∧ Gives d ns k c v ∧ ∀ c' ∈ R, ∀ w, ¬ Gives d ns k c' w

theorem lastGives_concat (d : Doc) (ns : Option Str) (k : Str) (L : List Nat) (n : Nat) (v : Str) :
    LastGives d ns k (L ++ [n]) v
      ↔ Gives d ns k n v ∨ ((∀ w, ¬ Gives d ns k n w) ∧ LastGives d ns k L v) := by
  constructor
  · rintro ⟨S, c, R, h, hg, hn⟩
    rcases snoc R with rfl | ⟨R', x, rfl⟩
    · have := List.append_inj' h (by simp)
      left
      have h2 := this.2
      simp only [List.cons.injEq, and_true] at h2
      rw [h2]; exact hg
    · right
      have h' : L ++ [n] = (S ++ c :: R') ++ [x] := by simpa using h
      have := List.append_inj' h' (by simp)
      have h2 := this.2
      simp only [List.cons.injEq, and_true] at h2
      refine ⟨fun w hw => hn x (by simp) w (h2 ▸ hw), S, c, R', this.1, hg, fun c' hc' => hn c' ?_⟩
      simp [hc']
  · rintro (hg | ⟨hn, S, c, R, h, hg, hn'⟩)
    · exact ⟨L, n, [], rfl, hg, by simp⟩
    · refine ⟨S, c, R ++ [n], by simp [h], hg, fun c' hc' => ?_⟩
      rcases List.mem_append.mp hc' with h' | h'
      · exact hn' c' h'
      · rw [List.mem_singleton] at h'; rw [h']; exact hn

/-- going up a list of `config`s -/
theorem intoHash_up {d : Doc} {ns : Option Str} {k name : Str}
    (hids : ∀ c id, attr d c (bytesOf "inherit") = some id → ∃ c', Named d id c') :
    ∀ (f : Nat) (L : List Nat) (sec : Nat) (t t' : Table),
      nodeset d (some sec) (.rel name) = L →
      (∀ q ∈ L, nameOf d q = name) →
      (∀ S q R, L = S ++ q :: R → nodeset d (some q) (.rel name) = S ++ [q]) →
      (∀ S R, L = S ++ sec :: R → R = []) →
      intoHash d ns f (some sec) (.rel name) t = some t' → Puts k (LastGives d ns k L) t t'
  | 0, _, _, _, _, _, _, _, _, h => by cases h
  | f + 1, L, sec, t, t', hL, hname, hup, hsec, h => by
    unfold intoHash at h
    rw [hL] at h
    rcases snoc L with rfl | ⟨L', n, rfl⟩
    · simp only [List.getLast?_nil, Option.some.injEq] at h
      rw [← h]
      refine (Puts.id k t).congr fun v => ?_
      constructor
      · exact fun h => h.elim
      · rintro ⟨S, c, R, h1, _⟩
        simp at h1
    · rw [List.getLast?_concat, List.dropLast_concat] at h
      simp only [given_some, given_none] at h
      -- the part above
      have hpre : ∃ t1, (given L'.getLast? t fun p => if some p ≠ some sec then intoHash d ns f (some p) (.rel (nameOf d n)) t else some t) = some t1 ∧ Puts k (LastGives d ns k L') t t1 := by
        rcases snoc L' with rfl | ⟨L2, p, rfl⟩
        · refine ⟨t, rfl, (Puts.id k t).congr fun v => ?_⟩
          constructor
          · exact fun h => h.elim
          · rintro ⟨S, c, R, h1, _⟩
            simp at h1
        · rw [List.getLast?_concat] at h ⊢
          simp only [given_some, given_none] at h ⊢
          have hne : ¬ (p = sec) := by
            rintro rfl
            have := hsec L2 [n] (by simp)
            cases this
          have hne' : some p ≠ some sec := fun e => hne (Option.some.inj e)
          rw [if_pos hne'] at h ⊢
          rw [hname n (by simp)] at h ⊢
          cases hr : intoHash d ns f (some p) (.rel name) t with
          | none => rw [hr] at h; cases h
          | some t1 =>
            refine ⟨t1, rfl, ?_⟩
            refine intoHash_up hids f (L2 ++ [p]) p t t1 (hup L2 p [n] (by simp)) ?_ ?_ ?_ hr
            · intro q hq; exact hname q (List.mem_append_left _ hq)
            · intro S q R e
              exact hup S q (R ++ [n]) (by rw [e]; simp)
            · intro S R e
              have hs := sorted_nodeset d (some sec) (.rel name)
              rw [hL] at hs
              have hs2 := (List.pairwise_append.mp hs).1
              rcases snoc R with rfl | ⟨R', x, rfl⟩
              · rfl
              · exfalso
                have e' : L2 ++ [p] = (S ++ p :: R') ++ [x] := by rw [e]; simp
                have h1 := (List.append_inj' e' (by simp)).1
                rw [h1] at hs2
                have := (List.pairwise_append.mp hs2).2.2 p (by simp) p (by simp)
                omega
      obtain ⟨t1, h1, hp1⟩ := hpre
      rw [h1] at h
      simp only [given_some, given_none, Option.bind_some] at h
      refine Puts.congr (G := fun v => Gives d ns k n v ∨ ((∀ w, ¬ Gives d ns k n w) ∧ LastGives d ns k L' v))
        (hp1.trans ?_) fun v => (lastGives_concat d ns k L' n v).symm
      cases hi : attr d n (bytesOf "inherit") with
      | none =>
        rw [hi] at h
        simp only [given_some, given_none, Option.bind_some, Option.some.injEq] at h
        rw [← h]
        apply puts_own
        refine (Puts.id k t1).congr fun v => ?_
        constructor
        · exact fun h => h.elim
        · rintro ⟨id', _, h2, _⟩; rw [hi] at h2; cases h2
      | some id' =>
        rw [hi] at h
        simp only [given_some, given_none] at h
        obtain ⟨c', hc'⟩ := hids n id' hi
        cases hr : intoHash d ns f none (.byId id') t1 with
        | none => rw [hr] at h; cases h
        | some t2 =>
          rw [hr] at h
          simp only [given_some, given_none, Option.bind_some, Option.some.injEq] at h
          rw [← h]
          apply puts_own
          refine (intoHash_id hids f id' c' t1 t2 hc' hr).congr fun v => ?_
          constructor
          · intro hv; exact ⟨id', c', hi, hc', hv⟩
          · rintro ⟨id'', c'', h1, h2, h3⟩
            rw [hi] at h1; cases h1
            rw [← hc'.2 c'' h2.1]; exact h3

/-- the list and the tree say the same -/
theorem lastGives_at {d : Doc} {ns : Option Str} {k name : Str} {sec : Nat} (h : Tidy d name sec) (v : Str) :
    LastGives d ns k (nodeset d (some sec) (.rel name)) v ↔ At d ns name sec k v := by
  have hs := sorted_nodeset d (some sec) (.rel name)
  constructor
  · rintro ⟨S, c, R, hL, hg, hn⟩
    obtain ⟨a, ha, hca⟩ := (mem_nodeset_rel h.tree h.root sec c).mp (by rw [hL]; simp)
    refine ⟨a, c, ha, hca, hg, fun b c' hb hba hne hc' => ?_⟩
    have hlt := h.order b a c' c hb hba hne hc' hca
    have hmem := (mem_nodeset_rel h.tree h.root sec c').mpr ⟨b, hb, hc'⟩
    rw [hL] at hmem hs
    apply hn
    rcases List.mem_append.mp hmem with hm | hm
    · have := (List.pairwise_append.mp hs).2.2 c' hm c (by simp); omega
    · rcases List.mem_cons.mp hm with hm | hm
      · omega
      · exact hm
  · rintro ⟨a, c, ha, hca, hg, hn⟩
    have hmem := (mem_nodeset_rel h.tree h.root sec c).mpr ⟨a, ha, hca⟩
    obtain ⟨S, R, hL⟩ := List.append_of_mem hmem
    refine ⟨S, c, R, hL, hg, fun c' hc' => ?_⟩
    obtain ⟨b, hb, hcb⟩ := (mem_nodeset_rel h.tree h.root sec c').mp (by rw [hL]; simp [hc'])
    rw [hL] at hs
    have hlt := (List.pairwise_cons.mp (List.pairwise_append.mp hs).2.1).1 c' hc'
    by_cases hba : b = a
    · subst hba
      have := h.one b c c' hb hca hcb; omega
    rcases hb.line ha with h1 | h1
    · exact hn b c' hb h1 hba hcb
    · have := h.order a b c c' ha h1 (Ne.symm hba) hca hcb; omega

/-- **C102 (sets of values).**  In a document written the usual way, whenever the call
returns, a key has exactly the value given by the nearest `config` that gives it,
directly or through what it inherits from; a key no `config` on the way up gives has none.
(Part: what becomes of other documents is shown below.) -/
theorem C102_hash_partial (d : Doc) (ns : Option Str) (name : Str) (sec : Nat) (h : Tidy d name sec)
    (f : Nat) (t : Table) (hr : intoHash d ns f (some sec) (.rel name) [] = some t) (k v : Str) :
    t.get k = some v ↔ At d ns name sec k v := by
  have hp := intoHash_up (k := k) h.ids f _ sec [] t rfl ?_ (fun S q R e => nodeset_up h S R q e) ?_ hr
  · rw [hp v, lastGives_at h]
    constructor
    · rintro (h' | ⟨_, h'⟩)
      · exact h'
      · cases h'
    · exact Or.inl
  · intro q hq
    obtain ⟨a, _, e, he, h1, _⟩ := (mem_nodeset_rel h.tree h.root sec q).mp hq
    unfold nameOf; rw [he]; exact h1
  · intro S R e
    obtain ⟨a, _, hc⟩ := (mem_nodeset_rel h.tree h.root sec sec).mp (by rw [e]; simp)
    exact absurd hc (h.notSelf a)

/-! ### it returns -/

/-- what was reached is reached when more depth is allowed -/
theorem intoHash_mono (d : Doc) (ns : Option Str) : ∀ (f : Nat) (sec : Option Nat) (path : Path)
    (t t' : Table), intoHash d ns f sec path t = some t' → intoHash d ns (f + 1) sec path t = some t'
  | 0, _, _, _, _, h => by cases h
  | f + 1, sec, path, t, t', h => by
    unfold intoHash at h ⊢
    cases hn : (nodeset d sec path).getLast? with
    | none => rw [hn] at h; exact h
    | some node =>
      rw [hn] at h
      simp only [given_some, given_none] at h ⊢
      cases h1 : (given (nodeset d sec path).dropLast.getLast? t fun p => if some p ≠ sec then intoHash d ns f (some p) (.rel (nameOf d node)) t else some t) with
      | none => rw [h1] at h; cases h
      | some t1 =>
        rw [h1] at h
        have h1' : (given (nodeset d sec path).dropLast.getLast? t fun p => if some p ≠ sec then intoHash d ns (f + 1) (some p) (.rel (nameOf d node)) t else some t) = some t1 := by
          cases hp : (nodeset d sec path).dropLast.getLast? with
          | none => rw [hp] at h1; exact h1
          | some p =>
            rw [hp] at h1
            simp only [given_some, given_none] at h1 ⊢
            by_cases hc : some p ≠ sec
            · rw [if_pos hc] at h1 ⊢
              exact intoHash_mono d ns f _ _ _ _ h1
            · rw [if_neg hc] at h1 ⊢
              exact h1
        rw [h1']
        simp only [given_some, given_none, Option.bind_some] at h ⊢
        cases hi : attr d node (bytesOf "inherit") with
        | none => rw [hi] at h; exact h
        | some id =>
          rw [hi] at h
          simp only [given_some, given_none] at h ⊢
          cases h2 : intoHash d ns f none (.byId id) t1 with
          | none => rw [h2] at h; cases h
          | some t2 =>
            rw [h2] at h
            rw [intoHash_mono d ns f _ _ _ _ h2]
            exact h

theorem intoHash_more (d : Doc) (ns : Option Str) (sec : Option Nat) (path : Path) (t t' : Table)
    (f n : Nat) (h : intoHash d ns f sec path t = some t') : intoHash d ns (f + n) sec path t = some t' := by
  induction n with
  | zero => exact h
  | succ n ih => exact intoHash_mono d ns _ _ _ _ _ ih

/-- nothing inherits from itself: an element is ranked above what it inherits from -/
def Ranked (d : Doc) (rank : Nat → Nat) : Prop :=
  ∀ c id c', attr d c (bytesOf "inherit") = some id → Named d id c' → rank c' < rank c

theorem returns_id {d : Doc} (ns : Option Str) {rank : Nat → Nat} (hr : Ranked d rank)
    (hids : ∀ c id, attr d c (bytesOf "inherit") = some id → ∃ c', Named d id c') :
    ∀ (n : Nat) (c : Nat) (id : Str) (t : Table), Named d id c → rank c ≤ n →
      ∃ t', intoHash d ns (n + 1) none (.byId id) t = some t' := by
  intro n
  induction n with
  | zero =>
    intro c id t hc hle
    unfold intoHash
    rw [nodeset_id hc]
    simp only [List.getLast?_singleton, List.dropLast_singleton, List.getLast?_nil, given_some, given_none, Option.bind_some]
    cases hi : attr d c (bytesOf "inherit") with
    | none => exact ⟨_, rfl⟩
    | some id' =>
      obtain ⟨c', hc'⟩ := hids c id' hi
      have := hr c id' c' hi hc'
      omega
  | succ n ih =>
    intro c id t hc hle
    unfold intoHash
    rw [nodeset_id hc]
    simp only [List.getLast?_singleton, List.dropLast_singleton, List.getLast?_nil, given_some, given_none, Option.bind_some]
    cases hi : attr d c (bytesOf "inherit") with
    | none => exact ⟨_, rfl⟩
    | some id' =>
      obtain ⟨c', hc'⟩ := hids c id' hi
      have := hr c id' c' hi hc'
      obtain ⟨t1, h1⟩ := ih c' id' t hc' (by omega)
      simp only [given_some, given_none]
      rw [h1]
      exact ⟨_, rfl⟩

theorem returns_up {d : Doc} (ns : Option Str) {name : Str} {rank : Nat → Nat} (hr : Ranked d rank)
    (hids : ∀ c id, attr d c (bytesOf "inherit") = some id → ∃ c', Named d id c') :
    ∀ (m : Nat) (L : List Nat) (sec : Nat) (t : Table), L.length = m →
      nodeset d (some sec) (.rel name) = L →
      (∀ q ∈ L, nameOf d q = name) →
      (∀ S q R, L = S ++ q :: R → nodeset d (some q) (.rel name) = S ++ [q]) →
      ∃ f t', intoHash d ns f (some sec) (.rel name) t = some t' := by
  intro m
  induction m using Nat.strong_induction_on with
  | _ m ih =>
    intro L sec t hm hL hname hup
    rcases snoc L with rfl | ⟨L', n, rfl⟩
    · refine ⟨1, t, ?_⟩
      unfold intoHash
      rw [hL]; rfl
    · have hpre : ∃ f t1, (given L'.getLast? t fun p => if some p ≠ some sec then intoHash d ns f (some p) (.rel (nameOf d n)) t else some t) = some t1 := by
        rcases snoc L' with rfl | ⟨L2, p, rfl⟩
        · exact ⟨0, t, rfl⟩
        · rw [List.getLast?_concat]
          simp only [given_some, given_none]
          rw [hname n (by simp)]
          by_cases hc : some p ≠ some sec
          · obtain ⟨f, t1, h1⟩ := ih (L2 ++ [p]).length (by rw [← hm]; simp) (L2 ++ [p]) p t rfl
              (hup L2 p [n] (by simp)) (fun q hq => hname q (List.mem_append_left _ hq))
              (fun S q R e => hup S q (R ++ [n]) (by rw [e]; simp))
            exact ⟨f, t1, by rw [if_pos hc]; exact h1⟩
          · exact ⟨0, t, by rw [if_neg hc]⟩
      obtain ⟨f, t1, h1⟩ := hpre
      have h1' : ∀ g, (given L'.getLast? t fun p => if some p ≠ some sec then intoHash d ns (f + g) (some p) (.rel (nameOf d n)) t else some t) = some t1 := by
        intro g
        cases hp : L'.getLast? with
        | none => rw [hp] at h1; exact h1
        | some p =>
          rw [hp] at h1
          simp only [given_some, given_none] at h1 ⊢
          by_cases hc : some p ≠ some sec
          · rw [if_pos hc] at h1 ⊢; exact intoHash_more d ns _ _ _ _ f g h1
          · rw [if_neg hc] at h1 ⊢; exact h1
      cases hi : attr d n (bytesOf "inherit") with
      | none =>
        refine ⟨f + 1, elements d ns n t1, ?_⟩
        unfold intoHash
        rw [hL, List.getLast?_concat, List.dropLast_concat]
        have := h1' 0
        rw [Nat.add_zero] at this
        simp only [given_some, given_none]
        rw [this]
        simp only [given_some, given_none, Option.bind_some]
        rw [hi]; rfl
      | some id =>
        obtain ⟨c', hc'⟩ := hids n id hi
        obtain ⟨t2, h2⟩ := returns_id ns hr hids (rank c') c' id t1 hc' (Nat.le_refl _)
        refine ⟨f + (rank c' + 1) + 1, elements d ns n t2, ?_⟩
        unfold intoHash
        rw [hL, List.getLast?_concat, List.dropLast_concat]
        simp only [given_some, given_none]
        rw [h1' (rank c' + 1)]
        simp only [given_some, given_none, Option.bind_some]
        rw [hi]
        simp only [given_some, given_none]
        rw [Nat.add_comm f, intoHash_more d ns _ _ _ _ _ f h2]
        rfl

/-- **C102 (it returns).**  In a document written the usual way where nothing inherits
from itself, however long the way round, the call returns. -/
theorem C102_returns_partial (d : Doc) (ns : Option Str) (name : Str) (sec : Nat) (h : Tidy d name sec)
    (rank : Nat → Nat) (hr : Ranked d rank) :
    ∃ f t, intoHash d ns f (some sec) (.rel name) [] = some t := by
  refine returns_up ns hr h.ids _ _ sec [] rfl rfl ?_ (fun S q R e => nodeset_up h S R q e)
  intro q hq
  obtain ⟨a, _, e, he, h1, _⟩ := (mem_nodeset_rel h.tree h.root sec q).mp hq
  unfold nameOf; rw [he]; exact h1

/-! ### what other documents give -/

/-- `complex.conf`, with a section inside the `config` named C -/
def complex : Doc :=
  [{ parent := none, name := bytesOf "root" },
   { parent := some 0, name := bytesOf "config", attrs := [(bytesOf "name", bytesOf "A")] },
   { parent := some 1, name := bytesOf "key1", text := bytesOf "a" },
   { parent := some 1, name := bytesOf "key2", text := bytesOf "b" },
   { parent := some 1, name := bytesOf "key3", text := bytesOf "c" },
   { parent := some 1, name := bytesOf "config",
     attrs := [(bytesOf "name", bytesOf "C"), (bytesOf "inherit", bytesOf "bob")] },
   { parent := some 5, name := bytesOf "key1", text := bytesOf "AAA" },
   { parent := some 5, name := bytesOf "key4", text := bytesOf "DDD" },
   { parent := some 0, name := bytesOf "x" },
   { parent := some 8, name := bytesOf "y" },
   { parent := some 9, name := bytesOf "z" },
   { parent := some 10, name := bytesOf "config",
     attrs := [(bytesOf "name", bytesOf "B"), (bytesOf "id", bytesOf "bob")] },
   { parent := some 11, name := bytesOf "key2", text := bytesOf "bobB" },
   { parent := some 11, name := bytesOf "key5", text := bytesOf "bobE" }]

/-- **C102 (violated: a `config` inside another).**  The documentation's second example
does not come out as documented: `key3` of the outer `config` is missing, asked for at
the outer `config` or inside the inner one, while the other four keys are as documented. -/
theorem C102_nested_violated : ∀ sec ∈ [1, 6, 7], ∃ t,
    intoHash complex none 9 (some sec) (.rel (bytesOf "config")) [] = some t ∧
      t.get (bytesOf "key1") = some (bytesOf "AAA") ∧ t.get (bytesOf "key2") = some (bytesOf "bobB") ∧
      t.get (bytesOf "key4") = some (bytesOf "DDD") ∧ t.get (bytesOf "key5") = some (bytesOf "bobE") ∧
      t.get (bytesOf "key3") = none := by
  intro sec hs
  have h : ∀ sec ∈ [1, 6, 7], ((intoHash complex none 9 (some sec) (.rel (bytesOf "config")) []).map fun t =>
      decide (t.get (bytesOf "key1") = some (bytesOf "AAA") ∧ t.get (bytesOf "key2") = some (bytesOf "bobB") ∧
      t.get (bytesOf "key4") = some (bytesOf "DDD") ∧ t.get (bytesOf "key5") = some (bytesOf "bobE") ∧
      t.get (bytesOf "key3") = none)) = some true := by decide +kernel
  have h' := h sec hs
  rw [Option.map_eq_some_iff] at h'
  obtain ⟨t, h1, h2⟩ := h'
  exact ⟨t, h1, of_decide_eq_true h2⟩

/-- a `config` as a pair of its parent and itself -/
theorem configOf_mem {d : Doc} {name : Str} {a c : Nat} (h : ConfigOf d name a c) :
    (a, c) ∈ (List.range d.length).filterMap fun j => (d[j]?).bind fun e =>
      if e.name = name ∧ e.ns = none then e.parent.map fun p => (p, j) else none := by
  obtain ⟨e, he, h1, h2, h3⟩ := h
  rw [List.mem_filterMap]
  refine ⟨c, List.mem_range.mpr (List.getElem?_eq_some_iff.mp he).1, ?_⟩
  rw [he]
  simp [h1, h2, h3]

/-- a section with a `config` of its own, whose parent's `config` is written after it -/
def late (own' parent' : Str) : Doc :=
  [{ parent := none, name := bytesOf "a" },
   { parent := some 0, name := bytesOf "b" },
   { parent := some 1, name := bytesOf "config" },
   { parent := some 2, name := bytesOf "key1", text := own' },
   { parent := some 0, name := bytesOf "config" },
   { parent := some 4, name := bytesOf "key2", text := parent' }]

/-- **C102 (violated: a `config` written after a subsection).**  Then it is taken for the
nearest one, and the subsection's own `config` is not read at all. -/
theorem C102_late_violated (own' parent' : Str) :
    (∀ v, At (late own' parent') none (bytesOf "config") 1 (bytesOf "key1") v ↔ v = own') ∧
    ∃ t, intoHash (late own' parent') none 9 (some 1) (.rel (bytesOf "config")) [] = some t ∧
      t.get (bytesOf "key1") = none := by
  have hpar : ∀ i p, par (late own' parent') i = some p → p < i := by
    intro i p h
    have hi := par_lt h
    have : ∀ i < 6, ((par (late [] []) i).all fun p => decide (p < i)) = true := by decide +kernel
    have h6 : i < 6 := hi
    have h7 := this i h6
    have h8 : par (late own' parent') i = par (late [] []) i := by
      match i, h6 with
      | 0, _ => rfl
      | 1, _ => rfl
      | 2, _ => rfl
      | 3, _ => rfl
      | 4, _ => rfl
      | 5, _ => rfl
    rw [← h8, h] at h7
    simpa using h7
  have hanc : ∀ a, Anc (late own' parent') 1 a → a ∈ [1, 0] := by
    intro a ha
    rw [← mem_above hpar] at ha
    exact ha
  have hc : ∀ a c, ConfigOf (late own' parent') (bytesOf "config") a c → (a, c) ∈ [(1, 2), (0, 4)] := by
    intro a c h
    have h' := configOf_mem h
    have e : ((List.range (late own' parent').length).filterMap fun j => ((late own' parent')[j]?).bind fun e =>
      if e.name = bytesOf "config" ∧ e.ns = none then e.parent.map fun p => (p, j) else none)
      = [(1, 2), (0, 4)] := by rfl
    rw [e] at h'; exact h'
  have o2 : own (late own' parent') none 2 (bytesOf "key1") = some own' := by rfl
  have o4 : own (late own' parent') none 4 (bytesOf "key1") = none := by rfl
  have i4 : attr (late own' parent') 4 (bytesOf "inherit") = none := by rfl
  have g4 : ∀ w, ¬ Gives (late own' parent') none (bytesOf "key1") 4 w := by
    intro w hw
    rcases (gives_iff _ _ _ _ _).mp hw with h | ⟨_, id, c', h, _⟩
    · rw [o4] at h; cases h
    · rw [i4] at h; cases h
  have g2 : ∀ w, Gives (late own' parent') none (bytesOf "key1") 2 w ↔ w = own' := by
    intro w
    rw [gives_iff, o2]
    constructor
    · rintro (h | ⟨h, _⟩)
      · exact (Option.some.inj h).symm
      · cases h
    · rintro rfl; exact Or.inl rfl
  refine ⟨fun v => ⟨?_, ?_⟩, ?_⟩
  · rintro ⟨a, c, ha, hac, hg, _⟩
    have h := hc a c hac
    simp only [List.mem_cons, Prod.mk.injEq, List.not_mem_nil, or_false] at h
    rcases h with ⟨_, rfl⟩ | ⟨_, rfl⟩
    · exact (g2 v).mp hg
    · exact absurd hg (g4 v)
  · rintro rfl
    refine ⟨1, 2, .refl _, ⟨_, rfl, rfl, rfl, rfl⟩, (g2 _).mpr rfl, fun b c' hb hba hne hcc => ?_⟩
    have h1 := hc b c' hcc
    have h2 := hba.le hpar
    simp only [List.mem_cons, Prod.mk.injEq, List.not_mem_nil, or_false] at h1
    rcases h1 with ⟨rfl, rfl⟩ | ⟨rfl, rfl⟩
    · exact absurd rfl hne
    · omega
  · refine ⟨[(bytesOf "key2", parent'), (bytesOf "key2", parent')], by rfl, by rfl⟩

/-- two `config`s inheriting from each other -/
def ring : Doc :=
  [{ parent := none, name := bytesOf "a" },
   { parent := some 0, name := bytesOf "config",
     attrs := [(bytesOf "id", bytesOf "one"), (bytesOf "inherit", bytesOf "two")] },
   { parent := some 0, name := bytesOf "b" },
   { parent := some 2, name := bytesOf "config",
     attrs := [(bytesOf "id", bytesOf "two"), (bytesOf "inherit", bytesOf "one")] }]

/-- **C102 (violated: inheriting in a circle).**  The call never returns, however deep
the recursion may go. -/
theorem C102_ring_violated (f : Nat) (ns : Option Str) :
    intoHash ring ns f (some 0) (.rel (bytesOf "config")) [] = none := by
  have h : ∀ f t, intoHash ring ns f none (.byId (bytesOf "one")) t = none ∧
      intoHash ring ns f none (.byId (bytesOf "two")) t = none := by
    intro f
    induction f with
    | zero => intro t; exact ⟨rfl, rfl⟩
    | succ f ih =>
      intro t
      constructor
      · unfold intoHash
        rw [show nodeset ring none (.byId (bytesOf "one")) = [1] from by decide +kernel]
        simp only [List.getLast?_singleton, List.dropLast_singleton, List.getLast?_nil, given_some, given_none, Option.bind_some]
        rw [show attr ring 1 (bytesOf "inherit") = some (bytesOf "two") from by decide +kernel]
        simp only [given_some, given_none]
        rw [(ih t).2]; rfl
      · unfold intoHash
        rw [show nodeset ring none (.byId (bytesOf "two")) = [3] from by decide +kernel]
        simp only [List.getLast?_singleton, List.dropLast_singleton, List.getLast?_nil, given_some, given_none, Option.bind_some]
        rw [show attr ring 3 (bytesOf "inherit") = some (bytesOf "one") from by decide +kernel]
        simp only [given_some, given_none]
        rw [(ih t).1]; rfl
  cases f with
  | zero => rfl
  | succ f =>
    unfold intoHash
    rw [show nodeset ring (some 0) (.rel (bytesOf "config")) = [1] from by decide +kernel]
    simp only [List.getLast?_singleton, List.dropLast_singleton, List.getLast?_nil, given_some, given_none, Option.bind_some]
    rw [show attr ring 1 (bytesOf "inherit") = some (bytesOf "two") from by decide +kernel]
    simp only [given_some, given_none]
    rw [(h f []).2]; rfl

/-! ### the documentation's first example -/

/-- `simple.conf` -/
def simple : Doc :=
  [{ parent := none, name := bytesOf "a", attrs := [(bytesOf "foo", bytesOf "bar")] },
   { parent := some 0, name := bytesOf "config" },
   { parent := some 1, name := bytesOf "key1", text := bytesOf "val a 1" },
   { parent := some 1, name := bytesOf "key2", text := bytesOf "val a 2" },
   { parent := some 0, name := bytesOf "b", attrs := [(bytesOf "quux", bytesOf "baz")] },
   { parent := some 4, name := bytesOf "config" },
   { parent := some 5, name := bytesOf "key1", text := bytesOf "val b 1" },
   { parent := some 5, name := bytesOf "key3", text := bytesOf "val b 3" },
   { parent := some 4, name := bytesOf "c", attrs := [(bytesOf "foo", bytesOf "meme")] }]

example : inherited simple 4 (bytesOf "foo") = some (bytesOf "bar") ∧
    inherited simple 8 (bytesOf "foo") = some (bytesOf "meme") ∧
    inherited simple 8 (bytesOf "quux") = some (bytesOf "baz") ∧
    inherited simple 0 (bytesOf "quux") = none := by decide +kernel

example : (intoHash simple none 9 (some 8) (.rel (bytesOf "config")) []).map (fun t =>
    (t.get (bytesOf "key1"), t.get (bytesOf "key2"), t.get (bytesOf "key3")))
    = some (some (bytesOf "val b 1"), some (bytesOf "val a 2"), some (bytesOf "val b 3")) := by
  decide +kernel

theorem simple_tidy : Tidy simple (bytesOf "config") 8 := by
  have ht : Tree simple := by
    intro i p hp
    have hi := par_lt hp
    have : ∀ i < simple.length, ((par simple i).all fun p => decide (p < i)) = true := by decide +kernel
    have := this i hi
    rw [hp] at this
    simpa using this
  have hanc : ∀ a, Anc simple 8 a → a ∈ [8, 4, 0] := by
    intro a ha
    rw [← mem_above ht] at ha
    have e : above simple (some 8) = [8, 4, 0] := by decide +kernel
    rw [e] at ha; exact ha
  have hc : ∀ a c, ConfigOf simple (bytesOf "config") a c → (a, c) ∈ [(0, 1), (4, 5)] := by
    intro a c h
    have := configOf_mem h
    have e : ((List.range simple.length).filterMap fun j => (simple[j]?).bind fun e =>
      if e.name = bytesOf "config" ∧ e.ns = none then e.parent.map fun p => (p, j) else none)
      = [(0, 1), (4, 5)] := by decide +kernel
    rw [e] at this; exact this
  constructor
  · exact ht
  · decide +kernel
  · intro a c c' _ h1 h2
    have := hc a c h1; have := hc a c' h2
    simp at *; omega
  · intro a b c c' _ hab hne h1 h2
    have := hc a c h1; have := hc b c' h2
    have := hab.le ht
    simp at *; omega
  · intro a c c' _ h1 h2
    have := hc a c h1; have := hc c c' h2
    simp at *; omega
  · intro i e he hp
    have : ∀ i < simple.length, ((simple[i]?).all fun e => decide (e.parent = none → e.name ≠ bytesOf "config")) = true := by
      decide +kernel
    have := this i (List.getElem?_eq_some_iff.mp he).1
    rw [he] at this
    exact (of_decide_eq_true this) hp
  · intro a h
    have := hc a 8 h
    simp at this
  · intro c id h
    have : ∀ c < simple.length, attr simple c (bytesOf "inherit") = none := by decide +kernel
    rw [this c (attr_lt h)] at h
    cases h

/-- so the theorems above apply to it -/
example : ∃ f t, intoHash simple none f (some 8) (.rel (bytesOf "config")) [] = some t ∧
    ∀ k v, t.get k = some v ↔ At simple none (bytesOf "config") 8 k v := by
  obtain ⟨f, t, h⟩ := C102_returns_partial simple none _ 8 simple_tidy (fun _ => 0) (by
    intro c id c' h
    have : ∀ c < simple.length, attr simple c (bytesOf "inherit") = none := by decide +kernel
    rw [this c (attr_lt h)] at h
    cases h)
  exact ⟨f, t, h, fun k v => C102_hash_partial simple none _ 8 simple_tidy f t h k v⟩

end Mtev.ConfTree
