import Verif.ConfIncl

/-!
# C113, C114 Included files are mixed in, written back each to its own file, and mixed in again; removing elements

`segs` are the contents of the files a pattern matches, in order.
-/

namespace Mtev.ConfIncl

/-- the files as parsed: file `i` has the nodes `segs[i]`, all different -/
structure Parsed (h : Heap) (segs : List (List Nat)) : Prop where
  chain : ∀ i l, segs[i]? = some l → Chain h.next (h.rootKids i) l
  nodup : segs.flatten.Nodup

/-- the running configuration: below the element are the contents of the files one after the other.
Nodes added since loading are nobody's (`own n = none`), and not at the front of a file. -/
structure Mixed (h : Heap) (segs : List (List Nat)) : Prop where
  chain : Chain h.next h.kids segs.flatten
  nodup : segs.flatten.Nodup
  roots : ∀ i l, segs[i]? = some l → h.rootKids i = l.head?
  own : ∀ i l, segs[i]? = some l → ∀ n ∈ l, h.own n = some i ∨ (h.own n = none ∧ l.head? ≠ some n)
  parent : ∀ n ∈ segs.flatten, h.parent n = .incl

/-- ready for writing: the main file has its own contents below the element, and each file has its nodes below its root -/
structure Apart (h : Heap) (segs : List (List Nat)) (old : Option Nat) : Prop where
  kids : h.kids = old
  chain : ∀ i l, segs[i]? = some l → Chain h.next (h.rootKids i) l
  nodup : segs.flatten.Nodup
  own : ∀ i l, segs[i]? = some l → ∀ n ∈ l, h.own n = some i
  parent : ∀ i l, segs[i]? = some l → ∀ n ∈ l, h.parent n = .root i

/-! ### putting together -/

/-- between files: those of `done` are joined, those of `rest` are still alone -/
structure Half (h : Heap) (don rest : List (List Nat)) : Prop where
  chain : don ≠ [] → Chain h.next h.kids don.flatten
  alone : ∀ j l, rest[j]? = some l → Chain h.next (h.rootKids (don.length + j)) l
  nodup : (don ++ rest).flatten.Nodup
  roots : ∀ i l, don[i]? = some l → h.rootKids i = l.head?
  parent : ∀ n ∈ don.flatten, h.parent n = .incl

/-- `next` changed at the end of the joined part only -/
theorem Half.join {h : Heap} {don : List (List Nat)} {l : List Nat} {rest : List (List Nat)} {k z : Nat} {a : List Nat}
    (hh : Half h don (l :: rest)) (e : don.flatten = a ++ [z]) (hk : h.kids = some k) :
    Chain (put h.next z l.head?) (some k) (don ++ [l]).flatten ∧
    ∀ j s, rest[j]? = some s → Chain (put h.next z l.head?) (h.rootKids (don.length + 1 + j)) s := by
  have hd : don ≠ [] := by rintro rfl; simp at e
  have hn := hh.nodup
  simp only [List.flatten_append, List.flatten_cons, e] at hn
  have hza : ∀ x ∈ a, x ≠ z := by
    have := (List.nodup_append.1 (List.nodup_append.1 hn).1).2.2
    intro x hx
    exact this x hx z (by simp)
  have hz : ∀ x ∈ l ++ rest.flatten, z ≠ x := by
    intro x hx
    exact (List.nodup_append.1 hn).2.2 z (by simp) x hx
  constructor
  · have h1 := hh.chain hd
    have h2 := hh.alone 0 l rfl
    have h3 := Chain.head l h2
    rw [h3] at h2
    rw [hk, e] at h1
    rw [List.flatten_append, e]
    simpa using Chain.join a z l h1 h2 (fun hm => hz z (by simp [hm]) rfl) hza
  · intro j s hs
    have := hh.alone (j + 1) s (by simpa using hs)
    have e2 : don.length + (j + 1) = don.length + 1 + j := by omega
    rw [e2] at this
    refine Chain.congr s this fun n hm => put_other _ _ _ _ ?_
    intro h; subst h
    have hmem : s ∈ rest := List.mem_of_getElem? hs
    exact hz n (by simp only [List.mem_append, List.mem_flatten]; exact Or.inr ⟨s, hmem, hm⟩) rfl

theorem roots_snoc {h : Heap} {don : List (List Nat)} {l : List Nat}
    (h1 : ∀ i s, don[i]? = some s → h.rootKids i = s.head?) (h2 : h.rootKids don.length = l.head?) :
    ∀ i s, (don ++ [l])[i]? = some s → h.rootKids i = s.head? := by
  intro i s hs
  by_cases hi : i < don.length
  · rw [List.getElem?_append_left hi] at hs
    exact h1 i s hs
  · have : i = don.length := by
      have := (List.getElem?_eq_some_iff.1 hs).1
      simp at this; omega
    subst this
    simp at hs
    rw [h2, hs]

/-- attaching the nodes of the next file -/
theorem attach_spec {f : Nat} {h : Heap} {don : List (List Nat)} {l : List Nat} {rest : List (List Nat)}
    (hh : Half h don (l :: rest)) (hf : don.flatten.length < f) (hl : don ≠ [] → l ≠ []) :
    ∃ h', attach f don.length h = some (.ok h') ∧ Chain h'.next h'.kids (don ++ [l]).flatten ∧
      (∀ j s, rest[j]? = some s → Chain h'.next (h'.rootKids (don.length + 1 + j)) s) ∧
      h'.rootKids = h.rootKids ∧ h'.own = h.own ∧ h'.parent = h.parent := by
  have hr := hh.alone 0 l rfl
  have hhead := Chain.head l hr
  simp only [Nat.add_zero] at hr hhead
  have hrest : ∀ j s, rest[j]? = some s → Chain h.next (h.rootKids (don.length + 1 + j)) s := by
    intro j s hs
    have := hh.alone (j + 1) s (by simpa using hs)
    have e2 : don.length + (j + 1) = don.length + 1 + j := by omega
    rwa [e2] at this
  cases hk : h.kids with
  | none =>
    refine ⟨{ h with kids := h.rootKids don.length }, by simp [attach, hk], ?_, hrest, rfl, rfl, rfl⟩
    have : don.flatten = [] := by
      by_cases hd : don = []
      · simp [hd]
      · have := hh.chain hd
        rw [hk] at this
        cases hx : don.flatten with
        | nil => rfl
        | cons a t => rw [hx] at this; exact absurd this.1 (by simp)
    rw [List.flatten_append, this]
    simpa using hr
  | some k =>
    by_cases hd : don = []
    · subst hd
      refine ⟨{ h with kids := h.rootKids 0 }, by simp [attach, hk], ?_, hrest, rfl, rfl, rfl⟩
      simpa using hr
    · have hne : don.length ≠ 0 := by simpa using hd
      have hc := hh.chain hd
      rw [hk] at hc
      obtain hx | ⟨a, z, e⟩ := List.eq_nil_or_concat don.flatten
      · rw [hx] at hc; exact absurd hc (by simp [Chain])
      · rw [List.concat_eq_append] at e
        rw [e] at hc
        have he : endOf f h k = some z := endOf_spec a z f h k hc (by rw [e] at hf; simp at hf; omega)
        obtain ⟨m, t, rfl⟩ := List.exists_cons_of_ne_nil (hl hd)
        obtain ⟨j1, j2⟩ := hh.join e hk
        refine ⟨{ h with prev := put h.prev m (h.next z), next := put h.next z (some m) }, ?_, ?_, ?_, rfl, rfl, rfl⟩
        · simp [attach, hk, hne, he, hhead]
        · rw [hk]; exact j1
        · exact j2

theorem setAll_mem {α : Type} {f : Nat → α} {l : List Nat} {v : Nat → α} {n : Nat} (h : n ∈ l) : setAll f l v n = v n := by
  simp [setAll, h]

/-- `last` is the last node below the element, unless there is none -/
theorem redo_spec {f : Nat} : ∀ (rest : List (List Nat)) (h : Heap) (don : List (List Nat)),
    Half h don rest → (don ++ rest).flatten.length < f → (∀ j l, rest[j]? = some l → don.length + j ≠ 0 → l ≠ []) →
    don ++ rest ≠ [] → (don ≠ [] → don.flatten ≠ [] → h.last = don.flatten.getLast?) →
    ∃ h', redo f don.length rest.length h = some (.ok h') ∧ Half h' (don ++ rest) [] ∧ h'.own = h.own ∧
      ((don ++ rest).flatten ≠ [] → h'.last = (don ++ rest).flatten.getLast?)
  | [], h, don, hh, _, _, hne, hl => by
    refine ⟨h, rfl, by simpa using hh, rfl, ?_⟩
    simp only [List.append_nil] at hne ⊢
    exact hl hne
  | l :: rest, h, don, hh, hf, hem, hne, _ => by
    have hlen : don.flatten.length < f := by
      simp only [List.flatten_append, List.length_append] at hf; omega
    obtain ⟨h1, e1, c1, c2, c3, c4, c5⟩ := attach_spec hh hlen (by
      intro hd
      refine hem 0 l rfl ?_
      simpa using hd)
    have hfl : (don ++ [l]).flatten.length ≤ f := by
      simp only [List.flatten_append, List.flatten_cons, List.flatten_nil, List.length_append, List.length_nil] at hf ⊢; omega
    have hcl := claim_spec _ f h1 h1.kids c1 hfl
    have hr := Chain.head l (hh.alone 0 l rfl)
    simp only [Nat.add_zero] at hr
    obtain ⟨h', e', hh', ho', hl'⟩ := redo_spec rest
      { h1 with parent := setAll h1.parent (don ++ [l]).flatten (fun _ => .incl)
                last := ((don ++ [l]).flatten.getLast?).or h1.last } (don ++ [l])
      { chain := fun _ => c1
        alone := by
          intro j s hs
          have := c2 j s hs
          simpa using this
        nodup := by simpa using hh.nodup
        roots := by
          apply roots_snoc
          · intro i s hs
            rw [c3]; exact hh.roots i s hs
          · rw [c3]; exact hr
        parent := fun n hn => setAll_mem (f := h1.parent) (v := fun _ => Par.incl) hn }
      (by simpa using hf)
      (by
        intro j s hs hj
        refine hem (j + 1) s (by simpa using hs) (by omega))
      (by simp)
      (by
        intro _ hx
        cases hg : (don ++ [l]).flatten.getLast? with
        | none => exact absurd (List.getLast?_eq_none_iff.1 hg) hx
        | some z => simp)
    refine ⟨h', ?_, by simpa using hh', by rw [ho', c4], by simpa using hl'⟩
    simp only [List.length_cons, redo, e1, hcl]
    simpa using e'

/-- one file at loading -/
theorem mixOne_spec {f : Nat} {h : Heap} {don : List (List Nat)} {l : List Nat} {rest : List (List Nat)}
    (hh : Half h don (l :: rest)) (hf : (don ++ [l]).flatten.length < f) :
    ∃ h', mixOne f don.length h = some h' ∧ Half h' (don ++ [l]) rest ∧
      h'.own = setAll h.own l (fun _ => some don.length) ∧ h'.last = h.last ∧ h'.prev = h.prev := by
  have hr := hh.alone 0 l rfl
  have hhead := Chain.head l hr
  simp only [Nat.add_zero] at hr hhead
  have hfl : l.length ≤ f ∧ don.flatten.length < f := by
    simp only [List.flatten_append, List.flatten_cons, List.flatten_nil, List.length_append, List.length_nil] at hf; omega
  have hrest : ∀ j s, rest[j]? = some s → Chain h.next (h.rootKids (don.length + 1 + j)) s := by
    intro j s hs
    have := hh.alone (j + 1) s (by simpa using hs)
    have e2 : don.length + (j + 1) = don.length + 1 + j := by omega
    rwa [e2] at this
  have hnd : (don ++ [l] ++ rest).flatten.Nodup := by simpa using hh.nodup
  have hro := roots_snoc hh.roots hhead
  have hpar : ∀ n ∈ (don ++ [l]).flatten, setAll h.parent l (fun _ => .incl) n = .incl := by
    intro n hn
    by_cases hm : n ∈ l
    · exact setAll_mem hm
    · simp only [setAll, if_neg hm]
      apply hh.parent
      simpa [List.flatten_append, hm] using hn
  have e1 := own_spec l f don.length { h with kids := if don.length = 0 then none else h.kids } _ hr hfl.1
  simp only at e1
  by_cases hd : don = []
  · subst hd
    simp only [List.length_nil, if_true] at e1
    refine ⟨{ h with parent := setAll h.parent l (fun _ => .incl), own := setAll h.own l (fun _ => some 0)
                     kids := h.rootKids 0 }, ?_, ⟨fun _ => ?_, ?_, hnd, hro, hpar⟩, rfl, rfl, rfl⟩
    · simp only [mixOne, List.length_nil, if_true, e1]
    · simpa using hr
    · simpa using hrest
  · have hne : don.length ≠ 0 := by simpa using hd
    simp only [if_neg hne] at e1
    have hc := hh.chain hd
    cases hk : h.kids with
    | none =>
      rw [hk] at hc e1
      refine ⟨{ h with parent := setAll h.parent l (fun _ => .incl), own := setAll h.own l (fun _ => some don.length)
                       kids := h.rootKids don.length }, ?_, ⟨fun _ => ?_, ?_, hnd, hro, hpar⟩, rfl, rfl, rfl⟩
      · simp only [mixOne, if_neg hne, hk, e1]
      · have : don.flatten = [] := by
          cases hx : don.flatten with
          | nil => rfl
          | cons a t => rw [hx] at hc; exact absurd hc.1 (by simp)
        rw [List.flatten_append, this]
        simpa using hr
      · simpa using hrest
    | some k =>
      rw [hk] at hc e1
      obtain hx | ⟨a, z, e⟩ := List.eq_nil_or_concat don.flatten
      · rw [hx] at hc; exact absurd hc (by simp [Chain])
      · rw [List.concat_eq_append] at e
        rw [e] at hc
        obtain ⟨j1, j2⟩ := hh.join e hk
        have he : endOf f { h with parent := setAll h.parent l (fun _ => .incl)
                                   own := setAll h.own l (fun _ => some don.length), kids := some k } k = some z :=
          endOf_spec a z f _ k hc (by have := hfl.2; rw [e] at this; simp at this; omega)
        refine ⟨{ h with parent := setAll h.parent l (fun _ => .incl), own := setAll h.own l (fun _ => some don.length)
                         kids := some k, next := put h.next z (h.rootKids don.length) }, ?_,
          ⟨fun _ => ?_, ?_, hnd, hro, hpar⟩, rfl, rfl, rfl⟩
        · simp only [mixOne, if_neg hne, hk, e1, he]
        · rw [hhead]; exact j1
        · rw [hhead]; simpa using j2

/-- whose nodes they are after loading -/
def Owned (h : Heap) (segs : List (List Nat)) : Prop := ∀ i l, segs[i]? = some l → ∀ n ∈ l, h.own n = some i

theorem load_spec {f : Nat} : ∀ (rest : List (List Nat)) (h : Heap) (don : List (List Nat)), Half h don rest →
    Owned h don → (don ++ rest).flatten.length < f →
    ∃ h', load f don.length rest.length h = some h' ∧ Half h' (don ++ rest) [] ∧ Owned h' (don ++ rest) ∧ h'.last = h.last
  | [], h, don, hh, ho, _ => ⟨h, rfl, by simpa using hh, by simpa using ho, rfl⟩
  | l :: rest, h, don, hh, ho, hf => by
    obtain ⟨h1, e1, hh1, o1, l1, _⟩ := mixOne_spec (f := f) hh (by
      simp only [List.flatten_append, List.flatten_cons, List.flatten_nil, List.length_append, List.length_nil] at hf ⊢; omega)
    have ho1 : Owned h1 (don ++ [l]) := by
      intro i s hs n hn
      have hnd : (don ++ [l]).flatten.Nodup := by
        have := hh.nodup
        have e : don ++ l :: rest = (don ++ [l]) ++ rest := by simp
        rw [e, List.flatten_append] at this
        exact (List.nodup_append.1 this).1
      by_cases hi : i < don.length
      · rw [List.getElem?_append_left hi] at hs
        have hnl : n ∉ l := by
          intro hm
          rw [List.flatten_append] at hnd
          have := (List.nodup_append.1 hnd).2.2 n (List.mem_flatten.2 ⟨s, List.mem_of_getElem? hs, hn⟩) n (by simpa using hm)
          exact this rfl
        rw [o1]
        simp only [setAll, if_neg hnl]
        exact ho i s hs n hn
      · have hi : i = don.length := by
          have := (List.getElem?_eq_some_iff.1 hs).1
          simp at this; omega
        subst hi
        simp at hs
        subst hs
        rw [o1]
        exact setAll_mem hn
    obtain ⟨h', e', hh', o', l'⟩ := load_spec rest h1 (don ++ [l]) hh1 ho1 (by simpa using hf)
    refine ⟨h', ?_, by simpa using hh', by simpa using o', by rw [l', l1]⟩
    simp only [List.length_cons, load, e1]
    simpa using e'

theorem Half.mixed {h : Heap} {segs : List (List Nat)} (hh : Half h segs []) (ho : Owned h segs) (hne : segs ≠ []) :
    Mixed h segs where
  chain := hh.chain hne
  nodup := by simpa using hh.nodup
  roots := hh.roots
  own := fun i l hl n hn => Or.inl (ho i l hl n hn)
  parent := hh.parent

/-! ### C113 -/

/-- **C113** Loading puts the contents of all the files that match a pattern one after the other below the element,
however many and whatever their sizes (also empty ones), each node remembered with its file.
`f` is any number of turns above the number of nodes. -/
theorem C113_load (f : Nat) (h : Heap) (segs : List (List Nat)) (hp : Parsed h segs) (hne : segs ≠ [])
    (hf : segs.flatten.length < f) :
    ∃ h', load f 0 segs.length h = some h' ∧ Mixed h' segs ∧ ∀ i l, segs[i]? = some l → ∀ n ∈ l, h'.own n = some i := by
  obtain ⟨h', e, hh, ho, _⟩ := load_spec segs h []
    { chain := fun h => absurd rfl h
      alone := by simpa using hp.chain
      nodup := by simpa using hp.nodup
      roots := by simp
      parent := by simp } (by intro i l hl; simp at hl) (by simpa using hf)
  exact ⟨h', by simpa using e, Half.mixed (by simpa using hh) (by simpa using ho) hne, by simpa [Owned] using ho⟩

theorem nodup_seg : ∀ {segs : List (List Nat)}, segs.flatten.Nodup → ∀ {i j : Nat} {a b : List Nat} {n : Nat},
    segs[i]? = some a → segs[j]? = some b → n ∈ a → n ∈ b → i = j
  | [], _, _, _, _, _, _, h, _, _, _ => by simp at h
  | s :: segs, hn, i, j, a, b, n, hi, hj, ha, hb => by
    rw [List.flatten_cons] at hn
    obtain ⟨h1, h2, h3⟩ := List.nodup_append.1 hn
    have dis : ∀ {k : Nat} {c : List Nat}, segs[k]? = some c → n ∈ c → n ∉ s := fun {k c} hc hm hs =>
      h3 n hs n (List.mem_flatten.2 ⟨c, List.mem_of_getElem? hc, hm⟩) rfl
    cases i with
    | zero =>
      simp at hi; subst hi
      cases j with
      | zero => rfl
      | succ j => exact absurd ha (dis (by simpa using hj) hb)
    | succ i =>
      cases j with
      | zero => simp at hj; subst hj; exact absurd hb (dis (by simpa using hi) ha)
      | succ j => exact congrArg (· + 1) (nodup_seg h2 (by simpa using hi) (by simpa using hj) ha hb)

/-- the file of a node -/
def fileOf (segs : List (List Nat)) (n : Nat) : Nat := segs.findIdx (fun l => n ∈ l)

theorem fileOf_spec {segs : List (List Nat)} (hn : segs.flatten.Nodup) {i : Nat} {l : List Nat} {n : Nat}
    (hl : segs[i]? = some l) (hm : n ∈ l) : fileOf segs n = i := by
  have hx : ∃ x ∈ segs, decide (n ∈ x) = true := ⟨l, List.mem_of_getElem? hl, by simpa using hm⟩
  have hlt := List.findIdx_lt_length_of_exists hx
  have hg := List.findIdx_getElem (p := fun x => decide (n ∈ x)) (w := hlt)
  exact nodup_seg hn (List.getElem?_eq_getElem hlt) hl (by simpa using hg) hm

theorem adopts_seg {ow : Nat → Option Nat} {g : Nat → Nat} {i : Nat} : ∀ (l r : List Nat) (q : Nat), g q = i →
    (∀ n ∈ l, g n = i) → (∀ n ∈ l, ow n = some i ∨ ow n = none) → (∀ q, Adopts ow g q r) →
    Adopts ow g (some q) (l ++ r)
  | [], _, _, _, _, _, h => h _
  | a :: l, r, q, hq, hg, ho, h => by
    have ga := hg a (by simp)
    refine ⟨?_, adopts_seg l r a ga (fun n hn => hg n (by simp [hn])) (fun n hn => ho n (by simp [hn])) h⟩
    rcases ho a (by simp) with h1 | h1
    · exact Or.inl (by rw [ga]; exact h1)
    · exact Or.inr ⟨h1, q, rfl, by rw [hq, ga]⟩

theorem adopts_segs {ow : Nat → Option Nat} {g : Nat → Nat} : ∀ (segs : List (List Nat)) (k : Nat),
    (∀ i l, segs[i]? = some l → ∀ n ∈ l, g n = k + i) →
    (∀ i l, segs[i]? = some l → ∀ n ∈ l, ow n = some (k + i) ∨ (ow n = none ∧ l.head? ≠ some n)) →
    ∀ q, Adopts ow g q segs.flatten
  | [], _, _, _, _ => trivial
  | [] :: segs, k, hg, ho, q => by
    refine adopts_segs segs (k + 1) ?_ ?_ q
    · intro i l hl n hn
      have := hg (i + 1) l (by simpa using hl) n hn
      omega
    · intro i l hl n hn
      have := ho (i + 1) l (by simpa using hl) n hn
      rwa [show k + (i + 1) = k + 1 + i by omega] at this
  | (a :: s) :: segs, k, hg, ho, q => by
    have ga := hg 0 (a :: s) rfl
    have oa := ho 0 (a :: s) rfl
    simp only [Nat.add_zero] at ga oa
    refine ⟨?_, ?_⟩
    · rcases oa a (by simp) with h1 | h1
      · exact Or.inl (by rw [ga a (by simp)]; exact h1)
      · exact absurd rfl h1.2
    · refine adopts_seg s segs.flatten a (ga a (by simp)) (fun n hn => ga n (by simp [hn])) ?_ ?_
      · intro n hn
        rcases oa n (by simp [hn]) with h1 | h1
        · exact Or.inl h1
        · exact Or.inr h1.1
      · refine adopts_segs segs (k + 1) ?_ ?_
        · intro i l hl n hn
          have := hg (i + 1) l (by simpa using hl) n hn
          omega
        · intro i l hl n hn
          have := ho (i + 1) l (by simpa using hl) n hn
          rwa [show k + (i + 1) = k + 1 + i by omega] at this

theorem flatten_at : ∀ {segs : List (List Nat)} {i : Nat} {l : List Nat}, segs[i]? = some l →
    ∃ a b, segs = a ++ l :: b ∧ a.length = i
  | [], _, _, h => by simp at h
  | s :: segs, 0, l, h => by simp at h; exact ⟨[], segs, by simp [h], rfl⟩
  | s :: segs, i + 1, l, h => by
    obtain ⟨a, b, e, hl⟩ := flatten_at (segs := segs) (i := i) (by simpa using h)
    exact ⟨s :: a, b, by simp [e], by simp [hl]⟩

theorem undo_rest (f : Nat) (old : Option Nat) : ∀ (n i : Nat) (h : Heap), h.kids = none →
    undo f old (i + 1) n h = some (.ok h)
  | 0, _, _, _ => rfl
  | n + 1, i, h, hk => by
    have e : undoOne f old (i + 1) h = some (.ok h) := by
      simp only [undoOne, hk]
      cases f <;> simp [adopt, split, hk]
    simp only [undo, e]
    exact undo_rest f old n (i + 1) h hk

/-- **C113** For writing, the running configuration is taken apart: each file gets exactly its nodes, in order (a node
added later goes to the file of the node before it), and the main file what was below the element there.

Partial: if the element has children of its own in the main file, only one file matches.
Missing: several files then, see `C113_inner_violated`, and new nodes at the front, see `C113_front_violated`. -/
theorem C113_apart_partial (f : Nat) (h : Heap) (segs : List (List Nat)) (old : Option Nat) (hm : Mixed h segs)
    (hne : segs ≠ []) (hf : segs.flatten.length ≤ f) (hold : old = none ∨ segs.length = 1) :
    ∃ h', undo f old 0 segs.length h = some (.ok h') ∧ Apart h' segs old := by
  have hg : ∀ i l, segs[i]? = some l → ∀ n ∈ l, fileOf segs n = i := fun i l hl n hn => fileOf_spec hm.nodup hl hn
  have ha := adopts_segs (ow := h.own) (g := fileOf segs) segs 0 (by simpa using hg) (by simpa using hm.own) none
  have e1 := adopt_spec (fileOf segs) _ f h none h.kids hm.chain hf hm.nodup ha (by simp)
  obtain ⟨nx, pv, e2, hnx, _⟩ := split_spec (fileOf segs) segs.flatten f
    { h with own := setAll h.own segs.flatten (fun n => some (fileOf segs n))
             parent := setAll h.parent segs.flatten (fun n => .root (fileOf segs n)) } none h.kids hm.chain hf hm.nodup
    (fun n hn => setAll_mem (f := h.own) (v := fun n => some (fileOf segs n)) hn) (by simp)
  have hin : ∀ i l, segs[i]? = some l → ∀ n ∈ l, n ∈ segs.flatten := fun i l hl n hn =>
    List.mem_flatten.2 ⟨l, List.mem_of_getElem? hl, hn⟩
  refine ⟨{ h with own := setAll h.own segs.flatten (fun n => some (fileOf segs n))
                   parent := setAll h.parent segs.flatten (fun n => .root (fileOf segs n))
                   next := nx, prev := pv, kids := old }, ?_, ⟨rfl, ?_, hm.nodup, ?_, ?_⟩⟩
  · obtain ⟨k, hk⟩ : ∃ k, segs.length = k + 1 := ⟨segs.length - 1, by
      have : segs.length ≠ 0 := by simpa using hne
      omega⟩
    rw [hk]
    simp only [undo, undoOne, e1, e2, if_true]
    rcases hold with rfl | h1
    · exact undo_rest f none k 0 _ rfl
    · have : k = 0 := by omega
      subst this
      rfl
  · intro i l hl
    obtain ⟨a, b, e, hi⟩ := flatten_at hl
    simp only
    rw [hm.roots i l hl]
    have hc := hm.chain
    have hseg : ∃ p, Chain h.next p (l ++ b.flatten) := by
      rw [e, List.flatten_append, List.flatten_cons] at hc
      by_cases hx : a.flatten = []
      · rw [hx] at hc; exact ⟨_, hc⟩
      · exact ⟨_, Chain.append _ _ hx hc⟩
    obtain ⟨p, hc⟩ := hseg
    refine Chain.cut_seg (g := fileOf segs) (i := i) l b.flatten hc (hg i l hl) ?_
      (fun n hn => hnx n (Or.inl (hin i l hl n hn)))
    intro n hn
    obtain ⟨s, hs, hns⟩ := List.mem_flatten.1 hn
    obtain ⟨j, hj, hjs⟩ := List.getElem_of_mem hs
    have : segs[i + 1 + j]? = some s := by
      rw [e, List.getElem?_append_right (by omega)]
      rw [show i + 1 + j - a.length = j + 1 by omega]
      simp [hj, hjs]
    rw [hg _ s this n hns]
    omega
  · intro i l hl n hn
    simp only
    rw [setAll_mem (hin i l hl n hn), hg i l hl n hn]
  · intro i l hl n hn
    simp only
    rw [setAll_mem (hin i l hl n hn), hg i l hl n hn]

/-- **C113** After writing, the running configuration is put together again as it was.

Partial: no file but the first is empty.  Missing: see `C113_empty_violated`. -/
theorem C113_together_partial (f : Nat) (h : Heap) (segs : List (List Nat)) (old : Option Nat) (ha : Apart h segs old)
    (hne : segs ≠ []) (hf : segs.flatten.length < f) (hfull : ∀ i l, segs[i]? = some l → i ≠ 0 → l ≠ []) :
    ∃ h', redo f 0 segs.length h = some (.ok h') ∧ Mixed h' segs ∧
      (segs.flatten ≠ [] → h'.last = segs.flatten.getLast?) := by
  obtain ⟨h', e, hh, ho, hl⟩ := redo_spec (f := f) segs h []
    { chain := fun h => absurd rfl h
      alone := by simpa using ha.chain
      nodup := by simpa using ha.nodup
      roots := by simp
      parent := by simp } (by simpa using hf)
    (by intro j l hl hj; exact hfull j l hl (by simpa using hj)) (by simpa using hne) (by simp)
  refine ⟨h', by simpa using e, Half.mixed (by simpa using hh) ?_ hne, by simpa using hl⟩
  intro i l hl n hn
  rw [ho]
  exact ha.own i l hl n hn

/-- **C113** So writing leaves the configuration as it was.  Partial: as above. -/
theorem C113_write_partial (f : Nat) (h : Heap) (segs : List (List Nat)) (old : Option Nat) (hm : Mixed h segs)
    (hne : segs ≠ []) (hf : segs.flatten.length < f) (hold : old = none ∨ segs.length = 1)
    (hfull : ∀ i l, segs[i]? = some l → i ≠ 0 → l ≠ []) :
    ∃ h1 h2, undo f old 0 segs.length h = some (.ok h1) ∧ Apart h1 segs old ∧
      redo f 0 segs.length h1 = some (.ok h2) ∧ Mixed h2 segs := by
  obtain ⟨h1, e1, a1⟩ := C113_apart_partial f h segs old hm hne (by omega) hold
  obtain ⟨h2, e2, m2, _⟩ := C113_together_partial f h1 segs old a1 hne hf hfull
  exact ⟨h1, h2, e1, a1, e2, m2⟩

/-! ### concrete documents -/

/-- a heap from tables -/
def tab (l : List (Nat × Nat)) : Nat → Option Nat := fun n => (l.find? (fun e => e.1 = n)).map Prod.snd

/-- two files of two nodes each -/
def two : Heap :=
  { next := tab [(1, 2), (3, 4)], prev := tab [(2, 1), (4, 3)], parent := fun _ => .nothing, own := fun _ => none
    kids := none, last := none, rootKids := tab [(0, 1), (1, 3)] }

theorem two_parsed : Parsed two [[1, 2], [3, 4]] := by
  refine ⟨?_, by decide⟩
  intro i l hl
  match i with
  | 0 => simp at hl; subst hl; exact ⟨rfl, rfl, rfl⟩
  | 1 => simp at hl; subst hl; exact ⟨rfl, rfl, rfl⟩
  | i + 2 => simp at hl

example : ∃ h', load 5 0 2 two = some h' ∧ Mixed h' [[1, 2], [3, 4]] := by
  obtain ⟨h', e, m, _⟩ := C113_load 5 two [[1, 2], [3, 4]] two_parsed (by simp) (by simp)
  exact ⟨h', e, m⟩

example : ∃ h h1 h2, load 5 0 2 two = some h ∧ Mixed h [[1, 2], [3, 4]] ∧ undo 5 none 0 2 h = some (.ok h1) ∧
    Apart h1 [[1, 2], [3, 4]] none ∧ redo 5 0 2 h1 = some (.ok h2) ∧ Mixed h2 [[1, 2], [3, 4]] := by
  obtain ⟨h, e, m, _⟩ := C113_load 5 two [[1, 2], [3, 4]] two_parsed (by simp) (by simp)
  obtain ⟨h1, h2, a, b, c, d⟩ := C113_write_partial 5 h [[1, 2], [3, 4]] none m (by simp) (by simp) (by simp) (by
    intro i l hl hi
    match i with
    | 0 => exact absurd rfl hi
    | 1 => simp at hl; subst hl; simp
    | i + 2 => simp at hl)
  exact ⟨h, h1, h2, e, m, a, b, c, d⟩

theorem roots_last {segs : List (List Nat)} {s : List Nat} {i : Nat} {l : List Nat} (h : (segs ++ [s])[i]? = some l) :
    segs[i]? = some l ∨ (i = segs.length ∧ l = s) := by
  by_cases hi : i < segs.length
  · rw [List.getElem?_append_left hi] at h; exact Or.inl h
  · have : i = segs.length := by
      have := (List.getElem?_eq_some_iff.1 h).1
      simp at this; omega
    subst this
    simp at h
    exact Or.inr ⟨rfl, h.symm⟩

/-- **C113** A new element added below the `<include>` element is the last one, and belongs to the last file.

Partial: the configuration has been written since it was loaded (`last` is right) and the last file is not empty.
Missing: see `C113_add_violated`, `C113_front_violated`. -/
theorem C113_add_partial (h : Heap) (segs : List (List Nat)) (s : List Nat) (n : Nat) (hm : Mixed h (segs ++ [s]))
    (hs : s ≠ []) (hl : h.last = (segs ++ [s]).flatten.getLast?) (hn : n ∉ (segs ++ [s]).flatten)
    (h1 : h.next n = none) (h2 : h.own n = none) :
    ∃ h', append n h = .ok h' ∧ Mixed h' (segs ++ [s ++ [n]]) ∧ h'.last = some n := by
  obtain hx | ⟨a, z, e⟩ := List.eq_nil_or_concat s
  · exact absurd hx hs
  rw [List.concat_eq_append] at e
  subst e
  have ef : (segs ++ [a ++ [z]]).flatten = (segs.flatten ++ a) ++ [z] := by simp
  have ef' : (segs ++ [a ++ [z] ++ [n]]).flatten = (segs.flatten ++ a) ++ [z] ++ [n] := by simp
  have hl : h.last = some z := by rw [hl, ef]; simp
  have hc := hm.chain
  have hnd := hm.nodup
  rw [ef] at hc hnd hn
  obtain ⟨k, hk⟩ : ∃ k, h.kids = some k := by
    cases hk : h.kids with
    | some k => exact ⟨k, rfl⟩
    | none =>
      rw [hk] at hc
      have := Chain.head _ hc
      simp at this
  have hz : ∀ x ∈ segs.flatten ++ a, x ≠ z := by
    intro x hx
    exact (List.nodup_append.1 hnd).2.2 x hx z (by simp)
  have hzn : z ≠ n := by rintro rfl; simp at hn
  refine ⟨{ h with next := put h.next z (some n), prev := put h.prev n (some z), last := some n
                   parent := put h.parent n .incl }, by simp [append, hk, hl], ⟨?_, ?_, ?_, ?_, ?_⟩, rfl⟩
  · rw [ef']
    exact Chain.join (segs.flatten ++ a) z [n] hc ⟨rfl, h1⟩ (by simpa using hzn) hz
  · rw [ef', List.nodup_append]
    refine ⟨hnd, by simp, ?_⟩
    intro x hx y hy
    simp only [List.mem_singleton] at hy
    subst hy
    rintro rfl
    exact hn hx
  · intro i l hl
    rcases roots_last hl with h3 | ⟨rfl, rfl⟩
    · exact hm.roots i l (by rw [List.getElem?_append_left (List.getElem?_eq_some_iff.1 h3).1]; exact h3)
    · have := hm.roots segs.length (a ++ [z]) (by simp)
      simp only [this]
      cases a <;> rfl
  · intro i l hl m hmem
    rcases roots_last hl with h3 | ⟨rfl, rfl⟩
    · exact hm.own i l (by rw [List.getElem?_append_left (List.getElem?_eq_some_iff.1 h3).1]; exact h3) m hmem
    · rcases List.mem_append.1 hmem with h4 | h4
      · have := hm.own segs.length (a ++ [z]) (by simp) m h4
        rcases this with h5 | ⟨h5, h6⟩
        · exact Or.inl h5
        · refine Or.inr ⟨h5, ?_⟩
          cases a <;> simpa using h6
      · simp only [List.mem_singleton] at h4
        subst h4
        refine Or.inr ⟨h2, ?_⟩
        intro h7
        have h8 : (a ++ [z]).head? = some m := by
          rw [← h7]; cases a <;> rfl
        apply hn
        have := List.mem_of_head? h8
        simp only [List.mem_append] at this ⊢
        rcases this with h9 | h9
        · exact Or.inl (Or.inr h9)
        · exact Or.inr h9
  · intro m hmem
    rw [ef'] at hmem
    rcases List.mem_append.1 hmem with h4 | h4
    · have : m ≠ n := by rintro rfl; exact hn h4
      simp only [put_other _ _ _ _ this]
      exact hm.parent m (by rw [ef]; exact h4)
    · simp only [List.mem_singleton] at h4
      subst h4
      exact put_same _ _ _

/-- loading, writing and adding two elements -/
example : (((load 5 0 2 two).bind (write 5 none 2)).map fun r => r >>= append 7 >>= append 8).map
    (fun r => match r with | .ok h => (h.kids, h.next 1, h.next 2, h.next 3, h.next 4, h.next 7, h.next 8) | _ => default) =
    some (some 1, some 2, some 3, some 4, some 7, some 8, none) := rfl

/-- **C113 violated** Just after loading, adding an element below an `<include>` follows a null pointer: loading does
not set the element's `last`. -/
theorem C113_add_violated : (load 5 0 2 two).map (append 7) = some .ub := rfl

/-- one file with an element, then an empty one -/
def gap : Heap :=
  { next := fun _ => none, prev := fun _ => none, parent := fun _ => .nothing, own := fun _ => none
    kids := none, last := none, rootKids := tab [(0, 1)] }

theorem gap_parsed : Parsed gap [[1], []] := by
  refine ⟨?_, by decide⟩
  intro i l hl
  match i with
  | 0 => simp at hl; subst hl; exact ⟨rfl, rfl⟩
  | 1 => simp at hl; subst hl; exact rfl
  | i + 2 => simp at hl

/-- **C113 violated** With an empty file after another, the configuration can be loaded and written, but putting it
together again follows a null pointer. -/
theorem C113_empty_violated : Parsed gap [[1], []] ∧ (load 5 0 2 gap).bind (write 5 none 2) = some .ub :=
  ⟨gap_parsed, rfl⟩

/-- **C113 violated** If the `<include>` element has something inside in the main file (such as a comment or a line
break) and two files match, writing stops the program. -/
theorem C113_inner_violated : (load 5 0 2 { two with kids := some 9 }).bind (write 5 (some 9) 2) = some .abort := rfl

/-- **C113 violated** An element added below an `<include>` of an empty file: writing stops the program. -/
theorem C113_front_violated :
    (load 5 0 1 { gap with rootKids := fun _ => none }).map (fun h => append 7 h >>= fun h =>
      (write 5 none 1 h).getD .ub) = some .abort := rfl

/-! ### C114 -/

/-- the backward pointers fit the list -/
def Back (h : Heap) (l : List Nat) : Prop := ∀ a n b, l = a ++ n :: b → h.prev n = a.getLast?

theorem before_spec : ∀ (a : List Nat) (z n : Nat) (b : List Nat) (f : Nat) (h : Heap) (k : Nat),
    Chain h.next (some k) (a ++ z :: n :: b) → n ∉ a → n ≠ z → a.length < f → before f h k n = some z
  | _, _, _, _, 0, _, _, _, _, _, hf => by simp at hf
  | [], z, n, b, f + 1, h, k, hc, _, _, _ => by
    obtain ⟨h1, h2, _⟩ := hc
    obtain rfl : k = z := Option.some.inj h1
    simp [before, h2]
  | y :: a, z, n, b, f + 1, h, k, hc, hn, hz, hf => by
    obtain ⟨h1, h2⟩ := hc
    obtain rfl : k = y := Option.some.inj h1
    change Chain h.next (h.next k) (a ++ z :: n :: b) at h2
    have e := Chain.head _ h2
    have hx : ∃ m, (a ++ z :: n :: b).head? = some m ∧ m ≠ n := by
      cases a with
      | nil => exact ⟨z, rfl, Ne.symm hz⟩
      | cons x t => exact ⟨x, rfl, by rintro rfl; simp at hn⟩
    obtain ⟨m, hm, hmn⟩ := hx
    rw [hm] at e
    rw [before, e]
    simp only [if_neg hmn]
    exact before_spec a z n b f h m (by rw [← e]; exact h2) (fun hm => hn (by simp [hm])) hz (by simpa using hf)

theorem Chain.tail_of {nx : Nat → Option Nat} : ∀ (a : List Nat) (n : Nat) (b : List Nat) {p : Option Nat},
    Chain nx p (a ++ n :: b) → nx n = b.head? ∧ Chain nx b.head? b
  | [], n, b, _, h => by
    have e := Chain.head b h.2
    exact ⟨e, by rw [← e]; exact h.2⟩
  | _ :: a, n, b, _, h => Chain.tail_of a n b h.2

theorem Chain.init_of {nx : Nat → Option Nat} : ∀ (a : List Nat) (z : Nat) (b b' : List Nat) {p : Option Nat},
    Chain nx p (a ++ z :: b) → Chain nx b'.head? b' → z ∉ b' → z ∉ a → Chain (put nx z b'.head?) p (a ++ z :: b')
  | [], z, b, b', p, h, hb, h1, _ => by
    refine ⟨h.1, ?_⟩
    rw [put_same]
    exact Chain.congr b' hb fun n hn => put_other _ _ _ _ (by rintro rfl; exact h1 hn)
  | y :: a, z, b, b', p, h, hb, h1, h2 => by
    refine ⟨h.1, ?_⟩
    rw [put_other _ _ _ _ (by rintro rfl; simp at h2)]
    exact Chain.init_of a z b b' h.2 hb h1 (fun hm => h2 (by simp [hm]))

/-- what the two steps do to `next` and `prev` in the list -/
theorem Back.remove {h h' : Heap} {a : List Nat} {n : Nat} {b : List Nat} (hb : Back h (a ++ n :: b))
    (hnd : (a ++ n :: b).Nodup) (h1 : ∀ x, b.head? = some x → h'.prev x = a.getLast?)
    (h2 : ∀ x, x ≠ n → b.head? ≠ some x → h'.prev x = h.prev x) : Back h' (a ++ b) := by
  intro p m q e
  have hm : m ∈ a ++ b := by rw [e]; simp
  have hmn : m ≠ n := by
    rintro rfl
    have := List.nodup_middle.1 hnd
    rw [List.nodup_cons] at this
    exact this.1 hm
  rcases List.append_eq_append_iff.1 e with ⟨c, e1, e2⟩ | ⟨c, e1, e2⟩
  · cases c with
    | nil =>
      simp only [List.append_nil] at e1
      subst e1
      simp only [List.nil_append] at e2
      subst e2
      exact h1 m rfl
    | cons y c =>
      have e2 : b = y :: c ++ m :: q := e2
      have : b.head? ≠ some m := by
        rw [e2]
        intro hx
        simp only [List.cons_append, List.head?_cons, Option.some.injEq] at hx
        subst hx
        rw [e2] at hnd
        have := (List.nodup_cons.1 (List.nodup_append.1 hnd).2.1).2
        simp at this
      rw [h2 m hmn this, hb (a ++ n :: y :: c) m q (by rw [e2]; simp), e1]
      simp
  · cases c with
    | nil =>
      simp only [List.append_nil] at e1
      subst e1
      simp only [List.nil_append] at e2
      rw [h1 m (by rw [← e2]; rfl)]
    | cons y c =>
      simp only [List.cons_append, List.cons.injEq] at e2
      obtain ⟨rfl, e2⟩ := e2
      have : b.head? ≠ some m := by
        intro hx
        have hmb := List.mem_of_head? hx
        exact (List.nodup_append.1 hnd).2.2 m (by rw [e1]; simp) m (by simp [hmb]) rfl
      rw [h2 m hmn this, hb p m (c ++ n :: b) (by rw [e1]; simp)]

/-- **C114** Removing an element of an included file takes exactly that element out, of the running configuration and of
the file's contents, and any number of elements can be removed one after the other (the backward pointers are right
again).

Partial: the `file` of the `<include>` matches one file only, and nothing was added.
Missing: see `C114_ring_violated`, `C114_bare_violated`. -/
theorem C114_one_partial (f : Nat) (h : Heap) (a : List Nat) (n : Nat) (b : List Nat) (hm : Mixed h [a ++ n :: b])
    (ho : ∀ m ∈ a ++ n :: b, h.own m = some 0) (hb : Back h (a ++ n :: b)) (hf : (a ++ n :: b).length < f) :
    ∃ h', remove f 1 n h = some h' ∧ Mixed h' [a ++ b] ∧ (∀ m ∈ a ++ b, h'.own m = some 0) ∧ Back h' (a ++ b) ∧
      h'.parent n = .nothing := by
  have hc := hm.chain
  have hnd := hm.nodup
  simp only [List.flatten_cons, List.flatten_nil, List.append_nil] at hc hnd
  have hr := hm.roots 0 _ rfl
  have hpn : h.parent n = .incl := hm.parent n (by simp)
  obtain ⟨hnn, hcb⟩ := Chain.tail_of a n b hc
  have hpv := hb a n b rfl
  have hnd' := List.nodup_middle.1 hnd
  rw [List.nodup_cons] at hnd'
  have hnb : n ∉ b := fun hx => hnd'.1 (by simp [hx])
  have hna : n ∉ a := fun hx => hnd'.1 (by simp [hx])
  have hbn : b.head? ≠ some n := fun hx => hnb (List.mem_of_head? hx)
  have hkids : h.kids = (a ++ n :: b).head? := Chain.head _ hc
  have mk : ∀ (h' : Heap), Chain h'.next h'.kids (a ++ b) → h'.rootKids 0 = (a ++ b).head? → h'.own = h.own →
      (∀ m, m ≠ n → h'.parent m = h.parent m) → Mixed h' [a ++ b] := by
    intro h' c1 c2 c3 c4
    refine ⟨by simpa using c1, by simpa using hnd'.2, ?_, ?_, ?_⟩
    · intro i l hl
      match i with
      | 0 => simp only [List.getElem?_cons_zero, Option.some.injEq] at hl; subst hl; exact c2
      | i + 1 => simp at hl
    · intro i l hl m hmem
      match i with
      | 0 =>
        simp only [List.getElem?_cons_zero, Option.some.injEq] at hl; subst hl
        left; rw [c3]
        refine ho m ?_
        rcases List.mem_append.1 hmem with h | h <;> simp [h]
      | i + 1 => simp at hl
    · intro m hmem
      simp only [List.flatten_cons, List.flatten_nil, List.append_nil] at hmem
      have hmn : m ≠ n := by rintro rfl; exact hnd'.1 hmem
      rw [c4 m hmn]
      apply hm.parent
      simp only [List.flatten_cons, List.flatten_nil, List.append_nil]
      rcases List.mem_append.1 hmem with h | h <;> simp [h]
  have hown : ∀ h' : Heap, h'.own = h.own → ∀ m ∈ a ++ b, h'.own m = some 0 := by
    intro h' e m hmem
    rw [e]
    refine ho m ?_
    rcases List.mem_append.1 hmem with h | h <;> simp [h]
  obtain rfl | ⟨a', z, rfl⟩ := List.eq_nil_or_concat a
  · -- the first one
    simp only [List.nil_append, List.head?_cons, List.getLast?_nil] at *
    obtain ⟨pv, hpvd⟩ : ∃ pv, pv = putAt h.prev b.head? none := ⟨_, rfl⟩
    have e1 : emancipate f 0 n h = some { h with rootKids := put h.rootKids 0 b.head?, prev := pv } := by
      simp only [emancipate, hr, if_true, hnn, hpv, hpvd]
    have hpvn : pv n = none := by
      rw [hpvd]
      cases hx : b.head? with
      | none => exact hpv
      | some x =>
        rw [putAt, put_other _ _ _ _ (by rintro rfl; exact hbn hx)]
        exact hpv
    refine ⟨unlink n { h with rootKids := put h.rootKids 0 b.head?, prev := pv }, ?_, mk _ ?_ ?_ rfl ?_, hown _ rfl, ?_, ?_⟩
    · simp only [remove, includeRemove, hpn, if_true, e1, Option.map_some]
    · simp only [unlink, hkids, if_true, hpvn, hnn, putAt]
      exact Chain.congr b hcb fun m hmem => put_other _ _ _ _ (by rintro rfl; exact hnb hmem)
    · exact put_same h.rootKids 0 b.head?
    · intro m hmn; exact put_other _ _ _ _ hmn
    · refine Back.remove (a := []) (n := n) (h := h) hb hnd ?_ ?_
      · intro x hx
        have hxn : x ≠ n := by rintro rfl; exact hbn hx
        simp only [unlink, hnn, hx, putAt, put_other _ _ _ _ hxn, put_same, hpvn, List.getLast?_nil]
      · intro x hxn hx
        simp only [unlink, hnn, put_other _ _ _ _ hxn]
        cases hy : b.head? with
        | none => simp [hpvd, hy, putAt]
        | some y =>
          have : x ≠ y := by rintro rfl; exact hx hy
          simp [hpvd, hy, putAt, put_other _ _ _ _ this]
    · exact put_same _ _ _
  · -- not the first one
    rw [List.concat_eq_append] at *
    have hpv : h.prev n = some z := by rw [hpv]; simp
    have hzn : n ≠ z := by rintro rfl; simp at hna
    have hzb : z ∉ b := by
      intro hx
      exact (List.nodup_append.1 hnd).2.2 z (by simp) z (by simp [hx]) rfl
    have hza : z ∉ a' := by
      intro hx
      exact (List.nodup_append.1 (List.nodup_append.1 hnd).1).2.2 z hx z (by simp) rfl
    have hbz : b.head? ≠ some z := fun hx => hzb (List.mem_of_head? hx)
    obtain ⟨k, hk, hkn⟩ : ∃ k, (a' ++ [z] ++ n :: b).head? = some k ∧ k ≠ n := by
      cases a' with
      | nil => exact ⟨z, rfl, Ne.symm hzn⟩
      | cons y t => exact ⟨y, rfl, by rintro rfl; simp at hna⟩
    have hk' : (a' ++ [z] ++ b).head? = some k := by
      rw [← hk]; cases a' <;> rfl
    rw [hk] at hr hkids
    have hc' : Chain h.next (some k) (a' ++ z :: n :: b) := by
      rw [← hkids]; simpa using hc
    have hbe := before_spec a' z n b f h k hc' (fun hx => hna (by simp [hx])) hzn (by simp at hf; omega)
    obtain ⟨pv, hpvd⟩ : ∃ pv, pv = putAt h.prev b.head? (some z) := ⟨_, rfl⟩
    have e1 : emancipate f 0 n h = some { h with next := put h.next z b.head?, prev := pv } := by
      simp only [emancipate, hr, if_neg hkn, hbe, hnn, hpvd]
    have hpvn : pv n = some z := by
      rw [hpvd]
      cases hx : b.head? with
      | none => exact hpv
      | some x =>
        rw [putAt, put_other _ _ _ _ (by rintro rfl; exact hbn hx)]
        exact hpv
    have hnx : put h.next z b.head? n = b.head? := by rw [put_other _ _ _ _ hzn]; exact hnn
    refine ⟨unlink n { h with next := put h.next z b.head?, prev := pv }, ?_, mk _ ?_ ?_ rfl ?_, hown _ rfl, ?_, ?_⟩
    · simp only [remove, includeRemove, hpn, if_true, e1, Option.map_some]
    · have hne : ¬ (some k = some n) := by simpa using hkn
      simp only [unlink, hkids, if_neg hne, hpvn, hnx, putAt]
      have hj := Chain.init_of a' z (n :: b) b hc' hcb hzb hza
      have : Chain (put (put (put h.next z b.head?) z b.head?) n none) (some k) (a' ++ z :: b) := by
        refine Chain.congr _ hj ?_
        intro m hmem
        have hmn : m ≠ n := by
          rintro rfl
          apply hnd'.1
          simp only [List.mem_append, List.mem_cons] at hmem ⊢
          rcases hmem with h | h | h <;> simp [h]
        rw [put_other _ _ _ _ hmn]
        by_cases hmz : m = z
        · subst hmz; simp only [put_same]
        · simp only [put_other _ _ _ _ hmz]
      simpa using this
    · change h.rootKids 0 = _
      rw [hr, hk']
    · intro m hmn; exact put_other _ _ _ _ hmn
    · refine Back.remove (a := a' ++ [z]) (n := n) (h := h) hb hnd ?_ ?_
      · intro x hx
        have hxn : x ≠ n := by rintro rfl; exact hbn hx
        simp only [unlink, hnx, hx, putAt, put_other _ _ _ _ hxn, hpvn]
        rw [hx] at hnx
        rw [hnx]
        simp [put_same]
      · intro x hxn hx
        simp only [unlink, hnx, put_other _ _ _ _ hxn]
        cases hy : b.head? with
        | none => simp [hpvd, hy, putAt]
        | some y =>
          have : x ≠ y := by rintro rfl; exact hx hy
          simp [hpvd, hy, putAt, put_other _ _ _ _ this]
    · exact put_same _ _ _

/-- one file of three elements -/
def three : Heap :=
  { next := tab [(1, 2), (2, 3)], prev := tab [(2, 1), (3, 2)], parent := fun _ => .nothing, own := fun _ => none
    kids := none, last := none, rootKids := tab [(0, 1)] }

example : (load 5 0 1 three).bind (fun h => (remove 5 1 2 h).map fun h =>
    (h.kids, h.next 1, h.next 3, h.prev 3, h.rootKids 0)) = some (some 1, some 3, none, some 1, some 1) := rfl

/-- the three hypotheses of `C114_one_partial` hold after loading -/
example : ∃ h, load 5 0 1 three = some h ∧ Mixed h [[1] ++ 2 :: [3]] ∧ (∀ m ∈ [1] ++ 2 :: [3], h.own m = some 0) ∧
    Back h ([1] ++ 2 :: [3]) := by
  obtain ⟨h, e, m, o⟩ := C113_load 5 three [[1, 2, 3]] ⟨by
    intro i l hl
    match i with
    | 0 => simp at hl; subst hl; exact ⟨rfl, rfl, rfl, rfl⟩
    | i + 1 => simp at hl, by decide⟩ (by simp) (by simp)
  refine ⟨h, e, m, o 0 _ rfl, ?_⟩
  have hp : h.prev = three.prev := by
    have e2 : (load 5 0 1 three).map Heap.prev = some three.prev := rfl
    rw [show load 5 0 1 three = some h from e] at e2
    exact Option.some.inj e2
  intro a n b hl
  rw [hp]
  match a with
  | [] => simp at hl; rw [← hl.1]; rfl
  | [x] => simp at hl; rw [← hl.1, ← hl.2.1]; rfl
  | [x, y] => simp at hl; rw [← hl.2.1, ← hl.2.2.1]; rfl
  | x :: y :: z :: t => simp at hl

/-- **C114 violated** If two files match, removing an element of the first one makes the elements a ring: whatever walks
through them afterwards (every search, and writing) never ends. -/
theorem C114_ring_violated : ∃ h h', load 5 0 2 two = some h ∧ remove 5 2 1 h = some h' ∧ h'.kids = some 2 ∧
    (∀ f, endOf f h' 2 = none) ∧ ∀ f, write f none 2 h' = none := by
  refine ⟨_, _, rfl, rfl, rfl, ?_, ?_⟩
  · intro f
    have : ∀ (h : Heap) f, h.next 2 = some 3 → h.next 3 = some 4 → h.next 4 = some 2 →
        endOf f h 2 = none ∧ endOf f h 3 = none ∧ endOf f h 4 = none := by
      intro h f h2 h3 h4
      induction f with
      | zero => exact ⟨rfl, rfl, rfl⟩
      | succ f ih => simp [endOf, h2, h3, h4, ih]
    exact (this _ f rfl rfl rfl).1
  · intro f
    have : ∀ f (h : Heap), h.next 2 = some 3 → h.next 3 = some 4 → h.next 4 = some 2 → h.own 2 = some 0 →
        h.own 3 = some 1 → h.own 4 = some 1 → ∀ p, adopt f h p (some 2) = none ∧ adopt f h p (some 3) = none ∧
        adopt f h p (some 4) = none := by
      intro f
      induction f with
      | zero => intro h _ _ _ _ _ _ p; exact ⟨rfl, rfl, rfl⟩
      | succ f ih =>
        intro h h2 h3 h4 o2 o3 o4 p
        simp only [adopt, o2, o3, o4, Option.some_or, h2, h3, h4]
        refine ⟨?_, ?_, ?_⟩
        · exact (ih { h with own := put h.own 2 (some 0), parent := put h.parent 2 (.root 0) } h2 h3 h4
            (by simp [put]) (by simp [put, o3]) (by simp [put, o4]) _).2.1
        · exact (ih { h with own := put h.own 3 (some 1), parent := put h.parent 3 (.root 1) } h2 h3 h4
            (by simp [put, o2]) (by simp [put]) (by simp [put, o4]) _).2.2
        · exact (ih { h with own := put h.own 4 (some 1), parent := put h.parent 4 (.root 1) } h2 h3 h4
            (by simp [put, o2]) (by simp [put, o3]) (by simp [put]) _).1
    have h1 : ∀ h' : Heap, h'.kids = some 2 → adopt f h' none (some 2) = none → write f none 2 h' = none := by
      intro h' e1 e2
      simp only [write, undo, undoOne, e1, e2]
    exact h1 _ rfl (this f _ rfl rfl rfl rfl rfl rfl none).1

/-- **C114 violated** Removing with `mtev_conf_remove_section` alone (as the Lua interface does) leaves the file's root
pointing to the removed, freed element: the next write writes it out. -/
theorem C114_bare_violated : (load 5 0 1 three).map (fun h => let h := unlink 1 h; (h.kids, h.rootKids 0, h.parent 1)) =
    some (some 2, some 1, .nothing) := rfl

end Mtev.ConfIncl
