import Verif.ArenaConc
import Verif.ArenaProps

/-!
C26 under concurrency: interned strings never overlap, whatever the threads do.
-/

namespace Mtev.Arena

/-! ### The executions -/

/-- What the code around the actions sees to: a level to search is at least that of the request (585, 595), which is
longer than its header and a multiple of four (873); no more than 4 GiB are mapped (see
`C26_four_gib_violated`). -/
def Contract (x : Act) (s : C) : Prop :=
  match x with
  | .map _ => total s.a.extents + s.a.ext < 4294967296
  | .enter i len => i < s.a.slots.length ∧ 8 < len ∧ len % 4 = 0 ∧ len ≤ lsize i
  | _ => True

instance (x : Act) (s : C) : Decidable (Contract x s) := by
  cases x <;> unfold Contract <;> infer_instance

/-- States that threads can bring about. -/
inductive Reach (ext : Nat) : C → Prop
  | start : Reach ext (startC ext)
  | step {s t : C} (x : Act) : Reach ext s → Contract x s → act x s = some t → Reach ext t

/-- All pieces, with those in the hands of threads. -/
def allPieces (s : C) : List Frag := s.a.live ++ s.a.staged ++ s.a.slots.flatten ++ s.priv

/-! ### The invariant -/

/-- A reader's fragment is in its level. -/
def RdOk (slots : List (List Frag)) (r : Nat × Nat × Nat) : Prop :=
  (∃ l, slots[r.1]? = some l ∧ ∃ f ∈ l, f.base = r.2.1) ∧ 8 < r.2.2 ∧ r.2.2 % 4 = 0 ∧ r.2.2 ≤ lsize r.1

def UpOk (n : Nat) (r : Nat × Nat) : Prop := r.1 < n ∧ 8 < r.2 ∧ r.2 % 4 = 0 ∧ r.2 ≤ lsize r.1

structure CInv (ext : Nat) (s : C) : Prop where
  hext : s.a.ext = ext
  len : s.a.slots.length = nslots ext
  lv : Lv s.a.slots
  sum : ∀ w, Additive w → wsum w s.a.live + wsum w s.a.staged + wsum w s.a.slots.flatten + wsum w s.priv = wsum w s.a.extents
  ql : ∀ f ∈ s.a.live, f.size % 4 = 0 ∧ 0 < f.size
  qs : ∀ f ∈ s.a.staged, f.size % 4 = 0 ∧ 0 < f.size
  qf : ∀ f ∈ s.a.slots.flatten, f.size % 4 = 0 ∧ 0 < f.size
  qp : ∀ f ∈ s.priv, f.size % 4 = 0 ∧ 0 < f.size
  small : wsum Frag.size s.a.extents < 4294967296
  rd : ∀ r ∈ s.rd, RdOk s.a.slots r
  up : ∀ r ∈ s.up, UpOk s.a.slots.length r
  bad : s.bad = false

theorem rd_mono {s t : List (List Frag)} {r : Nat × Nat × Nat}
    (h : ∀ l, s[r.1]? = some l → ∃ m, t[r.1]? = some m ∧ ∀ f ∈ l, ∃ g ∈ m, g.base = f.base) (hr : RdOk s r) :
    RdOk t r := by
  obtain ⟨⟨l, h1, f, h2, h3⟩, h4⟩ := hr
  obtain ⟨m, h5, h6⟩ := h l h1
  obtain ⟨g, h7, h8⟩ := h6 f h2
  exact ⟨⟨m, h5, g, h7, h8.trans h3⟩, h4⟩

theorem rd_push {s : List (List Frag)} {i : Nat} {f : Frag} {r : Nat × Nat × Nat} (hr : RdOk s r) :
    RdOk (pushAt i f s) r := by
  refine rd_mono (fun l hl => ?_) hr
  unfold pushAt
  rw [List.getElem?_modify, hl]
  by_cases h : i = r.1
  · refine ⟨f :: l, by simp [h], fun g hg => ⟨g, List.mem_cons_of_mem _ hg, rfl⟩⟩
  · exact ⟨l, by simp [h], fun g hg => ⟨g, hg, rfl⟩⟩

theorem rd_set {s : List (List Frag)} {i : Nat} {l m : List Frag} {r : Nat × Nat × Nat} (hl : s[i]? = some l)
    (h : ∀ f ∈ l, ∃ g ∈ m, g.base = f.base) (hr : RdOk s r) : RdOk (s.set i m) r := by
  refine rd_mono (fun k hk => ?_) hr
  rw [List.getElem?_set]
  by_cases h1 : i = r.1
  · rw [if_pos h1, if_pos (by rw [List.getElem?_eq_some_iff] at hl; exact hl.1)]
    rw [← h1, hl] at hk
    injection hk with hk
    subst hk
    exact ⟨m, rfl, h⟩
  · rw [if_neg h1]
    exact ⟨k, hk, fun g hg => ⟨g, hg, rfl⟩⟩

theorem rd_set_quiet {s : List (List Frag)} {i : Nat} {m : List Frag} {r : Nat × Nat × Nat} (h : r.1 ≠ i)
    (hr : RdOk s r) : RdOk (s.set i m) r := by
  refine rd_mono (fun k hk => ?_) hr
  rw [List.getElem?_set, if_neg (Ne.symm h)]
  exact ⟨k, hk, fun g hg => ⟨g, hg, rfl⟩⟩

theorem quiet_ne {i : Nat} {rd : List (Nat × Nat × Nat)} (h : quiet i rd = true) : ∀ r ∈ rd, r.1 ≠ i := by
  intro r hr
  have := List.all_eq_true.1 h r hr
  simpa using this

theorem wsum_eraseIdx {w : Frag → Nat} : ∀ {l : List Frag} {k : Nat} {f : Frag}, l[k]? = some f →
    w f + wsum w (l.eraseIdx k) = wsum w l
  | [], k, f, h => by simp at h
  | a :: l, 0, f, h => by simp at h; subst h; simp [wsum]
  | a :: l, k + 1, f, h => by
    have := wsum_eraseIdx (w := w) (l := l) (k := k) (by simpa using h)
    simp only [List.eraseIdx_cons_succ, wsum]; omega

theorem shrink_spec {b len : Nat} : ∀ {l : List Frag} {n : Frag}, l.find? (fun f => f.base = b) = some n → len ≤ n.size →
    (∀ w, Additive w → wsum w (shrink b len l) + w ⟨n.base + n.size - len, len⟩ = wsum w l) ∧
    (∀ f ∈ shrink b len l, f ∈ l ∨ f = ⟨n.base, n.size - len⟩) ∧
    (∀ f ∈ l, ∃ g ∈ shrink b len l, g.base = f.base)
  | [], n, h, _ => by simp at h
  | a :: l, n, h, hl => by
    by_cases hb : a.base = b
    · rw [List.find?_cons_of_pos (by simpa using hb)] at h
      injection h with h
      subst h
      simp only [shrink, hb, if_true]
      refine ⟨fun w hw => ?_, fun f hf => ?_, fun f hf => ?_⟩
      · have := add_cut hw a.base a.size len hl
        rw [hb] at this
        simp only [wsum]
        have hn : w ⟨b, a.size⟩ = w a := by rw [← hb]
        omega
      · rcases List.mem_cons.1 hf with h | h
        · exact Or.inr h
        · exact Or.inl (List.mem_cons_of_mem _ h)
      · rcases List.mem_cons.1 hf with h | h
        · exact ⟨⟨b, a.size - len⟩, by simp, by rw [h]; exact hb.symm⟩
        · exact ⟨f, List.mem_cons_of_mem _ h, rfl⟩
    · rw [List.find?_cons_of_neg (by simpa using hb)] at h
      obtain ⟨h1, h2, h3⟩ := shrink_spec h hl
      simp only [shrink, hb, if_false]
      refine ⟨fun w hw => ?_, fun f hf => ?_, fun f hf => ?_⟩
      · have := h1 w hw
        simp only [wsum]; omega
      · rcases List.mem_cons.1 hf with h | h
        · exact Or.inl (by simp [h])
        · rcases h2 f h with h | h
          · exact Or.inl (List.mem_cons_of_mem _ h)
          · exact Or.inr h
      · rcases List.mem_cons.1 hf with h | h
        · exact ⟨a, by simp, by rw [h]⟩
        · obtain ⟨g, hg, he⟩ := h3 f h
          exact ⟨g, List.mem_cons_of_mem _ hg, he⟩

theorem cinv_start (ext : Nat) : CInv ext (startC ext) := by
  have h := inv_init ext
  have hf : (init ext).slots.flatten = [] := by simp [init]
  refine ⟨rfl, h.len, h.lv, fun w _ => ?_, ?_, ?_, ?_, ?_, by simp [startC, init, wsum], ?_, ?_, rfl⟩
  · simp only [startC, hf]
    rfl
  · simp [startC, init]
  · simp [startC, init]
  · simp [startC, hf]
  · simp [startC]
  · simp [startC]
  · simp [startC]

theorem lsize_pos (i : Nat) : 0 < lsize i := by unfold lsize; positivity

theorem replace_slots {f : Frag} {s t : A} (h : replace f s = .ok t) : ∃ i, t.slots = pushAt i f s.slots := by
  unfold replace at h
  cases hl : level s.slots.length f.size with
  | ub => rw [hl] at h; cases h
  | abort => rw [hl] at h; cases h
  | ok i =>
    rw [hl, Out.ok_bind] at h
    injection h with h
    subst h
    exact ⟨i, rfl⟩

theorem size_lt {f : Frag} {pv extents : List Frag} {n m : Nat} (hm : f ∈ pv)
    (h : n + wsum Frag.size pv = wsum Frag.size extents) (h2 : wsum Frag.size extents < m) : f.size < m := by
  have h1 := le_wsum (w := Frag.size) hm
  generalize wsum Frag.size pv = a at *
  generalize wsum Frag.size extents = b at *
  generalize f.size = c at *
  omega

theorem push_ok {f : Frag} {s : A} {pv extents : List Frag} {n : Nat} (hpos : 0 < s.slots.length)
    (hq : f.size % 4 = 0 ∧ 0 < f.size) (hm : f ∈ pv)
    (h : n + wsum Frag.size pv = wsum Frag.size extents) (h2 : wsum Frag.size extents < 4294967296) :
    ∃ t, replace f s = .ok t := by
  have h3 := size_lt hm h h2
  refine replace_ok hpos ?_ ?_
  · clear h h2 h3; omega
  · rw [show (2 : Nat) ^ 32 = 4294967296 by norm_num]; exact h3

theorem act_push_none {s : C} {k : Nat} (hk : s.priv[k]? = none) : act (.push k) s = none := by
  simp only [act, hk]

theorem act_push {s : C} {k : Nat} {f : Frag} {a : A} (hk : s.priv[k]? = some f) (ht : replace f s.a = .ok a) :
    act (.push k) s = some { s with a := a, priv := s.priv.eraseIdx k } := by
  have h : act (.push k) s = some (pushed k s (replace f s.a)) := by
    unfold act
    simp only [hk]
  rw [h, ht, pushed]

theorem nslots_pos {ext : Nat} (h16 : 16 ≤ ext) (h31 : ext ≤ 2 ^ 31) : 0 < nslots ext := by
  rw [nslots_eq h31]
  have := log2ru_ge (v := ext) (k := 3) (by omega) h31
  omega

theorem cinv_step {ext : Nat} (h4 : ext % 4 = 0) (h16 : 16 ≤ ext) (hns : 0 < nslots ext) {s t : C} {x : Act}
    (h : CInv ext s) (hc : Contract x s) (hs : act x s = some t) : CInv ext t := by
  obtain ⟨a, pv, rd, up, bad⟩ := s
  obtain ⟨ex, slots, staged, extents, live⟩ := a
  obtain ⟨i1, i2, i3, i4, i5, i6, i7, i8, i9, i10, i11, i12⟩ := h
  simp only at i1 i2 i3 i4 i5 i6 i7 i8 i9 i10 i11 i12
  have hpos : 0 < slots.length := i2 ▸ hns
  cases x with
  | map base =>
    simp only [act, Option.some.injEq] at hs
    subst hs
    simp only [Contract, total_eq] at hc
    refine ⟨i1, i2, i3, fun w hw => ?_, i5, i6, i7, ?_, ?_, i10, i11, i12⟩
    · have := i4 w hw
      simp only [wsum]; omega
    · intro f hf
      rcases List.mem_cons.1 hf with h | h
      · subst h; simp only [i1]; omega
      · exact i8 f h
    · simp only [wsum]; omega
  | push k =>
    cases hk : pv[k]? with
    | none => rw [act_push_none hk] at hs; cases hs
    | some f =>
      have hm := List.mem_of_getElem? hk
      have hq := i8 f hm
      obtain ⟨t', ht⟩ := push_ok (s := ⟨ex, slots, staged, extents, live⟩) hpos hq hm (i4 _ add_size) i9
      rw [act_push hk ht] at hs
      injection hs with hs
      subst hs
      obtain ⟨⟨k1, k2, k3⟩, k4, k5, k6, k7⟩ := replace_spec ht
      have hmem := replace_mem ht
      have hrd : ∀ r, RdOk slots r → RdOk t'.slots r := by
        obtain ⟨i, hi⟩ := replace_slots ht
        intro r hr
        rw [hi]
        exact rd_push hr
      simp only at k1 k2 k3 k4 k5 k6 k7 hmem
      refine ⟨k1.trans i1, k2.trans i2, k3 i3, fun w hw => ?_, ?_, ?_, ?_, ?_, ?_, fun r hr => hrd r (i10 r hr), ?_, i12⟩
      · have h1 := i4 w hw
        have h2 := wsum_eraseIdx (w := w) hk
        simp only [k4, k5, k6, k7]; omega
      · simpa only [k6] using i5
      · simpa only [k4] using i6
      · intro g hg
        rcases hmem g hg with h | h
        · exact h ▸ hq
        · exact i7 g h
      · exact fun g hg => i8 g (List.mem_of_mem_eraseIdx hg)
      · simpa only [k5] using i9
      · simpa only [k2] using i11
  | enter i len =>
    obtain ⟨c1, c2, c3, c4⟩ := hc
    simp only at c1
    simp only [act] at hs
    split at hs
    · rename_i hn
      rw [List.getElem?_eq_none_iff] at hn; omega
    · injection hs with hs; subst hs
      exact ⟨i1, i2, i3, i4, i5, i6, i7, i8, i9, i10, i11, i12⟩
    · rename_i n r hl
      have h1 := i3 i _ hl n (by simp)
      rw [if_neg (by omega)] at hs
      injection hs with hs; subst hs
      refine ⟨i1, i2, i3, i4, i5, i6, i7, i8, i9, ?_, i11, i12⟩
      intro q hq
      rcases List.mem_cons.1 hq with h | h
      · subst h; exact ⟨⟨_, hl, n, by simp, rfl⟩, c2, c3, c4⟩
      · exact i10 q h
  | cas k =>
    simp only [act] at hs
    split at hs
    · cases hs
    · rename_i i b len hk
      obtain ⟨⟨l, hl, f, hf, hfb⟩, c2, c3, c4⟩ := i10 _ (List.mem_of_getElem? hk)
      simp only at hl hf hfb c2 c3 c4
      rw [hl] at hs
      simp only at hs
      split at hs
      · rename_i hn
        rw [List.find?_eq_none] at hn
        exact absurd hfb (by simpa using hn f hf)
      · rename_i n hn
        have hnm := List.mem_of_find?_eq_some hn
        have hnf : n ∈ slots.flatten := mem_flatten_get hl hnm
        split at hs
        · rename_i hbig
          injection hs with hs; subst hs
          obtain ⟨s1, s2, s3⟩ := shrink_spec hn (len := len) (by omega)
          refine ⟨i1, by simpa using i2, lv_set i3 ?_, fun w hw => ?_, ?_, i6, ?_, i8, i9, ?_, by simpa using i11, i12⟩
          · intro g hg
            rcases s2 g hg with h | h
            · exact i3 i _ hl g h
            · rw [h]; show lsize i ≤ n.size - len; omega
          · have h1 := i4 w hw
            have h2 := flatten_set w (shrink b len l) i slots l hl
            have h3 := s1 w hw
            simp only [wsum]; omega
          · intro g hg
            rcases List.mem_cons.1 hg with h | h
            · subst h; exact ⟨c3, by show 0 < len; omega⟩
            · exact i5 g h
          · intro g hg
            rcases mem_flatten_set hg with h | h
            · rcases s2 g h with h | h
              · exact i7 g (mem_flatten_get hl h)
              · have := i7 n hnf
                have := lsize_pos i
                rw [h]; show (n.size - len) % 4 = 0 ∧ 0 < n.size - len; omega
            · exact i7 g h
          · exact fun r hr => rd_set hl s3 (i10 r (List.mem_of_mem_eraseIdx hr))
        · injection hs with hs; subst hs
          refine ⟨i1, i2, i3, i4, i5, i6, i7, i8, i9, fun r hr => i10 r (List.mem_of_mem_eraseIdx hr), ?_, i12⟩
          intro q hq
          rcases List.mem_cons.1 hq with h | h
          · subst h
            exact ⟨by rw [List.getElem?_eq_some_iff] at hl; exact hl.1, c2, c3, c4⟩
          · exact i11 q h
  | steal k =>
    simp only [act] at hs
    split at hs
    · cases hs
    · rename_i i len hk
      obtain ⟨c1, c2, c3, c4⟩ := i11 _ (List.mem_of_getElem? hk)
      simp only at c1 c2 c3 c4
      split at hs
      · rename_i hqt
        have hne := quiet_ne hqt
        split at hs
        · rename_i hn
          rw [List.getElem?_eq_none_iff] at hn; omega
        · injection hs with hs; subst hs
          exact ⟨i1, i2, i3, i4, i5, i6, i7, i8, i9, i10, fun r hr => i11 r (List.mem_of_mem_eraseIdx hr), i12⟩
        · rename_i n r hl
          have hsz := i3 i _ hl n (by simp)
          have hqn := i7 n (mem_flatten_get hl (by simp))
          rw [if_neg (by omega)] at hs
          injection hs with hs; subst hs
          refine ⟨i1, by simpa using i2, lv_set i3 fun g hg => i3 i _ hl g (List.mem_cons_of_mem _ hg), fun w hw => ?_, ?_, i6, ?_, ?_, i9, fun q hq => rd_set_quiet (hne q hq) (i10 q hq), ?_, i12⟩
          · have h1 := i4 w hw
            have h2 := flatten_set w r i slots _ hl
            have h3 := add_cut hw n.base n.size len (by omega)
            have h4 : w ⟨n.base, n.size⟩ = w n := rfl
            simp only [wsum] at h2 ⊢
            split
            · rename_i he
              have h5 : w ⟨n.base, n.size - len⟩ = 0 := by rw [he, Nat.sub_self]; exact add_zero hw _
              omega
            · simp only [wsum]; omega
          · intro g hg
            rcases List.mem_cons.1 hg with h | h
            · subst h; exact ⟨c3, by show 0 < len; omega⟩
            · exact i5 g h
          · intro g hg
            rcases mem_flatten_set hg with h | h
            · exact i7 g (mem_flatten_get hl (List.mem_cons_of_mem _ h))
            · exact i7 g h
          · intro g hg
            split at hg
            · exact i8 g hg
            · rcases List.mem_cons.1 hg with h | h
              · subst h; show (n.size - len) % 4 = 0 ∧ 0 < n.size - len; omega
              · exact i8 g h
          · intro q hq
            simpa using i11 q (List.mem_of_mem_eraseIdx hq)
      · cases hs
  | again k =>
    simp only [act] at hs
    split at hs
    · cases hs
    · rename_i i len hk
      obtain ⟨c1, c2, c3, c4⟩ := i11 _ (List.mem_of_getElem? hk)
      simp only at c1 c2 c3 c4
      split at hs
      · rename_i hn
        rw [List.getElem?_eq_none_iff] at hn; omega
      · injection hs with hs; subst hs
        exact ⟨i1, i2, i3, i4, i5, i6, i7, i8, i9, i10, fun r hr => i11 r (List.mem_of_mem_eraseIdx hr), i12⟩
      · rename_i n r hl
        injection hs with hs; subst hs
        refine ⟨i1, i2, i3, i4, i5, i6, i7, i8, i9, ?_, fun r hr => i11 r (List.mem_of_mem_eraseIdx hr), i12⟩
        intro q hq
        rcases List.mem_cons.1 hq with h | h
        · subst h; exact ⟨⟨_, hl, n, by simp, rfl⟩, c2, c3, c4⟩
        · exact i10 q h
  | release k =>
    simp only [act] at hs
    split at hs
    · cases hs
    · rename_i f hk
      injection hs with hs; subst hs
      refine ⟨i1, i2, i3, fun w hw => ?_, fun g hg => i5 g (List.mem_of_mem_eraseIdx hg), ?_, i7, i8, i9, i10, i11, i12⟩
      · have h1 := i4 w hw
        have h2 := wsum_eraseIdx (w := w) hk
        simp only [wsum]; omega
      · intro g hg
        rcases List.mem_cons.1 hg with h | h
        · exact h ▸ i5 f (List.mem_of_getElem? hk)
        · exact i6 g h
  | takeStaged =>
    simp only [act, Option.some.injEq] at hs
    subst hs
    refine ⟨i1, i2, i3, fun w hw => ?_, i5, by simp, i7, ?_, i9, i10, i11, i12⟩
    · have := i4 w hw
      simp only [wsum_append, wsum]; omega
    · intro g hg
      rcases List.mem_append.1 hg with h | h
      · exact i6 g h
      · exact i8 g h
  | takeLevel i =>
    simp only [act] at hs
    split at hs
    · cases hs
    · rename_i l hl
      split at hs
      · rename_i hqt
        have hne := quiet_ne hqt
        injection hs with hs; subst hs
        refine ⟨i1, by simpa using i2, lv_set i3 (by simp), fun w hw => ?_, i5, i6, ?_, ?_, i9, fun q hq => rd_set_quiet (hne q hq) (i10 q hq), by simpa using i11, i12⟩
        · have h1 := i4 w hw
          have h2 := flatten_set w [] i slots _ hl
          simp only [wsum_append, wsum] at h2 ⊢; omega
        · intro g hg
          rcases mem_flatten_set hg with h | h
          · simp at h
          · exact i7 g h
        · intro g hg
          rcases List.mem_append.1 hg with h | h
          · exact i7 g (mem_flatten_get hl h)
          · exact i8 g h
      · cases hs
  | merge j k =>
    simp only [act] at hs
    split at hs
    · rename_i hjk
      split at hs
      · rename_i f g hj hk
        have hj' : (pv.eraseIdx k)[j]? = some f := by
          rw [List.getElem?_eraseIdx_of_lt hjk]; exact hj
        have hfm := i8 f (List.mem_of_getElem? hj)
        have hgm := i8 g (List.mem_of_getElem? hk)
        have hes : ∀ w, w f + (w g + wsum w ((pv.eraseIdx k).eraseIdx j)) = wsum w pv := by
          intro w
          have h1 := wsum_eraseIdx (w := w) hk
          have h2 := wsum_eraseIdx (w := w) hj'
          omega
        have hqe : ∀ q ∈ (pv.eraseIdx k).eraseIdx j, q.size % 4 = 0 ∧ 0 < q.size := fun q hq =>
          i8 q (List.mem_of_mem_eraseIdx (List.mem_of_mem_eraseIdx hq))
        split at hs
        · rename_i he
          injection hs with hs; subst hs
          refine ⟨i1, i2, i3, fun w hw => ?_, i5, i6, i7, ?_, i9, i10, i11, i12⟩
          · have h1 := i4 w hw
            have h2 := hes w
            have h3 := hw f.base f.size g.size
            rw [he] at h3
            have h5 : w ⟨f.base, f.size⟩ = w f := rfl
            have h6 : w ⟨g.base, g.size⟩ = w g := rfl
            simp only [wsum]; omega
          · intro q hq
            rcases List.mem_cons.1 hq with h | h
            · subst h; show (f.size + g.size) % 4 = 0 ∧ 0 < f.size + g.size; omega
            · exact hqe q h
        · split at hs
          · rename_i he
            injection hs with hs; subst hs
            refine ⟨i1, i2, i3, fun w hw => ?_, i5, i6, i7, ?_, i9, i10, i11, i12⟩
            · have h1 := i4 w hw
              have h2 := hes w
              have h3 := hw g.base g.size f.size
              rw [he] at h3
              have h5 : w ⟨f.base, f.size⟩ = w f := rfl
              have h6 : w ⟨g.base, g.size⟩ = w g := rfl
              simp only [wsum]; omega
            · intro q hq
              rcases List.mem_cons.1 hq with h | h
              · subst h; show (g.size + f.size) % 4 = 0 ∧ 0 < g.size + f.size; omega
              · exact hqe q h
          · cases hs
      · cases hs
    · cases hs

theorem cinv_reach {ext : Nat} (h4 : ext % 4 = 0) (h16 : 16 ≤ ext) (h31 : ext ≤ 2 ^ 31) {s : C} (h : Reach ext s) :
    CInv ext s := by
  induction h with
  | start => exact cinv_start ext
  | step x _ hc hs ih => exact cinv_step h4 h16 (nslots_pos h16 h31) ih hc hs

/-! ### C26 -/

/-- C26 (any schedule: no overlap).  If `mmap` returns extents that do not overlap, then at any moment no two
pieces of memory overlap: not two interned strings, not a string and a free fragment, wherever a fragment is
(also in the hands of a thread). -/
theorem C26_concurrent_no_overlap (ext : Nat) (h4 : ext % 4 = 0) (h16 : 16 ≤ ext) (h31 : ext ≤ 2 ^ 31) (s : C)
    (h : Reach ext s) (hm : ∀ x, cover s.a.extents x ≤ 1) :
    (allPieces s).Pairwise Apart ∧ ∀ f ∈ allPieces s, ∀ x, f.Has x → ∃ e ∈ s.a.extents, e.Has x := by
  have hi := cinv_reach h4 h16 h31 h
  have hc : ∀ x, cover (allPieces s) x = cover s.a.extents x := by
    intro x
    rw [cover_eq, cover_eq]
    have := hi.sum _ (add_has x)
    simp only [allPieces, wsum_append]
    exact this
  refine ⟨cover_pairwise fun x => by rw [hc]; exact hm x, fun f hf x hx => ?_⟩
  apply cover_pos
  rw [← hc]
  exact cover_mem hf hx

/-- C26 (any schedule: nothing is lost).  Every byte of the extents is in exactly as many pieces as there are
extents with it. -/
theorem C26_concurrent_every_byte (ext : Nat) (h4 : ext % 4 = 0) (h16 : 16 ≤ ext) (h31 : ext ≤ 2 ^ 31) (s : C)
    (h : Reach ext s) (x : Nat) : cover (allPieces s) x = cover s.a.extents x := by
  have hi := cinv_reach h4 h16 h31 h
  rw [cover_eq, cover_eq]
  have := hi.sum _ (add_has x)
  simp only [allPieces, wsum_append]
  exact this

/-- C26 (any schedule: no assertion fails).  No thread touches anything outside the data structures and none of the
assertions of lines 303-305, 313 and 354 fails. -/
theorem C26_concurrent_safe (ext : Nat) (h4 : ext % 4 = 0) (h16 : 16 ≤ ext) (h31 : ext ≤ 2 ^ 31) (s : C)
    (h : Reach ext s) : s.bad = false := (cinv_reach h4 h16 h31 h).bad

/-- C26 (any schedule: a fragment has one record).  The base names a free fragment: no two have the same. -/
theorem C26_concurrent_bases (ext : Nat) (h4 : ext % 4 = 0) (h16 : 16 ≤ ext) (h31 : ext ≤ 2 ^ 31) (s : C)
    (h : Reach ext s) (hm : ∀ x, cover s.a.extents x ≤ 1) : ((allPieces s).map Frag.base).Nodup := by
  have hi := cinv_reach h4 h16 h31 h
  have hp := (C26_concurrent_no_overlap ext h4 h16 h31 s h hm).1
  have hq : ∀ f ∈ allPieces s, 0 < f.size := by
    intro f hf
    simp only [allPieces, List.mem_append] at hf
    rcases hf with ((hf | hf) | hf) | hf
    · exact (hi.ql f hf).2
    · exact (hi.qs f hf).2
    · exact (hi.qf f hf).2
    · exact (hi.qp f hf).2
  rw [List.Nodup, List.pairwise_map]
  refine hp.imp_of_mem fun {a b} ha hb hab he => hab a.base ?_
  have h1 := hq a ha
  have h2 := hq b hb
  unfold Frag.Has
  omega

/-- Executes under the contract. -/
def runAllowed : List Act → C → Option C
  | [], s => some s
  | x :: xs, s => if Contract x s then match act x s with | none => none | some s => runAllowed xs s else none

theorem reach_run {ext : Nat} : ∀ {xs : List Act} {s t : C}, Reach ext s → runAllowed xs s = some t → Reach ext t
  | [], s, t, h, hr => by simp only [runAllowed, Option.some.injEq] at hr; exact hr ▸ h
  | x :: xs, s, t, h, hr => by
    simp only [runAllowed] at hr
    split at hr
    · rename_i hc
      split at hr
      · cases hr
      · rename_i u hu
        exact reach_run (Reach.step x h hc hu) hr
    · cases hr

/-- Two extents next to each other become one fragment; three threads read it and one more waits to write; two cut
it, the third finds too little left and takes it away when nobody reads; then releases and compaction. -/
def sampleC : List Act :=
  [.map 4096, .map 4160, .merge 0 1, .push 0, .enter 2 12, .enter 4 12, .enter 4 48, .enter 4 40, .cas 1, .cas 0, .cas 0,
   .enter 4 16, .release 1, .cas 0, .steal 1, .takeStaged, .takeLevel 4]

def sampleCEnd : C :=
  ⟨⟨64, [[], [], [], [], []], [], [⟨4160, 64⟩, ⟨4096, 64⟩], [⟨4124, 40⟩, ⟨4164, 12⟩]⟩, [⟨4176, 48⟩, ⟨4096, 28⟩], [], [(4, 16)], false⟩

theorem sampleC_reach : Reach 64 sampleCEnd := reach_run (xs := sampleC) .start (by decide +kernel)

example : sampleCEnd.bad = false := C26_concurrent_safe 64 (by decide) (by decide) (by decide) _ sampleC_reach

example : (allPieces sampleCEnd).Pairwise Apart :=
  (C26_concurrent_no_overlap 64 (by decide) (by decide) (by decide) _ sampleC_reach fun x => by
    simp only [sampleCEnd, cover]
    have h1 : (⟨4160, 64⟩ : Frag).Has x ↔ 4160 ≤ x ∧ x < 4160 + 64 := Iff.rfl
    have h2 : (⟨4096, 64⟩ : Frag).Has x ↔ 4096 ≤ x ∧ x < 4096 + 64 := Iff.rfl
    by_cases k1 : (⟨4160, 64⟩ : Frag).Has x <;> by_cases k2 : (⟨4096, 64⟩ : Frag).Has x <;>
      simp only [k1, k2, if_true, if_false] <;> rw [h1] at k1 <;> rw [h2] at k2 <;> omega).1



/-! ### Records -/

/-- The records on the list, from `h`, along `next`. -/
def Chain (next : Nat → Option Nat) : Option Nat → List Nat → Prop
  | h, [] => h = none
  | h, a :: l => h = some a ∧ Chain next (next a) l

/-- Executions in which no two threads are between load and exchange at once. -/
inductive FReach (n : Nat) : F → Prop
  | start : FReach n (startF n)
  | step {s t : F} (x : FAct) : FReach n s → (x = .load → s.pops = []) → fact x s = some t → FReach n t

theorem chain_upd {next : Nat → Option Nat} {a : Nat} {v : Option Nat} : ∀ {l : List Nat} {h : Option Nat}, a ∉ l →
    Chain next h l → Chain (fun b => if b = a then v else next b) h l
  | [], _, _, hc => hc
  | b :: l, h, hn, hc => by
    have hb : b ≠ a := fun e => hn (by simp [e])
    have hl : a ∉ l := fun e => hn (by simp [e])
    exact ⟨hc.1, by simp only [hb, if_false]; exact chain_upd hl hc.2⟩

theorem chain_start (n : Nat) : ∀ (k i : Nat), i + k = n → k ≠ 0 →
    Chain (fun i => if i + 1 < n then some (i + 1) else none) (some i) (List.range' i k)
  | 0, _, _, h => absurd rfl h
  | 1, i, hi, _ => by
    refine ⟨rfl, ?_⟩
    show (if i + 1 < n then some (i + 1) else none) = none
    rw [if_neg (by omega)]
  | k + 2, i, hi, _ => by
    refine ⟨rfl, ?_⟩
    have := chain_start n (k + 1) (i + 1) (by omega) (by omega)
    simp only [if_pos (show i + 1 < n by omega)]
    exact this

structure FInv (n : Nat) (s : F) (l : List Nat) : Prop where
  chain : Chain s.next s.head l
  perm : (l ++ s.owned).Perm (List.range n)
  pops : s.pops = [] ∨ ∃ a ∈ l, s.pops = [(a, s.next a)]

theorem finv_reach {n : Nat} {s : F} (h : FReach n s) : ∃ l, FInv n s l := by
  induction h with
  | start =>
    refine ⟨List.range n, ?_, by simp [startF], Or.inl rfl⟩
    by_cases h : n = 0
    · subst h; simp [startF, Chain]
    · have := chain_start n n 0 (by omega) h
      simp only [startF, h, if_false]
      rw [List.range_eq_range']
      exact this
  | step x hr hc hs ih =>
    rename_i s t
    obtain ⟨l, i1, i2, i3⟩ := ih
    have hnd : (l ++ s.owned).Nodup := i2.nodup_iff.2 List.nodup_range
    cases x with
    | load =>
      simp only [fact] at hs
      split at hs
      · cases hs
      · rename_i a ha
        injection hs with hs; subst hs
        refine ⟨l, i1, i2, Or.inr ?_⟩
        cases l with
        | nil => rw [Chain, ha] at i1; cases i1
        | cons b l =>
          rw [Chain, ha] at i1
          have := i1.1
          injection this with this
          exact ⟨b, by simp, by simp only [hc rfl, List.nil_append, this]⟩
    | cas k =>
      simp only [fact] at hs
      split at hs
      · cases hs
      · rename_i a m hk
        rcases i3 with hp | ⟨b, hb, hp⟩
        · rw [hp] at hk; simp at hk
        · rw [hp] at hk hs
          cases k with
          | succ k => simp at hk
          | zero =>
            simp only [List.getElem?_cons_zero, Option.some.injEq, Prod.mk.injEq] at hk
            obtain ⟨hk1, hk2⟩ := hk
            subst hk1
            split at hs
            · rename_i hh
              injection hs with hs; subst hs
              cases l with
              | nil => rw [Chain, hh] at i1; cases i1
              | cons c l =>
                rw [Chain, hh] at i1
                have hc1 := i1.1
                injection hc1 with hc1
                subst hc1
                refine ⟨l, ?_, ?_, Or.inl (by simp)⟩
                · show Chain s.next m l
                  rw [← hk2]; exact i1.2
                · refine List.Perm.trans ?_ i2
                  simp only [List.cons_append]
                  rw [← List.append_assoc]
                  exact List.perm_append_singleton _ _
            · injection hs with hs; subst hs
              exact ⟨l, i1, i2, Or.inl (by simp)⟩
    | push k =>
      simp only [fact] at hs
      split at hs
      · cases hs
      · rename_i a hk
        injection hs with hs; subst hs
        have hm := List.mem_of_getElem? hk
        have hal : a ∉ l := by
          rw [List.nodup_append] at hnd
          exact fun h => hnd.2.2 a h a hm rfl
        refine ⟨a :: l, ⟨rfl, ?_⟩, ?_, ?_⟩
        · simp only [if_true]
          exact chain_upd hal i1
        · refine List.Perm.trans ?_ i2
          have : (a :: s.owned.eraseIdx k).Perm s.owned := by
            obtain ⟨hlt, hk⟩ := List.getElem?_eq_some_iff.1 hk
            subst hk
            exact List.getElem_cons_eraseIdx_perm hlt
          simp only [List.cons_append]
          exact (List.perm_middle.symm.trans (List.Perm.append_left l this))
        · rcases i3 with hp | ⟨b, hb, hp⟩
          · exact Or.inl hp
          · refine Or.inr ⟨b, List.mem_cons_of_mem _ hb, ?_⟩
            have : b ≠ a := fun e => hal (e ▸ hb)
            simp only [hp, this, if_false]

/-- C26 (records, part).  As long as no two threads look for a record at the same moment, no record is handed out
twice.  Missing: two at a time, see `C26_record_twice_violated`. -/
theorem C26_records_partial (n : Nat) (s : F) (h : FReach n s) : s.owned.Nodup := by
  obtain ⟨l, i⟩ := finv_reach h
  have hnd : (l ++ s.owned).Nodup := i.perm.nodup_iff.2 List.nodup_range
  exact (List.nodup_append.1 hnd).2.1

/-- C26 fails for the records: one thread has read the head 0 and its successor 1 when another takes 0 and 1 and gives
0 back.  The exchange of the first thread succeeds and makes 1 the head, and 1 is handed out again while it is in use:
two fragments share a record. -/
theorem C26_record_twice_violated : ∃ xs : List FAct, ∃ s, runF xs (startF 3) = some s ∧ s.owned = [1, 0, 1] :=
  ⟨[.load, .load, .cas 1, .load, .cas 1, .push 0, .cas 0, .load, .cas 0], _, rfl, by decide +kernel⟩

end Mtev.Arena
