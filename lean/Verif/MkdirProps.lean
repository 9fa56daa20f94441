import Verif.Mkdir

/-!
# C119 Making the directories for a file
-/

namespace Mtev.Mkdir

/-- all the directories on the way are there -/
def Dirs (fs : Fs) (b : Bool) (l : List Str) : Prop := ∀ q, q ≠ [] → q <+: l → fs (b, q) = some .dir

/-- no file is in the way -/
def NoFile (fs : Fs) (b : Bool) (l : List Str) : Prop := ∀ q, q <+: l → fs (b, q) ≠ some .file

/-- nothing but directories on the way has been added -/
def Grown (fs fs' : Fs) (b : Bool) (l : List Str) : Prop :=
  ∀ p, fs' p = fs p ∨ (fs p = none ∧ fs' p = some .dir ∧ p.1 = b ∧ p.2 ≠ [] ∧ p.2 <+: l)

theorem Grown.refl (fs : Fs) (b : Bool) (l : List Str) : Grown fs fs b l := fun _ => Or.inl rfl

theorem Grown.trans {f g h : Fs} {b : Bool} {l m : List Str} (h1 : Grown f g b l) (h2 : Grown g h b m) (hl : l <+: m) :
    Grown f h b m := by
  intro p
  rcases h2 p with e | ⟨e1, e2, e3, e4, e5⟩
  · rcases h1 p with k | ⟨k1, k2, k3, k4, k5⟩
    · exact Or.inl (e.trans k)
    · exact Or.inr ⟨k1, e.trans k2, k3, k4, k5.trans hl⟩
  · rcases h1 p with k | ⟨k1, _, _, _, _⟩
    · exact Or.inr ⟨k ▸ e1, e2, e3, e4, e5⟩
    · exact Or.inr ⟨k1, e2, e3, e4, e5⟩

theorem Grown.noFile {f g : Fs} {b : Bool} {l m : List Str} (h : Grown f g b l) (hn : NoFile f b m) : NoFile g b m := by
  intro q hq e
  rcases h (b, q) with k | ⟨_, k, _⟩
  · exact hn q hq (k ▸ e)
  · rw [k] at e; cases e

/-! ### paths -/

theorem go_split (n : Str) : ∀ (d acc : Str), go acc (d ++ 47 :: n) = go acc d ++ go [] n
  | [], acc => by simp [go]
  | c :: d, acc => by
    simp only [List.cons_append, go]
    split
    · rw [go_split n d, List.append_assoc]
    · exact go_split n d _

theorem go_name : ∀ (n acc : Str), 47 ∉ n → go acc n = flush (acc ++ n)
  | [], acc, _ => by simp [go]
  | c :: n, acc, h => by
    have h1 : c ≠ 47 := by rintro rfl; simp at h
    have h2 : 47 ∉ n := fun e => h (by simp [e])
    simp only [go, if_neg h1]
    rw [go_name n _ h2]
    simp

theorem comps_cut (d n : Str) (h : 47 ∉ n) : comps (d ++ 47 :: n) = comps d ++ flush n := by
  unfold comps
  rw [go_split, go_name n [] h]
  rfl

theorem scan_spec (f : Str) : ∀ i, (scan f i ≠ 0 → f[scan f i]? = some 47) ∧ ∀ j, scan f i < j → j ≤ i → f[j]? ≠ some 47
  | 0 => ⟨fun h => absurd rfl h, fun j h1 h2 => by simp [scan] at h1; omega⟩
  | i + 1 => by
    unfold scan
    split
    · rename_i h
      exact ⟨fun _ => h, fun j h1 h2 => by omega⟩
    · rename_i h
      obtain ⟨h1, h2⟩ := scan_spec f i
      refine ⟨h1, fun j h3 h4 => ?_⟩
      by_cases e : j = i + 1
      · subst e; exact h
      · exact h2 j h3 (by omega)

theorem cut_some {f d : Str} (hl : f.length ≤ 4095) (h : cut f = some d) : ∃ n, f = d ++ 47 :: n ∧ 47 ∉ n ∧ d ≠ [] := by
  unfold cut at h
  rw [List.take_of_length_le hl] at h
  simp only at h
  split at h
  · cases h
  · rename_i h0
    simp only [Option.some.injEq] at h
    obtain ⟨h1, h2⟩ := scan_spec f (f.length - 1)
    have h1 := h1 h0
    generalize scan f (f.length - 1) = e at *
    have he : e < f.length := by
      by_contra hc
      rw [List.getElem?_eq_none (by omega)] at h1
      cases h1
    refine ⟨f.drop (e + 1), ?_, ?_, ?_⟩
    · subst h
      conv_lhs => rw [← List.take_append_drop e f]
      congr 1
      rw [List.drop_eq_getElem_cons he]
      congr 1
      rw [List.getElem?_eq_getElem he] at h1
      exact Option.some.inj h1
    · intro hm
      obtain ⟨j, hj, hj2⟩ := List.mem_iff_getElem.1 hm
      simp only [List.length_drop] at hj
      apply h2 (e + 1 + j) (by omega) (by omega)
      rw [← hj2, List.getElem_drop, List.getElem?_eq_getElem]
    · subst h
      intro hn
      have := congrArg List.length hn
      simp only [List.length_take, List.length_nil] at this
      omega

theorem cut_none {f : Str} (hl : f.length ≤ 4095) (h : cut f = none) : f = [] ∨ ∃ c n, f = c :: n ∧ 47 ∉ n := by
  unfold cut at h
  rw [List.take_of_length_le hl] at h
  simp only at h
  split at h
  · rename_i h0
    obtain ⟨_, h2⟩ := scan_spec f (f.length - 1)
    rw [h0] at h2
    cases f with
    | nil => exact Or.inl rfl
    | cons c n =>
      refine Or.inr ⟨c, n, rfl, ?_⟩
      intro hm
      obtain ⟨j, hj, hj2⟩ := List.mem_iff_getElem.1 hm
      apply h2 (j + 1) (by omega) (by simp; omega)
      rw [List.getElem?_cons_succ, List.getElem?_eq_getElem hj, hj2]
  · cases h

theorem split_unique : ∀ (d d' n n' : Str), d ++ 47 :: n = d' ++ 47 :: n' → 47 ∉ n → 47 ∉ n' → d = d'
  | [], [], _, _, _, _, _ => rfl
  | [], c :: d', n, n', h, h1, _ => by
    simp only [List.nil_append, List.cons_append, List.cons.injEq] at h
    exact absurd (by rw [h.2]; simp) h1
  | c :: d, [], n, n', h, _, h2 => by
    simp only [List.nil_append, List.cons_append, List.cons.injEq] at h
    exact absurd (by rw [← h.2]; simp) h2
  | c :: d, c' :: d', n, n', h, h1, h2 => by
    simp only [List.cons_append, List.cons.injEq] at h
    rw [h.1, split_unique d d' n n' h.2 h1 h2]

theorem cut_eq {f d n : Str} (hl : f.length ≤ 4095) (hf : f = d ++ 47 :: n) (hn : 47 ∉ n) (hd : d ≠ []) : cut f = some d := by
  cases h : cut f with
  | some d' =>
    obtain ⟨n', h1, h2, _⟩ := cut_some hl h
    rw [split_unique d d' n n' (hf.symm.trans h1) hn h2]
  | none =>
    rcases cut_none hl h with e | ⟨c, m, e, hm⟩
    · subst hf; simp at e
    · cases d with
      | nil => exact absurd rfl hd
      | cons x d =>
        rw [hf] at e
        simp only [List.cons_append, List.cons.injEq] at e
        exact absurd (by rw [← e.2]; simp) hm

theorem comps_short {f : Str} (hl : f.length ≤ 4095) (h : cut f = none) : (comps f).length ≤ 1 := by
  have hfl : ∀ a : Str, (flush a).length ≤ 1 := by intro a; unfold flush; split <;> simp
  rcases cut_none hl h with rfl | ⟨c, n, rfl, hn⟩
  · simp [comps, go, flush]
  · unfold comps go
    split
    · rw [go_name n [] hn]; simpa [flush] using hfl n
    · rw [go_name n _ hn]; exact hfl _

theorem isAbs_append (d n : Str) (h : d ≠ []) : isAbs (d ++ n) = isAbs d := by
  cases d with
  | nil => exact absurd rfl h
  | cons c d => simp [isAbs]

/-! ### `mkdir` -/

/-- the names before the last one are directories -/
def Way (fs : Fs) (b : Bool) (pre l : List Str) : Prop :=
  ∀ q, q ≠ [] → q <+: l → q ≠ l → fs (b, pre ++ q) = some .dir

theorem walk_spec (fs : Fs) (b : Bool) : ∀ (l pre : List Str),
    (walk fs b pre l = .ok → l ≠ [] ∧ fs (b, pre ++ l) = none ∧ Way fs b pre l) ∧
    (walk fs b pre l = .eexist → (l ≠ [] → fs (b, pre ++ l) ≠ none) ∧ Way fs b pre l) ∧
    (walk fs b pre l = .enoent → 2 ≤ l.length) ∧
    (walk fs b pre l = .other → ∃ q, q <+: l ∧ fs (b, pre ++ q) = some .file) ∧
    (Way fs b pre l → walk fs b pre l = .ok ∨ walk fs b pre l = .eexist)
  | [], pre => by
    refine ⟨by simp [walk], fun _ => ⟨fun h => absurd rfl h, ?_⟩, by simp [walk], by simp [walk], fun _ => Or.inr rfl⟩
    intro q h1 h2 _
    exact absurd (List.prefix_nil.1 h2) h1
  | [c], pre => by
    have hw : Way fs b pre [c] := by
      intro q h1 h2 h3
      rcases List.prefix_cons_iff.1 h2 with h | ⟨t, rfl, ht⟩
      · exact absurd h h1
      · rw [List.prefix_nil.1 ht] at h3; exact absurd rfl h3
    unfold walk
    cases h : fs (b, pre ++ [c]) with
    | none => simp [h, hw]
    | some k => simp [h, hw]
  | c :: d :: t, pre => by
    have ih := walk_spec fs b (d :: t) (pre ++ [c])
    have hw : fs (b, pre ++ [c]) = some .dir → Way fs b (pre ++ [c]) (d :: t) → Way fs b pre (c :: d :: t) := by
      intro hc h q h1 h2 h3
      rcases List.prefix_cons_iff.1 h2 with h | ⟨u, rfl, hu⟩
      · exact absurd h h1
      · by_cases hu0 : u = []
        · subst hu0; exact hc
        · have := h u hu0 hu (fun e => h3 (by rw [e]))
          simpa using this
    have hc1 : Way fs b pre (c :: d :: t) → fs (b, pre ++ [c]) = some .dir := by
      intro h
      exact h [c] (by simp) (List.prefix_cons_iff.2 (Or.inr ⟨[], rfl, List.nil_prefix⟩)) (by simp)
    unfold walk
    cases h : fs (b, pre ++ [c]) with
    | none =>
      simp only [reduceCtorEq, false_implies, true_and, List.length_cons, or_self, imp_false]
      refine ⟨by intro; omega, fun hh => ?_⟩
      have := hc1 hh
      rw [h] at this; cases this
    | some k =>
      cases k with
      | file =>
        simp only [reduceCtorEq, false_implies, true_and, or_self, imp_false, true_implies]
        refine ⟨⟨[c], by simp, h⟩, fun hh => ?_⟩
        have := hc1 hh
        rw [h] at this; cases this
      | dir =>
        simp only
        obtain ⟨i1, i2, i3, i4, i5⟩ := ih
        have ea : ∀ q : List Str, pre ++ [c] ++ q = pre ++ c :: q := by intro q; simp
        simp only [ea] at i1 i2 i4
        refine ⟨fun e => ⟨by simp, (i1 e).2.1, hw h (i1 e).2.2⟩, fun e => ⟨fun _ => (i2 e).1 (by simp), hw h (i2 e).2⟩,
          fun e => ?_, fun e => ?_, fun hh => i5 ?_⟩
        · have := i3 e
          simp only [List.length_cons] at this ⊢; omega
        · obtain ⟨q, hq, hf⟩ := i4 e
          exact ⟨c :: q, by simpa using hq, hf⟩
        · intro q h1 h2 h3
          have := hh (c :: q) (by simp) (by simpa using h2) (by simpa using h3)
          simpa using this

/-- what `mkdir` does to the file system -/
theorem mkdir_grown (allowed : Place → Bool) (fs : Fs) (p : Str) :
    Grown fs (mkdir allowed fs p).1 (isAbs p) (comps p) := by
  unfold mkdir
  split
  · exact Grown.refl _ _ _
  · split
    · rename_i hok
      split
      · obtain ⟨h1, h2, _⟩ := (walk_spec fs (isAbs p) (comps p) []).1 hok
        intro q
        unfold put place
        by_cases e : q = (isAbs p, comps p)
        · subst e
          right
          exact ⟨by simpa using h2, by simp, rfl, h1, List.prefix_refl _⟩
        · left; simp [e]
      · exact Grown.refl _ _ _
    · exact Grown.refl _ _ _

/-- success, or the place is taken: the way is there -/
theorem mkdir_dirs (allowed : Place → Bool) (fs : Fs) (p : Str) (hn : NoFile fs (isAbs p) (comps p))
    (h : (mkdir allowed fs p).2 = .ok ∨ (mkdir allowed fs p).2 = .eexist) :
    Dirs (mkdir allowed fs p).1 (isAbs p) (comps p) := by
  have ws := walk_spec fs (isAbs p) (comps p) []
  unfold mkdir at h ⊢
  by_cases hp : p = []
  · rw [if_pos hp] at h; simp at h
  rw [if_neg hp] at h ⊢
  by_cases hok : walk fs (isAbs p) [] (comps p) = .ok
  · rw [if_pos hok] at h ⊢
    obtain ⟨h1, h2, h3⟩ := ws.1 hok
    by_cases ha : allowed (place p) = true
    · rw [if_pos ha]
      intro q q1 q2
      unfold put place
      by_cases e : q = comps p
      · simp [e]
      · have := h3 q q1 q2 e
        simp only [List.nil_append] at this
        simp [e, this]
    · rw [if_neg ha] at h; simp at h
  · rw [if_neg hok] at h ⊢
    simp only at h ⊢
    have h := h.resolve_left hok
    obtain ⟨h1, h2⟩ := ws.2.1 h
    intro q q1 q2
    by_cases e : q = comps p
    · subst e
      have hne := h1 q1
      simp only [List.nil_append] at hne
      cases hk : fs (isAbs p, comps p) with
      | none => exact absurd hk hne
      | some k =>
        cases k with
        | dir => rfl
        | file => exact absurd hk (hn _ (List.prefix_refl _))
    · simpa using h2 q q1 q2 e

theorem mkdir_can (allowed : Place → Bool) (ha : ∀ q, allowed q = true) (fs : Fs) (p : Str) (hp : p ≠ [])
    (h : Way fs (isAbs p) [] (comps p)) : (mkdir allowed fs p).2 = .ok ∨ (mkdir allowed fs p).2 = .eexist := by
  unfold mkdir
  rw [if_neg hp]
  rcases (walk_spec fs (isAbs p) (comps p) []).2.2.2.2 h with e | e
  · rw [if_pos e, if_pos (ha _)]; exact Or.inl rfl
  · rw [if_neg (by rw [e]; simp)]; exact Or.inr e

theorem main (allowed : Place → Bool) : ∀ (k : Nat) (f : Str), f.length ≤ k → f.length ≤ 4095 → ∀ fs : Fs,
    ∃ fs' r, mkdirForFile allowed fs f = .ok (fs', r) ∧
      (cut f = none → fs' = fs ∧ r = false) ∧
      ∀ d, cut f = some d → Grown fs fs' (isAbs d) (comps d) ∧
        (r = true → NoFile fs (isAbs d) (comps d) → Dirs fs' (isAbs d) (comps d)) ∧
        ((∀ q, allowed q = true) → NoFile fs (isAbs d) (comps d) → r = true)
  | 0, f, hk, _, fs => by
    have : f = [] := by cases f <;> simp at hk ⊢
    subst this
    unfold mkdirForFile
    exact ⟨fs, false, by simp, fun _ => ⟨rfl, rfl⟩, fun d h => by simp [cut, scan] at h⟩
  | k + 1, f, hk, hl, fs => by
    by_cases hf0 : f = []
    · subst hf0
      unfold mkdirForFile
      exact ⟨fs, false, by simp, fun _ => ⟨rfl, rfl⟩, fun d h => by simp [cut, scan] at h⟩
    cases hc : cut f with
    | none =>
      unfold mkdirForFile
      rw [if_neg hf0, if_neg (by omega)]
      split
      · exact ⟨fs, false, rfl, fun _ => ⟨rfl, rfl⟩, fun d h => by cases h⟩
      · rename_i d h; rw [hc] at h; cases h
    | some d =>
      have hlt := cut_lt hc
      obtain ⟨n, hfn, hn, hd0⟩ := cut_some hl hc
      -- what follows the second call of mkdir
      have second : ∀ fs1 : Fs, Grown fs fs1 (isAbs d) (comps d) →
          let r := (mkdir allowed fs1 d).2 == .ok || (mkdir allowed fs1 d).2 == .eexist
          Grown fs (mkdir allowed fs1 d).1 (isAbs d) (comps d) ∧
          (r = true → NoFile fs (isAbs d) (comps d) → Dirs (mkdir allowed fs1 d).1 (isAbs d) (comps d)) := by
        intro fs1 g
        refine ⟨g.trans (mkdir_grown allowed fs1 d) (List.prefix_refl _), fun hr hnf => ?_⟩
        apply mkdir_dirs allowed fs1 d (g.noFile hnf)
        simpa using hr
      have g1 := mkdir_grown allowed fs d
      have d1 := mkdir_dirs allowed fs d
      have ih := main allowed k d (by omega) (by omega)
      have hun : mkdirForFile allowed fs f =
          match mkdir allowed fs d with
          | (fs1, .ok) => .ok (fs1, true)
          | (fs1, .eexist) => .ok (fs1, true)
          | (fs1, .enoent) =>
            match mkdirForFile allowed fs1 d with
            | .ok (fs2, true) => .ok ((mkdir allowed fs2 d).1, (mkdir allowed fs2 d).2 == .ok || (mkdir allowed fs2 d).2 == .eexist)
            | .ok (fs2, false) => .ok (fs2, false)
            | .ub => .ub
            | .abort => .abort
          | (fs1, .other) => .ok ((mkdir allowed fs1 d).1, (mkdir allowed fs1 d).2 == .ok || (mkdir allowed fs1 d).2 == .eexist) := by
        conv_lhs => unfold mkdirForFile
        rw [if_neg hf0, if_neg (by omega)]
        split
        · rename_i h; rw [hc] at h; cases h
        · rename_i d' h
          rw [hc] at h
          cases h
          rfl
      rw [hun]
      cases hm : mkdir allowed fs d with
      | mk fs1 r1 =>
        rw [hm] at g1 d1
        cases r1 with
        | ok =>
          refine ⟨fs1, true, rfl, by simp, fun d' h => ?_⟩
          cases h
          exact ⟨g1, fun _ hnf => d1 hnf (Or.inl rfl), fun _ _ => rfl⟩
        | eexist =>
          refine ⟨fs1, true, rfl, by simp, fun d' h => ?_⟩
          cases h
          exact ⟨g1, fun _ hnf => d1 hnf (Or.inr rfl), fun _ _ => rfl⟩
        | other =>
          refine ⟨_, _, rfl, by simp, fun d' h => ?_⟩
          cases h
          obtain ⟨s1, s2⟩ := second fs1 g1
          refine ⟨s1, s2, fun ha hnf => ?_⟩
          exfalso
          have h2 : (mkdir allowed fs d).2 = .other := by rw [hm]
          unfold mkdir at h2
          rw [if_neg hd0] at h2
          split at h2
          · rw [if_pos (ha _)] at h2; cases h2
          · obtain ⟨q, hq, hqf⟩ := (walk_spec fs (isAbs d) (comps d) []).2.2.2.1 h2
            exact hnf q hq (by simpa using hqf)
        | enoent =>
          have h2 : (mkdir allowed fs d).2 = .enoent := by rw [hm]
          have hfs1 : fs1 = fs := by
            have : (mkdir allowed fs d).1 = fs1 := by rw [hm]
            rw [← this]
            unfold mkdir at h2 ⊢
            rw [if_neg hd0] at h2 ⊢
            split at h2
            · split at h2 <;> cases h2
            · rename_i hw; rw [if_neg hw]
          have hlen : 2 ≤ (comps d).length := by
            unfold mkdir at h2
            rw [if_neg hd0] at h2
            split at h2
            · split at h2 <;> cases h2
            · exact (walk_spec fs (isAbs d) (comps d) []).2.2.1 h2
          subst hfs1
          obtain ⟨fs2, r2, e2, n2, s2⟩ := ih fs1
          have hcd : ∃ d', cut d = some d' := by
            cases h : cut d with
            | some d' => exact ⟨d', rfl⟩
            | none => have := comps_short (by omega) h; omega
          obtain ⟨d', hcd⟩ := hcd
          obtain ⟨m, hdm, hm0, hd'0⟩ := cut_some (by omega) hcd
          obtain ⟨g2, i2, j2⟩ := s2 d' hcd
          have hab : isAbs d' = isAbs d := by rw [hdm, isAbs_append d' _ hd'0]
          have hcomp : comps d = comps d' ++ flush m := by
            conv_lhs => rw [hdm]
            exact comps_cut d' m hm0
          have hpre : comps d' <+: comps d := by rw [hcomp]; exact List.prefix_append _ _
          rw [hab] at g2 i2 j2
          have g2' : Grown fs1 fs2 (isAbs d) (comps d) := g2.trans (Grown.refl fs2 _ _) hpre
          simp only [e2]
          cases r2 with
          | false =>
            refine ⟨fs2, false, rfl, by simp, fun d'' h => ?_⟩
            cases h
            refine ⟨g2', by simp, fun ha hnf => ?_⟩
            exact j2 ha (fun q hq => hnf q (hq.trans hpre))
          | true =>
            refine ⟨_, _, rfl, by simp, fun d'' h => ?_⟩
            cases h
            obtain ⟨t1, t2⟩ := second fs2 g2'
            refine ⟨t1, t2, fun ha hnf => ?_⟩
            have hway : Way fs2 (isAbs d) [] (comps d) := by
              intro q q1 q2 q3
              have hD := i2 rfl (fun q hq => hnf q (hq.trans hpre))
              apply hD q q1
              rw [hcomp] at q2 q3
              unfold flush at q2 q3
              split at q2
              · simpa using q2
              · rename_i hm1
                rw [if_neg hm1] at q3
                rcases List.prefix_concat_iff.1 (by simpa using q2) with e | e
                · exact absurd (by simpa using e) q3
                · exact e
            have := mkdir_can allowed ha fs2 d hd0 hway
            simpa using this

/-- **C119** For every path with a directory part and every file system, `mkdir_for_file` ends; if it returns 0 all
directories on the way to the file are there.

Partial: the path is below `PATH_MAX` and no file is in the way of the directories.  Missing: see
`C119_long_violated` and `C119_file_violated`. -/
theorem C119_ok_partial (allowed : Place → Bool) (fs : Fs) (f d n : Str) (hl : f.length < 4096) (hf : f = d ++ 47 :: n)
    (hn : 47 ∉ n) (hd : d ≠ []) (hnf : NoFile fs (isAbs f) (comps d)) :
    ∃ fs' r, mkdirForFile allowed fs f = .ok (fs', r) ∧ (r = true → Dirs fs' (isAbs f) (comps d)) := by
  obtain ⟨fs', r, e, _, h⟩ := main allowed f.length f (Nat.le_refl _) (by omega) fs
  have hc := cut_eq (by omega) hf hn hd
  have hab : isAbs d = isAbs f := by rw [hf, isAbs_append d _ hd]
  obtain ⟨_, h2, _⟩ := h d hc
  rw [hab] at h2
  exact ⟨fs', r, e, fun hr => h2 hr hnf⟩

/-- **C119** Whatever it returns, it only adds directories on the way to the file. -/
theorem C119_only_partial (allowed : Place → Bool) (fs : Fs) (f d n : Str) (hl : f.length < 4096) (hf : f = d ++ 47 :: n)
    (hn : 47 ∉ n) (hd : d ≠ []) : ∃ fs' r, mkdirForFile allowed fs f = .ok (fs', r) ∧ Grown fs fs' (isAbs f) (comps d) := by
  obtain ⟨fs', r, e, _, h⟩ := main allowed f.length f (Nat.le_refl _) (by omega) fs
  have hc := cut_eq (by omega) hf hn hd
  have hab : isAbs d = isAbs f := by rw [hf, isAbs_append d _ hd]
  obtain ⟨h1, _, _⟩ := h d hc
  rw [hab] at h1
  exact ⟨fs', r, e, h1⟩

/-- **C119** If nothing is in the way and the system refuses nothing, it succeeds, however many directories are missing and
however many slashes stand between their names. -/
theorem C119_can_partial (allowed : Place → Bool) (ha : ∀ q, allowed q = true) (fs : Fs) (f d n : Str) (hl : f.length < 4096)
    (hf : f = d ++ 47 :: n) (hn : 47 ∉ n) (hd : d ≠ []) (hnf : NoFile fs (isAbs f) (comps d)) :
    ∃ fs', mkdirForFile allowed fs f = .ok (fs', true) ∧ Dirs fs' (isAbs f) (comps d) := by
  obtain ⟨fs', r, e, _, h⟩ := main allowed f.length f (Nat.le_refl _) (by omega) fs
  have hc := cut_eq (by omega) hf hn hd
  have hab : isAbs d = isAbs f := by rw [hf, isAbs_append d _ hd]
  obtain ⟨_, h2, h3⟩ := h d hc
  rw [hab] at h2 h3
  have := h3 ha hnf
  subst this
  exact ⟨fs', e, h2 rfl hnf⟩

/-- nothing but the root and the working directory -/
def bare : Fs := fun p => if p.2 = [] then some .dir else none

example : comps (bytesOf "/a//b/c") = [bytesOf "a", bytesOf "b", bytesOf "c"] ∧ isAbs (bytesOf "/a//b/c/x") = true ∧
    bytesOf "/a//b/c/x" = bytesOf "/a//b/c" ++ 47 :: bytesOf "x" ∧ NoFile bare true (comps (bytesOf "/a//b/c")) := by
  refine ⟨by decide, by decide, by decide, ?_⟩
  intro q _
  unfold bare
  split <;> simp

/-- **C119 violated** A file in the root directory: -1, although the directory is there.  The same for a name without a
slash. -/
theorem C119_top_violated (allowed : Place → Bool) (fs : Fs) :
    mkdirForFile allowed fs (bytesOf "/file") = .ok (fs, false) ∧ mkdirForFile allowed fs (bytesOf "file") = .ok (fs, false) := by
  have h : ∀ f : Str, f ≠ [] → f.length ≤ 4095 → cut f = none → mkdirForFile allowed fs f = .ok (fs, false) := by
    intro f h0 hl hc
    obtain ⟨fs', r, e, h, _⟩ := main allowed f.length f (Nat.le_refl _) hl fs
    obtain ⟨rfl, rfl⟩ := h hc
    exact e
  exact ⟨h _ (by decide) (by decide) (by decide), h _ (by decide) (by decide) (by decide)⟩

/-- the file system in which `/a` is a file -/
def blocked : Fs := fun p => if p.2 = [] then some .dir else if p = (true, [bytesOf "a"]) then some .file else none

/-- **C119 violated** If a file has the name of the directory, the call returns 0 all the same. -/
theorem C119_file_violated (allowed : Place → Bool) : mkdirForFile allowed blocked (bytesOf "/a/x") = .ok (blocked, true) := by
  unfold mkdirForFile
  rw [if_neg (by decide), if_neg (by decide)]
  have hc : cut (bytesOf "/a/x") = some (bytesOf "/a") := by decide
  have hm : mkdir allowed blocked (bytesOf "/a") = (blocked, .eexist) := by
    unfold mkdir
    have hw : walk blocked (isAbs (bytesOf "/a")) [] (comps (bytesOf "/a")) = .eexist := by decide
    rw [if_neg (by decide), hw, if_neg (by decide)]
  split
  · rename_i h; rw [hc] at h; cases h
  · rename_i d h
    rw [hc] at h
    cases h
    rw [hm]

/-- **C119 violated** A path longer than `PATH_MAX` is searched for its last slash beyond the end of the copy. -/
theorem C119_long_violated (allowed : Place → Bool) (fs : Fs) (f : Str) (h : f.length > 4096) :
    mkdirForFile allowed fs f = .ub := by
  unfold mkdirForFile
  rw [if_neg (by rintro rfl; simp at h), if_pos h]

end Mtev.Mkdir
