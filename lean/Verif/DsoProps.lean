import Verif.Dso
import Mathlib.Tactic.Common

/-!
C152: modules are brought up as configured, and failures are counted.
C153: the image of a module is the first one along the configured
directories.
-/

namespace Mtev.Dso

/-! Specification. -/

/-- The module of a name in an image that can be loaded: the symbol is
there, is a module of this version, and its onload callback agrees. -/
def Loadable (im : Image) (name : Str) (y : Sym) : Prop :=
  im (symName name) = some y ∧ y.magic = true ∧ y.onload ≠ some false

/-- Did its configuration refuse? -/
def Refuses (y : Sym) : Prop := ∃ rv, y.config = some rv ∧ rv < 0

instance (y : Sym) : Decidable (Refuses y) :=
  match h : y.config with
  | none => isFalse (by rintro ⟨rv, h', _⟩; rw [h] at h'; cases h')
  | some rv => if hr : rv < 0 then isTrue ⟨rv, h, hr⟩
      else isFalse (by rintro ⟨rv', h', hr'⟩; rw [h] at h'; cases h'; exact hr hr')

/-- The callbacks a module that succeeds gets, in order. -/
def calls (gen : Bool) (name : Str) (y : Sym) : List Ev :=
  (if y.onload.isSome then [.onload gen name] else []) ++
  (if y.config.isSome then [.config gen name] else []) ++
  (if y.init.isSome then [.init gen name] else [])

/-- The event of having called onload, if there is one. -/
def onl (gen : Bool) (name : Str) (y : Sym) : List Ev := if y.onload.isSome then [.onload gen name] else []

/-- The state after loading succeeded. -/
def added (s : St) (gen : Bool) (name : Str) (y : Sym) : St :=
  { s with evs := s.evs ++ onl gen name y, reg := s.reg ++ [((gen, name), y)] }

theorem loadSym_cases (s : St) (gen : Bool) (name : Str) (im : Image) :
    (∃ pre, (∀ e ∈ pre, e = Ev.onload gen name) ∧ loadSym s gen name im = ({ s with evs := s.evs ++ pre }, none)) ∨
    (∃ y, Loadable im name y ∧ loaded s gen name = false ∧ loadSym s gen name im = (added s gen name y, some y)) := by
  unfold loadSym
  cases hy : im (symName name) with
  | none => exact .inl ⟨[], by simp, by simp⟩
  | some y =>
    cases hm : y.magic with
    | false => exact .inl ⟨[], by simp, by simp [hm]⟩
    | true =>
      simp only [hm, Bool.not_true, Bool.false_eq_true, if_false]
      cases ho : y.onload with
      | none =>
        simp only [reduceCtorEq, if_false]
        cases hl : loaded s gen name with
        | true => exact .inl ⟨[], by simp, by simp [hm]⟩
        | false =>
          refine .inr ⟨y, ⟨hy, hm, by rw [ho]; simp⟩, rfl, ?_⟩
          simp [added, onl, ho, hm]
      | some ok =>
        cases ok with
        | false => exact .inl ⟨[.onload gen name], by simp, by simp [hm]⟩
        | true =>
          simp only [Option.some.injEq, Bool.true_eq_false, if_false]
          cases hl : loaded s gen name with
          | true => exact .inl ⟨[.onload gen name], by simp, by simp [hm]⟩
          | false =>
            refine .inr ⟨y, ⟨hy, hm, by rw [ho]; simp⟩, rfl, ?_⟩
            simp [added, onl, ho, hm]

theorem loadSym_good (s : St) (gen : Bool) (name : Str) (im : Image) (y : Sym)
    (h : Loadable im name y) (hl : loaded s gen name = false) :
    loadSym s gen name im = (added s gen name y, some y) := by
  obtain ⟨h1, h2, h3⟩ := h
  unfold loadSym
  rw [h1]
  simp only [h2, Bool.not_true, Bool.false_eq_true, if_false]
  cases ho : y.onload with
  | none => simp [hl, added, onl, ho]
  | some ok =>
    cases ok with
    | false => exact absurd ho h3
    | true => simp [hl, added, onl, ho]

/-- What a stanza does. -/
theorem stanza_cases (b : Build) (ld : Linker) (dirs : Option Str) (s : St) (z : Stanza) :
    ((z.name = none ∨ z.off = true) ∧ stanza b ld dirs s z = s) ∨
    (∃ name pre k, z.name = some name ∧ z.off = false ∧ 0 < k ∧ (∀ e ∈ pre, e = Ev.onload z.gen name) ∧
      stanza b ld dirs s z = { s with evs := s.evs ++ pre, fails := s.fails + k }) ∨
    (∃ name file im y, z.name = some name ∧ z.off = false ∧ z.image = some file ∧ find b ld dirs file = some im ∧
      Loadable im name y ∧ loaded s z.gen name = false ∧
      stanza b ld dirs s z = bringUp (added s z.gen name y) z.gen name y) := by
  unfold stanza
  cases hn : z.name with
  | none => exact .inl ⟨.inl rfl, rfl⟩
  | some name =>
    cases ho : z.off with
    | true => exact .inl ⟨.inr rfl, rfl⟩
    | false =>
      right
      simp only [Bool.false_eq_true, if_false]
      unfold loadImage
      cases hi : z.image with
      | none => exact .inl ⟨name, [], 1, rfl, trivial, by omega, by simp, by simp⟩
      | some file =>
        cases hf : find b ld dirs file with
        | none =>
          cases hg : z.gen with
          | true => exact .inl ⟨name, [], 1, rfl, trivial, by omega, by simp, by simp [hf]⟩
          | false => exact .inl ⟨name, [], 2, rfl, trivial, by omega, by simp, by simp [hf]⟩
        | some im =>
          rcases loadSym_cases s z.gen name im with ⟨pre, hp, hq⟩ | ⟨y, hy, hl, hq⟩
          · left
            cases hg : z.gen with
            | true =>
              rw [hg] at hq hp
              exact ⟨name, pre, 1, rfl, trivial, by omega, hp, by simp [hf, hq]⟩
            | false =>
              rw [hg] at hq hp
              exact ⟨name, pre, 2, rfl, trivial, by omega, hp, by simp [hf, hq]⟩
          · right
            exact ⟨name, file, im, y, rfl, trivial, rfl, hf, hy, hl, by simp only [hf, hq]⟩

/-- Bringing up: what is called, and what is counted. -/
theorem bringUp_spec (s : St) (gen : Bool) (name : Str) (y : Sym) :
    (bringUp s gen name y).reg = s.reg ∧
    (bringUp s gen name y).evs = s.evs ++ ((if y.config.isSome then [.config gen name] else []) ++
      (if y.init.isSome ∧ ¬ Refuses y then [.init gen name] else [])) ∧
    (bringUp s gen name y).fails = s.fails +
      (if gen = true then (if ¬ Refuses y ∧ y.init = some false then 1 else 0) else (if Refuses y then 1 else 0)) := by
  unfold bringUp
  cases hc : y.config with
  | none =>
    have hx : ¬ Refuses y := by rintro ⟨rv, h, _⟩; rw [hc] at h; cases h
    cases hi : y.init with
    | none => cases gen <;> simp [hx]
    | some ok => cases ok <;> cases gen <;> simp [hx]
  | some rv =>
    by_cases hv : rv < 0
    · have hx : Refuses y := ⟨rv, hc, hv⟩
      cases gen <;> simp [hx, hv]
    · have hx : ¬ Refuses y := by rintro ⟨rv', h, h'⟩; rw [hc] at h; cases h; exact hv h'
      cases hi : y.init with
      | none => cases gen <;> simp [hx, hv]
      | some ok => cases ok <;> cases gen <;> simp [hx, hv]

theorem loaded_mem (s : St) (gen : Bool) (name : Str) :
    loaded s gen name = true ↔ ∃ y, ((gen, name), y) ∈ s.reg := by
  unfold loaded
  rw [List.any_eq_true]
  constructor
  · rintro ⟨⟨⟨g, n⟩, y⟩, h, e⟩
    obtain ⟨rfl, rfl⟩ := Prod.mk.inj (of_decide_eq_true e)
    exact ⟨y, h⟩
  · rintro ⟨y, h⟩
    exact ⟨_, h, by simp⟩

/-- Counting never goes back, and registered modules stay. -/
theorem stanza_mono (b : Build) (ld : Linker) (dirs : Option Str) (s : St) (z : Stanza) :
    s.fails ≤ (stanza b ld dirs s z).fails ∧ ∀ e ∈ s.reg, e ∈ (stanza b ld dirs s z).reg := by
  rcases stanza_cases b ld dirs s z with ⟨_, h⟩ | ⟨_, _, k, _, _, _, _, h⟩ | ⟨name, _, _, y, _, _, _, _, _, _, h⟩
  · rw [h]; exact ⟨Nat.le_refl _, fun e he => he⟩
  · rw [h]; exact ⟨Nat.le_add_right _ _, fun e he => he⟩
  · rw [h]
    obtain ⟨h1, _, h3⟩ := bringUp_spec (added s z.gen name y) z.gen name y
    refine ⟨?_, fun e he => ?_⟩
    · rw [h3]; exact Nat.le_add_right _ _
    · rw [h1]; exact List.mem_append_left _ he

theorem fold_mono (b : Build) (ld : Linker) (dirs : Option Str) (zs : List Stanza) (s : St) :
    s.fails ≤ (zs.foldl (stanza b ld dirs) s).fails ∧ ∀ e ∈ s.reg, e ∈ (zs.foldl (stanza b ld dirs) s).reg := by
  induction zs generalizing s with
  | nil => exact ⟨Nat.le_refl _, fun e he => he⟩
  | cons z r ih =>
    obtain ⟨h1, h2⟩ := stanza_mono b ld dirs s z
    obtain ⟨h3, h4⟩ := ih (stanza b ld dirs s z)
    exact ⟨Nat.le_trans h1 h3, fun e he => h4 e (h2 e he)⟩

theorem fold_reported (b : Build) (ld : Linker) (dirs : Option Str) (zs : List Stanza) (s : St)
    (h0 : (zs.foldl (stanza b ld dirs) s).fails = 0) (z : Stanza) (hz : z ∈ zs) (name : Str)
    (hn : z.name = some name) (ho : z.off = false) :
    ∃ file im y, z.image = some file ∧ find b ld dirs file = some im ∧ Loadable im name y ∧
      ((z.gen, name), y) ∈ (zs.foldl (stanza b ld dirs) s).reg ∧
      (z.gen = true → Refuses y ∨ y.init ≠ some false) ∧ (z.gen = false → ¬ Refuses y) := by
  induction zs generalizing s with
  | nil => simp at hz
  | cons c r ih =>
    rcases List.mem_cons.mp hz with e | hr
    · subst e
      obtain ⟨m1, m2⟩ := fold_mono b ld dirs r (stanza b ld dirs s z)
      have hf : (stanza b ld dirs s z).fails = 0 := by
        have : (stanza b ld dirs s z).fails ≤ 0 := by rw [← h0]; exact m1
        omega
      rcases stanza_cases b ld dirs s z with ⟨h1, _⟩ | ⟨_, _, k, _, _, hk, _, h⟩ |
          ⟨name', file, im, y, hn', _, hi, hfd, hl, _, h⟩
      · rcases h1 with h1 | h1
        · rw [hn] at h1; cases h1
        · rw [ho] at h1; cases h1
      · rw [h] at hf
        simp only at hf
        omega
      · rw [hn] at hn'
        cases hn'
        obtain ⟨b1, _, b3⟩ := bringUp_spec (added s z.gen name y) z.gen name y
        rw [h] at hf
        rw [b3] at hf
        refine ⟨file, im, y, hi, hfd, hl, m2 _ ?_, fun hg => ?_, fun hg => ?_⟩
        · rw [h, b1]
          exact List.mem_append_right _ (List.mem_singleton.mpr rfl)
        · rw [hg] at hf
          by_contra hc
          push Not at hc
          rw [if_pos rfl, if_pos hc] at hf
          omega
        · rw [hg] at hf
          intro hr
          rw [if_neg (by simp), if_pos hr] at hf
          omega
    · exact ih (stanza b ld dirs s c) h0 hr

/-- **C152 (partial).** If `mtev_dso_load_failures` is 0 after the modules
were brought up, then every module that the configuration names and does
not switch off was found, is loaded, and agreed to be loaded; no
loader refused its configuration; and no generic module that accepted its
configuration failed to initialise.  Missing: generic modules
that refuse their configuration, loaders that fail to initialise and
stanzas without a name are not counted (`C152_config_violated`,
`C152_init_violated`, `C152_nameless_violated`). -/
theorem C152_reported_partial (b : Build) (ld : Linker) (dirs : Option Str) (zs : List Stanza)
    (h0 : (dsoInit b ld dirs St.start zs).fails = 0) (z : Stanza) (hz : z ∈ zs) (name : Str)
    (hn : z.name = some name) (ho : z.off = false) :
    ∃ file im y, z.image = some file ∧ find b ld dirs file = some im ∧ Loadable im name y ∧
      ((z.gen, name), y) ∈ (dsoInit b ld dirs St.start zs).reg ∧
      (z.gen = true → Refuses y ∨ y.init ≠ some false) ∧ (z.gen = false → ¬ Refuses y) := by
  refine fold_reported b ld dirs _ _ h0 z ?_ name hn ho
  rw [List.mem_append, List.mem_filter, List.mem_filter]
  cases hg : z.gen with
  | true => exact .inl ⟨hz, rfl⟩
  | false => exact .inr ⟨hz, rfl⟩

/-- A module that comes up without complaint. -/
def Good (b : Build) (ld : Linker) (dirs : Option Str) (z : Stanza) (name : Str) (y : Sym) : Prop :=
  z.name = some name ∧ z.off = false ∧
  (∃ file im, z.image = some file ∧ find b ld dirs file = some im ∧ Loadable im name y) ∧
  ¬ Refuses y ∧ y.init ≠ some false

/-- Stanza by stanza, the modules they name. -/
def AllGood (b : Build) (ld : Linker) (dirs : Option Str) : List Stanza → List (Str × Sym) → Prop
  | [], [] => True
  | z :: zs, m :: ms => Good b ld dirs z m.1 m.2 ∧ AllGood b ld dirs zs ms
  | _, _ => False

/-- The callbacks of all of them, in order. -/
def allCalls : List Stanza → List (Str × Sym) → List Ev
  | z :: zs, m :: ms => calls z.gen m.1 m.2 ++ allCalls zs ms
  | _, _ => []

theorem fold_good (b : Build) (ld : Linker) (dirs : Option Str) (zs : List Stanza) (ms : List (Str × Sym)) (s : St)
    (hg : AllGood b ld dirs zs ms)
    (hnew : ∀ z ∈ zs, ∀ name, z.name = some name → loaded s z.gen name = false)
    (hd : zs.Pairwise (fun z z' => ¬ (z.gen = z'.gen ∧ z.name = z'.name))) :
    (zs.foldl (stanza b ld dirs) s).fails = s.fails ∧
    (zs.foldl (stanza b ld dirs) s).evs = s.evs ++ allCalls zs ms := by
  induction zs generalizing ms s with
  | nil => cases ms <;> simp [allCalls]
  | cons z r ih =>
    cases ms with
    | nil => exact absurd hg (by simp [AllGood])
    | cons m ms =>
      obtain ⟨⟨hn, ho, ⟨file, im, hi, hf, hl⟩, hr, hini⟩, hg2⟩ := hg
      obtain ⟨hd1, hd2⟩ := List.pairwise_cons.mp hd
      have hst : stanza b ld dirs s z = bringUp (added s z.gen m.1 m.2) z.gen m.1 m.2 := by
        unfold stanza loadImage
        rw [hn]
        simp only [ho, Bool.false_eq_true, if_false, hi, hf]
        rw [loadSym_good s z.gen m.1 im m.2 hl (hnew z List.mem_cons_self m.1 hn)]
      obtain ⟨b1, b2, b3⟩ := bringUp_spec (added s z.gen m.1 m.2) z.gen m.1 m.2
      have hnew' : ∀ z' ∈ r, ∀ name, z'.name = some name → loaded (stanza b ld dirs s z) z'.gen name = false := by
        intro z' hz' name hn'
        cases hq : loaded (stanza b ld dirs s z) z'.gen name with
        | false => rfl
        | true =>
          obtain ⟨y, hy⟩ := (loaded_mem _ _ _).mp hq
          rw [hst, b1] at hy
          rcases List.mem_append.mp hy with h | h
          · have := (loaded_mem s z'.gen name).mpr ⟨y, h⟩
            rw [hnew z' (List.mem_cons_of_mem _ hz') name hn'] at this
            cases this
          · have h := List.mem_singleton.mp h
            obtain ⟨h1, h2⟩ := Prod.mk.inj (Prod.mk.inj h).1
            exact absurd ⟨h1.symm, by rw [hn, hn', h2]⟩ (hd1 z' hz')
      obtain ⟨i1, i2⟩ := ih ms (stanza b ld dirs s z) hg2 hnew' hd2
      refine ⟨?_, ?_⟩
      · show (r.foldl (stanza b ld dirs) (stanza b ld dirs s z)).fails = s.fails
        rw [i1, hst, b3]
        cases hgen : z.gen with
        | true => simp [added, hini]
        | false => simp [added, hr]
      · show (r.foldl (stanza b ld dirs) (stanza b ld dirs s z)).evs = s.evs ++ allCalls (z :: r) (m :: ms)
        rw [i2, hst, b2]
        simp only [added, onl, allCalls, calls, hr, not_false_eq_true, and_true, List.append_assoc]

/-- **C152.** If every configured module can be found and none refuses,
and no two of a kind have the same name, nothing is counted as a failure,
and the callbacks are called in this order: for the generic
modules, in the order of the file, and then for the loaders; for each of
them that it was loaded, its configuration, its initialisation. -/
theorem C152_order (b : Build) (ld : Linker) (dirs : Option Str) (gs ls : List Stanza)
    (mg ml : List (Str × Sym)) (zs : List Stanza)
    (hgs : zs.filter (fun z => z.gen) = gs) (hls : zs.filter (fun z => !z.gen) = ls)
    (hg : AllGood b ld dirs gs mg) (hl : AllGood b ld dirs ls ml)
    (hd : zs.Pairwise (fun z z' => ¬ (z.gen = z'.gen ∧ z.name = z'.name))) :
    (dsoInit b ld dirs St.start zs).fails = 0 ∧
    (dsoInit b ld dirs St.start zs).evs = allCalls gs mg ++ allCalls ls ml := by
  have hdg : gs.Pairwise (fun z z' => ¬ (z.gen = z'.gen ∧ z.name = z'.name)) := by
    rw [← hgs]; exact List.Pairwise.filter _ hd
  have hdl : ls.Pairwise (fun z z' => ¬ (z.gen = z'.gen ∧ z.name = z'.name)) := by
    rw [← hls]; exact List.Pairwise.filter _ hd
  have hd2 : (gs ++ ls).Pairwise (fun z z' => ¬ (z.gen = z'.gen ∧ z.name = z'.name)) := by
    rw [List.pairwise_append]
    refine ⟨hdg, hdl, fun a ha c hc => ?_⟩
    rw [← hgs, List.mem_filter] at ha
    rw [← hls, List.mem_filter] at hc
    rintro ⟨e, _⟩
    rw [← e, ha.2] at hc
    simp at hc
  have happ : ∀ (a : List Stanza) (ma : List (Str × Sym)) (c : List Stanza) (mc : List (Str × Sym)),
      AllGood b ld dirs a ma → AllGood b ld dirs c mc →
      AllGood b ld dirs (a ++ c) (ma ++ mc) ∧ allCalls (a ++ c) (ma ++ mc) = allCalls a ma ++ allCalls c mc := by
    intro a
    induction a with
    | nil =>
      intro ma c mc h1 h2
      cases ma with
      | nil => exact ⟨h2, rfl⟩
      | cons m ms => exact absurd h1 (by simp [AllGood])
    | cons z r ih =>
      intro ma c mc h1 h2
      cases ma with
      | nil => exact absurd h1 (by simp [AllGood])
      | cons m ms =>
        obtain ⟨i1, i2⟩ := ih ms c mc h1.2 h2
        refine ⟨⟨h1.1, i1⟩, ?_⟩
        show calls z.gen m.1 m.2 ++ allCalls (r ++ c) (ms ++ mc) = _
        rw [i2, ← List.append_assoc]
        rfl
  obtain ⟨a1, a2⟩ := happ gs mg ls ml hg hl
  have := fold_good b ld dirs (gs ++ ls) (mg ++ ml) St.start a1 (fun _ _ _ _ => rfl) hd2
  unfold dsoInit
  rw [hgs, hls]
  refine ⟨this.1, ?_⟩
  rw [this.2, a2]
  rfl

/-- How often an event is in a list. -/
def times (e : Ev) (l : List Ev) : Nat := (l.filter (fun x => decide (x = e))).length

theorem times_append (e : Ev) (a c : List Ev) : times e (a ++ c) = times e a + times e c := by
  simp [times]

theorem times_zero (e : Ev) (l : List Ev) (h : e ∉ l) : times e l = 0 := by
  unfold times
  rw [List.length_eq_zero_iff, List.filter_eq_nil_iff]
  intro x hx hc
  exact h (by rw [← of_decide_eq_true hc]; exact hx)

/-- The invariant: who is initialised is loaded, once, and did not
refuse. -/
structure Inv (s : St) : Prop where
  known : ∀ g n, (Ev.init g n ∈ s.evs ∨ Ev.config g n ∈ s.evs) → loaded s g n = true
  once : ∀ g n, times (.init g n) s.evs ≤ 1 ∧ times (.config g n) s.evs ≤ 1
  refused : ∀ g n y, ((g, n), y) ∈ s.reg → Refuses y → Ev.init g n ∉ s.evs

theorem inv_stanza (b : Build) (ld : Linker) (dirs : Option Str) (s : St) (z : Stanza) (h : Inv s) :
    Inv (stanza b ld dirs s z) := by
  rcases stanza_cases b ld dirs s z with ⟨_, e⟩ | ⟨name, pre, k, _, _, _, hp, e⟩ |
      ⟨name, _, _, y, _, _, _, _, _, hl, e⟩
  · rw [e]; exact h
  · rw [e]
    have hi : ∀ g n, Ev.init g n ∉ pre := fun g n hm => by have := hp _ hm; cases this
    have hc : ∀ g n, Ev.config g n ∉ pre := fun g n hm => by have := hp _ hm; cases this
    refine ⟨fun g n hm => ?_, fun g n => ?_, fun g n y' hy hr hm => ?_⟩
    · apply h.known g n
      rcases hm with hm | hm
      · rcases List.mem_append.mp hm with hm | hm
        · exact .inl hm
        · exact absurd hm (hi g n)
      · rcases List.mem_append.mp hm with hm | hm
        · exact .inr hm
        · exact absurd hm (hc g n)
    · show times _ (s.evs ++ pre) ≤ 1 ∧ times _ (s.evs ++ pre) ≤ 1
      rw [times_append, times_append, times_zero _ pre (hi g n), times_zero _ pre (hc g n)]
      exact h.once g n
    · rcases List.mem_append.mp hm with hm | hm
      · exact h.refused g n y' hy hr hm
      · exact absurd hm (hi g n)
  · obtain ⟨b1, b2, _⟩ := bringUp_spec (added s z.gen name y) z.gen name y
    have hev : (stanza b ld dirs s z).evs = s.evs ++ (onl z.gen name y ++
        ((if y.config.isSome then [.config z.gen name] else []) ++
        (if y.init.isSome ∧ ¬ Refuses y then [.init z.gen name] else []))) := by
      rw [e, b2]; simp only [added, List.append_assoc]
    have hreg : (stanza b ld dirs s z).reg = s.reg ++ [((z.gen, name), y)] := by rw [e, b1]; rfl
    have hnl : ∀ g n, (g, n) ≠ (z.gen, name) → Ev.init g n ∉ (onl z.gen name y ++
        ((if y.config.isSome then [.config z.gen name] else []) ++
        (if y.init.isSome ∧ ¬ Refuses y then [.init z.gen name] else []))) ∧
        Ev.config g n ∉ (onl z.gen name y ++
        ((if y.config.isSome then [.config z.gen name] else []) ++
        (if y.init.isSome ∧ ¬ Refuses y then [.init z.gen name] else []))) := by
      intro g n hne
      have hne' : ¬ (g = z.gen ∧ n = name) := fun ⟨a, c⟩ => hne (by rw [a, c])
      unfold onl
      constructor
      · intro hm
        rcases List.mem_append.mp hm with hm | hm
        · split at hm
          · simp at hm
          · simp at hm
        · rcases List.mem_append.mp hm with hm | hm
          · split at hm <;> simp at hm
          · split at hm
            · rw [List.mem_singleton] at hm
              cases hm
              exact hne' ⟨rfl, rfl⟩
            · simp at hm
      · intro hm
        rcases List.mem_append.mp hm with hm | hm
        · split at hm <;> simp at hm
        · rcases List.mem_append.mp hm with hm | hm
          · split at hm
            · rw [List.mem_singleton] at hm
              cases hm
              exact hne' ⟨rfl, rfl⟩
            · simp at hm
          · split at hm <;> simp at hm
    have hold : Ev.init z.gen name ∉ s.evs ∧ Ev.config z.gen name ∉ s.evs := by
      constructor
      · intro hm
        have := h.known _ _ (.inl hm)
        rw [hl] at this; cases this
      · intro hm
        have := h.known _ _ (.inr hm)
        rw [hl] at this; cases this
    refine ⟨fun g n hm => ?_, fun g n => ?_, fun g n y' hy hr hm => ?_⟩
    · rw [loaded_mem, hreg]
      by_cases hne : (g, n) = (z.gen, name)
      · exact ⟨y, List.mem_append_right _ (by rw [hne]; exact List.mem_singleton.mpr rfl)⟩
      · have hs : Ev.init g n ∈ s.evs ∨ Ev.config g n ∈ s.evs := by
          rw [hev] at hm
          rcases hm with hm | hm
          · rcases List.mem_append.mp hm with hm | hm
            · exact .inl hm
            · exact absurd hm (hnl g n hne).1
          · rcases List.mem_append.mp hm with hm | hm
            · exact .inr hm
            · exact absurd hm (hnl g n hne).2
        obtain ⟨y0, hy0⟩ := (loaded_mem _ _ _).mp (h.known g n hs)
        exact ⟨y0, List.mem_append_left _ hy0⟩
    · by_cases hne : (g, n) = (z.gen, name)
      · obtain ⟨rfl, rfl⟩ := Prod.mk.inj hne
        constructor
        · rw [hev, times_append, times_zero _ s.evs hold.1]
          unfold onl times
          by_cases h1 : y.onload.isSome = true <;> by_cases h2 : y.config.isSome = true <;>
            by_cases h3 : y.init.isSome = true ∧ ¬ Refuses y <;> simp [h1, h2, h3]
        · rw [hev, times_append, times_zero _ s.evs hold.2]
          unfold onl times
          by_cases h1 : y.onload.isSome = true <;> by_cases h2 : y.config.isSome = true <;>
            by_cases h3 : y.init.isSome = true ∧ ¬ Refuses y <;> simp [h1, h2, h3]
      · constructor
        · rw [hev, times_append, times_zero _ _ (hnl g n hne).1]
          exact (h.once g n).1
        · rw [hev, times_append, times_zero _ _ (hnl g n hne).2]
          exact (h.once g n).2
    · rw [hreg] at hy
      rw [hev] at hm
      rcases List.mem_append.mp hy with hy2 | hy2
      · have hne : (g, n) ≠ (z.gen, name) := by
          intro e'
          obtain ⟨rfl, rfl⟩ := Prod.mk.inj e'
          have := (loaded_mem s z.gen _).mpr ⟨y', hy2⟩
          rw [hl] at this; cases this
        rcases List.mem_append.mp hm with hm | hm
        · exact h.refused g n y' hy2 hr hm
        · exact (hnl g n hne).1 hm
      · have hy := List.mem_singleton.mp hy2
        obtain ⟨e1, e2⟩ := Prod.mk.inj hy
        obtain ⟨rfl, rfl⟩ := Prod.mk.inj e1
        subst e2
        rcases List.mem_append.mp hm with hm | hm
        · exact hold.1 hm
        · unfold onl at hm
          rcases List.mem_append.mp hm with hm | hm
          · split at hm <;> simp at hm
          · rcases List.mem_append.mp hm with hm | hm
            · split at hm <;> simp at hm
            · simp [hr] at hm

/-- **C152.** Whatever the configuration and the modules, also with names
that occur more than once: a module is configured and initialised at most
once, only when it is loaded, and one that refused its configuration
is never initialised. -/
theorem C152_once (b : Build) (ld : Linker) (dirs : Option Str) (zs : List Stanza) (g : Bool) (n : Str) :
    times (.init g n) (dsoInit b ld dirs St.start zs).evs ≤ 1 ∧
    times (.config g n) (dsoInit b ld dirs St.start zs).evs ≤ 1 ∧
    (.init g n ∈ (dsoInit b ld dirs St.start zs).evs →
      ∃ y, ((g, n), y) ∈ (dsoInit b ld dirs St.start zs).reg ∧ ¬ Refuses y) := by
  have key : ∀ (l : List Stanza) (s : St), Inv s → Inv (l.foldl (stanza b ld dirs) s) := by
    intro l
    induction l with
    | nil => intro s h; exact h
    | cons z r ih => intro s h; exact ih _ (inv_stanza b ld dirs s z h)
  have hI : Inv (dsoInit b ld dirs St.start zs) := by
    apply key
    exact ⟨fun g n hm => (by rcases hm with hm | hm <;> cases hm), fun g n => ⟨Nat.zero_le _, Nat.zero_le _⟩,
      fun g n y hy => by cases hy⟩
  refine ⟨(hI.once g n).1, (hI.once g n).2, fun hm => ?_⟩
  obtain ⟨y, hy⟩ := (loaded_mem _ _ _).mp (hI.known g n (.inl hm))
  exact ⟨y, hy, fun hr => hI.refused g n y hy hr hm⟩

/-! Examples: two modules in one image, in a directory `/m`. -/

def exBuild : Build := ⟨bytesOf "/usr/mtev", bytesOf "so"⟩
def exSyms (a c : Sym) : Image := fun n => if n = bytesOf "a" then some a else if n = bytesOf "c" then some c else none
def exLd (a c : Sym) : Linker := fun p => if p = bytesOf "/m/x.so" then some (exSyms a c) else none
def exStanzas : List Stanza :=
  [⟨false, some (bytesOf "c"), some (bytesOf "x"), false⟩, ⟨true, some (bytesOf "lib:a"), some (bytesOf "x"), false⟩]
def ok : Sym := ⟨true, some true, some 0, some true⟩

example : (dsoInit exBuild (exLd ok ok) (some (bytesOf "/n;/m")) St.start exStanzas).evs =
    [.onload true (bytesOf "lib:a"), .config true (bytesOf "lib:a"), .init true (bytesOf "lib:a"),
      .onload false (bytesOf "c"), .config false (bytesOf "c"), .init false (bytesOf "c")] ∧
    (dsoInit exBuild (exLd ok ok) (some (bytesOf "/n;/m")) St.start exStanzas).fails = 0 := by decide +kernel

theorem fold_off (b : Build) (ld : Linker) (dirs : Option Str) (l : List Stanza) (s : St) :
    l.foldl (stanza b ld dirs) s = (l.filter (fun z => !z.off)).foldl (stanza b ld dirs) s := by
  induction l generalizing s with
  | nil => rfl
  | cons z r ih =>
    cases ho : z.off with
    | false =>
      rw [List.filter_cons_of_pos (by simp [ho])]
      exact ih _
    | true =>
      rw [List.filter_cons_of_neg (by simp [ho]), ← ih]
      have : stanza b ld dirs s z = s := by
        unfold stanza
        cases z.name with
        | none => rfl
        | some n => simp [ho]
      show r.foldl (stanza b ld dirs) (stanza b ld dirs s z) = _
      rw [this]

/-- **C152.** Modules that the environment switches off are as if they were
not configured. -/
theorem C152_off (b : Build) (ld : Linker) (dirs : Option Str) (s : St) (zs : List Stanza) :
    dsoInit b ld dirs s zs = dsoInit b ld dirs s (zs.filter (fun z => !z.off)) := by
  unfold dsoInit
  rw [List.foldl_append, List.foldl_append, fold_off b ld dirs (zs.filter (fun z => z.gen)),
    fold_off b ld dirs (zs.filter (fun z => !z.gen)), List.filter_filter, List.filter_filter,
    List.filter_filter, List.filter_filter]
  simp only [Bool.and_comm]

example : (dsoInit exBuild (exLd ok ok) (some (bytesOf "/m")) St.start
    (exStanzas.map (fun z => { z with off := true }))).evs = [] := by decide +kernel

/-- **C152 is false of the code:** a generic module that refuses its
configuration, and so is not initialised, is not counted as a failure, and
the table of its settings is lost. -/
theorem C152_config_violated :
    ∃ (ld : Linker) (zs : List Stanza),
      .config true (bytesOf "lib:a") ∈ (dsoInit exBuild ld (some (bytesOf "/m")) St.start zs).evs ∧
      .init true (bytesOf "lib:a") ∉ (dsoInit exBuild ld (some (bytesOf "/m")) St.start zs).evs ∧
      (dsoInit exBuild ld (some (bytesOf "/m")) St.start zs).fails = 0 ∧
      (dsoInit exBuild ld (some (bytesOf "/m")) St.start zs).leaks = 1 :=
  ⟨exLd ⟨true, none, some (-1), some true⟩ ok, exStanzas, by decide +kernel, by decide +kernel, by decide +kernel,
    by decide +kernel⟩

/-- **C152 is false of the code:** a loader whose initialisation fails is
not counted. -/
theorem C152_init_violated :
    ∃ (ld : Linker) (zs : List Stanza) (y : Sym), y.init = some false ∧
      ((false, bytesOf "c"), y) ∈ (dsoInit exBuild ld (some (bytesOf "/m")) St.start zs).reg ∧
      .init false (bytesOf "c") ∈ (dsoInit exBuild ld (some (bytesOf "/m")) St.start zs).evs ∧
      (dsoInit exBuild ld (some (bytesOf "/m")) St.start zs).fails = 0 :=
  ⟨exLd ok ⟨true, none, none, some false⟩, exStanzas, ⟨true, none, none, some false⟩, rfl, by decide +kernel,
    by decide +kernel, by decide +kernel⟩

/-- **C152 is false of the code:** a stanza without a name is passed over
and not counted. -/
theorem C152_nameless_violated (b : Build) (ld : Linker) (dirs : Option Str) (gen : Bool) (image : Option Str) :
    (dsoInit b ld dirs St.start [⟨gen, none, image, false⟩]).fails = 0 ∧
    (dsoInit b ld dirs St.start [⟨gen, none, image, false⟩]).reg = [] := by
  cases gen <;> exact ⟨rfl, rfl⟩

/-- **C152 is false of the code:** a loader that cannot be loaded counts as
two failures. -/
theorem C152_twice_violated (b : Build) (dirs : Option Str) (name file : Str) :
    (dsoInit b (fun _ => none) dirs St.start [⟨false, some name, some file, false⟩]).fails = 2 := by
  have hfo : ∀ l : List Str, firstOpen (fun _ => none) l = none := by
    intro l
    induction l with
    | nil => rfl
    | cons p r ih => exact ih
  have hf : find b (fun _ => none) dirs file = none := by
    unfold find
    split
    · rfl
    · rw [hfo]
  show (stanza b (fun _ => none) dirs St.start ⟨false, some name, some file, false⟩).fails = 2
  unfold stanza loadImage
  simp only [hf]
  rfl

/-- **C152 is false of the code:** when a name is configured twice the
module is told a second time that it was loaded, though it is refused. -/
theorem C152_onload_violated :
    ∃ zs : List Stanza,
      times (.onload true (bytesOf "lib:a")) (dsoInit exBuild (exLd ok ok) (some (bytesOf "/m")) St.start zs).evs = 2 ∧
      (dsoInit exBuild (exLd ok ok) (some (bytesOf "/m")) St.start zs).reg.length = 1 :=
  ⟨[⟨true, some (bytesOf "lib:a"), some (bytesOf "x"), false⟩, ⟨true, some (bytesOf "lib:a"), some (bytesOf "x"), false⟩],
    by decide +kernel, by decide +kernel⟩

/-! C153: finding the image. -/

/-- A directory: not empty and without the characters that separate
directories. -/
def Dir (d : Str) : Prop := d ≠ [] ∧ 58 ∉ d ∧ 59 ∉ d

/-- A list of directories as written in the configuration. -/
def join : List Str → Str
  | [] => []
  | [d] => d
  | d :: r => d ++ 58 :: join r

theorem tokens_dir (d s acc : Str) (h : 58 ∉ d ∧ 59 ∉ d) :
    tokens (d ++ s) acc = tokens s (d.reverse ++ acc) := by
  induction d generalizing acc with
  | nil => rfl
  | cons c r ih =>
    have h1 : ¬ (c = 59 ∨ c = 58) := by
      rintro (e | e)
      · exact h.2 (by rw [e]; exact List.mem_cons_self)
      · exact h.1 (by rw [e]; exact List.mem_cons_self)
    show tokens (c :: (r ++ s)) acc = _
    rw [tokens, if_neg h1, ih _ ⟨fun e => h.1 (List.mem_cons_of_mem _ e), fun e => h.2 (List.mem_cons_of_mem _ e)⟩]
    simp

theorem tokens_join (ds : List Str) (h : ∀ d ∈ ds, Dir d) : tokens (join ds) [] = ds := by
  induction ds with
  | nil => rfl
  | cons d r ih =>
    obtain ⟨h1, h2⟩ := h d List.mem_cons_self
    have ih' := ih (fun x hx => h x (List.mem_cons_of_mem _ hx))
    cases r with
    | nil =>
      show tokens d [] = [d]
      have := tokens_dir d [] [] h2
      rw [List.append_nil, List.append_nil] at this
      rw [this]
      unfold tokens
      rw [if_neg (by simpa using h1), List.reverse_reverse]
    | cons d' r' =>
      show tokens (d ++ 58 :: join (d' :: r')) [] = d :: d' :: r'
      rw [tokens_dir d _ [] h2, List.append_nil]
      unfold tokens
      rw [if_pos (.inr rfl), if_neg (by simpa using h1), List.reverse_reverse, ih']

/-- The file of a module in a directory. -/
def fileIn (b : Build) (d file : Str) : Str := d ++ bytesOf "/" ++ file ++ bytesOf "." ++ b.ext

theorem pathIn_file (b : Build) (d file : Str) (h : (fileIn b d file).length < 4096) :
    pathIn b d file = fileIn b d file := by
  have e : fileIn b d file = d ++ 47 :: (file ++ 46 :: b.ext) := by
    have e1 : bytesOf "/" = [47] := by decide +kernel
    have e2 : bytesOf "." = [46] := by decide +kernel
    simp [fileIn, e1, e2]
  unfold pathIn
  rw [← e]
  exact List.take_of_length_le (by omega)

theorem firstOpen_spec (ld : Linker) (l : List Str) :
    (firstOpen ld l = none ∧ ∀ p ∈ l, ld p = none) ∨
    (∃ pre p post im, l = pre ++ p :: post ∧ (∀ q ∈ pre, ld q = none) ∧ ld p = some im ∧ firstOpen ld l = some im) := by
  induction l with
  | nil => exact .inl ⟨rfl, by simp⟩
  | cons p r ih =>
    unfold firstOpen
    cases hp : ld p with
    | some im => exact .inr ⟨[], p, r, im, rfl, by simp, hp, rfl⟩
    | none =>
      rcases ih with ⟨h1, h2⟩ | ⟨pre, q, post, im, h1, h2, h3, h4⟩
      · refine .inl ⟨h1, fun x hx => ?_⟩
        rcases List.mem_cons.mp hx with e | e
        · rw [e]; exact hp
        · exact h2 x e
      · refine .inr ⟨p :: pre, q, post, im, by rw [h1]; rfl, fun x hx => ?_, h3, h4⟩
        rcases List.mem_cons.mp hx with e | e
        · rw [e]; exact hp
        · exact h2 x e

/-- **C153 (partial).** The image of a module with a relative file name is
the first that can be opened along the configured directories and then the
directory of the build, for any directories and paths up to 4095 bytes.
Missing: longer paths (`C153_long_violated`). -/
theorem C153_first_partial (b : Build) (ld : Linker) (ds : List Str) (file : Str) (hrel : file.head? ≠ some 47)
    (hds : ∀ d ∈ ds, Dir d) (hlen : ∀ d ∈ ds ++ [b.dir], (fileIn b d file).length < 4096) :
    (find b ld (some (join ds)) file = none ∧ ∀ d ∈ ds ++ [b.dir], ld (fileIn b d file) = none) ∨
    (∃ pre d post im, ds ++ [b.dir] = pre ++ d :: post ∧ (∀ q ∈ pre, ld (fileIn b q file) = none) ∧
      ld (fileIn b d file) = some im ∧ find b ld (some (join ds)) file = some im) := by
  have hlist : (tokens ((some (join ds)).getD b.dir) []).map (fun base => pathIn b base file) =
      ds.map (fun d => fileIn b d file) := by
    show (tokens (join ds) []).map _ = _
    rw [tokens_join ds hds]
    exact List.map_congr_left (fun d hd => pathIn_file b d file (hlen d (List.mem_append_left _ hd)))
  have hfind : find b ld (some (join ds)) file = firstOpen ld ((ds ++ [b.dir]).map (fun d => fileIn b d file)) := by
    have hfa : ∀ (l : List Str) (q : Str), firstOpen ld (l ++ [q]) =
        match firstOpen ld l with | some i => some i | none => ld q := by
      intro l q
      induction l with
      | nil =>
        show firstOpen ld [q] = ld q
        unfold firstOpen
        cases ld q <;> rfl
      | cons p r ih =>
        show firstOpen ld (p :: (r ++ [q])) = _
        unfold firstOpen
        cases ld p with
        | some i => rfl
        | none => exact ih
    unfold find
    rw [if_neg hrel, hlist, List.map_append, List.map_cons, List.map_nil, hfa,
      pathIn_file b b.dir file (hlen b.dir (by simp))]
    cases firstOpen ld (ds.map (fun d => fileIn b d file)) <;> rfl
  rw [hfind]
  rcases firstOpen_spec ld ((ds ++ [b.dir]).map (fun d => fileIn b d file)) with ⟨h1, h2⟩ | ⟨pre, p, post, im, h1, h2, h3, h4⟩
  · exact .inl ⟨h1, fun d hd => h2 _ (List.mem_map.mpr ⟨d, hd, rfl⟩)⟩
  · right
    obtain ⟨l1, l2, e1, e2, e3⟩ := List.map_eq_append_iff.mp h1
    obtain ⟨d, l3, e4, e5, e6⟩ := List.map_eq_cons_iff.mp e3
    refine ⟨l1, d, l3, im, by rw [e1, e4], fun q hq => h2 _ ?_, by rw [e5]; exact h3, h4⟩
    rw [← e2]
    exact List.mem_map.mpr ⟨q, hq, rfl⟩

example : find exBuild (fun p => if p = bytesOf "/b/x.so" ∨ p = bytesOf "/c/x.so" then
      some (fun n => if n = p then some ok else none) else none) (some (bytesOf "/a:/b:/c")) (bytesOf "x") ≠ none ∧
    (∀ d ∈ [bytesOf "/a", bytesOf "/b", bytesOf "/c"], Dir d) ∧
    join [bytesOf "/a", bytesOf "/b", bytesOf "/c"] = bytesOf "/a:/b:/c" := by
  refine ⟨by
    have : ∀ o : Option Image, o.isSome = true → o ≠ none := by intro o h e; rw [e] at h; cases h
    exact this _ (by decide +kernel), by unfold Dir; decide +kernel, by decide +kernel⟩

/-- **C153.** An absolute file name is used as it is, whatever the
directories (up to 4095 bytes). -/
theorem C153_absolute (b : Build) (ld : Linker) (dirs : Option Str) (r : Str) (h : r.length < 4095) :
    find b ld dirs (47 :: r) = ld (47 :: r) := by
  unfold find
  rw [if_pos (show (47 :: r : Str).head? = some 47 from rfl), List.take_of_length_le]
  simp only [List.length_cons]
  omega

/-- **C153 is false of the code:** an absolute name of 4096 bytes or more
opens another file, one whose name is the first 4095 bytes. -/
theorem C153_long_violated (b : Build) (dirs : Option Str) (r : Str) (h : 4095 ≤ r.length) :
    ∃ ld : Linker, ld (47 :: r) = none ∧ find b ld dirs (47 :: r) ≠ none := by
  have hne : (47 :: r : Str).take 4095 ≠ 47 :: r := by
    intro e
    have := congrArg List.length e
    rw [List.length_take, List.length_cons] at this
    omega
  refine ⟨fun p => if p = (47 :: r : Str).take 4095 then some (fun _ => none) else none, ?_, ?_⟩
  · show (if (47 :: r : Str) = (47 :: r : Str).take 4095 then _ else none) = none
    rw [if_neg (fun e => hne e.symm)]
  · unfold find
    rw [if_pos (show (47 :: r : Str).head? = some 47 from rfl)]
    show (if (47 :: r : Str).take 4095 = (47 :: r : Str).take 4095 then _ else none) ≠ none
    rw [if_pos rfl]
    simp

/-- **C153.** The module is the symbol named by what follows the last colon
of its name, or by the whole name. -/
theorem C153_symbol (pre n : Str) (h : 58 ∉ n) : symName (pre ++ 58 :: n) = n ∧ symName n = n := by
  have hall : ∀ c ∈ n.reverse, decide (c ≠ 58) = true := by
    intro c hc
    rw [List.mem_reverse] at hc
    simp only [decide_eq_true_eq]
    intro e
    exact h (by rw [← e]; exact hc)
  constructor
  · unfold symName
    rw [if_pos (by simp)]
    rw [List.reverse_append, List.reverse_cons, List.append_assoc]
    rw [List.takeWhile_append_of_pos hall]
    simp
  · unfold symName
    rw [if_neg (by simpa using h)]

example : symName (bytesOf "lua:general") = bytesOf "general" ∧ symName (bytesOf "a:b:c") = bytesOf "c" := by decide +kernel

end Mtev.Dso
