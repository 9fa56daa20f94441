import Verif.LogAsync

/-!
# C89: lines logged to an asynchronous file

Every line logged is written once, and the lines of one thread in the order
in which it logged them.
-/

namespace Mtev.LogAsync

/-- what one thread logged or what the file has of it -/
def of (t : Nat) (l : List Rec) : List (List Nat) := (l.filter (fun x => x.1 == t)).map (·.2)

/-- records not in the file yet, wherever they are -/
def underway (s : S) : List Rec :=
  s.q ++ s.loggers.flatMap handsL ++ s.writers.flatMap handsW ++ handsA s.admin

/-- nothing is left to be written and nobody is in the middle of a call -/
def quiet (s : S) : Prop := underway s = []

/-- **C89 (once).** Whatever threads log, however often the mode is changed and
the file reopened, and however their steps interleave: as long as every write is
complete, each record logged is either in the file or underway, and never twice:
the two together are a permutation of what was logged.

Partial: no access to freed memory has happened before (`run` stops there, see
`C89_race_violated`) and writes are complete (`C89_short_write_violated`,
`C89_full_disk_violated`). -/
theorem C89_once_partial (b : Bool) (n : Nat) (ls : List Label) (h : ∀ l ∈ ls, Full l) :
    ((run ls (init b n)).out ++ underway (run ls (init b n))).Perm (run ls (init b n)).given := by
  have hk : Kept (run ls (init b n)) := run_inv (fun _ _ hl => step_kept hl) ls _ h (init_kept b n)
  rw [List.perm_iff_count]
  intro z
  have := hk z
  simp only [underway, List.count_append]
  omega

/-- **C89 (asynchronous mode).** In asynchronous mode, with any number of
threads logging, any number of writers started by further requests for
asynchronous mode and reopens, and any interleaving: no freed memory is touched,
and the file holds of each thread's lines exactly the first ones, in the order
logged; once nothing is underway it holds all of them.

Partial: the mode was chosen before the first line was logged and stays
(`C89_order_violated`, `C89_race_violated`), and writes are complete. -/
theorem C89_asynch_partial (n : Nat) (ls : List Label) (h : ∀ l ∈ ls, Full l ∧ l ≠ .goSynch) :
    (run ls (init true n)).ub = false ∧ (run ls (init true n)).crashed = false ∧
    (∀ t, of t (run ls (init true n)).out <+: of t (run ls (init true n)).given) ∧
    (quiet (run ls (init true n)) →
      ∀ t, of t (run ls (init true n)).out = of t (run ls (init true n)).given) := by
  have hi : InvA (run ls (init true n)) := run_inv stepA_inv ls _ h (init_A n)
  have hcr : (run ls (init true n)).crashed = false := by
    refine run_inv (P := fun s => s.crashed = false ∧ InvA s) (ok := StaysA) ?_ ls _ h ⟨rfl, init_A n⟩ |>.1
    intro s l hl ⟨hc, hA⟩
    refine ⟨?_, stepA_inv s l hl hA⟩
    cases l with
    | call t x => simp only [step]; split <;> simpa [setL] using hc
    | lg t r =>
      have hr : r = .full := hl.1
      subst hr
      simp only [step, stepL]
      split <;> (try split) <;> (try split) <;> simp [setL, emit, taken, hc]
    | wr i r =>
      have hr : r = .full := hl.1
      subst hr
      simp only [step, stepW]
      split
      · exact hc
      · split <;> (try split) <;> (try split) <;> simp [setW, emit, taken, hc]
    | ad r =>
      have hr : r = .full := hl.1
      subst hr
      simp only [step, stepA]
      split <;> (try split) <;> (try split) <;> simp [emit, taken, hc]
    | goAsynch => simp only [step]; split <;> simpa using hc
    | goSynch => exact absurd rfl hl.2
    | reopen => simp only [step]; split <;> (try split) <;> simpa using hc
  refine ⟨hi.ub, hcr, ?_, ?_⟩
  · intro t
    have h1 := hi.per t
    have h2 := hi.order
    unfold of
    refine List.IsPrefix.map _ ?_
    have h1' : mine t (run ls (init true n)).pushed ++ pend (run ls (init true n)) t
        = (run ls (init true n)).given.filter (fun x => x.1 == t) := h1
    rw [← h1', ← h2, mine_append, mine_append]
    exact ⟨_, by rw [List.append_assoc, List.append_assoc]; rfl⟩
  · intro hq t
    have h1 := hi.per t
    have h2 := hi.order
    unfold quiet underway at hq
    simp only [List.append_eq_nil_iff, List.flatMap_eq_nil_iff] at hq
    obtain ⟨⟨⟨q1, q2⟩, q3⟩, _⟩ := hq
    have hp : pend (run ls (init true n)) t = [] := by
      unfold pend
      split
      · rename_i p hp; exact q2 p (List.mem_iff_getElem?.2 ⟨t, hp⟩)
      · rfl
    have hh : held (run ls (init true n)) = [] := by
      unfold held
      split
      · rfl
      · split
        · rfl
        · rename_i w hw; exact q3 w (List.mem_iff_getElem?.2 ⟨_, hw⟩)
    rw [hh, q1, List.append_nil, List.append_nil] at h2
    rw [hp, List.append_nil] at h1
    unfold of
    rw [h2]
    exact congrArg _ h1

/-- **C89 (synchronous mode).** A file that has never been made asynchronous
holds of each thread's lines all that it has logged, in order, but for the one
it is logging.  Partial: writes are complete. -/
theorem C89_synch_partial (n : Nat) (ls : List Label) (h : ∀ l ∈ ls, Full l ∧ l ≠ .goAsynch) :
    (run ls (init false n)).ub = false ∧
    ∀ t, (∃ x, of t (run ls (init false n)).given = of t (run ls (init false n)).out ++ x ∧ x.length ≤ 1) ∧
      ((run ls (init false n)).loggers[t]? = some .idle →
        of t (run ls (init false n)).out = of t (run ls (init false n)).given) := by
  have hi : InvS (run ls (init false n)) := run_inv stepS_inv ls _ h (init_S n)
  refine ⟨hi.ub, fun t => ⟨?_, ?_⟩⟩
  · have h1 : mine t (run ls (init false n)).out ++ pend (run ls (init false n)) t
        = (run ls (init false n)).given.filter (fun x => x.1 == t) := hi.per t
    refine ⟨(pend (run ls (init false n)) t).map (·.2), ?_, ?_⟩
    · unfold of
      rw [← h1, List.map_append]
      rfl
    · rw [List.length_map]
      unfold pend
      split
      · rename_i p hp
        have := hi.writes t p hp
        cases p <;> simp_all [Writes, handsL]
      · simp
  · intro hl
    have h1 : mine t (run ls (init false n)).out ++ pend (run ls (init false n)) t
        = (run ls (init false n)).given.filter (fun x => x.1 == t) := hi.per t
    have hp : pend (run ls (init false n)) t = [] := by simp [pend, hl, handsL]
    rw [hp, List.append_nil] at h1
    unfold of
    exact congrArg _ h1

/-! ## one writer -/

/-- has taken its number -/
def Started : WPc → Prop
  | .fresh => False
  | _ => True

structure InvG (s : S) : Prop where
  le : ∀ (i : Nat) w, s.writers[i]? = some w → Started w.pc → w.gen ≤ s.gen
  distinct : ∀ (i j : Nat) v w, i ≠ j → s.writers[i]? = some v → s.writers[j]? = some w →
    Started v.pc → Started w.pc → v.gen ≠ w.gen
  over : ∀ (i : Nat) w, s.writers[i]? = some w → w.pc = .done → w.gen < s.gen
  someone : s.admin = .create ∨ s.writers = [] ∨
    (∃ (i : Nat) (w : W), s.writers[i]? = some w ∧ w.pc = .fresh) ∨
    (∃ (i : Nat) (w : W), s.writers[i]? = some w ∧ Started w.pc ∧ w.gen = s.gen)

theorem spoilW_gen (b w) : (spoilW b w).gen = w.gen := by
  obtain ⟨g, pc⟩ := w
  cases pc <;> rfl

theorem spoilW_started (b w) : Started (spoilW b w).pc ↔ Started w.pc := by
  obtain ⟨g, pc⟩ := w
  cases pc <;> try exact Iff.rfl
  simp only [spoilW]
  by_cases h1 : b = true
  · simp [h1, Started]
  · rename_i n st
    by_cases h2 : st = true <;> simp [h1, h2, Started]

theorem spoilW_done {b w} : (spoilW b w).pc = .done ↔ w.pc = .done := by
  obtain ⟨g, pc⟩ := w
  cases pc <;> simp only [spoilW, reduceCtorEq]
  split
  · simp
  · split <;> simp

theorem spoilW_fresh {b w} : (spoilW b w).pc = .fresh ↔ w.pc = .fresh := by
  obtain ⟨g, pc⟩ := w
  cases pc <;> simp only [spoilW, reduceCtorEq]
  split
  · simp
  · split <;> simp

/-- the writers' numbers are as before -/
def Alike (a b : List W) : Prop :=
  ∀ i : Nat, (a[i]? = none ∧ b[i]? = none) ∨ ∃ v w, a[i]? = some v ∧ b[i]? = some w ∧
    v.gen = w.gen ∧ (Started v.pc ↔ Started w.pc) ∧ (v.pc = .done → w.pc = .done) ∧
    (v.pc = .fresh ↔ w.pc = .fresh)

theorem alike_map (b : Bool) (l : List W) : Alike (l.map (spoilW b)) l := by
  intro i
  rw [List.getElem?_map]
  cases h : l[i]? with
  | none => exact .inl ⟨rfl, rfl⟩
  | some w => exact .inr ⟨_, w, rfl, rfl, spoilW_gen b w, spoilW_started b w, spoilW_done.1,
      spoilW_fresh⟩

theorem alike_refl (l : List W) : Alike l l := by
  intro i
  cases h : l[i]? with
  | none => exact .inl ⟨rfl, rfl⟩
  | some w => exact .inr ⟨w, w, rfl, rfl, rfl, Iff.rfl, id, Iff.rfl⟩

theorem alike_set {a l : List W} (ha : Alike a l) {i : Nat} {w w' : W} (hw : l[i]? = some w)
    (hg : w'.gen = w.gen) (hs : Started w'.pc ↔ Started w.pc) (hd : w'.pc ≠ .done)
    (hf : w'.pc = .fresh ↔ w.pc = .fresh) : Alike (a.set i w') l := by
  intro j
  by_cases hj : j = i
  · subst hj
    right
    rcases ha j with ⟨h1, h2⟩ | ⟨v, u, h1, h2, _⟩
    · rw [h2] at hw; cases hw
    · rw [h2] at hw
      cases hw
      exact ⟨w', w, set_get h1, h2, hg, hs, fun h => absurd h hd, hf⟩
  · rw [List.getElem?_set_ne (fun h => hj h.symm)]
    exact ha j

theorem InvG.alike {s s' : S} (h : InvG s) (ha : Alike s'.writers s.writers) (hg : s'.gen = s.gen)
    (hc : s.admin = .create → s'.admin = .create) : InvG s' := by
  have back : ∀ (i : Nat) v, s'.writers[i]? = some v → ∃ w, s.writers[i]? = some w ∧ v.gen = w.gen ∧
      (Started v.pc ↔ Started w.pc) ∧ (v.pc = .done → w.pc = .done) := by
    intro i v hv
    rcases ha i with ⟨h1, _⟩ | ⟨v', w, h1, h2, h3, h4, h5, _⟩
    · rw [h1] at hv; cases hv
    · rw [h1] at hv; cases hv
      exact ⟨w, h2, h3, h4, h5⟩
  refine ⟨?_, ?_, ?_, ?_⟩
  · intro i v hv hs
    obtain ⟨w, h1, h2, h3, _⟩ := back i v hv
    rw [h2, hg]; exact h.le i w h1 (h3.1 hs)
  · intro i j v u hij hv hu s1 s2
    obtain ⟨w, h1, h2, h3, _⟩ := back i v hv
    obtain ⟨w2, i1, i2, i3, _⟩ := back j u hu
    rw [h2, i2]; exact h.distinct i j w w2 hij h1 i1 (h3.1 s1) (i3.1 s2)
  · intro i v hv hd
    obtain ⟨w, h1, h2, _, h4⟩ := back i v hv
    rw [h2, hg]; exact h.over i w h1 (h4 hd)
  · rcases h.someone with h1 | h1 | ⟨i, w, h1, h2⟩ | ⟨i, w, h1, h2, h3⟩
    · exact .inl (hc h1)
    · refine .inr (.inl ?_)
      cases hw : s'.writers with
      | nil => rfl
      | cons v vs =>
        obtain ⟨w, h2, _⟩ := back 0 v (by rw [hw]; rfl)
        rw [h1] at h2; cases h2
    · refine .inr (.inr (.inl ?_))
      rcases ha i with ⟨_, h3⟩ | ⟨v, w', h3, h4, _, _, _, h5⟩
      · rw [h3] at h1; cases h1
      · rw [h4] at h1; cases h1
        exact ⟨i, v, h3, h5.2 h2⟩
    · refine .inr (.inr (.inr ?_))
      rcases ha i with ⟨_, h4⟩ | ⟨v, w', h4, h5, h6, h7, _, _⟩
      · rw [h4] at h1; cases h1
      · rw [h5] at h1; cases h1
        exact ⟨i, v, h4, h7.2 h2, by rw [h6, hg]; exact h3⟩

theorem stepG_inv (s : S) (l : Label) (hl : l ≠ .goSynch) (h : InvG s) : InvG (step s l) := by
  cases l with
  | call t x =>
    simp only [step]
    split
    · exact h.alike (alike_refl _) rfl id
    · exact h
  | lg t r =>
    simp only [step, stepL]
    split
    · split <;> exact h.alike (alike_refl _) rfl id
    · exact h.alike (alike_refl _) rfl id
    · exact h.alike (alike_refl _) rfl id
    · split
      · exact h.alike (alike_refl _) rfl id
      · split
        · exact h.alike (alike_refl _) rfl id
        · refine h.alike (alike_map _ _) rfl ?_
          intro ha; simp [setL, taken, ha, spoilA]
    · cases r <;> exact h.alike (alike_refl _) rfl id
    · cases r <;> exact h.alike (alike_refl _) rfl id
    · exact h
  | wr i r =>
    simp only [step, stepW]
    split
    · exact h
    · rename_i w hw
      obtain ⟨g, pc⟩ := w
      cases pc with
      | fresh =>
        dsimp only
        refine ⟨?_, ?_, ?_, ?_⟩
        · intro j v hv hs
          rcases set_some hw hv with ⟨_, rfl⟩ | ⟨_, hv⟩
          · exact Nat.le_refl _
          · exact Nat.le_trans (h.le j v hv hs) (Nat.le_succ _)
        · intro j k v u hjk hv hu s1 s2
          rcases set_some hw hv with ⟨hji, rfl⟩ | ⟨hji, hv⟩ <;>
            rcases set_some hw hu with ⟨hki, rfl⟩ | ⟨hki, hu⟩
          · exact absurd (hji.trans hki.symm) hjk
          · have := h.le k u hu s2
            simp only; omega
          · have := h.le j v hv s1
            simp only; omega
          · exact h.distinct j k v u hjk hv hu s1 s2
        · intro j v hv hd
          rcases set_some hw hv with ⟨_, rfl⟩ | ⟨_, hv⟩
          · cases hd
          · exact Nat.lt_of_lt_of_le (h.over j v hv hd) (Nat.le_succ _)
        · exact .inr (.inr (.inr ⟨i, _, set_get hw, trivial, rfl⟩))
      | waiting =>
        dsimp only
        split
        · exact h.alike (alike_set (alike_refl _) hw rfl Iff.rfl (by simp) (by simp)) rfl id
        · exact h
      | top =>
        dsimp only
        split
        · exact h.alike (alike_set (alike_refl _) hw rfl Iff.rfl (by simp) (by simp)) rfl id
        · rename_i hne
          -- a writer with an old number stops
          have hlt : g < s.gen := Nat.lt_of_le_of_ne (h.le i _ hw trivial) hne
          refine ⟨?_, ?_, ?_, ?_⟩
          · intro j v hv hs
            rcases set_some hw hv with ⟨_, rfl⟩ | ⟨_, hv⟩
            · exact Nat.le_of_lt hlt
            · exact h.le j v hv hs
          · intro j k v u hjk hv hu s1 s2
            rcases set_some hw hv with ⟨hji, rfl⟩ | ⟨hji, hv'⟩ <;>
              rcases set_some hw hu with ⟨hki, rfl⟩ | ⟨hki, hu'⟩
            · exact absurd (hji.trans hki.symm) hjk
            · subst hji; exact h.distinct j k ⟨g, .top⟩ u hjk hw hu' trivial s2
            · subst hki; exact h.distinct j k v ⟨g, .top⟩ hjk hv' hw s1 trivial
            · exact h.distinct j k v u hjk hv' hu' s1 s2
          · intro j v hv hd
            rcases set_some hw hv with ⟨_, rfl⟩ | ⟨_, hv⟩
            · exact hlt
            · exact h.over j v hv hd
          · rcases h.someone with h1 | h1 | ⟨j, v, h1, h2⟩ | ⟨j, v, h1, h2, h3⟩
            · exact .inl h1
            · rw [h1] at hw; simp at hw
            · have hji : j ≠ i := by
                intro hj; subst hj; rw [hw] at h1; cases h1; cases h2
              exact .inr (.inr (.inl ⟨j, v, by
                simp only [setW]
                rw [List.getElem?_set_ne (fun h => hji h.symm)]; exact h1, h2⟩))
            · have hji : j ≠ i := by
                intro hj; subst hj; rw [hw] at h1; cases h1; exact hne h3
              exact .inr (.inr (.inr ⟨j, v, by
                simp only [setW]
                rw [List.getElem?_set_ne (fun h => hji h.symm)]; exact h1, h2, h3⟩))
      | pop n =>
        dsimp only
        split
        · exact h.alike (alike_set (alike_refl _) hw rfl Iff.rfl (by simp) (by simp)) rfl id
        · exact h.alike (alike_set (alike_refl _) hw rfl Iff.rfl (by simp) (by simp)) rfl id
      | loaded n b =>
        dsimp only
        split
        · exact h.alike (alike_refl _) rfl id
        · split
          · exact h.alike (alike_set (alike_refl _) hw rfl Iff.rfl (by simp) (by simp)) rfl id
          · refine h.alike (alike_set (alike_map _ _) hw rfl Iff.rfl (by simp) (by simp)) rfl ?_
            intro ha; simp [setW, taken, ha, spoilA]
      | hand n y =>
        dsimp only
        cases r <;>
          exact h.alike (alike_set (alike_refl _) hw rfl Iff.rfl (by simp) (by simp)) rfl id
      | done => exact h
  | ad r =>
    simp only [step, stepA]
    split
    · have new : ∀ (i : Nat) w, (s.writers ++ [(⟨0, .fresh⟩ : W)])[i]? = some w →
          s.writers[i]? = some w ∨ w = ⟨0, .fresh⟩ := by
        intro i w hw
        rw [List.getElem?_append] at hw
        split at hw
        · exact .inl hw
        · right
          rcases hi : i - s.writers.length with _ | k
          · rw [hi] at hw; simpa using hw.symm
          · rw [hi] at hw; simp at hw
      refine ⟨?_, ?_, ?_, ?_⟩
      · intro i w hw hs
        rcases new i w hw with hw | rfl
        · exact h.le i w hw hs
        · exact absurd hs (by simp [Started])
      · intro i j v w hij hv hw s1 s2
        rcases new i v hv with hv | rfl
        · rcases new j w hw with hw | rfl
          · exact h.distinct i j v w hij hv hw s1 s2
          · exact absurd s2 (by simp [Started])
        · exact absurd s1 (by simp [Started])
      · intro i w hw hd
        rcases new i w hw with hw | rfl
        · exact h.over i w hw hd
        · cases hd
      · exact .inr (.inr (.inl ⟨s.writers.length, ⟨0, .fresh⟩, by simp, rfl⟩))
    · rename_i ha
      exact h.alike (alike_refl _) rfl (by intro hh; rw [ha] at hh; cases hh)
    · rename_i b ha
      split
      · exact h.alike (alike_refl _) rfl id
      · split
        · exact h.alike (alike_refl _) rfl (by intro hh; rw [ha] at hh; cases hh)
        · exact h.alike (alike_map _ _) rfl (by intro hh; rw [ha] at hh; cases hh)
    · rename_i y ha
      cases r <;> exact h.alike (alike_refl _) rfl (by intro hh; rw [ha] at hh; cases hh)
    · exact h
  | goAsynch =>
    simp only [step]
    split
    · refine ⟨?_, h.distinct, ?_, .inl rfl⟩
      · intro i w hw hs; exact Nat.le_trans (h.le i w hw hs) (Nat.le_succ _)
      · intro i w hw hd; exact Nat.lt_of_lt_of_le (h.over i w hw hd) (Nat.le_succ _)
    · exact h
  | goSynch => exact absurd rfl hl
  | reopen =>
    simp only [step]
    split
    · split
      · exact ⟨h.le, h.distinct, h.over, .inl rfl⟩
      · exact h
    · exact h

/-- **C89 (one writer).** However often asynchronous mode is requested and the
file reopened, as long as nobody goes back to synchronous mode: when no such call
is under way and every thread it started has begun, then, unless none was ever
started, exactly one writer has the current number, and it has not stopped; all
others stop when they next look. -/
theorem C89_one_writer (b : Bool) (n : Nat) (ls : List Label) (h : ∀ l ∈ ls, l ≠ .goSynch)
    (hadm : (run ls (init b n)).admin = .idle)
    (hfresh : ∀ w ∈ (run ls (init b n)).writers, w.pc ≠ .fresh)
    (hne : (run ls (init b n)).writers ≠ []) :
    ∃ i : Nat, (∃ w : W, (run ls (init b n)).writers[i]? = some w ∧ w.gen = (run ls (init b n)).gen ∧
        w.pc ≠ .done) ∧
      ∀ (j : Nat) (w : W), (run ls (init b n)).writers[j]? = some w → j ≠ i → w.gen ≠ (run ls (init b n)).gen := by
  have hi : InvG (run ls (init b n)) := run_inv (ok := fun l => l ≠ .goSynch) stepG_inv ls _ h
    ⟨by intro i w hw; simp [init] at hw, by intro i j v w _ hv; simp [init] at hv,
      by intro i w hw; simp [init] at hw, .inr (.inl rfl)⟩
  have started : ∀ (j : Nat) w, (run ls (init b n)).writers[j]? = some w → Started w.pc := by
    intro j w hw
    have := hfresh w (List.mem_iff_getElem?.2 ⟨j, hw⟩)
    cases hp : w.pc <;> simp_all [Started]
  rcases hi.someone with h1 | h1 | ⟨i, w, h1, h2⟩ | ⟨i, w, h1, h2, h3⟩
  · rw [hadm] at h1; cases h1
  · exact absurd h1 hne
  · exact absurd h2 (hfresh w (List.mem_iff_getElem?.2 ⟨i, h1⟩))
  · refine ⟨i, ⟨w, h1, h3, ?_⟩, ?_⟩
    · intro hd
      have := hi.over i w h1 hd
      omega
    · intro j v hv hj hg
      exact hi.distinct j i v w hj hv h1 (started j v hv) h2 (hg.trans h3.symm)

/-! ## concrete runs -/

/-- two threads log in asynchronous mode, the file is reopened in between -/
def demo : List Label :=
  [.goAsynch, .ad .full, .call 0 [65], .lg 0 .full, .lg 0 .full, .call 1 [66], .lg 1 .full, .wr 0 .full,
   .wr 0 .full, .wr 0 .full, .wr 0 .full, .wr 0 .full, .lg 1 .full, .reopen, .ad .full, .wr 1 .full,
   .wr 0 .full, .call 0 [67], .lg 0 .full, .lg 0 .full, .wr 0 .full, .wr 0 .full, .wr 0 .full,
   .wr 0 .full, .wr 0 .full, .wr 0 .full, .wr 0 .full, .wr 0 .full, .wr 1 .full, .wr 0 .full]

example : (∀ l ∈ demo, Full l ∧ l ≠ .goSynch) ∧
    (run demo (init true 2)).out = [(0, [65]), (1, [66]), (0, [67])] ∧
    quiet (run demo (init true 2)) ∧ (run demo (init true 2)).admin = .idle ∧
    (run demo (init true 2)).writers = [⟨2, .waiting⟩, ⟨3, .top⟩] := by
  refine ⟨?_, by decide +kernel, ?_, by decide +kernel, by decide +kernel⟩
  · intro l hl
    simp only [demo, List.mem_cons, List.not_mem_nil, or_false] at hl
    rcases hl with rfl | rfl | rfl | rfl | rfl | rfl | rfl | rfl | rfl | rfl | rfl | rfl | rfl | rfl |
      rfl | rfl | rfl | rfl | rfl | rfl | rfl | rfl | rfl | rfl | rfl | rfl | rfl | rfl | rfl | rfl <;>
      simp [Full]
  · unfold quiet
    decide +kernel

/-- a thread in synchronous mode -/
example : (run [.call 0 [65], .lg 0 .full, .lg 0 .full, .lg 0 .full, .lg 0 .full, .call 0 [66]]
    (init false 1)).out = [(0, [65])] := by decide +kernel

/-- **C89 (order, going back).** Back in synchronous mode a line overtakes an
older line of the same thread that a writer has in its hands: the file has the
two in the wrong order. -/
theorem C89_order_violated : ∃ ls : List Label, (∀ l ∈ ls, Full l) ∧
    (run ls (init true 1)).ub = false ∧ quiet (run ls (init true 1)) ∧
    of 0 (run ls (init true 1)).given = [[65], [66]] ∧
    of 0 (run ls (init true 1)).out = [[66], [65]] := by
  refine ⟨[.goAsynch, .ad .full, .wr 0 .full, .wr 0 .full, .wr 0 .full, .call 0 [65], .lg 0 .full,
    .lg 0 .full, .wr 0 .full, .wr 0 .full, .goSynch, .ad .full, .ad .full, .call 0 [66], .lg 0 .full,
    .lg 0 .full, .lg 0 .full, .lg 0 .full, .wr 0 .full], ?_, by decide +kernel, ?_, by decide +kernel,
    by decide +kernel⟩
  · intro l hl
    simp only [List.mem_cons, List.not_mem_nil, or_false] at hl
    rcases hl with rfl | rfl | rfl | rfl | rfl | rfl | rfl | rfl | rfl | rfl | rfl | rfl | rfl | rfl |
      rfl | rfl | rfl | rfl | rfl <;> simp [Full]
  · unfold quiet
    decide +kernel

/-- **C89 (race, going back).** The queue allows one reader; going back to
synchronous mode makes the caller, the logging threads and the writer that has
not stopped yet readers at once, and one reads an entry another has freed. -/
theorem C89_race_violated : ∃ ls : List Label, (∀ l ∈ ls, Full l) ∧
    (run ls (init true 2)).ub = true := by
  refine ⟨[.goAsynch, .ad .full, .wr 0 .full, .wr 0 .full, .wr 0 .full, .call 0 [65], .lg 0 .full,
    .lg 0 .full, .wr 0 .full, .wr 0 .full, .wr 0 .full, .call 0 [66], .lg 0 .full, .lg 0 .full,
    .wr 0 .full, .goSynch, .ad .full, .ad .full, .wr 0 .full], ?_, by decide +kernel⟩
  intro l hl
  simp only [List.mem_cons, List.not_mem_nil, or_false] at hl
  rcases hl with rfl | rfl | rfl | rfl | rfl | rfl | rfl | rfl | rfl | rfl | rfl | rfl | rfl | rfl |
    rfl | rfl | rfl | rfl | rfl <;> simp [Full]

/-- **C89 (a line left behind).** A thread that looked at the mode just before
it was changed puts its line in the queue after the drain; with no writer left
and all threads at rest the line is still not in the file. -/
theorem C89_left_behind_violated : ∃ ls : List Label, (∀ l ∈ ls, Full l) ∧
    (run ls (init true 1)).ub = false ∧ (run ls (init true 1)).loggers = [.idle] ∧
    (run ls (init true 1)).admin = .idle ∧ (∀ w ∈ (run ls (init true 1)).writers, w.pc = .done) ∧
    (run ls (init true 1)).out = [] ∧ of 0 (run ls (init true 1)).given = [[65]] := by
  refine ⟨[.goAsynch, .ad .full, .wr 0 .full, .call 0 [65], .lg 0 .full, .goSynch, .wr 0 .full,
    .wr 0 .full, .ad .full, .ad .full, .lg 0 .full], ?_, by decide +kernel, by decide +kernel,
    by decide +kernel, by decide +kernel, by decide +kernel, by decide +kernel⟩
  intro l hl
  simp only [List.mem_cons, List.not_mem_nil, or_false] at hl
  rcases hl with rfl | rfl | rfl | rfl | rfl | rfl | rfl | rfl | rfl | rfl | rfl <;> simp [Full]

/-- **C89 (short writes).** When the system writes only part of a line, the
rest is dropped and the next line follows at once. -/
theorem C89_short_write_violated :
    (run [.goAsynch, .ad .full, .wr 0 .full, .wr 0 .full, .wr 0 .full, .call 0 [65, 66, 10],
      .lg 0 .full, .lg 0 .full, .wr 0 .full, .wr 0 .full, .wr 0 (.short 1), .call 0 [67, 10],
      .lg 0 .full, .lg 0 .full, .wr 0 .full, .wr 0 .full, .wr 0 .full] (init true 1)).out
      = [(0, [65]), (0, [67, 10])] := by decide +kernel

/-- **C89 (a full disk).** When the system refuses a write (no space is left),
the whole process is ended by the writer thread. -/
theorem C89_full_disk_violated :
    (run [.goAsynch, .ad .full, .wr 0 .full, .wr 0 .full, .wr 0 .full, .call 0 [65],
      .lg 0 .full, .lg 0 .full, .wr 0 .full, .wr 0 .full, .wr 0 .fail] (init true 1)).crashed = true := by
  decide +kernel

end Mtev.LogAsync
