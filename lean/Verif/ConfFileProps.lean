import Verif.ConfFile
import Mathlib.Data.List.Nodup

/-!
# C112: writing the configuration to its files
-/

namespace Mtev.ConfFile

/-- every file has what it had, or the text that belongs to it -/
def OldOrNew (fs : Fs) (ws : List (Nat × Str)) (g : Fs) : Prop :=
  ∀ q, g.file q = fs.file q ∨ ∃ t, (q, t) ∈ ws ∧ g.file q = some t

theorem OldOrNew.tmp {fs g : Fs} {ws : List (Nat × Str)} (h : OldOrNew fs ws g) (t : Nat → Option Str) :
    OldOrNew fs ws { g with tmp := t } := h

theorem OldOrNew.rename {fs g : Fs} {ws : List (Nat × Str)} (h : OldOrNew fs ws g) (p : Nat) (t : Str)
    (hm : (p, t) ∈ ws) (ht : g.tmp p = some t) : OldOrNew fs ws (rename g p) := by
  intro q
  by_cases e : q = p
  · subst e
    right
    exact ⟨t, hm, by simp [ConfFile.rename, put_same, ht]⟩
  · have := h q
    simpa [ConfFile.rename, put_other _ _ _ _ e] using this

/-- the state before the included files are written: only `m.tmp` has changed -/
theorem main_final (fs fs0 fs1 : Fs) (m : Nat) (text : Str) (n : Nat)
    (e0 : fs0 = { fs with tmp := put fs.tmp m none }) (e1 : fs1 = { fs0 with tmp := put fs0.tmp m (some []) }) :
    final fs (fs0 :: fs1 :: writing fs1 m text n)
      = { fs with tmp := put (put (put fs.tmp m none) m (some [])) m (some (text.take n)) } := by
  rw [final_cons, final_cons, final_writing _ _ _ _ (by subst e1; simp [put_same])]
  subst e1 e0
  rfl

/-- **C112 (old or new).**  Wherever the process is cut off and whichever calls fail: the main file and each included
one has what it had before or the text that belongs to it, never a part of it. -/
theorem C112_old_or_new (m : Nat) (text : Str) (luck : Luck) (incs : Incs) (fs g : Fs) (hs : incs.NoSelf)
    (hm : ∀ x ∈ incs.writes, x.1 ≠ m) (hg : g ∈ (writeFile m text luck incs fs).1) :
    OldOrNew fs ((m, text) :: incs.writes) g := by
  have h0 : OldOrNew fs ((m, text) :: incs.writes) fs := fun q => Or.inl rfl
  have keep := writeIncs_keeps (OldOrNew fs ((m, text) :: incs.writes)) (fun g p v h => h.tmp _) incs
    (fun x hx g h ht => h.rename x.1 x.2 (by simp [hx]) ht) hs
  unfold writeFile at hg
  simp only at hg
  split at hg
  · rw [List.mem_singleton.mp hg]; exact h0.tmp _
  · split at hg
    · simp only [List.mem_cons, List.not_mem_nil, or_false] at hg
      rcases hg with rfl | rfl | rfl <;> exact h0
    · generalize hn : written luck text = n at hg
      have hl1 : ∀ g ∈ ({ fs with tmp := put fs.tmp m none } : Fs) ::
          { fs with tmp := put (put fs.tmp m none) m (some []) } ::
          writing { fs with tmp := put (put fs.tmp m none) m (some []) } m text n,
          OldOrNew fs ((m, text) :: incs.writes) g := by
        intro g hg
        simp only [List.mem_cons, writing, List.mem_map] at hg
        rcases hg with rfl | rfl | ⟨k, _, rfl⟩ <;> exact h0
      have hfin := main_final fs _ _ m text n rfl rfl
      simp only at hfin
      rw [hfin] at hg
      have hk := keep _ (h0.tmp (put (put (put fs.tmp m none) m (some [])) m (some (text.take n))))
      have hk12 : ∀ g ∈ ({ fs with tmp := put fs.tmp m none } : Fs) ::
          { fs with tmp := put (put fs.tmp m none) m (some []) } ::
          writing { fs with tmp := put (put fs.tmp m none) m (some []) } m text n
          ++ writeIncs incs { fs with tmp := put (put (put fs.tmp m none) m (some [])) m (some (text.take n)) },
          OldOrNew fs ((m, text) :: incs.writes) g := by
        intro g hg
        rcases List.mem_append.mp hg with hg | hg
        · exact hl1 g hg
        · exact hk.1 g hg
      split at hg
      · exact hk12 g hg
      · rename_i hshort
        split at hg
        · rcases List.mem_append.mp hg with hg | hg
          · exact hk12 g hg
          · rw [List.mem_singleton.mp hg]
            push Not at hshort
            have hs0 : luck.short = none := by
              cases h : luck.short with
              | none => rfl
              | some k => rw [h] at hshort; simp at hshort
            unfold written at hn
            rw [hs0] at hn
            simp only at hn
            subst hn
            have hP : OldOrNew fs ((m, text) :: incs.writes)
                (final { fs with tmp := put (put (put fs.tmp m none) m (some [])) m (some (text.take text.length)) }
                  (writeIncs incs
                    { fs with tmp := put (put (put fs.tmp m none) m (some [])) m (some (text.take text.length)) })) := by
              rcases final_mem { fs with tmp := put (put (put fs.tmp m none) m (some [])) m (some (text.take text.length)) }
                (writeIncs incs
                  { fs with tmp := put (put (put fs.tmp m none) m (some [])) m (some (text.take text.length)) }) with e | e
              · rw [e]; exact h0.tmp _
              · exact hk.1 _ e
            refine hP.rename m text (by simp) ?_
            rw [hk.2 m hm]
            simp [put_same]
        · exact hk12 g hg

/-- **C112 (not touched).**  Other files, such as those included as read-only, are never changed. -/
theorem C112_untouched (m : Nat) (text : Str) (luck : Luck) (incs : Incs) (fs g : Fs) (hs : incs.NoSelf)
    (hm : ∀ x ∈ incs.writes, x.1 ≠ m) (hg : g ∈ (writeFile m text luck incs fs).1) (q : Nat) (hq : q ≠ m)
    (hq' : ∀ x ∈ incs.writes, x.1 ≠ q) : g.file q = fs.file q := by
  rcases C112_old_or_new m text luck incs fs g hs hm hg q with h | ⟨t, ht, _⟩
  · exact h
  · rcases List.mem_cons.mp ht with h | h
    · cases h; exact absurd rfl hq
    · exact absurd rfl (hq' _ h)

/-- **C112 (failure).**  If the call returns -1 the main file has what it had. -/
theorem C112_failed (m : Nat) (text : Str) (luck : Luck) (incs : Incs) (fs : Fs) (hs : incs.NoSelf)
    (hm : ∀ x ∈ incs.writes, x.1 ≠ m) (hr : (writeFile m text luck incs fs).2 = false) :
    ∀ g ∈ (writeFile m text luck incs fs).1, g.file m = fs.file m := by
  have keep := writeIncs_keeps (fun g => g.file m = fs.file m) (fun g p v h => h) incs
    (fun x hx g h _ => by simpa [rename, put_other _ _ _ _ (hm x hx).symm] using h) hs
  intro g hg
  unfold writeFile at hg hr
  simp only at hg hr
  split at hg
  · rw [List.mem_singleton.mp hg]
  · rename_i ho
    rw [if_neg ho] at hr
    split at hg
    · simp only [List.mem_cons, List.not_mem_nil, or_false] at hg
      rcases hg with rfl | rfl | rfl <;> rfl
    · rename_i hc
      rw [if_neg hc] at hr
      generalize hn : written luck text = n at hg hr
      have hl1 : ∀ g ∈ ({ fs with tmp := put fs.tmp m none } : Fs) ::
          { fs with tmp := put (put fs.tmp m none) m (some []) } ::
          writing { fs with tmp := put (put fs.tmp m none) m (some []) } m text n, g.file m = fs.file m := by
        intro g hg
        simp only [List.mem_cons, writing, List.mem_map] at hg
        rcases hg with rfl | rfl | ⟨k, _, rfl⟩ <;> rfl
      have hfin := main_final fs _ _ m text n rfl rfl
      simp only at hfin
      rw [hfin] at hg
      have hk := keep { fs with tmp := put (put (put fs.tmp m none) m (some [])) m (some (text.take n)) } rfl
      have hk12 : ∀ g ∈ ({ fs with tmp := put fs.tmp m none } : Fs) ::
          { fs with tmp := put (put fs.tmp m none) m (some []) } ::
          writing { fs with tmp := put (put fs.tmp m none) m (some []) } m text n
          ++ writeIncs incs { fs with tmp := put (put (put fs.tmp m none) m (some [])) m (some (text.take n)) },
          g.file m = fs.file m := by
        intro g hg
        rcases List.mem_append.mp hg with hg | hg
        · exact hl1 g hg
        · exact hk.1 g hg
      split at hg
      · exact hk12 g hg
      · rename_i hsh
        rw [if_neg hsh] at hr
        split at hg
        · rename_i hren
          rw [if_pos hren] at hr
          simp at hr
        · exact hk12 g hg

/-- nothing goes wrong -/
def Incs.Lucky : Incs → Prop
  | .nil => True
  | .cons _ _ _ luck kids rest => luck = {} ∧ kids.Lucky ∧ rest.Lucky

theorem writeIncs_other (i : Incs) (hs : i.NoSelf) (fs : Fs) (q : Nat) (hq : ∀ x ∈ i.writes, x.1 ≠ q) :
    (final fs (writeIncs i fs)).file q = fs.file q := by
  have keep := writeIncs_keeps (fun g => g.file q = fs.file q) (fun g p v h => h) i
    (fun x hx g h _ => by simpa [rename, put_other _ _ _ _ (hq x hx).symm] using h) hs fs rfl
  rcases final_mem fs (writeIncs i fs) with e | e
  · rw [e]
  · exact keep.1 _ e

theorem writeIncs_tmp (i : Incs) (hs : i.NoSelf) (fs : Fs) (q : Nat) (hq : ∀ x ∈ i.writes, x.1 ≠ q) :
    (final fs (writeIncs i fs)).tmp q = fs.tmp q :=
  (writeIncs_keeps (fun _ => True) (fun _ _ _ _ => trivial) i (fun _ _ _ _ _ => trivial) hs fs trivial).2 q hq

theorem writeIncs_all : ∀ (i : Incs), i.Lucky → i.NoSelf → (i.writes.map (·.1)).Nodup → ∀ (fs : Fs),
    ∀ x ∈ i.writes, (final fs (writeIncs i fs)).file x.1 = some x.2
  | .nil, _, _, _, _, x, hx => by simp [Incs.writes] at hx
  | .cons p ro text luck kids rest, hl, hs, hn, fs, x, hx => by
    obtain ⟨rfl, hlk, hlr⟩ := hl
    obtain ⟨hs1, hs2, hs3⟩ := hs
    have hn' : (((if ro = true then [] else [(p, text)]) ++ kids.writes).map (·.1)).Nodup ∧
        (rest.writes.map (·.1)).Nodup ∧ ∀ y ∈ (if ro = true then [] else [(p, text)]) ++ kids.writes,
          ∀ z ∈ rest.writes, y.1 ≠ z.1 := by
      unfold Incs.writes at hn
      rw [List.map_append, List.nodup_append] at hn
      refine ⟨hn.1, hn.2.1, ?_⟩
      intro y hy z hz
      exact hn.2.2 _ (List.mem_map_of_mem hy) _ (List.mem_map_of_mem hz)
    obtain ⟨hn1, hn2, hn3⟩ := hn'
    have hnk : (kids.writes.map (·.1)).Nodup := by
      rw [List.map_append, List.nodup_append] at hn1
      exact hn1.2.1
    unfold writeIncs
    simp only
    rw [final_append]
    unfold Incs.writes at hx
    rcases List.mem_append.mp hx with hx | hx
    · rw [writeIncs_other rest hs3 _ x.1 (fun z hz => (hn3 x hx z hz).symm)]
      cases ro with
      | true =>
        simp only [if_true, List.nil_append] at hx ⊢
        exact writeIncs_all kids hlk hs2 hnk fs x hx
      | false =>
        simp only [Bool.false_eq_true, if_false, Bool.true_eq_false, if_true] at hx ⊢
        rw [final_append]
        show (rename _ p).file x.1 = _
        rcases List.mem_append.mp hx with hx | hx
        · rw [List.mem_singleton.mp hx]
          simp only [rename, put_same]
          rw [writeIncs_tmp kids hs2 _ p hs1, final_cons, final_writing _ _ _ _ (by simp [put_same])]
          simp [put_same]
        · simp only [rename, put_other _ _ _ _ (hs1 x hx)]
          exact writeIncs_all kids hlk hs2 hnk _ x hx
    · exact writeIncs_all rest hlr hs3 hn2 _ x hx

/-- **C112 (everything).**  If no call fails and no file is included twice, the call returns 0 and then the main file
and every included one (not read-only) has its text. -/
theorem C112_all_partial (m : Nat) (text : Str) (incs : Incs) (fs : Fs) (ht : text ≠ []) (hl : incs.Lucky)
    (hs : incs.NoSelf) (hm : ∀ x ∈ incs.writes, x.1 ≠ m) (hn : (incs.writes.map (·.1)).Nodup) :
    (writeFile m text {} incs fs).2 = true ∧
    ∀ x ∈ (m, text) :: incs.writes, (final fs (writeFile m text {} incs fs).1).file x.1 = some x.2 := by
  have h0 : ¬ text.length = 0 := by cases text <;> simp at ht ⊢
  have hfin := main_final fs _ _ m text text.length rfl rfl
  simp only at hfin
  unfold writeFile
  simp only [written, Bool.true_eq_false, if_false, Option.isSome_none, Bool.false_eq_true, false_or, if_neg h0, if_true]
  refine ⟨trivial, ?_⟩
  intro x hx
  rw [final_append]
  show (rename _ m).file x.1 = _
  rw [hfin]
  rcases List.mem_cons.mp hx with rfl | hx
  · simp only [rename, put_same]
    rw [writeIncs_tmp incs hs _ m hm]
    simp [put_same]
  · simp only [rename, put_other _ _ _ _ (hm x hx)]
    exact writeIncs_all incs hl hs hn _ x hx

/-- **C112 (success).**  Whichever calls fail: if the call returns 0 the main file has its text. -/
theorem C112_success (m : Nat) (text : Str) (luck : Luck) (incs : Incs) (fs : Fs) (hs : incs.NoSelf)
    (hm : ∀ x ∈ incs.writes, x.1 ≠ m) (hr : (writeFile m text luck incs fs).2 = true) :
    (final fs (writeFile m text luck incs fs).1).file m = some text := by
  have hfin := main_final fs _ _ m text (written luck text) rfl rfl
  simp only at hfin
  unfold writeFile at hr ⊢
  simp only at hr ⊢
  by_cases ho : luck.opens = false
  · rw [if_pos ho] at hr; simp at hr
  rw [if_neg ho] at hr ⊢
  by_cases hc : luck.chowns = false
  · rw [if_pos hc] at hr; simp at hr
  rw [if_neg hc] at hr ⊢
  by_cases hsh : luck.short.isSome = true ∨ text.length = 0
  · rw [if_pos hsh] at hr; simp at hr
  rw [if_neg hsh] at hr ⊢
  by_cases hren : luck.renames = true
  · rw [if_pos hren]
    rw [final_append]
    show (rename _ m).file m = _
    have hw : written luck text = text.length := by
      unfold written
      cases h : luck.short with
      | none => rfl
      | some k => rw [h] at hsh; simp at hsh
    simp only [rename, put_same]
    rw [writeIncs_tmp incs hs _ m hm, hfin, hw]
    simp [put_same]
  · rw [if_neg hren] at hr; simp at hr

/-- an included file cannot be opened, the main file is written -/
example (fs : Fs) : (writeFile 0 [1] {} (.cons 1 false [11] { opens := false } .nil .nil) fs).2 = true := rfl

/-- two files included from the main one, and one from the first of them -/
def sample : Incs :=
  .cons 1 false [11] {} (.cons 2 false [12] {} .nil .nil) (.cons 3 true [13] {} .nil (.cons 4 false [14] {} .nil .nil))

example : sample.Lucky ∧ sample.NoSelf ∧ (∀ x ∈ sample.writes, x.1 ≠ 0) ∧ (sample.writes.map (·.1)).Nodup ∧
    sample.writes = [(1, [11]), (2, [12]), (4, [14])] := by
  refine ⟨?_, ?_, by decide, by decide, by decide⟩
  · simp [sample, Incs.Lucky]
  · simp [sample, Incs.NoSelf, Incs.writes]

/-- **C112 (violated: failures of included files are not reported).**  If an included file cannot be written, the call
returns 0 all the same, the file has what it had, and so have the files included from it. -/
theorem C112_unreported_violated (m p q : Nat) (text a b : Str) (fs : Fs) (h1 : p ≠ m) (h2 : q ≠ m) (ht : text ≠ []) :
    (writeFile m text {} (.cons p false a { opens := false } (.cons q false b {} .nil .nil) .nil) fs).2 = true ∧
    ∀ g ∈ (writeFile m text {} (.cons p false a { opens := false } (.cons q false b {} .nil .nil) .nil) fs).1,
      g.file p = fs.file p ∧ g.file q = fs.file q := by
  have h0 : ¬ text.length = 0 := by cases text <;> simp at ht ⊢
  unfold writeFile
  simp only [written, Bool.true_eq_false, if_false, Option.isSome_none, Bool.false_eq_true, false_or, if_neg h0, if_true]
  refine ⟨trivial, ?_⟩
  intro g hg
  simp only [writeIncs, Bool.false_eq_true, if_false, if_true, List.append_nil, final_nil, List.mem_append, List.mem_cons,
    List.not_mem_nil, or_false, writing, List.mem_map] at hg
  rcases hg with (rfl | rfl | ⟨k, _, rfl⟩) | rfl
  · exact ⟨rfl, rfl⟩
  · exact ⟨rfl, rfl⟩
  · exact ⟨rfl, rfl⟩
  · have hfin := main_final fs _ _ m text text.length rfl rfl
    simp only [writing] at hfin
    rw [hfin]
    simp [rename, put_other _ _ _ _ h1, put_other _ _ _ _ h2]

/-- **C112 (violated: not all at once).**  Cut off at the right moment, an included file has its new text and the main
file still what it had. -/
theorem C112_mixed_violated (m p : Nat) (text a : Str) (fs : Fs) (h1 : p ≠ m) (ht : text ≠ []) :
    ∃ g ∈ (writeFile m text {} (.cons p false a {} .nil .nil) fs).1, g.file p = some a ∧ g.file m = fs.file m := by
  have h0 : ¬ text.length = 0 := by cases text <;> simp at ht ⊢
  have hfin := main_final fs _ _ m text text.length rfl rfl
  simp only at hfin
  unfold writeFile
  simp only [written, Bool.true_eq_false, if_false, Option.isSome_none, Bool.false_eq_true, false_or, if_neg h0, if_true]
  rw [hfin]
  have hs : (Incs.cons p false a {} .nil .nil).NoSelf := by simp [Incs.NoSelf, Incs.writes]
  refine ⟨final { fs with tmp := put (put (put fs.tmp m none) m (some [])) m (some (text.take text.length)) }
    (writeIncs (.cons p false a {} .nil .nil)
      { fs with tmp := put (put (put fs.tmp m none) m (some [])) m (some (text.take text.length)) }), ?_, ?_, ?_⟩
  · apply List.mem_append_left
    apply List.mem_append_right
    apply final_mem_ne
    simp [writeIncs]
  · exact writeIncs_all (.cons p false a {} .nil .nil) ⟨rfl, trivial, trivial⟩ hs (by simp [Incs.writes]) _ (p, a)
      (by simp [Incs.writes])
  · exact writeIncs_other _ hs _ m (by simpa [Incs.writes] using h1)

/-- **C112 (violated: a file included twice).**  Each place has a document of its own; the last one written is what
stays, so a change made at the first place is lost although the call returns 0. -/
theorem C112_twice_violated (m p : Nat) (text changed old : Str) (fs : Fs) (h1 : p ≠ m) (ht : text ≠ []) :
    (writeFile m text {} (.cons p false changed {} .nil (.cons p false old {} .nil .nil)) fs).2 = true ∧
    (final fs (writeFile m text {} (.cons p false changed {} .nil (.cons p false old {} .nil .nil)) fs).1).file p
      = some old := by
  have h0 : ¬ text.length = 0 := by cases text <;> simp at ht ⊢
  unfold writeFile
  simp only [written, Bool.true_eq_false, if_false, Option.isSome_none, Bool.false_eq_true, false_or, if_neg h0, if_true]
  refine ⟨trivial, ?_⟩
  rw [final_append]
  show (rename _ m).file p = _
  simp only [rename, put_other _ _ _ _ h1]
  conv_lhs => unfold writeIncs
  rw [final_append]
  exact writeIncs_all (.cons p false old {} .nil .nil) ⟨rfl, trivial, trivial⟩ (by simp [Incs.NoSelf, Incs.writes])
    (by simp [Incs.writes]) _ (p, old) (by simp [Incs.writes])

end Mtev.ConfFile
