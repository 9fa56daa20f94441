import Verif.Mem

/-!
# Writing the configuration to its files

`src/mtev_conf.c:2645-2719` (`mtev_conf_write_file`) and `541-590` (`write_out_include_files`): the main file and
the files included from it, each written to `….tmp` and renamed, with calls that fail and crashes between
any two calls.

A file is a number; `file p` is what is under the name, `tmp p` what is under the name with `.tmp`.  How the calls
for a file turn out is given with it, and the theorems quantify over it.  A run is the list of the states of the
files after each call (writing: after each byte), so a crash may leave any state of that list.

Simplified: names fit into the buffers and only the program uses them; the texts are given (`ConfIncl` has how the
documents are taken apart for writing); the pieces of a backing store are in `XmlSave`; the lock is taken; what a
completed call did survives a crash (of the process: `fsync` is never called).
-/

namespace Mtev.ConfFile

abbrev Str := List Nat

structure Fs where
  file : Nat → Option Str
  tmp : Nat → Option Str

def put {α : Type} (f : Nat → α) (i : Nat) (v : α) : Nat → α := fun j => if j = i then v else f j

theorem put_same {α : Type} (f : Nat → α) (i : Nat) (v : α) : put f i v i = v := by simp [put]
theorem put_other {α : Type} (f : Nat → α) (i j : Nat) (v : α) (h : j ≠ i) : put f i v j = f j := by simp [put, h]

/-- how the calls for a file turn out -/
structure Luck where
  /-- `open` succeeds -/
  opens : Bool := true
  /-- `fchown` succeeds -/
  chowns : Bool := true
  /-- writing fails after so many bytes -/
  short : Option Nat := none
  /-- `rename` succeeds -/
  renames : Bool := true
deriving DecidableEq, Repr

/-- the included files in the order of `include_nodes`: number, read-only or without a document, text of the document,
luck, what is included from it, and the rest -/
inductive Incs where
  | nil
  | cons (path : Nat) (ro : Bool) (text : Str) (luck : Luck) (kids rest : Incs)
deriving DecidableEq, Repr

/-- the last state of a run -/
def final (fs : Fs) (l : List Fs) : Fs := l.getLast?.getD fs

/-- the states while a text is written to `p.tmp`, up to `n` bytes -/
def writing (fs : Fs) (p : Nat) (text : Str) (n : Nat) : List Fs :=
  (List.range n).map fun k => { fs with tmp := put fs.tmp p (some (text.take (k + 1))) }

/-- `rename(p.tmp, p)` -/
def rename (fs : Fs) (p : Nat) : Fs := { file := put fs.file p (fs.tmp p), tmp := put fs.tmp p none }

/-- `write_out_include_files`, `mtev_conf.c:541-590` -/
def writeIncs : Incs → Fs → List Fs
  | .nil, _ => []
  | .cons p ro text luck kids rest, fs =>
    let own : List Fs :=
      if ro then writeIncs kids fs
      else if luck.opens = false then []
      else
        let fs1 : Fs := { fs with tmp := put fs.tmp p (some []) }
        if luck.chowns = false then [fs1]
        else
          match luck.short with
          | some k => fs1 :: writing fs1 p text (min k text.length)
          | none =>
            let l1 := fs1 :: writing fs1 p text text.length
            let fs2 := final fs l1
            let l2 := writeIncs kids fs2
            let fs3 := final fs2 l2
            l1 ++ l2 ++ (if luck.renames then [rename fs3 p] else [])
    own ++ writeIncs rest (final fs own)

/-- how much of a text gets written -/
def written (luck : Luck) (text : Str) : Nat :=
  match luck.short with
  | some k => min k text.length
  | none => text.length

/-- `mtev_conf_write_file`, `mtev_conf.c:2645-2719`: the states and whether 0 is returned; `m` is the main file and
`text` its text -/
def writeFile (m : Nat) (text : Str) (luck : Luck) (incs : Incs) (fs : Fs) : List Fs × Bool :=
  let fs0 : Fs := { fs with tmp := put fs.tmp m none }
  if luck.opens = false then ([fs0], false)
  else
    let fs1 : Fs := { fs0 with tmp := put fs0.tmp m (some []) }
    if luck.chowns = false then ([fs0, fs1, { fs1 with tmp := put fs1.tmp m none }], false)
    else
      let l1 := fs0 :: fs1 :: writing fs1 m text (written luck text)
      let l2 := writeIncs incs (final fs l1)
      let fs3 := final (final fs l1) l2
      if luck.short.isSome ∨ text.length = 0 then (l1 ++ l2, false)
      else if luck.renames then (l1 ++ l2 ++ [rename fs3 m], true)
      else (l1 ++ l2, false)

/-! ### helpers -/

/-- the files that are written, each with its text -/
def Incs.writes : Incs → List (Nat × Str)
  | .nil => []
  | .cons p ro text _ kids rest => (if ro then [] else [(p, text)]) ++ kids.writes ++ rest.writes

/-- no file is included from itself -/
def Incs.NoSelf : Incs → Prop
  | .nil => True
  | .cons p _ _ _ kids rest => (∀ x ∈ kids.writes, x.1 ≠ p) ∧ kids.NoSelf ∧ rest.NoSelf

theorem final_append (fs : Fs) (a b : List Fs) : final fs (a ++ b) = final (final fs a) b := by
  unfold final
  rw [List.getLast?_append]
  cases b.getLast? <;> simp

theorem final_nil (fs : Fs) : final fs [] = fs := rfl
theorem final_cons (fs a : Fs) (l : List Fs) : final fs (a :: l) = final a l := by
  have := final_append fs [a] l
  simpa [final] using this

theorem final_mem (fs : Fs) (l : List Fs) : final fs l = fs ∨ final fs l ∈ l := by
  unfold final
  cases h : l.getLast? with
  | none => left; rfl
  | some x => right; exact List.mem_of_getLast? h

theorem final_mem_ne (fs : Fs) (l : List Fs) (h : l ≠ []) : final fs l ∈ l := by
  unfold final
  cases hl : l.getLast? with
  | none => rw [List.getLast?_eq_none_iff] at hl; exact absurd hl h
  | some x => exact List.mem_of_getLast? hl

theorem final_writing (fs : Fs) (p : Nat) (text : Str) (n : Nat) (h0 : fs.tmp p = some (text.take 0)) :
    final fs (writing fs p text n) = { fs with tmp := put fs.tmp p (some (text.take n)) } := by
  cases n with
  | zero =>
    rw [← h0]
    show fs = _
    have : put fs.tmp p (fs.tmp p) = fs.tmp := by
      funext j; unfold put; split
      · rename_i e; rw [e]
      · rfl
    rw [this]
  | succ n => simp [final, writing, List.range_succ]

/-- everything that holds of the start and is kept by what a call may do to the files holds in all states -/
theorem writeIncs_keeps (P : Fs → Prop)
    (hT : ∀ fs p v, P fs → P { fs with tmp := put fs.tmp p v })
    (i : Incs) (hR : ∀ x ∈ i.writes, ∀ fs, P fs → fs.tmp x.1 = some x.2 → P (rename fs x.1))
    (hself : i.NoSelf) :
    ∀ fs, P fs → (∀ g ∈ writeIncs i fs, P g) ∧
      ∀ q, (∀ x ∈ i.writes, x.1 ≠ q) → (final fs (writeIncs i fs)).tmp q = fs.tmp q := by
  induction i with
  | nil => intro fs _; exact ⟨by simp [writeIncs], fun _ _ => rfl⟩
  | cons p ro text luck kids rest ihk ihr =>
    intro fs h
    obtain ⟨hs1, hs2, hs3⟩ := hself
    have ihk := ihk (fun x hx => hR x (by simp [Incs.writes, hx])) hs2
    have ihr := ihr (fun x hx => hR x (by simp [Incs.writes, hx])) hs3
    have hW : ∀ fs1 : Fs, P fs1 → ∀ n, ∀ g ∈ writing fs1 p text n, P g := by
      intro fs1 h1 n g hg
      unfold writing at hg
      obtain ⟨k, _, rfl⟩ := List.mem_map.mp hg
      exact hT _ _ _ h1
    -- the part for this file
    have own : ∀ own : List Fs, (own = if ro = true then writeIncs kids fs
        else if luck.opens = false then []
        else
          let fs1 : Fs := { fs with tmp := put fs.tmp p (some []) }
          if luck.chowns = false then [fs1]
          else
            match luck.short with
            | some k => fs1 :: writing fs1 p text (min k text.length)
            | none =>
              let l1 := fs1 :: writing fs1 p text text.length
              let fs2 := final fs l1
              let l2 := writeIncs kids fs2
              let fs3 := final fs2 l2
              l1 ++ l2 ++ (if luck.renames = true then [rename fs3 p] else [])) →
        (∀ g ∈ own, P g) ∧
        ∀ q, (∀ x ∈ (Incs.cons p ro text luck kids rest).writes, x.1 ≠ q) → (final fs own).tmp q = fs.tmp q := by
      intro own e
      by_cases hro : ro = true
      · rw [if_pos hro] at e
        subst e
        refine ⟨(ihk fs h).1, fun q hq => (ihk fs h).2 q fun x hx => hq x (by simp [Incs.writes, hx])⟩
      · rw [if_neg hro] at e
        have hpq : ∀ q, (∀ x ∈ (Incs.cons p ro text luck kids rest).writes, x.1 ≠ q) → q ≠ p := by
          intro q hq e
          exact hq (p, text) (by simp [Incs.writes, hro]) e.symm
        by_cases ho : luck.opens = false
        · rw [if_pos ho] at e; subst e; exact ⟨by simp, fun _ _ => rfl⟩
        · rw [if_neg ho] at e
          simp only at e
          have h1 : P { fs with tmp := put fs.tmp p (some []) } := hT _ _ _ h
          by_cases hc : luck.chowns = false
          · rw [if_pos hc] at e
            subst e
            exact ⟨by simpa using h1, fun q hq => by simp [final, put_other _ _ _ _ (hpq q hq)]⟩
          · rw [if_neg hc] at e
            cases hs : luck.short with
            | some k =>
              rw [hs] at e
              simp only at e
              subst e
              refine ⟨?_, ?_⟩
              · intro g hg
                rcases List.mem_cons.mp hg with rfl | hg
                · exact h1
                · exact hW _ h1 _ g hg
              · intro q hq
                rw [final_cons, final_writing _ _ _ _ (by simp [put_same])]
                simp [put_other _ _ _ _ (hpq q hq)]
            | none =>
              rw [hs] at e
              simp only at e
              have e2 : final fs ({ fs with tmp := put fs.tmp p (some []) }
                  :: writing { fs with tmp := put fs.tmp p (some []) } p text text.length)
                  = { fs with tmp := put (put fs.tmp p (some [])) p (some text) } := by
                rw [final_cons, final_writing _ _ _ _ (by simp [put_same]), List.take_length]
              rw [e2] at e
              have h2 : P { fs with tmp := put (put fs.tmp p (some [])) p (some text) } := hT _ _ _ h1
              have hk := ihk _ h2
              have h3 : P (final { fs with tmp := put (put fs.tmp p (some [])) p (some text) }
                  (writeIncs kids { fs with tmp := put (put fs.tmp p (some [])) p (some text) })) := by
                rcases final_mem { fs with tmp := put (put fs.tmp p (some [])) p (some text) }
                  (writeIncs kids { fs with tmp := put (put fs.tmp p (some [])) p (some text) }) with e | e
                · rw [e]; exact h2
                · exact hk.1 _ e
              have ht := hk.2 p hs1
              simp only [put_same] at ht
              have h4 := hR (p, text) (by simp [Incs.writes, hro]) _ h3 ht
              subst e
              refine ⟨?_, ?_⟩
              · intro g hg
                rcases List.mem_append.mp hg with hg | hg
                · rcases List.mem_append.mp hg with hg | hg
                  · rcases List.mem_cons.mp hg with rfl | hg
                    · exact h1
                    · exact hW _ h1 _ g hg
                  · exact hk.1 g hg
                · split at hg
                  · rw [List.mem_singleton.mp hg]; exact h4
                  · simp at hg
              · intro q hq
                have hkq := hk.2 q (fun x hx => hq x (by simp [Incs.writes, hx]))
                have hq' := hpq q hq
                rw [final_append, final_append, e2]
                have e3 : (put (put fs.tmp p (some [])) p (some text)) q = fs.tmp q := by
                  simp [put_other _ _ _ _ hq']
                split
                · show (rename _ p).tmp q = _
                  unfold rename
                  simp only [put_other _ _ _ _ hq']
                  rw [hkq]; exact e3
                · show (final _ []).tmp q = _
                  rw [final_nil, hkq]; exact e3
    unfold writeIncs
    simp only
    generalize hown : (if ro = true then writeIncs kids fs
        else if luck.opens = false then []
        else
          if luck.chowns = false then [_]
          else _) = o
    obtain ⟨o1, o2⟩ := own o hown.symm
    have hf : P (final fs o) := by
      rcases final_mem fs o with e | e
      · rw [e]; exact h
      · exact o1 _ e
    obtain ⟨r1, r2⟩ := ihr (final fs o) hf
    refine ⟨?_, ?_⟩
    · intro g hg
      rcases List.mem_append.mp hg with hg | hg
      · exact o1 g hg
      · exact r1 g hg
    · intro q hq
      rw [final_append, r2 q (fun x hx => hq x (by simp [Incs.writes, hx])), o2 q hq]

end Mtev.ConfFile
