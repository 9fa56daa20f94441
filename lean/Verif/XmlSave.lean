import Verif.Mem

/-!
# Saving a piece of the configuration

`src/mtev_xml.c:93-151`: `mtev_xmlSaveToFile`, call by call, with crashes between any two calls and calls
that fail; and how `src/mtev_conf.c:1195-1276` (`mtev_conf_read_into_node`) reads such pieces back.

Three names matter, `x`, `x.tmp` and `x.bak`; each is absent or has contents.  (A hard link and its
origin share contents; nothing is written to a file once it has been linked, so contents are kept by value.)

Simplified: nobody else uses the three names; the names fit into the buffers; what a completed call did
survives a crash (of the process; `fsync` is never called, so nothing is claimed about power failures).
-/

namespace Mtev.XmlSave

abbrev Str := List Nat

structure Fs where
  file : Option Str := none
  tmp : Option Str := none
  bak : Option Str := none
deriving DecidableEq, Repr

/-- where the function is -/
inductive Pc where
  /-- `link(filename, bakfile)`, `mtev_xml.c:104` -/
  | backup
  /-- `unlink(bakfile)`, line 112 -/
  | dropBak
  /-- `unlink(filename)`, line 105 -/
  | dropFile
  /-- `open(tmpfile, O_EXCL…)`, line 124 -/
  | create
  /-- `unlink(tmpfile)`, line 132 -/
  | dropTmp
  /-- `xmlSaveFormatFileTo`, line 140 -/
  | write
  /-- `link(tmpfile, filename)`, line 143 -/
  | publish
  /-- `link(bakfile, filename)`, line 145 -/
  | restore
  /-- `unlink(tmpfile)`, line 147 -/
  | rmTmp
  /-- `unlink(bakfile)`, line 148-149 -/
  | rmBak
  /-- returned; was it 0? -/
  | done (ok : Bool)
deriving DecidableEq, Repr

structure St where
  fs : Fs
  pc : Pc := .backup
  once : Bool := true
  haveBackup : Bool := false
  /-- `rv == 0`, once it has been set -/
  rv : Bool := false
  /-- how much has been written -/
  pos : Nat := 0
deriving DecidableEq, Repr

/-- how a call turns out -/
inductive Ev where
  /-- as the files have it -/
  | ok
  /-- it fails for another reason -/
  | fail
  /-- the directory is missing and can be made, line 128-130 -/
  | nodir
  /-- (writing) so many bytes more get written -/
  | put (n : Nat)
deriving DecidableEq, Repr

/-- opening the temporary file, `mtev_xml.c:124-136` -/
def create (s : St) (e : Ev) : St :=
  if e = .fail then { s with pc := .done false }
  else if e = .nodir ∨ s.fs.tmp ≠ none then
    if s.once then { s with once := false, pc := if e = .nodir then .create else .dropTmp }
    else { s with pc := .done false }
  else { s with fs := { s.fs with tmp := some [] }, pos := 0, pc := .write }

/-- one call; `new` is the text to be saved -/
def step (new : Str) (s : St) (e : Ev) : St :=
  match s.pc with
  | .backup =>
    if e = .fail then { s with pc := .done false }
    else
      match s.fs.file with
      | none => { s with pc := .create }
      | some c =>
        match s.fs.bak with
        | some _ => if s.once then { s with once := false, pc := .dropBak } else { s with pc := .done false }
        | none => { s with fs := { s.fs with bak := some c }, pc := .dropFile }
  | .dropBak => { s with fs := if e = .fail then s.fs else { s.fs with bak := none }, pc := .backup }
  | .dropFile =>
    { s with fs := if e = .fail then s.fs else { s.fs with file := none }, haveBackup := true, pc := .create }
  | .create => create s e
  | .dropTmp => { s with fs := if e = .fail then s.fs else { s.fs with tmp := none }, pc := .create }
  | .write =>
    match e with
    | .put n => { s with pos := s.pos + n, fs := { s.fs with tmp := some (new.take (s.pos + n)) } }
    | .fail => { s with rv := true, pc := .publish }
    | _ =>
      -- everything that is left
      { s with fs := { s.fs with tmp := some new }, rv := true, pc := .publish }
  | .publish =>
    if e = .fail ∨ s.fs.file ≠ none then { s with rv := false, pc := .restore }
    else { s with fs := { s.fs with file := s.fs.tmp }, pc := .rmTmp }
  | .restore =>
    if e = .fail ∨ s.fs.bak = none ∨ s.fs.file ≠ none then { s with haveBackup := false, pc := .rmTmp }
    else { s with fs := { s.fs with file := s.fs.bak }, pc := .rmTmp }
  | .rmTmp => { s with fs := if e = .fail then s.fs else { s.fs with tmp := none }, pc := .rmBak }
  | .rmBak =>
    { s with fs := if e = .fail ∨ s.haveBackup = false then s.fs else { s.fs with bak := none }
             pc := .done s.rv }
  | .done _ => s

def run (new : Str) (s : St) (es : List Ev) : St := es.foldl (step new) s

/-- a call of the function up to some point -/
def save (new : Str) (fs : Fs) (es : List Ev) : St := run new { fs } es

/-- a write does not fail -/
def full (new : Str) (s : St) : List Ev → Prop
  | [] => True
  | e :: es => (s.pc = .write → e ≠ .fail) ∧ full new (step new s e) es

instance (new : Str) : ∀ (s : St) (es : List Ev), Decidable (full new s es)
  | _, [] => inferInstanceAs (Decidable True)
  | s, e :: es =>
    have := instDecidableFull new (step new s e) es
    inferInstanceAs (Decidable ((s.pc = .write → e ≠ .fail) ∧ full new (step new s e) es))

/-! ### reading back -/

/-- `mtev_conf_read_into_node` for an element stored in a file of its own: every name in the directory that has
a `#` in it is read, `mtev_conf.c:1232-1270`, so also `x#1.xml.tmp` and `x#1.xml.bak`; what does not parse is left
out -/
def readElement (parses : Str → Bool) (fs : Fs) : List Str :=
  ([fs.file, fs.tmp, fs.bak].filterMap id).filter parses

/-- `mtev_conf_read_into_node` for the attributes of an element: the file `.attrs` and nothing else,
`mtev_conf.c:1207-1217` -/
def readAttrs (parses : Str → Bool) (fs : Fs) : Option Str := fs.file.filter parses

/-! ### the invariant -/

/-- what a careful reader would take -/
def Fs.current (fs : Fs) : Option Str := fs.file.or fs.bak

structure Inv (new : Str) (was : Option Str) (s : St) : Prop where
  cur : match s.pc with
    | .backup | .dropBak | .dropFile | .create | .dropTmp | .write | .publish | .restore =>
      s.fs.current = was
    | .rmTmp | .rmBak => if s.rv = true then s.fs.file = some new else s.fs.current = was
    | .done ok => if ok = true then s.fs.file = some new else s.fs.current = was
  tmp : match s.pc with
    | .publish => s.fs.tmp = some new ∧ s.rv = true
    | .restore => s.rv = false
    | _ => True
  hb : s.haveBackup = true → (match s.pc with
    | .create | .dropTmp | .write | .publish | .restore => s.fs.bak = was
    | .rmTmp | .rmBak => s.fs.file ≠ none
    | .done _ => True
    | _ => False)
  drop : match s.pc with
    | .dropBak => s.fs.file ≠ none
    | .dropFile => s.fs.bak = was ∧ was ≠ none
    | _ => True
  some_ : s.haveBackup = true → was ≠ none
  /-- once a return value is being prepared -/
  rvs : match s.pc with
    | .backup | .dropBak | .dropFile | .create | .dropTmp | .write => s.rv = false
    | _ => True

theorem Inv.start (new : Str) (fs : Fs) : Inv new fs.current { fs } := by
  constructor <;> simp

theorem Inv.step {new : Str} {was : Option Str} {s : St} (h : Inv new was s) (e : Ev)
    (hf : s.pc = .write → e ≠ .fail) : Inv new was (step new s e) := by
  obtain ⟨⟨file, tmp, bak⟩, pc, once, hb, rv, pos⟩ := s
  obtain ⟨h1, h2, h3, h4, h5, h6⟩ := h
  cases pc <;> simp only [Fs.current] at h1 h2 h3 h4 h5 h6 hf <;> unfold XmlSave.step <;> simp only
  case backup =>
    subst h1
    have hb0 : hb = false := by cases hb; rfl; exact absurd rfl h3
    subst hb0
    split
    · constructor <;> simp_all [Fs.current]
    · cases file with
      | none => constructor <;> simp_all [Fs.current]
      | some c =>
        cases bak with
        | none => constructor <;> simp_all [Fs.current]
        | some b => cases once <;> (constructor <;> simp_all [Fs.current])
  case dropBak =>
    subst h1
    have hb0 : hb = false := by cases hb; rfl; exact absurd rfl h3
    subst hb0
    cases file with
    | none => simp at h4
    | some c => split <;> (constructor <;> simp_all [Fs.current])
  case dropFile =>
    obtain ⟨h41, h42⟩ := h4
    cases file with
    | none => split <;> (constructor <;> simp_all [Fs.current])
    | some c => split <;> (constructor <;> simp_all [Fs.current])
  case create =>
    unfold XmlSave.create
    by_cases e1 : e = .fail
    · rw [if_pos e1]; constructor <;> simp_all [Fs.current]
    · rw [if_neg e1]
      by_cases e2 : e = .nodir
      · cases once <;> (constructor <;> simp_all [Fs.current])
      · cases tmp with
        | none => constructor <;> simp_all [Fs.current]
        | some c => cases once <;> (constructor <;> simp_all [Fs.current])
  case dropTmp => split <;> (constructor <;> simp_all [Fs.current])
  case write =>
    cases e <;> simp only <;> (constructor <;> simp_all [Fs.current])
  case publish =>
    split
    · constructor <;> simp_all [Fs.current]
    · rename_i hn
      push Not at hn
      constructor <;> simp_all [Fs.current]
  case restore =>
    split
    · constructor <;> simp_all [Fs.current]
    · rename_i hn
      push Not at hn
      cases bak with
      | none => simp at hn
      | some b => constructor <;> simp_all [Fs.current]
  case rmTmp => split <;> (constructor <;> simp_all [Fs.current])
  case rmBak =>
    split
    · constructor <;> simp_all [Fs.current]
    · rename_i hn
      push Not at hn
      cases file with
      | none => simp_all
      | some c => constructor <;> simp_all [Fs.current]
  case done => constructor <;> simp_all [Fs.current]

theorem Inv.run {new : Str} {was : Option Str} : ∀ (es : List Ev) {s : St}, Inv new was s → full new s es →
    Inv new was (run new s es)
  | [], _, h, _ => h
  | e :: es, _, h, hf => Inv.run es (h.step e hf.1) hf.2

end Mtev.XmlSave
