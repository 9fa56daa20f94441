import Verif.Mem

/-!
# Making the directories for a file

`src/utils/mtev_mkdir.c:39-61`, and `mkdir(2)` as far as it matters.

A file system tells for each place what is there.  A place is a list of names, from the root (for a path that begins with
a slash) or from the working directory.

Simplified: no symbolic links, no `.` or `..` in the path; nobody else changes the file system during the call; `mkdir`
can be refused for other reasons (`EACCES`, `ENOSPC`, ...), for each place always or never.  `PATH_MAX` is 4096.
-/

namespace Mtev.Mkdir

abbrev Str := List Nat

inductive Kind where
  | dir
  | file
deriving DecidableEq, Repr

/-- from the root or not, and the names -/
abbrev Place := Bool × List Str

abbrev Fs := Place → Option Kind

/-- a name that is complete, if there is one -/
def flush (acc : Str) : List Str := if acc = [] then [] else [acc]

/-- the names in a path -/
def go : Str → Str → List Str
  | acc, [] => flush acc
  | acc, c :: t => if c = 47 then flush acc ++ go [] t else go (acc ++ [c]) t

def comps (p : Str) : List Str := go [] p

def isAbs (p : Str) : Bool := p.head? == some 47

def place (p : Str) : Place := (isAbs p, comps p)

/-- the results of `mkdir` that are told apart -/
inductive Res where
  | ok
  | eexist
  | enoent
  | other
deriving DecidableEq, Repr

/-- how `mkdir` looks up its path: the names before the last one must be directories -/
def walk (fs : Fs) (b : Bool) : List Str → List Str → Res
  | _, [] => .eexist
  | pre, [c] =>
    match fs (b, pre ++ [c]) with
    | some _ => .eexist
    | none => .ok
  | pre, c :: d :: t =>
    match fs (b, pre ++ [c]) with
    | some .dir => walk fs b (pre ++ [c]) (d :: t)
    | some .file => .other
    | none => .enoent

def put (fs : Fs) (p : Place) : Fs := fun q => if q = p then some .dir else fs q

/-- `mkdir(2)` -/
def mkdir (allowed : Place → Bool) (fs : Fs) (p : Str) : Fs × Res :=
  if p = [] then (fs, .enoent)
  else if walk fs (isAbs p) [] (comps p) = .ok then
    if allowed (place p) then (put fs (place p), .ok) else (fs, .other)
  else (fs, walk fs (isAbs p) [] (comps p))

/-- `while(eos > path && *eos != '/') eos--`, `mtev_mkdir.c:49` -/
def scan (f : Str) : Nat → Nat
  | 0 => 0
  | i + 1 => if f[i + 1]? = some 47 then i + 1 else scan f i

theorem scan_le (f : Str) : ∀ i, scan f i ≤ i
  | 0 => Nat.le_refl _
  | i + 1 => by
    unfold scan
    split
    · exact Nat.le_refl _
    · exact Nat.le_succ_of_le (scan_le f i)

/-- the path up to the slash, `mtev_mkdir.c:47-54`: `strlcpy` cuts the copy off at 4095 bytes, `eos` starts from the length
of the whole -/
def cut (f : Str) : Option Str :=
  let e := scan (f.take 4095) (f.length - 1)
  if e = 0 then none else some (f.take e)

theorem cut_lt {f d : Str} (h : cut f = some d) : d.length < f.length := by
  unfold cut at h
  simp only at h
  split at h
  · cases h
  · rename_i h0
    simp only [Option.some.injEq] at h
    subst h
    have := scan_le (f.take 4095) (f.length - 1)
    simp only [List.length_take]
    omega

/-- `mkdir_for_file`, `mtev_mkdir.c:39-61` -/
def mkdirForFile (allowed : Place → Bool) (fs : Fs) (f : Str) : Out (Fs × Bool) :=
  if f = [] then .ok (fs, false)
  else if f.length > 4096 then .ub
  else
    match h : cut f with
    | none => .ok (fs, false)
    | some d =>
      match mkdir allowed fs d with
      | (fs1, .ok) => .ok (fs1, true)
      | (fs1, .eexist) => .ok (fs1, true)
      | (fs1, .enoent) =>
        match mkdirForFile allowed fs1 d with
        | .ok (fs2, true) => .ok ((mkdir allowed fs2 d).1, (mkdir allowed fs2 d).2 == .ok || (mkdir allowed fs2 d).2 == .eexist)
        | .ok (fs2, false) => .ok (fs2, false)
        | .ub => .ub
        | .abort => .abort
      | (fs1, .other) => .ok ((mkdir allowed fs1 d).1, (mkdir allowed fs1 d).2 == .ok || (mkdir allowed fs1 d).2 == .eexist)
termination_by f.length
decreasing_by exact cut_lt h

end Mtev.Mkdir
