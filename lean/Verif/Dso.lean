import Verif.Basic
import Verif.Mem
import Mathlib.Tactic.Common

/-!
Model of loading modules at start (src/mtev_dso.c): finding the image of a
module, loading it, and the passes of `mtev_dso_init` over the configured
generic modules and loaders.  The dynamic linker is a function from file
names to images; what a module's callbacks answer is part of the image.
-/

namespace Mtev.Dso

abbrev Str := List Nat

/-- What `dlsym` finds: a description of a module
(src/mtev_dso.h: mtev_image_t, mtev_dso_generic_t, mtev_dso_loader_t) with
what its callbacks answer; `none`: it has no such callback.  `magic` tells
whether the magic number and the version are the right ones. -/
structure Sym where
  magic : Bool
  onload : Option Bool
  config : Option Int
  init : Option Bool
  deriving DecidableEq, Repr

/-- A shared object: its symbols. -/
abbrev Image := Str → Option Sym

/-- The dynamic linker: `dlopen` of a path. -/
abbrev Linker := Str → Option Image

/-- `MTEV_MODULES_DIR` and `MODULEEXT` are settings of the build. -/
structure Build where
  dir : Str
  ext : Str

/-- `strtok_r` with ";:" (src/mtev_dso.c:156-158): the parts between the
separators that are not empty; `acc` is the part so far, reversed. -/
def tokens : Str → Str → List Str
  | [], acc => if acc = [] then [] else [acc.reverse]
  | c :: s, acc =>
    if c = 59 ∨ c = 58 then (if acc = [] then tokens s [] else acc.reverse :: tokens s [])
    else tokens s (c :: acc)

/-- The path of a module in a directory, in a buffer of PATH_MAX = 4096
bytes (src/mtev_dso.c:159-160). -/
def pathIn (b : Build) (base file : Str) : Str :=
  (base ++ 47 :: (file ++ 46 :: b.ext)).take 4095

/-- The first image that opens. -/
def firstOpen (ld : Linker) : List Str → Option Image
  | [] => none
  | p :: r => match ld p with
    | some i => some i
    | none => firstOpen ld r

/-- Finding the image (src/mtev_dso.c:148-178): `dirs` is the configured
list of directories, or `none`. -/
def find (b : Build) (ld : Linker) (dirs : Option Str) (file : Str) : Option Image :=
  if file.head? = some 47 then ld (file.take 4095)
  else
    match firstOpen ld ((tokens (dirs.getD b.dir) []).map (fun base => pathIn b base file)) with
    | some i => some i
    | none => ld (pathIn b b.dir file)

/-- The part of a name after its last colon (src/mtev_dso.c:186-188):
`strrchr`. -/
def symName (name : Str) : Str :=
  if name.contains 58 then (name.reverse.takeWhile (fun c => decide (c ≠ 58))).reverse else name

/-- Which callback was called for which module. -/
inductive Ev where
  | onload (gen : Bool) (name : Str)
  | config (gen : Bool) (name : Str)
  | init (gen : Bool) (name : Str)
  deriving DecidableEq, Repr

/-- The registries (`generics`, `loaders`: names and what was loaded), the
count of failures, the callbacks called (latest last), and the tables of
settings that nobody releases. -/
structure St where
  reg : List ((Bool × Str) × Sym)
  fails : Nat
  evs : List Ev
  leaks : Nat
  deriving Repr

/-- At the start of the program. -/
def St.start : St := ⟨[], 0, [], 0⟩

/-- Is a module of this kind and name loaded? -/
def loaded (s : St) (gen : Bool) (name : Str) : Bool := s.reg.any (fun e => decide (e.1 = (gen, name)))

/-- `mtev_load_image` once the image is found (src/mtev_dso.c:186-222). -/
def loadSym (s : St) (gen : Bool) (name : Str) (im : Image) : St × Option Sym :=
  match im (symName name) with
  | none => (s, none)
  | some y =>
    if !y.magic then (s, none)
    else
      let s1 := match y.onload with
        | none => s
        | some _ => { s with evs := s.evs ++ [.onload gen name] }
      if y.onload = some false then (s1, none)
      else if loaded s gen name then (s1, none)
      else ({ s1 with reg := s1.reg ++ [((gen, name), y)] }, some y)

/-- A stanza of the configuration: `<generic name= image=>` or
`<loader ...>`; `off` when it is switched off by the environment. -/
structure Stanza where
  gen : Bool
  name : Option Str
  image : Option Str
  off : Bool
  deriving DecidableEq, Repr

/-- `mtev_load_generic_image` and `mtev_load_loader_image`
(src/mtev_dso.c:224-265): the second counts the failure itself. -/
def loadImage (b : Build) (ld : Linker) (dirs : Option Str) (s : St) (gen : Bool) (name : Str)
    (image : Option Str) : St × Option Sym :=
  match image with
  | none => (s, none)
  | some file =>
    match find b ld dirs file with
    | none => (if gen then s else { s with fails := s.fails + 1 }, none)
    | some im =>
      match loadSym s gen name im with
      | (s1, none) => (if gen then s1 else { s1 with fails := s1.fails + 1 }, none)
      | (s1, some y) => (s1, some y)

/-- What becomes of a loaded module: configured and initialised
(src/mtev_dso.c:301-330, 357-386). -/
def bringUp (s : St) (gen : Bool) (name : Str) (y : Sym) : St :=
  let s1 := match y.config with
    | none => s
    | some rv => { s with evs := s.evs ++ [.config gen name], leaks := s.leaks + (if rv < 0 then 1 else 0) }
  if (match y.config with | some rv => decide (rv < 0) | none => false) then
    (if gen then s1 else { s1 with fails := s1.fails + 1 })
  else
    match y.init with
    | none => s1
    | some ok =>
      let s2 := { s1 with evs := s1.evs ++ [.init gen name] }
      if ok then s2 else (if gen then { s2 with fails := s2.fails + 1 } else s2)

/-- One stanza (src/mtev_dso.c:276-331, 335-387). -/
def stanza (b : Build) (ld : Linker) (dirs : Option Str) (s : St) (z : Stanza) : St :=
  match z.name with
  | none => s
  | some name =>
    if z.off then s
    else
      match loadImage b ld dirs s z.gen name z.image with
      | (s1, none) => { s1 with fails := s1.fails + 1 }
      | (s1, some y) => bringUp s1 z.gen name y

/-- `mtev_dso_init` (src/mtev_dso.c:267-389): the generic modules of the
configuration, then the loaders, each in the order of the file. -/
def dsoInit (b : Build) (ld : Linker) (dirs : Option Str) (s : St) (zs : List Stanza) : St :=
  (zs.filter (fun z => z.gen) ++ zs.filter (fun z => !z.gen)).foldl (stanza b ld dirs) s

end Mtev.Dso
