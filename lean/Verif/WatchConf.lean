import Verif.Basic
import Verif.Mem

/-!
# What a managed application is started with

`src/mtev_main.c`: `mtev_main_load_managed`; `src/utils/mtev_watchdog.c`:
`mtev_watchdog_manage` and the `execve` in `launch_managed`.

Simplified: the configuration is given as what `mtev_conf_get_string` answers for
the attributes and the `arg` and `env` elements of an application (`none`: no
answer); the log streams are left out; a list of strings ended by `NULL` is a list
of `Option`s.
-/

namespace Mtev.WatchConf

open Mtev

abbrev Str := List Nat

/-- an `application` element -/
structure Conf where
  attr : Str → Option Str
  args : List (Option Str)
  envs : List (Option Str)
  /-- switched off for this host, `mtev_conf_env_off`, `mtev_main.c:352` -/
  off : Bool := false

/-- what the monitor keeps about an application, `mtev_watchdog.c:211-222` -/
structure Managed where
  file : Str
  argv : List Str
  envp : List Str
  user : Option Str
  group : Option Str
  dir : Option Str
deriving DecidableEq, Repr

/-- the byte `=` -/
def eq : Nat := 61

/-- `getenv`: the value of the first `name=value`; an empty name has none -/
def getenv (environ : List Str) (name : Str) : Option Str :=
  if name = [] then none
  else (environ.find? fun e => (name ++ [eq]).isPrefixOf e).map fun e => e.drop (name.length + 1)

/-- `mtev_main.c:375-384`: `argv` -/
def buildArgv (file : Str) (c : Conf) : List Str :=
  ((c.attr (bytesOf "arg0")).getD file) :: c.args.map fun a => a.getD []

/-- what one `env` element puts into its slot, `mtev_main.c:395-412`; `none`: the
slot is used again -/
def slot (environ : List Str) : Option Str → Option Str
  | none => none
  | some e =>
    if eq ∈ e then some e
    else
      match getenv environ e with
      | none => none
      | some v => some ((e ++ [eq] ++ v).take 8191)

/-- the loop over the `env` elements, `mtev_main.c:394-412`, from element `j` on;
slot `j + envcnt` is written.  A write behind the end of the array is undefined. -/
def envLoop (environ : List Str) : List (Option Str) → Nat → Int → List (Option Str) →
    Out (List (Option Str) × Int)
  | [], _, cnt, slots => .ok (slots, cnt)
  | p :: ps, j, cnt, slots =>
    let at_ := (j : Int) + cnt
    if at_ < 0 ∨ slots.length ≤ at_.toNat then .ub
    else
      match slot environ p with
      | none => envLoop environ ps (j + 1) (cnt - 1) (slots.set at_.toNat none)
      | some e => envLoop environ ps (j + 1) cnt (slots.set at_.toNat (some e))

/-- a list of strings up to the `NULL` -/
def upToNull : List (Option Str) → List Str
  | some s :: r => s :: upToNull r
  | _ => []

/-- `mtev_main.c:386-413`: `envp`; `calloc(nparams+envcnt+1)`, the parent's, then
the elements, then `NULL` -/
def buildEnv (environ : List Str) (envs : List (Option Str)) : Out (List Str) :=
  let slots := environ.map some ++ List.replicate (envs.length + 1) none
  match envLoop environ envs 0 environ.length slots with
  | .ok (slots, cnt) =>
    let at_ := (envs.length : Int) + cnt
    if at_ < 0 ∨ slots.length ≤ at_.toNat then .ub
    else .ok (upToNull (slots.set at_.toNat none))
  | .ub => .ub
  | .abort => .abort

/-- `mtev_main_load_managed` for one application, `mtev_main.c:349-441`; `none`
when it is skipped -/
def loadOne (environ : List Str) (inuser ingroup : Option Str) (foreground : Bool) (c : Conf) :
    Out (Option Managed) :=
  if c.off then .ok none
  else
    match c.attr (bytesOf "exec") with
    | none => .ok none
    | some file =>
      if foreground then .ok none
      else
        match buildEnv environ c.envs with
        | .ok envp =>
          .ok (some ⟨file, buildArgv file c, envp, c.attr (bytesOf "user") <|> inuser,
            c.attr (bytesOf "group") <|> ingroup, c.attr (bytesOf "dir")⟩)
        | .ub => .ub
        | .abort => .abort

/-- the byte `/` -/
def slash : Nat := 47

/-- the file `execve` starts, `mtev_watchdog.c:297`: a name that does not begin with
a slash is looked up in the directory the process is in -/
def execFile (m : Managed) (cwd : Str) : Str :=
  if m.file.head? = some slash then m.file else (m.dir.getD cwd) ++ [slash] ++ m.file

/-! ### the loop -/

/-- the slots while the loop runs: `done` filled, the rest empty -/
theorem envLoop_spec (environ : List Str) : ∀ (ps : List (Option Str)) (j : Nat) (cnt : Int)
    (filled : List Str) (k : Nat), (j : Int) + cnt = filled.length → ps.length ≤ k →
    envLoop environ ps j cnt (filled.map some ++ List.replicate k none)
      = .ok ((filled ++ ps.filterMap (slot environ)).map some
          ++ List.replicate (k - (ps.filterMap (slot environ)).length) none,
        ((filled ++ ps.filterMap (slot environ)).length : Int) - (j + ps.length))
  | [], j, cnt, filled, k, h, _ => by
    simp only [envLoop, List.filterMap_nil, List.append_nil, List.length_nil]
    congr 2
    simp; omega
  | p :: ps, j, cnt, filled, k, h, hk => by
    simp only [List.length_cons] at hk
    unfold envLoop
    simp only
    have h1 : ((j : Int) + cnt).toNat = filled.length := by omega
    rw [if_neg (by
      rw [h1]
      simp only [List.length_append, List.length_map, List.length_replicate]
      omega)]
    rw [h1]
    have hset : ∀ x : Option Str, (filled.map some ++ List.replicate k none).set filled.length x
        = filled.map some ++ x :: List.replicate (k - 1) none := by
      intro x
      rw [List.set_append_right _ _ (by simp)]
      obtain ⟨k', rfl⟩ : ∃ k', k = k' + 1 := ⟨k - 1, by omega⟩
      simp [List.replicate_succ]
    cases hs : slot environ p with
    | none =>
      simp only
      rw [hset none]
      have : (none : Option Str) :: List.replicate (k - 1) none = List.replicate k none := by
        obtain ⟨k', rfl⟩ : ∃ k', k = k' + 1 := ⟨k - 1, by omega⟩
        simp [List.replicate_succ]
      rw [this, envLoop_spec environ ps (j + 1) (cnt - 1) filled k (by push_cast; omega) (by omega)]
      simp only [List.filterMap_cons, hs, List.length_cons]
      congr 2
      push_cast; omega
    | some e =>
      simp only
      rw [hset (some e)]
      have : filled.map some ++ some e :: List.replicate (k - 1) none
          = (filled ++ [e]).map some ++ List.replicate (k - 1) none := by simp
      rw [this, envLoop_spec environ ps (j + 1) cnt (filled ++ [e]) (k - 1) (by push_cast; simp; omega) (by omega)]
      simp only [List.filterMap_cons, hs, List.length_cons, List.append_assoc, List.singleton_append]
      congr 2
      · congr 2
        omega
      · push_cast; omega

theorem upToNull_spec (l : List Str) (k : Nat) : upToNull (l.map some ++ List.replicate (k + 1) none) = l := by
  induction l with
  | nil => simp [upToNull, List.replicate_succ]
  | cons a l ih => simp [upToNull, ih]

theorem buildEnv_eq (environ : List Str) (envs : List (Option Str)) :
    buildEnv environ envs = .ok (environ ++ envs.filterMap (slot environ)) := by
  unfold buildEnv
  simp only
  rw [envLoop_spec environ envs 0 environ.length environ (envs.length + 1) (by simp) (by omega)]
  simp only
  have hle : (envs.filterMap (slot environ)).length ≤ envs.length := List.length_filterMap_le _ _
  have h1 : ((envs.length : Int) + (((environ ++ envs.filterMap (slot environ)).length : Int)
      - ((0 : Nat) + envs.length))).toNat = (environ ++ envs.filterMap (slot environ)).length := by
    omega
  rw [if_neg (by
    rw [h1]
    simp only [List.length_append, List.length_map, List.length_replicate]
    omega)]
  rw [h1]
  obtain ⟨k, hk⟩ : ∃ k, envs.length + 1 - (envs.filterMap (slot environ)).length = k + 1 := ⟨_, by
    rw [Nat.succ_sub hle]⟩
  rw [hk, List.set_append_right _ _ (by simp)]
  have : (List.replicate (k + 1) (none : Option Str)).set
      ((environ ++ envs.filterMap (slot environ)).length
        - ((environ ++ envs.filterMap (slot environ)).map some).length) none
      = List.replicate (k + 1) none := by
    simp [List.replicate_succ]
  rw [this, upToNull_spec]

end Mtev.WatchConf
