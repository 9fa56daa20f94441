import Verif.WatchConf

/-!
# C100: a managed application is started as configured

`docs-md/config/managed.md`.
-/

namespace Mtev.WatchConf

open Mtev

/-- what an `env` element stands for: `NAME=VALUE` as it is, and `NAME` for the
parent's value, if it has one -/
inductive Means (environ : List Str) : Option Str → List Str → Prop where
  | given (e : Str) (h : eq ∈ e) : Means environ (some e) [e]
  | pulled (e v : Str) (h : eq ∉ e) (hv : getenv environ e = some v) :
      Means environ (some e) [e ++ [eq] ++ v]
  | missing (e : Str) (h : eq ∉ e) (hv : getenv environ e = none) : Means environ (some e) []
  | empty : Means environ none []

/-- **C100 (environment).** The environment of an application is the parent's,
followed by what the `env` elements stand for, in order.  Partial: a value pulled
from the parent is less than 8191 bytes with its name (see
`C100_cut_violated`), and the parent's environment is always there (see
`C100_environment_violated`). -/
theorem C100_env_partial (environ : List Str) (envs : List (Option Str))
    (hlen : ∀ e v, some e ∈ envs → getenv environ e = some v → e.length + 1 + v.length ≤ 8191) :
    ∃ ls : List (List Str), List.Forall₂ (Means environ) envs ls ∧
      buildEnv environ envs = .ok (environ ++ ls.flatten) := by
  rw [buildEnv_eq]
  suffices h : ∃ ls : List (List Str), List.Forall₂ (Means environ) envs ls ∧
      envs.filterMap (slot environ) = ls.flatten by
    obtain ⟨ls, h1, h2⟩ := h
    exact ⟨ls, h1, by rw [h2]⟩
  induction envs with
  | nil => exact ⟨[], .nil, rfl⟩
  | cons p ps ih =>
    obtain ⟨ls, h1, h2⟩ := ih (fun e v he => hlen e v (by simp [he]))
    cases p with
    | none => exact ⟨[] :: ls, .cons .empty h1, by
        rw [List.filterMap_cons_none rfl, h2]; rfl⟩
    | some e =>
      by_cases he : eq ∈ e
      · exact ⟨[e] :: ls, .cons (.given e he) h1, by simp [slot, he, h2]⟩
      · cases hv : getenv environ e with
        | none => exact ⟨[] :: ls, .cons (.missing e he hv) h1, by simp [slot, he, hv, h2]⟩
        | some v =>
          have := hlen e v (by simp) hv
          refine ⟨[e ++ [eq] ++ v] :: ls, .cons (.pulled e v he hv) h1, ?_⟩
          have ht : (e ++ [eq] ++ v).take 8191 = e ++ [eq] ++ v := by
            rw [List.take_of_length_le]; simp; omega
          simp only [List.filterMap_cons, slot, if_neg he, hv, ht, h2]
          rfl

example : buildEnv [bytesOf "HOME=/", bytesOf "LANG=C"]
    [some (bytesOf "A=1"), some (bytesOf "NONE"), none, some (bytesOf "LANG"), some (bytesOf "B=2")]
      = .ok [bytesOf "HOME=/", bytesOf "LANG=C", bytesOf "A=1", bytesOf "LANG=C", bytesOf "B=2"] := by
  decide +kernel

/-- **C100 (arguments).** An application that is not switched off and has a file to
execute gets, when the monitor is not in the foreground: its name (the file, or
`arg0` if that is given) and the texts of the `arg` elements, all of them and in
order; the user, group and directory configured, or the program's user and group. -/
theorem C100_args (environ : List Str) (inuser ingroup : Option Str) (c : Conf) (file : Str)
    (hoff : c.off = false) (hf : c.attr (bytesOf "exec") = some file) :
    ∃ m, loadOne environ inuser ingroup false c = .ok (some m) ∧ m.file = file ∧
      m.argv.head? = some ((c.attr (bytesOf "arg0")).getD file) ∧
      m.argv.length = c.args.length + 1 ∧
      (∀ i a, c.args[i]? = some (some a) → m.argv[i + 1]? = some a) ∧
      (∀ i, c.args[i]? = some none → m.argv[i + 1]? = some []) ∧
      (∀ u, c.attr (bytesOf "user") = some u → m.user = some u) ∧
      (c.attr (bytesOf "user") = none → m.user = inuser) ∧
      (∀ u, c.attr (bytesOf "group") = some u → m.group = some u) ∧
      (c.attr (bytesOf "group") = none → m.group = ingroup) ∧
      m.dir = c.attr (bytesOf "dir") ∧ buildEnv environ c.envs = .ok m.envp := by
  unfold loadOne
  rw [hf]
  simp only [hoff, buildEnv_eq, Bool.false_eq_true, if_false]
  refine ⟨_, rfl, rfl, rfl, by simp [buildArgv], ?_, ?_, ?_, ?_, ?_, ?_, rfl, rfl⟩
  · intro i a h; simp [buildArgv, h]
  · intro i h; simp [buildArgv, h]
  · intro u h; simp [h]
  · intro h; simp [h]
  · intro u h; simp [h]
  · intro h; simp [h]

/-- **C100 (not managed).** An application that is switched off, or has no file, or
is found in the foreground is not managed. -/
theorem C100_skipped (environ : List Str) (inuser ingroup : Option Str) (fg : Bool) (c : Conf)
    (h : c.off = true ∨ c.attr (bytesOf "exec") = none ∨ fg = true) :
    loadOne environ inuser ingroup fg c = .ok none := by
  unfold loadOne
  split
  · rfl
  · split
    · rfl
    · rename_i h1 _ file h2
      rcases h with h | h | h
      · exact absurd h h1
      · rw [h] at h2; cases h2
      · simp [h]

/-- the attributes of an application -/
def attrs (l : List (String × String)) : Str → Option Str :=
  fun n => (l.find? fun e => bytesOf e.1 == n).map fun e => bytesOf e.2

example : loadOne [bytesOf "A=1"] (some (bytesOf "nobody")) none false
    { attr := attrs [("exec", "/bin/x"), ("group", "g")], args := [some (bytesOf "-l"), none], envs := [] }
      = .ok (some ⟨bytesOf "/bin/x", [bytesOf "/bin/x", bytesOf "-l", []], [bytesOf "A=1"],
          some (bytesOf "nobody"), some (bytesOf "g"), none⟩) := by decide +kernel

/-- **C100 (`environment="false"`).** The documented attribute `environment` has no
effect: whatever the attributes, an application gets the whole environment of the
parent. -/
theorem C100_environment_violated (environ : List Str) (inuser ingroup : Option Str) (c : Conf)
    (m : Managed) (h : loadOne environ inuser ingroup false c = .ok (some m)) :
    ∀ e ∈ environ, e ∈ m.envp := by
  unfold loadOne at h
  split at h
  · cases h
  · split at h
    · cases h
    · simp only [buildEnv_eq, Bool.false_eq_true, if_false] at h
      cases h
      intro e he
      simp [he]

example : (loadOne [bytesOf "SECRET=1"] none none false
    { attr := attrs [("exec", "/bin/x"), ("environment", "false")], args := [], envs := [] })
      = .ok (some ⟨bytesOf "/bin/x", [bytesOf "/bin/x"], [bytesOf "SECRET=1"], none, none, none⟩) := by
  decide +kernel

/-- **C100 (no overriding).** A variable the parent has keeps the parent's value in
the application, whatever the `env` elements say. -/
theorem C100_override_violated (environ : List Str) (envs : List (Option Str)) (envp : List Str)
    (name v : Str) (h : buildEnv environ envs = .ok envp) (hv : getenv environ name = some v) :
    getenv envp name = some v := by
  rw [buildEnv_eq] at h
  cases h
  unfold getenv at hv ⊢
  split
  · rename_i hn; rw [if_pos hn] at hv; cases hv
  · rename_i hn
    rw [if_neg hn] at hv
    rw [List.find?_append]
    cases hf : environ.find? (fun e => (name ++ [eq]).isPrefixOf e) with
    | none => rw [hf] at hv; cases hv
    | some e => rw [hf] at hv; simpa using hv

example : getenv [bytesOf "A=1", bytesOf "A=2"] (bytesOf "A") = some (bytesOf "1") ∧
    buildEnv [bytesOf "A=1"] [some (bytesOf "A=2")] = .ok [bytesOf "A=1", bytesOf "A=2"] := by
  decide +kernel

/-- **C100 (a long value).** A long value pulled from the parent is cut. -/
theorem C100_cut_violated :
    ∃ environ e v envp, getenv environ e = some v ∧ buildEnv environ [some e] = .ok envp ∧
      (e ++ [eq] ++ v) ∉ envp.drop environ.length := by
  have hg : ∀ v : Str, getenv [[65, 61] ++ v] [65] = some v := by
    intro v; simp [getenv, eq, List.isPrefixOf]
  refine ⟨[[65, 61] ++ List.replicate 8190 120], [65], List.replicate 8190 120, _, hg _, buildEnv_eq _ _, ?_⟩
  rw [List.drop_left]
  have hs : slot [[65, 61] ++ List.replicate 8190 120] (some [65])
      = some (([65] ++ [eq] ++ List.replicate 8190 120).take 8191) := by
    simp only [slot, hg]
    rw [if_neg (by decide)]
  rw [List.filterMap_cons_some hs, List.filterMap_nil, List.mem_singleton]
  intro h
  have h2 := congrArg List.length h
  rw [List.length_take] at h2
  simp only [List.length_append, List.length_replicate, List.length_cons, List.length_nil] at h2
  omega

/-- **C100 (no search).** The documentation promises that a name is searched for in
`PATH`; the file started does not depend on it: it is in the directory configured,
or in that of the monitor. -/
theorem C100_path_violated (environ : List Str) (inuser ingroup : Option Str) (c : Conf) (m : Managed)
    (cwd : Str) (h : loadOne environ inuser ingroup false c = .ok (some m))
    (hs : m.file.head? ≠ some slash) :
    execFile m cwd = ((c.attr (bytesOf "dir")).getD cwd) ++ [slash] ++ m.file := by
  unfold loadOne at h
  split at h
  · cases h
  · split at h
    · cases h
    · simp only [buildEnv_eq, Bool.false_eq_true, if_false] at h
      cases h
      unfold execFile
      rw [if_neg hs]

example : (loadOne [bytesOf "PATH=/bin"] none none false
    { attr := attrs [("exec", "ls")], args := [], envs := [] })
      = .ok (some ⟨bytesOf "ls", [bytesOf "ls"], [bytesOf "PATH=/bin"], none, none, none⟩) ∧
    execFile ⟨bytesOf "ls", [bytesOf "ls"], [bytesOf "PATH=/bin"], none, none, none⟩ (bytesOf "/srv")
      = bytesOf "/srv/ls" := by decide +kernel

end Mtev.WatchConf
