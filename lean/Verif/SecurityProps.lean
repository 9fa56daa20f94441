import Verif.Security

/-!
# C127: giving up privileges
-/

namespace Mtev.Security

/-! ## Specification -/

/-- What a process may do to its identities later: the four calls, and putting any of its users (groups) in the place of others
(`setresuid`, `setresgid` of a process without privileges). -/
inductive Call (p : Proc) : Proc → Prop
  | setuid (u : Nat) (q : Proc) : setuid u p = some q → Call p q
  | seteuid (u : Nat) (q : Proc) : seteuid u p = some q → Call p q
  | setgid (g : Nat) (q : Proc) : setgid g p = some q → Call p q
  | setegid (g : Nat) (q : Proc) : setegid g p = some q → Call p q
  | setresuid (r e s : Nat) : (∀ x ∈ [r, e, s], x ∈ [p.ruid, p.euid, p.suid]) → Call p { p with ruid := r, euid := e, suid := s }
  | setresgid (r e s : Nat) : (∀ x ∈ [r, e, s], x ∈ [p.rgid, p.egid, p.sgid]) → Call p { p with rgid := r, egid := e, sgid := s }

/-- Any number of calls. -/
inductive Later (p : Proc) : Proc → Prop
  | refl : Later p p
  | step {q q' : Proc} : Later p q → Call q q' → Later p q'

/-- A text means an identity: a decimal number, or a name in the table that begins with a letter or underscore. -/
def Means (db : Str → Option Nat) (s : Str) (u : Nat) : Prop :=
  (s ≠ [] ∧ (∀ c ∈ s, 48 ≤ c ∧ c ≤ 57) ∧ u = Nat.ofDigits 10 (s.reverse.map (· - 48)) ∧ u < 2 ^ 32) ∨
  ((∃ c t, s = c :: t ∧ (65 ≤ c ∧ c ≤ 90 ∨ c = 95 ∨ 97 ≤ c ∧ c ≤ 122)) ∧ db s = some u)

/-! ## Reading the names -/

theorem value_ofDigits (d : Str) : value d = Nat.ofDigits 10 (d.reverse.map (· - 48)) := by
  have hn : ∀ (d : Str) (a : Nat), d.foldl (fun (a x : Nat) => 10 * a + (x - 48)) a =
      Nat.ofDigits 10 (d.reverse.map (· - 48)) + 10 ^ d.length * a := by
    intro d
    induction d with
    | nil => intro a; simp
    | cons x d ih =>
      intro a
      rw [List.foldl_cons, ih]
      simp only [List.reverse_cons, List.map_append, List.map_cons, List.map_nil, Nat.ofDigits_append, Nat.ofDigits_singleton,
        List.length_map, List.length_reverse, List.length_cons]
      ring
  have := hn d 0
  simpa [value] using this

theorem sign_plain (c : Nat) (t : Str) (h1 : c ≠ 45) (h2 : c ≠ 43) : sign (c :: t) = (false, c :: t) := by
  unfold sign
  split
  · simp_all
  · simp_all
  · rfl

theorem resolve_means (db : Str → Option Nat) (s : Str) (u : Nat) (h : Means db s u) : resolve db s = some u := by
  rcases h with ⟨hne, hd, hu, hlt⟩ | ⟨⟨c, t, rfl, hc⟩, hdb⟩
  · cases s with
    | nil => exact absurd rfl hne
    | cons c t =>
      have hc := hd c (by simp)
      have hsp : isSpace c = false := by
        simp only [isSpace, Bool.or_eq_false_iff, beq_eq_false_iff_ne, Bool.and_eq_false_iff, decide_eq_false_iff_not]; omega
      have hdw : (c :: t).dropWhile isSpace = c :: t := by simp [List.dropWhile_cons, hsp]
      have hsg : sign (c :: t) = (false, c :: t) := sign_plain _ _ (by omega) (by omega)
      have hall : (c :: t).all isDigit = true := by
        rw [List.all_eq_true]
        intro x hx
        have := hd x hx
        simp [isDigit, this.1, this.2]
      have hb : (c == 32 || c == 9) = false := by
        simp only [Bool.or_eq_false_iff, beq_eq_false_iff_ne]; omega
      have hi : isUInteger (c :: t) = true := by
        simp only [isUInteger, hb, hdw, hsg, hall]
        simp
      rw [resolve, if_pos hi, atoi, hdw, hsg]
      simp only [value_ofDigits, ← hu]
      congr 1
      rw [Nat.min_eq_left (by omega), Nat.mod_eq_of_lt hlt]
  · have hsp : isSpace c = false := by
      simp only [isSpace, Bool.or_eq_false_iff, beq_eq_false_iff_ne, Bool.and_eq_false_iff, decide_eq_false_iff_not]; omega
    have hdw : (c :: t).dropWhile isSpace = c :: t := by simp [List.dropWhile_cons, hsp]
    have hsg : sign (c :: t) = (false, c :: t) := sign_plain _ _ (by omega) (by omega)
    have hdig : isDigit c = false := by
      simp only [isDigit, Bool.and_eq_false_iff, decide_eq_false_iff_not]; omega
    have hi : isUInteger (c :: t) = false := by
      simp only [isUInteger, hdw, hsg, List.all_cons, hdig]
      simp
    rw [resolve, if_neg (by simp [hi]), hdb]

/-! ## What later calls cannot change -/

theorem call_users (a b : Proc) (ha : a.euid ≠ 0) (hc : Call a b) : (∀ x ∈ [b.ruid, b.euid, b.suid], x ∈ [a.ruid, a.euid, a.suid]) ∧
    (∀ x ∈ [b.rgid, b.egid, b.sgid], x ∈ [a.rgid, a.egid, a.sgid]) := by
  cases hc with
  | setuid u q hq =>
    simp only [setuid, ha, if_false] at hq
    split at hq
    · cases hq
    · split at hq
      · rename_i h2
        injection hq with hq
        subst hq
        refine ⟨fun x hx => ?_, fun x hx => hx⟩
        simp only [List.mem_cons, List.not_mem_nil, or_false] at hx ⊢
        rcases hx with e | e | e <;> subst e <;> tauto
      · cases hq
  | seteuid u q hq =>
    simp only [seteuid, ha, false_or] at hq
    split at hq
    · cases hq
    · split at hq
      · rename_i h2
        injection hq with hq
        subst hq
        refine ⟨fun x hx => ?_, fun x hx => hx⟩
        simp only [List.mem_cons, List.not_mem_nil, or_false] at hx ⊢
        rcases hx with e | e | e <;> subst e <;> tauto
      · cases hq
  | setgid u q hq =>
    simp only [setgid, ha, if_false] at hq
    split at hq
    · cases hq
    · split at hq
      · rename_i h2
        injection hq with hq
        subst hq
        refine ⟨fun x hx => hx, fun x hx => ?_⟩
        simp only [List.mem_cons, List.not_mem_nil, or_false] at hx ⊢
        rcases hx with e | e | e <;> subst e <;> tauto
      · cases hq
  | setegid u q hq =>
    simp only [setegid, ha, false_or] at hq
    split at hq
    · cases hq
    · split at hq
      · rename_i h2
        injection hq with hq
        subst hq
        refine ⟨fun x hx => hx, fun x hx => ?_⟩
        simp only [List.mem_cons, List.not_mem_nil, or_false] at hx ⊢
        rcases hx with e | e | e <;> subst e <;> tauto
      · cases hq
  | setresuid r e s hr => exact ⟨hr, fun x hx => hx⟩
  | setresgid r e s hr => exact ⟨fun x hx => hx, hr⟩

/-- Without user 0 the users are only permuted among themselves, whatever is called. -/
theorem later_users (p : Proc) (h : p.ruid ≠ 0 ∧ p.euid ≠ 0 ∧ p.suid ≠ 0) (q : Proc) (hl : Later p q) :
    (∀ x ∈ [q.ruid, q.euid, q.suid], x ∈ [p.ruid, p.euid, p.suid]) ∧ (∀ x ∈ [q.rgid, q.egid, q.sgid], x ∈ [p.rgid, p.egid, p.sgid]) := by
  induction hl with
  | refl => exact ⟨fun x hx => hx, fun x hx => hx⟩
  | step hl hc ih =>
    rename_i a b
    obtain ⟨ihu, ihg⟩ := ih
    have ha : a.euid ≠ 0 := by
      have := ihu a.euid (by simp)
      simp only [List.mem_cons, List.not_mem_nil, or_false] at this
      rcases this with e | e | e <;> rw [e] <;> tauto
    have key := call_users a b ha hc
    exact ⟨fun x hx => ihu x (key.1 x hx), fun x hx => ihg x (key.2 x hx)⟩

/-- The check at the end passes only without a way to user 0. -/
theorem check_true (p q : Proc) (h : check p = (true, q)) : q = p ∧ p.ruid ≠ 0 ∧ p.euid ≠ 0 ∧ p.suid ≠ 0 ∧ p.rgid ≠ 0 ∧ p.sgid ≠ 0 := by
  have h0 : (0 : Nat) ≠ invalid := by decide
  simp only [check, setuid, setgid, h0, if_false] at h
  by_cases he : p.euid = 0
  · simp [he] at h
  · simp only [he, if_false] at h
    by_cases hu : 0 = p.ruid ∨ 0 = p.suid
    · simp [hu] at h
    · simp only [hu, if_false] at h
      by_cases hg : 0 = p.rgid ∨ 0 = p.sgid
      · simp [hg] at h
      · simp only [hg, if_false, Prod.mk.injEq, true_and] at h
        exact ⟨h.symm, by tauto, he, by tauto, by tauto, by tauto⟩

/-! ## Properties -/

/-- **C127** If the call reports success for a user that is not the real user already, the process has no way back to user 0: not
now, and not after any sequence of calls. -/
theorem C127_drop (pw gr : Str → Option Nat) (user : Str) (group : Option Str) (p q r : Proc) (u : Nat) (hu : Means pw user u)
    (hne : p.ruid ≠ u) (h : usergroup pw gr (some user) group false p = (true, q)) (hl : Later q r) :
    r.ruid ≠ 0 ∧ r.euid ≠ 0 ∧ r.suid ≠ 0 := by
  have key : q.ruid ≠ 0 ∧ q.euid ≠ 0 ∧ q.suid ≠ 0 := by
    simp only [usergroup, lookup, resolve_means pw user u hu, Option.map_some] at h
    split at h
    · simp at h
    · rename_i gid _
      simp only [change] at h
      have hr : (doGroup gid false p).2.ruid = p.ruid := by
        unfold doGroup
        split
        · rfl
        · simp only [Bool.false_eq_true, if_false]
          split
          · rfl
          · split
            · rfl
            · split
              · rfl
              · rename_i q' hq
                unfold setgid at hq
                split at hq
                · cases hq
                · split at hq
                  · injection hq with hq; subst hq; rfl
                  · split at hq
                    · injection hq with hq; subst hq; rfl
                    · cases hq
      split at h
      · simp only [doUser, Bool.false_eq_true, if_false] at h
        rw [if_neg (by rw [hr]; exact fun e => hne e.symm)] at h
        split at h
        · simp at h
        · split at h
          · simp at h
          · rename_i q' hq
            obtain ⟨e, h1, h2, h3, _⟩ := check_true _ _ h
            rw [e]; exact ⟨h1, h2, h3⟩
      · rename_i hf; exact absurd (by rw [h]) hf
  obtain ⟨hu', _⟩ := later_users q key r hl
  refine ⟨?_, ?_, ?_⟩
  · intro e; have := hu' r.ruid (by simp); rw [e] at this; simp at this; omega
  · intro e; have := hu' r.euid (by simp); rw [e] at this; simp at this; omega
  · intro e; have := hu' r.suid (by simp); rw [e] at this; simp at this; omega

/-- **C127** Started by the superuser with a user and a group, neither of them 0, the call succeeds; the process has that user and
group as real, effective and saved one, and keeps them whatever it calls later.  Partial: the supplementary groups are kept. -/
theorem C127_root_partial (pw gr : Str → Option Nat) (user group : Str) (u g : Nat) (hu : Means pw user u) (hg : Means gr group g)
    (hu0 : u ≠ 0 ∧ u ≠ 4294967295) (hg0 : g ≠ 0 ∧ g ≠ 4294967295) (sup : List Nat) :
    (usergroup pw gr (some user) (some group) false ⟨0, 0, 0, 0, 0, 0, sup⟩).1 = true ∧
    ∀ r, Later (usergroup pw gr (some user) (some group) false ⟨0, 0, 0, 0, 0, 0, sup⟩).2 r →
      r.ruid = u ∧ r.euid = u ∧ r.suid = u ∧ r.rgid = g ∧ r.egid = g ∧ r.sgid = g := by
  have e : usergroup pw gr (some user) (some group) false ⟨0, 0, 0, 0, 0, 0, sup⟩ = (true, ⟨u, u, u, g, g, g, sup⟩) := by
    simp only [usergroup, lookup, resolve_means pw user u hu, resolve_means gr group g hg, Option.map_some, change, doGroup, setgid,
      doUser, setuid, check, invalid]
    simp [hu0.1, hu0.2, hg0.1, hg0.2, hu0.1.symm, hg0.1.symm]
  rw [e]
  refine ⟨rfl, fun r hl => ?_⟩
  obtain ⟨h1, h2⟩ := later_users _ ⟨hu0.1, hu0.1, hu0.1⟩ r hl
  simp at h1 h2
  omega

/-- **C127** fails for the supplementary groups: they are not dropped; a process of the superuser keeps group 0 among them. -/
theorem C127_groups_violated : ∃ (user group : Str) (p q : Proc),
    usergroup (fun _ => none) (fun _ => none) (some user) (some group) false p = (true, q) ∧ q.ruid = 1000 ∧ q.rgid = 1000 ∧
    0 ∈ q.groups :=
  ⟨bytesOf "1000", bytesOf "1000", ⟨0, 0, 0, 0, 0, 0, [0]⟩, ⟨1000, 1000, 1000, 1000, 1000, 1000, [0]⟩, by decide +kernel, by decide,
    by decide, by decide⟩

/-- **C127** fails for a program with the set-user-id bit: if the real user is already the one asked for, success is reported and
the process stays privileged. -/
theorem C127_same_violated : ∃ (user group : Str) (p q : Proc),
    usergroup (fun _ => none) (fun _ => none) (some user) (some group) false p = (true, q) ∧ q.ruid = 1000 ∧ q.euid = 0 :=
  ⟨bytesOf "1000", bytesOf "1000", ⟨1000, 0, 0, 1000, 1000, 1000, []⟩, ⟨1000, 0, 0, 1000, 1000, 1000, []⟩, by decide +kernel,
    by decide, by decide⟩

/-- **C127** fails for a number from 2^32: only its last 32 bits count, `4294967296` is user 0, and the superuser's process stays
as it is although success is reported. -/
theorem C127_number_violated : ∃ (user group : Str) (p q : Proc),
    usergroup (fun _ => none) (fun _ => none) (some user) (some group) false p = (true, q) ∧ user = bytesOf "4294967296" ∧
    q.ruid = 0 ∧ q.euid = 0 :=
  ⟨bytesOf "4294967296", bytesOf "1000", ⟨0, 0, 0, 0, 0, 0, []⟩, ⟨0, 0, 0, 1000, 1000, 1000, []⟩, by decide +kernel, by decide +kernel,
    by decide, by decide⟩

/-- **C127** fails without a group: a process of the superuser that asks for a user only is refused, because it is still in group
0; by then it has lost its privileges. -/
theorem C127_alone_violated (pw gr : Str → Option Nat) (user : Str) (u : Nat) (hu : Means pw user u) (hu0 : u ≠ 0 ∧ u ≠ 4294967295)
    (sup : List Nat) :
    usergroup pw gr (some user) none false ⟨0, 0, 0, 0, 0, 0, sup⟩ = (false, ⟨u, u, u, 0, 0, 0, sup⟩) := by
  simp only [usergroup, lookup, resolve_means pw user u hu, Option.map_some, change, doGroup, setgid, doUser, setuid, check, invalid]
  simp [hu0.1, hu0.2, hu0.1.symm]

/-- **C127** Changing only the effective user and group changes nothing else, and success means they are the ones asked for. -/
theorem C127_effective (pw gr : Str → Option Nat) (user group : Str) (u g : Nat) (hu : Means pw user u) (hg : Means gr group g)
    (p q : Proc) (h : usergroup pw gr (some user) (some group) true p = (true, q)) :
    q = { p with euid := u, egid := g } := by
  simp only [usergroup, lookup, resolve_means pw user u hu, resolve_means gr group g hg, Option.map_some, change] at h
  have hgp : ∀ x, doGroup (some g) true p = (true, x) → x = { p with egid := g } := by
    intro x hx
    simp only [doGroup, if_true] at hx
    split at hx
    · rename_i e; injection hx with _ hx; subst hx; rw [e]
    · simp only [Bool.true_eq_false, false_and, if_false, setegid] at hx
      split at hx
      · simp at hx
      · rename_i q' hq
        split at hq
        · cases hq
        · split at hq
          · injection hq with hq; injection hx with _ hx; rw [← hx, ← hq]
          · cases hq
  cases hd : doGroup (some g) true p with
  | mk b x =>
    rw [hd] at h
    cases b with
    | false => simp at h
    | true =>
      simp only [if_true] at h
      have hx := hgp x hd
      subst hx
      simp only [doUser, if_true] at h
      split at h
      · rename_i e; injection h with _ h; subst h; rw [e]
      · simp only [Bool.true_eq_false, false_and, if_false, seteuid] at h
        split at h
        · simp at h
        · rename_i q' hq
          split at hq
          · cases hq
          · split at hq
            · injection hq with hq; injection h with _ h; rw [← h, ← hq]
            · cases hq

/-- **C127** The superuser may change its effective user and group to any and back: afterwards it is what it was. -/
theorem C127_back (pw gr : Str → Option Nat) (user group : Str) (u g : Nat) (hu : Means pw user u) (hg : Means gr group g)
    (hu0 : u ≠ 4294967295) (hg0 : g ≠ 4294967295) (sup : List Nat) :
    ∃ q, usergroup pw gr (some user) (some group) true ⟨0, 0, 0, 0, 0, 0, sup⟩ = (true, q) ∧ q.euid = u ∧ q.egid = g ∧
      usergroup pw gr (some (bytesOf "0")) (some (bytesOf "0")) true q = (true, ⟨0, 0, 0, 0, 0, 0, sup⟩) := by
  refine ⟨⟨0, u, 0, 0, g, 0, sup⟩, ?_, rfl, rfl, ?_⟩
  · simp only [usergroup, lookup, resolve_means pw user u hu, resolve_means gr group g hg, Option.map_some, change, doGroup, setegid,
      doUser, seteuid, invalid]
    by_cases h1 : u = 0 <;> by_cases h2 : g = 0 <;> simp [h1, h2, hu0, hg0]
  · have h0 : ∀ db, resolve db (bytesOf "0") = some 0 := by
      intro db; exact resolve_means db _ _ (Or.inl ⟨by decide, by decide, by decide, by decide⟩)
    simp only [usergroup, lookup, h0, Option.map_some, change, doGroup, setegid, doUser, seteuid, invalid]
    by_cases h1 : (0 : Nat) = u <;> by_cases h2 : (0 : Nat) = g
    · subst h1 h2; simp
    · subst h1; simp [h2]
    · subst h2; simp [h1]
    · simp [h1, h2]

/-- **C127** A user or group that is not known changes nothing and is reported. -/
theorem C127_unknown (pw gr : Str → Option Nat) (user group : Option Str) (eff : Bool) (p : Proc)
    (h : (∃ s c t, user = some s ∧ s = c :: t ∧ (65 ≤ c ∧ c ≤ 90 ∨ c = 95 ∨ 97 ≤ c ∧ c ≤ 122) ∧ pw s = none) ∨
      (∃ s c t, group = some s ∧ s = c :: t ∧ (65 ≤ c ∧ c ≤ 90 ∨ c = 95 ∨ 97 ≤ c ∧ c ≤ 122) ∧ gr s = none)) :
    usergroup pw gr user group eff p = (false, p) := by
  have key : ∀ (db : Str → Option Nat) (s : Str) (c : Nat) (t : Str), s = c :: t → (65 ≤ c ∧ c ≤ 90 ∨ c = 95 ∨ 97 ≤ c ∧ c ≤ 122) →
      db s = none → lookup db (some s) = none := by
    intro db s c t hs hc hdb
    subst hs
    have := resolve_means (fun x => if x = c :: t then some 7 else db x) (c :: t) 7 (Or.inr ⟨⟨c, t, rfl, hc⟩, by simp⟩)
    simp only [resolve] at this
    simp only [lookup, resolve]
    by_cases hi : isUInteger (c :: t)
    · exfalso
      have hsp : isSpace c = false := by
        simp only [isSpace, Bool.or_eq_false_iff, beq_eq_false_iff_ne, Bool.and_eq_false_iff, decide_eq_false_iff_not]; omega
      have hdw : (c :: t).dropWhile isSpace = c :: t := by simp [List.dropWhile_cons, hsp]
      have hsg : sign (c :: t) = (false, c :: t) := sign_plain _ _ (by omega) (by omega)
      have hdig : isDigit c = false := by
        simp only [isDigit, Bool.and_eq_false_iff, decide_eq_false_iff_not]; omega
      simp [isUInteger, hdw, hsg, List.all_cons, hdig] at hi
    · rw [if_neg hi, hdb]; rfl
  rcases h with ⟨s, c, t, rfl, hs, hc, hdb⟩ | ⟨s, c, t, rfl, hs, hc, hdb⟩
  · simp [usergroup, key pw s c t hs hc hdb]
  · simp only [usergroup, key gr s c t hs hc hdb]
    split
    · rfl
    · rfl

example : (usergroup (fun s => if s = bytesOf "nobody" then some 65534 else none) (fun s => if s = bytesOf "nogroup" then some 65533 else none)
    (some (bytesOf "nobody")) (some (bytesOf "nogroup")) false ⟨0, 0, 0, 0, 0, 0, []⟩) =
    (true, ⟨65534, 65534, 65534, 65533, 65533, 65533, []⟩) := by decide +kernel

example : Means (fun _ => none) (bytesOf "1000") 1000 := Or.inl ⟨by decide, by decide, by decide +kernel, by decide⟩

end Mtev.Security
