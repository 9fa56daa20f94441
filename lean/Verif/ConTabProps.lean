import Verif.ConTab
import Verif.ConCmdProps
import Verif.TokenProps

/-!
Properties of the tab key: C138.

Specification: the words before the cursor name a command, then one below it and so on; what is offered are the commands at that
place that begin with the word being typed. Pressing the key makes the word longer, as far as all that is offered agrees.
-/
namespace Mtev.ConTab
open Mtev.ConCmd

/-- Following words from a list of commands to the list below. -/
inductive Path (sub : Nat → Option (List Cmd)) : List Cmd → List Str → List Cmd → Prop where
  | nil {l} : Path sub l [] l
  | cons {l l1 l' : List Cmd} {c : Cmd} {w : Str} {ws : List Str} : c ∈ l → lower w = lower c.name → sub c.func = some l1 → Path sub l1 ws l' →
      Path sub l (w :: ws) l'

/-- Exactly these are offered: one after the other, and then no more. -/
def Offers (req : Nat → Out (Option Str)) (all : List Str) : Prop := ∀ k, k ≤ all.length → req k = .ok all[k]?

theorem find_exact {l : List Cmd} (hs : Sorted l) {c : Cmd} {w : Str} (hm : c ∈ l) (hw : lower w = lower c.name) : find l w = some c := by
  obtain ⟨t, ht⟩ := seek_exact w hs hm hw
  unfold find
  rw [ht]
  simp [caseEq, hw]

theorem delegate_path {sub : Nat → Option (List Cmd)} (hsub : ∀ n l, sub n = some l → Sorted l) (p : Str) (k : Nat)
    {l l' : List Cmd} {ws : List Str} (hp : Path sub l ws l') : Sorted l → delegate sub l (ws ++ [p]) k = .ok (complete l' p k) := by
  induction hp with
  | nil => intro _; rfl
  | @cons l l1 l' c w ws h1 h2 h3 h4 ih =>
    intro hs
    have hne : ∃ b r, ws ++ [p] = b :: r := by
      cases ws with
      | nil => exact ⟨p, [], rfl⟩
      | cons b r => exact ⟨b, r ++ [p], rfl⟩
    obtain ⟨b, r, e⟩ := hne
    rw [List.cons_append, e]
    unfold delegate
    rw [find_exact hs h1 h2]
    simp only [h3]
    rw [← e]
    exact ih (hsub _ _ h3)

/-- Text that ends in something that breaks words. -/
def EndsBroken (text : Str) : Prop := ∀ c, text.getLast? = some c → c ∈ breaks

theorem lastWord_append {text p : Str} (ht : EndsBroken text) (hp : ∀ c ∈ p, c ∉ breaks) : lastWord (text ++ p) = p := by
  unfold lastWord
  rw [List.reverse_append, List.takeWhile_append_of_pos (by simpa using hp)]
  have : List.takeWhile (fun c => decide (c ∉ breaks)) text.reverse = [] := by
    cases h : text.reverse with
    | nil => rfl
    | cons c r =>
      have := ht c (by rw [List.getLast?_eq_head?_reverse, h]; rfl)
      rw [List.takeWhile_cons_of_neg (by simpa using this)]
  rw [this]
  simp

theorem breaks_blank : ∀ c, Token.Blank c → c ≠ 13 → c ∈ breaks := by
  intro c h h13
  rcases h with h | h | h | h
  · subst h; decide
  · subst h; decide
  · exact absurd h h13
  · subst h; decide

theorem blank_breaks {c : Nat} (h : c ∉ breaks) (h13 : c ≠ 13) : ¬ Token.Blank c := fun hb => h (breaks_blank c hb h13)

theorem before_ends {ws : List Str} {text : Str} (h : Token.Before ws text) : ∀ c, text.getLast? = some c → Token.Blank c := by
  induction h with
  | nil h => intro c hc; exact h c (List.mem_of_getLast? hc)
  | @cons a t b text w ws h1 h2 h3 h4 h5 ih =>
    intro c hc
    apply ih c
    rw [← List.append_assoc, List.getLast?_append] at hc
    rw [List.getLast?_cons] at hc ⊢
    simpa using hc

theorem bare {p : Str} (hp : ∀ c ∈ p, c ∉ breaks ∧ c ≠ 13) : Token.InBare p p := by
  induction p with
  | nil => exact .nil
  | cons c r ih =>
    have hc := hp c (by simp)
    exact .plain (blank_breaks hc.1 hc.2) (fun e => hc.1 (by rw [e]; decide)) (ih fun x hx => hp x (List.mem_cons_of_mem _ hx))

theorem spells {c : Nat} {p : Str} (hp : ∀ x ∈ c :: p, x ∉ breaks ∧ x ≠ 13) : Token.Spells (c :: p) (c :: p) := by
  have hc := hp c (by simp)
  exact .bare (blank_breaks hc.1 hc.2) (fun e => hc.1 (by rw [e]; decide)) (fun e => hc.1 (by rw [e]; decide)) (fun e => hc.1 (by rw [e]; decide))
    (bare fun x hx => hp x (List.mem_cons_of_mem _ hx))

/-- The words of a line and the word being typed are what completion is asked for. -/
theorem request_eq {ws : List Str} {text p : Str} (hb : Token.Before ws text) (h13 : 13 ∉ text)
    (hp : ∀ c ∈ p, c ∉ breaks ∧ c ≠ 13 ∧ c ≠ 0) (hn : ws.length < 31) (sub : Nat → Option (List Cmd)) (l : List Cmd) (k : Nat) :
    request sub l (text ++ p) k = delegate sub l (ws ++ [p]) k := by
  have hlw : lastWord (text ++ p) = p := by
    apply lastWord_append
    · intro c hc
      exact breaks_blank c (before_ends hb c hc) (fun e => h13 (e ▸ List.mem_of_getLast? hc))
    · exact fun c hc => (hp c hc).1
  unfold request
  simp only [hlw]
  cases p with
  | nil =>
    have := Token.C86_words (.ended hb) 32
    rw [List.append_nil, this]
    have e : List.take 32 ws = ws := List.take_of_length_le (by omega)
    rw [e]
    have ha : (if True ∧ min ws.length 32 < 32 then ws ++ [[]] else ws) = ws ++ [[]] := if_pos ⟨trivial, by omega⟩
    simp only [ha]
    rw [if_neg (by simp; omega)]
  | cons c p =>
    have := Token.C86_words (.last hb (spells fun x hx => ⟨(hp x hx).1, (hp x hx).2.1⟩) (fun h0 => (hp 0 h0).2.2 rfl)) 32
    rw [this]
    have e : List.take 32 (ws ++ [c :: p]) = ws ++ [c :: p] := List.take_of_length_le (by simp; omega)
    rw [e]
    have ha : ∀ n : Nat, (if c :: p = [] ∧ n < 32 then ws ++ [c :: p] ++ [[]] else ws ++ [c :: p]) = ws ++ [c :: p] :=
      fun n => if_neg fun h => by cases h.1
    simp only [ha]
    rw [if_neg (by simp; omega)]

/-- C138: the words before the cursor, however they are quoted, followed to the list of commands they lead to: what is offered for
the word being typed are exactly the commands there that begin with it. What is missing: earlier words that are abbreviated, see
C138_abbreviation_violated; open quotes, see C138_quote_violated; the first command typed in full, see C121_first_violated. -/
theorem C138_offered_partial {sub : Nat → Option (List Cmd)} (hsub : ∀ n l, sub n = some l → ∃ cs, l = table cs)
    {cs cs' : List Cmd} {ws : List Str} {text p : Str} (hb : Token.Before ws text) (h13 : 13 ∉ text)
    (hp : ∀ c ∈ p, c ∉ breaks ∧ c ≠ 13 ∧ c ≠ 0) (hn : ws.length < 31) (hpath : Path sub (table cs) ws (table cs'))
    (hf : ∀ c ∈ (table cs').head?, lower c.name ≠ lower p) :
    Offers (request sub (table cs) (text ++ p)) ((Candidates (table cs') p).map Cmd.name) := by
  intro k _
  rw [request_eq hb h13 hp hn,
    delegate_path (fun n l h => by obtain ⟨cs, rfl⟩ := hsub n l h; exact table_sorted cs) p k hpath (table_sorted cs),
    C121_all_partial cs' p hf k, List.getElem?_map]

/-- C138: pressing the key: the word being typed is replaced by the longest beginning all completions have in common, which it begins
itself if they are spelled as it is; a blank follows if there is only one. Nothing before that word changes. What is missing: words
spelled with other capitals, see C138_shorter_violated. -/
theorem C138_press_partial {text p : Str} (ht : EndsBroken text) (hp : ∀ c ∈ p, c ∉ breaks) (hne : p ≠ []) {all : List Str} (ha : all ≠ [])
    (hpre : ∀ s ∈ all, p <+: s) :
    ∃ m tail, press (text ++ p) all = .ok (text ++ m ++ tail) ∧ p <+: m ∧ (∀ s ∈ all, m <+: s) ∧ (∀ q, (∀ s ∈ all, q <+: s) → q <+: m) ∧
      (tail ≠ [] → tail = [32] ∧ all = [m]) := by
  obtain ⟨r, h1, _, h3⟩ := C121_common all
  obtain ⟨m, rfl, h4, h5⟩ := h3 ha
  have hpm : p <+: m := h5 p hpre
  have hm : m ≠ [] := by rintro rfl; exact hne (List.prefix_nil.1 hpm)
  have e : press (text ++ p) all = .ok (text ++ m ++ blank m all) := by
    unfold press
    rw [h1]
    show Out.ok _ = _
    rw [lastWord_append ht hp, if_neg hm, show (text ++ p).length - p.length = text.length by simp, List.take_left' rfl]
  refine ⟨m, blank m all, e, hpm, h4, h5, fun h => ?_⟩
  unfold blank at h ⊢
  split at h
  · split_ifs at h with hq
    · exact ⟨by rw [if_pos hq], by rw [hq.1]⟩
    · exact absurd rfl h
  · exact absurd rfl h

/-- C138: the only completion is followed by a blank, unless it ends in a slash. -/
theorem C138_only {text p s : Str} (ht : EndsBroken text) (hp : ∀ c ∈ p, c ∉ breaks) (hs : s ≠ []) (hl : s.getLast? ≠ some 47) :
    press (text ++ p) [s] = .ok (text ++ s ++ [32]) := by
  obtain ⟨r, h1, _, h3⟩ := C121_common [s]
  obtain ⟨m, rfl, h4, h5⟩ := h3 (by simp)
  have : m = s := (h4 s (by simp)).eq_of_length_le (h5 s (by simp)).length_le
  subst this
  unfold press
  rw [h1]
  show Out.ok _ = _
  rw [lastWord_append ht hp, if_neg hs, show (text ++ p).length - p.length = text.length by simp, List.take_left' rfl]
  rw [show blank m [m] = [32] from if_pos ⟨rfl, hs, hl⟩]

/-- C138: without completions the line stays as it is. -/
theorem C138_nothing (line : Str) : press line [] = .ok line := rfl

theorem inDouble {body : Str} (h : ∀ c ∈ body, c ∉ breaks) : Token.InDouble body body := by
  induction body with
  | nil => exact .nil
  | cons c r ih =>
    have hc := h c (by simp)
    exact .plain (fun e => hc (by rw [e]; decide)) (fun e => hc (by rw [e]; decide)) (ih fun x hx => h x (List.mem_cons_of_mem _ hx))

/-- C138 is violated: pressing the key in the first word of a line after an open double quote, whatever the commands are, ends with
comparing a name with NULL: all commands are offered, and asking for one more crashes. -/
theorem C138_quote_violated (sub : Nat → Option (List Cmd)) {l : List Cmd} (hl : l ≠ []) {body : Str} (hb : ∀ c ∈ body, c ∉ breaks)
    (hne : body ≠ []) :
    (∀ k, k < l.length → request sub l (34 :: body) k = .ok ((l[k]?).map Cmd.name)) ∧ request sub l (34 :: body) l.length = .ub := by
  have ht : Token.tokenize (34 :: body) 32 = ⟨[], 0, -((((34 :: body).length : Int)) + 1)⟩ := by
    have := Token.C86_missing_quote_partial (.nil (a := []) (by simp)) (inDouble hb) 32
    simpa using this
  have hw : lastWord (34 :: body) = body := by
    have := lastWord_append (text := [34]) (p := body) (by intro c hc; simp at hc; subst hc; decide) hb
    simpa using this
  have e : ∀ k, request sub l (34 :: body) k = delegate sub l [] k := by
    intro k
    unfold request
    simp only [ht, hw, hne, false_and, if_false]
    rfl
  constructor
  · intro k hk
    rw [e]
    unfold delegate
    rw [List.getElem?_eq_getElem hk]
    rfl
  · rw [e]
    unfold delegate
    rw [List.getElem?_eq_none (le_refl _)]
    simp [hl]

/-- the commands of the examples; `show` (0) has some below -/
def top : List Cmd := table [⟨bytesOf "show", 0⟩, ⟨bytesOf "exit", 1⟩, ⟨bytesOf "shutdown", 2⟩]
def showCmds : List Cmd := table [⟨bytesOf "memory", 3⟩, ⟨bytesOf "eventer", 4⟩, ⟨bytesOf "version", 5⟩, ⟨bytesOf "metrics", 6⟩]
def subs : Nat → Option (List Cmd) := fun n => if n = 0 then some showCmds else none

/-- C138 is violated: after an abbreviation, which would run, the completions of the abbreviation are offered for the next word. -/
theorem C138_abbreviation_violated : act top (bytesOf "sho") = .run ⟨bytesOf "show", 0⟩ ∧
    Offers (request subs top (bytesOf "sho me")) [bytesOf "show"] ∧ press (bytesOf "sho me") [bytesOf "show"] = .ok (bytesOf "sho show ") := by
  refine ⟨by decide +kernel, fun k hk => ?_, by decide +kernel⟩
  have : k = 0 ∨ k = 1 := by simp at hk; omega
  rcases this with rfl | rfl <;> decide +kernel

/-- C138 is violated: completions that differ in capitals make the word shorter. -/
theorem C138_shorter_violated : Offers (request subs (table [⟨bytesOf "shOw", 0⟩, ⟨bytesOf "shut", 1⟩]) (bytesOf "SHO")) [bytesOf "shOw"] ∧
    Offers (request subs (table [⟨bytesOf "sHow", 0⟩, ⟨bytesOf "shut", 1⟩]) (bytesOf "sh")) [bytesOf "sHow", bytesOf "shut"] ∧
    press (bytesOf "sh") [bytesOf "sHow", bytesOf "shut"] = .ok (bytesOf "s") := by
  refine ⟨fun k hk => ?_, fun k hk => ?_, by decide +kernel⟩
  · have : k = 0 ∨ k = 1 := by simp at hk; omega
    rcases this with rfl | rfl <;> decide +kernel
  · have : k = 0 ∨ k = 1 ∨ k = 2 := by simp at hk; omega
    rcases this with rfl | rfl | rfl <;> decide +kernel

/-- The hypotheses of C138_offered_partial are met by `Show  m`. -/
example : Offers (request subs top (bytesOf "Show  m")) [bytesOf "memory", bytesOf "metrics"] := by
  have h := C138_offered_partial (sub := subs) (by
      intro n l h
      unfold subs at h
      split at h
      · cases h; exact ⟨_, rfl⟩
      · cases h)
    (cs := [⟨bytesOf "show", 0⟩, ⟨bytesOf "exit", 1⟩, ⟨bytesOf "shutdown", 2⟩])
    (cs' := [⟨bytesOf "memory", 3⟩, ⟨bytesOf "eventer", 4⟩, ⟨bytesOf "version", 5⟩, ⟨bytesOf "metrics", 6⟩])
    (ws := [bytesOf "Show"]) (text := bytesOf "Show  ") (p := bytesOf "m")
    (.cons (a := []) (t := bytesOf "Show") (b := 32) (text := [32]) (by simp) (spells (by decide)) (by decide) (by unfold Token.Blank; omega)
      (.nil (by intro c hc; simp at hc; subst hc; unfold Token.Blank; omega)))
    (by decide) (by decide) (by decide)
    (.cons (c := ⟨bytesOf "show", 0⟩) (by decide +kernel) (by decide +kernel) rfl .nil) (by decide +kernel)
  have e : (Candidates (table [⟨bytesOf "memory", 3⟩, ⟨bytesOf "eventer", 4⟩, ⟨bytesOf "version", 5⟩, ⟨bytesOf "metrics", 6⟩]) (bytesOf "m")).map Cmd.name =
    [bytesOf "memory", bytesOf "metrics"] := by decide +kernel
  rw [e] at h
  exact h

example : press (bytesOf "Show  m") [bytesOf "memory", bytesOf "metrics"] = .ok (bytesOf "Show  me") := by decide +kernel

end Mtev.ConTab
