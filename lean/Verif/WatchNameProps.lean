import Verif.WatchName

/-!
# C101: names of hearts are safe in a command, and time limits are told truly
-/

namespace Mtev.WatchName

open Mtev

/-! ### names -/

/-- letters, digits, colon, slash, hyphen and underscore -/
def plain : Str := bytesOf "abcdefghijklmnopqrstuvwxyzABCDEFGHIJKLMNOPQRSTUVWXYZ0123456789:/-_"

theorem kept_plain (c : Nat) : kept c = true ↔ c ∈ plain := by
  constructor
  · intro h
    have hc : c < 256 := by
      simp only [kept, Bool.or_eq_true, Bool.and_eq_true, decide_eq_true_eq, beq_iff_eq] at h
      omega
    have : ∀ c : Fin 256, kept c = true → (c : Nat) ∈ plain := by decide +kernel
    exact this ⟨c, hc⟩ h
  · intro h
    have : ∀ c ∈ plain, kept c = true := by decide +kernel
    exact this c h

theorem setLoop_length : ∀ (r : Nat) (s : Str), (setLoop r s).length = min r s.length
  | 0, s => by simp [setLoop]
  | r + 1, [] => by simp [setLoop]
  | r + 1, c :: cs => by simp [setLoop, setLoop_length r cs]

theorem setLoop_get : ∀ (r : Nat) (s : Str) (i c : Nat), i < r → s[i]? = some c →
    (setLoop r s)[i]? = some (if kept c then c else 95)
  | 0, s, i, c, h, _ => by omega
  | r + 1, [], i, c, _, hc => by simp at hc
  | r + 1, a :: cs, 0, c, _, hc => by simp at hc; subst hc; simp [setLoop]
  | r + 1, a :: cs, i + 1, c, h, hc => by
    simp at hc
    simp only [setLoop, List.getElem?_cons_succ]
    exact setLoop_get r cs i c (by omega) hc

theorem setLoop_kept : ∀ (r : Nat) (s : Str), ∀ c ∈ setLoop r s, kept c = true
  | 0, s => by simp [setLoop]
  | r + 1, [] => by simp [setLoop]
  | r + 1, a :: cs => by
    intro c hc
    simp only [setLoop, List.mem_cons] at hc
    rcases hc with rfl | hc
    · split
      · assumption
      · decide
    · exact setLoop_kept r cs c hc

/-- **C101 (names).** The name of a heart is the name given, cut after 126 bytes,
with every byte that is not a letter, a digit or one of colon, slash, hyphen and underscore replaced by an
underscore; it never has any other byte in it, and an empty name is none. -/
theorem C101_name (s : Str) :
    (setName (some s)).length = min 126 s.length ∧
    (∀ i c, i < 126 → s[i]? = some c → c ∈ plain → (setName (some s))[i]? = some c) ∧
    (∀ i c, i < 126 → s[i]? = some c → c ∉ plain → (setName (some s))[i]? = some 95) ∧
    (∀ c ∈ setName (some s), c ∈ plain) ∧
    (getName (setName (some s)) = none ↔ s = []) ∧ getName (setName none) = none := by
  refine ⟨setLoop_length _ _, ?_, ?_, ?_, ?_, rfl⟩
  · intro i c hi hc hp
    have := setLoop_get 126 s i c hi hc
    rw [if_pos ((kept_plain c).mpr hp)] at this
    exact this
  · intro i c hi hc hp
    have := setLoop_get 126 s i c hi hc
    rw [if_neg (fun h => hp ((kept_plain c).mp h))] at this
    exact this
  · intro c hc
    exact (kept_plain c).mp (setLoop_kept 126 s c hc)
  · have h := setLoop_length 126 s
    unfold getName
    constructor
    · intro hn
      split at hn
      · rename_i he
        rw [show setLoop 126 s = [] from he] at h
        simp at h
        exact List.length_eq_zero_iff.mp (by omega)
      · cases hn
    · rintro rfl
      rfl

example : setName (some (bytesOf "io $(rm)/1")) = bytesOf "io___rm_/1" := by decide +kernel

/-- bytes that mean something to a shell -/
def special : Str := bytesOf " \t\n|&;<>()$`\\\"'*?[]#~=%!{}"

theorem digits_plain : ∀ (f n : Nat), ∀ c ∈ digitsRev f n, 48 ≤ c ∧ c ≤ 57
  | 0, n => by simp [digitsRev]
  | f + 1, n => by
    intro c hc
    simp only [digitsRev, List.mem_cons] at hc
    rcases hc with rfl | hc
    · omega
    · split at hc
      · cases hc
      · exact digits_plain f _ c hc

theorem dec_plain (n : Nat) : ∀ c ∈ dec n, 48 ≤ c ∧ c ≤ 57 := by
  intro c hc
  exact digits_plain _ _ c (by simpa [dec] using hc)

/-- the words of a text, which are what is between its spaces -/
def words : Str → List Str
  | [] => [[]]
  | c :: cs =>
    if c = 32 then [] :: words cs
    else
      match words cs with
      | w :: ws => (c :: w) :: ws
      | [] => [[c]]

theorem words_one : ∀ s : Str, 32 ∉ s → words s = [s]
  | [], _ => rfl
  | c :: cs, h => by
    simp only [List.mem_cons, not_or] at h
    simp only [words, if_neg (Ne.symm h.1), words_one cs h.2]

theorem words_append : ∀ s r : Str, 32 ∉ s → words (s ++ 32 :: r) = s :: words r
  | [], r, _ => by simp [words]
  | c :: cs, r, h => by
    simp only [List.mem_cons, not_or] at h
    simp only [List.cons_append, words, if_neg (Ne.symm h.1), words_append cs r h.2]

/-- **C101 (the command).** When the glider is run for a heart, or for a signal, the
shell is given three words: the glider, the number of the process, and the reason
with the name; the name adds no word and nothing that means something to the shell.
The output goes where it is configured to.  Partial: the whole command is at most
1023 bytes (see `C101_cut_violated`), and the glider is one word. -/
theorem C101_command_partial (glider : Str) (pid : Nat) (r : Reason) (name : Str)
    (hn : name ≠ []) (hg : 32 ∉ glider)
    (hl : (command glider pid r (getName (setName (some name))) none).length < 1023) :
    words (command glider pid r (getName (setName (some name))) none)
      = [glider, dec pid, r.text ++ 47 :: setName (some name)] ∧
    (∀ c ∈ r.text ++ 47 :: setName (some name), c ∉ special) ∧
    ∀ dir app, (command glider pid r (getName (setName (some name))) (some (dir, app))).length < 1023 →
      command glider pid r (getName (setName (some name))) (some (dir, app))
        = command glider pid r (getName (setName (some name))) none ++ bytesOf " > "
          ++ dir ++ [47] ++ app ++ [46] ++ dec pid ++ bytesOf ".trc" := by
  have hgn : getName (setName (some name)) = some (setName (some name)) := by
    unfold getName
    rw [if_neg]
    intro h
    exact hn ((C101_name name).2.2.2.2.1.mp (by rw [h]; rfl))
  rw [hgn] at hl ⊢
  have hkept := (C101_name name).2.2.2.1
  generalize setName (some name) = nm at hl hkept ⊢
  have htake : ∀ l : Str, (l.take 1023).length < 1023 → l.take 1023 = l := by
    intro l h
    rw [List.length_take] at h
    exact List.take_of_length_le (by omega)
  have hreason : ∀ c ∈ r.text, c ∈ plain := by
    cases r <;> decide
  have hword : ∀ c ∈ r.text ++ 47 :: nm, c ∈ plain := by
    intro c hc
    simp only [List.mem_append, List.mem_cons] at hc
    rcases hc with hc | rfl | hc
    · exact hreason c hc
    · decide
    · exact hkept c hc
  have hsp : ∀ c ∈ plain, c ∉ special := by decide +kernel
  refine ⟨?_, fun c hc => hsp c (hword c hc), ?_⟩
  · unfold command at hl ⊢
    simp only at hl ⊢
    rw [htake _ hl]
    have e : glider ++ [32] ++ dec pid ++ [32] ++ r.text ++ ([47] ++ nm)
        = glider ++ 32 :: (dec pid ++ 32 :: (r.text ++ 47 :: nm)) := by simp
    rw [e, words_append, words_append, words_one]
    · intro h
      have := hsp 32 (hword 32 h)
      exact this (by decide)
    · intro h
      have := dec_plain pid 32 h
      omega
    · exact hg
  · intro dir app h2
    unfold command at hl h2 ⊢
    simp only at hl h2 ⊢
    rw [htake _ hl, htake _ h2]

example : command (bytesOf "/opt/g") 42 .watchdog (some (bytesOf "io/1")) (some (bytesOf "/tmp", bytesOf "x"))
    = bytesOf "/opt/g 42 watchdog/io/1 > /tmp/x.42.trc" := by decide +kernel

/-- **C101 (a long command).** With long paths the end of the command is lost, and
the output goes to another file. -/
theorem C101_cut_violated :
    ∃ glider dir app : Str, command glider 42 .crash none (some (dir, app)) ≠
      glider ++ [32] ++ dec 42 ++ [32] ++ bytesOf "crash" ++ bytesOf " > " ++ dir ++ [47] ++ app ++
        [46] ++ dec 42 ++ bytesOf ".trc" ∧ glider.length + dir.length ≤ 1010 := by
  refine ⟨List.replicate 500 120, List.replicate 510 121, [97], ?_, by
    rw [List.length_replicate, List.length_replicate]⟩
  intro h
  have h2 := congrArg List.length h
  unfold command at h2
  rw [List.length_take] at h2
  have hd : (dec 42).length = 2 := by decide
  have e1 : (bytesOf "crash").length = 5 := by decide
  have e2 : (bytesOf " > ").length = 3 := by decide
  have e3 : (bytesOf ".trc").length = 4 := by decide
  simp only [List.length_append, List.length_replicate, List.length_cons, List.length_nil, hd, e1, e2, e3,
    Reason.text] at h2
  omega

/-! ### time limits -/

/-- **C101 (time limit).** The time limit told as a timeval is the one told as a
number, and it is well formed.  Partial: it is less than `2^31` microseconds, about
35 minutes (see `C101_limit_violated`). -/
theorem C101_limit_partial (t : Table) (i : Nat) (h : getTimeout t (some i) < 2 ^ 31) :
    ∃ d, timeoutTv t (some i) = .ok (some d) ∧ d.micros = getTimeout t (some i) ∧
      0 ≤ d.usec ∧ d.usec < 1000000 ∧
      (((t.hearts i).override = 0 → d.micros = t.global) ∧
        ((t.hearts i).override ≠ 0 → d.micros = (t.hearts i).override)) := by
  unfold timeoutTv getTimeout at *
  simp only [Option.getD_some] at *
  generalize hto : (if (t.hearts i).override ≠ 0 then (t.hearts i).override else t.global) = to_ at *
  rw [if_pos ⟨by omega, h⟩]
  refine ⟨_, rfl, ?_, by simp only; omega, by simp only; omega, ?_, ?_⟩
  · simp only [Tv.micros]; omega
  · intro h0
    rw [if_neg (by omega)] at hto
    simp only [Tv.micros]; omega
  · intro h0
    rw [if_pos h0] at hto
    simp only [Tv.micros]; omega

example : timeoutTv { global := 2500000 } (some 3) = .ok (some ⟨2, 500000⟩) := by decide +kernel

/-- **C101 (a long time limit).** A time limit of an hour cannot be told as a
timeval: the conversion overflows. -/
theorem C101_limit_violated : timeoutTv { global := 3600000000 } (some 0) = .ub ∧
    getTimeout { global := 3600000000 } (some 0) = 3600000000 := by decide +kernel

/-- **C101 (no heart).** The time limit of no heart is documented to be 0 and is that
of the first heart. -/
theorem C101_null_violated : getTimeout {} none = 5000000 ∧ ∀ t, getTimeout t none = getTimeout t (some 0) :=
  ⟨by decide, fun _ => rfl⟩

/-- **C101 (time left).** The time left is told for every heart the monitor has seen
change, and it is the time of that change, plus the time limit, minus the time now;
it is negative when that is past.  Partial: the time limit is less than `2^31`
microseconds. -/
theorem C101_left_partial (t : Table) (h : Option Nat) (now : Tv) (hl : getTimeout t h < 2 ^ 31)
    (hc : (t.hearts (h.getD 0)).changed.sec ≠ 0) (hu : 0 ≤ (t.hearts (h.getD 0)).changed.usec ∧
      (t.hearts (h.getD 0)).changed.usec < 1000000) (hn : 0 ≤ now.usec ∧ now.usec < 1000000) :
    ∃ d, remaining t h now = .ok (some d) ∧
      d.micros = (t.hearts (h.getD 0)).changed.micros + getTimeout t h - now.micros ∧
      -1000000 ≤ d.usec ∧ d.usec < 1000000 ∧
      (d.micros < 0 → d.sec ≤ 0 ∧ d.usec ≤ 0) ∧ (0 ≤ d.micros → 0 ≤ d.sec ∧ 0 ≤ d.usec) := by
  have hg : getTimeout t h = getTimeout t (some (h.getD 0)) := rfl
  obtain ⟨x, h1, h2, h3, h4, _⟩ := C101_limit_partial t (h.getD 0) (by rw [← hg]; exact hl)
  unfold remaining
  simp only
  rw [if_neg hc, h1]
  simp only
  rw [hg, ← h2]
  refine ⟨_, rfl, ?_⟩
  generalize (t.hearts (h.getD 0)).changed = c at *
  unfold subTv addTv Tv.micros
  simp only
  repeat' split
  all_goals (simp only at *; omega)

example : remaining { hearts := fun _ => { changed := ⟨100, 0⟩ } } none ⟨106, 500000⟩
    = .ok (some ⟨-1, -500000⟩) ∧
    remaining { hearts := fun _ => { changed := ⟨100, 900000⟩ } } none ⟨102, 0⟩
    = .ok (some ⟨3, 900000⟩) := by decide +kernel

end Mtev.WatchName
