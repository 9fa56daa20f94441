import Verif.Basic
import Verif.Mem

/-!
# Log lines as text: prefixes, splitting into lines, gathering into one write

`src/utils/mtev_log.c`, the text part of `mtev_log_line` (2318-2386) and
`mtev_log_writev` (2076-2113).  Text is a list of bytes without NUL.
-/

namespace Mtev.LogFmt

/-- `snprintf(buf, size, ...)`: at most `size - 1` bytes of the text -/
def snprintf (size : Nat) (text : List Nat) : List Nat := text.take (size - 1)

/-- `%u`, `%d` of a number that is not negative -/
def dec (n : Nat) : List Nat := bytesOf (toString n)

/-- `%06d` of a number below one million -/
def dec6 (n : Nat) : List Nat :=
  [48 + n / 100000 % 10, 48 + n / 10000 % 10, 48 + n / 1000 % 10, 48 + n / 100 % 10,
   48 + n / 10 % 10, 48 + n % 10]

/-- what a line carries besides its message: the date and time as `strftime`
writes them, the microseconds, and the thread and place that logged it.
Simplified: the thread's name is given (empty when there is none). -/
structure Origin where
  date : List Nat
  usec : Nat
  tid : Nat
  tname : List Nat
  file : List Nat
  line : Nat

/-- `"[%s.%06d] "` into `tbuf[48]` (`mtev_log.c:2334-2344`) -/
def tbuf (o : Origin) : List Nat :=
  snprintf 48 (bytesOf "[" ++ snprintf 32 o.date ++ bytesOf "." ++ dec6 o.usec ++ bytesOf "] ")

/-- the text of the debugging prefix before it is cut to the buffer (`mtev_log.c:2363-2367`) -/
def dtext (o : Origin) : List Nat :=
  if o.tname.isEmpty then
    bytesOf "[t@" ++ dec o.tid ++ bytesOf "," ++ o.file ++ bytesOf ":" ++ dec o.line ++ bytesOf "] "
  else
    bytesOf "[t@" ++ dec o.tid ++ bytesOf "/" ++ o.tname ++ bytesOf "," ++ o.file ++ bytesOf ":" ++
      dec o.line ++ bytesOf "] "

/-- into `dbuf[64]` (`mtev_log.c:2355-2371`) -/
def dbuf (o : Origin) : List Nat := snprintf 64 (dtext o)

/-- the switches in force: timestamps, facility, debug, split -/
structure Style where
  ts : Bool
  fac : Bool
  dbg : Bool
  split : Bool

/-- the pieces before the message (`mtev_log.c:2332-2371`) -/
def prefixes (s : Style) (name : List Nat) (o : Origin) : List (List Nat) :=
  (if s.ts then [tbuf o] else []) ++
  (if s.fac then [bytesOf "[", name, bytesOf "] "] else []) ++
  (if s.dbg then [dbuf o] else [])

/-- `memchr(this_line, '\n', len - sofar)`: how many bytes up to and with the newline -/
def lineLen : List Nat → Option Nat
  | [] => none
  | c :: cs => if c = 10 then some 1 else (lineLen cs).map (· + 1)

/-- the loop that writes (`mtev_log.c:2320-2386`): the vectors it hands to
`mtev_log_writev`, in order.  The first argument bounds the rounds; the length
of the message is enough, every round takes at least one byte. -/
def textLoop (split : Bool) (pre : List (List Nat)) : Nat → List Nat → List (List (List Nat))
  | 0, _ => []
  | f + 1, rest =>
    if rest.isEmpty then []
    else if split then
      match lineLen rest with
      | some n =>
        (pre ++ [rest.take n] ++ (if (rest.take n).getLast? = some 10 then [] else [[10]])) ::
          textLoop split pre f (rest.drop n)
      | none =>
        [pre ++ [rest] ++ (if rest.getLast? = some 10 then [] else [[10]])]
    else [pre ++ [rest]]

/-- all vectors for one line -/
def vectors (s : Style) (name : List Nat) (o : Origin) (msg : List Nat) : List (List (List Nat)) :=
  textLoop s.split (prefixes s name o) msg.length msg

/-- the size of `stackbuff` -/
def stackSize : Nat := 16384

/-- `maxi_nomalloc` (`mtev_log.c:2089-2092`): the last index up to which the
pieces fit the stack buffer; `s` is the sum so far. -/
def lastFit : List (List Nat) → Nat → Nat → Nat → Nat
  | [], _, _, m => m
  | v :: vs, i, s, m =>
    lastFit vs (i + 1) (s + v.length) (if s + v.length ≤ stackSize then i else m)

/-- copying pieces one after the other into a buffer of `cap` bytes -/
def gather (cap : Nat) : List (List Nat) → List Nat → Out (List Nat)
  | [], acc => .ok acc
  | v :: vs, acc =>
    if acc.length + v.length ≤ cap then gather cap vs (acc ++ v) else .ub

/-- `mtev_log_writev` (`mtev_log.c:2076-2113`) for operations that have
`writeop` only: the bytes handed to it.  `sig`: inside a signal handler.
Handing over more bytes than the buffer has, or than were copied, is undefined.
Simplified: `malloc` succeeds. -/
def writev (sig : Bool) (iov : List (List Nat)) : Out (List Nat) :=
  match iov with
  | [v] => .ok v
  | _ =>
    let s := iov.flatten.length
    let cap := if sig then stackSize else if stackSize < s then s else stackSize
    let used := if sig then iov.take (lastFit iov 0 0 0 + 1) else iov
    match gather cap used [] with
    | .ok b => if s ≤ b.length then .ok (b.take s) else .ub
    | .ub => .ub
    | .abort => .abort

/-- the bytes each `writeop` call gets for one line -/
def writes (sig : Bool) (s : Style) (name : List Nat) (o : Origin) (msg : List Nat) :
    List (Out (List Nat)) :=
  (vectors s name o msg).map (writev sig)

/-- what `mtev_ex_vlog` answers (`mtev_log.c:2837-2842`) for one stream that
writes, when every byte is written: `rv` is the sum over the writes. -/
def result (recs : List (List Nat)) (msg : List Nat) : Int :=
  if (recs.map List.length).sum = msg.length then 0 else -1

/-! ## helper lemmas -/

theorem gather_ok {cap} : ∀ vs acc, acc.length + vs.flatten.length ≤ cap →
    gather cap vs acc = .ok (acc ++ vs.flatten)
  | [], acc, _ => by simp [gather]
  | v :: vs, acc, h => by
    simp only [List.flatten_cons, List.length_append] at h
    simp only [gather]
    rw [if_pos (by omega), gather_ok vs (acc ++ v) (by simp only [List.length_append]; omega)]
    simp

theorem gather_len {cap} : ∀ vs acc b, acc.length ≤ cap → gather cap vs acc = .ok b → b.length ≤ cap
  | [], acc, b, ha, h => by
    simp only [gather] at h; cases h; exact ha
  | v :: vs, acc, b, ha, h => by
    simp only [gather] at h
    split at h
    · exact gather_len vs _ b (by simp only [List.length_append]; assumption) h
    · cases h

theorem lastFit_all : ∀ vs i s m, s + vs.flatten.length ≤ stackSize → vs ≠ [] →
    lastFit vs i s m = i + vs.length - 1
  | [], _, _, _, _, h => absurd rfl h
  | [v], i, s, m, h, _ => by
    simp only [List.flatten_cons, List.flatten_nil, List.append_nil] at h
    simp [lastFit, h]
  | v :: w :: vs, i, s, m, h, _ => by
    have h' : s + v.length + (w :: vs).flatten.length ≤ stackSize := by
      rw [List.flatten_cons, List.length_append] at h; omega
    rw [lastFit, lastFit_all (w :: vs) (i + 1) (s + v.length) _ h' (by simp)]
    simp only [List.length_cons]
    omega

theorem writev_plain (iov : List (List Nat)) : writev false iov = .ok iov.flatten := by
  unfold writev
  split
  · simp
  · simp only [Bool.false_eq_true, if_false]
    rw [gather_ok]
    · simp only [List.nil_append, Nat.le_refl, if_true, List.take_length]
    · simp only [List.length_nil, Nat.zero_add]
      split <;> omega

theorem writev_small (sig : Bool) (iov : List (List Nat)) (h : iov.flatten.length ≤ stackSize) :
    writev sig iov = .ok iov.flatten := by
  cases sig with
  | false => exact writev_plain iov
  | true =>
    unfold writev
    split
    · simp
    · simp only [if_true]
      have ht : iov.take (lastFit iov 0 0 0 + 1) = iov := by
        cases iov with
        | nil => simp
        | cons a b =>
          rw [lastFit_all _ 0 0 0 (by omega) (by simp)]
          apply List.take_of_length_le
          simp
      rw [ht, gather_ok _ _ (by simpa using h)]
      simp only [List.nil_append, Nat.le_refl, if_true, List.take_length]

theorem lineLen_spec : ∀ cs,
    (∀ n, lineLen cs = some n → ∃ x, (10 ∉ x) ∧ cs.take n = x ++ [10] ∧ n = x.length + 1 ∧
      cs = x ++ [10] ++ cs.drop n) ∧
    (lineLen cs = none → 10 ∉ cs)
  | [] => by constructor <;> simp [lineLen]
  | c :: cs => by
    obtain ⟨i1, i2⟩ := lineLen_spec cs
    by_cases hc : c = 10
    · subst hc
      constructor
      · intro n hn
        simp only [lineLen, if_true, Option.some.injEq] at hn
        subst hn
        exact ⟨[], by simp, by simp, by simp, by simp⟩
      · simp [lineLen]
    · constructor
      · intro n hn
        simp only [lineLen, hc, if_false] at hn
        cases hl : lineLen cs with
        | none => rw [hl] at hn; simp at hn
        | some m =>
          rw [hl] at hn
          simp only [Option.map_some, Option.some.injEq] at hn
          subst hn
          obtain ⟨x, h1, h2, h3, h4⟩ := i1 m hl
          refine ⟨c :: x, ?_, ?_, by simp [h3], ?_⟩
          · simp only [List.mem_cons, not_or]; exact ⟨fun h => hc h.symm, h1⟩
          · simp [List.take_succ_cons, h2]
          · rw [List.drop_succ_cons]
            simp only [List.cons_append]
            rw [← h4]
      · intro hn
        simp only [lineLen, hc, if_false, Option.map_eq_none_iff] at hn
        simp only [List.mem_cons, not_or]
        exact ⟨fun h => hc h.symm, i2 hn⟩

/-- the loop with splitting, as text -/
theorem split_spec (pre : List (List Nat)) : ∀ f msg, msg.length ≤ f →
    ∃ ls : List (List Nat), (∀ x ∈ ls, 10 ∉ x) ∧
      (textLoop true pre f msg).map List.flatten = ls.map (fun x => pre.flatten ++ x ++ [10]) ∧
      (msg = ls.flatMap (fun x => x ++ [10]) ∨
        (msg ≠ [] ∧ msg.getLast? ≠ some 10 ∧ msg ++ [10] = ls.flatMap (fun x => x ++ [10])))
  | 0, msg, h => by
    have : msg = [] := List.length_eq_zero_iff.1 (by omega)
    subst this
    exact ⟨[], by simp, by simp [textLoop], .inl (by simp)⟩
  | f + 1, msg, h => by
    simp only [textLoop]
    cases hm : msg.isEmpty with
    | true =>
      have : msg = [] := by simpa using hm
      subst this
      exact ⟨[], by simp, by simp, .inl (by simp)⟩
    | false =>
      have hne : msg ≠ [] := by intro h; subst h; simp at hm
      simp only [Bool.false_eq_true, if_false, if_true]
      cases hl : lineLen msg with
      | none =>
        have hno := (lineLen_spec msg).2 hl
        have hlast : msg.getLast? ≠ some 10 := fun h => hno (List.mem_of_getLast? h)
        refine ⟨[msg], by simpa using hno, by simp [hlast], .inr ⟨hne, hlast, by simp⟩⟩
      | some n =>
        obtain ⟨x, h1, h2, h3, h4⟩ := (lineLen_spec msg).1 n hl
        have hlen : (msg.drop n).length ≤ f := by
          rw [List.length_drop]; omega
        obtain ⟨ls, l1, l2, l3⟩ := split_spec pre f (msg.drop n) hlen
        refine ⟨x :: ls, ?_, ?_, ?_⟩
        · intro y hy
          rcases List.mem_cons.1 hy with rfl | hy
          · exact h1
          · exact l1 y hy
        · simp only [List.map_cons, l2]
          rw [h2]
          simp
        · rcases l3 with l3 | ⟨l3, l4, l5⟩
          · left
            rw [List.flatMap_cons, ← l3]
            exact h4
          · right
            refine ⟨hne, ?_, ?_⟩
            · rw [h4, List.getLast?_append]
              cases hd : (msg.drop n).getLast? with
              | none => rw [List.getLast?_eq_none_iff] at hd; exact absurd hd l3
              | some v =>
                rw [hd] at l4
                simpa using l4
            · rw [List.flatMap_cons, ← l5, ← List.append_assoc, ← h4]

theorem plain_spec (pre : List (List Nat)) (msg : List Nat) :
    textLoop false pre msg.length msg = if msg = [] then [] else [pre ++ [msg]] := by
  cases msg with
  | nil => simp [textLoop]
  | cons c cs => simp [textLoop]

theorem textLoop_count (split : Bool) (pre : List (List Nat)) : ∀ f msg, ∀ v ∈ textLoop split pre f msg,
    v.length ≤ pre.length + 2
  | 0, msg, v, h => by simp [textLoop] at h
  | f + 1, msg, v, h => by
    simp only [textLoop] at h
    split at h
    · simp at h
    · split at h
      · split at h
        · rcases List.mem_cons.1 h with rfl | h
          · simp only [List.length_append, List.length_singleton]
            split <;> simp
          · exact textLoop_count split pre f _ v h
        · simp only [List.mem_singleton] at h
          subst h
          simp only [List.length_append, List.length_singleton]
          split <;> simp
      · simp only [List.mem_singleton] at h
        subst h
        simp

theorem prefixes_count (s : Style) (name : List Nat) (o : Origin) : (prefixes s name o).length ≤ 5 := by
  unfold prefixes
  cases s.ts <;> cases s.fac <;> cases s.dbg <;> simp

end Mtev.LogFmt
