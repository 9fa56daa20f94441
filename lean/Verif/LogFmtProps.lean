import Verif.LogFmt

/-!
# C88: the text of a log line

What a text output is given for one message: whole lines, no byte lost.
-/

namespace Mtev.LogFmt

/-- the prefix of a record, as one text -/
def head (s : Style) (name : List Nat) (o : Origin) : List Nat :=
  (if s.ts then tbuf o else []) ++ (if s.fac then bytesOf "[" ++ name ++ bytesOf "] " else []) ++
  (if s.dbg then dbuf o else [])

theorem head_eq (s : Style) (name : List Nat) (o : Origin) :
    (prefixes s name o).flatten = head s name o := by
  unfold prefixes head
  cases s.ts <;> cases s.fac <;> cases s.dbg <;> simp

/-- **C88 (files).** An output that splits (a file) gets one record per line of
the message: the records, in order, are the lines, none of them containing a
newline, each with the same prefix before it and one newline after it; put
together again the lines are the message, with a newline added at its end if and
only if it had none. -/
theorem C88_split (s : Style) (name : List Nat) (o : Origin) (msg : List Nat)
    (hs : s.split = true) :
    ∃ lines : List (List Nat), (∀ x ∈ lines, 10 ∉ x) ∧
      writes false s name o msg = lines.map (fun x => Out.ok (head s name o ++ x ++ [10])) ∧
      (msg = lines.flatMap (fun x => x ++ [10]) ∨
        (msg ≠ [] ∧ msg.getLast? ≠ some 10 ∧ msg ++ [10] = lines.flatMap (fun x => x ++ [10]))) := by
  obtain ⟨ls, h1, h2, h3⟩ := split_spec (prefixes s name o) msg.length msg (Nat.le_refl _)
  refine ⟨ls, h1, ?_, h3⟩
  unfold writes vectors
  rw [hs]
  have hw : ∀ v : List (List Nat), writev false v = Out.ok v.flatten := writev_plain
  have : (textLoop true (prefixes s name o) msg.length msg).map (writev false)
      = ((textLoop true (prefixes s name o) msg.length msg).map List.flatten).map Out.ok := by
    rw [List.map_map]
    exact List.map_congr_left (fun v _ => hw v)
  rw [this, h2, List.map_map, ← head_eq]
  rfl

/-- **C88 (other outputs).** An output that does not split gets the message as
it is, after the prefix, in one write; an empty message writes nothing. -/
theorem C88_whole (s : Style) (name : List Nat) (o : Origin) (msg : List Nat)
    (hs : s.split = false) :
    writes false s name o msg = if msg = [] then [] else [Out.ok (head s name o ++ msg)] := by
  unfold writes vectors
  rw [hs, plain_spec]
  split
  · rfl
  · simp [writev_plain, head_eq]

/-- **C88 (room).** Whatever the switches and the message, no write is made of
more pieces than the seven the code has room for. -/
theorem C88_room (s : Style) (name : List Nat) (o : Origin) (msg : List Nat) :
    ∀ v ∈ vectors s name o msg, v.length ≤ 7 := by
  intro v hv
  have h1 := textLoop_count s.split (prefixes s name o) msg.length msg v hv
  have h2 := prefixes_count s name o
  omega

/-- the largest number of pieces is reached -/
example : ((vectors ⟨true, true, true, true⟩ (bytesOf "error")
    ⟨bytesOf "2024-01-02 03:04:05", 42, 7, bytesOf "main", bytesOf "a.c", 12⟩
    (bytesOf "x")).map List.length) = [7] := by decide +kernel

/-- **C88 (signal handlers).** Inside a signal handler nothing is different as
long as a record has at most 16384 bytes.  Partial: see
`C88_signal_violated`. -/
theorem C88_signal_partial (s : Style) (name : List Nat) (o : Origin) (msg : List Nat)
    (h : (head s name o).length + msg.length + 1 ≤ 16384) :
    writes true s name o msg = writes false s name o msg := by
  unfold writes
  apply List.map_congr_left
  intro v hv
  rw [writev_plain]
  apply writev_small
  -- every record is the prefix and at most the whole message and a newline
  unfold vectors at hv
  have hb : ∀ f m, m.length ≤ msg.length →
      ∀ v ∈ textLoop s.split (prefixes s name o) f m,
        v.flatten.length ≤ (head s name o).length + msg.length + 1 := by
    intro f
    induction f with
    | zero => intro m _ v hv; simp [textLoop] at hv
    | succ f ih =>
      intro m hm v hv
      simp only [textLoop] at hv
      have hflat : ∀ (x : List Nat) (c : Prop) [Decidable c], x.length ≤ msg.length →
          (prefixes s name o ++ [x] ++ (if c then [] else [[10]])).flatten.length
            ≤ (head s name o).length + msg.length + 1 := by
        intro x c _ hx
        simp only [List.flatten_append, List.length_append, head_eq]
        split <;> simp <;> omega
      split at hv
      · simp at hv
      · split at hv
        · split at hv
          · rcases List.mem_cons.1 hv with rfl | hv
            · exact hflat _ _ (by rw [List.length_take]; omega)
            · exact ih _ (by rw [List.length_drop]; omega) v hv
          · simp only [List.mem_singleton] at hv
            subst hv
            exact hflat _ _ hm
        · simp only [List.mem_singleton] at hv
          subst hv
          simp only [List.flatten_append, List.length_append, head_eq]
          simp
          omega
  exact Nat.le_trans (hb _ _ (Nat.le_refl _) v hv) h

/-- **C88 (large records in signal handlers).** In a signal handler, every
record of more than one piece and more than 16384 bytes makes the code hand over
more bytes than its buffer has. -/
theorem C88_signal_violated (iov : List (List Nat)) (h2 : 2 ≤ iov.length)
    (h : 16384 < iov.flatten.length) : writev true iov = .ub := by
  unfold writev
  split
  · simp at h2
  · simp only [if_true]
    split
    · rename_i b hb
      have := gather_len _ _ b (by simp) hb
      rw [if_neg (by simp only [stackSize] at this; omega)]
    · rfl
    · rename_i hb
      exfalso
      have : ∀ (vs : List (List Nat)) acc, gather stackSize vs acc ≠ .abort := by
        intro vs
        induction vs with
        | nil => intro acc; simp [gather]
        | cons v vs ih =>
          intro acc
          simp only [gather]
          split
          · exact ih _
          · simp
      exact this _ _ hb

/-- such a record exists -/
example : 16384 < ([bytesOf "[", List.replicate 16384 97, bytesOf "] ", bytesOf "x"] :
    List (List Nat)).flatten.length := by decide +kernel

/-- **C88 (time).** The timestamp is always written in full: an opening bracket,
the date, a point, the microseconds as six digits, a closing bracket and a blank,
for every date of at most 31 bytes. -/
theorem C88_timestamp (o : Origin) (h : o.date.length ≤ 31) (hu : o.usec < 1000000) :
    ∃ ds, ds.length = 6 ∧ (∀ d ∈ ds, 48 ≤ d ∧ d ≤ 57) ∧ ds.foldl (fun n d => n * 10 + (d - 48)) 0 = o.usec ∧
      tbuf o = bytesOf "[" ++ o.date ++ bytesOf "." ++ ds ++ bytesOf "] " := by
  refine ⟨dec6 o.usec, rfl, ?_, ?_, ?_⟩
  · intro d hd
    simp only [dec6, List.mem_cons, List.not_mem_nil, or_false] at hd
    omega
  · simp only [dec6, List.foldl_cons, List.foldl_nil]
    omega
  · unfold tbuf snprintf
    rw [List.take_of_length_le (l := o.date) (by omega)]
    apply List.take_of_length_le
    simp [bytesOf, dec6]
    omega

example : tbuf ⟨bytesOf "2024-01-02 03:04:05", 42, 7, [], bytesOf "a.c", 12⟩
    = bytesOf "[2024-01-02 03:04:05.000042] " := by decide +kernel

/-- the thread's number, its name if it has one, the file and the line -/
def place (o : Origin) : List Nat :=
  bytesOf "[t@" ++ bytesOf (toString o.tid) ++ (if o.tname = [] then [] else bytesOf "/" ++ o.tname) ++ bytesOf "," ++ o.file ++
    bytesOf ":" ++ bytesOf (toString o.line) ++ bytesOf "] "

/-- **C88 (place).** The debugging prefix is the place, written in full when it has at most
63 bytes, else its first 63 bytes.  Partial: see `C88_place_violated`. -/
theorem C88_place_partial (o : Origin) : dbuf o = (place o).take 63 ∧ ((place o).length ≤ 63 → dbuf o = place o) := by
  have e : dtext o = place o := by
    unfold dtext place dec
    cases o.tname <;> simp
  have h : dbuf o = (place o).take 63 := by unfold dbuf snprintf; rw [e]
  exact ⟨h, fun hl => by rw [h]; exact List.take_of_length_le hl⟩

example : dbuf ⟨[], 0, 7, bytesOf "main", bytesOf "a.c", 12⟩ = bytesOf "[t@7/main,a.c:12] " := by
  decide +kernel

/-- **C88 (long places).** A longer one is cut in the middle: here the end of
the file's name, the line and the closing bracket are missing, and the message
follows at once. -/
theorem C88_place_violated :
    writes false ⟨false, false, true, false⟩ []
      ⟨[], 0, 1234567, bytesOf "default/3", bytesOf "src/modules/http_observer/http_observer_requests.c", 120⟩
      (bytesOf "hello\n") =
    [Out.ok (bytesOf "[t@1234567/default/3,src/modules/http_observer/http_observer_rehello\n")] := by
  decide +kernel

/-- **C88 (answer).** The logging call is documented to answer the number of
bytes written "or an approximation"; it answers 0 or -1, and -1 for a line that
was written completely as soon as it has a prefix or a newline was added. -/
theorem C88_result_violated :
    (∀ recs msg, result recs msg = 0 ∨ result recs msg = -1) ∧
    ∀ (s : Style) (name : List Nat) (o : Origin) (msg : List Nat), s.split = false → msg ≠ [] →
      head s name o ≠ [] → result [head s name o ++ msg] msg = -1 := by
  constructor
  · intro recs msg
    unfold result
    split
    · exact .inl rfl
    · exact .inr rfl
  · intro s name o msg _ _ hh
    unfold result
    have : 0 < (head s name o).length := List.length_pos_iff.2 hh
    rw [if_neg]
    simp
    omega

/-- a message of several lines, written to a file with time stamps -/
example : writes false ⟨true, false, false, true⟩ []
    ⟨bytesOf "T", 1, 7, [], bytesOf "a.c", 12⟩ (bytesOf "one\n\ntwo") =
    [.ok (bytesOf "[T.000001] one\n"), .ok (bytesOf "[T.000001] \n"),
     .ok (bytesOf "[T.000001] two\n")] := by decide +kernel

end Mtev.LogFmt
