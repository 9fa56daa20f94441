import Verif.Frrh

/-!
Property theorems for the random-replacement hash (C21, C53).
-/
namespace Mtev.Frrh

/-! ### Specification -/

/-- The pair that currently survives in the bucket of `k` (bucket = hash value
modulo table size) after the stores `hist`, oldest first: simply the last one
stored into that bucket. -/
def survivor (hash : Key → Nat) (size : Nat) (k : Key) : List Entry → Option Entry → Option Entry
  | [], cur => cur
  | e :: rest, cur =>
    if hash e.key % size = hash k % size then survivor hash size k rest (some e)
    else survivor hash size k rest cur

/-- What a lookup of `k` must answer after the stores `hist`. -/
def answer (hash : Key → Nat) (size : Nat) (k : Key) (hist : List Entry) : Option Data :=
  match survivor hash size k hist none with
  | some ⟨k', d⟩ => if k' = k then some d else none
  | none => none

theorem survivor_append (hash : Key → Nat) (size : Nat) (k : Key) (l : List Entry) (e : Entry)
    (cur : Option Entry) : survivor hash size k (l ++ [e]) cur =
      if hash e.key % size = hash k % size then some e else survivor hash size k l cur := by
  induction l generalizing cur with
  | nil => simp [survivor]
  | cons a rest ih =>
    simp only [List.cons_append, survivor]
    by_cases h : hash a.key % size = hash k % size
    · rw [if_pos h, if_pos h, ih]
    · rw [if_neg h, if_neg h, ih]

theorem slot_eq_iff {hash : Key → Nat} {size : Nat} (h0 : 0 < size) (h : size ≤ 2 ^ 32)
    (a k : Key) : slot hash size a = slot hash size k ↔ hash a % size = hash k % size := by
  have h1 := Nat.mod_lt (hash a) h0
  have h2 := Nat.mod_lt (hash k) h0
  unfold slot
  rw [Nat.mod_eq_of_lt (a := hash a % size) (by omega), Nat.mod_eq_of_lt (a := hash k % size) (by omega)]

theorem survivor_eq {hash : Key → Nat} {size : Nat} (h0 : 0 < size) (h : size ≤ 2 ^ 32)
    (k : Key) (l : List Entry) :
    survivor hash size k l none = lastInSlot hash size l (slot hash size k) := by
  induction l using List.reverseRecOn with
  | nil => simp [survivor, lastInSlot]
  | append_singleton l e ih =>
    rw [survivor_append, lastInSlot_append, ih]
    by_cases hc : hash e.key % size = hash k % size
    · rw [if_pos hc, if_pos ((slot_eq_iff h0 h _ _).2 hc)]
    · rw [if_neg hc, if_neg (fun h' => hc ((slot_eq_iff h0 h _ _).1 h'))]

/-! ### C21 -/

/-- C21 (lookups are linearizable).  Whatever the hash function, dice, number of
threads and interleaving: a finished `get k` answered exactly what a lookup
answers after the first `m` stores into the table, for some moment `m` between
its start and its end (`n0`, `n1` count the stores done at its start and at its
end).  Tables of up to 2^32 slots. -/
theorem C21_get_linearizable (hash : Key → Nat) (deferred : Bool) (n size prob : Nat)
    (h0 : 0 < size) (hz : size ≤ 2 ^ 32) (l : List (Fin n × Act)) (s : St n)
    (hrun : run hash deferred (alloc n size prob) l = .ok s)
    (k : Key) (r : Option Data) (n0 n1 : Nat) (hr : .got k r n0 n1 ∈ s.rets) :
    ∃ m, n0 ≤ m ∧ m ≤ n1 ∧ n1 ≤ s.installs.length ∧
      r = answer hash size k (s.installs.take m) := by
  obtain ⟨hi, hsz⟩ := (inv_run l _ (inv_alloc hash n size prob)).1 s hrun
  obtain ⟨m, h1, h2, h3, h4⟩ := hi.rets _ hr
  refine ⟨m, h1, h2, h3, ?_⟩
  have hsz' : s.size = size := hsz
  rw [hsz', ← survivor_eq h0 hz] at h4
  rw [h4, answer]
  cases survivor hash size k (s.installs.take m) none <;> rfl

/-- C21 (a successful set is a store, a failed one is not counted as one).  A
`set k d` that returned true stored exactly `(k, d)` at some moment between its
start and its end. -/
theorem C21_set_linearizable (hash : Key → Nat) (deferred : Bool) (n size prob : Nat)
    (l : List (Fin n × Act)) (s : St n)
    (hrun : run hash deferred (alloc n size prob) l = .ok s)
    (k : Key) (d : Data) (n0 n1 : Nat) (hr : .put k d true n0 n1 ∈ s.rets) :
    ∃ m, n0 ≤ m ∧ m < n1 ∧ n1 ≤ s.installs.length ∧ s.installs[m]? = some ⟨k, d⟩ :=
  ((inv_run l _ (inv_alloc hash n size prob)).1 s hrun).1.rets _ hr

/-- The arguments a thread carries came from a `set` call. -/
def PcFrom (P : Key → Data → Prop) (ents : List Entry) : PC → Prop
  | .sLoad k d _ => P k d
  | .sRoll k d _ _ => P k d
  | .sCas k d _ _ _ => P k d
  | .sFree k d _ _ => P k d
  | .sDrop k d _ _ _ => P k d
  | .gHit k e _ => ∃ en, ents[e]? = some en ∧ en.key = k
  | _ => True

/-- The data a call returned came from a `set` call. -/
def RetFrom (P : Key → Data → Prop) : Ret → Prop
  | .got k (some d) _ _ => P k d
  | .put k d _ _ _ => P k d
  | _ => True

/-- Everything in the state came from a `set` call of the schedule. -/
structure From {n : Nat} (P : Key → Data → Prop) (s : St n) : Prop where
  ents : ∀ e ∈ s.ents, P e.key e.data
  pcs : ∀ i, PcFrom P s.ents (s.pc i)
  rets : ∀ r ∈ s.rets, RetFrom P r

theorem from_move {n : Nat} {P : Key → Data → Prop} {s s' : St n} (h : From P s) (i : Fin n)
    (v : PC) (l : List Entry) (he : s'.ents = s.ents ++ l) (hl : ∀ e ∈ l, P e.key e.data)
    (hpc : s'.pc = upd s.pc i v)
    (hv : PcFrom P s'.ents v)
    (hr : ∀ r ∈ s'.rets, r ∈ s.rets ∨ RetFrom P r) : From P s' := by
  refine ⟨?_, ?_, ?_⟩
  · intro e h'
    rw [he] at h'
    rcases List.mem_append.1 h' with h1 | h1
    · exact h.ents e h1
    · exact hl e h1
  · intro j
    rw [hpc]
    rcases upd_cases s.pc i j v with ⟨_, e⟩ | ⟨_, e⟩ <;> rw [e]
    · exact hv
    · have := h.pcs j
      cases hp : s.pc j <;> rw [hp] at this <;> try exact this
      obtain ⟨en, h1, h2⟩ := this
      exact ⟨en, get_mono he h1, h2⟩
  · intro r h'
    rcases hr r h' with h1 | h1
    · exact h.rets r h1
    · exact h1

theorem from_exec {hash : Key → Nat} {deferred : Bool} {n : Nat} {P : Key → Data → Prop}
    {s s' : St n} (h : From P s) (i : Fin n) (act : Act)
    (hact : ∀ k d, act = .set k d → P k d) (he : exec hash deferred s i act = .ok s') :
    From P s' := by
  have hc := h.pcs i
  have keep : ∀ r ∈ s.rets, r ∈ s.rets ∨ RetFrom P r := fun r hr => .inl hr
  have addr : ∀ x : Ret, (RetFrom P x) → ∀ r ∈ s.rets ++ [x], r ∈ s.rets ∨ RetFrom P r := by
    intro x hx r hr
    rcases List.mem_append.1 hr with h1 | h1
    · exact .inl h1
    · rw [List.mem_singleton.1 h1]; exact .inr hx
  cases act with
  | get k =>
    simp only [exec] at he
    split at he
    · split at he
      · simp at he
      · cases he
        exact from_move h i (.gLoad k s.installs.length) [] (by simp) (by simp) rfl trivial keep
    · cases he; exact h
  | set k d =>
    have hP := hact k d rfl
    simp only [exec] at he
    split at he
    · split at he
      · simp at he
      · cases he
        exact from_move h i (.sLoad k d s.installs.length) [] (by simp) (by simp) rfl hP keep
    · cases he; exact h
  | step dice =>
    simp only [exec] at he
    rcases hpc : s.pc i with _ | ⟨k, n0⟩ | ⟨k, e, n0⟩ | ⟨k, e, n0⟩ | ⟨k, e, n0⟩ | ⟨k, d, n0⟩ |
      ⟨k, d, prev, n0⟩ | ⟨k, d, prev, e, n0⟩ | ⟨k, d, prev, n0⟩ | ⟨k, d, prev, e, n0⟩ <;>
      rw [hpc] at hc <;> simp only [hpc] at he
    · cases he; exact h
    · cases he; exact from_move h i _ [] (by simp) (by simp) rfl trivial keep
    · cases he; exact from_move h i _ [] (by simp) (by simp) rfl trivial keep
    · cases e with
      | none => cases he; exact from_move h i _ [] (by simp) (by simp) rfl trivial (addr _ trivial)
      | some x =>
        simp only at he
        cases hen : s.ents[x]? with
        | none => simp [hen] at he
        | some en =>
          simp only [hen] at he
          split at he
          · split at he
            · cases he; exact from_move h i .idle [] (by simp) (by simp) rfl trivial (addr _ trivial)
            · split at he
              · cases he; exact from_move h i .idle [] (by simp) (by simp) rfl trivial (addr _ trivial)
              · rename_i hk
                cases he
                exact from_move h i (.gHit k x n0) [] (by simp) (by simp) rfl
                  ⟨en, hen, not_not.1 hk⟩ keep
          · simp at he
    · obtain ⟨en, hen, hk⟩ := hc
      simp only [hen] at he
      cases he
      refine from_move h i .idle [] (by simp) (by simp) rfl trivial (addr _ ?_)
      have := h.ents en (List.mem_of_getElem? hen)
      rw [hk] at this
      exact this
    · cases he; exact from_move h i (.sRoll _ _ _ _) [] (by simp) (by simp) rfl hc keep
    · cases prev with
      | none =>
        cases he
        exact from_move h i (.sCas _ _ _ _ _) [⟨k, d⟩] rfl (fun e h' => by rw [List.mem_singleton.1 h']; exact hc) rfl hc keep
      | some p =>
        simp only at he
        split at he
        · cases he
          exact from_move h i (.sCas _ _ _ _ _) [⟨k, d⟩] rfl (fun e h' => by rw [List.mem_singleton.1 h']; exact hc) rfl hc keep
        · split at he
          · split at he
            · cases he
              exact from_move h i (.sCas _ _ _ _ _) [⟨k, d⟩] rfl (fun e h' => by rw [List.mem_singleton.1 h']; exact hc) rfl hc keep
            · cases he; exact from_move h i .idle [] (by simp) (by simp) rfl trivial (addr _ hc)
          · simp at he
    · split at he
      · cases he; exact from_move h i (.sFree _ _ _ _) [] (by simp) (by simp) rfl hc keep
      · cases he; exact from_move h i (.sDrop _ _ _ _ _) [] (by simp) (by simp) rfl hc keep
    · cases he; exact from_move h i .idle [] (by simp) (by simp) rfl trivial (addr _ hc)
    · split at he
      · cases he; exact from_move h i (.sLoad _ _ _) [] (by simp) (by simp) rfl hc keep
      · cases he; exact from_move h i .idle [] (by simp) (by simp) rfl trivial (addr _ hc)

theorem from_run {hash : Key → Nat} {deferred : Bool} {n : Nat} {P : Key → Data → Prop}
    (l : List (Fin n × Act)) (s s' : St n) (h : From P s)
    (hl : ∀ i k d, (i, Act.set k d) ∈ l → P k d) (he : run hash deferred s l = .ok s') :
    From P s' := by
  induction l generalizing s with
  | nil => simp only [run, Out.ok.injEq] at he; subst he; exact h
  | cons a rest ih =>
    obtain ⟨i, act⟩ := a
    simp only [run] at he
    cases he1 : exec hash deferred s i act with
    | ok s1 =>
      rw [he1, Out.ok_bind] at he
      exact ih s1 (from_exec h i act (fun k d e => hl i k d (by simp [e])) he1)
        (fun i k d hm => hl i k d (by simp [hm])) he
    | ub => rw [he1, Out.ub_bind] at he; simp at he
    | abort => rw [he1, Out.abort_bind] at he; simp at he

/-- C21 (only what was stored).  Data returned for a key was passed to
`mtev_frrh_set` with exactly that key and exactly that data by some thread; for
tables of any size. -/
theorem C21_get_only_stored (hash : Key → Nat) (deferred : Bool) (n size prob : Nat)
    (l : List (Fin n × Act)) (s : St n)
    (hrun : run hash deferred (alloc n size prob) l = .ok s)
    (k : Key) (d : Data) (n0 n1 : Nat) (hr : .got k (some d) n0 n1 ∈ s.rets) :
    ∃ i, (i, Act.set k d) ∈ l := by
  have h := from_run (P := fun k d => ∃ i, (i, Act.set k d) ∈ l) l (alloc n size prob) s
    ⟨by simp [alloc], fun i => trivial, by simp [alloc]⟩
    (fun i k d h => ⟨i, h⟩) hrun
  exact h.rets _ hr

/-- C21 (counters).  Hits never exceed accesses. -/
theorem C21_hits_le_accesses (hash : Key → Nat) (deferred : Bool) (n size prob : Nat)
    (l : List (Fin n × Act)) (s : St n)
    (hrun : run hash deferred (alloc n size prob) l = .ok s) : s.hit ≤ s.access := by
  have := ((inv_run l _ (inv_alloc hash n size prob)).1 s hrun).1.counts
  omega

/-- C21 (table bound).  Slots outside the table stay untouched, so at most
`size` entries are ever reachable. -/
theorem C21_within_table (hash : Key → Nat) (deferred : Bool) (n size prob : Nat)
    (h0 : 0 < size) (l : List (Fin n × Act)) (s : St n)
    (hrun : run hash deferred (alloc n size prob) l = .ok s) (o : Nat) (ho : size ≤ o) :
    s.map o = none := by
  obtain ⟨hi, hsz⟩ := (inv_run l _ (inv_alloc hash n size prob)).1 s hrun
  have := hi.slots o
  cases hm : s.map o with
  | none => rfl
  | some e =>
    rw [hm] at this
    obtain ⟨en, _, _, h3⟩ := this
    have hsz' : s.size = size := hsz
    rw [hsz'] at h3
    have h1 := Nat.mod_lt (hash en.key) h0
    have h2 := Nat.mod_le (hash en.key % size) 4294967296
    unfold slot at h3
    omega

/-- The replacement setting of a table never changes. -/
theorem exec_prob {n : Nat} {hash : Key → Nat} {df : Bool} {s s' : St n} {i : Fin n} {a : Act}
    (h : exec hash df s i a = .ok s') : s'.prob = s.prob := by
  unfold exec at h
  repeat' (split at h)
  all_goals first
    | (injection h with h; subst h; rfl)
    | cases h

theorem run_prob {n : Nat} {hash : Key → Nat} {df : Bool} :
    ∀ (l : List (Fin n × Act)) {s s' : St n}, run hash df s l = .ok s' → s'.prob = s.prob := by
  intro l
  induction l with
  | nil => intro s s' h; simp only [run] at h; injection h with h; rw [h]
  | cons x l ih =>
    intro s s' h
    obtain ⟨i, a⟩ := x
    simp only [run] at h
    cases he : exec hash df s i a with
    | ok s1 => rw [he, Out.ok_bind] at h; rw [ih h, exec_prob he]
    | ub => rw [he, Out.ub_bind] at h; cases h
    | abort => rw [he, Out.abort_bind] at h; cases h

/-- C21 (a set on its own).  With no other thread active, a set into a bucket
that is empty, or on a table of probability UINT_MAX, or whose dice agree,
succeeds and a get directly after it returns the data; a set whose dice
disagree changes nothing. -/
theorem C21_set_get_alone (hash : Key → Nat) (n size prob : Nat) (hz : 0 < size)
    (hpr : prob ≤ 4294967295)
    (l : List (Fin n × Act)) (s : St n) (hrun : run hash true (alloc n size prob) l = .ok s)
    (i : Fin n) (hidle : s.pc i = .idle) (k : Key) (d : Data) (dice : Bool) :
    (s.map (slot hash size k) = none ∨ prob = 4294967295 ∨ dice = true →
      ∃ s', run hash true s ([(i, .set k d), (i, .step dice), (i, .step dice), (i, .step dice),
          (i, .step dice), (i, .get k), (i, .step dice), (i, .step dice), (i, .step dice),
          (i, .step dice)]) = .ok s' ∧
        s'.rets = s.rets ++ [.put k d true s.installs.length (s.installs.length + 1),
          .got k (some d) (s.installs.length + 1) (s.installs.length + 1)] ∧
        s'.pc = s.pc) ∧
    (s.map (slot hash size k) ≠ none → prob ≠ 4294967295 → dice = false →
      ∃ s', run hash true s [(i, .set k d), (i, .step dice), (i, .step dice)] = .ok s' ∧
        s'.rets = s.rets ++ [.put k d false s.installs.length s.installs.length] ∧
        s'.map = s.map ∧ s'.installs = s.installs ∧ s'.freed = s.freed ∧ s'.pc = s.pc) := by
  obtain ⟨hi, hsz⟩ := (inv_run l _ (inv_alloc hash n size prob)).1 s hrun
  have hsz' : s.size = size := hsz
  have hz' : s.size ≠ 0 := by omega
  have hp1 : s.prob = 4294967295 - prob := run_prob l hrun
  have hp2 : prob = 4294967295 ↔ s.prob = 0 := by rw [hp1]; omega
  simp only [ne_eq, hp2]
  have hback : ∀ a b c d : PC, ∀ (p : Fin n → PC), upd (upd (upd (upd p i a) i b) i c) i d = upd p i d := by
    intro a b c d p; funext j; unfold upd; by_cases h : j = i <;> simp [h]
  have hself : ∀ (p : Fin n → PC) v, p i = v → upd p i v = p := by
    intro p v h; funext j; unfold upd; by_cases h' : j = i
    · rw [if_pos h', h', h]
    · rw [if_neg h']
  have hupd2 : ∀ a b : PC, ∀ (p : Fin n → PC), upd (upd p i a) i b = upd p i b := by
    intro a b p; funext j; unfold upd; by_cases h : j = i <;> simp [h]
  constructor
  · intro hc
    rw [← hsz'] at hc
    have hcs : ∀ m, m = s.map (slot hash s.size k) → (m = none ∨ s.prob = 0 ∨ dice = true) →
        exec hash true { s with pc := upd s.pc i (.sRoll k d m s.installs.length) } i (.step dice)
        = .ok { s with ents := s.ents ++ [⟨k, d⟩],
                       pc := upd s.pc i (.sCas k d m s.ents.length s.installs.length) } := by
      intro m _ hm
      cases m with
      | none => simp [exec, hupd2]
      | some p =>
        rcases hm with h | h | h
        · simp at h
        · simp [exec, hupd2, h]
        · by_cases h0 : s.prob = 0
          · simp [exec, hupd2, h0]
          · simp [exec, hupd2, h0, h, canRead]
    have e1 : exec hash true s i (.set k d) =
        .ok { s with pc := upd s.pc i (.sLoad k d s.installs.length) } := by
      simp [exec, hidle, hz']
    have e2 : exec hash true { s with pc := upd s.pc i (.sLoad k d s.installs.length) } i (.step dice)
        = .ok { s with pc := upd s.pc i (.sRoll k d (s.map (slot hash s.size k)) s.installs.length) } := by
      simp [exec, hupd2]
    have e3 := hcs _ rfl hc
    simp only [run, e1, e2, e3, Out.ok_bind]
    simp only [exec, upd_same, Out.ok_bind, if_true, hz', if_false, hupd2, canRead, Bool.true_or,
      List.getElem?_concat_length, ne_eq, not_true_eq_false]
    refine ⟨_, rfl, ?_, ?_⟩
    · simp
    · exact hself _ _ hidle
  · intro h1 h2 h3
    rw [← hsz'] at h1
    cases hm : s.map (slot hash s.size k) with
    | none => exact absurd hm h1
    | some p =>
      simp only [run, exec, upd_same, Out.ok_bind, if_true, hz', if_false, hupd2, canRead, Bool.true_or,
        hidle, h3, h2, hm, Bool.false_eq_true]
      exact ⟨_, rfl, rfl, rfl, rfl, rfl, hself _ _ hidle⟩

/-! ### C53: reclamation of replaced entries -/

/-- C53 (frees).  In every reachable state every entry the table ever allocated
has been given to `freef` at most once, an entry still in the table has not
been given to it, and once all calls have finished every allocated entry is
either in the table or was freed exactly once (no leak, no double free). -/
theorem C53_freed_once (hash : Key → Nat) (deferred : Bool) (n size prob : Nat)
    (l : List (Fin n × Act)) (s : St n)
    (hrun : run hash deferred (alloc n size prob) l = .ok s) :
    (∀ e, s.freed.count e ≤ 1) ∧
    (∀ o e, s.map o = some e → e ∉ s.freed) ∧
    ((∀ i, s.pc i = .idle) → ∀ e, e < s.ents.length →
      (s.freed.count e = 1 ∧ ∀ o, s.map o ≠ some e) ∨
      (s.freed.count e = 0 ∧ ∃ o, s.map o = some e)) := by
  have hi := ((inv_run l _ (inv_alloc hash n size prob)).1 s hrun).1
  refine ⟨fun e => ?_, fun o e h hf => ?_, fun hidle e he => ?_⟩
  · have := hi.once e; unfold places at this; omega
  · have := hi.mapped o e h
    have h2 := List.count_pos_iff.2 hf
    unfold places at this; omega
  · have hp : places s e = s.freed.count e := by
      unfold places; simp [hidle, owes]
    rcases hi.kept e he with h | ⟨o, h⟩
    · left
      refine ⟨by omega, fun o ho => ?_⟩
      have := hi.mapped o e ho; omega
    · right
      have := hi.mapped o e h
      exact ⟨by omega, o, h⟩

/-- C53 (deferred reclamation is enough).  If `freef` delays the actual release
until no thread is inside a call, no interleaving reads freed memory, on any
non-empty table. -/
theorem C53_deferred_safe (hash : Key → Nat) (n size prob : Nat) (h0 : 0 < size)
    (l : List (Fin n × Act)) : ∃ s, run hash true (alloc n size prob) l = .ok s :=
  (inv_run l _ (inv_alloc hash n size prob)).2 rfl (by simp [alloc]; omega)

/-- C53, negative part: with the default `freef` (`free`) a lookup that overlaps
a replacing set reads freed memory: thread 0 loads the entry, thread 1 replaces
and frees it, thread 0 compares its key. -/
theorem C53_immediate_free_violated (hash : Key → Nat) (k : Key) (d d' : Data) :
    run hash false (alloc 2 1 4294967295)
      [(0, .set k d), (0, .step true), (0, .step true), (0, .step true), (0, .step true),
       (0, .get k), (0, .step true),
       (1, .set k d'), (1, .step true), (1, .step true), (1, .step true), (1, .step true),
       (0, .step true), (0, .step true)] = .ub := by
  simp [run, exec, alloc, canRead, slot, upd, Nat.mod_one]

/-! ### C54: entry layout -/

/-- C54.  In an entry allocated at an 8-aligned address the length, the key and
the data occupy disjoint parts of the allocation, all stores are in bounds, the
data starts at an 8-aligned address, and reading back key and data gives what
was stored; for every key and data size. -/
theorem C54_layout (junk : Nat → Nat) (e : Nat) (he : e % 8 = 0) (lenBytes key data : List Nat)
    (hl : lenBytes.length = 4) :
    ∃ b, fillEntry e (malloc junk (allocSize key.length data.length)) lenBytes key data = .ok b ∧
      b.read 0 4 = .ok lenBytes ∧ b.read 4 key.length = .ok key ∧
      b.read (dataAddr e key.length - e) data.length = .ok data ∧
      dataAddr e key.length % 8 = 0 := by
  have h1 : dataAddr e key.length - e = dataAddr 0 key.length := by unfold dataAddr; omega
  have h2 : 4 + key.length ≤ dataAddr 0 key.length := by unfold dataAddr; omega
  have hsz : allocSize key.length data.length = dataAddr 0 key.length + data.length := rfl
  rw [h1]
  unfold fillEntry
  rw [h1]
  obtain ⟨b1, hb1, hl1, _⟩ := Block.write_spec (malloc junk (allocSize key.length data.length)) 0
    lenBytes (by simp [hsz]; omega)
  rw [malloc_length] at hl1
  obtain ⟨b2, hb2, hl2, _⟩ := Block.write_spec b1 4 key (by omega)
  obtain ⟨b3, hb3, _, _⟩ := Block.write_spec b2 (dataAddr 0 key.length) data (by omega)
  rw [hb1, Out.ok_bind, hb2, Out.ok_bind, hb3]
  refine ⟨b3, rfl, ?_, ?_, ?_, by unfold dataAddr; omega⟩
  · rw [Block.read_write_before hb3 (by omega), Block.read_write_before hb2 (by omega), ← hl]
    exact Block.read_write_same hb1
  · rw [Block.read_write_before hb3 (by omega)]
    exact Block.read_write_same hb2
  · exact Block.read_write_same hb3

/-- C54, limit: a custom allocator that returns addresses that are not multiples
of 8 makes the data run past the allocation (here a 4-aligned one). -/
theorem C54_unaligned_violated (junk : Nat → Nat) :
    fillEntry 4 (malloc junk (allocSize 4 1)) [4, 0, 0, 0] [65, 65, 65, 65] [66] = .ub := by
  simp [fillEntry, allocSize, dataAddr, Block.write, malloc]

/-! ### Concrete cases -/

/-- A hash that sends everything to one bucket, a replaced key, and a lookup of
both: the newer key hits, the older misses. -/
example : (match run (n := 2) (fun _ => 0) true (alloc 2 4 4294967295)
      [(0, .set [1] [10]), (0, .step true), (0, .step true), (0, .step true), (0, .step true),
       (1, .set [2] [20]), (1, .step true), (1, .step true), (1, .step true), (1, .step true),
       (0, .get [1]), (0, .step true), (0, .step true), (0, .step true),
       (1, .get [2]), (1, .step true), (1, .step true), (1, .step true), (1, .step true)] with
    | .ok s => (s.rets, s.freed, s.hit, s.access)
    | _ => ([], [], 0, 0)) =
    ([.put [1] [10] true 0 1, .put [2] [20] true 1 2, .got [1] none 2 2, .got [2] (some [20]) 2 2],
      [0], 1, 2) := by decide +kernel

/-- Two racing sets into an empty bucket: the loser of the compare-and-swap
retries and replaces the winner. -/
example : (match run (n := 2) (fun _ => 0) true (alloc 2 4 0)
      [(0, .set [1] [10]), (1, .set [2] [20]), (0, .step true), (1, .step true),
       (0, .step true), (1, .step true), (0, .step true), (1, .step true), (1, .step true),
       (1, .step true), (1, .step false), (0, .step true)] with
    | .ok s => (s.rets, s.freed)
    | _ => ([], [])) =
    ([.put [2] [20] false 0 1, .put [1] [10] true 0 1], [1]) := by decide +kernel

end Mtev.Frrh
