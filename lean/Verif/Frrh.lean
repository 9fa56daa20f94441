import Verif.Mem
import Verif.Conc

/-!
Model of the fixed-size random-replacement hash, `/repo/src/utils/mtev_frrh.c`
and `/repo/src/utils/mtev_frrh.h`.

Modelled: `mtev_frrh_alloc` (field set-up), `mtev_frrh_get`, `mtev_frrh_set`,
`mtev_frrh_stats`, the entry layout macros.  The table is shared by `n` threads
and every atomic access (pointer load, compare-and-swap, counter increment) is
one step; the callbacks `hashf` and `probf` are arbitrary (the hash is a
parameter of the model, the dice an input of the step that rolls them).

Simplifications: entries are never placed at the address of an earlier entry
(no address reuse, so a compare-and-swap on a pointer compares identities);
64-bit counters do not wrap; allocation does not fail (the code does not check
`allocf`'s result).
-/
namespace Mtev.Frrh

/-! ### Entry layout -/

/-- `MTEV_FRRH_DATA`, mtev_frrh.h:43: address of the data of an entry at
address `e` (`key` sits 4 bytes into the entry, mtev_frrh.h:38-41). -/
def dataAddr (e keylen : Nat) : Nat := (e + 4 + keylen + 7) / 8 * 8

/-- `MTEV_FRRH_BASE_SIZE(0, keylen) + f->datasize`: the size `mtev_frrh_set`
allocates, mtev_frrh.c:48,128. -/
def allocSize (keylen datasize : Nat) : Nat := dataAddr 0 keylen - 0 + datasize

/-- The stores of mtev_frrh.c:129-131 into the fresh entry: the key length (4
bytes, here `lenBytes`), the key, the data.  The block is the memory `allocf`
returned, at address `e`. -/
def fillEntry (e : Nat) (b : Block) (lenBytes key data : List Nat) : Out Block := do
  let b ← b.write 0 lenBytes
  let b ← b.write 4 key
  b.write (dataAddr e key.length - e) data

/-! ### The shared table -/

abbrev Key := List Nat
abbrev Data := List Nat

/-- `mtev_frrh_entry_t` with its trailing data. -/
structure Entry where
  key : Key
  data : Data
deriving DecidableEq, Repr

/-- One finished call, with the number of installs (successful
compare-and-swaps on the table) before its first and after its last step. -/
inductive Ret
  | got (k : Key) (r : Option Data) (n0 n1 : Nat)
  | put (k : Key) (d : Data) (ok : Bool) (n0 n1 : Nat)
deriving DecidableEq, Repr

/-- Where a thread is inside `mtev_frrh_get` / `mtev_frrh_set`. `n0` is the
ghost count of installs when the call started. -/
inductive PC
  | idle
  | gLoad (k : Key) (n0 : Nat)                       -- before mtev_frrh.c:109
  | gAcc (k : Key) (e : Option Nat) (n0 : Nat)       -- before mtev_frrh.c:110
  | gCmp (k : Key) (e : Option Nat) (n0 : Nat)       -- before mtev_frrh.c:112
  | gHit (k : Key) (e : Nat) (n0 : Nat)              -- before mtev_frrh.c:116
  | sLoad (k : Key) (d : Data) (n0 : Nat)            -- before mtev_frrh.c:125
  | sRoll (k : Key) (d : Data) (prev : Option Nat) (n0 : Nat) -- before mtev_frrh.c:126
  | sCas (k : Key) (d : Data) (prev : Option Nat) (e : Nat) (n0 : Nat) -- before mtev_frrh.c:132
  | sFree (k : Key) (d : Data) (prev : Option Nat) (n0 : Nat) -- before mtev_frrh.c:133
  | sDrop (k : Key) (d : Data) (prev : Option Nat) (e : Nat) (n0 : Nat) -- before mtev_frrh.c:136
deriving DecidableEq, Repr

/-- `mtev_frrh_t` (mtev_frrh.c:36-46) with the entry heap.  `ents` lists every
entry ever allocated (its index is its identity), `freed` the `freef` calls
with a non-NULL argument in order, `installs` and `rets` are ghost history. -/
structure St (n : Nat) where
  size : Nat
  prob : Nat
  access : Nat
  hit : Nat
  map : Nat → Option Nat
  ents : List Entry
  freed : List Nat
  pc : Fin n → PC
  installs : List Entry
  rets : List Ret

/-- `mtev_frrh_alloc`, mtev_frrh.c:64-87: `prob` is complemented. -/
def alloc (n size prob : Nat) : St n :=
  { size, prob := 4294967295 - prob, access := 0, hit := 0, map := fun _ => none,
    ents := [], freed := [], pc := fun _ => .idle, installs := [], rets := [] }

/-- `offset = (uint32_t)(hval % f->size)`, mtev_frrh.c:108,123. -/
def slot (hash : Key → Nat) (size : Nat) (k : Key) : Nat := hash k % size % 4294967296

/-- What a thread does next: start a call when idle, or take one step. `dice`
is the result of `probf` if the step calls it. -/
inductive Act
  | get (k : Key)
  | set (k : Key) (d : Data)
  | step (dice : Bool)
deriving DecidableEq, Repr

/-- May the thread dereference entry `e`?  With immediate reclamation
(`freef = free`, the default of mtev_frrh.c:84) only while it is not freed;
with deferred reclamation (an epoch-based `freef`) always. -/
def canRead {n : Nat} (deferred : Bool) (s : St n) (e : Nat) : Bool :=
  deferred || !(s.freed.contains e)

/-- One step of thread `i`. -/
def exec {n : Nat} (hash : Key → Nat) (deferred : Bool) (s : St n) (i : Fin n) (act : Act) :
    Out (St n) :=
  match act with
  | .get k =>
    if s.pc i = .idle then
      if s.size = 0 then .ub                       -- mtev_frrh.c:108: % 0
      else .ok { s with pc := upd s.pc i (.gLoad k s.installs.length) }
    else .ok s
  | .set k d =>
    if s.pc i = .idle then
      if s.size = 0 then .ub                       -- mtev_frrh.c:123: % 0
      else .ok { s with pc := upd s.pc i (.sLoad k d s.installs.length) }
    else .ok s
  | .step dice =>
    match s.pc i with
    | .idle => .ok s
    | .gLoad k n0 =>
      .ok { s with pc := upd s.pc i (.gAcc k (s.map (slot hash s.size k)) n0) }
    | .gAcc k e n0 =>
      .ok { s with access := s.access + 1, pc := upd s.pc i (.gCmp k e n0) }
    | .gCmp k none n0 =>
      .ok { s with pc := upd s.pc i .idle, rets := s.rets ++ [.got k none n0 s.installs.length] }
    | .gCmp k (some e) n0 =>
      match s.ents[e]? with
      | none => .ub
      | some en =>
        if canRead deferred s e then
          if en.key.length ≠ k.length then
            .ok { s with pc := upd s.pc i .idle,
                         rets := s.rets ++ [.got k none n0 s.installs.length] }
          else if en.key ≠ k then
            .ok { s with pc := upd s.pc i .idle,
                         rets := s.rets ++ [.got k none n0 s.installs.length] }
          else .ok { s with pc := upd s.pc i (.gHit k e n0) }
        else .ub
    | .gHit k e n0 =>
      match s.ents[e]? with
      | none => .ub
      | some en =>
        .ok { s with hit := s.hit + 1, pc := upd s.pc i .idle,
                     rets := s.rets ++ [.got k (some en.data) n0 s.installs.length] }
    | .sLoad k d n0 =>
      .ok { s with pc := upd s.pc i (.sRoll k d (s.map (slot hash s.size k)) n0) }
    | .sRoll k d none n0 =>
      .ok { s with ents := s.ents ++ [⟨k, d⟩], pc := upd s.pc i (.sCas k d none s.ents.length n0) }
    | .sRoll k d (some p) n0 =>
      if s.prob = 0 then
        .ok { s with ents := s.ents ++ [⟨k, d⟩],
                     pc := upd s.pc i (.sCas k d (some p) s.ents.length n0) }
      else if canRead deferred s p then            -- probf reads prev->key and its data
        if dice then
          .ok { s with ents := s.ents ++ [⟨k, d⟩],
                       pc := upd s.pc i (.sCas k d (some p) s.ents.length n0) }
        else
          .ok { s with pc := upd s.pc i .idle,
                       rets := s.rets ++ [.put k d false n0 s.installs.length] }
      else .ub
    | .sCas k d prev e n0 =>
      if s.map (slot hash s.size k) = prev then
        .ok { s with map := fun o => if o = slot hash s.size k then some e else s.map o,
                     installs := s.installs ++ [⟨k, d⟩],
                     pc := upd s.pc i (.sFree k d prev n0) }
      else .ok { s with pc := upd s.pc i (.sDrop k d prev e n0) }
    | .sFree k d prev n0 =>
      .ok { s with freed := s.freed ++ prev.toList, pc := upd s.pc i .idle,
                   rets := s.rets ++ [.put k d true n0 s.installs.length] }
    | .sDrop k d prev e n0 =>
      if prev = none then
        .ok { s with freed := s.freed ++ [e], pc := upd s.pc i (.sLoad k d n0) }
      else
        .ok { s with freed := s.freed ++ [e], pc := upd s.pc i .idle,
                     rets := s.rets ++ [.put k d false n0 s.installs.length] }

/-- An interleaving. -/
def run {n : Nat} (hash : Key → Nat) (deferred : Bool) (s : St n) :
    List (Fin n × Act) → Out (St n)
  | [] => .ok s
  | (i, a) :: rest => do run hash deferred (← exec hash deferred s i a) rest

/-! ### The invariant -/

/-- The last install whose key falls into the same slot as `k`. -/
def lastInSlot (hash : Key → Nat) (size : Nat) (installs : List Entry) (o : Nat) : Option Entry :=
  (installs.reverse).find? (fun e => slot hash size e.key = o)

theorem lastInSlot_append (hash : Key → Nat) (size : Nat) (l : List Entry) (e : Entry) (o : Nat) :
    lastInSlot hash size (l ++ [e]) o =
      if slot hash size e.key = o then some e else lastInSlot hash size l o := by
  unfold lastInSlot
  rw [List.reverse_append]
  by_cases h : slot hash size e.key = o <;> simp [h]

/-- Entries this thread is responsible for (will free or install). -/
def owes : PC → List Nat
  | .sCas _ _ _ e _ => [e]
  | .sFree _ _ prev _ => prev.toList
  | .sDrop _ _ _ e _ => [e]
  | _ => []

/-- The claim a value loaded from the table slot of `k` carries: it was the
content of the slot at some moment since the call began. -/
def Seen (hash : Key → Nat) {n : Nat} (s : St n) (k : Key) (e : Option Nat) (n0 : Nat) : Prop :=
  ∃ m, n0 ≤ m ∧ m ≤ s.installs.length ∧
    match e with
    | none => lastInSlot hash s.size (s.installs.take m) (slot hash s.size k) = none
    | some x => ∃ en, s.ents[x]? = some en ∧
        lastInSlot hash s.size (s.installs.take m) (slot hash s.size k) = some en

/-- Per-thread part of the invariant. -/
def PcOk (hash : Key → Nat) {n : Nat} (s : St n) : PC → Prop
  | .idle => True
  | .gLoad _ n0 => n0 ≤ s.installs.length
  | .gAcc k e n0 => Seen hash s k e n0
  | .gCmp k e n0 => Seen hash s k e n0
  | .gHit k e n0 => Seen hash s k (some e) n0 ∧ ∃ en, s.ents[e]? = some en ∧ en.key = k
  | .sLoad _ _ n0 => n0 ≤ s.installs.length
  | .sRoll _ _ _ n0 => n0 ≤ s.installs.length
  | .sCas k d _ e n0 => n0 ≤ s.installs.length ∧ s.ents[e]? = some ⟨k, d⟩
  | .sFree k d _ n0 => ∃ m, n0 ≤ m ∧ m < s.installs.length ∧ s.installs[m]? = some ⟨k, d⟩
  | .sDrop _ _ _ _ n0 => n0 ≤ s.installs.length

/-- Number of accesses counted whose hit may still be counted. -/
def mayHit : PC → Nat
  | .gCmp _ _ _ => 1
  | .gHit _ _ _ => 1
  | _ => 0

/-- How often entry `e` is held somewhere: by the table, by a thread, or among
the freed. -/
def places {n : Nat} (s : St n) (e : Nat) : Nat :=
  s.freed.count e + ∑ i, (owes (s.pc i)).count e

/-- What a finished call claims. -/
def RetOk (hash : Key → Nat) {n : Nat} (s : St n) : Ret → Prop
  | .got k r n0 n1 => ∃ m, n0 ≤ m ∧ m ≤ n1 ∧ n1 ≤ s.installs.length ∧
      r = (match lastInSlot hash s.size (s.installs.take m) (slot hash s.size k) with
           | none => none
           | some en => if en.key = k then some en.data else none)
  | .put k d true n0 n1 => ∃ m, n0 ≤ m ∧ m < n1 ∧ n1 ≤ s.installs.length ∧
      s.installs[m]? = some ⟨k, d⟩
  | .put _ _ false n0 n1 => n0 ≤ n1 ∧ n1 ≤ s.installs.length

/-- The invariant of every reachable state. -/
structure Inv (hash : Key → Nat) {n : Nat} (s : St n) : Prop where
  pcs : ∀ i, PcOk hash s (s.pc i)
  slots : ∀ o, match s.map o with
    | none => lastInSlot hash s.size s.installs o = none
    | some e => ∃ en, s.ents[e]? = some en ∧ lastInSlot hash s.size s.installs o = some en ∧
        slot hash s.size en.key = o
  fresh : ∀ e, s.ents.length ≤ e → places s e = 0
  once : ∀ e, places s e ≤ 1
  mapped : ∀ o e, s.map o = some e → places s e = 0
  kept : ∀ e, e < s.ents.length → places s e = 1 ∨ ∃ o, s.map o = some e
  counts : s.hit + ∑ i, mayHit (s.pc i) ≤ s.access
  rets : ∀ r ∈ s.rets, RetOk hash s r

theorem inv_alloc (hash : Key → Nat) (n size prob : Nat) : Inv hash (alloc n size prob) := by
  refine ⟨fun i => trivial, fun o => by simp [alloc, lastInSlot], fun e _ => ?_, fun e => ?_,
    fun o e h => by simp [alloc] at h, fun e h => by simp [alloc] at h, ?_,
    fun r h => by simp [alloc] at h⟩ <;> simp [alloc, places, owes, mayHit]

theorem seen_mono {hash : Key → Nat} {n : Nat} {s s' : St n} {l m : List Entry}
    (hz : s'.size = s.size) (he : s'.ents = s.ents ++ l) (hi : s'.installs = s.installs ++ m)
    {k : Key} {e : Option Nat} {n0 : Nat} (h : Seen hash s k e n0) : Seen hash s' k e n0 := by
  obtain ⟨t, h1, h2, h3⟩ := h
  refine ⟨t, h1, by rw [hi]; simp; omega, ?_⟩
  have ht : s'.installs.take t = s.installs.take t := by
    rw [hi, List.take_append_of_le_length h2]
  cases e with
  | none => simpa [ht, hz] using h3
  | some x =>
    obtain ⟨en, h4, h5⟩ := h3
    refine ⟨en, ?_, by rw [ht, hz]; exact h5⟩
    rw [he]
    exact (List.getElem?_append_left (List.getElem?_eq_some_iff.1 h4).1).trans h4

theorem get_mono {α : Type} {l l' m : List α} {x : Nat} {a : α} (he : l' = l ++ m)
    (h : l[x]? = some a) : l'[x]? = some a := by
  rw [he]; exact (List.getElem?_append_left (List.getElem?_eq_some_iff.1 h).1).trans h

theorem pcOk_mono {hash : Key → Nat} {n : Nat} {s s' : St n} {l m : List Entry}
    (hz : s'.size = s.size) (he : s'.ents = s.ents ++ l) (hi : s'.installs = s.installs ++ m)
    {p : PC} (h : PcOk hash s p) : PcOk hash s' p := by
  have hl : s.installs.length ≤ s'.installs.length := by rw [hi]; simp
  cases p with
  | idle => trivial
  | gLoad k n0 => exact Nat.le_trans h hl
  | gAcc k e n0 => exact seen_mono hz he hi h
  | gCmp k e n0 => exact seen_mono hz he hi h
  | gHit k e n0 =>
    obtain ⟨h1, en, h2, h3⟩ := h
    exact ⟨seen_mono hz he hi h1, en, get_mono he h2, h3⟩
  | sLoad k d n0 => exact Nat.le_trans h hl
  | sRoll k d prev n0 => exact Nat.le_trans h hl
  | sCas k d prev e n0 => exact ⟨Nat.le_trans h.1 hl, get_mono he h.2⟩
  | sFree k d prev n0 =>
    obtain ⟨t, h1, h2, h3⟩ := h
    exact ⟨t, h1, by omega, get_mono hi h3⟩
  | sDrop k d prev e n0 => exact Nat.le_trans h hl

theorem retOk_mono {hash : Key → Nat} {n : Nat} {s s' : St n} {m : List Entry}
    (hz : s'.size = s.size) (hi : s'.installs = s.installs ++ m)
    {r : Ret} (h : RetOk hash s r) : RetOk hash s' r := by
  have hl : s.installs.length ≤ s'.installs.length := by rw [hi]; simp
  cases r with
  | got k r n0 n1 =>
    obtain ⟨t, h1, h2, h3, h4⟩ := h
    refine ⟨t, h1, h2, by omega, ?_⟩
    have ht : s'.installs.take t = s.installs.take t := by
      rw [hi, List.take_append_of_le_length (by omega)]
    rw [ht, hz]; exact h4
  | put k d ok n0 n1 =>
    cases ok with
    | true =>
      obtain ⟨t, h1, h2, h3, h4⟩ := h
      exact ⟨t, h1, h2, by omega, get_mono hi h4⟩
    | false => exact ⟨h.1, Nat.le_trans h.2 hl⟩

/-- Every step other than a successful compare-and-swap. -/
theorem inv_move {hash : Key → Nat} {n : Nat} {s s' : St n} (hs : Inv hash s) (i : Fin n) (v : PC)
    (l : List Entry)
    (hpc : s'.pc = upd s.pc i v) (hmap : s'.map = s.map) (hz : s'.size = s.size)
    (hi : s'.installs = s.installs) (he : s'.ents = s.ents ++ l)
    (hpl : ∀ e, s'.freed.count e + (owes v).count e = s.freed.count e + (owes (s.pc i)).count e +
      (if s.ents.length ≤ e ∧ e < s'.ents.length then 1 else 0))
    (hv : PcOk hash s' v)
    (hcnt : s'.hit + mayHit v + s.access ≤ s.hit + mayHit (s.pc i) + s'.access)
    (hret : ∀ r ∈ s'.rets, r ∈ s.rets ∨ RetOk hash s' r) : Inv hash s' := by
  have hi' : s'.installs = s.installs ++ [] := by simp [hi]
  have hplace : ∀ e, places s' e = places s e +
      (if s.ents.length ≤ e ∧ e < s'.ents.length then 1 else 0) := by
    intro e
    have := sum_upd (fun p => (owes p).count e) s.pc i v
    have h2 := hpl e
    unfold places
    rw [hpc]
    omega
  have hlen : s.ents.length ≤ s'.ents.length := by rw [he]; simp
  refine ⟨?_, ?_, ?_, ?_, ?_, ?_, ?_, ?_⟩
  · intro j
    rw [hpc]
    rcases upd_cases s.pc i j v with ⟨_, e⟩ | ⟨_, e⟩ <;> rw [e]
    · exact hv
    · exact pcOk_mono hz he hi' (hs.pcs j)
  · intro o
    have := hs.slots o
    rw [hmap, hi, hz]
    cases hm : s.map o with
    | none => simpa [hm] using this
    | some e =>
      rw [hm] at this
      obtain ⟨en, h1, h2, h3⟩ := this
      exact ⟨en, get_mono he h1, h2, h3⟩
  · intro e h
    rw [hplace, hs.fresh e (by omega), if_neg (by omega)]
  · intro e
    rw [hplace]
    by_cases h : s.ents.length ≤ e ∧ e < s'.ents.length
    · rw [if_pos h, hs.fresh e h.1]
    · rw [if_neg h]; exact hs.once e
  · intro o e h
    rw [hmap] at h
    have h1 := hs.slots o
    rw [h] at h1
    obtain ⟨en, h2, _⟩ := h1
    have := (List.getElem?_eq_some_iff.1 h2).1
    rw [hplace, hs.mapped o e h, if_neg (by omega)]
  · intro e h
    rw [hplace, hmap]
    by_cases h2 : s.ents.length ≤ e
    · left; rw [hs.fresh e h2, if_pos ⟨h2, h⟩]
    · rw [if_neg (by omega)]; exact hs.kept e (by omega)
  · have := sum_upd mayHit s.pc i v
    have h2 := hs.counts
    rw [hpc]; omega
  · intro r hr
    rcases hret r hr with h | h
    · exact retOk_mono hz hi' (hs.rets r h)
    · exact h

/-- What a thread reads from its slot right now satisfies `Seen`. -/
theorem seen_now {hash : Key → Nat} {n : Nat} {s : St n} (hs : Inv hash s) (k : Key) {n0 : Nat}
    (h : n0 ≤ s.installs.length) : Seen hash s k (s.map (slot hash s.size k)) n0 := by
  refine ⟨s.installs.length, h, Nat.le_refl _, ?_⟩
  have := hs.slots (slot hash s.size k)
  rw [List.take_length]
  cases hm : s.map (slot hash s.size k) with
  | none => simpa [hm] using this
  | some e =>
    rw [hm] at this
    obtain ⟨en, h1, h2, _⟩ := this
    exact ⟨en, h1, h2⟩

theorem count_range {e L : Nat} : ([L] : List Nat).count e = if L ≤ e ∧ e < L + 1 then 1 else 0 := by
  by_cases h : L = e
  · subst h; simp
  · rw [List.count_cons]; simp [h]; omega

/-- The successful compare-and-swap. -/
theorem inv_cas {hash : Key → Nat} {n : Nat} {s : St n} (hs : Inv hash s) (i : Fin n)
    {k : Key} {d : Data} {prev : Option Nat} {e n0 : Nat}
    (hp : s.pc i = .sCas k d prev e n0) (hm : s.map (slot hash s.size k) = prev) {s' : St n}
    (hpc : s'.pc = upd s.pc i (.sFree k d prev n0))
    (hmap : s'.map = fun o => if o = slot hash s.size k then some e else s.map o)
    (hz : s'.size = s.size) (hi : s'.installs = s.installs ++ [⟨k, d⟩])
    (he : s'.ents = s.ents) (hf : s'.freed = s.freed) (hr : s'.rets = s.rets)
    (hh : s'.hit = s.hit ∧ s'.access = s.access) : Inv hash s' := by
  have he' : s'.ents = s.ents ++ [] := by simp [he]
  have hold := hs.pcs i
  rw [hp] at hold
  obtain ⟨hn, hent⟩ := hold
  have hplace : ∀ x, places s' x + (if x = e then 1 else 0) =
      places s x + prev.toList.count x := by
    intro x
    have h1 := sum_upd (fun p => (owes p).count x) s.pc i (.sFree k d prev n0)
    have h2 : (owes (s.pc i)).count x = if x = e then 1 else 0 := by
      rw [hp]; simp [owes, List.count_cons]; by_cases h : x = e <;> simp [h, eq_comm]
      exact fun h' => h h'.symm
    have h3 : (owes (.sFree k d prev n0)).count x = prev.toList.count x := rfl
    unfold places
    rw [hpc, hf]
    omega
  have hpe1 : places s e = 1 := by
    have h1 := le_sum (fun p => (owes p).count e) s.pc i
    have h2 : (owes (s.pc i)).count e = 1 := by rw [hp]; simp [owes]
    have h3 := hs.once e
    simp only [h2] at h1
    unfold places at *
    omega
  have hprev : ∀ x, prev = some x → places s x = 0 := fun x hx => hs.mapped _ x (hm.trans hx)
  have hne : prev ≠ some e := fun h => by have := hprev e h; omega
  have hcnt : ∀ x, prev.toList.count x = if prev = some x then 1 else 0 := by
    intro x
    cases prev with
    | none => simp
    | some y => by_cases h : y = x <;> simp [h]
  refine ⟨?_, ?_, ?_, ?_, ?_, ?_, ?_, ?_⟩
  · intro j
    rw [hpc]
    rcases upd_cases s.pc i j (.sFree k d prev n0) with ⟨_, h⟩ | ⟨_, h⟩ <;> rw [h]
    · exact ⟨s.installs.length, hn, by rw [hi]; simp, by rw [hi]; simp⟩
    · exact pcOk_mono hz he' hi (hs.pcs j)
  · intro o
    rw [hmap, hi, hz, he]
    by_cases ho : o = slot hash s.size k
    · simp only [if_pos ho]
      refine ⟨⟨k, d⟩, hent, ?_, ho.symm⟩
      rw [lastInSlot_append, if_pos ho.symm]
    · simp only [if_neg ho]
      have := hs.slots o
      rw [lastInSlot_append, if_neg (fun h => ho h.symm)]
      exact this
  · intro x hx
    rw [he] at hx
    have h1 := hplace x
    have h2 := hs.fresh x hx
    have h3 : prev ≠ some x := by
      intro h
      have h4 := hs.slots (slot hash s.size k)
      rw [hm, h] at h4
      obtain ⟨en, h5, _⟩ := h4
      have := (List.getElem?_eq_some_iff.1 h5).1
      omega
    rw [hcnt, if_neg h3] at h1
    omega
  · intro x
    have h1 := hplace x
    have h2 := hs.once x
    rw [hcnt] at h1
    by_cases h3 : prev = some x
    · have := hprev x h3; rw [if_pos h3] at h1; omega
    · rw [if_neg h3] at h1; omega
  · intro o x h
    rw [hmap] at h
    have h1 := hplace x
    rw [hcnt] at h1
    by_cases ho : o = slot hash s.size k
    · simp only [if_pos ho, Option.some.injEq] at h
      subst h
      rw [if_neg hne, if_pos rfl] at h1; omega
    · simp only [if_neg ho] at h
      have h2 := hs.mapped o x h
      have h3 : prev ≠ some x := by
        intro h3
        have a := hs.slots o
        have b := hs.slots (slot hash s.size k)
        rw [h] at a
        rw [hm, h3] at b
        obtain ⟨en, a1, _, a3⟩ := a
        obtain ⟨en', b1, _, b3⟩ := b
        rw [a1] at b1
        cases b1
        exact ho (a3.symm.trans b3)
      rw [if_neg h3] at h1
      omega
  · intro x hx
    rw [he] at hx
    have h1 := hplace x
    rw [hcnt] at h1
    by_cases hxe : x = e
    · right; exact ⟨slot hash s.size k, by rw [hmap]; simp [hxe]⟩
    · rw [if_neg hxe] at h1
      rcases hs.kept x hx with h2 | ⟨o, ho⟩
      · left
        have h3 : prev ≠ some x := fun h => by have := hprev x h; omega
        rw [if_neg h3] at h1; omega
      · by_cases hos : o = slot hash s.size k
        · left
          rw [hos, hm] at ho
          rw [if_pos ho] at h1
          have := hprev x ho
          omega
        · right; exact ⟨o, by rw [hmap]; simp [hos, ho]⟩
  · have := sum_upd mayHit s.pc i (.sFree k d prev n0)
    have h2 := hs.counts
    rw [hp] at this
    rw [hpc, hh.1, hh.2]
    have h3 : mayHit (.sCas k d prev e n0) = 0 := rfl
    have h4 : mayHit (.sFree k d prev n0) = 0 := rfl
    omega
  · intro r h
    rw [hr] at h
    exact retOk_mono hz hi (hs.rets r h)

/-- A miss or hit decided on the loaded entry agrees with the history. -/
theorem ret_of_seen {hash : Key → Nat} {n : Nat} {s : St n} {k : Key} {e : Option Nat} {n0 : Nat}
    (h : Seen hash s k e n0) (r : Option Data)
    (hr : r = match e with
      | none => none
      | some x => (s.ents[x]?).bind fun en => if en.key = k then some en.data else none) :
    RetOk hash s (.got k r n0 s.installs.length) := by
  obtain ⟨m, h1, h2, h3⟩ := h
  refine ⟨m, h1, h2, Nat.le_refl _, ?_⟩
  cases e with
  | none => simp only at h3; rw [h3]; exact hr
  | some x =>
    obtain ⟨en, h4, h5⟩ := h3
    rw [h5, hr]; simp [h4]

theorem mem_ret {hash : Key → Nat} {n : Nat} {s' : St n} {l : List Ret} {x : Ret}
    (hx : RetOk hash s' x) : ∀ r ∈ l ++ [x], r ∈ l ∨ RetOk hash s' r := by
  intro r hr
  rcases List.mem_append.1 hr with h | h
  · exact .inl h
  · rw [List.mem_singleton.1 h]; exact .inr hx

/-- Every step preserves the invariant, and with deferred reclamation and a
non-empty table no step is undefined. -/
theorem inv_exec {hash : Key → Nat} {n : Nat} {deferred : Bool} {s : St n} (hs : Inv hash s)
    (i : Fin n) (act : Act) :
    (∀ s', exec hash deferred s i act = .ok s' → Inv hash s' ∧ s'.size = s.size) ∧
    (deferred = true → s.size ≠ 0 → ∃ s', exec hash deferred s i act = .ok s') := by
  have hcur := hs.pcs i
  cases act with
  | get k =>
    simp only [exec]
    by_cases h : s.pc i = .idle
    · rw [if_pos h]
      by_cases hz : s.size = 0
      · simp [hz]
      · rw [if_neg hz]
        refine ⟨fun s' h' => ?_, fun _ _ => ⟨_, rfl⟩⟩
        cases h'
        refine ⟨inv_move hs i (.gLoad k s.installs.length) [] rfl rfl rfl rfl (by simp) (fun e => ?_)
          (Nat.le_refl _) (by simp [h, mayHit]) (fun r hr => .inl hr), rfl⟩
        simp [h, owes]
    · rw [if_neg h]
      exact ⟨fun s' h' => by cases h'; exact ⟨hs, rfl⟩, fun _ _ => ⟨_, rfl⟩⟩
  | set k d =>
    simp only [exec]
    by_cases h : s.pc i = .idle
    · rw [if_pos h]
      by_cases hz : s.size = 0
      · simp [hz]
      · rw [if_neg hz]
        refine ⟨fun s' h' => ?_, fun _ _ => ⟨_, rfl⟩⟩
        cases h'
        refine ⟨inv_move hs i (.sLoad k d s.installs.length) [] rfl rfl rfl rfl (by simp) (fun e => ?_)
          (Nat.le_refl _) (by simp [h, mayHit]) (fun r hr => .inl hr), rfl⟩
        simp [h, owes]
    · rw [if_neg h]
      exact ⟨fun s' h' => by cases h'; exact ⟨hs, rfl⟩, fun _ _ => ⟨_, rfl⟩⟩
  | step dice =>
    rcases hpc : s.pc i with _ | ⟨k, n0⟩ | ⟨k, e, n0⟩ | ⟨k, e, n0⟩ | ⟨k, e, n0⟩ | ⟨k, d, n0⟩ |
      ⟨k, d, prev, n0⟩ | ⟨k, d, prev, e, n0⟩ | ⟨k, d, prev, n0⟩ | ⟨k, d, prev, e, n0⟩ <;>
      rw [hpc] at hcur
    · simp only [exec, hpc]
      exact ⟨fun s' h' => by cases h'; exact ⟨hs, rfl⟩, fun _ _ => ⟨_, rfl⟩⟩
    · simp only [exec, hpc]
      refine ⟨fun s' h' => ?_, fun _ _ => ⟨_, rfl⟩⟩
      cases h'
      refine ⟨inv_move hs i (.gAcc k (s.map (slot hash s.size k)) n0) [] rfl rfl rfl rfl (by simp)
        (fun e => ?_) (seen_now hs k hcur) (by simp [hpc, mayHit]) (fun r hr => .inl hr), rfl⟩
      simp [hpc, owes]
    · simp only [exec, hpc]
      refine ⟨fun s' h' => ?_, fun _ _ => ⟨_, rfl⟩⟩
      cases h'
      refine ⟨inv_move hs i (.gCmp k e n0) [] rfl rfl rfl rfl (by simp)
        (fun e => ?_) hcur (by simp [hpc, mayHit]; omega) (fun r hr => .inl hr), rfl⟩
      simp [hpc, owes]
    · cases e with
      | none =>
        simp only [exec, hpc]
        refine ⟨fun s' h' => ?_, fun _ _ => ⟨_, rfl⟩⟩
        cases h'
        refine ⟨inv_move hs i .idle [] rfl rfl rfl rfl (by simp)
          (fun e => ?_) trivial (by simp [hpc, mayHit]) (mem_ret (ret_of_seen (s := s) (e := none) hcur none rfl)), rfl⟩
        simp [hpc, owes]
      | some x =>
        simp only [exec, hpc]
        obtain ⟨m, _, _, en, hen, _⟩ := id hcur
        rw [hen]; simp only
        have hmiss : en.key ≠ k → RetOk hash s (.got k none n0 s.installs.length) := fun hk =>
          ret_of_seen (s := s) (e := some x) hcur none (by simp [hen, hk])
        by_cases hc : canRead deferred s x = true
        · rw [if_pos hc]
          by_cases hl : en.key.length ≠ k.length
          · rw [if_pos hl]
            refine ⟨fun s' h' => ?_, fun _ _ => ⟨_, rfl⟩⟩
            cases h'
            refine ⟨inv_move hs i .idle [] rfl rfl rfl rfl (by simp)
              (fun e => ?_) trivial (by simp [hpc, mayHit])
              (mem_ret (hmiss (fun h => hl (by rw [h])))), rfl⟩
            simp [hpc, owes]
          · rw [if_neg hl]
            by_cases hk : en.key ≠ k
            · rw [if_pos hk]
              refine ⟨fun s' h' => ?_, fun _ _ => ⟨_, rfl⟩⟩
              cases h'
              refine ⟨inv_move hs i .idle [] rfl rfl rfl rfl (by simp)
                (fun e => ?_) trivial (by simp [hpc, mayHit]) (mem_ret (hmiss hk)), rfl⟩
              simp [hpc, owes]
            · rw [if_neg hk]
              refine ⟨fun s' h' => ?_, fun _ _ => ⟨_, rfl⟩⟩
              cases h'
              refine ⟨inv_move hs i (.gHit k x n0) [] rfl rfl rfl rfl (by simp)
                (fun e => ?_) ⟨hcur, en, hen, not_not.1 hk⟩ (by simp [hpc, mayHit])
                (fun r hr => .inl hr), rfl⟩
              simp [hpc, owes]
        · rw [if_neg hc]
          refine ⟨fun s' h' => by simp at h', fun hd => ?_⟩
          exact absurd (by simp [canRead, hd]) hc
    · simp only [exec, hpc]
      obtain ⟨hseen, en, hen, hk⟩ := hcur
      rw [hen]; simp only
      refine ⟨fun s' h' => ?_, fun _ _ => ⟨_, rfl⟩⟩
      cases h'
      refine ⟨inv_move hs i .idle [] rfl rfl rfl rfl (by simp)
        (fun e => ?_) trivial (by simp [hpc, mayHit])
        (mem_ret (ret_of_seen (s := s) hseen (some en.data) (by simp [hen, hk]))), rfl⟩
      simp [hpc, owes]
    · simp only [exec, hpc]
      refine ⟨fun s' h' => ?_, fun _ _ => ⟨_, rfl⟩⟩
      cases h'
      refine ⟨inv_move hs i (.sRoll k d (s.map (slot hash s.size k)) n0) [] rfl rfl rfl rfl (by simp)
        (fun e => ?_) hcur (by simp [hpc, mayHit]) (fun r hr => .inl hr), rfl⟩
      simp [hpc, owes]
    · have hnew : ∀ p, Inv hash { s with ents := s.ents ++ [⟨k, d⟩],
                                         pc := upd s.pc i (.sCas k d p s.ents.length n0) } := by
        intro p
        refine inv_move hs i (.sCas k d p s.ents.length n0) [⟨k, d⟩] rfl rfl rfl rfl rfl
          (fun e => ?_) ⟨hcur, by simp⟩ (by simp [hpc, mayHit]) (fun r hr => .inl hr)
        have := @count_range e s.ents.length
        simp only [hpc, owes, List.length_append, List.length_cons, List.length_nil]
        rw [this]; simp
      cases prev with
      | none =>
        simp only [exec, hpc]
        refine ⟨fun s' h' => ?_, fun _ _ => ⟨_, rfl⟩⟩
        cases h'
        exact ⟨hnew none, rfl⟩
      | some p =>
        simp only [exec, hpc]
        by_cases h0 : s.prob = 0
        · rw [if_pos h0]
          refine ⟨fun s' h' => ?_, fun _ _ => ⟨_, rfl⟩⟩
          cases h'
          exact ⟨hnew (some p), rfl⟩
        · rw [if_neg h0]
          by_cases hc : canRead deferred s p = true
          · rw [if_pos hc]
            cases dice with
            | true =>
              simp only [if_true]
              refine ⟨fun s' h' => ?_, fun _ _ => ⟨_, rfl⟩⟩
              cases h'
              exact ⟨hnew (some p), rfl⟩
            | false =>
              simp only [Bool.false_eq_true, if_false]
              refine ⟨fun s' h' => ?_, fun _ _ => ⟨_, rfl⟩⟩
              cases h'
              refine ⟨inv_move hs i .idle [] rfl rfl rfl rfl (by simp)
                (fun e => ?_) trivial (by simp [hpc, mayHit])
                (mem_ret ⟨hcur, Nat.le_refl _⟩), rfl⟩
              simp [hpc, owes]
          · rw [if_neg hc]
            refine ⟨fun s' h' => by simp at h', fun hd => ?_⟩
            exact absurd (by simp [canRead, hd]) hc
    · simp only [exec, hpc]
      by_cases hm : s.map (slot hash s.size k) = prev
      · rw [if_pos hm]
        refine ⟨fun s' h' => ?_, fun _ _ => ⟨_, rfl⟩⟩
        cases h'
        exact ⟨inv_cas hs i hpc hm rfl rfl rfl rfl rfl rfl rfl ⟨rfl, rfl⟩, rfl⟩
      · rw [if_neg hm]
        refine ⟨fun s' h' => ?_, fun _ _ => ⟨_, rfl⟩⟩
        cases h'
        refine ⟨inv_move hs i (.sDrop k d prev e n0) [] rfl rfl rfl rfl (by simp)
          (fun x => ?_) hcur.1 (by simp [hpc, mayHit]) (fun r hr => .inl hr), rfl⟩
        simp [hpc, owes]
    · simp only [exec, hpc]
      refine ⟨fun s' h' => ?_, fun _ _ => ⟨_, rfl⟩⟩
      cases h'
      obtain ⟨m, h1, h2, h3⟩ := hcur
      refine ⟨inv_move hs i .idle [] rfl rfl rfl rfl (by simp)
        (fun x => ?_) trivial (by simp [hpc, mayHit])
        (mem_ret ⟨m, h1, h2, Nat.le_refl _, h3⟩), rfl⟩
      simp [hpc, owes]
    · simp only [exec, hpc]
      by_cases hp : prev = none
      · rw [if_pos hp]
        refine ⟨fun s' h' => ?_, fun _ _ => ⟨_, rfl⟩⟩
        cases h'
        refine ⟨inv_move hs i (.sLoad k d n0) [] rfl rfl rfl rfl (by simp)
          (fun x => ?_) hcur (by simp [hpc, mayHit]) (fun r hr => .inl hr), rfl⟩
        simp [hpc, owes]
      · rw [if_neg hp]
        refine ⟨fun s' h' => ?_, fun _ _ => ⟨_, rfl⟩⟩
        cases h'
        refine ⟨inv_move hs i .idle [] rfl rfl rfl rfl (by simp)
          (fun x => ?_) trivial (by simp [hpc, mayHit]) (mem_ret ⟨hcur, Nat.le_refl _⟩), rfl⟩
        simp [hpc, owes]

theorem inv_run {hash : Key → Nat} {n : Nat} {deferred : Bool} (l : List (Fin n × Act)) (s : St n)
    (hs : Inv hash s) :
    (∀ s', run hash deferred s l = .ok s' → Inv hash s' ∧ s'.size = s.size) ∧
    (deferred = true → s.size ≠ 0 → ∃ s', run hash deferred s l = .ok s') := by
  induction l generalizing s with
  | nil =>
    refine ⟨fun s' h => ?_, fun _ _ => ⟨s, rfl⟩⟩
    simp only [run, Out.ok.injEq] at h
    subst h; exact ⟨hs, rfl⟩
  | cons a rest ih =>
    obtain ⟨i, act⟩ := a
    obtain ⟨h1, h2⟩ := inv_exec (deferred := deferred) hs i act
    simp only [run]
    cases he : exec hash deferred s i act with
    | ok s1 =>
      obtain ⟨hi1, hz1⟩ := h1 s1 he
      obtain ⟨h3, h4⟩ := ih s1 hi1
      simp only [Out.ok_bind]
      refine ⟨fun s' h' => ?_, fun hd hz => h4 hd (by rw [hz1]; exact hz)⟩
      obtain ⟨a, b⟩ := h3 s' h'
      exact ⟨a, b.trans hz1⟩
    | ub =>
      simp only [Out.ub_bind]
      refine ⟨fun s' h' => by simp at h', fun hd hz => ?_⟩
      obtain ⟨s', h'⟩ := h2 hd hz
      rw [he] at h'; simp at h'
    | abort =>
      simp only [Out.abort_bind]
      refine ⟨fun s' h' => by simp at h', fun hd hz => ?_⟩
      obtain ⟨s', h'⟩ := h2 hd hz
      rw [he] at h'; simp at h'

end Mtev.Frrh
