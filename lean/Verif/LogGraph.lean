import Verif.Basic

/-!
# Log streams: the graph of outlets, its materialised state, and routing

`src/utils/mtev_log.c`.  A log stream may write somewhere itself (`ops`) and
passes what it is given to its outlets, each of which may carry a filter.  The
library keeps on every stream one derived bit, "enabled below": there is some
enabled stream at or below this one that writes somewhere.  Every logging call
is first tested against this bit.

A stream is named by a number; a name and its stream are identified (the
table of streams has one entry per name).
-/

namespace Mtev.LogGraph

/-- names a filter may ask about.  `mtev_log.c:1847-1880` (`flatbuffer_log_logic_lookup`):
seven built in ones, the three added for an active trace span (`:2758-2763`),
and those chosen by the caller. -/
inductive Key where
  | message | timestamp | threadid | threadname | file | line | facility
  | trace | span | parent
  | user (n : Nat)
deriving DecidableEq, Repr

abbrev Val := List Nat

/-- one of the seven names every line carries (`mtev_log.c:2686-2695`) -/
def isBuiltin : Key → Bool
  | .message | .timestamp | .threadid | .threadname | .file | .line | .facility => true
  | _ => false

/-- what one logging call is about: the formatted message, the other six built
in values, the attributes added for an active span and the attributes given by
the caller (`mtev_log.c:2640-2645, 2686-2696, 2746-2810`).  Simplified: a value
is its text whatever its type, and the thread has a name. -/
structure Line where
  msg : Val
  info : Key → Val
  span : List (Key × Val)
  kvs : List (Key × Val)

/-- `mtev_log_kvset_logic_lookup` (`mtev_log.c:1805-1842`): the caller's
attributes first, then the built in ones; `m` is what the message buffer holds
at that time. -/
def kvLookup (l : Line) (m : Val) (k : Key) : Option Val :=
  match l.kvs.lookup k with
  | some v => some v
  | none =>
    if k = .message then some m
    else if isBuiltin k then some (l.info k) else none

/-- `flatbuffer_log_logic_lookup` (`mtev_log.c:1845-1917`): the built in names
first, then the span's attributes, then the caller's. -/
def fbLookup (l : Line) (k : Key) : Option Val :=
  if k = .message then some l.msg
  else if isBuiltin k then some (l.info k)
  else (l.span ++ l.kvs).lookup k

/-- a filter: an expression over the looked up values, and whether it mentions
`message` (`mtev_log.c:1952-1956`).  Simplified: the expression is any function
of the lookups; `sound` is what `mtev_logic_has_predicate` promises. -/
structure Filter where
  run : (Key → Option Val) → Bool
  needsMsg : Bool
  sound : needsMsg = false → ∀ a b : Key → Option Val,
    (∀ k, k ≠ .message → a k = b k) → run a = run b

/-- `struct _mtev_log_stream_outlet_list` (one node) -/
structure Edge where
  dst : Nat
  filter : Option Filter

/-- the bits of `flags` (`mtev_log.h`, `MTEV_LOG_STREAM_*`) -/
structure Flags where
  on : Bool := true
  ts : Bool := false
  fac : Bool := false
  dbg : Bool := false
  split : Bool := false
deriving DecidableEq, Repr

/-- `struct _mtev_log_stream`: `below` is the ENABLED bit of `flags_below`
(the other bits of `flags_below` are never read), `done` is
`deps_materialized`. -/
structure Stream where
  fl : Flags
  ops : Bool
  outs : List Edge
  below : Bool
  done : Bool

/-- all stream structures by name, and the names in the table `mtev_loggers` -/
structure G where
  st : Nat → Stream
  all : List Nat

/-- replacing one stream -/
def set (s : Nat → Stream) (i : Nat) (x : Stream) : Nat → Stream :=
  fun j => if j = i then x else s j

/-- a loop that stops at the first true (`mtev_log.c:493-500`) -/
def firstTrue (p : Edge → Option Bool) : List Edge → Option Bool
  | [] => some false
  | e :: es =>
    match p e with
    | none => none
    | some true => some true
    | some false => firstTrue p es

/-- `has_material_output` (`mtev_log.c:483-507`).  The first argument is how
deep the call stack may grow; `none` when it is exhausted. -/
def hasMaterial (s : Nat → Stream) : Nat → Nat → Option Bool
  | 0, _ => none
  | f + 1, i =>
    if !(s i).fl.on then some false
    else if (s i).ops then some true
    else firstTrue (fun e => hasMaterial s f e.dst) (s i).outs

/-- the recursion over the outlets in `materialize_deps` (`mtev_log.c:518-525`) -/
def matAll (m : Nat → (Nat → Stream) → Option (Nat → Stream)) :
    List Nat → (Nat → Stream) → Option (Nat → Stream)
  | [], s => some s
  | i :: is, s =>
    match m i s with
    | none => none
    | some s => matAll m is s

/-- `materialize_deps` (`mtev_log.c:508-531`) -/
def mat : Nat → Nat → (Nat → Stream) → Option (Nat → Stream)
  | 0, _, _ => none
  | f + 1, i, s =>
    if (s i).done then some s
    else
      match matAll (mat f) ((s i).outs.map (·.dst)) s with
      | none => none
      | some s =>
        match hasMaterial s (f + 1) i with
        | none => none
        | some b => some (set s i { s i with below := b, done := true })

/-- `mtev_log_dematerialize` (`mtev_log.c:533-545`) -/
def demat (g : G) : Nat → Stream :=
  fun i => if i ∈ g.all then { g.st i with done := false } else g.st i

/-- `mtev_log_rematerialize` (`mtev_log.c:547-568`) -/
def remat (depth : Nat) (g : G) : Option G :=
  match matAll (mat depth) g.all (demat g) with
  | none => none
  | some s => some { g with st := s }

/-- the calls that change the graph -/
inductive Op where
  | boot (i : Nat)
  | onFd (i : Nat)
  | new (i : Nat) (ops split : Bool)
  | find (i : Nat) (parent : Option Nat)
  | add (i j : Nat)
  | addFiltered (i j : Nat) (f : Filter)
  | removeAll (i : Nat)
  | removeOutlet (i j : Nat)
  | remove (i : Nat)
  | setFlags (i : Nat) (fl : Flags)
  | resolve (i : Nat)

/-- giving a stream another list of outlets -/
def setOuts (g : G) (i : Nat) (es : List Edge) : G :=
  { g with st := set g.st i { g.st i with outs := es } }

/-- `mtev_log_stream_add_stream` and `_add_stream_filtered`
(`mtev_log.c:1777-1795, 1931-1966`): nothing happens when the outlet is already
there; otherwise it is put in front.  Simplified: the filter's text has been
parsed; both streams are in the table (else the call is not modelled). -/
def addOutlet (depth : Nat) (g : G) (i j : Nat) (f : Option Filter) : Option G :=
  if i ∈ g.all ∧ j ∈ g.all then
    if j ∈ (g.st i).outs.map (·.dst) then some g
    else
      remat depth (setOuts g i (⟨j, f⟩ :: (g.st i).outs))
  else some g

/-- taking out the first node that leads to `j` -/
def dropEdge (j : Nat) : List Edge → List Edge
  | [] => []
  | e :: es => if e.dst = j then es else e :: dropEdge j es

/-- `mtev_log_stream_remove_stream` (`mtev_log.c:1981-2015`) -/
def removeOutlet (depth : Nat) (g : G) (i j : Nat) : Option G :=
  if j ∈ (g.st i).outs.map (·.dst) then
    remat depth (setOuts g i (dropEdge j (g.st i).outs))
  else some g

/-- the loop of `mtev_log_stream_remove` (`mtev_log.c:1767-1770`) -/
def removeFrom (depth : Nat) (j : Nat) : List Nat → G → Option G
  | [], g => some g
  | i :: is, g =>
    match removeOutlet depth g i j with
    | none => none
    | some g => removeFrom depth j is g

/-- contents of a stream made by `mtev_log_stream_new_internal`
(`mtev_log.c:1609-1630`) -/
def fresh (ops split : Bool) : Stream :=
  { fl := { on := true, split := split }, ops := ops, outs := [], below := false, done := false }

/-- storing a stream in the table -/
def store (g : G) (i : Nat) (x : Stream) : G :=
  { st := set g.st i x, all := if i ∈ g.all then g.all else i :: g.all }

/-- the calls.
* `boot`: `mtev_log_init` makes `stderr` and sets both of its flag words
  (`mtev_log.c:1427-1429`).
* `onFd`: `mtev_log_stream_new_on_fd` (`:1537-1572`); the name must be new.
* `new`: `mtev_log_stream_new` (`:1690-1707`, `:1609-1662`): an existing stream
  of that name is replaced in place.  `ops` is whether the type names registered
  operations that opened.  Simplified: the parents named by the path exist.
* `find`: `mtev_log_stream_find` (`:1730-1760`) with the parent the name's path
  gives, which exists.
* `add`, `addFiltered`, `removeAll` (`:1967-1979`), `removeOutlet`.
* `remove`: `mtev_log_stream_remove` (`:1763-1774`).
* `setFlags`: `mtev_log_stream_set_flags` (`:1485-1490`).
* `resolve`: `mtev_log_resolve` (`:1579-1592`) for one stream whose type was
  registered after the stream was made; called by `mtev_log_final_resolve`. -/
def step (depth : Nat) (g : G) : Op → Option G
  | .boot i =>
    if i ∈ g.all then some g
    else some (store g i
      { fl := { on := true, ts := true, split := true }, ops := true, outs := [], below := true, done := false })
  | .onFd i => if i ∈ g.all then some g else some (store g i (fresh true false))
  | .new i ops split => remat depth (store g i (fresh ops split))
  | .find i parent =>
    if i ∈ g.all then some g
    else
      match remat depth (store g i (fresh false false)) with
      | none => none
      | some g =>
        match parent with
        | none => remat depth g
        | some p =>
          match addOutlet depth g i p none with
          | none => none
          | some g => remat depth g
  | .add i j => addOutlet depth g i j none
  | .addFiltered i j f => addOutlet depth g i j (some f)
  | .removeAll i =>
    if (g.st i).outs.isEmpty then some g
    else remat depth (setOuts g i [])
  | .removeOutlet i j => removeOutlet depth g i j
  | .remove i =>
    match removeFrom depth i g.all g with
    | none => none
    | some g => some { g with all := g.all.filter (· ≠ i) }
  | .setFlags i fl =>
    if (g.st i).fl = fl then some g
    else remat depth { g with st := set g.st i { g.st i with fl := fl } }
  | .resolve i => some { g with st := set g.st i { g.st i with ops := true } }

/-- a history of calls -/
def run (depth : Nat) : List Op → G → Option G
  | [], g => some g
  | o :: os, g =>
    match step depth g o with
    | none => none
    | some g => run depth os g

/-- no stream yet -/
def empty : G := { st := fun _ => fresh false false, all := [] }

/-! ## logging -/

/-- `struct filter_reuse_tracker` (`mtev_log.c:2225-2251`); a node is named by
its two ends -/
abbrev Tracker := List ((Nat × Nat) × Bool)

/-- `filter_reuse_tracker_track` (`mtev_log.c:2244-2251`), eight entries -/
def track (t : Tracker) (p : Nat × Nat) (b : Bool) : Tracker :=
  if 8 ≤ t.length then t else t ++ [(p, b)]

/-- `enum construction_required_t` (`mtev_log.c:2597-2601`) -/
inductive Need where
  | no | yes | msg
deriving DecidableEq, Repr

/-- the loop of `mtev_log_construction_needed` (`mtev_log.c:2614-2634`) -/
def needE (rec : Nat → Tracker → Option (Need × Tracker)) (l : Line) (hasMsg : Bool) (i : Nat) :
    List Edge → Tracker → Option (Need × Tracker)
  | [], t => some (.no, t)
  | e :: es, t =>
    match rec e.dst t with
    | none => none
    | some (.no, t) => needE rec l hasMsg i es t
    | some (_, t) =>
      match e.filter with
      | none => some (.yes, t)
      | some f =>
        match t.lookup (i, e.dst) with
        | some true => some (.yes, t)
        | some false => needE rec l hasMsg i es t
        | none =>
          if !hasMsg && f.needsMsg then some (.msg, t)
          else if f.run (kvLookup l (if hasMsg then l.msg else [])) then
            some (.yes, track t (i, e.dst) true)
          else needE rec l hasMsg i es (track t (i, e.dst) false)

/-- `mtev_log_construction_needed` (`mtev_log.c:2604-2637`) -/
def need (g : G) (l : Line) (hasMsg : Bool) : Nat → Nat → Tracker → Option (Need × Tracker)
  | 0, _, _ => none
  | f + 1, i, t =>
    if (g.st i).fl.on && (g.st i).ops then some (.yes, t)
    else if !(g.st i).fl.on then some (.no, t)
    else needE (need g l hasMsg f) l hasMsg i (g.st i).outs t

/-- one stream writing the line out: which stream, under which name, with which
of the three features (`mtev_log.c:2256-2265, 2300-2386`) -/
structure Write where
  stream : Nat
  name : Nat
  ts : Bool
  fac : Bool
  dbg : Bool
deriving DecidableEq, Repr

/-- whether an outlet's filter lets the line through
(`mtev_log.c:2407-2414`), with the remembered result when there is one -/
def passes (l : Line) (i : Nat) (e : Edge) (t : Tracker) : Bool × Tracker :=
  match e.filter with
  | none => (true, t)
  | some f =>
    match t.lookup (i, e.dst) with
    | some b => (b, t)
    | none => (f.run (fbLookup l), track t (i, e.dst) (f.run (fbLookup l)))

/-- the loop over the outlets in `mtev_log_line` (`mtev_log.c:2390-2424`) -/
def walkE (rec : Nat → Tracker → Option (List Write × Tracker)) (g : G) (l : Line) (i : Nat) :
    List Edge → Tracker → Option (List Write × Tracker)
  | [], t => some ([], t)
  | e :: es, t =>
    if (g.st e.dst).fl.on && (g.st e.dst).below then
      if (passes l i e t).1 then
        match rec e.dst (passes l i e t).2 with
        | none => none
        | some (w, t) =>
          match walkE rec g l i es t with
          | none => none
          | some (w', t) => some (w ++ w', t)
      else walkE rec g l i es (passes l i e t).2
    else walkE rec g l i es t

/-- the writing part of `mtev_log_line` (`mtev_log.c:2258-2265, 2300-2386`):
`inh` are the flags of the stream the line came from.  Hooks are not modelled. -/
def own (g : G) (name : Nat) (inh : Flags) (i : Nat) : List Write :=
  if (g.st i).ops then
    [{ stream := i, name := name, ts := (g.st i).fl.ts || inh.ts,
       fac := (g.st i).fl.fac || inh.fac, dbg := (g.st i).fl.dbg || inh.dbg }]
  else []

/-- `mtev_log_line` (`mtev_log.c:2253-2427`) -/
def walk (g : G) (l : Line) (name : Nat) :
    Nat → Flags → Nat → Tracker → Option (List Write × Tracker)
  | 0, _, _, _ => none
  | f + 1, inh, i, t =>
    match walkE (walk g l name f (g.st i).fl) g l i (g.st i).outs t with
    | none => none
    | some (w, t) => some (own g name inh i ++ w, t)

/-- `mtev_ex_vlog` (`mtev_log.c:2640-2849`): the test of the stream, the two
tests whether the line is needed at all, and the walk.  Simplified: no probes,
no hooks, no logs attached to spans, no nested call. -/
def log (depth : Nat) (g : G) (l : Line) (i : Nat) : Option (List Write) :=
  if (g.st i).fl.on && (g.st i).below then
    match need g l false depth i [] with
    | none => none
    | some (.no, _) => some []
    | some (.yes, t) => (walk g l i depth {} i t).map (·.1)
    | some (.msg, t) =>
      match need g l true depth i t with
      | none => none
      | some (.yes, t) => (walk g l i depth {} i t).map (·.1)
      | some (_, _) => some []
  else some []

/-! ## helper lemmas: the materialised bit -/

/-- some enabled stream at or below `i`, reached through enabled streams, writes somewhere -/
inductive Material (s : Nat → Stream) : Nat → Prop
  | here {i} : (s i).fl.on = true → (s i).ops = true → Material s i
  | down {i e} : (s i).fl.on = true → e ∈ (s i).outs → Material s e.dst → Material s i

theorem firstTrue_spec {p : Edge → Option Bool} {Q : Edge → Prop} : ∀ {es b},
    firstTrue p es = some b → (∀ e ∈ es, ∀ b, p e = some b → (b = true ↔ Q e)) →
    (b = true ↔ ∃ e ∈ es, Q e)
  | [], b, h, _ => by
    simp only [firstTrue, Option.some.injEq] at h
    subst h; simp
  | e :: es, b, h, hq => by
    simp only [firstTrue] at h
    split at h
    · cases h
    · rename_i h1
      simp only [Option.some.injEq] at h
      subst h
      simp only [true_iff]
      exact ⟨e, List.mem_cons_self, (hq e List.mem_cons_self true h1).1 rfl⟩
    · rename_i h1
      have h2 := firstTrue_spec (Q := Q) h (fun e he => hq e (List.mem_cons_of_mem _ he))
      have h3 : ¬ Q e := fun h => by
        have := (hq e List.mem_cons_self false h1).2 h
        simp at this
      rw [h2]
      constructor
      · rintro ⟨x, hx, hq⟩; exact ⟨x, List.mem_cons_of_mem _ hx, hq⟩
      · rintro ⟨x, hx, hx'⟩
        rcases List.mem_cons.1 hx with rfl | hx
        · exact absurd hx' h3
        · exact ⟨x, hx, hx'⟩

theorem hasMaterial_spec (s : Nat → Stream) : ∀ f i b, hasMaterial s f i = some b →
    (b = true ↔ Material s i)
  | 0, i, b, h => by simp [hasMaterial] at h
  | f + 1, i, b, h => by
    simp only [hasMaterial] at h
    split at h
    · rename_i h1
      simp only [Option.some.injEq] at h
      subst h
      constructor
      · intro h; cases h
      · intro h; cases h <;> simp_all
    · rename_i h1
      have h1 : (s i).fl.on = true := by simpa using h1
      split at h
      · rename_i h2
        simp only [Option.some.injEq] at h
        subst h
        exact ⟨fun _ => .here h1 h2, fun _ => rfl⟩
      · rename_i h2
        rw [firstTrue_spec (Q := fun e => Material s e.dst) h
          (fun e _ b hb => hasMaterial_spec s f e.dst b hb)]
        constructor
        · rintro ⟨e, he, hm⟩; exact .down h1 he hm
        · intro hm
          cases hm with
          | here _ h3 => exact absurd h3 h2
          | down _ he hm => exact ⟨_, he, hm⟩

/-- two states of the streams that differ in the derived bits only -/
def Same (s s' : Nat → Stream) : Prop :=
  ∀ i, (s' i).fl = (s i).fl ∧ (s' i).ops = (s i).ops ∧ (s' i).outs = (s i).outs

theorem Same.refl (s) : Same s s := fun _ => ⟨rfl, rfl, rfl⟩

theorem Same.trans {a b c} (h : Same a b) (h' : Same b c) : Same a c := fun i =>
  ⟨(h' i).1.trans (h i).1, (h' i).2.1.trans (h i).2.1, (h' i).2.2.trans (h i).2.2⟩

theorem Same.symm {a b} (h : Same a b) : Same b a := fun i =>
  ⟨(h i).1.symm, (h i).2.1.symm, (h i).2.2.symm⟩

theorem Same.material {s s'} (h : Same s s') {i} (hm : Material s i) : Material s' i := by
  induction hm with
  | here h1 h2 => exact .here (by rw [(h _).1]; exact h1) (by rw [(h _).2.1]; exact h2)
  | down h1 h2 _ ih => exact .down (by rw [(h _).1]; exact h1) (by rw [(h _).2.2]; exact h2) ih

theorem Same.material_iff {s s'} (h : Same s s') {i} : Material s' i ↔ Material s i :=
  ⟨h.symm.material, h.material⟩

/-- outlets lead to streams of the table -/
def Closed (all : List Nat) (s : Nat → Stream) : Prop :=
  ∀ i ∈ all, ∀ e ∈ (s i).outs, e.dst ∈ all

theorem Same.closed {all s s'} (h : Same s s') (hc : Closed all s) : Closed all s' := by
  intro i hi e he
  rw [(h i).2.2] at he
  exact hc i hi e he

/-- streams marked done have the right bit -/
def DoneOk (all : List Nat) (s : Nat → Stream) : Prop :=
  ∀ i ∈ all, (s i).done = true → ((s i).below = true ↔ Material s i)

theorem matAll_spec {all : List Nat} {m : Nat → (Nat → Stream) → Option (Nat → Stream)}
    (hm : ∀ i s s', i ∈ all → Closed all s → DoneOk all s → m i s = some s' →
      Same s s' ∧ DoneOk all s' ∧ (s' i).done = true ∧
        ∀ j, (s j).done = true → (s' j).done = true) :
    ∀ is s s', (∀ i ∈ is, i ∈ all) → Closed all s → DoneOk all s → matAll m is s = some s' →
      Same s s' ∧ DoneOk all s' ∧ (∀ i ∈ is, (s' i).done = true) ∧
        ∀ j, (s j).done = true → (s' j).done = true
  | [], s, s', _, hc, hd, h => by
    simp only [matAll, Option.some.injEq] at h
    subst h
    exact ⟨Same.refl _, hd, by simp, fun _ h => h⟩
  | i :: is, s, s', hi, hc, hd, h => by
    simp only [matAll] at h
    split at h
    · cases h
    · rename_i s1 h1
      obtain ⟨a1, a2, a3, a4⟩ := hm i s s1 (hi i List.mem_cons_self) hc hd h1
      obtain ⟨b1, b2, b3, b4⟩ := matAll_spec hm is s1 s'
        (fun j hj => hi j (List.mem_cons_of_mem _ hj)) (a1.closed hc) a2 h
      refine ⟨a1.trans b1, b2, ?_, fun j hj => b4 j (a4 j hj)⟩
      intro j hj
      rcases List.mem_cons.1 hj with rfl | hj
      · exact b4 _ a3
      · exact b3 j hj

theorem mat_spec (all : List Nat) : ∀ f i s s', i ∈ all → Closed all s → DoneOk all s →
    mat f i s = some s' →
      Same s s' ∧ DoneOk all s' ∧ (s' i).done = true ∧
        ∀ j, (s j).done = true → (s' j).done = true
  | 0, i, s, s', _, _, _, h => by simp [mat] at h
  | f + 1, i, s, s', hi, hc, hd, h => by
    simp only [mat] at h
    split at h
    · rename_i h1
      simp only [Option.some.injEq] at h
      subst h
      exact ⟨Same.refl _, hd, h1, fun _ h => h⟩
    · rename_i h1
      split at h
      · cases h
      · rename_i s1 h2
        obtain ⟨a1, a2, a3, a4⟩ := matAll_spec (mat_spec all f) _ s s1
          (fun j hj => by
            obtain ⟨e, he, rfl⟩ := List.mem_map.1 hj
            exact hc i hi e he) hc hd h2
        split at h
        · cases h
        · rename_i b hb
          simp only [Option.some.injEq] at h
          subst h
          have hs : Same s1 (set s1 i { s1 i with below := b, done := true }) := by
            intro j
            by_cases hj : j = i
            · subst hj; simp [set]
            · simp [set, hj]
          refine ⟨a1.trans hs, ?_, by simp [set], ?_⟩
          · intro j hj hdn
            rw [hs.material_iff]
            by_cases hji : j = i
            · subst hji
              simpa [set] using hasMaterial_spec s1 _ _ b hb
            · simp only [set, hji, if_false] at hdn ⊢
              exact a2 j hj hdn
          · intro j hj
            by_cases hji : j = i
            · subst hji; simp [set]
            · simp only [set, hji, if_false]
              exact a4 j hj

theorem demat_same (g : G) : Same g.st (demat g) := by
  intro i
  unfold demat
  split <;> simp

/-- every stream of the table has the right bit -/
def Good (g : G) : Prop := ∀ i ∈ g.all, ((g.st i).below = true ↔ Material g.st i)

theorem remat_spec {depth g g'} (hc : Closed g.all g.st) (h : remat depth g = some g') :
    g'.all = g.all ∧ Same g.st g'.st ∧ Good g' := by
  unfold remat at h
  split at h
  · cases h
  · rename_i s hs
    simp only [Option.some.injEq] at h
    subst h
    have hd : DoneOk g.all (demat g) := by
      intro i hi hdn
      simp [demat, hi] at hdn
    obtain ⟨a1, a2, a3, _⟩ := matAll_spec (mat_spec g.all depth) g.all (demat g) s
      (fun _ h => h) ((demat_same g).closed hc) hd hs
    refine ⟨rfl, (demat_same g).trans a1, ?_⟩
    intro i hi
    exact a2 i hi (a3 i hi)

/-- at most one outlet to a given stream -/
def Distinct (s : Nat → Stream) : Prop := ∀ i, ((s i).outs.map (·.dst)).Nodup

/-- what holds between calls -/
structure InvB (q : Prop) (g : G) : Prop where
  closed : Closed g.all g.st
  distinct : Distinct g.st
  good' : q → Good g

/-- the same with the derived bits right -/
abbrev Inv (g : G) : Prop := InvB True g

theorem InvB.good {g} (h : Inv g) : Good g := h.good' trivial

theorem Same.distinct {s s'} (h : Same s s') (hd : Distinct s) : Distinct s' := by
  intro i; rw [(h i).2.2]; exact hd i

theorem remat_inv {q depth g g'} (hc : Closed g.all g.st) (hd : Distinct g.st)
    (h : remat depth g = some g') : InvB q g' ∧ g'.all = g.all ∧ Same g.st g'.st := by
  obtain ⟨h1, h2, h3⟩ := remat_spec hc h
  exact ⟨⟨by rw [h1]; exact h2.closed hc, h2.distinct hd, fun _ => h3⟩, h1, h2⟩

theorem dropEdge_sublist (j) : ∀ es, (dropEdge j es).Sublist es
  | [] => by simp [dropEdge]
  | e :: es => by
    simp only [dropEdge]
    split
    · exact List.sublist_cons_self _ _
    · exact (dropEdge_sublist j es).cons_cons _

theorem setOuts_closed {g : G} {i es} (hc : Closed g.all g.st)
    (he : i ∈ g.all → ∀ e ∈ es, e.dst ∈ g.all) :
    Closed (setOuts g i es).all (setOuts g i es).st := by
  intro k hk e hek
  simp only [setOuts] at hk hek ⊢
  by_cases hki : k = i
  · subst hki
    simp only [set, if_true] at hek
    exact he hk e hek
  · simp only [set, hki, if_false] at hek
    exact hc k hk e hek

theorem setOuts_distinct {g : G} {i es} (hd : Distinct g.st) (he : (es.map (·.dst)).Nodup) :
    Distinct (setOuts g i es).st := by
  intro k
  simp only [setOuts]
  by_cases hki : k = i
  · subst hki; simpa [set] using he
  · simpa [set, hki] using hd k

theorem addOutlet_inv {q depth g g' i j f} (hi : InvB q g) (h : addOutlet depth g i j f = some g') :
    InvB q g' := by
  unfold addOutlet at h
  split at h
  · rename_i hm
    split at h
    · cases h; exact hi
    · rename_i hn
      refine (remat_inv (setOuts_closed hi.closed ?_) (setOuts_distinct hi.distinct ?_) h).1
      · intro hk e he
        rcases List.mem_cons.1 he with rfl | he
        · exact hm.2
        · exact hi.closed i hk e he
      · simp only [List.map_cons, List.nodup_cons]
        exact ⟨hn, hi.distinct i⟩
  · cases h; exact hi

theorem removeOutlet_inv {q depth g g' i j} (hi : InvB q g) (h : removeOutlet depth g i j = some g') :
    InvB q g' ∧ g'.all = g.all ∧ (∀ k, k ≠ i → (g'.st k).outs = (g.st k).outs) ∧
      j ∉ (g'.st i).outs.map (·.dst) := by
  unfold removeOutlet at h
  split at h
  · rename_i hm
    obtain ⟨h1, h2, h3⟩ := remat_inv (setOuts_closed hi.closed (fun hk e he =>
        hi.closed i hk e ((dropEdge_sublist j _).subset he)))
      (setOuts_distinct hi.distinct (((dropEdge_sublist j _).map _).nodup (hi.distinct i))) h
    refine ⟨h1, h2, ?_, ?_⟩
    · intro k hk
      rw [(h3 k).2.2]
      simp [setOuts, set, hk]
    · rw [(h3 i).2.2]
      simp only [setOuts, set, if_true]
      have : ∀ es : List Edge, (es.map (·.dst)).Nodup → j ∉ (dropEdge j es).map (·.dst) := by
        intro es
        induction es with
        | nil => simp [dropEdge]
        | cons e es ih =>
          intro hn
          simp only [List.map_cons, List.nodup_cons] at hn
          simp only [dropEdge]
          split
          · rename_i hj; rw [← hj]; exact hn.1
          · rename_i hj
            simp only [List.map_cons, List.mem_cons, not_or]
            exact ⟨fun h => hj h.symm, ih hn.2⟩
      exact this _ (hi.distinct i)
  · rename_i hn
    cases h
    exact ⟨hi, rfl, fun _ _ => rfl, hn⟩

theorem removeFrom_inv {q depth j} : ∀ is g g', InvB q g → removeFrom depth j is g = some g' →
    InvB q g' ∧ g'.all = g.all ∧
      (∀ k, (j ∉ (g.st k).outs.map (·.dst) ∨ k ∈ is) → j ∉ (g'.st k).outs.map (·.dst))
  | [], g, g', hi, h => by
    simp only [removeFrom, Option.some.injEq] at h
    subst h
    refine ⟨hi, rfl, ?_⟩
    intro k hk
    rcases hk with hk | hk
    · exact hk
    · simp at hk
  | i :: is, g, g', hi, h => by
    simp only [removeFrom] at h
    split at h
    · cases h
    · rename_i g1 h1
      obtain ⟨a1, a2, a3, a4⟩ := removeOutlet_inv hi h1
      obtain ⟨b1, b2, b3⟩ := removeFrom_inv is g1 g' a1 h
      refine ⟨b1, b2.trans a2, ?_⟩
      intro k hk
      apply b3
      by_cases hki : k = i
      · subst hki; exact .inl a4
      · rcases hk with hk | hk
        · left; rw [a3 k hki]; exact hk
        · right
          rcases List.mem_cons.1 hk with hk | hk
          · exact absurd hk hki
          · exact hk

theorem store_closed {g : G} {i x} (hc : Closed g.all g.st) (hx : x.outs = []) :
    Closed (store g i x).all (store g i x).st := by
  intro k hk e he
  simp only [store] at hk he ⊢
  by_cases hki : k = i
  · subst hki
    simp [set, hx] at he
  · simp only [set, hki, if_false] at he
    have hk' : k ∈ g.all := by
      split at hk
      · exact hk
      · rcases List.mem_cons.1 hk with h | h
        · exact absurd h hki
        · exact h
    have := hc k hk' e he
    split
    · exact this
    · exact List.mem_cons_of_mem _ this

theorem store_distinct {g : G} {i x} (hd : Distinct g.st) (hx : x.outs = []) :
    Distinct (store g i x).st := by
  intro k
  simp only [store]
  by_cases hki : k = i
  · subst hki; simp [set, hx]
  · simpa [set, hki] using hd k

/-- the calls that leave the derived bits as they should be -/
def Tidy : Op → Prop
  | .onFd _ | .resolve _ => False
  | _ => True

theorem material_change {s s' : Nat → Stream} {all : List Nat} (hc : Closed all s)
    (h : ∀ k ∈ all, s' k = s k) {i} (hi : i ∈ all) (hm : Material s i) : Material s' i := by
  induction hm with
  | here h1 h2 => exact .here (by rw [h _ hi]; exact h1) (by rw [h _ hi]; exact h2)
  | down h1 h2 _ ih =>
    exact .down (by rw [h _ hi]; exact h1) (by rw [h _ hi]; exact h2) (ih (hc _ hi _ h2))

theorem step_inv {q depth g g'} {o : Op} (ht : q → Tidy o) (hi : InvB q g)
    (h : step depth g o = some g') : InvB q g' := by
  cases o with
  | boot i =>
    simp only [step] at h
    split at h
    · cases h; exact hi
    · rename_i hn
      cases h
      refine ⟨store_closed hi.closed rfl, store_distinct hi.distinct rfl, ?_⟩
      intro hq k hk
      simp only [store, hn, if_false] at hk ⊢
      by_cases hki : k = i
      · subst hki
        constructor
        · intro _
          exact .here (by simp [set]) (by simp [set])
        · intro _; simp [set]
      · have hk' : k ∈ g.all := by
          rcases List.mem_cons.1 hk with h | h
          · exact absurd h hki
          · exact h
        have hsame : ∀ m ∈ g.all, set g.st i
            { fl := { on := true, ts := true, split := true }, ops := true, outs := [],
              below := true, done := false } m = g.st m := by
          intro m hm
          have : m ≠ i := fun h => hn (h ▸ hm)
          simp [set, this]
        rw [hsame k hk', hi.good' hq k hk']
        constructor
        · exact material_change hi.closed hsame hk'
        · refine material_change (all := g.all) ?_ (fun m hm => (hsame m hm).symm) hk'
          intro a ha e he
          rw [hsame a ha] at he
          exact hi.closed a ha e he
  | onFd i =>
    simp only [step] at h
    split at h
    · cases h; exact hi
    · cases h
      exact ⟨store_closed hi.closed rfl, store_distinct hi.distinct rfl,
        fun hq => absurd (ht hq) (by simp [Tidy])⟩
  | new i ops split =>
    simp only [step] at h
    exact (remat_inv (store_closed hi.closed rfl) (store_distinct hi.distinct rfl) h).1
  | find i parent =>
    simp only [step] at h
    split at h
    · cases h; exact hi
    · split at h
      · cases h
      · rename_i g1 h1
        have i1 := (remat_inv (q := q) (store_closed hi.closed rfl) (store_distinct hi.distinct rfl) h1).1
        split at h
        · exact (remat_inv i1.closed i1.distinct h).1
        · split at h
          · cases h
          · rename_i g2 h2
            have i2 := addOutlet_inv i1 h2
            exact (remat_inv i2.closed i2.distinct h).1
  | add i j => exact addOutlet_inv hi h
  | addFiltered i j f => exact addOutlet_inv hi h
  | removeAll i =>
    simp only [step] at h
    split at h
    · cases h; exact hi
    · exact (remat_inv (setOuts_closed hi.closed (by simp))
        (setOuts_distinct hi.distinct (by simp)) h).1
  | removeOutlet i j => exact (removeOutlet_inv hi h).1
  | remove i =>
    simp only [step] at h
    split at h
    · cases h
    · rename_i g1 h1
      cases h
      obtain ⟨a1, a2, a3⟩ := removeFrom_inv _ _ _ hi h1
      refine ⟨?_, a1.distinct, ?_⟩
      · intro k hk e he
        simp only [List.mem_filter, decide_eq_true_eq] at hk ⊢
        refine ⟨a1.closed k hk.1 e he, ?_⟩
        intro hd
        refine a3 k (.inr (by rw [← a2]; exact hk.1)) ?_
        exact List.mem_map.2 ⟨e, he, hd⟩
      · intro hq k hk
        simp only [List.mem_filter] at hk
        exact a1.good' hq k hk.1
  | setFlags i fl =>
    simp only [step] at h
    split at h
    · cases h; exact hi
    · have hs : ∀ k, (set g.st i { g.st i with fl := fl } k).outs = (g.st k).outs := by
        intro k
        by_cases hk : k = i
        · subst hk; simp [set]
        · simp [set, hk]
      refine (remat_inv ?_ ?_ h).1
      · intro k hk e he
        simp only at he
        rw [hs k] at he
        exact hi.closed k hk e he
      · intro k
        simp only
        rw [hs k]
        exact hi.distinct k
  | resolve i =>
    simp only [step, Option.some.injEq] at h
    subst h
    have hs : ∀ k, (set g.st i { g.st i with ops := true } k).outs = (g.st k).outs := by
      intro k
      by_cases hk : k = i
      · subst hk; simp [set]
      · simp [set, hk]
    refine ⟨?_, ?_, fun hq => absurd (ht hq) (by simp [Tidy])⟩
    · intro k hk e he
      simp only at he
      rw [hs k] at he
      exact hi.closed k hk e he
    · intro k
      simp only
      rw [hs k]
      exact hi.distinct k

theorem inv_empty (q) : InvB q empty :=
  ⟨by intro i hi; simp [empty] at hi, by intro i; simp [empty, fresh], by
    intro _ i hi; simp [empty] at hi⟩

theorem run_inv {q depth} : ∀ {os g g'}, (q → ∀ o ∈ os, Tidy o) → InvB q g →
    run depth os g = some g' → InvB q g'
  | [], g, g', _, hi, h => by
    simp only [run, Option.some.injEq] at h; subst h; exact hi
  | o :: os, g, g', ht, hi, h => by
    simp only [run] at h
    split at h
    · cases h
    · rename_i g1 h1
      exact run_inv (fun hq o ho => ht hq o (List.mem_cons_of_mem _ ho))
        (step_inv (fun hq => ht hq o List.mem_cons_self) hi h1) h

/-! ## helper lemmas: routing -/

/-- the outlet's filter, if it has one, is true of the line -/
def Lets (l : Line) (e : Edge) : Prop := ∀ f, e.filter = some f → f.run (fbLookup l) = true

/-- a way a line can take: through enabled streams and outlets that let it
through, to a stream that writes it -/
inductive Path (g : G) (l : Line) : Nat → List Nat → Prop
  | here {i} : (g.st i).fl.on = true → (g.st i).ops = true → Path g l i [i]
  | step {i e p} : (g.st i).fl.on = true → e ∈ (g.st i).outs → Lets l e →
      Path g l e.dst p → Path g l i (i :: p)

theorem Path.head {g l i p} (h : Path g l i p) : ∃ q, p = i :: q := by
  cases h <;> exact ⟨_, rfl⟩

theorem Path.material {g l i p} (h : Path g l i p) : Material g.st i := by
  induction h with
  | here h1 h2 => exact .here h1 h2
  | step h1 h2 _ _ ih => exact .down h1 h2 ih

/-- no active span, and no attribute of the caller has one of the built in names -/
def Plain (l : Line) : Prop := l.span = [] ∧ ∀ kv ∈ l.kvs, isBuiltin kv.1 = false

theorem lookup_none {kvs : List (Key × Val)} {k} (h : ∀ kv ∈ kvs, isBuiltin kv.1 = false)
    (hk : isBuiltin k = true) : kvs.lookup k = none := by
  induction kvs with
  | nil => rfl
  | cons a t ih =>
    have h1 : (k == a.1) = false := by
      rw [beq_eq_false_iff_ne]
      intro h2
      have := h a List.mem_cons_self
      rw [← h2, hk] at this
      cases this
    obtain ⟨x, y⟩ := a
    simp only [List.lookup, h1]
    exact ih (fun kv hkv => h kv (List.mem_cons_of_mem _ hkv))

theorem lookup_agree {l : Line} (hp : Plain l) (m : Val) (k : Key) (hk : k ≠ .message ∨ m = l.msg) :
    kvLookup l m k = fbLookup l k := by
  unfold kvLookup fbLookup
  by_cases hm : k = .message
  · subst hm
    have hm : m = l.msg := by simpa using hk
    rw [lookup_none hp.2 (by rfl)]
    simp [hm]
  · by_cases hb : isBuiltin k = true
    · rw [lookup_none hp.2 hb]
      simp [hm, hb]
    · simp only [hm, hb, if_false, hp.1, List.nil_append]
      cases l.kvs.lookup k <;> simp

theorem run_agree {l : Line} (hp : Plain l) (f : Filter) (hasMsg : Bool)
    (hc : (!hasMsg && f.needsMsg) = false) :
    f.run (kvLookup l (if hasMsg then l.msg else [])) = f.run (fbLookup l) := by
  cases hasMsg with
  | true =>
    congr 1
    funext k
    exact lookup_agree hp _ k (.inr rfl)
  | false =>
    apply f.sound (by simpa using hc)
    intro k hk
    exact lookup_agree hp _ k (.inl hk)

/-- the remembered results are right -/
def TrackOk (g : G) (l : Line) (t : Tracker) : Prop :=
  ∀ i d b, t.lookup (i, d) = some b →
    ∃ e ∈ (g.st i).outs, e.dst = d ∧ ∃ f, e.filter = some f ∧ f.run (fbLookup l) = b

theorem dst_inj {es : List Edge} (h : (es.map (·.dst)).Nodup) {a b : Edge}
    (ha : a ∈ es) (hb : b ∈ es) (hab : a.dst = b.dst) : a = b := by
  induction es with
  | nil => simp at ha
  | cons e es ih =>
    simp only [List.map_cons, List.nodup_cons, List.mem_map, not_exists, not_and] at h
    rcases List.mem_cons.1 ha with ha | ha <;> rcases List.mem_cons.1 hb with hb | hb
    · rw [ha, hb]
    · exact absurd (by rw [← ha]; exact hab.symm) (h.1 b hb)
    · exact absurd (by rw [← hb]; exact hab) (h.1 a ha)
    · exact ih h.2 ha hb

theorem TrackOk.get {g l t} (h : TrackOk g l t) (hd : Distinct g.st) {i e f b}
    (he : e ∈ (g.st i).outs) (hf : e.filter = some f) (ht : t.lookup (i, e.dst) = some b) :
    f.run (fbLookup l) = b := by
  obtain ⟨e', he', hde, f', hf', hb⟩ := h i e.dst b ht
  have := dst_inj (hd i) he' he hde
  subst this
  rw [hf] at hf'
  cases hf'
  exact hb

theorem TrackOk.track {g l t} (h : TrackOk g l t) {i e f b}
    (he : e ∈ (g.st i).outs) (hf : e.filter = some f) (hb : f.run (fbLookup l) = b) :
    TrackOk g l (track t (i, e.dst) b) := by
  unfold LogGraph.track
  split
  · exact h
  · intro i' d b' hl
    rw [List.lookup_append] at hl
    cases hx : t.lookup (i', d) with
    | some v =>
      rw [hx] at hl
      simp only [Option.some_or, Option.some.injEq] at hl
      subst hl
      exact h i' d _ hx
    | none =>
      rw [hx] at hl
      simp only [Option.none_or, List.lookup] at hl
      split at hl
      · rename_i heq
        simp only [Option.some.injEq] at hl
        subst hl
        have : (i', d) = (i, e.dst) := by simpa using heq
        cases this
        exact ⟨e, he, rfl, f, hf, hb⟩
      · cases hl

theorem needE_spec {g l hasMsg i} (hp : Plain l) (hd : Distinct g.st)
    {rec : Nat → Tracker → Option (Need × Tracker)}
    (hr : ∀ j t n t', TrackOk g l t → rec j t = some (n, t') →
      TrackOk g l t' ∧ (n = .no → ∀ p, ¬ Path g l j p) ∧ (hasMsg = true → n ≠ .msg)) :
    ∀ es t n t', (∀ e ∈ es, e ∈ (g.st i).outs) → TrackOk g l t →
      needE rec l hasMsg i es t = some (n, t') →
      TrackOk g l t' ∧ (n = .no → ∀ e ∈ es, Lets l e → ∀ p, ¬ Path g l e.dst p) ∧
        (hasMsg = true → n ≠ .msg)
  | [], t, n, t', _, ht, h => by
    simp only [needE, Option.some.injEq, Prod.mk.injEq] at h
    obtain ⟨rfl, rfl⟩ := h
    exact ⟨ht, by simp, by simp⟩
  | e :: es, t, n, t', hes, ht, h => by
    have hrec := fun t1 (ht1 : TrackOk g l t1) h1 => needE_spec hp hd hr es t1 n t'
      (fun e he => hes e (List.mem_cons_of_mem _ he)) ht1 h1
    have hein := hes e List.mem_cons_self
    have addE : ∀ {P : Prop}, (¬ Lets l e ∨ ∀ p, ¬ Path g l e.dst p) →
        (TrackOk g l t' ∧ (n = .no → ∀ e ∈ es, Lets l e → ∀ p, ¬ Path g l e.dst p) ∧ P) →
        (TrackOk g l t' ∧ (n = .no → ∀ x ∈ e :: es, Lets l x → ∀ p, ¬ Path g l x.dst p) ∧ P) := by
      rintro P ha ⟨h1, h2, h3⟩
      refine ⟨h1, ?_, h3⟩
      intro hn x hx hl
      rcases List.mem_cons.1 hx with rfl | hx
      · rcases ha with ha | ha
        · exact absurd hl ha
        · exact ha
      · exact h2 hn x hx hl
    simp only [needE] at h
    split at h
    · cases h
    · rename_i t1 h1
      obtain ⟨a1, a2, _⟩ := hr _ _ _ _ ht h1
      exact addE (.inr (a2 rfl)) (hrec t1 a1 h)
    · rename_i n1 t1 hne h1
      obtain ⟨a1, _, _⟩ := hr _ _ _ _ ht h1
      split at h
      · simp only [Option.some.injEq, Prod.mk.injEq] at h
        obtain ⟨rfl, rfl⟩ := h
        exact ⟨a1, by simp, by simp⟩
      · rename_i f hf
        split at h
        · simp only [Option.some.injEq, Prod.mk.injEq] at h
          obtain ⟨rfl, rfl⟩ := h
          exact ⟨a1, by simp, by simp⟩
        · rename_i hlk
          refine addE (.inl ?_) (hrec t1 a1 h)
          intro hl
          have := a1.get hd hein hf hlk
          rw [hl f hf] at this
          cases this
        · split at h
          · rename_i hcond
            simp only [Option.some.injEq, Prod.mk.injEq] at h
            obtain ⟨rfl, rfl⟩ := h
            refine ⟨a1, by simp, ?_⟩
            intro hm
            simp [hm] at hcond
          · rename_i hcond
            have hag := run_agree hp f hasMsg (by simpa using hcond)
            by_cases hrun : f.run (kvLookup l (if hasMsg then l.msg else [])) = true
            · rw [if_pos hrun] at h
              simp only [Option.some.injEq, Prod.mk.injEq] at h
              obtain ⟨rfl, rfl⟩ := h
              exact ⟨a1.track hein hf (by rw [← hag]; exact hrun), by simp, by simp⟩
            · rw [if_neg hrun] at h
              have hf' : f.run (fbLookup l) = false := by rw [← hag]; simpa using hrun
              refine addE (.inl ?_) (hrec _ (a1.track hein hf hf') h)
              intro hl
              rw [hl f hf] at hf'
              cases hf'

theorem need_spec {g l hasMsg} (hp : Plain l) (hd : Distinct g.st) :
    ∀ f i t n t', TrackOk g l t → need g l hasMsg f i t = some (n, t') →
      TrackOk g l t' ∧ (n = .no → ∀ p, ¬ Path g l i p) ∧ (hasMsg = true → n ≠ .msg)
  | 0, i, t, n, t', _, h => by simp [need] at h
  | f + 1, i, t, n, t', ht, h => by
    simp only [need] at h
    split at h
    · simp only [Option.some.injEq, Prod.mk.injEq] at h
      obtain ⟨rfl, rfl⟩ := h
      exact ⟨ht, by simp, by simp⟩
    · rename_i hc
      split at h
      · rename_i hoff
        simp only [Option.some.injEq, Prod.mk.injEq] at h
        obtain ⟨rfl, rfl⟩ := h
        refine ⟨ht, ?_, by simp⟩
        intro _ p hpth
        have hoff : (g.st i).fl.on = false := by simpa using hoff
        cases hpth <;> simp_all
      · rename_i hon
        obtain ⟨a1, a2, a3⟩ := needE_spec hp hd (need_spec hp hd f) _ _ _ _ (fun _ h => h) ht h
        refine ⟨a1, ?_, a3⟩
        intro hn p hpth
        cases hpth with
        | here h1 h2 => simp [h1, h2] at hc
        | step h1 h2 h3 h4 => exact a2 hn _ h2 h3 _ h4

theorem passes_spec {g l i e t} (hd : Distinct g.st) (he : e ∈ (g.st i).outs) (ht : TrackOk g l t) :
    TrackOk g l (passes l i e t).2 ∧ ((passes l i e t).1 = true ↔ Lets l e) := by
  unfold passes
  cases hf : e.filter with
  | none => exact ⟨ht, by simp [Lets, hf]⟩
  | some f =>
    simp only
    cases hlk : t.lookup (i, e.dst) with
    | some b =>
      refine ⟨ht, ?_⟩
      have := ht.get hd he hf hlk
      simp [Lets, hf, this]
    | none =>
      refine ⟨ht.track he hf rfl, ?_⟩
      simp [Lets, hf]

/-- the write made at the end of a way -/
def writeOf (g : G) (name : Nat) : Flags → List Nat → Write
  | _, [] => ⟨0, 0, false, false, false⟩
  | inh, [j] => ⟨j, name, (g.st j).fl.ts || inh.ts, (g.st j).fl.fac || inh.fac,
      (g.st j).fl.dbg || inh.dbg⟩
  | _, i :: p => writeOf g name (g.st i).fl p

theorem writeOf_cons {g name inh i q} (h : q ≠ []) :
    writeOf g name inh (i :: q) = writeOf g name (g.st i).fl q := by
  cases q with
  | nil => exact absurd rfl h
  | cons a b => rfl

theorem walkE_spec {g l name i} (hi : Inv g)
    (hin : i ∈ g.all) {rec : Nat → Tracker → Option (List Write × Tracker)}
    (hr : ∀ j t w t', j ∈ g.all → (g.st j).fl.on = true → TrackOk g l t → rec j t = some (w, t') →
      TrackOk g l t' ∧ ∃ P : List (List Nat), P.Nodup ∧ (∀ p, p ∈ P ↔ Path g l j p) ∧
        w = P.map (writeOf g name (g.st i).fl)) :
    ∀ es t w t', (∀ e ∈ es, e ∈ (g.st i).outs) → (es.map (·.dst)).Nodup → TrackOk g l t →
      walkE rec g l i es t = some (w, t') →
      TrackOk g l t' ∧ ∃ P : List (List Nat), P.Nodup ∧
        (∀ p, p ∈ P ↔ ∃ e ∈ es, Lets l e ∧ Path g l e.dst p) ∧
        w = P.map (writeOf g name (g.st i).fl)
  | [], t, w, t', _, _, ht, h => by
    simp only [walkE, Option.some.injEq, Prod.mk.injEq] at h
    obtain ⟨rfl, rfl⟩ := h
    exact ⟨ht, [], by simp, by simp, by simp⟩
  | e :: es, t, w, t', hes, hn, ht, h => by
    simp only [List.map_cons, List.nodup_cons] at hn
    have hein := hes e List.mem_cons_self
    have hes' : ∀ x ∈ es, x ∈ (g.st i).outs := fun x hx => hes x (List.mem_cons_of_mem _ hx)
    have skip : (∀ p, ¬ (Lets l e ∧ Path g l e.dst p)) → ∀ w,
        (TrackOk g l t' ∧ ∃ P : List (List Nat), P.Nodup ∧
          (∀ p, p ∈ P ↔ ∃ e ∈ es, Lets l e ∧ Path g l e.dst p) ∧
          w = P.map (writeOf g name (g.st i).fl)) →
        (TrackOk g l t' ∧ ∃ P : List (List Nat), P.Nodup ∧
          (∀ p, p ∈ P ↔ ∃ x ∈ e :: es, Lets l x ∧ Path g l x.dst p) ∧
          w = P.map (writeOf g name (g.st i).fl)) := by
      rintro hno w ⟨a, P, b, c, d⟩
      refine ⟨a, P, b, ?_, d⟩
      intro p
      rw [c p]
      constructor
      · rintro ⟨x, hx, hh⟩; exact ⟨x, List.mem_cons_of_mem _ hx, hh⟩
      · rintro ⟨x, hx, hh⟩
        rcases List.mem_cons.1 hx with rfl | hx
        · exact absurd hh (hno p)
        · exact ⟨x, hx, hh⟩
    simp only [walkE] at h
    have hps := passes_spec hi.distinct hein ht
    split at h
    · rename_i hon
      simp only [Bool.and_eq_true] at hon
      split at h
      · rename_i hpass
        split at h
        · cases h
        · rename_i w1 t1 h1
          obtain ⟨a1, P1, n1, m1, e1⟩ := hr _ _ _ _ (hi.closed i hin e hein) hon.1 hps.1 h1
          split at h
          · cases h
          · rename_i w2 t2 h2
            simp only [Option.some.injEq, Prod.mk.injEq] at h
            obtain ⟨rfl, rfl⟩ := h
            obtain ⟨a2, P2, n2, m2, e2⟩ := walkE_spec hi hin hr es t1 w2 t2 hes' hn.2 a1 h2
            refine ⟨a2, P1 ++ P2, ?_, ?_, ?_⟩
            · rw [List.nodup_append]
              refine ⟨n1, n2, ?_⟩
              intro p hp1 q hq2 hpq
              subst hpq
              obtain ⟨q1, rfl⟩ := ((m1 p).1 hp1).head
              obtain ⟨x, hx, _, hpx⟩ := (m2 _).1 hq2
              obtain ⟨q2, hq⟩ := hpx.head
              simp only [List.cons.injEq] at hq
              exact hn.1 (List.mem_map.2 ⟨x, hx, hq.1.symm⟩)
            · intro p
              rw [List.mem_append, m1, m2]
              constructor
              · rintro (hh | ⟨x, hx, hh⟩)
                · exact ⟨e, List.mem_cons_self, hps.2.1 hpass, hh⟩
                · exact ⟨x, List.mem_cons_of_mem _ hx, hh⟩
              · rintro ⟨x, hx, hh⟩
                rcases List.mem_cons.1 hx with rfl | hx
                · exact .inl hh.2
                · exact .inr ⟨x, hx, hh⟩
            · rw [List.map_append, ← e1, ← e2]
      · rename_i hpass
        refine skip ?_ w (walkE_spec hi hin hr es _ w t' hes' hn.2 hps.1 h)
        rintro p ⟨hl, _⟩
        exact hpass (hps.2.2 hl)
    · rename_i hon
      refine skip ?_ w (walkE_spec hi hin hr es _ w t' hes' hn.2 ht h)
      rintro p ⟨_, hpth⟩
      apply hon
      have hm := hpth.material
      have hon' : (g.st e.dst).fl.on = true := by cases hm <;> assumption
      simp [hon', (hi.good e.dst (hi.closed i hin e hein)).2 hm]

theorem walk_spec {g l name} (hi : Inv g) :
    ∀ f inh i t w t', i ∈ g.all → (g.st i).fl.on = true → TrackOk g l t →
      walk g l name f inh i t = some (w, t') →
      TrackOk g l t' ∧ ∃ P : List (List Nat), P.Nodup ∧ (∀ p, p ∈ P ↔ Path g l i p) ∧
        w = P.map (writeOf g name inh)
  | 0, inh, i, t, w, t', _, _, _, h => by simp [walk] at h
  | f + 1, inh, i, t, w, t', hin, hon, ht, h => by
    simp only [walk] at h
    split at h
    · cases h
    · rename_i w1 t1 h1
      simp only [Option.some.injEq, Prod.mk.injEq] at h
      obtain ⟨rfl, rfl⟩ := h
      obtain ⟨a1, P1, n1, m1, e1⟩ := walkE_spec (name := name) hi hin
        (fun j t w t' hj hjo ht h => walk_spec hi f (g.st i).fl j t w t' hj hjo ht h)
        _ _ _ _ (fun _ h => h) (hi.distinct i) ht h1
      refine ⟨a1, (if (g.st i).ops then [[i]] else []) ++ P1.map (i :: ·), ?_, ?_, ?_⟩
      · rw [List.nodup_append]
        refine ⟨by split <;> simp, ?_, ?_⟩
        · exact List.pairwise_map.2 (n1.imp (fun h hh => h (by simpa using hh)))
        · intro p hp q hq hpq
          subst hpq
          split at hp
          · simp only [List.mem_singleton] at hp
            subst hp
            obtain ⟨q, hq, hqq⟩ := List.mem_map.1 hq
            obtain ⟨x, _, _, hx⟩ := (m1 q).1 hq
            obtain ⟨r, rfl⟩ := hx.head
            simp at hqq
          · simp at hp
      · intro p
        rw [List.mem_append]
        constructor
        · rintro (hp | hp)
          · split at hp
            · rename_i ho
              simp only [List.mem_singleton] at hp
              subst hp
              exact .here hon ho
            · simp at hp
          · obtain ⟨q, hq, rfl⟩ := List.mem_map.1 hp
            obtain ⟨e, he, hl, hx⟩ := (m1 q).1 hq
            exact .step hon he hl hx
        · intro hp
          cases hp with
          | here h1 h2 => left; simp [h2]
          | step h1 h2 h3 h4 =>
            right
            exact List.mem_map.2 ⟨_, (m1 _).2 ⟨_, h2, h3, h4⟩, rfl⟩
      · rw [List.map_append, e1]
        congr 1
        · unfold own
          split <;> simp [writeOf]
        · rw [List.map_map]
          apply List.map_congr_left
          intro q hq
          obtain ⟨x, _, _, hx⟩ := (m1 q).1 hq
          obtain ⟨r, rfl⟩ := hx.head
          simp [writeOf_cons]

theorem trackOk_nil (g l) : TrackOk g l [] := by
  intro i d b h
  simp [List.lookup] at h

theorem log_spec {depth g l i w} (hi : Inv g) (hp : Plain l) (hin : i ∈ g.all)
    (h : log depth g l i = some w) :
    ∃ P : List (List Nat), P.Nodup ∧ (∀ p, p ∈ P ↔ Path g l i p) ∧ w = P.map (writeOf g i {}) := by
  unfold log at h
  have none' : (∀ p, ¬ Path g l i p) → w = [] →
      ∃ P : List (List Nat), P.Nodup ∧ (∀ p, p ∈ P ↔ Path g l i p) ∧ w = P.map (writeOf g i {}) := by
    intro h1 h2
    exact ⟨[], by simp, fun p => by simpa using h1 p, by simpa using h2⟩
  have walk' : ∀ t, (g.st i).fl.on = true → TrackOk g l t →
      (walk g l i depth {} i t).map (·.1) = some w →
      ∃ P : List (List Nat), P.Nodup ∧ (∀ p, p ∈ P ↔ Path g l i p) ∧ w = P.map (writeOf g i {}) := by
    intro t ho ht hw
    cases hww : walk g l i depth {} i t with
    | none => rw [hww] at hw; cases hw
    | some r =>
      rw [hww] at hw
      obtain ⟨w', t'⟩ := r
      simp only [Option.map_some, Option.some.injEq] at hw
      subst hw
      exact (walk_spec hi depth {} i t _ t' hin ho ht hww).2
  split at h
  · rename_i hc
    simp only [Bool.and_eq_true] at hc
    split at h
    · cases h
    · rename_i t1 h1
      obtain ⟨_, a2, _⟩ := need_spec hp hi.distinct _ _ _ _ _ (trackOk_nil g l) h1
      exact none' (a2 rfl) (by simpa using h.symm)
    · rename_i t1 h1
      obtain ⟨a1, _, _⟩ := need_spec hp hi.distinct _ _ _ _ _ (trackOk_nil g l) h1
      exact walk' t1 hc.1 a1 h
    · rename_i t1 h1
      obtain ⟨a1, _, _⟩ := need_spec hp hi.distinct _ _ _ _ _ (trackOk_nil g l) h1
      split at h
      · cases h
      · rename_i t2 h2
        obtain ⟨b1, _, _⟩ := need_spec hp hi.distinct _ _ _ _ _ a1 h2
        exact walk' t2 hc.1 b1 h
      · rename_i n2 t2 hne h2
        obtain ⟨_, b2, b3⟩ := need_spec hp hi.distinct _ _ _ _ _ a1 h2
        refine none' (b2 ?_) (by simpa using h.symm)
        cases n2 with
        | no => rfl
        | yes => exact absurd rfl hne
        | msg => exact absurd rfl (b3 rfl)
  · rename_i hc
    refine none' ?_ (by simpa using h.symm)
    intro p hpth
    apply hc
    have hm := hpth.material
    have hon' : (g.st i).fl.on = true := by cases hm <;> assumption
    simp [hon', (hi.good i hin).2 hm]

/-! ## helper lemmas: the calls return -/

/-- a numbering that falls along every outlet, below `depth`: no chain of
outlets is as long as `depth` -/
def Ranks (depth : Nat) (s : Nat → Stream) (rank : Nat → Nat) : Prop :=
  (∀ i, rank i < depth) ∧ ∀ i, ∀ e ∈ (s i).outs, rank e.dst < rank i

theorem Ranks.same {depth s s' r} (h : Ranks depth s r) (hs : Same s s') : Ranks depth s' r :=
  ⟨h.1, fun i e he => h.2 i e (by rw [(hs i).2.2] at he; exact he)⟩

theorem hasMaterial_total {depth s r} (h : Ranks depth s r) : ∀ f i, r i < f →
    ∃ b, hasMaterial s f i = some b
  | 0, i, hf => by omega
  | f + 1, i, hf => by
    simp only [hasMaterial]
    split
    · exact ⟨_, rfl⟩
    · split
      · exact ⟨_, rfl⟩
      · have : ∀ es : List Edge, (∀ e ∈ es, e ∈ (s i).outs) →
            ∃ b, firstTrue (fun e => hasMaterial s f e.dst) es = some b := by
          intro es
          induction es with
          | nil => intro _; exact ⟨_, rfl⟩
          | cons e es ih =>
            intro he
            obtain ⟨b, hb⟩ := hasMaterial_total h f e.dst (by
              have := h.2 i e (he e List.mem_cons_self); omega)
            simp only [firstTrue, hb]
            cases b
            · exact ih (fun x hx => he x (List.mem_cons_of_mem _ hx))
            · exact ⟨_, rfl⟩
        exact this _ (fun _ h => h)

theorem matAll_total {depth r} {m : Nat → (Nat → Stream) → Option (Nat → Stream)} {f : Nat}
    (hm : ∀ i s, Ranks depth s r → r i < f → ∃ s', m i s = some s' ∧ Same s s') :
    ∀ is s, Ranks depth s r → (∀ i ∈ is, r i < f) → ∃ s', matAll m is s = some s' ∧ Same s s'
  | [], s, _, _ => ⟨s, rfl, Same.refl _⟩
  | i :: is, s, hr, hi => by
    obtain ⟨s1, h1, h2⟩ := hm i s hr (hi i List.mem_cons_self)
    obtain ⟨s2, h3, h4⟩ := matAll_total hm is s1 (hr.same h2)
      (fun j hj => hi j (List.mem_cons_of_mem _ hj))
    exact ⟨s2, by simp [matAll, h1, h3], h2.trans h4⟩

theorem mat_total {depth r} : ∀ f i s, Ranks depth s r → r i < f →
    ∃ s', mat f i s = some s' ∧ Same s s'
  | 0, i, s, _, hf => by omega
  | f + 1, i, s, hr, hf => by
    simp only [mat]
    split
    · exact ⟨s, rfl, Same.refl _⟩
    · obtain ⟨s1, h1, h2⟩ := matAll_total (mat_total f) ((s i).outs.map (·.dst)) s hr (by
        intro j hj
        obtain ⟨e, he, rfl⟩ := List.mem_map.1 hj
        have := hr.2 i e he; omega)
      obtain ⟨b, hb⟩ := hasMaterial_total (hr.same h2) (f + 1) i hf
      refine ⟨set s1 i { s1 i with below := b, done := true }, by simp [h1, hb], ?_⟩
      refine h2.trans ?_
      intro j
      by_cases hj : j = i
      · subst hj; simp [set]
      · simp [set, hj]

theorem remat_total {depth r} {g : G} (h : Ranks depth g.st r) :
    ∃ g', remat depth g = some g' ∧ g'.all = g.all ∧ Same g.st g'.st := by
  obtain ⟨s, h1, h2⟩ := matAll_total (mat_total depth) g.all (demat g)
    (h.same (demat_same g)) (fun i _ => h.1 i)
  exact ⟨{ g with st := s }, by simp [remat, h1], rfl, (demat_same g).trans h2⟩

theorem need_total {depth r} {g : G} {l hasMsg} (h : Ranks depth g.st r) : ∀ f i t, r i < f →
    ∃ n, need g l hasMsg f i t = some n
  | 0, i, t, hf => by omega
  | f + 1, i, t, hf => by
    simp only [need]
    split
    · exact ⟨_, rfl⟩
    · split
      · exact ⟨_, rfl⟩
      · have : ∀ es : List Edge, (∀ e ∈ es, e ∈ (g.st i).outs) → ∀ t,
            ∃ n, needE (need g l hasMsg f) l hasMsg i es t = some n := by
          intro es
          induction es with
          | nil => intro _ t; exact ⟨_, rfl⟩
          | cons e es ih =>
            intro he t
            have ih := ih (fun x hx => he x (List.mem_cons_of_mem _ hx))
            obtain ⟨⟨n, t1⟩, hb⟩ := need_total (l := l) (hasMsg := hasMsg) h f e.dst t (by
              have := h.2 i e (he e List.mem_cons_self); omega)
            simp only [needE, hb]
            split
            · rename_i hx; cases hx
            · exact ih _
            · split
              · exact ⟨_, rfl⟩
              · split
                · exact ⟨_, rfl⟩
                · exact ih _
                · split
                  · exact ⟨_, rfl⟩
                  · by_cases hx : (‹Filter›).run (kvLookup l (if hasMsg then l.msg else [])) = true
                    · rw [if_pos hx]; exact ⟨_, rfl⟩
                    · rw [if_neg hx]; exact ih _
        exact this _ (fun _ h => h) _

theorem walk_total {depth r} {g : G} {l name} (h : Ranks depth g.st r) : ∀ f inh i t, r i < f →
    ∃ n, walk g l name f inh i t = some n
  | 0, inh, i, t, hf => by omega
  | f + 1, inh, i, t, hf => by
    simp only [walk]
    have : ∀ es : List Edge, (∀ e ∈ es, e ∈ (g.st i).outs) → ∀ t,
        ∃ n, walkE (walk g l name f (g.st i).fl) g l i es t = some n := by
      intro es
      induction es with
      | nil => intro _ t; exact ⟨_, rfl⟩
      | cons e es ih =>
        intro he t
        have ih := ih (fun x hx => he x (List.mem_cons_of_mem _ hx))
        simp only [walkE]
        split
        · split
          · obtain ⟨⟨w, t1⟩, hb⟩ := walk_total (l := l) (name := name) h f (g.st i).fl e.dst
              (passes l i e t).2 (by
                have := h.2 i e (he e List.mem_cons_self); omega)
            rw [hb]
            obtain ⟨⟨w2, t2⟩, h2⟩ := ih t1
            simp only [h2]
            exact ⟨_, rfl⟩
          · exact ih _
        · exact ih _
    obtain ⟨⟨w, t1⟩, hw⟩ := this (g.st i).outs (fun _ h => h) t
    rw [hw]
    exact ⟨_, rfl⟩

theorem log_total {depth r} {g : G} {l i} (h : Ranks depth g.st r) :
    ∃ w, log depth g l i = some w := by
  unfold log
  split
  · obtain ⟨⟨n, t⟩, hn⟩ := need_total (l := l) (hasMsg := false) h depth i [] (h.1 i)
    rw [hn]
    have hw : ∀ t, ∃ w, (walk g l i depth {} i t).map (·.1) = some w := by
      intro t
      obtain ⟨⟨w, t'⟩, hw⟩ := walk_total (l := l) (name := i) h depth {} i t (h.1 i)
      exact ⟨w, by rw [hw]; rfl⟩
    cases n with
    | no => exact ⟨_, rfl⟩
    | yes => exact hw t
    | msg =>
      obtain ⟨⟨n2, t2⟩, hn2⟩ := need_total (l := l) (hasMsg := true) h depth i t (h.1 i)
      simp only [hn2]
      cases n2 with
      | no => exact ⟨_, rfl⟩
      | yes => exact hw t2
      | msg => exact ⟨_, rfl⟩
  · exact ⟨_, rfl⟩

theorem Ranks.sub {depth s s' r} (h : Ranks depth s r) (hs : ∀ i, ∀ e ∈ (s' i).outs, e ∈ (s i).outs) :
    Ranks depth s' r := ⟨h.1, fun i e he => h.2 i e (hs i e he)⟩

theorem setOuts_ranks {depth r} {g : G} {i es} (h : Ranks depth g.st r)
    (he : ∀ e ∈ es, r e.dst < r i) : Ranks depth (setOuts g i es).st r := by
  refine ⟨h.1, ?_⟩
  intro k e hk
  by_cases hki : k = i
  · subst hki
    simp only [setOuts, set, if_true] at hk
    exact he e hk
  · simp only [setOuts, set, hki, if_false] at hk
    exact h.2 k e hk

theorem addOutlet_total {depth r} {g : G} {i j f} (h : Ranks depth g.st r) (hij : r j < r i) :
    ∃ g', addOutlet depth g i j f = some g' ∧ Ranks depth g'.st r := by
  unfold addOutlet
  split
  · split
    · exact ⟨g, rfl, h⟩
    · have hr := setOuts_ranks (i := i) (es := ⟨j, f⟩ :: (g.st i).outs) h (by
        intro e he
        rcases List.mem_cons.1 he with rfl | he
        · exact hij
        · exact h.2 i e he)
      obtain ⟨g', h1, _, h3⟩ := remat_total hr
      exact ⟨g', h1, hr.same h3⟩
  · exact ⟨g, rfl, h⟩

theorem removeOutlet_total {depth r} {g : G} {i j} (h : Ranks depth g.st r) :
    ∃ g', removeOutlet depth g i j = some g' ∧ Ranks depth g'.st r := by
  unfold removeOutlet
  split
  · have hr := setOuts_ranks (i := i) (es := dropEdge j (g.st i).outs) h (by
      intro e he
      exact h.2 i e ((dropEdge_sublist j _).subset he))
    obtain ⟨g', h1, _, h3⟩ := remat_total hr
    exact ⟨g', h1, hr.same h3⟩
  · exact ⟨g, rfl, h⟩

theorem removeFrom_total {depth r j} : ∀ is (g : G), Ranks depth g.st r →
    ∃ g', removeFrom depth j is g = some g' ∧ Ranks depth g'.st r
  | [], g, h => ⟨g, rfl, h⟩
  | i :: is, g, h => by
    obtain ⟨g1, h1, h2⟩ := removeOutlet_total (i := i) (j := j) h
    obtain ⟨g2, h3, h4⟩ := removeFrom_total (j := j) is g1 h2
    exact ⟨g2, by simp [removeFrom, h1, h3], h4⟩

theorem store_ranks {depth r} {g : G} {i x} (h : Ranks depth g.st r) (hx : x.outs = []) :
    Ranks depth (store g i x).st r := by
  refine ⟨h.1, ?_⟩
  intro k e hk
  by_cases hki : k = i
  · subst hki; simp [store, set, hx] at hk
  · simp only [store, set, hki, if_false] at hk
    exact h.2 k e hk

/-- the calls that add an outlet add one that falls in the numbering -/
def Falls (r : Nat → Nat) : Op → Prop
  | .add i j | .addFiltered i j _ | .find i (some j) => r j < r i
  | _ => True

theorem step_total {depth r} {g : G} {o : Op} (h : Ranks depth g.st r) (ho : Falls r o) :
    ∃ g', step depth g o = some g' ∧ Ranks depth g'.st r := by
  have done : ∀ g1 : G, Ranks depth g1.st r →
      ∃ g', remat depth g1 = some g' ∧ Ranks depth g'.st r := by
    intro g1 h1
    obtain ⟨g', h2, _, h3⟩ := remat_total h1
    exact ⟨g', h2, h1.same h3⟩
  cases o with
  | boot i =>
    simp only [step]
    split
    · exact ⟨g, rfl, h⟩
    · exact ⟨_, rfl, store_ranks h rfl⟩
  | onFd i =>
    simp only [step]
    split
    · exact ⟨g, rfl, h⟩
    · exact ⟨_, rfl, store_ranks h rfl⟩
  | new i ops split => exact done _ (store_ranks h rfl)
  | find i parent =>
    simp only [step]
    split
    · exact ⟨g, rfl, h⟩
    · obtain ⟨g1, h1, h2⟩ := done _ (store_ranks (i := i) (x := fresh false false) h rfl)
      simp only [h1]
      cases parent with
      | none => exact done _ h2
      | some p =>
        obtain ⟨g2, h3, h4⟩ := addOutlet_total (f := none) h2 ho
        simp only [h3]
        exact done _ h4
  | add i j => exact addOutlet_total h ho
  | addFiltered i j f => exact addOutlet_total h ho
  | removeAll i =>
    simp only [step]
    split
    · exact ⟨g, rfl, h⟩
    · exact done _ (setOuts_ranks h (by simp))
  | removeOutlet i j => exact removeOutlet_total h
  | remove i =>
    obtain ⟨g1, h1, h2⟩ := removeFrom_total (j := i) g.all g h
    simp only [step, h1]
    exact ⟨_, rfl, h2⟩
  | setFlags i fl =>
    simp only [step]
    split
    · exact ⟨g, rfl, h⟩
    · refine done _ (h.sub ?_)
      intro k e he
      by_cases hk : k = i
      · subst hk; simpa [set] using he
      · simpa [set, hk] using he
  | resolve i =>
    refine ⟨_, rfl, h.sub ?_⟩
    intro k e he
    by_cases hk : k = i
    · subst hk; simpa [set] using he
    · simpa [set, hk] using he

theorem run_total {depth r} : ∀ os (g : G), Ranks depth g.st r → (∀ o ∈ os, Falls r o) →
    ∃ g', run depth os g = some g' ∧ Ranks depth g'.st r
  | [], g, h, _ => ⟨g, rfl, h⟩
  | o :: os, g, h, ho => by
    obtain ⟨g1, h1, h2⟩ := step_total h (ho o List.mem_cons_self)
    obtain ⟨g2, h3, h4⟩ := run_total os g1 h2 (fun o h => ho o (List.mem_cons_of_mem _ h))
    exact ⟨g2, by simp [run, h1, h3], h4⟩

end Mtev.LogGraph
