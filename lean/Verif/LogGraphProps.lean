import Verif.LogGraph

/-!
# C87: a logged line reaches exactly the outputs its stream leads to

The specification speaks of the streams, their outlets, flags and filters only;
the derived "enabled below" bit, the two early tests and the remembered filter
results do not occur in it.
-/

namespace Mtev.LogGraph

/-- the line passes from stream `a` to its outlet `b` -/
def Passes (g : G) (l : Line) (a b : Nat) : Prop :=
  ∃ e ∈ (g.st a).outs, e.dst = b ∧ ∀ f, e.filter = some f → f.run (fbLookup l) = true

/-- a way from stream `i` to an output: it starts at `i`, every stream on it is
enabled, the line passes from each to the next, and the last one writes. -/
def IsWay (g : G) (l : Line) (i : Nat) (p : List Nat) : Prop :=
  p.head? = some i ∧ (∀ j ∈ p, (g.st j).fl.on = true) ∧
  (∃ j, p.getLast? = some j ∧ (g.st j).ops = true) ∧ p.IsChain (Passes g l)

/-- what is written at the end of a way: by the last stream, under the name of
the first, decorated as the last stream or the one before it asks -/
def wayWrite (g : G) (p : List Nat) : Write :=
  let j := p.getLast?.getD 0
  let prev := p.dropLast.getLast?
  { stream := j
    name := p.head?.getD 0
    ts := (g.st j).fl.ts || (prev.map (fun k => (g.st k).fl.ts)).getD false
    fac := (g.st j).fl.fac || (prev.map (fun k => (g.st k).fl.fac)).getD false
    dbg := (g.st j).fl.dbg || (prev.map (fun k => (g.st k).fl.dbg)).getD false }

theorem path_iff {g l} : ∀ {p i}, Path g l i p ↔ IsWay g l i p
  | [], i => by
    constructor
    · intro h; obtain ⟨q, hq⟩ := h.head; cases hq
    · intro h; simp [IsWay] at h
  | [a], i => by
    constructor
    · intro h
      cases h with
      | here h1 h2 => exact ⟨rfl, by simpa using h1, ⟨_, rfl, h2⟩, by simp⟩
      | step _ _ _ h4 => obtain ⟨q, hq⟩ := h4.head; cases hq
    · rintro ⟨h1, h2, ⟨j, h3, h4⟩, _⟩
      simp only [List.head?_cons, Option.some.injEq] at h1
      simp only [List.getLast?_singleton, Option.some.injEq] at h3
      subst h1; subst h3
      exact .here (h2 _ List.mem_cons_self) h4
  | a :: b :: p, i => by
    constructor
    · intro h
      cases h with
      | step h1 h2 h3 h4 =>
        obtain ⟨q, hq⟩ := h4.head
        obtain ⟨i1, i2, ⟨j, i3, i4⟩, i5⟩ := path_iff.1 h4
        refine ⟨rfl, ?_, ⟨j, by simpa using i3, i4⟩, ?_⟩
        · intro j hj
          rcases List.mem_cons.1 hj with rfl | hj
          · exact h1
          · exact i2 j hj
        · rw [List.isChain_cons_cons]
          exact ⟨⟨_, h2, by simp only [List.cons.injEq] at hq; exact hq.1.symm, h3⟩, i5⟩
    · rintro ⟨h1, h2, ⟨j, h3, h4⟩, h5⟩
      simp only [List.head?_cons, Option.some.injEq] at h1
      subst h1
      rw [List.isChain_cons_cons] at h5
      obtain ⟨⟨e, he, hd, hf⟩, h6⟩ := h5
      refine .step (h2 _ List.mem_cons_self) he hf ?_
      rw [hd]
      exact path_iff.2 ⟨rfl, fun j hj => h2 j (List.mem_cons_of_mem _ hj),
        ⟨j, by simpa using h3, h4⟩, h6⟩

theorem writeOf_eq {g name} : ∀ (p : List Nat) (a inh),
    writeOf g name inh (a :: p) =
      { wayWrite g (a :: p) with
        name := name
        ts := (g.st ((a :: p).getLast?.getD 0)).fl.ts ||
          (((a :: p).dropLast.getLast?).map (fun k => (g.st k).fl.ts)).getD inh.ts
        fac := (g.st ((a :: p).getLast?.getD 0)).fl.fac ||
          (((a :: p).dropLast.getLast?).map (fun k => (g.st k).fl.fac)).getD inh.fac
        dbg := (g.st ((a :: p).getLast?.getD 0)).fl.dbg ||
          (((a :: p).dropLast.getLast?).map (fun k => (g.st k).fl.dbg)).getD inh.dbg }
  | [], a, inh => by simp [writeOf, wayWrite]
  | b :: p, a, inh => by
    rw [writeOf_cons (by simp), writeOf_eq p b (g.st a).fl]
    cases p with
    | nil => simp [wayWrite]
    | cons c p =>
      obtain ⟨x, hx⟩ : ∃ x, (b :: (c :: p).dropLast).getLast? = some x :=
        ⟨_, List.getLast?_eq_some_getLast (by simp)⟩
      simp [wayWrite, List.dropLast_cons_cons, List.getLast?_cons_cons, hx]

/-- **C87 (routing).** After any history of calls that make, find, join, part,
remove and flag streams, whatever is logged to a stream of the table is written
once for every way from that stream to an output, and nothing else is written;
each write is made by the stream at the end of the way, in the name of the
stream the line was logged to.  This holds for every graph and every set of
filters.

Partial: the history has no `mtev_log_stream_new_on_fd` by a caller and no type
registered late (`C87_on_fd_violated`, `C87_late_type_violated`), the line
carries no attribute that hides a built in one and no trace span
(`C87_hidden_attribute_violated`, `C87_span_violated`), and a call that does
not return (`C87_cycle_violated`) is left out: see `C87_returns_partial`. -/
theorem C87_routed_partial {depth : Nat} {os : List Op} {g : G} {l : Line} {i : Nat}
    {w : List Write}
    (ht : ∀ o ∈ os, Tidy o) (hg : run depth os empty = some g) (hi : i ∈ g.all)
    (hspan : l.span = []) (hkv : ∀ kv ∈ l.kvs, isBuiltin kv.1 = false)
    (hw : log depth g l i = some w) :
    ∃ P : List (List Nat), P.Nodup ∧ (∀ p, p ∈ P ↔ IsWay g l i p) ∧ w = P.map (wayWrite g) := by
  have hinv : Inv g := run_inv (fun _ => ht) (inv_empty _) hg
  obtain ⟨P, h1, h2, h3⟩ := log_spec hinv ⟨hspan, hkv⟩ hi hw
  refine ⟨P, h1, fun p => (h2 p).trans path_iff, ?_⟩
  rw [h3]
  apply List.map_congr_left
  intro p hp
  obtain ⟨q, rfl⟩ := ((h2 p).1 hp).head
  rw [writeOf_eq]
  simp [wayWrite]

/-- the question `mtev_log_has_material_output` answers (`mtev_log.c:478-481`) -/
def hasMaterialOutput (g : G) (i : Nat) : Bool := (g.st i).fl.on && (g.st i).below

/-- the same with every filter taken away -/
def unfiltered (g : G) : G :=
  { g with st := fun i => { g.st i with outs := (g.st i).outs.map (fun e => { e with filter := none }) } }

theorem material_way {g : G} {l i} : Material g.st i ↔ ∃ p, IsWay (unfiltered g) l i p := by
  constructor
  · intro h
    induction h with
    | here h1 h2 => exact ⟨_, path_iff.1 (.here h1 h2)⟩
    | @down i e h1 h2 _ ih =>
      obtain ⟨p, hp⟩ := ih
      refine ⟨i :: p, path_iff.1 ?_⟩
      have hp := path_iff.2 hp
      refine Path.step (e := { e with filter := none }) h1 ?_ ?_ hp
      · exact List.mem_map.2 ⟨e, h2, rfl⟩
      · intro f hf; cases hf
  · rintro ⟨p, hp0⟩
    have hp := (path_iff.2 hp0).material
    clear hp0
    induction hp with
    | here h1 h2 => exact .here h1 h2
    | down h1 h2 _ ih =>
      simp only [unfiltered, List.mem_map] at h2
      obtain ⟨e, he, rfl⟩ := h2
      exact .down h1 he ih

/-- **C87 (asking first).** After the same histories, asking whether a stream
has material output says exactly whether there is a way to some output when
filters are disregarded, so a caller that asks first and skips preparing the
message loses nothing. -/
theorem C87_asking_partial {depth : Nat} {os : List Op} {g : G} {i : Nat} (l : Line)
    (ht : ∀ o ∈ os, Tidy o) (hg : run depth os empty = some g) (hi : i ∈ g.all) :
    (hasMaterialOutput g i = true ↔ ∃ p, IsWay (unfiltered g) l i p) ∧
    ((∃ p, IsWay g l i p) → hasMaterialOutput g i = true) := by
  have hinv : Inv g := run_inv (fun _ => ht) (inv_empty _) hg
  have key : hasMaterialOutput g i = true ↔ Material g.st i := by
    rw [← hinv.good i hi]
    simp only [hasMaterialOutput, Bool.and_eq_true]
    constructor
    · exact fun h => h.2
    · intro h
      have hm := (hinv.good i hi).1 h
      exact ⟨by cases hm <;> assumption, h⟩
  refine ⟨key.trans material_way, ?_⟩
  rintro ⟨p, hp⟩
  exact key.2 (path_iff.2 hp).material

/-- **C87 (repair).** Whatever the history, including streams made on a
descriptor and types registered late, one later `mtev_log_stream_new` (of any
stream) puts routing right again. -/
theorem C87_repaired {depth : Nat} {os : List Op} {g : G} {l : Line} {i k : Nat} {a b : Bool}
    {w : List Write}
    (hg : run depth (os ++ [.new k a b]) empty = some g) (hi : i ∈ g.all)
    (hspan : l.span = []) (hkv : ∀ kv ∈ l.kvs, isBuiltin kv.1 = false)
    (hw : log depth g l i = some w) :
    ∃ P : List (List Nat), P.Nodup ∧ (∀ p, p ∈ P ↔ IsWay g l i p) ∧ w = P.map (wayWrite g) := by
  have happ : ∀ os (g0 : G), run depth (os ++ [.new k a b]) g0 = some g →
      ∃ g1, run depth os g0 = some g1 ∧ step depth g1 (.new k a b) = some g := by
    intro os
    induction os with
    | nil =>
      intro g0 h
      simp only [List.nil_append, run] at h
      refine ⟨g0, rfl, ?_⟩
      split at h
      · cases h
      · rename_i h1; rw [h1]; exact h
    | cons o os ih =>
      intro g0 h
      simp only [List.cons_append, run] at h
      split at h
      · cases h
      · rename_i g1 h1
        obtain ⟨g2, h2, h3⟩ := ih g1 h
        exact ⟨g2, by simp [run, h1, h2], h3⟩
  obtain ⟨g1, h1, h2⟩ := happ os empty hg
  have w1 : InvB False g1 := run_inv (fun h => h.elim) (inv_empty _) h1
  simp only [step] at h2
  have hinv : Inv g :=
    (remat_inv (store_closed w1.closed rfl) (store_distinct w1.distinct rfl) h2).1
  obtain ⟨P, h1, h2, h3⟩ := log_spec hinv ⟨hspan, hkv⟩ hi hw
  refine ⟨P, h1, fun p => (h2 p).trans path_iff, ?_⟩
  rw [h3]
  apply List.map_congr_left
  intro p hp
  obtain ⟨q, rfl⟩ := ((h2 p).1 hp).head
  rw [writeOf_eq]
  simp [wayWrite]

/-- **C87 (returning).** If streams can be numbered below the depth of the call
stack so that every outlet ever attached leads to a smaller number, then every
call of the history returns, and so does every logging call afterwards. -/
theorem C87_returns_partial {depth : Nat} {os : List Op} {rank : Nat → Nat}
    (hr : ∀ i, rank i < depth) (hf : ∀ o ∈ os, Falls rank o) :
    ∃ g, run depth os empty = some g ∧ ∀ l i, ∃ w, log depth g l i = some w := by
  obtain ⟨g, h1, h2⟩ := run_total (depth := depth) (r := rank) os empty
    ⟨hr, by intro i e he; simp [empty, fresh] at he⟩ hf
  exact ⟨g, h1, fun l i => log_total h2⟩

/-- two streams that feed each other, as far as `materialize_deps` sees them -/
theorem mat_loop {s : Nat → Stream} (h0 : (s 0).done = false) (h1 : (s 1).done = false)
    {f0 f1 : Option Filter} (o0 : (s 0).outs = [⟨1, f0⟩]) (o1 : (s 1).outs = [⟨0, f1⟩]) :
    ∀ f, mat f 0 s = none ∧ mat f 1 s = none
  | 0 => ⟨rfl, rfl⟩
  | f + 1 => by
    obtain ⟨a, b⟩ := mat_loop h0 h1 o0 o1 f
    constructor
    · simp [mat, h0, o0, matAll, b]
    · simp [mat, h1, o1, matAll, a]

theorem set_same {s : Nat → Stream} {i x} : set s i x i = x := by simp [set]

theorem set_other {s : Nat → Stream} {i j x} (h : j ≠ i) : set s i x j = s j := by simp [set, h]

/-- **C87 (loops).** Nothing keeps a caller from making two streams outlets of
each other; the call that closes the loop never returns, however deep the call
stack may grow. -/
theorem C87_cycle_violated (depth : Nat) :
    run depth [.find 0 none, .find 1 none, .add 0 1, .add 1 0] empty = none := by
  cases hg : run depth [.find 0 none, .find 1 none, .add 0 1] empty with
  | none =>
    simp only [run] at hg ⊢
    repeat' split at hg
    all_goals simp_all
  | some g =>
    have hinv : Inv g := run_inv (q := True) (fun _ o ho => by
      simp only [List.mem_cons, List.not_mem_nil, or_false] at ho
      rcases ho with rfl | rfl | rfl <;> simp [Tidy]) (inv_empty _) hg
    have hstep : run depth [.find 0 none, .find 1 none, .add 0 1, .add 1 0] empty
        = step depth g (.add 1 0) := by
      simp only [run] at hg ⊢
      repeat' split at hg
      all_goals simp_all
      cases step depth g (.add 1 0) <;> rfl
    rw [hstep]
    -- the graph after the first three calls
    have hshape : g.all = [1, 0] ∧ (g.st 0).outs = [⟨1, none⟩] ∧ (g.st 1).outs = [] := by
      have hremat : ∀ a b : G, remat depth a = some b → b.all = a.all ∧ ∀ k, (b.st k).outs = (a.st k).outs → True := by
        intro a b h; unfold remat at h; split at h
        · cases h
        · cases h; exact ⟨rfl, fun _ _ => trivial⟩
      simp only [run] at hg
      split at hg
      · cases hg
      · rename_i g1 h1
        split at hg
        · cases hg
        · rename_i g2 h2
          split at hg
          · cases hg
          · rename_i g3 h3
            cases hg
            simp only [step, show (0 : Nat) ∉ empty.all by simp [empty], if_false] at h1
            split at h1
            · cases h1
            · rename_i g1' h1'
              obtain ⟨i1, a1, s1⟩ := remat_inv (q := True) (store_closed (inv_empty True).closed rfl)
                (store_distinct (inv_empty True).distinct rfl) h1'
              obtain ⟨i2, a2, s2⟩ := remat_inv (q := True) i1.closed i1.distinct h1
              have all1 : g1.all = [0] := by rw [a2, a1]; simp [store, empty]
              simp only [step, all1, show (1 : Nat) ∉ [0] by simp, if_false] at h2
              split at h2
              · cases h2
              · rename_i g2' h2'
                obtain ⟨i3, a3, s3⟩ := remat_inv (q := True) (store_closed i2.closed rfl)
                  (store_distinct i2.distinct rfl) h2'
                obtain ⟨i4, a4, s4⟩ := remat_inv (q := True) i3.closed i3.distinct h2
                have all2 : g2.all = [1, 0] := by
                  rw [a4, a3]; simp [store, all1]
                have o0 : (g2.st 0).outs = [] := by
                  rw [(s4 0).2.2, (s3 0).2.2]
                  simp only [store, set_other (show (0 : Nat) ≠ 1 by decide)]
                  rw [(s2 0).2.2, (s1 0).2.2]
                  simp [store, set_same, fresh]
                have o1 : (g2.st 1).outs = [] := by
                  rw [(s4 1).2.2, (s3 1).2.2]
                  simp [store, set_same, fresh]
                simp only [step, addOutlet, all2, o0] at h3
                simp only [List.mem_cons, List.mem_singleton, true_or, or_true, and_self,
                  if_true, List.map_nil, List.not_mem_nil, if_false] at h3
                obtain ⟨i5, a5, s5⟩ := remat_inv (q := True)
                  (setOuts_closed i4.closed (by
                    intro _ e he
                    simp only [List.mem_singleton] at he
                    subst he; simp [all2])) (setOuts_distinct i4.distinct (by simp)) h3
                refine ⟨by rw [a5]; exact all2, ?_, ?_⟩
                · rw [(s5 0).2.2]; simp [setOuts, set_same]
                · rw [(s5 1).2.2]
                  simp only [setOuts, set_other (show (1 : Nat) ≠ 0 by decide)]
                  exact o1
    obtain ⟨hall, ho0, ho1⟩ := hshape
    simp only [step, addOutlet, hall, ho1]
    simp only [List.mem_cons, List.mem_singleton, true_or, or_true, and_self,
      if_true, List.map_nil, List.not_mem_nil, if_false]
    unfold remat
    have hd : ∀ k ∈ g.all, (demat (setOuts g 1 [⟨0, none⟩]) k).done = false := by
      intro k hk
      simp [demat, setOuts, hk]
    have hl := mat_loop (s := demat (setOuts g 1 [⟨0, none⟩])) (f0 := none) (f1 := none)
      (hd 0 (by simp [hall])) (hd 1 (by simp [hall]))
      (by rw [((demat_same _) 0).2.2]; simp only [setOuts, set_other (show (0 : Nat) ≠ 1 by decide)]; exact ho0)
      (by rw [((demat_same _) 1).2.2]; simp [setOuts, set_same]) depth
    have : (setOuts g 1 [⟨0, none⟩]).all = [1, 0] := by simp [setOuts, hall]
    rw [this]
    simp [matAll, hl.2]

/-! ## concrete lines and graphs -/

def lineA : Line :=
  { msg := bytesOf "hello", info := fun k => if k = .facility then bytesOf "a" else [],
    span := [], kvs := [(.user 0, bytesOf "x")] }

/-- an outlet for lines whose attribute 0 is `x` -/
def isX : Filter where
  run := fun look => look (.user 0) == some (bytesOf "x")
  needsMsg := false
  sound := by intro _ a b h; simp only [h (.user 0) (by simp)]

/-- an outlet for lines whose message is `bye` -/
def isBye : Filter where
  run := fun look => look .message == some (bytesOf "bye")
  needsMsg := true
  sound := by intro h; cases h

/-- an outlet for lines of facility `b` -/
def isFacB : Filter where
  run := fun look => look .facility == some (bytesOf "b")
  needsMsg := false
  sound := by intro _ a b h; simp only [h .facility (by simp)]

/-- an outlet for lines that belong to a trace -/
def hasTrace : Filter where
  run := fun look => (look .trace).isSome
  needsMsg := false
  sound := by intro _ a b h; simp only [h .trace (by simp)]

/-- 0 → 1 (plain), 0 → 2 (if `x`), 0 → 3 (if the message is `bye`), 1 → 2 -/
def demo : List Op :=
  [.new 1 true false, .new 2 true true, .new 3 true false, .find 0 none, .add 0 1,
   .addFiltered 0 2 isX, .addFiltered 0 3 isBye, .add 1 2,
   .setFlags 1 { on := true, ts := true }]

/-- the hypotheses of `C87_routed_partial` are met by a graph in which one
output is reached by two ways and one outlet's filter holds the line back. -/
example : (∀ o ∈ demo, Tidy o) ∧
    ((run 10 demo empty).bind (fun g => log 10 g lineA 0)) =
      some [⟨2, 0, false, false, false⟩, ⟨1, 0, true, false, false⟩, ⟨2, 0, true, false, false⟩] ∧
    lineA.span = [] ∧ (∀ kv ∈ lineA.kvs, isBuiltin kv.1 = false) := by
  refine ⟨?_, by decide +kernel, rfl, by decide⟩
  intro o ho
  simp only [demo, List.mem_cons, List.not_mem_nil, or_false] at ho
  rcases ho with rfl | rfl | rfl | rfl | rfl | rfl | rfl | rfl | rfl <;> simp [Tidy]

/-- switching the filtered output off, then the message `bye` (the second test,
made with the message, decides) -/
example :
    ((run 10 (demo ++ [.setFlags 2 { on := false }, .removeOutlet 0 1]) empty).bind
      (fun g => log 10 g { lineA with msg := bytesOf "bye" } 0)) = some [⟨3, 0, false, false, false⟩] ∧
    ((run 10 (demo ++ [.setFlags 2 { on := false }, .removeOutlet 0 1]) empty).bind
      (fun g => log 10 g lineA 0)) = some [] := by decide +kernel

/-- the numbering `C87_returns_partial` asks for exists for that graph -/
example : ∃ rank : Nat → Nat, (∀ i, rank i < 10) ∧ ∀ o ∈ demo, Falls rank o := by
  refine ⟨fun i => if i = 0 then 3 else if i = 1 then 2 else 0, ?_, ?_⟩
  · intro i; dsimp only; split <;> (try split) <;> omega
  · intro o ho
    simp only [demo, List.mem_cons, List.not_mem_nil, or_false] at ho
    rcases ho with rfl | rfl | rfl | rfl | rfl | rfl | rfl | rfl | rfl <;> simp [Falls]

/-- **C87 (a stream on a descriptor).** A stream made by
`mtev_log_stream_new_on_fd` is enabled and writes, but what is logged to it
right away is lost: its derived bit is not set. -/
theorem C87_on_fd_violated :
    ∃ g, run 10 [.onFd 0] empty = some g ∧ IsWay g lineA 0 [0] ∧ log 10 g lineA 0 = some [] := by
  refine ⟨store empty 0 (fresh true false), rfl, ?_, rfl⟩
  exact ⟨rfl, by simp [store, set, fresh], ⟨0, rfl, by simp [store, set, fresh]⟩, by simp⟩

/-- **C87 (a type registered late).** A stream whose type is registered only
after it was made gets its operations from `mtev_log_final_resolve`, and what is
logged to it right away is lost. -/
theorem C87_late_type_violated :
    ∃ g, run 10 [.new 0 false false, .resolve 0] empty = some g ∧ IsWay g lineA 0 [0] ∧
      log 10 g lineA 0 = some [] := by
  have hb : (run 10 [.new 0 false false, .resolve 0] empty).isSome = true := by decide +kernel
  obtain ⟨g, hg⟩ := Option.isSome_iff_exists.1 hb
  refine ⟨g, hg, ⟨rfl, ?_, ⟨0, rfl, ?_⟩, by simp⟩, ?_⟩
  · have h : (run 10 [.new 0 false false, .resolve 0] empty).map (fun g => (g.st 0).fl.on)
        = some true := by decide +kernel
    rw [hg] at h
    simpa using h
  · have h : (run 10 [.new 0 false false, .resolve 0] empty).map (fun g => (g.st 0).ops)
        = some true := by decide +kernel
    rw [hg] at h
    simpa using h
  · have h : (run 10 [.new 0 false false, .resolve 0] empty).bind (fun g => log 10 g lineA 0)
        = some [] := by decide +kernel
    rw [hg] at h
    exact h

/-- 0 → 1 for lines of facility `b`; 0 → 2 for lines of a trace -/
def demoAttr : List Op :=
  [.new 1 true false, .new 2 true false, .find 0 none, .addFiltered 0 1 isFacB,
   .addFiltered 0 2 hasTrace]

/-- **C87 (hidden attributes).** A line whose facility is `a` is written to an
outlet for facility `b` when its caller adds an attribute called `facility`:
the early test looks at the caller's attributes first, and its result is kept,
while the line itself says `a`. -/
theorem C87_hidden_attribute_violated :
    fbLookup { lineA with kvs := [(.facility, bytesOf "b")] } .facility = some (bytesOf "a") ∧
    isFacB.run (fbLookup { lineA with kvs := [(.facility, bytesOf "b")] }) = false ∧
    ((run 10 demoAttr empty).bind
      (fun g => log 10 g { lineA with kvs := [(.facility, bytesOf "b")] } 0)) =
        some [⟨1, 0, false, false, false⟩] := by
  refine ⟨by decide +kernel, by decide +kernel, by decide +kernel⟩

/-- **C87 (spans).** A line logged within a trace span carries the trace, and
the filter that asks for it is true of the line, but the outlet does not get
the line: the early test does not know the span's attributes. -/
theorem C87_span_violated :
    hasTrace.run (fbLookup { lineA with span := [(.trace, bytesOf "7")] }) = true ∧
    ((run 10 demoAttr empty).bind
      (fun g => log 10 g { lineA with span := [(.trace, bytesOf "7")] } 0)) = some [] := by
  refine ⟨by decide +kernel, by decide +kernel⟩

end Mtev.LogGraph
