import Verif.Btrie

/-!
Properties C17 and C56: the IP prefix tree.

The specification is a list of (prefix, data) pairs, a prefix being a list of
bits; addresses are lists of 32 or 128 bits, most significant first.
-/
namespace Mtev.Btrie

variable {D : Type}

/-! ### Specification -/

/-- Address family: one tree is used for one family. -/
inductive Fam
  | v4
  | v6
deriving DecidableEq

/-- Number of address bits. -/
def Fam.width : Fam → Nat
  | .v4 => 32
  | .v6 => 128

/-- A call on the tree; `junk` is the content of the uninitialised words of the
IPv4 wrappers. -/
inductive Op (D : Type)
  | insert (junk : List Nat) (addr len : Nat) (d : D)
  | delete (junk : List Nat) (addr len : Nat)

/-- The first `len` bits of an address. -/
def prefixOf (f : Fam) (a len : Nat) : List Bool := (addrBits f.width a).take len

/-- The table the caller has in mind: inserting replaces, deleting removes. -/
def specStep (f : Fam) (tbl : List (List Bool × D)) : Op D → List (List Bool × D)
  | .insert _ a len d => (prefixOf f a len, d) :: tbl.filter (fun r => r.1 ≠ prefixOf f a len)
  | .delete _ a len => tbl.filter (fun r => r.1 ≠ prefixOf f a len)

/-- The table after a history. -/
def spec (f : Fam) (ops : List (Op D)) : List (List Bool × D) := ops.foldl (specStep f) []

/-- The right answer to a lookup: the data and length of the longest prefix in
the table that the address starts with, nothing if there is none. -/
def Answer (tbl : List (List Bool × D)) (addr : List Bool) : Option D → Option Nat → Prop
  | some d, pl => ∃ pf, (pf, d) ∈ tbl ∧ pf <+: addr ∧ pl = some pf.length ∧
      ∀ r ∈ tbl, r.1 <+: addr → r.1.length ≤ pf.length
  | none, _ => ∀ r ∈ tbl, ¬ r.1 <+: addr

/-! ### The calls on the model -/

/-- A deletion: tree, return value, data passed to the callback. -/
def remove (f : Fam) (junk : List Nat) (t : T D) (a len : Nat) : Out (T D × Nat × List D) :=
  match f with
  | .v4 => delV4 junk t a len
  | .v6 => delV6 t a len

/-- One call. -/
def step (f : Fam) (t : T D) : Op D → Out (T D)
  | .insert junk a len d => match f with
    | .v4 => addV4 junk t a len d
    | .v6 => addV6 t a len d
  | .delete junk a len => do
    let r ← remove f junk t a len
    .ok r.1

/-- A history of calls on an initially empty tree. -/
def run (f : Fam) : T D → List (Op D) → Out (T D)
  | t, [] => .ok t
  | t, op :: ops => do
    let t ← step f t op
    run f t ops

/-- A lookup. -/
def lookup (f : Fam) (junk : List Nat) (t : T D) (a : Nat) : Out (Option D × Option Nat) :=
  match f with
  | .v4 => findV4 junk t a
  | .v6 => findV6 t a

/-- Arguments in range; a deletion happens only while the table has a route
outside the deleted prefix (deleting the covering route crashes, see
`C17_delete_covering_violated`). -/
def HistOk (f : Fam) (tbl : List (List Bool × D)) : List (Op D) → Prop
  | [] => True
  | .insert j a len d :: ops => a < 2 ^ f.width ∧ len ≤ f.width ∧ HistOk f (specStep f tbl (.insert j a len d)) ops
  | .delete j a len :: ops => a < 2 ^ f.width ∧ len ≤ f.width ∧ (∃ r ∈ tbl, ¬ prefixOf f a len <+: r.1) ∧
      HistOk f (specStep f tbl (.delete j a len)) ops

/-- Number of insertions. -/
def inserts : List (Op D) → Nat
  | [] => 0
  | .insert .. :: ops => inserts ops + 1
  | .delete .. :: ops => inserts ops

/-- No host routes are inserted (`/128`). -/
def NoHost : List (Op D) → Prop
  | [] => True
  | .insert _ _ len _ :: ops => len < 128 ∧ NoHost ops
  | .delete .. :: ops => NoHost ops

/-! ### Refinement -/

/-- The key words of a lookup or deletion. -/
def fkey (f : Fam) (junk : List Nat) (a : Nat) : List Nat :=
  match f with
  | .v4 => keyV4 junk a
  | .v6 => keyV6 a

theorem fkey_ok (f : Fam) (junk : List Nat) {a len : Nat} (ha : a < 2 ^ f.width) (hl : len ≤ f.width) :
    KeyOk (fkey f junk a) len := by
  cases f with
  | v4 => exact keyOk_v4 junk ha hl
  | v6 => exact fun i _ => words_v6 a i

theorem fkey_pre (f : Fam) (junk : List Nat) (a : Nat) {len : Nat} (hl : len ≤ f.width) :
    pre (fkey f junk a) len = prefixOf f a len := by
  cases f with
  | v4 => exact pre_v4 junk a hl
  | v6 => exact pre_v6 a hl

theorem addrBits_length (W a : Nat) : (addrBits W a).length = W := by simp [addrBits]

/-- The tree holds the routes of the table. -/
def Rep (W : Nat) (t : T D) (tbl : List (List Bool × D)) : Prop :=
  WF W t ∧ ∀ r, r ∈ routes t ↔ r ∈ tbl

theorem width_le (f : Fam) : f.width ≤ 128 := by cases f <;> decide

theorem step_insert {f : Fam} {W : Nat} (hW : W ≤ 128) {t : T D} {tbl : List (List Bool × D)} (h : Rep W t tbl)
    {junk : List Nat} {a len : Nat} {d : D} (ha : a < 2 ^ f.width) (hl : len ≤ f.width) (hlW : len ≤ W)
    (hwalk : ∀ key, (walk key len t).length ≤ 128) :
    ∃ t', step f t (.insert junk a len d) = .ok t' ∧ Rep W t' (specStep f tbl (.insert junk a len d)) ∧
      size t' ≤ size t + 2 := by
  have key : ∀ k : List Nat, KeyOk k len → pre k len = prefixOf f a len →
      ∃ t', add t k len d = .ok t' ∧ Rep W t' (specStep f tbl (.insert junk a len d)) ∧ size t' ≤ size t + 2 := by
    intro k hk hp
    unfold add
    rw [if_neg (by omega), if_neg (by have := hwalk k; omega)]
    obtain ⟨t', e1, e2, _, e4⟩ := addAt_spec hW hk hlW d t none h.1 (by simp) (by intro q hq; cases hq)
    refine ⟨t', e1, ⟨e2, fun r => ?_⟩, addAt_size e1⟩
    rw [e4 r, hp, h.2 r, specStep, List.mem_cons, List.mem_filter]
    simp
  cases f with
  | v4 =>
    show ∃ t', addV4 junk t a len d = .ok t' ∧ _
    unfold addV4
    have hl' : len ≤ 32 := hl
    rw [if_neg (by omega)]
    exact key _ (keyOk_v4 junk (Nat.lt_of_le_of_lt Nat.and_le_left ha) hl) (pre_v4_masked junk a hl)
  | v6 =>
    show ∃ t', addV6 t a len d = .ok t' ∧ _
    unfold addV6
    have hl' : len ≤ 128 := hl
    rw [if_neg (by omega)]
    exact key _ (keyOk_maskedV6 a len hl) (pre_maskedV6 a hl)

theorem rootHit_covers {W : Nat} {t : T D} (ht : WF W t) {key : List Nat} {len : Nat} (h : RootHit key len t) :
    ∀ r ∈ routes t, pre key len <+: r.1 := by
  cases t with
  | nil => exact absurd h (by simp [RootHit])
  | node p bits inc dat c0 c1 =>
    obtain ⟨rfl, h2, _⟩ := h
    intro r hr
    obtain ⟨p', b', ⟨q1, q2⟩, q3⟩ := routes_below (below_self ht) r hr
    rw [q3, ← h2, ← q2]
    exact pre_prefix q1

theorem del_spec {f : Fam} {W : Nat} {t : T D} {tbl : List (List Bool × D)} (h : Rep W t tbl)
    {junk : List Nat} {a len : Nat} (ha : a < 2 ^ f.width) (hl : len ≤ f.width)
    (hsafe : ∃ r ∈ tbl, ¬ prefixOf f a len <+: r.1) :
    ∃ t' rv fr, remove f junk t a len = .ok (t', rv, fr) ∧ Rep W t' (specStep f tbl (.delete junk a len)) ∧
      size t' ≤ size t ∧ Deleted (routes t) (routes t') (prefixOf f a len) rv fr := by
  have hk := fkey_ok f junk ha hl
  have hp := fkey_pre f junk a hl
  have hnr : ¬ RootHit (fkey f junk a) len t := by
    intro hr
    obtain ⟨r, hr1, hr2⟩ := hsafe
    apply hr2
    rw [← hp]
    exact rootHit_covers h.1 hr r ((h.2 r).2 hr1)
  obtain ⟨t', rv, fr, e1, e2, _, e4⟩ := delAt_spec hk t true h.1 (fun _ => hnr)
  refine ⟨t', rv, fr, ?_, ⟨e2, fun r => ?_⟩, delAt_size e1, by rw [← hp]; exact e4⟩
  · cases f <;> exact e1
  · rw [e4.routes r, h.2 r, hp, specStep, List.mem_filter]; simp

/-- The lookups cannot run off the walk stack. -/
def Roomy (f : Fam) (W : Nat) (t : T D) (ops : List (Op D)) : Prop :=
  W ≤ 127 ∨ size t + 2 * inserts ops ≤ 128

theorem run_spec {f : Fam} {W : Nat} (hW : W ≤ 128) (ops : List (Op D)) :
    ∀ (t : T D) (tbl), Rep W t tbl → HistOk f tbl ops → (∀ o ∈ ops, ∀ j a len d, o = Op.insert j a len d → len ≤ W) →
      Roomy f W t ops →
      ∃ t', run f t ops = .ok t' ∧ Rep W t' (ops.foldl (specStep f) tbl) ∧ Roomy f W t' [] := by
  induction ops with
  | nil => intro t tbl h _ _ hr; exact ⟨t, rfl, h, hr⟩
  | cons op ops ih =>
    intro t tbl h hok hlen hroom
    cases op with
    | insert j a len d =>
      obtain ⟨h1, h2, h3⟩ := hok
      have hw : ∀ key, (walk key len t).length ≤ 128 := by
        intro key
        rcases hroom with hr | hr
        · have := walk_length_W h.1 key len; omega
        · have := walk_le_size key len t; omega
      obtain ⟨t1, e1, e2, e3⟩ := step_insert (f := f) hW h (junk := j) (d := d) h1 h2
        (hlen _ (by simp) j a len d rfl) hw
      obtain ⟨t', f1, f2, f3⟩ := ih t1 _ e2 h3 (fun o ho => hlen o (List.mem_cons_of_mem _ ho))
        (hroom.imp_right fun hr => by simp only [inserts] at hr; omega)
      refine ⟨t', ?_, f2, f3⟩
      rw [run, e1, Out.ok_bind, f1]
    | delete j a len =>
      obtain ⟨h1, h2, h3, h4⟩ := hok
      obtain ⟨t1, rv, fr, e1, e2, e3, _⟩ := del_spec (f := f) h (junk := j) h1 h2 h3
      obtain ⟨t', f1, f2, f3⟩ := ih t1 _ e2 h4 (fun o ho => hlen o (List.mem_cons_of_mem _ ho))
        (hroom.imp_right fun hr => by simp only [inserts] at hr; omega)
      refine ⟨t', ?_, f2, f3⟩
      have e : step f t (.delete j a len) = (remove f j t a len >>= fun r => .ok r.1) := rfl
      rw [run, e, e1, Out.ok_bind, Out.ok_bind, f1]

theorem noHost_le (ops : List (Op D)) (h : NoHost ops) :
    ∀ o ∈ ops, ∀ j a len d, o = Op.insert j a len d → len ≤ 127 := by
  induction ops with
  | nil => intro o ho; simp at ho
  | cons op ops ih =>
    cases op with
    | insert j a len d =>
      intro o ho j' a' len' d' e
      rcases List.mem_cons.1 ho with rfl | ho
      · cases e; exact Nat.le_of_lt_succ h.1
      · exact ih h.2 o ho j' a' len' d' e
    | delete j a len =>
      intro o ho j' a' len' d' e
      rcases List.mem_cons.1 ho with rfl | ho
      · cases e
      · exact ih h o ho j' a' len' d' e

theorem histOk_len {f : Fam} (ops : List (Op D)) : ∀ tbl, HistOk f tbl ops →
    ∀ o ∈ ops, ∀ j a len d, o = Op.insert j a len d → len ≤ f.width := by
  induction ops with
  | nil => intro _ _ o ho; simp at ho
  | cons op ops ih =>
    intro tbl h o ho j' a' len' d' e
    cases op with
    | insert j a len d =>
      rcases List.mem_cons.1 ho with rfl | ho
      · cases e; exact h.2.1
      · exact ih _ h.2.2 o ho j' a' len' d' e
    | delete j a len =>
      rcases List.mem_cons.1 ho with rfl | ho
      · cases e
      · exact ih _ h.2.2.2 o ho j' a' len' d' e

/-- **C17 (longest match), partial.**  For every history of insertions and
deletions of prefixes with arbitrary lengths, in which no deletion hits a prefix
containing every stored route, the calls succeed and every lookup afterwards
gives exactly the answer of the table.  For IPv6 the history must also either
insert no `/128` route or at most 64 routes: beyond that a lookup can overflow its
stack array (`C17_stack_overflow_violated`). Missing for the full claim: those two
exclusions. -/
theorem C17_longest_match_partial (f : Fam) (ops : List (Op D)) (hok : HistOk f [] ops)
    (hroom : f = .v6 → NoHost ops ∨ inserts ops ≤ 64) :
    ∃ t, run f .nil ops = .ok t ∧ ∀ (junk : List Nat) (a : Nat), a < 2 ^ f.width →
      ∃ d pl, lookup f junk t a = .ok (d, pl) ∧ Answer (spec f ops) (addrBits f.width a) d pl := by
  have main : ∃ W, W ≤ 128 ∧ (∀ o ∈ ops, ∀ j a len d, o = Op.insert j a len d → len ≤ W) ∧
      Roomy f W (T.nil : T D) ops := by
    cases f with
    | v4 => exact ⟨32, by omega, histOk_len ops _ hok, .inl (by omega)⟩
    | v6 =>
      rcases hroom rfl with h | h
      · exact ⟨127, by omega, noHost_le ops h, .inl (by omega)⟩
      · exact ⟨128, by omega, histOk_len ops _ hok, .inr (by simp only [size]; omega)⟩
  obtain ⟨W, hW, hlen, hr⟩ := main
  obtain ⟨t, e1, e2, e3⟩ := run_spec (f := f) hW ops .nil [] ⟨trivial, by simp [routes]⟩ hok hlen hr
  refine ⟨t, e1, fun junk a ha => ?_⟩
  have hw : (walk (fkey f junk a) f.width t).length ≤ 128 := by
    rcases e3 with h | h
    · have := walk_length_W e2.1 (fkey f junk a) f.width; omega
    · have := walk_le_size (fkey f junk a) f.width t; omega
  obtain ⟨d, pl, g1, g2⟩ := find_spec e2.1 (fkey_ok f junk ha (Nat.le_refl _)) hw
  refine ⟨d, pl, ?_, ?_⟩
  · cases f <;> exact g1
  · rw [fkey_pre f junk a (Nat.le_refl _), prefixOf, List.take_of_length_le (by rw [addrBits_length])] at g2
    cases d with
    | none => exact fun r hr => g2 r ((e2.2 r).2 hr)
    | some v =>
      obtain ⟨pf, q1, q2, q3, q4⟩ := g2
      exact ⟨pf, (e2.2 _).1 q1, q2, q3, fun r hr => q4 r ((e2.2 r).2 hr)⟩

/-- 10.0.0.0/8, 10.1.0.0/16, 192.168.0.0/16, minus 10.0.0.0/8 again. -/
def demo : List (Op String) :=
  [.insert [] 0x0a000000 8 "ten", .insert [7, 7, 7] 0x0a010203 16 "ten-one",
   .insert [] 0xc0a80000 16 "lan", .delete [1] 0x0a000000 8]

instance {f : Fam} (tbl : List (List Bool × D)) [DecidableEq D] : (ops : List (Op D)) → Decidable (HistOk f tbl ops)
  | [] => .isTrue trivial
  | .insert j a len d :: ops =>
    have := instDecidableHistOkOfDecidableEq (f := f) (specStep f tbl (.insert j a len d)) ops
    inferInstanceAs (Decidable (_ ∧ _ ∧ _))
  | .delete j a len :: ops =>
    have := instDecidableHistOkOfDecidableEq (f := f) (specStep f tbl (.delete j a len)) ops
    inferInstanceAs (Decidable (_ ∧ _ ∧ _ ∧ _))

/-- The hypotheses hold for a history with nesting, a split and a deletion. -/
example : HistOk .v4 [] demo := by decide +kernel
example : (match run .v4 .nil demo with
    | .ok t => [findV4 [] t 0x0a0102ff, findV4 [] t 0x0a020000, findV4 [] t 0xc0a80101]
    | _ => []) = [.ok (some "ten-one", some 16), .ok (none, some 0), .ok (some "lan", some 16)] := by
  decide +kernel

/-- **C17 is violated by the code for deletions**: removing a route from a tree
that contains only that route dereferences a NULL parent, for every prefix. -/
theorem C17_delete_covering_violated (f : Fam) (junk junk' : List Nat) (a len : Nat) (d : D)
    (ha : a < 2 ^ f.width) (hl : len ≤ f.width) :
    run f .nil [Op.insert junk a len d, Op.delete junk' a len] = .ub := by
  have hlW := width_le f
  obtain ⟨t', e1, e2, _⟩ := step_insert (f := f) (W := 128) (Nat.le_refl _) (t := .nil) (tbl := [])
    ⟨trivial, by simp [routes]⟩ (junk := junk) (d := d) ha hl (by omega) (by simp [walk])
  have e0 : step f t' (.delete junk' a len) = (remove f junk' t' a len >>= fun r => .ok r.1) := rfl
  rw [run, e1, Out.ok_bind, run, e0]
  have hins : ∀ k : List Nat, add (T.nil : T D) k len d = .ok (leaf k len d) := by
    intro k
    unfold add
    rw [if_neg (by omega), if_neg (by simp [walk])]
    rfl
  have hhit : RootHit (fkey f junk' a) len t' := by
    have hp : ∃ k, t' = leaf k len d ∧ pre k len = prefixOf f a len := by
      cases f with
      | v4 =>
        have hl' : len ≤ 32 := hl
        have e : step .v4 (T.nil : T D) (.insert junk a len d) = addV4 junk .nil a len d := rfl
        rw [e, addV4, if_neg (by omega), hins] at e1
        cases e1
        exact ⟨_, rfl, pre_v4_masked junk a hl⟩
      | v6 =>
        have hl' : len ≤ 128 := hl
        have e : step .v6 (T.nil : T D) (.insert junk a len d) = addV6 .nil a len d := rfl
        rw [e, addV6, if_neg (by omega), hins] at e1
        cases e1
        exact ⟨_, rfl, pre_maskedV6 a hl⟩
    obtain ⟨k, rfl, hk⟩ := hp
    exact ⟨rfl, by rw [pre_copyWords (Nat.le_refl _) (by omega), hk, fkey_pre f junk' a hl], .inl rfl⟩
  have hub := del_rootHit (fkey_ok f junk' ha hl) e2.1 hhit
  have : remove f junk' t' a len = .ub := by
    cases f <;> exact hub
  rw [this, Out.ub_bind, Out.ub_bind]

/-- Routes `::/0`, `::/1`, …, `::/128`. -/
def nested : List (Op Nat) := (List.range 129).map fun len => .insert [] 0 len len

/-- **C17 is violated by the code for 129 nested IPv6 routes**: all insertions
succeed, and looking up the address writes past `pstack[128]`. -/
theorem C17_stack_overflow_violated :
    ∃ t, run .v6 .nil nested = .ok t ∧ lookup .v6 [] t 0 = .ub := by
  have h : (match run .v6 .nil nested with
      | .ok t => (match lookup .v6 [] t 0 with
        | .ub => true
        | _ => false)
      | _ => false) = true := by decide +kernel
  cases hr : run .v6 .nil nested with
  | ok t =>
    rw [hr] at h
    simp only at h
    refine ⟨t, rfl, ?_⟩
    cases hl : lookup .v6 [] t 0 with
    | ub => rfl
    | ok x => rw [hl] at h; simp at h
    | abort => rw [hl] at h; simp at h
  | ub => rw [hr] at h; simp at h
  | abort => rw [hr] at h; simp at h

/-- **C56 (deletion), partial.**  After any such history, a deletion that does not
hit a prefix covering the whole table hands the callback exactly the data stored
for that prefix (nothing if there is none), leaves all other routes, and returns 1
when it removed a route. Missing: it also returns 1 for some prefixes that were
never inserted (`C56_phantom_delete_violated`). -/
theorem C56_delete_partial (f : Fam) (ops : List (Op D)) (hok : HistOk f [] ops)
    (hroom : f = .v6 → NoHost ops ∨ inserts ops ≤ 64) (junk : List Nat) (a len : Nat) (ha : a < 2 ^ f.width)
    (hl : len ≤ f.width) (hsafe : ∃ r ∈ spec f ops, ¬ prefixOf f a len <+: r.1) :
    ∃ t t' rv fr, run f .nil ops = .ok t ∧
      remove f junk t a len = .ok (t', rv, fr) ∧
      (∀ x, x ∈ fr ↔ (prefixOf f a len, x) ∈ spec f ops) ∧ fr.length ≤ 1 ∧
      (∀ r, r ∈ routes t' ↔ r ∈ spec f ops ∧ r.1 ≠ prefixOf f a len) ∧
      ((∃ x, (prefixOf f a len, x) ∈ spec f ops) → rv = 1) := by
  have main : ∃ W, W ≤ 128 ∧ (∀ o ∈ ops, ∀ j a len d, o = Op.insert j a len d → len ≤ W) ∧
      Roomy f W (T.nil : T D) ops := by
    cases f with
    | v4 => exact ⟨32, by omega, histOk_len ops _ hok, .inl (by omega)⟩
    | v6 =>
      rcases hroom rfl with h | h
      · exact ⟨127, by omega, noHost_le ops h, .inl (by omega)⟩
      · exact ⟨128, by omega, histOk_len ops _ hok, .inr (by simp only [size]; omega)⟩
  obtain ⟨W, hW, hlen, hr⟩ := main
  obtain ⟨t, e1, e2, e3⟩ := run_spec (f := f) hW ops .nil [] ⟨trivial, by simp [routes]⟩ hok hlen hr
  obtain ⟨t', rv, fr, g1, g2, g3, g4⟩ := del_spec (f := f) e2 (junk := junk) ha hl hsafe
  refine ⟨t, t', rv, fr, e1, g1, fun x => ?_, g4.once, fun r => ?_, ?_⟩
  · rw [g4.freed x, e2.2]; rfl
  · rw [g4.routes r, e2.2]; rfl
  · rintro ⟨x, hx⟩
    refine g4.found ?_
    have := (g4.freed x).2 ((e2.2 _).2 hx)
    exact List.ne_nil_of_mem this

example : ∃ r ∈ spec .v4 demo, ¬ prefixOf .v4 0x0a010000 16 <+: r.1 := by decide +kernel

/-- **C56 is violated by the code**: after inserting 10.0.0.0/24 and 10.0.1.0/24,
deleting 10.0.0.0/23, which was never inserted, reports success. -/
theorem C56_phantom_delete_violated :
    ∃ t, run .v4 .nil [Op.insert [] 0x0a000000 24 "a", .insert [] 0x0a000100 24 "b"] = .ok t ∧
      (∃ t', remove .v4 [] t 0x0a000000 23 = .ok (t', 1, [])) :=
  ⟨_, rfl, _, rfl⟩

end Mtev.Btrie
