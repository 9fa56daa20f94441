import Verif.Cluster

/-!
C72: what a node knows of its cluster.

A node learns of the others from their heartbeats (`Ev.msg`) and from their
silence (`Ev.tick`, the check made before each heartbeat is sent).  The
specification: `Oldest b o`, node `o` is alive and no live node booted before
it, where `b` gives the boot time of every node, (0, 0) for the dead ones.
-/

namespace Mtev.Cluster

/-- Node `o` is alive and no live node booted before it. -/
def Oldest (b : Nat → Time) (o : Nat) : Prop :=
  b o ≠ (0, 0) ∧ ∀ j, b j ≠ (0, 0) → ¬ earlier (b j) (b o)

/-- The boot times a node knows, by position; (0, 0) is dead. -/
def boots (v : View) : Nat → Time := fun j => (nodeAt v.nodes j).boot

/-- Some node is alive. -/
def SomeAlive (v : View) : Prop := ∃ j, boots v j ≠ (0, 0)

/-- What happens to a node: the heartbeat of some node arrives, or time passes
(`rnd` is the random number drawn if one is needed). -/
inductive Ev where
  | msg (id : Nat) (boot : Time) (seq : Nat) (payload : Bytes) (now : Time) (rnd : Nat)
  | tick (now : Time) (rnd : Nat)
deriving DecidableEq, Repr

/-- The event handled by the code. -/
def Ev.on (v : View) : Ev → View × List (Nat × Change)
  | .msg id boot seq payload now rnd => receive v id boot seq payload now rnd
  | .tick now rnd => Cluster.tick v now rnd

/-- All events in turn. -/
def run (v : View) (evs : List Ev) : View := evs.foldl (fun w e => (e.on w).1) v

/-- The heartbeat of another node carries the boot time this node announces. -/
def Ev.clash (v : View) : Ev → Prop
  | .msg id boot _ _ _ _ => id ≠ v.me ∧ boot = v.myBoot
  | .tick _ _ => False

/-- A cluster just configured: nobody was heard of; the own boot time is later
than 1970. -/
def Fresh (v : View) : Prop :=
  v.oldest = none ∧ (∀ j, boots v j = (0, 0)) ∧ 0 < v.myBoot.1

/-! ### Helper lemmas -/

theorem nodeAt_set (l : List Node) (i j : Nat) (n : Node) (h : i < l.length) :
    nodeAt (setNode l i n) j = if j = i then n else nodeAt l j := by
  simp only [nodeAt, setNode, List.getD_eq_getElem?_getD, List.getElem?_set]
  by_cases hij : j = i
  · subst hij
    simp [h]
  · have : ¬ i = j := fun e => hij e.symm
    simp [hij, this]

theorem nodeAt_none (l : List Node) (j : Nat) (h : l.length ≤ j) : (nodeAt l j).boot = (0, 0) := by
  simp [nodeAt, List.getD_eq_getElem?_getD, List.getElem?_eq_none h]

theorem setNode_length (l : List Node) (i : Nat) (n : Node) :
    (setNode l i n).length = l.length := by
  simp [setNode]

theorem earlier_zero (a : Time) : earlier a (0, 0) = false := by
  simp [earlier]

theorem earlier_trans {a b c : Time} (h1 : ¬ earlier a b) (h2 : earlier c b) : ¬ earlier a c := by
  simp only [earlier, decide_eq_true_eq] at *
  omega

theorem earlier_le {a b c : Time} (h1 : ¬ earlier a b) (h2 : ¬ earlier b c) : ¬ earlier a c := by
  simp only [earlier, decide_eq_true_eq] at *
  omega

theorem earlier_irrefl (a : Time) : ¬ earlier a a := by
  simp [earlier]

theorem earlier_total {a b : Time} (h1 : ¬ earlier a b) (h2 : ¬ earlier b a) : a = b := by
  simp only [earlier, decide_eq_true_eq] at *
  exact Prod.ext (by omega) (by omega)

/-- What the search for the oldest node has found among the first `i`. -/
def Best (b : Nat → Time) (i cur : Nat) : Prop :=
  (b cur = (0, 0) ∧ ∀ j, j < i → b j = (0, 0)) ∨
  (b cur ≠ (0, 0) ∧ ∀ j, j < i → b j ≠ (0, 0) → ¬ earlier (b j) (b cur))

theorem oldestLoop_best (l : List Node) : ∀ fuel i cur,
    Best (fun j => (nodeAt l j).boot) i cur →
    Best (fun j => (nodeAt l j).boot) (i + fuel) (oldestLoop l fuel i cur) := by
  intro fuel
  induction fuel with
  | zero => intro i cur h; exact h
  | succ fuel ih =>
    intro i cur h
    have e : i + (fuel + 1) = (i + 1) + fuel := by omega
    rw [oldestLoop, e]
    apply ih
    simp only [Node.dead, decide_eq_true_eq]
    rcases h with ⟨hd, hall⟩ | ⟨ha, hmin⟩
    · rw [if_pos (Or.inl hd)]
      by_cases hi : (nodeAt l i).boot = (0, 0)
      · refine .inl ⟨hi, ?_⟩
        intro j hj
        rcases Nat.lt_succ_iff_lt_or_eq.mp hj with hj | rfl
        · exact hall j hj
        · exact hi
      · refine .inr ⟨hi, ?_⟩
        intro j hj hj0
        rcases Nat.lt_succ_iff_lt_or_eq.mp hj with hj | rfl
        · exact absurd (hall j hj) hj0
        · exact earlier_irrefl _
    · split
      next hc =>
        rcases hc with hc | ⟨hc, hi⟩
        · exact absurd hc ha
        · refine .inr ⟨hi, ?_⟩
          intro j hj hj0
          rcases Nat.lt_succ_iff_lt_or_eq.mp hj with hj | rfl
          · exact earlier_trans (hmin j hj hj0) hc
          · exact earlier_irrefl _
      next hc =>
        refine .inr ⟨ha, ?_⟩
        intro j hj hj0
        rcases Nat.lt_succ_iff_lt_or_eq.mp hj with hj | rfl
        · exact hmin j hj hj0
        · intro he
          exact hc (Or.inr ⟨he, hj0⟩)

/-- The search finds the oldest node if one is alive. -/
theorem findOldest_oldest (l : List Node) (h : ∃ j, (nodeAt l j).boot ≠ (0, 0)) :
    Oldest (fun j => (nodeAt l j).boot) (findOldest l) := by
  have h1 := oldestLoop_best l (l.length - 1) 1 0 (by
    by_cases h0 : (nodeAt l 0).boot = (0, 0)
    · refine .inl ⟨h0, fun j hj => ?_⟩
      have : j = 0 := by omega
      subst this
      exact h0
    · refine .inr ⟨h0, fun j hj _ => ?_⟩
      have : j = 0 := by omega
      subst this
      exact earlier_irrefl _)
  have hlt : ∀ j, (nodeAt l j).boot ≠ (0, 0) → j < 1 + (l.length - 1) := by
    intro j hj
    have : ¬ l.length ≤ j := fun hc => hj (nodeAt_none l j hc)
    omega
  rcases h1 with ⟨-, hall⟩ | ⟨ha, hmin⟩
  · obtain ⟨j, hj⟩ := h
    exact absurd (hall j (hlt j hj)) hj
  · exact ⟨ha, fun j hj => hmin j (hlt j hj) hj⟩

/-- Whenever the node noted as oldest is alive it is the oldest; while none is
noted all are dead. -/
def Honest (v : View) : Prop :=
  (v.oldest = none → ∀ j, boots v j = (0, 0)) ∧
  ∀ o, v.oldest = some o → boots v o ≠ (0, 0) → Oldest (boots v) o

/-- Either none is noted and all are dead, or the oldest one is noted. -/
def Fine (v : View) : Prop :=
  (v.oldest = none ∧ ∀ j, boots v j = (0, 0)) ∨ ∃ o, v.oldest = some o ∧ Oldest (boots v) o

theorem honest_congr {v w : View} (h1 : v.oldest = w.oldest) (h2 : boots v = boots w) :
    Honest v ↔ Honest w := by
  rw [Honest, Honest, h1, h2]

theorem fine_congr {v w : View} (h1 : v.oldest = w.oldest) (h2 : boots v = boots w) :
    Fine v ↔ Fine w := by
  rw [Fine, Fine, h1, h2]

theorem boots_onChanged (v : View) (i : Nat) (boot : Time) (seq : Nat) (ch : Change) (rnd : Nat)
    (hi : i < v.nodes.length) :
    boots (onChanged v i boot seq ch rnd).1 = fun j => if j = i then boot else boots v j := by
  have : ∀ w : View, w.nodes = setNode v.nodes i { nodeAt v.nodes i with boot := boot, seq := seq } →
      boots w = fun j => if j = i then boot else boots v j := by
    intro w hw
    funext j
    simp only [boots, hw, nodeAt_set _ _ _ _ hi]
    split <;> rfl
  apply this
  simp only [onChanged]
  split
  · rfl
  · split
    · rfl
    · split
      · rfl
      · split <;> rfl

theorem nodes_onChanged (v : View) (i : Nat) (boot : Time) (seq : Nat) (ch : Change) (rnd : Nat) :
    (onChanged v i boot seq ch rnd).1.nodes =
      setNode v.nodes i { nodeAt v.nodes i with boot := boot, seq := seq } ∧
    (onChanged v i boot seq ch rnd).1.me = v.me ∧
    (onChanged v i boot seq ch rnd).1.timeout = v.timeout ∧
    (onChanged v i boot seq ch rnd).1.maturity = v.maturity ∧
    (onChanged v i boot seq ch rnd).1.myBoot.1 = v.myBoot.1 := by
  simp only [onChanged]
  split
  · exact ⟨rfl, rfl, rfl, rfl, rfl⟩
  · split
    · exact ⟨rfl, rfl, rfl, rfl, rfl⟩
    · split
      · exact ⟨rfl, rfl, rfl, rfl, rfl⟩
      · split <;> exact ⟨rfl, rfl, rfl, rfl, rfl⟩

/-- The view after a change: the noted node, by cases. -/
theorem oldest_onChanged (v : View) (i : Nat) (boot : Time) (seq : Nat) (ch : Change) (rnd : Nat)
    (hi : i < v.nodes.length) (hcl : ¬ ((nodeAt v.nodes i).id ≠ v.me ∧ boot = v.myBoot)) :
    ((onChanged v i boot seq ch rnd).1.oldest =
        some (findOldest (onChanged v i boot seq ch rnd).1.nodes) ∧
      (boot = (0, 0) ∨ v.oldest = some i)) ∨
    (boot ≠ (0, 0) ∧ v.oldest = none ∧ (onChanged v i boot seq ch rnd).1.oldest = some i) ∨
    (boot ≠ (0, 0) ∧ ∃ o, o ≠ i ∧ v.oldest = some o ∧ earlier boot (boots v o) ∧
      (onChanged v i boot seq ch rnd).1.oldest = some i) ∨
    (boot ≠ (0, 0) ∧ ∃ o, o ≠ i ∧ v.oldest = some o ∧ ¬ earlier boot (boots v o) ∧
      (onChanged v i boot seq ch rnd).1.oldest = some o) := by
  simp only [onChanged, if_neg hcl]
  split
  next h => exact .inl ⟨rfl, h⟩
  next h =>
    rw [not_or] at h
    split
    next hn => exact .inr (.inl ⟨h.1, hn, rfl⟩)
    next o ho =>
      have hoi : o ≠ i := fun e => h.2 (by rw [ho, e])
      have hb : (nodeAt (setNode v.nodes i { nodeAt v.nodes i with boot := boot, seq := seq }) o).boot
          = boots v o := by
        rw [nodeAt_set _ _ _ _ hi, if_neg hoi]
        rfl
      rw [hb]
      split
      next he => exact .inr (.inr (.inl ⟨h.1, o, hoi, ho, he, rfl⟩))
      next he => exact .inr (.inr (.inr ⟨h.1, o, hoi, ho, he, ho⟩))

theorem honest_onChanged (v : View) (i : Nat) (boot : Time) (seq : Nat) (ch : Change) (rnd : Nat)
    (hi : i < v.nodes.length) (hcl : ¬ ((nodeAt v.nodes i).id ≠ v.me ∧ boot = v.myBoot))
    (h : Honest v) : Honest (onChanged v i boot seq ch rnd).1 := by
  have hb := boots_onChanged v i boot seq ch rnd hi
  rcases oldest_onChanged v i boot seq ch rnd hi hcl with ⟨ho, -⟩ | ⟨hn0, hno, ho⟩ |
      ⟨hn0, o, hoi, hov, he, ho⟩ | ⟨hn0, o, hoi, hov, he, ho⟩
  · refine ⟨fun hc => absurd (ho.symm.trans hc) (by simp), ?_⟩
    intro o' ho' ha
    rw [ho] at ho'
    injection ho' with ho'
    subst ho'
    exact findOldest_oldest _ ⟨_, ha⟩
  · refine ⟨fun hc => absurd (ho.symm.trans hc) (by simp), ?_⟩
    intro o' ho' ha
    rw [ho] at ho'
    injection ho' with ho'
    subst ho'
    refine ⟨ha, ?_⟩
    intro j hj
    rw [hb] at hj ⊢
    by_cases hji : j = i
    · subst hji
      exact earlier_irrefl _
    · simp only [hji, if_false] at hj
      exact absurd (h.1 hno j) hj
  · refine ⟨fun hc => absurd (ho.symm.trans hc) (by simp), ?_⟩
    intro o' ho' ha
    rw [ho] at ho'
    injection ho' with ho'
    subst ho'
    have hoa : boots v o ≠ (0, 0) := by
      intro hc
      rw [hc, earlier_zero] at he
      exact absurd he (by simp)
    have hold := h.2 o hov hoa
    refine ⟨ha, ?_⟩
    intro j hj
    rw [hb] at hj ⊢
    by_cases hji : j = i
    · subst hji
      exact earlier_irrefl _
    · simp only [hji, if_false, if_true] at hj ⊢
      exact earlier_trans (hold.2 j hj) he
  · refine ⟨fun hc => absurd (ho.symm.trans hc) (by simp), ?_⟩
    intro o' ho' ha
    rw [ho] at ho'
    injection ho' with ho'
    subst ho'
    have hoa : boots v o ≠ (0, 0) := by
      rw [hb] at ha
      simpa only [hoi, if_false] using ha
    have hold := h.2 o hov hoa
    refine ⟨ha, ?_⟩
    intro j hj
    rw [hb] at hj ⊢
    by_cases hji : j = i
    · subst hji
      simp only [if_true, hoi, if_false] at hj ⊢
      exact he
    · simp only [hji, if_false, hoi] at hj ⊢
      exact hold.2 j hj

theorem fine_onChanged (v : View) (i : Nat) (boot : Time) (seq : Nat) (ch : Change) (rnd : Nat)
    (hi : i < v.nodes.length) (hcl : ¬ ((nodeAt v.nodes i).id ≠ v.me ∧ boot = v.myBoot))
    (h : Fine v) (hal : SomeAlive (onChanged v i boot seq ch rnd).1) :
    Fine (onChanged v i boot seq ch rnd).1 := by
  have hh : Honest v := by
    rcases h with ⟨h1, h2⟩ | ⟨o, h1, h2⟩
    · exact ⟨fun _ => h2, fun o ho => absurd (h1.symm.trans ho) (by simp)⟩
    · refine ⟨fun hc => absurd (h1.symm.trans hc) (by simp), ?_⟩
      intro o' ho' _
      rw [h1] at ho'
      injection ho' with ho'
      subst ho'
      exact h2
  have hhon := honest_onChanged v i boot seq ch rnd hi hcl hh
  have hb := boots_onChanged v i boot seq ch rnd hi
  rcases oldest_onChanged v i boot seq ch rnd hi hcl with ⟨ho, -⟩ | ⟨hn0, hno, ho⟩ |
      ⟨hn0, o, hoi, hov, he, ho⟩ | ⟨hn0, o, hoi, hov, he, ho⟩
  · exact .inr ⟨_, ho, findOldest_oldest _ hal⟩
  · exact .inr ⟨i, ho, hhon.2 i ho (by rw [hb]; simpa using hn0)⟩
  · exact .inr ⟨i, ho, hhon.2 i ho (by rw [hb]; simpa using hn0)⟩
  · refine .inr ⟨o, ho, hhon.2 o ho ?_⟩
    rw [hb]
    simp only [hoi, if_false]
    rcases h with ⟨h1, -⟩ | ⟨o', h1, h2⟩
    · exact absurd (h1.symm.trans hov) (by simp)
    · rw [hov] at h1
      injection h1 with h1
      rw [h1]
      exact h2.1

/-! ### Silence -/

/-- The nodes after a check: those silent for too long are dead. -/
theorem tickLoop_nodes (now : Time) (rnd : Nat) : ∀ fuel i (v : View), 0 < v.myBoot.1 →
    i + fuel = v.nodes.length →
    (tickLoop now rnd fuel i v).1.nodes.length = v.nodes.length ∧
    (∀ j, nodeAt (tickLoop now rnd fuel i v).1.nodes j =
      if i ≤ j ∧ j < v.nodes.length ∧ expired v now (nodeAt v.nodes j) then
        { nodeAt v.nodes j with boot := (0, 0) } else nodeAt v.nodes j) ∧
    (tickLoop now rnd fuel i v).2 =
      ((List.range' i fuel).filter (fun j => expired v now (nodeAt v.nodes j))).map
        (fun j => (j, Change.died)) ∧
    0 < (tickLoop now rnd fuel i v).1.myBoot.1 ∧
    (tickLoop now rnd fuel i v).1.me = v.me ∧
    (Honest v → Honest (tickLoop now rnd fuel i v).1) ∧
    (Fine v → SomeAlive (tickLoop now rnd fuel i v).1 → Fine (tickLoop now rnd fuel i v).1) ∧
    ((∀ j, boots v j = (0, 0)) → (tickLoop now rnd fuel i v).1 = v) := by
  intro fuel
  induction fuel with
  | zero =>
    intro i v hm hl
    refine ⟨rfl, ?_, rfl, hm, rfl, fun h => h, fun h _ => h, fun _ => rfl⟩
    intro j
    have : ¬ (i ≤ j ∧ j < v.nodes.length ∧ expired v now (nodeAt v.nodes j)) := by
      rintro ⟨h1, h2, -⟩
      omega
    rw [if_neg this]
    rfl
  | succ fuel ih =>
    intro i v hm hl
    have hi : i < v.nodes.length := by omega
    rw [tickLoop]
    split
    next hex =>
      obtain ⟨n1, n2, n3, n4, n5⟩ := nodes_onChanged v i (0, 0) (nodeAt v.nodes i).seq .died rnd
      have hcl : ¬ ((nodeAt v.nodes i).id ≠ v.me ∧ ((0, 0) : Time) = v.myBoot) := by
        rintro ⟨-, h⟩
        rw [← h] at hm
        exact absurd hm (by simp)
      have hhook : (onChanged v i (0, 0) (nodeAt v.nodes i).seq .died rnd).2 = [(i, Change.died)] := by
        simp only [onChanged, if_neg hcl]
        simp
      have hb := boots_onChanged v i (0, 0) (nodeAt v.nodes i).seq .died rnd hi
      generalize hw : (onChanged v i (0, 0) (nodeAt v.nodes i).seq .died rnd) = w at *
      have hwl : w.1.nodes.length = v.nodes.length := by rw [n1, setNode_length]
      have hexp : ∀ n, expired w.1 now n = expired v now n := by
        intro n
        simp only [expired, n3, n4]
      obtain ⟨r1, r2, r3, r4, r5, r6, r7, r8⟩ := ih (i + 1) w.1 (by rw [n5]; exact hm) (by rw [hwl]; omega)
      have hwn : ∀ j, nodeAt w.1.nodes j =
          if j = i then { nodeAt v.nodes i with boot := (0, 0) } else nodeAt v.nodes j := by
        intro j
        rw [n1, nodeAt_set _ _ _ _ hi]
      refine ⟨by rw [r1, hwl], ?_, ?_, r4, by rw [r5, n2], ?_, ?_, ?_⟩
      · intro j
        show nodeAt (tickLoop now rnd fuel (i + 1) w.1).1.nodes j = _
        rw [r2 j, hexp, hwl, hwn j]
        by_cases hji : j = i
        · subst hji
          have h1 : ¬ (j + 1 ≤ j ∧ j < v.nodes.length ∧ expired v now
              (if j = j then { nodeAt v.nodes j with boot := (0, 0) } else nodeAt v.nodes j)) := by
            rintro ⟨h, -⟩; omega
          rw [if_neg h1, if_pos rfl, if_pos ⟨Nat.le_refl _, hi, hex⟩]
        · simp only [hji, if_false]
          have : (i + 1 ≤ j) = (i ≤ j) := by
            apply propext
            omega
          simp only [this]
      · show w.2 ++ (tickLoop now rnd fuel (i + 1) w.1).2 = _
        rw [hhook, r3, List.range'_succ, List.filter_cons, if_pos hex, List.map_cons]
        rw [List.singleton_append]
        congr 2
        apply List.filter_congr
        intro j hj
        rw [List.mem_range'_1] at hj
        have hji : ¬ j = i := by omega
        rw [hexp, hwn j, if_neg hji]
      · intro hh
        apply r6
        rw [← hw]
        exact honest_onChanged v i (0, 0) _ .died rnd hi hcl hh
      · intro hf hal
        refine r7 ?_ hal
        rw [← hw]
        refine fine_onChanged v i (0, 0) _ .died rnd hi hcl hf ?_
        rw [hw]
        obtain ⟨j, hj⟩ := hal
        refine ⟨j, ?_⟩
        intro hc
        apply hj
        show (nodeAt (tickLoop now rnd fuel (i + 1) w.1).1.nodes j).boot = (0, 0)
        rw [r2 j]
        split
        · rfl
        · exact hc
      · intro hall
        have h0 := hall i
        have : expired v now (nodeAt v.nodes i) = false := by
          have hd : (nodeAt v.nodes i).dead = true := by
            simp only [Node.dead, decide_eq_true_eq]
            exact h0
          simp [expired, hd]
        rw [this] at hex
        exact absurd hex (by simp)
    next hex =>
      obtain ⟨r1, r2, r3, r4, r5, r6, r7, r8⟩ := ih (i + 1) v hm (by omega)
      refine ⟨r1, ?_, ?_, r4, r5, r6, r7, r8⟩
      · intro j
        rw [r2 j]
        by_cases hji : j = i
        · subst hji
          have h1 : ¬ (j + 1 ≤ j ∧ j < v.nodes.length ∧ expired v now (nodeAt v.nodes j)) := by
            rintro ⟨h, -⟩; omega
          have h2 : ¬ (j ≤ j ∧ j < v.nodes.length ∧ expired v now (nodeAt v.nodes j)) := by
            rintro ⟨-, -, h⟩
            exact hex h
          rw [if_neg h1, if_neg h2]
        · have : (i + 1 ≤ j) = (i ≤ j) := by
            apply propext
            omega
          simp only [this]
      · rw [r3, List.range'_succ, List.filter_cons, if_neg hex]

theorem subMs_eq (a b : Time) (ha : a.2 < 1000000) (hb : b.2 < 1000000) :
    subMs a b = (((a.1 : Int) - b.1) * 1000000 + ((a.2 : Int) - b.2)).tdiv 1000 := by
  have key : ∀ (s u : Int), (0 ≤ u → 0 ≤ s → (s * 1000000 + u).tdiv 1000 = s * 1000 + u.tdiv 1000) ∧
      (u ≤ 0 → s ≤ 0 → (s * 1000000 + u).tdiv 1000 = s * 1000 + u.tdiv 1000) := by
    intro s u
    refine ⟨fun hu hs => ?_, fun hu hs => ?_⟩
    · rw [Int.tdiv_eq_ediv_of_nonneg (by omega), Int.tdiv_eq_ediv_of_nonneg hu]
      omega
    · have e1 : s * 1000000 + u = -((-s) * 1000000 + (-u)) := by omega
      have e2 : u = -(-u) := by omega
      rw [e1, Int.neg_tdiv, Int.tdiv_eq_ediv_of_nonneg (by omega)]
      conv_rhs => rw [e2, Int.neg_tdiv, Int.tdiv_eq_ediv_of_nonneg (by omega)]
      omega
  simp only [subMs]
  by_cases h1 : (a.2 : Int) - b.2 < 0
  · simp only [h1, if_true]
    by_cases h2 : (a.1 : Int) - 1 - b.1 < 0
    · simp only [h2, if_true]
      rw [← (key _ _).2 (by omega) (by omega)]
      congr 1
      omega
    · simp only [h2, if_false]
      rw [← (key _ _).1 (by omega) (by omega)]
      congr 1
      omega
  · simp only [h1, if_false]
    by_cases h2 : (a.1 : Int) - b.1 < 0
    · simp only [h2, if_true]
      rw [← (key _ _).2 (by omega) (by omega)]
      congr 1
      omega
    · simp only [h2, if_false]
      rw [← (key _ _).1 (by omega) (by omega)]

/-! ### Heartbeats -/

theorem findIdx_some {l : List Node} {id i : Nat}
    (h : l.findIdx? (fun n => n.id = id) = some i) : i < l.length ∧ (nodeAt l i).id = id := by
  obtain ⟨h1, h2, -⟩ := List.findIdx?_eq_some_iff_getElem.mp h
  refine ⟨h1, ?_⟩
  simp only [decide_eq_true_eq] at h2
  simp only [nodeAt, List.getD_eq_getElem?_getD, List.getElem?_eq_getElem h1, Option.getD_some]
  exact h2

/-- Node `i` heard at `now`. -/
def stamped (w : View) (i : Nat) (now : Time) : View :=
  { w with nodes := setNode w.nodes i { nodeAt w.nodes i with last := now } }

theorem stamped_boots (w : View) (i : Nat) (now : Time) (hi : i < w.nodes.length) :
    boots (stamped w i now) = boots w := by
  funext j
  simp only [boots, stamped, nodeAt_set _ _ _ _ hi]
  split
  next h => rw [h]
  · rfl

/-- The payload of node `i` replaced. -/
def loaded (v : View) (i : Nat) (payload : Bytes) : View :=
  { v with nodes := setNode v.nodes i { nodeAt v.nodes i with payload := payload } }

theorem loaded_boots (v : View) (i : Nat) (p : Bytes) (hi : i < v.nodes.length) :
    boots (loaded v i p) = boots v := by
  funext j
  simp only [boots, loaded, nodeAt_set _ _ _ _ hi]
  split
  next h => rw [h]
  · rfl

theorem receive_known (v : View) (id : Nat) (boot : Time) (seq : Nat) (payload : Bytes) (now : Time)
    (rnd i : Nat) (h : v.nodes.findIdx? (fun n => n.id = id) = some i) :
    receive v id boot seq payload now rnd =
      if (nodeAt v.nodes i).boot ≠ boot ∨ seq ≠ (nodeAt v.nodes i).seq ∨
          payload ≠ (nodeAt v.nodes i).payload then
        (stamped (onChanged (loaded v i payload) i boot seq
          (if (nodeAt v.nodes i).boot ≠ boot then .rebooted
            else .changed (decide (seq ≠ (nodeAt v.nodes i).seq))
              (decide (payload ≠ (nodeAt v.nodes i).payload))) rnd).1 i now,
         (onChanged (loaded v i payload) i boot seq
          (if (nodeAt v.nodes i).boot ≠ boot then .rebooted
            else .changed (decide (seq ≠ (nodeAt v.nodes i).seq))
              (decide (payload ≠ (nodeAt v.nodes i).payload))) rnd).2)
      else (stamped v i now, []) := by
  simp only [receive, h, stamped, loaded, decide_eq_true_eq]

theorem receive_keeps (v : View) (id : Nat) (boot : Time) (seq : Nat) (payload : Bytes) (now : Time)
    (rnd : Nat) (hcl : ¬ (id ≠ v.me ∧ boot = v.myBoot)) (hm : 0 < v.myBoot.1) :
    0 < (receive v id boot seq payload now rnd).1.myBoot.1 ∧
    (Honest v → Honest (receive v id boot seq payload now rnd).1) ∧
    (Fine v → boot ≠ (0, 0) → Fine (receive v id boot seq payload now rnd).1) := by
  cases h : v.nodes.findIdx? (fun n => n.id = id) with
  | none =>
    have : receive v id boot seq payload now rnd = (v, []) := by
      simp only [receive, h]
    rw [this]
    exact ⟨hm, fun h => h, fun h _ => h⟩
  | some i =>
    obtain ⟨hi, hid⟩ := findIdx_some h
    rw [receive_known v id boot seq payload now rnd i h]
    split
    next hch =>
      have hlb := loaded_boots v i payload hi
      have hli : i < (loaded v i payload).nodes.length := by
        show i < (setNode _ _ _).length
        rw [setNode_length]
        exact hi
      have hcl' : ¬ ((nodeAt (loaded v i payload).nodes i).id ≠ (loaded v i payload).me ∧
          boot = (loaded v i payload).myBoot) := by
        have : (nodeAt (loaded v i payload).nodes i).id = id := by
          simp only [loaded, nodeAt_set _ _ _ _ hi, if_true]
          exact hid
        rw [this]
        exact hcl
      generalize (if (nodeAt v.nodes i).boot ≠ boot then Change.rebooted
            else .changed (decide (seq ≠ (nodeAt v.nodes i).seq))
              (decide (payload ≠ (nodeAt v.nodes i).payload))) = ch
      obtain ⟨n1, n2, n3, n4, n5⟩ := nodes_onChanged (loaded v i payload) i boot seq ch rnd
      have hwi : i < (onChanged (loaded v i payload) i boot seq ch rnd).1.nodes.length := by
        rw [n1, setNode_length]
        exact hli
      have hsb := stamped_boots _ i now hwi
      refine ⟨?_, ?_, ?_⟩
      · show 0 < (onChanged (loaded v i payload) i boot seq ch rnd).1.myBoot.1
        rw [n5]
        exact hm
      · intro hh
        have h1 : Honest (loaded v i payload) := (honest_congr (v := loaded v i payload) (w := v) rfl hlb).mpr hh
        exact (honest_congr (v := stamped _ i now)
          (w := (onChanged (loaded v i payload) i boot seq ch rnd).1) rfl hsb).mpr
          (honest_onChanged _ i boot seq ch rnd hli hcl' h1)
      · intro hf hne
        have h1 : Fine (loaded v i payload) := (fine_congr (v := loaded v i payload) (w := v) rfl hlb).mpr hf
        refine (fine_congr (v := stamped _ i now)
          (w := (onChanged (loaded v i payload) i boot seq ch rnd).1) rfl hsb).mpr ?_
        refine fine_onChanged _ i boot seq ch rnd hli hcl' h1 ⟨i, ?_⟩
        rw [boots_onChanged _ i boot seq ch rnd hli]
        simpa using hne
    next hch =>
      have hsb := stamped_boots v i now hi
      refine ⟨hm, ?_, ?_⟩
      · intro hh
        exact (honest_congr (v := stamped v i now) (w := v) rfl hsb).mpr hh
      · intro hf _
        exact (fine_congr (v := stamped v i now) (w := v) rfl hsb).mpr hf

/-! ### The oldest node -/

theorem run_append (v : View) (a b : List Ev) : run v (a ++ b) = run (run v a) b := by
  simp [run]

theorem run_snoc (v : View) (a : List Ev) (e : Ev) : run v (a ++ [e]) = (e.on (run v a)).1 := by
  simp [run]

theorem on_keeps (v : View) (e : Ev) (hcl : ¬ e.clash v) (hm : 0 < v.myBoot.1) :
    0 < (e.on v).1.myBoot.1 ∧ (Honest v → Honest (e.on v).1) := by
  cases e with
  | msg id boot seq payload now rnd =>
    obtain ⟨h1, h2, -⟩ := receive_keeps v id boot seq payload now rnd hcl hm
    exact ⟨h1, h2⟩
  | tick now rnd =>
    obtain ⟨-, -, -, h4, -, h6, -, -⟩ := tickLoop_nodes now rnd v.nodes.length 0 v hm (by omega)
    exact ⟨h4, h6⟩

theorem on_fine (v : View) (e : Ev) (hcl : ¬ e.clash v) (hm : 0 < v.myBoot.1)
    (hboot : ∀ id boot seq p now rnd, e = .msg id boot seq p now rnd → boot ≠ (0, 0))
    (hal : SomeAlive v → SomeAlive (e.on v).1) (hf : Fine v) : Fine (e.on v).1 := by
  cases e with
  | msg id boot seq payload now rnd =>
    obtain ⟨-, -, h3⟩ := receive_keeps v id boot seq payload now rnd hcl hm
    exact h3 hf (hboot _ _ _ _ _ _ rfl)
  | tick now rnd =>
    obtain ⟨-, -, -, -, -, -, h7, h8⟩ := tickLoop_nodes now rnd v.nodes.length 0 v hm (by omega)
    by_cases hs : SomeAlive v
    · exact h7 hf (hal hs)
    · have hall : ∀ j, boots v j = (0, 0) := by
        intro j
        by_cases hj : boots v j = (0, 0)
        · exact hj
        · exact absurd ⟨j, hj⟩ hs
      show Fine (tickLoop now rnd v.nodes.length 0 v).1
      rw [h8 hall]
      exact hf

/-- C72: after any heartbeats and any silence, in any order, a node reported as
the oldest one and alive is really the oldest: it is alive and no live node
booted before it.  (No other node may announce the boot time of this node; see
`C72_clash_violated`.) -/
theorem C72_oldest_is_oldest_partial (v : View) (evs : List Ev) (hv : Fresh v)
    (hclash : ∀ p e q, evs = p ++ e :: q → ¬ e.clash (run v p))
    (o : Nat) (ho : (run v evs).oldest = some o) (ha : boots (run v evs) o ≠ (0, 0)) :
    Oldest (boots (run v evs)) o := by
  have main : ∀ n p, p.length = n → (∃ q, evs = p ++ q) →
      0 < (run v p).myBoot.1 ∧ Honest (run v p) := by
    intro n
    induction n with
    | zero =>
      intro p hp _
      have : p = [] := List.length_eq_zero_iff.mp hp
      subst this
      exact ⟨hv.2.2, fun _ => hv.2.1, fun o ho => absurd (hv.1.symm.trans ho) (by simp)⟩
    | succ n ih =>
      intro p hp hq
      obtain ⟨q, hq⟩ := hq
      obtain ⟨p', e, rfl⟩ : ∃ p' e, p = p' ++ [e] := by
        have hne : p ≠ [] := by intro h; rw [h] at hp; exact absurd hp (by simp)
        exact ⟨p.dropLast, p.getLast hne, (List.dropLast_concat_getLast hne).symm⟩
      have hq' : evs = p' ++ e :: q := by rw [hq]; simp
      obtain ⟨i1, i2⟩ := ih p' (by simpa using hp) ⟨e :: q, hq'⟩
      obtain ⟨k1, k2⟩ := on_keeps (run v p') e (hclash p' e q hq') i1
      rw [run_snoc]
      exact ⟨k1, k2 i2⟩
  exact (main _ evs rfl ⟨[], by simp⟩).2.2 o ho ha

/-- C72: after any heartbeats and any silence, the oldest live node is reported,
as long as the node never lost contact to all nodes (itself included) at once.
The claim without this condition is false, see `C72_dead_oldest_violated`. -/
theorem C72_oldest_known_partial (v : View) (evs : List Ev) (hv : Fresh v)
    (hclash : ∀ p e q, evs = p ++ e :: q → ¬ e.clash (run v p))
    (hboot : ∀ id boot seq p now rnd, Ev.msg id boot seq p now rnd ∈ evs → boot ≠ (0, 0))
    (hlive : ∀ p e q, evs = p ++ e :: q → SomeAlive (run v p) → SomeAlive (run v (p ++ [e])))
    (hsome : SomeAlive (run v evs)) :
    ∃ o, (run v evs).oldest = some o ∧ Oldest (boots (run v evs)) o := by
  have main : ∀ n p, p.length = n → (∃ q, evs = p ++ q) →
      0 < (run v p).myBoot.1 ∧ Fine (run v p) := by
    intro n
    induction n with
    | zero =>
      intro p hp _
      have : p = [] := List.length_eq_zero_iff.mp hp
      subst this
      exact ⟨hv.2.2, .inl ⟨hv.1, hv.2.1⟩⟩
    | succ n ih =>
      intro p hp hq
      obtain ⟨q, hq⟩ := hq
      obtain ⟨p', e, rfl⟩ : ∃ p' e, p = p' ++ [e] := by
        have hne : p ≠ [] := by intro h; rw [h] at hp; exact absurd hp (by simp)
        exact ⟨p.dropLast, p.getLast hne, (List.dropLast_concat_getLast hne).symm⟩
      have hq' : evs = p' ++ e :: q := by rw [hq]; simp
      obtain ⟨i1, i2⟩ := ih p' (by simpa using hp) ⟨e :: q, hq'⟩
      obtain ⟨k1, -⟩ := on_keeps (run v p') e (hclash p' e q hq') i1
      have h3 := hlive p' e q hq'
      rw [run_snoc] at h3 ⊢
      refine ⟨k1, on_fine (run v p') e (hclash p' e q hq') i1 ?_ h3 i2⟩
      intro id boot seq p now rnd he
      subst he
      exact hboot id boot seq p now rnd (by rw [hq']; simp)
  rcases (main _ evs rfl ⟨[], by simp⟩).2 with ⟨-, hall⟩ | h
  · obtain ⟨j, hj⟩ := hsome
    exact absurd (hall j) hj
  · exact h

/-- C72: live nodes which see the same nodes with the same, different boot times
agree on the oldest one, and exactly one of them takes itself for it. -/
theorem C72_one_oldest (views : Nat → View) (b : Nat → Time) (ids : Nat → Nat)
    (hids : ∀ i j, b i ≠ (0, 0) → b j ≠ (0, 0) → ids i = ids j → i = j)
    (hme : ∀ i, b i ≠ (0, 0) → (views i).me = ids i)
    (hsame : ∀ i j, b i ≠ (0, 0) → b j ≠ (0, 0) → (nodeAt (views i).nodes j).id = ids j)
    (hdiff : ∀ i j, b i ≠ (0, 0) → b i = b j → i = j)
    (hold : ∀ i, b i ≠ (0, 0) →
      boots (views i) = b ∧ ∃ o, (views i).oldest = some o ∧ Oldest (boots (views i)) o)
    (hsome : ∃ i, b i ≠ (0, 0)) :
    ∃ o, b o ≠ (0, 0) ∧ ∀ i, b i ≠ (0, 0) →
      (views i).oldest = some o ∧ (amIOldest (views i) = true ↔ i = o) := by
  obtain ⟨i0, hi0⟩ := hsome
  obtain ⟨hb0, o, ho, hoo⟩ := hold i0 hi0
  rw [hb0] at hoo
  refine ⟨o, hoo.1, ?_⟩
  intro i hi
  obtain ⟨hbi, o', ho', hoo'⟩ := hold i hi
  rw [hbi] at hoo'
  have : o' = o := by
    apply hdiff o' o hoo'.1
    exact earlier_total (hoo.2 o' hoo'.1) (hoo'.2 o hoo.1)
  subst this
  refine ⟨ho', ?_⟩
  simp only [amIOldest, ho', decide_eq_true_eq, hme i hi, hsame i o' hi hoo.1]
  exact ⟨fun h => (hids _ _ hoo.1 hi h).symm, fun h => by rw [h]⟩

/-! ### Death and change -/

/-- C72: the check declares exactly those nodes dead that were alive, have not
been heard of for more than the timeout and booted longer ago than the maturity
(in whole milliseconds); nothing else changes, and the hook is told of each of
them once, in order. -/
theorem C72_silence (v : View) (now : Time) (rnd : Nat) (hm : 0 < v.myBoot.1) :
    (∀ j, nodeAt (tick v now rnd).1.nodes j =
      if boots v j ≠ (0, 0) ∧ v.timeout < subMs now (nodeAt v.nodes j).last ∧
          0 < (boots v j).1 ∧ v.maturity < subMs now (boots v j) then
        { nodeAt v.nodes j with boot := (0, 0) } else nodeAt v.nodes j) ∧
    (tick v now rnd).2 =
      ((List.range v.nodes.length).filter (fun j =>
        decide (boots v j ≠ (0, 0) ∧ v.timeout < subMs now (nodeAt v.nodes j).last ∧
          0 < (boots v j).1 ∧ v.maturity < subMs now (boots v j)))).map
        (fun j => (j, Change.died)) := by
  obtain ⟨-, h2, h3, -, -, -, -, -⟩ := tickLoop_nodes now rnd v.nodes.length 0 v hm (by omega)
  have hex : ∀ j, expired v now (nodeAt v.nodes j) =
      decide (boots v j ≠ (0, 0) ∧ v.timeout < subMs now (nodeAt v.nodes j).last ∧
          0 < (boots v j).1 ∧ v.maturity < subMs now (boots v j)) := by
    intro j
    simp only [expired, Node.dead, boots]
    by_cases h1 : v.timeout < subMs now (nodeAt v.nodes j).last <;>
      by_cases h2 : (nodeAt v.nodes j).boot = (0, 0) <;> simp [h1, h2]
  refine ⟨?_, ?_⟩
  · intro j
    rw [tick, h2 j]
    simp only [hex, decide_eq_true_eq]
    by_cases hj : j < v.nodes.length
    · simp only [Nat.zero_le, hj, true_and]
    · have h0 : boots v j = (0, 0) := nodeAt_none _ _ (by omega)
      have c1 : ¬ (0 ≤ j ∧ j < v.nodes.length ∧ boots v j ≠ (0, 0) ∧
          v.timeout < subMs now (nodeAt v.nodes j).last ∧
          0 < (boots v j).1 ∧ v.maturity < subMs now (boots v j)) := by
        rintro ⟨-, h, -⟩
        exact hj h
      have c2 : ¬ (boots v j ≠ (0, 0) ∧ v.timeout < subMs now (nodeAt v.nodes j).last ∧
          0 < (boots v j).1 ∧ v.maturity < subMs now (boots v j)) := by
        rintro ⟨h, -⟩
        exact h h0
      rw [if_neg c1, if_neg c2]
  · rw [tick, h3, List.range_eq_range']
    congr 1
    apply List.filter_congr
    intro j _
    exact hex j

/-- C72: the differences of times used by the check are the true ones, in
milliseconds, rounded towards zero. -/
theorem C72_milliseconds (a b : Time) (ha : a.2 < 1000000) (hb : b.2 < 1000000) :
    subMs a b = (((a.1 * 1000000 + a.2 : Nat) : Int) - ((b.1 * 1000000 + b.2 : Nat) : Int)).tdiv 1000 := by
  rw [subMs_eq a b ha hb]
  congr 1
  push_cast
  omega

/-- C72: the heartbeat of a known node is believed: afterwards its boot time,
configuration number, payload and time of last contact are those of the message,
and the other nodes are as before. -/
theorem C72_learns (v : View) (id : Nat) (boot : Time) (seq : Nat) (payload : Bytes) (now : Time)
    (rnd i : Nat) (h : v.nodes.findIdx? (fun n => n.id = id) = some i) :
    (∀ j, nodeAt (receive v id boot seq payload now rnd).1.nodes j =
      if j = i then ⟨id, boot, seq, payload, now⟩ else nodeAt v.nodes j) := by
  obtain ⟨hi, hid⟩ := findIdx_some h
  rw [receive_known v id boot seq payload now rnd i h]
  split
  next hch =>
    generalize (if (nodeAt v.nodes i).boot ≠ boot then Change.rebooted
        else .changed (decide (seq ≠ (nodeAt v.nodes i).seq))
          (decide (payload ≠ (nodeAt v.nodes i).payload))) = ch
    obtain ⟨n1, -, -, -, -⟩ := nodes_onChanged (loaded v i payload) i boot seq ch rnd
    have hli : i < (loaded v i payload).nodes.length := by
      show i < (setNode _ _ _).length
      rw [setNode_length]
      exact hi
    intro j
    have hwi : i < (onChanged (loaded v i payload) i boot seq ch rnd).1.nodes.length := by
      rw [n1, setNode_length]
      exact hli
    rw [stamped, nodeAt_set _ _ _ _ hwi, n1, nodeAt_set _ _ _ _ hli, nodeAt_set _ _ _ _ hli, loaded,
      nodeAt_set _ _ _ _ hi, nodeAt_set _ _ _ _ hi]
    by_cases hji : j = i
    · simp only [hji, if_true, hid]
    · simp only [hji, if_false]
  next hch =>
    rw [not_or, not_or] at hch
    intro j
    simp only [stamped, nodeAt_set _ _ _ _ hi]
    split
    · have e1 : (nodeAt v.nodes i).boot = boot := Classical.not_not.mp hch.1
      have e2 : seq = (nodeAt v.nodes i).seq := Classical.not_not.mp hch.2.1
      have e3 : payload = (nodeAt v.nodes i).payload := Classical.not_not.mp hch.2.2
      rw [e1, ← e2, ← e3, hid]
    · rfl

/-- C72: the hook is told of a heartbeat exactly when it brings news, with the
right reason: a different boot time, or else a different configuration number or
payload.  Nothing is told when the boot time is the own one of another node. -/
theorem C72_told (v : View) (id : Nat) (boot : Time) (seq : Nat) (payload : Bytes) (now : Time)
    (rnd i : Nat) (h : v.nodes.findIdx? (fun n => n.id = id) = some i)
    (hcl : ¬ (id ≠ v.me ∧ boot = v.myBoot)) :
    (receive v id boot seq payload now rnd).2 =
      if boots v i ≠ boot then [(i, .rebooted)]
      else if seq ≠ (nodeAt v.nodes i).seq ∨ payload ≠ (nodeAt v.nodes i).payload then
        [(i, .changed (decide (seq ≠ (nodeAt v.nodes i).seq))
          (decide (payload ≠ (nodeAt v.nodes i).payload)))]
      else [] := by
  obtain ⟨hi, hid⟩ := findIdx_some h
  have hcl' : ¬ ((nodeAt (loaded v i payload).nodes i).id ≠ (loaded v i payload).me ∧
      boot = (loaded v i payload).myBoot) := by
    have : (nodeAt (loaded v i payload).nodes i).id = id := by
      simp only [loaded, nodeAt_set _ _ _ _ hi, if_true]
      exact hid
    rw [this]
    exact hcl
  have hook : ∀ ch, (onChanged (loaded v i payload) i boot seq ch rnd).2 = [(i, ch)] := by
    intro ch
    simp only [onChanged, if_neg hcl']
    split
    · rfl
    · split
      · rfl
      · split <;> rfl
  rw [receive_known v id boot seq payload now rnd i h]
  by_cases h1 : (nodeAt v.nodes i).boot = boot
  · have h1' : boots v i = boot := h1
    by_cases h2 : seq ≠ (nodeAt v.nodes i).seq ∨ payload ≠ (nodeAt v.nodes i).payload
    · rw [if_pos (Or.inr h2)]
      show (onChanged _ _ _ _ _ _).2 = _
      rw [hook]
      simp only [h1, h1', ne_eq, not_true_eq_false, if_false]
      simp only [ne_eq] at h2
      rw [if_pos h2]
    · rw [if_neg (by rw [not_or]; exact ⟨by simp [h1], h2⟩), if_neg (by rw [h1']; simp), if_neg h2]
  · have h1' : boots v i ≠ boot := h1
    rw [if_pos (Or.inl h1), if_pos h1']
    show (onChanged _ _ _ _ _ _).2 = _
    rw [hook]
    simp only [ne_eq, h1, not_false_eq_true, if_true]

/-- C72: heartbeats of unknown nodes change nothing. -/
theorem C72_unknown (v : View) (id : Nat) (boot : Time) (seq : Nat) (payload : Bytes) (now : Time)
    (rnd : Nat) (h : ∀ n ∈ v.nodes, n.id ≠ id) :
    receive v id boot seq payload now rnd = (v, []) := by
  have : v.nodes.findIdx? (fun n => n.id = id) = none := by
    rw [List.findIdx?_eq_none_iff]
    intro n hn
    simp [h n hn]
  simp only [receive, this]

/-! ### What is wrong -/

/-- A cluster of two nodes just configured, seen by the first. -/
def pair : View :=
  { nodes := [⟨0, (0, 0), 0, [], (0, 0)⟩, ⟨1, (0, 0), 0, [], (0, 0)⟩], oldest := none, me := 0
    myBoot := (100, 0), timeout := 5000, maturity := 5000 }

/-- A heartbeat of node 0. -/
def Ev.fromZero : Ev → Prop
  | .msg id boot _ _ _ _ => id = 0 ∧ boot ≠ (0, 0)
  | .tick _ _ => False

theorem zero_step (v : View) (n0 n1 : Node) (e : Ev) (hn : v.nodes = [n0, n1]) (h0 : n0.id = 0)
    (h1 : n1.boot = (0, 0)) (ho : v.oldest = some 1) (hm : v.me = 0) (he : e.fromZero) :
    ∃ m0, (e.on v).1.nodes = [m0, n1] ∧ m0.id = 0 ∧ m0.boot ≠ (0, 0) ∧
      (e.on v).1.oldest = some 1 ∧ (e.on v).1.me = 0 := by
  cases e with
  | tick _ _ => exact absurd he id
  | msg id boot seq payload now rnd =>
    obtain ⟨rfl, hb⟩ := he
    have hf : v.nodes.findIdx? (fun n => n.id = 0) = some 0 := by
      rw [hn]
      simp [List.findIdx?_cons, h0]
    have hz : nodeAt v.nodes 0 = n0 := by rw [hn]; rfl
    have hcl : ¬ ((nodeAt (loaded v 0 payload).nodes 0).id ≠ (loaded v 0 payload).me ∧
        boot = (loaded v 0 payload).myBoot) := by
      rintro ⟨hc, -⟩
      apply hc
      rw [loaded]
      simp only [setNode, hn, nodeAt, List.set_cons_zero, List.getD_cons_zero]
      rw [h0, hm]
    show ∃ m0, (receive v 0 boot seq payload now rnd).1.nodes = [m0, n1] ∧ m0.id = 0 ∧
      m0.boot ≠ (0, 0) ∧ (receive v 0 boot seq payload now rnd).1.oldest = some 1 ∧
      (receive v 0 boot seq payload now rnd).1.me = 0
    rw [receive_known v 0 boot seq payload now rnd 0 hf]
    split
    next hch =>
      generalize (if (nodeAt v.nodes 0).boot ≠ boot then Change.rebooted
          else .changed (decide (seq ≠ (nodeAt v.nodes 0).seq))
            (decide (payload ≠ (nodeAt v.nodes 0).payload))) = ch
      obtain ⟨m1, m2, -, -, -⟩ := nodes_onChanged (loaded v 0 payload) 0 boot seq ch rnd
      have hln : (loaded v 0 payload).nodes = [{ n0 with payload := payload }, n1] := by
        simp only [loaded, setNode, hn, List.set_cons_zero]
        rfl
      have hli : 0 < (loaded v 0 payload).nodes.length := by rw [hln]; simp
      refine ⟨{ n0 with payload := payload, boot := boot, seq := seq, last := now }, ?_, h0, hb, ?_, ?_⟩
      · simp only [stamped, m1, hln, setNode, List.set_cons_zero]
        rfl
      · show (onChanged (loaded v 0 payload) 0 boot seq ch rnd).1.oldest = some 1
        have hlo : (loaded v 0 payload).oldest = some 1 := ho
        have hb1 : boots (loaded v 0 payload) 1 = (0, 0) := by
          simp only [boots, hln]
          exact h1
        rcases oldest_onChanged (loaded v 0 payload) 0 boot seq ch rnd hli hcl with ⟨-, h | h⟩ |
            ⟨-, h, -⟩ | ⟨-, o, -, h, h', -⟩ | ⟨-, o, -, h, -, h'⟩
        · exact absurd h hb
        · rw [hlo] at h
          exact absurd h (by simp)
        · rw [hlo] at h
          exact absurd h (by simp)
        · rw [hlo] at h
          injection h with h
          rw [← h, hb1, earlier_zero] at h'
          exact absurd h' (by simp)
        · rw [h', ← h]
          exact hlo
      · show (onChanged (loaded v 0 payload) 0 boot seq ch rnd).1.me = 0
        rw [m2]
        exact hm
    next hch =>
      rw [not_or, not_or] at hch
      have e1 : n0.boot = boot := by
        have := Classical.not_not.mp hch.1
        rwa [hz] at this
      refine ⟨{ n0 with last := now }, ?_, h0, by rw [← e1] at hb; exact hb, ho, hm⟩
      simp only [stamped, hn, setNode, List.set_cons_zero]
      rfl

/-- C72: a node that missed the heartbeats of everybody (here: its own process
was stopped for some seconds while no other node was up) takes the last node of
the list for the oldest although it is dead, and stays with it however many
heartbeats it hears from the live node: itself. -/
theorem C72_dead_oldest_violated :
    ∃ (v : View) (evs : List Ev), Fresh v ∧ (∀ p e q, evs = p ++ e :: q → ¬ e.clash (run v p)) ∧
      ∀ more : List Ev, more ≠ [] → (∀ e ∈ more, e.fromZero) →
        (run v (evs ++ more)).oldest = some 1 ∧ boots (run v (evs ++ more)) 1 = (0, 0) ∧
        boots (run v (evs ++ more)) 0 ≠ (0, 0) ∧ amIOldest (run v (evs ++ more)) = false := by
  refine ⟨pair, [.msg 0 (100, 0) 1 [] (200, 0) 0, .tick (300, 0) 0], ?_, ?_, ?_⟩
  · refine ⟨rfl, ?_, by decide⟩
    intro j
    rcases j with _ | _ | j <;> rfl
  · intro p e q hpq
    rcases p with _ | ⟨a, _ | ⟨b, p⟩⟩
    · simp only [List.nil_append, List.cons.injEq] at hpq
      rw [← hpq.1]
      simp [Ev.clash, run, pair]
    · simp only [List.cons_append, List.nil_append, List.cons.injEq] at hpq
      rw [← hpq.2.1]
      simp [Ev.clash]
    · simp at hpq
  · intro more hne hall
    have main : ∀ more : List Ev, (∀ e ∈ more, e.fromZero) → ∀ (v : View) (n0 n1 : Node),
        v.nodes = [n0, n1] → n0.id = 0 → n1.boot = (0, 0) → n1.id = 1 → v.oldest = some 1 → v.me = 0 →
        (n0.boot ≠ (0, 0) ∨ more ≠ []) →
        (run v more).oldest = some 1 ∧ boots (run v more) 1 = (0, 0) ∧
        boots (run v more) 0 ≠ (0, 0) ∧ amIOldest (run v more) = false := by
      intro more
      induction more with
      | nil =>
        intro _ v n0 n1 hn h0 h1 h1' ho hm hb
        have hb : n0.boot ≠ (0, 0) := by
          rcases hb with hb | hb
          · exact hb
          · exact absurd rfl hb
        show v.oldest = some 1 ∧ boots v 1 = (0, 0) ∧ boots v 0 ≠ (0, 0) ∧ amIOldest v = false
        refine ⟨ho, by simp only [boots, hn]; exact h1, by simp only [boots, hn]; exact hb, ?_⟩
        simp only [amIOldest, ho, hm, hn]
        show decide (n1.id = 0) = false
        rw [h1']
        rfl
      | cons e more ih =>
        intro hall v n0 n1 hn h0 h1 h1' ho hm _
        obtain ⟨m0, k1, k2, k3, k4, k5⟩ := zero_step v n0 n1 e hn h0 h1 ho hm (hall e (by simp))
        exact ih (fun x hx => hall x (by simp [hx])) (e.on v).1 m0 n1 k1 k2 h1 h1' k4 k5 (.inl k3)
    rw [run_append]
    refine main more hall _ ⟨0, (0, 0), 1, [], (200, 0)⟩ ⟨1, (0, 0), 0, [], (0, 0)⟩ ?_ rfl rfl rfl
      ?_ ?_ (.inr hne) <;> decide +kernel

/-- A cluster of three nodes just configured, seen by the first. -/
def trio : View :=
  { pair with nodes := pair.nodes ++ [⟨2, (0, 0), 0, [], (0, 0)⟩] }

/-- C72: when a node reboots with exactly the boot time of this node, the note
of the oldest node is not brought up to date: node 1 is still taken for the
oldest although node 2 booted before it, and no further heartbeat of theirs
changes this. -/
theorem C72_clash_violated :
    ∃ (v : View) (evs : List Ev), Fresh v ∧ (run v evs).oldest = some 1 ∧
      boots (run v evs) 1 = (100, 0) ∧ boots (run v evs) 2 = (95, 0) := by
  refine ⟨trio,
    [.msg 0 (100, 0) 1 [] (200, 0) 0, .msg 1 (90, 0) 1 [] (200, 0) 0, .msg 2 (95, 0) 1 [] (200, 0) 0,
     .msg 1 (100, 0) 1 [] (201, 0) 7, .msg 0 (100, 7) 1 [] (201, 0) 0, .msg 1 (100, 0) 1 [] (202, 0) 7,
     .msg 2 (95, 0) 1 [] (202, 0) 0], ?_, ?_⟩
  · refine ⟨rfl, ?_, by decide⟩
    intro j
    rcases j with _ | _ | _ | j <;> rfl
  · refine ⟨?_, ?_, ?_⟩ <;> decide +kernel

/-! ### Examples -/

/-- Two nodes come, the older one falls silent: the younger becomes the oldest,
and the older one again after its return with a new boot time. -/
example :
    (run pair [.msg 0 (100, 0) 1 [] (200, 0) 0, .msg 1 (50, 0) 1 [] (200, 0) 0]).oldest = some 1 ∧
    (run pair [.msg 0 (100, 0) 1 [] (200, 0) 0, .msg 1 (50, 0) 1 [] (200, 0) 0,
      .msg 0 (100, 0) 1 [] (206, 0) 0, .tick (206, 0) 0]).oldest = some 0 ∧
    (run pair [.msg 0 (100, 0) 1 [] (200, 0) 0, .msg 1 (50, 0) 1 [] (200, 0) 0,
      .msg 0 (100, 0) 1 [] (206, 0) 0, .tick (206, 0) 0, .msg 1 (205, 0) 1 [] (207, 0) 0]).oldest
        = some 0 := by
  refine ⟨?_, ?_, ?_⟩ <;> decide +kernel

/-- The hypotheses of `C72_oldest_known_partial` are met by a run with a death. -/
example : Oldest (boots (run pair [.msg 0 (100, 0) 1 [] (200, 0) 0, .msg 1 (50, 0) 1 [] (200, 0) 0])) 1
    ∧ amIOldest (run pair [.msg 0 (100, 0) 1 [] (200, 0) 0, .msg 1 (50, 0) 1 [] (200, 0) 0]) = false := by
  refine ⟨⟨by decide +kernel, ?_⟩, by decide +kernel⟩
  intro j hj
  rcases j with _ | _ | j
  · decide +kernel
  · decide +kernel
  · exact absurd rfl hj

/-- Both nodes of a pair, having heard the same heartbeats: the hypotheses of
`C72_one_oldest` are met, and node 1 is the one. -/
example : ∃ o, boots (run pair [.msg 0 (100, 0) 1 [] (200, 0) 0, .msg 1 (50, 0) 1 [] (200, 0) 0]) o
      ≠ (0, 0) ∧ ∀ i, i < 2 →
      (run { pair with me := i, myBoot := if i = 0 then (100, 0) else (50, 0) }
        [.msg 0 (100, 0) 1 [] (200, 0) 0, .msg 1 (50, 0) 1 [] (200, 0) 0]).oldest = some o := by
  have hb : ∀ i, i < 2 → boots (run { pair with me := i, myBoot := if i = 0 then (100, 0) else (50, 0) }
        [.msg 0 (100, 0) 1 [] (200, 0) 0, .msg 1 (50, 0) 1 [] (200, 0) 0]) =
      boots (run pair [.msg 0 (100, 0) 1 [] (200, 0) 0, .msg 1 (50, 0) 1 [] (200, 0) 0]) := by
    intro i hi
    have : i = 0 ∨ i = 1 := by omega
    rcases this with rfl | rfl <;> funext j <;> rcases j with _ | _ | j <;> first | rfl | decide +kernel
  have hlt : ∀ i, boots (run pair [.msg 0 (100, 0) 1 [] (200, 0) 0,
      .msg 1 (50, 0) 1 [] (200, 0) 0]) i ≠ (0, 0) → i = 0 ∨ i = 1 := by
    intro i h
    rcases i with _ | _ | i
    · exact .inl rfl
    · exact .inr rfl
    · exact absurd rfl h
  have := C72_one_oldest
    (fun i => run { pair with me := i, myBoot := if i = 0 then (100, 0) else (50, 0) }
        [.msg 0 (100, 0) 1 [] (200, 0) 0, .msg 1 (50, 0) 1 [] (200, 0) 0])
    (boots (run pair [.msg 0 (100, 0) 1 [] (200, 0) 0, .msg 1 (50, 0) 1 [] (200, 0) 0])) id
    (fun i j _ _ h => h)
    (by intro i hi; rcases hlt i hi with rfl | rfl <;> decide +kernel)
    (by
      intro i j hi hj
      rcases hlt i hi with rfl | rfl <;> rcases hlt j hj with rfl | rfl <;> decide +kernel)
    (by
      intro i j hi h
      have hj := hi
      rw [h] at hj
      rcases hlt i hi with rfl | rfl <;> rcases hlt j hj with rfl | rfl <;>
        first | rfl | exact absurd h (by decide +kernel))
    (by
      intro i hi
      refine ⟨hb i (by rcases hlt i hi with rfl | rfl <;> decide), 1, ?_, ?_⟩
      · rcases hlt i hi with rfl | rfl <;> decide +kernel
      · rw [hb i (by rcases hlt i hi with rfl | rfl <;> decide)]
        refine ⟨by decide +kernel, ?_⟩
        intro j hj
        rcases hlt j hj with rfl | rfl <;> decide +kernel)
    ⟨0, by decide +kernel⟩
  obtain ⟨o, h1, h2⟩ := this
  refine ⟨o, h1, ?_⟩
  intro i hi
  have : i = 0 ∨ i = 1 := by omega
  rcases this with rfl | rfl
  · exact (h2 0 (by decide +kernel)).1
  · exact (h2 1 (by decide +kernel)).1

/-- Five seconds of silence exactly are not yet too long. -/
example : (tick (run pair [.msg 1 (50, 0) 1 [] (200, 0) 0]) (205, 0) 0).2 = [] ∧
    (tick (run pair [.msg 1 (50, 0) 1 [] (200, 0) 0]) (205, 1000) 0).2 = [(1, .died)] := by
  refine ⟨?_, ?_⟩ <;> decide +kernel

end Mtev.Cluster
