import Verif.Cluster

/-!
C71: payloads attached to heartbeats arrive at the other nodes.

The specification is the set of attached payloads (`Attached`: what a sequence
of set and unset calls leaves) and the promise of the header: asking for a
payload of a node gives its bytes, and -1 when there is none.
-/

namespace Mtev.Cluster

/-- The payloads attached after some calls of
`mtev_cluster_set_heartbeat_payload` (`uint8_t` arguments) and
`mtev_cluster_unset_heartbeat_payload`, in any order the hash table may give. -/
inductive Attached : List Payload → Prop where
  | none : Attached []
  | set {ps ps'} (p : Payload) : Attached ps → p.data.length < 256 → setPayload ps p = some ps' →
      Attached ps'
  | unset {ps} (app key : Nat) : Attached ps →
      Attached (ps.filter (fun q => !decide (q.app = app ∧ q.key = key)))
  | order {ps ps'} : Attached ps → ps.Perm ps' → Attached ps'

/-- The names (application and key) of the payloads. -/
def names (ps : List Payload) : List (Nat × Nat) := ps.map (fun p => (p.app, p.key))

theorem total_perm {a b : List Payload} (h : a.Perm b) : total a = total b :=
  (h.map _).sum_nat

theorem total_filter_le (f : Payload → Bool) (a : List Payload) : total (a.filter f) ≤ total a := by
  induction a with
  | nil => exact Nat.le_refl _
  | cons p t ih =>
    rw [List.filter_cons]
    split
    · rw [total_cons, total_cons]; omega
    · rw [total_cons]; omega

theorem names_replace (ps : List Payload) (p : Payload) :
    names (ps.map (fun q => if q.app = p.app ∧ q.key = p.key then p else q)) = names ps := by
  induction ps with
  | nil => rfl
  | cons q t ih =>
    simp only [names, List.map_cons, List.cons.injEq] at *
    refine ⟨?_, ih⟩
    split
    · next h => rw [h.1, h.2]
    · rfl

theorem total_replace (ps : List Payload) (p : Payload) (hn : (names ps).Nodup) :
    total (ps.map (fun q => if q.app = p.app ∧ q.key = p.key then p else q)) ≤
      total (ps.filter (fun q => !decide (q.app = p.app ∧ q.key = p.key))) + p.data.length := by
  induction ps with
  | nil => simp [total]
  | cons q t ih =>
    simp only [names, List.map_cons, List.nodup_cons] at hn
    have ih := ih hn.2
    by_cases h : q.app = p.app ∧ q.key = p.key
    · have ht : ∀ x ∈ t, ¬ (x.app = p.app ∧ x.key = p.key) := by
        intro x hx hc
        apply hn.1
        rw [List.mem_map]
        exact ⟨x, hx, by rw [hc.1, hc.2, h.1, h.2]⟩
      have e : t.map (fun q => if q.app = p.app ∧ q.key = p.key then p else q) = t := by
        conv_rhs => rw [← List.map_id t]
        apply List.map_congr_left
        intro x hx
        rw [if_neg (ht x hx)]
        rfl
      have e2 : t.filter (fun q => !decide (q.app = p.app ∧ q.key = p.key)) = t := by
        rw [List.filter_eq_self]
        intro x hx
        simp [ht x hx]
      rw [List.map_cons, if_pos h, total_cons, e, List.filter_cons]
      simp only [h, and_self, decide_true, Bool.not_true, Bool.false_eq_true, if_false, e2]
      omega
    · rw [List.map_cons, if_neg h, total_cons, List.filter_cons]
      simp only [h, decide_false, Bool.not_false, if_true, total_cons]
      omega

/-- Attached payloads have different names, short bodies and a limited sum. -/
theorem attached_ok {ps : List Payload} (h : Attached ps) :
    (names ps).Nodup ∧ (∀ p ∈ ps, p.data.length < 256) ∧ total ps ≤ 1512 := by
  induction h with
  | none => exact ⟨List.nodup_nil, by simp, by simp [total]⟩
  | @set ps ps' p _ hp hs ih =>
    obtain ⟨i1, i2, i3⟩ := ih
    simp only [setPayload] at hs
    split at hs
    · exact absurd hs (by simp)
    next hsum =>
      split at hs
      next hl =>
        injection hs with hs
        subst hs
        have hall : ∀ x ∈ ps, ¬ (x.app = p.app ∧ x.key = p.key) := by
          have := List.length_filter_eq_length_iff.mp hl
          intro x hx hc
          have := this x hx
          simp [hc] at this
        have hfil : ps.filter (fun q => !decide (q.app = p.app ∧ q.key = p.key)) = ps := by
          rw [List.filter_eq_self]
          intro x hx
          simp [hall x hx]
        rw [hfil] at hsum
        refine ⟨?_, ?_, ?_⟩
        · rw [names, List.map_append, List.nodup_append]
          refine ⟨i1, by simp, ?_⟩
          intro a ha b hb hab
          simp only [List.map_cons, List.map_nil, List.mem_singleton] at hb
          rw [List.mem_map] at ha
          obtain ⟨x, hx, rfl⟩ := ha
          rw [hb] at hab
          injection hab with h1 h2
          exact hall x hx ⟨h1, h2⟩
        · intro q hq
          rcases List.mem_append.mp hq with hq | hq
          · exact i2 q hq
          · simp only [List.mem_singleton] at hq
            subst hq
            exact hp
        · rw [total_append, total_cons]
          simp only [total] at *
          simp only [List.map_nil, List.sum_nil]
          omega
      next hl =>
        injection hs with hs
        subst hs
        refine ⟨by rw [names_replace]; exact i1, ?_, ?_⟩
        · intro q hq
          rw [List.mem_map] at hq
          obtain ⟨x, hx, rfl⟩ := hq
          split
          · exact hp
          · exact i2 x hx
        · have := total_replace ps p i1
          simp only [total] at *
          omega
  | unset app key _ ih =>
    obtain ⟨i1, i2, i3⟩ := ih
    refine ⟨?_, fun p hp => i2 p (List.mem_filter.mp hp).1, ?_⟩
    · exact i1.sublist (List.filter_sublist.map _)
    · exact Nat.le_trans (total_filter_le _ _) i3
  | order _ hperm ih =>
    obtain ⟨i1, i2, i3⟩ := ih
    refine ⟨(hperm.map _).nodup_iff.mp i1, fun p hp => i2 p (hperm.mem_iff.mpr hp), ?_⟩
    rw [← total_perm hperm]
    exact i3

/-- C71: attaching a payload replaces the one of the same name and leaves the
others; it is refused exactly if all together exceed 1512 bytes. -/
theorem C71_attach (ps : List Payload) (p : Payload) :
    (setPayload ps p = none ↔
      1512 < total (ps.filter (fun q => (q.app, q.key) ≠ (p.app, p.key))) + p.data.length) ∧
    ∀ ps', setPayload ps p = some ps' →
      ∀ q, q ∈ ps' ↔ q = p ∨ (q ∈ ps ∧ (q.app, q.key) ≠ (p.app, p.key)) := by
  have hfil : ps.filter (fun q => (q.app, q.key) ≠ (p.app, p.key)) =
      ps.filter (fun q => !decide (q.app = p.app ∧ q.key = p.key)) := by
    apply List.filter_congr
    intro q _
    by_cases h : q.app = p.app ∧ q.key = p.key
    · simp [h]
    · simp [h]
  rw [hfil]
  refine ⟨?_, ?_⟩
  · simp only [setPayload, total]
    split
    next h => exact ⟨fun _ => h, fun _ => rfl⟩
    next h =>
      split
      · exact ⟨fun hc => absurd hc (by simp), fun hc => absurd hc h⟩
      · exact ⟨fun hc => absurd hc (by simp), fun hc => absurd hc h⟩
  · intro ps' hs q
    simp only [setPayload] at hs
    split at hs
    · exact absurd hs (by simp)
    · split at hs
      next hl =>
        injection hs with hs
        subst hs
        have hall : ∀ x ∈ ps, ¬ (x.app = p.app ∧ x.key = p.key) := by
          have := List.length_filter_eq_length_iff.mp hl
          intro x hx hc
          have := this x hx
          simp [hc] at this
        rw [List.mem_append, List.mem_singleton]
        constructor
        · rintro (h | h)
          · exact .inr ⟨h, fun e => hall q h (by injection e with e1 e2; exact ⟨e1, e2⟩)⟩
          · exact .inl h
        · rintro (h | h)
          · exact .inr h
          · exact .inl h.1
      next hl =>
        injection hs with hs
        subst hs
        have hex : ∃ x ∈ ps, x.app = p.app ∧ x.key = p.key := by
          by_cases hc : ∃ x ∈ ps, x.app = p.app ∧ x.key = p.key
          · exact hc
          · exfalso
            apply hl
            rw [List.length_filter_eq_length_iff]
            intro x hx
            have : ¬ (x.app = p.app ∧ x.key = p.key) := fun h => hc ⟨x, hx, h⟩
            simp [this]
        rw [List.mem_map]
        constructor
        · rintro ⟨x, hx, rfl⟩
          by_cases h : x.app = p.app ∧ x.key = p.key
          · left
            rw [if_pos h]
          · right
            rw [if_neg h]
            exact ⟨hx, fun e => h (by injection e with e1 e2; exact ⟨e1, e2⟩)⟩
        · rintro (rfl | ⟨h1, h2⟩)
          · obtain ⟨x, hx, h⟩ := hex
            exact ⟨x, hx, by rw [if_pos h]⟩
          · refine ⟨q, h1, ?_⟩
            rw [if_neg]
            rintro ⟨e1, e2⟩
            exact h2 (by rw [e1, e2])

/-- C71: the heartbeat of a node with fewer than 256 attached payloads fits the
buffer of the sender, and the receiver reads from it exactly the identity, the
boot time, the configuration number and the payloads of the sender. -/
theorem C71_message_partial (room : Nat) (id : Bytes) (boot : Time) (seq : Nat) (ps : List Payload)
    (hroom : 2311 ≤ room) (hid : id.length = 16) (hb1 : boot.1 < 1099511627776)
    (hb2 : boot.2 < 16777216) (hseq : seq < 18446744073709551616) (hps : Attached ps)
    (hn : ps.length < 256) :
    ∃ m, compose room id boot seq ps = .inl m ∧
      parse m = some ⟨id, boot, seq, ps.length, table ps ++ bodies ps⟩ := by
  obtain ⟨-, -, htot⟩ := attached_ok hps
  have hmod : ps.length % 256 = ps.length := Nat.mod_eq_of_lt hn
  obtain ⟨p1, p2⟩ := pieces_flatten ps
  have hflat : ([[17], id, be64 (packTime boot), be64 seq, [ps.length % 256]] ++
      if ps.length % 256 = 0 then []
      else ps.flatMap (fun p => [[p.app], [p.key], [p.data.length]]) ++
        ps.map (fun p => p.data)).flatten =
      17 :: (id ++ (be64 (packTime boot) ++ (be64 seq ++ (ps.length :: (table ps ++ bodies ps))))) := by
    rw [hmod, List.flatten_append]
    split
    next h0 =>
      have : ps = [] := List.length_eq_zero_iff.mp h0
      subst this
      simp [table, bodies]
    next h0 =>
      rw [List.flatten_append, p1, p2]
      simp
  have hbl : ∀ n, (be64 n).length = 8 := fun n => rfl
  have hlen := table_length ps
  have hlen2 := bodies_length ps
  refine ⟨_, memwrite_fits room _ 0 ?_, ?_⟩
  · rw [hflat]
    simp only [List.length_cons, List.length_append, hid, hbl, hlen, hlen2]
    omega
  · rw [hflat]
    obtain ⟨u1, u2⟩ := unpack boot hb1 hb2
    have d1 : (17 :: (id ++ (be64 (packTime boot) ++ (be64 seq ++ (ps.length :: (table ps ++
        bodies ps)))))).drop 17 =
        be64 (packTime boot) ++ (be64 seq ++ (ps.length :: (table ps ++ bodies ps))) := by
      rw [List.drop_succ_cons, List.drop_left' hid]
    have d2 : (17 :: (id ++ (be64 (packTime boot) ++ (be64 seq ++ (ps.length :: (table ps ++
        bodies ps)))))).drop 25 = be64 seq ++ (ps.length :: (table ps ++ bodies ps)) := by
      have : 25 = 17 + 8 := rfl
      rw [this, ← List.drop_drop, d1, List.drop_left' (hbl _)]
    have d3 : (17 :: (id ++ (be64 (packTime boot) ++ (be64 seq ++ (ps.length :: (table ps ++
        bodies ps)))))).drop 33 = ps.length :: (table ps ++ bodies ps) := by
      have : 33 = 25 + 8 := rfl
      rw [this, ← List.drop_drop, d2, List.drop_left' (hbl _)]
    have d4 : (17 :: (id ++ (be64 (packTime boot) ++ (be64 seq ++ (ps.length :: (table ps ++
        bodies ps)))))).drop 34 = table ps ++ bodies ps := by
      have : 34 = 33 + 1 := rfl
      rw [this, ← List.drop_drop, d3]
      rfl
    have d5 : ((17 :: (id ++ (be64 (packTime boot) ++ (be64 seq ++ (ps.length :: (table ps ++
        bodies ps)))))).drop 1).take 16 = id := by
      rw [List.drop_succ_cons, List.drop_zero, List.take_left' hid]
    have hl : ¬ (17 :: (id ++ (be64 (packTime boot) ++ (be64 seq ++ (ps.length :: (table ps ++
        bodies ps)))))).length < 34 := by
      simp only [List.length_cons, List.length_append, hid, hbl]
      omega
    have hpl : (table ps ++ bodies ps).length % 65536 = (table ps ++ bodies ps).length := by
      apply Nat.mod_eq_of_lt
      simp only [List.length_append, hlen, hlen2]
      omega
    simp only [parse, hl, if_false, d1, d2, d3, d4, d5, List.headD_cons, hpl, List.take_length,
      List.take_left' (hbl _), un64_be64 _ u1, un64_be64 _ hseq, u2]
    rfl

/-- C71: where the lookup of a payload ends: the receiver adds up the lengths of
the entries 1 … i instead of 0 … i - 1. -/
theorem C71_where (pre suf : List Payload) (p : Payload) (hps : Attached (pre ++ p :: suf)) :
    getPayload (table (pre ++ p :: suf) ++ bodies (pre ++ p :: suf)) (pre ++ p :: suf).length
        p.app p.key =
      .ok (some ((pre ++ p :: suf).length * 3 + total (pre ++ [p]).tail, p.data.length)) := by
  obtain ⟨hnd, -, -⟩ := attached_ok hps
  have hq : ∀ q ∈ pre, ¬ (q.app = p.app ∧ q.key = p.key) := by
    intro q hq hc
    rw [names, List.map_append, List.nodup_append] at hnd
    refine hnd.2.2 (q.app, q.key) (List.mem_map.mpr ⟨q, hq, rfl⟩) (p.app, p.key)
      (List.mem_map.mpr ⟨p, by simp, rfl⟩) (by rw [hc.1, hc.2])
  have hl := table_length (pre ++ p :: suf)
  have hl2 := bodies_length (pre ++ p :: suf)
  have := getLoop_find (pre ++ p :: suf).length p.app p.key pre [] p suf
    (bodies (pre ++ p :: suf)) ((table (pre ++ p :: suf) ++ bodies (pre ++ p :: suf)).length + 1)
    rfl rfl hq
    (by simp only [List.nil_append, List.length_append (as := table _), hl, hl2]; omega)
    (by
      simp only [List.length_append (as := table _), hl, hl2]
      simp only [List.length_append, List.length_cons]
      omega)
  simp only [List.nil_append, List.length_nil, Nat.mul_zero] at this
  rw [getPayload, ← this]
  have h0 : total ((pre ++ [p]).take 1).tail = 0 := by
    cases pre <;> simp [total]
  rw [h0]

/-- C71: the receiver of a heartbeat finds an attached payload at the place of
its bytes, provided it is as long as the first one of the message.  The full
claim (any length) is false, see `C71_wrong_bytes_violated`. -/
theorem C71_payload_partial (ps : List Payload) (first p : Payload) (rest : List Payload)
    (hps : Attached ps) (hfirst : ps = first :: rest) (hp : p ∈ ps)
    (hlen : p.data.length = first.data.length) :
    ∃ off, getPayload (table ps ++ bodies ps) ps.length p.app p.key =
        .ok (some (off, p.data.length)) ∧
      ((table ps ++ bodies ps).drop off).take p.data.length = p.data := by
  obtain ⟨pre, suf, rfl⟩ := List.append_of_mem hp
  refine ⟨_, C71_where pre suf p hps, ?_⟩
  have ht : total (pre ++ [p]).tail = total pre := by
    cases pre with
    | nil => simp [total]
    | cons q t =>
      simp only [List.cons_append, List.cons.injEq] at hfirst
      rw [List.cons_append, List.tail_cons, total_append, total_cons, total_cons, hlen, hfirst.1]
      simp only [total, List.map_nil, List.sum_nil]
      omega
  have hl := table_length (pre ++ p :: suf)
  have hb : bodies (pre ++ p :: suf) = bodies pre ++ (p.data ++ bodies suf) := by
    simp [bodies]
  rw [ht, ← List.drop_drop, List.drop_left' (by rw [hl]; omega), hb,
    List.drop_left' (bodies_length pre), List.take_left' rfl]

/-- C71: with payloads of different lengths the receiver is given other bytes:
payloads 1 → "x" and 2 → "yy" of one application; asking for the second returns
the length 2 and a place one byte behind the right one, of which the second byte
is outside of the message. -/
theorem C71_wrong_bytes_violated :
    ∃ ps p, Attached ps ∧ ps.length < 256 ∧ p ∈ ps ∧
      getPayload (table ps ++ bodies ps) ps.length p.app p.key = .ok (some (8, 2)) ∧
      (table ps ++ bodies ps).length = 9 ∧
      ((table ps ++ bodies ps).drop 8).take 2 ≠ p.data := by
  refine ⟨[⟨1, 1, [120]⟩, ⟨1, 2, [121, 121]⟩], ⟨1, 2, [121, 121]⟩, ?_, by decide, by simp, ?_, ?_, ?_⟩
  · exact .set ⟨1, 2, [121, 121]⟩ (.set ⟨1, 1, [120]⟩ .none (by decide) rfl) (by decide) rfl
  all_goals decide +kernel

/-- C71: asking for a payload the node has not attached does not answer -1: the
walk leaves the table and reads outside of the message. -/
theorem C71_absent_violated :
    ∃ ps app key, Attached ps ∧ ps.length < 256 ∧ (app, key) ∉ names ps ∧
      getPayload (table ps ++ bodies ps) ps.length app key = .ub := by
  refine ⟨[⟨1, 1, [120]⟩], 1, 2, .set ⟨1, 1, [120]⟩ .none (by decide) rfl, by decide, by decide, ?_⟩
  decide +kernel

/-- C71: the receiver may also take payload bytes for a table entry and answer
with a payload nobody attached. -/
theorem C71_invented_violated :
    ∃ ps app key r, Attached ps ∧ ps.length < 256 ∧ (app, key) ∉ names ps ∧
      getPayload (table ps ++ bodies ps) ps.length app key = .ok (some r) := by
  refine ⟨[⟨1, 1, [7, 7, 0]⟩], 7, 7, (3, 0), .set ⟨1, 1, [7, 7, 0]⟩ .none (by decide) rfl, by decide,
    by decide, ?_⟩
  decide +kernel

/-- All 256 keys of an application, with empty payloads. -/
def crowd (n : Nat) : List Payload := (List.range n).map (fun k => ⟨1, k, []⟩)

theorem crowd_attached : ∀ n, Attached (crowd n) := by
  intro n
  induction n with
  | zero => exact .none
  | succ n ih =>
    refine .set ⟨1, n, []⟩ ih (by simp) ?_
    have hf : (crowd n).filter (fun q => !decide (q.app = 1 ∧ q.key = n)) = crowd n := by
      rw [List.filter_eq_self]
      intro x hx
      simp only [crowd, List.mem_map, List.mem_range] at hx
      obtain ⟨k, hk, rfl⟩ := hx
      have : ¬ k = n := by omega
      simp [this]
    have ht : ((crowd n).map (fun q => q.data.length)).sum = 0 := by
      rw [List.sum_eq_zero_iff_forall_eq_nat]
      intro x hx
      simp only [crowd, List.map_map, List.mem_map] at hx
      obtain ⟨k, -, rfl⟩ := hx
      rfl
    simp only [setPayload, hf, ht]
    simp [crowd, List.range_succ]

/-- C71: 256 attached payloads are announced as none, and none is sent. -/
theorem C71_count_violated :
    ∃ ps, Attached ps ∧ ps.length = 256 ∧ ∀ room id boot seq, id.length = 16 → 34 ≤ room →
      ∃ m, compose room id boot seq ps = .inl m ∧ m.length = 34 ∧
        ∀ r, parse m = some r → r.num = 0 ∧ r.payload = [] := by
  refine ⟨crowd 256, crowd_attached 256, by simp [crowd], ?_⟩
  intro room id boot seq hid hroom
  have hl : (crowd 256).length % 256 = 0 := by simp [crowd]
  have hbl : ∀ n, (be64 n).length = 8 := fun n => rfl
  have hflat : ([[17], id, be64 (packTime boot), be64 seq, [(crowd 256).length % 256]] ++
      if (crowd 256).length % 256 = 0 then []
      else (crowd 256).flatMap (fun p => [[p.app], [p.key], [p.data.length]]) ++
        (crowd 256).map (fun p => p.data)).flatten =
      17 :: (id ++ (be64 (packTime boot) ++ (be64 seq ++ [0]))) := by
    rw [hl]
    simp
  refine ⟨_, memwrite_fits room _ 0 ?_, ?_, ?_⟩
  · rw [hflat]
    simp only [List.length_cons, List.length_append, List.length_nil, hid, hbl]
    omega
  · rw [hflat]
    simp only [List.length_cons, List.length_append, List.length_nil, hid, hbl]
  · rw [hflat]
    intro r hr
    have d3 : (17 :: (id ++ (be64 (packTime boot) ++ (be64 seq ++ [0])))).drop 33 = [0] := by
      have e1 : (id ++ (be64 (packTime boot) ++ (be64 seq ++ [0]))).drop 16 =
          be64 (packTime boot) ++ (be64 seq ++ [0]) := List.drop_left' hid
      show ((id ++ (be64 (packTime boot) ++ (be64 seq ++ [0]))).drop (16 + 16)) = [0]
      rw [← List.drop_drop, e1]
      rfl
    have d4 : (17 :: (id ++ (be64 (packTime boot) ++ (be64 seq ++ [0])))).drop 34 = [] := by
      have e : (34 : Nat) = 33 + 1 := rfl
      rw [e, ← List.drop_drop, d3]
      rfl
    simp only [parse] at hr
    split at hr
    · exact absurd hr (by simp)
    · split at hr
      · exact absurd hr (by simp)
      · split at hr
        · exact absurd hr (by simp)
        · injection hr with hr
          subst hr
          simp only [d3, d4]
          exact ⟨rfl, rfl⟩

/-- Three attached payloads of which the middle one was replaced by a longer one,
and the lookup of the last, as long as the first. -/
example : ∃ m, compose 15000 (List.replicate 16 9) (1700000000, 999999) 41
      [⟨1, 1, [5, 6]⟩, ⟨1, 2, [7, 7, 7]⟩, ⟨2, 1, [8, 9]⟩] = .inl m ∧ m.length = 50 ∧
    parse m = some ⟨List.replicate 16 9, (1700000000, 999999), 41, 3,
      [1, 1, 2, 1, 2, 3, 2, 1, 2, 5, 6, 7, 7, 7, 8, 9]⟩ ∧
    getPayload [1, 1, 2, 1, 2, 3, 2, 1, 2, 5, 6, 7, 7, 7, 8, 9] 3 2 1 = .ok (some (14, 2)) := by
  refine ⟨_, rfl, ?_, ?_, ?_⟩ <;> decide +kernel

example : Attached [⟨1, 1, [5, 6]⟩, ⟨1, 2, [7, 7, 7]⟩, ⟨2, 1, [8, 9]⟩] :=
  .set ⟨1, 2, [7, 7, 7]⟩ (.set ⟨2, 1, [8, 9]⟩ (.set ⟨1, 2, [7]⟩
    (.set ⟨1, 1, [5, 6]⟩ .none (by decide) rfl) (by decide) rfl) (by decide) rfl) (by decide) rfl

/-- The limit is enforced: a sum of 1513 bytes is refused. -/
example : setPayload ((List.range 5).map (fun k => ⟨1, k, List.replicate 255 0⟩) ++
    [⟨1, 5, List.replicate 230 0⟩]) ⟨1, 6, List.replicate 8 0⟩ = none := by decide +kernel

end Mtev.Cluster
