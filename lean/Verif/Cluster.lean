import Verif.Mem

/-!
Model of `src/mtev_cluster.c`: the heartbeat message of a cluster node
(`mtev_cluster_info_compose`, `mtev_cluster_info_process`), the payloads carried
by it (`mtev_cluster_set_heartbeat_payload`, `mtev_cluster_get_heartbeat_payload`)
and the view of the other nodes (`mtev_cluster_on_node_changed`,
`mtev_cluster_check_timeout`, `mtev_cluster_find_oldest_node`).
-/

namespace Mtev.Cluster

abbrev Bytes := List Nat

/-- `struct timeval`: seconds and microseconds. -/
abbrev Time := Nat × Nat

/-- mtev_defines.h:134-140 `compare_timeval(a, b) == -1`. -/
def earlier (a b : Time) : Bool := decide (a.1 < b.1 ∨ (a.1 = b.1 ∧ a.2 < b.2))

/-- mtev_defines.h:142-156, 165-170 `sub_timeval_ms`. -/
def subMs (a b : Time) : Int :=
  let us : Int := (a.2 : Int) - b.2
  let asec : Int := if us < 0 then (a.1 : Int) - 1 else a.1
  let us := if us < 0 then us + 1000000 else us
  let sec := asec - b.1
  let us' := if sec < 0 then us - 1000000 else us
  let sec' := if sec < 0 then sec + 1 else sec
  sec' * 1000 + us'.tdiv 1000

/-! ### Messages -/

/-- `hb_payload_t` (mtev_cluster.c:68-73). -/
structure Payload where
  app : Nat
  key : Nat
  data : Bytes
deriving DecidableEq, Repr

/-- `htonll`: eight bytes, most significant first. -/
def be64 (n : Nat) : Bytes :=
  [n / 72057594037927936 % 256, n / 281474976710656 % 256, n / 1099511627776 % 256,
   n / 4294967296 % 256, n / 16777216 % 256, n / 65536 % 256, n / 256 % 256, n % 256]

/-- `ntohll`. -/
def un64 : Bytes → Nat
  | [a, b, c, d, e, f, g, h] =>
    a * 72057594037927936 + b * 281474976710656 + c * 1099511627776 + d * 4294967296 +
      e * 16777216 + f * 65536 + g * 256 + h
  | _ => 0

/-- The macro `MEMWRITE` (mtev_cluster.c:251-256) over the pieces written one
after the other: the bytes, or, when a piece does not fit, the number whose
negative is returned. -/
def memwrite (room : Nat) : Nat → List Bytes → Bytes ⊕ Nat
  | _, [] => .inl []
  | done, p :: rest =>
    if room < done + p.length then .inr (done + p.length)
    else
      match memwrite room (done + p.length) rest with
      | .inl b => .inl (p ++ b)
      | .inr n => .inr n

/-- `packed_time` (mtev_cluster.c:382-383): 40 bits of seconds, 24 of
microseconds. -/
def packTime (t : Time) : Nat := t.1 % 1099511627776 * 16777216 + t.2 % 16777216

/-- mtev_cluster.c:361-408 `mtev_cluster_info_compose`: the message of the node
`id`, booted at `boot`, with configuration number `seq`; `ps` are the attached
payloads in the order of the hash table (both walks see the same order).  The
number of payloads is kept in eight bits. -/
def compose (room : Nat) (id : Bytes) (boot : Time) (seq : Nat) (ps : List Payload) : Bytes ⊕ Nat :=
  memwrite room 0
    ([[17], id, be64 (packTime boot), be64 seq, [ps.length % 256]] ++
      if ps.length % 256 = 0 then []
      else ps.flatMap (fun p => [[p.app], [p.key], [p.data.length]]) ++ ps.map (fun p => p.data))

/-- What `mtev_cluster_info_process` reads from a message. -/
structure Msg where
  id : Bytes
  boot : Time
  seq : Nat
  num : Nat
  payload : Bytes
deriving DecidableEq, Repr

/-- mtev_cluster.c:427-473, the reading part of `mtev_cluster_info_process`:
`none` when the message is dropped (too short, or another version). -/
def parse (m : Bytes) : Option Msg :=
  if m.length < 34 then none
  else
    let v := m.headD 0
    let rest := m.drop 34
    let packed := un64 ((m.drop 17).take 8)
    if v % 16 < 1 then none
    else if v / 16 ≠ 1 then none
    else some
      { id := (m.drop 1).take 16
        boot := (packed / 16777216 % 1099511627776, packed % 16777216)
        seq := un64 ((m.drop 25).take 8)
        num := (m.drop 33).headD 0
        payload := rest.take (rest.length % 65536) }

theorem memwrite_fits (room : Nat) : ∀ (ps : List Bytes) (done : Nat),
    done + ps.flatten.length ≤ room → memwrite room done ps = .inl ps.flatten := by
  intro ps
  induction ps with
  | nil => intro done _; rfl
  | cons p rest ih =>
    intro done h
    simp only [List.flatten_cons, List.length_append] at h
    have h1 : ¬ room < done + p.length := by omega
    have h2 := ih (done + p.length) (by omega)
    simp only [memwrite, h1, if_false, h2, List.flatten_cons]

theorem un64_be64 (n : Nat) (h : n < 18446744073709551616) : un64 (be64 n) = n := by
  simp only [be64, un64]
  omega

theorem unpack (t : Time) (h1 : t.1 < 1099511627776) (h2 : t.2 < 16777216) :
    packTime t < 18446744073709551616 ∧
    (packTime t / 16777216 % 1099511627776, packTime t % 16777216) = t := by
  simp only [packTime]
  rw [Nat.mod_eq_of_lt h1, Nat.mod_eq_of_lt h2]
  refine ⟨by omega, ?_⟩
  refine Prod.ext ?_ ?_
  · show (t.1 * 16777216 + t.2) / 16777216 % 1099511627776 = t.1
    omega
  · show (t.1 * 16777216 + t.2) % 16777216 = t.2
    omega

/-! ### Payloads of a node -/

/-- mtev_cluster.c:983-1020 `mtev_cluster_set_heartbeat_payload`: refused when
the other payloads and this one exceed `MAX_PAYLOAD_LEN_SUM`.  The macros
`MAX_PAYLOAD_LEN_SUM` and `HEART_BEAT_HDR_LEN` (mtev_cluster.c:56-57) have no
parentheses, so that the limit is 1518 - 14 - 20 - 1 + 16 + 8 + 8 + 1 - 4 = 1512.
A new payload is put at the end (the order of the hash table is not modelled). -/
def setPayload (ps : List Payload) (p : Payload) : Option (List Payload) :=
  let others := ps.filter (fun q => !decide (q.app = p.app ∧ q.key = p.key))
  if 1512 < (others.map (fun q => q.data.length)).sum + p.data.length then none
  else if others.length = ps.length then some (ps ++ [p])
  else some (ps.map (fun q => if q.app = p.app ∧ q.key = p.key then p else q))

/-- One byte of the stored payload; outside of it is undefined. -/
def byteAt (buf : Bytes) (i : Nat) : Out Nat :=
  match buf[i]? with
  | some b => .ok b
  | none => .ub

/-- The loop of `mtev_cluster_get_heartbeat_payload` (mtev_cluster.c:1043-1051):
`hdr` is the offset of the table entry looked at, `sum` is `payload_len_sum`.
The answer is the offset of the payload in the buffer and its length.  `fuel`
bounds the number of rounds: every round reads three bytes further on. -/
def getLoop (buf : Bytes) (num app key : Nat) : Nat → Nat → Nat → Out (Option (Nat × Nat))
  | 0, _, _ => .ub
  | fuel + 1, hdr, sum =>
    if sum < buf.length then
      match byteAt buf hdr with
      | .ok a =>
        match (if a = app then byteAt buf (hdr + 1) else .ok (key + 1)) with
        | .ok k =>
          if k = key then
            match byteAt buf (hdr + 2) with
            | .ok n => .ok (some (num * 3 + sum, n))
            | _ => .ub
          else
            match byteAt buf (hdr + 5) with
            | .ok n => getLoop buf num app key fuel (hdr + 3) (sum + n)
            | _ => .ub
        | _ => .ub
      | _ => .ub
    else .ok none

/-- mtev_cluster.c:1033-1054 `mtev_cluster_get_heartbeat_payload` for a node
whose stored payload is `buf` (not NULL) with `num` payloads. -/
def getPayload (buf : Bytes) (num app key : Nat) : Out (Option (Nat × Nat)) :=
  getLoop buf num app key (buf.length + 1) 0 0

/-- The table written before the payloads. -/
def table (ps : List Payload) : Bytes := ps.flatMap (fun p => [p.app, p.key, p.data.length])

/-- The bytes of all payloads. -/
def bodies (ps : List Payload) : Bytes := ps.flatMap (fun p => p.data)

theorem table_length (ps : List Payload) : (table ps).length = 3 * ps.length := by
  induction ps with
  | nil => rfl
  | cons p t ih =>
    simp only [table, List.flatMap_cons, List.length_append, List.length_cons, List.length_nil] at *
    omega

theorem pieces_flatten (ps : List Payload) :
    (ps.flatMap (fun p => [[p.app], [p.key], [p.data.length]])).flatten = table ps ∧
    (ps.map (fun p => p.data)).flatten = bodies ps := by
  induction ps with
  | nil => exact ⟨rfl, rfl⟩
  | cons p t ih =>
    simp only [table, bodies, List.flatMap_cons, List.flatten_append, List.map_cons,
      List.flatten_cons] at *
    rw [ih.1, ih.2]
    exact ⟨rfl, rfl⟩

/-- The entry of the payload after `pre`. -/
theorem table_at (pre : List Payload) (q : Payload) (suf : List Payload) (rest : Bytes) :
    (table (pre ++ q :: suf) ++ rest)[3 * pre.length]? = some q.app ∧
    (table (pre ++ q :: suf) ++ rest)[3 * pre.length + 1]? = some q.key ∧
    (table (pre ++ q :: suf) ++ rest)[3 * pre.length + 2]? = some q.data.length := by
  have e : table (pre ++ q :: suf) ++ rest =
      table pre ++ (q.app :: q.key :: q.data.length :: (table suf ++ rest)) := by
    simp [table]
  have hl := table_length pre
  rw [e]
  refine ⟨?_, ?_, ?_⟩ <;> rw [List.getElem?_append_right (by omega)] <;> rw [hl]
  · simp
  · have : 3 * pre.length + 1 - 3 * pre.length = 1 := by omega
    rw [this]; rfl
  · have : 3 * pre.length + 2 - 3 * pre.length = 2 := by omega
    rw [this]; rfl

/-- Sum of the lengths. -/
def total (ps : List Payload) : Nat := (ps.map (fun p => p.data.length)).sum

theorem bodies_length (ps : List Payload) : (bodies ps).length = total ps := by
  simp [bodies, total, List.length_flatMap]

theorem total_append (a b : List Payload) : total (a ++ b) = total a + total b := by
  simp [total]

theorem total_cons (p : Payload) (b : List Payload) : total (p :: b) = p.data.length + total b := by
  simp [total]

theorem tail_total_le (l : List Payload) : total l.tail ≤ total l := by
  cases l with
  | nil => exact Nat.le_refl _
  | cons a t => rw [total_cons]; exact Nat.le_add_left _ _

/-- The loop from the entry of `q`. -/
theorem getLoop_find (num app key : Nat) :
    ∀ (mid pre : List Payload) (p : Payload) (suf : List Payload) (rest : Bytes) (fuel : Nat),
      p.app = app → p.key = key →
      (∀ q ∈ mid, ¬ (q.app = app ∧ q.key = key)) →
      (pre ++ mid ++ p :: suf).length + total (pre ++ mid ++ p :: suf) ≤
        (table (pre ++ mid ++ p :: suf) ++ rest).length →
      mid.length < fuel →
      getLoop (table (pre ++ mid ++ p :: suf) ++ rest) num app key fuel (3 * pre.length)
          (total (pre ++ (mid ++ [p]).take 1).tail) =
        .ok (some (num * 3 + total (pre ++ mid ++ [p]).tail, p.data.length)) := by
  intro mid
  induction mid with
  | nil =>
    intro pre p suf rest fuel ha hk _ hlen hf
    obtain ⟨fuel, rfl⟩ : ∃ f, fuel = f + 1 := ⟨fuel - 1, by simp at hf; omega⟩
    obtain ⟨t1, t2, t3⟩ := table_at pre p suf rest
    simp only [List.append_nil] at *
    have hs : total (pre ++ [p]).tail < (table (pre ++ p :: suf) ++ rest).length := by
      have h1 := tail_total_le (pre ++ [p])
      have h2 : total (pre ++ p :: suf) = total (pre ++ [p]) + total suf := by
        rw [← total_append]; simp
      simp only [List.length_append, List.length_cons] at hlen ⊢
      omega
    simp only [getLoop, List.nil_append, List.take_succ_cons, List.take_zero, hs, if_true, byteAt, t1, t2, t3, ha, hk]
  | cons q mid ih =>
    intro pre p suf rest fuel ha hk hq hlen hf
    obtain ⟨fuel, rfl⟩ : ∃ f, fuel = f + 1 := ⟨fuel - 1, by simp at hf; omega⟩
    have e1 : pre ++ q :: mid ++ p :: suf = pre ++ q :: (mid ++ p :: suf) := by simp
    have e2 : pre ++ q :: mid ++ p :: suf = (pre ++ [q]) ++ mid ++ p :: suf := by simp
    obtain ⟨t1, t2, -⟩ := table_at pre q (mid ++ p :: suf) rest
    rw [← e1] at t1 t2
    have hs : total (pre ++ [q]).tail < (table (pre ++ q :: mid ++ p :: suf) ++ rest).length := by
      have h1 := tail_total_le (pre ++ [q])
      have h2 : total (pre ++ q :: mid ++ p :: suf) = total (pre ++ [q]) + total (mid ++ p :: suf) := by
        rw [← total_append]; simp
      simp only [List.length_append, List.length_cons] at hlen ⊢
      omega
    -- the next entry
    obtain ⟨n, r, hn⟩ : ∃ n r, mid ++ p :: suf = n :: r := by
      cases mid with
      | nil => exact ⟨_, _, rfl⟩
      | cons a b => exact ⟨_, _, rfl⟩
    have hn1 : (mid ++ [p]).take 1 = [n] := by
      cases mid with
      | nil => simp at hn; simp [hn.1]
      | cons a b => simp at hn; simp [hn.1]
    obtain ⟨-, -, t3⟩ := table_at (pre ++ [q]) n r rest
    have e3 : (pre ++ [q]) ++ n :: r = pre ++ q :: mid ++ p :: suf := by rw [← hn]; simp
    rw [e3] at t3
    have l3 : 3 * (pre ++ [q]).length = 3 * pre.length + 3 := by simp; omega
    rw [l3] at t3
    have hne := hq q (by simp)
    have hk' : ∃ k, (if q.app = app then byteAt (table (pre ++ q :: mid ++ p :: suf) ++ rest)
        (3 * pre.length + 1) else .ok (key + 1)) = .ok k ∧ k ≠ key := by
      by_cases hA : q.app = app
      · refine ⟨q.key, by simp only [hA, if_true, byteAt, t2], fun h => hne ⟨hA, h⟩⟩
      · exact ⟨key + 1, by simp only [hA, if_false], by omega⟩
    obtain ⟨k, hk1, hk2⟩ := hk'
    have step := ih (pre ++ [q]) p suf rest fuel ha hk (fun x hx => hq x (by simp [hx]))
      (by rw [← e2]; exact hlen) (by simp at hf; omega)
    rw [← e2, l3, hn1] at step
    have hsum : total (pre ++ [q] ++ [n]).tail = total (pre ++ [q]).tail + n.data.length := by
      have : (pre ++ [q] ++ [n]).tail = (pre ++ [q]).tail ++ [n] := by
        cases pre <;> simp
      rw [this, total_append]; simp [total]
    rw [hsum] at step
    have e4 : pre ++ q :: mid ++ [p] = pre ++ [q] ++ mid ++ [p] := by simp
    rw [e4, ← step]
    have hb1 : byteAt (table (pre ++ q :: mid ++ p :: suf) ++ rest) (3 * pre.length) = .ok q.app := by
      simp only [byteAt, t1]
    have hb3 : byteAt (table (pre ++ q :: mid ++ p :: suf) ++ rest) (3 * pre.length + 5) =
        .ok n.data.length := by
      simp only [byteAt, t3]
    have ht : (q :: mid ++ [p]).take 1 = [q] := by simp
    rw [ht, getLoop, if_pos hs, hb1]
    simp only [hk1, hk2, if_false, hb3]

/-! ### The view of the cluster -/

/-- `struct mtev_cluster_node_t` (mtev_cluster.c:75-90) without names and
addresses; `id` stands for the UUID. -/
structure Node where
  id : Nat
  boot : Time
  seq : Nat
  payload : Bytes
  last : Time
deriving DecidableEq, Repr

/-- mtev_cluster.c:201-204 `mtev_cluster_node_is_dead`. -/
def Node.dead (n : Node) : Bool := decide (n.boot = (0, 0))

/-- The parts of `struct mtev_cluster_t` and of the globals that change:
`oldest` is the index of `oldest_node`. -/
structure View where
  nodes : List Node
  oldest : Option Nat
  me : Nat
  myBoot : Time
  timeout : Int
  maturity : Int
deriving DecidableEq, Repr

/-- The fields of node `i`. -/
def nodeAt (l : List Node) (i : Nat) : Node := l.getD i ⟨0, (0, 0), 0, [], (0, 0)⟩

/-- The loop of `mtev_cluster_find_oldest_node` (mtev_cluster.c:287-296): `cur`
is the index of `oldest_node`, `i` the next index to look at. -/
def oldestLoop (l : List Node) : Nat → Nat → Nat → Nat
  | 0, _, cur => cur
  | fuel + 1, i, cur =>
    oldestLoop l fuel (i + 1)
      (if (nodeAt l cur).dead ∨
          (earlier (nodeAt l i).boot (nodeAt l cur).boot ∧ ¬ (nodeAt l i).dead) then i else cur)

/-- mtev_cluster.c:284-297 `mtev_cluster_find_oldest_node`. -/
def findOldest (l : List Node) : Nat := oldestLoop l (l.length - 1) 1 0

/-- What the hook `mtev_cluster_handle_node_update` is told. -/
inductive Change where
  | died
  | rebooted
  | changed (seq payload : Bool)
deriving DecidableEq, Repr

/-- One node replaced. -/
def setNode (l : List Node) (i : Nat) (n : Node) : List Node := l.set i n

/-- mtev_cluster.c:299-331 `mtev_cluster_on_node_changed` for node `i`; `rnd` is
the value of `mtev_rand() % 1000000`.  The hook call is the second result. -/
def onChanged (v : View) (i : Nat) (boot : Time) (seq : Nat) (ch : Change) (rnd : Nat) :
    View × List (Nat × Change) :=
  let nodes := setNode v.nodes i { nodeAt v.nodes i with boot := boot, seq := seq }
  if (nodeAt v.nodes i).id ≠ v.me ∧ boot = v.myBoot then
    ({ v with nodes := nodes, myBoot := (v.myBoot.1, rnd) }, [])
  else if boot = (0, 0) ∨ v.oldest = some i then
    ({ v with nodes := nodes, oldest := some (findOldest nodes) }, [(i, ch)])
  else
    match v.oldest with
    | none => ({ v with nodes := nodes, oldest := some i }, [(i, ch)])
    | some o =>
      if earlier boot (nodeAt nodes o).boot then
        ({ v with nodes := nodes, oldest := some i }, [(i, ch)])
      else ({ v with nodes := nodes }, [(i, ch)])

/-- The test of `mtev_cluster_check_timeout` (mtev_cluster.c:335-341): the node
has been silent for too long and is not freshly booted. -/
def expired (v : View) (now : Time) (n : Node) : Bool :=
  decide (v.timeout < subMs now n.last) && !n.dead &&
    decide (0 < n.boot.1 ∧ v.maturity < subMs now n.boot)

/-- The loop of `mtev_cluster_check_timeout` (mtev_cluster.c:332-348) from index
`i`. -/
def tickLoop (now : Time) (rnd : Nat) : Nat → Nat → View → View × List (Nat × Change)
  | 0, _, v => (v, [])
  | fuel + 1, i, v =>
    if expired v now (nodeAt v.nodes i) then
      let r := onChanged v i (0, 0) (nodeAt v.nodes i).seq .died rnd
      let r' := tickLoop now rnd fuel (i + 1) r.1
      (r'.1, r.2 ++ r'.2)
    else tickLoop now rnd fuel (i + 1) v

/-- mtev_cluster.c:332-360 `mtev_cluster_check_timeouts`, run whenever a heartbeat is
sent. -/
def tick (v : View) (now : Time) (rnd : Nat) : View × List (Nat × Change) :=
  tickLoop now rnd v.nodes.length 0 v

/-- mtev_cluster.c:475-502, the second part of `mtev_cluster_info_process`: a
message from the node with identity `id` arrives at time `now`.  Messages of
unknown nodes are ignored. -/
def receive (v : View) (id : Nat) (boot : Time) (seq : Nat) (payload : Bytes) (now : Time)
    (rnd : Nat) : View × List (Nat × Change) :=
  match v.nodes.findIdx? (fun n => n.id = id) with
  | none => (v, [])
  | some i =>
    let n := nodeAt v.nodes i
    let stamp := fun (w : View) =>
      { w with nodes := setNode w.nodes i { nodeAt w.nodes i with last := now } }
    let seqCh := decide (seq ≠ n.seq)
    let payCh := decide (payload ≠ n.payload)
    if n.boot ≠ boot ∨ seqCh ∨ payCh then
      let v' := { v with nodes := setNode v.nodes i { n with payload := payload } }
      let r := onChanged v' i boot seq
        (if n.boot ≠ boot then .rebooted else .changed seqCh payCh) rnd
      (stamp r.1, r.2)
    else (stamp v, [])

/-- mtev_cluster.c:1402-1407 `mtev_cluster_am_i_oldest_visible_node`. -/
def amIOldest (v : View) : Bool :=
  match v.oldest with
  | none => true
  | some o => decide ((nodeAt v.nodes o).id = v.me)

end Mtev.Cluster
