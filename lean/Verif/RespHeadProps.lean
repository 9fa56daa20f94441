import Verif.RespHead
import Verif.Cookie
import Mathlib.Data.List.Induction
import Mathlib.Data.List.Nodup
import Mathlib.Data.List.Perm.Basic

/-! # Property C77: the head of an HTTP/1 response -/

namespace Mtev.RespHead
open HttpIn (defSize)

/-! ## Specification: reading a head (RFC 9112, sections 2 to 6) -/

/-- The text up to the first CRLF, and what follows. -/
def readLine : List Nat → Option (List Nat × List Nat)
  | 13 :: 10 :: r => some ([], r)
  | x :: r => (readLine r).map (fun p => (x :: p.1, p.2))
  | [] => none

/-- `name: value` of a line, without the blanks before the value. -/
def fieldOf (l : List Nat) : List Nat × List Nat :=
  (l.takeWhile (· ≠ 58), ((l.dropWhile (· ≠ 58)).drop 1).dropWhile (· = 32))

/-- Lines up to an empty one. -/
def readFields : Nat → List Nat → Option (Headers × List Nat)
  | 0, _ => none
  | n + 1, t =>
    match readLine t with
    | none => none
    | some ([], r) => some ([], r)
    | some (x :: l, r) => (readFields n r).map (fun p => (fieldOf (x :: l) :: p.1, p.2))

/-- What a client reads. -/
structure Head where
  proto : List Nat
  code : List Nat
  reason : List Nat
  fields : Headers
deriving DecidableEq

/-- `protocol code reason`. -/
def statusOf (l : List Nat) : List Nat × List Nat × List Nat :=
  let r := (l.dropWhile (· ≠ 32)).drop 1
  (l.takeWhile (· ≠ 32), r.takeWhile (· ≠ 32), (r.dropWhile (· ≠ 32)).drop 1)

/-- A client reading a response: its head and the rest of the stream. -/
def readHead (t : List Nat) : Option (Head × List Nat) :=
  match readLine t with
  | none => none
  | some (l, r) =>
    (readFields r.length r).map
      (fun p => (⟨(statusOf l).1, (statusOf l).2.1, (statusOf l).2.2, p.1⟩, p.2))

/-- A text that can be put in a line. -/
def Line (s : List Nat) : Prop := 13 ∉ s ∧ 10 ∉ s ∧ s.length < 2 ^ 63

/-- A header name and value. -/
def FieldOk (p : List Nat × List Nat) : Prop := Line p.1 ∧ Line p.2 ∧ 58 ∉ p.1 ∧ p.1 ≠ [] ∧ p.2.head? ≠ some 32

/-- The names the library sets itself. -/
def own : List (List Nat) :=
  [bytesOf "Transfer-Encoding", bytesOf "Content-Encoding", bytesOf "Vary", bytesOf "Connection"]

/-- Calls with texts that can be put in lines; the names the library sets are left to it; options are
set one at a time. -/
def OpOk : Op → Prop
  | .status _ r => Line r ∧ r.length ≤ 32000
  | .header k v => FieldOk (k, v) ∧ k ∉ own
  | .option o => o ∈ [optChunked, optClose, optGzip, optDeflate, optLz4f]

/-- The value a call gives to a header. -/
def valueOf (k : List Nat) : Op → Option (List Nat)
  | .header k' v => if k' = k then some v else none
  | _ => none

/-- The value the application last gave to a header. -/
def lastValue (k : List Nat) (ops : List Op) : Option (List Nat) := (ops.filterMap (valueOf k)).getLast?

/-- A status with a three digit code. -/
def statusIn : Op → Option (Nat × List Nat)
  | .status c r => if 100 ≤ c ∧ c ≤ 999 then some (c.toNat, r) else none
  | _ => none

/-- The status the application last asked for with a three digit code. -/
def lastStatus (ops : List Op) : Option (Nat × List Nat) := (ops.filterMap statusIn).getLast?

/-! ## The map of headers -/

theorem hget_hset (k v k' : List Nat) (h : Headers) : hget k' (hset k v h) = if k' = k then some v else hget k' h := by
  induction h with
  | nil =>
    simp only [hset, hget]
    by_cases e : k' = k
    · simp [e]
    · simp [e, Ne.symm e]
  | cons p t ih =>
    obtain ⟨a, b⟩ := p
    simp only [hset]
    by_cases e : a = k
    · rw [if_pos e]
      simp only [hget]
      by_cases e2 : k' = k
      · simp [e2]
      · have : ¬ k = k' := Ne.symm e2
        have : ¬ a = k' := by rw [e]; exact this
        simp [*]
    · rw [if_neg e]
      simp only [hget, ih]
      by_cases e2 : k' = k
      · have : ¬ a = k' := by rw [e2]; exact e
        simp [e2, e]
      · simp [e2]

theorem hset_keys (k v : List Nat) (h : Headers) :
    (hset k v h).map Prod.fst = if k ∈ h.map Prod.fst then h.map Prod.fst else h.map Prod.fst ++ [k] := by
  induction h with
  | nil => simp [hset]
  | cons p t ih =>
    obtain ⟨a, b⟩ := p
    simp only [hset]
    by_cases e : a = k
    · simp [e]
    · rw [if_neg e]
      simp only [List.map_cons, ih, List.mem_cons]
      have : ¬ k = a := Ne.symm e
      simp only [this, false_or]
      split <;> simp

theorem hset_nodup {k v : List Nat} {h : Headers} (hn : (h.map Prod.fst).Nodup) : ((hset k v h).map Prod.fst).Nodup := by
  rw [hset_keys]
  split
  · exact hn
  · rename_i hk
    rw [List.nodup_append]
    exact ⟨hn, by simp, fun a ha b hb => by simp at hb; rintro rfl; exact hk (hb ▸ ha)⟩

theorem hset_mem {k v : List Nat} {h : Headers} {p : List Nat × List Nat} (hp : p ∈ hset k v h) : p = (k, v) ∨ p ∈ h := by
  induction h with
  | nil => simp [hset] at hp; exact .inl hp
  | cons q t ih =>
    obtain ⟨a, b⟩ := q
    simp only [hset] at hp
    split at hp
    · rcases List.mem_cons.mp hp with h | h
      · exact .inl h
      · exact .inr (by simp [h])
    · rcases List.mem_cons.mp hp with h | h
      · exact .inr (by simp [h])
      · rcases ih h with h | h
        · exact .inl h
        · exact .inr (by simp [h])

theorem hget_none {k : List Nat} {h : Headers} (hk : k ∉ h.map Prod.fst) : hget k h = none := by
  induction h with
  | nil => rfl
  | cons p t ih =>
    obtain ⟨a, b⟩ := p
    simp only [List.map_cons, List.mem_cons, not_or] at hk
    rw [hget, if_neg (Ne.symm hk.1)]; exact ih hk.2

theorem pairs_eq {h : Headers} (hn : (h.map Prod.fst).Nodup) :
    (h.map Prod.fst).map (fun k => (k, (hget k h).getD [])) = h := by
  suffices ∀ p ∈ h, (p.1, (hget p.1 h).getD []) = p by
    rw [List.map_map]
    conv_rhs => rw [← List.map_id h]
    exact List.map_congr_left this
  induction h with
  | nil => simp
  | cons q t ih =>
    obtain ⟨a, b⟩ := q
    simp only [List.map_cons, List.nodup_cons] at hn
    intro p hp
    rcases List.mem_cons.mp hp with rfl | hp
    · simp [hget]
    · have hne : a ≠ p.1 := fun e => hn.1 (e ▸ List.mem_map_of_mem hp)
      rw [hget, if_neg hne]
      exact ih hn.2 p hp

/-! ## The buffers -/

/-- The text in the buffers. -/
def flat (p : List B × B) : List Nat := ((p.1 ++ [p.2]).map B.data).flatten

/-- The current buffer is consistent. -/
def Good (p : List B × B) : Prop := p.2.size = p.2.data.length ∧ p.2.size ≤ p.2.allocd ∧ p.2.allocd < 2 ^ 64

theorem append_ok {p : List B × B} (hp : Good p) {s : List Nat} (hs : s.length < 2 ^ 63) :
    ∃ p', append p s = .ok p' ∧ Good p' ∧ flat p' = flat p ++ s := by
  obtain ⟨h1, h2, h3⟩ := hp
  have hsp : space p.2 = p.2.allocd - p.2.size := sub64_le h3 h2
  unfold append
  by_cases hc : s.length > space p.2
  · have hd : max s.length defSize < 2 ^ 64 := by
      rcases Nat.le_total s.length defSize with h | h
      · rw [Nat.max_eq_right h]; decide
      · rw [Nat.max_eq_left h]; omega
    have e1 : space ⟨max s.length defSize, 0, []⟩ = max s.length defSize := by
      unfold space; rw [sub64_le hd (by simp)]; simp
    simp only [hc, if_true, e1]
    rw [if_neg (by omega), if_neg (by omega)]
    refine ⟨_, rfl, ⟨by simp, by simp only; omega, hd⟩, ?_⟩
    simp [flat]
  · rw [if_neg hc, if_neg (by omega), if_neg (by omega)]
    refine ⟨_, rfl, ⟨by simp [h1], by simp only; omega, h3⟩, ?_⟩
    simp [flat]

/-- The text of one header. -/
def fieldText (p : List Nat × List Nat) : List Nat := p.1 ++ bytesOf ": " ++ p.2 ++ [13, 10]

theorem appendHeader_ok {h : Headers} {p : List B × B} (hp : Good p) {k : List Nat} (hk : k.length < 2 ^ 63)
    (hv : ((hget k h).getD []).length < 2 ^ 63) :
    ∃ p', appendHeader h p k = .ok p' ∧ Good p' ∧ flat p' = flat p ++ fieldText (k, (hget k h).getD []) := by
  unfold appendHeader
  obtain ⟨p1, e1, g1, f1⟩ := append_ok hp hk
  obtain ⟨p2, e2, g2, f2⟩ := append_ok g1 (s := bytesOf ": ") (by decide)
  simp only [e1, e2, Out.ok_bind]
  obtain ⟨p3, e3, g3, f3⟩ : ∃ p3, (if ((hget k h).getD []).length ≠ 0 then append p2 ((hget k h).getD []) else .ok p2) = .ok p3 ∧
      Good p3 ∧ flat p3 = flat p2 ++ (hget k h).getD [] := by
    by_cases hl : ((hget k h).getD []).length ≠ 0
    · rw [if_pos hl]; exact append_ok g2 hv
    · rw [if_neg hl]
      have : (hget k h).getD [] = [] := List.length_eq_zero_iff.mp (by omega)
      exact ⟨p2, rfl, g2, by rw [this]; simp⟩
  rw [e3]
  simp only [Out.ok_bind]
  obtain ⟨p4, e4, g4, f4⟩ := append_ok g3 (s := [13, 10]) (by decide)
  refine ⟨p4, e4, g4, ?_⟩
  rw [f4, f3, f2, f1]
  simp [fieldText]

theorem appendHeaders_ok {h : Headers} {ks : List (List Nat)} {p : List B × B} (hp : Good p)
    (hk : ∀ k ∈ ks, k.length < 2 ^ 63 ∧ ((hget k h).getD []).length < 2 ^ 63) :
    ∃ p', appendHeaders h ks p = .ok p' ∧ Good p' ∧
      flat p' = flat p ++ (ks.map (fun k => (k, (hget k h).getD []))).flatMap fieldText := by
  induction ks generalizing p with
  | nil => exact ⟨p, rfl, hp, by simp⟩
  | cons k ks ih =>
    obtain ⟨p1, e1, g1, f1⟩ := appendHeader_ok hp (hk k (by simp)).1 (hk k (by simp)).2
    obtain ⟨p2, e2, g2, f2⟩ := ih g1 (fun x hx => hk x (by simp [hx]))
    refine ⟨p2, by simp only [appendHeaders, e1, Out.ok_bind, e2], g2, ?_⟩
    rw [f2, f1]; simp

/-! ## Reading -/

theorem readLine_line {l : List Nat} (h : 13 ∉ l) (r : List Nat) : readLine (l ++ [13, 10] ++ r) = some (l, r) := by
  induction l with
  | nil => simp [readLine]
  | cons x t ih =>
    simp only [List.mem_cons, not_or] at h
    have ih := ih h.2
    rw [List.cons_append, List.cons_append]
    have : readLine (x :: (t ++ [13, 10] ++ r)) = (readLine (t ++ [13, 10] ++ r)).map (fun p => (x :: p.1, p.2)) := by
      rw [readLine.eq_def]
      split
      · rename_i h1; simp at h1; exact absurd h1.1 (Ne.symm h.1)
      · rename_i h1; simp only [List.cons.injEq] at h1; rw [h1.1, h1.2]
      · rename_i h1; simp at h1
    rw [this, ih]; rfl

theorem takeWhile_stop {s t : List Nat} {d : Nat} (h : d ∉ s) : (s ++ d :: t).takeWhile (· ≠ d) = s := by
  induction s with
  | nil => simp
  | cons x r ih =>
    simp only [List.mem_cons, not_or] at h
    rw [List.cons_append, List.takeWhile_cons_of_pos (by simpa using Ne.symm h.1), ih h.2]

theorem dropWhile_stop {s t : List Nat} {d : Nat} (h : d ∉ s) : (s ++ d :: t).dropWhile (· ≠ d) = d :: t := by
  induction s with
  | nil => simp
  | cons x r ih =>
    simp only [List.mem_cons, not_or] at h
    rw [List.cons_append, List.dropWhile_cons_of_pos (by simpa using Ne.symm h.1), ih h.2]

theorem fieldOf_text {p : List Nat × List Nat} (h : FieldOk p) : fieldOf (p.1 ++ bytesOf ": " ++ p.2) = p := by
  obtain ⟨-, -, h3, -, h5⟩ := h
  have e : p.1 ++ bytesOf ": " ++ p.2 = p.1 ++ 58 :: (32 :: p.2) := by simp [bytesOf]
  rw [e]
  unfold fieldOf
  rw [takeWhile_stop h3, dropWhile_stop h3]
  have : (32 :: p.2).dropWhile (· = 32) = p.2 := by
    rw [List.dropWhile_cons_of_pos (by simp)]
    cases hp : p.2 with
    | nil => rfl
    | cons a b =>
      rw [List.dropWhile_cons_of_neg]
      intro ha
      apply h5
      rw [hp]; simpa using ha
  simp only [List.drop_succ_cons, List.drop_zero, this]

theorem readFields_ok {fs : Headers} (hf : ∀ p ∈ fs, FieldOk p) (body : List Nat) (n : Nat) (hn : fs.length < n) :
    readFields n (fs.flatMap fieldText ++ [13, 10] ++ body) = some (fs, body) := by
  induction fs generalizing n with
  | nil =>
    cases n with
    | zero => simp at hn
    | succ n => simp [readFields, readLine]
  | cons p fs ih =>
    cases n with
    | zero => simp at hn
    | succ n =>
      have hp := hf p (by simp)
      have h13 : 13 ∉ p.1 ++ bytesOf ": " ++ p.2 := by
        have := hp.1.1
        have := hp.2.1.1
        simp only [List.mem_append, not_or]
        exact ⟨⟨by assumption, by decide⟩, by assumption⟩
      have e : (p :: fs).flatMap fieldText ++ [13, 10] ++ body =
          (p.1 ++ bytesOf ": " ++ p.2) ++ [13, 10] ++ (fs.flatMap fieldText ++ [13, 10] ++ body) := by
        simp [fieldText]
      rw [readFields, e, readLine_line h13]
      have ht := fieldOf_text hp
      have hne : p.1 ++ bytesOf ": " ++ p.2 ≠ [] := by
        have := hp.2.2.2.1
        simp [this]
      generalize p.1 ++ bytesOf ": " ++ p.2 = l at ht hne
      cases l with
      | nil => exact absurd rfl hne
      | cons x l =>
        simp only [ih (fun q hq => hf q (by simp [hq])) n (by simp at hn; omega), ht]
        rfl

theorem flat_length (fs : Headers) : fs.length ≤ (fs.flatMap fieldText).length := by
  induction fs with
  | nil => simp
  | cons p t ih => rw [List.flatMap_cons, List.length_append]; simp only [fieldText, List.length_append, List.length_cons]; omega

/-! ## What the calls do -/

/-- The state before the output starts. -/
structure Inv (s : S) : Prop where
  started : s.started = false
  nodup : (s.headers.map Prod.fst).Nodup
  ok : ∀ p ∈ s.headers, FieldOk p
  reason : ∀ r, s.reason = some r → Line r ∧ r.length ≤ 32000
  code : s.reason ≠ none → 100 ≤ s.code ∧ s.code ≤ 999
  te : hget (bytesOf "Transfer-Encoding") s.headers = if s.opts.chunked then some (bytesOf "chunked") else none
  conn : hget (bytesOf "Connection") s.headers = if s.opts.close then some (bytesOf "close") else none
  vary : hget (bytesOf "Vary") s.headers =
    if s.opts.gzip || s.opts.deflate || s.opts.lz4f then some (bytesOf "Accept-Encoding") else none
  ce : hget (bytesOf "Content-Encoding") s.headers =
    if s.opts.gzip then some (bytesOf "gzip") else if s.opts.deflate then some (bytesOf "deflate")
    else if s.opts.lz4f then some (bytesOf "lz4f") else none
  needs : s.needsClose = s.opts.close
  allowed : (s.opts.chunked → s.reqOpts.chunked ∧ s.proto = .http11) ∧ (s.opts.close → s.reqOpts.close) ∧
    (s.opts.gzip → s.reqOpts.gzip) ∧ (s.opts.deflate → s.reqOpts.deflate) ∧ (s.opts.lz4f → s.reqOpts.lz4f)
  proto : s.proto = s.reqProto ∨ (s.proto = .http09 ∧ s.reason = none)
  enc : ¬ (s.opts.gzip && s.opts.deflate && s.opts.lz4f) = true

theorem fresh_inv (p : Proto) (o : Opts) : Inv (fresh p o) := by
  refine ⟨rfl, by simp [fresh], by simp [fresh], by simp [fresh], by simp [fresh], ?_, ?_, ?_, ?_, rfl, ?_, ?_, ?_⟩ <;>
    simp [fresh, hget, Opts.none]

theorem own_ok : ∀ p ∈ [(bytesOf "Transfer-Encoding", bytesOf "chunked"), (bytesOf "Vary", bytesOf "Accept-Encoding"),
    (bytesOf "Content-Encoding", bytesOf "gzip"), (bytesOf "Content-Encoding", bytesOf "deflate"),
    (bytesOf "Content-Encoding", bytesOf "lz4f"), (bytesOf "Connection", bytesOf "close")], FieldOk p := by
  unfold FieldOk Line
  decide

theorem optHeaders_nodup {o : Opts} {h : Headers} (hn : (h.map Prod.fst).Nodup) : ((optHeaders o h).map Prod.fst).Nodup := by
  unfold optHeaders
  simp only
  have h1 : ((if o.chunked = true then hset (bytesOf "Transfer-Encoding") (bytesOf "chunked") h else h).map Prod.fst).Nodup := by
    split
    · exact hset_nodup hn
    · exact hn
  generalize (if o.chunked = true then hset (bytesOf "Transfer-Encoding") (bytesOf "chunked") h else h) = g at h1
  split
  · apply hset_nodup
    split
    · exact hset_nodup (hset_nodup h1)
    · exact h1
  · split
    · exact hset_nodup (hset_nodup h1)
    · exact h1

theorem optHeaders_ok {o : Opts} {h : Headers} (hk : ∀ p ∈ h, FieldOk p) : ∀ p ∈ optHeaders o h, FieldOk p := by
  have key : ∀ {k v : List Nat} {g : Headers}, FieldOk (k, v) → (∀ p ∈ g, FieldOk p) → ∀ p ∈ hset k v g, FieldOk p := by
    intro k v g h1 h2 p hp
    rcases hset_mem hp with rfl | hp
    · exact h1
    · exact h2 p hp
  unfold optHeaders
  simp only
  have h1 : ∀ p ∈ (if o.chunked = true then hset (bytesOf "Transfer-Encoding") (bytesOf "chunked") h else h), FieldOk p := by
    split
    · exact key (own_ok _ (by simp)) hk
    · exact hk
  generalize (if o.chunked = true then hset (bytesOf "Transfer-Encoding") (bytesOf "chunked") h else h) = g at h1
  have h2 : ∀ p ∈ (if (o.gzip || o.deflate || o.lz4f) = true then
      hset (bytesOf "Content-Encoding") (if o.gzip = true then bytesOf "gzip" else if o.deflate = true then bytesOf "deflate" else bytesOf "lz4f")
        (hset (bytesOf "Vary") (bytesOf "Accept-Encoding") g) else g), FieldOk p := by
    split
    · apply key
      · split
        · exact own_ok _ (by simp)
        · split
          · exact own_ok _ (by simp)
          · exact own_ok _ (by simp)
      · exact key (own_ok _ (by simp)) h1
    · exact h1
  split
  · exact key (own_ok _ (by simp)) h2
  · exact h2

theorem hget_optHeaders (o : Opts) (h : Headers) (k : List Nat) : hget k (optHeaders o h) =
    if k = bytesOf "Connection" ∧ o.close then some (bytesOf "close")
    else if k = bytesOf "Content-Encoding" ∧ (o.gzip || o.deflate || o.lz4f) then
      some (if o.gzip then bytesOf "gzip" else if o.deflate then bytesOf "deflate" else bytesOf "lz4f")
    else if k = bytesOf "Vary" ∧ (o.gzip || o.deflate || o.lz4f) then some (bytesOf "Accept-Encoding")
    else if k = bytesOf "Transfer-Encoding" ∧ o.chunked then some (bytesOf "chunked")
    else hget k h := by
  unfold optHeaders
  simp only
  cases o.close <;> cases o.chunked <;> cases (o.gzip || o.deflate || o.lz4f) <;>
    simp [hget_hset]

theorem allowed_or {a r o : Opts} {p : Proto} (ho : o ∈ [optChunked, optClose, optGzip, optDeflate, optLz4f])
    (hm : o.meets r = true) (c1 : ¬ (p ≠ .http11 ∧ o.chunked = true))
    (hal : (a.chunked → r.chunked ∧ p = .http11) ∧ (a.close → r.close) ∧ (a.gzip → r.gzip) ∧ (a.deflate → r.deflate) ∧ (a.lz4f → r.lz4f)) :
    ((a.or o).chunked → r.chunked ∧ p = .http11) ∧ ((a.or o).close → r.close) ∧ ((a.or o).gzip → r.gzip) ∧
      ((a.or o).deflate → r.deflate) ∧ ((a.or o).lz4f → r.lz4f) := by
  obtain ⟨h1, h2, h3, h4, h5⟩ := hal
  simp only [List.mem_cons, List.not_mem_nil, or_false] at ho
  rcases ho with rfl | rfl | rfl | rfl | rfl <;>
    simp [Opts.meets, optChunked, optClose, optGzip, optDeflate, optLz4f, Opts.none, Opts.or] at hm c1 ⊢ <;>
    simp_all

theorem optionSet_inv {s : S} (h : Inv s) {o : Opts} (ho : o ∈ [optChunked, optClose, optGzip, optDeflate, optLz4f]) :
    Inv (optionSet s o).1 ∧ (∀ k ∉ own, hget k (optionSet s o).1.headers = hget k s.headers) ∧
      (optionSet s o).1.reqOpts = s.reqOpts ∧ (optionSet s o).1.proto = s.proto ∧ (optionSet s o).1.code = s.code ∧
      (optionSet s o).1.reason = s.reason ∧ (optionSet s o).1.reqProto = s.reqProto := by
  unfold optionSet
  rw [if_neg (by simp [h.started])]
  split
  · exact ⟨h, by simp⟩
  split
  · exact ⟨h, by simp⟩
  split
  · exact ⟨h, by simp⟩
  split
  · exact ⟨h, by simp⟩
  rename_i c1 c2 c3 c4
  have n1 : bytesOf "Connection" ≠ bytesOf "Content-Encoding" := by decide
  have n2 : bytesOf "Connection" ≠ bytesOf "Vary" := by decide
  have n3 : bytesOf "Connection" ≠ bytesOf "Transfer-Encoding" := by decide
  have n4 : bytesOf "Content-Encoding" ≠ bytesOf "Vary" := by decide
  have n5 : bytesOf "Content-Encoding" ≠ bytesOf "Transfer-Encoding" := by decide
  have n6 : bytesOf "Vary" ≠ bytesOf "Transfer-Encoding" := by decide
  have hte := h.te
  have hco := h.conn
  have hva := h.vary
  have hce := h.ce
  have hal := h.allowed
  have hne := h.needs
  refine ⟨⟨h.started, optHeaders_nodup h.nodup, optHeaders_ok h.ok, h.reason, h.code, ?_, ?_, ?_, ?_, ?_, ?_, h.proto, c3⟩, ?_, rfl, rfl, rfl, rfl, rfl⟩
  · simp only [applyOpt, hget_optHeaders, n3.symm, n5.symm, n6.symm, false_and, if_false, true_and, hte, Opts.or]
    by_cases a : s.opts.chunked = true <;> by_cases b : o.chunked = true <;> simp [a, b]
  · simp only [applyOpt, hget_optHeaders, n1, n2, n3, false_and, if_false, true_and, hco, Opts.or]
    by_cases a : s.opts.close = true <;> by_cases b : o.close = true <;> simp [a, b]
  · simp only [applyOpt, hget_optHeaders, n2.symm, n4.symm, n6, false_and, if_false, true_and, hva, Opts.or]
    by_cases a : s.opts.gzip = true <;> by_cases b : o.gzip = true <;> by_cases c : s.opts.deflate = true <;>
      by_cases d : o.deflate = true <;> by_cases e : s.opts.lz4f = true <;> by_cases f : o.lz4f = true <;> simp [a, b, c, d, e, f]
  · simp only [applyOpt, hget_optHeaders, n1.symm, n4, n5, false_and, if_false, true_and, hce, Opts.or]
    by_cases a : s.opts.gzip = true <;> by_cases b : o.gzip = true <;> by_cases c : s.opts.deflate = true <;>
      by_cases d : o.deflate = true <;> by_cases e : s.opts.lz4f = true <;> by_cases f : o.lz4f = true <;> simp [a, b, c, d, e, f]
  · simp only [applyOpt, hne, Opts.or]; by_cases a : s.opts.close = true <;> simp [a]
  · have hm : o.meets s.reqOpts = true := by simpa using c4
    exact allowed_or ho hm c1 hal
  · intro k hk
    simp only [own, List.mem_cons, List.not_mem_nil, or_false, not_or] at hk
    simp only [applyOpt, hget_optHeaders, hk, false_and, if_false]

theorem step_inv {s : S} (h : Inv s) {op : Op} (ho : OpOk op) :
    Inv (step s op).1 ∧ (step s op).1.reqOpts = s.reqOpts ∧ (step s op).1.reqProto = s.reqProto := by
  cases op with
  | status c r =>
    simp only [OpOk] at ho
    unfold step statusSet
    simp only [if_neg (show ¬ s.started = true by simp [h.started])]
    have hpr : (s.opts.chunked → s.reqOpts.chunked ∧ s.reqProto = Proto.http11) := by
      intro hc
      have := (h.allowed.1 hc)
      rcases h.proto with hp | hp
      · rw [← hp]; exact this
      · rw [hp.1] at this; exact absurd this.2 (by simp)
    split
    · exact ⟨⟨h.started, h.nodup, h.ok, h.reason, h.code, h.te, h.conn, h.vary, h.ce, h.needs,
        ⟨hpr, h.allowed.2⟩, .inl rfl, h.enc⟩, rfl, rfl⟩
    · rename_i hc
      refine ⟨⟨h.started, h.nodup, h.ok, ?_, ?_, h.te, h.conn, h.vary, h.ce, h.needs,
        ⟨hpr, h.allowed.2⟩, .inl rfl, h.enc⟩, rfl, rfl⟩
      · intro r' hr'; simp only [Option.some.injEq] at hr'; rw [← hr']; exact ho
      · intro _; simp only; omega
  | header k v =>
    simp only [OpOk] at ho
    unfold step headerSet
    simp only [if_neg (show ¬ s.started = true by simp [h.started])]
    obtain ⟨ho1, ho2⟩ := ho
    simp only [own, List.mem_cons, List.not_mem_nil, or_false, not_or] at ho2
    refine ⟨⟨h.started, hset_nodup h.nodup, ?_, h.reason, h.code, ?_, ?_, ?_, ?_, h.needs, h.allowed, h.proto, h.enc⟩, by simp⟩
    · intro p hp
      rcases hset_mem hp with rfl | hp
      · exact ho1
      · exact h.ok p hp
    · rw [hget_hset, if_neg (Ne.symm ho2.1)]; exact h.te
    · rw [hget_hset, if_neg (Ne.symm ho2.2.2.2)]; exact h.conn
    · rw [hget_hset, if_neg (Ne.symm ho2.2.2.1)]; exact h.vary
    · rw [hget_hset, if_neg (Ne.symm ho2.2.1)]; exact h.ce
  | option o =>
    have := optionSet_inv h ho
    exact ⟨this.1, this.2.2.1, this.2.2.2.2.2.2⟩

theorem lastValue_snoc (k : List Nat) (ops : List Op) (op : Op) : lastValue k (ops ++ [op]) =
    match valueOf k op with | some v => some v | none => lastValue k ops := by
  unfold lastValue
  rw [List.filterMap_append]
  cases h : valueOf k op <;> simp [h]

theorem lastStatus_snoc (ops : List Op) (op : Op) : lastStatus (ops ++ [op]) =
    match statusIn op with | some v => some v | none => lastStatus ops := by
  unfold lastStatus
  rw [List.filterMap_append]
  cases h : statusIn op <;> simp [h]

/-- After any calls. -/
theorem run_spec (p : Proto) (o : Opts) (ops : List Op) (ho : ∀ op ∈ ops, OpOk op) :
    let s := run (fresh p o) ops
    Inv s ∧ s.reqOpts = o ∧ s.reqProto = p ∧ (∀ k ∉ own, hget k s.headers = lastValue k ops) ∧
    (match lastStatus ops with
      | some (c, r) => s.code = c ∧ s.reason = some r
      | none => s.code = 0 ∧ s.reason = none) := by
  induction ops using List.reverseRecOn with
  | nil => exact ⟨fresh_inv p o, rfl, rfl, fun _ _ => rfl, rfl, rfl⟩
  | append_singleton ops op ih =>
    obtain ⟨i1, i2, i3, i4, i5⟩ := ih (fun x hx => ho x (by simp [hx]))
    have hop := ho op (by simp)
    have e : run (fresh p o) (ops ++ [op]) = (step (run (fresh p o) ops) op).1 := by simp [run]
    rw [e]
    generalize run (fresh p o) ops = s at i1 i2 i3 i4 i5
    obtain ⟨j1, j2, j3⟩ := step_inv i1 hop
    refine ⟨j1, by rw [j2, i2], by rw [j3, i3], ?_, ?_⟩
    · intro k hk
      rw [lastValue_snoc]
      cases op with
      | status c r =>
        simp only [valueOf]
        have : (step s (.status c r)).1.headers = s.headers := by
          unfold step statusSet; simp only [if_neg (show ¬ s.started = true by simp [i1.started])]; split <;> rfl
        rw [this]; exact i4 k hk
      | header k' v =>
        have : (step s (.header k' v)).1.headers = hset k' v s.headers := by
          unfold step headerSet; simp only [if_neg (show ¬ s.started = true by simp [i1.started])]
        rw [this, hget_hset]
        simp only [valueOf]
        by_cases hkk : k' = k
        · simp [hkk]
        · simp [hkk, Ne.symm hkk, i4 k hk]
      | option o' =>
        simp only [valueOf]
        rw [← i4 k hk]
        exact (optionSet_inv i1 hop).2.1 k hk
    · rw [lastStatus_snoc]
      cases op with
      | status c r =>
        simp only [statusIn]
        unfold step statusSet
        simp only [if_neg (show ¬ s.started = true by simp [i1.started])]
        by_cases hc : 100 ≤ c ∧ c ≤ 999
        · rw [if_pos hc, if_neg (by omega)]
          exact ⟨rfl, rfl⟩
        · rw [if_neg hc, if_pos (by omega)]
          exact i5
      | header k' v =>
        simp only [statusIn]
        unfold step headerSet
        simp only [if_neg (show ¬ s.started = true by simp [i1.started])]
        exact i5
      | option o' =>
        simp only [statusIn]
        have := optionSet_inv i1 hop
        have hc : (step s (.option o')).1.code = s.code := this.2.2.2.2.1
        have hr : (step s (.option o')).1.reason = s.reason := this.2.2.2.2.2.1
        rw [hc, hr]; exact i5

theorem mem_iff_hget {h : Headers} (hn : (h.map Prod.fst).Nodup) (k v : List Nat) : (k, v) ∈ h ↔ hget k h = some v := by
  induction h with
  | nil => simp [hget]
  | cons p t ih =>
    obtain ⟨a, b⟩ := p
    simp only [List.map_cons, List.nodup_cons] at hn
    rw [hget, List.mem_cons]
    by_cases e : a = k
    · rw [if_pos e]
      subst e
      constructor
      · rintro (h | h)
        · simp at h; rw [h]
        · exact absurd (List.mem_map_of_mem (f := Prod.fst) h) hn.1
      · intro h; left; simp at h; rw [h]
    · rw [if_neg e, ← ih hn.2]
      constructor
      · rintro (h | h)
        · simp at h; exact absurd h.1.symm e
        · exact h
      · exact .inr

/-- What is chosen when the output starts. -/
theorem settle_spec {s : S} (h : Inv s) (hcl : s.reqOpts.close = true) :
    Inv (settle s) ∧ (∀ k ∉ own, hget k (settle s).headers = hget k s.headers) ∧ (settle s).reqOpts = s.reqOpts ∧
    (settle s).proto = s.proto ∧ (settle s).code = s.code ∧ (settle s).reason = s.reason ∧
    (hasCL (settle s).headers = true ∨ (settle s).opts.chunked = true ∨ (settle s).opts.close = true) := by
  have h1 : Inv (pickCompression s) ∧ (∀ k ∉ own, hget k (pickCompression s).headers = hget k s.headers) ∧
      (pickCompression s).reqOpts = s.reqOpts ∧ (pickCompression s).proto = s.proto ∧ (pickCompression s).code = s.code ∧
      (pickCompression s).reason = s.reason := by
    unfold pickCompression
    split
    · split
      · have := optionSet_inv h (o := optGzip) (by simp)
        exact ⟨this.1, this.2.1, this.2.2.1, this.2.2.2.1, this.2.2.2.2.1, this.2.2.2.2.2.1⟩
      · split
        · have := optionSet_inv h (o := optDeflate) (by simp)
          exact ⟨this.1, this.2.1, this.2.2.1, this.2.2.2.1, this.2.2.2.2.1, this.2.2.2.2.2.1⟩
        · split
          · have := optionSet_inv h (o := optLz4f) (by simp)
            exact ⟨this.1, this.2.1, this.2.2.1, this.2.2.2.1, this.2.2.2.2.1, this.2.2.2.2.2.1⟩
          · exact ⟨h, by simp⟩
    · exact ⟨h, by simp⟩
  obtain ⟨g1, g2, g3, g4, g5, g6⟩ := h1
  unfold settle
  generalize pickCompression s = t at g1 g2 g3 g4 g5 g6
  unfold pickDelimiter
  by_cases hd : (hasCL t.headers || t.opts.chunked || t.opts.close) = true
  · rw [if_pos hd]
    simp only [Bool.or_eq_true] at hd
    exact ⟨g1, g2, g3, g4, g5, g6, by tauto⟩
  · rw [if_neg hd]
    obtain ⟨a1, a2, a3, a4, a5, a6, -⟩ := optionSet_inv g1 (o := optChunked) (by simp)
    have ech : (optionSet t optChunked).2 = true → (optionSet t optChunked).1.opts.chunked = true := by
      unfold optionSet
      rw [if_neg (by simp [g1.started])]
      split
      · simp
      split
      · simp
      split
      · simp
      split
      · simp
      · intro _; simp [applyOpt, Opts.or, optChunked]
    cases e : optionSet t optChunked with
    | mk s1 ok =>
      rw [e] at a1 a2 a3 a4 a5 a6 ech
      simp only at a1 a2 a3 a4 a5 a6 ech ⊢
      by_cases hok : ok = true
      · rw [if_pos hok]
        exact ⟨a1, fun k hk => by rw [a2 k hk, g2 k hk], by rw [a3, g3], by rw [a4, g4], by rw [a5, g5], by rw [a6, g6],
          .inr (.inl (ech hok))⟩
      · rw [if_neg hok]
        obtain ⟨b1, b2, b3, b4, b5, b6, -⟩ := optionSet_inv a1 (o := optClose) (by simp)
        have ecl : (optionSet s1 optClose).1.opts.close = true := by
          unfold optionSet
          rw [if_neg (by simp [a1.started]), if_neg (by simp [optClose, Opts.none]), if_neg (by simp [optClose, Opts.none])]
          have hs1 : s1 = t := by
            have e' := e
            unfold optionSet at e'
            rw [if_neg (by simp [g1.started])] at e'
            split at e'
            · simp at e'; exact e'.1.symm
            split at e'
            · simp at e'; exact e'.1.symm
            split at e'
            · simp at e'; exact e'.1.symm
            split at e'
            · simp at e'; exact e'.1.symm
            · simp only [Prod.mk.injEq] at e'; exact absurd e'.2.symm hok
          rw [hs1, if_neg (by simpa [optClose, Opts.none] using g1.enc), if_neg]
          · simp [applyOpt, Opts.or, optClose]
          · rw [g3]; simp [Opts.meets, optClose, Opts.none, hcl]
        exact ⟨b1, fun k hk => by rw [b2 k hk, a2 k hk, g2 k hk], by rw [b3, a3, g3], by rw [b4, a4, g4], by rw [b5, a5, g5],
          by rw [b6, a6, g6], .inr (.inr ecl)⟩

/-! ## The status line -/

/-- The name of a protocol. -/
def protoName : Proto → List Nat
  | .http09 => bytesOf "HTTP/0.9"
  | .http10 => bytesOf "HTTP/1.0"
  | .http11 => bytesOf "HTTP/1.1"

theorem three_code {n : Nat} (h : 100 ≤ n ∧ n ≤ 999) :
    three n = bytesOf (toString n) ∧ 32 ∉ three n ∧ 13 ∉ three n ∧ (three n).length = 3 := by
  have key : ∀ x : Fin 1000, 100 ≤ x.val → three x.val = bytesOf (toString x.val) ∧ 32 ∉ three x.val ∧ 13 ∉ three x.val ∧
    (three x.val).length = 3 := by decide +kernel
  exact key ⟨n, by omega⟩ h.1

theorem three_zero : three 0 = bytesOf "000" := by decide +kernel

theorem protoText_eq (p : Proto) : protoText p = protoName p ∧ 32 ∉ protoText p ∧ 13 ∉ protoText p ∧ (protoText p).length = 8 := by
  cases p <;> decide

theorem statusOf_line {a b c : List Nat} (ha : 32 ∉ a) (hb : 32 ∉ b) :
    statusOf (a ++ bytesOf " " ++ b ++ bytesOf " " ++ c) = (a, b, c) := by
  have e : a ++ bytesOf " " ++ b ++ bytesOf " " ++ c = a ++ 32 :: (b ++ 32 :: c) := by simp [bytesOf]
  rw [e]
  unfold statusOf
  rw [takeWhile_stop ha, dropWhile_stop ha]
  simp only [List.drop_succ_cons, List.drop_zero]
  rw [takeWhile_stop hb, dropWhile_stop hb]
  simp

/-- Code and reason as they are sent. -/
def sentStatus (ops : List Op) : List Nat × List Nat :=
  match lastStatus ops with
  | some (c, r) => (bytesOf (toString c), r)
  | none => (bytesOf "000", bytesOf "unknown")

/-- A text occurs in another. -/
def Occurs (a b : List Nat) : Prop := ∃ x y, b = x ++ a ++ y

theorem contains_occurs {pat s : List Nat} (h : contains pat s = true) : Occurs pat s := by
  induction s with
  | nil =>
    simp [contains] at h
    exact ⟨[], [], by simp [h]⟩
  | cons x t ih =>
    rw [contains, Bool.or_eq_true] at h
    rcases h with h | h
    · rw [List.isPrefixOf_iff_prefix] at h
      obtain ⟨y, hy⟩ := h
      exact ⟨[], y, by simp [hy]⟩
    · obtain ⟨a, b, e⟩ := ih h
      exact ⟨x :: a, b, by rw [e]; simp⟩

theorem hasCL_iff (h : Headers) : hasCL h = true ↔ ∃ p ∈ h, p.1.map lower = bytesOf "content-length" := by
  unfold hasCL; simp

theorem run_noopt {s : S} {ops : List Op} (h : ∀ op ∈ ops, ∀ o, op ≠ .option o) : (run s ops).opts = s.opts := by
  unfold run
  induction ops generalizing s with
  | nil => rfl
  | cons op ops ih =>
    rw [List.foldl_cons, ih (fun x hx => h x (by simp [hx]))]
    cases op with
    | status c r => unfold step statusSet; simp only; split <;> [rfl; (split <;> rfl)]
    | header k v => unfold step headerSet; simp only; split <;> rfl
    | option o => exact absurd rfl (h _ (by simp) o)

theorem lastValue_isSome {k v : List Nat} {ops : List Op} (h : .header k v ∈ ops) : ∃ w, lastValue k ops = some w := by
  unfold lastValue
  have : v ∈ ops.filterMap (valueOf k) := List.mem_filterMap.2 ⟨_, h, by simp [valueOf]⟩
  cases e : (ops.filterMap (valueOf k)).getLast? with
  | some w => exact ⟨w, rfl⟩
  | none => rw [List.getLast?_eq_none_iff] at e; rw [e] at this; cases this

theorem settle_id {s : S} (h1 : s.opts = .none) (h2 : hasCL s.headers = true) : settle s = s := by
  have e : pickCompression s = s := by
    unfold pickCompression
    rw [if_neg (by rw [h1]; simp [Opts.none])]
  unfold settle pickDelimiter
  rw [e, h2]
  rfl

/-! ## Theorems -/

/-- **C77, proved for texts without line breaks and reasons of up to 32000 bytes.** For every
sequence of calls that set the status, headers and options of a response to any request, the
head that is sent, followed by any body, reads back as: the protocol of the request, the last
valid status, each header that was set exactly once with the last value it was given, the
headers the library adds, nothing else, and then the body.  The body is delimited: there is a
`Content-Length`, or chunked encoding (only for HTTP/1.1), or `Connection: close` and the connection
will be closed. A `Content-Encoding` is one the client mentioned. An application that gives a
`Content-Length` and asks for no options gets neither an encoding nor chunks.
Missing: texts with line breaks (`C77_injection_violated`), long reasons
(`C77_long_reason_violated`). -/
theorem C77_head_partial (p : Proto) (accept : Option (List Nat)) (ops : List Op) (ho : ∀ op ∈ ops, OpOk op)
    (order : List (List Nat) → List (List Nat)) (hord : ∀ l, (order l).Perm l) (body : List Nat) :
    ∃ s blocks hs pr, leader order (run (fresh p (reqOpts p accept)) ops) = .ok (s, blocks) ∧
      readHead (blocks.flatten ++ body) = some (⟨pr, (sentStatus ops).1, (sentStatus ops).2, hs⟩, body) ∧
      (lastStatus ops ≠ none → pr = protoName p) ∧
      (hs.map Prod.fst).Nodup ∧
      (∀ k ∉ own, ∀ v, (k, v) ∈ hs ↔ lastValue k ops = some v) ∧
      ((∃ f ∈ hs, f.1.map lower = bytesOf "content-length") ∨ (bytesOf "Transfer-Encoding", bytesOf "chunked") ∈ hs ∨
        (bytesOf "Connection", bytesOf "close") ∈ hs) ∧
      (∀ v, (bytesOf "Transfer-Encoding", v) ∈ hs → v = bytesOf "chunked" ∧ p = .http11) ∧
      (s.needsClose = true ↔ (bytesOf "Connection", bytesOf "close") ∈ hs) ∧
      (∀ v, (bytesOf "Content-Encoding", v) ∈ hs → ∃ a, accept = some a ∧ Occurs v a) ∧
      ((∀ op ∈ ops, ∀ o, op ≠ .option o) → (∃ k v, .header k v ∈ ops ∧ k.map lower = bytesOf "content-length") →
        ∀ f ∈ hs, f.1 ≠ bytesOf "Content-Encoding" ∧ f.1 ≠ bytesOf "Transfer-Encoding" ∧ f.1 ≠ bytesOf "Connection") ∧
      (∀ op, step s op = (s, false)) := by
  have hno := run_noopt (s := fresh p (reqOpts p accept)) (ops := ops)
  obtain ⟨i1, i2, i3, i4, i5⟩ := run_spec p (reqOpts p accept) ops ho
  generalize run (fresh p (reqOpts p accept)) ops = s0 at i1 i2 i3 i4 i5 hno
  have hcl : s0.reqOpts.close = true := by
    rw [i2]; unfold reqOpts; cases accept <;> rfl
  obtain ⟨j1, j2, j3, j4, j5, j6, j7⟩ := settle_spec i1 hcl
  -- the status line
  have hproto := protoText_eq s0.proto
  have hcode : three s0.code = (sentStatus ops).1 ∧ 32 ∉ three s0.code ∧ 13 ∉ three s0.code ∧ (three s0.code).length = 3 ∧
      s0.reason.getD (bytesOf "unknown") = (sentStatus ops).2 ∧ 13 ∉ (sentStatus ops).2 ∧ (sentStatus ops).2.length ≤ 32000 := by
    unfold sentStatus
    cases hl : lastStatus ops with
    | none =>
      rw [hl] at i5
      rw [i5.1, i5.2, three_zero]
      exact ⟨rfl, by decide, by decide, by decide, rfl, by decide, by decide⟩
    | some cr =>
      obtain ⟨c, r⟩ := cr
      rw [hl] at i5
      obtain ⟨hc, hr⟩ := i5
      have h1 := i1.code (by rw [hr]; simp)
      have h2 := i1.reason r hr
      have h3 := three_code h1
      rw [hr]
      rw [hc] at h3 ⊢
      exact ⟨h3.1, h3.2.1, h3.2.2.1, h3.2.2.2, rfl, h2.1.1, h2.2⟩
  obtain ⟨c1, c2, c3, c4, c5, c6, c7⟩ := hcode
  have hlen : (statusLine s0).length < defSize := by
    unfold statusLine
    rw [c5]
    have e1 : (bytesOf " ").length = 1 := by decide
    simp only [List.length_append, hproto.2.2.2, c4, e1, List.length_cons, List.length_nil]
    unfold defSize; omega
  have hfirst : first s0 = ⟨defSize, (statusLine s0).length, statusLine s0⟩ := by
    unfold first; simp only; rw [if_pos hlen]
  have hgood : Good ([], first s0) := by
    rw [hfirst]
    exact ⟨rfl, by simp only; omega, by simp only; decide⟩
  -- the headers
  have hperm : (order ((settle s0).headers.map Prod.fst)).Perm ((settle s0).headers.map Prod.fst) := hord _
  have hsz : ∀ k ∈ order ((settle s0).headers.map Prod.fst), k.length < 2 ^ 63 ∧ ((hget k (settle s0).headers).getD []).length < 2 ^ 63 := by
    intro k hk
    have hk' := hperm.mem_iff.mp hk
    obtain ⟨⟨a, b⟩, hm, rfl⟩ := List.mem_map.mp hk'
    have hok := j1.ok _ hm
    rw [(mem_iff_hget j1.nodup a b).mp hm]
    exact ⟨hok.1.2.2, hok.2.1.2.2⟩
  obtain ⟨p1, e1, g1, f1⟩ := appendHeaders_ok (h := (settle s0).headers) hgood hsz
  obtain ⟨p2, e2, g2, f2⟩ := append_ok g1 (s := [13, 10]) (by decide)
  generalize hhs : (order ((settle s0).headers.map Prod.fst)).map (fun k => (k, (hget k (settle s0).headers).getD [])) = hs at f1
  have hhp : hs.Perm (settle s0).headers := by
    rw [← hhs]
    have := hperm.map (fun k => (k, (hget k (settle s0).headers).getD []))
    rwa [pairs_eq j1.nodup] at this
  have hnd : (hs.map Prod.fst).Nodup := (hhp.map Prod.fst).nodup_iff.mpr j1.nodup
  have hmem : ∀ k v, (k, v) ∈ hs ↔ hget k (settle s0).headers = some v := fun k v => by
    rw [hhp.mem_iff]; exact mem_iff_hget j1.nodup k v
  refine ⟨{ settle s0 with started := true }, (p2.1 ++ [p2.2]).map B.data, hs, protoText s0.proto, ?_, ?_, ?_, hnd, ?_, ?_, ?_, ?_, ?_, ?_, ?_⟩
  · unfold leader
    simp only [e1, Out.ok_bind, e2]
  · have hflat : ((p2.1 ++ [p2.2]).map B.data).flatten = statusLine s0 ++ hs.flatMap fieldText ++ [13, 10] := by
      show flat p2 = _
      rw [f2, f1]
      simp [flat, hfirst]
    rw [hflat]
    have hst : statusLine s0 = (protoText s0.proto ++ bytesOf " " ++ three s0.code ++ bytesOf " " ++ (sentStatus ops).2) ++ [13, 10] := by
      unfold statusLine; rw [c5]
    have h13 : 13 ∉ protoText s0.proto ++ bytesOf " " ++ three s0.code ++ bytesOf " " ++ (sentStatus ops).2 := by
      have h1 := hproto.2.2.1
      have h2 : 13 ∉ bytesOf " " := by decide
      simp only [List.mem_append, not_or]
      exact ⟨⟨⟨⟨h1, h2⟩, c3⟩, h2⟩, c6⟩
    have e3 : statusLine s0 ++ hs.flatMap fieldText ++ [13, 10] ++ body =
        (protoText s0.proto ++ bytesOf " " ++ three s0.code ++ bytesOf " " ++ (sentStatus ops).2) ++ [13, 10] ++
          (hs.flatMap fieldText ++ [13, 10] ++ body) := by rw [hst]; simp only [List.append_assoc]
    unfold readHead
    rw [e3, readLine_line h13]
    simp only
    rw [readFields_ok (fun q hq => j1.ok q (hhp.mem_iff.mp hq)) body _ (by
      have := flat_length hs
      simp only [List.length_append, List.length_cons]; omega)]
    rw [statusOf_line hproto.2.1 c2]
    simp [c1]
  · intro hls
    rw [hproto.1]
    rcases i1.proto with h | h
    · rw [h, i3]
    · exfalso
      cases hl : lastStatus ops with
      | none => exact hls hl
      | some cr => rw [hl] at i5; rw [i5.2] at h; simp at h
  · intro k hk v
    rw [hmem, j2 k hk, i4 k hk]
  · rcases j7 with h | h | h
    · left
      rw [hasCL_iff] at h
      obtain ⟨f, hf, e⟩ := h
      exact ⟨f, hhp.mem_iff.mpr hf, e⟩
    · right; left
      rw [hmem, j1.te, if_pos h]
    · right; right
      rw [hmem, j1.conn, if_pos h]
  · intro v hv
    rw [hmem, j1.te] at hv
    by_cases hc : (settle s0).opts.chunked = true
    · rw [if_pos hc] at hv
      have ha := (j1.allowed.1 hc).1
      rw [j3, i2] at ha
      refine ⟨by simp at hv; exact hv.symm, ?_⟩
      unfold reqOpts at ha
      cases accept <;> simpa using ha
    · rw [if_neg hc] at hv; simp at hv
  · show (settle s0).needsClose = true ↔ _
    rw [hmem, j1.conn, j1.needs]
    by_cases hc : (settle s0).opts.close = true
    · simp [hc]
    · simp [hc]
  · intro v hv
    rw [hmem, j1.ce] at hv
    have ha := j1.allowed.2.2
    rw [j3, i2] at ha
    cases accept with
    | none =>
      exfalso
      simp only [reqOpts, Opts.none, Bool.false_eq_true, imp_false, Bool.not_eq_true] at ha
      rw [ha.1, ha.2.1, ha.2.2] at hv
      simp at hv
    | some a =>
      refine ⟨a, rfl, ?_⟩
      simp only [reqOpts] at ha
      by_cases h1 : (settle s0).opts.gzip = true
      · rw [if_pos h1] at hv; simp only [Option.some.injEq] at hv; rw [← hv]; exact contains_occurs (ha.1 h1)
      · rw [if_neg h1] at hv
        by_cases h2 : (settle s0).opts.deflate = true
        · rw [if_pos h2] at hv; simp only [Option.some.injEq] at hv; rw [← hv]; exact contains_occurs (ha.2.1 h2)
        · rw [if_neg h2] at hv
          by_cases h3 : (settle s0).opts.lz4f = true
          · rw [if_pos h3] at hv; simp only [Option.some.injEq] at hv; rw [← hv]; exact contains_occurs (ha.2.2 h3)
          · rw [if_neg h3] at hv; simp at hv
  · rintro h1 ⟨k, v, hk, hkl⟩ ⟨a, b⟩ hf
    have ho0 : s0.opts = .none := hno h1
    have hcl0 : hasCL s0.headers = true := by
      obtain ⟨w, hw⟩ := lastValue_isSome hk
      rw [hasCL_iff]
      refine ⟨(k, w), (mem_iff_hget i1.nodup k w).2 ?_, hkl⟩
      rw [i4 k ((ho _ hk).2)]
      exact hw
    rw [hmem, settle_id ho0 hcl0] at hf
    have e1 := i1.te
    have e2 := i1.ce
    have e3 := i1.conn
    rw [ho0] at e1 e2 e3
    refine ⟨?_, ?_, ?_⟩ <;> rintro rfl
    · rw [e2] at hf; simp [Opts.none] at hf
    · rw [e1] at hf; simp [Opts.none] at hf
    · rw [e3] at hf; simp [Opts.none] at hf
  · intro op
    cases op <;> rfl

/-- The calls of `mtev_http_response_ok(ctx, "text/html")` and a header of the application. -/
def example1 : List Op :=
  [.status 200 (bytesOf "OK"), .header (bytesOf "Content-Type") (bytesOf "text/html"), .option optChunked,
   .header (bytesOf "X-A") (bytesOf "1"), .header (bytesOf "X-A") (bytesOf "2: b")]

example : ∀ op ∈ example1, OpOk op := by
  intro op h
  simp only [example1, List.mem_cons, List.not_mem_nil, or_false] at h
  rcases h with rfl | rfl | rfl | rfl | rfl <;> simp only [OpOk, FieldOk, Line] <;> decide

/-- `leader` as a text. -/
def headText (s : S) : Option (List Nat) :=
  match leader id s with
  | .ok (_, bs) => some bs.flatten
  | _ => none

example : headText (run (fresh .http11 (reqOpts .http11 (some (bytesOf "gzip")))) example1) =
    some (bytesOf "HTTP/1.1 200 OK\r\nContent-Type: text/html\r\nTransfer-Encoding: chunked\r\nX-A: 2: b\r\nVary: Accept-Encoding\r\nContent-Encoding: gzip\r\n\r\n") := by
  decide +kernel

/-- A response with a length. -/
example : headText (run (fresh .http11 (reqOpts .http11 (some (bytesOf "gzip")))) [.status 200 (bytesOf "OK"),
    .header (bytesOf "content-Length") (bytesOf "12")]) = some (bytesOf "HTTP/1.1 200 OK\r\ncontent-Length: 12\r\n\r\n") := by
  decide +kernel

/-- **C77, violated: line breaks.** A value with a line break is written as it is.  The login page
puts the field `whereto` of the posted form in the header `Location`; posting this form (with a
correct password) makes the response contain a header nobody set. -/
theorem C77_injection_violated :
    let form := bytesOf "username=a&password=b&whereto=%2F%0D%0ASet-Cookie%3A%20admin%3D1"
    let ops : List Op := [.status 302 (bytesOf "REDIRECT"), .header (bytesOf "Content-Type") (bytesOf "text/html"), .option optChunked,
      .header (bytesOf "Location") (Cookie.location (Cookie.loginForm form))]
    (∃ t h, headText (run (fresh .http11 (reqOpts .http11 none)) ops) = some t ∧ readHead t = some (h, []) ∧
      (bytesOf "Set-Cookie", bytesOf "admin=1") ∈ h.fields) ∧
    lastValue (bytesOf "Set-Cookie") ops = none := by
  refine ⟨⟨bytesOf "HTTP/1.1 302 REDIRECT\r\nContent-Type: text/html\r\nTransfer-Encoding: chunked\r\nLocation: /\r\nSet-Cookie: admin=1\r\n\r\n",
    ⟨bytesOf "HTTP/1.1", bytesOf "302", bytesOf "REDIRECT", [(bytesOf "Content-Type", bytesOf "text/html"),
      (bytesOf "Transfer-Encoding", bytesOf "chunked"), (bytesOf "Location", bytesOf "/"), (bytesOf "Set-Cookie", bytesOf "admin=1")]⟩,
    ?_, ?_, ?_⟩, ?_⟩
  · decide +kernel
  · decide +kernel
  · decide +kernel
  · decide +kernel

/-- **C77, violated: refused encodings.** A client that says it does not accept gzip gets it. -/
theorem C77_refused_encoding_violated :
    headText (run (fresh .http11 (reqOpts .http11 (some (bytesOf "gzip;q=0"))))
      [.status 200 (bytesOf "OK"), .option optChunked]) =
    some (bytesOf "HTTP/1.1 200 OK\r\nTransfer-Encoding: chunked\r\nVary: Accept-Encoding\r\nContent-Encoding: gzip\r\n\r\n") := by
  decide +kernel

theorem append_bad {p : List B × B} (h1 : p.2.allocd = defSize) (h2 : defSize < p.2.size) (h3 : p.2.size < 2 ^ 62)
    {s : List Nat} (hs : s.length < 2 ^ 63) : append p s = .ub := by
  have hsp : space p.2 = defSize + 2 ^ 64 - p.2.size := by
    unfold space; rw [h1]; exact sub64_gt (by omega) h2
  have hd : defSize = 32704 := rfl
  have hn : ¬ s.length > space p.2 := by rw [hsp]; omega
  unfold append
  simp only [if_neg hn]
  rw [if_pos (by omega)]

/-- **C77, violated: long reasons.** With a reason of 32690 bytes or more the status line does not fit
the buffer, its untruncated length is taken as the size of the buffer, and the next header is
written beyond it. -/
theorem C77_long_reason_violated (reason : List Nat) (h1 : 32690 ≤ reason.length) (h2 : reason.length < 2 ^ 61)
    (order : List (List Nat) → List (List Nat)) (hord : ∀ l, (order l).Perm l) :
    leader order (run (fresh .http11 (reqOpts .http11 none)) [.status 200 reason]) = .ub := by
  have hrun : run (fresh .http11 (reqOpts .http11 none)) [.status 200 reason] =
      { fresh .http11 (reqOpts .http11 none) with proto := .http11, code := 200, reason := some reason } := rfl
  rw [hrun]
  generalize hs : ({ fresh .http11 (reqOpts .http11 none) with proto := .http11, code := 200, reason := some reason } : S) = s
  have hset : (settle s).headers = [(bytesOf "Transfer-Encoding", bytesOf "chunked")] := by rw [← hs]; rfl
  have hord1 : order ((settle s).headers.map Prod.fst) = [bytesOf "Transfer-Encoding"] := by
    have := hord ((settle s).headers.map Prod.fst)
    rw [hset] at this ⊢
    exact List.perm_singleton.mp this
  have hlen : (statusLine s).length = reason.length + 15 := by
    rw [← hs]
    have e1 : (protoText .http11).length = 8 := by decide
    have e2 : (bytesOf " ").length = 1 := by decide
    have e3 : (three 200).length = 3 := by decide +kernel
    simp only [statusLine, List.length_append, e1, e2, e3, Option.getD_some, List.length_cons, List.length_nil]
    omega
  unfold leader
  simp only [hord1]
  have hbad : append ([], first s) (bytesOf "Transfer-Encoding") = .ub := by
    apply append_bad
    · rfl
    · show defSize < (statusLine s).length
      rw [hlen]; unfold defSize; omega
    · show (statusLine s).length < _
      rw [hlen]; omega
    · decide
  simp only [appendHeaders, appendHeader, hbad, Out.ub_bind]

example : ∃ reason : List Nat, 32690 ≤ reason.length ∧ reason.length < 2 ^ 61 := ⟨List.replicate 32690 65, by rw [List.length_replicate], by rw [List.length_replicate]; decide⟩

end Mtev.RespHead
