import Verif.Mem

/-!
Model of in-place URL decoding and query-string parsing:
`inplace_urldecode` (`/repo/src/mtev_http_private.h` lines 128-151),
`mtev_http1_process_querystring` (`/repo/src/mtev_http1.c` lines 808-831; the
HTTP/2 copy at `/repo/src/mtev_http2.c` lines 842-865 is the same text).
-/
namespace Mtev.Query

/-! ### In-place decoding -/

/-- The three digit tests of mtev_http_private.h:134-136 (`char` is signed, so
bytes above 127 fail all of them). -/
def hexOf (x : Nat) : Option Nat :=
  if 48 ≤ x ∧ x ≤ 57 then some (x - 48)
  else if 97 ≤ x ∧ x ≤ 102 then some (x - 97 + 10)
  else if 65 ≤ x ∧ x ≤ 70 then some (x - 65 + 10)
  else none

/-- One byte of memory. -/
def peek (m : Block) (i : Nat) : Out Nat :=
  match m[i]? with
  | some x => .ok x
  | none => .ub

/-- The `for` loop of mtev_http_private.h:133-138: `some ord` if it runs to
`i == 3`.  The second digit is only read if the first is one. -/
def escape (m : Block) (c : Nat) : Out (Option Nat) := do
  let a ← peek m (c + 1)
  match hexOf a with
  | none => .ok none
  | some x => do
    let b ← peek m (c + 2)
    match hexOf b with
    | none => .ok none
    | some y => .ok (some ((x <<< 4) ||| y))

theorem escape_bound {m : Block} {c v : Nat} (h : escape m c = .ok (some v)) :
    c + 2 < m.length := by
  unfold escape peek at h
  cases h1 : m[c + 1]? with
  | none => simp [h1] at h
  | some a =>
    simp only [h1, Out.ok_bind] at h
    cases h2 : hexOf a with
    | none => simp [h2] at h
    | some x =>
      simp only [h2] at h
      cases h3 : m[c + 2]? with
      | none => simp [h3] at h
      | some b => exact (List.getElem?_eq_some_iff.1 h3).1

/-- The `while` loop of mtev_http_private.h:130-150: `c` is the read position,
`o` the write position, both into the same memory. -/
def decodeLoop (m : Block) (c o : Nat) : Out Block :=
  match hx : m[c]? with
  | none => .ub
  | some x =>
    if x = 0 then m.write o [0]                                       -- :150
    else if x = 37 then
      match he : escape m c with
      | .ok (some v) =>                                                -- :139-143
        match hw : m.write o [v % 256] with
        | .ok m' => decodeLoop m' (c + 3) (o + 1)
        | _ => .ub
      | .ok none =>                                                    -- :148
        match hw : m.write o [x] with
        | .ok m' => decodeLoop m' (c + 1) (o + 1)
        | _ => .ub
      | _ => .ub
    else if x = 43 then                                                -- :145-148
      match hp : m.write c [32] with
      | .ok m1 =>
        match hw : m1.write o [32] with
        | .ok m' => decodeLoop m' (c + 1) (o + 1)
        | _ => .ub
      | _ => .ub
    else
      match hw : m.write o [x] with                                    -- :148
      | .ok m' => decodeLoop m' (c + 1) (o + 1)
      | _ => .ub
termination_by m.length - c
decreasing_by
  · have := Block.write_length hw; have := (List.getElem?_eq_some_iff.1 hx).1; omega
  · have := Block.write_length hw; have := (List.getElem?_eq_some_iff.1 hx).1; omega
  · have := Block.write_length hw; have := Block.write_length hp
    have := (List.getElem?_eq_some_iff.1 hx).1; omega
  · have := Block.write_length hw; have := (List.getElem?_eq_some_iff.1 hx).1; omega

/-- `inplace_urldecode(p)`, mtev_http_private.h:128-151: `p` points `off` bytes
into the memory `m`. -/
def inplace (m : Block) (off : Nat) : Out Block := decodeLoop m off off

/-- The same computation on the string alone. -/
def decode : List Nat → List Nat
  | [] => []
  | 37 :: a :: b :: t =>
    match hexOf a, hexOf b with
    | some x, some y => (16 * x + y) :: decode t
    | _, _ => 37 :: decode (a :: b :: t)
  | x :: t => (if x = 43 then 32 else x) :: decode t
termination_by l => l.length

theorem hexOf_lt {x v : Nat} (h : hexOf x = some v) : v < 16 := by
  unfold hexOf at h
  split at h
  · simp only [Option.some.injEq] at h; omega
  · split at h
    · simp only [Option.some.injEq] at h; omega
    · split at h
      · simp only [Option.some.injEq] at h; omega
      · simp at h

theorem hexOf_zero : hexOf 0 = none := by decide

theorem write_at {pre : List Nat} {x y : Nat} {post : List Nat} :
    Block.write (pre ++ x :: post) pre.length [y] = .ok (pre ++ y :: post) := by
  rw [Block.write_ok (by simp)]
  simp

/-- `decode` on a character that is not the start of an escape. -/
theorem decode_plain {x : Nat} {t : List Nat} (h : x ≠ 37) :
    decode (x :: t) = (if x = 43 then 32 else x) :: decode t := by
  rw [decode.eq_def]
  split
  · rename_i heq; cases heq
  · rename_i heq; simp only [List.cons.injEq] at heq; exact absurd heq.1 h
  · rename_i h1 heq; simp only [List.cons.injEq] at heq; obtain ⟨e1, e2⟩ := heq; subst e1 e2; rfl

theorem decode_escape {a b x y : Nat} {t : List Nat} (ha : hexOf a = some x) (hb : hexOf b = some y) :
    decode (37 :: a :: b :: t) = (16 * x + y) :: decode t := by
  rw [decode.eq_def]; simp only [ha, hb]

/-- `decode` on a `%` that is not followed by two digits. -/
theorem decode_bad {t : List Nat}
    (h : ∀ a b r x y, t = a :: b :: r → hexOf a = some x → hexOf b = some y → False) :
    decode (37 :: t) = 37 :: decode t := by
  rcases t with _ | ⟨a, _ | ⟨b, r⟩⟩
  · rw [decode.eq_def]; simp
  · rw [decode.eq_def]; simp
  · rw [decode.eq_def]
    simp only
    cases ha : hexOf a with
    | none => rfl
    | some x =>
      cases hb : hexOf b with
      | none => rfl
      | some y => exact (h a b r x y rfl ha hb).elim

theorem combine {x y : Nat} (hx : x < 16) (hy : y < 16) : ((x <<< 4) ||| y) % 256 = 16 * x + y := by
  rw [Nat.shiftLeft_eq, or_eq_add 4 (by omega) (by omega)]; omega

/-- The escape a text starts with, after its `%`. -/
def escText : List Nat → Option Nat
  | a :: b :: _ =>
    match hexOf a, hexOf b with
    | some x, some y => some ((x <<< 4) ||| y)
    | _, _ => none
  | _ => none

/-- What `escape` computes in memory: the text at `c` followed by a NUL. -/
theorem escape_spec {pre t post : List Nat} (ht : 0 ∉ t) :
    escape (pre ++ 37 :: (t ++ 0 :: post)) pre.length =
      .ok (escText t) := by
  have h1 : (pre ++ 37 :: (t ++ 0 :: post))[pre.length + 1]? = (t ++ 0 :: post)[0]? := by
    rw [List.getElem?_append_right (by omega)]; simp
  have h2 : (pre ++ 37 :: (t ++ 0 :: post))[pre.length + 2]? = (t ++ 0 :: post)[1]? := by
    rw [List.getElem?_append_right (by omega)]
    simp only [Nat.add_sub_cancel_left]; rfl
  unfold escape peek
  rw [h1, h2]
  rcases t with _ | ⟨a, _ | ⟨b, r⟩⟩
  · simp [hexOf_zero, escText]
  · cases ha : hexOf a <;> simp [ha, hexOf_zero, escText]
  · cases ha : hexOf a with
    | none => simp [ha, escText]
    | some x => cases hb : hexOf b <;> simp [ha, hb, escText]

/-- The loop in memory: `out` is what has been written, `gap` the stale bytes
between write and read position. -/
theorem decodeLoop_spec (n : Nat) : ∀ (out gap t post : List Nat), t.length ≤ n → 0 ∉ t →
    ∃ tail, decodeLoop (out ++ gap ++ t ++ 0 :: post) (out.length + gap.length) out.length =
        .ok (out ++ decode t ++ 0 :: (tail ++ post)) ∧
      (decode t).length + tail.length = gap.length + t.length := by
  induction n with
  | zero =>
    intro out gap t post hn ht
    have : t = [] := List.length_eq_zero_iff.1 (by omega)
    subst this
    rw [decodeLoop.eq_def]
    have h1 : (out ++ gap ++ [] ++ 0 :: post)[out.length + gap.length]? = some 0 := by
      rw [List.getElem?_append_right (by simp)]; simp
    split
    · rename_i h; rw [h1] at h; cases h
    rename_i x hx
    rw [h1] at hx
    cases hx
    rw [if_pos rfl]
    cases gap with
    | nil =>
      refine ⟨[], ?_, by simp [decode]⟩
      simp only [List.append_nil, decode, List.nil_append]
      exact write_at
    | cons g gs =>
      refine ⟨gs ++ [0], ?_, by simp [decode]⟩
      simp only [List.append_nil, decode, List.append_assoc, List.cons_append, List.nil_append]
      exact write_at
  | succ n ih =>
    intro out gap t post hn ht
    rcases t with _ | ⟨c, r⟩
    · exact ih out gap [] post (by simp) ht
    have hc0 : c ≠ 0 := fun h => ht (by simp [h])
    have hr0 : 0 ∉ r := fun h => ht (by simp [h])
    have h1 : (out ++ gap ++ (c :: r) ++ 0 :: post)[out.length + gap.length]? = some c := by
      rw [List.append_assoc, List.getElem?_append_right (by simp)]; simp
    -- writing one byte at `o`, having consumed `c :: used`
    have hwr : ∀ (used rest : List Nat) (z v : Nat),
        ∃ gap', Block.write (out ++ gap ++ (z :: used ++ rest) ++ 0 :: post) out.length [v] =
          .ok ((out ++ [v]) ++ gap' ++ rest ++ 0 :: post) ∧ gap'.length = gap.length + used.length := by
      intro used rest z v
      cases gap with
      | nil =>
        refine ⟨used, ?_, by simp⟩
        have := @write_at out z v (used ++ rest ++ 0 :: post)
        simpa using this
      | cons g gs =>
        refine ⟨gs ++ z :: used, ?_, by simp; omega⟩
        have := @write_at out g v (gs ++ z :: used ++ rest ++ 0 :: post)
        simpa using this
    have hnext : ∀ (used rest : List Nat) (z v : Nat) (k : Nat), k = used.length + 1 →
        z :: used ++ rest = c :: r → decode (c :: r) = v :: decode rest → rest.length ≤ n → 0 ∉ rest →
        ∀ (m : Block), m = out ++ gap ++ (z :: used ++ rest) ++ 0 :: post → ∃ m' tail,
          m.write out.length [v] = .ok m' ∧
          decodeLoop m' (out.length + gap.length + k) (out.length + 1) =
            .ok (out ++ decode (c :: r) ++ 0 :: (tail ++ post)) ∧
          (decode (c :: r)).length + tail.length = gap.length + (c :: r).length := by
      intro used rest z v k hk hsplit hdec hlen h0 m hm
      obtain ⟨gap', hw, hg⟩ := hwr used rest z v
      obtain ⟨tail, ht1, ht2⟩ := ih (out ++ [v]) gap' rest post hlen h0
      refine ⟨_, tail, hm ▸ hw, ?_, ?_⟩
      · have e1 : (out ++ [v]).length + gap'.length = out.length + gap.length + k := by
          simp; omega
        have e2 : (out ++ [v]).length = out.length + 1 := by simp
        rw [e1, e2] at ht1
        rw [ht1, hdec]
        simp
      · rw [← hsplit] at *
        rw [hdec]
        simp only [List.length_cons, List.length_append] at ht2 ⊢
        omega
    rw [decodeLoop.eq_def]
    split
    · rename_i h; rw [h1] at h; cases h
    rename_i x hx
    rw [h1] at hx
    cases hx
    rw [if_neg hc0]
    by_cases h37 : c = 37
    · rw [if_pos h37]
      subst h37
      have hesc := escape_spec (pre := out ++ gap) (t := r) (post := post) hr0
      rw [List.length_append] at hesc
      have hmem : out ++ gap ++ (37 :: r) ++ 0 :: post = out ++ gap ++ 37 :: (r ++ 0 :: post) := by simp
      rw [← hmem] at hesc
      -- the malformed case
      have hbad : (∀ a b q x y, r = a :: b :: q → hexOf a = some x → hexOf b = some y → False) →
          ∃ m' tail, Block.write (out ++ gap ++ (37 :: r) ++ 0 :: post) out.length [37] = .ok m' ∧
          decodeLoop m' (out.length + gap.length + 1) (out.length + 1) =
            .ok (out ++ decode (37 :: r) ++ 0 :: (tail ++ post)) ∧
          (decode (37 :: r)).length + tail.length = gap.length + (37 :: r).length := fun hb =>
        hnext [] r 37 37 1 rfl rfl (decode_bad hb) (by simpa using hn) hr0 _ (by simp)
      have hgood : ∀ a b q x y, r = a :: b :: q → hexOf a = some x → hexOf b = some y →
          ∃ m' tail, Block.write (out ++ gap ++ (37 :: r) ++ 0 :: post) out.length [16 * x + y] = .ok m' ∧
          decodeLoop m' (out.length + gap.length + 3) (out.length + 1) =
            .ok (out ++ decode (37 :: r) ++ 0 :: (tail ++ post)) ∧
          (decode (37 :: r)).length + tail.length = gap.length + (37 :: r).length := by
        intro a b q x y hr ha hb
        subst hr
        exact hnext [a, b] q 37 (16 * x + y) 3 rfl rfl (decode_escape ha hb) (by simp at hn; omega)
          (fun h => hr0 (by simp [h])) _ (by simp)
      -- compare with what escape says
      have hcase : (∃ a b q x y, r = a :: b :: q ∧ hexOf a = some x ∧ hexOf b = some y) ∨
          (∀ a b q x y, r = a :: b :: q → hexOf a = some x → hexOf b = some y → False) := by
        by_cases h : ∃ a b q x y, r = a :: b :: q ∧ hexOf a = some x ∧ hexOf b = some y
        · exact .inl h
        · exact .inr fun a b q x y h1 h2 h3 => h ⟨a, b, q, x, y, h1, h2, h3⟩
      rcases hcase with ⟨a, b, q, x, y, hr, ha, hb⟩ | hno
      · have hev : escape (out ++ gap ++ (37 :: r) ++ 0 :: post) (out.length + gap.length) =
            .ok (some ((x <<< 4) ||| y)) := by rw [hesc, hr]; simp [ha, hb, escText]
        obtain ⟨m', tail, hw, hd, hl⟩ := hgood a b q x y hr ha hb
        rw [← combine (hexOf_lt ha) (hexOf_lt hb)] at hw
        split
        · rename_i v he
          rw [hev] at he; cases he
          split
          · rename_i m2 he2; rw [hw] at he2; cases he2; exact ⟨tail, hd, hl⟩
          · rename_i he2; exact absurd hw (he2 m')
        · rename_i he; rw [hev] at he; cases he
        · rename_i h3 h4; exact absurd hev (h3 _)
      · have hev : escape (out ++ gap ++ (37 :: r) ++ 0 :: post) (out.length + gap.length) = .ok none := by
          rw [hesc]
          rcases r with _ | ⟨a, _ | ⟨b, q⟩⟩
          · rfl
          · rfl
          · cases ha : hexOf a with
            | none => simp [escText, ha]
            | some x =>
              cases hb : hexOf b with
              | none => simp [escText, ha, hb]
              | some y => exact (hno a b q x y rfl ha hb).elim
        obtain ⟨m', tail, hw, hd, hl⟩ := hbad hno
        split
        · rename_i v he; rw [hev] at he; cases he
        · split
          · rename_i m2 he2; rw [hw] at he2; cases he2; exact ⟨tail, hd, hl⟩
          · rename_i he2; exact absurd hw (he2 m')
        · rename_i h3 h4; exact absurd hev h4
    · rw [if_neg h37]
      by_cases h43 : c = 43
      · rw [if_pos h43]
        subst h43
        have hp : Block.write (out ++ gap ++ (43 :: r) ++ 0 :: post) (out.length + gap.length) [32] =
            .ok (out ++ gap ++ (32 :: r) ++ 0 :: post) := by
          have := @write_at (out ++ gap) 43 32 (r ++ 0 :: post)
          simpa using this
        have hdec : decode (43 :: r) = 32 :: decode r := by rw [decode_plain (by decide)]; rfl
        obtain ⟨gap', hw, hg⟩ := hwr [] r 32 32
        obtain ⟨tail, ht1, ht2⟩ := ih (out ++ [32]) gap' r post (by simpa using hn) hr0
        have hw' : Block.write (out ++ gap ++ (32 :: r) ++ 0 :: post) out.length [32] =
            .ok ((out ++ [32]) ++ gap' ++ r ++ 0 :: post) := by simpa using hw
        have e1 : (out ++ [32]).length + gap'.length = out.length + gap.length + 1 := by
          simp at hg; simp; omega
        have e2 : (out ++ [32]).length = out.length + 1 := by simp
        rw [e1, e2] at ht1
        split
        · rename_i m1 he
          rw [hp] at he; cases he
          split
          · rename_i m2 he2
            rw [hw'] at he2; cases he2
            refine ⟨tail, ?_, ?_⟩
            · rw [ht1, hdec]; simp
            · rw [hdec]; simp only [List.length_cons, List.length_append, List.length_nil] at *; omega
          · rename_i he2; exact absurd hw' (he2 _)
        · rename_i he; exact absurd hp (he _)
      · rw [if_neg h43]
        obtain ⟨m', tail, hw, hd, hl⟩ := hnext [] r c c 1 rfl rfl
          (by rw [decode_plain h37, if_neg h43]) (by simpa using hn) hr0 _ rfl
        have hw' : Block.write (out ++ gap ++ (c :: r) ++ 0 :: post) out.length [c] = .ok m' := by
          simpa using hw
        split
        · rename_i m2 he2; rw [hw'] at he2; cases he2; exact ⟨tail, hd, hl⟩
        · rename_i he2; exact absurd hw' (he2 m')

/-! ### Query-string parsing -/

/-- Text up to the first `d` and, if there is one, the text after it
(`strchr` and the cut at `*cp++ = 0`, mtev_http1.c:811-813,819,825). -/
def cutAt (d : Nat) : List Nat → List Nat × Option (List Nat)
  | [] => ([], none)
  | x :: t => if x = d then ([], some t) else
    let (a, b) := cutAt d t
    (x :: a, b)

/-- `strtok_r(_, "&", _)` in a loop (mtev_http1.c:815-817): the maximal
non-empty runs of characters other than `&`. -/
def tokens : List Nat → List Nat → List (List Nat)
  | [], cur => if cur = [] then [] else [cur]
  | x :: t, cur =>
    if x = 38 then (if cur = [] then tokens t [] else cur :: tokens t [])
    else tokens t (cur ++ [x])

/-- A C string seen through `strlen`. -/
def upToNul (s : List Nat) : List Nat := s.takeWhile (· ≠ 0)

/-- The key and value one token contributes (mtev_http1.c:818-829).
Simplification: the in-place edits of the token are written as functions on the
text, which `decodeLoop_spec` justifies (decoding stays inside the token). -/
def param (tok : List Nat) : List Nat × Option (List Nat) :=
  match cutAt 61 tok with
  | (k, none) => (upToNul (decode k), none)
  | (k, some v) => (upToNul (decode k), some (upToNul (decode v)))

/-- `mtev_hash_store` on the query-string table: an existing key is kept
(mtev_http1.c:822,828). -/
def store (tbl : List (List Nat × Option (List Nat))) (kv : List Nat × Option (List Nat)) :
    List (List Nat × Option (List Nat)) :=
  if tbl.any (fun e => e.1 = kv.1) then tbl else tbl ++ [kv]

/-- What remains in the request after `mtev_http1_process_querystring` and the
decoding of the path at mtev_http1.c:1708-1709. -/
structure Parsed where
  path : List Nat
  origQs : Option (List Nat)
  params : List (List Nat × Option (List Nat))
deriving DecidableEq, Repr

/-- mtev_http1.c:808-831 followed by :1709. -/
def parseUri (uri : List Nat) : Parsed :=
  match cutAt 63 uri with
  | (p, none) => ⟨upToNul (decode p), none, []⟩
  | (p, some q) => ⟨upToNul (decode p), some q, ((tokens q []).map param).foldl store []⟩

end Mtev.Query
