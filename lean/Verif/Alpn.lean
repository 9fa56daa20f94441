import Verif.TlsCtx
import Verif.Mem

/-!
# Choosing an application protocol

Model of `src/eventer/eventer_SSL_fd_opset.c:1137-1254`, of the macro
`EVENTER_SSL_ALPN_MATCHER` (`src/eventer/eventer_SSL_fd_opset.h:111-125`) and of the
functions registered in `src/mtev_http1.c:2156-2160` and `src/mtev_http2.c:1364`.

Simplified: what a client offers reaches the code as the list of its protocols in
their encoding (OpenSSL has checked that it is one); the tables of the context and
the global one are one function, the context's first; names in C strings have no
zero bytes.
-/

namespace Mtev.Alpn
open Mtev.TlsCtx (Str tokens)

/-- the encoding of a list of protocols: each behind a byte with its length -/
def wire : List Str → Str
  | [] => []
  | p :: ps => p.length :: p ++ wire ps

/-- the functions that can be registered: `eventer_alpn_select_always` (`:1182-1189`),
one made by `EVENTER_SSL_ALPN_MATCHER`, nghttp2's -/
inductive Fn where
  | always
  | matcher (key : Str)
  | nghttp2
deriving DecidableEq, Repr

/-- what a function says: 1 with the choice, 0, or negative -/
inductive Rv where
  | take (p : Str)
  | more
  | stop
deriving DecidableEq, Repr

/-- `in[i]` -/
def byteAt (ins : Str) (i : Nat) : Nat := ins.getD i 0

/-- the loop of `EVENTER_SSL_ALPN_MATCHER`: `memcmp(in+1, key, keylen)`, neither at
`in+i+1` nor compared with 0 (`eventer_SSL_fd_opset.h:117-123`) -/
def matcherGo (ins key : Str) : Nat → Nat → Rv
  | 0, _ => .more
  | fuel + 1, i =>
    if i + key.length < ins.length then
      if byteAt ins i = key.length ∧ (ins.drop 1).take key.length ≠ key then
        .take ((ins.drop (i + 1)).take (byteAt ins i))
      else matcherGo ins key fuel (i + byteAt ins i + 1)
    else .more

/-- nghttp2's search for one protocol (not in /repo; as in nghttp2's source) -/
def nghttp2Go (ins key : Str) : Nat → Nat → Option Str
  | 0, _ => none
  | fuel + 1, i =>
    if i + (key.length + 1) ≤ ins.length then
      if (ins.drop i).take (key.length + 1) = key.length :: key then
        some ((ins.drop (i + 1)).take (byteAt ins i))
      else nghttp2Go ins key fuel (i + byteAt ins i + 1)
    else none

def h2 : Str := [104, 50]
def http11 : Str := [104, 116, 116, 112, 47, 49, 46, 49]

/-- `nghttp2_select_next_protocol`: 1 for `h2`, 0 for `http/1.1`, -1 for neither -/
def nghttp2 (ins : Str) : Rv :=
  match nghttp2Go ins h2 ins.length 0 with
  | some p => .take p
  | none =>
    match nghttp2Go ins http11 ins.length 0 with
    | some _ => .more
    | none => .stop

/-- a registered function called with the whole list (`:1171`) -/
def call (f : Fn) (ins : Str) : Rv :=
  match f with
  | .always => .take ((ins.drop 1).take (byteAt ins 0))
  | .matcher key => matcherGo ins key ins.length 0
  | .nghttp2 => nghttp2 ins

/-- the loop of `alpn_select_proto_cb` (`:1165-1177`): `f` keeps its value from
earlier rounds -/
def selGo (reg : Str → Option Fn) (ins : Str) : Nat → Nat → Option Fn → Option Str
  | 0, _, _ => none
  | fuel + 1, i, f =>
    if i < ins.length then
      match (reg ((ins.drop (i + 1)).take (byteAt ins i))).or f with
      | none => selGo reg ins fuel (i + byteAt ins i + 1) none
      | some f =>
        match call f ins with
        | .take p => some p
        | .stop => none
        | .more => selGo reg ins fuel (i + byteAt ins i + 1) (some f)
    else none

/-- `alpn_select_proto_cb` (`:1154-1179`) -/
def select (reg : Str → Option Fn) (npn : Option Str) (ins : Str) : Option Str :=
  if npn.isNone then none else selGo reg ins ins.length 0 none

/-- the loop of `eventer_ssl_alpn_advertise` (`:1221-1234`) -/
def advGo (reg : Str → Option Fn) : List Str → Block → Nat → Out (Block × Nat)
  | [], b, off => .ok (b, off)
  | p :: ps, b, off =>
    if (reg p).isSome ∧ off + p.length + 1 < 255 then
      b.write off [p.length] >>= fun b1 =>
      b1.write (off + 1) p >>= fun b2 => advGo reg ps b2 (off + p.length + 1)
    else advGo reg ps b off

/-- `eventer_ssl_alpn_advertise` (`:1210-1254`): the list of the context, as far as
it is written -/
def advertise (reg : Str → Option Fn) (junk : Nat → Nat) (npn : Str) : Out (Option Str) :=
  advGo reg (tokens npn) (malloc junk (1 + npn.length + 1)) 0 >>= fun r =>
  .ok (if r.2 > 0 then some (r.1.take r.2) else none)

/-- `next_proto_cb` (`:1138-1150`) -/
def nextProto (npn : Str) : Str := npn.take (1 + byteAt npn 0)

/-- the protocols libmtev registers (`mtev_http1.c:2160`, `mtev_http2.c:1364`) -/
def std (p : Str) : Option Fn :=
  if p = h2 then some .nghttp2 else if p = http11 then some (.matcher http11) else none

/-! ## lemmas -/

theorem wire_append (a b : List Str) : wire (a ++ b) = wire a ++ wire b := by
  induction a with
  | nil => rfl
  | cons p a ih => simp [wire, ih]

theorem byteAt_wire (pre : List Str) (p : Str) (post : List Str) :
    byteAt (wire (pre ++ p :: post)) (wire pre).length = p.length := by
  rw [wire_append]
  unfold byteAt
  simp [wire, List.getD]

theorem name_wire (pre : List Str) (p : Str) (post : List Str) :
    ((wire (pre ++ p :: post)).drop ((wire pre).length + 1)).take p.length = p := by
  rw [wire_append, ← List.drop_drop, List.drop_left]
  simp [wire]

theorem next_wire (pre : List Str) (p : Str) :
    (wire pre).length + p.length + 1 = (wire (pre ++ [p])).length := by
  rw [wire_append]; simp [wire]; omega

theorem here_wire (pre : List Str) (p : Str) (post : List Str) :
    (wire pre).length + p.length + 1 ≤ (wire (pre ++ p :: post)).length := by
  rw [wire_append]; simp [wire]; omega

theorem snoc (pre : List Str) (p : Str) (post : List Str) : pre ++ p :: post = (pre ++ [p]) ++ post := by simp

theorem len_wire : ∀ ps : List Str, ps.length ≤ (wire ps).length
  | [] => by simp
  | p :: ps => by have := len_wire ps; simp [wire]; omega

theorem matcher_stop {ins key : Str} (h : (ins.drop 1).take key.length = key) :
    ∀ fuel i, matcherGo ins key fuel i = .more := by
  intro fuel
  induction fuel with
  | zero => intro i; rfl
  | succ fuel ih =>
    intro i
    rw [matcherGo]
    split
    · rw [if_neg (by intro hh; exact hh.2 h), ih]
    · rfl

theorem matcher_find {key : Str} : ∀ (post pre : List Str) (fuel : Nat), post.length ≤ fuel →
    ((wire (pre ++ post)).drop 1).take key.length ≠ key →
    matcherGo (wire (pre ++ post)) key fuel (wire pre).length =
      match post.find? (fun p => p.length = key.length) with
      | some p => .take p
      | none => .more
  | [], pre, fuel, _, h => by
    cases fuel with
    | zero => rfl
    | succ fuel =>
      rw [matcherGo, if_neg (by simp)]
      rfl
  | p :: post, pre, fuel, hf, h => by
    cases fuel with
    | zero => simp at hf
    | succ fuel =>
      rw [matcherGo, byteAt_wire, name_wire, next_wire]
      by_cases hp : p.length = key.length
      · have := here_wire pre p post
        rw [if_pos (by omega), if_pos ⟨hp, h⟩]
        simp [hp]
      · have ih := matcher_find post (pre ++ [p]) fuel (by simp at hf; omega) (by rw [← snoc]; exact h)
        rw [← snoc] at ih
        have hn : ¬ (p.length = key.length ∧
            ((wire (pre ++ p :: post)).drop 1).take key.length ≠ key) := fun hh => hp hh.1
        rw [if_neg hn, ih]
        simp only [List.find?_cons, hp, decide_false]
        split
        · rfl
        · rename_i hlt
          -- too little is left for a name of that length
          have : post.find? (fun p => p.length = key.length) = none := by
            rw [List.find?_eq_none]
            intro q hq
            simp only [decide_eq_true_eq]
            intro hql
            apply hlt
            obtain ⟨a, b, rfl⟩ := List.append_of_mem hq
            have h1 := here_wire (pre ++ p :: a) q b
            have h2 : (wire pre).length ≤ (wire (pre ++ p :: a)).length := by
              rw [wire_append]; simp
            simp only [List.append_assoc, List.cons_append] at h1
            omega
          rw [this]

theorem take_eq_wire {key p rest : Str} :
    (p.length :: p ++ rest).take (key.length + 1) = key.length :: key ↔ p = key := by
  rw [List.cons_append, List.take_succ_cons]
  constructor
  · intro h
    simp only [List.cons.injEq] at h
    obtain ⟨h1, h2⟩ := h
    rw [← h1, List.take_left] at h2
    exact h2
  · rintro rfl
    simp

theorem nghttp2_find {key : Str} : ∀ (post pre : List Str) (fuel : Nat), post.length ≤ fuel →
    nghttp2Go (wire (pre ++ post)) key fuel (wire pre).length = if key ∈ post then some key else none
  | [], pre, fuel, _ => by
    cases fuel with
    | zero => rfl
    | succ fuel => rw [nghttp2Go, if_neg (by simp)]; simp
  | p :: post, pre, fuel, hf => by
    cases fuel with
    | zero => simp at hf
    | succ fuel =>
      have ih := nghttp2_find (key := key) post (pre ++ [p]) fuel (by simp at hf; omega)
      rw [← snoc] at ih
      rw [nghttp2Go, byteAt_wire, name_wire, next_wire, ih]
      have hd : (wire (pre ++ p :: post)).drop (wire pre).length = p.length :: p ++ wire post := by
        rw [wire_append, List.drop_left]; rfl
      rw [hd]
      by_cases hp : p = key
      · have := here_wire pre p post
        rw [if_pos (by rw [← hp]; omega), if_pos (take_eq_wire.2 hp)]
        simp [hp]
      · rw [if_neg (fun h => hp (take_eq_wire.1 h))]
        have hne : ¬ key = p := fun h => hp h.symm
        split
        · simp [hne]
        · rename_i hlt
          have : key ∉ post := by
            intro hq
            apply hlt
            obtain ⟨a, b, rfl⟩ := List.append_of_mem hq
            have h1 := here_wire (pre ++ p :: a) key b
            have h2 : (wire pre).length ≤ (wire (pre ++ p :: a)).length := by
              rw [wire_append]; simp
            simp only [List.append_assoc, List.cons_append] at h1
            omega
          simp [this, hne]

theorem nghttp2_wire (ps : List Str) :
    nghttp2 (wire ps) = if h2 ∈ ps then .take h2 else if http11 ∈ ps then .more else .stop := by
  have a := nghttp2_find (key := h2) ps [] (wire ps).length (len_wire ps)
  have b := nghttp2_find (key := http11) ps [] (wire ps).length (len_wire ps)
  simp only [List.nil_append, wire, List.length_nil] at a b
  unfold nghttp2
  rw [a, b]
  by_cases h1 : h2 ∈ ps <;> by_cases h3 : http11 ∈ ps <;> simp [h1, h3]

theorem matcher_wire (key : Str) (ps : List Str) :
    call (.matcher key) (wire ps) =
      if ((wire ps).drop 1).take key.length = key then .more
      else match ps.find? (fun p => p.length = key.length) with
        | some p => .take p
        | none => .more := by
  simp only [call]
  split
  · rename_i h; exact matcher_stop h _ _
  · rename_i h
    have := matcher_find (key := key) ps [] (wire ps).length (len_wire ps) h
    simpa [wire] using this

theorem call_mem {f : Fn} {ps : List Str} (hne : ps ≠ []) {p : Str} (h : call f (wire ps) = .take p) : p ∈ ps := by
  cases f with
  | always =>
    obtain ⟨q, qs, rfl⟩ := List.exists_cons_of_ne_nil hne
    simp only [call] at h
    have h1 := byteAt_wire [] q qs
    have h2 := name_wire [] q qs
    simp only [List.nil_append, wire, List.length_nil] at h1 h2
    rw [show wire (q :: qs) = q.length :: q ++ wire qs from rfl, h1, h2] at h
    cases h
    simp
  | matcher key =>
    rw [matcher_wire] at h
    split at h
    · cases h
    · split at h
      · rename_i q hq
        cases h
        exact List.mem_of_find?_eq_some hq
      · cases h
  | nghttp2 =>
    simp only [call, nghttp2_wire] at h
    split at h
    · cases h; assumption
    · split at h <;> cases h

/-- the loop over the names that are left -/
def sel (reg : Str → Option Fn) (all : List Str) : List Str → Option Fn → Option Str
  | [], _ => none
  | p :: ps, f =>
    match (reg p).or f with
    | none => sel reg all ps none
    | some f =>
      match call f (wire all) with
      | .take q => some q
      | .stop => none
      | .more => sel reg all ps (some f)

theorem selGo_wire (reg : Str → Option Fn) : ∀ (post pre : List Str) (fuel : Nat) (f : Option Fn),
    post.length ≤ fuel →
    selGo reg (wire (pre ++ post)) fuel (wire pre).length f = sel reg (pre ++ post) post f
  | [], pre, fuel, f, _ => by
    cases fuel with
    | zero => rfl
    | succ fuel => rw [selGo, if_neg (by simp)]; rfl
  | p :: post, pre, fuel, f, hf => by
    cases fuel with
    | zero => simp at hf
    | succ fuel =>
      have ih := fun f => selGo_wire reg post (pre ++ [p]) fuel f (by simp at hf; omega)
      simp only [← snoc] at ih
      rw [selGo, byteAt_wire, name_wire, next_wire, if_pos (by have := here_wire pre p post; omega), sel]
      split
      · exact ih none
      · rename_i f' h
        cases call f' (wire (pre ++ p :: post)) with
        | take q => rfl
        | stop => rfl
        | more => exact ih _

theorem select_wire (reg : Str → Option Fn) (npn : Option Str) (ps : List Str) :
    select reg npn (wire ps) = if npn.isNone then none else sel reg ps ps none := by
  unfold select
  have := selGo_wire reg ps [] (wire ps).length none (len_wire ps)
  simp only [List.nil_append, wire, List.length_nil] at this
  rw [this]

end Mtev.Alpn
