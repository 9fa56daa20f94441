import Verif.WsClient

/-!
C148: the handshake of the websocket client.  C149: its life.
-/

namespace Mtev.WsClient

/-! ### C148: the request -/

theorem sendReq_all : ∀ (ws : List Wr) (t : Str), (∀ w ∈ ws, ∃ n, w = .wrote n) → t.length ≤ ws.length →
    sendReq ws t = (t, true) := by
  intro ws
  induction ws with
  | nil => intro t _ h; have : t = [] := List.length_eq_zero_iff.1 (by simpa using h); subst this; rfl
  | cons w ws ih =>
    intro t hw hl
    cases t with
    | nil => cases w <;> rfl
    | cons b bs =>
      obtain ⟨n, rfl⟩ := hw w (by simp)
      have := ih ((b :: bs).drop (n + 1)) (fun w h => hw w (List.mem_cons_of_mem _ h))
        (by simp only [List.length_drop, List.length_cons] at *; omega)
      simp only [sendReq, this, List.take_append_drop]

/-- The line for the service, if there is one. -/
def serviceLine : Option Str → Str
  | none => []
  | some v => bytesOf "Sec-WebSocket-Protocol: " ++ v ++ bytesOf "\r\n"

/-- C148: the request sent asks for the path at the host, with the key and the service, if it has at most
4095 bytes and no write would block or fails.  Missing: below. -/
theorem C148_request_partial (path host key : Str) (service : Option Str) (ws : List Wr)
    (hl : (request path host key service).length ≤ 4095) (hw : ∀ w ∈ ws, ∃ n, w = .wrote n)
    (hn : (request path host key service).length ≤ ws.length) :
    ∃ lines, sendShake ws path host key service = .ok (lines, true) ∧
      lines = bytesOf "GET " ++ path ++ bytesOf " HTTP/1.1\r\n" ++
        bytesOf "Host: " ++ host ++ bytesOf "\r\n" ++ bytesOf "Upgrade: websocket\r\n" ++
        bytesOf "Connection: Upgrade\r\n" ++ bytesOf "Sec-WebSocket-Key: " ++ key ++ bytesOf "\r\n" ++
        serviceLine service ++
        bytesOf "Sec-WebSocket-Version: 13\r\n" ++ bytesOf "\r\n" := by
  refine ⟨request path host key service, ?_, ?_⟩
  · have : stored (request path host key service) = .ok (request path host key service) := if_pos hl
    unfold sendShake
    rw [this]
    exact congrArg _ (sendReq_all ws _ hw hn)
  · have a : bytesOf " HTTP/1.1\r\nHost: " = bytesOf " HTTP/1.1\r\n" ++ bytesOf "Host: " := by decide +kernel
    have b : bytesOf "\r\nUpgrade: websocket\r\nConnection: Upgrade\r\nSec-WebSocket-Key: " =
        bytesOf "\r\n" ++ (bytesOf "Upgrade: websocket\r\n" ++ (bytesOf "Connection: Upgrade\r\n" ++ bytesOf "Sec-WebSocket-Key: ")) := by
      decide +kernel
    have c : bytesOf "\r\nSec-WebSocket-Protocol: " = bytesOf "\r\n" ++ bytesOf "Sec-WebSocket-Protocol: " := by decide +kernel
    have d : bytesOf "\r\nSec-WebSocket-Version: 13\r\n\r\n" =
        bytesOf "\r\n" ++ (bytesOf "Sec-WebSocket-Version: 13\r\n" ++ bytesOf "\r\n") := by decide +kernel
    unfold request
    rw [a, b, d]
    cases service with
    | none => simp only [serviceLine, List.append_assoc, List.append_nil, List.nil_append]
    | some v => simp only [serviceLine, c, List.append_assoc]

example : sendShake (List.replicate 200 (.wrote 6)) (bytesOf "/x") (bytesOf "::1") (bytesOf "k") none =
    .ok (bytesOf "GET /x HTTP/1.1\r\nHost: ::1\r\nUpgrade: websocket\r\nConnection: Upgrade\r\nSec-WebSocket-Key: k\r\nSec-WebSocket-Version: 13\r\n\r\n", true) := by
  decide +kernel

/-- A longer request reads memory after the buffer. -/
theorem C148_long_violated (path host key : Str) (service : Option Str) (ws : List Wr) (h : 4096 < path.length) :
    sendShake ws path host key service = .ub := by
  have hl : 4096 < (request path host key service).length := by
    unfold request; simp only [List.length_append]; omega
  have : stored (request path host key service) = .ub := by
    simp only [stored]; rw [if_neg (by omega), if_neg (by omega)]
  unfold sendShake; rw [this]; rfl

example : 4096 < (List.replicate 5000 97).length := by rw [List.length_replicate]; decide

/-- A write that would block ends the connection, in the middle of the request. -/
theorem C148_blocked_violated :
    sendShake [.wrote 9, .again] (bytesOf "/x") (bytesOf "::1") (bytesOf "k") none = .ok (bytesOf "GET /x HTT", false) := by
  decide +kernel

/-! ### C148: the response -/

/-- The text ends a head: an empty line. -/
def EndsHead (s : Str) : Prop := ∃ t, s = t ++ bytesOf "\r\n\r\n"

theorem endsHead_iff (g : Str) : (4 ≤ g.length ∧ g.drop (g.length - 4) = [13, 10, 13, 10]) ↔ EndsHead g := by
  have e : bytesOf "\r\n\r\n" = [13, 10, 13, 10] := by decide +kernel
  constructor
  · rintro ⟨h1, h2⟩
    refine ⟨g.take (g.length - 4), ?_⟩
    rw [e, ← h2, List.take_append_drop]
  · rintro ⟨t, rfl⟩
    rw [e]; simp

theorem recv_have : ∀ (rds : List Str) (got last : Str), (∀ b ∈ rds, b ≠ []) → last ≠ [] →
    (got ++ rds.flatten ++ last).length ≤ room → EndsHead (got ++ rds.flatten ++ last) →
    (∀ t, t <+: got ++ rds.flatten ++ last → t ≠ got ++ rds.flatten ++ last → ¬ EndsHead t) →
    recv ((rds ++ [last]).map .data) got = .have (got ++ rds.flatten ++ last) := by
  intro rds
  induction rds with
  | nil =>
    intro got last _ hl hr he hn
    simp only [List.flatten_nil, List.append_nil] at hr he hn ⊢
    have ht : last.take (room - got.length) = last := List.take_of_length_le (by rw [List.length_append] at hr; omega)
    have := (endsHead_iff _).2 he
    simp only [List.nil_append, List.map_cons, List.map_nil, recv, hl, if_false, ht]
    rw [if_pos this]
  | cons b bs ih =>
    intro got last hb hl hr he hn
    have hb0 : b ≠ [] := hb b (by simp)
    have hlast : 0 < last.length := List.length_pos_iff.2 hl
    have hr' : got.length + (b.length + (bs.flatten.length + last.length)) ≤ room := by
      simp only [List.flatten_cons, List.length_append] at hr; omega
    have ht : b.take (room - got.length) = b := List.take_of_length_le (by omega)
    have e : got ++ (b :: bs).flatten ++ last = (got ++ b) ++ bs.flatten ++ last := by simp
    have hnot : ¬ EndsHead (got ++ b) := by
      apply hn
      · rw [e, List.append_assoc (got ++ b)]; exact List.prefix_append _ _
      · intro h
        have := congrArg List.length h
        simp only [List.flatten_cons, List.length_append] at this; omega
    have hlen : ¬ room ≤ (got ++ b).length := by rw [List.length_append]; omega
    have hm : ((b :: bs) ++ [last]).map Rd.data = .data b :: (bs ++ [last]).map .data := rfl
    rw [hm, recv, if_neg hb0]
    simp only [ht]
    rw [if_neg (fun h => hnot ((endsHead_iff _).1 h)), if_neg hlen]
    rw [ih (got ++ b) last (fun x hx => hb x (List.mem_cons_of_mem _ hx)) hl (e ▸ hr) (e ▸ he) (by rw [← e]; exact hn), e]

theorem strstr_found (pat : Str) : ∀ (pre rest : Str), (∀ c ∈ pre, c ≠ 0) →
    (∀ i < pre.length, ¬ pat <+: (pre ++ rest).drop i) → (∃ c t, rest = c :: t ∧ c ≠ 0) → pat <+: rest →
    strstr pat (pre ++ rest) = .ok (some rest) := by
  intro pre
  induction pre with
  | nil =>
    rintro rest _ _ ⟨c, t, rfl, hc⟩ hp
    have : pat.isPrefixOf (c :: t) = true := by simpa using hp
    simp only [List.nil_append, strstr, hc, if_false, this, if_true]
  | cons c pre ih =>
    intro rest h0 hn hr hp
    have hc : c ≠ 0 := h0 c (by simp)
    have : ¬ pat.isPrefixOf (c :: (pre ++ rest)) = true := by
      have := hn 0 (by simp)
      simpa using this
    simp only [List.cons_append, strstr, hc, if_false]
    rw [if_neg this]
    refine ih rest (fun x hx => h0 x (List.mem_cons_of_mem _ hx)) ?_ hr hp
    intro i hi
    have := hn (i + 1) (by simpa using hi)
    simpa using this

theorem same_self : ∀ (key t : Str), same key (key ++ t) = .ok true := by
  intro key
  induction key with
  | nil => intro t; rfl
  | cons k ks ih => intro t; simp [same, ih]

/-- C148: a client becomes ready if the response has the key in its header, and arrives, in pieces, within
one callback.  Missing: below. -/
theorem C148_ready_partial (key junk pre post : Str) (rds : List Str) (last : Str) (cbs : List (List Rd))
    (resp : Str) (hresp : resp = pre ++ (bytesOf "Sec-WebSocket-Accept: " ++ (key ++ post)))
    (hp : rds.flatten ++ last = resp) (hb : ∀ b ∈ rds, b ≠ []) (hl : last ≠ []) (hr : resp.length ≤ 8192)
    (he : EndsHead resp) (hn : ∀ t, t <+: resp → t ≠ resp → ¬ EndsHead t) (h0 : ∀ c ∈ pre, c ≠ 0)
    (hf : ∀ i < pre.length, ¬ bytesOf "Sec-WebSocket-Accept" <+: resp.drop i) :
    shake key junk ((rds ++ [last]).map .data :: cbs) = .ok .ready := by
  have hrecv : recv ((rds ++ [last]).map .data) [] = .have resp := by
    have := recv_have rds [] last hb hl (by rw [List.nil_append, hp]; exact hr) (by rw [List.nil_append, hp]; exact he)
      (by rw [List.nil_append, hp]; exact hn)
    rw [this, List.nil_append, hp]
  have hnm : bytesOf "Sec-WebSocket-Accept: " = name ++ [58, 32] := by decide +kernel
  have hname : name.length = 20 := by decide +kernel
  have hcons : ∃ t, name = 83 :: t := ⟨name.tail, by decide +kernel⟩
  have hchk : check key (resp ++ junk.drop resp.length) = .ok true := by
    have hs : strstr name (resp ++ junk.drop resp.length) =
        .ok (some ((name ++ [58, 32]) ++ (key ++ (post ++ junk.drop resp.length)))) := by
      have e : resp ++ junk.drop resp.length = pre ++ ((name ++ [58, 32]) ++ (key ++ (post ++ junk.drop resp.length))) := by
        generalize junk.drop resp.length = X
        rw [hresp, hnm]; simp only [List.append_assoc]
      rw [e]
      refine strstr_found name pre _ h0 ?_ ?_ ?_
      · intro i hi hc
        refine hf i hi ?_
        have hle : i ≤ resp.length := by rw [hresp]; simp only [List.length_append]; omega
        rw [← e, List.drop_append_of_le_length hle] at hc
        refine List.prefix_of_prefix_length_le hc (List.prefix_append _ _) ?_
        have h1 : name.length ≤ resp.length - i := by
          rw [hresp, hnm]
          simp only [List.length_append]; omega
        rw [List.length_drop]; exact h1
      · obtain ⟨t, ht⟩ := hcons
        exact ⟨83, t ++ [58, 32] ++ (key ++ (post ++ junk.drop resp.length)), by rw [ht]; rfl, by decide⟩
      · rw [List.append_assoc]; exact List.prefix_append _ _
    unfold check; rw [hs]
    show same key (((name ++ [58, 32]) ++ (key ++ (post ++ junk.drop resp.length))).drop 22) = _
    have h22 : (name ++ [58, 32]).length = 22 := by decide +kernel
    have : ((name ++ [58, 32]) ++ (key ++ (post ++ junk.drop resp.length))).drop 22 =
        key ++ (post ++ junk.drop resp.length) := by
      rw [← h22, List.drop_left]
    rw [this]; exact same_self _ _
  show (match recv ((rds ++ [last]).map .data) [] with
    | .again => shake key junk cbs
    | .no => .ok .aborted
    | .have g => do if ← check key (g ++ junk.drop g.length) then pure .ready else pure .aborted) = _
  rw [hrecv]
  show (do if ← check key (resp ++ junk.drop resp.length) then pure Shake.ready else pure .aborted) = _
  rw [hchk]; rfl

/-- A response for the examples. -/
def resp101 : Str := bytesOf "HTTP/1.1 101 X\r\nSec-WebSocket-Accept: KEY=\r\n\r\n"

/-- Used by `C148_ready_partial`. -/
example : shake (bytesOf "KEY=") (List.replicate 8192 0)
    [[.again], [.data (resp101.take 20), .data (resp101.drop 20)]] = .ok .ready := by decide +kernel

theorem strstr_some (pat : Str) : ∀ (buf s : Str), strstr pat buf = .ok (some s) →
    ∃ i, s = buf.drop i ∧ pat <+: buf.drop i := by
  intro buf
  induction buf with
  | nil => intro s h; cases h
  | cons c buf ih =>
    intro s h
    by_cases h0 : c = 0
    · simp [strstr, h0] at h
    · by_cases hp : pat.isPrefixOf (c :: buf) = true
      · simp only [strstr, h0, if_false, hp, if_true] at h
        cases h
        exact ⟨0, rfl, by simpa using hp⟩
      · simp only [strstr, h0, if_false] at h
        rw [if_neg hp] at h
        obtain ⟨i, h1, h2⟩ := ih s h
        exact ⟨i + 1, by simpa using h1, by simpa using h2⟩

theorem same_true : ∀ (key s : Str), same key s = .ok true → key <+: s := by
  intro key
  induction key with
  | nil => intro s _; exact List.nil_prefix
  | cons k ks ih =>
    intro s h
    cases s with
    | nil => cases h
    | cons c cs =>
      by_cases hk : k = c
      · subst hk
        simp only [same, if_true] at h
        exact (List.cons_prefix_cons).2 ⟨rfl, ih cs h⟩
      · simp [same, hk] at h

theorem recv_only : ∀ (rds : List Rd) (got g : Str), recv rds got = .have g → EndsHead g ∧ got <+: g := by
  intro rds
  induction rds with
  | nil => intro got g h; cases h
  | cons r rds ih =>
    intro got g h
    cases r with
    | again => cases h
    | eof => cases h
    | data bs =>
      by_cases hb : bs = []
      · simp [recv, hb] at h
      · rw [recv, if_neg hb] at h
        simp only at h
        split_ifs at h with h1 h2
        · cases h; exact ⟨(endsHead_iff _).1 h1, List.prefix_append _ _⟩
        · obtain ⟨a, b⟩ := ih _ _ h
          exact ⟨a, (List.prefix_append _ _).trans b⟩

theorem recv_ended (e : Rd) (he : e = .eof ∨ e = .data []) : ∀ (ps : List Str) (got : Str),
    ¬ [13, 10, 13, 10] <:+: got ++ ps.flatten → recv (ps.map .data ++ [e]) got = .no := by
  intro ps
  induction ps with
  | nil => intro got _; rcases he with rfl | rfl <;> simp [recv]
  | cons p ps ih =>
    intro got hno
    show recv (.data p :: (ps.map .data ++ [e])) got = .no
    by_cases hp : p = []
    · rw [recv, if_pos hp]
    · rw [recv, if_neg hp]
      simp only
      have hpre : got ++ p.take (room - got.length) <+: got ++ (p :: ps).flatten := by
        rw [List.flatten_cons]
        exact (List.prefix_append_right_inj got).2 ((List.take_prefix _ _).trans (List.prefix_append _ _))
      have h1 : ¬ (4 ≤ (got ++ p.take (room - got.length)).length ∧
          (got ++ p.take (room - got.length)).drop ((got ++ p.take (room - got.length)).length - 4) = [13, 10, 13, 10]) := by
        rintro ⟨_, h⟩
        apply hno
        rw [← h]
        exact (List.drop_suffix _ _).isInfix.trans hpre.isInfix
      rw [if_neg h1]
      by_cases h2 : room ≤ (got ++ p.take (room - got.length)).length
      · rw [if_pos h2]
      · rw [if_neg h2]
        apply ih
        have h3 : p.take (room - got.length) = p := by
          apply List.take_of_length_le
          by_contra hc
          apply h2
          rw [List.length_append, List.length_take]
          omega
        rw [h3]
        simpa [List.flatten_cons, List.append_assoc] using hno

/-- C148: a server that closes the connection before it has sent a whole head makes the client give up:
it does not go on waiting. -/
theorem C148_ended (key junk : Str) (ps : List Str) (e : Rd) (cbs : List (List Rd))
    (he : e = .eof ∨ e = .data []) (hno : ¬ [13, 10, 13, 10] <:+: ps.flatten) :
    shake key junk ((ps.map .data ++ [e]) :: cbs) = .ok .aborted := by
  rw [shake, recv_ended e he ps [] (by simpa using hno)]

example : ¬ [13, 10, 13, 10] <:+: ([bytesOf "HTTP/1.1 101 Switching\r\n", bytesOf "Sec-Web"] : List Str).flatten := by
  decide +kernel

/-- C148: and only then: a client that becomes ready has read a head, in one callback, and the key
follows the name of the header, in that head or in what was in memory behind it. -/
theorem C148_only_partial (key junk : Str) : ∀ (cbs : List (List Rd)), shake key junk cbs = .ok .ready →
    ∃ rds ∈ cbs, ∃ g i, recv rds [] = .have g ∧ EndsHead g ∧
      bytesOf "Sec-WebSocket-Accept" <+: (g ++ junk.drop g.length).drop i ∧
      key <+: (g ++ junk.drop g.length).drop (i + 22) := by
  intro cbs
  induction cbs with
  | nil => intro h; cases h
  | cons rds cbs ih =>
    intro h
    cases hr : recv rds [] with
    | again =>
      simp only [shake, hr] at h
      obtain ⟨x, hx, y⟩ := ih h
      exact ⟨x, List.mem_cons_of_mem _ hx, y⟩
    | no => simp [shake, hr] at h
    | «have» g =>
      simp only [shake, hr] at h
      refine ⟨rds, by simp, g, ?_⟩
      cases hs : strstr name (g ++ junk.drop g.length) with
      | ub => simp only [check, hs] at h; cases h
      | abort => simp only [check, hs] at h; cases h
      | ok o =>
        cases o with
        | none => simp only [check, hs] at h; cases h
        | some s =>
          have hc : check key (g ++ junk.drop g.length) = same key (s.drop 22) := by simp only [check, hs]; rfl
          rw [hc] at h
          cases hsm : same key (s.drop 22) with
          | ub => rw [hsm] at h; cases h
          | abort => rw [hsm] at h; cases h
          | ok b =>
            cases b with
            | false => rw [hsm] at h; cases h
            | true =>
              obtain ⟨i, e1, e2⟩ := strstr_some _ _ _ hs
              have := same_true _ _ hsm
              rw [e1, List.drop_drop] at this
              exact ⟨i, hr, (recv_only _ _ _ hr).1, e2, this⟩

/-- A response that comes in two callbacks is refused: the first part is forgotten. -/
theorem C148_split_violated :
    shake (bytesOf "KEY=") (List.replicate 8192 0) [[.data (resp101.take 42), .again], [.data (resp101.drop 42)]] =
      .ok .aborted := by
  decide +kernel

/-- A response with which the first message comes is not seen at all. -/
theorem C148_message_violated :
    shake (bytesOf "KEY=") (List.replicate 8192 0) [[.data (resp101 ++ [129, 2, 104, 105]), .again]] = .ok .waiting := by
  decide +kernel

/-- The name of the header must have the capitals the client thinks of. -/
theorem C148_case_violated :
    shake (bytesOf "KEY=") (List.replicate 8192 0)
      [[.data (bytesOf "HTTP/1.1 101 X\r\nsec-websocket-accept: KEY=\r\n\r\n")]] = .ok .aborted := by
  decide +kernel

/-- What the response says otherwise does not matter. -/
theorem C148_status_violated :
    shake (bytesOf "KEY=") (List.replicate 8192 0)
      [[.data (bytesOf "HTTP/1.1 403 No\r\nSec-WebSocket-Accept: KEY=\r\n\r\n")]] = .ok .ready := by
  decide +kernel

theorem strstr_runs (pat : Str) (hp : 2 ≤ pat.length) (hn : ∀ c ∈ pat, c ≠ 1) : ∀ (s : Str) (n : Nat),
    (∀ c ∈ s, c ≠ 0) → (∀ i < s.length, ¬ pat <+: (s ++ List.replicate n 1).drop i) →
    strstr pat (s ++ List.replicate n 1) = .ub := by
  intro s
  induction s with
  | nil =>
    intro n
    induction n with
    | zero => intro _ _; rfl
    | succ n ih =>
      intro h1 h2
      have : ¬ pat.isPrefixOf (1 :: List.replicate n 1) = true := by
        intro h
        cases pat with
        | nil => simp at hp
        | cons a t =>
          have := List.isPrefixOf_iff_prefix.1 h
          exact hn a (by simp) (List.cons_prefix_cons.1 this).1
      have e : ([] : Str) ++ List.replicate (n + 1) 1 = 1 :: List.replicate n 1 := rfl
      rw [e, strstr, if_neg (by decide), if_neg this]
      exact ih (by simp) (by simp)
  | cons c s ih =>
    intro n h0 h2
    have : ¬ pat.isPrefixOf (c :: (s ++ List.replicate n 1)) = true := by
      have := h2 0 (by simp)
      simpa using this
    rw [List.cons_append, strstr, if_neg (h0 c (by simp)), if_neg this]
    refine ih n (fun x hx => h0 x (List.mem_cons_of_mem _ hx)) ?_
    intro i hi
    have := h2 (i + 1) (by simpa using hi)
    simpa using this

/-- A response without the header is looked at beyond its end, and beyond the end of the buffer if memory
happens to have no zero there. -/
theorem C148_overrun_violated :
    shake (bytesOf "KEY=") (List.replicate 8192 1) [[.data (bytesOf "HTTP/1.1 404 No\r\n\r\n")]] = .ub := by
  have hr : recv [.data (bytesOf "HTTP/1.1 404 No\r\n\r\n")] [] = .have (bytesOf "HTTP/1.1 404 No\r\n\r\n") := by decide +kernel
  have hl : (bytesOf "HTTP/1.1 404 No\r\n\r\n").length = 19 := by decide +kernel
  have hs : strstr name (bytesOf "HTTP/1.1 404 No\r\n\r\n" ++ List.replicate 8173 1) = .ub := by
    refine strstr_runs name (by decide +kernel) (by decide +kernel) _ _ (by decide +kernel) ?_
    intro i hi hc
    have : 83 ∈ (bytesOf "HTTP/1.1 404 No\r\n\r\n") ∨ (83 : Nat) ∈ List.replicate 8173 1 := by
      have hm : (83 : Nat) ∈ name := by decide +kernel
      have := List.mem_of_mem_drop (hc.subset hm)
      exact List.mem_append.1 this
    rcases this with h | h
    · revert h; decide +kernel
    · rw [List.mem_replicate] at h; exact absurd h.2 (by decide)
  simp only [shake, hr, hl]
  rw [show (List.replicate 8192 1).drop 19 = List.replicate 8173 1 by rw [List.drop_replicate]]
  simp only [check, hs]; rfl

/-! ### C149 -/

/-- What may happen to a client before its connection ends. -/
def Before (a : Act) : Prop := a = .shaken ∨ a = .msg false ∨ a = .does .send ∨ a = .does .isClosed

theorem acts_append (cb : List Call) : ∀ (as bs : List Act) (c : Cl),
    acts cb (as ++ bs) c = (acts cb as c).bind (acts cb bs) := by
  intro as
  induction as with
  | nil => intro bs c; rfl
  | cons a as ih =>
    intro bs c
    show (act cb c a).bind (acts cb (as ++ bs)) = ((act cb c a).bind (acts cb as)).bind (acts cb bs)
    cases act cb c a with
    | ok c' => exact ih bs c'
    | ub => rfl
    | stuck => rfl

theorem acts_before (cb : List Call) : ∀ (as : List Act) (c : Cl), (∀ a ∈ as, Before a) → c.closed = false →
    c.event = true → c.freed = false → c.lock = false → c.ws ≠ .freed →
    ∃ w, w ≠ Ws.freed ∧ acts cb as c = .ok { c with ws := w } := by
  intro as
  induction as with
  | nil => intro c _ _ _ _ _ hw; exact ⟨c.ws, hw, rfl⟩
  | cons a as ih =>
    intro c ha hc he hf hl hw
    have hone : ∃ w, w ≠ Ws.freed ∧ act cb c a = .ok { c with ws := w } := by
      rcases ha a (by simp) with rfl | rfl | rfl | rfl
      · exact ⟨.live, by simp, by simp [act, he, hf]⟩
      · exact ⟨c.ws, hw, by simp [act]⟩
      · refine ⟨c.ws, hw, ?_⟩
        cases hws : c.ws with
        | none =>
          have : act cb c (.does .send) = .ok c := by simp [act, call, hf, hl, hws]
          rw [this, ← hws]
        | live =>
          have : act cb c (.does .send) = .ok c := by simp [act, call, hf, hl, hws]
          rw [this, ← hws]
        | freed => exact absurd hws hw
      · have : act cb c (.does .isClosed) = .ok c := by simp [act, call, hf, hl]
        exact ⟨c.ws, hw, this⟩
    obtain ⟨w, hw1, e⟩ := hone
    obtain ⟨w', hw', e'⟩ := ih { c with ws := w } (fun x hx => ha x (List.mem_cons_of_mem _ hx)) hc he hf hl hw1
    refine ⟨w', hw', ?_⟩
    show (act cb c a).bind (acts cb as) = _
    rw [e]; exact e'

theorem acts_closed (cb : List Call) : ∀ (n : Nat) (c : Cl), c.freed = false → c.lock = false →
    acts cb (List.replicate n (.does .isClosed)) c = .ok c := by
  intro n
  induction n with
  | zero => intro c _ _; rfl
  | succ n ih =>
    intro c hf hl
    show (act cb c (.does .isClosed)).bind _ = _
    have : act cb c (.does .isClosed) = .ok c := by simp [act, call, hf, hl]
    rw [this]; exact ih c hf hl

/-- C149: a client with whom anything was done before its connection ended, who is then asked at most
whether it is closed, is there until the program frees it, and is released then.  Missing: below. -/
theorem C149_released_partial (as : List Act) (h : ∀ a ∈ as, Before a) (n : Nat) :
    (∃ c, acts [] (as ++ .ends :: List.replicate n (.does .isClosed)) (fresh false) = .ok c ∧
      c.freed = false ∧ c.closed = true) ∧
    (∃ c, acts [] (as ++ .ends :: List.replicate n (.does .isClosed) ++ [.does .free]) (fresh false) = .ok c ∧
      c.freed = true) := by
  obtain ⟨w, hw, e⟩ := acts_before [] as (fresh false) h rfl rfl rfl rfl (by simp [fresh])
  have e1 : acts [] (as ++ .ends :: List.replicate n (.does .isClosed)) (fresh false) =
      .ok { fresh false with ws := if w = .live then .freed else w, closed := true, event := false, refs := 1 } := by
    rw [acts_append, e]
    show (act [] { fresh false with ws := w } .ends).bind _ = _
    have : act [] { fresh false with ws := w } .ends =
        .ok { fresh false with ws := if w = .live then .freed else w, closed := true, event := false, refs := 1 } := rfl
    rw [this]; exact acts_closed [] n _ rfl rfl
  refine ⟨⟨_, e1, rfl, rfl⟩, ?_⟩
  rw [acts_append, e1]
  exact ⟨_, rfl, rfl⟩

/-- C149: one without a reference for the program is released when its connection ends. -/
theorem C149_noref (as : List Act) (h : ∀ a ∈ as, Before a) :
    (∃ c, acts [] as (fresh true) = .ok c ∧ c.freed = false) ∧
    (∃ c, acts [] (as ++ [.ends]) (fresh true) = .ok c ∧ c.freed = true) := by
  obtain ⟨w, hw, e⟩ := acts_before [] as (fresh true) h rfl rfl rfl rfl (by simp [fresh])
  refine ⟨⟨_, e, rfl⟩, ?_⟩
  rw [acts_append, e]
  exact ⟨_, rfl, rfl⟩

/-- C149: the program may free the client in the cleanup callback. -/
theorem C149_callback_partial (as : List Act) (h : ∀ a ∈ as, Before a) :
    ∃ c, acts [.free] (as ++ [.ends]) (fresh false) = .ok c ∧ c.freed = true := by
  obtain ⟨w, hw, e⟩ := acts_before [.free] as (fresh false) h rfl rfl rfl rfl (by simp [fresh])
  rw [acts_append, e]
  exact ⟨_, rfl, rfl⟩

example : ∀ a ∈ [Act.does .isClosed, .shaken, .does .send, .msg false], Before a := by simp [Before]

/-- A client that the program frees while it is connected is never released. -/
theorem C149_leak_violated (as : List Act) (h : ∀ a ∈ as, Before a) (later : List Act)
    (hl : ∀ a ∈ later, ∃ f, a = .shaken ∨ a = .ends ∨ a = .msg f) :
    ∃ c, acts [] (as ++ .does .free :: later) (fresh false) = .ok c ∧ c.freed = false := by
  obtain ⟨w, hw, e⟩ := acts_before [] as (fresh false) h rfl rfl rfl rfl (by simp [fresh])
  rw [acts_append, e]
  show ∃ c, (act [] { fresh false with ws := w } (.does .free)).bind (acts [] later) = .ok c ∧ c.freed = false
  have : act [] { fresh false with ws := w } (.does .free) =
      .ok { fresh false with ws := if w = .live then .freed else w, closed := true, event := false, refs := 1 } := rfl
  rw [this]
  have quiet : ∀ (later : List Act) (c : Cl), c.event = false → (∀ a ∈ later, ∃ f, a = .shaken ∨ a = .ends ∨ a = .msg f) →
      acts [] later c = .ok c := by
    intro later
    induction later with
    | nil => intro c _ _; rfl
    | cons a later ih =>
      intro c he hl
      have : act [] c a = .ok c := by
        obtain ⟨f, rfl | rfl | rfl⟩ := hl a (by simp) <;> simp [act, he]
      show (act [] c a).bind _ = _
      rw [this]; exact ih c he (fun x hx => hl x (List.mem_cons_of_mem _ hx))
  exact ⟨_, quiet later _ rfl hl, rfl⟩

/-- Sending to a client whose connection has ended uses memory that was freed. -/
theorem C149_send_violated : acts [] [.shaken, .ends, .does .send] (fresh false) = .ub := by decide

/-- Asking in the cleanup callback whether the client is closed never returns. -/
theorem C149_closed_violated : acts [.isClosed] [.shaken, .ends] (fresh false) = .stuck := by decide

/-- Freeing the client in the callback for a message uses memory that was freed. -/
theorem C149_inside_violated : acts [] [.shaken, .msg true] (fresh false) = .ub := by decide

end Mtev.WsClient
