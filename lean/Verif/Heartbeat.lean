import Verif.Mem

/-!
Model of the heartbeat datagrams of `src/mtev_net_heartbeat.c`: the sender
`mtev_net_heartbeat_serialize_and_send` and the receiving event handler
`mtev_net_heartbeat_handler`.

The block cipher of OpenSSL (AES-256-CBC with PKCS padding) is a parameter with
the laws of `Cipher`.  Sockets are lists of datagrams; `recvmsg` follows POSIX
(a datagram longer than the vectors is cut, a vector whose lengths exceed
`SSIZE_MAX` is refused with EINVAL and nothing is consumed).
-/

namespace Mtev.Heartbeat

abbrev Bytes := List Nat

/-- The cipher set up by `EVP_CipherInit(ctx, EVP_aes_256_cbc(), key, ivec, …)`
(mtev_net_heartbeat.c:200, 336) for the key of the context.  `dec` gives the
bytes stored by `EVP_DecryptUpdate` and `EVP_DecryptFinal` and whether both
succeeded. -/
structure Cipher where
  enc : Bytes → Bytes → Bytes
  dec : Bytes → Bytes → Bytes × Bool
  enc_len : ∀ iv p, (enc iv p).length ≤ p.length + 16
  dec_len : ∀ iv c, (dec iv c).1.length ≤ c.length
  round : ∀ iv p, dec iv (enc iv p) = (p, true)

/-- `htonl` of a 32 bit number. -/
def be32 (n : Nat) : Bytes := [n / 16777216 % 256, n / 65536 % 256, n / 256 % 256, n % 256]

/-- The number in four bytes, `ntohl`. -/
def un32 : Bytes → Nat
  | a :: b :: c :: d :: _ => a * 16777216 + b * 65536 + c * 256 + d
  | _ => 0

/-- A 32 bit number as `int` (`len = ntohl(netlen)`, mtev_net_heartbeat.c:157). -/
def toInt32 (n : Nat) : Int := if n < 2147483648 then n else (n : Int) - 4294967296

/-- `htonl(HBPKTMAGIC1)`, `htonl(HBPKTMAGIC2)` (mtev_net_heartbeat.c:117-118). -/
def magic : Bytes := [0x7e, 0xb9, 0xa4, 0x43, 0x28, 0x82, 0xed, 0xba]

/-! ### Sending -/

/-- How many bytes `mtev_net_heartbeat_serialize_and_send` makes room for in
`cipher_buf` (mtev_net_heartbeat.c:306, 310, 340-347): `len` is the length of
header and message. -/
def cipherRoom (len : Nat) : Nat := if 16000 < len + 32 then len + 32 else 16000

/-- mtev_net_heartbeat.c:301-370 `mtev_net_heartbeat_serialize_and_send` for the
message `m` written by `create_output`, with the random words `iv` and `gib`:
the datagram handed to `sendto`.  `none` says that the cipher text does not fit
in its buffer. -/
def datagram (c : Cipher) (iv gib m : Bytes) : Option Bytes :=
  let len := 36 + m.length
  let text := gib ++ magic ++ m
  let ct := c.enc iv text
  if cipherRoom len < 20 + ct.length then none
  else some (be32 (16 + ct.length) ++ iv ++ ct)

/-- The two calls of `create_output` (mtev_net_heartbeat.c:313-319): the first
with the room of the stack buffer, the second, when the answer is negative, with
the room asked for.  `out room` is the answer: a message, or the room needed. -/
def compose (out : Nat → Bytes ⊕ Nat) : Option Bytes :=
  match out 15000 with
  | .inl m => some m
  | .inr n =>
    match out n with
    | .inl m => some m
    | .inr _ => none

/-! ### Receiving -/

/-- The local variables of `mtev_net_heartbeat_handler` that live across rounds
(mtev_net_heartbeat.c:126-132): `payload_len`, the room behind `payload` and
`text`, and the bytes of `text` (`none` is indeterminate). -/
structure St where
  cap : Nat
  room : Nat
  text : Nat → Option Nat

/-- The variables at entry. -/
def St.init : St := ⟨15036, 15036, fun _ => none⟩

/-- Bytes stored at the start of a buffer. -/
def store (t : Nat → Option Nat) (b : Bytes) : Nat → Option Nat :=
  fun i => if h : i < b.length then some b[i] else t i

/-- `n` bytes of a buffer from offset `o`; `none` if one is indeterminate. -/
def fetch (t : Nat → Option Nat) (o : Nat) : Nat → Option Bytes
  | 0 => some []
  | n + 1 =>
    match t o, fetch t (o + 1) n with
    | some b, some l => some (b :: l)
    | _, _ => none

/-- One call of `process_input`: the length passed and the bytes it covers
(no bytes when the length is not positive). -/
structure Call where
  len : Int
  bytes : Bytes
deriving DecidableEq, Repr

/-- What one round of the loop does with the datagram at the head of the
socket. -/
inductive Round where
  /-- the datagram is gone, perhaps after a call of `process_input` -/
  | next (s : St) (call : Option Call)
  /-- `recvmsg` fails and the datagram stays -/
  | stay
  /-- bytes are written outside a buffer -/
  | wild
  /-- the decision depends on bytes that were never written -/
  | indet
  /-- signed overflow -/
  | overflow

/-- mtev_net_heartbeat.c:193-223: decrypt into `text`, look at the magic words
and hand over the message.  `ct` is the content of `payload`. -/
def open_ (c : Cipher) (s : St) (iv ct : Bytes) : Round :=
  let d := c.dec iv ct
  if s.room < d.1.length then .wild
  else
    let t := store s.text d.1
    if d.2 = false then .next { s with text := t } none
    else
      match fetch t 8 8 with
      | none => .indet
      | some w =>
        if w ≠ magic then .next { s with text := t } none
        else
          let n : Int := (d.1.length : Int) - 16
          match fetch t 16 n.toNat with
          | none => .indet
          | some b => .next { s with text := t } (some ⟨n, b⟩)

/-- mtev_net_heartbeat.c:160-181: grow the buffers when the announced length
exceeds them (the case that `malloc` succeeds). -/
def grow (s : St) (len : Int) : St :=
  if (s.cap : Int) < len then ⟨len.toNat, len.toNat - 16, fun _ => none⟩ else s

/-- One round of mtev_net_heartbeat.c:138-224 with a datagram waiting; `mem`
says whether the two calls of `malloc` succeed. -/
def round (c : Cipher) (s : St) (d : Bytes) (mem : Bool) : Round :=
  if d.length < 20 then .next s none
  else
    let len := toInt32 (un32 d)
    if (s.cap : Int) < len ∧ mem = false then .next s none
    else
      let s' := grow s len
      -- `len - HDR_IVSIZE` as a size: negative values are beyond SSIZE_MAX
      if len < -2147483632 then .overflow
      else if len < 16 then .stay
      else
        let want := len.toNat - 16
        let got := min (d.length - 20) want
        if s'.room < got then .wild
        else if 20 + got ≠ want + 20 then .next s' none
        else open_ c s' ((d.drop 4).take 16) ((d.drop 20).take want)

/-- What the handler does. -/
inductive Result where
  /-- it returns, having made these calls -/
  | done (calls : List Call)
  /-- it loops for ever on one datagram, after these calls -/
  | spin (calls : List Call)
  /-- bytes are written outside a buffer -/
  | wild
  /-- a decision depends on bytes that were never written -/
  | indet
  /-- signed overflow -/
  | overflow

/-- Put a call in front. -/
def Result.cons (c : Option Call) : Result → Result
  | .done l => .done (c.toList ++ l)
  | .spin l => .spin (c.toList ++ l)
  | .wild => .wild
  | .indet => .indet
  | .overflow => .overflow

/-- mtev_net_heartbeat.c:120-228 `mtev_net_heartbeat_handler`, with the datagrams
waiting and the answers of `malloc`.  A round that leaves its datagram in the
socket is repeated for ever with the same values. -/
def handler (c : Cipher) : St → List (Bytes × Bool) → Result
  | _, [] => .done []
  | s, (d, mem) :: rest =>
    match round c s d mem with
    | .next s' call => (handler c s' rest).cons call
    | .stay => .spin []
    | .wild => .wild
    | .indet => .indet
    | .overflow => .overflow

/-! ### Buffers -/

theorem store_lt {t : Nat → Option Nat} {b : Bytes} {i : Nat} (h : i < b.length) :
    store t b i = some b[i] := by simp [store, h]

theorem store_ge {t : Nat → Option Nat} {b : Bytes} {i : Nat} (h : b.length ≤ i) :
    store t b i = t i := by
  unfold store
  rw [dif_neg (by omega)]

theorem fetch_store {t : Nat → Option Nat} {b : Bytes} :
    ∀ (n o : Nat), o + n ≤ b.length → fetch (store t b) o n = some ((b.drop o).take n) := by
  intro n
  induction n with
  | zero => intro o _; simp [fetch]
  | succ n ih =>
    intro o h
    unfold fetch
    rw [store_lt (by omega), ih (o + 1) (by omega)]
    simp only
    rw [List.drop_eq_getElem_cons (show o < b.length by omega), List.take_succ_cons]

theorem fetch_length {t : Nat → Option Nat} : ∀ (n o : Nat) {l : Bytes},
    fetch t o n = some l → l.length = n := by
  intro n
  induction n with
  | zero => intro o l h; simp [fetch] at h; simp [← h]
  | succ n ih =>
    intro o l h
    unfold fetch at h
    split at h
    · rename_i hx
      simp only [Option.some.injEq] at h
      rw [← h, List.length_cons, ih _ hx]
    · simp at h

theorem fetch_congr {t u : Nat → Option Nat} : ∀ (n o : Nat),
    (∀ i, o ≤ i → i < o + n → t i = u i) → fetch t o n = fetch u o n := by
  intro n
  induction n with
  | zero => intros; rfl
  | succ n ih =>
    intro o h
    unfold fetch
    rw [h o (by omega) (by omega), ih (o + 1) (fun i h1 h2 => h i (by omega) (by omega))]

theorem un32_be32 {n : Nat} (h : n < 4294967296) (r : Bytes) : un32 (be32 n ++ r) = n := by
  simp only [be32, un32, List.cons_append, List.nil_append]
  omega

/-! ### The rooms of the buffers -/

/-- The room behind the buffers is what `payload_len` promises. -/
def Fits (s : St) : Prop := s.cap ≤ s.room + 16 ∧ 15036 ≤ s.cap

theorem fits_init : Fits St.init := by constructor <;> decide

theorem open_fits {c : Cipher} {s s' : St} {iv ct : Bytes} {call : Option Call} (h : Fits s)
    (ho : open_ c s iv ct = .next s' call) : Fits s' := by
  unfold open_ at ho
  simp only at ho
  split at ho
  · simp at ho
  · split at ho
    · simp only [Round.next.injEq] at ho; rw [← ho.1]; exact h
    · split at ho
      · simp at ho
      · split at ho
        · simp only [Round.next.injEq] at ho; rw [← ho.1]; exact h
        · split at ho
          · simp at ho
          · simp only [Round.next.injEq] at ho; rw [← ho.1]; exact h

theorem grow_fits {s : St} (h : Fits s) (len : Int) : Fits (grow s len) := by
  unfold grow
  split
  · obtain ⟨h1, h2⟩ := h
    refine ⟨?_, ?_⟩ <;> simp only <;> omega
  · exact h

theorem grow_room {s : St} (h : Fits s) {len : Int} (hl : 16 ≤ len) :
    len.toNat - 16 ≤ (grow s len).room := by
  unfold grow
  split
  · exact Nat.le_refl _
  · obtain ⟨h1, h2⟩ := h; omega

theorem round_fits {c : Cipher} {s s' : St} {d : Bytes} {mem : Bool} {call : Option Call}
    (h : Fits s) (hr : round c s d mem = .next s' call) : Fits s' := by
  unfold round at hr
  split at hr
  · simp only [Round.next.injEq] at hr; rw [← hr.1]; exact h
  · simp only at hr
    split at hr
    · simp only [Round.next.injEq] at hr; rw [← hr.1]; exact h
    · have hg := grow_fits h (toInt32 (un32 d))
      split at hr
      · simp at hr
      · split at hr
        · simp at hr
        · split at hr
          · simp at hr
          · split at hr
            · simp only [Round.next.injEq] at hr; rw [← hr.1]; exact hg
            · exact open_fits hg hr

end Mtev.Heartbeat
