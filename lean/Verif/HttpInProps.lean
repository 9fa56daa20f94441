import Verif.HttpIn

/-! # Properties C33, C60: request bodies -/

namespace Mtev.HttpIn

/-! ## Specification (RFC 9112 section 7.1, without extensions and trailers) -/

/-- `c` is a hexadecimal digit of value `v`. -/
def HexDigit (c v : Nat) : Prop :=
  (bytesOf "0123456789abcdef")[v]? = some c ∨ (bytesOf "0123456789ABCDEF")[v]? = some c

/-- `h` is the hexadecimal number `n`. -/
inductive HexNum : List Nat → Nat → Prop
  | one {c v} : HexDigit c v → HexNum [c] v
  | snoc {h n c v} : HexNum h n → HexDigit c v → HexNum (h ++ [c]) (16 * n + v)

/-- The line end. -/
def CRLF : List Nat := [13, 10]

/-- One chunk with the size line `h` and the data `d`. -/
def chunkText (h d : List Nat) : List Nat := h ++ CRLF ++ d ++ CRLF

/-- A chunked body: chunks given by size text and data, and the size text of the last chunk. -/
def bodyText (cs : List (List Nat × List Nat)) (z : List Nat) : List Nat :=
  cs.flatMap (fun c => chunkText c.1 c.2) ++ chunkText z []

/-- What the body carries. -/
def payload (cs : List (List Nat × List Nat)) : List Nat := cs.flatMap Prod.snd

/-- The size texts are the sizes of the data, and no chunk but the last is empty. -/
def WellFormed (cs : List (List Nat × List Nat)) (z : List Nat) : Prop :=
  (∀ c ∈ cs, HexNum c.1 c.2.length ∧ c.2 ≠ []) ∧ HexNum z 0

/-- The limits under which the code works: size texts of at most 18 digits, chunks below 2 GiB. -/
def Limits (cs : List (List Nat × List Nat)) (z : List Nat) : Prop :=
  (∀ c ∈ cs, c.1.length ≤ 18 ∧ c.2.length < 2 ^ 31) ∧ z.length ≤ 18

/-- The bytes handed to the application. -/
def received : List Ret → List Nat
  | [] => []
  | .bytes b :: r => b ++ received r
  | _ :: r => received r

/-- The bytes of the connection not yet taken out of the input: buffered, then not read. -/
def unread (s : S) : List Nat := s.inp.flatMap BC.data ++ s.sock

/-- A buffer that holds its data and has a reasonable size. -/
def Fits (b : BC) : Prop := b.start + b.data.length ≤ b.allocd ∧ 20 ≤ b.allocd

/-- A request whose body starts: at most one input buffer, nothing read. -/
def Fresh (s : S) : Prop :=
  s.inp.length ≤ 1 ∧ (∀ b ∈ s.inp, Fits b ∧ b.data ≠ []) ∧ s.user = [] ∧ s.lastChunk = false ∧ s.clr = 0

/-! ## Bridge lemmas -/

theorem hexDigit_of {c v : Nat} (h : HexDigit c v) : hexDigit c = some v ∧ v < 16 := by
  have key : ∀ l : List Nat, (∀ i : Fin 16, ∀ c, l[i.val]? = some c → hexDigit c = some i.val) → l.length = 16 →
      l[v]? = some c → hexDigit c = some v ∧ v < 16 := by
    intro l h1 h2 h3
    have hv : v < 16 := by
      rw [← h2]; exact (List.getElem?_eq_some_iff.mp h3).1
    exact ⟨h1 ⟨v, hv⟩ c h3, hv⟩
  rcases h with h | h
  · refine key _ ?_ (by decide +kernel) h
    intro i c hc
    have : ∀ i : Fin 16, (bytesOf "0123456789abcdef")[i.val]?.map hexDigit = some (some i.val) := by decide +kernel
    have := this i
    rw [hc] at this
    simpa using this
  · refine key _ ?_ (by decide +kernel) h
    intro i c hc
    have : ∀ i : Fin 16, (bytesOf "0123456789ABCDEF")[i.val]?.map hexDigit = some (some i.val) := by decide +kernel
    have := this i
    rw [hc] at this
    simpa using this

theorem hexDigit_13 : hexDigit 13 = none := by decide

/-- All bytes are hexadecimal digits. -/
def AllHex (h : List Nat) : Prop := ∀ c ∈ h, hexDigit c ≠ none

theorem HexNum.allHex {h n} (hh : HexNum h n) : AllHex h := by
  induction hh with
  | one hd =>
    intro c hc
    simp only [List.mem_singleton] at hc
    subst hc; rw [(hexDigit_of hd).1]; simp
  | snoc _ hd ih =>
    intro c hc
    rcases List.mem_append.mp hc with hc | hc
    · exact ih c hc
    · simp only [List.mem_singleton] at hc
      subst hc; rw [(hexDigit_of hd).1]; simp

theorem HexNum.pos {h n} (hh : HexNum h n) : h ≠ [] := by
  cases hh <;> simp

/-- The accumulated value of hexadecimal digits. -/
def accum : List Nat → Nat → Nat
  | [], a => a
  | c :: r, a => accum r ((a * 16 + (hexDigit c).getD 0) % 2 ^ 32)

theorem accum_append (x y : List Nat) (a : Nat) : accum (x ++ y) a = accum y (accum x a) := by
  induction x generalizing a with
  | nil => rfl
  | cons c r ih => simp only [List.cons_append, accum]; exact ih _

theorem HexNum.accum {h n} (hh : HexNum h n) : accum h 0 = n % 2 ^ 32 := by
  induction hh with
  | one hd =>
    have := hexDigit_of hd
    simp [HttpIn.accum, this.1]
  | snoc _ hd ih =>
    have := hexDigit_of hd
    rw [accum_append, ih]
    simp only [HttpIn.accum, this.1, Option.getD_some]
    omega

theorem scanLen_hex (h r : List Nat) (a i : Nat) (hh : AllHex h) :
    scanLen (h ++ 13 :: 10 :: r) a i = some (accum h a, i + h.length) := by
  induction h generalizing a i with
  | nil => simp [scanLen, hexDigit_13, accum]
  | cons c t ih =>
    have hc := hh c (by simp)
    obtain ⟨d, hd⟩ := Option.ne_none_iff_exists'.mp hc
    have ht : AllHex t := fun x hx => hh x (by simp [hx])
    simp only [List.cons_append, scanLen, hd, accum, Option.getD_some]
    rw [ih _ _ ht]
    simp only [List.length_cons, Option.some.injEq, Prod.mk.injEq, true_and]
    omega

theorem allHex_ne13 {h : List Nat} (hh : AllHex h) : 13 ∉ h :=
  fun hm => hh 13 hm hexDigit_13

theorem findCRLF_at (l r : List Nat) (hl : 13 ∉ l) : findCRLF (l ++ 13 :: 10 :: r) = some l.length := by
  induction l with
  | nil => simp [findCRLF]
  | cons c t ih =>
    have hc : c ≠ 13 := fun e => hl (by simp [e])
    have := ih (fun hm => hl (by simp [hm]))
    simp [findCRLF, hc, this]

theorem findCRLF_none (l : List Nat) (hl : 13 ∉ l) : findCRLF l = none := by
  induction l with
  | nil => rfl
  | cons c t ih =>
    have hc : c ≠ 13 := fun e => hl (by simp [e])
    have := ih (fun hm => hl (by simp [hm]))
    simp [findCRLF, hc, this]

theorem findCRLF_none' (l : List Nat) (hl : 13 ∉ l) : findCRLF (l ++ [13]) = none := by
  induction l with
  | nil => simp [findCRLF]
  | cons c t ih =>
    have hc : c ≠ 13 := fun e => hl (by simp [e])
    have := ih (fun hm => hl (by simp [hm]))
    simp [findCRLF, hc, this]

/-- Data too short for the line `l` has no line end in it. -/
theorem findCRLF_short {data l r m : List Nat} (hl : 13 ∉ l) (h : data ++ m = l ++ 13 :: 10 :: r)
    (hlen : data.length < l.length + 2) : findCRLF data = none := by
  have e : data = (l ++ [13]).take data.length := by
    have h1 : data = (l ++ 13 :: 10 :: r).take data.length := by rw [← h]; simp
    have h2 : l ++ 13 :: 10 :: r = (l ++ [13]) ++ (10 :: r) := by simp
    rw [h2, List.take_append_of_le_length (by simp; omega)] at h1
    exact h1
  by_cases hx : data.length ≤ l.length
  · rw [List.take_append_of_le_length hx] at e
    refine findCRLF_none _ (fun hm => hl ?_)
    rw [e] at hm
    exact List.mem_of_mem_take hm
  · have : data.length = (l ++ [13]).length := by simp; omega
    rw [this, List.take_length] at e
    rw [e]; exact findCRLF_none' l hl

/-- Long enough data contains the whole of a prefix of the stream. -/
theorem split_prefix {data m p r : List Nat} (h : data ++ m = p ++ r) (hlen : p.length ≤ data.length) :
    ∃ x, data = p ++ x ∧ x ++ m = r := by
  refine ⟨data.drop p.length, ?_, ?_⟩
  · have : data.take p.length = p := by
      have h1 : (data ++ m).take p.length = p := by rw [h]; simp
      rwa [List.take_append_of_le_length hlen] at h1
    conv_lhs => rw [← List.take_append_drop p.length data, this]
  · have h1 : (data ++ m).drop p.length = r := by rw [h]; simp
    rwa [List.drop_append_of_le_length hlen] at h1

/-! ## Reading one chunk -/

/-- At most one buffer, and it holds its data. -/
def InpOk (inp : List BC) : Prop := inp.length ≤ 1 ∧ ∀ b ∈ inp, Fits b

theorem prep_spec (b : BC) (hb : Fits b) :
    ∃ b', prep b = .ok b' ∧ b'.data = b.data ∧ Fits b' ∧ 20 ≤ b'.allocd - b'.start := by
  obtain ⟨h1, h2⟩ := hb
  unfold prep
  split
  · exact ⟨_, rfl, rfl, ⟨by simp; omega, h2⟩, by simpa using h2⟩
  · exact ⟨_, rfl, rfl, ⟨h1, h2⟩, by omega⟩

theorem header_cons (inp : List BC) (hi : InpOk inp) :
    ∃ b, Fits b ∧ b.data = inp.flatMap BC.data ∧ header inp = header [b] := by
  rcases inp with _ | ⟨b, _ | ⟨b2, r⟩⟩
  · exact ⟨⟨defSize, 0, []⟩, ⟨by simp, by decide⟩, rfl, rfl⟩
  · exact ⟨b, hi.2 b (by simp), by simp, rfl⟩
  · have := hi.1; simp at this

theorem header_eq (b b' : BC) (h : prep b = .ok b') : header [b] =
    match findCRLF b'.data with
    | none => Out.ok (.more [b'])
    | some _ =>
      match scanLen b'.data 0 0 with
      | none => Out.ok .bad
      | some (clen, hl) =>
        if b'.data.length ≥ needed clen hl then
          Out.ok (.have (toInt32 clen) [⟨b'.allocd, b'.start + (hl + 2), b'.data.drop (hl + 2)⟩])
        else if b'.allocd - b'.start < needed clen hl then
          if b'.data.length > max (needed clen hl) defSize then .ub
          else Out.ok (.more [⟨max (needed clen hl) defSize, 0, b'.data⟩])
        else Out.ok (.more [b']) := by
  unfold header
  simp only [firstInput, h, Out.ok_bind]
  rfl

/-- The inspection of the input when the stream starts with a size line, the data and two bytes. -/
theorem header_gen {inp : List BC} {m h d t rest : List Nat} (_ht : t.length = 2) (hi : InpOk inp) (hn : HexNum h d.length)
    (hh : h.length ≤ 18) (hd : d.length < 2 ^ 31) (hs : inp.flatMap BC.data ++ m = h ++ CRLF ++ d ++ t ++ rest) :
    (∃ b, header inp = .ok (.have d.length [b]) ∧ Fits b ∧ b.data ++ m = d ++ t ++ rest ∧
        d.length + 2 ≤ b.data.length) ∨
    (∃ b, header inp = .ok (.more [b]) ∧ Fits b ∧ b.data = inp.flatMap BC.data ∧
        b.start + b.data.length < b.allocd ∧ b.data.length < (chunkText h d).length) := by
  obtain ⟨b0, hb0, hd0, he⟩ := header_cons inp hi
  obtain ⟨b, hp, hbd, hbf, hbr⟩ := prep_spec b0 hb0
  rw [he, header_eq b0 b hp]
  rw [← hd0, ← hbd] at hs ⊢
  have hx := hn.allHex
  have h13 := allHex_ne13 hx
  have hcl : (chunkText h d).length = h.length + d.length + 4 := by simp [chunkText, CRLF]; omega
  have hs' : b.data ++ m = h ++ 13 :: 10 :: (d ++ t ++ rest) := by
    rw [hs]; simp [CRLF]
  obtain ⟨hf1, hf2⟩ := hbf
  by_cases hl : b.data.length < h.length + 2
  · right
    rw [findCRLF_short h13 hs' hl]
    exact ⟨b, rfl, ⟨hf1, hf2⟩, rfl, by omega, by omega⟩
  · have hs2 : b.data ++ m = (h ++ [13, 10]) ++ (d ++ t ++ rest) := by rw [hs']; simp
    obtain ⟨x, hx1, hx2⟩ := split_prefix hs2 (by simp; omega)
    have hx1' : b.data = h ++ 13 :: 10 :: x := by rw [hx1]; simp
    have hfc : findCRLF b.data = some h.length := by rw [hx1']; exact findCRLF_at _ _ h13
    have hsc : scanLen b.data 0 0 = some (d.length, h.length) := by
      rw [hx1', scanLen_hex _ _ _ _ hx, hn.accum]
      simp only [Nat.zero_add, Option.some.injEq, Prod.mk.injEq, and_true]
      omega
    have hnd : needed d.length h.length = d.length + (h.length + 4) := by unfold needed; omega
    simp only [hfc, hsc, hnd]
    split
    · rename_i hge
      left
      have hti : toInt32 d.length = d.length := by unfold toInt32; rw [if_pos hd]
      have hdr : b.data.drop (h.length + 2) = x := by
        rw [hx1]; exact List.drop_left' (by simp)
      refine ⟨_, by rw [hti], ?_, ?_, ?_⟩
      · refine ⟨?_, hf2⟩
        simp only [List.length_drop]; omega
      · simp only [hdr]; exact hx2
      · simp only [List.length_drop]; omega
    · rename_i hlt
      right
      split
      · rename_i hal
        rw [if_neg (by omega)]
        refine ⟨_, rfl, ⟨?_, ?_⟩, rfl, ?_, ?_⟩
        · simp only; omega
        · simp only [defSize]; omega
        · simp only; omega
        · simp only; omega
      · rename_i hal
        exact ⟨b, rfl, ⟨hf1, hf2⟩, rfl, by omega, by omega⟩

/-- The inspection of the input when the stream starts with a chunk. -/
theorem header_spec {inp : List BC} {m h d rest : List Nat} (hi : InpOk inp) (hn : HexNum h d.length)
    (hh : h.length ≤ 18) (hd : d.length < 2 ^ 31) (hs : inp.flatMap BC.data ++ m = chunkText h d ++ rest) :
    (∃ b, header inp = .ok (.have d.length [b]) ∧ Fits b ∧ b.data ++ m = d ++ CRLF ++ rest ∧
        d.length + 2 ≤ b.data.length) ∨
    (∃ b, header inp = .ok (.more [b]) ∧ Fits b ∧ b.data = inp.flatMap BC.data ∧
        b.start + b.data.length < b.allocd ∧ b.data.length < (chunkText h d).length) :=
  header_gen (t := CRLF) rfl hi hn hh hd hs

theorem expand_id (b : BC) (h : b.start + b.data.length < b.allocd) : expand [b] = [b] := by
  simp only [expand, List.getLast?_singleton]
  rw [if_neg (by omega)]

theorem doRead_got {r : Rd} {cap : Nat} {sock bs rest : List Nat} (h : doRead r cap sock = .got bs rest) :
    bs ++ rest = sock ∧ bs ≠ [] ∧ bs.length ≤ cap ∧ ∃ n, r = .data n := by
  cases r <;> simp only [doRead] at h <;> try (exact absurd h (by simp))
  · rename_i n
    split at h
    · simp at h
    · split at h
      · simp at h
      · rename_i hc hs
        simp only [RdRes.got.injEq] at h
        obtain ⟨rfl, rfl⟩ := h
        refine ⟨by simp, ?_, by rw [List.length_take]; omega, n, rfl⟩
        intro e
        have hp := List.length_pos_iff.mpr hs
        have := congrArg List.length e
        rw [List.length_take, List.length_nil] at this
        omega
  · split at h <;> simp at h

/-- The state apart from the input. -/
def SameRest (s s' : S) : Prop :=
  s'.user = s.user ∧ s'.lastChunk = s.lastChunk ∧ s'.complete = s.complete ∧ s'.cl = s.cl ∧ s'.clr = s.clr

theorem dropEmpty_ok (b : BC) (hb : Fits b) : InpOk (dropEmpty [b]) ∧ (dropEmpty [b]).flatMap BC.data = b.data := by
  by_cases h : b.data = []
  · simp [InpOk, dropEmpty, h]
  · simp [InpOk, dropEmpty, h, hb]

/-- What one call of the reading function may do when the stream starts with a chunk. -/
def ReadPost (rds : List Rd) (s : S) (d rest m : List Nat) (o : Out (S × Int × List Rd)) : Prop :=
  ∃ s' n rds', o = .ok (s', n, rds') ∧ InpOk s'.inp ∧ s'.lastChunk = s.lastChunk ∧
    s'.cl = s.cl ∧ s'.clr = s.clr ∧
    ((n = -1 ∧ unread s' = unread s ∧ s'.user = s.user ∧ ((∀ r ∈ rds, ∃ k, r = Rd.data k) → m = [] →
        rds.length < s.sock.length)) ∨
     (n = -2 ∧ unread s' = unread s ∧ s'.user = s.user ∧ (Rd.err ∈ rds ∨ (Rd.eof ∈ rds ∧ m ≠ []))) ∨
     (n = (d.length : Int) ∧ unread s' ++ m = rest ∧ s'.user = if d = [] then s.user else s.user ++ [d]))

theorem finish_case {rds : List Rd} {s : S} {d rest m : List Nat} {b : BC} (hb : header s.inp = .ok (.have d.length [b]))
    (hf : Fits b) (hbs : b.data ++ (s.sock ++ m) = d ++ CRLF ++ rest) (hbl : d.length + 2 ≤ b.data.length) :
    ReadPost rds s d rest m (consumeRead rds s) := by
  have hbs' : b.data ++ (s.sock ++ m) = (d ++ CRLF) ++ rest := by rw [hbs]
  obtain ⟨x, hx1, hx2⟩ := split_prefix hbs' (by simp [CRLF]; omega)
  have hlen : b.data.length = d.length + 2 + x.length := by rw [hx1]; simp [CRLF]; omega
  obtain ⟨hf1, hf2⟩ := hf
  unfold consumeRead ReadPost
  simp only [hb, Out.ok_bind]
  by_cases hd : d = []
  · have hx : b.data.drop 2 = x := by rw [hx1, hd]; rfl
    obtain ⟨h1, h2⟩ := dropEmpty_ok ⟨b.allocd, b.start + 2, x⟩ ⟨by simp; omega, hf2⟩
    simp only [hd, List.length_nil, finish, hx]
    rw [if_neg (by simp), if_pos (by simp), if_neg (by omega)]
    simp only [Out.ok_bind, Out.pure_eq]
    refine ⟨_, _, _, rfl, h1, rfl, rfl, rfl, Or.inr (Or.inr ⟨by simp, ?_, by simp⟩)⟩
    simp only [unread, h2]
    rw [List.append_assoc]; exact hx2
  · have hp := List.length_pos_iff.mpr hd
    have hk : min b.data.length (((d.length : Nat) : Int)).toNat = d.length := by simp; omega
    have ht : b.data.take d.length = d := by rw [hx1]; simp
    have hdr : b.data.drop d.length = CRLF ++ x := by rw [hx1]; simp
    obtain ⟨h1, h2⟩ := dropEmpty_ok ⟨b.allocd, b.start + d.length + 2, x⟩ ⟨by simp; omega, hf2⟩
    simp only [finish, hk, ht, hdr]
    rw [if_pos (by exact_mod_cast hp), if_neg (by simp [CRLF]), if_neg (by simp [CRLF])]
    simp only [Out.ok_bind, Out.pure_eq]
    refine ⟨_, _, _, rfl, h1, rfl, rfl, rfl, Or.inr (Or.inr ⟨rfl, ?_, by simp [hd]⟩)⟩
    have : (CRLF ++ x).drop 2 = x := rfl
    rw [this]
    simp only [unread, h2]
    rw [List.append_assoc]; exact hx2

/-- One call of the reading function when the stream starts with a chunk; `m` are bytes that never
arrive. -/
theorem consumeRead_spec (rds : List Rd) (s : S) {h d rest m : List Nat} (hi : InpOk s.inp)
    (hn : HexNum h d.length) (hh : h.length ≤ 18) (hd : d.length < 2 ^ 31)
    (hs : unread s ++ m = chunkText h d ++ rest) :
    ReadPost rds s d rest m (consumeRead rds s) := by
  induction rds generalizing s with
  | nil =>
    have hs' : s.inp.flatMap BC.data ++ (s.sock ++ m) = chunkText h d ++ rest := by
      rw [← hs]; simp [unread]
    rcases header_spec hi hn hh hd hs' with ⟨b, hb, hf, hbs, hbl⟩ | ⟨b, hb, hf, hbs, hbl, hbl2⟩
    · exact finish_case hb hf hbs hbl
    · unfold consumeRead
      simp only [hb, Out.ok_bind, expand_id b hbl, Out.pure_eq]
      refine ⟨_, _, _, rfl, by simp [InpOk, hf], rfl, rfl, rfl, Or.inl ⟨rfl, ?_, rfl, ?_⟩⟩
      · simp [unread, hbs]
      · intro _ hm
        have := congrArg List.length hs'
        simp only [List.length_append, hm, ← hbs, List.length_nil] at this
        simp only [List.length_nil]; omega
  | cons r rds ih =>
    have hs' : s.inp.flatMap BC.data ++ (s.sock ++ m) = chunkText h d ++ rest := by
      rw [← hs]; simp [unread]
    rcases header_spec hi hn hh hd hs' with ⟨b, hb, hf, hbs, hbl⟩ | ⟨b, hb, hf, hbs, hbl, hbl2⟩
    · exact finish_case hb hf hbs hbl
    · have hsock : m = [] → s.sock ≠ [] := by
        intro hm e
        have := congrArg List.length hs'
        simp only [List.length_append, hm, e, ← hbs, List.length_nil] at this
        omega
      have hroom : room [b] = b.allocd - b.data.length - b.start := by simp [room]
      have hun : unread { s with inp := [b] } = unread s := by simp [unread, hbs]
      unfold consumeRead
      simp only [hb, Out.ok_bind, expand_id b hbl, Out.pure_eq]
      cases hr : doRead r (room [b]) s.sock with
      | again =>
        refine ⟨_, _, _, rfl, by simp [InpOk, hf], rfl, rfl, rfl, Or.inl ⟨rfl, hun, rfl, ?_⟩⟩
        intro hall hm
        obtain ⟨k, rfl⟩ := hall r (by simp)
        simp only [doRead] at hr
        rw [if_neg (by omega), if_neg (hsock hm)] at hr
        simp at hr
      | eof =>
        refine ⟨_, _, _, rfl, by simp [InpOk, hf], rfl, rfl, rfl, Or.inr (Or.inl ⟨rfl, hun, rfl, ?_⟩)⟩
        cases r with
        | again => simp [doRead] at hr
        | err => simp [doRead] at hr
        | data k =>
          simp only [doRead] at hr
          rw [if_neg (by omega)] at hr
          split at hr <;> simp at hr
        | eof =>
          right
          refine ⟨by simp, ?_⟩
          simp only [doRead] at hr
          split at hr
          · rename_i he; exact fun hm => hsock hm he
          · simp at hr
      | err =>
        refine ⟨_, _, _, rfl, by simp [InpOk, hf], rfl, rfl, rfl, Or.inr (Or.inl ⟨rfl, hun, rfl, ?_⟩)⟩
        cases r with
        | again => simp [doRead] at hr
        | err => simp
        | data k =>
          simp only [doRead] at hr
          split at hr
          · simp at hr
          · split at hr <;> simp at hr
        | eof =>
          simp only [doRead] at hr
          split at hr <;> simp at hr
      | got bs rest' =>
        obtain ⟨g1, g2, g3, k, rfl⟩ := doRead_got hr
        have hfit : Fits { b with data := b.data ++ bs } := by
          refine ⟨?_, hf.2⟩
          simp only [List.length_append]
          omega
        have hun2 : unread { s with inp := addTail [b] bs, sock := rest' } = unread s := by
          simp [unread, addTail, hbs, ← g1]
        have hp := List.length_pos_iff.mpr g2
        have hgl := congrArg List.length g1
        simp only [List.length_append] at hgl
        obtain ⟨s', n, rds', e1, e2, e3, e4, e5, e6⟩ :=
          ih { s with inp := addTail [b] bs, sock := rest' } (by simp [InpOk, addTail, hfit]) (by rw [hun2]; exact hs)
        refine ⟨s', n, rds', e1, e2, e3, e4, e5, ?_⟩
        rw [hun2] at e6
        rcases e6 with ⟨a1, a2, a3, a4⟩ | ⟨a1, a2, a3, a4⟩ | a
        · refine Or.inl ⟨a1, a2, a3, ?_⟩
          intro hall hm
          have := a4 (fun r hr => hall r (by simp [hr])) hm
          simp only at this
          simp only [List.length_cons]; omega
        · refine Or.inr (Or.inl ⟨a1, a2, a3, ?_⟩)
          rcases a4 with a4 | ⟨a4, a5⟩
          · left; simp [a4]
          · right; exact ⟨by simp [a4], a5⟩
        · exact Or.inr (Or.inr a)

/-! ## Delivery -/

theorem takeUser_append (u : List (List Nat)) (n : Nat) :
    (takeUser u n).1 ++ (takeUser u n).2.flatten = u.flatten := by
  induction u generalizing n with
  | nil => rfl
  | cons b r ih =>
    unfold takeUser
    split
    · simp
    · split
      · simp [ih]
      · simp only [List.flatten_cons]; rw [← List.append_assoc, List.take_append_drop]

theorem takeUser_len (u : List (List Nat)) (n : Nat) : (takeUser u n).1.length ≤ n := by
  induction u generalizing n with
  | nil => simp [takeUser]
  | cons b r ih =>
    unfold takeUser
    split
    · simp
    · split
      · have := ih (n - b.length)
        simp only [List.length_append]; omega
      · rw [List.length_take]; omega

theorem takeUser_ne (u : List (List Nat)) (n : Nat) (h : ∀ b ∈ u, b ≠ []) : ∀ b ∈ (takeUser u n).2, b ≠ [] := by
  induction u generalizing n with
  | nil => simp [takeUser]
  | cons b r ih =>
    have hr : ∀ b ∈ r, b ≠ [] := fun x hx => h x (by simp [hx])
    unfold takeUser
    split
    · exact h
    · split
      · exact ih _ hr
      · intro x hx
        rcases List.mem_cons.mp hx with rfl | hx
        · intro e
          have := congrArg List.length e
          rw [List.length_drop, List.length_nil] at this
          omega
        · exact hr x hx

theorem takeUser_pos (b : List Nat) (r : List (List Nat)) (n : Nat) (hb : b ≠ []) (hn : 0 < n) :
    (takeUser (b :: r) n).1 ≠ [] := by
  unfold takeUser
  rw [if_neg (by omega)]
  split
  · simp [hb]
  · intro e
    have := congrArg List.length e
    have hp := List.length_pos_iff.mpr hb
    rw [List.length_take, List.length_nil] at this
    omega

/-- What a delivery does. -/
theorem deliver_spec (s : S) (fin : Bool) (len : Nat) (hl : 0 < len) (hu : ∀ b ∈ s.user, b ≠ []) :
    ∃ s' r, deliver s fin len = (s', r) ∧ s'.inp = s.inp ∧ s'.sock = s.sock ∧ s'.lastChunk = s.lastChunk ∧
      s'.cl = s.cl ∧ s'.clr = s.clr ∧ (∀ b ∈ s'.user, b ≠ []) ∧ received [r] ++ s'.user.flatten = s.user.flatten ∧
      ((r = .done ∧ fin = true ∧ s.user = [] ∧ s'.user = []) ∨ (r = .again ∧ fin = false ∧ s.user = []) ∨
       (∃ b, r = .bytes b ∧ b ≠ [] ∧ b.length ≤ len ∧ s.user ≠ [])) := by
  unfold deliver
  rw [if_neg (by omega)]
  rcases hus : s.user with _ | ⟨b, u⟩
  · cases fin
    · exact ⟨s, .again, by simp, rfl, rfl, rfl, rfl, rfl, by simp [hus], by simp [received, hus], by simp⟩
    · exact ⟨{ s with user := [], complete := true }, .done, by simp, rfl, rfl, rfl, rfl, rfl, by simp, by simp [received], by simp⟩
  · rw [hus] at hu
    refine ⟨_, _, rfl, rfl, rfl, rfl, rfl, rfl, takeUser_ne _ _ hu, ?_, Or.inr (Or.inr ⟨_, rfl, ?_, takeUser_len _ _, by simp⟩)⟩
    · simp only [received, List.append_nil]; exact takeUser_append _ _
    · exact takeUser_pos _ _ _ (hu b (by simp)) hl

/-- The relation between the state, what has been delivered (`del`) and the whole body. -/
def J (P z next m : List Nat) (s : S) (del : List Nat) : Prop :=
  InpOk s.inp ∧ (∀ b ∈ s.user, b ≠ []) ∧
  ((s.lastChunk = false ∧ ∃ cs, WellFormed cs z ∧ Limits cs z ∧ unread s ++ m = bodyText cs z ++ next ∧
      del ++ s.user.flatten ++ payload cs = P) ∨
   (s.lastChunk = true ∧ unread s ++ m = next ∧ del ++ s.user.flatten = P))

/-- Everything has been handed out. -/
def Finished (s : S) : Prop := s.lastChunk = true ∧ s.user = []

theorem received_append (a b : List Ret) : received (a ++ b) = received a ++ received b := by
  induction a with
  | nil => rfl
  | cons r a ih => cases r <;> simp [received, ih]

theorem call_spec {P z next m : List Nat} {s : S} {del : List Nat} (len : Nat) (rds : List Rd) (hl : 0 < len)
    (hj : J P z next m s del) :
    ∃ s' r rds', consumeChunked len rds s = .ok (s', r, rds') ∧ J P z next m s' (del ++ received [r]) ∧
      (Finished s → Finished s') ∧ (unread s').length ≤ (unread s).length ∧
      ((r = .done ∧ Finished s') ∨
       (r = .again ∧ ((∀ x ∈ rds, ∃ k, x = Rd.data k) → m = [] → rds.length < s.sock.length)) ∨
       (r = .fail ∧ (Rd.err ∈ rds ∨ (Rd.eof ∈ rds ∧ m ≠ []))) ∨
       (∃ b, r = .bytes b ∧ b ≠ [] ∧ b.length ≤ len)) := by
  obtain ⟨hi, hu, hj⟩ := hj
  unfold consumeChunked
  rcases hj with ⟨hlc, cs, hw, hlim, hun, hdel⟩ | ⟨hlc, hun, hdel⟩
  · rw [if_neg (by simp [hlc])]
    rcases cs with _ | ⟨⟨h, d⟩, cs⟩
    · have hn : HexNum z ([] : List Nat).length := hw.2
      have hun' : unread s ++ m = chunkText z [] ++ next := by rw [hun]; simp [bodyText]
      obtain ⟨s1, n, rds1, e1, e2, e3, e4, e5, e6⟩ := consumeRead_spec rds s hi hn hlim.2 (by simp) hun'
      simp only [e1, Out.ok_bind, Out.pure_eq]
      rcases e6 with ⟨rfl, a2, a3, a4⟩ | ⟨rfl, a2, a3, a4⟩ | ⟨rfl, a2, a3⟩
      · refine ⟨s1, .again, rds1, by simp, ⟨e2, by rw [a3]; exact hu, Or.inl ⟨by rw [e3]; exact hlc, [], hw, hlim, by rw [a2]; exact hun, by simpa [received, a3] using hdel⟩⟩, ?_, by rw [a2], Or.inr (Or.inl ⟨rfl, a4⟩)⟩
        intro hfin; simp [Finished, hlc] at hfin
      · refine ⟨s1, .fail, rds1, by simp, ⟨e2, by rw [a3]; exact hu, Or.inl ⟨by rw [e3]; exact hlc, [], hw, hlim, by rw [a2]; exact hun, by simpa [received, a3] using hdel⟩⟩, ?_, by rw [a2], Or.inr (Or.inr (Or.inl ⟨rfl, a4⟩))⟩
        intro hfin; simp [Finished, hlc] at hfin
      · simp only [↓reduceIte] at a3
        rw [if_pos (by simp)]
        obtain ⟨s2, r, f1, f2, f3, f4, f5, f6, f7, f8, f9⟩ :=
          deliver_spec { s1 with lastChunk := true, cl := s1.clr } true len hl (by simp only [a3]; exact hu)
        simp only [f1]
        have hus : unread s2 = unread s1 := by simp [unread, f2, f3]
        simp only [a3] at f8
        refine ⟨s2, r, rds1, rfl, ⟨by rw [f2]; exact e2, f7, Or.inr ⟨f4, by rw [hus]; exact a2, ?_⟩⟩, ?_, ?_, ?_⟩
        · rw [List.append_assoc, f8]; simpa [payload] using hdel
        · intro hfin; simp [Finished, hlc] at hfin
        · rw [hus]
          have h1 := congrArg List.length a2
          have h2 := congrArg List.length hun'
          simp only [List.length_append] at h1 h2
          omega
        · rcases f9 with ⟨g1, g2, g3, g4⟩ | ⟨g1, g2, g3⟩ | ⟨b, g1, g2, g3, g4⟩
          · exact Or.inl ⟨g1, f4, g4⟩
          · simp at g2
          · exact Or.inr (Or.inr (Or.inr ⟨b, g1, g2, g3⟩))
    · obtain ⟨hn, hd⟩ := hw.1 (h, d) (by simp)
      obtain ⟨hh, hdl⟩ := hlim.1 (h, d) (by simp)
      simp only at hn hd hh hdl
      have hw' : WellFormed cs z := ⟨fun c hc => hw.1 c (by simp [hc]), hw.2⟩
      have hlim' : Limits cs z := ⟨fun c hc => hlim.1 c (by simp [hc]), hlim.2⟩
      have hun' : unread s ++ m = chunkText h d ++ (bodyText cs z ++ next) := by rw [hun]; simp [bodyText]
      obtain ⟨s1, n, rds1, e1, e2, e3, e4, e5, e6⟩ := consumeRead_spec rds s hi hn hh hdl hun'
      simp only [e1, Out.ok_bind, Out.pure_eq]
      rcases e6 with ⟨rfl, a2, a3, a4⟩ | ⟨rfl, a2, a3, a4⟩ | ⟨rfl, a2, a3⟩
      · refine ⟨s1, .again, rds1, by simp, ⟨e2, by rw [a3]; exact hu, Or.inl ⟨by rw [e3]; exact hlc, _, hw, hlim, by rw [a2]; exact hun, by simpa [received, a3] using hdel⟩⟩, ?_, by rw [a2], Or.inr (Or.inl ⟨rfl, a4⟩)⟩
        intro hfin; simp [Finished, hlc] at hfin
      · refine ⟨s1, .fail, rds1, by simp, ⟨e2, by rw [a3]; exact hu, Or.inl ⟨by rw [e3]; exact hlc, _, hw, hlim, by rw [a2]; exact hun, by simpa [received, a3] using hdel⟩⟩, ?_, by rw [a2], Or.inr (Or.inr (Or.inl ⟨rfl, a4⟩))⟩
        intro hfin; simp [Finished, hlc] at hfin
      · have hp := List.length_pos_iff.mpr hd
        rw [if_neg hd] at a3
        rw [if_neg (by omega), if_neg (by omega)]
        have hu1 : ∀ b ∈ s.user ++ [d], b ≠ [] := by
          intro b hb
          rcases List.mem_append.mp hb with hb | hb
          · exact hu b hb
          · simp only [List.mem_singleton] at hb; rw [hb]; exact hd
        obtain ⟨s2, r, f1, f2, f3, f4, f5, f6, f7, f8, f9⟩ :=
          deliver_spec { s1 with clr := s1.clr + ((d.length : Int)).toNat } false len hl (by simp only [a3]; exact hu1)
        simp only [f1]
        have hus : unread s2 = unread s1 := by simp [unread, f2, f3]
        simp only [a3] at f8 f9
        refine ⟨s2, r, rds1, rfl, ⟨by rw [f2]; exact e2, f7, Or.inl ⟨by rw [f4]; simpa [e3] using hlc, cs, hw', hlim', by rw [hus]; exact a2, ?_⟩⟩, ?_, ?_, ?_⟩
        · rw [List.append_assoc del, f8]; simpa [payload] using hdel
        · intro hfin; simp [Finished, hlc] at hfin
        · rw [hus]
          have h1 := congrArg List.length a2
          have h2 := congrArg List.length hun'
          simp only [List.length_append] at h1 h2
          omega
        · rcases f9 with ⟨g1, g2, g3, g4⟩ | ⟨g1, g2, g3⟩ | ⟨b, g1, g2, g3, g4⟩
          · simp at g2
          · simp at g3
          · exact Or.inr (Or.inr (Or.inr ⟨b, g1, g2, g3⟩))
  · rw [if_pos hlc]
    obtain ⟨s2, r, f1, f2, f3, f4, f5, f6, f7, f8, f9⟩ := deliver_spec s true len hl hu
    have hus : unread s2 = unread s := by simp [unread, f2, f3]
    simp only [f1, Out.pure_eq]
    refine ⟨s2, r, rds, rfl, ⟨by rw [f2]; exact hi, f7, Or.inr ⟨by rw [f4]; exact hlc, by rw [hus]; exact hun, ?_⟩⟩, ?_, by rw [hus], ?_⟩
    · rw [List.append_assoc, f8]; exact hdel
    · intro hfin
      refine ⟨by rw [f4]; exact hlc, ?_⟩
      rcases f9 with ⟨g1, g2, g3, g4⟩ | ⟨g1, g2, g3⟩ | ⟨b, g1, g2, g3, g4⟩
      · exact g4
      · simp at g2
      · exact absurd hfin.2 g4
    · rcases f9 with ⟨g1, g2, g3, g4⟩ | ⟨g1, g2, g3⟩ | ⟨b, g1, g2, g3, g4⟩
      · exact Or.inl ⟨g1, by rw [f4]; exact hlc, g4⟩
      · simp at g2
      · exact Or.inr (Or.inr (Or.inr ⟨b, g1, g2, g3⟩))

theorem run_spec {P z next m : List Nat} (calls : List (Nat × List Rd)) {s : S} {del : List Nat}
    (hl : ∀ c ∈ calls, 0 < c.1) (hj : J P z next m s del) :
    ∃ s' rs, run consumeChunked calls s = .ok (s', rs) ∧ J P z next m s' (del ++ received rs) ∧
      rs.length = calls.length ∧ (Finished s → Finished s') ∧ (.done ∈ rs → Finished s') ∧
      (.fail ∈ rs → ∃ c ∈ calls, Rd.err ∈ c.2 ∨ (Rd.eof ∈ c.2 ∧ m ≠ [])) ∧
      (∀ i : Nat, ∀ b, rs[i]? = some (.bytes b) → b ≠ [] ∧ ∃ c, calls[i]? = some c ∧ b.length ≤ c.1) ∧
      (m = [] → (∀ c ∈ calls, (∀ x ∈ c.2, ∃ k, x = Rd.data k) ∧ (unread s).length ≤ c.2.length) →
        P.length - del.length < calls.length → .done ∈ rs) := by
  induction calls generalizing s del with
  | nil => exact ⟨s, [], rfl, by simpa [received] using hj, rfl, id, by simp, by simp, by simp, by simp⟩
  | cons c calls ih =>
    obtain ⟨len, rds⟩ := c
    obtain ⟨s1, r, rds1, e1, e2, e3, e4, e5⟩ := call_spec len rds (hl _ (List.mem_cons_self ..)) hj
    obtain ⟨s2, rs, f1, f2, f3, f4, f5, f6, f7, f8⟩ := ih (fun c hc => hl c (by simp [hc])) e2
    refine ⟨s2, r :: rs, ?_, ?_, by simp [f3], fun h => f4 (e3 h), ?_, ?_, ?_, ?_⟩
    · unfold run; simp only [e1, Out.ok_bind, f1, Out.pure_eq]
    · have : received (r :: rs) = received [r] ++ received rs := received_append [r] rs
      rw [this, ← List.append_assoc]; exact f2
    · intro hd
      rcases List.mem_cons.mp hd with hd | hd
      · rcases e5 with ⟨_, g⟩ | ⟨g, _⟩ | ⟨g, _⟩ | ⟨b, g, _⟩
        · exact f4 g
        all_goals (rw [g] at hd; simp at hd)
      · exact f5 hd
    · intro hd
      rcases List.mem_cons.mp hd with hd | hd
      · rcases e5 with ⟨g, _⟩ | ⟨g, _⟩ | ⟨_, g⟩ | ⟨b, g, _⟩
        · rw [g] at hd; simp at hd
        · rw [g] at hd; simp at hd
        · exact ⟨_, List.mem_cons_self .., g⟩
        · rw [g] at hd; simp at hd
      · obtain ⟨c, hc, hx⟩ := f6 hd
        exact ⟨c, by simp [hc], hx⟩
    · intro i b hb
      cases i with
      | zero =>
        simp only [List.getElem?_cons_zero, Option.some.injEq] at hb
        rcases e5 with ⟨g, _⟩ | ⟨g, _⟩ | ⟨g, _⟩ | ⟨b', g, g1, g2⟩
        · rw [g] at hb; simp at hb
        · rw [g] at hb; simp at hb
        · rw [g] at hb; simp at hb
        · rw [g] at hb
          simp only [Ret.bytes.injEq] at hb
          subst hb
          exact ⟨g1, _, rfl, g2⟩
      | succ i => simpa using f7 i b (by simpa using hb)
    · intro hm hall hlen
      rcases e5 with ⟨g, _⟩ | ⟨_, g⟩ | ⟨_, g⟩ | ⟨b, g, g1, g2⟩
      · simp [g]
      · obtain ⟨h1, h2⟩ := hall _ (List.mem_cons_self ..)
        have := g h1 hm
        simp only [unread, List.length_append] at h2
        omega
      · obtain ⟨h1, h2⟩ := hall _ (List.mem_cons_self ..)
        rcases g with g | ⟨_, g⟩
        · obtain ⟨k, hk⟩ := h1 _ g; simp at hk
        · exact absurd hm g
      · refine List.mem_cons_of_mem _ (f8 hm (fun c hc => ?_) ?_)
        · obtain ⟨h1, h2⟩ := hall c (by simp [hc])
          exact ⟨h1, by omega⟩
        · have hp := List.length_pos_iff.mpr g1
          simp only [List.length_append, g, received, List.append_nil, List.length_cons] at hlen ⊢
          -- the delivered bytes are part of the payload
          have hle : (del ++ received [r]).length ≤ P.length := by
            obtain ⟨_, _, h | h⟩ := e2
            · obtain ⟨_, cs, _, _, _, h⟩ := h
              rw [← h]; simp
            · rw [← h.2.2]; simp
          simp only [g, received, List.length_append, List.append_nil] at hle
          omega

theorem Fresh.j {s : S} {cs : List (List Nat × List Nat)} {z next m : List Nat} (hf : Fresh s)
    (hw : WellFormed cs z) (hlim : Limits cs z) (hs : unread s ++ m = bodyText cs z ++ next) :
    J (payload cs) z next m s [] :=
  ⟨⟨hf.1, fun b hb => (hf.2.1 b hb).1⟩, by simp [hf.2.2.1], Or.inl ⟨hf.2.2.2.1, cs, hw, hlim, hs, by simp [hf.2.2.1]⟩⟩

/-! ## C33: chunked request bodies -/

/-- For every chunked body within the limits, every way of splitting it over reads, every sequence of
`mtev_http_session_req_consume` calls, and even when the last bytes (`m`) never arrive: there is no
undefined behaviour; the bytes handed out are, in order, a prefix of the payload; 0 is returned only when
exactly the payload has been handed out, and then the bytes that follow the body on the connection are
kept for the next request; and a failure is reported only if a read failed or the connection ended within
the body.  (Missing: chunk extensions, trailers, size texts beyond 18 digits, chunks of 2 GiB and more;
see the `_violated` theorems.) -/
theorem C33_chunked_body_partial (cs : List (List Nat × List Nat)) (z next m : List Nat) (s : S)
    (calls : List (Nat × List Rd)) (hf : Fresh s) (hw : WellFormed cs z) (hlim : Limits cs z)
    (hs : unread s ++ m = bodyText cs z ++ next) (hl : ∀ c ∈ calls, 0 < c.1) :
    ∃ s' rs, run consumeChunked calls s = .ok (s', rs) ∧ rs.length = calls.length ∧
      received rs <+: payload cs ∧
      (.done ∈ rs → received rs = payload cs ∧ unread s' ++ m = next) ∧
      (.fail ∈ rs → ∃ c ∈ calls, Rd.err ∈ c.2 ∨ (Rd.eof ∈ c.2 ∧ m ≠ [])) ∧
      (∀ i : Nat, ∀ b, rs[i]? = some (.bytes b) → b ≠ [] ∧ ∃ c, calls[i]? = some c ∧ b.length ≤ c.1) := by
  obtain ⟨s', rs, e1, e2, e3, e4, e5, e6, e7, e8⟩ := run_spec calls hl (hf.j hw hlim hs)
  refine ⟨s', rs, e1, e3, ?_, ?_, e6, e7⟩
  · obtain ⟨_, _, h | h⟩ := e2
    · obtain ⟨_, cs', _, _, _, h⟩ := h
      exact ⟨s'.user.flatten ++ payload cs', by rw [← h]; simp⟩
    · exact ⟨s'.user.flatten, by rw [← h.2.2]; simp⟩
  · intro hd
    obtain ⟨h1, h2⟩ := e5 hd
    obtain ⟨_, _, h | h⟩ := e2
    · rw [h1] at h; simp at h
    · refine ⟨by simpa [h2] using h.2.2, h.2.1⟩

/-- A body that is cut short is never reported as complete. -/
theorem C33_truncated_never_done_partial (cs : List (List Nat × List Nat)) (z m : List Nat) (s : S)
    (calls : List (Nat × List Rd)) (hf : Fresh s) (hw : WellFormed cs z) (hlim : Limits cs z)
    (hs : unread s ++ m = bodyText cs z) (hm : m ≠ []) (hl : ∀ c ∈ calls, 0 < c.1) :
    ∃ s' rs, run consumeChunked calls s = .ok (s', rs) ∧ .done ∉ rs := by
  obtain ⟨s', rs, e1, e2, e3, e4, _⟩ :=
    C33_chunked_body_partial cs z [] m s calls hf hw hlim (by simpa using hs) hl
  refine ⟨s', rs, e1, fun hd => hm ?_⟩
  have := (e4 hd).2
  simp at this
  exact this.2

/-- When all bytes are available the application gets the whole body, in at most one call per payload byte
and one more. -/
theorem C33_chunked_progress_partial (cs : List (List Nat × List Nat)) (z next : List Nat) (s : S)
    (calls : List (Nat × List Rd)) (hf : Fresh s) (hw : WellFormed cs z) (hlim : Limits cs z)
    (hs : unread s = bodyText cs z ++ next) (hl : ∀ c ∈ calls, 0 < c.1)
    (hr : ∀ c ∈ calls, (∀ x ∈ c.2, ∃ k, x = Rd.data k) ∧ (unread s).length ≤ c.2.length)
    (hn : (payload cs).length < calls.length) :
    ∃ s' rs, run consumeChunked calls s = .ok (s', rs) ∧ received rs = payload cs ∧ .done ∈ rs ∧ unread s' = next := by
  obtain ⟨s', rs, e1, e2, e3, e4, e5, e6, e7, e8⟩ :=
    run_spec calls hl (hf.j (m := []) hw hlim (by simpa using hs))
  have hd := e8 rfl hr (by simpa using hn)
  obtain ⟨h1, h2⟩ := e5 hd
  obtain ⟨_, _, h | h⟩ := e2
  · rw [h1] at h; simp at h
  · exact ⟨s', rs, e1, by simpa [h2] using h.2.2, hd, by simpa using h.2.1⟩

/-- A request whose whole body is still to be read. -/
def start (st : List Nat) (cl : Nat) : S := ⟨[], st, [], false, false, cl, 0⟩

theorem fresh_start (st : List Nat) (cl : Nat) : Fresh (start st cl) := by simp [Fresh, start]

/-- Two chunks, one with a leading zero and one with an upper case digit, followed by another request. -/
def exChunks : List (List Nat × List Nat) := [(bytesOf "05", bytesOf "hello"), (bytesOf "A", bytesOf "0123456789")]

theorem ex_wf : WellFormed exChunks (bytesOf "0") := by
  refine ⟨?_, HexNum.one (Or.inl rfl)⟩
  intro c hc
  simp only [exChunks, List.mem_cons, List.not_mem_nil, or_false] at hc
  rcases hc with rfl | rfl
  · exact ⟨HexNum.snoc (h := bytesOf "0") (n := 0) (c := 53) (v := 5) (HexNum.one (Or.inl rfl)) (Or.inl rfl), by decide⟩
  · exact ⟨HexNum.one (v := 10) (Or.inr rfl), by decide⟩

theorem ex_lim : Limits exChunks (bytesOf "0") := by
  refine ⟨?_, by decide⟩
  intro c hc
  simp only [exChunks, List.mem_cons, List.not_mem_nil, or_false] at hc
  rcases hc with rfl | rfl <;> exact ⟨by decide, by decide⟩

/-- What a sequence of calls shows: the results, and the bytes left on the connection. -/
def observe (o : Out (S × List Ret)) : Option (List Ret × List Nat) :=
  match o with
  | .ok (s, rs) => some (rs, unread s)
  | _ => none

/-- Reads that return all they can. -/
def eager (k : Nat) : List Rd := List.replicate k (.data 1000)

/-- The hypotheses of the three theorems are met, and the run delivers the payload. -/
example : bodyText exChunks (bytesOf "0") = bytesOf "05\r\nhello\r\nA\r\n0123456789\r\n0\r\n\r\n" ∧
    observe (run consumeChunked [(3, [.data 6]), (3, [.data 4]), (3, [.data 100]), (100, [.data 2, .again]), (100, []), (100, [])]
      (start (bytesOf "05\r\nhello\r\nA\r\n0123456789\r\n0\r\n\r\nGET /") 0)) = some (
        [.again, .bytes (bytesOf "hel"), .bytes (bytesOf "lo0"), .bytes (bytesOf "123456789"), .done, .done],
        bytesOf "GET /") := by
  refine ⟨by decide +kernel, by decide +kernel⟩

example : ∃ s' rs, run consumeChunked (List.replicate 16 (4, eager 60)) (start (bodyText exChunks (bytesOf "0") ++ bytesOf "GET /") 0) =
    .ok (s', rs) ∧ received rs = bytesOf "hello0123456789" ∧ .done ∈ rs ∧ unread s' = bytesOf "GET /" := by
  have h : payload exChunks = bytesOf "hello0123456789" := by decide +kernel
  rw [← h]
  refine C33_chunked_progress_partial exChunks (bytesOf "0") (bytesOf "GET /") _ _ (fresh_start _ _) ex_wf ex_lim rfl ?_ ?_ ?_
  · intro c hc; rw [List.eq_of_mem_replicate hc]; decide
  · intro c hc; rw [List.eq_of_mem_replicate hc]
    exact ⟨fun x hx => ⟨1000, List.eq_of_mem_replicate hx⟩, by decide +kernel⟩
  · decide +kernel

/-! ### Malformed bodies -/

theorem hexDigit_conv {c v : Nat} (h : hexDigit c = some v) : HexDigit c v := by
  have hc : c < 103 := by
    unfold hexDigit at h
    split at h
    · omega
    · split at h
      · omega
      · split at h
        · omega
        · simp at h
  have key : ∀ c : Fin 103, ∀ v, hexDigit c.val = some v → (bytesOf "0123456789abcdef")[v]? = some c.val ∨ (bytesOf "0123456789ABCDEF")[v]? = some c.val := by
    intro c
    have : ∀ c : Fin 103, (hexDigit c.val).all (fun v => decide ((bytesOf "0123456789abcdef")[v]? = some c.val ∨
        (bytesOf "0123456789ABCDEF")[v]? = some c.val)) = true := by decide +kernel
    have h := this c
    intro v hv
    rw [hv] at h
    simpa using h
  exact key ⟨c, hc⟩ v h

theorem scanLen_bad (l r : List Nat) (a i : Nat) (h13 : 13 ∉ l) (hb : ∃ c ∈ l, hexDigit c = none) :
    scanLen (l ++ r) a i = none := by
  induction l generalizing a i with
  | nil => simp at hb
  | cons c t ih =>
    simp only [List.cons_append, scanLen]
    cases hd : hexDigit c with
    | some d =>
      simp only
      refine ih _ _ (fun hm => h13 (by simp [hm])) ?_
      obtain ⟨x, hx, hn⟩ := hb
      rcases List.mem_cons.mp hx with rfl | hx
      · rw [hd] at hn; simp at hn
      · exact ⟨x, hx, hn⟩
    | none =>
      have : c ≠ 13 := fun e => h13 (by simp [e])
      simp [this]

theorem header_bad {inp : List BC} {m l rest : List Nat} (hi : InpOk inp) (h13 : 13 ∉ l)
    (hb : ∃ c ∈ l, hexDigit c = none) (hl : l.length ≤ 18) (hs : inp.flatMap BC.data ++ m = l ++ CRLF ++ rest) :
    (header inp = .ok .bad ∧ l.length + 2 ≤ (inp.flatMap BC.data).length) ∨
    (∃ b, header inp = .ok (.more [b]) ∧ Fits b ∧ b.data = inp.flatMap BC.data ∧
        b.start + b.data.length < b.allocd ∧ b.data.length < l.length + 2) := by
  obtain ⟨b0, hb0, hd0, he⟩ := header_cons inp hi
  obtain ⟨b, hp, hbd, hbf, hbr⟩ := prep_spec b0 hb0
  rw [he, header_eq b0 b hp]
  rw [← hd0, ← hbd] at hs ⊢
  have hs' : b.data ++ m = l ++ 13 :: 10 :: rest := by rw [hs]; simp [CRLF]
  obtain ⟨hf1, hf2⟩ := hbf
  by_cases hlen : b.data.length < l.length + 2
  · right
    rw [findCRLF_short h13 hs' hlen]
    exact ⟨b, rfl, ⟨hf1, hf2⟩, rfl, by omega, by omega⟩
  · left
    obtain ⟨x, hx1, hx2⟩ := split_prefix hs (by simp [CRLF]; omega)
    have hx1' : b.data = l ++ 13 :: 10 :: x := by rw [hx1]; simp [CRLF]
    rw [show findCRLF b.data = some l.length by rw [hx1']; exact findCRLF_at _ _ h13]
    simp only
    rw [show scanLen b.data 0 0 = none by rw [hx1']; exact scanLen_bad _ _ _ _ h13 hb]
    exact ⟨rfl, by omega⟩

theorem consumeRead_bad (rds : List Rd) (s : S) {l rest m : List Nat} (hi : InpOk s.inp) (h13 : 13 ∉ l)
    (hb : ∃ c ∈ l, hexDigit c = none) (hl : l.length ≤ 18) (hs : unread s ++ m = l ++ CRLF ++ rest) :
    ∃ s' n rds', consumeRead rds s = .ok (s', n, rds') ∧ InpOk s'.inp ∧ s'.lastChunk = s.lastChunk ∧
      unread s' = unread s ∧ s'.user = s.user ∧ (n = -1 ∨ n = -2) := by
  induction rds generalizing s with
  | nil =>
    have hs' : s.inp.flatMap BC.data ++ (s.sock ++ m) = l ++ CRLF ++ rest := by rw [← hs]; simp [unread]
    rcases header_bad hi h13 hb hl hs' with ⟨e, _⟩ | ⟨b, e, hf, hbs, hbl, hbl2⟩
    · unfold consumeRead
      simp only [e, Out.ok_bind, Out.pure_eq]
      exact ⟨_, _, _, rfl, hi, rfl, rfl, rfl, Or.inr rfl⟩
    · unfold consumeRead
      simp only [e, Out.ok_bind, expand_id b hbl, Out.pure_eq]
      exact ⟨_, _, _, rfl, by simp [InpOk, hf], rfl, by simp [unread, hbs], rfl, Or.inl rfl⟩
  | cons r rds ih =>
    have hs' : s.inp.flatMap BC.data ++ (s.sock ++ m) = l ++ CRLF ++ rest := by rw [← hs]; simp [unread]
    rcases header_bad hi h13 hb hl hs' with ⟨e, _⟩ | ⟨b, e, hf, hbs, hbl, hbl2⟩
    · unfold consumeRead
      simp only [e, Out.ok_bind, Out.pure_eq]
      exact ⟨_, _, _, rfl, hi, rfl, rfl, rfl, Or.inr rfl⟩
    · have hun : unread { s with inp := [b] } = unread s := by simp [unread, hbs]
      have hroom : room [b] = b.allocd - b.data.length - b.start := by simp [room]
      unfold consumeRead
      simp only [e, Out.ok_bind, expand_id b hbl, Out.pure_eq]
      cases hr : doRead r (room [b]) s.sock with
      | again => exact ⟨_, _, _, rfl, by simp [InpOk, hf], rfl, hun, rfl, Or.inl rfl⟩
      | eof => exact ⟨_, _, _, rfl, by simp [InpOk, hf], rfl, hun, rfl, Or.inr rfl⟩
      | err => exact ⟨_, _, _, rfl, by simp [InpOk, hf], rfl, hun, rfl, Or.inr rfl⟩
      | got bs rest' =>
        obtain ⟨g1, g2, g3, k, rfl⟩ := doRead_got hr
        have hfit : Fits { b with data := b.data ++ bs } := by
          refine ⟨?_, hf.2⟩
          simp only [List.length_append]
          omega
        have hun2 : unread { s with inp := addTail [b] bs, sock := rest' } = unread s := by
          simp [unread, addTail, hbs, ← g1]
        obtain ⟨s', n, rds', e1, e2, e3, e4, e5, e6⟩ :=
          ih { s with inp := addTail [b] bs, sock := rest' } (by simp [InpOk, addTail, hfit]) (by rw [hun2]; exact hs)
        exact ⟨s', n, rds', e1, e2, e3, by rw [e4, hun2], e5, e6⟩

/-- A size line (of at most 18 bytes) with a byte that is not a hexadecimal digit: no call ever returns
data or the end of the body, whatever follows and however it arrives. -/
theorem C33_bad_size_line (l rest m : List Nat) (s : S) (calls : List (Nat × List Rd)) (hf : Fresh s)
    (hs : unread s ++ m = l ++ CRLF ++ rest) (h13 : 13 ∉ l) (hl : l.length ≤ 18)
    (hb : ∃ c ∈ l, ∀ v, ¬ HexDigit c v) :
    ∃ s' rs, run consumeChunked calls s = .ok (s', rs) ∧ ∀ r ∈ rs, r = .again ∨ r = .fail := by
  have hb' : ∃ c ∈ l, hexDigit c = none := by
    obtain ⟨c, hc, hn⟩ := hb
    refine ⟨c, hc, ?_⟩
    cases h : hexDigit c with
    | none => rfl
    | some v => exact absurd (hexDigit_conv h) (hn v)
  have hi : InpOk s.inp := ⟨hf.1, fun b hb => (hf.2.1 b hb).1⟩
  have hlc := hf.2.2.2.1
  clear hf hb
  induction calls generalizing s with
  | nil => exact ⟨s, [], rfl, by simp⟩
  | cons c calls ih =>
    obtain ⟨len, rds⟩ := c
    obtain ⟨s1, n, rds1, e1, e2, e3, e4, e5, e6⟩ := consumeRead_bad rds s hi h13 hb' hl hs
    obtain ⟨s2, rs, f1, f2⟩ := ih s1 (by rw [e4]; exact hs) e2 (by rw [e3]; exact hlc)
    rcases e6 with rfl | rfl
    · refine ⟨s2, .again :: rs, ?_, ?_⟩
      · simp [run, consumeChunked, hlc, e1, f1]
      · intro r hr
        rcases List.mem_cons.mp hr with rfl | hr
        · exact Or.inl rfl
        · exact f2 r hr
    · refine ⟨s2, .fail :: rs, ?_, ?_⟩
      · simp [run, consumeChunked, hlc, e1, f1]
      · intro r hr
        rcases List.mem_cons.mp hr with rfl | hr
        · exact Or.inr rfl
        · exact f2 r hr

/-- The hypotheses are met: the size line `5 `. -/
example : ∃ s' rs, run consumeChunked [(100, eager 3), (100, eager 3)] (start (bytesOf "5 \r\nhello\r\n") 0) = .ok (s', rs) ∧
    ∀ r ∈ rs, r = .again ∨ r = .fail :=
  C33_bad_size_line (bytesOf "5 ") (bytesOf "hello\r\n") [] _ _ (fresh_start _ _) (by decide +kernel) (by decide +kernel)
    (by decide +kernel) ⟨32, by decide +kernel, fun v h => by have := (hexDigit_of h).1; simp [hexDigit] at this⟩

theorem consumeRead_nocrlf (rds : List Rd) (s : S) {h d t rest m : List Nat} (ht : t.length = 2) (hne : t ≠ CRLF)
    (hd0 : d ≠ []) (hi : InpOk s.inp) (hn : HexNum h d.length) (hh : h.length ≤ 18) (hd : d.length < 2 ^ 31)
    (hs : unread s ++ m = h ++ CRLF ++ d ++ t ++ rest) :
    ∃ s' n rds', consumeRead rds s = .ok (s', n, rds') ∧ InpOk s'.inp ∧ s'.lastChunk = s.lastChunk ∧
      ((n = -1 ∧ unread s' = unread s ∧ s'.user = s.user) ∨ n = -2) := by
  have hfin : ∀ (rds : List Rd) (s : S) (b : BC), header s.inp = .ok (.have d.length [b]) → Fits b →
      b.data ++ (s.sock ++ m) = d ++ t ++ rest → d.length + 2 ≤ b.data.length →
      ∃ s' n rds', consumeRead rds s = .ok (s', n, rds') ∧ InpOk s'.inp ∧ s'.lastChunk = s.lastChunk ∧
      ((n = -1 ∧ unread s' = unread s ∧ s'.user = s.user) ∨ n = -2) := by
    intro rds s b hb hf hbs hbl
    obtain ⟨x, hx1, hx2⟩ := split_prefix hbs (by simp; omega)
    have hp := List.length_pos_iff.mpr hd0
    have hk : min b.data.length (((d.length : Nat) : Int)).toNat = d.length := by simp; omega
    have hdr : b.data.drop d.length = t ++ x := by rw [hx1]; simp
    have htk : (t ++ x).take 2 = t := by rw [← ht]; simp
    have hlen : b.data.length = d.length + 2 + x.length := by rw [hx1]; simp; omega
    unfold consumeRead
    simp only [hb, Out.ok_bind, finish, hk, hdr]
    rw [if_pos (by exact_mod_cast hp), if_neg (by simp; omega), if_pos (by rw [htk]; exact hne)]
    simp only [Out.ok_bind, Out.pure_eq]
    refine ⟨_, _, _, rfl, ?_, rfl, Or.inr rfl⟩
    refine ⟨by simp, ?_⟩
    intro y hy
    simp only [List.mem_singleton] at hy
    rw [hy]
    refine ⟨?_, hf.2⟩
    have := hf.1
    simp only [List.length_append]
    omega
  induction rds generalizing s with
  | nil =>
    have hs' : s.inp.flatMap BC.data ++ (s.sock ++ m) = h ++ CRLF ++ d ++ t ++ rest := by rw [← hs]; simp [unread]
    rcases header_gen ht hi hn hh hd hs' with ⟨b, hb, hf, hbs, hbl⟩ | ⟨b, hb, hf, hbs, hbl, hbl2⟩
    · exact hfin _ _ b hb hf hbs hbl
    · unfold consumeRead
      simp only [hb, Out.ok_bind, expand_id b hbl, Out.pure_eq]
      exact ⟨_, _, _, rfl, by simp [InpOk, hf], rfl, Or.inl ⟨rfl, by simp [unread, hbs], rfl⟩⟩
  | cons r rds ih =>
    have hs' : s.inp.flatMap BC.data ++ (s.sock ++ m) = h ++ CRLF ++ d ++ t ++ rest := by rw [← hs]; simp [unread]
    rcases header_gen ht hi hn hh hd hs' with ⟨b, hb, hf, hbs, hbl⟩ | ⟨b, hb, hf, hbs, hbl, hbl2⟩
    · exact hfin _ _ b hb hf hbs hbl
    · have hun : unread { s with inp := [b] } = unread s := by simp [unread, hbs]
      have hroom : room [b] = b.allocd - b.data.length - b.start := by simp [room]
      unfold consumeRead
      simp only [hb, Out.ok_bind, expand_id b hbl, Out.pure_eq]
      cases hr : doRead r (room [b]) s.sock with
      | again => exact ⟨_, _, _, rfl, by simp [InpOk, hf], rfl, Or.inl ⟨rfl, hun, rfl⟩⟩
      | eof => exact ⟨_, _, _, rfl, by simp [InpOk, hf], rfl, Or.inr rfl⟩
      | err => exact ⟨_, _, _, rfl, by simp [InpOk, hf], rfl, Or.inr rfl⟩
      | got bs rest' =>
        obtain ⟨g1, g2, g3, k, rfl⟩ := doRead_got hr
        have hfit : Fits { b with data := b.data ++ bs } := by
          refine ⟨?_, hf.2⟩
          simp only [List.length_append]
          omega
        have hun2 : unread { s with inp := addTail [b] bs, sock := rest' } = unread s := by
          simp [unread, addTail, hbs, ← g1]
        obtain ⟨s', n, rds', e1, e2, e3, e4⟩ :=
          ih { s with inp := addTail [b] bs, sock := rest' } (by simp [InpOk, addTail, hfit]) (by rw [hun2]; exact hs)
        rw [hun2] at e4
        exact ⟨s', n, rds', e1, e2, e3, e4⟩

/-- Data that is not followed by a line end: until a failure is reported, no call returns data or the end of
the body, whatever follows and however it arrives. -/
theorem C33_missing_line_end (h d t rest m : List Nat) (s : S) (calls : List (Nat × List Rd)) (hf : Fresh s)
    (hs : unread s ++ m = h ++ CRLF ++ d ++ t ++ rest) (ht : t.length = 2) (hne : t ≠ CRLF) (hd0 : d ≠ [])
    (hn : HexNum h d.length) (hh : h.length ≤ 18) (hd : d.length < 2 ^ 31)
    (s' : S) (rs : List Ret) (hrun : run consumeChunked calls s = .ok (s', rs)) (i : Nat) (hnf : .fail ∉ rs.take i) :
    ∀ r ∈ rs.take (i + 1), r = .again ∨ r = .fail := by
  have hi : InpOk s.inp := ⟨hf.1, fun b hb => (hf.2.1 b hb).1⟩
  have hlc := hf.2.2.2.1
  clear hf
  induction calls generalizing s rs i with
  | nil =>
    simp only [run, Out.ok.injEq, Prod.mk.injEq] at hrun
    rw [← hrun.2]; simp
  | cons c calls ih =>
    obtain ⟨len, rds⟩ := c
    obtain ⟨s1, n, rds1, e1, e2, e3, e4⟩ := consumeRead_nocrlf rds s ht hne hd0 hi hn hh hd hs
    rcases e4 with ⟨rfl, a2, a3⟩ | rfl
    · have hc : consumeChunked len rds s = .ok (s1, .again, rds1) := by simp [consumeChunked, hlc, e1]
      unfold run at hrun
      simp only [hc, Out.ok_bind] at hrun
      rcases hr : run consumeChunked calls s1 with ⟨s2, rs2⟩ | _ | _
      · rw [hr] at hrun
        simp only [Out.ok_bind, Out.pure_eq, Out.ok.injEq, Prod.mk.injEq] at hrun
        obtain ⟨rfl, rfl⟩ := hrun
        intro r hmem
        rw [List.take_succ_cons] at hmem
        rcases List.mem_cons.mp hmem with rfl | hmem
        · exact Or.inl rfl
        · cases i with
          | zero => simp at hmem
          | succ i =>
            refine ih s1 (by rw [a2]; exact hs) rs2 hr i (fun hm => hnf ?_) e2 (by rw [e3]; exact hlc) r hmem
            rw [List.take_succ_cons]
            exact List.mem_cons_of_mem _ hm
      · rw [hr] at hrun; simp at hrun
      · rw [hr] at hrun; simp at hrun
    · have hc : consumeChunked len rds s = .ok (s1, .fail, rds1) := by simp [consumeChunked, hlc, e1]
      unfold run at hrun
      simp only [hc, Out.ok_bind] at hrun
      rcases hr : run consumeChunked calls s1 with ⟨s2, rs2⟩ | _ | _
      · rw [hr] at hrun
        simp only [Out.ok_bind, Out.pure_eq, Out.ok.injEq, Prod.mk.injEq] at hrun
        obtain ⟨rfl, rfl⟩ := hrun
        cases i with
        | zero => intro r hmem; simp at hmem; exact Or.inr hmem
        | succ i => exact absurd (by simp) hnf
      · rw [hr] at hrun; simp at hrun
      · rw [hr] at hrun; simp at hrun

/-- The hypotheses are met, and the call fails: `hello` is followed by `XY`. -/
example : HexNum (bytesOf "5") (bytesOf "hello").length ∧
    observe (run consumeChunked [(9, eager 3)] (start (bytesOf "5\r\nhelloXY0\r\n\r\n") 0)) =
      some ([.fail], bytesOf "XY0\r\n\r\n") :=
  ⟨HexNum.one (Or.inl rfl), by decide +kernel⟩

/-! ### Any bytes at all -/

theorem header_safe (inp : List BC) (hi : ∀ b ∈ inp, Fits b) (hlen : (inp.flatMap BC.data).length < 2 ^ 32 - 4) :
    ∃ hd, header inp = .ok hd ∧
      (∀ n inp', hd = .have n inp' → (∀ b ∈ inp', Fits b) ∧ (inp'.flatMap BC.data).length ≤ (inp.flatMap BC.data).length ∧
        (∀ b r, inp' = b :: r → n = 0 → 2 ≤ b.data.length)) ∧
      (∀ inp', hd = .more inp' → (∀ b ∈ inp', Fits b) ∧ (inp'.flatMap BC.data).length ≤ (inp.flatMap BC.data).length) := by
  obtain ⟨b0, rest, hb0, hre, hdl, he⟩ : ∃ b0 rest, Fits b0 ∧ (∀ b ∈ rest, Fits b) ∧
      b0.data.length + (rest.flatMap BC.data).length = (inp.flatMap BC.data).length ∧
      header inp = header (b0 :: rest) := by
    rcases inp with _ | ⟨b, r⟩
    · exact ⟨⟨defSize, 0, []⟩, [], ⟨by simp, by decide⟩, by simp, rfl, rfl⟩
    · exact ⟨b, r, hi b (by simp), fun x hx => hi x (by simp [hx]), by simp, rfl⟩
  obtain ⟨b, hp, hbd, ⟨hf1, hf2⟩, hbr⟩ := prep_spec b0 hb0
  rw [he]
  rw [← hbd] at hdl
  unfold header
  simp only [firstInput, hp, Out.ok_bind, Out.pure_eq]
  have hall : ∀ x ∈ b :: rest, Fits x := by
    intro x hx
    rcases List.mem_cons.mp hx with rfl | hx
    · exact ⟨hf1, hf2⟩
    · exact hre x hx
  have hmore : (∀ n inp', Hdr.more (b :: rest) = .have n inp' → (∀ b ∈ inp', Fits b) ∧ (inp'.flatMap BC.data).length ≤ (inp.flatMap BC.data).length ∧
        (∀ b r, inp' = b :: r → n = 0 → 2 ≤ b.data.length)) ∧
      (∀ inp', Hdr.more (b :: rest) = .more inp' → (∀ b ∈ inp', Fits b) ∧ (inp'.flatMap BC.data).length ≤ (inp.flatMap BC.data).length) := by
    refine ⟨by simp, ?_⟩
    intro inp' h
    simp only [Hdr.more.injEq] at h
    subst h
    exact ⟨hall, by simp only [List.flatMap_cons, List.length_append]; omega⟩
  cases hfc : findCRLF b.data with
  | none => exact ⟨_, rfl, hmore⟩
  | some i =>
    simp only
    cases hsc : scanLen b.data 0 0 with
    | none => exact ⟨_, rfl, by simp, by simp⟩
    | some p =>
      obtain ⟨clen, hl⟩ := p
      simp only
      have hscl : ∀ (x : List Nat) (a i clen hl : Nat), scanLen x a i = some (clen, hl) → hl + 2 ≤ i + x.length ∧ (a < 4294967296 → clen < 4294967296) := by
        intro x
        induction x with
        | nil => intro a i clen hl h; simp [scanLen] at h
        | cons c t ih =>
          intro a i clen hl h
          simp only [scanLen] at h
          split at h
          · have := ih _ _ _ _ h
            simp only [List.length_cons]
            exact ⟨by omega, fun _ => this.2 (Nat.mod_lt _ (by decide))⟩
          · split at h
            · rename_i hc
              simp only [Option.some.injEq, Prod.mk.injEq] at h
              rcases t with _ | ⟨t0, t⟩
              · simp at hc
              · simp only [List.length_cons]
                exact ⟨by omega, fun ha => by rw [← h.1]; exact ha⟩
            · simp at h
      obtain ⟨h1, h2⟩ := hscl _ _ _ _ _ hsc
      replace h2 := h2 (by decide)
      split
      · rename_i hge
        refine ⟨_, rfl, ?_, by simp⟩
        intro n inp' h
        simp only [Hdr.have.injEq] at h
        obtain ⟨hn, rfl⟩ := h
        refine ⟨?_, ?_, ?_⟩
        · intro x hx
          rcases List.mem_cons.mp hx with rfl | hx
          · refine ⟨?_, hf2⟩
            simp only [List.length_drop]; omega
          · exact hre x hx
        · simp only [List.flatMap_cons, List.length_append, List.length_drop]; omega
        · intro b' r' hbr' hn0
          simp only [List.cons.injEq] at hbr'
          rw [← hbr'.1]
          simp only [List.length_drop]
          have hc0 : clen = 0 := by
            rw [hn0] at hn
            unfold toInt32 at hn
            split at hn <;> omega
          subst hc0
          unfold needed at hge
          omega
      · split
        · rename_i hlt hal
          rw [if_neg (by omega)]
          refine ⟨_, rfl, by simp, ?_⟩
          intro inp' h
          simp only [Hdr.more.injEq] at h
          subst h
          refine ⟨?_, ?_⟩
          · intro x hx
            simp only [List.mem_singleton] at hx
            subst hx
            exact ⟨by simp only; omega, by simp only [defSize]; omega⟩
          · simp only [List.flatMap_cons, List.flatMap_nil, List.append_nil]; omega
        · exact ⟨_, rfl, hmore⟩

theorem expand_spec (inp : List BC) (hi : ∀ b ∈ inp, Fits b) : ∃ pre t, expand inp = pre ++ [t] ∧
    (∀ b ∈ pre, Fits b) ∧ Fits t ∧ t.start + t.data.length < t.allocd ∧
    (pre.flatMap BC.data).length + t.data.length = (inp.flatMap BC.data).length := by
  unfold expand
  rcases List.eq_nil_or_concat inp with rfl | ⟨pre, t, rfl⟩
  · exact ⟨[], _, by simp; rfl, by simp, ⟨by simp, by decide⟩, by decide, by simp⟩
  · simp only [List.concat_eq_append, List.getLast?_append, List.getLast?_singleton, Option.some_or] at hi ⊢
    split
    · refine ⟨pre ++ [t], ⟨defSize, 0, []⟩, rfl, hi, ⟨by simp, by decide⟩, by decide, by simp⟩
    · exact ⟨pre, t, rfl, fun b hb => hi b (by simp [hb]), hi t (by simp), by omega, by simp⟩

theorem addTail_append (pre : List BC) (t : BC) (bs : List Nat) :
    addTail (pre ++ [t]) bs = pre ++ [{ t with data := t.data ++ bs }] := by
  induction pre with
  | nil => rfl
  | cons b r ih =>
    rcases hr : r ++ [t] with _ | ⟨x, y⟩
    · simp at hr
    · simp only [List.cons_append, hr, addTail]
      rw [← hr, ih]

theorem dropEmpty_fits (inp : List BC) (hi : ∀ b ∈ inp, Fits b) :
    (∀ b ∈ dropEmpty inp, Fits b) ∧ ((dropEmpty inp).flatMap BC.data).length ≤ (inp.flatMap BC.data).length := by
  cases inp with
  | nil => exact ⟨hi, le_refl _⟩
  | cons b r =>
    simp only [dropEmpty]
    split
    · exact ⟨fun x hx => hi x (by simp [hx]), by simp⟩
    · exact ⟨hi, le_refl _⟩

theorem finish_safe (s : S) (n : Int) (hi : ∀ b ∈ s.inp, Fits b) (h0 : ∀ b r, s.inp = b :: r → n = 0 → 2 ≤ b.data.length) :
    ∃ s' n', finish s n = .ok (s', n') ∧ (∀ b ∈ s'.inp, Fits b) ∧ (unread s').length ≤ (unread s).length := by
  unfold finish
  cases hinp : s.inp with
  | nil => exact ⟨_, _, rfl, by simp [hinp], le_refl _⟩
  | cons b r =>
    rw [hinp] at hi
    obtain ⟨hb1, hb2⟩ := hi b (by simp)
    have hr : ∀ x ∈ r, Fits x := fun x hx => hi x (by simp [hx])
    have hcons : ∀ b', Fits b' → ∀ x ∈ b' :: r, Fits x := by
      intro b' hb' x hx
      rcases List.mem_cons.mp hx with rfl | hx
      · exact hb'
      · exact hr x hx
    simp only
    split
    · generalize hk : min b.data.length n.toNat = k
      have hk' : k ≤ b.data.length := by omega
      have hfit : Fits ⟨b.allocd, b.start + k, b.data.drop k⟩ := ⟨by simp only [List.length_drop]; omega, hb2⟩
      split
      · exact ⟨_, _, rfl, hcons _ hfit, by simp [unread, hinp]⟩
      · split
        · exact ⟨_, _, rfl, hcons _ hfit, by simp [unread, hinp]⟩
        · rename_i h2 _
          have hfit2 : Fits ⟨b.allocd, b.start + k + 2, (b.data.drop k).drop 2⟩ :=
            ⟨by simp only [List.length_drop] at h2 ⊢; omega, hb2⟩
          obtain ⟨d1, d2⟩ := dropEmpty_fits _ (hcons _ hfit2)
          refine ⟨_, _, rfl, d1, ?_⟩
          simp only [unread, hinp, List.length_append] at d2 ⊢
          simp only [List.flatMap_cons, List.length_append, List.length_drop] at d2 ⊢
          omega
    · split
      · rename_i hn0
        have := h0 b r hinp hn0
        rw [if_neg (by omega)]
        have hfit2 : Fits ⟨b.allocd, b.start + 2, b.data.drop 2⟩ := ⟨by simp only [List.length_drop]; omega, hb2⟩
        obtain ⟨d1, d2⟩ := dropEmpty_fits _ (hcons _ hfit2)
        refine ⟨_, _, rfl, d1, ?_⟩
        simp only [unread, hinp, List.length_append] at d2 ⊢
        simp only [List.flatMap_cons, List.length_append, List.length_drop] at d2 ⊢
        omega
      · obtain ⟨d1, d2⟩ := dropEmpty_fits _ hi
        refine ⟨_, _, rfl, d1, ?_⟩
        simp only [unread, hinp, List.length_append] at d2 ⊢
        omega

theorem consumeRead_safe (rds : List Rd) (s : S) (hi : ∀ b ∈ s.inp, Fits b) (hlen : (unread s).length < 2 ^ 32 - 4) :
    ∃ s' n rds', consumeRead rds s = .ok (s', n, rds') ∧ (∀ b ∈ s'.inp, Fits b) ∧
      (unread s').length ≤ (unread s).length := by
  induction rds generalizing s with
  | nil =>
    have hl2 : (s.inp.flatMap BC.data).length < 2 ^ 32 - 4 := by
      simp only [unread, List.length_append] at hlen; omega
    obtain ⟨hd, he, h1, h2⟩ := header_safe s.inp hi hl2
    unfold consumeRead
    simp only [he, Out.ok_bind]
    cases hd with
    | bad => exact ⟨_, _, _, rfl, hi, le_refl _⟩
    | «have» n inp' =>
      obtain ⟨a1, a2, a3⟩ := h1 n inp' rfl
      obtain ⟨s', n', f1, f2, f3⟩ := finish_safe { s with inp := inp' } n a1 a3
      simp only [f1, Out.ok_bind]
      refine ⟨_, _, _, rfl, f2, ?_⟩
      simp only [unread, List.length_append] at f3 ⊢; omega
    | more inp' =>
      obtain ⟨a1, a2⟩ := h2 inp' rfl
      obtain ⟨pre, t, e1, e2, e3, e4, e5⟩ := expand_spec inp' a1
      simp only [e1]
      refine ⟨_, _, _, rfl, ?_, ?_⟩
      · intro b hb
        rcases List.mem_append.mp hb with hb | hb
        · exact e2 b hb
        · simp only [List.mem_singleton] at hb; rw [hb]; exact e3
      · simp only [unread, List.flatMap_append, List.flatMap_cons, List.flatMap_nil, List.append_nil, List.length_append]; omega
  | cons r rds ih =>
    have hl2 : (s.inp.flatMap BC.data).length < 2 ^ 32 - 4 := by
      simp only [unread, List.length_append] at hlen; omega
    obtain ⟨hd, he, h1, h2⟩ := header_safe s.inp hi hl2
    unfold consumeRead
    simp only [he, Out.ok_bind]
    cases hd with
    | bad => exact ⟨_, _, _, rfl, hi, le_refl _⟩
    | «have» n inp' =>
      obtain ⟨a1, a2, a3⟩ := h1 n inp' rfl
      obtain ⟨s', n', f1, f2, f3⟩ := finish_safe { s with inp := inp' } n a1 a3
      simp only [f1, Out.ok_bind]
      refine ⟨_, _, _, rfl, f2, ?_⟩
      simp only [unread, List.length_append] at f3 ⊢; omega
    | more inp' =>
      obtain ⟨a1, a2⟩ := h2 inp' rfl
      obtain ⟨pre, t, e1, e2, e3, e4, e5⟩ := expand_spec inp' a1
      have hall : ∀ b ∈ pre ++ [t], Fits b := by
        intro b hb
        rcases List.mem_append.mp hb with hb | hb
        · exact e2 b hb
        · simp only [List.mem_singleton] at hb; rw [hb]; exact e3
      have hle : (unread { s with inp := pre ++ [t] }).length ≤ (unread s).length := by
        simp only [unread, List.flatMap_append, List.flatMap_cons, List.flatMap_nil, List.append_nil, List.length_append]; omega
      simp only [e1]
      cases hr : doRead r (room (pre ++ [t])) s.sock with
      | again => exact ⟨_, _, _, rfl, hall, hle⟩
      | eof => exact ⟨_, _, _, rfl, hall, hle⟩
      | err => exact ⟨_, _, _, rfl, hall, hle⟩
      | got bs rest' =>
        obtain ⟨g1, g2, g3, k, rfl⟩ := doRead_got hr
        have hroom : room (pre ++ [t]) = t.allocd - t.data.length - t.start := by simp [room]
        have hle2 : (unread { s with inp := addTail (pre ++ [t]) bs, sock := rest' }).length ≤ (unread s).length := by
          have := congrArg List.length g1
          simp only [List.length_append] at this
          simp only [unread, addTail_append, List.flatMap_append, List.flatMap_cons, List.flatMap_nil, List.append_nil, List.length_append]
          omega
        obtain ⟨s', n, rds', f1, f2, f3⟩ := ih { s with inp := addTail (pre ++ [t]) bs, sock := rest' } (by
          intro b hb
          rw [addTail_append] at hb
          rcases List.mem_append.mp hb with hb | hb
          · exact e2 b hb
          · simp only [List.mem_singleton] at hb
            rw [hb]
            exact ⟨by simp only [List.length_append]; omega, e3.2⟩) (by omega)
        exact ⟨s', n, rds', f1, f2, by omega⟩

theorem deliver_keeps (s : S) (fin : Bool) (len : Nat) :
    (deliver s fin len).1.inp = s.inp ∧ (deliver s fin len).1.sock = s.sock := by
  unfold deliver
  split
  · exact ⟨rfl, rfl⟩
  · split
    · split <;> exact ⟨rfl, rfl⟩
    · exact ⟨rfl, rfl⟩

/-- Whatever bytes the peer sends (below 4 GiB), in whatever pieces, and whatever the application asks
for: no undefined behaviour, no failed assertion, and every buffer holds what was put into it.  (Missing:
longer streams, where a size line of four billion digits wraps the 32-bit length.) -/
theorem C33_any_stream_safe_partial (s : S) (calls : List (Nat × List Rd)) (hi : ∀ b ∈ s.inp, Fits b)
    (hlen : (unread s).length < 2 ^ 32 - 4) :
    ∃ s' rs, run consumeChunked calls s = .ok (s', rs) ∧ ∀ b ∈ s'.inp, b.start + b.data.length ≤ b.allocd := by
  have key : ∃ s' rs, run consumeChunked calls s = .ok (s', rs) ∧ ∀ b ∈ s'.inp, Fits b := by
    induction calls generalizing s with
    | nil => exact ⟨s, [], rfl, hi⟩
    | cons c calls ih =>
      obtain ⟨len, rds⟩ := c
      have : ∃ s1 r rds1, consumeChunked len rds s = .ok (s1, r, rds1) ∧ (∀ b ∈ s1.inp, Fits b) ∧
          (unread s1).length ≤ (unread s).length := by
        unfold consumeChunked
        split
        · obtain ⟨d1, d2⟩ := deliver_keeps s true len
          rcases hdv : deliver s true len with ⟨sd, rd⟩
          rw [hdv] at d1 d2
          simp only at d1 d2
          exact ⟨_, _, _, rfl, by rw [d1]; exact hi, by simp only [unread, d1, d2, le_refl]⟩
        · obtain ⟨s1, n, rds1, e1, e2, e3⟩ := consumeRead_safe rds s hi hlen
          simp only [e1, Out.ok_bind]
          split
          · obtain ⟨d1, d2⟩ := deliver_keeps { s1 with lastChunk := true, cl := s1.clr } true len
            rcases hdv : deliver { s1 with lastChunk := true, cl := s1.clr } true len with ⟨sd, rd⟩
            rw [hdv] at d1 d2
            simp only at d1 d2
            exact ⟨_, _, _, rfl, by rw [d1]; exact e2, by simp only [unread, d1, d2]; exact e3⟩
          · split
            · exact ⟨_, _, _, rfl, e2, e3⟩
            · obtain ⟨d1, d2⟩ := deliver_keeps { s1 with clr := s1.clr + n.toNat } false len
              rcases hdv : deliver { s1 with clr := s1.clr + n.toNat } false len with ⟨sd, rd⟩
              rw [hdv] at d1 d2
              simp only at d1 d2
              exact ⟨_, _, _, rfl, by rw [d1]; exact e2, by simp only [unread, d1, d2]; exact e3⟩
      obtain ⟨s1, r, rds1, e1, e2, e3⟩ := this
      obtain ⟨s2, rs, f1, f2⟩ := ih s1 e2 (by omega)
      exact ⟨s2, r :: rs, by simp [run, e1, f1], f2⟩
  obtain ⟨s', rs, h1, h2⟩ := key
  exact ⟨s', rs, h1, fun b hb => (h2 b hb).1⟩

example : ∃ s' rs, run consumeChunked [(7, eager 3), (0, [.eof])] (start (bytesOf "zz\r\n\r\r\nfffff\r\n") 0) = .ok (s', rs) ∧
    ∀ b ∈ s'.inp, b.start + b.data.length ≤ b.allocd :=
  C33_any_stream_safe_partial _ _ (by simp [start]) (by decide +kernel)

/-! ### Where the code departs from the protocol -/

/-- Trailers desynchronise the connection: the body `5 hello, 0, A: b` is reported as complete, but the
rest of the trailer (two bytes are dropped unseen) is left as the start of the next request. -/
theorem C33_trailers_violated :
    observe (run consumeChunked [(100, eager 5), (100, eager 5)] (start (bytesOf "5\r\nhello\r\n0\r\nA: b\r\n\r\nGET /") 0)) =
      some ([.bytes (bytesOf "hello"), .done], bytesOf " b\r\n\r\nGET /") := by decide +kernel

/-- Chunk extensions are refused. -/
theorem C33_extensions_violated :
    observe (run consumeChunked [(100, eager 5)] (start (bytesOf "5;x=y\r\nhello\r\n0\r\n\r\n") 0)) =
      some ([.fail], bytesOf "5;x=y\r\nhello\r\n0\r\n\r\n") := by decide +kernel

/-- An empty size line ends the body. -/
theorem C33_empty_size_line_violated :
    observe (run consumeChunked [(100, eager 5)] (start (bytesOf "\r\n5\r\nhello\r\n0\r\n\r\n") 0)) =
      some ([.done], bytesOf "\nhello\r\n0\r\n\r\n") := by decide +kernel

/-- The size is taken modulo 2^32: a chunk announced as 0x100000005 bytes is read as one of 5. -/
theorem C33_size_overflow_violated :
    observe (run consumeChunked [(100, eager 5), (100, eager 5)] (start (bytesOf "100000005\r\nhello\r\n0\r\n\r\n") 0)) =
      some ([.bytes (bytesOf "hello"), .done], []) := by decide +kernel

/-- The size line `ffffffff` is skipped as if it were not there. -/
theorem C33_size_skipped_violated :
    observe (run consumeChunked [(100, eager 5), (100, eager 5), (100, eager 5)]
      (start (bytesOf "ffffffff\r\n5\r\nhello\r\n0\r\n\r\n") 0)) =
      some ([.again, .bytes (bytesOf "hello"), .done], []) := by decide +kernel

/-- Whether a size line of 20 digits is understood depends on where it falls in the input buffer: at its end
the line is never recognised, although the same bytes are accepted elsewhere. -/
theorem C33_long_size_line_violated :
    observe (run consumeChunked [(100, eager 5), (100, eager 5)]
      (start (bytesOf "00000000000000000005\r\nhello\r\n0\r\n\r\n") 0)) = some ([.bytes (bytesOf "hello"), .done], []) ∧
    observe (run consumeChunked [(100, eager 5), (100, eager 5)]
      { start (bytesOf "\r\nhello\r\n0\r\n\r\n") 0 with inp := [⟨32704, 32684, bytesOf "00000000000000000005"⟩] }) =
      some ([.again, .again], bytesOf "00000000000000000005\r\nhello\r\n0\r\n\r\n") := by
  constructor <;> decide +kernel

/-- Bytes of a chunk already taken from the connection are withheld ("try again") until the next chunk has
arrived. -/
theorem C33_buffered_bytes_withheld_violated :
    observe (run consumeChunked [(3, eager 5), (100, [])] (start (bytesOf "5\r\nhello\r\n") 0)) =
      some ([.bytes (bytesOf "hel"), .again], []) := by decide +kernel

/-! ## C60: bodies of known length -/

/-- As `InpOk`, and an empty buffer has room. -/
def InpOk2 (inp : List BC) : Prop := InpOk inp ∧ ∀ b ∈ inp, b.data ≠ [] ∨ b.start < b.allocd

/-- A call of the reading function that takes bytes. -/
def Took (s s' : S) (n : Int) : Prop :=
  ∃ k : Nat, 0 < n ∧ k = min n.toNat (s.cl - s.clr) ∧ k ≤ (unread s).length ∧ s'.user = s.user ++ [(unread s).take k] ∧
    unread s' = (unread s).drop k

/-- What a call of the reading function does. -/
def ReadPost2 (rds : List Rd) (s : S) (o : Out (S × Int × List Rd)) : Prop :=
  ∃ s' n rds', o = .ok (s', n, rds') ∧ InpOk2 s'.inp ∧ s'.cl = s.cl ∧ s'.clr = s.clr ∧
    ((n = -1 ∧ unread s' = unread s ∧ s'.user = s.user ∧
        ((∀ r ∈ rds, ∃ k, r = Rd.data k) → rds ≠ [] → unread s = [])) ∨
     (n = -2 ∧ unread s' = unread s ∧ s'.user = s.user ∧ (Rd.err ∈ rds ∨ (Rd.eof ∈ rds ∧ unread s = []))) ∨
     Took s s' n)

theorem finishCL_spec {rds : List Rd} {s : S} {b : BC} (next : Nat) (hb : Fits b) (hne : b.data ≠ []) (hinp : s.inp = [b])
    (hc : s.clr < s.cl) : ∃ s' n rds', consumeReadCL rds next s = .ok (s', n, rds') ∧ InpOk2 s'.inp ∧ s'.cl = s.cl ∧
      s'.clr = s.clr ∧ Took s s' n := by
  have hp := List.length_pos_iff.mpr hne
  obtain ⟨hf1, hf2⟩ := hb
  have key : ∃ s', finishCL { s with inp := [b] } b.data.length = .ok (s', (b.data.length : Int)) ∧
      InpOk2 s'.inp ∧ s'.cl = s.cl ∧ s'.clr = s.clr ∧
      s'.user = s.user ++ [(unread s).take (min b.data.length (s.cl - s.clr))] ∧
      unread s' = (unread s).drop (min b.data.length (s.cl - s.clr)) := by
    unfold finishCL
    simp only [gt_iff_lt, hp, ↓reduceIte]
    generalize hk : min (min b.data.length b.data.length) (s.cl - s.clr) = k
    have hk2 : min b.data.length (s.cl - s.clr) = k := by rw [← hk, Nat.min_self]
    have hk' : k ≤ b.data.length := by omega
    obtain ⟨d1, d2⟩ := dropEmpty_ok ⟨b.allocd, b.start + k, b.data.drop k⟩ ⟨by simp only [List.length_drop]; omega, hf2⟩
    refine ⟨_, rfl, ⟨d1, ?_⟩, rfl, rfl, ?_, ?_⟩
    · intro x hx
      left
      simp only [dropEmpty] at hx
      split at hx
      · simp at hx
      · simp only [List.mem_singleton] at hx
        rw [hx]; assumption
    · simp only [hk2, unread, hinp, List.flatMap_cons, List.flatMap_nil, List.append_nil]
      rw [List.take_append_of_le_length hk']
    · simp only [hk2, unread, d2, hinp, List.flatMap_cons, List.flatMap_nil, List.append_nil]
      rw [List.drop_append_of_le_length hk']
  obtain ⟨s', e1, e2, e3, e4, e5, e6⟩ := key
  have hcond : b.data.length = b.allocd ∨ (s.cl ≠ 0 ∧ s.cl - s.clr > 0 ∧ b.data.length > 0) := by
    right; omega
  have hred : consumeReadCL rds next s = .ok (s', (b.data.length : Int), rds) := by
    rw [consumeReadCL.eq_def]
    cases rds <;> simp only [hinp, firstInput, hcond, ↓reduceIte, e1, Out.ok_bind, Out.pure_eq]
  refine ⟨s', _, rds, hred, e2, e3, e4, min b.data.length (s.cl - s.clr), by omega, by simp, ?_, e5, e6⟩
  simp only [unread, hinp, List.flatMap_cons, List.flatMap_nil, List.append_nil, List.length_append]
  omega

theorem consumeReadCL_spec (rds : List Rd) (s : S) (hi : InpOk2 s.inp) (hc : s.clr < s.cl) :
    ReadPost2 rds s (consumeReadCL rds 0 s) := by
  obtain ⟨⟨hi1, hi2⟩, hi3⟩ := hi
  obtain ⟨b, hb, hbd, hbr, hhead⟩ : ∃ b : BC, Fits b ∧ b.data = s.inp.flatMap BC.data ∧ (b.data ≠ [] ∨ b.start < b.allocd) ∧
      (s.inp = [b] ∨ (s.inp = [] ∧ b = ⟨defSize, 0, []⟩)) := by
    rcases hinp : s.inp with _ | ⟨b, _ | ⟨b2, r⟩⟩
    · exact ⟨⟨defSize, 0, []⟩, ⟨by simp, by decide⟩, rfl, Or.inr (by decide), Or.inr ⟨rfl, rfl⟩⟩
    · exact ⟨b, hi2 b (by simp [hinp]), by simp, hi3 b (by simp [hinp]), Or.inl rfl⟩
    · rw [hinp] at hi1; simp at hi1
  by_cases hne : b.data = []
  · have hroom : b.start + b.data.length < b.allocd := by
      rcases hbr with h | h
      · exact absurd hne h
      · simpa [hne] using h
    have hl0 : b.data.length = 0 := by simp [hne]
    have hcond : ¬ (b.data.length = b.allocd ∨ (s.cl ≠ 0 ∧ s.cl - s.clr > 0 ∧ b.data.length > 0)) := by
      have := hb.2; omega
    have hun : unread { s with inp := [b] } = unread s := by simp [unread, ← hbd]
    have hun0 : unread s = s.sock := by simp [unread, ← hbd, hne]
    have hok : InpOk2 [b] := ⟨by simp [InpOk, hb], by intro x hx; simp only [List.mem_singleton] at hx; rw [hx]; exact hbr⟩
    have hrm : room [b] = b.allocd - b.data.length - b.start := by simp [room]
    have hmatch : firstInput s.inp = (b, []) := by
      rcases hhead with h | ⟨h, h2⟩
      · rw [h]; rfl
      · rw [h, h2]; rfl
    have hgt : ¬ (b.data.length > 0) := by omega
    rw [consumeReadCL.eq_def]
    cases rds with
    | nil =>
      simp only [hmatch, hcond, ↓reduceIte, expand_id b hroom]
      simp only [hgt, ↓reduceIte, Out.pure_eq]
      exact ⟨_, _, _, rfl, hok, rfl, rfl, Or.inl ⟨rfl, hun, rfl, by simp⟩⟩
    | cons r rds =>
      simp only [hmatch, hcond, ↓reduceIte, expand_id b hroom]
      simp only [hgt, ↓reduceIte, Out.pure_eq]
      cases hr : doRead r (room [b]) s.sock with
      | again =>
        refine ⟨_, _, _, rfl, hok, rfl, rfl, Or.inl ⟨rfl, hun, rfl, ?_⟩⟩
        intro hall _
        obtain ⟨k, rfl⟩ := hall r (by simp)
        rw [hun0]
        by_contra hs
        simp only [doRead] at hr
        rw [if_neg (by omega), if_neg hs] at hr
        simp at hr
      | eof =>
        simp only [Nat.lt_irrefl, ↓reduceIte, gt_iff_lt]
        refine ⟨_, _, _, rfl, hok, rfl, rfl, Or.inr (Or.inl ⟨rfl, hun, rfl, ?_⟩)⟩
        cases r with
        | again => simp [doRead] at hr
        | err => simp
        | data k =>
          simp only [doRead] at hr
          rw [if_neg (by omega)] at hr
          split at hr <;> simp at hr
        | eof =>
          right
          refine ⟨by simp, ?_⟩
          simp only [doRead] at hr
          split at hr
          · rw [hun0]; assumption
          · simp at hr
      | err =>
        refine ⟨_, _, _, rfl, hok, rfl, rfl, Or.inr (Or.inl ⟨rfl, hun, rfl, ?_⟩)⟩
        cases r with
        | again => simp [doRead] at hr
        | err => simp
        | data k =>
          simp only [doRead] at hr
          split at hr
          · simp at hr
          · split at hr <;> simp at hr
        | eof =>
          simp only [doRead] at hr
          split at hr <;> simp at hr
      | got bs rest' =>
        obtain ⟨g1, g2, g3, k, rfl⟩ := doRead_got hr
        have hfit : Fits { b with data := b.data ++ bs } := by
          refine ⟨?_, hb.2⟩
          simp only [List.length_append]; omega
        obtain ⟨s', n, rds', e1, e2, e3, e4, e5⟩ := finishCL_spec (rds := rds)
          (s := { s with inp := addTail [b] bs, sock := rest' }) (0 + bs.length) hfit (by simp [g2]) rfl hc
        have hun2 : unread { s with inp := addTail [b] bs, sock := rest' } = unread s := by
          simp [unread, addTail, ← hbd, ← g1]
        unfold Took at e5
        rw [hun2] at e5
        exact ⟨s', n, rds', e1, e2, e3, e4, Or.inr (Or.inr e5)⟩
  · rcases hhead with h | ⟨_, h⟩
    · obtain ⟨s', n, rds', e1, e2, e3, e4, e5⟩ := finishCL_spec 0 hb hne h hc
      exact ⟨s', n, rds', e1, e2, e3, e4, Or.inr (Or.inr e5)⟩
    · rw [h] at hne; simp at hne

/-- The relation between the state, the stream and what has been delivered. -/
def K (st : List Nat) (cl : Nat) (s : S) (del : List Nat) : Prop :=
  InpOk2 s.inp ∧ (∀ b ∈ s.user, b ≠ []) ∧ s.cl = cl ∧ s.clr ≤ cl ∧ s.clr ≤ st.length ∧
    unread s = st.drop s.clr ∧ del ++ s.user.flatten = st.take s.clr

theorem callLen_spec {st : List Nat} {cl : Nat} {s : S} {del : List Nat} (len : Nat) (rds : List Rd) (hl : 0 < len)
    (hk : K st cl s del) :
    ∃ s' r rds', consumeLen len rds s = .ok (s', r, rds') ∧ K st cl s' (del ++ received [r]) ∧
      (s.clr = cl ∧ s.user = [] → s'.clr = cl ∧ s'.user = []) ∧
      ((r = .done ∧ s'.clr = cl ∧ s'.user = []) ∨
       (r = .again ∧ ((∀ x ∈ rds, ∃ k, x = Rd.data k) → rds ≠ [] → st.length < cl)) ∨
       (r = .fail ∧ (Rd.err ∈ rds ∨ (Rd.eof ∈ rds ∧ st.length < cl))) ∨
       (∃ b, r = .bytes b ∧ b ≠ [] ∧ b.length ≤ len)) := by
  obtain ⟨hi, hu, hcl, hle, hle2, hun, hdel⟩ := hk
  have hempty : s.clr < cl → unread s = [] → st.length < cl := by
    intro h1 h2
    rw [hun] at h2
    have := congrArg List.length h2
    rw [List.length_drop, List.length_nil] at this
    omega
  unfold consumeLen
  split
  · rename_i hlt
    rw [hcl] at hlt
    obtain ⟨s1, n, rds1, e1, e2, e3, e4, e5⟩ := consumeReadCL_spec rds s hi (by rw [hcl]; exact hlt)
    simp only [e1, Out.ok_bind, Out.pure_eq]
    rcases e5 with ⟨rfl, a2, a3, a4⟩ | ⟨rfl, a2, a3, a4⟩ | ⟨k, a1, a2, a3, a4, a5⟩
    · simp only [show ¬ ((-1 : Int) = -2) by decide, show ¬ ((-1 : Int) ≥ 0) by decide, ↓reduceIte]
      have hne : decide (s1.clr = s1.cl) = false := by rw [e3, e4, hcl]; simp; omega
      rw [hne]
      obtain ⟨s2, r, f1, f2, f3, f4, f5, f6, f7, f8, f9⟩ := deliver_spec s1 false len hl (by rw [a3]; exact hu)
      have hus : unread s2 = unread s1 := by simp [unread, f2, f3]
      simp only [f1]
      rw [a3] at f8 f9
      refine ⟨s2, r, rds1, rfl, ⟨by rw [f2]; exact e2, f7, by rw [f5, e3, hcl], by rw [f6, e4]; exact hle, by rw [f6, e4]; exact hle2, ?_, ?_⟩, ?_, ?_⟩
      · rw [hus, a2, hun, f6, e4]
      · rw [List.append_assoc, f8, f6, e4]; exact hdel
      · intro h; omega
      · rcases f9 with ⟨g1, g2, g3, g4⟩ | ⟨g1, g2, g3⟩ | ⟨b, g1, g2, g3, g4⟩
        · simp at g2
        · exact Or.inr (Or.inl ⟨g1, fun h1 h2 => hempty hlt (a4 h1 h2)⟩)
        · exact Or.inr (Or.inr (Or.inr ⟨b, g1, g2, g3⟩))
    · simp only [↓reduceIte]
      refine ⟨s1, .fail, rds1, rfl, ⟨e2, by rw [a3]; exact hu, by rw [e3, hcl], by rw [e4]; exact hle, by rw [e4]; exact hle2, by rw [a2, hun, e4], ?_⟩, ?_, Or.inr (Or.inr (Or.inl ⟨rfl, ?_⟩))⟩
      · simpa [received, a3, e4] using hdel
      · intro h; omega
      · rcases a4 with a4 | ⟨a4, a5⟩
        · exact Or.inl a4
        · exact Or.inr ⟨a4, hempty hlt a5⟩
    · rw [if_neg (by omega)]
      simp only [show n ≥ 0 by omega, ↓reduceIte, e3, e4, hcl]
      rw [hcl] at a2
      have hk0 : 0 < k := by omega
      have hclr : (if s.clr + n.toNat > cl then cl else s.clr + n.toNat) = s.clr + k := by
        split <;> omega
      simp only [hclr]
      have hun' := congrArg List.length hun
      rw [List.length_drop] at hun'
      have hu1 : ∀ b ∈ s1.user, b ≠ [] := by
        intro b hb
        rw [a4] at hb
        rcases List.mem_append.mp hb with hb | hb
        · exact hu b hb
        · simp only [List.mem_singleton] at hb
          intro e
          rw [hb] at e
          have := congrArg List.length e
          rw [List.length_take, List.length_nil] at this
          omega
      obtain ⟨s2, r, f1, f2, f3, f4, f5, f6, f7, f8, f9⟩ := deliver_spec { s1 with clr := s.clr + k } (decide (s.clr + k = s1.cl)) len hl hu1
      have hus : unread s2 = unread s1 := by simp [unread, f2, f3]
      have hune : s1.user ≠ [] := by rw [a4]; simp
      simp only at f6 f5 f8 f9
      rw [e3, hcl] at f1
      simp only [f1]
      refine ⟨s2, r, rds1, rfl, ⟨by rw [f2]; exact e2, f7, by rw [f5, e3, hcl], by rw [f6]; omega, by rw [f6]; omega, ?_, ?_⟩, ?_, ?_⟩
      · rw [hus, a5, hun, f6, List.drop_drop]
      · rw [List.append_assoc, f8, f6, a4, List.flatten_append, ← List.append_assoc, hdel, hun]
        simp only [List.flatten_cons, List.flatten_nil, List.append_nil]
        rw [List.take_add]
      · intro h; omega
      · rcases f9 with ⟨g1, g2, g3, g4⟩ | ⟨g1, g2, g3⟩ | ⟨b, g1, g2, g3, g4⟩
        · exact absurd g3 hune
        · exact absurd g3 hune
        · exact Or.inr (Or.inr (Or.inr ⟨b, g1, g2, g3⟩))
  · rename_i hge
    have hc : s.clr = cl := by omega
    split
    · rename_i hnil
      refine ⟨_, .done, rds, rfl, ⟨hi, hu, hcl, hle, hle2, hun, ?_⟩, fun _ => ⟨hc, hnil⟩, Or.inl ⟨rfl, hc, hnil⟩⟩
      simpa [received] using hdel
    · rename_i hnn
      obtain ⟨s2, r, f1, f2, f3, f4, f5, f6, f7, f8, f9⟩ := deliver_spec { s with complete := true } (decide (s.clr = s.cl)) len hl hu
      have hus : unread s2 = unread s := by simp [unread, f2, f3]
      simp only [f1, Out.pure_eq]
      simp only at f5 f6 f8 f9
      refine ⟨s2, r, rds, rfl, ⟨by rw [f2]; exact hi, f7, by rw [f5, hcl], by rw [f6]; exact hle, by rw [f6]; exact hle2, by rw [hus, hun, f6], ?_⟩, fun h => absurd h.2 hnn, ?_⟩
      · rw [List.append_assoc, f8, f6]; exact hdel
      · rcases f9 with ⟨g1, g2, g3, g4⟩ | ⟨g1, g2, g3⟩ | ⟨b, g1, g2, g3, g4⟩
        · exact absurd g3 hnn
        · exact absurd g3 hnn
        · exact Or.inr (Or.inr (Or.inr ⟨b, g1, g2, g3⟩))

theorem runLen_spec {st : List Nat} {cl : Nat} (calls : List (Nat × List Rd)) {s : S} {del : List Nat}
    (hl : ∀ c ∈ calls, 0 < c.1) (hk : K st cl s del) :
    ∃ s' rs, run consumeLen calls s = .ok (s', rs) ∧ K st cl s' (del ++ received rs) ∧ rs.length = calls.length ∧
      (s.clr = cl ∧ s.user = [] → s'.clr = cl ∧ s'.user = []) ∧ (.done ∈ rs → s'.clr = cl ∧ s'.user = []) ∧
      (.fail ∈ rs → ∃ c ∈ calls, Rd.err ∈ c.2 ∨ (Rd.eof ∈ c.2 ∧ st.length < cl)) ∧
      (∀ i : Nat, ∀ b, rs[i]? = some (.bytes b) → b ≠ [] ∧ ∃ c, calls[i]? = some c ∧ b.length ≤ c.1) ∧
      (cl ≤ st.length → (∀ c ∈ calls, (∀ x ∈ c.2, ∃ k, x = Rd.data k) ∧ c.2 ≠ []) →
        cl - del.length < calls.length → .done ∈ rs) := by
  induction calls generalizing s del with
  | nil => exact ⟨s, [], rfl, by simpa [received] using hk, rfl, id, by simp, by simp, by simp, by simp⟩
  | cons c calls ih =>
    obtain ⟨len, rds⟩ := c
    obtain ⟨s1, r, rds1, e1, e2, e3, e5⟩ := callLen_spec len rds (hl _ (List.mem_cons_self ..)) hk
    obtain ⟨s2, rs, f1, f2, f3, f4, f5, f6, f7, f8⟩ := ih (fun c hc => hl c (by simp [hc])) e2
    refine ⟨s2, r :: rs, ?_, ?_, by simp [f3], fun h => f4 (e3 h), ?_, ?_, ?_, ?_⟩
    · unfold run; simp only [e1, Out.ok_bind, f1, Out.pure_eq]
    · have : received (r :: rs) = received [r] ++ received rs := received_append [r] rs
      rw [this, ← List.append_assoc]; exact f2
    · intro hd
      rcases List.mem_cons.mp hd with hd | hd
      · rcases e5 with ⟨_, g⟩ | ⟨g, _⟩ | ⟨g, _⟩ | ⟨b, g, _⟩
        · exact f4 g
        all_goals (rw [g] at hd; simp at hd)
      · exact f5 hd
    · intro hd
      rcases List.mem_cons.mp hd with hd | hd
      · rcases e5 with ⟨g, _⟩ | ⟨g, _⟩ | ⟨_, g⟩ | ⟨b, g, _⟩
        · rw [g] at hd; simp at hd
        · rw [g] at hd; simp at hd
        · exact ⟨_, List.mem_cons_self .., g⟩
        · rw [g] at hd; simp at hd
      · obtain ⟨c, hc, hx⟩ := f6 hd
        exact ⟨c, by simp [hc], hx⟩
    · intro i b hb
      cases i with
      | zero =>
        simp only [List.getElem?_cons_zero, Option.some.injEq] at hb
        rcases e5 with ⟨g, _⟩ | ⟨g, _⟩ | ⟨g, _⟩ | ⟨b', g, g1, g2⟩
        · rw [g] at hb; simp at hb
        · rw [g] at hb; simp at hb
        · rw [g] at hb; simp at hb
        · rw [g] at hb
          simp only [Ret.bytes.injEq] at hb
          subst hb
          exact ⟨g1, _, rfl, g2⟩
      | succ i => simpa using f7 i b (by simpa using hb)
    · intro hm hall hlen
      rcases e5 with ⟨g, _⟩ | ⟨_, g⟩ | ⟨_, g⟩ | ⟨b, g, g1, g2⟩
      · simp [g]
      · obtain ⟨h1, h2⟩ := hall _ (List.mem_cons_self ..)
        have := g h1 h2
        omega
      · obtain ⟨h1, h2⟩ := hall _ (List.mem_cons_self ..)
        rcases g with g | ⟨_, g⟩
        · obtain ⟨k, hk⟩ := h1 _ g; simp at hk
        · omega
      · refine List.mem_cons_of_mem _ (f8 hm (fun c hc => hall c (by simp [hc])) ?_)
        have hp := List.length_pos_iff.mpr g1
        have hle : (del ++ received [r]).length ≤ cl := by
          obtain ⟨_, _, _, h1, _, _, h2⟩ := e2
          have := congrArg List.length h2
          rw [List.length_append, List.length_take] at this
          omega
        simp only [List.length_append, g, received, List.append_nil, List.length_cons] at hlen hle ⊢
        omega

theorem Fresh.k {s : S} (hf : Fresh s) : K (unread s) s.cl s [] :=
  ⟨⟨⟨hf.1, fun b hb => (hf.2.1 b hb).1⟩, fun b hb => Or.inl (hf.2.1 b hb).2⟩, by simp [hf.2.2.1], rfl,
    by simp [hf.2.2.2.2], by simp [hf.2.2.2.2], by simp [hf.2.2.2.2], by simp [hf.2.2.1, hf.2.2.2.2]⟩

/-- For every stream, every content length, every way of splitting the stream over reads and every
sequence of calls: no undefined behaviour; what is handed out is, in order, a prefix of the first
`content length` bytes of the stream; 0 is returned only when exactly those bytes have been handed out,
and then all later bytes of the stream are left for the next request; failure is reported only if a read
failed or the stream ended early. -/
theorem C60_fixed_length_body (s : S) (calls : List (Nat × List Rd)) (hf : Fresh s) (hl : ∀ c ∈ calls, 0 < c.1) :
    ∃ s' rs, run consumeLen calls s = .ok (s', rs) ∧ rs.length = calls.length ∧
      received rs <+: (unread s).take s.cl ∧
      (.done ∈ rs → s.cl ≤ (unread s).length ∧ received rs = (unread s).take s.cl ∧ unread s' = (unread s).drop s.cl) ∧
      (.fail ∈ rs → ∃ c ∈ calls, Rd.err ∈ c.2 ∨ (Rd.eof ∈ c.2 ∧ (unread s).length < s.cl)) ∧
      (∀ i : Nat, ∀ b, rs[i]? = some (.bytes b) → b ≠ [] ∧ ∃ c, calls[i]? = some c ∧ b.length ≤ c.1) := by
  obtain ⟨s', rs, e1, e2, e3, e4, e5, e6, e7, e8⟩ := runLen_spec calls hl hf.k
  obtain ⟨k1, k2, k3, k4, k5, k6, k7⟩ := e2
  refine ⟨s', rs, e1, e3, ?_, ?_, e6, e7⟩
  · simp only [List.nil_append] at k7
    refine List.IsPrefix.trans ⟨s'.user.flatten, k7⟩ ?_
    exact List.take_prefix_take_left k4
  · intro hd
    obtain ⟨h1, h2⟩ := e5 hd
    rw [h1] at k5 k6 k7
    exact ⟨k5, by simpa [h2] using k7, k6⟩

/-- When the bytes are available the application gets the whole body, in at most one call per byte and one
more. -/
theorem C60_fixed_length_progress (s : S) (calls : List (Nat × List Rd)) (hf : Fresh s) (hl : ∀ c ∈ calls, 0 < c.1)
    (hr : ∀ c ∈ calls, (∀ x ∈ c.2, ∃ k, x = Rd.data k) ∧ c.2 ≠ []) (hc : s.cl ≤ (unread s).length) (hn : s.cl < calls.length) :
    ∃ s' rs, run consumeLen calls s = .ok (s', rs) ∧ received rs = (unread s).take s.cl ∧ .done ∈ rs ∧
      unread s' = (unread s).drop s.cl := by
  obtain ⟨s', rs, e1, e2, e3, e4, e5, e6, e7, e8⟩ := runLen_spec calls hl hf.k
  have hd := e8 hc hr (by simpa using hn)
  obtain ⟨k1, k2, k3, k4, k5, k6, k7⟩ := e2
  obtain ⟨h1, h2⟩ := e5 hd
  rw [h1] at k5 k6 k7
  exact ⟨s', rs, e1, by simpa [h2] using k7, hd, k6⟩

/-- The hypotheses are met: 5 bytes of body, in two reads, with the next request already buffered. -/
example : observe (run consumeLen [(3, [.data 1]), (3, []), (3, [.data 100]), (3, []), (3, [])]
      (start (bytesOf "helloGET /") 5)) =
      some ([.bytes (bytesOf "he"), .again, .bytes (bytesOf "llo"), .done, .done], bytesOf "GET /") := by decide +kernel

/-- Met also with part of the body already in the input buffer. -/
example : Fresh { start (bytesOf "loGET /") 5 with inp := [⟨32704, 200, bytesOf "hel"⟩] } ∧
    observe (run consumeLen [(30, []), (30, [.eof]), (30, [.data 0]), (30, [.data 0]), (30, [])]
      { start (bytesOf "loGET /") 5 with inp := [⟨32704, 200, bytesOf "hel"⟩] }) =
      some ([.bytes (bytesOf "hel"), .again, .bytes (bytesOf "l"), .bytes (bytesOf "o"), .done], bytesOf "GET /") := by
  refine ⟨?_, by decide +kernel⟩
  refine ⟨by decide, ?_, rfl, rfl, rfl⟩
  intro b hb
  simp only [List.mem_singleton] at hb
  rw [hb]
  exact ⟨⟨by decide +kernel, by decide⟩, by decide +kernel⟩

end Mtev.HttpIn
