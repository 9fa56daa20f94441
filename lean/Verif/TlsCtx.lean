import Verif.Mem

/-!
# Settings of a TLS context and the cache of contexts

`eventer/eventer_SSL_fd_opset.c`: `eventer_ssl_ctx_new_ex`, `ssl_ctx_key_write`,
`ssl_ctx_cache_get/set/remove`, `populate_finfo`, `validate_finfo`,
`eventer_ssl_use_crl`, for OpenSSL 1.1 and later.

A context of OpenSSL is the record of what it was made from.  The calls of one
history follow each other (the cache has a lock); reference counts are left out.
The digest is a parameter.
-/

namespace Mtev.TlsCtx

abbrev Str := List Nat

/-- the settings table (`:705-729`) -/
structure Settings where
  layer : Option Str := none
  layer11 : Option Str := none
  certificate : Option Str := none
  certificateFile : Option Str := none
  key : Option Str := none
  keyFile : Option Str := none
  caChain : Option Str := none
  caFile : Option Str := none
  ciphers : Option Str := none
  caAccept : Option Str := none
  crl : Option Str := none
  alpn : Option Str := none
  npn : Option Str := none
deriving DecidableEq, Repr

/-- the local variables made from it -/
structure Use where
  layer : Option Str
  certificate : Option Str
  key : Option Str
  ca : Option Str
  caAccept : Option Str
  ciphers : Option Str
  crl : Option Str
  npn : Str
deriving DecidableEq, Repr

/-- `:707-729`.  The result of looking up `ca_file` is dropped (`:722`). -/
def resolve (s : Settings) : Use :=
  { layer := s.layer11 <|> s.layer
    certificate := s.certificate <|> s.certificateFile
    key := s.key <|> s.keyFile
    ca := s.caChain
    ciphers := s.ciphers
    caAccept := s.caAccept <|> s.caChain
    crl := s.crl
    npn := (s.alpn <|> s.npn).getD (bytesOf "h2,http/1.1") }

/-- the parts given to the digest, in order (`:754-755`) -/
def parts (u : Use) : List (Option Str) :=
  [u.certificate, u.key, u.ca, u.caAccept, u.ciphers, some u.npn, u.crl]

/-- the loop of `ssl_ctx_key_write` (`:616-619`): one part after the other, up to
the first that is missing -/
def hashed : List (Option Str) → Str
  | some p :: ps => p ++ hashed ps
  | _ => []

def hexDigit (n : Nat) : Nat := if n < 10 then 48 + n else 87 + n

/-- `:622-627` -/
def hex (l : List Nat) : List Nat := l.flatMap (fun b => [hexDigit (b / 16), hexDigit (b % 16)])

/-- `snprintf(b, blen, "%c:%s:%s", …)` (`:607-630`); `SSL_CTX_KEYLEN` is 16389 (`:130`) -/
def keyText (H : List Nat → List Nat) (server : Bool) (u : Use) : Str :=
  ((if server then [83, 58] else [67, 58]) ++ u.layer.getD [] ++ [58] ++ hex (H (hashed (parts u)))).take 16388

/-- a value with a newline in it is the text itself, another one the name of a file (`:748-751`) -/
def fileOf (v : Option Str) : Option Str := v.filter (fun x => !x.contains 10)

/-- the file system as the code sees it: inode and modification time (zeros if the
file is not there, `:187-201`), whether loading succeeds -/
structure World where
  stat : Str → Int → Nat × Int
  loads : Bool → Use → Int → Bool

def finfo (w : World) (now : Int) (path : Option Str) : Nat × Int :=
  match path with
  | some p => w.stat p now
  | none => (0, 0)

/-- an OpenSSL context: what it was made from and when; the revocation list that is
in its store (`eventer_ssl_use_crl`, `:1273-1288`) -/
structure Built where
  server : Bool
  use : Use
  at_ : Int
  crl : Option Str
deriving DecidableEq, Repr

/-- an entry of the cache (`:136-146`) -/
structure Node where
  built : Built
  created : Int
  lastStat : Int
  certInfo : Nat × Int
  keyInfo : Nat × Int
  caInfo : Nat × Int
deriving DecidableEq, Repr

structure Cache where
  nodes : List (Str × Node) := []
  expiry : Int := 5
deriving DecidableEq, Repr

/-- is the entry still good (`:758-765`)?  The answer is the entry with its time of
the last look at the files, or `none` -/
def fresh (w : World) (expiry now : Int) (u : Use) (n : Node) : Option Node :=
  if now - n.created > expiry then none
  else if now - n.lastStat > 5 then
    if finfo w now (fileOf u.certificate) = n.certInfo ∧ finfo w now (fileOf u.key) = n.keyInfo ∧
        finfo w now (fileOf u.ca) = n.caInfo then some { n with lastStat := now }
    else none
  else some n

/-- a new entry (`:771-783` and everything up to `:1104`) -/
def make (w : World) (now : Int) (server : Bool) (u : Use) : Node :=
  { built := ⟨server, u, now, u.crl⟩
    created := now
    lastStat := now
    certInfo := finfo w now (fileOf u.certificate)
    keyInfo := finfo w now (fileOf u.key)
    caInfo := finfo w now (fileOf u.ca) }

def Cache.put (c : Cache) (k : Str) (n : Node) : Cache :=
  { c with nodes := (k, n) :: c.nodes.filter (fun e => e.1 != k) }

def Cache.del (c : Cache) (k : Str) : Cache := { c with nodes := c.nodes.filter (fun e => e.1 != k) }

def Cache.get (c : Cache) (k : Str) : Option Node := (c.nodes.find? (fun e => e.1 == k)).map (·.2)

/-- making the context when the cache has none (`:771-1111`) -/
def miss (H : List Nat → List Nat) (w : World) (c : Cache) (now : Int) (server : Bool) (u : Use) :
    Cache × Option Built :=
  if w.loads server u now then
    (c.put (keyText H server u) (make w now server u), some (make w now server u).built)
  else (c, none)

/-- `eventer_ssl_ctx_new_ex` (`:705-1135`) -/
def newCtx (H : List Nat → List Nat) (w : World) (c : Cache) (now : Int) (server : Bool) (s : Settings) :
    Cache × Option Built :=
  let u := resolve s
  let k := keyText H server u
  match c.get k with
  | some n =>
    match fresh w c.expiry now u n with
    | some n' => (c.put k n', some n'.built)
    | none => miss H w (c.del k) now server u
  | none => miss H w c now server u

/-- the arguments of `eventer_ssl_ctx_new` as a table (`:687-702`) -/
def plain (layer certificate key ca ciphers : Option Str) : Settings :=
  { layer := layer, certificate := certificate, key := key, caChain := ca, ciphers := ciphers }

/-- `eventer_ssl_use_crl` on a connection whose context has key `k` (`:1273-1288`):
the list goes into the shared context, unless one is in it already -/
def useCrl (c : Cache) (k : Str) (crl : Str) : Cache :=
  { c with nodes := c.nodes.map (fun e =>
      if e.1 = k ∧ e.2.built.crl = none then (e.1, { e.2 with built := { e.2.built with crl := some crl } })
      else e) }

/-- are certificates of peers looked up in a revocation list?  The list is put into
the context's own store (`:1279`), but with an authority given as text another store
is used for verification (`:1045`, OpenSSL) -/
def checksCrl (b : Built) : Bool :=
  b.crl.isSome && (b.use.ca.isNone || (fileOf b.use.ca).isSome)

/-! ## layers -/

/-- the protocol versions: 0 is SSLv3, 1 is TLSv1, 2 TLSv1.1, 3 TLSv1.2, 4 TLSv1.3 -/
structure Layer where
  min : Nat := 0
  max : Nat := 0
  off : List Nat := []
deriving DecidableEq, Repr

def lower (c : Nat) : Nat := if 65 ≤ c ∧ c ≤ 90 then c + 32 else c

/-- `strcasecmp(a, b) == 0` -/
def ieq (a b : Str) : Bool := a.map lower == b.map lower

/-- `strtok_r(s, ",")`: the pieces between commas that are not empty -/
def tokens (s : Str) : List Str :=
  go s []
where
  go : Str → Str → List Str
  | [], cur => if cur = [] then [] else [cur]
  | c :: s, cur => if c = 44 then (if cur = [] then go s [] else cur :: go s []) else go s (cur ++ [c])

/-- the versions that can be bounded (`TLSFIX`, `:838-861`) -/
def versionOf (n : Str) : Option Nat :=
  if ieq n (bytesOf "TLSv1") then some 1
  else if ieq n (bytesOf "TLSv1.1") then some 2
  else if ieq n (bytesOf "TLSv1.2") then some 3
  else if ieq n (bytesOf "TLSv1.3") then some 4
  else none

/-- one option (`:829-898`).  Bits that have nothing to do with versions are left
out; `SSLv2` has none in OpenSSL 1.1 -/
def option (l : Layer) (t : Str) : Layer :=
  match t with
  | 62 :: 61 :: n => match versionOf n with | some v => { l with min := v } | none => l
  | 60 :: 61 :: n => match versionOf n with | some v => { l with max := v } | none => l
  | 61 :: n => match versionOf n with | some v => { l with min := v, max := v } | none => l
  | 33 :: n =>
    if ieq n (bytesOf "SSLv3") then { l with off := 0 :: l.off }
    else match versionOf n with | some v => { l with off := v :: l.off } | none => l
  | n =>
    if ieq n (bytesOf "SSLv3") then { l with off := l.off.filter (· ≠ 0) }
    else match versionOf n with | some v => { l with off := l.off.filter (· ≠ v) } | none => l

/-- the options of a layer (`:737-746`): at most 255 bytes, what follows the first
colon, or `all` -/
def optionsOf (layer : Str) : Str :=
  let t := layer.take 255
  match t.dropWhile (· ≠ 58) with
  | [] => bytesOf "all"
  | _ :: o => o

/-- the version limits of a context made with this layer -/
def parseLayer (layer : Option Str) : Layer :=
  (tokens (optionsOf (layer.getD (bytesOf "tlsv1:all,>=tlsv1.2,!all,!sslv3,!sslv2")))).foldl option {}

/-- is a version spoken (OpenSSL)? -/
def speaks (l : Layer) (v : Nat) : Bool :=
  (l.min == 0 || l.min ≤ v) && (l.max == 0 || v ≤ l.max) && !l.off.contains v

/-! ## lemmas -/

theorem hexDigit_inj : ∀ a b : Fin 16, hexDigit a = hexDigit b → a = b := by decide +kernel

theorem hex_len (l : List Nat) : (hex l).length = 2 * l.length := by
  induction l with
  | nil => rfl
  | cons a l ih => simp only [hex, List.flatMap_cons, List.length_append] at ih ⊢; rw [ih]; simp; omega

theorem hex_inj : ∀ a b : List Nat, (∀ x ∈ a, x < 256) → (∀ x ∈ b, x < 256) → hex a = hex b → a = b
  | [], [], _, _, _ => rfl
  | [], y :: b, _, _, h => by simp [hex] at h
  | x :: a, [], _, _, h => by simp [hex] at h
  | x :: a, y :: b, ha, hb, h => by
    simp only [hex, List.flatMap_cons, List.cons_append, List.nil_append, List.cons.injEq] at h
    obtain ⟨h1, h2, h3⟩ := h
    have hx := ha x (by simp)
    have hy := hb y (by simp)
    have e1 := hexDigit_inj ⟨x / 16, by omega⟩ ⟨y / 16, by omega⟩ h1
    have e2 := hexDigit_inj ⟨x % 16, by omega⟩ ⟨y % 16, by omega⟩ h2
    simp only [Fin.mk.injEq] at e1 e2
    have e3 := hex_inj a b (fun z hz => ha z (by simp [hz])) (fun z hz => hb z (by simp [hz])) h3
    rw [e3]
    congr 1
    omega

/-- two keys agree only if role, layer and digest do -/
theorem key_inj {H : List Nat → List Nat} (hH : ∀ x, (H x).length = 32 ∧ ∀ b ∈ H x, b < 256)
    {s1 s2 : Bool} {u1 u2 : Use} (l1 : (u1.layer.getD []).length ≤ 16000)
    (l2 : (u2.layer.getD []).length ≤ 16000) (h : keyText H s1 u1 = keyText H s2 u2) :
    s1 = s2 ∧ u1.layer.getD [] = u2.layer.getD [] ∧
      H (hashed (parts u1)) = H (hashed (parts u2)) := by
  have hx : ∀ x, (hex (H x)).length = 64 := by intro x; rw [hex_len, (hH x).1]
  unfold keyText at h
  rw [List.take_of_length_le (by
    simp only [List.length_append, hx]; split <;> simp <;> omega), List.take_of_length_le (by
    simp only [List.length_append, hx]; split <;> simp <;> omega)] at h
  have h1 := List.append_inj' h (by rw [hx, hx])
  have h2 := List.append_inj' h1.1 rfl
  have h3 := List.append_inj h2.1 (by cases s1 <;> cases s2 <;> rfl)
  refine ⟨?_, h3.2, hex_inj _ _ (hH _).2 (hH _).2 h1.2⟩
  have := h3.1
  cases s1 <;> cases s2 <;> simp_all

theorem get_put (c : Cache) (k k' : Str) (n : Node) :
    (c.put k n).get k' = if k' = k then some n else c.get k' := by
  unfold Cache.get Cache.put
  simp only [List.find?_cons]
  by_cases h : k' = k
  · simp [h]
  · have : (k == k') = false := by simpa using fun h' => h h'.symm
    rw [this, if_neg h]
    simp only
    congr 1
    induction c.nodes with
    | nil => rfl
    | cons e es ih =>
      simp only [List.filter_cons, List.find?_cons]
      by_cases he : e.1 = k
      · have : (e.1 == k') = false := by rw [he]; exact this
        simp [he, this, ih]
        rw [he] at this; simp [this]
      · simp only [bne_iff_ne, ne_eq, he, not_false_eq_true, if_true, List.find?_cons, ih]

theorem get_del (c : Cache) (k k' : Str) : (c.del k).get k' = if k' = k then none else c.get k' := by
  unfold Cache.get Cache.del
  by_cases h : k' = k
  · subst h
    rw [if_pos rfl]
    have : (c.nodes.filter (fun e => e.1 != k')).find? (fun e => e.1 == k') = none := by
      rw [List.find?_eq_none]
      intro e he
      rw [List.mem_filter] at he
      simpa using he.2
    simp only [this, Option.map_none]
  · rw [if_neg h]
    simp only
    congr 1
    induction c.nodes with
    | nil => rfl
    | cons e es ih =>
      simp only [List.filter_cons, List.find?_cons]
      by_cases he : e.1 = k
      · have : (k == k') = false := by simpa using fun h' => h h'.symm
        simp only [this, he, bne_self_eq_false, Bool.false_eq_true, if_false]
        exact ih
      · simp only [bne_iff_ne, ne_eq, he, not_false_eq_true, if_true, List.find?_cons, ih]

end Mtev.TlsCtx
