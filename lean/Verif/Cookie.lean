import Verif.Url
import Verif.UrlProps
import Verif.Query
import Verif.DynBuffer


/-!
# Model of the signed login cookie, `src/modules/http_hmac_cookie.c`

`http_hmac_http_refresh_cookie` (issuing) and `http_hmac_http_request_complete` (checking).
The HMAC is a parameter `sign`: `signit` returns `none` for its error return and otherwise the
bytes of the signature.  The clock, the nonce, the key and `max_age` are parameters.

Simplifications: logging, and the allocation of the copies of the header, are left out; the copy
of the cookie header and the decoded payload are lists of the exact length that was allocated.
-/

namespace Mtev.Cookie
open Mtev.Url (encodeText)


/-- A C string seen through `strlen`. -/
def cstr (s : List Nat) : List Nat := s.takeWhile (· ≠ 0)

/-- `COOKIE_HEADER`, http_hmac_cookie.c:47. -/
def hdrText : List Nat := bytesOf "hmac_cookie"

/-- The name looked for in the cookie header, http_hmac_cookie.c:240. -/
def nameText : List Nat := bytesOf "mtevauth="

/-! ### Checking -/

/-- `strtok_r(_, " ;", _)` in a loop, http_hmac_cookie.c:239: the maximal non-empty runs of
characters other than blank and semicolon. -/
def tokens : List Nat → List Nat → List (List Nat)
  | [], cur => if cur = [] then [] else [cur]
  | x :: t, cur =>
    if x = 32 ∨ x = 59 then (if cur = [] then tokens t [] else cur :: tokens t [])
    else tokens t (cur ++ [x])

/-- The macro `ADVPART`, http_hmac_cookie.c:250-263: the part and the offset after it; `none` is
`goto malformed`. -/
def advpart (payload : List Nat) (roff : Nat) : Option (List Nat × Nat) :=
  if roff + 1 > payload.length then none
  else if roff + 1 + payload.getD roff 0 > payload.length then none
  else some ((payload.drop (roff + 1)).take (payload.getD roff 0), roff + 1 + payload.getD roff 0)

/-- `memcpy` of a part into an array of `size` characters followed by a NUL
(http_hmac_cookie.c:271-273, 275-277, 278-281), read back as a C string. -/
def toArray (size : Nat) (part : List Nat) : Out (List Nat) :=
  if part.length + 1 ≤ size then .ok (cstr part) else .ub

/-- The value of the digits a string starts with. -/
def digitsVal : List Nat → Nat → Nat
  | [], a => a
  | c :: r, a => if 48 ≤ c ∧ c ≤ 57 then digitsVal r (a * 10 + (c - 48)) else a

/-- `strtoull(_, NULL, 10)`, as used at http_hmac_cookie.c:282: blanks, a sign, digits; too large
values become `ULLONG_MAX` and a minus sign negates modulo `2^64`. -/
def strtoull (l : List Nat) : Nat :=
  match l.dropWhile (fun c => c = 32 || (9 ≤ c && c ≤ 13)) with
  | 45 :: r => if digitsVal r 0 < 2 ^ 64 then (2 ^ 64 - digitsVal r 0) % 2 ^ 64 else 2 ^ 64 - 1
  | 43 :: r => min (digitsVal r 0) (2 ^ 64 - 1)
  | r => min (digitsVal r 0) (2 ^ 64 - 1)

/-- The body of the `if` at http_hmac_cookie.c:240-301, for the decoded payload: who the request is
from now on authenticated as. -/
def checkPayload (sign : List Nat → Option (List Nat)) (now : Int) (payload : List Nat) :
    Out (Option (List Nat × List Nat)) :=
  match advpart payload 0 with
  | none => .ok none
  | some (h, r1) =>
    if h ≠ hdrText then .ok none
    else match advpart payload r1 with
    | none => .ok none
    | some (_, r2) => match advpart payload r2 with
      | none => .ok none
      | some (u, r3) => do
        let user ← toArray 257 u
        match advpart payload r3 with
        | none => .ok none
        | some (a, r4) => do
          let auth ← toArray 256 a
          match advpart payload r4 with
          | none => .ok none
          | some (t, r5) => do
            let timestr ← toArray 257 t
            if now > 0 ∧ (strtoull timestr : Int) > now then
              match advpart payload r5 with
              | none => .ok none
              | some (s, _) =>
                match sign (payload.take r5) with
                | none => .ok none
                | some newsig => if newsig.length = s.length ∧ newsig = s then .ok (some (user, auth)) else .ok none
            else .ok none

/-- One cookie: http_hmac_cookie.c:240-301.  `mtev_url_decode` gets a buffer of
`mtev_url_max_decode_len` bytes; what counts is the length it returns, which is 0 on errors. -/
def checkValue (sign : List Nat → Option (List Nat)) (now : Int) (value : List Nat) :
    Out (Option (List Nat × List Nat)) :=
  let r := Url.decode value (Url.maxDecodeLen value.length)
  checkPayload sign now (r.written.take r.ret)

/-- The loop over the cookies, http_hmac_cookie.c:239-303: only the first one called `mtevauth` is
looked at. -/
def checkTokens (sign : List Nat → Option (List Nat)) (now : Int) :
    List (List Nat) → Out (Option (List Nat × List Nat))
  | [] => .ok none
  | t :: ts => if t.take 9 = nameText then checkValue sign now (t.drop 9) else checkTokens sign now ts

/-- `http_hmac_http_request_complete`, http_hmac_cookie.c:229-307, for the value of the `Cookie`
header of the request (`none` if it has none).  The result is the argument of
`mtev_http_request_set_auth`, if it is called. -/
def check (sign : List Nat → Option (List Nat)) (now : Int) : Option (List Nat) → Out (Option (List Nat × List Nat))
  | none => .ok none
  | some cookie => checkTokens sign now (tokens (cstr cookie) [])

/-! ### Issuing -/

/-- `%zu` and `%u`. -/
def dec (n : Nat) : List Nat := if n < 10 then [48 + n] else dec (n / 10) ++ [48 + n % 10]
termination_by n
decreasing_by omega

/-- `len = strlen(s); add(&len, 1); add(s, len)`, http_hmac_cookie.c:346-360, with `uint8_t len`. -/
def addPart (junk : Nat → Nat) (b : DynBuffer.Buf) (s : List Nat) : Out DynBuffer.Buf := do
  let b ← DynBuffer.add junk b [s.length % 256]
  DynBuffer.add junk b (s.take (s.length % 256))

/-- A pointer into the memory of a buffer: into the static part, or into the heap block. -/
structure Ptr where
  inHeap : Bool
  off : Nat

/-- `mtev_dyn_buffer_write_pointer`. -/
def writePointer (b : DynBuffer.Buf) : Ptr := ⟨b.heap.isSome, b.pos⟩

/-- `*p = v`.  A pointer into the static part stays valid but is no longer part of the data once
the buffer has moved to the heap; a pointer into the heap block may be stale after a `realloc`
(modelled as undefined whenever there is a heap block). -/
def poke (b : DynBuffer.Buf) (p : Ptr) (v : Nat) : Out DynBuffer.Buf := do
  if p.inHeap then .ub
  else
    let c ← b.stat.write p.off [v]
    .ok { b with stat := c }

/-- Lines 364-380: the place for the length of the signature, the signature behind it, its length;
`none` is `goto done`. -/
def addSignature (junk : Nat → Nat) (sign : List Nat → Option (List Nat)) (b : DynBuffer.Buf) :
    Out (Option DynBuffer.Buf) := do
  let signLen := b.pos
  let p := writePointer b
  let b ← DynBuffer.add junk b [0]
  let b ← DynBuffer.ensure junk b 256
  match sign (b.cur.take signLen) with
  | none => .ok none
  | some s =>
    if s.length > 256 then .ok none
    else do
      let c ← b.cur.write b.pos s
      let b ← poke (b.setCur c) p (s.length % 256)
      .ok (some { b with pos := b.pos + s.length })

/-- Lines 382-387: percent-encoding in place; the text up to the NUL. -/
def encodeCookie (junk : Nat → Nat) (b : DynBuffer.Buf) : Out (Option (List Nat)) := do
  let b ← DynBuffer.ensure junk b (Url.encodeLen b.pos)
  match Url.encodeInPlace b.cur 0 b.pos with
  | none => .ub
  | some (0, _) => .ok none
  | some (_, m) => .ok (some (cstr m))

/-- `isalpha` in the C locale. -/
def isAlpha (c : Nat) : Bool := (65 ≤ c && c ≤ 90) || (97 ≤ c && c ≤ 122)

/-- `strrchr(s, c)`: the offset of the last occurrence. -/
def lastIndex (c : Nat) : List Nat → Option Nat
  | [] => none
  | x :: t => match lastIndex c t with
    | some i => some (i + 1)
    | none => if x = c then some 0 else none

/-- `hlast` at http_hmac_cookie.c:397-399, as an offset: the character before the port, or the last one. -/
def hostLast (h : List Nat) : Nat := (match lastIndex 58 h with | some i => i | none => h.length) - 1

/-- Lines 394-405 for the value of the `Host` header: the domain the cookie is restricted to.
`hlast` is an offset from the first dot of the name. -/
def hostDomain (host : List Nat) : Option (List Nat) :=
  let h := (cstr host).dropWhile (· ≠ 46)
  if h = [] then none
  else if h.length > 2 ∧ 46 ∈ h.drop 1 ∧ isAlpha (h.getD (hostLast h) 0) then some ((h.drop 1).take (hostLast h)) else none

/-- The attribute `Domain`, http_hmac_cookie.c:391-406. -/
def domainAttr (domain : Option (List Nat)) (host : Option (List Nat)) : List Nat :=
  match domain with
  | some d => bytesOf "; Domain=" ++ d
  | none => match host.bind hostDomain with
    | some d => bytesOf "; Domain=" ++ d
    | none => []

/-- What the process knows when it issues a cookie. -/
structure Env where
  now : Nat
  maxAge : Nat
  nonce : List Nat
  domain : Option (List Nat)
  host : Option (List Nat)

/-- `http_hmac_http_refresh_cookie`, http_hmac_cookie.c:328-414, for a request with a user and an
auth: the value of the `Set-Cookie` header (`none` if it is not set). -/
def issue (junk : Nat → Nat) (sign : List Nat → Option (List Nat)) (b0 : DynBuffer.Buf) (e : Env)
    (user auth : List Nat) : Out (Option (List Nat)) := do
  let b ← addPart junk (DynBuffer.init b0) hdrText
  let b ← addPart junk b e.nonce
  let b ← addPart junk b user
  let b ← addPart junk b auth
  let b ← addPart junk b (dec (e.now + e.maxAge))
  match ← addSignature junk sign b with
  | none => .ok none
  | some b =>
    match ← encodeCookie junk b with
    | none => .ok none
    | some v => .ok (some (nameText ++ v ++ bytesOf "; Max-Age=" ++ dec e.maxAge ++ domainAttr e.domain e.host))

/-! ### The login form -/

/-- What `http_login` keeps of the form: `user`, `pass` and `to`, http_hmac_cookie.c:424. -/
structure Form where
  user : Option (List Nat)
  pass : Option (List Nat)
  whereto : Option (List Nat)
deriving DecidableEq, Repr

/-- `mtev_url_decode` of a string onto itself followed by the NUL, http_hmac_cookie.c:438-443; the
decoder never writes past what it has read, so decoding in place is decoding.  The result is seen as
a C string; an error returns 0. -/
def decodeHere (s : List Nat) : Nat × List Nat :=
  let r := Url.decode s (s.length + 1)
  (r.ret, cstr (r.written.take r.ret))

/-- The body of the loop, http_hmac_cookie.c:436-451.  `len < 0` at line 444 never holds: a value
that cannot be decoded becomes the empty string. -/
def formStep (f : Form) (kvp : List Nat) : Form :=
  let (k, v) := Query.cutAt 61 kvp
  let (len, key) := decodeHere k
  if len > 0 then
    let val := v.map (fun x => (decodeHere x).2)
    if key = bytesOf "username" then { f with user := val }
    else if key = bytesOf "password" then { f with pass := val }
    else if key = bytesOf "whereto" then { f with whereto := val }
    else f
  else f

/-- http_hmac_cookie.c:431-452: the fields of the posted form. -/
def loginForm (body : List Nat) : Form :=
  (Query.tokens (cstr body) []).foldl formStep ⟨none, none, none⟩

/-- http_hmac_cookie.c:462: where the browser is sent after a successful login. -/
def location (f : Form) : List Nat :=
  match f.whereto with
  | some t => if t = [] then bytesOf "/" else t
  | none => bytesOf "/"

end Mtev.Cookie
