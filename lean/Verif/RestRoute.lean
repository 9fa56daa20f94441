import Verif.Mem

/-!
Model of the dispatch of REST requests, /repo/src/mtev_rest.c: registration (595-740),
`mtev_http_find_matching_route_rule` (309-388), `mtev_http_get_handler` (413-470),
`mtev_http_get_websocket_handler` (390-411), `mtev_rest_websocket_dispatcher` (790-804) and
`mtev_rest_request_dispatcher` (919-971).

Not modelled: hooks (`rest_get_handler`, `rest_auth_denied`; they are taken to do nothing), the move
of a connection to another thread, coroutines, statistics, registration while requests are served.
-/

namespace Mtev.RestRoute

/-- A compiled expression applied to the rest of the path: no match, or the captured groups as
positions (`none`: a group that took no part). -/
abbrev Expr := List Nat → Option (List (Option (Nat × Nat)))

/-- A request: `ws` says whether the connection was upgraded to a websocket; `who` is whatever else
an authorizer looks at. -/
structure Req where
  method : List Nat
  uri : List Nat
  proto : Option (List Nat) := none
  ws : Bool := false
  who : Nat := 0
deriving DecidableEq

/-- `struct rest_url_dispatcher`, 79-97; handlers are numbers. -/
structure Rule where
  method : List Nat
  proto : Option (List Nat)
  expr : Expr
  handler : Option Nat
  wsHandler : Option Nat
  auth : Option (Req → Bool)

/-- `dispatch_points`, 149-154: rules by base, in the order of registration. -/
abbrev Table := List (List Nat × List Rule)

/-- Appending to the container of the base, which is created if needed, 724-738. -/
def append (base : List Nat) (r : Rule) : Table → Table
  | [] => [(base, [r])]
  | (b, l) :: t => if b = base then (b, l ++ [r]) :: t else (b, l) :: append base r t

/-- `mtev_http_rest_new_rule_auth_closure`, 680-740; `expr` is `none` when it does not compile. -/
def newRule (t : Table) (method base : List Nat) (expr : Option Expr) (handler wsHandler : Option Nat)
    (proto : Option (List Nat)) (auth : Option (Req → Bool)) : Table × Bool :=
  if base = [] ∨ base.getLast? ≠ some 47 then (t, false)
  else match expr with
    | none => (t, false)
    | some e => (append base ⟨method, proto, e, handler, wsHandler, auth⟩ t, true)

/-- The registration calls of mtev_rest.h; `auth` is the authorizer the call is given
(`mtev_http_rest_register` passes `mtev_http_rest_client_cert_auth`). -/
inductive Reg
  | http (method base : List Nat) (expr : Option Expr) (handler : Nat) (auth : Option (Req → Bool))
  | ws (base : List Nat) (expr : Option Expr) (proto : Option (List Nat)) (handler : Nat)
  | wsAuth (base : List Nat) (expr : Option Expr) (proto : Option (List Nat)) (handler : Nat) (auth : Req → Bool)

/-- The method of websocket rules. -/
def wsMethod : List Nat := bytesOf "WS"

/-- The method of downloads. -/
def getMethod : List Nat := bytesOf "GET"

/-- One registration call: 601-620, 632-640, 652-665.  A websocket with an authorizer is registered as
a rule for websockets without authorizer and a rule for `GET` with the authorizer and no handler. -/
def register (t : Table) : Reg → Table
  | .http m b e h a => (newRule t m b e (some h) none none a).1
  | .ws b e p h => (newRule t wsMethod b e none (some h) p none).1
  | .wsAuth b e p h a =>
    let (t, ok) := newRule t wsMethod b e none (some h) p none
    if ok then (newRule t getMethod b e none none none (some a)).1 else t

/-- A series of registrations. -/
def registerAll (l : List Reg) : Table := l.foldl register []

/-! ### Finding the rule -/

/-- Lines 323-335: from the end of the URI to its front, at every slash; gives the rules and the
position behind the base.  `n` characters are still to be looked at. -/
def findBase (t : Table) (uri : List Nat) : Nat → Option (List Rule × Nat)
  | 0 => none
  | n + 1 =>
    if uri[n]? = some 47 then
      match t.lookup (uri.take (n + 1)) with
      | some l => some (l, n + 1)
      | none => findBase t uri n
    else findBase t uri n

/-- `pcre_exec(...) > 0` with room for the whole match and nine groups, 362-371. -/
def runExpr (e : Expr) (s : List Nat) : Option (List (Option (Nat × Nat))) :=
  match e s with
  | some caps => if caps.length ≤ 9 then some caps else none
  | none => none

/-- Lines 373-383: the text of a group; one that took no part gives the empty text. -/
def param (s : List Nat) : Option (Nat × Nat) → List Nat
  | some (i, j) => (s.drop i).take (j - i)
  | none => []

/-- Lines 364-369. -/
def methodOk (q : Req) (r : Rule) : Bool :=
  if q.ws then
    r.method = wsMethod && (match r.proto, q.proto with
      | some a, some b => a = b
      | _, _ => true)
  else r.method = q.method

/-- The loop over the rules, 361-386. -/
def findRule (q : Req) (rest : List Nat) : List Rule → Option (Rule × List (List Nat))
  | [] => none
  | r :: rs =>
    if methodOk q r then
      match runExpr r.expr rest with
      | some caps => some (r, caps.map (param rest))
      | none => findRule q rest rs
    else findRule q rest rs

/-- The method asking for the allowed methods. -/
def optionsMethod : List Nat := bytesOf "OPTIONS"

/-- `mtev_http_find_matching_route_rule`, 309-388, for requests other than `OPTIONS`. -/
def route (t : Table) (q : Req) : Option (Rule × List (List Nat)) :=
  match findBase t q.uri q.uri.length with
  | none => none
  | some (l, n) => findRule q (q.uri.drop n) l

/-- Lines 345-360: the methods listed for `OPTIONS`; `none` when nothing matched. -/
def allowed (t : Table) (q : Req) : Option (List (List Nat)) :=
  match findBase t q.uri q.uri.length with
  | none => none
  | some (l, n) =>
    let ms := (l.filter fun r => (runExpr r.expr (q.uri.drop n)).isSome).map (·.method)
    if ms = [] then none else some (optionsMethod :: ms)

/-! ### Requests -/

/-- What a request leads to. -/
inductive Outcome
  | run (handler : Nat) (params : List (List Nat))
  | denied
  | notFound
  | methods (l : List (List Nat))
deriving DecidableEq

/-- `mtev_http_get_handler` and the call of the handler, 413-470 and 919-934, when no handler is
remembered. -/
def fresh (t : Table) (q : Req) : Outcome :=
  if q.method = optionsMethod then
    match allowed t q with
    | some l => .methods l
    | none => .notFound
  else
    match route t q with
    | none => .notFound
    | some (r, ps) =>
      if (match r.auth with | some a => !a q | none => false) then .denied
      else match r.handler with
        | some h => .run h ps
        | none => .notFound

/-- A connection: the remembered handler (`restc->fastpath`) and its parameters. -/
abbrev Conn := Option (Nat × List (List Nat))

/-- One request on a connection, 919-971.  `inside h` says that handler `h` ends its response before
it returns (or calls `mtev_http_rest_clean_request`); only then is the handler forgotten (968-969).
Repeated calls of the dispatcher for one request are one step here. -/
def serve (t : Table) (inside : Nat → Bool) (c : Conn) (q : Req) : Conn × Outcome :=
  let o := match c with
    | some (h, ps) => Outcome.run h ps
    | none => fresh t q
  match o with
  | .run h ps => (if inside h then none else some (h, ps), o)
  | _ => (none, o)

/-- A series of requests on a connection. -/
def serveAll (t : Table) (inside : Nat → Bool) : Conn → List Req → List Outcome
  | _, [] => []
  | c, q :: qs =>
    let (c', o) := serve t inside c q
    o :: serveAll t inside c' qs

/-! ### Websocket messages -/

/-- What a websocket message leads to. -/
inductive MsgOutcome
  | run (handler : Nat)
  | refused
deriving DecidableEq

/-- `mtev_rest_websocket_dispatcher` and `mtev_http_get_websocket_handler`, 390-411 and 790-804: the
remembered handler (`websocket_handler_memo`) is set before the authorizer is asked. -/
def message (t : Table) (memo : Option Nat) (q : Req) : Option Nat × MsgOutcome :=
  match memo with
  | some h => (memo, .run h)
  | none =>
    match route t q with
    | none => (none, .refused)
    | some (r, _) =>
      let memo := r.wsHandler
      if (match r.auth with | some a => !a q | none => false) then (memo, .refused)
      else match r.wsHandler with
        | some h => (memo, .run h)
        | none => (memo, .refused)

/-- Messages that arrive together on one connection (the library delivers all complete messages it
has buffered, even after one was refused). -/
def messages (t : Table) (q : Req) : Option Nat → Nat → List MsgOutcome
  | _, 0 => []
  | memo, n + 1 =>
    let (memo', o) := message t memo q
    o :: messages t q memo' n

end Mtev.RestRoute
