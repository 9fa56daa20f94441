import Verif.Mem
import Verif.BtrieProps

/-!
Model of the access rules of the REST server, /repo/src/mtev_rest.c: `mtev_http_rest_load_rules`
(1468-1598), `compile_cidr` (1405-1427), `compile_listener_res` (1387-1441), `match_cidr` (199-216),
`match_listener_res` (1447-1466) and `mtev_http_rest_client_cert_auth` (471-593).

The configuration is the list of `acl` elements below `rest` in document order.  Not modelled: the
reload when the configuration changes while another thread evaluates the rules (the old rules are
freed at once, lines 1560-1597), debug logging, memory exhaustion.
-/

namespace Mtev.RestAcl

open Btrie (T Fam)

/-- What the libraries do, as parameters: `pcre_compile` gives `none` or a matcher, `pcre_exec`
without a limit on captures gives `none` or the number of captured pairs (the whole match is the
first pair); `inet_pton` for both families; the content of the uninitialised words of the IPv4
wrappers of the prefix tree.  The two families of address texts are disjoint and at most 45
characters long (`INET6_ADDRSTRLEN` counts the terminator). -/
structure Env where
  compile : List Nat → Option (List Nat → Option Nat)
  inet4 : List Nat → Option Nat
  inet6 : List Nat → Option Nat
  junk : List Nat
  lt4 : ∀ s a, inet4 s = some a → a < 2 ^ 32
  lt6 : ∀ s a, inet6 s = some a → a < 2 ^ 128
  disj : ∀ s a, inet6 s = some a → inet4 s = none
  short4 : ∀ s a, inet4 s = some a → s.length ≤ 45
  short6 : ∀ s a, inet6 s = some a → s.length ≤ 45

/-- The condition attributes of an `acl` or `rule` element; `listener` are the attributes starting
with `listener_`, without that prefix. -/
structure Attrs where
  user : Option (List Nat) := none
  auth : Option (List Nat) := none
  cn : Option (List Nat) := none
  url : Option (List Nat) := none
  ip : Option (List Nat) := none
  listener : List (List Nat × List Nat) := []
deriving DecidableEq

/-- A `rule` element. -/
structure RuleCfg where
  type : Option (List Nat)
  name : Option (List Nat) := none
  skipto : Option (List Nat) := none
  attrs : Attrs := {}
deriving DecidableEq

/-- An `acl` element. -/
structure AclCfg where
  type : Option (List Nat)
  attrs : Attrs := {}
  rules : List RuleCfg
deriving DecidableEq

/-- The address of the client. -/
inductive Peer
  | inet (f : Fam) (a : Nat)
  | other
deriving DecidableEq

/-- A request: what the conditions look at; `config` is the configuration of the listener. -/
structure Req where
  user : List Nat
  auth : List Nat
  cn : List Nat
  url : List Nat
  peer : Peer
  config : List (List Nat × List Nat)

/-- The compiled conditions of `struct mtev_rest_acl` and `struct mtev_rest_acl_rule`, 156-190. -/
structure Cond where
  user : Option (List Nat → Option Nat)
  auth : Option (List Nat → Option Nat)
  cn : Option (List Nat → Option Nat)
  url : Option (List Nat → Option Nat)
  ipacl : T Unit
  listener : Option (List (List Nat × (List Nat → Option Nat)))

/-- `struct mtev_rest_acl_rule`, 156-174.  `skipto` is the ACL (counted from the end of the file)
the pointer points to: line 1522 puts ACLs into the table of names, not rules. -/
structure Rule where
  allow : Bool
  skipto : Option Nat
  cond : Cond

/-- `struct mtev_rest_acl`, 175-190. -/
structure Acl where
  allow : Bool
  cond : Cond
  rules : List Rule

/-! ### Loading -/

/-- `compile_re`, 1499-1507: the attribute is cut to the 255 characters `buff` holds; an expression
that does not compile leaves `NULL`. -/
def compileRe (env : Env) (p : Option (List Nat)) : Option (List Nat → Option Nat) :=
  p.bind fun s => env.compile (s.take 255)

/-- `isspace`. -/
def isSpace (c : Nat) : Bool := c = 32 || (9 ≤ c && c ≤ 13)

/-- The value of the leading decimal digits. -/
def digits : Nat → List Nat → Nat
  | acc, [] => acc
  | acc, c :: r => if 48 ≤ c ∧ c ≤ 57 then digits (acc * 10 + (c - 48)) r else acc

/-- `atoi`: `strtol` saturates, the result is cut to 32 bits. -/
def atoi (s : List Nat) : Int :=
  match s.dropWhile isSpace with
  | 45 :: r => Int.bmod (max (-(digits 0 r : Int)) (-9223372036854775808)) 4294967296
  | 43 :: r => Int.bmod (min (digits 0 r) 9223372036854775807) 4294967296
  | r => Int.bmod (min (digits 0 r) 9223372036854775807) 4294967296

/-- `compile_cidr`, 1405-1427; `ipbuf` holds 50 characters (`INET6_ADDRSTRLEN` is 46). -/
def compileCidr (env : Env) : Option (List Nat) → Out (T Unit)
  | none => .ok .nil
  | some s =>
    let b := s.take 50
    let addr := b.takeWhile (· ≠ 47)
    let slash := b.contains 47
    let m : Int := if slash then atoi (b.dropWhile (· ≠ 47)).tail else 0
    let mask := m.toNat
    match env.inet4 addr with
    | some a => Btrie.addV4 env.junk .nil a (if !slash || mask > 32 then 32 else mask) ()
    | none => match env.inet6 addr with
      | some a => Btrie.addV6 .nil a (if !slash || mask > 128 then 128 else mask) ()
      | none => .ok .nil

/-- `compile_listener_res` and `accrue_and_compile`, 1387-1441: an attribute that does not compile
counts but is not stored.  Attribute names of one element are distinct, so the table is a list. -/
def compileListener (env : Env) (l : List (List Nat × List Nat)) :
    Option (List (List Nat × (List Nat → Option Nat))) :=
  if l = [] then none else some (l.filterMap fun p => (env.compile p.2).map fun m => (p.1, m))

/-- Lines 1510-1515 and 1533-1538. -/
def compileCond (env : Env) (c : Attrs) : Out Cond := do
  let t ← compileCidr env c.ip
  .ok ⟨compileRe env c.user, compileRe env c.auth, compileRe env c.cn, compileRe env c.url, t,
    compileListener env c.listener⟩

/-- `!strcmp(tbuff, "allow")` with the 31 characters `tbuff` holds, 1495-1496 and 1530-1531. -/
def isAllow (t : Option (List Nat)) : Bool := t.map (·.take 31) = some (bytesOf "allow")

/-- The names of the rules of ACL `idx` are added, from the last rule to the first; a name already
in the table stays, 1517-1525. -/
def addNames (idx : Nat) : List RuleCfg → List (List Nat × Nat) → List (List Nat × Nat)
  | [], n => n
  | r :: rs, n =>
    let n := addNames idx rs n
    match r.name with
    | none => n
    | some nm => if (n.lookup nm).isSome then n else (nm, idx) :: n

/-- One rule, 1517-1551; `names` is the table when the rules of the ACL have been read. -/
def loadRule (env : Env) (names : List (List Nat × Nat)) (r : RuleCfg) : Out Rule := do
  let c ← compileCond env r.attrs
  .ok ⟨isAllow r.type, r.skipto.bind fun n => names.lookup n, c⟩

/-- The rules of one ACL. -/
def loadRules (env : Env) (names : List (List Nat × Nat)) : List RuleCfg → Out (List Rule)
  | [] => .ok []
  | r :: rs => do
    let l ← loadRules env names rs
    let x ← loadRule env names r
    .ok (x :: l)

/-- `mtev_http_rest_load_rules`, 1484-1552: from the last ACL to the first.  The default of an ACL is
set from its type in 1495-1497 and then overwritten with `false` in 1509. -/
def loadAcls (env : Env) : List AclCfg → Out (List Acl × List (List Nat × Nat))
  | [] => .ok ([], [])
  | a :: as => do
    let (l, names) ← loadAcls env as
    let names := addNames as.length a.rules names
    let c ← compileCond env a.attrs
    let rules ← loadRules env names a.rules
    .ok (⟨false, c, rules⟩ :: l, names)

/-! ### Evaluation -/

/-- `pcre_exec(...) > 0` with an `ovector` of 30 entries: more than 10 pairs give 0. -/
def runRe (m : List Nat → Option Nat) (s : List Nat) : Bool :=
  match m s with
  | some k => 1 ≤ k && k ≤ 10
  | none => false

/-- A condition that is `NULL` holds. -/
def optRe (m : Option (List Nat → Option Nat)) (s : List Nat) : Bool :=
  match m with
  | some m => runRe m s
  | none => true

/-- `match_cidr`, 199-216. -/
def matchCidr (env : Env) (t : T Unit) : Peer → Out Bool
  | .inet .v4 a => do
    let r ← Btrie.findV4 env.junk t a
    .ok r.1.isSome
  | .inet .v6 a => do
    let r ← Btrie.findV6 t a
    .ok r.1.isSome
  | .other => .ok false

/-- `match_listener_res`, 1447-1466. -/
def matchListener (res : Option (List (List Nat × (List Nat → Option Nat)))) (config : List (List Nat × List Nat)) :
    Bool :=
  match res with
  | none => true
  | some l => l.all fun p => match config.lookup p.1 with
    | some s => runRe p.2 s
    | none => false

/-- `if(acl->ipacl)`. -/
def hasIp : T Unit → Bool
  | .nil => false
  | _ => true

/-- Lines 515-520 and 568-573. -/
def matchIpacl (env : Env) (t : T Unit) (p : Peer) : Out Bool :=
  if hasIp t then matchCidr env t p else .ok true

/-- The conditions of an ACL (495-524) or of a rule (528-577). -/
def matchCond (env : Env) (c : Cond) (q : Req) : Out Bool := do
  if !optRe c.user q.user then .ok false
  else if !optRe c.auth q.auth then .ok false
  else if !optRe c.cn q.cn then .ok false
  else if !optRe c.url q.url then .ok false
  else do
    let ip ← matchIpacl env c.ipacl q.peer
    if !ip then .ok false else .ok (matchListener c.listener q.config)

/-- The rules of an ACL, 525-590.  Following a `skipto` reads `rule->parent` (line 583) behind the end
of a `struct mtev_rest_acl`, which is smaller than `struct mtev_rest_acl_rule`: undefined. -/
def evalRules (env : Env) (q : Req) (dflt : Bool) : List Rule → Out Bool
  | [] => .ok dflt
  | r :: rs => do
    let m ← matchCond env r.cond q
    if !m then evalRules env q dflt rs
    else if r.skipto.isSome then .ub
    else .ok r.allow

/-- `mtev_http_rest_client_cert_auth`, 494-592. -/
def evalAcls (env : Env) (q : Req) : List Acl → Out Bool
  | [] => .ok false
  | a :: as => do
    let m ← matchCond env a.cond q
    if m then evalRules env q a.allow a.rules else evalAcls env q as

/-- Loading a configuration and asking for one request. -/
def authorize (env : Env) (cfg : List AclCfg) (q : Req) : Out Bool := do
  let (l, _) ← loadAcls env cfg
  evalAcls env q l

/-! ### Single routes in the prefix tree -/

theorem single_tree (f : Fam) (env : Env) {a len : Nat} (ha : a < 2 ^ f.width) (hl : len ≤ f.width) :
    ∃ t : T Unit, Btrie.step f .nil (.insert env.junk a len ()) = .ok t ∧ Btrie.Rep 128 t [(Btrie.prefixOf f a len, ())] ∧
      Btrie.size t ≤ 2 := by
  obtain ⟨t, e1, e2, e3⟩ := Btrie.step_insert (f := f) (W := 128) (Nat.le_refl _) (t := (T.nil : T Unit)) (tbl := [])
    ⟨trivial, by simp [Btrie.routes]⟩ (junk := env.junk) (d := ()) ha hl (by have := Btrie.width_le f; omega)
    (by intro key; simp [Btrie.walk])
  exact ⟨t, e1, by simpa [Btrie.specStep] using e2, by simpa [Btrie.size] using e3⟩

theorem hasIp_of_rep {t : T Unit} {pf : List Bool} (h : Btrie.Rep 128 t [(pf, ())]) : hasIp t = true := by
  cases t with
  | nil => have := (h.2 (pf, ())).2 (by simp); simp [Btrie.routes] at this
  | _ => rfl

theorem matchCidr_rep (env : Env) {t : T Unit} {pf : List Bool} (h : Btrie.Rep 128 t [(pf, ())])
    (hs : Btrie.size t ≤ 2) (f : Fam) {a : Nat} (ha : a < 2 ^ f.width) :
    matchCidr env t (.inet f a) = .ok (decide (pf <+: Btrie.addrBits f.width a)) := by
  have hw : (Btrie.walk (Btrie.fkey f env.junk a) f.width t).length ≤ 128 := by
    have := Btrie.walk_le_size (Btrie.fkey f env.junk a) f.width t; omega
  obtain ⟨d, pl, g1, g2⟩ := Btrie.find_spec h.1 (Btrie.fkey_ok f env.junk ha (Nat.le_refl _)) hw
  rw [Btrie.fkey_pre f env.junk a (Nat.le_refl _), Btrie.prefixOf,
    List.take_of_length_le (by rw [Btrie.addrBits_length])] at g2
  have e : matchCidr env t (.inet f a) = .ok d.isSome := by
    cases f
    · show (do let r ← Btrie.findV4 env.junk t a; Out.ok r.1.isSome) = _
      rw [show Btrie.findV4 env.junk t a = .ok (d, pl) from g1]; rfl
    · show (do let r ← Btrie.findV6 t a; Out.ok r.1.isSome) = _
      rw [show Btrie.findV6 t a = .ok (d, pl) from g1]; rfl
  rw [e]
  cases d with
  | none =>
    have := g2 (pf, ()) ((h.2 _).2 (by simp))
    simp [this]
  | some v =>
    obtain ⟨p, q1, q2, _⟩ := g2
    have := (h.2 _).1 q1
    simp at this
    simp [← this, q2]

/-- The meaning of the `ip` attribute to the code: the prefix stored, if any. -/
def cidrBits (env : Env) (s : List Nat) : Option (List Bool) :=
  let b := s.take 50
  let addr := b.takeWhile (· ≠ 47)
  let slash := b.contains 47
  let m : Int := if slash then atoi (b.dropWhile (· ≠ 47)).tail else 0
  match env.inet4 addr with
  | some a => some (Btrie.prefixOf .v4 a (if !slash || m.toNat > 32 then 32 else m.toNat))
  | none => (env.inet6 addr).map fun a => Btrie.prefixOf .v6 a (if !slash || m.toNat > 128 then 128 else m.toNat)

theorem compileCidr_spec (env : Env) (s : List Nat) :
    ∃ t, compileCidr env (some s) = .ok t ∧
      match cidrBits env s with
      | some pf => Btrie.Rep 128 t [(pf, ())] ∧ Btrie.size t ≤ 2
      | none => t = .nil := by
  unfold compileCidr cidrBits
  simp only
  generalize (if (List.take 50 s).contains 47 = true then atoi (List.dropWhile (fun x => decide (x ≠ 47)) (List.take 50 s)).tail else 0).toNat = mask
  generalize (List.take 50 s).contains 47 = slash
  generalize List.takeWhile (fun x => decide (x ≠ 47)) (List.take 50 s) = addr
  cases h4 : env.inet4 addr with
  | some a =>
    obtain ⟨t, e1, e2, e3⟩ := single_tree .v4 env (env.lt4 _ _ h4)
      (len := if !slash || mask > 32 then 32 else mask) (by show _ ≤ 32; split <;> simp_all)
    exact ⟨t, e1, e2, e3⟩
  | none =>
    cases h6 : env.inet6 addr with
    | some a =>
      obtain ⟨t, e1, e2, e3⟩ := single_tree .v6 env (env.lt6 _ _ h6)
        (len := if !slash || mask > 128 then 128 else mask) (by show _ ≤ 128; split <;> simp_all)
      exact ⟨t, e1, e2, e3⟩
    | none => exact ⟨.nil, rfl, rfl⟩

end Mtev.RestAcl
