import Verif.RestAcl

/-!
Property C37: REST access rules.

The specification reads the configuration as its author does: an element applies to a request when
every attribute on it holds; the first applying ACL decides, inside it the first applying rule; a rule
with `skipto` continues at the rule of that name; a request for which no ACL applies is denied.
-/

namespace Mtev.RestAcl

open Btrie (T Fam)

/-! ### Specification -/

/-- The expression matches the text. -/
def Matches (env : Env) (p s : List Nat) : Prop := ∃ m k, env.compile p = some m ∧ m s = some k

/-- Reading an address of a family. -/
def inet (env : Env) : Fam → List Nat → Option Nat
  | .v4 => env.inet4
  | .v6 => env.inet6

/-- The text of an `ip` attribute: an address, or an address, a slash and a decimal length of at most
three digits that is at most the width of the address. -/
def Cidr (env : Env) (s : List Nat) (f : Fam) (a len : Nat) : Prop :=
  (47 ∉ s ∧ inet env f s = some a ∧ len = f.width) ∨
  ∃ ip ds, s = ip ++ 47 :: ds ∧ 47 ∉ ip ∧ inet env f ip = some a ∧ ds ≠ [] ∧ ds.length ≤ 3 ∧
    (∀ c ∈ ds, 48 ≤ c ∧ c ≤ 57) ∧ ds.foldl (fun v c => v * 10 + (c - 48)) 0 = len ∧ len ≤ f.width

/-- The client is in the network. -/
def InNet (env : Env) (s : List Nat) (p : Peer) : Prop :=
  ∃ f a len b, Cidr env s f a len ∧ p = .inet f b ∧ a / 2 ^ (f.width - len) = b / 2 ^ (f.width - len)

/-- Every attribute of the element holds for the request. -/
structure Holds (env : Env) (c : Attrs) (q : Req) : Prop where
  user : ∀ p, c.user = some p → Matches env p q.user
  auth : ∀ p, c.auth = some p → Matches env p q.auth
  cn : ∀ p, c.cn = some p → Matches env p q.cn
  url : ∀ p, c.url = some p → Matches env p q.url
  ip : ∀ s, c.ip = some s → InNet env s q.peer
  listener : ∀ k p, (k, p) ∈ c.listener → ∃ s, q.config.lookup k = some s ∧ Matches env p s

/-- The type says allow. -/
def Allows (t : Option (List Nat)) : Bool := t = some (bytesOf "allow")

/-- Evaluation from some rule of ACL `a` on gives the decision. -/
inductive From (env : Env) (cfg : List AclCfg) (q : Req) : AclCfg → List RuleCfg → Bool → Prop
  | none {a} : From env cfg q a [] (Allows a.type)
  | miss {a r rs b} : ¬ Holds env r.attrs q → From env cfg q a rs b → From env cfg q a (r :: rs) b
  | hit {a r rs} : Holds env r.attrs q → r.skipto = .none → From env cfg q a (r :: rs) (Allows r.type)
  | skip {a r rs n a' before t after b} : Holds env r.attrs q → r.skipto = some n → a' ∈ cfg →
      a'.rules = before ++ t :: after → t.name = some n → From env cfg q a' (t :: after) b →
      From env cfg q a (r :: rs) b

/-- The decision about a request. -/
def Decides (env : Env) (cfg : List AclCfg) (q : Req) (b : Bool) : Prop :=
  (∃ pre a post, cfg = pre ++ a :: post ∧ (∀ x ∈ pre, ¬ Holds env x.attrs q) ∧ Holds env a.attrs q ∧
    From env cfg q a a.rules b) ∨
  ((∀ x ∈ cfg, ¬ Holds env x.attrs q) ∧ b = false)

/-! ### What the code understands -/

/-- An expression the code understands: it compiles and never captures more than nine groups. -/
def PatOk (env : Env) (p : List Nat) : Prop :=
  ∃ m, env.compile p = some m ∧ ∀ s k, m s = some k → 1 ≤ k ∧ k ≤ 10

/-- The attributes of an element that the code understands: expressions of at most 255 bytes that
compile and have fewer than ten groups, networks written as addresses or address/length and not of the
other family with the leading bits of the client's address. -/
structure Clear (env : Env) (q : Req) (c : Attrs) : Prop where
  user : ∀ p, c.user = some p → p.length ≤ 255 ∧ PatOk env p
  auth : ∀ p, c.auth = some p → p.length ≤ 255 ∧ PatOk env p
  cn : ∀ p, c.cn = some p → p.length ≤ 255 ∧ PatOk env p
  url : ∀ p, c.url = some p → p.length ≤ 255 ∧ PatOk env p
  ip : ∀ s, c.ip = some s → ∃ f a len, Cidr env s f a len ∧
    ∀ g b, q.peer = .inet g b → g ≠ f → ¬ Btrie.prefixOf f a len <+: Btrie.addrBits g.width b
  listener : ∀ k p, (k, p) ∈ c.listener → PatOk env p

/-- The client's address has as many bits as its family says. -/
def PeerOk : Peer → Prop
  | .inet f a => a < 2 ^ f.width
  | .other => True

/-! ### Lemmas -/

theorem runRe_iff {env : Env} {p : List Nat} (h : PatOk env p) {m : List Nat → Option Nat}
    (hm : env.compile p = some m) (s : List Nat) : runRe m s = true ↔ Matches env p s := by
  obtain ⟨m', e, h⟩ := h
  rw [hm] at e; cases e
  unfold runRe Matches
  cases hs : m s with
  | none => simp [hm, hs]
  | some k => have := h s k hs; simp [hm, hs, this]

theorem optRe_iff {env : Env} {c : Option (List Nat)} (h : ∀ p, c = some p → p.length ≤ 255 ∧ PatOk env p)
    (s : List Nat) : optRe (compileRe env c) s = true ↔ ∀ p, c = some p → Matches env p s := by
  cases c with
  | none => simp [compileRe, optRe]
  | some p =>
    obtain ⟨hl, hp⟩ := h p rfl
    obtain ⟨m, e, _⟩ := id hp
    have : compileRe env (some p) = some m := by
      show env.compile (p.take 255) = some m
      rw [List.take_of_length_le hl, e]
    rw [this]
    show runRe m s = true ↔ _
    rw [runRe_iff hp e]
    simp

theorem digits_foldl (ds : List Nat) (h : ∀ c ∈ ds, 48 ≤ c ∧ c ≤ 57) (acc : Nat) :
    digits acc ds = ds.foldl (fun v c => v * 10 + (c - 48)) acc := by
  induction ds generalizing acc with
  | nil => rfl
  | cons c r ih =>
    rw [digits, if_pos (h c (by simp)), List.foldl_cons, ih fun x hx => h x (by simp [hx])]

theorem atoi_digits {ds : List Nat} (hne : ds ≠ []) (h : ∀ c ∈ ds, 48 ≤ c ∧ c ≤ 57) {n : Nat}
    (hv : ds.foldl (fun v c => v * 10 + (c - 48)) 0 = n) (hn : n ≤ 128) : atoi ds = n := by
  obtain ⟨c, r, rfl⟩ := List.exists_cons_of_ne_nil hne
  have hc := h c (by simp)
  have hsp : isSpace c = false := by simp [isSpace]; omega
  have hdw : (c :: r).dropWhile isSpace = c :: r := by simp [hsp]
  have hd := digits_foldl (c :: r) h 0
  rw [hv] at hd
  unfold atoi
  rw [hdw]
  split
  · next heq => cases heq; omega
  · next heq => cases heq; omega
  · rw [hd, Int.min_eq_left (by omega), Int.bmod_eq_of_le] <;> omega

theorem takeWhile_ne {ip : List Nat} (h : 47 ∉ ip) (r : List Nat) :
    (ip ++ 47 :: r).takeWhile (fun x => decide (x ≠ 47)) = ip ∧
    (ip ++ 47 :: r).dropWhile (fun x => decide (x ≠ 47)) = 47 :: r := by
  induction ip with
  | nil => simp
  | cons c t ih =>
    have h1 : c ≠ 47 := fun e => h (by simp [e])
    have h2 : 47 ∉ t := fun e => h (by simp [e])
    have hd : decide (c ≠ 47) = true := by simpa using h1
    rw [List.cons_append, List.takeWhile_cons, List.dropWhile_cons, if_pos hd, if_pos hd, (ih h2).1, (ih h2).2]
    exact ⟨rfl, rfl⟩

theorem takeWhile_ne' {ip : List Nat} (h : 47 ∉ ip) : ip.takeWhile (fun x => decide (x ≠ 47)) = ip := by
  induction ip with
  | nil => simp
  | cons c t ih =>
    have h1 : c ≠ 47 := fun e => h (by simp [e])
    have h2 : 47 ∉ t := fun e => h (by simp [e])
    have hd : decide (c ≠ 47) = true := by simpa using h1
    rw [List.takeWhile_cons, if_pos hd, ih h2]

theorem inet_short {env : Env} {f : Fam} {s : List Nat} {a : Nat} (h : inet env f s = some a) : s.length ≤ 45 := by
  cases f
  · exact env.short4 _ _ h
  · exact env.short6 _ _ h

theorem inet_lt {env : Env} {f : Fam} {s : List Nat} {a : Nat} (h : inet env f s = some a) : a < 2 ^ f.width := by
  cases f
  · exact env.lt4 _ _ h
  · exact env.lt6 _ _ h

theorem cidr_bits {env : Env} {s : List Nat} {f : Fam} {a len : Nat} (h : Cidr env s f a len) :
    cidrBits env s = some (Btrie.prefixOf f a len) := by
  rcases h with ⟨h1, h2, h3⟩ | ⟨ip, ds, h1, h2, h3, h4, h5, h6, h7, h8⟩
  · have hl := inet_short h2
    have ht : s.take 50 = s := List.take_of_length_le (by omega)
    have hc : s.contains 47 = false := by simpa using h1
    unfold cidrBits
    simp only [ht, takeWhile_ne' h1, hc]
    subst h3
    cases f with
    | v4 => rw [show env.inet4 s = some a from h2]; simp [Fam.width]
    | v6 =>
      rw [env.disj s a h2, show env.inet6 s = some a from h2]; simp [Fam.width]
  · have hl := inet_short h3
    have ht : s.take 50 = s := List.take_of_length_le (by rw [h1]; simp; omega)
    have hc : s.contains 47 = true := by rw [h1]; simp
    have hlen : len ≤ 128 := Nat.le_trans h8 (Btrie.width_le f)
    unfold cidrBits
    simp only [ht, hc]
    rw [h1, (takeWhile_ne h2 ds).1, (takeWhile_ne h2 ds).2]
    simp only [List.tail_cons, if_true, atoi_digits h4 h6 h7 hlen]
    cases f with
    | v4 =>
      have h8' : len ≤ 32 := h8
      rw [show env.inet4 ip = some a from h3]
      simp [Nat.not_lt.2 h8']
    | v6 =>
      rw [env.disj ip a h3, show env.inet6 ip = some a from h3]
      simp [Nat.not_lt.2 hlen]

/-- A text has one meaning. -/
theorem cidr_fam {env : Env} {s : List Nat} {f g : Fam} {a b m n : Nat} (h : Cidr env s f a m) (k : Cidr env s g b n) :
    f = g := by
  have key : ∀ {f a m}, Cidr env s f a m → inet env f (s.takeWhile (fun x => decide (x ≠ 47))) = some a := by
    intro f a m h
    rcases h with ⟨h1, h2, _⟩ | ⟨ip, ds, h1, h2, h3, _⟩
    · rw [takeWhile_ne' h1]; exact h2
    · rw [h1, (takeWhile_ne h2 ds).1]; exact h3
  have e1 := key h
  have e2 := key k
  cases f <;> cases g <;> try rfl
  · have := env.disj _ _ (show env.inet6 _ = some b from e2)
    rw [show env.inet4 _ = some a from e1] at this; simp at this
  · have := env.disj _ _ (show env.inet6 _ = some a from e1)
    rw [show env.inet4 _ = some b from e2] at this; simp at this

theorem addrBits_take (W a len : Nat) (hl : len ≤ W) :
    (Btrie.addrBits W a).take len = (List.range len).map fun i => a.testBit (W - 1 - i) := by
  unfold Btrie.addrBits
  rw [← List.map_take, List.take_range, Nat.min_eq_left hl]

/-- Same leading bits: same number after dropping the others. -/
theorem prefix_iff {W a b len : Nat} (hl : len ≤ W) (ha : a < 2 ^ W) (hb : b < 2 ^ W) :
    (Btrie.addrBits W a).take len <+: Btrie.addrBits W b ↔ a / 2 ^ (W - len) = b / 2 ^ (W - len) := by
  have h1 : (Btrie.addrBits W a).take len <+: Btrie.addrBits W b ↔
      (Btrie.addrBits W a).take len = (Btrie.addrBits W b).take len := by
    rw [List.prefix_iff_eq_take]
    have : ((Btrie.addrBits W a).take len).length = len := by
      rw [List.length_take, Btrie.addrBits_length]; omega
    rw [this]
  rw [h1, addrBits_take W a len hl, addrBits_take W b len hl]
  constructor
  · intro h
    have hb' : ∀ i, i < len → a.testBit (W - 1 - i) = b.testBit (W - 1 - i) := by
      intro i hi
      have := congrArg (fun l => l[i]?) h
      simpa [List.getElem?_range, hi] using this
    apply Nat.eq_of_testBit_eq
    intro i
    rw [← Nat.shiftRight_eq_div_pow, ← Nat.shiftRight_eq_div_pow, Nat.testBit_shiftRight, Nat.testBit_shiftRight]
    by_cases hi : i < len
    · have := hb' (len - 1 - i) (by omega)
      rw [show W - 1 - (len - 1 - i) = W - len + i by omega] at this
      exact this
    · rw [Nat.testBit_lt_two_pow (Nat.lt_of_lt_of_le ha (Nat.pow_le_pow_right (by omega) (by omega))),
        Nat.testBit_lt_two_pow (Nat.lt_of_lt_of_le hb (Nat.pow_le_pow_right (by omega) (by omega)))]
  · intro h
    apply List.map_congr_left
    intro i hi
    rw [List.mem_range] at hi
    have := congrArg (fun x => x.testBit (len - 1 - i)) h
    simp only [← Nat.shiftRight_eq_div_pow, Nat.testBit_shiftRight] at this
    rwa [show W - len + (len - 1 - i) = W - 1 - i by omega] at this

theorem cidr_len {env : Env} {s : List Nat} {f : Fam} {a len : Nat} (h : Cidr env s f a len) :
    len ≤ f.width ∧ a < 2 ^ f.width := by
  rcases h with ⟨_, h2, h3⟩ | ⟨ip, ds, _, _, h3, _, _, _, _, h8⟩
  · exact ⟨Nat.le_of_eq h3, inet_lt h2⟩
  · exact ⟨h8, inet_lt h3⟩

/-- What the code does with the `ip` attribute. -/
theorem matchIp (env : Env) (ip : Option (List Nat)) (p : Peer) (hp : PeerOk p) :
    ∃ t b, compileCidr env ip = .ok t ∧ matchIpacl env t p = .ok b ∧
      (b = true ↔ ∀ s pf, ip = some s → cidrBits env s = some pf → ∃ g c, p = .inet g c ∧ pf <+: Btrie.addrBits g.width c) := by
  cases ip with
  | none => exact ⟨.nil, true, rfl, rfl, by simp⟩
  | some s =>
    obtain ⟨t, e1, e2⟩ := compileCidr_spec env s
    cases hb : cidrBits env s with
    | none =>
      rw [hb] at e2
      simp only at e2
      subst e2
      exact ⟨.nil, true, e1, rfl, ⟨fun _ s' pf h1 h2 => (by cases h1; rw [hb] at h2; cases h2), fun _ => rfl⟩⟩
    | some pf =>
      rw [hb] at e2
      simp only at e2
      cases p with
      | other =>
        refine ⟨t, false, e1, ?_, ?_⟩
        · unfold matchIpacl; rw [hasIp_of_rep e2.1]; rfl
        · refine ⟨fun h => (by cases h), fun h => ?_⟩
          obtain ⟨g, c, h1, _⟩ := h s pf rfl hb
          cases h1
      | inet f a =>
        refine ⟨t, decide (pf <+: Btrie.addrBits f.width a), e1, ?_, ?_⟩
        · unfold matchIpacl; rw [hasIp_of_rep e2.1, if_pos rfl]; exact matchCidr_rep env e2.1 e2.2 f hp
        · rw [decide_eq_true_iff]
          constructor
          · intro h s' pf' h1 h2
            cases h1; rw [hb] at h2; cases h2
            exact ⟨f, a, rfl, h⟩
          · intro h
            obtain ⟨g, c, h1, h2⟩ := h s pf rfl hb
            cases h1; exact h2

theorem matchListener_iff {env : Env} {l : List (List Nat × List Nat)} (h : ∀ k p, (k, p) ∈ l → PatOk env p)
    (config : List (List Nat × List Nat)) :
    matchListener (compileListener env l) config = true ↔
      ∀ k p, (k, p) ∈ l → ∃ s, config.lookup k = some s ∧ Matches env p s := by
  unfold compileListener
  split
  · next h => subst h; simp [matchListener]
  · unfold matchListener
    simp only [List.all_eq_true, List.mem_filterMap, Option.map_eq_some_iff]
    constructor
    · intro hall k p hmem
      obtain ⟨m, e, _⟩ := id (h k p hmem)
      have := hall (k, m) ⟨(k, p), hmem, m, e, rfl⟩
      simp only at this
      split at this
      · next s hs => exact ⟨s, hs, (runRe_iff (h k p hmem) e s).1 this⟩
      · cases this
    · rintro hall ⟨k, m⟩ ⟨⟨k', p⟩, hmem, m', e, heq⟩
      cases heq
      obtain ⟨s, hs, hm⟩ := hall k' p hmem
      simp only at e ⊢
      rw [hs]
      exact (runRe_iff (h k' p hmem) e s).2 hm

theorem compileCond_eq {env : Env} {c : Attrs} {t : T Unit} (h : compileCidr env c.ip = .ok t) :
    compileCond env c = .ok ⟨compileRe env c.user, compileRe env c.auth, compileRe env c.cn, compileRe env c.url, t,
      compileListener env c.listener⟩ := by
  unfold compileCond; rw [h]; rfl

theorem matchCond_eq {env : Env} {k : Cond} {q : Req} {b : Bool}
    (h : matchIpacl env k.ipacl q.peer = .ok b) :
    matchCond env k q = .ok (optRe k.user q.user && optRe k.auth q.auth && optRe k.cn q.cn && optRe k.url q.url && b &&
      matchListener k.listener q.config) := by
  unfold matchCond
  rw [h]
  cases optRe k.user q.user <;> cases optRe k.auth q.auth <;> cases optRe k.cn q.cn <;>
    cases optRe k.url q.url <;> cases b <;> rfl

/-- Understood attributes are evaluated as they read. -/
theorem cond_spec (env : Env) (q : Req) (c : Attrs) (hq : PeerOk q.peer) (hc : Clear env q c) :
    ∃ k b, compileCond env c = .ok k ∧ matchCond env k q = .ok b ∧ (b = true ↔ Holds env c q) := by
  obtain ⟨t, b, e1, e2, e3⟩ := matchIp env c.ip q.peer hq
  have hip : b = true ↔ ∀ s, c.ip = some s → InNet env s q.peer := by
    rw [e3]
    constructor
    · intro h s hs
      obtain ⟨f, a, len, hcd, hcl⟩ := hc.ip s hs
      obtain ⟨g, x, hp, hpre⟩ := h s _ hs (cidr_bits hcd)
      by_cases hg : g = f
      · subst hg
        obtain ⟨h1, h2⟩ := cidr_len hcd
        rw [hp] at hq
        exact ⟨g, a, len, x, hcd, hp, (prefix_iff h1 h2 hq).1 hpre⟩
      · exact absurd hpre (hcl g x hp hg)
    · intro h s pf hs hpf
      obtain ⟨f, a, len, x, hcd, hp, heq⟩ := h s hs
      rw [cidr_bits hcd] at hpf
      cases hpf
      obtain ⟨h1, h2⟩ := cidr_len hcd
      rw [hp] at hq
      exact ⟨f, x, hp, (prefix_iff h1 h2 hq).2 heq⟩
  refine ⟨_, _, compileCond_eq e1, matchCond_eq e2, ?_⟩
  simp only [Bool.and_eq_true]
  rw [optRe_iff hc.user, optRe_iff hc.auth, optRe_iff hc.cn, optRe_iff hc.url, hip, matchListener_iff hc.listener]
  constructor
  · rintro ⟨⟨⟨⟨⟨h1, h2⟩, h3⟩, h4⟩, h5⟩, h6⟩; exact ⟨h1, h2, h3, h4, h5, h6⟩
  · intro h; exact ⟨⟨⟨⟨⟨h.user, h.auth⟩, h.cn⟩, h.url⟩, h.ip⟩, h.listener⟩

theorem loadRules_cons {env : Env} {names : List (List Nat × Nat)} {r : RuleCfg} {rs : List RuleCfg} {l : List Rule}
    {k : Cond} (h1 : loadRules env names rs = .ok l) (h2 : compileCond env r.attrs = .ok k) :
    loadRules env names (r :: rs) = .ok (⟨isAllow r.type, r.skipto.bind fun n => names.lookup n, k⟩ :: l) := by
  rw [loadRules, h1]
  unfold loadRule
  rw [h2]
  rfl

theorem isAllow_iff (t : Option (List Nat)) : isAllow t = Allows t := by
  unfold isAllow Allows
  cases t with
  | none => rfl
  | some s =>
    simp only [Option.map_some]
    congr 1
    apply propext
    rw [Option.some_inj, Option.some_inj]
    constructor
    · intro h
      have hl := congrArg List.length h
      rw [List.length_take, show (bytesOf "allow").length = 5 by decide] at hl
      rwa [List.take_of_length_le (by omega)] at h
    · rintro rfl; decide

theorem evalRules_cons {env : Env} {q : Req} {d : Bool} {r : Rule} {l : List Rule} {m : Bool}
    (h : matchCond env r.cond q = .ok m) : evalRules env q d (r :: l) =
      if !m then evalRules env q d l else if r.skipto.isSome then .ub else .ok r.allow := by
  rw [evalRules, h]; rfl

theorem evalAcls_cons {env : Env} {q : Req} {a : Acl} {l : List Acl} {m : Bool}
    (h : matchCond env a.cond q = .ok m) : evalAcls env q (a :: l) =
      if m then evalRules env q a.allow a.rules else evalAcls env q l := by
  rw [evalAcls, h]; rfl

theorem loadAcls_cons {env : Env} {a : AclCfg} {as : List AclCfg} {l : List Acl} {names : List (List Nat × Nat)}
    {k : Cond} {rl : List Rule} (h1 : loadAcls env as = .ok (l, names)) (h2 : compileCond env a.attrs = .ok k)
    (h3 : loadRules env (addNames as.length a.rules names) a.rules = .ok rl) :
    loadAcls env (a :: as) = .ok (⟨false, k, rl⟩ :: l, addNames as.length a.rules names) := by
  rw [loadAcls, h1, Out.ok_bind]
  simp only
  rw [h2, Out.ok_bind, h3]
  rfl

/-- Evaluating understood rules. -/
theorem rules_spec (env : Env) (cfg : List AclCfg) (q : Req) (a : AclCfg) (hq : PeerOk q.peer)
    (names : List (List Nat × Nat)) : ∀ rs : List RuleCfg, (∀ r ∈ rs, Clear env q r.attrs ∧ r.skipto = none) →
    a.type ≠ some (bytesOf "allow") →
    ∃ l b, loadRules env names rs = .ok l ∧ evalRules env q false l = .ok b ∧ From env cfg q a rs b ∧
      ∀ b', From env cfg q a rs b' → b' = b
  | [], _, ha => by
    have e : Allows a.type = false := by simp [Allows, ha]
    refine ⟨[], false, rfl, rfl, ?_, ?_⟩
    · have := From.none (env := env) (cfg := cfg) (q := q) (a := a)
      rwa [e] at this
    · intro b' h; cases h; exact e
  | r :: rs, h, ha => by
    obtain ⟨l, b, e1, e2, e3, e4⟩ := rules_spec env cfg q a hq names rs (fun x hx => h x (by simp [hx])) ha
    obtain ⟨hc, hs⟩ := h r (by simp)
    obtain ⟨k, m, f1, f2, f3⟩ := cond_spec env q r.attrs hq hc
    refine ⟨_, if m then Allows r.type else b, loadRules_cons e1 f1, ?_, ?_, ?_⟩
    · rw [evalRules_cons f2]
      cases m
      · exact e2
      · simp [hs, isAllow_iff]
    · cases m
      · exact .miss (fun hh => by simpa using f3.2 hh) e3
      · exact .hit (f3.1 rfl) hs
    · intro b' h'
      cases h' with
      | miss h1 h2 =>
        have : m = false := by cases m; rfl; exact absurd (f3.1 rfl) h1
        rw [this]; exact e4 _ h2
      | hit h1 h2 => rw [f3.2 h1]; rfl
      | skip h1 h2 => rw [hs] at h2; cases h2

/-- `Decides` for the ACLs from some point on. -/
def DecidesFrom (env : Env) (cfg as : List AclCfg) (q : Req) (b : Bool) : Prop :=
  (∃ pre a post, as = pre ++ a :: post ∧ (∀ x ∈ pre, ¬ Holds env x.attrs q) ∧ Holds env a.attrs q ∧
    From env cfg q a a.rules b) ∨
  ((∀ x ∈ as, ¬ Holds env x.attrs q) ∧ b = false)

theorem decides_miss {env : Env} {cfg as : List AclCfg} {q : Req} {b : Bool} {a : AclCfg} (h : ¬ Holds env a.attrs q) :
    DecidesFrom env cfg (a :: as) q b ↔ DecidesFrom env cfg as q b := by
  constructor
  · rintro (⟨pre, x, post, e, h1, h2, h3⟩ | ⟨h1, h2⟩)
    · cases pre with
      | nil => cases e; exact absurd h2 h
      | cons y pre => cases e; exact .inl ⟨pre, x, post, rfl, fun z hz => h1 z (by simp [hz]), h2, h3⟩
    · exact .inr ⟨fun x hx => h1 x (by simp [hx]), h2⟩
  · rintro (⟨pre, x, post, e, h1, h2, h3⟩ | ⟨h1, h2⟩)
    · refine .inl ⟨a :: pre, x, post, by rw [e]; rfl, ?_, h2, h3⟩
      intro z hz
      rcases List.mem_cons.1 hz with rfl | hz
      · exact h
      · exact h1 z hz
    · refine .inr ⟨fun x hx => ?_, h2⟩
      rcases List.mem_cons.1 hx with rfl | hx
      · exact h
      · exact h1 x hx

theorem decides_hit {env : Env} {cfg as : List AclCfg} {q : Req} {b : Bool} {a : AclCfg} (h : Holds env a.attrs q) :
    DecidesFrom env cfg (a :: as) q b ↔ From env cfg q a a.rules b := by
  constructor
  · rintro (⟨pre, x, post, e, h1, h2, h3⟩ | ⟨h1, _⟩)
    · cases pre with
      | nil => cases e; exact h3
      | cons y pre => cases e; exact absurd h (h1 a (by simp))
    · exact absurd h (h1 a (by simp))
  · intro hf; exact .inl ⟨[], a, as, rfl, by simp, h, hf⟩

theorem acls_spec (env : Env) (cfg : List AclCfg) (q : Req) (hq : PeerOk q.peer) : ∀ as : List AclCfg,
    (∀ a ∈ as, Clear env q a.attrs ∧ a.type ≠ some (bytesOf "allow") ∧
      ∀ r ∈ a.rules, Clear env q r.attrs ∧ r.skipto = none) →
    ∃ l names b, loadAcls env as = .ok (l, names) ∧ evalAcls env q l = .ok b ∧ DecidesFrom env cfg as q b ∧
      ∀ b', DecidesFrom env cfg as q b' → b' = b
  | [], _ => by
    refine ⟨[], [], false, rfl, rfl, .inr ⟨by simp, rfl⟩, ?_⟩
    rintro b' (⟨pre, a, post, e, _⟩ | ⟨_, h⟩)
    · cases pre <;> cases e
    · exact h
  | a :: as, h => by
    obtain ⟨l, names, b, e1, e2, e3, e4⟩ := acls_spec env cfg q hq as fun x hx => h x (by simp [hx])
    obtain ⟨hc, ht, hr⟩ := h a (by simp)
    obtain ⟨k, m, f1, f2, f3⟩ := cond_spec env q a.attrs hq hc
    obtain ⟨rl, br, g1, g2, g3, g4⟩ := rules_spec env cfg q a hq (addNames as.length a.rules names) a.rules hr ht
    refine ⟨_, _, if m then br else b, loadAcls_cons e1 f1 g1, ?_, ?_, ?_⟩
    · rw [evalAcls_cons f2]; cases m
      · exact e2
      · exact g2
    · cases m
      · exact (decides_miss fun hh => by simpa using f3.2 hh).2 e3
      · exact (decides_hit (f3.1 rfl)).2 g3
    · intro b' hb
      cases m
      · exact e4 b' ((decides_miss fun hh => by simpa using f3.2 hh).1 hb)
      · exact g4 b' ((decides_hit (f3.1 rfl)).1 hb)

/-! ### C37 -/

/-- C37 (first match, deny by default): when the code understands the attributes, no rule has a
`skipto` and no ACL has the type `allow`, a request gets exactly the decision of the configuration.
Missing for the full claim: the excluded configurations, for each of which the claim is false
(`C37_skipto_violated`, `C37_skipto_earlier_violated`, `C37_acl_type_violated`,
`C37_bad_pattern_violated`, `C37_long_pattern_violated`, `C37_many_groups_violated`,
`C37_bad_network_violated`, `C37_other_family_violated`). -/
theorem C37_first_match_partial (env : Env) (cfg : List AclCfg) (q : Req) (hq : PeerOk q.peer)
    (h : ∀ a ∈ cfg, Clear env q a.attrs ∧ a.type ≠ some (bytesOf "allow") ∧
      ∀ r ∈ a.rules, Clear env q r.attrs ∧ r.skipto = none) :
    ∃ b, authorize env cfg q = .ok b ∧ Decides env cfg q b ∧ ∀ b', Decides env cfg q b' → b' = b := by
  obtain ⟨l, names, b, e1, e2, e3, e4⟩ := acls_spec env cfg q hq cfg h
  refine ⟨b, ?_, e3, e4⟩
  unfold authorize
  rw [e1]
  exact e2

/-! ### Nothing is allowed without a rule -/

/-- Every attribute that the code can read holds: expressions of at most 255 bytes that compile match,
for networks the leading bits agree (in whatever family the client's address is). -/
structure Loose (env : Env) (c : Attrs) (q : Req) : Prop where
  user : ∀ p, c.user = some p → p.length ≤ 255 → (env.compile p).isSome → Matches env p q.user
  auth : ∀ p, c.auth = some p → p.length ≤ 255 → (env.compile p).isSome → Matches env p q.auth
  cn : ∀ p, c.cn = some p → p.length ≤ 255 → (env.compile p).isSome → Matches env p q.cn
  url : ∀ p, c.url = some p → p.length ≤ 255 → (env.compile p).isSome → Matches env p q.url
  ip : ∀ s f a len, c.ip = some s → Cidr env s f a len →
    ∃ g b, q.peer = .inet g b ∧ Btrie.prefixOf f a len <+: Btrie.addrBits g.width b
  listener : ∀ k p, (k, p) ∈ c.listener → (env.compile p).isSome →
    ∃ s, q.config.lookup k = some s ∧ Matches env p s

theorem runRe_matches {env : Env} {p : List Nat} {m : List Nat → Option Nat} (hm : env.compile p = some m)
    {s : List Nat} (h : runRe m s = true) : Matches env p s := by
  unfold runRe at h
  cases hs : m s with
  | none => rw [hs] at h; cases h
  | some k => exact ⟨m, k, hm, hs⟩

theorem optRe_matches {env : Env} {c : Option (List Nat)} {s : List Nat} (h : optRe (compileRe env c) s = true) :
    ∀ p, c = some p → p.length ≤ 255 → (env.compile p).isSome → Matches env p s := by
  rintro p rfl hl hc
  obtain ⟨m, hm⟩ := Option.isSome_iff_exists.1 hc
  have : compileRe env (some p) = some m := by
    show env.compile (p.take 255) = some m
    rw [List.take_of_length_le hl, hm]
  rw [this] at h
  exact runRe_matches hm h

theorem cond_loose (env : Env) (q : Req) (c : Attrs) (hq : PeerOk q.peer) :
    ∃ k b, compileCond env c = .ok k ∧ matchCond env k q = .ok b ∧ (b = true → Loose env c q) := by
  obtain ⟨t, b, e1, e2, e3⟩ := matchIp env c.ip q.peer hq
  refine ⟨_, _, compileCond_eq e1, matchCond_eq e2, ?_⟩
  simp only [Bool.and_eq_true]
  rintro ⟨⟨⟨⟨⟨h1, h2⟩, h3⟩, h4⟩, h5⟩, h6⟩
  refine ⟨optRe_matches h1, optRe_matches h2, optRe_matches h3, optRe_matches h4, ?_, ?_⟩
  · intro s f a len hs hcd
    exact e3.1 h5 s _ hs (cidr_bits hcd)
  · intro k p hmem hc
    obtain ⟨m, hm⟩ := Option.isSome_iff_exists.1 hc
    unfold compileListener at h6
    rw [if_neg (by rintro e; rw [e] at hmem; cases hmem)] at h6
    simp only [matchListener, List.all_eq_true, List.mem_filterMap, Option.map_eq_some_iff] at h6
    have := h6 (k, m) ⟨(k, p), hmem, m, hm, rfl⟩
    simp only at this
    split at this
    · next s hs => exact ⟨s, hs, runRe_matches hm this⟩
    · cases this

theorem rules_loose (env : Env) (q : Req) (hq : PeerOk q.peer) (names : List (List Nat × Nat)) :
    ∀ rs : List RuleCfg, ∃ l, loadRules env names rs = .ok l ∧
      (evalRules env q false l = .ok true → ∃ r ∈ rs, r.type = some (bytesOf "allow") ∧ Loose env r.attrs q)
  | [] => ⟨[], rfl, by intro h; cases h⟩
  | r :: rs => by
    obtain ⟨l, e1, e2⟩ := rules_loose env q hq names rs
    obtain ⟨k, m, f1, f2, f3⟩ := cond_loose env q r.attrs hq
    refine ⟨_, loadRules_cons e1 f1, ?_⟩
    rw [evalRules_cons f2]
    intro h
    cases m with
    | false =>
      obtain ⟨x, hx, h1, h2⟩ := e2 h
      exact ⟨x, by simp [hx], h1, h2⟩
    | true =>
      refine ⟨r, by simp, ?_, f3 rfl⟩
      simp only [Bool.not_true, Bool.false_eq_true, if_false] at h
      split at h
      · cases h
      · have : isAllow r.type = true := Out.ok.inj h
        rw [isAllow_iff] at this
        simpa [Allows] using this

theorem acls_loose (env : Env) (q : Req) (hq : PeerOk q.peer) :
    ∀ as : List AclCfg, ∃ l names, loadAcls env as = .ok (l, names) ∧
      (evalAcls env q l = .ok true → ∃ a ∈ as, Loose env a.attrs q ∧
        ∃ r ∈ a.rules, r.type = some (bytesOf "allow") ∧ Loose env r.attrs q)
  | [] => ⟨[], [], rfl, by intro h; cases h⟩
  | a :: as => by
    obtain ⟨l, names, e1, e2⟩ := acls_loose env q hq as
    obtain ⟨k, m, f1, f2, f3⟩ := cond_loose env q a.attrs hq
    obtain ⟨rl, g1, g2⟩ := rules_loose env q hq (addNames as.length a.rules names) a.rules
    refine ⟨_, _, loadAcls_cons e1 f1 g1, ?_⟩
    rw [evalAcls_cons f2]
    intro h
    cases m with
    | false =>
      obtain ⟨x, hx, h1⟩ := e2 h
      exact ⟨x, by simp [hx], h1⟩
    | true => exact ⟨a, by simp, f3 rfl, g2 h⟩

/-- C37 (nothing is allowed without a rule): whatever the configuration, an allowed request has an ACL
and in it a rule of type `allow`, and all their attributes that the code can read hold. -/
theorem C37_allowed_needs_rule (env : Env) (cfg : List AclCfg) (q : Req) (hq : PeerOk q.peer)
    (h : authorize env cfg q = .ok true) :
    ∃ a ∈ cfg, Loose env a.attrs q ∧ ∃ r ∈ a.rules, r.type = some (bytesOf "allow") ∧ Loose env r.attrs q := by
  obtain ⟨l, names, e1, e2⟩ := acls_loose env q hq cfg
  unfold authorize at h
  rw [e1] at h
  exact e2 h

/-! ### Sample -/

/-- Expressions that are literals; one starting with a parenthesis does not compile, `%` matches
everything with ten groups. -/
def demoRe (p : List Nat) : Option (List Nat → Option Nat) :=
  if p.head? = some 40 then none
  else if p = [37] then some fun _ => some 11
  else some fun s => if s = p then some 1 else none

/-- Two known IPv4 addresses and one IPv6 address. -/
def demo : Env where
  compile := demoRe
  inet4 s := if s = bytesOf "10.0.0.0" then some 0x0a000000 else if s = bytesOf "127.0.0.1" then some 0x7f000001 else none
  inet6 s := if s = bytesOf "::1" then some 1 else none
  junk := [7, 7, 7]
  lt4 := by intro s a h; split at h; cases h; omega; split at h; cases h; omega; cases h
  lt6 := by intro s a h; split at h; cases h; omega; cases h
  disj := by
    intro s a h
    split at h
    · next e => rw [e]; decide
    · cases h
  short4 := by
    intro s a h
    split at h
    · next e => rw [e]; decide
    · split at h
      · next e => rw [e]; decide
      · cases h
  short6 := by
    intro s a h
    split at h
    · next e => rw [e]; decide
    · cases h

/-- The attribute value for allowing. -/
def allow : Option (List Nat) := some (bytesOf "allow")
/-- The attribute value for denying. -/
def deny : Option (List Nat) := some (bytesOf "deny")

/-- A request from an address. -/
def reqFrom (p : Peer) : Req :=
  ⟨bytesOf "bob", [], bytesOf "host1", bytesOf "/x", p, [(bytesOf "acl", bytesOf "internal")]⟩

/-- Local clients may do everything; on the internal listener `bob` may not, network 10 may. -/
def sample : List AclCfg :=
  [⟨none, { ip := some (bytesOf "127.0.0.1") }, [⟨allow, none, none, {}⟩]⟩,
   ⟨deny, { listener := [(bytesOf "acl", bytesOf "internal")] },
     [⟨deny, none, none, { user := some (bytesOf "bob"), cn := some (bytesOf "host2") }⟩,
      ⟨allow, none, none, { ip := some (bytesOf "10.0.0.0/8") }⟩]⟩]

example : authorize demo sample (reqFrom (.inet .v4 0x7f000001)) = .ok true ∧
    authorize demo sample (reqFrom (.inet .v4 0x0a010203)) = .ok true ∧
    authorize demo sample { reqFrom (.inet .v4 0x0a010203) with cn := bytesOf "host2" } = .ok false ∧
    authorize demo sample (reqFrom (.inet .v4 0x0b010203)) = .ok false ∧
    authorize demo sample (reqFrom .other) = .ok false := by decide +kernel

theorem demo_pat {p : List Nat} (h1 : p.head? ≠ some 40) (h2 : p ≠ [37]) : PatOk demo p := by
  refine ⟨fun s => if s = p then some 1 else none, ?_, ?_⟩
  · show demoRe p = _
    rw [demoRe, if_neg h1, if_neg h2]
  · intro s k h
    dsimp only at h
    split at h
    · cases h; omega
    · cases h

theorem demo_local : Cidr demo (bytesOf "127.0.0.1") .v4 0x7f000001 32 := .inl ⟨by decide, by decide +kernel, rfl⟩

theorem demo_ten : Cidr demo (bytesOf "10.0.0.0/8") .v4 0x0a000000 8 :=
  .inr ⟨bytesOf "10.0.0.0", [56], by decide, by decide, by decide +kernel, by decide, by decide, by decide, by decide, by decide⟩

/-- The sample and a request from network 10 meet the hypotheses of `C37_first_match_partial`. -/
example : PeerOk (reqFrom (.inet .v4 0x0a010203)).peer ∧
    ∀ a ∈ sample, Clear demo (reqFrom (.inet .v4 0x0a010203)) a.attrs ∧ a.type ≠ some (bytesOf "allow") ∧
      ∀ r ∈ a.rules, Clear demo (reqFrom (.inet .v4 0x0a010203)) r.attrs ∧ r.skipto = none := by
  have ip1 : ∀ s, some (bytesOf "127.0.0.1") = some s → ∃ f a len, Cidr demo s f a len ∧
      ∀ g b, (reqFrom (.inet .v4 0x0a010203)).peer = .inet g b → g ≠ f →
        ¬ Btrie.prefixOf f a len <+: Btrie.addrBits g.width b := by
    rintro s ⟨⟩; exact ⟨_, _, _, demo_local, by rintro g b ⟨⟩ h; exact absurd rfl h⟩
  have ip2 : ∀ s, some (bytesOf "10.0.0.0/8") = some s → ∃ f a len, Cidr demo s f a len ∧
      ∀ g b, (reqFrom (.inet .v4 0x0a010203)).peer = .inet g b → g ≠ f →
        ¬ Btrie.prefixOf f a len <+: Btrie.addrBits g.width b := by
    rintro s ⟨⟩; exact ⟨_, _, _, demo_ten, by rintro g b ⟨⟩ h; exact absurd rfl h⟩
  have no : ∀ p : List Nat, (none : Option (List Nat)) = some p → p.length ≤ 255 ∧ PatOk demo p := by rintro p ⟨⟩
  have ni : ∀ s, (none : Option (List Nat)) = some s → ∃ f a len, Cidr demo s f a len ∧
      ∀ g b, (reqFrom (.inet .v4 0x0a010203)).peer = .inet g b → g ≠ f →
        ¬ Btrie.prefixOf f a len <+: Btrie.addrBits g.width b := by rintro p ⟨⟩
  have nl : ∀ k p : List Nat, (k, p) ∈ ([] : List (List Nat × List Nat)) → PatOk demo p := by rintro k p ⟨⟩
  have pat : ∀ s : String, (bytesOf s).length ≤ 255 → (bytesOf s).head? ≠ some 40 → bytesOf s ≠ [37] →
      ∀ p, some (bytesOf s) = some p → p.length ≤ 255 ∧ PatOk demo p := by
    rintro s h1 h2 h3 p ⟨⟩; exact ⟨h1, demo_pat h2 h3⟩
  refine ⟨by show (0x0a010203 : Nat) < 2 ^ 32; omega, ?_⟩
  intro a ha
  simp only [sample, List.mem_cons, List.not_mem_nil, or_false] at ha
  rcases ha with rfl | rfl
  · refine ⟨⟨no, no, no, no, ip1, nl⟩, by decide, ?_⟩
    intro r hr
    simp only [List.mem_cons, List.not_mem_nil, or_false] at hr
    subst hr
    exact ⟨⟨no, no, no, no, ni, nl⟩, rfl⟩
  · refine ⟨⟨no, no, no, no, ni, ?_⟩, by decide, ?_⟩
    · intro k p hm
      simp only [List.mem_cons, List.not_mem_nil, or_false] at hm
      cases hm
      exact demo_pat (by decide) (by decide)
    · intro r hr
      simp only [List.mem_cons, List.not_mem_nil, or_false] at hr
      rcases hr with rfl | rfl
      · exact ⟨⟨pat "bob" (by decide) (by decide) (by decide), no,
          pat "host2" (by decide) (by decide) (by decide), no, ni, nl⟩, rfl⟩
      · exact ⟨⟨no, no, no, no, ip2, nl⟩, rfl⟩

/-! ### Where the claim is false -/

/-- An element without attributes applies to every request. -/
theorem holds_empty (env : Env) (q : Req) : Holds env {} q :=
  ⟨by rintro p ⟨⟩, by rintro p ⟨⟩, by rintro p ⟨⟩, by rintro p ⟨⟩, by rintro p ⟨⟩, by rintro k p ⟨⟩⟩

theorem decides_first {env : Env} {a : AclCfg} {as : List AclCfg} {q : Req} {b : Bool} (ha : Holds env a.attrs q)
    (h : From env (a :: as) q a a.rules b) : Decides env (a :: as) q b := .inl ⟨[], a, as, rfl, by simp, ha, h⟩

/-- C37 fails: an ACL of type `allow` without rules should allow, the code denies: the default read
in line 1497 is overwritten in line 1509. -/
theorem C37_acl_type_violated (env : Env) (q : Req) :
    Decides env [⟨allow, {}, []⟩] q true ∧ authorize env [⟨allow, {}, []⟩] q = .ok false :=
  ⟨decides_first (holds_empty env q) .none, rfl⟩

/-- C37 fails: for every request, following a `skipto` is undefined behaviour: the table of names has
ACLs, not rules. -/
theorem C37_skipto_violated (env : Env) (q : Req) :
    let cfg : List AclCfg := [⟨deny, {}, [⟨allow, none, some (bytesOf "last"), {}⟩]⟩,
      ⟨deny, {}, [⟨deny, some (bytesOf "last"), none, {}⟩]⟩]
    Decides env cfg q false ∧ authorize env cfg q = .ub := by
  refine ⟨decides_first (holds_empty env q) ?_, rfl⟩
  exact .skip (n := bytesOf "last") (holds_empty env q) rfl (List.mem_cons_of_mem _ (List.mem_singleton.2 rfl)) (before := []) rfl rfl
    (.hit (holds_empty env q) rfl)

/-- C37 fails: a `skipto` to a rule of an earlier ACL is ignored, and the rule's own type applies;
here the target denies and the code allows. -/
theorem C37_skipto_earlier_violated :
    let cfg : List AclCfg := [⟨deny, { cn := some (bytesOf "nobody") }, [⟨deny, some (bytesOf "first"), none, {}⟩]⟩,
      ⟨deny, {}, [⟨allow, none, some (bytesOf "first"), {}⟩]⟩]
    Decides demo cfg (reqFrom .other) false ∧ authorize demo cfg (reqFrom .other) = .ok true := by
  refine ⟨.inl ⟨[_], _, [], rfl, ?_, holds_empty demo _, ?_⟩, by decide +kernel⟩
  · intro x hx hh
    rw [List.mem_singleton] at hx
    subst hx
    obtain ⟨m, k, e1, e2⟩ := hh.cn _ rfl
    have : demoRe (bytesOf "nobody") = some m := e1
    rw [demoRe, if_neg (by decide), if_neg (by decide)] at this
    cases this
    have e3 : (if (reqFrom .other).cn = bytesOf "nobody" then some 1 else none) = some k := e2
    rw [if_neg (by decide)] at e3
    cases e3
  · exact .skip (n := bytesOf "first") (holds_empty demo _) rfl (List.mem_cons_self ..) (before := []) rfl rfl
      (.hit (holds_empty demo _) rfl)

/-- C37 fails: an `allow` rule whose expression does not compile allows every request, although no
text matches such an expression. -/
theorem C37_bad_pattern_violated (env : Env) (p : List Nat) (hp : p.length ≤ 255) (hc : env.compile p = none) (q : Req) :
    let cfg : List AclCfg := [⟨deny, {}, [⟨allow, none, none, { user := some p }⟩]⟩]
    Decides env cfg q false ∧ authorize env cfg q = .ok true := by
  refine ⟨decides_first (holds_empty env q) (.miss ?_ .none), ?_⟩
  · intro h
    obtain ⟨m, k, e, _⟩ := h.user p rfl
    rw [hc] at e; cases e
  · have hr : compileRe env (some p) = none := by
      show env.compile (p.take 255) = none
      rw [List.take_of_length_le hp, hc]
    have e1 : compileCond env { user := some p } = .ok ⟨none, none, none, none, .nil, none⟩ := by
      rw [compileCond_eq (t := .nil) rfl]
      simp only [hr]; rfl
    have e2 := loadRules_cons (r := ⟨allow, none, none, { user := some p }⟩) (names := []) (rs := []) (l := []) rfl e1
    unfold authorize
    rw [loadAcls_cons (l := []) (names := []) (k := ⟨none, none, none, none, .nil, none⟩) rfl rfl e2]
    rfl

example : demo.compile (bytesOf "(admin") = none := by decide +kernel

/-- A name of 300 characters. -/
def longName : List Nat := List.replicate 300 120

/-- C37 fails: expressions are cut after 255 bytes; the rule for a long name applies to the shorter
name. -/
theorem C37_long_pattern_violated :
    let cfg : List AclCfg := [⟨deny, {}, [⟨allow, none, none, { user := some longName }⟩]⟩]
    let q : Req := { reqFrom .other with user := longName.take 255 }
    Decides demo cfg q false ∧ authorize demo cfg q = .ok true := by
  refine ⟨decides_first (holds_empty demo _) (.miss ?_ .none), by decide +kernel⟩
  intro h
  obtain ⟨m, k, e1, e2⟩ := h.user _ rfl
  have : demoRe longName = some m := e1
  rw [demoRe, if_neg (by decide), if_neg (by decide)] at this
  cases this
  simp only at e2
  rw [if_neg (by decide +kernel)] at e2
  cases e2

/-- C37 fails: a `deny` rule whose expression matches with ten or more groups is passed over. -/
theorem C37_many_groups_violated :
    let cfg : List AclCfg := [⟨deny, {}, [⟨deny, none, none, { url := some [37] }⟩, ⟨allow, none, none, {}⟩]⟩]
    Decides demo cfg (reqFrom .other) false ∧ authorize demo cfg (reqFrom .other) = .ok true := by
  refine ⟨decides_first (holds_empty demo _) (.hit ?_ rfl), by decide +kernel⟩
  refine ⟨by rintro p ⟨⟩, by rintro p ⟨⟩, by rintro p ⟨⟩, ?_, by rintro p ⟨⟩, by rintro k p ⟨⟩⟩
  rintro p ⟨⟩
  exact ⟨fun _ => some 11, 11, (by show demoRe [37] = _; rw [demoRe, if_neg (by decide), if_pos rfl]), rfl⟩

/-- An `ip` attribute that is no network: nobody is in it. -/
theorem not_inNet_of {env : Env} {s : List Nat} {p : Peer} (h : ∀ f a len, ¬ Cidr env s f a len) : ¬ InNet env s p := by
  rintro ⟨f, a, len, b, h1, _⟩; exact h f a len h1

/-- C37 fails: with an `ip` attribute whose address is not understood, an `allow` rule allows every
client; with one whose length is not a number (`10.0.0.0/x`), it allows every client as well (the
length is taken to be 0). -/
theorem C37_bad_network_violated :
    (let cfg : List AclCfg := [⟨deny, {}, [⟨allow, none, none, { ip := some (bytesOf "localhost") }⟩]⟩]
     Decides demo cfg (reqFrom (.inet .v4 0x08080808)) false ∧
     authorize demo cfg (reqFrom (.inet .v4 0x08080808)) = .ok true) ∧
    (let cfg : List AclCfg := [⟨deny, {}, [⟨allow, none, none, { ip := some (bytesOf "10.0.0.0/x") }⟩]⟩]
     Decides demo cfg (reqFrom (.inet .v4 0x08080808)) false ∧
     authorize demo cfg (reqFrom (.inet .v4 0x08080808)) = .ok true) := by
  refine ⟨⟨decides_first (holds_empty demo _) (.miss ?_ .none), (by decide +kernel)⟩,
    ⟨decides_first (holds_empty demo _) (.miss ?_ .none), by decide +kernel⟩⟩
  · intro h
    refine not_inNet_of ?_ (h.ip _ rfl)
    rintro f a len (⟨_, h2, _⟩ | ⟨ip, ds, h1, _⟩)
    · revert h2
      cases f
      · show demo.inet4 (bytesOf "localhost") ≠ some a
        rw [show demo.inet4 (bytesOf "localhost") = none by decide +kernel]; simp
      · show demo.inet6 (bytesOf "localhost") ≠ some a
        rw [show demo.inet6 (bytesOf "localhost") = none by decide +kernel]; simp
    · have : 47 ∈ bytesOf "localhost" := by rw [h1]; simp
      exact absurd this (by decide)
  · intro h
    refine not_inNet_of ?_ (h.ip _ rfl)
    rintro f a len (⟨h1, _⟩ | ⟨ip, ds, h1, h2, _, _, _, h6, _⟩)
    · exact absurd (show 47 ∈ bytesOf "10.0.0.0/x" by decide) h1
    · have e := (takeWhile_ne h2 ds).2
      rw [← h1, show (bytesOf "10.0.0.0/x").dropWhile (fun x => decide (x ≠ 47)) = [47, 120] by decide] at e
      have hd : ds = [120] := by cases e; rfl
      have := h6 120 (by rw [hd]; simp)
      omega

/-- C37 fails: both families are kept in one tree without a mark; a rule for the IPv4 network
`10.0.0.0/8` applies to clients with IPv6 addresses starting with the byte 10. -/
theorem C37_other_family_violated (b : Nat) (hb : b < 2 ^ 128) (h10 : b / 2 ^ 120 = 10) :
    let cfg : List AclCfg := [⟨deny, {}, [⟨allow, none, none, { ip := some (bytesOf "10.0.0.0/8") }⟩]⟩]
    Decides demo cfg (reqFrom (.inet .v6 b)) false ∧ authorize demo cfg (reqFrom (.inet .v6 b)) = .ok true := by
  constructor
  · refine decides_first (holds_empty demo _) (.miss ?_ .none)
    intro h
    obtain ⟨f, a, len, x, h1, h2, _⟩ := h.ip _ rfl
    have := cidr_fam h1 demo_ten
    subst this
    cases h2
  · obtain ⟨t, m, e1, e2, e3⟩ := matchIp demo (some (bytesOf "10.0.0.0/8")) (.inet .v6 b) hb
    have hm : m = true := by
      rw [e3]
      intro s pf h1 h2
      cases h1
      rw [cidr_bits demo_ten] at h2
      cases h2
      refine ⟨.v6, b, rfl, ?_⟩
      have h3 : Btrie.prefixOf .v4 0x0a000000 8 = (Btrie.addrBits 128 (10 * 2 ^ 120)).take 8 := by decide +kernel
      rw [h3]
      exact (prefix_iff (W := 128) (by omega) (by omega) hb).2 (by omega)
    subst hm
    have f1 := compileCond_eq (env := demo) (c := { ip := some (bytesOf "10.0.0.0/8") }) e1
    have f2 := loadRules_cons (r := ⟨allow, none, none, { ip := some (bytesOf "10.0.0.0/8") }⟩) (names := []) (rs := [])
      (l := []) rfl f1
    unfold authorize
    rw [loadAcls_cons (l := []) (names := []) (k := ⟨none, none, none, none, .nil, none⟩) rfl rfl f2]
    show evalRules demo _ false _ = _
    rw [evalRules_cons (m := true)]
    · rfl
    · exact matchCond_eq (b := true) e2

example : (10 * 2 ^ 120 + 5 : Nat) < 2 ^ 128 ∧ (10 * 2 ^ 120 + 5 : Nat) / 2 ^ 120 = 10 := by decide

end Mtev.RestAcl
