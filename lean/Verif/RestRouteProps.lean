import Verif.RestRoute

/-!
Property C63: dispatch of REST requests.

The specification works on the list of registration calls: the longest registered base the path starts
with selects the endpoints, the first registered one of them with the right method and a matching
expression serves the request, provided its authorizer accepts the request.
-/

namespace Mtev.RestRoute

/-! ### Specification -/

/-- What a registration promises.  `handler` serves requests, `wsHandler` serves websocket messages,
`auth` must accept. `unguarded` marks websocket endpoints registered with an authorizer (not used by
the specification). -/
structure Endpoint where
  base : List Nat
  method : List Nat
  proto : Option (List Nat)
  expr : Expr
  handler : Option Nat
  wsHandler : Option Nat
  auth : Option (Req → Bool)
  unguarded : Bool := false

/-- The endpoints of a registration; the base must end in a slash and the expression must be valid.
A websocket endpoint with an authorizer also answers plain `GET` requests, with nothing to run. -/
def endpoints : Reg → List Endpoint
  | .http m b (some e) h a => if b.getLast? = some 47 then [⟨b, m, none, e, some h, none, a, false⟩] else []
  | .ws b (some e) p h => if b.getLast? = some 47 then [⟨b, bytesOf "WS", p, e, none, some h, none, false⟩] else []
  | .wsAuth b (some e) p h a => if b.getLast? = some 47 then
      [⟨b, bytesOf "WS", p, e, none, some h, some a, true⟩, ⟨b, bytesOf "GET", none, e, none, none, some a, false⟩] else []
  | _ => []

/-- All endpoints in the order of registration. -/
def allEndpoints (l : List Reg) : List Endpoint := l.flatMap endpoints

/-- The base is the longest registered one the path starts with. -/
def Base (eps : List Endpoint) (uri b : List Nat) : Prop :=
  (∃ e ∈ eps, e.base = b) ∧ b <+: uri ∧ ∀ e ∈ eps, e.base <+: uri → e.base.length ≤ b.length

/-- The endpoint fits the request, with these groups. -/
def Fits (q : Req) (b : List Nat) (e : Endpoint) (caps : List (Option (Nat × Nat))) : Prop :=
  e.base = b ∧ (if q.ws then e.method = bytesOf "WS" ∧ (∀ x y, e.proto = some x → q.proto = some y → x = y)
    else e.method = q.method) ∧ e.expr (q.uri.drop b.length) = some caps

/-- The first fitting endpoint. -/
def Picks (eps : List Endpoint) (q : Req) (b : List Nat) (e : Endpoint) (caps : List (Option (Nat × Nat))) : Prop :=
  Base eps q.uri b ∧ ∃ pre post, eps = pre ++ e :: post ∧ Fits q b e caps ∧ ∀ x ∈ pre, ∀ c, ¬ Fits q b x c

/-- The text of the groups: characters `i` to `j` of the path behind the base. -/
def texts (q : Req) (b : List Nat) (caps : List (Option (Nat × Nat))) : List (List Nat) :=
  caps.map fun c => match c with
    | some (i, j) => ((q.uri.drop b.length).drop i).take (j - i)
    | none => []

/-- The endpoint's authorizer accepts. -/
def Accepts (e : Endpoint) (q : Req) : Prop := ∀ a, e.auth = some a → a q = true

/-- What should happen with a request. -/
inductive Expected (eps : List Endpoint) (q : Req) : Outcome → Prop
  | run {b e caps h} : Picks eps q b e caps → Accepts e q → e.handler = some h → Expected eps q (.run h (texts q b caps))
  | denied {b e caps} : Picks eps q b e caps → ¬ Accepts e q → Expected eps q .denied
  | empty {b e caps} : Picks eps q b e caps → Accepts e q → e.handler = none → Expected eps q .notFound
  | notFound : (∀ b e caps, ¬ Picks eps q b e caps) → Expected eps q .notFound

/-! ### The table and the endpoints -/

/-- The rule made for an endpoint. -/
def toRule (e : Endpoint) : Rule :=
  ⟨e.method, e.proto, e.expr, e.handler, e.wsHandler, if e.unguarded then none else e.auth⟩

theorem lookup_append (base : List Nat) (r : Rule) (t : Table) (b : List Nat) :
    (append base r t).lookup b = if b = base then some ((t.lookup base).getD [] ++ [r]) else t.lookup b := by
  induction t with
  | nil =>
    simp only [append, List.lookup_cons, List.lookup_nil]
    by_cases h : b = base
    · simp [h]
    · simp [h, beq_eq_false_iff_ne.2 h]
  | cons p t ih =>
    obtain ⟨k, l⟩ := p
    simp only [append]
    by_cases hk : k = base
    · subst hk
      by_cases h : b = k
      · subst h; simp
      · simp [List.lookup_cons, h, beq_eq_false_iff_ne.2 h]
    · rw [if_neg hk, List.lookup_cons, ih]
      by_cases h : b = base
      · subst h
        have : (b == k) = false := beq_eq_false_iff_ne.2 fun e => hk e.symm
        simp [this, List.lookup_cons]
      · simp [h, List.lookup_cons]

/-- The rules of the endpoints with a base. -/
def rulesOf (eps : List Endpoint) (b : List Nat) : List Rule := (eps.filter fun e => e.base = b).map toRule

/-- The table represents the endpoints. -/
def Rep (t : Table) (eps : List Endpoint) : Prop :=
  (∀ b, t.lookup b = if (eps.any fun e => e.base = b) then some (rulesOf eps b) else none) ∧
  ∀ e ∈ eps, e.base.getLast? = some 47 ∧ (e.unguarded = true → e.method = bytesOf "WS")

theorem rep_append {t : Table} {eps : List Endpoint} (h : Rep t eps) (e : Endpoint) (hl : e.base.getLast? = some 47)
    (hu : e.unguarded = true → e.method = bytesOf "WS") : Rep (append e.base (toRule e) t) (eps ++ [e]) := by
  constructor
  · intro b
    rw [lookup_append, h.1 b, h.1 e.base]
    by_cases hb : b = e.base
    · subst hb
      have hr : rulesOf (eps ++ [e]) e.base = rulesOf eps e.base ++ [toRule e] := by
        unfold rulesOf; rw [List.filter_append, List.map_append]; simp
      have ha : (eps ++ [e]).any (fun x => decide (x.base = e.base)) = true := by simp
      rw [if_pos rfl, ha, if_pos rfl, hr]
      by_cases hx : (eps.any fun x => decide (x.base = e.base)) = true
      · rw [if_pos hx]; rfl
      · rw [if_neg hx]
        have : rulesOf eps e.base = [] := by
          unfold rulesOf
          rw [List.filter_eq_nil_iff.2 (by simpa using hx)]; rfl
        rw [this]; rfl
    · rw [if_neg hb]
      have e1 : (eps ++ [e]).any (fun x => decide (x.base = b)) = eps.any fun x => decide (x.base = b) := by
        rw [List.any_append]
        simp only [List.any_cons, List.any_nil, Bool.or_false]
        have : decide (e.base = b) = false := by simpa using fun he => hb he.symm
        rw [this, Bool.or_false]
      have e2 : rulesOf (eps ++ [e]) b = rulesOf eps b := by
        unfold rulesOf
        rw [List.filter_append]
        have : ([e] : List Endpoint).filter (fun x => decide (x.base = b)) = [] := by
          rw [List.filter_eq_nil_iff]; simpa using fun he => hb he.symm
        rw [this, List.append_nil]
      rw [e1, e2]
  · intro x hx
    rcases List.mem_append.1 hx with hx | hx
    · exact h.2 x hx
    · rw [List.mem_singleton.1 hx]; exact ⟨hl, hu⟩

theorem getLast_ne_nil {b : List Nat} (h : b.getLast? = some 47) : ¬ (b = [] ∨ b.getLast? ≠ some 47) := by
  rintro (rfl | h')
  · cases h
  · exact h' h

theorem rep_register {t : Table} {eps : List Endpoint} (h : Rep t eps) (r : Reg) :
    Rep (register t r) (eps ++ endpoints r) := by
  cases r with
  | http m b e hd a =>
    cases e with
    | none => simp only [register, newRule, endpoints, List.append_nil]; split <;> exact h
    | some e =>
      simp only [register, newRule, endpoints]
      by_cases hl : b.getLast? = some 47
      · rw [if_neg (getLast_ne_nil hl), if_pos hl]
        exact rep_append h ⟨b, m, none, e, some hd, none, a, false⟩ hl (by intro h; cases h)
      · rw [if_pos (.inr hl), if_neg hl, List.append_nil]; exact h
  | ws b e p hd =>
    cases e with
    | none => simp only [register, newRule, endpoints, List.append_nil]; split <;> exact h
    | some e =>
      simp only [register, newRule, endpoints]
      by_cases hl : b.getLast? = some 47
      · rw [if_neg (getLast_ne_nil hl), if_pos hl]
        exact rep_append h ⟨b, bytesOf "WS", p, e, none, some hd, none, false⟩ hl (by intro h; cases h)
      · rw [if_pos (.inr hl), if_neg hl, List.append_nil]; exact h
  | wsAuth b e p hd a =>
    cases e with
    | none =>
      simp only [register, newRule, endpoints, List.append_nil]
      by_cases hl : b = [] ∨ b.getLast? ≠ some 47
      · simp only [if_pos hl]; exact h
      · simp only [if_neg hl]; exact h
    | some e =>
      simp only [register, newRule, endpoints]
      by_cases hl : b.getLast? = some 47
      · simp only [if_neg (getLast_ne_nil hl), if_pos hl, if_true]
        have h1 := rep_append h ⟨b, bytesOf "WS", p, e, none, some hd, some a, true⟩ hl (fun _ => rfl)
        have h2 := rep_append h1 ⟨b, bytesOf "GET", none, e, none, none, some a, false⟩ hl (by intro h; cases h)
        rw [List.append_assoc] at h2
        exact h2
      · have hn : b = [] ∨ b.getLast? ≠ some 47 := .inr hl
        simp only [if_pos hn, if_neg hl, List.append_nil]
        exact h

theorem rep_foldl (l : List Reg) : ∀ (t : Table) (eps : List Endpoint), Rep t eps →
    Rep (l.foldl register t) (eps ++ allEndpoints l) := by
  induction l with
  | nil => intro t eps h; simpa [allEndpoints] using h
  | cons r l ih =>
    intro t eps h
    have := ih _ _ (rep_register h r)
    rw [List.append_assoc] at this
    exact this

theorem rep_all (l : List Reg) : Rep (registerAll l) (allEndpoints l) := by
  have := rep_foldl l [] [] ⟨by intro b; rfl, by simp⟩
  rwa [List.nil_append] at this

/-! ### The search for the base -/

theorem findBase_spec {t : Table} {eps : List Endpoint} (h : Rep t eps) (uri : List Nat) : ∀ n, n ≤ uri.length →
    (∀ e ∈ eps, e.base <+: uri → e.base.length ≤ n) →
    match findBase t uri n with
    | some (l, k) => ∃ b, Base eps uri b ∧ b.length = k ∧ l = rulesOf eps b
    | none => ∀ e ∈ eps, ¬ e.base <+: uri
  | 0, _, hle => by
    rw [findBase]
    intro e he hp
    have h0 := hle e he hp
    have : e.base = [] := List.length_eq_zero_iff.1 (by omega)
    have := (h.2 e he).1
    simp_all
  | n + 1, hn, hle => by
    rw [findBase]
    have step : (t.lookup (uri.take (n + 1)) = none ∨ uri[n]? ≠ some 47) → ∀ e ∈ eps, e.base <+: uri → e.base.length ≤ n := by
      intro hcase e he hp
      have h1 := hle e he hp
      by_contra hgt
      have hlen : e.base.length = n + 1 := by omega
      have hb : e.base = uri.take (n + 1) := by rw [List.prefix_iff_eq_take.1 hp, hlen]
      rcases hcase with hc | hc
      · rw [h.1, if_pos (by simp only [List.any_eq_true, decide_eq_true_eq]; exact ⟨e, he, hb⟩)] at hc
        cases hc
      · apply hc
        have := (h.2 e he).1
        rw [hb, List.getLast?_eq_getElem?, List.length_take, Nat.min_eq_left hn] at this
        simpa using this
    by_cases hs : uri[n]? = some 47
    · rw [if_pos hs]
      cases hl : t.lookup (uri.take (n + 1)) with
      | none => exact findBase_spec h uri n (by omega) (step (.inl hl))
      | some l =>
        simp only
        rw [h.1] at hl
        split at hl
        · next hany =>
          cases hl
          simp only [List.any_eq_true, decide_eq_true_eq] at hany
          refine ⟨uri.take (n + 1), ⟨hany, List.take_prefix _ _, ?_⟩, by rw [List.length_take]; omega, rfl⟩
          intro e he hp
          rw [List.length_take, Nat.min_eq_left hn]
          exact hle e he hp
        · cases hl
    · rw [if_neg hs]
      exact findBase_spec h uri n (by omega) (step (.inr hs))

theorem base_unique {eps : List Endpoint} {uri b c : List Nat} (h : Base eps uri b) (k : Base eps uri c) : b = c := by
  obtain ⟨⟨e, he, hb⟩, h2, h3⟩ := h
  obtain ⟨⟨f, hf, hc⟩, k2, k3⟩ := k
  have l1 := h3 f hf (hc ▸ k2)
  have l2 := k3 e he (hb ▸ h2)
  rw [hb] at l2; rw [hc] at l1
  rw [List.prefix_iff_eq_take.1 h2, List.prefix_iff_eq_take.1 k2, show b.length = c.length by omega]

/-- Expressions with at most nine groups. -/
def Small (eps : List Endpoint) : Prop := ∀ e ∈ eps, ∀ s caps, e.expr s = some caps → caps.length ≤ 9

theorem methodOk_iff (q : Req) (e : Endpoint) : methodOk q (toRule e) = true ↔
    (if q.ws then e.method = bytesOf "WS" ∧ (∀ x y, e.proto = some x → q.proto = some y → x = y)
    else e.method = q.method) := by
  unfold methodOk toRule
  split
  · rw [Bool.and_eq_true, show (decide (e.method = wsMethod) = true) = (e.method = bytesOf "WS") from decide_eq_true_eq]
    refine and_congr_right fun _ => ?_
    cases e.proto <;> cases q.proto <;> simp
  · simp

theorem runExpr_small {e : Expr} (h : ∀ s caps, e s = some caps → caps.length ≤ 9) (s : List Nat) : runExpr e s = e s := by
  unfold runExpr
  cases hs : e s with
  | none => rfl
  | some caps => simp [h s caps hs]

theorem findRule_spec (q : Req) (b : List Nat) : ∀ eps : List Endpoint, Small eps →
    match findRule q (q.uri.drop b.length) (rulesOf eps b) with
    | some (r, ps) => ∃ e caps pre post, eps = pre ++ e :: post ∧ Fits q b e caps ∧ (∀ x ∈ pre, ∀ c, ¬ Fits q b x c) ∧
        r = toRule e ∧ ps = texts q b caps
    | none => ∀ e ∈ eps, ∀ c, ¬ Fits q b e c
  | [], _ => by simp [rulesOf, findRule]
  | e :: eps, hs => by
    have ih := findRule_spec q b eps fun x hx => hs x (by simp [hx])
    have skip : (∀ c, ¬ Fits q b e c) → (match findRule q (q.uri.drop b.length) (rulesOf eps b) with
        | some (r, ps) => ∃ f caps pre post, e :: eps = pre ++ f :: post ∧ Fits q b f caps ∧
            (∀ x ∈ pre, ∀ c, ¬ Fits q b x c) ∧ r = toRule f ∧ ps = texts q b caps
        | none => ∀ f ∈ e :: eps, ∀ c, ¬ Fits q b f c) := by
      intro hno
      split at ih
      · obtain ⟨f, caps, pre, post, h1, h2, h3, h4, h5⟩ := ih
        refine ⟨f, caps, e :: pre, post, by rw [h1]; rfl, h2, ?_, h4, h5⟩
        intro x hx c
        rcases List.mem_cons.1 hx with rfl | hx
        · exact hno c
        · exact h3 x hx c
      · intro f hf c
        rcases List.mem_cons.1 hf with rfl | hf
        · exact hno c
        · exact ih f hf c
    by_cases hb : e.base = b
    · have e1 : rulesOf (e :: eps) b = toRule e :: rulesOf eps b := by
        unfold rulesOf; rw [List.filter_cons, if_pos (by simpa using hb)]; rfl
      rw [e1, findRule]
      by_cases hm : methodOk q (toRule e) = true
      · rw [if_pos hm]
        have hre : runExpr (toRule e).expr (q.uri.drop b.length) = e.expr (q.uri.drop b.length) :=
          runExpr_small (hs e (by simp)) _
        rw [hre]
        cases hx : e.expr (q.uri.drop b.length) with
        | some caps =>
          refine ⟨e, caps, [], eps, rfl, ⟨hb, (methodOk_iff q e).1 hm, hx⟩, by simp, rfl, ?_⟩
          unfold texts
          apply List.map_congr_left
          intro c _
          cases c <;> rfl
        | none =>
          exact skip fun c hc => (by have := hc.2.2; rw [hx] at this; cases this)
      · rw [if_neg hm]
        exact skip fun c hc => hm ((methodOk_iff q e).2 hc.2.1)
    · have e1 : rulesOf (e :: eps) b = rulesOf eps b := by
        unfold rulesOf; rw [List.filter_cons, if_neg (by simpa using hb)]
      rw [e1]
      exact skip fun c hc => hb hc.1

theorem route_spec {t : Table} {eps : List Endpoint} (h : Rep t eps) (hs : Small eps) (q : Req) :
    match route t q with
    | some (r, ps) => ∃ b e caps, Picks eps q b e caps ∧ r = toRule e ∧ ps = texts q b caps
    | none => ∀ b e caps, ¬ Picks eps q b e caps := by
  have hb := findBase_spec h q.uri q.uri.length (Nat.le_refl _) fun e _ hp => List.IsPrefix.length_le hp
  unfold route
  cases hf : findBase t q.uri q.uri.length with
  | none =>
    rw [hf] at hb
    simp only at hb ⊢
    rintro b e caps ⟨⟨⟨x, hx, hxb⟩, hp, _⟩, _⟩
    exact hb x hx (hxb ▸ hp)
  | some p =>
    obtain ⟨l, k⟩ := p
    rw [hf] at hb
    simp only at hb ⊢
    obtain ⟨b, h1, h2, h3⟩ := hb
    subst h2 h3
    have hr := findRule_spec q b eps hs
    cases he : findRule q (q.uri.drop b.length) (rulesOf eps b) with
    | some p =>
      obtain ⟨r, ps⟩ := p
      rw [he] at hr
      simp only at hr ⊢
      obtain ⟨e, caps, pre, post, g1, g2, g3, g4, g5⟩ := hr
      exact ⟨b, e, caps, ⟨h1, pre, post, g1, g2, g3⟩, g4, g5⟩
    | none =>
      rw [he] at hr
      simp only at hr ⊢
      rintro c e caps ⟨k1, pre, post, k2, k3, _⟩
      have := base_unique h1 k1
      subst this
      exact hr e (by rw [k2]; simp) caps k3

/-! ### C63 -/

/-- C63 (dispatch): after any registrations, a plain request is served by the first registered
endpoint of the longest base with its method and a matching expression, with the texts of the groups;
it is refused when the authorizer of that endpoint does, and not found when there is no such endpoint.
Missing for the full claim: expressions with ten or more groups (`C63_many_groups_violated`), and
requests on websockets (`C63_websocket_partial`). -/
theorem C63_dispatch_partial (l : List Reg) (hs : Small (allEndpoints l)) (q : Req) (hws : q.ws = false)
    (hm : q.method ≠ bytesOf "OPTIONS") (hm' : q.method ≠ bytesOf "WS") :
    Expected (allEndpoints l) q (fresh (registerAll l) q) := by
  have hrep := rep_all l
  have hr := route_spec hrep hs q
  unfold fresh
  rw [if_neg (show ¬ q.method = optionsMethod from hm)]
  cases he : route (registerAll l) q with
  | none =>
    rw [he] at hr
    exact .notFound hr
  | some p =>
    obtain ⟨r, ps⟩ := p
    rw [he] at hr
    simp only at hr ⊢
    obtain ⟨b, e, caps, h1, rfl, rfl⟩ := hr
    have hmem : e ∈ allEndpoints l := by obtain ⟨_, pre, post, k, _⟩ := h1; rw [k]; simp
    have hu : e.unguarded = false := by
      cases h : e.unguarded with
      | false => rfl
      | true =>
        obtain ⟨_, _, _, _, hf, _⟩ := id h1
        have := hf.2.1
        rw [hws] at this
        simp only [Bool.false_eq_true, if_false] at this
        exact absurd (this.symm.trans ((hrep.2 e hmem).2 h)) hm'
    have ha : (toRule e).auth = e.auth := by simp [toRule, hu]
    have hh : (toRule e).handler = e.handler := rfl
    rw [ha, hh]
    cases hea : e.auth with
    | none =>
      have hacc : Accepts e q := by intro a h; rw [hea] at h; cases h
      simp only [Bool.false_eq_true, if_false]
      cases heh : e.handler with
      | none => exact .empty h1 hacc heh
      | some h => exact .run h1 hacc heh
    | some a =>
      by_cases hq : a q = true
      · have hacc : Accepts e q := by intro a' h; rw [hea] at h; cases h; exact hq
        simp only [hq, Bool.not_true, Bool.false_eq_true, if_false]
        cases heh : e.handler with
        | none => exact .empty h1 hacc heh
        | some h => exact .run h1 hacc heh
      · have hq' : a q = false := by simpa using hq
        simp only [hq', Bool.not_false, if_true]
        exact .denied h1 fun hacc => hq (hacc a hea)

/-- What is expected is determined. -/
theorem C63_expected_unique {eps : List Endpoint} {q : Req} {o o' : Outcome} (h : Expected eps q o)
    (h' : Expected eps q o') : o = o' := by
  have key : ∀ {b e caps b' e' caps'}, Picks eps q b e caps → Picks eps q b' e' caps' →
      b = b' ∧ e = e' ∧ caps = caps' := by
    rintro b e caps b' e' caps' ⟨h1, pre, post, h2, h3, h4⟩ ⟨k1, pre', post', k2, k3, k4⟩
    have := base_unique h1 k1
    subst this
    have hlen : pre.length = pre'.length := by
      rcases Nat.lt_trichotomy pre.length pre'.length with hlt | heq | hgt
      · exfalso
        have : e ∈ pre' := by
          have e1 : eps[pre.length]? = some e := by rw [h2]; simp
          rw [k2, List.getElem?_append_left hlt] at e1
          exact List.mem_of_getElem? e1
        exact k4 e this caps h3
      · exact heq
      · exfalso
        have : e' ∈ pre := by
          have e1 : eps[pre'.length]? = some e' := by rw [k2]; simp
          rw [h2, List.getElem?_append_left hgt] at e1
          exact List.mem_of_getElem? e1
        exact h4 e' this caps' k3
    have he : e = e' := by
      have e1 : eps[pre.length]? = some e := by rw [h2]; simp
      have e2 : eps[pre'.length]? = some e' := by rw [k2]; simp
      rw [hlen, e2] at e1
      cases e1; rfl
    subst he
    refine ⟨rfl, rfl, ?_⟩
    have := h3.2.2
    rw [k3.2.2] at this
    cases this; rfl
  cases h with
  | run h1 h2 h3 => cases h' with
    | run k1 k2 k3 => obtain ⟨rfl, rfl, rfl⟩ := key h1 k1; rw [h3] at k3; cases k3; rfl
    | denied k1 k2 => obtain ⟨rfl, rfl, rfl⟩ := key h1 k1; exact absurd h2 k2
    | empty k1 k2 k3 => obtain ⟨rfl, rfl, rfl⟩ := key h1 k1; rw [h3] at k3; cases k3
    | notFound k => exact absurd h1 (k _ _ _)
  | denied h1 h2 => cases h' with
    | run k1 k2 k3 => obtain ⟨rfl, rfl, rfl⟩ := key h1 k1; exact absurd k2 h2
    | denied k1 k2 => rfl
    | empty k1 k2 k3 => obtain ⟨rfl, rfl, rfl⟩ := key h1 k1; exact absurd k2 h2
    | notFound k => exact absurd h1 (k _ _ _)
  | empty h1 h2 h3 => cases h' with
    | run k1 k2 k3 => obtain ⟨rfl, rfl, rfl⟩ := key h1 k1; rw [h3] at k3; cases k3
    | denied k1 k2 => obtain ⟨rfl, rfl, rfl⟩ := key h1 k1; exact absurd h2 k2
    | empty k1 k2 k3 => rfl
    | notFound k => rfl
  | notFound h => cases h' with
    | run k1 k2 k3 => exact absurd k1 (h _ _ _)
    | denied k1 k2 => exact absurd k1 (h _ _ _)
    | empty k1 k2 k3 => rfl
    | notFound k => rfl

/-- C63 (one connection): when every handler ends its response before it returns, each request of a
series on one connection gets what it would get alone.  Missing: handlers that end it later, see
`C63_stale_handler_violated`. -/
theorem C63_requests_independent_partial (t : Table) (inside : Nat → Bool) (hin : ∀ h, inside h = true) (qs : List Req) :
    serveAll t inside none qs = qs.map (fresh t) := by
  induction qs with
  | nil => rfl
  | cons q qs ih =>
    have : serve t inside none q = (none, fresh t q) := by
      unfold serve
      simp only
      split
      · next h ps e => rw [hin, if_pos rfl]
      · rfl
    rw [serveAll, this, List.map_cons, ← ih]

/-- C63 fails for handlers that end their response after returning: the next request on the
connection, whatever its path and whoever sends it, goes to the same handler without being routed or
authorized. -/
theorem C63_stale_handler_violated (t : Table) (inside : Nat → Bool) (q q' : Req) (h : Nat) (ps : List (List Nat))
    (hr : fresh t q = .run h ps) (hi : inside h = false) :
    serveAll t inside none [q, q'] = [.run h ps, .run h ps] := by
  simp [serveAll, serve, hr, hi]

/-- The endpoints of a base whose expression matches the rest of the path, whatever their method. -/
def atPath (eps : List Endpoint) (uri b : List Nat) : List Endpoint :=
  eps.filter fun e => e.base = b && (e.expr (uri.drop b.length)).isSome

theorem allowed_rules (uri b : List Nat) : ∀ eps : List Endpoint, Small eps →
    ((rulesOf eps b).filter fun r => (runExpr r.expr (uri.drop b.length)).isSome).map (·.method) =
      (atPath eps uri b).map (·.method)
  | [], _ => rfl
  | e :: eps, hs => by
    have ih := allowed_rules uri b eps fun x hx => hs x (by simp [hx])
    unfold rulesOf atPath at ih ⊢
    have hre : runExpr (toRule e).expr (uri.drop b.length) = e.expr (uri.drop b.length) :=
      runExpr_small (hs e (by simp)) _
    by_cases hb : e.base = b
    · rw [List.filter_cons, if_pos (by simpa using hb), List.map_cons, List.filter_cons, List.filter_cons, hre]
      by_cases hx : (e.expr (uri.drop b.length)).isSome = true
      · rw [if_pos hx, if_pos (by simp [hb, hx]), List.map_cons, List.map_cons, ih]; rfl
      · rw [if_neg hx, if_neg (by simp [hx]), ih]
    · rw [List.filter_cons, if_neg (by simpa using hb), List.filter_cons, if_neg (by simp [hb]), ih]

/-- C63 (`OPTIONS`): the answer lists `OPTIONS` and the methods of all endpoints of the longest base
whose expression matches, in the order of registration; without any the request is not found.
Missing for the full claim: expressions with ten or more groups. -/
theorem C63_options_partial (l : List Reg) (hs : Small (allEndpoints l)) (q : Req) (hm : q.method = bytesOf "OPTIONS") :
    (∀ b, Base (allEndpoints l) q.uri b → fresh (registerAll l) q =
      if atPath (allEndpoints l) q.uri b = [] then .notFound
      else .methods (bytesOf "OPTIONS" :: (atPath (allEndpoints l) q.uri b).map (·.method))) ∧
    ((∀ b, ¬ Base (allEndpoints l) q.uri b) → fresh (registerAll l) q = .notFound) := by
  have hb := findBase_spec (rep_all l) q.uri q.uri.length (Nat.le_refl _) fun e _ hp => List.IsPrefix.length_le hp
  unfold fresh
  rw [if_pos (show q.method = optionsMethod from hm)]
  unfold allowed
  cases hf : findBase (registerAll l) q.uri q.uri.length with
  | none =>
    rw [hf] at hb
    simp only at hb ⊢
    refine ⟨?_, fun _ => trivial⟩
    rintro b ⟨⟨x, hx, hxb⟩, hp, _⟩
    exact absurd (hxb ▸ hp) (hb x hx)
  | some p =>
    obtain ⟨rs, k⟩ := p
    rw [hf] at hb
    simp only at hb ⊢
    obtain ⟨b, h1, h2, h3⟩ := hb
    subst h2 h3
    rw [allowed_rules q.uri b _ hs]
    refine ⟨?_, fun h => absurd h1 (h b)⟩
    intro c hc
    have := base_unique h1 hc
    subst this
    by_cases he : atPath (allEndpoints l) q.uri b = []
    · simp [he]
    · have he' : (atPath (allEndpoints l) q.uri b).map (·.method) ≠ [] := by simpa using he
      rw [if_neg he', if_neg he]; rfl

/-- Two methods of one path, and another base. -/
example : fresh (registerAll [.http (bytesOf "GET") (bytesOf "/a/") (some fun _ => some []) 1 none,
    .http (bytesOf "PUT") (bytesOf "/a/") (some fun _ => some []) 2 none,
    .http (bytesOf "POST") (bytesOf "/") (some fun _ => some []) 3 none]) { method := bytesOf "OPTIONS", uri := bytesOf "/a/x" } =
    .methods [bytesOf "OPTIONS", bytesOf "GET", bytesOf "PUT"] := by decide +kernel

/-- C63 (websockets): when the endpoint picked was registered without an authorizer, every message on
the connection goes to its handler.  Missing: endpoints with authorizer, for which the claim is false
(`C63_websocket_auth_violated`, `C63_websocket_memo_violated`). -/
theorem C63_websocket_partial (l : List Reg) (hs : Small (allEndpoints l)) (q : Req) (n : Nat) :
    (∀ b e caps h, Picks (allEndpoints l) q b e caps → e.auth = none → e.wsHandler = some h →
      messages (registerAll l) q none n = List.replicate n (.run h)) ∧
    ((∀ b e caps, ¬ Picks (allEndpoints l) q b e caps) →
      messages (registerAll l) q none n = List.replicate n .refused) := by
  have hr := route_spec (rep_all l) hs q
  have memo : ∀ h n, messages (registerAll l) q (some h) n = List.replicate n (.run h) := by
    intro h n
    induction n with
    | zero => rfl
    | succ n ih => rw [messages]; simp only [message]; rw [ih]; rfl
  constructor
  · intro b e caps h hp ha hh
    cases he : route (registerAll l) q with
    | none => rw [he] at hr; exact absurd hp (hr b e caps)
    | some p =>
      obtain ⟨r, ps⟩ := p
      rw [he] at hr
      simp only at hr
      obtain ⟨b', e', caps', h1, rfl, rfl⟩ := hr
      have hee : e' = e := by
        -- two fitting first endpoints are the same
        obtain ⟨k1, pre, post, h2, h3, h4⟩ := hp
        obtain ⟨k1', pre', post', k2, k3, k4⟩ := h1
        have hbb := base_unique k1 k1'
        subst hbb
        have hlen : pre.length = pre'.length := by
          rcases Nat.lt_trichotomy pre.length pre'.length with hlt | heq | hgt
          · exfalso
            have : e ∈ pre' := by
              have e1 : (allEndpoints l)[pre.length]? = some e := by rw [h2]; simp
              rw [k2, List.getElem?_append_left hlt] at e1
              exact List.mem_of_getElem? e1
            exact k4 e this caps h3
          · exact heq
          · exfalso
            have : e' ∈ pre := by
              have e1 : (allEndpoints l)[pre'.length]? = some e' := by rw [k2]; simp
              rw [h2, List.getElem?_append_left hgt] at e1
              exact List.mem_of_getElem? e1
            exact h4 e' this caps' k3
        have e1 : (allEndpoints l)[pre.length]? = some e := by rw [h2]; simp
        have e2 : (allEndpoints l)[pre'.length]? = some e' := by rw [k2]; simp
        rw [hlen, e2] at e1
        cases e1; rfl
      subst hee
      cases n with
      | zero => rfl
      | succ n =>
        have hra : (toRule e').auth = none := by simp [toRule, ha]
        have hrh : (toRule e').wsHandler = some h := hh
        have hm : message (registerAll l) none q = (some h, .run h) := by
          unfold message
          simp only [he, hra, hrh, Bool.false_eq_true, if_false]
        rw [messages, hm, List.replicate_succ, ← memo h n]
  · intro hno
    cases he : route (registerAll l) q with
    | some p =>
      obtain ⟨r, ps⟩ := p
      rw [he] at hr
      simp only at hr
      obtain ⟨b', e', caps', h1, _⟩ := hr
      exact absurd h1 (hno _ _ _)
    | none =>
      have hm : message (registerAll l) none q = (none, .refused) := by
        unfold message; simp only [he]
      induction n with
      | zero => rfl
      | succ n ih => rw [messages, hm, List.replicate_succ, ← ih]

/-- An expression matching everything, capturing the whole. -/
def anyExpr : Expr := fun s => some [some (0, s.length)]

/-- C63 fails: a websocket endpoint registered with an authorizer that accepts nobody serves every
message of everybody. -/
theorem C63_websocket_auth_violated (h who n : Nat) :
    messages (registerAll [.wsAuth (bytesOf "/ws/") (some anyExpr) none h fun _ => false])
      ⟨bytesOf "GET", bytesOf "/ws/chat", none, true, who⟩ none n = List.replicate n (.run h) := by
  have hm : ∀ m, m = none ∨ m = some h →
      message (registerAll [.wsAuth (bytesOf "/ws/") (some anyExpr) none h fun _ => false]) m
        ⟨bytesOf "GET", bytesOf "/ws/chat", none, true, who⟩ = (some h, .run h) := by
    rintro m (rfl | rfl) <;> rfl
  have : ∀ m, m = none ∨ m = some h → messages (registerAll [.wsAuth (bytesOf "/ws/") (some anyExpr) none h fun _ => false])
      ⟨bytesOf "GET", bytesOf "/ws/chat", none, true, who⟩ m n = List.replicate n (.run h) := by
    induction n with
    | zero => intro m _; rfl
    | succ n ih => intro m hmm; rw [messages, hm m hmm]; simp only; rw [ih _ (.inr rfl)]; rfl
  exact this none (.inl rfl)

/-- C63 fails: when the authorizer of a websocket rule (registered with the general call) refuses the
first message, later messages that arrived with it are served. -/
theorem C63_websocket_memo_violated (t : Table) (q : Req) (r : Rule) (ps : List (List Nat)) (a : Req → Bool) (h n : Nat)
    (hr : route t q = some (r, ps)) (ha : r.auth = some a) (hd : a q = false) (hh : r.wsHandler = some h) :
    messages t q none (n + 1) = .refused :: List.replicate n (.run h) := by
  have hm : message t none q = (some h, .refused) := by
    unfold message; simp [hr, ha, hd, hh]
  have memo : ∀ n, messages t q (some h) n = List.replicate n (.run h) := by
    intro n
    induction n with
    | zero => rfl
    | succ n ih => rw [messages]; simp only [message]; rw [ih]; rfl
  rw [messages, hm]
  simp only
  rw [memo]

/-- An expression with ten groups. -/
def tenGroups : Expr := fun _ => some (List.replicate 10 (some (0, 0)))

/-- C63 fails: an endpoint whose expression has ten groups that take part is never found. -/
theorem C63_many_groups_violated (h : Nat) :
    let l := [Reg.http (bytesOf "GET") (bytesOf "/") (some tenGroups) h none]
    let q : Req := { method := bytesOf "GET", uri := bytesOf "/x" }
    Expected (allEndpoints l) q (.run h (List.replicate 10 [])) ∧ fresh (registerAll l) q = .notFound := by
  refine ⟨?_, rfl⟩
  have hp : Picks (allEndpoints [Reg.http (bytesOf "GET") (bytesOf "/") (some tenGroups) h none])
      { method := bytesOf "GET", uri := bytesOf "/x" } (bytesOf "/")
      ⟨bytesOf "/", bytesOf "GET", none, tenGroups, some h, none, none, false⟩ (List.replicate 10 (some (0, 0))) := by
    refine ⟨⟨⟨_, List.mem_singleton.2 rfl, rfl⟩, by decide, ?_⟩, [], [], rfl, ⟨rfl, rfl, rfl⟩, by simp⟩
    intro e he _
    rw [List.mem_singleton.1 he]
  exact .run hp (by intro a ha; cases ha) rfl

/-! ### Sample -/

/-- The rest of the path is exactly a text; no groups. -/
def litExpr (s : String) : Expr := fun r => if r = bytesOf s then some [] else none

/-- Two bases, one inside the other, an endpoint only user 7 may use. -/
def sampleRegs : List Reg :=
  [.http (bytesOf "GET") (bytesOf "/") (some anyExpr) 1 none,
   .http (bytesOf "GET") (bytesOf "/admin/") (some (litExpr "stop")) 2 (some fun q => q.who = 7),
   .http (bytesOf "PUT") (bytesOf "/admin/") (some anyExpr) 3 none,
   .http (bytesOf "GET") (bytesOf "nobase") (some anyExpr) 4 none]

example : fresh (registerAll sampleRegs) { method := bytesOf "GET", uri := bytesOf "/a/b" } = .run 1 [bytesOf "a/b"] ∧
    fresh (registerAll sampleRegs) { method := bytesOf "GET", uri := bytesOf "/admin/stop" } = .denied ∧
    fresh (registerAll sampleRegs) { method := bytesOf "GET", uri := bytesOf "/admin/stop", who := 7 } = .run 2 [] ∧
    fresh (registerAll sampleRegs) { method := bytesOf "GET", uri := bytesOf "/admin/x" } = .notFound ∧
    fresh (registerAll sampleRegs) { method := bytesOf "PUT", uri := bytesOf "/admin/x" } = .run 3 [bytesOf "x"] := by
  decide +kernel

example : Small (allEndpoints sampleRegs) := by
  intro e he s caps h
  have hcases : e.expr = anyExpr ∨ e.expr = litExpr "stop" := by
    simp [allEndpoints, sampleRegs, endpoints, bytesOf] at he
    rcases he with rfl | rfl | rfl <;> simp
  rcases hcases with hc | hc
  · rw [hc] at h; cases h; simp
  · rw [hc] at h
    unfold litExpr at h
    split at h
    · cases h; decide
    · cases h

end Mtev.RestRoute
