import Verif.Consul
import Mathlib.Data.List.Nodup

/-!
C157: a watch of keys in consul tells its witness what is there.
C158: services are registered, deregistered and their health is pushed.
C159: settings taken from consul.
-/

namespace Mtev.Consul

/-! ### C157 -/

/-- An honest fetch, of a store whose contents are known by index: the
answer is what the store had at the index of its header. -/
def Honest (store : Nat → List (Str × Str)) : Fetch → Prop
  | .good (some v) items => items = store v ∧ v < 2 ^ 32
  | .good none _ => False
  | _ => True

/-- A timeout that comes before the header, as when nothing changes. -/
def Early : Fetch → Prop
  | .timeout (some _) => False
  | _ => True

/-- Several fetches end. -/
def fetches : Watch → List (Fetch × Nat) → Watch
  | w, [] => w
  | w, (f, now) :: r => fetches (reader w f now).1 r

/-- Up to date: asking for changes since the index it has, the witness
has been told all before. -/
def Current (store : Nat → List (Str × Str)) (w : Watch) : Prop :=
  w.index = 0 ∨ w.seen = some (store w.index)

theorem reader_index (w : Watch) (f : Fetch) (now : Nat) :
    (reader w f now).1.index = (match f with
      | .good h _ => headerIndex w.index h
      | .timeout h => headerIndex w.index h
      | _ => 0) ∧
    (reader w f now).1.seen = (match f with
      | .good _ items => some items
      | _ => w.seen) := by
  unfold reader
  cases hd : w.done <;> cases f <;> exact ⟨rfl, rfl⟩

theorem reader_current (store : Nat → List (Str × Str)) (w : Watch) (f : Fetch) (now : Nat)
    (hw : Current store w) (hh : Honest store f) (he : Early f) : Current store (reader w f now).1 := by
  obtain ⟨h1, h2⟩ := reader_index w f now
  unfold Current
  rw [h1, h2]
  cases f with
  | good h items =>
    cases h with
    | none => exact hh.elim
    | some v =>
      right
      show some items = some (store (v % 2 ^ 32))
      rw [Nat.mod_eq_of_lt hh.2, hh.1]
  | junk h => exact .inl rfl
  | fail h => exact .inl rfl
  | timeout h =>
    cases h with
    | none => exact hw
    | some v => exact he.elim

/-- **C157 (partial).** Through every history of fetches whose timeouts
come before the header, and indexes below 2³², a watch asks for changes
since an index only when its witness was told all up to it.  Missing:
timeouts after the header (`C157_timeout_violated`) and larger
indexes (`C157_big_violated`). -/
theorem C157_current_partial (store : Nat → List (Str × Str)) (t0 : Nat) (fs : List (Fetch × Nat))
    (hh : ∀ p ∈ fs, Honest store p.1) (he : ∀ p ∈ fs, Early p.1) : Current store (fetches (attach t0) fs) := by
  have : ∀ (w : Watch), Current store w → Current store (fetches w fs) := by
    induction fs with
    | nil => intro w h; exact h
    | cons p r ih =>
      intro w h
      obtain ⟨f, now⟩ := p
      exact ih (fun q hq => hh q (List.mem_cons_of_mem _ hq)) (fun q hq => he q (List.mem_cons_of_mem _ hq)) _
        (reader_current store w f now h (hh _ List.mem_cons_self) (he _ List.mem_cons_self))
  exact this _ (.inl rfl)

/-- A store that gets a key at index 5 and another at 8. -/
def exStore (v : Nat) : List (Str × Str) :=
  if v < 8 then [(bytesOf "a", [1])] else [(bytesOf "a", [1]), (bytesOf "b", [2])]

example : (fetches (attach 0) [(.good (some 5) (exStore 5), 100), (.timeout none, 9000000), (.good (some 8) (exStore 8), 12000000)]).index = 8 ∧
    (fetches (attach 0) [(.good (some 5) (exStore 5), 100), (.timeout none, 9000000), (.good (some 8) (exStore 8), 12000000)]).seen = some (exStore 8) ∧
    (fetches (attach 0) [(.good (some 5) (exStore 5), 100), (.fail none, 9000000)]).index = 0 := by decide

/-- **C157.** What a fetch brings is told, all of it and nothing else, and
only by a good fetch. -/
theorem C157_told (w : Watch) (f : Fetch) (now : Nat) (items : List (Str × Str)) :
    (reader w f now).2.1 = some items ↔ ∃ h, f = .good h items := by
  unfold reader
  cases hd : w.done <;> cases f <;> simp

/-- **C157 is false of the code:** a timeout after the header loses the
change: the index is taken over, the witness knows nothing of it, and
is told only at the next change. -/
theorem C157_timeout_violated : ∃ fs : List (Fetch × Nat), (∀ p ∈ fs, Honest exStore p.1) ∧
    ¬ Current exStore (fetches (attach 0) fs) ∧ (fetches (attach 0) fs).index = 8 := by
  refine ⟨[(.good (some 5) (exStore 5), 100), (.timeout (some 8), 9000000)], ?_, ?_, by decide⟩
  · intro p hp
    simp only [List.mem_cons, List.not_mem_nil, or_false] at hp
    rcases hp with rfl | rfl
    · exact ⟨rfl, by decide⟩
    · trivial
  · unfold Current
    decide

/-- **C157 is false of the code:** an index that needs more than 32 bits
is cut: the next fetch asks for changes since long ago, so it does not
wait. -/
theorem C157_big_violated (w : Watch) (v now : Nat) (items : List (Str × Str)) (hv : 2 ^ 32 ≤ v) :
    (reader w (.good (some v) items) now).1.index < v := by
  have h : (reader w (.good (some v) items) now).1.index = v % 2 ^ 32 := by
    unfold reader
    cases w.done <;> rfl
  rw [h]
  exact Nat.lt_of_lt_of_le (Nat.mod_lt _ (by decide)) hv

/-- **C157.** Fetches begin two seconds apart at least, and not before the
last one has ended. -/
theorem C157_spacing (w w' : Watch) (f : Fetch) (now next : Nat) (told : Option (List (Str × Str))) (hn : w.last ≤ now)
    (h : reader w f now = (w', told, some next)) : w.last + 2000000 ≤ next ∧ now ≤ next ∧ w'.last = next := by
  unfold reader at h
  cases hd : w.done
  · simp only [hd, Bool.false_eq_true, if_false] at h
    obtain ⟨h1, h2⟩ := Prod.mk.inj h
    have h3 := (Prod.mk.inj h2).2
    simp only [Option.some.injEq] at h3
    refine ⟨?_, ?_, by rw [← h1, ← h3]⟩
    · rw [← h3]
      split_ifs <;> omega
    · rw [← h3]
      split_ifs <;> omega
  · simp only [hd, if_true] at h
    have := (Prod.mk.inj (Prod.mk.inj h).2).2
    cases this

example : (reader (attach 1000) (.timeout none) 500000).2.2 = some 2001000 ∧
    (reader (attach 1000) (.timeout none) 5000000).2.2 = some 5000000 := by decide

/-- **C157 (partial).** After it is detached a watch ends with the fetch
that is under way.  Missing: it is still told of (`C157_detach_violated`). -/
theorem C157_detach_partial (w : Watch) (f : Fetch) (now : Nat) :
    (reader (detach w) f now).2.2 = none ∧ (reader (detach w) f now).1.freed = true := ⟨rfl, rfl⟩

/-- **C157 is false of the code:** the witness is called after it was
detached. -/
theorem C157_detach_violated (w : Watch) (h : Option Nat) (items : List (Str × Str)) (now : Nat) :
    (reader (detach w) (.good h items) now).2.1 = some items := rfl

/-! ### C158 -/

/-- **C158.** When consul accepts, a service is in the state that is
wanted; when it does not, and when there is nothing to do, nothing
changes. -/
theorem C158_state (s s' : Svc) (ok : Bool) (hd : s.desired ≠ .uninit) (h : complete s ok = .ok s') :
    s'.state = (if ok then s.desired else s.state) ∧ s'.desired = s.desired ∧
    (ok = false ∨ s.desired = s.state → s' = s) := by
  unfold complete at h
  by_cases he : s.desired = s.state
  · rw [if_pos he] at h
    cases h
    refine ⟨?_, rfl, fun _ => rfl⟩
    cases ok
    · rfl
    · exact he.symm
  · rw [if_neg he] at h
    cases hs : s.desired with
    | uninit => exact absurd hs hd
    | registered =>
      rw [hs] at h
      cases ok
      · cases h; exact ⟨rfl, hs, fun _ => rfl⟩
      · cases h
        refine ⟨rfl, rfl, ?_⟩
        rintro (h | h)
        · cases h
        · exact absurd (hs.trans h) he
    | deregistered =>
      rw [hs] at h
      cases ok
      · cases h; exact ⟨rfl, hs, fun _ => rfl⟩
      · cases h
        refine ⟨rfl, rfl, ?_⟩
        rintro (h | h)
        · cases h
        · exact absurd (hs.trans h) he

/-- What happens to a service that is registered once: jobs and timers. -/
inductive Ev where
  | job (ok : Bool)
  | fire (i : Nat)
  | set (i : Int) (c : Code)

/-- One of them. -/
def evt (s : Svc) : Ev → Out Svc
  | .job ok => complete s ok
  | .fire i => .ok (tick s i).1
  | .set i c => .ok (setCode s i c)

/-- Several. -/
def evts : Svc → List Ev → Out Svc
  | s, [] => .ok s
  | s, e :: r => match evt s e with
    | .ok s' => evts s' r
    | .ub => .ub
    | .abort => .abort

/-- Registered at most once: before it no timers, then one for each
check that has a period. -/
def Once (s : Svc) : Prop :=
  s.desired = .registered ∧ ((s.state = .uninit ∧ s.pushes = []) ∨ (s.state = .registered ∧ s.pushes = pushed s))

theorem evt_once (s s' : Svc) (e : Ev) (h : Once s) (he : evt s e = .ok s') : Once s' ∧ pushed s' = pushed s := by
  obtain ⟨hd, hs⟩ := h
  cases e with
  | job ok =>
    simp only [evt] at he
    unfold complete at he
    rcases hs with ⟨hu, hp⟩ | ⟨hr, hp⟩
    · rw [if_neg (by rw [hd, hu]; decide), hd] at he
      cases ok
      · cases he; exact ⟨⟨hd, .inl ⟨hu, hp⟩⟩, rfl⟩
      · cases he
        refine ⟨⟨rfl, .inr ⟨rfl, ?_⟩⟩, rfl⟩
        show s.pushes ++ pushed s = pushed s
        rw [hp]; rfl
    · rw [if_pos (by rw [hd, hr])] at he
      cases he
      exact ⟨⟨hd, .inr ⟨hr, hp⟩⟩, rfl⟩
  | fire i =>
    simp only [evt, Out.ok.injEq] at he
    have : (tick s i).1 = s := by
      unfold tick
      have hnd : s.state ≠ .deregistered := by
        rcases hs with ⟨hu, _⟩ | ⟨hr, _⟩
        · rw [hu]; decide
        · rw [hr]; decide
      rw [if_neg hnd]
      split_ifs <;> rfl
    rw [← he, this]
    exact ⟨⟨hd, hs⟩, rfl⟩
  | set i c =>
    simp only [evt, Out.ok.injEq] at he
    subst he
    unfold setCode
    by_cases h : i < 0 ∨ i ≥ 5
    · rw [if_pos h]; exact ⟨⟨hd, hs⟩, rfl⟩
    · rw [if_neg h]
      exact ⟨⟨hd, hs⟩, rfl⟩

/-- **C158 (partial).** A service that is registered once, and stays so,
has one timer at most for each of its checks, and exactly one for each
with a period when it is registered.  Missing: registering it again
(`C158_pushes_violated`). -/
theorem C158_push_partial (period : List Nat) (code : Code) (es : List Ev) (s : Svc)
    (h : evts (fresh period code) es = .ok s) (i : Nat) :
    s.pushes.count i ≤ 1 ∧ (s.state = .registered → i < 5 → period.getD i 0 ≠ 0 → s.pushes.count i = 1) ∧
    (i ∈ s.pushes → i < 5 ∧ period.getD i 0 ≠ 0) := by
  have key : ∀ (es : List Ev) (s0 : Svc), Once s0 → evts s0 es = .ok s → Once s ∧ pushed s = pushed s0 := by
    intro es
    induction es with
    | nil => intro s0 h0 h; cases h; exact ⟨h0, rfl⟩
    | cons e r ih =>
      intro s0 h0 h
      unfold evts at h
      cases he : evt s0 e with
      | ok s1 =>
        rw [he] at h
        obtain ⟨o1, p1⟩ := evt_once s0 s1 e h0 he
        obtain ⟨o2, p2⟩ := ih s1 o1 h
        exact ⟨o2, p2.trans p1⟩
      | ub => rw [he] at h; cases h
      | abort => rw [he] at h; cases h
  obtain ⟨⟨_, hs⟩, hp⟩ := key es _ ⟨rfl, .inl ⟨rfl, rfl⟩⟩ h
  have hpf : pushed (fresh period code) = (List.range 5).filter (fun i => decide (period.getD i 0 ≠ 0)) := rfl
  have hnd : (pushed s).Nodup := by
    rw [hp, hpf]
    exact (List.nodup_range).filter _
  have hmem : ∀ j, j ∈ pushed s ↔ j < 5 ∧ period.getD j 0 ≠ 0 := by
    intro j
    rw [hp, hpf, List.mem_filter, List.mem_range, decide_eq_true_eq]
  rcases hs with ⟨hu, he⟩ | ⟨_, he⟩
  · rw [he]
    refine ⟨by simp, ?_, by simp⟩
    intro hr
    rw [hu] at hr
    cases hr
  · rw [he]
    refine ⟨List.nodup_iff_count_le_one.1 hnd i, ?_, (hmem i).1⟩
    intro _ h5 h0
    exact List.count_eq_one_of_mem hnd ((hmem i).2 ⟨h5, h0⟩)

example : evts (fresh [3, 0, 7] .passing) [.job false, .job true, .fire 0, .set 0 .warning] =
    .ok ⟨0, .registered, .registered, [3, 0, 7], [.warning, .passing, .passing, .passing, .passing], [0, 2], false⟩ := by
  decide

/-- **C158 is false of the code:** registering a service again, as by
calling `mtev_consul_register` once more, starts its timers once more:
its health is pushed twice as often. -/
theorem C158_pushes_violated (n : Nat) (hn : n ≠ 0) :
    ∃ s1 s2, complete (fresh [n] .passing) true = .ok s1 ∧ complete (again s1) true = .ok s2 ∧
      s1.pushes.count 0 = 1 ∧ s2.pushes.count 0 = 2 := by
  have hp : pushed (fresh [n] .passing) = [0] := by
    have : pushed (fresh [n] .passing) = (List.range 5).filter (fun i => decide (([n] : List Nat).getD i 0 ≠ 0)) := rfl
    rw [this]
    simp [List.range_succ, List.filter_cons, hn]
  refine ⟨{ fresh [n] .passing with state := .registered, pushes := [] ++ pushed (fresh [n] .passing) },
    { fresh [n] .passing with state := .registered, pushes := ([] ++ pushed (fresh [n] .passing)) ++ pushed (fresh [n] .passing) },
    rfl, rfl, ?_, ?_⟩
  · rw [hp]; rfl
  · rw [hp]; rfl

/-- **C158.** A deregistered service's timers send nothing and end as they
fire. -/
theorem C158_stops (s : Svc) (i : Nat) (hd : s.state = .deregistered) :
    (tick s i).2 = none ∧ (tick s i).1.pushes = s.pushes.erase i := by
  unfold tick
  by_cases h : i ∈ s.pushes
  · rw [if_pos h, if_pos hd]; exact ⟨rfl, rfl⟩
  · rw [if_neg h]; exact ⟨rfl, (List.erase_of_not_mem h).symm⟩

/-- **C158.** The health that is set is the health that is pushed, and the
one that consul is told when it asks; other checks keep theirs. -/
theorem C158_health (s : Svc) (i : Nat) (c : Code) (hi : i < 5) (hl : s.codes.length = 5)
    (hr : s.state = .registered) (hp : i ∈ s.pushes) :
    (tick (setCode s i c) i).2 = some c ∧ health (some (setCode s i c)) (some ((i : Int) + 1)) = c ∧
    ∀ j : Nat, j ≠ i → health (some (setCode s i c)) (some ((j : Int) + 1)) = health (some s) (some ((j : Int) + 1)) := by
  have hc : setCode s i c = { s with codes := s.codes.set i c } := by
    unfold setCode
    rw [if_neg (by omega)]
    rfl
  rw [hc]
  refine ⟨?_, ?_, ?_⟩
  · unfold tick
    simp only
    rw [if_pos hp, if_neg (by rw [hr]; decide)]
    exact List.getElem?_set_self (by omega)
  · unfold health
    simp only
    rw [if_pos (by omega)]
    have : ((i : Int) + 1 - 1).toNat = i := by omega
    rw [this, List.getElem?_set_self (by omega)]
    rfl
  · intro j hj
    unfold health
    simp only
    have : ((j : Int) + 1 - 1).toNat = j := by omega
    rw [this, List.getElem?_set_ne (Ne.symm hj)]

example : (tick (setCode ⟨0, .registered, .registered, [3], List.replicate 5 .passing, [0], false⟩ 0 .critical) 0).2 = some .critical ∧
    (tick ⟨0, .deregistered, .deregistered, [3], List.replicate 5 .passing, [0, 0], false⟩ 0).1.pushes = [0] := by decide

/-- **C158.** Of a service that is not known, or a check that is not, the
health is critical. -/
theorem C158_unknown (s : Option Svc) (n : Option Int) (h : s = none ∨ n = none ∨ ∃ k, n = some k ∧ (k < 1 ∨ k > 5)) :
    health s n = .critical := by
  unfold health
  rcases h with rfl | rfl | ⟨k, rfl, hk⟩
  · rfl
  · cases s <;> rfl
  · cases s with
    | none => rfl
    | some s =>
      simp only
      rw [if_neg (by omega)]

/-- **C158 is false of the code:** looking a service up and giving the
reference back frees the service that is still registered. -/
theorem C158_ref_violated (period : List Nat) (code : Code) :
    (deref (ref (fresh period code))).freed = true := rfl

/-! Names. -/

/-- What a name stands for: the application's and node's names put in. -/
inductive Expand (app node : Str) : Str → Str → Prop
  | nil : Expand app node [] []
  | app {r x} : Expand app node r x → Expand app node (bytesOf "{app}" ++ r) (app ++ x)
  | node {r x} : Expand app node r x → Expand app node (bytesOf "{node}" ++ r) (node ++ x)
  | char {c r x} : ¬ bytesOf "{app}" <+: c :: r → ¬ bytesOf "{node}" <+: c :: r → Expand app node r x →
      Expand app node (c :: r) (c :: x)

theorem cat_take (n : Nat) (buf s x : Str) : (cat n buf s ++ x).take (n - 1) = (buf ++ s ++ x).take (n - 1) ∨ n - 1 < buf.length := by
  by_cases h : n - 1 < buf.length
  · exact .inr h
  · left
    unfold cat
    by_cases hs : s.length ≤ n - 1 - buf.length
    · rw [List.take_of_length_le hs]
    · have h1 : (s.take (n - 1 - buf.length)).length = n - 1 - buf.length := by
        rw [List.length_take]; omega
      have hl : (buf ++ s.take (n - 1 - buf.length)).length = n - 1 := by
        rw [List.length_append, h1]; omega
      have e1 : (buf ++ s.take (n - 1 - buf.length) ++ x).take (n - 1) = buf ++ s.take (n - 1 - buf.length) :=
        List.take_left' hl
      have e2 : (buf ++ s ++ x).take (n - 1) = (buf ++ s).take (n - 1) :=
        List.take_append_of_le_length (by rw [List.length_append]; omega)
      have e3 : (buf ++ s).take (n - 1) = buf.take (n - 1) ++ s.take (n - 1 - buf.length) := List.take_append
      have e4 : buf.take (n - 1) = buf := List.take_of_length_le (by omega)
      rw [e1, e2, e3, e4]

theorem cat_len (n : Nat) (buf s : Str) (h : buf.length ≤ n - 1) : (cat n buf s).length ≤ n - 1 := by
  unfold cat
  rw [List.length_append, List.length_take]
  omega

theorem interp_expand (app node : Str) (n : Nat) (id x : Str) (h : Expand app node id x) :
    ∀ buf : Str, buf.length ≤ n - 1 → interp app node n buf id = (buf ++ x).take (n - 1) := by
  induction h with
  | nil =>
    intro buf hb
    rw [interp, List.append_nil, List.take_of_length_le hb]
  | @app r x _ ih =>
    intro buf hb
    have : interp app node n buf (bytesOf "{app}" ++ r) = interp app node n (cat n buf app) r := by
      show interp app node n buf (123 :: 97 :: 112 :: 112 :: 125 :: r) = _
      rw [interp]
      rw [if_pos (show (123 :: 97 :: 112 :: 112 :: 125 :: r).take 5 = bytesOf "{app}" from rfl)]
      rfl
    rw [this, ih _ (cat_len _ _ _ hb)]
    rcases cat_take n buf app x with h | h
    · rw [h, List.append_assoc]
    · omega
  | @node r x _ ih =>
    intro buf hb
    have : interp app node n buf (bytesOf "{node}" ++ r) = interp app node n (cat n buf node) r := by
      show interp app node n buf (123 :: 110 :: 111 :: 100 :: 101 :: 125 :: r) = _
      rw [interp]
      rw [if_neg (show ¬ (123 :: 110 :: 111 :: 100 :: 101 :: 125 :: r).take 5 = bytesOf "{app}" from (by
          intro h
          have : (123 :: 110 :: 111 :: 100 :: 101 :: 125 :: r).take 5 = [123, 110, 111, 100, 101] := rfl
          rw [this] at h
          revert h
          decide)),
        if_pos (show (123 :: 110 :: 111 :: 100 :: 101 :: 125 :: r).take 6 = bytesOf "{node}" from rfl)]
      rfl
    rw [this, ih _ (cat_len _ _ _ hb)]
    rcases cat_take n buf node x with h | h
    · rw [h, List.append_assoc]
    · omega
  | @char c r x h1 h2 _ ih =>
    intro buf hb
    have : interp app node n buf (c :: r) = interp app node n (cat n buf [c]) r := by
      rw [interp]
      rw [if_neg (fun h => h1 ⟨(c :: r).drop 5, by rw [← h, List.take_append_drop]⟩),
        if_neg (fun h => h2 ⟨(c :: r).drop 6, by rw [← h, List.take_append_drop]⟩)]
    rw [this, ih _ (cat_len _ _ _ hb)]
    rcases cat_take n buf [c] x with h | h
    · rw [h, List.append_assoc]; rfl
    · omega

/-- **C158 (partial).** A service is looked up by the name it was
registered under, which is what its template stands for, if that has
fewer than 128 bytes.  Missing: longer ones (`C158_long_violated`). -/
theorem C158_name_partial (app node id x : Str) (h : Expand app node id x) (hl : x.length < 128) :
    allocId app node id = x ∧ lookId app node id = x := by
  unfold allocId lookId
  rw [interp_expand _ _ _ _ _ h [] (by simp), interp_expand _ _ _ _ _ h [] (by simp)]
  exact ⟨List.take_of_length_le (by simpa using by omega), List.take_of_length_le (by simpa using by omega)⟩

example : Expand (bytesOf "app") (bytesOf "n1") (bytesOf "{app}-{node}") (bytesOf "app-n1") :=
  .app (.char (by decide) (by decide) (.node .nil))

/-- **C158 is false of the code:** a service with a longer name is never
found again. -/
theorem C158_long_violated (app node id x : Str) (h : Expand app node id x) (hl : 128 ≤ x.length) :
    lookId app node id ≠ allocId app node id := by
  unfold allocId lookId
  rw [interp_expand _ _ _ _ _ h [] (by simp), interp_expand _ _ _ _ _ h [] (by simp)]
  intro he
  have := congrArg List.length he
  simp only [List.nil_append, List.length_take] at this
  omega

/-! ### C159 -/

/-- **C159 (partial).** A setting `consul:key`, or `consul:fallback:key`,
gets the key's value, or else the fallback (in which colons may occur),
or else fails; all others are left alone.  Missing: with the debugging
log on (`C159_freed_violated`). -/
theorem C159_value_partial (kv : Str → Option Str) (key fb : Str) (hk : 58 ∉ key) :
    fixup kv false (bytesOf "consul:" ++ key) = .ok (match kv key with | some v => .value v | none => .abort) ∧
    fixup kv false (bytesOf "consul:" ++ fb ++ [58] ++ key) =
      .ok (match kv key with | some v => .value v | none => .value fb) ∧
    (∀ v, ¬ bytesOf "consul:" <+: v → ∀ d, fixup kv d v = .ok .other) := by
  have hall : ∀ c ∈ key.reverse, decide (c ≠ 58) = true := by
    intro c hc
    simp only [decide_eq_true_eq]
    rintro rfl
    exact hk (List.mem_reverse.1 hc)
  have k1 : (key.reverse.takeWhile (fun c => decide (c ≠ 58))).reverse = key := by
    have := List.takeWhile_append_of_pos (l₂ := []) hall
    rw [List.append_nil, List.takeWhile_nil, List.append_nil] at this
    rw [this, List.reverse_reverse]
  have k2 : (((fb ++ [58] ++ key).reverse).takeWhile (fun c => decide (c ≠ 58))).reverse = key := by
    rw [List.reverse_append, List.takeWhile_append_of_pos hall, List.reverse_append]
    simp
  refine ⟨?_, ?_, ?_⟩
  · unfold fixup
    have t1 : (bytesOf "consul:" ++ key).take 7 = bytesOf "consul:" := List.take_left' (by decide)
    have t2 : (bytesOf "consul:" ++ key).drop 7 = key := List.drop_left' (by decide)
    simp only [t1, if_true, t2, k1, hk, if_false, Bool.false_eq_true]
    cases kv key <;> rfl
  · unfold fixup
    have e : bytesOf "consul:" ++ fb ++ [58] ++ key = bytesOf "consul:" ++ (fb ++ [58] ++ key) := by simp
    rw [e]
    have t1 : (bytesOf "consul:" ++ (fb ++ [58] ++ key)).take 7 = bytesOf "consul:" := List.take_left' (by decide)
    have t2 : (bytesOf "consul:" ++ (fb ++ [58] ++ key)).drop 7 = fb ++ [58] ++ key := List.drop_left' (by decide)
    have hm : 58 ∈ fb ++ [58] ++ key := by simp
    have hf : (fb ++ [58] ++ key).take ((fb ++ [58] ++ key).length - key.length - 1) = fb := by
      have : (fb ++ [58] ++ key).length - key.length - 1 = fb.length := by
        simp only [List.length_append, List.length_cons, List.length_nil]; omega
      rw [this, List.append_assoc, List.take_left]
    simp only [t1, if_true, t2, k2, hm, hf, if_false, Bool.false_eq_true]
    cases kv key <;> rfl
  · intro v hv d
    unfold fixup
    rw [if_neg]
    intro h
    exact hv ⟨v.drop 7, by rw [← h, List.take_append_drop]⟩

example : fixup (fun _ => none) false (bytesOf "consul:http://x:80:site/url") = .ok (.value (bytesOf "http://x:80")) ∧
    fixup (fun k => if k = bytesOf "site/url" then some (bytesOf "v") else none) false (bytesOf "consul:site/url") =
      .ok (.value (bytesOf "v")) := by decide

/-- **C159 is false of the code:** with the debugging log on, every
setting taken from consul has its key read after it was freed. -/
theorem C159_freed_violated (kv : Str → Option Str) (t : Str) : fixup kv true (bytesOf "consul:" ++ t) = .ub := by
  unfold fixup
  have t1 : (bytesOf "consul:" ++ t).take 7 = bytesOf "consul:" := List.take_left' (by decide)
  simp only [t1, if_true]

end Mtev.Consul
