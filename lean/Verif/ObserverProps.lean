import Verif.Observer

/-!
C155: the observer shows the requests being served and those finished
lately.  C156: what a query to it lists.
-/

namespace Mtev.Observer

/-- What happens in the module: its hooks, by session and time. -/
inductive Op where
  | rc (c now start : Nat) (info : List (Str × Str))
  | prrp (c now : Nat)
  | rs (c now : Nat) (status : Str)
  | rl (c now : Nat) (status : Str)
  | note (c : Nat) (k v : Str)
  | list (now : Nat) (xs : List (Str × Test))

/-- The session of a hook. -/
def Op.sess : Op → Option Nat
  | .rc c _ _ _ => some c
  | .prrp c _ => some c
  | .rs c _ _ => some c
  | .rl c _ _ => some c
  | .note c _ _ => some c
  | .list _ _ => none

/-- One of them happens. -/
def act (maxAge : Nat) (o : Obs) : Op → Out Obs
  | .rc c now start info => .ok (rc o c now start info)
  | .prrp c now => .ok (prrp o c now)
  | .rs c now st => .ok (rs o c now st)
  | .rl c now st => rl o c now st
  | .note c k v => .ok (note o c k v)
  | .list now xs => .ok (listing o maxAge now xs).2

/-- Several happen. -/
def run (maxAge : Nat) : Obs → List Op → Out Obs
  | o, [] => .ok o
  | o, x :: xs => match act maxAge o x with
    | .ok o' => run maxAge o' xs
    | .ub => .ub
    | .abort => .abort

theorem run_cons {maxAge : Nat} {o o' : Obs} {x : Op} {xs : List Op} (h : run maxAge o (x :: xs) = .ok o') :
    ∃ m, act maxAge o x = .ok m ∧ run maxAge m xs = .ok o' := by
  unfold run at h
  cases ha : act maxAge o x with
  | ok m => rw [ha] at h; exact ⟨m, rfl, h⟩
  | ub => rw [ha] at h; cases h
  | abort => rw [ha] at h; cases h

theorem run_append (maxAge : Nat) (o : Obs) (xs ys : List Op) :
    run maxAge o (xs ++ ys) = match run maxAge o xs with
      | .ok m => run maxAge m ys
      | .ub => .ub
      | .abort => .abort := by
  induction xs generalizing o with
  | nil => rfl
  | cons x xs ih =>
    rw [List.cons_append, run, run]
    cases act maxAge o x with
    | ok m => exact ih m
    | ub => rfl
    | abort => rfl

/-! ### One request's row -/

/-- What other sessions do leaves a session's entry alone. -/
theorem act_other (maxAge : Nat) (o o' : Obs) (x : Op) (c : Nat) (hc : x.sess ≠ some c)
    (h : act maxAge o x = .ok o') : o'.get c = o.get c := by
  cases x with
  | rc d now start info =>
    have hd : c ≠ d := fun e => hc (by rw [e]; rfl)
    simp only [act, Out.ok.injEq] at h
    subst h
    unfold rc
    cases o.get d with
    | some e => exact get_put_ne _ _ _ _ hd
    | none => exact get_put_ne o d c _ hd
  | prrp d now =>
    have hd : c ≠ d := fun e => hc (by rw [e]; rfl)
    simp only [act, Out.ok.injEq] at h
    subst h
    unfold prrp
    cases o.get d with
    | some e => exact get_put_ne _ _ _ _ hd
    | none => rfl
  | rs d now st =>
    have hd : c ≠ d := fun e => hc (by rw [e]; rfl)
    simp only [act, Out.ok.injEq] at h
    subst h
    unfold rs
    cases o.get d with
    | some e =>
      simp only
      by_cases h0 : e.respStart = 0
      · rw [if_pos h0]; exact get_put_ne _ _ _ _ hd
      · rw [if_neg h0]
    | none => rfl
  | rl d now st =>
    have hd : c ≠ d := fun e => hc (by rw [e]; rfl)
    simp only [act] at h
    unfold rl at h
    cases hg : o.get d with
    | some e =>
      rw [hg] at h
      simp only at h
      by_cases h0 : o.ring.length = 0
      · rw [if_pos h0] at h; cases h
      · rw [if_neg h0] at h
        cases h
        exact get_del_ne o d c hd
    | none => rw [hg] at h; cases h; rfl
  | note d k v =>
    have hd : c ≠ d := fun e => hc (by rw [e]; rfl)
    simp only [act, Out.ok.injEq] at h
    subst h
    unfold note
    cases o.get d with
    | some e => exact get_put_ne _ _ _ _ hd
    | none => rfl
  | list now xs =>
    simp only [act, Out.ok.injEq] at h
    subst h
    rfl

theorem run_other (maxAge : Nat) (xs : List Op) (c : Nat) (hc : ∀ x ∈ xs, x.sess ≠ some c) :
    ∀ (o o' : Obs), run maxAge o xs = .ok o' → o'.get c = o.get c := by
  induction xs with
  | nil => intro o o' h; cases h; rfl
  | cons x xs ih =>
    intro o o' h
    obtain ⟨m, hm, hr⟩ := run_cons h
    rw [ih (fun y hy => hc y (List.mem_cons_of_mem _ hy)) m o' hr]
    exact act_other maxAge o m x c (hc x List.mem_cons_self) hm

theorem look_track (l : List (Str × Str)) (k v : Str) : look (track l k v) k = some v := by
  simp [look, track]

/-- **C155 (partial).** If the hooks of a request come in the order of
its life, with anything of other sessions between, the row that is kept
when it is over has the times and the status they brought.  Missing: the
hooks do not come in this order (`C155_live_violated`). -/
theorem C155_row_partial (maxAge c start t0 t1 t2 t3 : Nat) (info : List (Str × Str)) (s2 s3 : Str)
    (o o1 : Obs) (a1 a2 a3 : List Op) (hn : o.get c = none)
    (h1 : ∀ x ∈ a1 ++ a2 ++ a3, x.sess ≠ some c) (hs : s2.length = 3) (ht : t1 ≠ 0 ∧ t2 ≠ 0)
    (hr : run maxAge o (.rc c t0 start info :: a1 ++ .prrp c t1 :: a2 ++ .rs c t2 s2 :: a3 ++ [.rl c t3 s3]) = .ok o1) :
    o1.get c = none ∧ ∃ e : Entry, some e ∈ o1.ring ∧ e.start = start ∧ e.reqDone = t0 ∧ e.readStart = t1 ∧ e.readDone = t1 ∧
      e.respStart = t2 ∧ e.respDone = t3 ∧ look e.info (bytesOf "status") = some s2 ∧ e.id = o.nextId := by
  have e1 : (Op.rc c t0 start info :: a1 ++ .prrp c t1 :: a2 ++ .rs c t2 s2 :: a3 ++ [.rl c t3 s3]) =
      Op.rc c t0 start info :: (a1 ++ (.prrp c t1 :: (a2 ++ (.rs c t2 s2 :: (a3 ++ [.rl c t3 s3]))))) := by simp
  rw [e1] at hr
  obtain ⟨m0, hm0, hr⟩ := run_cons hr
  have g0 : m0.get c = some ⟨o.nextId, start, t0, 0, 0, 0, 0, info.foldl (fun l p => track l p.1 p.2) []⟩ := by
    simp only [act, Out.ok.injEq] at hm0
    subst hm0
    unfold rc
    rw [hn]
    exact get_put o c _
  have split : ∀ (m : Obs) (xs ys : List Op), run maxAge m (xs ++ ys) = .ok o1 →
      ∃ m', run maxAge m xs = .ok m' ∧ run maxAge m' ys = .ok o1 := by
    intro m xs ys h
    rw [run_append] at h
    cases hx : run maxAge m xs with
    | ok m' => rw [hx] at h; exact ⟨m', rfl, h⟩
    | ub => rw [hx] at h; cases h
    | abort => rw [hx] at h; cases h
  obtain ⟨m1, hm1, hr⟩ := split _ _ _ hr
  have g1 := run_other maxAge a1 c (fun x hx => h1 x (by simp [hx])) _ _ hm1
  rw [g0] at g1
  obtain ⟨m2, hm2, hr⟩ := run_cons hr
  have g2 : m2.get c = some ⟨o.nextId, start, t0, t1, t1, 0, 0, info.foldl (fun l p => track l p.1 p.2) []⟩ := by
    simp only [act, Out.ok.injEq] at hm2
    subst hm2
    unfold prrp
    rw [g1]
    exact get_put m1 c _
  obtain ⟨m3, hm3, hr⟩ := split _ _ _ hr
  have g3 := run_other maxAge a2 c (fun x hx => h1 x (by simp [hx])) _ _ hm3
  rw [g2] at g3
  obtain ⟨m4, hm4, hr⟩ := run_cons hr
  have g4 : m4.get c = some ⟨o.nextId, start, t0, t1, t1, t2, 0,
      track (info.foldl (fun l p => track l p.1 p.2) []) (bytesOf "status") (s2.take 3)⟩ := by
    simp only [act, Out.ok.injEq] at hm4
    subst hm4
    unfold rs
    rw [g3]
    exact get_put m3 c _
  obtain ⟨m5, hm5, hr⟩ := split _ _ _ hr
  have g5 := run_other maxAge a3 c (fun x hx => h1 x (by simp [hx])) _ _ hm5
  rw [g4] at g5
  obtain ⟨m6, hm6, hr⟩ := run_cons hr
  cases hr
  simp only [act] at hm6
  unfold rl at hm6
  rw [g5] at hm6
  simp only at hm6
  by_cases h0 : m5.ring.length = 0
  · rw [if_pos h0] at hm6; cases hm6
  · rw [if_neg h0] at hm6
    cases hm6
    refine ⟨get_del m5 c, finished ⟨o.nextId, start, t0, t1, t1, t2, 0,
      track (info.foldl (fun l p => track l p.1 p.2) []) (bytesOf "status") (s2.take 3)⟩ t3 s3, ?_, ?_⟩
    · exact List.mem_iff_getElem?.2 ⟨m5.hptr % m5.ring.length,
        List.getElem?_set_self (Nat.mod_lt _ (by omega))⟩
    · unfold finished
      rw [if_neg ht.2]
      refine ⟨rfl, rfl, rfl, rfl, rfl, rfl, ?_, rfl⟩
      rw [List.take_of_length_le (by omega)]
      exact look_track _ _ _

/-- **C155.** A note of a request that is served is shown under its key. -/
theorem C155_note (o : Obs) (c : Nat) (e : Entry) (k v : Str) (hg : o.get c = some e) :
    ∃ e', (note o c k v).get c = some e' ∧ look e'.info k = some v ∧
      ∀ j, j ≠ k → look e'.info j = look e.info j := by
  unfold note
  rw [hg]
  refine ⟨_, get_put o c _, look_track _ _ _, ?_⟩
  intro j hj
  show look (track e.info k v) j = _
  unfold look track
  rw [List.find?_cons_of_neg (by simpa using Ne.symm hj)]
  congr 1
  induction e.info with
  | nil => rfl
  | cons a l ih =>
    by_cases ha : a.1 = k
    · rw [List.filter_cons_of_neg (by simp [ha]), ih, List.find?_cons_of_neg]
      simp only [decide_eq_true_eq]
      intro h
      exact hj (h.symm.trans ha)
    · rw [List.filter_cons_of_pos (by simpa using ha)]
      by_cases hd : a.1 = j
      · rw [List.find?_cons_of_pos (by simpa using hd), List.find?_cons_of_pos (by simpa using hd)]
      · rw [List.find?_cons_of_neg (by simpa using hd), List.find?_cons_of_neg (by simpa using hd), ih]

/-- An observer with a ring of two. -/
def ex0 : Obs := ⟨[], [none, none], 0, 7⟩

example : ∃ o1, run 30 ex0 (.rc 1 100 90 [(bytesOf "uri", bytesOf "/")] :: [.rc 2 101 99 []] ++ .prrp 1 110 ::
      [.rl 2 112 (bytesOf "404")] ++ .rs 1 120 (bytesOf "200") :: [] ++ [.rl 1 130 (bytesOf "200")]) = .ok o1 ∧
    ex0.get 1 = none ∧
    o1.ring = [some ⟨8, 99, 101, 0, 0, 112, 112, [(bytesOf "status", bytesOf "404")]⟩,
      some ⟨7, 90, 100, 110, 110, 120, 130, [(bytesOf "status", bytesOf "200"), (bytesOf "uri", bytesOf "/")]⟩] := by
  exact ⟨_, rfl, rfl, by decide⟩

/-- **C155 is false of the code:** a request is never shown while it is
served.  Receiving it also calls the log hook, so at once it is taken
for finished, with that moment for the end of its response; and nothing
that follows — reading, notes, the response with its status, its
end — changes what is shown. -/
theorem C155_live_violated (c t0 t1 t2 t3 start sid : Nat) (info : List (Str × Str)) (st2 st3 k v : Str)
    (o : Obs) (hr : o.ring.length ≠ 0) (hn : o.get c = none) :
    ∃ o', step c (o, ⟨false, 0⟩) t0 (.received start info sid) = .ok (o', ⟨false, sid⟩) ∧ o'.get c = none ∧
      (∃ e : Entry, some e ∈ o'.ring ∧ e.id = o.nextId ∧ e.respStart = t0 ∧ e.respDone = t0 ∧
        look e.info (bytesOf "status") = some (bytesOf "0")) ∧
      step c (o', ⟨false, sid⟩) t1 .read = .ok (o', ⟨false, sid⟩) ∧
      step c (o', ⟨false, sid⟩) t1 (.note k v) = .ok (o', ⟨false, sid⟩) ∧
      step c (o', ⟨false, sid⟩) t2 (.sent st2) = .ok (o', ⟨false, sid⟩) ∧
      step c (o', ⟨false, sid⟩) t3 (.done st3) = .ok (o', ⟨false, 0⟩) := by
  let e0 : Entry := ⟨o.nextId, start, t0, 0, 0, 0, 0, info.foldl (fun l p => track l p.1 p.2) []⟩
  let om : Obs := { (o.put c e0) with nextId := o.nextId + 1 }
  have hrc : rc o c t0 start info = om := by
    unfold rc
    rw [hn]
  have hg : om.get c = some e0 := get_put o c e0
  let o' : Obs := { om.del c with ring := om.ring.set (om.hptr % om.ring.length) (some (finished e0 t0 (bytesOf "0"))),
                                  hptr := (om.hptr + 1) % 2 ^ 32 }
  have hrl : rl om c t0 (bytesOf "0") = .ok o' := by
    unfold rl
    rw [hg]
    exact if_neg hr
  have hg' : o'.get c = none := get_del om c
  refine ⟨o', ?_, hg', ⟨finished e0 t0 (bytesOf "0"), ?_, rfl, rfl, rfl, ?_⟩, ?_, ?_, ?_, ?_⟩
  · unfold step
    simp only [hrc, logHook, ne_eq, not_true_eq_false, if_false, if_true, hrl]
  · exact List.mem_iff_getElem?.2 ⟨om.hptr % om.ring.length,
      List.getElem?_set_self (Nat.mod_lt _ (Nat.pos_of_ne_zero hr))⟩
  · exact look_track _ _ _
  · unfold step prrp
    simp only [hg']
  · unfold step note
    simp only [hg']
  · unfold step rs
    simp only [hg']
  · unfold step rl
    simp only [hg', logHook, Bool.false_eq_true, if_false, if_true]

example : ex0.ring.length ≠ 0 ∧ ex0.get 1 = none := by decide

/-! ### How long it is kept -/

/-- Is it the end of a request? -/
def Op.ends : Op → Bool
  | .rl _ _ _ => true
  | _ => false

/-- A listing that does not find an entry too old. -/
def Op.young (maxAge : Nat) (e : Entry) : Op → Prop
  | .list now _ => e.respDone ≤ now ∧ now < 2 ^ 64 ∧ (now - e.respDone) / 1000000000 < maxAge
  | _ => True

theorem age_eq (now : Nat) (e : Entry) (h : e.respDone ≤ now) (hn : now < 2 ^ 64) :
    age now e = (now - e.respDone) / 1000000000 := by
  unfold age
  have : now + 2 ^ 64 - e.respDone = (now - e.respDone) + 2 ^ 64 := by omega
  rw [this, Nat.add_mod_right, Nat.mod_eq_of_lt (by omega)]

/-- One event: the ring keeps an entry if the event ends no request that
takes its slot. -/
theorem act_keep (maxAge : Nat) (o o' : Obs) (x : Op) (i : Nat) (e : Entry) (hy : x.young maxAge e)
    (hi : o.ring[i]? = some (some e)) (hs : x.ends = true → o.hptr % o.ring.length ≠ i)
    (h : act maxAge o x = .ok o') (hw : o.hptr + 1 < 2 ^ 32) :
    o'.ring[i]? = some (some e) ∧ o'.ring.length = o.ring.length ∧ o.hptr ≤ o'.hptr ∧
      o'.hptr ≤ o.hptr + (if x.ends then 1 else 0) := by
  cases x with
  | rc c now start info =>
    simp only [act, Out.ok.injEq] at h
    subst h
    unfold rc
    cases o.get c <;> exact ⟨hi, rfl, Nat.le_refl _, Nat.le_add_right _ _⟩
  | prrp c now =>
    simp only [act, Out.ok.injEq] at h
    subst h
    unfold prrp
    cases o.get c <;> exact ⟨hi, rfl, Nat.le_refl _, Nat.le_add_right _ _⟩
  | rs c now st =>
    simp only [act, Out.ok.injEq] at h
    subst h
    unfold rs
    cases o.get c with
    | none => exact ⟨hi, rfl, Nat.le_refl _, Nat.le_add_right _ _⟩
    | some e1 =>
      simp only
      by_cases h0 : e1.respStart = 0
      · rw [if_pos h0]; exact ⟨hi, rfl, Nat.le_refl _, Nat.le_add_right _ _⟩
      · rw [if_neg h0]; exact ⟨hi, rfl, Nat.le_refl _, Nat.le_add_right _ _⟩
  | note c k v =>
    simp only [act, Out.ok.injEq] at h
    subst h
    unfold note
    cases o.get c <;> exact ⟨hi, rfl, Nat.le_refl _, Nat.le_add_right _ _⟩
  | rl c now st =>
    simp only [act] at h
    unfold rl at h
    cases hg : o.get c with
    | none => rw [hg] at h; cases h; exact ⟨hi, rfl, Nat.le_refl _, Nat.le_add_right _ _⟩
    | some e1 =>
      rw [hg] at h
      simp only at h
      by_cases h0 : o.ring.length = 0
      · rw [if_pos h0] at h; cases h
      · rw [if_neg h0] at h
        cases h
        have hm : (o.hptr + 1) % 2 ^ 32 = o.hptr + 1 := Nat.mod_eq_of_lt hw
        refine ⟨?_, List.length_set, ?_, ?_⟩
        · show (o.ring.set _ _)[i]? = _
          rw [List.getElem?_set_ne (hs rfl)]
          exact hi
        · show o.hptr ≤ (o.hptr + 1) % 2 ^ 32
          omega
        · show (o.hptr + 1) % 2 ^ 32 ≤ o.hptr + 1
          omega
  | list now xs =>
    simp only [act, Out.ok.injEq] at h
    subst h
    unfold listing
    refine ⟨?_, List.length_map _, Nat.le_refl _, Nat.le_add_right _ _⟩
    simp only [List.getElem?_map, hi, Option.map_some]
    obtain ⟨ha, hn, hb⟩ := hy
    rw [age_eq now e ha hn, if_neg (by omega)]

theorem run_keep (maxAge : Nat) (i : Nat) (e : Entry) (xs : List Op) :
    ∀ (o o' : Obs), (∀ x ∈ xs, x.young maxAge e) → o.ring[i]? = some (some e) →
      (∀ j, j < (xs.filter Op.ends).length → (o.hptr + j) % o.ring.length ≠ i) →
      run maxAge o xs = .ok o' → o.hptr + (xs.filter Op.ends).length + 1 < 2 ^ 32 →
      o'.ring[i]? = some (some e) := by
  induction xs with
  | nil => intro o o' _ hi _ h _; cases h; exact hi
  | cons x xs ih =>
    intro o o' hy hi hj h hw
    obtain ⟨m, hm, hr⟩ := run_cons h
    have hlen : ((x :: xs).filter Op.ends).length = (if x.ends then 1 else 0) + (xs.filter Op.ends).length := by
      by_cases hx : x.ends = true
      · rw [List.filter_cons_of_pos hx, if_pos hx, List.length_cons]; omega
      · rw [List.filter_cons_of_neg hx, if_neg hx]; omega
    rw [hlen] at hj hw
    have hk := act_keep maxAge o m x i e (hy x List.mem_cons_self) hi
      (fun hx => by
        have := hj 0 (by rw [if_pos hx]; omega)
        simpa using this) hm (by omega)
    obtain ⟨k1, k2, k3, k4⟩ := hk
    refine ih m o' (fun y hy' => hy y (List.mem_cons_of_mem _ hy')) k1 ?_ hr (by omega)
    intro j hlt
    rw [k2]
    have := hj ((m.hptr - o.hptr) + j) (by omega)
    have e1 : o.hptr + (m.hptr - o.hptr + j) = m.hptr + j := by omega
    rwa [e1] at this

/-- **C155 (partial).** A finished request stays until as many others
as there is room for have finished, as long as no listing finds it too
old.  Missing: what happens when 2³² requests have been served
(`C155_wrap_violated`), and listings that began before it finished
(`C155_race_violated`). -/
theorem C155_kept_partial (maxAge c now : Nat) (st : Str) (e0 : Entry) (o o1 o2 : Obs) (xs : List Op)
    (hg : o.get c = some e0) (h1 : act maxAge o (.rl c now st) = .ok o1)
    (hy : ∀ x ∈ xs, x.young maxAge (finished e0 now st))
    (hc : (xs.filter Op.ends).length < o.ring.length) (hw : o.hptr + (xs.filter Op.ends).length + 2 < 2 ^ 32)
    (h2 : run maxAge o1 xs = .ok o2) : some (finished e0 now st) ∈ o2.ring := by
  simp only [act] at h1
  unfold rl at h1
  rw [hg] at h1
  simp only at h1
  have h0 : o.ring.length ≠ 0 := by omega
  rw [if_neg h0] at h1
  cases h1
  have hm : (o.hptr + 1) % 2 ^ 32 = o.hptr + 1 := Nat.mod_eq_of_lt (by omega)
  have hj : ∀ j, j < (xs.filter Op.ends).length → (o.hptr + 1 + j) % o.ring.length ≠ o.hptr % o.ring.length := by
    intro j hj he
    have hd := Nat.sub_mod_eq_zero_of_mod_eq he
    have h1 : o.hptr + 1 + j - o.hptr = 1 + j := by omega
    rw [h1, Nat.mod_eq_of_lt (by omega)] at hd
    omega
  have := run_keep maxAge (o.hptr % o.ring.length) (finished e0 now st) xs
    { o.del c with ring := o.ring.set (o.hptr % o.ring.length) (some (finished e0 now st)),
                   hptr := (o.hptr + 1) % 2 ^ 32 } o2 hy
    (List.getElem?_set_self (Nat.mod_lt _ (Nat.pos_of_ne_zero h0))) (by
      intro j hlt
      show ((o.hptr + 1) % 2 ^ 32 + j) % (o.ring.set _ _).length ≠ _
      rw [List.length_set, hm]
      exact hj j hlt) h2 (by
      show (o.hptr + 1) % 2 ^ 32 + _ + 1 < _
      rw [hm]
      omega)
  exact List.mem_iff_getElem?.2 ⟨_, this⟩

example : ∃ o1 o2, act 30 (rc (rc ex0 1 5 4 []) 2 6 5 []) (.rl 1 7 []) = .ok o1 ∧
    run 30 o1 [.rl 2 8 [], .list 1000 [], .rc 3 9 9 []] = .ok o2 ∧
    (([.rl 2 8 [], .list 1000 [], .rc 3 9 9 []] : List Op).filter Op.ends).length < ex0.ring.length ∧
    (7 ≤ 1000 ∧ (1000 - 7) / 1000000000 < 30) ∧ o2.ring.length = 2 ∧ none ∉ o2.ring :=
  ⟨_, _, rfl, rfl, by decide, by decide, rfl, by decide⟩

/-- **C155 is false of the code:** when the counter of requests wraps, a
request just finished may be overwritten by the next, however large
the ring: here of ten thousand, seven thousand requests too early, and
in a ring of three at once. -/
theorem C155_wrap_violated (maxAge : Nat) (e1 e2 : Entry) :
    ∃ o o2 : Obs, o.ring.length = 3 ∧
      run maxAge o [.rl 1 5 [], .rl 2 6 []] = .ok o2 ∧ o.get 1 = some e1 ∧ o.get 2 = some e2 ∧
      o2.ring = [some (finished e2 6 []), none, none] :=
  ⟨⟨[(1, e1), (2, e2)], [none, none, none], 2 ^ 32 - 1, 0⟩, ⟨[], [some (finished e2 6 []), none, none], 1, 0⟩,
    rfl, by simp [run, act, rl, Obs.get, Obs.del], rfl, rfl, rfl⟩

/-- **C155 is false of the code:** a listing drops, and frees, every
request that finished after the listing began: its age underflows. -/
theorem C155_race_violated (maxAge now : Nat) (o : Obs) (xs : List (Str × Test)) (e : Entry)
    (hm : maxAge ≤ 1000000) (hl : now < e.respDone) (hc : e.respDone < now + 1000000000000) (hb : e.respDone < 2 ^ 64)
    (hring : ∀ e', some e' ∈ o.ring → e' = e) (hlive : o.live = []) :
    (listing o maxAge now xs).1 = [] ∧ ∀ s ∈ (listing o maxAge now xs).2.ring, s = none := by
  have ha : age now e ≥ maxAge := by
    unfold age
    rw [Nat.mod_eq_of_lt (by omega)]
    omega
  have hr : ∀ s ∈ (listing o maxAge now xs).2.ring, s = none := by
    intro s hs
    simp only [listing, List.mem_map] at hs
    obtain ⟨s0, hs0, rfl⟩ := hs
    cases s0 with
    | none => rfl
    | some e' =>
      rw [hring e' hs0]
      simp only [ha, if_true]
  refine ⟨?_, hr⟩
  have hf : ((listing o maxAge now xs).2.ring.filterMap id) = [] := by
    rw [List.filterMap_eq_nil_iff]
    intro s hs
    rw [hr s hs]
    rfl
  show ((o.live.map (·.2)).filter (wanted xs) ++ ((listing o maxAge now xs).2.ring.filterMap id).filter (wanted xs)) = []
  rw [hf, hlive]
  rfl

example : (listing ⟨[], [some ⟨7, 90, 100, 0, 0, 130, 5000001000, []⟩], 1, 8⟩ 30 5000000000 []).1 = [] ∧
    ((listing ⟨[], [some ⟨7, 90, 100, 0, 0, 130, 5000001000, []⟩], 1, 8⟩ 30 5000002000 []).1).length = 1 := by decide

/-- **C155 is false of the code:** with a configured `max_count` of 0, the
end of a request divides by zero. -/
theorem C155_zero_violated (o : Obs) (c now : Nat) (st : Str) (e : Entry) (h0 : o.ring = []) (hg : o.get c = some e) :
    rl o c now st = .ub := by
  unfold rl
  rw [hg, h0]
  rfl

/-! ### Ids -/

/-- The ids in an observer. -/
def Obs.ids (o : Obs) : List Nat := o.live.map (fun p => p.2.id) ++ (o.ring.filterMap id).map (·.id)

/-- **C155.** Requests have different ids: a new one's is larger than
all there were. -/
theorem C155_ids (c now start : Nat) (info : List (Str × Str)) (o : Obs) (hn : o.get c = none)
    (hb : ∀ i ∈ o.ids, i < o.nextId) :
    (∃ e, (rc o c now start info).get c = some e ∧ e.id = o.nextId ∧ o.nextId ∉ o.ids) ∧
      ∀ i ∈ (rc o c now start info).ids, i < (rc o c now start info).nextId := by
  unfold rc
  rw [hn]
  refine ⟨⟨_, get_put o c _, rfl, fun h => Nat.lt_irrefl _ (hb _ h)⟩, ?_⟩
  intro i hi
  show i < o.nextId + 1
  unfold Obs.ids Obs.put at hi
  simp only [List.map_cons, List.cons_append, List.mem_cons, List.mem_append, List.mem_map] at hi
  rcases hi with rfl | ⟨p, hp, rfl⟩ | ⟨e, he, rfl⟩
  · exact Nat.lt_succ_self _
  · have := hb p.2.id (List.mem_append_left _ (List.mem_map_of_mem (List.mem_filter.1 hp).1))
    omega
  · have := hb e.id (List.mem_append_right _ (List.mem_map_of_mem he))
    omega

/-! ### C156: queries -/

/-- What an argument of a query asks of a row (by its name:
`eq_<field>` for a value, `re_<field>` for a regular expression). -/
def asks (re : Str → Option (Str → Bool)) (e : Entry) (p : Str × Str) : Prop :=
  (∀ f, p.1 = bytesOf "eq_" ++ f → look e.info f = some p.2) ∧
  (∀ f, p.1 = bytesOf "re_" ++ f → ∃ s g, look e.info f = some s ∧ re p.2 = some g ∧ g s = true)

/-- The arguments that are conditions. -/
def isCond (p : Str × Str) : Bool :=
  decide (p.1.take 3 = bytesOf "eq_") || decide (p.1.take 3 = bytesOf "re_")

theorem take3 (s f : Str) (pre : Str) (hp : pre.length = 3) (h : s = pre ++ f) : s.take 3 = pre ∧ s.drop 3 = f := by
  subst h
  exact ⟨by rw [← hp, List.take_left], by rw [← hp, List.drop_left]⟩

theorem of_take3 (s pre : Str) (h : s.take 3 = pre) : s = pre ++ s.drop 3 := by
  rw [← h, List.take_append_drop]

/-- **C156 (partial).** With sixteen conditions at most, whose regular
expressions compile, a query lists the requests being served and the
finished ones not too old that meet all of them, and no others.
Missing: more conditions, and expressions that do not compile
(`C156_many_violated`, `C156_bad_violated`). -/
theorem C156_rows_partial (re : Str → Option (Str → Bool)) (qs : List (Str × Str)) (o : Obs) (maxAge now : Nat)
    (h16 : (qs.filter isCond).length ≤ 16) (hre : ∀ p ∈ qs, ∀ f, p.1 = bytesOf "re_" ++ f → re p.2 ≠ none)
    (hnow : now < 2 ^ 64) (hd : ∀ e, some e ∈ o.ring → e.respDone ≤ now) (e : Entry) :
    e ∈ (listing o maxAge now (expects re qs)).1 ↔
      (e ∈ o.live.map (·.2) ∨ (some e ∈ o.ring ∧ (now - e.respDone) / 1000000000 < maxAge)) ∧
      ∀ p ∈ qs, asks re e p := by
  let g : Str × Str → Option (Str × Test) := fun p =>
    if p.1.take 3 = bytesOf "eq_" then some (p.1.drop 3, Test.eq p.2)
    else if p.1.take 3 = bytesOf "re_" then some (p.1.drop 3, Test.re (re p.2))
    else none
  have hlen : ∀ l : List (Str × Str), (l.filterMap g).length = (l.filter isCond).length := by
    intro l
    induction l with
    | nil => rfl
    | cons a l ih =>
      by_cases h1 : a.1.take 3 = bytesOf "eq_"
      · rw [List.filter_cons_of_pos (by simp [isCond, h1]),
          List.filterMap_cons_some (f := g) (b := (a.1.drop 3, Test.eq a.2)) (if_pos h1), List.length_cons, List.length_cons, ih]
      · by_cases h2 : a.1.take 3 = bytesOf "re_"
        · rw [List.filter_cons_of_pos (by simp [isCond, h2]),
            List.filterMap_cons_some (f := g) (b := (a.1.drop 3, Test.re (re a.2))) ((if_neg h1).trans (if_pos h2)),
            List.length_cons, List.length_cons, ih]
        · rw [List.filter_cons_of_neg (by simp [isCond, h1, h2]),
            List.filterMap_cons_none (f := g) ((if_neg h1).trans (if_neg h2)), ih]
  have hx : expects re qs = qs.filterMap g := by
    unfold expects
    exact List.take_of_length_le (by rw [hlen]; exact h16)
  have hw : wanted (expects re qs) e = true ↔ ∀ p ∈ qs, asks re e p := by
    rw [hx]
    unfold wanted
    rw [List.all_eq_true]
    constructor
    · intro h p hp
      constructor
      · intro f hf
        obtain ⟨t1, t2⟩ := take3 p.1 f _ rfl hf
        have := h (f, Test.eq p.2) (List.mem_filterMap.2 ⟨p, hp, by simp only [g, t1, if_true, t2]⟩)
        simp only at this
        cases hl : look e.info f with
        | none => rw [hl] at this; cases this
        | some s =>
          rw [hl] at this
          simp only [Test.pass, decide_eq_true_eq] at this
          rw [this]
      · intro f hf
        obtain ⟨t1, t2⟩ := take3 p.1 f _ rfl hf
        have hne : ¬ (bytesOf "re_" = bytesOf "eq_") := by decide
        have := h (f, Test.re (re p.2)) (List.mem_filterMap.2 ⟨p, hp, by simp only [g, t1, hne, if_false, if_true, t2]⟩)
        simp only at this
        cases hl : look e.info f with
        | none => rw [hl] at this; cases this
        | some s =>
          rw [hl] at this
          cases hr : re p.2 with
          | none => exact absurd hr (hre p hp f hf)
          | some q =>
            rw [hr] at this
            exact ⟨s, q, rfl, rfl, this⟩
    · intro h x hx
      obtain ⟨p, hp, hpx⟩ := List.mem_filterMap.1 hx
      simp only [g] at hpx
      by_cases h1 : p.1.take 3 = bytesOf "eq_"
      · rw [if_pos h1] at hpx
        cases hpx
        have := (h p hp).1 _ (of_take3 _ _ h1)
        simp only [this, Test.pass, decide_true]
      · rw [if_neg h1] at hpx
        by_cases h2 : p.1.take 3 = bytesOf "re_"
        · rw [if_pos h2] at hpx
          cases hpx
          obtain ⟨s, q, hs, hq, hqs⟩ := (h p hp).2 _ (of_take3 _ _ h2)
          simp only [hs, hq, Test.pass, hqs]
        · rw [if_neg h2] at hpx; cases hpx
  unfold listing
  simp only [List.mem_append, List.mem_filter, hw, List.mem_filterMap, List.mem_map, id]
  constructor
  · rintro (⟨hl, hq⟩ | ⟨⟨s, ⟨s0, hs0, rfl⟩, hs⟩, hq⟩)
    · exact ⟨.inl hl, hq⟩
    · cases s0 with
      | none => cases hs
      | some e' =>
        simp only at hs
        by_cases ha : age now e' ≥ maxAge
        · rw [if_pos ha] at hs; cases hs
        · rw [if_neg ha] at hs
          cases hs
          rw [age_eq now e (hd e hs0) hnow] at ha
          exact ⟨.inr ⟨hs0, by omega⟩, hq⟩
  · rintro ⟨hl | ⟨hr, ha⟩, hq⟩
    · exact .inl ⟨hl, hq⟩
    · refine .inr ⟨⟨some e, ⟨some e, hr, ?_⟩, rfl⟩, hq⟩
      simp only
      rw [age_eq now e (hd e hr) hnow, if_neg (by omega)]

/-- An entry of the examples. -/
def exE : Entry := ⟨7, 90, 100, 0, 0, 130, 140, [(bytesOf "method", bytesOf "GET"), (bytesOf "uri", bytesOf "/")]⟩

example : (([(bytesOf "eq_uri", bytesOf "/"), (bytesOf "re_method", bytesOf "G.T")] : List (Str × Str)).filter isCond).length ≤ 16 ∧
    exE ∈ (listing ⟨[], [some exE], 1, 8⟩ 30 2000 (expects (fun _ => some (fun s => decide (s.length = 3)))
      [(bytesOf "eq_uri", bytesOf "/"), (bytesOf "re_method", bytesOf "G.T")])).1 ∧
    (listing ⟨[], [some exE], 1, 8⟩ 30 2000 (expects (fun _ => none) [(bytesOf "eq_uri", bytesOf "/x")])).1 = [] := by
  decide

/-- **C156 is false of the code:** conditions after the sixteenth are
ignored. -/
theorem C156_many_violated (re : Str → Option (Str → Bool)) :
    ∃ (qs : List (Str × Str)) (o : Obs), exE ∈ (listing o 30 2000 (expects re qs)).1 ∧ ¬ ∀ p ∈ qs, asks re exE p := by
  refine ⟨List.replicate 16 (bytesOf "eq_uri", bytesOf "/") ++ [(bytesOf "eq_uri", bytesOf "/x")],
    ⟨[], [some exE], 1, 8⟩, ?_, ?_⟩
  · have : expects re (List.replicate 16 (bytesOf "eq_uri", bytesOf "/") ++ [(bytesOf "eq_uri", bytesOf "/x")]) =
        List.replicate 16 (bytesOf "uri", Test.eq (bytesOf "/")) := rfl
    rw [this]
    decide +kernel
  intro h
  have := (h (bytesOf "eq_uri", bytesOf "/x") (by simp)).1 (bytesOf "uri") (by decide)
  revert this
  decide

/-- **C156 is false of the code:** a regular expression that does not
compile is met by every value. -/
theorem C156_bad_violated (v : Str) :
    exE ∈ (listing ⟨[], [some exE], 1, 8⟩ 30 2000 (expects (fun _ => none) [(bytesOf "re_uri", v)])).1 ∧
      ¬ asks (fun _ => none) exE (bytesOf "re_uri", v) := by
  constructor
  · have : expects (fun _ => none) [(bytesOf "re_uri", v)] = [(bytesOf "uri", Test.re none)] := rfl
    rw [this]
    decide
  · intro h
    obtain ⟨s, g, _, hg, _⟩ := h.2 (bytesOf "uri") (by show bytesOf "re_uri" = _; decide)
    cases hg

end Mtev.Observer
