import Verif.Capa

/-!
C170: the document of capabilities.
-/

namespace Mtev.Capa

theorem dig_inj {a b : Nat} (ha : a < 16) (hb : b < 16) (h : dig a = dig b) : a = b := by
  unfold dig at h
  split at h <;> split at h <;> omega

theorem hex_ne (n : Nat) : hex n ≠ [] := by
  unfold hex
  split <;> simp

theorem hex_small {n : Nat} (h : n < 16) : hex n = [dig n] := by
  rw [hex, if_pos h]

theorem hex_big {n : Nat} (h : ¬ n < 16) : hex n = hex (n / 16) ++ [dig (n % 16)] := by
  rw [hex, if_neg h]

theorem hex_inj (a b : Nat) (h : hex a = hex b) : a = b := by
  induction a using Nat.strongRecOn generalizing b with
  | ind a ih =>
    by_cases ha : a < 16 <;> by_cases hb : b < 16
    · rw [hex_small ha, hex_small hb] at h
      exact dig_inj ha hb (by simpa using h)
    · rw [hex_small ha, hex_big hb] at h
      have := congrArg List.length h
      simp at this
      exact absurd this (hex_ne _)
    · rw [hex_big ha, hex_small hb] at h
      have := congrArg List.length h
      simp at this
      exact absurd this (hex_ne _)
    · rw [hex_big ha, hex_big hb] at h
      obtain ⟨h1, h2⟩ := List.append_inj' h rfl
      have e1 := ih (a / 16) (by omega) _ h1
      have e2 := dig_inj (Nat.mod_lt _ (by decide)) (Nat.mod_lt _ (by decide)) (by simpa using h2)
      omega

theorem hex_len_le (k n : Nat) (hk : 0 < k) (h : n < 16 ^ k) : (hex n).length ≤ k := by
  induction k generalizing n with
  | zero => omega
  | succ k ih =>
    by_cases hn : n < 16
    · rw [hex_small hn]; simp
    · rw [hex_big hn]
      have hk0 : 0 < k := by
        rcases Nat.eq_zero_or_pos k with e | e
        · subst e; simp at h; omega
        · exact e
      have := ih (n / 16) hk0 (by rw [Nat.pow_succ] at h; omega)
      simp; omega

theorem hex_len_ge (k n : Nat) (h : 16 ^ k ≤ n) : k + 1 ≤ (hex n).length := by
  induction k generalizing n with
  | zero =>
    have := hex_ne n
    cases hh : hex n with
    | nil => exact absurd hh this
    | cons _ _ => simp
  | succ k ih =>
    have hp : 0 < 16 ^ k := Nat.pos_of_ne_zero (by simp)
    rw [Nat.pow_succ] at h
    have hn : ¬ n < 16 := by omega
    rw [hex_big hn]
    have := ih (n / 16) (by omega)
    simp; omega

/-- Keys of addresses of 32 bits tell them apart. -/
theorem key_inj {a b : Nat} (ha : a < 2 ^ 32) (hb : b < 2 ^ 32) (h : key a = key b) : a = b := by
  unfold key at h
  have la := hex_len_le 8 a (by decide) (by omega)
  have lb := hex_len_le 8 b (by decide) (by omega)
  rw [List.take_of_length_le (by simp; omega), List.take_of_length_le (by simp; omega)] at h
  exact hex_inj a b (by simpa using h)

theorem kv_mem {α : Type} (doc : List (List Nat × α)) (k : List Nat) (v : α) : (k, v) ∈ kv doc k v := by
  simp [kv]

theorem kv_keep {α : Type} {doc : List (List Nat × α)} {k k' : List Nat} {v v' : α} (h : (k, v) ∈ doc) (hne : k ≠ k') :
    (k, v) ∈ kv doc k' v' := by
  unfold kv
  exact List.mem_append_left _ (List.mem_filter.2 ⟨h, by simpa using hne⟩)

/-- The commands of one service. -/
def cmds (cs : List Nat) : List (List Nat × Nat) := cs.foldl (fun d c => kv d (cmdKey c) c) []

theorem fold_mem {σ α : Type} (kf : σ → List Nat) (vf : σ → α) (l : List σ) (hinj : l.Pairwise (fun a b => kf a ≠ kf b))
    (x : σ) (hx : x ∈ l) (doc : List (List Nat × α)) : (kf x, vf x) ∈ l.foldl (fun d s => kv d (kf s) (vf s)) doc := by
  have keep : ∀ (l : List σ) (doc : List (List Nat × α)) (k : List Nat) (v : α), (k, v) ∈ doc → (∀ y ∈ l, k ≠ kf y) →
      (k, v) ∈ l.foldl (fun d s => kv d (kf s) (vf s)) doc := by
    intro l
    induction l with
    | nil => intro doc k v h _; exact h
    | cons y ys ih =>
      intro doc k v h hne
      exact ih _ k v (kv_keep h (hne y List.mem_cons_self)) (fun z hz => hne z (List.mem_cons_of_mem _ hz))
  induction l generalizing doc with
  | nil => cases hx
  | cons y ys ih =>
    rw [List.pairwise_cons] at hinj
    rcases List.mem_cons.1 hx with e | hm
    · subst e
      exact keep ys _ _ _ (kv_mem _ _ _) hinj.1
    · exact ih hinj.2 hm _

/-- C170.  Every service at an address of 32 bits is in the document, under its
    address, with its commands. -/
theorem C170_listed_partial (svcs : List (Nat × List Nat)) (hs : ∀ s ∈ svcs, s.1 < 2 ^ 32)
    (hd : svcs.Pairwise (fun a b => a.1 ≠ b.1)) (s : Nat × List Nat) (h : s ∈ svcs) :
    ([48, 120] ++ hex s.1, cmds s.2) ∈ services svcs := by
  have hk : key s.1 = [48, 120] ++ hex s.1 := by
    unfold key
    have := hex_len_le 8 s.1 (by decide) (by have := hs s h; omega)
    exact List.take_of_length_le (by simp; omega)
  rw [← hk]
  refine fold_mem (fun s => key s.1) (fun s => cmds s.2) svcs ?_ s h []
  refine List.Pairwise.imp_of_mem ?_ hd
  intro a b ha hb hne he
  exact hne (key_inj (hs a ha) (hs b hb) he)

theorem cmdKey_inj {a b : Nat} (ha : a < 2 ^ 32) (hb : b < 2 ^ 32) (h : cmdKey a = cmdKey b) : a = b := by
  unfold cmdKey at h
  have la := hex_len_le 8 a (by decide) (by omega)
  have lb := hex_len_le 8 b (by decide) (by omega)
  rw [List.take_of_length_le (by simp; omega), List.take_of_length_le (by simp; omega)] at h
  have h' : List.replicate (8 - (hex a).length) 48 ++ hex a = List.replicate (8 - (hex b).length) 48 ++ hex b := by
    simpa using h
  -- leading zeros do not change the number read
  have val : ∀ n, ∀ acc, (hex n).foldl (fun x d => 16 * x + (if d < 58 then d - 48 else d - 87)) acc = acc * 16 ^ (hex n).length + n := by
    intro n
    induction n using Nat.strongRecOn with
    | ind n ih =>
      intro acc
      have hdig : ∀ d, d < 16 → (if dig d < 58 then dig d - 48 else dig d - 87) = d := by
        intro d hd
        unfold dig
        by_cases c : d < 10
        · rw [if_pos c, if_pos (by omega)]; omega
        · rw [if_neg c, if_neg (by omega)]; omega
      by_cases hn : n < 16
      · rw [hex_small hn]
        simp only [List.foldl_cons, List.foldl_nil, List.length_singleton, hdig n hn]
        omega
      · rw [hex_big hn, List.foldl_append, ih (n / 16) (by omega)]
        simp only [List.foldl_cons, List.foldl_nil, List.length_append, List.length_singleton,
          hdig (n % 16) (Nat.mod_lt _ (by decide)), Nat.pow_succ]
        have : acc * (16 ^ (hex (n / 16)).length * 16) = 16 * (acc * 16 ^ (hex (n / 16)).length) := by
          rw [← Nat.mul_assoc, Nat.mul_comm]
        rw [this]
        omega
  have zeros : ∀ k, (List.replicate k 48).foldl (fun x d => 16 * x + (if d < 58 then d - 48 else d - 87)) 0 = 0 := by
    intro k
    induction k with
    | zero => rfl
    | succ k ih => rw [List.replicate_succ, List.foldl_cons]; exact ih
  have := congrArg (fun l : List Nat => l.foldl (fun x d => 16 * x + (if d < 58 then d - 48 else d - 87)) 0) h'
  simp only [List.foldl_append, zeros, val] at this
  omega

/-- C170.  Within a service every command is listed. -/
theorem C170_commands (cs : List Nat) (hs : ∀ c ∈ cs, c < 2 ^ 32) (hd : cs.Nodup) (c : Nat) (h : c ∈ cs) :
    (cmdKey c, c) ∈ cmds cs := by
  refine fold_mem cmdKey id cs ?_ c h []
  refine List.Pairwise.imp_of_mem ?_ hd
  intro a b ha hb hne he
  exact hne (cmdKey_inj (hs a ha) (hs b hb) he)

/-- C170.  The full claim is for any addresses and is false: of a longer one
    the first eight digits are kept, so that of two services at addresses of
    twelve digits that differ in the last four, one is missing. -/
theorem C170_collision_violated (x d e : Nat) (hx : 16 ^ 7 ≤ x) (hd : d < 16 ^ 4) (he : e < 16 ^ 4) (cs cs' : List Nat) :
    services [(x * 16 ^ 4 + d, cs), (x * 16 ^ 4 + e, cs')] = [(key (x * 16 ^ 4 + e), cmds cs')] := by
  have pre : ∀ d, d < 16 ^ 4 → key (x * 16 ^ 4 + d) = ([48, 120] ++ hex x).take 10 := by
    intro d hd
    have hl := hex_len_ge 7 x hx
    have e4 : hex (x * 16 ^ 4 + d) = hex x ++ [dig (d / 16 / 16 / 16 % 16), dig (d / 16 / 16 % 16), dig (d / 16 % 16), dig (d % 16)] := by
      rw [hex_big (n := x * 16 ^ 4 + d) (by omega), hex_big (n := (x * 16 ^ 4 + d) / 16) (by omega),
        hex_big (n := (x * 16 ^ 4 + d) / 16 / 16) (by omega), hex_big (n := (x * 16 ^ 4 + d) / 16 / 16 / 16) (by omega)]
      rw [show (x * 16 ^ 4 + d) / 16 / 16 / 16 / 16 = x by omega,
        show (x * 16 ^ 4 + d) / 16 / 16 / 16 % 16 = d / 16 / 16 / 16 % 16 by omega,
        show (x * 16 ^ 4 + d) / 16 / 16 % 16 = d / 16 / 16 % 16 by omega,
        show (x * 16 ^ 4 + d) / 16 % 16 = d / 16 % 16 by omega, show (x * 16 ^ 4 + d) % 16 = d % 16 by omega]
      simp
    unfold key
    rw [e4, ← List.append_assoc]
    exact List.take_append_of_le_length (by simp; omega)
  have hk : key (x * 16 ^ 4 + d) = key (x * 16 ^ 4 + e) := by rw [pre d hd, pre e he]
  show kv (kv [] (key (x * 16 ^ 4 + d)) (cmds cs)) (key (x * 16 ^ 4 + e)) (cmds cs') = _
  rw [hk]
  generalize key (x * 16 ^ 4 + e) = k
  simp [kv]

/-- Two services, apart by 4096 bytes, and the one left. -/
example : key 0x55d0a1b2c3d4 = key 0x55d0a1b2d3d4 := by decide +kernel

example : key 0x401a20 ≠ key 0x401b20 := by decide +kernel

example : (services [(0x401a20, [0x4e4f, 7]), (0x401b20, [3])]).map (fun x => x.2.map (·.2)) = [[0x4e4f, 7], [3]] := by
  decide +kernel

/-! ### Features and the connection -/

/-- C170.  A feature's version is the one given first. -/
theorem C170_feature (fs : List (List Nat × Option (List Nat))) (f : List Nat) (v v' : Option (List Nat))
    (h : ∀ x ∈ fs, x.1 ≠ f) :
    addFeature fs f v = fs ++ [(f, v)] ∧ addFeature (addFeature fs f v) f v' = addFeature fs f v := by
  have h1 : addFeature fs f v = fs ++ [(f, v)] := by
    unfold addFeature
    rw [if_neg]
    simp only [List.any_eq_true, not_exists, not_and]
    intro x hx
    simpa using h x hx
  refine ⟨h1, ?_⟩
  rw [h1]
  unfold addFeature
  rw [if_pos]
  simp

structure CInv (text : List Nat) (c : Conn) : Prop where
  out : c.out = text.take c.written
  le : c.written ≤ text.length

theorem handler_inv (text : List Nat) (as : List Ans) (c : Conn) (h : CInv text c) :
    CInv text (handler text c as) ∧
      ((handler text c as).closed = true → c.closed = false → Ans.fail ∉ as → (handler text c as).out = text) := by
  induction as generalizing c with
  | nil =>
    unfold handler
    by_cases l : c.written < text.length
    · rw [if_pos l]; exact ⟨h, fun h1 h2 => by rw [h1] at h2; cases h2⟩
    · rw [if_neg l]
      refine ⟨⟨h.out, h.le⟩, fun _ _ _ => ?_⟩
      show c.out = text
      rw [h.out, List.take_of_length_le (by omega)]
  | cons a as ih =>
    unfold handler
    by_cases l : c.written < text.length
    · rw [if_pos l]
      cases a with
      | intr =>
        obtain ⟨i1, i2⟩ := ih c h
        exact ⟨i1, fun h1 h2 h3 => i2 h1 h2 (fun hm => h3 (List.mem_cons_of_mem _ hm))⟩
      | again => exact ⟨h, fun h1 h2 => by rw [h1] at h2; cases h2⟩
      | fail => exact ⟨⟨h.out, h.le⟩, fun _ _ h3 => absurd List.mem_cons_self h3⟩
      | took n =>
        have h' : CInv text ⟨c.written + min n (text.length - c.written),
            c.out ++ (text.drop c.written).take (min n (text.length - c.written)), c.closed⟩ := by
          refine ⟨?_, ?_⟩
          · show c.out ++ _ = text.take (c.written + min n (text.length - c.written))
            rw [h.out, List.take_add]
          · show c.written + min n (text.length - c.written) ≤ text.length
            omega
        obtain ⟨i1, i2⟩ := ih _ h'
        exact ⟨i1, fun h1 h2 h3 => i2 h1 h2 (fun hm => h3 (List.mem_cons_of_mem _ hm))⟩
    · rw [if_neg l]
      refine ⟨⟨h.out, h.le⟩, fun _ _ _ => ?_⟩
      show c.out = text
      rw [h.out, List.take_of_length_le (by omega)]

/-- C170.  However the writes are cut and interrupted, a client gets a
    beginning of the document, and all of it when the connection is closed
    without an error. -/
theorem C170_delivered (text : List Nat) (xs : List (Option (List Ans))) :
    let c := calls text ⟨0, [], false⟩ xs
    c.out <+: text ∧ (c.closed = true → (∀ x ∈ xs, ∃ as, x = some as ∧ Ans.fail ∉ as) → c.out = text) := by
  have inv : ∀ (xs : List (Option (List Ans))) (c : Conn), CInv text c → CInv text (calls text c xs) := by
    intro xs
    induction xs with
    | nil => intro c h; exact h
    | cons x xs ih =>
      intro c h
      unfold calls
      split
      · exact h
      · cases x with
        | none => exact ih _ ⟨h.out, h.le⟩
        | some as => exact ih _ (handler_inv text as c h).1
  have fin : ∀ (xs : List (Option (List Ans))) (c : Conn), CInv text c → (c.closed = true → c.out = text) →
      (∀ x ∈ xs, ∃ as, x = some as ∧ Ans.fail ∉ as) → (calls text c xs).closed = true → (calls text c xs).out = text := by
    intro xs
    induction xs with
    | nil => intro c _ hc _ h1; exact hc h1
    | cons x xs ih =>
      intro c h hc hx
      obtain ⟨as, e, hf⟩ := hx x List.mem_cons_self
      subst e
      unfold calls
      by_cases cl : c.closed = true
      · rw [if_pos cl]; exact hc
      · rw [if_neg cl]
        obtain ⟨i1, i2⟩ := handler_inv text as c h
        exact ih _ i1 (fun hcl => i2 hcl (by simpa using cl) hf) (fun x h => hx x (List.mem_cons_of_mem _ h))
  have h0 : CInv text ⟨0, [], false⟩ := ⟨rfl, Nat.zero_le _⟩
  refine ⟨?_, fun h1 h2 => fin xs _ h0 (fun h => by cases h) h2 h1⟩
  rw [(inv xs _ h0).out]
  exact List.take_prefix _ _

/-- C170.  And it is closed once as many writes took something as there are
    bytes left. -/
theorem C170_closes (text : List Nat) (c : Conn) (as : List Ans) (h : ∀ a ∈ as, ∃ n, 0 < n ∧ a = .took n)
    (hl : text.length - c.written ≤ as.length) : (handler text c as).closed = true := by
  induction as generalizing c with
  | nil =>
    unfold handler
    simp at hl
    rw [if_neg (by omega)]
  | cons a as ih =>
    obtain ⟨n, hn, e⟩ := h a List.mem_cons_self
    subst e
    unfold handler
    by_cases l : c.written < text.length
    · rw [if_pos l]
      refine ih _ (fun a ha => h a (List.mem_cons_of_mem _ ha)) ?_
      show text.length - (c.written + min n (text.length - c.written)) ≤ as.length
      simp only [List.length_cons] at hl
      omega
    · rw [if_neg l]

example : calls [1, 2, 3, 4, 5] ⟨0, [], false⟩ [some [.took 2, .intr, .again], some [.took 9]] = ⟨5, [1, 2, 3, 4, 5], true⟩ := by
  decide

end Mtev.Capa
