import Verif.RevAcc

/-!
# Accepting reverse connections (C79) and retrying them (C80)
-/

namespace Mtev.RevAcc

/-! ### The request -/

theorem hasBlank_iff (l : List Nat) : hasBlank l = true ↔ blank <:+: l := by
  induction l with
  | nil => simp [hasBlank, blank]
  | cons b l ih =>
    rw [hasBlank, Bool.or_eq_true, ih, List.isPrefixOf_iff_prefix, List.infix_cons_iff]

/-- A request: it ends with the first blank line and fits the buffer. -/
def IsRequest (req : List Nat) : Prop :=
  blank <:+: req ∧ (∀ p, p <+: req → blank <:+: p → p = req) ∧ req.length ≤ 4096

/-- The acceptor reads the portions in which bytes arrive, one event each, until the loop ends: the buffer, the bytes that were not read, and
how it ended. -/
def readAll : List (List Nat) → List Nat → List Nat × List Nat × Rd
  | [], buf => (buf, [], .wait)
  | ch :: chs, buf =>
    let r := readIntro (ch.map .byte) buf
    if r.2.2 = .wait then readAll chs r.1
    else (r.1, ch.drop (ch.length - r.2.1.length) ++ chs.flatten, r.2.2)

theorem readIntro_byte (x : Nat) (xs : List Rb) (buf : List Nat) (h : buf.length < cmdLen) :
    readIntro (.byte x :: xs) buf = if hasBlank (buf ++ [x]) then (buf ++ [x], xs, .request) else readIntro xs (buf ++ [x]) := by
  rw [readIntro.eq_def, if_pos h]

theorem readIntro_request (pre post buf : List Nat) (hp : pre ≠ []) (h1 : hasBlank (buf ++ pre) = true)
    (h2 : ∀ p, p <+: pre → p ≠ [] → hasBlank (buf ++ p) = true → p = pre) (h3 : (buf ++ pre).length ≤ cmdLen) :
    readIntro ((pre ++ post).map .byte) buf = (buf ++ pre, post.map .byte, .request) := by
  induction pre generalizing buf with
  | nil => exact absurd rfl hp
  | cons x pre ih =>
    rw [List.length_append, List.length_cons] at h3
    rw [List.cons_append, List.map_cons, readIntro_byte _ _ _ (by omega)]
    split
    · rename_i hb
      have := h2 [x] ⟨pre, rfl⟩ (by simp) hb
      simp only [List.cons.injEq, true_and] at this
      rw [← this]; rfl
    · rename_i hb
      have hne : pre ≠ [] := by
        rintro rfl; exact hb h1
      rw [ih (buf ++ [x]) hne (by simpa using h1) ?_ (by simp; omega)]
      · simp
      · intro p hpp _ hpb
        have := h2 (x :: p) (by rw [List.cons_prefix_cons]; exact ⟨rfl, hpp⟩) (by simp) (by simpa using hpb)
        simpa using this

theorem readIntro_wait (xs buf : List Nat) (h : ∀ p, p <+: xs → p ≠ [] → hasBlank (buf ++ p) = false) (hl : (buf ++ xs).length < cmdLen) :
    readIntro (xs.map .byte) buf = (buf ++ xs, [], .wait) := by
  induction xs generalizing buf with
  | nil => rw [List.map_nil, readIntro.eq_def, if_pos (by simpa using hl)]; simp
  | cons x xs ih =>
    rw [List.length_append, List.length_cons] at hl
    rw [List.map_cons, readIntro_byte _ _ _ (by omega), if_neg, ih (buf ++ [x]) ?_ (by simp; omega)]
    · simp
    · intro p hp hne
      have := h (x :: p) (by rw [List.cons_prefix_cons]; exact ⟨rfl, hp⟩) (by simp)
      simpa using this
    · rw [h [x] ⟨xs, rfl⟩ (by simp)]; simp

theorem readIntro_full (pre post buf : List Nat) (h : ∀ p, p <+: pre → p ≠ [] → hasBlank (buf ++ p) = false) (hl : (buf ++ pre).length = cmdLen) :
    readIntro ((pre ++ post).map .byte) buf = (buf ++ pre, post.map .byte, .full) := by
  induction pre generalizing buf with
  | nil =>
    rw [List.append_nil] at hl
    rw [readIntro.eq_def, if_neg (by rw [hl]; omega)]; simp
  | cons x pre ih =>
    rw [List.length_append, List.length_cons] at hl
    rw [List.cons_append, List.map_cons, readIntro_byte _ _ _ (by omega), if_neg, ih (buf ++ [x]) ?_ (by simp; omega)]
    · simp
    · intro p hp hne
      have := h (x :: p) (by rw [List.cons_prefix_cons]; exact ⟨rfl, hp⟩) (by simp)
      simpa using this
    · rw [h [x] ⟨pre, rfl⟩ (by simp)]; simp

/-- The three ways reading can go on from a buffer. -/
theorem readAll_spec (chs : List (List Nat)) (buf pre post : List Nat) (hc : chs.flatten = pre ++ post) (r : Rd)
    (hn : ∀ p, p <+: pre → p ≠ pre → p ≠ [] → hasBlank (buf ++ p) = false)
    (hr : (r = .request ∧ pre ≠ [] ∧ hasBlank (buf ++ pre) = true ∧ (buf ++ pre).length ≤ cmdLen) ∨
      (r = .wait ∧ post = [] ∧ (pre ≠ [] → hasBlank (buf ++ pre) = false) ∧ (buf ++ pre).length < cmdLen) ∨
      (r = .full ∧ pre ≠ [] ∧ hasBlank (buf ++ pre) = false ∧ (buf ++ pre).length = cmdLen)) :
    readAll chs buf = (buf ++ pre, post, r) := by
  induction chs generalizing buf pre with
  | nil =>
    simp only [List.flatten_nil, List.nil_eq, List.append_eq_nil_iff] at hc
    obtain ⟨rfl, rfl⟩ := hc
    rcases hr with ⟨_, h, _⟩ | ⟨rfl, _⟩ | ⟨_, h, _⟩
    · exact absurd rfl h
    · simp [readAll]
    · exact absurd rfl h
  | cons ch chs ih =>
    rw [List.flatten_cons] at hc
    by_cases hcase : ch.length < pre.length ∨ r = .wait
    · -- the portion is used up
      have hpre : ∃ pre', pre = ch ++ pre' ∧ chs.flatten = pre' ++ post := by
        rcases List.append_eq_append_iff.mp hc with ⟨a, e1, e2⟩ | ⟨a, e1, e2⟩
        · exact ⟨a, e1, e2⟩
        · have : a = [] := by
            rcases hcase with hcase | hw
            · rw [e1, List.length_append] at hcase; omega
            · subst hw
              rcases hr with ⟨h, _⟩ | ⟨_, h, _⟩ | ⟨h, _⟩
              · cases h
              · rw [h] at e2; exact (List.append_eq_nil_iff.mp e2.symm).1
              · cases h
          subst this
          exact ⟨[], by simpa using e1.symm, by simpa using e2.symm⟩
      obtain ⟨pre', rfl, hf⟩ := hpre
      have hlen : (buf ++ ch).length < cmdLen := by
        rw [List.length_append]
        rcases hr with ⟨_, h, _, hl⟩ | ⟨_, _, _, hl⟩ | ⟨_, h, _, hl⟩
        · rw [List.length_append, List.length_append] at hl
          rcases hcase with hcase | hw
          · rw [List.length_append] at hcase; omega
          · simp_all
        · rw [List.length_append, List.length_append] at hl; omega
        · rw [List.length_append, List.length_append] at hl
          rcases hcase with hcase | hw
          · rw [List.length_append] at hcase; omega
          · simp_all
      have hno : ∀ p, p <+: ch → p ≠ [] → hasBlank (buf ++ p) = false := by
        intro p hp hne
        by_cases e : p = ch ++ pre'
        · have : pre' = [] := by
            have h1 := hp.length_le
            rw [e, List.length_append] at h1
            exact List.eq_nil_of_length_eq_zero (by omega)
          rcases hr with ⟨h1, _⟩ | ⟨_, _, h, _⟩ | ⟨_, _, h, _⟩
          · rcases hcase with hcase | hw
            · rw [this] at hcase; simp at hcase
            · rw [h1] at hw; cases hw
          · rw [e]; exact h (by rw [← e]; exact hne)
          · rw [e]; exact h
        · exact hn p (hp.trans (List.prefix_append _ _)) e hne
      rw [readAll, readIntro_wait ch buf hno hlen]
      simp only [if_true]
      rw [ih (buf ++ ch) pre' hf ?_ ?_]
      · simp
      · intro p hp hne hnil
        have := hn (ch ++ p) ((List.prefix_append_right_inj ch).mpr hp) (by simpa using hne) (by simp [hnil])
        simpa using this
      · have hne' : r ≠ .wait → pre' ≠ [] := by
          intro hw e
          rcases hcase with hcase | h
          · rw [e] at hcase; simp at hcase
          · exact hw h
        rcases hr with ⟨h1, h2, h3, h4⟩ | ⟨h1, h2, h3, h4⟩ | ⟨h1, h2, h3, h4⟩
        · exact .inl ⟨h1, hne' (by simp [h1]), by simpa using h3, by simpa using h4⟩
        · exact .inr (.inl ⟨h1, h2, fun h => by simpa using h3 (by simp [h]), by simpa using h4⟩)
        · exact .inr (.inr ⟨h1, hne' (by simp [h1]), by simpa using h3, by simpa using h4⟩)
    · -- the loop ends within the portion
      push Not at hcase
      obtain ⟨hle, hw⟩ := hcase
      have hch : ∃ a, ch = pre ++ a ∧ post = a ++ chs.flatten := by
        rcases List.append_eq_append_iff.mp hc with ⟨a, e1, e2⟩ | ⟨a, e1, e2⟩
        · have : a = [] := by rw [e1, List.length_append] at hle; exact List.eq_nil_of_length_eq_zero (by omega)
          subst this
          exact ⟨[], by simpa using e1.symm, by simpa using e2.symm⟩
        · exact ⟨a, e1, e2⟩
      obtain ⟨a, rfl, rfl⟩ := hch
      have hd : (pre ++ a).drop ((pre ++ a).length - (a.map Rb.byte).length) = a := by
        rw [List.length_map, List.length_append, Nat.add_sub_cancel, List.drop_left]
      rcases hr with ⟨h1, h2, h3, h4⟩ | ⟨h1, _⟩ | ⟨h1, h2, h3, h4⟩
      · subst h1
        rw [readAll, readIntro_request pre a buf h2 h3 ?_ h4]
        · simp only [reduceCtorEq, if_false]; rw [hd]
        · intro p hp hnil hb
          by_contra hne
          rw [hn p hp hne hnil] at hb; cases hb
      · exact absurd h1 hw
      · subst h1
        rw [readAll, readIntro_full pre a buf ?_ h4]
        · simp only [reduceCtorEq, if_false]; rw [hd]
        · intro p hp hne
          by_cases e : p = pre
          · rw [e]; exact h3
          · exact hn p hp e hne

/-- However the bytes arrive, the acceptor takes the request up to the first blank line and not a byte more: the frames that follow at once are left for
the connection. -/
theorem C79_request (chs : List (List Nat)) (req rest : List Nat) (h : IsRequest req) (hc : chs.flatten = req ++ rest) :
    readAll chs [] = (req, rest, .request) := by
  obtain ⟨h1, h2, h3⟩ := h
  have := readAll_spec chs [] req rest hc .request ?_ (.inl ⟨rfl, ?_, by simpa using (hasBlank_iff req).mpr h1, by simpa [cmdLen] using h3⟩)
  · simpa using this
  · intro p hp hne _
    by_contra hb
    rw [List.nil_append, Bool.not_eq_false, hasBlank_iff] at hb
    exact hne (h2 p hp hb)
  · rintro rfl
    have := h1.length_le
    simp [blank] at this

/-- A request without a blank line in its first 4096 bytes: the acceptor waits for more below that, and gives up at 4096, however the bytes arrive. -/
theorem C79_too_long (chs : List (List Nat)) (h : ¬ blank <:+: chs.flatten.take 4096) :
    (chs.flatten.length < 4096 → readAll chs [] = (chs.flatten, [], .wait)) ∧
    (4096 ≤ chs.flatten.length → readAll chs [] = (chs.flatten.take 4096, chs.flatten.drop 4096, .full)) := by
  have hn : ∀ p, p <+: chs.flatten.take 4096 → hasBlank ([] ++ p) = false := by
    intro p hp
    by_contra hb
    rw [List.nil_append, Bool.not_eq_false, hasBlank_iff] at hb
    exact h (hb.trans hp.isInfix)
  constructor
  · intro hl
    rw [List.take_of_length_le (by omega)] at hn
    have := readAll_spec chs [] chs.flatten [] (by simp) .wait (fun p hp _ _ => hn p hp)
      (.inr (.inl ⟨rfl, rfl, fun _ => hn _ List.prefix_rfl, by simpa [cmdLen] using hl⟩))
    simpa using this
  · intro hl
    have hlen : (chs.flatten.take 4096).length = 4096 := by rw [List.length_take]; omega
    have := readAll_spec chs [] (chs.flatten.take 4096) (chs.flatten.drop 4096) (List.take_append_drop _ _).symm .full (fun p hp _ _ => hn p hp)
      (.inr (.inr ⟨rfl, (by intro e; rw [e] at hlen; cases hlen), hn _ List.prefix_rfl, by rw [List.nil_append]; exact hlen⟩))
    simpa using this

example : IsRequest (bytesOf "RSE /mtev/foo\r\n\r\n") := by
  refine ⟨(hasBlank_iff _).mp (by decide +kernel), ?_, by decide +kernel⟩
  intro p hp hb
  have h1 : ∀ i < (bytesOf "RSE /mtev/foo\r\n\r\n").length, hasBlank ((bytesOf "RSE /mtev/foo\r\n\r\n").take i) = false := by decide +kernel
  rw [List.prefix_iff_eq_take] at hp
  by_contra hne
  have hl : p.length < (bytesOf "RSE /mtev/foo\r\n\r\n").length := by
    by_contra hc
    rw [List.take_of_length_le (by omega)] at hp
    exact hne hp
  have := h1 _ hl
  rw [← hp, (hasBlank_iff p).mpr hb] at this
  cases this

example : readAll [bytesOf "RSE /mt", bytesOf "ev/foo\r\n\r", bytesOf "\nFRAME", bytesOf "S"] [] =
    (bytesOf "RSE /mtev/foo\r\n\r\n", bytesOf "FRAMES", .request) := by decide +kernel

/-! ### Who is registered -/

/-- A connection is up under the part before `#` of an identifier for which its certificate and the access lists were asked. -/
def Granted (c : Conf) (k : Nat) (id : List Nat) : Prop :=
  ∃ full, clip full = id ∧ (∀ p ∈ c.prefixes, p <+: full → full.drop p.length = (c.cn k).getD []) ∧ c.acl k full = true

structure Inv (c : Conf) (s : St) : Prop where
  up : ∀ id k, (id, k) ∈ s.table → s.conn k = .up id
  nodup : (s.table.map (·.1)).Nodup
  granted : ∀ k id, s.conn k = .up id → Granted c k id

theorem inv_fresh (c : Conf) : Inv c .fresh := ⟨by simp [St.fresh], by simp [St.fresh], by simp [St.fresh]⟩

theorem set_conn (s : St) (k : Nat) (p : Phase) (i : Nat) : (s.set k p).conn i = if i = k then p else s.conn i := rfl

theorem lookup_none {s : St} {id : List Nat} (h : (lookup s id).isSome = false) : ∀ e ∈ s.table, e.1 ≠ id := by
  unfold lookup at h
  simp only [Option.isSome_map, List.find?_isSome, decide_eq_true_eq, Bool.eq_false_iff, ne_eq, not_exists, not_and] at h
  exact fun e he => h e he

/-- Shutting down a connection that is not registered, or is registered under this identifier. -/
theorem Inv.shut {c : Conf} {s : St} (h : Inv c s) (k : Nat) (id : Option (List Nat)) (hk : ∀ i, s.conn k = .up i → id = some i) :
    Inv c (shutdown s k id) := by
  have hg : ∀ (t : St), t.conn = (fun i => if i = k then .gone else s.conn i) → ∀ j i, t.conn j = .up i → Granted c j i := by
    intro t ht j i hj
    rw [ht] at hj
    simp only at hj
    split at hj
    · cases hj
    · exact h.granted j i hj
  cases id with
  | none =>
    refine ⟨?_, h.nodup, hg _ rfl⟩
    intro i j hij
    have := h.up i j hij
    show (if j = k then Phase.gone else s.conn j) = .up i
    rw [if_neg]
    · exact this
    · rintro rfl; have := hk i this; cases this
  | some d =>
    refine ⟨?_, (h.nodup.sublist (List.Sublist.map _ List.filter_sublist)), hg _ rfl⟩
    intro i j hij
    have hij' : (i, j) ∈ s.table.filter (fun e => decide (e.1 ≠ d)) := hij
    rw [List.mem_filter] at hij'
    have h1 := h.up i j hij'.1
    show (if j = k then Phase.gone else s.conn j) = .up i
    rw [if_neg]
    · exact h1
    · rintro rfl
      have := hk i h1
      simp only [Option.some.injEq] at this
      rw [this] at hij'; simp at hij'

theorem cnOk_spec {ps : List (List Nat)} {cn : Option (List Nat)} {id : List Nat} (h : cnOk ps cn id = true) :
    ∀ p ∈ ps, p <+: id → id.drop p.length = cn.getD [] := by
  intro p hp hpre
  unfold cnOk at h
  rw [List.all_eq_true] at h
  have := h p hp
  rw [List.isPrefixOf_iff_prefix.mpr hpre] at this
  simpa using this

theorem Inv.step {c : Conf} {s : St} (h : Inv c s) (e : Ev) : Inv c (step c s e) := by
  have hset : ∀ k p, (∀ i, s.conn k ≠ .up i) → (∀ i, p ≠ .up i) → Inv c (s.set k p) := by
    intro k p h1 h2
    refine ⟨?_, h.nodup, ?_⟩
    · intro i j hij
      have := h.up i j hij
      rw [set_conn, if_neg]
      · exact this
      · rintro rfl; exact h1 i this
    · intro j i hj
      rw [set_conn] at hj
      split at hj
      · exact absurd hj (h2 i)
      · exact h.granted j i hj
  cases e with
  | lost k =>
    unfold RevAcc.step
    simp only
    split
    · rename_i hk; exact h.shut k none (by simp [hk])
    · rename_i id hk; exact h.shut k (some id) (by rw [hk]; simp)
    · exact h
  | input k rs =>
    unfold RevAcc.step
    simp only
    split
    · rename_i buf hk
      have hnot : ∀ i, s.conn k ≠ .up i := by rw [hk]; simp
      have hnone : ∀ d, Inv c (shutdown s k d) := fun d => h.shut k d (fun i hi => absurd hi (hnot i))
      split
      · exact hset k _ hnot (by simp)
      · unfold decideOn
        simp only
        split
        · exact hnone none
        · split
          · exact hnone _
          · split
            · exact hnone _
            · split
              · exact hnone _
              · rename_i h1 h2 h3 h4
                have hl := lookup_none (by simpa using h4)
                refine ⟨?_, ?_, ?_⟩
                · intro i j hij
                  show (if j = k then _ else s.conn j) = .up i
                  have hij : (i, j) ∈ s.table ++ [(clip (idOf (readIntro rs buf).1), k)] := hij
                  rw [List.mem_append, List.mem_singleton, Prod.mk.injEq] at hij
                  rcases hij with hij | ⟨rfl, rfl⟩
                  · have := h.up i j hij
                    rw [if_neg]
                    · exact this
                    · rintro rfl; exact hnot i this
                  · rw [if_pos rfl]
                · show ((s.table ++ [(clip (idOf (readIntro rs buf).1), k)]).map (·.1)).Nodup
                  rw [List.map_append, List.nodup_append]
                  refine ⟨h.nodup, by simp, ?_⟩
                  intro a ha b hb
                  simp only [List.map_cons, List.map_nil, List.mem_singleton] at hb
                  rw [List.mem_map] at ha
                  obtain ⟨x, hx, rfl⟩ := ha
                  rw [hb]; exact hl x hx
                · intro j i hj
                  have hj' : (if j = k then Phase.up (clip (idOf (readIntro rs buf).1)) else s.conn j) = .up i := hj
                  split at hj'
                  · rename_i ejk
                    simp only [Phase.up.injEq] at hj'
                    subst ejk
                    exact ⟨_, hj', cnOk_spec (by simpa using h2), by simpa using h3⟩
                  · exact h.granted j i hj'
      · exact hnone _
      · exact hnone _
      · exact hset k _ hnot (by simp)
    · exact h

theorem Inv.run {c : Conf} {s : St} (h : Inv c s) (es : List Ev) : Inv c (run c s es) := by
  induction es generalizing s with
  | nil => exact h
  | cons e es ih => exact ih (h.step e)

theorem lookup_mem {s : St} {id : List Nat} {k : Nat} (h : lookup s id = some k) : (id, k) ∈ s.table := by
  unfold lookup at h
  rw [Option.map_eq_some_iff] at h
  obtain ⟨e, h1, h2⟩ := h
  have := List.find?_some h1
  have hm := List.mem_of_find?_eq_some h1
  simp only [decide_eq_true_eq] at this
  rw [← h2, ← this]; exact hm

/-- Who asks for an identifier is connected to a connection that is up under it, was allowed by the access lists, and, if the identifier it gave has a
prefix that requires a certificate, has a certificate with the rest as its name. -/
theorem C79_granted (c : Conf) (es : List Ev) (id : List Nat) (k : Nat) (h : lookup (run c .fresh es) id = some k) :
    (run c .fresh es).conn k = .up id ∧ Granted c k id := by
  have i := (inv_fresh c).run es
  have h1 := i.up id k (lookup_mem h)
  exact ⟨h1, i.granted k id h1⟩

theorem clip_append {p r : List Nat} (h : 35 ∉ p) : clip (p ++ r) = p ++ clip r := by
  unfold clip
  rw [List.takeWhile_append_of_pos]
  intro a ha
  simp only [bne_iff_ne, ne_eq]
  rintro rfl; exact h ha

/-- Under an identifier with a prefix that requires a certificate only the connection with the certificate of that name is found, if no
certificate has a `#` in its name.  What is missing are the others (`C79_cn_violated`). -/
theorem C79_cn_partial (c : Conf) (es : List Ev) (id p : List Nat) (k : Nat) (h : lookup (run c .fresh es) id = some k) (hp : p ∈ c.prefixes)
    (hid : p <+: id) (h1 : 35 ∉ p) (h2 : 35 ∉ (c.cn k).getD []) : id = p ++ (c.cn k).getD [] := by
  obtain ⟨_, full, rfl, hcn, _⟩ := C79_granted c es id k h
  have hpf : p <+: full := hid.trans (List.takeWhile_prefix _)
  obtain ⟨r, rfl⟩ := hpf
  have := hcn p hp (List.prefix_append _ _)
  rw [List.drop_left] at this
  rw [clip_append h1, this]
  congr 1
  have := clip_append (r := []) h2
  simpa [clip] using this

/-- Names and requests for the examples. -/
def bytes (s : String) : List Rb := (bytesOf s).map .byte

/-- `mtev/` requires a certificate; the access lists allow everything but `secret`.  Connection 1 has a certificate for `foo`, 2 none, 3 one for `foo#bar`. -/
def sampleConf : Conf where
  prefixes := [bytesOf "mtev/"]
  acl := fun _ id => decide (id ≠ bytesOf "secret")
  cn := fun k => if k = 1 then some (bytesOf "foo") else if k = 3 then some (bytesOf "foo#bar") else none

example : lookup (run sampleConf .fresh [.input 2 (bytes "RSE /mtev/foo\r\n\r\n"), .input 1 (bytes "RSE /mtev/f"), .input 1 (bytes "oo#1\r\n\r\n")]) (bytesOf "mtev/foo") = none ∧
    lookup (run sampleConf .fresh [.input 1 (bytes "RSE /mtev/f"), .input 1 (bytes "oo\r\nX-Bind: *\r\n\r\n"), .input 3 (bytes "RSE /mtev/foo#bar\r\n\r\n")]) (bytesOf "mtev/foo") = some 1 := by
  refine ⟨?_, ?_⟩ <;> decide +kernel

/-- The name is compared before the identifier is cut at `#`: the holder of a certificate for `foo#bar` is found under `mtev/foo`. -/
theorem C79_cn_violated : lookup (run sampleConf .fresh [.input 3 (bytes "RSE /mtev/foo#bar\r\n\r\n")]) (bytesOf "mtev/foo") = some 3 ∧
    sampleConf.cn 3 ≠ some (bytesOf "foo") := by
  refine ⟨?_, ?_⟩ <;> decide +kernel

/-- A request is refused for its certificate or by the access lists while its identifier is in use. -/
def Clash (c : Conf) (s : St) : Ev → Prop
  | .input k rs => ∃ buf, s.conn k = .reading buf ∧ (readIntro rs buf).2.2 = .request ∧ bytesOf "RSE /" <+: (readIntro rs buf).1 ∧
      (cnOk c.prefixes (c.cn k) (idOf (readIntro rs buf).1) = false ∨ c.acl k (idOf (readIntro rs buf).1) = false) ∧
      lookup s (idOf (readIntro rs buf).1) ≠ none
  | .lost _ => False

/-- No event of the history is such a clash. -/
def NoClash (c : Conf) (s : St) : List Ev → Prop
  | [] => True
  | e :: es => ¬ Clash c s e ∧ NoClash c (step c s e) es

theorem lookup_append {s : St} {id : List Nat} {k : Nat} {t : St} (e : List Nat × Nat) (ht : t.table = s.table ++ [e]) (h : lookup s id = some k) :
    lookup t id = some k := by
  unfold lookup at h ⊢
  rw [ht, List.find?_append]
  rw [Option.map_eq_some_iff] at h ⊢
  obtain ⟨x, h1, h2⟩ := h
  exact ⟨x, by rw [h1]; rfl, h2⟩

theorem lookup_filter {s t : St} {id d : List Nat} (ht : t.table = s.table.filter (fun e => decide (e.1 ≠ d))) (hne : id ≠ d) :
    lookup t id = lookup s id := by
  unfold lookup
  rw [ht, List.find?_filter]
  congr 2
  funext e
  by_cases h : e.1 = id
  · simp [h, hne]
  · simp [h]

/-- Nothing registered is lost. -/
def Kept (s : St) : Prop := ∀ k id, s.conn k = .up id → lookup s id = some k

theorem Kept.shut {s : St} (h : Kept s) (k : Nat) (d : Option (List Nat)) (hd : ∀ x, d = some x → ∀ j, j ≠ k → s.conn j ≠ .up x) :
    Kept (shutdown s k d) := by
  intro j id hj
  have hj' : (if j = k then Phase.gone else s.conn j) = .up id := by cases d <;> exact hj
  split at hj'
  · cases hj'
  · rename_i hne
    have h1 := h j id hj'
    cases d with
    | none => exact h1
    | some x =>
      rw [← h1]
      apply lookup_filter (d := x) rfl
      rintro rfl
      exact hd _ rfl j hne hj'

theorem Kept.step {c : Conf} {s : St} (h : Kept s) (e : Ev) (hn : ¬ Clash c s e) : Kept (step c s e) := by
  have hset : ∀ k p, (∀ i, p ≠ .up i) → Kept (s.set k p) := by
    intro k p hp j id hj
    rw [set_conn] at hj
    split at hj
    · exact absurd hj (hp id)
    · exact h j id hj
  cases e with
  | lost k =>
    unfold RevAcc.step
    simp only
    split
    · exact h.shut k none (by simp)
    · rename_i i hk
      refine h.shut k (some i) ?_
      intro x hx j hne hj
      simp only [Option.some.injEq] at hx
      subst hx
      have := h j i hj
      rw [h k i hk] at this
      simp only [Option.some.injEq] at this
      exact hne this.symm
    · exact h
  | input k rs =>
    unfold RevAcc.step
    simp only
    split
    · rename_i buf hk
      split
      · exact hset _ _ (by simp)
      · rename_i hr
        unfold decideOn
        simp only
        split
        · exact h.shut k none (by simp)
        · rename_i hp
          have hp' : bytesOf "RSE /" <+: (readIntro rs buf).1 := by
            rw [← List.isPrefixOf_iff_prefix]; simpa using hp
          have hfree : (cnOk c.prefixes (c.cn k) (idOf (readIntro rs buf).1) = false ∨ c.acl k (idOf (readIntro rs buf).1) = false) →
              lookup s (idOf (readIntro rs buf).1) = none := by
            intro ho
            by_contra hl
            exact hn ⟨buf, hk, hr, hp', ho, hl⟩
          have hs : lookup s (idOf (readIntro rs buf).1) = none → Kept (shutdown s k (some (idOf (readIntro rs buf).1))) := by
            intro hl
            refine h.shut k _ ?_
            intro x hx j _ hj
            simp only [Option.some.injEq] at hx
            rw [hx] at hl
            rw [h j x hj] at hl; cases hl
          split
          · rename_i h2; exact hs (hfree (.inl (by simpa using h2)))
          · split
            · rename_i h3; exact hs (hfree (.inr (by simpa using h3)))
            · split
              · exact h.shut k none (by simp)
              · rename_i h4
                intro j id hj
                have hj' : (if j = k then Phase.up (clip (idOf (readIntro rs buf).1)) else s.conn j) = .up id := hj
                split at hj'
                · rename_i e
                  simp only [Phase.up.injEq] at hj'
                  have hl := lookup_none (by simpa using h4)
                  unfold lookup
                  show ((s.table ++ [(clip (idOf (readIntro rs buf).1), k)]).find? _).map _ = _
                  rw [List.find?_append, List.find?_eq_none.mpr (by
                    intro x hx
                    have := hl x hx
                    rw [hj'] at this
                    simpa using this)]
                  simp [hj', e]
                · exact lookup_append _ rfl (h j id hj')
      · exact h.shut k none (by simp)
      · exact h.shut k none (by simp)
      · exact hset _ _ (by simp)
    · exact h

/-- While a connection is up it is found under its identifier, and no other connection takes its place, as long as no request that is refused names an
identifier in use.  What is missing are those requests (`C79_evict_violated`). -/
theorem C79_registered_partial (c : Conf) (es : List Ev) (hn : NoClash c .fresh es) (k : Nat) (id : List Nat) (hk : (run c .fresh es).conn k = .up id) :
    lookup (run c .fresh es) id = some k := by
  have : ∀ (es : List Ev) (s : St), Kept s → NoClash c s es → Kept (run c s es) := by
    intro es
    induction es with
    | nil => intro s h _; exact h
    | cons e es ih => intro s h hn; exact ih _ (h.step e hn.1) hn.2
  exact this es .fresh (by simp [Kept, St.fresh]) hn k id hk

/-- The hypotheses are met by a history in which another connection is refused because the identifier is in use. -/
example : NoClash sampleConf .fresh [.input 1 (bytes "RSE /a\r\n\r\n"), .input 2 (bytes "RSE /a\r\n\r\n")] ∧
    (run sampleConf .fresh [.input 1 (bytes "RSE /a\r\n\r\n"), .input 2 (bytes "RSE /a\r\n\r\n")]).conn 1 = .up (bytesOf "a") ∧
    (run sampleConf .fresh [.input 1 (bytes "RSE /a\r\n\r\n"), .input 2 (bytes "RSE /a\r\n\r\n")]).conn 2 = .gone := by
  refine ⟨⟨?_, ?_, trivial⟩, ?_, ?_⟩
  · rintro ⟨buf, _, _, _, _, h⟩; exact h rfl
  · rintro ⟨buf, h1, _, _, h, _⟩
    have hb : buf = [] := by
      have : (step sampleConf .fresh (.input 1 (bytes "RSE /a\r\n\r\n"))).conn 2 = .reading [] := by decide +kernel
      rw [this] at h1; simpa using h1.symm
    subst hb
    revert h
    decide +kernel
  · decide +kernel
  · decide +kernel

/-- A connection without a certificate asks for `mtev/foo` and is refused, but takes the entry of the connection that is up under that name out of the table:
nobody finds it any more. -/
theorem C79_evict_violated :
    lookup (run sampleConf .fresh [.input 1 (bytes "RSE /mtev/foo\r\n\r\n")]) (bytesOf "mtev/foo") = some 1 ∧
    (run sampleConf .fresh [.input 1 (bytes "RSE /mtev/foo\r\n\r\n"), .input 2 (bytes "RSE /mtev/foo\r\n\r\n")]).conn 2 = .gone ∧
    (run sampleConf .fresh [.input 1 (bytes "RSE /mtev/foo\r\n\r\n"), .input 2 (bytes "RSE /mtev/foo\r\n\r\n")]).conn 1 = .up (bytesOf "mtev/foo") ∧
    lookup (run sampleConf .fresh [.input 1 (bytes "RSE /mtev/foo\r\n\r\n"), .input 2 (bytes "RSE /mtev/foo\r\n\r\n")]) (bytesOf "mtev/foo") = none := by
  refine ⟨?_, ?_, ?_, ?_⟩ <;> decide +kernel

/-- A peer that closes the connection before the blank line leaves the thread in an endless loop, whatever it sent before. -/
theorem C79_hang_violated (c : Conf) (s : St) (k : Nat) (buf xs : List Nat) (hk : s.conn k = .reading buf)
    (hb : ∀ p, p <+: xs → p ≠ [] → hasBlank (buf ++ p) = false) (hl : (buf ++ xs).length < 4096) :
    (step c s (.input k (xs.map .byte ++ [.eof]))).conn k = .hung := by
  have : ∀ (xs buf : List Nat), (∀ p, p <+: xs → p ≠ [] → hasBlank (buf ++ p) = false) → (buf ++ xs).length < 4096 →
      (readIntro (xs.map .byte ++ [.eof]) buf).2.2 = .hang := by
    intro xs
    induction xs with
    | nil => intro buf _ hl; rw [List.map_nil, List.nil_append, readIntro.eq_def, if_pos (by simpa [cmdLen] using hl)]
    | cons x xs ih =>
      intro buf hb hl
      rw [List.length_append, List.length_cons] at hl
      rw [List.map_cons, List.cons_append, readIntro_byte _ _ _ (by show buf.length < 4096; omega), if_neg]
      · refine ih (buf ++ [x]) ?_ (by simp; omega)
        intro p hp hne
        have := hb (x :: p) (by rw [List.cons_prefix_cons]; exact ⟨rfl, hp⟩) (by simp)
        simpa using this
      · rw [hb [x] ⟨xs, rfl⟩ (by simp)]; simp
  unfold step
  simp only [hk]
  rw [this xs buf hb hl]
  simp [St.set]

example : (run sampleConf .fresh [.input 5 (bytes "RSE /x" ++ [.eof])]).conn 5 = .hung := by decide +kernel

/-- Without an end before the blank line, the loop always ends. -/
theorem C79_ends_partial (rs : List Rb) (buf : List Nat) (h : .eof ∉ rs) : (readIntro rs buf).2.2 ≠ .hang := by
  fun_induction readIntro rs buf <;> simp_all

/-! ### Retries -/

theorem backoff_bounds {lo hi cur : Nat} (h1 : lo ≤ hi) : lo ≤ backoff lo hi cur ∧ backoff lo hi cur ≤ hi := by
  unfold backoff; split <;> omega

/-- With an initial interval of at most the maximum, every delay lies between the two, whatever happens to the connection. -/
theorem C80_bounds (lo hi : Nat) (h : lo ≤ hi) (l : List Life) (cur : Nat) : ∀ d ∈ delays lo hi cur l, lo ≤ d ∧ d ≤ hi := by
  induction l generalizing cur with
  | nil => simp [delays]
  | cons e l ih =>
    cases e with
    | made => exact ih cur
    | lost =>
      intro d hd
      rw [delays, List.mem_cons] at hd
      rcases hd with rfl | hd
      · exact backoff_bounds h
      · exact ih _ d hd

/-- The delays double from the initial interval up to the maximum, and stay there. -/
theorem C80_doubling (lo hi n : Nat) (h0 : 0 < lo) (h : lo ≤ hi) (h2 : hi ≤ 3600000) (i : Nat) (hi' : i < n) :
    (delays lo hi 0 (List.replicate n .lost))[i]? = some (min hi (lo * 2 ^ i)) := by
  have gen : ∀ (n i j : Nat), i < n → (delays lo hi (min hi (lo * 2 ^ j)) (List.replicate n .lost))[i]? = some (min hi (lo * 2 ^ (j + 1 + i))) := by
    intro n
    induction n with
    | zero => intro i j h; omega
    | succ n ih =>
      intro i j hin
      have hpow : 0 < 2 ^ j := Nat.pow_pos (by omega)
      have hpos : lo ≤ lo * 2 ^ j := Nat.le_mul_of_pos_right _ hpow
      have e : backoff lo hi (min hi (lo * 2 ^ j)) = min hi (lo * 2 ^ (j + 1)) := by
        have e1 : lo * 2 ^ (j + 1) = lo * 2 ^ j * 2 := by rw [Nat.pow_succ, Nat.mul_assoc]
        rw [e1]
        generalize lo * 2 ^ j = x at hpos
        unfold backoff
        rw [if_neg (by omega), Nat.mod_eq_of_lt (by omega)]
        omega
      rw [List.replicate_succ, delays, e]
      cases i with
      | zero => simp
      | succ i =>
        rw [List.getElem?_cons_succ, ih i (j + 1) (by omega)]
        congr 4; omega
  cases n with
  | zero => omega
  | succ n =>
    have e : backoff lo hi 0 = min hi (lo * 2 ^ 0) := by unfold backoff; simp; omega
    rw [List.replicate_succ, delays, e]
    cases i with
    | zero => simp
    | succ i => rw [List.getElem?_cons_succ, gen n i 0 (by omega)]; congr 4; omega

example : delays (minInterval none) (maxInterval none) 0 [.lost, .lost, .lost, .lost, .lost] = [1000, 2000, 4000, 8000, 8000] := by decide +kernel
example : delays (minInterval (some 1)) (maxInterval (some 99999999)) 0 [.lost, .lost] = [100, 200] ∧ maxInterval (some 99999999) = 3600000 := by decide +kernel

/-- C80: the initial interval is the configured one, but at least 100 ms; the largest one is the configured one, but at most an hour.
What is missing: negative numbers, see C80_limits_violated. -/
theorem C80_intervals_partial (i : Int) (h : i < 2 ^ 31) :
    ((minInterval (some i) : Nat) : Int) = (if i < 100 then 100 else i) ∧
    (0 ≤ i → ((maxInterval (some i) : Nat) : Int) = if i ≤ 3600 * 1000 then i else 3600 * 1000) := by
  constructor
  · show (((max i 100 % 2 ^ 32).toNat : Nat) : Int) = _
    split <;> omega
  · intro h0
    show (((min i (3600 * 1000) % 2 ^ 32).toNat : Nat) : Int) = _
    split <;> omega

/-- A connection that was made does not bring back the initial interval. -/
theorem C80_reset_violated : delays (minInterval none) (maxInterval none) 0 [.lost, .lost, .lost, .made, .lost] = [1000, 2000, 4000, 8000] := by decide +kernel

/-- The documented limits can be passed: an initial interval above the maximum is used at first; a negative maximum is none; a maximum of 0 means that every
other attempt is made at once. -/
theorem C80_limits_violated :
    delays (minInterval (some 60000)) (maxInterval (some 5000)) 0 [.lost, .lost] = [60000, 5000] ∧
    3600000 < maxInterval (some (-1)) ∧
    delays (minInterval none) (maxInterval (some 0)) 0 [.lost, .lost, .lost, .lost] = [1000, 0, 1000, 0] := by
  refine ⟨?_, ?_, ?_⟩ <;> decide +kernel

end Mtev.RevAcc
