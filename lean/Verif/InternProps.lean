import Verif.Intern
import Mathlib.Tactic.Ring
import Mathlib.Data.List.Count
import Mathlib.Data.List.Nodup

/-!
C25: interning.  Handles are addresses.
-/

namespace Mtev.Intern

local macro "om" : tactic => `(tactic| ((try dsimp only) <;> omega))

/-! ### The executions -/

/-- Lengths for which the header has room: the object fits in 2^23 bytes. -/
def Small (k : Key) : Prop := 8 + (k.bytes.length + 3) / 4 * 4 ≤ 2 ^ 23

instance (k : Key) : Decidable (Small k) := by unfold Small; infer_instance

/-- Callers intern what fits (`copy` and `release` are only possible with a reference). -/
def Contract (x : Act) : Prop :=
  match x with
  | .start key => Small key
  | _ => True

instance (x : Act) : Decidable (Contract x) := by cases x <;> unfold Contract <;> infer_instance

/-- States that threads can bring about. -/
inductive Reach : S → Prop
  | start : Reach start
  | step {s t : S} (x : Act) : Reach s → Contract x → act x s = some t → Reach t

/-! ### Counting -/

def cnt (p : Th → Nat) (l : List Th) : Nat := (l.map p).sum

theorem cnt_cons (p : Th → Nat) (t : Th) (l : List Th) : cnt p (t :: l) = p t + cnt p l := by simp [cnt]

theorem cnt_set (p : Th → Nat) (u : Th) : ∀ {l : List Th} {k : Nat} {t : Th}, l[k]? = some t →
    cnt p (l.set k u) + p t = p u + cnt p l
  | [], k, t, h => by simp at h
  | a :: l, 0, t, h => by simp at h; subst h; simp only [List.set_cons_zero, cnt_cons]; omega
  | a :: l, k + 1, t, h => by
    have := cnt_set p u (l := l) (k := k) (by simpa using h)
    simp only [List.set_cons_succ, cnt_cons]; omega

theorem cnt_erase (p : Th → Nat) : ∀ {l : List Th} {k : Nat} {t : Th}, l[k]? = some t →
    cnt p (l.eraseIdx k) + p t = cnt p l
  | [], k, t, h => by simp at h
  | a :: l, 0, t, h => by simp at h; subst h; simp only [List.eraseIdx_cons_zero, cnt_cons]; omega
  | a :: l, k + 1, t, h => by
    have := cnt_erase p (l := l) (k := k) (by simpa using h)
    simp only [List.eraseIdx_cons_succ, cnt_cons]; omega

theorem cnt_le (p : Th → Nat) {l : List Th} {t : Th} (h : t ∈ l) : p t ≤ cnt p l := by
  induction l with
  | nil => simp at h
  | cons a l ih =>
    rw [cnt_cons]
    rcases List.mem_cons.1 h with h | h
    · subst h; omega
    · have := ih h; omega

/-- One for a thread at `q` with address `b`. -/
def w (q : Pl) (b : Nat) (t : Th) : Nat := if t.pl = q ∧ t.a = b then 1 else 0

/-- How often `b` is in the thread's trash. -/
def wT (b : Nat) (t : Th) : Nat := t.trash.count b

/-- How many references to `b` callers have. -/
def hc (b : Nat) (l : List (Nat × Key)) : Nat := (l.map Prod.fst).count b

/-- Who has an object in each phase: `n` threads with a new object, `t` in a trash pile, `z` about to remove it, `m`
that have removed it, `u` references. -/
def CellOk (ph : Ph) (ref n t z m u : Nat) : Prop :=
  match ph with
  | .free => n = 0 ∧ t = 0 ∧ z = 0 ∧ m = 0 ∧ u = 0
  | .new => ref = 1 ∧ n = 1 ∧ t = 0 ∧ z = 0 ∧ m = 0 ∧ u = 0
  | .trash => ref = 1 ∧ n = 0 ∧ t = 1 ∧ z = 0 ∧ m = 0 ∧ u = 0
  | .mapped => ref = u ∧ n = 0 ∧ t = 0 ∧ m = 0 ∧ (ref = 0 → z = 1) ∧ (ref ≠ 0 → z = 0)
  | .removed => ref = 0 ∧ n = 0 ∧ t = 0 ∧ z = 0 ∧ m = 1 ∧ u = 0
  | .staged => n = 0 ∧ t = 0 ∧ z = 0 ∧ m = 0 ∧ u = 0
  | .barred => n = 0 ∧ t = 0 ∧ z = 0 ∧ m = 0 ∧ u = 0

/-- What a thread may rely on. -/
def ThOk (m : Nat → Cell) (t : Th) : Prop :=
  Small t.key ∧
  match t.pl with
  | .got => ((m t.a).ph = .mapped ∨ (m t.a).ph = .removed) ∧ (m t.a).key.bytes = t.key.bytes
  | .put => (m t.a).key = t.key
  | .sgot => (m t.a).ph = .mapped ∧ (m t.a).key.bytes = t.key.bytes
  | .ret => (m t.a).key.bytes = t.key.bytes
  | .zero => t.trash = []
  | .rem => t.trash = []
  | _ => True

structure Inv (s : S) : Prop where
  cells : ∀ b, CellOk (s.mem b).ph (s.mem b).ref (cnt (w .put b) s.ths) (cnt (wT b) s.ths) (cnt (w .zero b) s.ths)
    (cnt (w .rem b) s.ths) (cnt (w .ret b) s.ths + hc b s.held)
  tok : ∀ t ∈ s.ths, ThOk s.mem t
  hk : ∀ h ∈ s.held, (s.mem h.1).key.bytes = h.2.bytes ∧ Small h.2
  mp : ∀ b, b ∈ s.map ↔ (s.mem b).ph = .mapped
  nd : s.map.Nodup
  inj : ∀ a b, (s.mem a).ph = .mapped → (s.mem b).ph = .mapped → (s.mem a).key.bytes = (s.mem b).key.bytes → a = b
  bad : s.bad = false

theorem look_small {k : Key} (h : Small k) : look k = k.bytes := by
  unfold Small at h
  unfold look
  rw [Nat.mod_eq_of_lt (by omega), List.take_length]

theorem upd_same (m : Nat → Cell) (a : Nat) (c : Cell) : upd m a c a = c := by simp [upd]
theorem upd_ne (m : Nat → Cell) {a b : Nat} (c : Cell) (h : b ≠ a) : upd m a c b = m b := by simp [upd, h]

theorem upd_key (m : Nat → Cell) (a b : Nat) (c : Cell) (h : c.key = (m a).key) : (upd m a c b).key = (m b).key := by
  by_cases hb : b = a
  · subst hb; rw [upd_same, h]
  · rw [upd_ne m c hb]

theorem upd_ph (m : Nat → Cell) (a b : Nat) (c : Cell) (h : c.ph = (m a).ph) : (upd m a c b).ph = (m b).ph := by
  by_cases hb : b = a
  · subst hb; rw [upd_same, h]
  · rw [upd_ne m c hb]

/-- A thread keeps what it relies on when keys stay and the phases of its kind stay. -/
theorem thok_mono {m m' : Nat → Cell} {t : Th} (hk : (m' t.a).key = (m t.a).key)
    (hg : t.pl = .got → (m t.a).ph = .mapped ∨ (m t.a).ph = .removed → (m' t.a).ph = .mapped ∨ (m' t.a).ph = .removed)
    (hs : t.pl = .sgot → (m t.a).ph = .mapped → (m' t.a).ph = .mapped) (h : ThOk m t) : ThOk m' t := by
  obtain ⟨h1, h2⟩ := h
  refine ⟨h1, ?_⟩
  cases hp : t.pl <;> simp only [hp] at h2 ⊢ <;> (try rw [hk])
  · exact ⟨hg hp h2.1, h2.2⟩
  · exact h2
  · exact ⟨hs hp h2.1, h2.2⟩
  · exact h2
  · exact h2
  · exact h2

theorem Inv.new {s : S} (h : Inv s) {t : Th} (ht : t ∈ s.ths) (hp : t.pl = .put) : (s.mem t.a).ph = .new := by
  have h1 := cnt_le (w .put t.a) ht
  have h2 := h.cells t.a
  have h3 : w .put t.a t = 1 := by simp [w, hp]
  unfold CellOk at h2
  cases hph : (s.mem t.a).ph <;> simp only [hph] at h2 <;> first | rfl | omega

theorem Inv.retm {s : S} (h : Inv s) {t : Th} (ht : t ∈ s.ths) (hp : t.pl = .ret) :
    (s.mem t.a).ph = .mapped ∧ (s.mem t.a).ref ≠ 0 := by
  have h1 := cnt_le (w .ret t.a) ht
  have h2 := h.cells t.a
  have h3 : w .ret t.a t = 1 := by simp [w, hp]
  unfold CellOk at h2
  cases hph : (s.mem t.a).ph <;> simp only [hph] at h2 <;> first | (exact ⟨rfl, by omega⟩) | omega

theorem Inv.zerom {s : S} (h : Inv s) {t : Th} (ht : t ∈ s.ths) (hp : t.pl = .zero) :
    (s.mem t.a).ph = .mapped ∧ (s.mem t.a).ref = 0 := by
  have h1 := cnt_le (w .zero t.a) ht
  have h2 := h.cells t.a
  have h3 : w .zero t.a t = 1 := by simp [w, hp]
  unfold CellOk at h2
  cases hph : (s.mem t.a).ph <;> simp only [hph] at h2 <;> first | (exact ⟨rfl, by omega⟩) | omega

theorem Inv.remm {s : S} (h : Inv s) {t : Th} (ht : t ∈ s.ths) (hp : t.pl = .rem) : (s.mem t.a).ph = .removed := by
  have h1 := cnt_le (w .rem t.a) ht
  have h2 := h.cells t.a
  have h3 : w .rem t.a t = 1 := by simp [w, hp]
  unfold CellOk at h2
  cases hph : (s.mem t.a).ph <;> simp only [hph] at h2 <;> first | rfl | omega

theorem Inv.trashm {s : S} (h : Inv s) {t : Th} (ht : t ∈ s.ths) {b : Nat} (hb : b ∈ t.trash) :
    (s.mem b).ph = .trash ∧ (s.mem b).ref = 1 := by
  have h1 := cnt_le (wT b) ht
  have h2 := h.cells b
  have h3 : 0 < wT b t := List.count_pos_iff.2 hb
  unfold CellOk at h2
  cases hph : (s.mem b).ph <;> simp only [hph] at h2 <;> first | (exact ⟨rfl, by omega⟩) | omega

theorem hc_pos {a : Nat} {k : Key} {l : List (Nat × Key)} (h : (a, k) ∈ l) : 0 < hc a l :=
  List.count_pos_iff.2 (List.mem_map.2 ⟨(a, k), h, rfl⟩)

theorem Inv.heldm {s : S} (h : Inv s) {a : Nat} {k : Key} (ha : (a, k) ∈ s.held) :
    (s.mem a).ph = .mapped ∧ (s.mem a).ref ≠ 0 := by
  have h1 := hc_pos ha
  have h2 := h.cells a
  unfold CellOk at h2
  cases hph : (s.mem a).ph <;> simp only [hph] at h2 <;> first | (exact ⟨rfl, by omega⟩) | omega

theorem hc_cons (b a : Nat) (k : Key) (l : List (Nat × Key)) : hc b ((a, k) :: l) = (if a = b then 1 else 0) + hc b l := by
  simp only [hc, List.map_cons, List.count_cons, beq_iff_eq]; omega

theorem hc_erase {b a : Nat} {k : Key} {l : List (Nat × Key)} (h : (a, k) ∈ l) :
    (if a = b then 1 else 0) + hc b (l.erase (a, k)) = hc b l := by
  have hp := (List.perm_cons_erase h).map Prod.fst
  have := hp.count_eq b
  unfold hc
  rw [this]
  simp only [List.map_cons, List.count_cons, beq_iff_eq]; omega

theorem find_some {b : List Nat} {s : S} {a : Nat} (h : find b s = some a) : a ∈ s.map ∧ (s.mem a).key.bytes = b := by
  unfold find at h
  exact ⟨List.mem_of_find?_eq_some h, by simpa using List.find?_some h⟩

theorem find_none {b : List Nat} {s : S} (h : find b s = none) : ∀ a ∈ s.map, (s.mem a).key.bytes ≠ b := by
  unfold find at h
  rw [List.find?_eq_none] at h
  exact fun a ha => by simpa using h a ha

theorem noS_mem {s : S} (h : noS s = true) {t : Th} (ht : t ∈ s.ths) : t.pl ≠ .sgot := by
  simpa using List.all_eq_true.1 h t ht

theorem noRS_mem {s : S} (h : noRS s = true) {t : Th} (ht : t ∈ s.ths) : t.pl ≠ .got ∧ t.pl ≠ .sgot := by
  have := List.all_eq_true.1 h t ht
  simp only [Th.reads, Bool.and_eq_true, Bool.not_eq_true', Bool.or_eq_false_iff, decide_eq_false_iff_not,
    decide_eq_true_eq] at this
  exact ⟨this.1.2, this.2⟩

theorem inv_start : Inv start := by
  refine ⟨fun b => ?_, by simp [start], by simp [start], ?_, by simp [start], ?_, rfl⟩
  · simp [start, CellOk, cnt, hc]
  · simp [start]
  · simp [start]

/-- A thread moves and nothing else changes. -/
theorem inv_move {s : S} (h : Inv s) {k : Nat} {t u : Th} (hk : s.ths[k]? = some t)
    (hw : ∀ q, q = .put ∨ q = .zero ∨ q = .rem ∨ q = .ret → ∀ b, w q b u = w q b t) (ht : u.trash = t.trash)
    (hu : ThOk s.mem u) : Inv { s with ths := s.ths.set k u } := by
  refine ⟨fun b => ?_, fun v hv => ?_, h.hk, h.mp, h.nd, h.inj, h.bad⟩
  · have := h.cells b
    have e1 := cnt_set (w .put b) u hk
    have e2 := cnt_set (wT b) u hk
    have e3 := cnt_set (w .zero b) u hk
    have e4 := cnt_set (w .rem b) u hk
    have e5 := cnt_set (w .ret b) u hk
    rw [hw .put (by simp)] at e1
    rw [hw .zero (by simp)] at e3
    rw [hw .rem (by simp)] at e4
    rw [hw .ret (by simp)] at e5
    have e6 : wT b u = wT b t := by simp only [wT, ht]
    rw [e6] at e2
    show CellOk _ _ (cnt (w .put b) (s.ths.set k u)) (cnt (wT b) (s.ths.set k u)) (cnt (w .zero b) (s.ths.set k u))
      (cnt (w .rem b) (s.ths.set k u)) (cnt (w .ret b) (s.ths.set k u) + _)
    rw [show cnt (w .put b) (s.ths.set k u) = cnt (w .put b) s.ths by omega,
      show cnt (wT b) (s.ths.set k u) = cnt (wT b) s.ths by omega,
      show cnt (w .zero b) (s.ths.set k u) = cnt (w .zero b) s.ths by omega,
      show cnt (w .rem b) (s.ths.set k u) = cnt (w .rem b) s.ths by omega,
      show cnt (w .ret b) (s.ths.set k u) = cnt (w .ret b) s.ths by omega]
    exact this
  · rcases List.mem_or_eq_of_mem_set hv with hv | hv
    · exact h.tok v hv
    · exact hv ▸ hu

theorem w_ne {q : Pl} {b : Nat} {t : Th} (h : t.pl ≠ q) : w q b t = 0 := by simp [w, h]
theorem w_eq {q : Pl} {t : Th} (h : t.pl = q) (b : Nat) : w q b t = if t.a = b then 1 else 0 := by simp [w, h]

/-- The five counts. -/
theorem cnts_set {l : List Th} {k : Nat} {t : Th} (hk : l[k]? = some t) (u : Th) (b : Nat) :
    cnt (w .put b) (l.set k u) + w .put b t = w .put b u + cnt (w .put b) l ∧
    cnt (wT b) (l.set k u) + wT b t = wT b u + cnt (wT b) l ∧
    cnt (w .zero b) (l.set k u) + w .zero b t = w .zero b u + cnt (w .zero b) l ∧
    cnt (w .rem b) (l.set k u) + w .rem b t = w .rem b u + cnt (w .rem b) l ∧
    cnt (w .ret b) (l.set k u) + w .ret b t = w .ret b u + cnt (w .ret b) l :=
  ⟨cnt_set _ u hk, cnt_set _ u hk, cnt_set _ u hk, cnt_set _ u hk, cnt_set _ u hk⟩

theorem cnts_erase {l : List Th} {k : Nat} {t : Th} (hk : l[k]? = some t) (b : Nat) :
    cnt (w .put b) (l.eraseIdx k) + w .put b t = cnt (w .put b) l ∧
    cnt (wT b) (l.eraseIdx k) + wT b t = cnt (wT b) l ∧
    cnt (w .zero b) (l.eraseIdx k) + w .zero b t = cnt (w .zero b) l ∧
    cnt (w .rem b) (l.eraseIdx k) + w .rem b t = cnt (w .rem b) l ∧
    cnt (w .ret b) (l.eraseIdx k) + w .ret b t = cnt (w .ret b) l :=
  ⟨cnt_erase _ hk, cnt_erase _ hk, cnt_erase _ hk, cnt_erase _ hk, cnt_erase _ hk⟩

/-- The same counts and the same cell. -/
theorem cell_same {c d : Cell} {n t z m u n' t' z' m' u' : Nat} (h : CellOk c.ph c.ref n t z m u) (hd : d = c)
    (h1 : n' = n) (h2 : t' = t) (h3 : z' = z) (h4 : m' = m) (h5 : u' = u) : CellOk d.ph d.ref n' t' z' m' u' := by
  subst hd h1 h2 h3 h4 h5; exact h

/-- A thread takes a reference. -/
theorem inv_ref {s : S} (h : Inv s) {k : Nat} {key : Key} {a : Nat} {tr : List Nat} {pl : Pl}
    (hk : s.ths[k]? = some ⟨pl, key, a, tr⟩) (hp : pl = .got ∨ pl = .sgot)
    (hr : (s.mem a).ref ≠ 0) (hph : (s.mem a).ph = .mapped ∨ (s.mem a).ph = .removed)
    (hb : (s.mem a).key.bytes = key.bytes) :
    Inv { s with mem := upd s.mem a ⟨(s.mem a).key, (s.mem a).ref + 1, (s.mem a).ph⟩, ths := s.ths.set k ⟨.ret, key, a, tr⟩ } := by
  have htm := List.mem_of_getElem? hk
  have hkey : ∀ b, (upd s.mem a ⟨(s.mem a).key, (s.mem a).ref + 1, (s.mem a).ph⟩ b).key = (s.mem b).key :=
    fun b => upd_key _ _ _ _ rfl
  have hphs : ∀ b, (upd s.mem a ⟨(s.mem a).key, (s.mem a).ref + 1, (s.mem a).ph⟩ b).ph = (s.mem b).ph :=
    fun b => upd_ph _ _ _ _ rfl
  refine ⟨fun b => ?_, fun v hv => ?_, fun x hx => ?_, fun b => ?_, h.nd, fun a b => ?_, h.bad⟩
  · have hc := h.cells b
    have e := cnts_set hk ⟨.ret, key, a, tr⟩ b
    by_cases hbt : b = a
    · subst hbt
      simp only [upd_same]
      unfold CellOk at hc ⊢
      rcases hp with rfl | rfl <;> simp [w, wT] at e <;>
        rcases hph with hph | hph <;> simp only [hph] at hc ⊢ <;> omega
    · rcases hp with rfl | rfl <;> simp [w, wT, Ne.symm hbt] at e <;>
        exact cell_same hc (upd_ne _ _ hbt) (by om) (by om) (by om) (by om) (by om)
  · rcases List.mem_or_eq_of_mem_set hv with hv | hv
    · exact thok_mono (hkey _) (fun _ => by rw [hphs]; exact id) (fun _ => by rw [hphs]; exact id) (h.tok v hv)
    · subst hv
      refine ⟨(h.tok _ htm).1, ?_⟩
      simp only
      rw [hkey]; exact hb
  · simp only
    rw [hkey]; exact h.hk x hx
  · simp only
    rw [hphs]; exact h.mp b
  · simp only
    rw [hphs, hphs, hkey, hkey]; exact h.inj a b

/-- A release without the last reference, and `copy`: only a count and the callers' references change. -/
theorem inv_count {s : S} (h : Inv s) {a : Nat} {r : Nat} {held : List (Nat × Key)} (hm : (s.mem a).ph = .mapped)
    (hr : (s.mem a).ref ≠ 0) (hr2 : r ≠ 0) (hrc : r + hc a s.held = (s.mem a).ref + hc a held)
    (hh : ∀ b, b ≠ a → hc b held = hc b s.held) (hk : ∀ x ∈ held, x ∈ s.held) :
    Inv { s with mem := upd s.mem a ⟨(s.mem a).key, r, (s.mem a).ph⟩, held := held } := by
  have hkey : ∀ b, (upd s.mem a ⟨(s.mem a).key, r, (s.mem a).ph⟩ b).key = (s.mem b).key := fun b => upd_key _ _ _ _ rfl
  have hphs : ∀ b, (upd s.mem a ⟨(s.mem a).key, r, (s.mem a).ph⟩ b).ph = (s.mem b).ph := fun b => upd_ph _ _ _ _ rfl
  refine ⟨fun b => ?_, fun v hv => ?_, fun x hx => ?_, fun b => ?_, h.nd, fun a b => ?_, h.bad⟩
  · have hc := h.cells b
    by_cases hbt : b = a
    · subst hbt
      simp only [upd_same]
      unfold CellOk at hc ⊢
      simp only [hm] at hc ⊢
      omega
    · have := hh b hbt
      exact cell_same hc (upd_ne _ _ hbt) rfl rfl rfl rfl (by om)
  · exact thok_mono (hkey _) (fun _ => by rw [hphs]; exact id) (fun _ => by rw [hphs]; exact id) (h.tok v hv)
  · simp only
    rw [hkey]; exact h.hk x (hk x hx)
  · simp only
    rw [hphs]; exact h.mp b
  · simp only
    rw [hphs, hphs, hkey, hkey]; exact h.inj a b

theorem inv_alloc {s : S} (h : Inv s) {k : Nat} {key : Key} {a x : Nat} {tr : List Nat}
    (hk : s.ths[k]? = some ⟨.al, key, x, tr⟩) (hf : (s.mem a).ph = .free) :
    Inv { s with mem := upd s.mem a ⟨key, 1, .new⟩, ths := s.ths.set k ⟨.put, key, a, tr⟩ } := by
  have htm := List.mem_of_getElem? hk
  have hne : ∀ b, (s.mem b).ph ≠ .free → upd s.mem a ⟨key, 1, .new⟩ b = s.mem b := by
    intro b hb
    apply upd_ne
    intro e; subst e; exact hb hf
  have hmap : ∀ b, (upd s.mem a ⟨key, 1, .new⟩ b).ph = .mapped ↔ (s.mem b).ph = .mapped := by
    intro b
    by_cases hb : b = a
    · subst hb; rw [upd_same, hf]; simp
    · rw [upd_ne _ _ hb]
  refine ⟨fun b => ?_, fun v hv => ?_, fun y hy => ?_, fun b => ?_, h.nd, fun p q hp hq => ?_, h.bad⟩
  · have hc := h.cells b
    have e := cnts_set hk ⟨.put, key, a, tr⟩ b
    by_cases hbt : b = a
    · subst hbt
      simp only [upd_same]
      unfold CellOk at hc ⊢
      simp [w, wT] at e
      simp only [hf] at hc
      refine ⟨rfl, ?_⟩; omega
    · simp [w, wT, Ne.symm hbt] at e
      exact cell_same hc (upd_ne _ _ hbt) (by om) (by om) (by om) (by om) (by om)
  · rcases List.mem_or_eq_of_mem_set hv with hv | hv
    · have hv' := h.tok v hv
      have hkeep : v.pl = .got ∨ v.pl = .put ∨ v.pl = .sgot ∨ v.pl = .ret → upd s.mem a ⟨key, 1, .new⟩ v.a = s.mem v.a := by
        intro hp
        apply hne
        rcases hp with hp | hp | hp | hp
        · have := hv'.2; simp only [hp] at this
          rcases this.1 with e | e <;> rw [e] <;> decide
        · rw [h.new hv hp]; decide
        · have := hv'.2; simp only [hp] at this
          rw [this.1]; decide
        · rw [(h.retm hv hp).1]; decide
      refine ⟨hv'.1, ?_⟩
      have h2 := hv'.2
      cases hp : v.pl <;> simp only [hp] at h2 ⊢ <;> (try rw [hkeep (by simp [hp])]) <;> exact h2
    · subst hv
      refine ⟨(h.tok _ htm).1, ?_⟩
      simp only [upd_same]
  · have := h.heldm (a := y.1) (k := y.2) hy
    simp only
    rw [hne y.1 (by rw [this.1]; decide)]
    exact h.hk y hy
  · simp only
    rw [hmap]; exact h.mp b
  · simp only at hp hq ⊢
    rw [hmap] at hp hq
    rw [hne p (by rw [hp]; decide), hne q (by rw [hq]; decide)]
    exact h.inj p q hp hq

/-- The phase of one object changes, and one thread moves. -/
theorem tok_ph {s : S} (h : Inv s) {a r : Nat} {ph : Ph} {v : Th} (hv : v ∈ s.ths)
    (hg : v.pl = .got → v.a = a → (s.mem a).ph = .mapped ∨ (s.mem a).ph = .removed → ph = .mapped ∨ ph = .removed)
    (hs : v.pl = .sgot → v.a = a → (s.mem a).ph = .mapped → ph = .mapped) :
    ThOk (upd s.mem a ⟨(s.mem a).key, r, ph⟩) v := by
  refine thok_mono (upd_key _ _ _ _ rfl) (fun hp => ?_) (fun hp => ?_) (h.tok v hv)
  · by_cases he : v.a = a
    · rw [he, upd_same]; exact hg hp he
    · rw [upd_ne _ _ he]; exact id
  · by_cases he : v.a = a
    · rw [he, upd_same]; exact hs hp he
    · rw [upd_ne _ _ he]; exact id

theorem inv_put_new {s : S} (h : Inv s) {k : Nat} {key : Key} {a : Nat} {tr : List Nat}
    (hk : s.ths[k]? = some ⟨.put, key, a, tr⟩) (hf : find (s.mem a).key.bytes s = none) :
    Inv { s with mem := upd s.mem a ⟨(s.mem a).key, (s.mem a).ref, .mapped⟩, map := a :: s.map, ths := s.ths.set k ⟨.ret, key, a, tr⟩ } := by
  have htm := List.mem_of_getElem? hk
  have hph := h.new htm rfl
  simp only at hph
  have hkey : ∀ b, (upd s.mem a ⟨(s.mem a).key, (s.mem a).ref, .mapped⟩ b).key = (s.mem b).key := fun b => upd_key _ _ _ _ rfl
  have hnm : a ∉ s.map := by rw [h.mp, hph]; decide
  have hfn := find_none hf
  refine ⟨fun b => ?_, fun v hv => ?_, fun y hy => ?_, fun b => ?_, List.nodup_cons.2 ⟨hnm, h.nd⟩, fun p q hp hq => ?_, h.bad⟩
  · have hc := h.cells b
    have e := cnts_set hk ⟨.ret, key, a, tr⟩ b
    by_cases hbt : b = a
    · subst hbt
      simp only [upd_same]
      unfold CellOk at hc ⊢
      simp [w, wT] at e
      simp only [hph] at hc ⊢; omega
    · simp [w, wT, Ne.symm hbt] at e
      exact cell_same hc (upd_ne _ _ hbt) (by om) (by om) (by om) (by om) (by om)
  · rcases List.mem_or_eq_of_mem_set hv with hv | hv
    · exact tok_ph h hv (fun _ _ _ => Or.inl rfl) (fun _ _ _ => rfl)
    · subst hv
      refine ⟨(h.tok _ htm).1, ?_⟩
      simp only
      rw [hkey]
      have := (h.tok _ htm).2
      simp only at this
      rw [this]
  · simp only
    rw [hkey]; exact h.hk y hy
  · simp only [List.mem_cons]
    by_cases hb : b = a
    · subst hb; rw [upd_same]; simp
    · rw [upd_ne _ _ hb, h.mp]; simp [hb]
  · simp only at hp hq ⊢
    rw [hkey, hkey]
    by_cases h1 : p = a <;> by_cases h2 : q = a
    · exact fun _ => h1.trans h2.symm
    · rw [upd_ne _ _ h2] at hq
      subst h1
      exact fun e => absurd e.symm (hfn q ((h.mp q).2 hq))
    · rw [upd_ne _ _ h1] at hp
      subst h2
      exact fun e => absurd e (hfn p ((h.mp p).2 hp))
    · rw [upd_ne _ _ h1] at hp
      rw [upd_ne _ _ h2] at hq
      exact h.inj p q hp hq

theorem inv_put_old {s : S} (h : Inv s) {k : Nat} {key : Key} {a b : Nat} {tr : List Nat}
    (hk : s.ths[k]? = some ⟨.put, key, a, tr⟩) (hf : find (s.mem a).key.bytes s = some b) :
    Inv { s with mem := upd s.mem a ⟨(s.mem a).key, (s.mem a).ref, .trash⟩, ths := s.ths.set k ⟨.sgot, key, b, a :: tr⟩ } := by
  have htm := List.mem_of_getElem? hk
  have hph := h.new htm rfl
  simp only at hph
  have hkey : ∀ b, (upd s.mem a ⟨(s.mem a).key, (s.mem a).ref, .trash⟩ b).key = (s.mem b).key := fun b => upd_key _ _ _ _ rfl
  obtain ⟨hbm, hbk⟩ := find_some hf
  rw [h.mp] at hbm
  have hba : b ≠ a := by intro e; subst e; rw [hph] at hbm; cases hbm
  have hmap : ∀ c, (upd s.mem a ⟨(s.mem a).key, (s.mem a).ref, .trash⟩ c).ph = .mapped ↔ (s.mem c).ph = .mapped := by
    intro c
    by_cases hc : c = a
    · subst hc; rw [upd_same, hph]; simp
    · rw [upd_ne _ _ hc]
  refine ⟨fun c => ?_, fun v hv => ?_, fun y hy => ?_, fun c => ?_, h.nd, fun p q hp hq => ?_, h.bad⟩
  · have hc := h.cells c
    have e := cnts_set hk ⟨.sgot, key, b, a :: tr⟩ c
    by_cases hbt : c = a
    · subst hbt
      simp only [upd_same]
      unfold CellOk at hc ⊢
      simp [w, wT] at e
      simp only [hph] at hc ⊢; omega
    · simp [w, wT, Ne.symm hbt] at e
      exact cell_same hc (upd_ne _ _ hbt) (by om) (by om) (by om) (by om) (by om)
  · rcases List.mem_or_eq_of_mem_set hv with hv | hv
    · exact tok_ph h hv (fun _ _ e => by rw [hph] at e; rcases e with e | e <;> cases e) (fun _ _ e => by rw [hph] at e; cases e)
    · subst hv
      refine ⟨(h.tok _ htm).1, ?_⟩
      simp only
      rw [upd_ne _ _ hba]
      have := (h.tok _ htm).2
      simp only at this
      exact ⟨hbm, by rw [hbk, this]⟩
  · simp only
    rw [hkey]; exact h.hk y hy
  · simp only
    rw [hmap]; exact h.mp c
  · simp only at hp hq ⊢
    rw [hmap] at hp hq
    rw [hkey, hkey]; exact h.inj p q hp hq

/-- An object that is in no map changes to another phase out of the map. -/
theorem inv_out {s : S} (h : Inv s) {ths : List Th} {a r : Nat} {ph : Ph} (h1 : (s.mem a).ph ≠ .mapped)
    (h2 : ph ≠ .mapped) (hg : (s.mem a).ph = .removed → ∀ t ∈ s.ths, t.pl ≠ .got)
    (hsub : ∀ v ∈ ths, v ∈ s.ths ∨ ThOk (upd s.mem a ⟨(s.mem a).key, r, ph⟩) v)
    (hc : ∀ b, CellOk (upd s.mem a ⟨(s.mem a).key, r, ph⟩ b).ph (upd s.mem a ⟨(s.mem a).key, r, ph⟩ b).ref (cnt (w .put b) ths) (cnt (wT b) ths) (cnt (w .zero b) ths)
    (cnt (w .rem b) ths) (cnt (w .ret b) ths + hc b s.held)) :
    Inv { s with mem := upd s.mem a ⟨(s.mem a).key, r, ph⟩, ths := ths } := by
  have hkey : ∀ b, (upd s.mem a ⟨(s.mem a).key, r, ph⟩ b).key = (s.mem b).key := fun b => upd_key _ _ _ _ rfl
  have hmap : ∀ c, (upd s.mem a ⟨(s.mem a).key, r, ph⟩ c).ph = .mapped ↔ (s.mem c).ph = .mapped := by
    intro c
    by_cases hc : c = a
    · subst hc; rw [upd_same]; exact ⟨fun e => absurd e h2, fun e => absurd e h1⟩
    · rw [upd_ne _ _ hc]
  refine ⟨hc, fun v hv => ?_, fun y hy => ?_, fun c => ?_, h.nd, fun p q hp hq => ?_, h.bad⟩
  · rcases hsub v hv with hv | hv
    · refine tok_ph h hv (fun hp _ e => ?_) (fun _ _ e => absurd e h1)
      rcases e with e | e
      · exact absurd e h1
      · exact absurd hp (hg e v hv)
    · exact hv
  · simp only
    rw [hkey]; exact h.hk y hy
  · simp only
    rw [hmap]; exact h.mp c
  · simp only at hp hq ⊢
    rw [hmap] at hp hq
    rw [hkey, hkey]; exact h.inj p q hp hq

theorem inv_remove {s : S} (h : Inv s) {k : Nat} {key : Key} {a : Nat} {tr : List Nat}
    (hk : s.ths[k]? = some ⟨.zero, key, a, tr⟩) (htr : tr = []) (hs : noS s = true) :
    Inv { s with mem := upd s.mem a ⟨(s.mem a).key, (s.mem a).ref, .removed⟩, map := s.map.erase a, ths := s.ths.set k ⟨.rem, key, a, []⟩ } := by
  subst htr
  have htm := List.mem_of_getElem? hk
  obtain ⟨hph, hr⟩ := h.zerom htm rfl
  simp only at hph hr
  have hkey : ∀ b, (upd s.mem a ⟨(s.mem a).key, (s.mem a).ref, .removed⟩ b).key = (s.mem b).key := fun b => upd_key _ _ _ _ rfl
  have hmap : ∀ c, (upd s.mem a ⟨(s.mem a).key, (s.mem a).ref, .removed⟩ c).ph = .mapped ↔ c ≠ a ∧ (s.mem c).ph = .mapped := by
    intro c
    by_cases hc : c = a
    · subst hc; rw [upd_same]; simp
    · rw [upd_ne _ _ hc]; simp [hc]
  refine ⟨fun c => ?_, fun v hv => ?_, fun y hy => ?_, fun c => ?_, h.nd.erase a, fun p q hp hq => ?_, h.bad⟩
  · have hc := h.cells c
    have e := cnts_set hk ⟨.rem, key, a, []⟩ c
    by_cases hbt : c = a
    · subst hbt
      simp only [upd_same]
      unfold CellOk at hc ⊢
      simp [w, wT] at e
      simp only [hph] at hc ⊢; omega
    · simp [w, wT, Ne.symm hbt] at e
      exact cell_same hc (upd_ne _ _ hbt) (by om) (by om) (by om) (by om) (by om)
  · rcases List.mem_or_eq_of_mem_set hv with hv | hv
    · exact tok_ph h hv (fun _ _ _ => Or.inr rfl) (fun e => absurd e (noS_mem hs hv))
    · subst hv
      exact ⟨(h.tok _ htm).1, rfl⟩
  · simp only
    rw [hkey]; exact h.hk y hy
  · simp only
    rw [hmap, h.nd.mem_erase_iff, h.mp]
  · simp only at hp hq ⊢
    rw [hmap] at hp hq
    rw [hkey, hkey]; exact h.inj p q hp.2 hq.2

theorem inv_last {s : S} (h : Inv s) {a : Nat} {key : Key} (hh : (a, key) ∈ s.held) (hr : (s.mem a).ref = 1) :
    Inv { s with mem := upd s.mem a ⟨(s.mem a).key, 0, (s.mem a).ph⟩, held := s.held.erase (a, key), ths := ⟨.zero, key, a, []⟩ :: s.ths } := by
  have hm := (h.heldm hh).1
  have hkey : ∀ b, (upd s.mem a ⟨(s.mem a).key, 0, (s.mem a).ph⟩ b).key = (s.mem b).key := fun b => upd_key _ _ _ _ rfl
  have hphs : ∀ b, (upd s.mem a ⟨(s.mem a).key, 0, (s.mem a).ph⟩ b).ph = (s.mem b).ph := fun b => upd_ph _ _ _ _ rfl
  refine ⟨fun b => ?_, fun v hv => ?_, fun x hx => ?_, fun b => ?_, h.nd, fun a b => ?_, h.bad⟩
  · have hc := h.cells b
    have he := hc_erase (b := b) hh
    by_cases hbt : b = a
    · subst hbt
      simp only [upd_same]
      unfold CellOk at hc ⊢
      simp only [hm, cnt_cons, if_true] at hc he ⊢
      have e1 : w .put b ⟨.zero, key, b, []⟩ = 0 := rfl
      have e2 : wT b ⟨.zero, key, b, []⟩ = 0 := rfl
      have e3 : w .zero b ⟨.zero, key, b, []⟩ = 1 := by simp [w]
      have e4 : w .rem b ⟨.zero, key, b, []⟩ = 0 := rfl
      have e5 : w .ret b ⟨.zero, key, b, []⟩ = 0 := rfl
      omega
    · rw [if_neg (Ne.symm hbt)] at he
      have e3 : w .zero b ⟨.zero, key, a, []⟩ = 0 := by simp [w, Ne.symm hbt]
      have e1 : w .put b ⟨.zero, key, a, []⟩ = 0 := by simp [w]
      have e2 : wT b ⟨.zero, key, a, []⟩ = 0 := rfl
      have e4 : w .rem b ⟨.zero, key, a, []⟩ = 0 := by simp [w]
      have e5 : w .ret b ⟨.zero, key, a, []⟩ = 0 := by simp [w]
      exact cell_same hc (upd_ne _ _ hbt) (by simp only [cnt_cons]; om) (by simp only [cnt_cons]; om)
        (by simp only [cnt_cons]; om) (by simp only [cnt_cons]; om) (by simp only [cnt_cons]; om)
  · rcases List.mem_cons.1 hv with hv | hv
    · subst hv; exact ⟨(h.hk _ hh).2, rfl⟩
    · exact thok_mono (hkey _) (fun _ => by rw [hphs]; exact id) (fun _ => by rw [hphs]; exact id) (h.tok v hv)
  · simp only
    rw [hkey]; exact h.hk x (List.mem_of_mem_erase hx)
  · simp only
    rw [hphs]; exact h.mp b
  · simp only
    rw [hphs, hphs, hkey, hkey]; exact h.inj a b

theorem inv_done {s : S} (h : Inv s) {k : Nat} {key : Key} {a : Nat} (hk : s.ths[k]? = some ⟨.ret, key, a, []⟩) :
    Inv { s with ths := s.ths.eraseIdx k, held := (a, key) :: s.held } := by
  have htm := List.mem_of_getElem? hk
  refine ⟨fun b => ?_, fun v hv => h.tok v (List.mem_of_mem_eraseIdx hv), fun x hx => ?_, h.mp, h.nd, h.inj, h.bad⟩
  · have hc := h.cells b
    have e := cnts_erase hk b
    have e6 := hc_cons b a key s.held
    by_cases hbt : a = b
    · subst hbt
      simp [w, wT] at e e6
      exact cell_same hc rfl (by om) (by om) (by om) (by om) (by om)
    · simp [w, wT, hbt] at e e6
      exact cell_same hc rfl (by om) (by om) (by om) (by om) (by om)
  · rcases List.mem_cons.1 hx with hx | hx
    · subst hx
      have := h.tok _ htm
      exact ⟨this.2, this.1⟩
    · exact h.hk x hx

/-- Phases out of the map change in many objects at once. -/
theorem inv_many {s : S} (h : Inv s) {f : Ph → Ph} (hf : ∀ p, p ≠ .staged → p ≠ .barred → f p = p)
    (hf2 : f .staged = .staged ∨ f .staged = .barred) (hf3 : f .barred = .barred ∨ f .barred = .free) :
    Inv { s with mem := fun a => ⟨(s.mem a).key, (s.mem a).ref, f (s.mem a).ph⟩ } := by
  have hmap : ∀ c, f (s.mem c).ph = .mapped ↔ (s.mem c).ph = .mapped := by
    intro c
    cases hc : (s.mem c).ph <;> first | (rw [hf _ (by decide) (by decide)]) | skip
    · rcases hf2 with e | e <;> rw [e] <;> decide
    · rcases hf3 with e | e <;> rw [e] <;> decide
  refine ⟨fun b => ?_, fun v hv => ?_, h.hk, fun b => ?_, h.nd, fun a b ha hb => ?_, h.bad⟩
  · have hc := h.cells b
    simp only
    unfold CellOk at hc ⊢
    cases hb : (s.mem b).ph <;> simp only [hb] at hc <;> first | (rw [hf _ (by decide) (by decide)]; exact hc) | skip
    · rcases hf2 with e | e <;> rw [e] <;> exact hc
    · rcases hf3 with e | e <;> rw [e] <;> exact hc
  · refine thok_mono (m := s.mem) rfl (fun _ e => ?_) (fun _ e => ?_) (h.tok v hv)
    · simp only
      rcases e with e | e <;> rw [e, hf _ (by decide) (by decide)] <;> simp
    · simp only
      rw [e, hf _ (by decide) (by decide)]
  · simp only
    rw [hmap]; exact h.mp b
  · simp only at ha hb
    rw [hmap] at ha hb
    exact h.inj a b ha hb

theorem inv_step {s t : S} {x : Act} (h : Inv s) (hc : Contract x) (hs : act x s = some t) : Inv t := by
  cases x with
  | start key =>
    simp only [act, Option.some.injEq] at hs
    subst hs
    refine ⟨fun b => ?_, fun v hv => ?_, h.hk, h.mp, h.nd, h.inj, h.bad⟩
    · have e1 : w .put b ⟨.wait, key, 0, []⟩ = 0 := by simp [w]
      have e2 : wT b ⟨.wait, key, 0, []⟩ = 0 := rfl
      have e3 : w .zero b ⟨.wait, key, 0, []⟩ = 0 := by simp [w]
      have e4 : w .rem b ⟨.wait, key, 0, []⟩ = 0 := by simp [w]
      have e5 : w .ret b ⟨.wait, key, 0, []⟩ = 0 := by simp [w]
      exact cell_same (h.cells b) rfl (by simp only [cnt_cons]; om) (by simp only [cnt_cons]; om)
        (by simp only [cnt_cons]; om) (by simp only [cnt_cons]; om) (by simp only [cnt_cons]; om)
    · rcases List.mem_cons.1 hv with hv | hv
      · subst hv; exact ⟨hc, trivial⟩
      · exact h.tok v hv
  | lockR k =>
    simp only [act] at hs
    split at hs
    · rename_i t' hk
      obtain ⟨pl, key, a, tr⟩ := t'
      split at hs
      · rename_i hp
        simp only at hp
        subst hp
        injection hs with hs; subst hs
        refine inv_move h hk (fun q hq b => ?_) rfl ⟨(h.tok _ (List.mem_of_getElem? hk)).1, trivial⟩
        rcases hq with rfl | rfl | rfl | rfl <;> simp [w]
      · cases hs
    · cases hs
  | get k =>
    simp only [act] at hs
    split at hs
    · rename_i t' hk
      obtain ⟨pl, key, a, tr⟩ := t'
      split at hs
      · rename_i hp
        simp only at hp
        subst hp
        have htk := (h.tok _ (List.mem_of_getElem? hk)).1
        simp only at htk
        split at hs
        · rename_i b hb
          injection hs with hs; subst hs
          obtain ⟨f1, f2⟩ := find_some hb
          simp only [look_small htk] at f2
          refine inv_move h hk (fun q hq b => ?_) rfl ⟨htk, Or.inl ((h.mp b).1 f1), f2⟩
          rcases hq with rfl | rfl | rfl | rfl <;> simp [w]
        · injection hs with hs; subst hs
          refine inv_move h hk (fun q hq b => ?_) rfl ⟨htk, trivial⟩
          rcases hq with rfl | rfl | rfl | rfl <;> simp [w]
      · cases hs
    · cases hs
  | cas k =>
    simp only [act] at hs
    split at hs
    · rename_i t' hk
      obtain ⟨pl, key, a, tr⟩ := t'
      split at hs
      · rename_i hp
        simp only at hp
        subst hp
        obtain ⟨h1, h2, h3⟩ := h.tok _ (List.mem_of_getElem? hk)
        simp only at h1 h2 h3
        split at hs
        · rename_i hn
          exact absurd h2 (by simp only at hn; tauto)
        · split at hs
          · injection hs with hs; subst hs
            refine inv_move h hk (fun q hq b => ?_) rfl ⟨h1, trivial⟩
            rcases hq with rfl | rfl | rfl | rfl <;> simp [w]
          · rename_i hr
            injection hs with hs; subst hs
            exact inv_ref h hk (Or.inl rfl) hr h2 h3
      · cases hs
    · cases hs
  | alloc k a =>
    simp only [act] at hs
    split at hs
    · rename_i t' hk
      obtain ⟨pl, key, x, tr⟩ := t'
      split at hs
      · rename_i hp
        obtain ⟨hp, hf⟩ := hp
        simp only at hp hf
        subst hp
        have htk := (h.tok _ (List.mem_of_getElem? hk)).1
        simp only [Small] at htk
        rw [if_neg (by simp only; omega)] at hs
        injection hs with hs; subst hs
        exact inv_alloc h hk hf
      · cases hs
    · cases hs
  | put k =>
    simp only [act] at hs
    split at hs
    · rename_i t' hk
      obtain ⟨pl, key, a, tr⟩ := t'
      split at hs
      · rename_i hp
        obtain ⟨hp, hl⟩ := hp
        simp only at hp
        subst hp
        split at hs
        · rename_i b hb
          simp only at hb hs
          have hba : b ≠ a := by
            intro e; subst e
            have h1 := h.new (List.mem_of_getElem? hk) rfl
            have h2 := (h.mp b).1 (find_some hb).1
            simp only at h1
            rw [h1] at h2; cases h2
          rw [if_neg hba] at hs
          injection hs with hs; subst hs
          exact inv_put_old h hk hb
        · rename_i hb
          injection hs with hs; subst hs
          exact inv_put_new h hk hb
      · cases hs
    · cases hs
  | scas k =>
    simp only [act] at hs
    split at hs
    · rename_i t' hk
      obtain ⟨pl, key, a, tr⟩ := t'
      split at hs
      · rename_i hp
        simp only at hp
        subst hp
        obtain ⟨h1, h2, h3⟩ := h.tok _ (List.mem_of_getElem? hk)
        simp only at h1 h2 h3
        split at hs
        · rename_i hn
          exact absurd h2 hn
        · split at hs
          · injection hs with hs; subst hs
            refine inv_move h hk (fun q hq b => ?_) rfl ⟨h1, trivial⟩
            rcases hq with rfl | rfl | rfl | rfl <;> simp [w]
          · rename_i hr
            injection hs with hs; subst hs
            exact inv_ref h hk (Or.inr rfl) hr (Or.inl h2) h3
      · cases hs
    · cases hs
  | drop k =>
    simp only [act] at hs
    split at hs
    · rename_i t' hk
      obtain ⟨pl, key, a, tr⟩ := t'
      simp only at hs
      split at hs
      · rename_i b r
        have hm := List.mem_of_getElem? hk
        obtain ⟨h1, h2⟩ := h.trashm hm (b := b) (by simp)
        obtain ⟨h3, h4⟩ := h.retm hm rfl
        simp only at h3 h4
        rw [if_neg (by rw [h1, h2]; simp)] at hs
        injection hs with hs; subst hs
        refine inv_out h (by rw [h1]; decide) (by decide) (fun e => by rw [h1] at e; cases e) (fun v hv => ?_) (fun c => ?_)
        · rcases List.mem_or_eq_of_mem_set hv with hv | hv
          · exact Or.inl hv
          · subst hv
            refine Or.inr ⟨(h.tok _ hm).1, ?_⟩
            simp only
            rw [upd_key s.mem b a ⟨(s.mem b).key, 0, .staged⟩ rfl]
            exact (h.tok _ hm).2
        · have hc := h.cells c
          have e := cnts_set hk ⟨.ret, key, a, r⟩ c
          by_cases hbt : c = b
          · subst hbt
            simp only [upd_same]
            unfold CellOk at hc ⊢
            simp [w, wT] at e
            simp only [h1] at hc; simp only; omega
          · simp [w, wT, Ne.symm hbt] at e
            exact cell_same hc (upd_ne _ _ hbt) (by om) (by om) (by om) (by om) (by om)
      · cases hs
    · cases hs
  | done k =>
    simp only [act] at hs
    split at hs
    · rename_i t' hk
      obtain ⟨pl, key, a, tr⟩ := t'
      split at hs
      · rename_i hp
        obtain ⟨hp, htr⟩ := hp
        simp only at hp htr
        subst hp htr
        injection hs with hs; subst hs
        exact inv_done h hk
      · cases hs
    · cases hs
  | copy a key =>
    simp only [act] at hs
    split at hs
    · rename_i hm
      obtain ⟨h1, h2⟩ := h.heldm hm
      rw [if_neg h2] at hs
      injection hs with hs; subst hs
      have h3 := h.hk _ hm
      -- the reference is one more of the same kind
      have hkey : ∀ b, (upd s.mem a ⟨(s.mem a).key, (s.mem a).ref + 1, (s.mem a).ph⟩ b).key = (s.mem b).key := fun b => upd_key _ _ _ _ rfl
      have hphs : ∀ b, (upd s.mem a ⟨(s.mem a).key, (s.mem a).ref + 1, (s.mem a).ph⟩ b).ph = (s.mem b).ph := fun b => upd_ph _ _ _ _ rfl
      refine inv_count h h1 h2 (by omega) ?_ (fun b hb => ?_) (fun x hx => ?_)
      · rw [hc_cons]; simp only [if_true]; omega
      · rw [hc_cons, if_neg (Ne.symm hb)]; omega
      · rcases List.mem_cons.1 hx with e | e
        · exact e ▸ hm
        · exact e
    · cases hs
  | release a key =>
    simp only [act] at hs
    split at hs
    · rename_i hm
      obtain ⟨h1, h2⟩ := h.heldm hm
      rw [if_neg h2] at hs
      split at hs
      · rename_i h3
        injection hs with hs; subst hs
        exact inv_last h hm h3
      · rename_i h3
        injection hs with hs; subst hs
        refine inv_count h h1 h2 (by omega) ?_ (fun b hb => ?_) (fun x hx => List.mem_of_mem_erase hx)
        · have := hc_erase (b := a) hm
          simp only [if_true] at this
          omega
        · have := hc_erase (b := b) hm
          rw [if_neg (Ne.symm hb)] at this
          omega
    · cases hs
  | remove k =>
    simp only [act] at hs
    split at hs
    · rename_i t' hk
      obtain ⟨pl, key, a, tr⟩ := t'
      split at hs
      · rename_i hp
        obtain ⟨hp, hl⟩ := hp
        simp only at hp
        subst hp
        have hm := List.mem_of_getElem? hk
        obtain ⟨h1, h2⟩ := h.zerom hm rfl
        simp only at h1 h2
        rw [if_neg (by simp only [h2, (h.mp a).2 h1]; simp)] at hs
        injection hs with hs; subst hs
        exact inv_remove h hk (h.tok _ hm).2 hl
      · cases hs
    · cases hs
  | barrier k =>
    simp only [act] at hs
    split at hs
    · rename_i t' hk
      obtain ⟨pl, key, a, tr⟩ := t'
      split at hs
      · rename_i hp
        obtain ⟨hp, hl⟩ := hp
        simp only at hp
        subst hp
        have hm := List.mem_of_getElem? hk
        have h1 := h.remm hm rfl
        have h2 : tr = [] := (h.tok _ hm).2
        subst h2
        simp only at h1
        rw [if_neg (by simp only [h1]; simp)] at hs
        injection hs with hs; subst hs
        refine inv_out h (by rw [h1]; decide) (by decide) (fun _ v hv => (noRS_mem hl hv).1) (fun v hv => Or.inl (List.mem_of_mem_eraseIdx hv)) (fun c => ?_)
        have hc := h.cells c
        have e := cnts_erase hk c
        by_cases hbt : c = a
        · subst hbt
          simp only [upd_same]
          unfold CellOk at hc ⊢
          simp [w, wT] at e
          simp only [h1] at hc; simp only; omega
        · simp [w, wT, Ne.symm hbt] at e
          exact cell_same hc (upd_ne _ _ hbt) (by om) (by om) (by om) (by om) (by om)
      · cases hs
    · cases hs
  | take =>
    simp only [act, Option.some.injEq] at hs
    subst hs
    have := inv_many h (f := fun p => if p = .staged then .barred else p) (fun p hp _ => if_neg hp) (Or.inr rfl) (Or.inl rfl)
    convert this using 2
    funext a
    split <;> rename_i e <;> simp [e]
  | cbarrier =>
    simp only [act] at hs
    split at hs
    · injection hs with hs; subst hs
      have := inv_many h (f := fun p => if p = .barred then .free else p) (fun p _ hp => if_neg hp) (Or.inl rfl) (Or.inr rfl)
      convert this using 2
      funext a
      split <;> rename_i e <;> simp [e]
    · cases hs

theorem inv_reach {s : S} (h : Reach s) : Inv s := by
  induction h with
  | start => exact inv_start
  | step x _ hc hs ih => exact inv_step ih hc hs

/-! ### C25 -/

/-- C25 (a handle stands for its bytes).  As long as a caller has a reference, the handle points to the bytes that were
interned. -/
theorem C25_handle_stands_for_bytes (s : S) (h : Reach s) (a : Nat) (k : Key) (hh : (a, k) ∈ s.held) :
    (getStr s a).1 = k.bytes := ((inv_reach h).hk _ hh).1

/-- C25 (equality of handles).  Two handles in use are equal exactly when the bytes are. -/
theorem C25_equal_iff (s : S) (h : Reach s) (a b : Nat) (j k : Key) (ha : (a, j) ∈ s.held) (hb : (b, k) ∈ s.held) :
    a = b ↔ j.bytes = k.bytes := by
  have hi := inv_reach h
  have h1 := (hi.hk _ ha).1
  have h2 := (hi.hk _ hb).1
  simp only at h1 h2
  constructor
  · intro e; subst e; rw [← h1, h2]
  · intro e
    exact hi.inj a b (hi.heldm ha).1 (hi.heldm hb).1 (by rw [h1, h2, e])

/-- C25 (no object in use is given back).  An object with a reference is in the map, and its memory is neither free nor
waiting to be. -/
theorem C25_in_use_not_reclaimed (s : S) (h : Reach s) (a : Nat) (k : Key) (hh : (a, k) ∈ s.held) :
    (s.mem a).ph = .mapped ∧ a ∈ s.map :=
  ⟨((inv_reach h).heldm hh).1, ((inv_reach h).mp a).2 ((inv_reach h).heldm hh).1⟩

/-- C25 (the count).  The reference count of an object in use is the number of references of callers plus the number
of calls about to return it. -/
theorem C25_count (s : S) (h : Reach s) (a : Nat) (k : Key) (hh : (a, k) ∈ s.held) :
    (s.mem a).ref = (s.held.map Prod.fst).count a + (s.ths.filter (fun t => t.pl = .ret ∧ t.a = a)).length := by
  have hi := inv_reach h
  have hm := (hi.heldm hh).1
  have hc := hi.cells a
  unfold CellOk at hc
  simp only [hm] at hc
  have : ∀ l : List Th, cnt (w .ret a) l = (l.filter (fun t => t.pl = .ret ∧ t.a = a)).length := by
    intro l
    induction l with
    | nil => rfl
    | cons t l ih =>
      rw [cnt_cons, ih]
      by_cases ht : t.pl = .ret ∧ t.a = a
      · rw [List.filter_cons_of_pos (by simpa using ht)]
        simp only [w, if_pos ht, List.length_cons]; omega
      · rw [List.filter_cons_of_neg (by simpa using ht)]
        simp only [w, if_neg ht]; omega
  rw [hc.1, this]
  unfold Intern.hc
  omega

/-- C25 (no assertion fails, nothing is touched after it was given back), in any schedule. -/
theorem C25_safe (s : S) (h : Reach s) : s.bad = false := (inv_reach h).bad

/-- C25 (nothing leaks).  When all calls have returned, exactly the objects with references are in the map, and all
other memory is free or waits for compaction. -/
theorem C25_nothing_leaks (s : S) (h : Reach s) (hq : s.ths = []) (a : Nat) :
    ((∃ k, (a, k) ∈ s.held) ↔ a ∈ s.map) ∧
    ((∃ k, (a, k) ∈ s.held) ∨ (s.mem a).ph = .free ∨ (s.mem a).ph = .staged ∨ (s.mem a).ph = .barred) := by
  have hi := inv_reach h
  have hc := hi.cells a
  rw [hq] at hc
  have hz : ∀ p, cnt p [] = 0 := fun _ => rfl
  simp only [hz] at hc
  have hmem : 0 < Intern.hc a s.held → ∃ k, (a, k) ∈ s.held := by
    intro hp
    obtain ⟨⟨b, k⟩, h1, h2⟩ := List.mem_map.1 (List.count_pos_iff.1 hp)
    simp only at h2
    exact ⟨k, h2 ▸ h1⟩
  have hmap : (s.mem a).ph = .mapped → ∃ k, (a, k) ∈ s.held := by
    intro hm
    unfold CellOk at hc
    simp only [hm] at hc
    exact hmem (by omega)
  refine ⟨⟨fun ⟨k, hk⟩ => (hi.mp a).2 (hi.heldm hk).1, fun hm => hmap ((hi.mp a).1 hm)⟩, ?_⟩
  unfold CellOk at hc
  cases hp : (s.mem a).ph <;> simp only [hp] at hc <;> first | (simp; done) | omega | exact Or.inl (hmap hp)

/-- C25 (the last release removes it).  When a caller gives back the last reference, the calling thread is left with the
duty to remove the object, no new reference to it can be handed out, and nobody else has that duty. -/
theorem C25_removed_once (s : S) (h : Reach s) (a : Nat) (hm : a ∈ s.map) (hr : (s.mem a).ref = 0) :
    (s.ths.filter (fun t => t.pl = .zero ∧ t.a = a)).length = 1 ∧ ∀ k, (a, k) ∉ s.held := by
  have hi := inv_reach h
  have hm := (hi.mp a).1 hm
  have hc := hi.cells a
  unfold CellOk at hc
  simp only [hm] at hc
  have : ∀ l : List Th, cnt (w .zero a) l = (l.filter (fun t => t.pl = .zero ∧ t.a = a)).length := by
    intro l
    induction l with
    | nil => rfl
    | cons t l ih =>
      rw [cnt_cons, ih]
      by_cases ht : t.pl = .zero ∧ t.a = a
      · rw [List.filter_cons_of_pos (by simpa using ht)]
        simp only [w, if_pos ht, List.length_cons]; omega
      · rw [List.filter_cons_of_neg (by simpa using ht)]
        simp only [w, if_neg ht]; omega
  refine ⟨by rw [← this]; exact hc.2.2.2.2.1 hr, fun k hk => ?_⟩
  exact (hi.heldm hk).2 hr

/-! ### Lengths -/

/-- Executions in which everything is interned as a string (`nt`), or everything as a blob. -/
inductive ReachNt (nt : Bool) : S → Prop
  | start : ReachNt nt start
  | step {s t : S} (x : Act) : ReachNt nt s → Contract x → (∀ k, x = .start k → k.nt = nt) → act x s = some t → ReachNt nt t

theorem ReachNt.reach {nt : Bool} {s : S} (h : ReachNt nt s) : Reach s := by
  induction h with
  | start => exact .start
  | step x _ hc _ hs ih => exact .step x ih hc hs

structure NtInv (nt : Bool) (s : S) : Prop where
  ths : ∀ t ∈ s.ths, t.key.nt = nt
  cell : ∀ a, (s.mem a).ph ≠ .free → (s.mem a).key.nt = nt
  held : ∀ h ∈ s.held, h.2.nt = nt

theorem nt_set {nt : Bool} {l : List Th} {k : Nat} {t u : Th} (h : ∀ t ∈ l, t.key.nt = nt) (hk : l[k]? = some t)
    (hu : u.key = t.key) : ∀ v ∈ l.set k u, v.key.nt = nt := by
  intro v hv
  rcases List.mem_or_eq_of_mem_set hv with hv | hv
  · exact h v hv
  · rw [hv, hu]; exact h t (List.mem_of_getElem? hk)

theorem nt_upd {nt : Bool} {m : Nat → Cell} (h : ∀ a, (m a).ph ≠ .free → (m a).key.nt = nt) (a : Nat) (c : Cell)
    (hc : c.ph ≠ .free → c.key.nt = nt) : ∀ b, (upd m a c b).ph ≠ .free → (upd m a c b).key.nt = nt := by
  intro b hb
  by_cases e : b = a
  · subst e; rw [upd_same] at hb ⊢; exact hc hb
  · rw [upd_ne _ _ e] at hb ⊢; exact h b hb

theorem ntinv_step {nt : Bool} {s t : S} {x : Act} (hi : Inv s) (h : NtInv nt s) (hn : ∀ k, x = .start k → k.nt = nt)
    (hs : act x s = some t) : NtInv nt t := by
  have hnf : ∀ a, (s.mem a).ph ≠ .free → (s.mem a).key.nt = nt := h.cell
  cases x with
  | start key =>
    simp only [act, Option.some.injEq] at hs
    subst hs
    refine ⟨fun v hv => ?_, h.cell, h.held⟩
    rcases List.mem_cons.1 hv with hv | hv
    · rw [hv]; exact hn key rfl
    · exact h.ths v hv
  | lockR k =>
    simp only [act] at hs
    split at hs
    · rename_i t' hk
      split at hs
      · injection hs with hs; subst hs
        exact ⟨nt_set h.ths hk rfl, h.cell, h.held⟩
      · cases hs
    · cases hs
  | get k =>
    simp only [act] at hs
    split at hs
    · rename_i t' hk
      split at hs
      · split at hs <;> (injection hs with hs; subst hs; exact ⟨nt_set h.ths hk rfl, h.cell, h.held⟩)
      · cases hs
    · cases hs
  | cas k =>
    simp only [act] at hs
    split at hs
    · rename_i t' hk
      split at hs
      · split at hs
        · injection hs with hs; subst hs; exact ⟨h.ths, h.cell, h.held⟩
        · rename_i hph
          split at hs
          · injection hs with hs; subst hs
            exact ⟨nt_set h.ths hk rfl, h.cell, h.held⟩
          · injection hs with hs; subst hs
            exact ⟨nt_set h.ths hk rfl, nt_upd h.cell _ _ (fun hf => h.cell _ hf), h.held⟩
      · cases hs
    · cases hs
  | alloc k a =>
    simp only [act] at hs
    split at hs
    · rename_i t' hk
      split at hs
      · split at hs
        · injection hs with hs; subst hs; exact ⟨h.ths, h.cell, h.held⟩
        · injection hs with hs; subst hs
          exact ⟨nt_set h.ths hk rfl, nt_upd h.cell _ _ (fun _ => h.ths _ (List.mem_of_getElem? hk)), h.held⟩
      · cases hs
    · cases hs
  | put k =>
    simp only [act] at hs
    split at hs
    · rename_i t' hk
      split at hs
      · rename_i hp
        have hnew := hi.new (List.mem_of_getElem? hk) hp.1
        have hkn := h.cell t'.a (by rw [hnew]; decide)
        split at hs
        · split at hs
          · injection hs with hs; subst hs; exact ⟨h.ths, h.cell, h.held⟩
          · injection hs with hs; subst hs
            exact ⟨nt_set h.ths hk rfl, nt_upd h.cell _ _ (fun _ => hkn), h.held⟩
        · injection hs with hs; subst hs
          exact ⟨nt_set h.ths hk rfl, nt_upd h.cell _ _ (fun _ => hkn), h.held⟩
      · cases hs
    · cases hs
  | scas k =>
    simp only [act] at hs
    split at hs
    · rename_i t' hk
      split at hs
      · split at hs
        · injection hs with hs; subst hs; exact ⟨h.ths, h.cell, h.held⟩
        · rename_i hph
          split at hs
          · injection hs with hs; subst hs
            exact ⟨nt_set h.ths hk rfl, h.cell, h.held⟩
          · injection hs with hs; subst hs
            exact ⟨nt_set h.ths hk rfl, nt_upd h.cell _ _ (fun hf => h.cell _ hf), h.held⟩
      · cases hs
    · cases hs
  | drop k =>
    simp only [act] at hs
    split at hs
    · rename_i t' hk
      split at hs
      · rename_i b r hp htr
        obtain ⟨h1, _⟩ := hi.trashm (List.mem_of_getElem? hk) (b := b) (by rw [htr]; simp)
        split at hs
        · injection hs with hs; subst hs; exact ⟨h.ths, h.cell, h.held⟩
        · injection hs with hs; subst hs
          exact ⟨nt_set h.ths hk rfl, nt_upd h.cell _ _ (fun _ => h.cell b (by rw [h1]; decide)), h.held⟩
      · cases hs
    · cases hs
  | done k =>
    simp only [act] at hs
    split at hs
    · rename_i t' hk
      split at hs
      · injection hs with hs; subst hs
        refine ⟨fun v hv => h.ths v (List.mem_of_mem_eraseIdx hv), h.cell, fun y hy => ?_⟩
        rcases List.mem_cons.1 hy with hy | hy
        · rw [hy]; exact h.ths _ (List.mem_of_getElem? hk)
        · exact h.held y hy
      · cases hs
    · cases hs
  | copy a key =>
    simp only [act] at hs
    split at hs
    · rename_i hm
      split at hs
      · injection hs with hs; subst hs; exact ⟨h.ths, h.cell, h.held⟩
      · injection hs with hs; subst hs
        refine ⟨h.ths, nt_upd h.cell _ _ (fun hf => h.cell _ hf), fun y hy => ?_⟩
        rcases List.mem_cons.1 hy with hy | hy
        · rw [hy]; exact h.held _ hm
        · exact h.held y hy
    · cases hs
  | release a key =>
    simp only [act] at hs
    split at hs
    · rename_i hm
      split at hs
      · injection hs with hs; subst hs; exact ⟨h.ths, h.cell, h.held⟩
      · split at hs
        · injection hs with hs; subst hs
          refine ⟨fun v hv => ?_, nt_upd h.cell _ _ (fun hf => h.cell _ hf), fun y hy => h.held y (List.mem_of_mem_erase hy)⟩
          rcases List.mem_cons.1 hv with hv | hv
          · rw [hv]; exact h.held _ hm
          · exact h.ths v hv
        · injection hs with hs; subst hs
          exact ⟨h.ths, nt_upd h.cell _ _ (fun hf => h.cell _ hf), fun y hy => h.held y (List.mem_of_mem_erase hy)⟩
    · cases hs
  | remove k =>
    simp only [act] at hs
    split at hs
    · rename_i t' hk
      split at hs
      · rename_i hp
        have hz := (hi.zerom (List.mem_of_getElem? hk) hp.1).1
        split at hs
        · injection hs with hs; subst hs; exact ⟨h.ths, h.cell, h.held⟩
        · injection hs with hs; subst hs
          exact ⟨nt_set h.ths hk rfl, nt_upd h.cell _ _ (fun _ => h.cell _ (by rw [hz]; decide)), h.held⟩
      · cases hs
    · cases hs
  | barrier k =>
    simp only [act] at hs
    split at hs
    · rename_i t' hk
      split at hs
      · rename_i hp
        have hz := hi.remm (List.mem_of_getElem? hk) hp.1
        split at hs
        · injection hs with hs; subst hs; exact ⟨h.ths, h.cell, h.held⟩
        · injection hs with hs; subst hs
          exact ⟨fun v hv => h.ths v (List.mem_of_mem_eraseIdx hv), nt_upd h.cell _ _ (fun _ => h.cell _ (by rw [hz]; decide)), h.held⟩
      · cases hs
    · cases hs
  | take =>
    simp only [act, Option.some.injEq] at hs
    subst hs
    refine ⟨h.ths, fun a ha => ?_, h.held⟩
    simp only at ha ⊢
    split
    · rename_i e
      exact h.cell a (by rw [e]; decide)
    · rename_i e
      rw [if_neg e] at ha
      exact h.cell a ha
  | cbarrier =>
    simp only [act] at hs
    split at hs
    · injection hs with hs; subst hs
      refine ⟨h.ths, fun a ha => ?_, h.held⟩
      simp only at ha ⊢
      split
      · rename_i e
        exact h.cell a (by rw [e]; decide)
      · rename_i e
        rw [if_neg e] at ha
        exact h.cell a ha
    · cases hs

theorem ntinv_reach {nt : Bool} {s : S} (h : ReachNt nt s) : NtInv nt s := by
  induction h with
  | start => exact ⟨by simp [start], by simp [start], by simp [start]⟩
  | step x hr hc hn hs ih => exact ntinv_step (inv_reach hr.reach) ih hn hs

/-- C25 (the length, part).  In a pool used only for strings, or only for blobs, `mtev_intern_get_str` gives the bytes
and the length that were interned.  Missing: pools used for both, see `C25_string_or_blob_violated`. -/
theorem C25_length_partial (nt : Bool) (s : S) (h : ReachNt nt s) (a : Nat) (k : Key) (hh : (a, k) ∈ s.held) :
    getStr s a = (k.bytes, k.bytes.length - (if k.nt then 1 else 0)) := by
  have h1 := C25_handle_stands_for_bytes s h.reach a k hh
  have hi := ntinv_reach h
  have h2 := hi.cell a (by rw [((inv_reach h.reach).heldm hh).1]; decide)
  have h3 := hi.held _ hh
  simp only at h3
  unfold getStr at h1 ⊢
  simp only at h1
  rw [h1, h2, h3]

/-! ### What is interned -/

/-- C25 (strings from the caller's buffer).  A terminated string, given with its length or with length 0, is interned
with its terminator. -/
theorem C25_string_key (str rest : List Nat) (h0 : 0 ∉ str) :
    apiKey (str ++ 0 :: rest) 0 true = .ok ⟨str ++ [0], true⟩ ∧
    (str ≠ [] → apiKey (str ++ 0 :: rest) str.length true = .ok ⟨str ++ [0], true⟩) := by
  have ht : (str ++ 0 :: rest).takeWhile (· ≠ 0) = str := by
    rw [List.takeWhile_append_of_pos]
    · simp
    · intro a ha
      simp only [ne_eq, decide_eq_true_eq]
      intro e; subst e; exact h0 ha
  have h1 : ((str ++ 0 :: rest).take (str.length + 1)) = str ++ [0] := by
    rw [show str ++ 0 :: rest = (str ++ [0]) ++ rest by simp, List.take_left' (by simp)]
  constructor
  · unfold apiKey
    simp only [if_true, ht]
    rw [if_neg (by simp), if_neg (by simp), h1]
  · intro hne
    have : str.length ≠ 0 := by simpa using hne
    unfold apiKey
    simp only [this, if_false, if_true, false_and]
    rw [if_neg (by simp), h1]

/-- C25 (blobs). -/
theorem C25_blob_key (buf rest : List Nat) (h : buf ≠ []) :
    apiKey (buf ++ rest) buf.length false = .ok ⟨buf, false⟩ := by
  have : buf.length ≠ 0 := by simpa using h
  unfold apiKey
  simp only [this, if_false, false_and]
  rw [if_neg (by simp)]
  simp

/-! ### Where it fails -/

/-- C25 fails for a part of a longer string: the first two bytes of "abc", interned as a string of length 2, bring the
third byte with them in the place of the terminator; the result is no C string. -/
theorem C25_unterminated_violated : apiKey [97, 98, 99, 0] 2 true = .ok ⟨[97, 98, 99], true⟩ := by decide

/-- The execution of one call without others, when the bytes are not there / are there. -/
def solo (k : Key) (a : Nat) : List Act := [.start k, .lockR 0, .get 0, .alloc 0 a, .put 0, .done 0]
def again (k : Key) : List Act := [.start k, .lockR 0, .get 0, .cas 0, .done 0]

/-- C25 fails for a pool with strings and blobs: the blob "ab\0" and the string "ab" share a handle, and the length of
the string is reported as 3. -/
theorem C25_string_or_blob_violated : ∃ s, run (solo ⟨[97, 98, 0], false⟩ 7 ++ again ⟨[97, 98, 0], true⟩) start = some s ∧
    s.held = [(7, ⟨[97, 98, 0], true⟩), (7, ⟨[97, 98, 0], false⟩)] ∧ (getStr s 7).2 = 3 :=
  ⟨(run (solo ⟨[97, 98, 0], false⟩ 7 ++ again ⟨[97, 98, 0], true⟩) start).get (by decide +kernel), by simp,
    by decide +kernel, by decide +kernel⟩

/-- C25 fails for a key of more than 8 MiB: with "a" in the pool, the key of 2^23+1 bytes that starts with "a" gets the
handle of "a". -/
theorem C25_long_key_violated (tail : List Nat) (hl : tail.length = 2 ^ 23) :
    ∃ s, run (solo ⟨[97], false⟩ 7 ++ again ⟨97 :: tail, false⟩) start = some s ∧
      s.held = [(7, ⟨97 :: tail, false⟩), (7, ⟨[97], false⟩)] ∧ getStr s 7 = ([97], 1) := by
  have hlk : look ⟨97 :: tail, false⟩ = [97] := by
    unfold look
    simp only [List.length_cons, hl]
    rfl
  obtain ⟨s1, h1, h2, h3, h4, h5⟩ : ∃ s1, run (solo ⟨[97], false⟩ 7) start = some s1 ∧ s1.held = [(7, ⟨[97], false⟩)] ∧
      s1.ths = [] ∧ s1.map = [7] ∧ s1.mem 7 = ⟨⟨[97], false⟩, 1, .mapped⟩ :=
    ⟨(run (solo ⟨[97], false⟩ 7) start).get (by decide +kernel), by simp, by decide +kernel, by decide +kernel,
      by decide +kernel, by decide +kernel⟩
  obtain ⟨mem, map, ths, held, bad⟩ := s1
  simp only at h2 h3 h4 h5
  subst h2 h3 h4
  have happ : ∀ (xs ys : List Act) (s : S), run (xs ++ ys) s = (run xs s).bind (run ys) := by
    intro xs
    induction xs with
    | nil => intro ys s; rfl
    | cons x xs ih =>
      intro ys s
      simp only [List.cons_append, run]
      cases act x s with
      | none => rfl
      | some t => exact ih ys t
  rw [happ, h1]
  refine ⟨⟨upd mem 7 ⟨⟨[97], false⟩, 2, .mapped⟩, [7], [], [(7, ⟨97 :: tail, false⟩), (7, ⟨[97], false⟩)], bad⟩, ?_, rfl, ?_⟩
  · have hf : ∀ l h, find [97] ⟨mem, [7], l, h, bad⟩ = some 7 := by
      intro l h
      simp [find, h5]
    simp [again, run, act, hlk, hf, h5]
  · simp [getStr, upd]

/-! ### An execution -/

theorem reach_run : ∀ {xs : List Act} {s t : S}, (∀ x ∈ xs, Contract x) → Reach s → run xs s = some t → Reach t
  | [], s, t, _, h, hr => by simp only [run, Option.some.injEq] at hr; exact hr ▸ h
  | x :: xs, s, t, hx, h, hr => by
    simp only [run] at hr
    split at hr
    · cases hr
    · rename_i u hu
      exact reach_run (fun y hy => hx y (List.mem_cons_of_mem _ hy)) (Reach.step x h (hx x (by simp)) hu) hr

def ab : Key := ⟨[97, 98], false⟩
def cd : Key := ⟨[99, 100], false⟩

/-- Two threads intern "ab" at the same time, both find nothing and allocate; the second loses and takes the object of
the first.  The references are given back while a third thread reads; it retries, and makes a new object at the address
of the object thrown away. -/
def race : List Act :=
  [.start ab, .lockR 0, .get 0, .start ab, .lockR 0, .get 0, .alloc 0 4, .alloc 1 5, .put 1, .put 0, .scas 0, .drop 0,
   .done 1, .done 0, .start ab, .lockR 0, .get 0, .release 5 ab, .release 5 ab, .cas 1, .remove 0, .lockR 1, .get 1,
   .barrier 0, .take, .cbarrier, .alloc 0 4, .put 0, .done 0, .start cd, .lockR 0, .get 0, .alloc 0 5, .put 0, .done 0]

theorem race_some : (run race start).isSome := by decide +kernel

theorem race_end : ∃ s, Reach s ∧ ReachNt false s ∧ s.held = [(5, cd), (4, ab)] ∧ s.ths = [] ∧ s.map = [5, 4] := by
  have hc : ∀ x ∈ race, Contract x := by decide +kernel
  have hn : ∀ x ∈ race, ∀ k, x = .start k → k.nt = false := by
    intro x hx k hk
    subst hk
    simp only [race, List.mem_cons, Act.start.injEq, reduceCtorEq, false_or, List.not_mem_nil, or_false] at hx
    rcases hx with h | h | h | h <;> rw [h] <;> rfl
  have hr : ∀ {xs : List Act} {s t : S}, (∀ x ∈ xs, Contract x) → (∀ x ∈ xs, ∀ k, x = .start k → k.nt = false) →
      ReachNt false s → run xs s = some t → ReachNt false t := by
    intro xs
    induction xs with
    | nil => intro s t _ _ h hr; simp only [run, Option.some.injEq] at hr; exact hr ▸ h
    | cons x xs ih =>
      intro s t hx hx2 h hr
      simp only [run] at hr
      split at hr
      · cases hr
      · rename_i u hu
        exact ih (fun y hy => hx y (List.mem_cons_of_mem _ hy)) (fun y hy => hx2 y (List.mem_cons_of_mem _ hy))
          (ReachNt.step x h (hx x (by simp)) (hx2 x (by simp)) hu) hr
  exact ⟨(run race start).get race_some, reach_run hc .start (by simp), hr hc hn .start (by simp), by decide +kernel,
    by decide +kernel, by decide +kernel⟩

example : ∃ s, Reach s ∧ (4, ab) ∈ s.held ∧ (s.mem 4).ref = 1 ∧ (getStr s 4).1 = [97, 98] := by
  obtain ⟨s, h, _, h1, h2, h3⟩ := race_end
  have hm : (4, ab) ∈ s.held := by rw [h1]; simp
  refine ⟨s, h, hm, ?_, C25_handle_stands_for_bytes s h 4 ab hm⟩
  rw [C25_count s h 4 ab hm, h1, h2]
  rfl

end Mtev.Intern
