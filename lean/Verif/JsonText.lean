/-
The JSON texts the tokener must accept, and what they mean (C39, C64, C65).
-/
import Verif.JsonProps

namespace Mtev.Json

variable (dbl : Bytes → Option Nat)

/-! ### Specification: JSON texts and their meaning -/

/-- A JSON value. -/
inductive J where
  | null
  | bool (b : Bool)
  | int (z : Int)
  | dbl (d : Nat)
  | str (s : Bytes)
  | arr (l : List J)
  | obj (l : List (Bytes × J))

/-- JSON white space. -/
def Ws (w : Bytes) : Prop := ∀ c ∈ w, c = 32 ∨ c = 9 ∨ c = 10 ∨ c = 13

/-- UTF-8 of a code point below 0x10000. -/
def utf8Spec (u : Nat) : Bytes :=
  if u < 128 then [u]
  else if u < 2048 then [192 + u / 64, 128 + u % 64]
  else [224 + u / 4096, 128 + u / 64 % 64, 128 + u % 64]

/-- `HexIs c d`: the character `c` is the (lower case) hex digit for `d`. -/
def HexIs (c d : Nat) : Prop := (d < 10 ∧ c = 48 + d) ∨ (10 ≤ d ∧ d < 16 ∧ c = 87 + d)

/-- `StrTxt s t`: between quotes, the text `t` means the bytes `s`. -/
inductive StrTxt : Bytes → Bytes → Prop
  | nil : StrTxt [] []
  | raw {s t : Bytes} (c : Nat) (h1 : 32 ≤ c) (h2 : c ≠ 34) (h3 : c ≠ 92) (h : StrTxt s t) :
      StrTxt (c :: s) (c :: t)
  | esc {s t : Bytes} (e c : Nat)
      (h1 : (e, c) ∈ [(34, 34), (92, 92), (47, 47), (98, 8), (110, 10), (114, 13), (116, 9)])
      (h : StrTxt s t) : StrTxt (c :: s) (92 :: e :: t)
  | uni {s t : Bytes} (a b c d x y z w : Nat) (ha : HexIs a x) (hb : HexIs b y) (hc : HexIs c z)
      (hd : HexIs d w) (h0 : x * 4096 + y * 256 + z * 16 + w ≠ 0) (h : StrTxt s t) :
      StrTxt (utf8Spec (x * 4096 + y * 256 + z * 16 + w) ++ s) (92 :: 117 :: a :: b :: c :: d :: t)

/-- `IntTxt z t`: the text `t` is the decimal integer `z`, in the range of a signed or an
unsigned 64 bit number. -/
def IntTxt (z : Int) (t : Bytes) : Prop :=
  ∃ ds : Bytes, ds ≠ [] ∧ (∀ c ∈ ds, 48 ≤ c ∧ c ≤ 57) ∧
    ((t = ds ∧ z = decVal ds ∧ z ≤ 18446744073709551615) ∨
     (t = 45 :: ds ∧ z = -(decVal ds : Int) ∧ -9223372036854775808 ≤ z))

/-- `DblTxt t`: the text `t` is a number with a fraction or a (lower case) exponent. -/
def DblTxt (t : Bytes) : Prop :=
  (∀ c ∈ t, (48 ≤ c ∧ c ≤ 57) ∨ c = 46 ∨ c = 43 ∨ c = 45 ∨ c = 101) ∧ (46 ∈ t ∨ 101 ∈ t) ∧
    ∃ c r, t = c :: r ∧ ((48 ≤ c ∧ c ≤ 57) ∨ c = 45)

/-- The last entry of every key, in order. -/
def lastWins : List (Bytes × J) → List (Bytes × J)
  | [] => []
  | (k, v) :: l => if l.any (fun e => decide (e.1 = k)) then lastWins l else (k, v) :: lastWins l

inductive Item where
  | val (v : J)
  | elems (l : List J)
  | members (l : List (Bytes × J))

/-- `Txt h i t`: `t` is a text for the item `i`, with at most `h` levels of elements
inside.  The value of a number with a fraction is the one `sscanf` gives. -/
inductive Txt : Nat → Item → Bytes → Prop
  | null (h) : Txt h (.val .null) [110, 117, 108, 108]
  | true (h) : Txt h (.val (.bool true)) [116, 114, 117, 101]
  | false (h) : Txt h (.val (.bool false)) [102, 97, 108, 115, 101]
  | int (h) {z t} (hz : IntTxt z t) : Txt h (.val (.int z)) t
  | dbl (h) {t d} (ht : DblTxt t) (hd : dbl t = some d) : Txt h (.val (.dbl d)) t
  | str (h) {s t} (hs : StrTxt s t) : Txt h (.val (.str s)) (34 :: (t ++ [34]))
  | arr0 (h) {w} (hw : Ws w) : Txt h (.val (.arr [])) (91 :: (w ++ [93]))
  | arr {h l t} (ht : Txt h (.elems l) t) : Txt (h + 1) (.val (.arr l)) (91 :: (t ++ [93]))
  | obj0 (h) {w} (hw : Ws w) : Txt h (.val (.obj [])) (123 :: (w ++ [125]))
  | obj {h l t} (ht : Txt h (.members l) t) :
      Txt (h + 1) (.val (.obj (lastWins l))) (123 :: (t ++ [125]))
  | elem1 {h v w1 t w2} (h1 : Ws w1) (ht : Txt h (.val v) t) (h2 : Ws w2) :
      Txt h (.elems [v]) (w1 ++ (t ++ w2))
  | elemS {h v l w1 t w2 r} (h1 : Ws w1) (ht : Txt h (.val v) t) (h2 : Ws w2)
      (hr : Txt h (.elems l) r) : Txt h (.elems (v :: l)) (w1 ++ (t ++ (w2 ++ 44 :: r)))
  | mem1 {h k v w1 kt w2 w3 t w4} (h1 : Ws w1) (hk : StrTxt k kt) (h2 : Ws w2) (h3 : Ws w3)
      (ht : Txt h (.val v) t) (h4 : Ws w4) :
      Txt h (.members [(k, v)]) (w1 ++ 34 :: (kt ++ 34 :: (w2 ++ 58 :: (w3 ++ (t ++ w4)))))
  | memS {h k v l w1 kt w2 w3 t w4 r} (h1 : Ws w1) (hk : StrTxt k kt) (h2 : Ws w2) (h3 : Ws w3)
      (ht : Txt h (.val v) t) (h4 : Ws w4) (hr : Txt h (.members l) r) :
      Txt h (.members ((k, v) :: l))
        (w1 ++ 34 :: (kt ++ 34 :: (w2 ++ 58 :: (w3 ++ (t ++ (w4 ++ 44 :: r))))))

mutual
/-- The value an object of the library stands for. -/
def den : Node → J
  | .null => .null
  | .bool b => .bool b
  | .int n k o => .int (intVal n k o)
  | .dbl d => .dbl d
  | .str s => .str s
  | .arr l => .arr (denL l)
  | .obj l => .obj (denM l)
def denL : List Node → List J
  | [] => []
  | v :: l => den v :: denL l
def denM : List (Bytes × Node) → List (Bytes × J)
  | [] => []
  | (k, v) :: l => (k, den v) :: denM l
end

/-! ### Fuel -/

theorem char_fuel (n k : Nat) (t : Tok) (o : Node) (c : Nat) (h : Inv t) (hn : rank t.lv ≤ n) :
    char dbl (n + k) t o c = char dbl n t o c := by
  induction n generalizing t o with
  | zero =>
    exfalso
    revert hn
    unfold rank
    cases t.lv.st <;> simp [rankSt]
  | succ n ih =>
    have hm := micro_inv dbl t o c h
    rw [show n + 1 + k = (n + k) + 1 by omega]
    unfold char
    cases h1 : micro dbl t o c with
    | redo t' o' =>
      rw [h1] at hm
      exact ih t' o' hm.1 (by have := hm.2; omega)
    | _ => rfl

theorem char_one (n : Nat) (t t' : Tok) (o o' : Node) (c : Nat) (h : micro dbl t o c = .redo t' o') :
    char dbl (n + 1) t o c = char dbl n t' o' c := by
  simp [char, h]

/-- A redo that keeps `obj` is invisible to the loop. -/
theorem loop_redo (t t' : Tok) (c : Nat) (cs : Bytes) (h : micro dbl t .null c = .redo t' .null)
    (hi : Inv t') (hr : rank t'.lv ≤ 11) : loop dbl t (c :: cs) = loop dbl t' (c :: cs) := by
  rw [loop_cons, loop_cons]
  have : char dbl turns t .null c = char dbl turns t' .null c := by
    show char dbl (11 + 1) t .null c = char dbl (11 + 1) t' .null c
    rw [char_one dbl 11 t t' .null .null c h, char_fuel dbl 11 1 t' .null c hi hr]
  rw [this]

theorem loop_next (t t' : Tok) (c : Nat) (cs : Bytes) (hc : c ≠ 0) (h : micro dbl t .null c = .next t') :
    loop dbl t (c :: cs) = loop dbl t' cs := by
  rw [loop_cons]
  have : char dbl turns t .null c = .next t' := by
    show char dbl (11 + 1) t .null c = _
    simp [char, h]
  rw [this]
  simp [hc]

theorem ws_space {w : Bytes} (h : Ws w) : ∀ c ∈ w, isSpace c = true ∧ c ≠ 0 := by
  intro c hc
  rcases h c hc with rfl | rfl | rfl | rfl <;> decide

theorem loop_ws (t : Tok) (w cs : Bytes) (hw : Ws w) (h : t.lv.st = .eatws) :
    loop dbl t (w ++ cs) = loop dbl t cs := by
  induction w with
  | nil => rfl
  | cons c w ih =>
    have h1 := ws_space hw c (by simp)
    rw [List.cons_append, loop_next dbl t t c _ h1.2 (by simp [micro, h, h1.1])]
    exact ih fun x hx => hw x (by simp [hx])

/-! ### Pending values -/

def delim (c : Nat) : Prop := c = 32 ∨ c = 9 ∨ c = 10 ∨ c = 13 ∨ c = 44 ∨ c = 93 ∨ c = 125

def Done (t : Tok) (below : List Level) (n : Node) : Prop :=
  t.lv = ⟨.eatws, .finish, n, none⟩ ∧ t.below = below

def Pend (t : Tok) (below : List Level) (n : Node) : Prop :=
  ∀ c, delim c → ∃ t', Done t' below n ∧ ∀ cs, loop dbl t (c :: cs) = loop dbl t' (c :: cs)

def Low (b : List Level) : Prop := ∀ l ∈ b, lowOk l

theorem Done.pend {t : Tok} {b : List Level} {n : Node} (h : Done t b n) : Pend dbl t b n :=
  fun _ _ => ⟨t, h, fun _ => rfl⟩

theorem Done.inv {t : Tok} {b : List Level} {n : Node} (h : Done t b n) (hb : Low b) : Inv t := by
  obtain ⟨h1, h2⟩ := h
  refine ⟨?_, by rw [h2]; exact hb⟩
  rw [h1]
  simp [topOk, resumable, needs]

theorem Pend.skip {t : Tok} {b : List Level} {n : Node} (h : Pend dbl t b n) {w : Bytes} (hw : Ws w)
    (d : Nat) (hd : delim d) :
    ∃ t', Done t' b n ∧ ∀ cs, loop dbl t (w ++ d :: cs) = loop dbl t' (d :: cs) := by
  cases w with
  | nil => exact h d hd
  | cons c w =>
    have hc : delim c := by
      rcases hw c (by simp) with h | h | h | h <;> simp [delim, h]
    obtain ⟨t', ht, hl⟩ := h c hc
    refine ⟨t', ht, fun cs => ?_⟩
    rw [List.cons_append, hl]
    exact loop_ws dbl t' (c :: w) (d :: cs) hw (by rw [ht.1])

/-! ### Strings -/

theorem hexIs_facts {c d : Nat} (h : HexIs c d) : isHexChar c = true ∧ hexDigit c = d ∧ c ≠ 0 ∧ d < 16 := by
  have key : ∀ d : Fin 16, ∀ c : Fin 256, HexIs c.1 d.1 → isHexChar c.1 = true ∧ hexDigit c.1 = d.1 ∧ c.1 ≠ 0 := by
    unfold HexIs
    decide +kernel
  have hd : d < 16 := by rcases h with h | h <;> omega
  have hc : c < 256 := by rcases h with h | h <;> omega
  obtain ⟨h1, h2, h3⟩ := key ⟨d, hd⟩ ⟨c, hc⟩ h
  exact ⟨h1, h2, h3, hd⟩

theorem or_add (a b k : Nat) (h : b < 2 ^ k) : (a * 2 ^ k) ||| b = a * 2 ^ k + b := by
  have := Nat.two_pow_add_eq_or_of_lt h a
  rw [Nat.mul_comm] at this
  exact this.symm

theorem utf8_eq (u : Nat) (h : u < 65536) : utf8 u = utf8Spec u := by
  unfold utf8 utf8Spec
  have e1 : (0x3f : Nat) = 2 ^ 6 - 1 := rfl
  simp only [e1, Nat.and_two_pow_sub_one_eq_mod, Nat.shiftRight_eq_div_pow]
  split_ifs with h1 h2
  · rfl
  · have a1 := or_add 6 (u / 2 ^ 6) 5 (by omega)
    have a2 := or_add 2 (u % 2 ^ 6) 6 (by omega)
    norm_num at a1 a2 ⊢
    rw [a1, a2]
    simp; omega
  · have a1 := or_add 14 (u / 2 ^ 12) 4 (by omega)
    have a2 := or_add 2 (u % 2 ^ 6) 6 (by omega)
    have a3 := or_add 2 (u / 2 ^ 6 % 2 ^ 6) 6 (by omega)
    norm_num at a1 a2 a3 ⊢
    rw [a1, a2, a3]
    simp; omega

theorem utf8Spec_nz (u : Nat) (h : u ≠ 0) : ∀ c ∈ utf8Spec u, c ≠ 0 := by
  unfold utf8Spec
  split_ifs <;> simp <;> omega

theorem strTxt_nz {s t : Bytes} (h : StrTxt s t) : ∀ c ∈ s, c ≠ 0 := by
  induction h with
  | nil => simp
  | raw c h1 h2 h3 h ih => intro x hx; simp at hx; rcases hx with rfl | hx; omega; exact ih x hx
  | esc e c h1 h ih =>
    intro x hx; simp at hx; rcases hx with rfl | hx
    · simp at h1; omega
    · exact ih x hx
  | uni a b c d x y z w ha hb hc hd h0 h ih =>
    intro v hv; simp at hv; rcases hv with hv | hv
    · exact utf8Spec_nz _ h0 v hv
    · exact ih v hv

theorem cstr_nz {s : Bytes} (h : ∀ c ∈ s, c ≠ 0) : cstr s = s := by
  unfold cstr
  induction s with
  | nil => rfl
  | cons c s ih =>
    rw [List.takeWhile_cons_of_pos (by simpa using h c (by simp)), ih fun x hx => h x (by simp [hx])]

/-- The tokener after some of a quoted text: it is in `st`, nothing but the buffer moved. -/
def InStr (st : St) (t t' : Tok) (pb : Bytes) : Prop :=
  t'.lv.st = st ∧ t'.lv.cur = t.lv.cur ∧ t'.lv.fld = t.lv.fld ∧ t'.below = t.below ∧
    t'.quote = t.quote ∧ t'.pb = pb

theorem loop_str {st : St} (hst : st = .string ∨ st = .objectField) {s txt : Bytes}
    (h : StrTxt s txt) : ∀ (t : Tok), t.lv.st = st → t.quote = 34 →
      ∃ t', InStr st t t' (t.pb ++ s) ∧ ∀ cs, loop dbl t (txt ++ cs) = loop dbl t' cs := by
  induction h with
  | nil => intro t h1 h2; exact ⟨t, ⟨h1, rfl, rfl, rfl, rfl, by simp⟩, fun _ => rfl⟩
  | @raw s txt c h1 h2 h3 h ih =>
    intro t ht hq
    obtain ⟨t', hi, hl⟩ := ih { t with pb := t.pb ++ [c] } ht hq
    refine ⟨t', ?_, fun cs => ?_⟩
    · obtain ⟨a, b, c', d, e, f⟩ := hi
      exact ⟨a, b, c', d, e, by simpa using f⟩
    · rw [List.cons_append, loop_next dbl t { t with pb := t.pb ++ [c] } c _ (by omega), hl]
      rcases hst with rfl | rfl <;> simp [micro, ht, hq, h2, h3]
  | @esc s txt e c h1 h ih =>
    intro t ht hq
    have step1 : micro dbl t .null 92 = .next (t.go .stringEscape st) := by
      rcases hst with rfl | rfl <;> simp [micro, ht, hq]
    have step2 : micro dbl (t.go .stringEscape st) .null e =
        .next { (t.go .stringEscape st).goSt st with pb := t.pb ++ [c] } := by
      simp at h1
      rcases h1 with ⟨rfl, rfl⟩ | ⟨rfl, rfl⟩ | ⟨rfl, rfl⟩ | ⟨rfl, rfl⟩ | ⟨rfl, rfl⟩ | ⟨rfl, rfl⟩ | ⟨rfl, rfl⟩ <;>
        simp [micro, mEscape, Tok.go, Tok.goSt]
    have he : e ≠ 0 := by simp at h1; omega
    obtain ⟨t', hi, hl⟩ := ih { (t.go .stringEscape st).goSt st with pb := t.pb ++ [c] } rfl hq
    refine ⟨t', ?_, fun cs => ?_⟩
    · obtain ⟨a, b, c', d, e, f⟩ := hi
      exact ⟨a, b, c', d, e, by simpa using f⟩
    · rw [List.cons_append, List.cons_append, loop_next dbl _ _ 92 _ (by decide) step1,
        loop_next dbl _ _ e _ he step2, hl]
  | @uni s txt a b c d x y z w ha hb hc hd h0 h ih =>
    intro t ht hq
    obtain ⟨a1, a2, a3, a4⟩ := hexIs_facts ha
    obtain ⟨b1, b2, b3, b4⟩ := hexIs_facts hb
    obtain ⟨c1, c2, c3, c4⟩ := hexIs_facts hc
    obtain ⟨d1, d2, d3, d4⟩ := hexIs_facts hd
    have hu : utf8 (x * 4096 + y * 256 + z * 16 + w) = utf8Spec (x * 4096 + y * 256 + z * 16 + w) :=
      utf8_eq _ (by omega)
    have step1 : micro dbl t .null 92 = .next (t.go .stringEscape st) := by
      rcases hst with rfl | rfl <;> simp [micro, ht, hq]
    let t2 : Tok := { (t.go .stringEscape st).goSt .escapeUnicode with ucs := 0, stPos := 0 }
    have step2 : micro dbl (t.go .stringEscape st) .null 117 = .next t2 := by
      simp [micro, mEscape, Tok.go, Tok.goSt, t2]
    let t3 : Tok := { t2 with ucs := x * 4096, stPos := 1 }
    have step3 : micro dbl t2 .null a = .next t3 := by
      have : x * 4096 % 4294967296 = x * 4096 := by omega
      simp [micro, mUnicode, a1, a2, t2, t3, Tok.go, Tok.goSt, this]
    let t4 : Tok := { t2 with ucs := x * 4096 + y * 256, stPos := 2 }
    have step4 : micro dbl t3 .null b = .next t4 := by
      have : (x * 4096 + y * 256) % 4294967296 = x * 4096 + y * 256 := by omega
      simp [micro, mUnicode, b1, b2, t2, t3, t4, Tok.go, Tok.goSt, this]
    let t5 : Tok := { t2 with ucs := x * 4096 + y * 256 + z * 16, stPos := 3 }
    have step5 : micro dbl t4 .null c = .next t5 := by
      have : (x * 4096 + y * 256 + z * 16) % 4294967296 = x * 4096 + y * 256 + z * 16 := by omega
      simp [micro, mUnicode, c1, c2, t2, t4, t5, Tok.go, Tok.goSt, this]
    let t6 : Tok := { t2 with
      lv := { t2.lv with st := st }, ucs := x * 4096 + y * 256 + z * 16 + w, stPos := 4,
      pb := t.pb ++ utf8Spec (x * 4096 + y * 256 + z * 16 + w) }
    have step6 : micro dbl t5 .null d = .next t6 := by
      have : (x * 4096 + y * 256 + z * 16 + w) % 4294967296 = x * 4096 + y * 256 + z * 16 + w := by omega
      simp [micro, mUnicode, d1, d2, t2, t5, t6, Tok.go, Tok.goSt, this, hu]
    obtain ⟨t', hi, hl⟩ := ih t6 rfl hq
    refine ⟨t', ?_, fun cs => ?_⟩
    · obtain ⟨a, b, c', d, e, f⟩ := hi
      exact ⟨a, b, c', d, e, by simpa [t6] using f⟩
    · simp only [List.cons_append]
      rw [loop_next dbl _ _ 92 _ (by decide) step1, loop_next dbl _ _ 117 _ (by decide) step2,
        loop_next dbl _ _ a _ a3 step3, loop_next dbl _ _ b _ b3 step4,
        loop_next dbl _ _ c _ c3 step5, loop_next dbl _ _ d _ d3 step6, hl]

/-! ### Numbers -/

theorem digits_self {ds : Bytes} (h : ∀ c ∈ ds, 48 ≤ c ∧ c ≤ 57) : digits ds = ds := by
  unfold digits
  induction ds with
  | nil => rfl
  | cons c s ih =>
    rw [List.takeWhile_cons_of_pos (by simpa using h c (by simp)), ih fun x hx => h x (by simp [hx])]

theorem mkNumber_int {z : Int} {t : Bytes} (h : IntTxt z t) :
    ∃ n, mkNumber dbl false t = some n ∧ den n = .int z := by
  obtain ⟨ds, hne, hd, h⟩ := h
  have hdd := digits_self hd
  have hnz : ∀ c ∈ ds, c ≠ 0 := fun c hc => by have := hd c hc; omega
  rcases h with ⟨rfl, hz, hr⟩ | ⟨rfl, hz, hr⟩
  · obtain ⟨c, cs, rfl⟩ := List.exists_cons_of_ne_nil hne
    have hc := hd c (by simp)
    have hs : scanInt (c :: cs) = some z := by
      unfold scanInt
      split
      · rename_i heq; simp at heq; omega
      · rw [hdd, if_neg hne, hz]
    have hcl : clampU z = z := by unfold clampU; rw [if_neg (by omega)]
    unfold mkNumber
    simp only [Bool.false_eq_true, if_false, cstr_nz hnz, hs, List.head?_cons, Option.some.injEq,
      show ¬ c = 45 by omega, hcl]
    refine ⟨_, rfl, ?_⟩
    simp only [den]
    split_ifs with h
    · rfl
    · push Not at h; exact congrArg J.int h.2.symm
  · have hs : scanInt (45 :: ds) = some z := by
      simp only [scanInt, hdd, if_neg hne, hz]
    have hnz' : ∀ c ∈ 45 :: ds, c ≠ 0 := by
      intro c hc; simp at hc; rcases hc with rfl | hc; decide; exact hnz c hc
    have hcl : clampI z = z := by unfold clampI; rw [if_neg (by omega), if_neg (by omega)]
    unfold mkNumber
    simp only [Bool.false_eq_true, if_false, cstr_nz hnz', hs, List.head?_cons, if_true, hcl]
    refine ⟨_, rfl, ?_⟩
    simp only [den]
    split_ifs with h
    · rfl
    · push Not at h; exact congrArg J.int h.symm

/-- The number text is collected in the buffer. -/
theorem loop_num (txt : Bytes) (h : ∀ c ∈ txt, isNumChar c = true ∧ c ≠ 0) (t : Tok)
    (ht : t.lv.st = .number) (cs : Bytes) :
    loop dbl t (txt ++ cs) =
      loop dbl { t with
        pb := t.pb ++ txt,
        isDouble := t.isDouble || txt.any (fun c => c == 46 || c == 101) } cs := by
  induction txt generalizing t with
  | nil => simp
  | cons c r ih =>
    have hc := h c (by simp)
    rw [List.cons_append, loop_next dbl t { t with pb := t.pb ++ [c], isDouble := t.isDouble || (c == 46 || c == 101) }
      c _ hc.2 (by simp [micro, ht, mNumber, hc])]
    rw [ih (fun x hx => h x (by simp [hx]))
      { t with pb := t.pb ++ [c], isDouble := t.isDouble || (c == 46 || c == 101) } ht]
    simp [Bool.or_assoc]

/-- The state in which a value is read. -/
def fresh : Level := ⟨.start, .start, .null, none⟩

theorem delim_facts {c : Nat} (h : delim c) : isNumChar c = false ∧ c ≠ 0 ∧ c ≠ 47 := by
  rcases h with rfl | rfl | rfl | rfl | rfl | rfl | rfl <;> decide

theorem done_inv_rank {t : Tok} {b : List Level} {n : Node} (h : Done t b n) (hb : Low b) :
    Inv t ∧ rank t.lv ≤ 11 := by
  refine ⟨h.inv hb, ?_⟩
  rw [h.1]
  simp [rank, rankSt]

theorem pend_num (t : Tok) (b : List Level) (n : Node) (st : St) (hlv : t.lv = ⟨.number, st, .null, none⟩)
    (hb : t.below = b) (hL : Low b) (hn : mkNumber dbl t.isDouble t.pb = some n) : Pend dbl t b n := by
  intro c hc
  have hd : Done (t.value n) b n := ⟨by simp [Tok.value, hlv], hb⟩
  refine ⟨t.value n, hd, fun cs => ?_⟩
  obtain ⟨hi, hr⟩ := done_inv_rank hd hL
  refine loop_redo dbl t (t.value n) c cs ?_ hi hr
  have := delim_facts hc
  simp [micro, hlv, mNumber, this.1, hn]

theorem start_num (t : Tok) (c : Nat) (cs : Bytes) (hlv : t.lv = fresh) (hL : Low t.below)
    (hc : (48 ≤ c ∧ c ≤ 57) ∨ c = 45) :
    loop dbl t (c :: cs) = loop dbl { t.goSt .number with pb := [], isDouble := false } (c :: cs) := by
  refine loop_redo dbl t _ c cs ?_ ⟨by simp [Tok.goSt, hlv, fresh, topOk, needs], hL⟩
    (by simp [Tok.goSt, rank, rankSt])
  have h1 : c ≠ 123 := by omega
  have h2 : c ≠ 91 := by omega
  have h3 : ¬ (c = 78 ∨ c = 110) := by omega
  have h4 : ¬ (c = 34 ∨ c = 39) := by omega
  have h5 : ¬ (c = 84 ∨ c = 116 ∨ c = 70 ∨ c = 102) := by omega
  simp only [micro, hlv, fresh, mStart, h1, h2, h3, h4, h5, hc, if_true, if_false]

theorem num_value (t : Tok) (txt : Bytes) (n : Node) (d : Bool) (hlv : t.lv = fresh) (hL : Low t.below)
    (hch : ∀ c ∈ txt, isNumChar c = true ∧ c ≠ 0)
    (h0 : ∃ c r, txt = c :: r ∧ ((48 ≤ c ∧ c ≤ 57) ∨ c = 45))
    (hd : txt.any (fun c => c == 46 || c == 101) = d) (hn : mkNumber dbl d txt = some n) :
    ∃ t', Pend dbl t' t.below n ∧ ∀ cs, loop dbl t (txt ++ cs) = loop dbl t' cs := by
  refine ⟨{ t.goSt .number with pb := txt, isDouble := d }, ?_, fun cs => ?_⟩
  · exact pend_num dbl _ _ n .start (by simp [Tok.goSt, hlv, fresh]) rfl hL hn
  · obtain ⟨c, r, rfl, hc⟩ := h0
    rw [List.cons_append, start_num dbl t c _ hlv hL hc, ← List.cons_append,
      loop_num dbl (c :: r) hch _ rfl]
    simp [hd]

theorem pos_number (t : Bytes) (h : ∀ c ∈ t, 48 ≤ c ∧ c ≤ 57) :
    t.any (fun c => c == 46 || c == 101) = false := by
  rw [List.any_eq_false]
  intro c hc
  have := h c hc
  simp; omega

theorem intTxt_value {z : Int} {txt : Bytes} (hz : IntTxt z txt) (t : Tok) (hlv : t.lv = fresh)
    (hL : Low t.below) :
    ∃ n, den n = .int z ∧ ∃ t', Pend dbl t' t.below n ∧ ∀ cs, loop dbl t (txt ++ cs) = loop dbl t' cs := by
  obtain ⟨n, hn, hd⟩ := mkNumber_int dbl hz
  refine ⟨n, hd, num_value dbl t txt n false hlv hL ?_ ?_ ?_ hn⟩
  all_goals obtain ⟨ds, hne, hdg, h⟩ := hz
  · have : ∀ c ∈ txt, (48 ≤ c ∧ c ≤ 57) ∨ c = 45 := by
      rcases h with ⟨rfl, _⟩ | ⟨rfl, _⟩
      · exact fun c hc => Or.inl (hdg c hc)
      · intro c hc; simp at hc; rcases hc with rfl | hc; exact Or.inr rfl; exact Or.inl (hdg c hc)
    intro c hc
    have := this c hc
    refine ⟨?_, by omega⟩
    unfold isNumChar
    rcases this with h | h
    · simp [h]
    · simp [h]
  · rcases h with ⟨rfl, _⟩ | ⟨rfl, _⟩
    · obtain ⟨c, cs, rfl⟩ := List.exists_cons_of_ne_nil hne
      exact ⟨c, cs, rfl, Or.inl (hdg c (by simp))⟩
    · exact ⟨45, ds, rfl, Or.inr rfl⟩
  · rcases h with ⟨rfl, _⟩ | ⟨rfl, _⟩
    · exact pos_number _ hdg
    · rw [List.any_cons, pos_number _ hdg]; rfl

theorem dblTxt_value {d : Nat} {txt : Bytes} (hz : DblTxt txt) (hd : dbl txt = some d) (t : Tok)
    (hlv : t.lv = fresh) (hL : Low t.below) :
    ∃ t', Pend dbl t' t.below (.dbl d) ∧ ∀ cs, loop dbl t (txt ++ cs) = loop dbl t' cs := by
  obtain ⟨h1, h2, h3⟩ := hz
  have hnz : ∀ c ∈ txt, c ≠ 0 := fun c hc => by have := h1 c hc; omega
  refine num_value dbl t txt (.dbl d) true hlv hL ?_ h3 ?_ (by simp [mkNumber, cstr_nz hnz, hd])
  · intro c hc
    refine ⟨?_, hnz c hc⟩
    have := h1 c hc
    unfold isNumChar
    rcases this with h | h | h | h | h <;> simp [h]
  · rw [List.any_eq_true]
    rcases h2 with h | h
    · exact ⟨46, h, rfl⟩
    · exact ⟨101, h, rfl⟩

/-! ### Literals -/

theorem null_value (t : Tok) (hlv : t.lv = fresh) (hL : Low t.below) :
    ∃ t', Pend dbl t' t.below .null ∧ ∀ cs, loop dbl t ([110, 117, 108, 108] ++ cs) = loop dbl t' cs := by
  have ht : topOk (t.goSt .null).lv := by simp [Tok.goSt, hlv, fresh, topOk, needs]
  let t1 : Tok := { t.goSt .null with pb := [110, 117, 108, 108], stPos := 4 }
  refine ⟨t1, ?_, fun cs => ?_⟩
  · intro c hc
    have hd : Done (({ t1 with pb := t1.pb ++ [c] } : Tok).value .null) t.below .null :=
      ⟨by simp [Tok.value, t1, Tok.goSt, hlv, fresh], rfl⟩
    refine ⟨_, hd, fun cs => ?_⟩
    obtain ⟨hi, hr⟩ := done_inv_rank hd hL
    refine loop_redo dbl _ _ c cs ?_ hi hr
    have : caseEq nullStr [110, 117, 108, 108, c] 4 = true := by
      have : c ≠ 0 := (delim_facts hc).2.1
      simp [caseEq, cstr, nullStr, lower, this]
    simp [micro, mNull, t1, Tok.goSt, this]
  · simp only [List.cons_append, List.nil_append]
    rw [loop_redo dbl t { t.goSt .null with pb := [], stPos := 0 } 110 _
      (by simp [micro, hlv, fresh, mStart]) ⟨ht, hL⟩ (by simp [Tok.goSt, rank, rankSt])]
    rw [loop_next dbl _ { t.goSt .null with pb := [110], stPos := 1 } 110 _ (by decide)
      (by simp [micro, Tok.goSt, mNull, caseEq, cstr, nullStr, lower])]
    rw [loop_next dbl _ { t.goSt .null with pb := [110, 117], stPos := 2 } 117 _ (by decide)
      (by simp [micro, Tok.goSt, mNull, caseEq, cstr, nullStr, lower])]
    rw [loop_next dbl _ { t.goSt .null with pb := [110, 117, 108], stPos := 3 } 108 _ (by decide)
      (by simp [micro, Tok.goSt, mNull, caseEq, cstr, nullStr, lower])]
    rw [loop_next dbl _ t1 108 _ (by decide)
      (by simp [micro, Tok.goSt, mNull, caseEq, cstr, nullStr, lower, t1])]

theorem true_value (t : Tok) (hlv : t.lv = fresh) (hL : Low t.below) :
    ∃ t', Pend dbl t' t.below (.bool true) ∧
      ∀ cs, loop dbl t ([116, 114, 117, 101] ++ cs) = loop dbl t' cs := by
  have ht : topOk (t.goSt .boolean).lv := by simp [Tok.goSt, hlv, fresh, topOk, needs]
  let t1 : Tok := { t.goSt .boolean with pb := [116, 114, 117, 101], stPos := 4 }
  refine ⟨t1, ?_, fun cs => ?_⟩
  · intro c hc
    have hd : Done (({ t1 with pb := t1.pb ++ [c] } : Tok).value (.bool true)) t.below (.bool true) :=
      ⟨by simp [Tok.value, t1, Tok.goSt, hlv, fresh], rfl⟩
    refine ⟨_, hd, fun cs => ?_⟩
    obtain ⟨hi, hr⟩ := done_inv_rank hd hL
    refine loop_redo dbl _ _ c cs ?_ hi hr
    have : caseEq trueStr [116, 114, 117, 101, c] 4 = true := by
      have : c ≠ 0 := (delim_facts hc).2.1
      simp [caseEq, cstr, trueStr, lower, this]
    simp [micro, mBoolean, t1, Tok.goSt, this]
  · simp only [List.cons_append, List.nil_append]
    rw [loop_redo dbl t { t.goSt .boolean with pb := [], stPos := 0 } 116 _
      (by simp [micro, hlv, fresh, mStart]) ⟨ht, hL⟩ (by simp [Tok.goSt, rank, rankSt])]
    rw [loop_next dbl _ { t.goSt .boolean with pb := [116], stPos := 1 } 116 _ (by decide)
      (by simp [micro, Tok.goSt, mBoolean, caseEq, cstr, trueStr, lower])]
    rw [loop_next dbl _ { t.goSt .boolean with pb := [116, 114], stPos := 2 } 114 _ (by decide)
      (by simp [micro, Tok.goSt, mBoolean, caseEq, cstr, trueStr, lower])]
    rw [loop_next dbl _ { t.goSt .boolean with pb := [116, 114, 117], stPos := 3 } 117 _ (by decide)
      (by simp [micro, Tok.goSt, mBoolean, caseEq, cstr, trueStr, lower])]
    rw [loop_next dbl _ t1 101 _ (by decide)
      (by simp [micro, Tok.goSt, mBoolean, caseEq, cstr, trueStr, lower, t1])]

theorem false_value (t : Tok) (hlv : t.lv = fresh) (hL : Low t.below) :
    ∃ t', Pend dbl t' t.below (.bool false) ∧
      ∀ cs, loop dbl t ([102, 97, 108, 115, 101] ++ cs) = loop dbl t' cs := by
  have ht : topOk (t.goSt .boolean).lv := by simp [Tok.goSt, hlv, fresh, topOk, needs]
  let t1 : Tok := { t.goSt .boolean with pb := [102, 97, 108, 115, 101], stPos := 5 }
  refine ⟨t1, ?_, fun cs => ?_⟩
  · intro c hc
    have hd : Done (({ t1 with pb := t1.pb ++ [c] } : Tok).value (.bool false)) t.below (.bool false) :=
      ⟨by simp [Tok.value, t1, Tok.goSt, hlv, fresh], rfl⟩
    refine ⟨_, hd, fun cs => ?_⟩
    obtain ⟨hi, hr⟩ := done_inv_rank hd hL
    refine loop_redo dbl _ _ c cs ?_ hi hr
    have h1 : caseEq falseStr [102, 97, 108, 115, 101, c] 5 = true := by
      have : c ≠ 0 := (delim_facts hc).2.1
      simp [caseEq, cstr, falseStr, lower, this]
    have h2 : caseEq trueStr [102, 97, 108, 115, 101, c] 4 = false := by
      simp [caseEq, cstr, trueStr, lower]
    simp [micro, mBoolean, t1, Tok.goSt, h1, h2]
  · simp only [List.cons_append, List.nil_append]
    rw [loop_redo dbl t { t.goSt .boolean with pb := [], stPos := 0 } 102 _
      (by simp [micro, hlv, fresh, mStart]) ⟨ht, hL⟩ (by simp [Tok.goSt, rank, rankSt])]
    rw [loop_next dbl _ { t.goSt .boolean with pb := [102], stPos := 1 } 102 _ (by decide)
      (by simp [micro, Tok.goSt, mBoolean, caseEq, cstr, trueStr, falseStr, lower])]
    rw [loop_next dbl _ { t.goSt .boolean with pb := [102, 97], stPos := 2 } 97 _ (by decide)
      (by simp [micro, Tok.goSt, mBoolean, caseEq, cstr, trueStr, falseStr, lower])]
    rw [loop_next dbl _ { t.goSt .boolean with pb := [102, 97, 108], stPos := 3 } 108 _ (by decide)
      (by simp [micro, Tok.goSt, mBoolean, caseEq, cstr, trueStr, falseStr, lower])]
    rw [loop_next dbl _ { t.goSt .boolean with pb := [102, 97, 108, 115], stPos := 4 } 115 _ (by decide)
      (by simp [micro, Tok.goSt, mBoolean, caseEq, cstr, trueStr, falseStr, lower])]
    rw [loop_next dbl _ t1 101 _ (by decide)
      (by simp [micro, Tok.goSt, mBoolean, caseEq, cstr, trueStr, falseStr, lower, t1])]

theorem str_value {s txt : Bytes} (hs : StrTxt s txt) (t : Tok) (hlv : t.lv = fresh) :
    ∃ t', Done t' t.below (.str s) ∧ ∀ cs, loop dbl t (34 :: (txt ++ [34]) ++ cs) = loop dbl t' cs := by
  let t1 : Tok := { t.goSt .string with pb := [], quote := 34 }
  obtain ⟨t2, ⟨i1, i2, i3, i4, i5, i6⟩, hl⟩ := loop_str dbl (Or.inl rfl) hs t1 rfl rfl
  refine ⟨t2.value (.str s), ⟨?_, by simp [Tok.value, i4, t1, Tok.goSt]⟩, fun cs => ?_⟩
  · simp [Tok.value, i3, t1, Tok.goSt, hlv, fresh]
  · rw [List.cons_append, loop_next dbl t t1 34 _ (by decide) (by simp [micro, hlv, fresh, mStart, t1]),
      List.append_assoc, hl]
    have : cstr t2.pb = s := by rw [i6]; exact cstr_nz (strTxt_nz hs)
    rw [List.cons_append, loop_next dbl t2 (t2.value (.str s)) 34 _ (by decide)
      (by simp [micro, i1, i5, t1, this])]
    rfl

end Mtev.Json
