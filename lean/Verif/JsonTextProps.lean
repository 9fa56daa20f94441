/-
C39 (strings survive), C64 (JSON texts are accepted with their meaning) and
C65 (printing a tree and parsing it gives the tree).
-/
import Verif.JsonText

namespace Mtev.Json

variable (dbl : Bytes → Option Nat)

/-! ### Arrays and objects -/

/-- A level that has read `[` and perhaps some elements. -/
def arrLv (saved : St) (l : List Node) : Level := ⟨.eatws, saved, .arr l, none⟩

/-- A level that has read `{` and perhaps some members. -/
def objLv (saved : St) (l : List (Bytes × Node)) (f : Option Bytes) : Level := ⟨.eatws, saved, .obj l, f⟩

/-- A character that can begin a value. -/
def begins (c : Nat) : Prop := isSpace c = false ∧ c ≠ 47 ∧ c ≠ 93 ∧ c ≠ 125 ∧ c ≠ 0

theorem loop_of_char {t t' : Tok} {c : Nat} (cs : Bytes)
    (h : char dbl turns t .null c = char dbl turns t' .null c) :
    loop dbl t (c :: cs) = loop dbl t' (c :: cs) := by
  rw [loop_cons, loop_cons, h]

theorem fresh_inv (t : Tok) (h : t.lv = fresh) (hb : Low t.below) : Inv t ∧ rank t.lv ≤ 7 := by
  refine ⟨⟨by rw [h]; simp [fresh, topOk, needs], hb⟩, by rw [h]; simp [fresh, rank, rankSt]⟩

/-- Entering an element. -/
theorem enter_elem (t : Tok) (l : List Node) (c : Nat) (hlv : t.lv = arrLv .array l)
    (hc : begins c) (hd : t.below.length < 31) (hL : Low t.below) :
    ∃ t', t'.lv = fresh ∧ t'.below = ⟨.arrayAdd, .array, .arr l, none⟩ :: t.below ∧
      Low t'.below ∧ ∀ cs, loop dbl t (c :: cs) = loop dbl t' (c :: cs) := by
  obtain ⟨h1, h2, h3, h4, h5⟩ := hc
  let t' : Tok := { t with lv := fresh, below := ⟨.arrayAdd, .array, .arr l, none⟩ :: t.below }
  have hL' : Low t'.below := by
    intro x hx
    simp only [t', List.mem_cons] at hx
    rcases hx with rfl | hx
    · simp [lowOk, needs, isArr]
    · exact hL x hx
  refine ⟨t', rfl, rfl, hL', fun cs => loop_of_char dbl cs ?_⟩
  obtain ⟨hi, hr⟩ := fresh_inv t' rfl hL'
  have e : char dbl (9 + 1 + 1 + 1) t .null c = char dbl 9 t' .null c := by
    rw [char_one dbl (9 + 1 + 1) t (t.goSt .array) .null .null c
        (by simp [micro, hlv, arrLv, h1, h2, Tok.goSt]),
      char_one dbl (9 + 1) (t.goSt .array) ((t.goSt .array).push .arrayAdd) .null .null c
        (by simp [micro, Tok.goSt, h3, maxDepth, Tok.push]; omega),
      char_one dbl 9 ((t.goSt .array).push .arrayAdd) t' .null .null c
        (by simp [micro, Tok.goSt, Tok.push, resetLevel, h1, h2, hlv, arrLv, t', fresh])]
  show char dbl (9 + 1 + 1 + 1) t .null c = char dbl (9 + 3) t' .null c
  rw [e, char_fuel dbl 9 3 t' .null c hi (by omega)]

/-- Entering the value of a member. -/
theorem enter_member (t : Tok) (l : List (Bytes × Node)) (k : Bytes) (c : Nat)
    (hlv : t.lv = objLv .objectValue l (some k))
    (hc : begins c) (hd : t.below.length < 31) (hL : Low t.below) :
    ∃ t', t'.lv = fresh ∧ t'.below = ⟨.objectValueAdd, .objectValue, .obj l, some k⟩ :: t.below ∧
      Low t'.below ∧ ∀ cs, loop dbl t (c :: cs) = loop dbl t' (c :: cs) := by
  obtain ⟨h1, h2, h3, h4, h5⟩ := hc
  let t' : Tok := { t with
    lv := fresh, below := ⟨.objectValueAdd, .objectValue, .obj l, some k⟩ :: t.below }
  have hL' : Low t'.below := by
    intro x hx
    simp only [t', List.mem_cons] at hx
    rcases hx with rfl | hx
    · simp [lowOk, needs, isObj]
    · exact hL x hx
  refine ⟨t', rfl, rfl, hL', fun cs => loop_of_char dbl cs ?_⟩
  obtain ⟨hi, hr⟩ := fresh_inv t' rfl hL'
  have e : char dbl (9 + 1 + 1 + 1) t .null c = char dbl 9 t' .null c := by
    rw [char_one dbl (9 + 1 + 1) t (t.goSt .objectValue) .null .null c
        (by simp [micro, hlv, objLv, h1, h2, Tok.goSt]),
      char_one dbl (9 + 1) (t.goSt .objectValue) ((t.goSt .objectValue).push .objectValueAdd) .null .null c
        (by simp [micro, Tok.goSt, maxDepth, Tok.push]; omega),
      char_one dbl 9 ((t.goSt .objectValue).push .objectValueAdd) t' .null .null c
        (by simp [micro, Tok.goSt, Tok.push, resetLevel, h1, h2, hlv, objLv, t', fresh])]
  show char dbl (9 + 1 + 1 + 1) t .null c = char dbl (9 + 3) t' .null c
  rw [e, char_fuel dbl 9 3 t' .null c hi (by omega)]

/-- After an element: `]` ends the array, `,` goes on. -/
theorem leave_elem (t : Tok) (l : List Node) (b : List Level) (n : Node)
    (h : Done t (⟨.arrayAdd, .array, .arr l, none⟩ :: b) n) :
    (∃ t', Done t' b (.arr (l ++ [n])) ∧ ∀ cs, loop dbl t (93 :: cs) = loop dbl t' cs) ∧
    (∃ t', t'.lv = arrLv .array (l ++ [n]) ∧ t'.below = b ∧
      ∀ cs, loop dbl t (44 :: cs) = loop dbl t' cs) := by
  obtain ⟨h1, h2⟩ := h
  have s1 : isSpace 93 = false := rfl
  have s2 : isSpace 44 = false := rfl
  constructor
  · refine ⟨{ t with lv := ⟨.eatws, .finish, .arr (l ++ [n]), none⟩, below := b }, ⟨rfl, rfl⟩, fun cs => ?_⟩
    rw [loop_cons]
    simp [char, turns, micro, h1, h2, s1, Tok.goSt, arrayAdd, Tok.go]
  · refine ⟨{ t with lv := arrLv .array (l ++ [n]), below := b }, rfl, rfl, fun cs => ?_⟩
    rw [loop_cons]
    simp [char, turns, micro, h1, h2, s2, Tok.goSt, arrayAdd, Tok.go, arrLv]

/-- After the value of a member. -/
theorem leave_member (t : Tok) (l : List (Bytes × Node)) (k : Bytes) (b : List Level) (n : Node)
    (h : Done t (⟨.objectValueAdd, .objectValue, .obj l, some k⟩ :: b) n) :
    (∃ t', Done t' b (.obj (objPut l k n)) ∧ ∀ cs, loop dbl t (125 :: cs) = loop dbl t' cs) ∧
    (∃ t', t'.lv = objLv .objectFieldStart (objPut l k n) none ∧ t'.below = b ∧
      ∀ cs, loop dbl t (44 :: cs) = loop dbl t' cs) := by
  obtain ⟨h1, h2⟩ := h
  have s1 : isSpace 125 = false := rfl
  have s2 : isSpace 44 = false := rfl
  constructor
  · refine ⟨{ t with lv := ⟨.eatws, .finish, .obj (objPut l k n), none⟩, below := b }, ⟨rfl, rfl⟩, fun cs => ?_⟩
    rw [loop_cons]
    simp [char, turns, micro, h1, h2, s1, Tok.goSt, objectAdd, Tok.go]
  · refine ⟨{ t with lv := objLv .objectFieldStart (objPut l k n) none, below := b }, rfl, rfl, fun cs => ?_⟩
    rw [loop_cons]
    simp [char, turns, micro, h1, h2, s2, Tok.goSt, objectAdd, Tok.go, objLv]

/-- The key of a member and the colon. -/
theorem loop_key (t : Tok) (l : List (Bytes × Node)) (k kt w1 w2 : Bytes)
    (hlv : t.lv = objLv .objectFieldStart l none) (h1 : Ws w1) (hk : StrTxt k kt) (h2 : Ws w2) :
    ∃ t', t'.lv = objLv .objectValue l (some k) ∧ t'.below = t.below ∧
      ∀ cs, loop dbl t (w1 ++ 34 :: (kt ++ 34 :: (w2 ++ 58 :: cs))) = loop dbl t' cs := by
  have s1 : isSpace 34 = false := rfl
  have s2 : isSpace 58 = false := rfl
  let t1 : Tok := { t with lv := ⟨.objectField, .objectFieldStart, .obj l, none⟩, quote := 34, pb := [] }
  have e1 : ∀ cs, loop dbl t (34 :: cs) = loop dbl t1 cs := by
    intro cs
    rw [loop_cons]
    simp [char, turns, micro, hlv, objLv, s1, Tok.goSt, t1]
  obtain ⟨t2, ⟨i1, i2, i3, i4, i5, i6⟩, hl⟩ := loop_str dbl (Or.inr rfl) hk t1 rfl rfl
  have hcs : cstr t2.pb = k := by rw [i6]; exact cstr_nz (strTxt_nz hk)
  let t3 : Tok := { t2 with lv := { t2.lv with st := .eatws, saved := .objectFieldEnd, fld := some k } }
  have e3 : ∀ cs, loop dbl t2 (34 :: cs) = loop dbl t3 cs := fun cs =>
    loop_next dbl t2 t3 34 cs (by decide) (by simp [micro, i1, i5, t1, hcs, t3])
  let t4 : Tok := { t3 with lv := objLv .objectValue l (some k) }
  have e4 : ∀ cs, loop dbl t3 (58 :: cs) = loop dbl t4 cs := by
    intro cs
    rw [loop_cons]
    simp [char, turns, micro, t3, s2, Tok.goSt, Tok.go, t4, objLv, i2, t1]
  refine ⟨t4, rfl, by simp [t4, t3, i4, t1], fun cs => ?_⟩
  rw [loop_ws dbl t w1 _ h1 (by rw [hlv]; rfl), e1, hl, e3, loop_ws dbl t3 w2 _ h2 rfl, e4]

theorem txt_begins {h : Nat} {v : J} {t : Bytes} (ht : Txt dbl h (.val v) t) :
    ∃ c cs, t = c :: cs ∧ begins c := by
  have num : ∀ c, ((48 ≤ c ∧ c ≤ 57) ∨ c = 45) → begins c := by
    intro c hc
    refine ⟨?_, by omega, by omega, by omega, by omega⟩
    unfold isSpace
    simp; omega
  cases ht with
  | null => exact ⟨_, _, rfl, by decide, by decide, by decide, by decide, by decide⟩
  | true => exact ⟨_, _, rfl, by decide, by decide, by decide, by decide, by decide⟩
  | false => exact ⟨_, _, rfl, by decide, by decide, by decide, by decide, by decide⟩
  | str => exact ⟨_, _, rfl, by decide, by decide, by decide, by decide, by decide⟩
  | arr0 => exact ⟨_, _, rfl, by decide, by decide, by decide, by decide, by decide⟩
  | arr => exact ⟨_, _, rfl, by decide, by decide, by decide, by decide, by decide⟩
  | obj0 => exact ⟨_, _, rfl, by decide, by decide, by decide, by decide, by decide⟩
  | obj => exact ⟨_, _, rfl, by decide, by decide, by decide, by decide, by decide⟩
  | dbl _ hd _ =>
    obtain ⟨_, _, c, r, rfl, hc⟩ := hd
    exact ⟨c, r, rfl, num c hc⟩
  | int _ hz =>
    obtain ⟨ds, hne, hdg, h⟩ := hz
    rcases h with ⟨rfl, _⟩ | ⟨rfl, _⟩
    · obtain ⟨c, cs, rfl⟩ := List.exists_cons_of_ne_nil hne
      exact ⟨c, cs, rfl, num c (Or.inl (hdg c (by simp)))⟩
    · exact ⟨45, ds, rfl, num 45 (Or.inr rfl)⟩

/-! ### The meaning of object entries -/

theorem denL_append (a b : List Node) : denL (a ++ b) = denL a ++ denL b := by
  induction a with
  | nil => rfl
  | cons x a ih => simp [denL, ih]

theorem denM_append (a b : List (Bytes × Node)) : denM (a ++ b) = denM a ++ denM b := by
  induction a with
  | nil => rfl
  | cons x a ih => obtain ⟨k, v⟩ := x; simp [denM, ih]

theorem denM_filter (p : Bytes → Bool) (a : List (Bytes × Node)) :
    denM (a.filter fun e => p e.1) = (denM a).filter fun e => p e.1 := by
  induction a with
  | nil => rfl
  | cons x a ih =>
    obtain ⟨k, v⟩ := x
    by_cases h : p k = true
    · simp [denM, h, ih, List.filter_cons]
    · simp [denM, h, ih, List.filter_cons]

/-- Entries added to an object one after the other. -/
def putAll (acc : List (Bytes × J)) : List (Bytes × J) → List (Bytes × J)
  | [] => acc
  | (k, v) :: l => putAll (acc.filter (fun e => !decide (e.1 = k)) ++ [(k, v)]) l

theorem putAll_eq (acc l : List (Bytes × J)) :
    putAll acc l = acc.filter (fun e => !l.any fun x => decide (x.1 = e.1)) ++ lastWins l := by
  induction l generalizing acc with
  | nil =>
    simp only [putAll, lastWins, List.any_nil, Bool.not_false, List.append_nil]
    exact (List.filter_eq_self.2 (by simp)).symm
  | cons x l ih =>
    obtain ⟨k, v⟩ := x
    rw [putAll, ih, List.filter_append, List.filter_filter]
    have e : (acc.filter fun a => (!l.any fun x => decide (x.1 = a.1)) && !decide (a.1 = k)) =
        acc.filter fun e => !((k, v) :: l).any fun x => decide (x.1 = e.1) := by
      apply List.filter_congr
      intro a _
      rw [List.any_cons]
      by_cases hk : a.1 = k
      · simp [hk]
      · have : ¬ k = a.1 := fun h => hk h.symm
        simp [hk, this]
    rw [e, List.append_assoc]
    congr 1
    simp only [lastWins]
    by_cases h : (l.any fun e => decide (e.1 = k)) = true
    · simp [h, List.filter_cons]
    · simp [h, List.filter_cons]

/-! ### The main induction -/

/-- What reading each kind of item does. -/
def Reads : Nat → Item → Bytes → Prop
  | h, .val v, txt => ∀ t : Tok, t.lv = fresh → Low t.below → t.below.length + h ≤ 31 →
      ∃ n, den n = v ∧ ∃ t', Pend dbl t' t.below n ∧
        ((∃ l, v = .arr l) ∨ (∃ l, v = .obj l) → Done t' t.below n) ∧
        ∀ cs, loop dbl t (txt ++ cs) = loop dbl t' cs
  | h, .elems l, txt => ∀ (t : Tok) (acc : List Node), t.lv = arrLv .array acc → Low t.below →
      t.below.length + h + 1 ≤ 31 →
      ∃ ns, denL ns = l ∧ ∃ t', Done t' t.below (.arr (acc ++ ns)) ∧
        ∀ cs, loop dbl t (txt ++ 93 :: cs) = loop dbl t' cs
  | h, .members l, txt => ∀ (t : Tok) (acc : List (Bytes × Node)),
      t.lv = objLv .objectFieldStart acc none → Low t.below → t.below.length + h + 1 ≤ 31 →
      ∃ ms, denM ms = putAll (denM acc) l ∧ ∃ t', Done t' t.below (.obj ms) ∧
        ∀ cs, loop dbl t (txt ++ 125 :: cs) = loop dbl t' cs

theorem elem_step {h : Nat} {v : J} {w1 txt w2 : Bytes} (h1 : Ws w1) (ht : Txt dbl h (.val v) txt)
    (h2 : Ws w2) (ih : Reads dbl h (.val v) txt) (t : Tok) (acc : List Node)
    (hlv : t.lv = arrLv .array acc) (hL : Low t.below) (hd : t.below.length + h + 1 ≤ 31) :
    ∃ n, den n = v ∧
    (∃ t', Done t' t.below (.arr (acc ++ [n])) ∧
      ∀ cs, loop dbl t (w1 ++ (txt ++ (w2 ++ 93 :: cs))) = loop dbl t' cs) ∧
    (∃ t', t'.lv = arrLv .array (acc ++ [n]) ∧ t'.below = t.below ∧
      ∀ cs, loop dbl t (w1 ++ (txt ++ (w2 ++ 44 :: cs))) = loop dbl t' cs) := by
  obtain ⟨c, r, rfl, hc⟩ := txt_begins dbl ht
  obtain ⟨t1, l1, b1, L1, e1⟩ := enter_elem dbl t acc c hlv hc (by omega) hL
  obtain ⟨n, hn, t2, hp, _, hl⟩ := ih t1 l1 L1 (by rw [b1]; simp; omega)
  refine ⟨n, hn, ?_⟩
  rw [b1] at hp
  have go : ∀ cs, loop dbl t (w1 ++ (c :: r ++ cs)) = loop dbl t2 cs := by
    intro cs
    rw [loop_ws dbl t w1 _ h1 (by rw [hlv]; rfl), ← hl cs, List.cons_append, e1]
  constructor
  · obtain ⟨t3, hd3, e3⟩ := hp.skip dbl h2 93 (by simp [delim])
    obtain ⟨⟨t4, hd4, e4⟩, _⟩ := leave_elem dbl t3 acc t.below n hd3
    exact ⟨t4, hd4, fun cs => by rw [go, e3, e4]⟩
  · obtain ⟨t3, hd3, e3⟩ := hp.skip dbl h2 44 (by simp [delim])
    obtain ⟨_, t4, hd4, hb4, e4⟩ := leave_elem dbl t3 acc t.below n hd3
    exact ⟨t4, hd4, hb4, fun cs => by rw [go, e3, e4]⟩

theorem member_step {h : Nat} {k : Bytes} {v : J} {w1 kt w2 w3 txt w4 : Bytes} (h1 : Ws w1)
    (hk : StrTxt k kt) (h2 : Ws w2) (h3 : Ws w3) (ht : Txt dbl h (.val v) txt)
    (h4 : Ws w4) (ih : Reads dbl h (.val v) txt) (t : Tok) (acc : List (Bytes × Node))
    (hlv : t.lv = objLv .objectFieldStart acc none) (hL : Low t.below)
    (hd : t.below.length + h + 1 ≤ 31) :
    ∃ n, den n = v ∧
    (∃ t', Done t' t.below (.obj (objPut acc k n)) ∧ ∀ cs,
      loop dbl t (w1 ++ 34 :: (kt ++ 34 :: (w2 ++ 58 :: (w3 ++ (txt ++ (w4 ++ 125 :: cs)))))) =
        loop dbl t' cs) ∧
    (∃ t', t'.lv = objLv .objectFieldStart (objPut acc k n) none ∧ t'.below = t.below ∧ ∀ cs,
      loop dbl t (w1 ++ 34 :: (kt ++ 34 :: (w2 ++ 58 :: (w3 ++ (txt ++ (w4 ++ 44 :: cs)))))) =
        loop dbl t' cs) := by
  obtain ⟨c, r, rfl, hc⟩ := txt_begins dbl ht
  obtain ⟨t0, l0, b0, e0⟩ := loop_key dbl t acc k kt w1 w2 hlv h1 hk h2
  obtain ⟨t1, l1, b1, L1, e1⟩ := enter_member dbl t0 acc k c l0 hc (by rw [b0]; omega) (by rw [b0]; exact hL)
  obtain ⟨n, hn, t2, hp, _, hl⟩ := ih t1 l1 L1 (by rw [b1, b0]; simp; omega)
  refine ⟨n, hn, ?_⟩
  rw [b1, b0] at hp
  have go : ∀ cs, loop dbl t (w1 ++ 34 :: (kt ++ 34 :: (w2 ++ 58 :: (w3 ++ (c :: r ++ cs))))) =
      loop dbl t2 cs := by
    intro cs
    rw [e0, loop_ws dbl t0 w3 _ h3 (by rw [l0]; rfl), ← hl cs, List.cons_append, e1]
  constructor
  · obtain ⟨t3, hd3, e3⟩ := hp.skip dbl h4 125 (by simp [delim])
    obtain ⟨⟨t4, hd4, e4⟩, _⟩ := leave_member dbl t3 acc k t.below n hd3
    exact ⟨t4, hd4, fun cs => by rw [go, e3, e4]⟩
  · obtain ⟨t3, hd3, e3⟩ := hp.skip dbl h4 44 (by simp [delim])
    obtain ⟨_, t4, hd4, hb4, e4⟩ := leave_member dbl t3 acc k t.below n hd3
    exact ⟨t4, hd4, hb4, fun cs => by rw [go, e3, e4]⟩

theorem denM_objPut (acc : List (Bytes × Node)) (k : Bytes) (n : Node) :
    denM (objPut acc k n) = (denM acc).filter (fun e => !decide (e.1 = k)) ++ [(k, den n)] := by
  unfold objPut
  rw [denM_append, denM_filter (fun x => !decide (x = k))]
  rfl

theorem start_arr (t : Tok) (hlv : t.lv = fresh) :
    ∃ t', t'.lv = arrLv .array [] ∧ t'.below = t.below ∧
      ∀ cs, loop dbl t (91 :: cs) = loop dbl t' cs :=
  ⟨{ t with lv := arrLv .array [] }, rfl, rfl, fun cs =>
    loop_next dbl t _ 91 cs (by decide) (by simp [micro, hlv, fresh, mStart, arrLv])⟩

theorem start_obj (t : Tok) (hlv : t.lv = fresh) :
    ∃ t', t'.lv = objLv .objectFieldStart [] none ∧ t'.below = t.below ∧
      ∀ cs, loop dbl t (123 :: cs) = loop dbl t' cs :=
  ⟨{ t with lv := objLv .objectFieldStart [] none }, rfl, rfl, fun cs =>
    loop_next dbl t _ 123 cs (by decide) (by simp [micro, hlv, fresh, mStart, objLv])⟩

theorem reads {h : Nat} {i : Item} {txt : Bytes} (ht : Txt dbl h i txt) : Reads dbl h i txt := by
  induction ht with
  | null h =>
    intro t h1 h2 h3
    obtain ⟨t', hp, hl⟩ := null_value dbl t h1 h2
    exact ⟨.null, by simp [den], t', hp, by simp, hl⟩
  | true h =>
    intro t h1 h2 h3
    obtain ⟨t', hp, hl⟩ := true_value dbl t h1 h2
    exact ⟨.bool true, by simp [den], t', hp, by simp, hl⟩
  | false h =>
    intro t h1 h2 h3
    obtain ⟨t', hp, hl⟩ := false_value dbl t h1 h2
    exact ⟨.bool false, by simp [den], t', hp, by simp, hl⟩
  | int h hz =>
    intro t h1 h2 h3
    obtain ⟨n, hn, t', hp, hl⟩ := intTxt_value dbl hz t h1 h2
    exact ⟨n, hn, t', hp, by simp, hl⟩
  | dbl h hd hv =>
    intro t h1 h2 h3
    obtain ⟨t', hp, hl⟩ := dblTxt_value dbl hd hv t h1 h2
    exact ⟨_, by simp [den], t', hp, by simp, hl⟩
  | str h hs =>
    intro t h1 h2 h3
    obtain ⟨t', hp, hl⟩ := str_value dbl hs t h1
    exact ⟨_, by simp [den], t', hp.pend dbl, fun _ => hp, hl⟩
  | @arr0 h w hw =>
    intro t h1 h2 h3
    obtain ⟨t1, l1, b1, e1⟩ := start_arr dbl t h1
    have s1 : isSpace 93 = false := rfl
    have hd : Done { t1 with lv := ⟨.eatws, .finish, .arr [], none⟩ } t.below (.arr []) := ⟨rfl, b1⟩
    refine ⟨.arr [], by simp [den, denL], _, hd.pend dbl, fun _ => hd, fun cs => ?_⟩
    rw [List.cons_append, e1, List.append_assoc, loop_ws dbl t1 w _ hw (by rw [l1]; rfl),
      List.cons_append, loop_cons]
    simp [char, turns, micro, l1, arrLv, s1, Tok.goSt, Tok.go]
  | @obj0 h w hw =>
    intro t h1 h2 h3
    obtain ⟨t1, l1, b1, e1⟩ := start_obj dbl t h1
    have s1 : isSpace 125 = false := rfl
    have hd : Done { t1 with lv := ⟨.eatws, .finish, .obj [], none⟩ } t.below (.obj []) := ⟨rfl, b1⟩
    refine ⟨.obj [], by simp [den, denM], _, hd.pend dbl, fun _ => hd, fun cs => ?_⟩
    rw [List.cons_append, e1, List.append_assoc, loop_ws dbl t1 w _ hw (by rw [l1]; rfl),
      List.cons_append, loop_cons]
    simp [char, turns, micro, l1, objLv, s1, Tok.goSt, Tok.go]
  | @arr h l txt ht ih =>
    intro t h1 h2 h3
    obtain ⟨t1, l1, b1, e1⟩ := start_arr dbl t h1
    obtain ⟨ns, hn, t2, hd, hl⟩ := ih t1 [] l1 (by rw [b1]; exact h2) (by rw [b1]; omega)
    rw [b1, List.nil_append] at hd
    refine ⟨.arr ns, by simp [den, hn], t2, hd.pend dbl, fun _ => hd, fun cs => ?_⟩
    rw [List.cons_append, e1, List.append_assoc, List.cons_append, hl, List.nil_append]
  | @obj h l txt ht ih =>
    intro t h1 h2 h3
    obtain ⟨t1, l1, b1, e1⟩ := start_obj dbl t h1
    obtain ⟨ms, hn, t2, hd, hl⟩ := ih t1 [] l1 (by rw [b1]; exact h2) (by rw [b1]; omega)
    rw [b1] at hd
    have : denM ms = lastWins l := by rw [hn, putAll_eq]; simp [denM]
    refine ⟨.obj ms, by simp [den, this], t2, hd.pend dbl, fun _ => hd, fun cs => ?_⟩
    rw [List.cons_append, e1, List.append_assoc, List.cons_append, hl, List.nil_append]
  | @elem1 h v w1 txt w2 h1 ht h2 ih =>
    intro t acc hlv hL hd
    obtain ⟨n, hn, ⟨t', hd', hl⟩, _⟩ := elem_step dbl h1 ht h2 ih t acc hlv hL hd
    refine ⟨[n], by simp [denL, hn], t', hd', fun cs => ?_⟩
    rw [← hl]; simp
  | @elemS h v l w1 txt w2 r h1 ht h2 hr ih ihr =>
    intro t acc hlv hL hd
    obtain ⟨n, hn, _, ⟨t', l', b', hl⟩⟩ := elem_step dbl h1 ht h2 ih t acc hlv hL hd
    obtain ⟨ns, hns, t2, hd2, hl2⟩ := ihr t' (acc ++ [n]) l' (by rw [b']; exact hL) (by rw [b']; exact hd)
    rw [b'] at hd2
    refine ⟨n :: ns, by simp [denL, hn, hns], t2, by simpa using hd2, fun cs => ?_⟩
    rw [← hl2, ← hl]; simp
  | @mem1 h k v w1 kt w2 w3 txt w4 h1 hk h2 h3 ht h4 ih =>
    intro t acc hlv hL hd
    obtain ⟨n, hn, ⟨t', hd', hl⟩, _⟩ := member_step dbl h1 hk h2 h3 ht h4 ih t acc hlv hL hd
    refine ⟨_, ?_, t', hd', fun cs => ?_⟩
    · simp [denM_objPut, putAll, hn]
    · rw [← hl]; simp
  | @memS h k v l w1 kt w2 w3 txt w4 r h1 hk h2 h3 ht h4 hr ih ihr =>
    intro t acc hlv hL hd
    obtain ⟨n, hn, _, ⟨t', l', b', hl⟩⟩ := member_step dbl h1 hk h2 h3 ht h4 ih t acc hlv hL hd
    obtain ⟨ms, hms, t2, hd2, hl2⟩ := ihr t' (objPut acc k n) l' (by rw [b']; exact hL) (by rw [b']; exact hd)
    rw [b'] at hd2
    refine ⟨ms, ?_, t2, hd2, fun cs => ?_⟩
    · rw [hms, denM_objPut, putAll, hn]
    · rw [← hl2, ← hl]; simp

/-- C64.  Every JSON text for an array or an object, with any white space around it, with
at most 31 levels inside the outermost one and within the integer ranges of 64 bits, is
accepted in one call and gives the tree it means. -/
theorem C64_accepts_partial (v : J) (txt w1 w2 : Bytes) (h1 : Ws w1) (h2 : Ws w2)
    (hv : (∃ l, v = .arr l) ∨ (∃ l, v = .obj l)) (ht : Txt dbl 31 (.val v) txt) :
    ∃ n, atOnce dbl (w1 ++ (txt ++ w2)) = some (.success, n) ∧ den n = v := by
  obtain ⟨c, r, rfl, hc⟩ := txt_begins dbl ht
  have hc2 : c = 123 ∨ c = 91 := by
    rcases hv with ⟨l, rfl⟩ | ⟨l, rfl⟩ <;> cases ht <;> simp
  have hdw : (w1 ++ (c :: r ++ w2)).dropWhile isSpace = c :: (r ++ w2) := by
    clear hc2 ht
    induction w1 with
    | nil => simp [List.dropWhile_cons, hc.1]
    | cons x w ih =>
      rw [List.cons_append, List.dropWhile_cons_of_pos (ws_space h1 x (by simp)).1]
      exact ih fun y hy => h1 y (by simp [hy])
  let t0 : Tok := { newTok with started := true }
  let t1 : Tok := { t0 with lv := fresh }
  obtain ⟨n, hn, t', _, hd, hl⟩ := reads dbl ht t1 rfl (by simp [t1, t0, newTok, Low])
    (by simp [t1, t0, newTok])
  have hd := hd hv
  refine ⟨n, ?_, hn⟩
  have e1 : ∀ cs, loop dbl t0 (c :: cs) = loop dbl t1 (c :: cs) := by
    intro cs
    refine loop_redo dbl t0 t1 c cs ?_ ⟨by simp [t1, fresh, topOk, needs], by simp [t1, t0, newTok]⟩
      (by simp [t1, fresh, rank, rankSt])
    simp [micro, t0, t1, newTok, resetLevel, hc.1, hc.2.1, Tok.goSt, fresh]
  have e2 : loop dbl t0 (c :: (r ++ w2)) = .more t' := by
    have e3 := loop_ws dbl t' w2 [] h2 (by rw [hd.1])
    rw [List.append_nil] at e3
    rw [e1, ← List.cons_append, hl, e3]
    rfl
  have hend : endErr t' = .success := by
    unfold endErr
    rw [if_pos]
    refine ⟨?_, by rw [hd.1], by rw [hd.1]⟩
    rw [hd.2]; rfl
  unfold atOnce parseEx
  rw [hdw]
  have hs : newTok.started = false := rfl
  have hne : ¬ (c ≠ 123 ∧ c ≠ 91) := by omega
  simp only [hs, Bool.false_eq_true, if_false, hne]
  unfold parseMain
  rw [show loop dbl { newTok with started := true } (c :: (r ++ w2)) = .more t' from e2]
  simp [finishCall_nz, hend, hd.1]

/-! ### Printing -/

theorem natDigits_ne (n : Nat) : natDigits n ≠ [] := by
  rw [natDigits]; split <;> simp

theorem natDigits_dig (n : Nat) : ∀ c ∈ natDigits n, 48 ≤ c ∧ c ≤ 57 := by
  induction n using natDigits.induct with
  | case1 n h => rw [natDigits, if_pos h]; simp; omega
  | case2 n h ih =>
    rw [natDigits, if_neg h]
    intro c hc
    simp at hc
    rcases hc with hc | rfl
    · exact ih c hc
    · omega

theorem decVal_natDigits (n : Nat) : decVal (natDigits n) = n := by
  induction n using natDigits.induct with
  | case1 n h => rw [natDigits, if_pos h]; simp [decVal]
  | case2 n h ih =>
    rw [natDigits, if_neg h]
    unfold decVal at ih ⊢
    rw [List.foldl_append, ih]
    simp; omega

theorem intDigits_txt (z : Int) (h1 : -9223372036854775808 ≤ z) (h2 : z ≤ 18446744073709551615) :
    IntTxt z (intDigits z) := by
  refine ⟨natDigits z.natAbs, natDigits_ne _, natDigits_dig _, ?_⟩
  unfold intDigits
  rw [decVal_natDigits]
  split_ifs with h
  · right; exact ⟨rfl, by omega, h1⟩
  · left; exact ⟨rfl, by omega, h2⟩

theorem escByte_txt {s t : Bytes} (c : Nat) (hc : c ≠ 0) (h : StrTxt s t) :
    StrTxt (c :: s) (escByte c ++ t) := by
  unfold escByte
  split_ifs with h1 h2 h3 h4 h5 h6 h7 h8
  · exact .esc 98 c (by simp [h1]) h
  · exact .esc 110 c (by simp [h2]) h
  · exact .esc 114 c (by simp [h3]) h
  · exact .esc 116 c (by simp [h4]) h
  · exact .esc 34 c (by simp [h5]) h
  · exact .esc 92 c (by simp [h6]) h
  · exact .esc 47 c (by simp [h7]) h
  · have hx : ∀ d, d < 16 → HexIs (hexChar d) d := by
      intro d hd; unfold HexIs hexChar; split_ifs <;> omega
    have := StrTxt.uni 48 48 (hexChar (c / 16)) (hexChar (c % 16)) 0 0 (c / 16) (c % 16)
      (by simp [HexIs]) (by simp [HexIs]) (hx _ (by omega)) (hx _ (by omega)) (by omega) h
    have e : 0 * 4096 + 0 * 256 + c / 16 * 16 + c % 16 = c := by omega
    rw [e] at this
    have e2 : utf8Spec c = [c] := by unfold utf8Spec; rw [if_pos (by omega)]
    rw [e2] at this
    exact this
  · exact .raw c (by omega) h5 h6 h

theorem escStr_txt (s : Bytes) (h : ∀ c ∈ s, c ≠ 0) : StrTxt s (escStr s) := by
  unfold escStr
  rw [cstr_nz h]
  induction s with
  | nil => exact .nil
  | cons c s ih =>
    rw [List.flatMap_cons]
    exact escByte_txt c (h c (by simp)) (ih fun x hx => h x (by simp [hx]))

variable (pd : Nat → Bytes)

mutual
/-- A tree that can be printed and read back: strings and keys without NUL, integers in
the range of their type, keys distinct, at most `h` levels inside, and doubles whose
printed form `sscanf` reads back. -/
def Good : Nat → Node → Prop
  | _, .null => True
  | _, .bool _ => True
  | _, .int n k o => -9223372036854775808 ≤ intVal n k o ∧ intVal n k o ≤ 18446744073709551615
  | _, .dbl d => DblTxt (pd d) ∧ dbl (pd d) = some d
  | _, .str s => ∀ c ∈ s, c ≠ 0
  | _, .arr [] => True
  | _, .obj [] => True
  | 0, .arr (_ :: _) => False
  | 0, .obj (_ :: _) => False
  | h + 1, .arr (v :: l) => GoodL h (v :: l)
  | h + 1, .obj (e :: l) => GoodM h (e :: l) ∧ ((e :: l).map (·.1)).Nodup
def GoodL : Nat → List Node → Prop
  | _, [] => True
  | h, v :: l => Good h v ∧ GoodL h l
def GoodM : Nat → List (Bytes × Node) → Prop
  | _, [] => True
  | h, (k, v) :: l => (∀ c ∈ k, c ≠ 0) ∧ Good h v ∧ GoodM h l
end

theorem denM_keys (l : List (Bytes × Node)) : (denM l).map (·.1) = l.map (·.1) := by
  induction l with
  | nil => rfl
  | cons x l ih => obtain ⟨k, v⟩ := x; simp [denM, ih]

theorem lastWins_nodup (l : List (Bytes × J)) (h : (l.map (·.1)).Nodup) : lastWins l = l := by
  induction l with
  | nil => rfl
  | cons x l ih =>
    obtain ⟨k, v⟩ := x
    simp only [List.map_cons, List.nodup_cons] at h
    simp only [lastWins, ih h.2]
    rw [if_neg]
    rw [List.any_eq_true]
    rintro ⟨e, he, hk⟩
    exact h.1 (List.mem_map.2 ⟨e, he, by simpa using hk⟩)

theorem ws_sp : Ws [32] := by simp [Ws]
theorem ws_nil : Ws [] := by simp [Ws]

mutual
theorem print_txt : ∀ (h : Nat) (n : Node), Good dbl pd h n → Txt dbl h (.val (den n)) (print pd n)
  | h, .null, _ => .null h
  | h, .bool true, _ => .true h
  | h, .bool false, _ => .false h
  | h, .int n k o, g => by
    simp only [Good] at g
    simpa [print, den] using Txt.int h (intDigits_txt _ g.1 g.2)
  | h, .dbl d, g => by
    simp only [Good] at g
    simpa [print, den] using Txt.dbl h g.1 g.2
  | h, .str s, g => by
    simp only [Good] at g
    simpa [print, den] using Txt.str h (escStr_txt s g)
  | h, .arr [], _ => by
    simpa [print, den, denL, printArr] using Txt.arr0 (dbl := dbl) h ws_sp
  | h, .obj [], _ => by
    simpa [print, den, denM, printObj] using Txt.obj0 (dbl := dbl) h ws_sp
  | 0, .arr (_ :: _), g => by simp [Good] at g
  | 0, .obj (_ :: _), g => by simp [Good] at g
  | h + 1, .arr (v :: l), g => by
    simp only [Good, GoodL] at g
    have := Txt.arr (printL_txt h v l [32] ws_sp g.1 g.2)
    simpa [print, printArr, den, denL] using this
  | h + 1, .obj ((k, v) :: l), g => by
    simp only [Good, GoodM] at g
    have hm := printM_txt h k v l g.1.1 g.1.2.1 g.1.2.2
    have hn : lastWins ((k, den v) :: denM l) = (k, den v) :: denM l := by
      apply lastWins_nodup
      have := denM_keys ((k, v) :: l)
      simp only [denM] at this
      rw [this]
      exact g.2
    have := Txt.obj hm
    rw [hn] at this
    simpa [print, printObj, den, denM] using this
theorem printL_txt : ∀ (h : Nat) (v : Node) (l : List Node) (w : Bytes), Ws w → Good dbl pd h v →
    GoodL dbl pd h l →
    Txt dbl h (.elems (den v :: denL l)) (w ++ (print pd v ++ (printArr pd false l ++ [32])))
  | h, v, [], w, hw, g, _ => by
    simpa [printArr, denL] using Txt.elem1 hw (print_txt h v g) ws_sp
  | h, v, u :: l, w, hw, g, gl => by
    simp only [GoodL] at gl
    have := Txt.elemS hw (print_txt h v g) ws_nil (printL_txt h u l [32] ws_sp gl.1 gl.2)
    simpa [printArr, denL] using this
theorem printM_txt : ∀ (h : Nat) (k : Bytes) (v : Node) (l : List (Bytes × Node)), (∀ c ∈ k, c ≠ 0) →
    Good dbl pd h v → GoodM dbl pd h l →
    Txt dbl h (.members ((k, den v) :: denM l))
      ([32] ++ 34 :: (escStr k ++ 34 :: ([] ++ 58 :: ([32] ++ (print pd v ++ (printObj pd false l ++ [32]))))))
  | h, k, v, [], hk, g, _ => by
    have := Txt.mem1 ws_sp (escStr_txt k hk) ws_nil ws_sp (print_txt h v g) ws_sp
    simpa [printObj, denM] using this
  | h, k, v, (k2, u) :: l, hk, g, gl => by
    simp only [GoodM] at gl
    have := Txt.memS ws_sp (escStr_txt k hk) ws_nil ws_sp (print_txt h v g) ws_nil
      (printM_txt h k2 u l gl.1 gl.2.1 gl.2.2)
    simpa [printObj, denM] using this
end

/-- C65.  Printing any array or object and parsing the text gives a tree with the same
value: for every tree whose strings and keys have no NUL, whose integers are in range,
with at most 31 levels inside the outermost one. -/
theorem C65_print_parse_partial (n : Node) (hn : (∃ l, n = .arr l) ∨ (∃ l, n = .obj l))
    (g : Good dbl pd 31 n) :
    ∃ m, atOnce dbl (print pd n) = some (.success, m) ∧ den m = den n := by
  have := C64_accepts_partial dbl (den n) (print pd n) [] [] ws_nil ws_nil
    (by rcases hn with ⟨l, rfl⟩ | ⟨l, rfl⟩
        · exact Or.inl ⟨denL l, by simp [den]⟩
        · exact Or.inr ⟨denM l, by simp [den]⟩) (print_txt dbl pd 31 n g)
  simpa using this

/-- C39.  For every byte string without NUL: put as a string in an array, or as the value
or as the key of a member, printed and parsed, it comes back byte for byte. -/
theorem C39_string_roundtrip (s k : Bytes) (hs : ∀ c ∈ s, c ≠ 0) (hk : ∀ c ∈ k, c ≠ 0) :
    atOnce dbl (print pd (.arr [.str s])) = some (.success, .arr [.str s]) ∧
    atOnce dbl (print pd (.obj [(k, .str s)])) = some (.success, .obj [(k, .str s)]) := by
  constructor
  · obtain ⟨m, hm, hd⟩ := C65_print_parse_partial dbl pd (.arr [.str s]) (Or.inl ⟨_, rfl⟩)
      (by simp only [Good, GoodL]; exact ⟨hs, trivial⟩)
    rw [hm]
    simp only [den, denL] at hd
    cases m <;> simp only [den, reduceCtorEq, J.arr.injEq] at hd
    rename_i l
    rcases l with _ | ⟨x, _ | ⟨y, l⟩⟩ <;> simp only [denL, List.cons.injEq, reduceCtorEq, and_false, and_true] at hd
    cases x <;> simp only [den, reduceCtorEq, J.str.injEq] at hd
    rw [hd]
  · obtain ⟨m, hm, hd⟩ := C65_print_parse_partial dbl pd (.obj [(k, .str s)]) (Or.inr ⟨_, rfl⟩)
      (by simp only [Good, GoodM]; exact ⟨⟨hk, hs, trivial⟩, by simp⟩)
    rw [hm]
    simp only [den, denM] at hd
    cases m <;> simp only [den, reduceCtorEq, J.obj.injEq] at hd
    rename_i l
    rcases l with _ | ⟨⟨k', x⟩, _ | ⟨⟨k2, y⟩, l⟩⟩ <;>
      simp only [denM, List.cons.injEq, reduceCtorEq, and_false, and_true, Prod.mk.injEq] at hd
    obtain ⟨rfl, hd⟩ := hd
    cases x <;> simp only [den, reduceCtorEq, J.str.injEq] at hd
    rw [hd]

/-! ### Witnesses -/

/-- What a call gave, with the tree reduced to a list of its strings and numbers. -/
def leaves : Node → List (Bytes ⊕ Int)
  | .str s => [.inl s]
  | .int n k o => [.inr (intVal n k o)]
  | .arr [v] => leaves v
  | _ => []

def seen (s : Bytes) : Option (Err × List (Bytes ⊕ Int)) :=
  (atOnce (fun _ => none) s).map fun r => (r.1, leaves r.2)

/-- C64 fails for a valid text whose string uses the `\f` escape. -/
theorem C64_formfeed_violated : seen (bytesOf "[\"\\f\"]") = some (.string, []) := by
  decide +kernel

/-- C64 fails for upper case digits in a `\u` escape. -/
theorem C64_upper_hex_violated :
    seen (bytesOf "[\"\\u00E9\"]") = some (.string, []) ∧
    seen (bytesOf "[\"\\u00e9\"]") = some (.success, [.inl [195, 169]]) := by
  decide +kernel

/-- C64 fails for an upper case exponent: 1E2 is read as the integer 1. -/
theorem C64_upper_exponent_violated :
    seen (bytesOf "[1E2]") = some (.success, [.inr 1]) := by
  decide +kernel

/-- C64 fails for a pair of escapes that stand for one character: two three byte
sequences that are not UTF-8 come out. -/
theorem C64_surrogates_violated :
    seen (bytesOf "[\"\\ud83d\\ude00\"]") =
      some (.success, [.inl [237, 160, 189, 237, 184, 128]]) := by
  decide +kernel

/-- C64 fails for texts that are a single string, number or literal. -/
theorem C64_scalar_violated :
    seen (bytesOf "12") = some (.unexpected, []) ∧ seen (bytesOf "\"a\"") = some (.unexpected, []) ∧
    seen (bytesOf "null") = some (.unexpected, []) := by
  decide +kernel

/-- C64 fails for integers beyond 64 bits: the value is silently replaced. -/
theorem C64_big_integer_violated :
    seen (bytesOf "[18446744073709551616]") = some (.success, [.inr 18446744073709551615]) ∧
    seen (bytesOf "[-9223372036854775809]") = some (.success, [.inr (-9223372036854775808)]) := by
  decide +kernel

/-- C64 and C65 fail for deep trees: 32 levels inside the outermost array are refused, and
31 are not. -/
theorem C64_depth_violated :
    seen (List.replicate 33 91 ++ List.replicate 33 93) = some (.depth, []) ∧
    (seen (List.replicate 32 91 ++ List.replicate 32 93)).map (·.1) = some .success := by
  decide +kernel

/-- C64 fails for an escaped NUL: the string ends there. -/
theorem C64_nul_violated : seen (bytesOf "[\"a\\u0000b\"]") = some (.success, [.inl [97]]) := by
  decide +kernel

/-- Texts that are not JSON are accepted: trailing commas, single quotes, letters after
the tree, literals in any case, a number made of several. -/
theorem C64_lax_violated :
    seen (bytesOf "[1,]") = some (.success, [.inr 1]) ∧
    seen (bytesOf "['a']") = some (.success, [.inl [97]]) ∧
    seen (bytesOf "[1]garbage") = some (.success, [.inr 1]) ∧
    (seen (bytesOf "[nULl]")).map (·.1) = some .success ∧
    seen (bytesOf "[1-2]") = some (.success, [.inr 1]) := by
  refine ⟨?_, ?_, ?_, ?_, ?_⟩ <;> decide +kernel

/-- A text with nested values, repeated keys, escapes and white space that meets the
hypotheses of `C64_accepts_partial`. -/
example : Txt (fun _ => none) 31
    (.val (.obj (lastWins [([97], .int 12), ([97], .arr [.bool true, .str [10]])])))
    (bytesOf "{\"a\":12, \"a\" : [true,\"\\n\" ]}") := by
  have i12 : IntTxt 12 [49, 50] := ⟨[49, 50], by simp, by simp, Or.inl ⟨rfl, by decide, by decide⟩⟩
  have ka : StrTxt [97] [97] := .raw 97 (by decide) (by decide) (by decide) .nil
  have kn : StrTxt [10] [92, 110] := .esc 110 10 (by simp) .nil
  have harr : Txt (fun _ => none) 30 (.val (.arr [.bool true, .str [10]]))
      [91, 116, 114, 117, 101, 44, 34, 92, 110, 34, 32, 93] :=
    .arr (.elemS ws_nil (.true 29) ws_nil (.elem1 ws_nil (.str 29 kn) ws_sp))
  exact .obj (.memS ws_nil ka ws_nil ws_nil (.int 30 i12) ws_nil (.mem1 ws_sp ka ws_sp ws_sp harr ws_nil))

/-- A tree that meets the hypotheses of `C65_print_parse_partial`, and its text. -/
example : Good (fun _ => none) (fun _ => []) 31
    (.obj [([97], .arr [.int (-1) .uint64 18446744073709551615, .null]), ([98], .str [34, 1, 255])]) ∧
    print (fun _ => []) (.obj [([97], .arr [.int (-1) .uint64 18446744073709551615, .null]),
      ([98], .str [34, 1])]) =
      bytesOf "{ \"a\": [ 18446744073709551615, null ], \"b\": \"\\\"\\u0001\" }" := by
  refine ⟨?_, by decide +kernel⟩
  simp [Good, GoodL, GoodM, intVal]

end Mtev.Json
