import Verif.Mem

/-!
Model of the evaluation of logic expressions, /repo/src/utils/mtev_logic.c.

Floating point numbers and regular expressions come from libc and PCRE; they are parameters.
-/

namespace Mtev.Logic

/-- `mtev_logic_pred_op_t`, mtev_logic.c:200-210. -/
inductive Op
  | ne | eq | lt | le | gt | ge | re | nre | exist
deriving DecidableEq, Repr

/-- C doubles and the libc functions on them. -/
structure Dbl where
  D : Type
  ofInt : Int → D
  /-- `strtod` on a NUL-terminated string: the value and how many bytes were used. -/
  strtod : List Nat → D × Nat
  /-- `snprintf("%g")` -/
  fmtG : D → List Nat
  lt : D → D → Bool
  eq : D → D → Bool

/-- PCRE: whether a pattern compiles, and whether it matches a subject. -/
structure Pcre where
  compiles : List Nat → Bool
  matchesAt : List Nat → List Nat → Bool

/-- The type of a constant in an expression; `MTEV_LOGIC_STRING`, `MTEV_LOGIC_INT64`,
`MTEV_LOGIC_DOUBLE`, mtev_logic.c:74-78. -/
inductive Ty
  | str | int | dbl
deriving DecidableEq, Repr

/-- A constant on the right of a predicate: its type and text (mtev_logic.c:424-439; `value.l` and
`value.n` are computed from the text there, here where they are used).  The text has no NUL: its length
is taken with `strlen`. -/
structure Const where
  ty : Ty
  text : List Nat
deriving DecidableEq, Repr

/-- What `lookup` stored in its variable: a string (`none` for a null pointer) with a flag saying
whether a NUL byte follows the `s_len` bytes, a 64-bit integer or a double.
Simplification: a variable set twice by one `lookup` is not modelled. -/
inductive Val (F : Dbl)
  | str (s : Option (List Nat)) (terminated : Bool)
  | int (l : Int)
  | dbl (d : F.D)

/-! ### libc -/

/-- `isspace` in the C locale. -/
def isSpace (b : Nat) : Bool := b = 32 ∨ (9 ≤ b ∧ b ≤ 13)
def isDigit (b : Nat) : Bool := 48 ≤ b ∧ b ≤ 57

/-- The value of a run of digits. -/
def digitsVal (ds : List Nat) : Nat := ds.foldl (fun a d => a * 10 + (d - 48)) 0

/-- Saturation of `strtoll`. -/
def clamp (x : Int) : Int := max (-(2 ^ 63)) (min x (2 ^ 63 - 1))

/-- The sign `strtoll` accepts: whether it is a minus, its length, and what follows. -/
def takeSign (s : List Nat) : Bool × Nat × List Nat :=
  match s with
  | 45 :: t => (true, 1, t)
  | 43 :: t => (false, 1, t)
  | _ => (false, 0, s)

/-- `strtoll(s, &endptr, 10)` on a NUL-terminated string: the value and `endptr - s`. -/
def strtoll (s : List Nat) : Int × Nat :=
  let ws := s.takeWhile isSpace
  let s1 := s.drop ws.length
  let (neg, sg, s2) := takeSign s1
  let ds := s2.takeWhile isDigit
  if ds = [] then (0, 0)
  else (clamp (if neg then -(digitsVal ds : Int) else digitsVal ds), ws.length + sg + ds.length)

/-- Decimal digits of a number, least significant first. -/
def digitsRev : Nat → Nat → List Nat
  | 0, _ => []
  | fuel+1, n => (48 + n % 10) :: if n / 10 = 0 then [] else digitsRev fuel (n / 10)

/-- `snprintf("%" PRId64)`. -/
def fmtInt (l : Int) : List Nat :=
  if l < 0 then 45 :: (digitsRev (l.natAbs + 1) l.natAbs).reverse
  else (digitsRev (l.natAbs + 1) l.natAbs).reverse

/-- `memcmp` of two blocks of the same length: the difference at the first difference. -/
def memcmp : List Nat → List Nat → Int
  | a :: as, b :: bs => if a = b then memcmp as bs else (a : Int) - b
  | _, _ => 0

/-- Conversion of a `size_t` to `int`. -/
def sizeToInt (x : Nat) : Int := ((x + 2 ^ 31) % 2 ^ 32 : Nat) - 2 ^ 31

/-- `strllcmp`, mtev_logic.c:495-499. -/
def strllcmp (l r : List Nat) : Int :=
  if l.length ≠ r.length then sizeToInt (sub64 l.length r.length) else memcmp l r

/-- The bytes before the first NUL. -/
def cstr (s : List Nat) : List Nat := s.takeWhile (· ≠ 0)

/-- The bytes compared when the right side is a string, mtev_logic.c:521-524: the text of the value;
if it is 4096 bytes or more its length is taken again with `strlen`. -/
def stringOf (F : Dbl) (v : Val F) : Out (List Nat) :=
  match v with
  | .str none _ => .ub
  | .str (some s) terminated =>
    if s.length ≥ 4096 then
      if 0 ∈ s then .ok (cstr s) else if terminated then .ok s else .ub
    else .ok s
  | .int l => .ok (fmtInt l)
  | .dbl d => .ok (F.fmtG d)

/-! ### Predicates -/

/-- The comparisons of `strllcmp`'s result with zero, mtev_logic.c:526-531. -/
def opZero (op : Op) (c : Int) : Bool :=
  match op with
  | .eq => c = 0
  | .ne => c ≠ 0
  | .ge => c ≥ 0
  | .gt => c > 0
  | .le => c ≤ 0
  | .lt => c < 0
  | _ => false

/-- `DOMATCH` on `int64_t`, mtev_logic.c:566-576 and 583-584; other operators fail the assertion. -/
def opInt (op : Op) (l r : Int) : Out Bool :=
  match op with
  | .eq => .ok (l = r)
  | .ne => .ok (l ≠ r)
  | .ge => .ok (l ≥ r)
  | .gt => .ok (l > r)
  | .le => .ok (l ≤ r)
  | .lt => .ok (l < r)
  | _ => .abort

/-- `DOMATCH` on `double`, mtev_logic.c:566-580. -/
def opDbl (F : Dbl) (op : Op) (l r : F.D) : Out Bool :=
  match op with
  | .eq => .ok (F.eq l r)
  | .ne => .ok (!F.eq l r)
  | .ge => .ok (F.lt r l || F.eq l r)
  | .gt => .ok (F.lt r l)
  | .le => .ok (F.lt l r || F.eq l r)
  | .lt => .ok (F.lt l r)
  | _ => .abort

/-- Numbers on the left, mtev_logic.c:543-561. -/
inductive NumV (F : Dbl)
  | int (l : Int)
  | dbl (d : F.D)
  | none

/-- Conversion of the left value, mtev_logic.c:543-562.  A string of 128 bytes or more is not copied
and uninitialised memory is parsed. -/
def numOf (F : Dbl) (v : Val F) : Out (NumV F) :=
  match v with
  | .int l => .ok (.int l)
  | .dbl d => .ok (.dbl d)
  | .str none _ => .ub
  | .str (some s) _ =>
    if s.length ≥ 128 then .ub
    else
      let c := cstr s
      if (strtoll c).2 = c.length then .ok (.int (strtoll c).1)
      else if (F.strtod c).2 = c.length then .ok (.dbl (F.strtod c).1)
      else .ok .none

/-- `value.l` and `value.n` of a constant, mtev_logic.c:436-437. -/
def Const.l (c : Const) : Int := (strtoll c.text).1
def Const.n (F : Dbl) (c : Const) : F.D := (F.strtod c.text).1

/-- `mtev_logic_exec_predicate`, mtev_logic.c:500-594; the debug messages are left out. -/
def execPred (F : Dbl) (P : Pcre) (lookup : List Nat → Option (Val F)) (op : Op) (left : List Nat)
    (right : Option Const) : Out Bool :=
  let lhs := lookup left
  if op = .exist then .ok lhs.isSome
  else
    match lhs with
    | none => .ok (op = .ne ∨ op = .nre)
    | some (.str none _) => .ok (op = .ne ∨ op = .nre)
    | some v =>
      match right with
      | none => .ub
      | some c =>
        if c.ty = .str then do
          let l ← stringOf F v
          match op with
          | .re => pure (P.matchesAt c.text l)
          | .nre => pure (!P.matchesAt c.text l)
          | _ => pure (opZero op (strllcmp l c.text))
        else do
          match ← numOf F v with
          | .none => pure false
          | .int l => if c.ty = .dbl then opDbl F op (F.ofInt l) (c.n F) else opInt op l c.l
          | .dbl d => opDbl F op d (if c.ty = .dbl then c.n F else F.ofInt c.l)

/-! ### Formulas -/

/-- `mtev_logic_node_t`, mtev_logic.c:274-281; `null` is a null pointer. -/
inductive Node
  | pred (op : Op) (left : List Nat) (right : Option Const)
  | and (es : List Node)
  | or (es : List Node)
  | not (es : List Node)
  | null

/-- `mtev_logic_ast_node_predicate`, mtev_logic.c:314-343: null if the pattern does not compile. -/
def mkPred (P : Pcre) (op : Op) (left : List Nat) (right : Option Const) : Node :=
  match op, right with
  | .re, some c => if P.compiles c.text then .pred op left right else .null
  | .nre, some c => if P.compiles c.text then .pred op left right else .null
  | _, _ => .pred op left right

mutual
/-- `mtev_logic_exec_node`, mtev_logic.c:595-612. -/
def exec (F : Dbl) (P : Pcre) (lookup : List Nat → Option (Val F)) : Node → Out Bool
  | .null => .ub
  | .pred op l r => execPred F P lookup op l r
  | .not es => execNot F P lookup es
  | .and es => execAnd F P lookup es
  | .or es => execOr F P lookup es
/-- `!mtev_logic_exec_node(exec, node->elems[0], context)`, line 599. -/
def execNot (F : Dbl) (P : Pcre) (lookup : List Nat → Option (Val F)) : List Node → Out Bool
  | [] => .ub
  | e :: _ => do
    let b ← exec F P lookup e
    pure !b
/-- Lines 600-604. -/
def execAnd (F : Dbl) (P : Pcre) (lookup : List Nat → Option (Val F)) : List Node → Out Bool
  | [] => pure true
  | e :: es => do
    if ← exec F P lookup e then execAnd F P lookup es else pure false
/-- Lines 605-609. -/
def execOr (F : Dbl) (P : Pcre) (lookup : List Nat → Option (Val F)) : List Node → Out Bool
  | [] => pure false
  | e :: es => do
    if ← exec F P lookup e then pure true else execOr F P lookup es
end

mutual
/-- `mtev_logic_node_has_predicate`, mtev_logic.c:614-621. -/
def hasPred : Node → List Nat → Out Bool
  | .null, _ => .ub
  | .pred _ l _, v => .ok (l = v)
  | .and es, v => hasPredAny es v
  | .or es, v => hasPredAny es v
  | .not es, v => hasPredAny es v
def hasPredAny : List Node → List Nat → Out Bool
  | [], _ => .ok false
  | e :: es, v => do
    if ← hasPred e v then pure true else hasPredAny es v
end

/-! ### Helper lemmas -/

theorem memcmp_self : ∀ l, memcmp l l = 0
  | [] => rfl
  | a :: l => by simp [memcmp, memcmp_self l]

theorem sizeToInt_pos {a b : Nat} (ha : a < 2 ^ 31) (hab : b < a) : sizeToInt (sub64 a b) = (a : Int) - b := by
  rw [sub64_le (by omega) (by omega)]
  unfold sizeToInt
  rw [Nat.mod_eq_of_lt (by omega)]
  omega

theorem sizeToInt_neg {a b : Nat} (hb : b < 2 ^ 31) (hab : a < b) : sizeToInt (sub64 a b) = (a : Int) - b := by
  rw [sub64_gt (by omega) hab]
  unfold sizeToInt
  have : (a + 2 ^ 64 - b + 2 ^ 31) % 2 ^ 32 = 2 ^ 31 - (b - a) := by omega
  rw [this]
  omega

end Mtev.Logic
