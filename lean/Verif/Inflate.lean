/-
The data formats of RFC 1951 (deflate) and RFC 1952 (gzip), written from the
RFCs and not from the code: what a standard decompressor makes of a sequence of
bytes.  Blocks with dynamic Huffman codes (type 2) are refused, so whatever this
decompressor accepts every complete decompressor accepts with the same result.
This file is specification: it models none of the code.
-/
namespace Mtev.Inflate

/-- RFC 1951 3.1.1: bits of a byte are taken least significant first. -/
def bitsLE : Nat → Nat → List Bool
  | 0, _ => []
  | n + 1, v => (v % 2 == 1) :: bitsLE n (v / 2)

/-- the bits of a sequence of bytes in the order in which they are read. -/
def bytesBits (b : List Nat) : List Bool := b.flatMap (bitsLE 8)

/-- RFC 1951 3.1.1: an `n` bit number, least significant bit first. -/
def takeLE : Nat → List Bool → Option (Nat × List Bool)
  | 0, b => some (0, b)
  | _ + 1, [] => none
  | n + 1, x :: b =>
    match takeLE n b with
    | none => none
    | some (v, r) => some (v * 2 + x.toNat, r)

/-- RFC 1951 3.1.1: `n` bits of a Huffman code, most significant bit first. -/
def takeMSB : Nat → Nat → List Bool → Option (Nat × List Bool)
  | 0, acc, b => some (acc, b)
  | _ + 1, _, [] => none
  | n + 1, acc, x :: b => takeMSB n (2 * acc + x.toNat) b

/-- RFC 1951 3.2.6: one symbol of the fixed literal/length alphabet.
256-279: seven bits from 0000000; 0-143: eight bits from 00110000;
280-287: eight bits from 11000000; 144-255: nine bits from 110010000. -/
def symbol (b : List Bool) : Option (Nat × List Bool) :=
  match takeMSB 7 0 b with
  | none => none
  | some (c7, r7) =>
    if c7 ≤ 23 then some (256 + c7, r7)
    else match takeMSB 1 c7 r7 with
      | none => none
      | some (c8, r8) =>
        if c8 ≤ 191 then some (c8 - 48, r8)
        else if c8 ≤ 199 then some (280 + (c8 - 192), r8)
        else match takeMSB 1 c8 r8 with
          | none => none
          | some (c9, r9) => some (144 + (c9 - 400), r9)

/-- RFC 1951 3.2.5: number of extra bits and least length of the symbols 257 … 285. -/
def lengths : List (Nat × Nat) :=
  [(0, 3), (0, 4), (0, 5), (0, 6), (0, 7), (0, 8), (0, 9), (0, 10),
   (1, 11), (1, 13), (1, 15), (1, 17), (2, 19), (2, 23), (2, 27), (2, 31),
   (3, 35), (3, 43), (3, 51), (3, 59), (4, 67), (4, 83), (4, 99), (4, 115),
   (5, 131), (5, 163), (5, 195), (5, 227), (0, 258)]

/-- RFC 1951 3.2.5: number of extra bits and least distance of the codes 0 … 29. -/
def distances : List (Nat × Nat) :=
  [(0, 1), (0, 2), (0, 3), (0, 4), (1, 5), (1, 7), (2, 9), (2, 13), (3, 17), (3, 25),
   (4, 33), (4, 49), (5, 65), (5, 97), (6, 129), (6, 193), (7, 257), (7, 385),
   (8, 513), (8, 769), (9, 1025), (9, 1537), (10, 2049), (10, 3073), (11, 4097),
   (11, 6145), (12, 8193), (12, 12289), (13, 16385), (13, 24577)]

/-- a number given by a code and its extra bits. -/
def withExtra (table : List (Nat × Nat)) (code : Nat) (b : List Bool) :
    Option (Nat × List Bool) :=
  match table[code]? with
  | none => none
  | some (extra, base) =>
    match takeLE extra b with
    | none => none
    | some (v, r) => some (base + v, r)

/-- RFC 1951 3.2.6: the distance that follows a length: a five bit code, then extra bits. -/
def distance (b : List Bool) : Option (Nat × List Bool) :=
  match takeMSB 5 0 b with
  | none => none
  | some (c, r) => withExtra distances c r

/-- RFC 1951 3.2.3: the byte `d` places back, `n` times over (copies may overlap). -/
def copyBack : Nat → Nat → List Nat → List Nat
  | 0, _, h => h
  | n + 1, d, h => copyBack n d (h ++ [h.getD (h.length - d) 0])

/-- `n` whole bytes. -/
def takeBytes : Nat → List Bool → Option (List Nat × List Bool)
  | 0, b => some ([], b)
  | n + 1, b =>
    match takeLE 8 b with
    | none => none
    | some (v, r) =>
      match takeBytes n r with
      | none => none
      | some (l, r) => some (v :: l, r)

/-- where a decompressor is: before a block header, in a block with fixed codes
(of the last block or not), or after the last block. -/
inductive Mode | header | codes (last : Bool) | finished
deriving DecidableEq

/-- decompressor: mode, number of bits consumed, output so far. -/
structure Cfg where
  mode : Mode
  used : Nat
  hist : List Nat

/-- after a block. -/
def afterBlock (last : Bool) : Mode := if last then .finished else .header

/-- RFC 1951 3.2.4: a stored block after its three header bits: skip to the next
byte boundary, LEN, its complement, LEN bytes. -/
def stored (last : Bool) (used : Nat) (h : List Nat) (b : List Bool) :
    Option (Cfg × List Bool) :=
  let pad := (8 - used % 8) % 8
  if b.length < pad then none
  else match takeLE 16 (b.drop pad) with
    | none => none
    | some (len, r) =>
      match takeLE 16 r with
      | none => none
      | some (nlen, r) =>
        if len + nlen ≠ 65535 then none
        else match takeBytes len r with
          | none => none
          | some (l, r) =>
            some (⟨afterBlock last, used + pad + 32 + 8 * len, h ++ l⟩, r)

/-- one block header (with the whole block if it is stored) or one code. -/
def step (c : Cfg) (b : List Bool) : Option (Cfg × List Bool) :=
  match c.mode with
  | .finished => none
  | .header =>
    match b with
    | last :: t0 :: t1 :: r =>
      match t0, t1 with
      | false, false => stored last (c.used + 3) c.hist r
      | true, false => some (⟨.codes last, c.used + 3, c.hist⟩, r)
      | _, _ => none
    | _ => none
  | .codes last =>
    match symbol b with
    | none => none
    | some (sym, r) =>
      if sym < 256 then some (⟨.codes last, c.used + (b.length - r.length), c.hist ++ [sym]⟩, r)
      else if sym = 256 then some (⟨afterBlock last, c.used + (b.length - r.length), c.hist⟩, r)
      else match withExtra lengths (sym - 257) r with
        | none => none
        | some (len, r) =>
          match distance r with
          | none => none
          | some (d, r) =>
            if c.hist.length < d then none
            else some (⟨.codes last, c.used + (b.length - r.length), copyBack len d c.hist⟩, r)

/-- run until the last block is finished.  Every step consumes at least one bit,
so the number of bits is enough fuel. -/
def run : Nat → Cfg → List Bool → Option (Cfg × List Bool)
  | fuel, c, b =>
    match c.mode with
    | .finished => some (c, b)
    | _ =>
      match fuel with
      | 0 => none
      | fuel + 1 =>
        match step c b with
        | none => none
        | some (c, b) => run fuel c b

/-- decompress a deflate stream at the start of the bits: the output, and what follows. -/
def inflateBits (b : List Bool) : Option (List Nat × List Bool) :=
  match run b.length ⟨.header, 0, []⟩ b with
  | none => none
  | some (c, r) => some (c.hist, r)

/-- RFC 1951: the data represented by exactly these bytes: the stream ends in the last byte. -/
def inflate (b : List Nat) : Option (List Nat) :=
  match inflateBits (bytesBits b) with
  | none => none
  | some (d, r) => if r.length < 8 then some d else none

/-- one bit of the CRC of RFC 1952 section 8. -/
def crcBit (c : Nat) : Nat := if c % 2 = 1 then 0xedb88320 ^^^ (c / 2) else c / 2

/-- eight bits. -/
def crcByte (c : Nat) : Nat :=
  crcBit (crcBit (crcBit (crcBit (crcBit (crcBit (crcBit (crcBit c)))))))

/-- RFC 1952 section 8: CRC-32 of a sequence of bytes. -/
def crc32 (b : List Nat) : Nat :=
  b.foldl (fun c x => crcByte (c ^^^ x)) 0xffffffff ^^^ 0xffffffff

/-- RFC 1952 2.3: one member without optional fields: ten bytes of header (identification
31 139, method 8, flags 0), a deflate stream, CRC-32 and length modulo 2^32. -/
def gunzip (b : List Nat) : Option (List Nat) :=
  if b.take 4 ≠ [31, 139, 8, 0] ∨ b.length < 10 then none
  else match inflateBits (bytesBits (b.drop 10)) with
    | none => none
    | some (d, r) =>
      match takeLE 32 (r.drop (r.length % 8)) with
      | none => none
      | some (crc, r) =>
        match takeLE 32 r with
        | none => none
        | some (isize, r) =>
          if r = [] ∧ crc = crc32 d ∧ isize = d.length % 2 ^ 32 then some d else none

/-! Sanity of the specification: it reads what zlib and gzip write (fixed codes with
overlapping copies, a stored block, a gzip member), and the CRC of "123456789". -/
example : inflate [3, 0] = some [] := by decide +kernel
example : inflate [75, 76, 74, 78, 132, 161, 255, 39, 50, 82, 115, 114, 242, 21, 192, 36, 0] =
    some [97, 98, 99, 97, 98, 99, 97, 98, 99, 97, 98, 99, 255, 200, 104, 101, 108, 108, 111,
      32, 104, 101, 108, 108, 111] := by decide +kernel
example : inflate [1, 3, 0, 252, 255, 120, 121, 122] = some [120, 121, 122] := by
  decide +kernel
example : inflate [1, 3, 0, 251, 255, 120, 121, 122] = none := by decide +kernel
example : gunzip [31, 139, 8, 0, 0, 0, 0, 0, 4, 3, 75, 76, 74, 78, 132, 33, 0, 52, 42, 110, 90,
    12, 0, 0, 0] = some [97, 98, 99, 97, 98, 99, 97, 98, 99, 97, 98, 99] := by decide +kernel
example : gunzip [31, 139, 8, 0, 0, 0, 0, 0, 4, 3, 75, 76, 74, 78, 132, 33, 0, 52, 42, 110, 91,
    12, 0, 0, 0] = none := by decide +kernel
example : crc32 [49, 50, 51, 52, 53, 54, 55, 56, 57] = 0xcbf43926 := by decide +kernel

end Mtev.Inflate
