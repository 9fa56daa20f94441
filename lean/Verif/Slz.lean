import Verif.Mem
import Verif.Inflate

/-!
# The deflate compressor (src/slz-lib/slz.c, src/slz-lib/tables.h) and its use in
src/utils/mtev_compress.c

The variant compiled on x86_64 is modelled (`UNALIGNED_LE_OK`, `UNALIGNED_FASTER`,
`USE_64BIT_QUEUE`, slz.h:41-44).  The output buffer is the list of bytes written so far; over
several calls it is the concatenation of what the calls wrote.  Whether the caller's buffer has
room for it is asked separately (`SlzRoom`).
-/
namespace Mtev.Slz
open Mtev.Inflate (bitsLE bytesBits)

/-- `enum slz_state` (slz.h:56-63). -/
inductive St | init | eob | fixed | last | done | ended
deriving DecidableEq, Repr

/-- `struct slz_stream` (slz.h:71-84).  `out` is everything written through `outbuf`. -/
structure Strm where
  queue : Nat
  qbits : Nat
  out : List Nat
  state : St
  level : Bool
  crc : Nat
  ilen : Nat

/-- four bytes of a 32 bit word, least significant first (a 32 bit store on x86_64, and
`copy_32b`, slz.c:283-290). -/
def le32 (v : Nat) : List Nat :=
  [v % 256, v / 256 % 256, v / 65536 % 256, v / 16777216 % 256]

/-- `enqueue24`, and `enqueue8` which is the same function (slz.c:164-181). -/
def enqueue (s : Strm) (x xbits : Nat) : Strm :=
  let queue := (s.queue + x * 2 ^ s.qbits) % 2 ^ 64
  let qbits := s.qbits + xbits
  if 32 ≤ qbits then
    { s with out := s.out ++ le32 (queue % 2 ^ 32), queue := queue / 2 ^ 32, qbits := qbits - 32 }
  else { s with queue := queue, qbits := qbits }

/-- the bytes `flush_bits` writes (slz.c:186-197). -/
def flushed (s : Strm) : List Nat :=
  (if 0 < s.qbits then [s.queue % 256] else []) ++
  (if 8 < s.qbits then [s.queue / 256 % 256] else []) ++
  (if 16 < s.qbits then [s.queue / 65536 % 256] else []) ++
  (if 24 < s.qbits then [s.queue / 16777216 % 256] else [])

/-- `flush_bits` (slz.c:184-201). -/
def flushBits (s : Strm) : Strm :=
  { s with out := s.out ++ flushed s, queue := 0, qbits := 0 }

/-- `copy_16b` (slz.c:275-280). -/
def copy16 (s : Strm) (x : Nat) : Strm := { s with out := s.out ++ [x % 256, x / 256 % 256] }

/-- `copy_32b` (slz.c:283-290). -/
def copy32 (s : Strm) (x : Nat) : Strm := { s with out := s.out ++ le32 x }

/-- `fixed_huff` (src/slz-lib/tables.h:15-52): per symbol the number of bits (low four bits)
and the code, reversed. -/
def fixedHuff : List Nat :=
  [0x00c8, 0x08c8, 0x04c8, 0x0cc8, 0x02c8, 0x0ac8, 0x06c8, 0x0ec8, 0x01c8, 0x09c8, 0x05c8, 0x0dc8,
   0x03c8, 0x0bc8, 0x07c8, 0x0fc8, 0x0028, 0x0828, 0x0428, 0x0c28, 0x0228, 0x0a28, 0x0628,
   0x0e28, 0x0128, 0x0928, 0x0528, 0x0d28, 0x0328, 0x0b28, 0x0728, 0x0f28, 0x00a8, 0x08a8,
   0x04a8, 0x0ca8, 0x02a8, 0x0aa8, 0x06a8, 0x0ea8, 0x01a8, 0x09a8, 0x05a8, 0x0da8, 0x03a8,
   0x0ba8, 0x07a8, 0x0fa8, 0x0068, 0x0868, 0x0468, 0x0c68, 0x0268, 0x0a68, 0x0668, 0x0e68,
   0x0168, 0x0968, 0x0568, 0x0d68, 0x0368, 0x0b68, 0x0768, 0x0f68, 0x00e8, 0x08e8, 0x04e8,
   0x0ce8, 0x02e8, 0x0ae8, 0x06e8, 0x0ee8, 0x01e8, 0x09e8, 0x05e8, 0x0de8, 0x03e8, 0x0be8,
   0x07e8, 0x0fe8, 0x0018, 0x0818, 0x0418, 0x0c18, 0x0218, 0x0a18, 0x0618, 0x0e18, 0x0118,
   0x0918, 0x0518, 0x0d18, 0x0318, 0x0b18, 0x0718, 0x0f18, 0x0098, 0x0898, 0x0498, 0x0c98,
   0x0298, 0x0a98, 0x0698, 0x0e98, 0x0198, 0x0998, 0x0598, 0x0d98, 0x0398, 0x0b98, 0x0798,
   0x0f98, 0x0058, 0x0858, 0x0458, 0x0c58, 0x0258, 0x0a58, 0x0658, 0x0e58, 0x0158, 0x0958,
   0x0558, 0x0d58, 0x0358, 0x0b58, 0x0758, 0x0f58, 0x00d8, 0x08d8, 0x04d8, 0x0cd8, 0x02d8,
   0x0ad8, 0x06d8, 0x0ed8, 0x01d8, 0x09d8, 0x05d8, 0x0dd8, 0x03d8, 0x0bd8, 0x07d8, 0x0fd8,
   0x0139, 0x1139, 0x0939, 0x1939, 0x0539, 0x1539, 0x0d39, 0x1d39, 0x0339, 0x1339, 0x0b39,
   0x1b39, 0x0739, 0x1739, 0x0f39, 0x1f39, 0x00b9, 0x10b9, 0x08b9, 0x18b9, 0x04b9, 0x14b9,
   0x0cb9, 0x1cb9, 0x02b9, 0x12b9, 0x0ab9, 0x1ab9, 0x06b9, 0x16b9, 0x0eb9, 0x1eb9, 0x01b9,
   0x11b9, 0x09b9, 0x19b9, 0x05b9, 0x15b9, 0x0db9, 0x1db9, 0x03b9, 0x13b9, 0x0bb9, 0x1bb9,
   0x07b9, 0x17b9, 0x0fb9, 0x1fb9, 0x0079, 0x1079, 0x0879, 0x1879, 0x0479, 0x1479, 0x0c79,
   0x1c79, 0x0279, 0x1279, 0x0a79, 0x1a79, 0x0679, 0x1679, 0x0e79, 0x1e79, 0x0179, 0x1179,
   0x0979, 0x1979, 0x0579, 0x1579, 0x0d79, 0x1d79, 0x0379, 0x1379, 0x0b79, 0x1b79, 0x0779,
   0x1779, 0x0f79, 0x1f79, 0x00f9, 0x10f9, 0x08f9, 0x18f9, 0x04f9, 0x14f9, 0x0cf9, 0x1cf9,
   0x02f9, 0x12f9, 0x0af9, 0x1af9, 0x06f9, 0x16f9, 0x0ef9, 0x1ef9, 0x01f9, 0x11f9, 0x09f9,
   0x19f9, 0x05f9, 0x15f9, 0x0df9, 0x1df9, 0x03f9, 0x13f9, 0x0bf9, 0x1bf9, 0x07f9, 0x17f9,
   0x0ff9, 0x1ff9, 0x0007, 0x0407, 0x0207, 0x0607, 0x0107, 0x0507, 0x0307, 0x0707, 0x0087,
   0x0487, 0x0287, 0x0687, 0x0187, 0x0587, 0x0387, 0x0787, 0x0047, 0x0447, 0x0247, 0x0647,
   0x0147, 0x0547, 0x0347, 0x0747, 0x0038, 0x0838, 0x0438, 0x0c38, 0x0238, 0x0a38, 0x0638, 0x0e38]

/-- `len_fh` (src/slz-lib/tables.h:59-125): per match length the number of bits (from bit 16)
and the code with its extra bits. -/
def lenFh : List Nat :=
  [0x000000, 0x000000, 0x000000, 0x070040, 0x070020, 0x070060, 0x070010, 0x070050, 0x070030,
   0x070070, 0x070008, 0x080048, 0x0800c8, 0x080028, 0x0800a8, 0x080068, 0x0800e8, 0x080018,
   0x080098, 0x090058, 0x0900d8, 0x090158, 0x0901d8, 0x090038, 0x0900b8, 0x090138, 0x0901b8,
   0x090078, 0x0900f8, 0x090178, 0x0901f8, 0x090004, 0x090084, 0x090104, 0x090184, 0x0a0044,
   0x0a00c4, 0x0a0144, 0x0a01c4, 0x0a0244, 0x0a02c4, 0x0a0344, 0x0a03c4, 0x0a0024, 0x0a00a4,
   0x0a0124, 0x0a01a4, 0x0a0224, 0x0a02a4, 0x0a0324, 0x0a03a4, 0x0a0064, 0x0a00e4, 0x0a0164,
   0x0a01e4, 0x0a0264, 0x0a02e4, 0x0a0364, 0x0a03e4, 0x0a0014, 0x0a0094, 0x0a0114, 0x0a0194,
   0x0a0214, 0x0a0294, 0x0a0314, 0x0a0394, 0x0b0054, 0x0b00d4, 0x0b0154, 0x0b01d4, 0x0b0254,
   0x0b02d4, 0x0b0354, 0x0b03d4, 0x0b0454, 0x0b04d4, 0x0b0554, 0x0b05d4, 0x0b0654, 0x0b06d4,
   0x0b0754, 0x0b07d4, 0x0b0034, 0x0b00b4, 0x0b0134, 0x0b01b4, 0x0b0234, 0x0b02b4, 0x0b0334,
   0x0b03b4, 0x0b0434, 0x0b04b4, 0x0b0534, 0x0b05b4, 0x0b0634, 0x0b06b4, 0x0b0734, 0x0b07b4,
   0x0b0074, 0x0b00f4, 0x0b0174, 0x0b01f4, 0x0b0274, 0x0b02f4, 0x0b0374, 0x0b03f4, 0x0b0474,
   0x0b04f4, 0x0b0574, 0x0b05f4, 0x0b0674, 0x0b06f4, 0x0b0774, 0x0b07f4, 0x0c0003, 0x0c0103,
   0x0c0203, 0x0c0303, 0x0c0403, 0x0c0503, 0x0c0603, 0x0c0703, 0x0c0803, 0x0c0903, 0x0c0a03,
   0x0c0b03, 0x0c0c03, 0x0c0d03, 0x0c0e03, 0x0c0f03, 0x0d0083, 0x0d0183, 0x0d0283, 0x0d0383,
   0x0d0483, 0x0d0583, 0x0d0683, 0x0d0783, 0x0d0883, 0x0d0983, 0x0d0a83, 0x0d0b83, 0x0d0c83,
   0x0d0d83, 0x0d0e83, 0x0d0f83, 0x0d1083, 0x0d1183, 0x0d1283, 0x0d1383, 0x0d1483, 0x0d1583,
   0x0d1683, 0x0d1783, 0x0d1883, 0x0d1983, 0x0d1a83, 0x0d1b83, 0x0d1c83, 0x0d1d83, 0x0d1e83,
   0x0d1f83, 0x0d0043, 0x0d0143, 0x0d0243, 0x0d0343, 0x0d0443, 0x0d0543, 0x0d0643, 0x0d0743,
   0x0d0843, 0x0d0943, 0x0d0a43, 0x0d0b43, 0x0d0c43, 0x0d0d43, 0x0d0e43, 0x0d0f43, 0x0d1043,
   0x0d1143, 0x0d1243, 0x0d1343, 0x0d1443, 0x0d1543, 0x0d1643, 0x0d1743, 0x0d1843, 0x0d1943,
   0x0d1a43, 0x0d1b43, 0x0d1c43, 0x0d1d43, 0x0d1e43, 0x0d1f43, 0x0d00c3, 0x0d01c3, 0x0d02c3,
   0x0d03c3, 0x0d04c3, 0x0d05c3, 0x0d06c3, 0x0d07c3, 0x0d08c3, 0x0d09c3, 0x0d0ac3, 0x0d0bc3,
   0x0d0cc3, 0x0d0dc3, 0x0d0ec3, 0x0d0fc3, 0x0d10c3, 0x0d11c3, 0x0d12c3, 0x0d13c3, 0x0d14c3,
   0x0d15c3, 0x0d16c3, 0x0d17c3, 0x0d18c3, 0x0d19c3, 0x0d1ac3, 0x0d1bc3, 0x0d1cc3, 0x0d1dc3,
   0x0d1ec3, 0x0d1fc3, 0x0d0023, 0x0d0123, 0x0d0223, 0x0d0323, 0x0d0423, 0x0d0523, 0x0d0623,
   0x0d0723, 0x0d0823, 0x0d0923, 0x0d0a23, 0x0d0b23, 0x0d0c23, 0x0d0d23, 0x0d0e23, 0x0d0f23,
   0x0d1023, 0x0d1123, 0x0d1223, 0x0d1323, 0x0d1423, 0x0d1523, 0x0d1623, 0x0d1723, 0x0d1823,
   0x0d1923, 0x0d1a23, 0x0d1b23, 0x0d1c23, 0x0d1d23, 0x0d1e23, 0x0800a3]

/-- the `case` labels of `dist_to_code` (tables.h:4563-4619), in their order: the code is one per
label from the one that applies on, since every case falls through. -/
def distCases : List (Nat × Nat) :=
  [(24577, 32768), (16385, 24576), (12289, 16384), (8193, 12288), (6145, 8192), (4097, 6144),
   (3073, 4096), (2049, 3072), (1537, 2048), (1025, 1536), (769, 1024), (513, 768), (385, 512),
   (257, 384), (193, 256), (129, 192), (97, 128), (65, 96), (49, 64), (33, 48), (25, 32),
   (17, 24), (13, 16), (9, 12), (7, 8), (5, 6), (4, 4), (3, 3), (2, 2)]

/-- the fall-through `switch`. -/
def fallThrough (l : Nat) : List (Nat × Nat) → Nat
  | [] => 0
  | (lo, hi) :: t => if lo ≤ l ∧ l ≤ hi then t.length + 1 else fallThrough l t

/-- `dist_to_code` (tables.h:4559-4624). -/
def distToCode (l : Nat) : Nat := fallThrough l distCases

/-- the five bits of a distance code reversed (tables.h:4646-4648). -/
def rev5 (c : Nat) : Nat :=
  c % 2 * 16 + c / 2 % 2 * 8 + c / 4 % 2 * 4 + c / 8 % 2 * 2 + c / 16 % 2

/-- number of extra bits (tables.h:4637-4639). -/
def distBits (code : Nat) : Nat := code / 2 - 1

/-- `fh_dist_table[dist]` (tables.h:4635-4653). -/
def distTable (dist : Nat) : Nat :=
  let code := distToCode (dist + 1)
  let bits := distBits code
  (rev5 code + dist % 2 ^ bits * 32) * 32 + bits + 5

/-- `send_huff` (slz.c:292-300). -/
def sendHuff (s : Strm) (c : Nat) : Strm :=
  enqueue s (fixedHuff.getD c 0 / 16) (fixedHuff.getD c 0 % 16)

/-- `send_eob` (slz.c:302-305). -/
def sendEob (s : Strm) : Strm := enqueue s 0 7

/-- `~x` of a `uint32_t`. -/
def not32 (x : Nat) : Nat := 2 ^ 32 - 1 - x % 2 ^ 32

/-- `if (strm->state != SLZ_ST_EOB) send_eob(strm)` (slz.c:321-322). -/
def closeBlock (s : Strm) : Strm := if s.state = .eob then s else sendEob s

/-- the loop of `copy_lit` (slz.c:314-334): stored blocks of at most 65535 bytes.  `buf` is the
memory from the pointer `buf` on: the code does not advance it between the blocks.  `fuel` bounds
the number of blocks (`len` is enough). -/
def copyLit : Nat → Strm → List Nat → Nat → Bool → Strm
  | 0, s, _, _, _ => s
  | fuel + 1, s, buf, len, more =>
    let len2 := if 65535 < len then 65535 else len
    let len := len - len2
    let s := closeBlock s
    let cont := more || decide (0 < len)
    let s := { s with state := if cont then .eob else .done }
    let s := enqueue s (if cont then 0 else 1) 3
    let s := flushBits s
    let s := copy16 s len2
    let s := copy16 s (not32 len2)
    let s := { s with out := s.out ++ buf.take len2 }
    if 0 < len then copyLit fuel s buf len more else s

/-- the block header part of `copy_lit_huff` (slz.c:343-354). -/
def huffHeader (s : Strm) (more : Bool) : Strm :=
  if s.state = .eob then
    enqueue { s with state := if more then .fixed else .last } (if more then 2 else 3) 3
  else if more = false then
    enqueue { (sendEob s) with state := .last } 3 3
  else s

/-- the loop of `copy_lit_huff` (slz.c:356-359). -/
def sendAll (s : Strm) (l : List Nat) : Strm := l.foldl sendHuff s

/-- `copy_lit_huff` (slz.c:339-360). -/
def copyLitHuff (s : Strm) (l : List Nat) (more : Bool) : Strm := sendAll (huffHeader s more) l

/-- `slz_hash` (slz.c:370-373), `HASH_BITS` 13 (slz.h:54). -/
def slzHash (a : Nat) : Nat := (a * 2 ^ 19 + a * 2 ^ 6 + (2 ^ 32 - a)) % 2 ^ 32 / 2 ^ 19

/-- a byte of the input; reading past its end is undefined behaviour. -/
def rd (inp : List Nat) (i : Nat) : Out Nat :=
  match inp[i]? with
  | some x => .ok x
  | none => .ub

/-- the value of four bytes, least significant first. -/
def wordAt (inp : List Nat) (i : Nat) : Nat :=
  inp.getD i 0 + inp.getD (i + 1) 0 * 256 + inp.getD (i + 2) 0 * 65536 +
    inp.getD (i + 3) 0 * 16777216

/-- `*(uint32_t *)&in[pos]` (slz.c:529). -/
def rd32 (inp : List Nat) (i : Nat) : Out Nat :=
  if i + 4 ≤ inp.length then .ok (wordAt inp i) else .ub

/-- index of the first of `n` bytes that differ. -/
def firstDiff (inp : List Nat) (a b : Nat) : Nat → Option Nat
  | 0 => none
  | n + 1 =>
    match firstDiff inp a b n with
    | some k => some k
    | none => if inp.getD (a + n) 0 = inp.getD (b + n) 0 then none else some n

/-- `*(long *)&a[len] ^ *(long *)&b[len]` (slz.c:395, 400): `none` if the eight bytes agree,
otherwise `bsf / 8`, the place of the lowest set bit in bytes, which is the first byte that differs
(slz.c:406-409).  Simplified: the xor and the bit scan are given by their meaning. -/
def cmp8 (inp : List Nat) (a b : Nat) : Out (Option Nat) :=
  if a + 8 ≤ inp.length ∧ b + 8 ≤ inp.length then .ok (firstDiff inp a b 8) else .ub

/-- the byte by byte end of `memmatch` (slz.c:388-393). -/
def matchTail (inp : List Nat) (a b max : Nat) : Nat → Nat → Out Nat
  | 0, len => .ok len
  | fuel + 1, len =>
    if len < max then
      (rd inp (a + len)).bind fun x =>
      (rd inp (b + len)).bind fun y =>
      if x = y then matchTail inp a b max fuel (len + 1) else .ok len
    else .ok len

/-- `memmatch` (slz.c:381-444).  `fuel` bounds the rounds (`max` is enough). -/
def memmatch (inp : List Nat) (a b max : Nat) : Nat → Nat → Out Nat
  | 0, len => .ok len
  | fuel + 1, len =>
    if max < len + 16 then matchTail inp a b max (max - len) len
    else
      (cmp8 inp (a + len) (b + len)).bind fun d =>
      match d with
      | some k => .ok (len + k)
      | none =>
        (cmp8 inp (a + (len + 8)) (b + (len + 8))).bind fun d =>
        match d with
        | some k => .ok (len + 8 + k)
        | none => memmatch inp a b max fuel (len + 16)

/-- the variables of the main loop of `slz_rfc1951_encode` (slz.c:491-503).  Simplified: the 32 bit
counters `plit` and `bit9` are unbounded; they never exceed `ilen`. -/
structure Loop where
  s : Strm
  pos : Nat
  rem : Nat
  plit : Nat
  bit9 : Nat
  refs : Nat → Nat

/-- `send_as_lit` (slz.c:592-598). -/
def asLit (l : Loop) (word : Nat) : Loop :=
  { l with rem := l.rem - 1, plit := l.plit + 1,
           bit9 := l.bit9 + (if 144 ≤ word % 256 then 1 else 0), pos := l.pos + 1 }

/-- pending literals: stored if 52 of them are above 143, otherwise coded (slz.c:636-639, 675-678). -/
def dumpLit (s : Strm) (inp : List Nat) (pos plit bit9 : Nat) (more : Bool) : Strm :=
  if 52 ≤ bit9 then copyLit plit s (inp.drop (pos - plit)) plit more
  else copyLitHuff s ((inp.drop (pos - plit)).take plit) more

/-- `use mode 01` (slz.c:645-648). -/
def openFixed (s : Strm) : Strm :=
  if s.state = .eob then enqueue { s with state := .fixed } 2 3 else s

/-- sending a reference (slz.c:627-656). -/
def sendRef (inp : List Nat) (l : Loop) (mlen code dist : Nat) : Loop :=
  let s := if 0 < l.plit then dumpLit l.s inp l.pos l.plit l.bit9 true else l.s
  let s := openFixed s
  let s := enqueue s (code % 65536) (code / 65536)
  let s := enqueue s (dist / 32) (dist % 32)
  { l with s := s, plit := 0, bit9 := 0, rem := l.rem - mlen, pos := l.pos + mlen }

/-- `pos - last - 1` as `unsigned long`. -/
def gap (pos last : Nat) : Nat := sub64 (sub64 pos last) 1

/-- `refs[h].by64 = …` (slz.c:536-539). -/
def setRef (refs : Nat → Nat) (h v : Nat) : Nat → Nat := fun i => if i = h then v else refs i

/-- the table with the present position and word in it. -/
def remember (l : Loop) (word : Nat) : Loop :=
  { l with refs := setRef l.refs (slzHash word) ((l.pos + word * 2 ^ 32) % 2 ^ 64) }

/-- one round of the main loop (slz.c:522-664). -/
def lstep (inp : List Nat) (l : Loop) : Out Loop :=
  (rd32 inp l.pos).bind fun word =>
  let last := l.refs (slzHash word) % 2 ^ 32
  let ent := l.refs (slzHash word) / 2 ^ 32
  let l := remember l word
  if ent ≠ word then .ok (asLit l word)
  else if 32768 ≤ gap l.pos last then .ok (asLit l word)
  else
    let max := (if 258 < l.rem then 258 else l.rem) - 4
    (memmatch inp (l.pos + 4) (last + 4) max max 0).bind fun m =>
    let mlen := m + 4
    if 52 ≤ l.bit9 ∧ mlen < 6 then .ok (asLit l word)
    else
      let code := lenFh.getD mlen 0
      let dist := distTable (gap l.pos last)
      if 8 * mlen + l.bit9 ≤ dist % 32 + code / 65536 + 8 then .ok (asLit l word)
      else .ok (sendRef inp l mlen code dist)

/-- `while (rem >= 4)` (slz.c:522).  Every round consumes at least one byte: `rem` is enough fuel. -/
def lloop (inp : List Nat) : Nat → Loop → Out Loop
  | 0, l => .ok l
  | fuel + 1, l => if 4 ≤ l.rem then (lstep inp l).bind (lloop inp fuel) else .ok l

/-- number of bytes that need nine bits. -/
def high (l : List Nat) : Nat := l.countP (fun x => decide (144 ≤ x))

/-- the table after `reset_refs`: -32769 (slz.c:453-476). -/
def noRefs : Nat → Nat := fun _ => 2 ^ 64 - 32769

/-- the end of `slz_rfc1951_encode` (slz.c:666-686): the last bytes, the pending literals. -/
def finalDump (inp : List Nat) (more : Bool) (l : Loop) : Strm :=
  let plit := l.plit + l.rem
  let bit9 := l.bit9 + high (inp.drop l.pos)
  let pos := l.pos + l.rem
  let s := if 0 < plit then dumpLit l.s inp pos plit bit9 more else l.s
  { s with ilen := (s.ilen + inp.length) % 2 ^ 32 }

/-- `slz_rfc1951_encode` (slz.c:485-686). -/
def encode (s : Strm) (inp : List Nat) (more : Bool) : Out Strm :=
  if s.level = false then
    let s := if 0 < inp.length then dumpLit s inp inp.length inp.length 52 more else s
    .ok { s with ilen := (s.ilen + inp.length) % 2 ^ 32 }
  else
    (lloop inp inp.length ⟨s, 0, inp.length, 0, 0, noRefs⟩).bind fun l => .ok (finalDump inp more l)

/-- `slz_rfc1951_init` (slz.c:693-703). -/
def init1951 (level : Bool) : Strm := ⟨0, 0, [], .eob, level, 0, 0⟩

/-- the first part of `slz_rfc1951_finish` (slz.c:716-719): close an open block. -/
def finishOpen (s : Strm) : Strm :=
  if s.state = .fixed then sendEob { s with state := .eob }
  else if s.state = .last then sendEob { s with state := .done }
  else s

/-- the second part (slz.c:721-726): an empty last block unless the last block has been sent. -/
def finishLast (s : Strm) : Strm :=
  if s.state = .done then s
  else { (sendEob (enqueue s 3 3)) with state := .done }

/-- `slz_rfc1951_finish` (slz.c:712-730). -/
def finish1951 (s : Strm) : Strm := flushBits (finishLast (finishOpen s))

/-- `gzip_hdr` (slz.c:858-861). -/
def gzipHdr : List Nat := [0x1F, 0x8B, 0x08, 0x00, 0x00, 0x00, 0x00, 0x00, 0x04, 0x03]

/-- the inner loop of `__slz_make_crc_table` (tables.h:4527-4533), one round. -/
def tabBit (c : Nat) : Nat := if c % 2 = 1 then 0xedb88320 ^^^ (c / 2) else c / 2

/-- `n` rounds. -/
def tabLoop : Nat → Nat → Nat
  | 0, c => c
  | n + 1, c => tabLoop n (tabBit c)

/-- `crc32_fast[0]` (tables.h:4525-4535). -/
def crcFast0 (n : Nat) : Nat := tabLoop 8 (n ^^^ 255) ^^^ 0xff000000

/-- `crc32_fast[1]` (tables.h:4544). -/
def crcFast1 (n : Nat) : Nat :=
  0xff000000 ^^^ crcFast0 ((0xff000000 ^^^ crcFast0 n ^^^ 0xff) % 256) ^^^ (crcFast0 n / 256)

/-- `crc32_fast[2]` (tables.h:4545). -/
def crcFast2 (n : Nat) : Nat :=
  0xff000000 ^^^ crcFast0 ((0x00ff0000 ^^^ crcFast1 n ^^^ 0xff) % 256) ^^^ (crcFast1 n / 256)

/-- `crc32_fast[3]` (tables.h:4546). -/
def crcFast3 (n : Nat) : Nat :=
  0xff000000 ^^^ crcFast0 ((0x0000ff00 ^^^ crcFast2 n ^^^ 0xff) % 256) ^^^ (crcFast2 n / 256)

/-- `crc32_char` (slz.c:863-866), and the last loop of `slz_crc32_by4` (slz.c:937-938). -/
def crcChar (crc x : Nat) : Nat := crcFast0 ((crc ^^^ x) % 256) ^^^ (crc / 256)

/-- `crc32_uint32` (slz.c:868-875). -/
def crcWord (d : Nat) : Nat :=
  crcFast3 (d % 256) ^^^ crcFast2 (d / 256 % 256) ^^^ crcFast1 (d / 65536 % 256) ^^^
    crcFast0 (d / 16777216 % 256)

/-- `slz_crc32_by4` (slz.c:891-940).  Simplified: the loop over sixteen bytes does four times what
the loop over four bytes does and is merged with it; `len` is an `int`, so the model is used below
2^31 bytes. -/
def crcBy4 : Nat → List Nat → Nat
  | crc, a :: b :: c :: d :: l => crcBy4 (crcWord (crc ^^^ wordAt [a, b, c, d] 0)) l
  | crc, [a, b, c] => crcChar (crcChar (crcChar crc a) b) c
  | crc, [a, b] => crcChar (crcChar crc a) b
  | crc, [a] => crcChar crc a
  | crc, [] => crc

/-- `slz_rfc1952_init` (slz.c:981-991). -/
def init1952 (level : Bool) : Strm := ⟨0, 0, [], .init, level, 0, 0⟩

/-- `if (strm->state == SLZ_ST_INIT) slz_rfc1952_send_header(...)` (slz.c:953-958, 968-969,
1006-1007). -/
def gzHeader (s : Strm) : Strm :=
  if s.state = .init then { s with out := s.out ++ gzipHdr, state := .eob } else s

/-- `slz_rfc1952_encode` (slz.c:964-974). -/
def gzEncode (s : Strm) (inp : List Nat) (more : Bool) : Out Strm :=
  let s := gzHeader s
  encode { s with crc := crcBy4 s.crc inp } inp more

/-- `slz_rfc1952_finish` (slz.c:1002-1016). -/
def gzFinish (s : Strm) : Strm :=
  let s := finish1951 (gzHeader s)
  let s := copy32 (copy32 s s.crc) s.ilen
  { s with state := .ended }

/-! ### The library's entry points -/

/-- the two formats of `slz` the library uses. -/
inductive Fmt | deflate | gzip
deriving DecidableEq

/-- `slz_init(&stream, 1, …)` (slz.h:115-128). -/
def slzInit : Fmt → Strm
  | .deflate => init1951 true
  | .gzip => init1952 true

/-- `slz_encode` (slz.h:134-148). -/
def slzEncode : Fmt → Strm → List Nat → Bool → Out Strm
  | .deflate => encode
  | .gzip => gzEncode

/-- `slz_finish` (slz.h:158-170). -/
def slzFinish : Fmt → Strm → Strm
  | .deflate => finish1951
  | .gzip => gzFinish

/-- what `mtev_compress_gzip`, `mtev_compress_deflate` write to the buffer they allocate
(mtev_compress.c:56-98): one call with `more` 0, then the end of the stream. -/
def oneShot (f : Fmt) (data : List Nat) : Out (List Nat) :=
  (slzEncode f (slzInit f) data false).bind fun s => .ok (slzFinish f s).out

/-- `mtev_stream_compress_ctx_t` (mtev_compress.c:13-20) for these two formats. -/
structure Ctx where
  begun : Bool
  flushed : Bool
  s : Strm

/-- `mtev_stream_compress_init` (mtev_compress.c:195-232). -/
def ctxInit (f : Fmt) : Ctx := ⟨false, false, slzInit f⟩

/-- `mtev_stream_compress_gzip`, also used for deflate (mtev_compress.c:264-274). -/
def compress (f : Fmt) (c : Ctx) (data : List Nat) : Out Ctx :=
  (slzEncode f c.s data true).bind fun s => .ok { c with begun := true, s := s }

/-- `mtev_stream_compress_flush_gzip`, also used for deflate (mtev_compress.c:334-350):
`none` if it returns -1. -/
def flush (f : Fmt) (c : Ctx) : Option Ctx :=
  if c.begun = false then none
  else if c.flushed = true then some c
  else some { c with flushed := true, s := slzFinish f c.s }

/-- a caller that hands over the data piece by piece. -/
def feed (f : Fmt) : Ctx → List (List Nat) → Out Ctx
  | c, [] => .ok c
  | c, d :: ds => (compress f c d).bind fun c => feed f c ds

/-- everything written for the given pieces, with the final flush; `none` if the flush fails. -/
def streamed (f : Fmt) (pieces : List (List Nat)) : Out (Option (List Nat)) :=
  (feed f (ctxInit f) pieces).bind fun c =>
    .ok (match flush f c with
      | none => none
      | some c => some c.s.out)

end Mtev.Slz
