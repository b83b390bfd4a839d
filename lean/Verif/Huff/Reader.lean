import Verif.Huff.Table
/-
Model of the Huffman decoders' bit reader and symbol decoder:
  jdhuff.c:266-389 (jpeg_fill_bit_buffer), jdhuff.h:101-221 (macros), jdhuff.c:435-472 (jpeg_huff_decode).
64-bit configuration: BIT_BUF_SIZE = 64, MIN_GET_BITS = 57.
-/
namespace Verif.Huff

/-- Width of `bit_buf_type` (jdhuff.h:75-78). -/
def W64 : Nat := 2 ^ 64

/-- MIN_GET_BITS (jdhuff.c:282): BIT_BUF_SIZE - 7. -/
def minGetBits : Nat := 57

/-- Bit-reader state: `bitread_working_state` (jdhuff.h:101-113) plus the fields of `cinfo` that
`jpeg_fill_bit_buffer` touches. `bytes` is the data in the source buffer, `warns` counts WARNMS calls, `hits` those
that are JWRN_HIT_MARKER. -/
structure Rd where
  gb : Nat
  left : Nat
  bytes : List Nat
  marker : Nat := 0
  insuff : Bool := false
  warns : Nat := 0
  hits : Nat := 0
deriving Repr, DecidableEq

/-- The byte-loading loop of `jpeg_fill_bit_buffer`, jdhuff.c:302-356. `inFF` is true while inside the inner
`do .. while (c == 0xFF)` loop.  Result: new get_buffer, bits_left, remaining bytes and the marker found (0 if
none: the loop ended because the buffer is full).  `none`: the source has no more bytes, i.e.
`fill_input_buffer` asked for suspension and FALSE is returned. -/
def fillLoop (inFF : Bool) (gb left : Nat) : List Nat → Option (Nat × Nat × List Nat × Nat)
  | [] => if inFF = false ∧ left ≥ minGetBits then some (gb, left, [], 0) else none
  | c :: rest =>
    match inFF with
    | false =>
      if left ≥ minGetBits then some (gb, left, c :: rest, 0)
      else if c = 0xFF then fillLoop true gb left rest
      else fillLoop false ((gb <<< 8) % W64 ||| c) (left + 8) rest
    | true =>
      if c = 0xFF then fillLoop true gb left rest
      else if c = 0 then fillLoop false ((gb <<< 8) % W64 ||| 0xFF) (left + 8) rest
      else some (gb, left, rest, c)

/-- The `no_more_bytes` part, jdhuff.c:357-382: with a marker pending, supply fake zero bits if needed. -/
def noMore (r : Rd) (nbits : Nat) : Rd :=
  if nbits > r.left then
    { r with gb := (r.gb <<< (minGetBits - r.left)) % W64, left := minGetBits, insuff := true,
             warns := if r.insuff then r.warns else r.warns + 1,
             hits := if r.insuff then r.hits else r.hits + 1 }
  else r

/-- jdhuff.c:286-389 `jpeg_fill_bit_buffer`; `none` = FALSE (suspend). -/
def fill (r : Rd) (nbits : Nat) : Option Rd :=
  if r.marker = 0 then
    match fillLoop false r.gb r.left r.bytes with
    | none => none
    | some (gb, left, bytes, m) =>
      let r' := { r with gb := gb, left := left, bytes := bytes, marker := m }
      if m = 0 then some r' else some (noMore r' nbits)
  else some (noMore r nbits)

/-- CHECK_BIT_BUFFER (jdhuff.h:160-166). -/
def checkBits (r : Rd) (nbits : Nat) : Option Rd := if r.left < nbits then fill r nbits else some r

/-- PEEK_BITS (jdhuff.h:171-172): cast to int, then mask. -/
def peekBits (r : Rd) (n : Nat) : Nat := ((r.gb >>> (r.left - n)) % 2 ^ 32) &&& (2 ^ n - 1)

/-- DROP_BITS (jdhuff.h:174-175). -/
def dropBits (r : Rd) (n : Nat) : Rd := { r with left := r.left - n }

/-- CHECK_BIT_BUFFER followed by GET_BITS (jdhuff.h:168-169). -/
def readBits (r : Rd) (n : Nat) : Option (Nat × Rd) :=
  match checkBits r n with
  | none => none
  | some r => some (peekBits r n, dropBits r n)

/-- The bit-at-a-time loop of `jpeg_huff_decode`, jdhuff.c:455-463. `fuel` counts the lengths left up to 17;
`maxcode[17] = 0xFFFFF` stops the C loop at 17 (proved in `slowLoop_le`). -/
def slowLoop (d : DTbl) : (fuel : Nat) → Rd → (code l : Nat) → Option (Nat × Nat × Rd)
  | 0, r, code, l => some (code, l, r)
  | fuel + 1, r, code, l =>
    if (code : Int) > d.maxcode.getD (l - 1) 0 then
      match readBits r 1 with
      | none => none
      | some (b, r) => slowLoop d fuel r ((code <<< 1) ||| b) (l + 1)
    else some (code, l, r)

/-- Out-of-line decoding, jdhuff.c:435-472 `jpeg_huff_decode`. -/
def huffSlow (d : DTbl) (r : Rd) (minBits : Nat) : Option (Nat × Rd) :=
  match readBits r minBits with
  | none => none
  | some (code, r) =>
    match slowLoop d (17 - minBits) r code minBits with
    | none => none
    | some (code, l, r) =>
      if l > 16 then some (0, { r with warns := r.warns + 1 })
      else some (d.vals.getD ((code : Int) + d.valoffset.getD (l - 1) 0).toNat 0, r)

/-- HUFF_DECODE (jdhuff.h:200-221), HUFF_LOOKAHEAD = 8. -/
def huffDecode (d : DTbl) (r : Rd) : Option (Nat × Rd) :=
  match (if r.left < 8 then fill r 0 else some r) with
  | none => none
  | some r =>
    if r.left < 8 then huffSlow d r 1
    else
      let e := d.lookup.getD (peekBits r 8) 0
      let nb := e >>> 8
      if nb ≤ 8 then some (e &&& 255, dropBits r nb)
      else huffSlow d r nb

/-- HUFF_EXTEND (jdhuff.c:483-485), as written: `x + (((x - (1 << (s-1))) >> 31) & ((NEG_1 << s) + 1))`, where
`NEG_1` is `unsigned int`, so the `&` and the sum are 32-bit unsigned and the result is stored in an `int`. -/
def huffExtend (x s : Nat) : Int :=
  let sgn : Nat := ((((x : Int) - 2 ^ (s - 1)) >>> 31) % 2 ^ 32).toNat
  let off : Nat := ((2 ^ 32 - 1) * 2 ^ s + 1) % 2 ^ 32
  let u : Nat := (x + (sgn &&& off)) % 2 ^ 32
  if u < 2 ^ 31 then (u : Int) else (u : Int) - 2 ^ 32

end Verif.Huff
