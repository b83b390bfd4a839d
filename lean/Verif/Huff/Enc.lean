import Verif.Huff.Table
import Verif.Huff.Reader
/-
Model of the sequential Huffman encoder, portable C path with a 64-bit bit buffer:
  jchuff.c:345-793 (EMIT_BYTE .. finish_pass_huff); the statistics pass is in `Verif/Huff/Gather.lean`.
The output buffer is modelled as the list of bytes produced; see `Verif/IO/Dest.lean` for the
LOAD_BUFFER/STORE_BUFFER/dump_buffer layer that moves them to the destination manager.
-/
namespace Verif.Huff

/-- jutils.c:59-70 `jpeg_natural_order`, including the 16 extra entries. -/
def natOrder : List Nat :=
  [ 0,  1,  8, 16,  9,  2,  3, 10,
   17, 24, 32, 25, 18, 11,  4,  5,
   12, 19, 26, 33, 40, 48, 41, 34,
   27, 20, 13,  6,  7, 14, 21, 28,
   35, 42, 49, 56, 57, 50, 43, 36,
   29, 22, 15, 23, 30, 37, 44, 51,
   58, 59, 52, 45, 38, 31, 39, 46,
   53, 60, 61, 54, 47, 55, 62, 63,
   63, 63, 63, 63, 63, 63, 63, 63,
   63, 63, 63, 63, 63, 63, 63, 63]

/-- The order of the unrolled `kloop(..)` calls, jchuff.c:638-648. -/
def kloopOrder : List Nat :=
  [1, 8, 16, 9, 2, 3, 10, 17, 24, 32, 25, 18, 11, 4, 5, 12, 19, 26, 33, 40, 48, 41, 34, 27,
   20, 13, 6, 7, 14, 21, 28, 35, 42, 49, 56, 57, 50, 43, 36, 29, 22, 15, 23, 30, 37, 44, 51, 58,
   59, 52, 45, 38, 31, 39, 46, 53, 60, 61, 54, 47, 55, 62, 63]

/-- JPEG_NBITS (jpeg_nbits.h:34-42): number of bits needed for a magnitude, 0 for 0. -/
def nbitsOf (n : Nat) : Nat := if n = 0 then 0 else Nat.log2 n + 1

/-- Bit-buffer part of `savable_state` (jchuff.c:74-86) and the bytes written so far. -/
structure Wr where
  pb : Nat
  free : Nat
  out : List Nat
deriving Repr, DecidableEq

/-- EMIT_BYTE (jchuff.c:354-358): the speculative zero is kept exactly when the byte is 0xFF. -/
def emitByte (b : Nat) : List Nat := if b % 256 < 0xFF then [b % 256] else [b % 256, 0]

/-- The 64-bit 0xFF detection of FLUSH (jchuff.c:367). -/
def hasFF (pb : Nat) : Bool :=
  (pb &&& 0x8080808080808080) &&& (((pb + 0x0101010101010101) % W64) ^^^ (W64 - 1)) != 0

/-- FLUSH (jchuff.c:366-387), 64-bit version: the bytes written for a full put_buffer. -/
def flushBytes (pb : Nat) : List Nat :=
  if hasFF pb then
    emitByte (pb >>> 56) ++ emitByte (pb >>> 48) ++ emitByte (pb >>> 40) ++ emitByte (pb >>> 32) ++
    emitByte (pb >>> 24) ++ emitByte (pb >>> 16) ++ emitByte (pb >>> 8) ++ emitByte pb
  else
    [(pb >>> 56) % 256, (pb >>> 48) % 256, (pb >>> 40) % 256, (pb >>> 32) % 256,
     (pb >>> 24) % 256, (pb >>> 16) % 256, (pb >>> 8) % 256, pb % 256]

/-- PUT_BITS with PUT_AND_FLUSH (jchuff.c:411-428).  `free_bits` going negative is `size > free`; the left shift
count `size + free_bits` is then the old `free`, the right shift count `-free_bits` is `size - free`. -/
def putBits (w : Wr) (code size : Nat) : Wr :=
  if size > w.free then
    let pb := (w.pb <<< w.free) % W64 ||| code >>> (size - w.free)
    { pb := code, free := 64 - (size - w.free), out := w.out ++ flushBytes pb }
  else
    { w with pb := (w.pb <<< size) % W64 ||| code, free := w.free - size }

/-- PUT_CODE (jchuff.c:430-435): `temp` low `nbits` bits appended to the symbol's code. -/
def putCode (w : Wr) (temp : Int) (nbits : Nat) (cs : Nat × Nat) : Wr :=
  putBits w ((temp % 2 ^ nbits).toNat ||| cs.1 <<< nbits) (nbits + cs.2)

/-- The byte loop of `flush_bits` (jchuff.c:505-514): whole bytes, then a partial byte filled with ones. -/
def flushLoop (pb : Nat) (n : Nat) : List Nat :=
  if n ≥ 8 then emitByte (pb >>> (n - 8)) ++ flushLoop pb (n - 8)
  else if n > 0 then emitByte (pb <<< (8 - n) ||| 0xFF >>> n)
  else []
termination_by n

/-- `flush_bits` (jchuff.c:479-533). -/
def flushBits (w : Wr) : Wr := { pb := 0, free := 64, out := w.out ++ flushLoop w.pb (64 - w.free) }

/-- jchuff.c:626-629: `while (r >= 16*16)` emit ZRL. -/
def zrlLoop (ac : CTbl) (r : Nat) (w : Wr) : Nat × Wr :=
  if r ≥ 256 then zrlLoop ac (r - 256) (putBits w (ac 0xF0).1 (ac 0xF0).2) else (r, w)
termination_by r
decreasing_by omega

/-- `temp += temp >> 31`: the branch-less one's-complement trick (jchuff.c:587-589, 617-620). -/
def onesc (t : Int) : Int := t + t >>> 31

/-- The unrolled kloop sequence and the final EOB (jchuff.c:607-654), over the coefficients in scan order.
`r` is 16 × the zero run, as in the C. `none` = ERREXIT(JERR_BAD_DCT_COEF). -/
def encAC (maxBits : Nat) (ac : CTbl) : List Int → Nat → Wr → Option Wr
  | [], r, w => some (if r > 0 then putBits w (ac 0).1 (ac 0).2 else w)
  | t :: ts, r, w =>
    if t = 0 then encAC maxBits ac ts (r + 16) w
    else
      let nb := nbitsOf t.natAbs
      if nb > maxBits then none
      else
        let rw := zrlLoop ac r w
        encAC maxBits ac ts 0 (putCode rw.2 (onesc t) nb (ac (rw.1 + nb)))

/-- `encode_one_block` (jchuff.c:563-661), without the buffer transfer. -/
def encBlock (prec : Nat) (dc ac : CTbl) (last : Int) (blk : List Int) (w : Wr) : Option Wr :=
  let t := blk.getD 0 0 - last
  let nb := nbitsOf t.natAbs
  if nb > prec + 2 + 1 then none
  else encAC (prec + 2) ac (kloopOrder.map (fun k => blk.getD k 0)) 0
    (putCode w (onesc t) nb (dc nb))

/-- What the encoder knows about each block position of an MCU: the component it belongs to
(`MCU_membership`) and that component's derived tables (jchuff.c:734-744). -/
structure EBlk where
  ci : Nat
  dc : CTbl
  ac : CTbl

/-- Entropy-encoder state kept between MCUs (jchuff.c:74-97). `last` is `last_dc_val[]`. -/
structure ESt where
  w : Wr
  last : Nat → Int
  togo : Nat
  rst : Nat

def upd (f : Nat → Int) (i : Nat) (v : Int) : Nat → Int := fun j => if j = i then v else f j

/-- The block loop of `encode_mcu_huff` (jchuff.c:734-745). -/
def encBlocks (prec : Nat) : List EBlk → List (List Int) → (Nat → Int) → Wr →
    Option ((Nat → Int) × Wr)
  | b :: bs, blk :: blks, last, w =>
    match encBlock prec b.dc b.ac (last b.ci) blk w with
    | none => none
    | some w => encBlocks prec bs blks (upd last b.ci (blk.getD 0 0)) w
  | _, _, last, w => some (last, w)

/-- `emit_restart` (jchuff.c:668-686). -/
def emitRestart (w : Wr) (n : Nat) : Wr :=
  let w := flushBits w
  { w with out := w.out ++ [0xFF, 0xD0 + n] }

/-- `encode_mcu_huff` (jchuff.c:693-763); `ri` is `restart_interval`. -/
def encMCU (prec ri : Nat) (bs : List EBlk) (s : ESt) (mcu : List (List Int)) : Option ESt :=
  let due := ri ≠ 0 ∧ s.togo = 0
  let w := if due then emitRestart s.w s.rst else s.w
  let last := if due then (fun _ => 0) else s.last
  match encBlocks prec bs mcu last w with
  | none => none
  | some (last, w) =>
    let togo := if due then ri else s.togo
    let rst := if due then (s.rst + 1) &&& 7 else s.rst
    some { w := w, last := last, togo := if ri ≠ 0 then togo - 1 else togo, rst := rst }

/-- All MCUs of a scan. -/
def encMCUs (prec ri : Nat) (bs : List EBlk) : ESt → List (List (List Int)) → Option ESt
  | s, [] => some s
  | s, m :: ms =>
    match encMCU prec ri bs s m with
    | none => none
    | some s => encMCUs prec ri bs s ms

/-- `start_pass_huff` state (jchuff.c:197-223). -/
def encInit (ri : Nat) : ESt :=
  { w := { pb := 0, free := 64, out := [] }, last := fun _ => 0, togo := ri, rst := 0 }

/-- A whole scan: start_pass, every MCU, `finish_pass_huff` (jchuff.c:770-793). -/
def encScan (prec ri : Nat) (bs : List EBlk) (mcus : List (List (List Int))) : Option (List Nat) :=
  match encMCUs prec ri bs (encInit ri) mcus with
  | none => none
  | some s => some (flushBits s.w).out

end Verif.Huff
