import Verif.Common.Bits
/-
Model of the Huffman-table expansion shared by encoder and decoder:
  jchuff.c:231-318 (jpeg_make_c_derived_tbl), jdhuff.c:143-262 (jpeg_make_d_derived_tbl).
-/

namespace Verif.Huff

/-- A Huffman table as carried by a DHT marker. Models `JHUFF_TBL` (jpeglib.h:132-143):
`bits[1..16]` (the unused `bits[0]` is dropped: `counts[l-1] = bits[l]`) and `huffval[0..255]`. -/
structure HuffTbl where
  counts : List Nat
  vals : List Nat
deriving Repr, DecidableEq

/-- Figure C.1, jchuff.c:263-273 / jdhuff.c:176-186: the list of code lengths, shortest first.
`l` is the code length of the head of `counts`. The C writes them into `huffsize[0..p-1]`. -/
def mkSizes : Nat → List Nat → List Nat
  | _, [] => []
  | l, c :: cs => List.replicate c l ++ mkSizes (l + 1) cs

/-- The guard of the same loop (`i < 0 || p + i > 256`): running total may never exceed 256. -/
def sizesOk : Nat → List Nat → Bool
  | _, [] => true
  | p, c :: cs => if p + c > 256 then false else sizesOk (p + c) cs

/-- The outer-loop bookkeeping of Figure C.2 when the next symbol's length is `d` longer than the current one:
`d` times, check that `code` still fits in `si` bits (else `JERR_BAD_HUFF_TABLE`), double it, increment `si`.
jchuff.c:287-293 / jdhuff.c:200-206. -/
def adv : (d code si : Nat) → Option Nat
  | 0, code, _ => some code
  | d + 1, code, si => if code ≥ 2 ^ si then none else adv d (2 * code) (si + 1)

/-- Figure C.2, jchuff.c:275-294 / jdhuff.c:188-207: assign consecutive codes, doubling when the length grows;
error (`none`) as soon as a group's last code + 1 does not fit in `si` bits.
Modelling note: the nested `while (huffsize[p])` / `while (huffsize[p]==si)` loops are one recursion over the
list of lengths; the end of the list is `huffsize[p] == 0`, where the check is made one last time.  (Lengths are
nondecreasing, so `s - si` is the number of times the outer loop body completes before the next symbol.) -/
def genCodes : (code si : Nat) → List Nat → Option (List Nat)
  | code, si, [] => if code ≥ 2 ^ si then none else some []
  | code, si, s :: rest =>
    match adv (s - si) code si with
    | none => none
    | some c => (genCodes (c + 1) s rest).map (c :: ·)

/-- Sizes and codes of an accepted table; `none` = `ERREXIT(JERR_BAD_HUFF_TABLE)`.
jchuff.c:263-294, jdhuff.c:176-207 (identical text). -/
def expand (t : HuffTbl) : Option (List Nat × List Nat) :=
  if sizesOk 0 t.counts then
    let sizes := mkSizes 1 t.counts
    match sizes with
    | [] => some ([], [])
    | s :: _ => (genCodes 0 s sizes).map (fun codes => (sizes, codes))
  else none

/-- Encoder side: `ehufco[]`/`ehufsi[]` as a finite map symbol ↦ (code, size); size 0 = no code. -/
abbrev CTbl := Nat → Nat × Nat

/-- jchuff.c:311-317: fill the encoding tables, rejecting out-of-range and duplicate symbols. -/
def fillC (maxsym : Nat) : List (Nat × Nat × Nat) → CTbl → Option CTbl
  | [], t => some t
  | (v, c, s) :: rest, t =>
    if v > maxsym then none
    else if (t v).2 ≠ 0 then none
    else fillC maxsym rest (fun i => if i = v then (c, s) else t i)

/-- jchuff.c:231-318 `jpeg_make_c_derived_tbl`. `maxsym` is 15/16 for DC tables (lossy/lossless), 255 for AC.
`huffval` has 256 slots, so `vals` is read with default 0 past its end. -/
def makeCTbl (maxsym : Nat) (t : HuffTbl) : Option CTbl :=
  match expand t with
  | none => none
  | some (sizes, codes) =>
    fillC maxsym ((List.range sizes.length).map
      (fun p => (t.vals.getD p 0, codes.getD p 0, sizes.getD p 0))) (fun _ => (0, 0))

/-- Decoder side, `d_derived_tbl` (jdhuff.h:27-51). Index `l-1` of `maxcode`/`valoffset` is code length `l`. -/
structure DTbl where
  maxcode : List Int
  valoffset : List Int
  lookup : List Nat
  vals : List Nat

/-- jdhuff.c:211-223: `maxcode[l]`, `valoffset[l]` for l = 1..16 (the C leaves `valoffset[l]` unset when there is
no code of length `l`; the model stores 0). -/
def maxVal (codes : List Nat) : List Nat → Nat → List (Int × Int)
  | [], _ => []
  | c :: cs, p =>
    if c ≠ 0 then
      ((codes.getD (p + c - 1) 0 : Int), (p : Int) - (codes.getD p 0 : Int)) :: maxVal codes cs (p + c)
    else (-1, 0) :: maxVal codes cs p

/-- jdhuff.c:244-248: write `entry` into `n` consecutive lookup slots starting at `i`. -/
def setRange (entry : Nat) : (n i : Nat) → List Nat → List Nat
  | 0, _, l => l
  | n + 1, i, l => setRange entry n (i + 1) (l.set i entry)

/-- jdhuff.c:238-250: fill lookup entries for all codes of at most 8 bits, in code order.
The C double loop over `l = 1..8` and `i = 1..bits[l]` runs through `p` in order with `l = huffsize[p]`. -/
def fillLookup : List (Nat × Nat × Nat) → List Nat → List Nat
  | [], lk => lk
  | (v, c, s) :: rest, lk =>
    if s ≤ 8 then fillLookup rest (setRange (s * 256 ||| v) (2 ^ (8 - s)) (c <<< (8 - s)) lk)
    else lk

/-- jdhuff.c:253-261: for DC tables every symbol must be at most `maxsym`. -/
def dcOk (maxsym : Option Nat) (ents : List (Nat × Nat × Nat)) : Bool :=
  match maxsym with
  | none => true
  | some m => ents.all (fun e => decide (e.1 ≤ m))

/-- jdhuff.c:143-262 `jpeg_make_d_derived_tbl`; `maxsym = some m` for DC tables (m = 15 lossy, 16 lossless). -/
def makeDTbl (maxsym : Option Nat) (t : HuffTbl) : Option DTbl :=
  match expand t with
  | none => none
  | some (sizes, codes) =>
    let mv := maxVal codes t.counts 0
    let ents := (List.range sizes.length).map
      (fun p => (t.vals.getD p 0, codes.getD p 0, sizes.getD p 0))
    let lk := fillLookup ents (List.replicate 256 (9 * 256))
    if dcOk maxsym ents then
      some { maxcode := mv.map (·.1) ++ [0xFFFFF], valoffset := mv.map (·.2) ++ [0],
             lookup := lk, vals := t.vals }
    else none

end Verif.Huff
