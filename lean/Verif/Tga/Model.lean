import Verif.Gif.Model
/-
Model of the Targa reader of cjpeg (rdtarga.c) and the Targa writer of djpeg (wrtarga.c).

A file is the list of its bytes; `Err.exit` is ERREXIT; `Err.fault` is an access outside an array. `byte`, `bytes`, `at?` and `word` are as for GIF
files: `byte` is `read_byte` (rdtarga.c:82-92), `bytes n` is `n` calls of it, or `ReadOK`.
-/
namespace Verif.Tga

open Verif.Gif (Err R byte bytes at? word)

/-- Which `get_*_row` is used. -/
inductive Kind where
  | gray | mapped | bits16 | bits24
deriving DecidableEq, Repr

/-- The state of reading pixels (rdtarga.c:46-68) and the rest of the file. `px` is `tga_pixel`, of which only the first `pixel_size` bytes are used. -/
structure St where
  file : List Nat
  px : List Nat
  block : Nat
  dup : Nat

/-- `read_non_rle_pixel` (rdtarga.c:116-126). -/
def readPlain (size : Nat) (st : St) : R St := do
  let (p, f) ← bytes size st.file
  pure { st with px := p, file := f }

/-- `read_rle_pixel` (rdtarga.c:129-156). `block_count` is below 0 only between its decrement and the next block header; here it is never below 0. -/
def readRle (size : Nat) (st : St) : R St :=
  if st.dup > 0 then .ok { st with dup := st.dup - 1 }
  else do
    let st ← (if st.block = 0 then do
        let (i, f) ← byte st.file
        if i / 128 % 2 = 1 then pure { st with file := f, dup := i % 128, block := 0 } else pure { st with file := f, block := i % 128 }
      else pure { st with block := st.block - 1 } : R St)
    let (p, f) ← bytes size st.file
    pure { st with px := p, file := f }

/-- `c5to8bits` (rdtarga.c:73-78). -/
def c5 : List Nat := [0, 8, 16, 25, 33, 41, 49, 58, 66, 74, 82, 90, 99, 107, 115, 123, 132, 140, 148, 156, 165, 173, 181, 189,
  197, 206, 214, 222, 230, 239, 247, 255]

/-- One pixel of `get_8bit_gray_row`, `get_8bit_row`, `get_16bit_row`, `get_24bit_row` (rdtarga.c:165-258): samples in the order of the row. -/
def pixel (k : Kind) (map : List (Nat × Nat × Nat)) (px : List Nat) : R (List Nat) := match k with
  | .gray => do
    let v ← at? px 0
    pure [v]
  | .mapped => do
    let t ← at? px 0
    if t ≥ map.length then .error .exit
    else match map[t]? with
      | some (r, g, b) => pure [r, g, b]
      | none => .error .fault
  | .bits16 => do
    let lo ← at? px 0
    let hi ← at? px 1
    let t := lo + hi * 256
    let b ← at? c5 (t % 32)
    let g ← at? c5 (t / 32 % 32)
    let r ← at? c5 (t / 32 / 32 % 32)
    pure [r, g, b]
  | .bits24 => do
    let r ← at? px 2
    let g ← at? px 1
    let b ← at? px 0
    pure [r, g, b]

/-- What `start_input_tga` sets up. -/
structure Src where
  w : Nat
  h : Nat
  kind : Kind
  rle : Bool
  bottomUp : Bool
  size : Nat
  map : List (Nat × Nat × Nat)
  file : List Nat

/-- A row of `n` pixels (the loops over `col`, rdtarga.c:165-258). -/
def row (src : Src) : Nat → St → R (List Nat × St)
  | 0, st => .ok ([], st)
  | n + 1, st => do
    let st ← (if src.rle then readRle src.size st else readPlain src.size st)
    let p ← pixel src.kind src.map st.px
    let (l, st) ← row src n st
    pure (p ++ l, st)

/-- `n` rows in the order of the file. -/
def rows (src : Src) : Nat → St → R (List (List Nat) × St)
  | 0, st => .ok ([], st)
  | n + 1, st => do
    let (r, st) ← row src src.w st
    let (l, st) ← rows src n st
    pure (r :: l, st)

/-- `get_memory_row` (rdtarga.c:268-286), `n` times from `current_row` `i` on. -/
def memory (stored : List (List Nat)) (h : Nat) : Nat → Nat → R (List (List Nat))
  | 0, _ => .ok []
  | n + 1, i => match stored[h - i - 1]? with
    | some r => do
      let l ← memory stored h n (i + 1)
      pure (r :: l)
    | none => .error .fault

/-- `read_colormap` (rdtarga.c:95-110). -/
def readMap : Nat → List Nat → R (List (Nat × Nat × Nat) × List Nat)
  | 0, s => .ok ([], s)
  | n + 1, s => do
    let (b, s) ← byte s
    let (g, s) ← byte s
    let (r, s) ← byte s
    let (l, s) ← readMap n s
    pure ((r, g, b) :: l, s)

/-- The choice by `subtype` (rdtarga.c:389-436). -/
def kindOf (subtype size cmaptype : Nat) : R Kind :=
  if subtype = 1 then (if size = 1 ∧ cmaptype = 1 then .ok .mapped else .error .exit)
  else if subtype = 2 then
    (if size = 2 then .ok .bits16 else if size = 3 then .ok .bits24 else if size = 4 then .ok .bits24 else .error .exit)
  else if subtype = 3 then (if size = 1 then .ok .gray else .error .exit)
  else .error .exit

/-- `start_input_tga` (rdtarga.c:328-468). -/
def start (maxPixels : Nat) (s : List Nat) : R Src := do
  let (h, s) ← bytes 18 s
  let depth := if h.getD 16 0 = 15 then 16 else h.getD 16 0
  let maplen := word h 5
  let w := word h 12
  let ht := word h 14
  let size := depth / 8
  let flags := h.getD 17 0
  if h.getD 1 0 > 1 ∨ size < 1 ∨ size > 4 ∨ depth % 8 ≠ 0 ∨ flags / 64 ≠ 0 ∨ w = 0 ∨ ht = 0 then .error .exit
  else if maxPixels ≠ 0 ∧ w * ht > maxPixels then .error .exit
  else do
    let rle := decide (h.getD 2 0 > 8)
    let kind ← kindOf (if h.getD 2 0 > 8 then h.getD 2 0 - 8 else h.getD 2 0) size (h.getD 1 0)
    let (_, s) ← bytes (h.getD 0 0) s
    let (map, s) ← (if maplen > 0 then
        (if maplen > 256 ∨ word h 3 ≠ 0 ∨ h.getD 7 0 ≠ 24 then .error .exit else readMap maplen s)
      else if h.getD 1 0 ≠ 0 then .error .exit else .ok ([], s) : R (List (Nat × Nat × Nat) × List Nat))
    pure { w := w, h := ht, kind := kind, rle := rle, bottomUp := decide (flags / 32 % 2 = 0), size := size, map := map, file := s }

/-- A whole file: the source and the rows as cjpeg gets them (rdtarga.c:295-321, 432-448). -/
def load (maxPixels : Nat) (s : List Nat) : R (Src × List (List Nat)) := do
  let src ← start maxPixels s
  let (l, _) ← rows src src.h { file := src.file, px := List.replicate src.size 0, block := 0, dup := 0 }
  let l ← (if src.bottomUp then memory l src.h src.h 0 else pure l)
  pure (src, l)

/-! ## The writer -/

/-- `write_header` (wrtarga.c:47-84). Assignments to `char` keep the low 8 bits. -/
def header (gray : Bool) (colors w h : Nat) : List Nat :=
  let mapped := decide (colors > 0)
  [0, if mapped then 1 else 0, if gray then 3 else if mapped then 1 else 2, 0, 0, if mapped then colors % 256 else 0,
   if mapped then colors / 256 % 256 else 0, if mapped then 24 else 0, 0, 0, 0, 0, w % 256, w / 256 % 256, h % 256, h / 256 % 256,
   if gray then 8 else if mapped then 8 else 24, 32]

/-- What is written. -/
inductive Image where
  /-- RGB, not quantized: pixels. -/
  | rgb (rows : List (List (Nat × Nat × Nat)))
  /-- RGB with a colour map: the map and indexes. -/
  | mapped (map : List (Nat × Nat × Nat)) (rows : List (List Nat))
  /-- Grayscale, not quantized. -/
  | gray (rows : List (List Nat))
  /-- Grayscale with a "colour map". -/
  | grayMapped (map : List Nat) (rows : List (List Nat))

/-- A row of `put_demapped_gray` (wrtarga.c:134-150). -/
def demap (map : List Nat) : List Nat → R (List Nat)
  | [] => .ok []
  | c :: l => do
    let v ← at? map c
    let r ← demap map l
    pure (v :: r)

/-- All rows of `put_demapped_gray`. -/
def demapRows (map : List Nat) : List (List Nat) → R (List Nat)
  | [] => .ok []
  | x :: l => do
    let r ← demap map x
    let t ← demapRows map l
    pure (r ++ t)

/-- `start_output_tga` and the rows (wrtarga.c:92-126, 157-194): the file. -/
def write (w h : Nat) : Image → R (List Nat)
  | .rgb rows => .ok (header false 0 w h ++ rows.flatMap fun row => row.flatMap fun x => [x.2.2, x.2.1, x.1])
  | .mapped map rows => if map.length > 256 then .error .exit
    else .ok (header false map.length w h ++ ((map.flatMap fun x => [x.2.2, x.2.1, x.1]) ++ rows.flatten))
  | .gray rows => .ok (header true 0 w h ++ rows.flatten)
  | .grayMapped map rows => do
    let d ← demapRows map rows
    pure (header true 0 w h ++ d)

end Verif.Tga
