import Verif.Ppm.Model
/-
Model of the colour-map reader of `djpeg -map` (rdcolmap.c).

The file is compiled for 8, 12 and 16 bits per sample; `sh` is BITS_IN_JSAMPLE - 8. An input file is the list of its bytes. Colours are triples
(red, green, blue). The colour map is the list of the entries filled in so far; the arrays behind it have 2 ^ (8 + sh) entries (rdcolmap.c:242-244),
and storing beyond them is a `fault`.
-/
namespace Verif.MapFile

open Ppm

abbrev Col := Nat × Nat × Nat

/-- Entries allocated, _MAXJSAMPLE + 1 (rdcolmap.c:242-244). -/
def room (sh : Nat) : Nat := 2 ^ (8 + sh)

/-- The conversion `(_JSAMPLE)R` (rdcolmap.c:71-73): the low bits are kept. -/
def trunc (sh : Nat) (c : Col) : Col := (c.1 % 2 ^ (8 + sh), c.2.1 % 2 ^ (8 + sh), c.2.2 % 2 ^ (8 + sh))

/-- `add_map_entry` (rdcolmap.c:51-75). The new colour is compared as it is and stored truncated. In C a value from 2^31 on becomes a negative
`int`; that equals no stored sample either, and has the same low bits. -/
def add (sh : Nat) (m : List Col) (c : Col) : R (List Col) :=
  if m.any (fun x => x.1 = c.1 && x.2.1 = c.2.1 && x.2.2 = c.2.2) then .ok m
  else if m.length ≥ 2 ^ (8 + sh) then .error .exit
  else if m.length < room sh then .ok (m ++ [trunc sh c]) else .error .fault

/-- Three `getc`, and the test for EOF (rdcolmap.c:106-110, 209-213). -/
def raw3 : List Nat → R (Col × List Nat)
  | r :: g :: b :: s => .ok ((r, g, b), s)
  | _ => .error .exit

/-- `read_pbm_integer` (rdcolmap.c:142-167). It differs from the one of rdppm.c in that it has no largest value; `unsigned int` wraps around, so that
the limit 2^32 - 1 never applies. -/
def int (s : List Nat) : R (Nat × List Nat) := readInt (2 ^ 32 - 1) s

/-- Three samples of a text file (rdcolmap.c:197-199). -/
def text3 (s : List Nat) : R (Col × List Nat) := do
  let (r, s) ← int s
  let (g, s) ← int s
  let (b, s) ← int s
  .ok ((r, g, b), s)

/-- The loops over the colours (rdcolmap.c:105-115, 195-202, 207-216): `read` gives the next colour, `scale` is the shift. The loops over rows and
columns of a PPM file are one loop here. -/
def loop (sh : Nat) (read : List Nat → R (Col × List Nat)) (scale : Col → Col) : Nat → List Nat → List Col → R (List Col)
  | 0, _, m => .ok m
  | n + 1, s, m => do
    let (c, s) ← read s
    let m ← add sh m (scale c)
    loop sh read scale n s m

/-- The shift of GIF colours (rdcolmap.c:111-114). -/
def shift (sh : Nat) (c : Col) : Col := (c.1 * 2 ^ sh, c.2.1 * 2 ^ sh, c.2.2 * 2 ^ sh)

/-- `read_gif_map` (rdcolmap.c:83-116), after the `G`. -/
def gifMap (sh : Nat) (s : List Nat) : R (List Col) := do
  match s with
  | h1 :: h2 :: _ :: _ :: _ :: _ :: _ :: _ :: _ :: h10 :: _ :: _ :: s =>
    if h1 ≠ 73 ∨ h2 ≠ 70 then .error .exit
    else if h10 &&& 128 = 0 then .error .exit
    else loop sh raw3 (shift sh) (2 <<< (h10 &&& 7)) s []
  | _ => .error .exit

/-- `read_ppm_map` (rdcolmap.c:175-225), after the `P`. `getc` may return EOF for the format character; then the next read fails. -/
def ppmMap (sh : Nat) (s : List Nat) : R (List Col) := do
  match s with
  | [] => .error .exit
  | c :: s =>
    let (w, s) ← int s
    let (h, s) ← int s
    let (maxval, s) ← int s
    if w = 0 ∨ h = 0 ∨ maxval = 0 then .error .exit
    else if maxval ≠ 2 ^ (8 + sh) - 1 then .error .exit
    else if c = 51 then loop sh text3 id (h * w) s []
    else if c = 54 then loop sh raw3 id (h * w) s []
    else .error .exit

/-- `_read_color_map` (rdcolmap.c:235-258). -/
def read (sh : Nat) (s : List Nat) : R (List Col) :=
  match s with
  | 71 :: s => gifMap sh s
  | 80 :: s => ppmMap sh s
  | _ => .error .exit

end Verif.MapFile
