import Verif.Gif.Write
/-
Model of the GIF writer of djpeg (wrgif.c): the header and the whole file.
-/
namespace Verif.Gif

/-- The colour map that `emit_header` is given (wrgif.c:253, 337-345): `actual_number_of_colors` entries of three samples when the output is RGB, of
one when it is grayscale, or none, and then 256 colours. -/
inductive Palette where
  | rgb (l : List (Nat × Nat × Nat))
  | gray (l : List Nat)
  | ramp

/-- `num_colors` (wrgif.c:340-344). -/
def Palette.num : Palette → Nat
  | .rgb l => l.length
  | .gray l => l.length
  | .ramp => 256

/-- The loop that computes `BitsPerPixel` (wrgif.c:263-264). -/
def bitsPer (n b : Nat) : Nat := if n > 2 ^ b then bitsPer n (b + 1) else b
termination_by n - 2 ^ b
decreasing_by
  have : 2 ^ (b + 1) = 2 * 2 ^ b := by rw [Nat.pow_succ, Nat.mul_comm]
  have := Nat.two_pow_pos b
  omega

/-- `putc`: one byte. -/
def putc (v : Nat) : List Nat := [v % 256]

/-- `put_word` (wrgif.c:233-239). -/
def putWord (v : Nat) : List Nat := putc (v &&& 255) ++ putc ((v >>> 8) &&& 255)

/-- `put_3bytes` (wrgif.c:242-249). -/
def put3 (v : Nat) : List Nat := putc v ++ (putc v ++ putc v)

/-- Entry `i < num_colors` of the colour map (wrgif.c:297-311). `cs` is `cshift`, 0 or 4. -/
def Palette.entry (cs i : Nat) : Palette → R (List Nat)
  | .rgb l => match l[i]? with
    | some (r, g, b) => .ok (putc (r >>> cs) ++ (putc (g >>> cs) ++ putc (b >>> cs)))
    | none => .error .fault
  | .gray l => match l[i]? with
    | some v => .ok (put3 (v >>> cs))
    | none => .error .fault
  | .ramp => .ok (put3 ((i * 255 + (256 - 1) / 2) / (256 - 1)))

/-- The loop that writes the colour map, `k` entries from `i` on (wrgif.c:295-316). `_CENTERJSAMPLE` is `2 ^ (cs + 7)`. -/
def mapLoop (cs : Nat) (p : Palette) : Nat → Nat → R (List Nat)
  | 0, _ => .ok []
  | k + 1, i => do
    let a ← (if i < p.num then p.entry cs i else pure (put3 (2 ^ (cs + 7) >>> cs)) : R (List Nat))
    let l ← mapLoop cs p k (i + 1)
    pure (a ++ l)

/-- `emit_header` (wrgif.c:252-328): the header and `InitCodeSize`. -/
def emitHeader (cs w h : Nat) (p : Palette) : R (List Nat × Nat) :=
  if p.num > 256 then .error .exit
  else do
    let bpp := bitsPer p.num 1
    let ics := if bpp ≤ 1 then 2 else bpp
    let map ← mapLoop cs p (1 <<< bpp) 0
    pure ([71, 73, 70, 56, 55, 97] ++ (putWord w ++ (putWord h ++ (putc (128 ||| (bpp - 1) <<< 4 ||| (bpp - 1)) ++ ([0, 0] ++ (map ++ (44 ::
      (putWord 0 ++ (putWord 0 ++ (putWord w ++ (putWord h ++ (putc 0 ++ putc ics))))))))))), ics)

/-- A whole file (wrgif.c:337-345, 355-435, 460-515): header, data, terminator. The rows come one by one; the state of the compressor goes from row to
row. -/
def writeGif (compress : Bool) (hval : List Nat) (cs w h : Nat) (p : Palette) (rows : List (List Nat)) : R (List Nat) := do
  let (hd, ics) ← emitHeader cs w h p
  let data ← (if compress then lzwData ics hval rows.flatten else pure (rawData ics rows.flatten) : R (List Nat))
  pure (hd ++ (data ++ [59]))

end Verif.Gif
