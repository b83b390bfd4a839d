import Verif.Gif.Whole
/-
C62, C63, C64, C65: reading and writing GIF files.
-/
namespace Verif.Gif

/-- An interlaced image of 3 x 5 pixels and four colours, whose code size grows, in two blocks. -/
def demo : List Nat :=
  [71, 73, 70, 56, 57, 97, 3, 0, 5, 0, 129, 0, 0, 0, 0, 0, 255, 0, 0, 0, 255, 0, 9, 8, 7, 33, 249, 2, 1, 2, 0, 44, 0, 0, 0, 0, 3, 0, 5, 0, 64,
   2, 3, 140, 47, 51, 3, 38, 96, 5, 0, 59]

/-- Only what can be compared. -/
def shown : R (Src × List (List Nat)) → Option (Nat × Nat × Bool × Bool × List (List Nat))
  | .ok (s, l) => some (s.w, s.h, s.gray, s.interlaced, l)
  | .error _ => none

/-- `load_safe` and `load_rows` are not vacuous: the demo file is read, whatever memory held. -/
example : shown (load 1 0 (fun _ => 77) demo) = some (3, 5, false, true,
    [[255, 0, 0, 255, 0, 0, 255, 0, 0], [255, 0, 0, 255, 0, 0, 0, 255, 0], [0, 255, 0, 9, 8, 7, 9, 8, 7], [0, 0, 0, 255, 0, 0, 255, 0, 0],
     [255, 0, 0, 255, 0, 0, 255, 0, 0]]) := by decide +kernel

/-- The limit on pixels. -/
example : shown (load 1 14 (fun _ => 77) demo) = none := by decide +kernel

/-- A truncated file is an error. -/
example : shown (load 1 0 (fun _ => 77) (demo.take 46)) = none := by decide +kernel

example : interlacedOrder 10 = [0, 8, 4, 2, 6, 1, 3, 5, 7, 9] := by decide

/-! ## LZW -/

/-- What `start` leaves to be decoded. -/
def data : R Src → Option (Nat × Nat × Nat × List Nat)
  | .ok s => some (s.w, s.h, s.lzw.ics, s.lzw.bits.file)
  | .error _ => none

/-- `load_pixels` is not vacuous: the demo file meets its hypotheses... -/
example : data (start 1 0 (fun _ => 77) demo) = some (3, 5, 2, [3, 140, 47, 51, 3, 38, 96, 5, 0, 59]) := by decide +kernel

example : Payload [3, 140, 47, 51, 3, 38, 96, 5, 0, 59] [140, 47, 51, 38, 96, 5] :=
  Payload.cons [140, 47, 51] [3, 38, 96, 5, 0, 59] [38, 96, 5] (by decide)
    (Payload.cons [38, 96, 5] [0, 59] [] (by decide) (Payload.nil [59]))

/-- ... with codes Clear, 1, 6 (defined by itself), 0, 6, 1, ... -/
example : strings 2 100 (val [140, 47, 51, 38, 96, 5]) 48 [] none = [1, 1, 1, 1, 1, 1, 2, 3, 3, 1, 1, 2, 0, 1, 1] := by decide +kernel

/-- Each code width. -/
example : [width 6, width 7, width 8, width 15, width 16, width 2047, width 2048, width 4095, width 4096] = [3, 3, 4, 4, 5, 11, 12, 12, 12] := by decide

/-- A Clear in the middle, and the text ends at End. -/
example : strings 2 100 (4 + 8 * (1 + 8 * (6 + 8 * (4 + 8 * (2 + 8 * (5 + 8 * 3)))))) 100 [] none = [1, 1, 1, 2] := by decide +kernel

/-- A code that is not defined ends the text of the specification; the reader goes on (with a warning). -/
example : strings 2 100 (4 + 8 * (1 + 8 * 7)) 9 [] none = [1] := by decide +kernel

/-! ## Writing -/

/-- `lzwData_spec` is not vacuous: the data of the demo file, with a code that is its own definition. -/
example : lzwData 2 ((List.range 5003).map (· * 7)) [1, 1, 1, 1, 1, 1, 2, 3, 3, 1, 1, 2, 0, 1, 1] = .ok [6, 140, 47, 51, 38, 96, 5, 0] := by
  decide +kernel

/-- `rawData_spec` likewise. -/
example : rawData 2 [1, 1, 1, 1, 1, 1, 2, 3, 3, 1, 1, 2, 0, 1, 1] = [9, 76, 152, 48, 161, 198, 133, 17, 17, 166, 0] := by decide +kernel

/-! ## Whole files -/

/-- `gif_round_trip` is not vacuous: three colours of 12 bits, 3 x 2 pixels, compressed... -/
example : (writeGif true (List.replicate 5003 9) 4 3 2 (.rgb [(4095, 16, 0), (0, 0, 0), (17, 18, 4000)]) [[0, 1, 2], [2, 2, 2]]).toOption =
    some [71, 73, 70, 56, 55, 97, 3, 0, 2, 0, 145, 0, 0, 255, 1, 0, 0, 0, 0, 1, 1, 250, 128, 128, 128, 44, 0, 0, 0, 0, 3, 0, 2, 0, 0, 2, 3,
      68, 132, 82, 0, 59] := by decide +kernel

/-- ... and gray without a colour map, not compressed. -/
example : shown (writeGif false [] 0 2 1 .ramp [[7, 200]] >>= load 1 0 (fun _ => 5)) = some (2, 1, true, false, [[7, 200]]) := by decide +kernel

example : (Palette.rgb [(4095, 16, 0), (0, 0, 0), (17, 18, 4000)]).Fits 4 := by
  simp [Palette.Fits]

/-- Wider images (possible: a JPEG of 65500 columns scaled by 2) get a header with the low 16 bits of the width. -/
example : ((emitHeader 0 131000 1 (.gray [0, 255])).toOption.map fun x => x.1.take 10) = some [71, 73, 70, 56, 55, 97, 184, 255, 1, 0] := by decide +kernel

end Verif.Gif
