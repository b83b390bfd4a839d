import Verif.Tga.Trip
/-
C66: reading and writing Targa files.
-/
namespace Verif.Tga

open Verif.Gif (R)

/-- Only what can be compared. -/
def shown : R (Src × List (List Nat)) → Option (Nat × Nat × List (List Nat))
  | .ok (s, l) => some (s.w, s.h, l)
  | .error _ => none

/-- A description: 2 x 3 pixels of 24 bits, run-length coded, bottom row first. -/
def demo : Desc :=
  { w := 2, h := 3, kind := .bits24, rle := true, topDown := false, size := 3, map := [], mapBits := 0, id := [9, 9], x0 := 1, x1 := 2,
    y0 := 3, y1 := 4, attr := 8 }

/-- `load_content` is not vacuous: a valid description... -/
example : demo.Valid := ⟨by decide, by decide, Or.inl rfl, ⟨by decide, by decide⟩, by decide, by decide⟩

/-- ... and data: a run of three pixels, which crosses a row, two pixels, and a run that goes on after the image. -/
example : Data true 3 [[1, 2, 3], [1, 2, 3], [1, 2, 3], [4, 5, 6], [7, 8, 9], [0, 0, 1]] [130, 1, 2, 3, 1, 4, 5, 6, 7, 8, 9, 133, 0, 0, 1, 77] :=
  ⟨[.run 3 [1, 2, 3], .pixels [[4, 5, 6], [7, 8, 9]], .run 6 [0, 0, 1]], List.replicate 5 [0, 0, 1], [77], by
    intro q hq
    simp only [List.mem_cons, List.not_mem_nil, or_false] at hq
    rcases hq with r | r | r <;> subst r <;> simp [Packet.Valid], by decide, by decide⟩

example : shown (load 0 (demo.bytes ++ [130, 1, 2, 3, 1, 4, 5, 6, 7, 8, 9, 133, 0, 0, 1, 77])) =
    some (2, 3, [[9, 8, 7, 1, 0, 0], [3, 2, 1, 6, 5, 4], [3, 2, 1, 3, 2, 1]]) := by decide +kernel

/-- The limit on pixels. -/
example : shown (load 5 (demo.bytes ++ [130, 1, 2, 3, 1, 4, 5, 6, 7, 8, 9, 133, 0, 0, 1, 77])) = none := by decide +kernel

/-- 15-bit pixels, declared as such. -/
example : shown (load 0 [0, 0, 2, 0, 0, 0, 0, 0, 0, 0, 0, 0, 1, 0, 1, 0, 15, 32, 31 + 32 * 3, 4]) = some (1, 1, [[8, 25, 255]]) := by decide +kernel

/-- An index outside the colour map is an error. -/
example : shown (load 0 [0, 1, 1, 0, 0, 1, 0, 24, 0, 0, 0, 0, 1, 0, 1, 0, 8, 32, 5, 6, 7, 1]) = none := by decide +kernel

/-- `tga_round_trip` is not vacuous. -/
example : (Image.mapped [(1, 2, 3), (4, 5, 6)] [[0, 1, 1], [1, 0, 0]]).Valid 3 2 := by
  refine ⟨by decide, rfl, ?_⟩
  decide

example : (write 3 2 (.mapped [(1, 2, 3), (4, 5, 6)] [[0, 1, 1], [1, 0, 0]])).toOption =
    some [0, 1, 1, 0, 0, 2, 0, 24, 0, 0, 0, 0, 3, 0, 2, 0, 8, 32, 3, 2, 1, 6, 5, 4, 0, 1, 1, 1, 0, 0] := by decide +kernel

example : (write 2 1 (.grayMapped [7, 200] [[1, 0]]) >>= fun s => pure (shown (load 0 s))).toOption = some (some (2, 1, [[200, 7]])) := by decide +kernel

end Verif.Tga
