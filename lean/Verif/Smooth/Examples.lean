import Verif.Smooth.Props
/-
Concrete cases for C58.
-/
namespace Verif.Smooth
open Spec

/-- A greyscale file: all DC coefficients, then AC coefficients 1..5 without their two lowest bits. -/
def exScans : List Scan := [⟨[0], 0, 0, 0⟩, ⟨[0], 1, 5, 2⟩]

theorem exScans_ok : ∀ s ∈ exScans, OkScan s := by
  intro s hs
  simp only [exScans, List.mem_cons, List.not_mem_nil, or_false] at hs
  rcases hs with rfl | rfl <;> constructor <;> simp

/-- Three rows of four blocks in iMCU rows of two block rows, with a step of the DC value in the middle. -/
def exComp : Comp where
  h := 2
  v := 2
  height := 3
  width := 4
  first := 0
  last := 3
  blk := fun _ x p => if p = 0 then (if x < 2 then 0 else 40) else if p = 8 then 5 else 0
  q := fun _ => 4

theorem exComp_wf : WF exComp 2 32768 65535 where
  h := by decide
  v := by decide
  height := by decide
  T := by decide
  first := by decide
  last := by decide
  dc := by
    intro r x
    simp only [exComp, if_true]
    split <;> decide
  q := by intro p _; simp [exComp]

theorem ex_bd : Bd (2 ^ 63 - 1) 32768 65535 := ⟨by decide, by decide, by decide⟩

/-- 32-bit `long` is enough for baseline tables and DC values. -/
theorem ex_bd32 : Bd (2 ^ 31 - 1) 2048 255 := ⟨by decide, by decide, by decide⟩

theorem exLatch : (smoothingOk true (some (scans 1 exScans (bits0 fun _ _ => 77))) 1 exScans.length (fun _ => some exComp.q)).isSome = true := by
  decide +kernel

/-- The hypotheses of `C58_correct` are met, in both iMCU rows, the second one beyond the last good row. -/
example : ∃ l, smoothingOk true (some (scans 1 exScans (bits0 fun _ _ => 77))) 1 exScans.length (fun _ => some exComp.q) = some l ∧
    smoothComp (2 ^ 63 - 1) l 0 0 exComp 2 0 = some (Spec.comp (status exScans true 0) exComp 2 0) ∧
    smoothComp (2 ^ 63 - 1) l 0 0 exComp 2 1 = some (Spec.comp (status exScans false 0) exComp 2 1) := by
  obtain ⟨l, hl⟩ := Option.isSome_iff_exists.1 exLatch
  exact ⟨l, hl,
    C58_correct exScans exScans_ok _ 1 (fun _ => exComp) l hl 0 (by decide) 2 _ _ _ ex_bd exComp_wf 0 0 (by decide),
    C58_correct exScans exScans_ok _ 1 (fun _ => exComp) l hl 0 (by decide) 2 _ _ _ ex_bd exComp_wf 0 1 (by decide)⟩

/-- In the first iMCU row the AC01 estimate next to the step is -3, limited by the two bits that are still missing (without
limit it is -7), AC02 is 2, and AC10, which is 5, is kept. -/
example : (Spec.comp (status exScans true 0) exComp 2 0).map (fun r => r.map fun b => [b 0, b 1, b 2, b 8, b 16]) =
    [[[0, 1, 0, 5, 0], [0, -3, 2, 5, 0], [40, -3, -2, 5, 0], [40, 1, 0, 5, 0]],
     [[0, 1, 0, 5, 0], [0, -3, 2, 5, 0], [40, -3, -2, 5, 0], [40, 1, 0, 5, 0]]] := by decide +kernel

/-- No smoothing once everything has arrived. -/
example : smoothingOk true (some (scans 1 [⟨[0], 0, 0, 0⟩, ⟨[0], 1, 63, 0⟩] (bits0 fun _ _ => 77))) 1 2 (fun _ => some exComp.q) = none := by
  refine C58_exact _ _ _ _ _ _ ?_
  intro ci hci k h1 h9
  obtain rfl : ci = 0 := by omega
  interval_cases k <;> decide +kernel

/-- `C58_no_wrap`, `block_consistent` and `block_flat` on that component. -/
example : (exComp.q 0 : Int) * |exComp.blk 0 3 0| ≤ 16384 := by decide +kernel
example : 0 < status exScans true 0 1 ∧ status exScans true 0 1 ≤ 13 ∧ exComp.blk 0 1 (zig.getD 1 0) = 0 := by decide +kernel

/-! ## Peculiarities -/

/-- Luminance has been received completely; the chrominance scan after it broke off. In the rows it did not reach, luminance
is nevertheless treated as if nothing were known of it: exact zeros are replaced by estimates. -/
def brokenScans : List Scan := [⟨[0, 1, 2], 0, 0, 0⟩, ⟨[0], 1, 63, 0⟩, ⟨[1], 1, 63, 0⟩]
example : known brokenScans 0 1 = 0 ∧ status brokenScans false 0 1 = -1 := by decide +kernel

/-- Rows of the window: with two iMCU rows of two and one block rows, row 1 looks at row 3, which is padding, and row 2 looks
at row 1 twice rather than at rows 0 and 1. -/
example : winRow exComp 2 0 1 = ![0, 0, 1, 2, 3] ∧ exComp.height = 3 ∧ winRow exComp 2 1 2 = ![1, 1, 2, 2, 2] := by decide +kernel

/-- The left edge of the output region is treated as the left edge of the image, the right edge is not. -/
example : winCol { exComp with first := 1, last := 2 } 1 0 = 1 ∧ winCol { exComp with first := 1, last := 2 } 2 3 = 3 := by decide +kernel

/-- An estimate that does not fit into 16 bits is reduced: a DC step of 2000 to 0 with quantization values 255 and 1. -/
example : wrap (roundAway (255 * conv a01 (fun _ j => if j < 2 then 2000 else 0)) (256 * 1)) = 20128 := by decide +kernel

end Verif.Smooth
