import Verif.Post.Model
/-
jpeg_skip_scanlines (jdapistd.c:355-655) on top of the output path of `Post.Model`: not merged upsampling, no colour quantization, a source that does not suspend during the call (libjpeg.txt says suspending sources are not supported
here).  Skipping an iMCU row of a single-scan file (decode_mcu into a NULL block) and stepping output_iMCU_row of a buffered file both mean that the coefficient controller's next row is the one after it: `inRow` is advanced; skipping an
iMCU row that does not exist is an error (`none`).
-/
namespace Verif.Post
variable {R : Type}

/-- The loop of read_and_discard_scanlines (jdapistd.c:422-423). -/
def Cfg.discardN (k : Cfg R) (src : Nat → Nat → R) : Nat → St R → Option (St R)
  | 0, s => some s
  | n + 1, s => do
    let (_, s) ← k.read src 1 true s
    k.discardN src n s

/-- read_and_discard_scanlines (jdapistd.c:380-432): the colour converter is a no-op meanwhile, so nothing is added to what the application received. -/
def Cfg.discard (k : Cfg R) (src : Nat → Nat → R) (n : Nat) (s : St R) : Option (St R) := do
  let s' ← k.discardN src n s
  pure { s' with out := s.out }

/-- increment_simple_rowgroup_ctr (jdapistd.c:440-465), not merged. -/
def Cfg.incSimple (k : Cfg R) (src : Nat → Nat → R) (rows : Nat) (s : St R) : Option (St R) :=
  k.discard src (rows % k.maxV) { s with rowgroupCtr := s.rowgroupCtr + rows / k.maxV, outScan := s.outScan + (rows - rows % k.maxV) }

/-- lines_per_iMCU_row (jdapistd.c:515). -/
def Cfg.lpi (k : Cfg R) : Nat := k.M * k.maxV

/-- lines_left_in_iMCU_row (jdapistd.c:516-518). -/
def Cfg.linesLeft (k : Cfg R) (p : Nat) : Nat := (k.lpi - p % k.lpi) % k.lpi

/-- Skipping `q` whole iMCU rows (jdapistd.c:594-598, 604-605, 614-636). -/
def Cfg.skipRows (k : Cfg R) (q : Nat) (s : St R) : Option (St R) :=
  if s.inRow + q ≤ k.total then some { s with inRow := s.inRow + q, imcuCtr := if k.context then s.imcuCtr + q else s.imcuCtr, outScan := s.outScan + q * k.lpi } else none

/-- The reset of upsampler and main controller (jdapistd.c:549-559, 570-576). -/
def Cfg.skipReset (k : Cfg R) (s : St R) : St R :=
  { s with bufferFull := false, rowgroupCtr := 0, ctxState := if k.context then 0 else s.ctxState, nextRowOut := k.maxV, rowsToGo := k.H - s.outScan }

/-- The adjustment of the buffer pointers (jdapistd.c:549-552). -/
def Cfg.skipWrap (k : Cfg R) (left : Nat) (s : St R) : Option (Nat → CSt R) :=
  if s.imcuCtr = 0 ∨ (s.imcuCtr = 1 ∧ left > 2) then k.forC k.setWrap s.cs else some s.cs

/-- The end of both paths (jdapistd.c:642-650; 600, 606, 608-610). -/
def Cfg.skipEnd (k : Cfg R) (s : St R) : St R := { s with rowsToGo := k.H - s.outScan }

/-- With context rows (jdapistd.c:526-560, 581-583, 592, 600, 637-643). -/
def Cfg.skipCtx (k : Cfg R) (src : Nat → Nat → R) (n : Nat) (s : St R) : Option (St R) :=
  let left := k.linesLeft s.outScan
  let loaded := decide (left ≤ 1) && s.bufferFull
  if n < left + 1 ∨ (loaded = true ∧ n - left < k.lpi + 1) then k.discard src n s
  else do
    let step := if loaded then left + k.lpi else left
    let after := n - step
    let cs ← k.skipWrap left s
    let s ← k.skipRows ((after - 1) / k.lpi) (k.skipReset { s with cs, outScan := s.outScan + step })
    let s ← k.discard src (after - (after - 1) / k.lpi * k.lpi) s
    pure (k.skipEnd s)

/-- Without context rows (jdapistd.c:562-578, 584-586, 592, 606, 644-646). -/
def Cfg.skipSimple (k : Cfg R) (src : Nat → Nat → R) (n : Nat) (s : St R) : Option (St R) :=
  let left := k.linesLeft s.outScan
  if n < left then k.incSimple src n s
  else do
    let after := n - left
    let s ← k.skipRows (after / k.lpi) (k.skipReset { s with outScan := s.outScan + left })
    let s ← k.incSimple src (after - after / k.lpi * k.lpi) s
    pure (k.skipEnd s)

/-- jpeg_skip_scanlines (jdapistd.c:478-655) after the state checks: the number of lines skipped. -/
def Cfg.skip (k : Cfg R) (src : Nat → Nat → R) (n : Nat) (s : St R) : Option (Nat × St R) :=
  if s.outScan + n ≥ k.H then some (k.H - s.outScan, { s with outScan := k.H })
  else if n = 0 then some (0, s)
  else do
    let s ← if k.context then k.skipCtx src n s else k.skipSimple src n s
    pure (n, s)

/-- A call of the application: jpeg_read_scanlines with its buffer size and whether the source would suspend, or jpeg_skip_scanlines. -/
inductive Call where
  | read (max : Nat) (ok : Bool)
  | skip (n : Nat)

/-- A history of calls; every line received is recorded with the value output_scanline had for it. -/
def Cfg.calls (k : Cfg R) (src : Nat → Nat → R) : List Call → St R → Option (St R)
  | [], s => some s
  | .read max ok :: l, s => do
    let (_, s) ← k.read src max ok s
    k.calls src l s
  | .skip n :: l, s => do
    let (_, s) ← k.skip src n s
    k.calls src l s

end Verif.Post
