import Verif.Mark.RoundTab
/-
C10, C41: a concrete image meets the hypotheses; the merged DHT goes wrong when components share a DC table but not an AC
table.
-/
namespace Verif.Mark
open Verif
open Verif.Huff (natOrder HuffTbl)

def exQ : Nat → Option (List Nat) := fun n => if n = 0 then some (List.replicate 64 17) else if n = 1 then some (List.replicate 64 99) else none
/-- A Huffman table with two codes of length 1 and 2, different for DC and AC. -/
def exH : Bool → Nat → Option HuffTbl := fun a n =>
  if n < 2 then some ⟨[1, 1, 0, 0, 0, 0, 0, 0, 0, 0, 0, 0, 0, 0, 0, 0], if a then [0, 1 + n * 16] else [3, 5 + n]⟩ else none

/-- A 3-component baseline image, 4:2:0, with restart interval 20. -/
def exC : CS :=
  { fastest := false, lossless := false, arith := false, prog := false, prec := 8, width := 227, height := 149,
    comps := [⟨1, 2, 2, 0, 0, 0⟩, ⟨2, 1, 1, 1, 1, 1⟩, ⟨3, 1, 1, 1, 1, 1⟩], q := exQ, qSent := fun _ => false, huff := exH,
    hSent := fun _ _ => false, dcL := fun _ => 0, dcU := fun _ => 1, acK := fun _ => 5, ri := 20, lastRi := 0 }

def exS : CScan := ⟨[0, 1, 2], 0, 63, 0, 0⟩

theorem exC_ok : exC.Ok := by
  refine ⟨by decide, by decide, by decide, by decide, ?_, by decide, ?_, ?_⟩
  · intro k hk
    simp only [exC, List.mem_cons, List.not_mem_nil, or_false] at hk
    rcases hk with rfl | rfl | rfl <;> exact ⟨by decide, by decide, by decide, by decide⟩
  · intro n v h
    simp only [exC, exQ] at h
    split at h
    · cases h; exact ⟨by simp, fun v hv => by rw [List.eq_of_mem_replicate hv]; decide⟩
    · split at h
      · cases h; exact ⟨by simp, fun v hv => by rw [List.eq_of_mem_replicate hv]; decide⟩
      · cases h
  · intro a n t h
    simp only [exC, exH] at h
    split at h
    · cases h
      refine ⟨rfl, ?_, by simp, ?_⟩
      · intro x hx; simp only [List.mem_cons, List.not_mem_nil, or_false] at hx; omega
      · intro x hx
        cases a <;> simp only [List.mem_cons, List.not_mem_nil, or_false, if_true, Bool.false_eq_true, if_false] at hx <;> omega
    · cases h

theorem exS_fits : ScanFits exC exS := by
  refine ⟨by decide, by decide, by decide, by decide, by decide, by decide⟩

theorem exT_fits : TblFits exC exS := by
  refine ⟨by decide, (fun h => by cases h), by decide, ?_, by decide⟩
  intro _ _ _ _ _
  simp [DhtGood, scanComps, exS, exC]

/-- Reading the concrete image: its header bytes are read back. -/
example : ∃ (b1 b2 bm : List Nat) (c1 c3 : CS), writeFrame (writeFile exC (some (1, 1, 1, 72, 72)) none).2 = some (b1, c1) ∧
    writeMarkers [(0xE1, [1, 2, 3]), (0xFE, [65])] = some bm ∧ writeScan c1 exS = some (b2, c3) ∧
    ∃ m', (∀ rest saved, readMarkers (fun c => if c = 0xFE then .save 100 else defaultProc c)
        (at_ (fun _ => 0) ((writeFile exC (some (1, 1, 1, 72, 72)) none).1 ++ bm ++ b1 ++ b2 ++ rest) saved) =
          .sos (at_ m' rest (saved ++ (savedHead (fun c => if c = 0xFE then .save 100 else defaultProc c) (some (1, 1, 1, 72, 72)) none ++
            [(0xE1, [1, 2, 3]), (0xFE, [65])].flatMap (fun x => savedOf (fun c => if c = 0xFE then .save 100 else defaultProc c) x.1 x.2))))) ∧
      FrameIs exC m' ∧ (exC.lossless = false → HasQuant exC m') ∧ m' .ri = 20 := by
  have hp : ProcStd (fun c => if c = 0xFE then .save 100 else defaultProc c) :=
    procStd_save (maxAlloc := 1000000) (code := 0xFE) (limit := 100) procStd_default (by simp [saveMarkers])
  cases e1 : writeFrame (writeFile exC (some (1, 1, 1, 72, 72)) none).2 with
  | none => exact absurd e1 (by decide +kernel)
  | some r1 =>
    obtain ⟨b1, c1⟩ := r1
    have hc1 : c1 = { exC with qSent := c1.qSent } := by
      have : (writeFrame (writeFile exC (some (1, 1, 1, 72, 72)) none).2) = some (b1, c1) := e1
      unfold writeFrame at this
      split at this
      · cases this
      · split at this
        · cases this
        · cases this; rfl
    cases e2 : writeScan c1 exS with
    | none =>
      exfalso
      rw [hc1] at e2
      unfold writeScan at e2
      rw [show scanTbl { exC with qSent := c1.qSent } exS = scanTbl exC exS from rfl] at e2
      have hsome : (scanTbl exC exS).isSome = true := by decide +kernel
      cases h : scanTbl exC exS with
      | none => rw [h] at hsome; cases hsome
      | some v => rw [h] at e2; cases e2
    | some r2 =>
      obtain ⟨b2, c3⟩ := r2
      cases e3 : writeMarkers [(0xE1, [1, 2, 3]), (0xFE, [65])] with
      | none => exact absurd e3 (by decide +kernel)
      | some bm =>
        refine ⟨b1, b2, bm, c1, c3, rfl, rfl, e2, ?_⟩
        have hr : Retable c1 c1 := ⟨rfl, fun _ _ h => ⟨h, rfl⟩, by rw [hc1]; exact exC_ok.h⟩
        have hs : ScanFits c1 exS := by rw [hc1]; exact ⟨exS_fits.len, exS_fits.incr, exS_fits.lt, exS_fits.ids, exS_fits.tbl, exS_fits.par⟩
        have ht : TblFits c1 exS := by
          rw [hc1]
          exact ⟨exT_fits.ri, (fun h => by cases h), exT_fits.num, exT_fits.dht, (fun h => by cases h)⟩
        obtain ⟨m', h1, h2, h3, -, -, -, h4, -, -⟩ := C10_image (fun c => if c = 0xFE then .save 100 else defaultProc c) hp exC (fun _ => 0) ⟨rfl, rfl, rfl, rfl⟩ exC_ok
          (by intro n h; cases h) (by intro a n h; cases h) (some (1, 1, 1, 72, 72)) (by rintro a b u x y h; cases h; decide) none (by intro t h; cases h)
          [(0xE1, [1, 2, 3]), (0xFE, [65])] (by
            intro x hx
            simp only [List.mem_cons, List.not_mem_nil, or_false] at hx
            rcases hx with rfl | rfl
            · refine ⟨⟨Or.inl (by decide), ?_⟩, by decide, by decide⟩
              intro y hy; simp only [List.mem_cons, List.not_mem_nil, or_false] at hy; omega
            · refine ⟨⟨Or.inr rfl, ?_⟩, by decide, by decide⟩
              intro y hy; simp only [List.mem_cons, List.not_mem_nil, or_false] at hy; omega)
          bm e3 b1 c1 e1 c1 hr exS hs ht b2 c3 e2
        exact ⟨m', h1, h2, h3, by rw [h4, hc1]; rfl⟩

/-- It is a baseline image, and its frame marker is SOF0. -/
example : Baseline exC := by
  refine ⟨rfl, rfl, rfl, rfl, by decide, ?_⟩
  intro k hk v hv x hx
  have : v = List.replicate 64 17 ∨ v = List.replicate 64 99 := by
    simp only [exC, exQ] at hv
    split at hv
    · cases hv; exact Or.inl rfl
    · split at hv
      · cases hv; exact Or.inr rfl
      · cases hv
  rcases this with rfl | rfl <;> rw [List.eq_of_mem_replicate hx] <;> decide

/-- Its tables alone can be written first (`C10_tables_only` applies to a fresh decoder). -/
example : ∃ m', ∀ rest saved, readMarkers defaultProc (at_ (fun _ => 0) ((writeTables exC).1 ++ rest) saved) = .eoi (at_ m' rest saved) := by
  obtain ⟨m', h, -⟩ := C10_tables_only defaultProc exC (fun _ => 0) ⟨rfl, rfl, rfl, rfl⟩ exC_ok.q exC_ok.h
    (by intro n h; cases h) (by intro a n h; cases h)
  exact ⟨m', h⟩

/-- As `exC`, with a DC table common to all components and two AC tables. -/
def badC : CS := { exC with comps := [⟨1, 2, 2, 0, 0, 0⟩, ⟨2, 1, 1, 1, 0, 1⟩, ⟨3, 1, 1, 1, 0, 1⟩] }

/-- The defect of emit_multi_dht: sharing a DC table between components with different AC tables makes the library write a
DHT segment whose length does not cover its last table (17 bytes: class, number and counts but no symbols), so that
the decoder resumes in the middle of it.  Hence the condition `DhtGood` in `TblFits`. -/
theorem C10_shared_dc_defect : ¬ DhtGood badC.hSent (scanComps badC exS) [] [] ∧
    ∃ b c', writeScan badC exS = some (b, c') ∧ b.take 4 = [0xFF, 0xC4, 0, 40] ∧ b.getD 4 0 = 0x00 ∧ b.getD 23 0 = 0x10 ∧
      b.getD 42 0 = 0x11 ∧ b.getD 59 0 = 0xFF ∧ b.getD 60 0 = 0xDD := by
  refine ⟨by simp [DhtGood, scanComps, exS, badC, exC], ?_⟩
  cases e : writeScan badC exS with
  | none => exact absurd e (by decide +kernel)
  | some r =>
    refine ⟨r.1, r.2, rfl, ?_⟩
    have h1 : ((writeScan badC exS).map (·.1)) = some r.1 := by rw [e]; rfl
    have h2 : ((((writeScan badC exS).map (·.1)).getD []).take 4 = [0xFF, 0xC4, 0, 40]) ∧
        ((((writeScan badC exS).map (·.1)).getD []).getD 4 0 = 0x00) ∧ ((((writeScan badC exS).map (·.1)).getD []).getD 23 0 = 0x10) ∧
        ((((writeScan badC exS).map (·.1)).getD []).getD 42 0 = 0x11) ∧ ((((writeScan badC exS).map (·.1)).getD []).getD 59 0 = 0xFF) ∧
        ((((writeScan badC exS).map (·.1)).getD []).getD 60 0 = 0xDD) := by decide +kernel
    rw [h1] at h2
    exact h2

end Verif.Mark
