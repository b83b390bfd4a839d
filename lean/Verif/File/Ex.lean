import Verif.File.Props
import Verif.Huff.Props
/-
C56: concrete jobs that meet the hypotheses: an image of two components with progressive Huffman coding (optimized tables, restart markers),
sequential Huffman coding with the standard tables in two scans, and arithmetic coding of both modes.
-/
namespace Verif.File
open Verif Verif.Huff Verif.Mark
open Verif.Geom (Pos Blk Frame inImage cPerScan)
open Verif.Prog (compIdx exImg exFrame exScript)

def exQ : Nat → Option (List Nat) := fun n => if n < 2 then some ((List.range 64).map (· + 16 + n)) else none

def exC (arith : Bool) : CS :=
  { fastest := false, lossless := false, arith := arith, prog := false, prec := 8, width := 17, height := 9,
    comps := [⟨1, 2, 1, 0, 0, 0⟩, ⟨7, 1, 1, 1, 1, 1⟩], q := exQ, qSent := fun _ => true,
    huff := fun a n => if n < 2 then some (if a then stdAC else stdDC) else none,
    hSent := fun _ _ => true, dcL := fun _ => 0, dcU := fun _ => 1, acK := fun _ => 5, ri := 0, lastRi := 0 }

def exJob (arith optimize : Bool) (script : List Script.Scan) (rir : Nat) : Job :=
  { c := exC arith, script := script, rir := rir, optimize := optimize, trans := false, ic := 2, img := exImg,
    jfif := some (1, 1, 0, 1, 1), adobe := none, markers := [(0xE1, [1, 2, 3]), (0xFE, [65])] }

/-- Two scans, one component each. -/
def exSeq : List Script.Scan := [⟨[0], 0, 63, 0, 0⟩, ⟨[1], 0, 63, 0, 0⟩]

theorem std_all : CodesAll 8 stdDC stdAC := by
  have h1 : ∃ c, makeCTbl 15 stdDC = some c ∧ ∀ y < 12, (c y).2 ≠ 0 := by
    obtain ⟨c, hc⟩ := Option.isSome_iff_exists.1 (show (makeCTbl 15 stdDC).isSome = true by decide +kernel)
    have : ((makeCTbl 15 stdDC).map fun c => (List.range 12).all fun y => (c y).2 != 0) = some true := by decide +kernel
    rw [hc] at this
    simp at this
    exact ⟨c, hc, fun y hy => this y hy⟩
  have h2 : ∃ c, makeCTbl 255 stdAC = some c ∧ (c 0).2 ≠ 0 ∧ (c 0xF0).2 ≠ 0 ∧ ∀ r < 16, ∀ s < 10, (c (16 * r + (s + 1))).2 ≠ 0 := by
    obtain ⟨c, hc⟩ := Option.isSome_iff_exists.1 (show (makeCTbl 255 stdAC).isSome = true by decide +kernel)
    have : ((makeCTbl 255 stdAC).map fun c => (c 0).2 != 0 && (c 0xF0).2 != 0 &&
        (List.range 16).all fun r => (List.range 10).all fun s => (c (16 * r + (s + 1))).2 != 0) = some true := by decide +kernel
    rw [hc] at this
    simp only [Option.map_some, Option.some.injEq, Bool.and_eq_true, bne_iff_ne, ne_eq, List.all_eq_true, List.mem_range] at this
    exact ⟨c, hc, this.1.1, this.1.2, fun r hr s hs => this.2 r hr s hs⟩
  obtain ⟨c1, e1, p1⟩ := h1
  obtain ⟨c2, e2, p2, p3, p4⟩ := h2
  refine ⟨fun y hy => ⟨c1, e1, p1 y (by omega)⟩, ⟨c2, e2, p2⟩, ⟨c2, e2, p3⟩, ?_⟩
  intro r s hr h1 h2
  have := p4 r hr (s - 1) (by omega)
  rw [show s - 1 + 1 = s by omega] at this
  exact ⟨c2, e2, this⟩

theorem exC_comps {arith : Bool} {P : CComp → Prop} (h0 : P ⟨1, 2, 1, 0, 0, 0⟩) (h1 : P ⟨7, 1, 1, 1, 1, 1⟩) : ∀ k ∈ (exC arith).comps, P k := by
  intro k hk
  simp only [exC, List.mem_cons, List.not_mem_nil, or_false] at hk
  rcases hk with rfl | rfl
  · exact h0
  · exact h1

theorem exLegal {arith optimize : Bool} {script : List Script.Scan} {rir : Nat} {prog : Bool}
    (hm : (exJob arith optimize script rir).mode = some prog)
    (hb : ∀ s ∈ script, (cPerScan exFrame (compIdx s)).isOk = true)
    (hfew : (exJob arith optimize script rir).opt prog = true → ∀ s ∈ script, (match cPerScan exFrame (compIdx s) with
      | .error _ => false
      | .ok g => (gather (setRi rir g (start (exC arith) prog)) s g (mcusOf exFrame g exImg)).all (fun e => e.length < 1000)) = true) :
    LegalJob (exJob arith optimize script rir) prog exFrame := by
  refine ⟨hm, (by rfl : Geom.cInitialSetup false 17 9 2 8 [(2, 1), (1, 1)] = .ok exFrame), by show 8 ≤ 12; decide, by show 2 ≤ 4; decide, ?_, Prog.exImg_range, ?_, ?_, ?_, ?_, ?_, by show 0 < 65536; decide, ?_, ?_, ?_, ?_, ?_, ?_, ?_, ?_⟩
  · intro s hs
    have := hb s hs
    cases h : cPerScan exFrame (compIdx s) with
    | ok g => exact ⟨g, rfl⟩
    | error _ => rw [h] at this; cases this
  · exact exC_comps ⟨by decide, by decide, by decide, by decide⟩ ⟨by decide, by decide, by decide, by decide⟩
  · show (([⟨1, 2, 1, 0, 0, 0⟩, ⟨7, 1, 1, 1, 1, 1⟩] : List CComp).map (·.id)).Nodup
    decide
  · exact exC_comps rfl rfl
  · intro n v h
    have h : exQ n = some v := h
    unfold exQ at h
    split at h
    · cases h
      refine ⟨by simp, ?_⟩
      intro x hx
      obtain ⟨y, hy, rfl⟩ := List.mem_map.1 hx
      rw [List.mem_range] at hy
      omega
    · cases h
  · intro a n t h
    have h : (if n < 2 then some (if a then stdAC else stdDC) else none) = some t := h
    split at h
    · cases h
      have hd : HWf stdDC := ⟨by decide, by unfold IsBytes; decide, by decide, by unfold IsBytes; decide⟩
      have ha : HWf stdAC := ⟨by decide, by unfold IsBytes; decide, by decide, by unfold IsBytes; decide +kernel⟩
      cases a
      · exact hd
      · exact ha
    · cases h
  · intro _
    exact ⟨fun i => ⟨by show 0 ≤ 1; decide, by show 1 < 16; decide, by show 5 < 256; decide⟩,
      exC_comps ⟨by decide, by decide⟩ ⟨by decide, by decide⟩⟩
  · intro _
    exact exC_comps ⟨by decide, by decide⟩ ⟨by decide, by decide⟩
  · intro _ _
    exact exC_comps ⟨stdDC, stdAC, rfl, rfl, std_all⟩ ⟨stdDC, stdAC, rfl, rfl, std_all⟩
  · intro ho s hs g hg evs he d n
    have := hfew ho s hs
    rw [hg] at this
    dsimp only at this
    have he : gather (setRi rir g (start (exC arith) prog)) s g (mcusOf exFrame g exImg) = some evs := he
    rw [he] at this
    simp at this
    have := Opt.total_le evs d n
    omega
  · intro _ _ _
    refine exC_comps ?_ ?_
    · exact exC_comps (fun _ => rfl) (fun h => by cases h)
    · exact exC_comps (fun h => by cases h) (fun _ => rfl)
  · rintro a b u x y h
    cases h
    decide
  · intro t h; cases h
  · intro x hx
    simp only [exJob, List.mem_cons, List.not_mem_nil, or_false] at hx
    rcases hx with rfl | rfl
    · refine ⟨⟨⟨by unfold IsApp; decide, by unfold IsBytes; decide⟩, by decide, by decide⟩, by decide⟩
    · refine ⟨⟨⟨by unfold IsApp; decide, by unfold IsBytes; decide⟩, by decide, by decide⟩, by decide⟩

/-- Progressive Huffman coding: 7 scans, a restart marker after every MCU row. -/
theorem exProg : LegalJob (exJob false false exScript 1) true exFrame := by
  refine exLegal (by rfl) (by decide +kernel) (fun _ => ?_)
  decide +kernel

/-- Sequential Huffman coding with the standard tables. -/
theorem exSeqHuff : LegalJob (exJob false false exSeq 0) false exFrame :=
  exLegal (by rfl) (by decide +kernel) (fun h => by cases h)

/-- Sequential Huffman coding with optimized tables. -/
theorem exSeqOpt : LegalJob (exJob false true exSeq 0) false exFrame := by
  refine exLegal (by rfl) (by decide +kernel) (fun _ => ?_)
  decide +kernel

/-- Arithmetic coding, both modes. -/
theorem exArith : LegalJob (exJob true false exSeq 1) false exFrame ∧ LegalJob (exJob true false exScript 0) true exFrame :=
  ⟨exLegal (by rfl) (by decide +kernel) (fun h => by cases h), exLegal (by rfl) (by decide +kernel) (fun h => by cases h)⟩

/-- What the theorem says of the progressive file: the image comes back exactly. -/
example : ∃ bytes, writeImage (exJob false false exScript 1) = some bytes ∧ ∃ got, readImage defaultProc (bytes ++ [7, 7]) = some got ∧
    got.rest = [7, 7] ∧ got.st.warns = 0 ∧ ∀ p : Pos, inImage exFrame p = true → got.st.img p = exImg p := by
  obtain ⟨bytes, h1, h2⟩ := file_roundtrip defaultProc procStd_default _ _ _ exProg
  obtain ⟨got, g1, g2, g3, g4⟩ := h2 [7, 7] (fun _ => by unfold IsBytes; decide)
  refine ⟨bytes, h1, got, g1, g4, g3.warns, ?_⟩
  intro p hp
  exact (g3.coefs p (by rw [g2]; exact hp)).2.2 rfl (by decide +kernel : Prog.Complete 2 exScript)

end Verif.File
