import Verif.File.Seq
/-
C56: the data of one scan, written with the compressor's tables and read with what the marker reader got from the scan header.
-/
namespace Verif.File
open Verif Verif.Huff Verif.Mark
open Verif.Geom (Pos Blk Frame inImage pad walk dMcu cPerScan dPerScan cInitialSetup dInitialSetup storeMcu)
open Verif.Prog (compIdx scanPar DecSt encPScan gatherPScan SPar decPScan TabsOk)
open Verif.Arith (SInv idx_facts)
open Verif.Script (LegalProg LegalSeq)

/-- The decoder after the scans `pre`. -/
def DInv (prog : Bool) (f : Frame) (img : Pos → Blk) (pre : List Script.Scan) (st : DecSt) : Prop :=
  if prog then Prog.Inv f img pre st else SInv f img pre st

/-- A legal script of the mode. -/
def LegalFor (prog : Bool) (n prec : Nat) (script : List Script.Scan) : Prop :=
  if prog then LegalProg n prec script else LegalSeq n script

/-- The MCUs of a scan. -/
def mcusOf (f : Frame) (g : Geom.Scan) (img : Pos → Blk) : List (List Blk) := (walk f g (dMcu f g)).map fun ps => ps.map (pad f img)

/-- What the header of scan `s`, written by `c`, left in the marker reader. -/
structure Hdr (c : CS) (s : Script.Scan) (m : Mem) : Prop where
  scan : scanOf m = s
  dc : ∀ i ∈ compIdx s, s.Ss.toNat = 0 → s.Ah.toNat = 0 → m (.cDc i) = (compOf c i).dc
  ac : ∀ i ∈ compIdx s, s.Se.toNat ≠ 0 → m (.cAc i) = (compOf c i).ac
  lt : ∀ i ∈ compIdx s, m (.cDc i) < 16 ∧ m (.cAc i) < 16
  ri : m .ri = c.ri
  arith : m .arith = if c.arith then 1 else 0
  prog : m .prog = if c.prog then 1 else 0
  dcT : c.arith = false → ∀ i ∈ compIdx s, s.Ss.toNat = 0 → s.Ah.toNat = 0 →
    ∃ t, c.huff false (compOf c i).dc = some t ∧ m (.hDef false (m (.cDc i))) = 1 ∧ tblOf m false (m (.cDc i)) = norm t
  acT : c.arith = false → ∀ i ∈ compIdx s, s.Se.toNat ≠ 0 →
    ∃ t, c.huff true (compOf c i).ac = some t ∧ m (.hDef true (m (.cAc i))) = 1 ∧ tblOf m true (m (.cAc i)) = norm t
  dcQ : c.arith = true → ∀ i ∈ compIdx s, s.Ss.toNat = 0 → s.Ah.toNat = 0 →
    m (.dcL (m (.cDc i))) = c.dcL (compOf c i).dc ∧ m (.dcU (m (.cDc i))) = c.dcU (compOf c i).dc
  acQ : c.arith = true → ∀ i ∈ compIdx s, s.Se.toNat ≠ 0 → m (.acK (m (.cAc i))) = c.acK (compOf c i).ac

theorem hdr_of_read {c c' : CS} {s : Script.Scan} {m0 m : Mem} (h : ScanRead c c' (cscan s) m0 m) (hf : FrameIs c m) (hn : NonNeg s)
    (hl : c.lossless = false) (hw : HAll c.huff)
    (hlt : ∀ i ∈ compIdx s, (compOf c i).dc < 16 ∧ (compOf c i).ac < 16) : Hdr c s m := by
  have hdc : ∀ i ∈ compIdx s, m (.cDc i) = if s.Ss.toNat = 0 ∧ s.Ah.toNat = 0 then (compOf c i).dc else 0 := fun i hi => h.scan.dc i hi
  have hac : ∀ i ∈ compIdx s, m (.cAc i) = if s.Se.toNat ≠ 0 then (compOf c i).ac else 0 := fun i hi => h.scan.ac i hi
  refine ⟨scanOf_eq h.scan hn, ?_, ?_, ?_, h.ri, hf.arith, hf.prog, ?_, ?_, ?_, ?_⟩
  · intro i hi h1 h2; rw [hdc i hi, if_pos ⟨h1, h2⟩]
  · intro i hi h1; rw [hac i hi, if_pos h1]
  · intro i hi
    have := hlt i hi
    rw [hdc i hi, hac i hi]
    constructor <;> split <;> omega
  · intro ha i hi h1 h2
    have := (h.tables i hi).1 (Or.inl ⟨h1, h2⟩)
    rw [ha] at this
    obtain ⟨t, e1, e2⟩ := this
    exact ⟨t, e1, e2.1, tblOf_eq e2 (hw _ _ _ e1)⟩
  · intro ha i hi h1
    have := (h.tables i hi).2 h1 hl
    rw [ha] at this
    obtain ⟨t, e1, e2⟩ := this
    exact ⟨t, e1, e2.1, tblOf_eq e2 (hw _ _ _ e1)⟩
  · intro ha i hi h1 h2
    have := (h.tables i hi).1 (Or.inl ⟨h1, h2⟩)
    rw [ha] at this
    exact this
  · intro ha i hi h1
    have := (h.tables i hi).2 h1 hl
    rw [ha] at this
    exact this

/-- The tables of the scan are usable: they are (at the numbers the scan uses) tables that give every symbol of the scan a code. -/
def Usable (c : CS) (s : Script.Scan) (g : Geom.Scan) (ms : List (List Blk)) : Prop :=
  ∃ dT aT : Nat → HuffTbl,
    if c.prog then TabsOk c.prec dT aT (scanPar g s (eCfg c)) ms ∧
        ∀ t ∈ (scanPar g s (eCfg c)).tbls, (scanPar g s (eCfg c)).tab dT aT t = (scanPar g s (eCfg c)).tab (eCfg c).dcT (eCfg c).acT t
    else (∀ b ∈ seqBs g s (eCfg c), (dT b.dcNo).counts.length = 16 ∧ IsBytes (dT b.dcNo).vals ∧
          (aT b.acNo).counts.length = 16 ∧ IsBytes (aT b.acNo).vals ∧
          dT b.dcNo = (eCfg c).dcT b.dcNo ∧ aT b.acNo = (eCfg c).acT b.acNo ∧
          (makeCTbl 15 (dT b.dcNo)).isSome ∧ (makeCTbl 255 (aT b.acNo)).isSome) ∧
        ∀ evs, gatherScan c.prec c.ri (seqBs g s (eCfg c)) ms = some evs → Covered dT aT evs

section
variable {w ht ic prec : Nat} (hprec : prec ≤ 12) {fs : List (Nat × Nat)} {f : Frame}
  (h : cInitialSetup false w ht ic prec fs = .ok f) {img : Pos → Blk}
  (himg : ∀ p : Pos, inImage f p = true → InRange prec (img p)) {n : Nat} (hn : n = f.comps.length)
  {pre post : List Script.Scan} {s : Script.Scan} {g : Geom.Scan} (hg : cPerScan f (compIdx s) = .ok g)
  {c : CS} (hcp : c.prec = prec) {m : Mem} (H : Hdr c s m) {st : DecSt}
include hprec h himg hn hg hcp H

theorem prog_data (L : LegalProg n prec (pre ++ s :: post)) (I : Prog.Inv f img pre st) (ha : c.arith = false) (hp : c.prog = true)
    (hU : Usable c s g (mcusOf f g img)) :
    ∃ bytes, encData c s g (mcusOf f g img) = some bytes ∧ IsBytes bytes ∧
      ∀ mk tail, 0 < mk → mk < 0xFF → IsBytes tail →
        ∃ st', Prog.Inv f img (pre ++ [s]) st' ∧ decodeOne f m (bytes ++ 0xFF :: mk :: tail) st = some (st', mk, tail, 0) := by
  obtain ⟨G, -, -⟩ := Geom.good_of_setup h
  obtain ⟨hi, hnd, hhas⟩ := idx_facts hn (L.comps s (by simp))
  obtain ⟨hm0, hml⟩ := membership_lt G hi hg
  have F := Prog.scan_core (x := (s, eCfg c)) hprec h himg hn L hg I
  obtain ⟨dT, aT, hU⟩ := hU
  rw [hp] at hU
  simp only [if_true] at hU
  obtain ⟨hT, hagr⟩ := hU
  rw [hcp] at hT
  generalize hpp : scanPar g s (eCfg c) = p at *
  have R := fun mk (hm : 0 < mk ∧ mk < 0xFF) tail (htl : IsBytes tail) => Prog.scan_roundtrip hprec p (by rw [← hpp]; exact F.band)
    (by have := F.al; rw [← hpp]; simp only at this ⊢; omega) (walk f g (dMcu f g)) F.nodup (by rw [← hpp]; exact F.fits) (pad f img) st.img F.range
    (by rw [← hpp]; exact F.ready) _ _ (tabsOk_norm hT) (m := mk) hm (tail := tail) htl
  obtain ⟨bytes, -, q1, q2, -⟩ := R 0xD9 (by omega) [] (by intro x hx; cases hx)
  have hSeSs : s.Ss.toNat ≠ 0 → s.Se.toNat ≠ 0 := by
    have := F.band.1
    intro h0 h1
    have e1 : (scanPar g s (eCfg c)).Ss = s.Ss.toNat := rfl
    have e2 : (scanPar g s (eCfg c)).Se = s.Se.toNat := rfl
    dsimp only at this
    omega
  refine ⟨bytes, ?_, q2, ?_⟩
  · unfold encData
    rw [ha, hp, hcp, hpp]
    simp only [Bool.false_eq_true, if_false, if_true]
    rw [← q1]
    apply encPScan_congr
    intro t ht
    rw [mkC_norm]
    unfold SPar.mkC
    rw [hagr t ht]
  · intro mk tail h1 h2 h3
    obtain ⟨bytes', s', r1, -, r3, r4, r5⟩ := R mk ⟨h1, h2⟩ tail h3
    rw [q1, Option.some.injEq] at r1
    subst r1
    refine ⟨_, F.inv, ?_⟩
    have hquiet : (Prog.markComps (scanPar g s (dCfg m)).Ss (scanPar g s (dCfg m)).Se (scanPar g s (dCfg m)).Ah
      (scanPar g s (dCfg m)).Al (compIdx s) (st.bits, st.warns)).2 = 0 := F.quiet
    have hdec : Prog.decodeScan f (s, dCfg m) (bytes ++ [0xFF, mk] ++ tail) st =
        some (⟨fun q => if q ∈ (walk f g (dMcu f g)).flatten then p.res (pad f img q) (st.img q) else st.img q,
          (Prog.markComps (scanPar g s (dCfg m)).Ss (scanPar g s (dCfg m)).Se (scanPar g s (dCfg m)).Ah
            (scanPar g s (dCfg m)).Al (compIdx s) (st.bits, st.warns)).1, 0⟩, some (mk, tail, 0)) := by
      unfold Prog.decodeScan
      have hper : dPerScan f (compIdx (s, dCfg m).1) = .ok g := F.per
      simp only [hper]
      have hgood : Prog.badScan (scanPar g s (dCfg m)).Ss (scanPar g s (dCfg m)).Se (scanPar g s (dCfg m)).Ah (scanPar g s (dCfg m)).Al
        (compIdx s).length = false := F.good
      rw [if_neg (by rw [hgood]; simp)]
      rw [decPScan_congr (p := p) (dcT := fun n => norm (dT n)) (acT := fun n => norm (aT n))
        (by rw [← hpp]; exact ⟨rfl, rfl, rfl, rfl, H.ri⟩) ?_ ?_, r3]
      · dsimp only
        rw [r4, r5, hquiet]
      · intro hS hA
        have hS' : s.Ss.toNat = 0 := by rw [← hpp] at hS; exact hS
        have hA' : s.Ah.toNat = 0 := by rw [← hpp] at hA; exact hA
        have hbs : (scanPar g s (dCfg m)).bs = (scanPar g s (eCfg c)).bs := by
          unfold scanPar
          apply List.map_congr_left
          intro k hk
          have := H.dc _ (hml k hk).2 hS' hA'
          unfold dCfg eCfg
          dsimp only
          rw [this]
        refine ⟨by rw [← hpp]; exact hbs, ?_⟩
        intro b hb
        have hin : b.dcNo ∈ p.tbls := by
          unfold SPar.tbls SPar.kind
          rw [if_pos hA, if_pos hS]
          exact List.mem_map.2 ⟨b, hb, rfl⟩
        have ha1 := hagr _ hin
        unfold SPar.tab at ha1
        rw [if_pos hS, if_pos hS] at ha1
        rw [ha1]
        rw [← hpp] at hb
        obtain ⟨k, hk, rfl⟩ := List.mem_map.1 hb
        obtain ⟨t, e1, -, e3⟩ := H.dcT ha _ (hml k hk).2 hS' hA'
        rw [H.dc _ (hml k hk).2 hS' hA'] at e3
        show tblOf m false (compOf c _).dc = norm ((c.huff false (compOf c _).dc).getD ⟨[], []⟩)
        rw [e3, e1]
        rfl
      · intro hS
        have hS' : s.Ss.toNat ≠ 0 := by rw [← hpp] at hS; exact hS
        obtain ⟨k0, l, hl⟩ := List.exists_cons_of_ne_nil hm0
        have hi0 : (compIdx s).getD 0 0 ∈ compIdx s := by
          have : compIdx s ≠ [] := Geom.idx_ne hg
          obtain ⟨a, l, e⟩ := List.exists_cons_of_ne_nil this
          rw [e]; simp
        have hSe' := hSeSs hS'
        refine ⟨by rw [← hpp]; exact H.ac _ hi0 hSe', ?_⟩
        have hin : p.acNo ∈ p.tbls := by
          unfold SPar.tbls SPar.kind
          rw [if_neg hS]
          by_cases hA : p.Ah = 0 <;> simp [hA, hS]
        have ha1 := hagr _ hin
        unfold SPar.tab at ha1
        rw [if_neg hS, if_neg hS] at ha1
        rw [ha1, ← hpp]
        obtain ⟨t, e1, -, e3⟩ := H.acT ha _ hi0 hSe'
        rw [H.ac _ hi0 hSe'] at e3
        show tblOf m true (compOf c _).ac = norm ((c.huff true (compOf c _).ac).getD ⟨[], []⟩)
        rw [e3, e1]
        rfl
    unfold decodeOne
    rw [H.arith, ha, H.prog, hp, H.scan]
    rw [if_neg (by simp), if_pos ?_, if_pos (by simp)]
    · rw [show bytes ++ 0xFF :: mk :: tail = bytes ++ [0xFF, mk] ++ tail by simp, hdec]
      simp only [ne_eq, not_true_eq_false, if_false]
      rw [← hpp]
      rfl
    · unfold tblsDefined
      rw [H.scan, List.all_eq_true]
      intro i hi'
      have e1 : m .Ss = s.Ss.toNat := by rw [← H.scan]; simp [scanOf]
      have e2 : m .Ah = s.Ah.toNat := by rw [← H.scan]; simp [scanOf]
      rw [e1, e2]
      by_cases hS : s.Ss.toNat = 0
      · by_cases hA : s.Ah.toNat = 0
        · obtain ⟨t, -, e4, -⟩ := H.dcT ha i hi' hS hA
          simp [hS, hA, e4]
        · simp [hS, hA]
      · obtain ⟨t, -, e4, -⟩ := H.acT ha i hi' (hSeSs hS)
        simp [hS, e4]

theorem seq_data (L : LegalSeq n (pre ++ s :: post)) (I : SInv f img pre st) (ha : c.arith = false) (hp : c.prog = false)
    (hU : Usable c s g (mcusOf f g img)) :
    ∃ bytes, encData c s g (mcusOf f g img) = some bytes ∧ IsBytes bytes ∧
      ∀ mk tail, 0 < mk → mk < 0xFF → IsBytes tail →
        ∃ st', SInv f img (pre ++ [s]) st' ∧ decodeOne f m (bytes ++ 0xFF :: mk :: tail) st = some (st', mk, tail, 0) := by
  obtain ⟨G, -, -⟩ := Geom.good_of_setup h
  obtain ⟨hi, hnd, hhas⟩ := idx_facts hn (L.comps s (by simp))
  obtain ⟨hm0, hml⟩ := membership_lt G hi hg
  obtain ⟨p1, p2, p3, p4⟩ := L.params s (by simp)
  have hS : s.Ss.toNat = 0 := by rw [p1]; rfl
  have hA : s.Ah.toNat = 0 := by rw [p3]; rfl
  have hSe : s.Se.toNat ≠ 0 := by rw [p2]; decide
  obtain ⟨dT, aT, hU⟩ := hU
  rw [hp] at hU
  simp only [Bool.false_eq_true, if_false] at hU
  obtain ⟨hT, hcov⟩ := hU
  rw [hcp] at hcov
  have hblk : ∀ b ∈ seqBs g s (eCfg c), encBlk (fun n => norm (dT n)) (fun n => norm (aT n)) b = encBlk (eCfg c).dcT (eCfg c).acT b := by
    intro b hb
    obtain ⟨-, -, -, -, t5, t6, -, -⟩ := hT b hb
    unfold encBlk
    dsimp only
    rw [makeCTbl_norm, makeCTbl_norm, t5, t6]
  have hes : ∃ es, (seqBs g s (eCfg c)).mapM (encBlk (eCfg c).dcT (eCfg c).acT) = some es := by
    apply mapM_isSome
    intro b hb
    obtain ⟨-, -, -, -, t5, t6, t7, t8⟩ := hT b hb
    rw [t5] at t7
    rw [t6] at t8
    obtain ⟨x, ex⟩ := Option.isSome_iff_exists.1 t7
    obtain ⟨y, ey⟩ := Option.isSome_iff_exists.1 t8
    exact ⟨⟨b.ci, x, y⟩, by unfold encBlk; rw [ex, ey]⟩
  obtain ⟨es, hes⟩ := hes
  let X : Prog.Cfg := ⟨c.ri, (eCfg c).dcNo, (eCfg c).acNo, fun n => norm (dT n), fun n => norm (aT n), 0, []⟩
  have hX : seqBs g s X = seqBs g s (eCfg c) := rfl
  obtain ⟨bytes, st', q1, q2, q3, q4⟩ := sseq_step (x := (s, X)) hprec h himg hn L hg (by
      intro b hb
      obtain ⟨t1, t2, t3, t4, -⟩ := hT b hb
      exact ⟨t1, norm_bytes t2, t3, norm_bytes t4⟩) (es := es) (by
      rw [← hes]
      exact mapM_congr hblk) (by
      intro evs he
      exact Covered_norm (hcov evs he)) I
  refine ⟨bytes, ?_, q2, ?_⟩
  · unfold encData
    rw [ha, hp, hes, hcp]
    simp only [Bool.false_eq_true, if_false]
    exact q1
  · intro mk tail h1 h2 h3
    refine ⟨st', q3, ?_⟩
    have hbs : seqBs g s (dCfg m) = seqBs g s (eCfg c) := by
      unfold seqBs
      apply List.map_congr_left
      intro k hk
      have e1 := H.dc _ (hml k hk).2 hS hA
      have e2 := H.ac _ (hml k hk).2 hSe
      unfold dCfg eCfg
      dsimp only
      rw [e1, e2]
    have hdec : decodeSScan f (s, dCfg m) (bytes ++ 0xFF :: mk :: tail) st = decodeSScan f (s, X) (bytes ++ 0xFF :: mk :: tail) st := by
      unfold decodeSScan
      have e3 : (seqBs g s (dCfg m)).mapM (decBlk (dCfg m).dcT (dCfg m).acT) = (seqBs g s X).mapM (decBlk X.dcT X.acT) := by
        rw [hbs, hX]
        apply mapM_congr
        intro b hb
        obtain ⟨-, -, -, -, t5, t6, -, -⟩ := hT b hb
        obtain ⟨k, hk, rfl⟩ := List.mem_map.1 hb
        unfold decBlk
        have e1 := H.dc _ (hml k hk).2 hS hA
        have e2 := H.ac _ (hml k hk).2 hSe
        obtain ⟨t, a1, -, a3⟩ := H.dcT ha _ (hml k hk).2 hS hA
        obtain ⟨u, b1, -, b3⟩ := H.acT ha _ (hml k hk).2 hSe
        rw [e1] at a3
        rw [e2] at b3
        dsimp only at t5 t6
        have c1 : (dCfg m).dcT ((eCfg c).dcNo ((compIdx s).getD k 0)) = X.dcT ((eCfg c).dcNo ((compIdx s).getD k 0)) := by
          show tblOf m false (compOf c _).dc = norm (dT _)
          rw [a3, t5]
          show _ = norm ((c.huff false (compOf c _).dc).getD ⟨[], []⟩)
          rw [a1]; rfl
        have c2 : (dCfg m).acT ((eCfg c).acNo ((compIdx s).getD k 0)) = X.acT ((eCfg c).acNo ((compIdx s).getD k 0)) := by
          show tblOf m true (compOf c _).ac = norm (aT _)
          rw [b3, t6]
          show _ = norm ((c.huff true (compOf c _).ac).getD ⟨[], []⟩)
          rw [b1]; rfl
        dsimp only
        rw [c1, c2]
      obtain ⟨-, hdp, -⟩ := Geom.geometry_agrees false w _ ic prec fs f h
      have er : (dCfg m).ri = X.ri := H.ri
      simp only [hdp, hg, e3, er]
    unfold decodeOne
    rw [H.arith, ha, H.prog, hp, H.scan]
    rw [if_neg (by simp), if_pos ?_, if_neg (by simp)]
    · rw [hdec, q4 mk tail h1 h2 h3]
      simp
    · unfold tblsDefined
      rw [H.scan, List.all_eq_true]
      intro i hi'
      obtain ⟨t, -, e4, -⟩ := H.dcT ha i hi' hS hA
      obtain ⟨u, -, e5, -⟩ := H.acT ha i hi' hSe
      simp [e4, e5]

theorem arith_data {prog : Bool} (L : LegalFor prog n prec (pre ++ s :: post)) (I : DInv prog f img pre st) (ha : c.arith = true)
    (hp : c.prog = prog) (hlt : ∀ i ∈ compIdx s, (compOf c i).dc < 16 ∧ (compOf c i).ac < 16) :
    ∃ bytes, encData c s g (mcusOf f g img) = some bytes ∧
      ∀ mk tail, 0 < mk → mk < 0xFF →
        ∃ st', DInv prog f img (pre ++ [s]) st' ∧ decodeOne f m (bytes ++ 0xFF :: mk :: tail) st = some (st', mk, tail, 0) := by
  obtain ⟨G, -, -⟩ := Geom.good_of_setup h
  have hcomps : Script.CompsOK n s := by
    unfold LegalFor at L
    cases prog with
    | false => exact LegalSeq.comps L s (by simp)
    | true => exact LegalProg.comps L s (by simp)
  have hSeSs : prog = false ∨ s.Ss.toNat ≠ 0 → s.Se.toNat ≠ 0 := by
    unfold LegalFor at L
    cases prog with
    | false =>
      obtain ⟨-, p2, -, -⟩ := LegalSeq.params L s (by simp)
      intro _
      rw [p2]; decide
    | true =>
      have P := LegalProg.params L s (by simp)
      rintro (h | h)
      · cases h
      · have := P.1; have := P.2.1
        omega
  have hSA : prog = false → s.Ss.toNat = 0 ∧ s.Ah.toNat = 0 := by
    rintro rfl
    obtain ⟨p1, -, p3, -⟩ := LegalSeq.params L s (by simp)
    rw [p1, p3]; exact ⟨rfl, rfl⟩
  obtain ⟨hi, hnd, hhas⟩ := idx_facts hn hcomps
  obtain ⟨hm0, hml⟩ := membership_lt G hi hg
  let X : Nat → List Nat → Arith.ACfg := fun mk tail => ⟨m .ri, fun i => if i ∈ compIdx s then m (.cDc i) else 0,
    fun i => if i ∈ compIdx s then m (.cAc i) else 0, (dACfg m).q, mk, tail⟩
  have hX : ∀ mk tail, Arith.aPar prog g s (X mk tail) = Arith.aPar prog g s (dACfg m) := by
    intro mk tail
    unfold Arith.aPar
    congr 1
    apply List.map_congr_left
    intro k hk
    have e := (hml k hk).2
    show (⟨k, if _ then _ else _, if _ then _ else _⟩ : Arith.ABlk) = _
    rw [if_pos e, if_pos e]
    rfl
  have hX1 : ∀ mk tail i, (X mk tail).dcNo i < 16 := by
    intro mk tail i
    show (if _ then _ else _) < 16
    split
    · exact (H.lt i ‹_›).1
    · omega
  have hX2 : ∀ mk tail i, (X mk tail).acNo i < 16 := by
    intro mk tail i
    show (if _ then _ else _) < 16
    split
    · exact (H.lt i ‹_›).2
    · omega
  have henc : ∀ mk tail bytes, Arith.encodeAScan .onepass prog f img (s, X mk tail) = some bytes →
      encData c s g (mcusOf f g img) = some bytes := by
    intro mk tail bytes hb
    unfold Arith.encodeAScan at hb
    simp only [hg] at hb
    rw [if_pos (Arith.tblsOk_of (hX1 mk tail) (hX2 mk tail)), Arith.mcus_way G hi hg img, hX] at hb
    unfold encData
    rw [ha, hp, if_pos rfl, if_pos ?_]
    · rw [← hb]
      simp only [Option.map_some, Option.some.injEq]
      apply aPar_congr (H.ri.symm) hm0
      · intro hd k hk
        have hd' : s.Ss.toNat = 0 ∧ s.Ah.toNat = 0 := hd.elim hSA id
        have e := (hml k hk).2
        obtain ⟨d1, d2⟩ := H.dcQ ha _ e hd'.1 hd'.2
        have d3 := H.dc _ e hd'.1 hd'.2
        rw [d3] at d1 d2
        exact ⟨d3.symm, d1.symm, d2.symm⟩
      · intro hd k hk
        have e := (hml k hk).2
        have d1 := H.acQ ha _ e (hSeSs hd)
        have d3 := H.ac _ e (hSeSs hd)
        rw [d3] at d1
        exact ⟨d3.symm, d1.symm⟩
    · unfold Arith.tblsOk Arith.aPar
      rw [List.all_eq_true]
      intro b hb
      obtain ⟨k, hk, rfl⟩ := List.mem_map.1 hb
      obtain ⟨l1, l2⟩ := hlt _ (hml k hk).2
      have l1' : (eACfg c).dcNo ((compIdx s).getD k 0) < 16 := l1
      have l2' : (eACfg c).acNo ((compIdx s).getD k 0) < 16 := l2
      dsimp only
      rw [decide_eq_true l1', decide_eq_true l2']
      simp only [ite_self, Bool.and_self]
  have hdec : ∀ mk tail bytes, Arith.decodeAScan prog f (s, X mk tail) bytes st = Arith.decodeAScan prog f (s, dACfg m) bytes st := by
    intro mk tail bytes
    obtain ⟨-, hdp, -⟩ := Geom.geometry_agrees false w _ ic prec fs f h
    unfold Arith.decodeAScan
    simp only [hdp, hg, hX]
  have step : ∀ mk tail, 0 < mk → mk < 0xFF → ∃ bytes st', encData c s g (mcusOf f g img) = some bytes ∧ DInv prog f img (pre ++ [s]) st' ∧
      Arith.decodeAScan prog f (s, dACfg m) (bytes ++ 0xFF :: mk :: tail) st = some (st', some (mk, tail, [])) := by
    intro mk tail h1 h2
    unfold LegalFor at L
    unfold DInv at I ⊢
    cases prog with
    | false =>
      obtain ⟨bytes, st', a, b, d⟩ := Arith.aseq_step (x := (s, X mk tail)) hprec h himg .onepass hn L hg (hX1 mk tail) (hX2 mk tail)
        (show mk ≠ 0 by omega) (show mk ≠ 0xFF by omega) I
      exact ⟨bytes, st', henc mk tail bytes a, d, by rw [← hdec mk tail]; exact b⟩
    | true =>
      obtain ⟨bytes, st', a, b, d⟩ := Arith.aprog_step (x := (s, X mk tail)) hprec h himg .onepass hn L hg (hX1 mk tail) (hX2 mk tail)
        (show mk ≠ 0 by omega) (show mk ≠ 0xFF by omega) I
      exact ⟨bytes, st', henc mk tail bytes a, d, by rw [← hdec mk tail]; exact b⟩
  obtain ⟨bytes, -, e1, -⟩ := step 1 [] (by omega) (by omega)
  refine ⟨bytes, e1, ?_⟩
  intro mk tail h1 h2
  obtain ⟨bytes', st', e2, e3, e4⟩ := step mk tail h1 h2
  rw [e1, Option.some.injEq] at e2
  subst e2
  refine ⟨st', e3, ?_⟩
  unfold decodeOne
  rw [H.arith, ha, H.prog, hp, H.scan]
  rw [if_pos (by simp)]
  have : ((if prog = true then 1 else 0) != 0) = prog := by cases prog <;> rfl
  rw [this, e4]
  rfl

/-- The data of one scan of any kind. -/
theorem data_step {prog : Bool} (L : LegalFor prog n prec (pre ++ s :: post)) (I : DInv prog f img pre st) (hp : c.prog = prog)
    (hlt : ∀ i ∈ compIdx s, (compOf c i).dc < 16 ∧ (compOf c i).ac < 16)
    (hU : c.arith = false → Usable c s g (mcusOf f g img)) :
    ∃ bytes, encData c s g (mcusOf f g img) = some bytes ∧ (c.arith = false → IsBytes bytes) ∧
      ∀ mk tail, 0 < mk → mk < 0xFF → (c.arith = false → IsBytes tail) →
        ∃ st', DInv prog f img (pre ++ [s]) st' ∧ decodeOne f m (bytes ++ 0xFF :: mk :: tail) st = some (st', mk, tail, 0) := by
  by_cases ha : c.arith = true
  · obtain ⟨bytes, a, b⟩ := arith_data hprec h himg hn hg hcp H L I ha hp hlt
    exact ⟨bytes, a, by rw [ha]; simp, fun mk tail h1 h2 _ => b mk tail h1 h2⟩
  · have ha' : c.arith = false := by simpa using ha
    unfold LegalFor at L
    unfold DInv at I ⊢
    cases prog with
    | false =>
      obtain ⟨bytes, a, b, d⟩ := seq_data hprec h himg hn hg hcp H L I ha' hp (hU ha')
      exact ⟨bytes, a, fun _ => b, fun mk tail h1 h2 h3 => d mk tail h1 h2 (h3 ha')⟩
    | true =>
      obtain ⟨bytes, a, b, d⟩ := prog_data hprec h himg hn hg hcp H L I ha' hp (hU ha')
      exact ⟨bytes, a, fun _ => b, fun mk tail h1 h2 h3 => d mk tail h1 h2 (h3 ha')⟩

end

end Verif.File
