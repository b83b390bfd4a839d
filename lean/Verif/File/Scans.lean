import Verif.File.Tables
/-
C56: what a legal job is, and the scans of a file one after the other.
-/
namespace Verif.File
open Verif Verif.Huff Verif.Mark
open Verif.Geom (Pos Blk Frame inImage pad walk dMcu cPerScan cInitialSetup)
open Verif.Prog (compIdx scanPar DecSt)
open Verif.Arith (idx_facts SInv)
open Verif.Script (LegalProg LegalSeq)

/-- A job the library promises to do right: a script of mode `prog`, dimensions and sampling factors accepted, at most 4 components and
10 blocks per MCU, coefficients in the range of the precision, components with different identifiers and table numbers in range, a
quantization table for every component, usable entropy coding parameters, and legal extra markers. -/
structure LegalJob (j : Job) (prog : Bool) (f : Frame) : Prop where
  mode : j.mode = some prog
  frame : j.frame = .ok f
  prec : j.c.prec ≤ 12
  ncomp : j.c.comps.length ≤ 4
  blocks : ∀ s ∈ j.script, ∃ g, cPerScan f (compIdx s) = .ok g
  coefs : ∀ p : Pos, inImage f p = true → InRange j.c.prec (j.img p)
  fits : ∀ k ∈ j.c.comps, k.Fits
  ids : (j.c.comps.map (·.id)).Nodup
  quant : ∀ k ∈ j.c.comps, (j.c.q k.tq).isSome = true
  qLegal : QAll j.c.q
  hLegal : HAll j.c.huff
  ri : j.c.ri < 65536
  /-- arithmetic coding: conditioning parameters and table numbers in range -/
  arith : j.c.arith = true → j.c.ArithOk ∧ ∀ k ∈ j.c.comps, k.dc < 16 ∧ k.ac < 16
  /-- Huffman coding: table numbers in range -/
  huff : j.c.arith = false → ∀ k ∈ j.c.comps, k.dc < 4 ∧ k.ac < 4
  /-- without optimization: the tables code everything -/
  full : j.c.arith = false → j.opt prog = false →
    ∀ k ∈ j.c.comps, ∃ d a, j.c.huff false k.dc = some d ∧ j.c.huff true k.ac = some a ∧ CodesAll j.c.prec d a
  /-- with optimization: fewer than 9227464 symbols for one table in one scan -/
  few : j.opt prog = true → ∀ s ∈ j.script, ∀ g, cPerScan f (compIdx s) = .ok g →
    ∀ evs, gather (setRi j.rir g (start j.c prog)) s g (mcusOf f g j.img) = some evs → Few evs
  /-- sequential Huffman coding with merged DHT markers: one AC table goes with each DC table (see DESIGN.md, findings) -/
  pairs : j.c.arith = false → prog = false → j.c.fastest = false → ∀ k ∈ j.c.comps, ∀ k' ∈ j.c.comps, k.dc = k'.dc → k.ac = k'.ac
  jfif : JfifFits j.jfif
  adobe : ∀ t, j.adobe = some t → t < 256
  markers : ∀ x ∈ j.markers, ((IsApp x.1 ∧ IsBytes x.2) ∧ x.1 ≠ 0xE0 ∧ x.1 ≠ 0xEE) ∧ x.2.length ≤ 65533

/-- The compressor between two scans. -/
structure WInv (j : Job) (prog : Bool) (c : CS) : Prop where
  same : c = { start j.c prog with
    huff := c.huff
    hSent := c.hSent
    ri := c.ri
    lastRi := c.lastRi
    qSent := c.qSent }
  ri : j.rir = 0 → c.ri = j.c.ri
  huff : j.opt prog = false → c.huff = j.c.huff
  pair : j.opt prog = false → c.arith = false → c.fastest = false → ∀ k ∈ c.comps, c.hSent false k.dc = true → c.hSent true k.ac = true

theorem gather_congr {c c' : CS} {s : Script.Scan} {g : Geom.Scan} {ms : List (List Blk)} (h1 : c.prog = c'.prog) (h2 : c.prec = c'.prec)
    (h3 : c.ri = c'.ri) (h4 : c.comps = c'.comps) : gather c s g ms = gather c' s g ms := by
  have kc : ∀ i, compOf c i = compOf c' i := fun i => by unfold compOf; rw [h4]
  have k5 : scanPar g s (eCfg c) = scanPar g s (eCfg c') := by
    unfold scanPar eCfg
    simp only [kc, h3]
  have k6 : seqBs g s (eCfg c) = seqBs g s (eCfg c') := by
    unfold seqBs eCfg
    simp only [kc]
  unfold gather
  rw [h1, h2, h3, k5, k6]

theorem compOf_mem {c : CS} {i : Nat} (h : i < c.comps.length) : compOf c i ∈ c.comps := by
  unfold compOf
  rw [List.getD_eq_getElem?_getD, List.getElem?_eq_getElem h]
  exact List.getElem_mem h

/-- With one AC table for each DC table, emit_multi_dht is right. -/
theorem dhtGood_of {sent : Bool → Nat → Bool} : ∀ (ks : List CComp) (ds as : List Nat) (pre : List CComp),
    ds = pre.map (·.dc) → as = pre.map (·.ac) → (∀ k ∈ pre ++ ks, ∀ k' ∈ pre ++ ks, k.dc = k'.dc → k.ac = k'.ac) →
    (∀ k ∈ ks, sent false k.dc = true → sent true k.ac = true) → DhtGood sent ks ds as := by
  intro ks
  induction ks with
  | nil => intros; trivial
  | cons k ks ih =>
    intro ds as pre hd ha hp hs
    refine ⟨?_, ih (k.dc :: ds) (k.ac :: as) (k :: pre) (by rw [hd]; rfl) (by rw [ha]; rfl) ?_ (fun x hx => hs x (by simp [hx]))⟩
    · rintro (h | h)
      · exact Or.inl (hs k (by simp) h)
      · right
        rw [hd] at h
        obtain ⟨k', hk', e⟩ := List.mem_map.1 h
        rw [ha]
        refine List.mem_map.2 ⟨k', hk', ?_⟩
        exact hp k' (by simp [hk']) k (by simp) e
    · intro a ha' b hb'
      apply hp
      · simp only [List.cons_append, List.mem_cons, List.mem_append] at ha' ⊢; tauto
      · simp only [List.cons_append, List.mem_cons, List.mem_append] at hb' ⊢; tauto

theorem legal_of {j : Job} {prog : Bool} {f : Frame} (J : LegalJob j prog f) :
    LegalFor prog j.c.comps.length j.c.prec j.script ∧ 1 ≤ j.c.comps.length ∧ j.c.comps.length = f.comps.length := by
  have hf := J.frame
  unfold Job.frame at hf
  obtain ⟨-, hlen, -⟩ := Geom.good_of_setup hf
  have hl : j.c.comps.length = f.comps.length := by rw [hlen]; simp [facs]
  have h1 : 1 ≤ j.c.comps.length := by
    unfold cInitialSetup at hf
    simp only at hf
    split at hf
    · cases hf
    · rename_i h0
      have : (facs j.c).length = j.c.comps.length := by simp [facs]
      omega
  refine ⟨?_, h1, hl⟩
  have hm := J.mode
  unfold Job.mode at hm
  unfold LegalFor
  split at hm
  · rename_i e
    cases hm
    exact (Script.validate_sequential_iff _ _ h1 _).1 e
  · rename_i e
    cases hm
    exact (Script.validate_progressive_iff _ _ h1 _).1 e
  · cases hm

/-- The part of `LegalFor` about one scan, in the form the header needs. -/
theorem scan_par {prog : Bool} {n prec : Nat} {script : List Script.Scan} (L : LegalFor prog n prec script) {s : Script.Scan} (hs : s ∈ script) :
    Script.CompsOK n s ∧ NonNeg s ∧ s.Ss.toNat < 256 ∧ s.Se.toNat < 256 ∧ s.Ah.toNat < 16 ∧ s.Al.toNat < 16 := by
  unfold LegalFor at L
  by_cases hp : prog = true
  · rw [if_pos hp] at L
    have C := L.comps s hs
    have P := L.params s hs
    unfold Script.ProgParamsOK at P
    dsimp only at P
    have hm : (if prec = 12 then (13 : Int) else 10) ≤ 13 := by split <;> omega
    generalize (if prec = 12 then (13 : Int) else 10) = mx at P hm
    exact ⟨C, ⟨fun c hc => (C.2.2.1 c hc).1, by omega, by omega, by omega, by omega⟩, by omega, by omega, by omega, by omega⟩
  · rw [if_neg hp] at L
    have C := L.comps s hs
    obtain ⟨p1, p2, p3, p4⟩ := L.params s hs
    exact ⟨C, ⟨fun c hc => (C.2.2.1 c hc).1, by omega, by omega, by omega, by omega⟩, by omega, by omega, by omega, by omega⟩

theorem compIdx_incr {n : Nat} {s : Script.Scan} (h : Script.CompsOK n s) : (compIdx s).Pairwise (· < ·) := by
  unfold compIdx
  rw [List.pairwise_map]
  refine List.Pairwise.imp_of_mem ?_ h.2.2.2
  intro a b ha hb hab
  have := h.2.2.1 a ha
  have := h.2.2.1 b hb
  omega

/-- The header and the tables of one scan. -/
theorem one_header {j : Job} {prog : Bool} {f : Frame} (J : LegalJob j prog f) {pre post : List Script.Scan} {s : Script.Scan}
    (hsc : j.script = pre ++ s :: post) {c : CS} (W : WInv j prog c) {m : Mem} (A : Agree c m) {st : DecSt} (D : DInv prog f j.img pre st)
    {g : Geom.Scan} (hg : cPerScan f (compIdx s) = .ok g) (proc : Nat → Proc) :
    ∃ c2 b c3 m1, retab (j.opt prog) (setRi j.rir g c) s g (mcusOf f g j.img) = some c2 ∧ writeScan c2 (cscan s) = some (b, c3) ∧
      WInv j prog c3 ∧ c2.prog = prog ∧ c2.prec = j.c.prec ∧ c2.arith = j.c.arith ∧ c2.comps = j.c.comps ∧
      (c2.arith = false → Usable c2 s g (mcusOf f g j.img)) ∧ (∃ mk t, b = 0xFF :: mk :: t ∧ 0 < mk ∧ mk < 0xFF) ∧
      (j.c.arith = false → IsBytes b) ∧ ScanRead c2 c3 (cscan s) m m1 ∧ Hdr c2 s m1 ∧
      ∃ d, d ≤ b.length ∧ ∀ rest saved k, readLoop proc (k + 1 + d) (at_ m (b ++ rest) saved) = .sos (at_ m1 rest saved) := by
  obtain ⟨L, hn1, hnl⟩ := legal_of J
  have hS := hsc
  rw [hsc] at L
  have hs : s ∈ j.script := by rw [hsc]; simp
  obtain ⟨hC, hN, hp1, hp2, hp3, hp4⟩ := scan_par L (s := s) (by simp)
  have hf := J.frame
  unfold Job.frame at hf
  have e0 := W.same
  have f1 : c.prog = prog := by rw [e0]; rfl
  have f2 : c.prec = j.c.prec := by rw [e0]; rfl
  have f3 : c.arith = j.c.arith := by rw [e0]; rfl
  have f4 : c.comps = j.c.comps := by rw [e0]; rfl
  have f5 : c.lossless = false := by rw [e0]; rfl
  have f6 : c.fastest = j.c.fastest := by rw [e0]; rfl
  have f7 : c.dcL = j.c.dcL ∧ c.dcU = j.c.dcU ∧ c.acK = j.c.acK := by rw [e0]; exact ⟨rfl, rfl, rfl⟩
  -- restart interval
  have q0 : setRi j.rir g c = { c with ri := (setRi j.rir g c).ri } := by
    unfold setRi
    split <;> rfl
  have q1 : (setRi j.rir g c).ri = (setRi j.rir g (start j.c prog)).ri := by
    unfold setRi
    split
    · rfl
    · exact W.ri (by omega)
  have q2 : (setRi j.rir g c).ri < 65536 := by
    rw [q1]
    unfold setRi
    split
    · show min _ 65535 < 65536
      omega
    · exact J.ri
  have q3 : j.rir = 0 → (setRi j.rir g c).ri = j.c.ri := by
    intro h0
    rw [q1]
    unfold setRi
    rw [if_neg (by omega)]
    rfl
  generalize hc1 : setRi j.rir g c = c1 at *
  have g1 : c1.prog = prog := by rw [q0]; exact f1
  have g2 : c1.prec = j.c.prec := by rw [q0]; exact f2
  have g3 : c1.arith = j.c.arith := by rw [q0]; exact f3
  have g4 : c1.comps = j.c.comps := by rw [q0]; exact f4
  have g5 : c1.lossless = false := by rw [q0]; exact f5
  have g6 : c1.fastest = j.c.fastest := by rw [q0]; exact f6
  have g7 : c1.huff = c.huff := by rw [q0]
  have g8 : c1.hSent = c.hSent := by rw [q0]
  have hidx : ∀ i ∈ compIdx s, i < j.c.comps.length := by
    intro i hi
    rw [hnl]
    exact (idx_facts hnl hC).1 i hi
  have hmem : ∀ i ∈ compIdx s, compOf c1 i ∈ j.c.comps := by
    intro i hi
    rw [← g4]
    exact compOf_mem (by rw [g4]; exact hidx i hi)
  have hscan : scanComps c1 (cscan s) = (compIdx s).map (compOf c1) := rfl
  -- tables
  have R : ∃ c2, retab (j.opt prog) c1 s g (mcusOf f g j.img) = some c2 ∧ c2 = { c1 with huff := c2.huff, hSent := c2.hSent } ∧
      (j.opt prog = false → c2 = c1) ∧
      (∀ a k, c2.hSent a k = true → c1.hSent a k = true ∧ c2.huff a k = c1.huff a k) ∧ HAll c2.huff ∧
      (c2.arith = false → Usable c2 s g (mcusOf f g j.img)) ∧
      (c2.arith = false → HaveH c2.huff (decide ((cscan s).Ss = 0 ∧ (cscan s).Ah = 0)) (decide ((cscan s).Se ≠ 0)) (scanComps c1 (cscan s))) ∧
      (j.opt prog = true → prog = false → ∀ i ∈ compIdx s, c2.hSent false (compOf c1 i).dc = false) := by
    by_cases ha : j.c.arith = true
    · have ho : j.opt prog = false := by unfold Job.opt; rw [ha]; rfl
      refine ⟨c1, by unfold retab; rw [ho]; rfl, rfl, fun _ => rfl, fun a k hk => ⟨hk, rfl⟩, by rw [g7]; exact A.ok.h, ?_, ?_, ?_⟩
      · intro h; rw [g3, ha] at h; cases h
      · intro h; rw [g3, ha] at h; cases h
      · intro h; rw [ho] at h; cases h
    · have ha' : j.c.arith = false := by simpa using ha
      obtain ⟨c2, r1, r2, r3, r4, r5, r6, r7, r8⟩ := retab_ok (c := c1) (opt := j.opt prog) J.prec hf J.coefs hnl hg g2
        (L := by rw [g1]; exact L) (I := by rw [g1]; exact D)
        (by
          intro ho
          have hp : prog = false := by
            unfold Job.opt at ho
            rw [ha'] at ho
            cases prog <;> simp at ho ⊢
          refine ⟨by rw [g1]; exact hp, ?_⟩
          intro i hi
          rw [g7, W.huff ho]
          exact J.full ha' ho _ (hmem i hi))
        (by
          intro ho evs he
          refine J.few ho s hs g hg evs ?_
          rw [← he]
          apply gather_congr
          · rw [g1]; unfold setRi; split <;> rfl
          · rw [g2]; unfold setRi; split <;> rfl
          · exact q1.symm
          · rw [g4]; unfold setRi; split <;> rfl)
        (by rw [g7]; exact A.ok.h)
      exact ⟨c2, r1, r2, r3, r4, r5, fun _ => r6, fun _ => r7, fun h1 h2 => r8 h1 (by rw [g1]; exact h2)⟩
  obtain ⟨c2, r1, r2, r3, r4, r5, r6, r7, r8⟩ := R
  have k1 : c2.prog = prog := by rw [r2]; exact g1
  have k2 : c2.prec = j.c.prec := by rw [r2]; exact g2
  have k3 : c2.arith = j.c.arith := by rw [r2]; exact g3
  have k4 : c2.comps = j.c.comps := by rw [r2]; exact g4
  have k5 : c2.lossless = false := by rw [r2]; exact g5
  have k6 : c2.fastest = j.c.fastest := by rw [r2]; exact g6
  have k7 : c2.ri = c1.ri := by rw [r2]
  have k8 : scanComps c2 (cscan s) = scanComps c1 (cscan s) := by unfold scanComps; rw [k4, g4]
  have k9 : ∀ i, compOf c2 i = compOf c1 i := by intro i; unfold compOf; rw [k4, g4]
  have hgood : c2.arith = false → c2.fastest = false → (cscan s).Ss = 0 → (cscan s).Ah = 0 → (cscan s).Se ≠ 0 →
      DhtGood c2.hSent (scanComps c2 (cscan s)) [] [] := by
    intro ha hfa h1 h2 h3
    rw [k3] at ha
    rw [k6] at hfa
    have hp : prog = false := by
      by_contra hp
      have hp : prog = true := by simpa using hp
      unfold LegalFor at L
      rw [if_pos hp] at L
      have P := L.params s (by simp)
      unfold Script.ProgParamsOK at P
      dsimp only at P
      have h1 : s.Ss.toNat = 0 := h1
      have : s.Ss = 0 := by omega
      have := P.2.2.2.2.2.2.2.1 this
      exact h3 (show s.Se.toNat = 0 by omega)
    rw [k8, hscan]
    refine dhtGood_of _ [] [] [] rfl rfl ?_ ?_
    · rw [List.nil_append]
      intro k hk k' hk' e
      obtain ⟨i, hi, rfl⟩ := List.mem_map.1 hk
      obtain ⟨i', hi', rfl⟩ := List.mem_map.1 hk'
      exact J.pairs ha hp hfa _ (hmem i hi) _ (hmem i' hi') e
    · intro k hk hsent
      obtain ⟨i, hi, rfl⟩ := List.mem_map.1 hk
      by_cases ho : j.opt prog = true
      · rw [r8 ho hp i hi] at hsent
        cases hsent
      · have ho' : j.opt prog = false := by simpa using ho
        rw [r3 ho', g8] at hsent ⊢
        refine W.pair ho' (by rw [f3]; exact ha) (by rw [f6]; exact hfa) _ ?_ hsent
        rw [f4]; exact hmem i hi
  obtain ⟨b, c3, w1, w2, w3, w4, w5, w6⟩ := writeScan_some (c := c2) (s := cscan s) k5 (by
    intro ha
    rw [k8]
    exact r7 ha) hgood
  have hret : Retable c c2 := by
    refine ⟨?_, ?_, r5⟩
    · rw [r2, q0]
    · intro a k hk
      obtain ⟨a1, a2⟩ := r4 a k hk
      rw [g8] at a1
      rw [g7] at a2
      exact ⟨a1, a2⟩
  have hfit : ScanFits c2 (cscan s) := by
    have hlen : (compIdx s).length = s.comps.length := by simp [compIdx]
    refine ⟨⟨by rw [show (cscan s).idx = compIdx s from rfl, hlen]; exact hC.1, by rw [show (cscan s).idx = compIdx s from rfl, hlen]; exact hC.2.1⟩,
      compIdx_incr hC, ?_, ?_, ?_, ⟨hp1, hp2, hp3, hp4⟩⟩
    · intro i hi
      rw [k4]
      have := hidx i hi
      have := J.ncomp
      omega
    · rw [k4]; exact J.ids
    · intro i hi
      show (compOf c2 i).dc < 16 ∧ (compOf c2 i).ac < 16
      rw [k9]
      have := hmem i hi
      by_cases ha : j.c.arith = true
      · exact (J.arith ha).2 _ this
      · have := J.huff (by simpa using ha) _ this
        omega
  have htf : TblFits c2 (cscan s) := by
    refine ⟨by rw [k7]; exact q2, ?_, ?_, hgood, by rw [k5]; simp⟩
    · intro ha
      rw [k3] at ha
      have := (J.arith ha).1
      unfold CS.ArithOk at this ⊢
      have z1 : c2.dcL = j.c.dcL := by rw [r2, q0]; exact f7.1
      have z2 : c2.dcU = j.c.dcU := by rw [r2, q0]; exact f7.2.1
      have z3 : c2.acK = j.c.acK := by rw [r2, q0]; exact f7.2.2
      rw [z1, z2, z3]
      exact this
    · intro ha i hi
      rw [k3] at ha
      show (compOf c2 i).dc < 4 ∧ (compOf c2 i).ac < 4
      rw [k9]
      exact J.huff ha _ (hmem i hi)
  obtain ⟨m1, S, d, hd, hread⟩ := scan_read (proc := proc) (A.retable hret) hfit htf w1
  have hframe : FrameIs c2 m1 := by
    have F := S.agree.frame
    have e1 : c3.prog = c2.prog := by rw [w4]
    have e2 : c3.lossless = c2.lossless := by rw [w4]
    have e3 : c3.arith = c2.arith := by rw [w4]
    have e4 : c3.prec = c2.prec := by rw [w4]
    have e5 : c3.height = c2.height := by rw [w4]
    have e6 : c3.width = c2.width := by rw [w4]
    have e7 : c3.comps = c2.comps := by rw [w4]
    refine ⟨F.seen, by rw [← e1]; exact F.prog, by rw [← e2]; exact F.lossless, by rw [← e3]; exact F.arith, by rw [← e4]; exact F.prec,
      by rw [← e5]; exact F.height, by rw [← e6]; exact F.width, by rw [← e7]; exact F.ncomp, ?_⟩
    intro i hi
    have := F.comps i (by rw [e7]; exact hi)
    simp only [e7] at this
    exact this
  have hhdr : Hdr c2 s m1 := hdr_of_read S hframe hN k5 r5 (fun i hi => hfit.tbl i hi)
  refine ⟨c2, b, c3, m1, r1, w1, ?_, k1, k2, k3, k4, r6, w2, fun h => w3 (by rw [k3]; exact h), S, hhdr, d, hd, hread⟩
  -- the compressor afterwards
  have v1 : c3.ri = c1.ri := by rw [w4]; exact k7
  have v2 : c3.huff = c2.huff := by rw [w4]
  refine ⟨?_, ?_, ?_, ?_⟩
  · have x1 : c3 = { c with huff := c3.huff, hSent := c3.hSent, ri := c3.ri, lastRi := c3.lastRi } := by
      rw [w4, r2, q0]
    have x2 : c3.qSent = c.qSent := by rw [x1]
    calc c3 = { c with huff := c3.huff, hSent := c3.hSent, ri := c3.ri, lastRi := c3.lastRi } := x1
      _ = _ := by
        rw [x2]
        generalize c3.huff = u1
        generalize c3.hSent = u2
        generalize c3.ri = u3
        generalize c3.lastRi = u4
        rw [e0]
  · intro h0
    rw [v1]
    exact q3 h0
  · intro ho
    rw [v2, r3 ho, g7]
    exact W.huff ho
  · intro ho ha hfa k hk hsent
    have ha2 : c2.arith = false := by rw [w4] at ha; exact ha
    have hfa2 : c2.fastest = false := by rw [w4] at hfa; exact hfa
    have hp : prog = false := by
      unfold Job.opt at ho
      rw [k3] at ha2
      rw [ha2] at ho
      cases prog <;> simp at ho ⊢
    have hck : k ∈ j.c.comps := by
      have : c3.comps = c2.comps := by rw [w4]
      rw [this, k4] at hk
      exact hk
    have hh2 : c2.hSent = c.hSent := by rw [r3 ho, g8]
    have w6 := w6 ha2
    rw [w6] at hsent ⊢
    have z : (cscan s).Ss = 0 ∧ (cscan s).Ah = 0 ∧ (cscan s).Se ≠ 0 := by
      unfold LegalFor at L
      rw [if_neg (by simp [hp])] at L
      obtain ⟨p1, p2, p3, -⟩ := L.params s (by simp)
      exact ⟨by show s.Ss.toNat = 0; omega, by show s.Ah.toNat = 0; omega, by show s.Se.toNat ≠ 0; omega⟩
    rw [decide_eq_true (show (cscan s).Ss = 0 ∧ (cscan s).Ah = 0 from ⟨z.1, z.2.1⟩), decide_eq_true z.2.2] at hsent ⊢
    rcases hsent with hsent | hsent
    · left
      rw [hh2] at hsent ⊢
      refine W.pair ho (by rw [f3, ← k3]; exact ha2) (by rw [f6, ← k6]; exact hfa2) k (by rw [f4]; exact hck) hsent
    · right
      unfold wants at hsent ⊢
      simp only [if_true, List.mem_flatMap, List.mem_append, List.mem_singleton, Prod.mk.injEq, Bool.false_eq_true, false_and, or_false,
        Bool.true_eq_false, true_and, false_or, reduceCtorEq] at hsent ⊢
      obtain ⟨k', hk', e⟩ := hsent
      refine ⟨k', hk', ?_⟩
      rw [k8, hscan] at hk'
      obtain ⟨i, hi, rfl⟩ := List.mem_map.1 hk'
      exact J.pairs (by rw [← k3]; exact ha2) hp (by rw [← k6]; exact hfa2) _ hck _ (hmem i hi) e

end Verif.File
