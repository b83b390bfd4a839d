import Verif.Arith.Scan
import Verif.Prog.Props
/-
C49: whole arithmetic-coded files, progressive and sequential.  As in Prog/Image the scans of a script are encoded one after the other
from the coefficient arrays and decoded one after the other into the decoder's arrays; scan headers and conditioning (DAC) are taken as
transmitted.
-/
namespace Verif.Arith
open Verif Verif.Huff
open Verif.Geom (Pos Blk Frame inImage pad walk dMcu cPerScan dPerScan cInitialSetup twopassMcus transcodeMcus onepassMcus specWalk)
open Verif.Script (LegalProg LegalSeq)
open Verif.Prog (compIdx DecSt badScan markComps sentValue)

/-- What goes with a scan besides its script entry: restart interval, table numbers of the components, conditioning, and what follows the
entropy-coded data in the file. -/
structure ACfg where
  ri : Nat
  dcNo : Nat → Nat
  acNo : Nat → Nat
  q : Cond
  marker : Nat
  tail : List Nat

/-- The same for the model of the progressive Huffman coders. -/
def ACfg.cfg (c : ACfg) : Prog.Cfg := ⟨c.ri, c.dcNo, c.acNo, fun _ => ⟨[], []⟩, fun _ => ⟨[], []⟩, c.marker, c.tail⟩

/-- select_scan_parameters (jcmaster.c:442-487), get_sos (jdmarker.c:330-420) and per_scan_setup: what the entropy coders see. -/
def aPar (prog : Bool) (g : Geom.Scan) (s : Script.Scan) (c : ACfg) : APar where
  prog := prog
  Ss := s.Ss.toNat
  Se := s.Se.toNat
  Ah := s.Ah.toNat
  Al := s.Al.toNat
  ri := c.ri
  bs := g.membership.map fun k => ⟨k, c.dcNo ((compIdx s).getD k 0), c.acNo ((compIdx s).getD k 0)⟩
  q := c.q

/-- The table number checks of start_pass (jcarith.c:873-897); in the decoder (jdarith.c:708-729) AC tables are checked if Ss ≠ 0. -/
def tblsOk (dec : Bool) (p : APar) : Bool :=
  p.bs.all fun b => (if !p.prog ∨ (p.Ss = 0 ∧ p.Ah = 0) then decide (b.dcNo < 16) else true) &&
    (if !p.prog ∨ (if dec then p.Ss else p.Se) ≠ 0 then decide (b.acNo < 16) else true)

/-- The coefficient controllers: single-pass compressor, full-image compressor (jccoefct.c), transcoder (jctrans.c). -/
inductive Way where
  | onepass
  | twopass
  | transcode

/-- The MCUs they hand to the entropy encoder. -/
def Way.mcus (w : Way) (f : Frame) (g : Geom.Scan) (img : Pos → Blk) : Option (List (List Blk)) :=
  match w with
  | .onepass => onepassMcus f g img
  | .twopass => some (twopassMcus f g img)
  | .transcode => transcodeMcus f g img

/-- Encoding one scan. -/
def encodeAScan (w : Way) (prog : Bool) (f : Frame) (img : Pos → Blk) (x : Script.Scan × ACfg) : Option (List Nat) :=
  match cPerScan f (compIdx x.1) with
  | .error _ => none
  | .ok g =>
    if tblsOk false (aPar prog g x.1 x.2) then (w.mcus f g img).map (encAScan (aPar prog g x.1 x.2)) else none

/-- start_pass (jdarith.c:625-746), one scan, and what the marker reader finds after it. -/
def decodeAScan (prog : Bool) (f : Frame) (x : Script.Scan × ACfg) (bytes : List Nat) (st : DecSt) :
    Option (DecSt × Option (Nat × List Nat × List Rst.Warn)) :=
  match dPerScan f (compIdx x.1) with
  | .error _ => none
  | .ok g =>
    let p := aPar prog g x.1 x.2
    if prog ∧ badScan p.Ss p.Se p.Ah p.Al (compIdx x.1).length then none
    else if tblsOk true p then
      let b := if prog then markComps p.Ss p.Se p.Ah p.Al (compIdx x.1) (st.bits, st.warns)
        else (st.bits, if p.Ss ≠ 0 ∨ p.Se ≠ 63 ∨ p.Ah ≠ 0 ∨ p.Al ≠ 0 then st.warns + 1 else st.warns)
      match decAScan p (walk f g (dMcu f g)) bytes st.img with
      | none => none
      | some (img, s) => some ({ img := img, bits := b.1, warns := b.2 + s.bad }, s.endOfScan)
    else none

/-- All scans: `bytes` are the entropy-coded data of each, followed in the file by the marker and tail of the `ACfg`. -/
def decodeAScans (prog : Bool) (f : Frame) : List ((Script.Scan × ACfg) × List Nat) → DecSt →
    Option (DecSt × List (Option (Nat × List Nat × List Rst.Warn)))
  | [], st => some (st, [])
  | (x, bytes) :: xs, st =>
    match decodeAScan prog f x (bytes ++ 0xFF :: x.2.marker :: x.2.tail) st with
    | none => none
    | some (st, e) => (decodeAScans prog f xs st).map fun y => (y.1, e :: y.2)

/-! ### proofs -/

theorem blkOk_of_inRange {prec : Nat} (hp : prec ≤ 12) {b : Blk} (h : InRange prec b) : BlkOk b := by
  refine ⟨h.1, Prog.coef16_of_inRange hp h, ?_⟩
  obtain ⟨-, -, h3, h4⟩ := h
  have hpow : (2 ^ (prec + 2) : Nat) ≤ 2 ^ 14 := Nat.pow_le_pow_right (by omega) (by omega)
  have e2 : ((2 ^ (prec + 2) : Nat) : Int) = (2 ^ (prec + 2) : Int) := by push_cast; rfl
  omega

theorem mcus_way {f : Frame} (G : Geom.Good f) {idx : List Nat} {g : Geom.Scan} (hi : ∀ i ∈ idx, i < f.comps.length)
    (hs : cPerScan f idx = .ok g) (img : Pos → Blk) (w : Way) :
    w.mcus f g img = some ((walk f g (dMcu f g)).map fun ps => ps.map (pad f img)) := by
  obtain ⟨e1, e2, e3⟩ := Geom.mcus_eq G hi hs img
  cases w
  · exact e2
  · exact congrArg some e3
  · exact e1

theorem tblsOk_of {dec : Bool} {prog : Bool} {g : Geom.Scan} {s : Script.Scan} {c : ACfg} (h1 : ∀ i, c.dcNo i < 16) (h2 : ∀ i, c.acNo i < 16) :
    tblsOk dec (aPar prog g s c) = true := by
  unfold tblsOk aPar
  rw [List.all_eq_true]
  intro b hb
  obtain ⟨k, -, rfl⟩ := List.mem_map.1 hb
  simp [h1, h2]

theorem idx_facts {n : Nat} {f : Frame} (hn : n = f.comps.length) {s : Script.Scan} (hC : Script.CompsOK n s) :
    (∀ i ∈ compIdx s, i < f.comps.length) ∧ (compIdx s).Nodup ∧ ∀ c : Nat, c ∈ compIdx s ↔ s.has c = true := by
  obtain ⟨hC1, hC2, hC3, hC4⟩ := hC
  refine ⟨?_, ?_, ?_⟩
  · intro i hi
    obtain ⟨c, hc, rfl⟩ := List.mem_map.1 hi
    have := hC3 c hc
    omega
  · unfold compIdx
    rw [List.Nodup, List.pairwise_map]
    refine (List.Pairwise.and_mem.1 hC4).imp ?_
    rintro a b ⟨ha, hb, hab⟩
    have := hC3 a ha
    have := hC3 b hb
    omega
  · intro c
    unfold compIdx Script.Scan.has
    rw [List.mem_map, decide_eq_true_eq]
    constructor
    · rintro ⟨a, ha, rfl⟩
      rw [Int.toNat_of_nonneg (hC3 a ha).1]; exact ha
    · intro hc; exact ⟨_, hc, by simp⟩

theorem aprog_step {w ht ic prec : Nat} (hprec : prec ≤ 12) {fs : List (Nat × Nat)} {f : Frame}
    (h : cInitialSetup false w ht ic prec fs = .ok f) {img : Pos → Blk}
    (himg : ∀ p : Pos, inImage f p = true → InRange prec (img p)) (way : Way) {n : Nat} (hn : n = f.comps.length)
    {pre post : List Script.Scan} {x : Script.Scan × ACfg} (L : LegalProg n prec (pre ++ x.1 :: post))
    {g : Geom.Scan} (hg : cPerScan f (compIdx x.1) = .ok g) (ht1 : ∀ i, x.2.dcNo i < 16) (ht2 : ∀ i, x.2.acNo i < 16)
    (hm : x.2.marker ≠ 0) (hm2 : x.2.marker ≠ 0xFF) {st : DecSt} (I : Prog.Inv f img pre st) :
    ∃ bytes st', encodeAScan way true f img x = some bytes ∧
      decodeAScan true f x (bytes ++ 0xFF :: x.2.marker :: x.2.tail) st = some (st', some (x.2.marker, x.2.tail, [])) ∧
      Prog.Inv f img (pre ++ [x.1]) st' := by
  have F := Prog.scan_core (x := (x.1, x.2.cfg)) hprec h himg hn L hg I
  obtain ⟨G, -, -⟩ := Geom.good_of_setup h
  have hi := (idx_facts hn (L.comps x.1 (by simp))).1
  have hres : (aPar true g x.1 x.2).res = (Prog.scanPar g x.1 x.2.cfg).res := rfl
  have hrdy : (aPar true g x.1 x.2).Ready = (Prog.scanPar g x.1 x.2.cfg).Ready := rfl
  obtain ⟨s', q1, q2, q3⟩ := ascan_roundtrip (aPar true g x.1 x.2)
    ⟨fun _ => F.band, fun _ => by have h1 : (aPar true g x.1 x.2).Al ≤ 13 := F.al; omega, fun _ => F.ref⟩ (walk f g (dMcu f g)) F.nodup (by
      intro ps hps
      have hf := F.fits
      unfold Prog.SPar.Fits at hf
      by_cases h0 : (Prog.scanPar g x.1 x.2.cfg).Ss = 0
      · rw [if_pos h0] at hf
        rw [if_neg (fun hh => hh.2 h0)]
        rw [hf ps hps]
        simp [Prog.scanPar, aPar]
      · rw [if_neg h0] at hf
        rw [if_pos ⟨rfl, h0⟩]
        exact hf ps hps)
    (pad f img) st.img (fun q hq => blkOk_of_inRange hprec (F.range q hq)) (by rw [hrdy]; exact F.ready) hm hm2 x.2.tail
  refine ⟨encAScan (aPar true g x.1 x.2) (List.map (fun ps => List.map (pad f img) ps) (walk f g (dMcu f g))), _, ?_, ?_, F.inv⟩
  · unfold encodeAScan
    simp only [hg]
    rw [if_pos (tblsOk_of ht1 ht2), mcus_way G hi hg img way]
    rfl
  · unfold decodeAScan
    have hper : dPerScan f (compIdx x.1) = .ok g := F.per
    simp only [hper]
    have hgood : badScan (aPar true g x.1 x.2).Ss (aPar true g x.1 x.2).Se (aPar true g x.1 x.2).Ah (aPar true g x.1 x.2).Al
      (compIdx x.1).length = false := F.good
    rw [if_neg (by rw [hgood]; simp), if_pos (tblsOk_of ht1 ht2), q1]
    dsimp only
    have hq : (markComps (aPar true g x.1 x.2).Ss (aPar true g x.1 x.2).Se (aPar true g x.1 x.2).Ah (aPar true g x.1 x.2).Al (compIdx x.1)
      (st.bits, st.warns)).2 = 0 := F.quiet
    simp only [if_true]
    rw [q2, q3, hq]
    rfl

/-- **C49**, progressive: for every image whose coefficients are in range and every scan script the library accepts as progressive, with
any restart intervals, table numbers and conditioning, all scans encode, the decoder reads them all without warning, finding after each
scan the marker that follows it; every coefficient of the image comes back with exactly the bits the script sent. -/
theorem C49_prog (w ht ic prec : Nat) (hprec : prec ≤ 12) (fs : List (Nat × Nat)) (f : Frame)
    (h : cInitialSetup false w ht ic prec fs = .ok f) (hfs : fs ≠ []) (img : Pos → Blk)
    (himg : ∀ p : Pos, inImage f p = true → InRange prec (img p)) (way : Way)
    (scans : List (Script.Scan × ACfg)) (hv : Script.validate fs.length prec (scans.map Prod.fst) = .ok .progressive)
    (hs : ∀ x ∈ scans, ∃ g, cPerScan f (compIdx x.1) = .ok g)
    (ht : ∀ x ∈ scans, ∀ i, x.2.dcNo i < 16 ∧ x.2.acNo i < 16)
    (hm : ∀ x ∈ scans, x.2.marker ≠ 0 ∧ x.2.marker ≠ 0xFF) :
    ∃ bytess st, scans.mapM (encodeAScan way true f img) = some bytess ∧
      decodeAScans true f (scans.zip bytess) DecSt.init = some (st, scans.map fun x => some (x.2.marker, x.2.tail, [])) ∧
      st.warns = 0 ∧
      ∀ p : Pos, inImage f p = true → (st.img p).length = 64 ∧ ∀ k < 64,
        (st.img p).getD (natOrder.getD k 0) 0 =
          sentValue (scans.map Prod.fst) p.1 k ((img p).getD (natOrder.getD k 0) 0) := by
  obtain ⟨G, hlen, -⟩ := Geom.good_of_setup h
  have L := (Script.validate_progressive_iff fs.length prec (by
    have := List.length_pos_iff.2 hfs
    omega) _).1 hv
  have key : ∀ (post pre : List (Script.Scan × ACfg)) (st : DecSt), LegalProg fs.length prec ((pre ++ post).map Prod.fst) →
      (∀ x ∈ post, ∃ g, cPerScan f (compIdx x.1) = .ok g) → (∀ x ∈ post, ∀ i, x.2.dcNo i < 16 ∧ x.2.acNo i < 16) →
      (∀ x ∈ post, x.2.marker ≠ 0 ∧ x.2.marker ≠ 0xFF) → Prog.Inv f img (pre.map Prod.fst) st →
      ∃ bytess st', post.mapM (encodeAScan way true f img) = some bytess ∧
        decodeAScans true f (post.zip bytess) st = some (st', post.map fun x => some (x.2.marker, x.2.tail, [])) ∧
        Prog.Inv f img ((pre ++ post).map Prod.fst) st' := by
    intro post
    induction post with
    | nil =>
      intro pre st _ _ _ _ I
      exact ⟨[], st, rfl, rfl, by simpa using I⟩
    | cons x post ih =>
      intro pre st L hs ht hm I
      obtain ⟨g, hg⟩ := hs x (by simp)
      obtain ⟨m1, m2⟩ := hm x (by simp)
      obtain ⟨bytes, st1, q1, q2, I1⟩ := aprog_step hprec h himg way hlen.symm (pre := pre.map Prod.fst) (post := post.map Prod.fst)
        (by simpa using L) hg (fun i => (ht x (by simp) i).1) (fun i => (ht x (by simp) i).2) m1 m2 I
      obtain ⟨bytess, st2, q3, q4, I2⟩ := ih (pre ++ [x]) st1 (by simpa using L) (fun y hy => hs y (by simp [hy]))
        (fun y hy => ht y (by simp [hy])) (fun y hy => hm y (by simp [hy])) (by simpa using I1)
      refine ⟨bytes :: bytess, st2, ?_, ?_, by simpa using I2⟩
      · rw [List.mapM_cons, q1, q3]; rfl
      · rw [List.zip_cons_cons, decodeAScans, q2]
        dsimp only
        rw [q4]; rfl
  obtain ⟨bytess, st, q1, q2, I⟩ := key scans [] DecSt.init (by simpa using L) hs ht hm (Prog.inv_init f img)
  exact ⟨bytess, st, q1, q2, I.warns, fun p hp => ⟨I.len p, fun k hk => by simpa using I.val p hp k hk⟩⟩

/-- C49, progressive scripts that send everything: the coefficient arrays come back exactly. -/
theorem C49_prog_complete (w ht ic prec : Nat) (hprec : prec ≤ 12) (fs : List (Nat × Nat)) (f : Frame)
    (h : cInitialSetup false w ht ic prec fs = .ok f) (hfs : fs ≠ []) (img : Pos → Blk)
    (himg : ∀ p : Pos, inImage f p = true → InRange prec (img p)) (way : Way)
    (scans : List (Script.Scan × ACfg)) (hv : Script.validate fs.length prec (scans.map Prod.fst) = .ok .progressive)
    (hall : Prog.Complete fs.length (scans.map Prod.fst))
    (hs : ∀ x ∈ scans, ∃ g, cPerScan f (compIdx x.1) = .ok g)
    (ht : ∀ x ∈ scans, ∀ i, x.2.dcNo i < 16 ∧ x.2.acNo i < 16)
    (hm : ∀ x ∈ scans, x.2.marker ≠ 0 ∧ x.2.marker ≠ 0xFF) :
    ∃ bytess st ends, scans.mapM (encodeAScan way true f img) = some bytess ∧
      decodeAScans true f (scans.zip bytess) DecSt.init = some (st, ends) ∧ st.warns = 0 ∧
      ∀ p : Pos, inImage f p = true → st.img p = img p := by
  obtain ⟨bytess, st, q1, q2, q3, q4⟩ := C49_prog w _ ic prec hprec fs f h hfs img himg way scans hv hs ht hm
  refine ⟨bytess, st, _, q1, q2, q3, ?_⟩
  have L := (Script.validate_progressive_iff fs.length prec (by
    have := List.length_pos_iff.2 hfs
    omega) _).1 hv
  obtain ⟨G, hlen, -⟩ := Geom.good_of_setup h
  intro p hp
  have hp1 : p.1 < fs.length := by
    unfold inImage at hp
    simp only [Bool.and_eq_true, decide_eq_true_eq] at hp
    omega
  exact Prog.exact_of_complete L hall hp1 (himg p hp).1 (q4 p hp).1 (q4 p hp).2

/-- The decoder after some scans of a sequential script. -/
structure SInv (f : Frame) (img : Pos → Blk) (pre : List Script.Scan) (st : DecSt) : Prop where
  warns : st.warns = 0
  sent : ∀ p : Pos, (∃ s ∈ pre, s.has p.1 = true) → inImage f p = true → st.img p = img p
  unsent : ∀ p : Pos, (¬∃ s ∈ pre, s.has p.1 = true) → st.img p = List.replicate 64 0

theorem aseq_step {w ht ic prec : Nat} (hprec : prec ≤ 12) {fs : List (Nat × Nat)} {f : Frame}
    (h : cInitialSetup false w ht ic prec fs = .ok f) {img : Pos → Blk}
    (himg : ∀ p : Pos, inImage f p = true → InRange prec (img p)) (way : Way) {n : Nat} (hn : n = f.comps.length)
    {pre post : List Script.Scan} {x : Script.Scan × ACfg} (L : LegalSeq n (pre ++ x.1 :: post))
    {g : Geom.Scan} (hg : cPerScan f (compIdx x.1) = .ok g) (ht1 : ∀ i, x.2.dcNo i < 16) (ht2 : ∀ i, x.2.acNo i < 16)
    (hm : x.2.marker ≠ 0) (hm2 : x.2.marker ≠ 0xFF) {st : DecSt} (I : SInv f img pre st) :
    ∃ bytes st', encodeAScan way false f img x = some bytes ∧
      decodeAScan false f x (bytes ++ 0xFF :: x.2.marker :: x.2.tail) st = some (st', some (x.2.marker, x.2.tail, [])) ∧
      SInv f img (pre ++ [x.1]) st' := by
  obtain ⟨G, -, -⟩ := Geom.good_of_setup h
  obtain ⟨-, hdp, -⟩ := Geom.geometry_agrees false w _ ic prec fs f h
  obtain ⟨hi, hnd, hhas⟩ := idx_facts hn (L.comps x.1 (by simp))
  have hne := Geom.idx_ne hg
  have ew := Geom.dWalk_eq_spec G hi hg
  obtain ⟨l1, l2⟩ := Geom.spec_lengths hg
  have hwin : ∀ q ∈ (walk f g (dMcu f g)).flatten, q.1 ∈ compIdx x.1 := by
    intro q hq
    rw [ew] at hq
    exact (Geom.spec_padded G hi hne q hq).1
  have hfresh : ∀ c, c ∈ compIdx x.1 → ¬∃ s ∈ pre, s.has c = true := by
    rintro c hc ⟨s, hs, hsc⟩
    have := L.once c (by rw [hn]; exact hi c hc)
    rw [List.filter_append, List.filter_cons, if_pos ((hhas c).1 hc), List.length_append, List.length_cons] at this
    have hmem : s ∈ pre.filter (·.has c) := List.mem_filter.2 ⟨hs, hsc⟩
    have := List.length_pos_of_mem hmem
    omega
  have hrange := fun q hq => Prog.pad_inRange (prec := prec) G hi (fun p _ h => himg p h) q (hwin q hq)
  have hres : (aPar false g x.1 x.2).res = fun o _ => o := rfl
  obtain ⟨s', q1, q2, q3⟩ := ascan_roundtrip (aPar false g x.1 x.2) ⟨by simp [aPar], by simp [aPar], by simp [aPar]⟩
    (walk f g (dMcu f g)) (by rw [ew]; exact Geom.spec_nodup hnd hne) (by
      intro ps hps
      rw [if_neg (by simp [aPar])]
      rw [ew] at hps
      rw [(l2 ps hps).2]
      simp [aPar])
    (pad f img) st.img (fun q hq => blkOk_of_inRange hprec (hrange q hq)) (by
      intro q hq
      exact I.unsent q (hfresh _ (hwin q hq))) hm hm2 x.2.tail
  refine ⟨encAScan (aPar false g x.1 x.2) (List.map (fun ps => List.map (pad f img) ps) (walk f g (dMcu f g))),
    ⟨fun q => if q ∈ (walk f g (dMcu f g)).flatten then pad f img q else st.img q, st.bits, 0⟩, ?_, ?_, ⟨rfl, ?_, ?_⟩⟩
  · unfold encodeAScan
    simp only [hg]
    rw [if_pos (tblsOk_of ht1 ht2), mcus_way G hi hg img way]
    rfl
  · unfold decodeAScan
    simp only [hdp, hg]
    obtain ⟨p1, p2, p3, p4⟩ := L.params x.1 (by simp)
    rw [if_neg (by simp), if_pos (tblsOk_of ht1 ht2), q1]
    simp only [Bool.false_eq_true, if_false]
    rw [if_neg (by simp [aPar, p1, p2, p3, p4]), q2, q3, I.warns, hres]
  · rintro p ⟨s, hs, hsp⟩ hin
    dsimp only
    by_cases hp : p.1 ∈ compIdx x.1
    · rw [if_pos (by rw [ew]; exact Geom.spec_complete G hi hne p hp hin), Geom.pad_in hin]
    · rw [if_neg (fun hq => hp (hwin p hq))]
      refine I.sent p ⟨s, ?_, hsp⟩ hin
      rcases List.mem_append.1 hs with h1 | h1
      · exact h1
      · rw [List.mem_singleton] at h1
        subst h1
        exact absurd ((hhas _).2 hsp) hp
  · intro p hno
    dsimp only
    rw [if_neg, I.unsent p (fun ⟨s, hs, hsp⟩ => hno ⟨s, by simp [hs], hsp⟩)]
    intro hq
    exact hno ⟨x.1, by simp, (hhas _).1 (hwin p hq)⟩

/-- **C49**, sequential: for every image whose coefficients are in range and every scan script the library accepts as sequential, with
any restart intervals, table numbers and conditioning, the coefficient arrays come back exactly, without warning, and after each scan the
marker that follows it is found. -/
theorem C49_seq (w ht ic prec : Nat) (hprec : prec ≤ 12) (fs : List (Nat × Nat)) (f : Frame)
    (h : cInitialSetup false w ht ic prec fs = .ok f) (hfs : fs ≠ []) (img : Pos → Blk)
    (himg : ∀ p : Pos, inImage f p = true → InRange prec (img p)) (way : Way)
    (scans : List (Script.Scan × ACfg)) (hv : Script.validate fs.length prec (scans.map Prod.fst) = .ok .sequential)
    (hs : ∀ x ∈ scans, ∃ g, cPerScan f (compIdx x.1) = .ok g)
    (ht : ∀ x ∈ scans, ∀ i, x.2.dcNo i < 16 ∧ x.2.acNo i < 16)
    (hm : ∀ x ∈ scans, x.2.marker ≠ 0 ∧ x.2.marker ≠ 0xFF) :
    ∃ bytess st, scans.mapM (encodeAScan way false f img) = some bytess ∧
      decodeAScans false f (scans.zip bytess) DecSt.init = some (st, scans.map fun x => some (x.2.marker, x.2.tail, [])) ∧
      st.warns = 0 ∧ ∀ p : Pos, inImage f p = true → st.img p = img p := by
  obtain ⟨G, hlen, -⟩ := Geom.good_of_setup h
  have L := (Script.validate_sequential_iff fs.length prec (by
    have := List.length_pos_iff.2 hfs
    omega) _).1 hv
  have key : ∀ (post pre : List (Script.Scan × ACfg)) (st : DecSt), LegalSeq fs.length ((pre ++ post).map Prod.fst) →
      (∀ x ∈ post, ∃ g, cPerScan f (compIdx x.1) = .ok g) → (∀ x ∈ post, ∀ i, x.2.dcNo i < 16 ∧ x.2.acNo i < 16) →
      (∀ x ∈ post, x.2.marker ≠ 0 ∧ x.2.marker ≠ 0xFF) → SInv f img (pre.map Prod.fst) st →
      ∃ bytess st', post.mapM (encodeAScan way false f img) = some bytess ∧
        decodeAScans false f (post.zip bytess) st = some (st', post.map fun x => some (x.2.marker, x.2.tail, [])) ∧
        SInv f img ((pre ++ post).map Prod.fst) st' := by
    intro post
    induction post with
    | nil =>
      intro pre st _ _ _ _ I
      exact ⟨[], st, rfl, rfl, by simpa using I⟩
    | cons x post ih =>
      intro pre st L hs ht hm I
      obtain ⟨g, hg⟩ := hs x (by simp)
      obtain ⟨m1, m2⟩ := hm x (by simp)
      obtain ⟨bytes, st1, q1, q2, I1⟩ := aseq_step hprec h himg way hlen.symm (pre := pre.map Prod.fst) (post := post.map Prod.fst)
        (by simpa using L) hg (fun i => (ht x (by simp) i).1) (fun i => (ht x (by simp) i).2) m1 m2 I
      obtain ⟨bytess, st2, q3, q4, I2⟩ := ih (pre ++ [x]) st1 (by simpa using L) (fun y hy => hs y (by simp [hy]))
        (fun y hy => ht y (by simp [hy])) (fun y hy => hm y (by simp [hy])) (by simpa using I1)
      refine ⟨bytes :: bytess, st2, ?_, ?_, by simpa using I2⟩
      · rw [List.mapM_cons, q1, q3]; rfl
      · rw [List.zip_cons_cons, decodeAScans, q2]
        dsimp only
        rw [q4]; rfl
  obtain ⟨bytess, st, q1, q2, I⟩ := key scans [] DecSt.init (by simpa using L) hs ht hm
    ⟨rfl, by simp, fun _ _ => rfl⟩
  refine ⟨bytess, st, q1, q2, I.warns, fun p hp => I.sent p ?_ hp⟩
  have hp1 : p.1 < fs.length := by
    unfold inImage at hp
    simp only [Bool.and_eq_true, decide_eq_true_eq] at hp
    omega
  have := L.once p.1 hp1
  have hne : (scans.map Prod.fst).filter (·.has p.1) ≠ [] := by
    intro e; rw [e] at this; simp at this
  obtain ⟨s, hs'⟩ := List.exists_mem_of_ne_nil _ hne
  rw [List.mem_filter] at hs'
  exact ⟨s, by simpa using hs'.1, hs'.2⟩

/-! ### Examples -/

/-- Restart after every MCU of the scan, two tables, conditioning other than the default. -/
def exACfg : ACfg := ⟨1, (· % 2), (· % 2), ⟨fun _ => 1, fun _ => 3, fun t => 5 + t⟩, 0xDA, [0, 8]⟩

/-- The hypotheses of `C49_prog` and `C49_prog_complete` hold together for an image with all four kinds of scans. -/
example : ∃ bytess st ends, (Prog.exScript.map (·, exACfg)).mapM
      (encodeAScan .twopass true Prog.exFrame Prog.exImg) = some bytess ∧
    decodeAScans true Prog.exFrame
      ((Prog.exScript.map (·, exACfg)).zip bytess) DecSt.init = some (st, ends) ∧
    st.warns = 0 ∧ ∀ p : Pos, inImage Prog.exFrame p = true → st.img p = Prog.exImg p := by
  have hchk : ∀ x ∈ Prog.exScript, (match cPerScan Prog.exFrame (compIdx x) with | .error _ => false | .ok _ => true) = true := by
    decide +kernel
  refine C49_prog_complete 17 9 2 8 (by omega) [(2, 1), (1, 1)] Prog.exFrame rfl (by simp) Prog.exImg Prog.exImg_range .twopass _ rfl (by decide +kernel) ?_ ?_ ?_
  · intro x hx
    obtain ⟨s, hs, rfl⟩ := List.mem_map.1 hx
    have := hchk s hs
    dsimp only
    cases e : cPerScan Prog.exFrame (compIdx s) with
    | error _ => rw [e] at this; simp at this
    | ok g => exact ⟨g, rfl⟩
  · intro x hx i
    obtain ⟨s, hs, rfl⟩ := List.mem_map.1 hx
    simp only [exACfg]
    omega
  · intro x hx
    obtain ⟨s, hs, rfl⟩ := List.mem_map.1 hx
    exact ⟨by simp [exACfg], by simp [exACfg]⟩

/-- The hypotheses of `C49_seq` hold together: one scan per component, from the single-pass compressor. -/
example : ∃ bytess st ends, ([⟨[0], 0, 63, 0, 0⟩, ⟨[1], 0, 63, 0, 0⟩].map
        (·, exACfg)).mapM
      (encodeAScan .onepass false Prog.exFrame Prog.exImg) = some bytess ∧
    decodeAScans false Prog.exFrame (([⟨[0], 0, 63, 0, 0⟩, ⟨[1], 0, 63, 0, 0⟩].map
        (·, exACfg)).zip bytess) DecSt.init = some (st, ends) ∧
    st.warns = 0 ∧ ∀ p : Pos, inImage Prog.exFrame p = true → st.img p = Prog.exImg p := by
  obtain ⟨b, st, h1, h2, h3, h4⟩ := C49_seq 17 9 2 8 (by omega) [(2, 1), (1, 1)] Prog.exFrame rfl (by simp) Prog.exImg Prog.exImg_range .onepass
    ([⟨[0], 0, 63, 0, 0⟩, ⟨[1], 0, 63, 0, 0⟩].map (·, exACfg)) rfl (by
      intro x hx
      obtain ⟨s, hs, rfl⟩ := List.mem_map.1 hx
      simp only [List.mem_cons, List.not_mem_nil, or_false] at hs
      rcases hs with rfl | rfl
      · exact ⟨_, rfl⟩
      · exact ⟨_, rfl⟩) (by
      intro x hx i
      obtain ⟨s, hs, rfl⟩ := List.mem_map.1 hx
      simp only [exACfg]
      omega) (by
      intro x hx
      obtain ⟨s, hs, rfl⟩ := List.mem_map.1 hx
      exact ⟨by simp [exACfg], by simp [exACfg]⟩)
  exact ⟨b, st, _, h1, h2, h3, h4⟩

/-- A scan of one component, MCUs of one block. -/
def exAPar (ri : Nat) : APar := ⟨false, 0, 63, 0, 0, ri, [⟨0, 0, 0⟩], ⟨fun _ => 0, fun _ => 1, fun _ => 5⟩⟩

/-- The data of three MCUs with interval 2 have one restart marker and no other FF. -/
example : (encAScan (exAPar 2) [[Prog.exImg (0, 0, 0)], [Prog.exImg (0, 0, 1)], [Prog.exImg (0, 0, 2)]]).filter (· = 0xFF) = [0xFF] := by
  decide +kernel

/-- Finding: the range of DC values matters.  With coefficients 20000 and -20000, which a transcoding application can supply, the
difference needs 16 magnitude bits; the arithmetic encoder has no check for this (the Huffman encoder stops with JERR_BAD_DCT_COEF), and
the decoder meets a bad code: the second block is lost. -/
theorem C49_large_dc :
    (let E : Pos → Blk := fun p => (if p.2.2 = 0 then 20000 else -20000) :: List.replicate 63 0
     let W : List (List Pos) := [[(0, 0, 0)], [(0, 0, 1)]]
     (decAScan (exAPar 0) W (encAScan (exAPar 0) (W.map fun ps => ps.map E) ++ [0xFF, 0xD9]) (fun _ => List.replicate 64 0)).map
      fun r => (decide (r.1 (0, 0, 0) = E (0, 0, 0)), decide (r.1 (0, 0, 1) = List.replicate 64 0), r.2.bad)) = some (true, true, 1) := by
  decide +kernel

end Verif.Arith
