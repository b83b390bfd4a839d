import Verif.Lossless.Rows
import Verif.Huff.OptRound
import Verif.Prog.Scan
import Verif.Script.Validate
/-
C03: lossless mode.  One scan, then a whole image.  The scan headers, tables and restart interval are taken as
transmitted.  Code modelled besides Rows.lean: jclhuff.c:131-206 (start_pass_lhuff, tables), jdlhuff.c:79-133
(start_pass_lhuff_decoder), jclossls.c:277-283 and jddiffct.c:104-109 (restart interval check), jdlossls.c:217-236
(scan parameter check), jddiffct.c:280-345 (storing the rows).
-/
namespace Verif.Lossless
open Verif Verif.Huff Verif.Prog

/-- `jpeg_make_c_derived_tbl(cinfo, TRUE, …)` in lossless mode: symbols 0..16 (jchuff.c:309). -/
def LPar.derived (p : LPar) (dcT : Nat → HuffTbl) (t : Nat) : CTbl :=
  if t ∈ p.tbls then (makeCTbl 16 (dcT t)).getD (fun _ => (0, 0)) else fun _ => (0, 0)

/-- The calls of the whole scan, starting from fresh predictors and counters. -/
def scanCalls (p : LPar) (rows : List (List (List Int))) : Option (List Tok) :=
  rowsToks p.ri p.tbls (encDiffs p rows p.startC) p.ri 0

/-- Encoding a scan; `none` = error exit. -/
def encLScan (p : LPar) (dcT : Nat → HuffTbl) (rows : List (List (List Int))) : Option (List Nat) :=
  if p.ri % p.w ≠ 0 then none
  else if p.tbls.all (fun t => (makeCTbl 16 (dcT t)).isSome) then
    match scanCalls p rows with
    | none => none
    | some ts => writeScan (p.derived dcT) ts
  else none

/-- The statistics pass (encode_mcus_gather): the counter increments are the symbols of the output pass. -/
def gatherLScan (p : LPar) (rows : List (List (List Int))) : Option (List SymEvent) :=
  (scanCalls p rows).map (tokEvents true)

/-- Decoding a scan of `h` rows. -/
def decLScan (p : LPar) (h : Nat) (dcT : Nat → HuffTbl) (bytes : List Nat) :
    Option (List (List (List Int)) × DSt) :=
  if p.Ss < 1 ∨ p.Ss > 7 ∨ p.Al ≥ p.P ∨ p.ri % p.w ≠ 0 then none
  else
    match p.tbls.mapM (fun t => makeDTbl (some 16) (dcT t)) with
    | none => none
    | some ds =>
      (decRows p (p.ri / p.w) ds h (pInit (decRow ds p.w) (p.ri / p.w) bytes) (p.tbls.map (fun _ => ⟨0, []⟩))).map
        (fun x => (x.1, x.2.base))

/-- Usable tables: accepted by the encoder, with a code for every symbol of the scan. -/
structure LTabsOk (p : LPar) (dcT : Nat → HuffTbl) (rows : List (List (List Int))) : Prop where
  wf : ∀ t ∈ p.tbls, (dcT t).counts.length = 16 ∧ IsBytes (dcT t).vals
  made : ∀ t ∈ p.tbls, ∃ c, makeCTbl 16 (dcT t) = some c
  cov : ∀ evs, gatherLScan p rows = some evs → ∀ e ∈ evs, ∃ c, makeCTbl 16 (dcT e.tbl) = some c ∧ (c e.sym).2 ≠ 0

theorem encDiffs_shape (p : LPar) (rows : List (List (List Int))) : ∀ (st : List ECmp),
    (∀ row ∈ rows, row.length = st.length) →
    ∀ ms ∈ encDiffs p rows st, ms.length = p.w ∧ ∀ m ∈ ms, m.length = st.length := by
  induction rows with
  | nil => intro st _ ms h; simp [encDiffs] at h
  | cons row rows ih =>
    intro st hl ms h
    have hr := hl row (by simp)
    simp only [encDiffs, List.mem_cons] at h
    rcases h with rfl | h
    · refine ⟨by simp [toMcus], ?_⟩
      intro m hm
      simp only [toMcus, List.mem_map] at hm
      obtain ⟨j, -, rfl⟩ := hm
      simp [hr]
    · have := ih _ (by intro r hr'; rw [List.length_map, List.length_zipWith, hr, Nat.min_self]; exact hl r (by simp [hr'])) ms h
      simpa [hr] using this

theorem encDiffs_length (p : LPar) (rows : List (List (List Int))) : ∀ (st : List ECmp),
    (encDiffs p rows st).length = rows.length := by
  induction rows with
  | nil => intro; rfl
  | cons row rows ih => intro st; simp [encDiffs, ih]

theorem startC_length (p : LPar) : p.startC.length = p.tbls.length := by simp [LPar.startC]

theorem scanCalls_total (p : LPar) (hw : 0 < p.w) (hri : p.ri % p.w = 0) (rows : List (List (List Int)))
    (hr : ∀ row ∈ rows, row.length = p.tbls.length) :
    ∃ ts, scanCalls p rows = some ts ∧ encToks (encRowE p.tbls) (p.ri / p.w) (encDiffs p rows p.startC) = some ts ∧
      ∀ y ∈ ts, TokShape p.tbls (· ≤ 16) y := by
  have hmul : p.ri / p.w * p.w = p.ri := Nat.div_mul_cancel (Nat.dvd_of_mod_eq_zero hri)
  have hsh := encDiffs_shape p rows p.startC (by rw [startC_length]; exact hr)
  have he := rowsToks_eq p.w (p.ri / p.w) hw p.tbls (encDiffs p rows p.startC) (p.ri / p.w) 0 (fun r h => (hsh r h).1)
  rw [hmul] at he
  have hstep : ∀ (row : List (List Int)), ∃ t, (encRowE p.tbls).step () row = some (t, ()) ∧
      ∀ y ∈ t, TokShape p.tbls (· ≤ 16) y := by
    intro row
    obtain ⟨x, e, h⟩ := mcuLoop_total p.tbls row
    exact ⟨x.1, by simp only [encRowE, e, Option.map_some], h⟩
  obtain ⟨ts, e⟩ := encGo_total (encRowE p.tbls) (fun _ => True) trivial (fun _ _ => ⟨[], rfl⟩) (p.ri / p.w)
    (encDiffs p rows p.startC) (fun m _ s _ => by
      obtain ⟨t, h, -⟩ := hstep m
      exact ⟨t, (), h, trivial⟩) (s := ()) trivial (p.ri / p.w) 0
  refine ⟨ts, by rw [scanCalls, he]; exact e, e, ?_⟩
  apply encGo_all (encRowE p.tbls) (TokShape p.tbls (· ≤ 16)) (fun _ => trivial) _ _ _ _ e
  · intro s t h; simp only [encRowE, Option.some.injEq] at h; subst h; simp
  · intro m _ s t s' h
    obtain ⟨t', h', hs⟩ := hstep m
    cases s
    rw [h'] at h
    simp only [Option.some.injEq, Prod.mk.injEq] at h
    rw [← h.1]; exact hs

/-- One lossless scan. -/
theorem lscan_roundtrip (p : LPar) (hP : p.P = 8 ∨ p.P = 12 ∨ p.P = 16) (hSs : 1 ≤ p.Ss ∧ p.Ss ≤ 7) (hAl : p.Al < p.P)
    (hw : 0 < p.w) (hri : p.ri % p.w = 0) (hri32 : p.ri < 2 ^ 32) (rows : List (List (List Int)))
    (hr : ∀ row ∈ rows, GoodRow p p.tbls.length row) (dcT : Nat → HuffTbl) (hT : LTabsOk p dcT rows)
    {m : Nat} (hm : 0 < m ∧ m < 0xFF) {tail : List Nat} (htail : IsBytes tail) :
    ∃ bytes s', encLScan p dcT rows = some bytes ∧ IsBytes bytes ∧
      decLScan p rows.length dcT (bytes ++ [0xFF, m] ++ tail) =
        some (rows.map (fun row => row.map (fun r => r.map (truncPt p.Al))), s') ∧
      s'.rd.warns = 0 ∧ endOfScan s' = some (m, tail, 0) := by
  obtain ⟨ts, hts, henc, hsh⟩ := scanCalls_total p hw hri rows (fun row h => (hr row h).1)
  have hwf : ∀ t, CWf (p.derived dcT t) := by
    intro t s
    unfold LPar.derived
    split
    · rename_i ht
      obtain ⟨c, e⟩ := hT.made t ht
      rw [e]; exact makeCTbl_wf (hT.wf t ht).1 e s
    · simp
  have hok : ∀ y ∈ ts, TokOk (p.derived dcT) y := by
    intro y hy
    have h := hsh y hy
    cases y with
    | bits c n => exact h
    | rst n => trivial
    | sym t s =>
      have hmem : (⟨true, t, s⟩ : SymEvent) ∈ tokEvents true ts := by
        unfold tokEvents
        exact List.mem_filterMap.2 ⟨_, hy, rfl⟩
      obtain ⟨c, e, hc⟩ := hT.cov (tokEvents true ts) (by rw [gatherLScan, hts]; rfl) _ hmem
      show (p.derived dcT t s).2 ≠ 0
      unfold LPar.derived
      rw [if_pos h.1, e]
      exact hc
  have hbd : ∀ t ∈ p.tbls, ∃ d, makeDTbl (some 16) (dcT t) = some d := by
    intro t ht
    obtain ⟨c, e⟩ := hT.made t ht
    exact makeD_of_makeC (some 16) (by simp) e
  obtain ⟨ds, hds⟩ := mapM_isSome hbd
  have hL : List.Forall₂ (fun b d => Linked (p.derived dcT b) d) p.tbls ds := by
    have hF := mapM_forall₂ hds
    have : ∀ b ∈ p.tbls, b ∈ p.tbls := fun b hb => hb
    generalize hbs : p.tbls = bs at hF
    rw [hbs] at this
    have hsub : ∀ b ∈ bs, b ∈ p.tbls := by rw [hbs]; exact this
    clear hbd hds hbs this
    induction hF with
    | nil => exact .nil
    | @cons b d bs ds hbd _ ih =>
      refine .cons ?_ (ih (fun b hb => hsub b (by simp [hb])))
      have hmem := hsub b (by simp)
      obtain ⟨c, e⟩ := hT.made b hmem
      obtain ⟨w1, w2⟩ := hT.wf b hmem
      unfold LPar.derived
      rw [if_pos hmem, e]
      exact linked_of_tables w1 w2 e hbd
  have hdsl : ds.length = p.tbls.length := hL.length_eq.symm
  have hshape := encDiffs_shape p rows p.startC (by rw [startC_length]; exact fun row h => (hr row h).1)
  have hlen := encDiffs_length p rows p.startC
  generalize hD : encDiffs p rows p.startC = D at *
  obtain ⟨bytes, s', q1, q2, q3, q4, q5⟩ := frame_roundtrip (encRowE p.tbls) (encRowE_noRst p.tbls) (decRow ds p.w) hwf
    (p.ri / p.w) (D.map (fun ms => (ms, (), (ms.map (fun m => m.map decVal), false)))) ts
    (by rw [List.map_map]; simpa [Function.comp_def] using henc) hok
    (by
      intro c t hc henc' hok'
      apply runs_simple (encRowE p.tbls) (encRowE_noRst p.tbls) (fun _ => rfl) _ c _ _ t henc' hok'
      intro x hx s t s' hst hok r rest hr' ht hb
      obtain ⟨ms, hms, rfl⟩ := List.mem_map.1 (hc x hx)
      dsimp only at hst ⊢
      simp only [encRowE, Option.map_eq_some_iff, Prod.mk.injEq, and_true] at hst
      obtain ⟨y, e, rfl⟩ := hst
      obtain ⟨l1, l2⟩ := hshape ms hms
      obtain ⟨r', e', hs, hb'⟩ := mcuLoop_spec hL ms y (by rw [startC_length] at l2; exact l2) e hok r rest hr' ht hb
      refine ⟨r', ?_, hs, hb'⟩
      simp only [decRow]
      rw [← l1, e']
      rfl) hm htail
  refine ⟨bytes, s'.base, ?_, q2, ?_, q4, q5⟩
  · unfold encLScan
    rw [if_neg (by simpa using hri), if_pos, hts]
    · exact q1
    · rw [List.all_eq_true]
      intro t ht
      obtain ⟨c, e⟩ := hT.made t ht
      rw [e]; rfl
  · unfold decLScan
    rw [if_neg (by omega), hds]
    dsimp only
    have hdec := decRows_eq p (p.ri / p.w) ds (D.map (fun ms => ms.map (fun m => m.map decVal)))
      (pInit (decRow ds p.w) (p.ri / p.w) (bytes ++ [0xFF, m] ++ tail)) s' (p.tbls.map (fun _ => ⟨0, []⟩))
      (by simpa [List.map_map, Function.comp_def] using q3)
    rw [List.length_map, hlen] at hdec
    rw [hdec]
    simp only [Option.map_some, Option.some.injEq, Prod.mk.injEq, and_true]
    rw [← hD]
    have hmul : p.ri / p.w * p.w = p.ri := Nat.div_mul_cancel (Nat.dvd_of_mod_eq_zero hri)
    apply rows_inv hw hmul.symm (Nat.lt_of_le_of_lt (Nat.div_le_self _ _) hri32) hP
    · exact Nat.le_refl _
    · unfold LPar.startC
      rw [List.forall₂_map_left_iff, List.forall₂_map_right_iff]
      refine List.forall₂_same.2 (fun x _ => ?_)
      unfold RowInv ECmp.reset
      split
      · exact ⟨rfl, rfl⟩
      · refine ⟨⟨rfl, fun h => absurd rfl h⟩, fun _ => rfl⟩
    · rw [startC_length]; exact hr

/-! ### the whole image -/

/-- What goes with a scan besides its script entry: restart interval (DRI, jcmarker.c:453-463), table number per component
(SOS, jcmarker.c:495-540), the tables themselves (DHT), and what follows the entropy-coded data in the file. -/
structure LCfg where
  ri : Nat
  dcNo : Nat → Nat
  dcT : Nat → HuffTbl
  marker : Nat
  tail : List Nat

/-- Sample planes: component, row (the `_JSAMPIMAGE` buffers of jcdiffct.c:95-175 and jddiffct.c:90-150, addressed over the
whole image). -/
abbrev Planes := Nat → Nat → List Int

/-- Components of a scan in scan order (`cur_comp_info`, jcmaster.c:470-487; get_sos, jdmarker.c:308-400). -/
def idx (s : Script.Scan) : List Nat := s.comps.map Int.toNat

/-- Scan parameters (select_scan_parameters, get_sos). -/
def lpar (P w : Nat) (s : Script.Scan) (c : LCfg) : LPar :=
  { P := P, Ss := s.Ss.toNat, Al := s.Al.toNat, ri := c.ri, w := w, tbls := (idx s).map c.dcNo }

/-- The rows of the components of a scan. -/
def scanRows (h : Nat) (img : Planes) (s : Script.Scan) : List (List (List Int)) :=
  (List.range h).map (fun y => (idx s).map (fun c => img c y))

/-- Storing the decoded rows (`output_buf[compi][row]`, jddiffct.c:228-238, 297-310). -/
def storeRows (img : Planes) (s : Script.Scan) (rows : List (List (List Int))) : Planes := fun c y =>
  if c ∈ idx s then
    match rows[y]? with
    | some r => r.getD ((idx s).idxOf c) []
    | none => img c y
  else img c y

/-- All scans of a compression, one entropy-coded segment per scan (jcmaster.c:613-720, 969-1017: one output pass per scan). -/
def encImage (P w h : Nat) (img : Planes) (scans : List (Script.Scan × LCfg)) : Option (List (List Nat)) :=
  scans.mapM (fun x => encLScan (lpar P w x.1 x.2) x.2.dcT (scanRows h img x.1))

/-- All scans one after the other; `bytes` are the entropy-coded data of each. Result: planes, number of warnings, what
the marker reader finds after each scan. -/
def decImage (P w h : Nat) : List ((Script.Scan × LCfg) × List Nat) → Planes × Nat →
    Option ((Planes × Nat) × List (Option (Nat × List Nat × Nat)))
  | [], st => some (st, [])
  | (x, bytes) :: xs, st =>
    match decLScan (lpar P w x.1 x.2) h x.2.dcT (bytes ++ [0xFF, x.2.marker] ++ x.2.tail) with
    | none => none
    | some (rows, s) =>
      (decImage P w h xs (storeRows st.1 x.1 rows, st.2 + s.rd.warns)).map (fun y => (y.1, endOfScan s :: y.2))

theorem has_iff {n : Nat} {s : Script.Scan} (h : Script.CompsOK n s) (c : Nat) : s.has c = true ↔ c ∈ idx s := by
  unfold Script.Scan.has idx
  rw [decide_eq_true_eq, List.mem_map]
  constructor
  · intro h; exact ⟨_, h, by simp⟩
  · rintro ⟨a, ha, rfl⟩
    have := (h.2.2.1 a ha).1
    rwa [Int.toNat_of_nonneg this]

theorem storeRows_get (img0 : Planes) (s : Script.Scan) (h : Nat) (img : Planes) (f : List Int → List Int) {c y : Nat}
    (hc : c ∈ idx s) (hy : y < h) :
    storeRows img0 s ((scanRows h img s).map (fun row => row.map f)) c y = f (img c y) := by
  unfold storeRows scanRows
  rw [if_pos hc, List.map_map, List.getElem?_map, List.getElem?_range hy]
  simp only [Option.map_some, Function.comp, List.map_map]
  have hi := List.idxOf_lt_length_iff.2 hc
  rw [List.getD_eq_getElem?_getD, List.getElem?_map, List.getElem?_eq_getElem hi]
  simp

theorem once_disjoint {n P : Nat} {pre post : List Script.Scan} {s t : Script.Scan}
    (L : Script.LegalLossless n P (pre ++ s :: post)) (ht : t ∈ pre) {c : Nat} (hc : c < n) (h1 : t.has c = true) :
    s.has c = false := by
  by_contra h2
  have h2 : s.has c = true := by simpa using h2
  have := L.once c hc
  rw [List.filter_append, List.filter_cons, if_pos h2, List.length_append, List.length_cons] at this
  have hm : t ∈ pre.filter (·.has c) := List.mem_filter.2 ⟨ht, h1⟩
  have := List.length_pos_of_mem hm
  omega

/-- **C03.**  For every image (any width, height, number of components; 8-, 12- or 16-bit samples) and every lossless
scan script the library accepts (predictor 1..7 and point transform below the precision per scan), any restart
interval of whole rows and usable Huffman tables: all scans encode, decode without warning up to the marker that
follows each, and every sample comes back shifted right, then left, by the point transform of the scan that carries
its component. -/
theorem lossless_roundtrip (n P w h : Nat) (hn : 1 ≤ n) (hP : P = 8 ∨ P = 12 ∨ P = 16) (hw : 0 < w) (img : Planes)
    (himg : ∀ c < n, ∀ y < h, (img c y).length = w ∧ ∀ v ∈ img c y, 0 ≤ v ∧ v < 2 ^ P)
    (scans : List (Script.Scan × LCfg)) (hv : Script.validate n P (scans.map Prod.fst) = .ok .lossless)
    (hri : ∀ x ∈ scans, x.2.ri % w = 0 ∧ x.2.ri < 2 ^ 32)
    (hT : ∀ x ∈ scans, LTabsOk (lpar P w x.1 x.2) x.2.dcT (scanRows h img x.1))
    (hm : ∀ x ∈ scans, 0 < x.2.marker ∧ x.2.marker < 0xFF ∧ IsBytes x.2.tail) (img0 : Planes) :
    ∃ bytess img', encImage P w h img scans = some bytess ∧
      decImage P w h (scans.zip bytess) (img0, 0) =
        some ((img', 0), scans.map (fun x => some (x.2.marker, x.2.tail, 0))) ∧
      ∀ x ∈ scans, ∀ c < n, x.1.has c = true → ∀ y < h,
        img' c y = (img c y).map (fun v => v / 2 ^ x.1.Al.toNat * 2 ^ x.1.Al.toNat) := by
  have L := (Script.validate_lossless_iff n P hn _).1 hv
  have key : ∀ (post pre : List (Script.Scan × LCfg)) (im : Planes),
      Script.LegalLossless n P ((pre ++ post).map Prod.fst) →
      (∀ x ∈ post, x.2.ri % w = 0 ∧ x.2.ri < 2 ^ 32) →
      (∀ x ∈ post, LTabsOk (lpar P w x.1 x.2) x.2.dcT (scanRows h img x.1)) →
      (∀ x ∈ post, 0 < x.2.marker ∧ x.2.marker < 0xFF ∧ IsBytes x.2.tail) →
      (∀ x ∈ pre, ∀ c < n, x.1.has c = true → ∀ y < h, im c y = (img c y).map (truncPt x.1.Al.toNat)) →
      ∃ bytess img', encImage P w h img post = some bytess ∧
        decImage P w h (post.zip bytess) (im, 0) =
          some ((img', 0), post.map (fun x => some (x.2.marker, x.2.tail, 0))) ∧
        ∀ x ∈ pre ++ post, ∀ c < n, x.1.has c = true → ∀ y < h, img' c y = (img c y).map (truncPt x.1.Al.toNat) := by
    intro post
    induction post with
    | nil => intro pre im _ _ _ _ hI; exact ⟨[], im, rfl, rfl, by simpa using hI⟩
    | cons x post ih =>
      intro pre im L hri hT hm hI
      have hx : x.1 ∈ (pre ++ x :: post).map Prod.fst := by simp
      have hc := L.comps x.1 hx
      obtain ⟨k1, k2, k3, k4, k5, k6⟩ := L.params x.1 hx
      have hcn : ∀ c ∈ idx x.1, c < n := by
        intro c hcm
        obtain ⟨a, ha, rfl⟩ := List.mem_map.1 hcm
        have := hc.2.2.1 a ha
        omega
      obtain ⟨m1, m2, m3⟩ := hm x (by simp)
      obtain ⟨r1, r2⟩ := hri x (by simp)
      obtain ⟨bytes, s', q1, q2, q3, q4, q5⟩ := lscan_roundtrip (lpar P w x.1 x.2) hP
        (by simp only [lpar]; omega) (by simp only [lpar]; omega) hw r1 r2 (scanRows h img x.1)
        (by
          intro row hrow
          obtain ⟨y, hy, rfl⟩ := List.mem_map.1 hrow
          refine ⟨by simp [lpar], ?_⟩
          intro r hr
          obtain ⟨c, hcm, rfl⟩ := List.mem_map.1 hr
          exact himg c (hcn c hcm) y (List.mem_range.1 hy)) x.2.dcT (hT x (by simp)) ⟨m1, m2⟩ m3
      have hlen : (scanRows h img x.1).length = h := by simp [scanRows]
      rw [hlen] at q3
      obtain ⟨bytess, img', g1, g2, g3⟩ := ih (pre ++ [x])
        (storeRows im x.1 ((scanRows h img x.1).map (fun row => row.map (fun r => r.map (truncPt (lpar P w x.1 x.2).Al)))))
        (by simpa using L) (fun y hy => hri y (by simp [hy])) (fun y hy => hT y (by simp [hy]))
        (fun y hy => hm y (by simp [hy])) (by
          intro y hy c hcn' hyc yy hyy
          rcases List.mem_append.1 hy with hy | hy
          · have hd := once_disjoint (pre := pre.map Prod.fst) (post := post.map Prod.fst) (s := x.1) (by simpa using L)
              (List.mem_map_of_mem hy) hcn' hyc
            have : c ∉ idx x.1 := fun hmem => by
              rw [(has_iff hc c).2 hmem] at hd; simp at hd
            unfold storeRows
            rw [if_neg this]
            exact hI y hy c hcn' hyc yy hyy
          · simp only [List.mem_singleton] at hy
            subst hy
            exact storeRows_get im y.1 h img _ ((has_iff hc c).1 hyc) hyy)
      refine ⟨bytes :: bytess, img', ?_, ?_, by simpa using g3⟩
      · unfold encImage at g1 ⊢
        rw [List.mapM_cons, q1, g1]; rfl
      · rw [List.zip_cons_cons, decImage, q3]
        dsimp only
        rw [q4, Nat.add_zero, g2, q5]
        rfl
  obtain ⟨bytess, img', g1, g2, g3⟩ := key scans [] img0 (by simpa using L) hri hT hm (by simp)
  exact ⟨bytess, img', g1, g2, fun x hx c hc hh y hy => g3 x (by simpa using hx) c hc hh y hy⟩

/-! ### with the tables the library generates -/

/-- finish_pass_gather (jclhuff.c:553-580); lossless mode implies optimize_coding (jcmaster.c:1088-1092). -/
def optL (P w h : Nat) (img : Planes) (x : Script.Scan × LCfg) : Script.Scan × LCfg :=
  (x.1, { x.2 with dcT := Opt.optTbl ((gatherLScan (lpar P w x.1 x.2) (scanRows h img x.1)).getD []) true })

theorem ltabs_opt (p : LPar) (hw : 0 < p.w) (hri : p.ri % p.w = 0) (rows : List (List (List Int)))
    (hr : ∀ row ∈ rows, row.length = p.tbls.length) :
    ∃ evs, gatherLScan p rows = some evs ∧
      ((∀ t, Opt.total (Opt.optFreq evs true t) < 1000000000) → LTabsOk p (Opt.optTbl evs true) rows) := by
  obtain ⟨ts, e, -, hsh⟩ := scanCalls_total p hw hri rows hr
  refine ⟨tokEvents true ts, by unfold gatherLScan; rw [e]; rfl, ?_⟩
  intro hT
  have hev : ∀ x ∈ tokEvents true ts, x.isDC = true ∧ x.sym ≤ 16 := by
    intro x hx
    unfold tokEvents at hx
    obtain ⟨y, hy, e'⟩ := List.mem_filterMap.1 hx
    cases y with
    | sym t s =>
      simp only [Option.some.injEq] at e'
      subst e'
      exact ⟨rfl, (hsh _ hy).2⟩
    | bits c n => simp at e'
    | rst n => simp at e'
  have hev' : ∀ x ∈ tokEvents true ts, x.isDC = true ∧ x.sym ≤ 16 := hev
  have hok := fun n => Opt.optTbl_ok_few (evs := tokEvents true ts) (d := true) (n := n) (maxsym := 16) (k := 17)
    (fun s => decide (s ≤ 16)) (by decide +kernel) (by omega) (by intro s _ h; simpa using h)
    (by
      intro s _ hm
      simpa using (hev _ hm).2) (.inr ⟨by omega, by have := hT n; unfold Opt.LIM; omega⟩)
  refine ⟨fun t _ => ⟨(hok t).2.1, (hok t).2.2.1⟩, fun t _ => ?_, ?_⟩
  · obtain ⟨c, hc, -⟩ := (hok t).2.2.2
    exact ⟨c, hc⟩
  · intro evs' he
    rw [gatherLScan, e] at he
    simp only [Option.map_some, Option.some.injEq] at he
    subst he
    intro x hx
    obtain ⟨h1, h2⟩ := hev x hx
    obtain ⟨d, t, s⟩ := x
    simp only at h1 h2 ⊢
    subst h1
    obtain ⟨c, hc, hcs⟩ := (hok t).2.2.2
    exact ⟨c, hc, hcs s (by omega) hx⟩

/-- **C03, as the library runs it**: jpeg_enable_lossless(Ss, Al) without a scan script, at most four components, Huffman
tables generated from the image.  With point transform 0 the image comes back exactly.  (The statistics routine needs
fewer than 10^9 samples per table.) -/
theorem lossless_enabled_roundtrip (n P w h Ss Al : Nat) (hn : 1 ≤ n ∧ n ≤ 4) (hP : P = 8 ∨ P = 12 ∨ P = 16) (hw : 0 < w)
    (hSs : 1 ≤ Ss ∧ Ss ≤ 7) (hAl : Al < P) (img : Planes)
    (himg : ∀ c < n, ∀ y < h, (img c y).length = w ∧ ∀ v ∈ img c y, 0 ≤ v ∧ v < 2 ^ P)
    (cfg : LCfg) (hri : cfg.ri % w = 0 ∧ cfg.ri < 2 ^ 32)
    (hcnt : ∀ evs, gatherLScan (lpar P w ⟨(List.range n).map Int.ofNat, Ss, 0, 0, Al⟩ cfg)
        (scanRows h img ⟨(List.range n).map Int.ofNat, Ss, 0, 0, Al⟩) = some evs →
      ∀ t, Opt.total (Opt.optFreq evs true t) < 1000000000)
    (hm : 0 < cfg.marker ∧ cfg.marker < 0xFF ∧ IsBytes cfg.tail) (img0 : Planes) :
    ∃ bytes img', encImage P w h img [optL P w h img (⟨(List.range n).map Int.ofNat, Ss, 0, 0, Al⟩, cfg)] = some [bytes] ∧
      decImage P w h [(optL P w h img (⟨(List.range n).map Int.ofNat, Ss, 0, 0, Al⟩, cfg), bytes)] (img0, 0) =
        some ((img', 0), [some (cfg.marker, cfg.tail, 0)]) ∧
      (∀ c < n, ∀ y < h, img' c y = (img c y).map (fun v => v / 2 ^ Al * 2 ^ Al)) ∧
      (Al = 0 → ∀ c < n, ∀ y < h, img' c y = img c y) := by
  generalize hs : (⟨(List.range n).map Int.ofNat, Ss, 0, 0, Al⟩ : Script.Scan) = s at *
  have hidx : idx s = List.range n := by
    subst hs
    simp only [idx, List.map_map]
    conv => rhs; rw [← List.map_id (List.range n)]
    apply List.map_congr_left
    intro a _; rfl
  have hhas : ∀ c, s.has c = true ↔ c < n := by
    intro c
    subst hs
    unfold Script.Scan.has
    simp
  have L : Script.LegalLossless n P [s] := by
    refine ⟨?_, ?_, ?_⟩
    · intro t ht
      simp only [List.mem_singleton] at ht
      subst ht
      subst hs
      refine ⟨by simp; omega, by simp; omega, ?_, ?_⟩
      · intro c hc
        simp only [List.mem_map, List.mem_range] at hc
        obtain ⟨a, ha, rfl⟩ := hc
        simp; omega
      · rw [List.pairwise_map]
        refine List.Pairwise.imp ?_ List.pairwise_lt_range
        intro a b hab; simp; omega
    · intro t ht
      simp only [List.mem_singleton] at ht
      subst ht
      subst hs
      simp; omega
    · intro c hc
      rw [List.filter_cons, if_pos ((hhas c).2 hc)]
      simp
  obtain ⟨evs, he, hTT⟩ := ltabs_opt (lpar P w s cfg) hw hri.1 (scanRows h img s) (by
    intro row hrow
    obtain ⟨y, -, rfl⟩ := List.mem_map.1 hrow
    simp [lpar])
  have hopt : optL P w h img (s, cfg) = (s, { cfg with dcT := Opt.optTbl evs true }) := by
    unfold optL
    rw [he]; rfl
  obtain ⟨bytess, img', g1, g2, g3⟩ := lossless_roundtrip n P w h (by omega) hP hw img himg [optL P w h img (s, cfg)]
    (by rw [hopt]; exact (Script.validate_lossless_iff n P (by omega) _).2 L)
    (by intro x hx; simp only [List.mem_singleton] at hx; subst hx; rw [hopt]; exact hri)
    (by
      intro x hx
      simp only [List.mem_singleton] at hx
      subst hx
      rw [hopt]
      exact hTT (hcnt evs he))
    (by intro x hx; simp only [List.mem_singleton] at hx; subst hx; rw [hopt]; exact hm) img0
  have hval : ∀ c < n, ∀ y < h, img' c y = (img c y).map (fun v => v / 2 ^ Al * 2 ^ Al) := by
    intro c hc y hy
    have := g3 (optL P w h img (s, cfg)) (by simp) c hc (by rw [hopt]; exact (hhas c).2 hc) y hy
    rw [hopt] at this
    rw [this]
    subst hs
    simp
  obtain ⟨bytes, rfl⟩ : ∃ b, bytess = [b] := by
    unfold encImage at g1
    rw [List.mapM_cons, List.mapM_nil] at g1
    revert g1
    generalize (encLScan _ _ _ : Option (List Nat)) = o
    cases o with
    | none => intro g1; cases g1
    | some b => intro g1; exact ⟨b, by cases g1; rfl⟩
  refine ⟨bytes, img', g1, ?_, hval, ?_⟩
  · rw [hopt] at g2 ⊢
    exact g2
  · intro h0 c hc y hy
    rw [hval c hc y hy, h0]
    simp

/-! ### a concrete case: 3 x 2 samples, two 16-bit components, predictor 7, point transform 1, a restart per row -/

def exImg : Planes := fun c y => if c = 0 then (if y = 0 then [0, 65535, 32768] else [65535, 1, 7]) else
  (if y = 0 then [5, 5, 40000] else [0, 12345, 65534])

def exCfg : LCfg := { ri := 3, dcNo := fun c => c, dcT := fun _ => ⟨[], []⟩, marker := 0xD9, tail := [1, 2] }

example : ∃ bytes img',
    encImage 16 3 2 exImg [optL 16 3 2 exImg (⟨(List.range 2).map Int.ofNat, 7, 0, 0, 1⟩, exCfg)] = some [bytes] ∧
    decImage 16 3 2 [(optL 16 3 2 exImg (⟨(List.range 2).map Int.ofNat, 7, 0, 0, 1⟩, exCfg), bytes)] (fun _ _ => [], 0) =
      some ((img', 0), [some (0xD9, [1, 2], 0)]) ∧
    img' 0 0 = [0, 65534, 32768] ∧ img' 1 1 = [0, 12344, 65534] := by
  obtain ⟨bytes, img', h1, h2, h3, -⟩ := lossless_enabled_roundtrip 2 16 3 2 7 1 (by decide) (by decide) (by decide)
    (by decide) (by decide) exImg (by decide) exCfg (by decide) (by
      intro evs he t
      have hl : evs.length ≤ 12 := by
        have : (gatherLScan (lpar 16 3 ⟨(List.range 2).map Int.ofNat, 7, 0, 0, 1⟩ exCfg)
          (scanRows 2 exImg ⟨(List.range 2).map Int.ofNat, 7, 0, 0, 1⟩)).map List.length = some 12 := by decide +kernel
        erw [he] at this
        simp only [Option.map_some, Option.some.injEq] at this
        omega
      have := Opt.total_le evs true t
      omega) (by unfold IsBytes; decide) (fun _ _ => [])
  refine ⟨bytes, img', h1, h2, ?_, ?_⟩
  · rw [h3 0 (by decide) 0 (by decide)]; decide
  · rw [h3 1 (by decide) 1 (by decide)]; decide

end Verif.Lossless
