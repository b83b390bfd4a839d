import Verif.Huff.BlockLemmas
/-
From blocks to whole scans with restart markers.
-/
namespace Verif.Huff

theorem natOrder_inv : ∀ p < 64, natOrder.idxOf (natOrder.getD p 0) = p := by decide
theorem natOrder_surj : ∀ j < 64, natOrder.idxOf j < 64 ∧ natOrder.getD (natOrder.idxOf j) 0 = j := by
  decide
theorem natOrder_lt : ∀ p < 64, natOrder.getD p 0 < 64 := by decide
theorem kloop_nat : ∀ p < 63, kloopOrder.getD p 0 = natOrder.getD (p + 1) 0 := by decide

theorem natOrder_inj {p q : Nat} (hp : p < 64) (hq : q < 64)
    (h : natOrder.getD p 0 = natOrder.getD q 0) : p = q := by
  rw [← natOrder_inv p hp, ← natOrder_inv q hq, h]

theorem length_setAC (pos : Nat) (ts blk : List Int) : (setAC pos ts blk).length = blk.length := by
  induction ts generalizing pos blk with
  | nil => rfl
  | cons t ts ih => simp only [setAC]; rw [ih]; split <;> simp

theorem getD_setAC (pos : Nat) (ts blk : List Int) (hl : blk.length = 64) (h64 : pos + ts.length ≤ 64)
    (p : Nat) (hp : p < 64) :
    (setAC pos ts blk).getD (natOrder.getD p 0) 0 =
      if pos ≤ p ∧ p < pos + ts.length ∧ ts.getD (p - pos) 0 ≠ 0 then ts.getD (p - pos) 0
      else blk.getD (natOrder.getD p 0) 0 := by
  induction ts generalizing pos blk with
  | nil => simp only [setAC]; rw [if_neg (by simp)]
  | cons t ts ih =>
    simp only [setAC, List.length_cons] at *
    rw [ih (pos + 1) _ (by split <;> simp [hl]) (by omega)]
    by_cases hpp : pos = p
    · subst hpp
      rw [if_neg (by omega)]
      by_cases ht : t = 0
      · subst ht; simp
      · simp only [ne_eq, ht, not_false_eq_true, if_true, Nat.sub_self, List.getD_cons_zero]
        rw [if_pos ⟨by omega, by omega, trivial⟩]
        have := natOrder_lt pos hp
        rw [List.getD_eq_getElem?_getD, List.getElem?_set_self (by omega)]
        rfl
    · have hset : (if t ≠ 0 then blk.set (natOrder.getD pos 0) t else blk).getD (natOrder.getD p 0) 0
          = blk.getD (natOrder.getD p 0) 0 := by
        split
        · have hne : natOrder.getD pos 0 ≠ natOrder.getD p 0 :=
            fun h => hpp (natOrder_inj (by omega) hp h)
          simp only [List.getD_eq_getElem?_getD]
          rw [List.getElem?_set_ne (by simpa using hne)]
        · rfl
      rw [hset]
      by_cases hin : pos + 1 ≤ p
      · obtain ⟨q, rfl⟩ : ∃ q, p = pos + 1 + q := ⟨p - (pos + 1), by omega⟩
        rw [show pos + 1 + q - (pos + 1) = q by omega, show pos + 1 + q - pos = q + 1 by omega,
          List.getD_cons_succ]
        by_cases hz : ts.getD q 0 ≠ 0 ∧ pos + 1 + q < pos + 1 + ts.length
        · rw [if_pos (by exact ⟨by omega, by omega, hz.1⟩), if_pos (by exact ⟨by omega, by omega, hz.1⟩)]
        · rw [if_neg (by intro h; exact hz ⟨h.2.2, h.2.1⟩),
            if_neg (by intro h; exact hz ⟨h.2.2, by omega⟩)]
      · rw [if_neg (by omega), if_neg (by omega)]

theorem length_zz (blk : List Int) : (zz blk).length = 63 := by simp [zz, kloopOrder]

theorem getD_zz (blk : List Int) {p : Nat} (hp : p < 63) :
    (zz blk).getD p 0 = blk.getD (natOrder.getD (p + 1) 0) 0 := by
  have hl : kloopOrder.length = 63 := by decide
  rw [← kloop_nat p hp, zz]
  simp only [List.getD_eq_getElem?_getD]
  rw [List.getElem?_map, List.getElem?_eq_getElem (by omega)]
  rfl

/-- Rebuilding a block from its DC value and its scan-order AC coefficients. -/
theorem setAC_zz (blk : List Int) (hl : blk.length = 64) :
    setAC 1 (zz blk) ((List.replicate 64 (0 : Int)).set 0 (blk.getD 0 0)) = blk := by
  apply List.ext_getElem
  · rw [length_setAC]; simp [hl]
  · intro j h1 h2
    have hj : j < 64 := by omega
    obtain ⟨hi1, hi2⟩ := natOrder_surj j hj
    have key := getD_setAC 1 (zz blk) ((List.replicate 64 (0 : Int)).set 0 (blk.getD 0 0)) (by simp)
      (by rw [length_zz]) (natOrder.idxOf j) hi1
    rw [hi2] at key
    have g1 : ∀ (l : List Int) (h : j < l.length), l.getD j 0 = l[j] := by
      intro l h; rw [List.getD_eq_getElem?_getD, List.getElem?_eq_getElem h]; rfl
    rw [← g1 _ h1, ← g1 _ h2, key]
    by_cases hj0 : j = 0
    · subst hj0
      rw [if_neg (by rw [show natOrder.idxOf 0 = 0 by decide]; omega)]
      simp
    · have hip : 1 ≤ natOrder.idxOf j := by
        apply Nat.pos_of_ne_zero
        intro hc
        rw [hc] at hi2
        exact hj0 hi2.symm
      have hz : (zz blk).getD (natOrder.idxOf j - 1) 0 = blk.getD j 0 := by
        rw [getD_zz _ (by omega), show natOrder.idxOf j - 1 + 1 = natOrder.idxOf j by omega, hi2]
      rw [hz, length_zz]
      split
      · rfl
      · rename_i hn
        have hb0 : blk.getD j 0 = 0 := by
          apply Classical.byContradiction
          intro hne
          exact hn ⟨hip, by omega, hne⟩
        rw [hb0]
        simp only [List.getD_eq_getElem?_getD]
        rw [List.getElem?_set_ne (by omega), List.getElem?_replicate, if_pos hj]
        rfl

/-- What a block needs from the tables: representable magnitudes and a code for each symbol used. -/
structure BlkOk (prec : Nat) (dc ac : CTbl) (last : Int) (blk : List Int) : Prop where
  len : blk.length = 64
  range : -32768 ≤ blk.getD 0 0 ∧ blk.getD 0 0 < 32768
  dcMag : nbitsOf (blk.getD 0 0 - last).natAbs ≤ prec + 3
  acMag : ∀ t ∈ zz blk, nbitsOf t.natAbs ≤ prec + 2
  dcSym : (dc (nbitsOf (blk.getD 0 0 - last).natAbs)).2 ≠ 0
  acSym : ∀ s ∈ acSyms (zz blk) 0, (ac s).2 ≠ 0

theorem decBlock_spec {prec : Nat} {dcc acc : CTbl} {b : DBlk} (hprec : prec ≤ 12)
    (Ldc : Linked dcc b.dc) (Lac : Linked acc b.ac) (hn : b.dcNeeded = true ∧ b.acNeeded = true)
    {last : Nat → Int} {blk : List Int} (ok : BlkOk prec dcc acc (last b.ci) blk)
    {r : Rd} {rest : List Bool} (hr : r.Ok) (ht : r.tail ≠ none)
    (hb : r.bits = blockBits dcc acc (last b.ci) blk ++ rest) :
    ∃ r', decBlock b last r = some (blk, upd last b.ci (blk.getD 0 0), r') ∧ r.Same r' ∧
      r'.bits = rest := by
  have hmag := ok.dcMag
  rw [blockBits, List.append_assoc, List.append_assoc] at hb
  obtain ⟨r1, e1, s1, b1⟩ := Ldc.dec _ ok.dcSym r _ hr ht hb
  have t1 : r1.tail ≠ none := by rw [s1.tail]; exact ht
  -- the difference
  obtain ⟨r2, e2, s2, b2⟩ : ∃ r2, (if nbitsOf (blk.getD 0 0 - last b.ci).natAbs ≠ 0 then
      (readBits r1 (nbitsOf (blk.getD 0 0 - last b.ci).natAbs)).map
        (fun xr => (huffExtend xr.1 (nbitsOf (blk.getD 0 0 - last b.ci).natAbs), xr.2))
      else some (0, r1)) = some (blk.getD 0 0 - last b.ci, r2) ∧ r1.Same r2 ∧
      r2.bits = acBits acc (zz blk) 0 ++ rest := by
    by_cases h0 : blk.getD 0 0 - last b.ci = 0
    · rw [h0] at b1 ⊢
      refine ⟨r1, by simp [nbitsOf], s1.ok.same, ?_⟩
      simpa [magBits, nbitsOf] using b1
    · have hp := nbitsOf_pos (n := (blk.getD 0 0 - last b.ci).natAbs) (by omega)
      obtain ⟨x, r2, e, hx, hs, hb'⟩ := readMag h0 (by omega) s1.ok t1 b1
      exact ⟨r2, by rw [if_pos (by omega), e, Option.map_some]; dsimp only; rw [hx], hs, hb'⟩
  have t2 : r2.tail ≠ none := by rw [s2.tail]; exact t1
  obtain ⟨r3, e3, s3, b3⟩ := decAC_spec Lac b.acNeeded (zz blk) 0 1
    ((List.replicate 64 (0 : Int)).set 0 (blk.getD 0 0)) r2 rest s2.ok t2 (by rw [length_zz])
    (fun t htm => by have := ok.acMag t htm; omega) ok.acSym b2
  refine ⟨r3, ?_, (s1.trans s2).trans s3, b3⟩
  unfold decBlock
  rw [e1]
  dsimp only
  rw [e2]
  dsimp only
  rw [hn.1]
  simp only [if_true]
  rw [Int.sub_add_cancel, toCoef_id ok.range.1 ok.range.2, e3, hn.2]
  dsimp only
  rw [if_pos rfl, Nat.add_zero, setAC_zz blk ok.len]

/-- DC predictors after an MCU. -/
def lastAfter : List EBlk → List (List Int) → (Nat → Int) → (Nat → Int)
  | b :: bs, blk :: blks, last => lastAfter bs blks (upd last b.ci (blk.getD 0 0))
  | _, _, last => last

def mcuBits : List EBlk → List (List Int) → (Nat → Int) → List Bool
  | b :: bs, blk :: blks, last =>
    blockBits b.dc b.ac (last b.ci) blk ++ mcuBits bs blks (upd last b.ci (blk.getD 0 0))
  | _, _, _ => []

/-- Every block of the MCU is encodable with the tables at hand, given the predictors. -/
def McuOk (prec : Nat) : List EBlk → List (List Int) → (Nat → Int) → Prop
  | [], [], _ => True
  | b :: bs, blk :: blks, last =>
    BlkOk prec b.dc b.ac (last b.ci) blk ∧ McuOk prec bs blks (upd last b.ci (blk.getD 0 0))
  | _, _, _ => False

/-- Encoder and decoder block descriptions match. -/
structure BlkLink (e : EBlk) (d : DBlk) : Prop where
  ci : e.ci = d.ci
  dc : Linked e.dc d.dc
  ac : Linked e.ac d.ac
  need : d.dcNeeded = true ∧ d.acNeeded = true

theorem encBlocks_inv {prec : Nat} (hprec : prec ≤ 12) {bs : List EBlk} {ds : List DBlk}
    (hl : List.Forall₂ BlkLink bs ds) {pre : List Nat} (mcu : List (List Int)) {last : Nat → Int}
    {w : Wr} {bits : List Bool} (h : w.Inv pre bits) (ok : McuOk prec bs mcu last) :
    ∃ w', encBlocks prec bs mcu last w = some (lastAfter bs mcu last, w') ∧
      w'.Inv pre (bits ++ mcuBits bs mcu last) := by
  induction hl generalizing mcu last w bits with
  | nil => cases mcu <;> exact ⟨w, rfl, by simpa [mcuBits] using h⟩
  | cons hd tl ih =>
    rename_i b d bs ds
    cases mcu with
    | nil => exact ok.elim
    | cons blk blks =>
      obtain ⟨o1, o2⟩ := ok
      obtain ⟨w1, e1, h1⟩ := encBlock_inv (by omega) hd.dc.wf hd.ac.wf h o1.dcMag o1.acMag
      obtain ⟨w2, e2, h2⟩ := ih blks h1 o2
      refine ⟨w2, ?_, ?_⟩
      · simp only [encBlocks, e1, e2, lastAfter]
      · simpa [mcuBits, List.append_assoc] using h2

theorem decBlocks_spec {prec : Nat} (hprec : prec ≤ 12) {bs : List EBlk} {ds : List DBlk}
    (hl : List.Forall₂ BlkLink bs ds) (mcu : List (List Int)) {last : Nat → Int}
    (ok : McuOk prec bs mcu last) {r : Rd} {rest : List Bool} (hr : r.Ok) (ht : r.tail ≠ none)
    (hb : r.bits = mcuBits bs mcu last ++ rest) :
    ∃ r', decBlocks ds last r = some (mcu, lastAfter bs mcu last, r') ∧ r.Same r' ∧
      r'.bits = rest := by
  induction hl generalizing mcu last r with
  | nil =>
    cases mcu with
    | nil => exact ⟨r, rfl, hr.same, by simpa [mcuBits] using hb⟩
    | cons => exact ok.elim
  | cons hd tl ih =>
    rename_i b d bs ds
    cases mcu with
    | nil => exact ok.elim
    | cons blk blks =>
      obtain ⟨o1, o2⟩ := ok
      simp only [mcuBits, List.append_assoc] at hb
      rw [hd.ci] at o1 o2 hb
      obtain ⟨r1, e1, s1, b1⟩ := decBlock_spec hprec hd.dc hd.ac hd.need o1 hr ht hb
      obtain ⟨r2, e2, s2, b2⟩ := ih blks o2 s1.ok (by rw [s1.tail]; exact ht) b1
      refine ⟨r2, ?_, s1.trans s2, b2⟩
      simp only [decBlocks, e1, e2, lastAfter, hd.ci]

/-- What the rest of a scan puts out: bits still in the current segment, and the bytes after it. -/
def scanTail (ri : Nat) (bs : List EBlk) : List (List (List Int)) → (Nat → Int) → (togo rst : Nat) →
    List Bool × List Nat
  | [], _, _, _ => ([], [])
  | m :: ms, last, togo, rst =>
    if ri ≠ 0 ∧ togo = 0 then
      let z : Nat → Int := fun _ => 0
      let x := scanTail ri bs ms (lastAfter bs m z) (ri - 1) ((rst + 1) &&& 7)
      ([], [0xFF, 0xD0 + rst] ++ segment (mcuBits bs m z ++ x.1) ++ x.2)
    else
      let x := scanTail ri bs ms (lastAfter bs m last) (if ri ≠ 0 then togo - 1 else togo) rst
      (mcuBits bs m last ++ x.1, x.2)

/-- Every MCU of the scan is encodable, with the predictors it will meet. -/
def ScanOk (prec ri : Nat) (bs : List EBlk) : List (List (List Int)) → (Nat → Int) → (togo : Nat) → Prop
  | [], _, _ => True
  | m :: ms, last, togo =>
    if ri ≠ 0 ∧ togo = 0 then
      McuOk prec bs m (fun _ => 0) ∧ ScanOk prec ri bs ms (lastAfter bs m (fun _ => 0)) (ri - 1)
    else
      McuOk prec bs m last ∧
        ScanOk prec ri bs ms (lastAfter bs m last) (if ri ≠ 0 then togo - 1 else togo)

theorem encMCUs_out {prec ri : Nat} (hprec : prec ≤ 12) {bs : List EBlk} {ds : List DBlk}
    (hl : List.Forall₂ BlkLink bs ds) (ms : List (List (List Int))) {s : ESt} {pre : List Nat}
    {bits : List Bool} (h : s.w.Inv pre bits) (ok : ScanOk prec ri bs ms s.last s.togo) :
    ∃ s', encMCUs prec ri bs s ms = some s' ∧ (flushBits s'.w).out =
      pre ++ segment (bits ++ (scanTail ri bs ms s.last s.togo s.rst).1) ++
        (scanTail ri bs ms s.last s.togo s.rst).2 := by
  induction ms generalizing s pre bits with
  | nil =>
    refine ⟨s, rfl, ?_⟩
    rw [(flushBits_inv h).1]
    simp [scanTail]
  | cons m ms ih =>
    simp only [encMCUs, encMCU, ScanOk, scanTail] at *
    by_cases hdue : ri ≠ 0 ∧ s.togo = 0
    · simp only [if_pos hdue] at ok ⊢
      obtain ⟨w', e, hw⟩ := encBlocks_inv hprec hl m (emitRestart_inv h s.rst) ok.1
      rw [e]
      dsimp only
      rw [if_pos hdue.1]
      obtain ⟨s', e', ho⟩ := ih (s := ⟨w', lastAfter bs m (fun _ => 0), ri - 1, (s.rst + 1) &&& 7⟩)
        hw ok.2
      refine ⟨s', e', ?_⟩
      rw [ho]
      simp [List.append_assoc]
    · simp only [if_neg hdue] at ok ⊢
      obtain ⟨w', e, hw⟩ := encBlocks_inv hprec hl m h ok.1
      rw [e]
      dsimp only
      obtain ⟨s', e', ho⟩ := ih
        (s := ⟨w', lastAfter bs m s.last, if ri ≠ 0 then s.togo - 1 else s.togo, s.rst⟩) hw ok.2
      refine ⟨s', e', ?_⟩
      rw [ho]
      simp [List.append_assoc]

theorem segTail_unstuff_nil {ff : Bool} {bytes : List Nat} {m : Nat} {rest : List Nat} (disc : Nat)
    (h1 : unstuff ff bytes = []) (h2 : segTail ff bytes = some (m, rest)) :
    nextMarker ff disc bytes = some (m, rest, disc) := by
  induction bytes generalizing ff with
  | nil => simp [segTail] at h2
  | cons c bytes ih =>
    cases ff with
    | false =>
      simp only [unstuff, segTail, nextMarker] at *
      split at h1
      · rename_i hc; rw [if_pos hc] at h2 ⊢; exact ih h1 h2
      · simp at h1
    | true =>
      simp only [unstuff, segTail, nextMarker] at *
      split at h1
      · rename_i hc; rw [if_pos hc] at h2 ⊢; exact ih h1 h2
      · rename_i hc
        rw [if_neg hc] at h2 ⊢
        split at h1
        · simp at h1
        · rename_i hc0
          rw [if_neg hc0] at h2 ⊢
          simp at h2
          simp [h2]

theorem segTail_isBytes {ff : Bool} {bytes : List Nat} {m : Nat} {rest : List Nat}
    (h : IsBytes bytes) (h2 : segTail ff bytes = some (m, rest)) : m < 256 ∧ m ≠ 0 ∧ IsBytes rest := by
  induction bytes generalizing ff with
  | nil => simp [segTail] at h2
  | cons c bytes ih =>
    rw [isBytes_cons] at h
    cases ff <;> simp only [segTail] at h2
    · split at h2 <;> exact ih h.2 h2
    · split at h2
      · exact ih h.2 h2
      · split at h2
        · exact ih h.2 h2
        · simp at h2; obtain ⟨rfl, rfl⟩ := h2; exact ⟨h.1, by assumption, h.2⟩

/-- The normal restart: fewer than 8 bits left, and the expected RSTn next. -/
theorem processRestart_spec {ri : Nat} {s : DSt} {rest : List Nat} (hr : s.rd.Ok)
    (hb : s.rd.bits.length < 8) (ht : s.rd.tail = some (0xD0 + s.rst, rest)) (hd : s.disc = 0)
    (hrest : IsBytes rest) (hi : s.rd.insuff = false) :
    ∃ gb, processRestart ri s = some
      { rd := { gb := gb, left := 0, bytes := rest, marker := 0, insuff := false,
                warns := s.rd.warns, hits := s.rd.hits },
        last := fun _ => 0, togo := ri, rst := (s.rst + 1) &&& 7, disc := 0 } := by
  have hleft : s.rd.left / 8 = 0 := by
    have : s.rd.left ≤ s.rd.bits.length := by simp [Rd.bits]
    omega
  refine ⟨s.rd.gb, ?_⟩
  unfold processRestart
  dsimp only
  rw [hleft, hd]
  by_cases hm : s.rd.marker = 0
  · simp only [hm, if_true]
    have hun : unstuff false s.rd.bytes = [] := by
      have hlen : (bitsOfBytes (unstuff false s.rd.bytes)).length < 8 := by
        simp only [Rd.bits, hm, if_true, List.length_append] at hb; omega
      rw [length_bitsOfBytes] at hlen
      exact List.length_eq_zero_iff.1 (by omega)
    have htl : segTail false s.rd.bytes = some (0xD0 + s.rst, rest) := by
      simpa [Rd.tail, hm] using ht
    rw [segTail_unstuff_nil _ hun htl]
    simp only [if_true, hi, ne_eq, not_true, if_false]
  · have htl : s.rd.marker = 0xD0 + s.rst ∧ s.rd.bytes = rest := by
      simpa [Rd.tail, hm] using ht
    simp only [hm, if_false]
    simp only [htl.1, htl.2, if_true, hi]

/-- The whole scan, decoder side. -/
theorem decMCUs_spec {prec ri : Nat} (hprec : prec ≤ 12) {bs : List EBlk} {ds : List DBlk}
    (hl : List.Forall₂ BlkLink bs ds) {m : Nat} {tail : List Nat} (hm0 : m ≠ 0) (hmff : m ≠ 0xFF)
    (hm : m < 256) (htail : IsBytes tail) (ms : List (List (List Int))) {s : DSt}
    (ok : ScanOk prec ri bs ms s.last s.togo) (hrst : s.rst < 8) (hr : s.rd.Ok) (hd : s.disc = 0)
    (hi : s.rd.insuff = false) {pad : List Bool} (hpad : pad.length < 8)
    (hb : s.rd.bits = (scanTail ri bs ms s.last s.togo s.rst).1 ++ pad)
    (ht : s.rd.tail = segTail false ((scanTail ri bs ms s.last s.togo s.rst).2 ++ 0xFF :: m :: tail)) :
    ∃ s', decMCUs ri ds ms.length s = some (ms, s') ∧ s'.rd.warns = s.rd.warns ∧ s'.disc = 0 ∧
      s'.rd.insuff = false ∧ s'.rd.tail = some (m, tail) ∧ s'.rd.bits.length < 8 := by
  induction ms generalizing s pad with
  | nil =>
    simp only [scanTail, List.nil_append] at ht hb
    exact ⟨s, rfl, rfl, hd, hi, by rw [ht]; simp [segTail, hm0, hmff], by rw [hb]; exact hpad⟩
  | cons mcu ms ih =>
    simp only [List.length_cons, decMCUs, decMCU]
    simp only [ScanOk, scanTail] at ok hb ht
    by_cases hdue : ri ≠ 0 ∧ s.togo = 0
    · simp only [if_pos hdue] at ok hb ht ⊢
      obtain ⟨o1, o2⟩ := ok
      have hne : 0xD0 + s.rst ≠ 255 := by omega
      -- after the marker: a new segment, then what follows
      generalize hx : scanTail ri bs ms (lastAfter bs mcu fun _ => 0) (ri - 1) ((s.rst + 1) &&& 7) = x at *
      have htl : s.rd.tail = some (0xD0 + s.rst,
          segment (mcuBits bs mcu (fun _ => 0) ++ x.1) ++ (x.2 ++ 0xFF :: m :: tail)) := by
        rw [ht]; simp [segTail, hne]
      -- what follows is bytes
      have hx2 : ∀ ms last togo rst, rst < 8 → IsBytes (scanTail ri bs ms last togo rst).2 := by
        intro ms
        induction ms with
        | nil => intros; simp [scanTail]
        | cons m' ms' ih' =>
          intro last togo rst hrst
          simp only [scanTail]
          split
          · dsimp only
            rw [isBytes_append, isBytes_append]
            refine ⟨⟨?_, isBytes_segment _⟩, ih' _ _ _ ?_⟩
            · intro b hb; simp at hb; omega
            · exact Nat.lt_of_le_of_lt Nat.and_le_right (by omega)
          · exact ih' _ _ _ hrst
      have hxb : IsBytes x.2 := by
        rw [← hx]
        exact hx2 _ _ _ _ (Nat.lt_of_le_of_lt Nat.and_le_right (by omega))
      have hrest : IsBytes (segment (mcuBits bs mcu (fun _ => 0) ++ x.1) ++ (x.2 ++ 0xFF :: m :: tail)) := by
        rw [isBytes_append, isBytes_append, isBytes_cons, isBytes_cons]
        exact ⟨isBytes_segment _, hxb, by omega, hm, htail⟩
      obtain ⟨gb, hpr⟩ := processRestart_spec (ri := ri) hr (by rw [hb]; simpa using hpad) htl hd hrest hi
      rw [hpr]
      dsimp only
      rw [if_neg (by simp)]
      -- the reader at the start of the new segment
      generalize hr0 : ({ gb := gb, left := 0, bytes := segment (mcuBits bs mcu (fun _ => 0) ++ x.1) ++
        (x.2 ++ 0xFF :: m :: tail), marker := 0, insuff := false, warns := s.rd.warns, hits := s.rd.hits } : Rd) = r0
      have hok0 : r0.Ok := by subst hr0; exact ⟨by simp, hrest⟩
      -- the following marker
      obtain ⟨mk, rest', hmk⟩ : ∃ mk rest', x.2 ++ 0xFF :: m :: tail = 0xFF :: mk :: rest' ∧ mk ≠ 0 ∧ mk ≠ 0xFF := by
        have : ∀ ms last togo rst, rst < 8 → ∃ mk rest',
            (scanTail ri bs ms last togo rst).2 ++ 0xFF :: m :: tail = 0xFF :: mk :: rest' ∧ mk ≠ 0 ∧ mk ≠ 0xFF := by
          intro ms
          induction ms with
          | nil => intros; exact ⟨m, tail, by simp [scanTail], hm0, hmff⟩
          | cons m' ms' ih' =>
            intro last togo rst hrst
            simp only [scanTail]
            split
            · dsimp only
              simp only [List.append_assoc, List.cons_append, List.nil_append]
              exact ⟨0xD0 + rst, _, rfl, by omega, by omega⟩
            · exact ih' _ _ _ hrst
        rw [← hx]
        exact this _ _ _ _ (Nat.lt_of_le_of_lt Nat.and_le_right (by omega))
      obtain ⟨hmk, hmk0, hmkf⟩ := hmk
      obtain ⟨u1, u2⟩ := unstuff_segment (mcuBits bs mcu (fun _ => 0) ++ x.1) mk rest' hmk0 hmkf
      rw [← hmk] at u1 u2
      have hb0 : r0.bits = mcuBits bs mcu (fun _ => 0) ++ (x.1 ++ List.replicate
          ((8 - (mcuBits bs mcu (fun _ => 0) ++ x.1).length % 8) % 8) true) := by
        subst hr0
        simp only [Rd.bits, toBits_zero, if_true, List.nil_append]
        rw [u1, padOnes, List.append_assoc]
      have ht0 : r0.tail = segTail false (x.2 ++ 0xFF :: m :: tail) := by
        subst hr0
        simp only [Rd.tail, if_true]
        rw [u2, hmk]
        simp [segTail, hmk0, hmkf]
      have htn : r0.tail ≠ none := by rw [ht0, hmk]; simp [segTail, hmk0, hmkf]
      obtain ⟨r1, e1, s1, b1⟩ := decBlocks_spec hprec hl mcu o1 hok0 htn hb0
      rw [e1]
      dsimp only
      rw [if_pos hdue.1]
      obtain ⟨s', e', q1, q2, q3, q4, q5⟩ := ih
        (s := { rd := r1, last := lastAfter bs mcu (fun _ => 0), togo := ri - 1,
                rst := (s.rst + 1) &&& 7, disc := 0 })
        o2 (Nat.lt_of_le_of_lt Nat.and_le_right (by omega)) s1.ok rfl
        (by rw [s1.insuff]; subst hr0; rfl)
        (pad := List.replicate ((8 - (mcuBits bs mcu (fun _ => 0) ++ x.1).length % 8) % 8) true)
        (by rw [List.length_replicate]; omega) (by dsimp only; rw [hx, b1])
        (by dsimp only; rw [s1.tail, ht0, hx])
      refine ⟨s', by rw [e'], ?_, q2, q3, q4, q5⟩
      rw [q1]; dsimp only; rw [s1.warns]; subst hr0; rfl
    · simp only [if_neg hdue] at ok hb ht ⊢
      obtain ⟨o1, o2⟩ := ok
      rw [hi]
      simp only [Bool.false_eq_true, if_false]
      rw [List.append_assoc] at hb
      have htn : s.rd.tail ≠ none := by
        rw [ht]
        have : ∀ bytes, segTail false (bytes ++ 0xFF :: m :: tail) ≠ none ∧
            segTail true (bytes ++ 0xFF :: m :: tail) ≠ none := by
          intro bytes
          induction bytes with
          | nil => simp [segTail, hm0, hmff]
          | cons c bytes ihb =>
            simp only [List.cons_append, segTail]
            constructor
            · split
              · exact ihb.2
              · exact ihb.1
            · split
              · exact ihb.2
              · split
                · exact ihb.1
                · simp
        exact (this _).1
      obtain ⟨r1, e1, s1, b1⟩ := decBlocks_spec hprec hl mcu o1 hr htn hb
      rw [e1]
      dsimp only
      obtain ⟨s', e', q1, q2, q3, q4, q5⟩ := ih
        (s := { s with rd := r1, last := lastAfter bs mcu s.last,
                       togo := if ri ≠ 0 then s.togo - 1 else s.togo })
        o2 hrst s1.ok hd (by rw [s1.insuff]; exact hi) hpad b1 (by dsimp only; rw [s1.tail, ht])
      refine ⟨s', by rw [e'], ?_, q2, q3, q4, q5⟩
      rw [q1]; exact s1.warns

end Verif.Huff
