import Verif.Prog.Scan
import Verif.Script.Validate
/-
C02: a whole progressive file.  The scans of a script are encoded one after the other from the coefficient arrays and
decoded one after the other into the decoder's coefficient arrays.
Code modelled: jdphuff.c:82-146 (start_pass_phuff_decoder: parameter checks and progression status), the scan loop;
the scan headers and tables are taken as transmitted.
-/
namespace Verif.Prog
open Verif Verif.Huff
open Verif.Geom (Pos Blk Frame inImage pad walk dMcu cPerScan dPerScan cInitialSetup dInitialSetup twopassMcus
  transcodeMcus specWalk)
open Verif.Script (LegalProg BitPos)

/-- What goes with a scan besides its script entry: restart interval, the table numbers of the components, the Huffman
tables in force, and what follows the entropy-coded data in the file. -/
structure Cfg where
  ri : Nat
  dcNo : Nat → Nat
  acNo : Nat → Nat
  dcT : Nat → HuffTbl
  acT : Nat → HuffTbl
  marker : Nat
  tail : List Nat

/-- Component indices of a scan. -/
def compIdx (s : Script.Scan) : List Nat := s.comps.map Int.toNat

/-- `select_scan_parameters` (jcmaster.c:442-487), `get_sos` (jdmarker.c:330-420) and per_scan_setup: what the
entropy coders see. -/
def scanPar (g : Geom.Scan) (s : Script.Scan) (c : Cfg) : SPar where
  Ss := s.Ss.toNat
  Se := s.Se.toNat
  Ah := s.Ah.toNat
  Al := s.Al.toNat
  ri := c.ri
  bs := g.membership.map (fun k => ⟨k, c.dcNo ((compIdx s).getD k 0)⟩)
  acNo := c.acNo ((compIdx s).getD 0 0)

/-- Encoding one scan from the full-image arrays: by the compressor (jccoefct.c compress_output) or by the transcoder
(jctrans.c compress_output). -/
def encodeScan (trans : Bool) (prec : Nat) (f : Frame) (img : Pos → Blk) (x : Script.Scan × Cfg) : Option (List Nat) :=
  match cPerScan f (compIdx x.1) with
  | .error _ => none
  | .ok g =>
    match (if trans then transcodeMcus f g img else some (twopassMcus f g img)) with
    | none => none
    | some mcus => encPScan prec x.2.dcT x.2.acT (scanPar g x.1 x.2) mcus

/-- Decoder state between scans: coefficient arrays, `coef_bits`, number of warnings. -/
structure DecSt where
  img : Pos → Blk
  bits : BitPos
  warns : Nat

/-- The fatal checks of start_pass_phuff_decoder (jdphuff.c:97-128). -/
def badScan (Ss Se Ah Al ncomp : Nat) : Bool :=
  (if Ss = 0 then Se ≠ 0 else Ss > Se ∨ Se ≥ 64 ∨ ncomp ≠ 1) ∨ (Ah ≠ 0 ∧ (Al : Int) ≠ (Ah : Int) - 1) ∨ Al > 13

/-- `for (coefi = Ss; coefi <= Se; coefi++)` (jdphuff.c:140-145). -/
def markCoefs (Ah Al : Nat) (c : Nat) : List Nat → BitPos × Nat → BitPos × Nat
  | [], x => x
  | k :: ks, (b, w) =>
    let expected : Int := if b c k < 0 then 0 else b c k
    markCoefs Ah Al c ks (b.set c k Al, if (Ah : Int) ≠ expected then w + 1 else w)

/-- The loop over the components (jdphuff.c:129-146); `prev_coef_bits` is not modelled. -/
def markComps (Ss Se Ah Al : Nat) : List Nat → BitPos × Nat → BitPos × Nat
  | [], x => x
  | c :: cs, (b, w) =>
    markComps Ss Se Ah Al cs (markCoefs Ah Al c (List.range' Ss (Se + 1 - Ss))
      (b, if Ss ≠ 0 ∧ b c 0 < 0 then w + 1 else w))

/-- One scan in the decoder; also what the marker reader finds after it. -/
def decodeScan (f : Frame) (x : Script.Scan × Cfg) (bytes : List Nat) (st : DecSt) :
    Option (DecSt × Option (Nat × List Nat × Nat)) :=
  match dPerScan f (compIdx x.1) with
  | .error _ => none
  | .ok g =>
    let p := scanPar g x.1 x.2
    if badScan p.Ss p.Se p.Ah p.Al (compIdx x.1).length then none
    else
      let b := markComps p.Ss p.Se p.Ah p.Al (compIdx x.1) (st.bits, st.warns)
      match decPScan x.2.dcT x.2.acT p (walk f g (dMcu f g)) bytes st.img with
      | none => none
      | some (img, s) => some ({ img := img, bits := b.1, warns := b.2 + s.rd.warns }, endOfScan s)

/-- All scans: `bytes` are the entropy-coded data of each, followed in the file by the marker and tail of the `Cfg`. -/
def decodeScans (f : Frame) : List ((Script.Scan × Cfg) × List Nat) → DecSt →
    Option (DecSt × List (Option (Nat × List Nat × Nat)))
  | [], st => some (st, [])
  | (x, bytes) :: xs, st =>
    match decodeScan f x (bytes ++ [0xFF, x.2.marker] ++ x.2.tail) st with
    | none => none
    | some (st, e) => (decodeScans f xs st).map (fun y => (y.1, e :: y.2))

/-- The arrays are allocated zeroed and `coef_bits` is -1 everywhere (jdcoefct.c:478-492, jdphuff.c:667-676). -/
def DecSt.init : DecSt := { img := fun _ => List.replicate 64 0, bits := fun _ _ => -1, warns := 0 }

/-! ### specification -/

/-- What a decoder must know of coefficient `k` (zigzag position) of component `c`, originally `v`, after the scans
of a script: nothing sent, zero; otherwise `v` with its bits below the last `Al` cut off: DC by arithmetic shift, AC
in magnitude (T.81 G.1.2). -/
def sentValue (script : List Script.Scan) (c k : Nat) (v : Int) : Int :=
  match (script.filter (·.covers c k)).getLast? with
  | none => 0
  | some s => if k = 0 then apxDC s.Al.toNat v else apxAC s.Al.toNat v

/-- Bit position reached for a coefficient; -1: nothing sent. -/
def reached (script : List Script.Scan) (c k : Nat) : Int :=
  match (script.filter (·.covers c k)).getLast? with
  | none => -1
  | some s => s.Al

/-! ### proofs -/

theorem filter_snoc_last {α : Type} (q : α → Bool) (pre : List α) (s : α) :
    ((pre ++ [s]).filter q).getLast? = if q s then some s else (pre.filter q).getLast? := by
  rw [List.filter_append]
  by_cases h : q s
  · rw [if_pos h]; simp [h]
  · rw [if_neg h]; simp [h]

theorem sentValue_snoc (pre : List Script.Scan) (s : Script.Scan) (c k : Nat) (v : Int) :
    sentValue (pre ++ [s]) c k v = if s.covers c k then (if k = 0 then apxDC s.Al.toNat v else apxAC s.Al.toNat v)
      else sentValue pre c k v := by
  unfold sentValue
  rw [filter_snoc_last]
  by_cases h : s.covers c k
  · rw [if_pos h, if_pos h]
  · rw [if_neg h, if_neg h]

theorem reached_snoc (pre : List Script.Scan) (s : Script.Scan) (c k : Nat) :
    reached (pre ++ [s]) c k = if s.covers c k then s.Al else reached pre c k := by
  unfold reached
  rw [filter_snoc_last]
  by_cases h : s.covers c k
  · rw [if_pos h, if_pos h]
  · rw [if_neg h, if_neg h]

theorem bitsInOrder_last (l : List Script.Scan) (s : Script.Scan) (r : List Script.Scan) (known : Option Int)
    (h : Script.BitsInOrder known (l ++ s :: r)) :
    match (match l.getLast? with | none => known | some t => some t.Al) with
    | none => s.Ah = 0
    | some a => s.Ah = a ∧ s.Al = a - 1 := by
  induction l generalizing known with
  | nil =>
    cases known with
    | none => exact h.1
    | some a => exact ⟨h.1, h.2.1⟩
  | cons t l ih =>
    have ht : Script.BitsInOrder (some t.Al) (l ++ s :: r) := by
      cases known with
      | none => exact h.2
      | some a => exact h.2.2
    have := ih (some t.Al) ht
    cases l with
    | nil => simpa using this
    | cons u l =>
      rw [List.getLast?_cons_cons]
      cases e : (u :: l).getLast? with
      | none => simp at e
      | some x => rw [e] at this; exact this

/-- What a legal script says about a scan and the coefficients it carries. -/
theorem legal_step {n prec : Nat} {pre post : List Script.Scan} {s : Script.Scan}
    (L : LegalProg n prec (pre ++ s :: post)) (c k : Nat) (hc : s.covers c k = true) :
    (s.Ah = 0 → reached pre c k = -1) ∧ (s.Ah ≠ 0 → reached pre c k = s.Ah ∧ s.Al = s.Ah - 1) := by
  have hb := L.bits c k
  rw [List.filter_append, List.filter_cons, if_pos hc] at hb
  have := bitsInOrder_last _ _ _ _ hb
  have hpar := L.params s (by simp)
  unfold Script.ProgParamsOK at hpar
  unfold reached
  cases e : (pre.filter (·.covers c k)).getLast? with
  | none =>
    rw [e] at this
    dsimp only at this ⊢
    exact ⟨fun _ => rfl, fun h => absurd this h⟩
  | some t =>
    rw [e] at this
    dsimp only at this ⊢
    have ht : t ∈ pre := by
      have := List.mem_of_mem_getLast? e
      exact (List.mem_filter.1 this).1
    have htp := L.params t (by simp [ht])
    unfold Script.ProgParamsOK at htp
    dsimp only at htp hpar
    constructor
    · intro h; omega
    · intro _; omega

/-! #### the decoder's progression status -/

theorem markCoefs_spec (Ah Al c : Nat) (ks : List Nat) (hn : ks.Nodup) (b : BitPos) (w : Nat)
    (h : ∀ k ∈ ks, (Ah : Int) = if b c k < 0 then 0 else b c k) :
    markCoefs Ah Al c ks (b, w) = (fun c' k' => if c' = c ∧ k' ∈ ks then (Al : Int) else b c' k', w) := by
  induction ks generalizing b with
  | nil => simp [markCoefs]
  | cons k ks ih =>
    rw [List.nodup_cons] at hn
    simp only [markCoefs]
    rw [if_neg (by rw [not_not]; exact h k (by simp)), ih hn.2]
    · congr 1
      funext c' k'
      unfold BitPos.set
      by_cases h1 : c' = c <;> by_cases h2 : k' = k <;> by_cases h3 : k' ∈ ks <;> simp [h1, h2, h3]
    · intro k' hk'
      have : k' ≠ k := fun e => hn.1 (e ▸ hk')
      unfold BitPos.set
      simp only [this, and_false, if_false]
      exact h k' (by simp [hk'])

theorem markComps_spec (Ss Se Ah Al : Nat) (cs : List Nat) (hn : cs.Nodup) (b : BitPos) (w : Nat)
    (h0 : Ss ≠ 0 → ∀ c ∈ cs, 0 ≤ b c 0)
    (h : ∀ c ∈ cs, ∀ k, Ss ≤ k → k ≤ Se → (Ah : Int) = if b c k < 0 then 0 else b c k) :
    markComps Ss Se Ah Al cs (b, w) =
      (fun c' k' => if c' ∈ cs ∧ Ss ≤ k' ∧ k' ≤ Se then (Al : Int) else b c' k', w) := by
  induction cs generalizing b with
  | nil => simp [markComps]
  | cons c cs ih =>
    rw [List.nodup_cons] at hn
    simp only [markComps]
    have hw : (if Ss ≠ 0 ∧ b c 0 < 0 then w + 1 else w) = w := by
      rw [if_neg]
      rintro ⟨h1, h2⟩
      have := h0 h1 c (by simp)
      omega
    rw [hw, markCoefs_spec _ _ _ _ List.nodup_range' _ _ (by
      intro k hk
      rw [List.mem_range'_1] at hk
      exact h c (by simp) k (by omega) (by omega))]
    have hne : ∀ c' ∈ cs, c' ≠ c := by rintro c' hm rfl; exact hn.1 hm
    rw [ih hn.2]
    · congr 1
      funext c' k'
      have hr : k' ∈ List.range' Ss (Se + 1 - Ss) ↔ Ss ≤ k' ∧ k' ≤ Se := by rw [List.mem_range'_1]; omega
      simp only [hr]
      by_cases h1 : c' = c <;> by_cases h2 : (Ss ≤ k' ∧ k' ≤ Se) <;> by_cases h3 : c' ∈ cs <;> simp [h1, h2, h3]
    · intro h1 c' hc'
      simp only [hne c' hc', false_and, if_false]
      exact h0 h1 c' (by simp [hc'])
    · intro c' hc' k hk1 hk2
      simp only [hne c' hc', false_and, if_false]
      exact h c' (by simp [hc']) k hk1 hk2

/-! #### blocks -/

theorem setBand_length (k : Nat) (ws : List Int) (blk : List Int) : (setBand k ws blk).length = blk.length := by
  induction ws generalizing k blk with
  | nil => rfl
  | cons w ws ih => simp [setBand, ih]

theorem getD_setBand (k : Nat) (ws : List Int) (blk : List Int) (hl : blk.length = 64) (hk : k + ws.length ≤ 64)
    {j : Nat} (hj : j < 64) : (setBand k ws blk).getD (natOrder.getD j 0) 0 =
      if k ≤ j ∧ j < k + ws.length then ws.getD (j - k) 0 else blk.getD (natOrder.getD j 0) 0 := by
  induction ws generalizing k blk with
  | nil =>
    simp only [setBand, List.length_nil, Nat.add_zero]
    rw [if_neg (by omega)]
  | cons w ws ih =>
    simp only [List.length_cons] at hk
    simp only [setBand]
    rw [ih (k + 1) (blk.set (natOrder.getD k 0) w) (by simpa using hl) (by omega)]
    by_cases h1 : j = k
    · subst h1
      rw [if_neg (by omega), if_pos (by simp)]
      have : natOrder.getD j 0 < blk.length := by rw [hl]; exact natOrder_lt _ hj
      rw [List.getD_eq_getElem?_getD, List.getElem?_set_self this]
      simp
    · have hne : natOrder.getD k 0 ≠ natOrder.getD j 0 := by
        intro e
        exact h1 (natOrder_inj hj (by omega) e.symm)
      rw [getD_set_ne hne]
      by_cases h2 : k ≤ j ∧ j < k + (ws.length + 1)
      · rw [if_pos (by omega), if_pos (by simp; omega)]
        obtain ⟨d, rfl⟩ : ∃ d, j = k + 1 + d := ⟨j - k - 1, by omega⟩
        rw [show k + 1 + d - (k + 1) = d by omega, show k + 1 + d - k = d + 1 by omega, List.getD_cons_succ]
      · rw [if_neg (by omega), if_neg (by simp; omega)]

theorem getD_setAC {Ss Se Al : Nat} {o c : Blk} (hc : c.length = 64) (hSs : Ss ≤ Se) (hSe : Se < 64) {j : Nat}
    (hj : j < 64) : (setAC Ss Se Al o c).getD (natOrder.getD j 0) 0 =
      if Ss ≤ j ∧ j ≤ Se then apxAC Al (o.getD (natOrder.getD j 0) 0) else c.getD (natOrder.getD j 0) 0 := by
  unfold setAC
  rw [getD_setBand _ _ _ hc (by simp [band_length]; omega) hj]
  simp only [List.length_map, band_length]
  by_cases h : Ss ≤ j ∧ j ≤ Se
  · rw [if_pos (by omega), if_pos h]
    unfold band
    rw [List.map_map, List.getD_eq_getElem?_getD, List.getElem?_map, List.getElem?_range (by omega)]
    simp only [Option.map_some, Function.comp_apply, Option.getD_some]
    rw [show Ss + (j - Ss) = j by omega]
  · rw [if_neg (by omega), if_neg h]

theorem natOrder_zero : natOrder.getD 0 0 = 0 := by decide +kernel

theorem natOrder_eq_zero {j : Nat} (hj : j < 64) : natOrder.getD j 0 = 0 ↔ j = 0 := by
  constructor
  · intro h
    exact natOrder_inj hj (by omega) (h.trans natOrder_zero.symm)
  · rintro rfl; exact natOrder_zero

theorem refDC_length (Al : Nat) (o c : Blk) : (refDC Al o c).length = c.length := by
  unfold refDC; split <;> simp

theorem res_length (p : SPar) (o c : Blk) : (p.res o c).length = c.length := by
  unfold SPar.res
  cases p.kind <;> simp [refDC_length, setAC, setBand_length]


/-! #### one scan of a legal script -/

theorem pad_inRange {prec : Nat} {f : Frame} (G : Geom.Good f) {idx : List Nat} (hi : ∀ i ∈ idx, i < f.comps.length)
    {img : Pos → Blk} (himg : ∀ p : Pos, p.1 ∈ idx → inImage f p = true → InRange prec (img p)) :
    ∀ p : Pos, p.1 ∈ idx → InRange prec (pad f img p) := by
  have hdummy : ∀ q, InRange prec q → InRange prec (Geom.dummyBlk (Geom.dcOf q)) := by
    intro q hq
    refine ⟨by simp [Geom.dummyBlk], ?_, hq.2.2.1, hq.2.2.2⟩
    intro k h1 h2
    obtain ⟨z, rfl⟩ : ∃ z, k = z + 1 := ⟨k - 1, by omega⟩
    unfold Geom.dummyBlk
    rw [List.getD_cons_succ, List.getD_eq_getElem?_getD, List.getElem?_replicate]
    have := Nat.two_pow_pos (prec + 2)
    split <;> simpa using this
  intro p hp
  obtain ⟨j, r, c⟩ := p
  simp only at hp
  obtain ⟨a, b, cc, d, -⟩ := G.facts (hi j hp)
  by_cases hin : inImage f (j, r, c) = true
  · rw [Geom.pad_in hin]; exact himg _ hp hin
  · by_cases hr : r < (f.comp j).heightInBlocks
    · have hc : (f.comp j).widthInBlocks ≤ c := by
        by_contra hc
        exact hin ((Geom.inImage_iff (hi j hp)).2 ⟨hr, by omega⟩)
      rw [Geom.pad_right hr hc]
      exact hdummy _ (himg _ hp ((Geom.inImage_iff (hi j hp)).2 ⟨hr, by omega⟩))
    · rw [Geom.pad_below (by omega)]
      refine hdummy _ (himg _ hp ((Geom.inImage_iff (hi j hp)).2 ⟨by omega, ?_⟩))
      have := Nat.min_le_right (c / (f.comp j).h * (f.comp j).h + ((f.comp j).h - 1))
        ((f.comp j).widthInBlocks - 1)
      omega

/-- Non-negative Al everywhere: what `reached` says determines what was sent. -/
theorem sent_of_unreached {pre : List Script.Scan} {c k : Nat} (h : reached pre c k = -1) (hA : ∀ t ∈ pre, 0 ≤ t.Al)
    (v : Int) : sentValue pre c k v = 0 := by
  unfold reached at h
  unfold sentValue
  cases e : (pre.filter (·.covers c k)).getLast? with
  | none => rfl
  | some t =>
    rw [e] at h
    have := hA t (List.mem_filter.1 (List.mem_of_mem_getLast? e)).1
    dsimp only at h
    omega

theorem sent_of_reached {pre : List Script.Scan} {c k a : Nat} (h : reached pre c k = a) (v : Int) :
    sentValue pre c k v = if k = 0 then apxDC a v else apxAC a v := by
  unfold reached at h
  unfold sentValue
  cases e : (pre.filter (·.covers c k)).getLast? with
  | none => rw [e] at h; simp only at h; omega
  | some t =>
    rw [e] at h
    simp only at h
    simp [h]

/-- The decoder after a prefix of the script. -/
structure Inv (f : Frame) (img : Pos → Blk) (pre : List Script.Scan) (st : DecSt) : Prop where
  bits : ∀ c k, st.bits c k = reached pre c k
  warns : st.warns = 0
  len : ∀ p, (st.img p).length = 64
  val : ∀ p : Pos, inImage f p = true → ∀ k < 64,
    (st.img p).getD (natOrder.getD k 0) 0 = sentValue pre p.1 k ((img p).getD (natOrder.getD k 0) 0)

/-- Everything about one scan of a legal script except the entropy coder. -/
structure StepFacts (prec : Nat) (f : Frame) (img : Pos → Blk) (pre : List Script.Scan) (x : Script.Scan × Cfg) (g : Geom.Scan)
    (st : DecSt) : Prop where
  per : dPerScan f (compIdx x.1) = .ok g
  band : (scanPar g x.1 x.2).Ss ≤ (scanPar g x.1 x.2).Se ∧ (scanPar g x.1 x.2).Se < 64
  al : (scanPar g x.1 x.2).Al ≤ 13
  ref : (scanPar g x.1 x.2).Ah ≠ 0 → (scanPar g x.1 x.2).Ah = (scanPar g x.1 x.2).Al + 1
  nodup : (walk f g (dMcu f g)).flatten.Nodup
  fits : (scanPar g x.1 x.2).Fits (walk f g (dMcu f g))
  range : ∀ q ∈ (walk f g (dMcu f g)).flatten, InRange prec (pad f img q)
  ready : ∀ q ∈ (walk f g (dMcu f g)).flatten, (scanPar g x.1 x.2).Ready (pad f img q) (st.img q)
  good : badScan (scanPar g x.1 x.2).Ss (scanPar g x.1 x.2).Se (scanPar g x.1 x.2).Ah (scanPar g x.1 x.2).Al (compIdx x.1).length = false
  two : twopassMcus f g img = (walk f g (dMcu f g)).map fun ps => ps.map (pad f img)
  trans : transcodeMcus f g img = some ((walk f g (dMcu f g)).map fun ps => ps.map (pad f img))
  quiet : (markComps (scanPar g x.1 x.2).Ss (scanPar g x.1 x.2).Se (scanPar g x.1 x.2).Ah (scanPar g x.1 x.2).Al (compIdx x.1)
    (st.bits, st.warns)).2 = 0
  inv : Inv f img (pre ++ [x.1]) ⟨fun q => if q ∈ (walk f g (dMcu f g)).flatten then (scanPar g x.1 x.2).res (pad f img q) (st.img q)
    else st.img q, (markComps (scanPar g x.1 x.2).Ss (scanPar g x.1 x.2).Se (scanPar g x.1 x.2).Ah (scanPar g x.1 x.2).Al (compIdx x.1)
    (st.bits, st.warns)).1, 0⟩

theorem scan_core {w ht ic prec : Nat} (hprec : prec ≤ 12) {fs : List (Nat × Nat)} {f : Frame}
    (h : cInitialSetup false w ht ic prec fs = .ok f) {img : Pos → Blk}
    (himg : ∀ p : Pos, inImage f p = true → InRange prec (img p)) {n : Nat} (hn : n = f.comps.length)
    {pre post : List Script.Scan} {x : Script.Scan × Cfg} (L : LegalProg n prec (pre ++ x.1 :: post))
    {g : Geom.Scan} (hg : cPerScan f (compIdx x.1) = .ok g) {st : DecSt} (I : Inv f img pre st) :
    StepFacts prec f img pre x g st := by
  obtain ⟨s, cf⟩ := x
  simp only at *
  obtain ⟨G, hlen, -⟩ := Geom.good_of_setup h
  obtain ⟨-, hdp, -⟩ := Geom.geometry_agrees false w ht ic prec fs f h
  have hC := L.comps s (by simp)
  have hP := L.params s (by simp)
  unfold Script.ProgParamsOK at hP
  unfold Script.CompsOK at hC
  dsimp only at hP
  have hAlp : ∀ t ∈ pre, 0 ≤ t.Al := by
    intro t ht
    have := L.params t (by simp [ht])
    unfold Script.ProgParamsOK at this
    dsimp only at this
    exact this.2.2.2.2.2.1
  have hm13 : (if prec = 12 then (13 : Int) else 10) ≤ 13 := by split <;> omega
  generalize (if prec = 12 then (13 : Int) else 10) = mx at hP hm13
  obtain ⟨hC1, hC2, hC3, hC4⟩ := hC
  have hi : ∀ i ∈ compIdx s, i < f.comps.length := by
    intro i hi
    obtain ⟨c, hc, rfl⟩ := List.mem_map.1 hi
    have := hC3 c hc
    omega
  have hnd : (compIdx s).Nodup := by
    unfold compIdx
    rw [List.Nodup, List.pairwise_map]
    refine (List.Pairwise.and_mem.1 hC4).imp ?_
    rintro a b ⟨ha, hb, hab⟩
    have := hC3 a ha
    have := hC3 b hb
    omega
  have hmemc : ∀ c : Nat, c ∈ compIdx s ↔ (c : Int) ∈ s.comps := by
    intro c
    unfold compIdx
    rw [List.mem_map]
    constructor
    · rintro ⟨a, ha, rfl⟩
      rw [Int.toNat_of_nonneg (hC3 a ha).1]; exact ha
    · intro hc; exact ⟨_, hc, by simp⟩
  have hne := Geom.idx_ne hg
  have ew := Geom.dWalk_eq_spec G hi hg
  obtain ⟨l1, l2⟩ := Geom.spec_lengths hg
  obtain ⟨e1, -, e3⟩ := Geom.mcus_eq G hi hg img
  -- the parameters as numbers
  obtain ⟨Ss, eSs⟩ : ∃ a : Nat, s.Ss = a := ⟨s.Ss.toNat, by omega⟩
  obtain ⟨Se, eSe⟩ : ∃ a : Nat, s.Se = a := ⟨s.Se.toNat, by omega⟩
  obtain ⟨Ah, eAh⟩ : ∃ a : Nat, s.Ah = a := ⟨s.Ah.toNat, by omega⟩
  obtain ⟨Al, eAl⟩ : ∃ a : Nat, s.Al = a := ⟨s.Al.toNat, by omega⟩
  rw [eSs, eSe, eAh, eAl] at hP
  have hcov : ∀ c k : Nat, s.covers c k = true ↔ c ∈ compIdx s ∧ Ss ≤ k ∧ k ≤ Se := by
    intro c k
    rw [hmemc]
    unfold Script.Scan.covers Script.Scan.has
    rw [eSs, eSe]
    simp
  obtain ⟨p, hp⟩ : ∃ p, scanPar g s cf = p := ⟨_, rfl⟩
  have pSs : p.Ss = Ss := by rw [← hp]; simp [scanPar, eSs]
  have pSe : p.Se = Se := by rw [← hp]; simp [scanPar, eSe]
  have pAh : p.Ah = Ah := by rw [← hp]; simp [scanPar, eAh]
  have pAl : p.Al = Al := by rw [← hp]; simp [scanPar, eAl]
  have pbs : p.bs.length = g.membership.length := by rw [← hp]; simp [scanPar]
  have hstep := fun c k hc => legal_step L c k hc
  rw [eAh, eAl] at hstep
  -- an AC scan has one component, whose walk is over blocks of the image
  have hsingle : Ss ≠ 0 → ∃ i, compIdx s = [i] := by
    intro h0
    have : (compIdx s).length = 1 := by
      unfold compIdx
      rw [List.length_map]
      exact hP.2.2.2.2.2.2.2.2 (by omega)
    match hx : compIdx s, this with
    | [i], _ => exact ⟨i, rfl⟩
  have hfit : p.Fits (walk f g (dMcu f g)) := by
    unfold SPar.Fits
    rw [ew, pSs]
    split
    · intro ps hps
      rw [pbs]; exact (l2 ps hps).2
    · rename_i h0
      obtain ⟨i, hi1⟩ := hsingle h0
      rw [hi1]
      intro ps hps
      simp only [specWalk, List.mem_flatMap, List.mem_map] at hps
      obtain ⟨r, -, c, -, rfl⟩ := hps
      rfl
  have hacin : Ss ≠ 0 → ∀ q ∈ (walk f g (dMcu f g)).flatten, inImage f q = true := by
    intro h0 q hq
    obtain ⟨i, hi1⟩ := hsingle h0
    rw [ew, hi1] at hq
    simp only [specWalk, List.mem_flatten, List.mem_flatMap, List.mem_map, List.mem_range] at hq
    obtain ⟨ps, ⟨r, hr, c, hc, rfl⟩, hq⟩ := hq
    simp only [List.mem_singleton] at hq
    subst hq
    exact (Geom.inImage_iff (hi i (by simp [hi1]))).2 ⟨hr, hc⟩
  have hwin : ∀ q ∈ (walk f g (dMcu f g)).flatten, q.1 ∈ compIdx s := by
    intro q hq
    rw [ew] at hq
    exact (Geom.spec_padded G hi hne q hq).1
  have hready : ∀ q ∈ (walk f g (dMcu f g)).flatten, p.Ready (pad f img q) (st.img q) := by
    intro q hq
    unfold SPar.Ready SPar.kind
    rw [pAh, pSs, pSe, pAl]
    by_cases h0 : Ss = 0
    · by_cases h1 : Ah = 0 <;> simp [h0, h1]
    have hin := hacin h0 q hq
    rw [Geom.pad_in hin]
    by_cases h1 : Ah = 0
    · rw [if_pos h1, if_neg h0]
      dsimp only
      intro k hk1 hk2
      rw [I.val q hin k (by omega)]
      exact sent_of_unreached ((hstep q.1 k ((hcov _ _).2 ⟨hwin q hq, hk1, hk2⟩)).1 (by omega)) hAlp _
    · rw [if_neg h1, if_neg h0]
      dsimp only
      intro k hk1 hk2
      rw [I.val q hin k (by omega)]
      obtain ⟨r1, r2⟩ := (hstep q.1 k ((hcov _ _).2 ⟨hwin q hq, hk1, hk2⟩)).2 (by omega)
      rw [sent_of_reached (a := Al + 1) (by omega), if_neg (by omega)]
  have hmark := markComps_spec Ss Se Ah Al (compIdx s) hnd st.bits st.warns (by
      intro h0 c hc
      have hh : s.has c = true := by
        unfold Script.Scan.has
        simpa using (hmemc c).1 hc
      obtain ⟨t, ht, htc⟩ := L.dcFirst pre s post rfl (by omega) c hh
      rw [I.bits]
      unfold reached
      cases e : (pre.filter (·.covers c 0)).getLast? with
      | none =>
        rw [List.getLast?_eq_none_iff] at e
        have : t ∈ pre.filter (·.covers c 0) := List.mem_filter.2 ⟨ht, htc⟩
        rw [e] at this
        cases this
      | some u => exact hAlp u (List.mem_filter.1 (List.mem_of_mem_getLast? e)).1)
    (by
      intro c hc k hk1 hk2
      have := hstep c k ((hcov c k).2 ⟨hc, hk1, hk2⟩)
      rw [I.bits]
      by_cases h1 : Ah = 0
      · rw [this.1 (by omega)]; omega
      · rw [(this.2 (by omega)).1]; omega)
  have hst : Ah ≠ 0 → (Al : Int) = (Ah : Int) - 1 := by
    intro h1
    have hex : ∃ c, c ∈ compIdx s := List.exists_mem_of_ne_nil _ hne
    obtain ⟨c, hc⟩ := hex
    have := ((hstep c Ss ((hcov c Ss).2 ⟨hc, by omega, by omega⟩)).2 (by omega)).2
    omega
  refine ⟨by rw [hdp]; exact hg, ?_, ?_, ?_, ?_, ?_, ?_, ?_, ?_, e3, ?_, ?_, ?_⟩
  · dsimp only; rw [hp, pSs, pSe]; omega
  · dsimp only; rw [hp, pAl]; omega
  · dsimp only; rw [hp, pAh, pAl]; intro h1; have := hst h1; omega
  · rw [ew]; exact Geom.spec_nodup hnd hne
  · dsimp only; rw [hp]; exact hfit
  · exact fun q hq => pad_inRange G hi (fun p _ h => himg p h) q (hwin q hq)
  · dsimp only; rw [hp]; exact hready
  · dsimp only
    rw [hp, Bool.eq_false_iff]
    unfold badScan
    rw [pSs, pSe, pAh, pAl]
    simp only [ne_eq, decide_eq_true_eq]
    have hs1 : Ss ≠ 0 → (compIdx s).length = 1 := by
      intro h0
      obtain ⟨i, hi1⟩ := hsingle h0
      rw [hi1]; rfl
    rintro (hb | hb | hb)
    · by_cases h0 : Ss = 0
      · rw [if_pos h0] at hb
        omega
      · rw [if_neg h0] at hb
        have := hs1 h0
        simp at hb
        omega
    · exact hb.2 (hst hb.1)
    · omega
  · rw [e1]
  · dsimp only; rw [hp, pSs, pSe, pAh, pAl, hmark]; exact I.warns
  · dsimp only
    rw [hp, pSs, pSe, pAh, pAl, hmark]
    dsimp only
    have hres : ∀ q ∈ (walk f g (dMcu f g)).flatten, inImage f q = true → ∀ k < 64,
        (p.res (pad f img q) (st.img q)).getD (natOrder.getD k 0) 0 =
          if Ss ≤ k ∧ k ≤ Se then (if k = 0 then apxDC Al ((img q).getD (natOrder.getD k 0) 0)
            else apxAC Al ((img q).getD (natOrder.getD k 0) 0)) else (st.img q).getD (natOrder.getD k 0) 0 := by
      intro q hq hin k hk
      rw [Geom.pad_in hin]
      have hset : Ss = 0 → ((st.img q).set 0 (apxDC Al ((img q).getD 0 0))).getD (natOrder.getD k 0) 0 =
          if Ss ≤ k ∧ k ≤ Se then (if k = 0 then apxDC Al ((img q).getD (natOrder.getD k 0) 0)
            else apxAC Al ((img q).getD (natOrder.getD k 0) 0)) else (st.img q).getD (natOrder.getD k 0) 0 := by
        intro h0
        have hSe0 : Se = 0 := by have := hP.2.2.2.2.2.2.2.1; omega
        by_cases hk0 : k = 0
        · subst hk0
          rw [if_pos (by omega), if_pos rfl, natOrder_zero, List.getD_eq_getElem?_getD,
            List.getElem?_set_self (by rw [I.len]; omega)]
          rfl
        · rw [if_neg (by omega), getD_set_ne]
          intro e
          exact hk0 ((natOrder_eq_zero hk).1 e.symm)
      unfold SPar.res SPar.kind
      rw [pAh, pSs, pSe, pAl]
      by_cases h0 : Ss = 0
      · by_cases h1 : Ah = 0
        · rw [if_pos h1, if_pos h0]
          exact hset h0
        · rw [if_neg h1, if_pos h0]
          dsimp only
          rw [refDC_eq (by omega) (coef16_dc hprec (himg q hin)) (by rw [I.len]; omega)]
          · exact hset h0
          · have := I.val q hin 0 (by omega)
            rw [natOrder_zero] at this
            rw [this]
            obtain ⟨r1, r2⟩ := (hstep q.1 0 ((hcov _ _).2 ⟨hwin q hq, by omega, by omega⟩)).2 (by omega)
            rw [sent_of_reached (a := Al + 1) (by omega), if_pos rfl]
      · have hac : (setAC Ss Se Al (img q) (st.img q)).getD (natOrder.getD k 0) 0 =
          if Ss ≤ k ∧ k ≤ Se then (if k = 0 then apxDC Al ((img q).getD (natOrder.getD k 0) 0)
            else apxAC Al ((img q).getD (natOrder.getD k 0) 0)) else (st.img q).getD (natOrder.getD k 0) 0 := by
          rw [getD_setAC (I.len q) (by omega) (by omega) hk]
          by_cases hb : Ss ≤ k ∧ k ≤ Se
          · rw [if_pos hb, if_pos hb, if_neg (by omega)]
          · rw [if_neg hb, if_neg hb]
        by_cases h1 : Ah = 0
        · rw [if_pos h1, if_neg h0]; exact hac
        · rw [if_neg h1, if_neg h0]; exact hac
    refine ⟨?_, rfl, ?_, ?_⟩
    · intro c k
      dsimp only
      rw [reached_snoc, I.bits, eAl]
      by_cases hc : s.covers c k = true
      · rw [if_pos hc, if_pos ((hcov c k).1 hc)]
      · rw [if_neg hc, if_neg (fun h => hc ((hcov c k).2 h))]
    · intro q
      dsimp only
      split
      · rw [res_length, I.len]
      · exact I.len q
    · intro q hin k hk
      dsimp only
      rw [sentValue_snoc, eAl]
      simp only [Int.toNat_natCast]
      by_cases hq : q ∈ (walk f g (dMcu f g)).flatten
      · rw [if_pos hq, hres q hq hin k hk, I.val q hin k hk]
        have := hwin q hq
        by_cases hb : Ss ≤ k ∧ k ≤ Se
        · rw [if_pos hb, if_pos ((hcov _ _).2 ⟨this, hb⟩)]
        · rw [if_neg hb, if_neg (fun h => hb ((hcov _ _).1 h).2)]
      · rw [if_neg hq, I.val q hin k hk, if_neg]
        intro hc
        apply hq
        rw [ew]
        exact Geom.spec_complete G hi hne q ((hcov _ _).1 hc).1 hin

theorem scan_step {w ht ic prec : Nat} (hprec : prec ≤ 12) {fs : List (Nat × Nat)} {f : Frame}
    (h : cInitialSetup false w ht ic prec fs = .ok f) {img : Pos → Blk}
    (himg : ∀ p : Pos, inImage f p = true → InRange prec (img p)) (trans : Bool) {n : Nat} (hn : n = f.comps.length)
    {pre post : List Script.Scan} {x : Script.Scan × Cfg} (L : LegalProg n prec (pre ++ x.1 :: post))
    {g : Geom.Scan} (hg : cPerScan f (compIdx x.1) = .ok g)
    (hT : TabsOk prec x.2.dcT x.2.acT (scanPar g x.1 x.2) (twopassMcus f g img))
    (hm : 0 < x.2.marker ∧ x.2.marker < 0xFF) (htail : IsBytes x.2.tail) {st : DecSt} (I : Inv f img pre st) :
    ∃ bytes st', encodeScan trans prec f img x = some bytes ∧
      decodeScan f x (bytes ++ [0xFF, x.2.marker] ++ x.2.tail) st = some (st', some (x.2.marker, x.2.tail, 0)) ∧
      Inv f img (pre ++ [x.1]) st' := by
  have F := scan_core hprec h himg hn L hg I
  obtain ⟨bytes, s', q1, -, q3, q4, q5⟩ := scan_roundtrip hprec _ F.band (by have := F.al; omega)
    (walk f g (dMcu f g)) F.nodup F.fits (pad f img) st.img F.range F.ready x.2.dcT x.2.acT (by rw [← F.two]; exact hT) hm htail
  refine ⟨bytes, _, ?_, ?_, F.inv⟩
  · unfold encodeScan
    simp only [hg]
    cases trans
    · simp only [Bool.false_eq_true, if_false, F.two]; exact q1
    · simp only [if_true, F.trans]; exact q1
  · unfold decodeScan
    simp only [F.per]
    rw [if_neg (by rw [F.good]; simp), q3]
    dsimp only
    rw [q4, q5, F.quiet]

theorem inv_init (f : Frame) (img : Pos → Blk) : Inv f img [] DecSt.init := by
  refine ⟨fun _ _ => rfl, rfl, fun _ => by simp [DecSt.init], ?_⟩
  intro p _ k hk
  have := natOrder_lt k hk
  generalize natOrder.getD k 0 = j at this
  simp only [DecSt.init, sentValue, List.filter_nil, List.getLast?_nil]
  rw [List.getD_eq_getElem?_getD, List.getElem?_replicate, if_pos this]
  rfl

/-- C02: progressive Huffman, whole image.  For every image whose coefficients are in range, every scan script the
library accepts as progressive and usable tables for each scan, all scans encode (from the compressor's or the
transcoder's arrays), the decoder reads them all without warning, finding after each scan the marker that follows it;
and every coefficient of the image that any scan carries comes back with exactly the bits the script sent, all others
zero. -/
theorem prog_roundtrip (w ht ic prec : Nat) (hprec : prec ≤ 12) (fs : List (Nat × Nat)) (f : Frame)
    (h : cInitialSetup false w ht ic prec fs = .ok f) (hfs : fs ≠ []) (img : Pos → Blk)
    (himg : ∀ p : Pos, inImage f p = true → InRange prec (img p)) (trans : Bool)
    (scans : List (Script.Scan × Cfg)) (hv : Script.validate fs.length prec (scans.map Prod.fst) = .ok .progressive)
    (hs : ∀ x ∈ scans, ∃ g, cPerScan f (compIdx x.1) = .ok g ∧
      TabsOk prec x.2.dcT x.2.acT (scanPar g x.1 x.2) (twopassMcus f g img))
    (hm : ∀ x ∈ scans, 0 < x.2.marker ∧ x.2.marker < 0xFF ∧ IsBytes x.2.tail) :
    ∃ bytess st, scans.mapM (encodeScan trans prec f img) = some bytess ∧
      decodeScans f (scans.zip bytess) DecSt.init =
        some (st, scans.map (fun x => some (x.2.marker, x.2.tail, 0))) ∧
      st.warns = 0 ∧
      ∀ p : Pos, inImage f p = true → (st.img p).length = 64 ∧ ∀ k < 64,
        (st.img p).getD (natOrder.getD k 0) 0 =
          sentValue (scans.map Prod.fst) p.1 k ((img p).getD (natOrder.getD k 0) 0) := by
  obtain ⟨G, hlen, -⟩ := Geom.good_of_setup h
  have L := (Script.validate_progressive_iff fs.length prec (by
    have := List.length_pos_iff.2 hfs
    omega) _).1 hv
  have key : ∀ (post pre : List (Script.Scan × Cfg)) (st : DecSt), LegalProg fs.length prec ((pre ++ post).map Prod.fst) →
      (∀ x ∈ post, ∃ g, cPerScan f (compIdx x.1) = .ok g ∧
        TabsOk prec x.2.dcT x.2.acT (scanPar g x.1 x.2) (twopassMcus f g img)) →
      (∀ x ∈ post, 0 < x.2.marker ∧ x.2.marker < 0xFF ∧ IsBytes x.2.tail) →
      Inv f img (pre.map Prod.fst) st →
      ∃ bytess st', post.mapM (encodeScan trans prec f img) = some bytess ∧
        decodeScans f (post.zip bytess) st = some (st', post.map (fun x => some (x.2.marker, x.2.tail, 0))) ∧
        Inv f img ((pre ++ post).map Prod.fst) st' := by
    intro post
    induction post with
    | nil =>
      intro pre st _ _ _ I
      exact ⟨[], st, rfl, rfl, by simpa using I⟩
    | cons x post ih =>
      intro pre st L hs hm I
      obtain ⟨g, hg, hT⟩ := hs x (by simp)
      obtain ⟨m1, m2, m3⟩ := hm x (by simp)
      obtain ⟨bytes, st1, q1, q2, I1⟩ := scan_step hprec h himg trans hlen.symm (pre := pre.map Prod.fst)
        (post := post.map Prod.fst) (by simpa using L) hg hT ⟨m1, m2⟩ m3 I
      obtain ⟨bytess, st2, q3, q4, I2⟩ := ih (pre ++ [x]) st1 (by simpa using L) (fun y hy => hs y (by simp [hy]))
        (fun y hy => hm y (by simp [hy])) (by simpa using I1)
      refine ⟨bytes :: bytess, st2, ?_, ?_, by simpa using I2⟩
      · rw [List.mapM_cons, q1, q3]; rfl
      · rw [List.zip_cons_cons, decodeScans, q2]
        dsimp only
        rw [q4]; rfl
  obtain ⟨bytess, st, q1, q2, I⟩ := key scans [] DecSt.init (by simpa using L) hs hm (inv_init f img)
  exact ⟨bytess, st, q1, q2, I.warns, fun p hp => ⟨I.len p, fun k hk => by simpa using I.val p hp k hk⟩⟩

/-- A script that sends every bit of every coefficient of `n` components. -/
def Complete (n : Nat) (script : List Script.Scan) : Prop :=
  ∀ c < n, ∀ k < 64, ∃ s ∈ script, s.covers c k = true ∧ s.Al = 0

theorem last_of_complete {n prec : Nat} {script : List Script.Scan} (L : LegalProg n prec script)
    {c k : Nat} (h : ∃ s ∈ script, s.covers c k = true ∧ s.Al = 0) (v : Int) : sentValue script c k v = v := by
  have hb := L.bits c k
  obtain ⟨s, hs, hc, h0⟩ := h
  have hm : s ∈ script.filter (·.covers c k) := List.mem_filter.2 ⟨hs, hc⟩
  have hlast : ∃ t, (script.filter (·.covers c k)).getLast? = some t ∧ t.Al = 0 := by
    have hpar : ∀ t ∈ script.filter (·.covers c k), 0 ≤ t.Al := by
      intro t ht
      have := L.params t (List.mem_filter.1 ht).1
      unfold Script.ProgParamsOK at this
      dsimp only at this
      exact this.2.2.2.2.2.1
    generalize script.filter (·.covers c k) = l at hm hb hpar
    obtain ⟨a, b, rfl⟩ := List.append_of_mem hm
    cases b with
    | nil => exact ⟨s, by simp, h0⟩
    | cons t b =>
      have := bitsInOrder_last (a ++ [s]) t b none (by simpa using hb)
      simp only [List.getLast?_append, List.getLast?_singleton, Option.some_or] at this
      have := hpar t (by simp)
      omega
  obtain ⟨t, e, h0⟩ := hlast
  unfold sentValue
  rw [e]
  simp [h0, apxDC, apxAC]

/-- If a script sends everything, "exactly the bits sent" means the block itself. -/
theorem exact_of_complete {n prec : Nat} {script : List Script.Scan} (L : LegalProg n prec script)
    (hall : Complete n script) {c : Nat} (hc : c < n) {o b : Blk} (ho : o.length = 64) (hb : b.length = 64)
    (h : ∀ k < 64, b.getD (natOrder.getD k 0) 0 = sentValue script c k (o.getD (natOrder.getD k 0) 0)) : b = o := by
  apply List.ext_getElem (by rw [hb, ho])
  intro j h1 h2
  obtain ⟨hk, hj⟩ := natOrder_surj j (by omega)
  have := h _ hk
  rw [last_of_complete L (hall c hc _ hk), hj] at this
  simpa only [List.getD_eq_getElem?_getD, List.getElem?_eq_getElem h1, List.getElem?_eq_getElem h2,
    Option.getD_some] using this

/-- C02, scripts that send everything: the coefficient arrays come back exactly. -/
theorem prog_roundtrip_complete (w ht ic prec : Nat) (hprec : prec ≤ 12) (fs : List (Nat × Nat)) (f : Frame)
    (h : cInitialSetup false w ht ic prec fs = .ok f) (hfs : fs ≠ []) (img : Pos → Blk)
    (himg : ∀ p : Pos, inImage f p = true → InRange prec (img p)) (trans : Bool)
    (scans : List (Script.Scan × Cfg)) (hv : Script.validate fs.length prec (scans.map Prod.fst) = .ok .progressive)
    (hall : Complete fs.length (scans.map Prod.fst))
    (hs : ∀ x ∈ scans, ∃ g, cPerScan f (compIdx x.1) = .ok g ∧
      TabsOk prec x.2.dcT x.2.acT (scanPar g x.1 x.2) (twopassMcus f g img))
    (hm : ∀ x ∈ scans, 0 < x.2.marker ∧ x.2.marker < 0xFF ∧ IsBytes x.2.tail) :
    ∃ bytess st ends, scans.mapM (encodeScan trans prec f img) = some bytess ∧
      decodeScans f (scans.zip bytess) DecSt.init = some (st, ends) ∧ st.warns = 0 ∧
      ∀ p : Pos, inImage f p = true → st.img p = img p := by
  obtain ⟨bytess, st, q1, q2, q3, q4⟩ := prog_roundtrip w ht ic prec hprec fs f h hfs img himg trans scans hv hs hm
  refine ⟨bytess, st, _, q1, q2, q3, ?_⟩
  obtain ⟨G, hlen, -⟩ := Geom.good_of_setup h
  have L := (Script.validate_progressive_iff fs.length prec (by
    have := List.length_pos_iff.2 hfs
    omega) _).1 hv
  intro p hp
  have hp1 : p.1 < fs.length := by
    unfold inImage at hp
    simp only [Bool.and_eq_true, decide_eq_true_eq] at hp
    omega
  exact exact_of_complete L hall hp1 (himg p hp).1 (q4 p hp).1 (q4 p hp).2

end Verif.Prog
