import Mathlib.Data.List.Forall2
/-
Prediction, differencing and point transform of lossless mode.
Code modelled: jlossls.h:33-39 (predictors), jclossls.c:42-265 (differencers, reset_predictor, downscaling),
jdlossls.c:38-210 (undifferencers, upscaling).  Rows are lists of samples; a `while (--width)` loop over a row is a
recursion over the list.
-/
namespace Verif.Lossless

/-- PREDICTOR1 .. PREDICTOR7 (jlossls.h:33-39); RIGHT_SHIFT is an arithmetic shift (jpegint.h). -/
def pred (psv : Nat) (Ra Rb Rc : Int) : Int :=
  match psv with
  | 1 => Ra
  | 2 => Rb
  | 3 => Rc
  | 4 => Ra + Rb - Rc
  | 5 => Ra + ((Rb - Rc) >>> 1)
  | 6 => Rb + ((Ra - Rc) >>> 1)
  | _ => (Ra + Rb) >>> 1

/-- The loop of DIFFERENCE_1D (jclossls.c:67-71). -/
def diffLoop1 (Ra : Int) : List Int → List Int
  | [] => []
  | s :: ss => (s - pred 1 Ra 0 0) :: diffLoop1 s ss

/-- DIFFERENCE_1D (jclossls.c:59-71) with the given initial predictor. -/
def diff1D (p0 : Int) : List Int → List Int
  | [] => []
  | s :: ss => (s - p0) :: diffLoop1 s ss

/-- The loop of DIFFERENCE_2D (jclossls.c:102-108): the old `Rb` becomes `Rc`. -/
def diffLoop2 (psv : Nat) (Ra Rb : Int) : List Int → List Int → List Int
  | rb :: ps, s :: ss => (s - pred psv Ra rb Rb) :: diffLoop2 psv s rb ps ss
  | _, _ => []

/-- DIFFERENCE_2D (jclossls.c:94-108): first column predicted from above. -/
def diff2D (psv : Nat) : (prev input : List Int) → List Int
  | rb :: ps, s :: ss => (s - pred 2 0 rb 0) :: diffLoop2 psv s rb ps ss
  | _, _ => []

/-- INITIAL_PREDICTORx (jclossls.c:44, jdlossls.c:40). -/
def initPred (P Al : Nat) : Int := 2 ^ (P - Al - 1)

/-- Compressor state of one component: `predict_difference[ci]` (0 = first-row routine, else the routine
jpeg_difference<n>), `restart_rows_to_go[ci]`, `prev_row[ci]` (jlossls.h:60-71, jcdiffct.c:53). -/
structure ECmp where
  meth : Nat
  togo : Nat
  prev : List Int
deriving Repr, DecidableEq

/-- reset_predictor (jclossls.c:221-231). -/
def ECmp.reset (ri mpr : Nat) (s : ECmp) : ECmp := { s with meth := 0, togo := ri / mpr }

/-- Body of jpeg_difference_first_row / jpeg_difference1 .. 7 without the restart bookkeeping. -/
def diffBy (P Al meth : Nat) (prev cur : List Int) : List Int :=
  if meth = 0 then diff1D (initPred P Al) cur
  else if meth = 1 then diff1D (prev.getD 0 0) cur
  else diff2D meth prev cur

/-- The routine selected after the first row (jclossls.c:186-211). -/
def nextMeth (Ss : Nat) : Nat := if 1 ≤ Ss ∧ Ss ≤ 7 then Ss else 0

/-- One row of one component (jcdiffct.c:196-205): scale (jclossls.c:236-253), difference, restart count
(jclossls.c:73-79, 110-114; `unsigned int`), choice of the next routine, SWAP_ROWS. -/
def diffRow (P Al Ss ri mpr : Nat) (s : ECmp) (row : List Int) : List Int × ECmp :=
  let cur := if Al ≠ 0 then row.map (fun v : Int => v >>> Al) else row
  let d := diffBy P Al s.meth s.prev cur
  let togo := if ri ≠ 0 then (s.togo + (2 ^ 32 - 1)) % 2 ^ 32 else s.togo
  let s' : ECmp :=
    if ri ≠ 0 ∧ togo = 0 then { s with meth := 0, togo := ri / mpr }
    else { s with meth := if s.meth = 0 then nextMeth Ss else s.meth, togo := togo }
  (d, { s' with prev := cur })

/-- The loop of UNDIFFERENCE_1D (jdlossls.c:64-67). -/
def undLoop1 (Ra : Int) : List Int → List Int
  | [] => []
  | d :: ds => ((d + pred 1 Ra 0 0) % 65536) :: undLoop1 ((d + pred 1 Ra 0 0) % 65536) ds

/-- UNDIFFERENCE_1D (jdlossls.c:58-67). -/
def und1D (p0 : Int) : List Int → List Int
  | [] => []
  | d :: ds => ((d + p0) % 65536) :: undLoop1 ((d + p0) % 65536) ds

/-- The loop of UNDIFFERENCE_2D (jdlossls.c:93-98). -/
def undLoop2 (psv : Nat) (Ra Rb : Int) : List Int → List Int → List Int
  | rb :: ps, d :: ds =>
    ((d + pred psv Ra rb Rb) % 65536) :: undLoop2 psv ((d + pred psv Ra rb Rb) % 65536) rb ps ds
  | _, _ => []

/-- UNDIFFERENCE_2D (jdlossls.c:86-98). -/
def und2D (psv : Nat) : (prev diffs : List Int) → List Int
  | rb :: ps, d :: ds => ((d + pred 2 0 rb 0) % 65536) :: undLoop2 psv ((d + pred 2 0 rb 0) % 65536) rb ps ds
  | _, _ => []

/-- Decompressor state of one component: `predict_undifference[ci]` and the previous undifferenced row. -/
structure UCmp where
  meth : Nat
  prev : List Int
deriving Repr, DecidableEq

/-- Dispatch through `predict_undifference[ci]` (jdlossls.c:105-227): 0 = first row, 1..7 = the predictor. -/
def undBy (P Al meth : Nat) (prev ds : List Int) : List Int :=
  if meth = 0 then und1D (initPred P Al) ds
  else if meth = 1 then und1D (prev.getD 0 0) ds
  else und2D meth prev ds

/-- Conversion to the sample type: `JSAMPLE` (unsigned char), `J12SAMPLE` (short), `J16SAMPLE` (unsigned short). -/
def toSample (P : Nat) (v : Int) : Int :=
  if P = 8 then v % 256
  else if P = 12 then (if v % 65536 < 32768 then v % 65536 else v % 65536 - 65536)
  else v % 65536

/-- One row of one component (jddiffct.c:228-238): undifference, then upscale (jdlossls.c:191-210).
With one sample row per component the code uses the same buffer for the previous and the current row; every loop
reads entry `j` of the previous row before it writes entry `j`, so two lists give the same result. -/
def undRow (P Al Ss : Nat) (u : UCmp) (ds : List Int) : List Int × UCmp :=
  let r := undBy P Al u.meth u.prev ds
  (r.map (fun v => toSample P (v * 2 ^ Al)),
    { meth := if u.meth = 0 then nextMeth Ss else u.meth, prev := r })

/-! ### undifferencing inverts differencing -/

/-- The transmitted difference agrees with the computed one modulo 2^16. -/
def Cong (d d' : Int) : Prop := d' % 65536 = d % 65536

/-- 16-bit sample. -/
def S16 (v : Int) : Prop := 0 ≤ v ∧ v < 65536

theorem und_eq {s p d : Int} (hs : S16 s) (h : Cong (s - p) d) : (d + p) % 65536 = s := by
  obtain ⟨h1, h2⟩ := hs
  unfold Cong at h
  omega

theorem undLoop1_inv (ss : List Int) : ∀ (Ra : Int) (ds : List Int), (∀ s ∈ ss, S16 s) →
    List.Forall₂ Cong (diffLoop1 Ra ss) ds → undLoop1 Ra ds = ss := by
  induction ss with
  | nil => intro Ra ds _ h; cases h; rfl
  | cons s ss ih =>
    intro Ra ds hs h
    cases h with
    | cons h1 h2 =>
      have e := und_eq (hs s (by simp)) h1
      simp only [undLoop1, e]
      rw [ih s _ (fun x hx => hs x (by simp [hx])) h2]

theorem und1D_inv (p0 : Int) (ss ds : List Int) (hs : ∀ s ∈ ss, S16 s)
    (h : List.Forall₂ Cong (diff1D p0 ss) ds) : und1D p0 ds = ss := by
  cases ss with
  | nil => cases h; rfl
  | cons s ss =>
    cases h with
    | cons h1 h2 =>
      have e := und_eq (hs s (by simp)) h1
      simp only [und1D, e]
      rw [undLoop1_inv ss s _ (fun x hx => hs x (by simp [hx])) h2]

theorem undLoop2_inv (psv : Nat) (ss : List Int) : ∀ (Ra Rb : Int) (ps ds : List Int), ps.length = ss.length →
    (∀ s ∈ ss, S16 s) → List.Forall₂ Cong (diffLoop2 psv Ra Rb ps ss) ds → undLoop2 psv Ra Rb ps ds = ss := by
  induction ss with
  | nil =>
    intro Ra Rb ps ds hl _ h
    cases ps with
    | nil => cases h; rfl
    | cons => simp at hl
  | cons s ss ih =>
    intro Ra Rb ps ds hl hs h
    cases ps with
    | nil => simp at hl
    | cons rb ps =>
      cases h with
      | cons h1 h2 =>
        have e := und_eq (hs s (by simp)) h1
        simp only [undLoop2, e]
        rw [ih s rb ps _ (by simpa using hl) (fun x hx => hs x (by simp [hx])) h2]

theorem und2D_inv (psv : Nat) (ps ss ds : List Int) (hl : ps.length = ss.length) (hs : ∀ s ∈ ss, S16 s)
    (h : List.Forall₂ Cong (diff2D psv ps ss) ds) : und2D psv ps ds = ss := by
  cases ss with
  | nil =>
    cases ps with
    | nil => cases h; rfl
    | cons => simp at hl
  | cons s ss =>
    cases ps with
    | nil => simp at hl
    | cons rb ps =>
      cases h with
      | cons h1 h2 =>
        have e := und_eq (hs s (by simp)) h1
        simp only [und2D, e]
        rw [undLoop2_inv psv ss s rb ps _ (by simpa using hl) (fun x hx => hs x (by simp [hx])) h2]

theorem undBy_inv {P Al meth : Nat} {prev cur ds : List Int} (hl : meth ≠ 0 → prev.length = cur.length)
    (hs : ∀ s ∈ cur, S16 s) (h : List.Forall₂ Cong (diffBy P Al meth prev cur) ds) :
    undBy P Al meth prev ds = cur := by
  unfold diffBy at h
  unfold undBy
  by_cases h0 : meth = 0
  · rw [if_pos h0] at h ⊢
    exact und1D_inv _ _ _ hs h
  · rw [if_neg h0] at h ⊢
    by_cases h1 : meth = 1
    · rw [if_pos h1] at h ⊢
      exact und1D_inv _ _ _ hs h
    · rw [if_neg h1] at h ⊢
      exact und2D_inv _ _ _ _ (hl h0) hs h

theorem diffLoop1_length (ss : List Int) : ∀ Ra, (diffLoop1 Ra ss).length = ss.length := by
  induction ss with
  | nil => intro Ra; rfl
  | cons s ss ih => intro Ra; simp [diffLoop1, ih]

theorem diff1D_length (p0 : Int) (ss : List Int) : (diff1D p0 ss).length = ss.length := by
  cases ss with
  | nil => rfl
  | cons s ss => simp [diff1D, diffLoop1_length]

theorem diffLoop2_length (psv : Nat) (ss : List Int) : ∀ (Ra Rb : Int) (ps : List Int), ps.length = ss.length →
    (diffLoop2 psv Ra Rb ps ss).length = ss.length := by
  induction ss with
  | nil => intro Ra Rb ps h; cases ps with
    | nil => rfl
    | cons => simp at h
  | cons s ss ih =>
    intro Ra Rb ps h
    cases ps with
    | nil => simp at h
    | cons rb ps => simp [diffLoop2, ih s rb ps (by simpa using h)]

theorem diffBy_length {P Al meth : Nat} {prev cur : List Int} (hl : meth ≠ 0 → prev.length = cur.length) :
    (diffBy P Al meth prev cur).length = cur.length := by
  unfold diffBy
  split
  · exact diff1D_length _ _
  · rename_i h0
    split
    · exact diff1D_length _ _
    · have h := hl h0
      cases cur with
      | nil => cases prev with
        | nil => rfl
        | cons => simp at h
      | cons s ss =>
        cases prev with
        | nil => simp at h
        | cons rb ps => simp [diff2D, diffLoop2_length _ ss s rb ps (by simpa using h)]

end Verif.Lossless
