import Verif.Crop.Model
/-
Cropping together with any of the eight transforms: the result is the requested rectangle of what the transform does to the
whole image.
-/
namespace Verif.Crop
open Verif.Transf

/-- The crop rectangle lies inside the transformed image, and starts at an iMCU corner. -/
structure CropDims (t : Xform) (img : Img) (g : Geo2) : Prop where
  iw : g.imcuW = if Transf.swaps t then Transf.imcuH img else Transf.imcuW img
  ih : g.imcuH = if Transf.swaps t then Transf.imcuW img else Transf.imcuH img
  w : g.xo * g.imcuW + g.outW ≤ if Transf.swaps t then img.h else img.w
  h : g.yo * g.imcuH + g.outH ≤ if Transf.swaps t then img.w else img.h

theorem add_divUp_le {a b n m : Nat} (hm : 0 < m) (h : a * m + b ≤ n) : a + divUp b m ≤ divUp n m := by
  unfold divUp
  have : a + (b + m - 1) / m = (a * m + (b + m - 1)) / m := by
    rw [Nat.add_comm (a * m), Nat.add_mul_div_right _ _ hm]; omega
  rw [this]
  exact Nat.div_le_div_right (by omega)

theorem execComp2_xf (fuel : Nat) (t : Xform) (slow : Bool) (wk : Kind) (init : Nat → Nat → Block) (drop : Option Arr) (img : Img)
    (h : Padded img) (g : Geo2) (hg : CropDims t img g) (c : Comp) (hc : c ∈ img.comps) :
    let f := if swaps t then (effV img c, effH img c) else (effH img c, effV img c)
    ∃ a, execComp2 fuel (.xf t) slow wk img g init drop c = some a ∧
      ∀ y x i j, y < divUp g.outH g.imcuH * f.2 → x < divUp (g.outW * f.1) g.imcuW →
        a.at_ y x i j = edgeCell (flags t) (img.h / imcuH img * effV img c) (img.w / imcuW img * effH img c)
          c.arr (g.yo * f.2 + y) (g.xo * f.1 + x) i j := by
  simp only
  have hle : _ ∧ _ := ⟨hg.w, hg.h⟩
  have hpos : 1 ≤ effH img c ∧ 1 ≤ effV img c := by
    have := h.pos c hc
    unfold effH effV
    split <;> omega
  have hp1 : 0 < imcuW img := by
    unfold imcuW; split
    · omega
    · exact Nat.mul_pos (maxOf_pos _) (by decide)
  have hp2 : 0 < imcuH img := by
    unfold imcuH; split
    · omega
    · exact Nat.mul_pos (maxOf_pos _) (by decide)
  have hr := h.rows c hc
  have hcl := h.cols c hc
  have hac := h.acc c hc
  have hf := dstFactors_eff t img c
  have hmx := par_max_eff t img h.nonempty
  generalize hmh : maxOf (img.comps.map (fun c => (dstFactors t img.comps.length c).1)) = mh at hmx
  generalize hmv : maxOf (img.comps.map (fun c => (dstFactors t img.comps.length c).2)) = mv at hmx
  have hmw' : img.w / imcuW img * effH img c ≤ c.arr.cols :=
    Nat.le_trans (Nat.mul_le_mul_right _ (div_le_divUp _ _ hp1)) hcl
  have hmh' : img.h / imcuH img * effV img c ≤ c.arr.rows :=
    Nat.le_trans (Nat.mul_le_mul_right _ (div_le_divUp _ _ hp2)) hr
  unfold execComp2 parOf2
  simp only [factors, hf, hmh, hmv]
  have hiw := hg.iw
  have hih := hg.ih
  generalize effH img c = eh at *
  generalize effV img c = ev at *
  generalize imcuW img = iw at *
  generalize imcuH img = ih at *
  cases hs : swaps t
  · -- not transposing
    rw [hs] at hmx hiw hih hle
    simp only [Bool.false_eq_true, if_false] at hmx hiw hih hle ⊢
    rw [hiw, hih] at hle
    simp only [hmx.1, hmx.2, hiw, hih]
    have dh : divUp (divUp (g.outH * ev) ih) ev = divUp g.outH ih := divUp_divUp _ _ _ hpos.2 hp2
    have dw : divUp (divUp (g.outW * eh) iw) eh = divUp g.outW iw := divUp_divUp _ _ _ hpos.1 hp1
    have dw2 : divUp (g.outW * eh) iw ≤ divUp g.outW iw * eh := divUp_mul_le _ _ _ hpos.1 hp1
    have mh1 : g.yo * ev + divUp g.outH ih * ev ≤ c.arr.rows := by
      rw [← Nat.add_mul]; exact Nat.le_trans (Nat.mul_le_mul_right _ (add_divUp_le hp2 hle.2)) hr
    have mw1 : g.xo * eh + divUp g.outW iw * eh ≤ c.arr.cols := by
      rw [← Nat.add_mul]; exact Nat.le_trans (Nat.mul_le_mul_right _ (add_divUp_le hp1 hle.1)) hcl
    cases t with
    | none =>
      have q1 : ¬ (g.outW > img.w ∨ g.outH > img.h) := by omega
      simp only [if_neg q1]
      by_cases q2 : g.xo ≠ 0 ∨ g.yo ≠ 0
      · rw [if_pos q2]
        obtain ⟨a', e, s⟩ := doCrop_spec ⟨img.w, img.h, mh, mv, eh, ev,
            divUp (g.outW * eh) iw, divUp (g.outH * ev) ih, g.xo, g.yo⟩ c.arr (workspace2 g (eh, ev) init)
          (by constructor <;> simp only [workspace2, dh, hiw, hih] <;> omega)
        refine ⟨a', e, ?_⟩
        intro y x i j hy hx
        rw [s.inside y x ⟨by simp only [dh]; exact hy, hx⟩]
        simp [flags, edgeCell, sgn]
      · rw [if_neg q2]
        refine ⟨_, rfl, ?_⟩
        intro y x i j _ _
        have q3 : g.xo = 0 := by omega
        have q4 : g.yo = 0 := by omega
        simp [flags, edgeCell, sgn, q3, q4]
    | flipH =>
      by_cases q : g.yo ≠ 0 ∨ slow = true
      · rw [if_pos q]
        obtain ⟨a', e, s⟩ := doFlipH_spec ⟨img.w, img.h, mh, mv, eh, ev,
            divUp (g.outW * eh) iw, divUp (g.outH * ev) ih, g.xo, g.yo⟩ c.arr (workspace2 g (eh, ev) init)
          (by constructor <;> simp only [workspace2, dh, hmx.1, hiw, hih] <;> omega)
        refine ⟨a', e, ?_⟩
        intro y x i j hy hx
        rw [s.inside y x ⟨by simp only [dh]; exact hy, hx⟩]
        simp only [hmx.1]
        by_cases hx' : g.xo * eh + x < img.w / iw * eh
        · rw [if_pos hx', cell_row, if_pos hx']
          simp [flags, edgeCell, sgn, cpFlipH, oddB, hx']
        · rw [if_neg hx', cell_row, if_neg hx']
          simp [flags, edgeCell, sgn, hx']
      · rw [if_neg q]
        have q4 : g.yo = 0 := by
          rw [not_or] at q; omega
        obtain ⟨a', e, d, s⟩ := doFlipHNoCrop_spec ⟨img.w, img.h, mh, mv, eh, ev,
            divUp (g.outW * eh) iw, divUp (g.outH * ev) ih, g.xo, g.yo⟩ c.arr hpos.2
          (by simp only [dh]; omega) (by simp only; omega) hac
          (by simp only [hmx.1]; exact hmw')
        refine ⟨a', e, ?_⟩
        intro y x i j hy hx
        rw [s y x (by simp only [dh]; exact hy) hx]
        simp only [flipHTarget, hmx.1, q4, Nat.zero_mul, Nat.zero_add]
        by_cases hx' : g.xo * eh + x < img.w / iw * eh
        · rw [if_pos hx', cell_row, if_pos hx']
          simp [flags, edgeCell, sgn, cpFlipH, oddB, hx']
        · rw [if_neg hx', cell_row, if_neg hx']
          simp [flags, edgeCell, sgn, hx']
    | flipV =>
      obtain ⟨a', e, s⟩ := doFlipV_spec ⟨img.w, img.h, mh, mv, eh, ev,
          divUp (g.outW * eh) iw, divUp (g.outH * ev) ih, g.xo, g.yo⟩ c.arr (workspace2 g (eh, ev) init)
        (by constructor <;> simp only [workspace2, dh, hmx.1, hmx.2, hiw, hih] <;> omega)
      refine ⟨a', e, ?_⟩
      intro y x i j hy hx
      rw [s.inside y x ⟨by simp only [dh]; exact hy, hx⟩]
      simp only [hmx.2]
      by_cases hx' : g.yo * ev + y < img.h / ih * ev
      · rw [if_pos hx', cell_row, if_pos hx']
        simp [flags, edgeCell, sgn, cpFlipV, oddB, hx']
      · rw [if_neg hx', cell_row, if_neg hx']
        simp [flags, edgeCell, sgn, hx']
    | rot180 =>
      obtain ⟨a', e, s⟩ := doRot180_spec ⟨img.w, img.h, mh, mv, eh, ev,
          divUp (g.outW * eh) iw, divUp (g.outH * ev) ih, g.xo, g.yo⟩ c.arr (workspace2 g (eh, ev) init)
        (by constructor <;> simp only [workspace2, dh, hmx.1, hmx.2, hiw, hih] <;> omega)
      refine ⟨a', e, ?_⟩
      intro y x i j hy hx
      rw [s.inside y x ⟨by simp only [dh]; exact hy, hx⟩]
      simp only [hmx.1, hmx.2, cell_row]
      by_cases hy' : g.yo * ev + y < img.h / ih * ev <;> by_cases hx' : g.xo * eh + x < img.w / iw * eh <;>
      rcases Nat.mod_two_eq_zero_or_one i.val with hi | hi <;> rcases Nat.mod_two_eq_zero_or_one j.val with hj | hj <;>
        simp [flags, edgeCell, sgn, cpRot180, cpFlipV, cpFlipH, oddB, hi, hj, hx', hy']
    | transpose => cases hs
    | transverse => cases hs
    | rot90 => cases hs
    | rot270 => cases hs
  · rw [hs] at hmx hiw hih hle
    simp only [if_true] at hmx hiw hih hle ⊢
    rw [hiw, hih] at hle
    simp only [hmx.1, hmx.2, hiw, hih]
    have dh : divUp (divUp (g.outH * eh) iw) eh = divUp g.outH iw := divUp_divUp _ _ _ hpos.1 hp1
    have dw : divUp (divUp (g.outW * ev) ih) ev = divUp g.outW ih := divUp_divUp _ _ _ hpos.2 hp2
    have dw2 : divUp (g.outW * ev) ih ≤ divUp g.outW ih * ev := divUp_mul_le _ _ _ hpos.2 hp2
    have mh1 : g.yo * eh + divUp g.outH iw * eh ≤ c.arr.cols := by
      rw [← Nat.add_mul]; exact Nat.le_trans (Nat.mul_le_mul_right _ (add_divUp_le hp1 hle.2)) hcl
    have mw1 : g.xo * ev + divUp g.outW ih * ev ≤ c.arr.rows := by
      rw [← Nat.add_mul]; exact Nat.le_trans (Nat.mul_le_mul_right _ (add_divUp_le hp2 hle.1)) hr
    cases t with
    | transpose =>
      obtain ⟨a', e, s⟩ := doTranspose_spec ⟨img.w, img.h, mh, mv, ev, eh,
          divUp (g.outW * ev) ih, divUp (g.outH * eh) iw, g.xo, g.yo⟩ c.arr (workspace2 g (ev, eh) init)
        (by constructor <;> simp only [workspace2, dh, dw, hmx.1, hmx.2, hiw, hih] <;> omega)
      refine ⟨a', e, ?_⟩
      intro y x i j hy hx
      rw [s.inside y x ⟨by simp only [dh]; exact hy, by simp only [dw]; omega⟩]
      simp [flags, edgeCell, sgn, cpTranspose]
    | rot90 =>
      obtain ⟨a', e, s⟩ := doRot90_spec ⟨img.w, img.h, mh, mv, ev, eh,
          divUp (g.outW * ev) ih, divUp (g.outH * eh) iw, g.xo, g.yo⟩ c.arr (workspace2 g (ev, eh) init)
        (by constructor <;> simp only [workspace2, dh, dw, hmx.1, hmx.2, hiw, hih] <;> omega)
      refine ⟨a', e, ?_⟩
      intro y x i j hy hx
      rw [s.inside y x ⟨by simp only [dh]; exact hy, by simp only [dw]; omega⟩]
      simp only [hmx.1, cell_row]
      by_cases hx' : g.xo * ev + x < img.h / ih * ev <;>
        simp [flags, edgeCell, sgn, cpRot90, cpTranspose, oddB, hx']
    | rot270 =>
      obtain ⟨a', e, s⟩ := doRot270_spec ⟨img.w, img.h, mh, mv, ev, eh,
          divUp (g.outW * ev) ih, divUp (g.outH * eh) iw, g.xo, g.yo⟩ c.arr (workspace2 g (ev, eh) init)
        (by constructor <;> simp only [workspace2, dh, dw, hmx.1, hmx.2, hiw, hih] <;> omega)
      refine ⟨a', e, ?_⟩
      intro y x i j hy hx
      rw [s.inside y x ⟨by simp only [dh]; exact hy, by simp only [dw]; omega⟩]
      simp only [hmx.2, cell_row]
      by_cases hy' : g.yo * eh + y < img.w / iw * eh <;>
        simp [flags, edgeCell, sgn, cpRot270, cpTranspose, oddB, hy']
    | transverse =>
      obtain ⟨a', e, s⟩ := doTransverse_spec ⟨img.w, img.h, mh, mv, ev, eh,
          divUp (g.outW * ev) ih, divUp (g.outH * eh) iw, g.xo, g.yo⟩ c.arr (workspace2 g (ev, eh) init)
        (by constructor <;> simp only [workspace2, dh, dw, hmx.1, hmx.2, hiw, hih] <;> omega)
      refine ⟨a', e, ?_⟩
      intro y x i j hy hx
      rw [s.inside y x ⟨by simp only [dh]; exact hy, by simp only [dw]; omega⟩]
      simp only [hmx.1, hmx.2, cell_row]
      by_cases hy' : g.yo * eh + y < img.w / iw * eh <;> by_cases hx' : g.xo * ev + x < img.h / ih * ev <;>
      rcases Nat.mod_two_eq_zero_or_one i.val with hi | hi <;> rcases Nat.mod_two_eq_zero_or_one j.val with hj | hj <;>
        simp [flags, edgeCell, sgn, cpTransverse, cpRot270, cpRot90, cpTranspose, oddB, hi, hj, hx', hy']
    | none => cases hs
    | flipH => cases hs
    | flipV => cases hs
    | rot180 => cases hs


end Verif.Crop
