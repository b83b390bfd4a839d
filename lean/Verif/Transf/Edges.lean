import Verif.Transf.Props
/-
Transforms of images with partial iMCUs at the right and bottom edges, with and without trimming.
-/
namespace Verif.Transf

/-- Sampling factors as the transform sees them: a single component counts as 1x1. -/
def effH (img : Img) (c : Comp) : Nat := if img.comps.length = 1 then 1 else c.hs
def effV (img : Img) (c : Comp) : Nat := if img.comps.length = 1 then 1 else c.vs
/-- Size of an iMCU in pixels. -/
def imcuW (img : Img) : Nat := if img.comps.length = 1 then 8 else maxH img.comps * 8
def imcuH (img : Img) : Nat := if img.comps.length = 1 then 8 else maxV img.comps * 8

/-- Any image whose coefficient arrays are padded out to whole iMCUs, as the decompressor allocates them
(jdcoefct.c:843-862). -/
structure Padded (img : Img) : Prop where
  nonempty : img.comps ≠ []
  pos : ∀ c ∈ img.comps, 1 ≤ c.hs ∧ 1 ≤ c.vs
  rows : ∀ c ∈ img.comps, divUp img.h (imcuH img) * effV img c ≤ c.arr.rows
  cols : ∀ c ∈ img.comps, divUp img.w (imcuW img) * effH img c ≤ c.arr.cols
  acc : ∀ c ∈ img.comps, effV img c ≤ c.arr.maxaccess

/-- Specification of one coefficient: block (y, x) of the result comes from the transposed position if the transform
transposes; a reflected axis is reflected within its whole iMCUs (`limR` block rows, `limC` block columns of the
source), and a block beyond them keeps its place and its signs along that axis. -/
def edgeCell (f : Bool × Bool × Bool) (limR limC : Nat) (a : Arr) (y x : Nat) (i j : Fin 8) : Int :=
  let y1 := if f.1 then x else y
  let x1 := if f.1 then y else x
  let i1 := if f.1 then j else i
  let j1 := if f.1 then i else j
  let my := f.2.2 && decide (y1 < limR)
  let mx := f.2.1 && decide (x1 < limC)
  sgn ((my && oddB i1) ^^ (mx && oddB j1)) (a.at_ (if my then limR - 1 - y1 else y1) (if mx then limC - 1 - x1 else x1) i1 j1)

theorem divUp_le_divUp {a b m : Nat} (h : a ≤ b) : divUp a m ≤ divUp b m := by
  unfold divUp
  exact Nat.div_le_div_right (by omega)

theorem div_le_divUp (a m : Nat) (h : 0 < m) : a / m ≤ divUp a m := by
  unfold divUp
  exact Nat.div_le_div_right (by omega)

/-- Rounding up to blocks and then to groups of `v` blocks is rounding up to iMCUs. -/
theorem divUp_divUp (n v m : Nat) (hv : 0 < v) (hm : 0 < m) : divUp (divUp (n * v) m) v = divUp n m := by
  have key : ∀ a b k : Nat, 0 < b → (divUp a b ≤ k ↔ a ≤ k * b) := by
    intro a b k hb
    unfold divUp
    rw [Nat.div_le_iff_le_mul_add_pred hb, Nat.mul_comm]
    omega
  apply Nat.le_antisymm
  · rw [key _ _ _ hv, key _ _ _ hm]
    have := (key n m (divUp n m) hm).1 (Nat.le_refl _)
    calc n * v ≤ divUp n m * m * v := Nat.mul_le_mul_right _ this
      _ = divUp n m * v * m := by ring
  · rw [key _ _ _ hm]
    have h1 := (key _ _ _ hv).1 (Nat.le_refl (divUp (divUp (n * v) m) v))
    rw [key _ _ _ hm] at h1
    have : n * v ≤ (divUp (divUp (n * v) m) v * m) * v := by
      calc n * v ≤ _ := h1
        _ = _ := by ring
    exact Nat.le_of_mul_le_mul_right this hv

theorem divUp_mul_le (n v m : Nat) (hv : 0 < v) (hm : 0 < m) : divUp (n * v) m ≤ divUp n m * v := by
  have e := divUp_divUp n v m hv hm
  have : divUp (n * v) m ≤ divUp (divUp (n * v) m) v * v := by
    generalize divUp (n * v) m = z
    unfold divUp
    have := Nat.div_add_mod (z + v - 1) v
    have := Nat.mod_lt (z + v - 1) hv
    rw [Nat.mul_comm]
    omega
  rwa [e] at this

theorem trimEdge_le (out imcu off full : Nat) : trimEdge out imcu off full ≤ out := by
  unfold trimEdge
  simp only
  split
  · exact Nat.div_mul_le_self _ _
  · exact Nat.le_refl _

theorem dstFactors_eff (t : Xform) (img : Img) (c : Comp) : dstFactors t img.comps.length c =
    if swaps t then (effV img c, effH img c) else (effH img c, effV img c) := by
  unfold dstFactors effH effV
  by_cases h1 : img.comps.length = 1
  · simp [h1]
  · simp [h1]

theorem par_max_eff (t : Xform) (img : Img) (hne : img.comps ≠ []) :
    maxOf (img.comps.map (fun c => (dstFactors t img.comps.length c).1)) * 8 =
      (if swaps t then imcuH img else imcuW img) ∧
    maxOf (img.comps.map (fun c => (dstFactors t img.comps.length c).2)) * 8 =
      (if swaps t then imcuW img else imcuH img) := by
  by_cases h1 : img.comps.length = 1
  · obtain ⟨c, hc⟩ := List.length_eq_one_iff.1 h1
    simp [dstFactors, imcuW, imcuH, hc, maxOf]
  · have e : ∀ c, dstFactors t img.comps.length c = if swaps t then (c.vs, c.hs) else (c.hs, c.vs) := by
      intro c; unfold dstFactors; rw [if_neg h1]
    simp only [e, imcuW, imcuH, if_neg h1]
    cases swaps t <;> simp [maxH, maxV]

/-- Trimming as it applies to a transform: the output width and height. -/
structure OutDims (t : Xform) (trim : Bool) (img : Img) (g : Geo) : Prop where
  iw : g.imcuW = if swaps t then imcuH img else imcuW img
  ih : g.imcuH = if swaps t then imcuW img else imcuH img
  w : g.outW = (let full := if swaps t then img.h else img.w
    if trim ∧ (mat t).1 ≠ (1, 0) ∧ (mat t).1 ≠ (0, 1) then trimEdge full g.imcuW 0 full else full)
  h : g.outH = (let full := if swaps t then img.w else img.h
    if trim ∧ (mat t).2 ≠ (0, 1) ∧ (mat t).2 ≠ (1, 0) then trimEdge full g.imcuH 0 full else full)

theorem geometry_dims (t : Xform) (trim : Bool) (img : Img) : OutDims t trim img (geometry t trim img) := by
  constructor
  · cases t <;> rfl
  · cases t <;> rfl
  · unfold geometry; cases t <;> cases trim <;> simp [swaps, mat]
  · unfold geometry; cases t <;> cases trim <;> simp [swaps, mat]

theorem outdims_le {t trim img g} (h : OutDims t trim img g) : g.outW ≤ (if swaps t then img.h else img.w) ∧
    g.outH ≤ (if swaps t then img.w else img.h) := by
  constructor
  · rw [h.w]; simp only
    split
    · exact trimEdge_le _ _ _ _
    · exact Nat.le_refl _
  · rw [h.h]; simp only
    split
    · exact trimEdge_le _ _ _ _
    · exact Nat.le_refl _

theorem execComp_any (t : Xform) (trim : Bool) (init : Nat → Nat → Block) (img : Img) (h : Padded img) (c : Comp)
    (hc : c ∈ img.comps) : let g := geometry t trim img
    ∃ d, execComp t img g init c = some d ∧
      (d.hs, d.vs) = (if swaps t then (effV img c, effH img c) else (effH img c, effV img c)) ∧
      (∀ y x i j, y < divUp g.outH g.imcuH * d.vs → x < divUp (g.outW * d.hs) g.imcuW →
        d.arr.at_ y x i j = edgeCell (flags t) (img.h / imcuH img * effV img c) (img.w / imcuW img * effH img c)
          c.arr y x i j) := by
  simp only
  have hg := geometry_dims t trim img
  have hle := outdims_le hg
  generalize geometry t trim img = g at *
  have hpos : 1 ≤ effH img c ∧ 1 ≤ effV img c := by
    have := h.pos c hc
    unfold effH effV
    split <;> omega
  have hp1 : 0 < imcuW img := by
    unfold imcuW; split
    · omega
    · exact Nat.mul_pos (maxOf_pos _) (by decide)
  have hp2 : 0 < imcuH img := by
    unfold imcuH; split
    · omega
    · exact Nat.mul_pos (maxOf_pos _) (by decide)
  have hr := h.rows c hc
  have hcl := h.cols c hc
  have hac := h.acc c hc
  have hf := dstFactors_eff t img c
  have hmx := par_max_eff t img h.nonempty
  generalize hmh : maxOf (img.comps.map (fun c => (dstFactors t img.comps.length c).1)) = mh at hmx
  generalize hmv : maxOf (img.comps.map (fun c => (dstFactors t img.comps.length c).2)) = mv at hmx
  have hmw' : img.w / imcuW img * effH img c ≤ c.arr.cols :=
    Nat.le_trans (Nat.mul_le_mul_right _ (div_le_divUp _ _ hp1)) hcl
  have hmh' : img.h / imcuH img * effV img c ≤ c.arr.rows :=
    Nat.le_trans (Nat.mul_le_mul_right _ (div_le_divUp _ _ hp2)) hr
  unfold execComp parOf
  simp only [hf, hmh, hmv]
  have hiw := hg.iw
  have hih := hg.ih
  generalize effH img c = eh at *
  generalize effV img c = ev at *
  generalize imcuW img = iw at *
  generalize imcuH img = ih at *
  cases hs : swaps t
  · -- not transposing
    rw [hs] at hmx hiw hih hle
    simp only [Bool.false_eq_true, if_false] at hmx hiw hih hle ⊢
    rw [hmx.1, hmx.2, hiw, hih]
    have dh : divUp (divUp (g.outH * ev) ih) ev = divUp g.outH ih := divUp_divUp _ _ _ hpos.2 hp2
    have dw : divUp (divUp (g.outW * eh) iw) eh = divUp g.outW iw := divUp_divUp _ _ _ hpos.1 hp1
    have dw2 : divUp (g.outW * eh) iw ≤ divUp g.outW iw * eh := divUp_mul_le _ _ _ hpos.1 hp1
    have mh1 : divUp g.outH ih * ev ≤ c.arr.rows := Nat.le_trans (Nat.mul_le_mul_right _ (divUp_le_divUp hle.2)) hr
    have mw1 : divUp g.outW iw * eh ≤ c.arr.cols := Nat.le_trans (Nat.mul_le_mul_right _ (divUp_le_divUp hle.1)) hcl
    cases t with
    | none =>
      refine ⟨_, rfl, rfl, ?_⟩
      intro y x i j _ _
      simp [flags, edgeCell, sgn]
    | flipH =>
      obtain ⟨a', e, d, s⟩ := doFlipHNoCrop_spec ⟨img.w, img.h, mh, mv, eh, ev,
          divUp (g.outW * eh) iw, divUp (g.outH * ev) ih, 0, 0⟩ c.arr hpos.2
        (by simp only [dh]; exact mh1) (by simp only; omega) hac
        (by simp only [hmx.1]; exact hmw')
      simp only [e]
      refine ⟨_, rfl, rfl, ?_⟩
      intro y x i j hy hx
      simp only at hy hx
      simp only
      rw [s y x (by simp only [dh]; exact hy) hx]
      simp only [flipHTarget, hmx.1, Nat.zero_mul, Nat.zero_add]
      by_cases hx' : x < img.w / iw * eh
      · rw [if_pos hx', cell_row, if_pos hx']
        simp [flags, edgeCell, sgn, cpFlipH, oddB, hx']
      · rw [if_neg hx', cell_row, if_neg hx']
        simp [flags, edgeCell, sgn, hx']
    | flipV =>
      obtain ⟨a', e, s⟩ := doFlipV_spec ⟨img.w, img.h, mh, mv, eh, ev,
          divUp (g.outW * eh) iw, divUp (g.outH * ev) ih, 0, 0⟩ c.arr (workspace g (eh, ev) init)
        (by constructor <;> simp only [workspace, dh, hmx.1, hmx.2, hiw, hih] <;> omega)
      simp only [e]
      refine ⟨_, rfl, rfl, ?_⟩
      intro y x i j hy hx
      simp only at hy hx
      simp only
      rw [s.inside y x ⟨by simp only [dh]; exact hy, hx⟩]
      simp only [hmx.2, Nat.zero_mul, Nat.zero_add]
      by_cases hx' : y < img.h / ih * ev
      · rw [if_pos hx', cell_row, if_pos hx']
        simp [flags, edgeCell, sgn, cpFlipV, oddB, hx']
      · rw [if_neg hx', cell_row, if_neg hx']
        simp [flags, edgeCell, sgn, hx']
    | rot180 =>
      obtain ⟨a', e, s⟩ := doRot180_spec ⟨img.w, img.h, mh, mv, eh, ev,
          divUp (g.outW * eh) iw, divUp (g.outH * ev) ih, 0, 0⟩ c.arr (workspace g (eh, ev) init)
        (by constructor <;> simp only [workspace, dh, hmx.1, hmx.2, hiw, hih] <;> omega)
      simp only [e]
      refine ⟨_, rfl, rfl, ?_⟩
      intro y x i j hy hx
      simp only at hy hx
      simp only
      rw [s.inside y x ⟨by simp only [dh]; exact hy, hx⟩]
      simp only [hmx.1, hmx.2, Nat.zero_mul, Nat.zero_add, cell_row]
      by_cases hy' : y < img.h / ih * ev <;> by_cases hx' : x < img.w / iw * eh <;>
      rcases Nat.mod_two_eq_zero_or_one i.val with hi | hi <;> rcases Nat.mod_two_eq_zero_or_one j.val with hj | hj <;>
        simp [flags, edgeCell, sgn, cpRot180, cpFlipV, cpFlipH, oddB, hi, hj, hx', hy']
    | transpose => cases hs
    | transverse => cases hs
    | rot90 => cases hs
    | rot270 => cases hs
  · rw [hs] at hmx hiw hih hle
    simp only [if_true] at hmx hiw hih hle ⊢
    rw [hmx.1, hmx.2, hiw, hih]
    have dh : divUp (divUp (g.outH * eh) iw) eh = divUp g.outH iw := divUp_divUp _ _ _ hpos.1 hp1
    have dw : divUp (divUp (g.outW * ev) ih) ev = divUp g.outW ih := divUp_divUp _ _ _ hpos.2 hp2
    have dw2 : divUp (g.outW * ev) ih ≤ divUp g.outW ih * ev := divUp_mul_le _ _ _ hpos.2 hp2
    have mh1 : divUp g.outH iw * eh ≤ c.arr.cols := Nat.le_trans (Nat.mul_le_mul_right _ (divUp_le_divUp hle.2)) hcl
    have mw1 : divUp g.outW ih * ev ≤ c.arr.rows := Nat.le_trans (Nat.mul_le_mul_right _ (divUp_le_divUp hle.1)) hr
    cases t with
    | transpose =>
      obtain ⟨a', e, s⟩ := doTranspose_spec ⟨img.w, img.h, mh, mv, ev, eh,
          divUp (g.outW * ev) ih, divUp (g.outH * eh) iw, 0, 0⟩ c.arr (workspace g (ev, eh) init)
        (by constructor <;> simp only [workspace, dh, dw, hmx.1, hmx.2, hiw, hih] <;> omega)
      simp only [e]
      refine ⟨_, rfl, rfl, ?_⟩
      intro y x i j hy hx
      simp only at hy hx
      simp only
      rw [s.inside y x ⟨by simp only [dh]; exact hy, by simp only [dw]; omega⟩]
      simp [flags, edgeCell, sgn, cpTranspose]
    | rot90 =>
      obtain ⟨a', e, s⟩ := doRot90_spec ⟨img.w, img.h, mh, mv, ev, eh,
          divUp (g.outW * ev) ih, divUp (g.outH * eh) iw, 0, 0⟩ c.arr (workspace g (ev, eh) init)
        (by constructor <;> simp only [workspace, dh, dw, hmx.1, hmx.2, hiw, hih] <;> omega)
      simp only [e]
      refine ⟨_, rfl, rfl, ?_⟩
      intro y x i j hy hx
      simp only at hy hx
      simp only
      rw [s.inside y x ⟨by simp only [dh]; exact hy, by simp only [dw]; omega⟩]
      simp only [hmx.1, Nat.zero_mul, Nat.zero_add, cell_row]
      by_cases hx' : x < img.h / ih * ev <;>
        simp [flags, edgeCell, sgn, cpRot90, cpTranspose, oddB, hx']
    | rot270 =>
      obtain ⟨a', e, s⟩ := doRot270_spec ⟨img.w, img.h, mh, mv, ev, eh,
          divUp (g.outW * ev) ih, divUp (g.outH * eh) iw, 0, 0⟩ c.arr (workspace g (ev, eh) init)
        (by constructor <;> simp only [workspace, dh, dw, hmx.1, hmx.2, hiw, hih] <;> omega)
      simp only [e]
      refine ⟨_, rfl, rfl, ?_⟩
      intro y x i j hy hx
      simp only at hy hx
      simp only
      rw [s.inside y x ⟨by simp only [dh]; exact hy, by simp only [dw]; omega⟩]
      simp only [hmx.2, Nat.zero_mul, Nat.zero_add, cell_row]
      by_cases hy' : y < img.w / iw * eh <;>
        simp [flags, edgeCell, sgn, cpRot270, cpTranspose, oddB, hy']
    | transverse =>
      obtain ⟨a', e, s⟩ := doTransverse_spec ⟨img.w, img.h, mh, mv, ev, eh,
          divUp (g.outW * ev) ih, divUp (g.outH * eh) iw, 0, 0⟩ c.arr (workspace g (ev, eh) init)
        (by constructor <;> simp only [workspace, dh, dw, hmx.1, hmx.2, hiw, hih] <;> omega)
      simp only [e]
      refine ⟨_, rfl, rfl, ?_⟩
      intro y x i j hy hx
      simp only at hy hx
      simp only
      rw [s.inside y x ⟨by simp only [dh]; exact hy, by simp only [dw]; omega⟩]
      simp only [hmx.1, hmx.2, Nat.zero_mul, Nat.zero_add, cell_row]
      by_cases hy' : y < img.w / iw * eh <;> by_cases hx' : x < img.h / ih * ev <;>
      rcases Nat.mod_two_eq_zero_or_one i.val with hi | hi <;> rcases Nat.mod_two_eq_zero_or_one j.val with hj | hj <;>
        simp [flags, edgeCell, sgn, cpTransverse, cpRot270, cpRot90, cpTranspose, oddB, hi, hj, hx', hy']
    | none => cases hs
    | flipH => cases hs
    | flipV => cases hs
    | rot180 => cases hs

/-- C36: for every image size, every component layout, every transform, with or without trimming, the transform stays
inside its arrays, and every block of the result is the one the specification `edgeCell` names: reflected within the
whole iMCUs, kept in place beyond them. With trimming the output dimensions are those of `OutDims`. -/
theorem execute_any (t : Xform) (trim : Bool) (init : Nat → Nat → Block) (img : Img) (h : Padded img) :
    ∃ out g, execute t trim init img = some out ∧ OutDims t trim img g ∧ out.w = g.outW ∧ out.h = g.outH ∧
      List.Forall₂ (fun c d : Comp =>
        (d.hs, d.vs) = (if swaps t then (effV img c, effH img c) else (effH img c, effV img c)) ∧
        ∀ y x i j, y < divUp g.outH g.imcuH * d.vs → x < divUp (g.outW * d.hs) g.imcuW →
          d.arr.at_ y x i j = edgeCell (flags t) (img.h / imcuH img * effV img c) (img.w / imcuW img * effH img c)
            c.arr y x i j) img.comps out.comps := by
  obtain ⟨cs, e, f⟩ := mapM_some (execComp t img (geometry t trim img) init) _ img.comps
    (fun c hc => execComp_any t trim init img h c hc)
  refine ⟨⟨(geometry t trim img).outW, (geometry t trim img).outH, cs⟩, geometry t trim img, ?_, geometry_dims _ _ _,
    rfl, rfl, f⟩
  unfold execute
  simp only
  rw [e]; rfl

/-- A 35x21 image, 2x2 luma. -/
example : Padded { w := 35, h := 21, comps := [
    { hs := 2, vs := 2, arr := { rows := 4, cols := 6, maxaccess := 2, at_ := fun _ _ _ _ => 7 } },
    { hs := 1, vs := 1, arr := { rows := 2, cols := 3, maxaccess := 1, at_ := fun _ _ _ _ => 5 } }] } := by
  constructor <;> simp [maxH, maxV, maxOf, imcuH, imcuW, effH, effV, divUp]

end Verif.Transf
