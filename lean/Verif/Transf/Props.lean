import Verif.Transf.InPlace
import Mathlib.Data.List.Forall2
import Mathlib.Tactic.IntervalCases
/-
Properties C24 and C26: the lossless transforms.
-/
namespace Verif.Transf

/-! ## Specification -/

/-- The 2x2 matrix by which a transform acts on (column, row) pixel coordinates, up to translation: a clockwise
quarter turn sends (x, y) to (-y, x), and so on. -/
def mat : Xform → (Int × Int) × (Int × Int)
  | .none => ((1, 0), (0, 1))
  | .flipH => ((-1, 0), (0, 1))
  | .flipV => ((1, 0), (0, -1))
  | .transpose => ((0, 1), (1, 0))
  | .transverse => ((0, -1), (-1, 0))
  | .rot90 => ((0, -1), (1, 0))
  | .rot180 => ((-1, 0), (0, -1))
  | .rot270 => ((0, 1), (-1, 0))

/-- Matrix product. -/
def matMul (a b : (Int × Int) × (Int × Int)) : (Int × Int) × (Int × Int) :=
  ((a.1.1 * b.1.1 + a.1.2 * b.2.1, a.1.1 * b.1.2 + a.1.2 * b.2.2),
   (a.2.1 * b.1.1 + a.2.2 * b.2.1, a.2.1 * b.1.2 + a.2.2 * b.2.2))

/-- Every stored coefficient is a `JCOEF`. -/
def InRange (v : Int) : Prop := -32768 ≤ v ∧ v ≤ 32767

/-- An image of whole iMCUs with coefficient arrays of the right size, as the decompressor delivers it. -/
structure Whole (img : Img) : Prop where
  nonempty : img.comps ≠ []
  pos : ∀ c ∈ img.comps, 1 ≤ c.hs ∧ 1 ≤ c.vs
  single : img.comps.length = 1 → ∀ c ∈ img.comps, c.hs = 1 ∧ c.vs = 1
  wdvd : img.w % (maxH img.comps * 8) = 0
  hdvd : img.h % (maxV img.comps * 8) = 0
  rows : ∀ c ∈ img.comps, c.arr.rows = img.h / (maxV img.comps * 8) * c.vs
  cols : ∀ c ∈ img.comps, c.arr.cols = img.w / (maxH img.comps * 8) * c.hs
  /-- each array can be accessed a block row group at a time, in either orientation (jdcoefct.c:843-862 asks for
  `v_samp_factor` rows; a transposing routine asks for as many) -/
  acc : ∀ c ∈ img.comps, c.vs ≤ c.arr.maxaccess
  range : ∀ c ∈ img.comps, ∀ y x i j, y < c.arr.rows → x < c.arr.cols → InRange (c.arr.at_ y x i j)

/-- Same image: same size, same sampling, same coefficients. -/
def SameImage (a b : Img) : Prop :=
  a.w = b.w ∧ a.h = b.h ∧ List.Forall₂ (fun c d : Comp => c.hs = d.hs ∧ c.vs = d.vs ∧ c.arr.rows = d.arr.rows ∧
    c.arr.cols = d.arr.cols ∧ ∀ y x, y < c.arr.rows → x < c.arr.cols → c.arr.at_ y x = d.arr.at_ y x) a.comps b.comps

/-! ## Signs -/

def oddB (i : Fin 8) : Bool := i.val % 2 == 1

def sgn (s : Bool) (v : Int) : Int := if s then neg16 v else v

theorem neg16_range (v : Int) : InRange (neg16 v) := by
  unfold neg16 InRange Int.bmod
  simp only
  split <;> omega

theorem neg16_neg16 (v : Int) (h : InRange v) : neg16 (neg16 v) = v := by
  unfold InRange at h
  unfold neg16 Int.bmod
  simp only
  split <;> split <;> omega

theorem sgn_range (s : Bool) (v : Int) (h : InRange v) : InRange (sgn s v) := by
  unfold sgn
  split
  · exact neg16_range v
  · exact h

theorem sgn_sgn (s t : Bool) (v : Int) (h : InRange v) : sgn s (sgn t v) = sgn (s ^^ t) v := by
  cases s <;> cases t <;> simp [sgn, neg16_neg16 v h]

/-! ## The transforms as source lookups -/

/-- transposing?, mirrored source columns?, mirrored source rows? -/
def flags : Xform → Bool × Bool × Bool
  | .none => (false, false, false)
  | .flipH => (false, true, false)
  | .flipV => (false, false, true)
  | .transpose => (true, false, false)
  | .transverse => (true, true, true)
  | .rot90 => (true, false, true)
  | .rot180 => (false, true, true)
  | .rot270 => (true, true, false)

def cellOf (f : Bool × Bool × Bool) (a : Arr) (y x : Nat) (i j : Fin 8) : Int :=
  let y1 := if f.1 then x else y
  let x1 := if f.1 then y else x
  let i1 := if f.1 then j else i
  let j1 := if f.1 then i else j
  sgn ((f.2.2 && oddB i1) ^^ (f.2.1 && oddB j1))
    (a.at_ (if f.2.2 then a.rows - 1 - y1 else y1) (if f.2.1 then a.cols - 1 - x1 else x1) i1 j1)

/-- `out` is `img` transformed by `t`. -/
structure Transformed (t : Xform) (img out : Img) : Prop where
  w : out.w = if swaps t then img.h else img.w
  h : out.h = if swaps t then img.w else img.h
  comps : List.Forall₂ (fun c d : Comp =>
    d.hs = (if swaps t then c.vs else c.hs) ∧ d.vs = (if swaps t then c.hs else c.vs) ∧
    d.arr.rows = (if swaps t then c.arr.cols else c.arr.rows) ∧
    d.arr.cols = (if swaps t then c.arr.rows else c.arr.cols) ∧
    (∀ y x i j, y < d.arr.rows → x < d.arr.cols → d.arr.at_ y x i j = cellOf (flags t) c.arr y x i j)) img.comps out.comps

/-! ## Geometry of whole images -/

theorem divUp_mul (q m : Nat) (h : 0 < m) : divUp (q * m) m = q := by
  unfold divUp
  rw [Nat.add_sub_assoc h]
  rw [Nat.add_comm, Nat.add_mul_div_right _ _ h, Nat.div_eq_of_lt (by omega), Nat.zero_add]

theorem divUp_scale (q v m : Nat) (h : 0 < m) : divUp (q * m * v) m = q * v := by
  have : q * m * v = (q * v) * m := by ring
  rw [this, divUp_mul _ _ h]

theorem maxOf_pos (l : List Nat) : 1 ≤ maxOf l := by
  unfold maxOf
  have : ∀ (l : List Nat) (m : Nat), m ≤ l.foldl max m := by
    intro l
    induction l with
    | nil => intro m; exact Nat.le_refl _
    | cons a l ih => intro m; exact Nat.le_trans (Nat.le_max_left _ _) (ih _)
  exact this l 1

theorem dstFactors_whole (t : Xform) (img : Img) (h : Whole img) (c : Comp) (hc : c ∈ img.comps) :
    dstFactors t img.comps.length c = if swaps t then (c.vs, c.hs) else (c.hs, c.vs) := by
  unfold dstFactors
  by_cases h1 : img.comps.length = 1
  · have := h.single h1 c hc
    rw [if_pos h1, this.1, this.2]
    simp
  · rw [if_neg h1]

theorem maxes_single (img : Img) (h : Whole img) (h1 : img.comps.length = 1) :
    maxH img.comps = 1 ∧ maxV img.comps = 1 := by
  obtain ⟨c, hc⟩ := List.length_eq_one_iff.1 h1
  have := h.single h1 c (by rw [hc]; simp)
  rw [hc]
  simp [maxH, maxV, maxOf, this.1, this.2]

theorem par_max (t : Xform) (img : Img) (h : Whole img) :
    maxOf (img.comps.map (fun c => (dstFactors t img.comps.length c).1)) =
      (if swaps t then maxV img.comps else maxH img.comps) ∧
    maxOf (img.comps.map (fun c => (dstFactors t img.comps.length c).2)) =
      (if swaps t then maxH img.comps else maxV img.comps) := by
  constructor
  · rw [List.map_congr_left (fun c hc => by rw [dstFactors_whole t img h c hc])]
    cases swaps t <;> rfl
  · rw [List.map_congr_left (fun c hc => by rw [dstFactors_whole t img h c hc])]
    cases swaps t <;> rfl

theorem trim_whole (q m : Nat) (h : 0 < m) : trimEdge (q * m) m 0 (q * m) = q * m := by
  unfold trimEdge
  simp only
  rw [Nat.mul_div_cancel _ h]
  split <;> rfl

theorem geometry_whole (t : Xform) (trim : Bool) (img : Img) (h : Whole img) :
    geometry t trim img = ⟨if swaps t then img.h else img.w, if swaps t then img.w else img.h,
      if swaps t then maxV img.comps * 8 else maxH img.comps * 8,
      if swaps t then maxH img.comps * 8 else maxV img.comps * 8⟩ := by
  have hm : (if img.comps.length = 1 then 8 else maxH img.comps * 8) = maxH img.comps * 8 ∧
      (if img.comps.length = 1 then 8 else maxV img.comps * 8) = maxV img.comps * 8 := by
    by_cases h1 : img.comps.length = 1
    · have := maxes_single img h h1
      rw [if_pos h1, if_pos h1, this.1, this.2]; simp
    · rw [if_neg h1, if_neg h1]; simp
  have hp1 : 0 < maxH img.comps * 8 := Nat.mul_pos (maxOf_pos _) (by decide)
  have hp2 : 0 < maxV img.comps * 8 := Nat.mul_pos (maxOf_pos _) (by decide)
  have hw : trimEdge img.w (maxH img.comps * 8) 0 img.w = img.w := by
    have := Nat.div_add_mod img.w (maxH img.comps * 8)
    rw [h.wdvd, Nat.add_zero, Nat.mul_comm] at this
    have e := trim_whole (img.w / (maxH img.comps * 8)) _ hp1
    rw [this] at e; exact e
  have hh : trimEdge img.h (maxV img.comps * 8) 0 img.h = img.h := by
    have := Nat.div_add_mod img.h (maxV img.comps * 8)
    rw [h.hdvd, Nat.add_zero, Nat.mul_comm] at this
    have e := trim_whole (img.h / (maxV img.comps * 8)) _ hp2
    rw [this] at e; exact e
  unfold geometry
  rw [hm.1, hm.2]
  cases t <;> cases trim <;> simp [swaps, hw, hh]

theorem cell_row (p q : Nat) : mir p q = if q < p then p - 1 - q else q := rfl

/-- One component of a whole image. -/
theorem execComp_whole (t : Xform) (trim : Bool) (init : Nat → Nat → Block) (img : Img) (h : Whole img) (c : Comp)
    (hc : c ∈ img.comps) : ∃ d, execComp t img (geometry t trim img) init c = some d ∧
      d.hs = (if swaps t then c.vs else c.hs) ∧ d.vs = (if swaps t then c.hs else c.vs) ∧
      d.arr.rows = (if swaps t then c.arr.cols else c.arr.rows) ∧
      d.arr.cols = (if swaps t then c.arr.rows else c.arr.cols) ∧
      d.vs ≤ d.arr.maxaccess ∧
      (∀ y x i j, y < d.arr.rows → x < d.arr.cols → d.arr.at_ y x i j = cellOf (flags t) c.arr y x i j) := by
  have hpos := h.pos c hc
  have hp1 : 0 < maxH img.comps * 8 := Nat.mul_pos (maxOf_pos _) (by decide)
  have hp2 : 0 < maxV img.comps * 8 := Nat.mul_pos (maxOf_pos _) (by decide)
  have hw : img.w = img.w / (maxH img.comps * 8) * (maxH img.comps * 8) := by
    have := Nat.div_add_mod img.w (maxH img.comps * 8)
    rw [h.wdvd, Nat.add_zero, Nat.mul_comm] at this; exact this.symm
  have hh : img.h = img.h / (maxV img.comps * 8) * (maxV img.comps * 8) := by
    have := Nat.div_add_mod img.h (maxV img.comps * 8)
    rw [h.hdvd, Nat.add_zero, Nat.mul_comm] at this; exact this.symm
  have hr := h.rows c hc
  have hcl := h.cols c hc
  have hac := h.acc c hc
  have hdw : divUp (img.w * c.hs) (maxH img.comps * 8) = img.w / (maxH img.comps * 8) * c.hs := by
    conv_lhs => rw [hw]
    exact divUp_scale _ _ _ hp1
  have hdh : divUp (img.h * c.vs) (maxV img.comps * 8) = img.h / (maxV img.comps * 8) * c.vs := by
    conv_lhs => rw [hh]
    exact divUp_scale _ _ _ hp2
  have hdw' : divUp img.w (maxH img.comps * 8) = img.w / (maxH img.comps * 8) := by
    conv_lhs => rw [hw]
    exact divUp_mul _ _ hp1
  have hdh' : divUp img.h (maxV img.comps * 8) = img.h / (maxV img.comps * 8) := by
    conv_lhs => rw [hh]
    exact divUp_mul _ _ hp2
  have hf := dstFactors_whole t img h c hc
  have hmx := par_max t img h
  have hg := geometry_whole t trim img h
  generalize hqw : img.w / (maxH img.comps * 8) = qw at *
  generalize hqh : img.h / (maxV img.comps * 8) = qh at *
  have u1 : divUp (qw * c.hs) c.hs = qw := divUp_mul _ _ hpos.1
  have u2 : divUp (qh * c.vs) c.vs = qh := divUp_mul _ _ hpos.2
  unfold execComp
  rw [hg]
  simp only [hf]
  unfold parOf
  simp only [hf, hmx]
  have oddeq : ∀ i : Fin 8, oddB i = true ↔ i.val % 2 = 1 := by intro i; simp [oddB]
  cases t with
  | none =>
    refine ⟨_, rfl, ?_⟩
    simp only [swaps, Bool.false_eq_true, if_false, true_and]
    refine ⟨hac, ?_⟩
    intro y x i j _ _
    simp [flags, cellOf, sgn]
  | flipH =>
    simp only [swaps, Bool.false_eq_true, if_false]
    obtain ⟨a', e, d, s⟩ := doFlipHNoCrop_spec ⟨img.w, img.h, maxH img.comps, maxV img.comps, c.hs, c.vs,
        divUp (img.w * c.hs) (maxH img.comps * 8), divUp (img.h * c.vs) (maxV img.comps * 8), 0, 0⟩ c.arr hpos.2
      (by simp only [hdh, u2, hr]; exact Nat.le_refl _) (by simp only [hdw, hcl]; omega) hac
      (by simp only [hqw, hcl]; exact Nat.le_refl _)
    rw [e]
    refine ⟨_, rfl, rfl, rfl, d.1, d.2.1, by simp only [d.2.2]; exact hac, ?_⟩
    intro y x i j hy hx
    simp only [d.1, d.2.1] at hy hx
    rw [s y x (by simp only [hdh, u2]; omega) (by simp only [hdw]; omega)]
    simp only [flipHTarget, hqw, Nat.zero_mul, Nat.zero_add]
    rw [← hcl, if_pos hx, cell_row, if_pos hx]
    simp [flags, cellOf, sgn, cpFlipH, oddB]
  | flipV =>
    simp only [swaps, Bool.false_eq_true, if_false]
    obtain ⟨a', e, s⟩ := doFlipV_spec ⟨img.w, img.h, maxH img.comps, maxV img.comps, c.hs, c.vs,
        divUp (img.w * c.hs) (maxH img.comps * 8), divUp (img.h * c.vs) (maxV img.comps * 8), 0, 0⟩ c.arr
        (workspace ⟨img.w, img.h, maxH img.comps * 8, maxV img.comps * 8⟩ (c.hs, c.vs) init)
      (by constructor <;> simp [workspace, hdw, hdh, hdw', hdh', u1, u2, hr, hcl, hpos.1, hpos.2, hac, hqw, hqh] <;> omega)
    rw [e]
    refine ⟨_, rfl, rfl, rfl, ?_, ?_, ?_, ?_⟩
    · simp [s.rows, workspace, hdh', hr]
    · simp [s.cols, workspace, hdw', hcl]
    · simp [s.acc, workspace]
    intro y x i j hy hx
    simp only [s.rows, s.cols, workspace, hdh', hdw'] at hy hx
    rw [s.inside y x ⟨by simp only [hdh, u2]; omega, by simp only [hdw]; omega⟩]
    simp only [hqh, Nat.zero_mul, Nat.zero_add]
    rw [← hr] at hy ⊢
    rw [if_pos hy, cell_row, if_pos hy]
    simp [flags, cellOf, sgn, cpFlipV, oddB]
  | rot180 =>
    simp only [swaps, Bool.false_eq_true, if_false]
    obtain ⟨a', e, s⟩ := doRot180_spec ⟨img.w, img.h, maxH img.comps, maxV img.comps, c.hs, c.vs,
        divUp (img.w * c.hs) (maxH img.comps * 8), divUp (img.h * c.vs) (maxV img.comps * 8), 0, 0⟩ c.arr
        (workspace ⟨img.w, img.h, maxH img.comps * 8, maxV img.comps * 8⟩ (c.hs, c.vs) init)
      (by constructor <;> simp [workspace, hdw, hdh, hdw', hdh', u1, u2, hr, hcl, hpos.1, hpos.2, hac, hqw, hqh] <;> omega)
    rw [e]
    refine ⟨_, rfl, rfl, rfl, ?_, ?_, ?_, ?_⟩
    · simp [s.rows, workspace, hdh', hr]
    · simp [s.cols, workspace, hdw', hcl]
    · simp [s.acc, workspace]
    intro y x i j hy hx
    simp only [s.rows, s.cols, workspace, hdh', hdw'] at hy hx
    rw [s.inside y x ⟨by simp only [hdh, u2]; omega, by simp only [hdw]; omega⟩]
    simp only [hqh, hqw, Nat.zero_mul, Nat.zero_add]
    rw [← hr] at hy ⊢
    rw [← hcl] at hx ⊢
    rw [if_pos hy, if_pos hx, cell_row, cell_row, if_pos hy, if_pos hx]
    rcases Nat.mod_two_eq_zero_or_one i.val with hi | hi <;> rcases Nat.mod_two_eq_zero_or_one j.val with hj | hj <;>
      simp [flags, cellOf, sgn, cpRot180, oddB, hi, hj]
  | transpose =>
    simp only [swaps, if_true]
    obtain ⟨a', e, s⟩ := doTranspose_spec ⟨img.w, img.h, maxV img.comps, maxH img.comps, c.vs, c.hs,
        divUp (img.h * c.vs) (maxV img.comps * 8), divUp (img.w * c.hs) (maxH img.comps * 8), 0, 0⟩ c.arr
        (workspace ⟨img.h, img.w, maxV img.comps * 8, maxH img.comps * 8⟩ (c.vs, c.hs) init)
      (by constructor <;> simp [workspace, hdw, hdh, hdw', hdh', u1, u2, hr, hcl, hpos.1, hpos.2, hac, hqw, hqh] <;> omega)
    rw [e]
    refine ⟨_, rfl, rfl, rfl, ?_, ?_, ?_, ?_⟩
    · simp [s.rows, workspace, hdw', hcl]
    · simp [s.cols, workspace, hdh', hr]
    · simp [s.acc, workspace]
    intro y x i j hy hx
    simp only [s.rows, s.cols, workspace, hdh', hdw'] at hy hx
    rw [s.inside y x ⟨by simp only [hdw, u1]; omega, by simp only [hdh, u2]; omega⟩]
    simp [flags, cellOf, sgn, cpTranspose]
  | rot90 =>
    simp only [swaps, if_true]
    obtain ⟨a', e, s⟩ := doRot90_spec ⟨img.w, img.h, maxV img.comps, maxH img.comps, c.vs, c.hs,
        divUp (img.h * c.vs) (maxV img.comps * 8), divUp (img.w * c.hs) (maxH img.comps * 8), 0, 0⟩ c.arr
        (workspace ⟨img.h, img.w, maxV img.comps * 8, maxH img.comps * 8⟩ (c.vs, c.hs) init)
      (by constructor <;> simp [workspace, hdw, hdh, hdw', hdh', u1, u2, hr, hcl, hpos.1, hpos.2, hac, hqw, hqh] <;> omega)
    rw [e]
    refine ⟨_, rfl, rfl, rfl, ?_, ?_, ?_, ?_⟩
    · simp [s.rows, workspace, hdw', hcl]
    · simp [s.cols, workspace, hdh', hr]
    · simp [s.acc, workspace]
    intro y x i j hy hx
    simp only [s.rows, s.cols, workspace, hdh', hdw'] at hy hx
    rw [s.inside y x ⟨by simp only [hdw, u1]; omega, by simp only [hdh, u2]; omega⟩]
    simp only [hqh, Nat.zero_mul, Nat.zero_add]
    rw [← hr] at hx ⊢
    rw [if_pos hx, cell_row, if_pos hx]
    simp [flags, cellOf, sgn, cpRot90, oddB]
  | rot270 =>
    simp only [swaps, if_true]
    obtain ⟨a', e, s⟩ := doRot270_spec ⟨img.w, img.h, maxV img.comps, maxH img.comps, c.vs, c.hs,
        divUp (img.h * c.vs) (maxV img.comps * 8), divUp (img.w * c.hs) (maxH img.comps * 8), 0, 0⟩ c.arr
        (workspace ⟨img.h, img.w, maxV img.comps * 8, maxH img.comps * 8⟩ (c.vs, c.hs) init)
      (by constructor <;> simp [workspace, hdw, hdh, hdw', hdh', u1, u2, hr, hcl, hpos.1, hpos.2, hac, hqw, hqh] <;> omega)
    rw [e]
    refine ⟨_, rfl, rfl, rfl, ?_, ?_, ?_, ?_⟩
    · simp [s.rows, workspace, hdw', hcl]
    · simp [s.cols, workspace, hdh', hr]
    · simp [s.acc, workspace]
    intro y x i j hy hx
    simp only [s.rows, s.cols, workspace, hdh', hdw'] at hy hx
    rw [s.inside y x ⟨by simp only [hdw, u1]; omega, by simp only [hdh, u2]; omega⟩]
    simp only [hqw, Nat.zero_mul, Nat.zero_add]
    rw [← hcl] at hy ⊢
    rw [if_pos hy, cell_row, if_pos hy]
    simp [flags, cellOf, sgn, cpRot270, oddB]
  | transverse =>
    simp only [swaps, if_true]
    obtain ⟨a', e, s⟩ := doTransverse_spec ⟨img.w, img.h, maxV img.comps, maxH img.comps, c.vs, c.hs,
        divUp (img.h * c.vs) (maxV img.comps * 8), divUp (img.w * c.hs) (maxH img.comps * 8), 0, 0⟩ c.arr
        (workspace ⟨img.h, img.w, maxV img.comps * 8, maxH img.comps * 8⟩ (c.vs, c.hs) init)
      (by constructor <;> simp [workspace, hdw, hdh, hdw', hdh', u1, u2, hr, hcl, hpos.1, hpos.2, hac, hqw, hqh] <;> omega)
    rw [e]
    refine ⟨_, rfl, rfl, rfl, ?_, ?_, ?_, ?_⟩
    · simp [s.rows, workspace, hdw', hcl]
    · simp [s.cols, workspace, hdh', hr]
    · simp [s.acc, workspace]
    intro y x i j hy hx
    simp only [s.rows, s.cols, workspace, hdh', hdw'] at hy hx
    rw [s.inside y x ⟨by simp only [hdw, u1]; omega, by simp only [hdh, u2]; omega⟩]
    simp only [hqh, hqw, Nat.zero_mul, Nat.zero_add]
    rw [← hr] at hx ⊢
    rw [← hcl] at hy ⊢
    rw [if_pos hy, if_pos hx, cell_row, cell_row, if_pos hy, if_pos hx]
    rcases Nat.mod_two_eq_zero_or_one i.val with hi | hi <;> rcases Nat.mod_two_eq_zero_or_one j.val with hj | hj <;>
      simp [flags, cellOf, sgn, cpTransverse, oddB, hi, hj]

theorem mapM_some {α β : Type} (f : α → Option β) (R : α → β → Prop) : ∀ l : List α,
    (∀ a ∈ l, ∃ b, f a = some b ∧ R a b) → ∃ bs, l.mapM f = some bs ∧ List.Forall₂ R l bs := by
  intro l
  induction l with
  | nil => intro _; exact ⟨[], rfl, List.Forall₂.nil⟩
  | cons a l ih =>
    intro h
    obtain ⟨b, e, r⟩ := h a (by simp)
    obtain ⟨bs, es, rs⟩ := ih (fun x hx => h x (by simp [hx]))
    exact ⟨b :: bs, by rw [List.mapM_cons, e, es]; rfl, List.Forall₂.cons r rs⟩

theorem forall2_map_eq {α β : Type} (f : α → Nat) (g : β → Nat) {R : α → β → Prop} {l : List α} {m : List β}
    (h : List.Forall₂ R l m) (e : ∀ a b, R a b → g b = f a) : m.map g = l.map f := by
  induction h with
  | nil => rfl
  | cons hab _ ih => rw [List.map_cons, List.map_cons, ih, e _ _ hab]

theorem forall2_mem {α β : Type} {R : α → β → Prop} {l : List α} {m : List β} (h : List.Forall₂ R l m) :
    ∀ b ∈ m, ∃ a ∈ l, R a b := by
  induction h with
  | nil => intro b hb; cases hb
  | cons hab _ ih =>
    intro b hb
    rcases List.mem_cons.1 hb with rfl | hb
    · exact ⟨_, by simp, hab⟩
    · obtain ⟨a, ha, r⟩ := ih b hb
      exact ⟨a, by simp [ha], r⟩

theorem cellOf_range (f : Bool × Bool × Bool) (a : Arr)
    (h : ∀ y x i j, y < a.rows → x < a.cols → InRange (a.at_ y x i j)) (y x : Nat) (i j : Fin 8)
    (hy : y < if f.1 then a.cols else a.rows) (hx : x < if f.1 then a.rows else a.cols) :
    InRange (cellOf f a y x i j) := by
  unfold cellOf
  simp only
  apply sgn_range
  obtain ⟨f1, f2, f3⟩ := f
  apply h
  · cases f1 <;> cases f3 <;> simp at * <;> omega
  · cases f1 <;> cases f2 <;> simp at * <;> omega

theorem flags_swaps (t : Xform) : (flags t).1 = swaps t := by cases t <;> rfl

/-- On an image of whole iMCUs every transform succeeds (no array access leaves its array), ignores the initial
contents of the workspace, gives exactly the mirrored / transposed arrangement, and its result is again such an
image. -/
theorem execute_whole (t : Xform) (trim : Bool) (init : Nat → Nat → Block) (img : Img) (h : Whole img) :
    ∃ out, execute t trim init img = some out ∧ Transformed t img out ∧ Whole out := by
  obtain ⟨cs, e, f⟩ := mapM_some (execComp t img (geometry t trim img) init) _ img.comps
    (fun c hc => execComp_whole t trim init img h c hc)
  have hg := geometry_whole t trim img h
  refine ⟨⟨if swaps t then img.h else img.w, if swaps t then img.w else img.h, cs⟩, ?_, ⟨rfl, rfl, ?_⟩, ?_⟩
  · unfold execute
    simp only
    rw [e, hg]; rfl
  · exact f.imp (fun a b r => ⟨r.1, r.2.1, r.2.2.1, r.2.2.2.1, r.2.2.2.2.2⟩)
  · have m1 : maxH cs = if swaps t then maxV img.comps else maxH img.comps := by
      unfold maxH maxV
      cases hs : swaps t
      · rw [forall2_map_eq Comp.hs Comp.hs f (fun a b r => by have := r.1; rw [hs] at this; simpa using this)]; rfl
      · rw [forall2_map_eq Comp.vs Comp.hs f (fun a b r => by have := r.1; rw [hs] at this; simpa using this)]; rfl
    have m2 : maxV cs = if swaps t then maxH img.comps else maxV img.comps := by
      unfold maxH maxV
      cases hs : swaps t
      · rw [forall2_map_eq Comp.vs Comp.vs f (fun a b r => by have := r.2.1; rw [hs] at this; simpa using this)]; rfl
      · rw [forall2_map_eq Comp.hs Comp.vs f (fun a b r => by have := r.2.1; rw [hs] at this; simpa using this)]; rfl
    have hlen : cs.length = img.comps.length := f.length_eq.symm
    constructor
    · intro hnil
      simp only at hnil
      rw [hnil] at hlen
      exact h.nonempty (List.length_eq_zero_iff.1 hlen.symm)
    · intro d hd
      obtain ⟨c, hc, r1, r2, -⟩ := forall2_mem f d hd
      have := h.pos c hc
      rw [r1, r2]
      cases swaps t <;> simp [this]
    · intro h1 d hd
      obtain ⟨c, hc, r1, r2, -⟩ := forall2_mem f d hd
      have := h.single (by rw [← hlen]; exact h1) c hc
      rw [r1, r2]
      cases swaps t <;> simp [this]
    · simp only [m1]
      cases swaps t
      · exact h.wdvd
      · exact h.hdvd
    · simp only [m2]
      cases swaps t
      · exact h.hdvd
      · exact h.wdvd
    · intro d hd
      obtain ⟨c, hc, r1, r2, r3, r4, -⟩ := forall2_mem f d hd
      simp only [m2]
      rw [r3, r2]
      cases swaps t
      · exact h.rows c hc
      · exact h.cols c hc
    · intro d hd
      obtain ⟨c, hc, r1, r2, r3, r4, -⟩ := forall2_mem f d hd
      simp only [m1]
      rw [r4, r1]
      cases swaps t
      · exact h.cols c hc
      · exact h.rows c hc
    · intro d hd
      obtain ⟨c, hc, r1, r2, r3, r4, r5, -⟩ := forall2_mem f d hd
      exact r5
    · intro d hd y x i j hy hx
      obtain ⟨c, hc, r1, r2, r3, r4, r5, r6⟩ := forall2_mem f d hd
      rw [r6 y x i j hy hx]
      apply cellOf_range _ _ (h.range c hc)
      · rw [flags_swaps, ← r3]; exact hy
      · rw [flags_swaps, ← r4]; exact hx

/-- Two lookups in a row are one lookup. -/
theorem cell_comp (t1 t2 t3 : Xform) (hm : mat t3 = matMul (mat t2) (mat t1)) (a b : Arr)
    (ha : ∀ y x i j, y < a.rows → x < a.cols → InRange (a.at_ y x i j))
    (hr : b.rows = if swaps t1 then a.cols else a.rows) (hc : b.cols = if swaps t1 then a.rows else a.cols)
    (hb : ∀ y x i j, y < b.rows → x < b.cols → b.at_ y x i j = cellOf (flags t1) a y x i j)
    (y x : Nat) (i j : Fin 8) (hy : y < if swaps t2 then b.cols else b.rows)
    (hx : x < if swaps t2 then b.rows else b.cols) :
    cellOf (flags t2) b y x i j = cellOf (flags t3) a y x i j := by
  have key : ∀ (f1 f2 : Bool × Bool × Bool), 
      b.rows = (if f1.1 then a.cols else a.rows) → b.cols = (if f1.1 then a.rows else a.cols) →
      (∀ y x i j, y < b.rows → x < b.cols → b.at_ y x i j = cellOf f1 a y x i j) →
      (y < if f2.1 then b.cols else b.rows) → (x < if f2.1 then b.rows else b.cols) →
      cellOf f2 b y x i j = cellOf (f1.1 ^^ f2.1, (if f1.1 then f2.2.2 ^^ f1.2.1 else f2.2.1 ^^ f1.2.1),
        (if f1.1 then f2.2.1 ^^ f1.2.2 else f2.2.2 ^^ f1.2.2)) a y x i j := by
    rintro ⟨p1, p2, p3⟩ ⟨q1, q2, q3⟩ h1 h2 h3 h4 h5
    simp only at h1 h2 h4 h5
    have hin : InRange (cellOf (p1, p2, p3) a (if q3 then b.rows - 1 - (if q1 then x else y) else (if q1 then x else y))
        (if q2 then b.cols - 1 - (if q1 then y else x) else (if q1 then y else x)) (if q1 then j else i) (if q1 then i else j)) := by
      apply cellOf_range _ _ ha
      · rw [← h1]; cases q1 <;> cases q3 <;> simp at * <;> omega
      · rw [← h2]; cases q1 <;> cases q2 <;> simp at * <;> omega
    conv_lhs => unfold cellOf
    simp only
    rw [h3]
    · generalize hcell : cellOf (p1, p2, p3) a _ _ _ _ = v at hin ⊢
      unfold cellOf at hcell
      simp only at hcell
      have hra : InRange (a.at_ (if p3 then a.rows - 1 - (if p1 then (if q2 then b.cols - 1 - (if q1 then y else x) else (if q1 then y else x)) else (if q3 then b.rows - 1 - (if q1 then x else y) else (if q1 then x else y)))
          else (if p1 then (if q2 then b.cols - 1 - (if q1 then y else x) else (if q1 then y else x)) else (if q3 then b.rows - 1 - (if q1 then x else y) else (if q1 then x else y))))
          (if p2 then a.cols - 1 - (if p1 then (if q3 then b.rows - 1 - (if q1 then x else y) else (if q1 then x else y)) else (if q2 then b.cols - 1 - (if q1 then y else x) else (if q1 then y else x)))
          else (if p1 then (if q3 then b.rows - 1 - (if q1 then x else y) else (if q1 then x else y)) else (if q2 then b.cols - 1 - (if q1 then y else x) else (if q1 then y else x))))
          (if p1 then (if q1 then i else j) else (if q1 then j else i)) (if p1 then (if q1 then j else i) else (if q1 then i else j))) := by
        apply ha
        · cases p1 <;> cases q1 <;> cases q2 <;> cases q3 <;> cases p3 <;> simp at * <;> omega
        · cases p1 <;> cases q1 <;> cases q2 <;> cases q3 <;> cases p2 <;> simp at * <;> omega
      rw [← hcell, sgn_sgn _ _ _ hra]
      unfold cellOf
      simp only
      congr 1
      · cases p1 <;> cases q1 <;> cases q2 <;> cases q3 <;> cases p2 <;> cases p3 <;>
          cases hi : oddB i <;> cases hj : oddB j <;> simp [hi, hj]
      · cases p1 <;> cases q1 <;> simp at h1 h2 h4 h5 ⊢
        all_goals
          congr 1
          · cases p3 <;> cases q2 <;> cases q3 <;> simp <;> omega
          · cases p2 <;> cases q2 <;> cases q3 <;> simp <;> omega
    · cases q1 <;> cases q3 <;> simp at * <;> omega
    · cases q1 <;> cases q2 <;> simp at * <;> omega
  rw [key (flags t1) (flags t2) (by rw [flags_swaps]; exact hr) (by rw [flags_swaps]; exact hc) hb
    (by rw [flags_swaps]; exact hy) (by rw [flags_swaps]; exact hx)]
  have hfl : flags t3 = ((flags t1).1 ^^ (flags t2).1,
      (if (flags t1).1 then (flags t2).2.2 ^^ (flags t1).2.1 else (flags t2).2.1 ^^ (flags t1).2.1),
      (if (flags t1).1 then (flags t2).2.1 ^^ (flags t1).2.2 else (flags t2).2.2 ^^ (flags t1).2.2)) := by
    revert hm
    cases t1 <;> cases t2 <;> cases t3 <;> decide
  rw [hfl]

theorem transformed_comp {t1 t2 t3 : Xform} (hm : mat t3 = matMul (mat t2) (mat t1)) {img a b : Img}
    (hw : Whole img) (h1 : Transformed t1 img a) (h2 : Transformed t2 a b) : Transformed t3 img b := by
  have hs3 : swaps t3 = (swaps t1 ^^ swaps t2) := by
    revert hm
    cases t1 <;> cases t2 <;> cases t3 <;> decide
  refine ⟨?_, ?_, ?_⟩
  · rw [h2.w, h1.w, h1.h, hs3]; cases swaps t1 <;> cases swaps t2 <;> rfl
  · rw [h2.h, h1.w, h1.h, hs3]; cases swaps t1 <;> cases swaps t2 <;> rfl
  · have key : ∀ (l m n : List Comp), (∀ c ∈ l, c ∈ img.comps) → List.Forall₂ (fun c d : Comp =>
          d.hs = (if swaps t1 then c.vs else c.hs) ∧ d.vs = (if swaps t1 then c.hs else c.vs) ∧
          d.arr.rows = (if swaps t1 then c.arr.cols else c.arr.rows) ∧
          d.arr.cols = (if swaps t1 then c.arr.rows else c.arr.cols) ∧
          (∀ y x i j, y < d.arr.rows → x < d.arr.cols → d.arr.at_ y x i j = cellOf (flags t1) c.arr y x i j)) l m →
        List.Forall₂ (fun c d : Comp =>
          d.hs = (if swaps t2 then c.vs else c.hs) ∧ d.vs = (if swaps t2 then c.hs else c.vs) ∧
          d.arr.rows = (if swaps t2 then c.arr.cols else c.arr.rows) ∧
          d.arr.cols = (if swaps t2 then c.arr.rows else c.arr.cols) ∧
          (∀ y x i j, y < d.arr.rows → x < d.arr.cols → d.arr.at_ y x i j = cellOf (flags t2) c.arr y x i j)) m n →
        List.Forall₂ (fun c d : Comp =>
          d.hs = (if swaps t3 then c.vs else c.hs) ∧ d.vs = (if swaps t3 then c.hs else c.vs) ∧
          d.arr.rows = (if swaps t3 then c.arr.cols else c.arr.rows) ∧
          d.arr.cols = (if swaps t3 then c.arr.rows else c.arr.cols) ∧
          (∀ y x i j, y < d.arr.rows → x < d.arr.cols → d.arr.at_ y x i j = cellOf (flags t3) c.arr y x i j)) l n := by
      intro l m n hl f1
      induction f1 generalizing n with
      | nil => intro f2; cases f2; exact List.Forall₂.nil
      | cons r1 _ ih =>
        intro f2
        cases f2 with
        | cons r2 f2' =>
          refine List.Forall₂.cons ?_ (ih _ (fun c hc => hl c (by simp [hc])) f2')
          obtain ⟨a1, a2, a3, a4, a5⟩ := r1
          obtain ⟨b1, b2, b3, b4, b5⟩ := r2
          refine ⟨?_, ?_, ?_, ?_, ?_⟩
          · rw [b1, a1, a2, hs3]; cases swaps t1 <;> cases swaps t2 <;> rfl
          · rw [b2, a1, a2, hs3]; cases swaps t1 <;> cases swaps t2 <;> rfl
          · rw [b3, a3, a4, hs3]; cases swaps t1 <;> cases swaps t2 <;> rfl
          · rw [b4, a3, a4, hs3]; cases swaps t1 <;> cases swaps t2 <;> rfl
          · intro y x i j hy hx
            rw [b5 y x i j hy hx]
            exact cell_comp t1 t2 t3 hm _ _ (hw.range _ (hl _ (by simp))) a3 a4 a5 y x i j
              (by rw [← b3]; exact hy) (by rw [← b4]; exact hx)
    exact key _ _ _ (fun _ h => h) h1.comps h2.comps

theorem transformed_unique {t : Xform} {img a b : Img} (h1 : Transformed t img a) (h2 : Transformed t img b) :
    SameImage a b := by
  refine ⟨by rw [h1.w, h2.w], by rw [h1.h, h2.h], ?_⟩
  have := h1.comps
  have h2c := h2.comps
  generalize img.comps = l at *
  generalize a.comps = m at *
  generalize b.comps = n at *
  induction this generalizing n with
  | nil => cases h2c; exact List.Forall₂.nil
  | cons r1 _ ih =>
    cases h2c with
    | cons r2 f2 =>
      refine List.Forall₂.cons ?_ (ih _ f2)
      obtain ⟨a1, a2, a3, a4, a5⟩ := r1
      obtain ⟨b1, b2, b3, b4, b5⟩ := r2
      refine ⟨by rw [a1, b1], by rw [a2, b2], by rw [a3, b3], by rw [a4, b4], ?_⟩
      intro y x hy hx
      funext i j
      rw [a5 y x i j hy hx, b5 y x i j (by rw [b3, ← a3]; exact hy) (by rw [b4, ← a4]; exact hx)]

/-- C24: on every image of whole iMCUs the transforms obey the laws of the symmetry group of the square: whenever the
matrix of `t3` is the product of those of `t2` and `t1`, doing `t1` and then `t2` gives the same image as `t3`; and
none of them fails. -/
theorem transforms_compose (t1 t2 t3 : Xform) (hm : mat t3 = matMul (mat t2) (mat t1)) (trim1 trim2 trim3 : Bool)
    (init1 init2 init3 : Nat → Nat → Block) (img : Img) (h : Whole img) :
    ∃ a b c, execute t1 trim1 init1 img = some a ∧ execute t2 trim2 init2 a = some b ∧
      execute t3 trim3 init3 img = some c ∧ SameImage b c := by
  obtain ⟨a, e1, p1, w1⟩ := execute_whole t1 trim1 init1 img h
  obtain ⟨b, e2, p2, w2⟩ := execute_whole t2 trim2 init2 a w1
  obtain ⟨c, e3, p3, w3⟩ := execute_whole t3 trim3 init3 img h
  exact ⟨a, b, c, e1, e2, e3, transformed_unique (transformed_comp hm h p1 p2) p3⟩

/-- The inverse of each transform. -/
def inverse : Xform → Xform
  | .rot90 => .rot270
  | .rot270 => .rot90
  | t => t

/-- C24: every transform is undone by its inverse (reflections and the half turn by themselves), exactly, coefficient
for coefficient; so each is a bijection. -/
theorem transform_undone (t : Xform) (trim1 trim2 : Bool) (init1 init2 : Nat → Nat → Block) (img : Img)
    (h : Whole img) : ∃ a b, execute t trim1 init1 img = some a ∧ Whole a ∧
      execute (inverse t) trim2 init2 a = some b ∧ SameImage b img := by
  obtain ⟨a, e1, p1, w1⟩ := execute_whole t trim1 init1 img h
  obtain ⟨b, e2, p2, w2⟩ := execute_whole (inverse t) trim2 init2 a w1
  obtain ⟨c, e3, p3, w3⟩ := execute_whole .none false init1 img h
  have hm : mat .none = matMul (mat (inverse t)) (mat t) := by cases t <;> decide
  have hid : Transformed .none img img := by
    refine ⟨rfl, rfl, ?_⟩
    apply List.forall₂_same.2
    intro c _
    simp [swaps, flags, cellOf, sgn]
  exact ⟨a, b, e1, w1, e2, transformed_unique (transformed_comp hm h p1 p2) hid⟩

/-- A 32x16 image with 2x1 luma sampling satisfies the hypotheses. -/
def demo : Img :=
  { w := 32, h := 16, comps := [
    { hs := 2, vs := 1, arr := { rows := 2, cols := 4, maxaccess := 1, at_ := fun y x i j => (y * 100 + x * 10 + i.val + j.val : Nat) % 30000 } },
    { hs := 1, vs := 1, arr := { rows := 2, cols := 2, maxaccess := 1, at_ := fun _ _ _ _ => -32768 } }] }

example : Whole demo := by
  constructor <;> simp [demo, maxH, maxV, maxOf, InRange]
  omega

example : mat .transverse = matMul (mat .transpose) (mat .rot180) := by decide

/-! ## C26 -/

/-- The source edges that a transform reflects: for each, must the width / the height be whole iMCUs? A reflected source
axis is one whose coordinate gets a factor -1 in the matrix. -/
def mirrorsX (t : Xform) : Prop := (mat t).1.1 = -1 ∨ (mat t).2.1 = -1
def mirrorsY (t : Xform) : Prop := (mat t).1.2 = -1 ∨ (mat t).2.2 = -1

/-- C26: the perfection test is exact: it says yes iff every source axis that is reflected is a whole number of
iMCUs. -/
theorem perfect_exact (w h mcuW mcuH : Nat) (t : Xform) :
    perfectTransform w h mcuW mcuH t = true ↔ ((mirrorsX t → mcuW ∣ w) ∧ (mirrorsY t → mcuH ∣ h)) := by
  have hx : mcuW ∣ w ↔ w % mcuW = 0 := Nat.dvd_iff_mod_eq_zero
  have hy : mcuH ∣ h ↔ h % mcuH = 0 := Nat.dvd_iff_mod_eq_zero
  rw [hx, hy]
  cases t <;> simp [perfectTransform, mirrorsX, mirrorsY, mat]
  all_goals
    by_cases h1 : w % mcuW = 0 <;> by_cases h2 : h % mcuH = 0 <;> simp [h1, h2]

/-- C26: trimming (without crop offset) gives the largest multiple of the iMCU size that is not larger than the
dimension, except that less than one iMCU is kept untouched. -/
theorem trim_exact (full imcu : Nat) (hi : 0 < imcu) :
    (full < imcu → trimEdge full imcu 0 full = full) ∧
    (imcu ≤ full → imcu ∣ trimEdge full imcu 0 full ∧ trimEdge full imcu 0 full ≤ full ∧
      ∀ k, imcu ∣ k → k ≤ full → k ≤ trimEdge full imcu 0 full) := by
  unfold trimEdge
  simp only [Nat.zero_add, and_true]
  constructor
  · intro h
    rw [if_neg (by rw [Nat.div_eq_of_lt h]; omega)]
  · intro h
    have : 0 < full / imcu := Nat.div_pos h hi
    rw [if_pos this]
    refine ⟨Dvd.intro_left _ rfl, Nat.div_mul_le_self _ _, ?_⟩
    rintro k ⟨q, rfl⟩ hk
    rw [Nat.mul_comm imcu q] at hk ⊢
    exact Nat.mul_le_mul_right _ ((Nat.le_div_iff_mul_le hi).2 hk)

/-- C26: trimming with a crop offset: the right edge is trimmed only when it is the image's own partial edge. -/
theorem trim_crop_exact (out imcu off full : Nat) (_hi : 0 < imcu) :
    trimEdge out imcu off full = (if imcu ≤ out ∧ off + out / imcu = full / imcu then out - out % imcu else out) := by
  unfold trimEdge
  simp only
  have h1 : out / imcu > 0 ↔ imcu ≤ out := by
    rw [gt_iff_lt, Nat.div_pos_iff]; omega
  have h2 : out / imcu * imcu = out - out % imcu := by
    have := Nat.div_add_mod out imcu
    rw [Nat.mul_comm] at this; omega
  simp only [h1, h2]

/-- After trimming, the transform of any image is perfect. -/
theorem trimmed_is_perfect (t : Xform) (w h mcuW mcuH : Nat) (hw : mcuW ≤ w) (hh : mcuH ≤ h) (h1 : 0 < mcuW)
    (h2 : 0 < mcuH) : perfectTransform (trimEdge w mcuW 0 w) (trimEdge h mcuH 0 h) mcuW mcuH t = true :=
  (perfect_exact _ _ _ _ _).2 ⟨fun _ => ((trim_exact w mcuW h1).2 hw).1, fun _ => ((trim_exact h mcuH h2).2 hh).1⟩

example : perfectTransform 33 16 16 16 .flipV = true ∧ perfectTransform 33 16 16 16 .rot270 = false ∧
    trimEdge 33 16 0 33 = 32 ∧ trimEdge 15 16 0 15 = 15 := by decide

end Verif.Transf
