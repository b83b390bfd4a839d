import Verif.Crop.Extend
import Verif.Crop.Parse
/-
Cropping, crop extension, wiping and dropping, from the request to the coefficients.
-/
namespace Verif.Crop
open Verif.Transf

/-- The factors of component `c` in an operation that does not transpose: blocks per iMCU. -/
theorem par_straight (op : Op) (hop : factors op = dstFactors .none) (img : Img) (hne : img.comps ≠ []) (g : Geo2) (c : Comp) :
    ∃ mh mv, mh * 8 = imcuW img ∧ mv * 8 = imcuH img ∧
      parOf2 op img g c = ⟨img.w, img.h, mh, mv, effH img c, effV img c, divUp (g.outW * effH img c) (imcuW img),
        divUp (g.outH * effV img c) (imcuH img), g.xo, g.yo⟩ ∧ factors op img.comps.length c = (effH img c, effV img c) := by
  have hf := dstFactors_eff .none img c
  have hmx := par_max_eff .none img hne
  simp only [swaps, Bool.false_eq_true, if_false] at hf hmx
  refine ⟨_, _, hmx.1, hmx.2, ?_, by rw [hop, hf]⟩
  unfold parOf2
  simp only [hop, hf, hmx.1, hmx.2]

theorem eff_pos {img : Img} (h : Padded img) {c : Comp} (hc : c ∈ img.comps) : 0 < effH img c ∧ 0 < effV img c := by
  have := h.pos c hc
  unfold effH effV
  split <;> omega

theorem imcu_pos' (img : Img) : 0 < imcuW img ∧ 0 < imcuH img := imcu_pos .none img

/-! ## Cropping -/

/-- C59: cropping with any transform gives the blocks of the transformed image that lie in the crop rectangle. `d` is the
component of the image transformed without cropping. -/
theorem crop_is_rectangle (fuel : Nat) (t : Xform) (trim slow : Bool) (init init' : Nat → Nat → Block) (drop : Option Arr) (img : Img)
    (h : Padded img) (r : Req) (hw : Within (if swaps t then img.h else img.w) r.w r.wk)
    (hh : Within (if swaps t then img.w else img.h) r.h r.hk) (g : Geo2) (hg : geometry (.xf t) trim img (some r) = some g)
    (c : Comp) (hc : c ∈ img.comps) :
    ∃ a d, execComp2 fuel (.xf t) slow r.wk img g init drop c = some a ∧
      execComp t img (Transf.geometry t false img) init' c = some d ∧
      ∀ y x, y < divUp g.outH g.imcuH * d.vs → x < divUp (g.outW * d.hs) g.imcuW →
        a.at_ y x = d.arr.at_ (g.yo * d.vs + y) (g.xo * d.hs + x) := by
  obtain ⟨-, -, -, -, -, -, -, -, hcd, -⟩ := (crop_geometry t trim img r hw hh).1 g hg
  obtain ⟨a, ea, pa⟩ := execComp2_xf fuel t slow r.wk init drop img h g hcd c hc
  obtain ⟨d, ed, hf, pd⟩ := execComp_any t false init' img h c hc
  have e1 : (if swaps t then (effV img c, effH img c) else (effH img c, effV img c)).1 = d.hs := by rw [← hf]
  have e2 : (if swaps t then (effV img c, effH img c) else (effH img c, effV img c)).2 = d.vs := by rw [← hf]
  have hd := geometry_dims t false img
  have hdw := hd.w
  have hdh := hd.h
  have hiw := hd.iw
  have hih := hd.ih
  simp only [Bool.false_eq_true, false_and, if_false] at hdw hdh
  refine ⟨a, d, ea, ed, ?_⟩
  intro y x hy hx
  funext i j
  simp only [e1, e2] at pa
  rw [pa y x i j hy hx]
  have pw := imcu_pos' img
  have gw : 0 < g.imcuW := by rw [hcd.iw]; split <;> omega
  have gh : 0 < g.imcuH := by rw [hcd.ih]; split <;> omega
  rw [pd _ _ i j]
  · rw [hdh, hih, ← hcd.ih]
    have := Nat.mul_le_mul_right d.vs (add_divUp_le gh hcd.h)
    rw [Nat.add_mul] at this
    omega
  · rw [hdw, hiw, ← hcd.iw]
    have : g.xo * d.hs + divUp (g.outW * d.hs) g.imcuW ≤ divUp ((if swaps t then img.h else img.w) * d.hs) g.imcuW := by
      apply add_divUp_le gw
      have := Nat.mul_le_mul_right d.hs hcd.w
      calc g.xo * d.hs * g.imcuW + g.outW * d.hs = (g.xo * g.imcuW + g.outW) * d.hs := by ring
        _ ≤ _ := this
    omega

/-! ## Crop extension -/

/-- One axis of a crop without a transform: cut out, or put into a larger one. -/
structure AxisSpec (full imcu len : Nat) (k : Kind) (off : Nat) (offk : Kind) (o u : Nat) : Prop where
  cut : Within full len k → ∃ a n, Selects full len k off offk a n ∧ Aligned imcu a n (decide (k = .force)) o u
  grow : ¬ Within full len k → ∃ a, Extends full len off offk a ∧ u = len ∧ o * imcu ≤ a ∧ a < o * imcu + imcu

/-- A crop request without a transform is accepted exactly when each axis of it is cut out of the image's axis or extends it. -/
theorem none_geometry (trim : Bool) (img : Img) (hw : 0 < img.w) (hh : 0 < img.h) (r : Req) :
    (∀ g, geometry (.xf .none) trim img (some r) = some g →
      g.imcuW = imcuW img ∧ g.imcuH = imcuH img ∧
      AxisSpec img.w (imcuW img) r.w r.wk r.x r.xk g.xo g.outW ∧ AxisSpec img.h (imcuH img) r.h r.hk r.y r.yk g.yo g.outH) ∧
    ((∃ a n, Selects img.w r.w r.wk r.x r.xk a n) ∨ (r.wk ≠ .unset ∧ ∃ a, Extends img.w r.w r.x r.xk a) →
      (∃ a n, Selects img.h r.h r.hk r.y r.yk a n) ∨ (r.hk ≠ .unset ∧ ∃ a, Extends img.h r.h r.y r.yk a) →
      ∃ g, geometry (.xf .none) trim img (some r) = some g) := by
  obtain ⟨p1, p2⟩ := imcu_pos' img
  have b3 : (baseGeo (.xf .none) img).outW = img.w := rfl
  have b4 : (baseGeo (.xf .none) img).outH = img.h := rfl
  have key : ∀ full imcu len k off offk n a, 0 < full → 0 < imcu → axis (.xf .none) full len k off offk = some (n, a) →
      AxisSpec full imcu len k off offk (a / imcu) (cropAxis imcu full n k a) := by
    intro full imcu len k off offk n a hf hi hx
    constructor
    · intro hwi
      have sx := (axis_within _ _ _ _ _ _ _ _ hwi).1 hx
      exact ⟨a, n, sx, aligned_axis _ _ _ _ _ hi (by have := sx.inside; omega)⟩
    · intro hwi
      obtain ⟨-, rfl, sx⟩ := (axis_extends _ _ _ _ _ _ _ _ hwi hf).1 hx
      have h1 := Nat.div_add_mod a imcu
      have h2 := Nat.mod_lt a hi
      rw [Nat.mul_comm] at h1
      refine ⟨a, sx, ?_, by omega, by omega⟩
      unfold cropAxis
      rw [if_pos (Or.inr sx.larger)]
  have key2 : ∀ full len k off offk, 0 < full → ((∃ a n, Selects full len k off offk a n) ∨ (k ≠ .unset ∧ ∃ a, Extends full len off offk a)) →
      ∃ q, axis (.xf .none) full len k off offk = some q := by
    intro full len k off offk hf hq
    rcases hq with ⟨a, n, s⟩ | ⟨hk, a, s⟩
    · have hwi : Within full len k := by
        by_cases hk : k = .unset
        · exact Or.inl hk
        · right
          have := s.len_given hk
          have := s.inside
          omega
      exact ⟨(n, a), (axis_within _ _ _ _ _ _ _ _ hwi).2 s⟩
    · have hwi : ¬ Within full len k := by
        rintro (h | h)
        · exact hk h
        · have := s.larger; omega
      exact ⟨(len, a), (axis_extends _ _ _ _ _ _ _ _ hwi hf).2 ⟨rfl, rfl, s⟩⟩
  constructor
  · intro g hg
    unfold geometry cropArea at hg
    simp only [Option.map_eq_some_iff] at hg
    obtain ⟨g0, hg0, hg⟩ := hg
    rw [b3, b4] at hg0
    cases hx : axis (.xf .none) img.w r.w r.wk r.x r.xk with
    | none => rw [hx] at hg0; simp at hg0
    | some q =>
      obtain ⟨n, a⟩ := q
      cases hy : axis (.xf .none) img.h r.h r.hk r.y r.yk with
      | none => rw [hx, hy] at hg0; simp at hg0
      | some q =>
        obtain ⟨m, b⟩ := q
        rw [hx, hy] at hg0
        simp only [Option.bind_eq_bind, Option.bind_some, Option.pure_def, Option.some.injEq] at hg0
        subst hg; subst hg0
        exact ⟨rfl, rfl, key _ _ _ _ _ _ _ _ hw p1 hx, key _ _ _ _ _ _ _ _ hh p2 hy⟩
  · intro q1 q2
    obtain ⟨⟨n, a⟩, hx⟩ := key2 _ _ _ _ _ hw q1
    obtain ⟨⟨m, b⟩, hy⟩ := key2 _ _ _ _ _ hh q2
    unfold geometry cropArea
    simp only
    rw [b3, b4, hx, hy]
    simp

theorem axisSpec_dims {full imcu len : Nat} {k : Kind} {off : Nat} {offk : Kind} {o u : Nat}
    (h : AxisSpec full imcu len k off offk o u) : if u > full then o * imcu + full ≤ u else o * imcu + u ≤ full := by
  by_cases hw : Within full len k
  · obtain ⟨a, n, s, al⟩ := h.cut hw
    have h1 := s.inside
    have h2 := al.start_le
    have h3 := al.length
    have : o * imcu + u ≤ full := by
      split at h3 <;> omega
    rw [if_neg (by omega)]; exact this
  · obtain ⟨a, s, h1, h2, h3⟩ := h.grow hw
    have h4 := s.larger
    have h5 := s.inside
    rw [if_pos (by omega)]; omega

/-- Which filling is used: reflection or flat blocks only if the width is extended and has the letter `r` or `f`. -/
def fillKind (k : Kind) (extW : Bool) : Ext :=
  match k, extW with
  | .reflect, true => .reflect
  | .force, true => .flat
  | _, _ => .zero

/-- C59: crop extension. The result consists of the whole iMCUs of the image at the requested place, rounded down to an iMCU
corner, and the filling; for flat and reflected filling the image must have a whole iMCU to start from. -/
theorem extension_content (fuel : Nat) (trim slow : Bool) (init : Nat → Nat → Block) (drop : Option Arr) (img : Img)
    (h : Padded img) (hpw : 0 < img.w) (hph : 0 < img.h) (r : Req) (g : Geo2) (hg : geometry (.xf .none) trim img (some r) = some g)
    (hext : g.outW > img.w ∨ g.outH > img.h)
    (hone : g.outW > img.w → (r.wk = .force ∨ r.wk = .reflect) → imcuW img ≤ img.w)
    (c : Comp) (hc : c ∈ img.comps) (hr : ∀ y x i j, InRange (c.arr.at_ y x i j))
    (hf : divUp (g.outW * effH img c) (imcuW img) ≤ fuel) :
    ∃ a, execComp2 fuel (.xf .none) slow r.wk img g init drop c = some a ∧
      ∀ y x, y < divUp g.outH (imcuH img) * effV img c → x < divUp (g.outW * effH img c) (imcuW img) → a.at_ y x =
        extBlock (fillKind r.wk (decide (g.outW > img.w))) (decide (g.outW > img.w)) (decide (g.outH > img.h)) c.arr
          (g.yo * effV img c) (img.h / imcuH img * effV img c) (g.xo * effH img c) (img.w / imcuW img * effH img c) y x := by
  obtain ⟨g1, g2, ax, ay⟩ := (none_geometry trim img hpw hph r).1 g hg
  have dx := axisSpec_dims ax
  have dy := axisSpec_dims ay
  obtain ⟨mh, mv, m1, m2, hp, hfa⟩ := par_straight (.xf .none) rfl img h.nonempty g c
  obtain ⟨q1, q2⟩ := eff_pos h hc
  obtain ⟨p1, p2⟩ := imcu_pos' img
  have hrows := h.rows c hc
  have hcols := h.cols c hc
  have hacc := h.acc c hc
  unfold execComp2
  simp only [hp, hfa]
  rw [if_pos hext]
  have he : (if g.outW > img.w ∧ r.wk = .reflect then Ext.reflect else if g.outW > img.w ∧ r.wk = .force then .flat else .zero) =
      fillKind r.wk (decide (g.outW > img.w)) := by
    by_cases hW : g.outW > img.w
    · simp only [hW, true_and, decide_true]
      cases r.wk <;> simp [fillKind]
    · simp only [hW, false_and, if_false, decide_false]
      cases r.wk <;> simp [fillKind]
  rw [he]
  have dh : divUp (divUp (g.outH * effV img c) (imcuH img)) (effV img c) = divUp g.outH (imcuH img) := divUp_divUp _ _ _ q2 p2
  have dw2 : divUp (g.outW * effH img c) (imcuW img) ≤ divUp g.outW (imcuW img) * effH img c := divUp_mul_le _ _ _ q1 p1
  have fit : FitsExt ⟨img.w, img.h, mh, mv, effH img c, effV img c, divUp (g.outW * effH img c) (imcuW img),
        divUp (g.outH * effV img c) (imcuH img), g.xo, g.yo⟩ (decide (g.outW > img.w)) (decide (g.outH > img.h)) c.arr
      (workspace2 g (effH img c, effV img c) init) := by
    constructor
    · exact q1
    · exact q2
    · simp only [workspace2, dh, g2]; exact Nat.le_refl _
    · simp only [workspace2, g1]; exact dw2
    · simp only [workspace2]; exact Nat.le_refl _
    · exact hacc
    · simp only [m1]
      by_cases hW : g.outW > img.w
      · rw [if_pos hW] at dx
        simp only [hW, decide_true, if_true]
        refine ⟨?_, Nat.le_trans (Nat.mul_le_mul_right _ (div_le_divUp _ _ p1)) hcols⟩
        have hle : (g.xo + img.w / imcuW img) * imcuW img ≤ g.outW := by
          have := Nat.div_mul_le_self img.w (imcuW img)
          rw [Nat.add_mul]; omega
        have := div_le_divUp (g.outW * effH img c) (imcuW img) p1
        refine Nat.le_trans ?_ this
        rw [Nat.le_div_iff_mul_le p1]
        calc (g.xo + img.w / imcuW img) * effH img c * imcuW img = (g.xo + img.w / imcuW img) * imcuW img * effH img c := by ring
          _ ≤ _ := Nat.mul_le_mul_right _ hle
      · rw [if_neg hW] at dx
        simp only [hW, decide_false, Bool.false_eq_true, if_false]
        have := Nat.mul_le_mul_right (effH img c) (add_divUp_le p1 dx)
        rw [Nat.add_mul] at this
        omega
    · simp only [m2, dh]
      by_cases hH : g.outH > img.h
      · simp only [hH, decide_true, if_true]
        exact Nat.le_trans (Nat.mul_le_mul_right _ (div_le_divUp _ _ p2)) hrows
      · rw [if_neg hH] at dy
        simp only [hH, decide_false, Bool.false_eq_true, if_false]
        have := Nat.mul_le_mul_right (effV img c) (add_divUp_le p2 dy)
        rw [Nat.add_mul] at this
        omega
  obtain ⟨a, ea, pa⟩ := doCropExt_spec fuel (fillKind r.wk (decide (g.outW > img.w))) _ _ _ c.arr _ fit (by
      intro hz
      simp only [m1]
      have hW : g.outW > img.w := by
        by_contra hn
        apply hz
        simp only [hn, decide_false]
        cases r.wk <;> rfl
      have hk : r.wk = .force ∨ r.wk = .reflect := by
        simp only [hW, decide_true] at hz
        revert hz
        cases r.wk <;> simp [fillKind]
      exact ⟨by simp [hW], Nat.div_pos (hone hW hk) p1⟩) hf hr
  refine ⟨a, ea, ?_⟩
  intro y x hy hx
  simp only [dh, m1, m2] at pa
  exact pa y x hy hx

/-- With no whole iMCU across, reflection never ends, however many rounds it is given. -/
theorem reflect_needs_imcu (fuel : Nat) (p : Par) (src : Arr) (sy y : Nat) (dst : Arr) (h : p.srcW < p.maxH * 8) (hw : 0 < p.wb) :
    extReflectRow fuel p src sy y dst = none := by
  unfold extReflectRow
  simp only [Nat.div_eq_of_lt h, Nat.zero_mul]
  have e : copyBlockRow src sy 0 y (p.xo * p.hs) 0 dst = some dst := rfl
  rw [e]
  simp only [Option.bind_eq_bind, Option.bind_some]
  rcases Nat.eq_zero_or_pos (p.xo * p.hs) with h0 | h0
  · rw [h0]
    have e2 : reflectLeft 0 y fuel 0 0 dst = some dst := by unfold reflectLeft; rfl
    rw [e2]
    simp only [Option.bind_some, Nat.sub_zero]
    obtain ⟨k, hk⟩ : ∃ k, p.wb = k + 1 := ⟨p.wb - 1, by omega⟩
    rw [hk]
    exact reflectRight_zero _ _ _ _ _
  · obtain ⟨k, hk⟩ : ∃ k, p.xo * p.hs = k + 1 := ⟨p.xo * p.hs - 1, by omega⟩
    rw [hk, reflectLeft_zero]
    rfl

/-- With no whole iMCU across, flat filling to the right reads far outside the row. -/
theorem flat_needs_imcu (p : Par) (src : Arr) (sy y : Nat) (dst : Arr) (h : p.srcW < p.maxH * 8) (hw : p.xo * p.hs < p.wb)
    (hc : src.cols < 2 ^ 32) : extFlatRow p src sy y dst = none := by
  unfold extFlatRow
  simp only [Nat.div_eq_of_lt h, Nat.zero_mul, Nat.add_zero]
  have hrd : rd src sy (2 ^ 32 - 1) = none := by
    unfold rd; rw [if_neg]; omega
  cases (if p.xo * p.hs > 0 then do
      let b ← rd src sy 0
      fill y 0 (p.xo * p.hs) (dcBlock (b 0 0)) dst
    else some dst) with
  | none => rfl
  | some d =>
    have e : copyBlockRow src sy 0 y (p.xo * p.hs) 0 d = some d := rfl
    simp only [Option.bind_eq_bind, Option.bind_some, e]
    rw [if_pos hw, if_pos trivial, hrd]
    rfl

/-! ## Wiping -/

/-- What a wipe puts into the region: zeros; with the letter `f` the flat continuation of the blocks beside it; with the letter `r`,
if the region is a full-height strip at the left or right edge, the reflection of the rest of the image. `left`, `right` are the
first column of the region and the first after it. -/
def wipeCell (img : Img) (g : Geo2) (k : Kind) (a : Arr) (left right wb y x : Nat) : Block :=
  if k = .reflect ∧ g.yo = 0 ∧ g.dropH = divUp img.h (imcuH img) ∧ (g.xo = 0 ∨ g.xo + g.dropW = divUp img.w (imcuW img)) then
    reflCell a left right wb y x
  else if k = .force then flatCell a left right wb y
  else zeroBlock

theorem covers_le {imcu a n o d full : Nat} (hi : 0 < imcu) (h : Covers imcu a n o d) (hle : a + n ≤ full) : o + d ≤ divUp full imcu := by
  unfold divUp
  rw [Nat.le_div_iff_mul_le hi]
  have := h.end_lt
  omega

/-- C59: a wipe replaces the blocks of the covering iMCUs and leaves all others as they were. -/
theorem wipe_content (fuel : Nat) (trim slow : Bool) (init : Nat → Nat → Block) (drop : Option Arr) (img : Img) (h : Padded img)
    (r : Req) (hw : Within img.w r.w r.wk) (hh : Within img.h r.h r.hk) (g : Geo2) (hg : geometry .wipe trim img (some r) = some g)
    (c : Comp) (hc : c ∈ img.comps) (hr : ∀ y x i j, InRange (c.arr.at_ y x i j)) (hf : g.dropW * effH img c ≤ fuel) :
    ∃ a, execComp2 fuel .wipe slow r.wk img g init drop c = some a ∧
      SetOn (Region (effV img c) (effH img c) g.yo g.dropH g.xo g.dropW)
        (wipeCell img g r.wk c.arr (g.xo * effH img c) ((g.xo + g.dropW) * effH img c) (divUp (img.w * effH img c) (imcuW img))) c.arr a := by
  obtain ⟨a0, n, b0, m, sx, sy, e1, e2, e3, e4, cx, cy⟩ := (wipe_geometry img trim r hw hh).1 g hg
  obtain ⟨mh, mv, m1, m2, hp, hfa⟩ := par_straight .wipe rfl img h.nonempty g c
  obtain ⟨q1, q2⟩ := eff_pos h hc
  obtain ⟨p1, p2⟩ := imcu_pos' img
  have hrows := h.rows c hc
  have hcols := h.cols c hc
  have hacc := h.acc c hc
  rw [e3] at cx
  rw [e4] at cy
  have lx := covers_le p1 cx sx.inside
  have ly := covers_le p2 cy sy.inside
  have fit : FitsRegion ⟨img.w, img.h, mh, mv, effH img c, effV img c, divUp (g.outW * effH img c) (imcuW img),
        divUp (g.outH * effV img c) (imcuH img), g.xo, g.yo⟩ c.arr g.dropW g.dropH :=
    ⟨q2, Nat.le_trans (Nat.mul_le_mul_right _ ly) hrows, Nat.le_trans (Nat.mul_le_mul_right _ lx) hcols, hacc⟩
  have hwb : divUp (g.outW * effH img c) (imcuW img) ≤ c.arr.cols := by
    rw [e1]; exact Nat.le_trans (divUp_mul_le _ _ _ q1 p1) hcols
  unfold execComp2
  simp only [hp]
  rw [e1, e2, e3, e4] at *
  by_cases c1 : r.wk = .reflect ∧ g.yo = 0 ∧ g.dropH = divUp img.h (imcuH img) ∧ (g.xo = 0 ∨ g.xo + g.dropW = divUp img.w (imcuW img))
  · rw [if_pos c1]
    obtain ⟨a, ea, pa⟩ := doReflect_spec fuel _ g.dropW g.dropH c.arr fit hwb c1.2.1 hf hr
    exact ⟨a, ea, SetOn.of_eq pa (fun y x _ => by unfold wipeCell; rw [if_pos c1])⟩
  · rw [if_neg c1]
    by_cases c2 : r.wk = .force
    · rw [if_pos c2]
      obtain ⟨a, ea, pa⟩ := doFlatten_spec _ g.dropW g.dropH c.arr fit hwb
      exact ⟨a, ea, SetOn.of_eq pa (fun y x _ => by unfold wipeCell; rw [if_neg c1, if_pos c2])⟩
    · rw [if_neg c2]
      obtain ⟨a, ea, pa⟩ := doWipe_spec _ g.dropW g.dropH c.arr fit
      exact ⟨a, ea, SetOn.of_eq pa (fun y x _ => by unfold wipeCell; rw [if_neg c1, if_neg c2])⟩

/-! ## Dropping -/

theorem fills_le {full imcu a n o d : Nat} (hi : 0 < imcu) (h : Fills full imcu a n o d) (hd : d ≠ 0) (hle : a + n ≤ full) :
    o + d ≤ divUp full imcu ∧ d ≤ divUp n imcu := by
  obtain ⟨k, rfl⟩ : ∃ k, d = k + 1 := ⟨d - 1, by omega⟩
  have h1 := (h.all (o + k)).1 (by omega)
  have h2 := (h.all o).1 (by omega)
  rw [Nat.add_mul] at h1
  unfold divUp
  constructor
  · rw [Nat.le_div_iff_mul_le hi]
    have : (o + (k + 1)) * imcu = o * imcu + k * imcu + imcu := by ring
    omega
  · rw [Nat.le_div_iff_mul_le hi]
    have : (k + 1) * imcu = k * imcu + imcu := by ring
    omega

/-- The component `d` of the drop image is divided into blocks as component `c` of the image is. -/
structure SameGrid (img : Img) (c : Comp) (dimg : Img) (d : Comp) : Prop where
  padded : Padded dimg
  mem : d ∈ dimg.comps
  iw : imcuW dimg = imcuW img
  ih : imcuH dimg = imcuH img
  h : effH dimg d = effH img c
  v : effV dimg d = effV img c

/-- C59: a drop whose requested size is that of the drop image (as jpegtran.c:668-675 sets it) copies the drop image's blocks into the
iMCUs inside the requested rectangle, and leaves all others as they were. A component that the drop image lacks is cleared there. -/
theorem drop_content (fuel : Nat) (trim slow : Bool) (init : Nat → Nat → Block) (img dimg : Img) (h : Padded img)
    (r : Req) (hwk : r.wk ≠ .unset) (hhk : r.hk ≠ .unset) (hrw : r.w = dimg.w) (hrh : r.h = dimg.h) (g : Geo2)
    (hg : geometry .drop trim img (some r) = some g)
    (c : Comp) (hc : c ∈ img.comps) (drop : Option Comp) (hd : ∀ d, drop = some d → SameGrid img c dimg d) :
    ∃ a, execComp2 fuel .drop slow r.wk img g init (drop.map Comp.arr) c = some a ∧
      SetOn (fun y x => g.dropW ≠ 0 ∧ g.dropH ≠ 0 ∧ Region (effV img c) (effH img c) g.yo g.dropH g.xo g.dropW y x) (fun y x => match drop with
        | some d => d.arr.at_ (y - g.yo * effV img c) (x - g.xo * effH img c)
        | none => zeroBlock) c.arr a := by
  have hw : Within img.w r.w r.wk := by
    by_contra hn
    have hf : ∀ q, axis .drop img.w r.w r.wk r.x r.xk ≠ some q := by
      intro q hq
      unfold axis at hq
      have hlt : r.w > img.w := by
        by_contra h2; exact hn (Or.inr (by omega))
      simp only [if_neg hwk, if_pos hlt, Op.isNone, true_or, if_true] at hq
      simp at hq
    unfold geometry cropArea at hg
    simp only [Option.map_eq_some_iff] at hg
    obtain ⟨g0, hg0, -⟩ := hg
    cases hx : axis .drop img.w r.w r.wk r.x r.xk with
    | none =>
      have : axis .drop (baseGeo .drop img).outW r.w r.wk r.x r.xk = none := hx
      rw [this] at hg0; simp at hg0
    | some q => exact hf q hx
  have hh : Within img.h r.h r.hk := by
    by_contra hn
    have hf : ∀ q, axis .drop img.h r.h r.hk r.y r.yk ≠ some q := by
      intro q hq
      unfold axis at hq
      have hlt : r.h > img.h := by
        by_contra h2; exact hn (Or.inr (by omega))
      simp only [if_neg hhk, if_pos hlt, Op.isNone, true_or, if_true] at hq
      simp at hq
    unfold geometry cropArea at hg
    simp only [Option.map_eq_some_iff] at hg
    obtain ⟨g0, hg0, -⟩ := hg
    have : axis .drop (baseGeo .drop img).outH r.h r.hk r.y r.yk = none := by
      cases hx : axis .drop img.h r.h r.hk r.y r.yk with
      | none => exact hx
      | some q => exact absurd hx (hf q)
    rw [this] at hg0
    cases hx : axis .drop (baseGeo .drop img).outW r.w r.wk r.x r.xk with
    | none => rw [hx] at hg0; simp at hg0
    | some q => rw [hx] at hg0; simp at hg0
  obtain ⟨a0, n, b0, m, sx, sy, e1, e2, e3, e4, cx, cy⟩ := (drop_geometry img trim r hw hh).1 g hg
  obtain ⟨mh, mv, m1, m2, hp, hfa⟩ := par_straight .drop rfl img h.nonempty g c
  obtain ⟨q1, q2⟩ := eff_pos h hc
  obtain ⟨p1, p2⟩ := imcu_pos' img
  rw [e3] at cx
  rw [e4] at cy
  unfold execComp2
  simp only [hp]
  by_cases c0 : g.dropW ≠ 0 ∧ g.dropH ≠ 0
  · rw [if_pos c0]
    obtain ⟨lx, ldx⟩ := fills_le p1 cx c0.1 sx.inside
    obtain ⟨ly, ldy⟩ := fills_le p2 cy c0.2 sy.inside
    have fit : FitsRegion ⟨img.w, img.h, mh, mv, effH img c, effV img c, divUp (g.outW * effH img c) (imcuW img),
          divUp (g.outH * effV img c) (imcuH img), g.xo, g.yo⟩ c.arr g.dropW g.dropH :=
      ⟨q2, Nat.le_trans (Nat.mul_le_mul_right _ ly) (h.rows c hc), Nat.le_trans (Nat.mul_le_mul_right _ lx) (h.cols c hc), h.acc c hc⟩
    obtain ⟨a, ea, pa⟩ := doDrop_spec _ g.dropW g.dropH (drop.map Comp.arr) c.arr fit (by
      intro d' hd'
      cases drop with
      | none => simp at hd'
      | some d =>
        simp only [Option.map_some, Option.some.injEq] at hd'
        subst hd'
        have sg := hd d rfl
        have r1 := sg.padded.rows d sg.mem
        have r2 := sg.padded.cols d sg.mem
        have r3 := sg.padded.acc d sg.mem
        rw [sg.ih, sg.v] at r1
        rw [sg.iw, sg.h] at r2
        rw [sg.v] at r3
        rw [sx.len_given hwk, hrw] at ldx
        rw [sy.len_given hhk, hrh] at ldy
        exact ⟨Nat.le_trans (Nat.mul_le_mul_right _ ldy) r1, Nat.le_trans (Nat.mul_le_mul_right _ ldx) r2, r3⟩)
    refine ⟨a, ea, SetOn.of_eq (pa.congr (fun y x => by simp only [c0.1, c0.2, ne_eq, not_false_eq_true, true_and])) ?_⟩
    intro y x _
    cases drop <;> rfl
  · rw [if_neg c0]
    exact ⟨_, rfl, SetOn.empty _ _ (fun y x hh => c0 ⟨hh.1, hh.2.1⟩)⟩

/-! ## Examples -/

/-- 35x21, 2x2 luma; block contents differ by position. -/
def demo : Img := { w := 35, h := 21, comps := [
    { hs := 2, vs := 2, arr := { rows := 4, cols := 6, maxaccess := 2, at_ := fun y x i j => y * 100 + x * 10 + i.val + j.val } },
    { hs := 1, vs := 1, arr := { rows := 2, cols := 3, maxaccess := 1, at_ := fun y x _ _ => y * 7 - x } }] }

theorem demo_padded : Padded demo := by
  constructor <;> simp [demo, maxH, maxV, maxOf, imcuH, imcuW, effH, effV, divUp]

/-- `15x10+18+3` with a quarter turn: accepted; starts at iMCU (1, 0) of the turned image, which is 21x35. -/
example : (geometry (.xf .rot90) false demo (some ⟨3, .pos, 10, .pos, 18, .pos, 3, .pos⟩)).map (fun g => (g.outW, g.outH, g.xo, g.yo)) =
    some (5, 13, 1, 0) := by decide +kernel

/-- It meets the hypotheses of `crop_is_rectangle`. -/
example : ∃ g, geometry (.xf .rot90) false demo (some ⟨3, .pos, 10, .pos, 18, .pos, 3, .pos⟩) = some g ∧
    Within (if swaps .rot90 then demo.h else demo.w) 3 .pos ∧ Within (if swaps .rot90 then demo.w else demo.h) 10 .pos :=
  ⟨_, rfl, Or.inr (by decide), Or.inr (by decide)⟩

/-- `100rx40-3+0`: extension with reflection; the image has a whole iMCU. -/
example : ∃ g, geometry (.xf .none) false demo (some ⟨100, .reflect, 40, .pos, 3, .neg, 0, .pos⟩) = some g ∧ g.outW > demo.w ∧
    imcuW demo ≤ demo.w ∧ g.xo = 3 ∧ g.outW = 100 := ⟨_, rfl, by decide +kernel, by decide +kernel, by decide +kernel, by decide +kernel⟩

/-- The reflected row of `b0 b1`: `.. b1 b0~ | b0 b1 | b1~ b0~ b0 b1 ..`. -/
example (row : Nat → Block) : reflAt row 2 (-1) = cpFlipH (row 0) ∧ reflAt row 2 2 = cpFlipH (row 1) ∧ reflAt row 2 3 = cpFlipH (row 0) ∧
    reflAt row 2 4 = row 0 ∧ reflAt row 2 (-3) = row 1 := ⟨rfl, rfl, rfl, rfl, rfl⟩

/-- A wipe of 4x4 samples in the middle covers one iMCU. -/
example : (geometry .wipe false demo (some ⟨4, .force, 4, .pos, 18, .pos, 3, .pos⟩)).map (fun g => (g.xo, g.yo, g.dropW, g.dropH)) =
    some (1, 0, 1, 1) := by decide +kernel

/-- A drop of a 19x5 image at the lower right corner of `demo`: it replaces the last iMCUs, which are partial. -/
example : (geometry .drop false demo (some ⟨19, .pos, 5, .pos, 0, .neg, 0, .neg⟩)).map (fun g => (g.xo, g.yo, g.dropW, g.dropH)) =
    some (1, 1, 2, 1) := by decide +kernel

/-- All components 2x1, and all 1x1: the comparison before a drop only looks at the proportions. -/
def bigImg : Img := { w := 24, h := 8, comps := [
    { hs := 2, vs := 1, arr := { rows := 1, cols := 4, maxaccess := 1, at_ := fun _ _ _ _ => 1 } },
    { hs := 2, vs := 1, arr := { rows := 1, cols := 4, maxaccess := 1, at_ := fun _ _ _ _ => 1 } }] }
def smallImg : Img := { w := 8, h := 8, comps := [
    { hs := 1, vs := 1, arr := { rows := 1, cols := 1, maxaccess := 1, at_ := fun _ _ _ _ => 9 } },
    { hs := 1, vs := 1, arr := { rows := 1, cols := 1, maxaccess := 1, at_ := fun _ _ _ _ => 9 } }] }

/-- The code's comparison accepts them, and the drop then reads past the drop image's only block. With the same factors
(`SameGrid`) this does not happen (`drop_content`). -/
theorem proportional_drop_overreads : dropFactorsOk bigImg smallImg = true ∧ Padded bigImg ∧ Padded smallImg ∧
    ∃ g, geometry .drop false bigImg (some ⟨8, .pos, 8, .pos, 0, .neg, 0, .pos⟩) = some g ∧
      ∀ fuel slow init, ∀ c ∈ bigImg.comps, ∀ d ∈ smallImg.comps,
        execComp2 fuel .drop slow .pos bigImg g init (some d.arr) c = none := by
  refine ⟨by decide +kernel, ?_, ?_, _, rfl, ?_⟩
  · constructor <;> simp [bigImg, maxH, maxV, maxOf, imcuH, imcuW, effH, effV, divUp]
  · constructor <;> simp [smallImg, maxH, maxV, maxOf, imcuH, imcuW, effH, effV, divUp]
  · intro fuel slow init c hc d hd
    simp only [bigImg, smallImg, List.mem_cons, List.not_mem_nil, or_false, or_self] at hc hd
    subst hc; subst hd
    rfl

/-- A gray image 5 samples wide. -/
def narrow : Img := { w := 5, h := 8, comps := [
    { hs := 1, vs := 1, arr := { rows := 1, cols := 1, maxaccess := 1, at_ := fun _ _ _ _ => 1 } }] }

/-- Extending it to 16 columns is accepted; with `r` it does not end, with `f` it reads outside, and with neither it works. -/
theorem narrow_extension : Padded narrow ∧
    (∃ g, geometry (.xf .none) false narrow (some ⟨16, .reflect, 8, .pos, 0, .pos, 0, .pos⟩) = some g ∧
      ∀ fuel slow init drop, ∀ c ∈ narrow.comps, execComp2 fuel (.xf .none) slow .reflect narrow g init drop c = none) ∧
    (∃ g, geometry (.xf .none) false narrow (some ⟨16, .force, 8, .pos, 0, .pos, 0, .pos⟩) = some g ∧
      ∀ fuel slow init drop, ∀ c ∈ narrow.comps, execComp2 fuel (.xf .none) slow .force narrow g init drop c = none) ∧
    (∃ g, geometry (.xf .none) false narrow (some ⟨16, .pos, 8, .pos, 0, .pos, 0, .pos⟩) = some g ∧
      ∀ fuel slow init drop, ∀ c ∈ narrow.comps, execComp2 fuel (.xf .none) slow .pos narrow g init drop c ≠ none) := by
  refine ⟨?_, ⟨⟨16, 8, 8, 8, 0, 0, 0, 0⟩, rfl, ?_⟩, ⟨⟨16, 8, 8, 8, 0, 0, 0, 0⟩, rfl, ?_⟩, ⟨⟨16, 8, 8, 8, 0, 0, 0, 0⟩, rfl, ?_⟩⟩
  · constructor <;> simp [narrow, maxH, maxV, maxOf, imcuH, imcuW, effH, effV, divUp]
  · intro fuel slow init drop c hc
    simp only [narrow, List.mem_cons, List.not_mem_nil, or_false] at hc
    subst hc
    have := reflect_needs_imcu fuel ⟨5, 8, 1, 1, 1, 1, 2, 1, 0, 0⟩ { rows := 1, cols := 1, maxaccess := 1, at_ := fun _ _ _ _ => 1 } 0 0
      (workspace2 ⟨16, 8, 8, 8, 0, 0, 0, 0⟩ (1, 1) init) (by decide) (by decide)
    show doCropExt fuel .reflect ⟨5, 8, 1, 1, 1, 1, 2, 1, 0, 0⟩ true false _ (workspace2 ⟨16, 8, 8, 8, 0, 0, 0, 0⟩ (1, 1) init) = none
    simp only [doCropExt, forStep, Nat.add_sub_cancel, Nat.div_one, List.range_one, List.map_cons, List.map_nil, List.foldlM_cons,
      Nat.zero_mul, Nat.add_zero, extRow, this, Bool.false_eq_true, if_false, false_and, Option.bind_eq_bind, Option.bind_none,
      Option.bind_fun_none]
  · intro fuel slow init drop c hc
    simp only [narrow, List.mem_cons, List.not_mem_nil, or_false] at hc
    subst hc
    have := flat_needs_imcu ⟨5, 8, 1, 1, 1, 1, 2, 1, 0, 0⟩ { rows := 1, cols := 1, maxaccess := 1, at_ := fun _ _ _ _ => 1 } 0 0
      (workspace2 ⟨16, 8, 8, 8, 0, 0, 0, 0⟩ (1, 1) init) (by decide) (by decide) (by decide)
    show doCropExt fuel .flat ⟨5, 8, 1, 1, 1, 1, 2, 1, 0, 0⟩ true false _ (workspace2 ⟨16, 8, 8, 8, 0, 0, 0, 0⟩ (1, 1) init) = none
    simp only [doCropExt, forStep, Nat.add_sub_cancel, Nat.div_one, List.range_one, List.map_cons, List.map_nil, List.foldlM_cons,
      Nat.zero_mul, Nat.add_zero, extRow, this, Bool.false_eq_true, if_false, false_and, Option.bind_eq_bind, Option.bind_none,
      Option.bind_fun_none]
  · intro fuel slow init drop c hc
    simp only [narrow, List.mem_cons, List.not_mem_nil, or_false] at hc
    subst hc
    intro h
    cases h

end Verif.Crop
