import Verif.Crop.Exec
/-
Which rectangle a crop request selects, and how it is moved to iMCU boundaries.
-/
namespace Verif.Crop
open Verif.Transf

/-! ## Specification -/

/-- On an axis of length `full`, the request "length `len` (if `k` says it was given), offset `off`" selects the interval
`a .. a+n-1`: inside the axis and not empty; a positive offset counts from the near edge, a negative one from the far edge; a
missing length means as far as possible. -/
structure Selects (full len : Nat) (k : Kind) (off : Nat) (offk : Kind) (a n : Nat) : Prop where
  pos : 0 < n
  inside : a + n ≤ full
  len_given : k ≠ .unset → n = len
  off_near : offk ≠ .unset → offk ≠ .neg → a = off
  off_far : offk = .neg → a + n + off = full
  off_none : offk = .unset → a = 0
  len_none : k = .unset → if offk = .neg then a = 0 else a + n = full

/-- A length larger than the axis: the old content is put at `a` in the new axis of length `len`. -/
structure Extends (full len off : Nat) (offk : Kind) (a : Nat) : Prop where
  larger : full < len
  inside : a + full ≤ len
  off_near : offk ≠ .unset → offk ≠ .neg → a = off
  off_far : offk = .neg → a + full + off = len
  off_none : offk = .unset → a = 0

/-- The request does not ask for more than the axis has. -/
def Within (full len : Nat) (k : Kind) : Prop := k = .unset ∨ len ≤ full

/-- The interval `a .. a+n-1` moved to iMCU boundaries for cropping: it now starts `o` iMCUs from the edge, at the last boundary
not after `a`, and it has `u` samples: it still ends where it ended, unless the length was forced. -/
structure Aligned (imcu a n : Nat) (forced : Bool) (o u : Nat) : Prop where
  start_le : o * imcu ≤ a
  start_gt : a < o * imcu + imcu
  length : if forced then u = n else o * imcu + u = a + n

/-- The wiped iMCUs `o .. o+d-1`: the fewest that cover `a .. a+n-1`. -/
structure Covers (imcu a n o d : Nat) : Prop where
  start_le : o * imcu ≤ a
  start_gt : a < o * imcu + imcu
  end_ge : a + n ≤ (o + d) * imcu
  end_lt : (o + d) * imcu < a + n + imcu

/-- The iMCUs `o .. o+d-1` that a drop replaces: the iMCUs that lie within `a .. a+n-1`, where the last iMCU of the axis counts as
within if the interval reaches the end of the axis. -/
structure Fills (full imcu a n o d : Nat) : Prop where
  all : ∀ i, (o ≤ i ∧ i < o + d) ↔ (a ≤ i * imcu ∧ i * imcu < a + n ∧ min ((i + 1) * imcu) full ≤ a + n)

/-! ## The code computes it -/

theorem axis_within (op : Op) (full len : Nat) (k : Kind) (off : Nat) (offk : Kind) (a n : Nat) (hw : Within full len k) :
    axis op full len k off offk = some (n, a) ↔ Selects full len k off offk a n := by
  unfold axis
  have e0 : ∀ o : Nat, (if offk = .unset then 0 else o) = o ∨ offk = .unset := by
    intro o; by_cases h : offk = .unset
    · exact Or.inr h
    · exact Or.inl (if_neg h)
  constructor
  · intro h
    by_cases hk : k = .unset
    · simp only [if_pos hk] at h
      by_cases hc : (if offk = .unset then 0 else off) ≥ full
      · simp [hc] at h
      · simp only [if_neg hc, Option.bind_eq_bind, Option.bind_some, Option.pure_def, Option.some.injEq, Prod.mk.injEq] at h
        obtain ⟨h1, h2⟩ := h
        by_cases hu : offk = .unset
        · simp only [hu, if_true] at hc h1 h2
          simp at h2
          constructor <;> (try simp [hu, hk]) <;> omega
        · simp only [if_neg hu] at hc h1 h2
          by_cases hn : offk = .neg
          · simp only [hn] at h2
            simp only [ne_eq, not_true_eq_false, if_false] at h2
            rw [if_neg (by omega)] at h2
            constructor <;> (try simp [hn, hk]) <;> omega
          · simp only [ne_eq, hn, not_false_eq_true, if_true] at h2
            constructor <;> (try simp [hn, hk, hu]) <;> omega
    · have hl : len ≤ full := hw.resolve_left hk
      simp only [if_neg hk] at h
      rw [if_neg (show ¬ len > full by omega)] at h
      by_cases hc : (if offk = .unset then 0 else off) ≥ full ∨ len = 0 ∨ (if offk = .unset then 0 else off) > full - len
      · simp [hc] at h
      · simp only [if_neg hc, Option.bind_eq_bind, Option.bind_some, Option.pure_def, Option.some.injEq, Prod.mk.injEq] at h
        obtain ⟨h1, h2⟩ := h
        by_cases hu : offk = .unset
        · simp only [hu, if_true] at hc h2
          simp at h2
          constructor <;> (try simp [hu, hk]) <;> omega
        · simp only [if_neg hu] at hc h2
          by_cases hn : offk = .neg
          · simp only [hn] at h2
            simp only [ne_eq, not_true_eq_false, if_false] at h2
            rw [if_neg (by omega)] at h2
            constructor <;> (try simp [hn, hk]) <;> omega
          · simp only [ne_eq, hn, not_false_eq_true, if_true] at h2
            constructor <;> (try simp [hn, hk, hu]) <;> omega
  · rintro ⟨s1, s2, s3, s4, s5, s6, s7⟩
    by_cases hk : k = .unset
    · have s7 := s7 hk
      by_cases hu : offk = .unset
      · have s6 := s6 hu
        simp [hu] at s7
        simp only [if_pos hk, hu, if_true, if_neg (show ¬ (0 ≥ full) by omega)]
        simp; omega
      · by_cases hn : offk = .neg
        · have s5 := s5 hn
          simp [hn] at s7
          simp only [if_pos hk, hn, if_neg (show ¬ (Kind.neg = Kind.unset) by decide), if_neg (show ¬ (off ≥ full) by omega)]
          simp only [Option.bind_eq_bind, Option.bind_some, Option.pure_def, Option.some.injEq, Prod.mk.injEq, ne_eq, not_true_eq_false, if_false]
          rw [if_neg (by omega)]; omega
        · have s4 := s4 hu hn
          simp [hn] at s7
          simp only [if_pos hk, if_neg hu, if_neg (show ¬ (off ≥ full) by omega)]
          simp [hn]; omega
    · have hl : len ≤ full := hw.resolve_left hk
      have s3 := s3 hk
      simp only [if_neg hk, if_neg (show ¬ len > full by omega)]
      by_cases hu : offk = .unset
      · have s6 := s6 hu
        simp only [hu, if_true, if_neg (show ¬ (0 ≥ full ∨ len = 0 ∨ 0 > full - len) by omega)]
        simp; omega
      · by_cases hn : offk = .neg
        · have s5 := s5 hn
          simp only [hn, if_neg (show ¬ (Kind.neg = Kind.unset) by decide),
            if_neg (show ¬ (off ≥ full ∨ len = 0 ∨ off > full - len) by omega)]
          simp only [Option.bind_eq_bind, Option.bind_some, Option.pure_def, Option.some.injEq, Prod.mk.injEq, ne_eq, not_true_eq_false, if_false]
          rw [if_neg (by omega)]; omega
        · have s4 := s4 hu hn
          simp only [if_neg hu, if_neg (show ¬ (off ≥ full ∨ len = 0 ∨ off > full - len) by omega)]
          simp [hn]; omega

theorem axis_extends (op : Op) (full len : Nat) (k : Kind) (off : Nat) (offk : Kind) (a n : Nat) (hw : ¬ Within full len k)
    (hf : 0 < full) :
    axis op full len k off offk = some (n, a) ↔ op.isNone = true ∧ n = len ∧ Extends full len off offk a := by
  have hk : k ≠ .unset := fun h => hw (Or.inl h)
  have hl : full < len := by
    by_contra h; exact hw (Or.inr (by omega))
  unfold axis
  simp only [if_neg hk, if_pos hl]
  constructor
  · intro h
    by_cases hc : op.isNone = false ∨ (if offk = .unset then 0 else off) ≥ len ∨ (if offk = .unset then 0 else off) > len - full
    · simp only [if_pos hc] at h; simp at h
    · simp only [if_neg hc, Option.bind_eq_bind, Option.bind_some, Option.pure_def, Option.some.injEq, Prod.mk.injEq,
        if_pos hl] at h
      obtain ⟨h1, h2⟩ := h
      rw [not_or] at hc
      refine ⟨by simpa using hc.1, h1.symm, ?_⟩
      by_cases hu : offk = .unset
      · simp only [hu, if_true] at hc h2
        simp at h2
        constructor <;> (try simp [hu]) <;> omega
      · simp only [if_neg hu] at hc h2
        by_cases hn : offk = .neg
        · simp only [hn, ne_eq, not_true_eq_false, if_false] at h2
          constructor <;> (try simp [hn]) <;> omega
        · simp only [ne_eq, hn, not_false_eq_true, if_true] at h2
          constructor <;> (try simp [hn, hu]) <;> omega
  · rintro ⟨ho, rfl, s1, s2, s3, s4, s5⟩
    by_cases hu : offk = .unset
    · have s5 := s5 hu
      simp only [ho, hu, if_true, if_neg (show ¬ (true = false ∨ 0 ≥ n ∨ 0 > n - full) by simp; omega)]
      simp; omega
    · by_cases hn : offk = .neg
      · have s4 := s4 hn
        simp only [ho, hn, if_neg (show ¬ (Kind.neg = Kind.unset) by decide),
          if_neg (show ¬ (true = false ∨ off ≥ n ∨ off > n - full) by simp; omega)]
        simp [hl]; omega
      · have s3 := s3 hu hn
        simp only [ho, if_neg hu, if_neg (show ¬ (true = false ∨ off ≥ n ∨ off > n - full) by simp; omega)]
        simp [hn]; omega

theorem baseGeo_imcu (t : Xform) (img : Img) :
    (baseGeo (.xf t) img).imcuW = (if Transf.swaps t then Transf.imcuH img else Transf.imcuW img) ∧
    (baseGeo (.xf t) img).imcuH = (if Transf.swaps t then Transf.imcuW img else Transf.imcuH img) ∧
    (baseGeo (.xf t) img).outW = (if Transf.swaps t then img.h else img.w) ∧
    (baseGeo (.xf t) img).outH = (if Transf.swaps t then img.w else img.h) := ⟨rfl, rfl, rfl, rfl⟩

theorem imcu_pos (t : Xform) (img : Img) : 0 < (baseGeo (.xf t) img).imcuW ∧ 0 < (baseGeo (.xf t) img).imcuH := by
  have h1 : 0 < Transf.imcuW img := by
    unfold Transf.imcuW; split
    · omega
    · exact Nat.mul_pos (maxOf_pos _) (by decide)
  have h2 : 0 < Transf.imcuH img := by
    unfold Transf.imcuH; split
    · omega
    · exact Nat.mul_pos (maxOf_pos _) (by decide)
  rw [(baseGeo_imcu t img).1, (baseGeo_imcu t img).2.1]
  constructor <;> split <;> assumption

theorem aligned_axis (imcu out len a : Nat) (k : Kind) (hi : 0 < imcu) (hn : len ≤ out) :
    Aligned imcu a len (decide (k = .force)) (a / imcu) (cropAxis imcu out len k a) := by
  have h1 := Nat.div_add_mod a imcu
  have h2 := Nat.mod_lt a hi
  rw [Nat.mul_comm] at h1
  refine ⟨by omega, by omega, ?_⟩
  unfold cropAxis
  by_cases hk : k = .force
  · simp [hk]
  · simp only [hk, decide_false, Bool.false_eq_true, if_false, false_or]
    rw [if_neg (by omega)]; omega

/-- What the output length is after trimming: cut to whole iMCUs if the transform mirrors this axis and the crop region reaches the
partial iMCU. -/
def trimmed (trim mirrored : Bool) (u imcu o full : Nat) : Nat := if trim ∧ mirrored then trimEdge u imcu o full else u

/-- The transform mirrors the output's horizontal, vertical axis. -/
def mirrorsOutX (t : Xform) : Bool := decide ((mat t).1.1 = -1 ∨ (mat t).1.2 = -1)
def mirrorsOutY (t : Xform) : Bool := decide ((mat t).2.1 = -1 ∨ (mat t).2.2 = -1)

/-- C59: a crop request that does not ask for more than the (transformed) image is accepted exactly when it selects a nonempty
rectangle inside the image; the output then is that rectangle, extended to the left and upwards to an iMCU corner. -/
theorem crop_geometry (t : Xform) (trim : Bool) (img : Img) (r : Req)
    (hw : Within (if swaps t then img.h else img.w) r.w r.wk) (hh : Within (if swaps t then img.w else img.h) r.h r.hk) :
    let W := if swaps t then img.h else img.w
    let H := if swaps t then img.w else img.h
    (∀ g, geometry (.xf t) trim img (some r) = some g → ∃ a n b m u v,
      Selects W r.w r.wk r.x r.xk a n ∧ Selects H r.h r.hk r.y r.yk b m ∧ CropDims t img g ∧
      Aligned g.imcuW a n (decide (r.wk = .force)) g.xo u ∧ g.outW = trimmed trim (mirrorsOutX t) u g.imcuW g.xo W ∧
      Aligned g.imcuH b m (decide (r.hk = .force)) g.yo v ∧ g.outH = trimmed trim (mirrorsOutY t) v g.imcuH g.yo H) ∧
    ((∃ a n b m, Selects W r.w r.wk r.x r.xk a n ∧ Selects H r.h r.hk r.y r.yk b m) →
      ∃ g, geometry (.xf t) trim img (some r) = some g) := by
  obtain ⟨b1, b2, b3, b4⟩ := baseGeo_imcu t img
  obtain ⟨p1, p2⟩ := imcu_pos t img
  simp only
  constructor
  · intro g hg
    unfold geometry cropArea at hg
    simp only [Option.map_eq_some_iff] at hg
    obtain ⟨g0, hg0, hg⟩ := hg
    rw [b3, b4] at hg0
    cases hx : axis (.xf t) (if swaps t then img.h else img.w) r.w r.wk r.x r.xk with
    | none => rw [hx] at hg0; simp at hg0
    | some q =>
      obtain ⟨n, a⟩ := q
      cases hy : axis (.xf t) (if swaps t then img.w else img.h) r.h r.hk r.y r.yk with
      | none => rw [hx, hy] at hg0; simp at hg0
      | some q =>
        obtain ⟨m, b⟩ := q
        rw [hx, hy] at hg0
        simp only [Option.bind_eq_bind, Option.bind_some, Option.pure_def, Option.some.injEq] at hg0
        have sx := (axis_within _ _ _ _ _ _ _ _ hw).1 hx
        have sy := (axis_within _ _ _ _ _ _ _ _ hh).1 hy
        have ax := aligned_axis (baseGeo (.xf t) img).imcuW (if swaps t then img.h else img.w) n a r.wk p1
          (by have := sx.inside; omega)
        have ay := aligned_axis (baseGeo (.xf t) img).imcuH (if swaps t then img.w else img.h) m b r.hk p2
          (by have := sy.inside; omega)
        have iw : g.imcuW = (baseGeo (.xf t) img).imcuW := by rw [← hg, ← hg0]; rfl
        have ih : g.imcuH = (baseGeo (.xf t) img).imcuH := by rw [← hg, ← hg0]; rfl
        have ixo : g.xo = a / (baseGeo (.xf t) img).imcuW := by rw [← hg, ← hg0]; rfl
        have iyo : g.yo = b / (baseGeo (.xf t) img).imcuH := by rw [← hg, ← hg0]; rfl
        have ow : g.outW = trimmed trim (mirrorsOutX t)
            (cropAxis (baseGeo (.xf t) img).imcuW (if swaps t then img.h else img.w) n r.wk a)
            g.imcuW g.xo (if swaps t then img.h else img.w) := by
          rw [iw, ixo, ← hg, ← hg0]; cases t <;> cases trim <;> rfl
        have oh : g.outH = trimmed trim (mirrorsOutY t)
            (cropAxis (baseGeo (.xf t) img).imcuH (if swaps t then img.w else img.h) m r.hk b)
            g.imcuH g.yo (if swaps t then img.w else img.h) := by
          rw [ih, iyo, ← hg, ← hg0]; cases t <;> cases trim <;> rfl
        have le1 : ∀ (tr mi : Bool) (u i o f : Nat), trimmed tr mi u i o f ≤ u := by
          intro tr mi u i o f
          unfold trimmed; split
          · exact trimEdge_le _ _ _ _
          · exact Nat.le_refl _
        have end_le : ∀ {i a n f o u full : Nat} {k : Bool}, Aligned i a n k o u → a + n ≤ full → o * i + u ≤ full := by
          intro i a n f o u full k h hle
          have h1 := h.length
          have h2 := h.start_le
          cases k
          · simp at h1; omega
          · simp at h1; omega
        refine ⟨a, n, b, m, _, _, sx, sy, ⟨iw.trans b1, ih.trans b2, ?_, ?_⟩, by rw [iw, ixo]; exact ax, ow,
          by rw [ih, iyo]; exact ay, oh⟩
        · have q := end_le (f := 0) ax sx.inside
          have q2 := le1 trim (mirrorsOutX t) (cropAxis (baseGeo (.xf t) img).imcuW (if swaps t then img.h else img.w) n r.wk a)
            g.imcuW g.xo (if swaps t then img.h else img.w)
          rw [← ow] at q2
          rw [ixo, iw]; omega
        · have q := end_le (f := 0) ay sy.inside
          have q2 := le1 trim (mirrorsOutY t) (cropAxis (baseGeo (.xf t) img).imcuH (if swaps t then img.w else img.h) m r.hk b)
            g.imcuH g.yo (if swaps t then img.w else img.h)
          rw [← oh] at q2
          rw [iyo, ih]; omega
  · rintro ⟨a, n, b, m, sx, sy⟩
    have hx := (axis_within (.xf t) _ _ _ _ _ _ _ hw).2 sx
    have hy := (axis_within (.xf t) _ _ _ _ _ _ _ hh).2 sy
    unfold geometry cropArea
    simp only
    rw [b3, b4, hx, hy]
    simp

theorem covers_axis (imcu n a : Nat) (hi : 0 < imcu) : Covers imcu a n (a / imcu) (divUp (n + a % imcu) imcu) := by
  have h1 := Nat.div_add_mod a imcu
  have h2 := Nat.mod_lt a hi
  have h3 := Nat.div_add_mod (n + a % imcu + imcu - 1) imcu
  have h4 := Nat.mod_lt (n + a % imcu + imcu - 1) hi
  rw [Nat.mul_comm] at h1 h3
  unfold divUp
  constructor
  · omega
  · omega
  · rw [Nat.add_mul]; omega
  · rw [Nat.add_mul]; omega

/-- A wipe request is accepted exactly when it selects a rectangle inside the image; the output size is that of the image. -/
theorem wipe_geometry (img : Img) (trim : Bool) (r : Req) (hw : Within img.w r.w r.wk) (hh : Within img.h r.h r.hk) :
    (∀ g, geometry .wipe trim img (some r) = some g → ∃ a n b m,
      Selects img.w r.w r.wk r.x r.xk a n ∧ Selects img.h r.h r.hk r.y r.yk b m ∧
      g.outW = img.w ∧ g.outH = img.h ∧ g.imcuW = Transf.imcuW img ∧ g.imcuH = Transf.imcuH img ∧
      Covers g.imcuW a n g.xo g.dropW ∧ Covers g.imcuH b m g.yo g.dropH) ∧
    ((∃ a n b m, Selects img.w r.w r.wk r.x r.xk a n ∧ Selects img.h r.h r.hk r.y r.yk b m) →
      ∃ g, geometry .wipe trim img (some r) = some g) := by
  obtain ⟨p1, p2⟩ := imcu_pos .none img
  have b3 : (baseGeo .wipe img).outW = img.w := rfl
  have b4 : (baseGeo .wipe img).outH = img.h := rfl
  constructor
  · intro g hg
    unfold geometry cropArea at hg
    simp only [Option.map_eq_some_iff] at hg
    obtain ⟨g0, hg0, hg⟩ := hg
    rw [b3, b4] at hg0
    cases hx : axis .wipe img.w r.w r.wk r.x r.xk with
    | none => rw [hx] at hg0; simp at hg0
    | some q =>
      obtain ⟨n, a⟩ := q
      cases hy : axis .wipe img.h r.h r.hk r.y r.yk with
      | none => rw [hx, hy] at hg0; simp at hg0
      | some q =>
        obtain ⟨m, b⟩ := q
        rw [hx, hy] at hg0
        simp only [Option.bind_eq_bind, Option.bind_some, Option.pure_def, Option.some.injEq] at hg0
        have sx := (axis_within _ _ _ _ _ _ _ _ hw).1 hx
        have sy := (axis_within _ _ _ _ _ _ _ _ hh).1 hy
        subst hg; subst hg0
        exact ⟨a, n, b, m, sx, sy, rfl, rfl, rfl, rfl, covers_axis _ n a p1, covers_axis _ m b p2⟩
  · rintro ⟨a, n, b, m, sx, sy⟩
    have hx := (axis_within .wipe _ _ _ _ _ _ _ hw).2 sx
    have hy := (axis_within .wipe _ _ _ _ _ _ _ hh).2 sy
    unfold geometry cropArea
    simp only
    rw [b3, b4, hx, hy]
    simp

theorem fills_axis (imcu full n a : Nat) (hi : 0 < imcu) (hn : 0 < n) (hle : a + n ≤ full) :
    Fills full imcu a n ((dropAxis imcu full n a).1 / imcu) (dropAxis imcu full n a).2 := by
  unfold dropAxis
  simp only
  have h3 := Nat.div_add_mod (a + imcu - 1) imcu
  have h4 := Nat.mod_lt (a + imcu - 1) hi
  generalize hq : (a + imcu - 1) / imcu = q at h3
  generalize hm : (a + imcu - 1) % imcu = m at h3 h4
  have e1 : a + (imcu - 1 - m) = q * imcu := by rw [Nat.mul_comm] at h3; omega
  have e2 : (a + (imcu - 1 - m)) / imcu = q := by rw [e1]; exact Nat.mul_div_cancel _ hi
  rw [e2]
  generalize hd : imcu - 1 - m = d at *
  have key : ∀ i : Nat, a ≤ i * imcu ↔ q ≤ i := by
    intro i
    constructor
    · intro h
      by_contra hc
      have : (i + 1) * imcu ≤ q * imcu := Nat.mul_le_mul_right _ (by omega)
      rw [Nat.add_mul, Nat.one_mul] at this
      omega
    · intro h
      have : q * imcu ≤ i * imcu := Nat.mul_le_mul_right _ h
      omega
  constructor
  intro i
  rw [key i]
  by_cases c1 : n ≤ d
  · rw [if_pos c1]
    constructor
    · intro h; omega
    · rintro ⟨h1, h2, _⟩
      have : q * imcu ≤ i * imcu := Nat.mul_le_mul_right _ h1
      omega
  · rw [if_neg c1]
    have hmul : (i + 1) * imcu = i * imcu + imcu := by rw [Nat.add_mul, Nat.one_mul]
    by_cases c2 : a + d + n - d = full
    · rw [if_pos c2]
      have : q + (n - d + imcu - 1) / imcu = (q * imcu + (n - d + imcu - 1)) / imcu := by
        rw [Nat.add_comm (q * imcu), Nat.add_mul_div_right _ _ hi]; omega
      rw [this, Nat.lt_div_iff_mul_lt hi]
      constructor
      · rintro ⟨h1, h2⟩; exact ⟨h1, by omega, by omega⟩
      · rintro ⟨h1, h2, _⟩; exact ⟨h1, by omega⟩
    · rw [if_neg c2]
      have : q + (n - d) / imcu = (q * imcu + (n - d)) / imcu := by
        rw [Nat.add_comm (q * imcu), Nat.add_mul_div_right _ _ hi]; omega
      rw [this]
      have e3 : i < (q * imcu + (n - d)) / imcu ↔ i * imcu + imcu ≤ q * imcu + (n - d) := by
        rw [← hmul]; exact Nat.le_div_iff_mul_le hi
      rw [e3, hmul]
      constructor
      · rintro ⟨h1, h2⟩; exact ⟨h1, by omega, by omega⟩
      · rintro ⟨h1, h2, h5⟩; exact ⟨h1, by omega⟩

/-- A drop request: the replaced iMCUs are those inside the requested rectangle. -/
theorem drop_geometry (img : Img) (trim : Bool) (r : Req) (hw : Within img.w r.w r.wk) (hh : Within img.h r.h r.hk) :
    (∀ g, geometry .drop trim img (some r) = some g → ∃ a n b m,
      Selects img.w r.w r.wk r.x r.xk a n ∧ Selects img.h r.h r.hk r.y r.yk b m ∧
      g.outW = img.w ∧ g.outH = img.h ∧ g.imcuW = Transf.imcuW img ∧ g.imcuH = Transf.imcuH img ∧
      Fills img.w g.imcuW a n g.xo g.dropW ∧ Fills img.h g.imcuH b m g.yo g.dropH) ∧
    ((∃ a n b m, Selects img.w r.w r.wk r.x r.xk a n ∧ Selects img.h r.h r.hk r.y r.yk b m) →
      ∃ g, geometry .drop trim img (some r) = some g) := by
  obtain ⟨p1, p2⟩ := imcu_pos .none img
  have b3 : (baseGeo .drop img).outW = img.w := rfl
  have b4 : (baseGeo .drop img).outH = img.h := rfl
  constructor
  · intro g hg
    unfold geometry cropArea at hg
    simp only [Option.map_eq_some_iff] at hg
    obtain ⟨g0, hg0, hg⟩ := hg
    rw [b3, b4] at hg0
    cases hx : axis .drop img.w r.w r.wk r.x r.xk with
    | none => rw [hx] at hg0; simp at hg0
    | some q =>
      obtain ⟨n, a⟩ := q
      cases hy : axis .drop img.h r.h r.hk r.y r.yk with
      | none => rw [hx, hy] at hg0; simp at hg0
      | some q =>
        obtain ⟨m, b⟩ := q
        rw [hx, hy] at hg0
        simp only [Option.bind_eq_bind, Option.bind_some, Option.pure_def, Option.some.injEq] at hg0
        have sx := (axis_within _ _ _ _ _ _ _ _ hw).1 hx
        have sy := (axis_within _ _ _ _ _ _ _ _ hh).1 hy
        subst hg; subst hg0
        exact ⟨a, n, b, m, sx, sy, rfl, rfl, rfl, rfl, fills_axis _ _ n a p1 sx.pos sx.inside,
          fills_axis _ _ m b p2 sy.pos sy.inside⟩
  · rintro ⟨a, n, b, m, sx, sy⟩
    have hx := (axis_within .drop _ _ _ _ _ _ _ hw).2 sx
    have hy := (axis_within .drop _ _ _ _ _ _ _ hh).2 sy
    unfold geometry cropArea
    simp only
    rw [b3, b4, hx, hy]
    simp

end Verif.Crop
