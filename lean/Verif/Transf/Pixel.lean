import Verif.Transf.Props
import Mathlib.Analysis.SpecialFunctions.Trigonometric.Basic
import Mathlib.Algebra.BigOperators.Fin
/-
Property C25: in the pixel domain, under the exact inverse DCT, the coefficient-domain transforms are the pixel
transforms.
-/
namespace Verif.Transf

open scoped BigOperators
open Real

/-! ## Specification -/

/-- Normalisation factor of the DCT. -/
noncomputable def nrm (u : Fin 8) : ℝ := if u = 0 then 1 / sqrt 2 else 1

/-- The inverse DCT of ITU-T T.81 A.3.3 (rows are vertical frequency). -/
noncomputable def idct (F : Fin 8 → Fin 8 → ℝ) (y x : Fin 8) : ℝ :=
  (1 / 4) * ∑ v : Fin 8, ∑ u : Fin 8, nrm u * nrm v * F v u *
    cos ((2 * (x.val : ℝ) + 1) * (u.val : ℝ) * π / 16) * cos ((2 * (y.val : ℝ) + 1) * (v.val : ℝ) * π / 16)

/-- Sample (Y, X) of a component: dequantize its block, apply the inverse DCT. -/
noncomputable def sample (q : Nat → Nat → Nat) (a : Arr) (Y X : Nat) : ℝ :=
  idct (fun v u => (q v.val u.val : ℝ) * ((a.at_ (Y / 8) (X / 8) v u : Int) : ℝ))
    ⟨Y % 8, Nat.mod_lt _ (by decide)⟩ ⟨X % 8, Nat.mod_lt _ (by decide)⟩

/-- The source pixel shown at (column X, row Y) of the transformed picture; the source is `W` by `H`. -/
def srcPos (t : Xform) (W H X Y : Nat) : Nat × Nat :=
  match t with
  | .none => (X, Y)
  | .flipH => (W - 1 - X, Y)
  | .flipV => (X, H - 1 - Y)
  | .transpose => (Y, X)
  | .transverse => (W - 1 - Y, H - 1 - X)
  | .rot90 => (Y, H - 1 - X)
  | .rot180 => (W - 1 - X, H - 1 - Y)
  | .rot270 => (W - 1 - Y, X)

/-! ## Model of the quantization-table transposition -/

/-- Exchange entries (i, j) and (j, i) of a table. -/
def swapEntries (q : Nat → Nat → Nat) (i j : Nat) : Nat → Nat → Nat :=
  let q1 := q i j
  let q' : Nat → Nat → Nat := fun r c => if r = i ∧ c = j then q j i else q r c
  fun r c => if r = j ∧ c = i then q1 else q' r c

/-- `transpose_critical_parameters`, quantization tables (transupp.c:1862-1876); the table is indexed by row and column
instead of `[i * DCTSIZE + j]`. -/
def transposeQuant (q : Nat → Nat → Nat) : Nat → Nat → Nat :=
  (List.range 8).foldl (fun q i => (List.range i).foldl (fun q j => swapEntries q i j) q) q

/-- Quantization table of the destination (transupp.c:2092-2108). -/
def dstQuant (t : Xform) (q : Nat → Nat → Nat) : Nat → Nat → Nat := if swaps t then transposeQuant q else q

/-! ## Proofs -/

theorem swapEntries_apply (q : Nat → Nat → Nat) (i j r c : Nat) :
    swapEntries q i j r c =
      if r = j ∧ c = i then q i j else if r = i ∧ c = j then q j i else q r c := rfl

theorem swap_inner (q : Nat → Nat → Nat) (i : Nat) : ∀ n, n ≤ i → ∀ r c,
    (List.range n).foldl (fun q j => swapEntries q i j) q r c =
      if (r = i ∧ c < n) ∨ (c = i ∧ r < n) then q c r else q r c := by
  intro n
  induction n with
  | zero => intro _ r c; simp
  | succ n ih =>
    intro hn r c
    rw [List.range_succ, List.foldl_append]
    simp only [List.foldl_cons, List.foldl_nil]
    rw [swapEntries_apply, ih (by omega), ih (by omega), ih (by omega)]
    by_cases h1 : r = n ∧ c = i
    · obtain ⟨rfl, rfl⟩ := h1
      rw [if_pos ⟨rfl, rfl⟩, if_neg (by omega), if_pos (by omega)]
    · rw [if_neg h1]
      by_cases h2 : r = i ∧ c = n
      · obtain ⟨rfl, rfl⟩ := h2
        rw [if_pos ⟨rfl, rfl⟩, if_neg (by omega), if_pos (by omega)]
      · rw [if_neg h2]
        by_cases h3 : (r = i ∧ c < n) ∨ (c = i ∧ r < n)
        · rw [if_pos h3, if_pos (by omega)]
        · rw [if_neg h3, if_neg (by omega)]

theorem swap_outer (q : Nat → Nat → Nat) : ∀ n r c,
    (List.range n).foldl (fun q i => (List.range i).foldl (fun q j => swapEntries q i j) q) q r c =
      if r < n ∧ c < n then q c r else q r c := by
  intro n
  induction n with
  | zero => intro r c; simp
  | succ n ih =>
    intro r c
    rw [List.range_succ, List.foldl_append]
    simp only [List.foldl_cons, List.foldl_nil]
    rw [swap_inner _ n n (Nat.le_refl _), ih, ih]
    by_cases hrc : r = c
    · subst hrc; simp
    · by_cases h1 : (r = n ∧ c < n) ∨ (c = n ∧ r < n)
      · rw [if_pos h1, if_neg (by omega), if_pos (by omega)]
      · rw [if_neg h1]
        by_cases h2 : r < n ∧ c < n
        · rw [if_pos h2, if_pos (by omega)]
        · rw [if_neg h2, if_neg (by omega)]

theorem transposeQuant_spec (q : Nat → Nat → Nat) (r c : Nat) (hr : r < 8) (hc : c < 8) :
    transposeQuant q r c = q c r := by
  unfold transposeQuant
  rw [swap_outer, if_pos ⟨hr, hc⟩]

theorem neg16_eq (v : Int) (h : InRange v) (h' : v ≠ -32768) : neg16 v = -v := by
  unfold InRange at h
  unfold neg16 Int.bmod
  simp only
  split <;> omega

/-- `(-1)^u` for an odd / even index. -/
noncomputable def par (b : Bool) (u : Fin 8) : ℝ := if b && oddB u then -1 else 1

theorem pow_par (u : Fin 8) : ((-1 : ℝ)) ^ u.val = par true u := by
  unfold par oddB
  rcases Nat.mod_two_eq_zero_or_one u.val with h | h
  · rw [Even.neg_one_pow (Nat.even_iff.2 h)]; simp [h]
  · rw [Odd.neg_one_pow (Nat.odd_iff.2 h)]; simp [h]

/-- Mirrored index within a block. -/
def rev (b : Bool) (x : Fin 8) : Fin 8 := if b then ⟨7 - x.val, by omega⟩ else x

theorem cos_rev (b : Bool) (x u : Fin 8) :
    cos ((2 * ((rev b x).val : ℝ) + 1) * (u.val : ℝ) * π / 16) =
      par b u * cos ((2 * (x.val : ℝ) + 1) * (u.val : ℝ) * π / 16) := by
  cases b
  · simp [rev, par]
  · have hx : x.val ≤ 7 := by omega
    have : (2 * ((rev true x).val : ℝ) + 1) * (u.val : ℝ) * π / 16 =
        (u.val : ℝ) * π - (2 * (x.val : ℝ) + 1) * (u.val : ℝ) * π / 16 := by
      simp only [rev, if_true]
      rw [Nat.cast_sub hx]; push_cast; ring
    rw [this, cos_nat_mul_pi_sub, pow_par]

/-- C25 at block level: negating the odd columns and/or odd rows of the coefficients mirrors the pixel block. -/
theorem idct_mirror (fx fy : Bool) (F : Fin 8 → Fin 8 → ℝ) (y x : Fin 8) :
    idct (fun v u => par fy v * par fx u * F v u) y x = idct F (rev fy y) (rev fx x) := by
  unfold idct
  congr 1
  apply Finset.sum_congr rfl
  intro v _
  apply Finset.sum_congr rfl
  intro u _
  rw [cos_rev, cos_rev]
  ring

/-- C25 at block level: transposing the coefficients transposes the pixel block. -/
theorem idct_transpose (F : Fin 8 → Fin 8 → ℝ) (y x : Fin 8) : idct (fun v u => F u v) y x = idct F x y := by
  unfold idct
  congr 1
  rw [Finset.sum_comm]
  apply Finset.sum_congr rfl
  intro v _
  apply Finset.sum_congr rfl
  intro u _
  ring

theorem sgn_real (s : Bool) (v : Int) (h : InRange v) (h' : v ≠ -32768) :
    ((sgn s v : Int) : ℝ) = (if s then -1 else 1) * (v : ℝ) := by
  unfold sgn
  cases s
  · simp
  · simp [neg16_eq v h h']

theorem par_mul (fx fy : Bool) (v u : Fin 8) :
    (if ((fy && oddB v) ^^ (fx && oddB u)) then (-1 : ℝ) else 1) = par fy v * par fx u := by
  unfold par
  cases (fy && oddB v) <;> cases (fx && oddB u) <;> simp

/-- One component, before naming the transform. -/
theorem sample_cell (f : Bool × Bool × Bool) (q q' : Nat → Nat → Nat)
    (hq : ∀ r c, r < 8 → c < 8 → q' r c = if f.1 then q c r else q r c) (a d : Arr)
    (ha : ∀ y x i j, y < a.rows → x < a.cols → InRange (a.at_ y x i j) ∧ a.at_ y x i j ≠ -32768)
    (hr : d.rows = if f.1 then a.cols else a.rows) (hc : d.cols = if f.1 then a.rows else a.cols)
    (hd : ∀ y x i j, y < d.rows → x < d.cols → d.at_ y x i j = cellOf f a y x i j)
    (Y X : Nat) (hY : Y < d.rows * 8) (hX : X < d.cols * 8) :
    let Y1 := if f.1 then X else Y
    let X1 := if f.1 then Y else X
    sample q' d Y X = sample q a (if f.2.2 then a.rows * 8 - 1 - Y1 else Y1)
      (if f.2.1 then a.cols * 8 - 1 - X1 else X1) := by
  obtain ⟨tr, fx, fy⟩ := f
  simp only at *
  have hY8 : Y / 8 < d.rows := by omega
  have hX8 : X / 8 < d.cols := by omega
  -- generic part: no transposition
  have gen : ∀ (Z W : Nat), Z < a.rows * 8 → W < a.cols * 8 →
      idct (fun v u => (q v.val u.val : ℝ) * ((sgn ((fy && oddB v) ^^ (fx && oddB u))
          (a.at_ (if fy then a.rows - 1 - Z / 8 else Z / 8) (if fx then a.cols - 1 - W / 8 else W / 8) v u) : Int) : ℝ))
        ⟨Z % 8, Nat.mod_lt _ (by decide)⟩ ⟨W % 8, Nat.mod_lt _ (by decide)⟩ =
      sample q a (if fy then a.rows * 8 - 1 - Z else Z) (if fx then a.cols * 8 - 1 - W else W) := by
    intro Z W hZ hW
    have e1 : (if fy then a.rows * 8 - 1 - Z else Z) / 8 = if fy then a.rows - 1 - Z / 8 else Z / 8 := by
      cases fy <;> simp; omega
    have e2 : (if fx then a.cols * 8 - 1 - W else W) / 8 = if fx then a.cols - 1 - W / 8 else W / 8 := by
      cases fx <;> simp; omega
    have e3 : (⟨(if fy then a.rows * 8 - 1 - Z else Z) % 8, Nat.mod_lt _ (by decide)⟩ : Fin 8) =
        rev fy ⟨Z % 8, Nat.mod_lt _ (by decide)⟩ := by
      cases fy
      · rfl
      · apply Fin.ext; simp [rev]; omega
    have e4 : (⟨(if fx then a.cols * 8 - 1 - W else W) % 8, Nat.mod_lt _ (by decide)⟩ : Fin 8) =
        rev fx ⟨W % 8, Nat.mod_lt _ (by decide)⟩ := by
      cases fx
      · rfl
      · apply Fin.ext; simp [rev]; omega
    unfold sample
    rw [e3, e4, ← idct_mirror]
    congr 1
    funext v u
    rw [e1, e2]
    have hin := ha (if fy then a.rows - 1 - Z / 8 else Z / 8) (if fx then a.cols - 1 - W / 8 else W / 8) v u
      (by cases fy <;> simp <;> omega) (by cases fx <;> simp <;> omega)
    rw [sgn_real _ _ hin.1 hin.2, par_mul]
    ring
  cases tr
  · simp only [Bool.false_eq_true, if_false] at *
    rw [← gen Y X (by rw [← hr]; exact hY) (by rw [← hc]; exact hX)]
    unfold sample
    congr 1
    funext v u
    rw [hd _ _ _ _ hY8 hX8, hq _ _ v.isLt u.isLt]
    simp [cellOf]
  · simp only [if_true] at *
    rw [← gen X Y (by rw [← hc]; exact hX) (by rw [← hr]; exact hY), ← idct_transpose]
    unfold sample
    congr 1
    funext v u
    rw [hd _ _ _ _ hY8 hX8, hq _ _ v.isLt u.isLt]
    simp [cellOf]

/-- C25: decode, with the exact inverse DCT, the image written by a transform of an image of whole iMCUs: every sample
of every component is the source sample that the pixel-domain transform would put there. (Coefficients must not be
-32768, which has no negative in 16 bits.) -/
theorem transform_is_pixel_transform (t : Xform) (trim : Bool) (init : Nat → Nat → Block) (img : Img) (h : Whole img)
    (hmin : ∀ c ∈ img.comps, ∀ y x i j, y < c.arr.rows → x < c.arr.cols → c.arr.at_ y x i j ≠ -32768) :
    ∃ out, execute t trim init img = some out ∧ List.Forall₂ (fun c d : Comp =>
      ∀ (q : Nat → Nat → Nat) (Y X : Nat), Y < d.arr.rows * 8 → X < d.arr.cols * 8 →
        let s := srcPos t (c.arr.cols * 8) (c.arr.rows * 8) X Y
        sample (dstQuant t q) d.arr Y X = sample q c.arr s.2 s.1) img.comps out.comps := by
  obtain ⟨out, e, p, -⟩ := execute_whole t trim init img h
  refine ⟨out, e, ?_⟩
  have hall : ∀ (l m : List Comp), (∀ c ∈ l, c ∈ img.comps) → List.Forall₂ (fun c d : Comp =>
      d.hs = (if swaps t then c.vs else c.hs) ∧ d.vs = (if swaps t then c.hs else c.vs) ∧
      d.arr.rows = (if swaps t then c.arr.cols else c.arr.rows) ∧
      d.arr.cols = (if swaps t then c.arr.rows else c.arr.cols) ∧
      (∀ y x i j, y < d.arr.rows → x < d.arr.cols → d.arr.at_ y x i j = cellOf (flags t) c.arr y x i j)) l m →
      List.Forall₂ (fun c d : Comp =>
      ∀ (q : Nat → Nat → Nat) (Y X : Nat), Y < d.arr.rows * 8 → X < d.arr.cols * 8 →
        let s := srcPos t (c.arr.cols * 8) (c.arr.rows * 8) X Y
        sample (dstQuant t q) d.arr Y X = sample q c.arr s.2 s.1) l m := by
    intro l m hl f
    induction f with
    | nil => exact List.Forall₂.nil
    | @cons c d l m r _ ih =>
      refine List.Forall₂.cons ?_ (ih (fun c hc => hl c (by simp [hc])))
      obtain ⟨-, -, r3, r4, r5⟩ := r
      have hc := hl c (by simp)
      intro q Y X hY hX
      have := sample_cell (flags t) q (dstQuant t q) (by
          intro r c hr hc
          unfold dstQuant
          rw [flags_swaps]
          cases swaps t
          · rfl
          · simp only [if_true]; exact transposeQuant_spec q r c hr hc) c.arr d.arr
        (fun y x i j hy hx => ⟨h.range c hc y x i j hy hx, hmin c hc y x i j hy hx⟩)
        (by rw [flags_swaps]; exact r3) (by rw [flags_swaps]; exact r4) r5 Y X hY hX
      simp only at this ⊢
      rw [this]
      cases t <;> simp [flags, srcPos]
  exact hall _ _ (fun _ h => h) p.comps

/-- The hypotheses hold of a small colour image. -/
def demo2 : Img :=
  { w := 16, h := 8, comps := [
    { hs := 2, vs := 1, arr := { rows := 1, cols := 2, maxaccess := 1, at_ := fun _ x i j => (x * 10 + i.val + j.val : Nat) } },
    { hs := 1, vs := 1, arr := { rows := 1, cols := 1, maxaccess := 1, at_ := fun _ _ _ _ => -32767 } }] }

example : Whole demo2 ∧ ∀ c ∈ demo2.comps, ∀ y x i j, y < c.arr.rows → x < c.arr.cols → c.arr.at_ y x i j ≠ -32768 := by
  constructor
  · constructor <;> simp [demo2, maxH, maxV, maxOf, InRange]
    omega
  · simp [demo2]
    omega

end Verif.Transf
