import Verif.Crop.Rows
/-
Wiping and dropping: the region's new content; everything else is as it was.
-/
namespace Verif.Crop
open Verif.Transf

/-! ## Specification -/

/-- The blocks of iMCUs `yo .. yo+nh-1` (rows) and `xo .. xo+nw-1` (columns) of a component with `vs` rows and `hs` columns of
blocks in an iMCU. -/
def Region (vs hs yo nh xo nw : Nat) (y x : Nat) : Prop :=
  yo * vs ≤ y ∧ y < (yo + nh) * vs ∧ xo * hs ≤ x ∧ x < (xo + nw) * hs

/-- Flattening: a block without AC coefficients, whose DC coefficient is that of the block to the left of the region, or that to
the right of it, or the average of both. `wb` is the width of the component. -/
def flatCell (a : Arr) (left right wb : Nat) (y : Nat) : Block :=
  dcBlock (if left > 0 then
      if right < wb then (a.at_ y (left - 1) 0 0 + a.at_ y right 0 0) / 2 else a.at_ y (left - 1) 0 0
    else if right < wb then a.at_ y right 0 0 else 0)

/-- Reflection of what is to the left of the region, or else of what is to the right of it. -/
def reflCell (a : Arr) (left right wb : Nat) (y x : Nat) : Block :=
  if left > 0 then reflAt (a.at_ y) left x
  else if right < wb then reflAt (fun k => a.at_ y (right + k)) (wb - right) ((x : Int) - right)
  else zeroBlock

/-! ## Routines -/

theorem block_mul {a b v : Nat} (h : a * v < b * v) : a * v + v ≤ b * v := Transf.block_le h

theorem region_nest {T : Nat → Nat → Block} (vs hs yo nh xo nw : Nat) (hv : 0 < vs) (a : Arr) (body : Nat → Arr → Option Arr)
    (row : Nat → Nat → Arr → Option Arr)
    (h1 : ∀ k, k < nh → ∀ s, Dims a.rows a.cols a.maxaccess s → body (k * vs) s = forStep vs 1 (row (k * vs)) s)
    (h2 : ∀ k, k < nh → ∀ o, o < vs → k * vs + o < nh * vs → ∀ s, Dims a.rows a.cols a.maxaccess s →
      (∀ x, s.at_ (yo * vs + (k * vs + o)) x = a.at_ (yo * vs + (k * vs + o)) x) →
      ∃ s', row (k * vs) o s = some s' ∧
        SetOn (fun y x => y = yo * vs + (k * vs + o) ∧ xo * hs ≤ x ∧ x < (xo + nw) * hs) T s s') :
    ∃ a', forStep (nh * vs) vs body a = some a' ∧ SetOn (Region vs hs yo nh xo nw) T a a' := by
  have lt : ∀ k, k * vs < nh * vs → k < nh := fun k h => Nat.lt_of_mul_lt_mul_right h
  obtain ⟨a', e, p⟩ := rows_nest (T := T) (fun x => xo * hs ≤ x ∧ x < (xo + nw) * hs) (yo * vs) (nh * vs) vs hv a body row
    (fun k hk s hs => h1 k (lt k hk) s hs)
    (fun k hk o ho s hs hsame => h2 k (lt k hk) o ho (by have := block_mul hk; omega) s hs hsame)
  refine ⟨a', e, p.congr ?_⟩
  intro y x
  rw [divUp_mul' _ _ hv]
  unfold Region
  rw [Nat.add_mul yo]

/-- The array is large enough for the region. -/
structure FitsRegion (p : Par) (a : Arr) (dropW dropH : Nat) : Prop where
  vs : 0 < p.vs
  rows : (p.yo + dropH) * p.vs ≤ a.rows
  cols : (p.xo + dropW) * p.hs ≤ a.cols
  acc : p.vs ≤ a.maxaccess

theorem grp_le {k n v : Nat} (h : k < n) : k * v + v ≤ n * v := by
  have : (k + 1) * v ≤ n * v := Nat.mul_le_mul_right _ h
  rwa [Nat.add_mul, Nat.one_mul] at this

theorem doWipe_spec (p : Par) (dropW dropH : Nat) (a : Arr) (h : FitsRegion p a dropW dropH) :
    ∃ a', doWipe p dropW dropH a = some a' ∧
      SetOn (Region p.vs p.hs p.yo dropH p.xo dropW) (fun _ _ => zeroBlock) a a' := by
  have f1 := h.rows; have f2 := h.cols
  rw [Nat.add_mul] at f1 f2
  unfold doWipe
  refine region_nest _ _ _ _ _ _ h.vs a _ (fun y oy a => fill (p.yo * p.vs + y + oy) (p.xo * p.hs) (dropW * p.hs) zeroBlock a) ?_ ?_
  · intro k hk s hs
    have := grp_le (v := p.vs) hk
    rw [access_some s _ _ (by rw [hs.1]; omega) (by rw [hs.2.2]; exact h.acc)]
    rfl
  · intro k hk o ho hlt s hs _
    obtain ⟨s', e, q⟩ := fill_set (T := fun _ _ => zeroBlock) (p.yo * p.vs + k * p.vs + o) (p.xo * p.hs) (dropW * p.hs) zeroBlock s hs
      (by omega) (by omega) (fun _ _ _ => rfl)
    refine ⟨s', e, q.congr ?_⟩
    intro y x; rw [Nat.add_mul, Nat.add_assoc]

theorem doDrop_spec (p : Par) (dropW dropH : Nat) (d : Option Arr) (a : Arr) (h : FitsRegion p a dropW dropH)
    (hd : ∀ d', d = some d' → dropH * p.vs ≤ d'.rows ∧ dropW * p.hs ≤ d'.cols ∧ p.vs ≤ d'.maxaccess) :
    ∃ a', doDrop p dropW dropH d a = some a' ∧
      SetOn (Region p.vs p.hs p.yo dropH p.xo dropW) (fun y x => match d with
        | some d => d.at_ (y - p.yo * p.vs) (x - p.xo * p.hs)
        | none => zeroBlock) a a' := by
  have f1 := h.rows; have f2 := h.cols
  rw [Nat.add_mul] at f1 f2
  unfold doDrop
  cases d with
  | none => exact doWipe_spec p dropW dropH a h
  | some d =>
    obtain ⟨d1, d2, d3⟩ := hd d rfl
    refine region_nest _ _ _ _ _ _ h.vs a _ (fun y oy a =>
      copyBlockRow d (y + oy) 0 (p.yo * p.vs + y + oy) (p.xo * p.hs) (dropW * p.hs) a) ?_ ?_
    · intro k hk s hs
      have := grp_le (v := p.vs) hk
      rw [access_some s _ _ (by rw [hs.1]; omega) (by rw [hs.2.2]; exact h.acc)]
      simp only
      rw [access_some d _ _ (by omega) d3]
      rfl
    · intro k hk o ho hlt s hs _
      obtain ⟨s', e, q⟩ := copy_set (T := fun y x => d.at_ (y - p.yo * p.vs) (x - p.xo * p.hs)) d (k * p.vs + o) 0
        (p.yo * p.vs + k * p.vs + o) (p.xo * p.hs) (dropW * p.hs) s hs (by omega) (by omega) (by omega) (by omega) (by
          intro x' _ _
          congr 1 <;> omega)
      refine ⟨s', e, q.congr ?_⟩
      intro y x; rw [Nat.add_mul, Nat.add_assoc]

theorem flattenRow_set (p : Par) (dropW y : Nat) (a s : Arr) (hd : Dims a.rows a.cols a.maxaccess s) (hy : y < a.rows)
    (hc : (p.xo + dropW) * p.hs ≤ a.cols) (hwb : p.wb ≤ a.cols) (hs : ∀ x, s.at_ y x = a.at_ y x) :
    ∃ s', flattenRow p dropW y s = some s' ∧ SetOn (fun y' x' => y' = y ∧ p.xo * p.hs ≤ x' ∧ x' < (p.xo + dropW) * p.hs)
      (fun y _ => flatCell a (p.xo * p.hs) ((p.xo + dropW) * p.hs) p.wb y) s s' := by
  have e0 : (p.xo + dropW) * p.hs = dropW * p.hs + p.xo * p.hs := by rw [Nat.add_mul]; omega
  unfold flattenRow
  simp only
  rw [e0] at hc ⊢
  generalize hL : p.xo * p.hs = L at *
  generalize hW : dropW * p.hs = W at *
  obtain ⟨s1, e1, p1⟩ := fill_set (T := fun _ _ => zeroBlock) y L W zeroBlock s hd hy (by omega) (fun _ _ _ => rfl)
  have d1 := p1.dims hd
  rw [e1]
  simp only [Option.bind_eq_bind, Option.bind_some]
  have rdl : L > 0 → rd s1 y (L - 1) = some (a.at_ y (L - 1)) := by
    intro h
    rw [rd_some s1 y _ (by rw [d1.1]; exact hy) (by rw [d1.2.1]; omega), p1.outside _ _ (by omega), hs]
  have rdr : W + L < p.wb → rd s1 y (W + L) = some (a.at_ y (W + L)) := by
    intro h
    rw [rd_some s1 y _ (by rw [d1.1]; exact hy) (by rw [d1.2.1]; omega), p1.outside _ _ (by omega), hs]
  have fin : ∀ v, dcBlock v = flatCell a L (W + L) p.wb y → ∃ s', fill y L W (dcBlock v) s1 = some s' ∧
      SetOn (fun y' x' => y' = y ∧ L ≤ x' ∧ x' < W + L) (fun y _ => flatCell a L (W + L) p.wb y) s s' := by
    intro v hv
    obtain ⟨s2, e2, p2⟩ := fill_set (T := fun y _ => flatCell a L (W + L) p.wb y) y L W (dcBlock v) s1 d1 hy (by omega) (fun _ _ _ => hv)
    refine ⟨s2, e2, p2.rows.trans p1.rows, p2.cols.trans p1.cols, p2.acc.trans p1.acc, ?_, ?_⟩
    · intro y' x' h'; exact p2.inside _ _ (by omega)
    · intro y' x' h'; rw [p2.outside _ _ (by omega), p1.outside _ _ (by omega)]
  by_cases hl : L > 0
  · rw [if_pos hl, rdl hl]
    simp only [Option.bind_some]
    by_cases hr : W + L < p.wb
    · rw [if_pos hr, rdr hr]
      simp only [Option.bind_some]
      exact fin _ (by unfold flatCell; rw [if_pos hl, if_pos hr])
    · rw [if_neg hr]
      exact fin _ (by unfold flatCell; rw [if_pos hl, if_neg hr])
  · rw [if_neg hl]
    by_cases hr : W + L < p.wb
    · rw [if_pos hr, rdr hr]
      simp only [Option.bind_some]
      exact fin _ (by unfold flatCell; rw [if_neg hl, if_pos hr])
    · rw [if_neg hr]
      refine ⟨s1, rfl, SetOn.of_eq (p1.congr (fun y x => by omega)) ?_⟩
      intro y' x' h'
      unfold flatCell
      rw [if_neg hl, if_neg hr]
      funext i j
      simp [zeroBlock, dcBlock]

theorem doFlatten_spec (p : Par) (dropW dropH : Nat) (a : Arr) (h : FitsRegion p a dropW dropH) (hwb : p.wb ≤ a.cols) :
    ∃ a', doFlatten p dropW dropH a = some a' ∧
      SetOn (Region p.vs p.hs p.yo dropH p.xo dropW)
        (fun y _ => flatCell a (p.xo * p.hs) ((p.xo + dropW) * p.hs) p.wb y) a a' := by
  have f1 := h.rows; have f2 := h.cols
  rw [Nat.add_mul] at f1
  unfold doFlatten
  refine region_nest _ _ _ _ _ _ h.vs a _ (fun y oy a => flattenRow p dropW (p.yo * p.vs + y + oy) a) ?_ ?_
  · intro k hk s hs
    have := grp_le (v := p.vs) hk
    rw [access_some s _ _ (by rw [hs.1]; omega) (by rw [hs.2.2]; exact h.acc)]
    rfl
  · intro k hk o ho hlt s hs hsame
    have := flattenRow_set p dropW (p.yo * p.vs + (k * p.vs + o)) a s hs (by omega) f2 hwb hsame
    rwa [← Nat.add_assoc] at this ⊢

theorem reflectRow_set (fuel : Nat) (p : Par) (dropW y : Nat) (a s : Arr) (hd : Dims a.rows a.cols a.maxaccess s) (hy : y < a.rows)
    (hc : (p.xo + dropW) * p.hs ≤ a.cols) (hwb : p.wb ≤ a.cols) (hf : dropW * p.hs ≤ fuel)
    (hr : ∀ x i j, InRange (a.at_ y x i j)) (hs : ∀ x, s.at_ y x = a.at_ y x) :
    ∃ s', reflectRow fuel p dropW y s = some s' ∧ SetOn (fun y' x' => y' = y ∧ p.xo * p.hs ≤ x' ∧ x' < (p.xo + dropW) * p.hs)
      (fun y x => reflCell a (p.xo * p.hs) ((p.xo + dropW) * p.hs) p.wb y x) s s' := by
  have e0 : (p.xo + dropW) * p.hs = p.xo * p.hs + dropW * p.hs := by rw [Nat.add_mul]
  unfold reflectRow
  simp only
  rw [e0] at hc ⊢
  generalize hL : p.xo * p.hs = L at *
  generalize hW : dropW * p.hs = W at *
  by_cases hl : L > 0
  · rw [if_pos hl]
    have ec : ∀ y x, reflCell a L (L + W) p.wb y x = reflAt (a.at_ y) L x := by
      intro y x; unfold reflCell; rw [if_pos hl]
    simp only [ec]
    refine reflectRight_set (T := fun y x => reflAt (a.at_ y) L x) L y hl hy 0 ?_ fuel W L 1 s hf hd (by omega) (by omega) (by omega) ?_
    · intro t x x' hx _ _
      have := reflAt_mirror (a.at_ y) L hl (fun k _ => hr k) t x'
      rw [← this]
      congr 1
      have : (x : Int) + x' + 1 = 2 * (L * t) := by exact_mod_cast (by omega)
      rw [Int.mul_assoc]; omega
    · intro x h1 h2
      rw [reflAt_inside _ _ _ (by omega), hs]
  · rw [if_neg hl]
    by_cases hw : L + W < p.wb
    · rw [if_pos hw]
      have ec : ∀ y x, reflCell a L (L + W) p.wb y x =
          reflAt (fun k => a.at_ y (L + W + k)) (p.wb - (L + W)) ((x : Int) - (L + W : Nat)) := by
        intro y x; unfold reflCell; rw [if_neg hl, if_pos hw]
      simp only [ec]
      have hcw : p.wb - L - W = p.wb - (L + W) := by omega
      rw [hcw]
      refine Exists.imp (fun s' ⟨e, q⟩ => ⟨e, q.congr (by intro y' x'; omega)⟩) (reflectLeft_set (T := fun y x =>
          reflAt (fun k => a.at_ y (L + W + k)) (p.wb - (L + W)) ((x : Int) - (L + W : Nat))) (p.wb - (L + W)) y (by omega) hy (L + W) ?_
        fuel W (L + W) 0 s hf hd (by omega) (by omega) (by omega) ?_)
      · intro t x x' hx _ _
        rw [← reflAt_mirror (fun k => a.at_ y (L + W + k)) (p.wb - (L + W)) (by omega) (fun k _ => hr _) (-(t : Int))]
        congr 1
        have : (x : Int) + x' + 1 + 2 * (((p.wb - (L + W) : Nat) : Int) * t) = 2 * (L + W : Nat) := by exact_mod_cast hx
        generalize ((p.wb - (L + W) : Nat) : Int) = z at *
        rw [Int.mul_assoc, Int.mul_neg]; omega
      · intro x h1 h2
        have : (x : Int) - (L + W : Nat) = ((x - (L + W) : Nat) : Int) := by omega
        rw [this, reflAt_inside _ _ _ (by omega), hs]
        congr 1; omega
    · rw [if_neg hw]
      obtain ⟨s1, e1, p1⟩ := fill_set (T := fun _ _ => zeroBlock) y L W zeroBlock s hd hy (by omega) (fun _ _ _ => rfl)
      refine ⟨s1, e1, SetOn.of_eq p1 ?_⟩
      intro y' x' _
      unfold reflCell
      rw [if_neg hl, if_neg hw]

theorem doReflect_spec (fuel : Nat) (p : Par) (dropW dropH : Nat) (a : Arr) (h : FitsRegion p a dropW dropH) (hwb : p.wb ≤ a.cols)
    (hyo : p.yo = 0) (hf : dropW * p.hs ≤ fuel) (hr : ∀ y x i j, InRange (a.at_ y x i j)) :
    ∃ a', doReflect fuel p dropW dropH a = some a' ∧
      SetOn (Region p.vs p.hs p.yo dropH p.xo dropW)
        (fun y x => reflCell a (p.xo * p.hs) ((p.xo + dropW) * p.hs) p.wb y x) a a' := by
  have f1 := h.rows; have f2 := h.cols
  rw [Nat.add_mul] at f1
  rw [hyo] at f1 ⊢
  unfold doReflect
  refine region_nest _ _ _ _ _ _ h.vs a _ (fun y oy a => reflectRow fuel p dropW (y + oy) a) ?_ ?_
  · intro k hk s hs
    have := grp_le (v := p.vs) hk
    rw [access_some s _ _ (by rw [hs.1]; omega) (by rw [hs.2.2]; exact h.acc)]
    rfl
  · intro k hk o ho hlt s hs hsame
    rw [Nat.zero_mul, Nat.zero_add] at hsame ⊢
    exact reflectRow_set fuel p dropW (k * p.vs + o) a s hs (by omega) f2 hwb hf (fun x => hr _ x) hsame

end Verif.Crop
