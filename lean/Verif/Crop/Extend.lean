import Verif.Crop.Wipe
/-
Crop extension: the whole iMCUs of the image inside a larger one, with the space around filled.
-/
namespace Verif.Crop
open Verif.Transf

/-! ## Specification -/

/-- A row of the extended image: `cw` blocks of the old row from column `xc` on, and left and right of them nothing, or blocks with
the DC coefficient of the nearest old block, or reflections. -/
def extCell (e : Ext) (row : Nat → Block) (xc cw x : Nat) : Block :=
  if xc ≤ x ∧ x < xc + cw then row (x - xc)
  else match e with
    | .zero => zeroBlock
    | .flat => dcBlock (row (if x < xc then 0 else cw - 1) 0 0)
    | .reflect => reflAt row cw ((x : Int) - xc)

/-- A block of the extended image. In an axis that is extended the old content starts at `xc` (`yc`) and has `cw` columns (`ch`
rows); in an axis that is not, the content is cut out from `xc` (`yc`) on. Rows outside are empty whatever the kind. -/
def extBlock (e : Ext) (extW extH : Bool) (a : Arr) (yc ch xc cw y x : Nat) : Block :=
  if extH ∧ (y < yc ∨ yc + ch ≤ y) then zeroBlock
  else
    let row := a.at_ (if extH then y - yc else y + yc)
    if extW then extCell e row xc cw x else row (xc + x)

/-! ## Rows -/

theorem extZeroRow_set {r c m : Nat} (p : Par) (src : Arr) (sy y : Nat) (s : Arr) (hd : Dims r c m s) (hy : y < r) (hsy : sy < src.rows)
    (hwb : p.wb ≤ c) (T : Nat → Nat → Block) (cw xc : Nat) (hcw : p.srcW / (p.maxH * 8) * p.hs = cw) (hxc : p.xo * p.hs = xc)
    (h1 : xc + cw ≤ p.wb) (h2 : cw ≤ src.cols) (hT : ∀ x, T y x = extCell .zero (src.at_ sy) xc cw x) :
    ∃ s', extZeroRow p true src sy y s = some s' ∧ SetOn (fun y' x' => y' = y ∧ x' < p.wb) T s s' := by
  unfold extZeroRow
  simp only [hcw, hxc, if_true]
  obtain ⟨s1, e1, p1⟩ := fill_set (T := T) y 0 xc zeroBlock s hd hy (by omega) (by
    intro x' _ h; rw [hT]; unfold extCell; rw [if_neg (by omega)])
  obtain ⟨s2, e2, p2⟩ := copy_set (T := T) src sy 0 y xc cw s1 (p1.dims hd) hsy (by omega) hy (by omega) (by
    intro x' h h'; rw [hT]; unfold extCell; rw [if_pos (by omega), Nat.zero_add])
  obtain ⟨s3, e3, p3⟩ := fill_set (T := T) y (xc + cw) (p.wb - xc - cw) zeroBlock s2 (p2.dims (p1.dims hd)) hy (by omega) (by
    intro x' _ h; rw [hT]; unfold extCell; rw [if_neg (by omega)])
  refine ⟨s3, ?_, ((p1.trans p2).trans p3).congr (by intro y x; omega)⟩
  simp only [Option.bind_eq_bind, e1, Option.bind_some, e2, e3]

theorem extFlatRow_set {r c m : Nat} (p : Par) (src : Arr) (sy y : Nat) (s : Arr) (hd : Dims r c m s) (hy : y < r) (hsy : sy < src.rows)
    (hwb : p.wb ≤ c) (T : Nat → Nat → Block) (cw xc : Nat) (hcw : p.srcW / (p.maxH * 8) * p.hs = cw) (hxc : p.xo * p.hs = xc)
    (h0 : 0 < cw) (h1 : xc + cw ≤ p.wb) (h2 : cw ≤ src.cols) (hT : ∀ x, T y x = extCell .flat (src.at_ sy) xc cw x) :
    ∃ s', extFlatRow p src sy y s = some s' ∧ SetOn (fun y' x' => y' = y ∧ x' < p.wb) T s s' := by
  unfold extFlatRow
  simp only [hcw, hxc]
  have L : ∃ s1, (if xc > 0 then do
      let b ← rd src sy 0
      fill y 0 xc (dcBlock (b 0 0)) s
    else some s) = some s1 ∧ SetOn (fun y' x' => y' = y ∧ x' < xc) T s s1 := by
    by_cases hx : xc > 0
    · rw [if_pos hx, rd_some src sy 0 hsy (by omega)]
      obtain ⟨s1, e1, p1⟩ := fill_set (T := T) y 0 xc (dcBlock (src.at_ sy 0 0 0)) s hd hy (by omega) (by
        intro x' _ h; rw [hT]; unfold extCell; rw [if_neg (by omega), if_pos (by omega)])
      exact ⟨s1, e1, p1.congr (by intro y x; omega)⟩
    · rw [if_neg hx]
      exact ⟨s, rfl, SetOn.empty T s (by intro y x; omega)⟩
  obtain ⟨s1, e1, p1⟩ := L
  obtain ⟨s2, e2, p2⟩ := copy_set (T := T) src sy 0 y xc cw s1 (p1.dims hd) hsy (by omega) hy (by omega) (by
    intro x' h h'; rw [hT]; unfold extCell; rw [if_pos (by omega), Nat.zero_add])
  simp only [Option.bind_eq_bind] at e1 ⊢
  rw [e1]
  simp only [Option.bind_some, e2]
  by_cases hx : p.wb > xc + cw
  · rw [if_pos hx, if_neg (show ¬ cw = 0 by omega), rd_some src sy (cw - 1) hsy (by omega)]
    obtain ⟨s3, e3, p3⟩ := fill_set (T := T) y (xc + cw) (p.wb - xc - cw) (dcBlock (src.at_ sy (cw - 1) 0 0)) s2
      (p2.dims (p1.dims hd)) hy (by omega) (by
      intro x' _ h; rw [hT]; unfold extCell; rw [if_neg (by omega), if_neg (by omega)])
    exact ⟨s3, e3, ((p1.trans p2).trans p3).congr (by intro y x; omega)⟩
  · rw [if_neg hx]
    exact ⟨s2, rfl, (p1.trans p2).congr (by intro y x; omega)⟩

theorem extReflectRow_set {r c m : Nat} (fuel : Nat) (p : Par) (src : Arr) (sy y : Nat) (s : Arr) (hd : Dims r c m s) (hy : y < r)
    (hsy : sy < src.rows)
    (hwb : p.wb ≤ c) (T : Nat → Nat → Block) (cw xc : Nat) (hcw : p.srcW / (p.maxH * 8) * p.hs = cw) (hxc : p.xo * p.hs = xc)
    (h0 : 0 < cw) (h1 : xc + cw ≤ p.wb) (h2 : cw ≤ src.cols) (hf : p.wb ≤ fuel) (hr : ∀ x i j, InRange (src.at_ sy x i j))
    (hT : ∀ x, T y x = extCell .reflect (src.at_ sy) xc cw x) :
    ∃ s', extReflectRow fuel p src sy y s = some s' ∧ SetOn (fun y' x' => y' = y ∧ x' < p.wb) T s s' := by
  unfold extReflectRow
  simp only [hcw, hxc]
  have hT' : ∀ x, T y x = reflAt (src.at_ sy) cw ((x : Int) - xc) := by
    intro x
    rw [hT]
    unfold extCell
    by_cases h : xc ≤ x ∧ x < xc + cw
    · rw [if_pos h]
      have : (x : Int) - xc = ((x - xc : Nat) : Int) := by omega
      rw [this, reflAt_inside _ _ _ (by omega)]
    · rw [if_neg h]
  obtain ⟨s1, e1, p1⟩ := copy_set (T := T) src sy 0 y xc cw s hd hsy (by omega) hy (by omega) (by
    intro x' h h'; rw [hT]; unfold extCell; rw [if_pos (by omega), Nat.zero_add])
  obtain ⟨s2, e2, p2⟩ := reflectLeft_set (T := T) cw y h0 hy xc (by
      intro t x x' hx _ _
      rw [hT', hT', ← reflAt_mirror (src.at_ sy) cw h0 (fun k _ => hr _) (-(t : Int))]
      congr 1
      have : (x : Int) + x' + 1 + 2 * ((cw : Int) * t) = 2 * xc := by exact_mod_cast hx
      rw [Int.mul_assoc, Int.mul_neg]; omega)
    fuel xc xc 0 s1 (by omega) (p1.dims hd) (by omega) (by omega) (by omega) (fun x h h' => p1.inside _ _ (by omega))
  obtain ⟨s3, e3, p3⟩ := reflectRight_set (T := T) cw y h0 hy xc (by
      intro t x x' hx _ _
      rw [hT', hT', ← reflAt_mirror (src.at_ sy) cw h0 (fun k _ => hr _) (t : Int)]
      congr 1
      have : (x : Int) + x' + 1 = 2 * (xc + (cw : Int) * t) := by exact_mod_cast hx
      rw [Int.mul_assoc]; omega)
    fuel (p.wb - xc - cw) (xc + cw) 1 s2 (by omega) (p2.dims (p1.dims hd)) (by omega) (by omega) (by omega) (fun x h h' => by
      rw [p2.outside _ _ (by omega)]; exact p1.inside _ _ (by omega))
  refine ⟨s3, ?_, ((p1.trans p2).trans p3).congr (by intro y x; omega)⟩
  simp only [Option.bind_eq_bind, e1, Option.bind_some, e2, e3]

/-! ## All rows -/

/-- Sizes for crop extension of one component. -/
structure FitsExt (p : Par) (extW extH : Bool) (src dst : Arr) : Prop where
  hs : 0 < p.hs
  vs : 0 < p.vs
  dr : divUp p.hb p.vs * p.vs ≤ dst.rows
  dc : p.wb ≤ dst.cols
  da : p.vs ≤ dst.maxaccess
  sa : p.vs ≤ src.maxaccess
  sw : if extW then (p.xo + p.srcW / (p.maxH * 8)) * p.hs ≤ p.wb ∧ p.srcW / (p.maxH * 8) * p.hs ≤ src.cols
    else p.xo * p.hs + p.wb ≤ src.cols
  sh : if extH then p.srcH / (p.maxV * 8) * p.vs ≤ src.rows
    else p.yo * p.vs + divUp p.hb p.vs * p.vs ≤ src.rows

theorem doCropExt_spec (fuel : Nat) (e : Ext) (p : Par) (extW extH : Bool) (src dst : Arr) (h : FitsExt p extW extH src dst)
    (he : e ≠ .zero → extW = true ∧ 0 < p.srcW / (p.maxH * 8)) (hf : p.wb ≤ fuel)
    (hr : ∀ y x i j, InRange (src.at_ y x i j)) :
    ∃ a, doCropExt fuel e p extW extH src dst = some a ∧
      ∀ y x, y < divUp p.hb p.vs * p.vs → x < p.wb → a.at_ y x =
        extBlock e extW extH src (p.yo * p.vs) (p.srcH / (p.maxV * 8) * p.vs) (p.xo * p.hs) (p.srcW / (p.maxH * 8) * p.hs) y x := by
  unfold doCropExt
  simp only
  have sw := h.sw; have sh := h.sh; have dr := h.dr; have dc := h.dc
  have hvs := h.vs
  have hcw0 : 0 < p.srcW / (p.maxH * 8) → 0 < p.srcW / (p.maxH * 8) * p.hs := fun q => Nat.mul_pos q h.hs
  generalize hch : p.srcH / (p.maxV * 8) = nh at *
  generalize hxw : p.srcW / (p.maxH * 8) = nw at *
  obtain ⟨a, ea, pa⟩ := rows_nest (T := extBlock e extW extH src (p.yo * p.vs) (nh * p.vs) (p.xo * p.hs) (nw * p.hs))
    (fun x => x < p.wb) 0 p.hb p.vs h.vs dst
    (fun y dst => do
      access dst y p.vs
      if extH ∧ (y < p.yo * p.vs ∨ y ≥ p.yo * p.vs + nh * p.vs) then
        forStep p.vs 1 (fun oy dst => fill (y + oy) 0 p.wb zeroBlock dst) dst
      else do
        let s := if extH then y - p.yo * p.vs else y + p.yo * p.vs
        access src s p.vs
        forStep p.vs 1 (fun oy dst => extRow fuel e p extW src (s + oy) (y + oy) dst) dst)
    (fun y oy dst => if extH ∧ (y < p.yo * p.vs ∨ y ≥ p.yo * p.vs + nh * p.vs) then fill (y + oy) 0 p.wb zeroBlock dst
      else extRow fuel e p extW src ((if extH then y - p.yo * p.vs else y + p.yo * p.vs) + oy) (y + oy) dst)
    (by
      intro k hk s hs
      have hle := mul_add_le_roundup hk h.vs
      rw [access_some s _ _ (by rw [hs.1]; omega) (by rw [hs.2.2]; exact h.da)]
      simp only [Option.bind_eq_bind, Option.bind_some]
      by_cases hc : extH = true ∧ (k * p.vs < p.yo * p.vs ∨ k * p.vs ≥ p.yo * p.vs + nh * p.vs)
      · simp only [if_pos hc]
      · simp only [if_neg hc]
        rw [access_some src _ _ ?_ h.sa]
        · rfl
        · cases extH
          · simp at sh ⊢; omega
          · simp only [if_true, true_and, not_or] at hc sh ⊢
            have hlt : k < p.yo + nh := by
              apply Nat.lt_of_mul_lt_mul_right (a := p.vs); rw [Nat.add_mul]; omega
            have := grp_le (v := p.vs) hlt
            rw [Nat.add_mul] at this
            omega)
    (by
      intro k hk o ho s hs _
      have hle := mul_add_le_roundup hk h.vs
      simp only [Nat.zero_add]
      by_cases hc : extH = true ∧ (k * p.vs < p.yo * p.vs ∨ k * p.vs ≥ p.yo * p.vs + nh * p.vs)
      · rw [if_pos hc]
        have hc' : extH = true ∧ (k * p.vs + o < p.yo * p.vs ∨ p.yo * p.vs + nh * p.vs ≤ k * p.vs + o) := by
          refine ⟨hc.1, ?_⟩
          rcases hc.2 with q | q
          · have := block_mul q; omega
          · omega
        obtain ⟨s', e', q⟩ := fill_set (T := extBlock e extW extH src (p.yo * p.vs) (nh * p.vs) (p.xo * p.hs) (nw * p.hs))
          (k * p.vs + o) 0 p.wb zeroBlock s hs (by omega) (by omega) (by
            intro x' _ _; unfold extBlock; rw [if_pos hc'])
        exact ⟨s', e', q.congr (by intro y x; omega)⟩
      · rw [if_neg hc]
        have hgrp : extH = true → k * p.vs + p.vs ≤ p.yo * p.vs + nh * p.vs ∧ p.yo * p.vs ≤ k * p.vs := by
          intro hE
          simp only [hE, true_and, not_or] at hc
          have hlt : k < p.yo + nh := by
            apply Nat.lt_of_mul_lt_mul_right (a := p.vs); rw [Nat.add_mul]; omega
          have := grp_le (v := p.vs) hlt
          rw [Nat.add_mul] at this
          omega
        have hc' : ¬ (extH = true ∧ (k * p.vs + o < p.yo * p.vs ∨ p.yo * p.vs + nh * p.vs ≤ k * p.vs + o)) := by
          rintro ⟨hE, q⟩
          have := hgrp hE
          omega
        have hsy : (if extH = true then k * p.vs - p.yo * p.vs else k * p.vs + p.yo * p.vs) + o =
            (if extH = true then k * p.vs + o - p.yo * p.vs else k * p.vs + o + p.yo * p.vs) := by
          cases hE : extH
          · simp; omega
          · have := hgrp hE
            simp; omega
        have hsr : (if extH = true then k * p.vs + o - p.yo * p.vs else k * p.vs + o + p.yo * p.vs) < src.rows := by
          cases hE : extH
          · simp only [hE] at sh; simp at sh ⊢; omega
          · have := hgrp hE
            simp only [hE] at sh; simp at sh ⊢; omega
        rw [hsy]
        have hT : ∀ x, extBlock e extW extH src (p.yo * p.vs) (nh * p.vs) (p.xo * p.hs) (nw * p.hs) (k * p.vs + o) x =
            if extW then extCell e (src.at_ (if extH = true then k * p.vs + o - p.yo * p.vs else k * p.vs + o + p.yo * p.vs))
              (p.xo * p.hs) (nw * p.hs) x else
              src.at_ (if extH = true then k * p.vs + o - p.yo * p.vs else k * p.vs + o + p.yo * p.vs) (p.xo * p.hs + x) := by
          intro x; unfold extBlock; rw [if_neg hc']
        generalize (if extH = true then k * p.vs + o - p.yo * p.vs else k * p.vs + o + p.yo * p.vs) = sy at *
        unfold extRow
        cases e with
        | zero =>
          cases hW : extW with
          | true =>
            simp only
            simp only [hW, if_true] at sw hT
            rw [Nat.add_mul] at sw
            exact extZeroRow_set p src sy (k * p.vs + o) s hs (by omega) hsr (by omega) _ _ _ (by rw [hxw]) rfl (by omega) (by omega) hT
          | false =>
            simp only
            simp only [hW, Bool.false_eq_true, if_false] at sw hT
            simp only [extZeroRow, Bool.false_eq_true, if_false]
            obtain ⟨s', e', q⟩ := copy_set (T := extBlock .zero false extH src (p.yo * p.vs) (nh * p.vs) (p.xo * p.hs) (nw * p.hs))
              src sy (p.xo * p.hs) (k * p.vs + o) 0 p.wb s hs hsr sw (by omega) (by omega) (by
                intro x' _ _; rw [hT]; rfl)
            exact ⟨s', e', q.congr (by intro y x; omega)⟩
        | flat =>
          obtain ⟨hW, h0⟩ := he (by simp)
          simp only [hW, if_true] at sw hT ⊢
          rw [Nat.add_mul] at sw
          exact extFlatRow_set p src sy (k * p.vs + o) s hs (by omega) hsr (by omega) _ _ _ (by rw [hxw]) rfl (hcw0 h0) (by omega) (by omega) hT
        | reflect =>
          obtain ⟨hW, h0⟩ := he (by simp)
          simp only [hW, if_true] at sw hT ⊢
          rw [Nat.add_mul] at sw
          exact extReflectRow_set fuel p src sy (k * p.vs + o) s hs (by omega) hsr (by omega) _ _ _ (by rw [hxw]) rfl (hcw0 h0) (by omega) (by omega) hf
            (fun x => hr _ x) hT)
  refine ⟨a, ea, ?_⟩
  intro y x hy hx
  exact pa.inside y x ⟨by omega, by omega, hx⟩

end Verif.Crop
