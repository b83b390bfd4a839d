/-
C40: with exact arithmetic, the DC coefficients chosen by quantize_trellis for a row of blocks minimize weighted
squared error plus the number of bits the Huffman coder emits for the DC differences.
-/
import Verif.Trellis.Best

namespace Verif.Trellis

open Verif.Huff (nbitsOf CTbl symBits magBits)

/-! ### Specification -/

/-- Error plus Huffman bits of coding DC values `ds` for blocks with error functions `dist`, predictor `last` before the
first block. -/
def dcTotal (dc : CTbl) : Int → List (DCInp ℚ) → List Int → ℚ
  | last, I :: Is, d :: ds =>
    I.dist d + ((symBits dc (nbitsOf (d - last).natAbs) ++ magBits (d - last)).length : ℚ) + dcTotal dc d Is ds
  | _, _, _ => 0

/-- The values considered for a block: within `half` of the rounded magnitude, clamped to the range, and the sign of the
source applied. -/
def dcCandidate (maxBits half : Nat) (I : DCInp ℚ) (d : Int) : Prop :=
  ∃ e : Int, -(half : Int) ≤ e ∧ e ≤ half ∧
    d = (if I.neg then -1 else 1) *
      max (-(2 ^ maxBits) + 1) (min (2 ^ maxBits - 1) (((I.x + I.q / 2) / I.q : Nat) + e))

/-! ### Proof -/

def isC (maxBits nc : Nat) (I : DCInp ℚ) (d : Int) : Prop := ∃ k < nc, d = dcCand maxBits nc I k

theorem isC_iff {maxBits half : Nat} {I : DCInp ℚ} {d : Int} (hm : 1 ≤ maxBits) :
    isC maxBits (2 * half + 1) I d ↔ dcCandidate maxBits half I d := by
  have hp : (2 : Int) ≤ 2 ^ maxBits := by
    have : 2 ^ 1 ≤ 2 ^ maxBits := Nat.pow_le_pow_right (by omega) hm
    exact_mod_cast this
  have hc : ∀ c : Int, (if (if c ≥ 2 ^ maxBits then 2 ^ maxBits - 1 else c) ≤ -(2 ^ maxBits) then -(2 ^ maxBits) + 1
      else (if c ≥ 2 ^ maxBits then 2 ^ maxBits - 1 else c)) = max (-(2 ^ maxBits) + 1) (min (2 ^ maxBits - 1) c) := by
    intro c
    generalize (2 : Int) ^ maxBits = P at *
    split <;> split <;> omega
  have hh : (2 * half + 1) / 2 = half := by omega
  unfold isC dcCandidate dcCand
  simp only [hh, hc, roundQ]
  constructor
  · rintro ⟨k, hk, rfl⟩
    refine ⟨(k : Int) - half, by omega, by omega, ?_⟩
    rw [show (((I.x + I.q / 2) / I.q : Nat) : Int) + ((k : Int) - half) = ((I.x + I.q / 2) / I.q : Nat) - (half : Int) + k by omega]
    split <;> ring
  · rintro ⟨e, h1, h2, rfl⟩
    refine ⟨(e + half).toNat, by omega, ?_⟩
    rw [show (((I.x + I.q / 2) / I.q : Nat) : Int) - (half : Int) + ((e + half).toNat : Int) = ((I.x + I.q / 2) / I.q : Nat) + e by omega]
    split <;> ring

theorem dcTotal_snoc (dc : CTbl) (I : DCInp ℚ) (d : Int) : ∀ (P : List (DCInp ℚ)) (ds : List Int) (last : Int),
    P.length = ds.length → dcTotal dc last (P ++ [I]) (ds ++ [d]) =
      dcTotal dc last P ds + (I.dist d + ((symBits dc (nbitsOf (d - ds.getLastD last).natAbs) ++
        magBits (d - ds.getLastD last)).length : ℚ)) := by
  intro P
  induction P with
  | nil =>
    intro ds last h
    have : ds = [] := by simpa using h.symm
    subst this
    simp [dcTotal]
  | cons J P ih =>
    intro ds last h
    cases ds with
    | nil => simp at h
    | cons e ds =>
      simp only [List.cons_append, dcTotal]
      rw [ih ds e (by simpa using h)]
      have : (e :: ds).getLastD last = ds.getLastD e := by cases ds <;> rfl
      rw [this]
      ring

theorem dcBack_acc {α : Type} : ∀ (cols : List (Col α)) (j : Nat) (acc : List Int),
    dcBack cols j acc = dcBack cols j [] ++ acc := by
  intro cols
  induction cols with
  | nil => intro j acc; simp [dcBack]
  | cons c cs ih =>
    intro j acc
    simp only [dcBack]
    rw [ih _ (c.cand j :: acc), ih _ [c.cand j]]
    simp

theorem dcCost_eq (big : ℚ) (eh : Nat → Nat) (dc : CTbl) (he : ∀ sy, eh sy = (dc sy).2) (d : ℚ) (delta : Int) :
    dcCost (ratOps big) eh d delta =
      d + ((symBits dc (nbitsOf delta.natAbs) ++ magBits delta).length : ℚ) := by
  unfold dcCost
  simp only [ratOps, symBits, magBits, List.length_append, Verif.length_toBits, he]
  push_cast
  ring

theorem dcColumn_spec (big : ℚ) (eh : Nat → Nat) (dc : CTbl) (he : ∀ sy, eh sy = (dc sy).2) (nc : Nat) (hnc : 1 ≤ nc)
    (cand : Nat → Int) (dist : Int → ℚ) (pc : Nat → Int) (pk : Nat → ℚ) (k : Nat) :
    let r := dcColumn (ratOps big) eh nc cand dist pc pk k
    let f := fun l => dist (cand k) + ((symBits dc (nbitsOf (cand k - pc l).natAbs) ++ magBits (cand k - pc l)).length : ℚ) + pk l
    r.2 < nc ∧ r.1 = f r.2 ∧ ∀ l < nc, r.1 ≤ f l := by
  intro r f
  obtain ⟨h1, h2, h3⟩ := fold_min (β := ℚ × Nat) Prod.fst (fun _ : Nat => True)
    (fun l => (f l, l)) (fun s l =>
      let cost := (ratOps big).add (dcCost (ratOps big) eh (dist (cand k)) (cand k - pc l)) (pk l)
      if (ratOps big).lt cost s.1 then (cost, l) else s)
    (fun b x h => absurd trivial h)
    (fun b x _ => by
      simp only [dcCost_eq big eh dc he]
      simp only [ratOps, decide_eq_true_eq, f])
    (List.range' 1 (nc - 1)) (f 0, 0)
  have hr : r = (List.range' 1 (nc - 1)).foldl (fun s l =>
      let cost := (ratOps big).add (dcCost (ratOps big) eh (dist (cand k)) (cand k - pc l)) (pk l)
      if (ratOps big).lt cost s.1 then (cost, l) else s) (f 0, 0) := by
    show dcColumn _ _ _ _ _ _ _ _ = _
    unfold dcColumn
    simp only [dcCost_eq big eh dc he]
    rfl
  rw [← hr] at h1 h2 h3
  refine ⟨?_, ?_, ?_⟩
  · rcases h1 with h | ⟨x, hx, -, h, -⟩
    · rw [h]; exact hnc
    · rw [h]
      rw [List.mem_range'_1] at hx
      show x < nc
      omega
  · rcases h1 with h | ⟨x, hx, -, h, -⟩ <;> rw [h]
  · intro l hl
    by_cases h0 : l = 0
    · subst h0; exact h2
    · exact h3 l (by rw [List.mem_range'_1]; omega) trivial

theorem dcBest_spec (big : ℚ) (nc : Nat) (hnc : 1 ≤ nc) (cost : Nat → ℚ) :
    dcBest (ratOps big) nc cost < nc ∧ ∀ l < nc, cost (dcBest (ratOps big) nc cost) ≤ cost l := by
  obtain ⟨h1, h2, h3⟩ := fold_min (β := Nat) cost (fun _ : Nat => True) (fun l => l)
    (fun j i => if (ratOps big).lt (cost i) (cost j) then i else j)
    (fun b x h => absurd trivial h)
    (fun b x _ => by simp only [ratOps, decide_eq_true_eq])
    (List.range' 1 (nc - 1)) 0
  unfold dcBest
  refine ⟨?_, ?_⟩
  · rcases h1 with h | ⟨x, hx, -, h, -⟩
    · rw [h]; exact hnc
    · rw [h]; rw [List.mem_range'_1] at hx; omega
  · intro l hl
    by_cases h0 : l = 0
    · subst h0; exact h2
    · exact h3 l (by rw [List.mem_range'_1]; omega) trivial

/-- Viterbi invariant: `P` are the blocks so far, `c :: cs` the columns, newest first. -/
structure DInv (dc : CTbl) (maxBits nc : Nat) (last : Int) (P : List (DCInp ℚ)) (c : Col ℚ) (cs : List (Col ℚ)) : Prop where
  path : ∀ k < nc, List.Forall₂ (isC maxBits nc) P (dcBack (c :: cs) k []) ∧
    dcTotal dc last P (dcBack (c :: cs) k []) = c.cost k ∧ (dcBack (c :: cs) k []).getLastD last = c.cand k
  best : ∀ ds, List.Forall₂ (isC maxBits nc) P ds → ∃ k < nc, ds.getLastD last = c.cand k ∧ c.cost k ≤ dcTotal dc last P ds

theorem dinv_step (big : ℚ) {eh : Nat → Nat} {dc : CTbl} (he : ∀ sy, eh sy = (dc sy).2) {maxBits nc : Nat} (hnc : 1 ≤ nc)
    {last : Int} {P : List (DCInp ℚ)} {c : Col ℚ} {cs : List (Col ℚ)} (h : DInv dc maxBits nc last P c cs) (I : DCInp ℚ) :
    DInv dc maxBits nc last (P ++ [I])
      ⟨dcCand maxBits nc I, fun k => (dcColumn (ratOps big) eh nc (dcCand maxBits nc I) I.dist c.cand c.cost k).1,
        fun k => (dcColumn (ratOps big) eh nc (dcCand maxBits nc I) I.dist c.cand c.cost k).2⟩ (c :: cs) := by
  have spec := dcColumn_spec big eh dc he nc hnc (dcCand maxBits nc I) I.dist c.cand c.cost
  constructor
  · intro k hk
    obtain ⟨s1, s2, s3⟩ := spec k
    rw [dcBack, dcBack_acc]
    simp only
    obtain ⟨p1, p2, p3⟩ := h.path _ s1
    refine ⟨List.rel_append p1 (.cons ⟨k, hk, rfl⟩ .nil), ?_, by simp [List.getLastD_eq_getLast?]⟩
    rw [dcTotal_snoc dc I _ P _ last p1.length_eq, p2, p3, s2]
    ring
  · intro ds hds
    obtain ⟨ds', d, rfl⟩ : ∃ ds' d, ds = ds' ++ [d] := by
      rcases List.eq_nil_or_concat ds with e | ⟨a, b, e⟩
      · subst e
        have := hds.length_eq
        simp at this
      · exact ⟨a, b, by simpa using e⟩
    have hlen : P.length = ds'.length := by
      have := hds.length_eq
      simpa using this
    have h12 : List.Forall₂ (isC maxBits nc) P ds' ∧ isC maxBits nc I d := by
      constructor
      · have := List.forall₂_take P.length hds
        rw [List.take_left' rfl, hlen, List.take_left' rfl] at this
        exact this
      · have := List.forall₂_drop P.length hds
        rw [List.drop_left' rfl, hlen, List.drop_left' rfl] at this
        cases this with
        | cons h _ => exact h
    obtain ⟨k, hk, rfl⟩ := h12.2
    obtain ⟨l, hl, e, hc⟩ := h.best ds' h12.1
    refine ⟨k, hk, by simp [List.getLastD_eq_getLast?], ?_⟩
    rw [dcTotal_snoc dc I _ P _ last hlen, e]
    have := (spec k).2.2 l hl
    simp only at this ⊢
    linarith

theorem dcColumns_inv (big : ℚ) {eh : Nat → Nat} {dc : CTbl} (he : ∀ sy, eh sy = (dc sy).2) {maxBits nc : Nat} (hnc : 1 ≤ nc)
    {last : Int} : ∀ (Is : List (DCInp ℚ)) (P : List (DCInp ℚ)) (c : Col ℚ) (cs : List (Col ℚ)),
    DInv dc maxBits nc last P c cs → ∃ c' cs', dcColumns (ratOps big) eh maxBits nc Is c cs = c' :: cs' ∧
      DInv dc maxBits nc last (P ++ Is) c' cs' := by
  intro Is
  induction Is with
  | nil => intro P c cs h; exact ⟨c, cs, rfl, by simpa using h⟩
  | cons I Is ih =>
    intro P c cs h
    obtain ⟨c', cs', e, h'⟩ := ih _ _ _ (dinv_step big he hnc h I)
    refine ⟨c', cs', ?_, by simpa using h'⟩
    rw [dcColumns]
    exact e

/-- **C40.**  Exact arithmetic.  The DC values chosen for a row of blocks (num_candidates = 2·half+1) are candidates, and
no sequence of candidates has a smaller sum of weighted error and Huffman bits of the DC differences. -/
theorem dc_trellis_optimal (big : ℚ) (eh : Nat → Nat) (dc : CTbl) (he : ∀ sy, eh sy = (dc sy).2) (maxBits half : Nat)
    (hm : 1 ≤ maxBits) (last : Int) (I : DCInp ℚ) (Is : List (DCInp ℚ)) :
    let ds := dcRow (ratOps big) eh maxBits (2 * half + 1) last I Is
    List.Forall₂ (dcCandidate maxBits half) (I :: Is) ds ∧
    ∀ ws, List.Forall₂ (dcCandidate maxBits half) (I :: Is) ws → dcTotal dc last (I :: Is) ds ≤ dcTotal dc last (I :: Is) ws := by
  have hrel : (dcCandidate maxBits half) = isC maxBits (2 * half + 1) := by
    funext J d
    exact propext (isC_iff hm).symm
  simp only [hrel]
  have h0 : DInv dc maxBits (2 * half + 1) last [I] ⟨dcCand maxBits (2 * half + 1) I,
      fun k => dcCost (ratOps big) eh (I.dist (dcCand maxBits (2 * half + 1) I k)) (dcCand maxBits (2 * half + 1) I k - last), fun _ => 0⟩ [] := by
    constructor
    · intro k hk
      refine ⟨.cons ⟨k, hk, rfl⟩ .nil, ?_, rfl⟩
      simp only [dcBack, dcTotal, dcCost_eq big eh dc he]
      ring
    · intro ds hds
      cases hds with
      | @cons _ d _ _ h1 h2 =>
        cases h2
        obtain ⟨k, hk, rfl⟩ := h1
        refine ⟨k, hk, rfl, ?_⟩
        simp only [dcTotal, dcCost_eq big eh dc he]
        linarith
  obtain ⟨c, cs, e, h⟩ := dcColumns_inv big he (by omega) Is [I] _ [] h0
  unfold dcRow
  simp only [e]
  obtain ⟨b1, b2⟩ := dcBest_spec big (2 * half + 1) (by omega) c.cost
  obtain ⟨p1, p2, -⟩ := h.path _ b1
  refine ⟨p1, ?_⟩
  intro ws hws
  obtain ⟨k, hk, -, hc⟩ := h.best ws hws
  have := b2 k hk
  simp only [List.cons_append, List.nil_append] at p2 hc
  linarith

/-- `get_num_dc_trellis_candidates` always gives an odd number between 3 and 9. -/
theorem numCand_odd (quantval : Nat) : ∃ half, 1 ≤ half ∧ half ≤ 4 ∧ numCand quantval = 2 * half + 1 := by
  unfold numCand
  generalize 60 / quantval = d
  have h1 : (2 + d) ||| 1 = 2 * ((2 + d) / 2) + 1 := by
    apply Nat.eq_of_testBit_eq
    intro i
    cases i with
    | zero => simp [Nat.testBit_or]
    | succ i =>
      rw [Nat.testBit_or, Nat.testBit_succ, Nat.testBit_succ, Nat.testBit_succ]
      rw [show (2 * ((2 + d) / 2) + 1) / 2 = (2 + d) / 2 by omega]
      simp
  rw [h1]
  by_cases h : (2 + d) / 2 ≤ 4
  · exact ⟨(2 + d) / 2, by omega, h, by omega⟩
  · exact ⟨4, by omega, by omega, by omega⟩

/-- Three blocks; the middle one is pulled one step towards its neighbours, from 3 to 2, saving bits. -/
example : dcRow (ratOps 1000) (fun b => 2 + b) 11 3 0
    ⟨20, false, 10, fun d => ((d - 2) ^ 2 : ℚ)⟩ [⟨30, false, 10, fun d => ((d - 3) ^ 2 : ℚ)⟩, ⟨20, false, 10, fun d => ((d - 2) ^ 2 : ℚ)⟩]
    = [2, 2, 2] := by decide +kernel

end Verif.Trellis
