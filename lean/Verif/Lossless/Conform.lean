import Verif.Lossless.Rows
/-
The differences the compressor codes are those of ITU-T T.81 Annex H.1.2 (so a decoder of another make that follows the
standard also restores the image): initial prediction 2^(P-Pt-1) at the start of the scan and of every restart interval,
left neighbour along the rest of that row, upper neighbour in the first column, the selected predictor elsewhere.
-/
namespace Verif.Lossless

/-- T.81 Table H.1: predictor `psv` from the neighbours left (a), above (b), above-left (c); `/ 2` rounds down. -/
def stdPredictor (psv : Nat) (a b c : Int) : Int :=
  if psv = 1 then a else if psv = 2 then b else if psv = 3 then c else if psv = 4 then a + b - c
  else if psv = 5 then a + (b - c) / 2 else if psv = 6 then b + (a - c) / 2 else (a + b) / 2

/-- T.81 H.1.2.1: the prediction for sample `x` of row `y` of a component with samples `s y x` (after the point
transform); a new line of prediction starts at row 0 and, with a restart interval of `k` rows, at every multiple of `k`. -/
def stdPrediction (P Pt psv k : Nat) (s : Nat → Nat → Int) (y x : Nat) : Int :=
  if y = 0 ∨ (k ≠ 0 ∧ y % k = 0) then (if x = 0 then 2 ^ (P - Pt - 1) else s y (x - 1))
  else if x = 0 then s (y - 1) 0
  else stdPredictor psv (s y (x - 1)) (s (y - 1) x) (s (y - 1) (x - 1))

theorem pred_std {psv : Nat} (h : 1 ≤ psv ∧ psv ≤ 7) (a b c : Int) : pred psv a b c = stdPredictor psv a b c := by
  obtain rfl | rfl | rfl | rfl | rfl | rfl | rfl :
    psv = 1 ∨ psv = 2 ∨ psv = 3 ∨ psv = 4 ∨ psv = 5 ∨ psv = 6 ∨ psv = 7 := by omega
  all_goals simp [pred, stdPredictor, Int.shiftRight_eq_div_pow]

theorem diffLoop1_get (ss : List Int) : ∀ (Ra : Int) (x : Nat), x < ss.length →
    (diffLoop1 Ra ss).getD x 0 = ss.getD x 0 - (if x = 0 then Ra else ss.getD (x - 1) 0) := by
  induction ss with
  | nil => intro _ x h; simp at h
  | cons s ss ih =>
    intro Ra x h
    cases x with
    | zero => simp [diffLoop1, pred]
    | succ x =>
      simp only [diffLoop1, List.getD_cons_succ]
      rw [ih s x (by simpa using h)]
      cases x <;> simp

theorem diff1D_get (p0 : Int) (ss : List Int) (x : Nat) (h : x < ss.length) :
    (diff1D p0 ss).getD x 0 = ss.getD x 0 - (if x = 0 then p0 else ss.getD (x - 1) 0) := by
  cases ss with
  | nil => simp at h
  | cons s ss =>
    cases x with
    | zero => simp [diff1D]
    | succ x =>
      simp only [diff1D, List.getD_cons_succ]
      rw [diffLoop1_get ss s x (by simpa using h)]
      cases x <;> simp

theorem diffLoop2_get (psv : Nat) (ps : List Int) : ∀ (ss : List Int) (Ra Rb : Int) (x : Nat), x < ss.length →
    ps.length = ss.length →
    (diffLoop2 psv Ra Rb ps ss).getD x 0 = ss.getD x 0 -
      (if x = 0 then pred psv Ra (ps.getD 0 0) Rb
       else pred psv (ss.getD (x - 1) 0) (ps.getD x 0) (ps.getD (x - 1) 0)) := by
  induction ps with
  | nil => intro ss Ra Rb x h hl; simp at hl; omega
  | cons rb ps ih =>
    intro ss Ra Rb x h hl
    cases ss with
    | nil => simp at h
    | cons s ss =>
      cases x with
      | zero => simp [diffLoop2]
      | succ x =>
        simp only [diffLoop2, List.getD_cons_succ]
        rw [ih ss s rb x (by simpa using h) (by simpa using hl)]
        cases x <;> simp

theorem diff2D_get (psv : Nat) (ps ss : List Int) (x : Nat) (h : x < ss.length) (hl : ps.length = ss.length) :
    (diff2D psv ps ss).getD x 0 = ss.getD x 0 -
      (if x = 0 then ps.getD 0 0 else pred psv (ss.getD (x - 1) 0) (ps.getD x 0) (ps.getD (x - 1) 0)) := by
  cases ps with
  | nil => simp at hl; omega
  | cons rb ps =>
    cases ss with
    | nil => simp at h
    | cons s ss =>
      cases x with
      | zero => simp [diff2D, pred]
      | succ x =>
        simp only [diff2D, List.getD_cons_succ]
        rw [diffLoop2_get psv ps ss s rb x (by simpa using h) (by simpa using hl)]
        cases x <;> simp

/-- A new line of prediction starts at row `y`. -/
def first (k y : Nat) : Prop := y = 0 ∨ (k ≠ 0 ∧ y % k = 0)

instance (k y : Nat) : Decidable (first k y) := inferInstanceAs (Decidable (_ ∨ _))

/-- The compressor's state of one component before row `y`, in terms of the samples. -/
structure At (p : LPar) (k y : Nat) (prev : List Int) (e : ECmp) : Prop where
  meth : e.meth = if first k y then 0 else p.Ss
  togo : k ≠ 0 → e.togo = k - y % k
  prev : ¬ first k y → e.prev = scaled p.Al prev

theorem At.row {p : LPar} {k y : Nat} {prev : List Int} {e : ECmp} (h : At p k y prev e) (hSs : 1 ≤ p.Ss ∧ p.Ss ≤ 7)
    {row : List Int} (hl : row.length = p.w) (hlp : ¬ first k y → prev.length = p.w) {x : Nat} (hx : x < p.w) :
    (diffRow p.P p.Al p.Ss p.ri p.w e row).1.getD x 0 = (scaled p.Al row).getD x 0 -
      (if first k y then (if x = 0 then 2 ^ (p.P - p.Al - 1) else (scaled p.Al row).getD (x - 1) 0)
       else if x = 0 then (scaled p.Al prev).getD 0 0
       else stdPredictor p.Ss ((scaled p.Al row).getD (x - 1) 0) ((scaled p.Al prev).getD x 0)
         ((scaled p.Al prev).getD (x - 1) 0)) := by
  have hd : (diffRow p.P p.Al p.Ss p.ri p.w e row).1 = diffBy p.P p.Al e.meth e.prev (scaled p.Al row) := by
    unfold diffRow
    dsimp only
    rw [scaled_eq]
  have hlen : (scaled p.Al row).length = p.w := by simp [scaled, hl]
  rw [hd, h.meth]
  unfold diffBy
  by_cases hf : first k y
  · simp only [hf, if_true]
    rw [diff1D_get _ _ _ (by omega)]
    rfl
  · have hlen' : (scaled p.Al prev).length = p.w := by simp [scaled, hlp hf]
    simp only [hf, if_false]
    rw [if_neg (by omega), h.prev hf]
    by_cases h1 : p.Ss = 1
    · rw [if_pos h1, diff1D_get _ _ _ (by omega), h1]
      rfl
    · rw [if_neg h1, diff2D_get _ _ _ _ (by omega) (by omega), pred_std hSs]

theorem At.next {p : LPar} {k y : Nat} {prev : List Int} {e : ECmp} (h : At p k y prev e) (hSs : 1 ≤ p.Ss ∧ p.Ss ≤ 7)
    (hw : 0 < p.w) (hri : p.ri = k * p.w) (hk : k < 2 ^ 32) (row : List Int) :
    At p k (y + 1) row (diffRow p.P p.Al p.Ss p.ri p.w e row).2 := by
  have hdiv : p.ri / p.w = k := by rw [hri, Nat.mul_div_cancel _ hw]
  have hnm : nextMeth p.Ss = p.Ss := by unfold nextMeth; rw [if_pos hSs]
  have hm : (if e.meth = 0 then nextMeth p.Ss else e.meth) = p.Ss := by
    rw [h.meth, hnm]
    by_cases hf : first k y
    · simp [hf]
    · simp only [hf, if_false]; rw [if_neg (by omega)]
  unfold diffRow
  simp only [scaled_eq, hm]
  by_cases hk0 : k = 0
  · have hr0 : p.ri = 0 := by rw [hri, hk0]; simp
    have hf : ¬ first k (y + 1) := by unfold first; omega
    simp only [hr0, ne_eq, not_true_eq_false, false_and, if_false]
    exact ⟨by simp only [hf, if_false], fun h => absurd hk0 h, fun _ => rfl⟩
  · have hr0 : p.ri ≠ 0 := by rw [hri]; exact Nat.mul_ne_zero hk0 (by omega)
    have hlt := Nat.mod_lt y (Nat.pos_of_ne_zero hk0)
    have hmod : (e.togo + (2 ^ 32 - 1)) % 2 ^ 32 = k - y % k - 1 := by
      rw [h.togo hk0]; omega
    simp only [hr0, ne_eq, not_false_eq_true, true_and, if_true, hmod, hdiv]
    by_cases h1 : k - y % k - 1 = 0
    · have e1 : (y + 1) % k = 0 := by
        have := Nat.div_add_mod y k
        have e : y + 1 = k * (y / k + 1) := by rw [Nat.mul_add]; omega
        rw [e]; exact Nat.mul_mod_right _ _
      rw [if_pos h1]
      have hf : first k (y + 1) := Or.inr ⟨hk0, e1⟩
      refine ⟨by simp only [hf, if_true], fun _ => ?_, fun h => absurd hf h⟩
      rw [e1]; rfl
    · have e1 : (y + 1) % k = y % k + 1 := by
        rw [Nat.add_mod]
        by_cases hk1 : k = 1
        · subst hk1; omega
        · rw [Nat.mod_eq_of_lt (show 1 < k by omega), Nat.mod_eq_of_lt (by omega)]
      rw [if_neg h1]
      have hf : ¬ first k (y + 1) := by unfold first; rw [e1]; omega
      refine ⟨by simp only [hf, if_false], fun _ => ?_, fun _ => rfl⟩
      dsimp only
      rw [e1]; omega

theorem encDiffs_get {p : LPar} {k : Nat} (hSs : 1 ≤ p.Ss ∧ p.Ss ≤ 7) (hw : 0 < p.w) (hri : p.ri = k * p.w)
    (hk : k < 2 ^ 32) (n : Nat) (c : Nat) (hc : c < n) (x : Nat) (hx : x < p.w) (rows : List (List (List Int))) :
    ∀ (y0 : Nat) (prev : List Int) (st : List ECmp), st.length = n →
      (∀ row ∈ rows, row.length = n ∧ ∀ r ∈ row, r.length = p.w) → (¬ first k y0 → prev.length = p.w) →
      (∀ e, st[c]? = some e → At p k y0 prev e) → ∀ y < rows.length,
      (((encDiffs p rows st).getD y []).getD x []).getD c 0 =
        (scaled p.Al ((rows.getD y []).getD c [])).getD x 0 -
          (let cur := scaled p.Al ((rows.getD y []).getD c [])
           let up := scaled p.Al (if y = 0 then prev else ((rows.getD (y - 1) []).getD c []))
           if first k (y0 + y) then (if x = 0 then 2 ^ (p.P - p.Al - 1) else cur.getD (x - 1) 0)
           else if x = 0 then up.getD 0 0
           else stdPredictor p.Ss (cur.getD (x - 1) 0) (up.getD x 0) (up.getD (x - 1) 0)) := by
  induction rows with
  | nil => intro _ _ _ _ _ _ _ y h; simp at h
  | cons row rows ih =>
    intro y0 prev st hn hG hp hA y hy
    obtain ⟨hrn, hrl⟩ := hG row (by simp)
    have hcs : c < st.length := by omega
    have hcr : c < row.length := by omega
    have ha := hA st[c] (List.getElem?_eq_getElem hcs)
    have hrlc : row[c].length = p.w := hrl _ (List.getElem_mem hcr)
    cases y with
    | zero =>
      simp only [encDiffs, List.getD_cons_zero, Nat.add_zero, if_true]
      have e1 : row.getD c [] = row[c] := by
        rw [List.getD_eq_getElem?_getD, List.getElem?_eq_getElem hcr]; rfl
      have e2 : ((toMcus p.w ((List.zipWith (diffRow p.P p.Al p.Ss p.ri p.w) st row).map Prod.fst)).getD x []).getD c 0 =
          (diffRow p.P p.Al p.Ss p.ri p.w st[c] row[c]).1.getD x 0 := by
        unfold toMcus
        rw [List.getD_eq_getElem?_getD, List.getD_eq_getElem?_getD, List.getElem?_map, List.getElem?_range hx]
        simp only [Option.map_some, Option.getD_some]
        rw [List.getElem?_map, List.getElem?_map, List.getElem?_zipWith,
          List.getElem?_eq_getElem hcs, List.getElem?_eq_getElem hcr]
        rfl
      rw [e2, e1, ha.row hSs hrlc hp hx]
    | succ y =>
      simp only [encDiffs, List.getD_cons_succ]
      have := ih (y0 + 1) row[c] ((List.zipWith (diffRow p.P p.Al p.Ss p.ri p.w) st row).map Prod.snd)
        (by simp; omega) (fun r hr => hG r (by simp [hr])) (fun _ => hrlc) (by
          intro e he
          rw [List.getElem?_map, List.getElem?_zipWith, List.getElem?_eq_getElem hcs, List.getElem?_eq_getElem hcr] at he
          simp only [Option.map_some, Option.some.injEq] at he
          rw [← he]
          exact ha.next hSs hw hri hk row[c]) y (by simpa using hy)
      rw [this]
      have e1 : row.getD c [] = row[c] := by
        rw [List.getD_eq_getElem?_getD, List.getElem?_eq_getElem hcr]; rfl
      have e3 : y0 + 1 + y = y0 + (y + 1) := by omega
      rw [e3]
      cases y with
      | zero => simp only [if_true, Nat.zero_add, if_neg (show (1:Nat) ≠ 0 by omega), Nat.sub_self, List.getD_cons_zero, e1]
      | succ y =>
        simp only [if_neg (show (y + 1 : Nat) ≠ 0 by omega), if_neg (show (y + 1 + 1 : Nat) ≠ 0 by omega),
          Nat.add_sub_cancel, List.getD_cons_succ]

/-- **C03, conformance of the compressor**: the difference coded for sample (x, y) of component `c` is the sample after
the point transform minus the prediction of T.81 Annex H. -/
theorem diffs_conform (p : LPar) (hSs : 1 ≤ p.Ss ∧ p.Ss ≤ 7) (hw : 0 < p.w) (hri : p.ri % p.w = 0 ∧ p.ri < 2 ^ 32)
    (rows : List (List (List Int))) (hG : ∀ row ∈ rows, row.length = p.tbls.length ∧ ∀ r ∈ row, r.length = p.w)
    (c x y : Nat) (hc : c < p.tbls.length) (hx : x < p.w) (hy : y < rows.length) :
    (((encDiffs p rows p.startC).getD y []).getD x []).getD c 0 =
      (((rows.getD y []).getD c []).getD x 0) / 2 ^ p.Al -
        stdPrediction p.P p.Al p.Ss (p.ri / p.w)
          (fun y x => (((rows.getD y []).getD c []).getD x 0) / 2 ^ p.Al) y x := by
  have hri' : p.ri = p.ri / p.w * p.w := by
    have := Nat.div_add_mod p.ri p.w
    rw [hri.1] at this
    rw [Nat.mul_comm]; omega
  have hsc : ∀ (l : List Int) (i : Nat), (scaled p.Al l).getD i 0 = l.getD i 0 / 2 ^ p.Al := by
    intro l i
    unfold scaled
    rw [List.getD_eq_getElem?_getD, List.getD_eq_getElem?_getD, List.getElem?_map]
    cases l[i]? with
    | none => simp
    | some v => simp [Int.shiftRight_eq_div_pow]
  have h := encDiffs_get hSs hw hri' (Nat.lt_of_le_of_lt (Nat.div_le_self _ _) hri.2) p.tbls.length c hc x hx rows 0 []
    p.startC (by simp [LPar.startC]) hG (fun h => absurd (Or.inl rfl) h) (by
      intro e he
      unfold LPar.startC at he
      rw [List.getElem?_map] at he
      cases h : p.tbls[c]? with
      | none => rw [h] at he; simp at he
      | some t =>
        rw [h] at he
        simp only [Option.map_some, Option.some.injEq] at he
        subst he
        refine ⟨?_, fun _ => by simp [ECmp.reset], fun h => absurd (Or.inl rfl) h⟩
        simp [first, ECmp.reset]) y hy
  rw [h]
  simp only [hsc, Nat.zero_add]
  unfold stdPrediction first
  by_cases hf : y = 0 ∨ (p.ri / p.w ≠ 0 ∧ y % (p.ri / p.w) = 0)
  · simp only [hf, if_true]
  · have hy0 : y ≠ 0 := fun h => hf (Or.inl h)
    simp only [hf, if_false, if_neg hy0]

/-- The hypotheses hold for a 3 x 4 two-component example; the difference at row 2 (start of a restart interval of two
rows), column 1, and at row 3, column 2, predictor 5. -/
example : (((encDiffs ⟨8, 5, 1, 6, 3, [0, 1]⟩ [[[1, 2, 3], [9, 9, 9]], [[10, 20, 30], [0, 1, 2]], [[100, 90, 80], [1, 1, 1]],
      [[50, 60, 71], [2, 4, 8]]] (LPar.startC ⟨8, 5, 1, 6, 3, [0, 1]⟩)).getD 3 []).getD 2 []).getD 0 0 =
    35 - (30 + (40 - 45) / 2) := by
  have := diffs_conform ⟨8, 5, 1, 6, 3, [0, 1]⟩ (by decide) (by decide) (by decide) [[[1, 2, 3], [9, 9, 9]], [[10, 20, 30], [0, 1, 2]],
    [[100, 90, 80], [1, 1, 1]], [[50, 60, 71], [2, 4, 8]]] (by decide) 0 2 3 (by decide) (by decide) (by decide)
  rw [this]
  decide

end Verif.Lossless
