import Verif.Samp.Up
/-
C22: upsampling.  Method selection of jinit_upsampler, and what every method produces for a row group.
-/
namespace Verif.Samp

/-- The per-component methods (jdsample.c:113-394). -/
inductive Method where
  | noop | fullsize | h2v1Fancy | h2v1 | h1v2Fancy | h2v2Fancy | h2v2
  | int (h v : Nat)
deriving DecidableEq, Repr

/-- Method selection in jinit_upsampler (jdsample.c:459-528), one component; `none` is JERR_FRACT_SAMPLE_NOTIMPL.  `fancy` is do_fancy (jdsample.c:442).
SIMD variants are not modelled. -/
def selectMethod (needed fancy : Bool) (hin vin hout vout dw : Nat) : Option Method :=
  if ¬ needed then some .noop
  else if hin = hout ∧ vin = vout then some .fullsize
  else if hin * 2 = hout ∧ vin = vout then
    if fancy ∧ dw > 2 then some .h2v1Fancy else some .h2v1
  else if hin = hout ∧ vin * 2 = vout ∧ fancy then some .h1v2Fancy
  else if hin * 2 = hout ∧ vin * 2 = vout then
    if fancy ∧ dw > 2 then some .h2v2Fancy else some .h2v2
  else if hout % hin = 0 ∧ vout % vin = 0 then some (.int (hout / hin % 256) (vout / vin % 256))
  else none

/-- do_fancy (jdsample.c:442): `minSize` is min_DCT_scaled_size. -/
def doFancy (doFancyUpsampling : Bool) (minSize : Nat) : Bool := doFancyUpsampling && decide (minSize > 1)

/-- The methods that read the row above and the row below the group (pub.need_context_rows, jdsample.c:497, 510). -/
def Method.context : Method → Bool
  | .h1v2Fancy | .h2v2Fancy => true
  | _ => false

/-- Running a method on a row group: `rows r` is the row at index r relative to the first row of the group, `vin` the rows of the group, `ow` = output_width, `vout` = max_v_samp_factor.
`fullsize` hands over the input rows (jdsample.c:127-132), `noop` nothing. -/
def Method.run (m : Method) (vin dw ow vout : Nat) (rows : Int → List Nat) : Option (List (List Nat)) :=
  let group := (List.range vin).map (fun r : Nat => rows r)
  match m with
  | .noop => some []
  | .fullsize => some group
  | .h2v1Fancy => Samp.h2v1Fancy dw vout group
  | .h2v1 => h2v1Upsample ow vout group
  | .h1v2Fancy => Samp.h1v2Fancy dw vout rows
  | .h2v2Fancy => Samp.h2v2Fancy dw vout rows
  | .h2v2 => h2v2Upsample ow vout group
  | .int h v => intUpsample h v ow vout group

/-! ### rows -/

theorem boxRow_spec {h ow : Nat} (hh : 0 < h) {row : List Nat} (hr : (ow + h - 1) / h ≤ row.length) :
    ∃ out, boxRow h ow row = some out ∧ out.length = (ow + h - 1) / h * h ∧ ∀ x, x < out.length → out[x]? = some (row.getD (x / h) 0) := by
  obtain ⟨out, e1, e2, e3⟩ := boxLoop_spec hh hr ow 0 0 (by simp) (by omega)
  refine ⟨out, e1, by simpa using e2, ?_⟩
  intro x hx
  have : x / h < row.length := by
    rw [Nat.sub_zero] at e2
    have : x / h < (ow + h - 1) / h := by rw [Nat.div_lt_iff_lt_mul hh]; omega
    omega
  rw [e3 x hx, Nat.zero_add, List.getD_eq_getElem?_getD, List.getElem?_eq_getElem this]
  rfl

theorem pairRow_spec {ow : Nat} {row : List Nat} (hr : (ow + 1) / 2 ≤ row.length) :
    ∃ out, pairRow ow row = some out ∧ out.length = (ow + 1) / 2 * 2 ∧ ∀ x, x < out.length → out[x]? = some (row.getD (x / 2) 0) := by
  unfold pairRow
  rw [pairLoop_eq]
  exact boxRow_spec (by omega) hr

theorem mapM_range {α : Type} (f : Nat → Option α) (n : Nat) (P : Nat → α → Prop) (h : ∀ r, r < n → ∃ a, f r = some a ∧ P r a) :
    ∃ out, (List.range n).mapM f = some out ∧ out.length = n ∧ ∀ r, r < n → ∃ a, out[r]? = some a ∧ P r a := by
  induction n with
  | zero => exact ⟨[], rfl, rfl, by omega⟩
  | succ n ih =>
    obtain ⟨out, e1, e2, e3⟩ := ih (fun r hr => h r (by omega))
    obtain ⟨a, ha, hp⟩ := h n (by omega)
    refine ⟨out ++ [a], ?_, by simp [e2], ?_⟩
    · rw [List.range_succ, List.mapM_append, e1]
      simp [ha]
    · intro r hr
      by_cases hrn : r = n
      · subst hrn
        exact ⟨a, by rw [List.getElem?_append_right (by omega)]; simp [e2], hp⟩
      · obtain ⟨b, hb, hq⟩ := e3 r (by omega)
        exact ⟨b, by rw [List.getElem?_append_left (by omega), hb], hq⟩

/-- The outer loop of the replicating methods. -/
theorem boxGroup_spec {h v ow maxV : Nat} (hh : 0 < h) (hv : 0 < v) {rows : List (List Nat)} {vin : Nat} (hvin : vin * v = maxV) (hl : vin = rows.length)
    (hr : ∀ r ∈ rows, (ow + h - 1) / h ≤ r.length) : ∀ (k i o : Nat), o = i * v → maxV ≤ o + k →
    ∃ out, boxGroup h v ow maxV rows k i o = some out ∧ out.length = (vin - i) * v ∧ ∀ y, y < out.length → ∃ row, out[y]? = some row ∧
      ow ≤ row.length ∧ row.length ≤ (ow + h - 1) / h * h ∧ ∀ x, x < row.length → row[x]? = some ((rows.getD (i + y / v) []).getD (x / h) 0) := by
  intro k
  induction k with
  | zero =>
    intro i o ho hk
    have : vin ≤ i := by
      rcases Nat.lt_or_ge i vin with h | h
      · have := Nat.mul_le_mul_right v (show i + 1 ≤ vin from h)
        rw [Nat.succ_mul] at this; omega
      · exact h
    exact ⟨[], rfl, by simp [show vin - i = 0 by omega], by simp⟩
  | succ k ih =>
    intro i o ho hk
    unfold boxGroup
    by_cases hlt : o < maxV
    · rw [if_pos hlt]
      have hi : i < vin := by
        rcases Nat.lt_or_ge i vin with h | h
        · exact h
        · have := Nat.mul_le_mul_right v h; omega
      have hil : i < rows.length := by omega
      obtain ⟨r0, f1, f2, f3⟩ := boxRow_spec hh (hr rows[i] (List.getElem_mem hil))
      obtain ⟨out, e1, e2, e3⟩ := ih (i + 1) (o + v) (by rw [ho, Nat.succ_mul]) (by omega)
      have hlow : ow ≤ (ow + h - 1) / h * h := by
        have h1 := Nat.div_add_mod (ow + h - 1) h
        have h2 := Nat.mod_lt (ow + h - 1) hh
        rw [Nat.mul_comm] at h1
        omega
      have hgr : rows.getD i [] = rows[i] := by rw [List.getD_eq_getElem?_getD, List.getElem?_eq_getElem hil]; rfl
      refine ⟨r0 :: List.replicate (v - 1) (r0.take ow) ++ out, by simp [hil, f1, e1], ?_, ?_⟩
      · simp only [List.length_append, List.length_cons, List.length_replicate, e2]
        have : vin - i = vin - (i + 1) + 1 := by omega
        rw [this, Nat.succ_mul]; omega
      · intro y hy
        by_cases hyv : y < v
        · rw [List.getElem?_append_left (by simp; omega), Nat.div_eq_of_lt hyv, Nat.add_zero, hgr]
          cases y with
          | zero => exact ⟨r0, rfl, by omega, by omega, fun x hx => f3 x hx⟩
          | succ y =>
            refine ⟨r0.take ow, by simp [List.getElem?_replicate]; omega, by simp; omega, by simp; omega, ?_⟩
            intro x hx
            simp only [List.length_take] at hx
            rw [List.getElem?_take, if_pos (by omega)]
            exact f3 x (by omega)
        · rw [List.getElem?_append_right (by simp; omega)]
          simp only [List.length_append, List.length_cons, List.length_replicate] at hy ⊢
          obtain ⟨row, g1, g2, g3, g4⟩ := e3 (y - v) (by omega)
          rw [show y - (v - 1 + 1) = y - v by omega]
          refine ⟨row, g1, g2, g3, ?_⟩
          have : y / v = (y - v) / v + 1 := by
            conv => lhs; rw [show y = (y - v) + v by omega, Nat.add_div_right _ hv]
          rw [this, show i + ((y - v) / v + 1) = i + 1 + (y - v) / v by omega]
          exact g4
    · rw [if_neg hlt]
      have : vin ≤ i := by
        rcases Nat.lt_or_ge i vin with h | h
        · have := Nat.mul_le_mul_right v (show i + 1 ≤ vin from h)
          rw [Nat.succ_mul] at this; omega
        · exact h
      exact ⟨[], rfl, by simp [show vin - i = 0 by omega], by simp⟩

theorem h2v2Group_eq (ow maxV : Nat) (rows : List (List Nat)) : ∀ k i o, h2v2Group ow maxV rows k i o = boxGroup 2 2 ow maxV rows k i o := by
  intro k
  induction k with
  | zero => intro i o; rfl
  | succ k ih =>
    intro i o
    unfold h2v2Group boxGroup pairRow boxRow
    simp only [pairLoop_eq, ih]
    rfl

theorem vLoop_spec {rows : Int → List Nat} {one : List Nat → List Nat → Nat → Option (List Nat)} {maxV vin : Nat} (hv : vin * 2 = maxV) (P : Nat → Nat → List Nat → Prop)
    (h0 : ∀ r : Nat, r < vin → ∃ a, one (rows r) (rows (r - 1)) 0 = some a ∧ P r 0 a)
    (h1 : ∀ r : Nat, r < vin → ∃ a, one (rows r) (rows (r + 1)) 1 = some a ∧ P r 1 a) : ∀ (k i o : Nat), o = i * 2 → maxV ≤ o + k →
    ∃ out, vLoop rows one maxV k i o = some out ∧ out.length = (vin - i) * 2 ∧ ∀ y, y < out.length → ∃ row, out[y]? = some row ∧ P (i + y / 2) (y % 2) row := by
  intro k
  induction k with
  | zero => intro i o ho hk; exact ⟨[], rfl, by simp; omega, by simp⟩
  | succ k ih =>
    intro i o ho hk
    unfold vLoop
    by_cases hlt : o < maxV
    · rw [if_pos hlt]
      obtain ⟨a, ea, pa⟩ := h0 i (by omega)
      obtain ⟨b, eb, pb⟩ := h1 i (by omega)
      obtain ⟨out, e1, e2, e3⟩ := ih (i + 1) (o + 2) (by omega) (by omega)
      refine ⟨a :: b :: out, by simp [ea, eb, e1], by simp [e2]; omega, ?_⟩
      intro y hy
      match y, hy with
      | 0, _ => exact ⟨a, rfl, pa⟩
      | 1, _ => exact ⟨b, rfl, pb⟩
      | y + 2, hy =>
        obtain ⟨row, g1, g2⟩ := e3 y (by simp at hy; omega)
        refine ⟨row, by simpa using g1, ?_⟩
        rw [show i + (y + 2) / 2 = i + 1 + y / 2 by omega, show (y + 2) % 2 = y % 2 by omega]
        exact g2
    · rw [if_neg hlt]
      exact ⟨[], rfl, by simp; omega, by simp⟩

/-! ### the property -/

/-- Sample of the component at row r (relative to the group) and column c, columns beyond the edges repeating the first and the last of the `dw` real samples. -/
def px (dw : Nat) (rows : Int → List Nat) (r c : Int) : Nat := clampCol dw (rows r) c

/-- What output sample (y, x) of the group must be, for expansion factors `eh`, `ev`.  Replication: the covering input sample.  Triangle filters: the nearer sample weighs 3/4, the farther one 1/4,
in one direction or in both, with the rounding alternating between neighbours. -/
def Method.value (m : Method) (eh ev dw : Nat) (rows : Int → List Nat) (y x : Nat) : Nat :=
  let r : Int := (y / ev : Nat)
  let c : Int := (x / eh : Nat)
  let r' : Int := if y % 2 = 0 then r - 1 else r + 1
  let c' : Int := if x % 2 = 0 then c - 1 else c + 1
  match m with
  | .h2v1Fancy => (3 * px dw rows r c + px dw rows r c' + (if x % 2 = 0 then 1 else 2)) / 4
  | .h1v2Fancy => (3 * px dw rows r c + px dw rows r' c + (if y % 2 = 0 then 1 else 2)) / 4
  | .h2v2Fancy => (9 * px dw rows r c + 3 * px dw rows r' c + 3 * px dw rows r c' + px dw rows r' c' + (if x % 2 = 0 then 8 else 7)) / 16
  | _ => px dw rows r c

/-- What is known of a component when its upsampling method runs: the sampling factors are positive, its width is the image width divided by the horizontal expansion (rounded up), and the rows of
the group, with the neighbouring rows if the method asks for them, hold `dw` samples each. -/
structure Ready (m : Method) (hin vin hout vout dw ow : Nat) (rows : Int → List Nat) : Prop where
  hinPos : 0 < hin
  vinPos : 0 < vin
  houtPos : 0 < hout ∧ hout ≤ 4
  voutPos : 0 < vout ∧ vout ≤ 4
  pos : 0 < ow
  small : dw < 2 ^ 32
  width : dw = (ow + hout / hin - 1) / (hout / hin)
  rowsOk : ∀ r : Int, (if m.context then -1 else 0) ≤ r → r < vin + (if m.context then 1 else 0) → dw ≤ (rows r).length

theorem getD_group (rows : Int → List Nat) {vin r : Nat} (h : r < vin) : (((List.range vin).map (fun r : Nat => rows r))).getD r [] = rows r := by
  rw [List.getD_eq_getElem?_getD, List.getElem?_map, List.getElem?_range h]; rfl

theorem clamp_in {dw : Nat} {row : List Nat} {c : Nat} (h : c < dw) : clampCol dw row c = row.getD c 0 := by
  unfold clampCol; rw [Int.toNat_natCast, Nat.min_eq_left (by omega)]

theorem getElem?_group (rows : Int → List Nat) {vin r : Nat} (h : r < vin) : (((List.range vin).map (fun r : Nat => rows r)))[r]? = some (rows r) := by
  rw [List.getElem?_map, List.getElem?_range h]; rfl

/-- What a run must produce. -/
def Method.Produces (m : Method) (eh ev dw ow hout vout : Nat) (rows : Int → List Nat) (res : Option (List (List Nat))) : Prop :=
  ∃ out, res = some out ∧ out.length = vout ∧ ∀ y, y < vout → ∃ row, out[y]? = some row ∧ ow ≤ row.length ∧
    (m ≠ .fullsize → row.length ≤ (ow + hout - 1) / hout * hout) ∧ ∀ x, x < ow → row[x]? = some (m.value eh ev dw rows y x)

theorem roundup_dvd {ow n h : Nat} (hn : 0 < n) (hh : 0 < h) : (ow + n - 1) / n * n ≤ (ow + h * n - 1) / (h * n) * (h * n) := by
  have hm : 0 < h * n := Nat.mul_pos hh hn
  have a := Nat.div_add_mod (ow + h * n - 1) (h * n)
  have b := Nat.mod_lt (ow + h * n - 1) hm
  have : ow ≤ (ow + h * n - 1) / (h * n) * h * n := by
    rw [Nat.mul_assoc, Nat.mul_comm]; omega
  have c : (ow + n - 1) / n ≤ (ow + h * n - 1) / (h * n) * h := by
    rw [← Nat.lt_succ_iff, Nat.div_lt_iff_lt_mul hn, Nat.succ_mul]; omega
  have := Nat.mul_le_mul_right n c
  rw [Nat.mul_assoc] at this
  exact this

theorem boxed {m : Method} {h v hin vin hout vout dw ow : Nat} {rows : Int → List Nat} (hv : ∀ y x, m.value h v dw rows y x = px dw rows (y / v : Nat) (x / h : Nat))
    (h0 : 0 < h) (v0 : 0 < v) (hi0 : 0 < hin) (hh : hin * h = hout) (hvv : vin * v = vout) (hw : dw = (ow + h - 1) / h)
    (hr : ∀ r : Nat, r < vin → dw ≤ (rows r).length) :
    m.Produces h v dw ow hout vout rows (boxGroup h v ow vout ((List.range vin).map (fun r : Nat => rows r)) vout 0 0) := by
  obtain ⟨out, e1, e2, e3⟩ := boxGroup_spec (rows := (List.range vin).map (fun r : Nat => rows r)) h0 v0 hvv (by simp) (by
    intro r hr'
    obtain ⟨i, hi, rfl⟩ := List.mem_map.1 hr'
    rw [← hw]; exact hr i (List.mem_range.1 hi)) vout 0 0 (by simp) (by omega)
  rw [Nat.sub_zero, hvv] at e2
  refine ⟨out, e1, e2, ?_⟩
  intro y hy
  obtain ⟨row, f1, f2, f3, f4⟩ := e3 y (by omega)
  have hlen := roundup_dvd (ow := ow) h0 hi0
  rw [hh] at hlen
  refine ⟨row, f1, f2, fun _ => by omega, ?_⟩
  intro x hx
  rw [f4 x (by omega), hv, Nat.zero_add]
  have hyv : y / v < vin := by rw [Nat.div_lt_iff_lt_mul v0]; omega
  have hxh : x / h < dw := by
    rw [Nat.div_lt_iff_lt_mul h0, hw]; omega
  rw [getD_group _ hyv]
  unfold px
  rw [clamp_in hxh]

theorem list_split {P : Nat → Nat → Prop} {n : Nat} (h : ∀ i, i < n → P (2 * i) i ∧ P (2 * i + 1) i) : ∀ x, x < 2 * n → P x (x / 2) := by
  intro x hx
  have := h (x / 2) (by omega)
  rcases Nat.mod_two_eq_zero_or_one x with h0 | h0
  · have e : 2 * (x / 2) = x := by omega
    rw [e] at this; exact this.1
  · have e : 2 * (x / 2) + 1 = x := by omega
    rw [e] at this; exact this.2

/-- **C22: upsampling.**  For every component whose sampling factors are supported, the method chosen produces exactly max_v_samp_factor rows from a row group; every row holds at least
output_width samples and (unless the input rows are used directly) fits the conversion buffer, whose rows have output_width rounded up to a multiple of max_h_samp_factor; no sample outside the rows is read; and every one of the output_width
samples has the value given by replication or by the triangle filter. -/
theorem C22_upsample {fancy : Bool} {hin vin hout vout dw ow : Nat} {rows : Int → List Nat} {m : Method} (hm : selectMethod true fancy hin vin hout vout dw = some m)
    (hR : Ready m hin vin hout vout dw ow rows) :
    m.Produces (hout / hin) (vout / vin) dw ow hout vout rows (m.run vin dw ow vout rows) := by
  have hR' := hR
  obtain ⟨hi0, vi0, ⟨ho0, ho4⟩, ⟨vo0, vo4⟩, hpos, hsm, hw, hr⟩ := hR'
  have hself : ∀ {a : Nat}, 0 < a → a / a = 1 := fun h => Nat.div_self h
  have hdbl : ∀ {a : Nat}, 0 < a → a * 2 / a = 2 := fun h => Nat.mul_div_cancel_left 2 h
  unfold selectMethod at hm
  rw [if_neg (by simp)] at hm
  by_cases c1 : hin = hout ∧ vin = vout
  · rw [if_pos c1, Option.some.injEq] at hm
    obtain ⟨rfl, rfl⟩ := c1
    subst hm
    rw [hself hi0] at hw ⊢
    rw [hself vi0]
    simp only [Nat.div_one] at hw
    refine ⟨_, rfl, by simp, ?_⟩
    intro y hy
    have := hr y (by simp [Method.context]) (by simp [Method.context]; omega)
    refine ⟨rows y, getElem?_group _ hy, by omega, by simp, ?_⟩
    intro x hx
    have : x < (rows y).length := by omega
    simp only [Method.value, Nat.div_one, px]
    rw [clamp_in (by omega), List.getD_eq_getElem?_getD, List.getElem?_eq_getElem this]
    rfl
  rw [if_neg c1] at hm
  by_cases c2 : hin * 2 = hout ∧ vin = vout
  · rw [if_pos c2] at hm
    obtain ⟨rfl, rfl⟩ := c2
    rw [hdbl hi0] at hw ⊢
    rw [hself vi0]
    have hdw : dw = (ow + 1) / 2 := hw
    have hup := roundup_dvd (ow := ow) (n := 2) (by omega) hi0
    split at hm
    · rename_i hf
      rw [Option.some.injEq] at hm
      subst hm
      obtain ⟨out, e1, e2, e3⟩ := mapM_range (fun r => do let row ← ((List.range vin).map (fun r : Nat => rows r))[r]?; fancyRow dw row) vin
        (fun y row => row.length = 2 * dw ∧ ∀ x, x < ow → row[x]? = some (Method.h2v1Fancy.value 2 1 dw rows y x)) (by
        intro r hrv
        have hlen := hr r (by simp [Method.context]) (by simp [Method.context]; omega)
        obtain ⟨row, f1, f2, f3⟩ := fancyRow_spec (by omega) hsm hlen
        refine ⟨row, by rw [getElem?_group _ hrv]; exact f1, f2, ?_⟩
        intro x hx
        obtain ⟨a, b⟩ := f3 (x / 2) (by omega)
        simp only [Method.value, Nat.div_one, px]
        rcases Nat.mod_two_eq_zero_or_one x with h0 | h0
        · have e : 2 * (x / 2) = x := by omega
          rw [e] at a
          rw [a, if_pos h0, if_pos h0]
        · have e : 2 * (x / 2) + 1 = x := by omega
          rw [e] at b
          rw [b, if_neg (by omega), if_neg (by omega)])
      refine ⟨out, e1, e2, ?_⟩
      intro y hy
      obtain ⟨row, g1, g2, g3⟩ := e3 y hy
      exact ⟨row, g1, by omega, fun _ => by omega, g3⟩
    · rw [Option.some.injEq] at hm
      subst hm
      obtain ⟨out, e1, e2, e3⟩ := mapM_range (fun r => do let row ← ((List.range vin).map (fun r : Nat => rows r))[r]?; pairRow ow row) vin
        (fun y row => row.length = (ow + 1) / 2 * 2 ∧ ∀ x, x < ow → row[x]? = some (Method.h2v1.value 2 1 dw rows y x)) (by
        intro r hrv
        have hlen := hr r (by simp [Method.context]) (by simp [Method.context]; omega)
        obtain ⟨row, f1, f2, f3⟩ := pairRow_spec (ow := ow) (row := rows r) (by omega)
        refine ⟨row, by rw [getElem?_group _ hrv]; exact f1, f2, ?_⟩
        intro x hx
        simp only [Method.value, Nat.div_one, px]
        rw [f3 x (by omega), clamp_in (by omega)])
      refine ⟨out, e1, e2, ?_⟩
      intro y hy
      obtain ⟨row, g1, g2, g3⟩ := e3 y hy
      exact ⟨row, g1, by omega, fun _ => by omega, g3⟩
  rw [if_neg c2] at hm
  by_cases c3 : hin = hout ∧ vin * 2 = vout ∧ fancy
  · rw [if_pos c3, Option.some.injEq] at hm
    obtain ⟨rfl, rfl, _⟩ := c3
    subst hm
    rw [hself hi0] at hw ⊢
    rw [hdbl vi0]
    simp only [Nat.div_one] at hw
    obtain ⟨out, e1, e2, e3⟩ := vLoop_spec (rows := rows) (one := fun near far v => h1v2Cols near far (if v = 0 then 1 else 2) dw 0) (vin := vin) rfl
      (fun r v row => row.length = dw ∧ ∀ x, x < dw → row[x]? = some (Method.h1v2Fancy.value 1 2 dw rows (2 * r + v) x)) (by
        intro r hrv
        have l1 := hr r (by simp only [Method.context, if_true]; omega) (by simp only [Method.context, if_true]; omega)
        have l2 := hr (r - 1) (by simp [Method.context]) (by simp [Method.context]; omega)
        obtain ⟨row, f1, f2, f3⟩ := h1v2Cols_spec (rows r) (rows (r - 1)) 1 dw 0 (by omega) (by omega)
        refine ⟨row, f1, f2, ?_⟩
        intro x hx
        rw [f3 x hx]
        simp only [Method.value, px, Nat.div_one, Nat.zero_add]
        rw [show 2 * r + 0 = 2 * r from rfl, show 2 * r / 2 = r by omega, if_pos (by omega), if_pos (by omega), clamp_in hx, clamp_in hx]) (by
        intro r hrv
        have l1 := hr r (by simp only [Method.context, if_true]; omega) (by simp only [Method.context, if_true]; omega)
        have l2 := hr (r + 1) (by simp [Method.context]; omega) (by simp [Method.context]; omega)
        obtain ⟨row, f1, f2, f3⟩ := h1v2Cols_spec (rows r) (rows (r + 1)) 2 dw 0 (by omega) (by omega)
        refine ⟨row, f1, f2, ?_⟩
        intro x hx
        rw [f3 x hx]
        simp only [Method.value, px, Nat.div_one, Nat.zero_add]
        rw [show (2 * r + 1) / 2 = r by omega, if_neg (by omega), if_neg (by omega), clamp_in hx, clamp_in hx]) (vin * 2) 0 0 (by simp) (by omega)
    rw [Nat.sub_zero] at e2
    refine ⟨out, e1, e2, ?_⟩
    intro y hy
    obtain ⟨row, g1, g2, g3⟩ := e3 y (by omega)
    rw [show 2 * (0 + y / 2) + y % 2 = y by omega] at g3
    have hup := roundup_dvd (ow := ow) (n := 1) (by omega) hi0
    simp only [Nat.mul_one, Nat.div_one] at hup
    exact ⟨row, g1, by omega, fun _ => by omega, fun x hx => g3 x (by omega)⟩
  rw [if_neg c3] at hm
  by_cases c4 : hin * 2 = hout ∧ vin * 2 = vout
  · rw [if_pos c4] at hm
    obtain ⟨rfl, rfl⟩ := c4
    rw [hdbl hi0] at hw ⊢
    rw [hdbl vi0]
    have hdw : dw = (ow + 1) / 2 := hw
    have hup := roundup_dvd (ow := ow) (n := 2) (by omega) hi0
    split at hm
    · rename_i hf
      rw [Option.some.injEq] at hm
      subst hm
      have key : ∀ (near far : Int) (x : Nat), x < ow → dw ≤ (rows near).length → dw ≤ (rows far).length → ∃ row, h2v2Row dw (rows near) (rows far) = some row ∧ row.length = 2 * dw ∧
          ∀ x, x < ow → row[x]? = some ((9 * px dw rows near (x / 2 : Nat) + 3 * px dw rows far (x / 2 : Nat) + 3 * px dw rows near (if x % 2 = 0 then ((x / 2 : Nat) : Int) - 1 else (x / 2 : Nat) + 1) +
            px dw rows far (if x % 2 = 0 then ((x / 2 : Nat) : Int) - 1 else (x / 2 : Nat) + 1) + (if x % 2 = 0 then 8 else 7)) / 16) := by
        intro near far _ _ l1 l2
        obtain ⟨row, f1, f2, f3⟩ := h2v2Row_spec (by omega) hsm l1 l2
        refine ⟨row, f1, f2, ?_⟩
        intro x hx
        obtain ⟨a, b⟩ := f3 (x / 2) (by omega)
        simp only [clampSum] at a b
        rcases Nat.mod_two_eq_zero_or_one x with h0 | h0
        · have e : 2 * (x / 2) = x := by omega
          rw [e] at a
          rw [a, if_pos h0, if_pos h0]
          simp only [px, Option.some.injEq]
          congr 1; ring
        · have e : 2 * (x / 2) + 1 = x := by omega
          rw [e] at b
          rw [b, if_neg (by omega), if_neg (by omega)]
          simp only [px, Option.some.injEq]
          congr 1; ring
      obtain ⟨out, e1, e2, e3⟩ := vLoop_spec (rows := rows) (one := fun near far _ => h2v2Row dw near far) (vin := vin) rfl
        (fun r v row => row.length = 2 * dw ∧ ∀ x, x < ow → row[x]? = some (Method.h2v2Fancy.value 2 2 dw rows (2 * r + v) x)) (by
          intro r hrv
          have l1 := hr r (by simp only [Method.context, if_true]; omega) (by simp only [Method.context, if_true]; omega)
          have l2 := hr (r - 1) (by simp [Method.context]) (by simp [Method.context]; omega)
          obtain ⟨row, f1, f2, f3⟩ := key r (r - 1) 0 hpos l1 l2
          refine ⟨row, f1, f2, ?_⟩
          intro x hx
          rw [f3 x hx]
          simp only [Method.value]
          rw [show 2 * r + 0 = 2 * r from rfl, show 2 * r / 2 = r by omega, if_pos (show 2 * r % 2 = 0 by omega)]) (by
          intro r hrv
          have l1 := hr r (by simp only [Method.context, if_true]; omega) (by simp only [Method.context, if_true]; omega)
          have l2 := hr (r + 1) (by simp [Method.context]; omega) (by simp [Method.context]; omega)
          obtain ⟨row, f1, f2, f3⟩ := key r (r + 1) 0 hpos l1 l2
          refine ⟨row, f1, f2, ?_⟩
          intro x hx
          rw [f3 x hx]
          simp only [Method.value]
          rw [show (2 * r + 1) / 2 = r by omega, if_neg (show ¬ (2 * r + 1) % 2 = 0 by omega)]) (vin * 2) 0 0 (by simp) (by omega)
      rw [Nat.sub_zero] at e2
      refine ⟨out, e1, e2, ?_⟩
      intro y hy
      obtain ⟨row, g1, g2, g3⟩ := e3 y (by omega)
      rw [show 2 * (0 + y / 2) + y % 2 = y by omega] at g3
      exact ⟨row, g1, by omega, fun _ => by omega, g3⟩
    · rw [Option.some.injEq] at hm
      subst hm
      show Method.Produces _ _ _ _ _ _ _ _ (h2v2Group ow (vin * 2) _ (vin * 2) 0 0)
      rw [h2v2Group_eq]
      exact boxed (fun y x => rfl) (by omega) (by omega) hi0 rfl rfl hw (fun r hrv => hr r (by simp [Method.context]) (by simp [Method.context]; omega))
  rw [if_neg c4] at hm
  split at hm
  · rename_i c5
    rw [Option.some.injEq] at hm
    subst hm
    have hd1 := Nat.mul_div_cancel' (Nat.dvd_of_mod_eq_zero c5.1)
    have hd2 := Nat.mul_div_cancel' (Nat.dvd_of_mod_eq_zero c5.2)
    have q1 : hout / hin < 256 := Nat.lt_of_le_of_lt (Nat.div_le_self _ _) (by omega)
    have q2 : vout / vin < 256 := Nat.lt_of_le_of_lt (Nat.div_le_self _ _) (by omega)
    have p1 : 0 < hout / hin := by
      rcases Nat.eq_zero_or_pos (hout / hin) with h | h
      · rw [h] at hd1; omega
      · exact h
    have p2 : 0 < vout / vin := by
      rcases Nat.eq_zero_or_pos (vout / vin) with h | h
      · rw [h] at hd2; omega
      · exact h
    have hrr : ∀ r : Nat, r < vin → dw ≤ (rows r).length := fun r hrv => hr r (by simp [Method.context]) (by simp [Method.context]; omega)
    rw [Nat.mod_eq_of_lt q1, Nat.mod_eq_of_lt q2]
    exact boxed (fun y x => rfl) p1 p2 hi0 hd1 hd2 hw hrr
  · cases hm

/-- The samples a method may look at for output sample (y, x). -/
def Method.near (m : Method) (eh ev y x : Nat) (r c : Int) : Prop :=
  (if m.context then ((y / ev : Nat) : Int) - 1 ≤ r ∧ r ≤ (y / ev : Nat) + 1 else r = (y / ev : Nat)) ∧
  (((x / eh : Nat) : Int) - 1 ≤ c ∧ c ≤ (x / eh : Nat) + 1)

/-- **C22: no new extremes.**  An output sample lies between the smallest and the largest of the input samples around it; a constant neighbourhood is reproduced. -/
theorem C22_between (m : Method) (eh ev dw : Nat) (rows : Int → List Nat) (y x lo hi : Nat)
    (h : ∀ r c, m.near eh ev y x r c → lo ≤ px dw rows r c ∧ px dw rows r c ≤ hi) :
    lo ≤ m.value eh ev dw rows y x ∧ m.value eh ev dw rows y x ≤ hi := by
  have h0 := h (y / ev : Nat) (x / eh : Nat) ⟨by split <;> omega, by omega⟩
  have hc := fun (b : Bool) => h (y / ev : Nat) (if b then ((x / eh : Nat) : Int) - 1 else (x / eh : Nat) + 1) ⟨by split <;> omega, by split <;> omega⟩
  cases m with
  | h2v1Fancy =>
    have a := hc (decide (x % 2 = 0))
    simp only [decide_eq_true_eq] at a
    simp only [Method.value]
    split <;> (split at a <;> try contradiction) <;> omega
  | h1v2Fancy =>
    have a := h (if y % 2 = 0 then ((y / ev : Nat) : Int) - 1 else (y / ev : Nat) + 1) (x / eh : Nat) ⟨by simp only [Method.context, if_true]; split <;> omega, by omega⟩
    simp only [Method.value]
    split <;> (split at a <;> try contradiction) <;> omega
  | h2v2Fancy =>
    have a := hc (decide (x % 2 = 0))
    simp only [decide_eq_true_eq] at a
    have b := h (if y % 2 = 0 then ((y / ev : Nat) : Int) - 1 else (y / ev : Nat) + 1) (x / eh : Nat) ⟨by simp only [Method.context, if_true]; split <;> omega, by omega⟩
    have c := h (if y % 2 = 0 then ((y / ev : Nat) : Int) - 1 else (y / ev : Nat) + 1) (if x % 2 = 0 then ((x / eh : Nat) : Int) - 1 else (x / eh : Nat) + 1)
      ⟨by simp only [Method.context, if_true]; split <;> omega, by split <;> omega⟩
    simp only [Method.value]
    revert a b c h0
    generalize px dw rows (y / ev : Nat) (x / eh : Nat) = p0
    generalize (if y % 2 = 0 then ((y / ev : Nat) : Int) - 1 else (y / ev : Nat) + 1) = r'
    generalize hcc : (if x % 2 = 0 then ((x / eh : Nat) : Int) - 1 else (x / eh : Nat) + 1) = c'
    intro a b c d
    have : (if x % 2 = 0 then 8 else 7) ≤ 8 := by split <;> omega
    omega
  | _ => exact h0

/-- Constant component rows are reproduced exactly. -/
theorem C22_constant (m : Method) (eh ev dw : Nat) (rows : Int → List Nat) (y x k : Nat) (h : ∀ r c, m.near eh ev y x r c → px dw rows r c = k) : m.value eh ev dw rows y x = k := by
  have := C22_between m eh ev dw rows y x k k (fun r c hn => by rw [h r c hn]; omega)
  omega

/-- The width hypothesis of `Ready` is what jpeg_calc_output_dimensions computes: downsampled_width = ceil(image_width * h_samp * DCT_scaled / (max_h * 8)) and output_width =
ceil(image_width * min_DCT_scaled / 8) (jdmaster.c:117-228), for every image width, whenever the expansion factor is integral. -/
theorem C22_width {w h d m maxh n : Nat} (hm : 0 < m) (hn : 0 < n) (hh : 0 < maxh) (hdvd : m ∣ h * d) (hexp : h * d / m * n = maxh) :
    (w * (h * d) + maxh * 8 - 1) / (maxh * 8) = ((w * m + 8 - 1) / 8 + n - 1) / n := by
  obtain ⟨q, hq⟩ := hdvd
  rw [hq, Nat.mul_div_cancel_left q hm] at hexp
  have hq0 : 0 < q := by
    rcases Nat.eq_zero_or_pos q with h | h
    · rw [h] at hexp; omega
    · exact h
  have e1 : (w * m + 8 - 1) / 8 + n - 1 = (w * m + (8 * n - 1)) / 8 := by omega
  rw [e1, Nat.div_div_eq_div_mul, hq, ← hexp]
  have e2 : w * (m * q) + q * n * 8 - 1 = (q - 1) + q * (w * m + (8 * n - 1)) := by
    have : q * (w * m + (8 * n - 1)) + q = w * (m * q) + q * n * 8 := by
      have : q * (w * m + (8 * n - 1)) + q = q * (w * m + (8 * n - 1 + 1)) := by ring
      rw [this, Nat.sub_add_cancel (by omega)]; ring
    omega
  rw [e2, show q * n * 8 = q * (8 * n) by ring, ← Nat.div_div_eq_div_mul, Nat.add_mul_div_left _ _ hq0, Nat.div_eq_of_lt (show q - 1 < q by omega), Nat.zero_add]

/-- do_fancy is off when the scaled block is one sample, so the context methods are chosen only where the main controller supplies context rows. -/
theorem C22_context_scale {needed fu : Bool} {ms hin vin hout vout dw : Nat} {m : Method} (h : selectMethod needed (doFancy fu ms) hin vin hout vout dw = some m) (hc : m.context = true) : 1 < ms := by
  by_contra hn
  have : doFancy fu ms = false := by simp [doFancy]; omega
  rw [this] at h
  unfold selectMethod at h
  repeat' split at h
  all_goals first | (cases h; cases hc; done) | simp_all

/-! A concrete case: a 5 sample wide 4:2:0 chroma component of a 9 pixel wide image. -/

example : selectMethod true true 1 1 2 2 5 = some .h2v2Fancy := by decide

example : Ready .h2v2Fancy 1 1 2 2 5 9 (fun r => [10 + r.toNat, 20, 30, 250, 0]) where
  hinPos := by decide
  vinPos := by decide
  houtPos := by decide
  voutPos := by decide
  pos := by decide
  small := by decide
  width := by decide
  rowsOk := by intro r _ _; simp

example : Method.run .h2v2Fancy 1 5 9 2 (fun r => [10 + r.toNat, 20, 30, 250, 0]) =
    some [[10, 12, 18, 22, 28, 85, 195, 187, 63, 0], [10, 13, 18, 22, 28, 85, 195, 187, 63, 0]] := by decide +kernel

example : selectMethod true true 1 2 3 2 5 = some (.int 3 1) := by decide

end Verif.Samp
