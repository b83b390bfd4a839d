import Verif.Lossless.Entropy
/-
The difference controllers (jcdiffct.c, jddiffct.c) for one scan: rows are differenced, interleaved into MCUs, coded;
the decoder separates the MCUs, undifferences and scales the rows.
-/
namespace Verif.Lossless
open Verif Verif.Huff Verif.Prog

/-- Parameters of a scan: data precision, predictor, point transform, restart interval (in MCUs), image width = MCUs
per row (all sampling factors are 1, jcmaster.c:1074-1078), DC table numbers of the components of the scan. -/
structure LPar where
  P : Nat
  Ss : Nat
  Al : Nat
  ri : Nat
  w : Nat
  tbls : List Nat
deriving Repr, DecidableEq

/-- The MCUs of a row from the difference rows of the components (input pointers, jclhuff.c:351-361, 373). -/
def toMcus (w : Nat) (ds : List (List Int)) : List (List Int) :=
  (List.range w).map (fun j => ds.map (fun r => r.getD j 0))

/-- The difference rows of `n` components from the MCUs of a row (output pointers, jdlhuff.c:226-233, 279). -/
def fromMcus (n : Nat) (ms : List (List Int)) : List (List Int) :=
  (List.range n).map (fun c => ms.map (fun m => m.getD c 0))

/-- compress_data over all rows (jcdiffct.c:161-236): every row of every component is differenced, then coded.
Each entry of the argument is one image row: the sample rows of the components of the scan. -/
def encDiffs (p : LPar) : List (List (List Int)) → List ECmp → List (List (List Int))
  | [], _ => []
  | row :: rows, st =>
    let xs := List.zipWith (diffRow p.P p.Al p.Ss p.ri p.w) st row
    toMcus p.w (xs.map Prod.fst) :: encDiffs p rows (xs.map Prod.snd)

/-- State at the start of a pass: start_pass_lossless (jclossls.c:268-291) resets the predictors; the previous row is
not read before it is set. -/
def LPar.startC (p : LPar) : List ECmp := p.tbls.map (fun _ => ECmp.reset p.ri p.w ⟨0, 0, []⟩)

/-- start_pass_lossless of the decompressor (jdlossls.c:238-240). -/
def UCmp.reset (u : UCmp) : UCmp := { u with meth := 0 }

/-- decompress_data over all rows (jddiffct.c:166-265).  `k` = restart interval in rows
(`restart_interval / MCUs_per_row`). -/
def decRows (p : LPar) (k : Nat) (ds : List DTbl) : Nat → PSt Unit → List UCmp →
    Option (List (List (List Int)) × PSt Unit)
  | 0, s, _ => some ([], s)
  | n + 1, s, us =>
    let us := if k ≠ 0 ∧ s.base.togo = 0 then us.map UCmp.reset else us
    match decOne (decRow ds p.w) k s () with
    | none => none
    | some ((ms, z), s) =>
      let us := if z then us.map UCmp.reset else us
      let xs := List.zipWith (undRow p.P p.Al p.Ss) us (fromMcus us.length ms)
      match decRows p k ds n s (xs.map Prod.snd) with
      | none => none
      | some (out, s) => some (xs.map Prod.fst :: out, s)

/-! ### the decoder's rows, given the decoded differences -/

/-- Undifferencing alone, with the row counter. -/
def undGo (p : LPar) (k : Nat) : List (List (List Int)) → Nat → List UCmp → List (List (List Int))
  | [], _, _ => []
  | ms :: rest, togo, us =>
    let us := if k ≠ 0 ∧ togo = 0 then us.map UCmp.reset else us
    let xs := List.zipWith (undRow p.P p.Al p.Ss) us (fromMcus us.length ms)
    xs.map Prod.fst :: undGo p k rest (if k ≠ 0 then (if togo = 0 then k else togo) - 1 else togo) (xs.map Prod.snd)

theorem decOne_togo {σ ι ο : Type} {D : PDec σ ι ο} {k : Nat} {s s' : PSt σ} {i : ι} {o : ο}
    (h : decOne D k s i = some (o, s')) :
    s'.base.togo = if k ≠ 0 then (if s.base.togo = 0 then k else s.base.togo) - 1 else s.base.togo := by
  unfold decOne at h
  split at h
  · simp at h
  rename_i s1 e1
  split at h
  · simp at h
  simp only [Option.some.injEq, Prod.mk.injEq] at h
  rw [← h.2]
  dsimp only
  by_cases hk : k = 0
  · subst hk
    simp only [ne_eq, not_true_eq_false, false_and, if_false, Option.some.injEq] at e1 ⊢
    rw [e1]
  · simp only [ne_eq, hk, not_false_eq_true, true_and, if_true] at e1 ⊢
    split at e1
    · rename_i h0
      rw [if_pos h0]
      split at e1
      · simp at e1
      rename_i b hb
      simp only [Option.some.injEq] at e1
      rw [← e1]
      dsimp only
      unfold processRestart at hb
      dsimp only at hb
      split at hb
      · simp at hb
      split at hb
      · simp at hb
      simp only [Option.some.injEq] at hb
      rw [← hb]
    · rename_i h0
      rw [if_neg h0]
      simp only [Option.some.injEq] at e1
      rw [e1]

theorem decRows_eq (p : LPar) (k : Nat) (ds : List DTbl) (os : List (List (List Int))) : ∀ (s s' : PSt Unit) (us : List UCmp),
    decGo (decRow ds p.w) k (os.map (fun _ => ())) s = some (os.map (fun o => (o, false)), s') →
    decRows p k ds os.length s us = some (undGo p k os s.base.togo us, s') := by
  induction os with
  | nil =>
    intro s s' us h
    simp only [List.map_nil, decGo, Option.some.injEq, Prod.mk.injEq, true_and] at h
    simp [decRows, undGo, h]
  | cons o os ih =>
    intro s s' us h
    simp only [List.map_cons, decGo] at h
    split at h
    · simp at h
    rename_i o1 s1 e1
    split at h
    · simp at h
    rename_i os1 s2 e2
    simp only [Option.some.injEq, Prod.mk.injEq, List.cons.injEq] at h
    obtain ⟨⟨rfl, rfl⟩, rfl⟩ := h
    simp only [List.length_cons, decRows, undGo]
    rw [e1]
    dsimp only
    simp only [Bool.false_eq_true, if_false]
    rw [ih s1 s2 _ e2, decOne_togo e1]

/-! ### one row -/

/-- The sample value after the round trip: shifted right, then left, by the point transform. -/
def truncPt (Al : Nat) (v : Int) : Int := v / 2 ^ Al * 2 ^ Al

theorem shr_trunc (Al : Nat) (v : Int) : (v >>> Al) * 2 ^ Al = truncPt Al v := by
  rw [Int.shiftRight_eq_div_pow, two_pow_cast, truncPt]

theorem truncPt_range {P Al : Nat} {v : Int} (h : 0 ≤ v ∧ v < 2 ^ P) : 0 ≤ truncPt Al v ∧ truncPt Al v < 2 ^ P := by
  unfold truncPt
  have hp : (0 : Int) < 2 ^ Al := by rw [← two_pow_cast]; exact_mod_cast Nat.two_pow_pos Al
  have h1 := Int.ediv_nonneg h.1 (Int.le_of_lt hp)
  have h2 := Int.ediv_mul_le v (Int.ne_of_gt hp)
  have h3 := Int.mul_nonneg h1 (Int.le_of_lt hp)
  omega

theorem toSample_id {P : Nat} (hP : P = 8 ∨ P = 12 ∨ P = 16) {v : Int} (h : 0 ≤ v ∧ v < 2 ^ P) : toSample P v = v := by
  unfold toSample
  rcases hP with rfl | rfl | rfl
  · rw [if_pos rfl]; omega
  · rw [if_neg (by omega), if_pos rfl]
    rw [if_pos (by omega)]; omega
  · rw [if_neg (by omega), if_neg (by omega)]; omega

theorem shr_S16 {P Al : Nat} (hP : P ≤ 16) {v : Int} (h : 0 ≤ v ∧ v < 2 ^ P) : S16 (v >>> Al) := by
  rw [Int.shiftRight_eq_div_pow, two_pow_cast]
  have hp : (0 : Int) < 2 ^ Al := by rw [← two_pow_cast]; exact_mod_cast Nat.two_pow_pos Al
  have hpp : (2 : Int) ^ P ≤ 2 ^ 16 := by
    rw [← two_pow_cast, ← two_pow_cast]; exact_mod_cast Nat.pow_le_pow_right (by omega) hP
  have h1 := Int.ediv_nonneg h.1 (Int.le_of_lt hp)
  have h2 := Int.ediv_le_self (2 ^ Al) h.1
  constructor
  · exact h1
  · omega

/-- The row of the component after downscaling. -/
def scaled (Al : Nat) (row : List Int) : List Int := row.map (fun v : Int => v >>> Al)

theorem scaled_eq (Al : Nat) (row : List Int) :
    (if Al ≠ 0 then row.map (fun v : Int => v >>> Al) else row) = scaled Al row := by
  by_cases h : Al = 0
  · subst h
    simp [scaled]
  · rw [if_pos h]; rfl

/-- Encoder and decoder agree on a component just before a row. -/
def Agree (w : Nat) (e : ECmp) (u : UCmp) : Prop :=
  e.meth = u.meth ∧ (e.meth ≠ 0 → e.prev = u.prev ∧ e.prev.length = w)

theorem row_inv {p : LPar} (hP : p.P = 8 ∨ p.P = 12 ∨ p.P = 16) {e : ECmp} {u : UCmp} (hA : Agree p.w e u)
    {row : List Int} (hl : row.length = p.w) (hr : ∀ v ∈ row, 0 ≤ v ∧ v < 2 ^ p.P) :
    (diffRow p.P p.Al p.Ss p.ri p.w e row).1.length = p.w ∧
    (undRow p.P p.Al p.Ss u ((diffRow p.P p.Al p.Ss p.ri p.w e row).1.map decVal)).1 = row.map (truncPt p.Al) ∧
    (undRow p.P p.Al p.Ss u ((diffRow p.P p.Al p.Ss p.ri p.w e row).1.map decVal)).2 =
      ⟨if e.meth = 0 then nextMeth p.Ss else e.meth, scaled p.Al row⟩ := by
  obtain ⟨h1, h2⟩ := hA
  have hlen : (scaled p.Al row).length = p.w := by simp [scaled, hl]
  have hd : (diffRow p.P p.Al p.Ss p.ri p.w e row).1 = diffBy p.P p.Al e.meth e.prev (scaled p.Al row) := by
    unfold diffRow
    dsimp only
    rw [scaled_eq]
  have hs : ∀ s ∈ scaled p.Al row, S16 s := by
    intro s hs
    obtain ⟨v, hv, rfl⟩ := List.mem_map.1 hs
    exact shr_S16 (by omega) (hr v hv)
  have hlm : e.meth ≠ 0 → e.prev.length = (scaled p.Al row).length := fun h => by rw [(h2 h).2, hlen]
  have hund : undBy p.P p.Al u.meth u.prev ((diffRow p.P p.Al p.Ss p.ri p.w e row).1.map decVal) = scaled p.Al row := by
    have : undBy p.P p.Al e.meth e.prev ((diffRow p.P p.Al p.Ss p.ri p.w e row).1.map decVal) = scaled p.Al row := by
      apply undBy_inv hlm hs
      rw [hd, List.forall₂_map_right_iff]
      exact List.forall₂_same.2 (fun x _ => decVal_cong x)
    rw [← this, ← h1]
    by_cases h0 : e.meth = 0
    · unfold undBy
      rw [if_pos h0, if_pos h0]
    · rw [(h2 h0).1]
  refine ⟨by rw [hd, diffBy_length hlm, hlen], ?_, ?_⟩
  · unfold undRow
    dsimp only
    rw [hund, scaled, List.map_map]
    apply List.map_congr_left
    intro v hv
    simp only [Function.comp]
    rw [shr_trunc, toSample_id hP (truncPt_range (hr v hv))]
  · unfold undRow
    dsimp only
    rw [hund, h1]

/-- Agreement across restarts: `togo` is the decoder's row counter. -/
def RowInv (w k togo : Nat) (e : ECmp) (u : UCmp) : Prop :=
  if k ≠ 0 ∧ togo = 0 then e.meth = 0 ∧ e.togo = k
  else Agree w e u ∧ (k ≠ 0 → e.togo = togo)

theorem row_step {p : LPar} {k : Nat} (hw : 0 < p.w) (hri : p.ri = k * p.w) (hk : k < 2 ^ 32)
    (hP : p.P = 8 ∨ p.P = 12 ∨ p.P = 16) {e : ECmp} {u : UCmp} {togo : Nat} (htogo : togo ≤ k) (hI : RowInv p.w k togo e u)
    {row : List Int} (hl : row.length = p.w) (hr : ∀ v ∈ row, 0 ≤ v ∧ v < 2 ^ p.P) :
    let u0 := if k ≠ 0 ∧ togo = 0 then u.reset else u
    let d := diffRow p.P p.Al p.Ss p.ri p.w e row
    let x := undRow p.P p.Al p.Ss u0 (d.1.map decVal)
    d.1.length = p.w ∧ x.1 = row.map (truncPt p.Al) ∧
      RowInv p.w k (if k ≠ 0 then (if togo = 0 then k else togo) - 1 else togo) d.2 x.2 := by
  intro u0 d x
  have hri0 : p.ri ≠ 0 ↔ k ≠ 0 := by
    rw [hri]; constructor
    · intro h h'; rw [h'] at h; simp at h
    · intro h; exact Nat.mul_ne_zero h (by omega)
  have hdiv : p.ri / p.w = k := by rw [hri, Nat.mul_div_cancel _ hw]
  have hA : Agree p.w e u0 := by
    unfold RowInv at hI
    split at hI
    · rename_i h
      simp only [u0, if_pos h]
      exact ⟨hI.1, fun h => absurd hI.1 h⟩
    · rename_i h
      simp only [u0, if_neg h]
      exact hI.1
  have ht : k ≠ 0 → e.togo = if togo = 0 then k else togo := by
    intro hk0
    unfold RowInv at hI
    split at hI
    · rename_i h; rw [if_pos h.2]; exact hI.2
    · rename_i h
      have : togo ≠ 0 := fun h' => h ⟨hk0, h'⟩
      rw [if_neg this]; exact hI.2 hk0
  obtain ⟨g1, g2, g3⟩ := row_inv hP hA hl hr
  refine ⟨g1, g2, ?_⟩
  show RowInv _ _ _ d.2 x.2
  have hx : x.2 = ⟨if e.meth = 0 then nextMeth p.Ss else e.meth, scaled p.Al row⟩ := g3
  have hlen : (scaled p.Al row).length = p.w := by simp [scaled, hl]
  rw [hx]
  simp only [d, diffRow, scaled_eq]
  unfold RowInv
  by_cases hk0 : k = 0
  · have hr0 : p.ri = 0 := by rw [hri, hk0]; simp
    simp only [hr0, hk0, ne_eq, not_true_eq_false, false_and, if_false]
    exact ⟨⟨rfl, fun _ => ⟨rfl, hlen⟩⟩, by simp⟩
  · have hr0 : p.ri ≠ 0 := hri0.2 hk0
    have he := ht hk0
    simp only [hr0, hk0, ne_eq, not_false_eq_true, true_and, if_true, hdiv]
    generalize hT : (if togo = 0 then k else togo) = T at he
    have hTpos : 1 ≤ T ∧ T ≤ k := by rw [← hT]; split <;> omega
    have hmod : (e.togo + (2 ^ 32 - 1)) % 2 ^ 32 = T - 1 := by
      rw [he]; omega
    rw [hmod]
    by_cases h1 : T - 1 = 0
    · rw [if_pos h1, if_pos h1]
      exact ⟨rfl, rfl⟩
    · rw [if_neg h1, if_neg h1]
      exact ⟨⟨rfl, fun _ => ⟨rfl, hlen⟩⟩, fun _ => rfl⟩

theorem fromTo (w : Nat) (ds : List (List Int)) (f : Int → Int) (hl : ∀ d ∈ ds, d.length = w) :
    fromMcus ds.length ((toMcus w ds).map (fun m => m.map f)) = ds.map (fun d => d.map f) := by
  unfold fromMcus toMcus
  apply List.ext_getElem
  · simp
  intro c h1 h2
  simp only [List.length_map, List.length_range] at h1 h2
  simp only [List.getElem_map, List.getElem_range, List.map_map]
  have hc := hl ds[c] (List.getElem_mem _)
  apply List.ext_getElem
  · simp [hc]
  intro j h3 h4
  simp only [List.length_map, List.length_range] at h3 h4
  simp only [List.getElem_map, List.getElem_range, Function.comp, List.map_map]
  rw [List.getD_eq_getElem?_getD, List.getElem?_map, List.getElem?_eq_getElem h2]
  simp only [Option.map_some, Option.getD_some, Function.comp]
  rw [List.getD_eq_getElem?_getD, List.getElem?_eq_getElem h4]
  rfl

/-- A row of the scan: `n` sample rows of width `w` with `P`-bit samples. -/
def GoodRow (p : LPar) (n : Nat) (row : List (List Int)) : Prop :=
  row.length = n ∧ ∀ r ∈ row, r.length = p.w ∧ ∀ v ∈ r, 0 ≤ v ∧ v < 2 ^ p.P

theorem rows_inv {p : LPar} {k : Nat} (hw : 0 < p.w) (hri : p.ri = k * p.w) (hk : k < 2 ^ 32)
    (hP : p.P = 8 ∨ p.P = 12 ∨ p.P = 16) (rows : List (List (List Int))) :
    ∀ (st : List ECmp) (us : List UCmp) (togo : Nat), togo ≤ k → List.Forall₂ (RowInv p.w k togo) st us →
      (∀ row ∈ rows, GoodRow p st.length row) →
      undGo p k ((encDiffs p rows st).map (fun ms => ms.map (fun m => m.map decVal))) togo us =
        rows.map (fun row => row.map (fun r => r.map (truncPt p.Al))) := by
  induction rows with
  | nil => intros; rfl
  | cons row rows ih =>
    intro st us togo htogo hI hG
    obtain ⟨hn, hrow⟩ := hG row (by simp)
    -- all components of this row
    have key : ∀ (st : List ECmp) (us : List UCmp) (row : List (List Int)), List.Forall₂ (RowInv p.w k togo) st us →
        row.length = st.length → (∀ r ∈ row, r.length = p.w ∧ ∀ v ∈ r, 0 ≤ v ∧ v < 2 ^ p.P) →
        let xs := List.zipWith (diffRow p.P p.Al p.Ss p.ri p.w) st row
        let us0 := if k ≠ 0 ∧ togo = 0 then us.map UCmp.reset else us
        let ys := List.zipWith (undRow p.P p.Al p.Ss) us0 ((xs.map Prod.fst).map (fun d => d.map decVal))
        xs.length = st.length ∧ us0.length = st.length ∧ (∀ d ∈ xs.map Prod.fst, d.length = p.w) ∧
        ys.map Prod.fst = row.map (fun r => r.map (truncPt p.Al)) ∧
        List.Forall₂ (RowInv p.w k (if k ≠ 0 then (if togo = 0 then k else togo) - 1 else togo)) (xs.map Prod.snd)
          (ys.map Prod.snd) := by
      intro st us row hI
      induction hI generalizing row with
      | nil =>
        intro hn _
        cases row <;> simp at hn
        simp
      | @cons e u st us he hI ih2 =>
        intro hn hrow
        cases row with
        | nil => simp at hn
        | cons r row =>
          obtain ⟨hrl, hrv⟩ := hrow r (by simp)
          have h1 := row_step hw hri hk hP htogo he hrl hrv
          have h2 := ih2 row (by simpa using hn) (fun r hr => hrow r (by simp [hr]))
          dsimp only at h1 h2 ⊢
          obtain ⟨a1, a2, a3⟩ := h1
          obtain ⟨b0, b1, b2, b3, b4⟩ := h2
          by_cases hc : k ≠ 0 ∧ togo = 0
          · rw [if_pos hc] at a2 a3 b1 b3 b4 ⊢
            refine ⟨by simp [b0], by simpa using b1, ?_, ?_, ?_⟩
            · intro d hd
              simp only [List.zipWith_cons_cons, List.map_cons, List.mem_cons] at hd
              rcases hd with rfl | hd
              · exact a1
              · exact b2 d hd
            · simp only [List.zipWith_cons_cons, List.map_cons, a2, b3]
            · simp only [List.zipWith_cons_cons, List.map_cons]
              exact .cons a3 b4
          · rw [if_neg hc] at a2 a3 b1 b3 b4 ⊢
            refine ⟨by simp [b0], by simpa using b1, ?_, ?_, ?_⟩
            · intro d hd
              simp only [List.zipWith_cons_cons, List.map_cons, List.mem_cons] at hd
              rcases hd with rfl | hd
              · exact a1
              · exact b2 d hd
            · simp only [List.zipWith_cons_cons, List.map_cons, a2, b3]
            · simp only [List.zipWith_cons_cons, List.map_cons]
              exact .cons a3 b4
    obtain ⟨c1, c2, c3, c4, c5⟩ := key st us row hI hn hrow
    simp only [encDiffs, List.map_cons, undGo]
    have hlen : (if k ≠ 0 ∧ togo = 0 then us.map UCmp.reset else us).length =
        ((List.zipWith (diffRow p.P p.Al p.Ss p.ri p.w) st row).map Prod.fst).length := by
      rw [c2, List.length_map, c1]
    rw [hlen, fromTo p.w _ decVal c3, c4]
    congr 1
    apply ih
    · split
      · split <;> omega
      · exact htogo
    · exact c5
    · intro r hr
      rw [List.length_map, c1]
      exact hG r (by simp [hr])

end Verif.Lossless
