import Verif.Quant1.Levels
/-
The colour map, the colour index tables and the dither tables.
-/
namespace Verif.Quant1
open Verif.Color (castSample)

/-! ## Reads and writes -/

theorem rd_nat {α : Type} (l : List α) (i : Nat) : rd l (i : Int) = l[i]? := by
  unfold rd; rw [if_neg (by omega)]; simp

theorem wr_nat {α : Type} {l : List α} {i : Nat} (h : i < l.length) (v : α) : wr l (i : Int) v = some (l.set i v) := by
  unfold wr; rw [if_neg (by omega)]; simp

theorem get_set {α : Type} {l : List α} {i : Nat} (h : i < l.length) (v : α) (p : Nat) :
    (l.set i v)[p]? = if p = i then some v else l[p]? := by
  rw [List.getElem?_set]
  by_cases hp : p = i
  · subst hp; simp [h]
  · rw [if_neg (fun e => hp e.symm), if_neg hp]

theorem castSample_of_lt {c x : Nat} (hc : c = 128 ∨ c = 2048) (h : x ≤ 2 * c - 1) : castSample c (x : Int) = x := by
  unfold castSample
  rcases hc with rfl | rfl
  · rw [if_pos (by omega)]; omega
  · rw [if_neg (by omega)]; omega

/-! ## The colour map -/

/-- The innermost loop writes one run of entries. -/
theorem run_spec (ptr blksize val : Nat) (row : List Nat) (h : ptr + blksize ≤ row.length) :
    ∃ row', forN (fun k row => wr row ((ptr : Int) + (k : Nat)) val) blksize row = some row' ∧
      row'.length = row.length ∧
      ∀ p, row'[p]? = if ptr ≤ p ∧ p < ptr + blksize then some val else row[p]? := by
  obtain ⟨y, e1, e2, e3⟩ := forN_inv (f := fun k row => wr row ((ptr : Int) + (k : Nat)) val)
    (fun i (x : List Nat) => x.length = row.length ∧
      ∀ p, x[p]? = if ptr ≤ p ∧ p < ptr + i then some val else row[p]?) blksize row
    ⟨rfl, fun p => by rw [if_neg (by omega)]⟩ (by
      rintro i x hi ⟨h1, h2⟩
      have hlt : ptr + i < x.length := by omega
      refine ⟨x.set (ptr + i) val, ?_, by simp [h1], fun p => ?_⟩
      · have : (ptr : Int) + (i : Nat) = ((ptr + i : Nat) : Int) := by omega
        show wr x ((ptr : Int) + (i : Nat)) val = _
        rw [this, wr_nat hlt]
      · rw [get_set hlt, h2]
        by_cases hp : p = ptr + i
        · rw [if_pos hp, if_pos (by omega)]
        · rw [if_neg hp]
          by_cases hq : ptr ≤ p ∧ p < ptr + i
          · rw [if_pos hq, if_pos (by omega)]
          · rw [if_neg hq, if_neg (by omega)])
  exact ⟨y, e1, e2, e3⟩

/-- Where a position lies relative to a run of `b` entries starting at `u*b`. -/
theorem in_run {b : Nat} (hb : 0 < b) (u p : Nat) : (u * b ≤ p ∧ p < u * b + b) ↔ p / b = u := by
  rw [Nat.div_eq_iff hb]
  have : (u + 1) * b = u * b + b := by ring
  omega

theorem ptrGo_spec {total outer b nci val j : Nat} (hb : 0 < b) (hn : 0 < nci) (hj : j < nci)
    (ht : total = outer * (nci * b)) : ∀ (f t : Nat) (row : List Nat), total < f + t * (nci * b) + j * b →
    1 ≤ f → t ≤ outer → row.length = total →
    ∃ row', ptrGo total (nci * b) b val f (t * (nci * b) + j * b) row = some row' ∧ row'.length = total ∧
      ∀ p, p < total → row'[p]? = if p / b % nci = j ∧ t ≤ p / b / nci then some val else row[p]? := by
  intro f
  have hbd : 0 < nci * b := Nat.mul_pos hn hb
  have hjb : j * b + b ≤ nci * b := by
    have := Nat.mul_le_mul_right b (show j + 1 ≤ nci by omega)
    have e : (j + 1) * b = j * b + b := by ring
    omega
  induction f with
  | zero => intro t row _ h; omega
  | succ f ih =>
    intro t row hf _ hto hl
    simp only [ptrGo]
    by_cases hlt : t * (nci * b) + j * b < total
    · have hto' : t < outer := by
        by_contra hc
        have : t = outer := by omega
        subst this; omega
      have hle : (t + 1) * (nci * b) ≤ outer * (nci * b) := Nat.mul_le_mul_right _ hto'
      have e1 : (t + 1) * (nci * b) = t * (nci * b) + nci * b := by ring
      obtain ⟨row1, a1, a2, a3⟩ := run_spec (t * (nci * b) + j * b) b val row (by omega)
      have e2 : t * (nci * b) + j * b + nci * b = (t + 1) * (nci * b) + j * b := by rw [e1]; omega
      obtain ⟨row2, b1, b2, b3⟩ := ih (t + 1) row1 (by omega) (by omega) (by omega) (by omega)
      refine ⟨row2, ?_, b2, ?_⟩
      · rw [if_pos hlt, a1]
        simp only [Option.bind_eq_bind, Option.bind_some]
        rw [e2, b1]
      · intro p hp
        rw [b3 p hp, a3]
        have e3 : t * (nci * b) + j * b = (t * nci + j) * b := by ring
        rw [e3]; simp only [in_run hb]
        have hdm := Nat.div_add_mod (p / b) nci
        have hml := Nat.mod_lt (p / b) hn
        have hkey : p / b = t * nci + j ↔ (p / b % nci = j ∧ p / b / nci = t) := by
          constructor
          · intro h
            rw [h, Nat.mul_comm t nci, Nat.mul_add_mod, Nat.mod_eq_of_lt hj, Nat.mul_add_div hn,
              Nat.div_eq_of_lt hj]
            exact ⟨rfl, rfl⟩
          · rintro ⟨h1, h2⟩
            rw [h1, h2] at hdm
            rw [← hdm, Nat.mul_comm]
        by_cases h1 : p / b % nci = j ∧ t + 1 ≤ p / b / nci
        · rw [if_pos h1, if_pos ⟨h1.1, by omega⟩]
        · rw [if_neg h1]
          by_cases h2 : p / b = t * nci + j
          · rw [if_pos h2, if_pos ⟨(hkey.1 h2).1, by have := (hkey.1 h2).2; omega⟩]
          · rw [if_neg h2, if_neg (fun h3 => ?_)]
            rcases Nat.lt_or_ge t (p / b / nci) with h4 | h4
            · exact h1 ⟨h3.1, h4⟩
            · exact h2 (hkey.2 ⟨h3.1, by omega⟩)
    · rw [if_neg hlt]
      refine ⟨row, rfl, hl, ?_⟩
      intro p hp
      have : outer ≤ t := by
        by_contra hc
        have hle : (t + 1) * (nci * b) ≤ outer * (nci * b) := Nat.mul_le_mul_right _ (by omega)
        have e1 : (t + 1) * (nci * b) = t * (nci * b) + nci * b := by ring
        omega
      have h5 : p / b / nci < outer := by
        rw [Nat.div_div_eq_div_mul, Nat.div_lt_iff_lt_mul (Nat.mul_pos hb hn)]
        calc p < total := hp
          _ = outer * (b * nci) := by rw [ht]; ring
      rw [if_neg (by omega)]

theorem fillRow_spec {c total outer b nci : Nat} (hc : c = 128 ∨ c = 2048) (hb : 0 < b) (hn : 2 ≤ nci)
    (ht : total = outer * (nci * b)) (row : List Nat) (hl : row.length = total) :
    ∃ row', fillRow c total (nci * b) b nci row = some row' ∧ row'.length = total ∧
      ∀ p, p < total → row'[p]? = some (level (2 * c - 1) nci (p / b % nci)) := by
  unfold fillRow
  obtain ⟨y, e1, e2, e3⟩ := forN_inv (f := fun j row =>
      ptrGo total (nci * b) b (castSample c (outputValue (2 * c - 1) j (nci - 1))) (total + 1) (j * b) row)
    (fun i (x : List Nat) => x.length = total ∧
      ∀ p, p < total → p / b % nci < i → x[p]? = some (level (2 * c - 1) nci (p / b % nci))) nci row
    ⟨hl, fun p _ h => by omega⟩ (by
      rintro i x hi ⟨h1, h2⟩
      have hv : castSample c (outputValue (2 * c - 1) i (nci - 1) : Int) = level (2 * c - 1) nci i := by
        rw [outputValue_eq _ _ hn]
        exact castSample_of_lt hc (level_le hn hi)
      obtain ⟨r, r1, r2, r3⟩ := ptrGo_spec (val := level (2 * c - 1) nci i) hb (by omega) hi ht (total + 1) 0 x
        (by omega) (by omega) (by omega) h1
      refine ⟨r, ?_, r2, ?_⟩
      · show ptrGo total (nci * b) b (castSample c (outputValue (2 * c - 1) i (nci - 1))) (total + 1) (i * b) x = _
        rw [hv]
        rw [Nat.zero_mul, Nat.zero_add] at r1
        exact r1
      · intro p hp hlt
        rw [r3 p hp]
        by_cases h : p / b % nci = i
        · rw [if_pos ⟨h, Nat.zero_le _⟩, h]
        · rw [if_neg (by tauto)]
          exact h2 p hp (by omega))
  exact ⟨y, e1, e2, fun p hp => e3 p hp (Nat.mod_lt _ (by omega))⟩

theorem drop_prod {ns : List Nat} {i : Nat} (h : i < ns.length) :
    (ns.drop i).prod = ns[i] * blk ns i := by
  unfold blk
  rw [List.drop_eq_getElem_cons h, List.prod_cons]

theorem prod_split (ns : List Nat) (i : Nat) : ns.prod = (ns.take i).prod * (ns.drop i).prod := by
  rw [← List.prod_append, List.take_append_drop]

theorem blk_pos {ns : List Nat} (h : ∀ n ∈ ns, 2 ≤ n) (i : Nat) : 0 < blk ns i :=
  prod_pos fun n hn => by have := h n (List.mem_of_mem_drop hn); omega

theorem getD_eq {ns : List Nat} {i : Nat} (h : i < ns.length) : ns.getD i 1 = ns[i] := by
  simp [List.getD_eq_getElem?_getD, h]

theorem createColormap_spec {k : Cfg} (hc : k.c = 128 ∨ k.c = 2048) {ns : List Nat} (hl : ns.length = k.nc)
    (h2 : ∀ n ∈ ns, 2 ≤ n) :
    ∃ cm, createColormap k ns ns.prod = some cm ∧ PaletteIs k.max ns cm := by
  unfold createColormap
  obtain ⟨y, e1, e2, e3, e4⟩ := forN_inv (f := fun i (s : Nat × List (List Nat)) => do
      let nci ← ns[i]?
      let blksize := s.1 / nci
      let row ← fillRow k.c ns.prod s.1 blksize nci (List.replicate ns.prod k.junk)
      pure (blksize, s.2 ++ [row]))
    (fun i (s : Nat × List (List Nat)) => s.1 = (ns.drop i).prod ∧ s.2.length = i ∧
      ∀ i', i' < i → ∃ row, s.2[i']? = some row ∧ row.length = ns.prod ∧
        ∀ p, p < ns.prod → row[p]? = some (level k.max (ns.getD i' 1) (digit ns i' p))) k.nc (ns.prod, [])
    ⟨by simp, rfl, fun i' h => by omega⟩ (by
      rintro i ⟨bd, rows⟩ hi ⟨h3, h4, h5⟩
      have hi' : i < ns.length := by omega
      dsimp only at h3 h4 h5 ⊢
      have hn := h2 _ (List.getElem_mem hi')
      have hd := drop_prod hi'
      have hb := blk_pos h2 i
      have hbs : bd / ns[i] = blk ns i := by
        rw [h3, hd]; exact Nat.mul_div_cancel_left _ (by omega)
      have hbd : bd = ns[i] * blk ns i := by rw [h3, hd]
      obtain ⟨row, r1, r2, r3⟩ := fillRow_spec (c := k.c) (total := ns.prod) (outer := (ns.take i).prod) hc hb hn
        (show ns.prod = _ by rw [← hd]; exact prod_split ns i) (List.replicate ns.prod k.junk) (by simp)
      refine ⟨(blk ns i, rows ++ [row]), ?_, ?_, ?_, ?_⟩
      · rw [List.getElem?_eq_getElem hi']
        simp only [Option.bind_eq_bind, Option.bind_some]
        rw [hbs, hbd, r1]; rfl
      · rfl
      · simp [h4]
      · intro i' hi2
        by_cases he : i' = i
        · subst he
          refine ⟨row, by simp [h4], r2, fun p hp => ?_⟩
          rw [r3 p hp]; unfold digit Cfg.max; rw [getD_eq hi']
        · obtain ⟨row', q1, q2, q3⟩ := h5 i' (by omega)
          exact ⟨row', by rw [List.getElem?_append_left (by omega)]; exact q1, q2, q3⟩)
  obtain ⟨bd, rows⟩ := y
  refine ⟨rows, ?_, ?_, ?_⟩
  · rw [e1]; rfl
  · rw [hl]; exact e3
  · intro i hi; exact e4 i (by omega)

/-! ## The colour index tables -/

theorem advance_spec {M n j : Nat} (hn : 2 ≤ n) (hM : n ≤ M + 1) : ∀ (f val : Nat), val ≤ pick M n j →
    pick M n j < val + f →
    advance M (n - 1) j f val (largestInput M val (n - 1)) = some (pick M n j, largestInput M (pick M n j) (n - 1)) := by
  intro f
  induction f with
  | zero => intro val h1 h2; omega
  | succ f ih =>
    intro val h1 h2
    simp only [advance]
    by_cases h : j > largestInput M val (n - 1)
    · rw [if_pos h]
      have : ¬ pick M n j ≤ val := by rw [pick_le_iff hn hM]; omega
      exact ih (val + 1) (by omega) (by omega)
    · rw [if_neg h]
      have : pick M n j ≤ val := by rw [pick_le_iff hn hM]; omega
      have : pick M n j = val := by omega
      rw [this]

theorem wrT_spec {α : Type} {t : PTab α} {x : Int} (h1 : 0 ≤ x + t.base) (h2 : x + t.base < t.data.length) (v : α) :
    ∃ t', wrT t x v = some t' ∧ t'.base = t.base ∧ t'.data.length = t.data.length ∧
      ∀ y, t'.get? y = if y = x then some v else t.get? y := by
  obtain ⟨i, hi⟩ : ∃ i : Nat, x + t.base = i := ⟨(x + t.base).toNat, by omega⟩
  have hlt : i < t.data.length := by omega
  refine ⟨⟨t.base, t.data.set i v⟩, ?_, rfl, by simp, fun y => ?_⟩
  · unfold wrT; rw [hi, wr_nat hlt]; rfl
  · unfold PTab.get?
    dsimp only
    by_cases hy : y + (t.base : Int) < 0
    · rw [if_pos hy, if_pos hy, if_neg (by omega)]
    · rw [if_neg hy, if_neg hy, get_set hlt]
      by_cases he : y = x
      · rw [if_pos he, if_pos (by omega)]
      · rw [if_neg he, if_neg (by omega)]

/-- One table: entry `x` is the premultiplied level of `x`, limited to the sample range. -/
theorem indexRow_spec {c : Nat} (hc : c = 128 ∨ c = 2048) (pad : Bool) (junk : Nat) {n b : Nat} (hn : 2 ≤ n)
    (hM : n * b ≤ 2 * c) (hb : 0 < b) :
    ∃ t, indexRow c pad junk n b = some t ∧ ∀ x : Int,
      (if pad then -(2 * c - 1 : Int) ≤ x ∧ x ≤ 2 * (2 * c - 1) else 0 ≤ x ∧ x ≤ 2 * c - 1) →
      t.get? x = some (pick (2 * c - 1) n (clampTo (2 * c - 1) x) * b) := by
  obtain ⟨M, hMdef⟩ : ∃ M, M = 2 * c - 1 := ⟨_, rfl⟩
  have hMc : M + 1 = 2 * c := by omega
  have hnM : n ≤ M + 1 := by
    have : n * 1 ≤ n * b := Nat.mul_le_mul_left n hb
    omega
  have hpb : ∀ v, v ≤ M → pick M n v * b ≤ M := by
    intro v hv
    have h1 := pick_lt hn hnM hv
    have h2 : (pick M n v + 1) * b ≤ n * b := Nat.mul_le_mul_right b h1
    have h3 : (pick M n v + 1) * b = pick M n v * b + b := by ring
    omega
  unfold indexRow
  rw [← hMdef]
  dsimp only
  obtain ⟨base, hbase⟩ : ∃ base, base = (if pad then M else 0) := ⟨_, rfl⟩
  obtain ⟨len, hlen⟩ : ∃ len, len = M + 1 + (if pad then M * 2 else 0) := ⟨_, rfl⟩
  have hbl : base + M + 1 ≤ len := by
    rw [hbase, hlen]; cases pad <;> simp; omega
  obtain ⟨y, e1, e2, e3, e4, e5, e6⟩ := forN_inv (f := fun j (s : Nat × Nat × PTab Nat) => do
      let (val, k) ← advance M (n - 1) j (M + 2) s.1 s.2.1
      let t ← wrT s.2.2 j (castSample c ((val * b : Nat) : Int))
      pure (val, k, t))
    (fun i (s : Nat × Nat × PTab Nat) => s.1 = pick M n (i - 1) ∧ s.2.1 = largestInput M s.1 (n - 1) ∧
      s.2.2.base = base ∧ s.2.2.data.length = len ∧
      ∀ j, j < i → s.2.2.get? (j : Nat) = some (pick M n j * b)) (M + 1)
    (0, largestInput M 0 (n - 1), ⟨if pad then M else 0, List.replicate (M + 1 + (if pad then M * 2 else 0)) junk⟩)
    ⟨(pick_zero hnM).symm, rfl, hbase.symm, by simp [hlen], fun j h => by omega⟩ (by
      rintro i ⟨val, k, t⟩ hi ⟨h1, h2, h3, h4, h5⟩
      dsimp only at h1 h2 h3 h4 h5 ⊢
      obtain ⟨t', g1, g2, g3, g4⟩ := wrT_spec (t := t) (x := (i : Int)) (by omega) (by omega) (pick M n i * b)
      refine ⟨(pick M n i, largestInput M (pick M n i) (n - 1), t'), ?_, by simp, rfl, g2.trans h3, g3.trans h4, ?_⟩
      · have hm : val ≤ pick M n i := by rw [h1]; exact pick_mono (by omega)
        have hlt := pick_lt hn hnM (show i ≤ M by omega)
        rw [h2, advance_spec hn hnM (M + 2) val hm (by omega)]
        simp only [Option.bind_eq_bind, Option.bind_some]
        rw [castSample_of_lt hc (by have := hpb i (by omega); omega), g1]
        rfl
      · intro j hj
        dsimp only
        rw [g4]
        by_cases he : j = i
        · subst he; rw [if_pos rfl]
        · rw [if_neg (by omega)]; exact h5 j (by omega))
  obtain ⟨val, k, t⟩ := y
  dsimp only at e2 e3 e4 e5 e6
  rw [e1]
  simp only [Option.bind_eq_bind, Option.bind_some]
  cases pad with
  | false =>
    refine ⟨t, rfl, fun x hx => ?_⟩
    simp only [Bool.false_eq_true, if_false] at hx
    obtain ⟨i, hi⟩ : ∃ i : Nat, x = i := ⟨x.toNat, by omega⟩
    subst hi
    rw [e6 i (by omega)]
    unfold clampTo
    congr 2; rw [Int.toNat_natCast, Nat.min_eq_left (by omega)]
  | true =>
    simp only [if_true] at hbase hlen ⊢
    obtain ⟨y, f1, f2, f3, f4, f5, f6⟩ := forN_inv (f := fun i (t : PTab Nat) => do
        let j : Int := i + 1
        let t ← wrT t (-j) (← t.get? 0)
        wrT t ((M : Int) + j) (← t.get? M))
      (fun i (t : PTab Nat) => t.base = base ∧ t.data.length = len ∧
        (∀ j, j < M + 1 → t.get? (j : Nat) = some (pick M n j * b)) ∧
        (∀ j : Nat, j < i → t.get? (-(j + 1 : Int)) = some (pick M n 0 * b)) ∧
        (∀ j : Nat, j < i → t.get? ((M : Int) + (j + 1 : Int)) = some (pick M n M * b))) M t
      ⟨e4, e5, e6, fun j h => by omega, fun j h => by omega⟩ (by
        rintro i t hi ⟨h1, h2, h3, h4, h5⟩
        obtain ⟨t1, g1, g2, g3, g4⟩ := wrT_spec (t := t) (x := -((i : Int) + 1)) (by omega) (by omega)
          (pick M n 0 * b)
        obtain ⟨t2, k1, k2, k3, k4⟩ := wrT_spec (t := t1) (x := (M : Int) + ((i : Int) + 1)) (by omega) (by omega)
          (pick M n M * b)
        have r0 : t.get? 0 = some (pick M n 0 * b) := h3 0 (by omega)
        have rM : t1.get? (M : Int) = some (pick M n M * b) := by
          rw [g4, if_neg (by omega)]; exact h3 M (by omega)
        refine ⟨t2, ?_, by omega, by omega, ?_, ?_, ?_⟩
        · dsimp only
          rw [r0]
          simp only [Option.bind_eq_bind, Option.bind_some]
          rw [g1]
          simp only [Option.bind_some]
          rw [rM]
          simp only [Option.bind_some]
          exact k1
        · intro j hj
          rw [k4, if_neg (by omega), g4, if_neg (by omega)]
          exact h3 j hj
        · intro j hj
          rw [k4, if_neg (by omega), g4]
          by_cases he : j = i
          · rw [if_pos (by omega)]
          · rw [if_neg (by omega)]; exact h4 j (by omega)
        · intro j hj
          rw [k4]
          by_cases he : j = i
          · rw [if_pos (by omega)]
          · rw [if_neg (by omega), g4, if_neg (by omega)]; exact h5 j (by omega))
    refine ⟨y, f1, fun x hx => ?_⟩
    by_cases hx0 : x < 0
    · obtain ⟨i, hi⟩ : ∃ i : Nat, x = -(i + 1 : Int) := ⟨(-x - 1).toNat, by omega⟩
      have hcl : clampTo M (-((i : Int) + 1)) = 0 := by unfold clampTo; omega
      rw [hi, f5 i (by omega), hcl]
    · by_cases hxM : x ≤ M
      · obtain ⟨i, hi⟩ : ∃ i : Nat, x = i := ⟨x.toNat, by omega⟩
        rw [hi, f4 i (by omega)]
        unfold clampTo
        congr 2; rw [Int.toNat_natCast, Nat.min_eq_left (by omega)]
      · obtain ⟨i, hi⟩ : ∃ i : Nat, x = (M : Int) + (i + 1 : Int) := ⟨(x - M - 1).toNat, by omega⟩
        have hcl : clampTo M ((M : Int) + ((i : Int) + 1)) = M := by unfold clampTo; omega
        rw [hi, f6 i (by omega), hcl]

/-- The index tables: reading table `i` at `x` gives the premultiplied level of `x`. -/
def IndexOk (k : Cfg) (ns : List Nat) (pad : Bool) (ts : List (PTab Nat)) : Prop :=
  ∀ i, i < k.nc → ∃ t, ts[i]? = some t ∧ ∀ x : Int,
    (if pad then -(k.max : Int) ≤ x ∧ x ≤ 2 * k.max else 0 ≤ x ∧ x ≤ k.max) →
    t.get? x = some (pick k.max (ns.getD i 1) (clampTo k.max x) * blk ns i)

theorem blk_le {ns : List Nat} (h2 : ∀ n ∈ ns, 2 ≤ n) {i : Nat} (h : i < ns.length) : ns[i] * blk ns i ≤ ns.prod := by
  rw [prod_split ns i, ← drop_prod h]
  exact Nat.le_mul_of_pos_left _ (prod_pos fun n hn => by have := h2 n (List.mem_of_mem_take hn); omega)

theorem createColorindex_spec {k : Cfg} (hc : k.c = 128 ∨ k.c = 2048) {ns : List Nat} (hl : ns.length = k.nc)
    (h2 : ∀ n ∈ ns, 2 ≤ n) (hp : ns.prod ≤ 2 * k.c) (pad : Bool) :
    ∃ ts, createColorindex k ns ns.prod pad = some ts ∧ IndexOk k ns pad ts := by
  unfold createColorindex
  obtain ⟨y, e1, e2, e3, e4⟩ := forN_inv (f := fun i (s : Nat × List (PTab Nat)) => do
      let nci ← ns[i]?
      let blksize := s.1 / nci
      let t ← indexRow k.c pad k.junk nci blksize
      pure (blksize, s.2 ++ [t]))
    (fun i (s : Nat × List (PTab Nat)) => s.1 = (ns.drop i).prod ∧ s.2.length = i ∧
      ∀ i', i' < i → ∃ t, s.2[i']? = some t ∧ ∀ x : Int,
        (if pad then -(k.max : Int) ≤ x ∧ x ≤ 2 * k.max else 0 ≤ x ∧ x ≤ k.max) →
        t.get? x = some (pick k.max (ns.getD i' 1) (clampTo k.max x) * blk ns i')) k.nc (ns.prod, [])
    ⟨by simp, rfl, fun i' h => by omega⟩ (by
      rintro i ⟨bd, ts⟩ hi ⟨h3, h4, h5⟩
      have hi' : i < ns.length := by omega
      dsimp only at h3 h4 h5 ⊢
      have hn := h2 _ (List.getElem_mem hi')
      have hd := drop_prod hi'
      have hb := blk_pos h2 i
      have hbs : bd / ns[i] = blk ns i := by
        rw [h3, hd]; exact Nat.mul_div_cancel_left _ (by omega)
      obtain ⟨t, r1, r2⟩ := indexRow_spec hc pad k.junk hn (le_trans (blk_le h2 hi') hp) hb
      refine ⟨(blk ns i, ts ++ [t]), ?_, rfl, by simp [h4], ?_⟩
      · rw [List.getElem?_eq_getElem hi']
        simp only [Option.bind_eq_bind, Option.bind_some]
        rw [hbs, r1]; rfl
      · intro i' hi2
        by_cases he : i' = i
        · subst he
          refine ⟨t, by simp [h4], fun x hx => ?_⟩
          rw [getD_eq hi']
          apply r2
          have hmx : (k.max : Int) = 2 * (k.c : Int) - 1 := by unfold Cfg.max; omega
          rw [hmx] at hx
          exact hx
        · obtain ⟨t', q1, q2⟩ := h5 i' (by omega)
          exact ⟨t', by rw [List.getElem?_append_left (by omega)]; exact q1, q2⟩)
  obtain ⟨bd, ts⟩ := y
  refine ⟨ts, ?_, e4⟩
  rw [e1]; rfl

/-! ## The ordered-dither tables -/

/-- Cell (`y`,`x`) of the base matrix. -/
def bayer (y x : Nat) : Nat := (baseDither.getD y []).getD x 0

/-- The dither offset of a component with `n` levels at cell (`y`,`x`) of the matrix, which repeats every 16 pixels:
a fraction of half the distance between levels, rounded towards zero. -/
def offset (M n y x : Nat) : Int := ((255 - 2 * (bayer (y % 16) (x % 16) : Int)) * M).tdiv (512 * ((n : Int) - 1))

theorem ditherCell_eq (M f : Nat) {n : Nat} (hn : 2 ≤ n) :
    ditherCell M n f = ((255 - 2 * (f : Int)) * M).tdiv (512 * ((n : Int) - 1)) := by
  unfold ditherCell
  dsimp only
  have e1 : (256 - 1 - 2 * (f : Int)) = 255 - 2 * f := by omega
  have e2 : (2 * 256 * ((n : Int) - 1)) = 512 * ((n : Int) - 1) := by omega
  rw [e1, e2]
  generalize (255 - 2 * (f : Int)) * M = a
  by_cases h : a < 0
  · rw [if_pos h]
    have : a.tdiv (512 * ((n : Int) - 1)) = -((-a).tdiv (512 * ((n : Int) - 1))) := by
      rw [Int.neg_tdiv, neg_neg]
    rw [this, Int.tdiv_eq_ediv_of_nonneg (by omega)]
  · rw [if_neg h, Int.tdiv_eq_ediv_of_nonneg (by omega)]

theorem baseDither_shape : baseDither.length = 16 ∧ ∀ r ∈ baseDither, r.length = 16 ∧ ∀ f ∈ r, f < 256 := by
  decide +kernel

theorem bayer_lt (y x : Nat) : bayer y x < 256 := by
  unfold bayer
  by_cases hy : y < baseDither.length
  · have hm : baseDither[y] ∈ baseDither := List.getElem_mem hy
    have e : baseDither.getD y [] = baseDither[y] := by simp [List.getD_eq_getElem?_getD, hy]
    rw [e]
    by_cases hx : x < baseDither[y].length
    · have e2 : baseDither[y].getD x 0 = baseDither[y][x] := by simp [List.getD_eq_getElem?_getD, hx]
      rw [e2]; exact (baseDither_shape.2 _ hm).2 _ (List.getElem_mem hx)
    · have e2 : baseDither[y].getD x 0 = 0 := by
        rw [List.getD_eq_getElem?_getD, List.getElem?_eq_none (by omega)]; rfl
      rw [e2]; omega
  · have e : baseDither.getD y [] = [] := by
      rw [List.getD_eq_getElem?_getD, List.getElem?_eq_none (by omega)]; rfl
    rw [e]; simp

/-- The dither tables: table `i` at (`y`,`x`) is the offset. -/
def DitherOk (k : Cfg) (ns : List Nat) (od : List (List (List Int))) : Prop :=
  ∀ i, i < k.nc → ∃ m, od[i]? = some m ∧ ∀ y, y < 16 → ∃ r, m[y]? = some r ∧
    ∀ x, x < 16 → r[x]? = some (offset k.max (ns.getD i 1) y x)

theorem makeOdither_spec (M : Nat) {n : Nat} (hn : 2 ≤ n) : ∀ y, y < 16 → ∃ r, (makeOdither M n)[y]? = some r ∧
    ∀ x, x < 16 → r[x]? = some (offset M n y x) := by
  intro y hy
  have hy' : y < baseDither.length := by rw [baseDither_shape.1]; exact hy
  have hm : baseDither[y] ∈ baseDither := List.getElem_mem hy'
  refine ⟨baseDither[y].map (ditherCell M n), ?_, ?_⟩
  · unfold makeOdither; rw [List.getElem?_map, List.getElem?_eq_getElem hy']; rfl
  · intro x hx
    have hx' : x < baseDither[y].length := by rw [(baseDither_shape.2 _ hm).1]; exact hx
    rw [List.getElem?_map, List.getElem?_eq_getElem hx', Option.map_some, ditherCell_eq _ _ hn]
    unfold offset bayer
    rw [Nat.mod_eq_of_lt hy, Nat.mod_eq_of_lt hx]
    have e : baseDither.getD y [] = baseDither[y] := by simp [List.getD_eq_getElem?_getD, hy']
    have e2 : baseDither[y].getD x 0 = baseDither[y][x] := by simp [List.getD_eq_getElem?_getD, hx']
    rw [e, e2]

theorem createOdither_spec {k : Cfg} {ns : List Nat} (hl : ns.length = k.nc) (h2 : ∀ n ∈ ns, 2 ≤ n) :
    ∃ od, createOdither k ns = some od ∧ DitherOk k ns od := by
  unfold createOdither
  obtain ⟨y, e1, e2, e3⟩ := forN_inv (f := fun i (ts : List (List (List Int))) => do
      let nci ← ns[i]?
      match (List.range i).find? fun j => ns[j]? == some nci with
      | some j => do pure (ts ++ [← ts[j]?])
      | none => pure (ts ++ [makeOdither k.max nci]))
    (fun i (ts : List (List (List Int))) => ts.length = i ∧
      ∀ i', i' < i → ts[i']? = some (makeOdither k.max (ns.getD i' 1))) k.nc []
    ⟨rfl, fun i' h => by omega⟩ (by
      rintro i ts hi ⟨h3, h4⟩
      have hi' : i < ns.length := by omega
      have key : ∀ m, m = makeOdither k.max (ns.getD i 1) → (ts ++ [m]).length = i + 1 ∧
          ∀ i', i' < i + 1 → (ts ++ [m])[i']? = some (makeOdither k.max (ns.getD i' 1)) := by
        rintro m rfl
        refine ⟨by simp [h3], fun i' hi2 => ?_⟩
        by_cases he : i' = i
        · subst he; simp [h3]
        · rw [List.getElem?_append_left (by omega)]; exact h4 i' (by omega)
      rw [List.getElem?_eq_getElem hi']
      simp only [Option.bind_eq_bind, Option.bind_some]
      cases hf : (List.range i).find? fun j => ns[j]? == some ns[i] with
      | none => exact ⟨_, rfl, key _ (by rw [getD_eq hi'])⟩
      | some j =>
        have hj := List.find?_some hf
        have hji : j < i := by simpa using List.mem_of_find?_eq_some hf
        have hj' : j < ns.length := by omega
        have heq : ns[j] = ns[i] := by simpa [hj'] using hj
        have := h4 j hji
        refine ⟨ts ++ [makeOdither k.max (ns.getD j 1)], ?_, key _ ?_⟩
        · simp only [this, Option.bind_some]; rfl
        · rw [getD_eq hi', getD_eq hj', heq])
  refine ⟨y, e1, fun i hi => ⟨_, e3 i hi, makeOdither_spec _ ?_⟩⟩
  rw [getD_eq (by omega)]
  exact h2 _ (List.getElem_mem _)

/-- The offset is at most half the distance between levels. -/
theorem offset_bound (M y x : Nat) {n : Nat} (hn : 2 ≤ n) :
    2 * ((n : Int) - 1) * |offset M n y x| ≤ M := by
  unfold offset
  have hb := bayer_lt (y % 16) (x % 16)
  generalize bayer (y % 16) (x % 16) = f at *
  have hm : (1 : Int) ≤ (n : Int) - 1 := by omega
  generalize (n : Int) - 1 = m at *
  have hM : (0 : Int) ≤ M := Int.natCast_nonneg M
  have h1 : |(255 - 2 * (f : Int)) * M| ≤ 256 * M := by
    rw [abs_mul, abs_of_nonneg hM]
    apply mul_le_mul_of_nonneg_right _ hM
    rw [abs_le]; omega
  generalize (255 - 2 * (f : Int)) * M = a at *
  have h2 : |a.tdiv (512 * m)| * (512 * m) ≤ |a| := by
    have := Int.mul_tdiv_add_tmod a (512 * m)
    have h3 : 512 * m * a.tdiv (512 * m) = a - a.tmod (512 * m) := by omega
    have e : |a.tdiv (512 * m)| * (512 * m) = |512 * m * a.tdiv (512 * m)| := by
      rw [abs_mul, abs_of_nonneg (show 0 ≤ 512 * m by omega)]; ring
    rw [e, h3]
    rcases Int.le_total 0 a with h | h
    · have h4 := Int.tmod_nonneg (512 * m) h
      have h5 := Int.tdiv_nonneg h (show 0 ≤ 512 * m by omega)
      have h6 : 0 ≤ 512 * m * a.tdiv (512 * m) := mul_nonneg (by omega) h5
      rw [abs_of_nonneg (by omega), abs_of_nonneg h]; omega
    · have h4 : a.tmod (512 * m) ≤ 0 := by
        have := Int.tmod_nonneg (512 * m) (show 0 ≤ -a by omega)
        rw [Int.neg_tmod] at this; omega
      have h5 : a.tdiv (512 * m) ≤ 0 := by
        have := Int.tdiv_nonneg (show 0 ≤ -a by omega) (show 0 ≤ 512 * m by omega)
        rw [Int.neg_tdiv] at this; omega
      have h6 : 512 * m * a.tdiv (512 * m) ≤ 0 := mul_nonpos_of_nonneg_of_nonpos (by omega) h5
      rw [abs_of_nonpos (by omega), abs_of_nonpos h]; omega
  have e : |a.tdiv (512 * m)| * (512 * m) = 256 * (2 * m * |a.tdiv (512 * m)|) := by ring
  rw [e] at h2
  linarith

end Verif.Quant1
