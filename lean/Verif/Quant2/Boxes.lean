import Verif.Quant2.Spec
import Mathlib.Tactic.Ring
import Mathlib.Tactic.FinCases
import Mathlib.Tactic.Linarith
/-
The cells of a box, and the shrinking of a box to the cells that occur.
-/
namespace Verif.Quant2

theorem V.ext3 {α : Type} {f g : Fin 3 → α} (h0 : f 0 = g 0) (h1 : f 1 = g 1) (h2 : f 2 = g 2) : f = g := by
  funext i; fin_cases i <;> assumption

theorem forall3 {P : Fin 3 → Prop} : (∀ i, P i) ↔ P 0 ∧ P 1 ∧ P 2 := by
  constructor
  · intro h; exact ⟨h 0, h 1, h 2⟩
  · rintro ⟨h0, h1, h2⟩ i; fin_cases i <;> assumption

theorem mem_cells {lo hi c : V} : c ∈ cells lo hi ↔ lo ≤ c ∧ c ≤ hi := by
  unfold cells
  simp only [List.mem_flatMap, List.mem_map, List.mem_range'_1, Pi.le_def, forall3]
  constructor
  · rintro ⟨a, ha, b, hb, d, hd, rfl⟩
    simp only [Matrix.cons_val_zero, Matrix.cons_val_one, Matrix.cons_val]
    omega
  · rintro ⟨⟨h1, h2, h3⟩, h4, h5, h6⟩
    exact ⟨c 0, by omega, c 1, by omega, c 2, by omega, V.ext3 rfl rfl rfl⟩

theorem nodup_cells (lo hi : V) : (cells lo hi).Nodup := by
  unfold cells
  rw [List.nodup_flatMap]
  refine ⟨fun a _ => ?_, ?_⟩
  · rw [List.nodup_flatMap]
    refine ⟨fun b _ => ?_, ?_⟩
    · refine List.Nodup.map (fun d d' h => ?_) List.nodup_range'
      have := congrFun h 2
      simpa using this
    · refine List.Pairwise.imp (R := (· ≠ ·)) (fun {b b'} hne => ?_) List.nodup_range'
      intro x h1 h2
      rw [List.mem_map] at h1 h2
      obtain ⟨d, _, rfl⟩ := h1
      obtain ⟨d', _, h2⟩ := h2
      have := congrFun h2 1
      simp at this
      exact hne this.symm
  · refine List.Pairwise.imp (R := (· ≠ ·)) (fun {a a'} hne => ?_) List.nodup_range'
    intro x h1 h2
    rw [List.mem_flatMap] at h1 h2
    obtain ⟨b, _, h1⟩ := h1
    obtain ⟨b', _, h2⟩ := h2
    rw [List.mem_map] at h1 h2
    obtain ⟨d, _, rfl⟩ := h1
    obtain ⟨d', _, h2⟩ := h2
    have := congrFun h2 0
    simp at this
    exact hne this.symm

theorem cells_toFinset (lo hi : V) : (cells lo hi).toFinset = Finset.Icc lo hi := by
  ext c
  rw [List.mem_toFinset, mem_cells, Finset.mem_Icc]

theorem cells_sum (lo hi : V) (f : V → Nat) : ((cells lo hi).map f).sum = ∑ c ∈ Finset.Icc lo hi, f c := by
  rw [← cells_toFinset, List.sum_toFinset _ (nodup_cells lo hi)]

theorem cells_countP (h : Hist) (lo hi : V) : ((cells lo hi).countP fun c => decide (h c ≠ 0)) =
    Bx.population h ⟨lo, hi⟩ := by
  unfold Bx.population Bx.cells
  rw [List.countP_eq_length_filter, ← List.toFinset_card_of_nodup ((nodup_cells lo hi).filter _), List.toFinset_filter,
    cells_toFinset]
  congr 1
  ext c
  simp

/-! ## Shrinking -/

theorem slabUsed_iff {h : Hist} {lo hi : V} {i : Fin 3} {x : Nat} (hx : lo i ≤ x ∧ x ≤ hi i) :
    slabUsed h lo hi i x = true ↔ ∃ c, lo ≤ c ∧ c ≤ hi ∧ h c ≠ 0 ∧ c i = x := by
  unfold slabUsed
  rw [List.any_eq_true]
  constructor
  · rintro ⟨c, h1, h2⟩
    rw [mem_cells] at h1
    obtain ⟨h3, h4⟩ := h1
    have a1 : x ≤ c i := by simpa using h3 i
    have a2 : c i ≤ x := by simpa using h4 i
    refine ⟨c, fun j => ?_, fun j => ?_, by simpa using h2, by omega⟩
    · by_cases hj : j = i
      · subst hj; exact le_trans hx.1 a1
      · have := h3 j; rw [Function.update_of_ne hj] at this; exact this
    · by_cases hj : j = i
      · subst hj; exact le_trans a2 hx.2
      · have := h4 j; rw [Function.update_of_ne hj] at this; exact this
  · rintro ⟨c, h1, h2, h3, h4⟩
    refine ⟨c, mem_cells.mpr ⟨fun j => ?_, fun j => ?_⟩, by simpa using h3⟩
    · by_cases hj : j = i
      · subst hj; rw [Function.update_self]; exact h4.ge
      · rw [Function.update_of_ne hj]; exact h1 j
    · by_cases hj : j = i
      · subst hj; rw [Function.update_self]; exact h4.le
      · rw [Function.update_of_ne hj]; exact h2 j

/-- `b'` holds the same used cells as `b`. -/
def SameUsed (h : Hist) (b b' : V × V) : Prop :=
  ∀ c, h c ≠ 0 → ((b.1 ≤ c ∧ c ≤ b.2) ↔ (b'.1 ≤ c ∧ c ≤ b'.2))

theorem find?_range'_first {p : Nat → Bool} {a n x : Nat} (h : (List.range' a n).find? p = some x) :
    a ≤ x ∧ x < a + n ∧ p x = true ∧ ∀ y, a ≤ y → y < x → p y = false := by
  rw [List.find?_eq_some_iff_getElem] at h
  obtain ⟨h1, i, hi, h2, h3⟩ := h
  simp only [List.getElem_range', Nat.one_mul, List.length_range'] at h2 h3 hi
  refine ⟨by omega, by omega, h1, fun y hy hyx => ?_⟩
  have := h3 (y - a) (by omega)
  rw [show a + (y - a) = y by omega] at this
  simpa using this

theorem find?_range'_last {p : Nat → Bool} {a n x : Nat} (h : (List.range' a n).reverse.find? p = some x) :
    a ≤ x ∧ x < a + n ∧ p x = true ∧ ∀ y, x < y → y < a + n → p y = false := by
  rw [List.find?_eq_some_iff_getElem] at h
  obtain ⟨h1, i, hi, h2, h3⟩ := h
  simp only [List.getElem_reverse, List.getElem_range', Nat.one_mul, List.length_range', List.length_reverse] at h2 h3 hi
  refine ⟨by omega, by omega, h1, fun y hy hyx => ?_⟩
  have := h3 (a + n - 1 - y) (by omega)
  rw [show a + (n - 1 - (a + n - 1 - y)) = y by omega] at this
  simpa using this

theorem shrinkLo_spec {h : Hist} {lo hi : V} (i : Fin 3) (hne : ∃ c, lo ≤ c ∧ c ≤ hi ∧ h c ≠ 0) :
    SameUsed h (lo, hi) (shrinkLo h i lo hi, hi) ∧ (∀ j, j ≠ i → shrinkLo h i lo hi j = lo j) ∧
    ∃ c, lo ≤ c ∧ c ≤ hi ∧ h c ≠ 0 ∧ c i = shrinkLo h i lo hi i := by
  obtain ⟨c0, n1, n2, n3⟩ := hne
  have b1 : lo i ≤ c0 i := n1 i
  have b2 : c0 i ≤ hi i := n2 i
  unfold shrinkLo
  by_cases hlt : hi i > lo i
  · rw [if_pos hlt]
    cases hf : (List.range' (lo i) (hi i + 1 - lo i)).find? (slabUsed h lo hi i) with
    | none =>
      rw [List.find?_eq_none] at hf
      exact (hf (c0 i) (List.mem_range'_1.mpr (by omega)) ((slabUsed_iff ⟨b1, b2⟩).mpr ⟨c0, n1, n2, n3, rfl⟩)).elim
    | some x =>
      obtain ⟨f1, f2, f3, f4⟩ := find?_range'_first hf
      rw [slabUsed_iff ⟨f1, by omega⟩] at f3
      obtain ⟨c, g1, g2, g3, g4⟩ := f3
      refine ⟨fun d hd => ⟨?_, ?_⟩, fun j hj => Function.update_of_ne hj _ _, c, g1, g2, g3, by
        dsimp only; rw [Function.update_self]; exact g4⟩
      · rintro ⟨h1, h2⟩
        refine ⟨fun j => ?_, h2⟩
        by_cases hj : j = i
        · subst hj
          dsimp only
          rw [Function.update_self]
          by_contra hlt'
          have := f4 (d j) (h1 j) (by omega)
          rw [(slabUsed_iff ⟨h1 j, h2 j⟩).mpr ⟨d, h1, h2, hd, rfl⟩] at this
          cases this
        · dsimp only; rw [Function.update_of_ne hj]; exact h1 j
      · rintro ⟨h1, h2⟩
        refine ⟨fun j => ?_, h2⟩
        have := h1 j
        dsimp only at this
        by_cases hj : j = i
        · subst hj; rw [Function.update_self] at this; exact le_trans f1 this
        · rw [Function.update_of_ne hj] at this; exact this
  · rw [if_neg hlt]
    exact ⟨fun _ _ => Iff.rfl, fun _ _ => rfl, c0, n1, n2, n3, by omega⟩

theorem shrinkHi_spec {h : Hist} {lo hi : V} (i : Fin 3) (hne : ∃ c, lo ≤ c ∧ c ≤ hi ∧ h c ≠ 0) :
    SameUsed h (lo, hi) (lo, shrinkHi h i lo hi) ∧ (∀ j, j ≠ i → shrinkHi h i lo hi j = hi j) ∧
    ∃ c, lo ≤ c ∧ c ≤ hi ∧ h c ≠ 0 ∧ c i = shrinkHi h i lo hi i := by
  obtain ⟨c0, n1, n2, n3⟩ := hne
  have b1 : lo i ≤ c0 i := n1 i
  have b2 : c0 i ≤ hi i := n2 i
  unfold shrinkHi
  by_cases hlt : hi i > lo i
  · rw [if_pos hlt]
    cases hf : (List.range' (lo i) (hi i + 1 - lo i)).reverse.find? (slabUsed h lo hi i) with
    | none =>
      rw [List.find?_eq_none] at hf
      exact (hf (c0 i) (List.mem_reverse.mpr (List.mem_range'_1.mpr (by omega)))
        ((slabUsed_iff ⟨b1, b2⟩).mpr ⟨c0, n1, n2, n3, rfl⟩)).elim
    | some x =>
      obtain ⟨f1, f2, f3, f4⟩ := find?_range'_last hf
      rw [show lo i + (hi i + 1 - lo i) = hi i + 1 by omega] at f2 f4
      rw [slabUsed_iff ⟨f1, by omega⟩] at f3
      obtain ⟨c, g1, g2, g3, g4⟩ := f3
      refine ⟨fun d hd => ⟨?_, ?_⟩, fun j hj => Function.update_of_ne hj _ _, c, g1, g2, g3, by
        dsimp only; rw [Function.update_self]; exact g4⟩
      · rintro ⟨h1, h2⟩
        refine ⟨h1, fun j => ?_⟩
        by_cases hj : j = i
        · subst hj
          dsimp only
          rw [Function.update_self]
          by_contra hlt'
          have := f4 (d j) (by omega) (Nat.lt_succ_of_le (h2 j))
          rw [(slabUsed_iff ⟨h1 j, h2 j⟩).mpr ⟨d, h1, h2, hd, rfl⟩] at this
          cases this
        · dsimp only; rw [Function.update_of_ne hj]; exact h2 j
      · rintro ⟨h1, h2⟩
        refine ⟨h1, fun j => ?_⟩
        have := h2 j
        dsimp only at this
        by_cases hj : j = i
        · subst hj; rw [Function.update_self] at this; exact le_trans this (Nat.le_of_lt_succ f2)
        · rw [Function.update_of_ne hj] at this; exact this
  · rw [if_neg hlt]
    exact ⟨fun _ _ => Iff.rfl, fun _ _ => rfl, c0, n1, n2, n3, by omega⟩

theorem shrinkAxis_spec {h : Hist} {b : V × V} (i : Fin 3) (hne : ∃ c, b.1 ≤ c ∧ c ≤ b.2 ∧ h c ≠ 0) :
    SameUsed h b (shrinkAxis h i b) ∧
    (∀ j, j ≠ i → (shrinkAxis h i b).1 j = b.1 j ∧ (shrinkAxis h i b).2 j = b.2 j) ∧
    (∃ c, b.1 ≤ c ∧ c ≤ b.2 ∧ h c ≠ 0 ∧ c i = (shrinkAxis h i b).1 i) ∧
    ∃ c, b.1 ≤ c ∧ c ≤ b.2 ∧ h c ≠ 0 ∧ c i = (shrinkAxis h i b).2 i := by
  obtain ⟨lo, hi⟩ := b
  obtain ⟨a1, a2, c, a3, a4, a5, a6⟩ := shrinkLo_spec i hne
  dsimp only at hne a1 a2 a3 a4
  have hne' : ∃ c, shrinkLo h i lo hi ≤ c ∧ c ≤ hi ∧ h c ≠ 0 := by
    have := (a1 c a5).mp ⟨a3, a4⟩
    exact ⟨c, this.1, this.2, a5⟩
  obtain ⟨d1, d2, d, d3, d4, d5, d6⟩ := shrinkHi_spec i hne'
  refine ⟨fun e he => (a1 e he).trans (d1 e he), fun j hj => ⟨a2 j hj, d2 j hj⟩, ⟨c, a3, a4, a5, a6⟩, d, ?_, ?_, d5, d6⟩
  · exact ((a1 d d5).mpr ⟨d3, d4⟩).1
  · exact ((a1 d d5).mpr ⟨d3, d4⟩).2

/-- The three axes one after the other give the smallest box. -/
theorem shrink_spec {h : Hist} {b : V × V} (hne : ∃ c, b.1 ≤ c ∧ c ≤ b.2 ∧ h c ≠ 0) :
    let b' := shrinkAxis h 2 (shrinkAxis h 1 (shrinkAxis h 0 b))
    SameUsed h b b' ∧ (∀ i, ∃ c, b.1 ≤ c ∧ c ≤ b.2 ∧ h c ≠ 0 ∧ c i = b'.1 i) ∧
      ∀ i, ∃ c, b.1 ≤ c ∧ c ≤ b.2 ∧ h c ≠ 0 ∧ c i = b'.2 i := by
  intro b'
  obtain ⟨p1, p2, p3, p4⟩ := shrinkAxis_spec 0 hne
  have mv : ∀ {b b' : V × V}, SameUsed h b b' → (∃ c, b.1 ≤ c ∧ c ≤ b.2 ∧ h c ≠ 0) → ∃ c, b'.1 ≤ c ∧ c ≤ b'.2 ∧ h c ≠ 0 := by
    rintro b b' hs ⟨c, h1, h2, h3⟩
    have := (hs c h3).mp ⟨h1, h2⟩
    exact ⟨c, this.1, this.2, h3⟩
  have back : ∀ {b b' : V × V} {P : V → Prop}, SameUsed h b b' → (∃ c, b'.1 ≤ c ∧ c ≤ b'.2 ∧ h c ≠ 0 ∧ P c) →
      ∃ c, b.1 ≤ c ∧ c ≤ b.2 ∧ h c ≠ 0 ∧ P c := by
    rintro b b' P hs ⟨c, h1, h2, h3, h4⟩
    have := (hs c h3).mpr ⟨h1, h2⟩
    exact ⟨c, this.1, this.2, h3, h4⟩
  obtain ⟨q1, q2, q3, q4⟩ := shrinkAxis_spec 1 (mv p1 hne)
  obtain ⟨r1, r2, r3, r4⟩ := shrinkAxis_spec 2 (mv q1 (mv p1 hne))
  have s1 : SameUsed h b (shrinkAxis h 1 (shrinkAxis h 0 b)) := fun c hc => (p1 c hc).trans (q1 c hc)
  refine ⟨fun c hc => (s1 c hc).trans (r1 c hc), forall3.mpr ⟨?_, ?_, ?_⟩, forall3.mpr ⟨?_, ?_, ?_⟩⟩
  · rw [(r2 0 (by decide)).1, (q2 0 (by decide)).1]; exact p3
  · rw [(r2 1 (by decide)).1]; exact back p1 q3
  · exact back s1 r3
  · rw [(r2 0 (by decide)).2, (q2 0 (by decide)).2]; exact p4
  · rw [(r2 1 (by decide)).2]; exact back p1 q4
  · exact back s1 r4

/-! ## `update_box` -/

/-- The corners of a box of the model. -/
def Box.bx (b : Box) : Bx := ⟨b.min, b.max⟩

/-- The statistics of a box are right, and it is in the histogram. -/
structure Stats (k : Cfg) (sc : V) (h : Hist) (b : Box) : Prop where
  inside : CellOk b.max
  le : b.min ≤ b.max
  volume : b.volume = (b.bx.diagonal k sc : Nat)
  count : b.count = b.bx.population h

theorem dims_pos (i : Fin 3) : 0 < dims i := by fin_cases i <;> decide

theorem mem_used {h : Hist} {c : V} : c ∈ used h ↔ CellOk c ∧ h c ≠ 0 := by
  unfold used CellOk
  rw [Finset.mem_filter, Finset.mem_Icc]
  refine and_congr_left fun _ => ⟨fun h i => ?_, fun h => ⟨fun i => Nat.zero_le _, fun i => ?_⟩⟩
  · have := h.2 i; have := dims_pos i; dsimp only at *; omega
  · have := h i; dsimp only; omega



theorem extent_eq {k : Cfg} {sc lo hi : V} {i : Fin 3} (h : lo i ≤ hi i) :
    extent k sc lo hi i = (Bx.length k sc ⟨lo, hi⟩ i : Nat) := by
  unfold extent Bx.length
  push_cast [Nat.cast_sub h]
  rfl

theorem updateBox_spec {k : Cfg} {sc : V} (hsc : scales k = some sc) {h : Hist} {b : Box} (hb : CellOk b.max)
    (hne : ∃ c, b.min ≤ c ∧ c ≤ b.max ∧ h c ≠ 0) :
    ∃ b', updateBox k h b = some b' ∧ Stats k sc h b' ∧
      Bounds ((used h).filter fun c => c ∈ b.bx.cells) b'.bx := by
  obtain ⟨s1, s2, s3⟩ := shrink_spec (h := h) (b := (b.min, b.max)) hne
  unfold updateBox
  rw [hsc]
  simp only [Option.bind_eq_bind, Option.bind_some]
  rw [if_pos hb]
  obtain ⟨r, hr⟩ : ∃ r, r = shrinkAxis h 2 (shrinkAxis h 1 (shrinkAxis h 0 (b.min, b.max))) := ⟨_, rfl⟩
  rw [← hr] at s1 s2 s3 ⊢
  obtain ⟨lo, hi⟩ := r
  dsimp only at s1 s2 s3 ⊢
  have hmax : ∀ i, hi i ≤ b.max i := by
    intro i
    obtain ⟨c, _, g2, _, g4⟩ := s3 i
    rw [← g4]; exact g2 i
  have hle : lo ≤ hi := by
    intro i
    obtain ⟨c, g1, g2, g3, g4⟩ := s2 i
    have := (s1 c g3).mp ⟨g1, g2⟩
    exact le_trans (this.1 i) (this.2 i)
  have hin : ∀ c, c ≤ b.max → CellOk c := fun c hc i => lt_of_le_of_lt (hc i) (hb i)
  refine ⟨_, rfl, ⟨fun i => lt_of_le_of_lt (hmax i) (hb i), hle, ?_, cells_countP h lo hi⟩, ⟨?_, ?_, ?_⟩⟩
  · dsimp only [Box.bx]
    rw [extent_eq (hle 0), extent_eq (hle 1), extent_eq (hle 2)]
    unfold Bx.diagonal
    rw [Fin.sum_univ_three]
    push_cast; ring
  · intro c hc
    rw [Finset.mem_filter, mem_used] at hc
    exact (s1 c hc.1.2).mp (Finset.mem_Icc.mp hc.2)
  · intro i
    obtain ⟨c, g1, g2, g3, g4⟩ := s2 i
    exact ⟨c, by rw [Finset.mem_filter, mem_used]; exact ⟨⟨hin c g2, g3⟩, Finset.mem_Icc.mpr ⟨g1, g2⟩⟩, g4⟩
  · intro i
    obtain ⟨c, g1, g2, g3, g4⟩ := s3 i
    exact ⟨c, by rw [Finset.mem_filter, mem_used]; exact ⟨⟨hin c g2, g3⟩, Finset.mem_Icc.mpr ⟨g1, g2⟩⟩, g4⟩

end Verif.Quant2
