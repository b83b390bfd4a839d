import Verif.Quant2.Median
import Verif.Quant1.Tables
/-
The representative colours: `compute_color` is the rounded weighted mean, `select_colors` fills the colour map.
-/
namespace Verif.Quant2
open Verif.Color (castSample)
open Verif.Quant1 (forN rd wr rd_nat wr_nat get_set forN_inv castSample_of_lt)

theorem size_mul {k : Cfg} (hk : k.Bits) (i : Fin 3) : size k i * dims i = 2 * k.c := by
  unfold size
  rcases hk with h | h <;> rw [h] <;> fin_cases i <;> decide

theorem cellOf_eq {k : Cfg} (hk : k.Bits) (p : V) : (fun i => p i / size k i) = cellOf k p := by
  funext i
  unfold cellOf
  rw [← size_mul hk i, Nat.mul_div_mul_right _ _ (dims_pos i)]

theorem centre_eq {k : Cfg} (hk : k.Bits) (c : V) : cellCentre k c = centre k c := by
  funext i
  unfold cellCentre centre
  rw [← size_mul hk i, ← Nat.mul_assoc, Nat.mul_div_mul_right _ _ (dims_pos i)]
  have : (2 * c i + 1) * size k i = size k i + 2 * (c i * size k i) := by ring
  rw [this, Nat.add_mul_div_left _ _ (by omega)]
  omega

theorem max_eq {k : Cfg} (hk : k.Bits) : k.max + 1 = 2 * k.c := by
  unfold Cfg.max; rcases hk with h | h <;> omega

theorem cell_ok {k : Cfg} (hk : k.Bits) {p : V} (hp : ∀ i, p i ≤ k.max) : CellOk (cellOf k p) := by
  rw [← cellOf_eq hk]
  intro i
  dsimp only
  rw [Nat.div_lt_iff_lt_mul (size_pos hk i), Nat.mul_comm, size_mul hk i, ← max_eq hk]
  have := hp i
  omega

theorem centre_le {k : Cfg} (hk : k.Bits) {c : V} (hc : CellOk c) (i : Fin 3) : centre k c i ≤ k.max := by
  rw [← centre_eq hk]
  unfold cellCentre
  have h1 := size_mul hk i
  have h2 := max_eq hk
  have h3 : (c i + 1) * size k i ≤ dims i * size k i := Nat.mul_le_mul_right _ (hc i)
  have h4 := size_pos hk i
  rw [Nat.mul_comm (dims i), h1] at h3
  have h5 : (c i + 1) * size k i = c i * size k i + size k i := by ring
  omega

/-- The number of pixels counted in the histogram. -/
def total (h : Hist) : Nat := ∑ c ∈ Finset.Icc (fun _ => 0) (fun i => dims i - 1), h c

theorem weight_le {h : Hist} {b : Bx} (hb : CellOk b.hi) : b.weight h ≤ total h := by
  unfold Bx.weight total Bx.cells
  refine Finset.sum_le_sum_of_subset ?_
  intro c hc
  rw [Finset.mem_Icc] at hc ⊢
  refine ⟨fun i => Nat.zero_le _, fun i => ?_⟩
  have h1 : c i ≤ b.hi i := hc.2 i
  have := hb i
  show c i ≤ dims i - 1
  omega

theorem sum_le {k : Cfg} (hk : k.Bits) {h : Hist} {b : Bx} (hb : CellOk b.hi) (i : Fin 3) :
    ∑ c ∈ b.cells, centre k c i * h c ≤ k.max * b.weight h := by
  unfold Bx.weight
  rw [Finset.mul_sum]
  refine Finset.sum_le_sum fun c hc => Nat.mul_le_mul_right _ (centre_le hk (fun i => ?_) i)
  exact lt_of_le_of_lt ((Bx.mem_cells.mp hc).2 i) (hb i)

theorem Tight.weight_pos {h : Hist} {b : Bx} (hb : Tight h b) : 0 < b.weight h := by
  obtain ⟨d, d1, _⟩ := Bounds.lo hb 0
  rw [Finset.mem_filter, mem_used] at d1
  exact Finset.sum_pos' (fun _ _ => Nat.zero_le _) ⟨d, d1.2, Nat.pos_of_ne_zero d1.1.2⟩

theorem mean_le {k : Cfg} (hk : k.Bits) {h : Hist} {b : Bx} (hb : CellOk b.hi) (hw : 0 < b.weight h) (i : Fin 3) :
    b.mean k h i ≤ k.max := by
  have h1 := sum_le hk (h := h) hb i
  unfold Bx.mean
  generalize ∑ c ∈ b.cells, centre k c i * h c = S at *
  generalize b.weight h = W at *
  rw [← Nat.lt_succ_iff, Nat.div_lt_iff_lt_mul (by omega)]
  have : (k.max).succ * (2 * W) = 2 * (k.max * W) + 2 * W := by rw [Nat.succ_eq_add_one]; ring
  omega

theorem computeColor_spec {k : Cfg} (hk : k.Bits) {h : Hist} {b : Box} (ht : Tight h b.bx)
    (hl : total h * (k.max + 1) ≤ k.longMax) : computeColor k h b = some (b.bx.mean k h) := by
  have hin := ht.inside
  have hw := ht.weight_pos
  have hwl := weight_le (h := h) hin
  unfold computeColor
  have e1 : ((cells b.min b.max).map h).sum = b.bx.weight h := cells_sum _ _ _
  have e2 : ∀ i, ((cells b.min b.max).map fun c => cellCentre k c i * h c).sum = ∑ c ∈ b.bx.cells, centre k c i * h c := by
    intro i
    rw [cells_sum]
    exact Finset.sum_congr rfl fun c _ => by rw [centre_eq hk]
  simp only [e1, e2]
  have hm : (k.max + 1) * b.bx.weight h ≤ k.longMax := by
    refine le_trans ?_ hl
    rw [Nat.mul_comm]; exact Nat.mul_le_mul_right _ hwl
  have h5 : (k.max + 1) * b.bx.weight h = k.max * b.bx.weight h + b.bx.weight h := by ring
  rw [if_neg]
  · congr 1
    funext i
    have h6 := mean_le hk hin hw i
    have h7 : (∑ c ∈ b.bx.cells, centre k c i * h c + b.bx.weight h / 2) / b.bx.weight h = b.bx.mean k h i := by
      unfold Bx.mean
      rw [← Nat.div_div_eq_div_mul, Nat.add_comm (2 * _), Nat.add_mul_div_left _ _ (by omega), Nat.add_comm]
    rw [h7]
    exact castSample_of_lt hk h6
  · push Not
    refine ⟨hin, by omega, by omega, fun i => ?_⟩
    have := sum_le hk (h := h) hin i
    omega

theorem wholeBox_max {k : Cfg} (hk : k.Bits) (i : Fin 3) : (wholeBox k).max i = dims i - 1 := by
  unfold wholeBox size Cfg.max
  rcases hk with h | h <;> simp only [h] <;> fin_cases i <;> decide

theorem selectColors_spec {k : Cfg} (hk : k.Bits) {sc : V} (hsc : scales k = some sc) {h : Hist} (hne : (used h).Nonempty)
    (hd : 1 ≤ k.desired) (hl : total h * (k.max + 1) ≤ k.longMax) {sv : List V} (hsv : sv.length = k.desired.toNat) :
    ∃ (sv' : List V) (bs : List Bx), selectColors k h sv = some (sv', bs.length) ∧ Cuts k sc h bs ∧
      (k.desired ≤ bs.length ∨ ∀ b ∈ bs, b.lo = b.hi) ∧ sv'.length = k.desired.toNat ∧
      ∀ (i : Nat) (b : Bx), bs[i]? = some b → sv'[i]? = some (b.mean k h) := by
  have hok : CellOk (wholeBox k).max := fun i => by rw [wholeBox_max hk]; have := dims_pos i; omega
  obtain ⟨c0, hc0⟩ := hne
  have hall : ∀ c ∈ used h, c ∈ (wholeBox k).bx.cells := by
    intro c hc
    rw [Bx.mem_cells]
    refine ⟨fun i => Nat.zero_le _, fun i => ?_⟩
    show c i ≤ (wholeBox k).max i
    rw [wholeBox_max hk]
    have := (mem_used.mp hc).1 i
    omega
  have hw := Bx.mem_cells.mp (hall c0 hc0)
  obtain ⟨b, g1, g2, g3⟩ := updateBox_spec hsc (b := wholeBox k) hok ⟨c0, hw.1, hw.2, (mem_used.mp hc0).2⟩
  rw [Finset.filter_true_of_mem hall] at g3
  obtain ⟨bs, m1, m2, m3⟩ := medianCut_spec hk hsc (h := h) k.desired.toNat (bs := [b])
    ⟨fun x hx => by rw [List.mem_singleton] at hx; rw [hx]; exact g2, Cuts.whole g3⟩ (by simp; omega)
  have hfacts := m2.cuts.facts
  have hlen : bs.length ≤ k.desired.toNat := by
    have := hfacts.2.2.2.2
    rw [List.length_map] at this
    omega
  obtain ⟨sv', s1, s2, s3⟩ := forN_inv (f := fun i (sv : List V) => do
      let b ← bs[i]?
      wr sv (i : Int) (← computeColor k h b))
    (fun i (x : List V) => x.length = k.desired.toNat ∧ ∀ j b, j < i → bs[j]? = some b → x[j]? = some (b.bx.mean k h))
    bs.length sv ⟨hsv, fun j b hj => by omega⟩ (by
      rintro i x hi ⟨p1, p2⟩
      have ht := hfacts.1 bs[i].bx (List.mem_map_of_mem (List.getElem_mem hi))
      have hix : i < x.length := by omega
      refine ⟨x.set i (bs[i].bx.mean k h), ?_, by rw [List.length_set]; exact p1, fun j b hj hb => ?_⟩
      · simp only [List.getElem?_eq_getElem hi, Option.bind_eq_bind, Option.bind_some]
        rw [computeColor_spec hk ht hl]
        exact wr_nat hix _
      · rw [get_set hix]
        by_cases he : j = i
        · subst he
          rw [List.getElem?_eq_getElem hi] at hb
          injection hb with hb
          rw [if_pos rfl, hb]
        · rw [if_neg he]; exact p2 j b (by omega) hb)
  refine ⟨sv', bs.map Box.bx, ?_, m2.cuts, ?_, s2, fun i x hx => ?_⟩
  · unfold selectColors
    rw [g1]
    simp only [Option.bind_eq_bind, Option.bind_some]
    rw [m1]
    simp only [Option.bind_some]
    simp only [Option.bind_eq_bind] at s1
    rw [s1, List.length_map]
    rfl
  · rw [List.length_map]
    rcases m3 with h1 | h1
    · exact Or.inl h1
    · refine Or.inr fun x hx => ?_
      obtain ⟨b, hb, rfl⟩ := List.mem_map.mp hx
      exact h1 b hb
  · obtain ⟨b, hb, rfl⟩ := get_bx hx
    exact s3 i b (List.getElem?_eq_some_iff.mp hb).1 hb

end Verif.Quant2
