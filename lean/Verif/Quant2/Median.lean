import Verif.Quant2.Cut
/-
The loop of `median_cut` performs a sequence of cuts to its end.
-/
namespace Verif.Quant2

/-- The boxes of the model after some cuts. -/
structure Boxes (k : Cfg) (sc : V) (h : Hist) (bs : List Box) : Prop where
  stats : ∀ b ∈ bs, Stats k sc h b
  cuts : Cuts k sc h (bs.map Box.bx)

theorem get_bx {bs : List Box} {i : Nat} {x : Bx} (h : (bs.map Box.bx)[i]? = some x) :
    ∃ b, bs[i]? = some b ∧ b.bx = x := by
  rw [List.getElem?_map, Option.map_eq_some_iff] at h
  exact h

theorem findPop_spec {k : Cfg} (hk : k.Bits) {sc : V} (hsc : scales k = some sc) {h : Hist} {bs : List Box}
    (hb : Boxes k sc h bs) (hd : ((2 * bs.length : Nat) : Int) ≤ k.desired) :
    (findPop bs = none → ∀ b ∈ bs, b.bx.lo = b.bx.hi) ∧
    ∀ i, findPop bs = some i → ∃ b, bs[i]? = some b ∧ Chosen k sc h (bs.map Box.bx) i b.bx := by
  have hpos : ∀ b ∈ bs, (b.volume > 0 ↔ b.bx.lo ≠ b.bx.hi) := by
    intro b hm
    have := hb.stats b hm
    rw [this.volume, ← diagonal_pos hk hsc this.le]
    omega
  have key := argmax_spec (0 : Nat) Box.count (fun b => b.volume > 0) bs
  dsimp only at key
  obtain ⟨k1, k2⟩ := key
  refine ⟨fun hn b hm => ?_, fun i hi => ?_⟩
  · by_contra hne
    have h1 := (k1 hn).2 b hm ((hpos b hm).mpr hne)
    rw [(hb.stats b hm).count] at h1
    have := (hb.cuts.facts.1 b.bx (List.mem_map_of_mem hm)).pos
    omega
  · obtain ⟨b, g1, g2, g3, g4, g5, g6⟩ := k2 i hi
    have hm := List.mem_of_getElem? g1
    refine ⟨b, g1, ?_⟩
    unfold Chosen
    rw [List.length_map, if_pos hd]
    refine ⟨by rw [List.getElem?_map, g1]; rfl, (hpos b hm).mp g2, fun x hx hP => ?_, fun j hj x hx hP => ?_⟩
    · obtain ⟨b', h1, rfl⟩ := List.mem_map.mp hx
      rw [← (hb.stats b' h1).count, ← (hb.stats b hm).count, g3]
      exact g5 b' h1 ((hpos b' h1).mpr hP)
    · obtain ⟨b', h1, rfl⟩ := get_bx hx
      have h2 := List.mem_of_getElem? h1
      rw [← (hb.stats b' h2).count, ← (hb.stats b hm).count, g3]
      exact g6 j hj b' h1 ((hpos b' h2).mpr hP)

theorem findVolume_spec {k : Cfg} (hk : k.Bits) {sc : V} (hsc : scales k = some sc) {h : Hist} {bs : List Box}
    (hb : Boxes k sc h bs) (hd : ¬ ((2 * bs.length : Nat) : Int) ≤ k.desired) :
    (findVolume bs = none → ∀ b ∈ bs, b.bx.lo = b.bx.hi) ∧
    ∀ i, findVolume bs = some i → ∃ b, bs[i]? = some b ∧ Chosen k sc h (bs.map Box.bx) i b.bx := by
  have hpos : ∀ b ∈ bs, (b.volume > 0 ↔ b.bx.lo ≠ b.bx.hi) := by
    intro b hm
    have := hb.stats b hm
    rw [this.volume, ← diagonal_pos hk hsc this.le]
    omega
  have key := argmax_spec (0 : Int) Box.volume (fun _ => True) bs
  simp only [and_true] at key
  obtain ⟨k1, k2⟩ := key
  refine ⟨fun hn b hm => ?_, fun i hi => ?_⟩
  · by_contra hne
    have h1 := (k1 hn).2 b hm trivial
    have := (hpos b hm).mpr hne
    omega
  · obtain ⟨b, g1, g2, g3, g4, g5, g6⟩ := k2 i hi
    have hm := List.mem_of_getElem? g1
    have hv : ∀ {x y : Nat} {u v : Int}, u = (x : Nat) → v = (y : Nat) → (u ≤ v → x ≤ y) ∧ (u < v → x < y) := by omega
    refine ⟨b, g1, ?_⟩
    unfold Chosen
    rw [List.length_map, if_neg hd]
    refine ⟨by rw [List.getElem?_map, g1]; rfl, (hpos b hm).mp (by omega), fun x hx hP => ?_, fun j hj x hx hP => ?_⟩
    · obtain ⟨b', h1, rfl⟩ := List.mem_map.mp hx
      refine (hv (hb.stats b' h1).volume (hb.stats b hm).volume).1 ?_
      rw [g3]; exact g5 b' h1 trivial
    · obtain ⟨b', h1, rfl⟩ := get_bx hx
      have h2 := List.mem_of_getElem? h1
      refine (hv (hb.stats b' h2).volume (hb.stats b hm).volume).2 ?_
      rw [g3]; exact g6 j hj b' h1 trivial

theorem cutStep_spec {k : Cfg} (hk : k.Bits) {sc : V} (hsc : scales k = some sc) {h : Hist} {bs : List Box}
    (hb : Boxes k sc h bs) (hl : (bs.length : Int) < k.desired) :
    (cutStep k h bs = some none ∧ ∀ b ∈ bs, b.bx.lo = b.bx.hi) ∨
    ∃ bs', cutStep k h bs = some (some bs') ∧ Boxes k sc h bs' ∧ bs'.length = bs.length + 1 := by
  unfold cutStep
  have hch : ((if (bs.length : Int) * 2 ≤ k.desired then findPop bs else findVolume bs) = none →
      ∀ b ∈ bs, b.bx.lo = b.bx.hi) ∧
      ∀ i, (if (bs.length : Int) * 2 ≤ k.desired then findPop bs else findVolume bs) = some i →
        ∃ b, bs[i]? = some b ∧ Chosen k sc h (bs.map Box.bx) i b.bx := by
    by_cases hd : (bs.length : Int) * 2 ≤ k.desired
    · rw [if_pos hd]; exact findPop_spec hk hsc hb (by omega)
    · rw [if_neg hd]; exact findVolume_spec hk hsc hb (by omega)
  obtain ⟨c1, c2⟩ := hch
  cases hf : (if (bs.length : Int) * 2 ≤ k.desired then findPop bs else findVolume bs) with
  | none => exact Or.inl ⟨rfl, c1 hf⟩
  | some i =>
    right
    obtain ⟨b, g1, g2⟩ := c2 i hf
    have hm := List.mem_of_getElem? g1
    have hst := hb.stats b hm
    have hti := hb.cuts.facts.1 b.bx (List.mem_map_of_mem hm)
    have hlong := splitAxis_spec hsc hst.le
    obtain ⟨a, ha⟩ : ∃ a, a = splitAxis k sc b := ⟨_, rfl⟩
    rw [← ha] at hlong
    have halt : b.min a < b.max a := by
      have h1 := (diagonal_pos hk hsc (b := b.bx) hst.le).mpr g2.2.1
      have h2 : 0 < b.bx.length k sc a := by
        by_contra h0
        have hz : ∀ i, b.bx.length k sc i = 0 := fun i => by have := hlong.1 i; omega
        unfold Bx.diagonal at h1
        simp [hz] at h1
      exact (length_pos hk hsc).mp h2
    simp only [g1, hsc, Option.bind_eq_bind, Option.bind_some, ← ha]
    obtain ⟨lb, hlb⟩ : ∃ lb, lb = (b.max a + b.min a) / 2 := ⟨_, rfl⟩
    have hlb' : (b.bx.lo a + b.bx.hi a) / 2 = lb := by rw [hlb, Nat.add_comm]; rfl
    rw [← hlb]
    obtain ⟨d1, d2, d3⟩ := Bounds.lo hti a
    obtain ⟨u1, u2, u3⟩ := Bounds.hi hti a
    rw [Finset.mem_filter, mem_used, Bx.mem_cells] at d2 u2
    have e1 : ∀ c, c ∈ Bx.cells ⟨b.min, Function.update b.max a lb⟩ ↔ c ∈ b.bx.cells ∧ c a ≤ (b.bx.lo a + b.bx.hi a) / 2 := by
      intro c
      rw [hlb', Bx.mem_cells, Bx.mem_cells]
      constructor
      · rintro ⟨h1, h2⟩
        have h3 : c a ≤ lb := by have := h2 a; simpa using this
        refine ⟨⟨h1, fun j => ?_⟩, h3⟩
        by_cases hj : j = a
        · subst hj; exact le_trans h3 (show lb ≤ b.max j by omega)
        · have := h2 j; dsimp only at this; rw [Function.update_of_ne hj] at this; exact this
      · rintro ⟨⟨h1, h2⟩, h3⟩
        refine ⟨h1, fun j => ?_⟩
        dsimp only
        by_cases hj : j = a
        · subst hj; rw [Function.update_self]; exact h3
        · rw [Function.update_of_ne hj]; exact h2 j
    have e2 : ∀ c, c ∈ Bx.cells ⟨Function.update b.min a (lb + 1), b.max⟩ ↔
        c ∈ b.bx.cells ∧ (b.bx.lo a + b.bx.hi a) / 2 < c a := by
      intro c
      rw [hlb', Bx.mem_cells, Bx.mem_cells]
      constructor
      · rintro ⟨h1, h2⟩
        have h3 : lb + 1 ≤ c a := by have := h1 a; simpa using this
        refine ⟨⟨fun j => ?_, h2⟩, h3⟩
        by_cases hj : j = a
        · subst hj; exact le_trans (show b.min j ≤ lb + 1 by omega) h3
        · have := h1 j; dsimp only at this; rw [Function.update_of_ne hj] at this; exact this
      · rintro ⟨⟨h1, h2⟩, h3⟩
        refine ⟨fun j => ?_, h2⟩
        dsimp only
        by_cases hj : j = a
        · subst hj; rw [Function.update_self]; exact h3
        · rw [Function.update_of_ne hj]; exact h1 j
    have hin1 : CellOk (Function.update b.max a lb) := by
      intro j
      by_cases hj : j = a
      · subst hj; rw [Function.update_self]; exact lt_of_le_of_lt (show lb ≤ b.max j by omega) (hst.inside j)
      · rw [Function.update_of_ne hj]; exact hst.inside j
    have n1 := Bx.mem_cells.mp ((e1 d1).mpr ⟨Bx.mem_cells.mpr d2.2, by
      rw [hlb', d3]; show b.min a ≤ lb; omega⟩)
    have n2 := Bx.mem_cells.mp ((e2 u1).mpr ⟨Bx.mem_cells.mpr u2.2, by
      rw [hlb', u3]; show lb < b.max a; omega⟩)
    obtain ⟨b1, x1, x2, x3⟩ := updateBox_spec hsc (b := { b with max := Function.update b.max a lb }) hin1
      ⟨d1, n1.1, n1.2, d2.1.2⟩
    obtain ⟨b2, y1, y2, y3⟩ := updateBox_spec hsc (b := { b with min := Function.update b.min a (lb + 1) }) hst.inside
      ⟨u1, n2.1, n2.2, u2.1.2⟩
    rw [x1, y1]
    refine ⟨_, rfl, ⟨?_, ?_⟩, by simp⟩
    · intro x hx
      rw [List.mem_append, List.mem_singleton] at hx
      rcases hx with hx | rfl
      · rcases List.mem_or_eq_of_mem_set hx with hx | rfl
        · exact hb.stats x hx
        · exact x2
      · exact y2
    · rw [List.map_append, List.map_set]
      refine Cuts.split hb.cuts (by rw [List.length_map]; exact hl) g2 hlong ?_ ?_
      · have : ((used h).filter fun c => c ∈ Bx.cells ⟨b.min, Function.update b.max a lb⟩) =
            (used h).filter fun c => c ∈ b.bx.cells ∧ c a ≤ (b.bx.lo a + b.bx.hi a) / 2 :=
          Finset.filter_congr fun c _ => e1 c
        rw [← this]; exact x3
      · have : ((used h).filter fun c => c ∈ Bx.cells ⟨Function.update b.min a (lb + 1), b.max⟩) =
            (used h).filter fun c => c ∈ b.bx.cells ∧ (b.bx.lo a + b.bx.hi a) / 2 < c a :=
          Finset.filter_congr fun c _ => e2 c
        rw [← this]; exact y3

theorem medianCut_spec {k : Cfg} (hk : k.Bits) {sc : V} (hsc : scales k = some sc) {h : Hist} :
    ∀ (f : Nat) {bs : List Box}, Boxes k sc h bs → k.desired ≤ bs.length + f →
    ∃ bs', medianCut k h f bs = some bs' ∧ Boxes k sc h bs' ∧
      (k.desired ≤ bs'.length ∨ ∀ b ∈ bs', b.bx.lo = b.bx.hi) := by
  intro f
  induction f with
  | zero => intro bs hb hd; exact ⟨bs, rfl, hb, Or.inl (by omega)⟩
  | succ f ih =>
    intro bs hb hd
    unfold medianCut
    by_cases hl : (bs.length : Int) < k.desired
    · rw [if_pos hl]
      rcases cutStep_spec hk hsc hb hl with ⟨h1, h2⟩ | ⟨bs', h1, h2, h3⟩
      · rw [h1]
        exact ⟨bs, rfl, hb, Or.inr h2⟩
      · rw [h1]
        exact ih h2 (by omega)
    · rw [if_neg hl]
      exact ⟨bs, rfl, hb, Or.inl (by omega)⟩

end Verif.Quant2
