import Verif.Geom.Walk
/-
Property C37, decoder side: the single-pass decompressor runs the inverse DCT on exactly the in-image blocks of each
MCU, each at its own place.
-/
namespace Verif.Geom

/-- Whether an entry of an MCU is inside the image, in terms of the loop variables of the controllers. -/
theorem inImage_mcu {f : Frame} (G : Good f) {idx : List Nat} {s : Scan} (hi : ∀ i ∈ idx, i < f.comps.length)
    (h : cPerScan f idx = .ok s) {i yoff m : Nat} (hw : InWalk f s i yoff m) {c : ScanComp} (hc : c ∈ s.comps)
    {x y : Nat} (hx : x < c.mcuWidth) (hy : y < c.mcuHeight) :
    inImage f (c.ci, i * (f.comp c.ci).v + yoff + y, m * c.mcuWidth + x) = true ↔
      (i < f.totalRows - 1 ∨ yoff + y < c.lastRowHeight) ∧
        x < (if m < s.mcusPerRow - 1 then c.mcuWidth else c.lastColWidth) := by
  obtain ⟨w1, w2, w3⟩ := hw
  have hiff : ∀ j r q, j < f.comps.length → (inImage f (j, r, q) = true ↔
      r < (f.comp j).heightInBlocks ∧ q < (f.comp j).widthInBlocks) := by
    intro j r q hj
    unfold inImage
    simp only [Bool.and_eq_true, decide_eq_true_eq]
    exact ⟨fun h => ⟨h.1.2, h.2⟩, fun h => ⟨⟨hj, h.1⟩, h.2⟩⟩
  rcases scan_ok h with ⟨j, rfl, hs, hm, hr, -⟩ | ⟨hl, -, hs, hm, hr, -⟩
  · rw [hs, List.mem_singleton] at hc
    subst hc
    simp only [singleComp] at hx hy ⊢
    have hj := hi j (by simp)
    obtain ⟨a, b, c, d, -, e⟩ := G.facts hj
    rw [rowsPer_single hs] at w2
    have hyv : yoff < (f.comp j).v := by
      have := lastPart_le (n := (f.comp j).heightInBlocks) b
      split at w2 <;> omega
    have hrow := group_lt d b (e ▸ w1) hyv
    rw [e] at hrow
    obtain rfl : x = 0 := by omega
    obtain rfl : y = 0 := by omega
    rw [hiff _ _ _ hj, Nat.add_zero, Nat.add_zero, Nat.mul_one, Nat.add_zero, hrow]
    simp only [ite_self, Nat.zero_lt_one, and_true, and_iff_left_iff_imp]
    intro _
    omega
  · rw [hs] at hc
    obtain ⟨j, hj, rfl⟩ := List.mem_map.1 hc
    simp only [multiComp] at hx hy ⊢
    rw [rowsPer_multi hs hl] at w2
    obtain rfl : yoff = 0 := by omega
    obtain ⟨a, b, c, d, e1, e⟩ := G.facts (hi j hj)
    have hrow := group_lt d b (e ▸ w1) hy
    rw [e] at hrow
    have hwm : m < divRoundUp (f.comp j).widthInBlocks (f.comp j).h := by rw [e1, ← hm]; exact w3
    have hcol := group_lt (k := x) c a hwm hx
    rw [e1, ← hm] at hcol
    rw [hiff _ _ _ (hi j hj), Nat.add_zero, Nat.zero_add, hrow, hcol]
    apply and_congr Iff.rfl
    have hlp := lastPart_le (n := (f.comp j).widthInBlocks) a
    by_cases hmm : m < s.mcusPerRow - 1
    · rw [if_pos hmm]; exact ⟨fun _ => hx, fun _ => .inl hmm⟩
    · rw [if_neg hmm]; simp [hmm]

/-- The entries of an MCU that lie in the image, with their indices in the MCU. -/
def realEntries (f : Frame) (ps : List Pos) : List (Nat × Pos) :=
  (ps.zipIdx.filter (fun q => inImage f q.1)).map (fun q => (q.2, q.1))

theorem realEntries_append (f : Frame) (a b : List Pos) : realEntries f (a ++ b) = realEntries f a ++
    ((b.zipIdx a.length).filter (fun q => inImage f q.1)).map (fun q => (q.2, q.1)) := by
  unfold realEntries
  rw [List.zipIdx_append, List.filter_append, List.map_append, Nat.zero_add]

theorem filter_row (g : Nat → Pos) (f : Frame) (k B w : Nat) (hB : B ≤ w)
    (h : ∀ x, x < w → (inImage f (g x) = true ↔ x < B)) :
    ((((List.range w).map g).zipIdx k).filter (fun q => inImage f q.1)).map (fun q => (q.2, q.1)) =
      (List.range B).map (fun x => (k + x, g x)) := by
  have e : ((List.range w).map g).zipIdx k = (List.range w).map (fun x => (g x, k + x)) := by
    apply List.ext_getElem
    · simp
    · intro n h1 h2
      simp
  rw [e, range_split _ hB, List.filter_append, List.map_append]
  rw [List.filter_eq_self.2, List.filter_eq_nil_iff.2]
  · rw [List.map_nil, List.append_nil, List.map_map]; rfl
  · intro q hq
    obtain ⟨x, hx, rfl⟩ := List.mem_map.1 hq
    have hx := List.mem_range.1 hx
    simp only
    rw [h _ (by omega)]
    omega
  · intro q hq
    obtain ⟨x, hx, rfl⟩ := List.mem_map.1 hq
    have hx := List.mem_range.1 hx
    simp only
    exact (h _ (by omega)).2 hx

theorem foldl_inv {α β γ : Type} (step : γ → β → γ) (grow : β → List α) (P : List α → γ) (l : List β)
    (hstep : ∀ L b, b ∈ l → step (P L) b = P (L ++ grow b)) (L : List α) :
    l.foldl step (P L) = P (L ++ l.flatMap grow) := by
  induction l generalizing L with
  | nil => simp
  | cons b l ih =>
    rw [List.foldl_cons, hstep L b (by simp), ih (fun L b hb => hstep L b (by simp [hb])), List.flatMap_cons,
      List.append_assoc]

/-- C37, decoder side: for every image, scan and MCU, the single-pass decompressor applies the inverse DCT to exactly
those entries of the MCU whose position is in the image, and writes each to that position. -/
theorem onepass_idct_exact (ll : Bool) (w ht ic prec : Nat) (fs : List (Nat × Nat)) (f : Frame)
    (h : cInitialSetup ll w ht ic prec fs = .ok f) (idx : List Nat) (hi : ∀ i ∈ idx, i < fs.length) (s : Scan)
    (hs : cPerScan f idx = .ok s) (i yoff m : Nat) (hw : InWalk f s i yoff m) :
    dOnepassMcu f s i yoff m = realEntries f (dMcu f s i yoff m) := by
  obtain ⟨G, hlen, -⟩ := good_of_setup h
  rw [← hlen] at hi
  unfold dOnepassMcu dMcu
  have key := foldl_inv (α := Pos) (β := ScanComp) (fun (acc : List (Nat × Pos) × Nat) c =>
      let useful := if m < s.mcusPerRow - 1 then c.mcuWidth else c.lastColWidth
      (List.range c.mcuHeight).foldl (fun (acc : List (Nat × Pos) × Nat) y =>
        (if i < f.totalRows - 1 ∨ yoff + y < c.lastRowHeight then
          acc.1 ++ (List.range useful).map (fun x =>
            (acc.2 + x, (c.ci, i * (f.comps.getD c.ci default).v + yoff + y, m * c.mcuWidth + x)))
         else acc.1, acc.2 + c.mcuWidth)) acc)
    (fun c => (List.range c.mcuHeight).flatMap fun y => (List.range c.mcuWidth).map fun x =>
      ((c.ci, i * (f.comps.getD c.ci default).v + (y + yoff), m * c.mcuWidth + x) : Pos))
    (fun L => (realEntries f L, L.length)) s.comps ?_ []
  · have h0 : (([], 0) : List (Nat × Pos) × Nat) = (fun L => (realEntries f L, L.length)) [] := rfl
    rw [h0, key, List.nil_append]
  · intro L c hc
    simp only
    apply foldl_inv (fun (acc : List (Nat × Pos) × Nat) y =>
        (if i < f.totalRows - 1 ∨ yoff + y < c.lastRowHeight then
          acc.1 ++ (List.range (if m < s.mcusPerRow - 1 then c.mcuWidth else c.lastColWidth)).map (fun x =>
            (acc.2 + x, (c.ci, i * (f.comps.getD c.ci default).v + yoff + y, m * c.mcuWidth + x)))
         else acc.1, acc.2 + c.mcuWidth))
      (fun y => (List.range c.mcuWidth).map fun x =>
        ((c.ci, i * (f.comps.getD c.ci default).v + (y + yoff), m * c.mcuWidth + x) : Pos))
      (fun L => (realEntries f L, L.length))
    intro L y hy
    have hy := List.mem_range.1 hy
    have hin := fun x hx => inImage_mcu G hi hs hw hc (x := x) hx hy
    simp only
    rw [Prod.mk.injEq]
    refine ⟨?_, by simp⟩
    rw [realEntries_append]
    have harr : i * (f.comp c.ci).v + (y + yoff) = i * (f.comp c.ci).v + yoff + y := by omega
    have hle : (if m < s.mcusPerRow - 1 then c.mcuWidth else c.lastColWidth) ≤ c.mcuWidth := by
      split
      · exact Nat.le_refl _
      · rcases scan_ok hs with ⟨j, rfl, hsc, -⟩ | ⟨hl, -, hsc, -⟩
        · rw [hsc, List.mem_singleton] at hc
          subst hc; exact Nat.le_refl _
        · rw [hsc] at hc
          obtain ⟨j, hj, rfl⟩ := List.mem_map.1 hc
          exact lastPart_le (G.facts (hi j hj)).1
    split
    · rename_i hc1
      rw [filter_row _ f _ _ _ hle (by
        intro x hx
        show inImage f (c.ci, i * (f.comp c.ci).v + (y + yoff), m * c.mcuWidth + x) = true ↔ _
        rw [harr, hin x hx]
        simp [hc1])]
      congr 1
      apply List.map_congr_left
      intro x _
      show _ = (L.length + x, (c.ci, i * (f.comp c.ci).v + (y + yoff), m * c.mcuWidth + x))
      rw [harr]
    · rename_i hc1
      rw [filter_row _ f _ 0 _ (Nat.zero_le _) (by
        intro x hx
        show inImage f (c.ci, i * (f.comp c.ci).v + (y + yoff), m * c.mcuWidth + x) = true ↔ _
        rw [harr, hin x hx]
        simp [hc1])]
      simp

/-- Non-vacuity: a 35x21 4:2:0 image has an MCU at the bottom right corner with padding in it: of its 6 entries, the
single-pass decompressor transforms 3. -/
example : ∃ f s, cInitialSetup false 35 21 3 8 [(2, 2), (1, 1), (1, 1)] = .ok f ∧ cPerScan f [0, 1, 2] = .ok s ∧
    InWalk f s 1 0 2 ∧ (dMcu f s 1 0 2).length = 6 ∧ (dOnepassMcu f s 1 0 2).map (·.1) = [0, 4, 5] := by
  refine ⟨_, _, rfl, rfl, ?_, ?_, ?_⟩
  · unfold InWalk; decide +kernel
  · decide +kernel
  · decide +kernel

end Verif.Geom
