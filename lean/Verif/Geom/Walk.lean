import Verif.Geom.Lemmas
/-
Property C27: geometry and MCU walks.
-/
namespace Verif.Geom

/-! ## Specification -/

/-- `n` is `a / b` rounded up. -/
def IsCeil (n a b : Nat) : Prop := a ≤ n * b ∧ ∀ k, a ≤ k * b → n ≤ k

/-- A block that belongs to the image (not padding). -/
def inImage (f : Frame) (p : Pos) : Bool :=
  decide (p.1 < f.comps.length) && decide (p.2.1 < (f.comp p.1).heightInBlocks) &&
    decide (p.2.2 < (f.comp p.1).widthInBlocks)

/-- The order of blocks in a scan prescribed by the standard (ITU-T T.81 A.2): one component: its blocks row by row.
Several: MCUs row by row; in an MCU, for each component, `v` rows of `h` blocks. -/
def specWalk (f : Frame) (idx : List Nat) : List (List Pos) :=
  match idx with
  | [i] => (List.range (f.comp i).heightInBlocks).flatMap fun r =>
      (List.range (f.comp i).widthInBlocks).map fun c => [(i, r, c)]
  | _ => (List.range (divRoundUp f.height (f.maxV * f.unit))).flatMap fun my =>
      (List.range (divRoundUp f.width (f.maxH * f.unit))).map fun mx =>
        idx.flatMap fun i => (List.range (f.comp i).v).flatMap fun y => (List.range (f.comp i).h).map fun x =>
          (i, my * (f.comp i).v + y, mx * (f.comp i).h + x)

/-- A position as it must appear in the encoder's MCU: the block itself, or a made-up one outside the image. -/
def classify (f : Frame) (p : Pos) : Slot := if inImage f p then .real p else .dummy

/-! ## Proofs -/

theorem flatMap_congr' {α β : Type} {l : List α} {f g : α → List β} (h : ∀ a ∈ l, f a = g a) :
    l.flatMap f = l.flatMap g := by
  induction l with
  | nil => rfl
  | cons a l ih =>
    rw [List.flatMap_cons, List.flatMap_cons, h a (by simp), ih (fun b hb => h b (by simp [hb]))]

theorem range_split {α : Type} (g : Nat → α) {k n : Nat} (h : k ≤ n) :
    (List.range n).map g = (List.range k).map g ++ (List.range (n - k)).map (fun x => g (k + x)) := by
  obtain ⟨d, rfl⟩ := Nat.exists_eq_add_of_le h
  rw [List.range_add, List.map_append, List.map_map, Nat.add_sub_cancel_left]
  rfl

theorem map_const_range {α : Type} (n : Nat) (g : Nat → α) (a : α) (h : ∀ x < n, g x = a) :
    (List.range n).map g = List.replicate n a := by
  rw [List.map_congr_left (g := fun _ => a) (fun x hx => h x (by simpa using hx))]
  simp

/-- Rows grouped by iMCU row. -/
theorem range_groups (t v last : Nat) (ht : 0 < t) :
    ((List.range t).flatMap fun i => (List.range (if i < t - 1 then v else last)).map fun y => i * v + y) =
      List.range ((t - 1) * v + last) := by
  obtain ⟨q, rfl⟩ : ∃ q, t = q + 1 := ⟨t - 1, by omega⟩
  rw [Nat.add_sub_cancel, List.range_succ, List.flatMap_append]
  have : ∀ n, n ≤ q → ((List.range n).flatMap fun i =>
      (List.range (if i < q then v else last)).map fun y => i * v + y) = List.range (n * v) := by
    intro n
    induction n with
    | zero => simp
    | succ n ih =>
      intro hn
      rw [List.range_succ, List.flatMap_append, ih (by omega)]
      simp only [List.flatMap_cons, List.flatMap_nil, List.append_nil]
      rw [if_pos (by omega), Nat.add_mul, Nat.one_mul, List.range_add]
  rw [this q (Nat.le_refl _)]
  simp only [List.flatMap_cons, List.flatMap_nil, List.append_nil, Nat.lt_irrefl, if_false]
  rw [List.range_add]

/-- Bounds on the loop variables in a walk. -/
theorem rowsPer_single {f : Frame} {s : Scan} {i : Nat} (hs : s.comps = [singleComp f i]) (r : Nat) :
    rowsPerIMCU f s r = if r < f.totalRows - 1 then (f.comp i).v else lastPart (f.comp i).heightInBlocks (f.comp i).v := by
  unfold rowsPerIMCU
  rw [hs]
  rfl

theorem rowsPer_multi {f : Frame} {s : Scan} {idx : List Nat} (hs : s.comps = idx.map (multiComp f))
    (h1 : 1 < idx.length) (r : Nat) : rowsPerIMCU f s r = 1 := by
  unfold rowsPerIMCU
  rw [hs, List.length_map, if_pos h1]

theorem dWalk_eq_spec {f : Frame} (G : Good f) {idx : List Nat} {s : Scan} (hi : ∀ i ∈ idx, i < f.comps.length)
    (h : cPerScan f idx = .ok s) : walk f s (dMcu f s) = specWalk f idx := by
  rcases scan_ok h with ⟨i, rfl, hs, hm, hr, -⟩ | ⟨hl, -, hs, hm, hr, -⟩
  · obtain ⟨a, b, c, d, -, e⟩ := G.facts (hi i (by simp))
    have ht : 0 < f.totalRows := by rw [← e]; exact divRoundUp_pos d b
    unfold walk
    show _ = (List.range (f.comp i).heightInBlocks).flatMap fun r =>
      (List.range (f.comp i).widthInBlocks).map fun c => [(i, r, c)]
    have hb := lastPart_spec d b
    rw [e] at hb
    have hb2 : List.range (f.comp i).heightInBlocks = _ := (congrArg List.range hb.symm).trans (range_groups _ _ _ ht).symm
    rw [hb2, List.flatMap_assoc]
    apply flatMap_congr'
    intro r hr'
    rw [rowsPer_single hs, List.flatMap_map]
    apply flatMap_congr'
    intro y _
    rw [hm]
    apply List.map_congr_left
    intro m _
    unfold dMcu
    rw [hs]
    simp [singleComp]
  · have hne : ∀ {β : Type} (a : Nat → β) (b : List Nat → β), (match idx with | [i] => a i | _ => b idx) = b idx := by
      intro β a b
      match idx, hl with
      | _ :: _ :: _, _ => rfl
    unfold walk
    have : specWalk f idx = (List.range (divRoundUp f.height (f.maxV * f.unit))).flatMap fun my =>
      (List.range (divRoundUp f.width (f.maxH * f.unit))).map fun mx =>
        idx.flatMap fun i => (List.range (f.comp i).v).flatMap fun y => (List.range (f.comp i).h).map fun x =>
          (i, my * (f.comp i).v + y, mx * (f.comp i).h + x) := by
      unfold specWalk
      match idx, hl with
      | _ :: _ :: _, _ => rfl
    rw [this, ← G.total]
    apply flatMap_congr'
    intro my _
    rw [rowsPer_multi hs hl, hm]
    simp only [List.range_one, List.flatMap_cons, List.flatMap_nil, List.append_nil]
    apply List.map_congr_left
    intro mx _
    unfold dMcu
    rw [hs, List.flatMap_map]
    rfl

/-- The loop variables of the walk. -/
def InWalk (f : Frame) (s : Scan) (i yoff m : Nat) : Prop :=
  i < f.totalRows ∧ yoff < rowsPerIMCU f s i ∧ m < s.mcusPerRow

/-- One MCU: the encoder's slots are the decoder's positions, classified. -/
theorem cMcu_eq {f : Frame} (G : Good f) {idx : List Nat} {s : Scan} (hi : ∀ i ∈ idx, i < f.comps.length)
    (h : cPerScan f idx = .ok s) {i yoff m : Nat} (hw : InWalk f s i yoff m) :
    cMcu f s i yoff m = (dMcu f s i yoff m).map (classify f) := by
  obtain ⟨w1, w2, w3⟩ := hw
  rcases scan_ok h with ⟨j, rfl, hs, hm, hr, -⟩ | ⟨hl, -, hs, hm, hr, -⟩
  · obtain ⟨a, b, c, d, -, e⟩ := G.facts (hi j (by simp))
    rw [rowsPer_single hs] at w2
    have hy : yoff < (f.comp j).v := by
      have := lastPart_le (n := (f.comp j).heightInBlocks) b
      split at w2 <;> omega
    have hrow := (group_lt d b (e ▸ w1) hy)
    rw [e] at hrow
    have hrow' : i * (f.comp j).v + yoff < (f.comp j).heightInBlocks := by
      rw [hrow]
      split at w2
      · exact .inl ‹_›
      · exact .inr w2
    have hcond : i < f.totalRows - 1 ∨ yoff < lastPart (f.comp j).heightInBlocks (f.comp j).v := by
      rw [← hrow]; exact hrow'
    unfold cMcu dMcu
    rw [hs]
    have hin : inImage f (j, i * (f.comp j).v + yoff, m) = true := by
      unfold inImage
      simp only [Bool.and_eq_true, decide_eq_true_eq]
      exact ⟨⟨hi j (by simp), hrow'⟩, by rw [← hm]; exact w3⟩
    simp only [singleComp, List.flatMap_cons, List.flatMap_nil, List.append_nil, List.range_one, Nat.zero_add,
      List.map_cons, List.map_nil, Nat.mul_one, Nat.add_zero, ite_self, Nat.sub_self, List.replicate_zero]
    rw [if_pos hcond]
    unfold classify
    rw [if_pos hin]
  · unfold cMcu dMcu
    rw [hs, List.flatMap_map, List.flatMap_map, List.map_flatMap]
    rw [rowsPer_multi hs hl] at w2
    have hy0 : yoff = 0 := by omega
    subst hy0
    apply flatMap_congr'
    intro j hj
    obtain ⟨a, b, c, d, e1, e⟩ := G.facts (hi j hj)
    dsimp only [multiComp]
    simp only [Nat.add_zero]
    rw [List.map_flatMap]
    apply flatMap_congr'
    intro y hy
    have hy : y < (f.comp j).v := by simpa using hy
    have hrow := group_lt d b (e ▸ w1) hy
    rw [e] at hrow
    rw [List.map_map]
    have hwm : m < divRoundUp (f.comp j).widthInBlocks (f.comp j).h := by rw [e1, ← hm]; exact w3
    have hcol := fun x hx => group_lt (k := x) c a hwm hx
    rw [e1, ← hm] at hcol
    have hlp := lastPart_le (n := (f.comp j).widthInBlocks) a
    obtain ⟨B, hB, hBo⟩ : ∃ B, (if m < s.mcusPerRow - 1 then (f.comp j).h else
        lastPart (f.comp j).widthInBlocks (f.comp j).h) = B ∧ ((m < s.mcusPerRow - 1 ∧ B = (f.comp j).h) ∨
        (¬ m < s.mcusPerRow - 1 ∧ B = lastPart (f.comp j).widthInBlocks (f.comp j).h)) := by
      refine ⟨_, rfl, ?_⟩
      split
      · exact .inl ⟨‹_›, rfl⟩
      · exact .inr ⟨‹_›, rfl⟩
    have hbc : B ≤ (f.comp j).h := by omega
    by_cases hc : i < f.totalRows - 1 ∨ y < lastPart (f.comp j).heightInBlocks (f.comp j).v
    · refine (if_pos hc).trans ?_
      rw [hB, range_split _ hbc]
      have hrow' := hrow.2 hc
      congr 1
      · apply List.map_congr_left
        intro x hx
        have hx := List.mem_range.1 hx
        have hxh : x < (f.comp j).h := by omega
        have hin : inImage f (j, i * (f.comp j).v + y, m * (f.comp j).h + x) = true := by
          unfold inImage
          simp only [Bool.and_eq_true, decide_eq_true_eq]
          exact ⟨⟨hi j hj, hrow'⟩, (hcol x hxh).2 (by omega)⟩
        simp only [Function.comp, classify]
        rw [if_pos hin]
      · symm
        apply map_const_range
        intro x hx
        have hnot : inImage f (j, i * (f.comp j).v + y, m * (f.comp j).h + (B + x)) = false := by
          rw [Bool.eq_false_iff]
          unfold inImage
          simp only [ne_eq, Bool.and_eq_true, decide_eq_true_eq, not_and]
          intro _ hcon
          have := (hcol _ (by omega)).1 hcon
          omega
        simp only [Function.comp, classify]
        rw [hnot]; rfl
    · refine (if_neg hc).trans ?_
      symm
      apply map_const_range
      intro x _
      have hnot : inImage f (j, i * (f.comp j).v + y, m * (f.comp j).h + x) = false := by
        rw [Bool.eq_false_iff]
        unfold inImage
        simp only [ne_eq, Bool.and_eq_true, decide_eq_true_eq, not_and]
        intro hcon
        exact absurd (hrow.1 hcon.2) hc
      simp only [Function.comp, classify]
      rw [hnot]; rfl

theorem walk_congr {α : Type} {f : Frame} {s : Scan} {g g' : Nat → Nat → Nat → α}
    (h : ∀ i yoff m, InWalk f s i yoff m → g i yoff m = g' i yoff m) : walk f s g = walk f s g' := by
  unfold walk
  apply flatMap_congr'
  intro i h1
  apply flatMap_congr'
  intro y h2
  apply List.map_congr_left
  intro m h3
  exact h i y m ⟨by simpa using h1, by simpa using h2, by simpa using h3⟩

theorem walk_map {α β : Type} (f : Frame) (s : Scan) (g : Nat → Nat → Nat → α) (k : α → β) :
    walk f s (fun i y m => k (g i y m)) = (walk f s g).map k := by
  unfold walk
  simp only [List.map_flatMap, List.map_map]
  rfl

theorem cWalk_eq {f : Frame} (G : Good f) {idx : List Nat} {s : Scan} (hi : ∀ i ∈ idx, i < f.comps.length)
    (h : cPerScan f idx = .ok s) : walk f s (cMcu f s) = (specWalk f idx).map (fun m => m.map (classify f)) := by
  rw [← dWalk_eq_spec G hi h, ← walk_map]
  exact walk_congr fun i y m hw => cMcu_eq G hi h hw

/-! ### Every block once -/

theorem nodup_flatMap_of_inj {α β : Type} {l : List α} {f : α → List β} (hl : l.Nodup) (h1 : ∀ a ∈ l, (f a).Nodup)
    (h2 : ∀ a ∈ l, ∀ b ∈ l, ∀ x, x ∈ f a → x ∈ f b → a = b) : (l.flatMap f).Nodup := by
  rw [List.nodup_flatMap]
  refine ⟨h1, ?_⟩
  induction l with
  | nil => exact List.Pairwise.nil
  | cons a l ih =>
    rw [List.nodup_cons] at hl
    refine List.Pairwise.cons ?_ (ih hl.2 (fun b hb => h1 b (by simp [hb]))
      (fun b hb c hc => h2 b (by simp [hb]) c (by simp [hc])))
    intro b hb x hx hy
    have := h2 a (by simp) b (by simp [hb]) x hx hy
    subst this
    exact hl.1 hb

theorem div_of_group {v q k r : Nat} (h : r = q * v + k) (hk : k < v) : q = r / v ∧ k = r % v := by
  subst h
  have hv : 0 < v := by omega
  rw [Nat.mul_comm]
  refine ⟨?_, ?_⟩
  · rw [Nat.mul_add_div hv, Nat.div_eq_of_lt hk]; rfl
  · rw [Nat.mul_add_mod, Nat.mod_eq_of_lt hk]

theorem specWalk_multi {f : Frame} {idx : List Nat} (hl : 1 < idx.length) :
    specWalk f idx = (List.range (divRoundUp f.height (f.maxV * f.unit))).flatMap fun my =>
      (List.range (divRoundUp f.width (f.maxH * f.unit))).map fun mx =>
        idx.flatMap fun i => (List.range (f.comp i).v).flatMap fun y => (List.range (f.comp i).h).map fun x =>
          (i, my * (f.comp i).v + y, mx * (f.comp i).h + x) := by
  unfold specWalk
  match idx, hl with
  | _ :: _ :: _, _ => rfl

theorem flatten_flatMap {α β : Type} (l : List α) (g : α → List (List β)) :
    (l.flatMap g).flatten = l.flatMap (fun a => (g a).flatten) := by
  induction l with
  | nil => rfl
  | cons a l ih => rw [List.flatMap_cons, List.flatMap_cons, List.flatten_append, ih]

theorem flatten_map {α β : Type} (l : List α) (g : α → List β) : (l.map g).flatten = l.flatMap g := rfl

theorem spec_nodup {f : Frame} {idx : List Nat} (hnd : idx.Nodup) (hne : idx ≠ []) : (specWalk f idx).flatten.Nodup := by
  rcases Nat.lt_or_ge 1 idx.length with hl | hl
  · rw [specWalk_multi hl, flatten_flatMap]
    simp only [flatten_map]
    apply nodup_flatMap_of_inj List.nodup_range
    · intro my _
      apply nodup_flatMap_of_inj List.nodup_range
      · intro mx _
        apply nodup_flatMap_of_inj hnd
        · intro i _
          apply nodup_flatMap_of_inj List.nodup_range
          · intro y _
            apply List.Nodup.map _ List.nodup_range
            intro x x' e
            simp only [Prod.mk.injEq, true_and, and_true] at e
            omega
          · intro y _ y' _ p h1 h2
            simp only [List.mem_map, List.mem_range] at h1 h2
            obtain ⟨x, -, rfl⟩ := h1
            obtain ⟨x', -, e⟩ := h2
            simp only [Prod.mk.injEq] at e
            omega
        · intro i _ i' _ p h1 h2
          simp only [List.mem_flatMap, List.mem_map, List.mem_range] at h1 h2
          obtain ⟨y, -, x, -, rfl⟩ := h1
          obtain ⟨y', -, x', -, e⟩ := h2
          simp only [Prod.mk.injEq] at e
          exact e.1.symm
      · intro mx _ mx' _ p h1 h2
        simp only [List.mem_flatMap, List.mem_map, List.mem_range] at h1 h2
        obtain ⟨i, -, y, -, x, hx, rfl⟩ := h1
        obtain ⟨i', -, y', -, x', hx', e⟩ := h2
        simp only [Prod.mk.injEq] at e
        obtain ⟨rfl, -, e⟩ := e
        exact (div_of_group rfl hx).1.trans (e ▸ (div_of_group rfl hx').1.symm)
    · intro my _ my' _ p h1 h2
      simp only [List.mem_flatMap, List.mem_map, List.mem_range] at h1 h2
      obtain ⟨mx, -, i, -, y, hy, x, -, rfl⟩ := h1
      obtain ⟨mx', -, i', -, y', hy', x', -, e⟩ := h2
      simp only [Prod.mk.injEq] at e
      obtain ⟨rfl, e, -⟩ := e
      exact (div_of_group rfl hy).1.trans (e ▸ (div_of_group rfl hy').1.symm)
  · obtain ⟨i, rfl⟩ : ∃ i, idx = [i] := by
      match idx, hne, hl with
      | [i], _, _ => exact ⟨i, rfl⟩
    unfold specWalk
    rw [flatten_flatMap]
    simp only [flatten_map]
    apply nodup_flatMap_of_inj List.nodup_range
    · intro r _
      apply nodup_flatMap_of_inj List.nodup_range
      · intro c _; simp
      · intro c _ c' _ p h1 h2
        simp only [List.mem_singleton] at h1 h2
        subst h1
        simp only [Prod.mk.injEq, true_and] at h2
        exact h2
    · intro r _ r' _ p h1 h2
      simp only [List.mem_flatMap, List.mem_singleton, List.mem_range] at h1 h2
      obtain ⟨c, -, rfl⟩ := h1
      obtain ⟨c', -, e⟩ := h2
      simp only [Prod.mk.injEq, true_and] at e
      exact e.1

/-- Every position visited lies in the padded arrays. -/
theorem spec_padded {f : Frame} (G : Good f) {idx : List Nat} (hi : ∀ i ∈ idx, i < f.comps.length) (hne : idx ≠ [])
    (p : Pos) (hp : p ∈ (specWalk f idx).flatten) : p.1 ∈ idx ∧
      p.2.1 < roundUp (f.comp p.1).heightInBlocks (f.comp p.1).v ∧
      p.2.2 < roundUp (f.comp p.1).widthInBlocks (f.comp p.1).h := by
  rcases Nat.lt_or_ge 1 idx.length with hl | hl
  · rw [specWalk_multi hl, flatten_flatMap] at hp
    simp only [flatten_map, List.mem_flatMap, List.mem_map, List.mem_range] at hp
    obtain ⟨my, hmy, mx, hmx, i, hi', y, hy, x, hx, rfl⟩ := hp
    obtain ⟨a, b, c, d, e1, e⟩ := G.facts (hi i hi')
    refine ⟨hi', ?_, ?_⟩
    · simp only
      rw [roundUp_eq _ _ b, e, G.total]
      have : (my + 1) * (f.comp i).v ≤ divRoundUp f.height (f.maxV * f.unit) * (f.comp i).v :=
        Nat.mul_le_mul_right _ hmy
      rw [Nat.add_mul] at this
      omega
    · simp only
      rw [roundUp_eq _ _ a, e1]
      have : (mx + 1) * (f.comp i).h ≤ divRoundUp f.width (f.maxH * f.unit) * (f.comp i).h :=
        Nat.mul_le_mul_right _ hmx
      rw [Nat.add_mul] at this
      omega
  · obtain ⟨i, rfl⟩ : ∃ i, idx = [i] := by
      match idx, hne, hl with
      | [i], _, _ => exact ⟨i, rfl⟩
    unfold specWalk at hp
    rw [flatten_flatMap] at hp
    simp only [flatten_map, List.mem_flatMap, List.mem_singleton, List.mem_range] at hp
    obtain ⟨r, hr, c, hc, rfl⟩ := hp
    obtain ⟨a, b, _, _, e1, e⟩ := G.facts (hi i (by simp))
    refine ⟨by simp, ?_, ?_⟩
    · simp only
      rw [roundUp_eq _ _ b]
      exact Nat.lt_of_lt_of_le hr (le_divRoundUp_mul _ _ b)
    · simp only
      rw [roundUp_eq _ _ a]
      exact Nat.lt_of_lt_of_le hc (le_divRoundUp_mul _ _ a)

/-- Every real block of the scan's components is visited. -/
theorem spec_complete {f : Frame} (G : Good f) {idx : List Nat} (hi : ∀ i ∈ idx, i < f.comps.length) (hne : idx ≠ [])
    (p : Pos) (h1 : p.1 ∈ idx) (h2 : inImage f p = true) : p ∈ (specWalk f idx).flatten := by
  obtain ⟨i, r, c⟩ := p
  unfold inImage at h2
  simp only [Bool.and_eq_true, decide_eq_true_eq] at h1 h2
  obtain ⟨⟨h20, h21⟩, h22⟩ := h2
  obtain ⟨a, b, _, _, e1, e⟩ := G.facts h20
  rcases Nat.lt_or_ge 1 idx.length with hl | hl
  · rw [specWalk_multi hl, flatten_flatMap]
    simp only [flatten_map, List.mem_flatMap, List.mem_map, List.mem_range]
    refine ⟨r / (f.comp i).v, ?_, c / (f.comp i).h, ?_, i, h1, r % (f.comp i).v, Nat.mod_lt _ b,
      c % (f.comp i).h, Nat.mod_lt _ a, ?_⟩
    · rw [← G.total, ← e, Nat.div_lt_iff_lt_mul b]
      exact Nat.lt_of_lt_of_le h21 (le_divRoundUp_mul _ _ b)
    · rw [← e1, Nat.div_lt_iff_lt_mul a]
      exact Nat.lt_of_lt_of_le h22 (le_divRoundUp_mul _ _ a)
    · rw [Nat.div_add_mod', Nat.div_add_mod']
  · obtain ⟨j, rfl⟩ : ∃ i, idx = [i] := by
      match idx, hne, hl with
      | [i], _, _ => exact ⟨i, rfl⟩
    have : i = j := by simpa using h1
    subst this
    unfold specWalk
    rw [flatten_flatMap]
    simp only [flatten_map, List.mem_flatMap, List.mem_singleton, List.mem_range]
    exact ⟨r, h21, c, h22, rfl⟩

theorem count_classify (f : Frame) (p : Pos) (l : List Pos) :
    (l.map (classify f)).count (.real p) = if inImage f p then l.count p else 0 := by
  induction l with
  | nil => simp
  | cons q l ih =>
    rw [List.map_cons, List.count_cons, ih, List.count_cons]
    by_cases hq : q = p
    · subst hq
      by_cases h : inImage f q <;> simp [classify, h]
    · have : ¬ classify f q = Slot.real p := by
        unfold classify
        split
        · intro hc; injection hc with hc; exact hq hc
        · intro hc; cases hc
      by_cases h : inImage f p <;> simp [h, hq, this]

theorem idx_ne {f : Frame} {idx : List Nat} {s : Scan} (h : cPerScan f idx = .ok s) : idx ≠ [] := by
  rintro rfl
  rcases scan_ok h with ⟨i, h, -⟩ | ⟨h, -⟩
  · simp at h
  · simp at h

/-- Sizes of the parts of an MCU. -/
theorem spec_lengths {f : Frame} {idx : List Nat} {s : Scan} (h : cPerScan f idx = .ok s) :
    (specWalk f idx).length = s.mcuRows * s.mcusPerRow ∧
    ∀ m ∈ specWalk f idx, m.map (·.1) = s.membership.map (fun k => idx.getD k 0) ∧ m.length = s.membership.length := by
  have key : ∀ m ∈ specWalk f idx, m.map (·.1) = s.membership.map (fun k => idx.getD k 0) := by
    rcases scan_ok h with ⟨i, rfl, hs, hm, hr, hmem⟩ | ⟨hl, -, hs, hm, hr, -, hmem⟩
    · intro m hm'
      unfold specWalk at hm'
      simp only [List.mem_flatMap, List.mem_map] at hm'
      obtain ⟨r, -, c, -, rfl⟩ := hm'
      rw [hmem]; rfl
    · intro m hm'
      rw [specWalk_multi hl] at hm'
      simp only [List.mem_flatMap, List.mem_map] at hm'
      obtain ⟨my, -, mx, -, rfl⟩ := hm'
      rw [hmem, List.map_flatMap, List.map_flatMap]
      have gen : ∀ (l : List Nat) (k : Nat), (∀ j, j < l.length → idx.getD (k + j) 0 = l.getD j 0) →
          (l.flatMap fun i => ((List.range (f.comp i).v).flatMap fun y => (List.range (f.comp i).h).map fun x =>
            ((i, my * (f.comp i).v + y, mx * (f.comp i).h + x) : Pos)).map (·.1)) =
          (l.zipIdx k).flatMap (fun p => (List.replicate ((f.comp p.1).h * (f.comp p.1).v) p.2).map
            (fun k => idx.getD k 0)) := by
        intro l
        induction l with
        | nil => intro k _; rfl
        | cons i l ih =>
          intro k hk
          rw [List.zipIdx_cons, List.flatMap_cons, List.flatMap_cons]
          congr 1
          · rw [List.map_replicate]
            have e0 := hk 0 (by simp)
            simp only [Nat.add_zero, List.getD_cons_zero] at e0
            rw [e0, List.map_flatMap]
            have inner : ∀ n : Nat, ((List.range n).flatMap fun y => ((List.range (f.comp i).h).map fun x =>
                ((i, my * (f.comp i).v + y, mx * (f.comp i).h + x) : Pos)).map (·.1)) =
                List.replicate ((f.comp i).h * n) i := by
              intro n
              induction n with
              | zero => simp
              | succ n ihn =>
                rw [List.range_succ, List.flatMap_append, ihn]
                simp only [List.flatMap_cons, List.flatMap_nil, List.append_nil]
                rw [Nat.mul_add, Nat.mul_one, ← List.replicate_append_replicate]
                congr 1
                rw [List.map_map]
                exact map_const_range _ _ _ (fun x _ => rfl)
            exact inner _
          · apply ih
            intro j hj
            have := hk (j + 1) (by simpa using hj)
            rw [List.getD_cons_succ] at this
            rw [← this]
            congr 1
            omega
      exact gen idx 0 (fun j _ => by rw [Nat.zero_add])
  refine ⟨?_, fun m hm => ⟨key m hm, ?_⟩⟩
  · have flat : ∀ {β : Type} (a b : Nat) (g : Nat → Nat → β),
        ((List.range a).flatMap fun i => (List.range b).map fun j => g i j).length = a * b := by
      intro β a b g
      induction a with
      | zero => simp
      | succ a ih => rw [List.range_succ, List.flatMap_append, List.length_append, ih]; simp [Nat.add_mul]
    rcases scan_ok h with ⟨i, rfl, hs, hm, hr, hmem⟩ | ⟨hl, -, hs, hm, hr, -, hmem⟩
    · rw [hm, hr]; exact flat _ _ _
    · rw [hm, hr, specWalk_multi hl]; exact flat _ _ _
  · have := congrArg List.length (key m hm)
    simpa using this

/-! ## C27 -/

theorem dFactors_eq : ∀ (fs : List (Nat × Nat)) (m : Nat × Nat), dFactors fs m = cFactors fs m := by
  intro fs
  induction fs with
  | nil => intro m; rfl
  | cons p fs ih => intro m; obtain ⟨a, b⟩ := p; simp only [dFactors, cFactors, ih]

theorem dScanLoop_eq (f : Frame) : ∀ idx k cs mem, dScanLoop f idx k cs mem = cScanLoop f idx k cs mem := by
  intro idx
  induction idx with
  | nil => intro k cs mem; rfl
  | cons i is ih => intro k cs mem; simp only [dScanLoop, cScanLoop, ih]

/-- C27, sizes: whenever the encoder accepts an image, the decoder accepts the same frame and computes the same
numbers, and the numbers are what they should be: the component's size in samples is the image size scaled by its
sampling ratio, rounded up; its size in blocks is that divided by the block size, rounded up; an iMCU column (row)
holds `h` (`v`) blocks and the last one is partial exactly as recorded. -/
theorem geometry_agrees (ll : Bool) (w ht ic prec : Nat) (fs : List (Nat × Nat)) (f : Frame)
    (h : cInitialSetup ll w ht ic prec fs = .ok f) :
    dInitialSetup ll w ht prec fs = .ok f ∧ (∀ idx, dPerScan f idx = cPerScan f idx) ∧
    (∀ g ∈ f.comps, IsCeil g.downsampledWidth (w * g.h) f.maxH ∧ IsCeil g.downsampledHeight (ht * g.v) f.maxV ∧
      IsCeil g.widthInBlocks g.downsampledWidth (if ll then 1 else 8) ∧
      IsCeil g.heightInBlocks g.downsampledHeight (if ll then 1 else 8) ∧
      IsCeil f.totalRows g.heightInBlocks g.v) := by
  obtain ⟨G, hlen, hw, hh, hu, -⟩ := good_of_setup h
  refine ⟨?_, ?_, ?_⟩
  · unfold cInitialSetup at h
    unfold dInitialSetup
    simp only at h ⊢
    split at h
    · cases h
    rename_i h1
    rw [if_neg (by omega)]
    split at h
    · cases h
    rename_i h2
    rw [if_neg h2]
    split at h
    · cases h
    split at h
    · cases h
    rename_i h3
    rw [if_neg h3]
    split at h
    · cases h
    rename_i h4
    rw [if_neg h4, dFactors_eq]
    split at h
    · cases h
    · rename_i e
      rw [← h]
      rfl
  · intro idx
    unfold dPerScan cPerScan
    simp only [dScanLoop_eq]
  · intro g hg
    obtain ⟨⟨a, -⟩, ⟨b, -⟩, c, d, e, e'⟩ := G.comp g hg
    have ceil : ∀ a b : Nat, 0 < b → IsCeil (divRoundUp a b) a b :=
      fun a b hb => ⟨le_divRoundUp_mul a b hb, fun k hk => (divRoundUp_le hb).2 hk⟩
    have hu' : 0 < f.unit := G.unit
    rw [← hu, ← hw, ← hh]
    refine ⟨e ▸ ceil _ _ G.mh, e' ▸ ceil _ _ G.mv, ?_, ?_, ?_⟩
    · rw [c, e, ← divRoundUp_divRoundUp _ _ _ G.mh hu']; exact ceil _ _ hu'
    · rw [d, e', ← divRoundUp_divRoundUp _ _ _ G.mv hu']; exact ceil _ _ hu'
    · have := divRoundUp_mul_right f.height g.v (f.maxV * f.unit) b (Nat.mul_pos G.mv hu')
      rw [← d, ← G.total] at this
      rw [← this]; exact ceil _ _ b

/-- C27, walk: for every accepted image and scan (any distinct components), the encoder and the decoder go through
the blocks in the standard's order; the encoder sends each block of the image in the scan's components exactly once
and puts a made-up block exactly where the decoder's position is outside the image; the decoder's positions are
within its padded arrays and no two coincide; the number of MCUs and the composition of each are as computed by
per_scan_setup, with at most 10 blocks. -/
theorem mcu_walk_exact (ll : Bool) (w ht ic prec : Nat) (fs : List (Nat × Nat)) (f : Frame)
    (h : cInitialSetup ll w ht ic prec fs = .ok f) (idx : List Nat) (hnd : idx.Nodup)
    (hi : ∀ i ∈ idx, i < fs.length) (s : Scan) (hs : cPerScan f idx = .ok s) :
    walk f s (dMcu f s) = specWalk f idx ∧
    walk f s (cMcu f s) = (specWalk f idx).map (fun m => m.map (classify f)) ∧
    (∀ p : Pos, (walk f s (cMcu f s)).flatten.count (.real p) = if p.1 ∈ idx ∧ inImage f p = true then 1 else 0) ∧
    (walk f s (dMcu f s)).flatten.Nodup ∧
    (∀ p ∈ (walk f s (dMcu f s)).flatten, p.2.1 < roundUp (f.comp p.1).heightInBlocks (f.comp p.1).v ∧
      p.2.2 < roundUp (f.comp p.1).widthInBlocks (f.comp p.1).h) ∧
    (walk f s (dMcu f s)).length = s.mcuRows * s.mcusPerRow ∧
    (∀ m ∈ walk f s (dMcu f s), m.map (·.1) = s.membership.map (fun k => idx.getD k 0) ∧
      m.length = s.membership.length) ∧ s.membership.length ≤ 10 := by
  obtain ⟨G, hlen, -⟩ := good_of_setup h
  rw [← hlen] at hi
  have e1 := dWalk_eq_spec G hi hs
  have e2 := cWalk_eq G hi hs
  have hne := idx_ne hs
  obtain ⟨l1, l2⟩ := spec_lengths hs
  refine ⟨e1, e2, ?_, ?_, ?_, ?_, ?_, ?_⟩
  · intro p
    rw [e2]
    have hf : ((specWalk f idx).map (fun m => m.map (classify f))).flatten =
        (specWalk f idx).flatten.map (classify f) := by
      rw [List.map_flatten]
    rw [hf, count_classify]
    by_cases h1 : inImage f p
    · by_cases h2 : p.1 ∈ idx
      · rw [if_pos h1, if_pos ⟨h2, h1⟩]
        exact List.count_eq_one_of_mem (spec_nodup hnd hne) (spec_complete G hi hne p h2 h1)
      · rw [if_pos h1, if_neg (fun hc => h2 hc.1)]
        exact List.count_eq_zero_of_not_mem (fun hc => h2 (spec_padded G hi hne p hc).1)
    · rw [if_neg h1, if_neg (fun hc => h1 hc.2)]
  · rw [e1]; exact spec_nodup hnd hne
  · intro p hp
    rw [e1] at hp
    exact (spec_padded G hi hne p hp).2
  · rw [e1]; exact l1
  · rw [e1]; exact l2
  · rcases scan_ok hs with ⟨i, -, -, -, -, hm⟩ | ⟨-, -, -, -, -, hm, -⟩
    · rw [hm]; simp
    · exact hm

/-- Non-vacuity of C27: a 35x21 image with 4:2:0 factors is accepted, an interleaved scan of it has 6 MCUs of 6 blocks
of whose 36 entries 9 are padding, and a single-component scan of component 0 has 15 one-block MCUs. -/
example : ∃ f s s0, cInitialSetup false 35 21 3 8 [(2, 2), (1, 1), (1, 1)] = .ok f ∧ cPerScan f [0, 1, 2] = .ok s ∧
    cPerScan f [0] = .ok s0 ∧ (walk f s (dMcu f s)).length = 6 ∧ (walk f s0 (dMcu f s0)).length = 15 ∧
    (walk f s (cMcu f s)).flatten.count .dummy = 9 := by
  refine ⟨_, _, _, rfl, rfl, rfl, ?_, ?_, ?_⟩ <;> decide +kernel

end Verif.Geom
