import Verif.Geom.Model
import Mathlib.Data.List.Nodup
import Mathlib.Data.List.Count
import Mathlib.Tactic.Ring
import Mathlib.Tactic.Linarith
/-
Lemmas about the geometry computations and MCU walks.
-/
namespace Verif.Geom

theorem divRoundUp_le {a b k : Nat} (hb : 0 < b) : divRoundUp a b ≤ k ↔ a ≤ k * b := by
  unfold divRoundUp
  rw [Nat.div_le_iff_le_mul_add_pred hb, Nat.mul_comm]
  omega

theorem le_divRoundUp_mul (a b : Nat) (hb : 0 < b) : a ≤ divRoundUp a b * b :=
  (divRoundUp_le hb).1 (Nat.le_refl _)

theorem divRoundUp_pos {a b : Nat} (ha : 0 < a) (hb : 0 < b) : 0 < divRoundUp a b := by
  rcases Nat.eq_zero_or_pos (divRoundUp a b) with h | h
  · have := le_divRoundUp_mul a b hb
    rw [h] at this; omega
  · exact h

theorem divRoundUp_eq {a b k : Nat} (hb : 0 < b) (h1 : a ≤ k * b) (h2 : (k - 1) * b < a) (hk : 0 < k) :
    divRoundUp a b = k := by
  apply Nat.le_antisymm ((divRoundUp_le hb).2 h1)
  by_contra hc
  have : divRoundUp a b ≤ k - 1 := by omega
  rw [divRoundUp_le hb] at this
  omega

theorem divRoundUp_mul_right (n v m : Nat) (hv : 0 < v) (hm : 0 < m) :
    divRoundUp (divRoundUp (n * v) m) v = divRoundUp n m := by
  apply Nat.le_antisymm
  · rw [divRoundUp_le hv, divRoundUp_le hm]
    have := le_divRoundUp_mul n m hm
    calc n * v ≤ divRoundUp n m * m * v := Nat.mul_le_mul_right _ this
      _ = divRoundUp n m * v * m := by ring
  · rw [divRoundUp_le hm]
    have h1 := le_divRoundUp_mul (divRoundUp (n * v) m) v hv
    rw [divRoundUp_le hm] at h1
    have : n * v ≤ (divRoundUp (divRoundUp (n * v) m) v * m) * v := by
      calc n * v ≤ _ := h1
        _ = _ := by ring
    exact Nat.le_of_mul_le_mul_right this hv

theorem divRoundUp_divRoundUp (a b c : Nat) (hb : 0 < b) (hc : 0 < c) :
    divRoundUp (divRoundUp a b) c = divRoundUp a (b * c) := by
  have hbc : 0 < b * c := Nat.mul_pos hb hc
  apply Nat.le_antisymm
  · rw [divRoundUp_le hc, divRoundUp_le hb]
    have := le_divRoundUp_mul a (b * c) hbc
    calc a ≤ _ := this
      _ = _ := by ring
  · rw [divRoundUp_le hbc]
    have h1 := le_divRoundUp_mul (divRoundUp a b) c hc
    rw [divRoundUp_le hb] at h1
    calc a ≤ _ := h1
      _ = _ := by ring

theorem lastPart_pos {n h : Nat} (hh : 0 < h) : 0 < lastPart n h := by
  unfold lastPart; split <;> omega

theorem lastPart_le {n h : Nat} (hh : 0 < h) : lastPart n h ≤ h := by
  unfold lastPart
  have := Nat.mod_lt n hh
  split <;> omega

/-- The last group holds exactly what is left. -/
theorem lastPart_spec {n h : Nat} (hn : 0 < n) (hh : 0 < h) : (divRoundUp n h - 1) * h + lastPart n h = n := by
  have e := Nat.div_add_mod n h
  have hm := Nat.mod_lt n hh
  unfold lastPart
  by_cases h0 : n % h = 0
  · rw [if_pos h0]
    have hq : 0 < n / h := by
      rcases Nat.eq_zero_or_pos (n / h) with z | z
      · rw [z, h0] at e; omega
      · exact z
    have : divRoundUp n h = n / h := by
      apply divRoundUp_eq hh
      · rw [Nat.mul_comm]; omega
      · have : (n / h - 1) * h < n / h * h := Nat.mul_lt_mul_of_pos_right (by omega) hh
        rw [Nat.mul_comm (n / h) h] at this
        omega
      · exact hq
    rw [this]
    obtain ⟨q, hq'⟩ : ∃ q, n / h = q + 1 := ⟨n / h - 1, by omega⟩
    rw [hq'] at e ⊢
    rw [Nat.add_sub_cancel]
    rw [Nat.mul_comm h (q + 1), Nat.add_mul] at e
    omega
  · rw [if_neg h0]
    have : divRoundUp n h = n / h + 1 := by
      apply divRoundUp_eq hh
      · rw [Nat.add_mul, Nat.mul_comm (n / h) h]; omega
      · rw [Nat.add_sub_cancel, Nat.mul_comm]; omega
      · exact Nat.succ_pos _
    rw [this, Nat.add_sub_cancel, Nat.mul_comm]
    exact e

/-- Position `k` of group `q`: below the end iff not past the last group's part. -/
theorem group_lt {n h q k : Nat} (hn : 0 < n) (hh : 0 < h) (hq : q < divRoundUp n h) (hk : k < h) :
    q * h + k < n ↔ (q < divRoundUp n h - 1 ∨ k < lastPart n h) := by
  have e := lastPart_spec hn hh
  have lp := lastPart_pos (n := n) hh
  by_cases hc : q < divRoundUp n h - 1
  · simp only [hc, true_or, iff_true]
    have : (q + 1) * h ≤ (divRoundUp n h - 1) * h := Nat.mul_le_mul_right _ (by omega)
    rw [Nat.add_mul] at this
    omega
  · have : q = divRoundUp n h - 1 := by omega
    rw [this]
    simp only [Nat.lt_irrefl, false_or]
    omega

theorem roundUp_eq (n h : Nat) (hh : 0 < h) : roundUp n h = divRoundUp n h * h := by
  unfold roundUp divRoundUp
  simp only
  rw [show n + (h - 1) = n + h - 1 by omega]
  have := Nat.div_add_mod (n + h - 1) h
  rw [Nat.mul_comm] at this
  omega

/-! ## Facts about accepted frames and scans -/

/-- What an accepted frame satisfies. -/
structure Good (f : Frame) : Prop where
  unit : 0 < f.unit
  mh : 0 < f.maxH
  mv : 0 < f.maxV
  w : 0 < f.width
  ht : 0 < f.height
  total : f.totalRows = divRoundUp f.height (f.maxV * f.unit)
  comp : ∀ g ∈ f.comps, (0 < g.h ∧ g.h ≤ f.maxH ∧ g.h ≤ 4) ∧ (0 < g.v ∧ g.v ≤ f.maxV ∧ g.v ≤ 4) ∧
    g.widthInBlocks = divRoundUp (f.width * g.h) (f.maxH * f.unit) ∧
    g.heightInBlocks = divRoundUp (f.height * g.v) (f.maxV * f.unit) ∧
    g.downsampledWidth = divRoundUp (f.width * g.h) f.maxH ∧
    g.downsampledHeight = divRoundUp (f.height * g.v) f.maxV

theorem cFactors_ok : ∀ (fs : List (Nat × Nat)) (m r : Nat × Nat), cFactors fs m = .ok r →
    m.1 ≤ r.1 ∧ m.2 ≤ r.2 ∧ ∀ p ∈ fs, 0 < p.1 ∧ p.1 ≤ 4 ∧ p.1 ≤ r.1 ∧ 0 < p.2 ∧ p.2 ≤ 4 ∧ p.2 ≤ r.2 := by
  intro fs
  induction fs with
  | nil =>
    intro m r h
    simp only [cFactors, Except.ok.injEq] at h
    subst h
    exact ⟨Nat.le_refl _, Nat.le_refl _, by simp⟩
  | cons p fs ih =>
    intro m r h
    obtain ⟨a, b⟩ := p
    simp only [cFactors] at h
    split at h
    · cases h
    · obtain ⟨h1, h2, h3⟩ := ih _ _ h
      simp only at h1 h2
      refine ⟨by omega, by omega, ?_⟩
      intro p hp
      rcases List.mem_cons.1 hp with rfl | hp
      · simp only
        omega
      · exact h3 p hp

theorem good_of_setup {ll : Bool} {w ht ic prec : Nat} {fs : List (Nat × Nat)} {f : Frame}
    (h : cInitialSetup ll w ht ic prec fs = .ok f) : Good f ∧ f.comps.length = fs.length ∧ f.width = w ∧
      f.height = ht ∧ f.unit = (if ll then 1 else 8) ∧ f.comps.map (fun g => (g.h, g.v)) = fs := by
  unfold cInitialSetup at h
  simp only at h
  split at h
  · cases h
  split at h
  · cases h
  split at h
  · cases h
  split at h
  · cases h
  split at h
  · cases h
  split at h
  · cases h
  · rename_i mh mv e
    obtain ⟨h1, h2, h3⟩ := cFactors_ok _ _ _ e
    simp only at h1 h2 h3
    simp only [Except.ok.injEq] at h
    subst h
    refine ⟨?_, by simp, rfl, rfl, rfl, ?_⟩
    · refine ⟨?_, h1, h2, by simp only; omega, by simp only; omega, rfl, ?_⟩
      · simp only; split <;> omega
      · intro g hg
        simp only [List.mem_map] at hg
        obtain ⟨p, hp, rfl⟩ := hg
        obtain ⟨a, b, c, d, e, f⟩ := h3 p hp
        exact ⟨⟨a, c, b⟩, ⟨d, f, e⟩, rfl, rfl, rfl, rfl⟩
    · simp only [List.map_map]
      conv_rhs => rw [← List.map_id fs]
      apply List.map_congr_left
      intro p _
      rfl

/-- Component `i` of the frame. -/
abbrev Frame.comp (f : Frame) (i : Nat) : CompGeo := f.comps.getD i default

theorem comp_mem {f : Frame} {i : Nat} (h : i < f.comps.length) : f.comp i ∈ f.comps := by
  unfold Frame.comp
  rw [List.getD_eq_getElem?_getD, List.getElem?_eq_getElem h]
  exact List.getElem_mem h

/-- Derived facts about one component. -/
theorem Good.facts {f : Frame} (G : Good f) {i : Nat} (h : i < f.comps.length) :
    0 < (f.comp i).h ∧ 0 < (f.comp i).v ∧ 0 < (f.comp i).widthInBlocks ∧ 0 < (f.comp i).heightInBlocks ∧
    divRoundUp (f.comp i).widthInBlocks (f.comp i).h = divRoundUp f.width (f.maxH * f.unit) ∧
    divRoundUp (f.comp i).heightInBlocks (f.comp i).v = f.totalRows := by
  obtain ⟨⟨a, -⟩, ⟨b, -⟩, c, d, -⟩ := G.comp _ (comp_mem h)
  have hmu : 0 < f.maxH * f.unit := Nat.mul_pos G.mh G.unit
  have hmv : 0 < f.maxV * f.unit := Nat.mul_pos G.mv G.unit
  refine ⟨a, b, ?_, ?_, ?_, ?_⟩
  · rw [c]; exact divRoundUp_pos (Nat.mul_pos G.w a) hmu
  · rw [d]; exact divRoundUp_pos (Nat.mul_pos G.ht b) hmv
  · rw [c, divRoundUp_mul_right _ _ _ a hmu]
  · rw [d, divRoundUp_mul_right _ _ _ b hmv, G.total]

/-- The full description of one component in an interleaved scan. -/
def multiComp (f : Frame) (i : Nat) : ScanComp :=
  ⟨i, (f.comp i).h, (f.comp i).v, lastPart (f.comp i).widthInBlocks (f.comp i).h,
    lastPart (f.comp i).heightInBlocks (f.comp i).v⟩

/-- The description of the component of a noninterleaved scan. -/
def singleComp (f : Frame) (i : Nat) : ScanComp :=
  ⟨i, 1, 1, 1, lastPart (f.comp i).heightInBlocks (f.comp i).v⟩

theorem cScanLoop_ok (f : Frame) : ∀ (idx : List Nat) (k : Nat) (cs : List ScanComp) (mem : List Nat) (r),
    cScanLoop f idx k cs mem = .ok r → mem.length ≤ 10 →
    r.1 = cs ++ idx.map (multiComp f) ∧ r.2.length ≤ 10 ∧
      r.2 = mem ++ (idx.zipIdx k).flatMap (fun p => List.replicate ((f.comp p.1).h * (f.comp p.1).v) p.2) := by
  intro idx
  induction idx with
  | nil =>
    intro k cs mem r h hm
    simp only [cScanLoop, Except.ok.injEq] at h
    subst h
    simp [hm]
  | cons i is ih =>
    intro k cs mem r h hm
    simp only [cScanLoop] at h
    split at h
    · cases h
    · rename_i hlen
      obtain ⟨h1, h2, h3⟩ := ih _ _ _ _ h (by
        rw [List.length_append, List.length_replicate]; exact Nat.le_of_not_lt hlen)
      refine ⟨?_, h2, ?_⟩
      · rw [h1, List.map_cons, List.append_assoc]; rfl
      · rw [h3, List.zipIdx_cons, List.flatMap_cons, List.append_assoc]

/-- What an accepted scan is. -/
theorem scan_ok {f : Frame} {idx : List Nat} {s : Scan} (h : cPerScan f idx = .ok s) :
    (∃ i, idx = [i] ∧ s.comps = [singleComp f i] ∧ s.mcusPerRow = (f.comp i).widthInBlocks ∧
      s.mcuRows = (f.comp i).heightInBlocks ∧ s.membership = [0]) ∨
    (1 < idx.length ∧ idx.length ≤ 4 ∧ s.comps = idx.map (multiComp f) ∧
      s.mcusPerRow = divRoundUp f.width (f.maxH * f.unit) ∧ s.mcuRows = divRoundUp f.height (f.maxV * f.unit) ∧
      s.membership.length ≤ 10 ∧ s.membership =
        (idx.zipIdx 0).flatMap (fun p => List.replicate ((f.comp p.1).h * (f.comp p.1).v) p.2)) := by
  unfold cPerScan at h
  split at h
  · rename_i hl
    obtain ⟨i, rfl⟩ := List.length_eq_one_iff.1 hl
    simp only [Except.ok.injEq] at h
    subst h
    exact .inl ⟨i, rfl, rfl, rfl, rfl, rfl⟩
  · split at h
    · cases h
    · split at h
      · cases h
      · rename_i hl hn cs mem e
        obtain ⟨h1, h2, h3⟩ := cScanLoop_ok f idx 0 [] [] _ e (by simp)
        simp only [Except.ok.injEq] at h
        subst h
        simp only [List.nil_append] at h1 h3
        exact .inr ⟨by omega, by omega, h1, rfl, rfl, h2, h3⟩

end Verif.Geom
