/-
The scripts select_scans can copy out (Search.lean, `copyOrder`) are legal and complete.
-/
import Verif.Script.SearchCheck
import Mathlib.Tactic.ByContra

namespace Verif.Script

/-! ## Assembly -/

/-- The three cases of dc_scan_opt_mode. -/
def dcCase (m : Int) : Nat := if m = 0 then 0 else if m = 1 then 1 else 2

theorem dcCase_lt (m : Int) : dcCase m < 3 := by unfold dcCase; split <;> [omega; split <;> omega]
theorem dcCase_zero (m : Int) : (Int.ofNat (dcCase m) = 0) = (m = 0) := by
  unfold dcCase; split
  · simp [*]
  · split <;> simp [*]
theorem dcCase_one (m : Int) : (Int.ofNat (dcCase m) = 1) = (m = 1) := by
  unfold dcCase; split
  · simp [*]
  · split <;> simp [*]

theorem copyOrder_dc (g : SearchCfg) (bL bC fL fC : Nat) (inter : Bool) :
    copyOrder g bL bC fL fC inter =
      copyOrder ⟨g.color, Int.ofNat (dcCase g.dcMode), 1, 0⟩ bL bC fL fC inter := by
  unfold copyOrder
  have e1 : SearchCfg.numScans ⟨g.color, Int.ofNat (dcCase g.dcMode), 1, 0⟩ = g.numScans := rfl
  have e2 : SearchCfg.chromaDc ⟨g.color, Int.ofNat (dcCase g.dcMode), 1, 0⟩ = g.chromaDc := rfl
  have e3 : SearchCfg.chromaFS ⟨g.color, Int.ofNat (dcCase g.dcMode), 1, 0⟩ = g.chromaFS := rfl
  rw [e1, e2, e3]
  by_cases h0 : g.dcMode = 0
  · simp [h0, dcCase]
  · by_cases h1 : g.dcMode = 1
    · simp [h1, dcCase]
    · simp [h0, h1, dcCase]

theorem script_dc (g : SearchCfg) :
    g.script = SearchCfg.script ⟨g.color, if decide (g.dcMode = 0) then 0 else 1, 1, 0⟩ := by
  unfold SearchCfg.script searchLuma
  by_cases h : g.dcMode = 0
  · simp [h]
  · simp [h]

theorem emitted_dc (color : Bool) (m : Int) (bL bC i : Nat) :
    emitted color m bL bC i = emitted color (if decide (m = 0) then 0 else 1) bL bC i := by
  have e := script_dc ⟨color, m, 1, 0⟩
  unfold emitted
  simp only [e]
  rfl

theorem emitted_dc' (color : Bool) (m : Int) (bL bC i : Nat) :
    emitted color m bL bC i = emitted color (Int.ofNat (dcCase m)) bL bC i := by
  rw [emitted_dc color m, emitted_dc color (Int.ofNat (dcCase m))]
  simp only [dcCase_zero]

theorem emitted_luma (color : Bool) (m : Int) (bL bC i : Nat) (hi : i < 23) :
    emitted color m bL bC i = emitted color m bL bL i := by
  unfold emitted
  have := chromaFS_ge ⟨color, m, 1, 0⟩
  simp only
  rw [if_neg (by omega), if_neg (c := SearchCfg.chromaFS ⟨color, m, 1, 0⟩ ≤ i ∧ _) (by omega)]

theorem emitted_chroma (m : Int) (bL bC i : Nat) (hi : i = 0 ∨ 23 ≤ i) :
    emitted true m bL bC i = emitted true m bC bC i := by
  unfold emitted
  simp only
  have : ¬(lumaFS ≤ i ∧ i < numScansLuma) := by unfold lumaFS numScansLuma; omega
  rw [if_neg this, if_neg this]

theorem coefOk_iff (l : List Scan) (k : Nat) :
    coefOk l k = true ↔
      BitsInOrder none (l.filter (fun s => decide (s.Ss ≤ (k : Int) ∧ (k : Int) ≤ s.Se))) ∧
      ∃ s, (l.filter (fun s => decide (s.Ss ≤ (k : Int) ∧ (k : Int) ≤ s.Se))).getLast? = some s ∧
        s.Al = 0 := by
  unfold coefOk
  simp only [Bool.and_eq_true, bitsB_iff]
  cases (l.filter (fun s => decide (s.Ss ≤ (k : Int) ∧ (k : Int) ≤ s.Se))).getLast? with
  | none => simp
  | some s => simp

theorem scanOk_iff {n : Nat} {s : Scan} (h : scanOk n s = true) : CompsOK n s ∧ ProgParamsOK 8 s := by
  unfold scanOk at h
  simp only [Bool.and_eq_true, decide_eq_true_eq, List.all_eq_true] at h
  obtain ⟨⟨⟨⟨⟨h1, h2⟩, h3⟩, h4⟩, h5⟩, h6⟩ := h
  refine ⟨⟨h1, h2, h3, h4⟩, ?_⟩
  unfold ProgParamsOK
  simp only [show ¬ (8 : Nat) = 12 by omega, if_false]
  exact ⟨h5.1, h5.2.1, h5.2.2.1, h5.2.2.2.1, h5.2.2.2.2.1, h5.2.2.2.2.2.1, h5.2.2.2.2.2.2, h6.1, h6.2⟩

/-- The scans of component `c` are those selected by `h`. -/
theorem filter_covers (o : List Nat) (f : Nat → Scan) (c k : Nat) (h : Nat → Bool)
    (hh : ∀ i ∈ o, (f i).has c = h i) :
    (o.map f).filter (·.covers c k) =
      ((o.filter h).map f).filter (fun s => decide (s.Ss ≤ (k : Int) ∧ (k : Int) ≤ s.Se)) := by
  induction o with
  | nil => rfl
  | cons i o ih =>
    have h1 := hh i (by simp)
    have h2 := ih (fun j hj => hh j (by simp [hj]))
    rw [List.map_cons, List.filter_cons, h2, List.filter_cons]
    unfold Scan.covers
    rw [h1]
    cases h i with
    | false => simp
    | true => simp [List.filter_cons]

theorem map_congr_emitted {o : List Nat} {f f' : Nat → Scan} (h : ∀ i ∈ o, f i = f' i) :
    o.map f = o.map f' := List.map_congr_left h

/-- A script that starts with scans of DC only covering every component has DC first. -/
theorem dcFirst_prefix {n : Nat} (D rest : List Scan) (hC : ∀ s ∈ D ++ rest, CompsOK n s)
    (hS0 : ∀ t ∈ D, t.Ss = 0) (hcov : ∀ c < n, ∃ t ∈ D, t.covers c 0) :
    ∀ pre s post, D ++ rest = pre ++ s :: post → s.Ss ≠ 0 → ∀ c : Nat, s.has c →
      ∃ t ∈ pre, t.covers c 0 := by
  intro pre s post e hs c hc
  have hcn : c < n := by
    have := (hC s (by rw [e]; simp)).2.2.1 c (by simpa [Scan.has] using hc)
    omega
  obtain ⟨t, ht, hcv⟩ := hcov c hcn
  rw [List.append_eq_append_iff] at e
  rcases e with ⟨a, rfl, -⟩ | ⟨a, ha, hb⟩
  · exact ⟨t, List.mem_append_left _ ht, hcv⟩
  · cases a with
    | nil => rw [List.append_nil] at ha; rw [← ha]; exact ⟨t, ht, hcv⟩
    | cons x a =>
      injection hb with h1 h2
      subst h1
      exact absurd (hS0 s (by rw [ha]; simp)) hs

theorem color_legal (g : SearchCfg) (hc : g.color = true) (bL bC fL fC : Nat) (inter : Bool)
    (h1 : bL < 4) (h2 : bC < 3) (h3 : fL < 6) (h4 : fC < 6) :
    LegalProg 3 8 ((copyOrder g bL bC fL fC inter).map (emitted true g.dcMode bL bC)) ∧
    Complete 3 ((copyOrder g bL bC fL fC inter).map (emitted true g.dcMode bL bC)) ∧
    (copyOrder g bL bC fL fC inter).Nodup := by
  have hchk := order_check (dcCase g.dcMode) (dcCase_lt _) bL h1 bC h2 fL h3 fC h4 inter
  have ho := copyOrder_dc g bL bC fL fC inter
  rw [hc] at ho
  rw [← ho] at hchk
  obtain ⟨pre, hpre⟩ : ∃ pre, pre = (if g.dcMode ≠ 0 then
      (if inter ∧ g.dcMode ≠ 1 then [0, 23] else [0, 24, 25]) else [0]) := ⟨_, rfl⟩
  have hoP : ∃ rest, copyOrder g bL bC fL fC inter = pre ++ rest := by
    have hn : g.numScans = 64 := by unfold SearchCfg.numScans; simp [hc]
    rw [hpre]
    unfold copyOrder
    simp only [hn, numScansLuma]
    by_cases h0 : g.dcMode = 0
    · simp [h0]
    · by_cases hh : inter ∧ g.dcMode ≠ 1
      · simp [h0, hh]
      · simp only [hh]
        simp [h0]
  obtain ⟨rest, hoP⟩ := hoP
  generalize copyOrder g bL bC fL fC inter = o at *
  unfold orderCheck at hchk
  simp only [Bool.and_eq_true, decide_eq_true_eq, List.all_eq_true] at hchk
  obtain ⟨⟨⟨⟨c0, c1⟩, c2⟩, hnd⟩, hlt⟩ := hchk
  have hz : (dcCase g.dcMode == 0) = decide (g.dcMode = 0) := by
    unfold dcCase
    split
    · simp [*]
    · split <;> simp [*]
  rw [hz] at c0 c1 c2
  -- a scan depends on one of bL, bC
  have hsel : ∀ i, ∃ b < 4, emitted true g.dcMode bL bC i =
      emitted true (if decide (g.dcMode = 0) then 0 else 1) b b i := by
    intro i
    by_cases hi : i < 23
    · exact ⟨bL, h1, by rw [emitted_luma _ _ _ _ _ hi, emitted_dc]⟩
    · exact ⟨bC, by omega, by rw [emitted_chroma _ _ _ _ (by omega), emitted_dc]⟩
  have hhas : ∀ c < 3, ∀ i ∈ o, (emitted true g.dcMode bL bC i).has c =
      idxHas (decide (g.dcMode = 0)) c i := by
    intro c hcc i hi
    obtain ⟨b, hb, e⟩ := hsel i
    rw [e]
    exact (scan_color _ b hb i (hlt i hi)).2.1 c hcc
  have hone : ∀ s ∈ o.map (emitted true g.dcMode bL bC), CompsOK 3 s ∧ ProgParamsOK 8 s := by
    intro s hs
    obtain ⟨i, hi, rfl⟩ := List.mem_map.1 hs
    obtain ⟨b, hb, e⟩ := hsel i
    rw [e]
    exact scanOk_iff (scan_color _ b hb i (hlt i hi)).1
  have hcoef : ∀ c < 3, ∀ k < 64,
      BitsInOrder none ((o.map (emitted true g.dcMode bL bC)).filter (·.covers c k)) ∧
      ∃ s, ((o.map (emitted true g.dcMode bL bC)).filter (·.covers c k)).getLast? = some s ∧
        s.Al = 0 := by
    intro c hcc k hk
    rw [filter_covers o _ c k _ (hhas c hcc)]
    have hm : ∀ i ∈ o.filter (idxHas (decide (g.dcMode = 0)) c),
        emitted true g.dcMode bL bC i = emitted true (Int.ofNat (dcCase g.dcMode))
          (if c = 0 then bL else bC) (if c = 0 then bL else bC) i := by
      intro i hi
      rw [List.mem_filter] at hi
      rw [emitted_dc']
      by_cases e0 : c = 0
      · subst e0
        simp only [idxHas, decide_eq_true_eq] at hi
        rw [if_pos rfl, emitted_luma _ _ _ _ _ hi.2]
      · rw [if_neg e0, emitted_chroma]
        by_contra hcon
        have hcs : c = 1 ∨ c = 2 := by omega
        have hi2 : i < 23 ∧ i ≠ 0 := by omega
        rcases hcs with rfl | rfl
        · have h5 := hi.2
          simp only [idxHas, Bool.or_eq_true, Bool.and_eq_true, beq_iff_eq, decide_eq_true_eq,
            List.contains_iff_mem, List.mem_cons, List.not_mem_nil, or_false] at h5
          omega
        · have h5 := hi.2
          simp only [idxHas, Bool.or_eq_true, Bool.and_eq_true, beq_iff_eq, decide_eq_true_eq,
            List.contains_iff_mem, List.mem_cons, List.not_mem_nil, or_false] at h5
          omega
    rw [map_congr_emitted hm]
    have hcs : c = 0 ∨ c = 1 ∨ c = 2 := by omega
    have hkey := coef_color (dcCase g.dcMode) (dcCase_lt _) c hcc (if c = 0 then bL else bC)
      (by split <;> omega) (if c = 0 then fL else fC) (by split <;> omega) inter k hk
    rw [coefOk_iff] at hkey
    rcases hcs with rfl | rfl | rfl
    · rw [c0]; exact hkey
    · rw [c1]; exact hkey
    · rw [c2]; exact hkey
  have hDs : ∀ i ∈ pre, i = 0 ∨ i = 23 ∨ i = 24 ∨ i = 25 := by
    rw [hpre]
    intro i hi
    by_cases e0 : g.dcMode = 0
    · simp [e0] at hi; omega
    · by_cases e1 : inter ∧ g.dcMode ≠ 1
      · rw [if_pos e0, if_pos e1] at hi; simp at hi; omega
      · rw [if_pos e0, if_neg e1] at hi; simp at hi; omega
  have hS0 : ∀ t ∈ pre.map (emitted true g.dcMode bL bC), t.Ss = 0 := by
    intro t ht
    obtain ⟨i, hi, rfl⟩ := List.mem_map.1 ht
    obtain ⟨b, hb, e⟩ := hsel i
    rw [e]
    exact (scan_color _ b hb i (hlt i (by rw [hoP]; simp [hi]))).2.2.2 (hDs i hi)
  have hcov : ∀ c < 3, ∃ t ∈ pre.map (emitted true g.dcMode bL bC), t.covers c 0 := by
    intro c hcc
    have hidx : ∃ i ∈ pre, idxHas (decide (g.dcMode = 0)) c i = true := by
      rw [hpre]
      have hcs : c = 0 ∨ c = 1 ∨ c = 2 := by omega
      by_cases e0 : g.dcMode = 0
      · rcases hcs with rfl | rfl | rfl <;> exact ⟨0, by simp [e0], by simp [idxHas, e0]⟩
      · by_cases e1 : inter ∧ g.dcMode ≠ 1
        · rw [if_pos e0, if_pos e1]
          rcases hcs with rfl | rfl | rfl
          · exact ⟨0, by simp, by simp [idxHas]⟩
          · exact ⟨23, by simp, by simp [idxHas]⟩
          · exact ⟨23, by simp, by simp [idxHas]⟩
        · rw [if_pos e0, if_neg e1]
          rcases hcs with rfl | rfl | rfl
          · exact ⟨0, by simp, by simp [idxHas]⟩
          · exact ⟨24, by simp, by simp [idxHas]⟩
          · exact ⟨25, by simp, by simp [idxHas]⟩
    obtain ⟨i, hi, hx⟩ := hidx
    refine ⟨_, List.mem_map_of_mem hi, ?_⟩
    have hio : i ∈ o := by rw [hoP]; simp [hi]
    unfold Scan.covers
    rw [hhas c hcc i hio, hx]
    have e0 := hS0 _ (List.mem_map_of_mem hi)
    have e1 := (hone _ (List.mem_map_of_mem hio)).2
    unfold ProgParamsOK at e1
    simp only [Bool.true_and, decide_eq_true_eq]
    have := e1.1
    have := e1.2.1
    omega
  refine ⟨⟨fun s hs => (hone s hs).1, fun s hs => (hone s hs).2, ?_, ?_, ?_⟩, ?_, hnd⟩
  · intro c k
    by_cases hcc : c < 3
    · by_cases hk : k < 64
      · exact (hcoef c hcc k hk).1
      · rw [List.filter_eq_nil_iff.2]
        · simp [BitsInOrder]
        · intro s hs
          have := (hone s hs).2
          unfold ProgParamsOK at this
          simp only [Scan.covers, Bool.and_eq_true, decide_eq_true_eq]
          omega
    · rw [List.filter_eq_nil_iff.2]
      · simp [BitsInOrder]
      · intro s hs hcv
        simp only [Scan.covers, Scan.has, Bool.and_eq_true, decide_eq_true_eq] at hcv
        have := (hone s hs).1.2.2.1 c hcv.1
        omega
  · have e : o.map (emitted true g.dcMode bL bC) =
        pre.map (emitted true g.dcMode bL bC) ++ rest.map (emitted true g.dcMode bL bC) := by
      rw [hoP, List.map_append]
    rw [e]
    refine dcFirst_prefix _ _ ?_ hS0 hcov
    intro s hs
    rw [← e] at hs
    exact (hone s hs).1
  · intro c hcc
    obtain ⟨t, ht, h⟩ := hcov c hcc
    refine ⟨t, ?_, h⟩
    rw [hoP, List.map_append]
    exact List.mem_append_left _ ht
  · intro c hcc k hk
    exact (hcoef c hcc k hk).2

theorem gray_legal (g : SearchCfg) (hc : g.color = false) (bL bC fL fC : Nat) (inter : Bool)
    (h1 : bL < 4) (h3 : fL < 6) :
    LegalProg 1 8 ((copyOrder g bL bC fL fC inter).map (emitted false g.dcMode bL bC)) ∧
    Complete 1 ((copyOrder g bL bC fL fC inter).map (emitted false g.dcMode bL bC)) ∧
    (copyOrder g bL bC fL fC inter).Nodup := by
  have hn : g.numScans = 23 := by unfold SearchCfg.numScans; simp [hc]
  have ho : copyOrder g bL bC fL fC inter = copyOrder ⟨false, 1, 1, 0⟩ bL (min bL bC) fL 0 false := by
    have hn' : SearchCfg.numScans ⟨false, 1, 1, 0⟩ = 23 := rfl
    unfold copyOrder
    simp [hn, hn', numScansLuma]
  have hchk := order_check_gray bL h1 (min bL bC) (by omega) fL h3
  rw [← ho] at hchk
  generalize copyOrder g bL bC fL fC inter = o at *
  unfold orderCheckGray at hchk
  simp only [Bool.and_eq_true, decide_eq_true_eq, List.all_eq_true] at hchk
  obtain ⟨⟨hor, hnd⟩, hlt⟩ := hchk
  have hm : o.map (emitted false g.dcMode bL bC) =
      o.map (emitted false (if decide (g.dcMode = 0) then 0 else 1) bL bL) := by
    refine map_congr_emitted (fun i hi => ?_)
    rw [emitted_luma _ _ _ _ _ (hlt i hi), emitted_dc]
  rw [hm]
  generalize decide (g.dcMode = 0) = z
  have hone : ∀ s ∈ o.map (emitted false (if z then 0 else 1) bL bL),
      CompsOK 1 s ∧ ProgParamsOK 8 s := by
    intro s hs
    obtain ⟨i, hi, rfl⟩ := List.mem_map.1 hs
    exact scanOk_iff (scan_gray _ bL h1 i (hlt i hi)).1
  have hcoef : ∀ k < 64,
      BitsInOrder none ((o.map (emitted false (if z then 0 else 1) bL bL)).filter (·.covers 0 k)) ∧
      ∃ s, ((o.map (emitted false (if z then 0 else 1) bL bL)).filter (·.covers 0 k)).getLast? =
        some s ∧ s.Al = 0 := by
    intro k hk
    rw [filter_covers o _ 0 k (fun _ => true)
      (fun i hi => (scan_gray _ bL h1 i (hlt i hi)).2.1)]
    have hkey := coef_gray bL h1 fL h3 k hk z
    rw [coefOk_iff] at hkey
    rw [List.filter_eq_self.2 (fun _ _ => rfl), hor]
    exact hkey
  obtain ⟨rest, hrest⟩ : ∃ rest, o = 0 :: rest := by
    rw [hor]; simp [compOrder]
  have hcov : (emitted false (if z then 0 else 1) bL bL 0).covers 0 0 = true := by
    cases z <;> simp [emitted, Scan.covers, Scan.has, SearchCfg.script, searchLuma, fillDcScans]
  refine ⟨⟨fun s hs => (hone s hs).1, fun s hs => (hone s hs).2, ?_, ?_, ?_⟩, ?_, hnd⟩
  · intro c k
    by_cases hcc : c < 1
    · have : c = 0 := by omega
      subst this
      by_cases hk : k < 64
      · exact (hcoef k hk).1
      · rw [List.filter_eq_nil_iff.2]
        · simp [BitsInOrder]
        · intro s hs
          have := (hone s hs).2
          unfold ProgParamsOK at this
          simp only [Scan.covers, Bool.and_eq_true, decide_eq_true_eq]
          omega
    · rw [List.filter_eq_nil_iff.2]
      · simp [BitsInOrder]
      · intro s hs hcv
        simp only [Scan.covers, Scan.has, Bool.and_eq_true, decide_eq_true_eq] at hcv
        have := (hone s hs).1.2.2.1 c hcv.1
        omega
  · have e : o.map (emitted false (if z then 0 else 1) bL bL) =
        [emitted false (if z then 0 else 1) bL bL 0] ++
          rest.map (emitted false (if z then 0 else 1) bL bL) := by
      rw [hrest]; rfl
    rw [e]
    refine dcFirst_prefix (n := 1) _ _ ?_ ?_ ?_
    · intro s hs
      rw [← e] at hs
      exact (hone s hs).1
    · intro t ht
      rw [List.mem_singleton] at ht
      rw [ht]
      exact (scan_gray _ bL h1 0 (by omega)).2.2.2 rfl
    · intro c hcc
      have : c = 0 := by omega
      subst this
      exact ⟨_, List.mem_singleton.2 rfl, hcov⟩
  · intro c hcc
    have : c = 0 := by omega
    subst this
    exact ⟨_, by rw [hrest]; exact List.mem_map_of_mem (List.mem_cons_self ..), hcov⟩
  · intro c hcc k hk
    have : c = 0 := by omega
    subst this
    exact (hcoef k hk).2

end Verif.Script
