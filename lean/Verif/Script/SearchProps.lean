/-
C18: scan optimization emits a legal, complete and best-found progression.
-/
import Verif.Script.SearchLegal
import Mathlib.Tactic.Tauto

namespace Verif.Script

/-! ## scan_number grows -/

theorem decide1_scan (g : SearchCfg) (st : SState) (h : st.scan < g.numScans) :
    st.scan ≤ (decide1 g (st.scan + 1) st).scan := by
  have hns := numScans_ge g
  have hfs := chromaFS_ge g
  have key : ∀ (b : Bool) (x y : SState), st.scan ≤ x.scan → st.scan ≤ y.scan →
      st.scan ≤ (if b then x else y).scan := by intro b x y h1 h2; cases b <;> simpa
  unfold decide1
  by_cases h1 : st.scan + 1 > 1 ∧ st.scan + 1 ≤ lumaFS
  · rw [if_pos h1]
    unfold lumaAlStep
    by_cases h2 : (st.scan + 1 - 1) % 3 = 2
    · rw [if_pos h2]
      simp only
      split
      · exact Nat.le_refl _
      · simp only [jumpTo]; unfold lumaFS at *; omega
    · rw [if_neg h2]
  · rw [if_neg h1]
    by_cases h2 : st.scan + 1 > lumaFS ∧ st.scan + 1 ≤ numScansLuma
    · rw [if_pos h2]
      unfold lumaFsStep
      by_cases h3 : st.scan + 1 = lumaFS + 1
      · rw [if_pos h3]
      · rw [if_neg h3]
        by_cases h4 : (st.scan + 1 - lumaFS) % 2 = 1
        · rw [if_pos h4]
          simp only
          generalize hst' : (if st.sizes (st.scan + 1 - 2) + st.sizes (st.scan + 1 - 1) < st.bestCost
            then _ else st : SState) = st'
          have e : st'.scan = st.scan := by rw [← hst']; split <;> rfl
          split
          · simp only [setLast, jumpTo]; omega
          · omega
        · rw [if_neg h4]
    · rw [if_neg h2]
      by_cases h3 : g.numScans > numScansLuma
      · rw [if_pos h3]
        split
        · exact Nat.le_refl _
        · split
          · unfold chromaAlStep
            simp only
            split
            · split
              · exact Nat.le_refl _
              · simp only [jumpTo]; omega
            · exact Nat.le_refl _
          · split
            · unfold chromaFsStep
              by_cases h3 : st.scan + 1 = g.chromaFS + 2
              · rw [if_pos h3]
              · rw [if_neg h3]
                by_cases h4 : (st.scan + 1 - g.chromaFS) % 4 = 2
                · rw [if_pos h4]
                  simp only
                  generalize hst' : (if st.sizes (st.scan + 1 - 4) + st.sizes (st.scan + 1 - 3) +
                    st.sizes (st.scan + 1 - 2) + st.sizes (st.scan + 1 - 1) < st.bestCost
                    then _ else st : SState) = st'
                  have e : st'.scan = st.scan := by rw [← hst']; split <;> rfl
                  split
                  · simp only [setLast, jumpTo]; omega
                  · omega
                · rw [if_neg h4]
            · exact Nat.le_refl _
      · rw [if_neg h3]

theorem step_scan (g : SearchCfg) (size : Nat → Int → Nat) (st : SState)
    (h : st.scan < g.numScans) : st.scan < (searchStep g size st).scan := by
  have h1 := decide1_scan g (encodeScan g size st) h
  have h2 : (encodeScan g size st).scan = st.scan := rfl
  unfold searchStep selectScans copyOut incr
  rw [h2] at h1
  split <;> simp only <;> omega

/-! ## The whole search -/

theorem phaseA_init {g : SearchCfg} {size : Nat → Int → Nat} {st : SState} (h : InitOK g st) :
    PhaseA g size st := by
  refine ⟨⟨?_, h.isLast, ?_, ?_, ?_, ?_, h.out⟩, ?_, ?_, ?_⟩
  · rw [h.pass, h.scan]; omega
  all_goals simp [h.encoded, h.scan]

theorem phaseA_end {g : SearchCfg} {size : Nat → Int → Nat} {st : SState} (h : PhaseA g size st)
    (hs : st.scan = 12) : AlLDone size st := by
  obtain ⟨h1, -, h2⟩ := h.best (by omega)
  have h3 : st.bestAlL = 3 := by omega
  refine ⟨by omega, fun i hi => h.all i (by omega), fun a ha _ => ?_⟩
  by_cases e : a = st.bestAlL
  · rw [e]
  · exact h2 a (by omega)

theorem phaseB_start {g : SearchCfg} {size : Nat → Int → Nat} {st : SState} (hg : Good g size st)
    (hs : st.scan = 12) (ha : AlLDone size st) : PhaseB g size st :=
  ⟨hg, ha, by omega, by omega, fun i h1 h2 => by omega, fun h => by omega⟩

theorem searchRun_last {g : SearchCfg} {size : Nat → Int → Nat} {st : SState}
    (h : st.isLast = true) : ∀ fuel, searchRun g size fuel st = st
  | 0 => rfl
  | fuel + 1 => by rw [searchRun, if_pos h]

/-- From the start to the end of the luma decisions. -/
theorem run_luma {g : SearchCfg} {size : Nat → Int → Nat} (hp : 1 ≤ g.pps) {st : SState}
    (h : InitOK g st) :
    ∃ st', EndB g size st' ∧
      ∃ j ≤ 23, ∀ fuel, searchRun g size (j + fuel) st = searchRun g size fuel st' := by
  have hns := numScans_ge g
  obtain ⟨sB, ⟨hB, hsB⟩, j, hj, hrun⟩ := run_of_step (g := g) (size := size)
    (P := fun st => PhaseA g size st ∧ st.scan < 12)
    (Q := fun st => PhaseB g size st ∧ st.scan = 12) 12
    (fun st h => h.1.good.isLast) (fun st h => h.2) (fun st h => step_scan g size st (by omega))
    (by
      rintro st ⟨hA, hlt⟩
      rcases phaseA_step hp hA hlt with h | ⟨hg, hs, ha⟩
      · by_cases e : (searchStep g size st).scan = 12
        · exact .inr ⟨phaseB_start h.good e (phaseA_end h e), e⟩
        · have := h.le
          exact .inl ⟨h, by omega⟩
      · exact .inr ⟨phaseB_start hg hs ha, hs⟩)
    12 st ⟨phaseA_init h, by rw [h.scan]; omega⟩ (by omega)
  obtain ⟨sE, hE, j', hj', hrun'⟩ := run_of_step (g := g) (size := size)
    (P := PhaseB g size) (Q := EndB g size) 23
    (fun st h => h.good.isLast) (fun st h => by have := h.le; omega)
    (fun st h => step_scan g size st (by have := h.le; omega))
    (fun st h => phaseB_step hp h) 11 sB hB (by omega)
  refine ⟨sE, hE, j + j', by omega, fun fuel => ?_⟩
  rw [Nat.add_assoc, hrun, hrun']

theorem run_color {g : SearchCfg} {size : Nat → Int → Nat} (hp : 1 ≤ g.pps) (hc : g.color = true)
    {st : SState} (h : InitOK g st) (fuel : Nat) (hf : 64 ≤ fuel) :
    EndE g size (searchRun g size fuel st) := by
  have hns : g.numScans = 64 := by unfold SearchCfg.numScans; simp [hc]
  obtain ⟨sB, hB, j, hj, hrun⟩ := run_luma (size := size) hp h
  obtain ⟨hg, hs⟩ := hB.good hc
  have hD : PhaseD g size sB :=
    ⟨hg, ⟨hB.al, hB.fs⟩, by omega, by omega, fun i h1 h2 => by omega, fun h => by omega,
      fun h => by omega⟩
  obtain ⟨sD, hD', j2, hj2, hrun2⟩ := run_of_step (g := g) (size := size)
    (P := fun st => PhaseD g size st ∧ st.scan < 42)
    (Q := EndD g size) 42
    (fun st h => h.1.good.isLast) (fun st h => h.2) (fun st h => step_scan g size st (by omega))
    (by
      rintro st ⟨hA, hlt⟩
      rcases phaseD_step hp hc hA hlt with h | h
      · by_cases e : (searchStep g size st).scan = 42
        · exact .inr (phaseD_end h e)
        · have := h.le
          exact .inl ⟨h, by omega⟩
      · exact .inr h)
    19 sB ⟨hD, by omega⟩ (by omega)
  have hE : PhaseE g size sD :=
    ⟨hD'.good, hD'.luma, hD'.dc, hD'.al, by rw [hD'.scan], by rw [hD'.scan]; omega,
      fun i h1 h2 => by rw [hD'.scan] at h2; omega, fun h => by rw [hD'.scan] at h; omega⟩
  obtain ⟨sE, hE', j3, hj3, hrun3⟩ := run_of_step (g := g) (size := size)
    (P := PhaseE g size) (Q := EndE g size) 64
    (fun st h => h.good.isLast) (fun st h => by have := h.le; omega)
    (fun st h => step_scan g size st (by have := h.le; omega))
    (fun st h => phaseE_step hp hc h) 22 sD hE (by rw [hD'.scan])
  rw [show fuel = j + (j2 + (j3 + (fuel - j - j2 - j3))) by omega, hrun, hrun2, hrun3,
    searchRun_last hE'.fin.isLast]
  exact hE'

theorem run_gray {g : SearchCfg} {size : Nat → Int → Nat} (hp : 1 ≤ g.pps) (hc : g.color = false)
    {st : SState} (h : InitOK g st) (fuel : Nat) (hf : 23 ≤ fuel) :
    EndB g size (searchRun g size fuel st) := by
  obtain ⟨sB, hB, j, hj, hrun⟩ := run_luma (size := size) hp h
  rw [show fuel = j + (fuel - j) by omega, hrun, searchRun_last (hB.fin hc).isLast]
  exact hB

/-! ## C18 -/

/-- Number of components. -/
def SearchCfg.n (g : SearchCfg) : Nat := if g.color then 3 else 1

/-- The progression found in the output: the buffers copied, each with the parameters it was really
encoded with. -/
def outScript (g : SearchCfg) (st : SState) : List Scan :=
  st.out.map fun i => { g.script.getD i ⟨[], 0, 0, 0, 0⟩ with Al := st.actualAl i }

/-- All these scans were tried. -/
def Tried (st : SState) (l : List Nat) : Prop := ∀ i ∈ l, i ∈ st.encoded

/-- What scan optimization promises at the end. -/
structure Found (g : SearchCfg) (size : Nat → Int → Nat) (st : SState) : Prop where
  /-- only buffers that were really encoded are copied, none twice -/
  fromEncoded : Tried st st.out
  once : st.out.Nodup
  /-- a legal progression that sends every bit -/
  legal : ∀ prec, LegalProg g.n prec (outScript g st)
  complete : Complete g.n (outScript g st)
  /-- least cost among the luma Al tried -/
  alLuma : Tried st (scansAlLuma st.bestAlL) ∧ ∀ a ≤ 3, Tried st (scansAlLuma a) →
    costAlLuma size st.bestAlL ≤ costAlLuma size a
  /-- least cost among the luma frequency splits tried -/
  fsLuma : Tried st (scansFsLuma st.bestFL) ∧ ∀ m ≤ 5, Tried st (scansFsLuma m) →
    costFsLuma size st.bestAlL st.bestFL ≤ costFsLuma size st.bestAlL m
  /-- the choices appear in the output -/
  outLuma : (∀ i ∈ scansFsLuma st.bestFL, i ∈ st.out ∧ st.actualAl i = st.bestAlL)
  /-- colour: chroma DC interleaved exactly if not larger (dc_scan_opt_mode > 1) -/
  dc : g.color = true → g.dcMode ≠ 0 → g.dcMode ≠ 1 →
    (23 ∈ st.out ↔ size 23 0 ≤ size 24 0 + size 25 0) ∧ (24 ∈ st.out ↔ ¬ 23 ∈ st.out)
  /-- colour: least cost among the chroma Al and frequency splits tried -/
  alChroma : g.color = true → Tried st (scansAlChroma st.bestAlC) ∧
    ∀ a ≤ 2, Tried st (scansAlChroma a) → costAlChroma size st.bestAlC ≤ costAlChroma size a
  fsChroma : g.color = true → Tried st (scansFsChroma st.bestFC) ∧
    ∀ m ≤ 5, Tried st (scansFsChroma m) →
      costFsChroma size st.bestAlC st.bestFC ≤ costFsChroma size st.bestAlC m
  outChroma : g.color = true →
    (∀ i ∈ scansFsChroma st.bestFC, i ∈ st.out ∧ st.actualAl i = st.bestAlC)

theorem mem_downTo {hi lo a : Nat} (h : a ∈ downTo hi lo) : lo ≤ a ∧ a < hi := by
  unfold downTo at h
  simp at h
  omega

theorem mem_downTo_iff {hi lo a : Nat} : a ∈ downTo hi lo ↔ lo ≤ a ∧ a < hi := by
  unfold downTo
  simp
  omega

theorem mem_order_color (g : SearchCfg) (hc : g.color = true) (bL bC fL fC : Nat) (inter : Bool)
    (i : Nat) : i ∈ copyOrder g bL bC fL fC inter ↔
      i = 0 ∨ (g.dcMode ≠ 0 ∧ i ∈ (if inter ∧ g.dcMode ≠ 1 then [23] else [24, 25])) ∨
      i ∈ scansFsLuma fL ∨ (∃ a < bL, i = 3 + 3 * a) ∨ i ∈ scansFsChroma fC ∨
      (∃ a < bC, i = 30 + 6 * a ∨ i = 31 + 6 * a) := by
  have hns : g.numScans = 64 := by unfold SearchCfg.numScans; simp [hc]
  have hcd : g.chromaDc = 3 := by unfold SearchCfg.chromaDc; simp [hc]
  have hfs : g.chromaFS = 42 := by
    unfold SearchCfg.chromaFS SearchCfg.alMaxChroma numScansLuma; simp [hc, hcd]
  have f1 : (i ∈ if fL = 0 then [12] else [12 + 2 * (fL - 1) + 1, 12 + 2 * (fL - 1) + 2]) ↔
      i ∈ scansFsLuma fL := by
    unfold scansFsLuma
    by_cases e : fL = 0
    · simp [e]
    · simp only [if_neg e, List.mem_cons, List.not_mem_nil, or_false]; omega
  have f2 : (i ∈ if fC = 0 then [42, 43] else [42 + 4 * (fC - 1) + 2, 42 + 4 * (fC - 1) + 3,
      42 + 4 * (fC - 1) + 4, 42 + 4 * (fC - 1) + 5]) ↔ i ∈ scansFsChroma fC := by
    unfold scansFsChroma
    by_cases e : fC = 0
    · simp [e]
    · simp only [if_neg e, List.mem_cons, List.not_mem_nil, or_false]; omega
  unfold copyOrder
  simp only [hns, hcd, hfs, numScansLuma, lumaFS]
  simp only [show decide (64 > 1 + (3 * 3 + 2) + (2 * 5 + 1)) = true by decide, if_true, true_and,
    List.mem_append, List.mem_map, List.mem_flatMap, mem_downTo_iff]
  have f3 : (i ∈ if g.dcMode ≠ 0 then (if inter = true ∧ g.dcMode ≠ 1 then
      [1 + (3 * 3 + 2) + (2 * 5 + 1)] else
      [1 + (3 * 3 + 2) + (2 * 5 + 1) + 1, 1 + (3 * 3 + 2) + (2 * 5 + 1) + 2]) else []) ↔
      (g.dcMode ≠ 0 ∧ i ∈ (if inter ∧ g.dcMode ≠ 1 then [23] else [24, 25])) := by
    by_cases e : g.dcMode = 0
    · simp [e]
    · simp [e]
  simp only [Nat.reduceMul, Nat.reduceAdd] at f3 ⊢
  rw [f3, f1, f2]
  simp only [List.mem_cons, List.not_mem_nil, or_false]
  constructor
  · rintro (((((h | h) | h) | ⟨a, ha, h⟩) | (h | ⟨a, ha, h⟩)) | ⟨a, ha, h⟩)
    · exact .inl h
    · exact .inr (.inl h)
    · exact .inr (.inr (.inl h))
    · exact .inr (.inr (.inr (.inl ⟨a, ha.2, h.symm⟩)))
    · exact .inr (.inr (.inr (.inr (.inl h))))
    · exact .inr (.inr (.inr (.inr (.inr ⟨a, ha.2, by omega⟩))))
    · rcases h with h | h
      · exact .inr (.inr (.inr (.inl ⟨a, by omega, h⟩)))
      · exact .inr (.inr (.inr (.inr (.inr ⟨a, by omega, by omega⟩))))
  · rintro (h | h | h | ⟨a, ha, h⟩ | h | ⟨a, ha, h⟩)
    · exact .inl (.inl (.inl (.inl (.inl h))))
    · exact .inl (.inl (.inl (.inl (.inr h))))
    · exact .inl (.inl (.inl (.inr h)))
    · by_cases e : a < min bL bC
      · exact .inr ⟨a, ⟨by omega, e⟩, .inl h⟩
      · exact .inl (.inl (.inr ⟨a, ⟨by omega, ha⟩, h.symm⟩))
    · exact .inl (.inr (.inl h))
    · by_cases e : a < min bL bC
      · exact .inr ⟨a, ⟨by omega, e⟩, .inr (by omega)⟩
      · exact .inl (.inr (.inr ⟨a, ⟨by omega, ha⟩, by omega⟩))

theorem mem_order_gray (g : SearchCfg) (hc : g.color = false) (bL bC fL fC : Nat) (inter : Bool)
    (i : Nat) : i ∈ copyOrder g bL bC fL fC inter ↔
      i = 0 ∨ i ∈ scansFsLuma fL ∨ (∃ a < bL, i = 3 + 3 * a) := by
  have hns : g.numScans = 23 := by unfold SearchCfg.numScans; simp [hc]
  have f1 : (i ∈ if fL = 0 then [12] else [12 + 2 * (fL - 1) + 1, 12 + 2 * (fL - 1) + 2]) ↔
      i ∈ scansFsLuma fL := by
    unfold scansFsLuma
    by_cases e : fL = 0
    · simp [e]
    · simp only [if_neg e, List.mem_cons, List.not_mem_nil, or_false]; omega
  unfold copyOrder
  simp only [hns, numScansLuma, lumaFS]
  simp only [show decide (23 > 1 + (3 * 3 + 2) + (2 * 5 + 1)) = false by decide, if_false, false_and,
    List.mem_append, List.mem_map, List.mem_flatMap, mem_downTo_iff, Bool.false_eq_true]
  simp only [Nat.reduceMul, Nat.reduceAdd]
  rw [f1]
  simp only [List.mem_cons, List.not_mem_nil, or_false]
  constructor
  · rintro (((h | h) | ⟨a, ha, h⟩) | ⟨a, ha, h⟩)
    · exact .inl h
    · exact .inr (.inl h)
    · exact .inr (.inr ⟨a, ha.2, h.symm⟩)
    · exact .inr (.inr ⟨a, by omega, h⟩)
  · rintro (h | h | ⟨a, ha, h⟩)
    · exact .inl (.inl (.inl h))
    · exact .inl (.inl (.inr h))
    · by_cases e : a < min bL bC
      · exact .inr ⟨a, ⟨by omega, e⟩, h⟩
      · exact .inl (.inr ⟨a, ⟨by omega, ha⟩, h.symm⟩)

theorem outScript_eq {g : SearchCfg} {size : Nat → Int → Nat} {st : SState} (hf : Fin g size st)
    (ht : Tried st st.out) :
    outScript g st = st.out.map (emitted g.color g.dcMode st.bestAlL st.bestAlC) := by
  unfold outScript
  apply List.map_congr_left
  intro i hi
  rw [hf.al i (ht i hi)]
  rfl

theorem found_color {g : SearchCfg} {size : Nat → Int → Nat} {st : SState} (hc : g.color = true)
    (h : EndE g size st) : Found g size st := by
  have hn : g.n = 3 := by unfold SearchCfg.n; simp [hc]
  have a1 := h.luma.al.le3
  have a2 := h.luma.fs.le5
  have a3 := h.al.le2
  have a4 := h.fs.le5
  have hmem := fun i => mem_order_color g hc st.bestAlL st.bestAlC st.bestFL st.bestFC st.inter i
  rw [← h.fin.out] at hmem
  have hsubL : ∀ i ∈ scansFsLuma st.bestFL, i ∈ st.out :=
    fun i hi => (hmem i).2 (.inr (.inr (.inl hi)))
  have hsubC : ∀ i ∈ scansFsChroma st.bestFC, i ∈ st.out :=
    fun i hi => (hmem i).2 (.inr (.inr (.inr (.inr (.inl hi)))))
  have ht : Tried st st.out := by
    intro i hi
    rw [hmem] at hi
    rcases hi with rfl | ⟨-, hi⟩ | hi | ⟨a, ha, rfl⟩ | hi | ⟨a, ha, hi⟩
    · exact h.luma.al.enc 0 (by omega)
    · have : i = 23 ∨ i = 24 ∨ i = 25 := by
        by_cases e : st.inter = true ∧ g.dcMode ≠ 1
        · rw [if_pos e] at hi; simp at hi; omega
        · rw [if_neg e] at hi; simp at hi; omega
      exact h.dc.enc i (by omega) (by omega)
    · exact h.luma.fs.enc i hi
    · exact h.luma.al.enc _ (by omega)
    · exact h.fs.enc i hi
    · exact h.al.enc i (by omega) (by omega)
  obtain ⟨l1, l2, l3⟩ := color_legal g hc st.bestAlL st.bestAlC st.bestFL st.bestFC st.inter
    (by omega) (by omega) (by omega) (by omega)
  have hos := outScript_eq h.fin ht
  rw [hc] at hos
  rw [← h.fin.out, ← hos] at l1 l2
  rw [← h.fin.out] at l3
  refine ⟨ht, l3, ?_, ?_, ⟨?_, h.luma.al.opt⟩, ⟨h.luma.fs.enc, h.luma.fs.opt⟩, ?_, ?_, ?_, ?_, ?_⟩
  · intro prec; rw [hn]; exact legal_prec l1
  · rw [hn]; exact l2
  · intro i hi
    simp only [scansAlLuma, List.mem_cons, List.not_mem_nil, or_false] at hi
    exact h.luma.al.enc i (by omega)
  · intro i hi
    refine ⟨hsubL i hi, ?_⟩
    have := mem_scansFsLuma hi
    rw [h.fin.al i (ht i (hsubL i hi)), alFor_lumaFS g st i (by omega) (by omega)]
  · intro _ hd0 hd1
    have ho := h.dc.opt
    rw [hmem, hmem]
    have n1 : ∀ x, x = 23 ∨ x = 24 → x ∉ scansFsLuma st.bestFL := by
      intro x hx hm
      have := mem_scansFsLuma hm
      omega
    have n2 : ∀ x, x = 23 ∨ x = 24 → x ∉ scansFsChroma st.bestFC := by
      intro x hx hm
      have := mem_scansFsChroma hm
      omega
    have n3 : ∀ x, x = 23 ∨ x = 24 → ¬ ∃ a < st.bestAlL, x = 3 + 3 * a := by
      rintro x hx ⟨a, ha, e⟩; omega
    have n4 : ∀ x, x = 23 ∨ x = 24 → ¬ ∃ a < st.bestAlC, x = 30 + 6 * a ∨ x = 31 + 6 * a := by
      rintro x hx ⟨a, ha, e⟩; omega
    simp only [n1 23 (.inl rfl), n1 24 (.inr rfl), n2 23 (.inl rfl), n2 24 (.inr rfl),
      n3 23 (.inl rfl), n3 24 (.inr rfl), n4 23 (.inl rfl), n4 24 (.inr rfl), or_false]
    cases hI : st.inter with
    | true =>
      rw [hI] at ho
      have ho' := of_decide_eq_true ho.symm
      simp [hd0, hd1, ho']
    | false =>
      rw [hI] at ho
      have ho' := of_decide_eq_false ho.symm
      simp [hd0, ho']
  · intro _
    refine ⟨?_, h.al.opt⟩
    intro i hi
    simp only [scansAlChroma, List.mem_cons, List.not_mem_nil, or_false] at hi
    exact h.al.enc i (by omega) (by omega)
  · intro _
    exact ⟨h.fs.enc, h.fs.opt⟩
  · intro _ i hi
    refine ⟨hsubC i hi, ?_⟩
    have := mem_scansFsChroma hi
    rw [h.fin.al i (ht i (hsubC i hi)), alFor_chromaFS hc st i (by omega) (by omega)]

theorem found_gray {g : SearchCfg} {size : Nat → Int → Nat} {st : SState} (hc : g.color = false)
    (h : EndB g size st) : Found g size st := by
  have hn : g.n = 1 := by unfold SearchCfg.n; simp [hc]
  have hfin := h.fin hc
  have a1 := h.al.le3
  have a2 := h.fs.le5
  have hmem := fun i => mem_order_gray g hc st.bestAlL st.bestAlC st.bestFL st.bestFC st.inter i
  rw [← hfin.out] at hmem
  have hsubL : ∀ i ∈ scansFsLuma st.bestFL, i ∈ st.out :=
    fun i hi => (hmem i).2 (.inr (.inl hi))
  have ht : Tried st st.out := by
    intro i hi
    rw [hmem] at hi
    rcases hi with rfl | hi | ⟨a, ha, rfl⟩
    · exact h.al.enc 0 (by omega)
    · exact h.fs.enc i hi
    · exact h.al.enc _ (by omega)
  obtain ⟨l1, l2, l3⟩ := gray_legal g hc st.bestAlL st.bestAlC st.bestFL st.bestFC st.inter
    (by omega) (by omega)
  have hos := outScript_eq hfin ht
  rw [hc] at hos
  rw [← hfin.out, ← hos] at l1 l2
  rw [← hfin.out] at l3
  have hcc : ¬ g.color = true := by simp [hc]
  refine ⟨ht, l3, ?_, ?_, ⟨?_, h.al.opt⟩, ⟨h.fs.enc, h.fs.opt⟩, ?_, fun e => absurd e hcc,
    fun e => absurd e hcc, fun e => absurd e hcc, fun e => absurd e hcc⟩
  · intro prec; rw [hn]; exact legal_prec l1
  · rw [hn]; exact l2
  · intro i hi
    simp only [scansAlLuma, List.mem_cons, List.not_mem_nil, or_false] at hi
    exact h.al.enc i (by omega)
  · intro i hi
    refine ⟨hsubL i hi, ?_⟩
    have := mem_scansFsLuma hi
    rw [hfin.al i (ht i (hsubL i hi)), alFor_lumaFS g st i (by omega) (by omega)]

/-- **C18.** Whatever the sizes of the trial scans, after at most 64 trial scans the search is over, and
the buffers copied to the output were really encoded, form a legal progressive script that sends every
bit of every coefficient exactly once, with the cheapest choices among those tried. -/
theorem scan_search_found (g : SearchCfg) (size : Nat → Int → Nat) (hp : 1 ≤ g.pps) (st : SState)
    (h : InitOK g st) (steps : Nat) (hs : 64 ≤ steps) :
    (searchRun g size steps st).isLast = true ∧ Found g size (searchRun g size steps st) := by
  cases hc : g.color with
  | true => exact ⟨(run_color hp hc h steps hs).fin.isLast, found_color hc (run_color hp hc h steps hs)⟩
  | false =>
    have := run_gray (size := size) hp hc h steps (by omega)
    exact ⟨(this.fin hc).isLast, found_gray hc this⟩

/-- The script found is accepted by the scan script validator. -/
theorem scan_search_validates (g : SearchCfg) (size : Nat → Int → Nat) (hp : 1 ≤ g.pps) (st : SState)
    (h : InitOK g st) (prec : Nat) :
    validate g.n prec (outScript g (searchRun g size 64 st)) = .ok .progressive :=
  (validate_progressive_iff g.n prec (by unfold SearchCfg.n; split <;> omega) _).2
    ((scan_search_found g size hp st h 64 (Nat.le_refl _)).2.legal prec)

/-- The scans the search picks from are those of the search script. -/
theorem search_script_source (g : Cfg) (h : g.custom = true ∨ g.ncomps = 1) (pps base : Nat) :
    searchScript g = some (SearchCfg.numScans ⟨g.custom, g.dcMode, pps, base⟩,
      SearchCfg.script ⟨g.custom, g.dcMode, pps, base⟩) := by
  unfold searchScript SearchCfg.numScans SearchCfg.script
  by_cases hc : g.custom = true
  · have h3 : g.ncomps = 3 := by
      unfold Cfg.custom at hc; simp at hc; exact hc.1
    simp [hc, h3]
  · have h1 : g.ncomps = 1 := h.resolve_left hc
    simp [hc, h1]

-- Non-vacuity: a colour search where higher Al is cheaper, and what it copies.
def exInit (g : SearchCfg) : SState :=
  ⟨0, g.pps - 1 + g.base, fun _ => 7, fun _ => 5, 99, 3, 0, 5, 5, true, false, [], []⟩
example : InitOK ⟨true, 2, 2, 1⟩ (exInit ⟨true, 2, 2, 1⟩) := ⟨rfl, rfl, rfl, rfl, rfl⟩
example :
    let r := searchRun ⟨true, 2, 2, 1⟩ (fun i al =>
        if [3, 6, 9, 30, 31, 36, 37].contains i then 1 else (i * 37) % 11 + 40 - 12 * al.toNat) 64
      (exInit ⟨true, 2, 2, 1⟩)
    r.isLast = true ∧ r.out.length = 12 := by decide +kernel

end Verif.Script
