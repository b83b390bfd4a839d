/-
Invariants of the scan search (Search.lean).
-/
import Verif.Script.Search
import Mathlib.Tactic.IntervalCases
import Mathlib.Tactic.Ring

namespace Verif.Script

/-! ## Costs, stated on the sizes themselves -/

/-- Bytes for luma AC with successive approximation starting at bit `a`: the two first passes at Al = a
and the refinements a-1, …, 0. -/
def costAlLuma (size : Nat → Int → Nat) (a : Nat) : Nat :=
  size (3 * a + 1) a + size (3 * a + 2) a + sumTo (fun i => size (3 + 3 * i) i) a

/-- Bytes for luma AC first passes with frequency split number `m` (0 = no split), at Al = b. -/
def costFsLuma (size : Nat → Int → Nat) (b m : Nat) : Nat :=
  if m = 0 then size 12 b else size (12 + 2 * m - 1) b + size (12 + 2 * m) b

/-- Bytes for chroma AC with successive approximation starting at bit `a`. -/
def costAlChroma (size : Nat → Int → Nat) (a : Nat) : Nat :=
  size (26 + 6 * a) a + size (27 + 6 * a) a + size (28 + 6 * a) a + size (29 + 6 * a) a +
    sumTo (fun i => size (30 + 6 * i) i + size (31 + 6 * i) i) a

/-- Bytes for chroma AC first passes with frequency split number `m` (0 = no split), at Al = b. -/
def costFsChroma (size : Nat → Int → Nat) (b m : Nat) : Nat :=
  if m = 0 then size 42 b + size 43 b
  else size (40 + 4 * m) b + size (41 + 4 * m) b + size (42 + 4 * m) b + size (43 + 4 * m) b

/-- The scans of a luma Al candidate / split candidate / chroma candidates. -/
def scansAlLuma (a : Nat) : List Nat := [3 * a + 1, 3 * a + 2]
def scansFsLuma (m : Nat) : List Nat := if m = 0 then [12] else [12 + 2 * m - 1, 12 + 2 * m]
def scansAlChroma (a : Nat) : List Nat := [26 + 6 * a, 27 + 6 * a, 28 + 6 * a, 29 + 6 * a]
def scansFsChroma (m : Nat) : List Nat :=
  if m = 0 then [42, 43] else [40 + 4 * m, 41 + 4 * m, 42 + 4 * m, 43 + 4 * m]

/-! ## General invariant -/

structure Good (g : SearchCfg) (size : Nat → Int → Nat) (st : SState) : Prop where
  pass : st.pass = g.pps * st.scan + (g.pps - 1) + g.base
  isLast : st.isLast = false
  sz : ∀ i ∈ st.encoded, st.sizes i = size i (st.actualAl i)
  al : ∀ i ∈ st.encoded, st.actualAl i = g.alFor st i
  lt : ∀ i ∈ st.encoded, i < st.scan
  nodup : st.encoded.Nodup
  out : st.out = []

theorem alFor_congr (g : SearchCfg) {st st' : SState} (h1 : st'.bestAlL = st.bestAlL)
    (h2 : st'.bestAlC = st.bestAlC) (i : Nat) : g.alFor st' i = g.alFor st i := by
  unfold SearchCfg.alFor; rw [h1, h2]

/-- After encoding, before selecting. -/
structure Good1 (g : SearchCfg) (size : Nat → Int → Nat) (st : SState) : Prop where
  pass : st.pass = g.pps * st.scan + (g.pps - 1) + g.base
  isLast : st.isLast = (st.pass == g.totalPasses - 1)
  sz : ∀ i ∈ st.encoded, st.sizes i = size i (st.actualAl i)
  al : ∀ i ∈ st.encoded, st.actualAl i = g.alFor st i
  le : ∀ i ∈ st.encoded, i ≤ st.scan
  nodup : st.encoded.Nodup
  out : st.out = []

theorem encode_good {g : SearchCfg} {size : Nat → Int → Nat} {st : SState} (h : Good g size st) :
    Good1 g size (encodeScan g size st) := by
  have hn : st.scan ∉ st.encoded := fun hm => Nat.lt_irrefl _ (h.lt _ hm)
  refine ⟨h.pass, rfl, ?_, ?_, ?_, ?_, h.out⟩
  · intro i hi
    simp only [encodeScan, List.mem_append, List.mem_singleton] at hi ⊢
    rcases hi with hi | hi
    · have : i ≠ st.scan := fun e => hn (e ▸ hi)
      simp [this, h.sz i hi]
    · simp [hi]
  · intro i hi
    rw [alFor_congr g (st := st) (st' := encodeScan g size st) rfl rfl]
    simp only [encodeScan, List.mem_append, List.mem_singleton] at hi ⊢
    rcases hi with hi | hi
    · have : i ≠ st.scan := fun e => hn (e ▸ hi)
      simp [this, h.al i hi]
    · simp [hi]
  · intro i hi
    simp only [encodeScan, List.mem_append, List.mem_singleton] at hi ⊢
    rcases hi with hi | hi
    · exact Nat.le_of_lt (h.lt i hi)
    · omega
  · simp only [encodeScan]
    rw [List.nodup_append]
    refine ⟨h.nodup, by simp, ?_⟩
    intro a ha b hb
    rw [List.mem_singleton] at hb
    subst hb
    exact fun e => hn (e ▸ ha)

theorem total_gt {g : SearchCfg} (hp : 1 ≤ g.pps) {s : Nat} (h : s + 1 < g.numScans) :
    ((g.pps * s + (g.pps - 1) + g.base) == g.totalPasses - 1) = false := by
  unfold SearchCfg.totalPasses
  have h1 : g.pps * (s + 2) ≤ g.pps * g.numScans := Nat.mul_le_mul (Nat.le_refl _) (by omega)
  rw [Nat.mul_add] at h1
  simp only [beq_eq_false_iff_ne]
  omega

theorem total_eq {g : SearchCfg} (hp : 1 ≤ g.pps) {s : Nat} (h : s + 1 = g.numScans) :
    ((g.pps * s + (g.pps - 1) + g.base) == g.totalPasses - 1) = true := by
  unfold SearchCfg.totalPasses
  rw [← h, Nat.mul_add]
  simp only [beq_iff_eq]
  omega

theorem pass_succ {g : SearchCfg} (s : Nat) :
    g.pps * s + (g.pps - 1) + g.base + g.pps = g.pps * (s + 1) + (g.pps - 1) + g.base := by
  rw [Nat.mul_add]; omega

theorem pass_jump {g : SearchCfg} (hp : 1 ≤ g.pps) (s : Nat) :
    g.pps * (s + 1) - 1 + g.base = g.pps * s + (g.pps - 1) + g.base := by
  rw [Nat.mul_add]
  omega

/-- The state after selection and increment, given what selection changed. -/
theorem good_next {g : SearchCfg} {size : Nat → Int → Nat} {st1 st2 : SState}
    (hp : 1 ≤ g.pps) (h : Good1 g size st1) (hscan : st1.scan ≤ st2.scan)
    (hlim : st2.scan + 1 < g.numScans)
    (hpass : st2.pass = g.pps * st2.scan + (g.pps - 1) + g.base)
    (hlast : st2.isLast = st1.isLast ∨ st2.isLast = (st2.pass == g.totalPasses - 1))
    (hsz : st2.sizes = st1.sizes) (hact : st2.actualAl = st1.actualAl)
    (henc : st2.encoded = st1.encoded) (hout : st2.out = st1.out)
    (hal : ∀ i ∈ st1.encoded, g.alFor st2 i = g.alFor st1 i) :
    Good g size (incr g st2) := by
  unfold incr
  refine ⟨?_, ?_, ?_, ?_, ?_, ?_, ?_⟩
  · simp only; rw [hpass, pass_succ]
  · simp only
    rcases hlast with e | e
    · rw [e, h.isLast, h.pass]
      exact total_gt hp (by omega)
    · rw [e, hpass]
      exact total_gt hp hlim
  · intro i hi
    simp only at hi ⊢
    rw [henc] at hi
    rw [hsz, hact]; exact h.sz i hi
  · intro i hi
    rw [alFor_congr g (st := st2)
      (st' := { st2 with scan := st2.scan + 1, pass := st2.pass + g.pps }) rfl rfl]
    simp only at hi ⊢
    rw [henc] at hi
    rw [hact, hal i hi]; exact h.al i hi
  · intro i hi
    simp only at hi ⊢
    rw [henc] at hi
    have := h.le i hi
    omega
  · simp only; rw [henc]; exact h.nodup
  · simp only; rw [hout]; exact h.out

theorem copyOut_ne (g : SearchCfg) (st : SState) (h : st.scan ≠ g.numScans - 1) :
    copyOut g st = st := by
  unfold copyOut; rw [if_neg h]

theorem numScans_ge (g : SearchCfg) : 23 ≤ g.numScans := by
  unfold SearchCfg.numScans; split <;> omega

theorem chromaFS_ge (g : SearchCfg) : 27 ≤ g.chromaFS := by
  unfold SearchCfg.chromaFS numScansLuma; omega

/-- Al of the luma scans tried for successive approximation. -/
theorem script_al_luma (g : SearchCfg) (i : Nat) (hi : i < 12) :
    (g.script.getD i ⟨[], 0, 0, 0, 0⟩).Al =
      if i = 0 then 0 else if i % 3 = 0 then ((i / 3 - 1 : Nat) : Int) else ((i - 1) / 3 : Nat) := by
  unfold SearchCfg.script searchLuma
  by_cases hd : g.dcMode = 0
  · cases hc : g.color
    · simp only [hd, if_true, Bool.false_eq_true, if_false]
      revert i; decide
    · simp only [hd, if_true]
      revert i; decide
  · cases hc : g.color
    · simp only [hd, Bool.false_eq_true, if_false]
      revert i; decide
    · simp only [hd, if_true, if_false]
      revert i; decide

theorem alFor_luma (g : SearchCfg) (st : SState) (i : Nat) (hi : i < 12) :
    g.alFor st i =
      if i = 0 then 0 else if i % 3 = 0 then ((i / 3 - 1 : Nat) : Int) else ((i - 1) / 3 : Nat) := by
  unfold SearchCfg.alFor
  have := chromaFS_ge g
  rw [if_neg (by omega), if_neg (by unfold lumaFS; omega), script_al_luma g i hi]

theorem alFor_lumaFS (g : SearchCfg) (st : SState) (i : Nat) (h1 : 12 ≤ i) (h2 : i < 23) :
    g.alFor st i = st.bestAlL := by
  unfold SearchCfg.alFor
  have := chromaFS_ge g
  rw [if_neg (by omega), if_pos (by unfold lumaFS numScansLuma; omega)]

/-! ## Phase A: luma Al -/

structure PhaseA (g : SearchCfg) (size : Nat → Int → Nat) (st : SState) : Prop where
  good : Good g size st
  le : st.scan ≤ 12
  all : ∀ i < st.scan, i ∈ st.encoded
  best : 3 ≤ st.scan → st.bestAlL = st.scan / 3 - 1 ∧ st.bestCost = costAlLuma size st.bestAlL ∧
    ∀ a < st.bestAlL, costAlLuma size st.bestAlL ≤ costAlLuma size a

/-- The luma Al is chosen: it was tried (with all its refinements), and it is cheapest of those tried. -/
structure AlLDone (size : Nat → Int → Nat) (st : SState) : Prop where
  le3 : st.bestAlL ≤ 3
  enc : ∀ i < 3 * st.bestAlL + 3, i ∈ st.encoded
  opt : ∀ a ≤ 3, (∀ i ∈ scansAlLuma a, i ∈ st.encoded) →
    costAlLuma size st.bestAlL ≤ costAlLuma size a

theorem sumTo_congr {f f' : Nat → Nat} : ∀ n, (∀ i < n, f i = f' i) → sumTo f n = sumTo f' n
  | 0, _ => rfl
  | n + 1, h => by
    rw [sumTo, sumTo, sumTo_congr n (fun i hi => h i (by omega)), h n (by omega)]

theorem phaseA_step {g : SearchCfg} {size : Nat → Int → Nat} (hp : 1 ≤ g.pps) {st : SState}
    (h : PhaseA g size st) (hlt : st.scan < 12) :
    PhaseA g size (searchStep g size st) ∨
    (Good g size (searchStep g size st) ∧ (searchStep g size st).scan = 12 ∧
      AlLDone size (searchStep g size st)) := by
  have hns := numScans_ge g
  have h1 := encode_good h.good
  set st1 := encodeScan g size st with hst1
  have hs1 : st1.scan = st.scan := rfl
  have hb1 : st1.bestAlL = st.bestAlL := rfl
  have hc1 : st1.bestCost = st.bestCost := rfl
  have he1 : st1.encoded = st.encoded ++ [st.scan] := rfl
  have hall : ∀ i ≤ st.scan, i ∈ st1.encoded := by
    intro i hi
    rw [he1, List.mem_append, List.mem_singleton]
    by_cases e : i = st.scan
    · exact .inr e
    · exact .inl (h.all i (by omega))
  have hsize : ∀ i ≤ st.scan, st1.sizes i = size i (g.alFor st1 i) := by
    intro i hi
    rw [h1.sz i (hall i hi), h1.al i (hall i hi)]
  unfold searchStep selectScans
  rw [← hst1]
  -- plain continuation
  have plain : ¬ (st.scan + 1 > 1 ∧ st.scan % 3 = 2) → decide1 g (st.scan + 1) st1 = st1 →
      PhaseA g size (incr g (copyOut g (decide1 g (st.scan + 1) st1))) := by
    intro hnd e
    rw [e, copyOut_ne g st1 (by rw [hs1]; omega)]
    refine ⟨good_next hp h1 (Nat.le_refl _) (by omega) h1.pass (.inl rfl) rfl rfl rfl rfl
      (fun _ _ => rfl), by simp only [incr, hs1]; omega, ?_, ?_⟩
    · intro i hi; exact hall i (by simp only [incr, hs1] at hi; omega)
    · intro h3
      simp only [incr, hs1] at h3 ⊢
      have := h.best (by omega)
      rw [hb1, hc1]
      exact ⟨by omega, this.2⟩
  by_cases hx : st.scan + 1 > 1 ∧ st.scan + 1 ≤ lumaFS
  · by_cases hd : (st.scan + 1 - 1) % 3 = 2
    · have hcost : st1.sizes (st.scan + 1 - 2) + st1.sizes (st.scan + 1 - 1) +
          sumTo (fun i => st1.sizes (3 + 3 * i)) ((st.scan + 1 - 1) / 3) =
          costAlLuma size (st.scan / 3) := by
        unfold costAlLuma
        rw [hsize _ (by omega), hsize _ (by omega), alFor_luma g st1 _ (by omega),
          alFor_luma g st1 _ (by omega)]
        have e1 : st.scan + 1 - 2 = 3 * (st.scan / 3) + 1 := by omega
        have e2 : st.scan + 1 - 1 = 3 * (st.scan / 3) + 2 := by omega
        have e3 : (st.scan + 1 - 1) / 3 = st.scan / 3 := by omega
        rw [e3, e1, e2]
        have q1 : ¬ (3 * (st.scan / 3) + 1 = 0) := by omega
        have q2 : ¬ ((3 * (st.scan / 3) + 1) % 3 = 0) := by omega
        have q3 : ¬ (3 * (st.scan / 3) + 2 = 0) := by omega
        have q4 : ¬ ((3 * (st.scan / 3) + 2) % 3 = 0) := by omega
        have q5 : (3 * (st.scan / 3) + 1 - 1) / 3 = st.scan / 3 := by omega
        have q6 : (3 * (st.scan / 3) + 2 - 1) / 3 = st.scan / 3 := by omega
        rw [if_neg q1, if_neg q2, if_neg q3, if_neg q4, q5, q6]
        congr 1
        apply sumTo_congr
        intro i hi
        rw [hsize _ (by omega), alFor_luma g st1 _ (by omega), if_neg (by omega), if_pos (by omega)]
        have : (3 + 3 * i) / 3 - 1 = i := by omega
        rw [this]
      have eal : (st.scan + 1 - 1) / 3 = st.scan / 3 := by omega
      by_cases hi : st.scan / 3 = 0 ∨ costAlLuma size (st.scan / 3) < st1.bestCost
      · left
        have e : decide1 g (st.scan + 1) st1 =
            { st1 with bestCost := costAlLuma size (st.scan / 3), bestAlL := st.scan / 3 } := by
          unfold decide1 lumaAlStep
          rw [if_pos hx, if_pos hd]
          simp only
          rw [hcost, eal, if_pos hi]
        rw [e, copyOut_ne g _ (by simp only [hs1]; omega)]
        refine ⟨good_next hp h1 (Nat.le_refl _) (by simp only [hs1]; omega) h1.pass (.inl rfl) rfl
          rfl rfl rfl ?_, by simp only [incr, hs1]; omega, ?_, ?_⟩
        · intro i him
          have := h1.le i him
          rw [alFor_luma g _ _ (by omega), alFor_luma g _ _ (by omega)]
        · intro i hi; exact hall i (by simp only [incr, hs1] at hi; omega)
        · intro h3
          simp only [incr, hs1] at h3
          refine ⟨by simp only [incr, hs1]; omega, rfl, ?_⟩
          intro a ha
          simp only [incr] at ha ⊢
          rcases hi with hi | hi
          · omega
          · have hb := h.best (by omega)
            rw [hc1, hb.2.1] at hi
            by_cases e : a = st.bestAlL
            · subst e; omega
            · have := hb.2.2 a (by omega)
              omega
      · right
        have e : decide1 g (st.scan + 1) st1 = jumpTo g (lumaFS - 1) st1 := by
          unfold decide1 lumaAlStep
          rw [if_pos hx, if_pos hd]
          simp only
          rw [hcost, eal, if_neg hi]
        rw [e, copyOut_ne g _ (by simp only [jumpTo, lumaFS]; omega)]
        have hsc : 3 ≤ st.scan := by omega
        have hb := h.best hsc
        refine ⟨good_next hp h1 (by simp only [jumpTo, lumaFS, hs1]; omega)
          (by simp only [jumpTo, lumaFS]; omega) (by simp only [jumpTo]; rw [pass_jump hp])
          (.inl rfl) rfl rfl rfl rfl (fun _ _ => rfl), by simp [incr, jumpTo, lumaFS], ?_⟩
        refine ⟨by simp only [incr, jumpTo, hb1]; omega, ?_, ?_⟩
        · intro i hi'
          simp only [incr, jumpTo, hb1] at hi'
          exact hall i (by omega)
        · intro a ha hin
          simp only [incr, jumpTo, hb1] at hin ⊢
          by_cases e1 : a < st.bestAlL
          · exact hb.2.2 a e1
          · by_cases e2 : a = st.bestAlL
            · rw [e2]
            · have : 3 * a + 2 ≤ st1.scan := h1.le _ (hin _ (by simp [scansAlLuma]))
              rw [hs1] at this
              have ea : a = st.scan / 3 := by omega
              rw [hc1, hb.2.1] at hi
              rw [ea]
              omega
    · left
      apply plain (by omega)
      unfold decide1 lumaAlStep
      rw [if_pos hx, if_neg hd]
  · have h0 : st.scan = 0 := by
      unfold lumaFS at hx; omega
    left
    apply plain (by omega)
    have := chromaFS_ge g
    unfold decide1
    rw [if_neg hx, if_neg (by unfold lumaFS; omega), if_neg (c := _ = _) (by unfold numScansLuma; omega),
      if_neg (c := _ ∧ _) (by unfold numScansLuma; omega), if_neg (c := _ ∧ _) (by omega)]
    split <;> rfl


/-! ## The end of the search -/

/-- The search has ended: the chosen buffers were copied. -/
structure Fin (g : SearchCfg) (size : Nat → Int → Nat) (st : SState) : Prop where
  isLast : st.isLast = true
  sz : ∀ i ∈ st.encoded, st.sizes i = size i (st.actualAl i)
  al : ∀ i ∈ st.encoded, st.actualAl i = g.alFor st i
  lt : ∀ i ∈ st.encoded, i < g.numScans
  nodup : st.encoded.Nodup
  out : st.out = copyOrder g st.bestAlL st.bestAlC st.bestFL st.bestFC st.inter

theorem fin_next {g : SearchCfg} {size : Nat → Int → Nat} {st1 st2 : SState}
    (hp : 1 ≤ g.pps) (h : Good1 g size st1) (hscan : st1.scan ≤ st2.scan)
    (hlim : st2.scan + 1 = g.numScans)
    (hpass : st2.pass = g.pps * st2.scan + (g.pps - 1) + g.base)
    (hlast : (st2.isLast = st1.isLast ∧ st1.scan = st2.scan) ∨
      st2.isLast = (st2.pass == g.totalPasses - 1))
    (hsz : st2.sizes = st1.sizes) (hact : st2.actualAl = st1.actualAl)
    (henc : st2.encoded = st1.encoded) (hout : st2.out = st1.out)
    (hal : ∀ i ∈ st1.encoded, g.alFor st2 i = g.alFor st1 i) :
    Fin g size (incr g (copyOut g st2)) := by
  obtain ⟨O, hO⟩ : ∃ O, O = st2.out ++
      copyOrder g st2.bestAlL st2.bestAlC st2.bestFL st2.bestFC st2.inter := ⟨_, rfl⟩
  have e : copyOut g st2 = { st2 with out := O } := by
    unfold copyOut; rw [if_pos (by omega), hO]
  rw [e]
  refine ⟨?_, ?_, ?_, ?_, ?_, ?_⟩
  · simp only [incr]
    rcases hlast with ⟨e, e'⟩ | e
    · rw [e, h.isLast, h.pass, e']
      exact total_eq hp hlim
    · rw [e, hpass]
      exact total_eq hp hlim
  · intro i hi
    simp only [incr] at hi ⊢
    rw [henc] at hi
    rw [hsz, hact]; exact h.sz i hi
  · intro i hi
    rw [alFor_congr g (st := st2) (st' := incr g { st2 with out := O }) rfl rfl]
    simp only [incr] at hi ⊢
    rw [henc] at hi
    rw [hact, hal i hi]; exact h.al i hi
  · intro i hi
    simp only [incr] at hi
    rw [henc] at hi
    have := h.le i hi
    omega
  · simp only [incr]; rw [henc]; exact h.nodup
  · simp only [incr]; rw [hO, hout, h.out]; rfl

/-- The luma frequency split is chosen. -/
structure FsLDone (size : Nat → Int → Nat) (st : SState) : Prop where
  le5 : st.bestFL ≤ 5
  enc : ∀ i ∈ scansFsLuma st.bestFL, i ∈ st.encoded
  opt : ∀ m ≤ 5, (∀ i ∈ scansFsLuma m, i ∈ st.encoded) →
    costFsLuma size st.bestAlL st.bestFL ≤ costFsLuma size st.bestAlL m

theorem AlLDone.mono {size : Nat → Int → Nat} {st st' : SState} (h : AlLDone size st)
    (hb : st'.bestAlL = st.bestAlL) (h1 : ∀ i ∈ st.encoded, i ∈ st'.encoded)
    (h2 : ∀ i ∈ st'.encoded, i < 12 → i ∈ st.encoded) : AlLDone size st' := by
  refine ⟨by rw [hb]; exact h.le3, ?_, ?_⟩
  · intro i hi; rw [hb] at hi; exact h1 i (h.enc i hi)
  · intro a ha hin
    rw [hb]
    refine h.opt a ha (fun i hi => h2 i (hin i hi) ?_)
    simp only [scansAlLuma, List.mem_cons, List.not_mem_nil, or_false] at hi
    omega

theorem FsLDone.mono {size : Nat → Int → Nat} {st st' : SState} (h : FsLDone size st)
    (hb : st'.bestAlL = st.bestAlL) (hf : st'.bestFL = st.bestFL)
    (h1 : ∀ i ∈ st.encoded, i ∈ st'.encoded)
    (h2 : ∀ i ∈ st'.encoded, i < 23 → i ∈ st.encoded) : FsLDone size st' := by
  refine ⟨by rw [hf]; exact h.le5, ?_, ?_⟩
  · intro i hi; rw [hf] at hi; exact h1 i (h.enc i hi)
  · intro m hm hin
    rw [hb, hf]
    refine h.opt m hm (fun i hi => h2 i (hin i hi) ?_)
    unfold scansFsLuma at hi
    split at hi
    · simp at hi; omega
    · simp only [List.mem_cons, List.not_mem_nil, or_false] at hi
      omega

theorem mem_scansFsLuma {i m : Nat} (h : i ∈ scansFsLuma m) : 12 ≤ i ∧ i ≤ 12 + 2 * m := by
  unfold scansFsLuma at h
  by_cases hm : m = 0
  · rw [if_pos hm] at h; simp at h; omega
  · rw [if_neg hm] at h; simp at h; omega

theorem mem_scansFsChroma {i m : Nat} (h : i ∈ scansFsChroma m) : 42 ≤ i ∧ i ≤ 43 + 4 * m := by
  unfold scansFsChroma at h
  by_cases hm : m = 0
  · rw [if_pos hm] at h; simp at h; omega
  · rw [if_neg hm] at h; simp at h; omega

/-! ## Phase B: luma frequency split -/

structure PhaseB (g : SearchCfg) (size : Nat → Int → Nat) (st : SState) : Prop where
  good : Good g size st
  al : AlLDone size st
  ge : 12 ≤ st.scan
  le : st.scan ≤ 22
  all : ∀ i, 12 ≤ i → i < st.scan → i ∈ st.encoded
  best : 13 ≤ st.scan → st.bestFL ≤ (st.scan - 13) / 2 ∧
    st.bestCost = costFsLuma size st.bestAlL st.bestFL ∧
    ∀ m ≤ (st.scan - 13) / 2, costFsLuma size st.bestAlL st.bestFL ≤ costFsLuma size st.bestAlL m

structure EndB (g : SearchCfg) (size : Nat → Int → Nat) (st : SState) : Prop where
  al : AlLDone size st
  fs : FsLDone size st
  fin : g.color = false → Fin g size st
  good : g.color = true → Good g size st ∧ st.scan = 23

theorem endB_of {g : SearchCfg} {size : Nat → Int → Nat} {st1 st2 : SState}
    (hp : 1 ≤ g.pps) (h : Good1 g size st1) (hscan : st1.scan ≤ st2.scan)
    (hlim : st2.scan = 22)
    (hpass : st2.pass = g.pps * st2.scan + (g.pps - 1) + g.base)
    (hlast : (st2.isLast = st1.isLast ∧ st1.scan = st2.scan) ∨
      st2.isLast = (st2.pass == g.totalPasses - 1))
    (hsz : st2.sizes = st1.sizes) (hact : st2.actualAl = st1.actualAl)
    (henc : st2.encoded = st1.encoded) (hout : st2.out = st1.out)
    (hal : ∀ i ∈ st1.encoded, g.alFor st2 i = g.alFor st1 i)
    (hA : AlLDone size st2) (hF : FsLDone size st2) :
    EndB g size (incr g (copyOut g st2)) := by
  have henc' : (incr g (copyOut g st2)).encoded = st2.encoded := by
    unfold incr copyOut; split <;> rfl
  have hb' : (incr g (copyOut g st2)).bestAlL = st2.bestAlL := by
    unfold incr copyOut; split <;> rfl
  have hf' : (incr g (copyOut g st2)).bestFL = st2.bestFL := by
    unfold incr copyOut; split <;> rfl
  refine ⟨hA.mono hb' (by rw [henc']; exact fun _ h => h) (by rw [henc']; exact fun _ h _ => h),
    hF.mono hb' hf' (by rw [henc']; exact fun _ h => h) (by rw [henc']; exact fun _ h _ => h), ?_, ?_⟩
  · intro hc
    exact fin_next hp h hscan (by unfold SearchCfg.numScans; rw [hc]; simp [hlim]) hpass hlast hsz
      hact henc hout hal
  · intro hc
    have hn : g.numScans = 64 := by unfold SearchCfg.numScans; rw [hc]; rfl
    rw [copyOut_ne g st2 (by omega)]
    refine ⟨good_next hp h hscan (by omega) hpass ?_ hsz hact henc hout hal, by simp [incr, hlim]⟩
    rcases hlast with ⟨e, -⟩ | e
    · exact .inl e
    · exact .inr e

theorem phaseB_step {g : SearchCfg} {size : Nat → Int → Nat} (hp : 1 ≤ g.pps) {st : SState}
    (h : PhaseB g size st) :
    PhaseB g size (searchStep g size st) ∨ EndB g size (searchStep g size st) := by
  have hns := numScans_ge g
  have hge := h.ge
  have hle := h.le
  have h1 := encode_good h.good
  set st1 := encodeScan g size st with hst1
  have hs1 : st1.scan = st.scan := rfl
  have hb1 : st1.bestAlL = st.bestAlL := rfl
  have hf1 : st1.bestFL = st.bestFL := rfl
  have hc1 : st1.bestCost = st.bestCost := rfl
  have he1 : st1.encoded = st.encoded ++ [st.scan] := rfl
  have hall : ∀ i, 12 ≤ i → i ≤ st.scan → i ∈ st1.encoded := by
    intro i h12 hi
    rw [he1, List.mem_append, List.mem_singleton]
    by_cases e : i = st.scan
    · exact .inr e
    · exact .inl (h.all i h12 (by omega))
  have hsize : ∀ i, 12 ≤ i → i ≤ st.scan → st1.sizes i = size i st.bestAlL := by
    intro i h12 hi
    rw [h1.sz i (hall i h12 hi), h1.al i (hall i h12 hi), alFor_lumaFS g _ _ h12 (by omega), hb1]
  have hA1 : ∀ st2 : SState, st2.encoded = st1.encoded → st2.bestAlL = st1.bestAlL →
      AlLDone size st2 := by
    intro st2 e1 e2
    refine h.al.mono (by rw [e2, hb1]) ?_ ?_
    · intro i hi; rw [e1, he1]; simp [hi]
    · intro i hi hlt
      rw [e1, he1, List.mem_append, List.mem_singleton] at hi
      rcases hi with hi | hi
      · exact hi
      · omega
  -- continuing, given the new best values
  have next : ∀ (bc bf : Nat), bf ≤ (st.scan - 12) / 2 →
      bc = costFsLuma size st.bestAlL bf →
      (∀ m ≤ (st.scan - 12) / 2, costFsLuma size st.bestAlL bf ≤ costFsLuma size st.bestAlL m) →
      decide1 g (st.scan + 1) st1 = { st1 with bestCost := bc, bestFL := bf } →
      PhaseB g size (incr g (copyOut g (decide1 g (st.scan + 1) st1))) ∨
      EndB g size (incr g (copyOut g (decide1 g (st.scan + 1) st1))) := by
    intro bc bf hbf hbc hopt e
    rw [e]
    by_cases h22 : st.scan = 22
    · right
      refine endB_of hp h1 (Nat.le_refl _) h22 h1.pass (.inl ⟨rfl, rfl⟩) rfl rfl rfl rfl
        (fun _ _ => rfl) (hA1 _ rfl rfl) ⟨by simp only; omega, ?_, ?_⟩
      · intro i hi
        have := mem_scansFsLuma hi
        simp only at this
        exact hall i (by omega) (by omega)
      · intro m hm _
        exact hopt m (by omega)
    · left
      rw [copyOut_ne g _ (by simp only [hs1]; omega)]
      refine ⟨good_next hp h1 (Nat.le_refl _) (by simp only [hs1]; omega) h1.pass (.inl rfl) rfl
          rfl rfl rfl (fun _ _ => rfl), hA1 _ rfl rfl, by simp only [incr, hs1]; omega,
          by simp only [incr, hs1]; omega, ?_, ?_⟩
      · intro i h12 hi
        exact hall i h12 (by simp only [incr, hs1] at hi; omega)
      · intro h13
        simp only [incr, hs1] at h13 ⊢
        have e2 : (st.scan + 1 - 13) / 2 = (st.scan - 12) / 2 := by omega
        rw [e2, hb1]
        exact ⟨hbf, hbc, hopt⟩
  unfold searchStep selectScans
  rw [← hst1]
  have hx1 : ¬ (st.scan + 1 > 1 ∧ st.scan + 1 ≤ lumaFS) := by unfold lumaFS; omega
  have hx2 : st.scan + 1 > lumaFS ∧ st.scan + 1 ≤ numScansLuma := by unfold lumaFS numScansLuma; omega
  have hde : decide1 g (st.scan + 1) st1 = lumaFsStep g (st.scan + 1) st1 := by
    unfold decide1; rw [if_neg hx1, if_pos hx2]
  by_cases h12 : st.scan = 12
  · apply next (size 12 st.bestAlL) 0 (by omega) (by simp [costFsLuma])
    · intro m hm
      have : m = 0 := by omega
      rw [this]
    · rw [hde]
      unfold lumaFsStep
      rw [if_pos (by unfold lumaFS; omega)]
      have : st1.sizes (st.scan + 1 - 1) = size 12 st.bestAlL := by
        rw [hsize _ (by omega) (by omega)]
        have : st.scan + 1 - 1 = 12 := by omega
        rw [this]
      rw [this]
  · have hb := h.best (by omega)
    by_cases hd : (st.scan + 1 - lumaFS) % 2 = 1
    · have hd' : st.scan % 2 = 0 := by unfold lumaFS at hd; omega
      have hidx : (st.scan + 1 - lumaFS) / 2 = (st.scan - 12) / 2 := by unfold lumaFS; omega
      generalize hm : (st.scan - 12) / 2 = idx at *
      have hcost : st1.sizes (st.scan + 1 - 2) + st1.sizes (st.scan + 1 - 1) =
          costFsLuma size st.bestAlL idx := by
        unfold costFsLuma
        rw [hsize _ (by omega) (by omega), hsize _ (by omega) (by omega), if_neg (by omega)]
        have e1 : st.scan + 1 - 2 = 12 + 2 * idx - 1 := by omega
        have e2 : st.scan + 1 - 1 = 12 + 2 * idx := by omega
        rw [e1, e2]
      -- new best
      obtain ⟨bc, bf, hbf, hbc, hopt, hst2⟩ : ∃ bc bf, bf ≤ idx ∧
          bc = costFsLuma size st.bestAlL bf ∧
          (∀ m ≤ idx, costFsLuma size st.bestAlL bf ≤ costFsLuma size st.bestAlL m) ∧
          (if costFsLuma size st.bestAlL idx < st1.bestCost then
            { st1 with bestCost := costFsLuma size st.bestAlL idx, bestFL := idx } else st1) =
            { st1 with bestCost := bc, bestFL := bf } := by
        by_cases hlt : costFsLuma size st.bestAlL idx < st1.bestCost
        · refine ⟨_, idx, Nat.le_refl _, rfl, ?_, by rw [if_pos hlt]⟩
          intro m hm
          rw [hc1, hb.2.1] at hlt
          by_cases e : m = idx
          · rw [e]
          · have := hb.2.2 m (by omega)
            omega
        · refine ⟨st1.bestCost, st1.bestFL, by rw [hf1]; omega, by rw [hc1, hf1]; exact hb.2.1, ?_,
            by rw [if_neg hlt]⟩
          intro m hm
          rw [hc1, hb.2.1] at hlt
          rw [hf1]
          by_cases e : m = idx
          · rw [e]; omega
          · exact hb.2.2 m (by omega)
      by_cases hj : (idx = 2 ∧ bf = 0) ∨ (idx = 3 ∧ bf ≠ 2) ∨ (idx = 4 ∧ bf ≠ 4)
      · right
        have e : decide1 g (st.scan + 1) st1 = setLast g (jumpTo g (numScansLuma - 1)
            { st1 with bestCost := bc, bestFL := bf }) := by
          rw [hde]
          unfold lumaFsStep
          rw [if_neg (by unfold lumaFS; omega), if_pos hd]
          simp only
          rw [hidx, hcost, hst2, if_pos hj]
        rw [e]
        refine endB_of hp h1 (by simp only [setLast, jumpTo, numScansLuma]; omega) rfl
          (by simp only [setLast, jumpTo]; rw [pass_jump hp]) (.inr rfl) rfl rfl rfl rfl
          (fun _ _ => rfl) (hA1 _ rfl rfl) ⟨by simp only [setLast, jumpTo]; omega, ?_, ?_⟩
        · intro i hi
          have := mem_scansFsLuma hi
          simp only [setLast, jumpTo] at this
          exact hall i (by omega) (by omega)
        · intro m hm hin
          simp only [setLast, jumpTo] at hin ⊢
          apply hopt
          by_cases hm0 : m = 0
          · omega
          · have := h1.le _ (hin (12 + 2 * m) (by simp [scansFsLuma, hm0]))
            omega
      · apply next bc bf hbf hbc hopt
        rw [hde]
        unfold lumaFsStep
        rw [if_neg (by unfold lumaFS; omega), if_pos hd]
        simp only
        rw [hidx, hcost, hst2, if_neg hj]
    · have hd' : st.scan % 2 = 1 := by unfold lumaFS at hd; omega
      have e2 : (st.scan - 12) / 2 = (st.scan - 13) / 2 := by omega
      apply next st.bestCost st.bestFL (by rw [e2]; exact hb.1) hb.2.1 (by rw [e2]; exact hb.2.2)
      rw [hde]
      unfold lumaFsStep
      rw [if_neg (by unfold lumaFS; omega), if_neg hd]
      rfl


/-! ## Phase C: chroma DC -/

/-- The luma choices are made. -/
structure LumaDone (size : Nat → Int → Nat) (st : SState) : Prop where
  al : AlLDone size st
  fs : FsLDone size st

theorem LumaDone.mono {size : Nat → Int → Nat} {st st' : SState} (h : LumaDone size st)
    (hb : st'.bestAlL = st.bestAlL) (hf : st'.bestFL = st.bestFL)
    (h1 : ∀ i ∈ st.encoded, i ∈ st'.encoded)
    (h2 : ∀ i ∈ st'.encoded, i < 23 → i ∈ st.encoded) : LumaDone size st' :=
  ⟨h.al.mono hb h1 (fun i hi hlt => h2 i hi (by omega)), h.fs.mono hb hf h1 h2⟩

/-- The chroma DC interleaving is chosen, the cheaper of the two. -/
structure DcDone (size : Nat → Int → Nat) (st : SState) : Prop where
  enc : ∀ i, 23 ≤ i → i < 26 → i ∈ st.encoded
  opt : st.inter = decide (size 23 0 ≤ size 24 0 + size 25 0)

theorem color_consts {g : SearchCfg} (hc : g.color = true) :
    g.numScans = 64 ∧ g.chromaDc = 3 ∧ g.alMaxChroma = 2 ∧ g.chromaFS = 42 := by
  unfold SearchCfg.numScans SearchCfg.chromaDc SearchCfg.alMaxChroma SearchCfg.chromaFS
    SearchCfg.chromaDc SearchCfg.alMaxChroma numScansLuma
  rw [hc]
  simp

/-- Al of the chroma scans 23..41. -/
theorem script_al_chroma {g : SearchCfg} (hc : g.color = true) : ∀ i < 42, 23 ≤ i →
    (g.script.getD i ⟨[], 0, 0, 0, 0⟩).Al = ((i - 26) / 6 : Nat) := by
  unfold SearchCfg.script searchLuma
  by_cases hd : g.dcMode = 0
  · simp only [hc, hd, if_true]
    decide
  · simp only [hc, hd, if_true, if_false]
    decide

theorem alFor_chroma {g : SearchCfg} (hc : g.color = true) (st : SState) (i : Nat) (h1 : 23 ≤ i)
    (h2 : i < 42) : g.alFor st i = ((i - 26) / 6 : Nat) := by
  obtain ⟨-, -, -, e⟩ := color_consts hc
  unfold SearchCfg.alFor
  rw [e, if_neg (by omega), if_neg (by unfold lumaFS numScansLuma; omega),
    script_al_chroma hc i h2 h1]

theorem alFor_chromaFS {g : SearchCfg} (hc : g.color = true) (st : SState) (i : Nat) (h1 : 42 ≤ i)
    (h2 : i < 64) : g.alFor st i = st.bestAlC := by
  obtain ⟨e0, -, -, e⟩ := color_consts hc
  unfold SearchCfg.alFor
  rw [e, e0, if_pos (by omega)]

/-! ## Phase D: chroma DC and chroma Al -/

structure PhaseD (g : SearchCfg) (size : Nat → Int → Nat) (st : SState) : Prop where
  good : Good g size st
  luma : LumaDone size st
  ge : 23 ≤ st.scan
  le : st.scan ≤ 42
  all : ∀ i, 23 ≤ i → i < st.scan → i ∈ st.encoded
  dc : 26 ≤ st.scan → DcDone size st
  best : 30 ≤ st.scan → st.bestAlC = (st.scan - 30) / 6 ∧
    st.bestCost = costAlChroma size st.bestAlC ∧
    ∀ a < st.bestAlC, costAlChroma size st.bestAlC ≤ costAlChroma size a

/-- The chroma Al is chosen. -/
structure AlCDone (size : Nat → Int → Nat) (st : SState) : Prop where
  le2 : st.bestAlC ≤ 2
  enc : ∀ i, 26 ≤ i → i < 30 + 6 * st.bestAlC → i ∈ st.encoded
  opt : ∀ a ≤ 2, (∀ i ∈ scansAlChroma a, i ∈ st.encoded) →
    costAlChroma size st.bestAlC ≤ costAlChroma size a

/-- Everything before the chroma frequency split is chosen. -/
structure EndD (g : SearchCfg) (size : Nat → Int → Nat) (st : SState) : Prop where
  good : Good g size st
  scan : st.scan = 42
  luma : LumaDone size st
  dc : DcDone size st
  al : AlCDone size st

theorem phaseD_end {g : SearchCfg} {size : Nat → Int → Nat} {st : SState} (h : PhaseD g size st)
    (hs : st.scan = 42) : EndD g size st := by
  have hb := h.best (by omega)
  refine ⟨h.good, hs, h.luma, h.dc (by omega), ⟨by omega, ?_, ?_⟩⟩
  · intro i h1 h2
    exact h.all i (by omega) (by omega)
  · intro a ha _
    by_cases e : a = st.bestAlC
    · rw [e]
    · exact hb.2.2 a (by omega)

theorem phaseD_step {g : SearchCfg} {size : Nat → Int → Nat} (hp : 1 ≤ g.pps) (hc : g.color = true)
    {st : SState} (h : PhaseD g size st) (hlt : st.scan < 42) :
    PhaseD g size (searchStep g size st) ∨ EndD g size (searchStep g size st) := by
  obtain ⟨hns, hcd, -, hfs⟩ := color_consts hc
  have hge := h.ge
  have h1 := encode_good h.good
  set st1 := encodeScan g size st with hst1
  have hs1 : st1.scan = st.scan := rfl
  have hb1 : st1.bestAlC = st.bestAlC := rfl
  have hc1 : st1.bestCost = st.bestCost := rfl
  have he1 : st1.encoded = st.encoded ++ [st.scan] := rfl
  have hall : ∀ i, 23 ≤ i → i ≤ st.scan → i ∈ st1.encoded := by
    intro i h12 hi
    rw [he1, List.mem_append, List.mem_singleton]
    by_cases e : i = st.scan
    · exact .inr e
    · exact .inl (h.all i h12 (by omega))
  have hsize : ∀ i, 23 ≤ i → i ≤ st.scan → st1.sizes i = size i ((i - 26) / 6 : Nat) := by
    intro i h12 hi
    rw [h1.sz i (hall i h12 hi), h1.al i (hall i h12 hi), alFor_chroma hc _ _ h12 (by omega)]
  have hmono : ∀ i ∈ st.encoded, i ∈ st1.encoded := by
    intro i hi; rw [he1]; simp [hi]
  have hL1 : ∀ st2 : SState, st2.encoded = st1.encoded → st2.bestAlL = st1.bestAlL →
      st2.bestFL = st1.bestFL → LumaDone size st2 := by
    intro st2 e1 e2 e3
    refine h.luma.mono e2 e3 (by rw [e1]; exact hmono) ?_
    intro i hi hlt
    rw [e1, he1, List.mem_append, List.mem_singleton] at hi
    rcases hi with hi | hi
    · exact hi
    · omega
  have hDc : 26 ≤ st.scan → ∀ st2 : SState, st2.encoded = st1.encoded → st2.inter = st1.inter →
      DcDone size st2 := by
    intro h26 st2 e1 e2
    refine ⟨fun i a b => by rw [e1]; exact hmono i ((h.dc h26).enc i a b), ?_⟩
    rw [e2]; exact (h.dc h26).opt
  have hx1 : ¬ (st.scan + 1 > 1 ∧ st.scan + 1 ≤ lumaFS) := by unfold lumaFS; omega
  have hx2 : ¬ (st.scan + 1 > lumaFS ∧ st.scan + 1 ≤ numScansLuma) := by
    unfold lumaFS numScansLuma; omega
  have hx3 : g.numScans > numScansLuma := by unfold numScansLuma; omega
  have e23 : numScansLuma = 23 := rfl
  unfold searchStep selectScans
  rw [← hst1]
  by_cases h25 : st.scan = 25
  · -- DC decision
    left
    have e : decide1 g (st.scan + 1) st1 =
        { st1 with inter := decide (size 23 0 ≤ size 24 0 + size 25 0) } := by
      unfold decide1
      rw [if_neg hx1, if_neg hx2, if_pos hx3, if_pos (by rw [hcd, e23]; omega), e23,
        hsize 23 (by omega) (by omega), hsize (23 + 1) (by omega) (by omega),
        hsize (23 + 2) (by omega) (by omega)]
      rfl
    rw [e, copyOut_ne g _ (by simp only [hs1]; omega)]
    refine ⟨good_next hp h1 (Nat.le_refl _) (by simp only [hs1]; omega) h1.pass (.inl rfl) rfl
      rfl rfl rfl (fun _ _ => rfl), hL1 _ rfl rfl rfl, by simp only [incr, hs1]; omega,
      by simp only [incr, hs1]; omega, ?_, ?_, ?_⟩
    · intro i a b; exact hall i a (by simp only [incr, hs1] at b; omega)
    · intro _; exact ⟨fun i a b => hall i a (by omega), rfl⟩
    · intro h30; simp only [incr, hs1] at h30; omega
  -- plain continuation
  have plain : ¬ (26 ≤ st.scan ∧ (st.scan - 25) % 6 = 4) → decide1 g (st.scan + 1) st1 = st1 →
      PhaseD g size (incr g (copyOut g (decide1 g (st.scan + 1) st1))) := by
    intro hnd e
    rw [e, copyOut_ne g st1 (by rw [hs1]; omega)]
    refine ⟨good_next hp h1 (Nat.le_refl _) (by simp only [hs1]; omega) h1.pass (.inl rfl) rfl
      rfl rfl rfl (fun _ _ => rfl), hL1 _ rfl rfl rfl, by simp only [incr, hs1]; omega,
      by simp only [incr, hs1]; omega, ?_, ?_, ?_⟩
    · intro i a b; exact hall i a (by simp only [incr, hs1] at b; omega)
    · intro h26; simp only [incr, hs1] at h26; exact hDc (by omega) _ rfl rfl
    · intro h30
      simp only [incr, hs1] at h30 ⊢
      have := h.best (by omega)
      rw [hb1, hc1]
      exact ⟨by omega, this.2⟩
  by_cases hlow : st.scan < 25
  · left
    apply plain (by omega)
    unfold decide1
    rw [if_neg hx1, if_neg hx2, if_pos hx3, if_neg (by rw [hcd, e23]; omega),
      if_neg (by rw [hcd, e23]; omega), if_neg (by rw [hfs]; omega)]
  have hde : decide1 g (st.scan + 1) st1 = chromaAlStep g (st.scan + 1) st1 := by
    unfold decide1
    rw [if_neg hx1, if_neg hx2, if_pos hx3, if_neg (by rw [hcd, e23]; omega),
      if_pos (by rw [hcd, e23, hfs]; omega)]
  by_cases hd : (st.scan + 1 - 26) % 6 = 4
  · obtain ⟨a, ha⟩ : ∃ a, st.scan = 29 + 6 * a := ⟨(st.scan - 29) / 6, by omega⟩
    have hcost : st1.sizes (st.scan + 1 - 4) + st1.sizes (st.scan + 1 - 3) +
        st1.sizes (st.scan + 1 - 2) + st1.sizes (st.scan + 1 - 1) +
        sumTo (fun i => st1.sizes (26 + 4 + 6 * i) + st1.sizes (26 + 5 + 6 * i))
          ((st.scan + 1 - 26) / 6) = costAlChroma size a := by
      unfold costAlChroma
      have e0 : (st.scan + 1 - 26) / 6 = a := by omega
      have e1 : st.scan + 1 - 4 = 26 + 6 * a := by omega
      have e2 : st.scan + 1 - 3 = 27 + 6 * a := by omega
      have e3 : st.scan + 1 - 2 = 28 + 6 * a := by omega
      have e4 : st.scan + 1 - 1 = 29 + 6 * a := by omega
      rw [e0, e1, e2, e3, e4, hsize _ (by omega) (by omega), hsize _ (by omega) (by omega),
        hsize _ (by omega) (by omega), hsize _ (by omega) (by omega)]
      have q1 : (26 + 6 * a - 26) / 6 = a := by omega
      have q2 : (27 + 6 * a - 26) / 6 = a := by omega
      have q3 : (28 + 6 * a - 26) / 6 = a := by omega
      have q4 : (29 + 6 * a - 26) / 6 = a := by omega
      rw [q1, q2, q3, q4]
      congr 1
      apply sumTo_congr
      intro i hi
      rw [hsize _ (by omega) (by omega), hsize _ (by omega) (by omega)]
      have r1 : (26 + 4 + 6 * i - 26) / 6 = i := by omega
      have r2 : (26 + 5 + 6 * i - 26) / 6 = i := by omega
      rw [r1, r2]
    have eal : (st.scan + 1 - 26) / 6 = a := by omega
    have eb : numScansLuma + g.chromaDc = 26 := by rw [hcd, e23]
    by_cases hi : a = 0 ∨ costAlChroma size a < st1.bestCost
    · left
      have e : decide1 g (st.scan + 1) st1 =
          { st1 with bestCost := costAlChroma size a, bestAlC := a } := by
        rw [hde]
        unfold chromaAlStep
        simp only
        rw [eb, if_pos hd, hcost, eal, if_pos hi]
      rw [e, copyOut_ne g _ (by simp only [hs1]; omega)]
      refine ⟨good_next hp h1 (Nat.le_refl _) (by simp only [hs1]; omega) h1.pass (.inl rfl) rfl
        rfl rfl rfl ?_, hL1 _ rfl rfl rfl, by simp only [incr, hs1]; omega,
        by simp only [incr, hs1]; omega, ?_, ?_, ?_⟩
      · intro i him
        have := h1.le i him
        rw [hs1] at this
        by_cases i12 : i < 12
        · rw [alFor_luma g _ _ i12, alFor_luma g _ _ i12]
        · by_cases i23 : i < 23
          · rw [alFor_lumaFS g _ _ (by omega) i23, alFor_lumaFS g _ _ (by omega) i23]
          · rw [alFor_chroma hc _ _ (by omega) (by omega), alFor_chroma hc _ _ (by omega) (by omega)]
      · intro i a b; exact hall i a (by simp only [incr, hs1] at b; omega)
      · intro h26; simp only [incr, hs1] at h26; exact hDc (by omega) _ rfl rfl
      · intro h30
        refine ⟨by simp only [incr, hs1]; omega, rfl, ?_⟩
        intro x hx
        simp only [incr] at hx ⊢
        rcases hi with hi | hi
        · omega
        · have hb := h.best (by omega)
          rw [hc1, hb.2.1] at hi
          by_cases e : x = st.bestAlC
          · subst e; omega
          · have := hb.2.2 x (by omega)
            omega
    · right
      have e : decide1 g (st.scan + 1) st1 = jumpTo g 41 st1 := by
        rw [hde]
        unfold chromaAlStep
        simp only
        rw [eb, if_pos hd, hcost, eal, if_neg hi, hfs]
      rw [e, copyOut_ne g _ (by simp only [jumpTo]; omega)]
      have hb := h.best (by omega)
      refine ⟨good_next hp h1 (by simp only [jumpTo, hs1]; omega)
        (by simp only [jumpTo]; omega) (by simp only [jumpTo]; rw [pass_jump hp])
        (.inl rfl) rfl rfl rfl rfl (fun _ _ => rfl), by simp [incr, jumpTo], hL1 _ rfl rfl rfl,
        hDc (by omega) _ rfl rfl, ?_⟩
      refine ⟨by simp only [incr, jumpTo, hb1]; omega, ?_, ?_⟩
      · intro i h26 hi'
        simp only [incr, jumpTo, hb1] at hi'
        exact hall i (by omega) (by omega)
      · intro x hx hin
        simp only [incr, jumpTo, hb1] at hin ⊢
        by_cases e1 : x < st.bestAlC
        · exact hb.2.2 x e1
        · by_cases e2 : x = st.bestAlC
          · rw [e2]
          · have : 29 + 6 * x ≤ st1.scan := h1.le _ (hin _ (by simp [scansAlChroma]))
            rw [hs1] at this
            have ea : x = a := by omega
            rw [hc1, hb.2.1] at hi
            rw [ea]
            omega
  · left
    apply plain (by omega)
    rw [hde]
    unfold chromaAlStep
    simp only
    rw [hcd, e23, if_neg hd]

/-! ## Phase E: chroma frequency split -/

theorem AlCDone.mono {size : Nat → Int → Nat} {st st' : SState} (h : AlCDone size st)
    (hb : st'.bestAlC = st.bestAlC) (h1 : ∀ i ∈ st.encoded, i ∈ st'.encoded)
    (h2 : ∀ i ∈ st'.encoded, i < 42 → i ∈ st.encoded) : AlCDone size st' := by
  refine ⟨by rw [hb]; exact h.le2, ?_, ?_⟩
  · intro i hi hi2; rw [hb] at hi2; exact h1 i (h.enc i hi hi2)
  · intro a ha hin
    rw [hb]
    refine h.opt a ha (fun i hi => h2 i (hin i hi) ?_)
    simp only [scansAlChroma, List.mem_cons, List.not_mem_nil, or_false] at hi
    omega

/-- The chroma frequency split is chosen. -/
structure FsCDone (size : Nat → Int → Nat) (st : SState) : Prop where
  le5 : st.bestFC ≤ 5
  enc : ∀ i ∈ scansFsChroma st.bestFC, i ∈ st.encoded
  opt : ∀ m ≤ 5, (∀ i ∈ scansFsChroma m, i ∈ st.encoded) →
    costFsChroma size st.bestAlC st.bestFC ≤ costFsChroma size st.bestAlC m

structure PhaseE (g : SearchCfg) (size : Nat → Int → Nat) (st : SState) : Prop where
  good : Good g size st
  luma : LumaDone size st
  dc : DcDone size st
  al : AlCDone size st
  ge : 42 ≤ st.scan
  le : st.scan ≤ 63
  all : ∀ i, 42 ≤ i → i < st.scan → i ∈ st.encoded
  best : 44 ≤ st.scan → st.bestFC ≤ (st.scan - 44) / 4 ∧
    st.bestCost = costFsChroma size st.bestAlC st.bestFC ∧
    ∀ m ≤ (st.scan - 44) / 4,
      costFsChroma size st.bestAlC st.bestFC ≤ costFsChroma size st.bestAlC m

/-- Everything is chosen and copied. -/
structure EndE (g : SearchCfg) (size : Nat → Int → Nat) (st : SState) : Prop where
  fin : Fin g size st
  luma : LumaDone size st
  dc : DcDone size st
  al : AlCDone size st
  fs : FsCDone size st

theorem phaseE_step {g : SearchCfg} {size : Nat → Int → Nat} (hp : 1 ≤ g.pps) (hc : g.color = true)
    {st : SState} (h : PhaseE g size st) :
    PhaseE g size (searchStep g size st) ∨ EndE g size (searchStep g size st) := by
  obtain ⟨hns, hcd, -, hfs⟩ := color_consts hc
  have hge := h.ge
  have hle := h.le
  have h1 := encode_good h.good
  set st1 := encodeScan g size st with hst1
  have hs1 : st1.scan = st.scan := rfl
  have hb1 : st1.bestAlC = st.bestAlC := rfl
  have hf1 : st1.bestFC = st.bestFC := rfl
  have hc1 : st1.bestCost = st.bestCost := rfl
  have he1 : st1.encoded = st.encoded ++ [st.scan] := rfl
  have hall : ∀ i, 42 ≤ i → i ≤ st.scan → i ∈ st1.encoded := by
    intro i h12 hi
    rw [he1, List.mem_append, List.mem_singleton]
    by_cases e : i = st.scan
    · exact .inr e
    · exact .inl (h.all i h12 (by omega))
  have hsize : ∀ i, 42 ≤ i → i ≤ st.scan → st1.sizes i = size i st.bestAlC := by
    intro i h12 hi
    rw [h1.sz i (hall i h12 hi), h1.al i (hall i h12 hi), alFor_chromaFS hc _ _ h12 (by omega), hb1]
  have hmono : ∀ i ∈ st.encoded, i ∈ st1.encoded := by
    intro i hi; rw [he1]; simp [hi]
  have hback : ∀ i ∈ st1.encoded, i < 42 → i ∈ st.encoded := by
    intro i hi hlt
    rw [he1, List.mem_append, List.mem_singleton] at hi
    rcases hi with hi | hi
    · exact hi
    · omega
  have hL1 : ∀ st2 : SState, st2.encoded = st1.encoded → st2.bestAlL = st1.bestAlL →
      st2.bestFL = st1.bestFL → LumaDone size st2 := by
    intro st2 e1 e2 e3
    exact h.luma.mono e2 e3 (by rw [e1]; exact hmono)
      (by rw [e1]; exact fun i hi hlt => hback i hi (by omega))
  have hA1 : ∀ st2 : SState, st2.encoded = st1.encoded → st2.bestAlC = st1.bestAlC →
      AlCDone size st2 := by
    intro st2 e1 e2
    exact h.al.mono e2 (by rw [e1]; exact hmono) (by rw [e1]; exact hback)
  have hDc : ∀ st2 : SState, st2.encoded = st1.encoded → st2.inter = st1.inter →
      DcDone size st2 := by
    intro st2 e1 e2
    refine ⟨fun i a b => by rw [e1]; exact hmono i (h.dc.enc i a b), ?_⟩
    rw [e2]; exact h.dc.opt
  -- after copying, the decisions stand
  have fields : ∀ st2 : SState, (incr g (copyOut g st2)).encoded = st2.encoded ∧
      (incr g (copyOut g st2)).bestAlL = st2.bestAlL ∧ (incr g (copyOut g st2)).bestFL = st2.bestFL ∧
      (incr g (copyOut g st2)).bestAlC = st2.bestAlC ∧ (incr g (copyOut g st2)).bestFC = st2.bestFC ∧
      (incr g (copyOut g st2)).inter = st2.inter := by
    intro st2
    unfold incr copyOut
    split <;> exact ⟨rfl, rfl, rfl, rfl, rfl, rfl⟩
  have finish : ∀ st2 : SState, Fin g size (incr g (copyOut g st2)) → st2.encoded = st1.encoded →
      st2.bestAlL = st1.bestAlL → st2.bestFL = st1.bestFL → st2.bestAlC = st1.bestAlC →
      st2.inter = st1.inter → FsCDone size st2 → EndE g size (incr g (copyOut g st2)) := by
    intro st2 hF e1 e2 e3 e4 e5 hfc
    obtain ⟨f1, f2, f3, f4, f5, f6⟩ := fields st2
    refine ⟨hF, hL1 _ (by rw [f1, e1]) (by rw [f2, e2]) (by rw [f3, e3]),
      hDc _ (by rw [f1, e1]) (by rw [f6, e5]), hA1 _ (by rw [f1, e1]) (by rw [f4, e4]), ?_⟩
    refine ⟨by rw [f5]; exact hfc.le5, by rw [f5, f1]; exact hfc.enc, ?_⟩
    rw [f1, f4, f5]; exact hfc.opt
  -- continuing, given the new best values
  have next : ∀ (bc bf : Nat), (43 ≤ st.scan → bf ≤ (st.scan - 43) / 4 ∧
      bc = costFsChroma size st.bestAlC bf ∧
      (∀ m ≤ (st.scan - 43) / 4,
        costFsChroma size st.bestAlC bf ≤ costFsChroma size st.bestAlC m)) →
      decide1 g (st.scan + 1) st1 = { st1 with bestCost := bc, bestFC := bf } →
      PhaseE g size (incr g (copyOut g (decide1 g (st.scan + 1) st1))) ∨
      EndE g size (incr g (copyOut g (decide1 g (st.scan + 1) st1))) := by
    intro bc bf hbf e
    rw [e]
    by_cases h63 : st.scan = 63
    · right
      obtain ⟨hbf1, hbc, hopt⟩ := hbf (by omega)
      refine finish _ (fin_next hp h1 (Nat.le_refl _) (by simp only [hs1]; omega) h1.pass
        (.inl ⟨rfl, rfl⟩) rfl rfl rfl rfl (fun _ _ => rfl)) rfl rfl rfl rfl rfl
        ⟨by simp only; omega, ?_, ?_⟩
      · intro i hi
        have := mem_scansFsChroma hi
        simp only at this
        exact hall i (by omega) (by omega)
      · intro m hm _
        exact hopt m (by omega)
    · left
      rw [copyOut_ne g _ (by simp only [hs1]; omega)]
      refine ⟨good_next hp h1 (Nat.le_refl _) (by simp only [hs1]; omega) h1.pass (.inl rfl) rfl
          rfl rfl rfl (fun _ _ => rfl), hL1 _ rfl rfl rfl, hDc _ rfl rfl, hA1 _ rfl rfl,
          by simp only [incr, hs1]; omega, by simp only [incr, hs1]; omega, ?_, ?_⟩
      · intro i h12 hi
        exact hall i h12 (by simp only [incr, hs1] at hi; omega)
      · intro h13
        simp only [incr, hs1] at h13 ⊢
        have e2 : (st.scan + 1 - 44) / 4 = (st.scan - 43) / 4 := by omega
        rw [e2, hb1]
        exact hbf (by omega)
  unfold searchStep selectScans
  rw [← hst1]
  have e23 : numScansLuma = 23 := rfl
  have hde : decide1 g (st.scan + 1) st1 = chromaFsStep g (st.scan + 1) st1 := by
    unfold decide1
    rw [if_neg (by unfold lumaFS; omega), if_neg (by unfold lumaFS numScansLuma; omega),
      if_pos (by rw [e23]; omega), if_neg (by rw [hcd, e23]; omega),
      if_neg (by rw [hcd, e23, hfs]; omega), if_pos (by rw [hfs]; omega)]
  by_cases h43 : st.scan = 43
  · apply next (size 42 st.bestAlC + size 43 st.bestAlC) 0
    · intro _
      refine ⟨by omega, by simp [costFsChroma], ?_⟩
      intro m hm
      have : m = 0 := by omega
      rw [this]
    · rw [hde]
      unfold chromaFsStep
      rw [if_pos (by omega)]
      rw [hsize _ (by omega) (by omega), hsize _ (by omega) (by omega)]
      have q1 : st.scan + 1 - 2 = 42 := by omega
      have q2 : st.scan + 1 - 1 = 43 := by omega
      rw [q1, q2]
  · by_cases hd : (st.scan + 1 - 42) % 4 = 2
    · have hb := h.best (by omega)
      have hidx : (st.scan + 1 - 42) / 4 = (st.scan - 43) / 4 := by omega
      generalize hm : (st.scan - 43) / 4 = idx at *
      have hcost : st1.sizes (st.scan + 1 - 4) + st1.sizes (st.scan + 1 - 3) +
          st1.sizes (st.scan + 1 - 2) + st1.sizes (st.scan + 1 - 1) =
          costFsChroma size st.bestAlC idx := by
        unfold costFsChroma
        rw [hsize _ (by omega) (by omega), hsize _ (by omega) (by omega),
          hsize _ (by omega) (by omega), hsize _ (by omega) (by omega), if_neg (by omega)]
        have e1 : st.scan + 1 - 4 = 40 + 4 * idx := by omega
        have e2 : st.scan + 1 - 3 = 41 + 4 * idx := by omega
        have e3 : st.scan + 1 - 2 = 42 + 4 * idx := by omega
        have e4 : st.scan + 1 - 1 = 43 + 4 * idx := by omega
        rw [e1, e2, e3, e4]
      -- new best
      obtain ⟨bc, bf, hbf, hbc, hopt, hst2⟩ : ∃ bc bf, bf ≤ idx ∧
          bc = costFsChroma size st.bestAlC bf ∧
          (∀ m ≤ idx, costFsChroma size st.bestAlC bf ≤ costFsChroma size st.bestAlC m) ∧
          (if costFsChroma size st.bestAlC idx < st1.bestCost then
            { st1 with bestCost := costFsChroma size st.bestAlC idx, bestFC := idx } else st1) =
            { st1 with bestCost := bc, bestFC := bf } := by
        by_cases hlt : costFsChroma size st.bestAlC idx < st1.bestCost
        · refine ⟨_, idx, Nat.le_refl _, rfl, ?_, by rw [if_pos hlt]⟩
          intro m hm
          rw [hc1, hb.2.1] at hlt
          by_cases e : m = idx
          · rw [e]
          · have := hb.2.2 m (by omega)
            omega
        · refine ⟨st1.bestCost, st1.bestFC, by rw [hf1]; omega, by rw [hc1, hf1]; exact hb.2.1, ?_,
            by rw [if_neg hlt]⟩
          intro m hm
          rw [hc1, hb.2.1] at hlt
          rw [hf1]
          by_cases e : m = idx
          · rw [e]; omega
          · exact hb.2.2 m (by omega)
      by_cases hj : (idx = 2 ∧ bf = 0) ∨ (idx = 3 ∧ bf ≠ 2) ∨ (idx = 4 ∧ bf ≠ 4)
      · right
        have e : decide1 g (st.scan + 1) st1 = setLast g (jumpTo g 63
            { st1 with bestCost := bc, bestFC := bf }) := by
          rw [hde]
          unfold chromaFsStep
          rw [hfs, hns, if_neg (by omega), if_pos hd]
          simp only
          rw [hidx, hcost, hst2, if_pos hj]
        rw [e]
        refine finish _ (fin_next hp h1 (by simp only [setLast, jumpTo]; omega)
          (by simp only [setLast, jumpTo]; omega)
          (by simp only [setLast, jumpTo]; rw [pass_jump hp]) (.inr rfl) rfl rfl rfl rfl
          (fun _ _ => rfl)) rfl rfl rfl rfl rfl ⟨by simp only [setLast, jumpTo]; omega, ?_, ?_⟩
        · intro i hi
          have := mem_scansFsChroma hi
          simp only [setLast, jumpTo] at this
          exact hall i (by omega) (by omega)
        · intro m hm hin
          simp only [setLast, jumpTo] at hin ⊢
          apply hopt
          by_cases hm0 : m = 0
          · omega
          · have := h1.le _ (hin (43 + 4 * m) (by simp [scansFsChroma, hm0]))
            omega
      · apply next bc bf (fun _ => ⟨hbf, hbc, hopt⟩)
        rw [hde]
        unfold chromaFsStep
        rw [hfs, if_neg (by omega), if_pos hd]
        simp only
        rw [hidx, hcost, hst2, if_neg hj]
    · apply next st.bestCost st.bestFC
      · intro h43'
        have hb := h.best (by omega)
        have e2 : (st.scan - 43) / 4 = (st.scan - 44) / 4 := by omega
        rw [e2]
        exact hb
      · rw [hde]
        unfold chromaFsStep
        rw [hfs, if_neg (by omega), if_neg hd]
        rfl

/-! ## The whole search -/

theorem run_of_step {g : SearchCfg} {size : Nat → Int → Nat} {P Q : SState → Prop} (m : Nat)
    (hlast : ∀ st, P st → st.isLast = false)
    (hlim : ∀ st, P st → st.scan < m)
    (hinc : ∀ st, P st → st.scan < (searchStep g size st).scan)
    (hstep : ∀ st, P st → P (searchStep g size st) ∨ Q (searchStep g size st)) :
    ∀ (k : Nat) (st : SState), P st → m - st.scan ≤ k →
      ∃ st', Q st' ∧ ∃ j ≤ k, ∀ fuel, searchRun g size (j + fuel) st = searchRun g size fuel st' := by
  intro k
  induction k with
  | zero => intro st hP hk; have := hlim st hP; omega
  | succ k ih =>
    intro st hP hk
    rcases hstep st hP with h | h
    · have h1 := hinc st hP
      have h2 := hlim st hP
      obtain ⟨st', hQ, j, hj, hrun⟩ := ih _ h (by omega)
      refine ⟨st', hQ, j + 1, by omega, fun fuel => ?_⟩
      rw [show j + 1 + fuel = (j + fuel) + 1 by omega, searchRun, hlast st hP]
      exact hrun fuel
    · refine ⟨_, h, 1, by omega, fun fuel => ?_⟩
      rw [show 1 + fuel = fuel + 1 by omega, searchRun, hlast st hP]
      rfl

end Verif.Script
