import Verif.Post.SkipSim
/-
C46: skipping with context rows.
-/
namespace Verif.Post
variable {R : Type}

/-- Methods with context use the row above only for the first output row (jdsample.c:321-343 h1v2, 355-401 h2v2 fancy upsampling). -/
def Cfg.Local (k : Cfg R) : Prop := ∀ c, c < k.n → (k.comp c).full = false → (k.comp c).ctx = true → ∀ a a' l, ((k.comp c).up (a :: l)).tail = ((k.comp c).up (a' :: l)).tail

/-- The source with another row above iMCU row K. -/
def patched (k : Cfg R) (src : Nat → Nat → R) (K : Nat) (x : Nat → R) : Src R := ⟨fun c r => if r + 1 = K * k.imcuHeight c then x c else src c r, fun c => if K = 0 then x c else src c 0⟩

section
variable {k : Cfg R} (hk : k.Ok) (hctx : k.context = true)
include hk hctx

theorem clamp_patched (src : Nat → Nat → R) {K : Nat} (x : Nat → R) (hK : K < k.total) {c : Nat} (hc : c < k.n) {r : Int} (hr : ((K * (k.g c * k.M) : Nat) : Int) ≤ r) : k.clampRow (patched k src K x) c r = k.clampRow (Src.plain src) c r := by
  have h1 := (lt_total hk hc).1 hK
  unfold Cfg.clampRow
  rw [if_neg (by omega), if_neg (by omega)]
  unfold patched Src.plain
  simp only
  rw [imcu_eq hk hc, if_neg (by omega)]

theorem line_patched (hl : k.Local) (src : Nat → Nat → R) {K : Nat} (x : Nat → R) (hK : K < k.total) {t : Nat} (ht : K * k.lpi + 1 ≤ t) : k.scanline (patched k src K x) t = k.scanline (Src.plain src) t := by
  have hmv := hk.mv
  unfold Cfg.scanline
  apply mapM_congr
  intro c hc
  have hc := List.mem_range.1 hc
  have hg := (hk.g c hc).1
  have hdm : t / k.maxV * k.maxV + t % k.maxV = t := by rw [Nat.mul_comm]; exact Nat.div_add_mod _ _
  have hG : K * k.M ≤ t / k.maxV := by
    rw [Nat.le_div_iff_mul_le hmv, Nat.mul_assoc]
    have : k.M * k.maxV = k.lpi := rfl
    rw [this]; omega
  generalize t / k.maxV = G at *
  have hj : K * k.M = G → 1 ≤ t % k.maxV := by
    intro h
    rw [← h, Nat.mul_assoc] at hdm
    have : k.M * k.maxV = k.lpi := rfl
    rw [this] at hdm; omega
  generalize t % k.maxV = j at *
  have hKG : K * (k.g c * k.M) ≤ G * k.g c := by
    rw [show K * (k.g c * k.M) = K * k.M * k.g c by ring]
    exact Nat.mul_le_mul_right _ hG
  have hrow : ∀ i : Int, 0 ≤ i → k.rowAt (patched k src K x) c G i = k.rowAt (Src.plain src) c G i := by
    intro i hi
    unfold Cfg.rowAt
    rw [if_pos hctx, if_pos hctx]
    exact clamp_patched hk hctx src x hK hc (by omega)
  have hrow1 : K * k.M ≠ G → k.rowAt (patched k src K x) c G (-1) = k.rowAt (Src.plain src) c G (-1) := by
    intro hne
    have : (K * k.M + 1) * k.g c ≤ G * k.g c := Nat.mul_le_mul_right _ (by omega)
    rw [Nat.succ_mul, show K * k.M * k.g c = K * (k.g c * k.M) by ring] at this
    unfold Cfg.rowAt
    rw [if_pos hctx, if_pos hctx]
    exact clamp_patched hk hctx src x hK hc (by omega)
  unfold Cfg.upRow
  by_cases hf : (k.comp c).full = true
  · rw [if_pos hf, if_pos hf, hrow _ (by omega)]
  · rw [if_neg hf, if_neg hf]
    by_cases hx : (k.comp c).ctx = true
    · rw [if_pos hx, if_pos hx]
      have hlist : ∀ S : Src R, (List.range (k.g c + 2)).map (fun i : Nat => k.rowAt S c G ((i : Int) - 1)) = k.rowAt S c G (-1) :: (List.range (k.g c + 1)).map (fun i : Nat => k.rowAt S c G (i : Int)) := by
        intro S
        rw [List.range_succ_eq_map, List.map_cons, List.map_map]
        congr 1
        apply List.map_congr_left
        intro i _
        simp only [Function.comp]
        congr 1
        omega
      have htail : (List.range (k.g c + 1)).map (fun i : Nat => k.rowAt (patched k src K x) c G (i : Int)) = (List.range (k.g c + 1)).map (fun i : Nat => k.rowAt (Src.plain src) c G (i : Int)) :=
        List.map_congr_left (fun i _ => hrow _ (by omega))
      rw [hlist, hlist, htail]
      by_cases hKM : K * k.M = G
      · have hj1 := hj hKM
        obtain ⟨j', rfl⟩ : ∃ j', j = j' + 1 := ⟨j - 1, by omega⟩
        have := hl c hc (by simpa using hf) hx (k.rowAt (patched k src K x) c G (-1)) (k.rowAt (Src.plain src) c G (-1)) ((List.range (k.g c + 1)).map (fun i : Nat => k.rowAt (Src.plain src) c G (i : Int)))
        rw [← List.getElem?_tail, ← List.getElem?_tail, this]
      · rw [hrow1 hKM]
    · rw [if_neg hx, if_neg hx]
      have : (List.range (k.g c)).map (fun i : Nat => k.rowAt (patched k src K x) c G (i : Int)) = (List.range (k.g c)).map (fun i : Nat => k.rowAt (Src.plain src) c G (i : Int)) :=
        List.map_congr_left (fun i _ => hrow _ (by omega))
      rw [this]

/-- The state left by the skipping code. -/
theorem fresh_sim (hl : k.Local) (src : Nat → Nat → R) {K : Nat} {t : St R} (full : t.bufferFull = false) (ctr : t.imcuCtr = K) (inRow : t.inRow = K) (lt : K < k.total) (which : t.which < 2)
    (norm : ∀ c, c < k.n → Norm (k.g c) (k.g c * k.M) (t.cs c)) (state : t.ctxState = 0) (next : t.nextRowOut = k.maxV) (pos : t.outScan = K * k.lpi) (togo : t.rowsToGo = k.H - t.outScan) :
    ∃ src' lv, Sim k src src' { t with out := [] } lv 0 (K * k.lpi + 1) t := by
  have hmv := hk.mv
  let x : Nat → R := fun c => (t.cs c).mem (pt (k.g c) (k.g c * k.M) t.which (-1))
  obtain ⟨l, hl1, hl2⟩ := lines_list hk (patched k src K x) (K * k.lpi)
  have hH := (lt_total_iff hk).1 lt
  refine ⟨patched k src K x, l, rfl, ?_, ⟨⟨?_, ?_, ?_⟩, ?_, fun _ => .fresh K ?_, fun hc => by rw [hctx] at hc; simp at hc⟩, ?_, fun t ht => line_patched hk hctx hl src x lt ht⟩
  · simp only [St.put, List.append_nil, Nat.add_zero]
  · simp only [St.put, List.append_nil, hl1]; exact hl2
  · simp only [St.put, List.append_nil, hl1]; omega
  · simp only [St.put, List.append_nil, hl1]; omega
  · simp only [St.put, List.append_nil, hl1]; omega
  · refine { full := full, ctr := ctr, inRow := inRow, lt := lt, which := which, norm := norm, above := ?_, state := state, ups := ⟨?_, ?_, ?_⟩, next := next }
    · intro c hc
      show (t.cs c).mem (pt (k.g c) (k.g c * k.M) t.which (-1)) = _
      have h1 := (lt_total hk hc).1 lt
      have hg := (hk.g c hc).1
      have hP : 0 < k.g c * k.M := Nat.mul_pos hg hk.m
      unfold Cfg.clampRow patched
      simp only
      rw [imcu_eq hk hc]
      by_cases hK : K = 0
      · subst hK
        rw [if_pos (by simp), if_pos rfl]
      · have hKP : 0 < K * (k.g c * k.M) := Nat.mul_pos (by omega) hP
        rw [if_neg (by omega), if_pos (by omega)]
    · simp only [St.put]; omega
    · simp only [St.put, List.append_nil, hl1]
      rw [if_pos next, Nat.add_zero]
      unfold Cfg.lpi; ring
    · intro h; simp only [St.put] at h; omega
  · intro c r hc hr
    unfold patched
    simp only
    rw [inRow] at hr
    rw [if_neg (by omega)]

/-- When jpeg_skip_scanlines may be called with context rows. -/
def skipOkCtx (k : Cfg R) (p n : Nat) : Prop := k.maxV ≤ 2 ∨ n ≤ k.linesLeft p ∨ k.linesLeft p ≤ 1 ∨ k.maxV ≤ k.linesLeft p

variable {src : Nat → Nat → R} {src' : Src R} {b s : St R} {lv : List (List R)} {d L : Nat}

/-- Where the controller is, as seen by the skipping code: if it goes past the current iMCU row, the next one to be decoded begins at line K * lpi; the pointers are, or will be made, ready. -/
theorem ctx_pos (h2v : 2 ≤ k.maxV) {v : St R} (h : Phase k src' v) (hlined : 0 < v.nextRowOut) {n : Nat} (hlt : v.out.length + n < k.H) (hgo : ¬ n < k.linesLeft v.out.length + 1) (hok : skipOkCtx k v.out.length n) :
    ∃ K, v.imcuCtr = K ∧ v.inRow = K ∧ v.which < 2 ∧ v.out.length + (if k.linesLeft v.out.length ≤ 1 ∧ v.bufferFull = true then k.linesLeft v.out.length + k.lpi else k.linesLeft v.out.length) = K * k.lpi ∧
      ((∀ c, c < k.n → Norm (k.g c) (k.g c * k.M) (v.cs c)) ∨ ((v.imcuCtr = 0 ∨ (v.imcuCtr = 1 ∧ k.linesLeft v.out.length > 2)) ∧ ∀ c, c < k.n → Base (k.g c) (k.g c * k.M) (v.cs c))) := by
  have hM := hk.ctx hctx
  have hlp := lpi_pos hk
  have hlpi : k.lpi = (k.M - 1) * k.maxV + k.maxV := by
    unfold Cfg.lpi
    rw [← Nat.succ_mul, Nat.succ_eq_add_one, Nat.sub_add_cancel hk.m]
  have hM1 : k.maxV ≤ (k.M - 1) * k.maxV := by
    calc k.maxV = 1 * k.maxV := by ring
      _ ≤ (k.M - 1) * k.maxV := Nat.mul_le_mul_right _ (by omega)
  have hprev : ∀ K, 0 < K → (K * k.M - 1) * k.maxV = (K - 1) * k.lpi + (k.M - 1) * k.maxV := by
    intro K hK
    obtain ⟨K', rfl⟩ : ∃ K', K = K' + 1 := ⟨K - 1, by omega⟩
    rw [Nat.add_sub_cancel]
    unfold Cfg.lpi
    have : (K' + 1) * k.M - 1 = K' * k.M + (k.M - 1) := by rw [Nat.succ_mul]; omega
    rw [this]; ring
  cases h with
  | start h =>
    have hpos := h.ups.pos
    rw [if_pos h.next, Nat.zero_mul] at hpos
    have hz : k.linesLeft v.out.length = 0 := by rw [linesLeft_eq hk (K := 0) (r := 0) (by omega) hlp, if_pos rfl]
    refine ⟨0, h.ctr, h.inRow, by rw [h.which]; omega, ?_, Or.inr ⟨Or.inl h.ctr, fun c hc => (h.top c hc).1⟩⟩
    rw [if_neg (by rw [h.full]; simp), hz]; omega
  | empty K h =>
    have hpos := h.ups.pos
    rw [if_pos h.next, Nat.add_zero, hprev K h.pos] at hpos
    have hz : k.linesLeft v.out.length = k.maxV := by rw [linesLeft_eq hk hpos (by omega), if_neg (by omega)]; omega
    refine ⟨K, h.ctr, h.inRow, h.which, ?_, Or.inl h.norm⟩
    rw [if_neg (by rw [h.full]; simp), hz, hpos]
    have : K * k.lpi = (K - 1) * k.lpi + k.lpi := by rw [← Nat.succ_mul, Nat.succ_eq_add_one, Nat.sub_add_cancel h.pos]
    omega
  | fresh K h =>
    have hpos := h.ups.pos
    rw [if_pos h.next, Nat.add_zero] at hpos
    have hpos : v.out.length = K * k.lpi + 0 := by rw [hpos]; unfold Cfg.lpi; ring
    have hz : k.linesLeft v.out.length = 0 := by rw [linesLeft_eq hk hpos hlp, if_pos rfl]
    refine ⟨K, h.ctr, h.inRow, h.which, ?_, Or.inl h.norm⟩
    rw [if_neg (by rw [h.full]; simp), hz, hpos]; rfl
  | postp K h nx =>
    have hpos := h.ups.pos
    rw [if_neg (by omega), hprev K h.pos] at hpos
    have hpos' : v.out.length = (K - 1) * k.lpi + ((k.M - 1) * k.maxV + v.nextRowOut) := by omega
    have hz : k.linesLeft v.out.length = k.maxV - v.nextRowOut := by rw [linesLeft_eq hk hpos' (by omega), if_neg (by omega)]; omega
    have hone : k.linesLeft v.out.length ≤ 1 := by
      rcases hok with hok | hok | hok | hok <;> omega
    refine ⟨K + 1, h.ctr, h.inRow, h.which, ?_, Or.inl h.norm⟩
    rw [if_pos ⟨hone, h.full⟩, hz, hpos']
    have e1 : K * k.lpi = (K - 1) * k.lpi + k.lpi := by rw [← Nat.succ_mul, Nat.succ_eq_add_one, Nat.sub_add_cancel h.pos]
    rw [Nat.succ_mul]
    omega
  | ready K h hK norm st ups next =>
    have hpos := ups.pos
    rw [if_pos next, Nat.add_zero] at hpos
    have hpos : v.out.length = K * k.lpi + 0 := by rw [hpos]; unfold Cfg.lpi; ring
    have hz : k.linesLeft v.out.length = 0 := by rw [linesLeft_eq hk hpos hlp, if_pos rfl]
    refine ⟨K + 1, h.ctr, h.inRow, h.which, ?_, Or.inl norm⟩
    rw [if_pos ⟨by omega, h.full⟩, hz, hpos, Nat.succ_mul]; omega
  | proc K h nx =>
    have hpos := h.ups.pos
    obtain ⟨j, hj⟩ : ∃ j, j = (if v.nextRowOut = k.maxV then 0 else v.nextRowOut) := ⟨_, rfl⟩
    have hjlt : j < k.maxV := by rw [hj]; have := h.ups.le; split <;> omega
    rw [← hj] at hpos
    have hpos : v.out.length = K * k.lpi + (v.rowgroupCtr * k.maxV + j) := by rw [hpos]; unfold Cfg.lpi; ring
    have hne : v.rowgroupCtr * k.maxV + j ≠ 0 := by
      intro h0
      have hq0 : v.rowgroupCtr = 0 := by
        rcases Nat.eq_zero_or_pos v.rowgroupCtr with h | h
        · exact h
        · have := Nat.mul_pos h hk.mv; omega
      have := nx hq0
      rw [if_neg (by omega)] at hj
      omega
    have hav := h.avail
    have hq := h.q
    have hM' := (bottomAvail_eq hk hk.n).2.2.2.2
    have hqM : v.rowgroupCtr < k.M := by
      rw [hav] at hq
      split at hq <;> omega
    have hr : v.rowgroupCtr * k.maxV + j < k.lpi := by
      have : (v.rowgroupCtr + 1) * k.maxV ≤ k.M * k.maxV := Nat.mul_le_mul_right _ hqM
      rw [Nat.succ_mul] at this
      unfold Cfg.lpi
      omega
    have hz : k.linesLeft v.out.length = k.lpi - (v.rowgroupCtr * k.maxV + j) := by rw [linesLeft_eq hk hpos hr, if_neg hne]
    have hmore : K + 1 < k.total := by
      rw [lt_total_iff hk, Nat.succ_mul]; omega
    rw [if_neg (by omega)] at hav
    have hbig : k.linesLeft v.out.length > 2 := by
      have : (v.rowgroupCtr + 1) * k.maxV ≤ (k.M - 1) * k.maxV := Nat.mul_le_mul_right _ (by omega)
      rw [Nat.succ_mul] at this
      omega
    refine ⟨K + 1, h.ctr, h.inRow, h.which, ?_, ?_⟩
    · rw [if_neg (by omega), hz, hpos, Nat.succ_mul]; omega
    · by_cases hK : K = 0
      · exact Or.inr ⟨Or.inr ⟨by rw [h.ctr, hK], hbig⟩, fun c hc => (h.more hmore c hc).1⟩
      · exact Or.inl fun c hc => (h.more hmore c hc).2.1 (by omega)
  | done h => omega

theorem skipCtx_ok (hl : k.Local) (h2v : 2 ≤ k.maxV) (h : Sim k src src' b lv 0 L s) (hL : L ≤ s.outScan) (hlined : 0 < s.nextRowOut) {n : Nat} (hn : 0 < n) (hlt : s.outScan + n < k.H) (hok : skipOkCtx k s.outScan n) :
    ∃ s' src'' b' lv' L', k.skipCtx src n s = some s' ∧ Sim k src src'' b' lv' 0 L' s' ∧ L' ≤ s'.outScan ∧ s'.outScan = s.outScan + n ∧ (s'.outScan < k.H → 0 < s'.nextRowOut) ∧ s'.out = s.out := by
  have hx := h.next
  have hsc := h.scan
  have hlp := lpi_pos hk
  have disc : ∃ s' src'' b' lv' L', k.discard src n s = some s' ∧ Sim k src src'' b' lv' 0 L' s' ∧ L' ≤ s'.outScan ∧ s'.outScan = s.outScan + n ∧ (s'.outScan < k.H → 0 < s'.nextRowOut) ∧ s'.out = s.out := by
    obtain ⟨s', b', lv', f1, f2, f3, f4, f5, f6, _⟩ := sim_discard hk n h (by omega)
    exact ⟨s', src', b', lv', L, f1, f2, by omega, f3, f4 hn, f6⟩
  unfold Cfg.skipCtx
  simp only
  by_cases hc1 : n < k.linesLeft s.outScan + 1
  · rw [if_pos (Or.inl hc1)]; exact disc
  · by_cases hc2 : (decide (k.linesLeft s.outScan ≤ 1) && s.bufferFull) = true ∧ n - k.linesLeft s.outScan < k.lpi + 1
    · rw [if_pos (Or.inr hc2)]; exact disc
    · rw [if_neg (by rintro (h | h); exact hc1 h; exact hc2 h)]
      have hvl : (b.put lv 0).out.length = s.outScan := by rw [hsc]; simp only [St.put, h.out, List.append_nil]
      obtain ⟨K, k1, k2, k3, k4, k5⟩ := ctx_pos hk hctx h2v (h.inv.ctx hctx) (by show 0 < b.nextRowOut; rw [← hx.1]; exact hlined) (n := n) (by rw [hvl]; exact hlt) (by rw [hvl]; exact hc1) (by rw [hvl]; exact hok)
      rw [hvl] at k4 k5
      change b.imcuCtr = K at k1
      change b.inRow = K at k2
      change b.which < 2 at k3
      rw [← hx.2.2.2.2.2.1] at k1
      rw [← hx.2.1] at k2
      rw [← hx.2.2.2.2.2.2.1] at k3
      have k5 : ((∀ c, c < k.n → Norm (k.g c) (k.g c * k.M) (s.cs c)) ∨ ((s.imcuCtr = 0 ∨ (s.imcuCtr = 1 ∧ k.linesLeft s.outScan > 2)) ∧ ∀ c, c < k.n → Base (k.g c) (k.g c * k.M) (s.cs c))) := by
        rw [hx.2.2.2.2.1, hx.2.2.2.2.2.1]; exact k5
      obtain ⟨step, hstep⟩ : ∃ step, step = (if (decide (k.linesLeft s.outScan ≤ 1) && s.bufferFull) = true then k.linesLeft s.outScan + k.lpi else k.linesLeft s.outScan) := ⟨_, rfl⟩
      have k4 : s.outScan + step = K * k.lpi := by
        rw [hstep, ← k4]
        congr 1
        have e : (b.put lv 0).bufferFull = s.bufferFull := hx.2.2.1.symm
        rw [e]
        simp only [Bool.and_eq_true, decide_eq_true_eq]
      rw [← hstep]
      have hsn : step < n := by
        rw [hstep]
        split
        · rename_i hld
          have : ¬ n - k.linesLeft s.outScan < k.lpi + 1 := fun h => hc2 ⟨hld, h⟩
          omega
        · omega
      -- the pointers
      obtain ⟨cs', w1, w2⟩ : ∃ cs', k.skipWrap (k.linesLeft s.outScan) s = some cs' ∧ ∀ c, c < k.n → Norm (k.g c) (k.g c * k.M) (cs' c) := by
        unfold Cfg.skipWrap
        by_cases hw : s.imcuCtr = 0 ∨ (s.imcuCtr = 1 ∧ k.linesLeft s.outScan > 2)
        · rw [if_pos hw]
          have hb : ∀ c, c < k.n → Base (k.g c) (k.g c * k.M) (s.cs c) := by
            rcases k5 with h | h
            · exact fun c hc => (h c hc).base
            · exact h.2
          exact forC_spec (k := k) (f := k.setWrap) (fun c y => Norm (k.g c) (k.g c * k.M) y) s.cs (fun c hc => by
            obtain ⟨y, f1, _, _, f4⟩ := setWrap_ok hk hctx hc (s.cs c) (hb c hc)
            exact ⟨y, f1, f4⟩)
        · rw [if_neg hw]
          rcases k5 with h | h
          · exact ⟨s.cs, rfl, h⟩
          · exact absurd h.1 hw
      rw [w1]
      simp only [Option.bind_eq_bind, Option.bind_some]
      generalize hq' : (n - step - 1) / k.lpi = q' at *
      have hdiv : q' * k.lpi + (n - step - 1) % k.lpi = n - step - 1 := by rw [← hq', Nat.mul_comm]; exact Nat.div_add_mod _ _
      have hmlt : (n - step - 1) % k.lpi < k.lpi := Nat.mod_lt _ hlp
      have hK' : K + q' < k.total := by rw [lt_total_iff hk, Nat.add_mul]; omega
      have hH := (lt_total_iff hk).1 hK'
      obtain ⟨t, ht⟩ : ∃ t : St R, t = { s with cs := cs', bufferFull := false, rowgroupCtr := 0, ctxState := 0, nextRowOut := k.maxV, rowsToGo := k.H - K * k.lpi, inRow := K + q', imcuCtr := K + q', outScan := (K + q') * k.lpi } := ⟨_, rfl⟩
      have hskip : k.skipRows q' (k.skipReset { s with cs := cs', outScan := s.outScan + step }) = some t := by
        unfold Cfg.skipRows Cfg.skipReset
        simp only
        rw [if_pos (by omega), if_pos hctx, if_pos hctx, k1, k2, k4, ht, Nat.add_mul]
      rw [hskip]
      simp only [Option.bind_some]
      -- rows_to_go is only right again at the end; reading one line at a time does not mind
      obtain ⟨src'', lv'', hS⟩ := fresh_sim hk hctx hl src (K := K + q') (t := { t with rowsToGo := k.H - (K + q') * k.lpi }) (by rw [ht]) (by rw [ht]) (by rw [ht]) hK' (by rw [ht]; exact k3) (by rw [ht]; exact w2) (by rw [ht]) (by rw [ht]) (by rw [ht]) (by rw [ht])
      have hS' : Sim k src src'' { t with rowsToGo := k.H - (K + q') * k.lpi, out := [] } lv'' (q' * k.lpi) ((K + q') * k.lpi + 1) t := by
        refine ⟨rfl, ?_, hS.inv, hS.agree, hS.line⟩
        have hgo : k.H - (K + q') * k.lpi + q' * k.lpi = t.rowsToGo := by
          rw [ht]; rw [Nat.add_mul] at hH ⊢; simp only; omega
        simp only [St.put, hgo, List.append_nil]
      have hto : t.outScan = (K + q') * k.lpi := by rw [ht]
      have hrest : n - step - q' * k.lpi = (n - step - 1) % k.lpi + 1 := by omega
      rw [hrest]
      obtain ⟨s', b', lv', f1, f2, f3, f4, f5, f6, _⟩ := sim_discard hk ((n - step - 1) % k.lpi + 1) hS' (by rw [hto, Nat.add_mul]; omega)
      refine ⟨k.skipEnd s', src'', b', lv', _, by rw [f1]; rfl, f2.settle, ?_, ?_, f4 (by omega), by rw [show s.out = t.out by rw [ht]]; exact f6⟩
      · show _ ≤ s'.outScan
        omega
      · show s'.outScan = _
        rw [f3, hto, Nat.add_mul]; omega

end
end Verif.Post
