import Verif.Post.SkipSim
/-
C46: skipping without context rows.
-/
namespace Verif.Post
variable {R : Type}

section
variable {k : Cfg R} (hk : k.Ok) (hctx : k.context = false)
include hk hctx

/-- The controller's position: row group, and whether the iMCU row is in memory. -/
theorem sphase_pos {src : Src R} {v : St R} (h : SPhase k src v) : ∃ K, v.out.length = (K * k.M + v.rowgroupCtr) * k.maxV + (if v.nextRowOut = k.maxV then 0 else v.nextRowOut) ∧ v.rowgroupCtr < k.M ∧ v.nextRowOut ≤ k.maxV ∧
    ((v.bufferFull = true ∧ v.inRow = K + 1 ∧ (v.rowgroupCtr = 0 → v.nextRowOut < k.maxV)) ∨ (v.bufferFull = false ∧ v.inRow = K ∧ v.nextRowOut = k.maxV)) := by
  cases h with
  | full K a b c _ _ f g => exact ⟨K, f.pos, c, f.le, Or.inl ⟨a, b, g⟩⟩
  | empty a b _ d e => exact ⟨v.inRow, d.pos, b, d.le, Or.inr ⟨a, rfl, e⟩⟩

theorem group_lt {a m r : Nat} (hm : a < m) (hr : r < k.maxV) : a * k.maxV + r < m * k.maxV := by
  have : (a + 1) * k.maxV ≤ m * k.maxV := Nat.mul_le_mul_right _ hm
  rw [Nat.succ_mul] at this
  omega

/-- Moving to another row group when the conversion buffer is empty. -/
theorem SPhase.move {src : Src R} {b : St R} {lv lv' : List (List R)} {m d' p' r' : Nat} (h : SPhase k src (b.put lv 0)) (hn : b.nextRowOut = k.maxV) (hm : b.rowgroupCtr + m < k.M) (hb : b.out = []) (hl : lv'.length = lv.length + m * k.maxV) :
    SPhase k src (St.put lv' d' { b with rowgroupCtr := b.rowgroupCtr + m, outScan := p', rowsToGo := r' }) := by
  have hmv := hk.mv
  cases h with
  | full K a b1 c plain loaded f g =>
    have hpos := f.pos
    simp only [St.put, hb, List.append_nil] at hpos a b1 c f g plain loaded
    rw [if_pos hn] at hpos
    refine .full K a b1 hm plain loaded ⟨by simp only [St.put]; omega, ?_, fun h => by simp only [St.put] at h; omega⟩ (fun h0 => by simp only [St.put] at h0 ⊢; exact g (by omega))
    simp only [St.put, hb, List.append_nil]
    rw [if_pos hn, hl, hpos]; ring
  | empty a b1 plain f e =>
    have hpos := f.pos
    simp only [St.put, hb, List.append_nil] at hpos a b1 e f plain
    rw [if_pos hn] at hpos
    refine .empty a hm plain ⟨by simp only [St.put]; omega, ?_, fun h => by simp only [St.put] at h; omega⟩ hn
    simp only [St.put, hb, List.append_nil]
    rw [if_pos hn, hl, hpos]; ring

variable {src : Nat → Nat → R} {b s : St R} {lv : List (List R)} {d L : Nat}

theorem sim_move (h : Sim k src (Src.plain src) b lv d L s) (hn : s.nextRowOut = k.maxV) {m : Nat} (hm : s.rowgroupCtr + m < k.M) (hle : s.outScan + m * k.maxV ≤ k.H) :
    ∃ b' lv' d', Sim k src (Src.plain src) b' lv' d' L { s with rowgroupCtr := s.rowgroupCtr + m, outScan := s.outScan + m * k.maxV } := by
  obtain ⟨l, hl1, hl2⟩ := lines_list hk (Src.plain src) (s.outScan + m * k.maxV)
  have hx := h.next
  have ht := h.togo
  have hs := h.scan
  refine ⟨{ b with rowgroupCtr := b.rowgroupCtr + m, outScan := s.outScan + m * k.maxV, rowsToGo := k.H - (s.outScan + m * k.maxV) }, l, d + m * k.maxV, h.out, ?_, ?_, h.agree, h.line⟩
  · have hgo : s.rowsToGo = k.H - (s.outScan + m * k.maxV) + (d + m * k.maxV) := by omega
    simp only [St.put, h.out, List.append_nil, ← hgo, hx.2.2.2.1]
    have := h.eq
    simp only [St.put, h.out, List.append_nil] at this
    conv => lhs; rw [this]
    have h2 : b.rowsToGo + d = s.rowsToGo := by omega
    simp only [h2, hx.2.2.2.2.2.2.2.2.1]
  · refine ⟨⟨?_, ?_, ?_⟩, ?_, fun hc => by rw [hctx] at hc; simp at hc, fun _ => ?_⟩
    · simp only [St.put, h.out, List.append_nil, hl1]; exact hl2
    · simp only [St.put, h.out, List.append_nil, hl1]; exact hle
    · simp only [St.put, h.out, List.append_nil, hl1]; omega
    · simp only [St.put, h.out, List.append_nil, hl1]
    · exact (h.inv.simple hctx).move hk hctx (by rw [← hx.1]; exact hn) (by rw [← hx.2.2.2.1]; exact hm) h.out (by omega)

/-- increment_simple_rowgroup_ctr when the conversion buffer is empty. -/
theorem inc_aligned (h : Sim k src (Src.plain src) b lv d L s) (hn : s.nextRowOut = k.maxV) {rows : Nat} (hm : s.rowgroupCtr + rows / k.maxV < k.M) (hle : s.outScan + rows ≤ k.H) :
    ∃ s' b' lv' d', k.incSimple src rows s = some s' ∧ Sim k src (Src.plain src) b' lv' d' L s' ∧ s'.outScan = s.outScan + rows ∧ (s'.outScan < k.H → 0 < s'.nextRowOut) ∧ s.inRow ≤ s'.inRow ∧ s'.out = s.out := by
  have hmv := hk.mv
  have hdm : rows / k.maxV * k.maxV + rows % k.maxV = rows := by rw [Nat.mul_comm]; exact Nat.div_add_mod _ _
  obtain ⟨b1, lv1, d1, h1⟩ := sim_move hk hctx h hn hm (by omega)
  obtain ⟨s2, b2, lv2, e1, e2, e3, e4, e5, e6, e7⟩ := sim_discard hk (rows % k.maxV) h1 (by simp only; omega)
  refine ⟨s2, b2, lv2, d1, ?_, e2, by simp only at e3; omega, ?_, e5, e6⟩
  · unfold Cfg.incSimple
    rw [show rows - rows % k.maxV = rows / k.maxV * k.maxV by omega]
    exact e1
  · intro hlt
    by_cases h0 : rows % k.maxV = 0
    · rw [e7 h0]; simp only; omega
    · exact e4 (by omega) hlt

/-- The lines left in the conversion buffer can be read and thrown away wherever the row group counter points. -/
theorem stale_discard (src : Nat → Nat → R) : ∀ (i : Nat) {s : St R}, s.bufferFull = true → s.nextRowOut + i = k.maxV → 0 < i → s.rowgroupCtr + 1 < k.M → s.outScan + i ≤ k.H → i ≤ s.rowsToGo →
    (∀ j, s.nextRowOut ≤ j → j < k.maxV → ∃ row, k.emit s j = some row) →
    ∃ out', k.discardN src i s = some { s with nextRowOut := k.maxV, rowgroupCtr := s.rowgroupCtr + 1, outScan := s.outScan + i, rowsToGo := s.rowsToGo - i, out := out' } := by
  intro i
  induction i with
  | zero => intro s _ _ h; omega
  | succ i ih =>
    intro s hf hn _ hM hH hg he
    obtain ⟨row, hrow⟩ := he s.nextRowOut (Nat.le_refl _) (by omega)
    have hfc : ∀ w ctr, k.fillColor w ctr s = some s := fun w ctr => by unfold Cfg.fillColor; rw [if_neg (by omega)]
    have hnum : k.numRows s 0 1 = 1 := by unfold Cfg.numRows; omega
    have hup : k.upsample 2 s.rowgroupCtr 0 1 s = some (if s.nextRowOut + 1 ≥ k.maxV then s.rowgroupCtr + 1 else s.rowgroupCtr, 1, { s with out := s.out ++ [row], rowsToGo := s.rowsToGo - 1, nextRowOut := s.nextRowOut + 1 }) := by
      unfold Cfg.upsample
      rw [hfc]
      simp only [Option.bind_eq_bind, Option.bind_some, hnum]
      rw [show List.range 1 = [0] from rfl]
      simp [hrow]
    have hread : k.read src 1 true s = some (1, { s with out := s.out ++ [row], rowsToGo := s.rowsToGo - 1, nextRowOut := s.nextRowOut + 1, rowgroupCtr := if s.nextRowOut + 1 ≥ k.maxV then s.rowgroupCtr + 1 else s.rowgroupCtr, outScan := s.outScan + 1 }) := by
      unfold Cfg.read
      rw [if_neg (by omega)]
      unfold Cfg.process
      rw [if_neg (by rw [hctx]; simp)]
      unfold Cfg.simpleMain
      rw [if_pos hf]
      unfold Cfg.simpleFull
      rw [hup]
      simp only [Option.bind_eq_bind, Option.bind_some]
      rw [if_neg (by split <;> omega)]
      rfl
    unfold Cfg.discardN
    rw [hread]
    simp only [Option.bind_eq_bind, Option.bind_some]
    by_cases hi : i = 0
    · subst hi
      refine ⟨s.out ++ [row], ?_⟩
      unfold Cfg.discardN
      rw [if_pos (by omega), hn]
    · rw [if_neg (by omega)]
      obtain ⟨out', e⟩ := ih (s := { s with out := s.out ++ [row], rowsToGo := s.rowsToGo - 1, nextRowOut := s.nextRowOut + 1, outScan := s.outScan + 1 }) hf (by simp only; omega) (by omega) hM (by simp only; omega) (by simp only; omega)
        (fun j a b => he j (by simp only at a; omega) b)
      refine ⟨out', ?_⟩
      simp only at e
      rw [show s.outScan + (i + 1) = s.outScan + 1 + i by omega, show s.rowsToGo - (i + 1) = s.rowsToGo - 1 - i by omega]
      exact e

theorem discardN_add (src : Nat → Nat → R) : ∀ (a b : Nat) (s : St R), k.discardN src (a + b) s = (k.discardN src a s).bind (k.discardN src b) := by
  intro a
  induction a with
  | zero => intro b s; rw [Nat.zero_add]; rfl
  | succ a ih =>
    intro b s
    rw [show a + 1 + b = (a + b) + 1 by omega]
    simp only [Cfg.discardN, Option.bind_eq_bind]
    cases k.read src 1 true s with
    | none => rfl
    | some x => exact ih b x.2

/-- increment_simple_rowgroup_ctr in the middle of a row group, when all the lines left in the conversion buffer are thrown away. -/
theorem inc_stale (h : Sim k src (Src.plain src) b lv d L s) (hf : s.bufferFull = true) (hj : s.nextRowOut < k.maxV) {rows : Nat} (hm : s.rowgroupCtr + rows / k.maxV + 1 < k.M) (hst : k.maxV ≤ s.nextRowOut + rows % k.maxV) (hle : s.outScan + rows ≤ k.H) :
    ∃ s' b' lv' d', k.incSimple src rows s = some s' ∧ Sim k src (Src.plain src) b' lv' d' L s' ∧ s'.outScan = s.outScan + rows ∧ (s'.outScan < k.H → 0 < s'.nextRowOut) ∧ s.inRow ≤ s'.inRow ∧ s'.out = s.out := by
  have hmv := hk.mv
  have hdm : rows / k.maxV * k.maxV + rows % k.maxV = rows := by rw [Nat.mul_comm]; exact Nat.div_add_mod _ _
  have hx := h.next
  have ht := h.togo
  have hsc := h.scan
  cases h.inv.simple hctx with
  | empty a _ _ _ e =>
    have : b.bufferFull = false := a
    rw [← hx.2.2.1, hf] at this; simp at this
  | full K a b1 c plain loaded f g =>
    have hpos := f.pos
    have hcol := f.color (by simp only [St.put]; rw [← hx.1]; exact hj)
    simp only [St.put, h.out, List.append_nil] at hpos a b1 c g plain loaded hcol
    rw [← hx.1, if_neg (by omega), ← hx.2.2.2.1, ← hsc] at hpos
    generalize hmm : rows / k.maxV = m at *
    generalize hrr : rows % k.maxV = r at *
    obtain ⟨i, hi⟩ : ∃ i, i = k.maxV - s.nextRowOut := ⟨_, rfl⟩
    obtain ⟨out', e1⟩ := stale_discard hk hctx src i (s := { s with rowgroupCtr := s.rowgroupCtr + m, outScan := s.outScan + (rows - r) }) hf (by simp only; omega) (by omega) (by simp only; omega) (by simp only; omega) (by simp only; omega) (by
      intro j a1 a2
      simp only at a1
      obtain ⟨row, hrow, _⟩ := mapM_some (f := fun c => (s.cs c).colorRow j) (List.range k.n) (by
        intro c hc
        rw [hx.2.2.2.2.1, hcol c (List.mem_range.1 hc) j (by rw [← hx.1]; exact a1) a2]
        exact upRow_some hk _ (List.mem_range.1 hc) a2)
      exact ⟨row, hrow⟩)
    obtain ⟨l, hl1, hl2⟩ := lines_list hk (Src.plain src) (s.outScan + m * k.maxV + i)
    have hmod : s.outScan + (rows - r) + i = s.outScan + m * k.maxV + i := by omega
    simp only [hmod] at e1
    have h2 : Sim k src (Src.plain src) { b with nextRowOut := k.maxV, rowgroupCtr := s.rowgroupCtr + m + 1, outScan := s.outScan + m * k.maxV + i, rowsToGo := k.H - (s.outScan + m * k.maxV + i) } l (d + m * k.maxV) L
        { s with nextRowOut := k.maxV, rowgroupCtr := s.rowgroupCtr + m + 1, outScan := s.outScan + m * k.maxV + i, rowsToGo := s.rowsToGo - i, out := out' } := by
      refine ⟨h.out, ?_, ⟨⟨?_, ?_, ?_⟩, ?_, fun hc => by rw [hctx] at hc; simp at hc, fun _ => ?_⟩, h.agree, h.line⟩
      · have hgo : s.rowsToGo - i = k.H - (s.outScan + m * k.maxV + i) + (d + m * k.maxV) := by omega
        simp only [St.put, h.out, List.append_nil, ← hgo]
        simp only [hx.2.1, hx.2.2.1, hx.2.2.2.2.1, hx.2.2.2.2.2.1, hx.2.2.2.2.2.2.1, hx.2.2.2.2.2.2.2.1, hx.2.2.2.2.2.2.2.2.2]
      · simp only [St.put, h.out, List.append_nil, hl1]; exact hl2
      · simp only [St.put, h.out, List.append_nil, hl1]; omega
      · simp only [St.put, h.out, List.append_nil, hl1]; omega
      · simp only [St.put, h.out, List.append_nil, hl1]
      · refine .full K a b1 hm plain loaded ⟨Nat.le_refl _, ?_, fun h => by simp only [St.put] at h; omega⟩ (fun h0 => by simp only [St.put] at h0; omega)
        simp only [St.put, h.out, List.append_nil, hl1, if_true]
        rw [hpos, show (K * k.M + (s.rowgroupCtr + m + 1)) * k.maxV = (K * k.M + s.rowgroupCtr) * k.maxV + m * k.maxV + k.maxV by ring]
        omega
    obtain ⟨s3, b3, lv3, f1, f2, f3, f4, f5, f6⟩ := sim_discardN hk (r - i) h2 (by simp only; omega)
    refine ⟨{ s3 with out := s.out }, b3, lv3, _, ?_, f2.putOut _, by simp only at f3 ⊢; omega, ?_, f5, rfl⟩
    · unfold Cfg.incSimple Cfg.discard
      rw [hmm, hrr, show r = i + (r - i) by omega, discardN_add hk hctx src i (r - i)]
      rw [show i + (r - i) = r by omega, e1]
      simp only [Option.bind_some, Option.bind_eq_bind]
      rw [f1]
      rfl
    · intro hlt
      by_cases h0 : r - i = 0
      · rw [f6 h0]; exact hmv
      · exact f4 (by omega) hlt

/-- When jpeg_skip_scanlines may be called without context rows; `a` = the iMCU row of the current line has been read. -/
def skipOkSimple (k : Cfg R) (p : Nat) (a : Bool) (n : Nat) : Prop :=
  (a = true ∨ p % k.lpi = 0 ∨ n < k.linesLeft p) ∧ (p % k.maxV = 0 ∨ n < k.maxV ∨ k.maxV ≤ p % k.maxV + n % k.maxV ∨ k.linesLeft p ≤ n)

theorem skipSimple_ok (h : Sim k src (Src.plain src) b lv d L s) (hlined : 0 < s.nextRowOut) {a : Bool} (ha : a = true → s.outScan % k.lpi ≠ 0 → s.outScan < s.inRow * k.lpi) {n : Nat} (hn : 0 < n) (hlt : s.outScan + n < k.H) (hok : skipOkSimple k s.outScan a n) :
    ∃ s' b' lv' d', k.skipSimple src n s = some s' ∧ Sim k src (Src.plain src) b' lv' d' L s' ∧ s'.outScan = s.outScan + n ∧ (s'.outScan < k.H → 0 < s'.nextRowOut) ∧ s.inRow ≤ s'.inRow ∧ s'.out = s.out := by
  have hmv := hk.mv
  have hx := h.next
  have hsc := h.scan
  have hlp := lpi_pos hk
  obtain ⟨K, hpos, hq, hle, hcase⟩ := sphase_pos hk hctx (h.inv.simple hctx)
  simp only [St.put, h.out, List.append_nil] at hpos hq hle hcase
  rw [← hx.1, ← hx.2.2.2.1, ← hsc] at hpos
  rw [← hx.2.2.2.1] at hq
  rw [← hx.1] at hle
  rw [← hx.1, ← hx.2.1, ← hx.2.2.1, ← hx.2.2.2.1] at hcase
  -- position inside the iMCU row
  obtain ⟨j, hj⟩ : ∃ j, j = (if s.nextRowOut = k.maxV then 0 else s.nextRowOut) := ⟨_, rfl⟩
  have hjlt : j < k.maxV := by rw [hj]; split <;> omega
  rw [← hj] at hpos
  have hp : s.outScan = K * k.lpi + (s.rowgroupCtr * k.maxV + j) := by rw [hpos]; unfold Cfg.lpi; ring
  have hr : s.rowgroupCtr * k.maxV + j < k.lpi := group_lt hk hctx hq hjlt
  have hleft := linesLeft_eq hk hp hr
  have hmodl := mod_lpi hk hp hr
  have hmodv : s.outScan % k.maxV = j := by rw [hpos, Nat.mul_comm, Nat.mul_add_mod, Nat.mod_eq_of_lt hjlt]
  unfold Cfg.skipSimple
  simp only
  obtain ⟨ok1, ok2⟩ := hok
  rw [hmodv] at ok2
  by_cases hnl : n < k.linesLeft s.outScan
  · rw [if_pos hnl]
    have hr0 : s.rowgroupCtr * k.maxV + j ≠ 0 := by
      intro h0; rw [if_pos h0] at hleft; omega
    rw [if_neg hr0] at hleft
    have hdm : n / k.maxV * k.maxV + n % k.maxV = n := by rw [Nat.mul_comm]; exact Nat.div_add_mod _ _
    have hin : s.rowgroupCtr + n / k.maxV < k.M := by
      apply Nat.lt_of_mul_lt_mul_right (a := k.maxV)
      rw [Nat.add_mul]
      unfold Cfg.lpi at hleft hr
      omega
    by_cases haln : s.nextRowOut = k.maxV
    · obtain ⟨s', b', lv', d', e1, e2, e3, e4, e5, e6⟩ := inc_aligned hk hctx h haln hin (by omega)
      exact ⟨s', b', lv', d', e1, e2, e3, e4, e5, e6⟩
    · rw [if_neg haln] at hj
      have hfull : s.bufferFull = true := by
        rcases hcase with hc | hc
        · exact hc.1
        · exact absurd hc.2.2 haln
      by_cases hsmall : n < k.maxV
      · have e0 : n / k.maxV = 0 := Nat.div_eq_of_lt hsmall
        have e1 : n % k.maxV = n := Nat.mod_eq_of_lt hsmall
        unfold Cfg.incSimple
        rw [e0, e1]
        simp only [Nat.add_zero, Nat.sub_self]
        obtain ⟨s', b', lv', f1, f2, f3, f4, f5, f6, _⟩ := sim_discard hk n h (by omega)
        exact ⟨s', b', lv', d, f1, f2, f3, f4 hn, f5, f6⟩
      · have hst : k.maxV ≤ s.nextRowOut + n % k.maxV := by
          rcases ok2 with ok2 | ok2 | ok2 | ok2 <;> omega
        refine inc_stale hk hctx h hfull (by omega) ?_ hst (by omega)
        apply Nat.lt_of_mul_lt_mul_right (a := k.maxV)
        rw [Nat.add_mul, Nat.add_mul, Nat.one_mul]
        unfold Cfg.lpi at hleft hr
        omega
  · rw [if_neg hnl]
    generalize hlf : k.linesLeft s.outScan = left at *
    -- the controller goes on with a whole iMCU row
    have hnext : s.outScan + left = s.inRow * k.lpi := by
      rcases hcase with ⟨hc1, hc2, hc3⟩ | ⟨hc1, hc2, hc3⟩
      · have : s.rowgroupCtr * k.maxV + j ≠ 0 := by
          intro h0
          have hq0 : s.rowgroupCtr = 0 := by
            rcases Nat.eq_zero_or_pos s.rowgroupCtr with h | h
            · exact h
            · have := Nat.mul_pos h hmv; omega
          have := hc3 hq0
          rw [if_neg (by omega)] at hj
          omega
        rw [if_neg this] at hleft
        rw [hc2, Nat.succ_mul, hp]; omega
      · have hz : s.rowgroupCtr * k.maxV + j = 0 := by
          by_contra hne
          rcases ok1 with ok1 | ok1 | ok1
          · have := ha ok1 (by rw [hmodl.1]; exact hne)
            rw [hc2] at this; omega
          · rw [hmodl.1] at ok1; exact hne ok1
          · exact hnl ok1
        rw [if_pos hz] at hleft
        rw [hc2, hp, hleft, hz]; rfl
    generalize hq' : (n - left) / k.lpi = q' at *
    have hdiv : q' * k.lpi + (n - left) % k.lpi = n - left := by rw [← hq', Nat.mul_comm]; exact Nat.div_add_mod _ _
    have hmlt : (n - left) % k.lpi < k.lpi := Nat.mod_lt _ hlp
    have hK' : s.inRow + q' < k.total := by
      rw [lt_total_iff hk, Nat.add_mul]; omega
    obtain ⟨l, hl1, hl2⟩ := lines_list hk (Src.plain src) ((s.inRow + q') * k.lpi)
    have hskip : k.skipRows q' (k.skipReset { s with outScan := s.outScan + left }) = some { s with bufferFull := false, rowgroupCtr := 0, nextRowOut := k.maxV, rowsToGo := k.H - (s.outScan + left), inRow := s.inRow + q', outScan := (s.inRow + q') * k.lpi } := by
      unfold Cfg.skipRows Cfg.skipReset
      simp only
      rw [if_pos (by omega), if_neg (by rw [hctx]; simp), if_neg (by rw [hctx]; simp), Nat.add_mul, hnext]
    rw [hskip]
    simp only [Option.bind_eq_bind, Option.bind_some]
    have h1 : Sim k src (Src.plain src) { s with bufferFull := false, rowgroupCtr := 0, nextRowOut := k.maxV, rowsToGo := k.H - (s.inRow + q') * k.lpi, inRow := s.inRow + q', outScan := (s.inRow + q') * k.lpi, out := [] } l (q' * k.lpi) L
        { s with bufferFull := false, rowgroupCtr := 0, nextRowOut := k.maxV, rowsToGo := k.H - (s.outScan + left), inRow := s.inRow + q', outScan := (s.inRow + q') * k.lpi } := by
      have hH := (lt_total_iff hk).1 hK'
      refine ⟨rfl, ?_, ⟨⟨?_, ?_, ?_⟩, ?_, fun hc => by rw [hctx] at hc; simp at hc, fun _ => ?_⟩, fun c r hc _ => rfl, h.line⟩
      · have hgo : k.H - (s.outScan + left) = k.H - (s.inRow + q') * k.lpi + q' * k.lpi := by
          rw [Nat.add_mul] at hH ⊢; omega
        simp only [St.put, List.append_nil, ← hgo]
      · simp only [St.put, List.append_nil, hl1]; exact hl2
      · simp only [St.put, List.append_nil, hl1]; omega
      · simp only [St.put, List.append_nil, hl1]; omega
      · simp only [St.put, List.append_nil, hl1]
      · refine .empty rfl hk.m ?_ ⟨Nat.le_refl _, ?_, fun h => by simp only [St.put] at h; omega⟩ rfl
        · intro c hc
          show Plain k (s.cs c) c
          rw [hx.2.2.2.2.1]
          cases h.inv.simple hctx with
          | full _ _ _ _ plain _ _ _ => exact plain c hc
          | empty _ _ plain _ _ => exact plain c hc
        · simp only [St.put, List.append_nil, hl1, if_true, Nat.add_zero]
          unfold Cfg.lpi
          ring
    have hrest : n - left - q' * k.lpi = (n - left) % k.lpi := by omega
    rw [hrest]
    obtain ⟨s', b', lv', d', e1, e2, e3, e4, e5, e6⟩ := inc_aligned hk hctx h1 rfl (rows := (n - left) % k.lpi) (by
      simp only [Nat.zero_add]
      rw [Nat.div_lt_iff_lt_mul hmv]
      exact hmlt) (by simp only; rw [Nat.add_mul]; omega)
    refine ⟨k.skipEnd s', b', lv', 0, by rw [e1]; rfl, e2.settle, ?_, e4, ?_, e6⟩
    · show s'.outScan = _
      rw [e3]; simp only; rw [Nat.add_mul]; omega
    · have : s.inRow + q' ≤ s'.inRow := e5
      show s.inRow ≤ s'.inRow
      omega

end
end Verif.Post
