import Verif.Post.SkipSimple
import Verif.Post.SkipCtx
/-
C46: jpeg_skip_scanlines skips: in any sequence of jpeg_read_scanlines and jpeg_skip_scanlines calls, every line read is the line of the image with the number output_scanline had - except in the situations listed at the end, where the
code does not do what its documentation says.
-/
namespace Verif.Post
variable {R : Type}

/-- When the application may call jpeg_read_scanlines: a buffer for at least one line; if lines may have been skipped, no context rows are used and the last row group is incomplete, no more lines than are left. -/
def ReadOk (k : Cfg R) (p max : Nat) : Prop := 1 ≤ max ∧ (k.context = true ∨ k.maxV ∣ k.H ∨ p + max ≤ k.H)

/-- When the application may call jpeg_skip_scanlines at line `p` for `n` lines; `a` = a line of the current iMCU row has been read. -/
def SkipOk (k : Cfg R) (p : Nat) (a : Bool) (n : Nat) : Prop :=
  k.H ≤ p + n ∨ (if k.context then k.maxV ≤ 2 ∨ n ≤ k.linesLeft p ∨ k.linesLeft p ≤ 1 ∨ k.maxV ≤ k.linesLeft p
    else (a = true ∨ p % k.lpi = 0 ∨ n < k.linesLeft p) ∧ (p % k.maxV = 0 ∨ n < k.maxV ∨ k.maxV ≤ p % k.maxV + n % k.maxV ∨ k.linesLeft p ≤ n))

/-- A line of the current iMCU row has still been read after skipping `n` lines from line `p`. -/
def stillRead (k : Cfg R) (p : Nat) (a : Bool) (n : Nat) : Bool := a && (n == 0 || (p % k.lpi != 0 && (p + n) / k.lpi == p / k.lpi))

/-- The states an application can reach, with the bit `a` of `SkipOk`. -/
inductive Reach (k : Cfg R) (src mem0 : Nat → Nat → R) : Bool → St R → Prop where
  | start {s : St R} (h : k.start mem0 = some s) : Reach k src mem0 false s
  | read {a : Bool} {s s' : St R} {max o : Nat} {ok : Bool} (h : Reach k src mem0 a s) (hok : ReadOk k s.outScan max) (h' : k.read src max ok s = some (o, s')) : Reach k src mem0 (a || decide (0 < o)) s'
  | skip {a : Bool} {s s' : St R} {n o : Nat} (h : Reach k src mem0 a s) (hok : SkipOk k s.outScan a n) (h' : k.skip src n s = some (o, s')) : Reach k src mem0 (stillRead k s.outScan a n) s'

/-- What the master control guarantees about a path with context rows: the methods, and that something is upsampled vertically. -/
structure Cfg.CtxOk (k : Cfg R) : Prop where
  local_ : k.Local
  two : k.context = true → 2 ≤ k.maxV

/-- Invariant. -/
def VInv (k : Cfg R) (src : Nat → Nat → R) (a : Bool) (s : St R) : Prop :=
  s.outScan = k.H ∨ ∃ src' b lv d L, Sim k src src' b lv d L s ∧ L ≤ s.outScan ∧ (s.outScan < k.H → 0 < s.nextRowOut) ∧ (k.context = true → d = 0) ∧ (k.context = false → src' = Src.plain src) ∧
    (k.context = false → a = true → s.outScan % k.lpi ≠ 0 → s.outScan < s.inRow * k.lpi)

theorem upsample_full {k : Cfg R} {w ctr o max : Nat} {s : St R} {x : Nat × Nat × St R} (h : k.upsample w ctr o max s = some x) : x.2.2.bufferFull = s.bufferFull := by
  unfold Cfg.upsample at h
  simp only [Option.bind_eq_bind, Option.bind_eq_some_iff, Option.pure_def, Option.some.injEq] at h
  obtain ⟨s1, h1, rows, _, rfl⟩ := h
  unfold Cfg.fillColor at h1
  split at h1
  · simp only [Option.bind_eq_bind, Option.bind_eq_some_iff, Option.pure_def, Option.some.injEq] at h1
    obtain ⟨_, _, rfl⟩ := h1
    rfl
  · cases h1; rfl

theorem simpleFull_full {k : Cfg R} {max : Nat} {s : St R} {x : Nat × St R} (h : k.simpleFull max s = some x) (hs : s.bufferFull = true) : x.2.bufferFull = true ∨ x.2.rowgroupCtr = 0 := by
  unfold Cfg.simpleFull at h
  simp only [Option.bind_eq_bind, Option.bind_eq_some_iff] at h
  obtain ⟨y, h1, h2⟩ := h
  have := upsample_full h1
  split at h2
  · cases h2; exact Or.inr rfl
  · cases h2; left; simp only; rw [this]; exact hs

theorem read_armed {k : Cfg R} (hctx : k.context = false) {src : Nat → Nat → R} {max o : Nat} {ok : Bool} {s s' : St R} (h : k.read src max ok s = some (o, s')) (ho : 0 < o) : s'.bufferFull = true ∨ s'.rowgroupCtr = 0 := by
  unfold Cfg.read at h
  split at h
  · cases h; omega
  · simp only [Option.bind_eq_bind, Option.bind_eq_some_iff] at h
    obtain ⟨y, h1, h2⟩ := h
    cases h2
    simp only
    unfold Cfg.process at h1
    rw [if_neg (by rw [hctx]; simp)] at h1
    unfold Cfg.simpleMain at h1
    split at h1
    · rename_i hf
      exact simpleFull_full h1 hf
    · split at h1
      · simp only [Option.bind_eq_bind, Option.bind_eq_some_iff] at h1
        obtain ⟨z, h3, h4⟩ := h1
        refine simpleFull_full h4 ?_
        unfold Cfg.load at h3
        split at h3
        · simp only [Option.bind_eq_bind, Option.bind_eq_some_iff, Option.pure_def, Option.some.injEq] at h3
          obtain ⟨_, _, rfl⟩ := h3
          rfl
        · cases h3
      · cases h1; simp at ho

section
variable {k : Cfg R} (hk : k.Ok) (hx : k.CtxOk) {src : Nat → Nat → R}
include hk

theorem VInv.le {a : Bool} {s : St R} (h : VInv k src a s) : s.outScan ≤ k.H := by
  rcases h with h | ⟨_, _, _, _, _, h, _⟩
  · omega
  · exact h.le

theorem read_vinv {a : Bool} {s : St R} (h : VInv k src a s) {max : Nat} (ok : Bool) (hok : ReadOk k s.outScan max) :
    ∃ o s' rows, k.read src max ok s = some (o, s') ∧ VInv k src (a || decide (0 < o)) s' ∧ s'.outScan = s.outScan + o ∧ o ≤ max ∧ (ok = true → s.outScan < k.H → 0 < o) ∧
      s'.out = s.out ++ rows ∧ rows.map some = (List.range o).map (fun i => k.scanline (Src.plain src) (s.outScan + i)) := by
  rcases h with h | ⟨src', b, lv, d, L, h, hL, hlin, hd, hsrc, ha⟩
  · have : k.read src max ok s = some (0, s) := by unfold Cfg.read; rw [if_pos (by omega)]
    exact ⟨0, s, [], this, Or.inl h, rfl, Nat.zero_le _, fun _ h => by omega, by simp, rfl⟩
  · have hmv := hk.mv
    have hcond : s.outScan < k.H → d = 0 ∨ max ≤ k.H - s.outScan ∨ (k.context = false ∧ min (k.maxV - (if s.nextRowOut ≥ k.maxV then 0 else s.nextRowOut)) max ≤ k.H - s.outScan) := by
      intro hlt
      rcases hok.2 with hc | hc | hc
      · exact Or.inl (hd hc)
      · by_cases hctx : k.context = true
        · exact Or.inl (hd hctx)
        · have hctx' : k.context = false := by simpa using hctx
          refine Or.inr (Or.inr ⟨hctx', ?_⟩)
          obtain ⟨K, hpos, _, hle, _⟩ := sphase_pos hk hctx' (h.inv.simple hctx')
          have hn := h.next
          simp only [St.put, h.out, List.append_nil] at hpos hle
          rw [← hn.1, ← h.scan] at hpos
          rw [← hn.1] at hle
          obtain ⟨e, he⟩ := hc
          generalize K * k.M + b.rowgroupCtr = G at hpos
          have hGe : G < e := by
            apply Nat.lt_of_mul_lt_mul_right (a := k.maxV)
            rw [Nat.mul_comm e]
            omega
          have : (G + 1) * k.maxV ≤ e * k.maxV := Nat.mul_le_mul_right _ hGe
          rw [Nat.succ_mul, Nat.mul_comm e] at this
          split
          · rename_i hge
            rw [if_pos (by omega)] at hpos
            omega
          · rename_i hge
            rw [if_neg (by omega)] at hpos
            omega
      · exact Or.inr (Or.inl (by omega))
    obtain ⟨o, s', b', lv', rows, e1, e2, e3, e4, e5, e6, e7, e8, e9⟩ := sim_read hk h max ok hcond
    refine ⟨o, s', rows, e1, Or.inr ⟨src', b', lv', d, L, e2, by omega, e6 hok.1, hd, hsrc, ?_⟩, e3, e4, fun a b => e5 a hok.1 b, e7, e8 hL⟩
    intro hctx hao hmod
    by_cases ho : 0 < o
    · obtain ⟨K, hpos, hq, hle, hcase⟩ := sphase_pos hk hctx (e2.inv.simple hctx)
      have hn := e2.next
      simp only [St.put, e2.out, List.append_nil] at hpos hq hle hcase
      rw [← hn.1, ← hn.2.2.2.1, ← e2.scan] at hpos
      rw [← hn.2.2.2.1] at hq
      rw [← hn.1] at hle
      rw [← hn.1, ← hn.2.1, ← hn.2.2.1, ← hn.2.2.2.1] at hcase
      rcases hcase with ⟨_, hc2, _⟩ | ⟨hc1, hc2, hc3⟩
      · rw [hc2, hpos]
        have : (s'.rowgroupCtr + 1) * k.maxV ≤ k.M * k.maxV := Nat.mul_le_mul_right _ hq
        rw [Nat.succ_mul] at this
        have e : (K + 1) * k.lpi = K * k.M * k.maxV + k.M * k.maxV := by unfold Cfg.lpi; ring
        rw [e, Nat.add_mul]
        split <;> omega
      · rcases read_armed hctx e1 ho with h1 | h1
        · rw [hc1] at h1; simp at h1
        · exfalso
          apply hmod
          rw [hpos, h1, if_pos hc3, Nat.add_zero, Nat.add_zero, Nat.mul_assoc]
          exact Nat.mul_mod_left _ _
    · have ho0 : o = 0 := by omega
      have haa : a = true := by simpa [ho0] using hao
      rw [ho0, Nat.add_zero] at e3
      rw [e3] at hmod ⊢
      have := ha hctx haa hmod
      have := Nat.mul_le_mul_right k.lpi e9
      omega

include hx

theorem skip_vinv {a : Bool} {s : St R} (h : VInv k src a s) {n : Nat} (hok : SkipOk k s.outScan a n) :
    ∃ s', k.skip src n s = some (min n (k.H - s.outScan), s') ∧ VInv k src (stillRead k s.outScan a n) s' ∧ s'.outScan = s.outScan + min n (k.H - s.outScan) ∧ s'.out = s.out := by
  have hle := h.le hk
  unfold Cfg.skip
  by_cases hend : s.outScan + n ≥ k.H
  · rw [if_pos hend]
    refine ⟨{ s with outScan := k.H }, ?_, Or.inl rfl, ?_, rfl⟩
    · rw [show min n (k.H - s.outScan) = k.H - s.outScan by omega]
    · simp only; omega
  · rw [if_neg hend]
    have hmin : min n (k.H - s.outScan) = n := by omega
    rw [hmin]
    by_cases hn0 : n = 0
    · rw [if_pos hn0]
      subst hn0
      refine ⟨s, rfl, ?_, rfl, rfl⟩
      have : stillRead k s.outScan a 0 = a := by simp [stillRead]
      rw [this]; exact h
    · rw [if_neg hn0]
      rcases h with h | ⟨src', b, lv, d, L, h, hL, hlin, hd, hsrc, ha⟩
      · omega
      · have hlined := hlin (by omega)
        rcases hok with hok | hok
        · omega
        · by_cases hctx : k.context = true
          · rw [if_pos hctx] at hok
            rw [if_pos hctx]
            have hd0 := hd hctx
            subst hd0
            obtain ⟨s', src'', b', lv', L', e1, e2, e3, e4, e5, e6⟩ := skipCtx_ok hk hctx hx.local_ (hx.two hctx) h hL hlined (by omega) (by omega) hok
            exact ⟨s', by rw [e1]; rfl, Or.inr ⟨src'', b', lv', 0, L', e2, e3, e5, fun _ => rfl, fun hc => by rw [hctx] at hc; simp at hc, fun hc => by rw [hctx] at hc; simp at hc⟩, e4, e6⟩
          · have hctx' : k.context = false := by simpa using hctx
            rw [if_neg hctx] at hok
            rw [if_neg hctx]
            have hs := hsrc hctx'
            subst hs
            obtain ⟨s', b', lv', d', e1, e2, e3, e4, e5, e6⟩ := skipSimple_ok hk hctx' h hlined (ha hctx') (by omega) (by omega) hok
            refine ⟨s', by rw [e1]; rfl, Or.inr ⟨_, b', lv', d', L, e2, by omega, e4, fun hc => absurd hc hctx, fun _ => rfl, ?_⟩, e3, e6⟩
            intro _ hst _
            simp only [stillRead, Bool.and_eq_true, Bool.or_eq_true, beq_iff_eq, bne_iff_ne] at hst
            obtain ⟨h1, h2 | ⟨h2, h3⟩⟩ := hst
            · omega
            · have h4 := ha hctx' h1 h2
              have hlp := lpi_pos hk
              have h5 : s.outScan / k.lpi < s.inRow := by rw [Nat.div_lt_iff_lt_mul hlp]; exact h4
              rw [← h3, Nat.div_lt_iff_lt_mul hlp] at h5
              rw [e3]
              exact Nat.lt_of_lt_of_le h5 (Nat.mul_le_mul_right _ e5)

theorem reach_vinv {mem0 : Nat → Nat → R} {a : Bool} {s : St R} (h : Reach k src mem0 a s) : VInv k src a s := by
  induction h with
  | start h =>
    obtain ⟨s0, e1, e2, e3⟩ := start_inv hk (Src.plain src) (fun _ => rfl) mem0
    rw [h] at e1
    have := Option.some.inj e1
    subst this
    rename_i s
    have hs : s.outScan = 0 := by rw [e3.scan, e2]; rfl
    have hn : s.nextRowOut = k.maxV := by
      unfold Cfg.start at h
      split at h
      · simp only [Option.bind_eq_bind, Option.bind_eq_some_iff] at h
        obtain ⟨_, _, h⟩ := h
        cases h; rfl
      · cases h; rfl
    refine Or.inr ⟨Src.plain src, s, [], 0, 0, ⟨e2, ?_, ?_, fun _ _ _ _ => rfl, fun _ _ => rfl⟩, Nat.zero_le _, fun _ => by rw [hn]; exact hk.mv, fun _ => rfl, fun _ => rfl, fun _ h => by simp at h⟩
    · have hoo : s.out ++ s.out = s.out := by rw [e2]; rfl
      simp only [St.put, hoo, Nat.add_zero]
    · have : s.put [] 0 = s := by simp only [St.put, List.nil_append, Nat.add_zero]
      rw [this]; exact e3
  | read h hok h' ih =>
    obtain ⟨o, s', rows, e1, e2, _⟩ := read_vinv hk ih _ hok
    rw [h'] at e1
    cases e1
    exact e2
  | skip h hok h' ih =>
    obtain ⟨s', e1, e2, _⟩ := skip_vinv hk hx ih hok
    rw [h'] at e1
    cases e1
    exact e2

/-- **C46.** Reading after any mixture of reads and skips: the lines delivered are those of the image, from line output_scanline on; at least one unless the source suspends or the image is finished; output_scanline counts them and never passes output_height. -/
theorem C46_read {mem0 : Nat → Nat → R} {a : Bool} {s : St R} (h : Reach k src mem0 a s) {max : Nat} (ok : Bool) (hok : ReadOk k s.outScan max) :
    ∃ o s' rows, k.read src max ok s = some (o, s') ∧ s'.outScan = s.outScan + o ∧ s'.outScan ≤ k.H ∧ o ≤ max ∧ (ok = true → s.outScan < k.H → 0 < o) ∧
      s'.out = s.out ++ rows ∧ rows.map some = (List.range o).map (fun i => k.scanline (Src.plain src) (s.outScan + i)) := by
  obtain ⟨o, s', rows, e1, e2, e3, e4, e5, e6, e7⟩ := read_vinv hk (reach_vinv hk hx h) ok hok
  exact ⟨o, s', rows, e1, e3, e2.le hk, e4, e5, e6, e7⟩

/-- **C46.** Skipping succeeds, returns the number of lines asked for, or what is left of the image if that is less, moves output_scanline by it and delivers nothing. -/
theorem C46_skip {mem0 : Nat → Nat → R} {a : Bool} {s : St R} (h : Reach k src mem0 a s) {n : Nat} (hok : SkipOk k s.outScan a n) :
    ∃ s', k.skip src n s = some (min n (k.H - s.outScan), s') ∧ s'.outScan = s.outScan + min n (k.H - s.outScan) ∧ s'.out = s.out := by
  obtain ⟨s', e1, _, e3, e4⟩ := skip_vinv hk hx (reach_vinv hk hx h) hok
  exact ⟨s', e1, e3, e4⟩

/-- **C46.** With context rows and two lines per row group (4:2:0 and 4:4:0 with fancy upsampling) nothing else is required: every mixture of reads of at least one line and skips of any number of lines is fine. -/
theorem C46_fancy (hctx : k.context = true) (h2 : k.maxV = 2) (p : Nat) (a : Bool) (n max : Nat) (hmax : 1 ≤ max) : SkipOk k p a n ∧ ReadOk k p max := by
  refine ⟨Or.inr ?_, hmax, Or.inl hctx⟩
  rw [if_pos hctx]
  exact Or.inl (by omega)

/-- **C46.** Without upsampling in the vertical direction (4:4:4, 4:2:2, grey) the only requirement is that a skip does not leave an iMCU row in which only skips took place. -/
theorem C46_no_vertical (hctx : k.context = false) (h1 : k.maxV = 1) (p : Nat) (a : Bool) (n max : Nat) (hmax : 1 ≤ max) (hn : a = true ∨ p % k.lpi = 0 ∨ p + n < (p / k.lpi + 1) * k.lpi) : SkipOk k p a n ∧ ReadOk k p max := by
  refine ⟨Or.inr ?_, hmax, Or.inr (Or.inl (by rw [h1]; exact one_dvd _))⟩
  rw [if_neg (by rw [hctx]; simp), h1, Nat.mod_one]
  refine ⟨?_, Or.inl rfl⟩
  by_cases hp : p % k.lpi = 0
  · exact Or.inr (Or.inl hp)
  · rcases hn with h | h | h
    · exact Or.inl h
    · exact Or.inr (Or.inl h)
    · right; right
      have hlp := lpi_pos hk
      have hdm : p = p / k.lpi * k.lpi + p % k.lpi := by rw [Nat.mul_comm]; exact (Nat.div_add_mod _ _).symm
      rw [linesLeft_eq hk hdm (Nat.mod_lt _ hlp), if_neg hp]
      rw [Nat.succ_mul] at h
      omega

end

/-! ### Concrete cases -/

/-- 4:2:0 with fancy upsampling, 48 lines. -/
def exFancy : Cfg Nat := { exCtx with ih := 48 }

theorem exFancy_ok : exFancy.Ok where
  ih := by decide
  mv := by decide
  d := by decide
  m := by decide
  n := by decide
  ctx := fun _ => by decide
  g := by decide
  full := by decide
  method := by decide
  up := by
    intro c hc hf l
    rcases (show c = 0 ∨ c = 1 by have : exFancy.n = 2 := rfl; omega) with rfl | rfl
    · exact absurd hf (by decide)
    · rfl

theorem exFancy_ctx : exFancy.CtxOk where
  local_ := by
    intro c hc hf _ a a' l
    rcases (show c = 0 ∨ c = 1 by have : exFancy.n = 2 := rfl; omega) with rfl | rfl
    · exact absurd hf (by decide)
    · rfl
  two := fun _ => by decide

theorem exSimple_ctx : exSimple.CtxOk where
  local_ := by
    intro c hc hf h
    rcases (show c = 0 ∨ c = 1 by have : exSimple.n = 2 := rfl; omega) with rfl | rfl <;> exact absurd h (by decide)
  two := by decide

/-- The rows used below. -/
def exRows (c r : Nat) : Nat := 1 + r + 1000 * c

/-- What an application has received, with output_scanline. -/
def got (k : Cfg Nat) (l : List Call) : Option (Nat × List (List Nat)) := (k.start (fun _ _ => 999) >>= k.calls exRows l).map (fun s => (s.outScan, s.out))

-- reading 3 lines, skipping 25, reading 1, skipping 7, reading 2: lines 0, 1, 2, 28, 36, 37
example : (got exFancy [.read 1 true, .read 1 true, .read 1 true, .skip 25, .read 1 true, .skip 7, .read 1 true, .read 1 true]).map (fun x => (x.1, x.2.map some)) =
    some (38, [0, 1, 2, 28, 36, 37].map (exFancy.scanline (.plain exRows))) := by decide +kernel
example (p : Nat) : SkipOk exFancy p true 25 ∧ ReadOk exFancy p 1 := C46_fancy exFancy_ok exFancy_ctx rfl rfl p true 25 1 (Nat.le_refl _)
-- without context rows: line 0, then 5 lines skipped, line 6
example : (got exSimple [.read 1 true, .skip 5, .read 1 true]).map (fun x => (x.1, x.2.map some)) = some (7, [0, 6].map (exSimple.scanline (.plain exRows))) := by decide +kernel
example : SkipOk exSimple 1 true 5 ∧ ReadOk exSimple 1 1 := by
  refine ⟨Or.inr ?_, by decide, by decide⟩
  rw [if_neg (by decide)]
  exact ⟨Or.inl rfl, Or.inr (Or.inr (Or.inl (by decide)))⟩

/-! ### What happens outside `SkipOk` and `ReadOk` -/

/-- A grey image of 48 lines. -/
def exGrey : Cfg Nat := { ih := 48, maxV := 1, M := 8, D := 8, context := false, n := 1, comp := fun _ => ⟨1, 8, true, false, id⟩ }
/-- 4:2:0 without fancy upsampling, 48 lines; and 47 lines. -/
def exBox : Cfg Nat := { ih := 48, maxV := 2, M := 8, D := 8, context := false, n := 2, comp := fun c => if c = 0 then ⟨2, 8, true, false, id⟩ else ⟨1, 8, false, false, fun l => [l.getD 0 0, l.getD 0 0]⟩ }
/-- Vertical sampling factors 4 and 2 with fancy upsampling, 128 lines. -/
def exFour : Cfg Nat := { ih := 128, maxV := 4, M := 8, D := 8, context := true, n := 2, comp := fun c => if c = 0 then ⟨4, 8, true, false, id⟩ else ⟨2, 8, false, true, fun l => [l.getD 1 0, l.getD 1 0, l.getD 2 0, l.getD 2 0]⟩ }

/-- Two skips in a row, the second one leaving an iMCU row nothing was read from: an iMCU row is lost count of - the line delivered as line 13 is line 5. -/
theorem C46_bug_two_skips : got exGrey [.skip 3, .skip 10, .read 1 true] = some (14, [[exRows 0 5]]) ∧ got exGrey [.skip 13, .read 1 true] = some (14, [[exRows 0 13]]) := by decide +kernel
/-- A skip in the middle of a row group that ends before the end of the iMCU row: the line delivered as line 3 is line 1. -/
theorem C46_bug_stale_line : got exBox [.read 1 true, .skip 2, .read 1 true] = some (4, [[exRows 0 0, exRows 1 0], [exRows 0 1, exRows 1 0]]) := by decide +kernel
/-- A skip that ends in the current iMCU row leaves the upsampler's count of rows to go too high: with 47 lines, a line 47 is delivered and output_scanline becomes 48. -/
theorem C46_bug_too_many : (got { exBox with ih := 47 } ([.skip 32, .read 1 true, .read 1 true, .skip 12] ++ [.read 2 true])).map (·.1) = some 48 ∧ ({ exBox with ih := 47 } : Cfg Nat).H = 47 := by decide +kernel
/-- Four lines per row group: if the skip begins two or three lines before the end of the iMCU row, an iMCU row is lost - the line delivered as line 70 is line 102. -/
theorem C46_bug_four : (got exFour (List.replicate 29 (.read 1 true) ++ [.skip 41, .read 1 true])).map (fun x => (x.1, x.2.getLastD [])) = some (71, [exRows 0 102, exRows 1 51]) := by decide +kernel
/-- jpeg_read_scanlines with room for no line, then a skip: an iMCU row is lost - the line delivered as line 10 is line 18. -/
theorem C46_bug_empty_read : got exGrey [.read 0 true, .skip 10, .read 1 true] = some (11, [[exRows 0 18]]) := by decide +kernel

end Verif.Post
