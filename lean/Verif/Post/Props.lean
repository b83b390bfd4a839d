import Verif.Post.Context
import Verif.Post.Simple
/-
C44: every sequence of jpeg_read_scanlines calls delivers the scanlines of the image, in order, each exactly once, whatever the sizes of the application's buffers and wherever the data source suspends.
-/
namespace Verif.Post
variable {R : Type}

/-- Invariant of the whole path. -/
structure Inv (k : Cfg R) (src : Src R) (s : St R) : Prop where
  common : Common k src s
  scan : s.outScan = s.out.length
  ctx : k.context = true → Phase k src s
  simple : k.context = false → SPhase k src s

theorem Ups.scan {k : Cfg R} {src : Src R} {G : Nat} {s : St R} (h : Ups k src G s) (n : Nat) : Ups k src G { s with outScan := n } := h.congr rfl rfl (Or.inr rfl)

theorem SPhase.scan {k : Cfg R} {src : Src R} {s : St R} (h : SPhase k src s) (n : Nat) : SPhase k src { s with outScan := n } := by
  cases h with
  | full K a b c d e f g => exact .full K a b c d e (f.scan n) g
  | empty a b c d e => exact .empty a b c (d.scan n) e

theorem Ready.scan {k : Cfg R} {src : Src R} {K : Nat} {s : St R} (h : Ready k src K s) (n : Nat) : Ready k src K { s with outScan := n } :=
  ⟨h.full, h.ctr, h.inRow, h.lt, h.which, h.above, h.held⟩

theorem Phase.scan {k : Cfg R} {src : Src R} {s : St R} (h : Phase k src s) (n : Nat) : Phase k src { s with outScan := n } := by
  cases h with
  | start h => exact .start ⟨h.full, h.ctr, h.inRow, h.which, h.top, h.first, h.state, h.ups.scan n, h.next⟩
  | empty K h => exact .empty K ⟨h.full, h.ctr, h.inRow, h.pos, h.lt, h.which, h.norm, h.held, h.state, h.avail, h.q, h.ups.scan n, h.next⟩
  | fresh K h => exact .fresh K ⟨h.full, h.ctr, h.inRow, h.lt, h.which, h.norm, h.above, h.state, h.ups.scan n, h.next⟩
  | postp K h nx => exact .postp K ⟨h.toReady.scan n, h.pos, h.norm, h.prev, h.state, h.avail, h.q, h.ups.scan n⟩ nx
  | ready K h p n' a b c => exact .ready K (h.scan n) p n' a (b.scan n) c
  | proc K h nx => exact .proc K ⟨h.full, h.ctr, h.inRow, h.lt, h.which, h.state, h.avail, h.q, h.ups.scan n, h.view, h.any, h.more⟩ nx
  | done h => exact .done h

theorem common_blank {k : Cfg R} (src : Src R) {s : St R} (h1 : s.out = []) (h2 : s.rowsToGo = k.H) : Common k src s where
  out := by rw [h1]; rfl
  le := by rw [h1]; exact Nat.zero_le _
  togo := by rw [h1, h2]; rfl

theorem ups_blank {k : Cfg R} (src : Src R) {s : St R} (h1 : s.out = []) (h2 : s.nextRowOut = k.maxV) : Ups k src 0 s where
  le := by omega
  pos := by rw [h1, if_pos h2]; simp
  color := fun h => by omega

theorem start_inv {k : Cfg R} (hk : k.Ok) (src : Src R) (htop : ∀ c, src.top c = src c 0) (mem0 : Nat → Nat → R) : ∃ s, k.start mem0 = some s ∧ s.out = [] ∧ Inv k src s := by
  unfold Cfg.start
  by_cases hc : k.context = true
  · rw [if_pos hc]
    obtain ⟨cs, e1, e2⟩ := forC_spec (k := k) (f := k.makeFunny) (fun c y => Top (k.g c) (k.g c * k.M) y) (k.blank mem0).cs (fun c h => by
      obtain ⟨y, f1, _, _, f4⟩ := makeFunny_ok hk hc h ((k.blank mem0).cs c)
      exact ⟨y, f1, f4⟩)
    rw [e1]
    refine ⟨{ k.blank mem0 with cs }, rfl, rfl, common_blank src rfl rfl, rfl, fun _ => .start { full := rfl, ctr := rfl, inRow := rfl, which := rfl, top := e2, first := fun c _ => htop c, state := rfl, ups := ups_blank src rfl rfl, next := rfl }, fun h => by rw [hc] at h; simp at h⟩
  · rw [if_neg hc]
    refine ⟨k.blank mem0, rfl, rfl, common_blank src rfl rfl, rfl, fun h => absurd h hc, fun _ => .empty rfl hk.m (fun c _ i => rfl) ?_ rfl⟩
    rw [show (k.blank mem0).inRow * k.M + (k.blank mem0).rowgroupCtr = 0 by show 0 * k.M + 0 = 0; simp]
    exact ups_blank src rfl rfl

theorem read_inv {k : Cfg R} (hk : k.Ok) {src : Src R} {s : St R} (h : Inv k src s) (max : Nat) (ok : Bool) :
    ∃ o s', k.read src max ok s = some (o, s') ∧ Inv k src s' ∧ s'.outScan = s.outScan + o ∧ o ≤ max ∧ (ok = true → 0 < max → s.outScan < k.H → 0 < o) ∧ (0 < max → s'.outScan < k.H → 0 < s'.nextRowOut) := by
  unfold Cfg.read
  by_cases hge : s.outScan ≥ k.H
  · rw [if_pos hge]
    exact ⟨0, s, rfl, h, rfl, Nat.zero_le _, fun _ _ h => by omega, fun _ h => by omega⟩
  · rw [if_neg hge]
    have hlt : s.out.length < k.H := by rw [← h.scan]; omega
    unfold Cfg.process
    by_cases hc : k.context = true
    · rw [if_pos hc]
      obtain ⟨o, s', e1, e2, e3, e4, e5, e6, e7, e8⟩ := contextMain_ok hk hc (max := max) (ok := ok) (h.ctx hc) h.common hlt
      rw [e1]
      refine ⟨o, { s' with outScan := s'.outScan + o }, rfl, ⟨e2.congr rfl rfl, ?_, fun _ => e3.scan _, fun h => by rw [hc] at h; simp at h⟩, ?_, e5, fun a b _ => e6 a b, fun a b => e8 a (by simp only at b; rw [e4, ← h.scan]; rw [e7] at b; exact b)⟩
      · simp only; rw [e7, h.scan, e4]
      · simp only; rw [e7]
    · rw [if_neg hc]
      have hc' : k.context = false := by simpa using hc
      obtain ⟨o, s', e1, e2, e3, e4, e5, e6, e7, e8⟩ := simpleMain_ok hk hc' (max := max) (ok := ok) (h.simple hc') h.common hlt
      rw [e1]
      refine ⟨o, { s' with outScan := s'.outScan + o }, rfl, ⟨e2.congr rfl rfl, ?_, fun h => absurd h hc, fun _ => e3.scan _⟩, ?_, e5, fun a b _ => e6 a b, fun a _ => e8 a⟩
      · simp only; rw [e7, h.scan, e4]
      · simp only; rw [e7]

theorem history_inv {k : Cfg R} (hk : k.Ok) {src : Src R} : ∀ (calls : List (Nat × Bool)) {s : St R}, Inv k src s → ∃ s', k.history src calls s = some s' ∧ Inv k src s' ∧
    s.outScan ≤ s'.outScan ∧ ((∀ c, c ∈ calls → 0 < c.1 ∧ c.2 = true) → min k.H (s.outScan + calls.length) ≤ s'.outScan) := by
  intro calls
  induction calls with
  | nil => intro s h; exact ⟨s, rfl, h, Nat.le_refl _, fun _ => by simp⟩
  | cons a l ih =>
    intro s h
    obtain ⟨max, ok⟩ := a
    obtain ⟨o, s1, e1, e2, e3, e4, e5, _⟩ := read_inv hk h max ok
    obtain ⟨s2, f1, f2, f3, f4⟩ := ih e2
    refine ⟨s2, by unfold Cfg.history; rw [e1]; exact f1, f2, by omega, ?_⟩
    intro hall
    have h1 := hall (max, ok) (by simp)
    have h2 := f4 (fun c hc => hall c (by simp [hc]))
    have h3 := e5 h1.2 h1.1
    simp only [List.length_cons]
    omega

/-- **C44.** After any sequence of calls, the application has received exactly scanlines 0 .. output_scanline - 1 of the image, each once and in order. -/
theorem C44_rows {k : Cfg R} (hk : k.Ok) (src mem0 : Nat → Nat → R) (calls : List (Nat × Bool)) :
    ∃ s, (k.start mem0 >>= k.history src calls) = some s ∧ s.outScan ≤ k.H ∧ s.out.map some = (List.range s.outScan).map (k.scanline (Src.plain src)) := by
  obtain ⟨s0, e1, _, e2⟩ := start_inv hk (Src.plain src) (fun _ => rfl) mem0
  obtain ⟨s, f1, f2, _, _⟩ := history_inv hk calls e2
  refine ⟨s, by rw [e1]; exact f1, by rw [f2.scan]; exact f2.common.le, by rw [f2.scan]; exact f2.common.out⟩

/-- **C44.** A call returns at most as many scanlines as the buffer holds, at least one if the buffer is not empty, the source does not suspend and the image is not finished, and none after the end; output_scanline counts them. -/
theorem C44_progress {k : Cfg R} (hk : k.Ok) (src mem0 : Nat → Nat → R) (calls : List (Nat × Bool)) (max : Nat) (ok : Bool) {s : St R} (hs : (k.start mem0 >>= k.history src calls) = some s) :
    ∃ o s', k.read src max ok s = some (o, s') ∧ s'.outScan = s.outScan + o ∧ s'.out.length = s.out.length + o ∧ o ≤ max ∧ (ok = true → 0 < max → s.outScan < k.H → 0 < o) ∧ (s.outScan = k.H → o = 0 ∧ s' = s) := by
  obtain ⟨s0, e1, _, e2⟩ := start_inv hk (Src.plain src) (fun _ => rfl) mem0
  obtain ⟨s2, f1, f2, _, _⟩ := history_inv hk calls e2
  have : s2 = s := by
    rw [e1] at hs
    have h := f1.symm.trans hs
    exact Option.some.inj h
  subst this
  obtain ⟨o, s', g1, g2, g3, g4, g5, _⟩ := read_inv hk f2 max ok
  refine ⟨o, s', g1, g3, by rw [← g2.scan, ← f2.scan, g3], g4, g5, ?_⟩
  intro h
  unfold Cfg.read at g1
  rw [if_pos (by omega)] at g1
  have := Option.some.inj g1
  simp only [Prod.mk.injEq] at this
  exact ⟨this.1.symm, this.2.symm⟩

/-- **C44.** An application that keeps calling gets the whole image: output_height calls with a non-empty buffer and no suspension are enough. -/
theorem C44_complete {k : Cfg R} (hk : k.Ok) (src mem0 : Nat → Nat → R) (calls : List (Nat × Bool)) (hall : ∀ c, c ∈ calls → 0 < c.1 ∧ c.2 = true) (hlen : k.H ≤ calls.length) :
    ∃ s, (k.start mem0 >>= k.history src calls) = some s ∧ s.outScan = k.H ∧ s.out.map some = (List.range k.H).map (k.scanline (Src.plain src)) := by
  obtain ⟨s0, e1, _, e2⟩ := start_inv hk (Src.plain src) (fun _ => rfl) mem0
  obtain ⟨s, f1, f2, _, f4⟩ := history_inv hk calls e2
  have h1 := f4 hall
  have h2 := f2.common.le
  have h3 := f2.scan
  have : s.outScan = k.H := by omega
  exact ⟨s, by rw [e1]; exact f1, this, by rw [← this, f2.scan]; exact f2.common.out⟩

/-- **C44.** Two complete readings of the same data give the same scanlines, whatever the buffer sizes, suspensions and previous contents of the workspace. -/
theorem C44_independent {k : Cfg R} (hk : k.Ok) (src mem1 mem2 : Nat → Nat → R) (calls1 calls2 : List (Nat × Bool)) {s1 s2 : St R} (h1 : (k.start mem1 >>= k.history src calls1) = some s1) (h2 : (k.start mem2 >>= k.history src calls2) = some s2)
    (hlen : s1.outScan = s2.outScan) : s1.out = s2.out := by
  obtain ⟨t1, a1, _, a2⟩ := C44_rows hk src mem1 calls1
  obtain ⟨t2, b1, _, b2⟩ := C44_rows hk src mem2 calls2
  have e1 : t1 = s1 := Option.some.inj (a1.symm.trans h1)
  have e2 : t2 = s2 := Option.some.inj (b1.symm.trans h2)
  subst e1 e2
  rw [hlen, ← b2] at a2
  exact (List.map_inj_right (fun _ _ h => Option.some.inj h)).1 a2

/-- **C44.** With context rows no dummy row of the last iMCU row reaches the output: only rows 0 .. downsampled_height - 1 of each component matter. -/
theorem C44_no_dummy_rows {k : Cfg R} (hk : k.Ok) (hctx : k.context = true) (src1 src2 : Nat → Nat → R) (h : ∀ c r, c < k.n → r < k.dh c → src1 c r = src2 c r) (t : Nat) : k.scanline (Src.plain src1) t = k.scanline (Src.plain src2) t := by
  unfold Cfg.scanline
  apply mapM_congr
  intro c hc
  have hc := List.mem_range.1 hc
  have hrow : ∀ G j, k.rowAt (Src.plain src1) c G j = k.rowAt (Src.plain src2) c G j := by
    intro G j
    unfold Cfg.rowAt Cfg.clampRow
    rw [if_pos hctx, if_pos hctx]
    have hp : 0 < k.dh c := by
      have := (lt_total hk (x := 0) hc).1 (total_pos hk)
      omega
    split
    · exact h c 0 hc hp
    · exact h c _ hc (by omega)
  unfold Cfg.upRow
  simp only [hrow]

/-- **C44.** A component that is not upsampled contributes to scanline t exactly its row t, which is one of its real rows. -/
theorem C44_fullsize {k : Cfg R} (hk : k.Ok) (src : Nat → Nat → R) {c t : Nat} (hc : c < k.n) (hf : (k.comp c).full = true) (ht : t < k.H) : k.upRow (Src.plain src) c (t / k.maxV) (t % k.maxV) = some (src c t) ∧ t < k.dh c := by
  have hg := hk.full c hc hf
  have hd : k.dh c = k.H := by
    unfold Cfg.dh Cfg.H
    rw [← (hk.g c hc).2, hg, show k.ih * (k.maxV * k.M) = k.ih * k.M * k.maxV by ring, Nat.mul_comm k.maxV k.D, divUp_mul hk.d hk.mv]
  refine ⟨?_, by omega⟩
  have hi : (t / k.maxV) * k.g c + t % k.maxV = t := by rw [hg, Nat.mul_comm]; exact Nat.div_add_mod t k.maxV
  unfold Cfg.upRow Cfg.rowAt Cfg.clampRow
  rw [if_pos hf]
  generalize (t / k.maxV) * k.g c = A at *
  congr 1
  split
  · rw [if_neg (by omega)]
    show src c _ = src c t
    congr 1; omega
  · show src c _ = src c t
    congr 1

/-! ### A concrete case -/

/-- 4:2:0 with an upsampler that mixes the context rows: 21 lines, 8x8 data units. -/
def exCtx : Cfg Nat := { ih := 21, maxV := 2, M := 8, D := 8, context := true, n := 2, comp := fun c => if c = 0 then ⟨2, 8, true, false, id⟩ else ⟨1, 8, false, true, fun l => [l.getD 0 0 + 100 * l.getD 1 0, l.getD 2 0 + 100 * l.getD 1 0]⟩ }
/-- The same without context rows (plain replication), reduced to half size. -/
def exSimple : Cfg Nat := { ih := 21, maxV := 2, M := 4, D := 8, context := false, n := 2, comp := fun c => if c = 0 then ⟨2, 4, true, false, id⟩ else ⟨1, 4, false, false, fun l => [l.getD 0 0, l.getD 0 0]⟩ }

theorem exCtx_ok : exCtx.Ok where
  ih := by decide
  mv := by decide
  d := by decide
  m := by decide
  n := by decide
  ctx := fun _ => by decide
  g := by decide
  full := by decide
  method := by decide
  up := by
    intro c hc hf l
    rcases (show c = 0 ∨ c = 1 by have : exCtx.n = 2 := rfl; omega) with rfl | rfl
    · exact absurd hf (by decide)
    · rfl

theorem exSimple_ok : exSimple.Ok where
  ih := by decide
  mv := by decide
  d := by decide
  m := by decide
  n := by decide
  ctx := by decide
  g := by decide
  full := by decide
  method := by decide
  up := by
    intro c hc hf l
    rcases (show c = 0 ∨ c = 1 by have : exSimple.n = 2 := rfl; omega) with rfl | rfl
    · exact absurd hf (by decide)
    · rfl

example : (exCtx.H, exCtx.total, exCtx.dh 0, exCtx.dh 1, exCtx.bottomAvail) = (21, 2, 21, 11, 3) := by decide
example : (exSimple.H, exSimple.total, exSimple.dh 0, exSimple.dh 1) = (11, 2, 11, 6) := by decide
example : ((exCtx.start (fun _ _ => 999) >>= exCtx.history (fun c r => 1 + r + 1000 * c) [(3, true), (2, true), (20, true), (5, false), (1, true), (1, true), (30, true), (1, true), (1, true)]).map (fun s => (s.outScan, s.out.length))) =
    some (14, 14) := by decide +kernel
example : (List.range 21).map (exCtx.scanline (.plain fun c r => 1 + r + 1000 * c)) = ((exCtx.start (fun _ _ => 999) >>= exCtx.history (fun c r => 1 + r + 1000 * c) (List.replicate 21 (1, true))).map (fun s => s.out.map some)).getD [] := by decide +kernel
example : (List.range 11).map (exSimple.scanline (.plain fun c r => 1 + r + 1000 * c)) = ((exSimple.start (fun _ _ => 999) >>= exSimple.history (fun c r => 1 + r + 1000 * c) (List.replicate 11 (1, true))).map (fun s => s.out.map some)).getD [] := by decide +kernel

end Verif.Post
