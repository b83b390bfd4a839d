import Verif.Post.Lemmas
/-
C44: one call of the upsampling driver.
-/
namespace Verif.Post
variable {R : Type}

/-- What has been emitted is a prefix of the image. -/
structure Common (k : Cfg R) (src : Src R) (s : St R) : Prop where
  out : s.out.map some = (List.range s.out.length).map (k.scanline src)
  le : s.out.length ≤ k.H
  togo : s.rowsToGo = k.H - s.out.length

/-- The upsampler is at row group G. -/
structure Ups (k : Cfg R) (src : Src R) (G : Nat) (s : St R) : Prop where
  le : s.nextRowOut ≤ k.maxV
  pos : s.out.length = G * k.maxV + (if s.nextRowOut = k.maxV then 0 else s.nextRowOut)
  color : s.nextRowOut < k.maxV → ∀ c, c < k.n → ∀ j, s.nextRowOut ≤ j → j < k.maxV → (s.cs c).colorRow j = k.upRow src c G j

/-- Row group G, with its context if needed, is visible at group index `ctr` of list `w`. -/
def Window (k : Cfg R) (src : Src R) (w ctr G : Nat) (x : CSt R) (c : Nat) : Prop :=
  ∀ j : Int, (if k.context then -1 else 0) ≤ j → j < k.g c + (if k.context then 1 else 0) → ∃ p, x.X w ((ctr * k.g c : Nat) + j) = some p ∧ x.mem p = k.rowAt src c G j

/-- Pointers and workspace are untouched. -/
def SameMem (k : Cfg R) (s s' : St R) : Prop := ∀ c, c < k.n → (s'.cs c).X = (s.cs c).X ∧ (s'.cs c).mem = (s.cs c).mem

/-- The main controller's counters are untouched. -/
structure SameMain (s s' : St R) : Prop where
  bufferFull : s'.bufferFull = s.bufferFull
  rowgroupCtr : s'.rowgroupCtr = s.rowgroupCtr
  which : s'.which = s.which
  ctxState : s'.ctxState = s.ctxState
  avail : s'.avail = s.avail
  imcuCtr : s'.imcuCtr = s.imcuCtr
  outScan : s'.outScan = s.outScan
  inRow : s'.inRow = s.inRow

theorem upComp_ok {k : Cfg R} (hk : k.Ok) {src : Src R} {w ctr G c : Nat} (hc : c < k.n) {x : CSt R} (hw : Window k src w ctr G x c) :
    ∃ y, k.upComp w ctr c x = some y ∧ y.X = x.X ∧ y.mem = x.mem ∧ ∀ j, j < k.maxV → y.colorRow j = k.upRow src c G j := by
  unfold Cfg.upComp Cfg.upRow
  by_cases hf : (k.comp c).full = true
  · rw [if_pos hf]
    refine ⟨_, rfl, rfl, rfl, ?_⟩
    intro j hj
    have hg := hk.full c hc hf
    obtain ⟨p, e1, e2⟩ := hw j (by split <;> omega) (by split <;> omega)
    simp only [CSt.colorRow, e1, e2, Option.bind_eq_bind, Option.bind_some, hf, if_true]
    rfl
  · rw [if_neg hf]
    have hf' : (k.comp c).full = false := by simpa using hf
    by_cases hx : (k.comp c).ctx = true
    · have hcx := hk.method c hc hx
      have hr : k.readGroup w c (ctr * k.g c : Nat) x = some ((List.range (k.g c + 2)).map (fun i : Nat => k.rowAt src c G ((i : Int) - 1))) := by
        unfold Cfg.readGroup
        rw [if_pos hx, readRows_spec (f := fun i => k.rowAt src c G (i - (ctr * k.g c : Nat)))]
        · congr 2
          funext i
          congr 1; omega
        · intro j hj
          obtain ⟨p, e1, e2⟩ := hw ((j : Int) - 1) (by rw [if_pos hcx]; omega) (by rw [if_pos hcx]; omega)
          refine ⟨p, ?_, ?_⟩
          · rw [← e1]; congr 1; omega
          · rw [e2]; congr 1; omega
      refine ⟨{ x with color := .own ((k.comp c).up ((List.range (k.g c + 2)).map (fun i : Nat => k.rowAt src c G ((i : Int) - 1)))) }, by rw [hr]; rfl, rfl, rfl, ?_⟩
      intro j _
      simp only [CSt.colorRow, hf', hx, if_true, if_false, Bool.false_eq_true]
    · have hr : k.readGroup w c (ctr * k.g c : Nat) x = some ((List.range (k.g c)).map (fun i : Nat => k.rowAt src c G (i : Int))) := by
        unfold Cfg.readGroup
        rw [if_neg hx, readRows_spec (f := fun i => k.rowAt src c G (i - (ctr * k.g c : Nat)))]
        · congr 2
          funext i
          congr 1; omega
        · intro j hj
          obtain ⟨p, e1, e2⟩ := hw (j : Int) (by split <;> omega) (by split <;> omega)
          refine ⟨p, e1, ?_⟩
          rw [e2]; congr 1; omega
      refine ⟨{ x with color := .own ((k.comp c).up ((List.range (k.g c)).map (fun i : Nat => k.rowAt src c G (i : Int)))) }, by rw [hr]; rfl, rfl, rfl, ?_⟩
      intro j _
      simp only [CSt.colorRow, hf', hx, if_false, Bool.false_eq_true]

theorem upRow_some {k : Cfg R} (hk : k.Ok) (src : Src R) {c G j : Nat} (hc : c < k.n) (hj : j < k.maxV) : ∃ r, k.upRow src c G j = some r := by
  unfold Cfg.upRow
  by_cases hf : (k.comp c).full = true
  · rw [if_pos hf]; exact ⟨_, rfl⟩
  · rw [if_neg hf]
    have hl := hk.up c hc (by simpa using hf)
    split
    · exact ⟨_, List.getElem?_eq_getElem (by rw [hl]; exact hj)⟩
    · exact ⟨_, List.getElem?_eq_getElem (by rw [hl]; exact hj)⟩

theorem scanline_some {k : Cfg R} (hk : k.Ok) (src : Src R) (t : Nat) : ∃ r, k.scanline src t = some r := by
  obtain ⟨m, e, _⟩ := mapM_some (f := fun c => k.upRow src c (t / k.maxV) (t % k.maxV)) (List.range k.n) (fun c hc => upRow_some hk src (List.mem_range.1 hc) (Nat.mod_lt _ hk.mv))
  exact ⟨m, e⟩

theorem fillColor_ok {k : Cfg R} (hk : k.Ok) {src : Src R} {w ctr G : Nat} {s : St R} (hC : Common k src s) (hU : Ups k src G s) (hw : ∀ c, c < k.n → Window k src w ctr G (s.cs c) c) :
    ∃ s', k.fillColor w ctr s = some s' ∧ Common k src s' ∧ Ups k src G s' ∧ s'.nextRowOut < k.maxV ∧ SameMem k s s' ∧ SameMain s s' ∧ s'.out = s.out := by
  have hmv := hk.mv
  unfold Cfg.fillColor
  by_cases hn : s.nextRowOut ≥ k.maxV
  · rw [if_pos hn]
    obtain ⟨cs', e1, e2⟩ := forC_spec (k := k) (f := k.upComp w ctr) (fun c y => y.X = (s.cs c).X ∧ y.mem = (s.cs c).mem ∧ ∀ j, j < k.maxV → y.colorRow j = k.upRow src c G j) s.cs (fun c hc => upComp_ok hk hc (hw c hc))
    refine ⟨{ s with cs := cs', nextRowOut := 0 }, by rw [e1]; rfl, ⟨hC.out, hC.le, hC.togo⟩, ⟨Nat.zero_le _, ?_, fun _ c hc j _ hj => (e2 c hc).2.2 j hj⟩, hmv, fun c hc => ⟨(e2 c hc).1, (e2 c hc).2.1⟩, ⟨rfl, rfl, rfl, rfl, rfl, rfl, rfl, rfl⟩, rfl⟩
    have := hU.pos
    rw [if_pos (by have := hU.le; omega)] at this
    simp only
    rw [if_neg (by omega)]
    exact this
  · rw [if_neg hn]
    exact ⟨s, rfl, hC, hU, by omega, fun c _ => ⟨rfl, rfl⟩, ⟨rfl, rfl, rfl, rfl, rfl, rfl, rfl, rfl⟩, rfl⟩

theorem upsample_ok {k : Cfg R} (hk : k.Ok) {src : Src R} {w ctr G o max : Nat} {s : St R} (hC : Common k src s) (hU : Ups k src G s) (ho : o ≤ max) (hw : ∀ c, c < k.n → Window k src w ctr G (s.cs c) c) :
    ∃ ctr' o' s', k.upsample w ctr o max s = some (ctr', o', s') ∧ Common k src s' ∧ SameMem k s s' ∧ SameMain s s' ∧ s'.out.length + o = s.out.length + o' ∧ (o ≤ o' ∧ o' ≤ max) ∧ (o < max → s.out.length < k.H → o < o') ∧
      ((ctr' = ctr + 1 ∧ Ups k src (G + 1) s' ∧ s'.nextRowOut = k.maxV) ∨ (ctr' = ctr ∧ Ups k src G s' ∧ s'.nextRowOut < k.maxV)) := by
  have hmv := hk.mv
  obtain ⟨s1, e1, C1, U1, n1, m1, q1, o1⟩ := fillColor_ok hk hC hU hw
  have hpos := U1.pos
  rw [if_neg (by omega)] at hpos
  have hnum : k.numRows s1 o max ≤ k.maxV - s1.nextRowOut ∧ k.numRows s1 o max ≤ k.H - s1.out.length ∧ k.numRows s1 o max ≤ max - o := by
    unfold Cfg.numRows; rw [C1.togo]; omega
  have hnum2 : o < max → s1.out.length < k.H → 0 < k.numRows s1 o max := by
    unfold Cfg.numRows; rw [C1.togo]; omega
  generalize hN : k.numRows s1 o max = N at *
  have hemit : ∀ i, i < N → k.emit s1 (s1.nextRowOut + i) = k.scanline src (s1.out.length + i) := by
    intro i hi
    unfold Cfg.emit Cfg.scanline
    apply mapM_congr
    intro c hc
    rw [U1.color n1 c (List.mem_range.1 hc) _ (by omega) (by omega)]
    have ht : s1.out.length + i = k.maxV * G + (s1.nextRowOut + i) := by rw [hpos, Nat.mul_comm]; omega
    rw [ht, Nat.mul_add_div hmv, Nat.mul_add_mod, Nat.div_eq_of_lt (by omega), Nat.mod_eq_of_lt (by omega : s1.nextRowOut + i < k.maxV), Nat.add_zero]
  obtain ⟨rows, r1, r2⟩ := mapM_some (f := fun i => k.emit s1 (s1.nextRowOut + i)) (List.range N) (fun i hi => by
    rw [hemit i (List.mem_range.1 hi)]; exact scanline_some hk src _)
  have hlen : rows.length = N := by have := congrArg List.length r2; simpa using this
  refine ⟨if s1.nextRowOut + N ≥ k.maxV then ctr + 1 else ctr, o + N, { s1 with out := s1.out ++ rows, rowsToGo := s1.rowsToGo - N, nextRowOut := s1.nextRowOut + N }, ?_, ?_, m1, ⟨q1.1, q1.2, q1.3, q1.4, q1.5, q1.6, q1.7, q1.8⟩, ?_, ⟨by omega, by omega⟩, ?_, ?_⟩
  · unfold Cfg.upsample
    rw [e1]
    simp only [Option.bind_eq_bind, Option.bind_some, hN, r1]
    rfl
  · refine ⟨?_, ?_, ?_⟩
    · simp only [List.map_append, List.length_append, hlen]
      rw [C1.out, r2, List.range_add, List.map_append, List.map_map]
      congr 1
      apply List.map_congr_left
      intro i hi
      simp only [Function.comp]
      rw [hemit i (List.mem_range.1 hi)]
    · simp only [List.length_append, hlen]; have := C1.le; omega
    · simp only [List.length_append, hlen, C1.togo]; omega
  · simp only [List.length_append, hlen, o1]; omega
  · intro h1 h2
    rw [← o1] at h2
    have := hnum2 h1 h2
    omega
  · by_cases hfull : s1.nextRowOut + N ≥ k.maxV
    · left
      rw [if_pos hfull]
      have hfull' : s1.nextRowOut + N = k.maxV := by omega
      refine ⟨rfl, ⟨by simp only; omega, ?_, fun h => by simp only at h; omega⟩, hfull'⟩
      simp only [List.length_append, hlen]
      rw [if_pos hfull', hpos, Nat.succ_mul]; omega
    · right
      rw [if_neg hfull]
      refine ⟨rfl, ⟨by simp only; omega, ?_, ?_⟩, by simp only; omega⟩
      · simp only [List.length_append, hlen]
        rw [if_neg (by omega), hpos]; omega
      · intro _ c hc j h1 h2
        simp only at h1
        exact U1.color n1 c hc j (by omega) h2

/-- A call that emits something leaves the conversion buffer begun. -/
theorem upsample_next {k : Cfg R} {w ctr o max ctr' o' : Nat} {s s' : St R} (h : k.upsample w ctr o max s = some (ctr', o', s')) (ho : o < o') : 0 < s'.nextRowOut := by
  unfold Cfg.upsample at h
  simp only [Option.bind_eq_bind, Option.bind_eq_some_iff] at h
  obtain ⟨s1, _, rows, _, h⟩ := h
  simp only [Option.pure_def, Option.some.injEq, Prod.mk.injEq] at h
  obtain ⟨_, h2, h3⟩ := h
  rw [← h3]
  simp only
  omega

theorem Ups.congr {k : Cfg R} {src : Src R} {G : Nat} {s s' : St R} (h : Ups k src G s) (h1 : s'.nextRowOut = s.nextRowOut) (h2 : s'.out = s.out) (h3 : s.nextRowOut = k.maxV ∨ s'.cs = s.cs) : Ups k src G s' where
  le := by rw [h1]; exact h.le
  pos := by rw [h1, h2]; exact h.pos
  color := by
    intro hn
    rcases h3 with h3 | h3
    · rw [h1] at hn; omega
    · rw [h3, h1]; rw [h1] at hn; exact h.color hn

theorem Common.congr {k : Cfg R} {src : Src R} {s s' : St R} (h : Common k src s) (h1 : s'.rowsToGo = s.rowsToGo) (h2 : s'.out = s.out) : Common k src s' where
  out := by rw [h2]; exact h.out
  le := by rw [h2]; exact h.le
  togo := by rw [h1, h2]; exact h.togo

theorem Window.congr {k : Cfg R} {src : Src R} {w ctr G c : Nat} {x y : CSt R} (h : Window k src w ctr G x c) (h1 : y.X = x.X) (h2 : y.mem = x.mem) : Window k src w ctr G y c := by
  intro j a b
  rw [h1, h2]
  exact h j a b

end Verif.Post
