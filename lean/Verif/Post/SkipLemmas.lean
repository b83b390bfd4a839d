import Verif.Post.Props
import Verif.Post.Skip
/-
C46: the state of the path does not depend on what was output before, nor (with care) on an excess of rows_to_go; nor on rows of the source already consumed.
-/
namespace Verif.Post
variable {R : Type}

/-- The same state with more output before and `d` more in rows_to_go. -/
def St.put (l : List (List R)) (d : Nat) (s : St R) : St R := { s with out := l ++ s.out, rowsToGo := s.rowsToGo + d }

/-- `put` on results. -/
def put2 (l : List (List R)) (d : Nat) (x : Nat × St R) : Nat × St R := (x.1, x.2.put l d)
/-- `put` on results of sep_upsample. -/
def put3 (l : List (List R)) (d : Nat) (x : Nat × Nat × St R) : Nat × Nat × St R := (x.1, x.2.1, x.2.2.put l d)

section
variable (k : Cfg R) (src : Nat → Nat → R) (l : List (List R)) (d : Nat)

theorem fillColor_put (w ctr : Nat) (s : St R) : k.fillColor w ctr (s.put l d) = (k.fillColor w ctr s).map (St.put l d) := by
  unfold Cfg.fillColor
  by_cases h : s.nextRowOut ≥ k.maxV
  · rw [if_pos (show (s.put l d).nextRowOut ≥ k.maxV from h), if_pos h]; show Option.bind (k.forC (k.upComp w ctr) s.cs) _ = _; cases k.forC (k.upComp w ctr) s.cs <;> rfl
  · rw [if_neg (show ¬ (s.put l d).nextRowOut ≥ k.maxV from h), if_neg h]; rfl

theorem upsample_put (w ctr o max : Nat) (s : St R) (h : d = 0 ∨ min (k.maxV - (if s.nextRowOut ≥ k.maxV then 0 else s.nextRowOut)) (max - o) ≤ s.rowsToGo) :
    k.upsample w ctr o max (s.put l d) = (k.upsample w ctr o max s).map (put3 l d) := by
  unfold Cfg.upsample
  rw [fillColor_put]
  cases hf : k.fillColor w ctr s with
  | none => rfl
  | some s1 =>
    have hn : s1.nextRowOut = (if s.nextRowOut ≥ k.maxV then 0 else s.nextRowOut) ∧ s1.rowsToGo = s.rowsToGo := by
      unfold Cfg.fillColor at hf
      split at hf
      · rename_i hge
        rw [if_pos hge]
        simp only [Option.bind_eq_bind, Option.bind_eq_some_iff, Option.pure_def, Option.some.injEq] at hf
        obtain ⟨_, _, rfl⟩ := hf
        exact ⟨rfl, rfl⟩
      · rename_i hge
        rw [if_neg hge]
        cases hf
        exact ⟨rfl, rfl⟩
    rw [← hn.1, ← hn.2] at h
    have hnum : k.numRows (s1.put l d) o max = k.numRows s1 o max := by
      unfold Cfg.numRows St.put
      simp only
      omega
    have hle : k.numRows s1 o max ≤ s1.rowsToGo := by unfold Cfg.numRows; omega
    simp only [Option.map_some, Option.bind_eq_bind, Option.bind_some, hnum]
    have hemit : ∀ j, k.emit (s1.put l d) j = k.emit s1 j := fun j => rfl
    simp only [hemit]
    show Option.bind _ _ = Option.map _ (Option.bind _ _)
    have e1 : (s1.put l d).nextRowOut = s1.nextRowOut := rfl
    rw [e1]
    cases List.mapM (fun i => k.emit s1 (s1.nextRowOut + i)) (List.range (k.numRows s1 o max)) with
    | none => rfl
    | some rows =>
      simp only [Option.bind_some, Option.pure_def, Option.map_some, put3, St.put, Option.some.injEq, Prod.mk.injEq, St.mk.injEq, List.append_assoc, true_and, and_true]
      omega

theorem load_put (w : Nat) (s : St R) : k.load src w (s.put l d) = (k.load src w s).map (St.put l d) := by
  unfold Cfg.load
  by_cases h : s.inRow < k.total
  · rw [if_pos (show (s.put l d).inRow < k.total from h), if_pos h]; show Option.bind (k.forC (k.store src w s.inRow) s.cs) _ = _; cases k.forC (k.store src w s.inRow) s.cs <;> rfl
  · rw [if_neg (show ¬ (s.put l d).inRow < k.total from h), if_neg h]; rfl

theorem simpleFull_put (max : Nat) (s : St R) (h : d = 0 ∨ min (k.maxV - (if s.nextRowOut ≥ k.maxV then 0 else s.nextRowOut)) max ≤ s.rowsToGo) :
    k.simpleFull max (s.put l d) = (k.simpleFull max s).map (put2 l d) := by
  unfold Cfg.simpleFull
  rw [upsample_put k l d _ _ _ _ _ (by simpa using h)]
  show Option.bind (Option.map _ (k.upsample 2 s.rowgroupCtr 0 max s)) _ = _
  cases k.upsample 2 s.rowgroupCtr 0 max s with
  | none => rfl
  | some x =>
    obtain ⟨ctr, o, s'⟩ := x
    simp only [Option.map_some, Option.bind_eq_bind, Option.bind_some, put3]
    split <;> rfl

theorem simpleMain_put (max : Nat) (ok : Bool) (s : St R) (h : d = 0 ∨ min (k.maxV - (if s.nextRowOut ≥ k.maxV then 0 else s.nextRowOut)) max ≤ s.rowsToGo) :
    k.simpleMain src max ok (s.put l d) = (k.simpleMain src max ok s).map (put2 l d) := by
  unfold Cfg.simpleMain
  have e1 : (s.put l d).bufferFull = s.bufferFull := rfl
  rw [e1]
  split
  · exact simpleFull_put k l d max s h
  · split
    · rw [load_put]
      cases hl : k.load src 2 s with
      | none => rfl
      | some s1 =>
        have : s1.nextRowOut = s.nextRowOut ∧ s1.rowsToGo = s.rowsToGo := by
          unfold Cfg.load at hl
          split at hl
          · simp only [Option.bind_eq_bind, Option.bind_eq_some_iff, Option.pure_def, Option.some.injEq] at hl
            obtain ⟨_, _, rfl⟩ := hl
            exact ⟨rfl, rfl⟩
          · cases hl
        simp only [Option.map_some, Option.bind_eq_bind, Option.bind_some]
        exact simpleFull_put k l d max s1 (by rw [this.1, this.2]; exact h)
    · rfl

theorem ctxPrepare_put (s : St R) : k.ctxPrepare (s.put l d) = (k.ctxPrepare s).map (St.put l d) := by
  unfold Cfg.ctxPrepare
  by_cases h : s.imcuCtr = k.total
  · rw [if_pos (show (s.put l d).imcuCtr = k.total from h), if_pos h]; show Option.bind (k.forC (k.setBottom s.which) s.cs) _ = _; cases k.forC (k.setBottom s.which) s.cs <;> rfl
  · rw [if_neg (show ¬ (s.put l d).imcuCtr = k.total from h), if_neg h]; rfl

theorem ctxSwitch_put (s : St R) : k.ctxSwitch (s.put l d) = (k.ctxSwitch s).map (St.put l d) := by
  unfold Cfg.ctxSwitch
  have : k.wrapIf (s.put l d) = k.wrapIf s := rfl
  rw [this]
  cases k.wrapIf s <;> rfl

theorem upsample_go {w ctr o max : Nat} {s : St R} {x : Nat × Nat × St R} (h : k.upsample w ctr o max s = some x) (hm : max - o ≤ s.rowsToGo) : max - x.2.1 ≤ x.2.2.rowsToGo := by
  unfold Cfg.upsample at h
  simp only [Option.bind_eq_bind, Option.bind_eq_some_iff, Option.pure_def, Option.some.injEq] at h
  obtain ⟨s1, h1, rows, _, rfl⟩ := h
  have : s1.rowsToGo = s.rowsToGo := by
    unfold Cfg.fillColor at h1
    split at h1
    · simp only [Option.bind_eq_bind, Option.bind_eq_some_iff, Option.pure_def, Option.some.injEq] at h1
      obtain ⟨_, _, rfl⟩ := h1
      rfl
    · cases h1; rfl
  have hle : k.numRows s1 o max ≤ max - o := by unfold Cfg.numRows; omega
  simp only
  omega

theorem ctxProcess_put (o max : Nat) (s : St R) (h : d = 0 ∨ max - o ≤ s.rowsToGo) : k.ctxProcess o max (s.put l d) = (k.ctxProcess o max s).map (put2 l d) := by
  unfold Cfg.ctxProcess
  rw [upsample_put k l d _ _ _ _ _ (h.imp id (by intro h; omega))]
  show Option.bind (Option.map _ (k.upsample s.which s.rowgroupCtr o max s)) _ = _
  cases k.upsample s.which s.rowgroupCtr o max s with
  | none => rfl
  | some x =>
    obtain ⟨ctr, o, s'⟩ := x
    simp only [Option.map_some, Option.bind_eq_bind, Option.bind_some, put3]
    have e2 : (s'.put l d).avail = s'.avail := rfl
    rw [e2]
    split
    · rfl
    · have := ctxSwitch_put k l d { s' with rowgroupCtr := ctr }
      show Option.bind (k.ctxSwitch (St.put l d { s' with rowgroupCtr := ctr })) _ = _
      rw [this]
      cases k.ctxSwitch { s' with rowgroupCtr := ctr } <;> rfl

theorem ctxFrom0_put (o max : Nat) (s : St R) (h : d = 0 ∨ max - o ≤ s.rowsToGo) : k.ctxFrom0 o max (s.put l d) = (k.ctxFrom0 o max s).map (put2 l d) := by
  unfold Cfg.ctxFrom0
  rw [ctxPrepare_put]
  cases hp : k.ctxPrepare s with
  | none => rfl
  | some s1 =>
    refine ctxProcess_put k l d o max s1 ?_
    have : s1.rowsToGo = s.rowsToGo := by
      unfold Cfg.ctxPrepare at hp
      split at hp
      · simp only [Option.bind_eq_bind, Option.bind_eq_some_iff, Option.pure_def, Option.some.injEq] at hp
        obtain ⟨_, _, rfl⟩ := hp
        rfl
      · cases hp; rfl
    rw [this]; exact h

theorem ctxFrom2_put (max : Nat) (s : St R) (h : d = 0 ∨ max ≤ s.rowsToGo) : k.ctxFrom2 max (s.put l d) = (k.ctxFrom2 max s).map (put2 l d) := by
  unfold Cfg.ctxFrom2
  rw [upsample_put k l d _ _ _ _ _ (h.imp id (by intro h; omega))]
  show Option.bind (Option.map _ (k.upsample s.which s.rowgroupCtr 0 max s)) _ = _
  cases hu : k.upsample s.which s.rowgroupCtr 0 max s with
  | none => rfl
  | some x =>
    have hgo := fun hm => upsample_go k hu hm
    obtain ⟨ctr, o, s'⟩ := x
    simp only [Option.map_some, Option.bind_eq_bind, Option.bind_some, put3]
    have e2 : (s'.put l d).avail = s'.avail := rfl
    rw [e2]
    split
    · rfl
    · split
      · rfl
      · exact ctxFrom0_put k l d o max { s' with rowgroupCtr := ctr, ctxState := 0 } (h.imp id (fun h => hgo (by omega)))

theorem ctxFull_put (max : Nat) (s : St R) (h : d = 0 ∨ max ≤ s.rowsToGo) : k.ctxFull max (s.put l d) = (k.ctxFull max s).map (put2 l d) := by
  unfold Cfg.ctxFull
  have e1 : (s.put l d).ctxState = s.ctxState := rfl
  rw [e1]
  split
  · exact ctxFrom2_put k l d max s h
  · split
    · exact ctxFrom0_put k l d 0 max s h
    · split
      · exact ctxProcess_put k l d 0 max s h
      · rfl

theorem contextMain_put (max : Nat) (ok : Bool) (s : St R) (h : d = 0 ∨ max ≤ s.rowsToGo) : k.contextMain src max ok (s.put l d) = (k.contextMain src max ok s).map (put2 l d) := by
  unfold Cfg.contextMain
  have e1 : (s.put l d).bufferFull = s.bufferFull := rfl
  rw [e1]
  split
  · exact ctxFull_put k l d max s h
  · split
    · rw [load_put]
      show Option.bind (Option.map _ (k.load src s.which s)) _ = _
      cases hl : k.load src s.which s with
      | none => rfl
      | some s1 =>
        refine ctxFull_put k l d max { s1 with imcuCtr := s1.imcuCtr + 1 } ?_
        have : s1.rowsToGo = s.rowsToGo := by
          unfold Cfg.load at hl
          split at hl
          · simp only [Option.bind_eq_bind, Option.bind_eq_some_iff, Option.pure_def, Option.some.injEq] at hl
            obtain ⟨_, _, rfl⟩ := hl
            rfl
          · cases hl
        simp only [this]; exact h
    · rfl

theorem read_put (max : Nat) (ok : Bool) (s : St R) (h : d = 0 ∨ max ≤ s.rowsToGo ∨ (k.context = false ∧ min (k.maxV - (if s.nextRowOut ≥ k.maxV then 0 else s.nextRowOut)) max ≤ s.rowsToGo)) :
    k.read src max ok (s.put l d) = (k.read src max ok s).map (put2 l d) := by
  unfold Cfg.read
  have e1 : (s.put l d).outScan = s.outScan := rfl
  rw [e1]
  split
  · rfl
  · have : k.process src max ok (s.put l d) = (k.process src max ok s).map (put2 l d) := by
      unfold Cfg.process
      split
      · rename_i hc
        rcases h with h | h | ⟨h, _⟩
        · exact contextMain_put k src l d max ok s (Or.inl h)
        · exact contextMain_put k src l d max ok s (Or.inr h)
        · rw [hc] at h; simp at h
      · refine simpleMain_put k src l d max ok s ?_
        rcases h with h | h | ⟨_, h⟩
        · exact Or.inl h
        · right; omega
        · exact Or.inr h
    rw [this]
    cases k.process src max ok s <;> rfl

end

/-! ### the source -/

theorem loop_congr {A : Type} {f g : Nat → A → Option A} : ∀ (n : Nat) (a : A), (∀ i x, i < n → f i x = g i x) → loop f n a = loop g n a := by
  intro n
  induction n with
  | zero => intro a _; rfl
  | succ n ih =>
    intro a h
    simp only [loop]
    rw [ih a (fun i x hi => h i x (by omega))]
    cases loop g n a with
    | none => rfl
    | some x => exact h n x (by omega)

/-- Rows of iMCU rows `K` and later. -/
def AgreeFrom (k : Cfg R) (K : Nat) (s1 s2 : Nat → Nat → R) : Prop := ∀ c r, c < k.n → K * k.imcuHeight c ≤ r → s1 c r = s2 c r

theorem load_src {k : Cfg R} {src src' : Nat → Nat → R} {w : Nat} {s : St R} (h : AgreeFrom k s.inRow src src') : k.load src w s = k.load src' w s := by
  unfold Cfg.load
  have : k.forC (k.store src w s.inRow) s.cs = k.forC (k.store src' w s.inRow) s.cs := by
    unfold Cfg.forC
    apply loop_congr
    intro c cs hc
    have : k.store src w s.inRow c (cs c) = k.store src' w s.inRow c (cs c) := by
      unfold Cfg.store
      apply loop_congr
      intro i x hi
      rw [h c (s.inRow * k.imcuHeight c + i) hc (by omega)]
    rw [this]
  rw [this]

theorem read_src {k : Cfg R} {src src' : Nat → Nat → R} {max : Nat} {ok : Bool} {s : St R} (h : AgreeFrom k s.inRow src src') : k.read src max ok s = k.read src' max ok s := by
  unfold Cfg.read Cfg.process Cfg.contextMain Cfg.simpleMain
  simp only [load_src h]

/-! ### what does not change -/

theorem fillColor_inRow {k : Cfg R} {w ctr : Nat} {s s' : St R} (h : k.fillColor w ctr s = some s') : s'.inRow = s.inRow ∧ s'.out = s.out := by
  unfold Cfg.fillColor at h
  split at h
  · simp only [Option.bind_eq_bind, Option.bind_eq_some_iff, Option.pure_def, Option.some.injEq] at h
    obtain ⟨_, _, rfl⟩ := h
    exact ⟨rfl, rfl⟩
  · cases h; exact ⟨rfl, rfl⟩

theorem upsample_inRow {k : Cfg R} {w ctr o max : Nat} {s : St R} {x : Nat × Nat × St R} (h : k.upsample w ctr o max s = some x) : x.2.2.inRow = s.inRow := by
  unfold Cfg.upsample at h
  simp only [Option.bind_eq_bind, Option.bind_eq_some_iff, Option.pure_def, Option.some.injEq] at h
  obtain ⟨s1, h1, rows, _, rfl⟩ := h
  exact (fillColor_inRow h1).1

theorem load_inRow {k : Cfg R} {src : Nat → Nat → R} {w : Nat} {s s' : St R} (h : k.load src w s = some s') : s.inRow ≤ s'.inRow := by
  unfold Cfg.load at h
  split at h
  · simp only [Option.bind_eq_bind, Option.bind_eq_some_iff, Option.pure_def, Option.some.injEq] at h
    obtain ⟨_, _, rfl⟩ := h
    simp only; omega
  · cases h

theorem simpleFull_inRow {k : Cfg R} {max : Nat} {s : St R} {x : Nat × St R} (h : k.simpleFull max s = some x) : x.2.inRow = s.inRow := by
  unfold Cfg.simpleFull at h
  simp only [Option.bind_eq_bind, Option.bind_eq_some_iff] at h
  obtain ⟨y, h1, h2⟩ := h
  have := upsample_inRow h1
  split at h2 <;> (cases h2; exact this)

theorem ctxProcess_inRow {k : Cfg R} {o max : Nat} {s : St R} {x : Nat × St R} (h : k.ctxProcess o max s = some x) : x.2.inRow = s.inRow := by
  unfold Cfg.ctxProcess at h
  simp only [Option.bind_eq_bind, Option.bind_eq_some_iff] at h
  obtain ⟨y, h1, h2⟩ := h
  have := upsample_inRow h1
  split at h2
  · cases h2; exact this
  · simp only [Option.bind_eq_some_iff] at h2
    obtain ⟨z, h3, h4⟩ := h2
    cases h4
    unfold Cfg.ctxSwitch at h3
    simp only [Option.bind_eq_bind, Option.bind_eq_some_iff] at h3
    obtain ⟨_, _, h5⟩ := h3
    cases h5; exact this

theorem ctxFrom0_inRow {k : Cfg R} {o max : Nat} {s : St R} {x : Nat × St R} (h : k.ctxFrom0 o max s = some x) : x.2.inRow = s.inRow := by
  unfold Cfg.ctxFrom0 at h
  simp only [Option.bind_eq_bind, Option.bind_eq_some_iff] at h
  obtain ⟨y, h1, h2⟩ := h
  rw [ctxProcess_inRow h2]
  unfold Cfg.ctxPrepare at h1
  split at h1
  · simp only [Option.bind_eq_bind, Option.bind_eq_some_iff] at h1
    obtain ⟨_, _, h5⟩ := h1
    cases h5; rfl
  · cases h1; rfl

theorem ctxFull_inRow {k : Cfg R} {max : Nat} {s : St R} {x : Nat × St R} (h : k.ctxFull max s = some x) : x.2.inRow = s.inRow := by
  unfold Cfg.ctxFull at h
  split at h
  · unfold Cfg.ctxFrom2 at h
    simp only [Option.bind_eq_bind, Option.bind_eq_some_iff] at h
    obtain ⟨y, h1, h2⟩ := h
    have := upsample_inRow h1
    split at h2
    · cases h2; exact this
    · split at h2
      · cases h2; exact this
      · rw [ctxFrom0_inRow h2]; exact this
  · split at h
    · exact ctxFrom0_inRow h
    · split at h
      · exact ctxProcess_inRow h
      · cases h; rfl

theorem read_inRow {k : Cfg R} {src : Nat → Nat → R} {max : Nat} {ok : Bool} {s : St R} {x : Nat × St R} (h : k.read src max ok s = some x) : s.inRow ≤ x.2.inRow := by
  unfold Cfg.read at h
  split at h
  · cases h; exact Nat.le_refl _
  · simp only [Option.bind_eq_bind, Option.bind_eq_some_iff] at h
    obtain ⟨y, h1, h2⟩ := h
    cases h2
    simp only
    unfold Cfg.process at h1
    split at h1
    · unfold Cfg.contextMain at h1
      split at h1
      · rw [ctxFull_inRow h1]
      · split at h1
        · simp only [Option.bind_eq_bind, Option.bind_eq_some_iff] at h1
          obtain ⟨z, h3, h4⟩ := h1
          rw [ctxFull_inRow h4]
          exact (load_inRow h3 : s.inRow ≤ z.inRow)
        · cases h1; exact Nat.le_refl _
    · unfold Cfg.simpleMain at h1
      split at h1
      · rw [simpleFull_inRow h1]
      · split at h1
        · simp only [Option.bind_eq_bind, Option.bind_eq_some_iff] at h1
          obtain ⟨z, h3, h4⟩ := h1
          rw [simpleFull_inRow h4]
          exact load_inRow h3
        · cases h1; exact Nat.le_refl _

end Verif.Post
