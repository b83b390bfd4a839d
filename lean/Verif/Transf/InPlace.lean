import Verif.Transf.Routines
/-
The in-place horizontal flip does the same as the flip into a separate array.
-/
namespace Verif.Transf

theorem forStep_inv {σ : Type} (P : Nat → σ → Prop) (n step : Nat) (hs : 0 < step) (body : Nat → σ → Option σ) (s : σ)
    (h0 : P 0 s) (h : ∀ k, k * step < n → ∀ s, P k s → ∃ s', body (k * step) s = some s' ∧ P (k + 1) s') :
    ∃ s', forStep n step body s = some s' ∧ P (divUp n step) s' := by
  have gen : ∀ m, m ≤ divUp n step → ∃ s', ((List.range m).map (· * step)).foldlM (fun s i => body i s) s = some s' ∧
      P m s' := by
    intro m
    induction m with
    | zero => intro _; exact ⟨s, rfl, h0⟩
    | succ m ih =>
      intro hm
      obtain ⟨s1, e1, p1⟩ := ih (by omega)
      have hlt : m * step < n := by
        have : m < (n + step - 1) / step := hm
        rw [Nat.lt_div_iff_mul_lt hs] at this
        omega
      obtain ⟨s2, e2, p2⟩ := h m hlt s1 p1
      refine ⟨s2, ?_, p2⟩
      rw [List.range_succ, List.map_append, List.foldlM_append, e1]
      simp [e2]
  exact gen _ (Nat.le_refl _)

theorem forStep1_inv {σ : Type} (P : Nat → σ → Prop) (n : Nat) (body : Nat → σ → Option σ) (s : σ)
    (h0 : P 0 s) (h : ∀ k, k < n → ∀ s, P k s → ∃ s', body k s = some s' ∧ P (k + 1) s') :
    ∃ s', forStep n 1 body s = some s' ∧ P n s' := by
  have := forStep_inv P n 1 (by omega) body s h0 (by intro k hk; rw [Nat.mul_one] at *; exact h k hk)
  have e : divUp n 1 = n := by unfold divUp; simp
  rwa [e] at this

theorem wr_some (s : Arr) (y x : Nat) (b : Block) (hy : y < s.rows) (hx : x < s.cols) :
    wr s y x b = some { s with at_ := fun y' x' => if y' = y ∧ x' = x then b else s.at_ y' x' } := by
  unfold wr; rw [if_pos ⟨hy, hx⟩]

/-- The pair-swapping loop on row `y`. -/
theorem swap_row (a : Arr) (y cw : Nat) (hy : y < a.rows) (hw : cw ≤ a.cols) :
    ∃ a', forStep ((cw + 1) / 2) 1 (fun x a => do
        let b1 ← rd a y x
        let b2 ← rd a y (cw - x - 1)
        let a ← wr a y x (cpFlipH b2)
        wr a y (cw - x - 1) (cpFlipH b1)) a = some a' ∧ Dims a.rows a.cols a.maxaccess a' ∧
      (∀ y' x, y' ≠ y → a'.at_ y' x = a.at_ y' x) ∧
      ∀ x, a'.at_ y x = if x < cw then cpFlipH (a.at_ y (mir cw x)) else a.at_ y x := by
  obtain ⟨a', e, p⟩ := forStep1_inv (fun k s => Dims a.rows a.cols a.maxaccess s ∧
      (∀ y' x, y' ≠ y → s.at_ y' x = a.at_ y' x) ∧
      ∀ x, s.at_ y x = if x < k ∨ (cw - k ≤ x ∧ x < cw) then cpFlipH (a.at_ y (cw - 1 - x)) else a.at_ y x)
    ((cw + 1) / 2) (fun x a => do
        let b1 ← rd a y x
        let b2 ← rd a y (cw - x - 1)
        let a ← wr a y x (cpFlipH b2)
        wr a y (cw - x - 1) (cpFlipH b1)) a
    ⟨⟨rfl, rfl, rfl⟩, fun _ _ _ => rfl, fun x => by rw [if_neg]; omega⟩
    (by
      intro k hk s ⟨hd, ho, hr⟩
      have e1 : s.at_ y k = a.at_ y k := by rw [hr, if_neg]; omega
      have e2 : s.at_ y (cw - k - 1) = a.at_ y (cw - k - 1) := by rw [hr, if_neg]; omega
      rw [rd_some s y k (by rw [hd.1]; exact hy) (by rw [hd.2.1]; omega),
        rd_some s y (cw - k - 1) (by rw [hd.1]; exact hy) (by rw [hd.2.1]; omega), e1, e2]
      simp only [Option.bind_eq_bind, Option.bind_some]
      rw [wr_some s y k _ (by rw [hd.1]; exact hy) (by rw [hd.2.1]; omega)]
      simp only [Option.bind_some]
      rw [wr_some _ y (cw - k - 1) _ (by show y < s.rows; rw [hd.1]; exact hy)
        (by show _ < s.cols; rw [hd.2.1]; omega)]
      refine ⟨_, rfl, ⟨hd.1, hd.2.1, hd.2.2⟩, ?_, ?_⟩
      · intro y' x hne
        simp only
        rw [if_neg (fun h => hne h.1), if_neg (fun h => hne h.1)]
        exact ho y' x hne
      · intro x
        simp only [true_and]
        by_cases hx1 : x = cw - k - 1
        · rw [if_pos hx1, if_pos (by omega)]
          congr 2; omega
        · rw [if_neg hx1]
          by_cases hx2 : x = k
          · rw [if_pos hx2, if_pos (by omega)]
            congr 2; omega
          · rw [if_neg hx2, hr]
            by_cases hx3 : x < k ∨ (cw - k ≤ x ∧ x < cw)
            · rw [if_pos hx3, if_pos (by omega)]
            · rw [if_neg hx3, if_neg (by omega)])
  refine ⟨a', e, p.1, p.2.1, ?_⟩
  intro x
  rw [p.2.2 x]
  by_cases hx : x < cw
  · rw [if_pos (by omega), if_pos hx]
    unfold mir; rw [if_pos hx]
  · rw [if_neg (by omega), if_neg hx]

/-- The left-justifying loop on row `y`. -/
theorem justify_row (a : Arr) (y xc wb : Nat) (hy : y < a.rows) (hw : xc + wb ≤ a.cols) (hx : 0 < xc) :
    ∃ a', forStep wb 1 (fun x a => do
        let b ← rd a y (x + xc)
        wr a y x b) a = some a' ∧ Dims a.rows a.cols a.maxaccess a' ∧
      (∀ y' x, y' ≠ y → a'.at_ y' x = a.at_ y' x) ∧ ∀ x, x < wb → a'.at_ y x = a.at_ y (xc + x) := by
  obtain ⟨a', e, p⟩ := forStep1_inv (fun k s => Dims a.rows a.cols a.maxaccess s ∧
      (∀ y' x, y' ≠ y → s.at_ y' x = a.at_ y' x) ∧
      (∀ x, x < k → s.at_ y x = a.at_ y (xc + x)) ∧ (∀ x, k ≤ x → s.at_ y x = a.at_ y x))
    wb (fun x a => do
        let b ← rd a y (x + xc)
        wr a y x b) a
    ⟨⟨rfl, rfl, rfl⟩, fun _ _ _ => rfl, fun x h => by omega, fun _ _ => rfl⟩
    (by
      intro k hk s ⟨hd, ho, hr1, hr2⟩
      rw [rd_some s y _ (by rw [hd.1]; exact hy) (by rw [hd.2.1]; omega), hr2 (k + xc) (by omega)]
      simp only [Option.bind_eq_bind, Option.bind_some]
      rw [wr_some s y k _ (by rw [hd.1]; exact hy) (by rw [hd.2.1]; omega)]
      refine ⟨_, rfl, ⟨hd.1, hd.2.1, hd.2.2⟩, ?_, ?_, ?_⟩
      · intro y' x hne
        simp only
        rw [if_neg (fun h => hne h.1)]
        exact ho y' x hne
      · intro x hx'
        simp only [true_and]
        by_cases h1 : x = k
        · rw [if_pos h1, h1, Nat.add_comm]
        · rw [if_neg h1]; exact hr1 x (by omega)
      · intro x hx'
        simp only [true_and]
        rw [if_neg (by omega)]; exact hr2 x (by omega))
  exact ⟨a', e, p.1, p.2.1, p.2.2.1⟩

/-- Target of the horizontal flip (no vertical crop offset). -/
def flipHTarget (p : Par) (src : Arr) (y x : Nat) : Block :=
  let m := p.srcW / (p.maxH * 8) * p.hs
  let b := src.at_ y (mir m (p.xo * p.hs + x))
  if p.xo * p.hs + x < m then cpFlipH b else b

theorem doFlipHNoCrop_spec (p : Par) (a : Arr) (hv : 0 < p.vs) (hr : divUp p.hb p.vs * p.vs ≤ a.rows)
    (hc : p.xo * p.hs + p.wb ≤ a.cols) (hacc : p.vs ≤ a.maxaccess) (hm : p.srcW / (p.maxH * 8) * p.hs ≤ a.cols) :
    ∃ a', doFlipHNoCrop p a = some a' ∧ Dims a.rows a.cols a.maxaccess a' ∧
      ∀ y x, y < divUp p.hb p.vs * p.vs → x < p.wb → a'.at_ y x = flipHTarget p a y x := by
  let Q : Nat → Arr → Prop := fun t s => Dims a.rows a.cols a.maxaccess s ∧
    (∀ y x, y < t → x < p.wb → s.at_ y x = flipHTarget p a y x) ∧ (∀ y x, t ≤ y → s.at_ y x = a.at_ y x)
  have hrow : ∀ t s, t < a.rows → Q t s → ∃ s', (do
      let a ← forStep ((p.srcW / (p.maxH * 8) * p.hs + 1) / 2) 1 (fun x a => do
        let b1 ← rd a t x
        let b2 ← rd a t (p.srcW / (p.maxH * 8) * p.hs - x - 1)
        let a ← wr a t x (cpFlipH b2)
        wr a t (p.srcW / (p.maxH * 8) * p.hs - x - 1) (cpFlipH b1)) s
      if p.xo * p.hs > 0 then
        forStep p.wb 1 (fun x a => do
          let b ← rd a t (x + p.xo * p.hs)
          wr a t x b) a
      else pure a) = some s' ∧ Q (t + 1) s' := by
    intro t s ht ⟨hd, h1, h2⟩
    obtain ⟨s1, e1, d1, o1, r1⟩ := swap_row s t (p.srcW / (p.maxH * 8) * p.hs) (by rw [hd.1]; exact ht)
      (by rw [hd.2.1]; exact hm)
    rw [hd.1, hd.2.1, hd.2.2] at d1
    rw [e1]
    simp only [Option.bind_eq_bind, Option.bind_some]
    have hs1 : ∀ x, s1.at_ t (p.xo * p.hs + x) = flipHTarget p a t x := by
      intro x
      rw [r1]
      unfold flipHTarget
      simp only
      by_cases hx : p.xo * p.hs + x < p.srcW / (p.maxH * 8) * p.hs
      · rw [if_pos hx, if_pos hx, h2 _ _ (Nat.le_refl _)]
      · rw [if_neg hx, if_neg hx, h2 _ _ (Nat.le_refl _)]
        unfold mir; rw [if_neg hx]
    by_cases hx : p.xo * p.hs > 0
    · rw [if_pos hx]
      obtain ⟨s2, e2, d2, o2, r2⟩ := justify_row s1 t (p.xo * p.hs) p.wb (by rw [d1.1]; exact ht)
        (by rw [d1.2.1]; exact hc) hx
      rw [d1.1, d1.2.1, d1.2.2] at d2
      refine ⟨s2, e2, d2, ?_, ?_⟩
      · intro y x hy hxw
        by_cases hyt : y = t
        · subst hyt
          rw [r2 x hxw, hs1]
        · rw [o2 y x hyt, o1 y x hyt]
          exact h1 y x (by omega) hxw
      · intro y x hy
        rw [o2 y x (by omega), o1 y x (by omega)]
        exact h2 y x (by omega)
    · rw [if_neg hx]
      have hx0 : p.xo * p.hs = 0 := by omega
      refine ⟨s1, rfl, d1, ?_, ?_⟩
      · intro y x hy hxw
        by_cases hyt : y = t
        · subst hyt
          have := hs1 x
          rwa [hx0, Nat.zero_add] at this
        · rw [o1 y x hyt]
          exact h1 y x (by omega) hxw
      · intro y x hy
        rw [o1 y x (by omega)]
        exact h2 y x (by omega)
  unfold doFlipHNoCrop
  simp only
  refine (fun h : ∃ a', _ ∧ Q (divUp p.hb p.vs * p.vs) a' =>
    (let ⟨a', e, q⟩ := h; ⟨a', e, q.1, q.2.1⟩)) ?_
  refine forStep_inv (fun k s => Q (k * p.vs) s) p.hb p.vs hv _ a
    ⟨⟨rfl, rfl, rfl⟩, fun y x h => by omega, fun _ _ _ => rfl⟩ ?_
  · intro k hk s hq
    have hle := mul_add_le_roundup hk hv
    rw [access_some s _ _ (by rw [hq.1.1]; omega) (by rw [hq.1.2.2]; exact hacc)]
    obtain ⟨s', e, q⟩ := forStep1_inv (fun o s => Q (k * p.vs + o) s) p.vs (fun oy a => do
        let a ← forStep ((p.srcW / (p.maxH * 8) * p.hs + 1) / 2) 1 (fun x a => do
          let b1 ← rd a (k * p.vs + oy) x
          let b2 ← rd a (k * p.vs + oy) (p.srcW / (p.maxH * 8) * p.hs - x - 1)
          let a ← wr a (k * p.vs + oy) x (cpFlipH b2)
          wr a (k * p.vs + oy) (p.srcW / (p.maxH * 8) * p.hs - x - 1) (cpFlipH b1)) a
        if p.xo * p.hs > 0 then
          forStep p.wb 1 (fun x a => do
            let b ← rd a (k * p.vs + oy) (x + p.xo * p.hs)
            wr a (k * p.vs + oy) x b) a
        else pure a) s hq (by
      intro o ho s hq
      exact hrow (k * p.vs + o) s (by omega) hq)
    refine ⟨s', e, ?_⟩
    rw [Nat.add_mul, Nat.one_mul]; exact q

end Verif.Transf
