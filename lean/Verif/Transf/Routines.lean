import Verif.Transf.Loop
/-
Exact results of the transform routines, with crop offsets and partial iMCUs.
-/
namespace Verif.Transf

/-- Mirrored coordinate: position `z` is mirrored inside `0 .. m-1`, and kept if it is beyond. -/
def mir (m z : Nat) : Nat := if z < m then m - 1 - z else z

/-- Arrays are large enough for a routine that does not transpose. -/
structure FitsStraight (p : Par) (src dst : Arr) (mw mh : Nat) : Prop where
  hs : 0 < p.hs
  vs : 0 < p.vs
  dr : divUp p.hb p.vs * p.vs ≤ dst.rows
  dc : p.wb ≤ dst.cols
  da : p.vs ≤ dst.maxaccess
  sr : p.yo * p.vs + divUp p.hb p.vs * p.vs ≤ src.rows
  sc : p.xo * p.hs + p.wb ≤ src.cols
  sa : p.vs ≤ src.maxaccess
  mw : mw * p.hs ≤ src.cols
  mh : mh * p.vs ≤ src.rows

/-- Arrays are large enough for a routine that transposes. -/
structure FitsSwapped (p : Par) (src dst : Arr) (mw mh : Nat) : Prop where
  hs : 0 < p.hs
  vs : 0 < p.vs
  dr : divUp p.hb p.vs * p.vs ≤ dst.rows
  dc : divUp p.wb p.hs * p.hs ≤ dst.cols
  da : p.vs ≤ dst.maxaccess
  sr : p.xo * p.hs + divUp p.wb p.hs * p.hs ≤ src.rows
  sc : p.yo * p.vs + divUp p.hb p.vs * p.vs ≤ src.cols
  sa : p.hs ≤ src.maxaccess
  mw : mw * p.hs ≤ src.rows
  mh : mh * p.vs ≤ src.cols

/-- The result of a routine: same size, and the destination rectangle holds `T`. -/
def Result (dst : Arr) (h w : Nat) (T : Nat → Nat → Block) (r : Option Arr) : Prop :=
  ∃ a, r = some a ∧ SetOn (fun y x => y < h ∧ x < w) T dst a

theorem region_straight (hb vs wb : Nat) (hv : 0 < vs) (y x : Nat) :
    (∃ k, k * vs < hb ∧ ∃ o, o < vs ∧ ∃ k', k' < wb ∧ y = k * vs + o ∧ x = k') ↔ y < divUp hb vs * vs ∧ x < wb := by
  rw [← region_rows hb vs y hv]
  constructor
  · rintro ⟨k, hk, o, ho, k', hk', h1, rfl⟩
    exact ⟨⟨k, hk, o, ho, h1⟩, hk'⟩
  · rintro ⟨⟨k, hk, o, ho, h1⟩, hk'⟩
    exact ⟨k, hk, o, ho, x, hk', h1, rfl⟩

theorem region_swapped (hb vs wb hs : Nat) (hv : 0 < vs) (hh : 0 < hs) (y x : Nat) :
    (∃ k, k * vs < hb ∧ ∃ o, o < vs ∧ ∃ k', k' * hs < wb ∧ ∃ o', o' < hs ∧ y = k * vs + o ∧ x = k' * hs + o') ↔
      y < divUp hb vs * vs ∧ x < divUp wb hs * hs := by
  rw [← region_rows hb vs y hv, ← region_rows wb hs x hh]
  constructor
  · rintro ⟨k, hk, o, ho, k', hk', o', ho', h1, h2⟩
    exact ⟨⟨k, hk, o, ho, h1⟩, ⟨k', hk', o', ho', h2⟩⟩
  · rintro ⟨⟨k, hk, o, ho, h1⟩, ⟨k', hk', o', ho', h2⟩⟩
    exact ⟨k, hk, o, ho, k', hk', o', ho', h1, h2⟩

/-- A routine's outer loop body, after its access checks. -/
theorem straight_nest {T : Nat → Nat → Block} {r c m : Nat} (hb vs wb : Nat) (hv : 0 < vs) (dst : Arr)
    (hd : Dims r c m dst) (body : Nat → Arr → Option Arr) (row : Nat → Nat → Arr → Option Arr)
    (h1 : ∀ k, k * vs < hb → ∀ s, Dims r c m s → body (k * vs) s = forStep vs 1 (row (k * vs)) s)
    (h2 : ∀ k, k * vs < hb → ∀ o, o < vs → ∀ s, Dims r c m s → ∃ s', row (k * vs) o s = some s' ∧
      SetOn (fun y x => ∃ k', k' < wb ∧ y = k * vs + o ∧ x = k') T s s') :
    Result dst (divUp hb vs * vs) wb T (forStep hb vs body dst) := by
  obtain ⟨a, e, p⟩ := forStep_set (r := r) (c := c) (m := m) (T := T)
    (R := fun y0 y x => ∃ o, o < vs ∧ ∃ k', k' < wb ∧ y = y0 + o ∧ x = k') hb vs hv body (by
      intro k hk s hd
      rw [h1 k hk s hd]
      exact forStep1_set (R := fun o y x => ∃ k', k' < wb ∧ y = k * vs + o ∧ x = k') vs _ (h2 k hk) s hd) dst hd
  exact ⟨a, e, p.congr (region_straight hb vs wb hv)⟩

theorem swapped_nest {T : Nat → Nat → Block} {r c m : Nat} (hb vs wb hs : Nat) (hv : 0 < vs) (hh : 0 < hs) (dst : Arr)
    (hd : Dims r c m dst) (body : Nat → Arr → Option Arr) (src : Arr) (start : Nat → Nat)
    (cell : Nat → Nat → Nat → Nat → Arr → Option Arr)
    (h1 : ∀ k, k * vs < hb → ∀ s, Dims r c m s →
      body (k * vs) s = forStep vs 1 (fun o s => forStep wb hs (fun x s => do
        access src (start x) hs
        forStep hs 1 (cell (k * vs) o x) s) s) s)
    (h2 : ∀ k', k' * hs < wb → access src (start (k' * hs)) hs = some ())
    (h3 : ∀ k, k * vs < hb → ∀ o, o < vs → ∀ k', k' * hs < wb → ∀ o', o' < hs → ∀ s, Dims r c m s →
      ∃ s', cell (k * vs) o (k' * hs) o' s = some s' ∧
        SetOn (fun y x => y = k * vs + o ∧ x = k' * hs + o') T s s') :
    Result dst (divUp hb vs * vs) (divUp wb hs * hs) T (forStep hb vs body dst) := by
  obtain ⟨a, e, p⟩ := forStep_set (r := r) (c := c) (m := m) (T := T)
    (R := fun y0 y x => ∃ o, o < vs ∧ ∃ k', k' * hs < wb ∧ ∃ o', o' < hs ∧ y = y0 + o ∧ x = k' * hs + o')
    hb vs hv body (by
      intro k hk s hd
      rw [h1 k hk s hd]
      apply forStep1_set (R := fun o y x => ∃ k', k' * hs < wb ∧ ∃ o', o' < hs ∧ y = k * vs + o ∧ x = k' * hs + o') vs
        _ _ s hd
      intro o ho s hd
      apply forStep_set (R := fun x0 y x => ∃ o', o' < hs ∧ y = k * vs + o ∧ x = x0 + o') wb hs hh _ _ s hd
      intro k' hk' s hd
      rw [h2 k' hk']
      exact forStep1_set (R := fun o' y x => y = k * vs + o ∧ x = k' * hs + o') hs _ (h3 k hk o ho k' hk') s hd) dst hd
  exact ⟨a, e, p.congr (region_swapped hb vs wb hs hv hh)⟩

/-- Facts about one row index used in every routine. -/
theorem row_facts {k v hb yo mh rows : Nat} (hk : k * v < hb) (hv : 0 < v) (hsr : yo * v + divUp hb v * v ≤ rows)
    (hmh : mh * v ≤ rows) {o : Nat} (ho : o < v) :
    k * v + yo * v + v ≤ rows ∧ k * v + o < divUp hb v * v ∧ k * v + v ≤ divUp hb v * v ∧
    (yo * v + k * v < mh * v ↔ yo * v + (k * v + o) < mh * v) ∧
    (yo * v + k * v < mh * v → yo * v + k * v + v ≤ mh * v) := by
  have h1 := mul_add_le_roundup hk hv
  have h2 := lt_roundup hk ho
  refine ⟨by omega, h2, h1, ?_, ?_⟩
  · rw [← Nat.add_assoc, ← Nat.add_mul]
    exact (block_lt ho).symm
  · rw [← Nat.add_mul]
    exact block_le

theorem doCrop_spec (p : Par) (src dst : Arr) (h : FitsStraight p src dst 0 0) :
    Result dst (divUp p.hb p.vs * p.vs) p.wb (fun y x => src.at_ (p.yo * p.vs + y) (p.xo * p.hs + x))
      (doCrop p src dst) := by
  unfold doCrop
  have hd : Dims dst.rows dst.cols dst.maxaccess dst := ⟨rfl, rfl, rfl⟩
  have f1 := h.dc; have f2 := h.sc; have f3 := h.dr
  apply straight_nest _ _ _ h.vs dst hd _ (fun y oy s =>
      copyBlockRow src (y + p.yo * p.vs + oy) (p.xo * p.hs) (y + oy) 0 p.wb s)
  · intro k hk s hs
    obtain ⟨a1, a2, a3, -, -⟩ := row_facts (o := 0) hk h.vs h.sr h.mh h.vs
    rw [access_some s _ _ (by rw [hs.1]; omega) (by rw [hs.2.2]; exact h.da),
      access_some src _ _ (by omega) h.sa]
    rfl
  · intro k hk o ho s hs
    obtain ⟨a1, a2, a3, -, -⟩ := row_facts hk h.vs h.sr h.mh ho
    refine copyBlockRow_set' src
      (k * p.vs + p.yo * p.vs + o) (p.xo * p.hs) (k * p.vs + o) 0 p.wb s hs (by omega) (by omega) (by omega) (by omega)
      ?_ (by intro y x; simp)
    intro k' hk'
    simp only [Nat.zero_add]
    congr 1; omega

theorem doFlipH_spec (p : Par) (src dst : Arr) (h : FitsStraight p src dst (p.srcW / (p.maxH * 8)) 0) :
    Result dst (divUp p.hb p.vs * p.vs) p.wb (fun y x =>
      let m := p.srcW / (p.maxH * 8) * p.hs
      let b := src.at_ (p.yo * p.vs + y) (mir m (p.xo * p.hs + x))
      if p.xo * p.hs + x < m then cpFlipH b else b) (doFlipH p src dst) := by
  unfold doFlipH
  simp only
  have hd : Dims dst.rows dst.cols dst.maxaccess dst := ⟨rfl, rfl, rfl⟩
  have f1 := h.dc; have f2 := h.sc; have f3 := h.dr; have f4 := h.mw
  set cw := p.srcW / (p.maxH * 8) * p.hs with hcw
  refine straight_nest _ _ _ h.vs dst hd _ (fun y oy s => forStep p.wb 1 (fun x dst =>
        if p.xo * p.hs + x < cw then do
          let b ← rd src (y + p.yo * p.vs + oy) (cw - p.xo * p.hs - x - 1)
          wr dst (y + oy) x (cpFlipH b)
        else copyBlockRow src (y + p.yo * p.vs + oy) (x + p.xo * p.hs) (y + oy) x 1 dst) s) ?_ ?_
  · intro k hk s hs
    obtain ⟨a1, a2, a3, -, -⟩ := row_facts (o := 0) hk h.vs h.sr h.mh h.vs
    rw [access_some s _ _ (by rw [hs.1]; omega) (by rw [hs.2.2]; exact h.da),
      access_some src _ _ (by omega) h.sa]
    rfl
  · intro k hk o ho s hs
    obtain ⟨a1, a2, a3, -, -⟩ := row_facts hk h.vs h.sr h.mh ho
    apply forStep1_set (R := fun x0 y x => y = k * p.vs + o ∧ x = x0) _ _ _ s hs
    intro x hx s hs
    by_cases hc : p.xo * p.hs + x < cw
    · rw [if_pos hc]
      apply rdwr_set src _ _ _ _ cpFlipH s hs (by omega) (by omega) (by omega) (by omega)
      simp only [if_pos hc, mir]
      congr 2 <;> omega
    · rw [if_neg hc]
      refine copyBlockRow_set' src (k * p.vs + p.yo * p.vs + o) (x + p.xo * p.hs) (k * p.vs + o) x 1 s hs
        (by omega) (by omega) (by omega) (by omega)
        ?_ ?_
      · intro k' hk'
        have : k' = 0 := by omega
        subst this
        simp only [Nat.add_zero, if_neg hc, mir]
        congr 1 <;> omega
      · intro y' x'
        constructor
        · rintro ⟨k', hk', h1, h2⟩; exact ⟨h1, by omega⟩
        · rintro ⟨h1, h2⟩; exact ⟨0, by omega, h1, by omega⟩

theorem doFlipV_spec (p : Par) (src dst : Arr) (h : FitsStraight p src dst 0 (p.srcH / (p.maxV * 8))) :
    Result dst (divUp p.hb p.vs * p.vs) p.wb (fun y x =>
      let m := p.srcH / (p.maxV * 8) * p.vs
      let b := src.at_ (mir m (p.yo * p.vs + y)) (p.xo * p.hs + x)
      if p.yo * p.vs + y < m then cpFlipV b else b) (doFlipV p src dst) := by
  unfold doFlipV
  simp only
  have hd : Dims dst.rows dst.cols dst.maxaccess dst := ⟨rfl, rfl, rfl⟩
  have f1 := h.dc; have f2 := h.sc; have f3 := h.dr; have f4 := h.mh
  have hv := h.vs
  generalize hmh : p.srcH / (p.maxV * 8) = mh at *
  refine straight_nest _ _ _ h.vs dst hd _ (fun y oy dst => 
      if p.yo * p.vs + y < mh * p.vs then
        forStep p.wb 1 (fun x dst => do
          let b ← rd src ((if p.yo * p.vs + y < mh * p.vs then mh * p.vs - p.yo * p.vs - y - p.vs else y + p.yo * p.vs) + (p.vs - oy - 1)) (p.xo * p.hs + x)
          wr dst (y + oy) x (cpFlipV b)) dst
      else copyBlockRow src ((if p.yo * p.vs + y < mh * p.vs then mh * p.vs - p.yo * p.vs - y - p.vs else y + p.yo * p.vs) + oy) (p.xo * p.hs) (y + oy) 0 p.wb dst) ?_ ?_
  · intro k hk s hs
    obtain ⟨a1, a2, a3, a4, a5⟩ := row_facts (o := 0) hk h.vs h.sr h.mh h.vs
    rw [access_some s _ _ (by rw [hs.1]; omega) (by rw [hs.2.2]; exact h.da),
      access_some src _ _ (by split <;> omega) h.sa]
    rfl
  · intro k hk o ho s hs
    obtain ⟨a1, a2, a3, a4, a5⟩ := row_facts hk h.vs h.sr h.mh ho
    by_cases hc : p.yo * p.vs + k * p.vs < mh * p.vs
    · have hc' := a4.1 hc
      have a5' := a5 hc
      simp only [if_pos hc]
      apply forStep1_set (R := fun x0 y x => y = k * p.vs + o ∧ x = x0) _ _ _ s hs
      intro x hx s hs
      apply rdwr_set src _ _ _ _ cpFlipV s hs (by omega) (by omega) (by omega) (by omega)
      simp only [if_pos hc', mir]
      congr 2; omega
    · have hc' : ¬ p.yo * p.vs + (k * p.vs + o) < mh * p.vs := fun h => hc (a4.2 h)
      simp only [if_neg hc]
      refine copyBlockRow_set' src (k * p.vs + p.yo * p.vs + o) (p.xo * p.hs) (k * p.vs + o) 0 p.wb s hs
        (by omega) (by omega) (by omega) (by omega)
        ?_ (by intro y x; simp)
      intro k' hk'
      simp only [Nat.zero_add, if_neg hc', mir]
      congr 1; omega

theorem doRot180_spec (p : Par) (src dst : Arr)
    (h : FitsStraight p src dst (p.srcW / (p.maxH * 8)) (p.srcH / (p.maxV * 8))) :
    Result dst (divUp p.hb p.vs * p.vs) p.wb (fun y x =>
      let mw := p.srcW / (p.maxH * 8) * p.hs
      let mh := p.srcH / (p.maxV * 8) * p.vs
      let b := src.at_ (mir mh (p.yo * p.vs + y)) (mir mw (p.xo * p.hs + x))
      if p.yo * p.vs + y < mh then (if p.xo * p.hs + x < mw then cpRot180 b else cpFlipV b)
      else (if p.xo * p.hs + x < mw then cpFlipH b else b)) (doRot180 p src dst) := by
  unfold doRot180
  simp only
  have hd : Dims dst.rows dst.cols dst.maxaccess dst := ⟨rfl, rfl, rfl⟩
  have f1 := h.dc; have f2 := h.sc; have f3 := h.dr; have f4 := h.mh; have f5 := h.mw
  have hv := h.vs
  generalize hmh : p.srcH / (p.maxV * 8) = mh at *
  generalize hcw : p.srcW / (p.maxH * 8) * p.hs = cw at *
  refine straight_nest _ _ _ h.vs dst hd _ (fun y oy dst => 
      if p.yo * p.vs + y < mh * p.vs then
        forStep p.wb 1 (fun x dst =>
          if p.xo * p.hs + x < cw then do
            let b ← rd src ((if p.yo * p.vs + y < mh * p.vs then mh * p.vs - p.yo * p.vs - y - p.vs else y + p.yo * p.vs) + (p.vs - oy - 1)) (cw - p.xo * p.hs - x - 1)
            wr dst (y + oy) x (cpRot180 b)
          else do
            let b ← rd src ((if p.yo * p.vs + y < mh * p.vs then mh * p.vs - p.yo * p.vs - y - p.vs else y + p.yo * p.vs) + (p.vs - oy - 1)) (p.xo * p.hs + x)
            wr dst (y + oy) x (cpFlipV b)) dst
      else
        forStep p.wb 1 (fun x dst =>
          if p.xo * p.hs + x < cw then do
            let b ← rd src ((if p.yo * p.vs + y < mh * p.vs then mh * p.vs - p.yo * p.vs - y - p.vs else y + p.yo * p.vs) + oy) (cw - p.xo * p.hs - x - 1)
            wr dst (y + oy) x (cpFlipH b)
          else copyBlockRow src ((if p.yo * p.vs + y < mh * p.vs then mh * p.vs - p.yo * p.vs - y - p.vs else y + p.yo * p.vs) + oy) (x + p.xo * p.hs) (y + oy) x 1 dst) dst) ?_ ?_
  · intro k hk s hs
    obtain ⟨a1, a2, a3, a4, a5⟩ := row_facts (o := 0) hk h.vs h.sr h.mh h.vs
    rw [access_some s _ _ (by rw [hs.1]; omega) (by rw [hs.2.2]; exact h.da),
      access_some src _ _ (by split <;> omega) h.sa]
    rfl
  · intro k hk o ho s hs
    obtain ⟨a1, a2, a3, a4, a5⟩ := row_facts hk h.vs h.sr h.mh ho
    by_cases hc : p.yo * p.vs + k * p.vs < mh * p.vs
    · have hc' := a4.1 hc
      have a5' := a5 hc
      simp only [if_pos hc]
      apply forStep1_set (R := fun x0 y x => y = k * p.vs + o ∧ x = x0) _ _ _ s hs
      intro x hx s hs
      by_cases hx' : p.xo * p.hs + x < cw
      · rw [if_pos hx']
        apply rdwr_set src _ _ _ _ cpRot180 s hs (by omega) (by omega) (by omega) (by omega)
        simp only [if_pos hc', if_pos hx', mir]
        congr 2 <;> omega
      · rw [if_neg hx']
        apply rdwr_set src _ _ _ _ cpFlipV s hs (by omega) (by omega) (by omega) (by omega)
        simp only [if_pos hc', if_neg hx', mir]
        congr 2; omega
    · have hc' : ¬ p.yo * p.vs + (k * p.vs + o) < mh * p.vs := fun h => hc (a4.2 h)
      simp only [if_neg hc]
      apply forStep1_set (R := fun x0 y x => y = k * p.vs + o ∧ x = x0) _ _ _ s hs
      intro x hx s hs
      by_cases hx' : p.xo * p.hs + x < cw
      · rw [if_pos hx']
        apply rdwr_set src _ _ _ _ cpFlipH s hs (by omega) (by omega) (by omega) (by omega)
        simp only [if_neg hc', if_pos hx', mir]
        congr 2 <;> omega
      · rw [if_neg hx']
        refine copyBlockRow_set' src (k * p.vs + p.yo * p.vs + o) (x + p.xo * p.hs) (k * p.vs + o) x 1 s hs
          (by omega) (by omega) (by omega) (by omega)
          ?_ ?_
        · intro k' hk'
          have : k' = 0 := by omega
          subst this
          simp only [Nat.add_zero, if_neg hc', if_neg hx', mir]
          congr 1 <;> omega
        · intro y' x'
          constructor
          · rintro ⟨k', hk', h1, h2⟩; exact ⟨h1, by omega⟩
          · rintro ⟨h1, h2⟩; exact ⟨0, by omega, h1, by omega⟩

theorem doTranspose_spec (p : Par) (src dst : Arr) (h : FitsSwapped p src dst 0 0) :
    Result dst (divUp p.hb p.vs * p.vs) (divUp p.wb p.hs * p.hs) (fun y x =>
      cpTranspose (src.at_ (p.xo * p.hs + x) (p.yo * p.vs + y))) (doTranspose p src dst) := by
  unfold doTranspose
  simp only
  have hd : Dims dst.rows dst.cols dst.maxaccess dst := ⟨rfl, rfl, rfl⟩
  have f1 := h.dc; have f2 := h.sc; have f3 := h.dr
  refine swapped_nest _ _ _ _ h.vs h.hs dst hd _ src (fun x => x + p.xo * p.hs) (fun y oy x ox dst => do
          let b ← rd src (x + p.xo * p.hs + ox) (y + oy + p.yo * p.vs)
          wr dst (y + oy) (x + ox) (cpTranspose b)) ?_ ?_ ?_
  · intro k hk s hs
    obtain ⟨a1, a2, a3, a4, a5⟩ := row_facts (o := 0) hk h.vs h.sc h.mh h.vs
    rw [access_some s _ _ (by rw [hs.1]; omega) (by rw [hs.2.2]; exact h.da)]
    rfl
  · intro k' hk'
    obtain ⟨a1, a2, a3, a4, a5⟩ := row_facts (o := 0) hk' h.hs h.sr h.mw h.hs
    exact access_some src _ _ (by omega) h.sa
  · intro k hk o ho k' hk' o' ho' s hs
    obtain ⟨a1, a2, a3, -, -⟩ := row_facts hk h.vs h.sc h.mh ho
    obtain ⟨b1, b2, b3, -, -⟩ := row_facts hk' h.hs h.sr h.mw ho'
    apply rdwr_set src _ _ _ _ cpTranspose s hs (by omega) (by omega) (by omega) (by omega)
    congr 2 <;> omega

theorem doRot90_spec (p : Par) (src dst : Arr) (h : FitsSwapped p src dst (p.srcH / (p.maxH * 8)) 0) :
    Result dst (divUp p.hb p.vs * p.vs) (divUp p.wb p.hs * p.hs) (fun y x =>
      let m := p.srcH / (p.maxH * 8) * p.hs
      let b := src.at_ (mir m (p.xo * p.hs + x)) (p.yo * p.vs + y)
      if p.xo * p.hs + x < m then cpRot90 b else cpTranspose b) (doRot90 p src dst) := by
  unfold doRot90
  simp only
  have hd : Dims dst.rows dst.cols dst.maxaccess dst := ⟨rfl, rfl, rfl⟩
  have f1 := h.dc; have f2 := h.sc; have f3 := h.dr; have f4 := h.mw
  have hv := h.hs
  generalize hmw : p.srcH / (p.maxH * 8) = mw at *
  refine swapped_nest _ _ _ _ h.vs h.hs dst hd _ src
    (fun x => if p.xo * p.hs + x < mw * p.hs then mw * p.hs - p.xo * p.hs - x - p.hs else x + p.xo * p.hs) (fun y oy x ox dst => 
          if p.xo * p.hs + x < mw * p.hs then do
            let b ← rd src ((if p.xo * p.hs + x < mw * p.hs then mw * p.hs - p.xo * p.hs - x - p.hs else x + p.xo * p.hs) + (p.hs - ox - 1)) (y + oy + p.yo * p.vs)
            wr dst (y + oy) (x + ox) (cpRot90 b)
          else do
            let b ← rd src ((if p.xo * p.hs + x < mw * p.hs then mw * p.hs - p.xo * p.hs - x - p.hs else x + p.xo * p.hs) + ox) (y + oy + p.yo * p.vs)
            wr dst (y + oy) (x + ox) (cpTranspose b)) ?_ ?_ ?_
  · intro k hk s hs
    obtain ⟨a1, a2, a3, a4, a5⟩ := row_facts (o := 0) hk h.vs h.sc h.mh h.vs
    rw [access_some s _ _ (by rw [hs.1]; omega) (by rw [hs.2.2]; exact h.da)]
    rfl
  · intro k' hk'
    obtain ⟨a1, a2, a3, a4, a5⟩ := row_facts (o := 0) hk' h.hs h.sr h.mw h.hs
    exact access_some src _ _ (by split <;> omega) h.sa
  · intro k hk o ho k' hk' o' ho' s hs
    obtain ⟨a1, a2, a3, -, -⟩ := row_facts hk h.vs h.sc h.mh ho
    obtain ⟨b1, b2, b3, b4, b5⟩ := row_facts hk' h.hs h.sr h.mw ho'
    by_cases hc : p.xo * p.hs + k' * p.hs < mw * p.hs
    · have hc' := b4.1 hc
      have b5' := b5 hc
      simp only [if_pos hc]
      apply rdwr_set src _ _ _ _ cpRot90 s hs (by omega) (by omega) (by omega) (by omega)
      simp only [if_pos hc', mir]
      congr 2 <;> omega
    · have hc' : ¬ p.xo * p.hs + (k' * p.hs + o') < mw * p.hs := fun h => hc (b4.2 h)
      simp only [if_neg hc]
      apply rdwr_set src _ _ _ _ cpTranspose s hs (by omega) (by omega) (by omega) (by omega)
      simp only [if_neg hc', mir]
      congr 2 <;> omega

theorem doRot270_spec (p : Par) (src dst : Arr) (h : FitsSwapped p src dst 0 (p.srcW / (p.maxV * 8))) :
    Result dst (divUp p.hb p.vs * p.vs) (divUp p.wb p.hs * p.hs) (fun y x =>
      let m := p.srcW / (p.maxV * 8) * p.vs
      let b := src.at_ (p.xo * p.hs + x) (mir m (p.yo * p.vs + y))
      if p.yo * p.vs + y < m then cpRot270 b else cpTranspose b) (doRot270 p src dst) := by
  unfold doRot270
  simp only
  have hd : Dims dst.rows dst.cols dst.maxaccess dst := ⟨rfl, rfl, rfl⟩
  have f1 := h.dc; have f2 := h.sc; have f3 := h.dr; have f4 := h.mh
  have hv := h.hs
  generalize hmh : p.srcW / (p.maxV * 8) = mh at *
  refine swapped_nest _ _ _ _ h.vs h.hs dst hd _ src (fun x => x + p.xo * p.hs) (fun y oy x ox dst => 
          if p.yo * p.vs + y < mh * p.vs then do
            let b ← rd src (x + p.xo * p.hs + ox) (mh * p.vs - p.yo * p.vs - y - oy - 1)
            wr dst (y + oy) (x + ox) (cpRot270 b)
          else do
            let b ← rd src (x + p.xo * p.hs + ox) (y + oy + p.yo * p.vs)
            wr dst (y + oy) (x + ox) (cpTranspose b)) ?_ ?_ ?_
  · intro k hk s hs
    obtain ⟨a1, a2, a3, a4, a5⟩ := row_facts (o := 0) hk h.vs h.sc h.mh h.vs
    rw [access_some s _ _ (by rw [hs.1]; omega) (by rw [hs.2.2]; exact h.da)]
    rfl
  · intro k' hk'
    obtain ⟨a1, a2, a3, a4, a5⟩ := row_facts (o := 0) hk' h.hs h.sr h.mw h.hs
    exact access_some src _ _ (by omega) h.sa
  · intro k hk o ho k' hk' o' ho' s hs
    obtain ⟨a1, a2, a3, a4, a5⟩ := row_facts hk h.vs h.sc h.mh ho
    obtain ⟨b1, b2, b3, b4, b5⟩ := row_facts hk' h.hs h.sr h.mw ho'
    by_cases hc : p.yo * p.vs + k * p.vs < mh * p.vs
    · have hc' := a4.1 hc
      have a5' := a5 hc
      simp only [if_pos hc]
      apply rdwr_set src _ _ _ _ cpRot270 s hs (by omega) (by omega) (by omega) (by omega)
      simp only [if_pos hc', mir]
      congr 2 <;> omega
    · have hc' : ¬ p.yo * p.vs + (k * p.vs + o) < mh * p.vs := fun h => hc (a4.2 h)
      simp only [if_neg hc]
      apply rdwr_set src _ _ _ _ cpTranspose s hs (by omega) (by omega) (by omega) (by omega)
      simp only [if_neg hc', mir]
      congr 2 <;> omega

theorem doTransverse_spec (p : Par) (src dst : Arr)
    (h : FitsSwapped p src dst (p.srcH / (p.maxH * 8)) (p.srcW / (p.maxV * 8))) :
    Result dst (divUp p.hb p.vs * p.vs) (divUp p.wb p.hs * p.hs) (fun y x =>
      let mw := p.srcH / (p.maxH * 8) * p.hs
      let mh := p.srcW / (p.maxV * 8) * p.vs
      let b := src.at_ (mir mw (p.xo * p.hs + x)) (mir mh (p.yo * p.vs + y))
      if p.yo * p.vs + y < mh then (if p.xo * p.hs + x < mw then cpTransverse b else cpRot270 b)
      else (if p.xo * p.hs + x < mw then cpRot90 b else cpTranspose b)) (doTransverse p src dst) := by
  unfold doTransverse
  simp only
  have hd : Dims dst.rows dst.cols dst.maxaccess dst := ⟨rfl, rfl, rfl⟩
  have f1 := h.dc; have f2 := h.sc; have f3 := h.dr; have f4 := h.mh; have f5 := h.mw
  have hv := h.hs
  generalize hmh : p.srcW / (p.maxV * 8) = mh at *
  generalize hmw : p.srcH / (p.maxH * 8) = mw at *
  refine swapped_nest _ _ _ _ h.vs h.hs dst hd _ src
    (fun x => if p.xo * p.hs + x < mw * p.hs then mw * p.hs - p.xo * p.hs - x - p.hs else x + p.xo * p.hs) (fun y oy x ox dst => 
          if p.yo * p.vs + y < mh * p.vs then
            if p.xo * p.hs + x < mw * p.hs then do
              let b ← rd src ((if p.xo * p.hs + x < mw * p.hs then mw * p.hs - p.xo * p.hs - x - p.hs else x + p.xo * p.hs) + (p.hs - ox - 1)) (mh * p.vs - p.yo * p.vs - y - oy - 1)
              wr dst (y + oy) (x + ox) (cpTransverse b)
            else do
              let b ← rd src ((if p.xo * p.hs + x < mw * p.hs then mw * p.hs - p.xo * p.hs - x - p.hs else x + p.xo * p.hs) + ox) (mh * p.vs - p.yo * p.vs - y - oy - 1)
              wr dst (y + oy) (x + ox) (cpRot270 b)
          else
            if p.xo * p.hs + x < mw * p.hs then do
              let b ← rd src ((if p.xo * p.hs + x < mw * p.hs then mw * p.hs - p.xo * p.hs - x - p.hs else x + p.xo * p.hs) + (p.hs - ox - 1)) (y + oy + p.yo * p.vs)
              wr dst (y + oy) (x + ox) (cpRot90 b)
            else do
              let b ← rd src ((if p.xo * p.hs + x < mw * p.hs then mw * p.hs - p.xo * p.hs - x - p.hs else x + p.xo * p.hs) + ox) (y + oy + p.yo * p.vs)
              wr dst (y + oy) (x + ox) (cpTranspose b)) ?_ ?_ ?_
  · intro k hk s hs
    obtain ⟨a1, a2, a3, a4, a5⟩ := row_facts (o := 0) hk h.vs h.sc h.mh h.vs
    rw [access_some s _ _ (by rw [hs.1]; omega) (by rw [hs.2.2]; exact h.da)]
    rfl
  · intro k' hk'
    obtain ⟨a1, a2, a3, a4, a5⟩ := row_facts (o := 0) hk' h.hs h.sr h.mw h.hs
    exact access_some src _ _ (by split <;> omega) h.sa
  · intro k hk o ho k' hk' o' ho' s hs
    obtain ⟨a1, a2, a3, a4, a5⟩ := row_facts hk h.vs h.sc h.mh ho
    obtain ⟨b1, b2, b3, b4, b5⟩ := row_facts hk' h.hs h.sr h.mw ho'
    by_cases hc : p.yo * p.vs + k * p.vs < mh * p.vs
    · have hc' := a4.1 hc
      have a5' := a5 hc
      by_cases hx : p.xo * p.hs + k' * p.hs < mw * p.hs
      · have hx' := b4.1 hx
        have b5' := b5 hx
        simp only [if_pos hc, if_pos hx]
        apply rdwr_set src _ _ _ _ cpTransverse s hs (by omega) (by omega) (by omega) (by omega)
        simp only [if_pos hc', if_pos hx', mir]
        congr 2 <;> omega
      · have hx' : ¬ p.xo * p.hs + (k' * p.hs + o') < mw * p.hs := fun h => hx (b4.2 h)
        simp only [if_pos hc, if_neg hx]
        apply rdwr_set src _ _ _ _ cpRot270 s hs (by omega) (by omega) (by omega) (by omega)
        simp only [if_pos hc', if_neg hx', mir]
        congr 2 <;> omega
    · have hc' : ¬ p.yo * p.vs + (k * p.vs + o) < mh * p.vs := fun h => hc (a4.2 h)
      by_cases hx : p.xo * p.hs + k' * p.hs < mw * p.hs
      · have hx' := b4.1 hx
        have b5' := b5 hx
        simp only [if_neg hc, if_pos hx]
        apply rdwr_set src _ _ _ _ cpRot90 s hs (by omega) (by omega) (by omega) (by omega)
        simp only [if_neg hc', if_pos hx', mir]
        congr 2 <;> omega
      · have hx' : ¬ p.xo * p.hs + (k' * p.hs + o') < mw * p.hs := fun h => hx (b4.2 h)
        simp only [if_neg hc, if_neg hx]
        apply rdwr_set src _ _ _ _ cpTranspose s hs (by omega) (by omega) (by omega) (by omega)
        simp only [if_neg hc', if_neg hx', mir]
        congr 2 <;> omega

end Verif.Transf
