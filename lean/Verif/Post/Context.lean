import Verif.Post.Ptr
/-
C44: the main controller with context rows.
-/
namespace Verif.Post
variable {R : Type}

/-- iMCU row K is in list w. -/
def Held (k : Cfg R) (src : Src R) (K w : Nat) (x : CSt R) (c : Nat) : Prop :=
  ∀ j : Nat, j < k.g c * k.M → x.mem (pt (k.g c) (k.g c * k.M) w j) = src c (K * (k.g c * k.M) + j)
/-- The last two row groups of iMCU row K - 1 are at the end of list w. -/
def Prev (k : Cfg R) (src : Src R) (K w : Nat) (x : CSt R) (c : Nat) : Prop :=
  ∀ j : Int, ((k.g c * k.M : Nat) : Int) ≤ j → j < (k.g c * k.M + 2 * k.g c : Nat) → x.mem (pt (k.g c) (k.g c * k.M) w j) = src c ((K * (k.g c * k.M) : Nat) + j - (k.g c * k.M + 2 * k.g c : Nat)).toNat
/-- The row above iMCU row K is at the end of list w. -/
def Above (k : Cfg R) (src : Src R) (K w : Nat) (x : CSt R) (c : Nat) : Prop := x.mem (pt (k.g c) (k.g c * k.M) w (-1)) = k.clampRow src c ((K * (k.g c * k.M) : Nat) - 1)
/-- iMCU row K with the row above is visible in list w up to index B. -/
def View (k : Cfg R) (src : Src R) (K w B : Nat) (x : CSt R) (c : Nat) : Prop :=
  ∀ i : Int, -1 ≤ i → i < B → ∃ p, x.X w i = some p ∧ x.mem p = k.clampRow src c ((K * (k.g c * k.M) : Nat) + i)

/-- Buffer full, before CTX_PREPARE_FOR_IMCU; imcuCtr = K + 1. -/
structure Ready (k : Cfg R) (src : Src R) (K : Nat) (s : St R) : Prop where
  full : s.bufferFull = true
  ctr : s.imcuCtr = K + 1
  inRow : s.inRow = K + 1
  lt : K < k.total
  which : s.which < 2
  above : (K = 0 ∧ s.which = 0 ∧ ∀ c, c < k.n → Top (k.g c) (k.g c * k.M) (s.cs c) ∧ src.top c = src c 0) ∨ (∀ c, c < k.n → Norm (k.g c) (k.g c * k.M) (s.cs c) ∧ Above k src K s.which (s.cs c) c)
  held : ∀ c, c < k.n → Held k src K s.which (s.cs c) c

/-- In CTX_PROCESS_IMCU. -/
structure Proc (k : Cfg R) (src : Src R) (K : Nat) (s : St R) : Prop where
  full : s.bufferFull = true
  ctr : s.imcuCtr = K + 1
  inRow : s.inRow = K + 1
  lt : K < k.total
  which : s.which < 2
  state : s.ctxState = 1
  avail : s.avail = if K + 1 = k.total then k.bottomAvail else k.M - 1
  q : s.rowgroupCtr < s.avail
  ups : Ups k src (K * k.M + s.rowgroupCtr) s
  view : ∀ c, c < k.n → View k src K s.which (if K + 1 = k.total then k.rowsLeft c + 2 * k.g c else k.g c * k.M) (s.cs c) c
  any : ∀ c, c < k.n → ∀ w, w < 2 → ∀ j : Int, 0 ≤ j → j < (k.g c * k.M + 2 * k.g c : Nat) → ∃ p, (s.cs c).X w j = some p
  more : K + 1 < k.total → ∀ c, c < k.n → Base (k.g c) (k.g c * k.M) (s.cs c) ∧ (0 < K → Norm (k.g c) (k.g c * k.M) (s.cs c)) ∧ Held k src K s.which (s.cs c) c

/-- In CTX_POSTPONED_ROW with the next iMCU row, K, loaded. -/
structure Postp (k : Cfg R) (src : Src R) (K : Nat) (s : St R) : Prop extends Ready k src K s where
  pos : 0 < K
  norm : ∀ c, c < k.n → Norm (k.g c) (k.g c * k.M) (s.cs c)
  prev : ∀ c, c < k.n → Prev k src K s.which (s.cs c) c
  state : s.ctxState = 2
  avail : s.avail = k.M + 2
  q : s.rowgroupCtr = k.M + 1
  ups : Ups k src (K * k.M - 1) s

/-- In CTX_POSTPONED_ROW, iMCU row K still to be loaded. -/
structure Waiting (k : Cfg R) (src : Src R) (K : Nat) (s : St R) : Prop where
  full : s.bufferFull = false
  ctr : s.imcuCtr = K
  inRow : s.inRow = K
  pos : 0 < K
  lt : K < k.total
  which : s.which < 2
  norm : ∀ c, c < k.n → Norm (k.g c) (k.g c * k.M) (s.cs c)
  held : ∀ c, c < k.n → Held k src (K - 1) (s.which ^^^ 1) (s.cs c) c
  state : s.ctxState = 2
  avail : s.avail = k.M + 2
  q : s.rowgroupCtr = k.M + 1
  ups : Ups k src (K * k.M - 1) s
  next : s.nextRowOut = k.maxV

/-- Nothing read yet. -/
structure Start (k : Cfg R) (src : Src R) (s : St R) : Prop where
  full : s.bufferFull = false
  ctr : s.imcuCtr = 0
  inRow : s.inRow = 0
  which : s.which = 0
  top : ∀ c, c < k.n → Top (k.g c) (k.g c * k.M) (s.cs c)
  first : ∀ c, c < k.n → src.top c = src c 0
  state : s.ctxState = 0
  ups : Ups k src 0 s
  next : s.nextRowOut = k.maxV

/-- After jpeg_skip_scanlines, iMCU row K still to be loaded. -/
structure Fresh (k : Cfg R) (src : Src R) (K : Nat) (s : St R) : Prop where
  full : s.bufferFull = false
  ctr : s.imcuCtr = K
  inRow : s.inRow = K
  lt : K < k.total
  which : s.which < 2
  norm : ∀ c, c < k.n → Norm (k.g c) (k.g c * k.M) (s.cs c)
  above : ∀ c, c < k.n → Above k src K s.which (s.cs c) c
  state : s.ctxState = 0
  ups : Ups k src (K * k.M) s
  next : s.nextRowOut = k.maxV

/-- The states between calls. -/
inductive Phase (k : Cfg R) (src : Src R) (s : St R) : Prop where
  | start (h : Start k src s)
  | empty (K : Nat) (h : Waiting k src K s)
  | fresh (K : Nat) (h : Fresh k src K s)
  | postp (K : Nat) (h : Postp k src K s) (nx : s.nextRowOut < k.maxV)
  | ready (K : Nat) (h : Ready k src K s) (pos : 0 < K) (norm : ∀ c, c < k.n → Norm (k.g c) (k.g c * k.M) (s.cs c)) (st : s.ctxState = 0) (ups : Ups k src (K * k.M) s) (next : s.nextRowOut = k.maxV)
  | proc (K : Nat) (h : Proc k src K s) (nx : s.rowgroupCtr = 0 → s.nextRowOut < k.maxV)
  | done (h : s.out.length = k.H)

section
variable {k : Cfg R} (hk : k.Ok) (hctx : k.context = true)
include hk hctx

theorem clampRow_id {src : Src R} {c : Nat} {r : Int} (h0 : 0 ≤ r) (h1 : r < k.dh c) : k.clampRow src c r = src c r.toNat := by
  unfold Cfg.clampRow
  rw [if_neg (by omega)]
  congr 1
  omega

theorem above_of_prev {src : Src R} {K w c : Nat} {x : CSt R} (hc : c < k.n) (hp : 0 < K) (hK : K < k.total) (h : Prev k src K w x c) : Above k src K w x c := by
  obtain ⟨h2, hn, hm⟩ := sizes hk hctx hc
  have hg := (hk.g c hc).1
  have hK0 := (lt_total hk hc).1 hK
  have hKP : k.g c * k.M ≤ K * (k.g c * k.M) := by
    calc k.g c * k.M = 1 * (k.g c * k.M) := by ring
      _ ≤ K * (k.g c * k.M) := Nat.mul_le_mul_right _ hp
  unfold Above
  unfold Prev at h
  generalize hP : k.g c * k.M = P at *
  rw [pt_neg (by omega) (by omega), h (-1 + (P + 2 * k.g c : Nat)) (by omega) (by omega), clampRow_id hk hctx (by omega) (by omega)]
  congr 1
  omega

theorem Ready.base {src : Src R} {K : Nat} {s : St R} (h : Ready k src K s) : ∀ c, c < k.n → Base (k.g c) (k.g c * k.M) (s.cs c) := by
  intro c hc
  rcases h.above with ⟨_, _, h⟩ | h
  · exact (h c hc).1.1
  · exact (h c hc).1.base

/-- iMCU rows before the last are complete. -/
theorem complete {K c : Nat} (hc : c < k.n) (h : K < k.total) : K * (k.g c * k.M) < k.dh c := (lt_total hk hc).1 h

theorem view_of_ready {src : Src R} {K : Nat} {s : St R} (h : Ready k src K s) {c : Nat} (hc : c < k.n) :
    View k src K s.which (if K + 1 = k.total then k.rowsLeft c else k.g c * k.M) (s.cs c) c := by
  obtain ⟨h2, hn, hm⟩ := sizes hk hctx hc
  have hg := (hk.g c hc).1
  have hrow : K * (k.g c * k.M) + (if K + 1 = k.total then k.rowsLeft c else k.g c * k.M) ≤ k.dh c := by
    split
    · rename_i hl
      have := (rowsLeft_eq hk hc).1
      rw [← hl] at this
      simp only [Nat.add_sub_cancel] at this
      omega
    · rename_i hl
      have := complete hk hctx hc (K := K + 1) (by have := h.lt; omega)
      rw [Nat.succ_mul] at this
      omega
  have hB : (if K + 1 = k.total then k.rowsLeft c else k.g c * k.M) ≤ k.g c * k.M := by
    split
    · exact (rowsLeft_eq hk hc).2.2
    · omega
  generalize (if K + 1 = k.total then k.rowsLeft c else k.g c * k.M) = B at *
  have hK0 := complete hk hctx hc h.lt
  generalize hP : k.g c * k.M = P at *
  intro i h0 h1
  have hbase : Base (k.g c) P (s.cs c) := by rw [← hP]; exact Ready.base hk hctx h c hc
  by_cases hi : 0 ≤ i
  · refine ⟨_, hbase s.which h.which i hi (by omega), ?_⟩
    obtain ⟨n, rfl⟩ : ∃ n : Nat, i = n := ⟨i.toNat, by omega⟩
    have := h.held c hc n (by rw [hP]; omega)
    rw [hP] at this
    rw [this, hP, clampRow_id hk hctx (by omega) (by omega)]
    congr 1
  · have hi1 : i = -1 := by omega
    subst hi1
    rcases h.above with ⟨hz, hw, ht⟩ | hp
    · rw [hw]
      refine ⟨0, (ht c hc).1.2 (-1) (by omega) (by omega), ?_⟩
      have := h.held c hc 0 (by rw [hP]; omega)
      rw [hP, hw] at this
      have e0 : pt (k.g c) P 0 ((0 : Nat) : Int) = 0 := by
        unfold pt; simp; split <;> omega
      rw [e0, hz] at this
      rw [this, hz]
      unfold Cfg.clampRow
      rw [if_pos (by omega), (ht c hc).2]
      congr 1
      omega
    · obtain ⟨hno, hpr⟩ := hp c hc
      rw [hP] at hno
      refine ⟨_, hno s.which h.which (-1) (by omega) (by omega), ?_⟩
      unfold Above at hpr
      rw [hP] at hpr
      rw [hpr, hP]
      rfl

theorem window_of_view {src : Src R} {K w B c q : Nat} {x : CSt R} (hv : View k src K w B x c) (hq : q * k.g c + k.g c < B) : Window k src w q (K * k.M + q) x c := by
  intro j h0 h1
  rw [if_pos hctx] at h0 h1
  obtain ⟨p, e1, e2⟩ := hv ((q * k.g c : Nat) + j) (by omega) (by omega)
  refine ⟨p, e1, ?_⟩
  rw [e2]
  unfold Cfg.rowAt
  rw [if_pos hctx]
  congr 1
  push_cast
  ring

theorem window_postponed {src : Src R} {K : Nat} {s : St R} (h : Postp k src K s) {c : Nat} (hc : c < k.n) : Window k src s.which (k.M + 1) (K * k.M - 1) (s.cs c) c := by
  obtain ⟨h2, hn, hm⟩ := sizes hk hctx hc
  have hg := (hk.g c hc).1
  have hK0 := complete hk hctx hc h.lt
  have hp := h.pos
  have hno := h.norm c hc
  have hpr := h.prev c hc
  have e1 : (k.M + 1) * k.g c = k.g c * k.M + k.g c := by ring
  have hKM : 0 < K * k.M := Nat.mul_pos hp hk.m
  have e2 : (K * k.M - 1) * k.g c + k.g c = K * (k.g c * k.M) := by
    rw [← Nat.succ_mul, Nat.succ_eq_add_one, Nat.sub_add_cancel hKM]; ring
  have hKP : k.g c * k.M ≤ K * (k.g c * k.M) := by
    calc k.g c * k.M = 1 * (k.g c * k.M) := by ring
      _ ≤ K * (k.g c * k.M) := Nat.mul_le_mul_right _ hp
  have hheld := h.held c hc 0 (by omega)
  unfold Prev at hpr
  generalize hP : k.g c * k.M = P at *
  intro j h0 h1
  rw [if_pos hctx] at h0 h1
  rw [e1]
  refine ⟨_, hno s.which h.which _ (by omega) (by omega), ?_⟩
  unfold Cfg.rowAt
  rw [if_pos hctx, clampRow_id hk hctx (by omega) (by omega)]
  by_cases hj : j < k.g c
  · rw [hpr _ (by omega) (by omega)]
    congr 1
    omega
  · rw [pt_over (by omega) (by omega), show ((P + k.g c : Nat) : Int) + j - (P + 2 * k.g c : Nat) = ((0 : Nat) : Int) by omega, hheld]
    congr 1
    omega

theorem prepare_ok {src : Src R} {K : Nat} {s : St R} (h : Ready k src K s) (hC : Common k src s) (hU : Ups k src (K * k.M) s) (hn : s.nextRowOut = k.maxV) :
    ∃ s', k.ctxPrepare s = some s' ∧ Common k src s' ∧ Proc k src K s' ∧ s'.out = s.out ∧ s'.outScan = s.outScan := by
  have hbase := Ready.base hk hctx h
  unfold Cfg.ctxPrepare
  by_cases hl : s.imcuCtr = k.total
  · rw [if_pos hl]
    have hl' : K + 1 = k.total := by rw [← h.ctr]; exact hl
    obtain ⟨cs', e1, e2⟩ := forC_spec (k := k) (f := k.setBottom s.which) (fun c y => y.mem = (s.cs c).mem ∧ y.color = (s.cs c).color ∧
        (∀ j : Int, y.X s.which j = if (k.rowsLeft c : Int) ≤ j ∧ j < (k.rowsLeft c + 2 * k.g c : Nat) then (s.cs c).X s.which ((k.rowsLeft c : Int) - 1) else (s.cs c).X s.which j) ∧
        ∀ w, w ≠ s.which → ∀ j, y.X w j = (s.cs c).X w j) s.cs (by
      intro c hc
      have hv := view_of_ready hk hctx h hc
      rw [if_pos hl'] at hv
      obtain ⟨p, hp, _⟩ := hv ((k.rowsLeft c : Int) - 1) (by have := (rowsLeft_eq hk hc).2.1; omega) (by omega)
      obtain ⟨y, f1, f2, f3, f4⟩ := setBottom_ok hk hctx hc (s.cs c) ⟨p, hp⟩
      refine ⟨y, f1, f2, f3, f4, ?_⟩
      -- the other list is not touched
      have key : ∀ n a b, loop (fun i x => do
        let p ← x.X s.which ((k.rowsLeft c : Int) - 1)
        k.setPtr c s.which ((k.rowsLeft c : Int) + i) p x) n a = some b → ∀ w, w ≠ s.which → ∀ j, b.X w j = a.X w j := by
        intro n
        induction n with
        | zero => intro a b hab w _ j; simp only [loop, Option.some.injEq] at hab; rw [hab]
        | succ n ih =>
          intro a b hab w hw j
          simp only [loop, Option.bind_eq_bind, Option.bind_eq_some_iff] at hab
          obtain ⟨m, hm, p, _, hs⟩ := hab
          unfold Cfg.setPtr at hs
          split at hs
          · simp only [Option.some.injEq] at hs
            rw [← hs]
            simp only [hw, false_and, if_false]
            exact ih a m hm w hw j
          · cases hs
      exact key _ _ _ f1)
    refine ⟨{ s with cs := cs', rowgroupCtr := 0, avail := k.bottomAvail, ctxState := 1 }, by rw [e1]; rfl, hC.congr rfl rfl, ?_, rfl, rfl⟩
    refine { full := h.full, ctr := h.ctr, inRow := h.inRow, lt := h.lt, which := h.which, state := rfl, avail := by rw [if_pos hl'], q := (bottomAvail_eq hk hk.n).2.2.2.1, ups := ?_, view := ?_, any := ?_, more := fun h => by omega }
    · exact hU.congr rfl rfl (Or.inl hn)
    · intro c hc
      obtain ⟨f1, f2, f3, f4⟩ := e2 c hc
      have hv := view_of_ready hk hctx h hc
      rw [if_pos hl'] at hv ⊢
      have hd := (rowsLeft_eq hk hc).1
      have hr1 := (rowsLeft_eq hk hc).2.1
      rw [← hl', Nat.add_sub_cancel] at hd
      intro i h0 h1
      simp only
      rw [f3, f1]
      by_cases hi : (k.rowsLeft c : Int) ≤ i
      · rw [if_pos ⟨hi, h1⟩]
        obtain ⟨p, g1, g2⟩ := hv ((k.rowsLeft c : Int) - 1) (by omega) (by omega)
        refine ⟨p, g1, ?_⟩
        rw [g2]
        unfold Cfg.clampRow
        rw [if_neg (by omega), if_neg (by omega)]
        congr 1
        omega
      · rw [if_neg (by omega)]
        exact hv i h0 (by omega)
    · intro c hc w hw j h0 h1
      obtain ⟨f1, f2, f3, f4⟩ := e2 c hc
      simp only
      by_cases hww : w = s.which
      · subst hww
        rw [f3]
        have hv := view_of_ready hk hctx h hc
        rw [if_pos hl'] at hv
        have hr1 := (rowsLeft_eq hk hc).2.1
        split
        · obtain ⟨p, g1, _⟩ := hv ((k.rowsLeft c : Int) - 1) (by omega) (by omega)
          exact ⟨p, g1⟩
        · exact ⟨_, hbase c hc _ hw j h0 h1⟩
      · rw [f4 w hww]
        exact ⟨_, hbase c hc _ hw j h0 h1⟩
  · rw [if_neg hl]
    have hl' : ¬ K + 1 = k.total := by rw [← h.ctr]; exact hl
    refine ⟨{ s with rowgroupCtr := 0, avail := k.M - 1, ctxState := 1 }, rfl, hC.congr rfl rfl, ?_, rfl, rfl⟩
    refine { full := h.full, ctr := h.ctr, inRow := h.inRow, lt := h.lt, which := h.which, state := rfl, avail := by rw [if_neg hl'], q := by have := hk.ctx hctx; simp only; omega, ups := ?_, view := ?_, any := ?_, more := ?_ }
    · exact hU.congr rfl rfl (Or.inl hn)
    · intro c hc
      have hv := view_of_ready hk hctx h hc
      rw [if_neg hl'] at hv ⊢
      exact hv
    · intro c hc w hw j h0 h1
      exact ⟨_, hbase c hc w hw j h0 h1⟩
    · intro _ c hc
      refine ⟨hbase c hc, fun hp => ?_, h.held c hc⟩
      rcases h.above with ⟨hz, _⟩ | ha
      · omega
      · exact (ha c hc).1


theorem setWrap_some {c : Nat} (hc : c < k.n) (x : CSt R) (hx : ∀ w, w < 2 → ∀ j : Int, 0 ≤ j → j < (k.g c * k.M + 2 * k.g c : Nat) → ∃ p, x.X w j = some p) : ∃ y, k.setWrap c x = some y := by
  obtain ⟨h2, hn, hm⟩ := sizes hk hctx hc
  have hg := (hk.g c hc).1
  have hb : (k.g c : Int) * (k.M + 3) = (k.g c * k.M + 3 * k.g c : Nat) := by push_cast; ring
  have hb1 : (k.g c : Int) * (k.M + 1) = (k.g c * k.M + k.g c : Nat) := by push_cast; ring
  have hb2 : (k.g c : Int) * (k.M + 2) = (k.g c * k.M + 2 * k.g c : Nat) := by push_cast; ring
  generalize hP : k.g c * k.M = P at *
  have keep : ∀ (z : CSt R) w i p, (∀ w, w < 2 → ∀ j : Int, 0 ≤ j → j < (P + 2 * k.g c : Nat) → ∃ p, z.X w j = some p) → -(k.g c : Int) ≤ i → i < (P + 3 * k.g c : Nat) →
      ∃ y, k.setPtr c w i p z = some y ∧ ∀ w, w < 2 → ∀ j : Int, 0 ≤ j → j < (P + 2 * k.g c : Nat) → ∃ p, y.X w j = some p := by
    intro z w i p hz h0 h1
    refine ⟨_, setPtr_ok h0 (by rw [hb]; exact h1), ?_⟩
    intro w' hw' j a b
    simp only
    split
    · exact ⟨p, rfl⟩
    · exact hz w' hw' j a b
  obtain ⟨y, e1, _⟩ := loop_inv (f := fun i x => do
      let p ← x.X 0 ((k.g c : Int) * (k.M + 1) + i)
      let x ← k.setPtr c 0 ((i : Int) - k.g c) p x
      let p ← x.X 1 ((k.g c : Int) * (k.M + 1) + i)
      let x ← k.setPtr c 1 ((i : Int) - k.g c) p x
      let p ← x.X 0 i
      let x ← k.setPtr c 0 ((k.g c : Int) * (k.M + 2) + i) p x
      let p ← x.X 1 i
      k.setPtr c 1 ((k.g c : Int) * (k.M + 2) + i) p x) (fun i y => ∀ w, w < 2 → ∀ j : Int, 0 ≤ j → j < (P + 2 * k.g c : Nat) → ∃ p, y.X w j = some p) (k.g c) x hx (by
    intro i z hi hz
    rw [hb1, hb2]
    obtain ⟨p1, a1⟩ := hz 0 (by omega) (((P + k.g c : Nat) : Int) + i) (by omega) (by omega)
    obtain ⟨z1, b1, c1⟩ := keep z 0 ((i : Int) - k.g c) p1 hz (by omega) (by omega)
    obtain ⟨p2, a2⟩ := c1 1 (by omega) (((P + k.g c : Nat) : Int) + i) (by omega) (by omega)
    obtain ⟨z2, b2, c2⟩ := keep z1 1 ((i : Int) - k.g c) p2 c1 (by omega) (by omega)
    obtain ⟨p3, a3⟩ := c2 0 (by omega) (i : Int) (by omega) (by omega)
    obtain ⟨z3, b3, c3⟩ := keep z2 0 (((P + 2 * k.g c : Nat) : Int) + i) p3 c2 (by omega) (by omega)
    obtain ⟨p4, a4⟩ := c3 1 (by omega) (i : Int) (by omega) (by omega)
    obtain ⟨z4, b4, c4⟩ := keep z3 1 (((P + 2 * k.g c : Nat) : Int) + i) p4 c3 (by omega) (by omega)
    exact ⟨z4, by simp only [a1, b1, a2, b2, a3, b3, a4, b4, Option.bind_eq_bind, Option.bind_some], c4⟩)
  exact ⟨y, e1⟩

/-- The result of a step that starts with `o` rows already returned in this call. -/
structure Step (k : Cfg R) (src : Src R) (o max : Nat) (s : St R) (o' : Nat) (s' : St R) : Prop where
  common : Common k src s'
  phase : Phase k src s'
  len : s'.out.length + o = s.out.length + o'
  le : o ≤ o' ∧ o' ≤ max
  progress : o < max → s.out.length < k.H → o < o'
  lined : o < max → s'.out.length < k.H → 0 < s'.nextRowOut
  scan : s'.outScan = s.outScan

theorem switch_ok {src : Src R} {K : Nat} {s : St R} (hC : Common k src s) (hctr : s.imcuCtr = K + 1) (hin : s.inRow = K + 1) (hK : K < k.total) (hw : s.which < 2) (hn : s.nextRowOut = k.maxV)
    (hU : Ups k src (K * k.M + (if K + 1 = k.total then k.bottomAvail else k.M - 1)) s)
    (any : ∀ c, c < k.n → ∀ w, w < 2 → ∀ j : Int, 0 ≤ j → j < (k.g c * k.M + 2 * k.g c : Nat) → ∃ p, (s.cs c).X w j = some p)
    (more : K + 1 < k.total → ∀ c, c < k.n → Base (k.g c) (k.g c * k.M) (s.cs c) ∧ (0 < K → Norm (k.g c) (k.g c * k.M) (s.cs c)) ∧ Held k src K s.which (s.cs c) c) :
    ∃ s', k.ctxSwitch s = some s' ∧ Common k src s' ∧ Phase k src s' ∧ s'.out = s.out ∧ s'.outScan = s.outScan ∧ s'.nextRowOut = k.maxV := by
  have hwx : (s.which ^^^ 1) < 2 := by
    rcases (show s.which = 0 ∨ s.which = 1 by omega) with h | h <;> rw [h] <;> decide
  have hxx : (s.which ^^^ 1) ^^^ 1 = s.which := by
    rcases (show s.which = 0 ∨ s.which = 1 by omega) with h | h <;> rw [h] <;> rfl
  unfold Cfg.ctxSwitch
  obtain ⟨cs', e1, e2⟩ : ∃ cs', k.wrapIf s = some cs' ∧ (K + 1 < k.total → ∀ c, c < k.n → (cs' c).mem = (s.cs c).mem ∧ Norm (k.g c) (k.g c * k.M) (cs' c)) := by
    unfold Cfg.wrapIf
    by_cases h1 : s.imcuCtr = 1
    · rw [if_pos h1]
      by_cases hm : K + 1 < k.total
      · obtain ⟨cs', e1, e2⟩ := forC_spec (k := k) (f := k.setWrap) (fun c y => y.mem = (s.cs c).mem ∧ Norm (k.g c) (k.g c * k.M) y) s.cs (fun c hc => by
          obtain ⟨y, f1, f2, _, f4⟩ := setWrap_ok hk hctx hc (s.cs c) (more hm c hc).1
          exact ⟨y, f1, f2, f4⟩)
        exact ⟨cs', e1, fun _ => e2⟩
      · obtain ⟨cs', e1, _⟩ := forC_spec (k := k) (f := k.setWrap) (fun c y => True) s.cs (fun c hc => by
          obtain ⟨y, f1⟩ := setWrap_some hk hctx hc (s.cs c) (any c hc)
          exact ⟨y, f1, trivial⟩)
        exact ⟨cs', e1, fun h => absurd h hm⟩
    · rw [if_neg h1]
      exact ⟨s.cs, rfl, fun hm c hc => ⟨rfl, (more hm c hc).2.1 (by omega)⟩⟩
  refine ⟨{ s with cs := cs', which := s.which ^^^ 1, bufferFull := false, rowgroupCtr := k.M + 1, avail := k.M + 2, ctxState := 2 }, by rw [e1]; rfl, hC.congr rfl rfl, ?_, rfl, rfl, hn⟩
  by_cases hm : K + 1 < k.total
  · refine .empty (K + 1) { full := rfl, ctr := hctr, inRow := hin, pos := by omega, lt := hm, which := hwx, norm := fun c hc => (e2 hm c hc).2, held := ?_, state := rfl, avail := rfl, q := rfl, ups := ?_, next := hn }
    · intro c hc j hj
      simp only [hxx, Nat.add_sub_cancel]
      rw [(e2 hm c hc).1]
      exact (more hm c hc).2.2 j hj
    · rw [if_neg (by omega)] at hU
      have e : (K + 1) * k.M - 1 = K * k.M + (k.M - 1) := by
        rw [Nat.succ_mul]; have := hk.m; omega
      rw [e]
      exact hU.congr rfl rfl (Or.inl hn)
  · have hl : K + 1 = k.total := by omega
    rw [if_pos hl] at hU
    refine .done ?_
    have hpos := hU.pos
    rw [if_pos hn, Nat.add_zero] at hpos
    have hb := (bottomAvail_eq hk hk.n).1
    rw [← hl, Nat.add_sub_cancel] at hb
    rw [hb] at hpos
    have := H_le hk
    have := hC.le
    simp only
    omega

theorem process_ok {src : Src R} {K o max : Nat} {s : St R} (h : Proc k src K s) (hC : Common k src s) (ho : o ≤ max) : ∃ o' s', k.ctxProcess o max s = some (o', s') ∧ Step k src o max s o' s' := by
  have hq : ∀ c, c < k.n → s.rowgroupCtr * k.g c + k.g c < (if K + 1 = k.total then k.rowsLeft c + 2 * k.g c else k.g c * k.M) := by
    intro c hc
    have h1 := h.q
    have h2 := h.avail
    have hg := (hk.g c hc).1
    have h3 : (s.rowgroupCtr + 1) * k.g c ≤ s.avail * k.g c := Nat.mul_le_mul_right _ h1
    rw [Nat.succ_mul] at h3
    split at h2
    · rename_i hl
      rw [if_pos hl]
      have := (bottomAvail_eq hk hc).2.1
      rw [h2] at h3
      omega
    · rename_i hl
      rw [if_neg hl]
      rw [h2] at h3
      have : (k.M - 1) * k.g c + k.g c = k.g c * k.M := by
        rw [← Nat.succ_mul, Nat.succ_eq_add_one, Nat.sub_add_cancel hk.m, Nat.mul_comm]
      omega
  obtain ⟨ctr', o', s', e1, C1, m1, q1, l1, l2, p1, d1⟩ := upsample_ok hk (w := s.which) (ctr := s.rowgroupCtr) hC h.ups ho (fun c hc => window_of_view hk hctx (h.view c hc) (hq c hc))
  obtain ⟨r1, r2, r3, r4, r5, r6, r7, r8⟩ := q1
  unfold Cfg.ctxProcess
  rw [e1]
  simp only [Option.bind_eq_bind, Option.bind_some]
  have hany : ∀ c, c < k.n → ∀ w, w < 2 → ∀ j : Int, 0 ≤ j → j < (k.g c * k.M + 2 * k.g c : Nat) → ∃ p, (s'.cs c).X w j = some p := by
    intro c hc; rw [(m1 c hc).1]; exact h.any c hc
  have hmore : K + 1 < k.total → ∀ c, c < k.n → Base (k.g c) (k.g c * k.M) (s'.cs c) ∧ (0 < K → Norm (k.g c) (k.g c * k.M) (s'.cs c)) ∧ Held k src K s'.which (s'.cs c) c := by
    intro hm c hc
    unfold Base Norm Held
    rw [(m1 c hc).1, (m1 c hc).2, r3]
    exact h.more hm c hc
  by_cases hlt : ctr' < s'.avail
  · rw [if_pos hlt]
    refine ⟨o', { s' with rowgroupCtr := ctr' }, rfl, C1.congr rfl rfl, ?_, l1, l2, p1, fun a b => (upsample_next e1 (p1 a (by simp only at b; omega)) : 0 < s'.nextRowOut), r7⟩
    refine .proc K (s := { s' with rowgroupCtr := ctr' }) (nx := fun h0 => by simp only at h0 ⊢; rcases d1 with ⟨d1, _⟩ | ⟨_, _, d3⟩ <;> omega) { full := by rw [← h.full, ← r1], ctr := by rw [← h.ctr, ← r6], inRow := by rw [← h.inRow, ← r8], lt := h.lt, which := by simp only [r3]; exact h.which, state := by rw [← h.state, ← r4], avail := by rw [← h.avail, ← r5], q := hlt, ups := ?_, view := ?_, any := hany, more := hmore }
    · rcases d1 with ⟨d1, d2, d3⟩ | ⟨d1, d2, d3⟩
      · simp only [d1]; exact d2.congr rfl rfl (Or.inl d3)
      · simp only [d1]; exact d2.congr rfl rfl (Or.inr rfl)
    · intro c hc
      unfold View
      simp only [r3]
      rw [(m1 c hc).1, (m1 c hc).2]
      exact h.view c hc
  · rw [if_neg hlt]
    rcases d1 with ⟨d1, d2, d3⟩ | ⟨d1, d2, d3⟩
    · have hmv := hk.mv
      have hctr : s.rowgroupCtr + 1 = (if K + 1 = k.total then k.bottomAvail else k.M - 1) := by
        have := h.q; rw [← h.avail]; omega
      obtain ⟨s2, f1, f2, f3, f4, f5, f6⟩ := switch_ok hk hctx (K := K) (s := { s' with rowgroupCtr := ctr' }) (C1.congr rfl rfl) (by rw [← h.ctr, ← r6]) (by rw [← h.inRow, ← r8]) h.lt (by simp only [r3]; exact h.which) d3
        (by rw [← hctr]; exact d2.congr rfl rfl (Or.inl d3)) hany hmore
      refine ⟨o', s2, by rw [f1]; rfl, f2, f3, by rw [f4]; exact l1, l2, p1, fun _ _ => by omega, by rw [f5]; exact r7⟩
    · have := h.q; omega

theorem from0_ok {src : Src R} {K o max : Nat} {s : St R} (h : Ready k src K s) (hC : Common k src s) (hU : Ups k src (K * k.M) s) (hn : s.nextRowOut = k.maxV) (ho : o ≤ max) :
    ∃ o' s', k.ctxFrom0 o max s = some (o', s') ∧ Step k src o max s o' s' := by
  obtain ⟨s1, e1, e2, e3, e4, e5⟩ := prepare_ok hk hctx h hC hU hn
  obtain ⟨o', s', f1, f2⟩ := process_ok hk hctx e3 e2 ho
  refine ⟨o', s', by unfold Cfg.ctxFrom0; rw [e1]; exact f1, f2.common, f2.phase, by rw [← e4]; exact f2.len, f2.le, by rw [← e4]; exact f2.progress, f2.lined, by rw [f2.scan, e5]⟩

theorem from2_ok {src : Src R} {K max : Nat} {s : St R} (h : Postp k src K s) (hC : Common k src s) : ∃ o' s', k.ctxFrom2 max s = some (o', s') ∧ Step k src 0 max s o' s' := by
  obtain ⟨ctr', o', s', e1, C1, m1, q1, l1, l2, p1, d1⟩ := upsample_ok hk (w := s.which) (ctr := s.rowgroupCtr) (o := 0) (max := max) hC h.ups (Nat.zero_le _) (fun c hc => by
    rw [h.q]; exact window_postponed hk hctx h hc)
  obtain ⟨r1, r2, r3, r4, r5, r6, r7, r8⟩ := q1
  have hnorm : ∀ s2 : St R, s2.cs = s'.cs → ∀ c, c < k.n → Norm (k.g c) (k.g c * k.M) (s2.cs c) := by
    intro s2 a5 c hc
    unfold Norm
    rw [a5, (m1 c hc).1]
    exact h.norm c hc
  have hready : ∀ s2 : St R, s2.bufferFull = s'.bufferFull → s2.imcuCtr = s'.imcuCtr → s2.inRow = s'.inRow → s2.which = s'.which → s2.cs = s'.cs → Ready k src K s2 := by
    intro s2 a1 a2 a3 a4 a5
    refine { full := by rw [a1, r1]; exact h.full, ctr := by rw [a2, r6]; exact h.ctr, inRow := by rw [a3, r8]; exact h.inRow, lt := h.lt, which := by rw [a4, r3]; exact h.which, above := Or.inr ?_, held := ?_ }
    · intro c hc
      refine ⟨hnorm s2 a5 c hc, ?_⟩
      unfold Above
      rw [a4, a5, r3, (m1 c hc).2]
      exact above_of_prev hk hctx hc h.pos h.lt (h.prev c hc)
    · intro c hc
      unfold Held
      rw [a4, a5, r3, (m1 c hc).2]
      exact h.held c hc
  unfold Cfg.ctxFrom2
  rw [e1]
  simp only [Option.bind_eq_bind, Option.bind_some]
  have hav := h.avail
  have hq := h.q
  rcases d1 with ⟨d1, d2, d3⟩ | ⟨d1, d2, d3⟩
  · rw [if_neg (by omega)]
    have hU : Ups k src (K * k.M) s' := by
      have : K * k.M - 1 + 1 = K * k.M := Nat.sub_add_cancel (Nat.mul_pos h.pos hk.m)
      rw [← this]; exact d2
    by_cases hmx : o' ≥ max
    · rw [if_pos hmx]
      refine ⟨o', { s' with rowgroupCtr := ctr', ctxState := 0 }, rfl, C1.congr rfl rfl, .ready K (hready _ rfl rfl rfl rfl rfl) h.pos (hnorm _ rfl) rfl (hU.congr rfl rfl (Or.inl d3)) d3, l1, l2, p1, fun _ _ => by simp only; have := hk.mv; omega, r7⟩
    · rw [if_neg hmx]
      obtain ⟨o2, s2, f1, f2⟩ := from0_ok hk hctx (K := K) (o := o') (max := max) (s := { s' with rowgroupCtr := ctr', ctxState := 0 }) (hready _ rfl rfl rfl rfl rfl) (C1.congr rfl rfl) (hU.congr rfl rfl (Or.inl d3)) d3 l2.2
      have hl := f2.len
      simp only at hl
      have hm := f2.common.le
      refine ⟨o2, s2, f1, f2.common, f2.phase, by omega, ⟨by have := f2.le; omega, f2.le.2⟩, ?_, fun _ b => f2.lined (by omega) b, by rw [f2.scan]; exact r7⟩
      have hmono := f2.le.1
      intro a b
      have hp1 := p1 a b
      have hp2 := f2.progress
      simp only at hp2
      have hlt : s'.out.length < k.H ∨ ¬ s'.out.length < k.H := Classical.em _
      rcases hlt with hlt | hlt
      · have := hp2 (by omega) hlt; omega
      · omega
  · rw [if_pos (by omega)]
    refine ⟨o', { s' with rowgroupCtr := ctr' }, rfl, C1.congr rfl rfl, ?_, l1, l2, p1, fun a b => (upsample_next e1 (p1 a (by simp only at b; omega)) : 0 < s'.nextRowOut), r7⟩
    refine .postp K { toReady := hready _ rfl rfl rfl rfl rfl, pos := h.pos, norm := hnorm _ rfl, prev := fun c hc => by unfold Prev; simp only [r3]; rw [(m1 c hc).2]; exact h.prev c hc, state := by rw [← h.state, ← r4], avail := by rw [← h.avail, ← r5], q := by rw [← h.q]; exact d1, ups := d2.congr rfl rfl (Or.inr rfl) } d3

/-- Loading the next iMCU row. -/
theorem load_ok {src : Src R} {K : Nat} {s : St R} (hw : s.which < 2) (hin : s.inRow = K) (hK : K < k.total) (hbase : ∀ c, c < k.n → Base (k.g c) (k.g c * k.M) (s.cs c))
    (hprev : 0 < K → ∀ c, c < k.n → Held k src (K - 1) (s.which ^^^ 1) (s.cs c) c) :
    ∃ cs', k.load src s.which s = some { s with cs := cs', bufferFull := true, inRow := K + 1 } ∧ ∀ c, c < k.n → (cs' c).X = (s.cs c).X ∧ Held k src K s.which (cs' c) c ∧ (0 < K → Prev k src K s.which (cs' c) c) := by
  obtain ⟨cs', e1, e2⟩ := forC_spec (k := k) (f := k.store src s.which K) (fun c y => y.X = (s.cs c).X ∧ Held k src K s.which y c ∧ (0 < K → Prev k src K s.which y c)) s.cs (by
    intro c hc
    obtain ⟨h2, hn, hm⟩ := sizes hk hctx hc
    obtain ⟨y, f1, f2, f3, f4, f5⟩ := store_ok hk hctx hc (src := src) (row := K) hw (s.cs c) (fun j a b => hbase c hc s.which hw j a (by omega))
    refine ⟨y, f1, f2, f4, ?_⟩
    intro hp j h0 h1
    rw [f5 j h0 h1, pt_swap hw h2 h0 h1]
    have hh := hprev hp c hc
    unfold Held at hh
    have hKP : K * (k.g c * k.M) = (K - 1) * (k.g c * k.M) + k.g c * k.M := by
      rw [← Nat.succ_mul, Nat.succ_eq_add_one, Nat.sub_add_cancel hp]
    rw [hKP]
    generalize k.g c * k.M = P at *
    obtain ⟨m, hm⟩ : ∃ m : Nat, j - 2 * (k.g c : Int) = m := ⟨(j - 2 * (k.g c : Int)).toNat, by omega⟩
    rw [hm, hh m (by omega)]
    congr 1
    omega)
  refine ⟨cs', ?_, e2⟩
  unfold Cfg.load
  rw [if_pos (by omega), hin, e1]
  rfl

theorem load_fresh {src : Src R} {K : Nat} {s : St R} (h : Fresh k src K s) :
    ∃ cs', k.load src s.which s = some { s with cs := cs', bufferFull := true, inRow := K + 1 } ∧ ∀ c, c < k.n → (cs' c).X = (s.cs c).X ∧ Held k src K s.which (cs' c) c ∧ Above k src K s.which (cs' c) c := by
  have hw := h.which
  obtain ⟨cs', e1, e2⟩ := forC_spec (k := k) (f := k.store src s.which K) (fun c y => y.X = (s.cs c).X ∧ Held k src K s.which y c ∧ Above k src K s.which y c) s.cs (by
    intro c hc
    obtain ⟨h2, hn, hm⟩ := sizes hk hctx hc
    have hg := (hk.g c hc).1
    obtain ⟨y, f1, f2, f3, f4, f5⟩ := store_ok hk hctx hc (src := src) (row := K) hw (s.cs c) (fun j a b => (h.norm c hc).base s.which hw j a (by omega))
    refine ⟨y, f1, f2, f4, ?_⟩
    have := h.above c hc
    unfold Above at this ⊢
    rw [← this]
    have hneg := pt_neg (g := k.g c) (P := k.g c * k.M) (w := s.which) (j := -1) (by omega) (by omega)
    rw [hneg]
    generalize k.g c * k.M = P at *
    exact f5 _ (by omega) (by omega))
  refine ⟨cs', ?_, e2⟩
  unfold Cfg.load
  rw [if_pos (by rw [h.inRow]; exact h.lt), h.inRow, e1]
  rfl

theorem contextMain_ok {src : Src R} {max : Nat} {ok : Bool} {s : St R} (h : Phase k src s) (hC : Common k src s) (hlt : s.out.length < k.H) :
    ∃ o s', k.contextMain src max ok s = some (o, s') ∧ Common k src s' ∧ Phase k src s' ∧ s'.out.length = s.out.length + o ∧ o ≤ max ∧ (ok = true → 0 < max → 0 < o) ∧ s'.outScan = s.outScan ∧ (0 < max → s'.out.length < k.H → 0 < s'.nextRowOut) := by
  have hmv := hk.mv
  have fin : ∀ {o s1 s'}, Step k src 0 max s1 o s' → s1.out = s.out → s1.outScan = s.outScan → Common k src s' ∧ Phase k src s' ∧ s'.out.length = s.out.length + o ∧ o ≤ max ∧ (ok = true → 0 < max → 0 < o) ∧ s'.outScan = s.outScan ∧ (0 < max → s'.out.length < k.H → 0 < s'.nextRowOut) := by
    intro o s1 s' hs h1 h2
    have a := hs.len
    have b := hs.progress
    rw [h1] at a b
    exact ⟨hs.common, hs.phase, by omega, hs.le.2, fun _ hm => b hm hlt, by rw [hs.scan, h2], hs.lined⟩
  unfold Cfg.contextMain
  cases h with
  | start h =>
    rw [if_neg (by rw [h.full]; simp)]
    cases ok with
    | false => exact ⟨0, s, rfl, hC, .start h, rfl, Nat.zero_le _, fun h => by simp at h, rfl, fun _ _ => by have := h.next; omega⟩
    | true =>
      rw [if_pos rfl]
      obtain ⟨cs', e1, e2⟩ := load_ok hk hctx (src := src) (K := 0) (s := s) (by rw [h.which]; omega) h.inRow (total_pos hk) (fun c hc => (h.top c hc).1) (fun h => absurd h (by omega))
      rw [e1]
      simp only [Option.bind_eq_bind, Option.bind_some, h.ctr, Nat.zero_add]
      unfold Cfg.ctxFull
      simp only
      rw [if_neg (by rw [h.state]; omega), if_pos h.state]
      obtain ⟨o, s', f1, f2⟩ := from0_ok hk hctx (src := src) (K := 0) (o := 0) (max := max) (s := { s with cs := cs', bufferFull := true, inRow := 1, imcuCtr := 1 })
        { full := rfl, ctr := rfl, inRow := rfl, lt := total_pos hk, which := by simp only [h.which]; omega, above := Or.inl ⟨rfl, h.which, fun c hc => ⟨by unfold Top Base; rw [(e2 c hc).1]; exact h.top c hc, h.first c hc⟩⟩, held := fun c hc => (e2 c hc).2.1 }
        (hC.congr rfl rfl) (by rw [Nat.zero_mul]; exact h.ups.congr rfl rfl (Or.inl h.next)) h.next (Nat.zero_le _)
      obtain ⟨a1, a2, a3, a4, a5, a6, a7⟩ := fin f2 rfl rfl
      exact ⟨o, s', f1, a1, a2, a3, a4, fun _ => a5 rfl, a6, a7⟩
  | empty K h =>
    rw [if_neg (by rw [h.full]; simp)]
    cases ok with
    | false => exact ⟨0, s, rfl, hC, .empty K h, rfl, Nat.zero_le _, fun h => by simp at h, rfl, fun _ _ => by have := h.next; omega⟩
    | true =>
      rw [if_pos rfl]
      obtain ⟨cs', e1, e2⟩ := load_ok hk hctx (src := src) (K := K) (s := s) h.which h.inRow h.lt (fun c hc => (h.norm c hc).base) (fun _ => h.held)
      rw [e1]
      simp only [Option.bind_eq_bind, Option.bind_some, h.ctr]
      unfold Cfg.ctxFull
      simp only
      rw [if_pos h.state]
      obtain ⟨o, s', f1, f2⟩ := from2_ok hk hctx (src := src) (K := K) (max := max) (s := { s with cs := cs', bufferFull := true, inRow := K + 1, imcuCtr := K + 1 })
        { full := rfl, ctr := rfl, inRow := rfl, lt := h.lt, which := h.which, 
          above := Or.inr fun c hc => ⟨by unfold Norm; rw [(e2 c hc).1]; exact h.norm c hc, above_of_prev hk hctx hc h.pos h.lt ((e2 c hc).2.2 h.pos)⟩, held := fun c hc => (e2 c hc).2.1, pos := h.pos,
          norm := fun c hc => by unfold Norm; rw [(e2 c hc).1]; exact h.norm c hc, prev := fun c hc => (e2 c hc).2.2 h.pos, state := h.state, avail := h.avail, q := h.q, ups := h.ups.congr rfl rfl (Or.inl h.next) } (hC.congr rfl rfl)
      obtain ⟨a1, a2, a3, a4, a5, a6, a7⟩ := fin f2 rfl rfl
      exact ⟨o, s', f1, a1, a2, a3, a4, fun _ => a5 rfl, a6, a7⟩
  | fresh K h =>
    rw [if_neg (by rw [h.full]; simp)]
    cases ok with
    | false => exact ⟨0, s, rfl, hC, .fresh K h, rfl, Nat.zero_le _, fun h => by simp at h, rfl, fun _ _ => by have := h.next; omega⟩
    | true =>
      rw [if_pos rfl]
      obtain ⟨cs', e1, e2⟩ := load_fresh hk hctx (src := src) h
      rw [e1]
      simp only [Option.bind_eq_bind, Option.bind_some, h.ctr]
      unfold Cfg.ctxFull
      simp only
      rw [if_neg (by rw [h.state]; omega), if_pos h.state]
      obtain ⟨o, s', f1, f2⟩ := from0_ok hk hctx (src := src) (K := K) (o := 0) (max := max) (s := { s with cs := cs', bufferFull := true, inRow := K + 1, imcuCtr := K + 1 })
        { full := rfl, ctr := rfl, inRow := rfl, lt := h.lt, which := h.which, above := Or.inr fun c hc => ⟨by unfold Norm; rw [(e2 c hc).1]; exact h.norm c hc, (e2 c hc).2.2⟩, held := fun c hc => (e2 c hc).2.1 }
        (hC.congr rfl rfl) (h.ups.congr rfl rfl (Or.inl h.next)) h.next (Nat.zero_le _)
      obtain ⟨a1, a2, a3, a4, a5, a6, a7⟩ := fin f2 rfl rfl
      exact ⟨o, s', f1, a1, a2, a3, a4, fun _ => a5 rfl, a6, a7⟩
  | postp K h nx =>
    rw [if_pos h.full]
    unfold Cfg.ctxFull
    rw [if_pos h.state]
    obtain ⟨o, s', f1, f2⟩ := from2_ok hk hctx (max := max) h hC
    exact ⟨o, s', f1, fin f2 rfl rfl⟩
  | ready K h _ _ st ups next =>
    rw [if_pos h.full]
    unfold Cfg.ctxFull
    rw [if_neg (by omega), if_pos st]
    obtain ⟨o, s', f1, f2⟩ := from0_ok hk hctx (max := max) (o := 0) h hC ups next (Nat.zero_le _)
    exact ⟨o, s', f1, fin f2 rfl rfl⟩
  | proc K h nx =>
    rw [if_pos h.full]
    unfold Cfg.ctxFull
    have := h.state
    rw [if_neg (by omega), if_neg (by omega), if_pos this]
    obtain ⟨o, s', f1, f2⟩ := process_ok hk hctx (max := max) (o := 0) h hC (Nat.zero_le _)
    exact ⟨o, s', f1, fin f2 rfl rfl⟩
  | done h => omega

end
end Verif.Post
