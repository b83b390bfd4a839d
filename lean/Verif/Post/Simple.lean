import Verif.Post.Up
/-
C44: the main controller without context rows.
-/
namespace Verif.Post
variable {R : Type}

/-- The row pointers are the workspace rows. -/
def Plain (k : Cfg R) (x : CSt R) (c : Nat) : Prop := ∀ i : Int, x.X 2 i = k.phys c i
/-- The workspace holds iMCU row K. -/
def Loaded (k : Cfg R) (src : Src R) (K : Nat) (x : CSt R) (c : Nat) : Prop := ∀ j, j < k.g c * k.M → x.mem j = src c (K * (k.g c * k.M) + j)

/-- States of the controller between calls. -/
inductive SPhase (k : Cfg R) (src : Src R) (s : St R) : Prop where
  | full (K : Nat) (full : s.bufferFull = true) (inRow : s.inRow = K + 1) (q : s.rowgroupCtr < k.M) (plain : ∀ c, c < k.n → Plain k (s.cs c) c) (loaded : ∀ c, c < k.n → Loaded k src K (s.cs c) c) (ups : Ups k src (K * k.M + s.rowgroupCtr) s) (nx : s.rowgroupCtr = 0 → s.nextRowOut < k.maxV)
  | empty (full : s.bufferFull = false) (ctr : s.rowgroupCtr < k.M) (plain : ∀ c, c < k.n → Plain k (s.cs c) c) (ups : Ups k src (s.inRow * k.M + s.rowgroupCtr) s) (next : s.nextRowOut = k.maxV)

section
variable {k : Cfg R} (hk : k.Ok) (hctx : k.context = false)
include hk hctx

theorem ngroups_simple : k.ngroups = k.M := by unfold Cfg.ngroups; rw [if_neg (by rw [hctx]; simp)]

theorem store_simple {src : Src R} {row c : Nat} (hc : c < k.n) (x : CSt R) (hx : Plain k x c) : ∃ y, k.store src 2 row c x = some y ∧ y.X = x.X ∧ Loaded k src row y c := by
  have hn := ngroups_simple hk hctx
  have himcu := imcu_eq hk hc
  unfold Cfg.store
  obtain ⟨y, e1, e2, e3⟩ := loop_inv (f := fun i x => do
      let p ← x.X 2 i
      if p < k.ngroups * k.g c then
        pure { x with mem := fun q => if q = p then src c (row * k.imcuHeight c + i) else x.mem q }
      else none) (fun i y => y.X = x.X ∧ ∀ j, j < i → y.mem j = src c (row * (k.g c * k.M) + j)) (k.imcuHeight c) x ⟨rfl, fun j h => by omega⟩ (by
    intro i z hi hz
    have hlt : i < k.ngroups * k.g c := by rw [hn, Nat.mul_comm, ← himcu]; exact hi
    have hp : z.X 2 i = some i := by
      rw [hz.1, hx]
      unfold Cfg.phys
      rw [if_pos ⟨by omega, by omega⟩]
      rfl
    refine Exists.intro ?y (And.intro ?a ?b)
    case a =>
      simp only [hp, Option.bind_eq_bind, Option.bind_some]
      rw [if_pos hlt]
      rfl
    case b =>
      refine ⟨hz.1, ?_⟩
      intro j hj
      simp only
      by_cases hji : j = i
      · rw [if_pos hji, himcu, hji]
      · rw [if_neg hji]; exact hz.2 j (by omega))
  exact ⟨y, e1, e2, fun j hj => e3 j (by rw [himcu]; exact hj)⟩

theorem window_simple {src : Src R} {K q c : Nat} (hc : c < k.n) {x : CSt R} (hp : Plain k x c) (hl : Loaded k src K x c) (hq : q < k.M) : Window k src 2 q (K * k.M + q) x c := by
  have hn := ngroups_simple hk hctx
  intro j h0 h1
  rw [if_neg (by rw [hctx]; simp)] at h0
  rw [if_neg (by rw [hctx]; simp)] at h1
  have hb : (q + 1) * k.g c ≤ k.M * k.g c := Nat.mul_le_mul_right _ hq
  rw [Nat.succ_mul] at hb
  have hz : (0:Int) ≤ ((q * k.g c : Nat) : Int) + j := by omega
  have hz2 : ((q * k.g c : Nat) : Int) + j < (k.M * k.g c : Nat) := by omega
  refine ⟨(((q * k.g c : Nat) : Int) + j).toNat, ?_, ?_⟩
  · rw [hp]
    unfold Cfg.phys
    rw [hn, if_pos ⟨hz, hz2⟩]
  · rw [hl _ (by rw [Nat.mul_comm (k.g c) k.M]; omega)]
    unfold Cfg.rowAt
    rw [if_neg (by rw [hctx]; simp)]
    congr 1
    have : (K * k.M + q) * k.g c = K * (k.g c * k.M) + q * k.g c := by ring
    rw [this]
    generalize K * (k.g c * k.M) = A
    generalize q * k.g c = B at *
    omega

theorem simpleFull_ok {src : Src R} {K max : Nat} {s : St R} (hC : Common k src s) (full : s.bufferFull = true) (inRow : s.inRow = K + 1) (q : s.rowgroupCtr < k.M)
    (plain : ∀ c, c < k.n → Plain k (s.cs c) c) (loaded : ∀ c, c < k.n → Loaded k src K (s.cs c) c) (ups : Ups k src (K * k.M + s.rowgroupCtr) s) :
    ∃ o s', k.simpleFull max s = some (o, s') ∧ Common k src s' ∧ SPhase k src s' ∧ s'.out.length = s.out.length + o ∧ o ≤ max ∧ (0 < max → s.out.length < k.H → 0 < o) ∧ s'.outScan = s.outScan ∧ (0 < o → 0 < s'.nextRowOut) := by
  obtain ⟨ctr', o', s', e1, C1, m1, q1, l1, l2, p1, d1⟩ := upsample_ok hk (w := 2) (ctr := s.rowgroupCtr) (o := 0) (max := max) hC ups (Nat.zero_le _) (fun c hc => window_simple hk hctx hc (plain c hc) (loaded c hc) q)
  obtain ⟨r1, r2, r3, r4, r5, r6, r7, r8⟩ := q1
  have hplain : ∀ c, c < k.n → Plain k (s'.cs c) c := fun c hc i => by rw [(m1 c hc).1]; exact plain c hc i
  have hloaded : ∀ c, c < k.n → Loaded k src K (s'.cs c) c := fun c hc i hi => by rw [(m1 c hc).2]; exact loaded c hc i hi
  unfold Cfg.simpleFull
  rw [e1]
  simp only [Option.bind_eq_bind, Option.bind_some]
  by_cases hge : ctr' ≥ k.M
  · rw [if_pos hge]
    rcases d1 with ⟨d1, d2, d3⟩ | ⟨d1, d2, d3⟩
    · refine ⟨o', { s' with bufferFull := false, rowgroupCtr := 0 }, rfl, C1.congr rfl rfl, .empty rfl hk.m hplain ?_ d3, by simp only; omega, l2.2, p1, r7, fun h => (upsample_next e1 h : 0 < s'.nextRowOut)⟩
      simp only
      have : s'.inRow * k.M + 0 = K * k.M + s.rowgroupCtr + 1 := by rw [r8, inRow, Nat.succ_mul]; omega
      rw [this]
      exact d2.congr rfl rfl (Or.inl d3)
    · omega
  · rw [if_neg hge]
    refine ⟨o', { s' with rowgroupCtr := ctr' }, rfl, C1.congr rfl rfl, .full K (by simp only [r1]; exact full) (by simp only [r8]; exact inRow) (by simp only; omega) hplain hloaded ?_ (fun h0 => by simp only at h0 ⊢; rcases d1 with ⟨d1, _⟩ | ⟨_, _, d3⟩ <;> omega), by simp only; omega, l2.2, p1, r7, fun h => (upsample_next e1 h : 0 < s'.nextRowOut)⟩
    rcases d1 with ⟨d1, d2, d3⟩ | ⟨d1, d2, d3⟩
    · simp only [d1]; exact d2.congr rfl rfl (Or.inl d3)
    · simp only [d1]; exact d2.congr rfl rfl (Or.inr rfl)

theorem simpleMain_ok {src : Src R} {max : Nat} {ok : Bool} {s : St R} (h : SPhase k src s) (hC : Common k src s) (hlt : s.out.length < k.H) :
    ∃ o s', k.simpleMain src max ok s = some (o, s') ∧ Common k src s' ∧ SPhase k src s' ∧ s'.out.length = s.out.length + o ∧ o ≤ max ∧ (ok = true → 0 < max → 0 < o) ∧ s'.outScan = s.outScan ∧ (0 < max → 0 < s'.nextRowOut) := by
  have hmv := hk.mv
  unfold Cfg.simpleMain
  cases h with
  | full K full inRow q plain loaded ups nx =>
    rw [if_pos full]
    obtain ⟨o, s', e1, e2, e3, e4, e5, e6, e7, e8⟩ := simpleFull_ok hk hctx (max := max) hC full inRow q plain loaded ups
    exact ⟨o, s', e1, e2, e3, e4, e5, fun _ h => e6 h hlt, e7, fun h => e8 (e6 h hlt)⟩
  | empty full ctr plain ups next =>
    rw [if_neg (by rw [full]; simp)]
    cases ok with
    | false => exact ⟨0, s, rfl, hC, .empty full ctr plain ups next, rfl, Nat.zero_le _, fun h => by simp at h, rfl, fun _ => by omega⟩
    | true =>
      rw [if_pos rfl]
      have hin : s.inRow < k.total := by
        have hpos := ups.pos
        rw [if_pos next, Nat.add_zero] at hpos
        have hH := H_le hk
        have hb := bottomAvail_eq hk hk.n
        have h1 : s.inRow * k.M < k.NG := by
          have : s.inRow * k.M + s.rowgroupCtr < k.NG := by
            apply Nat.lt_of_mul_lt_mul_right (a := k.maxV)
            omega
          omega
        have h2 : k.NG ≤ k.total * k.M := by
          rw [← hb.1]
          have : k.total * k.M = (k.total - 1) * k.M + k.M := by
            rw [← Nat.succ_mul, Nat.succ_eq_add_one, Nat.sub_add_cancel (total_pos hk)]
          omega
        exact Nat.lt_of_mul_lt_mul_right (Nat.lt_of_lt_of_le h1 h2)
      obtain ⟨cs', f1, f2⟩ := forC_spec (k := k) (f := k.store src 2 s.inRow) (fun c y => y.X = (s.cs c).X ∧ Loaded k src s.inRow y c) s.cs (fun c hc => store_simple hk hctx hc (s.cs c) (plain c hc))
      have hload : k.load src 2 s = some { s with cs := cs', bufferFull := true, inRow := s.inRow + 1 } := by
        unfold Cfg.load
        rw [if_pos hin, f1]
        rfl
      rw [hload]
      simp only [Option.bind_eq_bind, Option.bind_some]
      obtain ⟨o, s', e1, e2, e3, e4, e5, e6, e7, e8⟩ := simpleFull_ok hk hctx (max := max) (K := s.inRow) (s := { s with cs := cs', bufferFull := true, inRow := s.inRow + 1 }) (hC.congr rfl rfl) rfl rfl ctr
        (fun c hc i => by simp only [(f2 c hc).1]; exact plain c hc i) (fun c hc => (f2 c hc).2) (ups.congr rfl rfl (Or.inl next))
      exact ⟨o, s', e1, e2, e3, e4, e5, fun _ h => e6 h hlt, e7, fun h => e8 (e6 h hlt)⟩

end
end Verif.Post
