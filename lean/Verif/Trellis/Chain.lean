/-
Shortest-path invariant of the AC pass of quantize_trellis (proofs).
-/
import Verif.Trellis.Opt

namespace Verif.Trellis

open Verif.Huff (nbitsOf)

/-- The coefficient vector described by the back pointers from position i. -/
inductive Chain (s : Nat) (start : Nat → Nat) (coef : Nat → Int) : Nat → (Nat → Int) → Prop
  | base : Chain s start coef s (fun _ => 0)
  | step {i j : Nat} {v : Nat → Int} : j < i → start i = j → coef i ≠ 0 → Chain s start coef j v →
      Chain s start coef i (set v i (coef i))

theorem Chain.ge {s start coef i v} (h : Chain s start coef i v) : s ≤ i := by
  induction h with
  | base => exact Nat.le_refl _
  | step h1 _ _ _ ih => omega

theorem Chain.zero {s start coef i v} (h : Chain s start coef i v) : ∀ l, i < l → v l = 0 := by
  induction h with
  | base => intro l _; rfl
  | @step i j v h1 _ _ _ ih =>
    intro l hl
    simp only [set]
    rw [if_neg (by omega)]
    exact ih l (by omega)

theorem Chain.congr {s start coef start' coef' i v} (h : Chain s start coef i v)
    (h' : ∀ l, l ≤ i → start' l = start l ∧ coef' l = coef l) : Chain s start' coef' i v := by
  induction h with
  | base => exact .base
  | @step i j v h1 h2 h3 _ ih =>
    have := h' i (Nat.le_refl _)
    rw [← this.2]
    exact .step h1 (by rw [this.1, h2]) (by rw [this.2]; exact h3) (ih (fun l hl => h' l (by omega)))

theorem zeroOut_low {s : Nat} {start : Nat → Nat} {i last : Nat} {c : Nat → Int} (h : i ≤ s) :
    zeroOut (s + 1) start i false last c = c := by
  cases i with
  | zero => rfl
  | succ i => unfold zeroOut; rw [if_pos ⟨rfl, by omega⟩]

/-- The zeroing loop turns the array into the chain's vector. -/
theorem zeroOut_chain {s : Nat} {start : Nat → Nat} {coef : Nat → Int} :
    ∀ (i : Nat) (inner : Bool) (last : Nat) (v c : Nat → Int), Chain s start coef last v → last ≤ i →
      (∀ l ≤ i, c l = coef l) → ∀ l, zeroOut (s + 1) start i inner last c l = if s < l ∧ l ≤ i then v l else c l := by
  intro i
  induction i with
  | zero =>
    intro inner last v c _ _ _ l
    rw [if_neg (by omega)]
    rfl
  | succ i ih =>
    intro inner last v c hc hl hcoef l
    have hge := hc.ge
    unfold zeroOut
    by_cases h1 : inner = false ∧ i + 1 < s + 1
    · rw [if_pos h1, if_neg (by omega)]
    · rw [if_neg h1]
      by_cases h2 : i + 1 > last
      · rw [if_pos h2, ih true last v _ hc (by omega) ?_]
        · by_cases e : l = i + 1
          · subst e
            rw [if_neg (by omega), if_pos ⟨by omega, Nat.le_refl _⟩, hc.zero _ h2]
            simp [set]
          · simp only [set, if_neg e]
            by_cases h3 : s < l ∧ l ≤ i
            · rw [if_pos h3, if_pos (by omega)]
            · rw [if_neg h3, if_neg (by omega)]
        · intro m hm
          simp only [set]
          rw [if_neg (by omega)]
          exact hcoef m (by omega)
      · rw [if_neg h2]
        have e : last = i + 1 := by omega
        cases hc with
        | base =>
          rw [zeroOut_low (by omega), if_neg (by omega)]
        | @step _ j v' h3 h4 h5 h6 =>
          rw [e] at h4
          rw [h4, ih false j v' c h6 (by omega) (fun m hm => hcoef m (by omega))]
          by_cases e' : l = i + 1
          · subst e'
            have := h6.ge
            rw [if_neg (by omega), if_pos (by omega), hcoef _ (Nat.le_refl _)]
            simp only [set, e, if_true]
          · simp only [set]
            rw [if_neg (show ¬ l = last by omega)]
            by_cases h7 : s < l ∧ l ≤ i
            · rw [if_pos h7, if_pos (by omega)]
            · rw [if_neg h7, if_neg (by omega)]

/-! ### The invariant -/

def Cands (I : Inp ℚ) (s n : Nat) (v : Nat → Int) : Prop := ∀ m, 1 ≤ m → m ≤ n → IsCand I v (s + m)

def Alive (I : Inp ℚ) (big : ℚ) (s : Nat) (A : AC ℚ) (l : Nat) : Prop :=
  ∃ v, Chain s A.start A.coef (s + l) v ∧ Cands I s l v ∧ ok I s v l ∧ (fw I s v l).1 = A.cost (s + l) ∧
    (fw I s v l).2 = s + l ∧ A.cost (s + l) < big

structure Inv (I : Inp ℚ) (big : ℚ) (s : Nat) (A : AC ℚ) (n : Nat) : Prop where
  z : ∀ l ≤ n, A.zacc (s + l) = Zs I s l
  node : ∀ l ≤ n, Alive I big s A l ∨ big ≤ A.cost (s + l)
  opt : ∀ l ≤ n, ∀ v, Cands I s l v → (fw I s v l).2 = s + l → ok I s v l →
    Alive I big s A l ∧ A.cost (s + l) ≤ (fw I s v l).1

theorem nbits_eq {v b : Nat} (h1 : 2 ^ b ≤ v) (h2 : v < 2 ^ (b + 1)) : nbitsOf v = b + 1 := by
  unfold nbitsOf
  have : 0 < 2 ^ b := Nat.two_pow_pos b
  rw [if_neg (by omega), (Nat.log2_eq_iff (by omega)).2 ⟨h1, h2⟩]

theorem nbits_candidate {qv k : Nat} (hk : k < nbitsOf qv) : nbitsOf (candidate (nbitsOf qv) qv k) = k + 1 := by
  unfold candidate
  by_cases h : k < nbitsOf qv - 1
  · rw [if_pos h]
    have : 1 ≤ 2 ^ k := Nat.one_le_two_pow
    apply nbits_eq
    · omega
    · rw [Nat.pow_succ]; omega
  · rw [if_neg h]; omega

/-- Reaching s+n+1 from s+j. -/
theorem fw_step {I : Inp ℚ} {s : Nat} {v : Nat → Int} {j n : Nat} (hj : j ≤ n) (hz : ∀ l, s + j < l → l ≤ s + n → v l = 0)
    (hlast : (fw I s v j).2 = s + j) (hne : v (s + n + 1) ≠ 0) :
    (fw I s v (n + 1)).1 = (fw I s v j).1 + (Zs I s n - Zs I s j) + I.cd (s + n + 1) (v (s + n + 1)).natAbs +
        (bitsAt I (s + n - (s + j)) (nbitsOf (v (s + n + 1)).natAbs) : ℚ) ∧
      (fw I s v (n + 1)).2 = s + n + 1 ∧
      (ok I s v (n + 1) ↔ ok I s v j ∧ okAt I (s + n - (s + j)) (nbitsOf (v (s + n + 1)).natAbs)) := by
  obtain ⟨h1, h2, h3⟩ := fw_zeros (I := I) n hj hz
  simp only [fw, ok, if_neg hne, h1, h2, h3, hlast, hne, false_or, if_false]
  exact ⟨trivial, trivial, trivial⟩


theorem IsCand_congr {I : Inp ℚ} {v w : Nat → Int} {i : Nat} (h : v i = w i) : IsCand I v i ↔ IsCand I w i := by
  unfold IsCand; rw [h]

theorem Alive.congr {I : Inp ℚ} {big : ℚ} {s : Nat} {A A' : AC ℚ} {l : Nat} (h : Alive I big s A l)
    (h1 : ∀ m ≤ s + l, A'.start m = A.start m ∧ A'.coef m = A.coef m) (h2 : A'.cost (s + l) = A.cost (s + l)) :
    Alive I big s A' l := by
  obtain ⟨v, a, b, c, d, e, f⟩ := h
  exact ⟨v, a.congr h1, b, c, by rw [h2]; exact d, e, by rw [h2]; exact f⟩

theorem Alive.coef_ne {I : Inp ℚ} {big : ℚ} {s : Nat} {A : AC ℚ} {l : Nat} (h : Alive I big s A l) :
    s + l = s ∨ A.coef (s + l) ≠ 0 := by
  obtain ⟨v, a, -⟩ := h
  generalize s + l = i at a ⊢
  cases a with
  | base => exact Or.inl rfl
  | step _ _ h _ => exact Or.inr h

theorem pair_mem {s n K : Nat} {jk : Nat × Nat} :
    jk ∈ (List.range' s (n + 1)).flatMap (fun j => (List.range K).map (fun k => (j, k))) ↔
      (∃ j' ≤ n, jk.1 = s + j') ∧ jk.2 < K := by
  obtain ⟨j, k⟩ := jk
  simp only [List.mem_flatMap, List.mem_range'_1, List.mem_map, List.mem_range, Prod.mk.injEq]
  constructor
  · rintro ⟨a, ⟨h1, h2⟩, b, h3, rfl, rfl⟩
    exact ⟨⟨a - s, by omega, by omega⟩, h3⟩
  · rintro ⟨⟨j', h1, rfl⟩, h2⟩
    exact ⟨s + j', ⟨by omega, by omega⟩, k, h2, rfl, rfl⟩

open Classical in
theorem inv_step {I : Inp ℚ} {big : ℚ} {s N n : Nat} {A : AC ℚ} (hzd : ∀ i, 0 ≤ I.zd i) (hcd : ∀ i m, 0 ≤ I.cd i m)
    (hm : 1 ≤ I.maxBits)
    (hbig : ∀ n ≤ N, ∀ v, Cands I s n v → ok I s v n → (fw I s v n).1 < big) (hn : n < N)
    (h : Inv I big s A n) : Inv I big s (acStep (ratOps big) I (s + 1) A (s + 1 + n)) (n + 1) := by
  have ei : s + 1 + n = s + n + 1 := by omega
  rw [ei]
  generalize hA' : acStep (ratOps big) I (s + 1) A (s + n + 1) = A'
  -- values below the new position are unchanged
  have hold : (∀ l, l ≠ s + n + 1 → A'.start l = A.start l ∧ A'.coef l = A.coef l ∧ A'.cost l = A.cost l ∧
      A'.zacc l = A.zacc l) ∧ A'.zacc (s + n + 1) = I.zd (s + n + 1) + A.zacc (s + n) := by
    rw [← hA']
    unfold acStep
    simp only [Nat.add_sub_cancel]
    by_cases h0 : roundQ (I.x (s + n + 1)) (I.q (s + n + 1)) = 0
    · rw [if_pos h0]
      refine ⟨fun l hl => ?_, by simp [set, ratOps]⟩
      simp only [set, if_neg hl, and_self]
    · rw [if_neg h0]
      refine ⟨fun l hl => ?_, by simp [set, ratOps]⟩
      simp only [set, if_neg hl, and_self]
  obtain ⟨hold, hznew⟩ := hold
  have hz' : ∀ l ≤ n + 1, A'.zacc (s + l) = Zs I s l := by
    intro l hl
    by_cases e : l = n + 1
    · subst e
      rw [← Nat.add_assoc, hznew, h.z n (Nat.le_refl _)]
      rfl
    · rw [(hold _ (by omega)).2.2.2]
      exact h.z l (by omega)
  -- the new node
  suffices hnew : (Alive I big s A' (n + 1) ∨ big ≤ A'.cost (s + (n + 1))) ∧
      ∀ v, Cands I s (n + 1) v → (fw I s v (n + 1)).2 = s + (n + 1) → ok I s v (n + 1) →
        A'.cost (s + (n + 1)) ≤ (fw I s v (n + 1)).1 by
    have hlow : ∀ l, l ≤ n → ∀ m ≤ s + l, A'.start m = A.start m ∧ A'.coef m = A.coef m := fun l hl m hm =>
      ⟨(hold m (by omega)).1, (hold m (by omega)).2.1⟩
    refine ⟨hz', ?_, ?_⟩
    · intro l hl
      by_cases e : l = n + 1
      · subst e; exact hnew.1
      · have hc := (hold (s + l) (by omega)).2.2.1
        rcases h.node l (by omega) with h1 | h1
        · exact Or.inl (h1.congr (hlow l (by omega)) hc)
        · exact Or.inr (by rw [hc]; exact h1)
    · intro l hl v hv hlast hok
      by_cases e : l = n + 1
      · subst e
        have h1 := hnew.2 v hv hlast hok
        have h2 := hbig (n + 1) (by omega) v hv hok
        refine ⟨?_, h1⟩
        rcases hnew.1 with h3 | h3
        · exact h3
        · linarith
      · have hc := (hold (s + l) (by omega)).2.2.1
        obtain ⟨h1, h2⟩ := h.opt l (by omega) v hv hlast hok
        exact ⟨h1.congr (hlow l (by omega)) hc, by rw [hc]; exact h2⟩
  have hlastne : ∀ v, (fw I s v (n + 1)).2 = s + (n + 1) → v (s + n + 1) ≠ 0 := by
    intro v hv hz
    have h1 := (fw_last_le (I := I) (s := s) v n).2
    simp only [fw, hz, if_true] at hv
    omega
  by_cases h0 : roundQ (I.x (s + n + 1)) (I.q (s + n + 1)) = 0
  · have hc : A'.cost (s + (n + 1)) = big := by
      rw [← hA']
      unfold acStep
      simp only
      rw [if_pos h0]
      simp [set, ratOps, Nat.add_assoc]
    refine ⟨Or.inr (by rw [hc]), ?_⟩
    intro v hv hlast hok
    exfalso
    rcases hv (n + 1) (by omega) (Nat.le_refl _) with h1 | ⟨h1, -⟩
    · exact hlastne v hlast (by rw [Nat.add_assoc]; exact h1)
    · exact h1 (by rw [← Nat.add_assoc]; exact h0)
  · -- the argmin over pairs
    generalize hqv : clampQ I.maxBits (roundQ (I.x (s + n + 1)) (I.q (s + n + 1))) = qv
    have hqv0 : qv ≠ 0 := by rw [← hqv]; exact (clampQ_le hm h0).2
    obtain ⟨zacc, hzacc⟩ : ∃ z, z = set A.zacc (s + n + 1) ((ratOps big).add (I.zd (s + n + 1)) (A.zacc (s + n))) := ⟨_, rfl⟩
    have hzz : ∀ l ≤ n, zacc (s + l) = Zs I s l := by
      intro l hl
      rw [hzacc]
      simp only [set]
      rw [if_neg (by omega)]
      exact h.z l hl
    obtain ⟨nd, hnd⟩ : ∃ nd, nd = (List.range' s (n + 1)).foldl
      (startStep (ratOps big) I (s + 1) (s + n + 1) qv zacc A.cost A.coef) ⟨A.coef (s + n + 1), big, A.start (s + n + 1)⟩ := ⟨_, rfl⟩
    have hA2 : A'.coef (s + n + 1) = nd.coef ∧ A'.cost (s + n + 1) = nd.cost ∧ A'.start (s + n + 1) = nd.start := by
      rw [← hA']
      unfold acStep
      simp only [Nat.add_sub_cancel]
      rw [if_neg h0]
      simp only [set, if_true]
      rw [hnd, hzacc, hqv, show s + n + 1 - s = n + 1 by omega]
      exact ⟨rfl, rfl, rfl⟩
    obtain ⟨hA2a, hA2b, hA2c⟩ := hA2
    rw [starts_flat] at hnd
    obtain ⟨f1, f2, f3⟩ := fold_min Node.cost (usable I s (s + n + 1) A.coef)
      (fun jk => (⟨signed (I.neg (s + n + 1)) (candidate (nbitsOf qv) qv jk.2),
        arrive I (s + n + 1) qv zacc A.cost jk, jk.1⟩ : Node ℚ))
      (fun nd jk => if usable I s (s + n + 1) A.coef jk then
            (if arrive I (s + n + 1) qv zacc A.cost jk < nd.cost then
              ⟨signed (I.neg (s + n + 1)) (candidate (nbitsOf qv) qv jk.2), arrive I (s + n + 1) qv zacc A.cost jk, jk.1⟩ else nd)
          else nd)
      (fun b x hx => if_neg hx) (fun b x hx => if_pos hx)
      ((List.range' s (n + 1)).flatMap (fun j => (List.range (nbitsOf qv)).map (fun k => (j, k))))
      ⟨A.coef (s + n + 1), big, A.start (s + n + 1)⟩
    rw [← hnd] at f1 f2 f3
    have earr : ∀ j' ≤ n, ∀ k, arrive I (s + n + 1) qv zacc A.cost (s + j', k) =
        A.cost (s + j') + (Zs I s n - Zs I s j') + I.cd (s + n + 1) (candidate (nbitsOf qv) qv k) +
          (bitsAt I (s + n - (s + j')) (k + 1) : ℚ) := by
      intro j' hj k
      unfold arrive bitsAt
      simp only [Nat.add_sub_cancel]
      rw [hzz n (Nat.le_refl _), hzz j' hj]
      push_cast
      ring
    constructor
    · rcases f1 with h1 | ⟨jk, h1, h2, h3, h4⟩
      · right
        rw [← Nat.add_assoc, hA2b, h1]
      · left
        obtain ⟨⟨j', hj, e1⟩, hk⟩ := pair_mem.1 h1
        obtain ⟨j, k⟩ := jk
        simp only at e1 hk
        subst e1
        simp only at h4
        rcases h.node j' hj with ⟨v', c1, c2, c3, c4, c5, c6⟩ | hdead
        · have hcne : nd.coef ≠ 0 := by
            rw [h3]
            simp only [signed]
            have := (candidate_le (k := k) hqv0).2
            split <;> omega
          have hvi : set v' (s + n + 1) nd.coef (s + n + 1) = nd.coef := by simp [set]
          have hvo : ∀ l, l ≠ s + n + 1 → set v' (s + n + 1) nd.coef l = v' l := fun l hl => by simp [set, hl]
          have hnat : nd.coef.natAbs = candidate (nbitsOf qv) qv k := by rw [h3]; exact signed_natAbs _ _
          obtain ⟨g1, g2⟩ := fw_congr (I := I) (s := s) (v := set v' (s + n + 1) nd.coef) (w := v') j'
            (fun l a b => hvo l (by omega))
          have hst := fw_step (I := I) (s := s) (v := set v' (s + n + 1) nd.coef) (j := j') (n := n) hj
            (fun l a b => by rw [hvo l (by omega)]; exact c1.zero l a) (by rw [g1]; exact c5) (by rw [hvi]; exact hcne)
          rw [hvi, hnat, nbits_candidate hk, g1] at hst
          obtain ⟨s1, s2, s3⟩ := hst
          refine ⟨set v' (s + n + 1) nd.coef, ?_, ?_, ?_, ?_, ?_, ?_⟩
          · rw [← Nat.add_assoc, ← hA2a]
            refine .step (j := s + j') (by omega) (by rw [hA2c, h3]) (by rw [hA2a]; exact hcne) ?_
            exact c1.congr (fun l hl => ⟨(hold l (by omega)).1, (hold l (by omega)).2.1⟩)
          · intro m hm1 hm2
            by_cases e : m = n + 1
            · subst e
              right
              rw [← Nat.add_assoc, hvi, hqv]
              exact ⟨h0, k, hk, hnat⟩
            · rw [IsCand_congr (hvo (s + m) (by omega))]
              by_cases e2 : m ≤ j'
              · exact c2 m hm1 e2
              · exact Or.inl (c1.zero _ (by omega))
          · rw [s3]
            exact ⟨g2.2 c3, h2.2⟩
          · rw [s1, c4, ← Nat.add_assoc, hA2b, h3]
            exact (earr j' hj k).symm
          · rw [s2, Nat.add_assoc]
          · rw [← Nat.add_assoc, hA2b, h3]
            exact h4
        · exfalso
          rw [earr j' hj k] at h4
          have q1 := Zs_mono (s := s) hzd hj
          have q2 := hcd (s + n + 1) (candidate (nbitsOf qv) qv k)
          have q3 : (0 : ℚ) ≤ (bitsAt I (s + n - (s + j')) (k + 1) : ℚ) := Nat.cast_nonneg _
          linarith
    · intro v hv hlast hok
      have hne := hlastne v hlast
      rcases hv (n + 1) (by omega) (Nat.le_refl _) with h1 | ⟨h1, k, hk, hnat⟩
      · exact absurd (by rw [Nat.add_assoc]; exact h1) hne
      rw [← Nat.add_assoc, hqv] at hk hnat
      obtain ⟨j', hj, e1, e2, e3, e4⟩ := fw_split (I := I) (s := s) v n
      obtain ⟨s1, s2, s3⟩ := fw_step hj e3 e4 hne
      rw [hnat, nbits_candidate hk] at s1 s3
      obtain ⟨o1, o2⟩ := s3.1 hok
      obtain ⟨a1, a2⟩ := h.opt j' hj v (fun m x y => hv m x (by omega)) e4 o1
      have := f3 (s + j', k) (pair_mem.2 ⟨⟨j', hj, rfl⟩, hk⟩) ⟨?_, by simpa using o2⟩
      · simp only at this
        rw [earr j' hj k] at this
        rw [← Nat.add_assoc, hA2b, s1]
        linarith
      · have := a1.coef_ne
        simp only
        tauto

theorem inv_pass {I : Inp ℚ} {big : ℚ} {s N : Nat} (s0 : AC ℚ) (hzd : ∀ i, 0 ≤ I.zd i) (hcd : ∀ i m, 0 ≤ I.cd i m)
    (hm : 1 ≤ I.maxBits)
    (hbig : ∀ n ≤ N, ∀ v, Cands I s n v → ok I s v n → (fw I s v n).1 < big) :
    Inv I big s (acPass (ratOps big) I (s + 1) (s + N) s0) N := by
  have key : ∀ n ≤ N, Inv I big s ((List.range' (s + 1) n).foldl (acStep (ratOps big) I (s + 1))
      { s0 with zacc := set s0.zacc s ((ratOps big).ofNat 0), cost := set s0.cost s ((ratOps big).ofNat 0) }) n := by
    intro n
    induction n with
    | zero =>
      intro _
      have hb := hbig 0 (Nat.zero_le _) (fun _ => 0) (by intro m a b; omega) trivial
      have hc : ({ s0 with zacc := set s0.zacc s ((ratOps big).ofNat 0), cost := set s0.cost s ((ratOps big).ofNat 0) } : AC ℚ).cost (s + 0) = 0 := by
        simp [set, ratOps]
      have hal : Alive I big s { s0 with zacc := set s0.zacc s ((ratOps big).ofNat 0), cost := set s0.cost s ((ratOps big).ofNat 0) } 0 := by
        refine ⟨fun _ => 0, .base, by intro m a b; omega, trivial, ?_, rfl, ?_⟩
        · rw [hc]; rfl
        · rw [hc]; exact hb
      refine ⟨?_, ?_, ?_⟩
      · intro l hl
        obtain rfl : l = 0 := by omega
        simp [set, ratOps, Zs]
      · intro l hl
        obtain rfl : l = 0 := by omega
        exact Or.inl hal
      · intro l hl v _ _ _
        obtain rfl : l = 0 := by omega
        exact ⟨hal, by rw [List.range'_zero, List.foldl_nil, hc]; exact le_refl _⟩
    | succ n ih =>
      intro hn
      rw [List.range'_concat, List.foldl_append]
      have := inv_step hzd hcd hm hbig (by omega : n < N) (ih (by omega))
      simpa using this
  have := key N (Nat.le_refl _)
  unfold acPass
  simpa [show s + N + 1 - (s + 1) = N by omega] using this

end Verif.Trellis
