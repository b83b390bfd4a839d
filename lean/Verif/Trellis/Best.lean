/-
C34 (second half), final statement: with exact arithmetic the AC coefficients chosen for a block minimize
weighted squared error plus the number of bits the Huffman coder emits.
-/
import Verif.Trellis.Chain
import Mathlib.Tactic.NormNum

namespace Verif.Trellis

open Verif.Huff (nbitsOf CTbl acBits acSyms symBits magBits)

/-! ### Specification -/

/-- Weighted squared error of the coefficients v at positions Ss..Se. -/
def distortion (I : Inp ℚ) (Ss Se : Nat) (v : Nat → Int) : ℚ :=
  ((List.range' Ss (Se + 1 - Ss)).map (fun i => if v i = 0 then I.zd i else I.cd i (v i).natAbs)).sum

/-- Bits the sequential Huffman encoder emits for the coefficients v at positions Ss..Se
(`Verif.Huff.acBits`; `encAC` of Huff/Enc.lean is proved to emit them). -/
def rate (ac : CTbl) (Ss Se : Nat) (v : Nat → Int) : Nat :=
  (acBits ac ((List.range' Ss (Se + 1 - Ss)).map v) 0).length

/-- All symbols needed for v, except the end-of-block symbol, have codes. -/
def codable (ac : CTbl) (Ss Se : Nat) (v : Nat → Int) : Prop :=
  ∀ sy ∈ acSyms ((List.range' Ss (Se + 1 - Ss)).map v) 0, sy ≠ 0 → (ac sy).2 ≠ 0

/-- At each position v is zero or one of the magnitudes the trellis considers: 1, 3, 7, ... below the rounded value,
and the rounded value itself (clamped to the coefficient range). -/
def fromCandidates (I : Inp ℚ) (Ss Se : Nat) (v : Nat → Int) : Prop :=
  ∀ i, Ss ≤ i → i ≤ Se → v i = 0 ∨
    (let r := min ((I.x i + I.q i / 2) / I.q i) (2 ^ I.maxBits - 1)
     (v i).natAbs = r ∨ (∃ k, (v i).natAbs = 2 ^ k - 1 ∧ (v i).natAbs < r))

/-! ### Link with the running cost -/

def total (I : Inp ℚ) (s N : Nat) (v : Nat → Int) : ℚ :=
  (fw I s v N).1 + (if (fw I s v N).2 < s + N then (I.eh 0 : ℚ) else 0)

theorem length_flatten_replicate {β : Type} (n : Nat) (l : List β) : (List.replicate n l).flatten.length = n * l.length := by
  induction n with
  | zero => simp
  | succ n ih => rw [List.replicate_succ, List.flatten_cons, List.length_append, ih, Nat.succ_mul, Nat.add_comm]

theorem fw_acBits {I : Inp ℚ} {s : Nat} (ac : CTbl) (he : ∀ sy, I.eh sy = (ac sy).2) (v : Nat → Int) :
    ∀ (k n : Nat), (fw I s v n).1 +
        ((List.range' (s + n + 1) k).map (fun i => if v i = 0 then I.zd i else I.cd i (v i).natAbs)).sum +
        ((acBits ac ((List.range' (s + n + 1) k).map v) (s + n - (fw I s v n).2)).length : ℚ) =
      (fw I s v (n + k)).1 + (if (fw I s v (n + k)).2 < s + (n + k) then (I.eh 0 : ℚ) else 0) := by
  intro k
  induction k with
  | zero =>
    intro n
    simp only [List.range'_zero, List.map_nil, List.sum_nil, Nat.add_zero, acBits]
    by_cases h : (fw I s v n).2 < s + n
    · rw [if_pos (by omega), if_pos h, he 0]; simp [symBits]
    · rw [if_neg (by omega), if_neg h]; simp
  | succ k ih =>
    intro n
    have := ih (n + 1)
    rw [show n + 1 + k = n + (k + 1) by omega, ← Nat.add_assoc s n 1] at this
    rw [← this]
    have hl := fw_last_le (I := I) (s := s) v n
    simp only [List.range'_succ, List.map_cons, List.sum_cons, acBits]
    by_cases hz : v (s + n + 1) = 0
    · simp only [fw, hz, if_true]
      rw [show s + n - (fw I s v n).2 + 1 = s + n + 1 - (fw I s v n).2 by omega]
      ring
    · simp only [fw, hz, if_false]
      rw [Nat.sub_self]
      simp only [List.length_append, length_flatten_replicate, symBits, magBits, Verif.length_toBits, bitsAt, he]
      rw [Nat.mul_comm 16 ((s + n - (fw I s v n).2) % 16)]
      push_cast
      ring

theorem ok_acSyms {I : Inp ℚ} {s : Nat} (ac : CTbl) (he : ∀ sy, I.eh sy = (ac sy).2) (v : Nat → Int) :
    ∀ (k n : Nat), ok I s v (n + k) ↔ ok I s v n ∧
      ∀ sy ∈ acSyms ((List.range' (s + n + 1) k).map v) (s + n - (fw I s v n).2), sy ≠ 0 → (ac sy).2 ≠ 0 := by
  intro k
  induction k with
  | zero =>
    intro n
    simp only [List.range'_zero, List.map_nil, acSyms, Nat.add_zero]
    constructor
    · intro h
      refine ⟨h, ?_⟩
      intro sy hsy h0
      split at hsy
      · simp at hsy; exact absurd hsy h0
      · simp at hsy
    · exact fun h => h.1
  | succ k ih =>
    intro n
    have := ih (n + 1)
    rw [show n + 1 + k = n + (k + 1) by omega, ← Nat.add_assoc s n 1] at this
    rw [this]
    have hl := fw_last_le (I := I) (s := s) v n
    simp only [List.range'_succ, List.map_cons, acSyms]
    by_cases hz : v (s + n + 1) = 0
    · simp only [fw, ok, hz, if_true, true_or, and_true]
      rw [show s + n - (fw I s v n).2 + 1 = s + n + 1 - (fw I s v n).2 by omega]
    · simp only [fw, ok, hz, if_false, false_or]
      rw [Nat.sub_self]
      simp only [okAt, he]
      have hnb : nbitsOf (v (s + n + 1)).natAbs ≠ 0 := by
        unfold nbitsOf; split <;> omega
      rw [Nat.mul_comm 16 ((s + n - (fw I s v n).2) % 16)]
      constructor
      · rintro ⟨⟨h1, h2, h3⟩, h4⟩
        refine ⟨h1, ?_⟩
        intro sy hsy h0
        rcases List.mem_append.1 hsy with h5 | h5
        · obtain ⟨h6, rfl⟩ := List.mem_replicate.1 h5
          tauto
        · rcases List.mem_cons.1 h5 with rfl | h5
          · exact h3
          · exact h4 sy h5 h0
      · rintro ⟨h1, h2⟩
        refine ⟨⟨h1, ?_, ?_⟩, ?_⟩
        · by_cases h3 : (s + n - (fw I s v n).2) / 16 = 0
          · exact Or.inl h3
          · right
            exact h2 0xf0 (List.mem_append.2 (Or.inl (List.mem_replicate.2 ⟨h3, rfl⟩))) (by decide)
        · exact h2 _ (List.mem_append.2 (Or.inr (by simp))) (by omega)
        · intro sy hsy h0
          exact h2 sy (List.mem_append.2 (Or.inr (by simp [hsy]))) h0

theorem total_eq {I : Inp ℚ} {s N : Nat} (ac : CTbl) (he : ∀ sy, I.eh sy = (ac sy).2) (v : Nat → Int) :
    total I s N v = distortion I (s + 1) (s + N) v + (rate ac (s + 1) (s + N) v : ℚ) := by
  have h := fw_acBits (s := s) ac he v N 0
  simp only [fw, Nat.zero_add, Nat.add_zero, Nat.sub_self, zero_add] at h
  unfold total distortion rate
  rw [show s + N + 1 - (s + 1) = N by omega]
  exact h.symm

theorem ok_iff {I : Inp ℚ} {s N : Nat} (ac : CTbl) (he : ∀ sy, I.eh sy = (ac sy).2) (v : Nat → Int) :
    ok I s v N ↔ codable ac (s + 1) (s + N) v := by
  have h := ok_acSyms (s := s) ac he v N 0
  simp only [fw, ok, Nat.zero_add, Nat.add_zero, Nat.sub_self, true_and] at h
  unfold codable
  rw [show s + N + 1 - (s + 1) = N by omega]
  exact h

theorem isCand_iff {I : Inp ℚ} {v : Nat → Int} {i : Nat} (hm : 1 ≤ I.maxBits) :
    IsCand I v i ↔ v i = 0 ∨ (let r := min ((I.x i + I.q i / 2) / I.q i) (2 ^ I.maxBits - 1)
     (v i).natAbs = r ∨ (∃ k, (v i).natAbs = 2 ^ k - 1 ∧ (v i).natAbs < r)) := by
  have hr : min ((I.x i + I.q i / 2) / I.q i) (2 ^ I.maxBits - 1) = clampQ I.maxBits (roundQ (I.x i) (I.q i)) := by
    unfold clampQ roundQ
    have : 0 < 2 ^ I.maxBits := Nat.two_pow_pos _
    split <;> omega
  simp only [hr]
  unfold IsCand
  constructor
  · rintro (h | ⟨h1, k, hk, h2⟩)
    · exact Or.inl h
    · right
      have h0 := (clampQ_le hm h1).2
      generalize clampQ I.maxBits (roundQ (I.x i) (I.q i)) = r at hk h2 h0 ⊢
      by_cases h3 : k < nbitsOf r - 1
      · have h4 := nbits_pow h0
        have h5 : 2 ^ (k + 1) ≤ 2 ^ (nbitsOf r - 1) := Nat.pow_le_pow_right (by omega) (by omega)
        have h6 := Nat.two_pow_pos (k + 1)
        unfold candidate at h2
        rw [if_pos h3] at h2
        have h7 : 2 ^ (k + 1) = 2 * 2 ^ k := by rw [Nat.pow_succ, Nat.mul_comm]
        right
        exact ⟨k + 1, by omega, by omega⟩
      · left
        unfold candidate at h2
        rw [if_neg h3] at h2
        exact h2
  · rintro (h | h)
    · exact Or.inl h
    · by_cases hv : v i = 0
      · exact Or.inl hv
      right
      have h1 : roundQ (I.x i) (I.q i) ≠ 0 := by
        intro e
        rw [e] at h
        unfold clampQ at h
        have : 0 < 2 ^ I.maxBits := Nat.two_pow_pos _
        rw [if_neg (by omega)] at h
        rcases h with h | ⟨k, -, h⟩ <;> omega
      refine ⟨h1, ?_⟩
      have h0 := (clampQ_le hm h1).2
      generalize clampQ I.maxBits (roundQ (I.x i) (I.q i)) = r at h h0 ⊢
      have hnb : nbitsOf r ≠ 0 := by unfold nbitsOf; split <;> omega
      rcases h with h | ⟨k, h, h2⟩
      · refine ⟨nbitsOf r - 1, by omega, ?_⟩
        unfold candidate
        rw [if_neg (by omega)]
        exact h
      · have hk : k ≠ 0 := by rintro rfl; simp at h; omega
        obtain ⟨k, rfl⟩ := Nat.exists_eq_succ_of_ne_zero hk
        have h7 : 2 ^ (k + 1) = 2 * 2 ^ k := by rw [Nat.pow_succ, Nat.mul_comm]
        have h8 := (Verif.Huff.nbitsOf_spec r).1
        have h9 : k + 1 ≤ nbitsOf r := by
          by_contra hc
          have : 2 ^ nbitsOf r ≤ 2 ^ k := Nat.pow_le_pow_right (by omega) (by omega)
          omega
        by_cases h10 : k < nbitsOf r - 1
        · refine ⟨k, by omega, ?_⟩
          unfold candidate
          rw [if_pos h10]
          omega
        · have : k + 1 = nbitsOf r := by omega
          rw [← this, h7] at h8
          simp only [Nat.succ_eq_add_one] at h
          omega

/-! ### Choice of the last coefficient -/

/-- Cutting a vector off after position s+n and padding with zeros. -/
def cut (v : Nat → Int) (i : Nat) : Nat → Int := fun l => if l ≤ i then v l else 0

theorem cut_fw {I : Inp ℚ} {s n N : Nat} {v : Nat → Int} (h : n ≤ N) :
    (fw I s (cut v (s + n)) N).1 = (fw I s v n).1 + (Zs I s N - Zs I s n) ∧
      (fw I s (cut v (s + n)) N).2 = (fw I s v n).2 ∧ (ok I s (cut v (s + n)) N ↔ ok I s v n) := by
  obtain ⟨h1, h2⟩ := fw_congr (I := I) (s := s) (v := cut v (s + n)) (w := v) n
    (fun l a b => by unfold cut; rw [if_pos b])
  obtain ⟨h3, h4, h5⟩ := fw_zeros (I := I) (s := s) (v := cut v (s + n)) N h
    (fun l a b => by unfold cut; rw [if_neg (by omega)])
  rw [h1] at h3 h4
  exact ⟨h3, h4, h5.trans h2⟩

theorem pick_best {I : Inp ℚ} {big : ℚ} {s N : Nat} (s0 : AC ℚ) (hN : 1 ≤ N) (hzd : ∀ i, 0 ≤ I.zd i)
    (hcd : ∀ i m, 0 ≤ I.cd i m) (hm : 1 ≤ I.maxBits)
    (hbig : ∀ v, Cands I s N v → ok I s v N → total I s N v < big) :
    ∃ v, Chain s (acPass (ratOps big) I (s + 1) (s + N) s0).start (acPass (ratOps big) I (s + 1) (s + N) s0).coef
        (pickLast (ratOps big) I (s + 1) (s + N) (acPass (ratOps big) I (s + 1) (s + N) s0)).idx v ∧
      (pickLast (ratOps big) I (s + 1) (s + N) (acPass (ratOps big) I (s + 1) (s + N) s0)).idx ≤ s + N ∧
      Cands I s N v ∧ ok I s v N ∧ ∀ w, Cands I s N w → ok I s w N → total I s N v ≤ total I s N w := by
  have hbig' : ∀ n ≤ N, ∀ v, Cands I s n v → ok I s v n → (fw I s v n).1 < big := by
    intro n hn v hv hok
    obtain ⟨h1, h2, h3⟩ := cut_fw (I := I) (s := s) (v := v) hn
    have := hbig (cut v (s + n)) (fun m a b => by
      by_cases h : m ≤ n
      · rw [IsCand_congr (show cut v (s + n) (s + m) = v (s + m) by unfold cut; rw [if_pos (by omega)])]
        exact hv m a h
      · left; unfold cut; rw [if_neg (by omega)]) (h3.2 hok)
    unfold total at this
    rw [h1] at this
    have := Zs_mono (s := s) hzd hn
    split at * <;> [have : (0 : ℚ) ≤ (I.eh 0 : ℚ) := Nat.cast_nonneg _; skip] <;> linarith
  have hinv := inv_pass (N := N) s0 hzd hcd hm hbig'
  generalize acPass (ratOps big) I (s + 1) (s + N) s0 = A at hinv ⊢
  have hzN := hinv.z N (Nat.le_refl _)
  have hzero : total I s N (fun _ => 0) = Zs I s N + (I.eh 0 : ℚ) := by
    obtain ⟨h1, h2, -⟩ := fw_zeros (I := I) (s := s) (v := fun _ => 0) (m := 0) N (Nat.zero_le _) (fun _ _ _ => rfl)
    unfold total
    rw [h1, h2, if_pos (show (fw I s (fun _ => 0) 0).2 < s + N by simp only [fw]; omega)]
    simp only [fw, Zs]
    ring
  have hz0 := hbig (fun _ => 0) (fun _ _ _ => Or.inl rfl) (by
    obtain ⟨-, -, h3⟩ := fw_zeros (I := I) (s := s) (v := fun _ => 0) (m := 0) N (Nat.zero_le _) (fun _ _ _ => rfl)
    exact h3.2 trivial)
  obtain ⟨L, hL⟩ : ∃ L, L = pickLast (ratOps big) I (s + 1) (s + N) A := ⟨_, rfl⟩
  rw [← hL]
  obtain ⟨f1, f2, f3⟩ := fold_min Last.best (fun i => A.coef i ≠ 0)
    (fun i => (⟨i, A.cost i + A.zacc (s + N) - A.zacc i + (if i < s + N then (I.eh 0 : ℚ) else 0),
      A.cost i + A.zacc (s + N) - A.zacc i⟩ : Last ℚ))
    (lastStep (ratOps big) I (s + N) A)
    (fun b i h => by unfold lastStep; rw [if_neg h])
    (fun b i h => by
      unfold lastStep
      rw [if_pos h]
      simp only [ratOps, decide_eq_true_eq]
      by_cases hi : i < s + N
      · simp only [hi, if_true]
      · simp only [hi, if_false, add_zero])
    (List.range' (s + 1) N)
    ⟨s, A.zacc (s + N) + (I.eh 0 : ℚ), A.zacc (s + N)⟩
  have hL2 : L = (List.range' (s + 1) N).foldl (lastStep (ratOps big) I (s + N) A)
      ⟨s, A.zacc (s + N) + (I.eh 0 : ℚ), A.zacc (s + N)⟩ := by
    rw [hL]
    unfold pickLast
    rw [show s + N + 1 - (s + 1) = N by omega]
    rfl
  rw [← hL2] at f1 f2 f3
  simp only at f2 f3
  -- every competitor costs at least the selected cost
  have hopt : ∀ w, Cands I s N w → ok I s w N → L.best ≤ total I s N w := by
    intro w hw hok
    obtain ⟨m, hm1, e1, e2, e3, e4⟩ := fw_split (I := I) (s := s) w N
    obtain ⟨g1, g2, g3⟩ := fw_zeros (I := I) N hm1 e3
    by_cases h0 : m = 0
    · subst h0
      unfold total
      rw [g1, e1]
      simp only [fw, Zs]
      rw [if_pos (by omega)]
      rw [hzN] at f2
      linarith
    · obtain ⟨a1, a2⟩ := hinv.opt m hm1 w (fun l x y => hw l x (by omega)) e4 (g3.1 hok)
      have hne : A.coef (s + m) ≠ 0 := by
        rcases a1.coef_ne with h | h
        · omega
        · exact h
      have := f3 (s + m) (by rw [List.mem_range'_1]; omega) hne
      rw [hzN, hinv.z m hm1] at this
      unfold total
      rw [g1, e1]
      linarith
  rcases f1 with h1 | ⟨i, hi, hne, h1, hlt⟩
  · refine ⟨fun _ => 0, by rw [h1]; exact .base, by rw [h1]; exact Nat.le_add_right _ _, fun _ _ _ => Or.inl rfl, ?_, ?_⟩
    · obtain ⟨-, -, h3⟩ := fw_zeros (I := I) (s := s) (v := fun _ => 0) (m := 0) N (Nat.zero_le _) (fun _ _ _ => rfl)
      exact h3.2 trivial
    · intro w hw hok
      have := hopt w hw hok
      rw [h1, hzN] at this
      rw [hzero]
      exact this
  · rw [List.mem_range'_1] at hi
    obtain ⟨m, rfl⟩ : ∃ m, i = s + m := ⟨i - s, by omega⟩
    simp only at hlt
    rw [hzN, hinv.z m (by omega)] at hlt
    have hmono := Zs_mono (I := I) (s := s) hzd (show m ≤ N by omega)
    have h00 : (0 : ℚ) ≤ (if s + m < s + N then (I.eh 0 : ℚ) else 0) := by
      split <;> [exact Nat.cast_nonneg _; exact le_refl _]
    rcases hinv.node m (by omega) with ⟨v, c1, c2, c3, c4, c5, c6⟩ | hdead
    · obtain ⟨g1, g2, g3⟩ := fw_zeros (I := I) (s := s) (v := v) N (show m ≤ N by omega) (fun l a b => c1.zero l a)
      refine ⟨v, by rw [h1]; exact c1, by rw [h1]; simp only; omega, ?_, g3.2 c3, ?_⟩
      · intro l a b
        by_cases h : l ≤ m
        · exact c2 l a h
        · exact Or.inl (c1.zero _ (by omega))
      · intro w hw hok
        have := hopt w hw hok
        rw [h1] at this
        simp only at this
        rw [hzN, hinv.z m (by omega)] at this
        unfold total at this ⊢
        rw [g1, g2, c4, c5]
        linarith
    · rw [hzero] at hz0
      linarith

theorem acStep_other {α : Type} (o : Ops α) (I : Inp α) (Ss : Nat) (s : AC α) (i l : Nat) (h : l ≠ i) :
    (acStep o I Ss s i).coef l = s.coef l := by
  unfold acStep
  simp only
  split <;> simp [set, h]

/-- **C34 (optimality).**  Exact arithmetic, non-negative error weights, EOB-run optimization off, `big` (1e38 in the
code) larger than the cost of every codable candidate vector.  Then the coefficients the trellis leaves at positions
Ss..Se are candidates, can be coded, and no codable candidate vector has a smaller sum of weighted error and Huffman
bits; coefficients outside Ss..Se are untouched. -/
theorem trellis_optimal (I : Inp ℚ) (ac : CTbl) (big : ℚ) (Ss Se : Nat) (s0 : AC ℚ) (hSs : 1 ≤ Ss) (hSe : Ss ≤ Se)
    (he : ∀ sy, I.eh sy = (ac sy).2) (hm : 1 ≤ I.maxBits) (hzd : ∀ i, 0 ≤ I.zd i) (hcd : ∀ i m, 0 ≤ I.cd i m)
    (hbig : ∀ w, fromCandidates I Ss Se w → codable ac Ss Se w →
      distortion I Ss Se w + (rate ac Ss Se w : ℚ) < big) :
    let v := (acBlock (ratOps big) I Ss Se s0).coef
    fromCandidates I Ss Se v ∧ codable ac Ss Se v ∧
    (∀ w, fromCandidates I Ss Se w → codable ac Ss Se w →
      distortion I Ss Se v + (rate ac Ss Se v : ℚ) ≤ distortion I Ss Se w + (rate ac Ss Se w : ℚ)) ∧
    (∀ l, l < Ss ∨ Se < l → v l = s0.coef l) := by
  obtain ⟨s, rfl⟩ : ∃ s, Ss = s + 1 := ⟨Ss - 1, by omega⟩
  obtain ⟨N, rfl⟩ : ∃ N, Se = s + N := ⟨Se - s, by omega⟩
  have hcc : ∀ w, fromCandidates I (s + 1) (s + N) w ↔ Cands I s N w := by
    intro w
    unfold fromCandidates Cands
    constructor
    · intro h m a b
      exact (isCand_iff hm).2 (h (s + m) (by omega) (by omega))
    · intro h i a b
      have := (isCand_iff hm).1 (h (i - s) (by omega) (by omega))
      rw [show s + (i - s) = i by omega] at this
      exact this
  obtain ⟨v, h1, h2, h3, h4, h5⟩ := pick_best (N := N) s0 (by omega) hzd hcd hm (fun w hw hok => by
    rw [total_eq ac he]
    exact hbig w ((hcc w).2 hw) ((ok_iff ac he w).1 hok))
  have hz := zeroOut_chain (s + N) false _ v _ h1 h2 (fun _ _ => rfl)
  have hsame : ∀ l, s + 1 ≤ l → l ≤ s + N → (acBlock (ratOps big) I (s + 1) (s + N) s0).coef l = v l := by
    intro l a b
    unfold acBlock
    simp only
    rw [hz l, if_pos ⟨by omega, b⟩]
  obtain ⟨u, hu⟩ : ∃ u, u = (acBlock (ratOps big) I (s + 1) (s + N) s0).coef := ⟨_, rfl⟩
  rw [← hu] at hsame
  obtain ⟨g1, g2⟩ := fw_congr (I := I) (s := s) (v := u) (w := v) N (fun l a b => hsame l (by omega) b)
  have g3 : total I s N u = total I s N v := by unfold total; rw [g1]
  simp only
  rw [← hu]
  refine ⟨?_, ?_, ?_, ?_⟩
  · rw [hcc]
    intro m a b
    rw [IsCand_congr (hsame (s + m) (by omega) (by omega))]
    exact h3 m a b
  · rw [← ok_iff ac he, g2]
    exact h4
  · intro w hw hok
    rw [← total_eq ac he, ← total_eq ac he, g3]
    exact h5 w ((hcc w).1 hw) ((ok_iff ac he w).2 hok)
  · intro l hl
    rw [hu]
    unfold acBlock
    simp only
    rw [hz l, if_neg (by omega)]
    unfold acPass
    refine foldl_P (fun A : AC ℚ => A.coef l = s0.coef l) _ _ _ rfl ?_
    intro A hA i hi
    rw [List.mem_range'_1] at hi
    rw [acStep_other _ _ _ _ _ _ (by omega)]
    exact hA

/-! ### Non-vacuity -/

/-- A block with two AC positions, source magnitude 20, quantizer 8 (rounded value 3, candidates 1 and 3). -/
def exInp : Inp ℚ :=
  { x := fun _ => 20, neg := fun i => i == 2, q := fun _ => 8, zd := fun _ => 400, cd := fun _ m => (20 - 8 * (m : ℚ)) ^ 2,
    eh := fun _ => 4, maxBits := 10 }

def exTbl : CTbl := fun _ => (0, 4)

def exAC : AC ℚ := ⟨fun _ => 0, fun _ => 0, fun _ => 0, fun _ => 0⟩

example : ∀ w, fromCandidates exInp 1 2 w → codable exTbl 1 2 w →
    distortion exInp 1 2 w + (rate exTbl 1 2 w : ℚ) < 10 ^ 6 := by
  intro w hw _
  have h : ∀ i, 1 ≤ i → i ≤ 2 → (w i).natAbs = 0 ∨ (w i).natAbs = 1 ∨ (w i).natAbs = 2 ∨ (w i).natAbs = 3 := by
    intro i a b
    have := hw i a b
    simp only [exInp] at this
    rcases this with h | h | ⟨k, -, h⟩ <;> omega
  have hz : ∀ i, w i = 0 ↔ (w i).natAbs = 0 := fun i => by omega
  have n1 : nbitsOf 1 = 1 := by decide
  have n2 : nbitsOf 2 = 2 := by decide
  have n3 : nbitsOf 3 = 2 := by decide
  simp only [distortion, rate, Nat.reduceAdd, Nat.reduceSub, List.range'_succ, List.range'_zero, List.map_cons, List.map_nil,
    List.sum_cons, List.sum_nil, acBits, hz]
  rcases h 1 (by omega) (by omega) with h1 | h1 | h1 | h1 <;> rcases h 2 (by omega) (by omega) with h2 | h2 | h2 | h2 <;>
    simp [h1, h2, exInp, exTbl, symBits, magBits, n1, n2, n3] <;> norm_num

/-- The trellis keeps both coefficients at 3 there: errors 16 + 16 and bits 4 + 2 + 4 + 2. -/
example : (acBlock (ratOps (10 ^ 6)) exInp 1 2 exAC).coef 1 = 3 ∧ (acBlock (ratOps (10 ^ 6)) exInp 1 2 exAC).coef 2 = -3 := by
  decide +kernel

end Verif.Trellis
