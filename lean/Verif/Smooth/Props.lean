import Mathlib.Data.List.GetD
import Verif.Smooth.Status
/-
C58. Block smoothing of progressive files.
-/
namespace Verif.Smooth
open Spec

/-- The scans before the most recent one that has component `ci`. -/
def Spec.before (ss : List Scan) (ci : Nat) : List Scan := (ss.reverse.dropWhile fun s => decide (ci ∉ s.comps)).tail.reverse

/-- The status on which the output of an iMCU row is based. `good`: the current scan was received up to this row. If not, it
is the one before the last scan with this component; the code has 0 ("exact") in place of it if that was the first scan of the
file, and -1 ("unknown") as long as the first scan is the current one. -/
def Spec.status (ss : List Scan) (good : Bool) (ci k : Nat) : Int :=
  if good then known ss ci k
  else if ss.length ≤ 1 then -1
  else if before ss ci = [] then 0
  else known (before ss ci) ci k

theorem before_eq (pre post : List Scan) (s : Scan) (ci : Nat) (hs : ci ∈ s.comps) (hp : ∀ s' ∈ post, ci ∉ s'.comps) :
    before (pre ++ s :: post) ci = pre := by
  unfold before
  rw [List.reverse_append, List.reverse_cons, List.append_assoc, List.dropWhile_append_of_pos (by simpa using hp)]
  simp [hs]

/-- `smoothing_ok` says yes exactly if the file is progressive, all components have a table without zeros at the ten positions
and some bits of their DC coefficients, and one of the first nine AC coefficients of some component is not known exactly. -/
theorem C58_used_iff (progressive : Bool) (ss : List Scan) (junk : Nat → Nat → Int) (nc scanNo : Nat)
    (quant : Nat → Option (Nat → Nat)) :
    (smoothingOk progressive (some (scans 1 ss (bits0 junk))) nc scanNo quant).isSome ↔
      progressive = true ∧
      (∀ ci < nc, 0 ≤ known ss ci 0 ∧ ∃ q, quant ci = some q ∧ ∀ p ∈ zig, q p ≠ 0) ∧
      ∃ ci < nc, ∃ k, 1 ≤ k ∧ k ≤ 9 ∧ known ss ci k ≠ 0 := by
  unfold smoothingOk
  cases progressive with
  | false => simp
  | true =>
    simp only [true_and]
    have e1 : ((List.range nc).all (fun ci => match quant ci with
        | none => false
        | some q => qPos.all (fun p => decide (q p ≠ 0)) && decide (0 ≤ (scans 1 ss (bits0 junk)).cur ci 0))) = true ↔
        ∀ ci < nc, 0 ≤ known ss ci 0 ∧ ∃ q, quant ci = some q ∧ ∀ p ∈ zig, q p ≠ 0 := by
      simp only [List.all_eq_true, List.mem_range]
      refine forall₂_congr fun ci _ => ?_
      cases quant ci with
      | none => simp
      | some q => simp [scans_cur, qPos, zig]; tauto
    have e2 : ((List.range nc).any (fun ci => (List.range 9).any fun j => decide ((scans 1 ss (bits0 junk)).cur ci (j + 1) ≠ 0))) = true ↔
        ∃ ci < nc, ∃ k, 1 ≤ k ∧ k ≤ 9 ∧ known ss ci k ≠ 0 := by
      simp only [List.any_eq_true, List.mem_range, decide_eq_true_eq, scans_cur]
      refine exists_congr fun ci => and_congr_right fun _ => ⟨?_, ?_⟩
      · rintro ⟨j, hj, h⟩
        exact ⟨j + 1, by omega, by omega, h⟩
      · rintro ⟨k, h1, h2, h⟩
        exact ⟨k - 1, by omega, by rw [show k - 1 + 1 = k by omega]; exact h⟩
    split
    · rename_i h1
      split
      · rename_i h2
        simp only [Option.isSome_some, true_iff]
        exact ⟨e1.1 h1, e2.1 h2⟩
      · rename_i h2
        simp only [Option.isSome_none, Bool.false_eq_true, false_iff]
        exact fun h => h2 (e2.2 h.2)
    · rename_i h1
      simp only [Option.isSome_none, Bool.false_eq_true, false_iff]
      exact fun h => h1 (e1.2 h.1)

/-- A file whose first nine AC coefficients have all been received completely is never smoothed. -/
theorem C58_exact (progressive : Bool) (ss : List Scan) (junk : Nat → Nat → Int) (nc scanNo : Nat)
    (quant : Nat → Option (Nat → Nat)) (h : ∀ ci < nc, ∀ k, 1 ≤ k → k ≤ 9 → known ss ci k = 0) :
    smoothingOk progressive (some (scans 1 ss (bits0 junk))) nc scanNo quant = none := by
  rw [← Option.not_isSome_iff_eq_none, C58_used_iff]
  rintro ⟨-, -, ci, h1, k, h2, h3, h4⟩
  exact h4 (h ci h1 k h2 h3)

theorem latch_eq (ss : List Scan) (hss : ∀ s ∈ ss, OkScan s) (junk : Nat → Nat → Int) (nc : Nat) (quant : Nat → Option (Nat → Nat)) (l : Latch)
    (hl : smoothingOk true (some (scans 1 ss (bits0 junk))) nc ss.length quant = some l) (ci : Nat) (hci : ci < nc) (k : Nat)
    (h1 : 1 ≤ k) (h9 : k ≤ 9) : l.cur ci k = status ss true ci k ∧ l.prev ci k = status ss false ci k := by
  have hok := (C58_used_iff true ss junk nc ss.length quant).1 (by rw [hl]; rfl)
  obtain ⟨-, hq, -⟩ := hok
  have hl' : l = ⟨(scans 1 ss (bits0 junk)).cur, fun ci k => if ss.length > 1 then (scans 1 ss (bits0 junk)).prev ci k else -1⟩ := by
    unfold smoothingOk at hl
    simp only [] at hl
    split at hl
    · split at hl
      · exact (Option.some.inj hl).symm
      · cases hl
    · cases hl
  subst hl'
  simp only [scans_cur, status, if_true, Bool.false_eq_true, if_false]
  refine ⟨trivial, ?_⟩
  by_cases hn : ss.length > 1
  · rw [if_pos hn, if_neg (by omega)]
    obtain ⟨pre, s, post, rfl, hs, hp⟩ := last_scan ss ci (known_nonneg ss ci 0 (hq ci hci).1)
    rw [scans_prev pre post s junk ci k hs (hss s (by simp)).nodup hp h1 h9, before_eq pre post s ci hs hp]
  · rw [if_neg hn, if_pos (by omega)]

theorem status_bounds (ss : List Scan) (hss : ∀ s ∈ ss, OkScan s) (good : Bool) (ci k : Nat) :
    -1 ≤ status ss good ci k ∧ status ss good ci k ≤ 13 := by
  unfold status
  split
  · exact known_bounds ss hss ci k
  · split
    · omega
    · split
      · omega
      · refine known_bounds _ (fun s hs => hss s ?_) ci k
        unfold before at hs
        rw [List.mem_reverse] at hs
        have := (List.dropWhile_suffix _).subset (List.tail_subset _ hs)
        simpa using this

/-- `Spec.block` looks at the status of coefficients 1..9 only. -/
theorem block_congr (b b' : Nat → Int) (h : ∀ k, 1 ≤ k → k ≤ 9 → b k = b' k) (q : Nat → Nat) (W : Window) (ws : Nat → Int) :
    block b q W ws = block b' q W ws := by
  have hn : noAC b = noAC b' := by
    unfold noAC
    congr 1
    exact propext ⟨fun H k => by rw [← h _ (by omega) (by omega)]; exact H k, fun H k => by rw [h _ (by omega) (by omega)]; exact H k⟩
  funext p
  unfold block
  simp only [hn]
  by_cases hp : p = 0
  · simp [hp]
  · rw [if_neg hp, if_neg hp]
    by_cases hk : zig.idxOf p < 10
    · have hk1 : 1 ≤ zig.idxOf p := by
        rcases Nat.eq_zero_or_pos (zig.idxOf p) with h0 | h0
        · exfalso
          have : p ∈ zig := by rw [← List.idxOf_lt_length_iff]; exact hk
          have := List.getElem_idxOf (List.idxOf_lt_length_iff.2 this)
          simp only [h0] at this
          exact hp this.symm
        · exact h0
      have := h _ hk1 (by omega)
      have e1 : estimated b ws (zig.idxOf p) ↔ estimated b' ws (zig.idxOf p) := by simp only [estimated, hn, this]
      have e2 : estimate b q W (zig.idxOf p) = estimate b' q W (zig.idxOf p) := by simp only [estimate, hn, this]
      by_cases he : estimated b ws (zig.idxOf p)
      · rw [if_pos ⟨hk, he⟩, if_pos ⟨hk, e1.1 he⟩, e2]
      · rw [if_neg (fun h => he h.2), if_neg (fun h => he (e1.2 h.2))]
    · rw [if_neg (fun h => hk h.1), if_neg (fun h => hk h.1)]

theorem comp_congr (b b' : Nat → Int) (h : ∀ k, 1 ≤ k → k ≤ 9 → b k = b' k) (c : Comp) (T t : Nat) : Spec.comp b c T t = Spec.comp b' c T t := by
  unfold Spec.comp
  simp only [block_congr b b' h]

/-- **C58, main theorem.** After any sequence of scans that the decoder accepts, if an output pass uses smoothing, then for
every component and every iMCU row the code stays inside its arrays, divides by nothing but positive numbers, does not
overflow, and hands to the inverse DCT exactly the blocks of the specification, whatever was in the uninitialised half of the
status array. -/
theorem C58_correct (ss : List Scan) (hss : ∀ s ∈ ss, OkScan s) (junk : Nat → Nat → Int) (nc : Nat) (comps : Nat → Comp)
    (l : Latch) (hl : smoothingOk true (some (scans 1 ss (bits0 junk))) nc ss.length (fun ci => some (comps ci).q) = some l)
    (ci : Nat) (hci : ci < nc) (T D Q lm : Nat) (hb : Bd lm D Q)
    (hc : WF (comps ci) T D Q) (lastGood t : Nat) (ht : t < T) :
    smoothComp lm l lastGood ci (comps ci) T t =
      some (Spec.comp (status ss (decide (t ≤ lastGood)) ci) (comps ci) T t) := by
  have hL := fun k h1 h9 => latch_eq ss hss junk nc _ l hl ci hci k h1 h9
  rw [smoothComp_eq hc lm hb l lastGood ci t ht]
  · congr 1
    apply comp_congr
    intro k h1 h9
    by_cases hg : t ≤ lastGood
    · rw [if_neg (by omega), decide_eq_true hg]; exact (hL k h1 h9).1
    · rw [if_pos (by omega), decide_eq_false hg]; exact (hL k h1 h9).2
  · intro k h1 h9
    obtain ⟨e1, e2⟩ := hL k h1 h9
    have b1 := status_bounds ss hss true ci k
    have b2 := status_bounds ss hss false ci k
    rw [e1, e2]
    omega

/-! ## What the specification guarantees -/

theorem idx_facts (k : Nat) (h1 : 1 ≤ k) (h9 : k ≤ 9) : zig.idxOf (zig.getD k 0) = k ∧ zig.getD k 0 ≠ 0 := by
  interval_cases k <;> decide

theorem block_at (bits : Nat → Int) (q : Nat → Nat) (W : Window) (ws : Nat → Int) (k : Nat) (h1 : 1 ≤ k) (h9 : k ≤ 9) :
    block bits q W ws (zig.getD k 0) = if estimated bits ws k then wrap (estimate bits q W k) else ws (zig.getD k 0) := by
  obtain ⟨e1, e2⟩ := idx_facts k h1 h9
  unfold block
  simp only []
  rw [if_neg e2, e1]
  by_cases h : estimated bits ws k
  · rw [if_pos ⟨by omega, h⟩, if_pos h]
  · rw [if_neg (fun h' => h h'.2), if_neg h]

/-- A coefficient is left alone if it is not one of the first ten, or is not 0, or is known exactly, or if some AC
coefficient has been seen and it is not one of the first five AC coefficients. The DC coefficient is left alone if any AC
coefficient has been seen. -/
theorem block_unchanged (bits : Nat → Int) (q : Nat → Nat) (W : Window) (ws : Nat → Int) (p : Nat)
    (h : p ∉ zig ∨ (p ≠ 0 ∧ ws p ≠ 0) ∨ (p ≠ 0 ∧ bits (zig.idxOf p) = 0) ∨
      (noAC bits = false ∧ (p = 0 ∨ 5 < zig.idxOf p))) : block bits q W ws p = ws p := by
  unfold block
  simp only []
  by_cases hp : p = 0
  · subst hp
    rcases h with h | h | h | h
    · exact absurd (by decide) h
    · exact absurd rfl h.1
    · exact absurd rfl h.1
    · simp [h.1]
  · rw [if_neg hp, if_neg]
    rintro ⟨h10, h1, h5, h0, hz⟩
    have hm : p ∈ zig := by rw [← List.idxOf_lt_length_iff]; exact h10
    have hg : zig.getD (zig.idxOf p) 0 = p := by
      rw [List.getD_eq_getElem _ _ (show zig.idxOf p < zig.length from h10)]
      exact List.getElem_idxOf _
    rw [hg] at hz
    rcases h with h | h | h | h
    · exact h hm
    · exact h.2 hz
    · exact h0 h.2
    · rcases h with ⟨hn, h | h⟩
      · exact hp h
      · rw [hn] at h5; simp at h5; omega

theorem wrap_id (x : Int) (h1 : -32768 ≤ x) (h2 : x < 32768) : wrap x = x := by
  rw [← toCoef_eq]; unfold toCoef; omega

/-- If bits of a coefficient down to number `Al > 0` were received and all were 0, the estimate is less than `2 ^ Al` in
magnitude: it does not contradict what was received. -/
theorem block_consistent (bits : Nat → Int) (q : Nat → Nat) (W : Window) (ws : Nat → Int) (k : Nat) (h1 : 1 ≤ k) (h9 : k ≤ 9)
    (ha : 0 < bits k) (ha13 : bits k ≤ 13) (hz : ws (zig.getD k 0) = 0) : |block bits q W ws (zig.getD k 0)| < 2 ^ (bits k).toNat := by
  have hp := pow_pos' (bits k).toNat
  have hp2 : (2 : Int) ^ (bits k).toNat ≤ 2 ^ 13 := pow_le_pow_right₀ (by norm_num) (by omega)
  rw [block_at bits q W ws k h1 h9]
  split
  · have hE : |estimate bits q W k| < 2 ^ (bits k).toNat := by
      unfold estimate limit
      rw [if_pos ha]
      generalize (2 : Int) ^ (bits k).toNat = a at *
      rw [abs_lt]
      omega
    rw [wrap_id _ (by rw [abs_lt] at hE; omega) (by rw [abs_lt] at hE; omega)]
    exact hE
  · rw [hz, abs_zero]; omega

theorem C58_rounding (a b : Int) (hb : 0 < b) :
    2 * |a - b * roundAway a b| ≤ b ∧ (2 * |a - b * roundAway a b| = b → |a| ≤ b * |roundAway a b|) := by
  unfold roundAway
  have ha := abs_nonneg a
  have h1 := Int.mul_ediv_add_emod (2 * |a| + b) (2 * b)
  have h2 := Int.emod_nonneg (2 * |a| + b) (show 2 * b ≠ 0 by omega)
  have h3 := Int.emod_lt_of_pos (2 * |a| + b) (show 0 < 2 * b by omega)
  have hn : 0 ≤ (2 * |a| + b) / (2 * b) := Int.ediv_nonneg (by omega) (by omega)
  generalize (2 * |a| + b) / (2 * b) = p at *
  generalize (2 * |a| + b) % (2 * b) = r at *
  have key : 2 * |(|a| - b * p)| ≤ b ∧ (2 * |(|a| - b * p)| = b → |a| ≤ b * p) := by
    have e : 2 * b * p = 2 * (b * p) := by ring
    rw [e] at h1
    generalize b * p = m at *
    constructor
    · rcases abs_cases (|a| - m) with ⟨h, _⟩ | ⟨h, _⟩ <;> rw [h] <;> omega
    · rcases abs_cases (|a| - m) with ⟨h, _⟩ | ⟨h, _⟩ <;> rw [h] <;> omega
  rcases lt_trichotomy a 0 with h | h | h
  · rw [Int.sign_eq_neg_one_of_neg h]
    have e : |a - b * (-1 * p)| = |(|a| - b * p)| := by
      rw [abs_of_neg h, ← abs_neg]; congr 1; ring
    rw [e, neg_one_mul, abs_neg, abs_of_nonneg hn]
    exact key
  · subst h; simp; omega
  · rw [Int.sign_eq_one_of_pos h, one_mul, abs_of_nonneg hn]
    have e : a = |a| := (abs_of_pos h).symm
    rw [abs_of_pos h] at *
    exact key

/-- `roundAway` bounded. -/
theorem roundAway_le (a b m : Int) (hb : 0 < b) (hm : |a| ≤ b * m) : |roundAway a b| ≤ m := by
  have hab := abs_nonneg a
  have hm0 : 0 ≤ m := by
    by_contra h
    have : b * m < 0 := mul_neg_of_pos_of_neg hb (by omega)
    omega
  unfold roundAway
  rw [abs_mul]
  have hn : 0 ≤ (2 * |a| + b) / (2 * b) := Int.ediv_nonneg (by omega) (by omega)
  have hle : (2 * |a| + b) / (2 * b) ≤ m := by
    rw [← Int.lt_add_one_iff, Int.ediv_lt_iff_lt_mul (by omega)]
    nlinarith
  rw [abs_of_nonneg hn]
  rcases Int.sign_trichotomy a with h | h | h <;> rw [h] <;> simp <;> omega

/-- If all dequantized DC values are at most 16384 in magnitude (those of 8-bit images are at most 8192), no estimate is
affected by the reduction to 16 bits. -/
theorem C58_no_wrap (bits : Nat → Int) (q : Nat → Nat) (hq : ∀ p ∈ zig, 0 < q p) (W : Window) (hW : ∀ i j, (q 0 : Int) * |W i j| ≤ 16384) (k : Nat)
    (h1 : 1 ≤ k) (h9 : k ≤ 9) :
    wrap (estimate bits q W k) = estimate bits q W k ∧ wrap (roundAway (conv k00 W) 256) = roundAway (conv k00 W) 256 := by
  have hm : zig.getD k 0 ∈ zig := by interval_cases k <;> decide
  have hq0 : (1 : Int) ≤ q 0 := by exact_mod_cast hq 0 (by decide)
  have hqk : (1 : Int) ≤ q (zig.getD k 0) := by exact_mod_cast hq _ hm
  constructor
  · have hs : |(q 0 : Int) * conv (kernel (noAC bits) k) W| ≤ 154 * 16384 := by
      have : (q 0 : Int) * conv (kernel (noAC bits) k) W = conv (kernel (noAC bits) k) (fun i j => q 0 * W i j) := by
        unfold conv
        rw [Finset.mul_sum]
        refine Finset.sum_congr rfl fun i _ => ?_
        rw [Finset.mul_sum]
        refine Finset.sum_congr rfl fun j _ => ?_
        ring
      rw [this]
      have hc := conv_le (kernel (noAC bits) k) (fun i j => (q 0 : Int) * W i j) 16384 (fun i j => by
        rw [abs_mul, Nat.abs_cast]; exact hW i j)
      have := knorm_kernel (noAC bits) k
      push_cast at hc
      omega
    have hr : |roundAway (q 0 * conv (kernel (noAC bits) k) W) (256 * q (zig.getD k 0))| ≤ 16384 := by
      refine roundAway_le _ _ _ (by omega) ?_
      nlinarith
    have hE : |estimate bits q W k| ≤ 16384 := by
      unfold estimate limit
      generalize roundAway (q 0 * conv (kernel (noAC bits) k) W) (256 * q (zig.getD k 0)) = e at *
      split
      · have := pow_pos' (bits k).toNat
        generalize (2 : Int) ^ (bits k).toNat = a at *
        rw [abs_le] at hr ⊢
        omega
      · exact hr
    rw [abs_le] at hE
    exact wrap_id _ (by omega) (by omega)
  · have hc : |conv k00 W| ≤ 432 * 16384 := by
      have := conv_le k00 W 16384 (fun i j => by
        have := hW i j
        have := abs_nonneg (W i j)
        push_cast
        nlinarith)
      rw [knorm_k00] at this
      exact_mod_cast this
    have hr : |roundAway (conv k00 W) 256| ≤ 27648 := roundAway_le _ _ _ (by omega) (by omega)
    rw [abs_le] at hr
    exact wrap_id _ (by omega) (by omega)

/-! ## Flat areas, and symmetry of the weights -/

theorem conv_const (K : Window) (d : Int) : conv K (fun _ _ => d) = (∑ i, ∑ j, K i j) * d := by
  unfold conv
  rw [Finset.sum_mul]
  refine Finset.sum_congr rfl fun i _ => ?_
  rw [Finset.sum_mul]

theorem kernel_sum (b : Bool) (k : Nat) : ∑ i, ∑ j, kernel b k i j = 0 := by
  rcases Nat.lt_or_ge k 10 with h | h
  · revert b; interval_cases k <;> decide +kernel
  · obtain ⟨n, rfl⟩ : ∃ n, k = n + 10 := ⟨k - 10, by omega⟩
    cases b <;> simp [kernel]

/-- A block in a flat area is not changed. -/
theorem block_flat (bits : Nat → Int) (q : Nat → Nat) (ws : Nat → Int) (h1 : -32768 ≤ ws 0) (h2 : ws 0 < 32768) :
    block bits q (fun _ _ => ws 0) ws = ws := by
  funext p
  unfold block
  simp only []
  split
  · rename_i hp
    subst hp
    split
    · rw [conv_const]
      have : ∑ i, ∑ j, k00 i j = 256 := by decide +kernel
      rw [this]
      have : roundAway (256 * ws 0) 256 = ws 0 := by
        unfold roundAway
        rw [Int.sign_mul, abs_mul]
        simp only [show Int.sign 256 = 1 from rfl, one_mul, show |(256 : Int)| = 256 from rfl]
        rw [show (2 * (256 * |ws 0|) + 256) = 256 + 512 * |ws 0| by ring, show (2 * 256 : Int) = 512 from rfl,
          Int.add_mul_ediv_left _ _ (by norm_num), show (256 / 512 : Int) = 0 from rfl, zero_add]
        exact Int.sign_mul_abs _
      rw [this, wrap_id _ h1 h2]
    · rfl
  · split
    · rename_i h
      obtain ⟨h10, h⟩ := h
      have hz := h.2.2.2
      have hg : zig.getD (zig.idxOf p) 0 = p := by
        rw [List.getD_eq_getElem _ _ (show zig.idxOf p < zig.length from h10)]
        exact List.getElem_idxOf _
      rw [hg] at hz
      rw [hz]
      unfold estimate
      rw [conv_const, kernel_sum]
      have hr : roundAway ((q 0 : Int) * (0 * ws 0)) (256 * q (zig.getD (zig.idxOf p) 0)) = 0 := by
        simp [roundAway]
      rw [hr]
      have : limit (bits (zig.idxOf p)) 0 = 0 := by
        unfold limit
        split
        · have := pow_pos' (bits (zig.idxOf p)).toNat
          omega
        · rfl
      rw [this]
      rfl
    · rfl

/-- Coefficients exchanged by transposing a block. -/
def Spec.trIdx : Nat → Nat
  | 1 => 2 | 2 => 1 | 3 => 5 | 5 => 3 | 6 => 9 | 9 => 6 | 7 => 8 | 8 => 7 | k => k

/-- Rows and columns are treated alike; a horizontal (vertical) mirror image changes the sign of the estimates with odd
horizontal (vertical) frequency, and no other. -/
theorem C58_symmetric (b : Bool) (k : Nat) (h1 : 1 ≤ k) (h9 : k ≤ 9) :
    kernel b (trIdx k) = tr (kernel b k) ∧
    (∀ i j, kernel b k i (4 - j) = (-1) ^ (zig.getD k 0 % 8) * kernel b k i j) ∧
    (∀ i j, kernel b k (4 - i) j = (-1) ^ (zig.getD k 0 / 8) * kernel b k i j) := by
  refine ⟨?_, ?_, ?_⟩
  · revert b
    interval_cases k <;> decide +kernel
  · revert b
    interval_cases k <;> decide +kernel
  · revert b
    interval_cases k <;> decide +kernel

/-! ## The same, of the code -/

/-- The block of the output at block row `br` (within the iMCU row) and output column `x`. -/
def Spec.At (out : List (List (Nat → Int))) (br x : Nat) (b : Nat → Int) : Prop := ∃ row, out[br]? = some row ∧ row[x]? = some b

theorem at_comp (bits : Nat → Int) (c : Comp) (T t br x : Nat) (b : Nat → Int) (h : At (Spec.comp bits c T t) br x b) :
    b = block bits c.q (window c T t (t * c.v + br) (c.first + x)) (c.blk (t * c.v + br) (c.first + x)) := by
  obtain ⟨row, h1, h2⟩ := h
  unfold Spec.comp at h1
  rw [List.getElem?_map, Option.map_eq_some_iff] at h1
  obtain ⟨r, hr, rfl⟩ := h1
  rw [List.getElem?_map, Option.map_eq_some_iff] at h2
  obtain ⟨y, hy, rfl⟩ := h2
  rw [List.getElem?_eq_some_iff] at hr hy
  obtain ⟨_, hr⟩ := hr
  obtain ⟨_, hy⟩ := hy
  rw [List.getElem_range] at hr hy
  rw [hr, hy]

/-- **C58, received data is respected.** In every block handed on by a smoothing pass, a coefficient differs from the decoded
one only if it is among the first ten, was 0 (or is the DC coefficient, and nothing is known of the AC coefficients), and is
not known exactly; and if it is known partly, its estimate agrees with what is known. -/
theorem C58_respects (ss : List Scan) (hss : ∀ s ∈ ss, OkScan s) (junk : Nat → Nat → Int) (nc : Nat) (comps : Nat → Comp)
    (l : Latch) (hl : smoothingOk true (some (scans 1 ss (bits0 junk))) nc ss.length (fun ci => some (comps ci).q) = some l)
    (ci : Nat) (hci : ci < nc) (T D Q lm : Nat) (hb : Bd lm D Q)
    (hc : WF (comps ci) T D Q) (lastGood t : Nat) (ht : t < T) (out : List (List (Nat → Int)))
    (ho : smoothComp lm l lastGood ci (comps ci) T t = some out) (br x : Nat) (b : Nat → Int) (hB : At out br x b) (p : Nat) :
    let old := (comps ci).blk (t * (comps ci).v + br) ((comps ci).first + x)
    let st := status ss (decide (t ≤ lastGood)) ci
    (b p ≠ old p →
      (p = 0 ∧ ∀ k, 1 ≤ k → k ≤ 9 → st k = -1) ∨
      ∃ k, 1 ≤ k ∧ k ≤ 9 ∧ p = zig.getD k 0 ∧ old p = 0 ∧ st k ≠ 0 ∧ (0 < st k → |b p| < 2 ^ (st k).toNat) ∧
        (5 < k → ∀ k, 1 ≤ k → k ≤ 9 → st k = -1)) := by
  intro old st hne
  rw [C58_correct ss hss junk nc comps l hl ci hci T D Q lm hb hc lastGood t ht] at ho
  obtain rfl := Option.some.inj ho
  have hb' := at_comp _ _ _ _ _ _ _ hB
  have hnoac : noAC st = true → ∀ k, 1 ≤ k → k ≤ 9 → st k = -1 := by
    intro h k h1 h9
    unfold noAC at h
    rw [decide_eq_true_eq] at h
    have := h ⟨k - 1, by omega⟩
    simp only [show k - 1 + 1 = k by omega] at this
    exact this
  by_cases hu : p ∉ zig ∨ (p ≠ 0 ∧ old p ≠ 0) ∨ (p ≠ 0 ∧ st (zig.idxOf p) = 0) ∨
      (noAC st = false ∧ (p = 0 ∨ 5 < zig.idxOf p))
  · rw [hb'] at hne
    exact absurd (block_unchanged st _ _ old p hu) hne
  · push Not at hu
    obtain ⟨u1, u2, u3, u4⟩ := hu
    have hac : ∀ {P : Prop}, (noAC st = false → ¬ P) → P → noAC st = true := by
      intro P h hP
      cases h' : noAC st
      · exact absurd hP (h h')
      · rfl
    by_cases hp : p = 0
    · exact Or.inl ⟨hp, hnoac (hac (P := p = 0) (fun h => (u4 h).1) hp)⟩
    · right
      have h10 : zig.idxOf p < zig.length := List.idxOf_lt_length_iff.2 u1
      have hg : zig.getD (zig.idxOf p) 0 = p := by
        rw [List.getD_eq_getElem _ _ h10]
        exact List.getElem_idxOf _
      have hk1 : 1 ≤ zig.idxOf p := by
        rcases Nat.eq_zero_or_pos (zig.idxOf p) with h0 | h0
        · rw [h0] at hg; exact absurd hg.symm hp
        · exact h0
      have hk9 : zig.idxOf p ≤ 9 := by have : zig.length = 10 := rfl; omega
      refine ⟨zig.idxOf p, hk1, hk9, hg.symm, u2 hp, u3 hp, fun ha => ?_, fun h5 => hnoac (hac (P := 5 < zig.idxOf p) (fun h => by have := (u4 h).2; omega) h5)⟩
      have := block_consistent st (comps ci).q (window (comps ci) T t (t * (comps ci).v + br) ((comps ci).first + x)) old (zig.idxOf p) hk1 hk9 ha
        (status_bounds ss hss _ ci _).2 (by rw [hg]; exact u2 hp)
      rw [hg] at this
      rw [hb']
      exact this

/-- **C58, flat areas.** If all DC values of a component are the same, smoothing changes nothing. -/
theorem C58_flat (ss : List Scan) (hss : ∀ s ∈ ss, OkScan s) (junk : Nat → Nat → Int) (nc : Nat) (comps : Nat → Comp)
    (l : Latch) (hl : smoothingOk true (some (scans 1 ss (bits0 junk))) nc ss.length (fun ci => some (comps ci).q) = some l)
    (ci : Nat) (hci : ci < nc) (T D Q lm : Nat) (hb : Bd lm D Q)
    (hc : WF (comps ci) T D Q) (lastGood t : Nat) (ht : t < T) (d : Int) (hd1 : -32768 ≤ d) (hd2 : d < 32768)
    (hd : ∀ r x, (comps ci).blk r x 0 = d) :
    smoothComp lm l lastGood ci (comps ci) T t =
      some ((List.range (min (comps ci).v ((comps ci).height - t * (comps ci).v))).map fun br =>
        (List.range ((comps ci).last + 1 - (comps ci).first)).map fun x =>
          (comps ci).blk (t * (comps ci).v + br) ((comps ci).first + x)) := by
  rw [C58_correct ss hss junk nc comps l hl ci hci T D Q lm hb hc lastGood t ht]
  unfold Spec.comp
  congr 1
  refine List.map_congr_left fun br _ => List.map_congr_left fun x _ => ?_
  have : window (comps ci) T t (t * (comps ci).v + br) ((comps ci).first + x) =
      fun _ _ => (comps ci).blk (t * (comps ci).v + br) ((comps ci).first + x) 0 := by
    funext i j
    simp only [window, hd]
  rw [this]
  exact block_flat _ _ _ (by rw [hd]; exact hd1) (by rw [hd]; exact hd2)

end Verif.Smooth
