/-
C34 (second half): with exact arithmetic, the AC coefficients chosen by quantize_trellis minimize
(weighted squared error) + (bits the Huffman encoder will emit), among all coefficient vectors built from the
candidate values.
-/
import Verif.Trellis.Shrink
import Verif.Huff.BlockLemmas
import Mathlib.Algebra.Order.Ring.Rat
import Mathlib.Tactic.Linarith
import Mathlib.Tactic.Ring
import Mathlib.Tactic.Tauto

namespace Verif.Trellis

open Verif.Huff (nbitsOf)

/-- Exact rational arithmetic. -/
def ratOps (big : ℚ) : Ops ℚ := ⟨(· + ·), (· - ·), fun a b => decide (a < b), fun n => n, big⟩

section
variable (I : Inp ℚ) (s : Nat)

def bitsAt (run nb : Nat) : Nat := run / 16 * I.eh 0xf0 + (I.eh (16 * (run % 16) + nb) + nb)

def okAt (run nb : Nat) : Prop := (run / 16 = 0 ∨ I.eh 0xf0 ≠ 0) ∧ I.eh (16 * (run % 16) + nb) ≠ 0

/-- Cost of the first n coefficients (positions s+1 .. s+n) of v, and the position of the last nonzero one. -/
def fw (v : Nat → Int) : Nat → ℚ × Nat
  | 0 => (0, s)
  | n + 1 =>
    if v (s + n + 1) = 0 then ((fw v n).1 + I.zd (s + n + 1), (fw v n).2)
    else ((fw v n).1 + I.cd (s + n + 1) (v (s + n + 1)).natAbs +
      (bitsAt I (s + n - (fw v n).2) (nbitsOf (v (s + n + 1)).natAbs) : ℚ), s + n + 1)

/-- All symbols of the first n coefficients have codes. -/
def ok (v : Nat → Int) : Nat → Prop
  | 0 => True
  | n + 1 => ok v n ∧ (v (s + n + 1) = 0 ∨ okAt I (s + n - (fw I s v n).2) (nbitsOf (v (s + n + 1)).natAbs))

/-- v takes at each position zero or one of the candidate values considered. -/
def IsCand (v : Nat → Int) (i : Nat) : Prop :=
  v i = 0 ∨ (roundQ (I.x i) (I.q i) ≠ 0 ∧
    ∃ k < nbitsOf (clampQ I.maxBits (roundQ (I.x i) (I.q i))),
      (v i).natAbs = candidate (nbitsOf (clampQ I.maxBits (roundQ (I.x i) (I.q i))))
        (clampQ I.maxBits (roundQ (I.x i) (I.q i))) k)

/-- Accumulated error of zeroing the first n coefficients. -/
def Zs : Nat → ℚ
  | 0 => 0
  | n + 1 => I.zd (s + n + 1) + Zs n

variable {I s}

theorem fw_last_le (v : Nat → Int) (n : Nat) : s ≤ (fw I s v n).2 ∧ (fw I s v n).2 ≤ s + n := by
  induction n with
  | zero => simp [fw]
  | succ n ih =>
    unfold fw
    split
    · simp only; omega
    · simp only; omega

theorem fw_congr {v w : Nat → Int} (n : Nat) (h : ∀ l, s < l → l ≤ s + n → v l = w l) :
    fw I s v n = fw I s w n ∧ (ok I s v n ↔ ok I s w n) := by
  induction n with
  | zero => simp [fw, ok]
  | succ n ih =>
    obtain ⟨h1, h2⟩ := ih (fun l a b => h l a (by omega))
    have h3 := h (s + n + 1) (by omega) (by omega)
    simp only [fw, ok]
    rw [h1, h2, h3]
    exact ⟨rfl, Iff.rfl⟩

/-- Appending zeros. -/
theorem fw_zeros {v : Nat → Int} {m : Nat} : ∀ n, m ≤ n → (∀ l, s + m < l → l ≤ s + n → v l = 0) →
    (fw I s v n).1 = (fw I s v m).1 + (Zs I s n - Zs I s m) ∧ (fw I s v n).2 = (fw I s v m).2 ∧
      (ok I s v n ↔ ok I s v m) := by
  intro n hn
  induction hn with
  | refl => intro _; simp
  | @step n hn ih =>
    intro h
    have hn' : m ≤ n := hn
    obtain ⟨h1, h2, h3⟩ := ih (fun l a b => h l a (by omega))
    have hz := h (s + n + 1) (by omega) (by omega)
    simp only [Nat.succ_eq_add_one]
    refine ⟨?_, ?_, ?_⟩
    · simp only [fw, hz, if_true, Zs]
      rw [h1]; ring
    · simp only [fw, hz, if_true]; exact h2
    · simp only [ok, hz, true_or, and_true]; exact h3

/-- The last nonzero position before s+n+1. -/
theorem fw_split (v : Nat → Int) (n : Nat) : ∃ m ≤ n, (fw I s v n).2 = s + m ∧ (m = 0 ∨ v (s + m) ≠ 0) ∧
    (∀ l, s + m < l → l ≤ s + n → v l = 0) ∧ (fw I s v m).2 = s + m := by
  induction n with
  | zero => exact ⟨0, by simp [fw], by simp [fw], Or.inl rfl, by intro l a b; omega, by simp [fw]⟩
  | succ n ih =>
    obtain ⟨m, h1, h2, h3, h4, h5⟩ := ih
    by_cases hz : v (s + n + 1) = 0
    · refine ⟨m, by omega, ?_, h3, ?_, h5⟩
      · simp only [fw, hz, if_true]; exact h2
      · intro l a b
        by_cases e : l = s + n + 1
        · rw [e]; exact hz
        · exact h4 l a (by omega)
    · refine ⟨n + 1, by omega, ?_, Or.inr hz, by intro l a b; omega, ?_⟩
      · simp only [fw, hz, if_false]; omega
      · simp only [fw, hz, if_false]; omega

theorem Zs_mono (hz : ∀ i, 0 ≤ I.zd i) {m n : Nat} (h : m ≤ n) : Zs I s m ≤ Zs I s n := by
  induction h with
  | refl => exact le_refl _
  | @step k _ ih =>
    have h1 := hz (s + k + 1)
    have h2 : Zs I s (k + 1) = I.zd (s + k + 1) + Zs I s k := rfl
    simp only [Nat.succ_eq_add_one]
    linarith

end

/-! ### Generic argmin fold -/

theorem fold_min {β γ : Type} (cost : β → ℚ) (act : γ → Prop) (node : γ → β) (f : β → γ → β)
    (h1 : ∀ b x, ¬ act x → f b x = b)
    (h2 : ∀ b x, act x → f b x = if cost (node x) < cost b then node x else b) :
    ∀ (L : List γ) (b : β),
      (L.foldl f b = b ∨ (∃ x ∈ L, act x ∧ L.foldl f b = node x ∧ cost (node x) < cost b)) ∧
      cost (L.foldl f b) ≤ cost b ∧ ∀ x ∈ L, act x → cost (L.foldl f b) ≤ cost (node x) := by
  intro L
  induction L with
  | nil => intro b; exact ⟨Or.inl rfl, le_refl _, by simp⟩
  | cons y L ih =>
    intro b
    rw [List.foldl_cons]
    by_cases hy : act y
    · rw [h2 b y hy]
      by_cases hc : cost (node y) < cost b
      · rw [if_pos hc]
        obtain ⟨i1, i2, i3⟩ := ih (node y)
        refine ⟨?_, le_trans i2 (le_of_lt hc), ?_⟩
        · rcases i1 with h | ⟨x, hx, ha, e, hlt⟩
          · exact Or.inr ⟨y, by simp, hy, h, hc⟩
          · exact Or.inr ⟨x, by simp [hx], ha, e, lt_trans hlt hc⟩
        · intro x hx ha
          rcases List.mem_cons.1 hx with rfl | hx
          · exact i2
          · exact i3 x hx ha
      · rw [if_neg hc]
        obtain ⟨i1, i2, i3⟩ := ih b
        refine ⟨?_, i2, ?_⟩
        · rcases i1 with h | ⟨x, hx, ha, e, hlt⟩
          · exact Or.inl h
          · exact Or.inr ⟨x, by simp [hx], ha, e, hlt⟩
        · intro x hx ha
          rcases List.mem_cons.1 hx with rfl | hx
          · exact le_trans i2 (le_of_not_gt hc)
          · exact i3 x hx ha
    · rw [h1 b y hy]
      obtain ⟨i1, i2, i3⟩ := ih b
      refine ⟨?_, i2, ?_⟩
      · rcases i1 with h | ⟨x, hx, ha, e, hlt⟩
        · exact Or.inl h
        · exact Or.inr ⟨x, by simp [hx], ha, e, hlt⟩
      · intro x hx ha
        rcases List.mem_cons.1 hx with rfl | hx
        · exact absurd ha hy
        · exact i3 x hx ha

/-! ### The loop over earlier positions and candidates -/

def signed (neg : Bool) (m : Nat) : Int := if neg then -(m : Int) else (m : Int)

theorem signed_natAbs (neg : Bool) (m : Nat) : (signed neg m).natAbs = m := by
  unfold signed; cases neg <;> simp

/-- Cost of arriving at i from j with candidate k. -/
def arrive (I : Inp ℚ) (i qv : Nat) (zacc acost : Nat → ℚ) (jk : Nat × Nat) : ℚ :=
  ((I.eh (16 * ((i - 1 - jk.1) % 16) + (jk.2 + 1)) + (jk.2 + 1) + (i - 1 - jk.1) / 16 * I.eh 0xf0 : Nat) : ℚ) +
    I.cd i (candidate (nbitsOf qv) qv jk.2) + (zacc (i - 1) - zacc jk.1 + acost jk.1)

def usable (I : Inp ℚ) (s i : Nat) (coef : Nat → Int) (jk : Nat × Nat) : Prop :=
  ¬ (jk.1 ≠ s ∧ coef jk.1 = 0) ∧ okAt I (i - 1 - jk.1) (jk.2 + 1)

theorem foldl_id {β γ : Type} (f : β → γ → β) (L : List γ) (b : β) (h : ∀ b, ∀ x ∈ L, f b x = b) : L.foldl f b = b := by
  induction L with
  | nil => rfl
  | cons x L ih =>
    rw [List.foldl_cons, h b x (by simp)]
    exact ih (fun b y hy => h b y (by simp [hy]))

theorem foldl_congr' {β γ : Type} {f g : β → γ → β} {L : List γ} (h : ∀ b, ∀ x ∈ L, f b x = g b x) (b : β) :
    L.foldl f b = L.foldl g b := by
  induction L generalizing b with
  | nil => rfl
  | cons x L ih =>
    rw [List.foldl_cons, List.foldl_cons, h b x (by simp)]
    exact ih (fun b y hy => h b y (by simp [hy])) _

open Classical in
/-- The nested loops are one argmin over the pairs (j, k). -/
theorem starts_flat (big : ℚ) (I : Inp ℚ) (s i qv : Nat) (zacc acost : Nat → ℚ) (coef : Nat → Int) (nd : Node ℚ)
    (J : List Nat) :
    J.foldl (startStep (ratOps big) I (s + 1) i qv zacc acost coef) nd =
      (J.flatMap (fun j => (List.range (nbitsOf qv)).map (fun k => (j, k)))).foldl
        (fun nd jk => if usable I s i coef jk then
            (if arrive I i qv zacc acost jk < nd.cost then
              ⟨signed (I.neg i) (candidate (nbitsOf qv) qv jk.2), arrive I i qv zacc acost jk, jk.1⟩ else nd)
          else nd) nd := by
  rw [List.foldl_flatMap]
  apply foldl_congr'
  intro nd j _
  rw [List.foldl_map]
  unfold startStep
  simp only [Nat.add_sub_cancel]
  by_cases h1 : j ≠ s ∧ coef j = 0
  · rw [if_pos h1]
    symm
    apply foldl_id
    intro b k _
    rw [if_neg (fun h => h.1 h1)]
  · rw [if_neg h1]
    by_cases h2 : (i - 1 - j) / 16 ≠ 0 ∧ I.eh 0xf0 = 0
    · rw [if_pos h2]
      symm
      apply foldl_id
      intro b k _
      rw [if_neg]
      rintro ⟨-, h3, -⟩
      tauto
    · rw [if_neg h2]
      apply foldl_congr'
      intro nd k _
      unfold candStep
      simp only [ratOps, decide_eq_true_eq]
      by_cases h3 : I.eh (16 * ((i - 1 - j) % 16) + (k + 1)) = 0
      · rw [if_pos h3, if_neg (fun h => h.2.2 h3)]
      · rw [if_neg h3, if_pos (show usable I s i coef (j, k) from ⟨h1, by tauto, h3⟩)]
        rfl

end Verif.Trellis
