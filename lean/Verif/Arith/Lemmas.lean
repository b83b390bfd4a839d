import Verif.Arith.Model
import Mathlib.Tactic.Ring
import Mathlib.Tactic.Linarith
/-
Both sides of the arithmetic coder against exact intervals.
-/
namespace Verif.Arith

open Verif.Huff (unstuff segTail stuff stuff_nil stuff_append stuff_cons)

/-! ### Numbers -/

/-- A byte string as a number. -/
def val (l : List Nat) : Nat := l.foldl (fun v b => v * 256 + b) 0

theorem foldl_val (l : List Nat) (v : Nat) : l.foldl (fun v b => v * 256 + b) v = v * 256 ^ l.length + val l := by
  unfold val
  induction l generalizing v with
  | nil => simp
  | cons b l ih =>
    simp only [List.foldl_cons, List.length_cons]
    rw [ih, ih (0 * 256 + b)]
    ring

theorem val_append (a b : List Nat) : val (a ++ b) = val a * 256 ^ b.length + val b := by
  conv => lhs; unfold val
  rw [List.foldl_append, foldl_val]
  rfl

theorem val_single (b : Nat) : val [b] = b := by simp [val]

theorem val_zeros (n : Nat) : val (List.replicate n 0) = 0 := by
  induction n with
  | zero => rfl
  | succ n ih => rw [List.replicate_succ', val_append, ih, val_single]; simp

theorem val_ff (n : Nat) : val (List.replicate n 255) + 1 = 256 ^ n := by
  induction n with
  | zero => rfl
  | succ n ih => rw [List.replicate_succ', val_append, val_single, pow_succ, ← ih]; simp; ring

/-- The first `j` bytes of `P`, followed by zeros, as a number. -/
def zx (P : List Nat) : Nat → Nat
  | 0 => 0
  | j + 1 => zx P j * 256 + P.getD j 0

theorem zx_congr {P Q : List Nat} (h : ∀ i, P.getD i 0 = Q.getD i 0) (j : Nat) : zx P j = zx Q j := by
  induction j with
  | zero => rfl
  | succ j ih => rw [zx, zx, ih, h]

theorem zx_take (P : List Nat) (j : Nat) (h : j ≤ P.length) : zx P j = val (P.take j) := by
  induction j with
  | zero => simp [zx, val]
  | succ j ih =>
    have hj : j < P.length := by omega
    rw [zx, ih (by omega), List.take_add_one, val_append, List.getElem?_eq_getElem hj]
    simp [val_single, List.getD_eq_getElem?_getD, List.getElem?_eq_getElem hj]

theorem zx_length (P : List Nat) : zx P P.length = val P := by
  rw [zx_take P _ (Nat.le_refl _), List.take_length]

theorem zx_zero (P : List Nat) {j : Nat} (h : P.length ≤ j) : zx P (j + 1) = zx P j * 256 := by
  rw [zx, List.getD_eq_getElem?_getD, List.getElem?_eq_none h]; simp

theorem getD_append_zeros (P : List Nat) (n i : Nat) : (P ++ List.replicate n 0).getD i 0 = P.getD i 0 := by
  simp only [List.getD_eq_getElem?_getD]
  by_cases h : i < P.length
  · rw [List.getElem?_append_left h]
  · rw [List.getElem?_append_right (by omega), List.getElem?_eq_none (l := P) (by omega)]
    by_cases h2 : i - P.length < n
    · rw [List.getElem?_eq_getElem (by simpa using h2)]; simp
    · rw [List.getElem?_eq_none (by simp; omega)]

theorem getD_lt {P : List Nat} (h : IsBytes P) (i : Nat) : P.getD i 0 < 256 := by
  rw [List.getD_eq_getElem?_getD]
  cases e : P[i]? with
  | none => simp
  | some x => exact h x (List.mem_of_getElem? e)

/-! ### Intervals -/

/-- An exact interval `[low, low + a) / 2^(16 + N)`. -/
structure T where
  low : Nat
  a : Nat
  N : Nat

/-- The code `P` lies in the interval, judged by `J` bytes. -/
structure InAt (P : List Nat) (t : T) (J : Nat) : Prop where
  big : 16 + t.N ≤ 8 * J
  lo : t.low * 2 ^ (8 * J - 16 - t.N) ≤ zx P J
  hi : zx P J < (t.low + t.a) * 2 ^ (8 * J - 16 - t.N)

theorem InAt.up {P : List Nat} {t : T} {J : Nat} (hP : IsBytes P) (h : InAt P t J) : InAt P t (J + 1) := by
  have e : (2 : Nat) ^ (8 * (J + 1) - 16 - t.N) = 2 ^ (8 * J - 16 - t.N) * 256 := by
    rw [show (256 : Nat) = 2 ^ 8 from rfl, ← pow_add]; congr 1; have := h.big; omega
  have hb := getD_lt hP J
  have h1 := h.lo
  have h2 := h.hi
  refine ⟨by have := h.big; omega, ?_, ?_⟩
  · rw [e, zx]
    nlinarith
  · rw [e, zx]
    nlinarith

theorem InAt.down {P : List Nat} {t : T} {J : Nat} (hP : IsBytes P) (h : InAt P t (J + 1)) (hJ : 16 + t.N ≤ 8 * J) :
    InAt P t J := by
  have e : (2 : Nat) ^ (8 * (J + 1) - 16 - t.N) = 2 ^ (8 * J - 16 - t.N) * 256 := by
    rw [show (256 : Nat) = 2 ^ 8 from rfl, ← pow_add]; congr 1; omega
  have hb := getD_lt hP J
  have h1 := h.lo
  have h2 := h.hi
  rw [e, zx] at h1 h2
  refine ⟨hJ, ?_, ?_⟩
  · by_contra hc
    have : zx P J + 1 ≤ t.low * 2 ^ (8 * J - 16 - t.N) := by omega
    nlinarith
  · by_contra hc
    have : (t.low + t.a) * 2 ^ (8 * J - 16 - t.N) ≤ zx P J := by omega
    nlinarith

theorem InAt.any {P : List Nat} {t : T} {J J' : Nat} (hP : IsBytes P) (h : InAt P t J) (hJ : 16 + t.N ≤ 8 * J') :
    InAt P t J' := by
  rcases Nat.le_total J J' with hl | hl
  · obtain ⟨k, rfl⟩ := Nat.exists_eq_add_of_le hl
    clear hl hJ
    induction k with
    | zero => exact h
    | succ k ih => exact ih.up hP
  · obtain ⟨k, rfl⟩ := Nat.exists_eq_add_of_le hl
    clear hl
    induction k with
    | zero => exact h
    | succ k ih => exact ih (InAt.down hP h (by omega))

/-- Some number of bytes is enough to see that the code lies in the interval. -/
def In (P : List Nat) (t : T) : Prop := ∃ J, InAt P t J

theorem In.sub {P : List Nat} {low a N δ a' : Nat} (h : In P ⟨low + δ, a', N⟩) (hs : δ + a' ≤ a) : In P ⟨low, a, N⟩ := by
  obtain ⟨J, h⟩ := h
  refine ⟨J, h.big, Nat.le_trans (Nat.mul_le_mul_right _ ?_) h.lo, Nat.lt_of_lt_of_le h.hi (Nat.mul_le_mul_right _ ?_)⟩
  · dsimp only; omega
  · dsimp only; omega

theorem In.half {P : List Nat} {low a N : Nat} (h : In P ⟨low * 2, a * 2, N + 1⟩) : In P ⟨low, a, N⟩ := by
  obtain ⟨J, h⟩ := h
  have hb := h.big
  have h1 := h.lo
  have h2 := h.hi
  dsimp only at hb h1 h2
  have e : (2 : Nat) ^ (8 * J - 16 - N) = 2 * 2 ^ (8 * J - 16 - (N + 1)) := by
    rw [← pow_succ']; congr 1; omega
  refine ⟨J, by dsimp only; omega, ?_, ?_⟩
  · dsimp only; rw [e]; linarith
  · dsimp only; rw [e]; linarith

/-- Doubling until the size is at least 0x8000. -/
def T.renorm : Nat → T → T
  | 0, t => t
  | n + 1, t => if t.a < 0x8000 then T.renorm n ⟨t.low * 2, t.a * 2, t.N + 1⟩ else t

theorem In.renorm {P : List Nat} (n : Nat) {t : T} (h : In P (t.renorm n)) : In P t := by
  induction n generalizing t with
  | zero => exact h
  | succ n ih =>
    rw [T.renorm] at h
    split at h
    · exact (ih h).half
    · exact h

theorem T.renorm_a (n : Nat) {t : T} (h : 0x8000 ≤ t.a * 2 ^ n) (h2 : t.a ≤ 0x10000) :
    0x8000 ≤ (t.renorm n).a ∧ (t.renorm n).a ≤ 0x10000 := by
  induction n generalizing t with
  | zero => rw [T.renorm]; exact ⟨by simpa using h, h2⟩
  | succ n ih =>
    rw [T.renorm]
    split
    · refine ih ?_ ?_
      · dsimp only; rw [pow_succ'] at h; linarith
      · dsimp only; omega
    · omega

/-! ### Tables -/

/-- A bin value: a valid index and the more probable symbol. -/
def Good (sv : Nat) : Prop := sv < 256 ∧ sv % 128 < 114

theorem table_facts : ∀ sv : Fin 256, sv.val % 128 < 114 →
    1 ≤ qeOf sv.val ∧ qeOf sv.val ≤ 0x5b12 ∧ lpsOf sv.val < 256 ∧ lpsOf sv.val % 128 < 114 ∧
    mpsOf sv.val < 256 ∧ mpsOf sv.val % 128 < 114 := by
  decide +kernel

theorem Good.qe {sv : Nat} (h : Good sv) : 1 ≤ qeOf sv ∧ qeOf sv < 0x8000 := by
  have := table_facts ⟨sv, h.1⟩ h.2
  simp only at this
  omega

theorem Good.lps {sv : Nat} (h : Good sv) : Good (lpsOf sv) := by
  have := table_facts ⟨sv, h.1⟩ h.2
  exact ⟨this.2.2.1, this.2.2.2.1⟩

theorem Good.mps {sv : Nat} (h : Good sv) : Good (mpsOf sv) := by
  have := table_facts ⟨sv, h.1⟩ h.2
  exact ⟨this.2.2.2.2.1, this.2.2.2.2.2⟩

/-- The decision's part of the interval: offset and size.  The less probable symbol has size Qe at the top, unless that
would make it the larger part, in which case the roles are exchanged. -/
def part (a sv : Nat) (x : Bool) : Nat × Nat :=
  if (decide (x ≠ mps sv) = decide (a - qeOf sv ≥ qeOf sv)) then (a - qeOf sv, qeOf sv)
  else (0, a - qeOf sv)

/-- The bin's next value. -/
def next (a sv : Nat) (x : Bool) : Nat :=
  if x ≠ mps sv then lpsOf sv else if a - qeOf sv ≥ 0x8000 then sv else mpsOf sv

end Verif.Arith
