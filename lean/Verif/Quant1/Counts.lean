import Verif.Quant1.Spec
import Mathlib.Tactic.Ring
import Mathlib.Tactic.Linarith
import Mathlib.Algebra.BigOperators.Group.List.Basic
import Mathlib.Algebra.Order.BigOperators.Group.List
/-
The choice of the number of levels per component.
-/
namespace Verif.Quant1

theorem forN_inv {A : Type} {f : Nat → A → Option A} (P : Nat → A → Prop) : ∀ (n : Nat) (a : A), P 0 a →
    (∀ i x, i < n → P i x → ∃ y, f i x = some y ∧ P (i + 1) y) → ∃ y, forN f n a = some y ∧ P n y := by
  intro n
  induction n with
  | zero => intro a h _; exact ⟨a, rfl, h⟩
  | succ n ih =>
    intro a h hs
    obtain ⟨y, e1, e2⟩ := ih a h (fun i x hi => hs i x (by omega))
    obtain ⟨z, e3, e4⟩ := hs n y (by omega) e2
    exact ⟨z, by simp [forN, e1, e3], e4⟩

theorem foldl_mul (r : Nat) : ∀ (l : List Nat) (t : Nat), l.foldl (fun t _ => t * r) t = t * r ^ l.length := by
  intro l
  induction l with
  | nil => intro t; simp
  | cons a l ih => intro t; rw [List.foldl_cons, ih, List.length_cons, pow_succ]; ring

theorem power_eq {nc : Nat} (h : 1 ≤ nc) (r : Nat) : power nc r = r ^ nc := by
  unfold power
  rw [foldl_mul, List.length_range]
  obtain ⟨m, rfl⟩ : ∃ m, nc = m + 1 := ⟨nc - 1, by omega⟩
  simp [pow_succ]; ring

theorem le_pow_self' {nc : Nat} (h : 1 ≤ nc) (r : Nat) : r ≤ r ^ nc := by
  rcases Nat.eq_zero_or_pos r with rfl | hr
  · simp
  · calc r = r ^ 1 := (pow_one r).symm
      _ ≤ r ^ nc := Nat.pow_le_pow_right hr h

/-- The root loop ends, and finds the largest number whose power still fits. -/
theorem rootGo_spec {nc : Nat} (h : 1 ≤ nc) (mx : Int) : ∀ (f r : Nat), mx.toNat + 2 ≤ f + r → 1 ≤ r → 1 ≤ f →
    (r = 1 ∨ ((r ^ nc : Nat) : Int) ≤ mx) →
    ∃ s, rootGo nc mx f r = some (s + 1, (s + 1) ^ nc) ∧ r ≤ s ∧ (s = 1 ∨ ((s ^ nc : Nat) : Int) ≤ mx) ∧
      mx < (((s + 1) ^ nc : Nat) : Int) := by
  intro f
  induction f with
  | zero => intro r _ _ h3; omega
  | succ f ih =>
    intro r h1 h2 _ h4
    simp only [rootGo]
    rw [power_eq h]
    by_cases hc : (((r + 1) ^ nc : Nat) : Int) ≤ mx
    · rw [if_pos hc]
      have := le_pow_self' h (r + 1)
      obtain ⟨s, e1, e2, e3, e4⟩ := ih (r + 1) (by omega) (by omega) (by omega) (Or.inr hc)
      exact ⟨s, e1, by omega, e3, e4⟩
    · rw [if_neg hc]
      exact ⟨r, rfl, le_refl _, h4, by omega⟩

theorem split_at {ns : List Nat} {j n : Nat} (h : ns[j]? = some n) : ns = ns.take j ++ n :: ns.drop (j + 1) := by
  obtain ⟨hj, e⟩ := List.getElem?_eq_some_iff.1 h
  rw [← e, List.getElem_cons_drop, List.take_append_drop]

theorem prod_set {ns : List Nat} {j n : Nat} (h : ns[j]? = some n) (hn : 0 < n) (m : Nat) :
    (ns.set j m).prod = ns.prod / n * m ∧ n ∣ ns.prod := by
  obtain ⟨hj, e⟩ := List.getElem?_eq_some_iff.1 h
  have h1 := split_at h
  have h2 : ns.set j m = ns.take j ++ m :: ns.drop (j + 1) := by
    rw [List.set_eq_take_append_cons_drop, if_pos hj]
  have h3 : ns.prod = (ns.take j).prod * (ns.drop (j + 1)).prod * n := by
    conv_lhs => rw [h1]
    simp; ring
  refine ⟨?_, ?_⟩
  · rw [h2, h3, Nat.mul_div_cancel _ hn]; simp; ring
  · rw [h3]; exact Dvd.intro_left _ rfl

theorem prod_pos : ∀ {ns : List Nat}, (∀ n ∈ ns, 0 < n) → 0 < ns.prod := by
  intro ns
  induction ns with
  | nil => intro _; simp
  | cons a l ih =>
    intro h
    rw [List.prod_cons]
    exact Nat.mul_pos (h a (by simp)) (ih fun n hn => h n (by simp [hn]))

/-- What is true of the counts throughout: there are `nc` of them, each at least `r`, and their product fits. -/
structure CountInv (k : Cfg) (r : Nat) (ns : List Nat) (tot : Nat) : Prop where
  len : ns.length = k.nc
  ge : ∀ n ∈ ns, r ≤ n
  prod : ns.prod = tot
  fits : (tot : Int) ≤ k.desired

/-- The component order stays within the components. -/
def Cfg.OrderOk (k : Cfg) : Prop := k.rgb = true → k.nc = 3

theorem order_lt {k : Cfg} (h : k.OrderOk) {i : Nat} (hi : i < k.nc) : order k i < k.nc := by
  unfold order
  by_cases hr : k.rgb = true
  · rw [if_pos hr]; have := h hr; split <;> [omega; (split <;> omega)]
  · rw [if_neg hr]; exact hi

theorem growGo_spec {k : Cfg} (hk : k.OrderOk) {r : Nat} (hr : 2 ≤ r) : ∀ (left i : Nat) (ns : List Nat) (tot : Nat)
    (ch : Bool), i + left = k.nc → CountInv k r ns tot →
    ∃ ns' tot' ch', growGo k left i ns tot ch = some (ns', tot', ch') ∧ CountInv k r ns' tot' ∧ tot ≤ tot' ∧
      (ch = true → ch' = true) ∧ (ch' = true → ch = true ∨ tot < tot') ∧
      (ch' = false → ns' = ns ∧ (0 < left → ∀ n, ns[order k i]? = some n →
        k.desired < ((tot / n * (n + 1) : Nat) : Int))) := by
  intro left
  induction left with
  | zero =>
    intro i ns tot ch _ hI
    exact ⟨ns, tot, ch, rfl, hI, le_refl _, id, Or.inl, fun _ => ⟨rfl, fun h => absurd h (by omega)⟩⟩
  | succ left ih =>
    intro i ns tot ch hl hI
    have hj : order k i < ns.length := by rw [hI.len]; exact order_lt hk (by omega)
    have hn : ns[order k i]? = some ns[order k i] := List.getElem?_eq_getElem hj
    simp only [growGo]
    generalize hv : ns[order k i] = n at hn
    have hge : r ≤ n := by rw [← hv]; exact hI.ge _ (List.getElem_mem hj)
    rw [hn]
    simp only [Option.bind_eq_bind, Option.bind_some]
    obtain ⟨hp, hd⟩ := prod_set hn (by omega) (n + 1)
    rw [hI.prod] at hp hd
    by_cases hc : ((tot / n * (n + 1) : Nat) : Int) > k.desired
    · rw [if_pos hc]
      refine ⟨ns, tot, ch, rfl, hI, le_refl _, id, Or.inl, fun _ => ⟨rfl, fun _ m hm => ?_⟩⟩
      injection hm with hm; subst hm; exact hc
    · rw [if_neg hc]
      have hpos : 0 < tot := by
        rw [← hI.prod]
        exact prod_pos fun m hm => by have := hI.ge m hm; omega
      have hlt : tot < tot / n * (n + 1) := by
        obtain ⟨q, rfl⟩ := hd
        rw [Nat.mul_div_cancel_left _ (by omega : 0 < n)]
        have : 0 < q := by
          rcases Nat.eq_zero_or_pos q with rfl | hq
          · simp at hpos
          · exact hq
        nlinarith
      have hI' : CountInv k r (ns.set (order k i) (n + 1)) (tot / n * (n + 1)) := by
        refine ⟨by rw [List.length_set]; exact hI.len, ?_, hp, by omega⟩
        intro m hm
        rcases List.mem_or_eq_of_mem_set hm with h | h
        · exact hI.ge m h
        · omega
      obtain ⟨ns', tot', ch', e1, e2, e3, e4, e5, e6⟩ := ih (i + 1) _ _ true (by omega) hI'
      refine ⟨ns', tot', ch', e1, e2, by omega, fun _ => e4 rfl, fun _ => Or.inr (by omega), fun h0 => ?_⟩
      rw [e4 rfl] at h0; exact absurd h0 (by simp)

theorem grow_spec {k : Cfg} (hk : k.OrderOk) (hnc : 1 ≤ k.nc) {r : Nat} (hr : 2 ≤ r) : ∀ (f : Nat) (ns : List Nat)
    (tot : Nat), k.desired.toNat + 1 ≤ f + tot → 1 ≤ f → CountInv k r ns tot →
    ∃ ns' tot', grow k f ns tot = some (ns', tot') ∧ CountInv k r ns' tot' ∧
      ∀ n, ns'[order k 0]? = some n → k.desired < ((tot' / n * (n + 1) : Nat) : Int) := by
  intro f
  induction f with
  | zero => intro _ _ _ h; omega
  | succ f ih =>
    intro ns tot hf _ hI
    obtain ⟨ns', tot', ch', e1, e2, e3, e4, e5, e6⟩ := growGo_spec hk hr k.nc 0 ns tot false (by omega) hI
    simp only [grow, e1, Option.bind_eq_bind, Option.bind_some]
    cases ch' with
    | false =>
      refine ⟨ns', tot', rfl, e2, fun n hn => ?_⟩
      obtain ⟨rfl, h⟩ := e6 rfl
      have ht : tot' = tot := by rw [← e2.prod, ← hI.prod]
      rw [ht]; exact h hnc n hn
    | true =>
      have := e5 rfl
      have h2 := e2.fits
      simp only [if_true]
      have hlt : tot < tot' := by rcases this with h | h <;> [cases h; exact h]
      exact ih ns' tot' (by omega) (by omega) e2

/-- `select_ncolors`: fails exactly when two levels per component do not fit, and otherwise gives every component at
least the integer root of the number of colours, with a product that fits. -/
theorem select_spec {k : Cfg} (hk : k.OrderOk) (hnc : 1 ≤ k.nc) :
    (k.desired < ((2 ^ k.nc : Nat) : Int) ∧ selectNcolors k = some (.error (.fewColors (2 ^ k.nc)))) ∨
    (((2 ^ k.nc : Nat) : Int) ≤ k.desired ∧ ∃ r ns tot, selectNcolors k = some (.ok (ns, tot)) ∧
      2 ≤ r ∧ ((r ^ k.nc : Nat) : Int) ≤ k.desired ∧ k.desired < (((r + 1) ^ k.nc : Nat) : Int) ∧
      CountInv k r ns tot ∧
      ∀ n, ns[order k 0]? = some n → k.desired < ((tot / n * (n + 1) : Nat) : Int)) := by
  obtain ⟨s, e1, e2, e3, e4⟩ := rootGo_spec hnc k.desired (k.desired.toNat + 2) 1 (by omega) (le_refl _) (by omega)
    (Or.inl rfl)
  by_cases hs : s = 1
  · subst hs
    refine Or.inl ⟨e4, ?_⟩
    simp [selectNcolors, e1]
  · right
    have e3' : ((s ^ k.nc : Nat) : Int) ≤ k.desired := by rcases e3 with h | h <;> [exact absurd h hs; exact h]
    have h2s : 2 ≤ s := by omega
    have : 2 ^ k.nc ≤ s ^ k.nc := Nat.pow_le_pow_left h2s _
    refine ⟨by omega, ?_⟩
    have htot : (List.range k.nc).foldl (fun t _ => t * s) 1 = s ^ k.nc := by rw [foldl_mul]; simp
    have hI : CountInv k s (List.replicate k.nc s) (s ^ k.nc) :=
      ⟨by simp, by intro n hn; rw [List.eq_of_mem_replicate hn], by simp, e3'⟩
    obtain ⟨ns, tot, g1, g2, g3⟩ := grow_spec hk hnc h2s (k.desired.toNat + 2) _ _ (by omega) (by omega) hI
    refine ⟨s, ns, tot, ?_, h2s, e3', e4, g2, g3⟩
    simp only [selectNcolors, e1, Option.bind_eq_bind, Option.bind_some, Nat.add_sub_cancel]
    rw [if_neg (by omega), htot, g1]
    rfl

end Verif.Quant1
