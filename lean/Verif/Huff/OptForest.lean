/-
Huffman's merging procedure on an abstract forest (used by OptRefine.lean to reason about
jpeg_gen_optimal_table, model in Optimal.lean).  A forest is a list `R` of roots with weights `f`.
-/
import Mathlib.Tactic.Ring
import Mathlib.Tactic.Tauto
import Mathlib.Tactic.ByContra

namespace Verif.Huff.Opt

/-- The order in which trees are picked: smaller weight first, larger index first among equals. -/
def Before (f : Nat → Nat) (x y : Nat) : Prop := f x < f y ∨ (f x = f y ∧ y < x)

/-- `a` and `b` are the first and second trees of the forest in that order. -/
structure Min2 (R : List Nat) (f : Nat → Nat) (a b : Nat) : Prop where
  ha : a ∈ R
  hb : b ∈ R
  ne : a ≠ b
  first : ∀ x ∈ R, x ≠ a → Before f a x
  second : ∀ x ∈ R, x ≠ a → x ≠ b → Before f b x

def upd (f : Nat → Nat) (a v : Nat) : Nat → Nat := fun x => if x = a then v else f x

/-- A run of the procedure: `D x` is the number of merges the tree with root `x` takes part in (its final
depth). -/
inductive Run : List Nat → (Nat → Nat) → (Nat → Nat) → Prop
  | done (r : Nat) (f : Nat → Nat) : Run [r] f (fun _ => 0)
  | step {R : List Nat} {f D : Nat → Nat} {a b : Nat} (hm : Min2 R f a b)
      (h : Run (R.erase b) (upd f a (f a + f b)) D) :
      Run R f (fun x => if x = a ∨ x = b then 1 + D a else D x)

theorem Before.trans {f : Nat → Nat} {x y z : Nat} (h1 : Before f x y) (h2 : Before f y z) :
    Before f x z := by unfold Before at *; omega

theorem Before.irrefl {f : Nat → Nat} {x : Nat} : ¬ Before f x x := by unfold Before; omega

theorem Before.le {f : Nat → Nat} {x y : Nat} (h : Before f x y) : f x ≤ f y := by
  unfold Before at h; omega

theorem before_or {f : Nat → Nat} {x y : Nat} (h : x ≠ y) : Before f x y ∨ Before f y x := by
  unfold Before; omega

/-- Earlier trees end up at least as deep. -/
theorem run_order : ∀ (n : Nat) (R : List Nat) (f D : Nat → Nat), R.length = n → R.Nodup →
    (∀ x ∈ R, 1 ≤ f x) → Run R f D →
    ∀ x ∈ R, ∀ y ∈ R, Before f x y → D y ≤ D x := by
  intro n
  induction n using Nat.strongRecOn with
  | _ n ih =>
  intro R f D hlen hnd hpos hrun x hx y hy hxy
  cases hrun with
  | done r f => simp
  | @step R f D' a b hm h =>
    have hlen' : (R.erase b).length = n - 1 := by rw [List.length_erase_of_mem hm.hb, hlen]
    have hn : 1 ≤ n := by
      rw [← hlen]; exact List.length_pos_of_mem hm.hb
    have hnd' : (R.erase b).Nodup := hnd.erase b
    have hmem' : ∀ z, z ∈ R.erase b ↔ z ≠ b ∧ z ∈ R := fun z => hnd.mem_erase_iff
    have hpos' : ∀ z ∈ R.erase b, 1 ≤ upd f a (f a + f b) z := by
      intro z hz
      unfold upd
      have := hpos z ((hmem' z).1 hz).2
      split
      · have := hpos a hm.ha; omega
      · exact this
    have ihF := ih (n - 1) (by omega) _ _ _ hlen' hnd' hpos' h
    -- the merged tree is nearly as deep as any other tree
    have key : ∀ t ∈ R, t ≠ a → t ≠ b → D' t ≤ 1 + D' a := by
      intro t ht hta htb
      have ht' : t ∈ R.erase b := (hmem' t).2 ⟨htb, ht⟩
      have ha' : a ∈ R.erase b := (hmem' a).2 ⟨hm.ne, hm.ha⟩
      generalize hR' : R.erase b = R' at *
      generalize hf' : upd f a (f a + f b) = f' at *
      cases h with
      | done r f => simp
      | @step _ _ D2 a' b' hm2 h2 =>
        have hlt2 : (R'.erase b').length = n - 1 - 1 := by
          rw [List.length_erase_of_mem hm2.hb, hlen']
        have hn2 : 1 ≤ n - 1 := by rw [← hlen']; exact List.length_pos_of_mem hm2.hb
        have hnd2 := hnd'.erase b'
        have hmem2 : ∀ z, z ∈ R'.erase b' ↔ z ≠ b' ∧ z ∈ R' := fun z => hnd'.mem_erase_iff
        have hpos2 : ∀ z ∈ R'.erase b', 1 ≤ upd f' a' (f' a' + f' b') z := by
          intro z hz
          unfold upd
          have := hpos' z ((hmem2 z).1 hz).2
          split
          · have := hpos' a' hm2.ha; omega
          · exact this
        have ih2 := ih (n - 1 - 1) (by omega) _ _ _ hlt2 hnd2 hpos2 h2
        -- D' t ≤ D' a' = 1 + D2 a'
        have hta' : (if t = a' ∨ t = b' then 1 + D2 a' else D2 t) ≤ 1 + D2 a' := by
          by_cases e : t = a'
          · rw [if_pos (.inl e)]
          · have := ihF a' hm2.ha t ht' (hm2.first t ht' e)
            simp only [true_or, if_true] at this
            exact this
        refine Nat.le_trans hta' ?_
        show 1 + D2 a' ≤ 1 + (if a = a' ∨ a = b' then 1 + D2 a' else D2 a)
        by_cases ea : a = a' ∨ a = b'
        · rw [if_pos ea]; omega
        · rw [if_neg ea]
          have hne1 : a ≠ a' := fun e => ea (.inl e)
          have hne2 : a ≠ b' := fun e => ea (.inr e)
          -- a' and b' are old trees after b
          have ho : ∀ z ∈ R', z ≠ a → f' z = f z ∧ Before f b z ∧ Before f a z := by
            intro z hz hza
            rw [← hR'] at hz
            have hz' := (hnd.mem_erase_iff).1 hz
            refine ⟨?_, hm.second z hz'.2 hza hz'.1, hm.first z hz'.2 hza⟩
            rw [← hf']; simp [upd, hza]
          obtain ⟨e1, b1, c1⟩ := ho a' hm2.ha (Ne.symm hne1)
          obtain ⟨e2, b2, c2⟩ := ho b' hm2.hb (Ne.symm hne2)
          have hfa : f' a = f a + f b := by rw [← hf']; simp [upd]
          have hpa := hpos a hm.ha
          have hpb := hpos b hm.hb
          have hbef : Before (upd f' a' (f' a' + f' b')) a a' := by
            unfold Before upd
            rw [if_neg hne1, if_pos rfl, hfa, e1, e2]
            have h3 := c1.le
            have h4 := b2.le
            by_cases e : f a = f a' ∧ f b = f b'
            · right
              refine ⟨by omega, ?_⟩
              unfold Before at c1
              omega
            · left; omega
          have := ih2 a ((hmem2 a).2 ⟨hne2, ha'⟩) a' ((hmem2 a').2 ⟨hm2.ne, hm2.ha⟩) hbef
          omega
    by_cases hxa : x = a
    · subst hxa
      by_cases hyb : y = b
      · subst hyb; simp
      · have hya : y ≠ x := by rintro rfl; exact Before.irrefl hxy
        have := key y hy hya hyb
        simp [hya, hyb]; exact this
    · by_cases hxb : x = b
      · subst hxb
        by_cases hya : y = a
        · subst hya; simp
        · have hyb : y ≠ x := by rintro rfl; exact Before.irrefl hxy
          have := key y hy hya hyb
          simp [hya, hyb]; exact this
      · -- x is neither: then y is neither
        have hya : y ≠ a := by
          rintro rfl
          exact Before.irrefl (hxy.trans (hm.first x hx hxa))
        have hyb : y ≠ b := by
          rintro rfl
          exact Before.irrefl (hxy.trans (hm.second x hx hxa hxb))
        simp only [hxa, hxb, hya, hyb, or_self, if_false]
        refine ihF x ((hmem' x).2 ⟨hxb, hx⟩) y ((hmem' y).2 ⟨hyb, hy⟩) ?_
        unfold Before upd
        rw [if_neg hxa, if_neg hya]
        exact hxy

/-- Depths are below the number of trees. -/
theorem run_lt {R : List Nat} {f D : Nat → Nat} (h : Run R f D) : ∀ x ∈ R, D x < R.length := by
  induction h with
  | done r f => simp
  | @step R f D a b hm h ih =>
    intro x hx
    have hl : (R.erase b).length = R.length - 1 := List.length_erase_of_mem hm.hb
    have hp := List.length_pos_of_mem hm.hb
    have ha : a ∈ R.erase b := (List.mem_erase_of_ne hm.ne).2 hm.ha
    have := ih a ha
    by_cases e : x = a ∨ x = b
    · simp only [if_pos e]; omega
    · simp only [if_neg e]
      have hx' : x ∈ R.erase b := (List.mem_erase_of_ne (fun h => e (.inr h))).2 hx
      have := ih x hx'
      omega

theorem sum_erase {R : List Nat} {b : Nat} (h : b ∈ R) (g : Nat → Nat) :
    (R.map g).sum = g b + ((R.erase b).map g).sum := by
  have := (List.perm_cons_erase h).map g
  rw [this.sum_nat]
  simp

theorem sum_congr {R : List Nat} {g g' : Nat → Nat} (h : ∀ x ∈ R, g x = g' x) :
    (R.map g).sum = (R.map g').sum := by
  rw [List.map_congr_left h]

/-- Kraft equality. -/
theorem run_kraft {R : List Nat} {f D : Nat → Nat} (h : Run R f D) : R.Nodup → ∀ B, R.length ≤ B →
    (R.map (fun x => 2 ^ (B - D x))).sum = 2 ^ B := by
  induction h with
  | done r f => simp
  | @step R f D a b hm h ih =>
    intro hnd B hB
    have hl : (R.erase b).length = R.length - 1 := List.length_erase_of_mem hm.hb
    have hp := List.length_pos_of_mem hm.hb
    have ha : a ∈ R.erase b := (List.mem_erase_of_ne hm.ne).2 hm.ha
    have hD := run_lt h a ha
    have ih' := ih (hnd.erase b) B (by omega)
    rw [sum_erase hm.hb, sum_erase ha]
    rw [sum_erase ha] at ih'
    have e : (((R.erase b).erase a).map
        (fun x => 2 ^ (B - if x = a ∨ x = b then 1 + D a else D x))).sum =
        (((R.erase b).erase a).map (fun x => 2 ^ (B - D x))).sum := by
      apply sum_congr
      intro x hx
      have h1 := (hnd.erase b).mem_erase_iff.1 hx
      have h2 := hnd.mem_erase_iff.1 h1.2
      rw [if_neg (by tauto)]
    rw [e]
    simp only [true_or, or_true, if_true]
    have : 2 ^ (B - D a) = 2 ^ (B - (1 + D a)) + 2 ^ (B - (1 + D a)) := by
      rw [show B - D a = (B - (1 + D a)) + 1 by omega, Nat.pow_succ]; omega
    omega

/-- Fibonacci numbers. -/
def fib : Nat → Nat
  | 0 => 0
  | 1 => 1
  | n + 2 => fib (n + 1) + fib n

/-- A deep tree needs a large total weight. -/
theorem run_fib {R : List Nat} {f D : Nat → Nat} (h : Run R f D) : R.Nodup → ∀ t ∈ R, ∀ m,
    (∀ x ∈ R, x ≠ t → m ≤ f x) → fib (D t + 1) * f t + fib (D t) * m ≤ (R.map f).sum := by
  induction h with
  | done r f =>
    intro _ t ht m _
    rw [List.mem_singleton] at ht
    subst ht
    simp [fib]
  | @step R f D a b hm h ih =>
    intro hnd t ht m hmin
    have ha : a ∈ R.erase b := (List.mem_erase_of_ne hm.ne).2 hm.ha
    have hmem' : ∀ z, z ∈ R.erase b ↔ z ≠ b ∧ z ∈ R := fun z => hnd.mem_erase_iff
    have htot : (R.map f).sum = ((R.erase b).map (upd f a (f a + f b))).sum := by
      rw [sum_erase hm.hb, sum_erase ha, sum_erase ha]
      have e : (((R.erase b).erase a).map (upd f a (f a + f b))).sum =
          (((R.erase b).erase a).map f).sum := by
        apply sum_congr
        intro x hx
        have h1 := (hnd.erase b).mem_erase_iff.1 hx
        simp [upd, h1.1]
      rw [e]
      simp only [upd, if_true]
      omega
    rw [htot]
    by_cases e : t = a ∨ t = b
    · simp only [if_pos e]
      -- others are at least as heavy as b
      have hoth : ∀ x ∈ R.erase b, x ≠ a → f b ≤ upd f a (f a + f b) x := by
        intro x hx hxa
        have := (hmem' x).1 hx
        simp only [upd, if_neg hxa]
        exact (hm.second x this.2 hxa this.1).le
      have h1 := ih (hnd.erase b) a ha (f b) hoth
      simp only [upd, if_true] at h1
      have hab := (hm.first b hm.hb hm.ne.symm).le
      have h2 : f t + m ≤ f a + f b ∧ f t ≤ f b := by
        rcases e with rfl | rfl
        · exact ⟨by have := hmin b hm.hb hm.ne.symm; omega, hab⟩
        · exact ⟨by have := hmin a hm.ha hm.ne; omega, Nat.le_refl _⟩
      refine Nat.le_trans ?_ h1
      rw [show 1 + D a + 1 = D a + 2 by omega, show 1 + D a = D a + 1 by omega, fib]
      calc (fib (D a + 1) + fib (D a)) * f t + fib (D a + 1) * m
          = fib (D a + 1) * (f t + m) + fib (D a) * f t := by ring
        _ ≤ fib (D a + 1) * (f a + f b) + fib (D a) * f b :=
            Nat.add_le_add (Nat.mul_le_mul_left _ h2.1) (Nat.mul_le_mul_left _ h2.2)
    · simp only [if_neg e]
      have hta : t ≠ a := fun h => e (.inl h)
      have htb : t ≠ b := fun h => e (.inr h)
      have h1 := ih (hnd.erase b) t ((hmem' t).2 ⟨htb, ht⟩) m (by
        intro x hx hxt
        have hx' := (hmem' x).1 hx
        unfold upd
        split
        · have := hmin a hm.ha (Ne.symm hta); omega
        · exact hmin x hx'.2 hxt)
      simp only [upd, if_neg hta] at h1
      exact h1

end Verif.Huff.Opt
