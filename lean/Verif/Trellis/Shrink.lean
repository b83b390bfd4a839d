/-
C34 (first half): whatever the floating-point costs are, trellis quantization leaves each AC coefficient zero or
with the sign of, and at most the magnitude of, the ordinarily rounded value.
-/
import Verif.Trellis.Model
import Mathlib.Tactic.ByContra
import Mathlib.Data.List.Forall2

namespace Verif.Trellis

open Verif.Huff (nbitsOf)

/-- `v` is zero or a shrunk version of the source coefficient rounded to the nearest multiple of the quantizer. -/
def Shrunk (x q : Nat) (neg : Bool) (v : Int) : Prop :=
  v = 0 ∨ (v.natAbs ≤ (x + q / 2) / q ∧ (if neg then v < 0 else 0 < v))

theorem nbits_pow {v : Nat} (h : v ≠ 0) : 2 ^ (nbitsOf v - 1) ≤ v := by
  unfold nbitsOf
  rw [if_neg h]
  exact Nat.log2_self_le h

theorem candidate_le {qv k : Nat} (h : qv ≠ 0) : candidate (nbitsOf qv) qv k ≤ qv ∧ 1 ≤ candidate (nbitsOf qv) qv k := by
  unfold candidate
  by_cases hk : k < nbitsOf qv - 1
  · rw [if_pos hk]
    have h1 := nbits_pow h
    have h2 : 2 ^ (k + 1) ≤ 2 ^ (nbitsOf qv - 1) := Nat.pow_le_pow_right (by omega) (by omega)
    have h3 : 1 ≤ 2 ^ k := Nat.one_le_two_pow
    rw [Nat.pow_succ] at h2
    omega
  · rw [if_neg hk]
    omega

theorem clampQ_le {m v : Nat} (hm : 1 ≤ m) (hv : v ≠ 0) : clampQ m v ≤ v ∧ clampQ m v ≠ 0 := by
  unfold clampQ
  have : 2 ^ 1 ≤ 2 ^ m := Nat.pow_le_pow_right (by omega) hm
  split <;> omega

theorem cand_shrunk {α : Type} (I : Inp α) (i k : Nat) (hm : 1 ≤ I.maxBits) (h0 : roundQ (I.x i) (I.q i) ≠ 0) :
    let qv := clampQ I.maxBits (roundQ (I.x i) (I.q i))
    Shrunk (I.x i) (I.q i) (I.neg i) (if I.neg i then -(candidate (nbitsOf qv) qv k : Int) else (candidate (nbitsOf qv) qv k : Int)) := by
  intro qv
  have h1 := clampQ_le hm h0
  have h2 := candidate_le (k := k) h1.2
  have h3 : candidate (nbitsOf qv) qv k ≤ roundQ (I.x i) (I.q i) := Nat.le_trans h2.1 h1.1
  have h4 : 1 ≤ candidate (nbitsOf qv) qv k := h2.2
  right
  unfold roundQ at h3
  cases I.neg i with
  | true => simp only [if_true]; omega
  | false => simp only [Bool.false_eq_true, if_false]; omega

theorem foldl_P {β γ : Type} (P : β → Prop) (f : β → γ → β) (L : List γ) (b : β) (h0 : P b)
    (h : ∀ b, P b → ∀ x ∈ L, P (f b x)) : P (L.foldl f b) := by
  induction L generalizing b with
  | nil => exact h0
  | cons x L ih => exact ih _ (h b h0 x (by simp)) (fun b hb y hy => h b hb y (by simp [hy]))

theorem acStep_shrunk {α : Type} (o : Ops α) (I : Inp α) (Ss : Nat) (s : AC α) (i : Nat) (hm : 1 ≤ I.maxBits)
    (l : Nat) (h : Shrunk (I.x l) (I.q l) (I.neg l) (s.coef l)) :
    Shrunk (I.x l) (I.q l) (I.neg l) ((acStep o I Ss s i).coef l) := by
  unfold acStep
  simp only
  by_cases h0 : roundQ (I.x i) (I.q i) = 0
  · rw [if_pos h0]
    simp only [set]
    split
    · exact Or.inl rfl
    · exact h
  · rw [if_neg h0]
    simp only [set]
    split
    · rename_i e
      subst e
      refine foldl_P (fun nd : Node α => Shrunk (I.x l) (I.q l) (I.neg l) nd.coef) _ _ _ h ?_
      intro nd hnd j _
      unfold startStep
      simp only
      split
      · exact hnd
      · split
        · exact hnd
        · refine foldl_P (fun nd : Node α => Shrunk (I.x l) (I.q l) (I.neg l) nd.coef) _ _ _ hnd ?_
          intro nd hnd k _
          unfold candStep
          simp only
          split
          · exact hnd
          · split
            · exact cand_shrunk I l k hm h0
            · exact hnd
    · exact h

theorem zeroOut_sub (Ss : Nat) (start : Nat → Nat) : ∀ (i : Nat) (inner : Bool) (last : Nat) (c : Nat → Int) (l : Nat),
    zeroOut Ss start i inner last c l = 0 ∨ zeroOut Ss start i inner last c l = c l := by
  intro i
  induction i with
  | zero =>
    intro inner last c l
    exact Or.inr rfl
  | succ i ih =>
    intro inner last c l
    unfold zeroOut
    split
    · exact Or.inr rfl
    · split
      · rcases ih true last (set c (i + 1) 0) l with h | h
        · exact Or.inl h
        · rw [h]
          simp only [set]
          split
          · exact Or.inl rfl
          · exact Or.inr rfl
      · exact ih false _ c l

theorem acBlock_shrunk {α : Type} (o : Ops α) (I : Inp α) (Ss Se : Nat) (s0 : AC α) (hm : 1 ≤ I.maxBits)
    (l : Nat) (h : Shrunk (I.x l) (I.q l) (I.neg l) (s0.coef l)) :
    Shrunk (I.x l) (I.q l) (I.neg l) ((acBlock o I Ss Se s0).coef l) := by
  have hp : Shrunk (I.x l) (I.q l) (I.neg l) ((acPass o I Ss Se s0).coef l) := by
    refine foldl_P (fun s : AC α => Shrunk (I.x l) (I.q l) (I.neg l) (s.coef l)) _ _ _ h ?_
    intro s hs i _
    exact acStep_shrunk o I Ss s i hm l hs
  unfold acBlock
  simp only
  rcases zeroOut_sub Ss (acPass o I Ss Se s0).start Se false
    (pickLast o I Ss Se (acPass o I Ss Se s0)).idx (acPass o I Ss Se s0).coef l with h' | h'
  · exact Or.inl h'
  · rw [h']; exact hp

theorem acRow_spec {α : Type} (o : Ops α) (Ss Se : Nat) (eh : Nat → Nat) :
    ∀ (blocks : List (Inp α × (Nat → Int))) (bi : Nat) (s : AC α) (e : Eob α),
    (∀ b ∈ blocks, 1 ≤ b.1.maxBits) →
    List.Forall₂ (fun (b : Inp α × (Nat → Int)) (c : Nat → Int) =>
      ∀ l, Shrunk (b.1.x l) (b.1.q l) (b.1.neg l) (b.2 l) → Shrunk (b.1.x l) (b.1.q l) (b.1.neg l) (c l))
      blocks (acRow o Ss Se eh blocks bi s e).1 := by
  intro blocks
  induction blocks with
  | nil => intro bi s e _; simp only [acRow]; exact .nil
  | cons b blocks ih =>
    intro bi s e hm
    obtain ⟨I, c⟩ := b
    simp only [acRow]
    refine .cons ?_ (ih _ _ _ (fun b hb => hm b (by simp [hb])))
    intro l hl
    exact acBlock_shrunk o I Ss Se { s with coef := c } (hm (I, c) (by simp)) l hl

/-- **C34 (shrinking).**  For any floating-point arithmetic `o`, any error weights, any code lengths, with or without
EOB-run optimization and whatever the work arrays contain: if every coefficient of the row is on entry zero or a
shrunk version of the rounded source value (in particular the rounded value itself), it is so on exit. -/
theorem trellis_shrinks {α : Type} (o : Ops α) (eobOpt : Bool) (Ss Se : Nat) (eh : Nat → Nat)
    (blocks : List (Inp α × (Nat → Int))) (s0 : AC α) (e0 : Eob α)
    (hm : ∀ b ∈ blocks, 1 ≤ b.1.maxBits)
    (hin : ∀ b ∈ blocks, ∀ l, Ss ≤ l → l ≤ Se → Shrunk (b.1.x l) (b.1.q l) (b.1.neg l) (b.2 l)) :
    List.Forall₂ (fun (b : Inp α × (Nat → Int)) (c : Nat → Int) =>
      ∀ l, Ss ≤ l → l ≤ Se → Shrunk (b.1.x l) (b.1.q l) (b.1.neg l) (c l))
      blocks (trellisRow o eobOpt Ss Se eh blocks s0 e0) := by
  have key : ∀ (cs : List (Nat → Int)), List.Forall₂ (fun (b : Inp α × (Nat → Int)) (c : Nat → Int) =>
      ∀ l, Shrunk (b.1.x l) (b.1.q l) (b.1.neg l) (b.2 l) → Shrunk (b.1.x l) (b.1.q l) (b.1.neg l) (c l))
      blocks cs → List.Forall₂ (fun (b : Inp α × (Nat → Int)) (c : Nat → Int) =>
      ∀ l, Ss ≤ l → l ≤ Se → Shrunk (b.1.x l) (b.1.q l) (b.1.neg l) (c l)) blocks cs := by
    intro cs hcs
    clear hm
    induction hcs with
    | nil => exact .nil
    | @cons b c bs cs hd _ ih =>
      refine .cons (fun l h1 h2 => hd l (hin b (by simp) l h1 h2)) (ih (fun b hb => hin b (by simp [hb])))
  unfold trellisRow
  simp only
  have h := key _ (acRow_spec o Ss Se eh blocks 0 s0 { e0 with zeroCost := set e0.zeroCost 0 (o.ofNat 0), blkCost := set e0.blkCost 0 (o.ofNat 0), req := set e0.req 0 0 } hm)
  cases eobOpt with
  | false => exact h
  | true =>
    simp only [if_true]
    generalize (acRow o Ss Se eh blocks 0 s0 { e0 with zeroCost := set e0.zeroCost 0 (o.ofNat 0), blkCost := set e0.blkCost 0 (o.ofNat 0), req := set e0.req 0 0 }) = R at h ⊢
    obtain ⟨cs, e⟩ := R
    simp only at h ⊢
    generalize eobKeep e.runStart blocks.length (eobLast o eh blocks.length e) (fun _ => true) = keep
    rw [List.forall₂_iff_get] at h ⊢
    obtain ⟨hl, h⟩ := h
    refine ⟨by simp, ?_⟩
    intro i h1 h2 l hl1 hl2
    simp only [List.get_eq_getElem, List.getElem_map, List.getElem_range]
    split
    · exact Or.inl rfl
    · have := h i h1 (by omega) l hl1 hl2
      rw [List.getD_eq_getElem?_getD, List.getElem?_eq_getElem (by omega)]
      exact this

/-- Two blocks whose coefficients on entry are the rounded values 3 and -1 (position 1) and 0 (position 2); with integer
"floats" in units of one bit the second block's isolated coefficient is dropped. -/
example :
    let o : Ops Nat := ⟨(· + ·), (· - ·), fun a b => decide (a < b), fun n => n, 10000⟩
    let I : Inp Nat := ⟨fun i => if i = 1 then 24 else 1, fun _ => false, fun _ => 8, fun i => if i = 1 then 50 else 1,
      fun _ m => (3 - m) * 5, fun _ => 4, 10⟩
    let J : Inp Nat := ⟨fun i => if i = 1 then 5 else 1, fun _ => true, fun _ => 8, fun _ => 1, fun _ _ => 1, fun _ => 4, 10⟩
    let c : Nat → Int := fun i => if i = 1 then 3 else 0
    let d : Nat → Int := fun i => if i = 1 then -1 else 0
    let R := trellisRow o false 1 2 (fun _ => 4) [(I, c), (J, d)] ⟨fun _ => 0, fun _ => 0, fun _ => 0, fun _ => 0⟩
      ⟨fun _ => 0, fun _ => 0, fun _ => 0, fun _ => 0⟩
    (∀ b ∈ [(I, c), (J, d)], 1 ≤ b.1.maxBits) ∧
    (∀ b ∈ [(I, c), (J, d)], ∀ l, 1 ≤ l → l ≤ 2 → Shrunk (b.1.x l) (b.1.q l) (b.1.neg l) (b.2 l)) ∧
    R.map (fun f => (f 1, f 2)) = [(3, 0), (0, 0)] := by
  intro o I J c d R
  refine ⟨by decide, ?_, by decide +kernel⟩
  have h12 : ∀ l, 1 ≤ l → l ≤ 2 → l = 1 ∨ l = 2 := fun l a b => by omega
  intro b hb l h1 h2
  simp only [List.mem_cons, List.not_mem_nil, or_false] at hb
  rcases hb with rfl | rfl <;> rcases h12 l h1 h2 with rfl | rfl <;> simp only [Shrunk] <;> decide

end Verif.Trellis
