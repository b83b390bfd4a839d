import Verif.Huff.Table
import Mathlib.Tactic.Ring
/-
Canonical-code facts about `expand`.
-/
namespace Verif.Huff

/-- Weight of a code of length `s` in units of 2^-16. -/
def K (s : Nat) : Nat := 2 ^ (16 - s)

theorem K_pos (s : Nat) : 0 < K s := Nat.two_pow_pos _

theorem K_mul (s : Nat) (h : s ≤ 16) : 2 ^ s * K s = 2 ^ 16 := by
  rw [K, ← Nat.pow_add]; congr 1; omega

theorem K_split {s s' : Nat} (h : s ≤ s') (h' : s' ≤ 16) : K s = 2 ^ (s' - s) * K s' := by
  rw [K, K, ← Nat.pow_add]; congr 1; omega

theorem adv_some {d code si c : Nat} (h : adv d code si = some c) : c = code * 2 ^ d := by
  induction d generalizing code si with
  | zero => simp [adv] at h; omega
  | succ d ih =>
    simp only [adv] at h
    split at h
    · simp at h
    · rw [ih h, Nat.pow_succ]; ring

theorem adv_isSome {d code si : Nat} (h : code < 2 ^ si) : adv d code si = some (code * 2 ^ d) := by
  induction d generalizing code si with
  | zero => simp [adv]
  | succ d ih =>
    simp only [adv]
    rw [if_neg (by omega), ih (by rw [Nat.pow_succ]; omega), Nat.pow_succ]
    congr 1; ring

def sumK (l : List Nat) : Nat := (l.map K).sum

@[simp] theorem sumK_nil : sumK [] = 0 := rfl
@[simp] theorem sumK_cons (s : Nat) (l : List Nat) : sumK (s :: l) = K s + sumK l := by simp [sumK]

/-- Well-formed list of lengths: nondecreasing, from `si` up to 16. -/
def SizesFrom (si : Nat) (l : List Nat) : Prop := List.Pairwise (· ≤ ·) l ∧ ∀ s ∈ l, si ≤ s ∧ s ≤ 16

theorem SizesFrom.tail {si s : Nat} {l : List Nat} (h : SizesFrom si (s :: l)) : SizesFrom s l := by
  obtain ⟨h1, h2⟩ := h
  rw [List.pairwise_cons] at h1
  exact ⟨h1.2, fun x hx => ⟨h1.1 x hx, (h2 x (by simp [hx])).2⟩⟩

theorem genCodes_length {code si : Nat} {sizes codes : List Nat}
    (h : genCodes code si sizes = some codes) : codes.length = sizes.length := by
  induction sizes generalizing code si codes with
  | nil => simp only [genCodes] at h; split at h <;> simp_all
  | cons s rest ih =>
    simp only [genCodes] at h
    split at h
    · simp at h
    · rename_i c hc
      cases h2 : genCodes (c + 1) s rest with
      | none => simp [h2] at h
      | some cs => simp [h2] at h; subst h; simp [ih h2]

/-- The left-justified position of the p-th code is the total weight before it. -/
theorem genCodes_off {code si : Nat} {sizes codes : List Nat} (hsi : si ≤ 16)
    (hs : SizesFrom si sizes) (h : genCodes code si sizes = some codes) (p : Nat)
    (hp : p < sizes.length) :
    codes.getD p 0 * K (sizes.getD p 0) = code * K si + sumK (sizes.take p) := by
  induction sizes generalizing code si codes p with
  | nil => simp at hp
  | cons s rest ih =>
    simp only [genCodes] at h
    split at h
    · simp at h
    · rename_i c hc
      cases h2 : genCodes (c + 1) s rest with
      | none => simp [h2] at h
      | some cs =>
        simp [h2] at h; subst h
        have hss := hs.2 s (by simp)
        have hcv := adv_some hc
        have hK := K_split hss.1 hss.2
        have e1 : c * K s = code * K si := by rw [hcv, hK, Nat.mul_assoc]
        cases p with
        | zero => simp [e1]
        | succ p =>
          simp only [List.length_cons] at hp
          have := ih hss.2 hs.tail h2 p (by omega)
          simp only [List.getD_cons_succ, List.take_succ_cons, sumK_cons]
          rw [this, Nat.add_mul, e1]
          omega

theorem genCodes_total {code si : Nat} {sizes codes : List Nat} (hsi : si ≤ 16)
    (hs : SizesFrom si sizes) (h : genCodes code si sizes = some codes) :
    code * K si + sumK sizes + K (sizes.getLastD si) ≤ 2 ^ 16 := by
  induction sizes generalizing code si codes with
  | nil =>
    simp only [genCodes] at h
    split at h
    · simp at h
    · simp
      have : (code + 1) * K si ≤ 2 ^ si * K si := Nat.mul_le_mul_right _ (by omega)
      rw [K_mul si hsi, Nat.add_mul] at this
      omega
  | cons s rest ih =>
    simp only [genCodes] at h
    split at h
    · simp at h
    · rename_i c hc
      cases h2 : genCodes (c + 1) s rest with
      | none => simp [h2] at h
      | some cs =>
        have hss := hs.2 s (by simp)
        have hcv := adv_some hc
        have hK := K_split hss.1 hss.2
        have e1 : c * K s = code * K si := by rw [hcv, hK, Nat.mul_assoc]
        have := ih hss.2 hs.tail h2
        rw [Nat.add_mul, e1] at this
        rw [List.getLastD_cons, sumK_cons]
        omega

theorem genCodes_isSome {code si : Nat} {sizes : List Nat} (hsi : si ≤ 16)
    (hs : SizesFrom si sizes)
    (h : code * K si + sumK sizes + K (sizes.getLastD si) ≤ 2 ^ 16) :
    ∃ codes, genCodes code si sizes = some codes := by
  induction sizes generalizing code si with
  | nil =>
    simp at h
    have : code < 2 ^ si := by
      apply Classical.byContradiction
      intro hn
      have : 2 ^ si * K si ≤ code * K si := Nat.mul_le_mul_right _ (by omega)
      rw [K_mul si hsi] at this
      have := K_pos si
      omega
    exact ⟨[], by simp only [genCodes]; rw [if_neg (by omega)]⟩
  | cons s rest ih =>
    have hss := hs.2 s (by simp)
    have hK := K_split hss.1 hss.2
    rw [List.getLastD_cons, sumK_cons] at h
    have hlt : code < 2 ^ si := by
      apply Classical.byContradiction
      intro hn
      have : 2 ^ si * K si ≤ code * K si := Nat.mul_le_mul_right _ (by omega)
      rw [K_mul si hsi] at this
      have := K_pos s
      omega
    have ha := adv_isSome (d := s - si) hlt
    have e1 : code * 2 ^ (s - si) * K s = code * K si := by rw [hK, Nat.mul_assoc]
    obtain ⟨cs, hcs⟩ := ih (code := code * 2 ^ (s - si) + 1) hss.2 hs.tail
      (by rw [Nat.add_mul, e1]; omega)
    exact ⟨code * 2 ^ (s - si) :: cs, by simp [genCodes, ha, hcs]⟩

theorem mem_mkSizes {l : Nat} {cs : List Nat} {s : Nat} (h : s ∈ mkSizes l cs) :
    l ≤ s ∧ s < l + cs.length := by
  induction cs generalizing l with
  | nil => simp [mkSizes] at h
  | cons c cs ih =>
    simp only [mkSizes, List.mem_append, List.mem_replicate] at h
    rcases h with h | h
    · simp; omega
    · have := ih h; simp; omega

theorem mkSizes_sorted (l : Nat) (cs : List Nat) : List.Pairwise (· ≤ ·) (mkSizes l cs) := by
  induction cs generalizing l with
  | nil => simp [mkSizes]
  | cons c cs ih =>
    simp only [mkSizes]
    rw [List.pairwise_append]
    refine ⟨?_, ih _, ?_⟩
    · rw [List.pairwise_replicate]; simp
    · intro a ha b hb
      have := mem_mkSizes hb
      simp at ha
      omega

theorem sizesFrom_mkSizes {cs : List Nat} (h : cs.length ≤ 16) : SizesFrom 1 (mkSizes 1 cs) :=
  ⟨mkSizes_sorted 1 cs, fun s hs => by have := mem_mkSizes hs; omega⟩

theorem length_mkSizes (l : Nat) (cs : List Nat) : (mkSizes l cs).length = cs.sum := by
  induction cs generalizing l with
  | nil => rfl
  | cons c cs ih => simp [mkSizes, ih]

theorem sizesOk_iff (p : Nat) (cs : List Nat) (hp : p ≤ 256) :
    sizesOk p cs = true ↔ p + cs.sum ≤ 256 := by
  induction cs generalizing p with
  | nil => simp [sizesOk]; exact hp
  | cons c cs ih =>
    simp only [sizesOk, List.sum_cons]
    split
    · simp; omega
    · rw [ih _ (by omega)]; omega

/-- All the facts about an accepted table that coder and decoder rely on. -/
structure Canon (sizes codes : List Nat) : Prop where
  len : codes.length = sizes.length
  le256 : sizes.length ≤ 256
  sorted : List.Pairwise (· ≤ ·) sizes
  range : ∀ s ∈ sizes, 1 ≤ s ∧ s ≤ 16
  off : ∀ p < sizes.length, codes.getD p 0 * K (sizes.getD p 0) = sumK (sizes.take p)
  total : sumK sizes < 2 ^ 16

theorem expand_canon {t : HuffTbl} {sizes codes : List Nat} (h16 : t.counts.length ≤ 16)
    (h : expand t = some (sizes, codes)) : Canon sizes codes ∧ sizes = mkSizes 1 t.counts := by
  unfold expand at h
  split at h
  · rename_i hok
    rw [sizesOk_iff 0 _ (by omega)] at hok
    have hsz := sizesFrom_mkSizes h16
    have hlen := length_mkSizes 1 t.counts
    dsimp only at h
    cases hm : mkSizes 1 t.counts with
    | nil =>
      simp only [hm] at h
      simp at h
      obtain ⟨rfl, rfl⟩ := h
      exact ⟨⟨rfl, by simp, by simp, by simp, by simp, by simp⟩, rfl⟩
    | cons s rest =>
      rw [hm] at hsz hlen
      simp only [hm] at h
      cases hg : genCodes 0 s (s :: rest) with
      | none => simp [hg] at h
      | some cs =>
        simp [hg] at h
        obtain ⟨rfl, rfl⟩ := h
        have hs16 := hsz.2 s (by simp)
        have hfrom : SizesFrom s (s :: rest) := by
          refine ⟨hsz.1, fun x hx => ?_⟩
          have h1 := hsz.1
          rw [List.pairwise_cons] at h1
          have h2 := hsz.2 x hx
          rcases List.mem_cons.1 hx with rfl | hx
          · omega
          · have := h1.1 x hx; omega
        refine ⟨⟨genCodes_length hg, by omega, hsz.1, hsz.2, ?_, ?_⟩, rfl⟩
        · intro p hp
          have := genCodes_off hs16.2 hfrom hg p hp
          simpa using this
        · have := genCodes_total hs16.2 hfrom hg
          have hk := K_pos ((s :: rest).getLastD s)
          rw [Nat.zero_mul] at this
          omega
  · simp at h

theorem expand_isSome {t : HuffTbl} (h16 : t.counts.length ≤ 16) (h256 : t.counts.sum ≤ 256)
    (hk : sumK (mkSizes 1 t.counts) + K ((mkSizes 1 t.counts).getLastD 0) ≤ 2 ^ 16) :
    ∃ codes, expand t = some (mkSizes 1 t.counts, codes) := by
  unfold expand
  rw [if_pos ((sizesOk_iff 0 _ (by omega)).2 (by omega))]
  have hsz := sizesFrom_mkSizes h16
  dsimp only
  cases hm : mkSizes 1 t.counts with
  | nil => exact ⟨[], rfl⟩
  | cons s rest =>
    rw [hm] at hsz hk
    have hs16 := hsz.2 s (by simp)
    have hfrom : SizesFrom s (s :: rest) := by
      refine ⟨hsz.1, fun x hx => ?_⟩
      have h1 := hsz.1
      rw [List.pairwise_cons] at h1
      have h2 := hsz.2 x hx
      rcases List.mem_cons.1 hx with rfl | hx
      · omega
      · have := h1.1 x hx; omega
    obtain ⟨codes, hc⟩ := genCodes_isSome (code := 0) hs16.2 hfrom (by
      rw [List.getLastD_cons] at hk ⊢
      omega)
    exact ⟨codes, by simp [hc]⟩

theorem sumK_append (a b : List Nat) : sumK (a ++ b) = sumK a + sumK b := by simp [sumK]

theorem sumK_take_succ {sizes : List Nat} {p : Nat} (hp : p < sizes.length) :
    sumK (sizes.take (p + 1)) = sumK (sizes.take p) + K (sizes.getD p 0) := by
  rw [List.take_add_one, sumK_append]
  simp [hp, List.getElem?_eq_getElem, List.getD_eq_getElem?_getD]

theorem sumK_take_mono {sizes : List Nat} {p q : Nat} (h : p ≤ q) :
    sumK (sizes.take p) ≤ sumK (sizes.take q) := by
  have : sizes.take q = sizes.take p ++ (sizes.take q).drop p := by
    conv => lhs; rw [← List.take_append_drop p (sizes.take q)]
    rw [List.take_take, Nat.min_eq_left h]
  rw [this, sumK_append]; omega

theorem sumK_take_le (sizes : List Nat) (p : Nat) : sumK (sizes.take p) ≤ sumK sizes := by
  conv => rhs; rw [← List.take_append_drop p sizes]
  rw [sumK_append]; omega

namespace Canon
variable {sizes codes : List Nat} (C : Canon sizes codes)
include C

theorem size_mem {p : Nat} (hp : p < sizes.length) : sizes.getD p 0 ∈ sizes := by
  rw [List.getD_eq_getElem?_getD, List.getElem?_eq_getElem hp]; simp

theorem size_range {p : Nat} (hp : p < sizes.length) : 1 ≤ sizes.getD p 0 ∧ sizes.getD p 0 ≤ 16 :=
  C.range _ (C.size_mem hp)

theorem size_mono {p q : Nat} (h : p ≤ q) (hq : q < sizes.length) :
    sizes.getD p 0 ≤ sizes.getD q 0 := by
  rcases Nat.lt_or_eq_of_le h with h | rfl
  · have := (List.pairwise_iff_getElem.1 C.sorted) p q (by omega) hq h
    simpa [List.getD_eq_getElem?_getD, List.getElem?_eq_getElem hq,
      List.getElem?_eq_getElem (show p < sizes.length by omega)] using this
  · exact Nat.le_refl _

/-- Code intervals are consecutive and disjoint. -/
theorem next_le {p q : Nat} (h : p < q) (hq : q < sizes.length) :
    (codes.getD p 0 + 1) * K (sizes.getD p 0) ≤ codes.getD q 0 * K (sizes.getD q 0) := by
  rw [Nat.add_mul, C.off p (by omega), C.off q hq, Nat.one_mul, ← sumK_take_succ (by omega)]
  exact sumK_take_mono h

/-- No code is all ones (hence also fits its length). -/
theorem not_all_ones {p : Nat} (hp : p < sizes.length) :
    codes.getD p 0 + 1 < 2 ^ sizes.getD p 0 := by
  have h1 : (codes.getD p 0 + 1) * K (sizes.getD p 0) < 2 ^ 16 := by
    rw [Nat.add_mul, C.off p hp, Nat.one_mul, ← sumK_take_succ hp]
    exact Nat.lt_of_le_of_lt (sumK_take_le _ _) C.total
  rw [← K_mul _ (C.size_range hp).2] at h1
  exact Nat.lt_of_mul_lt_mul_right h1

theorem code_lt {p : Nat} (hp : p < sizes.length) : codes.getD p 0 < 2 ^ sizes.getD p 0 := by
  have := C.not_all_ones hp; omega

/-- Within a length group, codes are consecutive. -/
theorem consec {p q : Nat} (hpq : p ≤ q) (hq : q < sizes.length)
    (he : sizes.getD p 0 = sizes.getD q 0) : codes.getD q 0 = codes.getD p 0 + (q - p) := by
  induction q with
  | zero => have : p = 0 := by omega
            subst this; simp
  | succ q ih =>
    rcases Nat.lt_or_eq_of_le hpq with hlt | rfl
    · have hm1 := C.size_mono (show p ≤ q by omega) (by omega)
      have hm2 := C.size_mono (show q ≤ q + 1 by omega) hq
      have e1 : sizes.getD q 0 = sizes.getD (q+1) 0 := by omega
      have i1 := ih (by omega) (by omega) (by omega)
      have o1 := C.off (q+1) hq
      have o2 := C.off q (by omega)
      rw [sumK_take_succ (by omega), ← o2, ← e1, ← Nat.succ_mul] at o1
      have := Nat.eq_of_mul_eq_mul_right (K_pos _) o1
      omega
    · simp

/-- The prefix of length `l` of a longer code is above every code of length `l`. -/
theorem prefix_gt {p q l : Nat} (hp : p < sizes.length) (hq : q < sizes.length)
    (hl : sizes.getD p 0 = l) (hlt : l < sizes.getD q 0) :
    codes.getD p 0 < codes.getD q 0 / 2 ^ (sizes.getD q 0 - l) := by
  have hpq : p < q := by
    apply Classical.byContradiction
    intro hn
    have := C.size_mono (show q ≤ p by omega) hp
    omega
  have h := C.next_le hpq hq
  have hr := C.size_range hq
  rw [hl, K_split (show l ≤ sizes.getD q 0 by omega) hr.2, ← Nat.mul_assoc] at h
  have h2 := Nat.le_of_mul_le_mul_right h (K_pos _)
  rw [Nat.lt_iff_add_one_le, Nat.le_div_iff_mul_le (Nat.two_pow_pos _)]
  exact h2

end Canon

end Verif.Huff
