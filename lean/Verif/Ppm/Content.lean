import Verif.Ppm.Safe
/-
What the PPM reader makes of a well-formed file.
-/
namespace Verif.Ppm

/-- Sample `v` of a file with maximum `m`, brought to the range 0..mx: `v * mx / m` rounded to nearest. -/
def scale (mx m v : Nat) : Nat := if v ≤ m then (2 * (v * mx) + m) / (2 * m) else 0

/-- Whitespace and comments. -/
inductive Sep : List Nat → Prop
  | nil : Sep []
  | ws (c : Nat) (s : List Nat) : isWs c = true → Sep s → Sep (c :: s)
  | comment (t s : List Nat) : (∀ c ∈ t, c ≠ 10) → Sep s → Sep (35 :: (t ++ 10 :: s))

/-- `s` begins with a whitespace character or a comment. -/
def Starts (s : List Nat) : Prop := ∃ a b, s = a ++ b ∧ Sep a ∧ a ≠ []

/-- `s` begins with the numbers `vs` in decimal, separated by whitespace or comments. -/
inductive Text : List Nat → List Nat → Prop
  | nil (s : List Nat) : Text [] s
  | cons (a : List Nat) (v : Nat) (vs s : List Nat) : Sep a → (s = [] ∨ Starts s) → Text vs s → Text (v :: vs) (a ++ (dec v ++ s))

/-- `s` begins with the samples `vs`, all at most `m`: in decimal, one byte each, or two bytes each with the high byte first. -/
def Enc (k : Kind) (m : Nat) (vs s : List Nat) : Prop := match k with
  | .text => (∀ v ∈ vs, v ≤ m) ∧ Text vs s
  | .byte => (∀ v ∈ vs, v < 256) ∧ ∃ t, s = vs ++ t
  | .word => (∀ v ∈ vs, v ≤ m) ∧ ∃ t, s = vs.flatMap (fun v => [v / 256, v % 256]) ++ t

/-- Pixel `x` of the sample buffer `out` holds the colour `rgb`, in colour space `cs`; alpha is the largest sample value. -/
def Holds (mx cs x : Nat) (rgb : Nat × Nat × Nat) (out : List Nat) : Prop :=
  if cs = 1 then out[x]? = some rgb.1
  else if cs = 4 then
    let q := rgbToCmyk mx rgb.1 rgb.2.1 rgb.2.2
    out[x * 4]? = some q.1 ∧ out[x * 4 + 1]? = some q.2.1 ∧ out[x * 4 + 2]? = some q.2.2.1 ∧ out[x * 4 + 3]? = some q.2.2.2
  else out[x * pSize cs + rIdx cs]? = some rgb.1 ∧ out[x * pSize cs + gIdx cs]? = some rgb.2.1 ∧
    out[x * pSize cs + bIdx cs]? = some rgb.2.2 ∧ ∀ a, aIdx cs = some a → out[x * pSize cs + a]? = some mx

/-! ## Numbers -/

theorem scale_eq (mx m v : Nat) (hm : 0 < m) (h : v ≤ m) : (v * mx + m / 2) / m = scale mx m v := by
  unfold scale
  rw [if_pos h]
  generalize v * mx = n
  rw [← Nat.div_div_eq_div_mul, Nat.mul_comm 2 n]
  congr 1
  omega

theorem scale_le (mx m v : Nat) (hm : 0 < m) : scale mx m v ≤ mx := by
  unfold scale
  split
  · rename_i h
    have h1 : v * mx ≤ m * mx := Nat.mul_le_mul_right _ h
    have : (2 * (v * mx) + m) / (2 * m) < mx + 1 := by
      rw [Nat.div_lt_iff_lt_mul (by omega)]
      have : (mx + 1) * (2 * m) = 2 * (m * mx) + 2 * m := by ring
      omega
    omega
  · omega

theorem scale_id (mx v : Nat) (h : v ≤ mx) (hm : 0 < mx) : scale mx mx v = v := by
  unfold scale
  rw [if_pos h, show 2 * (v * mx) + mx = mx + v * (2 * mx) by ring, Nat.add_mul_div_right _ _ (by omega), Nat.div_eq_of_lt (by omega), zero_add]

theorem lookup_scale (mx m v : Nat) (hm : 0 < m) (h : v ≤ max m 255) : lookup (rescaleTab mx m) v = .ok (scale mx m v) := by
  unfold lookup
  rw [List.getElem?_eq_getElem (by rw [rescaleTab_length]; omega)]
  simp only [rescaleTab, List.getElem_map, List.getElem_range]
  by_cases hv : v ≤ m
  · rw [if_pos hv, scale_eq mx m v hm hv, Nat.mod_eq_of_lt]
    have := scale_le mx m v hm
    omega
  · rw [if_neg hv]; unfold scale; rw [if_neg hv]

theorem pbmGetc_ws (c : Nat) (s : List Nat) (h : c ≠ 35) : pbmGetc (c :: s) = (some c, s) := by
  simp [pbmGetc, h]

theorem pbmGetc_comment (t s : List Nat) (h : ∀ c ∈ t, c ≠ 10) : pbmGetc (35 :: (t ++ 10 :: s)) = (some 10, s) := by
  have : (t ++ 10 :: s).dropWhile (· ≠ 10) = 10 :: s := by
    rw [List.dropWhile_append_of_pos (by simpa using h)]
    simp
  simp only [pbmGetc]
  rw [if_pos trivial, this]

theorem isWs_ne {c : Nat} (h : isWs c = true) : c ≠ 35 ∧ isDigit c = false := by
  simp only [isWs, isDigit, Bool.or_eq_true, decide_eq_true_eq] at *
  rcases h with ((h | h) | h) | h <;> subst h <;> exact ⟨by decide, by decide⟩

theorem skipWs_step {s s' : List Nat} {c : Nat} (h : pbmGetc s = (some c, s')) (hw : isWs c = true) : skipWs s = skipWs s' := by
  conv => lhs; unfold skipWs
  split
  · rename_i e; rw [h] at e; simp at e
  · rename_i c1 s1 e
    rw [h] at e
    simp only [Prod.mk.injEq, Option.some.injEq] at e
    obtain ⟨rfl, rfl⟩ := e
    rw [if_pos hw]

theorem skipWs_stop {s s' : List Nat} {c : Nat} (h : pbmGetc s = (some c, s')) (hw : isWs c = false) : skipWs s = .ok (c, s') := by
  unfold skipWs
  split
  · rename_i e; rw [h] at e; simp at e
  · rename_i c1 s1 e
    rw [h] at e
    simp only [Prod.mk.injEq, Option.some.injEq] at e
    obtain ⟨rfl, rfl⟩ := e
    rw [if_neg (by simp [hw])]

theorem skipWs_sep (a s : List Nat) (h : Sep a) : skipWs (a ++ s) = skipWs s := by
  induction h with
  | nil => rfl
  | ws c t hc _ ih =>
    rw [List.cons_append, skipWs_step (pbmGetc_ws c _ (isWs_ne hc).1) hc, ih]
  | comment t u ht _ ih =>
    have e : 35 :: (t ++ 10 :: u) ++ s = 35 :: (t ++ 10 :: (u ++ s)) := by simp
    rw [e, skipWs_step (pbmGetc_comment t _ ht) (by decide), ih]

theorem digits_step {maxval v : Nat} {s s' : List Nat} {c : Nat} (h : pbmGetc s = (some c, s')) (hd : isDigit c = true)
    (hm : v * 10 + (c - 48) ≤ maxval) (h32 : maxval < 2 ^ 32) : digits maxval v s = digits maxval (v * 10 + (c - 48)) s' := by
  conv => lhs; unfold digits
  split
  · rename_i e; rw [h] at e; simp at e
  · rename_i c1 s1 e
    rw [h] at e
    simp only [Prod.mk.injEq, Option.some.injEq] at e
    obtain ⟨rfl, rfl⟩ := e
    rw [if_pos hd, Nat.mod_eq_of_lt (by omega)]
    simp only []
    rw [if_neg (by omega)]

theorem digits_stop {maxval v : Nat} {s s' : List Nat} {c : Nat} (h : pbmGetc s = (some c, s')) (hd : isDigit c = false) :
    digits maxval v s = .ok (v, s') := by
  unfold digits
  split
  · rename_i e; rw [h] at e; simp at e
  · rename_i c1 s1 e
    rw [h] at e
    simp only [Prod.mk.injEq, Option.some.injEq] at e
    obtain ⟨rfl, rfl⟩ := e
    rw [if_neg (by simp [hd])]

theorem digits_eof (maxval v : Nat) : digits maxval v [] = .ok (v, []) := by
  unfold digits
  split
  · rename_i e; simp only [pbmGetc, Prod.mk.injEq] at e; rw [← e.2]
  · rename_i e; simp [pbmGetc] at e

/-- Reading a number: its first digit is the first character that is not white, the others follow. -/
theorem readInt_digits (maxval : Nat) (h32 : maxval < 2 ^ 32) : ∀ (n : Nat) (s : List Nat), n ≤ maxval →
    readInt maxval (dec n ++ s) = digits maxval n s := by
  intro n
  induction n using Nat.strongRecOn with
  | _ n ih =>
    intro s hn
    unfold dec
    by_cases h : n < 10
    · rw [if_pos h]
      have hd : isDigit (48 + n) = true := by simp [isDigit]; omega
      have hw : isWs (48 + n) = false := by simp [isWs]; omega
      unfold readInt
      rw [List.cons_append, List.nil_append, skipWs_stop (pbmGetc_ws _ _ (by omega)) hw]
      show (if isDigit (48 + n) = true then digits maxval (48 + n - 48) s else _) = _
      rw [if_pos hd, Nat.add_sub_cancel_left]
    · rw [if_neg h, List.append_assoc, ih (n / 10) (by omega) _ (by omega)]
      have hd : isDigit (48 + n % 10) = true := by simp [isDigit]; omega
      have e : n / 10 * 10 + (48 + n % 10 - 48) = n := by omega
      rw [List.cons_append, List.nil_append, digits_step (pbmGetc_ws _ _ (by omega)) hd (by omega) h32, e]

theorem readInt_sep (maxval : Nat) (a s : List Nat) (h : Sep a) : readInt maxval (a ++ s) = readInt maxval s := by
  unfold readInt; rw [skipWs_sep a s h]

/-- After a number one whitespace character or comment is swallowed. -/
theorem digits_starts (maxval v : Nat) (s : List Nat) (h : Starts s) : ∃ c s', pbmGetc s = (some c, s') ∧ digits maxval v s = .ok (v, s') := by
  obtain ⟨a, b, rfl, ha, hne⟩ := h
  cases ha with
  | nil => exact absurd rfl hne
  | ws c t hc _ =>
    have e := pbmGetc_ws c (t ++ b) (isWs_ne hc).1
    exact ⟨c, _, e, digits_stop e (isWs_ne hc).2⟩
  | comment t u ht _ =>
    have e := pbmGetc_comment t (u ++ b) ht
    have e' : 35 :: (t ++ 10 :: u) ++ b = 35 :: (t ++ 10 :: (u ++ b)) := by simp
    rw [e']
    exact ⟨10, _, e, digits_stop e (by decide)⟩

theorem dec_head (n : Nat) : ∃ d t, dec n = d :: t ∧ isDigit d = true := by
  induction n using Nat.strongRecOn with
  | _ n ih =>
    unfold dec
    by_cases h : n < 10
    · rw [if_pos h]; exact ⟨48 + n, [], rfl, by simp [isDigit]; omega⟩
    · rw [if_neg h]
      obtain ⟨d, t, e, hd⟩ := ih (n / 10) (by omega)
      exact ⟨d, t ++ [48 + n % 10], by rw [e]; rfl, hd⟩

theorem digit_ne {d : Nat} (h : isDigit d = true) : d ≠ 35 ∧ isWs d = false := by
  simp only [isDigit, Bool.and_eq_true, decide_eq_true_eq] at h
  exact ⟨by omega, by simp [isWs]; omega⟩

/-- Removing a swallowed character leaves the numbers. -/
theorem Text.tail {vs s s' : List Nat} {c : Nat} (h : Text vs s) (hs : Starts s) (e : pbmGetc s = (some c, s')) : Text vs s' := by
  cases h with
  | nil => exact .nil _
  | cons a v vs t ha ht hv =>
    cases ha with
    | nil =>
      exfalso
      obtain ⟨d, t', ed, hd⟩ := dec_head v
      obtain ⟨x, y, exy, hx, hne⟩ := hs
      rw [List.nil_append, ed] at exy
      cases hx with
      | nil => exact hne rfl
      | ws c' _ hc _ =>
        simp only [List.cons_append, List.cons.injEq] at exy
        rw [exy.1] at hd
        rw [(isWs_ne hc).2] at hd
        exact absurd hd (by simp)
      | comment t u _ _ =>
        simp only [List.cons_append, List.cons.injEq] at exy
        rw [exy.1] at hd
        exact absurd hd (by decide)
    | ws c' a' hc ha' =>
      rw [List.cons_append, pbmGetc_ws c' _ (isWs_ne hc).1] at e
      simp only [Prod.mk.injEq, Option.some.injEq] at e
      rw [← e.2]
      exact .cons a' v vs t ha' ht hv
    | comment u a' hu ha' =>
      have e' : 35 :: (u ++ 10 :: a') ++ (dec v ++ t) = 35 :: (u ++ 10 :: (a' ++ (dec v ++ t))) := by simp
      rw [e', pbmGetc_comment u _ hu] at e
      simp only [Prod.mk.injEq, Option.some.injEq] at e
      rw [← e.2]
      exact .cons a' v vs t ha' ht hv

theorem Text.read {v maxval : Nat} {vs s : List Nat} (h : Text (v :: vs) s) (hv : v ≤ maxval) (h32 : maxval < 2 ^ 32) :
    ∃ s', readInt maxval s = .ok (v, s') ∧ Text vs s' := by
  cases h with
  | cons a _ _ t ha ht hvs =>
    rw [readInt_sep _ _ _ ha, readInt_digits maxval h32 v _ hv]
    rcases ht with rfl | ht
    · exact ⟨[], digits_eof _ _, hvs⟩
    · obtain ⟨c, s', e, e2⟩ := digits_starts maxval v t ht
      exact ⟨s', e2, hvs.tail ht e⟩

/-! ## Samples -/

theorem Enc.read {k : Kind} {mx m v : Nat} {direct : Bool} {vs s : List Nat} (h : Enc k m (v :: vs) s) (hm : 0 < m) (hm2 : m ≤ 65535)
    (hd : direct = true → m = mx) (hmx : 255 ≤ mx) : ∃ s', sample k mx m direct s = .ok (scale mx m v, s') ∧ Enc k m vs s' := by
  have hsc : ∀ v, v ≤ max m 255 → (if direct then .ok (v % (mx + 1)) else lookup (rescaleTab mx m) v) = (.ok (scale mx m v) : R Nat) := by
    intro v hv
    by_cases hdd : direct = true
    · have := hd hdd
      subst this
      rw [if_pos hdd, Nat.mod_eq_of_lt (by omega), scale_id _ _ (by omega) hm]
    · rw [if_neg hdd, lookup_scale mx m v hm hv]
  cases k with
  | text =>
    obtain ⟨hb, ht⟩ := h
    obtain ⟨s', e, ht'⟩ := ht.read (hb v (by simp)) (by omega)
    refine ⟨s', ?_, fun x hx => hb x (by simp [hx]), ht'⟩
    have hv := hb v (by simp)
    unfold sample
    simp only [e, bind, Except.bind]
    rw [hsc v (by omega)]
    rfl
  | byte =>
    obtain ⟨hb, t, rfl⟩ := h
    refine ⟨vs ++ t, ?_, fun x hx => hb x (by simp [hx]), t, rfl⟩
    have hv := hb v (by simp)
    unfold sample
    simp only [List.cons_append, bind, Except.bind]
    rw [hsc v (by omega)]
    rfl
  | word =>
    obtain ⟨hb, t, rfl⟩ := h
    refine ⟨_, ?_, fun x hx => hb x (by simp [hx]), t, rfl⟩
    have hv := hb v (by simp)
    unfold sample
    simp only [List.flatMap_cons, List.cons_append, List.nil_append, bind, Except.bind]
    rw [show v / 256 * 256 + v % 256 = v by omega, if_neg (by omega), lookup_scale mx m v hm (by omega)]
    rfl

end Verif.Ppm
