import Verif.Fdct.Islow
import Verif.Idct.Accuracy
/-
The forward DCT as two matrix products with rounding, without overflow.
-/
namespace Verif.Fdct

open Verif.Idct (descale shl shr cb M M_le)
open scoped BigOperators

theorem bind_ck {α} {m v : Int} {f : Int → Option α} {r : Option α} (h1 : -m - 1 ≤ v) (h2 : v ≤ m) (h : f v = r) :
    (ck m v >>= f) = r := by
  unfold ck
  rw [if_pos ⟨h1, h2⟩]
  exact h

/-- The exact results of the kernel. -/
def kout (x : Nat → Int) : List Int :=
  [x 0 + x 7 + (x 3 + x 4) + (x 1 + x 6 + (x 2 + x 5)),
   (∑ j : Fin 8, M j 1 * x j.val), (∑ j : Fin 8, M j 2 * x j.val), (∑ j : Fin 8, M j 3 * x j.val),
   x 0 + x 7 + (x 3 + x 4) - (x 1 + x 6 + (x 2 + x 5)),
   (∑ j : Fin 8, M j 5 * x j.val), (∑ j : Fin 8, M j 6 * x j.val), (∑ j : Fin 8, M j 7 * x j.val)]

set_option maxHeartbeats 1000000 in
theorem kern_ok {m B : Int} {x : Nat → Int} (hx : ∀ k, k < 8 → -B ≤ x k ∧ x k ≤ B) (hm : 400000 * B ≤ m) :
    kern m x = some (kout x) := by
  have h0 := hx 0 (by omega)
  have h1 := hx 1 (by omega)
  have h2 := hx 2 (by omega)
  have h3 := hx 3 (by omega)
  have h4 := hx 4 (by omega)
  have h5 := hx 5 (by omega)
  have h6 := hx 6 (by omega)
  have h7 := hx 7 (by omega)
  have e : kout x = kout x := rfl
  unfold kern
  unfold kout
  simp only [Fin.sum_univ_eight, M, Idct.mat]
  simp only [List.getD_cons_zero, List.getD_cons_succ, Fin.val_zero, Fin.val_one, Fin.val_two, Fin.isValue,
    show ((3 : Fin 8).val) = 3 from rfl, show ((4 : Fin 8).val) = 4 from rfl, show ((5 : Fin 8).val) = 5 from rfl,
    show ((6 : Fin 8).val) = 6 from rfl, show ((7 : Fin 8).val) = 7 from rfl, show ((1 : Fin 8).val) = 1 from rfl,
    show ((2 : Fin 8).val) = 2 from rfl]
  generalize x 0 = x0 at *
  generalize x 1 = x1 at *
  generalize x 2 = x2 at *
  generalize x 3 = x3 at *
  generalize x 4 = x4 at *
  generalize x 5 = x5 at *
  generalize x 6 = x6 at *
  generalize x 7 = x7 at *
  clear hx e
  iterate 44 (refine bind_ck (by omega) (by omega) ?_)
  simp only [Option.some.injEq, List.cons.injEq, and_true]
  refine ⟨?_, ?_, ?_, ?_, ?_, ?_, ?_, ?_⟩ <;> first | trivial | omega

/-- The k-th result with the common factor 2^13. -/
def ksum (x : Nat → Int) (k : Fin 8) : Int := ∑ j : Fin 8, M j k * x j.val

theorem kout_get (x : Nat → Int) (k : Fin 8) :
    (if k.val = 0 ∨ k.val = 4 then 8192 * (kout x).getD k.val 0 else (kout x).getD k.val 0) = ksum x k := by
  fin_cases k <;> simp [kout, ksum, Fin.sum_univ_eight, M, Idct.mat] <;> ring

theorem ksum_le {x : Nat → Int} {B : Int} (hx : ∀ k, k < 8 → -B ≤ x k ∧ x k ≤ B) (k : Fin 8) :
    -(65536 * B) ≤ ksum x k ∧ ksum x k ≤ 65536 * B := by
  have h0 := hx 0 (by omega)
  have h1 := hx 1 (by omega)
  have h2 := hx 2 (by omega)
  have h3 := hx 3 (by omega)
  have h4 := hx 4 (by omega)
  have h5 := hx 5 (by omega)
  have h6 := hx 6 (by omega)
  have h7 := hx 7 (by omega)
  fin_cases k <;> simp [ksum, Fin.sum_univ_eight, M, Idct.mat] <;> omega

theorem descaleC_ok {m x : Int} {n : Nat} (h1 : -m - 1 ≤ x + (2 ^ (n - 1) : Nat)) (h2 : x + (2 ^ (n - 1) : Nat) ≤ m) :
    descaleC m x n = some (descale x n) := by
  unfold descaleC
  exact bind_ck h1 h2 rfl

theorem ck_ok {m v : Int} (h1 : -m - 1 ≤ v) (h2 : v ≤ m) : ck m v = some v := by
  unfold ck; rw [if_pos ⟨h1, h2⟩]

theorem shl_eq_descale (x : Int) {p : Nat} (hp : p = 1 ∨ p = 2) : shl x p = descale (8192 * x) (cb - p) := by
  rcases hp with rfl | rfl <;> simp only [shl, descale, shr, cb] <;> omega

theorem descale_eq_descale (x : Int) {p : Nat} (hp : p = 1 ∨ p = 2) : descale x p = descale (8192 * x) (cb + p) := by
  rcases hp with rfl | rfl <;> simp only [descale, shr, cb] <;> omega

theorem descale_bound1 {x B : Int} {p : Nat} (hp : p = 1 ∨ p = 2) (hB : 0 ≤ B) (h1 : -(65536 * B) ≤ x) (h2 : x ≤ 65536 * B) :
    -(8 * B * (2 ^ p : Nat)) ≤ descale x (cb - p) ∧ descale x (cb - p) ≤ 8 * B * (2 ^ p : Nat) := by
  rcases hp with rfl | rfl <;> simp only [descale, shr, cb] <;> constructor <;> omega

theorem mapM_range8 {f : Nat → Option Int} {g : Nat → Int} (h : ∀ k, k < 8 → f k = some (g k)) :
    (List.range 8).mapM f = some ((List.range 8).map g) := by
  have e : List.range 8 = [0, 1, 2, 3, 4, 5, 6, 7] := by decide
  rw [e]
  simp [List.mapM_cons, h 0, h 1, h 2, h 3, h 4, h 5, h 6, h 7]

/-- The types the theorems are about. -/
def Types.Ok (t : Types) : Prop := t.p1 = 1 ∨ t.p1 = 2

theorem fin8 {k : Nat} (h : k < 8) : ∃ j : Fin 8, j.val = k := ⟨⟨k, h⟩, rfl⟩

theorem row1_ok {t : Types} (ht : t.Ok) {B : Int} (hB : 0 ≤ B) {x : Nat → Int} (hx : ∀ k, k < 8 → -B ≤ x k ∧ x k ≤ B)
    (hm : 400000 * B + 4096 ≤ t.long) (he : 8 * B * (2 ^ t.p1 : Nat) ≤ t.elem) :
    ∃ l, row1 t x = some l ∧ ∀ k : Fin 8, l.getD k.val 0 = descale (ksum x k) (cb - t.p1) := by
  unfold row1
  rw [kern_ok hx (by omega)]
  simp only [Option.bind_eq_bind, Option.bind_some]
  refine ⟨(List.range 8).map (fun k => if k = 0 ∨ k = 4 then shl ((kout x).getD k 0) t.p1 else
      descale ((kout x).getD k 0) (cb - t.p1)), mapM_range8 ?_, ?_⟩
  · intro k hk
    obtain ⟨j, rfl⟩ := fin8 hk
    have hs := ksum_le hx j
    have hd := descale_bound1 ht hB hs.1 hs.2
    rw [← kout_get] at hs hd
    have hp : ((2 ^ (cb - t.p1 - 1) : Nat) : Int) ≤ 4096 ∧ 0 ≤ ((2 ^ (cb - t.p1 - 1) : Nat) : Int) := by
      rcases ht with h | h <;> rw [h] <;> decide
    have hq : (2 ^ t.p1 : Nat) = (2 : Int) ∨ ((2 ^ t.p1 : Nat) : Int) = 4 := by
      rcases ht with h | h <;> rw [h]
      · left; rfl
      · right; rfl
    by_cases hc : j.val = 0 ∨ j.val = 4
    · rw [if_pos hc] at hs hd
      rw [if_pos hc, if_pos hc]
      rw [← shl_eq_descale _ ht] at hd
      have hv : -t.long - 1 ≤ shl ((kout x).getD j.val 0) t.p1 ∧ shl ((kout x).getD j.val 0) t.p1 ≤ t.long := by
        generalize shl ((kout x).getD j.val 0) t.p1 = v at *
        rcases hq with h | h <;> rw [h] at hd <;> omega
      rw [ck_ok hv.1 hv.2]
      exact ck_ok (by omega) (by omega)
    · rw [if_neg hc] at hs hd
      rw [if_neg hc, if_neg hc, descaleC_ok (by omega) (by omega)]
      exact ck_ok (by omega) (by omega)
  · intro k
    rw [List.getD_eq_getElem?_getD, List.getElem?_map, List.getElem?_range k.isLt]
    simp only [Option.map_some, Option.getD_some]
    rw [← kout_get]
    split
    · rw [shl_eq_descale _ ht]
    · rfl

theorem descale_bound2 {x B : Int} {p : Nat} (hp : p = 1 ∨ p = 2) (hB : 0 ≤ B) (h1 : -(65536 * B) ≤ x) (h2 : x ≤ 65536 * B) :
    -(8 * B) ≤ descale x (cb + p) ∧ descale x (cb + p) ≤ 8 * B := by
  rcases hp with rfl | rfl <;> simp only [descale, shr, cb] <;> constructor <;> omega

theorem col2_ok {t : Types} (ht : t.Ok) {B : Int} (hB : 0 ≤ B) {x : Nat → Int} (hx : ∀ k, k < 8 → -B ≤ x k ∧ x k ≤ B)
    (hm : 400000 * B + 16384 ≤ t.long) (he : ∀ k : Fin 8, -t.elem - 1 ≤ descale (ksum x k) (cb + t.p1) ∧
      descale (ksum x k) (cb + t.p1) ≤ t.elem) :
    ∃ l, col2 t x = some l ∧ ∀ k : Fin 8, l.getD k.val 0 = descale (ksum x k) (cb + t.p1) := by
  unfold col2
  rw [kern_ok hx (by omega)]
  simp only [Option.bind_eq_bind, Option.bind_some]
  refine ⟨(List.range 8).map (fun k => descale ((kout x).getD k 0) (if k = 0 ∨ k = 4 then t.p1 else cb + t.p1)), mapM_range8 ?_, ?_⟩
  · intro k hk
    obtain ⟨j, rfl⟩ := fin8 hk
    have hs := ksum_le hx j
    have hd := he j
    rw [← kout_get] at hs hd
    have hp : ((2 ^ (cb + t.p1 - 1) : Nat) : Int) ≤ 16384 ∧ 0 ≤ ((2 ^ (cb + t.p1 - 1) : Nat) : Int) := by
      rcases ht with h | h <;> rw [h] <;> decide
    have hp' : ((2 ^ (t.p1 - 1) : Nat) : Int) ≤ 16384 ∧ 0 ≤ ((2 ^ (t.p1 - 1) : Nat) : Int) := by
      rcases ht with h | h <;> rw [h] <;> decide
    by_cases hc : j.val = 0 ∨ j.val = 4
    · rw [if_pos hc] at hs hd
      rw [if_pos hc]
      rw [← descale_eq_descale _ ht] at hd
      rw [descaleC_ok (by omega) (by omega)]
      exact ck_ok (by omega) (by omega)
    · rw [if_neg hc] at hs hd
      rw [if_neg hc, descaleC_ok (by omega) (by omega)]
      exact ck_ok (by omega) (by omega)
  · intro k
    rw [List.getD_eq_getElem?_getD, List.getElem?_map, List.getElem?_range k.isLt]
    simp only [Option.map_some, Option.getD_some]
    rw [← kout_get]
    split
    · rw [descale_eq_descale _ ht]
    · rfl

/-! ### The in-place passes -/

theorem put8_length (s base : Nat) (d vals : List Int) : (put8 s base d vals).length = d.length := by
  unfold put8
  have : ∀ (l : List Nat) (d : List Int), (l.foldl (fun d k => d.set (base + s * k) (vals.getD k 0)) d).length = d.length := by
    intro l
    induction l with
    | nil => intro d; rfl
    | cons a l ih => intro d; rw [List.foldl_cons, ih, List.length_set]
  exact this _ _

theorem getD_set' (d : List Int) (i j : Nat) (v : Int) (hi : i < d.length) :
    (d.set i v).getD j 0 = if j = i then v else d.getD j 0 := by
  by_cases h : j = i
  · subst h
    rw [if_pos rfl, List.getD_eq_getElem?_getD, List.getElem?_set_self hi]; rfl
  · rw [if_neg h, List.getD_eq_getElem?_getD, List.getElem?_set_ne (Ne.symm h), ← List.getD_eq_getElem?_getD]

/-- A store of a row. -/
theorem put8_row {d vals : List Int} (hd : d.length = 64) {r : Nat} (hr : r < 8) (i j : Nat) (hj : j < 8) :
    (put8 1 (8 * r) d vals).getD (8 * i + j) 0 = if i = r then vals.getD j 0 else d.getD (8 * i + j) 0 := by
  unfold put8
  have e : List.range 8 = [0, 1, 2, 3, 4, 5, 6, 7] := by decide
  rw [e]
  simp only [List.foldl_cons, List.foldl_nil]
  repeat rw [getD_set' _ _ _ _ (by simp [hd]; omega)]
  by_cases h : i = r
  · subst h
    rw [if_pos rfl]
    have hj' : j = 0 ∨ j = 1 ∨ j = 2 ∨ j = 3 ∨ j = 4 ∨ j = 5 ∨ j = 6 ∨ j = 7 := by omega
    rcases hj' with rfl | rfl | rfl | rfl | rfl | rfl | rfl | rfl <;> simp
  · rw [if_neg h]
    repeat rw [if_neg (by omega)]

/-- A store of a column. -/
theorem put8_col {d vals : List Int} (hd : d.length = 64) {c : Nat} (hc : c < 8) (i j : Nat) (hi : i < 8) (hj : j < 8) :
    (put8 8 c d vals).getD (8 * i + j) 0 = if j = c then vals.getD i 0 else d.getD (8 * i + j) 0 := by
  unfold put8
  have e : List.range 8 = [0, 1, 2, 3, 4, 5, 6, 7] := by decide
  rw [e]
  simp only [List.foldl_cons, List.foldl_nil]
  repeat rw [getD_set' _ _ _ _ (by simp [hd]; omega)]
  by_cases h : j = c
  · subst h
    rw [if_pos rfl]
    have hj' : i = 0 ∨ i = 1 ∨ i = 2 ∨ i = 3 ∨ i = 4 ∨ i = 5 ∨ i = 6 ∨ i = 7 := by omega
    rcases hj' with rfl | rfl | rfl | rfl | rfl | rfl | rfl | rfl <;> simp <;> omega
  · rw [if_neg h]
    repeat rw [if_neg (by omega)]

theorem foldlM_range {α} (f : α → Nat → Option α) (P : Nat → α → Prop) (n : Nat) (a : α) (h0 : P 0 a)
    (hs : ∀ k a, k < n → P k a → ∃ a', f a k = some a' ∧ P (k + 1) a') :
    ∃ a', (List.range n).foldlM f a = some a' ∧ P n a' := by
  induction n with
  | zero => exact ⟨a, rfl, h0⟩
  | succ n ih =>
    obtain ⟨a1, e1, p1⟩ := ih (fun k a hk => hs k a (by omega))
    obtain ⟨a2, e2, p2⟩ := hs n a1 (by omega) p1
    refine ⟨a2, ?_, p2⟩
    rw [List.range_succ, List.foldlM_append, e1]
    simp only [Option.bind_eq_bind, Option.bind_some, List.foldlM_cons, List.foldlM_nil, e2]
    rfl

/-- Row `r` of the first pass. -/
def y1 (p1 : Nat) (x : Nat → Nat → Int) (r : Nat) (u : Fin 8) : Int := descale (ksum (fun k => x r k) u) (cb - p1)

/-- Result of the second pass. -/
def out2 (p1 : Nat) (x : Nat → Nat → Int) (v u : Fin 8) : Int :=
  descale (ksum (fun r => y1 p1 x r u) v) (cb + p1)

/-- Block entry. -/
def ent (d : List Int) (r k : Nat) : Int := d.getD (8 * r + k) 0

theorem fdctIslow_ok {t : Types} (ht : t.Ok) {B : Int} (hB : 0 ≤ B) {d : List Int} (hd : d.length = 64)
    (hx : ∀ r k, r < 8 → k < 8 → -B ≤ ent d r k ∧ ent d r k ≤ B)
    (hm : 400000 * (8 * B * (2 ^ t.p1 : Nat)) + 16384 ≤ t.long) (he : 8 * B * (2 ^ t.p1 : Nat) ≤ t.elem)
    (ho : ∀ v u : Fin 8, -t.elem - 1 ≤ out2 t.p1 (ent d) v u ∧ out2 t.p1 (ent d) v u ≤ t.elem) :
    ∃ d', fdctIslow t d = some d' ∧ d'.length = 64 ∧
      ∀ v u : Fin 8, d'.getD (8 * v.val + u.val) 0 = out2 t.p1 (ent d) v u := by
  have hq : (2 ^ t.p1 : Nat) = (2 : Int) ∨ ((2 ^ t.p1 : Nat) : Int) = 4 := by
    rcases ht with h | h <;> rw [h]
    · left; rfl
    · right; rfl
  unfold fdctIslow
  obtain ⟨d1, e1, l1, a1⟩ := foldlM_range
    (fun d r => do
      let vals ← row1 t (fun k => d.getD (8 * r + k) 0)
      some (put8 1 (8 * r) d vals))
    (fun n d1 => d1.length = 64 ∧ ∀ r k : Fin 8, ent d1 r.val k.val = if r.val < n then y1 t.p1 (ent d) r.val k else ent d r.val k.val)
    8 d ⟨hd, fun r k => by rw [if_neg (by omega)]⟩ (by
      intro n d1 hn ⟨hl, ha⟩
      have hrow : ∀ k, k < 8 → d1.getD (8 * n + k) 0 = ent d n k := by
        intro k hk
        have := ha ⟨n, hn⟩ ⟨k, hk⟩
        rw [if_neg (by simp)] at this
        exact this
      obtain ⟨l, h1, h2⟩ := row1_ok (x := fun k => d1.getD (8 * n + k) 0) ht hB
        (by intro k hk; rw [hrow k hk]; exact hx n k hn hk)
        (by rcases hq with h | h <;> rw [h] at hm <;> omega) he
      refine ⟨put8 1 (8 * n) d1 l, ?_, ?_, ?_⟩
      · rw [h1]; rfl
      · rw [put8_length, hl]
      · intro r k
        unfold ent
        rw [put8_row hl hn r.val k.val k.isLt]
        by_cases hrn : r.val = n
        · rw [if_pos hrn, if_pos (by omega), h2 k]
          unfold y1
          rw [hrn]
          congr 1
          unfold ksum
          refine Finset.sum_congr rfl (fun j _ => ?_)
          dsimp only
          rw [hrow j.val j.isLt]
          rfl
        · rw [if_neg hrn]
          have := ha r k
          unfold ent at this
          rw [this]
          by_cases hlt : r.val < n
          · rw [if_pos hlt, if_pos (by omega)]
          · rw [if_neg hlt, if_neg (by omega)])
  simp only [Option.bind_eq_bind] at e1 ⊢
  rw [e1]
  simp only [Option.bind_some]
  have hy : ∀ r k : Fin 8, ent d1 r.val k.val = y1 t.p1 (ent d) r.val k := fun r k => by
    have := a1 r k; rw [if_pos r.isLt] at this; exact this
  have hyb : ∀ r k, r < 8 → k < 8 → -(8 * B * (2 ^ t.p1 : Nat)) ≤ ent d1 r k ∧ ent d1 r k ≤ 8 * B * (2 ^ t.p1 : Nat) := by
    intro r k hr hk
    have e := hy ⟨r, hr⟩ ⟨k, hk⟩
    dsimp only at e
    rw [e]
    have hs := ksum_le (x := fun k => ent d r k) (fun k hk => hx r k hr hk) ⟨k, hk⟩
    exact descale_bound1 ht hB hs.1 hs.2
  obtain ⟨d2, e2, l2, a2⟩ := foldlM_range
    (fun d c => (col2 t (fun k => d.getD (8 * k + c) 0)).bind (fun vals => some (put8 8 c d vals)))
    (fun n d2 => d2.length = 64 ∧ ∀ v u : Fin 8, ent d2 v.val u.val = if u.val < n then out2 t.p1 (ent d) v u else ent d1 v.val u.val)
    8 d1 ⟨l1, fun r k => by rw [if_neg (by omega)]⟩ (by
      intro n d2 hn ⟨hl, ha⟩
      have hcol : ∀ k, k < 8 → d2.getD (8 * k + n) 0 = ent d1 k n := by
        intro k hk
        have := ha ⟨k, hk⟩ ⟨n, hn⟩
        rw [if_neg (by simp)] at this
        exact this
      have hks : ∀ v : Fin 8, descale (ksum (fun k => d2.getD (8 * k + n) 0) v) (cb + t.p1) = out2 t.p1 (ent d) v ⟨n, hn⟩ := by
        intro v
        unfold out2
        congr 1
        unfold ksum
        refine Finset.sum_congr rfl (fun j _ => ?_)
        dsimp only
        rw [hcol j.val j.isLt, ← hy j ⟨n, hn⟩]
      obtain ⟨l, h1, h2⟩ := col2_ok (x := fun k => d2.getD (8 * k + n) 0) ht (B := 8 * B * (2 ^ t.p1 : Nat))
        (by rcases hq with h | h <;> rw [h] <;> omega)
        (by intro k hk; rw [hcol k hk]; exact hyb k n hk hn) hm
        (by intro k; rw [hks k]; exact ho k ⟨n, hn⟩)
      refine ⟨put8 8 n d2 l, ?_, ?_, ?_⟩
      · rw [h1]; rfl
      · rw [put8_length, hl]
      · intro v u
        unfold ent
        rw [put8_col hl hn v.val u.val v.isLt u.isLt]
        by_cases hun : u.val = n
        · rw [if_pos hun, if_pos (by omega), h2 v, hks v]
          congr 1
          exact Fin.ext hun.symm
        · rw [if_neg hun]
          have := ha v u
          unfold ent at this
          rw [this]
          by_cases hlt : u.val < n
          · rw [if_pos hlt, if_pos (by omega)]
          · rw [if_neg hlt, if_neg (by omega)])
  refine ⟨d2, e2, l2, ?_⟩
  intro v u
  have := a2 v u
  rw [if_pos u.isLt] at this
  exact this

end Verif.Fdct
