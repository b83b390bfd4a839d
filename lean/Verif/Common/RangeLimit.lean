/-
The sample range-limit table (jdmaster.c:414-496) and its two uses: the "simple" table and the post-IDCT table.
-/
namespace Verif

/-- A C array accessed through a pointer `base` elements past its start; reading outside gives `none`. -/
structure PTab (α : Type) where
  base : Nat
  data : List α

/-- The C read `t[x]`. -/
def PTab.get? {α : Type} (t : PTab α) (x : Int) : Option α :=
  if x + t.base < 0 then none else t.data[(x + t.base).toNat]?

/-- `prepare_range_limit_table` (jdmaster.c:414-496); `c` is CENTERJSAMPLE, MAXJSAMPLE+1 is `2*c`. The segments are
those of the code in order: zeros, identity, MAXJSAMPLE, zeros, copy of the start of the identity segment.
The pointer kept in `sample_range_limit` is MAXJSAMPLE+1 past the start. -/
def rangeLimitTable (c : Nat) : PTab Nat where
  base := 2 * c
  data := List.replicate (2 * c) 0 ++ List.range (2 * c) ++ List.replicate (2 * (2 * c) - c) (2 * c - 1) ++
    List.replicate (2 * (2 * c) - c) 0 ++ (List.range (2 * c)).take c

/-- Specification: limit a value to 0..max. -/
def clampTo (max : Nat) (x : Int) : Nat := min x.toNat max

theorem rangeLimit_length (c : Nat) : (rangeLimitTable c).data.length = 5 * (2 * c) + c := by
  simp [rangeLimitTable]; omega

/-- The "simple" table clamps, for every index it may legally be given. -/
theorem rangeLimit_simple (c : Nat) (x : Int) (h1 : -(2 * c : Int) ≤ x) (h2 : x < 5 * c) :
    (rangeLimitTable c).get? x = some (clampTo (2 * c - 1) x) := by
  unfold PTab.get? clampTo
  have hb : (rangeLimitTable c).base = 2 * c := rfl
  rw [if_neg (by omega), hb]
  obtain ⟨i, hi⟩ : ∃ i : Nat, x + ((2 * c : Nat) : Int) = i := ⟨(x + 2 * c).toNat, by omega⟩
  rw [hi, Int.toNat_natCast]
  simp only [rangeLimitTable, List.append_assoc]
  by_cases h : i < 2 * c
  · rw [List.getElem?_append_left (by simpa using h), List.getElem?_replicate, if_pos h]
    congr 1; omega
  rw [List.getElem?_append_right (by simpa using h), List.length_replicate]
  by_cases h' : i - 2 * c < 2 * c
  · rw [List.getElem?_append_left (by simpa using h'), List.getElem?_range h']
    congr 1; omega
  rw [List.getElem?_append_right (by simpa using h'), List.length_range,
    List.getElem?_append_left (by simp; omega), List.getElem?_replicate, if_pos (by omega)]
  congr 1; omega

/-- The post-IDCT table: an index `v` below 4*(MAXJSAMPLE+1), read as a signed residue, is re-centred and clamped. -/
theorem rangeLimit_post (c : Nat) (v : Nat) (h : v < 8 * c) :
    (rangeLimitTable c).get? ((c : Int) + v) =
      some (clampTo (2 * c - 1) ((c : Int) + (if v < 4 * c then (v : Int) else (v : Int) - 8 * c))) := by
  by_cases hv : v < 4 * c
  · rw [if_pos hv]; exact rangeLimit_simple c _ (by omega) (by omega)
  · rw [if_neg hv]
    unfold PTab.get? clampTo
    have hb : (rangeLimitTable c).base = 2 * c := rfl
    rw [if_neg (by omega), hb]
    have : ((c : Int) + v + ((2 * c : Nat) : Int)).toNat = 3 * c + v := by omega
    rw [this]
    simp only [rangeLimitTable, List.append_assoc]
    rw [List.getElem?_append_right (by simp; omega), List.length_replicate,
      List.getElem?_append_right (by simp; omega), List.length_range,
      List.getElem?_append_right (by simp; omega), List.length_replicate]
    by_cases h7 : v < 7 * c
    · rw [List.getElem?_append_left (by simp; omega), List.getElem?_replicate, if_pos (by omega)]
      congr 1; omega
    · rw [List.getElem?_append_right (by simp; omega), List.length_replicate, List.getElem?_take,
        if_pos (by omega), List.getElem?_range (by omega)]
      congr 1; omega

theorem clampTo_le (m : Nat) (x : Int) : clampTo m x ≤ m := by unfold clampTo; omega

end Verif
