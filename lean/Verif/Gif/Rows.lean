import Verif.Gif.Safe
import Mathlib.Data.List.Perm.Subperm
import Mathlib.Data.List.Nodup
/-
Interlaced GIF images: which row of the image each row of the file is.
-/
namespace Verif.Gif

/-- Specification: the rows `start`, `start + step`, ... below `h`. -/
def every (h start step : Nat) : List Nat := (List.range ((h + step - 1 - start) / step)).map (fun i => start + step * i)

/-- Specification (GIF89a, appendix E): the rows in the order in which an interlaced file has them. -/
def interlacedOrder (h : Nat) : List Nat := every h 0 8 ++ every h 4 8 ++ every h 2 4 ++ every h 1 2

theorem every_length (h a b : Nat) : (every h a b).length = (h + b - 1 - a) / b := by unfold every; simp

theorem every_get (h a b i : Nat) (hi : i < (h + b - 1 - a) / b) : (every h a b)[i]? = some (a + b * i) := by
  unfold every
  rw [List.getElem?_map, List.getElem?_range hi]; rfl

theorem interlacedOrder_length (h : Nat) : (interlacedOrder h).length = h := by
  unfold interlacedOrder
  simp only [List.length_append, every_length]
  omega

/-- Row `r` of the image is where `place` says. -/
theorem interlacedOrder_place (h r : Nat) (hr : r < h) : (interlacedOrder h)[place h r]? = some r := by
  unfold interlacedOrder place
  simp only []
  split
  · rw [List.append_assoc, List.append_assoc, List.getElem?_append_left (by rw [every_length]; omega), every_get _ _ _ _ (by omega)]
    congr 1; omega
  · split
    · rw [List.append_assoc, List.append_assoc, List.getElem?_append_right (by rw [every_length]; omega), every_length,
        List.getElem?_append_left (by rw [every_length]; omega), every_get _ _ _ _ (by omega)]
      congr 1; omega
    · split
      · rw [List.append_assoc, List.append_assoc, List.getElem?_append_right (by rw [every_length]; omega), every_length,
          List.getElem?_append_right (by rw [every_length]; omega), every_length,
          List.getElem?_append_left (by rw [every_length]; omega), every_get _ _ _ _ (by omega)]
        congr 1; omega
      · rw [List.append_assoc, List.append_assoc, List.getElem?_append_right (by rw [every_length]; omega), every_length,
          List.getElem?_append_right (by rw [every_length]; omega), every_length,
          List.getElem?_append_right (by rw [every_length]; omega), every_length, every_get _ _ _ _ (by omega)]
        congr 1; omega

/-- ... and no two positions hold the same row. -/
theorem interlacedOrder_perm (h : Nat) : (interlacedOrder h).Nodup := by
  have hl := interlacedOrder_length h
  have hmem : ∀ r, r < h → r ∈ interlacedOrder h := fun r hr => List.mem_of_getElem? (interlacedOrder_place h r hr)
  have hsub : List.range h ⊆ interlacedOrder h := fun r hr => hmem r (List.mem_range.1 hr)
  have hp : (List.range h).Perm (interlacedOrder h) := by
    have := List.subperm_of_subset List.nodup_range hsub
    exact this.perm_of_length_le (by rw [hl, List.length_range])
  exact hp.nodup_iff.1 List.nodup_range

/-- Row `i` of the file is row `interlacedOrder h [i]` of the image. -/
theorem place_order (h i r : Nat) (hi : (interlacedOrder h)[i]? = some r) : r < h ∧ place h r = i := by
  have hl := interlacedOrder_length h
  have hil : i < (interlacedOrder h).length := by
    by_contra hc
    rw [List.getElem?_eq_none (by omega)] at hi
    cases hi
  have hr : r < h := by
    have hm := List.mem_of_getElem? hi
    unfold interlacedOrder every at hm
    simp only [List.mem_append, List.mem_map, List.mem_range] at hm
    rcases hm with ((⟨j, h1, h2⟩ | ⟨j, h1, h2⟩) | ⟨j, h1, h2⟩) | ⟨j, h1, h2⟩ <;> omega
  refine ⟨hr, ?_⟩
  have h1 := interlacedOrder_place h r hr
  have hpl := place_lt h r hr
  rw [List.getElem?_eq_getElem hil, Option.some.injEq] at hi
  rw [List.getElem?_eq_getElem (by omega), Option.some.injEq] at h1
  have := interlacedOrder_perm h
  exact this.getElem_inj_iff.1 (h1.trans hi.symm)

/-- What `pick` gives. -/
theorem pick_get (gray : Bool) (map : Cmap) (rows : List (List Nat)) (order : Nat → Nat) :
    ∀ (k i : Nat) (out : List (List Nat)), pick gray map rows order k i = .ok out →
      ∀ j, j < k → ∃ row x, rows[order (i + j)]? = some row ∧ colours gray map row = .ok x ∧ out[j]? = some x := by
  intro k
  induction k with
  | zero => intro i out _ j hj; omega
  | succ k ih =>
    intro i out h j hj
    unfold pick at h
    cases hrow : rows[order i]? with
    | none => rw [hrow] at h; cases h
    | some row =>
      rw [hrow] at h
      simp only [bind, Except.bind, pure, Except.pure] at h
      split at h
      · cases h
      · rename_i x hx
        split at h
        · cases h
        · rename_i l hl
          cases h
          cases j with
          | zero => exact ⟨row, x, hrow, hx, rfl⟩
          | succ j =>
            obtain ⟨r', x', e1, e2, e3⟩ := ih (i + 1) l hl j (by omega)
            exact ⟨r', x', by rw [show i + (j + 1) = i + 1 + j by omega]; exact e1, e2, e3⟩

/-- Row `i` of the data of an accepted file becomes row `i` of the image, or row `interlacedOrder h [i]` if the file says that it is interlaced:
`raw` is the output of the LZW decoder, row by row. -/
theorem load_rows (up maxPixels : Nat) (junk : Nat → Nat) (s : List Nat) (src : Src) (rows : List (List Nat))
    (h : load up maxPixels junk s = .ok (src, rows)) :
    ∃ (raw : List (List Nat)) (st : Lzw), readRows src.w src.h src.lzw = .ok (raw, st) ∧
      ∀ i r : Nat, (if src.interlaced then interlacedOrder src.h else List.range src.h)[i]? = some r →
        ∃ (row x : List Nat), raw[i]? = some row ∧ colours src.gray src.map row = .ok x ∧ rows[r]? = some x := by
  unfold load at h
  simp only [bind, Except.bind, pure, Except.pure] at h
  split at h
  · cases h
  · split at h
    · cases h
    · rename_i src' hsrc _ raw hraw
      obtain ⟨raw, st⟩ := raw
      simp only [] at h
      split at h
      · cases h
      · rename_i out hout
        cases h
        refine ⟨raw, st, hraw, ?_⟩
        intro i r hi
        have hg := pick_get _ _ _ _ _ _ _ hout
        cases hint : src.interlaced with
        | true =>
          rw [hint] at hi hg
          simp only [if_true] at hi hg
          obtain ⟨hr, hp⟩ := place_order _ _ _ hi
          obtain ⟨row, x, e1, e2, e3⟩ := hg r hr
          rw [Nat.zero_add, hp] at e1
          exact ⟨row, x, e1, e2, e3⟩
        | false =>
          rw [hint] at hi hg
          simp only [Bool.false_eq_true, if_false] at hi hg
          have hil : i < src.h := by
            by_contra hc
            rw [List.getElem?_eq_none (by simp; omega)] at hi
            cases hi
          rw [List.getElem?_range hil] at hi
          cases hi
          obtain ⟨row, x, e1, e2, e3⟩ := hg i hil
          rw [Nat.zero_add] at e1
          exact ⟨row, x, e1, e2, e3⟩

end Verif.Gif
