import Verif.Ppm.Rows
/-
What the PPM reader makes of a well-formed file: header and data.
-/
namespace Verif.Ppm

/-- A well-formed header: `P`, the format character, width, height and maximum in decimal with whitespace or comments between them, and a
single whitespace character. -/
inductive Header (c w h m : Nat) : List Nat → Prop
  | mk (a1 a2 a3 : List Nat) (ws : Nat) : Sep a1 → Sep a2 → Sep a3 → a2 ≠ [] → a3 ≠ [] → isWs ws = true →
      Header c w h m ([80, c] ++ a1 ++ dec w ++ a2 ++ dec h ++ a3 ++ dec m ++ [ws])

theorem Sep.peel {a : List Nat} (h : Sep a) (hne : a ≠ []) : ∃ c a', Sep a' ∧ isDigit c = false ∧ ∀ s, pbmGetc (a ++ s) = (some c, a' ++ s) := by
  cases h with
  | nil => exact absurd rfl hne
  | ws c t hc ht => exact ⟨c, t, ht, (isWs_ne hc).2, fun s => pbmGetc_ws c _ (isWs_ne hc).1⟩
  | comment t u ht hu =>
    refine ⟨10, u, hu, by decide, fun s => ?_⟩
    have e : 35 :: (t ++ 10 :: u) ++ s = 35 :: (t ++ 10 :: (u ++ s)) := by simp
    rw [e]
    exact pbmGetc_comment t _ ht

theorem readInt_one {a b s : List Nat} {n maxval : Nat} (ha : Sep a) (hb : Sep b) (hne : b ≠ []) (hn : n ≤ maxval) (h32 : maxval < 2 ^ 32) :
    ∃ b', Sep b' ∧ readInt maxval (a ++ (dec n ++ (b ++ s))) = .ok (n, b' ++ s) := by
  obtain ⟨c, b', hb', hc, e⟩ := hb.peel hne
  refine ⟨b', hb', ?_⟩
  rw [readInt_sep _ _ _ ha, readInt_digits maxval h32 n _ hn]
  exact digits_stop (e s) hc

/-- Colour space of the output: what was asked for, or the default. -/
def space (color : Bool) (cs : Nat) : Nat := if color then (if cs = 0 then 6 else cs) else if cs = 0 ∨ cs = 2 then 1 else cs

/-- The colour spaces a file can be read into: RGB layouts and CMYK, and gray for a gray file. -/
def Supported (color : Bool) (cs : Nat) : Prop := isExt (space color cs) = true ∨ space color cs = 4 ∨ color = false ∧ space color cs = 1

/-- Samples per pixel of the output. -/
def width (cs : Nat) : Nat := if cs = 1 then 1 else if cs = 4 then 4 else pSize cs

/-- How samples are encoded. -/
def kindOf (text : Bool) (m : Nat) : Kind := if text then .text else if m > 255 then .word else .byte

theorem target_eq (color : Bool) (cs : Nat) (h : Supported color cs) : ∃ sink, target color cs = .ok (space color cs, width (space color cs), sink) ∧
    SinkOk sink (space color cs) (width (space color cs)) ∧ sink.samples = (if color then 3 else 1) ∧
    (color = true → space color cs = 6 ∨ space color cs = 2 → sink = .rgb) ∧ (color = false → space color cs = 1 → sink = .gray) := by
  unfold Supported at h
  cases color with
  | true =>
    simp only [space, if_true] at h ⊢
    unfold target
    simp only [if_true]
    generalize (if cs = 0 then 6 else cs) = c at h ⊢
    by_cases he : isExt c = true
    · obtain ⟨-, -, -, n1, n4, -⟩ := distinct c he
      have hw : width c = pSize c := by unfold width; rw [if_neg n1, if_neg n4]
      rw [if_pos he, hw]
      exact ⟨.rgb, rfl, ⟨he, rfl⟩, rfl, fun _ _ => rfl, by simp⟩
    · rw [if_neg he]
      have h4 : c = 4 := by
        rcases h with h | h | ⟨h, -⟩
        · exact absurd h he
        · exact h
        · exact absurd h (by decide)
      subst h4
      exact ⟨.rgbCmyk, rfl, ⟨rfl, rfl⟩, rfl, by simp, by simp⟩
  | false =>
    simp only [space, Bool.false_eq_true, if_false] at h ⊢
    unfold target
    simp only [Bool.false_eq_true, if_false]
    generalize (if cs = 0 ∨ cs = 2 then 1 else cs) = c at h ⊢
    by_cases h1 : c = 1
    · subst h1
      exact ⟨.gray, rfl, ⟨rfl, rfl⟩, rfl, by simp, by simp⟩
    · rw [if_neg h1]
      by_cases he : isExt c = true
      · obtain ⟨-, -, -, n1, n4, -⟩ := distinct c he
        have hw : width c = pSize c := by unfold width; rw [if_neg n1, if_neg n4]
        rw [if_pos he, hw]
        exact ⟨.grayRgb, rfl, ⟨he, rfl⟩, rfl, by simp, fun _ h => absurd h h1⟩
      · rw [if_neg he]
        have h4 : c = 4 := by
          rcases h with h | h | ⟨-, h⟩
          · exact absurd h he
          · exact h
          · exact absurd h h1
        subst h4
        exact ⟨.grayCmyk, rfl, ⟨rfl, rfl⟩, rfl, by simp, by simp⟩

theorem start_read {mx maxPixels cs c w h m : Nat} {color text : Bool} {hd s : List Nat} (hH : Header c w h m hd)
    (hc : format c = some (color, text)) (hw : 0 < w ∧ w ≤ 65535) (hh : 0 < h ∧ h ≤ 65535) (hm : 0 < m ∧ m ≤ 65535)
    (hp : maxPixels = 0 ∨ w * h ≤ maxPixels) (hs : Supported color cs) :
    ∃ src, start mx maxPixels cs (hd ++ s) = .ok (src, s) ∧ Ready mx src ∧ src.w = w ∧ src.h = h ∧ src.maxval = m ∧ src.cs = space color cs ∧
      src.nc = width (space color cs) ∧ src.kind = kindOf text m ∧ src.sink.samples = (if color then 3 else 1) := by
  cases hH with
  | mk a1 a2 a3 ws h1 h2 h3 n2 n3 hws =>
    have hsw : Sep [ws] := .ws ws [] hws .nil
    obtain ⟨b2, g2, e1⟩ := readInt_one (s := dec h ++ (a3 ++ (dec m ++ ([ws] ++ s)))) (maxval := 65535) h1 h2 n2 hw.2 (by decide)
    obtain ⟨b3, g3, e2⟩ := readInt_one (s := dec m ++ ([ws] ++ s)) (maxval := 65535) g2 h3 n3 hh.2 (by decide)
    have e3 : readInt 65535 (b3 ++ (dec m ++ ([ws] ++ s))) = .ok (m, s) := by
      rw [readInt_sep _ _ _ g3, readInt_digits 65535 (by decide) m _ hm.2]
      exact digits_stop (pbmGetc_ws ws s (isWs_ne hws).1) (isWs_ne hws).2
    obtain ⟨sink, et, t1, t2, t3, t4⟩ := target_eq color cs hs
    have el : [80, c] ++ a1 ++ dec w ++ a2 ++ dec h ++ a3 ++ dec m ++ [ws] ++ s =
        80 :: c :: (a1 ++ (dec w ++ (a2 ++ (dec h ++ (a3 ++ (dec m ++ ([ws] ++ s))))))) := by simp
    rw [el]
    unfold start
    simp only [hc, e1, e2, e3, et, bind, Except.bind]
    rw [if_neg (by omega), if_neg (by omega)]
    refine ⟨_, rfl, ?_, rfl, rfl, rfl, rfl, rfl, ?_, t2⟩
    · refine ⟨⟨by simp only []; omega, by simp only []; omega⟩, t1, ?_, ?_, ?_⟩
      · simp only [Bool.and_eq_true, decide_eq_true_eq]
        exact fun h => h.1.1
      · simp only [t2]
        intro hk
        cases text
        · by_cases h255 : m > 255 <;> simp [h255, Kind.size]
        · simp at hk
      · simp only [Bool.and_eq_true, Bool.not_eq_true', decide_eq_true_eq, decide_eq_false_iff_not]
        rintro ⟨⟨⟨⟨ht, hw⟩, hmm⟩, hmx⟩, hcc⟩
        refine ⟨hmx, by rw [hmm, hmx], ?_, ?_⟩
        · rw [ht, if_neg (by decide), if_neg hw]
        · cases color
          · simp only [Bool.false_eq_true, if_false, decide_eq_true_eq] at hcc
            exact Or.inl ⟨t4 rfl hcc, hcc⟩
          · simp only [if_true, decide_eq_true_eq] at hcc
            exact Or.inr ⟨t3 rfl hcc, hcc.symm⟩
    · unfold kindOf
      by_cases h255 : m > 255 <;> simp [h255]

end Verif.Ppm
