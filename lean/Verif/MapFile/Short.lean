import Verif.MapFile.Props
/-
Text files that end too early: every number that `djpeg -map` reads takes at least one digit of the file.
-/
namespace Verif.MapFile

open Ppm

theorem getc_count {s s' : List Nat} {c : Option Nat} (h : pbmGetc s = (c, s')) :
    s'.countP isDigit ≤ s.countP isDigit ∧ ∀ d, c = some d → isDigit d = true → s'.countP isDigit + 1 ≤ s.countP isDigit := by
  cases s with
  | nil => simp only [pbmGetc, Prod.mk.injEq] at h; rw [← h.1, ← h.2]; simp
  | cons a s =>
    simp only [pbmGetc] at h
    split at h
    · rename_i ha
      have hl := (List.dropWhile_sublist (· ≠ 10) (l := s)).countP_le (p := isDigit)
      have h0 : isDigit a = false := by rw [ha]; decide
      rw [List.countP_cons_of_neg (by simp [h0])]
      split at h
      · simp only [Prod.mk.injEq] at h
        rw [← h.1, ← h.2]
        simp
      · rename_i b t e
        simp only [Prod.mk.injEq] at h
        rw [← h.1, ← h.2]
        rw [e, List.countP_cons] at hl
        refine ⟨by omega, fun d hd hdd => ?_⟩
        simp only [Option.some.injEq] at hd
        rw [← hd] at hdd
        exact absurd hdd (by decide)
    · simp only [Prod.mk.injEq] at h
      rw [← h.1, ← h.2, List.countP_cons]
      refine ⟨by omega, fun d hd hdd => ?_⟩
      simp only [Option.some.injEq] at hd
      rw [hd, if_pos hdd]

theorem skipWs_count : ∀ (n : Nat) (s : List Nat), s.length ≤ n →
    Safe (fun r => isDigit r.1 = true → r.2.countP isDigit + 1 ≤ s.countP isDigit) (skipWs s) := by
  intro n
  induction n with
  | zero =>
    intro s h
    have : s = [] := List.length_eq_zero_iff.1 (by omega)
    subst this
    unfold skipWs
    split
    · trivial
    · rename_i c s' e; simp [pbmGetc] at e
  | succ n ih =>
    intro s h
    unfold skipWs
    split
    · trivial
    · rename_i c s' e
      have := pbmGetc_lt e
      have hc := getc_count e
      split
      · exact (ih s' (by omega)).mono (fun a ha hd => Nat.le_trans (ha hd) hc.1)
      · exact hc.2 c rfl

theorem digits_count : ∀ (n maxval v : Nat) (s : List Nat), s.length ≤ n →
    Safe (fun r => r.2.countP isDigit ≤ s.countP isDigit) (digits maxval v s) := by
  intro n
  induction n with
  | zero =>
    intro maxval v s h
    have : s = [] := List.length_eq_zero_iff.1 (by omega)
    subst this
    unfold digits
    split
    · rename_i s' e
      exact (getc_count e).1
    · rename_i c s' e; simp [pbmGetc] at e
  | succ n ih =>
    intro maxval v s h
    unfold digits
    split
    · rename_i s' e
      exact (getc_count e).1
    · rename_i c s' e
      have := pbmGetc_lt e
      split
      · simp only []
        split
        · trivial
        · exact (ih maxval _ s' (by omega)).mono (fun a ha => Nat.le_trans ha (getc_count e).1)
      · exact (getc_count e).1

theorem int_count (s : List Nat) : Safe (fun r => r.2.countP isDigit + 1 ≤ s.countP isDigit) (int s) := by
  unfold int readInt
  refine (skipWs_count _ s (le_refl _)).bind ?_
  rintro ⟨c, s'⟩ hsub
  simp only [] at hsub ⊢
  split
  · rename_i h
    have := hsub h
    exact (digits_count _ _ (c - 48) s' (le_refl _)).mono (fun a ha => by omega)
  · trivial

theorem text3_count (s : List Nat) : Safe (fun r => r.2.countP isDigit + 3 ≤ s.countP isDigit) (text3 s) := by
  unfold text3
  refine (int_count s).bind fun r hr => ?_
  refine (int_count _).bind fun g hg => ?_
  refine (int_count _).bind fun b hb => ?_
  simp only [Safe]
  omega

theorem add_fault (sh : Nat) (m : List Col) (c : Col) : add sh m c ≠ .error .fault := by
  unfold add room
  split
  · simp
  · split
    · simp
    · rw [if_pos (by omega)]; simp

theorem loop_text_short (sh : Nat) (scale : Col → Col) : ∀ (n : Nat) (s : List Nat) (m : List Col), s.countP isDigit < 3 * n →
    loop sh text3 scale n s m = .error .exit
  | 0, _, _, h => by omega
  | n + 1, s, m, h => by
    unfold loop
    have ht := text3_count s
    cases e : text3 s with
    | error e' =>
      cases e' with
      | exit => rfl
      | fault => rw [e] at ht; exact absurd ht (by simp [Safe])
    | ok r =>
      rw [e] at ht
      simp only [Safe] at ht
      simp only [bind, Except.bind]
      cases ea : add sh m (scale r.1) with
      | error e' =>
        cases e' with
        | exit => rfl
        | fault => exact absurd ea (add_fault _ _ _)
      | ok m' => exact loop_text_short sh scale n r.2 m' (by omega)

/-- A text PPM file in which fewer numbers follow than the image has samples is refused: it is enough that there are fewer digits. -/
theorem text_truncated {sh w h : Nat} {hd : List Nat} (hb : sh ≤ 8) (hH : Header 51 w h (2 ^ (8 + sh) - 1) hd)
    (hw : 0 < w ∧ w < 2 ^ 32) (hh : 0 < h ∧ h < 2 ^ 32) (s : List Nat) (hs : s.countP isDigit < 3 * (w * h)) :
    read sh (hd ++ s) = .error .exit := by
  rw [ppm_start s hH hw hh hb, if_pos rfl, Nat.mul_comm]
  exact loop_text_short sh _ _ s [] hs

example : [49, 32, 50, 10].countP isDigit < 3 * (2 * 2) ∧ Header 51 2 2 (2 ^ (8 + 0) - 1) [80, 51, 10, 50, 32, 50, 10, 50, 53, 53, 10] :=
  ⟨by decide, header_example 51⟩

theorem add_mem {sh : Nat} {m m' : List Col} {c : Col} (hs : ∀ c ∈ m, Small (2 ^ (8 + sh)) c) (h : add sh m c = .ok m') :
    (∀ x, x ∈ m' ↔ x ∈ m ∨ x = trunc sh c) ∧ ∀ x ∈ m', Small (2 ^ (8 + sh)) x := by
  unfold add at h
  split at h
  · rename_i ha
    have hc := (any_mem m c).1 ha
    simp only [Except.ok.injEq] at h
    rw [← h, trunc_small (hs c hc)]
    refine ⟨fun x => ⟨Or.inl, ?_⟩, hs⟩
    rintro (h | rfl)
    · exact h
    · exact hc
  · split at h
    · simp at h
    · split at h
      · simp only [Except.ok.injEq] at h
        rw [← h]
        refine ⟨fun x => by simp, fun x hx => ?_⟩
        rcases List.mem_append.1 hx with h | h
        · exact hs x h
        · rw [List.mem_singleton.1 h]
          exact ⟨Nat.mod_lt _ (by positivity), Nat.mod_lt _ (by positivity), Nat.mod_lt _ (by positivity)⟩
      · simp at h

theorem adds_mem (sh : Nat) : ∀ (l m m' : List Col), (∀ c ∈ m, Small (2 ^ (8 + sh)) c) → adds sh l m = .ok m' →
    ∀ x, x ∈ m' ↔ x ∈ m ∨ ∃ c ∈ l, x = trunc sh c
  | [], m, m', _, h, x => by
    simp only [adds, Except.ok.injEq] at h
    rw [h]; simp
  | c :: l, m, m', hs, h, x => by
    simp only [adds, bind, Except.bind] at h
    split at h
    · simp at h
    · rename_i m1 e
      obtain ⟨h1, h2⟩ := add_mem hs e
      rw [adds_mem sh l m1 m' h2 h x, h1 x]
      simp only [List.mem_cons, exists_eq_or_imp, or_assoc]

/-- Samples of a text file that exceed the maximum are taken modulo 2^bits: the colours of an accepted map are those of the file, reduced. -/
theorem text_range {sh w h : Nat} {hd : List Nat} (hb : sh ≤ 8) (hH : Header 51 w h (2 ^ (8 + sh) - 1) hd)
    (hw : 0 < w ∧ w < 2 ^ 32) (hh : 0 < h ∧ h < 2 ^ 32) (cs : List Col) (s : List Nat) (hl : cs.length = w * h)
    (hs : ∀ c ∈ cs, Small (2 ^ 32) c) (ht : Text (flat cs) s) (m : List Col) (hm : read sh (hd ++ s) = .ok m) (x : Col) :
    x ∈ m ↔ ∃ c ∈ cs, x = (c.1 % 2 ^ (8 + sh), c.2.1 % 2 ^ (8 + sh), c.2.2 % 2 ^ (8 + sh)) := by
  rw [ppm_start s hH hw hh hb, if_pos rfl, Nat.mul_comm, ← hl, loop_text sh cs [] s ht hs] at hm
  rw [adds_mem sh cs [] m (by simp) hm x]
  simp [trunc]

/-- A file that is accepted begins with `GIF` and announces a global colour map, or with `P3` or `P6`. -/
theorem read_kind (sh : Nat) (s : List Nat) (m : List Col) (h : read sh s = .ok m) :
    s.take 3 = [71, 73, 70] ∧ (∃ f, s[10]? = some f ∧ f &&& 128 ≠ 0) ∨ s.take 2 = [80, 51] ∨ s.take 2 = [80, 54] := by
  unfold read at h
  split at h
  · unfold gifMap at h
    split at h
    · rename_i h1 h2 _ _ _ _ _ _ _ h10 _ _ _
      split at h
      · simp at h
      · rename_i hg
        split at h
        · simp at h
        · rename_i hf
          obtain ⟨rfl, rfl⟩ : h1 = 73 ∧ h2 = 70 := by omega
          exact Or.inl ⟨rfl, h10, rfl, hf⟩
    · simp at h
  · unfold ppmMap at h
    split at h
    · simp at h
    · rename_i c s
      simp only [bind, Except.bind] at h
      split at h
      · simp at h
      · split at h
        · simp at h
        · split at h
          · simp at h
          · split at h
            · simp at h
            · split at h
              · simp at h
              · split at h
                · rename_i hc; subst hc; exact Or.inr (Or.inl rfl)
                · split at h
                  · rename_i hc; subst hc; exact Or.inr (Or.inr rfl)
                  · simp at h
  · simp at h

/-- A PPM file without pixels, or with another maximum than that of the sample size, is refused. -/
theorem ppm_max_refused {sh c w h m : Nat} {hd : List Nat} (hH : Header c w h m hd) (hw : w < 2 ^ 32) (hh : h < 2 ^ 32) (hm : m < 2 ^ 32)
    (hr : w = 0 ∨ h = 0 ∨ m ≠ 2 ^ (8 + sh) - 1) (t : List Nat) : read sh (hd ++ t) = .error .exit := by
  cases hH with
  | mk a1 a2 a3 ws h1 h2 h3 n2 n3 hws =>
    obtain ⟨b2, g2, e1⟩ := readInt_one (s := dec h ++ (a3 ++ (dec m ++ ([ws] ++ t)))) (maxval := 2 ^ 32 - 1) (n := w) h1 h2 n2 (by omega) (by decide)
    obtain ⟨b3, g3, e2⟩ := readInt_one (s := dec m ++ ([ws] ++ t)) (maxval := 2 ^ 32 - 1) (n := h) g2 h3 n3 (by omega) (by decide)
    have e3 : readInt (2 ^ 32 - 1) (b3 ++ (dec m ++ ([ws] ++ t))) = .ok (m, t) := by
      rw [readInt_sep _ _ _ g3, readInt_digits (2 ^ 32 - 1) (by decide) m _ (by omega)]
      exact digits_stop (pbmGetc_ws ws t (isWs_ne hws).1) (isWs_ne hws).2
    have el : [80, c] ++ a1 ++ dec w ++ a2 ++ dec h ++ a3 ++ dec m ++ [ws] ++ t =
        80 :: c :: (a1 ++ (dec w ++ (a2 ++ (dec h ++ (a3 ++ (dec m ++ ([ws] ++ t))))))) := by simp
    rw [el]
    simp only [read, ppmMap, int, e1, e2, e3, bind, Except.bind]
    by_cases h0 : w = 0 ∨ h = 0 ∨ m = 0
    · rw [if_pos h0]
    · rw [if_neg h0, if_pos (by omega)]

end Verif.MapFile
