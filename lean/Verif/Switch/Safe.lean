import Verif.Switch.Model
import Verif.Ppm.Safe
/-
Scan scripts and quantization table files: any bytes are read safely, unless a number has more than 18 digits.
-/
namespace Verif.Switch

open Ppm

/-- No number has more than 18 digits. -/
def NoLong (s : List Nat) : Prop := ∀ t ds u, s = t ++ ds ++ u → (∀ d ∈ ds, isDigit d = true) → ds.length ≤ 18

theorem NoLong.suffix {s s' : List Nat} (h : NoLong s) (hs : s' <:+ s) : NoLong s' := by
  obtain ⟨p, rfl⟩ := hs
  intro t ds u e hd
  exact h (p ++ t) ds u (by rw [e]; simp) hd

theorem getc_suffix {s s' : List Nat} {c : Option Nat} (h : pbmGetc s = (c, s')) :
    s' <:+ s ∧ ∀ d, c = some d → isDigit d = true → s = d :: s' := by
  cases s with
  | nil => simp only [pbmGetc, Prod.mk.injEq] at h; rw [← h.1, ← h.2]; simp
  | cons a s =>
    simp only [pbmGetc] at h
    split at h
    · have hl := List.dropWhile_suffix (· ≠ 10) (l := s)
      split at h
      · simp only [Prod.mk.injEq] at h
        rw [← h.1, ← h.2]; simp
      · rename_i b t e
        simp only [Prod.mk.injEq] at h
        rw [← h.1, ← h.2]
        rw [e] at hl
        refine ⟨((List.suffix_cons b t).trans hl).trans (List.suffix_cons a s), fun d hd hdd => ?_⟩
        simp only [Option.some.injEq] at hd
        rw [← hd] at hdd
        exact absurd hdd (by decide)
    · simp only [Prod.mk.injEq] at h
      rw [← h.1, ← h.2]
      refine ⟨List.suffix_cons a s, fun d hd _ => ?_⟩
      simp only [Option.some.injEq] at hd
      rw [hd]

theorem skip_suffix : ∀ (n : Nat) (s : List Nat), s.length ≤ n →
    (skip s).2 <:+ s ∧ ∀ d, (skip s).1 = some d → isDigit d = true → d :: (skip s).2 <:+ s := by
  intro n
  induction n with
  | zero =>
    intro s h
    have : s = [] := List.length_eq_zero_iff.1 (by omega)
    subst this
    unfold skip
    split
    · rename_i s' e
      exact ⟨(getc_suffix e).1, by simp⟩
    · rename_i c s' e; simp [pbmGetc] at e
  | succ n ih =>
    intro s h
    unfold skip
    split
    · rename_i s' e
      exact ⟨(getc_suffix e).1, by simp⟩
    · rename_i c s' e
      have := pbmGetc_lt e
      have hg := getc_suffix e
      split
      · have h1 := ih s' (by omega)
        exact ⟨h1.1.trans hg.1, fun d hd hdd => (h1.2 d hd hdd).trans hg.1⟩
      · refine ⟨hg.1, fun d hd hdd => ?_⟩
        simp only [Option.some.injEq] at hd
        have e2 := hg.2 d (by rw [hd]) hdd
        exact ⟨[], e2.symm⟩

/-- The digits read so far are `ds`; what is left is a suffix, and begins the file again if the character after the number is put back. -/
theorem num_safe {s0 : List Nat} (h0 : NoLong s0) : ∀ (n v : Nat) (s ds : List Nat), s.length ≤ n → v < 10 ^ ds.length → (∀ d ∈ ds, isDigit d = true) →
    ds ++ s <:+ s0 → Safe (fun r => r.2.2 <:+ s ∧ ∀ d, r.2.1 = some d → isDigit d = false) (num v s) := by
  intro n
  induction n with
  | zero =>
    intro v s ds h hv hd hs
    have : s = [] := List.length_eq_zero_iff.1 (by omega)
    subst this
    unfold num
    split
    · rename_i s' e
      exact ⟨(getc_suffix e).1, by simp⟩
    · rename_i c s' e; simp [pbmGetc] at e
  | succ n ih =>
    intro v s ds h hv hd hs
    unfold num
    split
    · rename_i s' e
      exact ⟨(getc_suffix e).1, by simp⟩
    · rename_i c s' e
      have := pbmGetc_lt e
      have hg := getc_suffix e
      split
      · rename_i hc
        have es := hg.2 c rfl hc
        obtain ⟨p, hp⟩ := hs
        have hd' : ∀ d ∈ ds ++ [c], isDigit d = true := by
          intro d hm
          rcases List.mem_append.1 hm with hm | hm
          · exact hd d hm
          · rw [List.mem_singleton.1 hm]; exact hc
        have e0 : s0 = p ++ (ds ++ [c]) ++ s' := by rw [← hp, es]; simp
        have hl := h0 p (ds ++ [c]) s' e0 hd'
        have hv' : v * 10 + (c - 48) < 10 ^ (ds ++ [c]).length := by
          rw [List.length_append, List.length_singleton, Nat.pow_succ]
          simp only [isDigit, Bool.and_eq_true, decide_eq_true_eq] at hc
          omega
        have hp18 : 10 ^ (ds ++ [c]).length ≤ 10 ^ 18 := Nat.pow_le_pow_right (by decide) hl
        rw [if_neg (by omega)]
        refine (ih _ s' (ds ++ [c]) (by omega) hv' hd' ⟨p, by rw [e0]; simp⟩).mono fun a ha => ?_
        exact ⟨ha.1.trans hg.1, ha.2⟩
      · rename_i hc
        exact ⟨hg.1, fun d hdd => by simp only [Option.some.injEq] at hdd; rw [← hdd]; simpa using hc⟩

/-- What is left after an item. -/
def Left (s : List Nat) : Tok → Prop
  | .num _ _ s' => s' <:+ s
  | .stop _ => True

theorem textInt_safe {s : List Nat} (h0 : NoLong s) : Safe (Left s) (textInt s) := by
  unfold textInt
  have hk := skip_suffix _ s (le_refl _)
  split
  · trivial
  · rename_i c s' e
    rw [e] at hk
    split
    · rename_i hc
      have h1 := hk.2 c rfl hc
      refine (num_safe h0 _ (c - 48) s' [c] (le_refl _) ?_ (by simpa using hc) h1).bind fun r hr => ?_
      · simp only [isDigit, Bool.and_eq_true, decide_eq_true_eq] at hc
        simp only [List.length_singleton]; omega
      · exact hr.1.trans hk.1
    · trivial

/-- The character put back is one of the file: `t` is no digit. -/
theorem after_suffix (t : Option Nat) (s : List Nat) (ht : ∀ d, t = some d → isDigit d = false) : (after t s).2 <:+ s := by
  unfold after
  have hk := skip_suffix _ s (le_refl _)
  cases t with
  | none => simp
  | some c =>
    have hc := ht c rfl
    by_cases hs : isSpace c = true
    · simp only [hs, if_true]
      split
      · exact hk.1
      · rename_i d e
        split
        · rename_i hd; exact hk.2 d e hd
        · split <;> exact hk.1
    · simp only [hs, Bool.false_eq_true, if_false, hc]
      split <;> simp

theorem scanInt_safe {s : List Nat} (h0 : NoLong s) : Safe (Left s) (scanInt s) := by
  have key : Safe (fun r => Left s r ∧ ∀ v t s', r = .num v t s' → ∀ d, t = some d → isDigit d = false) (textInt s) := by
    unfold textInt
    have hk := skip_suffix _ s (le_refl _)
    split
    · exact ⟨trivial, by simp⟩
    · rename_i c s' e
      rw [e] at hk
      split
      · rename_i hc
        have h1 := hk.2 c rfl hc
        refine (num_safe h0 _ (c - 48) s' [c] (le_refl _) ?_ (by simpa using hc) h1).bind fun r hr => ?_
        · simp only [isDigit, Bool.and_eq_true, decide_eq_true_eq] at hc
          simp only [List.length_singleton]; omega
        · refine ⟨hr.1.trans hk.1, fun v t s'' e => ?_⟩
          simp only [Tok.num.injEq] at e
          rw [← e.2.1]
          exact hr.2
      · exact ⟨trivial, by simp⟩
  unfold scanInt
  refine key.bind fun r hr => ?_
  cases r with
  | stop t => trivial
  | num v t s' => exact (after_suffix t s' (hr.2 v t s' rfl)).trans hr.1

theorem more_safe : ∀ (k : Nat) (t : Option Nat) (s : List Nat) (acc : List Int), NoLong s → 0 < acc.length → acc.length ≤ 4 → 4 < k + acc.length →
    Safe (fun r => r.2.1 <:+ s ∧ 0 < r.2.2.length ∧ r.2.2.length ≤ 4) (more k t s acc)
  | k, t, s, acc, h0, h1, h4, hk => by
    unfold more
    split
    · exact ⟨List.suffix_refl _, h1, h4⟩
    · split
      · trivial
      · rename_i hl
        cases k with
        | zero => omega
        | succ k =>
          refine (scanInt_safe h0).bind fun r hr => ?_
          cases r with
          | stop t => trivial
          | num v t' s' =>
            simp only [if_pos (show acc.length < 4 by omega)]
            have hr' : s' <:+ s := hr
            refine (more_safe k t' s' (acc ++ [cast v]) (h0.suffix hr') (by simp) (by simp; omega) (by simp; omega)).mono fun a ha => ?_
            exact ⟨ha.1.trans hr', ha.2⟩

theorem param_safe {s : List Nat} (h0 : NoLong s) : Safe (fun r => r.2 <:+ s) (param s) := by
  unfold param
  refine (scanInt_safe h0).bind fun r hr => ?_
  cases r with
  | stop t => trivial
  | num v t s' =>
    simp only []
    split
    · trivial
    · exact hr

theorem params_safe {s : List Nat} (t : Option Nat) (h0 : NoLong s) : Safe (fun r => r.2.2.2.2.2 <:+ s) (params t s) := by
  unfold params
  split
  · refine (param_safe h0).bind fun r1 h1 => ?_
    refine (param_safe (h0.suffix h1)).bind fun r2 h2 => ?_
    have h12 := h2.trans h1
    refine (param_safe (h0.suffix h12)).bind fun r3 h3 => ?_
    have h123 := h3.trans h12
    refine (scanInt_safe (h0.suffix h123)).bind fun r hr => ?_
    cases r with
    | stop t => trivial
    | num v t s' => exact List.IsSuffix.trans hr h123
  · exact List.suffix_refl _

theorem scans_safe : ∀ (k : Nat) (s : List Nat) (acc : List Scan), NoLong s → k + acc.length = 64 → (∀ x ∈ acc, 0 < x.comps.length ∧ x.comps.length ≤ 4) →
    Safe (fun l => l.length ≤ 64 ∧ ∀ x ∈ l, 0 < x.comps.length ∧ x.comps.length ≤ 4) (scans k s acc)
  | k, s, acc, h0, hk, ha => by
    unfold scans
    refine (scanInt_safe h0).bind fun r hr => ?_
    cases r with
    | stop t =>
      simp only []
      split
      · trivial
      · exact ⟨by omega, ha⟩
    | num v t s1 =>
      have h1 : s1 <:+ s := hr
      cases k with
      | zero => trivial
      | succ k =>
        refine (more_safe 4 t s1 [cast v] (h0.suffix h1) (by simp) (by simp) (by simp)).bind fun r2 h2 => ?_
        have h12 := h2.1.trans h1
        refine (params_safe r2.1 (h0.suffix h12)).bind fun r3 h3 => ?_
        have h123 := h3.trans h12
        simp only []
        split
        · trivial
        · refine scans_safe k _ _ (h0.suffix h123) (by simp only [List.length_append, List.length_singleton]; omega) fun x hx => ?_
          rcases List.mem_append.1 hx with h | h
          · exact ha x h
          · rw [List.mem_singleton.1 h]; exact h2.2

theorem elems_safe : ∀ (n : Nat) (s acc : List Nat), NoLong s → (∀ v ∈ acc, v < 2 ^ 32) →
    Safe (fun r => r.1.length = acc.length + n ∧ (∀ v ∈ r.1, v < 2 ^ 32) ∧ r.2 <:+ s) (elems n s acc)
  | 0, s, acc, _, ha => ⟨rfl, ha, List.suffix_refl _⟩
  | n + 1, s, acc, h0, ha => by
    unfold elems
    refine (textInt_safe h0).bind fun r hr => ?_
    cases r with
    | stop t => trivial
    | num v t s1 =>
      have h1 : s1 <:+ s := hr
      refine (elems_safe n s1 (acc ++ [v % 2 ^ 32]) (h0.suffix h1) fun x hx => ?_).mono fun a h => ⟨?_, h.2.1, h.2.2.trans h1⟩
      · rcases List.mem_append.1 hx with h | h
        · exact ha x h
        · rw [List.mem_singleton.1 h]; exact Nat.mod_lt _ (by decide)
      · have := h.1
        simp only [List.length_append, List.length_singleton] at this
        omega

theorem tables_safe : ∀ (k : Nat) (s : List Nat) (acc : List (List Nat)), NoLong s → k + acc.length = 4 →
    (∀ x ∈ acc, x.length = 64 ∧ ∀ v ∈ x, v < 2 ^ 32) →
    Safe (fun l => l.length ≤ 4 ∧ ∀ x ∈ l, x.length = 64 ∧ ∀ v ∈ x, v < 2 ^ 32) (tables k s acc)
  | k, s, acc, h0, hk, ha => by
    unfold tables
    refine (textInt_safe h0).bind fun r hr => ?_
    cases r with
    | stop t =>
      simp only []
      split
      · trivial
      · exact ⟨by omega, ha⟩
    | num v t s1 =>
      have h1 : s1 <:+ s := hr
      cases k with
      | zero => trivial
      | succ k =>
        refine (elems_safe 63 s1 [v % 2 ^ 32] (h0.suffix h1) (by simp; omega)).bind fun r2 h2 => ?_
        refine tables_safe k _ _ (h0.suffix (h2.2.2.trans h1)) (by simp only [List.length_append, List.length_singleton]; omega) fun x hx => ?_
        rcases List.mem_append.1 hx with h | h
        · exact ha x h
        · rw [List.mem_singleton.1 h]; exact ⟨by simpa using h2.1, h2.2.1⟩

/-- Whatever the bytes, reading them as a scan script touches nothing outside the arrays, and an accepted script has at most 64 scans of one to four
components each, provided no number has more than 18 digits. -/
theorem script_safe (s : List Nat) (h : NoLong s) : readScript s ≠ .error .fault ∧
    ∀ l, readScript s = .ok l → l.length ≤ 64 ∧ ∀ x ∈ l, 0 < x.comps.length ∧ x.comps.length ≤ 4 := by
  have key := scans_safe 64 s [] h rfl (by simp)
  refine ⟨key.not_fault, fun l e => ?_⟩
  unfold readScript at e
  rw [e] at key
  exact key

/-- The same for a file of quantization tables: at most four tables of 64 elements. -/
theorem tables_file_safe (s : List Nat) (h : NoLong s) : readTables s ≠ .error .fault ∧
    ∀ l, readTables s = .ok l → l.length ≤ 4 ∧ ∀ x ∈ l, x.length = 64 ∧ ∀ v ∈ x, v < 2 ^ 32 := by
  have key := tables_safe 4 s [] h rfl (by simp)
  refine ⟨key.not_fault, fun l e => ?_⟩
  unfold readTables at e
  rw [e] at key
  exact key

/-! ## Example -/

theorem NoLong.of_short {s : List Nat} (h : s.length ≤ 18) : NoLong s := by
  intro t ds u e _
  rw [e] at h
  simp only [List.length_append] at h
  omega

theorem NoLong.append {a b : List Nat} {c : Nat} (ha : NoLong a) (hb : NoLong b) (hc : isDigit c = false) : NoLong (a ++ c :: b) := by
  intro t ds u e hd
  have hcd : c ∉ ds := fun h => by rw [hd c h] at hc; exact absurd hc (by decide)
  rcases List.append_eq_append_iff.1 e.symm with ⟨r, h1, h2⟩ | ⟨r, h1, h2⟩
  · exact ha t ds r h1 hd
  · cases r with
    | nil => exact ha t ds [] (by rw [List.append_nil] at h1; simp [h1]) hd
    | cons c' r =>
      simp only [List.cons_append, List.cons.injEq] at h2
      obtain ⟨rfl, rfl⟩ := h2
      rcases List.append_eq_append_iff.1 h1 with ⟨q, h3, h4⟩ | ⟨q, h3, h4⟩
      · exact absurd (h4 ▸ (by simp)) hcd
      · cases q with
        | nil => exact absurd ((by simpa using h4.symm : ds = c :: r) ▸ (by simp)) hcd
        | cons c' q =>
          simp only [List.cons_append, List.cons.injEq] at h4
          obtain ⟨rfl, rfl⟩ := h4
          exact hb q ds u rfl hd

/-- Two numbers of 18 digits. -/
example : NoLong (List.replicate 18 57 ++ 32 :: List.replicate 18 57) := (NoLong.of_short (by simp)).append (NoLong.of_short (by simp)) (by decide)

end Verif.Switch
