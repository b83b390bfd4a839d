import Verif.Switch.Model
import Verif.Ppm.Content
/-
What scan scripts and files of quantization tables mean.
-/
namespace Verif.Switch

open Ppm

/-! ## Specification: the texts -/

/-- White space and comments. -/
inductive Sp : List Nat → Prop
  | nil : Sp []
  | ws (c : Nat) (s : List Nat) : isSpace c = true → Sp s → Sp (c :: s)
  | comment (t s : List Nat) : (∀ c ∈ t, c ≠ 10) → Sp s → Sp (35 :: (t ++ 10 :: s))

/-- What may stand between two numbers of a scan: white space, or one other character with white space around it; not a digit, `#`, `;` or `:`. -/
inductive Gap : List Nat → Prop
  | white (a : List Nat) : Sp a → a ≠ [] → Gap a
  | punct (a : List Nat) (p : Nat) (b : List Nat) : Sp a → Sp b → isSpace p = false → isDigit p = false → p ≠ 35 → p ≠ 59 → p ≠ 58 → Gap (a ++ p :: b)

/-- Numbers in decimal with gaps between them. -/
inductive Nums : List Nat → List Nat → Prop
  | one (v : Nat) : Nums [v] (dec v)
  | cons (v : Nat) (vs b s : List Nat) : Gap b → Nums vs s → Nums (v :: vs) (dec v ++ (b ++ s))

/-- The text of a scan without the terminator: one to four components, and after a colon the four progression parameters; without them a scan of
a sequential file. -/
inductive Entry : Scan → List Nat → Prop
  | plain (cs s : List Nat) : cs.length ≤ 4 → Nums cs s → Entry ⟨cs.map Int.ofNat, 0, 63, 0, 0⟩ s
  | prog (cs s : List Nat) (ss se ah al : Nat) (a b t : List Nat) : cs.length ≤ 4 → Nums cs s → Sp a → Sp b → Nums [ss, se, ah, al] t →
      Entry ⟨cs.map Int.ofNat, ss, se, ah, al⟩ (s ++ (a ++ 58 :: (b ++ t)))

/-- The text of a script: entries ended by semicolons; the last one need not be. -/
inductive Script : List Scan → List Nat → Prop
  | nil (a : List Nat) : Sp a → Script [] a
  | last (a b s : List Nat) (x : Scan) : Sp a → Sp b → Entry x s → Script [x] (a ++ (s ++ b))
  | cons (a b s t : List Nat) (x : Scan) (l : List Scan) : Sp a → Sp b → Entry x s → Script l t → Script (x :: l) (a ++ (s ++ (b ++ 59 :: t)))

/-- All numbers fit an `int`. -/
def Fits (x : Scan) : Prop := (∀ c ∈ x.comps, c < 2 ^ 31) ∧ x.ss < 2 ^ 31 ∧ x.se < 2 ^ 31 ∧ x.ah < 2 ^ 31 ∧ x.al < 2 ^ 31

/-! ## Lemmas -/

theorem sp_ne {c : Nat} (h : isSpace c = true) : c ≠ 35 ∧ isDigit c = false ∧ c ≠ 58 ∧ c ≠ 59 := by
  simp only [isSpace, isDigit, Bool.or_eq_true, Bool.and_eq_true, decide_eq_true_eq, Bool.and_eq_false_iff, decide_eq_false_iff_not] at *
  omega

theorem skip_step {s s' : List Nat} {c : Nat} (h : pbmGetc s = (some c, s')) (hw : isSpace c = true) : skip s = skip s' := by
  conv => lhs; unfold skip
  split
  · rename_i e; rw [h] at e; simp at e
  · rename_i c1 s1 e
    rw [h] at e
    simp only [Prod.mk.injEq, Option.some.injEq] at e
    obtain ⟨rfl, rfl⟩ := e
    rw [if_pos hw]

theorem skip_stop {s s' : List Nat} {c : Nat} (h : pbmGetc s = (some c, s')) (hw : isSpace c = false) : skip s = (some c, s') := by
  unfold skip
  split
  · rename_i e; rw [h] at e; simp at e
  · rename_i c1 s1 e
    rw [h] at e
    simp only [Prod.mk.injEq, Option.some.injEq] at e
    obtain ⟨rfl, rfl⟩ := e
    rw [if_neg (by simp [hw])]

theorem skip_eof : skip [] = (none, []) := by
  unfold skip
  split
  · rename_i e; simp only [pbmGetc, Prod.mk.injEq] at e; rw [← e.2]
  · rename_i e; simp [pbmGetc] at e

theorem skip_sp (a s : List Nat) (h : Sp a) : skip (a ++ s) = skip s := by
  induction h with
  | nil => rfl
  | ws c t hc _ ih => rw [List.cons_append, skip_step (pbmGetc_ws c _ (sp_ne hc).1) hc, ih]
  | comment t u ht _ ih =>
    have e : 35 :: (t ++ 10 :: u) ++ s = 35 :: (t ++ 10 :: (u ++ s)) := by simp
    rw [e, skip_step (pbmGetc_comment t _ ht) (by decide), ih]

theorem num_step {v : Nat} {s s' : List Nat} {c : Nat} (h : pbmGetc s = (some c, s')) (hd : isDigit c = true)
    (hm : v * 10 + (c - 48) < 2 ^ 63) : num v s = num (v * 10 + (c - 48)) s' := by
  conv => lhs; unfold num
  split
  · rename_i e; rw [h] at e; simp at e
  · rename_i c1 s1 e
    rw [h] at e
    simp only [Prod.mk.injEq, Option.some.injEq] at e
    obtain ⟨rfl, rfl⟩ := e
    rw [if_pos hd, if_neg (by omega)]

theorem num_stop {v : Nat} {s s' : List Nat} {c : Nat} (h : pbmGetc s = (some c, s')) (hd : isDigit c = false) : num v s = .ok (v, some c, s') := by
  unfold num
  split
  · rename_i e; rw [h] at e; simp at e
  · rename_i c1 s1 e
    rw [h] at e
    simp only [Prod.mk.injEq, Option.some.injEq] at e
    obtain ⟨rfl, rfl⟩ := e
    rw [if_neg (by simp [hd])]

theorem num_eof (v : Nat) : num v [] = .ok (v, none, []) := by
  unfold num
  split
  · rename_i e; simp only [pbmGetc, Prod.mk.injEq] at e; rw [← e.2]
  · rename_i e; simp [pbmGetc] at e

/-- The items a number makes of what follows it. -/
def item (r : R (Nat × Option Nat × List Nat)) : R Tok := match r with
  | .ok (v, t, s) => .ok (.num v t s)
  | .error e => .error e

theorem textInt_digits : ∀ (n : Nat) (s : List Nat), n < 2 ^ 63 → textInt (dec n ++ s) = item (num n s) := by
  intro n
  induction n using Nat.strongRecOn with
  | _ n ih =>
    intro s hn
    unfold dec
    by_cases h : n < 10
    · rw [if_pos h]
      have hd : isDigit (48 + n) = true := by simp [isDigit]; omega
      have hw : isSpace (48 + n) = false := by simp [isSpace]; omega
      unfold textInt
      rw [List.cons_append, List.nil_append, skip_stop (pbmGetc_ws _ _ (by omega)) hw]
      simp only [hd, if_true, Nat.add_sub_cancel_left]
      rcases num n s with e | ⟨v, t, s⟩ <;> rfl
    · rw [if_neg h, List.append_assoc, ih (n / 10) (by omega) _ (by omega)]
      have hd : isDigit (48 + n % 10) = true := by simp [isDigit]; omega
      have e : n / 10 * 10 + (48 + n % 10 - 48) = n := by omega
      rw [List.cons_append, List.nil_append, num_step (pbmGetc_ws _ _ (by omega)) hd (by omega), e]

theorem textInt_sp (a s : List Nat) (h : Sp a) : textInt (a ++ s) = textInt s := by
  unfold textInt; rw [skip_sp a s h]

theorem textInt_eof (a : List Nat) (h : Sp a) : textInt a = .ok (.stop none) := by
  have := skip_sp a [] h
  rw [List.append_nil, skip_eof] at this
  unfold textInt; rw [this]

/-- White space peeled by one character. -/
theorem Sp.peel {a : List Nat} (h : Sp a) (hne : a ≠ []) : ∃ c a', Sp a' ∧ isSpace c = true ∧ ∀ s, pbmGetc (a ++ s) = (some c, a' ++ s) := by
  cases h with
  | nil => exact absurd rfl hne
  | ws c t hc ht => exact ⟨c, t, ht, hc, fun s => pbmGetc_ws c _ (sp_ne hc).1⟩
  | comment t u ht hu =>
    refine ⟨10, u, hu, by decide, fun s => ?_⟩
    have e : 35 :: (t ++ 10 :: u) ++ s = 35 :: (t ++ 10 :: (u ++ s)) := by simp
    rw [e]
    exact pbmGetc_comment t _ ht

/-- After a number: white space, and then a character that is no digit, or the end. -/
theorem scanInt_then {n : Nat} (hn : n < 2 ^ 63) (b : List Nat) (hb : Sp b) :
    scanInt (dec n ++ b) = .ok (.num n none []) ∧
    (∀ c s, isSpace c = false → isDigit c = false → c ≠ 35 →
      scanInt (dec n ++ (b ++ c :: s)) = .ok (.num n (some (if c = 59 ∨ c = 58 then c else 32)) s)) ∧
    (b ≠ [] → ∀ d s, isDigit d = true → scanInt (dec n ++ (b ++ d :: s)) = .ok (.num n (some 32) (d :: s))) := by
  refine ⟨?_, fun c s h1 h2 h3 => ?_, fun hne d s hd => ?_⟩
  · unfold scanInt
    rw [textInt_digits n _ hn]
    by_cases hne : b = []
    · subst hne
      rw [num_eof]
      rfl
    · obtain ⟨c, b', hb', hc, e⟩ := hb.peel hne
      have e0 := e []
      simp only [List.append_nil] at e0
      have hk := skip_sp b' [] hb'
      rw [List.append_nil, skip_eof] at hk
      rw [num_stop e0 (sp_ne hc).2.1]
      simp [item, bind, Except.bind, after, hc, hk]
  · unfold scanInt
    rw [textInt_digits n _ hn]
    have hs := skip_stop (pbmGetc_ws c s h3) h1
    by_cases hne : b = []
    · subst hne
      rw [List.nil_append, num_stop (pbmGetc_ws c s h3) h2]
      by_cases h9 : c = 59
      · simp [item, bind, Except.bind, after, h1, h2, h9]
        rw [h9] at h1 h2
        simp [h1, h2]
      · by_cases h8 : c = 58
        · rw [h8] at h1 h2
          simp [item, bind, Except.bind, after, h1, h2, h8]
        · simp [item, bind, Except.bind, after, h1, h2, h8, h9]
    · obtain ⟨w, b', hb', hc, e⟩ := hb.peel hne
      have hk := skip_sp b' (c :: s) hb'
      rw [hs] at hk
      rw [num_stop (e _) (sp_ne hc).2.1]
      simp only [item, bind, Except.bind, after, hc, if_true, hk, h2]
      by_cases h9 : c = 59
      · simp [h9]
      · by_cases h8 : c = 58
        · simp [h8]
        · simp [h8, h9]
  · unfold scanInt
    rw [textInt_digits n _ hn]
    obtain ⟨w, b', hb', hc, e⟩ := hb.peel hne
    have hk := skip_sp b' (d :: s) hb'
    have hds : isSpace d = false := by
      cases h : isSpace d with
      | false => rfl
      | true => rw [(sp_ne h).2.1] at hd; exact absurd hd (by decide)
    rw [skip_stop (pbmGetc_ws d s (digit_ne hd).1) hds] at hk
    rw [num_stop (e _) (sp_ne hc).2.1]
    simp [item, bind, Except.bind, after, hc, hk, hd]

theorem scanInt_sp (a s : List Nat) (h : Sp a) : scanInt (a ++ s) = scanInt s := by
  unfold scanInt; rw [textInt_sp a s h]

theorem Nums.head {vs s : List Nat} (h : Nums vs s) : ∃ d t, s = d :: t ∧ isDigit d = true := by
  cases h with
  | one v => exact dec_head v
  | cons v vs b s _ _ =>
    obtain ⟨d, t, e, hd⟩ := dec_head v
    exact ⟨d, t ++ (b ++ s), by rw [e]; rfl, hd⟩

/-- A number with others after it. -/
theorem scanInt_gap {n : Nat} (hn : n < 2 ^ 63) {b vs s : List Nat} (hb : Gap b) (hs : Nums vs s) (u : List Nat) :
    ∃ b', Sp b' ∧ scanInt (dec n ++ (b ++ s) ++ u) = .ok (.num n (some 32) (b' ++ (s ++ u))) := by
  obtain ⟨d, t, e, hd⟩ := hs.head
  cases hb with
  | white _ hb hne =>
    refine ⟨[], .nil, ?_⟩
    have := (scanInt_then hn b hb).2.2 hne d (t ++ u) hd
    rw [e]
    simpa using this
  | punct a p c ha hc h1 h2 h3 h4 h5 =>
    refine ⟨c, hc, ?_⟩
    have := (scanInt_then hn a ha).2.1 p (c ++ (s ++ u)) h1 h2 h3
    rw [if_neg (by omega)] at this
    simpa using this

theorem cast_id {v : Nat} (h : v < 2 ^ 31) : cast v = Int.ofNat v := by
  unfold cast
  rw [show Int.ofNat v = (v : Int) from rfl, Int.bmod_eq_of_le] <;> omega

/-- What may follow an item: the end, or white space and one of two characters. -/
def Ends (u : List Nat) (t : Option Nat) (u' : List Nat) : Prop :=
  (Sp u ∧ t = none ∧ u' = []) ∨ ∃ b c, Sp b ∧ (c = 59 ∨ c = 58) ∧ u = b ++ c :: u' ∧ t = some c

theorem Ends.scan {n : Nat} (hn : n < 2 ^ 63) {u u' : List Nat} {t : Option Nat} (h : Ends u t u') : scanInt (dec n ++ u) = .ok (.num n t u') := by
  rcases h with ⟨h1, rfl, rfl⟩ | ⟨b, c, hb, hc, rfl, rfl⟩
  · exact (scanInt_then hn u h1).1
  · have := (scanInt_then hn b hb).2.1 c u' (by rcases hc with rfl | rfl <;> decide) (by rcases hc with rfl | rfl <;> decide)
      (by rcases hc with rfl | rfl <;> decide)
    rwa [if_pos hc] at this

theorem Ends.ne {u u' : List Nat} {t : Option Nat} (h : Ends u t u') : t ≠ some 32 := by
  rcases h with ⟨-, rfl, -⟩ | ⟨b, c, -, rfl | rfl, -, rfl⟩ <;> decide

theorem more_nums {u u' : List Nat} {t : Option Nat} (hu : Ends u t u') : ∀ (k : Nat) (vs s a : List Nat) (acc : List Int), Nums vs s → Sp a →
    (∀ v ∈ vs, v < 2 ^ 31) → acc.length + vs.length ≤ 4 → 4 ≤ k + acc.length →
    more k (some 32) (a ++ (s ++ u)) acc = .ok (t, u', acc ++ vs.map Int.ofNat) := by
  intro k
  induction k with
  | zero =>
    intro vs s a acc hn _ _ hl hk
    have : 0 < vs.length := by cases hn <;> simp
    omega
  | succ k ih =>
    intro vs s a acc hn ha hv hl hk
    have hpos : 0 < vs.length := by cases hn <;> simp
    unfold more
    rw [if_neg (by simp), if_neg (by omega)]
    simp only [scanInt_sp a _ ha]
    cases hn with
    | one v =>
      have h31 := hv v (by simp)
      rw [hu.scan (by omega)]
      simp only [bind, Except.bind]
      rw [if_pos (by simp at hl; omega), cast_id h31]
      unfold more
      rw [if_pos hu.ne]
      simp
    | cons v vs b s hb hs =>
      have h31 := hv v (by simp)
      obtain ⟨b', hb', e⟩ := scanInt_gap (n := v) (by omega) hb hs u
      rw [e]
      simp only [bind, Except.bind]
      simp only [List.length_cons] at hl
      rw [if_pos (by omega), cast_id h31]
      rw [ih vs s b' _ hs hb' (fun x hx => hv x (by simp [hx])) (by simp only [List.length_append, List.length_singleton]; omega)
        (by simp only [List.length_append, List.length_singleton]; omega)]
      simp

/-- The components of a scan. -/
theorem comps_nums {u u' : List Nat} {t : Option Nat} (hu : Ends u t u') {vs s : List Nat} (h : Nums vs s) (hl : vs.length ≤ 4) (hv : ∀ v ∈ vs, v < 2 ^ 31) :
    ∃ v t1 s1, scanInt (s ++ u) = .ok (.num v t1 s1) ∧ more 4 t1 s1 [cast v] = .ok (t, u', vs.map Int.ofNat) := by
  cases h with
  | one v =>
    have h31 := hv v (by simp)
    refine ⟨v, t, u', hu.scan (by omega), ?_⟩
    unfold more
    rw [if_pos hu.ne, cast_id h31]
    rfl
  | cons v vs b s hb hs =>
    have h31 := hv v (by simp)
    obtain ⟨b', hb', e⟩ := scanInt_gap (n := v) (by omega) hb hs u
    refine ⟨v, some 32, _, e, ?_⟩
    simp only [List.length_cons] at hl
    rw [more_nums hu 4 vs s b' [cast v] hs hb' (fun x hx => hv x (by simp [hx])) (by simp; omega) (by simp), cast_id h31]
    rfl

theorem param_gap {n : Nat} (hn : n < 2 ^ 31) {a b vs s : List Nat} (ha : Sp a) (hb : Gap b) (hs : Nums vs s) (u : List Nat) :
    ∃ b', Sp b' ∧ param (a ++ (dec n ++ (b ++ s) ++ u)) = .ok (Int.ofNat n, b' ++ (s ++ u)) := by
  obtain ⟨b', hb', e⟩ := scanInt_gap (n := n) (by omega) hb hs u
  refine ⟨b', hb', ?_⟩
  unfold param
  rw [scanInt_sp a _ ha, e]
  simp only [bind, Except.bind]
  rw [if_neg (by simp), cast_id hn]

theorem params_nums {u u' : List Nat} {t : Option Nat} (hu : Ends u t u') {ss se ah al : Nat} {a s : List Nat} (ha : Sp a)
    (h : Nums [ss, se, ah, al] s) (h1 : ss < 2 ^ 31) (h2 : se < 2 ^ 31) (h3 : ah < 2 ^ 31) (h4 : al < 2 ^ 31) :
    params (some 58) (a ++ (s ++ u)) = .ok ((ss : Int), (se : Int), (ah : Int), (al : Int), t, u') := by
  cases h with
  | cons _ _ b1 s1 g1 n1 =>
    obtain ⟨c1, p1, e1⟩ := param_gap h1 ha g1 n1 u
    cases n1 with
    | cons _ _ b2 s2 g2 n2 =>
      obtain ⟨c2, p2, e2⟩ := param_gap h2 p1 g2 n2 u
      cases n2 with
      | cons _ _ b3 s3 g3 n3 =>
        obtain ⟨c3, p3, e3⟩ := param_gap h3 p2 g3 n3 u
        cases n3 with
        | one =>
          unfold params
          rw [if_pos rfl, e1]
          simp only [bind, Except.bind]
          rw [e2]
          simp only []
          rw [e3]
          simp only []
          rw [scanInt_sp c3 _ p3, hu.scan (by omega)]
          simp only [cast_id h4]
          rfl
        | cons _ _ _ _ _ n => cases n

theorem entry_step {x : Scan} {s a u u' : List Nat} {t : Option Nat} (hx : Entry x s) (hf : Fits x) (ha : Sp a) (hu : Ends u t u') (ht : t ≠ some 58)
    (k : Nat) (acc : List Scan) : scans (k + 1) (a ++ (s ++ u)) acc = scans k u' (acc ++ [x]) := by
  have h59 : ¬ (t ≠ some 59 ∧ t ≠ none) := by
    rcases hu with ⟨-, rfl, -⟩ | ⟨b, c, -, rfl | rfl, -, rfl⟩
    · simp
    · simp
    · exact absurd rfl ht
  conv => lhs; unfold scans
  rw [scanInt_sp a _ ha]
  obtain ⟨f1, f2, f3, f4, f5⟩ := hf
  cases hx with
  | plain cs s hl hn =>
    have hv : ∀ v ∈ cs, v < 2 ^ 31 := fun v hv => by
      have := f1 (Int.ofNat v) (List.mem_map_of_mem hv)
      have e : Int.ofNat v = (v : Int) := rfl
      omega
    obtain ⟨v, t1, s1, e1, e2⟩ := comps_nums hu hn hl hv
    rw [e1]
    simp only [bind, Except.bind]
    rw [e2]
    simp only [params]
    rw [if_neg ht]
    simp only []
    rw [if_neg h59]
  | prog cs s ss se ah al b c w hl hn hb hc hw =>
    have hv : ∀ v ∈ cs, v < 2 ^ 31 := fun v hv => by
      have := f1 (Int.ofNat v) (List.mem_map_of_mem hv)
      have e : Int.ofNat v = (v : Int) := rfl
      omega
    have hu2 : Ends (b ++ 58 :: (c ++ (w ++ u))) (some 58) (c ++ (w ++ u)) := Or.inr ⟨b, 58, hb, Or.inr rfl, rfl, rfl⟩
    obtain ⟨v, t1, s1, e1, e2⟩ := comps_nums hu2 hn hl hv
    have el : s ++ (b ++ 58 :: (c ++ w)) ++ u = s ++ (b ++ 58 :: (c ++ (w ++ u))) := by simp
    rw [el, e1]
    simp only [bind, Except.bind]
    rw [e2]
    simp only [] at f2 f3 f4 f5 ⊢
    rw [params_nums hu hc hw (by omega) (by omega) (by omega) (by omega)]
    simp only []
    rw [if_neg h59]

theorem scanInt_end (a : List Nat) (h : Sp a) : scanInt a = .ok (.stop none) := by
  unfold scanInt; rw [textInt_eof a h]; rfl

theorem scans_end (k : Nat) (a : List Nat) (h : Sp a) (acc : List Scan) : scans k a acc = .ok acc := by
  unfold scans
  rw [scanInt_end a h]
  rfl

theorem scans_read {l : List Scan} {s : List Nat} (h : Script l s) : ∀ (k : Nat) (acc : List Scan), l.length ≤ k → (∀ x ∈ l, Fits x) →
    scans k s acc = .ok (acc ++ l) := by
  induction h with
  | nil a ha => intro k acc _ _; rw [scans_end k a ha]; simp
  | last a b s x ha hb hx =>
    intro k acc hk hf
    match k, hk with
    | k + 1, _ =>
    have hu : Ends b none [] := Or.inl ⟨hb, rfl, rfl⟩
    rw [entry_step hx (hf x (by simp)) ha hu (by simp), scans_end k [] .nil]
  | cons a b s t x l ha hb hx _ ih =>
    intro k acc hk hf
    match k, hk with
    | k + 1, hk =>
    have hu : Ends (b ++ 59 :: t) (some 59) t := Or.inr ⟨b, 59, hb, Or.inl rfl, rfl, rfl⟩
    simp only [List.length_cons] at hk
    rw [entry_step hx (hf x (by simp)) ha hu (by simp), ih k _ (by omega) (fun y hy => hf y (by simp [hy]))]
    simp

/-- More scans than there is room for. -/
theorem scans_many {l : List Scan} {s : List Nat} (h : Script l s) : ∀ (k : Nat) (acc : List Scan), k < l.length → (∀ x ∈ l, Fits x) →
    scans k s acc = .error .exit := by
  have full : ∀ {x : Scan} {s a u u' : List Nat} {t : Option Nat}, Entry x s → Fits x → Sp a → Ends u t u' → ∀ acc,
      scans 0 (a ++ (s ++ u)) acc = .error .exit := by
    intro x s a u u' t hx hf ha hu acc
    have h1 : ∃ v t1 s1, scanInt (s ++ u) = .ok (.num v t1 s1) := by
      obtain ⟨f1, -⟩ := hf
      cases hx with
      | plain cs s hl hn =>
        obtain ⟨v, t1, s1, e1, -⟩ := comps_nums hu hn hl (fun v hv => by
          have := f1 (Int.ofNat v) (List.mem_map_of_mem hv)
          have e : Int.ofNat v = (v : Int) := rfl
          omega)
        exact ⟨v, t1, s1, e1⟩
      | prog cs s ss se ah al b c w hl hn hb hc hw =>
        have hu2 : Ends (b ++ 58 :: (c ++ (w ++ u))) (some 58) (c ++ (w ++ u)) := Or.inr ⟨b, 58, hb, Or.inr rfl, rfl, rfl⟩
        obtain ⟨v, t1, s1, e1, -⟩ := comps_nums hu2 hn hl (fun v hv => by
          have := f1 (Int.ofNat v) (List.mem_map_of_mem hv)
          have e : Int.ofNat v = (v : Int) := rfl
          omega)
        exact ⟨v, t1, s1, by rw [← e1]; simp⟩
    obtain ⟨v, t1, s1, e1⟩ := h1
    unfold scans
    rw [scanInt_sp a _ ha, e1]
    rfl
  induction h with
  | nil a ha => intro k acc hk; simp at hk
  | last a b s x ha hb hx =>
    intro k acc hk hf
    have : k = 0 := by simp at hk; omega
    subst this
    exact full hx (hf x (by simp)) ha (Or.inl ⟨hb, rfl, rfl⟩) acc
  | cons a b s t x l ha hb hx _ ih =>
    intro k acc hk hf
    have hu : Ends (b ++ 59 :: t) (some 59) t := Or.inr ⟨b, 59, hb, Or.inl rfl, rfl, rfl⟩
    cases k with
    | zero => exact full hx (hf x (by simp)) ha hu acc
    | succ k =>
      simp only [List.length_cons] at hk
      rw [entry_step hx (hf x (by simp)) ha hu (by simp)]
      exact ih k _ (by omega) (fun y hy => hf y (by simp [hy]))

/-- A scan script means the scans that are written in it, in order; more than 64 of them are refused. -/
theorem script_content {l : List Scan} {s : List Nat} (h : Script l s) (hf : ∀ x ∈ l, Fits x) :
    readScript s = if l.length ≤ 64 then .ok l else .error .exit := by
  unfold readScript
  by_cases hl : l.length ≤ 64
  · rw [if_pos hl, scans_read h 64 [] hl hf]; rfl
  · rw [if_neg hl, scans_many h 64 [] (by omega) hf]

/-! ## Quantization tables -/

/-- Numbers in decimal, with white space between them. -/
inductive List10 : List Nat → List Nat → Prop
  | nil (a : List Nat) : Sp a → List10 [] a
  | last (v : Nat) (a : List Nat) : Sp a → List10 [v] (a ++ dec v)
  | cons (v : Nat) (vs a s : List Nat) (w : Nat) : Sp a → isSpace w = true → List10 vs s → List10 (v :: vs) (a ++ (dec v ++ w :: s))
  | comment (v : Nat) (vs a t s : List Nat) : Sp a → (∀ c ∈ t, c ≠ 10) → List10 vs s → List10 (v :: vs) (a ++ (dec v ++ 35 :: (t ++ 10 :: s)))

theorem textInt_list {vs s : List Nat} (h : List10 vs s) (hv : ∀ v ∈ vs, v < 2 ^ 32) :
    (vs = [] → textInt s = .ok (.stop none)) ∧ ∀ v vs', vs = v :: vs' → ∃ t s', textInt s = .ok (.num v t s') ∧ List10 vs' s' := by
  cases h with
  | nil a ha => exact ⟨fun _ => textInt_eof _ ha, by simp⟩
  | last v a ha =>
    refine ⟨by simp, fun v' vs' e => ?_⟩
    simp only [List.cons.injEq] at e
    obtain ⟨rfl, rfl⟩ := e
    have := hv v (by simp)
    refine ⟨none, [], ?_, .nil [] .nil⟩
    have h2 := textInt_digits v [] (by omega)
    rw [List.append_nil, num_eof] at h2
    rw [textInt_sp a _ ha, h2]
    rfl
  | cons v vs a s w ha hw hs =>
    refine ⟨by simp, fun v' vs' e => ?_⟩
    simp only [List.cons.injEq] at e
    obtain ⟨rfl, rfl⟩ := e
    have := hv v (by simp)
    refine ⟨some w, s, ?_, hs⟩
    rw [textInt_sp a _ ha, textInt_digits v _ (by omega), num_stop (pbmGetc_ws w s (sp_ne hw).1) (sp_ne hw).2.1]
    rfl
  | comment v vs a t s ha ht hs =>
    refine ⟨by simp, fun v' vs' e => ?_⟩
    simp only [List.cons.injEq] at e
    obtain ⟨rfl, rfl⟩ := e
    have := hv v (by simp)
    refine ⟨some 10, s, ?_, hs⟩
    rw [textInt_sp a _ ha, textInt_digits v _ (by omega), num_stop (pbmGetc_comment t s ht) (by decide)]
    rfl

theorem elems_read : ∀ (n : Nat) (vs s acc : List Nat), List10 vs s → (∀ v ∈ vs, v < 2 ^ 32) →
    (vs.length < n → elems n s acc = .error .exit) ∧
    (n ≤ vs.length → ∃ s', elems n s acc = .ok (acc ++ vs.take n, s') ∧ List10 (vs.drop n) s')
  | 0, vs, s, acc, h, hv => ⟨by omega, fun _ => ⟨s, by simp [elems], by simpa using h⟩⟩
  | n + 1, vs, s, acc, h, hv => by
    obtain ⟨h1, h2⟩ := textInt_list h hv
    cases vs with
    | nil =>
      refine ⟨fun _ => ?_, by simp⟩
      unfold elems
      rw [h1 rfl]
      rfl
    | cons v vs =>
      obtain ⟨t, s', e, hs'⟩ := h2 v vs rfl
      have ih := elems_read n vs s' (acc ++ [v]) hs' (fun x hx => hv x (by simp [hx]))
      unfold elems
      rw [e]
      simp only [bind, Except.bind, Nat.mod_eq_of_lt (hv v (by simp)), List.length_cons]
      refine ⟨fun h => ih.1 (by omega), fun h => ?_⟩
      obtain ⟨s2, e2, h3⟩ := ih.2 (by omega)
      exact ⟨s2, by rw [e2]; simp, by simpa using h3⟩

theorem tables_read : ∀ (k : Nat) (ts : List (List Nat)) (s : List Nat) (acc : List (List Nat)), (∀ x ∈ ts, x.length = 64 ∧ ∀ v ∈ x, v < 2 ^ 32) →
    List10 ts.flatten s → tables k s acc = if ts.length ≤ k then .ok (acc ++ ts) else .error .exit
  | k, [], s, acc, _, h => by
    unfold tables
    rw [(textInt_list h (by simp)).1 rfl]
    simp [bind, Except.bind]
  | k, x :: ts, s, acc, hx, h => by
    obtain ⟨h64, hv⟩ := hx x (by simp)
    have hall : ∀ v ∈ (x :: ts).flatten, v < 2 ^ 32 := by
      intro v hv'
      obtain ⟨y, hy, hvy⟩ := List.mem_flatten.1 hv'
      exact (hx y hy).2 v hvy
    match x, h64 with
    | v :: x, h64 =>
    obtain ⟨t, s1, e, hs1⟩ := (textInt_list h hall).2 v (x ++ ts.flatten) (by simp)
    have hlx : x.length = 63 := by simpa using h64
    unfold tables
    rw [e]
    simp only [bind, Except.bind]
    cases k with
    | zero => simp
    | succ k =>
      obtain ⟨s2, e2, h3⟩ := (elems_read 63 (x ++ ts.flatten) s1 [v] hs1 (fun y hy => hall y (by simp at hy ⊢; tauto))).2 (by simp; omega)
      simp only [Nat.mod_eq_of_lt (hv v (by simp))]
      rw [e2]
      have et : (x ++ ts.flatten).take 63 = x := by rw [← hlx]; simp
      have ed : (x ++ ts.flatten).drop 63 = ts.flatten := by rw [← hlx]; simp
      rw [ed] at h3
      rw [et]
      simp only []
      rw [tables_read k ts s2 _ (fun y hy => hx y (by simp [hy])) h3]
      simp

/-- A file of quantization tables means the tables that are written in it, 64 numbers each; more than four of them are refused. -/
theorem tables_content {ts : List (List Nat)} {s : List Nat} (h : List10 ts.flatten s) (hx : ∀ x ∈ ts, x.length = 64 ∧ ∀ v ∈ x, v < 2 ^ 32) :
    readTables s = if ts.length ≤ 4 then .ok ts else .error .exit := by
  unfold readTables
  rw [tables_read 4 ts s [] hx h]
  simp

/-- A file in which the last table is not complete is refused. -/
theorem tables_short (vs s : List Nat) (h : List10 vs s) (hv : ∀ v ∈ vs, v < 2 ^ 32) (h64 : vs.length % 64 ≠ 0) : readTables s = .error .exit := by
  have key : ∀ (k : Nat) (vs s : List Nat) (acc : List (List Nat)), List10 vs s → (∀ v ∈ vs, v < 2 ^ 32) → vs.length % 64 ≠ 0 →
      tables k s acc = .error .exit := by
    intro k
    induction k with
    | zero =>
      intro vs s acc h hv h64
      match vs, h64 with
      | v :: vs, h64 =>
      obtain ⟨t, s1, e, hs1⟩ := (textInt_list h hv).2 v vs rfl
      unfold tables
      rw [e]
      rfl
    | succ k ih =>
      intro vs s acc h hv h64
      match vs, h64 with
      | v :: vs, h64 =>
      obtain ⟨t, s1, e, hs1⟩ := (textInt_list h hv).2 v vs rfl
      have he := elems_read 63 vs s1 [v % 2 ^ 32] hs1 (fun x hx => hv x (by simp [hx]))
      unfold tables
      rw [e]
      simp only [bind, Except.bind]
      simp only [List.length_cons] at h64
      by_cases hl : vs.length < 63
      · rw [he.1 hl]
      · obtain ⟨s2, e2, h3⟩ := he.2 (by omega)
        rw [e2]
        simp only []
        exact ih _ s2 _ h3 (fun x hx => hv x (by simp [List.mem_of_mem_drop hx])) (by simp only [List.length_drop]; omega)
  exact key 4 vs s [] h hv h64

/-! ## Examples -/

/-- `0,1 2;`, then `0: 1-63, 0, 2` without a semicolon. -/
example : Script [⟨[0, 1, 2], 0, 63, 0, 0⟩, ⟨[0], 1, 63, 0, 2⟩]
    ([] ++ ((dec 0 ++ ([44] ++ (dec 1 ++ ([32] ++ dec 2)))) ++ ([] ++ 59 :: ([10] ++ ((dec 0 ++ ([] ++ 58 :: ([32] ++
      (dec 1 ++ ([45] ++ (dec 63 ++ ([44, 32] ++ (dec 0 ++ ([44, 32] ++ dec 2))))))))) ++ [10]))))) :=
  .cons [] [] _ _ _ _ .nil .nil
    (.plain [0, 1, 2] _ (by decide) (.cons 0 _ [44] _ (.punct [] 44 [] .nil .nil (by decide) (by decide) (by decide) (by decide) (by decide))
      (.cons 1 _ [32] _ (.white [32] (.ws 32 [] (by decide) .nil) (by simp)) (.one 2))))
    (.last [10] [10] _ _ (.ws 10 [] (by decide) .nil) (.ws 10 [] (by decide) .nil)
      (.prog [0] _ 1 63 0 2 [] [32] _ (by decide) (.one 0) .nil (.ws 32 [] (by decide) .nil)
        (.cons 1 _ [45] _ (.punct [] 45 [] .nil .nil (by decide) (by decide) (by decide) (by decide) (by decide))
          (.cons 63 _ [44, 32] _ (.punct [] 44 [32] .nil (.ws 32 [] (by decide) .nil) (by decide) (by decide) (by decide) (by decide) (by decide))
            (.cons 0 _ [44, 32] _ (.punct [] 44 [32] .nil (.ws 32 [] (by decide) .nil) (by decide) (by decide) (by decide) (by decide) (by decide)) (.one 2))))))

/-- The same text, read. -/
example : readScript [48, 44, 49, 32, 50, 59, 10, 48, 58, 32, 49, 45, 54, 51, 44, 32, 48, 44, 32, 50, 10] =
    .ok [⟨[0, 1, 2], 0, 63, 0, 0⟩, ⟨[0], 1, 63, 0, 2⟩] := by decide +kernel

/-- A number of 19 digits can exceed a `long`: undefined behaviour. -/
example : readScript (List.replicate 19 57) = .error .fault := by decide +kernel

/-- A component number that exceeds an `int` wraps around: 4294967296 is component 0. -/
example : readScript [52, 50, 57, 52, 57, 54, 55, 50, 57, 54] = .ok [⟨[0], 0, 63, 0, 0⟩] := by decide +kernel

end Verif.Switch
