import Verif.Switch.Content
/-
Scan scripts that are refused.
-/
namespace Verif.Switch

open Ppm

/-! ## Specification -/

/-- Scans written one after the other, each ended by a semicolon. -/
inductive Closed : List Scan → List Nat → Prop
  | nil : Closed [] []
  | cons (a b s t : List Nat) (x : Scan) (l : List Scan) : Sp a → Sp b → Entry x s → Closed l t → Closed (x :: l) (a ++ (s ++ (b ++ 59 :: t)))

/-- What a script must not contain where a scan may begin. -/
inductive Bad : List Nat → Prop
  /-- Something that is neither a number nor white space nor a comment. -/
  | garbage (a u : List Nat) (c : Nat) : Sp a → isSpace c = false → isDigit c = false → c ≠ 35 → Bad (a ++ c :: u)
  /-- More than four components. -/
  | comps (a cs s u u' : List Nat) (t : Option Nat) : Sp a → Nums cs s → 4 < cs.length → (∀ c ∈ cs, c < 2 ^ 31) → Ends u t u' → Bad (a ++ (s ++ u))
  /-- A colon and not exactly four parameters. -/
  | params (a cs s b c ps w u u' : List Nat) (t : Option Nat) : Sp a → Nums cs s → cs.length ≤ 4 → (∀ c ∈ cs, c < 2 ^ 31) → Sp b → Sp c → Nums ps w →
      ps.length ≠ 4 → (∀ p ∈ ps, p < 2 ^ 31) → Ends u t u' → Bad (a ++ (s ++ (b ++ 58 :: (c ++ (w ++ u)))))

/-! ## Proofs -/

theorem closed_step {l : List Scan} {s : List Nat} (h : Closed l s) (u : List Nat) : ∀ (k : Nat) (acc : List Scan), l.length ≤ k → (∀ x ∈ l, Fits x) →
    scans k (s ++ u) acc = scans (k - l.length) u (acc ++ l) := by
  induction h with
  | nil => intro k acc _ _; simp
  | cons a b s t x l ha hb hx _ ih =>
    intro k acc hk hf
    match k, hk with
    | k + 1, hk =>
    have hu : Ends (b ++ 59 :: (t ++ u)) (some 59) (t ++ u) := Or.inr ⟨b, 59, hb, Or.inl rfl, rfl, rfl⟩
    simp only [List.length_cons] at hk ⊢
    have el : a ++ (s ++ (b ++ 59 :: t)) ++ u = a ++ (s ++ (b ++ 59 :: (t ++ u))) := by simp
    rw [el, entry_step hx (hf x (by simp)) ha hu (by simp), ih k _ (by omega) (fun y hy => hf y (by simp [hy])), Nat.add_sub_add_right]
    simp

theorem more_many {u u' : List Nat} {t : Option Nat} (hu : Ends u t u') : ∀ (k : Nat) (vs s a : List Nat) (acc : List Int), Nums vs s → Sp a →
    (∀ v ∈ vs, v < 2 ^ 31) → 4 < acc.length + vs.length → acc.length ≤ 4 → 4 ≤ k + acc.length →
    more k (some 32) (a ++ (s ++ u)) acc = .error .exit := by
  intro k
  induction k with
  | zero =>
    intro vs s a acc _ _ _ _ h4 hk
    unfold more
    rw [if_neg (by simp), if_pos (by omega)]
  | succ k ih =>
    intro vs s a acc hn ha hv hl h4 hk
    unfold more
    rw [if_neg (by simp)]
    by_cases h : acc.length ≥ 4
    · rw [if_pos h]
    · rw [if_neg h]
      simp only [scanInt_sp a _ ha]
      cases hn with
      | one v => simp only [List.length_singleton] at hl; omega
      | cons v vs b s hb hs =>
        have h31 := hv v (by simp)
        obtain ⟨b', hb', e⟩ := scanInt_gap (n := v) (by omega) hb hs u
        rw [e]
        simp only [bind, Except.bind]
        simp only [List.length_cons] at hl
        rw [if_pos (by omega), cast_id h31]
        exact ih vs s b' _ hs hb' (fun x hx => hv x (by simp [hx])) (by simp only [List.length_append, List.length_singleton]; omega)
          (by simp only [List.length_append, List.length_singleton]; omega) (by simp only [List.length_append, List.length_singleton]; omega)

theorem param_last {n : Nat} (hn : n < 2 ^ 31) {a u u' : List Nat} {t : Option Nat} (ha : Sp a) (hu : Ends u t u') :
    param (a ++ (dec n ++ u)) = .error .exit := by
  unfold param
  rw [scanInt_sp a _ ha, hu.scan (by omega)]
  simp only [bind, Except.bind]
  rw [if_pos hu.ne]

/-- With another number of parameters than four there is an error, or a blank where the scan should end. -/
theorem params_bad {u u' : List Nat} {t : Option Nat} (hu : Ends u t u') {ps a s : List Nat} (ha : Sp a) (h : Nums ps s) (hp : ∀ p ∈ ps, p < 2 ^ 31)
    (h4 : ps.length ≠ 4) : params (some 58) (a ++ (s ++ u)) = .error .exit ∨
      ∃ p1 p2 p3 p4 s', params (some 58) (a ++ (s ++ u)) = .ok (p1, p2, p3, p4, some 32, s') := by
  unfold params
  rw [if_pos rfl]
  cases h with
  | one v =>
    left
    rw [param_last (hp v (by simp)) ha hu]
    rfl
  | cons v1 _ b1 s1 g1 n1 =>
    obtain ⟨c1, q1, e1⟩ := param_gap (hp v1 (by simp)) ha g1 n1 u
    rw [e1]
    simp only [bind, Except.bind]
    cases n1 with
    | one v =>
      left
      rw [param_last (hp v (by simp)) q1 hu]
    | cons v2 _ b2 s2 g2 n2 =>
      obtain ⟨c2, q2, e2⟩ := param_gap (hp v2 (by simp)) q1 g2 n2 u
      rw [e2]
      simp only []
      cases n2 with
      | one v =>
        left
        rw [param_last (hp v (by simp)) q2 hu]
      | cons v3 _ b3 s3 g3 n3 =>
        obtain ⟨c3, q3, e3⟩ := param_gap (hp v3 (by simp)) q2 g3 n3 u
        rw [e3]
        simp only []
        cases n3 with
        | one v => exact absurd rfl h4
        | cons v4 _ b4 s4 g4 n4 =>
          right
          have h31 := hp v4 (by simp)
          obtain ⟨c4, q4, e4⟩ := scanInt_gap (n := v4) (by omega) g4 n4 u
          rw [scanInt_sp c3 _ q3, e4]
          exact ⟨_, _, _, _, _, rfl⟩

theorem bad_step {u : List Nat} (h : Bad u) (k : Nat) (acc : List Scan) : scans k u acc = .error .exit := by
  unfold scans
  cases h with
  | garbage a u c ha h1 h2 h3 =>
    have : scanInt (a ++ c :: u) = .ok (.stop (some c)) := by
      rw [scanInt_sp a _ ha]
      unfold scanInt textInt
      rw [skip_stop (pbmGetc_ws c u h3) h1]
      simp [h2, bind, Except.bind]
    rw [this]
    simp [bind, Except.bind]
  | comps a cs s u u' t ha hn h4 hv hu =>
    rw [scanInt_sp a _ ha]
    cases hn with
    | one v => simp at h4
    | cons v vs b s hb hs =>
      have h31 := hv v (by simp)
      obtain ⟨b', hb', e⟩ := scanInt_gap (n := v) (by omega) hb hs u
      rw [e]
      simp only [bind, Except.bind]
      cases k with
      | zero => rfl
      | succ k =>
        simp only [List.length_cons] at h4
        simp only []
        rw [more_many hu 4 vs s b' [cast v] hs hb' (fun x hx => hv x (by simp [hx])) (by simp; omega) (by simp) (by simp)]
  | params a cs s b c ps w u u' t ha hn hl hv hb hc hw h4 hp hu =>
    have hu2 : Ends (b ++ 58 :: (c ++ (w ++ u))) (some 58) (c ++ (w ++ u)) := Or.inr ⟨b, 58, hb, Or.inr rfl, rfl, rfl⟩
    obtain ⟨v, t1, s1, e1, e2⟩ := comps_nums hu2 hn hl hv
    rw [scanInt_sp a _ ha, e1]
    simp only [bind, Except.bind]
    cases k with
    | zero => rfl
    | succ k =>
      simp only []
      rw [e2]
      simp only []
      rcases params_bad hu hc hw hp h4 with e | ⟨p1, p2, p3, p4, s', e⟩
      · rw [e]
      · rw [e]
        simp

/-- After any number of well-formed scans, something else than a number, more than four components, or other than four parameters after a colon make
the script be refused. -/
theorem script_refused {l : List Scan} {s u : List Nat} (h : Closed l s) (hf : ∀ x ∈ l, Fits x) (hl : l.length ≤ 64) (hb : Bad u) :
    readScript (s ++ u) = .error .exit := by
  unfold readScript
  rw [closed_step h u 64 [] hl hf]
  exact bad_step hb _ _

theorem textInt_garbage (a u : List Nat) (c : Nat) (ha : Sp a) (h1 : isSpace c = false) (h2 : isDigit c = false) (h3 : c ≠ 35) :
    textInt (a ++ c :: u) = .ok (.stop (some c)) := by
  rw [textInt_sp a _ ha]
  unfold textInt
  rw [skip_stop (pbmGetc_ws c u h3) h1]
  simp [h2]

/-- Numbers in decimal, with white space after each. -/
inductive Items : List Nat → List Nat → Prop
  | nil : Items [] []
  | cons (v : Nat) (vs a s : List Nat) (w : Nat) : Sp a → isSpace w = true → Items vs s → Items (v :: vs) (a ++ (dec v ++ w :: s))
  | comment (v : Nat) (vs a t s : List Nat) : Sp a → (∀ c ∈ t, c ≠ 10) → Items vs s → Items (v :: vs) (a ++ (dec v ++ 35 :: (t ++ 10 :: s)))

theorem textInt_items {v : Nat} {vs s : List Nat} (u : List Nat) (h : Items (v :: vs) s) (hv : v < 2 ^ 32) :
    ∃ t s', textInt (s ++ u) = .ok (.num v t (s' ++ u)) ∧ Items vs s' := by
  cases h with
  | cons _ _ a s w ha hw hs =>
    refine ⟨some w, s, ?_, hs⟩
    have el : a ++ (dec v ++ w :: s) ++ u = a ++ (dec v ++ w :: (s ++ u)) := by simp
    rw [el, textInt_sp a _ ha, textInt_digits v _ (by omega), num_stop (pbmGetc_ws w _ (sp_ne hw).1) (sp_ne hw).2.1]
    rfl
  | comment _ _ a t s ha ht hs =>
    refine ⟨some 10, s, ?_, hs⟩
    have el : a ++ (dec v ++ 35 :: (t ++ 10 :: s)) ++ u = a ++ (dec v ++ 35 :: (t ++ 10 :: (s ++ u))) := by simp
    rw [el, textInt_sp a _ ha, textInt_digits v _ (by omega), num_stop (pbmGetc_comment t _ ht) (by decide)]
    rfl

theorem elems_garbage {u : List Nat} {c : Nat} (hg : textInt u = .ok (.stop (some c))) : ∀ (n : Nat) (vs s acc : List Nat), Items vs s →
    (∀ v ∈ vs, v < 2 ^ 32) → elems n (s ++ u) acc = .error .exit ∨ ∃ r vs' s', elems n (s ++ u) acc = .ok (r, s' ++ u) ∧ Items vs' s' ∧ ∀ v ∈ vs', v < 2 ^ 32
  | 0, vs, s, acc, h, hv => Or.inr ⟨acc, vs, s, rfl, h, hv⟩
  | n + 1, [], s, acc, h, hv => by
    left
    cases h
    unfold elems
    rw [List.nil_append, hg]
    rfl
  | n + 1, v :: vs, s, acc, h, hv => by
    obtain ⟨t, s', e, hs'⟩ := textInt_items u h (hv v (by simp))
    unfold elems
    rw [e]
    exact elems_garbage hg n vs s' _ hs' (fun x hx => hv x (by simp [hx]))

/-- In a file of tables, something that is neither a number nor white space nor a comment makes the file be refused, wherever it is. -/
theorem tables_refused {vs s a u : List Nat} {c : Nat} (h : Items vs s) (hv : ∀ v ∈ vs, v < 2 ^ 32) (ha : Sp a) (h1 : isSpace c = false)
    (h2 : isDigit c = false) (h3 : c ≠ 35) : readTables (s ++ (a ++ c :: u)) = .error .exit := by
  have hg := textInt_garbage a u c ha h1 h2 h3
  have key : ∀ (k : Nat) (vs s : List Nat) (acc : List (List Nat)), Items vs s → (∀ v ∈ vs, v < 2 ^ 32) →
      tables k (s ++ (a ++ c :: u)) acc = .error .exit := by
    intro k
    induction k with
    | zero =>
      intro vs s acc h hv
      unfold tables
      cases vs with
      | nil =>
        cases h
        rw [List.nil_append, hg]
        simp [bind, Except.bind]
      | cons v vs =>
        obtain ⟨t, s', e, -⟩ := textInt_items (a ++ c :: u) h (hv v (by simp))
        rw [e]
        rfl
    | succ k ih =>
      intro vs s acc h hv
      unfold tables
      cases vs with
      | nil =>
        cases h
        rw [List.nil_append, hg]
        simp [bind, Except.bind]
      | cons v vs =>
        obtain ⟨t, s', e, hs'⟩ := textInt_items (a ++ c :: u) h (hv v (by simp))
        rw [e]
        simp only [bind, Except.bind]
        rcases elems_garbage hg 63 vs s' [v % 2 ^ 32] hs' (fun x hx => hv x (by simp [hx])) with e2 | ⟨r, vs', s2, e2, h4, h5⟩
        · rw [e2]
        · rw [e2]
          exact ih vs' s2 _ h4 h5
  exact key 4 vs s [] h hv

/-- White space is blank, tab, newline, vertical tab, form feed and carriage return. -/
theorem isSpace_spec (c : Nat) : isSpace c = true ↔ c ∈ [32, 9, 10, 11, 12, 13] := by
  simp only [isSpace, Bool.or_eq_true, Bool.and_eq_true, decide_eq_true_eq, List.mem_cons, List.not_mem_nil, or_false]
  omega

/-- `16 x` is no file of tables. -/
example : Items [16] [49, 54, 32] ∧ isSpace 120 = false :=
  ⟨by
    have e : dec 16 = [49, 54] := by decide +kernel
    have h := Items.cons 16 [] [] [] 32 .nil (by decide) .nil
    rwa [e] at h, by decide⟩

/-- `0 1;` and then `x`; and `0:1 63;`, with two parameters only. -/
example : Bad [120] ∧ Bad ([] ++ (dec 0 ++ ([] ++ 58 :: ([] ++ ((dec 1 ++ ([32] ++ dec 63)) ++ [59]))))) :=
  ⟨.garbage [] [] 120 .nil (by decide) (by decide) (by decide),
   .params [] [0] (dec 0) [] [] [1, 63] _ [59] [] (some 59) .nil (.one 0) (by decide) (by decide) .nil .nil
    (.cons 1 _ [32] _ (.white [32] (.ws 32 [] (by decide) .nil) (by simp)) (.one 63)) (by decide) (by decide) (Or.inr ⟨[], 59, .nil, Or.inl rfl, rfl, rfl⟩)⟩

end Verif.Switch
