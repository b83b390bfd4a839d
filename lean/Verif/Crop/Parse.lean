import Verif.Crop.Model
/-
Which strings are crop specifications, and what they mean.
-/
namespace Verif.Crop

/-! ## Specification: `<width>[fr]x<height>[fr]{+-}<x>{+-}<y>`, every part optional, but no `y` without `x` -/

/-- One or more decimal digits. -/
def IsNum (ds : List Char) : Prop := ds ≠ [] ∧ ∀ c ∈ ds, c.isDigit = true
/-- The number a digit string denotes. -/
def decimal (ds : List Char) : Nat := ds.foldl (fun v c => v * 10 + (c.toNat - 48)) 0
/-- A width or height with its letter. -/
def IsSize (s : List Char) (v : Nat) (k : Kind) : Prop :=
  ∃ ds l, IsNum ds ∧ s = ds ++ l ∧ v = decimal ds % 2 ^ 32 ∧
    ((l = [] ∧ k = .pos) ∨ ((l = ['f'] ∨ l = ['F']) ∧ k = .force) ∨ ((l = ['r'] ∨ l = ['R']) ∧ k = .reflect))
/-- `x` and a height. -/
def IsHeight (s : List Char) (v : Nat) (k : Kind) : Prop := ∃ c t, (c = 'x' ∨ c = 'X') ∧ s = c :: t ∧ IsSize t v k
/-- A signed offset. -/
def IsOffset (s : List Char) (v : Nat) (k : Kind) : Prop :=
  ∃ c ds, IsNum ds ∧ s = c :: ds ∧ v = decimal ds % 2 ^ 32 ∧ ((c = '+' ∧ k = .pos) ∨ (c = '-' ∧ k = .neg))
/-- A part that may be missing: the field then is marked unset and keeps its value. -/
def Opt (P : List Char → Nat → Kind → Prop) (old : Nat) (s : List Char) (v : Nat) (k : Kind) : Prop :=
  (s = [] ∧ v = old ∧ k = .unset) ∨ P s v k
/-- A crop specification and its meaning. -/
def IsSpec (old : Req) (s : List Char) (r : Req) : Prop :=
  ∃ sw sh sx sy, s = sw ++ (sh ++ (sx ++ sy)) ∧ Opt IsSize old.w sw r.w r.wk ∧ Opt IsHeight old.h sh r.h r.hk ∧
    Opt IsOffset old.x sx r.x r.xk ∧ Opt IsOffset old.y sy r.y r.yk ∧ (sx = [] → sy = [])

/-! ## Proof -/

/-- What a list does not start with. -/
def NoHead (P : Char → Prop) (l : List Char) : Prop := ∀ c t, l = c :: t → ¬ P c

theorem foldl_mod (ds : List Char) : ∀ v, ds.foldl (fun v c => (v * 10 + (c.toNat - 48)) % 2 ^ 32) (v % 2 ^ 32) =
    ds.foldl (fun v c => v * 10 + (c.toNat - 48)) v % 2 ^ 32 := by
  induction ds with
  | nil => intro v; rfl
  | cons c ds ih =>
    intro v
    simp only [List.foldl_cons]
    rw [← ih]
    congr 1
    omega

theorem takeWhile_split (p : Char → Bool) : ∀ ds l, (∀ c ∈ ds, p c = true) → NoHead (fun c => p c = true) l →
    (ds ++ l).takeWhile p = ds ∧ (ds ++ l).dropWhile p = l := by
  intro ds
  induction ds with
  | nil =>
    intro l _ h
    cases l with
    | nil => simp
    | cons c t =>
      have := h c t rfl
      simp [this]
  | cons c ds ih =>
    intro l h1 h2
    have := ih l (fun c hc => h1 c (by simp [hc])) h2
    simp [h1 c (by simp), this]

theorem readInt_iff (s : List Char) (v : Nat) (rest : List Char) :
    readInt s = some (v, rest) ↔ ∃ ds, IsNum ds ∧ s = ds ++ rest ∧ v = decimal ds % 2 ^ 32 ∧
      NoHead (fun c => c.isDigit = true) rest := by
  unfold readInt
  constructor
  · intro h
    cases ht : s.takeWhile Char.isDigit with
    | nil => rw [ht] at h; simp at h
    | cons d ds =>
      rw [ht] at h
      simp only [Option.some.injEq, Prod.mk.injEq] at h
      refine ⟨d :: ds, ⟨by simp, ?_⟩, ?_, ?_, ?_⟩
      · intro c hc
        rw [← ht] at hc
        exact (List.all_takeWhile (p := Char.isDigit) (l := s)) |> fun h => List.all_eq_true.1 h c hc
      · rw [← h.2, ← ht]; exact List.takeWhile_append_dropWhile.symm
      · rw [← h.1]
        have := foldl_mod (d :: ds) 0
        rw [Nat.zero_mod] at this
        exact this
      · intro c t he hd
        rw [← h.2] at he
        have hne : s.dropWhile Char.isDigit ≠ [] := by rw [he]; simp
        have := List.head_dropWhile_not Char.isDigit hne
        simp [he, hd] at this
  · rintro ⟨ds, ⟨hne, hdig⟩, rfl, rfl, hh⟩
    obtain ⟨e1, e2⟩ := takeWhile_split Char.isDigit ds rest hdig hh
    rw [e1, e2]
    cases ds with
    | nil => exact absurd rfl hne
    | cons d ds =>
      simp only [Option.some.injEq, Prod.mk.injEq, and_true]
      have := foldl_mod (d :: ds) 0
      rw [Nat.zero_mod] at this
      exact this

/-- Letters after a number. -/
def isFR (c : Char) : Prop := c = 'f' ∨ c = 'F' ∨ c = 'r' ∨ c = 'R'

theorem readSize_some (s : List Char) (v : Nat) (k : Kind) (rest : List Char) (h : readSize s = some (v, k, rest)) :
    ∃ p, s = p ++ rest ∧ IsSize p v k := by
  unfold readSize at h
  cases hr : readInt s with
  | none => rw [hr] at h; simp at h
  | some q =>
    obtain ⟨v', s'⟩ := q
    obtain ⟨ds, h1, h2, h3, h4⟩ := (readInt_iff _ _ _).1 hr
    rw [hr] at h
    simp only [Option.bind_eq_bind, Option.bind_some, Option.pure_def, Option.some.injEq, Prod.mk.injEq] at h
    obtain ⟨rfl, h5, h6⟩ := h
    unfold suffix at h5 h6
    split at h5
    · exact ⟨ds ++ ['f'], by rw [h2, ← h6]; simp, ds, ['f'], h1, rfl, h3, by simp [← h5]⟩
    · exact ⟨ds ++ ['F'], by rw [h2, ← h6]; simp, ds, ['F'], h1, rfl, h3, by simp [← h5]⟩
    · exact ⟨ds ++ ['r'], by rw [h2, ← h6]; simp, ds, ['r'], h1, rfl, h3, by simp [← h5]⟩
    · exact ⟨ds ++ ['R'], by rw [h2, ← h6]; simp, ds, ['R'], h1, rfl, h3, by simp [← h5]⟩
    · refine ⟨ds, ?_, ds, [], h1, by simp, h3, by simp [← h5]⟩
      rw [h2, ← h6]
      simp

theorem readSize_of (p : List Char) (v : Nat) (k : Kind) (rest : List Char) (h : IsSize p v k)
    (hd : NoHead (fun c => c.isDigit = true ∨ isFR c) rest) : readSize (p ++ rest) = some (v, k, rest) := by
  obtain ⟨ds, l, h1, rfl, h3, h4⟩ := h
  have hn : NoHead (fun c => c.isDigit = true) (l ++ rest) := by
    intro c t he
    rcases h4 with ⟨rfl, _⟩ | ⟨rfl | rfl, _⟩ | ⟨rfl | rfl, _⟩
    · exact fun hc => hd c t he (Or.inl hc)
    all_goals
      simp only [List.cons_append, List.cons.injEq] at he
      rw [← he.1]; decide
  unfold readSize
  rw [(readInt_iff _ v (l ++ rest)).2 ⟨ds, h1, by simp, h3, hn⟩]
  simp only [Option.bind_eq_bind, Option.bind_some, Option.pure_def, Option.some.injEq, Prod.mk.injEq, true_and]
  rcases h4 with ⟨rfl, rfl⟩ | ⟨rfl | rfl, rfl⟩ | ⟨rfl | rfl, rfl⟩
  · cases rest with
    | nil => exact ⟨rfl, rfl⟩
    | cons c t =>
      have := hd c t rfl
      unfold isFR at this
      simp only [not_or] at this
      simp only [List.nil_append]
      unfold suffix
      split <;> simp_all
  all_goals exact ⟨rfl, rfl⟩

theorem readOffset_some (old : Nat) (s : List Char) (v : Nat) (k : Kind) (rest : List Char)
    (h : readOffset old s = some (v, k, rest)) :
    ∃ p, s = p ++ rest ∧ Opt IsOffset old p v k ∧ (p = [] → NoHead (fun c => c = '+' ∨ c = '-') rest) := by
  unfold readOffset at h
  split at h
  · rename_i s
    cases hr : readInt s with
    | none => rw [hr] at h; simp at h
    | some q =>
      obtain ⟨v', s'⟩ := q
      obtain ⟨ds, h1, h2, h3, h4⟩ := (readInt_iff _ _ _).1 hr
      rw [hr] at h
      simp only [Option.bind_eq_bind, Option.bind_some, Option.pure_def, Option.some.injEq, Prod.mk.injEq] at h
      obtain ⟨rfl, rfl, rfl⟩ := h
      exact ⟨'+' :: ds, by simp [h2], Or.inr ⟨'+', ds, h1, rfl, h3, by simp⟩, by simp⟩
  · rename_i s
    cases hr : readInt s with
    | none => rw [hr] at h; simp at h
    | some q =>
      obtain ⟨v', s'⟩ := q
      obtain ⟨ds, h1, h2, h3, h4⟩ := (readInt_iff _ _ _).1 hr
      rw [hr] at h
      simp only [Option.bind_eq_bind, Option.bind_some, Option.pure_def, Option.some.injEq, Prod.mk.injEq] at h
      obtain ⟨rfl, rfl, rfl⟩ := h
      exact ⟨'-' :: ds, by simp [h2], Or.inr ⟨'-', ds, h1, rfl, h3, by simp⟩, by simp⟩
  · rename_i h1 h2
    simp only [Option.some.injEq, Prod.mk.injEq] at h
    obtain ⟨rfl, rfl, rfl⟩ := h
    refine ⟨[], rfl, Or.inl ⟨rfl, rfl, rfl⟩, fun _ => ?_⟩
    rintro c t rfl (rfl | rfl)
    · exact h1 t rfl
    · exact h2 t rfl

theorem readOffset_of (old : Nat) (p : List Char) (v : Nat) (k : Kind) (rest : List Char) (h : Opt IsOffset old p v k)
    (hd : NoHead (fun c => c.isDigit = true) rest) (hs : p = [] → NoHead (fun c => c = '+' ∨ c = '-') rest) :
    readOffset old (p ++ rest) = some (v, k, rest) := by
  rcases h with ⟨rfl, rfl, rfl⟩ | ⟨c, ds, h1, rfl, h3, ⟨rfl, rfl⟩ | ⟨rfl, rfl⟩⟩
  · have hs := hs rfl
    simp only [List.nil_append]
    unfold readOffset
    split
    · exact absurd (Or.inl rfl) (hs _ _ rfl)
    · exact absurd (Or.inr rfl) (hs _ _ rfl)
    · rfl
  · simp only [List.cons_append, readOffset]
    rw [(readInt_iff _ v rest).2 ⟨ds, h1, rfl, h3, hd⟩]; rfl
  · simp only [List.cons_append, readOffset]
    rw [(readInt_iff _ v rest).2 ⟨ds, h1, rfl, h3, hd⟩]; rfl

theorem noHead_offset {old : Nat} {p : List Char} {v : Nat} {k : Kind} (h : Opt IsOffset old p v k) {P : Char → Prop} (h1 : ¬ P '+')
    (h2 : ¬ P '-') (rest : List Char) (hr : NoHead P rest) : NoHead P (p ++ rest) := by
  rcases h with ⟨rfl, _, _⟩ | ⟨c, ds, _, rfl, _, ⟨rfl, _⟩ | ⟨rfl, _⟩⟩
  · exact hr
  · intro c t he; simp only [List.cons_append, List.cons.injEq] at he; rw [← he.1]; exact h1
  · intro c t he; simp only [List.cons_append, List.cons.injEq] at he; rw [← he.1]; exact h2

theorem noHead_height {old : Nat} {p : List Char} {v : Nat} {k : Kind} (h : Opt IsHeight old p v k) {P : Char → Prop} (h1 : ¬ P 'x')
    (h2 : ¬ P 'X') (rest : List Char) (hr : NoHead P rest) : NoHead P (p ++ rest) := by
  rcases h with ⟨rfl, _, _⟩ | ⟨c, ds, rfl | rfl, rfl, _⟩
  · exact hr
  · intro c t he; simp only [List.cons_append, List.cons.injEq] at he; rw [← he.1]; exact h1
  · intro c t he; simp only [List.cons_append, List.cons.injEq] at he; rw [← he.1]; exact h2

theorem noHead_nil (P : Char → Prop) : NoHead P [] := by intro c t h; simp at h

/-- C59: the parser accepts exactly the crop specifications, and returns what they mean; a number counts modulo 2^32. -/
theorem parse_iff (old : Req) (s : List Char) (r : Req) : parse old s = some r ↔ IsSpec old s r := by
  constructor
  · intro h
    unfold parse at h
    simp only [Option.bind_eq_bind] at h
    obtain ⟨⟨w, wk, s1⟩, e1, h⟩ := Option.bind_eq_some_iff.1 h
    simp only at h
    obtain ⟨⟨hh, hk, s2⟩, e2, h⟩ := Option.bind_eq_some_iff.1 h
    simp only at h
    obtain ⟨⟨x, xk, s3⟩, e3, h⟩ := Option.bind_eq_some_iff.1 h
    simp only at h
    obtain ⟨⟨y, yk, s4⟩, e4, h⟩ := Option.bind_eq_some_iff.1 h
    simp only at h
    split at h
    · rename_i hs4
      subst hs4
      simp only [Option.pure_def, Option.some.injEq] at h
      subst h
      obtain ⟨sx, q3, o3, n3⟩ := readOffset_some _ _ _ _ _ e3
      obtain ⟨sy, q4, o4, n4⟩ := readOffset_some _ _ _ _ _ e4
      have hw : ∃ sw, s = sw ++ s1 ∧ Opt IsSize old.w sw w wk := by
        unfold readWidth at e1
        split at e1
        · obtain ⟨p, a, b⟩ := readSize_some _ _ _ _ e1
          exact ⟨p, a, Or.inr b⟩
        · simp only [Option.some.injEq, Prod.mk.injEq] at e1
          exact ⟨[], by simp [e1.2.2], Or.inl ⟨rfl, e1.1.symm, e1.2.1.symm⟩⟩
      have hh : ∃ sh, s1 = sh ++ s2 ∧ Opt IsHeight old.h sh hh hk := by
        unfold readHeight at e2
        split at e2
        · obtain ⟨p, a, b⟩ := readSize_some _ _ _ _ e2
          exact ⟨'x' :: p, by simp [a], Or.inr ⟨'x', p, Or.inl rfl, rfl, b⟩⟩
        · obtain ⟨p, a, b⟩ := readSize_some _ _ _ _ e2
          exact ⟨'X' :: p, by simp [a], Or.inr ⟨'X', p, Or.inr rfl, rfl, b⟩⟩
        · simp only [Option.some.injEq, Prod.mk.injEq] at e2
          exact ⟨[], by simp [e2.2.2], Or.inl ⟨rfl, e2.1.symm, e2.2.1.symm⟩⟩
      obtain ⟨sw, a1, b1⟩ := hw
      obtain ⟨sh, a2, b2⟩ := hh
      simp only [List.append_nil] at q4
      refine ⟨sw, sh, sx, sy, by rw [a1, a2, q3, q4], b1, b2, o3, o4, ?_⟩
      intro h0
      have n3 := n3 h0
      rcases o4 with ⟨h, _, _⟩ | ⟨c, ds, _, h, _, h5⟩
      · exact h
      · exact absurd (h5.imp (fun h => h.1) (fun h => h.1)) (n3 c ds (q4.trans h))
    · exact absurd h (by simp)
  · rintro ⟨sw, sh, sx, sy, rfl, b1, b2, b3, b4, hxy⟩
    have nd : ∀ P : Char → Prop, ¬ P '+' → ¬ P '-' → NoHead P (sx ++ sy) := fun P h1 h2 =>
      noHead_offset b3 h1 h2 _ (by have := noHead_offset b4 h1 h2 [] (noHead_nil P); rwa [List.append_nil] at this)
    have ndy : ∀ P : Char → Prop, ¬ P '+' → ¬ P '-' → NoHead P sy := fun P h1 h2 => by
      have := noHead_offset b4 h1 h2 [] (noHead_nil P); rwa [List.append_nil] at this
    have nd2 : ∀ P : Char → Prop, ¬ P '+' → ¬ P '-' → ¬ P 'x' → ¬ P 'X' → NoHead P (sh ++ (sx ++ sy)) := fun P h1 h2 h3 h4 =>
      noHead_height b2 h3 h4 _ (nd P h1 h2)
    have e4 : readOffset old.y sy = some (r.y, r.yk, []) := by
      have := readOffset_of old.y sy r.y r.yk [] b4 (noHead_nil _) (fun _ => noHead_nil _)
      rwa [List.append_nil] at this
    have e3 : readOffset old.x (sx ++ sy) = some (r.x, r.xk, sy) :=
      readOffset_of old.x sx r.x r.xk sy b3 (ndy _ (by decide) (by decide)) (fun h => by rw [hxy h]; exact noHead_nil _)
    have e2 : readHeight old.h (sh ++ (sx ++ sy)) = some (r.h, r.hk, sx ++ sy) := by
      rcases b2 with ⟨rfl, h2, h3⟩ | ⟨c, t, hc, rfl, h⟩
      · simp only [List.nil_append]
        unfold readHeight
        have := nd (fun c => c = 'x' ∨ c = 'X') (by decide) (by decide)
        split
        · exact absurd (Or.inl rfl) (this _ _ (by assumption))
        · exact absurd (Or.inr rfl) (this _ _ (by assumption))
        · rw [h2, h3]
      · have := readSize_of t r.h r.hk (sx ++ sy) h (nd _ (by unfold isFR; decide) (by unfold isFR; decide))
        rcases hc with rfl | rfl
        · exact this
        · exact this
    have e1 : readWidth old.w (sw ++ (sh ++ (sx ++ sy))) = some (r.w, r.wk, sh ++ (sx ++ sy)) := by
      unfold readWidth
      rcases b1 with ⟨rfl, h2, h3⟩ | h
      · simp only [List.nil_append]
        have := nd2 (fun c => c.isDigit = true) (by decide) (by decide) (by decide) (by decide)
        rw [if_neg]
        · rw [h2, h3]
        · cases hl : sh ++ (sx ++ sy) with
          | nil => simp [startsDigit]
          | cons c t => exact this c t hl
      · have e := readSize_of sw r.w r.wk (sh ++ (sx ++ sy)) h
          (nd2 _ (by unfold isFR; decide) (by unfold isFR; decide) (by unfold isFR; decide) (by unfold isFR; decide))
        rw [if_pos, e]
        obtain ⟨ds, l, ⟨h1, h2⟩, rfl, _⟩ := h
        cases ds with
        | nil => exact absurd rfl h1
        | cons d ds => exact h2 d (by simp)
    unfold parse
    rw [e1]
    simp only [Option.bind_eq_bind, Option.bind_some]
    rw [e2]
    simp only [Option.bind_some]
    rw [e3]
    simp only [Option.bind_some]
    rw [e4]
    rfl

/-- `120x90-5+16r` is not a specification, `120fX90r-5+16` is. -/
example (old : Req) : parse old "120x90-5+16r".toList = none ∧
    parse old "120fX90r-5+16".toList = some ⟨120, .force, 90, .reflect, 5, .neg, 16, .pos⟩ := by
  constructor <;> rfl

/-- A width of 2^32 + 8 is read as 8. -/
example (old : Req) : parse old "4294967304x8".toList = some ⟨8, .pos, 8, .pos, old.x, .unset, old.y, .unset⟩ := rfl

end Verif.Crop
