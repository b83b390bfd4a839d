import Verif.Arith.Enc
/-
The decoder follows the same exact intervals.
-/
namespace Verif.Arith

open Verif.Huff (unstuff segTail stuff stuff_nil stuff_append stuff_cons)

/-- The bytes to come after `j` data bytes of `P`, which are followed by marker `m` and `rest`. -/
def Feed (P : List Nat) (m : Nat) (rest : List Nat) (j : Nat) (bytes : List Nat) (marker : Nat) : Prop :=
  (marker = 0 ∧ unstuff false bytes = P.drop j ∧ segTail false bytes = some (m, rest)) ∨
    (marker = m ∧ P.length ≤ j ∧ bytes = rest)

theorem afterFF_spec (bytes : List Nat) {m : Nat} {rest : List Nat} (h : segTail true bytes = some (m, rest)) :
    (∃ b, afterFF bytes = some (255, b, 0) ∧ unstuff true bytes = 255 :: unstuff false b ∧
      segTail false b = some (m, rest)) ∨ (afterFF bytes = some (0, rest, m) ∧ unstuff true bytes = []) := by
  induction bytes with
  | nil => simp [segTail] at h
  | cons c bs ih =>
    rw [segTail] at h
    rw [afterFF, unstuff]
    by_cases h1 : c = 0xFF
    · simp only [if_pos h1] at h ⊢
      exact ih h
    · simp only [if_neg h1] at h ⊢
      by_cases h2 : c = 0
      · simp only [if_pos h2] at h ⊢
        exact Or.inl ⟨bs, rfl, rfl, h⟩
      · simp only [if_neg h2] at h ⊢
        simp only [Option.some.injEq, Prod.mk.injEq] at h
        right
        simp [h.1, h.2]

theorem fetch_spec {P : List Nat} {m : Nat} {rest : List Nat} {j : Nat} {bytes : List Nat} {marker : Nat} (hm : m ≠ 0)
    (h : Feed P m rest j bytes marker) :
    ∃ b m', fetch bytes marker = some (P.getD j 0, b, m') ∧ Feed P m rest (j + 1) b m' := by
  have hdrop : ∀ x l, P.drop j = x :: l → P.getD j 0 = x ∧ P.drop (j + 1) = l := by
    intro x l hx
    constructor
    · have : (P.drop j)[0]? = some x := by rw [hx]; rfl
      rw [List.getElem?_drop] at this
      rw [List.getD_eq_getElem?_getD, show j = j + 0 from rfl, this]; rfl
    · have : (P.drop j).tail = l := by rw [hx]; rfl
      rw [← this, List.tail_drop]
  have hend : P.drop j = [] → P.length ≤ j ∧ P.getD j 0 = 0 := by
    intro hx
    have : P.length ≤ j := by simpa using hx
    refine ⟨this, ?_⟩
    rw [List.getD_eq_getElem?_getD, List.getElem?_eq_none this]; rfl
  rcases h with ⟨hk, hu, ht⟩ | ⟨hk, hl, hb⟩
  · subst hk
    cases bytes with
    | nil => simp [segTail] at ht
    | cons c bs =>
      rw [unstuff] at hu
      rw [segTail] at ht
      by_cases h1 : c = 0xFF
      · simp only [if_pos h1] at hu ht
        have hf : fetch (c :: bs) 0 = afterFF bs := by simp [fetch, h1]
        rw [hf]
        rcases afterFF_spec bs ht with ⟨b, h2, h3, h4⟩ | ⟨h2, h3⟩
        · rw [h3] at hu
          obtain ⟨h5, h6⟩ := hdrop _ _ hu.symm
          exact ⟨b, 0, by rw [h2, h5], Or.inl ⟨rfl, h6.symm, h4⟩⟩
        · rw [h3] at hu
          obtain ⟨h5, h6⟩ := hend hu.symm
          exact ⟨rest, m, by rw [h2, h6], Or.inr ⟨rfl, by omega, rfl⟩⟩
      · simp only [if_neg h1] at hu ht
        obtain ⟨h5, h6⟩ := hdrop _ _ hu.symm
        exact ⟨bs, 0, by rw [h5]; simp [fetch, h1], Or.inl ⟨rfl, h6.symm, ht⟩⟩
  · subst hk hb
    refine ⟨bytes, marker, ?_, Or.inr ⟨rfl, by omega, rfl⟩⟩
    unfold fetch
    rw [if_pos hm, List.getD_eq_getElem?_getD, List.getElem?_eq_none hl]; rfl

/-- The decoder's registers and input against the exact interval `t`. -/
structure DRel (P : List Nat) (m : Nat) (rest : List Nat) (j k : Nat) (d : Dec) (t : T) : Prop where
  ct : d.ct = (k : Int)
  k7 : k ≤ 7
  a : d.a = t.a
  pos : 8 * j = 16 + t.N + k
  c : d.c + t.low * 2 ^ k = zx P j
  feed : Feed P m rest j d.bytes d.marker

theorem shiftD_spec {P : List Nat} {m : Nat} {rest : List Nat} {j k : Nat} {d : Dec} {t : T} (hm : m ≠ 0)
    (h : DRel P m rest j k d t) :
    ∃ d' j' k', shiftD d = some d' ∧ DRel P m rest j' k' d' ⟨t.low * 2, t.a * 2, t.N + 1⟩ := by
  have hct := h.ct
  have hk7 := h.k7
  have hpos := h.pos
  have hc := h.c
  cases k with
  | zero =>
    obtain ⟨b, m', h1, h2⟩ := fetch_spec hm h.feed
    refine ⟨⟨d.c * 2 ^ 8 + P.getD j 0, d.a * 2, 7, b, m'⟩, j + 1, 7, ?_, rfl, by omega, ?_, ?_, ?_, h2⟩
    · rw [shiftD, if_pos (by omega), h1]
      have : ¬ (d.ct - 1 + 8 < 0) := by omega
      simp only [if_neg this]
      rw [hct]; rfl
    · dsimp only; rw [h.a]
    · dsimp only; omega
    · dsimp only
      rw [zx, ← hc]
      ring
  | succ k =>
    refine ⟨⟨d.c, d.a * 2, d.ct - 1, d.bytes, d.marker⟩, j, k, ?_, ?_, by omega, ?_, ?_, ?_, h.feed⟩
    · rw [shiftD, if_neg (by omega)]
    · dsimp only; omega
    · dsimp only; rw [h.a]
    · dsimp only; omega
    · dsimp only
      rw [← hc, pow_succ]
      ring

theorem renormD_spec (n : Nat) {P : List Nat} {m : Nat} {rest : List Nat} {j k : Nat} {d : Dec} {t : T} (hm : m ≠ 0)
    (h : DRel P m rest j k d t) : ∃ d' j' k', renormD n d = some d' ∧ DRel P m rest j' k' d' (t.renorm n) := by
  induction n generalizing j k d t with
  | zero => exact ⟨d, j, k, rfl, h⟩
  | succ n ih =>
    rw [renormD, T.renorm, h.a]
    by_cases hlt : t.a < 0x8000
    · obtain ⟨d1, j1, k1, h1, h2⟩ := shiftD_spec hm h
      simp only [if_pos hlt, h1, Option.bind_some]
      exact ih h2
    · simp only [if_neg hlt]
      exact ⟨d, j, k, rfl, h⟩

theorem init_spec {P : List Nat} {m : Nat} {rest bytes : List Nat} (hm : m ≠ 0) (h : Feed P m rest 0 bytes 0) :
    ∃ d j k, renormD 16 (Dec.init bytes) = some d ∧ DRel P m rest j k d ⟨0, 0x10000, 0⟩ := by
  obtain ⟨b1, m1, h1, h2⟩ := fetch_spec hm h
  obtain ⟨b2, m2, h3, h4⟩ := fetch_spec hm h2
  refine ⟨⟨P.getD 0 0 * 256 + P.getD 1 0, 0x10000, 0, b2, m2⟩, 2, 0, ?_, rfl, by omega, rfl, rfl, ?_, h4⟩
  · have e1 : shiftD (Dec.init bytes) = some ⟨P.getD 0 0, 0, -8, b1, m1⟩ := by
      rw [shiftD, if_pos (by simp [Dec.init])]
      simp only [Dec.init, h1]
      simp
    have e2 : shiftD ⟨P.getD 0 0, 0, -8, b1, m1⟩ = some ⟨P.getD 0 0 * 256 + P.getD 1 0, 0x10000, 0, b2, m2⟩ := by
      rw [shiftD, if_pos (by simp)]
      simp only [h3]
      simp
    rw [renormD, if_pos (by simp [Dec.init]), e1, Option.bind_some, renormD, if_pos (by simp), e2, Option.bind_some, renormD,
      if_neg (by simp)]
  · simp [zx]

/-- The decision is the one whose part of the interval holds the code. -/
theorem decide1_spec {P : List Nat} {m : Nat} {rest : List Nat} {j k : Nat} {d : Dec} {t : T} {sv : Nat} {x : Bool}
    (h : DRel P m rest j k d t) (hs : Good sv) (ha : 0x8000 ≤ t.a)
    (hin : InAt P ⟨t.low + (part t.a sv x).1, (part t.a sv x).2, t.N⟩ j) :
    ∃ d', decide1 d sv = (x, d', next t.a sv x) ∧
      DRel P m rest j k d' ⟨t.low + (part t.a sv x).1, (part t.a sv x).2, t.N⟩ := by
  have hq := hs.qe
  have hct := h.ct
  have hpos := h.pos
  have hc := h.c
  have hlo := hin.lo
  have hhi := hin.hi
  dsimp only at hlo hhi
  have hk : 8 * j - 16 - t.N = k := by omega
  rw [hk, ← hc] at hlo hhi
  have htn : d.ct.toNat = k := by omega
  rw [Nat.add_mul] at hlo
  rw [Nat.add_mul, Nat.add_mul] at hhi
  have mk : ∀ (c' a' : Nat), part t.a sv x = (c', a') → DRel P m rest j k { d with c := d.c - c' * 2 ^ k, a := a' }
      ⟨t.low + (part t.a sv x).1, (part t.a sv x).2, t.N⟩ := by
    intro c' a' hp
    rw [hp] at hlo ⊢
    dsimp only at hlo
    refine ⟨hct, h.k7, rfl, hpos, ?_, h.feed⟩
    dsimp only
    rw [← hc, Nat.add_mul]
    omega
  by_cases hup : decide (x ≠ mps sv) = decide (t.a - qeOf sv ≥ qeOf sv)
  · have hp : part t.a sv x = (t.a - qeOf sv, qeOf sv) := by rw [part, if_pos hup]
    have hd := mk _ _ hp
    rw [hp] at hlo
    dsimp only at hlo
    have hge : d.c ≥ (d.a - qeOf sv) * 2 ^ d.ct.toNat := by rw [h.a, htn]; omega
    by_cases hx : d.a - qeOf sv < qeOf sv
    · have hx' : ¬ t.a - qeOf sv ≥ qeOf sv := by rw [h.a] at hx; omega
      have hxm : x = mps sv := by
        by_contra hne
        simp [hne, hx'] at hup
      refine ⟨_, ?_, hd⟩
      simp only [decide1, if_pos hge, if_pos hx]
      rw [next, if_neg (by simp [hxm]), if_neg (by rw [h.a] at hx; omega), hxm, h.a, htn]
    · have hx' : t.a - qeOf sv ≥ qeOf sv := by rw [h.a] at hx; omega
      have hxm : x ≠ mps sv := by
        simp [hx'] at hup
        exact hup
      refine ⟨_, ?_, hd⟩
      simp only [decide1, if_pos hge, if_neg hx]
      rw [next, if_pos hxm, h.a, htn]
      have : (!mps sv) = x := by cases x <;> cases hmv : mps sv <;> simp_all
      rw [this]
  · have hp : part t.a sv x = (0, t.a - qeOf sv) := by rw [part, if_neg hup]
    have hd := mk _ _ hp
    rw [hp] at hhi
    dsimp only at hhi
    have hge : ¬ d.c ≥ (d.a - qeOf sv) * 2 ^ d.ct.toNat := by rw [h.a, htn]; omega
    have hcz : ({ d with c := d.c - 0 * 2 ^ k, a := t.a - qeOf sv } : Dec) = { d with a := d.a - qeOf sv } := by
      rw [h.a]; simp
    rw [hcz] at hd
    by_cases hsm : d.a - qeOf sv < 0x8000
    · by_cases hx : d.a - qeOf sv < qeOf sv
      · have hx' : ¬ t.a - qeOf sv ≥ qeOf sv := by rw [h.a] at hx; omega
        have hxm : x ≠ mps sv := by
          intro he
          exact hup (by simp [he]; omega)
        refine ⟨_, ?_, hd⟩
        simp only [decide1, if_neg hge, if_pos hsm, if_pos hx]
        rw [next, if_pos hxm]
        have : (!mps sv) = x := by cases x <;> cases hmv : mps sv <;> simp_all
        rw [this]
      · have hx' : t.a - qeOf sv ≥ qeOf sv := by rw [h.a] at hx; omega
        have hxm : x = mps sv := by
          by_contra he
          exact hup (by simp [he]; omega)
        refine ⟨_, ?_, hd⟩
        simp only [decide1, if_neg hge, if_pos hsm, if_neg hx]
        rw [next, if_neg (by simp [hxm]), if_neg (by rw [h.a] at hsm; omega), hxm]
    · have hx' : t.a - qeOf sv ≥ qeOf sv := by rw [h.a] at hsm; omega
      have hxm : x = mps sv := by
        by_contra he
        exact hup (by simp [he]; omega)
      refine ⟨_, ?_, hd⟩
      simp only [decide1, if_neg hge, if_neg hsm]
      rw [next, if_neg (by simp [hxm]), if_pos (by rw [h.a] at hsm; omega), hxm]

/-! ### Sequences -/

/-- The exact interval after a list of decisions. -/
def T.all {β : Type} [DecidableEq β] : T → (β → Nat) → List (β × Bool) → T
  | t, _, [] => t
  | t, σ, (b, x) :: ds =>
    T.all (t.step (σ b) x) (fun b' => if b' = b then next t.a (σ b) x else σ b') ds

theorem good_upd {β : Type} [DecidableEq β] {σ : β → Nat} (hσ : ∀ b, Good (σ b)) (b : β) (sv : Nat) (hs : Good sv) :
    ∀ b', Good (if b' = b then sv else σ b') := by
  intro b'
  split
  · exact hs
  · exact hσ b'

theorem encodeAll_spec {β : Type} [DecidableEq β] (ds : List (β × Bool)) {pre U : List Nat} {e : Enc} {t : T} {σ : β → Nat}
    (h : EInv pre U e t) (h1 : 1 ≤ e.ct) (ha : 0x8000 ≤ e.a) (ha2 : e.a ≤ 0x10000) (hσ : ∀ b, Good (σ b)) :
    ∃ U', EInv pre U' (encodeAll e σ ds) (t.all σ ds) ∧ 1 ≤ (encodeAll e σ ds).ct ∧ 0x8000 ≤ (encodeAll e σ ds).a := by
  induction ds generalizing U e t σ with
  | nil => exact ⟨U, h, h1, ha⟩
  | cons bx ds ih =>
    obtain ⟨b, x⟩ := bx
    obtain ⟨⟨U', h2⟩, h3, h4⟩ := encode1_spec h h1 ha (hσ b) x
    have h5 := T.step_a (hσ b) (x := x) (t := t) (by rw [h.a]; exact ha) (by rw [h.a]; exact ha2)
    rw [encodeAll, T.all, h4, h.a]
    refine ih h2 h3 ?_ ?_ (good_upd hσ _ _ ((hσ b).next x))
    · rw [← h2.a]; exact h5.1
    · rw [← h2.a]; exact h5.2

theorem In.of_all {β : Type} [DecidableEq β] (ds : List (β × Bool)) {P : List Nat} {t : T} {σ : β → Nat}
    (h1 : 0x8000 ≤ t.a) (h2 : t.a ≤ 0x10000) (hσ : ∀ b, Good (σ b)) (h : In P (t.all σ ds)) : In P t := by
  induction ds generalizing t σ with
  | nil => exact h
  | cons bx ds ih =>
    obtain ⟨b, x⟩ := bx
    rw [T.all] at h
    have h5 := T.step_a (hσ b) (x := x) h1 h2
    exact ((ih h5.1 h5.2 (good_upd hσ _ _ ((hσ b).next x)) h).renorm).sub (part_ok (hσ b) h1 x).2

/-- The unread input: the marker that ends the segment and what follows. -/
def Dec.tail (d : Dec) : Option (Nat × List Nat) :=
  if d.marker ≠ 0 then some (d.marker, d.bytes) else segTail false d.bytes

/-- Data bytes left before that marker (next_marker would discard them with a warning). -/
def Dec.unread (d : Dec) : List Nat := if d.marker ≠ 0 then [] else unstuff false d.bytes

theorem T.renorm_N (n : Nat) {t : T} (h : 0x8000 ≤ t.a * 2 ^ n) : (t.renorm (n + 1)).N ≤ t.N + n := by
  induction n generalizing t with
  | zero => rw [T.renorm_done 1 (by simpa using h)]; omega
  | succ n ih =>
    rw [T.renorm]
    split
    · have := ih (t := ⟨t.low * 2, t.a * 2, t.N + 1⟩) (by dsimp only; rw [pow_succ'] at h; linarith)
      dsimp only at this
      omega
    · omega

theorem run_spec {β α : Type} [DecidableEq β] {P : List Nat} {m : Nat} {rest : List Nat} (hP : IsBytes P) (hm : m ≠ 0)
    (rdr : Rdr β α) (ds : List (β × Bool)) (y : α) {t : T} {σ : β → Nat} {d d1 : Dec} {j k : Nat}
    (hrep : rdr.replay ds = some y) (h1 : 0x8000 ≤ t.a) (h2 : t.a ≤ 0x10000) (hσ : ∀ b, Good (σ b))
    (hd : renormD 16 d = some d1) (hrel : DRel P m rest j k d1 t) (hd0 : ∃ j0, Feed P m rest j0 d.bytes d.marker ∧ (t.N + 1 ≤ 8 * j0 ∨ ds ≠ [] ∨ P = []))
    (hin : In P (t.all σ ds)) (hshort : 8 * P.length ≤ (t.all σ ds).N + 8) :
    ∃ d' σ', rdr.run d σ = some (y, d', σ') ∧ d'.tail = some (m, rest) ∧ d'.unread = [] := by
  induction rdr generalizing ds t σ d d1 j k with
  | ret x =>
    cases ds with
    | cons _ _ => simp [Rdr.replay] at hrep
    | nil =>
      simp only [Rdr.replay, Option.some.injEq] at hrep
      subst hrep
      refine ⟨d, σ, rfl, ?_⟩
      obtain ⟨j0, hf, hj⟩ := hd0
      have hl : P.length ≤ j0 := by
        rw [T.all] at hshort
        rcases hj with hj | hj | hj
        · omega
        · exact absurd rfl hj
        · rw [hj]; simp
      rcases hf with ⟨hk, hu, ht⟩ | ⟨hk, _, hb⟩
      · simp [Dec.tail, Dec.unread, hk, ht, hu, hl]
      · simp [Dec.tail, Dec.unread, hk, hm, hb]
  | ask b f ih =>
    cases ds with
    | nil => simp [Rdr.replay] at hrep
    | cons bx ds =>
      obtain ⟨b', x⟩ := bx
      simp only [Rdr.replay] at hrep
      split at hrep
      · rename_i hb
        subst hb
        rw [T.all] at hin hshort
        have hg := hσ b
        have h5 := T.step_a hg (x := x) h1 h2
        have hup := good_upd hσ b _ (hg.next (a := t.a) x)
        have hsub := (In.of_all ds h5.1 h5.2 hup hin).renorm
        obtain ⟨J, hJ⟩ := hsub
        have hat := hJ.any hP (J' := j) (by have := hrel.pos; dsimp only; omega)
        obtain ⟨d2, h6, h7⟩ := decide1_spec hrel hg h1 hat
        obtain ⟨d3, j3, k3, h8, h9⟩ := renormD_spec 16 hm h7
        have hdec : decode1 d (σ b) = some (x, d2, next t.a (σ b) x) := by
          rw [decode1, hd]; simp [h6]
        have hNj : (t.step (σ b) x).N + 1 ≤ 8 * j := by
          have hp := part_ok hg h1 x
          have h10 : (t.step (σ b) x).N ≤ t.N + 15 := T.renorm_N 15 (t := ⟨t.low + (part t.a (σ b) x).1, (part t.a (σ b) x).2, t.N⟩) (by dsimp only; omega)
          have := hrel.pos
          omega
        rw [Rdr.run, hdec]
        exact ih x ds hrep h5.1 h5.2 hup h8 h9 ⟨j, h7.feed, Or.inl hNj⟩ hin hshort
      · simp at hrep

end Verif.Arith
