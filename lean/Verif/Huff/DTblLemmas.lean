import Verif.Huff.TableLemmas
/-
What the decoder's derived table contains (jdhuff.c:143-262), in terms of the canonical code.
-/
namespace Verif.Huff

theorem sum_take_succ (cs : List Nat) (i : Nat) :
    (cs.take (i + 1)).sum = (cs.take i).sum + cs.getD i 0 := by
  rw [List.take_add_one, List.sum_append]
  cases h : cs[i]? <;> simp [List.getD_eq_getElem?_getD, h]

theorem mkSizes_getD (l : Nat) (cs : List Nat) (i q : Nat) (h1 : (cs.take i).sum ≤ q)
    (h2 : q < (cs.take (i + 1)).sum) : (mkSizes l cs).getD q 0 = l + i := by
  induction cs generalizing l i q with
  | nil => simp at h2
  | cons c cs ih =>
    simp only [mkSizes]
    cases i with
    | zero =>
      simp at h2
      rw [List.getD_eq_getElem?_getD, List.getElem?_append_left (by simpa using h2)]
      simp [h2]
    | succ i =>
      simp only [List.take_succ_cons, List.sum_cons] at h1 h2
      have := ih (l + 1) i (q - c) (by omega) (by omega)
      rw [List.getD_eq_getElem?_getD, List.getElem?_append_right (by simp; omega)]
      rw [List.getD_eq_getElem?_getD] at this
      simp only [List.length_replicate]
      omega

theorem mkSizes_getD_inv (cs : List Nat) (q : Nat) (hq : q < cs.sum) :
    ∃ i, i < cs.length ∧ (cs.take i).sum ≤ q ∧ q < (cs.take (i + 1)).sum := by
  induction cs generalizing q with
  | nil => simp at hq
  | cons c cs ih =>
    by_cases h : q < c
    · exact ⟨0, by simp, by simp, by simpa using h⟩
    · simp only [List.sum_cons] at hq
      obtain ⟨i, a, b, d⟩ := ih (q - c) (by omega)
      refine ⟨i + 1, by simpa using a, ?_, ?_⟩ <;>
        simp only [List.take_succ_cons, List.sum_cons] <;> omega

theorem maxVal_getD (codes cs : List Nat) (p i : Nat) (hi : i < cs.length) :
    (maxVal codes cs p).getD i (0, 0) =
      if cs.getD i 0 = 0 then (-1, 0)
      else ((codes.getD (p + (cs.take (i + 1)).sum - 1) 0 : Int),
        ((p + (cs.take i).sum : Nat) : Int) - (codes.getD (p + (cs.take i).sum) 0 : Int)) := by
  induction cs generalizing p i with
  | nil => simp at hi
  | cons c cs ih =>
    simp only [maxVal]
    cases i with
    | zero =>
      by_cases h : c = 0
      · simp [h]
      · simp [h]
    | succ i =>
      simp only [List.length_cons] at hi
      have := ih (p + c) i (by omega)
      by_cases h : c = 0
      · subst h
        simp only [Nat.add_zero] at this
        rw [if_neg (by simp), List.getD_cons_succ, this]
        simp only [List.getD_cons_succ, List.take_succ_cons, List.sum_cons, Nat.zero_add]
      · rw [if_pos h, List.getD_cons_succ, this, List.getD_cons_succ]
        simp only [List.take_succ_cons, List.sum_cons, Nat.add_assoc]

theorem length_maxVal (codes cs : List Nat) (p : Nat) : (maxVal codes cs p).length = cs.length := by
  induction cs generalizing p with
  | nil => rfl
  | cons c cs ih => simp only [maxVal]; split <;> simp [ih]

/-- `maxcode`/`valoffset` facts used by the bit-at-a-time decoder. -/
structure DFacts (sizes codes vals : List Nat) (d : DTbl) : Prop where
  canon : Canon sizes codes
  vals_eq : d.vals = vals
  /-- stopping test: within a length group, compare with the last code -/
  le_maxcode : ∀ l c : Nat, 1 ≤ l → l ≤ 16 → (c : Int) ≤ d.maxcode.getD (l - 1) 0 →
    ∃ p q, p ≤ q ∧ q < sizes.length ∧ sizes.getD p 0 = l ∧ sizes.getD q 0 = l ∧
      (∀ q', q' < sizes.length → sizes.getD q' 0 = l → p ≤ q' ∧ q' ≤ q) ∧
      c ≤ codes.getD q 0 ∧ d.valoffset.getD (l - 1) 0 = (p : Int) - codes.getD p 0
  gt_maxcode : ∀ l c : Nat, 1 ≤ l → l ≤ 16 → (c : Int) > d.maxcode.getD (l - 1) 0 →
    ∀ q, q < sizes.length → sizes.getD q 0 = l → codes.getD q 0 < c
  sentinel : d.maxcode.getD 16 0 = 0xFFFFF
  look_hit : ∀ v q, v < 256 → q < sizes.length → sizes.getD q 0 ≤ 8 →
    codes.getD q 0 = v >>> (8 - sizes.getD q 0) →
    d.lookup.getD v 0 = (sizes.getD q 0 * 256 ||| vals.getD q 0)
  look_miss : ∀ v, v < 256 → (∀ q, q < sizes.length → sizes.getD q 0 ≤ 8 →
    codes.getD q 0 ≠ v >>> (8 - sizes.getD q 0)) → d.lookup.getD v 0 = 9 * 256

theorem getD_setRange (e : Nat) (n i : Nat) (l : List Nat) (v : Nat) (hl : i + n ≤ l.length) :
    (setRange e n i l).getD v 0 = if i ≤ v ∧ v < i + n then e else l.getD v 0 := by
  induction n generalizing i l with
  | zero => rw [if_neg (by omega)]; rfl
  | succ n ih =>
    simp only [setRange]
    rw [ih (i + 1) _ (by simp; omega)]
    by_cases h : i = v
    · subst h
      rw [if_neg (by omega), if_pos (by omega)]
      simp [List.getD_eq_getElem?_getD, List.getElem?_set, show i < l.length by omega]
    · by_cases h2 : i + 1 ≤ v ∧ v < i + 1 + n
      · rw [if_pos h2, if_pos (by omega)]
      · rw [if_neg h2, if_neg (by omega)]
        simp [List.getD_eq_getElem?_getD, List.getElem?_set, h]

theorem length_setRange (e : Nat) (n i : Nat) (l : List Nat) :
    (setRange e n i l).length = l.length := by
  induction n generalizing i l with
  | zero => rfl
  | succ n ih => simp [setRange, ih]

/-- Entry `q` of the canonical list. -/
def ent (sizes codes vals : List Nat) (q : Nat) : Nat × Nat × Nat :=
  (vals.getD q 0, codes.getD q 0, sizes.getD q 0)

theorem shift_interval {c v k : Nat} : c = v >>> k ↔ c <<< k ≤ v ∧ v < c <<< k + 2 ^ k := by
  rw [Nat.shiftRight_eq_div_pow, Nat.shiftLeft_eq]
  have hp := Nat.two_pow_pos k
  constructor
  · rintro rfl
    have h1 := Nat.div_mul_le_self v (2 ^ k)
    have h2 := Nat.div_add_mod v (2 ^ k)
    have h3 := Nat.mod_lt v hp
    rw [Nat.mul_comm] at h2
    omega
  · rintro ⟨h1, h2⟩
    symm
    rw [Nat.div_eq_iff hp]
    omega

variable {sizes codes : List Nat}

/-- Two codes of length at most 8 never claim the same lookahead value. -/
theorem Canon.look_unique (C : Canon sizes codes) {v p q : Nat} (hp : p < sizes.length)
    (hq : q < sizes.length) (h8p : sizes.getD p 0 ≤ 8) (h8q : sizes.getD q 0 ≤ 8)
    (ep : codes.getD p 0 = v >>> (8 - sizes.getD p 0))
    (eq : codes.getD q 0 = v >>> (8 - sizes.getD q 0)) : p = q := by
  apply Classical.byContradiction
  intro hne
  have key : ∀ p q, p < q → q < sizes.length → sizes.getD p 0 ≤ 8 → sizes.getD q 0 ≤ 8 →
      codes.getD p 0 = v >>> (8 - sizes.getD p 0) →
      codes.getD q 0 = v >>> (8 - sizes.getD q 0) → False := by
    intro p q hpq hq h8p h8q ep eq
    have h := C.next_le hpq hq
    rw [shift_interval, Nat.shiftLeft_eq] at ep eq
    have hs : ∀ s, s ≤ 8 → K s = 2 ^ (8 - s) * 2 ^ 8 := by
      intro s hs; rw [K, ← Nat.pow_add]; congr 1; omega
    rw [hs _ h8p, hs _ h8q, ← Nat.mul_assoc, ← Nat.mul_assoc] at h
    have h2 := Nat.le_of_mul_le_mul_right h (by omega)
    rw [Nat.add_mul] at h2
    omega
  rcases Nat.lt_or_gt_of_ne hne with h | h
  · exact key p q h hq h8p h8q ep eq
  · exact key q p h hp h8q h8p eq ep

theorem Canon.code_shift_lt (C : Canon sizes codes) {q : Nat} (hq : q < sizes.length)
    (h8 : sizes.getD q 0 ≤ 8) :
    codes.getD q 0 <<< (8 - sizes.getD q 0) + 2 ^ (8 - sizes.getD q 0) ≤ 256 := by
  have h := C.code_lt hq
  rw [Nat.shiftLeft_eq, ← Nat.succ_mul]
  have : (codes.getD q 0).succ * 2 ^ (8 - sizes.getD q 0) ≤
      2 ^ sizes.getD q 0 * 2 ^ (8 - sizes.getD q 0) := Nat.mul_le_mul_right _ h
  rw [← Nat.pow_add, show sizes.getD q 0 + (8 - sizes.getD q 0) = 8 by omega] at this
  exact this

/-- What `fillLookup` leaves in slot `v` when run from entry `a` on. -/
theorem fillLookup_spec (C : Canon sizes codes) (vals : List Nat) (v : Nat)
    (n a : Nat) (hn : a + n = sizes.length) (lk : List Nat) (hlk : lk.length = 256) :
    let r := fillLookup ((List.range' a n).map (ent sizes codes vals)) lk
    (∀ q, a ≤ q → q < sizes.length → sizes.getD q 0 ≤ 8 →
      codes.getD q 0 = v >>> (8 - sizes.getD q 0) →
      r.getD v 0 = (sizes.getD q 0 * 256 ||| vals.getD q 0)) ∧
    ((∀ q, a ≤ q → q < sizes.length → sizes.getD q 0 ≤ 8 →
      codes.getD q 0 ≠ v >>> (8 - sizes.getD q 0)) → r.getD v 0 = lk.getD v 0) := by
  induction n generalizing a lk with
  | zero =>
    simp [fillLookup]
    intro q h1 h2; omega
  | succ n ih =>
    simp only [List.range'_succ, List.map_cons, ent, fillLookup]
    split
    · rename_i h8
      have hsh := C.code_shift_lt (q := a) (by omega) h8
      have hrec := ih (a + 1) (by omega)
        (setRange (sizes.getD a 0 * 256 ||| vals.getD a 0) (2 ^ (8 - sizes.getD a 0))
          (codes.getD a 0 <<< (8 - sizes.getD a 0)) lk) (by rw [length_setRange]; exact hlk)
      constructor
      · intro q h1 h2 h3 h4
        by_cases hqa : q = a
        · subst hqa
          rw [hrec.2 ?_]
          · rw [getD_setRange _ _ _ _ _ (by omega), if_pos (shift_interval.1 h4)]
          · intro q' h1' h2' h3' h4'
            have := C.look_unique h2 h2' h3 h3' h4 h4'
            omega
        · exact hrec.1 q (by omega) h2 h3 h4
      · intro hall
        rw [hrec.2 (fun q h1 h2 h3 => hall q (by omega) h2 h3),
          getD_setRange _ _ _ _ _ (by omega), if_neg]
        exact fun h => hall a (by omega) (by omega) h8 (shift_interval.2 h)
    · rename_i h8
      constructor
      · intro q h1 h2 h3 h4
        have := C.size_mono h1 h2
        omega
      · intro _; rfl

theorem makeDTbl_facts {ms : Option Nat} {t : HuffTbl} {d : DTbl} (h16 : t.counts.length = 16)
    (h : makeDTbl ms t = some d) :
    ∃ sizes codes, expand t = some (sizes, codes) ∧ DFacts sizes codes t.vals d ∧
      (∀ m, ms = some m → ∀ q < sizes.length, t.vals.getD q 0 ≤ m) := by
  unfold makeDTbl at h
  cases he : expand t with
  | none => simp [he] at h
  | some sc =>
    obtain ⟨sizes, codes⟩ := sc
    simp only [he] at h
    obtain ⟨C, hsz⟩ := expand_canon (by omega) he
    split at h
    swap
    · exact absurd h (by simp)
    rename_i hok
    simp only [Option.some.injEq] at h
    refine ⟨sizes, codes, rfl, ?_, ?_⟩
    · have hlen : sizes.length = t.counts.sum := by rw [hsz, length_mkSizes]
      have hmax : ∀ i, i < 16 → d.maxcode.getD i 0 = ((maxVal codes t.counts 0).getD i (0, 0)).1 := by
        intro i hi
        have hl := length_maxVal codes t.counts 0
        subst h
        simp only [List.getD_eq_getElem?_getD]
        rw [List.getElem?_append_left (by simp; omega)]
        simp [List.getElem?_map, List.getElem?_eq_getElem (show i < (maxVal codes t.counts 0).length by omega)]
      have hval : ∀ i, i < 16 → d.valoffset.getD i 0 = ((maxVal codes t.counts 0).getD i (0, 0)).2 := by
        intro i hi
        have hl := length_maxVal codes t.counts 0
        subst h
        simp only [List.getD_eq_getElem?_getD]
        rw [List.getElem?_append_left (by simp; omega)]
        simp [List.getElem?_map, List.getElem?_eq_getElem (show i < (maxVal codes t.counts 0).length by omega)]
      have hgrp : ∀ i q, i < 16 → q < sizes.length → sizes.getD q 0 = i + 1 →
          (t.counts.take i).sum ≤ q ∧ q < (t.counts.take (i + 1)).sum := by
        intro i q hi hq hs
        obtain ⟨j, j1, j2, j3⟩ := mkSizes_getD_inv t.counts q (by omega)
        have := mkSizes_getD 1 t.counts j q j2 j3
        rw [← hsz] at this
        have hji : j = i := by omega
        subst hji; exact ⟨j2, j3⟩
      have hgrp' : ∀ i q, (t.counts.take i).sum ≤ q → q < (t.counts.take (i + 1)).sum →
          sizes.getD q 0 = i + 1 := by
        intro i q h1 h2
        have := mkSizes_getD 1 t.counts i q h1 h2
        rw [← hsz] at this; omega
      have htake : ∀ i, (t.counts.take i).sum ≤ sizes.length := by
        intro i
        rw [hlen]
        conv => rhs; rw [← List.take_append_drop i t.counts]
        rw [List.sum_append]; omega
      have hrange : List.map (fun p => (t.vals.getD p 0, codes.getD p 0, sizes.getD p 0))
          (List.range sizes.length) = (List.range' 0 sizes.length).map (ent sizes codes t.vals) := by
        rw [List.range_eq_range']; rfl
      refine ⟨C, by subst h; rfl, ?_, ?_, ?_, ?_, ?_⟩
      · intro l c h1 h2 hc
        rw [hmax _ (by omega), maxVal_getD _ _ _ _ (by omega)] at hc
        have hs := sum_take_succ t.counts (l - 1)
        by_cases h0 : t.counts.getD (l - 1) 0 = 0
        · rw [if_pos h0] at hc; simp at hc; omega
        · rw [if_neg h0] at hc
          simp only [Nat.zero_add] at hc
          have hle := htake (l - 1 + 1)
          refine ⟨(t.counts.take (l - 1)).sum, (t.counts.take (l - 1 + 1)).sum - 1, by omega, by omega,
            ?_, ?_, ?_, by exact_mod_cast hc, ?_⟩
          · rw [hgrp' (l - 1) _ (by omega) (by omega)]; omega
          · rw [hgrp' (l - 1) _ (by omega) (by omega)]; omega
          · intro q' hq' hs'
            have := hgrp (l - 1) q' (by omega) hq' (by omega)
            omega
          · rw [hval _ (by omega), maxVal_getD _ _ _ _ (by omega), if_neg h0]
            simp only [Nat.zero_add]
      · intro l c h1 h2 hc q hq hs
        rw [hmax _ (by omega), maxVal_getD _ _ _ _ (by omega)] at hc
        have hg := hgrp (l - 1) q (by omega) hq (by omega)
        have hss := sum_take_succ t.counts (l - 1)
        rw [if_neg (by omega)] at hc
        simp only [Nat.zero_add] at hc
        have hle := htake (l - 1 + 1)
        have hsl := hgrp' (l - 1) ((t.counts.take (l - 1 + 1)).sum - 1) (by omega) (by omega)
        have := C.consec (p := q) (q := (t.counts.take (l - 1 + 1)).sum - 1) (by omega) (by omega)
          (by omega)
        omega
      · subst h
        have hl := length_maxVal codes t.counts 0
        simp only [List.getD_eq_getElem?_getD]
        rw [List.getElem?_append_right (by simp; omega)]
        simp [hl, h16]
      · intro v q hv hq h8 hc
        have := (fillLookup_spec C t.vals v sizes.length 0 (by omega)
          (List.replicate 256 (9 * 256)) (List.length_replicate ..)).1 q (by omega) hq h8 hc
        subst h
        dsimp only
        rw [hrange]; exact this
      · intro v hv hall
        have := (fillLookup_spec C t.vals v sizes.length 0 (by omega)
          (List.replicate 256 (9 * 256)) (List.length_replicate ..)).2 (fun q _ => hall q)
        subst h
        dsimp only
        rw [hrange, this, List.getD_eq_getElem?_getD, List.getElem?_replicate, if_pos hv]
        rfl
    · intro m hm q hq
      subst hm
      simp only [dcOk, List.all_map, List.all_eq_true, List.mem_range] at hok
      have := hok q hq
      simpa using this

end Verif.Huff
