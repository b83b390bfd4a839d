import Verif.Gif.Pack
import Verif.Gif.Text
import Mathlib.Data.Nat.Prime.Basic
import Mathlib.Tactic.NormNum.Prime
import Mathlib.Data.Nat.ModEq
/-
What the GIF writer writes is decoded to the same pixels.
-/
namespace Verif.Gif

/-- The `N` bits of value `V` are codes of text `t`, after which the decoder has strings `d` and previous text `p`. -/
def Decoded (ics V N : Nat) (d : List (List Nat)) (p : Option (List Nat)) (t : List Nat) : Prop :=
  ∃ k, ∀ n R L, strings ics (k + n) (V + 2 ^ N * R) (N + L) [] none = t ++ strings ics n R L d p

/-- One code of width `w`. -/
def Step (ics : Nat) (d : List (List Nat)) (p : Option (List Nat)) (c w : Nat) (d' : List (List Nat)) (p' : Option (List Nat)) (t : List Nat) : Prop :=
  ∀ n R L, strings ics (n + 1) (c + 2 ^ w * R) (w + L) d p = t ++ strings ics n R L d' p'

theorem Decoded.start (ics : Nat) : Decoded ics 0 0 [] none [] := ⟨0, fun n R L => by simp⟩

theorem Decoded.step {ics V N : Nat} {d d' : List (List Nat)} {p p' : Option (List Nat)} {t t' : List Nat} {c w : Nat} (h : Decoded ics V N d p t)
    (hs : Step ics d p c w d' p' t') : Decoded ics (V + 2 ^ N * c) (N + w) d' p' (t ++ t') := by
  obtain ⟨k, hk⟩ := h
  refine ⟨k + 1, fun n R L => ?_⟩
  have := hk (n + 1) (c + 2 ^ w * R) (w + L)
  rw [show k + 1 + n = k + (n + 1) by omega, show V + 2 ^ N * c + 2 ^ (N + w) * R = V + 2 ^ N * (c + 2 ^ w * R) by rw [Nat.pow_add]; ring,
    show N + w + L = N + (w + L) by omega, this, hs n R L, List.append_assoc]

theorem step_gen (ics : Nat) (d : List (List Nat)) (p : Option (List Nat)) (c w : Nat) (hw : w = width (2 ^ ics + 2 + d.length)) (hc : c < 2 ^ w)
    (n R L : Nat) : (c + 2 ^ w * R) % 2 ^ w = c ∧ (c + 2 ^ w * R) / 2 ^ w = R ∧ w + L - w = L ∧ ¬ w + L < w := by
  refine ⟨?_, ?_, by omega, by omega⟩
  · rw [Nat.add_mul_mod_self_left, Nat.mod_eq_of_lt hc]
  · rw [Nat.add_mul_div_left _ _ (Nat.two_pow_pos _), Nat.div_eq_of_lt hc, Nat.zero_add]

theorem Step.clear (ics : Nat) (d : List (List Nat)) (p : Option (List Nat)) (w : Nat) (hw : w = width (2 ^ ics + 2 + d.length)) (hc : 2 ^ ics < 2 ^ w) :
    Step ics d p (2 ^ ics) w [] none [] := by
  intro n R L
  obtain ⟨e1, e2, e3, e4⟩ := step_gen ics d p _ w hw hc n R L
  simp only [strings, ← hw, e1, e2, e3]
  rw [if_neg e4, if_pos trivial]; rfl

theorem Step.first (ics c w : Nat) (hw : w = width (2 ^ ics + 2)) (hc : c < 2 ^ ics) (hcw : c < 2 ^ w) :
    Step ics [] none c w [] (some [c]) [c] := by
  intro n R L
  obtain ⟨e1, e2, e3, e4⟩ := step_gen ics [] none c w hw hcw n R L
  simp only [strings, List.length_nil, Nat.add_zero, ← hw, e1, e2, e3]
  rw [if_neg e4, if_neg (by omega), if_pos hc]; rfl

/-- The text of code `c` for strings `d`. -/
def textOf (ics : Nat) (d : List (List Nat)) (c : Nat) : Option (List Nat) :=
  if c < 2 ^ ics then some [c] else if c < 2 ^ ics + 2 then none else d[c - (2 ^ ics + 2)]?

/-- A code of the writer, whose strings are one ahead of the reader's. -/
theorem Step.next (ics : Nat) (d : List (List Nat)) (p s : List Nat) (c w : Nat) (hw : w = width (2 ^ ics + 2 + d.length)) (hcw : c < 2 ^ w)
    (hp : p ≠ []) (hc : textOf ics (d ++ [p ++ s.take 1]) c = some s) (hd : 2 ^ ics + 2 + d.length < 4096) :
    Step ics d (some p) c w (d ++ [p ++ s.take 1]) (some s) s := by
  intro n R L
  obtain ⟨e1, e2, e3, e4⟩ := step_gen ics d (some p) c w hw hcw n R L
  unfold textOf at hc
  have hne : c ≠ 2 ^ ics := by
    intro h
    rw [if_neg (by omega), if_pos (by omega)] at hc
    cases hc
  have hne' : c ≠ 2 ^ ics + 1 := by
    intro h
    rw [if_neg (by omega), if_pos (by omega)] at hc
    cases hc
  have hkey : (if c < 2 ^ ics then some [c] else if c = 2 ^ ics + 1 then none
      else if c = 2 ^ ics + 2 + d.length then some (p ++ p.take 1) else d[c - (2 ^ ics + 2)]?) = some s := by
    split at hc
    · rename_i h1; rw [if_pos h1]; exact hc
    · rename_i h1
      rw [if_neg h1, if_neg hne']
      rw [if_neg (by omega)] at hc
      split
      · rename_i h2
        rw [h2, show 2 ^ ics + 2 + d.length - (2 ^ ics + 2) = d.length by omega, List.getElem?_append_right (le_refl _), Nat.sub_self] at hc
        have hs : p ++ s.take 1 = s := by simpa using hc
        have : s.take 1 = p.take 1 := by
          cases p with
          | nil => exact absurd rfl hp
          | cons x p => rw [← hs]; rfl
        rw [← this, hs]
      · rename_i h2
        have hlt : c - (2 ^ ics + 2) < d.length := by
          by_contra hcn
          rw [List.getElem?_eq_none (by rw [List.length_append, List.length_singleton]; omega)] at hc
          cases hc
        rw [List.getElem?_append_left hlt] at hc
        exact hc
  simp only [strings, ← hw, e1, e2, e3]
  rw [if_neg e4, if_neg hne, hkey]
  simp only []
  rw [if_pos hd]

theorem textOf_append {ics : Nat} {d : List (List Nat)} {c : Nat} {s : List Nat} (h : textOf ics d c = some s) (x : List (List Nat)) :
    textOf ics (d ++ x) c = some s := by
  unfold textOf at h ⊢
  split at h
  · rename_i h1; rw [if_pos h1]; exact h
  · rename_i h1
    rw [if_neg h1]
    split at h
    · cases h
    · rename_i h2
      rw [if_neg h2]
      have hlt : c - (2 ^ ics + 2) < d.length := by
        by_contra hcn
        rw [List.getElem?_eq_none (by omega)] at h
        cases h
      rw [List.getElem?_append_left hlt]
      exact h

theorem textOf_lt {ics : Nat} {d : List (List Nat)} {c : Nat} {s : List Nat} (h : textOf ics d c = some s) : c < 2 ^ ics + 2 + d.length := by
  unfold textOf at h
  split at h
  · omega
  · split at h
    · cases h
    · by_contra hcn
      rw [List.getElem?_eq_none (by omega)] at h
      cases h

theorem textOf_last (ics : Nat) (d : List (List Nat)) (x : List Nat) : textOf ics (d ++ [x]) (2 ^ ics + 2 + d.length) = some x := by
  unfold textOf
  rw [if_neg (by omega), if_neg (by omega), show 2 ^ ics + 2 + d.length - (2 ^ ics + 2) = d.length by omega,
    List.getElem?_append_right (le_refl _), Nat.sub_self]
  rfl

theorem lt_width (m c : Nat) (hm : m < 4096) (hc : c ≤ m) : c < 2 ^ width m := by
  unfold width
  have h2 := Nat.lt_log2_self (n := m)
  by_cases h : m.log2 + 1 ≤ 12
  · rw [Nat.min_eq_right h]; omega
  · rw [Nat.min_eq_left (by omega)]; omega

/-! ## The hash table -/

structure Hash (ics : Nat) (ed : List (List Nat)) (hcode hval : List Nat) : Prop where
  lenc : hcode.length = 5003
  lenv : hval.length = 5003
  sound : ∀ i c : Nat, hcode[i]? = some c → c ≠ 0 → ∃ v s, hval[i]? = some v ∧ textOf ics ed (v / 256) = some s ∧ textOf ics ed c = some (s ++ [v % 256])
  count : hcode.countP (fun x => x ≠ 0) ≤ ed.length

theorem probe_run (hcode hval : List Nat) (value disp : Nat) (hl : hcode.length = 5003) (hv : hval.length = 5003) (hd1 : 1 ≤ disp) (hd2 : disp ≤ 5003) :
    ∀ (fuel i : Nat), i < 5003 → (∃ k, k < fuel ∧ hcode[(i + k * (5003 - disp)) % 5003]? = some 0) →
      ∃ j hit, probe hcode hval value disp fuel i = .ok (j, hit) ∧ j < 5003 ∧
        (if hit then (∃ c, hcode[j]? = some c ∧ c ≠ 0) ∧ hval[j]? = some value else hcode[j]? = some 0) := by
  intro fuel
  induction fuel with
  | zero => rintro i _ ⟨k, hk, -⟩; omega
  | succ fuel ih =>
    rintro i hi ⟨k, hk, hz⟩
    unfold probe
    rw [getD_get hcode i (by omega)]
    simp only [bind, Except.bind, pure, Except.pure]
    by_cases h0 : hcode[i]'(by omega) = 0
    · rw [if_pos h0]
      refine ⟨i, false, rfl, hi, ?_⟩
      rw [if_neg (by decide), List.getElem?_eq_getElem (by omega), h0]
    · rw [if_neg h0, getD_get hval i (by omega)]
      simp only []
      by_cases h1 : hval[i]'(by omega) = value
      · rw [if_pos h1]
        refine ⟨i, true, rfl, hi, ?_⟩
        rw [if_pos rfl]
        exact ⟨⟨_, List.getElem?_eq_getElem (by omega), h0⟩, by rw [List.getElem?_eq_getElem (by omega), h1]⟩
      · rw [if_neg h1]
        have hnext : (if i < disp then i + 5003 - disp else i - disp) = (i + (5003 - disp)) % 5003 := by
          split
          · rw [Nat.mod_eq_of_lt (by omega)]; omega
          · rw [show i + (5003 - disp) = i - disp + 5003 by omega, Nat.add_mod_right, Nat.mod_eq_of_lt (by omega)]
        rw [hnext]
        refine ih _ (Nat.mod_lt _ (by decide)) ?_
        cases k with
        | zero =>
          rw [Nat.zero_mul, Nat.add_zero, Nat.mod_eq_of_lt hi, List.getElem?_eq_getElem (by omega)] at hz
          exact absurd (Option.some.inj hz) h0
        | succ k =>
          refine ⟨k, by omega, ?_⟩
          rw [Nat.mod_add_mod, show i + (5003 - disp) + k * (5003 - disp) = i + (k + 1) * (5003 - disp) by ring]
          exact hz

theorem reach (i s z : Nat) (hi : i < 5003) (hs : 1 ≤ s) (hs2 : s < 5003) (hz : z < 5003) : ∃ k, k < 5003 ∧ (i + k * s) % 5003 = z := by
  have hp : Nat.Prime 5003 := by norm_num
  have hco : Nat.Coprime s 5003 := by
    refine Nat.Coprime.symm ((Nat.Prime.coprime_iff_not_dvd hp).2 ?_)
    intro hd
    exact absurd (Nat.le_of_dvd (by omega) hd) (by omega)
  obtain ⟨m, -, hm⟩ := Nat.exists_mul_mod_eq_one_of_coprime hco (by decide)
  refine ⟨(m * (z + 5003 - i)) % 5003, Nat.mod_lt _ (by decide), ?_⟩
  have h1 : (i + (m * (z + 5003 - i)) % 5003 * s) ≡ z [MOD 5003] := by
    calc i + (m * (z + 5003 - i)) % 5003 * s ≡ i + m * (z + 5003 - i) * s [MOD 5003] := Nat.ModEq.add_left _ (Nat.ModEq.mul_right _ (Nat.mod_modEq _ _))
      _ = i + s * m * (z + 5003 - i) := by ring
      _ ≡ i + 1 * (z + 5003 - i) [MOD 5003] := Nat.ModEq.add_left _ (Nat.ModEq.mul_right _ (by unfold Nat.ModEq; rw [hm]))
      _ = z + 5003 := by omega
      _ ≡ z [MOD 5003] := by unfold Nat.ModEq; rw [Nat.add_mod_right]
  unfold Nat.ModEq at h1
  rw [h1, Nat.mod_eq_of_lt hz]

theorem probe_spec {ics : Nat} {ed : List (List Nat)} {hcode hval : List Nat} (h : Hash ics ed hcode hval) (hed : ed.length < 4096) (value i : Nat)
    (hi : i < 5003) :
    ∃ j hit, probe hcode hval value (if i = 0 then 1 else 5003 - i) 5003 i = .ok (j, hit) ∧ j < 5003 ∧
      (if hit then (∃ c, hcode[j]? = some c ∧ c ≠ 0) ∧ hval[j]? = some value else hcode[j]? = some 0) := by
  have hzero : ∃ z : Nat, z < 5003 ∧ hcode[z]? = some 0 := by
    by_contra hcn
    have hall : hcode.countP (fun x => x ≠ 0) = hcode.length := by
      rw [List.countP_eq_length]
      intro x hx
      obtain ⟨z, hz, e⟩ := List.getElem_of_mem hx
      rw [decide_eq_true_eq]
      intro h0
      exact hcn ⟨z, by rw [← h.lenc]; exact hz, by rw [List.getElem?_eq_getElem hz, e, h0]⟩
    have := h.count
    rw [hall, h.lenc] at this
    omega
  obtain ⟨z, hz1, hz2⟩ := hzero
  refine probe_run hcode hval value _ h.lenc h.lenv (by split <;> omega) (by split <;> omega) 5003 i hi ?_
  obtain ⟨k, hk1, hk2⟩ := reach i (5003 - (if i = 0 then 1 else 5003 - i)) z hi (by split <;> omega) (by split <;> omega) hz1
  exact ⟨k, hk1, by rw [hk2]; exact hz2⟩

theorem countP_set_le (l : List Nat) : ∀ (j x : Nat), (l.set j x).countP (fun x => x ≠ 0) ≤ l.countP (fun x => x ≠ 0) + 1 := by
  induction l with
  | nil => intro j x; simp
  | cons a l ih =>
    intro j x
    cases j with
    | zero =>
      rw [List.set_cons_zero, List.countP_cons, List.countP_cons]
      split <;> split <;> omega
    | succ j =>
      rw [List.set_cons_succ, List.countP_cons, List.countP_cons]
      have := ih j x
      omega

theorem Hash.insert {ics : Nat} {ed : List (List Nat)} {hcode hval : List Nat} (h : Hash ics ed hcode hval) (j waiting c : Nat) (w : List Nat)
    (hj : j < 5003) (hc : c < 256) (hw : textOf ics ed waiting = some w) :
    Hash ics (ed ++ [w ++ [c]]) (hcode.set j (2 ^ ics + 2 + ed.length)) (hval.set j (waiting * 256 + c)) := by
  refine ⟨by rw [List.length_set, h.lenc], by rw [List.length_set, h.lenv], ?_, ?_⟩
  · intro i x hx hx0
    by_cases hij : i = j
    · subst hij
      rw [List.getElem?_set_self (by rw [h.lenc]; exact hj)] at hx
      refine ⟨waiting * 256 + c, w, List.getElem?_set_self (by rw [h.lenv]; exact hj), ?_, ?_⟩
      · rw [show (waiting * 256 + c) / 256 = waiting by omega]; exact textOf_append hw _
      · rw [show (waiting * 256 + c) % 256 = c by omega, ← Option.some.inj hx]; exact textOf_last _ _ _
    · rw [List.getElem?_set_ne (by omega)] at hx
      obtain ⟨v, s, h1, h2, h3⟩ := h.sound i x hx hx0
      exact ⟨v, s, by rw [List.getElem?_set_ne (by omega)]; exact h1, textOf_append h2 _, textOf_append h3 _⟩
  · have := countP_set_le hcode j (2 ^ ics + 2 + ed.length)
    have := h.count
    rw [List.length_append, List.length_singleton]
    omega

theorem Hash.empty (ics : Nat) (hval : List Nat) (hv : hval.length = 5003) : Hash ics [] (List.replicate 5003 0) hval := by
  refine ⟨List.length_replicate, hv, ?_, ?_⟩
  · intro i c hc h0
    have := List.eq_of_mem_replicate (List.mem_of_getElem? hc)
    exact absurd this h0
  · have : (List.replicate 5003 0).countP (fun x : Nat => x ≠ 0) = 0 := by
      rw [List.countP_eq_zero]
      intro x hx
      rw [List.eq_of_mem_replicate hx]; decide
    rw [this]; exact Nat.zero_le _

end Verif.Gif
