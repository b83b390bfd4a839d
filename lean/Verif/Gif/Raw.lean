import Verif.Gif.Trip
/-
The GIF writer without compression: the code width never changes.
-/
namespace Verif.Gif

theorem width_eq (ics m : Nat) (hi : ics ≤ 11) (h1 : 2 ^ ics ≤ m) (h2 : m < 2 ^ (ics + 1)) : width m = ics + 1 := by
  have h0 : m ≠ 0 := by have := Nat.two_pow_pos ics; omega
  have : m.log2 = ics := by
    have a := (Nat.le_log2 h0).2 h1
    have b := (Nat.log2_lt h0).2 h2
    omega
  unfold width
  rw [this]; omega

theorem Step.colour (ics : Nat) (d : List (List Nat)) (p : List Nat) (c w : Nat) (hw : w = width (2 ^ ics + 2 + d.length)) (hc : c < 2 ^ ics)
    (hcw : c < 2 ^ w) (hp : p ≠ []) (hd : 2 ^ ics + 2 + d.length < 4096) : Step ics d (some p) c w (d ++ [p ++ [c]]) (some [c]) [c] := by
  have h := Step.next ics d p [c] c w hw hcw hp (by unfold textOf; rw [if_pos hc]) hd
  exact h

/-- `k` codes since Clear. -/
structure Inv0 (ics k : Nat) (e : Enc) (V N : Nat) (d : List (List Nat)) (prev : Option (List Nat)) (t : List Nat) : Prop where
  packed : Packed e V N
  dec : Decoded ics V N d prev t
  init : e.initBits = ics + 1
  nBits : e.nBits = ics + 1
  maxcode : e.maxcode = 2 ^ (ics + 1) - 1
  free : e.free = 2 ^ ics + 2
  counter : e.counter = 2 ^ ics + 2 + k
  room : 2 ^ ics + 2 + k < 2 ^ (ics + 1)
  first : e.first = true
  rel : k = 0 ∧ prev = none ∧ d = [] ∨ ∃ p, prev = some p ∧ p ≠ [] ∧ d.length + 1 = k

theorem rawPixel_spec (ics : Nat) (hi : 2 ≤ ics ∧ ics ≤ 8) {k : Nat} {e : Enc} {V N : Nat} {d : List (List Nat)} {prev : Option (List Nat)} {t : List Nat}
    (h : Inv0 ics k e V N d prev t) (c : Nat) (hc : c < 2 ^ ics) :
    ∃ k' V' N' d' prev', Inv0 ics k' (e.rawPixel c) V' N' d' prev' (t ++ [c]) := by
  have hpow : 2 ^ ics ≤ 256 := clear_le hi.2
  have h4 : 4 ≤ 2 ^ ics := by
    have : 2 ^ 2 ≤ 2 ^ ics := Nat.pow_le_pow_right (by decide) hi.1
    omega
  have hp2 : 2 ^ (ics + 1) = 2 * 2 ^ ics := by rw [Nat.pow_succ]; ring
  have hroom := h.room
  obtain ⟨o1, o2, o3, o4, o5, o6, o7, o8, o9, o10⟩ := output_spec e V N c h.packed (by rw [h.nBits]; omega)
  have hng : ¬ e.free > e.maxcode := by rw [h.free, h.maxcode]; omega
  rw [if_neg hng] at o2 o3
  -- the decoder
  have hdec : ∃ d' p', Decoded ics (V + 2 ^ N * c) (N + e.nBits) d' (some p') (t ++ [c]) ∧ p' ≠ [] ∧ d'.length = k := by
    rcases h.rel with ⟨r1, r2, r3⟩ | ⟨p, r1, r2, r3⟩
    · subst r1 r2 r3
      refine ⟨[], [c], h.dec.step (Step.first ics c e.nBits ?_ hc (by rw [h.nBits]; omega)), by simp, rfl⟩
      rw [h.nBits, width_first ics hi]
    · subst r1
      refine ⟨d ++ [p ++ [c]], [c], h.dec.step (Step.colour ics d p c e.nBits ?_ hc (by rw [h.nBits]; omega) r2 (by omega)), by simp,
        by rw [List.length_append, List.length_singleton]; omega⟩
      rw [h.nBits, width_eq ics _ (by omega) (by omega) (by omega)]
  obtain ⟨d', p', q1, q2, q3⟩ := hdec
  unfold Enc.rawPixel
  simp only []
  generalize e.output c = f at *
  by_cases hlt : f.counter < f.maxcode
  · rw [if_pos hlt]
    have hlt' := hlt
    rw [o8, h.counter, o3, h.maxcode] at hlt'
    exact ⟨k + 1, _, _, d', some p', ⟨o1.pkt, o1.bits, o1.accum, o1.blocks⟩, q1, by show f.initBits = _; rw [o4, h.init],
      by show f.nBits = _; rw [o2, h.nBits], by show f.maxcode = _; rw [o3, h.maxcode], by show f.free = _; rw [o7, h.free],
      by show f.counter + 1 = _; rw [o8, h.counter]; omega, by omega, by show f.first = _; rw [o6, h.first],
      Or.inr ⟨p', rfl, q2, by omega⟩⟩
  · rw [if_neg hlt]
    have hclear : f.clear = 2 ^ ics := by unfold Enc.clear; rw [o4, h.init]; rfl
    obtain ⟨u1, u2, u3, u4, u5, u6, u7, u8, u9, u10⟩ := output_spec f _ _ f.clear o1 (by rw [o2, h.nBits, hclear]; omega)
    rw [if_neg (by rw [o7, o3]; exact hng)] at u2 u3
    have hdec2 := q1.step (Step.clear ics d' (some p') f.nBits (by rw [o2, h.nBits, q3, width_eq ics _ (by omega) (by omega) (by omega)])
      (by rw [o2, h.nBits]; omega))
    rw [List.append_nil] at hdec2
    have u1' := u1
    rw [hclear] at u1' ⊢
    rw [hclear] at u2 u3 u4 u5 u6 u7 u8 u9 u10
    generalize f.output (2 ^ ics) = g at *
    exact ⟨0, _, _, [], none, ⟨u1'.pkt, u1'.bits, u1'.accum, u1'.blocks⟩, hdec2, by show g.initBits = _; rw [u4, o4, h.init],
      by show g.nBits = _; rw [u2, o2, h.nBits], by show g.maxcode = _; rw [u3, o3, h.maxcode], by show g.free = _; rw [u7, o7, h.free],
      rfl, by omega, by show g.first = _; rw [u6, o6, h.first], Or.inl ⟨rfl, rfl, rfl⟩⟩

theorem rawPixels_spec (ics : Nat) (hi : 2 ≤ ics ∧ ics ≤ 8) : ∀ (px : List Nat) (k : Nat) (e : Enc) (V N : Nat) (d : List (List Nat))
    (prev : Option (List Nat)) (t : List Nat), Inv0 ics k e V N d prev t → (∀ c ∈ px, c < 2 ^ ics) →
    ∃ k' V' N' d' prev', Inv0 ics k' (px.foldl Enc.rawPixel e) V' N' d' prev' (t ++ px) := by
  intro px
  induction px with
  | nil => intro k e V N d prev t h _; exact ⟨k, V, N, d, prev, by rw [List.append_nil]; exact h⟩
  | cons c px ih =>
    intro k e V N d prev t h hpx
    obtain ⟨k1, V1, N1, d1, prev1, g⟩ := rawPixel_spec ics hi h c (hpx c (by simp))
    obtain ⟨k2, V2, N2, d2, prev2, g2⟩ := ih k1 _ V1 N1 d1 prev1 _ g (fun x hx => hpx x (by simp [hx]))
    exact ⟨k2, V2, N2, d2, prev2, by rw [List.append_assoc] at g2; exact g2⟩

/-- The uncompressed data of any pixels are sub-blocks that hold codes of exactly these pixels as text. -/
theorem rawData_spec (ics : Nat) (hi : 2 ≤ ics ∧ ics ≤ 8) (px : List Nat) (hpx : ∀ c ∈ px, c < 2 ^ ics) :
    ∃ P n, Payload (rawData ics px) P ∧ (∀ b ∈ rawData ics px, b < 256) ∧ strings ics n (val P) (8 * P.length) [] none = px := by
  have hpow : 2 ^ ics ≤ 256 := clear_le hi.2
  have h4 : 4 ≤ 2 ^ ics := by
    have : 2 ^ 2 ≤ 2 ^ ics := Nat.pow_le_pow_right (by decide) hi.1
    omega
  have hp2 : 2 ^ (ics + 1) = 2 * 2 ^ ics := by rw [Nat.pow_succ]; ring
  obtain ⟨V, N, i1, i2, i3, i4, i5, i6, i7, i8, i9, i10⟩ := init_spec ics hi []
  have h0 : Inv0 ics 0 (Enc.init (ics + 1) []) V N [] none [] := ⟨i1, i2, i3, i4, i5, i6, i7, by omega, i8, Or.inl ⟨rfl, rfl, rfl⟩⟩
  obtain ⟨k, V1, N1, d1, prev1, g⟩ := rawPixels_spec ics hi px 0 _ V N [] none [] h0 hpx
  rw [List.nil_append] at g
  have hroom := g.room
  have hd : d1.length ≤ k := by
    rcases g.rel with ⟨-, -, r⟩ | ⟨p, -, -, r⟩
    · rw [r]; exact Nat.zero_le _
    · omega
  obtain ⟨data, P, n, f1, f2, f3, f4⟩ := finish ics g.packed g.dec g.init
    (by rw [g.nBits, width_eq ics _ (by omega) (by omega) (by omega)]) (by omega)
  have hraw : rawData ics px = data := by
    rw [← f1]
    unfold rawData Enc.term
    simp only [g.first, if_true]
  rw [hraw]
  exact ⟨P, n, f2, f3, f4⟩

end Verif.Gif
