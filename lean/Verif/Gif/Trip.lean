import Verif.Gif.Round
/-
The compressor of the GIF writer, and its mode without compression.
-/
namespace Verif.Gif

/-- The largest code of a width. -/
def maxOf (n : Nat) : Nat := if n = 12 then 4096 else 2 ^ n - 1

theorem maxOf_12 : maxOf 12 = 4096 := rfl

/-- The compressor has read the pixels `t ++ w` and written codes of text `t`; `w` is the text of the waiting code; `d` and `ed` are the strings of
the decoder and of the compressor. -/
structure Inv (ics : Nat) (e : Enc) (V N : Nat) (d ed : List (List Nat)) (prev : Option (List Nat)) (t w : List Nat) : Prop where
  packed : Packed e V N
  dec : Decoded ics V N d prev t
  init : e.initBits = ics + 1
  hash : Hash ics ed e.hcode e.hval
  free : e.free = 2 ^ ics + 2 + ed.length
  full : e.free ≤ 4096
  nBits : e.nBits = width (2 ^ ics + 2 + d.length)
  maxcode : e.maxcode = maxOf e.nBits
  first : e.first = false
  wait : textOf ics ed e.waiting = some w
  wne : w ≠ []
  rel : prev = none ∧ d = [] ∧ ed = [] ∨ ∃ p, prev = some p ∧ p ≠ [] ∧ ed = d ++ [p ++ w.take 1]

theorem grow (m : Nat) (hm : m < 4096) (h0 : m ≠ 0) : (if m + 1 > maxOf (width m) then width m + 1 else width m) = width (m + 1) ∧
    (if m + 1 > maxOf (width m) then (if width m + 1 = 12 then 4096 else 2 ^ (width m + 1) - 1) else maxOf (width m)) = maxOf (width (m + 1)) := by
  have hs := width_succ m h0
  have hp := Nat.two_pow_pos (width m)
  have hle := width_le m
  by_cases h12 : width m = 12
  · rw [h12] at hs ⊢
    rw [if_neg (by omega)] at hs
    rw [hs, maxOf_12, if_neg (by omega), if_neg (by omega)]
    exact ⟨rfl, maxOf_12.symm⟩
  · have hmx : maxOf (width m) = 2 ^ width m - 1 := by unfold maxOf; rw [if_neg h12]
    rw [hmx]
    by_cases hg : m + 1 ≥ 2 ^ width m
    · rw [if_pos (by omega), if_pos (by omega)]
      rw [if_pos ⟨hg, by omega⟩] at hs
      rw [hs]
      exact ⟨rfl, rfl⟩
    · rw [if_neg (by omega), if_neg (by omega)]
      rw [if_neg (by omega)] at hs
      rw [hs]
      exact ⟨rfl, hmx.symm⟩

theorem nogrow (m : Nat) (hm : m < 4096) : ¬ m > maxOf (width m) := by
  have h := lt_width m m hm (le_refl _)
  unfold maxOf
  split <;> omega

/-- The waiting code is written. -/
theorem emit (ics : Nat) (hi : 2 ≤ ics ∧ ics ≤ 8) {e : Enc} {V N : Nat} {d ed : List (List Nat)} {prev : Option (List Nat)} {t w : List Nat}
    (h : Inv ics e V N d ed prev t w) :
    ∃ V' N', Packed (e.output e.waiting) V' N' ∧ Decoded ics V' N' ed (some w) (t ++ w) ∧
      (e.output e.waiting).nBits = width (2 ^ ics + 2 + ed.length) ∧ (e.output e.waiting).maxcode = maxOf (width (2 ^ ics + 2 + ed.length)) ∧
      (e.output e.waiting).initBits = ics + 1 ∧ (e.output e.waiting).first = false ∧ (e.output e.waiting).free = e.free ∧
      (e.output e.waiting).hcode = e.hcode ∧ (e.output e.waiting).hval = e.hval ∧ (e.output e.waiting).waiting = e.waiting := by
  have hpow : 2 ^ ics ≤ 256 := clear_le hi.2
  have hwl := textOf_lt h.wait
  have hfull := h.full
  have hfree := h.free
  rcases h.rel with ⟨r1, r2, r3⟩ | ⟨p, r1, r2, r3⟩
  · -- the first code after Clear
    subst r1 r2 r3
    simp only [List.length_nil, Nat.add_zero] at *
    have hcl : e.waiting < 2 ^ ics := by
      have := h.wait
      unfold textOf at this
      split at this
      · assumption
      · first | cases this | (split at this <;> cases this)
    have hw : w = [e.waiting] := by
      have := h.wait
      unfold textOf at this
      rw [if_pos hcl] at this
      exact (Option.some.inj this).symm
    have hlt := lt_width (2 ^ ics + 2) e.waiting (by omega) (by omega)
    have hnb := h.nBits
    simp only [List.length_nil, Nat.add_zero] at hnb
    obtain ⟨o1, o2, o3, o4, o5, o6, o7, o8, o9, o10⟩ := output_spec e V N e.waiting h.packed (by rw [hnb]; exact hlt)
    have hng := nogrow (2 ^ ics + 2) (by omega)
    have hmx := h.maxcode
    rw [hnb] at hmx
    rw [if_neg (by rw [hmx, hfree]; exact hng)] at o2 o3
    refine ⟨_, _, o1, ?_, by rw [o2, hnb], by rw [o3, hmx], by rw [o4, h.init], by rw [o6, h.first], o7, o9, o10, o5⟩
    rw [hw]
    exact h.dec.step (Step.first ics e.waiting e.nBits hnb hcl (by rw [hnb]; exact hlt))
  · subst r1
    have hlen : ed.length = d.length + 1 := by rw [r3, List.length_append, List.length_singleton]
    have hlt := lt_width (2 ^ ics + 2 + d.length) e.waiting (by omega) (by omega)
    obtain ⟨o1, o2, o3, o4, o5, o6, o7, o8, o9, o10⟩ := output_spec e V N e.waiting h.packed (by rw [h.nBits]; exact hlt)
    have hgrow := grow (2 ^ ics + 2 + d.length) (by clear o1 o2 o3 o4 o5 o6 o7 o8 o9 o10 hlt; omega) (by clear o1 o2 o3 o4 o5 o6 o7 o8 o9 o10 hlt; have := Nat.two_pow_pos ics; omega)
    have hmx := h.maxcode
    rw [h.nBits] at hmx
    have hf1 : e.free = 2 ^ ics + 2 + d.length + 1 := by omega
    rw [hf1, h.nBits, hmx] at o2 o3
    rw [hgrow.1] at o2
    rw [hgrow.2] at o3
    rw [show 2 ^ ics + 2 + ed.length = 2 ^ ics + 2 + d.length + 1 by omega]
    refine ⟨_, _, o1, ?_, o2, o3, by rw [o4, h.init], by rw [o6, h.first], o7, o9, o10, o5⟩
    have hs := Step.next ics d p w e.waiting e.nBits h.nBits (by rw [h.nBits]; exact hlt) r2 (by rw [← r3]; exact h.wait) (by omega)
    rw [← r3] at hs
    exact h.dec.step hs

/-- One pixel. -/
theorem pixel_spec (ics : Nat) (hi : 2 ≤ ics ∧ ics ≤ 8) {e : Enc} {V N : Nat} {d ed : List (List Nat)} {prev : Option (List Nat)} {t w : List Nat}
    (h : Inv ics e V N d ed prev t w) (c : Nat) (hc : c < 2 ^ ics) :
    ∃ f V' N' d' ed' prev' t' w', e.pixel c = .ok f ∧ Inv ics f V' N' d' ed' prev' t' w' ∧ t' ++ w' = t ++ w ++ [c] := by
  have hpow : 2 ^ ics ≤ 256 := clear_le hi.2
  have hwl := textOf_lt h.wait
  have hfull := h.full
  have hfree := h.free
  unfold Enc.pixel
  rw [h.first]
  simp only [Bool.false_eq_true, if_false]
  have hidx : (if c * 16 + e.waiting ≥ 5003 then c * 16 + e.waiting - 5003 else c * 16 + e.waiting) < 5003 := by split <;> omega
  obtain ⟨j, hit, e1, e2, e3⟩ := probe_spec h.hash (by omega) (e.waiting * 256 + c) _ hidx
  rw [e1]
  simp only [bind, Except.bind, pure, Except.pure]
  cases hit with
  | true =>
    rw [if_pos rfl] at e3
    obtain ⟨⟨x, hx1, hx2⟩, hv⟩ := e3
    obtain ⟨v, s, g1, g2, g3⟩ := h.hash.sound j x hx1 hx2
    rw [hv] at g1
    obtain rfl := Option.some.inj g1
    rw [show (e.waiting * 256 + c) / 256 = e.waiting by omega, h.wait] at g2
    obtain rfl := Option.some.inj g2
    rw [show (e.waiting * 256 + c) % 256 = c by omega] at g3
    simp only [if_true, at?, hx1]
    refine ⟨_, V, N, d, ed, prev, t, w ++ [c], rfl, ?_, by rw [List.append_assoc]⟩
    refine ⟨⟨h.packed.pkt, h.packed.bits, h.packed.accum, h.packed.blocks⟩, h.dec, h.init, h.hash, h.free, h.full, h.nBits, h.maxcode, rfl, g3,
      by simp, ?_⟩
    rcases h.rel with r | ⟨p, r1, r2, r3⟩
    · exact Or.inl r
    · refine Or.inr ⟨p, r1, r2, ?_⟩
      rw [r3]
      cases hw : w with
      | nil => exact absurd hw h.wne
      | cons y w => rfl
  | false =>
    rw [if_neg (by decide)] at e3
    obtain ⟨V', N', m1, m2, m3, m4, m5, m6, m7, m8, m9, m10⟩ := emit ics hi h
    simp only [Bool.false_eq_true, if_false]
    generalize e.output e.waiting = f at *
    by_cases hroom : f.free < 4096
    · rw [if_pos hroom]
      unfold put
      rw [if_pos (by rw [m8, h.hash.lenc]; exact e2), if_pos (by rw [m9, h.hash.lenv]; exact e2)]
      refine ⟨_, V', N', ed, ed ++ [w ++ [c]], some w, t ++ w, [c], rfl, ?_, rfl⟩
      refine ⟨⟨m1.pkt, m1.bits, m1.accum, m1.blocks⟩, m2, m5, ?_, ?_, ?_, m3, ?_, m6, ?_, by simp, Or.inr ⟨w, rfl, h.wne, rfl⟩⟩
      · show Hash ics _ (f.hcode.set j f.free) (f.hval.set j (e.waiting * 256 + c))
        rw [m7, m8, m9, hfree]
        exact h.hash.insert j e.waiting c w e2 (by omega) h.wait
      · show f.free + 1 = _
        rw [m7, hfree, List.length_append, List.length_singleton]; omega
      · show f.free + 1 ≤ 4096
        omega
      · show f.maxcode = maxOf f.nBits
        rw [m4, m3]
      · show textOf ics _ c = some [c]
        unfold textOf; rw [if_pos hc]
    · rw [if_neg hroom]
      have hed : 2 ^ ics + 2 + ed.length = 4096 := by rw [m7] at hroom; omega
      have hclear : f.clear = 2 ^ ics := by unfold Enc.clear; rw [m5]; rfl
      rw [hed] at m3 m4
      have hw12 : width 4096 = 12 := by decide
      rw [hw12] at m3 m4
      have hc12 : 2 ^ ics < 2 ^ 12 := by
        have : (2 : Nat) ^ 12 = 4096 := by decide
        omega
      have hp : Packed { f with hcode := List.replicate 5003 0, free := f.clear + 2 } V' N' := ⟨m1.pkt, m1.bits, m1.accum, m1.blocks⟩
      obtain ⟨o1, o2, o3, o4, o5, o6, o7, o8, o9, o10⟩ := output_spec { f with hcode := List.replicate 5003 0, free := f.clear + 2 } V' N' f.clear hp
        (by show f.clear < 2 ^ f.nBits; rw [m3, hclear]; exact hc12)
      unfold Enc.clearBlock
      simp only [] at o1 o2 o3 o4 o5 o6 o7 o8 o9 o10 ⊢
      generalize Enc.output { f with hcode := List.replicate 5003 0, free := f.clear + 2 } f.clear = g at *
      have hstep := Step.clear ics ed (some w) f.nBits (by rw [hed, hw12, m3]) (by rw [m3]; exact hc12)
      have hdec := m2.step hstep
      rw [List.append_nil] at hdec
      rw [hclear] at o1 o7
      refine ⟨_, V' + 2 ^ N' * 2 ^ ics, N' + f.nBits, [], [], none, t ++ w, [c], rfl, ?_, rfl⟩
      refine ⟨⟨o1.pkt, o1.bits, o1.accum, o1.blocks⟩, hdec, by show g.initBits = ics + 1; rw [o4, m5], ?_, ?_, ?_, ?_, ?_, ?_, ?_, by simp, Or.inl ⟨rfl, rfl, rfl⟩⟩
      · show Hash ics [] g.hcode g.hval
        rw [o9, o10, m9]; exact Hash.empty ics _ h.hash.lenv
      · show g.free = _
        rw [o7]; rfl
      · show g.free ≤ 4096
        rw [o7]; omega
      · show g.initBits = _
        rw [o4, m5]; exact (width_first ics hi).symm
      · show 2 ^ g.initBits - 1 = maxOf g.initBits
        rw [o4, m5]; unfold maxOf; rw [if_neg (by omega)]
      · show g.first = false
        rw [o6, m6]
      · show textOf ics _ c = some [c]
        unfold textOf; rw [if_pos hc]

theorem pixels_spec (ics : Nat) (hi : 2 ≤ ics ∧ ics ≤ 8) : ∀ (px : List Nat) (e : Enc) (V N : Nat) (d ed : List (List Nat)) (prev : Option (List Nat))
    (t w : List Nat), Inv ics e V N d ed prev t w → (∀ c ∈ px, c < 2 ^ ics) →
    ∃ f V' N' d' ed' prev' t' w', Enc.pixels px e = .ok f ∧ Inv ics f V' N' d' ed' prev' t' w' ∧ t' ++ w' = t ++ w ++ px := by
  intro px
  induction px with
  | nil => intro e V N d ed prev t w h _; exact ⟨e, V, N, d, ed, prev, t, w, rfl, h, by simp⟩
  | cons c px ih =>
    intro e V N d ed prev t w h hpx
    obtain ⟨f, V1, N1, d1, ed1, prev1, t1, w1, g1, g2, g3⟩ := pixel_spec ics hi h c (hpx c (by simp))
    obtain ⟨f', V2, N2, d2, ed2, prev2, t2, w2, k1, k2, k3⟩ := ih f V1 N1 d1 ed1 prev1 t1 w1 g2 (fun x hx => hpx x (by simp [hx]))
    refine ⟨f', V2, N2, d2, ed2, prev2, t2, w2, ?_, k2, by rw [k3, g3]; simp⟩
    unfold Enc.pixels
    rw [g1]
    exact k1

/-- The end: End, and the rest of the bits. -/
theorem finish (ics : Nat) {e : Enc} {V N : Nat} {d : List (List Nat)} {prev : Option (List Nat)} {t : List Nat} (hp : Packed e V N)
    (hd : Decoded ics V N d prev t) (hi : e.initBits = ics + 1) (hn : e.nBits = width (2 ^ ics + 2 + d.length)) (hl : 2 ^ ics + 2 + d.length ≤ 4096) :
    ∃ data P n, (let f := e.output (e.clear + 1)
                 (if f.curBits > 0 then f.charOut (f.accum % 256) else f).flush.out ++ [0]) = data ∧ Payload data P ∧ Bytes data ∧
      strings ics n (val P) (8 * P.length) [] none = t := by
  have hclear : e.clear = 2 ^ ics := by unfold Enc.clear; rw [hi]; rfl
  have hlt : 2 ^ ics + 1 < 2 ^ e.nBits := by
    rw [hn]
    by_cases h : 2 ^ ics + 2 + d.length < 4096
    · exact lt_width _ _ h (by omega)
    · rw [show 2 ^ ics + 2 + d.length = 4096 by omega, show width 4096 = 12 by decide, show (2 : Nat) ^ 12 = 4096 by decide]
      have : 2 ^ ics < 4095 := by omega
      omega
  obtain ⟨o1, -⟩ := output_spec e V N (e.clear + 1) hp (by rw [hclear]; exact hlt)
  obtain ⟨P, p1, p2, p3, p4⟩ := flush_spec _ _ _ o1
  obtain ⟨k, hk⟩ := hd
  refine ⟨_, P, k + 1, rfl, p1, p2, ?_⟩
  have h2 := hk 1 (2 ^ ics + 1 + 2 ^ e.nBits * 0) (e.nBits + (8 * P.length - (N + e.nBits)))
  rw [← p3, hclear, show V + 2 ^ N * (2 ^ ics + 1) = V + 2 ^ N * (2 ^ ics + 1 + 2 ^ e.nBits * 0) by simp,
    show 8 * P.length = N + (e.nBits + (8 * P.length - (N + e.nBits))) by omega, h2]
  have hs : strings ics 1 (2 ^ ics + 1 + 2 ^ e.nBits * 0) (e.nBits + (8 * P.length - (N + e.nBits))) d prev = [] := by
    obtain ⟨e1, e2, e3, e4⟩ := step_gen ics d prev (2 ^ ics + 1) e.nBits hn hlt 0 0 (8 * P.length - (N + e.nBits))
    simp only [strings, ← hn, e1, e2, e3]
    rw [if_neg e4, if_neg (by omega)]
    cases prev with
    | none => simp
    | some p => simp
  rw [hs, List.append_nil]

theorem init_spec (ics : Nat) (hi : 2 ≤ ics ∧ ics ≤ 8) (hval : List Nat) :
    ∃ V N, Packed (Enc.init (ics + 1) hval) V N ∧ Decoded ics V N [] none [] ∧ (Enc.init (ics + 1) hval).initBits = ics + 1 ∧
      (Enc.init (ics + 1) hval).nBits = ics + 1 ∧ (Enc.init (ics + 1) hval).maxcode = 2 ^ (ics + 1) - 1 ∧
      (Enc.init (ics + 1) hval).free = 2 ^ ics + 2 ∧ (Enc.init (ics + 1) hval).counter = 2 ^ ics + 2 ∧ (Enc.init (ics + 1) hval).first = true ∧
      (Enc.init (ics + 1) hval).hcode = List.replicate 5003 0 ∧ (Enc.init (ics + 1) hval).hval = hval := by
  have h4 : 4 ≤ 2 ^ ics := by
    have : 2 ^ 2 ≤ 2 ^ ics := Nat.pow_le_pow_right (by decide) hi.1
    omega
  have hp2 : 2 ^ (ics + 1) = 2 * 2 ^ ics := by rw [Nat.pow_succ]; ring
  have hp : Packed { nBits := ics + 1, maxcode := 2 ^ (ics + 1) - 1, initBits := ics + 1, accum := 0, curBits := 0, waiting := 0, first := true, free := 2 ^ ics + 2, counter := 2 ^ ics + 2, hcode := List.replicate 5003 0, hval := hval, pkt := [], out := [] } 0 0 :=
    ⟨by show 0 < 255; decide, by show 0 < 8; decide, by show 0 < 2 ^ 0; decide, [], fun rest pl h => h,
      ⟨fun x hx => absurd hx List.not_mem_nil, fun x hx => absurd hx List.not_mem_nil⟩, by simp [val], by simp⟩
  obtain ⟨o1, o2, o3, o4, o5, o6, o7, o8, o9, o10⟩ := output_spec _ 0 0 (2 ^ ics) hp (by show 2 ^ ics < 2 ^ (ics + 1); omega)
  simp only [] at o1 o2 o3 o4 o5 o6 o7 o8 o9 o10
  rw [if_neg (by omega)] at o2 o3
  have heq : Enc.init (ics + 1) hval = ({ nBits := ics + 1, maxcode := 2 ^ (ics + 1) - 1, initBits := ics + 1, accum := 0, curBits := 0, waiting := 0, first := true, free := 2 ^ ics + 2, counter := 2 ^ ics + 2, hcode := List.replicate 5003 0, hval := hval, pkt := [], out := [] } : Enc).output (2 ^ ics) := rfl
  rw [heq]
  refine ⟨_, _, o1, ?_, o4, o2, o3, o7, o8, o6, o9, o10⟩
  have := (Decoded.start ics).step (Step.clear ics [] none (ics + 1) (width_first ics hi).symm (by omega))
  exact this

/-- The compressed data of any pixels are sub-blocks that hold codes of exactly these pixels as text; the search in the hash table always ends. -/
theorem lzwData_spec (ics : Nat) (hi : 2 ≤ ics ∧ ics ≤ 8) (hval px : List Nat) (hv : hval.length = 5003) (hpx : ∀ c ∈ px, c < 2 ^ ics) :
    ∃ data P n, lzwData ics hval px = .ok data ∧ Payload data P ∧ (∀ b ∈ data, b < 256) ∧ strings ics n (val P) (8 * P.length) [] none = px := by
  have hpow : 2 ^ ics ≤ 256 := clear_le hi.2
  have hwf := width_first ics hi
  obtain ⟨V, N, i1, i2, i3, i4, i5, i6, i7, i8, i9, i10⟩ := init_spec ics hi hval
  generalize hE : Enc.init (ics + 1) hval = e0 at *
  unfold lzwData
  rw [hE]
  cases px with
  | nil =>
    obtain ⟨data, P, n, f1, f2, f3, f4⟩ := finish ics i1 i2 i3 (by rw [i4]; exact hwf.symm) (by simp; omega)
    refine ⟨data, P, n, ?_, f2, f3, f4⟩
    show (Except.ok (e0.term.out ++ [0]) : R (List Nat)) = _
    rw [← f1]
    unfold Enc.term
    simp only [i8, if_true]
  | cons c px =>
    have hstart : Inv ics { e0 with waiting := c, first := false } V N [] [] none [] [c] := by
      refine ⟨⟨i1.pkt, i1.bits, i1.accum, i1.blocks⟩, i2, i3, ?_, i6, by show e0.free ≤ 4096; rw [i6]; omega, ?_, ?_, rfl, ?_, by simp,
        Or.inl ⟨rfl, rfl, rfl⟩⟩
      · show Hash ics [] e0.hcode e0.hval
        rw [i9, i10]; exact Hash.empty ics hval hv
      · show e0.nBits = _
        rw [i4]; exact hwf.symm
      · show e0.maxcode = maxOf e0.nBits
        rw [i5, i4]; unfold maxOf; rw [if_neg (by omega)]
      · show textOf ics [] c = some [c]
        unfold textOf; rw [if_pos (hpx c (by simp))]
    obtain ⟨f, V1, N1, d1, ed1, prev1, t1, w1, g1, g2, g3⟩ := pixels_spec ics hi px _ V N [] [] none [] [c] hstart (fun x hx => hpx x (by simp [hx]))
    obtain ⟨V2, N2, m1, m2, m3, m4, m5, m6, m7, m8, m9, m10⟩ := emit ics hi g2
    obtain ⟨data, P, n, f1, f2, f3, f4⟩ := finish ics m1 m2 m5 m3 (by have := g2.free; have := g2.full; omega)
    refine ⟨data, P, n, ?_, f2, f3, by rw [f4, g3]; rfl⟩
    have hpxs : Enc.pixels (c :: px) e0 = .ok f := by
      unfold Enc.pixels Enc.pixel
      rw [i8]
      exact g1
    rw [hpxs]
    show (Except.ok (f.term.out ++ [0]) : R (List Nat)) = _
    rw [← f1]
    unfold Enc.term
    have hff := g2.first
    simp only [hff, Bool.false_eq_true, if_false]

end Verif.Gif
