import Verif.Ppm.Content
/-
What the PPM reader makes of a well-formed file: pixels, rows, the whole file.
-/
namespace Verif.Ppm

/-- The colour of a pixel of a file: one sample (gray) or three (red, green, blue). -/
def colour (f : Nat → Nat) : List Nat → Nat × Nat × Nat
  | [v] => (f v, f v, f v)
  | [r, g, b] => (f r, f g, f b)
  | _ => (0, 0, 0)

theorem put_eq (i v : Nat) (b : List Nat) (h : i < b.length) : put i v b = .ok (b.set i v) := if_pos h

theorem Holds.frame {mx cs nc x : Nat} {sink : Sink} {rgb : Nat × Nat × Nat} {b b' : List Nat} (hs : SinkOk sink cs nc) (h : Holds mx cs x rgb b)
    (hf : ∀ j, x * nc ≤ j → j < x * nc + nc → b'[j]? = b[j]?) : Holds mx cs x rgb b' := by
  unfold Holds at h ⊢
  by_cases h1 : cs = 1
  · rw [if_pos h1] at h ⊢
    have hn : nc = 1 := by
      cases sink <;> simp only [SinkOk] at hs <;> try omega
      all_goals (rw [h1] at hs; exact absurd hs.1 (by decide))
    rw [hf x (by rw [hn]; omega) (by rw [hn]; omega)]
    exact h
  · rw [if_neg h1] at h ⊢
    by_cases h4 : cs = 4
    · rw [if_pos h4] at h ⊢
      have hn : nc = 4 := by
        cases sink <;> simp only [SinkOk] at hs <;> try omega
        all_goals (rw [h4] at hs; exact absurd hs.1 (by decide))
      subst hn
      simp only [] at h ⊢
      rw [hf (x * 4) (by omega) (by omega), hf (x * 4 + 1) (by omega) (by omega), hf (x * 4 + 2) (by omega) (by omega),
        hf (x * 4 + 3) (by omega) (by omega)]
      exact h
    · rw [if_neg h4] at h ⊢
      have hn : isExt cs = true ∧ nc = pSize cs := by
        cases sink <;> simp only [SinkOk] at hs <;> first | exact hs | omega
      obtain ⟨he, rfl⟩ := hn
      obtain ⟨l1, l2, l3, l4⟩ := layout cs he
      rw [hf _ (by omega) (by omega), hf _ (by omega) (by omega), hf _ (by omega) (by omega)]
      refine ⟨h.1, h.2.1, h.2.2.1, fun a ha => ?_⟩
      have := l4 a ha
      rw [hf _ (by omega) (by omega)]
      exact h.2.2.2 a ha

theorem distinct (cs : Nat) (h : isExt cs = true) : rIdx cs ≠ gIdx cs ∧ rIdx cs ≠ bIdx cs ∧ gIdx cs ≠ bIdx cs ∧ cs ≠ 1 ∧ cs ≠ 4 ∧
    ∀ a, aIdx cs = some a → a ≠ rIdx cs ∧ a ≠ gIdx cs ∧ a ≠ bIdx cs := by
  have : cs < 16 := by
    simp only [isExt, Bool.or_eq_true, Bool.and_eq_true, decide_eq_true_eq] at h; omega
  interval_cases cs <;> first | (exact absurd h (by decide)) |
    (refine ⟨by decide, by decide, by decide, by decide, by decide, ?_⟩; decide)

/-- Colour, then alpha. -/
theorem rgb_put (mx cs x r g b : Nat) (he : isExt cs = true) (buf c : List Nat) (hl : x * pSize cs + pSize cs ≤ buf.length)
    (hc : c.length = buf.length) (h1 : c[x * pSize cs + rIdx cs]? = some r) (h2 : c[x * pSize cs + gIdx cs]? = some g)
    (h3 : c[x * pSize cs + bIdx cs]? = some b) (hf : ∀ j, (j < x * pSize cs ∨ x * pSize cs + pSize cs ≤ j) → c[j]? = buf[j]?) :
    ∃ d, putAlpha mx cs (x * pSize cs) c = .ok d ∧ d.length = buf.length ∧ Holds mx cs x (r, g, b) d ∧
      ∀ j, (j < x * pSize cs ∨ x * pSize cs + pSize cs ≤ j) → d[j]? = buf[j]? := by
  obtain ⟨l1, l2, l3, l4⟩ := layout cs he
  obtain ⟨d1, d2, d3, n1, n4, d4⟩ := distinct cs he
  unfold putAlpha
  cases ha : aIdx cs with
  | none =>
    refine ⟨c, rfl, hc, ?_, hf⟩
    unfold Holds
    rw [if_neg n1, if_neg n4]
    refine ⟨h1, h2, h3, ?_⟩
    intro a e; rw [ha] at e; exact absurd e (by simp)
  | some a =>
    obtain ⟨e1, e2, e3⟩ := d4 a ha
    have la := l4 a ha
    refine ⟨_, put_eq _ _ _ (by omega), by simp [hc], ?_, ?_⟩
    · unfold Holds
      rw [if_neg n1, if_neg n4]
      refine ⟨?_, ?_, ?_, ?_⟩
      · rw [List.getElem?_set_ne (by omega)]; exact h1
      · rw [List.getElem?_set_ne (by omega)]; exact h2
      · rw [List.getElem?_set_ne (by omega)]; exact h3
      · intro a' e
        rw [ha] at e
        obtain rfl := Option.some.inj e
        rw [List.getElem?_set_self (by omega)]
    · intro j hj
      rw [List.getElem?_set_ne (by omega)]; exact hf j hj

theorem cmyk_put (mx x : Nat) (r g b : Nat) (buf : List Nat) (hl : x * 4 + 4 ≤ buf.length) :
    ∃ d, putCmyk mx (x * 4) r g b buf = .ok d ∧ d.length = buf.length ∧ Holds mx 4 x (r, g, b) d ∧
      ∀ j, (j < x * 4 ∨ x * 4 + 4 ≤ j) → d[j]? = buf[j]? := by
  unfold putCmyk
  simp only []
  rw [put_eq _ _ _ (by omega)]
  simp only [bind, Except.bind]
  rw [put_eq _ _ _ (by simp; omega)]
  simp only []
  rw [put_eq _ _ _ (by simp; omega)]
  simp only []
  rw [put_eq _ _ _ (by simp; omega)]
  refine ⟨_, rfl, by simp, ?_, ?_⟩
  · unfold Holds
    rw [if_neg (by decide), if_pos rfl]
    simp only []
    refine ⟨?_, ?_, ?_, ?_⟩
    · rw [List.getElem?_set_ne (by omega), List.getElem?_set_ne (by omega), List.getElem?_set_ne (by omega), List.getElem?_set_self (by omega)]
    · rw [List.getElem?_set_ne (by omega), List.getElem?_set_ne (by omega), List.getElem?_set_self (by simp; omega)]
    · rw [List.getElem?_set_ne (by omega), List.getElem?_set_self (by simp; omega)]
    · rw [List.getElem?_set_self (by simp; omega)]
  · intro j hj
    rw [List.getElem?_set_ne (by omega), List.getElem?_set_ne (by omega), List.getElem?_set_ne (by omega), List.getElem?_set_ne (by omega)]

/-- One pixel. -/
theorem pixel_read {sink : Sink} {cs nc mx m : Nat} {k : Kind} {direct : Bool} (hs : SinkOk sink cs nc) (hm : 0 < m) (hm2 : m ≤ 65535)
    (hd : direct = true → m = mx) (hmx : 255 ≤ mx) (x : Nat) (px vs s buf : List Nat) (hp : px.length = sink.samples)
    (h : Enc k m (px ++ vs) s) (hl : x * nc + nc ≤ buf.length) :
    ∃ s' b, pixel sink cs mx (sample k mx m direct) (x * nc) s buf = .ok (s', b) ∧ Enc k m vs s' ∧ b.length = buf.length ∧
      Holds mx cs x (colour (scale mx m) px) b ∧ ∀ j, (j < x * nc ∨ x * nc + nc ≤ j) → b[j]? = buf[j]? := by
  unfold pixel
  cases sink with
  | gray =>
    obtain ⟨rfl, rfl⟩ := hs
    obtain ⟨v, rfl⟩ := List.length_eq_one_iff.1 hp
    obtain ⟨s1, e1, h1⟩ := Enc.read h hm hm2 hd hmx
    simp only [e1, bind, Except.bind]
    rw [put_eq _ _ _ (by omega)]
    refine ⟨s1, _, rfl, h1, by simp, ?_, ?_⟩
    · unfold Holds
      rw [if_pos rfl]
      rw [Nat.mul_one, List.getElem?_set_self (by omega)]
      rfl
    · intro j hj
      rw [List.getElem?_set_ne (by omega)]
  | grayRgb =>
    obtain ⟨he, rfl⟩ := hs
    obtain ⟨v, rfl⟩ := List.length_eq_one_iff.1 hp
    obtain ⟨s1, e1, h1⟩ := Enc.read h hm hm2 hd hmx
    obtain ⟨l1, l2, l3, -⟩ := layout cs he
    obtain ⟨d1, d2, d3, -⟩ := distinct cs he
    simp only [e1, bind, Except.bind]
    rw [put_eq _ _ _ (by omega)]
    simp only []
    rw [put_eq _ _ _ (by simp; omega)]
    simp only []
    rw [put_eq _ _ _ (by simp; omega)]
    simp only []
    obtain ⟨d, e2, r1, r2, r3⟩ := rgb_put mx cs x (scale mx m v) (scale mx m v) (scale mx m v) he buf
      (((buf.set (x * pSize cs + bIdx cs) (scale mx m v)).set (x * pSize cs + gIdx cs) (scale mx m v)).set (x * pSize cs + rIdx cs) (scale mx m v))
      hl (by simp)
      (by rw [List.getElem?_set_self (by simp; omega)])
      (by rw [List.getElem?_set_ne (by omega), List.getElem?_set_self (by simp; omega)])
      (by rw [List.getElem?_set_ne (by omega), List.getElem?_set_ne (by omega), List.getElem?_set_self (by omega)])
      (by intro j hj; rw [List.getElem?_set_ne (by omega), List.getElem?_set_ne (by omega), List.getElem?_set_ne (by omega)])
    rw [e2]
    exact ⟨s1, d, rfl, h1, r1, r2, r3⟩
  | grayCmyk =>
    obtain ⟨rfl, rfl⟩ := hs
    obtain ⟨v, rfl⟩ := List.length_eq_one_iff.1 hp
    obtain ⟨s1, e1, h1⟩ := Enc.read h hm hm2 hd hmx
    simp only [e1, bind, Except.bind]
    obtain ⟨d, e2, r1, r2, r3⟩ := cmyk_put mx x (scale mx m v) (scale mx m v) (scale mx m v) buf hl
    rw [e2]
    exact ⟨s1, d, rfl, h1, r1, r2, r3⟩
  | rgb =>
    obtain ⟨he, rfl⟩ := hs
    obtain ⟨r, g, b, rfl⟩ := List.length_eq_three.1 hp
    obtain ⟨s1, e1, h1⟩ := Enc.read h hm hm2 hd hmx
    obtain ⟨s2, e2, h2⟩ := Enc.read h1 hm hm2 hd hmx
    obtain ⟨s3, e3, h3⟩ := Enc.read h2 hm hm2 hd hmx
    obtain ⟨l1, l2, l3, -⟩ := layout cs he
    obtain ⟨d1, d2, d3, -⟩ := distinct cs he
    simp only [e1, bind, Except.bind]
    rw [put_eq _ _ _ (by omega)]
    simp only [e2]
    rw [put_eq _ _ _ (by simp; omega)]
    simp only [e3]
    rw [put_eq _ _ _ (by simp; omega)]
    simp only []
    obtain ⟨d, e2, r1, r2, r3⟩ := rgb_put mx cs x (scale mx m r) (scale mx m g) (scale mx m b) he buf
      (((buf.set (x * pSize cs + rIdx cs) (scale mx m r)).set (x * pSize cs + gIdx cs) (scale mx m g)).set (x * pSize cs + bIdx cs) (scale mx m b))
      hl (by simp)
      (by rw [List.getElem?_set_ne (by omega), List.getElem?_set_ne (by omega), List.getElem?_set_self (by omega)])
      (by rw [List.getElem?_set_ne (by omega), List.getElem?_set_self (by simp; omega)])
      (by rw [List.getElem?_set_self (by simp; omega)])
      (by intro j hj; rw [List.getElem?_set_ne (by omega), List.getElem?_set_ne (by omega), List.getElem?_set_ne (by omega)])
    rw [e2]
    exact ⟨s3, d, rfl, h3, r1, r2, r3⟩
  | rgbCmyk =>
    obtain ⟨rfl, rfl⟩ := hs
    obtain ⟨r, g, b, rfl⟩ := List.length_eq_three.1 hp
    obtain ⟨s1, e1, h1⟩ := Enc.read h hm hm2 hd hmx
    obtain ⟨s2, e2, h2⟩ := Enc.read h1 hm hm2 hd hmx
    obtain ⟨s3, e3, h3⟩ := Enc.read h2 hm hm2 hd hmx
    simp only [e1, e2, e3, bind, Except.bind]
    obtain ⟨d, e2, r1, r2, r3⟩ := cmyk_put mx x (scale mx m r) (scale mx m g) (scale mx m b) buf hl
    rw [e2]
    exact ⟨s3, d, rfl, h3, r1, r2, r3⟩

/-- The pixels `pxs` of a row, from column `x` on. -/
theorem cols_read {sink : Sink} {cs nc mx m : Nat} {k : Kind} {direct : Bool} (hs : SinkOk sink cs nc) (hm : 0 < m) (hm2 : m ≤ 65535)
    (hd : direct = true → m = mx) (hmx : 255 ≤ mx) : ∀ (pxs : List (List Nat)) (x : Nat) (vs s buf : List Nat),
      (∀ p ∈ pxs, p.length = sink.samples) → Enc k m (pxs.flatten ++ vs) s → (x + pxs.length) * nc ≤ buf.length →
      ∃ s' b, cols nc (pixel sink cs mx (sample k mx m direct)) pxs.length (x * nc) s buf = .ok (s', b) ∧ Enc k m vs s' ∧
        b.length = buf.length ∧ (∀ i p, pxs[i]? = some p → Holds mx cs (x + i) (colour (scale mx m) p) b) ∧
        ∀ j, j < x * nc → b[j]? = buf[j]? := by
  intro pxs
  induction pxs with
  | nil => intro x vs s buf _ h _; exact ⟨s, buf, rfl, h, rfl, by simp, fun _ _ => rfl⟩
  | cons p pxs ih =>
    intro x vs s buf hp h hl
    have el : (x + (p :: pxs).length) * nc = x * nc + nc + pxs.length * nc := by simp only [List.length_cons]; ring
    have el2 : (x + 1 + pxs.length) * nc = x * nc + nc + pxs.length * nc := by ring
    have ex : (x + 1) * nc = x * nc + nc := by ring
    rw [List.flatten_cons, List.append_assoc] at h
    obtain ⟨s1, b1, e1, h1, hl1, hh1, hf1⟩ := pixel_read hs hm hm2 hd hmx x p _ s buf (hp p (by simp)) h (by omega)
    obtain ⟨s2, b2, e2, h2, hl2, hh2, hf2⟩ := ih (x + 1) vs s1 b1 (fun q hq => hp q (by simp [hq])) h1 (by omega)
    rw [List.length_cons]
    unfold cols
    simp only [e1, bind, Except.bind]
    rw [← ex, e2]
    refine ⟨s2, b2, rfl, h2, by omega, ?_, ?_⟩
    · intro i q hq
      cases i with
      | zero =>
        simp only [List.getElem?_cons_zero, Option.some.injEq] at hq
        subst hq
        exact hh1.frame hs (fun j _ h2 => hf2 j (by rw [ex]; exact h2))
      | succ i =>
        simp only [List.getElem?_cons_succ] at hq
        have := hh2 i q hq
        rwa [show x + 1 + i = x + (i + 1) by omega] at this
    · intro j hj
      rw [hf2 j (by omega), hf1 j (Or.inl hj)]

theorem flatten_get {n : Nat} : ∀ (l : List (List Nat)) (i j : Nat) (p : List Nat), (∀ q ∈ l, q.length = n) → l[i]? = some p → j < n →
    l.flatten[i * n + j]? = p[j]? := by
  intro l
  induction l with
  | nil => intro i j p _ h _; simp at h
  | cons q l ih =>
    intro i j p hl h hj
    have hq := hl q (by simp)
    rw [List.flatten_cons]
    cases i with
    | zero =>
      simp only [List.getElem?_cons_zero, Option.some.injEq] at h
      subst h
      rw [Nat.zero_mul, Nat.zero_add, List.getElem?_append_left (by omega)]
    | succ i =>
      simp only [List.getElem?_cons_succ] at h
      have e : (i + 1) * n + j = q.length + (i * n + j) := by rw [hq]; ring
      rw [e, List.getElem?_append_right (by omega), Nat.add_sub_cancel_left]
      exact ih i j p (fun q hq => hl q (by simp [hq])) h hj

theorem flatten_len {n : Nat} : ∀ (l : List (List Nat)), (∀ q ∈ l, q.length = n) → l.flatten.length = l.length * n := by
  intro l
  induction l with
  | nil => intro _; simp
  | cons q l ih =>
    intro h
    rw [List.flatten_cons, List.length_append, ih (fun q hq => h q (by simp [hq])), h q (by simp), List.length_cons]
    ring

theorem words_len (vs : List Nat) : (vs.flatMap (fun v => [v / 256, v % 256])).length = vs.length * 2 := by
  induction vs with
  | nil => rfl
  | cons v vs ih => rw [List.flatMap_cons, List.length_append, ih, List.length_cons]; simp; omega

/-- The bytes of a row. -/
theorem Enc.split {k : Kind} {m : Nat} {us vs s : List Nat} (hk : k ≠ .text) (h : Enc k m (us ++ vs) s) :
    us.length * k.size ≤ s.length ∧ Enc k m us (s.take (us.length * k.size)) ∧ Enc k m vs (s.drop (us.length * k.size)) ∧
      (k = .byte → s.take (us.length * k.size) = us ∧ ∀ v ∈ us, v < 256) := by
  cases k with
  | text => exact absurd rfl hk
  | byte =>
    obtain ⟨hb, t, rfl⟩ := h
    simp only [Kind.size, Nat.mul_one, List.append_assoc]
    rw [List.take_left', List.drop_left']
    · exact ⟨by simp, ⟨fun v hv => hb v (by simp [hv]), [], by simp⟩, ⟨fun v hv => hb v (by simp [hv]), t, rfl⟩,
        fun _ => ⟨rfl, fun v hv => hb v (by simp [hv])⟩⟩
    · rfl
    · rfl
  | word =>
    obtain ⟨hb, t, rfl⟩ := h
    have hl := words_len us
    simp only [Kind.size, List.flatMap_append, List.append_assoc]
    rw [List.take_left', List.drop_left']
    · refine ⟨by simp only [List.length_append]; omega, ⟨fun v hv => hb v (by simp [hv]), [], by simp⟩,
        ⟨fun v hv => hb v (by simp [hv]), t, rfl⟩, fun h => absurd h (by decide)⟩
    · exact hl
    · exact hl

/-- What `start_input_ppm` sets up. -/
structure Ready (mx : Nat) (src : Src) : Prop where
  m : 0 < src.maxval ∧ src.maxval ≤ 65535
  sink : SinkOk src.sink src.cs src.nc
  direct : src.direct = true → src.maxval = mx
  bw : src.kind ≠ .text → src.bw = src.w * src.sink.samples * src.kind.size
  raw : src.raw = true → mx = 255 ∧ src.maxval = 255 ∧ src.kind = .byte ∧
    (src.sink = .gray ∧ src.cs = 1 ∨ src.sink = .rgb ∧ (src.cs = 2 ∨ src.cs = 6))

theorem row_read {mx : Nat} {src : Src} (hr : Ready mx src) (hmx : 255 ≤ mx) (row : List (List Nat)) (vs s buf : List Nat)
    (hw : row.length = src.w) (hp : ∀ p ∈ row, p.length = src.sink.samples) (h : Enc src.kind src.maxval (row.flatten ++ vs) s)
    (hl : buf.length = src.w * src.nc) :
    ∃ s' b, readRow mx src s buf = .ok (s', b) ∧ Enc src.kind src.maxval vs s' ∧ b.length = src.w * src.nc ∧
      ∀ i p, row[i]? = some p → Holds mx src.cs i (colour (scale mx src.maxval) p) b := by
  have hfl := flatten_len row hp
  have key : ∀ us t, Enc src.kind src.maxval (row.flatten ++ us) t →
      ∃ s' b, cols src.nc (pixel src.sink src.cs mx (sample src.kind mx src.maxval src.direct)) src.w 0 t buf = .ok (s', b) ∧
        Enc src.kind src.maxval us s' ∧ b.length = src.w * src.nc ∧
        ∀ i p, row[i]? = some p → Holds mx src.cs i (colour (scale mx src.maxval) p) b := by
    intro us t ht
    obtain ⟨s', b, e, h1, h2, h3, -⟩ := cols_read hr.sink hr.m.1 hr.m.2 hr.direct hmx row 0 us t buf hp ht (by rw [Nat.zero_add, hw]; omega)
    rw [hw, Nat.zero_mul] at e
    refine ⟨s', b, e, h1, by omega, ?_⟩
    simpa using h3
  unfold readRow
  simp only []
  by_cases hraw : src.raw = true
  · rw [if_pos hraw]
    obtain ⟨r1, r2, r3, r4⟩ := hr.raw hraw
    have hk : src.kind ≠ .text := by rw [r3]; decide
    have hbw := hr.bw hk
    obtain ⟨c1, c2, c3, c4⟩ := h.split hk
    rw [hfl, hw, ← hbw] at c1 c2 c3 c4
    obtain ⟨c5, c6⟩ := c4 r3
    rw [if_neg (by omega), c5]
    refine ⟨_, _, rfl, c3, ?_, ?_⟩
    · rw [hfl, hw]
      have hs := hr.sink
      rcases r4 with ⟨r4, r5⟩ | ⟨r4, r5 | r5⟩ <;> rw [r4, r5] at hs <;> rw [hs.2, r4] <;> rfl
    · intro i p hi
      have hm := List.mem_of_getElem? hi
      have hpl := hp p hm
      have hsc : ∀ v ∈ p, scale mx src.maxval v = v := by
        intro v hv
        have := c6 v (List.mem_flatten.2 ⟨p, hm, hv⟩)
        rw [r1, r2]
        exact scale_id 255 v (by omega) (by decide)
      rcases r4 with ⟨r4, r5⟩ | ⟨r4, r5⟩
      · rw [r4] at hpl hp
        obtain ⟨v, rfl⟩ := List.length_eq_one_iff.1 hpl
        unfold Holds
        rw [if_pos r5]
        have := flatten_get row i 0 [v] hp hi (by decide)
        simp only [Sink.samples, Nat.mul_one, Nat.add_zero] at this
        rw [this]
        simp only [colour]
        rw [hsc v (by simp)]; rfl
      · rw [r4] at hpl hp
        obtain ⟨x, y, z, rfl⟩ := List.length_eq_three.1 hpl
        have g0 := flatten_get row i 0 _ hp hi (by decide)
        have g1 := flatten_get row i 1 _ hp hi (by decide)
        have g2 := flatten_get row i 2 _ hp hi (by decide)
        simp only [Sink.samples] at g0 g1 g2
        simp only [colour]
        rw [hsc x (by simp), hsc y (by simp), hsc z (by simp)]
        unfold Holds
        rcases r5 with r5 | r5 <;> rw [r5, if_neg (by decide), if_neg (by decide)] <;>
          exact ⟨g0, g1, g2, fun a ha => absurd ha (by decide +revert)⟩
  · rw [if_neg hraw]
    split
    · exact key vs s h
    · rename_i hk
      obtain ⟨c1, c2, c3, -⟩ := h.split hk
      have hbw := hr.bw hk
      rw [hfl, hw, ← hbw] at c1 c2 c3
      rw [if_neg (by omega)]
      obtain ⟨s', b, e, h1, h2, h3⟩ := key [] _ (by rw [List.append_nil]; exact c2)
      simp only [e, bind, Except.bind]
      exact ⟨_, b, rfl, c3, h2, h3⟩

theorem rows_read {mx : Nat} {src : Src} (hr : Ready mx src) (hmx : 255 ≤ mx) : ∀ (img : List (List (List Nat))) (s buf : List Nat),
    (∀ row ∈ img, row.length = src.w ∧ ∀ p ∈ row, p.length = src.sink.samples) → Enc src.kind src.maxval (img.flatten.flatten) s →
    buf.length = src.w * src.nc →
    ∃ rows, readRows mx src img.length s buf = .ok rows ∧ rows.length = img.length ∧ (∀ r ∈ rows, r.length = src.w * src.nc) ∧
      ∀ (y : Nat) (row : List (List Nat)), img[y]? = some row → ∃ b, rows[y]? = some b ∧
        ∀ (x : Nat) (p : List Nat), row[x]? = some p → Holds mx src.cs x (colour (scale mx src.maxval) p) b := by
  intro img
  induction img with
  | nil => intro s buf _ _ _; exact ⟨[], rfl, rfl, by simp, by simp⟩
  | cons row img ih =>
    intro s buf hi h hl
    rw [List.flatten_cons, List.flatten_append] at h
    obtain ⟨s1, b, e1, h1, h2, h3⟩ := row_read hr hmx row _ s buf (hi row (by simp)).1 (hi row (by simp)).2 h hl
    obtain ⟨rows, e2, g1, g2, g3⟩ := ih s1 b (fun r hr => hi r (by simp [hr])) h1 h2
    rw [List.length_cons]
    unfold readRows
    simp only [e1, e2, bind, Except.bind]
    refine ⟨_, rfl, by simp [g1], by simpa using ⟨h2, g2⟩, ?_⟩
    intro y r hy
    cases y with
    | zero =>
      simp only [List.getElem?_cons_zero, Option.some.injEq] at hy
      subst hy
      exact ⟨b, rfl, h3⟩
    | succ y =>
      simp only [List.getElem?_cons_succ] at hy
      exact g3 y r hy

end Verif.Ppm
