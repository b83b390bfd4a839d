import Verif.Ppm.Load
/-
C61: reading and writing PPM and PGM files.
-/
namespace Verif.Ppm

/-! ## Safety -/

theorem SinkOk.width {sink : Sink} {cs nc : Nat} (h : SinkOk sink cs nc) : nc = width cs := by
  unfold Ppm.width
  cases sink <;> simp only [SinkOk] at h
  · rw [h.1]; exact h.2
  · obtain ⟨-, -, -, n1, n4, -⟩ := distinct cs h.1
    rw [if_neg n1, if_neg n4]; exact h.2
  · rw [h.1]; exact h.2
  · obtain ⟨-, -, -, n1, n4, -⟩ := distinct cs h.1
    rw [if_neg n1, if_neg n4]; exact h.2
  · rw [h.1]; exact h.2

theorem bind_ok {α β : Type} {r : R α} {f : α → R β} {b : β} (h : r >>= f = .ok b) : ∃ a, r = .ok a ∧ f a = .ok b := by
  cases r with
  | ok a => exact ⟨a, rfl, h⟩
  | error e => cases h

theorem start_limit {mx maxPixels cs : Nat} {s s' : List Nat} {src : Src} (h : start mx maxPixels cs s = .ok (src, s')) :
    maxPixels = 0 ∨ src.w * src.h ≤ maxPixels := by
  unfold start at h
  split at h
  · split at h
    · cases h
    · obtain ⟨⟨w, s1⟩, -, h⟩ := bind_ok h
      obtain ⟨⟨hh, s2⟩, -, h⟩ := bind_ok h
      obtain ⟨⟨m, s3⟩, -, h⟩ := bind_ok h
      simp only [] at h
      split at h
      · cases h
      · split at h
        · cases h
        · rename_i hp
          obtain ⟨⟨c, nc, sink⟩, -, h⟩ := bind_ok h
          cases h
          simp only []
          omega
  · cases h

/-- Any sequence of bytes, taken as a PPM or PGM file, is read without an access outside a buffer; if it is accepted then the image has
1 to 65535 columns and rows and at most the given number of pixels, and every row is complete, with samples at most `mx`. -/
theorem load_safe (mx maxPixels cs : Nat) (init : Nat → Nat) (hi : ∀ i, init i ≤ mx) (s : List Nat) (hs : ∀ b ∈ s, b < 256) :
    load mx maxPixels cs init s ≠ .error .fault ∧
    ∀ src rows, load mx maxPixels cs init s = .ok (src, rows) →
      1 ≤ src.w ∧ src.w ≤ 65535 ∧ 1 ≤ src.h ∧ src.h ≤ 65535 ∧ (maxPixels = 0 ∨ src.w * src.h ≤ maxPixels) ∧
      rows.length = src.h ∧ ∀ r ∈ rows, r.length = src.w * width src.cs ∧ ∀ v ∈ r, v ≤ mx := by
  have key : Safe (fun p : Src × List (List Nat) => 1 ≤ p.1.w ∧ p.1.w ≤ 65535 ∧ 1 ≤ p.1.h ∧ p.1.h ≤ 65535 ∧
      p.2.length = p.1.h ∧ ∀ r ∈ p.2, r.length = p.1.w * width p.1.cs ∧ ∀ v ∈ r, v ≤ mx) (load mx maxPixels cs init s) := by
    unfold load
    refine (start_safe mx maxPixels cs s hs).bind ?_
    rintro ⟨src, s'⟩ ⟨h1, h2, h3⟩
    simp only [] at h1 h2 h3 ⊢
    refine (readRows_safe mx src h1 h2 src.h s' _ (fun _ => h3) ⟨by simp, ?_⟩).bind ?_
    · intro v hv
      obtain ⟨i, -, rfl⟩ := List.mem_map.1 hv
      exact hi i
    · rintro rows ⟨g1, g2⟩
      refine ⟨h1.w.1, h1.w.2, h1.h.1, h1.h.2, g1, fun r hr => ?_⟩
      rw [← h1.sink.width]
      exact g2 r hr
  refine ⟨key.not_fault, fun src rows e => ?_⟩
  rw [e] at key
  obtain ⟨k1, k2, k3, k4, k5, k6⟩ := key
  refine ⟨k1, k2, k3, k4, ?_, k5, k6⟩
  unfold load at e
  obtain ⟨⟨src', s'⟩, e1, e⟩ := bind_ok e
  obtain ⟨rows', -, e⟩ := bind_ok e
  cases e
  exact start_limit e1

/-! ## Contents -/

/-- A well-formed file, text or raw, of a gray or a colour image, with any maximum `m` from 1 to 65535: it is accepted, the image has the
size given in the header, and each pixel of each row has the colour of the file, scaled to `mx`, in the layout asked for. -/
theorem load_content {mx maxPixels cs c w h m : Nat} {color text : Bool} {hd s : List Nat} (init : Nat → Nat) (hH : Header c w h m hd)
    (hc : format c = some (color, text)) (hmx : 255 ≤ mx) (hw : 0 < w ∧ w ≤ 65535) (hh : 0 < h ∧ h ≤ 65535) (hm : 0 < m ∧ m ≤ 65535)
    (hp : maxPixels = 0 ∨ w * h ≤ maxPixels) (hs : Supported color cs)
    (img : List (List (List Nat))) (hi : img.length = h) (hr : ∀ row ∈ img, row.length = w ∧ ∀ p ∈ row, p.length = (if color then 3 else 1))
    (he : Enc (kindOf text m) m img.flatten.flatten s) :
    ∃ src rows, load mx maxPixels cs init (hd ++ s) = .ok (src, rows) ∧ src.w = w ∧ src.h = h ∧ src.cs = space color cs ∧
      rows.length = h ∧ (∀ r ∈ rows, r.length = w * width (space color cs)) ∧
      ∀ (y : Nat) (row : List (List Nat)), img[y]? = some row → ∃ b, rows[y]? = some b ∧
        ∀ (x : Nat) (p : List Nat), row[x]? = some p → Holds mx (space color cs) x (colour (scale mx m) p) b := by
  obtain ⟨src, e1, hR, r1, r2, r3, r4, r5, r6, r7⟩ := start_read (mx := mx) (s := s) hH hc hw hh hm hp hs
  obtain ⟨rows, e2, g1, g2, g3⟩ := rows_read hR hmx img s ((List.range (src.w * src.nc)).map init)
    (by intro row hrow; rw [r1, r7]; exact hr row hrow) (by rw [r6, r3]; exact he) (by simp)
  refine ⟨src, rows, ?_, r1, r2, r4, by rw [g1, hi], ?_, ?_⟩
  · unfold load
    simp only [e1, bind, Except.bind]
    rw [r2, ← hi, e2]
    rfl
  · intro r hr
    rw [g2 r hr, r1, r5]
  · rw [r3, r4] at g3; exact g3

/-- Scaled samples: the nearest value, 0 to 0, `m` to `mx`, and order is kept. -/
theorem scale_spec (mx m : Nat) (hm : 0 < m) : (∀ v, v ≤ m → 2 * (scale mx m v * m) ≤ 2 * (v * mx) + m ∧ 2 * (v * mx) < 2 * (scale mx m v * m) + m) ∧
    scale mx m 0 = 0 ∧ scale mx m m = mx ∧ ∀ u v, u ≤ v → v ≤ m → scale mx m u ≤ scale mx m v := by
  refine ⟨?_, ?_, ?_, ?_⟩
  · intro v hv
    unfold scale
    rw [if_pos hv]
    have h1 := Nat.div_add_mod (2 * (v * mx) + m) (2 * m)
    have h2 := Nat.mod_lt (2 * (v * mx) + m) (show 2 * m > 0 by omega)
    generalize (2 * (v * mx) + m) / (2 * m) = q at *
    have e : 2 * m * q = 2 * (q * m) := by ring
    omega
  · unfold scale
    rw [if_pos (Nat.zero_le _), Nat.div_eq_of_lt (by omega)]
  · unfold scale
    rw [if_pos (le_refl _), show 2 * (m * mx) + m = m + mx * (2 * m) by ring, Nat.add_mul_div_right _ _ (by omega), Nat.div_eq_of_lt (by omega),
      Nat.zero_add]
  · intro u v huv hv
    unfold scale
    rw [if_pos hv, if_pos (by omega)]
    refine Nat.div_le_div_right ?_
    have : u * mx ≤ v * mx := Nat.mul_le_mul_right _ huv
    omega

theorem readRow_raw {mx : Nat} {src : Src} {s buf s' b : List Nat} (hk : src.kind ≠ .text) (h : readRow mx src s buf = .ok (s', b)) :
    src.bw ≤ s.length ∧ s' = s.drop src.bw := by
  unfold readRow at h
  simp only [] at h
  split at h
  · split at h
    · cases h
    · rename_i hl; cases h; exact ⟨by omega, rfl⟩
  · split at h
    · cases h
    · rename_i hl
      obtain ⟨⟨a, b'⟩, -, h⟩ := bind_ok h
      cases h
      exact ⟨by omega, rfl⟩

theorem readRows_raw {mx : Nat} {src : Src} (hk : src.kind ≠ .text) : ∀ (n : Nat) (s buf : List Nat) (rows : List (List Nat)),
    readRows mx src n s buf = .ok rows → n * src.bw ≤ s.length := by
  intro n
  induction n with
  | zero => intro s buf rows _; omega
  | succ n ih =>
    intro s buf rows h
    unfold readRows at h
    obtain ⟨⟨s1, b⟩, e, h⟩ := bind_ok h
    obtain ⟨r, e2, -⟩ := bind_ok h
    obtain ⟨h1, rfl⟩ := readRow_raw hk e
    have := ih _ _ _ e2
    rw [List.length_drop] at this
    rw [Nat.add_mul]
    omega

/-- A raw file with fewer bytes than its header asks for is rejected. -/
theorem load_truncated {mx maxPixels cs c w h m : Nat} {color : Bool} {hd s : List Nat} (init : Nat → Nat) (hi : ∀ i, init i ≤ mx)
    (hH : Header c w h m hd) (hc : format c = some (color, false)) (hw : 0 < w ∧ w ≤ 65535) (hh : 0 < h ∧ h ≤ 65535) (hm : 0 < m ∧ m ≤ 65535)
    (hp : maxPixels = 0 ∨ w * h ≤ maxPixels) (hs : Supported color cs) (hb : ∀ b ∈ hd ++ s, b < 256)
    (hl : s.length < h * (w * (if color then 3 else 1) * (if m > 255 then 2 else 1))) :
    load mx maxPixels cs init (hd ++ s) = .error .exit := by
  obtain ⟨hf, -⟩ := load_safe mx maxPixels cs init hi (hd ++ s) hb
  obtain ⟨src, e1, hR, r1, r2, r3, r4, r5, r6, r7⟩ := start_read (mx := mx) (s := s) hH hc hw hh hm hp hs
  unfold load at hf ⊢
  simp only [e1, bind, Except.bind] at hf ⊢
  cases e2 : readRows mx src src.h s ((List.range (src.w * src.nc)).map init) with
  | error e =>
    rw [e2] at hf
    cases e with
    | exit => rfl
    | fault => exact absurd rfl hf
  | ok rows =>
    exfalso
    have hk : src.kind ≠ .text := by
      rw [r6]; unfold kindOf; simp only [Bool.false_eq_true, if_false]; split <;> simp
    have hn := readRows_raw hk _ _ _ _ e2
    have hbw := hR.bw hk
    have : src.kind.size = if m > 255 then 2 else 1 := by
      rw [r6]; unfold kindOf; simp only [Bool.false_eq_true, if_false]; split <;> rfl
    rw [r1, r7, this] at hbw
    rw [hbw, r2] at hn
    omega

/-! ## CMYK -/

/-- R, G, B are recovered from C, M, Y, K even if C, M and Y are rounded either way at a tie. -/
theorem cmyk_robust (mx M r c : Nat) (hmx : 0 < mx) (hr : r ≤ M) (hM : M ≤ mx) (h1 : 2 * (mx * r) ≤ 2 * (c * M) + M)
    (h2 : 2 * (c * M) ≤ 2 * (mx * r) + M) : (2 * (c * M) + mx) / (2 * mx) = r := by
  rw [Nat.div_eq_iff (by omega)]
  by_cases hlt : M < mx
  · constructor
    · have : r * (2 * mx) = 2 * (mx * r) := by ring
      omega
    · have : r * (2 * mx) = 2 * (mx * r) := by ring
      omega
  · have : M = mx := by omega
    subst this
    have hcr : c = r := by
      have e : c * M = M * c := Nat.mul_comm _ _
      rcases Nat.lt_trichotomy c r with h | h | h
      · have : M * (c + 1) ≤ M * r := Nat.mul_le_mul_left _ h
        rw [Nat.mul_add] at this; omega
      · exact h
      · have : M * (r + 1) ≤ M * c := Nat.mul_le_mul_left _ h
        rw [Nat.mul_add] at this; omega
    subst hcr
    constructor
    · have : c * (2 * M) = 2 * (c * M) := by ring
      omega
    · have : c * (2 * M) = 2 * (c * M) := by ring
      omega

/-- "Fully reversible". -/
theorem cmyk_inverse (mx r g b : Nat) (hr : r ≤ mx) (hg : g ≤ mx) (hb : b ≤ mx) :
    let q := rgbToCmyk mx r g b
    cmykToRgb mx q.1 q.2.1 q.2.2.1 q.2.2.2 = (r, g, b) := by
  unfold rgbToCmyk cmykToRgb
  simp only []
  have hM : max (max r g) b ≤ mx := by omega
  have h1 : r ≤ max (max r g) b := by omega
  have h2 : g ≤ max (max r g) b := by omega
  have h3 : b ≤ max (max r g) b := by omega
  generalize max (max r g) b = M at hM h1 h2 h3
  rcases Nat.eq_zero_or_pos mx with h0 | h0
  · subst h0; simp; omega
  have key : ∀ v, v ≤ M → (2 * (cmyOf mx M v * M) + mx) / (2 * mx) = v := by
    intro v hv
    unfold cmyOf
    by_cases hz : M = 0
    · rw [if_pos hz]
      subst hz
      rw [Nat.mul_zero, Nat.mul_zero, Nat.zero_add, Nat.div_eq_of_lt (by omega)]
      omega
    · rw [if_neg hz]
      have e1 := Nat.div_add_mod (2 * mx * v + M) (2 * M)
      have e2 := Nat.mod_lt (2 * mx * v + M) (show 2 * M > 0 by omega)
      generalize (2 * mx * v + M) / (2 * M) = c at *
      have e3 : 2 * M * c = 2 * (c * M) := by ring
      have e4 : 2 * mx * v = 2 * (mx * v) := by ring
      exact cmyk_robust mx M v c h0 hv hM (by omega) (by omega)
  rw [key r h1, key g h2, key b h3]

/-! ## Written files -/

theorem sep_one (c : Nat) (h : isWs c = true) : Sep [c] := .ws c [] h .nil

theorem header_ok (mx w h : Nat) (color : Bool) : Header (if color then 54 else 53) w h mx (header mx w h color) :=
  .mk [10] [32] [10] 10 (sep_one _ (by decide)) (sep_one _ (by decide)) (sep_one _ (by decide)) (by simp) (by simp) (by decide)

/-- The data of a raw file. -/
def raw (mx : Nat) (img : List (List (List Nat))) : List Nat := img.flatten.flatten.flatMap (putSample mx)

theorem raw_enc {mx : Nat} (h1 : 255 ≤ mx) (h2 : mx ≤ 65535) (vs : List Nat) (h : ∀ v ∈ vs, v ≤ mx) :
    Enc (kindOf false mx) mx vs (vs.flatMap (putSample mx)) := by
  unfold kindOf
  rw [if_neg (by decide)]
  by_cases h3 : mx > 255
  · rw [if_pos h3]
    refine ⟨h, [], ?_⟩
    rw [List.append_nil, List.flatMap_def, List.flatMap_def]
    congr 1
    refine List.map_congr_left fun v hv => ?_
    have := h v hv
    unfold putSample
    rw [if_neg (by omega), Nat.mod_eq_of_lt (show v / 256 < 256 by omega)]
  · have hm : mx = 255 := by omega
    subst hm
    rw [if_neg h3]
    refine ⟨fun v hv => by have := h v hv; omega, [], ?_⟩
    rw [List.append_nil]
    clear h3
    induction vs with
    | nil => rfl
    | cons v vs ih =>
      rw [List.flatMap_cons, ih (fun u hu => h u (by simp [hu]))]
      have := h v (by simp)
      show v % 256 :: vs = v :: vs
      rw [Nat.mod_eq_of_lt (by omega)]

theorem pointwise {α β γ : Type} (f : α → γ) (g : β → γ) (l : List α) (k : List β) (hl : l.length = k.length)
    (h : ∀ (i : Nat) (a : α) (b : β), l[i]? = some a → k[i]? = some b → f a = g b) : l.map f = k.map g := by
  refine List.ext_getElem? fun i => ?_
  rw [List.getElem?_map, List.getElem?_map]
  by_cases hi : i < l.length
  · rw [List.getElem?_eq_getElem hi, List.getElem?_eq_getElem (by omega)]
    simp only [Option.map_some, Option.some.injEq]
    exact h i _ _ (List.getElem?_eq_getElem hi) (List.getElem?_eq_getElem (by omega))
  · rw [List.getElem?_eq_none (by omega), List.getElem?_eq_none (by omega)]; rfl

/-- The pixels written are the pixels held. -/
theorem writePixel_holds {mx cs x : Nat} {color : Bool} {p row : List Nat} (hs : isExt cs = true ∨ cs = 4 ∨ cs = 1)
    (hc : color = true ↔ cs ≠ 1) (hp : p.length = (if color then 3 else 1)) (hv : ∀ v ∈ p, v ≤ mx)
    (h : Holds mx cs x (colour (fun v => v) p) row) : writePixel mx cs row x = p.flatMap (putSample mx) := by
  unfold writePixel
  unfold Holds at h
  by_cases h1 : cs = 1
  · rw [if_pos h1] at h ⊢
    have : color = false := by
      cases color
      · rfl
      · exact absurd h1 (hc.1 rfl)
    subst this
    obtain ⟨v, rfl⟩ := List.length_eq_one_iff.1 hp
    rw [List.getD_eq_getElem?_getD, h]
    simp [colour]
  · rw [if_neg h1] at h ⊢
    have := hc.2 h1
    subst this
    obtain ⟨r, g, b, rfl⟩ := List.length_eq_three.1 hp
    by_cases h4 : cs = 4
    · rw [if_pos h4] at h ⊢
      simp only [colour] at h
      obtain ⟨e1, e2, e3, e4⟩ := h
      simp only [List.getD_eq_getElem?_getD, Nat.mul_comm 4 x, e1, e2, e3, e4, Option.getD_some]
      rw [cmyk_inverse mx r g b (hv r (by simp)) (hv g (by simp)) (hv b (by simp))]
      simp
    · rw [if_neg h4] at h ⊢
      simp only [colour] at h
      obtain ⟨e1, e2, e3, -⟩ := h
      simp only [List.getD_eq_getElem?_getD, e1, e2, e3, Option.getD_some]
      simp

theorem colour_id {mx : Nat} (h0 : 0 < mx) (p : List Nat) (hv : ∀ v ∈ p, v ≤ mx) : colour (scale mx mx) p = colour (fun v => v) p := by
  have hs := fun v hv' => scale_id mx v (hv v hv') h0
  match p with
  | [] => rfl
  | [v] => simp only [colour]; rw [hs v (by simp)]
  | [_, _] => rfl
  | [r, g, b] => simp only [colour]; rw [hs r (by simp), hs g (by simp), hs b (by simp)]
  | _ :: _ :: _ :: _ :: _ => rfl

/-- Reading a raw file whose maximum is `mx` into any layout (a gray file into gray) and writing the result gives the same file, byte by byte. -/
theorem write_load {mx maxPixels cs w h : Nat} {color : Bool} (init : Nat → Nat) (h1 : 255 ≤ mx) (h2 : mx ≤ 65535)
    (hw : 0 < w ∧ w ≤ 65535) (hh : 0 < h ∧ h ≤ 65535) (hp : maxPixels = 0 ∨ w * h ≤ maxPixels) (hs : Supported color cs)
    (hg : color = true ↔ space color cs ≠ 1) (img : List (List (List Nat))) (hi : img.length = h)
    (hr : ∀ row ∈ img, row.length = w ∧ ∀ p ∈ row, p.length = (if color then 3 else 1) ∧ ∀ v ∈ p, v ≤ mx) :
    ∃ src rows, load mx maxPixels cs init (header mx w h color ++ raw mx img) = .ok (src, rows) ∧
      write mx src.cs w h rows = header mx w h color ++ raw mx img := by
  have hall : ∀ v ∈ img.flatten.flatten, v ≤ mx := by
    intro v hv
    obtain ⟨p, hp, hv⟩ := List.mem_flatten.1 hv
    obtain ⟨row, hrow, hp⟩ := List.mem_flatten.1 hp
    exact ((hr row hrow).2 p hp).2 v hv
  have hf : format (if color then 54 else 53) = some (color, false) := by cases color <;> rfl
  obtain ⟨src, rows, e, r1, r2, r3, r4, r5, r6⟩ := load_content (mx := mx) (maxPixels := maxPixels) (cs := cs) init (header_ok mx w h color)
    hf h1 hw hh ⟨by omega, h2⟩ hp hs img hi
    (fun row hrow => ⟨(hr row hrow).1, fun p hp => ((hr row hrow).2 p hp).1⟩) (raw_enc h1 h2 _ hall)
  refine ⟨src, rows, e, ?_⟩
  unfold write
  rw [r3]
  have hd : decide (space color cs ≠ 1) = color := by
    cases color
    · simp only [decide_eq_false_iff_not]; intro hne; exact absurd (hg.2 hne) (by decide)
    · simp only [decide_eq_true_eq]; exact hg.1 rfl
  rw [hd]
  congr 1
  have hrows : rows.map (fun row => (List.range w).flatMap (writePixel mx (space color cs) row)) =
      img.map (fun row => row.flatten.flatMap (putSample mx)) := by
    refine pointwise _ _ rows img (by omega) ?_
    intro y b row hb hrow
    obtain ⟨b', hb', hx⟩ := r6 y row hrow
    rw [hb] at hb'
    obtain rfl := Option.some.inj hb'
    have hm := List.mem_of_getElem? hrow
    rw [List.flatMap_def]
    have : (List.range w).map (writePixel mx (space color cs) b) = row.map (fun p => p.flatMap (putSample mx)) := by
      refine pointwise _ _ _ _ (by rw [List.length_range, (hr row hm).1]) ?_
      intro x x' p hx' hp'
      have hxx : x' = x := by
        obtain ⟨_, e⟩ := List.getElem?_eq_some_iff.1 hx'
        rw [List.getElem_range] at e; exact e.symm
      subst hxx
      have hmp := List.mem_of_getElem? hp'
      obtain ⟨hp1, hp2⟩ := (hr row hm).2 p hmp
      have hH := hx x' p hp'
      rw [colour_id (by omega) p hp2] at hH
      exact writePixel_holds (by rcases hs with h | h | ⟨-, h⟩; exact Or.inl h; exact Or.inr (Or.inl h); exact Or.inr (Or.inr h)) hg hp1 hp2 hH
    rw [this]
    simp [List.flatMap_def, List.map_flatten, List.map_map, Function.comp_def, List.flatten_flatten]
  rw [List.flatMap_def, hrows]
  unfold raw
  simp [List.flatMap_def, List.map_flatten, List.map_map, Function.comp_def, List.flatten_flatten]

/-- The pixels of a row of samples. -/
def pixelsOf (cs w : Nat) (row : List Nat) : List (List Nat) := (List.range w).map fun x =>
  if cs = 1 then [row.getD x 0] else [row.getD (x * pSize cs + rIdx cs) 0, row.getD (x * pSize cs + gIdx cs) 0, row.getD (x * pSize cs + bIdx cs) 0]

/-- Writing gray or RGB rows, in any layout, and reading the file back into the same layout gives the same samples of gray, red, green and blue. -/
theorem load_write {mx maxPixels cs w h : Nat} (init : Nat → Nat) (h1 : 255 ≤ mx) (h2 : mx ≤ 65535)
    (hw : 0 < w ∧ w ≤ 65535) (hh : 0 < h ∧ h ≤ 65535) (hp : maxPixels = 0 ∨ w * h ≤ maxPixels) (hs : cs = 1 ∨ isExt cs = true)
    (rows : List (List Nat)) (hi : rows.length = h) (hr : ∀ row ∈ rows, row.length = w * width cs ∧ ∀ v ∈ row, v ≤ mx) :
    ∃ src rows', load mx maxPixels cs init (write mx cs w h rows) = .ok (src, rows') ∧ src.cs = cs ∧ rows'.length = h ∧
      ∀ (y : Nat) (row : List Nat), rows[y]? = some row → ∃ row', rows'[y]? = some row' ∧ row'.length = row.length ∧ ∀ x, x < w →
        if cs = 1 then row'[x]? = row[x]? else row'[x * pSize cs + rIdx cs]? = row[x * pSize cs + rIdx cs]? ∧
          row'[x * pSize cs + gIdx cs]? = row[x * pSize cs + gIdx cs]? ∧ row'[x * pSize cs + bIdx cs]? = row[x * pSize cs + bIdx cs]? := by
  have hcol : ∀ (hne : cs ≠ 1), isExt cs = true := fun hne => hs.resolve_left hne
  have h4 : cs ≠ 4 := by rintro rfl; rcases hs with h | h; omega; exact absurd h (by decide)
  have h0 : cs ≠ 0 := by rintro rfl; rcases hs with h | h; omega; exact absurd h (by decide)
  have hget : ∀ row ∈ rows, ∀ i, row.getD i 0 ≤ mx := by
    intro row hrow i
    rw [List.getD_eq_getElem?_getD]
    by_cases h : i < row.length
    · rw [List.getElem?_eq_getElem h]; exact (hr row hrow).2 _ (List.getElem_mem _)
    · rw [List.getElem?_eq_none (by omega)]; exact Nat.zero_le _
  let color := decide (cs ≠ 1)
  let img := rows.map (pixelsOf cs w)
  have hsp : space color cs = cs := by
    unfold space
    by_cases h : cs = 1
    · simp [color, h]
    · simp [color, h, h0]
  have hsup : Supported color cs := by
    unfold Supported
    rw [hsp]
    by_cases h : cs = 1
    · exact Or.inr (Or.inr ⟨by simp [color, h], h⟩)
    · exact Or.inl (hcol h)
  have hpix : ∀ row ∈ img, row.length = w ∧ ∀ p ∈ row, p.length = (if color then 3 else 1) ∧ ∀ v ∈ p, v ≤ mx := by
    intro row hrow
    obtain ⟨r, hr', rfl⟩ := List.mem_map.1 hrow
    refine ⟨by simp [pixelsOf], fun p hp => ?_⟩
    obtain ⟨x, -, rfl⟩ := List.mem_map.1 hp
    have hg := hget r hr'
    by_cases h : cs = 1
    · simp only [color, h, ne_eq, not_true, decide_false, if_true, Bool.false_eq_true, if_false, List.length_singleton, List.mem_singleton,
        forall_eq, true_and]
      exact hg _
    · simp only [color, h, ne_eq, not_false_eq_true, decide_true, if_true, if_false]
      refine ⟨rfl, ?_⟩
      intro v hv
      simp only [List.mem_cons, List.not_mem_nil, or_false] at hv
      rcases hv with rfl | rfl | rfl <;> exact hg _
  have hall : ∀ v ∈ img.flatten.flatten, v ≤ mx := by
    intro v hv
    obtain ⟨p, hp, hv⟩ := List.mem_flatten.1 hv
    obtain ⟨row, hrow, hp⟩ := List.mem_flatten.1 hp
    exact ((hpix row hrow).2 p hp).2 v hv
  have hf : format (if color then 54 else 53) = some (color, false) := by cases color <;> rfl
  have hwr : write mx cs w h rows = header mx w h color ++ raw mx img := by
    unfold write raw
    congr 1
    simp only [img, List.flatMap_def, List.map_flatten, List.map_map, List.flatten_flatten, Function.comp_def]
    congr 1
    refine List.map_congr_left fun row hrow => ?_
    simp only [pixelsOf, List.map_map, Function.comp_def]
    congr 1
    refine List.map_congr_left fun x _ => ?_
    unfold writePixel
    by_cases h : cs = 1
    · rw [if_pos h, if_pos h]; simp
    · rw [if_neg h, if_neg h4, if_neg h]; simp
  obtain ⟨src, rows', e, r1, r2, r3, r4, r5, r6⟩ := load_content (mx := mx) (maxPixels := maxPixels) (cs := cs) init (header_ok mx w h color)
    hf h1 hw hh ⟨by omega, h2⟩ hp hsup img (by simp [img, hi])
    (fun row hrow => ⟨(hpix row hrow).1, fun p hp => ((hpix row hrow).2 p hp).1⟩) (raw_enc h1 h2 _ hall)
  rw [hwr]
  rw [hsp] at r3 r5 r6
  refine ⟨src, rows', e, r3, r4, ?_⟩
  intro y row hrow
  have hm := List.mem_of_getElem? hrow
  obtain ⟨b, hb, hx⟩ := r6 y (pixelsOf cs w row) (by simp [img, List.getElem?_map, hrow])
  have hbl := r5 b (List.mem_of_getElem? hb)
  refine ⟨b, hb, by rw [hbl, (hr row hm).1], ?_⟩
  intro x hxw
  have hpx : (pixelsOf cs w row)[x]? = some (if cs = 1 then [row.getD x 0]
      else [row.getD (x * pSize cs + rIdx cs) 0, row.getD (x * pSize cs + gIdx cs) 0, row.getD (x * pSize cs + bIdx cs) 0]) := by
    unfold pixelsOf
    rw [List.getElem?_map, List.getElem?_range hxw]; rfl
  have hH := hx x _ hpx
  have hin := (hr row hm).1
  have hwd : ∀ i, i < row.length → some (row.getD i 0) = row[i]? := by
    intro i hi
    rw [List.getD_eq_getElem?_getD, List.getElem?_eq_getElem hi]; rfl
  rw [colour_id (by omega) _ (by
    intro v hv
    split at hv
    · simp only [List.mem_singleton] at hv; rw [hv]; exact hget row hm _
    · simp only [List.mem_cons, List.not_mem_nil, or_false] at hv
      rcases hv with rfl | rfl | rfl <;> exact hget row hm _)] at hH
  unfold Holds at hH
  by_cases h : cs = 1
  · rw [if_pos h] at hH ⊢
    rw [if_pos h] at hH
    unfold width at hin
    rw [if_pos h] at hin
    rw [hH]
    exact hwd x (by omega)
  · rw [if_neg h] at hH ⊢
    rw [if_neg h, if_neg h4] at hH
    unfold width at hin
    rw [if_neg h, if_neg h4] at hin
    obtain ⟨l1, l2, l3, -⟩ := layout cs (hcol h)
    have hle : x * pSize cs + pSize cs ≤ w * pSize cs := by
      have : (x + 1) * pSize cs ≤ w * pSize cs := Nat.mul_le_mul_right _ hxw
      rw [Nat.add_mul, Nat.one_mul] at this; exact this
    simp only [colour] at hH
    refine ⟨?_, ?_, ?_⟩
    · rw [hH.1]; exact hwd _ (by omega)
    · rw [hH.2.1]; exact hwd _ (by omega)
    · rw [hH.2.2.1]; exact hwd _ (by omega)

/-! ## Examples -/

/-- "P2 # a" newline "2 1" newline "4" newline "0 # b" newline "3": a text file with comments, read into BGRX. -/
example : load 255 0 9 (fun _ => 7) ([80, 50, 32, 35, 97, 10, 50, 32, 49, 10, 52, 10] ++ [48, 32, 35, 98, 10, 51]) =
    .ok (⟨2, 1, 4, 9, 4, .text, .grayRgb, false, false, 2⟩, [[0, 0, 0, 7, 191, 191, 191, 7]]) := by decide +kernel

/-- The hypotheses of `load_content` for that file. -/
example : Header 50 2 1 4 [80, 50, 32, 35, 97, 10, 50, 32, 49, 10, 52, 10] ∧ format 50 = some (false, true) ∧ Supported false 9 ∧
    Enc (kindOf true 4) 4 [[[0], [3]]].flatten.flatten [48, 32, 35, 98, 10, 51] := by
  have s1 : Sep [32] := sep_one _ (by decide)
  have hc : Sep (35 :: ([98] ++ 10 :: [])) := .comment [98] [] (by decide) .nil
  refine ⟨?_, rfl, Or.inl (by decide), by decide, ?_⟩
  · have d : ∀ n, n < 10 → dec n = [48 + n] := fun n h => by unfold dec; rw [if_pos h]
    have := Header.mk (c := 50) (w := 2) (h := 1) (m := 4) [32, 35, 97, 10] [32] [10] 10 (.ws 32 _ (by decide) (.comment [97] [] (by decide) .nil)) s1
      (sep_one _ (by decide)) (by simp) (by simp) (by decide)
    rwa [d 2 (by decide), d 1 (by decide), d 4 (by decide)] at this
  · have d : ∀ n, n < 10 → dec n = [48 + n] := fun n h => by unfold dec; rw [if_pos h]
    have h2 : Text [3] [32, 35, 98, 10, 51] := by
      have := Text.cons [32, 35, 98, 10] 3 [] [] (.ws 32 _ (by decide) hc) (Or.inl rfl) (.nil _)
      rwa [d 3 (by decide)] at this
    have := Text.cons [] 0 [3] [32, 35, 98, 10, 51] .nil (Or.inr ⟨[32], _, rfl, s1, by simp⟩) h2
    rwa [d 0 (by decide)] at this

/-- A 2x2 raw colour file with maximum 255 read into CMYK and written again. -/
example : ∃ src rows, load 255 4 4 (fun _ => 0) (header 255 2 2 true ++ raw 255 [[[10, 20, 30], [0, 0, 0]], [[255, 255, 255], [1, 128, 7]]]) = .ok (src, rows) ∧
    write 255 src.cs 2 2 rows = header 255 2 2 true ++ raw 255 [[[10, 20, 30], [0, 0, 0]], [[255, 255, 255], [1, 128, 7]]] :=
  write_load (fun _ => 0) (by decide) (by decide) (by decide) (by decide) (Or.inr (by decide)) (Or.inr (Or.inl rfl)) (by decide) _ rfl (by decide)

/-- 12 bits per sample, ABGR. -/
example : ∃ src rows', load 4095 0 14 (fun _ => 5) (write 4095 14 1 1 [[9, 1000, 2000, 4095]]) = .ok (src, rows') ∧ src.cs = 14 ∧ rows'.length = 1 ∧
      ∀ (y : Nat) (row : List Nat), [[9, 1000, 2000, 4095]][y]? = some row → ∃ row', rows'[y]? = some row' ∧ row'.length = row.length ∧ ∀ x, x < 1 →
        if (14 : Nat) = 1 then row'[x]? = row[x]? else row'[x * 4 + 3]? = row[x * 4 + 3]? ∧
          row'[x * 4 + 2]? = row[x * 4 + 2]? ∧ row'[x * 4 + 1]? = row[x * 4 + 1]? :=
  load_write (cs := 14) (fun _ => 5) (by decide) (by decide) (by decide) (by decide) (Or.inl rfl) (Or.inr (by decide)) _ rfl (by decide)

/-- A truncated raw file. -/
example : load 255 0 0 (fun _ => 0) (header 255 2 1 true ++ [1, 2, 3, 4, 5]) = .error .exit := by
  refine load_truncated (m := 255) (color := true) (w := 2) (h := 1) (fun _ => 0) (fun _ => by omega) (header_ok 255 2 1 true) rfl (by decide) (by decide)
    (by decide) (Or.inl rfl) (Or.inl (by decide)) ?_ (by decide)
  decide +kernel

/-- A maximum that is not a power of two minus one: 0..100 to 0..255. -/
example : scale 255 100 50 = 128 ∧ scale 255 100 1 = 3 := by decide

/-- A single digit above the maximum in a text file is not rejected, unlike larger numbers: it reads as 0. -/
example : load 255 0 1 (fun _ => 7) [80, 50, 32, 49, 32, 49, 32, 53, 32, 57] = .ok (⟨1, 1, 5, 1, 1, .text, .gray, false, false, 1⟩, [[0]]) ∧
    load 255 0 1 (fun _ => 7) [80, 50, 32, 49, 32, 49, 32, 53, 32, 49, 48] = .error .exit := by decide +kernel

/-- Specification: the names of the pixel formats, by the number of the colour space. -/
def formats : List (Nat × String) := [(2, "RGB"), (6, "RGB"), (7, "RGBX"), (8, "BGR"), (9, "BGRX"), (10, "XBGR"), (11, "XRGB"), (12, "RGBA"), (13, "BGRA"),
  (14, "ABGR"), (15, "ARGB")]

/-- The tables `pSize`, `rIdx`, `gIdx`, `bIdx` and `aIdx` say what the names of the formats say. -/
theorem formats_layout : ∀ f ∈ formats, isExt f.1 = true ∧ pSize f.1 = f.2.toList.length ∧ f.2.toList[rIdx f.1]? = some 'R' ∧
    f.2.toList[gIdx f.1]? = some 'G' ∧ f.2.toList[bIdx f.1]? = some 'B' ∧ aIdx f.1 = f.2.toList.findIdx? (· == 'A') := by decide +kernel

end Verif.Ppm
