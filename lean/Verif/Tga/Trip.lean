import Verif.Tga.Content
/-
Targa files written by djpeg, read by cjpeg.
-/
namespace Verif.Tga

open Verif.Gif (Err R byte bytes at? word Safe Bytes)

/-- Specification: an image of `w` times `h` pixels whose indexes are in the colour map. -/
def Image.Valid (w h : Nat) : Image → Prop
  | .rgb rows => rows.length = h ∧ ∀ r ∈ rows, r.length = w
  | .mapped map rows => map.length ≤ 256 ∧ rows.length = h ∧ ∀ r ∈ rows, r.length = w ∧ ∀ i ∈ r, i < map.length
  | .gray rows => rows.length = h ∧ ∀ r ∈ rows, r.length = w
  | .grayMapped map rows => rows.length = h ∧ ∀ r ∈ rows, r.length = w ∧ ∀ i ∈ r, i < map.length

/-- Specification: the rows of samples of an image. -/
def Image.samples : Image → List (List Nat)
  | .rgb rows => rows.map fun r => r.flatMap fun x => [x.1, x.2.1, x.2.2]
  | .mapped map rows => rows.map fun r => r.flatMap fun i => let x := map.getD i (0, 0, 0); [x.1, x.2.1, x.2.2]
  | .gray rows => rows
  | .grayMapped map rows => rows.map fun r => r.map fun i => map.getD i 0

/-- Specification: whether an image has one sample per pixel. -/
def Image.isGray : Image → Bool
  | .gray _ => true
  | .grayMapped _ _ => true
  | _ => false

/-- What the writer says about its image. -/
def descOf (w h : Nat) (k : Kind) (size : Nat) (map : List (Nat × Nat × Nat)) : Desc :=
  { w := w, h := h, kind := k, rle := false, topDown := true, size := size, map := map, mapBits := if map = [] then 0 else 24, id := [], x0 := 0, x1 := 0, y0 := 0, y1 := 0, attr := 0 }

theorem singles (rows : List (List Nat)) : ((rows.map fun r => r.map fun v => [v]).flatten).flatten = rows.flatten := by
  induction rows with
  | nil => rfl
  | cons r rows ih =>
    rw [List.map_cons, List.flatten_cons, List.flatten_append, ih, List.flatten_cons]
    congr 1
    induction r with
    | nil => rfl
    | cons a r ih2 => rw [List.map_cons, List.flatten_cons, ih2]; rfl

theorem bgr (rows : List (List (Nat × Nat × Nat))) : ((rows.map fun r => r.map fun x => [x.2.2, x.2.1, x.1]).flatten).flatten =
    rows.flatMap fun row => row.flatMap fun x => [x.2.2, x.2.1, x.1] := by
  induction rows with
  | nil => rfl
  | cons r rows ih =>
    rw [List.map_cons, List.flatten_cons, List.flatten_append, ih, List.flatMap_cons]
    congr 1

theorem demap_ok (map : List Nat) : ∀ r : List Nat, (∀ i ∈ r, i < map.length) → demap map r = .ok (r.map fun i => map.getD i 0) := by
  intro r
  induction r with
  | nil => intro _; rfl
  | cons c r ih =>
    intro h
    have hc := h c (by simp)
    unfold demap
    rw [at_ok hc]
    simp only [bind, Except.bind, pure, Except.pure]
    rw [ih (fun i hi => h i (by simp [hi])), List.map_cons, List.getD_eq_getElem?_getD, List.getElem?_eq_getElem hc]
    rfl

theorem demapRows_ok (map : List Nat) : ∀ rows : List (List Nat), (∀ r ∈ rows, ∀ i ∈ r, i < map.length) →
    demapRows map rows = .ok (rows.map fun r => r.map fun i => map.getD i 0).flatten := by
  intro rows
  induction rows with
  | nil => intro _; rfl
  | cons r rows ih =>
    intro h
    unfold demapRows
    rw [demap_ok map r (h r (by simp))]
    simp only [bind, Except.bind, pure, Except.pure]
    rw [ih (fun q hq => h q (by simp [hq]))]
    rfl

theorem mapped_ne {w h : Nat} {map : List (Nat × Nat × Nat)} {rows : List (List Nat)} (hw : 1 ≤ w) (hh : 1 ≤ h) (hr : rows.length = h)
    (hrow : ∀ r ∈ rows, r.length = w ∧ ∀ i ∈ r, i < map.length) : map ≠ [] := by
  intro e
  subst e
  cases rows with
  | nil => simp at hr; omega
  | cons r rows =>
    have := hrow r (by simp)
    cases r with
    | nil => simp at this; omega
    | cons i r => have := this.2 i (by simp); simp at this

theorem gray_trip (w h maxPixels : Nat) (hw : 1 ≤ w ∧ w ≤ 65535) (hh : 1 ≤ h ∧ h ≤ 65535) (hm : maxPixels = 0 ∨ w * h ≤ maxPixels)
    (rows : List (List Nat)) (hr : rows.length = h) (hrow : ∀ r ∈ rows, r.length = w) :
    ∃ src, load maxPixels (header true 0 w h ++ rows.flatten) = .ok (src, rows) ∧ src.w = w ∧ src.h = h ∧ src.kind = .gray := by
  have hb : header true 0 w h = (descOf w h .gray 1 []).bytes := by
    have e1 : w / 256 % 256 = w / 256 := Nat.mod_eq_of_lt (by omega)
    have e2 : h / 256 % 256 = h / 256 := Nat.mod_eq_of_lt (by omega)
    simp [header, Desc.bytes, descOf, imageType, e1, e2]
  obtain ⟨src, e1, e2, e3, e4⟩ := load_content maxPixels (descOf w h .gray 1 []) ⟨hw, hh, rfl, ⟨by simp [descOf], by simp [descOf]⟩, by simp [descOf], by simp [descOf]⟩ hm
    (rows.map fun r => r.map fun v => [v]) (by rw [List.length_map, hr]; rfl) (by
      intro r hr'
      rw [List.mem_map] at hr'
      obtain ⟨q, hq, rfl⟩ := hr'
      refine ⟨by rw [List.length_map, hrow q hq]; rfl, fun p hp => ?_⟩
      rw [List.mem_map] at hp
      obtain ⟨v, -, rfl⟩ := hp
      exact ⟨rfl, by simp [descOf]⟩) rows.flatten ⟨[], by rw [singles, List.append_nil]⟩
  refine ⟨src, ?_, e2, e3, e4⟩
  rw [hb, e1]
  congr 2
  show List.map _ (rows.map fun r => r.map fun v => [v]) = rows
  rw [List.map_map]
  conv_rhs => rw [← List.map_id rows]
  apply List.map_congr_left
  intro r _
  show List.flatMap _ (r.map fun v => [v]) = r
  rw [List.flatMap_map]
  exact List.flatMap_singleton' r

/-- Every image of 1 to 65535 columns and rows, in full colour, with a colour map of at most 256 entries, or gray, with or without a "colour map", is
written without error, and reading the file gives its size and exactly its rows of samples. -/
theorem tga_round_trip (w h maxPixels : Nat) (hw : 1 ≤ w ∧ w ≤ 65535) (hh : 1 ≤ h ∧ h ≤ 65535) (hm : maxPixels = 0 ∨ w * h ≤ maxPixels)
    (im : Image) (hv : im.Valid w h) :
    ∃ file src, write w h im = .ok file ∧ load maxPixels file = .ok (src, im.samples) ∧ src.w = w ∧ src.h = h ∧
      (src.kind = .gray ↔ im.isGray = true) := by
  have d1 : w / 256 % 256 = w / 256 := Nat.mod_eq_of_lt (by omega)
  have d2 : h / 256 % 256 = h / 256 := Nat.mod_eq_of_lt (by omega)
  cases im with
  | rgb rows =>
    obtain ⟨hr, hrow⟩ := hv
    have hb : header false 0 w h = (descOf w h .bits24 3 []).bytes := by
      simp [header, Desc.bytes, descOf, imageType, d1, d2]
    obtain ⟨src, e1, e2, e3, e4⟩ := load_content maxPixels (descOf w h .bits24 3 [])
      ⟨hw, hh, Or.inl rfl, ⟨by simp [descOf], by simp [descOf]⟩, by simp [descOf], by simp [descOf]⟩ hm
      (rows.map fun r => r.map fun x => [x.2.2, x.2.1, x.1]) (by rw [List.length_map, hr]; rfl) (by
        intro r hr'
        rw [List.mem_map] at hr'
        obtain ⟨q, hq, rfl⟩ := hr'
        refine ⟨by rw [List.length_map, hrow q hq]; rfl, fun p hp => ?_⟩
        rw [List.mem_map] at hp
        obtain ⟨v, -, rfl⟩ := hp
        exact ⟨rfl, by simp [descOf]⟩) _ ⟨[], by rw [List.append_nil]⟩
    rw [bgr] at e1
    refine ⟨_, src, rfl, ?_, e2, e3, by rw [e4]; simp [descOf, Image.isGray]⟩
    rw [hb, e1]
    congr 2
    show List.map _ (rows.map fun r => r.map fun x => [x.2.2, x.2.1, x.1]) = _
    rw [List.map_map]
    apply List.map_congr_left
    intro r _
    show List.flatMap _ (r.map fun x => [x.2.2, x.2.1, x.1]) = _
    rw [List.flatMap_map]
    rfl
  | mapped map rows =>
    obtain ⟨hml, hr, hrow⟩ := hv
    have hne := mapped_ne hw.1 hh.1 hr hrow
    have hpos := List.length_pos_of_ne_nil hne
    have d3 : map.length / 256 % 256 = map.length / 256 := Nat.mod_eq_of_lt (by omega)
    have hb : header false map.length w h ++ (map.flatMap fun x => [x.2.2, x.2.1, x.1]) = (descOf w h .mapped 1 map).bytes := by
      simp [header, Desc.bytes, descOf, imageType, d1, d2, d3, hpos, hne]
    obtain ⟨src, e1, e2, e3, e4⟩ := load_content maxPixels (descOf w h .mapped 1 map)
      ⟨hw, hh, rfl, ⟨hml, fun _ => hne⟩, fun _ => by simp [descOf, hne], by simp [descOf]⟩ hm
      (rows.map fun r => r.map fun v => [v]) (by rw [List.length_map, hr]; rfl) (by
        intro r hr'
        rw [List.mem_map] at hr'
        obtain ⟨q, hq, rfl⟩ := hr'
        refine ⟨by rw [List.length_map, (hrow q hq).1]; rfl, fun p hp => ?_⟩
        rw [List.mem_map] at hp
        obtain ⟨v, hv', rfl⟩ := hp
        refine ⟨rfl, fun _ i hi => ?_⟩
        rw [List.mem_singleton] at hi
        rw [hi]; exact (hrow q hq).2 v hv') rows.flatten ⟨[], by rw [singles, List.append_nil]⟩
    refine ⟨_, src, if_neg (by omega), ?_, e2, e3, by rw [e4]; simp [descOf, Image.isGray]⟩
    rw [← List.append_assoc, hb, e1]
    congr 2
    show List.map _ (rows.map fun r => r.map fun v => [v]) = _
    rw [List.map_map]
    apply List.map_congr_left
    intro r _
    show List.flatMap _ (r.map fun v => [v]) = _
    rw [List.flatMap_map]
    rfl
  | gray rows =>
    obtain ⟨src, e1, e2, e3, e4⟩ := gray_trip w h maxPixels hw hh hm rows hv.1 hv.2
    exact ⟨_, src, rfl, e1, e2, e3, by rw [e4]; simp [Image.isGray]⟩
  | grayMapped map rows =>
    obtain ⟨hr, hrow⟩ := hv
    obtain ⟨src, e1, e2, e3, e4⟩ := gray_trip w h maxPixels hw hh hm (rows.map fun r => r.map fun i => map.getD i 0) (by rw [List.length_map, hr]) (by
      intro r hr'
      rw [List.mem_map] at hr'
      obtain ⟨q, hq, rfl⟩ := hr'
      rw [List.length_map, (hrow q hq).1])
    refine ⟨_, src, ?_, e1, e2, e3, by rw [e4]; simp [Image.isGray]⟩
    show (do let d ← demapRows map rows; pure (header true 0 w h ++ d) : R (List Nat)) = _
    rw [demapRows_ok map rows (fun r hr' => (hrow r hr').2)]
    rfl

end Verif.Tga
