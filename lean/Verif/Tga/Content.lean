import Verif.Tga.Safe
/-
The Targa reader: the contents of the image. Specification: run-length packets, samples of a pixel, layout of a file.
-/
namespace Verif.Tga

open Verif.Gif (Err R byte bytes at? word Safe Bytes)

/-- Specification: packets of run-length coding. -/
inductive Packet where
  | run (n : Nat) (p : List Nat)
  | pixels (l : List (List Nat))

/-- Specification: 1 to 128 pixels of `size` bytes. -/
def Packet.Valid (size : Nat) : Packet → Prop
  | .run n p => 1 ≤ n ∧ n ≤ 128 ∧ p.length = size
  | .pixels l => 1 ≤ l.length ∧ l.length ≤ 128 ∧ ∀ p ∈ l, p.length = size

/-- Specification: a packet in the file. -/
def Packet.code : Packet → List Nat
  | .run n p => (127 + n) :: p
  | .pixels l => (l.length - 1) :: l.flatten

/-- Specification: what a packet stands for. -/
def Packet.text : Packet → List (List Nat)
  | .run n p => List.replicate n p
  | .pixels l => l

/-- Specification: `v` of 5 bits as 8 bits, rounded. -/
def five (v : Nat) : Nat := (v * 255 * 2 + 31) / 62

/-- Specification: the samples of a pixel. -/
def shade (k : Kind) (map : List (Nat × Nat × Nat)) (p : List Nat) : List Nat := match k, p with
  | .gray, v :: _ => [v]
  | .mapped, i :: _ => let x := map.getD i (0, 0, 0); [x.1, x.2.1, x.2.2]
  | .bits16, lo :: hi :: _ => [five ((lo + 256 * hi) / 1024 % 32), five ((lo + 256 * hi) / 32 % 32), five ((lo + 256 * hi) % 32)]
  | .bits24, b :: g :: r :: _ => [r, g, b]
  | _, _ => []

/-- Specification: `file` begins with the data of the pixels `l`. -/
def Data (rle : Bool) (size : Nat) (l : List (List Nat)) (file : List Nat) : Prop :=
  if rle then ∃ (ps : List Packet) (extra : List (List Nat)) (rest : List Nat), (∀ q ∈ ps, q.Valid size) ∧ ps.flatMap Packet.text = l ++ extra ∧
    file = ps.flatMap Packet.code ++ rest
  else ∃ rest, file = l.flatten ++ rest

theorem c5_five : ∀ v, v < 32 → c5.getD v 0 = five v := by decide

theorem pixel_spec (k : Kind) (size : Nat) (hk : SizeOk k size) (map : List (Nat × Nat × Nat)) (p : List Nat) (hl : p.length = size)
    (hm : k = .mapped → ∀ i ∈ p, i < map.length) : pixel k map p = .ok (shade k map p) := by
  cases k with
  | gray =>
    replace hk : size = 1 := hk
    subst hk
    obtain ⟨a, rfl⟩ := List.length_eq_one_iff.1 hl
    rfl
  | mapped =>
    replace hk : size = 1 := hk
    subst hk
    obtain ⟨a, rfl⟩ := List.length_eq_one_iff.1 hl
    have ha := hm rfl a (by simp)
    unfold pixel
    rw [at_ok (by simp)]
    simp only [bind, Except.bind, List.getElem_cons_zero]
    rw [if_neg (by omega), List.getElem?_eq_getElem ha]
    simp only [shade, List.getD_eq_getElem?_getD, List.getElem?_eq_getElem ha, Option.getD_some]
    rfl
  | bits16 =>
    replace hk : size = 2 := hk
    subst hk
    obtain ⟨a, b, rfl⟩ := List.length_eq_two.1 hl
    unfold pixel
    rw [at_ok (show 0 < [a, b].length by simp), at_ok (show 1 < [a, b].length by simp)]
    simp only [bind, Except.bind, List.getElem_cons_zero, List.getElem_cons_succ]
    rw [(c5_ok _).1, (c5_ok _).1, (c5_ok _).1]
    simp only [c5_five _ (Nat.mod_lt _ (by decide : 32 > 0)), shade, pure, Except.pure]
    rw [show a + b * 256 = a + 256 * b by ring, show (a + 256 * b) / 32 / 32 = (a + 256 * b) / 1024 by rw [Nat.div_div_eq_div_mul]]
  | bits24 =>
    replace hk : size = 3 ∨ size = 4 := hk
    match p, hl with
    | a :: b :: c :: t, hl => rfl
    | [], hl => simp only [List.length_nil] at hl; omega
    | [a], hl => simp only [List.length_cons, List.length_nil] at hl; omega
    | [a, b], hl => simp only [List.length_cons, List.length_nil] at hl; omega

/-- The pixels that the state stands for. -/
def Rep (src : Src) (st : St) (l : List (List Nat)) : Prop :=
  if src.rle then ∃ (lits : List (List Nat)) (ps : List Packet) (extra : List (List Nat)) (rest : List Nat), lits.length = st.block ∧
    (∀ p ∈ lits, p.length = src.size) ∧ (∀ q ∈ ps, q.Valid src.size) ∧
    List.replicate st.dup st.px ++ (lits ++ ps.flatMap Packet.text) = l ++ extra ∧ st.file = lits.flatten ++ (ps.flatMap Packet.code ++ rest)
  else ∃ rest, st.file = l.flatten ++ rest

theorem bytes_append (a s : List Nat) (n : Nat) (h : a.length = n) : bytes n (a ++ s) = .ok (a, s) := by
  unfold bytes
  rw [if_neg (by rw [List.length_append]; omega), ← h, List.take_left', List.drop_left'] <;> rfl

theorem step_spec (src : Src) (st : St) (p : List Nat) (l : List (List Nat)) (hp : p.length = src.size) (h : Rep src st (p :: l)) :
    ∃ st', (if src.rle then readRle src.size st else readPlain src.size st) = .ok st' ∧ st'.px = p ∧ Rep src st' l := by
  unfold Rep at h ⊢
  cases hr : src.rle with
  | false =>
    rw [hr] at h
    simp only [Bool.false_eq_true, if_false] at h ⊢
    obtain ⟨rest, hf⟩ := h
    unfold readPlain
    rw [hf, List.flatten_cons, List.append_assoc, bytes_append _ _ _ hp]
    exact ⟨_, rfl, rfl, rest, rfl⟩
  | true =>
    rw [hr] at h
    simp only [if_true] at h ⊢
    obtain ⟨lits, ps, extra, rest, h1, h2, h3, h4, h5⟩ := h
    unfold readRle
    by_cases hd : st.dup > 0
    · rw [if_pos hd]
      obtain ⟨d, hd'⟩ : ∃ d, st.dup = d + 1 := ⟨st.dup - 1, by omega⟩
      rw [hd', List.replicate_succ, List.cons_append, List.cons_append] at h4
      injection h4 with e1 e2
      exact ⟨_, rfl, e1, lits, ps, extra, rest, h1, h2, h3, by rw [hd']; exact e2, h5⟩
    · rw [if_neg hd]
      have hd0 : st.dup = 0 := by omega
      rw [hd0, List.replicate_zero, List.nil_append] at h4
      cases lits with
      | cons x lits =>
        rw [List.length_cons] at h1
        rw [List.cons_append, List.cons_append] at h4
        injection h4 with e1 e2
        subst e1
        rw [if_neg (by omega)]
        simp only [bind, Except.bind, pure, Except.pure]
        rw [h5, List.flatten_cons, List.append_assoc, bytes_append _ _ _ hp]
        exact ⟨_, rfl, rfl, lits, ps, extra, rest, by show _ = st.block - 1; omega, fun q hq => h2 q (by simp [hq]), h3,
          by show List.replicate st.dup x ++ _ = _; rw [hd0]; exact e2, rfl⟩
      | nil =>
        rw [List.length_nil] at h1
        rw [if_pos h1.symm]
        rw [List.nil_append] at h4
        rw [List.flatten_nil, List.nil_append] at h5
        cases ps with
        | nil => simp at h4
        | cons q ps =>
          have hq := h3 q (by simp)
          rw [List.flatMap_cons] at h4 h5
          cases q with
          | run n x =>
            obtain ⟨q1, q2, q3⟩ := hq
            obtain ⟨m, rfl⟩ : ∃ m, n = m + 1 := ⟨n - 1, by omega⟩
            simp only [Packet.text, Packet.code, List.replicate_succ, List.cons_append] at h4 h5
            injection h4 with e1 e2
            subst e1
            rw [h5]
            simp only [byte, bind, Except.bind, pure, Except.pure]
            rw [if_pos (by omega)]
            simp only [List.append_assoc]
            rw [bytes_append _ _ _ hp]
            refine ⟨_, rfl, rfl, [], ps, extra, rest, rfl, by simp, fun q hq => h3 q (by simp [hq]), ?_, rfl⟩
            show List.replicate ((127 + (m + 1)) % 128) x ++ _ = _
            rw [show (127 + (m + 1)) % 128 = m by omega, List.nil_append]
            exact e2
          | pixels y =>
            obtain ⟨q1, q2, q3⟩ := hq
            cases y with
            | nil => simp at q1
            | cons x y =>
              rw [List.length_cons] at q2
              simp only [Packet.text, Packet.code, List.cons_append, List.flatten_cons, List.length_cons] at h4 h5
              injection h4 with e1 e2
              subst e1
              rw [h5]
              simp only [byte, bind, Except.bind, pure, Except.pure]
              rw [if_neg (by omega)]
              simp only [List.append_assoc]
              rw [bytes_append _ _ _ hp]
              refine ⟨_, rfl, rfl, y, ps, extra, rest, ?_, fun q hq => q3 q (by simp [hq]), fun q hq => h3 q (by simp [hq]), ?_, rfl⟩
              · show _ = (y.length + 1 - 1) % 128
                omega
              · show List.replicate st.dup x ++ _ = _
                rw [hd0]; exact e2

/-- What is known of pixels: size, and indexes in the colour map. -/
def Ok (src : Src) (p : List Nat) : Prop := p.length = src.size ∧ (src.kind = .mapped → ∀ i ∈ p, i < src.map.length)

theorem row_spec (src : Src) (hk : SizeOk src.kind src.size) : ∀ (a b : List (List Nat)) (st : St), (∀ p ∈ a, Ok src p) → Rep src st (a ++ b) →
    ∃ st', row src a.length st = .ok (a.flatMap (shade src.kind src.map), st') ∧ Rep src st' b := by
  intro a
  induction a with
  | nil => intro b st _ h; exact ⟨st, rfl, h⟩
  | cons p a ih =>
    intro b st ha h
    have hp := ha p (by simp)
    obtain ⟨st1, e1, e2, e3⟩ := step_spec src st p (a ++ b) hp.1 h
    obtain ⟨st2, f1, f2⟩ := ih b st1 (fun q hq => ha q (by simp [hq])) e3
    refine ⟨st2, ?_, f2⟩
    rw [List.length_cons]
    unfold row
    rw [e1]
    simp only [bind, Except.bind, pure, Except.pure]
    rw [e2, pixel_spec src.kind src.size hk src.map p hp.1 hp.2]
    simp only []
    rw [f1]
    rfl

theorem rows_spec (src : Src) (hk : SizeOk src.kind src.size) : ∀ (a : List (List (List Nat))) (b : List (List Nat)) (st : St),
    (∀ r ∈ a, r.length = src.w ∧ ∀ p ∈ r, Ok src p) → Rep src st (a.flatten ++ b) →
    ∃ st', rows src a.length st = .ok (a.map fun r => r.flatMap (shade src.kind src.map), st') ∧ Rep src st' b := by
  intro a
  induction a with
  | nil => intro b st _ h; exact ⟨st, rfl, h⟩
  | cons r a ih =>
    intro b st ha h
    have hr := ha r (by simp)
    rw [List.flatten_cons, List.append_assoc] at h
    obtain ⟨st1, e1, e2⟩ := row_spec src hk r (a.flatten ++ b) st hr.2 h
    obtain ⟨st2, f1, f2⟩ := ih b st1 (fun q hq => ha q (by simp [hq])) e2
    refine ⟨st2, ?_, f2⟩
    rw [List.length_cons]
    unfold rows
    rw [← hr.1, e1]
    simp only [bind, Except.bind, pure, Except.pure]
    rw [f1]
    rfl

/-- Specification: what a Targa file says about its image. -/
structure Desc where
  w : Nat
  h : Nat
  kind : Kind
  rle : Bool
  topDown : Bool
  /-- bytes per pixel -/
  size : Nat
  map : List (Nat × Nat × Nat)
  /-- bits per colour map entry, ignored if there is none -/
  mapBits : Nat
  id : List Nat
  /-- origin, which is ignored -/
  x0 : Nat
  x1 : Nat
  y0 : Nat
  y1 : Nat
  /-- attribute bits, which are ignored -/
  attr : Nat

/-- Specification: a description that a file can have. -/
structure Desc.Valid (d : Desc) : Prop where
  w : 1 ≤ d.w ∧ d.w ≤ 65535
  h : 1 ≤ d.h ∧ d.h ≤ 65535
  size : SizeOk d.kind d.size
  map : d.map.length ≤ 256 ∧ (d.kind = .mapped → d.map ≠ [])
  mapBits : d.map ≠ [] → d.mapBits = 24
  attr : d.attr < 32

/-- Specification: the type of an image. -/
def imageType : Kind → Nat
  | .mapped => 1
  | .bits16 => 2
  | .bits24 => 2
  | .gray => 3

/-- Specification: what comes before the pixels. -/
def Desc.bytes (d : Desc) : List Nat :=
  [d.id.length, if d.map = [] then 0 else 1, imageType d.kind + (if d.rle then 8 else 0), 0, 0, d.map.length % 256, d.map.length / 256, d.mapBits, d.x0, d.x1,
   d.y0, d.y1, d.w % 256, d.w / 256, d.h % 256, d.h / 256, 8 * d.size, d.attr + (if d.topDown then 32 else 0)] ++
  (d.id ++ d.map.flatMap fun x => [x.2.2, x.2.1, x.1])

theorem readMap_spec : ∀ (m : List (Nat × Nat × Nat)) (s : List Nat), readMap m.length ((m.flatMap fun x => [x.2.2, x.2.1, x.1]) ++ s) = .ok (m, s) := by
  intro m
  induction m with
  | nil => intro s; rfl
  | cons x m ih =>
    intro s
    rw [List.length_cons, List.flatMap_cons, List.append_assoc]
    unfold readMap
    simp only [List.cons_append, List.nil_append, byte, bind, Except.bind, pure, Except.pure]
    rw [ih]

theorem kindOf_spec (k : Kind) (size ct : Nat) (hk : SizeOk k size) (hc : k = .mapped → ct = 1) : kindOf (imageType k) size ct = .ok k := by
  cases k with
  | gray => replace hk : size = 1 := hk; subst hk; rfl
  | mapped => replace hk : size = 1 := hk; subst hk; rw [hc rfl]; rfl
  | bits16 => replace hk : size = 2 := hk; subst hk; rfl
  | bits24 => replace hk : size = 3 ∨ size = 4 := hk; rcases hk with r | r <;> subst r <;> rfl

theorem start_spec (maxPixels : Nat) (d : Desc) (hd : d.Valid) (hm : maxPixels = 0 ∨ d.w * d.h ≤ maxPixels) (s : List Nat) :
    start maxPixels (d.bytes ++ s) = .ok { w := d.w, h := d.h, kind := d.kind, rle := d.rle, bottomUp := !d.topDown, size := d.size, map := d.map, file := s } := by
  obtain ⟨w, h, kind, rle, topDown, size, map, mapBits, id, x0, x1, y0, y1, attr⟩ := d
  obtain ⟨hw, hh, hs, ⟨hml, hmm⟩, h24, ha⟩ := hd
  simp only at hw hh hs hml hmm h24 ha hm
  have hs4 : 1 ≤ size ∧ size ≤ 4 := by
    cases kind with
    | gray => replace hs : size = 1 := hs; omega
    | mapped => replace hs : size = 1 := hs; omega
    | bits16 => replace hs : size = 2 := hs; omega
    | bits24 => replace hs : size = 3 ∨ size = 4 := hs; omega
  have hty : imageType kind ≤ 3 ∧ 1 ≤ imageType kind := by cases kind <;> decide
  have hct : (if map = [] then 0 else 1) ≤ 1 ∧ (kind = .mapped → (if map = [] then 0 else 1) = 1) := by
    refine ⟨by split <;> omega, fun e => by rw [if_neg (hmm e)]⟩
  have hct2 : (if map = [] then 0 else 1) ≠ 0 → map.length > 0 := by
    intro e
    split at e
    · omega
    · exact List.length_pos_of_ne_nil ‹_›
  unfold Desc.bytes start
  simp only []
  rw [List.append_assoc, bytes_append _ _ 18 rfl]
  simp only [bind, Except.bind, word, List.getD_cons_zero, List.getD_cons_succ]
  have e1 : map.length % 256 + map.length / 256 * 256 = map.length := by omega
  have e2 : w % 256 + w / 256 * 256 = w := by omega
  have e3 : h % 256 + h / 256 * 256 = h := by omega
  have e4 : 8 * size / 8 = size := by omega
  rw [if_neg (show ¬ 8 * size = 15 by omega)]
  simp only [e1, e2, e3, e4]
  rw [if_neg (by
    have : (attr + if topDown = true then 32 else 0) / 64 = 0 := by split <;> omega
    omega), if_neg (by omega)]
  have e5 : (if imageType kind + (if rle = true then 8 else 0) > 8 then imageType kind + (if rle = true then 8 else 0) - 8
      else imageType kind + (if rle = true then 8 else 0)) = imageType kind := by
    cases rle <;> simp <;> omega
  rw [e5, kindOf_spec kind size _ hs hct.2]
  simp only [List.append_assoc]
  rw [bytes_append _ _ _ rfl]
  simp only []
  have e6 : decide (imageType kind + (if rle = true then 8 else 0) > 8) = rle := by
    cases rle <;> simp <;> omega
  have e7 : decide ((attr + if topDown = true then 32 else 0) / 32 % 2 = 0) = !topDown := by
    cases topDown <;> simp <;> omega
  rw [e6, e7]
  by_cases hmz : map.length > 0
  · have h24' := h24 (List.ne_nil_of_length_pos hmz)
    rw [if_pos hmz, if_neg (by omega), readMap_spec]
    rfl
  · have : map = [] := List.eq_nil_of_length_eq_zero (by omega)
    subst this
    rw [if_neg hmz]
    simp
    rfl

/-- A Targa file with any header the reader supports, any ID field, any colour map of at most 256 entries, and data that hold the pixels row by row,
with or without run-length packets (which may cross rows, and go on after the image), is accepted, and the rows that cjpeg gets are those of the
image, from top to bottom. -/
theorem load_content (maxPixels : Nat) (d : Desc) (hd : d.Valid) (hm : maxPixels = 0 ∨ d.w * d.h ≤ maxPixels) (image : List (List (List Nat)))
    (hr : image.length = d.h) (hrow : ∀ r ∈ image, r.length = d.w ∧ ∀ p ∈ r, p.length = d.size ∧ (d.kind = .mapped → ∀ i ∈ p, i < d.map.length))
    (data : List Nat) (hdata : Data d.rle d.size image.flatten data) :
    ∃ src, load maxPixels (d.bytes ++ data) = .ok (src, (if d.topDown then image else image.reverse).map fun r => r.flatMap (shade d.kind d.map)) ∧
      src.w = d.w ∧ src.h = d.h ∧ src.kind = d.kind := by
  refine ⟨{ w := d.w, h := d.h, kind := d.kind, rle := d.rle, bottomUp := !d.topDown, size := d.size, map := d.map, file := data }, ?_, rfl, rfl, rfl⟩
  unfold load
  rw [start_spec maxPixels d hd hm data]
  simp only [bind, Except.bind, pure, Except.pure]
  have key : ∀ src : Src, src.w = d.w → src.kind = d.kind → src.size = d.size → src.map = d.map → src.rle = d.rle →
      ∃ st', rows src d.h { file := data, px := List.replicate d.size 0, block := 0, dup := 0 } =
        .ok (image.map fun r => r.flatMap (shade d.kind d.map), st') := by
    intro src i1 i2 i3 i4 i5
    have hrep : Rep src { file := data, px := List.replicate d.size 0, block := 0, dup := 0 } (image.flatten ++ []) := by
      unfold Rep
      unfold Data at hdata
      rw [i5, List.append_nil]
      split
      · rename_i hx
        rw [if_pos hx] at hdata
        obtain ⟨ps, extra, rest, h1, h2, h3⟩ := hdata
        exact ⟨[], ps, extra, rest, rfl, by simp, by rw [i3]; exact h1, h2, h3⟩
      · rename_i hx
        rw [if_neg hx] at hdata
        exact hdata
    obtain ⟨st', e1, -⟩ := rows_spec src (by rw [i2, i3]; exact hd.size) image [] _ (by
      intro r hr'
      rw [i1]
      refine ⟨(hrow r hr').1, fun p hp => ?_⟩
      unfold Ok
      rw [i2, i3, i4]
      exact (hrow r hr').2 p hp) hrep
    rw [hr, i2, i4] at e1
    exact ⟨st', e1⟩
  obtain ⟨st', e1⟩ := key { w := d.w, h := d.h, kind := d.kind, rle := d.rle, bottomUp := !d.topDown, size := d.size, map := d.map, file := data } rfl rfl rfl rfl rfl
  rw [e1]
  simp only []
  cases htd : d.topDown with
  | true => rfl
  | false =>
    simp only [Bool.not_false, if_true]
    rw [memory_eq _ d.h (by rw [List.length_map, hr]) d.h 0 (by omega), List.take_of_length_le (by rw [List.length_map, hr])]
    rw [← List.map_reverse]
    rfl

end Verif.Tga
