import Verif.Tga.Model
import Verif.Gif.Safe
/-
The Targa reader: no undefined behaviour, complete rows.
-/
namespace Verif.Tga

open Verif.Gif (Err R byte bytes at? word Safe Bytes byte_safe bytes_safe word_lt)

/-- Samples per pixel. -/
def comps (k : Kind) : Nat := if k = .gray then 1 else 3

/-- Bytes per pixel. -/
def SizeOk (k : Kind) (size : Nat) : Prop := match k with
  | .gray => size = 1
  | .mapped => size = 1
  | .bits16 => size = 2
  | .bits24 => size = 3 ∨ size = 4

structure MapOk (m : List (Nat × Nat × Nat)) : Prop where
  bytes : ∀ x ∈ m, x.1 < 256 ∧ x.2.1 < 256 ∧ x.2.2 < 256

structure SrcOk (maxPixels : Nat) (src : Src) : Prop where
  w : 1 ≤ src.w ∧ src.w ≤ 65535
  h : 1 ≤ src.h ∧ src.h ≤ 65535
  limit : maxPixels = 0 ∨ src.w * src.h ≤ maxPixels
  size : SizeOk src.kind src.size
  map : MapOk src.map
  file : Bytes src.file

structure StOk (size : Nat) (st : St) : Prop where
  file : Bytes st.file
  px : Bytes st.px
  len : st.px.length = size

theorem readPlain_safe (size : Nat) (st : St) (h : StOk size st) : Safe (StOk size) (readPlain size st) := by
  unfold readPlain
  refine (bytes_safe size _ h.file).bind ?_
  rintro ⟨p, f⟩ ⟨a, b, c, -⟩
  first
  | exact ⟨b, a, c⟩
  | exact ⟨c, b, a⟩
  | exact ⟨c, a, b⟩
  | exact ⟨b, c, a⟩

theorem readRle_safe (size : Nat) (st : St) (h : StOk size st) : Safe (StOk size) (readRle size st) := by
  unfold readRle
  split
  · exact ⟨h.file, h.px, h.len⟩
  · have key : ∀ st' : St, Bytes st'.file → Safe (StOk size) (do
        let (p, f) ← bytes size st'.file
        pure { st' with px := p, file := f }) := by
      intro st' h'
      refine (bytes_safe size _ h').bind ?_
      rintro ⟨p, f⟩ ⟨a, b, c, -⟩
      first
      | exact ⟨b, a, c⟩
      | exact ⟨c, b, a⟩
      | exact ⟨c, a, b⟩
      | exact ⟨b, c, a⟩
    refine Safe.bind (P := fun st' : St => Bytes st'.file) ?_ key
    split
    · refine (byte_safe _ h.file).bind ?_
      rintro ⟨i, f⟩ ⟨-, b, -⟩
      simp only []
      split <;> exact b
    · exact h.file

theorem at_ok {a : List Nat} {i : Nat} (h : i < a.length) : at? a i = .ok a[i] := by
  unfold at?; rw [List.getElem?_eq_getElem h]

theorem c5_ok (i : Nat) : at? c5 (i % 32) = .ok (c5.getD (i % 32) 0) ∧ c5.getD (i % 32) 0 < 256 := by
  have h : ∀ j, j < 32 → at? c5 j = .ok (c5.getD j 0) ∧ c5.getD j 0 < 256 := by decide
  exact h _ (Nat.mod_lt _ (by decide))

theorem pixel_safe (k : Kind) (size : Nat) (hk : SizeOk k size) (m : List (Nat × Nat × Nat)) (hm : MapOk m) (px : List Nat) (hp : Bytes px)
    (hl : px.length = size) : Safe (fun l => l.length = comps k ∧ ∀ v ∈ l, v < 256) (pixel k m px) := by
  have hb : ∀ i (h : i < px.length), px[i] < 256 := fun i h => hp _ (List.getElem_mem h)
  cases k with
  | gray =>
    replace hk : size = 1 := hk
    unfold pixel
    rw [at_ok (by omega)]
    exact ⟨rfl, by intro v hv; rw [List.mem_singleton] at hv; rw [hv]; exact hb _ _⟩
  | mapped =>
    replace hk : size = 1 := hk
    unfold pixel
    rw [at_ok (by omega)]
    simp only [bind, Except.bind]
    split
    · exact trivial
    · rw [List.getElem?_eq_getElem (by omega)]
      have := hm.bytes _ (List.getElem_mem (show px[0] < m.length by omega))
      refine ⟨rfl, ?_⟩
      intro v hv
      simp only [List.mem_cons, List.not_mem_nil, or_false] at hv
      rcases hv with r | r | r <;> rw [r]
      · exact this.1
      · exact this.2.1
      · exact this.2.2
  | bits16 =>
    replace hk : size = 2 := hk
    unfold pixel
    rw [at_ok (show 0 < px.length by omega), at_ok (show 1 < px.length by omega)]
    simp only [bind, Except.bind]
    rw [(c5_ok _).1, (c5_ok _).1, (c5_ok _).1]
    refine ⟨rfl, ?_⟩
    intro v hv
    simp only [List.mem_cons, List.not_mem_nil, or_false] at hv
    rcases hv with r | r | r <;> rw [r] <;> exact (c5_ok _).2
  | bits24 =>
    replace hk : size = 3 ∨ size = 4 := hk
    unfold pixel
    rw [at_ok (show 0 < px.length by omega), at_ok (show 1 < px.length by omega), at_ok (show 2 < px.length by omega)]
    refine ⟨rfl, ?_⟩
    intro v hv
    simp only [List.mem_cons, List.not_mem_nil, or_false] at hv
    rcases hv with r | r | r <;> rw [r] <;> exact hb _ _

theorem row_safe (mp : Nat) (src : Src) (hs : SrcOk mp src) : ∀ (n : Nat) (st : St), StOk src.size st →
    Safe (fun r => (r.1.length = n * comps src.kind ∧ ∀ v ∈ r.1, v < 256) ∧ StOk src.size r.2) (row src n st) := by
  intro n
  induction n with
  | zero => intro st h; exact ⟨⟨by simp, by simp⟩, h⟩
  | succ n ih =>
    intro st h
    unfold row
    refine Safe.bind (P := StOk src.size) ?_ ?_
    · split
      · exact readRle_safe _ _ h
      · exact readPlain_safe _ _ h
    · intro st1 h1
      refine (pixel_safe src.kind src.size hs.size src.map hs.map _ h1.px h1.len).bind ?_
      intro p hp
      refine (ih st1 h1).bind ?_
      rintro ⟨l, st2⟩ ⟨g1, g2⟩
      refine ⟨⟨?_, ?_⟩, g2⟩
      · show (p ++ l).length = _
        rw [List.length_append, hp.1, g1.1]; ring
      · intro v hv
        rcases List.mem_append.1 hv with r | r
        · exact hp.2 v r
        · exact g1.2 v r

theorem rows_safe (mp : Nat) (src : Src) (hs : SrcOk mp src) : ∀ (n : Nat) (st : St), StOk src.size st →
    Safe (fun r => r.1.length = n ∧ ∀ x ∈ r.1, x.length = src.w * comps src.kind ∧ ∀ v ∈ x, v < 256) (rows src n st) := by
  intro n
  induction n with
  | zero => intro st h; exact ⟨rfl, by simp⟩
  | succ n ih =>
    intro st h
    unfold rows
    refine (row_safe mp src hs src.w st h).bind ?_
    rintro ⟨r, st1⟩ ⟨g1, g2⟩
    refine (ih st1 g2).bind ?_
    rintro ⟨l, st2⟩ ⟨k1, k2⟩
    refine ⟨congrArg (· + 1) k1, ?_⟩
    intro x hx
    rcases List.mem_cons.1 hx with e | e
    · rw [e]; exact g1
    · exact k2 x e

theorem readMap_safe : ∀ (n : Nat) (s : List Nat), Bytes s → Safe (fun r => MapOk r.1 ∧ Bytes r.2) (readMap n s) := by
  intro n
  induction n with
  | zero => intro s h; exact ⟨⟨by simp⟩, h⟩
  | succ n ih =>
    intro s h
    unfold readMap
    refine (byte_safe _ h).bind ?_
    rintro ⟨b, s1⟩ ⟨b1, h1, -⟩
    refine (byte_safe _ h1).bind ?_
    rintro ⟨g, s2⟩ ⟨b2, h2, -⟩
    refine (byte_safe _ h2).bind ?_
    rintro ⟨r, s3⟩ ⟨b3, h3, -⟩
    refine (ih s3 h3).bind ?_
    rintro ⟨l, s4⟩ ⟨g1, g2⟩
    refine ⟨⟨?_⟩, g2⟩
    intro x hx
    rcases List.mem_cons.1 hx with e | e
    · rw [e]; exact ⟨b3, b2, b1⟩
    · exact g1.bytes x e

theorem kindOf_safe (sub size ct : Nat) : Safe (fun k => SizeOk k size) (kindOf sub size ct) := by
  unfold kindOf
  split
  · split
    · rename_i h; exact h.1
    · trivial
  · split
    · split
      · assumption
      · split
        · exact Or.inl ‹_›
        · split
          · exact Or.inr ‹_›
          · trivial
    · split
      · split
        · assumption
        · trivial
      · trivial

theorem start_safe (mp : Nat) (s : List Nat) (hs : Bytes s) : Safe (SrcOk mp) (start mp s) := by
  unfold start
  refine (bytes_safe 18 s hs).bind ?_
  rintro ⟨h, s1⟩ hb
  have hb1 : Bytes h ∧ Bytes s1 := by tauto
  simp only []
  generalize (if h.getD 16 0 = 15 then 16 else h.getD 16 0) = depth
  split
  · trivial
  · rename_i hc
    split
    · trivial
    · rename_i hlim
      refine (kindOf_safe _ _ _).bind ?_
      intro k hk
      refine (bytes_safe _ s1 hb1.2).bind ?_
      rintro ⟨i, s2⟩ hb2
      have hb3 : Bytes s2 := by tauto
      refine Safe.bind (P := fun r => MapOk r.1 ∧ Bytes r.2) ?_ ?_
      · split
        · split
          · trivial
          · exact readMap_safe _ _ hb3
        · split
          · trivial
          · exact ⟨⟨by simp⟩, hb3⟩
      · rintro ⟨m, s3⟩ ⟨g1, g2⟩
        have w1 := word_lt h hb1.1 12
        have w2 := word_lt h hb1.1 14
        exact ⟨⟨by show 1 ≤ word h 12; omega, w1⟩, ⟨by show 1 ≤ word h 14; omega, w2⟩, by show mp = 0 ∨ word h 12 * word h 14 ≤ mp; omega, hk, g1, g2⟩

theorem memory_eq (stored : List (List Nat)) (h : Nat) (hl : stored.length = h) : ∀ (n i : Nat), i + n = h →
    memory stored h n i = .ok ((stored.take n).reverse) := by
  intro n
  induction n with
  | zero => intro i _; rfl
  | succ n ih =>
    intro i hi
    unfold memory
    rw [show h - i - 1 = n by omega, List.getElem?_eq_getElem (by omega)]
    simp only [bind, Except.bind, pure, Except.pure]
    rw [ih (i + 1) (by omega), List.take_succ_eq_append_getElem (by omega), List.reverse_append]
    rfl

/-- Any sequence of bytes, taken as a Targa file, is read without undefined behaviour; if it is accepted then the image has 1 to 65535 columns and
rows and at most the given number of pixels, and every row is complete, with samples at most 255. -/
theorem load_safe (maxPixels : Nat) (s : List Nat) (hs : ∀ b ∈ s, b < 256) :
    load maxPixels s ≠ .error .fault ∧ ∀ src l, load maxPixels s = .ok (src, l) →
      1 ≤ src.w ∧ src.w ≤ 65535 ∧ 1 ≤ src.h ∧ src.h ≤ 65535 ∧ (maxPixels = 0 ∨ src.w * src.h ≤ maxPixels) ∧ l.length = src.h ∧
      ∀ x ∈ l, x.length = src.w * (if src.kind = .gray then 1 else 3) ∧ ∀ v ∈ x, v ≤ 255 := by
  have key : Safe (fun r : Src × List (List Nat) => 1 ≤ r.1.w ∧ r.1.w ≤ 65535 ∧ 1 ≤ r.1.h ∧ r.1.h ≤ 65535 ∧
      (maxPixels = 0 ∨ r.1.w * r.1.h ≤ maxPixels) ∧ r.2.length = r.1.h ∧
      ∀ x ∈ r.2, x.length = r.1.w * comps r.1.kind ∧ ∀ v ∈ x, v < 256) (load maxPixels s) := by
    unfold load
    refine (start_safe maxPixels s hs).bind ?_
    intro src h
    refine (rows_safe maxPixels src h src.h _ ⟨h.file, ?_, by simp⟩).bind ?_
    · intro b hb
      rw [List.eq_of_mem_replicate hb]; decide
    · rintro ⟨l, st⟩ ⟨g1, g2⟩
      refine Safe.bind (P := fun t : List (List Nat) => t.length = src.h ∧ ∀ x ∈ t, x.length = src.w * comps src.kind ∧ ∀ v ∈ x, v < 256) ?_ ?_
      · split
        · rw [memory_eq l src.h g1 src.h 0 (by omega)]
          refine ⟨by rw [List.length_reverse, List.length_take]; exact Nat.min_eq_left (le_of_eq g1.symm), fun x hx => ?_⟩
          rw [List.mem_reverse] at hx
          exact g2 x (List.mem_of_mem_take hx)
        · exact ⟨g1, g2⟩
      · intro t ht
        exact ⟨h.w.1, h.w.2, h.h.1, h.h.2, h.limit, ht.1, ht.2⟩
  refine ⟨key.not_fault, fun src l e => ?_⟩
  rw [e] at key
  obtain ⟨a1, a2, a3, a4, a5, a6, a7⟩ := key
  exact ⟨a1, a2, a3, a4, a5, a6, fun x hx => ⟨(a7 x hx).1, fun v hv => Nat.le_of_lt_succ ((a7 x hx).2 v hv)⟩⟩

end Verif.Tga
