import Verif.File.Link
/-
C56: one scan of a sequential Huffman file, in the style of `Arith.aseq_step`.
-/
namespace Verif.File
open Verif Verif.Huff Verif.Mark
open Verif.Geom (Pos Blk Frame inImage pad walk dMcu cPerScan dPerScan cInitialSetup dInitialSetup storeMcu)
open Verif.Prog (compIdx scanPar DecSt)
open Verif.Arith (SInv idx_facts)
open Verif.Script (LegalProg LegalSeq)

theorem store_all (W : List (List Pos)) (pd : Pos → Blk) (a : Pos → Blk) :
    (W.zip (W.map fun ps => ps.map pd)).foldl (fun a pm => storeMcu a pm.1 pm.2) a = fun p => if p ∈ W.flatten then pd p else a p := by
  induction W generalizing a with
  | nil => funext p; simp
  | cons ps W ih =>
    rw [List.map_cons, List.zip_cons_cons, List.foldl_cons, ih]
    funext p
    dsimp only
    rw [Prog.storeMcu_eq, List.flatten_cons]
    by_cases h : p ∈ W.flatten
    · rw [if_pos h, if_pos (List.mem_append.2 (Or.inr h))]
    · rw [if_neg h]
      dsimp only
      by_cases h' : p ∈ ps
      · rw [if_pos h', if_pos (List.mem_append.2 (Or.inl h'))]
      · rw [if_neg h', if_neg (by rw [List.mem_append]; tauto)]

theorem sseq_step {w ht ic prec : Nat} (hprec : prec ≤ 12) {fs : List (Nat × Nat)} {f : Frame}
    (h : cInitialSetup false w ht ic prec fs = .ok f) {img : Pos → Blk}
    (himg : ∀ p : Pos, inImage f p = true → InRange prec (img p)) {n : Nat} (hn : n = f.comps.length)
    {pre post : List Script.Scan} {x : Script.Scan × Prog.Cfg} (L : LegalSeq n (pre ++ x.1 :: post))
    {g : Geom.Scan} (hg : cPerScan f (compIdx x.1) = .ok g)
    (htab : ∀ b ∈ seqBs g x.1 x.2, (x.2.dcT b.dcNo).counts.length = 16 ∧ IsBytes (x.2.dcT b.dcNo).vals ∧
      (x.2.acT b.acNo).counts.length = 16 ∧ IsBytes (x.2.acT b.acNo).vals)
    {es : List EBlk} (hes : (seqBs g x.1 x.2).mapM (encBlk x.2.dcT x.2.acT) = some es)
    (hcov : ∀ evs, gatherScan prec x.2.ri (seqBs g x.1 x.2) ((walk f g (dMcu f g)).map fun ps => ps.map (pad f img)) = some evs →
      Covered x.2.dcT x.2.acT evs) {st : DecSt} (I : SInv f img pre st) :
    ∃ bytes st', encScan prec x.2.ri es ((walk f g (dMcu f g)).map fun ps => ps.map (pad f img)) = some bytes ∧ IsBytes bytes ∧
      SInv f img (pre ++ [x.1]) st' ∧
      ∀ mk tail, 0 < mk → mk < 0xFF → IsBytes tail →
        decodeSScan f x (bytes ++ 0xFF :: mk :: tail) st = some (st', some (mk, tail, 0)) := by
  obtain ⟨G, -, -⟩ := Geom.good_of_setup h
  obtain ⟨-, hdp, -⟩ := Geom.geometry_agrees false w _ ic prec fs f h
  obtain ⟨hi, hnd, hhas⟩ := idx_facts hn (L.comps x.1 (by simp))
  have hne := Geom.idx_ne hg
  have ew := Geom.dWalk_eq_spec G hi hg
  obtain ⟨l1, l2⟩ := Geom.spec_lengths hg
  have hwin : ∀ q ∈ (walk f g (dMcu f g)).flatten, q.1 ∈ compIdx x.1 := by
    intro q hq
    rw [ew] at hq
    exact (Geom.spec_padded G hi hne q hq).1
  have hrange := fun q hq => Prog.pad_inRange (prec := prec) G hi (fun p _ h => himg p h) q (hwin q hq)
  have hm : ∀ m ∈ (walk f g (dMcu f g)).map fun ps => ps.map (pad f img), m.length = (seqBs g x.1 x.2).length ∧ ∀ blk ∈ m, InRange prec blk := by
    intro m hm
    obtain ⟨ps, hps, rfl⟩ := List.mem_map.1 hm
    refine ⟨?_, ?_⟩
    · unfold seqBs
      rw [List.length_map, List.length_map]
      rw [ew] at hps
      exact (l2 ps hps).2
    · intro blk hb
      obtain ⟨p, hp, rfl⟩ := List.mem_map.1 hb
      exact hrange p (List.mem_flatten.2 ⟨ps, hps, hp⟩)
  have R := seq_huffman_roundtrip prec x.2.ri hprec (seqBs g x.1 x.2) x.2.dcT x.2.acT htab es hes _ hm hcov
  obtain ⟨bytes, -, -, q1, q2, -⟩ := R 0xD9 (by omega) [] (by intro x hx; cases hx)
  refine ⟨bytes, ⟨fun q => if q ∈ (walk f g (dMcu f g)).flatten then pad f img q else st.img q, st.bits, 0⟩, q1, q2, ⟨rfl, ?_, ?_⟩, ?_⟩
  · rintro p ⟨s, hs, hsp⟩ hin
    dsimp only
    by_cases hp : p.1 ∈ compIdx x.1
    · rw [if_pos (by rw [ew]; exact Geom.spec_complete G hi hne p hp hin), Geom.pad_in hin]
    · rw [if_neg (fun hq => hp (hwin p hq))]
      refine I.sent p ⟨s, ?_, hsp⟩ hin
      rcases List.mem_append.1 hs with h1 | h1
      · exact h1
      · rw [List.mem_singleton] at h1
        subst h1
        exact absurd ((hhas _).2 hsp) hp
  · intro p hno
    dsimp only
    rw [if_neg, I.unsent p (fun ⟨s, hs, hsp⟩ => hno ⟨s, by simp [hs], hsp⟩)]
    intro hq
    exact hno ⟨x.1, by simp, (hhas _).1 (hwin p hq)⟩
  · intro mk tail m1 m2 ht
    obtain ⟨bytes', ds, s', r1, -, r3, r4, r5, r6⟩ := R mk ⟨m1, m2⟩ tail ht
    rw [q1, Option.some.injEq] at r1
    subst r1
    unfold decodeSScan
    simp only [hdp, hg, r3]
    rw [List.length_map] at r4
    rw [show bytes ++ 0xFF :: mk :: tail = bytes ++ [0xFF, mk] ++ tail by simp, r4]
    obtain ⟨p1, p2, p3, p4⟩ := L.params x.1 (by simp)
    dsimp only
    rw [if_neg (by simp [p1, p2, p3, p4]), r5, r6, I.warns, store_all]

end Verif.File
