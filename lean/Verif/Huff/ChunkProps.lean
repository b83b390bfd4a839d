import Verif.Huff.Chunk
/-
C48: the fast path of the sequential Huffman decoder changes nothing.
-/
namespace Verif.Huff

/-- A block of zeros. -/
abbrev zblk : List Int := List.replicate 64 0

/-- What is in the blocks makes no difference once the assignments `W` are made. -/
structure Harmless (pend : List (List Int)) (W : List Writes) : Prop where
  len : pend.length = W.length
  eq : List.zipWith applyW pend W = W.map (applyW zblk)

/-- `r` with the bytes `fut` still to come stands for the same position in the same data as `rw`. -/
structure RSim (r : Rd) (fut : List Nat) (rw : Rd) : Prop where
  ok : (r.more fut).Ok
  okw : rw.Ok
  abs : (r.more fut).abs = rw.abs
  tail : (r.more fut).tail = rw.tail

theorem zipWith_redo {pend : List (List Int)} {ws W : List Writes} (h : List.Forall₂ (· <+: ·) ws W)
    (hl : pend.length = W.length) :
    List.zipWith applyW (List.zipWith applyW pend ws) W = List.zipWith applyW pend W := by
  induction h generalizing pend with
  | nil => simp at hl; subst hl; rfl
  | cons h1 _ ih =>
    cases pend with
    | nil => simp at hl
    | cons b pend =>
      simp only [List.zipWith_cons_cons]
      rw [applyW_redo h1, ih (by simpa using hl)]

theorem forall₂_len {α β : Type} {R : α → β → Prop} {a : List α} {b : List β} (h : List.Forall₂ R a b) :
    a.length = b.length := by
  induction h with
  | nil => rfl
  | cons _ _ ih => simp [ih]

theorem Harmless.redo {pend : List (List Int)} {ws W : List Writes} (h : Harmless pend W)
    (hp : List.Forall₂ (· <+: ·) ws W) : Harmless (List.zipWith applyW pend ws) W :=
  ⟨by simp [h.len, forall₂_len hp], by rw [zipWith_redo hp h.len, h.eq]⟩

theorem forall₂_prefix_refl (W : List Writes) : List.Forall₂ (· <+: ·) W W := by
  induction W with
  | nil => exact .nil
  | cons w W ih => exact .cons List.prefix_rfl ih

theorem forall₂_prefix_trans {A B C : List Writes} (h : List.Forall₂ (· <+: ·) A B) (g : List.Forall₂ (· <+: ·) B C) :
    List.Forall₂ (· <+: ·) A C := by
  induction h generalizing C with
  | nil => exact g
  | cons h1 _ ih => cases g with | cons g1 g2 => exact .cons (h1.trans g1) (ih g2)

variable {bs : List DBlk} {last last' : Nat → Int} {r rw rw' : Rd} {fut : List Nat} {W : List Writes}
  {pend : List (List Int)}

theorem ref_writes (hb : ∀ b ∈ bs, b.TOk) (hsim : RSim r fut rw) (href : blocksRun bs last rw = (W, some (last', rw'))) :
    W = blocksW (zeroExt rw.bits) bs last 0 := by
  have h := (blocksRun_at hb (last := last) hsim.okw (at_start rw.abs)).2 (by rw [href]; simp)
  rw [href] at h
  exact h

/-- The slow path, on the bytes at hand and on blocks that may have been written to. -/
theorem slow_step (hb : ∀ b ∈ bs, b.TOk) (hsim : RSim r fut rw)
    (href : blocksRun bs last rw = (W, some (last', rw'))) (hp : Harmless pend W) :
    (∃ r', slowOn bs pend last r = .ok (W.map (applyW zblk)) last' r' ∧ RSim r' fut rw' ∧ r'.bytes <:+ r.bytes) ∨
    (∃ pend', slowOn bs pend last r = .suspend pend' ∧ Harmless pend' W ∧ (fut = [] → rw.tail = none)) := by
  have hW := ref_writes hb hsim href
  have hat : At (zeroExt rw.bits) rw.bits.length rw.insuff rw.hits (r.more fut).abs 0 := by
    rw [hsim.abs]; exact at_start rw.abs
  obtain ⟨m1, m2⟩ := blocksRun_more fut bs last r
  obtain ⟨n1, n2⟩ := blocksRun_at hb (last := last) hsim.ok hat
  unfold slowOn
  cases hx : blocksRun bs last r with
  | mk ws x =>
    rw [hx] at m1 m2
    cases x with
    | none =>
      right
      refine ⟨_, rfl, hp.redo ?_, fun hf => ?_⟩
      · rw [hW]; exact forall₂_prefix_trans m2 n1
      · apply Classical.byContradiction
        intro ht
        subst hf
        rw [← hsim.tail, more_nil] at ht
        have hok := hsim.ok
        rw [more_nil] at hok
        have := decBlocks_total (fun b h => (hb b h).toOk) (last := last) hok ht
        rw [decBlocks_run, hx] at this
        exact this rfl
    | some x =>
      left
      obtain ⟨l1, r1⟩ := x
      have e1 := m1 _ rfl
      dsimp only at e1
      rw [e1] at n2
      have e2 := n2 (by simp)
      dsimp only at e2
      have d1 := decBlocks_run bs last (r.more fut)
      have d2 := decBlocks_run bs last rw
      rw [e1] at d1
      rw [href] at d2
      obtain ⟨a1, a2, a3⟩ := decBlocks_abs (fun b h => (hb b h).toOk) hsim.ok d1
      obtain ⟨b1, b2, b3⟩ := decBlocks_abs (fun b h => (hb b h).toOk) hsim.okw d2
      rw [hsim.abs, b3] at a3
      simp only [Prod.mk.injEq] at a3
      refine ⟨r1, ?_, ⟨a1, b1, a3.2.2.symm, by rw [a2, b2, hsim.tail]⟩, ?_⟩
      · dsimp only
        rw [e2, ← hW, hp.eq, a3.2.1]
      · exact blocksRun_suffix (x := (l1, r1)) (by rw [hx])

theorem fb_any {r : Rd} (hm : r.marker = 0) (hn : NoFill r.bytes) :
    semAny.fb ⟨r.gb, r.left, r.bytes, r.marker⟩ = r.bits := by
  show toBits r.left r.gb ++ bitsOfBytes (unstuffF r.bytes) = _
  rw [unstuffF_eq hn]
  simp [Rd.bits, hm]

theorem fb_ok {r : Rd} (hm : r.marker = 0) : semOk.fb ⟨r.gb, r.left, r.bytes, r.marker⟩ = r.bits := by
  show toBits r.left r.gb ++ bitsOfBytes (unstuff false r.bytes) = _
  simp [Rd.bits, hm]

theorem mem_zip_tok (hb : ∀ b ∈ bs, b.TOk) (pend : List (List Int)) : ∀ b ∈ bs.zip pend, b.1.TOk := by
  intro b h
  exact hb b.1 (List.of_mem_zip h).1

theorem fast_pot (h : 512 * bs.length ≤ r.bytes.length) (c : List Nat) (hl : pend.length = bs.length) :
    bs.zip pend = [] ∨ 64 + 1984 * (bs.zip pend).length ≤ FSt.pot ⟨r.gb, r.left, r.bytes ++ c, r.marker⟩ := by
  cases hbs : bs with
  | nil => left; simp
  | cons b bs' =>
    right
    have e : (bs.zip pend).length = bs.length := by simp [hl]
    rw [← hbs, e]
    have : 1 ≤ bs.length := by rw [hbs]; simp
    simp only [FSt.pot, List.length_append]
    generalize bs.length = n at *
    generalize r.bytes.length = m at *
    linarith [Nat.zero_le r.left, Nat.zero_le c.length]

/-- decode_mcu's body, with fast path, on the bytes at hand and on blocks that may have been written to. -/
theorem body_step {ri : Nat} (hb : ∀ b ∈ bs, b.TOk) (hsim : RSim r fut rw) (hi : rw.insuff = false)
    (hn : ri = 0 → NoFill (r.bytes ++ fut))
    (href : blocksRun bs last rw = (W, some (last', rw'))) (hp : Harmless pend W) :
    (∃ r', mcuBody ri bs pend last r = .ok (W.map (applyW zblk)) last' r' ∧ RSim r' fut rw' ∧ r'.bytes <:+ r.bytes) ∨
    (∃ pend', mcuBody ri bs pend last r = .suspend pend' ∧ Harmless pend' W ∧ (fut = [] → rw.tail = none)) := by
  have hW := ref_writes hb hsim href
  have hWl : W.length = bs.length := by rw [hW, blocksW_length]
  have hir : r.insuff = false := by
    have := congrArg LR.insuff hsim.abs
    exact this.trans hi
  unfold mcuBody
  rw [if_neg (by rw [hir]; simp)]
  split
  · rename_i hc
    obtain ⟨h0, h512, hm⟩ := hc
    have hmm : (r.more fut).marker = 0 := hm
    have hbits : (r.more fut).bits = rw.bits := congrArg LR.bits hsim.abs
    have hf0 : (⟨r.gb, r.left, r.bytes, r.marker⟩ : FSt).Ok := ⟨(more_ok hsim.ok).left64, (more_ok hsim.ok).bytes⟩
    have hf1 : (⟨r.gb, r.left, r.bytes ++ fut, r.marker⟩ : FSt).Ok := ⟨hsim.ok.left64, hsim.ok.bytes⟩
    have hlen : pend.length = bs.length := by rw [hp.len, hWl]
    have hz := mem_zip_tok hb pend
    obtain ⟨b0, l0, f0, n0, e0, -⟩ := blocksFast_ok semOk hz last hf0
      (by have := fast_pot (r := r) (pend := pend) h512 [] hlen; rw [List.append_nil] at this; exact this)
    have em : blocksFast (bs.zip pend) last ⟨r.gb, r.left, r.bytes ++ fut, r.marker⟩ = some (b0, l0, f0.more fut) :=
      blocksFast_more fut e0
    rw [e0]
    dsimp only
    split
    · rename_i hh
      obtain ⟨b1, l1, f1, n1, e1, -, g1⟩ := blocksFast_ok semAny hz last hf1 (fast_pot (r := r) h512 fut hlen)
      rw [em] at e1
      simp only [Option.some.injEq, Prod.mk.injEq] at e1
      obtain ⟨rfl, rfl, rfl⟩ := e1
      obtain ⟨-, w⟩ := (g1 trivial).2 _ 0 (semAny.refl _)
      have hfb := fb_any hmm (hn h0)
      rw [show semAny.fb ⟨r.gb, r.left, r.bytes ++ fut, r.marker⟩ = rw.bits from hfb.trans hbits,
        iBlocksOn_w _ _ _ hlen, ← hW] at w
      simp only [Prod.mk.injEq] at w
      rw [← w.1]
      exact slow_step hb hsim href (hp.redo (forall₂_prefix_refl W))
    · rename_i hh
      simp only [not_not] at hh
      left
      obtain ⟨b1, l1, f1, n1, e1, o1, g1⟩ := blocksFast_ok semOk hz last hf1 (fast_pot (r := r) h512 fut hlen)
      rw [em] at e1
      simp only [Option.some.injEq, Prod.mk.injEq] at e1
      obtain ⟨rfl, rfl, rfl⟩ := e1
      obtain ⟨q, w⟩ := (g1 hh).2 _ 0 (semOk.refl _)
      have hfb := fb_ok hmm
      rw [show semOk.fb ⟨r.gb, r.left, r.bytes ++ fut, r.marker⟩ = rw.bits from hfb.trans hbits,
        iBlocksOn_w _ _ _ hlen, ← hW] at w
      simp only [Prod.mk.injEq] at w
      have d2 := decBlocks_run bs last rw
      rw [href] at d2
      obtain ⟨x1, x2, x3, x4⟩ := decBlocks_ideal hb hsim.okw d2
      rw [w.2] at x3 x4
      simp only [Prod.mk.injEq] at x3
      obtain ⟨q1, q2, q3⟩ := q
      have hfb' : (⟨r.gb, r.left, r.bytes ++ fut, r.marker⟩ : FSt).bits = rw.bits := hfb.trans hbits
      rw [hfb'] at q1 q2
      obtain ⟨y1, y2, y3⟩ := x4.inside q1
      refine ⟨{ r with gb := f0.gb, left := f0.left, bytes := f0.buf }, by rw [← w.1, hp.eq, x3.2], ⟨⟨o1.left64, o1.bytes⟩, x1, ?_, ?_⟩, blocksFast_suffix e0⟩
      · have hb2 : rw'.bits = rw.bits.drop (0 + n1) := by
          apply List.ext_getElem
          · rw [List.length_drop]; exact y1
          · intro i h1 h2
            have := x4.bits i
            have hlt : 0 + n1 + i < rw.bits.length := by rw [List.length_drop] at h2; omega
            rw [show rw'.abs.bits = rw'.bits from rfl] at this
            simp only [zeroExt, List.getD_eq_getElem?_getD] at this
            rw [List.getElem?_eq_getElem h1, List.getElem?_eq_getElem hlt] at this
            simpa using this
        simp only [Rd.abs, LR.mk.injEq]
        refine ⟨?_, hir.trans (hi.symm.trans y2.symm), ?_⟩
        · rw [hb2, ← q2]
          simp [Rd.bits, Rd.more, FSt.more, FSt.bits, hm]
        · exact (congrArg LR.hits hsim.abs).trans y3.symm
      · rw [x2, ← hsim.tail]
        simp only [Rd.tail, Rd.more, hm, if_true]
        exact q3
  · exact slow_step hb hsim href hp

end Verif.Huff
