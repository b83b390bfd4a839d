import Verif.Huff.GatherLemmas
/-
Each restart interval is coded exactly as a scan of its own.
-/
namespace Verif.Huff

def BlkMag (prec : Nat) (last : Int) (blk : List Int) : Prop :=
  nbitsOf (blk.getD 0 0 - last).natAbs ≤ prec + 3 ∧ ∀ t ∈ zz blk, nbitsOf t.natAbs ≤ prec + 2

def McuMag (prec : Nat) : List EBlk → List (List Int) → (Nat → Int) → Prop
  | b :: bs, blk :: blks, last =>
    BlkMag prec (last b.ci) blk ∧ McuMag prec bs blks (upd last b.ci (blk.getD 0 0))
  | _, _, _ => True

def ScanMag (prec ri : Nat) (bs : List EBlk) : List (List (List Int)) → (Nat → Int) → (togo : Nat) → Prop
  | [], _, _ => True
  | m :: ms, last, togo =>
    if ri ≠ 0 ∧ togo = 0 then
      McuMag prec bs m (fun _ => 0) ∧ ScanMag prec ri bs ms (lastAfter bs m (fun _ => 0)) (ri - 1)
    else
      McuMag prec bs m last ∧
        ScanMag prec ri bs ms (lastAfter bs m last) (if ri ≠ 0 then togo - 1 else togo)

theorem encBlock_mag {prec : Nat} {dc ac : CTbl} {last : Int} {blk : List Int} {w w' : Wr}
    (he : encBlock prec dc ac last blk w = some w') : BlkMag prec last blk := by
  refine ⟨?_, ?_⟩
  · simp only [encBlock] at he
    split at he
    · simp at he
    · omega
  · simp only [encBlock] at he
    split at he
    · simp at he
    · exact encAC_mags he

theorem encBlocks_mag {prec : Nat} {bs : List EBlk} {mcu : List (List Int)} {last last' : Nat → Int}
    {w w' : Wr} (he : encBlocks prec bs mcu last w = some (last', w')) :
    McuMag prec bs mcu last ∧ last' = lastAfter bs mcu last := by
  induction bs generalizing mcu last w with
  | nil => simp [encBlocks] at he; exact ⟨by simp [McuMag], by simp [lastAfter, he.1]⟩
  | cons b bs ih =>
    cases mcu with
    | nil => simp [encBlocks] at he; exact ⟨by simp [McuMag], by simp [lastAfter, he.1]⟩
    | cons blk blks =>
      simp only [encBlocks] at he
      split at he
      · simp at he
      · rename_i w1 e1
        obtain ⟨h1, h2⟩ := ih he
        exact ⟨⟨encBlock_mag e1, h1⟩, h2⟩

theorem encBlocks_of_mag {prec : Nat} (hprec : prec ≤ 13) {bs : List EBlk}
    (hb : ∀ b ∈ bs, CWf b.dc ∧ CWf b.ac) {mcu : List (List Int)} {last : Nat → Int}
    {w : Wr} {pre : List Nat} {bits : List Bool} (h : w.Inv pre bits) (hm : McuMag prec bs mcu last) :
    ∃ w', encBlocks prec bs mcu last w = some (lastAfter bs mcu last, w') ∧
      ∃ bits', w'.Inv pre bits' := by
  induction bs generalizing mcu last w bits with
  | nil => exact ⟨w, by simp [encBlocks, lastAfter], _, h⟩
  | cons b bs ih =>
    cases mcu with
    | nil => exact ⟨w, by simp [encBlocks, lastAfter], _, h⟩
    | cons blk blks =>
      have hw := hb b (by simp)
      obtain ⟨w1, e1, hi⟩ := encBlock_inv hprec hw.1 hw.2 h hm.1.1 hm.1.2
      simp only [encBlocks, e1]
      exact ih (fun b hb' => hb b (by simp [hb'])) hi hm.2

theorem encMCUs_mag {prec ri : Nat} {bs : List EBlk} {ms : List (List (List Int))} {s s' : ESt}
    (he : encMCUs prec ri bs s ms = some s') : ScanMag prec ri bs ms s.last s.togo := by
  induction ms generalizing s with
  | nil => trivial
  | cons m ms ih =>
    simp only [encMCUs, encMCU, ScanMag] at *
    by_cases hdue : ri ≠ 0 ∧ s.togo = 0
    · simp only [if_pos hdue] at he ⊢
      cases e1 : encBlocks prec bs m (fun _ => 0) (emitRestart s.w s.rst) with
      | none => simp [e1] at he
      | some x =>
        obtain ⟨last', w'⟩ := x
        rw [e1] at he
        obtain ⟨h1, rfl⟩ := encBlocks_mag e1
        have := ih he
        rw [if_pos hdue.1] at this
        exact ⟨h1, this⟩
    · simp only [if_neg hdue] at he ⊢
      cases e1 : encBlocks prec bs m s.last s.w with
      | none => simp [e1] at he
      | some x =>
        obtain ⟨last', w'⟩ := x
        rw [e1] at he
        obtain ⟨h1, rfl⟩ := encBlocks_mag e1
        exact ⟨h1, ih he⟩

theorem encMCUs_of_mag {prec : Nat} (hprec : prec ≤ 13) {bs : List EBlk}
    (hb : ∀ b ∈ bs, CWf b.dc ∧ CWf b.ac) {ms : List (List (List Int))} {s : ESt} {pre : List Nat}
    {bits : List Bool} (h : s.w.Inv pre bits) (hm : ScanMag prec 0 bs ms s.last s.togo) :
    ∃ s', encMCUs prec 0 bs s ms = some s' := by
  induction ms generalizing s bits with
  | nil => exact ⟨s, rfl⟩
  | cons m ms ih =>
    simp only [ScanMag] at hm
    rw [if_neg (by simp)] at hm
    obtain ⟨w', e, bits', hi⟩ := encBlocks_of_mag hprec hb h hm.1
    simp only [encMCUs, encMCU]
    simp only [show ¬((0:Nat) ≠ 0 ∧ s.togo = 0) by simp, if_false, e]
    exact ih hi hm.2

theorem scanMag_zero_togo {prec : Nat} {bs : List EBlk} {ms : List (List (List Int))} {last : Nat → Int}
    {t t' : Nat} (h : ScanMag prec 0 bs ms last t) : ScanMag prec 0 bs ms last t' := by
  induction ms generalizing last t t' with
  | nil => trivial
  | cons m ms ih =>
    simp only [ScanMag] at *
    rw [if_neg (by simp)] at *
    exact ⟨h.1, ih h.2⟩

theorem chunks_cons {α : Type} (k : Nat) (m : α) (ms : List α) :
    chunks (k + 1) (m :: ms) = (m :: ms.take k) :: chunks (k + 1) (ms.drop k) := by
  conv => lhs; rw [chunks]
  simp

theorem chunks_nil {α : Type} (k : Nat) : chunks k ([] : List α) = [] := by rw [chunks]; simp

theorem scanMag_chunks {prec ri : Nat} (hri : ri ≠ 0) {bs : List EBlk} {ms : List (List (List Int))}
    {last : Nat → Int} {togo : Nat} (h : ScanMag prec ri bs ms last togo) :
    ScanMag prec 0 bs (ms.take togo) last 0 ∧
      ∀ c ∈ chunks ri (ms.drop togo), ScanMag prec 0 bs c (fun _ => 0) 0 := by
  induction ms generalizing last togo with
  | nil => simp [ScanMag, chunks_nil]
  | cons m ms ih =>
    simp only [ScanMag] at h
    obtain ⟨k, rfl⟩ : ∃ k, ri = k + 1 := ⟨ri - 1, by omega⟩
    by_cases hdue : k + 1 ≠ 0 ∧ togo = 0
    · rw [if_pos hdue] at h
      obtain ⟨-, rfl⟩ := hdue
      obtain ⟨h1, h2⟩ := ih h.2
      refine ⟨trivial, ?_⟩
      rw [List.drop_zero, chunks_cons]
      intro c hc
      rcases List.mem_cons.1 hc with rfl | hc
      · simp only [ScanMag]
        rw [if_neg (by simp)]
        exact ⟨h.1, scanMag_zero_togo h1⟩
      · exact h2 c hc
    · rw [if_neg hdue, if_pos hri] at h
      obtain ⟨j, rfl⟩ : ∃ k, togo = k + 1 := ⟨togo - 1, by omega⟩
      obtain ⟨h1, h2⟩ := ih h.2
      refine ⟨?_, h2⟩
      simp only [List.take_succ_cons, ScanMag]
      rw [if_neg (by simp)]
      exact ⟨h.1, scanMag_zero_togo h1⟩

theorem encScan_chunk {prec : Nat} (hprec : prec ≤ 13) {bs : List EBlk}
    (hb : ∀ b ∈ bs, CWf b.dc ∧ CWf b.ac) {ms : List (List (List Int))}
    (hm : ScanMag prec 0 bs ms (fun _ => 0) 0) :
    encScan prec 0 bs ms = some (segment (scanTail 0 bs ms (fun _ => 0) 0 0).1) := by
  obtain ⟨s', e⟩ := encMCUs_of_mag hprec hb (s := encInit 0) (encInit_inv 0) hm
  have : encScan prec 0 bs ms = some (flushBits s'.w).out := by simp [encScan, e]
  have h2 := encScan_sound hprec hb this
  rw [this, h2, scanTail_zero_snd, List.append_nil]

theorem length_chunks {α : Type} (n : Nat) (hn : 0 < n) (l : List α) :
    (chunks n l).length = (l.length + n - 1) / n := by
  generalize h : l.length = k
  induction k using Nat.strongRecOn generalizing l with
  | ind k ih =>
    rw [chunks]
    split
    · rename_i h0
      rcases h0 with h0 | h0
      · omega
      · subst h0; simp at h; subst h; simp [Nat.div_eq_of_lt (show n - 1 < n by omega)]
    · rename_i h0
      simp only [not_or] at h0
      have : 0 < l.length := List.length_pos_iff.2 h0.2
      simp only [List.length_cons]
      rw [ih (k - n) (by omega) (l.drop n) (by simp [h])]
      by_cases hk : k ≤ n
      · rw [show (k - n + n - 1) / n = 0 from Nat.div_eq_of_lt (by omega)]
        have : (k + n - 1) / n = 1 := Nat.div_eq_of_lt_le (by omega) (by omega)
        omega
      · rw [show k + n - 1 = (k - n + n - 1) + n by omega, Nat.add_div_right _ hn]

theorem encBlk_wf {dcT acT : Nat → HuffTbl} {bs : List BlkSpec} {es : List EBlk}
    (htab : ∀ b ∈ bs, (dcT b.dcNo).counts.length = 16 ∧ (acT b.acNo).counts.length = 16)
    (hF : List.Forall₂ (fun b e => encBlk dcT acT b = some e) bs es) :
    ∀ e ∈ es, CWf e.dc ∧ CWf e.ac := by
  induction hF with
  | nil => simp
  | cons hd tl ih =>
    rename_i b e bs es
    intro x hx
    rcases List.mem_cons.1 hx with rfl | hx
    · obtain ⟨t1, t3⟩ := htab b (by simp)
      unfold encBlk at hd
      split at hd
      case h_2 => simp at hd
      rename_i d a e1 e2
      simp at hd
      subst hd
      exact ⟨makeCTbl_wf t1 e1, makeCTbl_wf t3 e2⟩
    · exact ih (fun b hb => htab b (by simp [hb])) x hx

end Verif.Huff
