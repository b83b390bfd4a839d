import Verif.Huff.ScanLemmas
/-
Encoder tables and decoder tables built from the same DHT contents agree; soundness of the encoder
without assuming the symbols are present; decomposition of a scan into restart intervals.
-/
namespace Verif.Huff

theorem fillC_spec {maxsym : Nat} {ents : List (Nat × Nat × Nat)} {c0 c : CTbl}
    (h : fillC maxsym ents c0 = some c) (s : Nat) : c s = c0 s ∨ (s, c s) ∈ ents := by
  induction ents generalizing c0 with
  | nil => simp [fillC] at h; subst h; simp
  | cons e ents ih =>
    obtain ⟨v, cc, ss⟩ := e
    simp only [fillC] at h
    split at h
    · simp at h
    · split at h
      · simp at h
      · rcases ih h with h' | h'
        · by_cases hs : s = v
          · subst hs; simp at h'; simp [h']
          · simp [hs] at h'; simp [h']
        · simp [h']

theorem fillC_maxsym {maxsym : Nat} {ents : List (Nat × Nat × Nat)} {c0 c : CTbl}
    (h : fillC maxsym ents c0 = some c) : ∀ e ∈ ents, e.1 ≤ maxsym := by
  induction ents generalizing c0 with
  | nil => simp
  | cons e ents ih =>
    obtain ⟨v, cc, ss⟩ := e
    simp only [fillC] at h
    split at h
    · simp at h
    · split at h
      · simp at h
      · intro e he
        rcases List.mem_cons.1 he with rfl | he
        · dsimp only; omega
        · exact ih h e he

/-- A codeless symbol has size 0, a coded symbol comes from the table. -/
theorem makeCTbl_spec {maxsym : Nat} {t : HuffTbl} {c : CTbl} (h : makeCTbl maxsym t = some c) :
    ∃ sizes codes, expand t = some (sizes, codes) ∧
      (∀ s, c s = (0, 0) ∨ ∃ q < sizes.length, t.vals.getD q 0 = s ∧ codes.getD q 0 = (c s).1 ∧
        sizes.getD q 0 = (c s).2) ∧
      (∀ q < sizes.length, t.vals.getD q 0 ≤ maxsym) := by
  unfold makeCTbl at h
  cases he : expand t with
  | none => simp [he] at h
  | some sc =>
    obtain ⟨sizes, codes⟩ := sc
    simp only [he] at h
    refine ⟨sizes, codes, rfl, ?_, ?_⟩
    · intro s
      rcases fillC_spec h s with h' | h'
      · exact Or.inl h'
      · right
        simp only [List.mem_map, List.mem_range] at h'
        obtain ⟨q, hq, e⟩ := h'
        simp only [Prod.mk.injEq] at e
        exact ⟨q, hq, e.1, by rw [← e.2], by rw [← e.2]⟩
    · intro q hq
      exact fillC_maxsym h (t.vals.getD q 0, codes.getD q 0, sizes.getD q 0)
        (by simp only [List.mem_map, List.mem_range]; exact ⟨q, hq, rfl⟩)

theorem makeCTbl_wf {maxsym : Nat} {t : HuffTbl} {c : CTbl} (h16 : t.counts.length = 16)
    (h : makeCTbl maxsym t = some c) (s : Nat) : (c s).2 ≤ 16 ∧ (c s).1 < 2 ^ (c s).2 := by
  obtain ⟨sizes, codes, he, h1, -⟩ := makeCTbl_spec h
  obtain ⟨C, -⟩ := expand_canon (by omega) he
  rcases h1 s with h | ⟨q, hq, -, e2, e3⟩
  · rw [h]; simp
  · rw [← e2, ← e3]
    exact ⟨(C.size_range hq).2, C.code_lt hq⟩

theorem makeD_of_makeC {maxsym : Nat} {t : HuffTbl} {c : CTbl} (ms : Option Nat)
    (hms : ∀ m, ms = some m → maxsym ≤ m)
    (h : makeCTbl maxsym t = some c) : ∃ d, makeDTbl ms t = some d := by
  obtain ⟨sizes, codes, he, -, h2⟩ := makeCTbl_spec h
  unfold makeDTbl
  rw [he]
  dsimp only
  rw [if_pos]
  · exact ⟨_, rfl⟩
  · unfold dcOk
    cases ms with
    | none => rfl
    | some m =>
      simp only [List.all_eq_true, List.mem_map, List.mem_range]
      rintro e ⟨q, hq, rfl⟩
      have := h2 q hq
      have := hms m rfl
      simp only [decide_eq_true_eq]
      omega

theorem linked_of_tables {maxsym : Nat} {ms : Option Nat} {t : HuffTbl} {c : CTbl} {d : DTbl}
    (h16 : t.counts.length = 16) (hv : IsBytes t.vals) (hc : makeCTbl maxsym t = some c)
    (hd : makeDTbl ms t = some d) : Linked c d := by
  refine ⟨makeCTbl_wf h16 hc, ?_⟩
  intro s hs r rest hr ht hb
  obtain ⟨sizes, codes, he, h1, -⟩ := makeCTbl_spec hc
  obtain ⟨sizes', codes', he', F, -⟩ := makeDTbl_facts h16 hd
  rw [he] at he'
  simp at he'
  obtain ⟨rfl, rfl⟩ := he'
  rcases h1 s with h | ⟨q, hq, e1, e2, e3⟩
  · rw [h] at hs; simp at hs
  · rw [symBits, ← e2, ← e3] at hb
    have := huffDecode_spec F hv hq hr ht hb
    rwa [e1] at this

/-! ### encoder soundness without symbol-presence hypotheses -/

def CWf (c : CTbl) : Prop := ∀ s, (c s).2 ≤ 16 ∧ (c s).1 < 2 ^ (c s).2

theorem encAC_mags {maxBits : Nat} {ac : CTbl} {ts : List Int} {r : Nat} {w w' : Wr}
    (h : encAC maxBits ac ts r w = some w') : ∀ t ∈ ts, nbitsOf t.natAbs ≤ maxBits := by
  induction ts generalizing r w with
  | nil => simp
  | cons t ts ih =>
    simp only [encAC] at h
    intro x hx
    split at h
    · rename_i h0
      rcases List.mem_cons.1 hx with rfl | hx
      · subst h0; simp [nbitsOf]
      · exact ih h x hx
    · split at h
      · simp at h
      · rcases List.mem_cons.1 hx with rfl | hx
        · omega
        · exact ih h x hx

theorem encBlock_sound {prec : Nat} {dc ac : CTbl} (hprec : prec ≤ 13) (hdc : CWf dc) (hac : CWf ac)
    {pre : List Nat} {last : Int} {blk : List Int} {w w' : Wr} {bits : List Bool} (h : w.Inv pre bits)
    (he : encBlock prec dc ac last blk w = some w') :
    w'.Inv pre (bits ++ blockBits dc ac last blk) := by
  have h1 : nbitsOf (blk.getD 0 0 - last).natAbs ≤ prec + 3 := by
    simp only [encBlock] at he
    split at he
    · simp at he
    · omega
  have h2 : ∀ t ∈ zz blk, nbitsOf t.natAbs ≤ prec + 2 := by
    simp only [encBlock] at he
    split at he
    · simp at he
    · exact encAC_mags he
  obtain ⟨w'', e, hi⟩ := encBlock_inv hprec hdc hac h h1 h2
  rw [he] at e
  simp at e
  subst e
  exact hi

theorem encBlocks_sound {prec : Nat} (hprec : prec ≤ 13) {bs : List EBlk}
    (hb : ∀ b ∈ bs, CWf b.dc ∧ CWf b.ac) {pre : List Nat} {mcu : List (List Int)} {last last' : Nat → Int}
    {w w' : Wr} {bits : List Bool} (h : w.Inv pre bits)
    (he : encBlocks prec bs mcu last w = some (last', w')) :
    last' = lastAfter bs mcu last ∧ w'.Inv pre (bits ++ mcuBits bs mcu last) := by
  induction bs generalizing mcu last w bits with
  | nil =>
    simp [encBlocks] at he
    obtain ⟨rfl, rfl⟩ := he
    exact ⟨rfl, by simpa [mcuBits] using h⟩
  | cons b bs ih =>
    cases mcu with
    | nil =>
      simp [encBlocks] at he
      obtain ⟨rfl, rfl⟩ := he
      exact ⟨rfl, by simpa [mcuBits] using h⟩
    | cons blk blks =>
      simp only [encBlocks] at he
      split at he
      · simp at he
      · rename_i w1 e1
        have hw := hb b (by simp)
        have h1 := encBlock_sound hprec hw.1 hw.2 h e1
        have := ih (fun b hb' => hb b (by simp [hb'])) h1 he
        simpa [lastAfter, mcuBits, List.append_assoc] using this

theorem encMCUs_sound {prec ri : Nat} (hprec : prec ≤ 13) {bs : List EBlk}
    (hb : ∀ b ∈ bs, CWf b.dc ∧ CWf b.ac) (ms : List (List (List Int))) {s s' : ESt} {pre : List Nat}
    {bits : List Bool} (h : s.w.Inv pre bits) (he : encMCUs prec ri bs s ms = some s') :
    (flushBits s'.w).out =
      pre ++ segment (bits ++ (scanTail ri bs ms s.last s.togo s.rst).1) ++
        (scanTail ri bs ms s.last s.togo s.rst).2 := by
  induction ms generalizing s pre bits with
  | nil =>
    simp [encMCUs] at he
    subst he
    rw [(flushBits_inv h).1]
    simp [scanTail]
  | cons m ms ih =>
    simp only [encMCUs, encMCU, scanTail] at *
    by_cases hdue : ri ≠ 0 ∧ s.togo = 0
    · simp only [if_pos hdue] at he ⊢
      cases e1 : encBlocks prec bs m (fun _ => 0) (emitRestart s.w s.rst) with
      | none => simp [e1] at he
      | some x =>
        obtain ⟨last', w'⟩ := x
        obtain ⟨rfl, hw⟩ := encBlocks_sound hprec hb (emitRestart_inv h s.rst) e1
        rw [e1] at he
        dsimp only at he
        rw [if_pos hdue.1] at he
        rw [ih hw he]
        simp [List.append_assoc]
    · simp only [if_neg hdue] at he ⊢
      cases e1 : encBlocks prec bs m s.last s.w with
      | none => simp [e1] at he
      | some x =>
        obtain ⟨last', w'⟩ := x
        obtain ⟨rfl, hw⟩ := encBlocks_sound hprec hb h e1
        rw [e1] at he
        dsimp only at he
        rw [ih hw he]
        simp [List.append_assoc]

theorem encInit_inv (ri : Nat) : (encInit ri).w.Inv [] [] :=
  ⟨[], rfl, by simp [encInit, bytesOfBits_nil], by simp [encInit], by simp [encInit]⟩

theorem encScan_sound {prec ri : Nat} (hprec : prec ≤ 13) {bs : List EBlk}
    (hb : ∀ b ∈ bs, CWf b.dc ∧ CWf b.ac) {ms : List (List (List Int))} {bytes : List Nat}
    (he : encScan prec ri bs ms = some bytes) :
    bytes = segment (scanTail ri bs ms (fun _ => 0) ri 0).1 ++
      (scanTail ri bs ms (fun _ => 0) ri 0).2 := by
  unfold encScan at he
  cases e : encMCUs prec ri bs (encInit ri) ms with
  | none => simp [e] at he
  | some s =>
    rw [e] at he
    simp only [Option.some.injEq] at he
    rw [← he, encMCUs_sound hprec hb ms (encInit_inv ri) e]
    simp [encInit]

/-! ### restart intervals -/

/-- Cut a list into pieces of `n` elements (`n > 0`). -/
def chunks {α : Type} (n : Nat) (l : List α) : List (List α) :=
  if h : n = 0 ∨ l = [] then [] else l.take n :: chunks n (l.drop n)
termination_by l.length
decreasing_by
  simp only [not_or] at h
  have : 0 < l.length := List.length_pos_iff.2 h.2
  simp; omega

/-- Segments each preceded by RSTn, numbered from `n` modulo 8. -/
def rstSegs : Nat → List (List Nat) → List Nat
  | _, [] => []
  | n, s :: ss => [0xFF, 0xD0 + n] ++ s ++ rstSegs ((n + 1) % 8) ss

theorem and7 (n : Nat) : n &&& 7 = n % 8 := Nat.and_two_pow_sub_one_eq_mod n 3

theorem scanTail_zero_snd (bs : List EBlk) (ms : List (List (List Int))) (last : Nat → Int) (t r : Nat) :
    (scanTail 0 bs ms last t r).2 = [] := by
  induction ms generalizing last t r with
  | nil => rfl
  | cons m ms ih => simp only [scanTail]; rw [if_neg (by simp)]; exact ih ..

theorem scanTail_zero_fst (bs : List EBlk) (ms : List (List (List Int))) (last : Nat → Int) (t r t' r' : Nat) :
    (scanTail 0 bs ms last t r).1 = (scanTail 0 bs ms last t' r').1 := by
  induction ms generalizing last t r t' r' with
  | nil => rfl
  | cons m ms ih =>
    simp only [scanTail]
    rw [if_neg (show ¬((0:Nat) ≠ 0 ∧ t = 0) by simp), if_neg (show ¬((0:Nat) ≠ 0 ∧ t' = 0) by simp)]
    exact congrArg (mcuBits bs m last ++ ·) (ih _ _ _ _ _)

theorem scanTail_chunks {ri : Nat} (hri : ri ≠ 0) (bs : List EBlk) (ms : List (List (List Int)))
    (last : Nat → Int) (togo rst : Nat) :
    scanTail ri bs ms last togo rst =
      ((scanTail 0 bs (ms.take togo) last 0 0).1,
       rstSegs rst ((chunks ri (ms.drop togo)).map
         (fun c => segment (scanTail 0 bs c (fun _ => 0) 0 0).1))) := by
  induction ms generalizing last togo rst with
  | nil =>
    rw [chunks]
    simp [scanTail, rstSegs]
  | cons m ms ih =>
    simp only [scanTail]
    by_cases hdue : ri ≠ 0 ∧ togo = 0
    · rw [if_pos hdue]
      obtain ⟨-, rfl⟩ := hdue
      obtain ⟨k, rfl⟩ : ∃ k, ri = k + 1 := ⟨ri - 1, by omega⟩
      rw [ih]
      have hc : chunks (k + 1) (m :: ms) = (m :: ms.take k) :: chunks (k + 1) (ms.drop k) := by
        conv => lhs; rw [chunks]
        simp
      simp only [List.take_zero, scanTail, List.drop_zero, Nat.add_sub_cancel, hc, List.map_cons,
        rstSegs, and7]
      simp
    · rw [if_neg hdue]
      rw [ih, if_pos hri]
      obtain ⟨k, rfl⟩ : ∃ k, togo = k + 1 := ⟨togo - 1, by omega⟩
      simp only [Nat.add_sub_cancel, List.take_succ_cons, List.drop_succ_cons, scanTail]
      rw [if_neg (by simp)]
      dsimp only
      rw [scanTail_zero_fst bs (ms.take k) _ (if 0 ≠ 0 then 0 - 1 else 0) 0 0 0]

end Verif.Huff
