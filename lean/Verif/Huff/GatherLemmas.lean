import Verif.Huff.Gather
import Verif.Huff.LinkLemmas
/-
The statistics pass counts exactly the symbols the encoder needs; assembling scan parameters.
-/
namespace Verif.Huff

theorem gZrl_eq (tbl r : Nat) (acc : List SymEvent) :
    gZrl tbl r acc = (r % 16, acc ++ (List.replicate (r / 16) 0xF0).map (SymEvent.mk false tbl)) := by
  induction r using Nat.strongRecOn generalizing acc with
  | ind r ih =>
    rw [gZrl]
    split
    · rename_i h
      rw [ih (r - 16) (by omega)]
      rw [show r / 16 = (r - 16) / 16 + 1 by omega, List.replicate_succ]
      simp only [List.map_cons, List.append_assoc, List.singleton_append, Prod.mk.injEq, and_true]
      omega
    · rename_i h
      rw [show r / 16 = 0 by omega]
      simp; omega

theorem gAC_eq (maxBits tbl : Nat) (ts : List Int) (r : Nat) (acc : List SymEvent)
    (h : ∀ t ∈ ts, nbitsOf t.natAbs ≤ maxBits) :
    gAC maxBits tbl ts r acc = some (acc ++ (acSyms ts r).map (SymEvent.mk false tbl)) := by
  induction ts generalizing r acc with
  | nil => simp only [gAC, acSyms]; split <;> simp
  | cons t ts ih =>
    simp only [gAC, acSyms]
    have := h t (by simp)
    split
    · exact ih _ _ (fun t ht => h t (by simp [ht]))
    · rw [if_neg (by omega), ih _ _ (fun t ht => h t (by simp [ht])), gZrl_eq]
      simp [Nat.shiftLeft_eq]

theorem gAC_mags {maxBits tbl : Nat} {ts : List Int} {r : Nat} {acc acc' : List SymEvent}
    (h : gAC maxBits tbl ts r acc = some acc') : ∀ t ∈ ts, nbitsOf t.natAbs ≤ maxBits := by
  induction ts generalizing r acc with
  | nil => simp
  | cons t ts ih =>
    simp only [gAC] at h
    intro x hx
    split at h
    · rename_i h0
      rcases List.mem_cons.1 hx with rfl | hx
      · subst h0; simp [nbitsOf]
      · exact ih h x hx
    · split at h
      · simp at h
      · rcases List.mem_cons.1 hx with rfl | hx
        · omega
        · exact ih h x hx

theorem zz_eq (blk : List Int) :
    (List.range 63).map (fun k => blk.getD (natOrder.getD (k + 1) 0) 0) = zz blk := by
  apply List.ext_getElem
  · simp [zz, kloopOrder]
  · intro i h1 h2
    have hi : i < 63 := by simpa using h1
    have := getD_zz blk hi
    rw [List.getD_eq_getElem?_getD, List.getElem?_eq_getElem h2] at this
    simpa using this.symm

theorem gBlock_spec {prec : Nat} {b : BlkSpec} {last : Int} {blk : List Int} {acc acc' : List SymEvent}
    (h : gBlock prec b last blk acc = some acc') :
    nbitsOf (blk.getD 0 0 - last).natAbs ≤ prec + 3 ∧ (∀ t ∈ zz blk, nbitsOf t.natAbs ≤ prec + 2) ∧
    acc' = acc ++ ⟨true, b.dcNo, nbitsOf (blk.getD 0 0 - last).natAbs⟩ ::
      (acSyms (zz blk) 0).map (SymEvent.mk false b.acNo) := by
  simp only [gBlock, zz_eq] at h
  split at h
  · simp at h
  · have hm := gAC_mags h
    rw [gAC_eq _ _ _ _ _ hm] at h
    simp at h
    exact ⟨by omega, hm, h.symm⟩

/-- Derived encoder tables of a block position (start_pass_huff, jchuff.c:190-194). -/
def encBlk (dcT acT : Nat → HuffTbl) (b : BlkSpec) : Option EBlk :=
  match makeCTbl 15 (dcT b.dcNo), makeCTbl 255 (acT b.acNo) with
  | some d, some a => some { ci := b.ci, dc := d, ac := a }
  | _, _ => none

/-- Derived decoder tables of a block position (start_pass_huff_decoder, jdhuff.c:89-127), full-size output. -/
def decBlk (dcT acT : Nat → HuffTbl) (b : BlkSpec) : Option DBlk :=
  match makeDTbl (some 15) (dcT b.dcNo), makeDTbl none (acT b.acNo) with
  | some d, some a => some { ci := b.ci, dc := d, ac := a }
  | _, _ => none

/-- Does the derived encoder table give the symbol a code? -/
def HasCode (maxsym : Nat) (t : HuffTbl) (sym : Nat) : Prop :=
  ∃ c, makeCTbl maxsym t = some c ∧ (c sym).2 ≠ 0

/-- Every counted symbol has a code in the table it will be coded with. -/
def Covered (dcT acT : Nat → HuffTbl) (evs : List SymEvent) : Prop :=
  ∀ e ∈ evs, if e.isDC then HasCode 15 (dcT e.tbl) e.sym else HasCode 255 (acT e.tbl) e.sym

theorem mapM_forall₂ {α β : Type} {f : α → Option β} {l : List α} {l' : List β}
    (h : l.mapM f = some l') : List.Forall₂ (fun a b => f a = some b) l l' := by
  induction l generalizing l' with
  | nil => simp at h; subst h; exact .nil
  | cons a l ih =>
    simp only [List.mapM_cons, Option.bind_eq_bind, Option.pure_def] at h
    cases e : f a with
    | none => simp [e] at h
    | some b =>
      cases e2 : l.mapM f with
      | none => simp [e, e2] at h
      | some bs =>
        simp [e, e2] at h
        subst h
        exact .cons e (ih e2)

theorem mapM_isSome {α β : Type} {f : α → Option β} {l : List α}
    (h : ∀ a ∈ l, ∃ b, f a = some b) : ∃ l', l.mapM f = some l' := by
  induction l with
  | nil => exact ⟨[], rfl⟩
  | cons a l ih =>
    obtain ⟨b, hb⟩ := h a (by simp)
    obtain ⟨l', hl⟩ := ih (fun a ha => h a (by simp [ha]))
    exact ⟨b :: l', by simp [hb, hl]⟩

/-- The coefficient ranges of the JPEG standard for `prec`-bit samples: 64 values, AC magnitudes below
`2^(prec+2)`, DC in `[-2^(prec+2), 2^(prec+2))`. -/
def InRange (prec : Nat) (blk : List Int) : Prop :=
  blk.length = 64 ∧ (∀ k, 1 ≤ k → k < 64 → (blk.getD k 0).natAbs < 2 ^ (prec + 2)) ∧
    -(2 ^ (prec + 2) : Int) ≤ blk.getD 0 0 ∧ blk.getD 0 0 < (2 ^ (prec + 2) : Int)

theorem covered_append {dcT acT : Nat → HuffTbl} {a b : List SymEvent} :
    Covered dcT acT (a ++ b) ↔ Covered dcT acT a ∧ Covered dcT acT b := by
  simp only [Covered, List.mem_append]
  constructor
  · intro h; exact ⟨fun e he => h e (Or.inl he), fun e he => h e (Or.inr he)⟩
  · rintro ⟨h1, h2⟩ e (he | he)
    · exact h1 e he
    · exact h2 e he

theorem gBlocks_acc {prec : Nat} {bs : List BlkSpec} {mcu : List (List Int)} {last last' : Nat → Int}
    {acc acc' : List SymEvent} (h : gBlocks prec bs mcu last acc = some (last', acc')) :
    ∃ x, acc' = acc ++ x := by
  induction bs generalizing mcu last acc with
  | nil => simp [gBlocks] at h; exact ⟨[], by simp [h.2]⟩
  | cons b bs ih =>
    cases mcu with
    | nil => simp [gBlocks] at h; exact ⟨[], by simp [h.2]⟩
    | cons blk blks =>
      simp only [gBlocks] at h
      cases e : gBlock prec b (last b.ci) blk acc with
      | none => simp [e] at h
      | some a1 =>
        rw [e] at h
        obtain ⟨x, hx⟩ := ih h
        rw [(gBlock_spec e).2.2] at hx
        exact ⟨_, by rw [hx, List.append_assoc]⟩

theorem gMCUs_acc {prec ri : Nat} {bs : List BlkSpec} {ms : List (List (List Int))} {last : Nat → Int}
    {togo : Nat} {acc acc' : List SymEvent} (h : gMCUs prec ri bs ms last togo acc = some acc') :
    ∃ x, acc' = acc ++ x := by
  induction ms generalizing last togo acc with
  | nil => simp [gMCUs] at h; exact ⟨[], by simp [h]⟩
  | cons m ms ih =>
    simp only [gMCUs] at h
    split at h
    · simp at h
    · rename_i l1 a1 e
      obtain ⟨x, hx⟩ := gBlocks_acc e
      obtain ⟨y, hy⟩ := ih h
      exact ⟨x ++ y, by rw [hy, hx, List.append_assoc]⟩

theorem mem_zz {blk : List Int} {t : Int} (h : t ∈ zz blk) :
    ∃ k, 1 ≤ k ∧ k < 64 ∧ t = blk.getD k 0 := by
  simp only [zz, List.mem_map] at h
  obtain ⟨k, hk, rfl⟩ := h
  exact ⟨k, (by revert k; decide), (by revert k; decide), rfl⟩

theorem gBlocks_ok {prec : Nat} (hprec : prec ≤ 12) {dcT acT : Nat → HuffTbl} {bs : List BlkSpec}
    {es : List EBlk} (hes : List.Forall₂ (fun b e => encBlk dcT acT b = some e) bs es)
    {mcu : List (List Int)} {last last' : Nat → Int} (hlen : mcu.length = bs.length)
    (hr : ∀ blk ∈ mcu, InRange prec blk) {acc acc' : List SymEvent}
    (h : gBlocks prec bs mcu last acc = some (last', acc')) (hc : Covered dcT acT acc') :
    last' = lastAfter es mcu last ∧ McuOk prec es mcu last := by
  induction hes generalizing mcu last acc with
  | nil =>
    cases mcu with
    | nil => simp [gBlocks] at h; exact ⟨h.1.symm, trivial⟩
    | cons _ _ => simp at hlen
  | cons hd tl ih =>
    rename_i b e bs es
    cases mcu with
    | nil => simp at hlen
    | cons blk blks =>
      simp only [gBlocks] at h
      cases eg : gBlock prec b (last b.ci) blk acc with
      | none => simp [eg] at h
      | some a1 =>
        rw [eg] at h
        dsimp only at h
        obtain ⟨m1, m2, m3⟩ := gBlock_spec eg
        obtain ⟨x, hx⟩ := gBlocks_acc h
        unfold encBlk at hd
        split at hd
        case h_2 => simp at hd
        rename_i d a e1 e2
        simp at hd
        subst hd
        have hc1 : Covered dcT acT a1 := by rw [hx, covered_append] at hc; exact hc.1
        rw [m3, covered_append] at hc1
        obtain ⟨r1, r2⟩ := ih (by simpa using hlen) (fun blk hb => hr blk (by simp [hb])) h
        refine ⟨r1, ⟨?_, r2⟩⟩
        have hrb := hr blk (by simp)
        refine ⟨hrb.1, ?_, m1, m2, ?_, ?_⟩
        · have h14 : (2 ^ (prec + 2) : Int) ≤ 2 ^ 14 := by
            exact_mod_cast Nat.pow_le_pow_right (by omega) (by omega : prec + 2 ≤ 14)
          have := hrb.2.2
          omega
        · have := hc1.2 ⟨true, b.dcNo, _⟩ (List.mem_cons_self)
          simp only [if_true] at this
          obtain ⟨c, hc, hs⟩ := this
          rw [e1] at hc
          simp at hc
          subst hc
          exact hs
        · intro s hs
          have := hc1.2 ⟨false, b.acNo, s⟩ (List.mem_cons_of_mem _ (List.mem_map.2 ⟨s, hs, rfl⟩))
          simp only [Bool.false_eq_true, if_false] at this
          obtain ⟨c, hc, hs⟩ := this
          rw [e2] at hc
          simp at hc
          subst hc
          exact hs

theorem gMCUs_ok {prec ri : Nat} (hprec : prec ≤ 12) {dcT acT : Nat → HuffTbl} {bs : List BlkSpec}
    {es : List EBlk} (hes : List.Forall₂ (fun b e => encBlk dcT acT b = some e) bs es)
    {ms : List (List (List Int))} {last : Nat → Int} {togo : Nat}
    (hlen : ∀ m ∈ ms, m.length = bs.length ∧ ∀ blk ∈ m, InRange prec blk) {acc acc' : List SymEvent}
    (h : gMCUs prec ri bs ms last togo acc = some acc') (hc : Covered dcT acT acc') :
    ScanOk prec ri es ms last togo := by
  induction ms generalizing last togo acc with
  | nil => trivial
  | cons m ms ih =>
    simp only [gMCUs] at h
    split at h
    · simp at h
    · rename_i l1 a1 e
      obtain ⟨x, hx⟩ := gMCUs_acc h
      have hc1 : Covered dcT acT a1 := by rw [hx, covered_append] at hc; exact hc.1
      have hm := hlen m (by simp)
      obtain ⟨rfl, r2⟩ := gBlocks_ok hprec hes hm.1 hm.2 e hc1
      have r3 := ih (fun m hm => hlen m (by simp [hm])) h
      simp only [ScanOk]
      by_cases hdue : ri ≠ 0 ∧ togo = 0
      · rw [if_pos hdue]
        simp only [if_pos hdue, if_pos hdue.1] at r2 r3
        exact ⟨r2, r3⟩
      · rw [if_neg hdue]
        simp only [if_neg hdue] at r2 r3
        exact ⟨r2, r3⟩

/-- In-range coefficients pass the magnitude checks of the statistics pass. -/
theorem gBlock_isSome {prec : Nat} {b : BlkSpec} {last : Int} {blk : List Int} (acc : List SymEvent)
    (hr : InRange prec blk) (hl : -(2 ^ (prec + 2) : Int) ≤ last ∧ last < (2 ^ (prec + 2) : Int)) :
    ∃ acc', gBlock prec b last blk acc = some acc' := by
  have h1 : nbitsOf (blk.getD 0 0 - last).natAbs ≤ prec + 2 + 1 := by
    apply nbitsOf_le
    have := hr.2.2
    have e : (2 ^ (prec + 2 + 1) : Nat) = 2 * 2 ^ (prec + 2) := by rw [Nat.pow_succ]; omega
    have e2 : ((2 ^ (prec + 2) : Nat) : Int) = (2 ^ (prec + 2) : Int) := by push_cast; rfl
    rw [e]
    omega
  simp only [gBlock, zz_eq]
  rw [if_neg (by omega), gAC_eq]
  · exact ⟨_, rfl⟩
  · intro t ht
    obtain ⟨k, h1, h2, rfl⟩ := mem_zz ht
    exact nbitsOf_le (hr.2.1 k h1 h2)

theorem gBlocks_isSome {prec : Nat} {bs : List BlkSpec} {mcu : List (List Int)} {last : Nat → Int}
    (acc : List SymEvent) (hr : ∀ blk ∈ mcu, InRange prec blk)
    (hl : ∀ i, -(2 ^ (prec + 2) : Int) ≤ last i ∧ last i < (2 ^ (prec + 2) : Int)) :
    ∃ last' acc', gBlocks prec bs mcu last acc = some (last', acc') ∧
      ∀ i, -(2 ^ (prec + 2) : Int) ≤ last' i ∧ last' i < (2 ^ (prec + 2) : Int) := by
  induction bs generalizing mcu last acc with
  | nil => exact ⟨last, acc, by simp [gBlocks], hl⟩
  | cons b bs ih =>
    cases mcu with
    | nil => exact ⟨last, acc, by simp [gBlocks], hl⟩
    | cons blk blks =>
      obtain ⟨a1, e⟩ := gBlock_isSome (b := b) acc (hr blk (by simp)) (hl b.ci)
      simp only [gBlocks, e]
      apply ih _ (fun blk hb => hr blk (by simp [hb]))
      intro i
      unfold upd
      split
      · exact (hr blk (by simp)).2.2
      · exact hl i

theorem gMCUs_isSome {prec ri : Nat} {bs : List BlkSpec} {ms : List (List (List Int))} {last : Nat → Int}
    (togo : Nat) (acc : List SymEvent) (hr : ∀ m ∈ ms, ∀ blk ∈ m, InRange prec blk)
    (hl : ∀ i, -(2 ^ (prec + 2) : Int) ≤ last i ∧ last i < (2 ^ (prec + 2) : Int)) :
    ∃ acc', gMCUs prec ri bs ms last togo acc = some acc' := by
  induction ms generalizing last togo acc with
  | nil => exact ⟨acc, rfl⟩
  | cons m ms ih =>
    simp only [gMCUs]
    have hz : (0 : Int) < 2 ^ (prec + 2) := by exact_mod_cast Nat.two_pow_pos _
    obtain ⟨l', a', e, hl'⟩ := gBlocks_isSome (bs := bs) (mcu := m)
      (last := if ri ≠ 0 ∧ togo = 0 then (fun _ => 0) else last) acc (hr m (by simp)) (by
        intro i
        split
        · dsimp only; omega
        · exact hl i)
    rw [e]
    exact ih _ _ (fun m hm => hr m (by simp [hm])) hl'

theorem gatherScan_isSome {prec ri : Nat} {bs : List BlkSpec} {ms : List (List (List Int))}
    (hr : ∀ m ∈ ms, ∀ blk ∈ m, InRange prec blk) : ∃ evs, gatherScan prec ri bs ms = some evs := by
  have hz : (0 : Int) < 2 ^ (prec + 2) := by exact_mod_cast Nat.two_pow_pos _
  exact gMCUs_isSome _ _ hr (fun i => by omega)

end Verif.Huff
