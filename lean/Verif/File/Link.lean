import Verif.File.Model
/-
Lemmas for C56: the decoder's tables stand for the encoder's.
-/
namespace Verif.File
open Verif Verif.Huff Verif.Mark
open Verif.Geom (Pos Blk Frame inImage walk dMcu cPerScan dPerScan cInitialSetup dInitialSetup storeMcu)
open Verif.Prog (compIdx scanPar DecSt encPScan gatherPScan SPar decPScan TabsOk)

/-! ### Huffman tables -/

/-- A table as it looks after transmission: 256 symbol entries, the unused ones zero. -/
def norm (t : HuffTbl) : HuffTbl := ⟨t.counts, (List.range 256).map fun i => if i < t.counts.sum then t.vals.getD i 0 else 0⟩

theorem mkSizes_length : ∀ (cs : List Nat) (l : Nat), (mkSizes l cs).length = cs.sum := by
  intro cs
  induction cs with
  | nil => intro l; rfl
  | cons c cs ih => intro l; rw [mkSizes, List.length_append, List.length_replicate, ih, List.sum_cons]

theorem sizesOk_sum : ∀ (cs : List Nat) (p : Nat), sizesOk p cs = true → p ≤ 256 → p + cs.sum ≤ 256 := by
  intro cs
  induction cs with
  | nil => intro p _ h; simpa using h
  | cons c cs ih =>
    intro p h hp
    rw [sizesOk] at h
    split at h
    · cases h
    · have := ih _ h (by omega)
      rw [List.sum_cons]; omega

theorem expand_sizes {t : HuffTbl} {s c : List Nat} (h : expand t = some (s, c)) : s.length = t.counts.sum ∧ t.counts.sum ≤ 256 := by
  unfold expand at h
  split at h
  · rename_i hs
    have hle := sizesOk_sum _ _ hs (by omega)
    have hl := mkSizes_length t.counts 1
    dsimp only at h
    split at h
    · rename_i e
      simp only [Option.some.injEq, Prod.mk.injEq] at h
      rw [← h.1, ← hl, e]
      rw [e] at hl
      simp at hl ⊢
    · rename_i x xs e
      cases hg : genCodes 0 x (mkSizes 1 t.counts) with
      | none => rw [hg] at h; cases h
      | some y =>
        rw [hg] at h
        simp only [Option.map_some, Option.some.injEq, Prod.mk.injEq] at h
        rw [← h.1, hl]
        exact ⟨rfl, by omega⟩
  · cases h

theorem getD_map_range {α : Type} (F : Nat → α) (d : α) {n i : Nat} (h : i < n) : ((List.range n).map F).getD i d = F i := by
  rw [List.getD_eq_getElem?_getD, List.getElem?_map, List.getElem?_range h]; rfl

theorem makeCTbl_norm (lim : Nat) (t : HuffTbl) : makeCTbl lim (norm t) = makeCTbl lim t := by
  unfold makeCTbl
  have he : expand (norm t) = expand t := rfl
  rw [he]
  cases e : expand t with
  | none => rfl
  | some x =>
    obtain ⟨s, c⟩ := x
    obtain ⟨h1, h2⟩ := expand_sizes e
    dsimp only
    congr 1
    apply List.map_congr_left
    intro p hp
    rw [List.mem_range] at hp
    unfold norm
    rw [getD_map_range _ _ (by omega), if_pos (by omega)]

theorem norm_bytes {t : HuffTbl} (h : IsBytes t.vals) : IsBytes (norm t).vals := by
  intro x hx
  unfold norm at hx
  obtain ⟨i, -, rfl⟩ := List.mem_map.1 hx
  split
  · rw [List.getD_eq_getElem?_getD]
    cases e : t.vals[i]? with
    | none => simp
    | some v => exact h v (List.mem_of_getElem? e)
  · omega

theorem tblOf_eq {m : Mem} {ac : Bool} {n : Nat} {t : HuffTbl} (h : HasH m ac n t) (hw : HWf t) : tblOf m ac n = norm t := by
  obtain ⟨-, -, h3, h4⟩ := h
  unfold tblOf norm
  congr 1
  · apply List.ext_getElem (by simp [hw.1])
    intro i h1 h2
    rw [List.getElem_map, List.getElem_range, h3 i (by simpa using h1), List.getD_eq_getElem?_getD, List.getElem?_eq_getElem h2]
    rfl
  · apply List.map_congr_left
    intro i hi
    exact h4 i (List.mem_range.1 hi)

theorem HasCode_norm {lim : Nat} {t : HuffTbl} {s : Nat} : HasCode lim (norm t) s ↔ HasCode lim t s := by
  unfold HasCode; rw [makeCTbl_norm]

theorem Covered_norm {dcT acT : Nat → HuffTbl} {evs : List SymEvent} (h : Covered dcT acT evs) :
    Covered (fun n => norm (dcT n)) (fun n => norm (acT n)) evs := by
  intro e he
  have := h e he
  split
  · rename_i hd; rw [if_pos hd] at this; exact HasCode_norm.2 this
  · rename_i hd; rw [if_neg hd] at this; exact HasCode_norm.2 this

theorem mkC_norm (p : SPar) (dcT acT : Nat → HuffTbl) (t : Nat) :
    p.mkC (fun n => norm (dcT n)) (fun n => norm (acT n)) t = p.mkC dcT acT t := by
  unfold SPar.mkC SPar.tab
  by_cases h : p.Ss = 0
  · simp only [h, if_true]; exact makeCTbl_norm _ _
  · simp only [h, if_false]; exact makeCTbl_norm _ _

theorem tabsOk_norm {prec : Nat} {dcT acT : Nat → HuffTbl} {p : SPar} {ms : List (List Blk)} (h : TabsOk prec dcT acT p ms) :
    TabsOk prec (fun n => norm (dcT n)) (fun n => norm (acT n)) p ms := by
  refine ⟨?_, ?_, ?_⟩
  · intro t ht
    have := h.wf t ht
    unfold SPar.tab at this ⊢
    split
    · rename_i h0; rw [if_pos h0] at this; exact ⟨this.1, norm_bytes this.2⟩
    · rename_i h0; rw [if_neg h0] at this; exact ⟨this.1, norm_bytes this.2⟩
  · intro t ht; rw [mkC_norm]; exact h.made t ht
  · intro evs he; exact Covered_norm (h.cov evs he)

theorem encPScan_congr {prec : Nat} {dcT acT dcT' acT' : Nat → HuffTbl} {p : SPar} {ms : List (List Blk)}
    (h : ∀ t ∈ p.tbls, p.mkC dcT acT t = p.mkC dcT' acT' t) : encPScan prec dcT acT p ms = encPScan prec dcT' acT' p ms := by
  unfold encPScan
  have h1 : p.tbls.all (fun t => (p.mkC dcT acT t).isSome) = p.tbls.all (fun t => (p.mkC dcT' acT' t).isSome) := by
    rw [Bool.eq_iff_iff, List.all_eq_true, List.all_eq_true]
    constructor
    · intro hh t ht; rw [← h t ht]; exact hh t ht
    · intro hh t ht; rw [h t ht]; exact hh t ht
  have h2 : p.derived dcT acT = p.derived dcT' acT' := by
    funext t
    unfold SPar.derived
    split
    · rename_i ht; rw [h t ht]
    · rfl
  rw [h1, h2]

theorem mapM_congr {α β : Type} {F G : α → Option β} : ∀ {l : List α}, (∀ x ∈ l, F x = G x) → l.mapM F = l.mapM G := by
  intro l
  induction l with
  | nil => intro _; rfl
  | cons a l ih => intro h; rw [List.mapM_cons, List.mapM_cons, h a (by simp), ih fun x hx => h x (by simp [hx])]

/-- The decoder of a progressive scan looks only at the tables of its class. -/
theorem decPScan_congr {dcT acT dcT' acT' : Nat → HuffTbl} {p p' : SPar} {W : List (List Pos)} {bytes : List Nat} {img : Pos → Blk}
    (hp : p'.Ss = p.Ss ∧ p'.Se = p.Se ∧ p'.Ah = p.Ah ∧ p'.Al = p.Al ∧ p'.ri = p.ri)
    (hdc : p.Ss = 0 → p.Ah = 0 → p'.bs = p.bs ∧ ∀ b ∈ p.bs, dcT' b.dcNo = dcT b.dcNo)
    (hac : p.Ss ≠ 0 → p'.acNo = p.acNo ∧ acT' p.acNo = acT p.acNo) :
    decPScan dcT' acT' p' W bytes img = decPScan dcT acT p W bytes img := by
  obtain ⟨e1, e2, e3, e4, e5⟩ := hp
  have hk : p'.kind = p.kind := by unfold SPar.kind; rw [e1, e3]
  unfold decPScan
  rw [hk, e1, e2, e4, e5]
  unfold SPar.kind
  by_cases h1 : p.Ah = 0
  · rw [if_pos h1]
    by_cases h2 : p.Ss = 0
    · rw [if_pos h2]
      obtain ⟨a, b⟩ := hdc h2 h1
      rw [a]
      dsimp only
      have : p.bs.mapM (fun b => (makeDTbl (some 15) (dcT' b.dcNo)).map (Prog.DCD.mk b.ci)) =
          p.bs.mapM (fun b => (makeDTbl (some 15) (dcT b.dcNo)).map (Prog.DCD.mk b.ci)) := by
        apply mapM_congr
        intro x hx
        rw [b x hx]
      rw [this]
    · rw [if_neg h2]
      obtain ⟨a, b⟩ := hac h2
      dsimp only
      rw [a, b]
  · rw [if_neg h1]
    by_cases h2 : p.Ss = 0
    · rw [if_pos h2]
    · rw [if_neg h2]
      obtain ⟨a, b⟩ := hac h2
      dsimp only
      rw [a, b]

/-! ### arithmetic coding -/
open Verif.Arith (APar ABlk Cond encBlks encMcu encAScan)

theorem encDC_congr {q q' : Cond} {t : Nat} (hL : q.L t = q'.L t) (hU : q.U t = q'.U t) (ctx : Nat) (v : Int) :
    Arith.encDC q t ctx v = Arith.encDC q' t ctx v := by
  unfold Arith.encDC
  rw [hL, hU]

theorem magAC_congr {q q' : Cond} {t : Nat} (hK : q.K t = q'.K t) (k v : Nat) : Arith.magAC q t k v = Arith.magAC q' t k v := by
  unfold Arith.magAC
  rw [hK]

theorem acGo_congr {q q' : Cond} {t : Nat} (hK : q.K t = q'.K t) (blk : Blk) (Al : Nat) : ∀ (n k : Nat) (eob : Bool),
    Arith.acGo q t blk Al n k eob = Arith.acGo q' t blk Al n k eob := by
  intro n
  induction n with
  | zero => intro k eob; rfl
  | succ n ih =>
    intro k eob
    unfold Arith.acGo
    rw [magAC_congr hK, ih, ih]

theorem encAC_congr {q q' : Cond} {t : Nat} (hK : q.K t = q'.K t) (Ss Se Al : Nat) (blk : Blk) :
    Arith.encAC q t Ss Se Al blk = Arith.encAC q' t Ss Se Al blk := by
  unfold Arith.encAC
  dsimp only
  rw [acGo_congr hK]

theorem encBlks_congr {ac : Bool} {q q' : Cond} {Al : Nat} {d d' a a' : Nat → Nat} : ∀ (l : List Nat) (blks : List Blk) (s : Arith.Pred),
    (∀ k ∈ l, d k = d' k ∧ q.L (d k) = q'.L (d k) ∧ q.U (d k) = q'.U (d k) ∧ (ac = true → a k = a' k ∧ q.K (a k) = q'.K (a k))) →
    encBlks ac q Al (l.map fun k => ⟨k, d k, a k⟩) blks s = encBlks ac q' Al (l.map fun k => ⟨k, d' k, a' k⟩) blks s := by
  intro l
  induction l with
  | nil => intro blks s _; rfl
  | cons k l ih =>
    intro blks s h
    cases blks with
    | nil => rfl
    | cons blk blks =>
      obtain ⟨h1, h2, h3, h4⟩ := h k (by simp)
      rw [List.map_cons, List.map_cons]
      unfold encBlks
      have e : Arith.encDCBlk q Al ⟨k, d k, a k⟩ blk s = Arith.encDCBlk q' Al ⟨k, d' k, a' k⟩ blk s := by
        unfold Arith.encDCBlk
        dsimp only
        rw [encDC_congr h2 h3, h1]
      rw [e]
      dsimp only
      rw [ih blks _ fun x hx => h x (by simp [hx])]
      congr 3
      cases ac with
      | false => rfl
      | true =>
        obtain ⟨h5, h6⟩ := h4 rfl
        simp only [if_true]
        rw [encAC_congr h6, h5]

theorem encAScan_congr {p p' : APar} (hri : p.ri = p'.ri) (h : ∀ m s, encMcu p m s = encMcu p' m s) (ms : List (List Blk)) :
    encAScan p ms = encAScan p' ms := by
  unfold encAScan
  have : Arith.ES.mcu p = Arith.ES.mcu p' := by
    funext s m
    unfold Arith.ES.mcu
    rw [hri]
    simp only [h]
  rw [this, hri]

theorem aPar_congr {prog : Bool} {g : Geom.Scan} {s : Script.Scan} {c c' : Arith.ACfg} (hri : c.ri = c'.ri) (hne : g.membership ≠ [])
    (hdc : prog = false ∨ (s.Ss.toNat = 0 ∧ s.Ah.toNat = 0) → ∀ k ∈ g.membership, c.dcNo ((compIdx s).getD k 0) = c'.dcNo ((compIdx s).getD k 0) ∧
      c.q.L (c.dcNo ((compIdx s).getD k 0)) = c'.q.L (c.dcNo ((compIdx s).getD k 0)) ∧
      c.q.U (c.dcNo ((compIdx s).getD k 0)) = c'.q.U (c.dcNo ((compIdx s).getD k 0)))
    (hac : prog = false ∨ s.Ss.toNat ≠ 0 → ∀ k ∈ g.membership, c.acNo ((compIdx s).getD k 0) = c'.acNo ((compIdx s).getD k 0) ∧
      c.q.K (c.acNo ((compIdx s).getD k 0)) = c'.q.K (c.acNo ((compIdx s).getD k 0)))
    (ms : List (List Blk)) : encAScan (Arith.aPar prog g s c) ms = encAScan (Arith.aPar prog g s c') ms := by
  apply encAScan_congr hri
  intro m x
  unfold encMcu Arith.aPar
  dsimp only
  obtain ⟨k0, l, hl⟩ := List.exists_cons_of_ne_nil hne
  have hk0 : k0 ∈ g.membership := by rw [hl]; simp
  by_cases hp : prog = true
  · rw [if_pos hp, if_pos hp]
    by_cases hA : s.Ah.toNat = 0
    · rw [if_pos hA, if_pos hA]
      by_cases hS : s.Ss.toNat = 0
      · rw [if_pos hS, if_pos hS]
        exact encBlks_congr _ _ _ fun k hk => by
          obtain ⟨a, b, d⟩ := hdc (Or.inr ⟨hS, hA⟩) k hk
          exact ⟨a, b, d, by simp⟩
      · rw [if_neg hS, if_neg hS, hl]
        obtain ⟨a, b⟩ := hac (Or.inr hS) k0 hk0
        simp only [List.map_cons, List.headD_cons]
        rw [encAC_congr b, a]
    · rw [if_neg hA, if_neg hA]
      by_cases hS : s.Ss.toNat = 0
      · rw [if_pos hS, if_pos hS]
      · rw [if_neg hS, if_neg hS, hl]
        obtain ⟨a, b⟩ := hac (Or.inr hS) k0 hk0
        simp only [List.map_cons, List.headD_cons]
        rw [a]
  · rw [if_neg hp, if_neg hp]
    have hp' : prog = false := by simpa using hp
    exact encBlks_congr _ _ _ fun k hk => by
      obtain ⟨a, b, d⟩ := hdc (Or.inl hp') k hk
      exact ⟨a, b, d, fun _ => hac (Or.inl hp') k hk⟩

/-! ### scans -/

theorem membership_lt {f : Frame} (G : Geom.Good f) {idx : List Nat} (hi : ∀ i ∈ idx, i < f.comps.length) {g : Geom.Scan}
    (h : cPerScan f idx = .ok g) : g.membership ≠ [] ∧ ∀ k ∈ g.membership, k < idx.length ∧ idx.getD k 0 ∈ idx := by
  have hlt : ∀ k, k < idx.length → idx.getD k 0 ∈ idx := by
    intro k hk
    rw [List.getD_eq_getElem?_getD, List.getElem?_eq_getElem hk]
    exact List.getElem_mem hk
  rcases Geom.scan_ok h with ⟨i, rfl, -, -, -, e⟩ | ⟨h1, -, -, -, -, -, e⟩
  · rw [e]
    exact ⟨by simp, fun k hk => by simp at hk; subst hk; simp⟩
  · rw [e]
    constructor
    · obtain ⟨i, l, rfl⟩ := List.exists_cons_of_ne_nil (l := idx) (by rintro rfl; simp at h1)
      have hc := hi i (by simp)
      have := (G.comp (f.comp i) (by
        unfold Geom.Frame.comp
        rw [List.getD_eq_getElem?_getD, List.getElem?_eq_getElem hc]
        exact List.getElem_mem hc))
      have hpos : 0 < (f.comp i).h * (f.comp i).v := Nat.mul_pos this.1.1 this.2.1.1
      intro hnil
      rw [List.zipIdx_cons, List.flatMap_cons, List.append_eq_nil_iff] at hnil
      have := hnil.1
      rw [List.replicate_eq_nil_iff] at this
      dsimp only at this
      omega
    · intro k hk
      obtain ⟨⟨a, b⟩, hp, hb⟩ := List.mem_flatMap.1 hk
      have := List.eq_of_mem_replicate hb
      subst this
      have := List.mem_zipIdx hp
      have hk : k < idx.length := by have := this.2.1; omega
      exact ⟨hk, hlt k hk⟩

/-- The parameters of a script entry are not negative. -/
def NonNeg (s : Script.Scan) : Prop := (∀ c ∈ s.comps, 0 ≤ c) ∧ 0 ≤ s.Ss ∧ 0 ≤ s.Se ∧ 0 ≤ s.Ah ∧ 0 ≤ s.Al

theorem scanOf_eq {c : CS} {s : Script.Scan} {m0 m : Mem} (h : ScanIs c (cscan s) m0 m) (hn : NonNeg s) : scanOf m = s := by
  obtain ⟨comps, Ss, Se, Ah, Al⟩ := s
  obtain ⟨h1, h2, h3, h4, h5⟩ := hn
  dsimp only at h1 h2 h3 h4 h5
  unfold scanOf
  have e1 := h.n; have e2 := h.Ss; have e3 := h.Se; have e4 := h.Ah; have e5 := h.Al
  unfold cscan compIdx at e1 e2 e3 e4 e5
  dsimp only at e1 e2 e3 e4 e5
  rw [e1, e2, e3, e4, e5]
  have q : ∀ a : Int, 0 ≤ a → ((a.toNat : Nat) : Int) = a := fun a ha => Int.toNat_of_nonneg ha
  rw [q _ h2, q _ h3, q _ h4, q _ h5]
  congr 1
  apply List.ext_getElem (by simp)
  intro j a b
  have := h.cur j (by simpa [cscan, compIdx] using b)
  rw [List.getElem_map, List.getElem_range, this]
  simp only [cscan, compIdx, List.getElem_map, Nat.add_sub_cancel]
  exact q _ (h1 _ (List.getElem_mem b))

end Verif.File
