import Verif.Huff.Fast
/-
decode_mcu (jdhuff.c:770-815) with both paths, writing into the blocks the caller supplies and keeping the writes
made before a suspension (jdhuff.c:762-767) or before the fast path gives up (jdhuff.c:738-741).
-/
namespace Verif.Huff

/-- A sequence of assignments (position in the block, value). -/
abbrev Writes := List (Nat × Int)

/-- The block after the assignments `ws`. -/
def applyW (blk : List Int) (ws : Writes) : List Int := ws.foldl (fun b w => b.set w.1 w.2) blk

/-- The AC loops of decode_mcu_slow (jdhuff.c:602-660) as the assignments they make, also when they suspend. -/
def acRun (d : DTbl) (nd : Bool) (k : Nat) (r : Rd) : Writes × Option Rd :=
  if k < 64 then
    match huffDecode d r with
    | none => ([], none)
    | some (sym, r) =>
      if sym &&& 15 ≠ 0 then
        match readBits r (sym &&& 15) with
        | none => ([], none)
        | some (x, r) =>
          let y := acRun d nd (k + (sym >>> 4) + 1) r
          (if nd then (natOrder.getD (k + (sym >>> 4)) 0, toCoef (huffExtend x (sym &&& 15))) :: y.1 else y.1, y.2)
      else if sym >>> 4 ≠ 15 then ([], some r)
      else acRun d nd (k + 15 + 1) r
  else ([], some r)
termination_by 64 - k

/-- One block of decode_mcu_slow (jdhuff.c:561-662) as the assignments it makes, also when it suspends. -/
def blockRun (b : DBlk) (last : Nat → Int) (r : Rd) : Writes × Option ((Nat → Int) × Rd) :=
  match huffDecode b.dc r with
  | none => ([], none)
  | some (s, r) =>
    match (if s ≠ 0 then (readBits r s).map (fun xr => (huffExtend xr.1 s, xr.2)) else some (0, r)) with
    | none => ([], none)
    | some (diff, r) =>
      let v := diff + last b.ci
      let y := acRun b.ac b.acNeeded 1 r
      ((if b.dcNeeded then (0, toCoef v) :: y.1 else y.1),
        y.2.map fun r => (if b.dcNeeded then upd last b.ci v else last, r))

/-- The block loop of decode_mcu_slow; blocks not reached get no assignment. -/
def blocksRun : List DBlk → (Nat → Int) → Rd → List Writes × Option ((Nat → Int) × Rd)
  | [], last, r => ([], some (last, r))
  | b :: bs, last, r =>
    match blockRun b last r with
    | (w, none) => (w :: bs.map (fun _ => []), none)
    | (w, some (last, r)) =>
      let y := blocksRun bs last r
      (w :: y.1, y.2)

/-- Outcome of decode_mcu: the blocks are returned also on suspension; `fault` is a read outside the buffer. -/
inductive MRes where
  | ok (blks : List (List Int)) (last : Nat → Int) (r : Rd)
  | suspend (blks : List (List Int))
  | fault

/-- decode_mcu_slow (jdhuff.c:545-670) on the caller's blocks. -/
def slowOn (bs : List DBlk) (blks : List (List Int)) (last : Nat → Int) (r : Rd) : MRes :=
  match blocksRun bs last r with
  | (ws, none) => .suspend (List.zipWith applyW blks ws)
  | (ws, some (last, r)) => .ok (List.zipWith applyW blks ws) last r

/-- decode_mcu after the restart processing (jdhuff.c:787-806): the fast path is tried if there are no restarts,
no marker is pending and the buffer has 512 bytes per block; when it meets a marker, the slow path starts over
from the saved state, on the same blocks. -/
def mcuBody (ri : Nat) (bs : List DBlk) (blks : List (List Int)) (last : Nat → Int) (r : Rd) : MRes :=
  if r.insuff then .ok blks last r
  else if ri = 0 ∧ 512 * bs.length ≤ r.bytes.length ∧ r.marker = 0 then
    match blocksFast (bs.zip blks) last ⟨r.gb, r.left, r.bytes, r.marker⟩ with
    | none => .fault
    | some (blks', last', f) =>
      if f.hit ≠ 0 then slowOn bs blks' last r
      else .ok blks' last' { r with gb := f.gb, left := f.left, bytes := f.buf }
  else slowOn bs blks last r

/-! ### Writes -/

theorem applyW_nil (blk : List Int) : applyW blk [] = blk := rfl

theorem applyW_cons (blk : List Int) (w : Nat × Int) (ws : Writes) :
    applyW blk (w :: ws) = applyW (blk.set w.1 w.2) ws := rfl

theorem applyW_append (blk : List Int) (a b : Writes) : applyW blk (a ++ b) = applyW (applyW blk a) b :=
  List.foldl_append

theorem applyW_length (blk : List Int) (ws : Writes) : (applyW blk ws).length = blk.length := by
  induction ws generalizing blk with
  | nil => rfl
  | cons w ws ih => rw [applyW_cons, ih, List.length_set]

theorem applyW_congr {ws : Writes} {b1 b2 : List Int} (hl : b1.length = b2.length)
    (h : ∀ i, (∀ w ∈ ws, w.1 ≠ i) → b1[i]? = b2[i]?) : applyW b1 ws = applyW b2 ws := by
  induction ws generalizing b1 b2 with
  | nil => exact List.ext_getElem? fun i => h i (by simp)
  | cons w ws ih =>
    rw [applyW_cons, applyW_cons]
    refine ih (by simp [hl]) fun i hi => ?_
    by_cases hw : w.1 = i
    · subst hw
      simp only [List.getElem?_set_self', hl]
      by_cases hlt : w.1 < b2.length
      · rw [List.getElem?_eq_getElem hlt, List.getElem?_eq_getElem (hl ▸ hlt)]; rfl
      · rw [List.getElem?_eq_none (by omega), List.getElem?_eq_none (l := b2) (by omega)]
    · rw [List.getElem?_set_ne hw, List.getElem?_set_ne hw]
      exact h i fun w' hw' => by
        rcases List.mem_cons.1 hw' with rfl | hw'
        · exact hw
        · exact hi w' hw'

theorem applyW_other {ws : Writes} {blk : List Int} {i : Nat} (h : ∀ w ∈ ws, w.1 ≠ i) :
    (applyW blk ws)[i]? = blk[i]? := by
  induction ws generalizing blk with
  | nil => rfl
  | cons w ws ih =>
    rw [applyW_cons, ih fun w' hw' => h w' (by simp [hw']), List.getElem?_set_ne (h w (by simp))]

/-- Assignments made before are of no effect if the same positions are assigned again. -/
theorem applyW_redo {a ws : Writes} (h : a <+: ws) (blk : List Int) : applyW (applyW blk a) ws = applyW blk ws := by
  refine applyW_congr (applyW_length _ _) fun i hi => ?_
  exact applyW_other fun w hw => hi w (h.subset hw)

theorem decAC_run (d : DTbl) (nd : Bool) (k : Nat) (blk : List Int) (r : Rd) :
    decAC d nd k blk r = (acRun d nd k r).2.map fun r' => (applyW blk (acRun d nd k r).1, r') := by
  fun_induction decAC d nd k blk r with
  | case1 k blk r hk hs => rw [acRun, if_pos hk, hs]; rfl
  | case2 k blk r hk sym r1 hs s hs0 hx =>
    rw [acRun, if_pos hk, hs]
    simp only [s] at *
    rw [if_pos hs0, hx]
    rfl
  | case3 k blk r hk sym r1 hs run s hs0 x r2 hx ih =>
    rw [acRun, if_pos hk, hs]
    simp only [run, s] at *
    rw [if_pos hs0, hx]
    dsimp only
    rw [dite_eq_ite] at ih
    rw [ih]
    cases nd <;> rfl
  | case4 k blk r hk sym r1 hs run s hs0 hrun =>
    rw [acRun, if_pos hk, hs]
    simp only [run, s] at *
    rw [if_neg hs0, if_pos hrun]
    rfl
  | case5 k blk r hk sym r1 hs run s hs0 hrun ih =>
    rw [acRun, if_pos hk, hs]
    simp only [run, s] at *
    rw [if_neg hs0, if_neg hrun, ih]
  | case6 k blk r hk => rw [acRun, if_neg hk]; rfl

theorem decBlock_run (b : DBlk) (last : Nat → Int) (r : Rd) :
    decBlock b last r = (blockRun b last r).2.map fun x =>
      (applyW (List.replicate 64 0) (blockRun b last r).1, x.1, x.2) := by
  unfold decBlock blockRun
  cases huffDecode b.dc r with
  | none => rfl
  | some y =>
    dsimp only
    cases (if y.1 ≠ 0 then (readBits y.2 y.1).map (fun xr => (huffExtend xr.1 y.1, xr.2)) else some (0, y.2)) with
    | none => rfl
    | some x =>
      dsimp only
      rw [decAC_run]
      cases (acRun b.ac b.acNeeded 1 x.2).2 with
      | none => rfl
      | some r' => cases b.dcNeeded <;> rfl

theorem decBlocks_run (bs : List DBlk) (last : Nat → Int) (r : Rd) :
    decBlocks bs last r = (blocksRun bs last r).2.map fun x =>
      ((blocksRun bs last r).1.map (applyW (List.replicate 64 0)), x.1, x.2) := by
  induction bs generalizing last r with
  | nil => rfl
  | cons b bs ih =>
    simp only [decBlocks, blocksRun, decBlock_run]
    cases hx : blockRun b last r with
    | mk w x =>
      cases x with
      | none => rfl
      | some x =>
        dsimp only [Option.map_some]
        rw [ih]
        cases (blocksRun bs x.1 x.2).2 <;> rfl

theorem blocksRun_length (bs : List DBlk) (last : Nat → Int) (r : Rd) : (blocksRun bs last r).1.length = bs.length := by
  induction bs generalizing last r with
  | nil => rfl
  | cons b bs ih =>
    simp only [blocksRun]
    cases hx : blockRun b last r with
    | mk w x =>
      cases x with
      | none => simp
      | some x => simp [ih]

/-- Blocks of zeros, as the callers supply them. -/
def zeroBlks (bs : List DBlk) : List (List Int) := bs.map fun _ => List.replicate 64 (0 : Int)

theorem zipWith_zero {α : Type} (f : List Int → α → List Int) (bs : List DBlk) (l : List α) (h : l.length = bs.length) :
    List.zipWith f (zeroBlks bs) l = l.map (f (List.replicate 64 0)) := by
  unfold zeroBlks
  induction bs generalizing l with
  | nil => simp at h; subst h; rfl
  | cons b bs ih =>
    cases l with
    | nil => simp at h
    | cons x l =>
      simp only [List.map_cons, List.zipWith_cons_cons]
      rw [ih l (by simpa using h)]

/-- On zeroed blocks the slow path with explicit writes is `decBlocks`. -/
theorem slowOn_zero (bs : List DBlk) (last : Nat → Int) (r : Rd) :
    (∀ x, decBlocks bs last r = some x → slowOn bs (zeroBlks bs) last r = .ok x.1 x.2.1 x.2.2) ∧
    (decBlocks bs last r = none → ∃ blks, slowOn bs (zeroBlks bs) last r = .suspend blks) := by
  rw [decBlocks_run]
  unfold slowOn
  cases hx : blocksRun bs last r with
  | mk ws x =>
    have hl := blocksRun_length bs last r
    rw [hx] at hl
    cases x with
    | none => exact ⟨by simp, fun _ => ⟨_, rfl⟩⟩
    | some x =>
      refine ⟨fun y hy => ?_, by simp⟩
      simp only [Option.map_some, Option.some.injEq] at hy
      subst hy
      dsimp only
      rw [zipWith_zero _ _ _ hl]

/-! ### The writes of the specification -/

/-- The assignments of `iAC`. -/
def acW (d : DTbl) (nd : Bool) (z : Nat → Bool) (k p : Nat) : Writes :=
  if k < 64 then
    let h := symAt d z p
    if h.1 &&& 15 ≠ 0 then
      let y := acW d nd z (k + (h.1 >>> 4) + 1) (h.2 + (h.1 &&& 15))
      if nd then (natOrder.getD (k + (h.1 >>> 4)) 0, toCoef (huffExtend (win z h.2 (h.1 &&& 15)) (h.1 &&& 15))) :: y
      else y
    else if h.1 >>> 4 ≠ 15 then []
    else acW d nd z (k + 15 + 1) h.2
  else []
termination_by 64 - k

theorem iAC_w (d : DTbl) (nd : Bool) (z : Nat → Bool) {k : Nat} (blk : List Int) (p : Nat) :
    iAC d nd z k blk p = (applyW blk (acW d nd z k p), (iAC d nd z k [] p).2) := by
  induction hj : 64 - k using Nat.strong_induction_on generalizing k blk p with
  | _ j ih =>
  subst hj
  rw [iAC, acW, iAC]
  by_cases hk : k < 64
  · rw [if_pos hk, if_pos hk, if_pos hk]
    dsimp only
    by_cases hs : (symAt d z p).1 &&& 15 ≠ 0
    · rw [if_pos hs, if_pos hs, if_pos hs]
      rw [ih _ (by omega) _ _ rfl]
      conv => rhs; rw [ih _ (by omega) _ _ rfl]
      cases nd <;> rfl
    · rw [if_neg hs, if_neg hs, if_neg hs]
      by_cases hr : (symAt d z p).1 >>> 4 ≠ 15
      · rw [if_pos hr, if_pos hr, if_pos hr]; rfl
      · rw [if_neg hr, if_neg hr, if_neg hr]
        exact ih _ (by omega) _ _ rfl
  · rw [if_neg hk, if_neg hk, if_neg hk]; rfl

/-- The assignments of `iBlock`. -/
def blockW (b : DBlk) (z : Nat → Bool) (last : Nat → Int) (p : Nat) : Writes :=
  let h := symAt b.dc z p
  let v := (if h.1 ≠ 0 then huffExtend (win z h.2 h.1) h.1 else 0) + last b.ci
  let y := acW b.ac b.acNeeded z 1 (h.2 + h.1)
  if b.dcNeeded then (0, toCoef v) :: y else y

theorem iBlock_w (b : DBlk) (z : Nat → Bool) (last : Nat → Int) (blk : List Int) (p : Nat) :
    iBlock b z last blk p = (applyW blk (blockW b z last p), (iBlock b z last [] p).2) := by
  unfold iBlock blockW
  dsimp only
  rw [iAC_w]
  conv => rhs; rw [iAC_w]
  cases b.dcNeeded <;> rfl

/-- The assignments of `iBlocks`. -/
def blocksW (z : Nat → Bool) : List DBlk → (Nat → Int) → Nat → List Writes
  | [], _, _ => []
  | b :: bs, last, p =>
    let x := iBlock b z last [] p
    blockW b z last p :: blocksW z bs x.2.1 x.2.2

theorem blocksW_length (z : Nat → Bool) (bs : List DBlk) (last : Nat → Int) (p : Nat) :
    (blocksW z bs last p).length = bs.length := by
  induction bs generalizing last p with
  | nil => rfl
  | cons b bs ih => simp [blocksW, ih]

theorem iBlocks_w (z : Nat → Bool) (bs : List DBlk) (last : Nat → Int) (p : Nat) :
    (iBlocks z bs last p).1 = (blocksW z bs last p).map (applyW (List.replicate 64 0)) := by
  induction bs generalizing last p with
  | nil => rfl
  | cons b bs ih =>
    simp only [iBlocks, blocksW, List.map_cons]
    rw [iBlock_w]
    simp [ih]

theorem iBlocksOn_w (z : Nat → Bool) (bs : List DBlk) (blks : List (List Int)) (hl : blks.length = bs.length)
    (last : Nat → Int) (p : Nat) :
    iBlocksOn z (bs.zip blks) last p = (List.zipWith applyW blks (blocksW z bs last p), (iBlocks z bs last p).2) := by
  induction bs generalizing last p blks with
  | nil => simp at hl; subst hl; rfl
  | cons b bs ih =>
    cases blks with
    | nil => simp at hl
    | cons blk blks =>
      simp only [List.zip_cons_cons, iBlocksOn, blocksW, List.zipWith_cons_cons, iBlocks]
      rw [iBlock_w]
      dsimp only
      rw [ih blks (by simpa using hl)]
      rw [iBlock_w b z last (List.replicate 64 0)]

/-! ### The slow path makes the assignments of the specification -/

theorem acRun_at {d : DTbl} {m : Nat} (hd : TOk d m) {nd : Bool} {z : Nat → Bool} {L : Nat} {i0 : Bool} {h0 : Nat} {k : Nat}
    {r : Rd} {p : Nat} (hr : r.Ok) (h : At z L i0 h0 r.abs p) :
    (acRun d nd k r).1 <+: acW d nd z k p ∧ ((acRun d nd k r).2 ≠ none → (acRun d nd k r).1 = acW d nd z k p) := by
  induction hj : 64 - k using Nat.strong_induction_on generalizing k r p with
  | _ j ih =>
  subst hj
  rw [acRun, acW]
  by_cases hk : k < 64
  · rw [if_pos hk, if_pos hk]
    cases hs : huffDecode d r with
    | none => exact ⟨List.nil_prefix, fun h => absurd rfl h⟩
    | some y =>
      obtain ⟨sym, r1⟩ := y
      dsimp only
      obtain ⟨a1, a2, a3⟩ := huffDecode_abs hd.ok.look hr hs
      obtain ⟨b1, b2⟩ := lhuff_at hd h
      rw [a3] at b1 b2
      dsimp only at b1 b2
      rw [← b1]
      by_cases h0 : sym &&& 15 ≠ 0
      · rw [if_pos h0, if_pos h0]
        cases hx : readBits r1 (sym &&& 15) with
        | none => exact ⟨List.nil_prefix, fun h => absurd rfl h⟩
        | some y =>
          obtain ⟨x, r2⟩ := y
          dsimp only
          have h15 : sym &&& 15 ≤ 15 := Nat.and_le_right
          obtain ⟨c1, c2, c3⟩ := readBits_abs a1 (by omega) hx
          obtain ⟨d1, d2⟩ := lread_at b2 (n := sym &&& 15) (by omega)
          rw [c3] at d1 d2
          dsimp only at d1 d2
          obtain ⟨e1, e2⟩ := ih (64 - (k + (sym >>> 4) + 1)) (by omega) c1 d2 rfl
          rw [d1]
          cases nd with
          | false => exact ⟨e1, e2⟩
          | true => exact ⟨List.cons_prefix_cons.2 ⟨rfl, e1⟩, fun h => by simp only [if_true]; rw [e2 h]⟩
      · rw [if_neg h0, if_neg h0]
        by_cases hr : sym >>> 4 ≠ 15
        · rw [if_pos hr, if_pos hr]; exact ⟨List.nil_prefix, fun _ => rfl⟩
        · rw [if_neg hr, if_neg hr]
          exact ih _ (by omega) a1 b2 rfl
  · rw [if_neg hk, if_neg hk]; exact ⟨List.nil_prefix, fun _ => rfl⟩

theorem blockRun_at {b : DBlk} (hb : b.TOk) {z : Nat → Bool} {L : Nat} {i0 : Bool} {h0 : Nat}
    {last : Nat → Int} {r : Rd} {p : Nat} (hr : r.Ok) (h : At z L i0 h0 r.abs p) :
    (blockRun b last r).1 <+: blockW b z last p ∧
    ((blockRun b last r).2 ≠ none → (blockRun b last r).1 = blockW b z last p) := by
  unfold blockRun blockW
  cases hs : huffDecode b.dc r with
  | none => exact ⟨List.nil_prefix, fun h => absurd rfl h⟩
  | some y =>
    obtain ⟨s, r1⟩ := y
    dsimp only
    obtain ⟨a1, a2, a3⟩ := huffDecode_abs hb.dc.ok.look hr hs
    obtain ⟨b1, b2⟩ := lhuff_at hb.dc h
    rw [a3] at b1 b2
    dsimp only at b1 b2
    have hs15 : s ≤ 15 := b1 ▸ hb.dc.sym_le z p
    rw [← b1]
    cases hx : (if s ≠ 0 then (readBits r1 s).map (fun xr => (huffExtend xr.1 s, xr.2)) else some (0, r1)) with
    | none => exact ⟨List.nil_prefix, fun h => absurd rfl h⟩
    | some y =>
      obtain ⟨diff, r2⟩ := y
      dsimp only
      obtain ⟨c1, c2, c3⟩ : r2.Ok ∧ At z L i0 h0 r2.abs ((symAt b.dc z p).2 + s) ∧
          diff = if s ≠ 0 then huffExtend (win z (symAt b.dc z p).2 s) s else 0 := by
        by_cases h0 : s ≠ 0
        · rw [if_pos h0] at hx ⊢
          cases hr2 : readBits r1 s with
          | none => rw [hr2] at hx; simp at hx
          | some z =>
            obtain ⟨x, r3⟩ := z
            rw [hr2] at hx
            simp only [Option.map_some, Option.some.injEq, Prod.mk.injEq] at hx
            obtain ⟨rfl, rfl⟩ := hx
            obtain ⟨c1, c2, c3⟩ := readBits_abs a1 (by omega) hr2
            obtain ⟨d1, d2⟩ := lread_at b2 (n := s) (by omega)
            rw [c3] at d1 d2
            exact ⟨c1, d2, by rw [← d1]⟩
        · rw [if_neg h0] at hx ⊢
          simp only [Option.some.injEq, Prod.mk.injEq] at hx
          obtain ⟨rfl, rfl⟩ := hx
          simp only [not_not] at h0
          subst h0
          exact ⟨a1, b2, rfl⟩
      obtain ⟨e1, e2⟩ := acRun_at hb.ac (nd := b.acNeeded) (k := 1) c1 c2
      rw [← c3]
      have e2 : ∀ g : Rd → (Nat → Int) × Rd, (acRun b.ac b.acNeeded 1 r2).2.map g ≠ none →
          (acRun b.ac b.acNeeded 1 r2).1 = acW b.ac b.acNeeded z 1 ((symAt b.dc z p).2 + s) :=
        fun g h => e2 fun hh => h (by rw [hh]; rfl)
      split
      · exact ⟨List.cons_prefix_cons.2 ⟨rfl, e1⟩, fun h => by rw [e2 _ h]⟩
      · exact ⟨e1, e2 _⟩

theorem blockRun_next {b : DBlk} (hb : b.TOk) {z : Nat → Bool} {L : Nat} {i0 : Bool} {h0 : Nat}
    {last : Nat → Int} {r : Rd} {x : (Nat → Int) × Rd} {p : Nat} (hr : r.Ok) (h : At z L i0 h0 r.abs p)
    (he : (blockRun b last r).2 = some x) :
    x.2.Ok ∧ x.2.tail = r.tail ∧ x.1 = (iBlock b z last [] p).2.1 ∧ At z L i0 h0 x.2.abs (iBlock b z last [] p).2.2 := by
  have e := decBlock_run b last r
  rw [he] at e
  obtain ⟨a1, a2, a3⟩ := decBlock_abs hb.toOk hr e
  obtain ⟨b1, b2, b3⟩ := lBlock_at hb (last := last) h
  rw [a3, iBlock_w] at b2 b3
  exact ⟨a1, a2, b2, b3⟩

theorem blocksRun_at {bs : List DBlk} (hb : ∀ b ∈ bs, b.TOk) {z : Nat → Bool} {L : Nat} {i0 : Bool} {h0 : Nat}
    {last : Nat → Int} {r : Rd} {p : Nat} (hr : r.Ok) (h : At z L i0 h0 r.abs p) :
    List.Forall₂ (· <+: ·) (blocksRun bs last r).1 (blocksW z bs last p) ∧
    ((blocksRun bs last r).2 ≠ none → (blocksRun bs last r).1 = blocksW z bs last p) := by
  induction bs generalizing last r p with
  | nil => exact ⟨.nil, fun _ => rfl⟩
  | cons b bs ih =>
    simp only [blocksRun, blocksW]
    obtain ⟨e2, e3⟩ := blockRun_at (hb b (by simp)) (last := last) hr h
    cases hx : blockRun b last r with
    | mk w y =>
      rw [hx] at e2 e3
      cases y with
      | none =>
        refine ⟨.cons e2 ?_, fun h => absurd rfl h⟩
        clear ih hx
        generalize (iBlock b z last [] p).2 = q
        obtain ⟨l, q⟩ := q
        clear e2 e3 h hb
        induction bs generalizing l q with
        | nil => exact .nil
        | cons b bs ih => exact .cons List.nil_prefix (ih _ _)
      | some y =>
        dsimp only
        have e1 : (blockRun b last r).2 = some y := by rw [hx]
        obtain ⟨c1, c2, c3, c4⟩ := blockRun_next (hb b (by simp)) hr h e1
        obtain ⟨d1, d2⟩ := ih (fun b h => hb b (by simp [h])) (last := y.1) c1 c4
        rw [c3] at d1 d2 ⊢
        exact ⟨.cons e2 d1, fun h => by rw [d2 h]; exact congrArg (· :: _) (e3 (by simp))⟩

end Verif.Huff
