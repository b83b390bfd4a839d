import Verif.Huff.Mcu
/-
Decoding with data that arrives in pieces: what a run over the bytes at hand does, a run over more bytes does too.
-/
namespace Verif.Huff

/-- More bytes in the source's buffer. -/
def Rd.more (r : Rd) (c : List Nat) : Rd := { r with bytes := r.bytes ++ c }

theorem more_nil (r : Rd) : r.more [] = r := by simp [Rd.more]

theorem more_more (r : Rd) (a b : List Nat) : (r.more a).more b = r.more (a ++ b) := by simp [Rd.more]

theorem more_ok {r : Rd} {c : List Nat} (h : (r.more c).Ok) : r.Ok :=
  ⟨h.left64, fun b hb => h.bytes b (by simp [Rd.more, hb])⟩

theorem fillLoop_more (c : List Nat) {ff : Bool} {gb left : Nat} {b : List Nat} {gb' left' m : Nat} {rest : List Nat}
    (h : fillLoop ff gb left b = some (gb', left', rest, m)) :
    fillLoop ff gb left (b ++ c) = some (gb', left', rest ++ c, m) := by
  induction b generalizing ff gb left with
  | nil =>
    simp only [fillLoop] at h
    split at h
    · rename_i hh
      simp at h
      obtain ⟨rfl, rfl, rfl, rfl⟩ := h
      obtain ⟨rfl, h2⟩ := hh
      cases c with
      | nil => simp [fillLoop, h2]
      | cons x c => simp [fillLoop, h2]
    · simp at h
  | cons x b ih =>
    cases ff with
    | false =>
      simp only [fillLoop, List.cons_append] at h ⊢
      split at h
      · rename_i hl
        simp at h
        obtain ⟨rfl, rfl, rfl, rfl⟩ := h
        rw [if_pos hl]; rfl
      · rename_i hl
        rw [if_neg hl]
        split at h
        · rename_i hx; rw [if_pos hx]; exact ih h
        · rename_i hx; rw [if_neg hx]; exact ih h
    | true =>
      simp only [fillLoop, List.cons_append] at h ⊢
      split at h
      · rename_i hx; rw [if_pos hx]; exact ih h
      · rename_i hx
        rw [if_neg hx]
        split at h
        · rename_i hx; rw [if_pos hx]; exact ih h
        · rename_i hx; rw [if_neg hx]; simp at h ⊢; exact ⟨h.1, h.2.1, by rw [h.2.2.1], h.2.2.2⟩

theorem noMore_more (r : Rd) (n : Nat) (c : List Nat) : noMore (r.more c) n = (noMore r n).more c := by
  unfold noMore
  show (if n > r.left then _ else _) = _
  split <;> rfl

theorem fill_more (c : List Nat) {r r' : Rd} {n : Nat} (h : fill r n = some r') : fill (r.more c) n = some (r'.more c) := by
  unfold fill at h ⊢
  show (if r.marker = 0 then _ else _) = _
  split at h
  · rename_i hm
    rw [if_pos hm]
    cases hf : fillLoop false r.gb r.left r.bytes with
    | none => rw [hf] at h; simp at h
    | some y =>
      obtain ⟨gb, left, rest, m⟩ := y
      have e : fillLoop false (r.more c).gb (r.more c).left (r.more c).bytes = some (gb, left, rest ++ c, m) :=
        fillLoop_more c hf
      rw [hf] at h
      rw [e]
      dsimp only at h ⊢
      split at h
      · rename_i h0; rw [if_pos h0]; simp at h; subst h; rfl
      · rename_i h0
        rw [if_neg h0]
        simp at h
        subst h
        rw [← noMore_more]
        rfl
  · rename_i hm
    rw [if_neg hm]
    simp at h
    subst h
    rw [noMore_more]

theorem readBits_more (c : List Nat) {r r' : Rd} {n x : Nat} (h : readBits r n = some (x, r')) :
    readBits (r.more c) n = some (x, r'.more c) := by
  unfold readBits checkBits at h ⊢
  show (match (if r.left < n then fill (r.more c) n else some (r.more c)) with | none => none | some r => some (peekBits r n, dropBits r n)) = _
  split at h
  · simp at h
  · rename_i r1 hc
    simp at h
    obtain ⟨rfl, rfl⟩ := h
    split at hc
    · rename_i hl
      rw [if_pos hl, fill_more c hc]; rfl
    · rename_i hl
      rw [if_neg hl]
      simp at hc
      subst hc
      rfl

theorem slowLoop_more (c : List Nat) (d : DTbl) (fuel : Nat) {r r' : Rd} {code l code' l' : Nat}
    (h : slowLoop d fuel r code l = some (code', l', r')) : slowLoop d fuel (r.more c) code l = some (code', l', r'.more c) := by
  induction fuel generalizing r code l with
  | zero => simp [slowLoop] at h ⊢; exact ⟨h.1, h.2.1, by rw [h.2.2]⟩
  | succ fuel ih =>
    simp only [slowLoop] at h ⊢
    split at h
    · rename_i hg
      rw [if_pos hg]
      cases hx : readBits r 1 with
      | none => rw [hx] at h; simp at h
      | some y =>
        rw [hx] at h
        rw [readBits_more c hx]
        exact ih h
    · rename_i hg
      rw [if_neg hg]
      simp at h ⊢
      exact ⟨h.1, h.2.1, by rw [h.2.2]⟩

theorem huffSlow_more (c : List Nat) {d : DTbl} {r r' : Rd} {m x : Nat} (h : huffSlow d r m = some (x, r')) :
    huffSlow d (r.more c) m = some (x, r'.more c) := by
  unfold huffSlow at h ⊢
  cases hx : readBits r m with
  | none => rw [hx] at h; simp at h
  | some y =>
    obtain ⟨code, r1⟩ := y
    rw [hx] at h
    rw [readBits_more c hx]
    dsimp only at h ⊢
    cases hs : slowLoop d (17 - m) r1 code m with
    | none => rw [hs] at h; simp at h
    | some y =>
      obtain ⟨code', l, r2⟩ := y
      rw [hs] at h
      rw [slowLoop_more c d _ hs]
      dsimp only at h ⊢
      split at h
      · rename_i hl; rw [if_pos hl]; simp at h ⊢; exact ⟨h.1, by rw [← h.2]; rfl⟩
      · rename_i hl; rw [if_neg hl]; simp at h ⊢; exact ⟨h.1, by rw [← h.2]⟩

theorem huffDecode_more (c : List Nat) {d : DTbl} {r r' : Rd} {x : Nat} (h : huffDecode d r = some (x, r')) :
    huffDecode d (r.more c) = some (x, r'.more c) := by
  unfold huffDecode at h ⊢
  have key : ∀ r1, (if r.left < 8 then fill r 0 else some r) = some r1 →
      (if (r.more c).left < 8 then fill (r.more c) 0 else some (r.more c)) = some (r1.more c) := by
    intro r1 h1
    show (if r.left < 8 then _ else _) = _
    split at h1
    · rename_i hl; rw [if_pos hl]; exact fill_more c h1
    · rename_i hl; rw [if_neg hl]; simp at h1; rw [h1]
  cases hf : (if r.left < 8 then fill r 0 else some r) with
  | none => rw [hf] at h; simp at h
  | some r1 =>
    rw [hf] at h
    rw [key r1 hf]
    dsimp only at h ⊢
    show (if r1.left < 8 then _ else _) = _
    split at h
    · rename_i hl; rw [if_pos hl]; exact huffSlow_more c h
    · rename_i hl
      rw [if_neg hl]
      show (if d.lookup.getD (peekBits r1 8) 0 >>> 8 ≤ 8 then _ else _) = _
      split at h
      · rename_i h8; rw [if_pos h8]; simp at h ⊢; exact ⟨h.1, by rw [← h.2]; rfl⟩
      · rename_i h8; rw [if_neg h8]; exact huffSlow_more c h

theorem acRun_more (c : List Nat) (d : DTbl) (nd : Bool) (k : Nat) (r : Rd) :
    (∀ r', (acRun d nd k r).2 = some r' → acRun d nd k (r.more c) = ((acRun d nd k r).1, some (r'.more c))) ∧
    (acRun d nd k r).1 <+: (acRun d nd k (r.more c)).1 := by
  induction hj : 64 - k using Nat.strong_induction_on generalizing k r with
  | _ j ih =>
  subst hj
  rw [acRun, acRun]
  by_cases hk : k < 64
  · rw [if_pos hk, if_pos hk]
    cases hs : huffDecode d r with
    | none => exact ⟨fun _ h => by simp at h, List.nil_prefix⟩
    | some y =>
      obtain ⟨sym, r1⟩ := y
      rw [huffDecode_more c hs]
      dsimp only
      by_cases h0 : sym &&& 15 ≠ 0
      · rw [if_pos h0, if_pos h0]
        cases hx : readBits r1 (sym &&& 15) with
        | none => exact ⟨fun _ h => by simp at h, List.nil_prefix⟩
        | some y =>
          obtain ⟨x, r2⟩ := y
          rw [readBits_more c hx]
          dsimp only
          obtain ⟨e1, e2⟩ := ih (64 - (k + (sym >>> 4) + 1)) (by omega) _ r2 rfl
          refine ⟨fun r' h => by rw [e1 r' h], ?_⟩
          cases nd with
          | false => exact e2
          | true => exact List.cons_prefix_cons.2 ⟨rfl, e2⟩
      · rw [if_neg h0, if_neg h0]
        by_cases hr : sym >>> 4 ≠ 15
        · rw [if_pos hr, if_pos hr]
          exact ⟨fun r' h => by simp at h; rw [h], List.nil_prefix⟩
        · rw [if_neg hr, if_neg hr]
          exact ih _ (by omega) _ r1 rfl
  · rw [if_neg hk, if_neg hk]
    exact ⟨fun r' h => by simp at h; rw [h], List.nil_prefix⟩

theorem blockRun_more (c : List Nat) (b : DBlk) (last : Nat → Int) (r : Rd) :
    (∀ x, (blockRun b last r).2 = some x → blockRun b last (r.more c) = ((blockRun b last r).1, some (x.1, x.2.more c))) ∧
    (blockRun b last r).1 <+: (blockRun b last (r.more c)).1 := by
  unfold blockRun
  cases hs : huffDecode b.dc r with
  | none => exact ⟨fun _ h => by simp at h, List.nil_prefix⟩
  | some y =>
    obtain ⟨s, r1⟩ := y
    rw [huffDecode_more c hs]
    dsimp only
    cases hx : (if s ≠ 0 then (readBits r1 s).map (fun xr => (huffExtend xr.1 s, xr.2)) else some (0, r1)) with
    | none => exact ⟨fun _ h => by simp at h, List.nil_prefix⟩
    | some y =>
      obtain ⟨diff, r2⟩ := y
      have e : (if s ≠ 0 then (readBits (r1.more c) s).map (fun xr => (huffExtend xr.1 s, xr.2)) else some (0, r1.more c)) =
          some (diff, r2.more c) := by
        by_cases h0 : s ≠ 0
        · rw [if_pos h0] at hx ⊢
          cases hr2 : readBits r1 s with
          | none => rw [hr2] at hx; simp at hx
          | some z =>
            rw [hr2] at hx
            rw [readBits_more c hr2]
            simp at hx ⊢
            exact ⟨hx.1, by rw [hx.2]⟩
        · rw [if_neg h0] at hx ⊢
          simp at hx ⊢
          exact ⟨hx.1, by rw [hx.2]⟩
      rw [e]
      dsimp only
      obtain ⟨e1, e2⟩ := acRun_more c b.ac b.acNeeded 1 r2
      constructor
      · intro x h
        cases ha : (acRun b.ac b.acNeeded 1 r2).2 with
        | none => rw [ha] at h; simp at h
        | some r3 =>
          rw [ha] at h
          rw [e1 r3 ha]
          simp at h
          subst h
          rfl
      · split
        · exact List.cons_prefix_cons.2 ⟨rfl, e2⟩
        · exact e2

theorem blocksRun_more (c : List Nat) (bs : List DBlk) (last : Nat → Int) (r : Rd) :
    (∀ x, (blocksRun bs last r).2 = some x → blocksRun bs last (r.more c) = ((blocksRun bs last r).1, some (x.1, x.2.more c))) ∧
    List.Forall₂ (· <+: ·) (blocksRun bs last r).1 (blocksRun bs last (r.more c)).1 := by
  induction bs generalizing last r with
  | nil => exact ⟨fun x h => by simp [blocksRun] at h ⊢; rw [← h]; exact ⟨rfl, rfl⟩, .nil⟩
  | cons b bs ih =>
    simp only [blocksRun]
    obtain ⟨e1, e2⟩ := blockRun_more c b last r
    cases hx : blockRun b last r with
    | mk w y =>
      rw [hx] at e1 e2
      cases y with
      | none =>
        refine ⟨fun x h => by simp at h, ?_⟩
        cases hy : blockRun b last (r.more c) with
        | mk w' y' =>
          rw [hy] at e2
          have aux : ∀ l : List Writes, l.length = bs.length → List.Forall₂ (· <+: ·) (bs.map fun _ => ([] : Writes)) l := by
            clear ih
            induction bs with
            | nil => intro l h; simp at h; subst h; exact .nil
            | cons b bs ih =>
              intro l h
              cases l with
              | nil => simp at h
              | cons x l => exact .cons List.nil_prefix (ih l (by simpa using h))
          cases y' with
          | none => exact .cons e2 (aux _ (by simp))
          | some y' => exact .cons e2 (aux _ (blocksRun_length _ _ _))
      | some y =>
        rw [e1 y rfl]
        dsimp only
        obtain ⟨d1, d2⟩ := ih y.1 y.2
        exact ⟨fun x h => by rw [d1 x h], .cons List.prefix_rfl d2⟩

/-! ### The fast path -/

/-- More bytes in the buffer of the fast reader. -/
def FSt.more (f : FSt) (c : List Nat) : FSt := { f with buf := f.buf ++ c }

theorem getByte_more (c : List Nat) {f f' : FSt} (h : getByte f = some f') : getByte (f.more c) = some (f'.more c) := by
  unfold getByte at h ⊢
  match hb : f.buf with
  | [] => rw [hb] at h; simp at h
  | [_] => rw [hb] at h; simp at h
  | c0 :: c1 :: rest =>
    rw [hb] at h
    simp only [FSt.more, hb, List.cons_append] at h ⊢
    split at h
    · rename_i h0
      rw [if_pos h0]
      split at h
      · rename_i h1; rw [if_pos h1]; simp at h; subst h; simp [hb]
      · rename_i h1; rw [if_neg h1]; simp at h; subst h; rfl
    · rename_i h0
      rw [if_neg h0]
      simp at h; subst h; rfl

theorem getBytes_more (c : List Nat) (n : Nat) {f f' : FSt} (h : getBytes n f = some f') :
    getBytes n (f.more c) = some (f'.more c) := by
  induction n generalizing f with
  | zero => simp [getBytes] at h ⊢; rw [h]
  | succ n ih =>
    simp only [getBytes] at h ⊢
    cases hg : getByte f with
    | none => rw [hg] at h; simp at h
    | some f1 => rw [hg] at h; rw [getByte_more c hg]; exact ih h

theorem fillFast_more (c : List Nat) {f f' : FSt} (h : fillFast f = some f') : fillFast (f.more c) = some (f'.more c) := by
  unfold fillFast at h ⊢
  show (if f.left ≤ 16 then _ else _) = _
  split at h
  · rename_i hl; rw [if_pos hl]; exact getBytes_more c 6 h
  · rename_i hl; rw [if_neg hl]; simp at h; rw [h]

theorem huffFast_more (c : List Nat) {d : DTbl} {f f' : FSt} {x : Nat} (h : huffFast d f = some (x, f')) :
    huffFast d (f.more c) = some (x, f'.more c) := by
  unfold huffFast at h ⊢
  cases hf : fillFast f with
  | none => rw [hf] at h; simp at h
  | some f1 =>
    rw [hf] at h
    rw [fillFast_more c hf]
    simp only [Option.map_some, Option.some.injEq, Prod.mk.injEq] at h ⊢
    exact ⟨h.1, by rw [← h.2]; rfl⟩

theorem readFast_more (c : List Nat) {f f' : FSt} {n x : Nat} (h : readFast f n = some (x, f')) :
    readFast (f.more c) n = some (x, f'.more c) := by
  unfold readFast at h ⊢
  cases hf : fillFast f with
  | none => rw [hf] at h; simp at h
  | some f1 =>
    rw [hf] at h
    rw [fillFast_more c hf]
    simp only [Option.map_some, Option.some.injEq, Prod.mk.injEq] at h ⊢
    exact ⟨h.1, by rw [← h.2]; rfl⟩

theorem acFast_more (c : List Nat) {d : DTbl} {nd : Bool} {k : Nat} {blk blk' : List Int} {f f' : FSt}
    (h : acFast d nd k blk f = some (blk', f')) : acFast d nd k blk (f.more c) = some (blk', f'.more c) := by
  induction hj : 64 - k using Nat.strong_induction_on generalizing k blk f with
  | _ j ih =>
  subst hj
  rw [acFast] at h ⊢
  by_cases hk : k < 64
  · rw [if_pos hk] at h ⊢
    cases hs : huffFast d f with
    | none => rw [hs] at h; simp at h
    | some y =>
      obtain ⟨sym, f1⟩ := y
      rw [hs] at h
      rw [huffFast_more c hs]
      dsimp only at h ⊢
      by_cases h0 : sym &&& 15 ≠ 0
      · rw [if_pos h0] at h ⊢
        cases hx : readFast f1 (sym &&& 15) with
        | none => rw [hx] at h; simp at h
        | some y =>
          rw [hx] at h
          rw [readFast_more c hx]
          exact ih _ (by omega) h rfl
      · rw [if_neg h0] at h ⊢
        by_cases hr : sym >>> 4 ≠ 15
        · rw [if_pos hr] at h ⊢
          simp at h ⊢
          exact ⟨h.1, by rw [h.2]⟩
        · rw [if_neg hr] at h ⊢
          exact ih _ (by omega) h rfl
  · rw [if_neg hk] at h ⊢
    simp at h ⊢
    exact ⟨h.1, by rw [h.2]⟩

theorem blockFast_more (c : List Nat) {b : DBlk} {last last' : Nat → Int} {blk blk' : List Int} {f f' : FSt}
    (h : blockFast b last blk f = some (blk', last', f')) :
    blockFast b last blk (f.more c) = some (blk', last', f'.more c) := by
  unfold blockFast at h ⊢
  cases hs : huffFast b.dc f with
  | none => rw [hs] at h; simp at h
  | some y =>
    obtain ⟨s, f1⟩ := y
    rw [hs] at h
    rw [huffFast_more c hs]
    dsimp only at h ⊢
    cases hx : (if s ≠ 0 then (readFast f1 s).map (fun x => (huffExtend x.1 s, x.2)) else some (0, f1)) with
    | none => rw [hx] at h; simp at h
    | some y =>
      obtain ⟨diff, f2⟩ := y
      have e : (if s ≠ 0 then (readFast (f1.more c) s).map (fun x => (huffExtend x.1 s, x.2)) else some (0, f1.more c)) =
          some (diff, f2.more c) := by
        by_cases h0 : s ≠ 0
        · rw [if_pos h0] at hx ⊢
          cases hr2 : readFast f1 s with
          | none => rw [hr2] at hx; simp at hx
          | some z =>
            rw [hr2] at hx
            rw [readFast_more c hr2]
            simp at hx ⊢
            exact ⟨hx.1, by rw [hx.2]⟩
        · rw [if_neg h0] at hx ⊢
          simp at hx ⊢
          exact ⟨hx.1, by rw [hx.2]⟩
      rw [hx] at h
      rw [e]
      dsimp only at h ⊢
      cases ha : acFast b.ac b.acNeeded 1 (if b.dcNeeded then blk.set 0 (toCoef (diff + last b.ci)) else blk) f2 with
      | none => rw [ha] at h; simp at h
      | some y =>
        rw [ha] at h
        rw [acFast_more c ha]
        simp at h ⊢
        exact ⟨h.1, h.2.1, by rw [h.2.2]⟩

theorem blocksFast_more (c : List Nat) {bs : List (DBlk × List Int)} {last last' : Nat → Int} {blks : List (List Int)}
    {f f' : FSt} (h : blocksFast bs last f = some (blks, last', f')) :
    blocksFast bs last (f.more c) = some (blks, last', f'.more c) := by
  induction bs generalizing last f blks last' f' with
  | nil => simp [blocksFast] at h ⊢; exact ⟨h.1, h.2.1, by rw [h.2.2]⟩
  | cons b bs ih =>
    simp only [blocksFast] at h ⊢
    cases hx : blockFast b.1 last b.2 f with
    | none => rw [hx] at h; simp at h
    | some y =>
      obtain ⟨blk, last1, f1⟩ := y
      rw [hx] at h
      rw [blockFast_more c hx]
      dsimp only at h ⊢
      cases hy : blocksFast bs last1 f1 with
      | none => rw [hy] at h; simp at h
      | some y =>
        rw [hy] at h
        obtain ⟨y1, y2, y3⟩ := y
        rw [ih hy]
        simp at h ⊢
        exact ⟨h.1, h.2.1, by rw [h.2.2]⟩

/-! ### What is left in the buffer is an end of what was there -/

attribute [local refl] List.suffix_refl

theorem fillLoop_suffix {ff : Bool} {gb left : Nat} {b : List Nat} {gb' left' m : Nat} {rest : List Nat}
    (h : fillLoop ff gb left b = some (gb', left', rest, m)) : rest <:+ b := by
  induction b generalizing ff gb left with
  | nil =>
    simp only [fillLoop] at h
    split at h
    · simp at h; rw [h.2.2.1]
    · simp at h
  | cons x b ih =>
    cases ff with
    | false =>
      simp only [fillLoop] at h
      split at h
      · simp at h; rw [← h.2.2.1]
      · split at h
        · exact (ih h).trans (List.suffix_cons _ _)
        · exact (ih h).trans (List.suffix_cons _ _)
    | true =>
      simp only [fillLoop] at h
      split at h
      · exact (ih h).trans (List.suffix_cons _ _)
      · split at h
        · exact (ih h).trans (List.suffix_cons _ _)
        · simp at h; rw [← h.2.2.1]; exact List.suffix_cons _ _

theorem noMore_bytes (r : Rd) (n : Nat) : (noMore r n).bytes = r.bytes := by
  unfold noMore; split <;> rfl

theorem fill_suffix {r r' : Rd} {n : Nat} (h : fill r n = some r') : r'.bytes <:+ r.bytes := by
  unfold fill at h
  split at h
  · cases hf : fillLoop false r.gb r.left r.bytes with
    | none => rw [hf] at h; simp at h
    | some y =>
      rw [hf] at h
      dsimp only at h
      have := fillLoop_suffix (rest := y.2.2.1) (m := y.2.2.2) hf
      split at h
      · simp at h; subst h; exact this
      · simp at h; subst h; rw [noMore_bytes]; exact this
  · simp at h; subst h; rw [noMore_bytes]

theorem readBits_suffix {r r' : Rd} {n x : Nat} (h : readBits r n = some (x, r')) : r'.bytes <:+ r.bytes := by
  unfold readBits checkBits at h
  split at h
  · simp at h
  · rename_i r1 hc
    simp at h
    obtain ⟨-, rfl⟩ := h
    split at hc
    · exact (fill_suffix hc : r1.bytes <:+ r.bytes)
    · simp at hc; subst hc; exact List.suffix_rfl

theorem slowLoop_suffix (d : DTbl) (fuel : Nat) {r r' : Rd} {code l code' l' : Nat}
    (h : slowLoop d fuel r code l = some (code', l', r')) : r'.bytes <:+ r.bytes := by
  induction fuel generalizing r code l with
  | zero => simp [slowLoop] at h; rw [h.2.2]
  | succ fuel ih =>
    simp only [slowLoop] at h
    split at h
    · cases hx : readBits r 1 with
      | none => rw [hx] at h; simp at h
      | some y => rw [hx] at h; exact (ih h).trans (readBits_suffix hx)
    · simp at h; rw [h.2.2]

theorem huffSlow_suffix {d : DTbl} {r r' : Rd} {m x : Nat} (h : huffSlow d r m = some (x, r')) :
    r'.bytes <:+ r.bytes := by
  unfold huffSlow at h
  cases hx : readBits r m with
  | none => rw [hx] at h; simp at h
  | some y =>
    rw [hx] at h
    dsimp only at h
    cases hs : slowLoop d (17 - m) y.2 y.1 m with
    | none => rw [hs] at h; simp at h
    | some w =>
      rw [hs] at h
      dsimp only at h
      have := (slowLoop_suffix d _ hs).trans (readBits_suffix hx)
      split at h
      · simp at h; rw [← h.2]; exact this
      · simp at h; rw [← h.2]; exact this

theorem huffDecode_suffix {d : DTbl} {r r' : Rd} {x : Nat} (h : huffDecode d r = some (x, r')) :
    r'.bytes <:+ r.bytes := by
  unfold huffDecode at h
  cases hf : (if r.left < 8 then fill r 0 else some r) with
  | none => rw [hf] at h; simp at h
  | some r1 =>
    rw [hf] at h
    dsimp only at h
    have h1 : r1.bytes <:+ r.bytes := by
      split at hf
      · exact fill_suffix hf
      · simp at hf; rw [hf]
    split at h
    · exact (huffSlow_suffix h).trans h1
    · split at h
      · simp at h; rw [← h.2]; exact h1
      · exact (huffSlow_suffix h).trans h1

theorem acRun_suffix {d : DTbl} {nd : Bool} {k : Nat} {r r' : Rd} (h : (acRun d nd k r).2 = some r') :
    r'.bytes <:+ r.bytes := by
  induction hj : 64 - k using Nat.strong_induction_on generalizing k r with
  | _ j ih =>
  subst hj
  rw [acRun] at h
  split at h
  · cases hs : huffDecode d r with
    | none => rw [hs] at h; simp at h
    | some y =>
      rw [hs] at h
      dsimp only at h
      split at h
      · cases hx : readBits y.2 (y.1 &&& 15) with
        | none => rw [hx] at h; simp at h
        | some w =>
          rw [hx] at h
          dsimp only at h
          exact (ih _ (by omega) h rfl).trans ((readBits_suffix hx).trans (huffDecode_suffix hs))
      · split at h
        · simp at h; rw [← h]; exact huffDecode_suffix hs
        · exact (ih _ (by omega) h rfl).trans (huffDecode_suffix hs)
  · simp at h; rw [h]

theorem blockRun_suffix {b : DBlk} {last : Nat → Int} {r : Rd} {x : (Nat → Int) × Rd}
    (h : (blockRun b last r).2 = some x) : x.2.bytes <:+ r.bytes := by
  unfold blockRun at h
  cases hs : huffDecode b.dc r with
  | none => rw [hs] at h; simp at h
  | some y =>
    rw [hs] at h
    dsimp only at h
    cases hx : (if y.1 ≠ 0 then (readBits y.2 y.1).map (fun xr => (huffExtend xr.1 y.1, xr.2)) else some (0, y.2)) with
    | none => rw [hx] at h; simp at h
    | some w =>
      rw [hx] at h
      dsimp only at h
      cases ha : (acRun b.ac b.acNeeded 1 w.2).2 with
      | none => rw [ha] at h; simp at h
      | some r3 =>
        rw [ha] at h
        simp at h
        subst h
        refine (acRun_suffix ha).trans ?_
        refine List.IsSuffix.trans ?_ (huffDecode_suffix hs)
        split at hx
        · cases hr2 : readBits y.2 y.1 with
          | none => rw [hr2] at hx; simp at hx
          | some z => rw [hr2] at hx; simp at hx; rw [← hx]; exact readBits_suffix hr2
        · simp at hx; rw [← hx]

theorem blocksRun_suffix {bs : List DBlk} {last : Nat → Int} {r : Rd} {x : (Nat → Int) × Rd}
    (h : (blocksRun bs last r).2 = some x) : x.2.bytes <:+ r.bytes := by
  induction bs generalizing last r with
  | nil => simp [blocksRun] at h; rw [← h]
  | cons b bs ih =>
    simp only [blocksRun] at h
    cases hx : blockRun b last r with
    | mk w y =>
      rw [hx] at h
      cases y with
      | none => simp at h
      | some y =>
        dsimp only at h
        exact (ih h).trans (blockRun_suffix (by rw [hx]))

theorem getByte_suffix {f f' : FSt} (h : getByte f = some f') : f'.buf <:+ f.buf := by
  unfold getByte at h
  match hb : f.buf with
  | [] => rw [hb] at h; simp at h
  | [_] => rw [hb] at h; simp at h
  | c0 :: c1 :: rest =>
    rw [hb] at h
    dsimp only at h
    split at h
    · split at h
      · simp at h; subst h; simp [hb]
      · simp at h; subst h; exact (List.suffix_cons _ _).trans (List.suffix_cons _ _)
    · simp at h; subst h; exact List.suffix_cons _ _

theorem getBytes_suffix (n : Nat) {f f' : FSt} (h : getBytes n f = some f') : f'.buf <:+ f.buf := by
  induction n generalizing f with
  | zero => simp [getBytes] at h; rw [h]
  | succ n ih =>
    simp only [getBytes] at h
    cases hg : getByte f with
    | none => rw [hg] at h; simp at h
    | some f1 => rw [hg] at h; exact (ih h).trans (getByte_suffix hg)

theorem fillFast_suffix {f f' : FSt} (h : fillFast f = some f') : f'.buf <:+ f.buf := by
  unfold fillFast at h
  split at h
  · exact getBytes_suffix 6 h
  · simp at h; rw [h]

theorem huffFast_suffix {d : DTbl} {f f' : FSt} {x : Nat} (h : huffFast d f = some (x, f')) : f'.buf <:+ f.buf := by
  unfold huffFast at h
  cases hf : fillFast f with
  | none => rw [hf] at h; simp at h
  | some f1 => rw [hf] at h; simp at h; rw [← h.2]; exact (fillFast_suffix hf : f1.buf <:+ f.buf)

theorem readFast_suffix {f f' : FSt} {n x : Nat} (h : readFast f n = some (x, f')) : f'.buf <:+ f.buf := by
  unfold readFast at h
  cases hf : fillFast f with
  | none => rw [hf] at h; simp at h
  | some f1 => rw [hf] at h; simp at h; rw [← h.2]; exact (fillFast_suffix hf : f1.buf <:+ f.buf)

theorem acFast_suffix {d : DTbl} {nd : Bool} {k : Nat} {blk blk' : List Int} {f f' : FSt}
    (h : acFast d nd k blk f = some (blk', f')) : f'.buf <:+ f.buf := by
  induction hj : 64 - k using Nat.strong_induction_on generalizing k blk f with
  | _ j ih =>
  subst hj
  rw [acFast] at h
  split at h
  · cases hs : huffFast d f with
    | none => rw [hs] at h; simp at h
    | some y =>
      rw [hs] at h
      dsimp only at h
      split at h
      · cases hx : readFast y.2 (y.1 &&& 15) with
        | none => rw [hx] at h; simp at h
        | some w =>
          rw [hx] at h
          exact (ih _ (by omega) h rfl).trans ((readFast_suffix hx).trans (huffFast_suffix hs))
      · split at h
        · simp at h; rw [← h.2]; exact huffFast_suffix hs
        · exact (ih _ (by omega) h rfl).trans (huffFast_suffix hs)
  · simp at h; rw [h.2]

theorem blockFast_suffix {b : DBlk} {last last' : Nat → Int} {blk blk' : List Int} {f f' : FSt}
    (h : blockFast b last blk f = some (blk', last', f')) : f'.buf <:+ f.buf := by
  unfold blockFast at h
  cases hs : huffFast b.dc f with
  | none => rw [hs] at h; simp at h
  | some y =>
    rw [hs] at h
    dsimp only at h
    cases hx : (if y.1 ≠ 0 then (readFast y.2 y.1).map (fun x => (huffExtend x.1 y.1, x.2)) else some (0, y.2)) with
    | none => rw [hx] at h; simp at h
    | some w =>
      rw [hx] at h
      dsimp only at h
      cases ha : acFast b.ac b.acNeeded 1 (if b.dcNeeded then blk.set 0 (toCoef (w.1 + last b.ci)) else blk) w.2 with
      | none => rw [ha] at h; simp at h
      | some v =>
        rw [ha] at h
        simp at h
        obtain ⟨-, -, rfl⟩ := h
        refine (acFast_suffix ha).trans ?_
        refine List.IsSuffix.trans ?_ (huffFast_suffix hs)
        split at hx
        · cases hr2 : readFast y.2 y.1 with
          | none => rw [hr2] at hx; simp at hx
          | some z => rw [hr2] at hx; simp at hx; rw [← hx]; exact readFast_suffix hr2
        · simp at hx; rw [← hx]

theorem blocksFast_suffix {bs : List (DBlk × List Int)} {last last' : Nat → Int} {blks : List (List Int)}
    {f f' : FSt} (h : blocksFast bs last f = some (blks, last', f')) : f'.buf <:+ f.buf := by
  induction bs generalizing last f blks last' f' with
  | nil => simp [blocksFast] at h; rw [h.2.2]
  | cons b bs ih =>
    simp only [blocksFast] at h
    cases hx : blockFast b.1 last b.2 f with
    | none => rw [hx] at h; simp at h
    | some y =>
      rw [hx] at h
      dsimp only at h
      cases hy : blocksFast bs y.2.1 y.2.2 with
      | none => rw [hy] at h; simp at h
      | some w =>
        obtain ⟨w1, w2, w3⟩ := w
        rw [hy] at h
        simp at h
        obtain ⟨-, -, rfl⟩ := h
        exact (ih hy).trans (blockFast_suffix hx)

/-- NoFill is inherited by ends. -/
theorem NoFill.suffix {a b c : List Nat} (h : NoFill (b ++ c)) (hs : a <:+ b) : NoFill (a ++ c) := by
  intro hh
  obtain ⟨p, rfl⟩ := hs
  refine h (hh.trans ?_)
  rw [List.append_assoc]
  exact (List.suffix_append _ _).isInfix

end Verif.Huff
