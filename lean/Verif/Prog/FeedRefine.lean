import Verif.Prog.FeedLemmas
/-
C54: refinement of AC coefficients, interrupted and started again.
-/
namespace Verif.Prog
open Verif Verif.Huff
open Verif.Geom (Pos Blk storeMcu)

variable {r rw rd : Rd} {fut : List Nat} {t : CkTbl} {Se Al : Nat}

/-- The correction of a coefficient according to a bit. -/
def fix (Al : Nat) (p : Nat) (x : Nat) (b : Blk) : Blk := if x ≠ 0 then b.set p (correct Al (b.getD p 0)) else b

theorem fix_len (p x : Nat) (b : Blk) : (fix Al p x b).length = b.length := by
  unfold fix; split <;> simp

theorem fix_ne {p x : Nat} {b : Blk} (hAl : Al < 16) (hp : p < b.length) (h : b.getD p 0 ≠ 0) : (fix Al p x b).getD p 0 ≠ 0 := by
  unfold fix
  split
  · rw [getD_set_self' hp]; exact correct_ne hAl _
  · exact h

theorem fix_keep {k x : Nat} (hk : k < 64) (b : Blk) : Keeps k b (fix Al (natOrder.getD k 0) x b) := by
  unfold fix
  split
  · exact Keeps.set b (Nat.le_refl _) hk _
  · exact .refl _ _

/-- Doing the correction again changes nothing. -/
theorem fix_redo {p x : Nat} {b u : Blk} (hAl : Al < 16) (hp : p < b.length) (hu : u.getD p 0 = (fix Al p x b).getD p 0) : fix Al p x u = u := by
  unfold fix at *
  by_cases hx : x ≠ 0
  · rw [if_pos hx]
    rw [if_pos hx, getD_set_self' hp] at hu
    exact set_same (by rw [hu, correct_idem hAl])
  · rw [if_neg hx]

theorem advanceRun_eq (k n : Nat) (blk : Blk) (rd : Rd) : advanceRun Se Al k n blk rd =
    if k ≤ Se then
      chk (k < natOrder.length ∧ natOrder.getD k 0 < blk.length ∧ Al < 32) <|
        if blk.getD (natOrder.getD k 0) 0 ≠ 0 then
          onRes blk (ckReadBits rd 1) fun x => advanceRun Se Al (k + 1) n (fix Al (natOrder.getD k 0) x.1 blk) x.2
        else if n = 0 then .ok (k, blk, rd)
        else advanceRun Se Al (k + 1) (n - 1) blk rd
    else .ok (k, blk, rd) := by
  rw [advanceRun]; rfl

theorem scanRun_eq (k : Nat) (blk : Blk) (rd : Rd) : scanRun Se Al k blk rd =
    if k ≤ Se then
      chk (k < natOrder.length ∧ natOrder.getD k 0 < blk.length ∧ Al < 32) <|
        if blk.getD (natOrder.getD k 0) 0 ≠ 0 then
          onRes blk (ckReadBits rd 1) fun x => scanRun Se Al (k + 1) (fix Al (natOrder.getD k 0) x.1 blk) x.2
        else scanRun Se Al (k + 1) blk rd
    else .ok (blk, rd) := by
  rw [scanRun]; rfl

/-- What the loop leaves alone, whether it ends or is interrupted. -/
theorem advance_keep (hSe : Se ≤ 63) {k n : Nat} {blk : Blk} {rd : Rd} :
    (∀ z, advanceRun Se Al k n blk rd = .ok z → Keeps k blk z.2.1 ∧ k ≤ z.1 ∧ (k ≤ Se → z.1 ≤ Se + 1) ∧
      (z.1 ≤ Se → z.2.1.getD (natOrder.getD z.1 0) 0 = 0)) ∧
    (∀ b, advanceRun Se Al k n blk rd = .suspend b → Keeps k blk b) := by
  generalize hn : Se + 1 - k = m
  induction m generalizing k n blk rd with
  | zero =>
    rw [advanceRun_eq, if_neg (by omega)]
    exact ⟨fun z h => by cases h; exact ⟨.refl _ _, Nat.le_refl _, by omega, fun h => by dsimp only at h; omega⟩, fun b h => by cases h⟩
  | succ m ih =>
    rw [advanceRun_eq, if_pos (by omega), chk]
    split
    · rename_i hc
      split
      · cases hb : ckReadBits rd 1 with
        | ok x =>
          simp only [onRes]
          have hk := fix_keep (Al := Al) (k := k) (x := x.1) (by omega) blk
          obtain ⟨i1, i2⟩ := ih (k := k + 1) (n := n) (blk := fix Al (natOrder.getD k 0) x.1 blk) (rd := x.2) (by omega)
          refine ⟨fun z h => ?_, fun b h => hk.trans ((i2 b h).mono (by omega))⟩
          obtain ⟨j1, j2, j3, j4⟩ := i1 z h
          refine ⟨hk.trans (j1.mono (by omega)), by omega, fun _ => ?_, j4⟩
          by_cases h1 : k + 1 ≤ Se
          · exact j3 h1
          · rw [advanceRun_eq, if_neg h1] at h
            cases h
            dsimp only; omega
        | suspend => exact ⟨fun z h => (by cases h), fun b h => by cases h; exact .refl _ _⟩
        | fault => exact ⟨fun z h => (by cases h), fun b h => by cases h⟩
      · rename_i h0
        split
        · refine ⟨fun z h => ?_, fun b h => by cases h⟩
          cases h
          exact ⟨.refl _ _, Nat.le_refl _, by intro; dsimp only; omega, fun _ => by simpa using h0⟩
        · obtain ⟨i1, i2⟩ := ih (k := k + 1) (n := n - 1) (blk := blk) (rd := rd) (by omega)
          refine ⟨fun z h => ?_, fun b h => (i2 b h).mono (by omega)⟩
          obtain ⟨j1, j2, j3, j4⟩ := i1 z h
          refine ⟨j1.mono (by omega), by omega, fun _ => ?_, j4⟩
          by_cases h1 : k + 1 ≤ Se
          · exact j3 h1
          · rw [advanceRun_eq, if_neg h1] at h
            cases h
            dsimp only; omega
    · exact ⟨fun z h => (by cases h), fun b h => by cases h⟩

/-- A complete pass of the loop, over a block that has the corrections already. -/
theorem advance_redo (hSe : Se ≤ 63) (hAl : Al < 16) {k n : Nat} {blk u : Blk} {rd : Rd} {z : Nat × Blk × Rd}
    (h : advanceRun Se Al k n blk rd = .ok z) (hu : Keeps (z.1 + 1) z.2.1 u) :
    advanceRun Se Al k n u rd = .ok (z.1, u, z.2.2) := by
  generalize hn : Se + 1 - k = m
  induction m generalizing k n blk rd with
  | zero =>
    rw [advanceRun_eq, if_neg (by omega)] at h ⊢
    cases h; rfl
  | succ m ih =>
    rw [advanceRun_eq, if_pos (by omega), chk] at h
    split at h
    · rename_i hc
      have hlen : u.length = blk.length := by
        have := (advance_keep hSe (Al := Al) (k := k) (n := n) (blk := blk) (rd := rd)).1 z (by
          rw [advanceRun_eq, if_pos (by omega), chk, if_pos hc]; exact h)
        rw [hu.len, this.1.len]
      rw [advanceRun_eq, if_pos (by omega), chk, if_pos (by rw [hlen]; exact hc)]
      split at h
      · rename_i hnz
        cases hb : ckReadBits rd 1 with
        | ok x =>
          rw [hb] at h
          simp only [onRes] at h ⊢
          obtain ⟨j1, j2, -, -⟩ := (advance_keep hSe).1 z h
          have e : u.getD (natOrder.getD k 0) 0 = (fix Al (natOrder.getD k 0) x.1 blk).getD (natOrder.getD k 0) 0 := by
            rw [hu.eq k (by omega) (by omega), j1.eq k (by omega) (by omega)]
          rw [if_pos (by rw [e]; exact fix_ne hAl hc.2.1 hnz), fix_redo hAl hc.2.1 e]
          exact ih h (by omega)
        | suspend => rw [hb] at h; cases h
        | fault => rw [hb] at h; cases h
      · rename_i hnz
        split at h
        · rename_i h0
          cases h
          have e : u.getD (natOrder.getD k 0) 0 = blk.getD (natOrder.getD k 0) 0 := hu.eq k (by dsimp only; omega) (by omega)
          rw [if_neg (by rw [e]; exact hnz), if_pos h0]
        · rename_i h0
          obtain ⟨j1, j2, -, -⟩ := (advance_keep hSe).1 z h
          have e : u.getD (natOrder.getD k 0) 0 = blk.getD (natOrder.getD k 0) 0 := by
            rw [hu.eq k (by omega) (by omega), j1.eq k (by omega) (by omega)]
          rw [if_neg (by rw [e]; exact hnz), if_neg h0]
          exact ih h (by omega)
    · cases h

theorem advance_sim (hSe : Se ≤ 63) (hAl : Al < 16) {k n : Nat} (blk : Blk) (h : RSim r fut rw) (ht : rw.tail ≠ none) :
    Agrees fut rw.tail (Sim3 fut) (fun a => a.2.2.tail) (advanceRun Se Al k n blk r) (fun b => advanceRun Se Al k n b rw)
      (advanceRun Se Al k n blk rw) := by
  generalize hn : Se + 1 - k = m
  induction m generalizing k n blk r rw with
  | zero =>
    have e : ∀ (b : Blk) (rd : Rd), advanceRun Se Al k n b rd = .ok (k, b, rd) := by
      intro b rd
      rw [advanceRun_eq, if_neg (by omega)]
    rw [e, e]
    exact ⟨_, rfl, ⟨rfl, rfl, h⟩, rfl⟩
  | succ m ih =>
    have e : ∀ (b : Blk) (rd : Rd), advanceRun Se Al k n b rd = _ := fun b rd => (advanceRun_eq k n b rd).trans (if_pos (by omega))
    rw [e blk r]
    unfold chk
    split
    · rename_i hc
      have e' : ∀ (b : Blk), b.length = blk.length → advanceRun Se Al k n b rw = _ :=
        fun b hb => (e b rw).trans (if_pos (by rw [hb]; exact hc))
      split
      · rename_i hnz
        rcases sim_bits h ht (show 1 ≤ 1 by omega) (by omega) with ⟨x, r1, rw1, e1, e2, e3, e4, -⟩ | ⟨e1, e2⟩
        · rw [e1]
          simp only [onRes]
          have := ih (k := k + 1) (n := n) (fix Al (natOrder.getD k 0) x blk) e3 (by rw [e4]; exact ht) (by omega)
          rw [e' blk rfl, if_pos hnz, e2]
          simp only [onRes]
          cases hx : advanceRun Se Al (k + 1) n (fix Al (natOrder.getD k 0) x blk) r1 with
          | ok z =>
            rw [hx] at this
            obtain ⟨a', k1, k2, k5⟩ := this
            exact ⟨a', k1, k2, by rw [k5, e4]⟩
          | suspend z =>
            rw [hx] at this
            obtain ⟨k1, k2⟩ := this
            dsimp only at k2
            have hK := (advance_keep hSe).2 z hx
            refine ⟨k1, ?_⟩
            dsimp only
            have ez := hK.eq k (by omega) (by omega)
            rw [e' z (by rw [hK.len, fix_len]), if_pos (by rw [ez]; exact fix_ne hAl hc.2.1 hnz), e2]
            simp only [onRes]
            rw [fix_redo hAl hc.2.1 ez, k2]
          | err => rw [hx] at this; exact this
          | fault => trivial
        · rw [e1]
          exact ⟨e2, rfl⟩
      · rename_i hnz
        split
        · rename_i h0
          rw [e' blk rfl, if_neg hnz, if_pos h0]
          exact ⟨_, rfl, ⟨rfl, rfl, h⟩, rfl⟩
        · rename_i h0
          have := ih (k := k + 1) (n := n - 1) blk h ht (by omega)
          rw [e' blk rfl, if_neg hnz, if_neg h0]
          cases hx : advanceRun Se Al (k + 1) (n - 1) blk r with
          | ok z => rw [hx] at this; exact this
          | suspend z =>
            rw [hx] at this
            obtain ⟨k1, k2⟩ := this
            dsimp only at k2
            have hK := (advance_keep hSe).2 z hx
            refine ⟨k1, ?_⟩
            dsimp only
            have ez := hK.eq k (by omega) (by omega)
            rw [e' z hK.len, if_neg (by rw [ez]; exact hnz), if_neg h0, k2]
          | err => rw [hx] at this; exact this
          | fault => trivial
    · trivial

theorem scan_keep (hSe : Se ≤ 63) {k : Nat} {blk b : Blk} {rd : Rd} (h : scanRun Se Al k blk rd = .suspend b) : Keeps k blk b := by
  generalize hn : Se + 1 - k = m
  induction m generalizing k blk rd with
  | zero => rw [scanRun_eq, if_neg (by omega)] at h; cases h
  | succ m ih =>
    rw [scanRun_eq, if_pos (by omega), chk] at h
    split at h
    · split at h
      · cases hb : ckReadBits rd 1 with
        | ok x =>
          rw [hb] at h
          exact (fix_keep (by omega) blk).trans ((ih h (by omega)).mono (by omega))
        | suspend => rw [hb] at h; cases h; exact .refl _ _
        | fault => rw [hb] at h; cases h
      · exact (ih h (by omega)).mono (by omega)
    · cases h

theorem scan_sim (hSe : Se ≤ 63) (hAl : Al < 16) {k : Nat} (blk : Blk) (h : RSim r fut rw) (ht : rw.tail ≠ none) :
    Agrees fut rw.tail (Sim2 fut) (fun a => a.2.tail) (scanRun Se Al k blk r) (fun b => scanRun Se Al k b rw)
      (scanRun Se Al k blk rw) := by
  generalize hn : Se + 1 - k = m
  induction m generalizing k blk r rw with
  | zero =>
    have e : ∀ (b : Blk) (rd : Rd), scanRun Se Al k b rd = .ok (b, rd) := by
      intro b rd
      rw [scanRun_eq, if_neg (by omega)]
    rw [e, e]
    exact ⟨_, rfl, ⟨rfl, h⟩, rfl⟩
  | succ m ih =>
    have e : ∀ (b : Blk) (rd : Rd), scanRun Se Al k b rd = _ := fun b rd => (scanRun_eq k b rd).trans (if_pos (by omega))
    rw [e blk r]
    unfold chk
    split
    · rename_i hc
      have e' : ∀ (b : Blk), b.length = blk.length → scanRun Se Al k b rw = _ :=
        fun b hb => (e b rw).trans (if_pos (by rw [hb]; exact hc))
      split
      · rename_i hnz
        rcases sim_bits h ht (show 1 ≤ 1 by omega) (by omega) with ⟨x, r1, rw1, e1, e2, e3, e4, -⟩ | ⟨e1, e2⟩
        · rw [e1]
          simp only [onRes]
          have := ih (k := k + 1) (fix Al (natOrder.getD k 0) x blk) e3 (by rw [e4]; exact ht) (by omega)
          rw [e' blk rfl, if_pos hnz, e2]
          simp only [onRes]
          cases hx : scanRun Se Al (k + 1) (fix Al (natOrder.getD k 0) x blk) r1 with
          | ok z =>
            rw [hx] at this
            obtain ⟨a', k1, k2, k5⟩ := this
            exact ⟨a', k1, k2, by rw [k5, e4]⟩
          | suspend z =>
            rw [hx] at this
            obtain ⟨k1, k2⟩ := this
            dsimp only at k2
            have hK := scan_keep hSe hx
            refine ⟨k1, ?_⟩
            dsimp only
            have ez := hK.eq k (by omega) (by omega)
            rw [e' z (by rw [hK.len, fix_len]), if_pos (by rw [ez]; exact fix_ne hAl hc.2.1 hnz), e2]
            simp only [onRes]
            rw [fix_redo hAl hc.2.1 ez, k2]
          | err => rw [hx] at this; exact this
          | fault => trivial
        · rw [e1]
          exact ⟨e2, rfl⟩
      · rename_i hnz
        have := ih (k := k + 1) blk h ht (by omega)
        rw [e' blk rfl, if_neg hnz]
        cases hx : scanRun Se Al (k + 1) blk r with
        | ok z => rw [hx] at this; exact this
        | suspend z =>
          rw [hx] at this
          obtain ⟨k1, k2⟩ := this
          dsimp only at k2
          have hK := scan_keep hSe hx
          refine ⟨k1, ?_⟩
          dsimp only
          have ez := hK.eq k (by omega) (by omega)
          rw [e' z hK.len, if_neg (by rw [ez]; exact hnz), k2]
        | err => rw [hx] at this; exact this
        | fault => trivial
    · trivial

/-- The sign of a newly nonzero coefficient (jdphuff.c:562-570). -/
def signRes (Al s : Nat) (rd : Rd) : Res (Int × Rd) :=
  if s ≠ 0 then
    (ckReadBits (if s ≠ 1 then { rd with warns := rd.warns + 1 } else rd) 1).bind
      (fun x => .ok ((if x.1 ≠ 0 then (2 : Int) ^ Al else -2 ^ Al), x.2))
  else .ok (0, rd)

theorem sim_warn {r rw : Rd} (h : RSim r fut rw) (n m : Nat) : RSim { r with warns := n } fut { rw with warns := m } :=
  ⟨⟨h.ok.left64, h.ok.bytes⟩, ⟨h.okw.left64, h.okw.bytes⟩, h.abs, h.tail⟩

theorem sim_sign {s : Nat} (h : RSim r fut rw) (ht : rw.tail ≠ none) :
    (∃ v r' rw', signRes Al s r = .ok (v, r') ∧ signRes Al s rw = .ok (v, rw') ∧ RSim r' fut rw' ∧ rw'.tail = rw.tail) ∨
    (signRes Al s r = .suspend ∧ fut ≠ []) := by
  unfold signRes
  by_cases h0 : s ≠ 0
  · rw [if_pos h0, if_pos h0]
    have h1 : RSim (if s ≠ 1 then { r with warns := r.warns + 1 } else r) fut (if s ≠ 1 then { rw with warns := rw.warns + 1 } else rw) := by
      split
      · exact sim_warn h _ _
      · exact h
    have ht1 : (if s ≠ 1 then { rw with warns := rw.warns + 1 } else rw).tail = rw.tail := by split <;> rfl
    rcases sim_bits h1 (by rw [ht1]; exact ht) (show 1 ≤ 1 by omega) (by omega) with ⟨x, r', rw', e1, e2, e3, e4, -⟩ | ⟨e1, e2⟩
    · left
      rw [e1, e2]
      exact ⟨_, r', rw', rfl, rfl, e3, by rw [e4, ht1]⟩
    · right
      rw [e1]; exact ⟨rfl, e2⟩
  · rw [if_neg h0, if_neg h0]
    exact .inl ⟨0, r, rw, rfl, rfl, h, rfl⟩

/-- The rest of the loop body, after the Huffman symbol and the sign. -/
def afterSign (t : CkTbl) (Se Al : Nat) (k : Nat) (blk : Blk) (nz : List Nat) (y s : Nat) (v : Int × Rd) :
    Run (Blk × List Nat) (Nat × Blk × List Nat × Nat × Rd) :=
  match advanceRun Se Al k y blk v.2 with
  | .ok z =>
    chk (s ≠ 0 → z.1 < natOrder.length ∧ natOrder.getD z.1 0 < z.2.1.length ∧ nz.length < 64) <|
      refineRun t Se Al (z.1 + 1) (if s ≠ 0 then z.2.1.set (natOrder.getD z.1 0) (toCoef v.1) else z.2.1)
        (if s ≠ 0 then nz ++ [natOrder.getD z.1 0] else nz) z.2.2
  | .suspend b => .suspend (b, nz)
  | .err => .err
  | .fault => .fault

theorem refineRun_eq (k : Nat) (blk : Blk) (nz : List Nat) (rd : Rd) : refineRun t Se Al k blk nz rd =
    if k ≤ Se then
      onRes (blk, nz) (ckHuff t rd) fun y =>
        if y.1 &&& 15 = 0 ∧ y.1 >>> 4 ≠ 15 then onRes (blk, nz) (eobRun y.2 (y.1 >>> 4)) fun x => .ok (k, blk, nz, x.1, x.2)
        else onRes (blk, nz) (signRes Al (y.1 &&& 15) y.2) (afterSign t Se Al k blk nz (y.1 >>> 4) (y.1 &&& 15))
    else .ok (k, blk, nz, 0, rd) := by
  rw [refineRun]
  split
  · congr 1
    funext y
    dsimp only
    split
    · rfl
    · unfold signRes
      congr 1
      funext v
      unfold afterSign
      split <;> rename_i h <;> rw [h]
  · rfl

/-- A complete run up to an EOB, over a block where it was undone. -/
theorem refine_redo (hSe : Se ≤ 63) (hAl : Al < 16) {k : Nat} {blk : Blk} {nz : List Nat} {rd : Rd}
    {z : Nat × Blk × List Nat × Nat × Rd} (h : refineRun t Se Al k blk nz rd = .ok z) (he : z.2.2.2.1 > 0) :
    ∃ add, z.2.2.1 = nz ++ add ∧ k ≤ z.1 ∧ z.1 ≤ Se ∧ ∀ b', Keeps z.1 z.2.1 b' →
      Keeps k blk (undo b' add) ∧ refineRun t Se Al k (undo b' add) nz rd = .ok (z.1, b', z.2.2.1, z.2.2.2.1, z.2.2.2.2) := by
  generalize hn : Se + 1 - k = n
  induction n using Nat.strongRecOn generalizing k blk nz rd with
  | _ n ih =>
    rw [refineRun_eq] at h
    split at h
    · rename_i hk
      cases hh : ckHuff t rd with
      | fault => rw [hh] at h; cases h
      | suspend => rw [hh] at h; cases h
      | ok y =>
        rw [hh] at h
        simp only [onRes] at h
        split at h
        · rename_i hc
          cases hb : eobRun y.2 (y.1 >>> 4) with
          | fault => rw [hb] at h; cases h
          | suspend => rw [hb] at h; cases h
          | ok x =>
            rw [hb] at h
            simp only [onRes] at h
            cases h
            refine ⟨[], by simp, Nat.le_refl _, hk, fun b' hb' => ⟨hb', ?_⟩⟩
            rw [refineRun_eq, if_pos hk, hh]
            simp only [onRes]
            rw [if_pos hc, hb]
            rfl
        · rename_i hc
          cases hb : signRes Al (y.1 &&& 15) y.2 with
          | fault => rw [hb] at h; cases h
          | suspend => rw [hb] at h; cases h
          | ok v =>
            rw [hb] at h
            simp only [onRes] at h
            have next : ∀ b : Blk, refineRun t Se Al k b nz rd = afterSign t Se Al k b nz (y.1 >>> 4) (y.1 &&& 15) v := by
              intro b
              rw [refineRun_eq, if_pos hk, hh]
              simp only [onRes]
              rw [if_neg hc, hb]
            simp only [next]
            unfold afterSign at h
            split at h
            · rename_i a ha
              obtain ⟨hchk, h⟩ := chk_ok h
              obtain ⟨q1, q2, q3, q4⟩ := (advance_keep hSe).1 a ha
              obtain ⟨add2, i1, i2, i3, i4⟩ := ih (Se + 1 - (a.1 + 1)) (by omega) h rfl
              by_cases hs : y.1 &&& 15 ≠ 0
              · simp only [if_pos hs] at h i1 i2 i3 i4
                obtain ⟨c1, c2, c3⟩ := hchk hs
                refine ⟨natOrder.getD a.1 0 :: add2, by rw [i1]; simp, by omega, i3, fun b' hb' => ?_⟩
                obtain ⟨j1, j2⟩ := i4 b' hb'
                show Keeps k blk ((undo b' add2).set _ 0) ∧ afterSign t Se Al k ((undo b' add2).set _ 0) nz _ _ v = _
                have hu : Keeps (a.1 + 1) a.2.1 ((undo b' add2).set (natOrder.getD a.1 0) 0) := by
                  refine ⟨by rw [List.length_set, j1.len, List.length_set], fun j hj h64 => ?_⟩
                  by_cases hja : j = a.1
                  · subst hja
                    rw [getD_set_self' (by rw [j1.len]; simpa using c2), q4 (by omega)]
                  · rw [getD_set_ne' (natOrder_ne (by omega) h64 (by omega)), j1.eq j hj h64, getD_set_ne' (natOrder_ne (by omega) h64 (by omega))]
                have hself : (undo b' add2).getD (natOrder.getD a.1 0) 0 = toCoef v.1 := by
                  rw [j1.eq a.1 (by omega) (by omega), getD_set_self' c2]
                refine ⟨q1.trans (hu.mono (by omega)), ?_⟩
                unfold afterSign
                rw [advance_redo hSe hAl ha hu]
                dsimp only
                rw [chk, if_pos (fun _ => ⟨c1, by rw [hu.len]; exact c2, c3⟩), if_pos hs, if_pos hs, List.set_set, set_same hself, j2]
              · simp only [if_neg hs] at h i1 i2 i3 i4
                refine ⟨add2, i1, by omega, i3, fun b' hb' => ?_⟩
                obtain ⟨j1, j2⟩ := i4 b' hb'
                refine ⟨q1.trans (j1.mono (by omega)), ?_⟩
                unfold afterSign
                rw [advance_redo hSe hAl ha j1]
                dsimp only
                rw [chk, if_pos (fun h => absurd h hs), if_neg hs, if_neg hs, j2]
            · cases h
            · cases h
            · cases h
    · cases h
      exact absurd he (by simp)

theorem refine_sim (hd : t.Ok 255) (hSe : Se ≤ 63) (hAl : Al < 16) {k : Nat} (blk : Blk) (nz : List Nat) (h : RSim r fut rw) (ht : rw.tail ≠ none) :
    match refineRun t Se Al k blk nz r with
    | .ok z => ∃ rw', refineRun t Se Al k blk nz rw = .ok (z.1, z.2.1, z.2.2.1, z.2.2.2.1, rw') ∧ RSim z.2.2.2.2 fut rw' ∧ rw'.tail = rw.tail
    | .suspend b => fut ≠ [] ∧ ∃ add, b.2 = nz ++ add ∧ Keeps k blk (undo b.1 add) ∧
        refineRun t Se Al k (undo b.1 add) nz rw = refineRun t Se Al k blk nz rw
    | .err => refineRun t Se Al k blk nz rw = .err
    | .fault => True := by
  generalize hn : Se + 1 - k = n
  induction n using Nat.strongRecOn generalizing k blk nz r rw with
  | _ n ih =>
    by_cases hk : k ≤ Se
    · rw [refineRun_eq, if_pos hk]
      rcases sim_huff hd h ht with ⟨y, r1, rw1, e1, e2, e3, e4, e5⟩ | ⟨e1, e2⟩
      · have hrun : y >>> 4 ≤ 15 := by rw [Nat.shiftRight_eq_div_pow]; omega
        have ht1 : rw1.tail ≠ none := by rw [e4]; exact ht
        rw [e1]
        simp only [onRes]
        by_cases hc : y &&& 15 = 0 ∧ y >>> 4 ≠ 15
        · rw [if_pos hc]
          rcases sim_eob e3 ht1 (show y >>> 4 < 32 by omega) with ⟨x, r2, rw2, g1, g2, g3, g4⟩ | ⟨g1, g2⟩
          · rw [g1]
            refine ⟨rw2, ?_, g3, by rw [g4, e4]⟩
            rw [refineRun_eq, if_pos hk, e2]
            simp only [onRes]
            rw [if_pos hc, g2]
          · rw [g1]
            exact ⟨g2, [], by simp, .refl _ _, rfl⟩
        · rw [if_neg hc]
          rcases sim_sign (Al := Al) (s := y &&& 15) e3 ht1 with ⟨v, r2, rw2, g1, g2, g3, g4⟩ | ⟨g1, g2⟩
          · rw [g1]
            simp only [onRes]
            have next : ∀ b : Blk, refineRun t Se Al k b nz rw = afterSign t Se Al k b nz (y >>> 4) (y &&& 15) (v, rw2) := by
              intro b
              rw [refineRun_eq, if_pos hk, e2]
              simp only [onRes]
              rw [if_neg hc, g2]
            simp only [next]
            have hadv := advance_sim (Se := Se) (Al := Al) (k := k) (n := y >>> 4) hSe hAl blk g3 (by rw [g4]; exact ht1)
            cases ha : advanceRun Se Al k (y >>> 4) blk r2 with
            | ok a =>
              rw [ha] at hadv
              obtain ⟨a', m1, ⟨m2, m3, m4⟩, m5⟩ := hadv
              obtain ⟨a1, ab, ar⟩ := a
              obtain ⟨a1', ab', ar'⟩ := a'
              dsimp only at m2 m3 m4 m5
              subst m2 m3
              obtain ⟨q1, q2, q3, q4⟩ := (advance_keep hSe).1 _ ha
              dsimp only at q1 q2 q3 q4
              have e0 : afterSign t Se Al k blk nz (y >>> 4) (y &&& 15) (v, rw2) =
                  chk (y &&& 15 ≠ 0 → a1 < natOrder.length ∧ natOrder.getD a1 0 < ab.length ∧ nz.length < 64)
                    (refineRun t Se Al (a1 + 1) (if y &&& 15 ≠ 0 then ab.set (natOrder.getD a1 0) (toCoef v) else ab)
                      (if y &&& 15 ≠ 0 then nz ++ [natOrder.getD a1 0] else nz) ar') := by
                unfold afterSign; rw [m1]
              have e0' : afterSign t Se Al k blk nz (y >>> 4) (y &&& 15) (v, r2) =
                  chk (y &&& 15 ≠ 0 → a1 < natOrder.length ∧ natOrder.getD a1 0 < ab.length ∧ nz.length < 64)
                    (refineRun t Se Al (a1 + 1) (if y &&& 15 ≠ 0 then ab.set (natOrder.getD a1 0) (toCoef v) else ab)
                      (if y &&& 15 ≠ 0 then nz ++ [natOrder.getD a1 0] else nz) ar) := by
                unfold afterSign; rw [ha]
              rw [e0, e0']
              by_cases hchk : (y &&& 15 ≠ 0 → a1 < natOrder.length ∧ natOrder.getD a1 0 < ab.length ∧ nz.length < 64)
              · rw [chk, chk, if_pos hchk, if_pos hchk]
                have := ih (Se + 1 - (a1 + 1)) (by omega) (k := a1 + 1) (if y &&& 15 ≠ 0 then ab.set (natOrder.getD a1 0) (toCoef v) else ab)
                  (if y &&& 15 ≠ 0 then nz ++ [natOrder.getD a1 0] else nz) m4 (by rw [m5, g4]; exact ht1) rfl
                cases hx : refineRun t Se Al (a1 + 1) (if y &&& 15 ≠ 0 then ab.set (natOrder.getD a1 0) (toCoef v) else ab)
                  (if y &&& 15 ≠ 0 then nz ++ [natOrder.getD a1 0] else nz) ar with
                | ok z =>
                  rw [hx] at this
                  obtain ⟨rw', k1, k2, k3⟩ := this
                  exact ⟨rw', k1, k2, by rw [k3, m5, g4, e4]⟩
                | suspend b =>
                  rw [hx] at this
                  obtain ⟨k1, add2, k2, k3, k4⟩ := this
                  have hend : a1 + 1 ≤ Se := by
                    by_contra hne
                    rw [refineRun_eq, if_neg hne] at hx; cases hx
                  refine ⟨k1, ?_⟩
                  by_cases hs : y &&& 15 ≠ 0
                  · simp only [if_pos hs] at hx k2 k3 k4 ⊢
                    obtain ⟨c1, c2, c3⟩ := hchk hs
                    refine ⟨natOrder.getD a1 0 :: add2, by rw [k2]; simp, ?_⟩
                    show Keeps k blk ((undo b.1 add2).set _ 0) ∧ afterSign t Se Al k ((undo b.1 add2).set _ 0) nz _ _ (v, rw2) = _
                    have hu : Keeps (a1 + 1) ab ((undo b.1 add2).set (natOrder.getD a1 0) 0) := by
                      refine ⟨by rw [List.length_set, k3.len, List.length_set], fun j hj h64 => ?_⟩
                      by_cases hja : j = a1
                      · subst hja
                        rw [getD_set_self' (by rw [k3.len]; simpa using c2), q4 (by omega)]
                      · rw [getD_set_ne' (natOrder_ne (by omega) h64 (by omega)), k3.eq j hj h64, getD_set_ne' (natOrder_ne (by omega) h64 (by omega))]
                    have hself : (undo b.1 add2).getD (natOrder.getD a1 0) 0 = toCoef v := by
                      rw [k3.eq a1 (by omega) (by omega), getD_set_self' c2]
                    refine ⟨q1.trans (hu.mono (by omega)), ?_⟩
                    unfold afterSign
                    rw [advance_redo hSe hAl m1 hu]
                    dsimp only
                    rw [chk, if_pos (fun _ => ⟨c1, by rw [hu.len]; exact c2, c3⟩), if_pos hs, if_pos hs, List.set_set, set_same hself, k4]
                  · simp only [if_neg hs] at hx k2 k3 k4 ⊢
                    refine ⟨add2, k2, q1.trans (k3.mono (by omega)), ?_⟩
                    unfold afterSign
                    rw [advance_redo hSe hAl m1 k3]
                    dsimp only
                    rw [chk, if_pos (fun h => absurd h hs), if_neg hs, if_neg hs, k4]
                | err => rw [hx] at this; exact this
                | fault => trivial
              · rw [chk, if_neg hchk]; trivial
            | suspend b =>
              rw [ha] at hadv
              obtain ⟨m1, m2⟩ := hadv
              dsimp only at m2
              have e0' : afterSign t Se Al k blk nz (y >>> 4) (y &&& 15) (v, r2) = .suspend (b, nz) := by
                unfold afterSign; rw [ha]
              rw [e0']
              refine ⟨m1, [], by simp, (advance_keep hSe).2 b ha, ?_⟩
              show afterSign t Se Al k b nz _ _ _ = _
              unfold afterSign
              rw [m2]
            | err =>
              rw [ha] at hadv
              have e0' : afterSign t Se Al k blk nz (y >>> 4) (y &&& 15) (v, r2) = .err := by
                unfold afterSign; rw [ha]
              rw [e0']
              show afterSign t Se Al k blk nz _ _ _ = _
              have : advanceRun Se Al k (y >>> 4) blk rw2 = .err := hadv
              unfold afterSign
              rw [this]
            | fault =>
              have e0' : afterSign t Se Al k blk nz (y >>> 4) (y &&& 15) (v, r2) = .fault := by
                unfold afterSign; rw [ha]
              rw [e0']; trivial
          · rw [g1]
            exact ⟨g2, [], by simp, .refl _ _, rfl⟩
      · rw [e1]
        exact ⟨e2, [], by simp, .refl _ _, rfl⟩
    · rw [refineRun_eq, if_neg hk]
      exact ⟨rw, by rw [refineRun_eq, if_neg hk], h, rfl⟩

theorem acRefine_sim (hd : t.Ok 255) (hSe : Se ≤ 63) (hAl : Al < 16) {Ss eob : Nat} (blk : Blk) (h : RSim r fut rw) (ht : rw.tail ≠ none) :
    Agrees fut rw.tail (Sim3 fut) (fun a => a.2.2.tail) (acRefineRun t Ss Se Al eob blk r)
      (fun b => acRefineRun t Ss Se Al eob b rw) (acRefineRun t Ss Se Al eob blk rw) := by
  by_cases he : eob = 0
  · subst he
    have hsim := refine_sim (Se := Se) (Al := Al) (k := Ss) hd hSe hAl blk [] h ht
    have next : ∀ (b : Blk) (rd : Rd), acRefineRun t Ss Se Al 0 b rd =
        match refineRun t Se Al Ss b [] rd with
        | .ok (k, blk, nz, eobrun, rd) =>
          if eobrun > 0 then
            match scanRun Se Al k blk rd with
            | .ok x => .ok (x.1, eobrun - 1, x.2)
            | .suspend b => .suspend (undo b nz)
            | .err => .err
            | .fault => .fault
          else .ok (blk, eobrun, rd)
        | .suspend b => .suspend (undo b.1 b.2)
        | .err => .err
        | .fault => .fault := fun b rd => by
      unfold acRefineRun; rw [if_pos rfl]; cases refineRun t Se Al Ss b [] rd <;> rfl
    cases hx : refineRun t Se Al Ss blk [] r with
    | ok z =>
      rw [hx] at hsim
      obtain ⟨rw1, e1, e2, e3⟩ := hsim
      obtain ⟨k, b1, nz, eob, r1⟩ := z
      dsimp only at e1 e2 e3
      rw [next blk r, next blk rw, hx, e1]
      dsimp only
      by_cases h0 : eob > 0
      · rw [if_pos h0, if_pos h0]
        have := scan_sim (Se := Se) (Al := Al) (k := k) hSe hAl b1 e2 (by rw [e3]; exact ht)
        cases hs : scanRun Se Al k b1 r1 with
        | ok x =>
          rw [hs] at this
          obtain ⟨a', k1, ⟨k2, k3⟩, k4⟩ := this
          rw [k1]
          exact ⟨_, rfl, ⟨k2, rfl, k3⟩, by rw [← e3]; exact k4⟩
        | suspend b =>
          rw [hs] at this
          obtain ⟨k1, k2⟩ := this
          dsimp only at k2
          refine ⟨k1, ?_⟩
          dsimp only
          obtain ⟨add, i1, i2, i3, i4⟩ := refine_redo hSe hAl e1 h0
          simp only [List.nil_append] at i1
          subst i1
          obtain ⟨j1, j2⟩ := i4 b (scan_keep hSe hs)
          rw [next (undo b nz) rw, j2]
          dsimp only
          rw [if_pos h0, k2]
        | err => rw [hs] at this; show (match scanRun Se Al k b1 rw1 with | .ok x => _ | .suspend b => _ | .err => _ | .fault => _) = _; rw [show scanRun Se Al k b1 rw1 = .err from this]
        | fault => trivial
      · rw [if_neg h0, if_neg h0]
        exact ⟨_, rfl, ⟨rfl, rfl, e2⟩, e3⟩
    | suspend b =>
      rw [hx] at hsim
      obtain ⟨k1, add, k2, k3, k4⟩ := hsim
      rw [next blk r, hx]
      simp only [List.nil_append] at k2
      dsimp only
      rw [k2]
      refine ⟨k1, ?_⟩
      dsimp only
      rw [next, next, k4]
    | err => rw [hx] at hsim; rw [next blk r, hx]; show acRefineRun t Ss Se Al 0 blk rw = .err; rw [next]; dsimp only at hsim; rw [hsim]
    | fault => rw [next blk r, hx]; trivial
  · have next : ∀ (b : Blk) (rd : Rd), acRefineRun t Ss Se Al eob b rd =
          match scanRun Se Al Ss b rd with
            | .ok x => .ok (x.1, eob - 1, x.2)
            | .suspend b => .suspend b
            | .err => .err
            | .fault => .fault := by
      intro b rd
      unfold acRefineRun
      rw [if_neg he]
      dsimp only
      rw [if_pos (by omega)]
      rfl
    have := scan_sim (Se := Se) (Al := Al) (k := Ss) hSe hAl blk h ht
    rw [next blk r, next blk rw]
    cases hs : scanRun Se Al Ss blk r with
    | ok x =>
      rw [hs] at this
      obtain ⟨a', k1, ⟨k2, k3⟩, k4⟩ := this
      rw [k1]
      exact ⟨_, rfl, ⟨k2, rfl, k3⟩, k4⟩
    | suspend b =>
      rw [hs] at this
      obtain ⟨k1, k2⟩ := this
      dsimp only at k2
      refine ⟨k1, ?_⟩
      dsimp only
      rw [next, k2]
    | err =>
      rw [hs] at this
      have e : scanRun Se Al Ss blk rw = .err := this
      rw [e]; rfl
    | fault => trivial

end Verif.Prog
