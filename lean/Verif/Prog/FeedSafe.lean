import Verif.Prog.FeedRefine
/-
C54: the checked MCU routines never fault, give what the routines of Prog/Model.lean give, and what they may write.
-/
namespace Verif.Prog
open Verif Verif.Huff
open Verif.Geom (Pos Blk storeMcu)
open Verif.Arith (Touch)

variable {r rd : Rd} {t : CkTbl} {Se Al : Nat}

/-- `x` is the outcome `y` of the unchecked model, without fault; `P` holds of a result, `Q` of what a suspension leaves,
and an error exit is possible only if `E`. -/
def Meets {α β : Type} (x : Run β α) (y : Option α) (P : α → Prop) (Q : β → Prop) (E : Prop) : Prop :=
  match x with
  | .ok a => y = some a ∧ P a
  | .suspend b => y = none ∧ Q b
  | .err => y = none ∧ E
  | .fault => False

/-- A reader operation and its unchecked version. -/
def Plain {α : Type} (x : Res (α × Rd)) (y : Option (α × Rd)) (P : α → Prop) : Prop :=
  (∃ a r', x = .ok (a, r') ∧ y = some (a, r') ∧ r'.Ok ∧ P a) ∨ (x = .suspend ∧ y = none)

theorem plain_bits {n : Nat} (h : rd.Ok) (h1 : 1 ≤ n) (hn : n < 32) : Plain (ckReadBits rd n) (readBits rd n) (fun x => x < 2 ^ n) := by
  rw [ckReadBits_eq h h1 hn]
  cases hr : readBits rd n with
  | none => exact .inr ⟨rfl, rfl⟩
  | some x =>
    obtain ⟨x, r'⟩ := x
    obtain ⟨a1, -, a3⟩ := readBits_abs h (by omega) hr
    have := lread_lt rd.abs n
    rw [a3] at this
    exact .inl ⟨x, r', rfl, rfl, a1, this⟩

theorem plain_huff {m : Nat} (hd : t.Ok m) (h : rd.Ok) : Plain (ckHuff t rd) (huffDecode t.d rd) (fun x => x ≤ m) := by
  rw [ckHuff_eq hd h]
  cases hr : huffDecode t.d rd with
  | none => exact .inr ⟨rfl, rfl⟩
  | some x =>
    obtain ⟨x, r'⟩ := x
    obtain ⟨a1, -, a3⟩ := huffDecode_abs hd.tok.ok.look h hr
    have := hd.tok.ok.sym rd.abs
    rw [a3] at this
    exact .inl ⟨x, r', rfl, rfl, a1, this⟩

theorem plain_eob {n : Nat} (h : rd.Ok) (hn : n < 15) : Plain (eobRun rd n) (readEob rd n) (fun x => 1 ≤ x ∧ x < 2 ^ 15) := by
  unfold eobRun readEob
  rw [need, if_pos (by omega)]
  by_cases h0 : n ≠ 0
  · rw [if_pos h0, if_pos h0]
    rcases plain_bits h (show 1 ≤ n by omega) (by omega) with ⟨x, r', e1, e2, e3, e4⟩ | ⟨e1, e2⟩
    · rw [e1, e2]
      refine .inl ⟨_, r', rfl, rfl, e3, ?_⟩
      have h2 : 2 ^ (n + 1) ≤ 2 ^ 15 := Nat.pow_le_pow_right (by omega) (by omega)
      have h3 : 1 ≤ 2 ^ n := Nat.one_le_two_pow
      rw [Nat.pow_succ] at h2
      dsimp only
      omega
    · rw [e1, e2]; exact .inr ⟨rfl, rfl⟩
  · rw [if_neg h0, if_neg h0]
    exact .inl ⟨1, rd, rfl, rfl, h, by omega, by decide⟩

/-! ### DC scans -/

theorem forall₂_refl_touch {a b : Nat} {l : List Blk} (h : ∀ x ∈ l, CoefBlock x) : List.Forall₂ (Touch a b) l l := by
  induction l with
  | nil => exact .nil
  | cons x l ih => exact .cons (.refl (h x (by simp))) (ih fun y hy => h y (by simp [hy]))

theorem dcFirst_meets {bs : List CkD} (hb : ∀ b ∈ bs, b.dc.Ok 15) (hAl : Al < 32) {blks : List Blk} (hl : blks.length = bs.length)
    (hc : ∀ b ∈ blks, CoefBlock b) (last : Nat → Int) (h : rd.Ok) :
    Meets (dcFirstRun Al bs blks last rd) (dcFirstDec Al (bs.map CkD.plain) blks last rd)
      (fun a => List.Forall₂ (Touch 0 0) blks a.1 ∧ a.2.2.Ok) (fun b => List.Forall₂ (Touch 0 0) blks b) True := by
  induction bs generalizing blks last rd with
  | nil =>
    have : blks = [] := by simpa using hl
    subst this
    simp only [dcFirstRun, List.map_nil, dcFirstDec]
    exact ⟨rfl, .nil, h⟩
  | cons b bs ih =>
    cases blks with
    | nil => simp at hl
    | cons blk blks =>
      have hrefl := forall₂_refl_touch (a := 0) (b := 0) hc
      simp only [dcFirstRun, List.map_cons, dcFirstDec]
      rcases plain_huff (hb b (by simp)) h with ⟨s, r1, e1, e2, e3, e4⟩ | ⟨e1, e2⟩
      · rw [e1, show (CkD.plain b).dc = b.dc.d from rfl, e2]
        simp only [onRes]
        have key : Plain (if s ≠ 0 then (ckReadBits r1 s).bind (fun x => Res.ok (extend2 x.1 s, x.2)) else Res.ok (0, r1))
            (if s ≠ 0 then (readBits r1 s).map (fun xr => (extend2 xr.1 s, xr.2)) else some (0, r1)) (fun _ => True) := by
          by_cases h0 : s ≠ 0
          · rw [if_pos h0, if_pos h0]
            rcases plain_bits e3 (show 1 ≤ s by omega) (by omega) with ⟨x, r2, g1, g2, g3, -⟩ | ⟨g1, g2⟩
            · rw [g1, g2]; exact .inl ⟨_, r2, rfl, rfl, g3, trivial⟩
            · rw [g1, g2]; exact .inr ⟨rfl, rfl⟩
          · rw [if_neg h0, if_neg h0]; exact .inl ⟨_, r1, rfl, rfl, e3, trivial⟩
        rcases key with ⟨v, r2, g1, g2, g3, -⟩ | ⟨g1, g2⟩
        · rw [g1, g2]
          simp only [onRes]
          rw [show (CkD.plain b).ci = b.ci from rfl]
          split
          · exact ⟨rfl, trivial⟩
          · have hblk := hc blk (by simp)
            rw [chk, if_pos ⟨by rw [hblk.1]; decide, hAl⟩]
            have := ih (fun b hb' => hb b (by simp [hb'])) (by simpa using hl) (fun b hb' => hc b (by simp [hb'])) (upd last b.ci (v + last b.ci)) g3
            cases hx : dcFirstRun Al bs blks (upd last b.ci (v + last b.ci)) r2 with
            | ok z =>
              rw [hx] at this
              obtain ⟨k1, k2, k3⟩ := this
              rw [k1]
              exact ⟨rfl, .cons (Touch.dc hblk _) k2, k3⟩
            | suspend z =>
              rw [hx] at this
              obtain ⟨k1, k2⟩ := this
              rw [k1]
              exact ⟨rfl, .cons (Touch.dc hblk _) k2⟩
            | err => rw [hx] at this; rw [this.1]; exact ⟨rfl, trivial⟩
            | fault => rw [hx] at this; exact this.elim
        · rw [g1, g2]; exact ⟨rfl, hrefl⟩
      · rw [e1, show (CkD.plain b).dc = b.dc.d from rfl, e2]; exact ⟨rfl, hrefl⟩

theorem dcRefine_meets (hAl : Al < 32) {blks : List Blk} (hc : ∀ b ∈ blks, CoefBlock b) (h : rd.Ok) :
    Meets (dcRefineRun Al blks rd) (dcRefineDec Al blks rd)
      (fun a => List.Forall₂ (Touch 0 0) blks a.1 ∧ a.2.Ok) (fun b => List.Forall₂ (Touch 0 0) blks b) False := by
  induction blks generalizing rd with
  | nil => exact ⟨rfl, .nil, h⟩
  | cons blk blks ih =>
    have hrefl := forall₂_refl_touch (a := 0) (b := 0) hc
    simp only [dcRefineRun, dcRefineDec]
    rcases plain_bits h (show 1 ≤ 1 by omega) (by omega) with ⟨b, r1, e1, e2, e3, -⟩ | ⟨e1, e2⟩
    · rw [e1, e2]
      simp only [onRes]
      have hblk := hc blk (by simp)
      rw [chk, if_pos ⟨by rw [hblk.1]; decide, hAl⟩]
      have := ih (fun b hb' => hc b (by simp [hb'])) e3
      have ht : Touch 0 0 blk (if b ≠ 0 then blk.set 0 (orBit Al (blk.getD 0 0)) else blk) := by
        split
        · exact Touch.dc hblk _
        · exact .refl hblk
      cases hx : dcRefineRun Al blks r1 with
      | ok z =>
        rw [hx] at this
        obtain ⟨k1, k2, k3⟩ := this
        rw [k1]
        exact ⟨rfl, .cons ht k2, k3⟩
      | suspend z =>
        rw [hx] at this
        obtain ⟨k1, k2⟩ := this
        rw [k1]
        exact ⟨rfl, .cons ht k2⟩
      | err => rw [hx] at this; exact this.2.elim
      | fault => rw [hx] at this; exact this.elim
    · rw [e1, e2]; exact ⟨rfl, hrefl⟩

/-! ### AC scans -/

theorem natOrder_any {i : Nat} (h : i < 80) : natOrder.getD i 0 < 64 ∧ (64 ≤ i → natOrder.getD i 0 = natOrder.getD 63 0) := by
  have : ∀ i : Nat, i < 80 → natOrder.getD i 0 < 64 ∧ (64 ≤ i → natOrder.getD i 0 = natOrder.getD 63 0) := by decide +kernel
  exact this i h

/-- Writing at any scan position that jpeg_natural_order has. -/
theorem touch_any {a b k : Nat} {old blk : Blk} (h : Touch a b old blk) (h1 : a ≤ k) (h2 : k ≤ b) (ha : a < 64) (hb : b < 80) (x : Int) :
    Touch a b old (blk.set (natOrder.getD k 0) (toCoef x)) := by
  by_cases hk : k < 64
  · exact h.set h1 h2 hk x
  · rw [(natOrder_any (show k < 80 by omega)).2 (by omega)]
    exact h.set (by omega) (by omega) (by omega) x

theorem acFirst_meets (hd : t.Ok 255) (hSe : Se ≤ 63) (hAl : Al < 32) {Ss : Nat} (hSs : Ss ≤ Se) {k : Nat} (hk : Ss ≤ k) {old blk : Blk}
    (hb : Touch Ss (Se + 15) old blk) (h : rd.Ok) :
    Meets (acFirstRun t Se Al k blk rd) (acFirstDec t.d Se Al k blk rd)
      (fun a => Touch Ss (Se + 15) old a.1 ∧ a.2.2.Ok ∧ a.2.1 < 32767) (fun b => Touch Ss (Se + 15) old b) False := by
  generalize hn : Se + 1 - k = n
  induction n using Nat.strongRecOn generalizing k blk rd with
  | _ n ih =>
    rw [acFirstRun, acFirstDec]
    by_cases hkS : k ≤ Se
    · rw [if_pos hkS, if_pos hkS]
      rcases plain_huff hd h with ⟨y, r1, e1, e2, e3, e4⟩ | ⟨e1, e2⟩
      · have hrun : y >>> 4 ≤ 15 := by rw [Nat.shiftRight_eq_div_pow]; omega
        have h15 : y &&& 15 ≤ 15 := Nat.and_le_right
        rw [e1, e2]
        simp only [onRes]
        by_cases hs : y &&& 15 ≠ 0
        · rw [if_pos hs, if_pos hs]
          rcases plain_bits e3 (show 1 ≤ y &&& 15 by omega) (by omega) with ⟨x, r2, g1, g2, g3, -⟩ | ⟨g1, g2⟩
          · rw [g1, g2]
            dsimp only
            rw [chk, if_pos ⟨by rw [show natOrder.length = 80 by decide]; omega, by rw [hb.coef.1]; exact (natOrder_any (by omega)).1, hAl⟩]
            exact ih (Se + 1 - (k + y >>> 4 + 1)) (by omega) (by omega) (touch_any hb (by omega) (by omega) (by omega) (by omega) _) g3 rfl
          · rw [g1, g2]; exact ⟨rfl, hb⟩
        · rw [if_neg hs, if_neg hs]
          by_cases h15' : y >>> 4 = 15
          · rw [if_pos h15', if_pos h15']
            exact ih (Se + 1 - (k + 15 + 1)) (by omega) (by omega) hb e3 rfl
          · rw [if_neg h15', if_neg h15']
            rcases plain_eob e3 (show y >>> 4 < 15 by omega) with ⟨x, r2, g1, g2, g3, g4⟩ | ⟨g1, g2⟩
            · rw [g1, g2]; exact ⟨rfl, hb, g3, by dsimp only; omega⟩
            · rw [g1, g2]; exact ⟨rfl, hb⟩
      · rw [e1, e2]; exact ⟨rfl, hb⟩
    · rw [if_neg hkS, if_neg hkS]
      exact ⟨rfl, hb, h, by dsimp only; omega⟩

theorem correct_coef {c : Int} (h1 : -32768 ≤ c) (h2 : c ≤ 32767) : correct Al c = toCoef (correct Al c) := by
  unfold correct
  split
  · split <;> (unfold toCoef; omega)
  · unfold toCoef; omega

theorem coef_getD {b : Blk} (h : CoefBlock b) (p : Nat) : -32768 ≤ b.getD p 0 ∧ b.getD p 0 ≤ 32767 := by
  rw [List.getD_eq_getElem?_getD]
  cases e : b[p]? with
  | none => simp
  | some x => exact h.2 x (List.mem_of_getElem? e)

theorem touch_fix {a b k x : Nat} {old blk : Blk} (h : Touch a b old blk) (h1 : a ≤ k) (h2 : k ≤ b) (hk : k < 64) :
    Touch a b old (fix Al (natOrder.getD k 0) x blk) := by
  unfold fix
  split
  · obtain ⟨c1, c2⟩ := coef_getD h.coef (natOrder.getD k 0)
    rw [correct_coef c1 c2]
    exact h.set h1 h2 hk _
  · exact h

theorem advance_eq (k n : Nat) (blk : Blk) (rd : Rd) : advance Se Al k n blk rd =
    if k ≤ Se then
      if blk.getD (natOrder.getD k 0) 0 ≠ 0 then
        match readBits rd 1 with
        | none => none
        | some (b, rd) => advance Se Al (k + 1) n (fix Al (natOrder.getD k 0) b blk) rd
      else if n = 0 then some (k, blk, rd)
      else advance Se Al (k + 1) (n - 1) blk rd
    else some (k, blk, rd) := by
  rw [advance]; rfl

theorem eobScan_eq (k : Nat) (blk : Blk) (rd : Rd) : eobScan Se Al k blk rd =
    if k ≤ Se then
      if blk.getD (natOrder.getD k 0) 0 ≠ 0 then
        match readBits rd 1 with
        | none => none
        | some (b, rd) => eobScan Se Al (k + 1) (fix Al (natOrder.getD k 0) b blk) rd
      else eobScan Se Al (k + 1) blk rd
    else some (blk, rd) := by
  rw [eobScan]; rfl

theorem advance_meets (hSe : Se ≤ 63) (hAl : Al < 32) {Ss B : Nat} (hB : Se ≤ B) {k n : Nat} (hk : Ss ≤ k) {old blk : Blk}
    (hb : Touch Ss B old blk) (h : rd.Ok) :
    Meets (advanceRun Se Al k n blk rd) (advance Se Al k n blk rd)
      (fun a => Touch Ss B old a.2.1 ∧ a.2.2.Ok) (fun b => Touch Ss B old b) False := by
  generalize hn : Se + 1 - k = m
  induction m generalizing k n blk rd with
  | zero =>
    rw [advanceRun_eq, advance_eq, if_neg (by omega), if_neg (by omega)]
    exact ⟨rfl, hb, h⟩
  | succ m ih =>
    rw [advanceRun_eq, advance_eq, if_pos (show k ≤ Se by omega), if_pos (show k ≤ Se by omega), chk,
      if_pos ⟨by rw [show natOrder.length = 80 by decide]; omega, by rw [hb.coef.1]; exact (natOrder_any (by omega)).1, hAl⟩]
    split
    · rcases plain_bits h (show 1 ≤ 1 by omega) (by omega) with ⟨b, r1, e1, e2, e3, -⟩ | ⟨e1, e2⟩
      · rw [e1, e2]
        exact ih (by omega) (touch_fix hb hk (by omega) (by omega)) e3 (by omega)
      · rw [e1, e2]; exact ⟨rfl, hb⟩
    · split
      · exact ⟨rfl, hb, h⟩
      · exact ih (by omega) hb h (by omega)

theorem scan_meets (hSe : Se ≤ 63) (hAl : Al < 32) {Ss B : Nat} (hB : Se ≤ B) {k : Nat} (hk : Ss ≤ k) {old blk : Blk}
    (hb : Touch Ss B old blk) (h : rd.Ok) :
    Meets (scanRun Se Al k blk rd) (eobScan Se Al k blk rd)
      (fun a => Touch Ss B old a.1 ∧ a.2.Ok) (fun b => Touch Ss B old b) False := by
  generalize hn : Se + 1 - k = m
  induction m generalizing k blk rd with
  | zero =>
    rw [scanRun_eq, eobScan_eq, if_neg (by omega), if_neg (by omega)]
    exact ⟨rfl, hb, h⟩
  | succ m ih =>
    rw [scanRun_eq, eobScan_eq, if_pos (show k ≤ Se by omega), if_pos (show k ≤ Se by omega), chk,
      if_pos ⟨by rw [show natOrder.length = 80 by decide]; omega, by rw [hb.coef.1]; exact (natOrder_any (by omega)).1, hAl⟩]
    split
    · rcases plain_bits h (show 1 ≤ 1 by omega) (by omega) with ⟨b, r1, e1, e2, e3, -⟩ | ⟨e1, e2⟩
      · rw [e1, e2]
        exact ih (by omega) (touch_fix hb hk (by omega) (by omega)) e3 (by omega)
      · rw [e1, e2]; exact ⟨rfl, hb⟩
    · exact ih (by omega) hb h (by omega)

/-- The sign of a newly nonzero coefficient, as in `refineDec`. -/
def signOpt (Al s : Nat) (rd : Rd) : Option (Int × Rd) :=
  if s ≠ 0 then
    (readBits (if s ≠ 1 then { rd with warns := rd.warns + 1 } else rd) 1).map
      (fun x => ((if x.1 ≠ 0 then (2 : Int) ^ Al else -2 ^ Al), x.2))
  else some (0, rd)

theorem plain_sign {s : Nat} (h : rd.Ok) : Plain (signRes Al s rd) (signOpt Al s rd) (fun _ => True) := by
  unfold signRes signOpt
  by_cases h0 : s ≠ 0
  · rw [if_pos h0, if_pos h0]
    have hw : (if s ≠ 1 then { rd with warns := rd.warns + 1 } else rd).Ok := by
      split
      · exact ⟨h.left64, h.bytes⟩
      · exact h
    rcases plain_bits hw (show 1 ≤ 1 by omega) (by omega) with ⟨x, r1, e1, e2, e3, -⟩ | ⟨e1, e2⟩
    · rw [e1, e2]; exact .inl ⟨_, r1, rfl, rfl, e3, trivial⟩
    · rw [e1, e2]; exact .inr ⟨rfl, rfl⟩
  · rw [if_neg h0, if_neg h0]; exact .inl ⟨_, rd, rfl, rfl, h, trivial⟩

theorem refineDec_eq (d : DTbl) (k : Nat) (blk : Blk) (rd : Rd) : refineDec d Se Al k blk rd =
    if k ≤ Se then
      match huffDecode d rd with
      | none => none
      | some (sym, rd) =>
        if sym &&& 15 = 0 ∧ sym >>> 4 ≠ 15 then (readEob rd (sym >>> 4)).map (fun x => (k, blk, x.1, x.2))
        else
          match signOpt Al (sym &&& 15) rd with
          | none => none
          | some (v, rd) =>
            match advance Se Al k (sym >>> 4) blk rd with
            | none => none
            | some (k', blk, rd) =>
              refineDec d Se Al (k' + 1) (if sym &&& 15 ≠ 0 then blk.set (natOrder.getD k' 0) (toCoef v) else blk) rd
    else some (k, blk, 0, rd) := by
  rw [refineDec]
  split
  · cases huffDecode d rd with
    | none => rfl
    | some y =>
      obtain ⟨sym, rd⟩ := y
      dsimp only
      split
      · rfl
      · show (match signOpt Al (sym &&& 15) rd with | none => none | some (v, rd) => _) = _
        cases signOpt Al (sym &&& 15) rd with
        | none => rfl
        | some w =>
          obtain ⟨v, rd⟩ := w
          dsimp only
          split <;> rename_i h <;> rw [h]
  · rfl

theorem undo_touch {a b : Nat} {old : Blk} (nz : List Nat) {blk : Blk} (h : Touch a b old blk)
    (hz : ∀ p ∈ nz, ∃ k, a ≤ k ∧ k ≤ b ∧ k < 64 ∧ p = natOrder.getD k 0) : Touch a b old (undo blk nz) := by
  induction nz with
  | nil => exact h
  | cons p nz ih =>
    obtain ⟨k, k1, k2, k3, rfl⟩ := hz p (by simp)
    have := (ih fun q hq => hz q (by simp [hq])).set k1 k2 k3 0
    rw [show toCoef 0 = 0 by decide] at this
    exact this

theorem refine_meets (hd : t.Ok 255) (hSe : Se ≤ 63) (hAl : Al < 32) {Ss : Nat} (hSs : Ss ≤ Se) {k : Nat} (hk : Ss ≤ k) {old blk : Blk}
    (hb : Touch Ss (Se + 1) old blk) {nz : List Nat} (hnz : nz.length < k)
    (hz : ∀ p ∈ nz, ∃ k, Ss ≤ k ∧ k ≤ Se + 1 ∧ k < 64 ∧ p = natOrder.getD k 0) (h : rd.Ok) :
    match refineRun t Se Al k blk nz rd with
    | .ok z => refineDec t.d Se Al k blk rd = some (z.1, z.2.1, z.2.2.2.1, z.2.2.2.2) ∧ Touch Ss (Se + 1) old z.2.1 ∧ z.2.2.2.2.Ok ∧
        Ss ≤ z.1 ∧ z.2.2.2.1 < 32768 ∧ (∀ p ∈ z.2.2.1, ∃ k, Ss ≤ k ∧ k ≤ Se + 1 ∧ k < 64 ∧ p = natOrder.getD k 0)
    | .suspend b => refineDec t.d Se Al k blk rd = none ∧ Touch Ss (Se + 1) old (undo b.1 b.2)
    | .err => False
    | .fault => False := by
  generalize hn : Se + 1 - k = n
  induction n using Nat.strongRecOn generalizing k blk nz rd with
  | _ n ih =>
    rw [refineRun_eq, refineDec_eq]
    by_cases hkS : k ≤ Se
    · rw [if_pos hkS, if_pos hkS]
      rcases plain_huff hd h with ⟨y, r1, e1, e2, e3, e4⟩ | ⟨e1, e2⟩
      · have hrun : y >>> 4 ≤ 15 := by rw [Nat.shiftRight_eq_div_pow]; omega
        rw [e1, e2]
        simp only [onRes]
        by_cases hc : y &&& 15 = 0 ∧ y >>> 4 ≠ 15
        · rw [if_pos hc, if_pos hc]
          rcases plain_eob e3 (show y >>> 4 < 15 by omega) with ⟨x, r2, g1, g2, g3, g4⟩ | ⟨g1, g2⟩
          · rw [g1, g2]; exact ⟨rfl, hb, g3, hk, by dsimp only; omega, hz⟩
          · rw [g1, g2]; exact ⟨rfl, undo_touch nz hb hz⟩
        · rw [if_neg hc, if_neg hc]
          rcases plain_sign (Al := Al) (s := y &&& 15) e3 with ⟨v, r2, g1, g2, g3, -⟩ | ⟨g1, g2⟩
          · rw [g1, g2]
            dsimp only
            have hadv := advance_meets (n := y >>> 4) hSe hAl (show Se ≤ Se + 1 by omega) hk hb g3
            unfold afterSign
            dsimp only
            cases ha : advanceRun Se Al k (y >>> 4) blk r2 with
            | ok a =>
              rw [ha] at hadv
              obtain ⟨m1, m2, m3⟩ := hadv
              rw [m1]
              dsimp only
              obtain ⟨q1, q2, q3, q4⟩ := (advance_keep hSe).1 a ha
              have q3 := q3 hkS
              rw [chk, if_pos (fun _ => ⟨by rw [show natOrder.length = 80 by decide]; omega, by rw [m2.coef.1]; exact (natOrder_any (by omega)).1, by omega⟩)]
              refine ih (Se + 1 - (a.1 + 1)) (by omega) (by omega) ?_ ?_ ?_ m3 rfl
              · split
                · exact touch_any m2 (by omega) q3 (by omega) (by omega) _
                · exact m2
              · split
                · simp; omega
                · omega
              · split
                · intro p hp
                  rcases List.mem_append.1 hp with hp | hp
                  · exact hz p hp
                  · simp only [List.mem_singleton] at hp
                    subst hp
                    by_cases h63 : a.1 < 64
                    · exact ⟨a.1, by omega, q3, h63, rfl⟩
                    · exact ⟨63, by omega, by omega, by omega, (natOrder_any (by omega)).2 (by omega)⟩
                · exact hz
            | suspend b =>
              rw [ha] at hadv
              obtain ⟨m1, m2⟩ := hadv
              rw [m1]
              exact ⟨rfl, undo_touch nz m2 hz⟩
            | err => rw [ha] at hadv; exact hadv.2.elim
            | fault => rw [ha] at hadv; exact hadv.elim
          · rw [g1, g2]; exact ⟨rfl, undo_touch nz hb hz⟩
      · rw [e1, e2]; exact ⟨rfl, undo_touch nz hb hz⟩
    · rw [if_neg hkS, if_neg hkS]
      exact ⟨rfl, hb, h, hk, by dsimp only; omega, hz⟩

theorem acRefine_meets (hd : t.Ok 255) (hSe : Se ≤ 63) (hAl : Al < 32) {Ss : Nat} (h1 : 1 ≤ Ss) (hSs : Ss ≤ Se) {eob : Nat} (he : eob < 32767) {blk : Blk}
    (hc : CoefBlock blk) (h : rd.Ok) :
    Meets (acRefineRun t Ss Se Al eob blk rd) (acRefineDec t.d Ss Se Al eob blk rd)
      (fun a => Touch Ss (Se + 1) blk a.1 ∧ a.2.2.Ok ∧ a.2.1 < 32767) (fun b => Touch Ss (Se + 1) blk b) False := by
  have tail : ∀ {k : Nat} {b1 : Blk} {nz : List Nat} {eob : Nat} {r1 : Rd}, Ss ≤ k → Touch Ss (Se + 1) blk b1 → r1.Ok → eob < 32768 →
      (∀ p ∈ nz, ∃ k, Ss ≤ k ∧ k ≤ Se + 1 ∧ k < 64 ∧ p = natOrder.getD k 0) →
      Meets (if eob > 0 then
          match scanRun Se Al k b1 r1 with
          | .ok x => .ok (x.1, eob - 1, x.2)
          | .suspend b => .suspend (undo b nz)
          | .err => .err
          | .fault => .fault
        else .ok (b1, eob, r1))
        (if eob > 0 then (eobScan Se Al k b1 r1).map (fun x => (x.1, eob - 1, x.2)) else some (b1, eob, r1))
        (fun a => Touch Ss (Se + 1) blk a.1 ∧ a.2.2.Ok ∧ a.2.1 < 32767) (fun b => Touch Ss (Se + 1) blk b) False := by
    intro k b1 nz eob r1 hk hb hr he hz
    by_cases h0 : eob > 0
    · rw [if_pos h0, if_pos h0]
      have := scan_meets hSe hAl (show Se ≤ Se + 1 by omega) hk hb hr
      cases hx : scanRun Se Al k b1 r1 with
      | ok x =>
        rw [hx] at this
        obtain ⟨m1, m2, m3⟩ := this
        rw [m1]
        exact ⟨rfl, m2, m3, by dsimp only; omega⟩
      | suspend b =>
        rw [hx] at this
        obtain ⟨m1, m2⟩ := this
        rw [m1]
        exact ⟨rfl, undo_touch nz m2 hz⟩
      | err => rw [hx] at this; exact this.2.elim
      | fault => rw [hx] at this; exact this.elim
    · rw [if_neg h0, if_neg h0]
      exact ⟨rfl, hb, hr, by dsimp only; omega⟩
  unfold acRefineRun acRefineDec
  by_cases h0 : eob = 0
  · rw [if_pos h0, if_pos h0]
    have := refine_meets hd hSe hAl hSs (Nat.le_refl Ss) (.refl hc) (nz := []) (by simp; omega) (by simp) h
    cases hx : refineRun t Se Al Ss blk [] rd with
    | ok z =>
      rw [hx] at this
      obtain ⟨m1, m2, m3, m4, m5, m6⟩ := this
      rw [m1]
      obtain ⟨k, b1, nz, eob, r1⟩ := z
      exact tail m4 m2 m3 m5 m6
    | suspend b =>
      rw [hx] at this
      obtain ⟨m1, m2⟩ := this
      rw [m1]
      exact ⟨rfl, m2⟩
    | err => rw [hx] at this; exact this.elim
    | fault => rw [hx] at this; exact this.elim
  · rw [if_neg h0, if_neg h0]
    exact tail (nz := []) (Nat.le_refl _) (.refl hc) h (by omega) (by simp)

/-! ### The four routines -/

/-- What the generic part of the proof needs of an MCU routine: it is the routine `D` of Prog/Model.lean without faults,
writes in the given range of scan positions only, and can be started again after a suspension. -/
structure Sound {σ : Type} (R : PRun σ) (D : PDec σ (List Blk) (List Blk)) (I : σ → Prop) (nb lo hi : Nat) (E : Prop) : Prop where
  init : R.init = D.init
  start : I D.init
  skip : D.skip = if R.skip then some id else none
  meets : ∀ st mcu rd, I st → mcu.length = nb → (∀ b ∈ mcu, CoefBlock b) → rd.Ok →
    Meets (R.run st mcu rd) (D.step st mcu rd) (fun a => List.Forall₂ (Touch lo hi) mcu a.1 ∧ a.2.2.Ok ∧ I a.2.1)
      (fun b => List.Forall₂ (Touch lo hi) mcu b) E
  sim : ∀ st mcu r fut rw, I st → mcu.length = nb → RSim r fut rw → rw.tail ≠ none →
    Agrees fut rw.tail (Sim3 fut) (fun a => a.2.2.tail) (R.run st mcu r) (fun b => R.run st b rw) (R.run st mcu rw)

theorem dcFirst_sound {bs : List CkD} (hb : ∀ b ∈ bs, b.dc.Ok 15) (hAl : Al < 32) :
    Sound (runDCFirst Al bs) (decDCFirst Al (bs.map CkD.plain)) (fun _ => True) bs.length 0 0 True := by
  refine ⟨rfl, trivial, rfl, ?_, ?_⟩
  · intro st mcu rd _ hl hc hr
    show Meets (if mcu.length = bs.length then dcFirstRun Al bs mcu st rd else .fault) (dcFirstDec Al (bs.map CkD.plain) mcu st rd) _ _ _
    rw [if_pos hl]
    have := dcFirst_meets hb hAl hl hc st hr
    unfold Meets at this ⊢
    split at this <;> simp_all
  · intro st mcu r fut rw _ hl h ht
    show Agrees fut rw.tail (Sim3 fut) _ (if mcu.length = bs.length then dcFirstRun Al bs mcu st r else .fault)
      (fun b => if b.length = bs.length then dcFirstRun Al bs b st rw else .fault)
      (if mcu.length = bs.length then dcFirstRun Al bs mcu st rw else .fault)
    rw [if_pos hl, if_pos hl]
    have := dcFirst_sim (Al := Al) hb mcu st h ht
    have hlen : ∀ {bs : List CkD} {mcu : List Blk} {last : Nat → Int} {r : Rd} {z : List Blk}, dcFirstRun Al bs mcu last r = .suspend z → z.length = mcu.length := by
      intro bs
      induction bs with
      | nil => intro mcu last r z h; simp only [dcFirstRun] at h; cases h
      | cons b bs ih =>
        intro mcu last r z h
        cases mcu with
        | nil => simp only [dcFirstRun] at h; cases h
        | cons blk blks =>
          simp only [dcFirstRun] at h
          cases h1 : ckHuff b.dc r with
          | fault => rw [h1] at h; cases h
          | suspend => rw [h1] at h; cases h; rfl
          | ok y =>
            rw [h1] at h
            simp only [onRes] at h
            generalize (if y.1 ≠ 0 then (ckReadBits y.2 y.1).bind (fun x => Res.ok (extend2 x.1 y.1, x.2)) else Res.ok (0, y.2)) = q at h
            cases q with
            | fault => cases h
            | suspend => cases h; rfl
            | ok x =>
              simp only [onRes] at h
              split at h
              · cases h
              · unfold chk at h
                split at h
                · split at h
                  · cases h
                  · rename_i hx; cases h; simp [ih hx]
                  · cases h
                  · cases h
                · cases h
    cases hx : dcFirstRun Al bs mcu st r with
    | ok z => rw [hx] at this; exact this
    | suspend z =>
      rw [hx] at this
      refine ⟨this.1, ?_⟩
      dsimp only
      rw [if_pos (by rw [hlen hx, hl])]
      exact this.2
    | err => rw [hx] at this; exact this
    | fault => trivial

theorem dcRefine_sound (hAl : Al < 32) (nb : Nat) : Sound (runDCRefine Al) (decDCRefine Al) (fun _ => True) nb 0 0 False := by
  refine ⟨rfl, trivial, rfl, ?_, ?_⟩
  · intro st mcu rd _ hl hc hr
    have := dcRefine_meets hAl hc hr
    show Meets (match dcRefineRun Al mcu rd with | .ok x => .ok (x.1, (), x.2) | .suspend b => .suspend b | .err => .err | .fault => .fault)
      ((dcRefineDec Al mcu rd).map (fun x => (x.1, (), x.2))) _ _ _
    cases hx : dcRefineRun Al mcu rd with
    | ok z => rw [hx] at this; rw [this.1]; exact ⟨rfl, this.2.1, this.2.2, trivial⟩
    | suspend z => rw [hx] at this; rw [this.1]; exact ⟨rfl, this.2⟩
    | err => rw [hx] at this; exact this.2.elim
    | fault => rw [hx] at this; exact this.elim
  · intro st mcu r fut rw _ hl h ht
    have := dcRefine_sim (Al := Al) mcu h ht
    show Agrees fut rw.tail (Sim3 fut) _ (match dcRefineRun Al mcu r with | .ok x => .ok (x.1, (), x.2) | .suspend b => .suspend b | .err => .err | .fault => .fault)
      (fun m => match dcRefineRun Al m rw with | .ok x => .ok (x.1, (), x.2) | .suspend b => .suspend b | .err => .err | .fault => .fault)
      (match dcRefineRun Al mcu rw with | .ok x => .ok (x.1, (), x.2) | .suspend b => .suspend b | .err => .err | .fault => .fault)
    cases hx : dcRefineRun Al mcu r with
    | ok z =>
      rw [hx] at this
      obtain ⟨a', k1, ⟨k2, k3⟩, k4⟩ := this
      rw [k1]
      exact ⟨_, rfl, ⟨k2, rfl, k3⟩, k4⟩
    | suspend z =>
      rw [hx] at this
      obtain ⟨k1, k2⟩ := this
      dsimp only at k2
      refine ⟨k1, ?_⟩
      dsimp only
      rw [k2]
    | err =>
      rw [hx] at this
      have e : dcRefineRun Al mcu rw = .err := this
      rw [e]; rfl
    | fault => trivial

theorem oneBlk_meets {σ : Type} {f : Blk → Run Blk (Blk × σ × Rd)} {g : Blk → Option (Blk × σ × Rd)} {lo hi : Nat} {P : σ → Prop} {mcu : List Blk}
    (hl : mcu.length = 1)
    (h : ∀ b ∈ mcu, Meets (f b) (g b) (fun a => Touch lo hi b a.1 ∧ a.2.2.Ok ∧ P a.2.1) (fun b' => Touch lo hi b b') False) :
    Meets (oneBlk f mcu) ((g (mcu.getD 0 [])).map (fun x => (mcu.set 0 x.1, x.2.1, x.2.2)))
      (fun a => List.Forall₂ (Touch lo hi) mcu a.1 ∧ a.2.2.Ok ∧ P a.2.1) (fun b => List.Forall₂ (Touch lo hi) mcu b) False := by
  match mcu, hl with
  | [b], _ =>
    have h := h b (by simp)
    show Meets (match f b with | .ok x => .ok (x.1 :: [], x.2) | .suspend b => .suspend (b :: []) | .err => .err | .fault => .fault) ((g b).map _) _ _ _
    cases hx : f b with
    | ok z => rw [hx] at h; rw [h.1]; exact ⟨rfl, .cons h.2.1 .nil, h.2.2⟩
    | suspend z => rw [hx] at h; rw [h.1]; exact ⟨rfl, .cons h.2 .nil⟩
    | err => rw [hx] at h; exact h.2.elim
    | fault => rw [hx] at h; exact h.elim

theorem oneBlk_sim {σ : Type} {f g : Blk → Run Blk (Blk × σ × Rd)} {fut : List Nat} {tl : Option (Nat × List Nat)} {mcu : List Blk}
    (h : ∀ b ∈ mcu, Agrees fut tl (Sim3 fut) (fun a => a.2.2.tail) (f b) g (g b)) :
    Agrees fut tl (Sim3 fut) (fun a => a.2.2.tail) (oneBlk f mcu) (oneBlk g) (oneBlk g mcu) := by
  cases mcu with
  | nil => trivial
  | cons b bs =>
    have h := h b (by simp)
    simp only [oneBlk]
    cases hx : f b with
    | ok z =>
      rw [hx] at h
      obtain ⟨a', k1, ⟨k2, k3, k4⟩, k5⟩ := h
      rw [k1]
      exact ⟨_, rfl, ⟨by simp only [k2], k3, k4⟩, k5⟩
    | suspend z =>
      rw [hx] at h
      obtain ⟨k1, k2⟩ := h
      refine ⟨k1, ?_⟩
      simp only [oneBlk]
      rw [k2]
    | err =>
      rw [hx] at h
      have e : g b = .err := h
      rw [e]; rfl
    | fault => trivial

theorem acFirst_sound {Ss : Nat} (hd : t.Ok 255) (h1 : 1 ≤ Ss) (hSs : Ss ≤ Se) (hSe : Se ≤ 63) (hAl : Al < 32) :
    Sound (runACFirst t Ss Se Al) (decACFirst t.d Ss Se Al) (fun e => e < 32767) 1 Ss (Se + 15) False := by
  refine ⟨rfl, by show (0 : Nat) < 32767; decide, rfl, ?_, ?_⟩
  · intro st mcu rd hst hl hc hr
    show Meets (if st > 0 then .ok (mcu, st - 1, rd) else oneBlk (fun b => acFirstRun t Se Al Ss b rd) mcu)
      (if st > 0 then some (mcu, st - 1, rd) else (acFirstDec t.d Se Al Ss (mcu.getD 0 []) rd).map (fun x => (mcu.set 0 x.1, x.2.1, x.2.2))) _ _ _
    by_cases h0 : st > 0
    · rw [if_pos h0, if_pos h0]
      exact ⟨rfl, forall₂_refl_touch hc, hr, by dsimp only; omega⟩
    · rw [if_neg h0, if_neg h0]
      exact oneBlk_meets (g := fun b => acFirstDec t.d Se Al Ss b rd) (P := fun e => e < 32767) hl fun b hb =>
        acFirst_meets hd hSe hAl hSs (Nat.le_refl _) (.refl (hc b hb)) hr
  · intro st mcu r fut rw _ hl h ht
    show Agrees fut rw.tail (Sim3 fut) _ (if st > 0 then .ok (mcu, st - 1, r) else oneBlk (fun b => acFirstRun t Se Al Ss b r) mcu)
      (fun m => if st > 0 then .ok (m, st - 1, rw) else oneBlk (fun b => acFirstRun t Se Al Ss b rw) m)
      (if st > 0 then .ok (mcu, st - 1, rw) else oneBlk (fun b => acFirstRun t Se Al Ss b rw) mcu)
    by_cases h0 : st > 0
    · rw [if_pos h0, if_pos h0]
      exact ⟨_, rfl, ⟨rfl, rfl, h⟩, rfl⟩
    · simp only [if_neg h0]
      exact oneBlk_sim (g := fun b => acFirstRun t Se Al Ss b rw) fun b _ => acFirst_sim hd hSe b h ht

theorem acRefine_sound {Ss : Nat} (hd : t.Ok 255) (h1 : 1 ≤ Ss) (hSs : Ss ≤ Se) (hSe : Se ≤ 63) (hAl : Al < 16) :
    Sound (runACRefine t Ss Se Al) (decACRefine t.d Ss Se Al) (fun e => e < 32767) 1 Ss (Se + 1) False := by
  refine ⟨rfl, by show (0 : Nat) < 32767; decide, rfl, ?_, ?_⟩
  · intro st mcu rd hst hl hc hr
    exact oneBlk_meets (g := fun b => acRefineDec t.d Ss Se Al st b rd) (P := fun e => e < 32767) hl fun b hb =>
        acRefine_meets hd hSe (by omega) h1 hSs hst (hc b hb) hr
  · intro st mcu r fut rw _ hl h ht
    exact oneBlk_sim (g := fun b => acRefineRun t Ss Se Al st b rw) fun b _ => acRefine_sim hd hSe hAl b h ht

end Verif.Prog
