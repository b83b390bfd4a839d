import Verif.Huff.EncLemmas
import Verif.Huff.DecodeLemmas
import Verif.Huff.Dec
/-
Block-level round trip: bits written by `encBlock` are read back by `decBlock`.
-/
namespace Verif.Huff

/-- The bits of the code assigned to symbol `s`. -/
def symBits (c : CTbl) (s : Nat) : List Bool := toBits (c s).2 (c s).1

/-- The additional bits for a value (T.81 F.1.2.1): `nb` low bits of `t`, or of `t - 1` if negative. -/
def magBits (t : Int) : List Bool :=
  toBits (nbitsOf t.natAbs) (onesc t % 2 ^ nbitsOf t.natAbs).toNat

/-- AC bits of a run of coefficients with `run` zeros already pending. -/
def acBits (ac : CTbl) : List Int → Nat → List Bool
  | [], run => if run > 0 then symBits ac 0 else []
  | t :: ts, run =>
    if t = 0 then acBits ac ts (run + 1)
    else (List.replicate (run / 16) (symBits ac 0xF0)).flatten ++
      symBits ac (run % 16 * 16 + nbitsOf t.natAbs) ++ magBits t ++ acBits ac ts 0

/-- AC symbols needed by a run of coefficients (what htest_one_block counts). -/
def acSyms : List Int → Nat → List Nat
  | [], run => if run > 0 then [0] else []
  | t :: ts, run =>
    if t = 0 then acSyms ts (run + 1)
    else List.replicate (run / 16) 0xF0 ++ (run % 16 * 16 + nbitsOf t.natAbs) :: acSyms ts 0

/-- Coefficients 1..63 in scan order. -/
def zz (blk : List Int) : List Int := kloopOrder.map (fun k => blk.getD k 0)

def blockBits (dc ac : CTbl) (last : Int) (blk : List Int) : List Bool :=
  symBits dc (nbitsOf (blk.getD 0 0 - last).natAbs) ++ magBits (blk.getD 0 0 - last) ++
    acBits ac (zz blk) 0

/-- Encoder table and decoder table agree: every symbol with a code is decoded from it. -/
structure Linked (c : CTbl) (d : DTbl) : Prop where
  wf : ∀ s, (c s).2 ≤ 16 ∧ (c s).1 < 2 ^ (c s).2
  dec : ∀ s, (c s).2 ≠ 0 → ∀ (r : Rd) (rest : List Bool), r.Ok → r.tail ≠ none →
    r.bits = symBits c s ++ rest →
    ∃ r', huffDecode d r = some (s, r') ∧ r.Same r' ∧ r'.bits = rest

/-! ### encoder side -/

theorem nbitsOf_spec (n : Nat) : n < 2 ^ nbitsOf n ∧ (n ≠ 0 → 2 ^ (nbitsOf n - 1) ≤ n) := by
  unfold nbitsOf
  split
  · rename_i h; subst h; simp
  · rename_i h
    exact ⟨Nat.lt_log2_self, fun _ => by simpa using Nat.log2_self_le h⟩

theorem nbitsOf_pos {n : Nat} (h : n ≠ 0) : 1 ≤ nbitsOf n := by unfold nbitsOf; rw [if_neg h]; omega

theorem nbitsOf_le {n k : Nat} (h : n < 2 ^ k) : nbitsOf n ≤ k := by
  unfold nbitsOf
  split
  · omega
  · rename_i h0
    have := (Nat.log2_lt h0).2 h
    omega

theorem lt_of_nbitsOf_le {n k : Nat} (h : nbitsOf n ≤ k) : n < 2 ^ k :=
  Nat.lt_of_lt_of_le (nbitsOf_spec n).1 (Nat.pow_le_pow_right (by omega) h)

theorem putCode_inv {w : Wr} {pre : List Nat} {bits : List Bool} (h : w.Inv pre bits)
    (temp : Int) (nb : Nat) (cs : Nat × Nat) (hnb : nb ≤ 16) (hcs : cs.2 ≤ 16 ∧ cs.1 < 2 ^ cs.2) :
    (putCode w temp nb cs).Inv pre
      (bits ++ (toBits cs.2 cs.1 ++ toBits nb (temp % 2 ^ nb).toNat)) := by
  unfold putCode
  have hx : (temp % 2 ^ nb).toNat < 2 ^ nb := by
    have h0 : (0 : Int) < 2 ^ nb := by exact_mod_cast Nat.two_pow_pos nb
    have h1 := Int.emod_lt_of_pos temp h0
    have h2 := Int.emod_nonneg temp (Int.ne_of_gt h0)
    have : ((temp % 2 ^ nb).toNat : Int) < ((2 ^ nb : Nat) : Int) := by
      rw [Int.toNat_of_nonneg h2]; exact_mod_cast h1
    exact_mod_cast this
  have e : (temp % 2 ^ nb).toNat ||| cs.1 <<< nb = cs.1 * 2 ^ nb + (temp % 2 ^ nb).toNat := by
    rw [Nat.or_comm, shl_or_eq hx]
  rw [e]
  have hlt : cs.1 * 2 ^ nb + (temp % 2 ^ nb).toNat < 2 ^ (nb + cs.2) := by
    have : (cs.1 + 1) * 2 ^ nb ≤ 2 ^ cs.2 * 2 ^ nb := Nat.mul_le_mul_right _ hcs.2
    rw [Nat.add_mul, ← Nat.pow_add, Nat.add_comm cs.2 nb] at this
    omega
  have := putBits_inv h hlt (by omega)
  rw [Nat.add_comm nb cs.2, toBits_concat _ _ _ _ hx] at this
  rw [Nat.add_comm nb cs.2]
  exact this

theorem zrlLoop_inv {ac : CTbl} (hac : ∀ s, (ac s).2 ≤ 16 ∧ (ac s).1 < 2 ^ (ac s).2)
    {pre : List Nat} (run : Nat) {w : Wr} {bits : List Bool} (h : w.Inv pre bits) :
    (zrlLoop ac (16 * run) w).1 = run % 16 * 16 ∧
    (zrlLoop ac (16 * run) w).2.Inv pre
      (bits ++ (List.replicate (run / 16) (symBits ac 0xF0)).flatten) := by
  induction run using Nat.strongRecOn generalizing w bits with
  | ind run ih =>
    rw [zrlLoop]
    split
    · rename_i hge
      have hp := putBits_inv h (hac 0xF0).2 (by have := (hac 0xF0).1; omega)
      have := ih (run - 16) (by omega) hp
      rw [show 16 * run - 256 = 16 * (run - 16) by omega]
      refine ⟨by rw [this.1]; omega, ?_⟩
      rw [show run / 16 = (run - 16) / 16 + 1 by omega, List.replicate_succ, List.flatten_cons,
        ← List.append_assoc]
      exact this.2
    · rename_i hge
      rw [show run / 16 = 0 by omega]
      refine ⟨by dsimp only; omega, by simpa using h⟩

theorem encAC_inv {maxBits : Nat} {ac : CTbl} (hm : maxBits ≤ 16)
    (hac : ∀ s, (ac s).2 ≤ 16 ∧ (ac s).1 < 2 ^ (ac s).2) {pre : List Nat} (ts : List Int)
    (run : Nat) {w : Wr} {bits : List Bool} (h : w.Inv pre bits)
    (hts : ∀ t ∈ ts, nbitsOf t.natAbs ≤ maxBits) :
    ∃ w', encAC maxBits ac ts (16 * run) w = some w' ∧ w'.Inv pre (bits ++ acBits ac ts run) := by
  induction ts generalizing run w bits with
  | nil =>
    simp only [encAC, acBits]
    by_cases hr : run > 0
    · rw [if_pos hr, if_pos (by omega)]
      exact ⟨_, rfl, putBits_inv h (hac 0).2 (by have := (hac 0).1; omega)⟩
    · rw [if_neg hr, if_neg (by omega)]
      exact ⟨_, rfl, by simpa using h⟩
  | cons t ts ih =>
    simp only [encAC, acBits]
    have hnb := hts t (by simp)
    have hts' : ∀ t ∈ ts, nbitsOf t.natAbs ≤ maxBits := fun x hx => hts x (by simp [hx])
    by_cases ht : t = 0
    · rw [if_pos ht, if_pos ht, show 16 * run + 16 = 16 * (run + 1) by omega]
      exact ih (run + 1) h hts'
    · rw [if_neg ht, if_neg ht, if_neg (by omega)]
      obtain ⟨z1, z2⟩ := zrlLoop_inv hac run h
      have hp := putCode_inv z2 (onesc t) (nbitsOf t.natAbs)
        (ac ((zrlLoop ac (16 * run) w).1 + nbitsOf t.natAbs)) (by omega) (hac _)
      obtain ⟨w', e, hi⟩ := ih 0 hp hts'
      refine ⟨w', e, ?_⟩
      rw [z1] at hi
      simpa [symBits, magBits, List.append_assoc] using hi

theorem encBlock_inv {prec : Nat} {dc ac : CTbl} (hprec : prec ≤ 13)
    (hdc : ∀ s, (dc s).2 ≤ 16 ∧ (dc s).1 < 2 ^ (dc s).2)
    (hac : ∀ s, (ac s).2 ≤ 16 ∧ (ac s).1 < 2 ^ (ac s).2) {pre : List Nat} {last : Int}
    {blk : List Int} {w : Wr} {bits : List Bool} (h : w.Inv pre bits)
    (hd : nbitsOf (blk.getD 0 0 - last).natAbs ≤ prec + 3)
    (hts : ∀ t ∈ zz blk, nbitsOf t.natAbs ≤ prec + 2) :
    ∃ w', encBlock prec dc ac last blk w = some w' ∧
      w'.Inv pre (bits ++ blockBits dc ac last blk) := by
  simp only [encBlock]
  rw [if_neg (by omega)]
  have hp := putCode_inv h (onesc (blk.getD 0 0 - last)) (nbitsOf (blk.getD 0 0 - last).natAbs)
    (dc (nbitsOf (blk.getD 0 0 - last).natAbs)) (by omega) (hdc _)
  obtain ⟨w', e, hi⟩ := encAC_inv (maxBits := prec + 2) (by omega) hac (zz blk) 0 hp hts
  refine ⟨w', e, ?_⟩
  simpa [blockBits, symBits, magBits, List.append_assoc] using hi

/-! ### decoder side -/

theorem onesc_eq (t : Int) (h1 : -(2 ^ 31) ≤ t) (h2 : t < 2 ^ 31) :
    onesc t = if t < 0 then t - 1 else t := by
  unfold onesc
  rw [Int.shiftRight_eq_div_pow]
  split <;> omega

/-- HUFF_EXTEND is the sign extension of T.81 F.12. -/
theorem huffExtend_eq {x s : Nat} (h1 : 1 ≤ s) (h16 : s ≤ 16) (hx : x < 2 ^ s) :
    huffExtend x s = if x < 2 ^ (s - 1) then (x : Int) - 2 ^ s + 1 else x := by
  have hs : s = 1 ∨ s = 2 ∨ s = 3 ∨ s = 4 ∨ s = 5 ∨ s = 6 ∨ s = 7 ∨ s = 8 ∨ s = 9 ∨ s = 10 ∨
    s = 11 ∨ s = 12 ∨ s = 13 ∨ s = 14 ∨ s = 15 ∨ s = 16 := by omega
  unfold huffExtend
  dsimp only
  rw [Int.shiftRight_eq_div_pow]
  by_cases hlt : x < 2 ^ (s - 1)
  · rw [if_pos hlt]
    have hsg : ((((x : Int) - 2 ^ (s - 1)) / (2 ^ 31 : Nat)) % 2 ^ 32).toNat = 2 ^ 32 - 1 := by
      rcases hs with rfl|rfl|rfl|rfl|rfl|rfl|rfl|rfl|rfl|rfl|rfl|rfl|rfl|rfl|rfl|rfl <;>
        simp only [Nat.reduceSub, Nat.reducePow] at * <;> omega
    rw [hsg, Nat.and_comm, Nat.and_two_pow_sub_one_eq_mod]
    rcases hs with rfl|rfl|rfl|rfl|rfl|rfl|rfl|rfl|rfl|rfl|rfl|rfl|rfl|rfl|rfl|rfl <;>
      simp only [Nat.reduceSub, Nat.reducePow, Nat.reduceMul, Nat.reduceAdd, Nat.reduceMod] at * <;>
      (split <;> omega)
  · rw [if_neg hlt]
    have hsg : ((((x : Int) - 2 ^ (s - 1)) / (2 ^ 31 : Nat)) % 2 ^ 32).toNat = 0 := by
      rcases hs with rfl|rfl|rfl|rfl|rfl|rfl|rfl|rfl|rfl|rfl|rfl|rfl|rfl|rfl|rfl|rfl <;>
        simp only [Nat.reduceSub, Nat.reducePow] at * <;> omega
    rw [hsg, Nat.zero_and, Nat.add_zero]
    have : x < 2 ^ 16 := Nat.lt_of_lt_of_le hx (Nat.pow_le_pow_right (by omega) h16)
    rw [Nat.mod_eq_of_lt (by omega), if_pos (by omega)]

theorem mag_roundtrip {t : Int} {nb : Nat} (hnb : nb = nbitsOf t.natAbs) (h0 : t ≠ 0)
    (h16 : nb ≤ 16) : huffExtend (onesc t % 2 ^ nb).toNat nb = t ∧ (onesc t % 2 ^ nb).toNat < 2 ^ nb := by
  have hs := nbitsOf_spec t.natAbs
  have hp := nbitsOf_pos (n := t.natAbs) (by omega)
  rw [← hnb] at hs hp
  have hlow := hs.2 (by omega)
  have hbig : t.natAbs < 2 ^ 16 := Nat.lt_of_lt_of_le hs.1 (Nat.pow_le_pow_right (by omega) h16)
  have hpow : 2 ^ nb = 2 * 2 ^ (nb - 1) := by
    rw [← Nat.pow_succ']; congr 1; omega
  have hpowi : (2 : Int) ^ nb = 2 * (2 ^ (nb - 1) : Nat) := by
    have : ((2 ^ nb : Nat) : Int) = ((2 * 2 ^ (nb - 1) : Nat) : Int) := by rw [hpow]
    push_cast at this ⊢
    exact this
  have hpowi2 : (2 : Int) ^ nb = (2 ^ nb : Nat) := by push_cast; rfl
  have hoc := onesc_eq t (by omega) (by omega)
  by_cases hneg : t < 0
  · rw [if_pos hneg] at hoc
    have hv : onesc t % 2 ^ nb = t - 1 + 2 ^ nb := by
      rw [hoc, ← Int.add_mul_emod_self_left (t - 1) (2 ^ nb) 1, Int.mul_one]
      apply Int.emod_eq_of_lt <;> omega
    have hlt : (onesc t % 2 ^ nb).toNat < 2 ^ (nb - 1) := by rw [hv]; omega
    refine ⟨?_, by omega⟩
    rw [huffExtend_eq hp h16 (by omega), if_pos hlt, hv]
    omega
  · rw [if_neg hneg] at hoc
    have hv : onesc t % 2 ^ nb = t := by
      rw [hoc]; apply Int.emod_eq_of_lt <;> omega
    have hge : ¬ (onesc t % 2 ^ nb).toNat < 2 ^ (nb - 1) := by rw [hv]; omega
    have hlt : (onesc t % 2 ^ nb).toNat < 2 ^ nb := by rw [hv]; omega
    refine ⟨?_, hlt⟩
    rw [huffExtend_eq hp h16 hlt, if_neg hge, hv]
    omega

/-- Reading the additional bits of a nonzero value and extending gives the value back. -/
theorem readMag {t : Int} (h0 : t ≠ 0) (h16 : nbitsOf t.natAbs ≤ 16) {r : Rd} {rest : List Bool}
    (hr : r.Ok) (ht : r.tail ≠ none) (hb : r.bits = magBits t ++ rest) :
    ∃ x r', readBits r (nbitsOf t.natAbs) = some (x, r') ∧ huffExtend x (nbitsOf t.natAbs) = t ∧
      r.Same r' ∧ r'.bits = rest := by
  obtain ⟨r', e, hs, hb'⟩ := readBits_spec hr ht (n := nbitsOf t.natAbs)
    (by rw [hb, magBits]; simp) (by omega)
  refine ⟨_, r', e, ?_, hs, ?_⟩
  · rw [hb, magBits, List.take_append_of_le_length (by simp), List.take_of_length_le (by simp),
      ofBits_toBits]
    have := mag_roundtrip rfl h0 h16
    rw [Nat.mod_eq_of_lt this.2]
    exact this.1
  · rw [hb', hb, magBits, List.drop_append_of_le_length (by simp), List.drop_of_length_le (by simp)]
    rfl

/-- Store the nonzero coefficients of `ts` at scan positions `pos, pos+1, ..`. -/
def setAC : Nat → List Int → List Int → List Int
  | _, [], blk => blk
  | pos, t :: ts, blk => setAC (pos + 1) ts (if t ≠ 0 then blk.set (natOrder.getD pos 0) t else blk)

theorem toCoef_id {t : Int} (h : -32768 ≤ t) (h2 : t < 32768) : toCoef t = t := by
  unfold toCoef; omega

theorem decAC_spec {c : CTbl} {d : DTbl} (L : Linked c d) (need : Bool) (ts : List Int) :
    ∀ (run k : Nat) (blk : List Int) (r : Rd) (rest : List Bool), r.Ok → r.tail ≠ none →
    k + run + ts.length = 64 → (∀ t ∈ ts, nbitsOf t.natAbs ≤ 15) →
    (∀ s ∈ acSyms ts run, (c s).2 ≠ 0) → r.bits = acBits c ts run ++ rest →
    ∃ r', decAC d need k blk r = some (if need then setAC (k + run) ts blk else blk, r') ∧
      r.Same r' ∧ r'.bits = rest := by
  induction ts with
  | nil =>
    intro run k blk r rest hr ht hk _ hsy hb
    simp only [List.length_nil] at hk
    rw [decAC]
    by_cases hrun : run > 0
    · rw [if_pos (by omega)]
      simp only [acBits, acSyms, if_pos hrun] at hb hsy
      obtain ⟨r1, e, hs, hb1⟩ := L.dec 0 (hsy 0 (by simp)) r rest hr ht hb
      rw [e]
      refine ⟨r1, ?_, hs, hb1⟩
      simp [setAC]
    · rw [if_neg (by omega)]
      simp only [acBits, if_neg hrun, List.nil_append] at hb
      exact ⟨r, by simp [setAC], hr.same, hb⟩
  | cons t ts ih =>
    intro run
    induction run using Nat.strongRecOn with
    | ind run ihr =>
      intro k blk r rest hr ht hk hts hsy hb
      simp only [List.length_cons] at hk
      have hts' : ∀ t ∈ ts, nbitsOf t.natAbs ≤ 15 := fun x hx => hts x (by simp [hx])
      by_cases h0 : t = 0
      · subst h0
        simp only [acBits, acSyms, if_true] at hb hsy
        obtain ⟨r', e, hs, hb'⟩ := ih (run + 1) k blk r rest hr ht (by omega) hts' hsy hb
        refine ⟨r', ?_, hs, hb'⟩
        rw [e]
        simp only [setAC, ne_eq, not_true, if_false, Nat.add_assoc]
      · simp only [acBits, acSyms, if_neg h0] at hb hsy
        have hnb := hts t (by simp)
        have hnp := nbitsOf_pos (n := t.natAbs) (by omega)
        by_cases hge : run ≥ 16
        · -- a ZRL symbol comes first
          rw [show run / 16 = (run - 16) / 16 + 1 by omega, List.replicate_succ] at hb hsy
          rw [List.flatten_cons] at hb
          simp only [List.append_assoc] at hb
          obtain ⟨r1, e, hs, hb1⟩ := L.dec 0xF0 (hsy 0xF0 (by simp)) r _ hr ht hb
          rw [decAC, if_pos (by omega), e]
          dsimp only
          rw [if_neg (by decide), if_neg (by decide)]
          obtain ⟨r', e', hs', hb'⟩ := ihr (run - 16) (by omega) (k + 15 + 1) blk r1 rest hs.ok
            (by rw [hs.tail]; exact ht) (by simp; omega) hts (by
              intro s hs
              simp only [acSyms, if_neg h0] at hs
              rw [show (run - 16) % 16 = run % 16 by omega] at hs
              apply hsy
              simp only [List.cons_append, List.mem_cons]
              right; exact hs)
            (by
              rw [hb1]
              simp only [acBits, if_neg h0, List.append_assoc]
              rw [show (run - 16) % 16 = run % 16 by omega])
          refine ⟨r', ?_, hs.trans hs', hb'⟩
          rw [e', show k + 15 + 1 + (run - 16) = k + run by omega]
        · rw [show run / 16 = 0 by omega] at hb hsy
          rw [show run % 16 = run by omega] at hb hsy
          simp only [List.replicate_zero, List.flatten_nil, List.nil_append, List.append_assoc] at hb hsy
          obtain ⟨r1, e, hs, hb1⟩ := L.dec _ (hsy _ (by simp)) r _ hr ht hb
          obtain ⟨x, r2, e2, hx, hs2, hb2⟩ := readMag h0 (by omega) hs.ok
            (by rw [hs.tail]; exact ht) hb1
          have hsh : (run * 16 + nbitsOf t.natAbs) >>> 4 = run := by
            rw [Nat.shiftRight_eq_div_pow]; omega
          have hlo : (run * 16 + nbitsOf t.natAbs) &&& 15 = nbitsOf t.natAbs := by
            rw [show 15 = 2 ^ 4 - 1 by rfl, Nat.and_two_pow_sub_one_eq_mod]; omega
          rw [decAC, if_pos (by omega), e]
          dsimp only
          rw [hsh, hlo, if_pos (by omega), e2]
          dsimp only
          obtain ⟨r', e', hs', hb'⟩ := ih 0 (k + run + 1)
            (if need then blk.set (natOrder.getD (k + run) 0) (toCoef (huffExtend x (nbitsOf t.natAbs)))
              else blk) r2 rest hs2.ok
            (by rw [hs2.tail, hs.tail]; exact ht) (by omega) hts'
            (fun s hs => hsy s (by simp [hs])) hb2
          refine ⟨r', ?_, (hs.trans hs2).trans hs', hb'⟩
          rw [e', hx]
          have hlt := lt_of_nbitsOf_le hnb
          rw [toCoef_id (by omega) (by omega)]
          cases need <;> simp [setAC, h0]

end Verif.Huff
