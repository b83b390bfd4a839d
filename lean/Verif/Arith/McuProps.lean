import Verif.Arith.McuModel
import Verif.Arith.Props
import Verif.Prog.Image
/-
The decisions of an MCU, replayed by the decoder's MCU routine, give the coefficients.
-/
namespace Verif.Arith
open Verif
open Verif.Huff hiding setAC
open Verif.Geom (Pos Blk storeMcu)
open Verif.Prog (apxAC apxDC setBand band setAC Coef16)

section
variable {β α γ : Type} [DecidableEq β]

theorem replay_bind {p : Rdr β α} {f : α → Rdr β γ} {ds1 ds2 : List (β × Bool)} {a : α} (h : p.replay ds1 = some a) :
    (p.bind f).replay (ds1 ++ ds2) = (f a).replay ds2 := by
  induction p generalizing ds1 with
  | ret x =>
    cases ds1 with
    | nil => simp only [Rdr.replay, Option.some.injEq] at h; subst h; rfl
    | cons _ _ => simp [Rdr.replay] at h
  | ask b k ih =>
    cases ds1 with
    | nil => simp [Rdr.replay] at h
    | cons y ds1 =>
      obtain ⟨b', x⟩ := y
      simp only [Rdr.replay] at h
      by_cases hb : b = b'
      · rw [if_pos hb] at h
        simp only [Rdr.bind, List.cons_append, Rdr.replay, if_pos hb]
        exact ih x h
      · rw [if_neg hb] at h; simp at h

theorem replay_bind' {p : Rdr β α} {f : α → Rdr β γ} {ds : List (β × Bool)} {a : α} (h : p.replay ds = some a) :
    (p.bind f).replay ds = (f a).replay [] := by
  have := replay_bind (f := f) (ds2 := []) h
  rwa [List.append_nil] at this

theorem replay_ask {b : β} {k : Bool → Rdr β α} {x : Bool} {ds : List (β × Bool)} :
    (Rdr.ask b k).replay ((b, x) :: ds) = (k x).replay ds := by simp [Rdr.replay]

theorem replay_ret {x : α} : (Rdr.ret (β := β) x).replay [] = some x := rfl
end

theorem cat_spec (mk : Nat → Bin) (j n f w m st : Nat) (h1 : 2 ^ j ≤ w) (h2 : w < 2 ^ (j + 1)) (hn : j < n) (hf : j < f)
    (hm : 1 ≤ m) (hb : m * 2 ^ j < 0x8000) :
    (catLoop mk n w m st).2 = (m * 2 ^ j, st + j) ∧
      (rCat mk f m st).replay ((catLoop mk n w m st).1 ++ [(mk (st + j), false)]) = some (some (m * 2 ^ j, st + j)) := by
  induction j generalizing n f w m st with
  | zero =>
    obtain ⟨n, rfl⟩ : ∃ a, n = a + 1 := ⟨n - 1, by omega⟩
    obtain ⟨f, rfl⟩ : ∃ a, f = a + 1 := ⟨f - 1, by omega⟩
    have hw : w = 1 := by omega
    subst hw
    simp [catLoop, rCat, Rdr.replay]
  | succ j ih =>
    obtain ⟨n, rfl⟩ : ∃ a, n = a + 1 := ⟨n - 1, by omega⟩
    obtain ⟨f, rfl⟩ : ∃ a, f = a + 1 := ⟨f - 1, by omega⟩
    have hp : 2 ^ (j + 1) = 2 ^ j * 2 := pow_succ 2 j
    have hp2 : 2 ^ (j + 1 + 1) = 2 ^ (j + 1) * 2 := pow_succ 2 (j + 1)
    have hpj := Nat.two_pow_pos j
    have e : m * 2 * 2 ^ j = m * 2 ^ (j + 1) := by rw [hp]; ring
    obtain ⟨h3, h4⟩ := ih n f (w / 2) (m * 2) (st + 1) (by omega) (by omega) (by omega) (by omega) (by omega) (by rw [e]; exact hb)
    have hne : m * 2 ≠ 0x8000 := by
      intro h
      have h5 : m * 2 * 1 ≤ m * 2 * 2 ^ j := Nat.mul_le_mul_left _ hpj
      rw [e] at h5
      omega
    rw [catLoop, if_neg (by omega)]
    dsimp only
    rw [e] at h3 h4
    have e2 : st + 1 + j = st + (j + 1) := by omega
    rw [e2] at h3 h4
    refine ⟨h3, ?_⟩
    rw [List.cons_append, rCat, replay_ask, if_pos rfl, if_neg hne]
    exact h4

theorem or_two_pow {v j : Nat} (q : Nat) (hv : v = q * 2 ^ (j + 1)) : v ||| 2 ^ j = v + 2 ^ j := by
  have hlt : 2 ^ j < 2 ^ (j + 1) := Nat.pow_lt_pow_right (by omega) (by omega)
  have := Nat.two_pow_add_eq_or_of_lt hlt q
  rw [Nat.mul_comm, ← hv] at this
  exact this.symm

theorem two_pow_and_ne (w j : Nat) : (2 ^ j &&& w ≠ 0) ↔ w / 2 ^ j % 2 = 1 := by
  have ht : w.testBit j = decide (w / 2 ^ j % 2 = 1) := Nat.testBit_eq_decide_div_mod_eq
  constructor
  · intro h
    by_contra hc
    apply h
    apply Nat.eq_of_testBit_eq
    intro i
    rw [Nat.testBit_and, Nat.testBit_two_pow]
    by_cases hi : j = i
    · subst hi; simp [ht, hc]
    · simp [hi]
  · intro h h0
    have : (2 ^ j &&& w).testBit j = true := by
      rw [Nat.testBit_and, Nat.testBit_two_pow, ht]; simp [h]
    rw [h0] at this
    simp at this

theorem bits_spec (b : Bin) (w : Nat) (j n v : Nat) (hn : j ≤ n) (hv : v = w / 2 ^ j * 2 ^ j) :
    (rBits b n (2 ^ j) v).replay (bitLoop b w n (2 ^ j)) = some w := by
  induction j generalizing n v with
  | zero =>
    have : v = w := by rw [hv]; simp
    cases n with
    | zero => simp [rBits, bitLoop, Rdr.replay, this]
    | succ n => simp [rBits, bitLoop, Rdr.replay, this]
  | succ j ih =>
    obtain ⟨n, rfl⟩ : ∃ a, n = a + 1 := ⟨n - 1, by omega⟩
    have hp : 2 ^ (j + 1) / 2 = 2 ^ j := by rw [pow_succ]; simp
    have hpj := Nat.two_pow_pos j
    rw [rBits, bitLoop, hp, if_neg (by omega), if_neg (by omega), replay_ask]
    apply ih _ _ (by omega)
    have hq : w / 2 ^ (j + 1) = w / 2 ^ j / 2 := by rw [pow_succ, Nat.div_div_eq_div_mul]
    have hor := or_two_pow (v := v) (j := j) (w / 2 ^ (j + 1)) hv
    have hpp : 2 ^ (j + 1) = 2 ^ j * 2 := pow_succ 2 j
    have hbit := two_pow_and_ne w j
    have hd := Nat.div_add_mod (w / 2 ^ j) 2
    rw [hq, hpp] at hv
    have h2 : w / 2 ^ j / 2 * (2 ^ j * 2) = 2 * (w / 2 ^ j / 2) * 2 ^ j := by ring
    by_cases h : w / 2 ^ j % 2 = 1
    · have h5 : decide (2 ^ j &&& w ≠ 0) = true := by simpa using hbit.2 h
      rw [h5, if_pos rfl, hor, hv, h2]
      conv_rhs => rw [← hd, h]
      ring
    · have h5 : decide (2 ^ j &&& w ≠ 0) = false := by
        rw [decide_eq_false_iff_not]; exact fun hh => h (hbit.1 hh)
      rw [h5, if_neg (by simp), hv, h2]
      conv_rhs => rw [← hd, show w / 2 ^ j % 2 = 0 by omega]
      rw [Nat.add_zero]

theorem bits_zero (b : Bin) (n : Nat) : (rBits b n 0 0).replay (bitLoop b 0 n 0) = some 0 := by
  cases n <;> simp [rBits, bitLoop, Rdr.replay]

theorem exists_log {w : Nat} (h1 : 1 ≤ w) (h2 : w < 2 ^ 15) : ∃ j, 2 ^ j ≤ w ∧ w < 2 ^ (j + 1) ∧ j < 15 := by
  exact ⟨w.log2, Nat.log2_self_le (by omega), Nat.lt_log2_self, (Nat.log2_lt (by omega)).2 h2⟩

theorem pow_lt_15 {j : Nat} (h : j < 15) : 2 ^ j < 0x8000 := Nat.pow_lt_pow_right (a := 2) (by omega) h

theorem encDC_spec (q : Cond) (tbl ctx : Nat) (v : Int) (hv : v.natAbs ≤ 32768) :
    (rDC q tbl ctx).replay (encDC q tbl ctx v).1 = some (some (v, (encDC q tbl ctx v).2)) := by
  unfold encDC rDC
  by_cases h0 : v = 0
  · subst h0
    simp [Rdr.replay]
  rw [if_neg h0]
  dsimp only
  generalize hneg : decide (v < 0) = neg
  generalize hw : v.natAbs - 1 = w
  have hst : (if neg = true then ctx + 3 else ctx + 2) = ctx + 2 + if neg = true then 1 else 0 := by cases neg <;> rfl
  have hres : (if neg = true then -((w : Int) + 1) else (w : Int) + 1) = v := by
    cases neg
    · simp at hneg; simp; omega
    · simp at hneg; simp; omega
  rw [hst]
  rw [List.cons_append, List.cons_append, replay_ask]
  simp only [Bool.not_true, Bool.false_eq_true, if_false]
  rw [replay_ask]
  by_cases hw0 : w = 0
  · subst hw0
    simp only [ne_eq, not_true_eq_false, if_false, List.nil_append]
    rw [replay_ask]
    simp only [Bool.false_eq_true, if_false, Rdr.bind]
    rw [replay_bind' (bits_zero _ _), replay_ret]
    rw [← hres]
    cases neg <;> simp
  · obtain ⟨j, h1, h2, h3⟩ := exists_log (w := w) (by omega) (by omega)
    obtain ⟨h4, h5⟩ := cat_spec (.dc tbl) j 32 16 w 1 20 h1 h2 (by omega) (by omega) (by omega)
      (by rw [Nat.one_mul]; exact pow_lt_15 h3)
    rw [Nat.one_mul] at h4 h5
    simp only [ne_eq, hw0, not_false_eq_true, if_true]
    rw [h4, List.cons_append, replay_ask, if_pos rfl]
    dsimp only
    rw [show ∀ (a b : List (Bin × Bool)) y, a ++ y :: b = (a ++ [y]) ++ b by simp, replay_bind h5]
    dsimp only
    rw [replay_bind' (bits_spec _ w j 32 (2 ^ j) (by omega) (by
      rw [Nat.div_eq_of_lt_le (k := 1) (by omega) (by rw [pow_succ] at h2; omega)]; simp)), replay_ret]
    rw [hres]
    cases neg <;> simp

theorem magAC_spec (q : Cond) (tbl k v : Nat) (neg : Bool) (h1 : 1 ≤ v) (hv : v ≤ 32768) :
    (rMag q tbl k).replay ((.fixed, neg) :: magAC q tbl k v) = some (some (if neg then -(v : Int) else (v : Int))) := by
  unfold rMag magAC
  rw [replay_ask]
  dsimp only
  generalize hw : v - 1 = w
  have hres : (if neg = true then -((w : Int) + 1) else (w : Int) + 1) = if neg then -(v : Int) else (v : Int) := by
    have : (w : Int) + 1 = v := by omega
    rw [this]
  by_cases hw0 : w = 0
  · subst hw0
    simp only [ne_eq, not_true_eq_false, if_false, List.nil_append]
    rw [replay_ask]
    simp only [Bool.false_eq_true, if_false, Rdr.bind]
    rw [replay_bind' (bits_zero _ _), replay_ret]
    exact congrArg (fun x => some (some x)) hres
  · simp only [ne_eq, hw0, not_false_eq_true, if_true]
    by_cases hw2 : w / 2 = 0
    · have hw1 : w = 1 := by omega
      subst hw1
      simp only [hw2, not_true_eq_false, if_false, List.cons_append, List.nil_append]
      rw [replay_ask]
      simp only [if_true]
      rw [show ((Bin.ac tbl (3 * (k - 1) + 2), false) :: bitLoop (Bin.ac tbl (3 * (k - 1) + 2 + 14)) 1 32 1) =
        [(Bin.ac tbl (3 * (k - 1) + 2), false)] ++ bitLoop (Bin.ac tbl (3 * (k - 1) + 2 + 14)) 1 32 1 from rfl]
      rw [replay_bind (a := some (1, 3 * (k - 1) + 2)) (by simp [Rdr.replay])]
      dsimp only
      have hb1 := bits_spec (.ac tbl (3 * (k - 1) + 2 + 14)) 1 0 32 1 (by omega) (by simp)
      rw [pow_zero] at hb1
      rw [replay_bind' hb1, replay_ret]
      exact congrArg (fun x => some (some x)) hres
    · simp only [hw2, not_false_eq_true, if_true]
      obtain ⟨j, h3, h4, h5⟩ := exists_log (w := w / 2) (by omega) (by omega)
      have hp := pow_succ 2 j
      have hp2 := pow_succ 2 (j + 1)
      have hj : j + 1 < 15 := by
        by_contra hc
        have : 2 ^ 14 ≤ 2 ^ j := Nat.pow_le_pow_right (by omega) (by omega)
        omega
      have hpl := pow_lt_15 hj
      obtain ⟨h6, h7⟩ := cat_spec (.ac tbl) j 32 16 (w / 2) 2 (if k ≤ q.K tbl then 189 else 217) h3 h4 (by omega) (by omega)
        (by omega) (by rw [Nat.mul_comm, ← pow_succ]; exact hpl)
      rw [h6]
      have e2 : 2 * 2 ^ j = 2 ^ (j + 1) := by rw [pow_succ]; ring
      rw [e2] at h7 ⊢
      dsimp only
      rw [List.cons_append, replay_ask]
      simp only [if_true]
      have h8 : (Rdr.ask (Bin.ac tbl (3 * (k - 1) + 2)) fun b2 =>
          if b2 = true then rCat (Bin.ac tbl) 16 2 (if k ≤ q.K tbl then 189 else 217)
          else Rdr.ret (some (1, 3 * (k - 1) + 2))).replay ((Bin.ac tbl (3 * (k - 1) + 2), true) ::
            ((catLoop (Bin.ac tbl) 32 (w / 2) 2 (if k ≤ q.K tbl then 189 else 217)).1 ++
              [(Bin.ac tbl ((if k ≤ q.K tbl then 189 else 217) + j), false)])) =
          some (some (2 ^ (j + 1), (if k ≤ q.K tbl then 189 else 217) + j)) := by
        rw [replay_ask, if_pos rfl]; exact h7
      rw [List.cons_append, show ∀ (a b : List (Bin × Bool)) y z, z :: (a ++ y :: b) = (z :: (a ++ [y])) ++ b by simp,
        replay_bind h8]
      dsimp only
      rw [replay_bind' (bits_spec _ w (j + 1) 32 (2 ^ (j + 1)) (by omega) (by
        rw [Nat.div_eq_of_lt_le (k := 1) (by omega) (by omega)]; simp)), replay_ret]
      exact congrArg (fun x => some (some x)) hres

/-! ### AC coefficients -/

theorem keIdx_le (blk : Blk) (Al n : Nat) : keIdx blk Al n ≤ n := by
  induction n with
  | zero => simp [keIdx]
  | succ n ih => rw [keIdx]; split <;> omega

theorem keIdx_ne (blk : Blk) (Al n : Nat) (h : keIdx blk Al n ≠ 0) : absAt blk Al (keIdx blk Al n) ≠ 0 := by
  induction n with
  | zero => simp [keIdx] at h
  | succ n ih =>
    rw [keIdx] at h ⊢
    split
    · assumption
    · rename_i hc
      rw [if_neg hc] at h
      exact ih h

theorem keIdx_zero (blk : Blk) (Al n : Nat) {j : Nat} (h1 : keIdx blk Al n < j) (h2 : j ≤ n) : absAt blk Al j = 0 := by
  induction n with
  | zero => omega
  | succ n ih =>
    rw [keIdx] at h1
    split at h1
    · omega
    · rename_i hc
      by_cases hj : j = n + 1
      · subst hj; simpa using hc
      · exact ih h1 (by omega)

theorem band_cons {k Se : Nat} (h : k ≤ Se) (blk : Blk) : band k Se blk = coefAt blk k :: band (k + 1) Se blk := by
  unfold band
  rw [show Se + 1 - k = (Se + 1 - (k + 1)) + 1 by omega, List.range_succ_eq_map, List.map_cons, List.map_map]
  congr 1
  apply List.map_congr_left
  intro a _
  simp only [Function.comp_apply]
  rw [show k + a.succ = k + 1 + a by omega]

theorem band_nil {k Se : Nat} (h : Se < k) (blk : Blk) : band k Se blk = [] := by
  unfold band
  rw [show Se + 1 - k = 0 by omega]
  rfl

theorem mem_band {k Se : Nat} {blk : Blk} {v : Int} (h : v ∈ band k Se blk) : ∃ j, k ≤ j ∧ j ≤ Se ∧ v = coefAt blk j := by
  unfold band at h
  obtain ⟨i, hi, rfl⟩ := List.mem_map.1 h
  rw [List.mem_range] at hi
  exact ⟨k + i, by omega, by omega, rfl⟩

/-- What is left of the band is zero: nothing to store. -/
theorem setBand_rest {k Se Al : Nat} {o c : Blk} (hSe : Se < 64) (hz : ∀ j, k ≤ j → j ≤ Se → absAt o Al j = 0)
    (hc : ∀ j, k ≤ j → j ≤ Se → coefAt c j = 0) : setBand k ((band k Se o).map (apxAC Al)) c = c := by
  by_cases hk : k ≤ Se
  · apply Prog.setBand_zeros
    · rw [List.length_map, Prog.band_length]; omega
    · intro w hw
      obtain ⟨v, hv, rfl⟩ := List.mem_map.1 hw
      obtain ⟨j, h1, h2, rfl⟩ := mem_band hv
      exact Prog.apxAC_eq_zero.2 (hz j h1 h2)
    · intro j h1 h2
      rw [List.length_map, Prog.band_length] at h2
      exact hc j h1 (by omega)
  · rw [band_nil (by omega)]
    rfl

theorem coefAt_set_ne {c : Blk} {k j : Nat} {v : Int} (hk : k < 64) (hj : j < 64) (h : k ≠ j) :
    coefAt (c.set (natOrder.getD k 0) v) j = coefAt c j :=
  Prog.getD_set_ne (Prog.natOrder_ne hk hj h)

theorem toCoef_ac {Al : Nat} {v : Int} (hv : Coef16 v) :
    toCoef ((if decide (v < 0) then -((v.natAbs >>> Al : Nat) : Int) else ((v.natAbs >>> Al : Nat) : Int)) * 2 ^ Al) = apxAC Al v := by
  have h : (if decide (v < 0) then -((v.natAbs >>> Al : Nat) : Int) else ((v.natAbs >>> Al : Nat) : Int)) * 2 ^ Al = apxAC Al v := by
    rw [Prog.apxAC_eq, ← Prog.two_pow_cast]
    by_cases hn : v < 0
    · simp only [hn, decide_true, if_true]; push_cast; ring
    · simp only [hn, decide_false, Bool.false_eq_true, if_false]; push_cast; ring
  rw [h]
  exact Prog.toCoef_coef (Prog.apxAC_coef hv)

theorem acGo_spec (q : Cond) (tbl Al Se : Nat) (hSe : Se < 64) (o : Blk) (ho : ∀ j, j ≤ Se → Coef16 (coefAt o j)) (n : Nat) :
    ∀ (k : Nat) (eob : Bool) (c : Blk), 1 ≤ k → k + n ≤ Se + 1 → (∀ j, k + n ≤ j → j ≤ Se → absAt o Al j = 0) →
      (n ≠ 0 → absAt o Al (k + n - 1) ≠ 0) → (eob = false → n ≠ 0) → (∀ j, k ≤ j → j ≤ Se → coefAt c j = 0) →
      (rAC q tbl Al (Se + 1 - k) k eob c).replay (acGo q tbl o Al n k eob ++ eobEnd tbl Se (k + n)) =
        some (setBand k ((band k Se o).map (apxAC Al)) c, true) := by
  induction n with
  | zero =>
    intro k eob c _ hle hz _ he hc
    have heob : eob = true := by cases eob <;> simp at he ⊢
    subst heob
    rw [setBand_rest hSe (fun j h1 h2 => hz j (by omega) h2) hc]
    simp only [acGo, List.nil_append, Nat.add_zero]
    by_cases hk : k ≤ Se
    · rw [eobEnd, if_pos hk, show Se + 1 - k = (Se - k) + 1 by omega, rAC]
      simp only [if_true]
      rw [replay_ask, if_pos rfl]
      rfl
    · rw [eobEnd, if_neg hk, show Se + 1 - k = 0 by omega, rAC]
      rfl
  | succ n ih =>
    intro k eob c h1 hle hz hl he hc
    have hk : k ≤ Se := by omega
    rw [band_cons hk, List.map_cons, setBand]
    rw [show Se + 1 - k = (Se + 1 - (k + 1)) + 1 by omega]
    rw [show k + (n + 1) = (k + 1) + n by omega] at hz hl hle ⊢
    -- the coefficient itself
    have key : ∀ rest : Rdr Bin (Blk × Bool), rest = (.ask (.ac tbl (3 * (k - 1) + 1)) fun x =>
        if x then (rMag q tbl k).bind fun r =>
          match r with
          | none => .ret (c, false)
          | some v => rAC q tbl Al (Se + 1 - (k + 1)) (k + 1) true (c.set (natOrder.getD k 0) (toCoef (v * 2 ^ Al)))
        else rAC q tbl Al (Se + 1 - (k + 1)) (k + 1) false c) →
        rest.replay ((if absAt o Al k ≠ 0 then
          (.ac tbl (3 * (k - 1) + 1), true) :: (.fixed, decide (coefAt o k < 0)) :: magAC q tbl k (absAt o Al k) ++
            acGo q tbl o Al n (k + 1) true
          else (.ac tbl (3 * (k - 1) + 1), false) :: acGo q tbl o Al n (k + 1) false) ++ eobEnd tbl Se (k + 1 + n)) =
        some (setBand (k + 1) ((band (k + 1) Se o).map (apxAC Al)) (c.set (natOrder.getD k 0) (apxAC Al (coefAt o k))), true) := by
      rintro rest rfl
      by_cases hv : absAt o Al k ≠ 0
      · rw [if_pos hv, List.cons_append, List.cons_append, List.cons_append, replay_ask, if_pos rfl]
        have hm := magAC_spec q tbl k (absAt o Al k) (decide (coefAt o k < 0)) (by omega) (Prog.shr_lt (ho k hk) Al)
        rw [List.cons_append, List.append_assoc, ← List.cons_append, replay_bind hm]
        dsimp only
        have hco := toCoef_ac (Al := Al) (ho k hk)
        unfold absAt
        rw [hco]
        refine ih (k + 1) true _ (by omega) hle hz (by intro hn; exact hl (by omega)) (by simp) ?_
        intro j hj1 hj2
        rw [coefAt_set_ne (by omega) (by omega) (by omega)]
        exact hc j (by omega) hj2
      · rw [if_neg hv, List.cons_append, replay_ask]
        simp only [Bool.false_eq_true, if_false]
        have hv0 : absAt o Al k = 0 := by simpa using hv
        rw [Prog.apxAC_eq_zero.2 hv0, Prog.set_zero_self _ _ (hc k (le_refl _) hk)]
        have hn : n ≠ 0 := by
          rintro rfl
          exact hl (by omega) (by simpa using hv0)
        exact ih (k + 1) false c (by omega) hle hz (fun _ => hl (by omega)) (fun _ => hn) (fun j hj => hc j (by omega))
    rw [acGo, rAC]
    cases eob with
    | true =>
      simp only [if_true, List.cons_append, List.nil_append]
      rw [replay_ask]
      simp only [Bool.false_eq_true, if_false]
      exact key _ rfl
    | false =>
      simp only [Bool.false_eq_true, if_false, List.nil_append]
      exact key _ rfl

theorem encAC_spec (q : Cond) (tbl Al Ss Se : Nat) (h1 : 1 ≤ Ss) (h2 : Ss ≤ Se) (hSe : Se < 64) (o c : Blk)
    (ho : ∀ j, j ≤ Se → Coef16 (coefAt o j)) (hc : ∀ j, Ss ≤ j → j ≤ Se → coefAt c j = 0) :
    (rAC q tbl Al (Se + 1 - Ss) Ss true c).replay (encAC q tbl Ss Se Al o) = some (setAC Ss Se Al o c, true) := by
  unfold encAC setAC
  dsimp only
  have hle := keIdx_le o Al Se
  rw [show max Ss (keIdx o Al Se + 1) = Ss + (keIdx o Al Se + 1 - Ss) by omega]
  apply acGo_spec q tbl Al Se hSe o ho _ _ _ _ h1 (by omega) _ _ (by simp) hc
  · intro j hj1 hj2
    exact keIdx_zero o Al Se (by omega) hj2
  · intro hn
    rw [show Ss + (keIdx o Al Se + 1 - Ss) - 1 = keIdx o Al Se by omega]
    exact keIdx_ne o Al Se (by omega)

theorem kexIdx_le (blk : Blk) (n : Nat) : kexIdx blk n ≤ n := by
  induction n with
  | zero => simp [kexIdx]
  | succ n ih => rw [kexIdx]; split <;> omega

theorem kexIdx_ne (blk : Blk) (n : Nat) (h : kexIdx blk n ≠ 0) : coefAt blk (kexIdx blk n) ≠ 0 := by
  induction n with
  | zero => simp [kexIdx] at h
  | succ n ih =>
    rw [kexIdx] at h ⊢
    split
    · assumption
    · rename_i hc
      rw [if_neg hc] at h
      exact ih h

theorem kexIdx_zero (blk : Blk) (n : Nat) {j : Nat} (h1 : kexIdx blk n < j) (h2 : j ≤ n) : coefAt blk j = 0 := by
  induction n with
  | zero => omega
  | succ n ih =>
    rw [kexIdx] at h1
    split at h1
    · omega
    · rename_i hc
      by_cases hj : j = n + 1
      · subst hj; simpa using hc
      · exact ih h1 (by omega)

/-- Both sides see the same "previous end of block" as far as the band is concerned. -/
theorem kex_agree {Ss Se Al : Nat} {o c : Blk} (h1 : 1 ≤ Ss)
    (hc : ∀ j, Ss ≤ j → j ≤ Se → coefAt c j = apxAC (Al + 1) (coefAt o j)) {k : Nat} (hk : Ss ≤ k) :
    k > keIdx o (Al + 1) (keIdx o Al Se) ↔ k > kexIdx c Se := by
  have hle := keIdx_le o Al Se
  have hle2 := keIdx_le o (Al + 1) (keIdx o Al Se)
  have hle3 := kexIdx_le c Se
  have habs : ∀ j, absAt o Al j = 0 → absAt o (Al + 1) j = 0 := by
    intro j hj
    unfold absAt at hj ⊢
    rw [Nat.shiftRight_succ, hj]
  constructor
  · intro h
    by_contra hcon
    have h0 : kexIdx c Se ≠ 0 := by omega
    apply kexIdx_ne c Se h0
    rw [hc _ (by omega) hle3, Prog.apxAC_eq_zero]
    by_cases hke : kexIdx c Se ≤ keIdx o Al Se
    · exact keIdx_zero o (Al + 1) _ (by omega) hke
    · exact habs _ (keIdx_zero o Al Se (by omega) hle3)
  · intro h
    by_contra hcon
    have h0 : keIdx o (Al + 1) (keIdx o Al Se) ≠ 0 := by omega
    have := keIdx_ne o (Al + 1) _ h0
    apply this
    have hz := kexIdx_zero c Se (j := keIdx o (Al + 1) (keIdx o Al Se)) (by omega) (by omega)
    rw [hc _ (by omega) (by omega), Prog.apxAC_eq_zero] at hz
    exact hz

/-- The correction of a coefficient that was nonzero before (jdarith.c:482-487). -/
theorem corr_spec {Al : Nat} {v : Int} (hv : Coef16 v) (hAl : Al < 15) (h2 : v.natAbs >>> Al / 2 ≠ 0) :
    apxAC (Al + 1) v ≠ 0 ∧
      (if decide (v.natAbs >>> Al % 2 ≠ 0) then
        toCoef (apxAC (Al + 1) v + toCoef (if apxAC (Al + 1) v < 0 then -2 ^ Al else 2 ^ Al)) else apxAC (Al + 1) v) =
      apxAC Al v := by
  obtain ⟨h3, h4⟩ := Prog.correct_spec hv hAl (by generalize v.natAbs >>> Al = a at h2 ⊢; omega)
  refine ⟨h3, ?_⟩
  rw [← h4]
  by_cases hodd : v.natAbs >>> Al % 2 ≠ 0
  · simp only [hodd, not_false_eq_true, decide_true, if_true, ne_eq]
    have hand := Prog.low16_testBit (c := apxAC (Al + 1) v) (Al := Al) (by omega)
      (v.natAbs >>> (Al + 1) * 2 ^ (Al + 1)) (by rw [Prog.apxAC_eq]; split <;> simp) (Dvd.intro_left _ rfl)
    unfold Prog.correct
    rw [if_pos hand]
    by_cases hn : apxAC (Al + 1) v < 0
    · rw [if_pos hn, if_neg (by omega)]
    · rw [if_neg hn, if_pos (by omega)]
  · simp [hodd]

theorem toCoef_bit {Al : Nat} (hAl : Al < 15) (sg : Bool) :
    toCoef (if sg then -2 ^ Al else 2 ^ Al) = if sg then -2 ^ Al else 2 ^ Al := by
  have hpl : 2 ^ Al < 32768 := Nat.pow_lt_pow_right (by omega) hAl
  rw [← Prog.two_pow_cast]
  generalize 2 ^ Al = P at hpl
  cases sg
  · simp only [Bool.false_eq_true, if_false]; exact toCoef_id (by omega) (by omega)
  · simp only [if_true]; exact toCoef_id (by omega) (by omega)

theorem refGo_spec (tbl Al Se kexE kexD : Nat) (hAl : Al < 15) (hSe : Se < 64) (o : Blk)
    (ho : ∀ j, j ≤ Se → Coef16 (coefAt o j)) (n : Nat) :
    ∀ (k : Nat) (eob : Bool) (c : Blk), 1 ≤ k → k + n ≤ Se + 1 → (∀ j, k + n ≤ j → j ≤ Se → absAt o Al j = 0) →
      (n ≠ 0 → absAt o Al (k + n - 1) ≠ 0) → (eob = false → n ≠ 0) →
      (∀ j, k ≤ j → j ≤ Se → coefAt c j = apxAC (Al + 1) (coefAt o j)) → (∀ j, k ≤ j → (j > kexE ↔ j > kexD)) → kexE < k + n →
      (rRef tbl Al kexD (Se + 1 - k) k eob c).replay (refGo tbl o Al kexE n k eob ++ eobEnd tbl Se (k + n)) =
        some (setBand k ((band k Se o).map (apxAC Al)) c, true) := by
  induction n with
  | zero =>
    intro k eob c _ hle hz _ he hc hkx hlast
    have heob : eob = true := by cases eob <;> simp at he ⊢
    subst heob
    rw [setBand_rest hSe (fun j h1 h2 => hz j (by omega) h2) (by
      intro j hj1 hj2
      rw [hc j hj1 hj2]
      exact (Prog.zero_spec (hz j (by omega) hj2)).2)]
    simp only [refGo, List.nil_append, Nat.add_zero] at hlast ⊢
    by_cases hk : k ≤ Se
    · rw [eobEnd, if_pos hk, show Se + 1 - k = (Se - k) + 1 by omega, rRef]
      dsimp only
      rw [if_pos ⟨rfl, (hkx k (le_refl _)).1 (by omega)⟩, replay_ask, if_pos rfl]
      rfl
    · rw [eobEnd, if_neg hk, show Se + 1 - k = 0 by omega, rRef]
      rfl
  | succ n ih =>
    intro k eob c h1 hle hz hl he hc hkx hlast
    have hk : k ≤ Se := by omega
    rw [band_cons hk, List.map_cons, setBand]
    rw [show Se + 1 - k = (Se + 1 - (k + 1)) + 1 by omega]
    rw [show k + (n + 1) = (k + 1) + n by omega] at hz hl hle hlast ⊢
    have hck := hc k (le_refl _) hk
    have hcn : ∀ v : Int, ∀ j, k + 1 ≤ j → j ≤ Se →
        coefAt (c.set (natOrder.getD k 0) v) j = apxAC (Al + 1) (coefAt o j) := by
      intro v j hj1 hj2
      rw [coefAt_set_ne (by omega) (by omega) (by omega)]
      exact hc j (by omega) hj2
    have key : ∀ rest : Rdr Bin (Blk × Bool), rest = (
        if coefAt c k ≠ 0 then .ask (.ac tbl (3 * (k - 1) + 2)) fun x =>
          rRef tbl Al kexD (Se + 1 - (k + 1)) (k + 1) true
            (if x then c.set (natOrder.getD k 0) (toCoef (coefAt c k + toCoef (if coefAt c k < 0 then -2 ^ Al else 2 ^ Al))) else c)
        else .ask (.ac tbl (3 * (k - 1) + 1)) fun x =>
          if x then .ask .fixed fun sg =>
            rRef tbl Al kexD (Se + 1 - (k + 1)) (k + 1) true (c.set (natOrder.getD k 0) (toCoef (if sg then -2 ^ Al else 2 ^ Al)))
          else rRef tbl Al kexD (Se + 1 - (k + 1)) (k + 1) false c) →
        rest.replay ((if absAt o Al k ≠ 0 then
          (if absAt o Al k / 2 ≠ 0 then [(.ac tbl (3 * (k - 1) + 2), decide (absAt o Al k % 2 ≠ 0))]
            else [(.ac tbl (3 * (k - 1) + 1), true), (.fixed, decide (coefAt o k < 0))]) ++ refGo tbl o Al kexE n (k + 1) true
          else (.ac tbl (3 * (k - 1) + 1), false) :: refGo tbl o Al kexE n (k + 1) false) ++ eobEnd tbl Se (k + 1 + n)) =
        some (setBand (k + 1) ((band (k + 1) Se o).map (apxAC Al)) (c.set (natOrder.getD k 0) (apxAC Al (coefAt o k))), true) := by
      rintro rest rfl
      by_cases hv : absAt o Al k ≠ 0
      · rw [if_pos hv]
        by_cases hv2 : absAt o Al k / 2 ≠ 0
        · obtain ⟨g1, g2⟩ := corr_spec (ho k hk) hAl hv2
          rw [if_pos hv2, if_pos (by rw [hck]; exact g1), List.append_assoc, List.cons_append, replay_ask, List.nil_append]
          have hset : (if decide (absAt o Al k % 2 ≠ 0) = true then
              c.set (natOrder.getD k 0) (toCoef (coefAt c k + toCoef (if coefAt c k < 0 then -2 ^ Al else 2 ^ Al))) else c) =
              c.set (natOrder.getD k 0) (apxAC Al (coefAt o k)) := by
            rw [hck]
            rw [← g2]
            unfold absAt
            split
            · rfl
            · rw [Prog.set_self]; exact hck
          rw [hset]
          exact ih (k + 1) true _ (by omega) hle hz (fun hn => hl (by omega)) (by simp) (hcn _) (fun j hj => hkx j (by omega)) hlast
        · have hone : (coefAt o k).natAbs >>> Al = 1 := by unfold absAt at hv hv2; omega
          obtain ⟨g1, g2⟩ := Prog.newnz_spec hone
          rw [if_neg hv2, if_neg (by rw [hck, g2]; simp), List.append_assoc, List.cons_append, replay_ask, if_pos rfl,
            List.cons_append, replay_ask, List.nil_append, toCoef_bit hAl]
          have hset : (if decide (coefAt o k < 0) = true then (-2 ^ Al : Int) else 2 ^ Al) = apxAC Al (coefAt o k) := by
            rw [g1]; by_cases hn : coefAt o k < 0 <;> simp [hn]
          rw [hset]
          exact ih (k + 1) true _ (by omega) hle hz (fun hn => hl (by omega)) (by simp) (hcn _) (fun j hj => hkx j (by omega)) hlast
      · have hv0 : absAt o Al k = 0 := by simpa using hv
        obtain ⟨g1, g2⟩ := Prog.zero_spec hv0
        rw [if_neg hv, if_neg (by rw [hck]; simpa using g2), List.cons_append, replay_ask]
        simp only [Bool.false_eq_true, if_false]
        rw [show apxAC Al (coefAt o k) = 0 from g1, Prog.set_zero_self _ _ (by
          have : coefAt c k = 0 := by rw [hck]; exact g2
          exact this)]
        have hn : n ≠ 0 := by
          rintro rfl
          exact hl (by omega) (by simpa using hv0)
        exact ih (k + 1) false c (by omega) hle hz (fun _ => hl (by omega)) (fun _ => hn) (fun j hj => hc j (by omega))
          (fun j hj => hkx j (by omega)) hlast
    rw [refGo, rRef]
    dsimp only
    by_cases hcond : eob = true ∧ k > kexE
    · rw [if_pos hcond, if_pos ⟨hcond.1, (hkx k (le_refl _)).1 hcond.2⟩, List.append_assoc, List.cons_append, replay_ask,
        List.nil_append]
      simp only [Bool.false_eq_true, if_false]
      exact key _ rfl
    · rw [if_neg hcond, if_neg (fun h => hcond ⟨h.1, (hkx k (le_refl _)).2 h.2⟩), List.nil_append]
      exact key _ rfl

theorem encACRef_spec (tbl Al Ss Se : Nat) (hAl : Al < 15) (h1 : 1 ≤ Ss) (h2 : Ss ≤ Se) (hSe : Se < 64) (o c : Blk)
    (ho : ∀ j, j ≤ Se → Coef16 (coefAt o j)) (hc : ∀ j, Ss ≤ j → j ≤ Se → coefAt c j = apxAC (Al + 1) (coefAt o j)) :
    (rRef tbl Al (kexIdx c Se) (Se + 1 - Ss) Ss true c).replay (encACRef tbl Ss Se (Al + 1) Al o) =
      some (setAC Ss Se Al o c, true) := by
  unfold encACRef setAC
  dsimp only
  have hle := keIdx_le o Al Se
  have hle2 := keIdx_le o (Al + 1) (keIdx o Al Se)
  rw [show max Ss (keIdx o Al Se + 1) = Ss + (keIdx o Al Se + 1 - Ss) by omega]
  apply refGo_spec tbl Al Se _ _ hAl hSe o ho _ _ _ _ h1 (by omega) _ _ (by simp) hc
  · intro j hj
    exact kex_agree h1 hc hj
  · omega
  · intro j hj1 hj2
    exact keIdx_zero o Al Se (by omega) hj2
  · intro hn
    rw [show Ss + (keIdx o Al Se + 1 - Ss) - 1 = keIdx o Al Se by omega]
    exact keIdx_ne o Al Se (by omega)

/-! ### DC coefficients and whole MCUs -/

/-- Predictions on both sides: the decoder's are kept modulo 2^16. -/
def Rel (e d : Pred) : Prop := (∀ c, d.last c % 65536 = e.last c % 65536) ∧ ∀ c, d.ctx c = e.ctx c

theorem Rel.init : Rel Pred.init Pred.init := ⟨fun _ => rfl, fun _ => rfl⟩

/-- The encoder's predictions are DC values in range. -/
def LastIn (e : Pred) : Prop := ∀ c, -16384 ≤ e.last c ∧ e.last c < 16384

theorem LastIn.init : LastIn Pred.init := fun _ => ⟨by simp [Pred.init], by simp [Pred.init]⟩

theorem toCoef_mod {a b : Int} (P : Int) (h : a % 65536 = b % 65536) : toCoef (a * P) = toCoef (b * P) := by
  have : a * P % 65536 = b * P % 65536 := by rw [Int.mul_emod, h, ← Int.mul_emod]
  unfold toCoef
  generalize a * P = x at *
  generalize b * P = y at *
  omega

theorem shift_in {v : Int} (Al : Nat) (h : -16384 ≤ v ∧ v < 16384) : -16384 ≤ v >>> Al ∧ v >>> Al < 16384 := by
  rw [Int.shiftRight_eq_div_pow]
  have hp : (0 : Int) < ((2 ^ Al : Nat) : Int) := by exact_mod_cast Nat.two_pow_pos Al
  have h1 : (1 : Int) ≤ ((2 ^ Al : Nat) : Int) := hp
  generalize ((2 ^ Al : Nat) : Int) = P at *
  constructor
  · rw [Int.le_ediv_iff_mul_le hp]
    nlinarith
  · rw [Int.ediv_lt_iff_lt_mul hp]
    nlinarith

/-- What the DC part of a scan makes of a block, and, with `ac`, the AC part of a sequential scan. -/
def blkRes (ac : Bool) (Al : Nat) (o c : Blk) : Blk :=
  let x := c.set 0 (apxDC Al (o.getD 0 0))
  if ac then setAC 1 63 0 o x else x

theorem encBlks_spec (ac : Bool) (q : Cond) (Al : Nat) (hAl : Al ≤ 15) (bs : List ABlk) :
    ∀ (mcu cur : List Blk) (e d : Pred), mcu.length = bs.length → cur.length = bs.length → Rel e d → LastIn e →
      (∀ o ∈ mcu, -16384 ≤ o.getD 0 0 ∧ o.getD 0 0 < 16384) →
      (ac = true → ∀ o ∈ mcu, ∀ j ≤ 63, Coef16 (coefAt o j)) →
      (ac = true → ∀ c ∈ cur, ∀ j, 1 ≤ j → j ≤ 63 → coefAt c j = 0) →
      ∃ d', (rBlks ac q Al bs cur d).replay (encBlks ac q Al bs mcu e).1 = some (List.zipWith (blkRes ac Al) mcu cur, d', true) ∧
        Rel (encBlks ac q Al bs mcu e).2 d' ∧ LastIn (encBlks ac q Al bs mcu e).2 := by
  induction bs with
  | nil =>
    intro mcu cur e d h1 h2 hr hl _ _ _
    have : mcu = [] := List.length_eq_zero_iff.1 h1
    have : cur = [] := List.length_eq_zero_iff.1 h2
    subst_vars
    exact ⟨d, by simp [rBlks, encBlks, Rdr.replay], by simpa [encBlks] using hr, by simpa [encBlks] using hl⟩
  | cons b bs ih =>
    intro mcu cur e d h1 h2 hr hl ho hac hcz
    obtain ⟨o, mcu, rfl⟩ : ∃ o m, mcu = o :: m := by cases mcu with | nil => simp at h1 | cons o m => exact ⟨o, m, rfl⟩
    obtain ⟨c, cur, rfl⟩ : ∃ o m, cur = o :: m := by cases cur with | nil => simp at h2 | cons o m => exact ⟨o, m, rfl⟩
    simp only [List.length_cons, Nat.add_right_cancel_iff] at h1 h2
    have hdc := ho o (by simp)
    have hm := shift_in Al hdc
    generalize hmv : (o.getD 0 0 : Int) >>> Al = m at hm
    have hdiff : (m - e.last b.ci).natAbs ≤ 32768 := by have := hl b.ci; omega
    have hspec := encDC_spec q b.dcNo (e.ctx b.ci) (m - e.last b.ci) hdiff
    generalize hr1 : encDC q b.dcNo (e.ctx b.ci) (m - e.last b.ci) = r at hspec
    have hE : encDCBlk q Al b o e = (r.1, ⟨upd e.last b.ci m, fun c => if c = b.ci then r.2 else e.ctx c⟩) := by
      unfold encDCBlk; dsimp only; rw [hmv, hr1]
    rw [encBlks, hE]
    dsimp only
    set e1 : Pred := ⟨upd e.last b.ci m, fun c => if c = b.ci then r.2 else e.ctx c⟩ with he1
    generalize hlast : (if m - e.last b.ci = 0 then d.last b.ci else (d.last b.ci + (m - e.last b.ci)) % 65536) = last
    have hlm : last % 65536 = m % 65536 := by
      have := hr.1 b.ci
      rw [← hlast]
      split <;> omega
    set d1 : Pred := ⟨upd d.last b.ci last, fun c => if c = b.ci then r.2 else d.ctx c⟩ with hd1
    have hrel1 : Rel e1 d1 := by
      refine ⟨fun c => ?_, fun c => ?_⟩
      · simp only [he1, hd1, upd]
        by_cases hc : c = b.ci <;> simp [hc, hlm, hr.1]
      · simp only [he1, hd1]
        by_cases hc : c = b.ci <;> simp [hc, hr.2]
    have hl1 : LastIn e1 := by
      intro c
      simp only [he1, upd]
      by_cases hc : c = b.ci
      · simpa [hc] using hm
      · simpa [hc] using hl c
    obtain ⟨d', g1, g2, g3⟩ := ih mcu cur e1 d1 h1 h2 hrel1 hl1 (fun o h => ho o (by simp [h]))
      (fun h o hm => hac h o (by simp [hm])) (fun h o hm => hcz h o (by simp [hm]))
    refine ⟨d', ?_, g2, g3⟩
    rw [rBlks, hr.2 b.ci, List.append_assoc, replay_bind hspec]
    dsimp only
    rw [hlast]
    have hco : toCoef (last * 2 ^ Al) = apxDC Al (o.getD 0 0) := by
      have hap : apxDC Al (o.getD 0 0) = m * 2 ^ Al := by
        rw [← hmv, Int.shiftRight_eq_div_pow, Prog.two_pow_cast, apxDC]
      have hc16 : Coef16 (o.getD 0 0) := by unfold Coef16; omega
      have := Prog.apxDC_coef (Al := Al) hc16 hAl
      rw [hap] at this ⊢
      rw [toCoef_mod _ hlm, Prog.toCoef_coef this]
    rw [hco]
    rw [replay_bind (ds1 := if ac = true then encAC q b.acNo 1 63 0 o else []) (a := (blkRes ac Al o c, true))]
    · simp only [if_true]
      rw [replay_bind' g1]
      rw [List.zipWith_cons_cons]
      rfl
    · unfold blkRes
      cases ac with
      | false => simp [Rdr.replay]
      | true =>
        simp only [if_true]
        exact encAC_spec q b.acNo 0 1 63 (by omega) (by omega) (by omega) o _ (fun j hj => hac rfl o (by simp) j hj) (by
          intro j hj1 hj2
          have := coefAt_set_ne (c := c) (k := 0) (j := j) (v := apxDC Al (o.getD 0 0)) (by omega) (by omega) (by omega)
          rw [show natOrder.getD 0 0 = 0 by decide +kernel] at this
          rw [this]
          exact hcz rfl c (by simp) j hj1 hj2)

theorem dcRef_spec (Al : Nat) (mcu : List Blk) : ∀ cur : List Blk, cur.length = mcu.length →
    (rDCRef Al cur).replay (mcu.map fun blk => (Bin.fixed, decide ((blk.getD 0 0 : Int) >>> Al % 2 ≠ 0))) =
      some (List.zipWith (Prog.refDC Al) mcu cur) := by
  induction mcu with
  | nil => intro cur h; cases cur <;> simp at h; rfl
  | cons o mcu ih =>
    intro cur h
    cases cur with
    | nil => simp at h
    | cons c cur =>
      rw [rDCRef, List.map_cons, replay_ask, replay_bind' (ih cur (by simpa using h)), replay_ret, List.zipWith_cons_cons]
      congr 2
      unfold Prog.refDC Prog.asCode
      generalize (o.getD 0 0 : Int) >>> Al = x
      by_cases hx : x % 2 ≠ 0
      · rw [if_pos (by simpa using hx), if_pos (by omega)]
      · rw [if_neg (by simpa using hx), if_neg (by omega)]

/-- The same scan parameters as in the model of the progressive Huffman coders. -/
def APar.toS (p : APar) : Prog.SPar :=
  ⟨p.Ss, p.Se, p.Ah, p.Al, p.ri, p.bs.map (fun b => ⟨b.ci, b.dcNo⟩), (p.bs.headD ⟨0, 0, 0⟩).acNo⟩

/-- What a scan makes of a block: `o` = the block in the encoder, `c` = what the decoder had before.  Sequential: the block. -/
def APar.res (p : APar) (o c : Blk) : Blk := if p.prog then p.toS.res o c else o

/-- What must be known of the decoder's block before the scan.  Sequential: it is zero. -/
def APar.Ready (p : APar) (o c : Blk) : Prop := if p.prog then p.toS.Ready o c else c = List.replicate 64 0

/-- Sensible parameters. -/
structure APar.Ok (p : APar) : Prop where
  band : p.prog = true → p.Ss ≤ p.Se ∧ p.Se < 64
  al : p.prog = true → p.Al < 15
  ref : p.prog = true → p.Ah ≠ 0 → p.Ah = p.Al + 1

/-- The block has 16-bit coefficients, and a DC value of 15 bits. -/
structure BlkOk (o : Blk) : Prop where
  len : o.length = 64
  coef : ∀ v ∈ o, Coef16 v
  dc : -16384 ≤ o.getD 0 0 ∧ o.getD 0 0 < 16384

theorem BlkOk.at {o : Blk} (h : BlkOk o) (j : Nat) : Coef16 (coefAt o j) := by
  unfold coefAt
  rw [List.getD_eq_getElem?_getD]
  cases e : o[natOrder.getD j 0]? with
  | none => simp [Coef16]
  | some x => exact h.coef x (List.mem_of_getElem? e)

theorem blkRes_seq {o : Blk} (h : BlkOk o) : blkRes true 0 o (List.replicate 64 0) = o := by
  unfold blkRes
  simp only [if_true]
  have hlen : (setAC 1 63 0 o ((List.replicate 64 (0 : Int)).set 0 (apxDC 0 (o.getD 0 0)))).length = 64 := by
    unfold setAC
    rw [Prog.setBand_length]; simp
  apply List.ext_getElem (by rw [hlen, h.len])
  intro j h1 h2
  obtain ⟨hk, hj⟩ := natOrder_surj j (by omega)
  have := Prog.getD_setAC (Ss := 1) (Se := 63) (Al := 0) (o := o) (c := (List.replicate 64 (0 : Int)).set 0 (apxDC 0 (o.getD 0 0)))
    (by simp) (by omega) (by omega) hk
  rw [hj] at this
  have e1 : ∀ l : List Int, ∀ hl : j < l.length, l.getD j 0 = l[j] := by
    intro l hl; simp [List.getD_eq_getElem?_getD, List.getElem?_eq_getElem hl]
  rw [← e1 _ h1, ← e1 _ h2, this]
  split
  · rw [Prog.apxAC_zero]
  · rename_i hc
    have hj0 : j = 0 := by
      have h0 : ∀ i, natOrder.getD i 0 = j → i = 0 → j = 0 := by
        rintro i hi rfl
        rw [← hi]; decide +kernel
      exact h0 _ hj (by omega)
    subst hj0
    rw [Prog.apxDC_zero]
    simp

theorem zero_of_ready {mcu cur : List Blk} (h : List.Forall₂ (fun (_ c : Blk) => c = List.replicate 64 0) mcu cur) :
    ∀ c ∈ cur, c = List.replicate 64 0 := by
  induction h with
  | nil => intro c hc; cases hc
  | cons h _ ih =>
    intro c hc
    rcases List.mem_cons.1 hc with h' | hc
    · rw [h']; exact h
    · exact ih c hc

theorem coefAt_zero {c : Blk} (h : c = List.replicate 64 0) (j : Nat) : coefAt c j = 0 := by
  unfold coefAt
  rw [h, List.getD_eq_getElem?_getD, List.getElem?_replicate]
  split <;> rfl

theorem zip_congr {P : Blk → Blk → Prop} {f g : Blk → Blk → Blk} {mcu cur : List Blk} (h : List.Forall₂ P mcu cur)
    (hf : ∀ o ∈ mcu, ∀ c, P o c → f o c = g o c) : List.zipWith f mcu cur = List.zipWith g mcu cur := by
  induction h with
  | nil => rfl
  | @cons o c os cs h _ ih =>
    rw [List.zipWith_cons_cons, List.zipWith_cons_cons, ih (fun o ho' => hf o (List.mem_cons_of_mem _ ho')),
      hf o List.mem_cons_self c h]

theorem seq_zip {mcu cur : List Blk} (h : List.Forall₂ (fun (_ c : Blk) => c = List.replicate 64 0) mcu cur)
    (ho : ∀ o ∈ mcu, BlkOk o) : List.zipWith (blkRes true 0) mcu cur = List.zipWith (fun o _ => o) mcu cur :=
  zip_congr h fun o hm c hc => (congrArg (blkRes true 0 o) hc).trans (blkRes_seq (ho o hm))

theorem encMcu_spec (p : APar) (hp : p.Ok) (mcu cur : List Blk) (e d : Pred) (h1 : mcu.length = cur.length)
    (h2 : if p.prog = true ∧ p.Ss ≠ 0 then mcu.length = 1 else mcu.length = p.bs.length)
    (ho : ∀ o ∈ mcu, BlkOk o) (hready : List.Forall₂ p.Ready mcu cur) (hr : Rel e d) (hl : LastIn e) :
    ∃ d', (rMcu p cur d).replay (encMcu p mcu e).1 = some (List.zipWith p.res mcu cur, d', true) ∧
      Rel (encMcu p mcu e).2 d' ∧ LastIn (encMcu p mcu e).2 := by
  unfold rMcu encMcu
  by_cases hprog : p.prog = true
  · rw [if_pos hprog, if_pos hprog]
    have hband := hp.band hprog
    have hal := hp.al hprog
    have hres : p.res = p.toS.res := by funext o c; unfold APar.res; rw [if_pos hprog]
    have hrdy : p.Ready = p.toS.Ready := by funext o c; unfold APar.Ready; rw [if_pos hprog]
    rw [hrdy] at hready
    rw [hres]
    by_cases hAh : p.Ah = 0
    · rw [if_pos hAh, if_pos hAh]
      by_cases hSs : p.Ss = 0
      · rw [if_pos hSs, if_pos hSs]
        rw [if_neg (by simp [hSs])] at h2
        have hk : p.toS.kind = .dcFirst := by simp [Prog.SPar.kind, APar.toS, hAh, hSs]
        obtain ⟨d', g1, g2, g3⟩ := encBlks_spec false p.q p.Al (by omega) p.bs mcu cur e d h2 (by omega) hr hl
          (fun o h => (ho o h).dc) (by simp) (by simp)
        refine ⟨d', ?_, g2, g3⟩
        rw [g1]
        have : blkRes false p.Al = p.toS.res := by
          funext o c
          unfold Prog.SPar.res
          rw [hk]
          rfl
        rw [this]
      · rw [if_neg hSs, if_neg hSs]
        rw [if_pos ⟨hprog, hSs⟩] at h2
        have hk : p.toS.kind = .acFirst := by simp [Prog.SPar.kind, APar.toS, hAh, hSs]
        obtain ⟨o, rfl⟩ := List.length_eq_one_iff.1 h2
        obtain ⟨c, rfl⟩ := List.length_eq_one_iff.1 (h1 ▸ h2)
        cases hready with
        | cons hrd _ =>
        unfold Prog.SPar.Ready at hrd
        rw [hk] at hrd
        refine ⟨d, ?_, hr, hl⟩
        simp only [List.headD_cons, List.tail_cons]
        rw [replay_bind' (encAC_spec p.q _ p.Al p.Ss p.Se (by omega) hband.1 hband.2 o c (fun j _ => (ho o (by simp)).at j) hrd)]
        rw [replay_ret]
        simp only [List.zipWith_cons_cons, List.zipWith_nil_left]
        unfold Prog.SPar.res
        rw [hk]
        rfl
    · rw [if_neg hAh, if_neg hAh]
      have hAh1 := hp.ref hprog hAh
      by_cases hSs : p.Ss = 0
      · rw [if_pos hSs, if_pos hSs]
        have hk : p.toS.kind = .dcRefine := by simp [Prog.SPar.kind, APar.toS, hAh, hSs]
        refine ⟨d, ?_, hr, hl⟩
        dsimp only
        rw [replay_bind' (dcRef_spec p.Al mcu cur h1.symm), replay_ret]
        have : Prog.refDC p.Al = p.toS.res := by
          funext o c
          unfold Prog.SPar.res
          rw [hk]
          rfl
        rw [this]
      · rw [if_neg hSs, if_neg hSs]
        rw [if_pos ⟨hprog, hSs⟩] at h2
        have hk : p.toS.kind = .acRefine := by simp [Prog.SPar.kind, APar.toS, hAh, hSs]
        obtain ⟨o, rfl⟩ := List.length_eq_one_iff.1 h2
        obtain ⟨c, rfl⟩ := List.length_eq_one_iff.1 (h1 ▸ h2)
        cases hready with
        | cons hrd _ =>
        unfold Prog.SPar.Ready at hrd
        rw [hk] at hrd
        refine ⟨d, ?_, hr, hl⟩
        simp only [List.headD_cons, List.tail_cons]
        rw [hAh1, replay_bind' (encACRef_spec _ p.Al p.Ss p.Se hal (by omega) hband.1 hband.2 o c (fun j _ => (ho o (by simp)).at j)
          hrd)]
        rw [replay_ret]
        simp only [List.zipWith_cons_cons, List.zipWith_nil_left]
        unfold Prog.SPar.res
        rw [hk]
        rfl
  · rw [if_neg hprog, if_neg hprog]
    rw [if_neg (by simp [hprog])] at h2
    have hrdy : p.Ready = fun o c => c = List.replicate 64 0 := by funext o c; unfold APar.Ready; rw [if_neg hprog]
    have hres : p.res = fun o _ => o := by funext o c; unfold APar.res; rw [if_neg hprog]
    rw [hrdy] at hready
    rw [hres]
    obtain ⟨d', g1, g2, g3⟩ := encBlks_spec true p.q 0 (Nat.zero_le _) p.bs mcu cur e d h2 (h1 ▸ h2) hr hl
      (fun o h => (ho o h).dc) (fun _ o h j _ => (ho o h).at j) (fun _ c hc j _ _ => coefAt_zero (zero_of_ready hready c hc) j)
    refine ⟨d', ?_, g2, g3⟩
    rw [g1, seq_zip hready ho]

end Verif.Arith
