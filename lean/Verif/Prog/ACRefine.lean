import Verif.Prog.ACFirst
/-
AC refinement scans: the decoder follows the encoder.
-/
namespace Verif.Prog
open Verif Verif.Huff

/-- Point-transformed magnitude. -/
def mag (Al : Nat) (v : Int) : Nat := v.natAbs >>> Al

/-- Number of still-zero coefficients. -/
def zc (Al : Nat) : List Int → Nat
  | [] => 0
  | v :: vs => (if mag Al v = 0 then 1 else 0) + zc Al vs

/-- Correction bits of the already nonzero coefficients. -/
def cb (Al : Nat) : List Int → List Nat
  | [] => []
  | v :: vs => (if mag Al v = 0 then [] else [mag Al v &&& 1]) ++ cb Al vs

theorem zc_append (Al : Nat) (a b : List Int) : zc Al (a ++ b) = zc Al a + zc Al b := by
  induction a with
  | nil => simp [zc]
  | cons v a ih => simp only [List.cons_append, zc, ih]; omega

theorem cb_append (Al : Nat) (a b : List Int) : cb Al (a ++ b) = cb Al a ++ cb Al b := by
  induction a with
  | nil => simp [cb]
  | cons v a ih => simp only [List.cons_append, cb, ih, List.append_assoc]

theorem zc_zeros {Al : Nat} {zs : List Int} (h : ∀ v ∈ zs, mag Al v = 0) : zc Al zs = zs.length ∧ cb Al zs = [] := by
  induction zs with
  | nil => exact ⟨rfl, rfl⟩
  | cons v zs ih =>
    obtain ⟨h1, h2⟩ := ih (fun w hw => h w (by simp [hw]))
    simp only [zc, cb, h v (by simp), if_true, h1, h2, List.length_cons, List.nil_append, and_true]
    omega

/-- No newly nonzero coefficient. -/
def NoOne (Al : Nat) (l : List Int) : Prop := ∀ v ∈ l, mag Al v ≠ 1

/-- The decoder's block holds the previous approximation of `vs` at scan positions k, k+1, ... -/
def Cur (Al : Nat) : Nat → List Int → List Int → Prop
  | _, [], _ => True
  | k, v :: vs, blk => blk.getD (natOrder.getD k 0) 0 = apxAC (Al + 1) v ∧ Cur Al (k + 1) vs blk

theorem cur_append {Al k : Nat} {a b blk : List Int} : Cur Al k (a ++ b) blk ↔ Cur Al k a blk ∧ Cur Al (k + a.length) b blk := by
  induction a generalizing k with
  | nil => simp [Cur]
  | cons v a ih =>
    simp only [List.cons_append, Cur, ih, List.length_cons]
    rw [show k + (a.length + 1) = k + 1 + a.length by omega, and_assoc]

theorem cur_set {Al k i : Nat} {vs blk : List Int} {w : Int} (hi : i < k) (hk : k + vs.length ≤ 64)
    (h : Cur Al k vs blk) : Cur Al k vs (blk.set (natOrder.getD i 0) w) := by
  induction vs generalizing k with
  | nil => trivial
  | cons v vs ih =>
    simp only [List.length_cons] at hk
    refine ⟨?_, ih (by omega) (by omega) h.2⟩
    rw [getD_set_ne (natOrder_ne (by omega) (by omega) (by omega))]
    exact h.1

theorem cur_setBand {Al k i : Nat} {ws vs blk : List Int} (hi : i + ws.length ≤ k) (hk : k + vs.length ≤ 64)
    (h : Cur Al k vs blk) : Cur Al k vs (setBand i ws blk) := by
  induction ws generalizing i blk with
  | nil => exact h
  | cons w ws ih =>
    simp only [List.length_cons] at hi
    simp only [setBand]
    exact ih (by omega) (cur_set (by omega) hk h)

theorem set_self (l : List Int) (i : Nat) (v : Int) (h : l.getD i 0 = v) : l.set i v = l := by
  by_cases hv : i < l.length
  · exact set_getD_self l i v h hv
  · exact List.set_eq_of_length_le (by omega)

theorem and1 (n : Nat) : n &&& 1 = n % 2 := Nat.and_two_pow_sub_one_eq_mod n 1

section
variable {Se Al : Nat} (hAl : Al < 15) (hSe : Se < 64)
include hAl hSe

/-- One correction bit. -/
theorem corr_one {v : Int} (hv : Coef16 v) (h2 : 2 ≤ mag Al v) {k : Nat} {blk : List Int}
    (hc : blk.getD (natOrder.getD k 0) 0 = apxAC (Al + 1) v) {r : Rd} {rest : List Bool} (hr : r.Ok) (ht : r.tail ≠ none)
    (hb : r.bits = toBits 1 (mag Al v &&& 1) ++ rest) :
    ∃ b r', readBits r 1 = some (b, r') ∧ r.Same r' ∧ r'.bits = rest ∧
      (if b ≠ 0 then blk.set (natOrder.getD k 0) (correct Al (blk.getD (natOrder.getD k 0) 0)) else blk) =
        blk.set (natOrder.getD k 0) (apxAC Al v) ∧ blk.getD (natOrder.getD k 0) 0 ≠ 0 := by
  obtain ⟨r', e, hs, hb'⟩ := reads_bits (by omega) r rest hr ht hb
  obtain ⟨h3, h4⟩ := correct_spec hv hAl h2
  refine ⟨_, r', e, hs, hb', ?_, by rw [hc]; exact h3⟩
  rw [hc]
  rw [and1, Nat.pow_one, Nat.mod_mod, ← h4]
  unfold mag
  split
  · rfl
  · rw [set_self _ _ _ hc]

/-- The skip loop over a stretch without newly nonzero coefficients. -/
theorem advance_spec (mid : List Int) (hv : ∀ v ∈ mid, Coef16 v) (hno : NoOne Al mid) {k : Nat} {blk : List Int}
    (hk : k + mid.length ≤ Se) (hc : Cur Al k mid blk) (hstop : blk.getD (natOrder.getD (k + mid.length) 0) 0 = 0)
    {r : Rd} {rest : List Bool} (hr : r.Ok) (ht : r.tail ≠ none) (hb : r.bits = corr (cb Al mid) ++ rest) :
    ∃ r', advance Se Al k (zc Al mid) blk r =
        some (k + mid.length, setBand k (mid.map (apxAC Al)) blk, r') ∧ r.Same r' ∧ r'.bits = rest := by
  induction mid generalizing k blk r with
  | nil =>
    refine ⟨r, ?_, hr.same, by simpa [corr, cb] using hb⟩
    simp only [List.length_nil, Nat.add_zero] at hstop hk ⊢
    rw [advance, if_pos hk]
    dsimp only
    rw [if_neg (by simpa using hstop)]
    simp only [zc, if_true, List.map_nil, setBand]
  | cons v mid ih =>
    simp only [List.length_cons] at hk hstop
    obtain ⟨hc0, hc1⟩ := hc
    have hv0 := hv v (by simp)
    have h1 := hno v (by simp)
    have hstop' : ∀ w, (blk.set (natOrder.getD k 0) w).getD (natOrder.getD (k + 1 + mid.length) 0) 0 = 0 := by
      intro w
      rw [getD_set_ne (natOrder_ne (by omega) (by omega) (by omega)), show k + 1 + mid.length = k + (mid.length + 1) by omega]
      exact hstop
    have hih := fun w r hr ht hb => ih (fun w hw => hv w (by simp [hw])) (fun w hw => hno w (by simp [hw]))
      (k := k + 1) (blk := blk.set (natOrder.getD k 0) w) (r := r) (by omega) (cur_set (by omega) (by omega) hc1)
      (hstop' w) hr ht hb
    rw [advance, if_pos (by omega)]
    dsimp only
    simp only [List.map_cons, setBand, List.length_cons, show k + (mid.length + 1) = k + 1 + mid.length by omega]
    by_cases h0 : mag Al v = 0
    · obtain ⟨z1, z2⟩ := zero_spec (Al := Al) h0
      rw [hc0, z2, if_neg (by simp)]
      simp only [zc, if_pos h0]
      rw [if_neg (by omega), Nat.add_sub_cancel_left]
      simp only [cb, if_pos h0, List.nil_append] at hb
      have := hih (apxAC Al v) r hr ht hb
      rw [z1, set_self _ _ _ (hc0.trans z2)] at this ⊢
      exact this
    · simp only [cb, if_neg h0, corr, List.cons_append, List.nil_append, List.flatMap_cons, List.append_assoc] at hb
      obtain ⟨b, r1, e1, s1, b1, hset, hne⟩ := corr_one hAl hSe hv0 (by omega) hc0 hr ht hb
      obtain ⟨r2, e2, s2, b2⟩ := hih (apxAC Al v) r1 s1.ok (by rw [s1.tail]; exact ht) b1
      refine ⟨r2, ?_, s1.trans s2, b2⟩
      rw [if_pos hne, e1]
      dsimp only
      rw [hset]
      simp only [zc, if_neg h0, Nat.zero_add]
      exact e2

/-- The scan of the rest of the band. -/
theorem eobScan_spec (mid : List Int) (hv : ∀ v ∈ mid, Coef16 v) (hno : NoOne Al mid) {k : Nat} {blk : List Int}
    (hk : k + mid.length = Se + 1) (hc : Cur Al k mid blk)
    {r : Rd} {rest : List Bool} (hr : r.Ok) (ht : r.tail ≠ none) (hb : r.bits = corr (cb Al mid) ++ rest) :
    ∃ r', eobScan Se Al k blk r = some (setBand k (mid.map (apxAC Al)) blk, r') ∧ r.Same r' ∧ r'.bits = rest := by
  induction mid generalizing k blk r with
  | nil =>
    refine ⟨r, ?_, hr.same, by simpa [corr, cb] using hb⟩
    simp only [List.length_nil, Nat.add_zero] at hk
    rw [eobScan, if_neg (by omega)]
    rfl
  | cons v mid ih =>
    simp only [List.length_cons] at hk
    obtain ⟨hc0, hc1⟩ := hc
    have hv0 := hv v (by simp)
    have h1 := hno v (by simp)
    have hih := fun w r hr ht hb => ih (fun w hw => hv w (by simp [hw])) (fun w hw => hno w (by simp [hw]))
      (k := k + 1) (blk := blk.set (natOrder.getD k 0) w) (r := r) (by omega) (cur_set (by omega) (by omega) hc1)
      hr ht hb
    rw [eobScan, if_pos (by omega)]
    dsimp only
    simp only [List.map_cons, setBand]
    by_cases h0 : mag Al v = 0
    · obtain ⟨z1, z2⟩ := zero_spec (Al := Al) h0
      rw [hc0, z2, if_neg (by simp)]
      simp only [cb, if_pos h0, List.nil_append] at hb
      have := hih (apxAC Al v) r hr ht hb
      rw [z1, set_self _ _ _ (hc0.trans z2)] at this ⊢
      exact this
    · simp only [cb, if_neg h0, corr, List.cons_append, List.nil_append, List.flatMap_cons, List.append_assoc] at hb
      obtain ⟨b, r1, e1, s1, b1, hset, hne⟩ := corr_one hAl hSe hv0 (by omega) hc0 hr ht hb
      obtain ⟨r2, e2, s2, b2⟩ := hih (apxAC Al v) r1 s1.ok (by rw [s1.tail]; exact ht) b1
      refine ⟨r2, ?_, s1.trans s2, b2⟩
      rw [if_pos hne, e1]
      dsimp only
      rw [hset]
      exact e2

end

/-- One block of the decoder, entered at position `k` with no run pending, reads exactly `l`. -/
def RR (d : DTbl) (Se Al k : Nat) (blk : List Int) (l : List Bool) (res : List Int × Nat) : Prop :=
  ∀ (r : Rd) (rest : List Bool), r.Ok → r.tail ≠ none → r.bits = l ++ rest →
    ∃ r', acRefineDec d k Se Al 0 blk r = some (res.1, res.2, r') ∧ r.Same r' ∧ r'.bits = rest

theorem acRefineDec_eob {d : DTbl} {Se Al k : Nat} {blk : List Int} {r r1 r2 : Rd} {run N : Nat} (hk : k ≤ Se)
    (h1 : huffDecode d r = some (run <<< 4, r1)) (hrun : run ≤ 14) (h2 : readEob r1 run = some (N, r2)) (hN : 0 < N) :
    acRefineDec d k Se Al 0 blk r = (eobScan Se Al k blk r2).map (fun x => (x.1, N - 1, x.2)) := by
  obtain ⟨q1, q2⟩ := shr4 run 0 (by omega)
  rw [Nat.add_zero] at q1 q2
  unfold acRefineDec
  rw [if_pos rfl, refineDec, if_pos hk, h1]
  dsimp only
  rw [q1, q2, if_pos ⟨rfl, by omega⟩, h2]
  simp only [Option.map_some]
  rw [if_pos hN]

theorem acRefineDec_run {d : DTbl} {Se Al k k' : Nat} {blk blk' : List Int} {r r1 r2 : Rd} (hk : k ≤ Se)
    (h1 : huffDecode d r = some (0xF0, r1)) (h2 : advance Se Al k 15 blk r1 = some (k', blk', r2)) :
    acRefineDec d k Se Al 0 blk r = acRefineDec d (k' + 1) Se Al 0 blk' r2 := by
  conv => lhs; unfold acRefineDec
  rw [if_pos rfl, refineDec, if_pos hk, h1]
  simp only [Nat.reduceShiftRight, Nat.reduceAnd, ne_eq, not_true_eq_false, and_false, if_false]
  conv => rhs; unfold acRefineDec
  rw [if_pos rfl]
  split
  · rename_i h
    rw [h2] at *
    split at h
    · simp_all
    · rename_i k2 b2 r3 e
      rw [h2] at e
      simp only [Option.some.injEq, Prod.mk.injEq] at e
      obtain ⟨rfl, rfl, rfl⟩ := e
      simp [h]
  · rename_i h
    split at h
    · simp_all
    · rename_i k2 b2 r3 e
      rw [h2] at e
      simp only [Option.some.injEq, Prod.mk.injEq] at e
      obtain ⟨rfl, rfl, rfl⟩ := e
      simp [h]

theorem acRefineDec_new {d : DTbl} {Se Al k k' run sg : Nat} {blk blk' : List Int} {r r1 r2 r3 : Rd} (hk : k ≤ Se)
    (h1 : huffDecode d r = some ((run <<< 4) + 1, r1)) (h2 : readBits r1 1 = some (sg, r2))
    (h3 : advance Se Al k run blk r2 = some (k', blk', r3)) :
    acRefineDec d k Se Al 0 blk r = acRefineDec d (k' + 1) Se Al 0
      (blk'.set (natOrder.getD k' 0) (toCoef (if sg ≠ 0 then (2 : Int) ^ Al else -2 ^ Al))) r3 := by
  obtain ⟨q1, q2⟩ := shr4 run 1 (by omega)
  conv => lhs; unfold acRefineDec
  rw [if_pos rfl, refineDec, if_pos hk, h1]
  simp only [q1, q2, ne_eq, one_ne_zero, false_and, if_false, not_false_eq_true, if_true, not_true_eq_false,
    h2, Option.map_some]
  conv => rhs; unfold acRefineDec
  rw [if_pos rfl]
  split
  · rename_i h
    split at h
    · simp_all
    · rename_i k2 b2 r4 e
      rw [q1, h3] at e
      simp only [Option.some.injEq, Prod.mk.injEq] at e
      obtain ⟨rfl, rfl, rfl⟩ := e
      rw [h]
  · rename_i h
    split at h
    · simp_all
    · rename_i k2 b2 r4 e
      rw [q1, h3] at e
      simp only [Option.some.injEq, Prod.mk.injEq] at e
      obtain ⟨rfl, rfl, rfl⟩ := e
      rw [h]

section
variable {c : CTbl} {d : DTbl} (L : Linked c d) {Se Al : Nat} (hAl : Al < 15) (hSe : Se < 64)
include L hAl hSe

omit L hAl hSe in
theorem RR_end {blk : List Int} : RR d Se Al (Se + 1) blk [] (blk, 0) := by
  intro r rest hr ht hb
  refine ⟨r, ?_, hr.same, by simpa using hb⟩
  unfold acRefineDec
  rw [if_pos rfl, refineDec, if_neg (by omega)]
  rfl

theorem RR_eob {mid : List Int} (hv : ∀ v ∈ mid, Coef16 v) (hno : NoOne Al mid) {k : Nat} {blk : List Int}
    (hk : k + mid.length = Se + 1) (hne : mid ≠ []) (hc : Cur Al k mid blk) {N : Nat} (hN : EobOk c N) :
    RR d Se Al k blk (eobBits c N ++ corr (cb Al mid)) (setBand k (mid.map (apxAC Al)) blk, N - 1) := by
  intro r rest hr ht hb
  have := List.length_pos_iff.2 hne
  rw [eobBits, List.append_assoc, List.append_assoc] at hb
  obtain ⟨r1, e1, s1, b1⟩ := L.dec _ hN.2.2 r _ hr ht hb
  obtain ⟨r2, e2, s2, b2⟩ := readEob_spec hN.1 hN.2.1 r1 _ s1.ok (by rw [s1.tail]; exact ht) b1
  obtain ⟨r3, e3, s3, b3⟩ := eobScan_spec hAl hSe mid hv hno hk hc s2.ok (by rw [s2.tail, s1.tail]; exact ht) b2
  refine ⟨r3, ?_, (s1.trans s2).trans s3, b3⟩
  rw [acRefineDec_eob (by omega) e1 hN.2.1 e2 hN.1, e3]
  rfl

theorem RR_zrl {mid : List Int} {z : Int} (hv : ∀ v ∈ mid, Coef16 v) (hno : NoOne Al mid) {k : Nat} {blk : List Int}
    (hk : k + mid.length ≤ Se) (hc : Cur Al k (mid ++ [z]) blk) (hz : mag Al z = 0) (h15 : zc Al mid = 15)
    (hs : (c 0xF0).2 ≠ 0) {l : List Bool} {res : List Int × Nat}
    (h : RR d Se Al (k + mid.length + 1) (setBand k ((mid ++ [z]).map (apxAC Al)) blk) l res) :
    RR d Se Al k blk (symBits c 0xF0 ++ (corr (cb Al mid) ++ l)) res := by
  intro r rest hr ht hb
  rw [cur_append] at hc
  obtain ⟨z1, z2⟩ := zero_spec (Al := Al) hz
  have hstop : blk.getD (natOrder.getD (k + mid.length) 0) 0 = 0 := hc.2.1.trans z2
  rw [List.append_assoc, List.append_assoc] at hb
  obtain ⟨r1, e1, s1, b1⟩ := L.dec _ hs r _ hr ht hb
  obtain ⟨r2, e2, s2, b2⟩ := advance_spec hAl hSe mid hv hno hk hc.1 hstop s1.ok (by rw [s1.tail]; exact ht) b1
  rw [List.map_append, setBand_append, List.length_map, List.map_cons, List.map_nil, z1] at h
  simp only [setBand] at h
  have hcm : Cur Al (k + mid.length) [z] (setBand k (mid.map (apxAC Al)) blk) :=
    cur_setBand (by simp) (by simp; omega) hc.2
  rw [set_self _ _ _ (hcm.1.trans z2)] at h
  obtain ⟨r3, e3, s3, b3⟩ := h r2 rest s2.ok (by rw [s2.tail, s1.tail]; exact ht) b2
  refine ⟨r3, ?_, (s1.trans s2).trans s3, b3⟩
  rw [h15] at e2
  rw [acRefineDec_run (by omega) e1 e2]
  exact e3

theorem RR_new {mid : List Int} {v : Int} (hv : ∀ v ∈ mid, Coef16 v) (hno : NoOne Al mid) {k : Nat} {blk : List Int}
    (hk : k + mid.length ≤ Se) (hc : Cur Al k (mid ++ [v]) blk) (h1 : mag Al v = 1)
    (hs : (c ((zc Al mid <<< 4) + 1)).2 ≠ 0) {l : List Bool} {res : List Int × Nat}
    (h : RR d Se Al (k + mid.length + 1) (setBand k ((mid ++ [v]).map (apxAC Al)) blk) l res) :
    RR d Se Al k blk (symBits c ((zc Al mid <<< 4) + 1) ++ (toBits 1 (if v < 0 then 0 else 1) ++
      (corr (cb Al mid) ++ l))) res := by
  intro r rest hr ht hb
  rw [cur_append] at hc
  obtain ⟨z1, z2⟩ := newnz_spec (Al := Al) h1
  have hstop : blk.getD (natOrder.getD (k + mid.length) 0) 0 = 0 := hc.2.1.trans z2
  simp only [List.append_assoc] at hb
  obtain ⟨r1, e1, s1, b1⟩ := L.dec _ hs r _ hr ht hb
  obtain ⟨r2, e2, s2, b2⟩ := reads_bits (by omega) r1 _ s1.ok (by rw [s1.tail]; exact ht) b1
  obtain ⟨r3, e3, s3, b3⟩ := advance_spec hAl hSe mid hv hno hk hc.1 hstop s2.ok
    (by rw [s2.tail, s1.tail]; exact ht) b2
  rw [List.map_append, setBand_append, List.length_map, List.map_cons, List.map_nil] at h
  simp only [setBand] at h
  obtain ⟨r4, e4, s4, b4⟩ := h r3 rest s3.ok (by rw [s3.tail, s2.tail, s1.tail]; exact ht) b3
  refine ⟨r4, ?_, ((s1.trans s2).trans s3).trans s4, b4⟩
  rw [acRefineDec_new (by omega) e1 e2 e3]
  have hval : toCoef (if (if v < 0 then 0 else 1) % 2 ^ 1 ≠ 0 then (2 : Int) ^ Al else -2 ^ Al) = apxAC Al v := by
    rw [z1]
    have hpl : 2 ^ Al < 32768 := Nat.pow_lt_pow_right (by omega) hAl
    rw [← two_pow_cast]
    generalize 2 ^ Al = P at hpl
    by_cases hn : v < 0
    · simp only [if_pos hn]; exact toCoef_id (by simp <;> omega) (by simp <;> omega)
    · simp only [if_neg hn]; exact toCoef_id (by simp <;> omega) (by simp <;> omega)
  rw [hval]
  exact e4

omit L hSe in
/-- What is known of the pending stretch when the encoder still looks for runs of 16 zeros. -/
def Short (Al : Nat) (mid : List Int) : Prop :=
  ∃ m zs, mid = m ++ zs ∧ (∀ v ∈ zs, mag Al v = 0) ∧ zc Al m ≤ 15

/-- The ZRL loop, from an empty run state. -/
theorem zrl_spec {T : Nat → CTbl} {tbl : Nat} (hT : T tbl = c) {n : Nat} {mid vs : List Int}
    (hn : zc Al mid = n)
    (hv : ∀ v ∈ mid, Coef16 v) (hno : NoOne Al mid) {k : Nat} {blk : List Int}
    (hvs : vs ≠ []) (hk : k + mid.length + vs.length = Se + 1) (hc : Cur Al k (mid ++ vs) blk) (hsh : Short Al mid)
    {t : List Tok} {r' : Nat} {s' : ACSt} {br' : List Nat}
    (h : zrlRefine tbl true n ⟨0, []⟩ (cb Al mid) = some (t, r', s', br')) (hok : ∀ y ∈ t, TokOk T y) :
    s' = ⟨0, []⟩ ∧ ∃ mid' k' blk', r' = zc Al mid' ∧ br' = cb Al mid' ∧ zc Al mid' ≤ 15 ∧ NoOne Al mid' ∧
      (∀ v ∈ mid', Coef16 v) ∧ k' + mid'.length = k + mid.length ∧ Cur Al k' (mid' ++ vs) blk' ∧
      setBand k' (mid'.map (apxAC Al)) blk' = setBand k (mid.map (apxAC Al)) blk ∧
      ∀ l res, RR d Se Al k' blk' l res → RR d Se Al k blk ((tokTail T t).1 ++ l) res := by
  induction n using Nat.strongRecOn generalizing mid k blk t with
  | ind n ih =>
    rw [zrlRefine] at h
    by_cases hr : n > 15
    · rw [if_pos ⟨hr, rfl⟩, emitEob_zero rfl] at h
      dsimp only at h
      split at h
      · simp at h
      rename_i t1 x e1
      simp only [List.nil_append, Option.some.injEq, Prod.mk.injEq] at h
      obtain ⟨rfl, rfl⟩ := h
      obtain ⟨m, zs, rfl, hzs, hm⟩ := hsh
      rw [zc_append, (zc_zeros hzs).1] at hn
      -- split at the 16th zero
      obtain ⟨z, hz, hsplit⟩ : ∃ z, z ∈ zs ∧ zs = zs.take (15 - zc Al m) ++ z :: zs.drop (15 - zc Al m + 1) := by
        have hlt : 15 - zc Al m < zs.length := by omega
        refine ⟨zs[15 - zc Al m], List.getElem_mem hlt, ?_⟩
        rw [List.getElem_cons_drop, List.take_append_drop]
      generalize hA : zs.take (15 - zc Al m) = A at *
      generalize hB : zs.drop (15 - zc Al m + 1) = B at *
      have hAl' : A.length = 15 - zc Al m := by rw [← hA, List.length_take]; omega
      have hAz : ∀ v ∈ A, mag Al v = 0 := fun v hv' => hzs v (List.mem_of_mem_take (hA ▸ hv'))
      have hBz : ∀ v ∈ B, mag Al v = 0 := fun v hv' => hzs v (List.mem_of_mem_drop (hB ▸ hv'))
      have hzz := hzs z hz
      clear hA hB
      subst hsplit
      have hz15 : zc Al (m ++ A) = 15 := by rw [zc_append, (zc_zeros hAz).1]; omega
      have hcb : cb Al (m ++ (A ++ z :: B)) = cb Al (m ++ A) := by
        rw [cb_append, (zc_zeros hzs).2, cb_append, (zc_zeros hAz).2]
      simp only [List.length_append, List.length_cons] at hn hk
      have hassoc : m ++ (A ++ z :: B) = (m ++ A ++ [z]) ++ B := by simp
      rw [hassoc] at hv hno hc ⊢
      rw [List.append_assoc, cur_append] at hc
      have hBcb := zc_zeros hBz
      obtain ⟨g0, mid', k', blk', g1, g2, g3, g4, g5, g6, g7, g8, g9⟩ := ih (n - 16) (by omega) (mid := B)
        (k := k + (m ++ A ++ [z]).length) (blk := setBand k ((m ++ A ++ [z]).map (apxAC Al)) blk)
        (by rw [hBcb.1]; omega) (fun v hv' => hv v (by simp [hv'])) (fun v hv' => hno v (by simp [hv']))
        (by simp; omega)
        (cur_setBand (by simp) (by have := List.length_pos_iff.2 hvs; simp; omega) hc.2)
        ⟨[], B, rfl, hBz, by simp [zc]⟩ (by rw [hBcb.2]; exact e1) (fun y hy => hok y (by simp [hy]))
      refine ⟨g0, mid', k', blk', g1, g2, g3, g4, g5, ?_, g7, ?_, ?_⟩
      · rw [g6]; simp; omega
      · rw [g8, List.map_append (l₂ := B), setBand_append, List.length_map]
      · intro l res hR
        have hR1 := g9 l res hR
        have hsym := hok (Tok.sym tbl 0xF0) (by simp)
        simp only [TokOk, hT] at hsym
        have := RR_zrl L hAl hSe (mid := m ++ A) (z := z) (fun v hv' => hv v (by simp at hv' ⊢; tauto))
          (fun v hv' => hno v (by simp at hv' ⊢; tauto)) (k := k) (blk := blk) (by simp; omega) hc.1 hzz hz15 hsym
          (l := (tokTail T t1).1 ++ l) (res := res) (by
            rw [show k + (m ++ A).length + 1 = k + (m ++ A ++ [z]).length by simp; omega]
            exact hR1)
        rw [← hassoc, hcb]
        rw [List.append_assoc, List.cons_append, List.nil_append]
        simp only [tokTail, tokBits]
        rw [bufToks_bits, hT]
        simpa only [List.append_assoc] using this
    · rw [if_neg (by simp [hr])] at h
      simp only [Option.some.injEq, Prod.mk.injEq] at h
      obtain ⟨rfl, rfl, rfl, rfl⟩ := h
      refine ⟨rfl, mid, k, blk, hn.symm, rfl, by omega, hno, hv, rfl, hc, rfl, ?_⟩
      intro l res hR
      simpa [tokTail] using hR

omit L hAl hSe in
theorem zrlRefine_noRst {tbl : Nat} {le : Bool} {n : Nat} {s : ACSt} {br : List Nat} {t : List Tok}
    {x : Nat × ACSt × List Nat} (h : zrlRefine tbl le n s br = some (t, x)) : NoRst t := by
  induction n using Nat.strongRecOn generalizing s br t with
  | ind n ih =>
    rw [zrlRefine] at h
    split at h
    · split at h
      · simp at h
      rename_i t0 s1 e0
      split at h
      · simp at h
      rename_i t1 y e1
      simp only [Option.some.injEq, Prod.mk.injEq] at h
      rw [← h.1]
      obtain ⟨-, rfl⟩ := h
      refine noRst_append (noRst_append (noRst_append (emitEob_noRst e0) (by intro n; simp)) (noRst_buf _))
        (ih (n - 16) (by omega) e1)
    · simp only [Option.some.injEq, Prod.mk.injEq] at h
      rw [← h.1]; intro n; simp

/-- The coefficient loop, from an empty run state. -/
theorem refineGo_spec {T : Nat → CTbl} {tbl : Nat} (hT : T tbl = c) {eob : Nat} (vs : List Int) {mid : List Int}
    (hv : ∀ v ∈ mid, Coef16 v) (hvs : ∀ v ∈ vs, Coef16 v) (hno : NoOne Al mid) {j k : Nat} {blk : List Int}
    (hk : k + mid.length + vs.length = Se + 1) (hc : Cur Al k (mid ++ vs) blk)
    (hsh : j ≤ eob → Short Al mid) (hone : ∀ i, mag Al (vs.getD i 0) = 1 → j + i ≤ eob)
    {ts : List Tok} {rF : Nat} {sF : ACSt} {brF : List Nat}
    (h : refineGo tbl eob (vs.map (prepRefine Al)) j (zc Al mid) ⟨0, []⟩ (cb Al mid) = some (ts, rF, sF, brF))
    (hok : ∀ y ∈ ts, TokOk T y) :
    sF = ⟨0, []⟩ ∧ ∃ midF kF blkF, rF = zc Al midF ∧ brF = cb Al midF ∧ NoOne Al midF ∧
      (∀ v ∈ midF, Coef16 v) ∧ kF + midF.length = Se + 1 ∧ Cur Al kF midF blkF ∧
      setBand kF (midF.map (apxAC Al)) blkF = setBand k ((mid ++ vs).map (apxAC Al)) blk ∧
      ∀ l res, RR d Se Al kF blkF l res → RR d Se Al k blk ((tokTail T ts).1 ++ l) res := by
  induction vs generalizing mid j k blk ts with
  | nil =>
    simp only [List.map_nil, refineGo, Option.some.injEq, Prod.mk.injEq] at h
    obtain ⟨rfl, rfl, rfl, rfl⟩ := h
    refine ⟨rfl, mid, k, blk, rfl, rfl, hno, hv, by simpa using hk, by simpa using hc, by simp, ?_⟩
    intro l res hR
    simpa [tokTail] using hR
  | cons v vs ih =>
    have hv0 := hvs v (by simp)
    have hmag : (prepRefine Al v).1 = mag Al v := by
      have := shr_lt hv0 Al
      simp only [prepRefine, mag]
      exact Nat.mod_eq_of_lt (by omega)
    have hone' : ∀ i, mag Al (vs.getD i 0) = 1 → j + 1 + i ≤ eob := by
      intro i hi
      have := hone (i + 1) (by simpa using hi)
      omega
    simp only [List.length_cons] at hk
    simp only [List.map_cons, refineGo] at h
    rw [hmag] at h
    have hassoc : ∀ (m : List Int), m ++ v :: vs = (m ++ [v]) ++ vs := by simp
    by_cases h0 : mag Al v = 0
    · rw [if_pos h0] at h
      rw [hassoc] at hc ⊢
      refine ih (mid := mid ++ [v]) (j := j + 1) (fun w hw => ?_) (fun w hw => hvs w (by simp [hw])) (fun w hw => ?_) ?_ hc
        (fun hj => ?_) hone' ?_ hok
      · rcases List.mem_append.1 hw with hw | hw
        · exact hv w hw
        · rw [List.mem_singleton.1 hw]; exact hv0
      · rcases List.mem_append.1 hw with hw | hw
        · exact hno w hw
        · rw [List.mem_singleton.1 hw]; omega
      · simp; omega
      · obtain ⟨m, zs, rfl, a, b⟩ := hsh (by omega)
        refine ⟨m, zs ++ [v], by simp, ?_, b⟩
        intro w hw
        rcases List.mem_append.1 hw with hw | hw
        · exact a w hw
        · rw [List.mem_singleton.1 hw]; exact h0
      · rw [zc_append, cb_append]
        simp only [zc, cb, if_pos h0, Nat.add_zero, List.append_nil]
        exact h
    · rw [if_neg h0] at h
      split at h
      · simp at h
      rename_i t0 r1 s1 br1 e0
      -- after the ZRL loop
      have hz : (∀ y ∈ t0, TokOk T y) → s1 = ⟨0, []⟩ ∧ ∃ mid' k' blk', r1 = zc Al mid' ∧ br1 = cb Al mid' ∧
          (j ≤ eob → zc Al mid' ≤ 15) ∧ NoOne Al mid' ∧ NoRst t0 ∧
          (∀ v ∈ mid', Coef16 v) ∧ k' + mid'.length = k + mid.length ∧ Cur Al k' (mid' ++ v :: vs) blk' ∧
          setBand k' (mid'.map (apxAC Al)) blk' = setBand k (mid.map (apxAC Al)) blk ∧
          ∀ l res, RR d Se Al k' blk' l res → RR d Se Al k blk ((tokTail T t0).1 ++ l) res := by
        intro hok0
        have hnr : NoRst t0 := zrlRefine_noRst e0
        by_cases hj : j ≤ eob
        · rw [decide_eq_true hj] at e0
          obtain ⟨g0, mid', k', blk', g1, g2, g3, g4, g5, g6, g7, g8, g9⟩ := zrl_spec L hAl hSe hT (vs := v :: vs) rfl hv
            hno (by simp) (by simp; omega) hc (hsh hj) e0 hok0
          exact ⟨g0, mid', k', blk', g1, g2, fun _ => g3, g4, hnr, g5, g6, g7, g8, g9⟩
        · rw [decide_eq_false hj, zrlRefine, if_neg (by simp)] at e0
          simp only [Option.some.injEq, Prod.mk.injEq] at e0
          obtain ⟨rfl, rfl, rfl, rfl⟩ := e0
          refine ⟨rfl, mid, k, blk, rfl, rfl, fun h => absurd h hj, hno, hnr, hv, rfl, hc, rfl, ?_⟩
          intro l res hR
          simpa [tokTail] using hR
      by_cases h1 : mag Al v > 1
      · rw [if_pos h1] at h
        split at h
        · simp at h
        split at h
        · simp at h
        rename_i ts' x e1
        simp only [Option.some.injEq, Prod.mk.injEq] at h
        obtain ⟨rfl, rfl⟩ := h
        obtain ⟨rfl, mid', k', blk', rfl, rfl, g3, g4, gn, g5, g6, g7, g8, g9⟩ := hz (fun y hy => hok y (by simp [hy]))
        rw [hassoc] at g7
        have hcbv : cb Al (mid' ++ [v]) = cb Al mid' ++ [mag Al v &&& 1] := by
          rw [cb_append]; simp only [cb, if_neg h0, List.append_nil]
        have hzcv : zc Al (mid' ++ [v]) = zc Al mid' := by
          rw [zc_append]; simp only [zc, if_neg h0]; omega
        obtain ⟨f0, midF, kF, blkF, f1, f2, f3, f4, f5, f6, f7, f8⟩ := ih (mid := mid' ++ [v]) (j := j + 1) (k := k')
          (blk := blk') (fun w hw => by
            rcases List.mem_append.1 hw with hw | hw
            · exact g5 w hw
            · rw [List.mem_singleton.1 hw]; exact hv0)
          (fun w hw => hvs w (by simp [hw])) (fun w hw => by
            rcases List.mem_append.1 hw with hw | hw
            · exact g4 w hw
            · rw [List.mem_singleton.1 hw]; omega)
          (by simp; omega) g7
          (fun hj => ⟨mid' ++ [v], [], by simp, by simp, by rw [hzcv]; exact g3 (by omega)⟩) hone'
          (by rw [hzcv, hcbv]; exact e1) (fun y hy => hok y (by simp [hy]))
        refine ⟨f0, midF, kF, blkF, f1, f2, f3, f4, f5, f6, ?_, ?_⟩
        · rw [f7, ← hassoc, List.map_append, List.map_append, setBand_append, g8, setBand_append, List.length_map,
            List.length_map, g6]
        · intro l res hR
          rw [tokTail_append _ _ _ gn, List.append_assoc]
          exact g9 _ _ (f8 _ _ hR)
      · rw [if_neg h1] at h
        have h1 : mag Al v = 1 := by omega
        have hj : j ≤ eob := hone 0 (by simpa using h1)
        split at h
        · simp at h
        rename_i t1 s2 e1
        split at h
        · simp at h
        rename_i ts' x e2
        simp only [Option.some.injEq, Prod.mk.injEq] at h
        obtain ⟨rfl, rfl⟩ := h
        obtain ⟨rfl, mid', k', blk', rfl, rfl, g3, g4, gn, g5, g6, g7, g8, g9⟩ := hz (fun y hy => hok y (by simp [hy]))
        rw [emitEob_zero rfl] at e1
        simp only [Option.some.injEq, Prod.mk.injEq] at e1
        obtain ⟨rfl, rfl⟩ := e1
        rw [hassoc] at g7
        have g7' := cur_append.1 g7
        obtain ⟨f0, midF, kF, blkF, f1, f2, f3, f4, f5, f6, f7, f8⟩ := ih (mid := []) (j := j + 1)
          (k := k' + (mid' ++ [v]).length) (blk := setBand k' ((mid' ++ [v]).map (apxAC Al)) blk') (by simp)
          (fun w hw => hvs w (by simp [hw])) (by intro w hw; simp at hw) (by simp; omega)
          (cur_setBand (by simp) (by simp; omega) g7'.2)
          (fun _ => ⟨[], [], rfl, by simp, by simp [zc]⟩) hone' e2 (fun y hy => hok y (by simp [hy]))
        have hset : setBand k' ((mid' ++ v :: vs).map (apxAC Al)) blk' =
            setBand k ((mid ++ v :: vs).map (apxAC Al)) blk := by
          rw [List.map_append, List.map_append, setBand_append, g8, setBand_append, List.length_map,
            List.length_map, g6]
        refine ⟨f0, midF, kF, blkF, f1, f2, f3, f4, f5, f6, ?_, ?_⟩
        · rw [f7, ← hset, hassoc, List.nil_append, List.map_append (l₂ := vs), setBand_append, List.length_map]
        · intro l res hR
          have hsym := hok (Tok.sym tbl ((zc Al mid' <<< 4) + 1)) (by simp)
          simp only [TokOk, hT] at hsym
          have hR2 := RR_new L hAl hSe (mid := mid') (v := v) g5 g4 (k := k') (blk := blk') (by omega) g7'.1 h1 hsym
            (l := (tokTail T ts').1 ++ l) (res := res) (by
              rw [show k' + mid'.length + 1 = k' + (mid' ++ [v]).length by simp; omega]
              exact f8 _ _ hR)
          have := g9 _ _ hR2
          rw [List.append_nil, List.append_assoc, List.append_assoc, tokTail_append _ _ _ gn]
          simp only [List.cons_append, List.nil_append, tokTail, tokBits]
          rw [bufToks_bits, hT]
          simpa only [List.append_assoc, prepRefine] using this

end
end Verif.Prog
