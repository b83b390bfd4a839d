import Verif.Prog.Arith
/-
DC scans: the decoder follows the encoder MCU by MCU.
-/
namespace Verif.Prog
open Verif Verif.Huff

variable {σ ι κ ο : Type}

/-- The reader is ready at a bit sequence and the result `f` consumes exactly `l` of it. -/
def Reads {α : Type} (f : Rd → Option (α × Rd)) (l : List Bool) (a : α) : Prop :=
  ∀ (r : Rd) (rest : List Bool), r.Ok → r.tail ≠ none → r.bits = l ++ rest →
    ∃ r', f r = some (a, r') ∧ r.Same r' ∧ r'.bits = rest

theorem reads_sym {c : CTbl} {d : DTbl} (L : Linked c d) {s : Nat} (h : (c s).2 ≠ 0) :
    Reads (huffDecode d) (symBits c s) s := fun r rest a b e => L.dec s h r rest a b e

theorem reads_bits {n v : Nat} (h : n ≤ 32) : Reads (fun r => readBits r n) (toBits n v) (v % 2 ^ n) := by
  intro r rest hr ht hb
  obtain ⟨r', e, hs, hb'⟩ := readBits_spec hr ht (n := n) (by rw [hb]; simp) h
  refine ⟨r', ?_, hs, ?_⟩
  · dsimp only
    rw [e, hb, List.take_append_of_le_length (by simp), List.take_of_length_le (by simp), ofBits_toBits]
  · rw [hb', hb, List.drop_append_of_le_length (by simp), List.drop_of_length_le (by simp)]; rfl

/-- Coders without pending output: a matching step for every MCU is enough. -/
theorem runs_simple {T : Nat → CTbl} (E : PEnc σ ι) (hE : E.NoRst) (hfin : ∀ s, E.fin s = some [])
    (D : PDec σ κ ο) (c : List (ι × κ × ο))
    (hstep : ∀ x ∈ c, ∀ s t s', E.step s x.1 = some (t, s') → (∀ y ∈ t, TokOk T y) →
      ∀ (r : Rd) (rest : List Bool), r.Ok → r.tail ≠ none → r.bits = (tokTail T t).1 ++ rest →
        ∃ r', D.step s x.2.1 r = some (x.2.2, s', r') ∧ r.Same r' ∧ r'.bits = rest)
    (s : σ) (t : List Tok) (henc : encGo E 0 (c.map Prod.fst) s 0 0 = some t) (hok : ∀ y ∈ t, TokOk T y) :
    Runs D (c.map Prod.snd) s (tokTail T t).1 := by
  induction c generalizing s t with
  | nil =>
    simp only [List.map_nil, encGo, hfin, Option.some.injEq] at henc
    subst henc
    rfl
  | cons x c ih =>
    simp only [List.map_cons, encGo] at henc
    rw [if_neg (by simp)] at henc
    split at henc
    · simp at henc
    rename_i t1 s1 e1
    split at henc
    · simp at henc
    rename_i t2 e2
    simp only [Option.some.injEq] at henc
    subst henc
    rw [tokTail_append _ _ _ (hE.2 _ _ _ _ e1)]
    refine ⟨s1, (tokTail T t2).1, ?_, ih (fun y hy => hstep y (by simp [hy])) s1 t2
      (by rw [encGo_zero E _ _ _ _ (if (0:Nat) ≠ 0 then 0 - 1 else 0) 0]; exact e2) (fun y hy => hok y (by simp [hy]))⟩
    intro r rest hr ht hb
    exact hstep x (by simp) s t1 s1 e1 (fun y hy => hok y (by simp [hy])) r _ hr ht (by rw [hb]; simp)

/-! ### DC first -/

theorem dcFirst_noRst (prec Al : Nat) (bs : List DCB) (mcu : List (List Int)) {last : Nat → Int}
    {t : List Tok} {l' : Nat → Int} (h : dcFirstBlks prec Al bs mcu last = some (t, l')) : NoRst t := by
  induction bs generalizing mcu last t l' with
  | nil => simp only [dcFirstBlks, Option.some.injEq, Prod.mk.injEq] at h; rw [← h.1]; intro n; simp
  | cons b bs ih =>
    cases mcu with
    | nil => simp only [dcFirstBlks, Option.some.injEq, Prod.mk.injEq] at h; rw [← h.1]; intro n; simp
    | cons blk mcu =>
      simp only [dcFirstBlks] at h
      split at h
      · simp at h
      split at h
      · simp at h
      rename_i ts l2 e
      simp only [Option.some.injEq, Prod.mk.injEq] at h
      rw [← h.1]
      intro n hn
      have := ih mcu e n
      simp only [List.mem_cons, reduceCtorEq, List.mem_append, false_or] at hn
      rcases hn with hn | hn
      · split at hn <;> simp at hn
      · exact this hn

theorem encDCFirst_noRst (prec Al : Nat) (bs : List DCB) : (encDCFirst prec Al bs).NoRst := by
  constructor
  · intro s t h
    simp only [encDCFirst, Option.some.injEq] at h
    subst h; intro n; simp
  · intro s i t s' h
    exact dcFirst_noRst prec Al bs i h

/-- Result of a DC-first scan for one MCU: the DC coefficient of every block is known down to bit `Al`. -/
def setDC (Al : Nat) (orig cur : List (List Int)) : List (List Int) :=
  List.zipWith (fun o c => c.set 0 (apxDC Al (o.getD 0 0))) orig cur

theorem dcFirst_spec {prec Al : Nat} (hp : prec + 3 ≤ 16) (hAl : Al ≤ 15) {T : Nat → CTbl}
    (bs : List DCB) (ds : List DCD)
    (hL : List.Forall₂ (fun b d => b.ci = d.ci ∧ Linked (T b.dcNo) d.dc) bs ds)
    (mcu cur : List (List Int)) (hl1 : mcu.length = bs.length) (hl2 : cur.length = bs.length)
    (hc : ∀ blk ∈ mcu, Coef16 (blk.getD 0 0)) {last last' : Nat → Int} {t : List Tok}
    (h : dcFirstBlks prec Al bs mcu last = some (t, last')) (hok : ∀ y ∈ t, TokOk T y)
    (r : Rd) (rest : List Bool) (hr : r.Ok) (ht : r.tail ≠ none) (hb : r.bits = (tokTail T t).1 ++ rest) :
    ∃ r', dcFirstDec Al ds cur last r = some (setDC Al mcu cur, last', r') ∧ r.Same r' ∧ r'.bits = rest := by
  induction hL generalizing mcu cur last t r with
  | nil =>
    cases mcu <;> simp at hl1
    cases cur <;> simp at hl2
    simp only [dcFirstBlks, Option.some.injEq, Prod.mk.injEq] at h
    obtain ⟨rfl, rfl⟩ := h
    exact ⟨r, rfl, hr.same, by simpa [tokTail] using hb⟩
  | @cons b d bs ds hbd _ ih =>
    cases mcu with
    | nil => simp at hl1
    | cons blk mcu =>
    cases cur with
    | nil => simp at hl2
    | cons c cur =>
    obtain ⟨hci, L⟩ := hbd
    have hv := hc blk (by simp)
    simp only [dcFirstBlks] at h
    generalize hvv : blk.getD 0 0 = v at *
    generalize ht2 : v >>> Al = t2 at *
    have ht2e : t2 = v / 2 ^ Al := by rw [← ht2, Int.shiftRight_eq_div_pow, two_pow_cast]
    have ht2b : -32768 ≤ t2 ∧ t2 < 32768 := by
      have hp : (0 : Int) < 2 ^ Al := by rw [← two_pow_cast]; exact_mod_cast Nat.two_pow_pos Al
      obtain ⟨h1, h2⟩ := hv
      rw [ht2e]
      constructor
      · rw [Int.le_ediv_iff_mul_le hp]
        have : (1 : Int) ≤ 2 ^ Al := hp
        omega
      · apply Int.ediv_lt_of_lt_mul hp
        have : (1 : Int) ≤ 2 ^ Al := hp
        omega
    generalize htt : t2 - last b.ci = tt at *
    split at h
    · simp at h
    rename_i hnb
    split at h
    · simp at h
    rename_i ts l2 e
    simp only [Option.some.injEq, Prod.mk.injEq] at h
    obtain ⟨rfl, rfl⟩ := h
    have hsym : (T b.dcNo (nbitsOf tt.natAbs)).2 ≠ 0 := hok (Tok.sym b.dcNo (nbitsOf tt.natAbs)) (by simp)
    have hok' : ∀ y ∈ ts, TokOk T y := fun y hy => hok y (by simp [hy])
    have hbits : (tokTail T (Tok.sym b.dcNo (nbitsOf tt.natAbs) ::
        ((if nbitsOf tt.natAbs ≠ 0 then [Tok.bits (asCode (onesc tt)) (nbitsOf tt.natAbs)] else []) ++ ts))).1 =
        symBits (T b.dcNo) (nbitsOf tt.natAbs) ++ (magBits tt ++ (tokTail T ts).1) := by
      simp only [tokTail, tokBits]
      by_cases h0 : nbitsOf tt.natAbs = 0
      · rw [if_neg (by omega)]
        simp [magBits, h0]
      · rw [if_pos h0]
        simp only [List.cons_append, List.nil_append, tokTail, tokBits]
        rw [magBits_asCode (by omega)]
    rw [hbits, List.append_assoc, List.append_assoc] at hb
    obtain ⟨r1, e1, s1, b1⟩ := L.dec _ hsym r _ hr ht hb
    have hread : ∃ r2, (if nbitsOf tt.natAbs ≠ 0 then
          (readBits r1 (nbitsOf tt.natAbs)).map (fun xr => (extend2 xr.1 (nbitsOf tt.natAbs), xr.2))
        else some (0, r1)) = some (tt, r2) ∧ r1.Same r2 ∧ r2.bits = (tokTail T ts).1 ++ rest := by
      by_cases h0 : tt = 0
      · subst h0
        refine ⟨r1, by simp [nbitsOf], s1.ok.same, ?_⟩
        simpa [magBits, nbitsOf] using b1
      · have := nbitsOf_pos (n := tt.natAbs) (by omega)
        rw [if_pos (by omega)]
        obtain ⟨x, r2, e2, hx, s2, b2⟩ := readMag2 h0 (by omega) s1.ok (by rw [s1.tail]; exact ht) b1
        exact ⟨r2, by rw [e2, Option.map_some, hx], s2, b2⟩
    obtain ⟨r2, e2, s2, b2⟩ := hread
    obtain ⟨r3, e3, s3, b3⟩ := ih mcu cur (by simpa using hl1) (by simpa using hl2) (fun x hx => hc x (by simp [hx]))
      e hok' r2 s2.ok (by rw [s2.tail, s1.tail]; exact ht) b2
    refine ⟨r3, ?_, (s1.trans s2).trans s3, b3⟩
    simp only [dcFirstDec]
    rw [e1]
    dsimp only
    rw [e2]
    dsimp only
    rw [← hci, if_neg (by omega), show tt + last b.ci = t2 by omega, e3]
    have : toCoef (t2 * 2 ^ Al) = apxDC Al v := by
      rw [ht2e]; exact toCoef_coef (apxDC_coef hv hAl)
    simp only [setDC, List.zipWith_cons_cons, this, hvv]

/-! ### DC refinement -/

theorem encDCRefine_noRst (Al : Nat) : (encDCRefine Al).NoRst := by
  constructor
  · intro s t h
    simp only [encDCRefine, Option.some.injEq] at h
    subst h; intro n; simp
  · intro s i t s' h
    simp only [encDCRefine, Option.some.injEq, Prod.mk.injEq] at h
    rw [← h.1]; intro n; simp

/-- Result of a DC refinement scan for one MCU, whatever is known of the blocks. -/
def refDC (Al : Nat) (o c : List Int) : List Int :=
  if asCode ((o.getD 0 0 : Int) >>> Al) % 2 ≠ 0 then c.set 0 (orBit Al (c.getD 0 0)) else c

theorem dcRefine_spec {Al : Nat} {T : Nat → CTbl}
    (mcu cur : List (List Int)) (hl : cur.length = mcu.length)
    (r : Rd) (rest : List Bool) (hr : r.Ok) (ht : r.tail ≠ none)
    (hb : r.bits = (tokTail T (mcu.map (fun blk => Tok.bits (asCode ((blk.getD 0 0 : Int) >>> Al)) 1))).1 ++ rest) :
    ∃ r', dcRefineDec Al cur r = some (List.zipWith (refDC Al) mcu cur, r') ∧ r.Same r' ∧ r'.bits = rest := by
  induction mcu generalizing cur r with
  | nil =>
    cases cur <;> simp at hl
    exact ⟨r, rfl, hr.same, by simpa [tokTail] using hb⟩
  | cons blk mcu ih =>
    cases cur with
    | nil => simp at hl
    | cons c cur =>
    simp only [List.map_cons, tokTail, tokBits, List.append_assoc] at hb
    obtain ⟨r1, e1, s1, b1⟩ := reads_bits (by omega) r _ hr ht hb
    obtain ⟨r2, e2, s2, b2⟩ := ih cur (by simpa using hl) r1 s1.ok (by rw [s1.tail]; exact ht) b1
    refine ⟨r2, ?_, s1.trans s2, b2⟩
    have h1 : readBits r 1 = some (asCode ((blk.getD 0 0 : Int) >>> Al) % 2, r1) := e1
    simp only [dcRefineDec]
    rw [h1]
    dsimp only
    rw [e2]
    rfl

theorem refDC_eq {Al : Nat} {o c : List Int} (hAl : Al < 15) (hv : Coef16 (o.getD 0 0)) (hc : 0 < c.length)
    (hcur : c.getD 0 0 = apxDC (Al + 1) (o.getD 0 0)) : refDC Al o c = c.set 0 (apxDC Al (o.getD 0 0)) := by
  have := orBit_spec (Al := Al) hv hAl
  rw [← hcur] at this
  unfold refDC
  rw [← this]
  split
  · rfl
  · conv => lhs; rw [← List.set_getElem_self (as := c) (i := 0) hc]
    congr 1
    simp [List.getD_eq_getElem?_getD, List.getElem?_eq_getElem hc]

end Verif.Prog
