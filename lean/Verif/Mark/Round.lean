import Verif.Mark.ChunkProps
import Verif.Mark.Write
/-
C10: reading back what jcmarker.c writes.  Segments first.
-/
namespace Verif.Mark
open Verif
open Verif.Huff (natOrder HuffTbl)

/-! ### what the decoder has stored -/

/-- Quantization table `n` is defined and has the entries `vals` (natural order). -/
def HasQ (m : Mem) (n : Nat) (vals : List Nat) : Prop := m (.qDef n) = 1 ∧ ∀ i < 64, m (.q n i) = vals.getD i 0

/-- Huffman table `n` is defined and has the counts and symbols of `t`; unused symbol entries are zero. -/
def HasH (m : Mem) (ac : Bool) (n : Nat) (t : HuffTbl) : Prop :=
  m (.hDef ac n) = 1 ∧ m (.hBits ac n 0) = 0 ∧ (∀ i < 16, m (.hBits ac n (i + 1)) = t.counts.getD i 0) ∧
  ∀ i < 256, m (.hVal ac n i) = if i < t.counts.sum then t.vals.getD i 0 else 0

/-- Legal quantization table. -/
def QWf (vals : List Nat) : Prop := vals.length = 64 ∧ ∀ v ∈ vals, v < 65536

/-- Legal Huffman table: 16 counts, at most 256 symbols, bytes. -/
def HWf (t : HuffTbl) : Prop := t.counts.length = 16 ∧ IsBytes t.counts ∧ t.counts.sum ≤ 256 ∧ IsBytes t.vals

/-! ### rules for sequences -/

theorem Reads.byteB {β : Type} {f : Nat → P β} {c : Nat} {bs : List Nat} {x : β} {w : Writes} (h : Reads (f c) bs x w) :
    Reads (inByte >>= f) (c :: bs) x w := (Reads.byte c).bind (f := f) h
theorem Reads.wordB {β : Type} {f : Nat → P β} {a b : Nat} {bs : List Nat} {x : β} {w : Writes} (h : Reads (f (a * 256 + b)) bs x w) :
    Reads (in2Bytes >>= f) (a :: b :: bs) x w := (Reads.word a b).bind (f := f) h
theorem Reads.putB {β : Type} {f : Unit → P β} {s : Slot} {v : Nat} {bs : List Nat} {x : β} {w : Writes} (h : Reads (f ()) bs x w) :
    Reads (Mark.put s v >>= f) bs x ((s, v) :: w) := (Reads.put s v).bind (f := f) h
theorem Reads.putsB {β : Type} {f : Unit → P β} {w1 : Writes} {bs : List Nat} {x : β} {w : Writes} (h : Reads (f ()) bs x w) :
    Reads (Mark.puts w1 >>= f) bs x (w1 ++ w) := (Reads.puts w1).bind (f := f) h
theorem Reads.bytesB {β : Type} {f : List Nat → P β} {n : Nat} {l bs : List Nat} {x : β} {w : Writes} (hl : l.length = n)
    (h : Reads (f l) bs x w) : Reads (inBytes n >>= f) (l ++ bs) x w := by
  subst hl
  exact (Reads.bytes l).bind (f := f) h

/-- The length word. -/
theorem Reads.lenB {β : Type} {f : Nat → P β} {l : Nat} {bs : List Nat} {x : β} {w : Writes} (hl : l < 65536)
    (h : Reads (f l) bs x w) : Reads (in2Bytes >>= f) (be2 l ++ bs) x w := by
  have : l / 256 % 256 * 256 + l % 256 = l := by omega
  exact Reads.wordB (by rw [this]; exact h)

/-! ### DQT -/

/-- The assignments for one table. -/
def dqtW (n : Nat) (vals : List Nat) : Writes :=
  (Slot.qDef n, 1) :: (List.range 64).map (fun i => (Slot.q n (natOrder.getD i 0), vals.getD (natOrder.getD i 0) 0))

theorem qval_lt {vals : List Nat} (h : QWf vals) (i : Nat) : vals.getD i 0 < 65536 := by
  rw [List.getD_eq_getElem?_getD]
  cases e : vals[i]? with
  | none => simp
  | some v => exact h.2 v (List.mem_of_getElem? e)

theorem prec0 {vals : List Nat} (h : dqtPrec vals = 0) {i : Nat} (hi : i < 64) : vals.getD i 0 < 256 := by
  unfold dqtPrec at h
  split at h
  · simp at h
  · rename_i hn
    simp only [List.any_eq_true, List.mem_range, decide_eq_true_eq, not_exists, not_and] at hn
    have := hn i hi
    omega

theorem reads_entry {vals : List Nat} (h : QWf vals) {j : Nat} (hj : j < 64) :
    Reads (dqtEntry (dqtPrec vals))
      (if dqtPrec vals ≠ 0 then [vals.getD j 0 / 256 % 256, vals.getD j 0 % 256] else [vals.getD j 0 % 256]) (vals.getD j 0) [] := by
  unfold dqtEntry
  have hv := qval_lt h j
  by_cases hp : dqtPrec vals ≠ 0
  · rw [if_pos hp, if_pos hp]
    exact (Reads.word _ _).cast rfl (by omega) rfl
  · rw [if_neg hp, if_neg hp]
    have := prec0 (not_not.1 hp) hj
    exact (Reads.byte _).cast rfl (by omega) rfl

theorem reads_vals {n : Nat} {vals : List Nat} (h : QWf vals) : ∀ k i, i + k = 64 →
    Reads (dqtVals n (dqtPrec vals) k i)
      ((List.range' i k).flatMap (fun i => if dqtPrec vals ≠ 0 then
          [vals.getD (natOrder.getD i 0) 0 / 256 % 256, vals.getD (natOrder.getD i 0) 0 % 256] else [vals.getD (natOrder.getD i 0) 0 % 256])) ()
      ((List.range' i k).map (fun i => (Slot.q n (natOrder.getD i 0), vals.getD (natOrder.getD i 0) 0))) := by
  intro k
  induction k with
  | zero => intro i _; exact Reads.pure _
  | succ k ih =>
    intro i hi
    unfold dqtVals
    rw [List.range'_succ]
    have hj := Huff.natOrder_lt i (by omega)
    have hv := qval_lt h (natOrder.getD i 0)
    have h2 := (Reads.put (.q n (natOrder.getD i 0)) (vals.getD (natOrder.getD i 0) 0 % 65536)).bind
      (f := fun _ => dqtVals n (dqtPrec vals) k (i + 1)) (ih (i + 1) (by omega))
    have h1 := (reads_entry h hj).bind (f := fun tmp => do
      put (.q n (natOrder.getD i 0)) (tmp % 65536)
      dqtVals n (dqtPrec vals) k (i + 1)) h2
    refine h1.cast ?_ rfl ?_
    · simp only [List.flatMap_cons, List.nil_append]
    · simp only [List.map_cons, List.nil_append, List.cons_append]
      rw [Nat.mod_eq_of_lt hv]

theorem length_dqtBody (n : Nat) (vals : List Nat) : (dqtBody n vals).length = 64 * (dqtPrec vals + 1) + 1 := by
  have hp : dqtPrec vals = 0 ∨ dqtPrec vals = 1 := by unfold dqtPrec; split <;> simp
  unfold dqtBody
  rcases hp with h | h <;> simp [h, List.length_flatMap]

/-- Reading tables one after the other. -/
theorem reads_dqtLoop : ∀ (ts : List (Nat × List Nat)) (k : Nat) (L : Int),
    (∀ t ∈ ts, t.1 < 4 ∧ QWf t.2) → L = ((ts.map (fun t => 64 * (dqtPrec t.2 + 1) + 1)).sum : Nat) → ts.length < k →
    Reads (dqtLoop k L) (ts.flatMap (fun t => dqtBody t.1 t.2)) () (ts.flatMap (fun t => dqtW t.1 t.2)) := by
  intro ts
  induction ts with
  | nil =>
    intro k L _ hL hk
    obtain ⟨k, rfl⟩ : ∃ j, k = j + 1 := ⟨k - 1, by simp at hk; omega⟩
    simp only [List.map_nil, List.sum_nil] at hL
    subst hL
    unfold dqtLoop
    simp only [Int.ofNat_zero, gt_iff_lt, lt_self_iff_false, if_false, ne_eq, not_true_eq_false]
    exact Reads.pure _
  | cons t ts ih =>
    intro k L hwf hL hk
    obtain ⟨n, vals⟩ := t
    obtain ⟨hn, hv⟩ := hwf (n, vals) (by simp)
    simp only at hn hv
    obtain ⟨k, rfl⟩ : ∃ j, k = j + 1 := ⟨k - 1, by simp at hk; omega⟩
    have hp : dqtPrec vals = 0 ∨ dqtPrec vals = 1 := by unfold dqtPrec; split <;> simp
    simp only [List.map_cons, List.sum_cons, List.length_cons] at hL hk
    have hpos : L > 0 := by omega
    unfold dqtLoop
    rw [if_pos hpos]
    have e1 : ((n + dqtPrec vals * 16) % 256) >>> 4 = dqtPrec vals := by
      rw [Nat.shiftRight_eq_div_pow]; omega
    have e2 : (n + dqtPrec vals * 16) % 256 &&& 15 = n := by
      have : (n + dqtPrec vals * 16) % 256 &&& 15 = (n + dqtPrec vals * 16) % 256 % 16 := Nat.and_two_pow_sub_one_eq_mod _ 4
      omega
    have hrec := ih k (if dqtPrec vals ≠ 0 then L - (64 + 1) - 64 else L - (64 + 1)) (fun t ht => hwf t (by simp [ht])) (by
      rcases hp with h | h <;> rw [h] at hL ⊢ <;> simp <;> omega) (by omega)
    have hvals := reads_vals (n := n) hv 64 0 rfl
    have h3 := hvals.bind (f := fun _ => dqtLoop k (if dqtPrec vals ≠ 0 then L - (64 + 1) - 64 else L - (64 + 1))) hrec
    simp only [List.flatMap_cons]
    show Reads _ (dqtBody n vals ++ _) () (dqtW n vals ++ _)
    unfold dqtBody dqtW
    rw [List.cons_append, List.cons_append]
    apply Reads.byteB
    dsimp only
    rw [e1, e2, if_neg (by omega)]
    apply Reads.putB
    simp only [List.range_eq_range']
    exact h3

/-! ### DHT -/

theorem range_getD {l : List Nat} {n : Nat} (hn : l.length = n) (hb : IsBytes l) :
    (List.range n).map (fun i => l.getD i 0 % 256) = l := by
  subst hn
  apply List.ext_getElem (by simp)
  intro i h1 h2
  simp only [List.getElem_map, List.getElem_range]
  rw [List.getD_eq_getElem?_getD, List.getElem?_eq_getElem h2, Option.getD_some, Nat.mod_eq_of_lt (hb _ (List.getElem_mem h2))]

/-- The symbols that are transmitted. -/
def symsOf (t : HuffTbl) : List Nat := (List.range t.counts.sum).map (fun i => t.vals.getD i 0 % 256)

/-- The assignments for one table. -/
def dhtW (ac : Bool) (n : Nat) (t : HuffTbl) : Writes := tblWrites ac n (0 :: t.counts) (symsOf t)

theorem dhtBody_eq {ac : Bool} {n : Nat} {t : HuffTbl} (h : HWf t) (hn : n < 4) :
    dhtBody ac n t = (if ac then n + 0x10 else n) :: (t.counts ++ symsOf t) := by
  unfold dhtBody symsOf
  rw [range_getD h.1 h.2.1]
  congr 1
  split <;> omega

theorem length_dhtBody {ac : Bool} {n : Nat} {t : HuffTbl} : (dhtBody ac n t).length = t.counts.sum + 16 + 1 := by
  simp [dhtBody]; omega

theorem reads_dhtLoop : ∀ (ts : List (Bool × Nat × HuffTbl)) (k : Nat) (L : Int),
    (∀ t ∈ ts, t.2.1 < 4 ∧ HWf t.2.2) → L = ((ts.map (fun t => t.2.2.counts.sum + 16 + 1)).sum : Nat) → ts.length < k →
    Reads (dhtLoop k L) (ts.flatMap (fun t => dhtBody t.1 t.2.1 t.2.2)) () (ts.flatMap (fun t => dhtW t.1 t.2.1 t.2.2)) := by
  intro ts
  induction ts with
  | nil =>
    intro k L _ hL hk
    obtain ⟨k, rfl⟩ : ∃ j, k = j + 1 := ⟨k - 1, by simp at hk; omega⟩
    simp only [List.map_nil, List.sum_nil] at hL
    subst hL
    unfold dhtLoop
    rw [if_neg (by omega), if_neg (by omega)]
    exact Reads.pure _
  | cons t ts ih =>
    intro k L hwf hL hk
    obtain ⟨ac, n, t⟩ := t
    obtain ⟨hn, ht⟩ := hwf (ac, n, t) (by simp)
    simp only at hn ht
    obtain ⟨k, rfl⟩ : ∃ j, k = j + 1 := ⟨k - 1, by simp at hk; omega⟩
    simp only [List.map_cons, List.sum_cons, List.length_cons] at hL hk
    simp only [List.flatMap_cons]
    show Reads _ (dhtBody ac n t ++ _) () (dhtW ac n t ++ _)
    rw [dhtBody_eq ht hn, List.cons_append, List.append_assoc]
    unfold dhtLoop
    rw [if_pos (by omega)]
    apply Reads.byteB
    refine Reads.bytesB (l := t.counts) ht.1 ?_
    dsimp only
    rw [if_neg (by have := ht.2.2.1; omega)]
    unfold inHuffval
    rw [if_pos ht.2.2.1]
    refine Reads.bytesB (l := symsOf t) (by simp [symsOf]) ?_
    have hrec := ih k (L - (1 + 16) - t.counts.sum) (fun t ht => hwf t (by simp [ht])) (by omega) (by omega)
    cases ac with
    | true =>
      simp only [if_true]
      have e : (n + 16) &&& 16 ≠ 0 := by
        rcases (show n = 0 ∨ n = 1 ∨ n = 2 ∨ n = 3 by omega) with rfl | rfl | rfl | rfl <;> decide
      rw [if_pos e, if_neg (by omega)]
      rw [show n + 16 - 16 = n by omega]
      exact Reads.putsB hrec
    | false =>
      simp only [Bool.false_eq_true, if_false]
      have e : ¬ n &&& 16 ≠ 0 := by
        rcases (show n = 0 ∨ n = 1 ∨ n = 2 ∨ n = 3 by omega) with rfl | rfl | rfl | rfl <;> decide
      rw [if_neg e, if_neg (by omega)]
      exact Reads.putsB hrec

/-! ### the effect of the assignments -/

/-- `n` is assigned last with `vals` by the tables `ts`. -/
theorem apply_dqtW (n : Nat) {vals : List Nat} (m : Mem) : HasQ (apply (dqtW n vals) m) n vals := by
  constructor
  · apply apply_const
    · simp [dqtW]
    · intro x hx e
      simp only [dqtW, List.mem_cons, List.mem_map] at hx
      rcases hx with rfl | ⟨i, -, rfl⟩
      · rfl
      · simp at e
  · intro i hi
    obtain ⟨h1, h2⟩ := Huff.natOrder_surj i hi
    apply apply_const
    · simp only [dqtW, List.mem_cons, List.mem_map, List.mem_range]
      right
      exact ⟨natOrder.idxOf i, h1, by rw [h2]⟩
    · intro x hx e
      simp only [dqtW, List.mem_cons, List.mem_map] at hx
      rcases hx with rfl | ⟨j, -, rfl⟩
      · simp at e
      · simp only [Slot.q.injEq, true_and] at e
        simp only [e]

/-- Quantization slots of table `n`. -/
def Slot.isQ (n : Nat) : Slot → Prop
  | .qDef k | .q k _ => k = n
  | _ => False

/-- Huffman slots of a table. -/
def Slot.isH (ac : Bool) (n : Nat) : Slot → Prop
  | .hDef a k | .hBits a k _ | .hVal a k _ => a = ac ∧ k = n
  | _ => False

theorem dqtW_slots {n : Nat} {vals : List Nat} : ∀ x ∈ dqtW n vals, x.1.isQ n := by
  intro x hx
  simp only [dqtW, List.mem_cons, List.mem_map] at hx
  rcases hx with rfl | ⟨i, -, rfl⟩ <;> rfl

theorem dhtW_slots {ac : Bool} {n : Nat} {t : HuffTbl} : ∀ x ∈ dhtW ac n t, x.1.isH ac n := by
  intro x hx
  simp only [dhtW, tblWrites, List.mem_cons, List.mem_append, List.mem_map] at hx
  rcases hx with rfl | ⟨i, -, rfl⟩ | ⟨i, -, rfl⟩ <;> exact ⟨rfl, rfl⟩

theorem apply_dhtW (ac : Bool) (n : Nat) {t : HuffTbl} (ht : HWf t) (m : Mem) : HasH (apply (dhtW ac n t) m) ac n t := by
  have mem : ∀ x, x ∈ dhtW ac n t ↔ x = (Slot.hDef ac n, 1) ∨ (∃ i < 17, x = (Slot.hBits ac n i, (0 :: t.counts).getD i 0)) ∨
      ∃ i < 256, x = (Slot.hVal ac n i, (symsOf t).getD i 0) := by
    intro x
    simp only [dhtW, tblWrites, List.mem_cons, List.mem_append, List.mem_map, List.mem_range, eq_comm]
  refine ⟨?_, ?_, ?_, ?_⟩
  · apply apply_const
    · rw [mem]; exact Or.inl rfl
    · intro x hx e
      rcases (mem x).1 hx with rfl | ⟨i, -, rfl⟩ | ⟨i, -, rfl⟩
      · rfl
      · simp at e
      · simp at e
  · apply apply_const
    · rw [mem]; exact Or.inr (Or.inl ⟨0, by omega, rfl⟩)
    · intro x hx e
      rcases (mem x).1 hx with rfl | ⟨i, -, rfl⟩ | ⟨i, -, rfl⟩
      · simp at e
      · simp only [Slot.hBits.injEq, true_and] at e
        subst e; rfl
      · simp at e
  · intro j hj
    apply apply_const
    · rw [mem]; exact Or.inr (Or.inl ⟨j + 1, by omega, by rw [List.getD_cons_succ]⟩)
    · intro x hx e
      rcases (mem x).1 hx with rfl | ⟨i, -, rfl⟩ | ⟨i, -, rfl⟩
      · simp at e
      · simp only [Slot.hBits.injEq, true_and] at e
        subst e; rw [List.getD_cons_succ]
      · simp at e
  · intro j hj
    have hs : (symsOf t).getD j 0 = if j < t.counts.sum then t.vals.getD j 0 else 0 := by
      unfold symsOf
      rw [List.getD_eq_getElem?_getD, List.getElem?_map]
      split
      · rename_i h
        rw [List.getElem?_range h]
        simp only [Option.map_some, Option.getD_some]
        exact Nat.mod_eq_of_lt (getD_lt ht.2.2.2 j)
      · rename_i h
        rw [List.getElem?_eq_none (by simp; omega)]
        rfl
    rw [← hs]
    apply apply_const
    · rw [mem]; exact Or.inr (Or.inr ⟨j, hj, rfl⟩)
    · intro x hx e
      rcases (mem x).1 hx with rfl | ⟨i, -, rfl⟩ | ⟨i, -, rfl⟩
      · simp at e
      · simp at e
      · simp only [Slot.hVal.injEq, true_and] at e
        subst e; rfl

/-- Assignments that do not touch a table leave it. -/
theorem HasQ.keep {m : Mem} {n : Nat} {vals : List Nat} (h : HasQ m n vals) {w : Writes} (hw : ∀ x ∈ w, ¬ x.1.isQ n) :
    HasQ (apply w m) n vals := by
  have k : ∀ s : Slot, s.isQ n → apply w m s = m s := fun s hs => apply_notin (fun x hx e => hw x hx (by rw [e]; exact hs))
  exact ⟨by rw [k (.qDef n) rfl]; exact h.1, fun i hi => by rw [k (.q n i) rfl]; exact h.2 i hi⟩

theorem HasH.keep {m : Mem} {ac : Bool} {n : Nat} {t : HuffTbl} (h : HasH m ac n t) {w : Writes} (hw : ∀ x ∈ w, ¬ x.1.isH ac n) :
    HasH (apply w m) ac n t := by
  have k : ∀ s : Slot, s.isH ac n → apply w m s = m s := fun s hs => apply_notin (fun x hx e => hw x hx (by rw [e]; exact hs))
  exact ⟨by rw [k (.hDef ac n) ⟨rfl, rfl⟩]; exact h.1, by rw [k (.hBits ac n 0) ⟨rfl, rfl⟩]; exact h.2.1,
    fun i hi => by rw [k (.hBits ac n (i + 1)) ⟨rfl, rfl⟩]; exact h.2.2.1 i hi,
    fun i hi => by rw [k (.hVal ac n i) ⟨rfl, rfl⟩]; exact h.2.2.2 i hi⟩

end Verif.Mark
