/-
The counting loop and the counting sort at the end of jpeg_gen_optimal_table (Optimal.lean).
-/
import Verif.Huff.OptLimit
import Mathlib.Data.Finset.Card
import Mathlib.Data.List.Perm.Subperm
import Mathlib.Data.List.Range

namespace Verif.Huff.Opt

/-- Number of k < n with code size l. -/
def cnt (cs : Nat → Nat) (n l : Nat) : Nat := ((Finset.range n).filter (fun k => cs k = l)).card

theorem cnt_succ (cs : Nat → Nat) (n l : Nat) :
    cnt cs (n + 1) l = cnt cs n l + (if cs n = l then 1 else 0) := by
  unfold cnt
  rw [Finset.range_add_one, Finset.filter_insert]
  by_cases h : cs n = l
  · rw [if_pos h, if_pos h, Finset.card_insert_of_notMem (by simp)]
  · rw [if_neg h, if_neg h]; rfl

theorem cnt_le (cs : Nat → Nat) (n l : Nat) : cnt cs n l ≤ n := by
  have := Finset.card_filter_le (Finset.range n) (fun k => cs k = l)
  rw [Finset.card_range] at this
  exact this

theorem countBits_eq (cs : Nat → Nat) : ∀ n, n ≤ 255 → ∀ l, countBits cs n l = cnt cs n l := by
  intro n
  induction n with
  | zero => intro _ l; simp [countBits, cnt]
  | succ n ih =>
    intro hn l
    have : countBits cs (n + 1) l = (if l = cs n then (countBits cs n l + 1) % 256 else countBits cs n l) := by
      unfold countBits
      rw [List.range_succ, List.foldl_append]
      rfl
    rw [this, cnt_succ, ih (by omega) l]
    have := cnt_le cs n l
    by_cases e : cs n = l
    · rw [if_pos e.symm, if_pos e]; omega
    · rw [if_neg (fun h => e h.symm), if_neg e]; omega

/-- A weighted sum over lengths is a sum over symbols. -/
theorem W_cnt (w cs : Nat → Nat) : ∀ n, (∀ i < n, cs i ≤ 32) →
    W w (cnt cs n) = ((List.range n).map (fun i => w (cs i))).sum := by
  intro n
  induction n with
  | zero =>
    intro _
    unfold W
    rw [head_zero (fun l _ => by simp [cnt])]
    rfl
  | succ n ih =>
    intro h
    rw [List.range_succ]
    simp only [List.map_append, List.map_cons, List.map_nil, List.sum_append, List.sum_cons, List.sum_nil]
    rw [← ih (fun i hi => h i (by omega))]
    have := W_upd w (cnt cs n) (cs n) (cnt cs n (cs n) + 1) (by have := h n (by omega); omega)
    have e : cnt cs (n + 1) = fun l => if l = cs n then cnt cs n (cs n) + 1 else cnt cs n l := by
      funext l
      rw [cnt_succ]
      by_cases e : l = cs n
      · rw [if_pos e, e]; simp
      · rw [if_neg e, if_neg (fun h => e h.symm)]; rfl
    rw [e]
    rw [Nat.add_mul] at this
    omega

/-- i is sorted before j. -/
def Lex (cs : Nat → Nat) (i j : Nat) : Prop := cs i < cs j ∨ cs i = cs j ∧ i < j

instance (cs : Nat → Nat) (i j : Nat) : Decidable (Lex cs i j) := by unfold Lex; infer_instance

/-- Place of i in the sorted order. -/
def rank (cs : Nat → Nat) (n i : Nat) : Nat := ((Finset.range n).filter (fun k => Lex cs k i)).card

theorem rank_lt_rank {cs : Nat → Nat} {n i j : Nat} (hi : i < n) (h : Lex cs i j) :
    rank cs n i < rank cs n j := by
  unfold rank
  apply Finset.card_lt_card
  rw [Finset.ssubset_iff_of_subset]
  · refine ⟨i, ?_, ?_⟩
    · exact Finset.mem_filter.2 ⟨Finset.mem_range.2 hi, h⟩
    · intro h'
      have := (Finset.mem_filter.1 h').2
      unfold Lex at this
      omega
  · intro k hk
    simp only [Finset.mem_filter, Finset.mem_range] at hk ⊢
    refine ⟨hk.1, ?_⟩
    unfold Lex at *
    omega

theorem rank_inj {cs : Nat → Nat} {n i j : Nat} (hi : i < n) (hj : j < n) (h : rank cs n i = rank cs n j) :
    i = j := by
  by_cases e : i = j
  · exact e
  · have : Lex cs i j ∨ Lex cs j i := by unfold Lex; omega
    rcases this with h' | h'
    · have := rank_lt_rank hi h'; omega
    · have := rank_lt_rank hj h'; omega

theorem rank_last {cs : Nat → Nat} {n : Nat} (h : ∀ i < n, cs i ≤ cs n) : rank cs (n + 1) n = n := by
  unfold rank
  have : (Finset.range (n + 1)).filter (fun k => Lex cs k n) = Finset.range n := by
    ext k
    simp only [Finset.mem_filter, Finset.mem_range]
    constructor
    · rintro ⟨h1, h2⟩
      unfold Lex at h2
      by_cases e : k = n
      · subst e; omega
      · omega
    · intro hk
      have := h k hk
      unfold Lex
      omega
  rw [this, Finset.card_range]

/-- Position at which entry i is stored: symbols of smaller length plus earlier symbols of its length. -/
theorem rank_eq {cs : Nat → Nat} {n i : Nat} (hi : i < n) :
    rank cs n i = ((Finset.range n).filter (fun k => cs k < cs i)).card + cnt cs i (cs i) := by
  unfold rank cnt
  rw [← Finset.card_union_of_disjoint]
  · congr 1
    ext k
    rw [Finset.mem_filter, Finset.mem_union, Finset.mem_filter, Finset.mem_filter, Finset.mem_range,
      Finset.mem_range]
    unfold Lex
    omega
  · rw [Finset.disjoint_left]
    intro k h1 h2
    simp only [Finset.mem_filter, Finset.mem_range] at h1 h2
    omega

theorem bitPos_eq {cs : Nat → Nat} {n : Nat} (h1 : ∀ i < n, 1 ≤ cs i) : ∀ l,
    bitPos (cnt cs n) l = ((Finset.range n).filter (fun k => cs k < l)).card := by
  intro l
  induction l with
  | zero => simp [bitPos]
  | succ l ih =>
    by_cases e : l = 0
    · subst e
      have : (Finset.range n).filter (fun k => cs k < 0 + 1) = ∅ := by
        ext k
        simp only [Finset.mem_filter, Finset.mem_range, Finset.notMem_empty, iff_false]
        intro h
        have := h1 k h.1
        omega
      rw [this]
      simp [bitPos]
    · have : bitPos (cnt cs n) (l + 1) = bitPos (cnt cs n) l + cnt cs n l := by
        unfold bitPos
        rw [show l + 1 - 1 = (l - 1) + 1 by omega, List.range'_concat]
        simp only [List.map_append, List.map_cons, List.map_nil, List.sum_append, List.sum_cons, List.sum_nil]
        rw [show 1 + 1 * (l - 1) = l by omega]
        omega
      rw [this, ih]
      unfold cnt
      rw [← Finset.card_union_of_disjoint]
      · congr 1
        ext k
        simp only [Finset.mem_filter, Finset.mem_range, Finset.mem_union]
        omega
      · rw [Finset.disjoint_left]
        intro k h1 h2
        simp only [Finset.mem_filter, Finset.mem_range] at h1 h2
        omega

theorem fillVals_spec {cs nz : Nat → Nat} {n : Nat} : ∀ (m s : Nat) (hv bp : Nat → Nat), s + m ≤ n →
    (∀ l, bp l = ((Finset.range n).filter (fun k => cs k < l)).card + cnt cs s l) →
    (∀ i < s, hv (rank cs n i) = nz i % 256) →
    ∀ i < s + m, (fillVals cs nz (List.range' s m) (hv, bp)).1 (rank cs n i) = nz i % 256 := by
  intro m
  induction m with
  | zero => intro s hv bp _ _ h i hi; exact h i hi
  | succ m ih =>
    intro s hv bp hn hb h i hi
    rw [List.range'_succ]
    simp only [fillVals]
    have hr : bp (cs s) = rank cs n s := by rw [hb, rank_eq (by omega)]
    refine ih (s + 1) _ _ (by omega) ?_ ?_ i (by omega)
    · intro l
      rw [cnt_succ, hb l]
      by_cases e : l = cs s
      · rw [if_pos e, if_pos e.symm]; omega
      · rw [if_neg e, if_neg (fun h => e h.symm)]; omega
    · intro k hk
      rw [hr]
      by_cases e : k = s
      · subst e; simp
      · rw [if_neg]
        · exact h k (by omega)
        · intro h'
          exact e (rank_inj (by omega) (by omega) h')

/-- The sort delivers all symbols but the last, once each. -/
theorem fillVals_perm {cs nz : Nat → Nat} {n : Nat} (h1 : ∀ i < n + 1, 1 ≤ cs i) (hl : ∀ i < n, cs i ≤ cs n)
    (hn : n + 1 ≤ 255) :
    ((List.range n).map (fillVals cs nz (List.range n) (fun _ => 0, bitPos (countBits cs (n + 1)))).1).Perm
      ((List.range n).map (fun i => nz i % 256)) := by
  have hcb : countBits cs (n + 1) = cnt cs (n + 1) := by
    funext l; exact countBits_eq cs _ hn l
  have hspec := fillVals_spec (cs := cs) (nz := nz) (n := n + 1) n 0 (fun _ => 0)
    (bitPos (countBits cs (n + 1))) (by omega)
    (by intro l; rw [hcb, bitPos_eq h1]; simp [cnt]) (by intro i hi; omega)
  rw [← List.range_eq_range'] at hspec
  have hp : ((List.range n).map (rank cs (n + 1))).Perm (List.range n) := by
    have hnd : ((List.range n).map (rank cs (n + 1))).Nodup := by
      apply List.Nodup.map_on _ List.nodup_range
      intro x hx y hy h
      rw [List.mem_range] at hx hy
      exact rank_inj (by omega) (by omega) h
    have hs : (List.range n).map (rank cs (n + 1)) ⊆ List.range n := by
      intro p hp
      simp only [List.mem_map, List.mem_range] at hp ⊢
      obtain ⟨i, hi, rfl⟩ := hp
      have := rank_lt_rank (cs := cs) (n := n + 1) (i := i) (j := n) (by omega)
        (by have := hl i hi; unfold Lex; omega)
      rw [rank_last hl] at this
      exact this
    exact (hnd.subperm hs).perm_of_length_le (by simp)
  have := hp.map (fillVals cs nz (List.range n) (fun _ => 0, bitPos (countBits cs (n + 1)))).1
  refine this.symm.trans ?_
  rw [List.map_map]
  apply List.Perm.of_eq
  apply List.map_congr_left
  intro i hi
  rw [List.mem_range] at hi
  exact hspec i (by omega)

end Verif.Huff.Opt
