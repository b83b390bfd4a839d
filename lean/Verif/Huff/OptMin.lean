/-
C38: when no code is longer than 16 bits, the generated table minimizes the coded size.
-/
import Verif.Huff.OptProps
import Verif.Huff.OptCost

namespace Verif.Huff.Opt

theorem rank_drop {cs : Nat → Nat} {n i : Nat} (hl : ∀ i < n, cs i ≤ cs n) (hi : i < n) :
    rank cs (n + 1) i = rank cs n i := by
  unfold rank
  congr 1
  ext k
  rw [Finset.mem_filter, Finset.mem_filter, Finset.mem_range, Finset.mem_range]
  constructor
  · rintro ⟨h1, h2⟩
    refine ⟨?_, h2⟩
    by_contra hk
    have : k = n := by omega
    subst this
    have := hl i hi
    unfold Lex at h2
    omega
  · rintro ⟨h1, h2⟩
    exact ⟨by omega, h2⟩

theorem take_counts (g : Nat → Nat) (k : Nat) (hk : k ≤ 16) :
    (((List.range' 1 16).map g).take k).sum = bitPos g (k + 1) := by
  unfold bitPos
  rw [← List.map_take, List.take_range'_of_length_ge hk]
  rfl

/-- Without limiting, the number of codes of each length is that of the Huffman tree. -/
theorem genOptimal_short (freq : Nat → Nat) (hu : (used freq).length ≤ 254) (hT : total freq + 1 ≤ LIM)
    (h1 : 1 ≤ (used freq).length) (h16 : codeSizes freq (used freq).length ≤ 16) :
    ∃ t, genOptimal freq = .ok t ∧ t.counts = (List.range' 1 16).map (cnt (codeSizes freq) (used freq).length) ∧
      ∀ k, ∀ h : k < (used freq).length,
        t.vals.getD (rank (codeSizes freq) (used freq).length k) 0 = (used freq)[k] := by
  have hl : (nzIndex freq).length = (used freq).length + 1 := by rw [nzIndex_eq]; simp
  have hs := codeSizes_spec freq hT
  have hle : ∀ i < (used freq).length + 1, codeSizes freq i ≤ 16 := by
    intro i hi
    by_cases e : i = (used freq).length
    · rw [e]; exact h16
    · have := hs.last i (by omega); omega
  have hcb : countBits (codeSizes freq) ((used freq).length + 1) =
      cnt (codeSizes freq) ((used freq).length + 1) := by
    funext l; exact countBits_eq _ _ (by omega) l
  have hz : ∀ l, codeSizes freq (used freq).length < l →
      cnt (codeSizes freq) ((used freq).length + 1) l = 0 := by
    intro l hlt
    unfold cnt
    rw [Finset.card_eq_zero]
    ext k
    simp only [Finset.mem_filter, Finset.mem_range, Finset.notMem_empty, iff_false]
    rintro ⟨hk, e⟩
    by_cases e2 : k = (used freq).length
    · rw [e2] at e; omega
    · have := hs.last k (by omega); omega
  have hlim := limit_id 16 (countBits (codeSizes freq) ((used freq).length + 1)) (by
    intro l hlt; rw [hcb]; exact hz l (by omega))
  have hpos : 0 < cnt (codeSizes freq) ((used freq).length + 1) (codeSizes freq (used freq).length) := by
    rw [cnt_succ]; simp
  have hfd : findDown (cnt (codeSizes freq) ((used freq).length + 1)) 16 =
      some (codeSizes freq (used freq).length) := by
    cases hf : findDown (cnt (codeSizes freq) ((used freq).length + 1)) 16 with
    | none => have := findDown_none hf _ h16; omega
    | some j =>
      obtain ⟨j1, j2, j3⟩ := findDown_some hf
      congr 1
      by_contra hne
      rcases Nat.lt_or_gt_of_ne hne with h' | h'
      · have := j3 _ h' h16; omega
      · have := hz j h'; omega
  have hval := fillVals_spec (cs := codeSizes freq) (nz := fun k => (nzIndex freq).getD k 0)
    (n := (used freq).length + 1) (used freq).length 0 (fun _ => 0)
    (bitPos (countBits (codeSizes freq) ((used freq).length + 1))) (by omega)
    (by intro l; rw [hcb, bitPos_eq (hs.pos h1)]; simp [cnt]) (by intro i hi; omega)
  rw [← List.range_eq_range'] at hval
  unfold genOptimal
  simp only [hl]
  rw [if_neg (by
    rw [any_gt]
    rintro ⟨i, hi, h⟩
    have := hle i (by omega)
    omega)]
  rw [hlim]
  simp only [hcb, hfd]
  refine ⟨_, rfl, ?_, ?_⟩
  · simp only
    apply List.map_congr_left
    intro l _
    have hc := cnt_succ (codeSizes freq) (used freq).length l
    have hb := cnt_le (codeSizes freq) ((used freq).length + 1) l
    by_cases e : l = codeSizes freq (used freq).length
    · rw [if_pos e]
      rw [if_pos e.symm] at hc
      omega
    · rw [if_neg e]
      rw [if_neg (fun h => e h.symm)] at hc
      omega
  · intro k hk
    have hv := hval k (by omega)
    rw [rank_drop hs.last hk] at hv
    have hr : rank (codeSizes freq) (used freq).length k < 256 := by
      have := Finset.card_filter_le (Finset.range (used freq).length) (fun j => Lex (codeSizes freq) j k)
      rw [Finset.card_range] at this
      unfold rank
      omega
    simp only
    rw [List.getD_eq_getElem?_getD, List.getElem?_map, List.getElem?_range hr]
    simp only [Option.map_some, Option.getD_some]
    rw [hcb] at hv
    rw [show (used freq).length + 1 - 1 = (used freq).length by omega, hv, nz_get hk]
    have := mem_used.1 (List.getElem_mem hk)
    omega

/-- Without limiting, each symbol's code has the length of the Huffman tree. -/
theorem genOptimal_lengths (freq : Nat → Nat) (hu : (used freq).length ≤ 254) (hT : total freq + 1 ≤ LIM)
    (h1 : 1 ≤ (used freq).length) (h16 : codeSizes freq (used freq).length ≤ 16) :
    ∃ t c, genOptimal freq = .ok t ∧ makeCTbl 255 t = some c ∧
      ∀ k, ∀ h : k < (used freq).length, (c (used freq)[k]).2 = codeSizes freq k := by
  have hs := codeSizes_spec freq hT
  have hle : ∀ i < (used freq).length + 1, codeSizes freq i ≤ 16 := by
    intro i hi
    by_cases e : i = (used freq).length
    · rw [e]; exact h16
    · have := hs.last i (by omega); omega
  obtain ⟨t, e, ec, ev⟩ := genOptimal_short freq hu hT h1 h16
  obtain ⟨t', e', T⟩ := genOptimal_tspec freq hu hT (fun i hi => by have := hle i (by omega); omega)
  have : t' = t := by rw [e] at e'; injection e' with h; exact h.symm
  subst this
  obtain ⟨c, hc, hcl⟩ := makeCTbl_ok (maxsym := 255) T.len (by have := T.sum; omega) T.kraft
    (by have := T.sum; have := T.vlen; omega) (T.perm.nodup_iff.2 (used_nodup freq)) (by
      intro v hv
      have := mem_used.1 (T.perm.mem_iff.1 hv)
      omega)
  refine ⟨t', c, e, hc, ?_⟩
  intro k hk
  have hp1 : ∀ i < (used freq).length, 1 ≤ codeSizes freq i := fun i hi => hs.pos h1 i (by omega)
  have hrk : rank (codeSizes freq) (used freq).length k < (used freq).length := by
    have := rank_lt_rank (cs := codeSizes freq) (n := (used freq).length + 1) (i := k) (j := (used freq).length)
      (by omega) (by have := hs.last k hk; unfold Lex; omega)
    rw [rank_last hs.last, rank_drop hs.last hk] at this
    exact this
  rw [← ev k hk, hcl _ (by rw [T.sum]; exact hrk), ec]
  have hck := hle k (by omega)
  have hck1 := hp1 k hk
  rw [mkSizes_getD 1 _ (codeSizes freq k - 1)]
  · omega
  · rw [take_counts _ _ (by omega), bitPos_eq hp1, show codeSizes freq k - 1 + 1 = codeSizes freq k by omega,
      rank_eq hk]
    omega
  · rw [take_counts _ _ (by omega), bitPos_eq hp1, show codeSizes freq k - 1 + 1 + 1 = codeSizes freq k + 1 by omega]
    unfold rank
    apply Finset.card_lt_card
    rw [Finset.ssubset_iff_of_subset]
    · refine ⟨k, Finset.mem_filter.2 ⟨Finset.mem_range.2 hk, by omega⟩, ?_⟩
      intro h'
      have := (Finset.mem_filter.1 h').2
      unfold Lex at this
      omega
    · intro j hj
      rw [Finset.mem_filter] at hj ⊢
      refine ⟨hj.1, ?_⟩
      have := hj.2
      unfold Lex at this
      omega

/-- Bits spent on the symbols by an encoder table. -/
def cost (freq : Nat → Nat) (c : CTbl) : Nat := ((List.range 256).map (fun s => freq s * (c s).2)).sum

theorem cost_used (freq : Nat → Nat) (g : Nat → Nat) :
    ((List.range 256).map (fun s => freq s * g s)).sum = ((used freq).map (fun s => freq s * g s)).sum := by
  unfold used
  generalize List.range 256 = L
  induction L with
  | nil => rfl
  | cons x L ih =>
    rw [List.filter_cons]
    simp only [ne_eq] at ih ⊢
    by_cases h : freq x = 0
    · simp only [h, not_true, decide_false, Bool.false_eq_true, if_false, List.map_cons, List.sum_cons]
      omega
    · simp only [h, not_false_eq_true, decide_true, if_true, List.map_cons, List.sum_cons]
      omega

theorem map_range_get (L : List Nat) (g : Nat → Nat) (f : Nat → Nat)
    (h : ∀ k, ∀ hk : k < L.length, f k = g L[k]) : (List.range L.length).map f = L.map g := by
  apply List.ext_getElem
  · simp
  · intro k h1 h2
    simp only [List.length_map] at h2
    simp [h k h2]

theorem sublist_sum_le {a b : List Nat} (h : List.Sublist a b) : a.sum ≤ b.sum := by
  induction h with
  | slnil => simp
  | cons x _ ih => rw [List.sum_cons]; omega
  | cons_cons x _ ih => rw [List.sum_cons, List.sum_cons]; omega

/-- Code lengths of an accepted table satisfy the Kraft inequality with room for one more 16-bit code. -/
theorem kraft_used (freq : Nat → Nat) (t : HuffTbl) (c : CTbl) (h16 : t.counts.length = 16)
    (hc : makeCTbl 255 t = some c) (hcov : ∀ s < 256, freq s ≠ 0 → (c s).2 ≠ 0) :
    ((used freq).map (fun s => 2 ^ (16 - (c s).2))).sum + 1 ≤ 2 ^ 16 := by
  obtain ⟨sizes, codes, he, h1, h2⟩ := makeCTbl_spec hc
  obtain ⟨C, hsz⟩ := expand_canon (by omega) he
  have hlen : sizes.length = t.counts.sum := by rw [hsz, length_mkSizes]
  have hk : kraft16 1 t.counts < 2 ^ 16 :=
    ((table_accepted_iff t h16).1 (by unfold makeDTbl; rw [he]; rfl)).2
  rw [← sumK_mkSizes, ← hsz] at hk
  -- choose a position for each used symbol
  have hpos : ∀ s, ∃ q, s ∈ used freq → q < sizes.length ∧ t.vals.getD q 0 = s ∧ sizes.getD q 0 = (c s).2 := by
    intro s
    by_cases hs : s ∈ used freq
    · have hm := mem_used.1 hs
      rcases h1 s with h | ⟨q, hq, e1, _, e3⟩
      · exact absurd (by rw [h]) (hcov s hm.1 hm.2)
      · exact ⟨q, fun _ => ⟨hq, e1, e3⟩⟩
    · exact ⟨0, fun h => absurd h hs⟩
  choose q hq using hpos
  have e : (used freq).map (fun s => 2 ^ (16 - (c s).2)) =
      ((used freq).map q).map (fun p => K (sizes.getD p 0)) := by
    rw [List.map_map]
    apply List.map_congr_left
    intro s hs
    simp only [Function.comp]
    rw [(hq s hs).2.2]; rfl
  have hnd : ((used freq).map q).Nodup := by
    apply List.Nodup.map_on _ (used_nodup freq)
    intro x hx y hy h
    rw [← (hq x hx).2.1, ← (hq y hy).2.1, h]
  have hsub : List.Subperm ((used freq).map q) (List.range sizes.length) := by
    apply hnd.subperm
    intro p hp
    obtain ⟨s, hs, rfl⟩ := List.mem_map.1 hp
    exact List.mem_range.2 (hq s hs).1
  have hall : ((List.range sizes.length).map (fun p => K (sizes.getD p 0))).sum = sumK sizes := by
    rw [map_range_getD sizes K]; rfl
  rw [e]
  obtain ⟨l, hl1, hl2⟩ := hsub
  have e1 := (hl1.map (fun p => K (sizes.getD p 0))).sum_nat
  have e2 := sublist_sum_le (hl2.map (fun p => K (sizes.getD p 0)))
  omega

/-- **C38.**  Let every used symbol occur at least m times and let there be fewer than 2583 + 1597 m
occurrences.  Then no accepted Huffman table `c'` that codes all used symbols beats the generated table `c` by
more than 15 bits in total (the price of the all-ones code that JPEG keeps unused). -/
theorem optimal_table_minimal (freq : Nat → Nat) (m : Nat) (h1 : 1 ≤ (used freq).length)
    (hu : (used freq).length ≤ 254) (hT : total freq + 1 ≤ 1000000000)
    (hm : ∀ s < 256, freq s ≠ 0 → m ≤ freq s) (hd : total freq < 2583 + 1597 * m) :
    ∃ t c, genOptimal freq = .ok t ∧ makeCTbl 255 t = some c ∧
      ∀ t' c', t'.counts.length = 16 → makeCTbl 255 t' = some c' → (∀ s < 256, freq s ≠ 0 → (c' s).2 ≠ 0) →
        cost freq c ≤ cost freq c' + 15 := by
  have hs := codeSizes_spec freq hT
  obtain ⟨D, hr, he⟩ := codeSizes_run freq hT
  have hwl := wt_last freq
  -- the pseudo-symbol is the deepest
  have h16 : codeSizes freq (used freq).length ≤ 16 := by
    rw [he _ (by omega)]
    by_contra hgt
    have hf := run_fib hr List.nodup_range (used freq).length (by simp) m (by
      intro x hx hne
      rw [List.mem_range] at hx
      have hx' : x < (used freq).length := by omega
      rw [(wt_get hx').1]
      have := mem_used.1 (List.getElem_mem hx')
      exact hm _ this.1 this.2)
    rw [wt_sum, hwl] at hf
    have f1 : fib 18 ≤ fib (D (used freq).length + 1) := fib_mono (by omega)
    have f2 : fib 17 ≤ fib (D (used freq).length) := fib_mono (by omega)
    have f3 := Nat.mul_le_mul_right m f2
    have g1 : fib 18 = 2584 := by decide +kernel
    have g2 : fib 17 = 1597 := by decide +kernel
    rw [g1] at f1
    rw [g2] at f3
    omega
  obtain ⟨t, c, e, hc, hlen⟩ := genOptimal_lengths freq hu hT h1 h16
  refine ⟨t, c, e, hc, ?_⟩
  intro t' c' h16' hc' hcov
  have hk := kraft_used freq t' c' h16' hc' hcov
  have hc'16 := fun s => (makeCTbl_wf h16' hc' s).1
  -- lengths of the competing code, with 16 for the pseudo-symbol
  have opt := run_optimal hr List.nodup_range 16
    (fun k => if k < (used freq).length then (c' ((used freq).getD k 0)).2 else 16) (by
      intro x _
      split
      · exact hc'16 _
      · exact Nat.le_refl _) (by
      rw [List.range_succ]
      simp only [List.map_append, List.map_cons, List.map_nil, List.sum_append, List.sum_cons, List.sum_nil]
      rw [map_range_get (used freq) (fun s => 2 ^ (16 - (c' s).2)) _ (by
        intro k hk
        rw [if_pos hk, List.getD_eq_getElem?_getD, List.getElem?_eq_getElem hk]; rfl)]
      rw [if_neg (by omega)]
      simpa using hk)
  rw [List.range_succ] at opt
  simp only [List.map_append, List.map_cons, List.map_nil, List.sum_append, List.sum_cons, List.sum_nil] at opt
  rw [map_range_get (used freq) (fun s => freq s * (c s).2) _ (by
        intro k hk
        rw [(wt_get hk).1, hlen k hk, he k (by omega)]),
      map_range_get (used freq) (fun s => freq s * (c' s).2) _ (by
        intro k hk
        rw [if_pos hk, (wt_get hk).1, List.getD_eq_getElem?_getD, List.getElem?_eq_getElem hk]; rfl)] at opt
  rw [if_neg (by omega), hwl] at opt
  unfold cost
  rw [cost_used, cost_used]
  have hp := hs.pos h1 (used freq).length (by omega)
  rw [he _ (by omega)] at hp
  omega

/-- Counts 1, 2, 4, 8, 16 of the symbols 0..4. -/
def exFreq (s : Nat) : Nat := if s < 5 then 2 ^ s else 0

/-- The hypotheses of both theorems hold and the table is as expected. -/
example : (used exFreq).length = 5 ∧ total exFreq = 31 ∧ (∀ s < 256, exFreq s ≠ 0 → 1 ≤ exFreq s) ∧
    (match genOptimal exFreq with
     | .ok t => t.counts = [1, 1, 1, 1, 1, 0, 0, 0, 0, 0, 0, 0, 0, 0, 0, 0] ∧ t.vals.take 5 = [4, 3, 2, 1, 0]
     | .error _ => False) := by
  refine ⟨by decide +kernel, by decide +kernel, by intro s _ h; omega, ?_⟩
  have h : (genOptimal exFreq).toOption.map (fun t => (t.counts, t.vals.take 5)) =
      some ([1, 1, 1, 1, 1, 0, 0, 0, 0, 0, 0, 0, 0, 0, 0, 0], [4, 3, 2, 1, 0]) := by decide +kernel
  cases hg : genOptimal exFreq with
  | ok t => rw [hg] at h; simpa [Except.toOption] using h
  | error e => rw [hg] at h; simp [Except.toOption] at h

end Verif.Huff.Opt
