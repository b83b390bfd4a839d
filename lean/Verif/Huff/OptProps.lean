/-
C05: the tables made by jpeg_gen_optimal_table are accepted and code exactly the used symbols.
-/
import Verif.Huff.OptRefine
import Verif.Huff.OptSort
import Verif.Huff.PropsTable
import Mathlib.Tactic.ByContra

namespace Verif.Huff.Opt

/-- The symbols that occur. -/
def used (freq : Nat → Nat) : List Nat := (List.range 256).filter (fun s => decide (freq s ≠ 0))

/-- The number of symbol occurrences. -/
def total (freq : Nat → Nat) : Nat := ((List.range 256).map freq).sum

theorem filter_256 (freq : Nat → Nat) (L : List Nat) (h : ∀ x ∈ L, x < 256) :
    (L ++ [256]).filter (fun i => decide ((if i = 256 then 1 else freq i) ≠ 0)) =
      L.filter (fun s => decide (freq s ≠ 0)) ++ [256] := by
  rw [List.filter_append]
  have : L.filter (fun i => decide ((if i = 256 then 1 else freq i) ≠ 0)) =
      L.filter (fun s => decide (freq s ≠ 0)) := by
    apply List.filter_congr
    intro x hx
    have := h x hx
    rw [if_neg (by omega)]
  rw [this]
  simp

theorem nzIndex_eq (freq : Nat → Nat) : nzIndex freq = used freq ++ [256] := by
  unfold nzIndex used
  rw [show List.range 257 = List.range 256 ++ [256] from List.range_succ]
  exact filter_256 freq _ (fun x hx => List.mem_range.1 hx)

theorem sum_used (freq : Nat → Nat) : ((used freq).map freq).sum = total freq := by
  unfold used total
  generalize List.range 256 = L
  induction L with
  | nil => rfl
  | cons x L ih =>
    rw [List.filter_cons]
    simp only [ne_eq] at ih ⊢
    by_cases h : freq x = 0
    · simp only [ne_eq, h, not_true, decide_false, Bool.false_eq_true, if_false, List.map_cons, List.sum_cons]
      omega
    · simp only [ne_eq, h, not_false_eq_true, decide_true, if_true, List.map_cons, List.sum_cons]
      omega

theorem used_nodup (freq : Nat → Nat) : (used freq).Nodup := List.nodup_range.filter _

theorem mem_used {freq : Nat → Nat} {s : Nat} : s ∈ used freq ↔ s < 256 ∧ freq s ≠ 0 := by
  simp [used]

/-- Weight of the k-th nonzero entry. -/
def wt (freq : Nat → Nat) (k : Nat) : Nat :=
  let i := (nzIndex freq).getD k 0; if i = 256 then 1 else freq i

theorem nz_get {freq : Nat → Nat} {k : Nat} (h : k < (used freq).length) :
    (nzIndex freq).getD k 0 = (used freq)[k] := by
  rw [nzIndex_eq, List.getD_eq_getElem?_getD, List.getElem?_append_left h, List.getElem?_eq_getElem h]
  rfl

theorem nz_last (freq : Nat → Nat) : (nzIndex freq).getD (used freq).length 0 = 256 := by
  rw [nzIndex_eq, List.getD_eq_getElem?_getD, List.getElem?_append_right (Nat.le_refl _)]
  simp

theorem wt_get {freq : Nat → Nat} {k : Nat} (h : k < (used freq).length) :
    wt freq k = freq (used freq)[k] ∧ 1 ≤ wt freq k := by
  unfold wt
  rw [nz_get h]
  have := mem_used.1 (List.getElem_mem h)
  simp only [if_neg (by omega : ¬ (used freq)[k] = 256)]
  exact ⟨trivial, by omega⟩

theorem wt_last (freq : Nat → Nat) : wt freq (used freq).length = 1 := by
  unfold wt; rw [nz_last]; simp

theorem map_range_getD (L : List Nat) (g : Nat → Nat) :
    (List.range L.length).map (fun k => g (L.getD k 0)) = L.map g := by
  apply List.ext_getElem
  · simp
  · intro k h1 h2
    simp only [List.length_map] at h2
    simp [h2]

theorem wt_sum (freq : Nat → Nat) :
    ((List.range ((used freq).length + 1)).map (wt freq)).sum = total freq + 1 := by
  have := map_range_getD (nzIndex freq) (fun i => if i = 256 then 1 else freq i)
  have hl : (nzIndex freq).length = (used freq).length + 1 := by rw [nzIndex_eq]; simp
  rw [hl] at this
  have h2 : (List.range ((used freq).length + 1)).map (wt freq) =
      (nzIndex freq).map (fun i => if i = 256 then 1 else freq i) := this
  rw [h2, nzIndex_eq, List.map_append, List.sum_append, ← sum_used]
  have : (used freq).map (fun i => if i = 256 then 1 else freq i) = (used freq).map freq := by
    apply List.map_congr_left
    intro s hs
    rw [if_neg (by have := mem_used.1 hs; omega)]
  rw [this]
  simp

theorem codeSizes_run (freq : Nat → Nat) (hT : total freq + 1 ≤ LIM) :
    ∃ D, Run (List.range ((used freq).length + 1)) (wt freq) D ∧
      ∀ i < (used freq).length + 1, codeSizes freq i = D i := by
  have hl : (nzIndex freq).length = (used freq).length + 1 := by rw [nzIndex_eq]; simp
  have hu : (used freq).length ≤ 256 := by
    have := List.length_filter_le (fun s => decide (freq s ≠ 0)) (List.range 256)
    rw [List.length_range] at this
    exact this
  obtain ⟨D, h1, h2⟩ := merge_loop_spec ((used freq).length + 1) ((used freq).length + 1)
    (List.range ((used freq).length + 1)) (fun r => [r]) id ⟨wt freq, fun _ => 0, fun _ => none⟩
    { n257 := by omega
      nodup := List.nodup_range
      lt := fun r hr => List.mem_range.1 hr
      high := fun i hi hn => absurd (List.mem_range.2 hi) hn
      tot := by simp only; rw [wt_sum]; exact hT
      chain := fun r hr => ⟨by simp [IsChain], rfl, by simp, by simp at hr ⊢; exact hr⟩
      root_mem := fun i hi => List.mem_range.2 hi
      mem_iff := fun i _ r _ => by simp }
    (by simp) (by simp)
  refine ⟨D, h1, fun i hi => ?_⟩
  have := h2 i hi
  simp only [id, Nat.zero_add] at this
  rw [← this]
  unfold codeSizes
  rw [hl]
  rfl

theorem fib_le_succ : ∀ n, fib n ≤ fib (n + 1)
  | 0 => by decide
  | n + 1 => by rw [fib]; omega

theorem fib_mono {a b : Nat} (h : a ≤ b) : fib a ≤ fib b := by
  induction h with
  | refl => exact Nat.le_refl _
  | step _ ih => exact Nat.le_trans ih (fib_le_succ _)

/-- What the merging phase delivers. -/
structure CSpec (freq : Nat → Nat) (n : Nat) (cs : Nat → Nat) : Prop where
  kraft : ∀ B, n + 1 ≤ B → ((List.range (n + 1)).map (fun i => 2 ^ (B - cs i))).sum = 2 ^ B
  lt : ∀ i ≤ n, cs i ≤ n
  last : ∀ i < n, cs i ≤ cs n
  fibo : ∀ i ≤ n, 1 ≤ cs i → fib (cs i + 2) ≤ total freq + 1

theorem codeSizes_spec (freq : Nat → Nat) (hT : total freq + 1 ≤ LIM) :
    CSpec freq (used freq).length (codeSizes freq) := by
  obtain ⟨D, hr, he⟩ := codeSizes_run freq hT
  have hpos : ∀ x ∈ List.range ((used freq).length + 1), 1 ≤ wt freq x := by
    intro x hx
    rw [List.mem_range] at hx
    by_cases e : x = (used freq).length
    · rw [e, wt_last]
    · exact (wt_get (by omega)).2
  refine ⟨?_, ?_, ?_, ?_⟩
  · intro B hB
    rw [← run_kraft hr List.nodup_range B (by simp; omega)]
    apply sum_congr
    intro x hx
    rw [he x (List.mem_range.1 hx)]
  · intro i hi
    rw [he i (by omega)]
    have := run_lt hr i (List.mem_range.2 (by omega))
    simp at this
    omega
  · intro i hi
    rw [he i (by omega), he _ (by omega)]
    refine run_order _ _ _ _ rfl List.nodup_range hpos hr _ (by simp) i (by simp; omega) ?_
    have := (wt_get hi).2
    have := wt_last freq
    unfold Before
    omega
  · intro i hi h1
    rw [he i (by omega)] at h1 ⊢
    have := run_fib hr List.nodup_range i (List.mem_range.2 (by omega)) 1 (fun x hx _ => hpos x hx)
    rw [wt_sum] at this
    have h3 := hpos i (List.mem_range.2 (by omega))
    rw [fib]
    have := Nat.mul_le_mul_left (fib (D i + 1)) h3
    omega

theorem sum_mul_left (c : Nat) (L : List Nat) (g : Nat → Nat) :
    (L.map (fun i => c * g i)).sum = c * (L.map g).sum := by
  induction L with
  | nil => simp
  | cons x L ih => simp only [List.map_cons, List.sum_cons, ih]; ring

theorem CSpec.kraft32 {freq : Nat → Nat} {n : Nat} {cs : Nat → Nat} (h : CSpec freq n cs)
    (h32 : ∀ i ≤ n, cs i ≤ 32) : ((List.range (n + 1)).map (fun i => kr (cs i))).sum = 2 ^ 32 := by
  have := h.kraft (n + 1 + 32) (by omega)
  have e : ((List.range (n + 1)).map (fun i => 2 ^ (n + 1 + 32 - cs i))).sum =
      ((List.range (n + 1)).map (fun i => 2 ^ (n + 1) * kr (cs i))).sum := by
    apply congrArg
    apply List.map_congr_left
    intro i hi
    have := h32 i (by have := List.mem_range.1 hi; omega)
    rw [kr, ← Nat.pow_add]
    congr 1
    omega
  rw [e, sum_mul_left, Nat.pow_add 2 (n + 1) 32] at this
  exact Nat.eq_of_mul_eq_mul_left (Nat.two_pow_pos (n + 1)) this

theorem CSpec.LI {freq : Nat → Nat} {n : Nat} {cs : Nat → Nat} (h : CSpec freq n cs)
    (h32 : ∀ i ≤ n, cs i ≤ 32) (hn : n + 1 ≤ 255) : LI (n + 1) 32 (countBits cs (n + 1)) := by
  have hcb : countBits cs (n + 1) = cnt cs (n + 1) := by
    funext l; exact countBits_eq cs _ hn l
  rw [hcb]
  have h32' : ∀ i < n + 1, cs i ≤ 32 := fun i hi => h32 i (by omega)
  refine ⟨?_, ?_, ?_⟩
  · rw [W_cnt one cs (n + 1) h32']
    simp [one]
  · rw [W_cnt kr cs (n + 1) h32']
    exact h.kraft32 h32
  · intro l hl
    unfold cnt
    rw [Finset.card_eq_zero]
    ext k
    simp only [Finset.mem_filter, Finset.mem_range, Finset.notMem_empty, iff_false]
    intro hk
    have := h32' k hk.1
    omega

theorem CSpec.pos {freq : Nat → Nat} {n : Nat} {cs : Nat → Nat} (h : CSpec freq n cs) (hn : 1 ≤ n) :
    ∀ i < n + 1, 1 ≤ cs i := by
  intro i hi
  by_cases e : cs i = 0
  · exfalso
    have hk := h.kraft (n + 1) (by omega)
    obtain ⟨j, hj, hne⟩ : ∃ j, j < n + 1 ∧ j ≠ i := by
      by_cases e : i = 0
      · exact ⟨1, by omega, by omega⟩
      · exact ⟨0, by omega, by omega⟩
    have hi' : i ∈ List.range (n + 1) := List.mem_range.2 hi
    have hj' : j ∈ (List.range (n + 1)).erase i :=
      List.nodup_range.mem_erase_iff.2 ⟨hne, List.mem_range.2 hj⟩
    rw [sum_erase hi', sum_erase hj', e] at hk
    have : 0 < 2 ^ (n + 1 - cs j) := Nat.pow_pos (by omega)
    simp only [Nat.sub_zero] at hk
    omega
  · omega

theorem kraft16_range (g : Nat → Nat) : ∀ m l, l + m ≤ 17 →
    2 ^ 16 * kraft16 l ((List.range' l m).map g) = ((List.range' l m).map (fun x => g x * kr x)).sum := by
  intro m
  induction m with
  | zero => intro l _; rfl
  | succ m ih =>
    intro l hl
    rw [List.range'_succ]
    simp only [List.map_cons, List.sum_cons, kraft16]
    rw [← ih (l + 1) (by omega), Nat.mul_add]
    congr 1
    unfold kr
    rw [show 32 - l = 16 + (16 - l) by omega, Nat.pow_add 2 16 (16 - l)]
    generalize (2 : Nat) ^ 16 = u
    ring

theorem range17 (g : Nat → Nat) :
    ((List.range 16).map g).sum + g 16 = g 0 + ((List.range' 1 16).map g).sum := by
  have h : (List.range 17) = List.range 16 ++ [16] := List.range_succ
  have h2 : List.range 17 = 0 :: List.range' 1 16 := rfl
  have : ((List.range 17).map g).sum = ((List.range 16).map g).sum + g 16 := by rw [h]; simp
  rw [← this, h2]
  rfl

theorem counts_lin (g : Nat → Nat) (m : Nat) (h0 : g 0 = 0)
    (S1 : ((List.range 16).map (fun l => g l * one l)).sum + g 16 * one 16 = m)
    (S2 : ((List.range 16).map (fun l => g l * kr l)).sum + g 16 * kr 16 < 2 ^ 32) :
    ((List.range' 1 16).map g).sum = m ∧ kraft16 1 ((List.range' 1 16).map g) < 2 ^ 16 := by
  rw [range17 (fun l => g l * one l), h0] at S1
  rw [range17 (fun l => g l * kr l), h0, ← kraft16_range g 16 1 (by omega)] at S2
  constructor
  · have : (fun l => g l * one l) = g := by funext l; simp [one]
    rw [this] at S1
    omega
  · rw [Nat.zero_mul, Nat.zero_add] at S2
    omega

/-- The counts left after limiting and removing the pseudo-symbol. -/
theorem final_counts {n : Nat} {b : Nat → Nat} (h : LI n 16 b) (hn : 1 ≤ n) (hn2 : n ≤ 255) :
    ∃ i, findDown b 16 = some i ∧
      ((List.range' 1 16).map (fun l => if l = i then (b l + 255) % 256 else b l)).sum = n - 1 ∧
      kraft16 1 ((List.range' 1 16).map (fun l => if l = i then (b l + 255) % 256 else b l)) < 2 ^ 16 := by
  cases hf : findDown b 16 with
  | none =>
    exfalso
    have hz := findDown_none hf
    have ht := h.tot
    rw [LI.split (n := n) h.high (by omega)] at ht
    rw [head_zero (fun l hl => hz l (by omega)), hz 16 (by omega)] at ht
    simp at ht
    omega
  | some i =>
    obtain ⟨i1, i2, i3⟩ := findDown_some hf
    refine ⟨i, rfl, ?_⟩
    have hle := h.le (l := i) (by omega)
    -- counts after the decrement
    have hv : (fun l => if l = i then (b l + 255) % 256 else b l) = (fun l => if l = i then b i - 1 else b l) := by
      funext l
      by_cases e : l = i
      · rw [if_pos e, if_pos e, e]; omega
      · rw [if_neg e, if_neg e]
    rw [hv]
    obtain ⟨g, hg⟩ : ∃ g, g = (fun l => if l = i then b i - 1 else b l) := ⟨_, rfl⟩
    rw [← hg]
    have w1 : W one g + b i * one i = W one b + (b i - 1) * one i := by
      rw [hg]; exact W_upd one b i (b i - 1) (by omega)
    have w2 : W kr g + b i * kr i = W kr b + (b i - 1) * kr i := by
      rw [hg]; exact W_upd kr b i (b i - 1) (by omega)
    rw [h.tot] at w1
    rw [h.kraft] at w2
    have hhi : ∀ l, 16 < l → g l = 0 := by
      intro l hl
      rw [hg]
      simp only
      rw [if_neg (by omega)]
      exact h.high l hl
    rw [LI.split (n := n) hhi (by omega)] at w1 w2
    have h0 : g 0 = 0 := by
      rw [hg]
      by_cases e0 : b 0 = 0
      · simp only
        split
        · rename_i e; rw [← e]; omega
        · exact e0
      · have hk := h.kraft
        have e : W kr (fun l => if l = 0 then 0 else b l) + b 0 * 2 ^ 32 = 2 ^ 32 := by
          have e := W_upd kr b 0 0 (by omega)
          rw [hk, Nat.zero_mul, Nat.add_zero] at e
          exact e
        have hb0 : b 0 = 1 := by omega
        rw [hb0] at e
        have hz : W kr (fun l => if l = 0 then 0 else b l) = 0 := by omega
        by_cases ei : i = 0
        · simp only [ei, if_true]; omega
        · exfalso
          have t := term_le kr (fun l => if l = 0 then 0 else b l) 33 i (by omega)
          simp only [if_neg ei] at t
          unfold W at hz
          rw [hz] at t
          have : 0 < b i * kr i := Nat.mul_pos i2 (Nat.pow_pos (by omega))
          omega
    have hki : 0 < kr i := Nat.pow_pos (by omega)
    have ebi : b i * kr i = (b i - 1) * kr i + kr i := by
      obtain ⟨t, ht⟩ := Nat.exists_eq_add_of_le i2
      rw [ht]; rw [show 0 + 1 + t - 1 = t by omega]; ring
    have ebo : b i * one i = (b i - 1) * one i + 1 := by simp [one]; omega
    have S1 : ((List.range 16).map (fun l => g l * one l)).sum + g 16 * one 16 = n - 1 := by omega
    have S2 : ((List.range 16).map (fun l => g l * kr l)).sum + g 16 * kr 16 < 2 ^ 32 := by omega
    clear w1 w2 ebi ebo
    exact counts_lin g (n - 1) h0 S1 S2


theorem fillC_ok (maxsym : Nat) : ∀ (ents : List (Nat × Nat × Nat)) (c0 : CTbl),
    (ents.map (·.1)).Nodup → (∀ e ∈ ents, e.1 ≤ maxsym ∧ (c0 e.1).2 = 0) →
    ∃ c, fillC maxsym ents c0 = some c ∧ (∀ e ∈ ents, c e.1 = e.2) ∧
      ∀ v, v ∉ ents.map (·.1) → c v = c0 v := by
  intro ents
  induction ents with
  | nil => intro c0 _ _; exact ⟨c0, rfl, by simp, by simp⟩
  | cons e ents ih =>
    intro c0 hnd h
    obtain ⟨v, co, s⟩ := e
    rw [List.map_cons, List.nodup_cons] at hnd
    have h1 := h (v, co, s) (by simp)
    simp only [fillC]
    rw [if_neg (by have := h1.1; simp only at this; omega), if_neg (by simp [h1.2])]
    obtain ⟨c, hc, hc1, hc2⟩ := ih (fun i => if i = v then (co, s) else c0 i) hnd.2 (by
      intro e he
      have hne : e.1 ≠ v := by
        intro h'
        exact hnd.1 (List.mem_map.2 ⟨e, he, h'⟩)
      simp only [if_neg hne]
      exact h e (by simp [he]))
    refine ⟨c, hc, ?_, ?_⟩
    · intro e he
      rcases List.mem_cons.1 he with rfl | he
      · rw [hc2 _ hnd.1]; simp
      · exact hc1 e he
    · intro u hu
      rw [List.map_cons, List.mem_cons, not_or] at hu
      rw [hc2 u hu.2, if_neg hu.1]

/-- A table whose counts fit and whose symbols are distinct and in range is accepted by the encoder. -/
theorem makeCTbl_ok {maxsym : Nat} {t : HuffTbl} (h16 : t.counts.length = 16) (h256 : t.counts.sum ≤ 256)
    (hk : kraft16 1 t.counts < 2 ^ 16) (hlen : t.counts.sum ≤ t.vals.length)
    (hnd : (t.vals.take t.counts.sum).Nodup)
    (hms : ∀ v ∈ t.vals.take t.counts.sum, v ≤ maxsym) :
    ∃ c, makeCTbl maxsym t = some c ∧
      ∀ p < t.counts.sum, (c (t.vals.getD p 0)).2 = (mkSizes 1 t.counts).getD p 0 := by
  have hex : (expand t).isSome := by
    have := (table_accepted_iff t h16).2 ⟨h256, hk⟩
    unfold makeDTbl at this
    cases he : expand t with
    | none => rw [he] at this; simp at this
    | some x => rfl
  obtain ⟨⟨sizes, codes⟩, he⟩ := Option.isSome_iff_exists.1 hex
  obtain ⟨C, hs⟩ := expand_canon (by omega) he
  have hsl : sizes.length = t.counts.sum := by rw [hs, length_mkSizes]
  have hvt : ∀ p < t.counts.sum, ∃ h : p < (t.vals.take t.counts.sum).length,
      t.vals.getD p 0 = (t.vals.take t.counts.sum)[p] := by
    intro p hp
    refine ⟨by rw [List.length_take]; omega, ?_⟩
    rw [List.getElem_take, List.getD_eq_getElem?_getD, List.getElem?_eq_getElem (by omega)]
    rfl
  unfold makeCTbl
  rw [he]
  simp only
  obtain ⟨c, hc, hc1, -⟩ := fillC_ok maxsym ((List.range sizes.length).map
      (fun p => (t.vals.getD p 0, codes.getD p 0, sizes.getD p 0))) (fun _ => (0, 0)) (by
    rw [List.map_map]
    apply List.Nodup.map_on _ List.nodup_range
    intro p hp q hq h
    rw [List.mem_range, hsl] at hp hq
    simp only [Function.comp] at h
    obtain ⟨hp', ep⟩ := hvt p hp
    obtain ⟨hq', eq⟩ := hvt q hq
    rw [ep, eq] at h
    exact (List.Nodup.getElem_inj_iff hnd).1 h) (by
    intro e he
    obtain ⟨p, hp, rfl⟩ := List.mem_map.1 he
    rw [List.mem_range, hsl] at hp
    obtain ⟨hp', ep⟩ := hvt p hp
    refine ⟨?_, rfl⟩
    simp only
    rw [ep]
    exact hms _ (List.getElem_mem hp'))
  refine ⟨c, hc, fun p hp => ?_⟩
  have := hc1 (t.vals.getD p 0, codes.getD p 0, sizes.getD p 0)
    (List.mem_map.2 ⟨p, by rw [List.mem_range, hsl]; exact hp, rfl⟩)
  simp only at this
  rw [this, hs]

/-- Shape of the generated table. -/
structure TSpec (freq : Nat → Nat) (t : HuffTbl) : Prop where
  len : t.counts.length = 16
  vlen : t.vals.length = 256
  sum : t.counts.sum = (used freq).length
  kraft : kraft16 1 t.counts < 2 ^ 16
  perm : (t.vals.take t.counts.sum).Perm (used freq)

theorem any_gt {cs : Nat → Nat} {n : Nat} :
    (List.range n).any (fun i => decide (cs i > 32)) = true ↔ ∃ i < n, cs i > 32 := by
  simp [List.any_eq_true]

theorem take_map_range (g : Nat → Nat) (n : Nat) (h : n ≤ 256) :
    ((List.range 256).map g).take n = (List.range n).map g := by
  rw [← List.map_take, List.take_range, Nat.min_eq_left h]

theorem genOptimal_tspec (freq : Nat → Nat) (hu : (used freq).length ≤ 254) (hT : total freq + 1 ≤ LIM)
    (h32 : ∀ i ≤ (used freq).length, codeSizes freq i ≤ 32) :
    ∃ t, genOptimal freq = .ok t ∧ TSpec freq t := by
  have hl : (nzIndex freq).length = (used freq).length + 1 := by rw [nzIndex_eq]; simp
  have hs := codeSizes_spec freq hT
  have hLI := hs.LI h32 (by omega)
  obtain ⟨b, e1, l1⟩ := limit_LI (n := (used freq).length + 1) (by omega) 16 (by omega) _ hLI
  obtain ⟨i, f1, f2, f3⟩ := final_counts l1 (by omega) (by omega)
  unfold genOptimal
  simp only [hl]
  rw [if_neg (by
    rw [any_gt]
    rintro ⟨i, hi, h⟩
    have := h32 i (by omega)
    omega)]
  rw [e1]
  simp only [f1]
  refine ⟨_, rfl, ?_⟩
  refine ⟨by simp, by simp, ?_, f3, ?_⟩
  · simp only; rw [f2]; omega
  · simp only
    rw [f2, show (used freq).length + 1 - 1 = (used freq).length by omega, take_map_range _ _ (by omega)]
    by_cases hz : (used freq).length = 0
    · have : used freq = [] := List.length_eq_zero_iff.1 hz
      rw [hz, this]
      exact .refl _
    · have := fillVals_perm (cs := codeSizes freq) (nz := fun k => (nzIndex freq).getD k 0)
        (n := (used freq).length) (hs.pos (by omega)) hs.last (by omega)
      refine this.trans (List.Perm.of_eq ?_)
      have h2 := map_range_getD (used freq) id
      rw [List.map_id] at h2
      refine Eq.trans ?_ h2
      apply List.map_congr_left
      intro k hk
      rw [List.mem_range] at hk
      rw [nz_get hk, List.getD_eq_getElem?_getD, List.getElem?_eq_getElem hk]
      have := mem_used.1 (List.getElem_mem hk)
      simp only [Option.getD_some, id]
      omega

/-- C05.  For every table of counts with at most 254 used symbols and less than 10^9 occurrences, the
generated table is accepted by the encoder's and the decoder's table checks; exactly the used symbols get a
code, of at most 16 bits, never all ones, no code a prefix of another.  The alternative, the error
JERR_HUFF_CLEN_OVERFLOW, needs at least 9227464 occurrences. -/
theorem optimal_table_usable (freq : Nat → Nat) (hu : (used freq).length ≤ 254)
    (hT : total freq + 1 ≤ 1000000000) :
    (genOptimal freq = .error .clenOverflow ∧ 9227464 ≤ total freq) ∨
    ∃ t c, genOptimal freq = .ok t ∧ makeCTbl 255 t = some c ∧ (makeDTbl none t).isSome ∧
      (∀ s, (c s).2 ≠ 0 ↔ s < 256 ∧ freq s ≠ 0) ∧ (∀ s, (c s).2 ≤ 16) ∧
      (∀ s, (c s).2 ≠ 0 → symBits c s ≠ List.replicate (c s).2 true) ∧
      (∀ s s', (c s).2 ≠ 0 → (c s').2 ≠ 0 → symBits c s <+: symBits c s' → s = s') ∧
      (t.vals.take t.counts.sum).Perm (used freq) := by
  by_cases h32 : ∀ i ≤ (used freq).length, codeSizes freq i ≤ 32
  · right
    obtain ⟨t, e, T⟩ := genOptimal_tspec freq hu hT h32
    obtain ⟨c, hc, -⟩ := makeCTbl_ok (maxsym := 255) T.len (by have := T.sum; omega) T.kraft
      (by have := T.sum; have := T.vlen; omega) (T.perm.nodup_iff.2 (used_nodup freq)) (by
        intro v hv
        have := mem_used.1 (T.perm.mem_iff.1 hv)
        omega)
    obtain ⟨p1, p2, p3, p4, p5⟩ := encoder_table_prefix_code 255 t T.len c hc
    refine ⟨t, c, e, hc, (table_accepted_iff t T.len).2 ⟨by have := T.sum; omega, T.kraft⟩, ?_, p1, p2, p3, T.perm⟩
    intro s
    rw [p4 s, ← mem_used, ← T.perm.mem_iff, List.mem_iff_getElem]
    constructor
    · rintro ⟨p, hp, h⟩
      refine ⟨p, by rw [List.length_take]; have := T.sum; have := T.vlen; omega, ?_⟩
      rw [List.getElem_take, ← h, List.getD_eq_getElem?_getD,
        List.getElem?_eq_getElem (by have := T.sum; have := T.vlen; omega)]
      rfl
    · rintro ⟨p, hp, h⟩
      have hp2 := hp
      rw [List.length_take] at hp2
      refine ⟨p, by omega, ?_⟩
      rw [List.getElem_take] at h
      rw [← h, List.getD_eq_getElem?_getD, List.getElem?_eq_getElem (by omega)]
      rfl
  · left
    have hl : (nzIndex freq).length = (used freq).length + 1 := by rw [nzIndex_eq]; simp
    have : ∃ i, i < (used freq).length + 1 ∧ codeSizes freq i > 32 := by
      by_contra hne
      apply h32
      intro i hi
      by_contra h
      exact hne ⟨i, by omega, by omega⟩
    obtain ⟨i, hi, h⟩ := this
    refine ⟨?_, ?_⟩
    · unfold genOptimal
      simp only [hl]
      rw [if_pos (any_gt.2 ⟨i, hi, h⟩)]
    · have := (codeSizes_spec freq hT).fibo i (by omega) (by omega)
      have hm : fib 35 ≤ fib (codeSizes freq i + 2) := fib_mono (by omega)
      have : fib 35 = 9227465 := by decide +kernel
      omega

end Verif.Huff.Opt
