import Verif.Quant2.Colors
import Mathlib.Tactic.Linarith
import Mathlib.Algebra.Order.Ring.Abs
/-
The inverse colour map: Heckbert's criterion loses no nearest colour, Thomas' increments give the distances, and the
cache always holds nearest colours.
-/
namespace Verif.Quant2
open Verif.Color (castSample)
open Verif.Quant1 (forN rd wr rd_nat wr_nat get_set forN_inv castSample_of_lt)

/-- A usable colour map: as many entries as said, at least one and no more than sample values, all samples. -/
structure PalOk (k : Cfg) (cm : List V) (n : Nat) : Prop where
  pos : 1 ≤ n
  le : n ≤ k.max + 1
  len : n ≤ cm.length
  samples : ∀ i q, i < n → cm[i]? = some q → ∀ j, q j ≤ k.max

/-- The cache holds zeros and, plus one, nearest colours to the centres of the cells. -/
def CacheOk (k : Cfg) (sc : V) (cm : List V) (n : Nat) (h : Hist) : Prop :=
  ∀ c, CellOk c → h c ≠ 0 → ∃ i, h c = i + 1 ∧ IsNearest sc cm n (centre k c) i

/-- Entry `i`. -/
def ent (cm : List V) (i : Nat) : V := cm.getD i fun _ => 0

theorem ent_get {k : Cfg} {cm : List V} {n : Nat} (hp : PalOk k cm n) {i : Nat} (hi : i < n) : cm[i]? = some (ent cm i) := by
  have := hp.len
  unfold ent
  rw [List.getD_eq_getElem?_getD, List.getElem?_eq_getElem (by omega)]
  rfl

theorem ent_le {k : Cfg} {cm : List V} {n : Nat} (hp : PalOk k cm n) {i : Nat} (hi : i < n) (j : Fin 3) :
    ent cm i j ≤ k.max := hp.samples i _ hi (ent_get hp hi) j

theorem dist_eq (sc p q : V) : dist sc p q = (((p 0 : Int) - q 0) * sc 0) ^ 2 + (((p 1 : Int) - q 1) * sc 1) ^ 2 +
    (((p 2 : Int) - q 2) * sc 2) ^ 2 := Fin.sum_univ_three _

/-- The first nearest entry, in terms of distances. -/
def FirstMin (n : Nat) (d : Nat → Int) (i : Nat) : Prop := i < n ∧ ∀ j, j < n → d i ≤ d j ∧ (j < i → d i < d j)

theorem FirstMin.nearest {k : Cfg} {cm : List V} {n : Nat} (hp : PalOk k cm n) {sc p : V} {i : Nat}
    (h : FirstMin n (fun j => dist sc (ent cm j) p) i) : IsNearest sc cm n p i := by
  refine ⟨ent cm i, h.1, ent_get hp h.1, fun j q hj hq => ?_⟩
  rw [ent_get hp hj] at hq
  injection hq with hq
  rw [← hq]
  exact h.2 j hj

theorem exists_firstMin {n : Nat} (hn : 1 ≤ n) (d : Nat → Int) : ∃ i, FirstMin n d i := by
  induction n with
  | zero => omega
  | succ n ih =>
    rcases Nat.eq_zero_or_pos n with rfl | h0
    · exact ⟨0, by omega, fun j hj => by
        have : j = 0 := by omega
        subst this; exact ⟨le_refl _, fun h => by omega⟩⟩
    · obtain ⟨i, h1, h2⟩ := ih h0
      by_cases hlt : d n < d i
      · refine ⟨n, by omega, fun j hj => ?_⟩
        by_cases he : j = n
        · subst he; exact ⟨le_refl _, fun h => by omega⟩
        · have := (h2 j (by omega)).1
          exact ⟨by omega, fun _ => by omega⟩
      · refine ⟨i, by omega, fun j hj => ?_⟩
        by_cases he : j = n
        · subst he; exact ⟨by omega, fun h => by omega⟩
        · exact h2 j (by omega)

/-! ## Heckbert's criterion -/

theorem sq_le_of_abs {s a b : Int} (h : |a| ≤ |b|) : (a * s) ^ 2 ≤ (b * s) ^ 2 := by
  rw [sq_le_sq, abs_mul, abs_mul]
  exact mul_le_mul_of_nonneg_right h (abs_nonneg _)

theorem axisDist_spec (sc : Nat) {x lo hi y : Int} (h1 : lo ≤ y) (h2 : y ≤ hi) :
    (axisDist sc x lo hi).1 ≤ ((x - y) * sc) ^ 2 ∧ ((x - y) * sc) ^ 2 ≤ (axisDist sc x lo hi).2 := by
  unfold axisDist
  dsimp only
  have e : ∀ a : Int, a * a = a ^ 2 := fun a => by ring
  simp only [e]
  have hab : ∀ {a b : Int}, -b ≤ a → a ≤ b → |a| ≤ |b| := by
    intro a b h1 h2
    exact le_trans (abs_le.mpr ⟨h1, h2⟩) (le_abs_self b)
  have hab' : ∀ {a b : Int}, b ≤ a → a ≤ -b → |a| ≤ |b| := by
    intro a b h1 h2
    rw [← abs_neg b]
    exact hab (by omega) (by omega)
  by_cases c1 : x < lo
  · rw [if_pos c1]
    exact ⟨sq_le_of_abs (hab' (by omega) (by omega) : |x - lo| ≤ |x - y|), sq_le_of_abs (hab' (by omega) (by omega))⟩
  rw [if_neg c1]
  by_cases c2 : x > hi
  · rw [if_pos c2]
    exact ⟨sq_le_of_abs (hab (by omega) (by omega) : |x - hi| ≤ |x - y|), sq_le_of_abs (hab (by omega) (by omega))⟩
  rw [if_neg c2]
  by_cases c3 : x ≤ (lo + hi) / 2
  · rw [if_pos c3]
    exact ⟨sq_nonneg _, sq_le_of_abs (hab' (by omega) (by omega))⟩
  · rw [if_neg c3]
    exact ⟨sq_nonneg _, sq_le_of_abs (hab (by omega) (by omega))⟩

theorem boxDist_spec (sc : V) {lo hi p y : V} (h1 : lo ≤ y) (h2 : y ≤ hi) :
    (boxDist sc lo hi p).1 ≤ dist sc p y ∧ dist sc p y ≤ (boxDist sc lo hi p).2 := by
  have a := fun i : Fin 3 => axisDist_spec (sc i) (x := (p i : Int)) (Int.ofNat_le.mpr (h1 i)) (Int.ofNat_le.mpr (h2 i))
  have a0 := a 0
  have a1 := a 1
  have a2 := a 2
  rw [dist_eq]
  unfold boxDist
  dsimp only
  constructor <;> linarith

theorem dist_lt {k : Cfg} (hk : k.Bits) {sc : V} (hsc : scales k = some sc) {p q : V} (hp : ∀ i, p i ≤ k.max)
    (hq : ∀ i, q i ≤ k.max) : dist sc p q < 0x7FFFFFFF := by
  have hM : (k.max : Int) ≤ 4095 := by have := max_eq hk; rcases hk with h | h <;> omega
  have key : ∀ i, ((((p i : Int) - q i) * sc i) ^ 2 : Int) ≤ (4095 * sc i) ^ 2 := by
    intro i
    refine sq_le_of_abs ?_
    rw [show |(4095 : Int)| = 4095 from rfl, abs_le]
    have := hp i
    have := hq i
    omega
  rw [dist_eq]
  have k0 := key 0
  have k1 := key 1
  have k2 := key 2
  rcases scales_cases hsc with ⟨_, rfl⟩ | ⟨_, rfl⟩
  · simp only [Matrix.cons_val_zero, Matrix.cons_val_one, Matrix.cons_val] at k0 k1 k2 ⊢
    push_cast at k0 k1 k2 ⊢
    norm_num at k0 k1 k2 ⊢
    linarith
  · simp only [Matrix.cons_val_zero, Matrix.cons_val_one, Matrix.cons_val] at k0 k1 k2 ⊢
    push_cast at k0 k1 k2 ⊢
    norm_num at k0 k1 k2 ⊢
    linarith

theorem mapM_some {α β : Type} {f : α → Option β} {g : α → β} : ∀ l : List α, (∀ x ∈ l, f x = some (g x)) →
    l.mapM f = some (l.map g)
  | [], _ => rfl
  | x :: l, h => by
    rw [List.mapM_cons, h x List.mem_cons_self, mapM_some l fun y hy => h y (List.mem_cons_of_mem _ hy)]
    rfl

theorem fold_min (ds : List (Int × Int)) : ∀ m : Int,
    let r := ds.foldl (fun m d => if d.2 < m then d.2 else m) m
    r = m ∨ ∃ d ∈ ds, r = d.2 := by
  induction ds with
  | nil => intro m; exact Or.inl rfl
  | cons x ds ih =>
    intro m
    simp only [List.foldl_cons]
    rcases ih (if x.2 < m then x.2 else m) with h | ⟨d, h1, h2⟩
    · rw [h]
      split
      · exact Or.inr ⟨x, List.mem_cons_self, rfl⟩
      · exact Or.inl rfl
    · exact Or.inr ⟨d, List.mem_cons_of_mem _ h1, h2⟩

theorem findNearby_spec {k : Cfg} (hk : k.Bits) {sc : V} (hsc : scales k = some sc) {cm : List V} {n : Nat}
    (hp : PalOk k cm n) (lo : V) : ∃ colors, findNearby k sc cm n lo = some colors ∧ colors.Pairwise (· < ·) ∧
      (∀ i ∈ colors, i < n) ∧
      ∀ y : V, lo ≤ y → (y ≤ fun i => lo i + (boxElems i * size k i - size k i)) → (∀ i, y i ≤ k.max) →
        ∀ i, FirstMin n (fun j => dist sc (ent cm j) y) i → i ∈ colors := by
  obtain ⟨hi, hhi⟩ : ∃ hi : V, hi = fun i => lo i + (boxElems i * size k i - size k i) := ⟨_, rfl⟩
  obtain ⟨g, hg⟩ : ∃ g : Nat → Int × Int, g = fun i => boxDist sc lo hi (ent cm i) := ⟨_, rfl⟩
  obtain ⟨m, hm⟩ : ∃ m : Int, m = ((List.range n).map g).foldl (fun m d => if d.2 < m then d.2 else m) (0x7FFFFFFF : Int) :=
    ⟨_, rfl⟩
  have hz : ((List.range n).map g).zipIdx = (List.range n).map fun i => (g i, i) := by
    apply List.ext_getElem
    · simp
    · intro i h1 h2; simp
  have he : findNearby k sc cm n lo = some ((List.range n).filter fun i => decide ((g i).1 ≤ m)) := by
    unfold findNearby
    rw [← hhi]
    simp only [Option.bind_eq_bind]
    rw [mapM_some (g := g) _ (fun i hi => by
      rw [ent_get hp (List.mem_range.mp hi), hg]; rfl)]
    simp only [Option.bind_some]
    rw [← hm, hz, List.filter_map, List.map_map]
    show some _ = some _
    congr 1
    have : ∀ i ∈ (List.range n).filter ((fun d : (Int × Int) × Nat => decide (d.1.1 ≤ m)) ∘ fun i => (g i, i)),
        ((fun d : (Int × Int) × Nat => castSample k.c (d.2 : Nat)) ∘ fun i => (g i, i)) i = id i := by
      intro i hi
      have hin := List.mem_range.mp (List.mem_of_mem_filter hi)
      have := hp.le
      exact castSample_of_lt hk (show i ≤ 2 * k.c - 1 by have := max_eq hk; omega)
    rw [List.map_congr_left this, List.map_id]
    rfl
  refine ⟨_, he, List.Pairwise.filter _ List.pairwise_lt_range, fun i hi => List.mem_range.mp (List.mem_of_mem_filter hi),
    fun y y1 y2 y3 i hi => ?_⟩
  rw [List.mem_filter, List.mem_range]
  refine ⟨hi.1, decide_eq_true ?_⟩
  rw [← hhi] at y2
  have b1 := (boxDist_spec sc (p := ent cm i) y1 y2).1
  have b2 : (g i).1 ≤ dist sc (ent cm i) y := by rw [hg]; exact b1
  refine le_trans b2 ?_
  rcases fold_min ((List.range n).map g) 0x7FFFFFFF with h | ⟨d, h1, h2⟩
  · rw [← hm] at h
    rw [h]
    exact (dist_lt hk hsc (ent_le hp hi.1) y3).le
  · rw [← hm] at h2
    obtain ⟨j, j1, j2⟩ := List.mem_map.mp h1
    have c1 := (hi.2 j (List.mem_range.mp j1)).1
    have c2 := (boxDist_spec sc (p := ent cm j) y1 y2).2
    rw [h2, ← j2, hg]
    exact le_trans c1 c2

/-! ## Thomas' increments -/

theorem thomas_sq (s D : Int) : ∀ (n : Nat) (e : Int),
    thomas s n (D + e ^ 2) (e * (2 * s) + s * s) = (List.range n).map fun j => D + (e + (j : Nat) * s) ^ 2
  | 0, _ => rfl
  | n + 1, e => by
    have h1 : D + e ^ 2 + (e * (2 * s) + s * s) = D + (e + s) ^ 2 := by ring
    have h2 : e * (2 * s) + s * s + 2 * s * s = (e + s) * (2 * s) + s * s := by ring
    rw [thomas, h1, h2, thomas_sq s D n (e + s), List.range_succ_eq_map, List.map_cons, List.map_map]
    congr 1
    · push_cast; ring
    · refine List.map_congr_left fun j _ => ?_
      simp only [Function.comp_apply]
      push_cast; ring

/-- The block of cells that is filled together with `c`: its first cell. -/
def blockLo (c : V) : V := fun i => c i / boxElems i * boxElems i

/-- Its last cell. -/
def blockHi (c : V) : V := fun i => blockLo c i + (boxElems i - 1)

theorem boxElems_pos (i : Fin 3) : 0 < boxElems i := by fin_cases i <;> decide

theorem range'_eq (b n : Nat) : List.range' b n = (List.range n).map fun j => b + j := by
  apply List.ext_getElem
  · simp
  · intro i h1 h2; simp

theorem distances_spec {k : Cfg} (hk : k.Bits) (sc : V) (c p : V) :
    distances k sc (centre k (blockLo c)) p = (cells (blockLo c) (blockHi c)).map fun d => dist sc p (centre k d) := by
  have hlen : ∀ i, blockHi c i + 1 - blockLo c i = boxElems i := by
    intro i; unfold blockHi; have := boxElems_pos i; omega
  obtain ⟨inc, hinc⟩ : ∃ inc : Fin 3 → Int, inc = fun i => ((centre k (blockLo c) i : Int) - p i) * sc i := ⟨_, rfl⟩
  obtain ⟨st, hst⟩ : ∃ st : Fin 3 → Int, st = fun i => (size k i : Int) * sc i := ⟨_, rfl⟩
  have hterm : ∀ i j : Nat, ∀ a : Fin 3, j < 8 → (inc a + (j : Nat) * st a) ^ 2 =
      (((p a : Int) - ((blockLo c a + j) * size k a + size k a / 2 : Nat)) * sc a) ^ 2 := by
    intro _ j a _
    rw [hinc, hst, ← centre_eq hk]
    unfold cellCentre
    push_cast
    ring
  unfold distances cells
  rw [hlen 0, hlen 1, hlen 2, range'_eq, range'_eq, range'_eq]
  dsimp only
  have hx : ∀ i, inc i * (2 * st i) + st i * st i = ((centre k (blockLo c) i : Int) - p i) * sc i * (2 * ((size k i : Int) * sc i)) +
      (size k i : Int) * sc i * ((size k i : Int) * sc i) := by intro i; rw [hinc, hst]
  have hi0 : ∀ i, inc i = ((centre k (blockLo c) i : Int) - p i) * sc i := by intro i; rw [hinc]
  have hs0 : ∀ i, st i = (size k i : Int) * sc i := by intro i; rw [hst]
  simp only [← hx, ← hi0, ← hs0]
  have d0 : inc 0 * inc 0 + inc 1 * inc 1 + inc 2 * inc 2 = (inc 1 ^ 2 + inc 2 ^ 2) + inc 0 ^ 2 := by ring
  rw [d0, thomas_sq]
  simp only [List.flatMap_map, List.map_flatMap, List.map_map]
  refine List.flatMap_congr fun a ha => ?_
  have d1 : inc 1 ^ 2 + inc 2 ^ 2 + (inc 0 + (a : Nat) * st 0) ^ 2 = ((inc 0 + (a : Nat) * st 0) ^ 2 + inc 2 ^ 2) + inc 1 ^ 2 := by
    ring
  rw [d1, thomas_sq]
  simp only [List.flatMap_map]
  refine List.flatMap_congr fun b hb => ?_
  have d2 : (inc 0 + (a : Nat) * st 0) ^ 2 + inc 2 ^ 2 + (inc 1 + (b : Nat) * st 1) ^ 2 =
      ((inc 0 + (a : Nat) * st 0) ^ 2 + (inc 1 + (b : Nat) * st 1) ^ 2) + inc 2 ^ 2 := by ring
  rw [d2, thomas_sq]
  refine List.map_congr_left fun d hd => ?_
  have m0 : boxElems 0 = 4 := rfl
  have m1 : boxElems 1 = 8 := rfl
  have m2 : boxElems 2 = 4 := rfl
  rw [List.mem_range] at ha hb hd
  rw [Function.comp_apply, dist_eq, ← centre_eq hk]
  unfold cellCentre
  rw [hterm 0 a 0 (by omega), hterm 0 b 1 (by omega), hterm 0 d 2 (by omega)]
  rfl

end Verif.Quant2
