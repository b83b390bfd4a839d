import Verif.Quant2.Nearest
/-
Filling the inverse colour map, and looking a cell up.
-/
namespace Verif.Quant2
open Verif.Color (castSample)
open Verif.Quant1 (forN rd wr rd_nat wr_nat get_set forN_inv castSample_of_lt)

/-! ## The best colour of each cell -/

/-- One cell's part of `find_best_colors`. -/
def scan (d : Nat → Int) (colors : List Nat) (init : Int × Nat) : Int × Nat :=
  colors.foldl (fun b ic => if d ic < b.1 then (d ic, ic) else b) init

theorem scan_gt {d : Nat → Int} {x : Int} : ∀ (l : List Nat) (b : Int × Nat), x < b.1 → (∀ i ∈ l, x < d i) →
    x < (scan d l b).1
  | [], b, h, _ => h
  | i :: l, b, h, hl => by
    unfold scan
    rw [List.foldl_cons]
    refine scan_gt l _ ?_ fun j hj => hl j (List.mem_cons_of_mem _ hj)
    split
    · exact hl i List.mem_cons_self
    · exact h

theorem scan_stay {d : Nat → Int} : ∀ (l : List Nat) (b : Int × Nat), (∀ i ∈ l, b.1 ≤ d i) → scan d l b = b
  | [], _, _ => rfl
  | i :: l, b, h => by
    unfold scan
    rw [List.foldl_cons, if_neg (by have := h i List.mem_cons_self; omega)]
    exact scan_stay l b fun j hj => h j (List.mem_cons_of_mem _ hj)

theorem scan_firstMin {n : Nat} {d : Nat → Int} {i : Nat} (hi : FirstMin n d i) {colors : List Nat}
    (hs : colors.Pairwise (· < ·)) (hn : ∀ j ∈ colors, j < n) (hm : i ∈ colors) {b : Int × Nat} (hb : d i < b.1) :
    (scan d colors b).2 = i := by
  obtain ⟨l1, l2, rfl⟩ := List.append_of_mem hm
  rw [List.pairwise_append] at hs
  have h1 : ∀ j ∈ l1, d i < d j := fun j hj =>
    (hi.2 j (hn j (List.mem_append_left _ hj))).2 (hs.2.2 j hj i List.mem_cons_self)
  have h2 : ∀ j ∈ l2, d i ≤ d j := fun j hj =>
    (hi.2 j (hn j (List.mem_append_right _ (List.mem_cons_of_mem _ hj)))).1
  have h3 := scan_gt l1 b hb h1
  have : scan d (l1 ++ i :: l2) b = scan d l2 (d i, i) := by
    unfold scan at h3 ⊢
    rw [List.foldl_append, List.foldl_cons, if_pos h3]
  rw [this, scan_stay l2 _ h2]

theorem zipWith_maps {α β γ δ : Type} (f : β → γ → δ) (a : α → β) (b : α → γ) : ∀ l : List α,
    List.zipWith f (l.map a) (l.map b) = l.map fun x => f (a x) (b x)
  | [] => rfl
  | x :: l => by simp only [List.map_cons, List.zipWith_cons_cons]; rw [zipWith_maps f a b l]

theorem cells_length (lo hi : V) : (cells lo hi).length =
    (hi 0 + 1 - lo 0) * ((hi 1 + 1 - lo 1) * (hi 2 + 1 - lo 2)) := by
  unfold cells
  simp [List.length_flatMap]

theorem findBest_spec {k : Cfg} (hk : k.Bits) {sc : V} {cm : List V} {n : Nat} (hp : PalOk k cm n) (c : V) {colors : List Nat}
    (hn : ∀ j ∈ colors, j < n) :
    findBest k sc cm colors (centre k (blockLo c)) = some ((cells (blockLo c) (blockHi c)).map fun x =>
      (scan (fun j => dist sc (ent cm j) (centre k x)) colors (0x7FFFFFFF, k.junk)).2) := by
  have hlen : ∀ i, blockHi c i + 1 - blockLo c i = boxElems i := by
    intro i; unfold blockHi; have := boxElems_pos i; omega
  have h0 : List.replicate (4 * 8 * 4) ((0x7FFFFFFF, k.junk) : Int × Nat) =
      (cells (blockLo c) (blockHi c)).map fun _ => (0x7FFFFFFF, k.junk) := by
    rw [List.map_const', cells_length, hlen, hlen, hlen]
    rfl
  have key : ∀ (l : List Nat) (b : V → Int × Nat), (∀ j ∈ l, j < n) →
      (l.foldlM (fun (best : List (Int × Nat)) ic => do
        let p ← cm[ic]?
        pure (List.zipWith (fun b d => if d < b.1 then (d, ic) else b) best (distances k sc (centre k (blockLo c)) p)))
        ((cells (blockLo c) (blockHi c)).map b)) =
      some ((cells (blockLo c) (blockHi c)).map fun x => scan (fun j => dist sc (ent cm j) (centre k x)) l (b x)) := by
    intro l
    induction l with
    | nil => intro b _; rfl
    | cons i l ih =>
      intro b hl
      rw [List.foldlM_cons, ent_get hp (hl i List.mem_cons_self)]
      simp only [Option.bind_eq_bind, Option.bind_some, Option.pure_def]
      rw [distances_spec hk, zipWith_maps]
      simp only [Option.bind_eq_bind, Option.pure_def] at ih
      rw [ih _ fun j hj => hl j (List.mem_cons_of_mem _ hj)]
      rfl
  unfold findBest
  rw [h0, key _ _ hn]
  simp only [Option.bind_eq_bind, Option.bind_some, List.map_map]
  rfl

/-! ## Filling a block -/

theorem foldlM_wrH (f : V → Nat) : ∀ (l : List V) (h : Hist), (∀ c ∈ l, CellOk c) →
    ∃ h', (l.map fun c => (c, f c)).foldlM (fun h x => wrH h x.1 (x.2 + 1)) h = some h' ∧
      (∀ c ∈ l, h' c = (f c + 1) % 65536) ∧ ∀ c, c ∉ l → h' c = h c
  | [], h, _ => ⟨h, rfl, fun c hc => by simp at hc, fun _ _ => rfl⟩
  | x :: l, h, hl => by
    obtain ⟨h', g1, g2, g3⟩ := foldlM_wrH f l (Function.update h x ((f x + 1) % 65536)) fun c hc =>
      hl c (List.mem_cons_of_mem _ hc)
    refine ⟨h', ?_, fun c hc => ?_, fun c hc => ?_⟩
    · rw [List.map_cons, List.foldlM_cons]
      unfold wrH at g1 ⊢
      rw [if_pos (hl x List.mem_cons_self)]
      exact g1
    · by_cases hcl : c ∈ l
      · exact g2 c hcl
      · have hcx : c = x := by
          rcases List.mem_cons.mp hc with e | e
          · exact e
          · exact (hcl e).elim
        rw [g3 c hcl, hcx, Function.update_self]
    · rw [List.mem_cons, not_or] at hc
      rw [g3 c hc.2, Function.update_of_ne hc.1]

theorem zip_map_self {α β : Type} (f : α → β) : ∀ l : List α, l.zip (l.map f) = l.map fun x => (x, f x)
  | [] => rfl
  | x :: l => by simp only [List.map_cons, List.zip_cons_cons]; rw [zip_map_self f l]

theorem block_ok {c : V} (hc : CellOk c) : CellOk (blockHi c) := by
  intro i
  have := hc i
  unfold blockHi blockLo
  fin_cases i
  · show c 0 / 4 * 4 + 3 < 32
    have : c 0 < 32 := hc 0
    omega
  · show c 1 / 8 * 8 + 7 < 64
    have : c 1 < 64 := hc 1
    omega
  · show c 2 / 4 * 4 + 3 < 32
    have : c 2 < 32 := hc 2
    omega

theorem mem_block (c : V) : c ∈ cells (blockLo c) (blockHi c) := by
  rw [mem_cells]
  refine ⟨fun i => Nat.div_mul_le_self _ _, fun i => ?_⟩
  show c i ≤ blockHi c i
  unfold blockHi blockLo
  have h1 := Nat.div_add_mod' (c i) (boxElems i)
  have h2 := Nat.mod_lt (c i) (boxElems_pos i)
  omega

theorem centre_mono {k : Cfg} (hk : k.Bits) {c d : V} (h : c ≤ d) : centre k c ≤ centre k d := by
  rw [← centre_eq hk, ← centre_eq hk]
  intro i
  unfold cellCentre
  exact Nat.add_le_add_right (Nat.mul_le_mul_right _ (h i)) _

theorem centre_blockHi {k : Cfg} (hk : k.Bits) (c : V) :
    centre k (blockHi c) = fun i => centre k (blockLo c) i + (boxElems i * size k i - size k i) := by
  rw [← centre_eq hk, ← centre_eq hk]
  funext i
  unfold cellCentre blockHi
  have h1 : (blockLo c i + (boxElems i - 1)) * size k i = blockLo c i * size k i + (boxElems i * size k i - size k i) := by
    rw [Nat.add_mul, Nat.sub_mul, Nat.one_mul]
  rw [h1]
  omega

theorem fill_spec {k : Cfg} (hk : k.Bits) {sc : V} (hsc : scales k = some sc) {cm : List V} {n : Nat} (hp : PalOk k cm n)
    {h : Hist} (hh : CacheOk k sc cm n h) {c : V} (hc : CellOk c) :
    ∃ h', fill k cm n h c = some h' ∧ CacheOk k sc cm n h' ∧ h' c ≠ 0 := by
  have hlo : (fun i => c i / boxElems i * (boxElems i * size k i) + size k i / 2) = centre k (blockLo c) := by
    rw [← centre_eq hk]
    funext i
    unfold cellCentre blockLo
    rw [Nat.mul_assoc]
  obtain ⟨colors, n1, n2, n3, n4⟩ := findNearby_spec hk hsc hp (centre k (blockLo c))
  have hblk : ∀ x ∈ cells (blockLo c) (blockHi c), CellOk x := fun x hx i =>
    lt_of_le_of_lt ((mem_cells.mp hx).2 i) (block_ok hc i)
  obtain ⟨best, hbest⟩ : ∃ best : V → Nat, best = fun x =>
    (scan (fun j => dist sc (ent cm j) (centre k x)) colors (0x7FFFFFFF, k.junk)).2 := ⟨_, rfl⟩
  have hnear : ∀ x ∈ cells (blockLo c) (blockHi c), FirstMin n (fun j => dist sc (ent cm j) (centre k x)) (best x) := by
    intro x hx
    obtain ⟨i, hi⟩ := exists_firstMin hp.pos fun j => dist sc (ent cm j) (centre k x)
    have hxm := mem_cells.mp hx
    have hxl := centre_le hk (hblk x hx)
    have hmem := n4 (centre k x) (centre_mono hk hxm.1) (by rw [← centre_blockHi hk]; exact centre_mono hk hxm.2) hxl i hi
    have := scan_firstMin hi n2 n3 hmem (b := (0x7FFFFFFF, k.junk)) (dist_lt hk hsc (ent_le hp hi.1) hxl)
    rw [hbest]
    dsimp only
    rw [this]
    exact hi
  obtain ⟨h', g1, g2, g3⟩ := foldlM_wrH best (cells (blockLo c) (blockHi c)) h hblk
  have hval : ∀ x ∈ cells (blockLo c) (blockHi c), h' x = best x + 1 := by
    intro x hx
    rw [g2 x hx]
    have h1 := (hnear x hx).1
    have h2 := hp.le
    have h3 := max_eq hk
    rcases hk with hc | hc <;> omega
  refine ⟨h', ?_, ?_, by rw [hval c (mem_block c)]; omega⟩
  · unfold fill
    rw [hsc]
    simp only [Option.bind_eq_bind, Option.bind_some]
    rw [hlo, n1]
    simp only [Option.bind_some]
    rw [findBest_spec hk hp c n3]
    simp only [Option.bind_some]
    rw [← hbest]
    have hz := zip_map_self best (cells (blockLo c) (blockHi c))
    unfold blockHi blockLo at hz g1 ⊢
    rw [hz]
    exact g1
  · intro x hx hx0
    by_cases hm : x ∈ cells (blockLo c) (blockHi c)
    · exact ⟨best x, hval x hm, (hnear x hm).nearest hp⟩
    · rw [g3 x hm] at hx0 ⊢
      exact hh x hx hx0

/-- Looking a cell up gives the index of the nearest colour, and keeps the cache right. -/
theorem lookup_spec {k : Cfg} (hk : k.Bits) {sc : V} (hsc : scales k = some sc) {cm : List V} {n : Nat} (hp : PalOk k cm n)
    {h : Hist} (hh : CacheOk k sc cm n h) {c : V} (hc : CellOk c) :
    ∃ h' i, lookup k cm n h c = some (h', ((i : Nat) : Int)) ∧ CacheOk k sc cm n h' ∧
      IsNearest sc cm n (centre k c) i := by
  unfold lookup rdH
  rw [if_pos hc]
  simp only [Option.bind_eq_bind, Option.bind_some]
  by_cases h0 : h c = 0
  · obtain ⟨h', f1, f2, f3⟩ := fill_spec hk hsc hp hh hc
    obtain ⟨i, i1, i2⟩ := f2 c hc f3
    refine ⟨h', i, ?_, f2, i2⟩
    rw [if_pos h0, f1]
    simp only [Option.bind_some, if_pos hc]
    rw [i1]
    simp
  · obtain ⟨i, i1, i2⟩ := hh c hc h0
    refine ⟨h, i, ?_, hh, i2⟩
    rw [if_neg h0]
    simp only [Option.bind_some, if_pos hc]
    rw [i1]
    simp

theorem IsNearest.lt {sc : V} {cm : List V} {n : Nat} {p : V} {i : Nat} (h : IsNearest sc cm n p i) : i < n := by
  obtain ⟨q, h1, _⟩ := h; exact h1

/-! ## Rows -/

/-- A row of samples, three per pixel. -/
def RowOk (k : Cfg) (inp : List Nat) : Prop := inp.length = 3 * k.width ∧ ∀ v ∈ inp, v ≤ k.max

/-- The pixel in column `x`. -/
def pix (inp : List Nat) (x : Nat) : V := fun i => inp.getD (3 * x + i) 0

theorem pixelsOf_eq (k : Cfg) (inp : List Nat) : pixelsOf k inp = (List.range k.width).map (pix inp) := rfl

theorem seq3_some {α : Type} {f : Fin 3 → Option α} {g : Fin 3 → α} (h : ∀ i, f i = some (g i)) : seq3 f = some g := by
  unfold seq3
  rw [h 0, h 1, h 2]
  show some _ = some _
  congr 1
  exact V.ext3 rfl rfl rfl

theorem RowOk.pixelAt {k : Cfg} {inp : List Nat} (h : RowOk k inp) {x : Nat} (hx : x < k.width) {ip : Int}
    (hip : ip = ((3 * x : Nat) : Int)) : pixelAt inp ip = some (pix inp x) ∧ ∀ i, pix inp x i ≤ k.max := by
  have hlt : ∀ i : Fin 3, 3 * x + i < inp.length := fun i => by have := h.1; omega
  have hg : ∀ i : Fin 3, inp[3 * x + (i : Nat)]? = some (pix inp x i) := by
    intro i
    unfold pix
    rw [List.getD_eq_getElem?_getD, List.getElem?_eq_getElem (hlt i)]
    rfl
  refine ⟨seq3_some fun i => ?_, fun i => h.2 _ (List.mem_of_getElem? (hg i))⟩
  have : ip + ((i : Nat) : Int) = ((3 * x + i : Nat) : Int) := by rw [hip]; push_cast; ring
  rw [this, rd_nat]
  exact hg i

/-- Without dithering each pixel is mapped to the colour nearest to the centre of its cell. -/
theorem rowPlain_spec {k : Cfg} (hk : k.Bits) {sc : V} (hsc : scales k = some sc) {cm : List V} {n : Nat} (hp : PalOk k cm n)
    {h : Hist} (hh : CacheOk k sc cm n h) {inp : List Nat} (hr : RowOk k inp) :
    ∃ h' out, rowPlain k cm n h inp = some (h', out) ∧ CacheOk k sc cm n h' ∧ out.length = k.width ∧
      ∀ x, x < k.width → ∃ i, out[x]? = some i ∧ IsNearest sc cm n (centre k (cellOf k (pix inp x))) i := by
  obtain ⟨s, e1, e2, e3, e4, e5⟩ := forN_inv (f := fun col (s : Int × Hist × List Nat) => do
      let p ← pixelAt inp s.1
      let (h, pix) ← lookup k cm n s.2.1 fun i => p i / size k i
      let out ← wr s.2.2 col (castSample k.c pix)
      pure (s.1 + 3, h, out))
    (fun t (s : Int × Hist × List Nat) => s.1 = ((3 * t : Nat) : Int) ∧ CacheOk k sc cm n s.2.1 ∧
      s.2.2.length = k.width ∧ ∀ x, x < t → ∃ i, s.2.2[x]? = some i ∧
        IsNearest sc cm n (centre k (cellOf k (pix inp x))) i)
    k.width (0, h, List.replicate k.width k.junk) ⟨rfl, hh, by simp, fun x hx => by omega⟩ (by
      rintro t ⟨ip, h, out⟩ ht ⟨p1, p2, p3, p4⟩
      dsimp only at p1 p2 p3 p4
      obtain ⟨q1, q2⟩ := hr.pixelAt ht p1
      obtain ⟨h', i, l1, l2, l3⟩ := lookup_spec hk hsc hp p2 (cell_ok hk q2)
      have hto : t < out.length := by omega
      have hil := l3.lt
      refine ⟨(ip + 3, h', out.set t i), ?_, ?_, l2, ?_, ?_⟩
      · simp only [Option.bind_eq_bind]
        rw [q1]
        simp only [Option.bind_some]
        rw [cellOf_eq hk, l1]
        simp only [Option.bind_some]
        rw [castSample_of_lt hk (show i ≤ 2 * k.c - 1 by have := hp.le; have := max_eq hk; omega), wr_nat hto]
        rfl
      · dsimp only; rw [p1]; push_cast; ring
      · dsimp only; rw [List.length_set]; exact p3
      · intro x hx
        dsimp only
        rw [get_set hto]
        by_cases he : x = t
        · subst he; exact ⟨i, by rw [if_pos rfl], l3⟩
        · rw [if_neg he]; exact p4 x (by omega))
  obtain ⟨ip, h', out⟩ := s
  dsimp only at e3 e4 e5
  refine ⟨h', out, ?_, e3, e4, e5⟩
  unfold rowPlain
  simp only [Option.bind_eq_bind] at e1 ⊢
  rw [e1]
  rfl

/-! ## Prescan -/

theorem countPixel_spec {k : Cfg} (hk : k.Bits) (ps : List V) {p : V} (hp : ∀ i, p i ≤ k.max) {h : Hist}
    (hh : ∀ c, h c = histOf k ps c) :
    ∃ h', countPixel k h p = some h' ∧ ∀ c, h' c = histOf k (ps ++ [p]) c := by
  have hc := cell_ok hk hp
  have hv := hh (cellOf k p)
  unfold countPixel rdH wrH
  simp only [cellOf_eq hk]
  rw [if_pos hc]
  simp only [Option.bind_eq_bind, Option.bind_some]
  rw [if_pos hc]
  refine ⟨_, rfl, fun c => ?_⟩
  unfold histOf at *
  rw [List.countP_append, List.countP_singleton]
  by_cases he : c = cellOf k p
  · rw [he, Function.update_self, hv]
    simp only [decide_true, if_true]
    split <;> omega
  · rw [Function.update_of_ne he, hh c, if_neg (by simpa using fun e => he e.symm)]
    simp

theorem prescanRow_spec {k : Cfg} (hk : k.Bits) (ps : List V) {inp : List Nat} (hr : RowOk k inp) {h : Hist}
    (hh : ∀ c, h c = histOf k ps c) :
    ∃ h', prescanRow k h inp = some h' ∧ ∀ c, h' c = histOf k (ps ++ pixelsOf k inp) c := by
  obtain ⟨s, e1, e2, e3⟩ := forN_inv (f := fun _ (s : Int × Hist) => do
      let p ← pixelAt inp s.1
      let h ← countPixel k s.2 p
      pure (s.1 + 3, h))
    (fun t (s : Int × Hist) => s.1 = ((3 * t : Nat) : Int) ∧
      ∀ c, s.2 c = histOf k (ps ++ (List.range t).map (pix inp)) c)
    k.width (0, h) ⟨rfl, fun c => by simpa using hh c⟩ (by
      rintro t ⟨ip, h⟩ ht ⟨p1, p2⟩
      obtain ⟨q1, q2⟩ := hr.pixelAt ht p1
      obtain ⟨h', g1, g2⟩ := countPixel_spec hk _ q2 p2
      refine ⟨(ip + 3, h'), ?_, ?_, fun c => ?_⟩
      · simp only [Option.bind_eq_bind]
        rw [q1]
        simp only [Option.bind_some]
        rw [g1]
        rfl
      · dsimp only at p1 ⊢; rw [p1]; push_cast; ring
      · show h' c = _
        rw [g2 c, List.range_succ, List.map_append, List.append_assoc]
        rfl)
  refine ⟨s.2, ?_, e3⟩
  unfold prescanRow
  simp only [Option.bind_eq_bind] at e1 ⊢
  rw [e1]
  rfl

end Verif.Quant2
