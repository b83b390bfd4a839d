import Verif.Quant2.Pass
/-
C57: the two-pass colour quantizer. Main theorems: `C57_init`, `C57_prescan`, `C57_palette`, `C57_pass`, `C57_few`,
`C57_fs_close`.
-/
namespace Verif.Quant2
open Verif.Quant1 (dirOf)

/-! ## Median cut: the boxes are apart -/

/-- Two boxes lie on different sides of a plane. -/
def Apart (b b' : Bx) : Prop := ∃ a, b.hi a < b'.lo a ∨ b'.hi a < b.lo a

theorem Apart.symm {b b' : Bx} (h : Apart b b') : Apart b' b := by
  obtain ⟨a, h⟩ := h; exact ⟨a, h.symm⟩

theorem Apart.sub {b b' d : Bx} (h : Apart b b') (h1 : b.lo ≤ d.lo) (h2 : d.hi ≤ b.hi) : Apart d b' := by
  obtain ⟨a, h⟩ := h
  refine ⟨a, ?_⟩
  have e1 : b.lo a ≤ d.lo a := h1 a
  have e2 : d.hi a ≤ b.hi a := h2 a
  omega

theorem Bounds.within {S : Finset V} {b d : Bx} (hb : Bounds S d) (hS : ∀ c ∈ S, c ∈ b.cells) : b.lo ≤ d.lo ∧ d.hi ≤ b.hi := by
  refine ⟨fun i => ?_, fun i => ?_⟩
  · obtain ⟨c, h1, h2⟩ := hb.lo i
    rw [← h2]; exact (Bx.mem_cells.mp (hS c h1)).1 i
  · obtain ⟨c, h1, h2⟩ := hb.hi i
    rw [← h2]; exact (Bx.mem_cells.mp (hS c h1)).2 i

theorem Cuts.apart {k : Cfg} {sc : V} {h : Hist} {bs : List Bx} (hc : Cuts k sc h bs) :
    ∀ (i j : Nat) (b b' : Bx), i ≠ j → bs[i]? = some b → bs[j]? = some b' → Apart b b' := by
  induction hc with
  | @whole b hb =>
    intro i j b b' hij hi hj
    have := (List.getElem?_eq_some_iff.mp hi).1
    have := (List.getElem?_eq_some_iff.mp hj).1
    simp at *; omega
  | @split bs m b b1 b2 a _ _ hm _ h1 h2 ih =>
    have w1 := h1.within (b := b) (fun c hc => by rw [Finset.mem_filter] at hc; exact hc.2.1)
    have w2 := h2.within (b := b) (fun c hc => by rw [Finset.mem_filter] at hc; exact hc.2.1)
    have h12 : Apart b1 b2 := by
      obtain ⟨c, c1, c2⟩ := h1.hi a
      obtain ⟨d, d1, d2⟩ := h2.lo a
      rw [Finset.mem_filter] at c1 d1
      refine ⟨a, Or.inl ?_⟩
      have := c1.2.2
      have := d1.2.2
      omega
    have hml := (List.getElem?_eq_some_iff.mp hm.1).1
    -- every box of the new list is inside an old one; the two new ones inside box `m`
    have key : ∀ (i : Nat) (x : Bx), (bs.set m b1 ++ [b2])[i]? = some x →
        (i = m ∧ x = b1) ∨ (i = bs.length ∧ x = b2) ∨ (i ≠ m ∧ i < bs.length ∧ bs[i]? = some x) := by
      intro i x hx
      rw [List.getElem?_append, List.length_set] at hx
      split at hx
      · rw [List.getElem?_set] at hx
        split at hx
        · rename_i h1 h2; subst h2; injection hx with hx; exact Or.inl ⟨rfl, hx.symm⟩
        · rename_i h1 h2; exact Or.inr (Or.inr ⟨fun e => h2 e.symm, h1, hx⟩)
      · rename_i h1
        have := (List.getElem?_eq_some_iff.mp hx).1
        simp only [List.length_singleton] at this
        have he : i = bs.length := by omega
        subst he
        simp only [Nat.sub_self, List.getElem?_cons_zero, Option.some.injEq] at hx
        exact Or.inr (Or.inl ⟨rfl, hx.symm⟩)
    intro i j x y hij hx hy
    rcases key i x hx with ⟨i1, rfl⟩ | ⟨i1, rfl⟩ | ⟨i1, i2, i3⟩ <;> rcases key j y hy with ⟨j1, rfl⟩ | ⟨j1, rfl⟩ | ⟨j1, j2, j3⟩
    · omega
    · exact h12
    · exact (ih m j b y (fun e => j1 e.symm) hm.1 j3).sub w1.1 w1.2
    · exact h12.symm
    · omega
    · exact (ih m j b y (fun e => j1 e.symm) hm.1 j3).sub w2.1 w2.2
    · exact ((ih m i b x (fun e => i1 e.symm) hm.1 i3).sub w1.1 w1.2).symm
    · exact ((ih m i b x (fun e => i1 e.symm) hm.1 i3).sub w2.1 w2.2).symm
    · exact ih i j x y hij i3 j3

theorem centre_strict {k : Cfg} (hk : k.Bits) {c d : V} {i : Fin 3} (h : c i < d i) : centre k c i < centre k d i := by
  rw [← centre_eq hk, ← centre_eq hk]
  unfold cellCentre
  have h1 := size_pos hk i
  have h2 : (c i + 1) * size k i ≤ d i * size k i := Nat.mul_le_mul_right _ h
  have h3 : (c i + 1) * size k i = c i * size k i + size k i := by ring
  omega

/-- The mean is inside the box. -/
theorem mean_in {k : Cfg} (hk : k.Bits) {h : Hist} {b : Bx} (hw : 0 < b.weight h) (i : Fin 3) :
    centre k b.lo i ≤ b.mean k h i ∧ b.mean k h i ≤ centre k b.hi i := by
  have h1 : centre k b.lo i * b.weight h ≤ ∑ c ∈ b.cells, centre k c i * h c := by
    unfold Bx.weight
    rw [Finset.mul_sum]
    exact Finset.sum_le_sum fun c hc => Nat.mul_le_mul_right _ (centre_mono hk (Bx.mem_cells.mp hc).1 i)
  have h2 : ∑ c ∈ b.cells, centre k c i * h c ≤ centre k b.hi i * b.weight h := by
    unfold Bx.weight
    rw [Finset.mul_sum]
    exact Finset.sum_le_sum fun c hc => Nat.mul_le_mul_right _ (centre_mono hk (Bx.mem_cells.mp hc).2 i)
  unfold Bx.mean
  generalize ∑ c ∈ b.cells, centre k c i * h c = S at *
  generalize b.weight h = W at *
  constructor
  · rw [Nat.le_div_iff_mul_le (by omega)]
    have : centre k b.lo i * (2 * W) = 2 * (centre k b.lo i * W) := by ring
    omega
  · rw [← Nat.lt_succ_iff, Nat.div_lt_iff_lt_mul (by omega)]
    have : (centre k b.hi i).succ * (2 * W) = 2 * (centre k b.hi i * W) + 2 * W := by rw [Nat.succ_eq_add_one]; ring
    omega

theorem mean_single {k : Cfg} (hk : k.Bits) {h : Hist} {b : Bx} (ht : Tight h b) (he : b.lo = b.hi) :
    b.mean k h = centre k b.lo := by
  funext i
  have := mean_in hk ht.weight_pos i
  rw [← he] at this
  omega

theorem Tight.single_of_population {h : Hist} {b : Bx} (hb : Tight h b) (hp : b.population h = 1) : b.lo = b.hi := by
  rw [hb.population, Finset.card_eq_one] at hp
  obtain ⟨c, hc⟩ := hp
  unfold Tight at hb
  rw [hc] at hb
  funext i
  obtain ⟨d, d1, d2⟩ := hb.lo i
  obtain ⟨e, e1, e2⟩ := hb.hi i
  rw [Finset.mem_singleton] at d1 e1
  rw [← d2, ← e2, d1, e1]

/-- With no more cells than colours wanted, every box is one cell. -/
theorem Cuts.all_single {k : Cfg} {sc : V} {h : Hist} {bs : List Bx} (hc : Cuts k sc h bs)
    (hl : bs.length = (used h).card) : ∀ b ∈ bs, b.lo = b.hi := by
  obtain ⟨t, _, s, _, _⟩ := hc.facts
  rw [← hl] at s
  have key : ∀ l : List Bx, (∀ b ∈ l, 1 ≤ b.population h) → (l.map (Bx.population h)).sum = l.length →
      ∀ b ∈ l, b.population h = 1 := by
    intro l
    induction l with
    | nil => intro _ _ b hb; simp at hb
    | cons x l ih =>
      intro hp hs
      have hsum : ∀ l : List Bx, (∀ b ∈ l, 1 ≤ b.population h) → l.length ≤ (l.map (Bx.population h)).sum := by
        intro l
        induction l with
        | nil => intro _; simp
        | cons y l ih =>
          intro hp
          have := ih fun b hb => hp b (by simp [hb])
          have := hp y (by simp)
          simp only [List.length_cons, List.map_cons, List.sum_cons]; omega
      have h1 := hsum l fun b hb => hp b (by simp [hb])
      have h2 := hp x (by simp)
      simp only [List.map_cons, List.sum_cons, List.length_cons] at hs
      intro b hb
      rw [List.mem_cons] at hb
      rcases hb with rfl | hb
      · omega
      · exact ih (fun b hb => hp b (by simp [hb])) (by omega) b hb
  intro b hb
  exact (t b hb).single_of_population (key bs (fun b hb => (t b hb).pos) s b hb)

/-! ## Histories -/

/-- Rows that an application of this configuration has. -/
def BatchesOk (k : Cfg) (batches : List (List (List Nat))) : Prop := ∀ b ∈ batches, ∀ inp ∈ b, RowOk k inp

theorem BatchesOk.flatten {k : Cfg} {batches : List (List (List Nat))} (h : BatchesOk k batches) :
    ∀ inp ∈ batches.flatten, RowOk k inp := by
  intro inp hi
  obtain ⟨b, hb, hib⟩ := List.mem_flatten.1 hi
  exact h b hb inp hib

/-- The states the quantizer can be in between passes: after initialisation, any number of whole prescans, output passes
(whole or abandoned, in either dither mode) and new palettes, in any order. -/
inductive Reach (k : Cfg) : Q → Prop
  | start {plain : Bool} {hist : Hist} {map : Option (List V)} {n : Int} {q : Q}
      (hm : ∀ m, map = some m → PalOk k m n.toNat) (h : init k plain hist map n = .ok q) : Reach k q
  | prescan {q q1 q2 q3 : Q} {plain : Bool} {batches : List (List (List Nat))} {outs : List (List (List Nat))}
      (h : Reach k q) (he : k.enable2pass = true) (h1 : startPass k plain true q = .ok q1) (hr : BatchesOk k batches)
      (hp : allPixels k batches.flatten ≠ []) (hl : LongOk k (allPixels k batches.flatten).length)
      (h2 : calls k q1 batches = some (q2, outs)) (h3 : finishPass k q2 = some q3) : Reach k q3
  | output {q q1 q2 q3 : Q} {plain : Bool} {batches : List (List (List Nat))} {outs : List (List (List Nat))}
      (h : Reach k q) (hm : q.colormap ≠ none) (h1 : startPass k plain false q = .ok q1) (hr : BatchesOk k batches)
      (h2 : calls k q1 batches = some (q2, outs)) (h3 : finishPass k q2 = some q3) : Reach k q3
  | map {q : Q} {m : List V} {n : Int} (h : Reach k q) (hp : PalOk k m n.toNat) : Reach k (newColormap q m n)

/-- What holds between passes. -/
structure Inv (k : Cfg) (sc : V) (q : Q) : Prop where
  range : k.enable2pass = true → 8 ≤ k.desired ∧ k.desired ≤ k.max + 1
  sv : k.enable2pass = true → ∃ sv, q.sv = some sv ∧ sv.length = k.desired.toNat
  lim : q.limiter = none ∨ q.limiter = some (limiter k)
  pal : ∀ cm, q.colormap = some cm → PalOk k cm q.actual.toNat
  cache : q.needsZeroed = true ∨ ∀ cm, q.colormap = some cm → CacheOk k sc cm q.actual.toNat q.hist

theorem prescan_run {k : Cfg} (hk : k.Bits) {sc : V} (hsc : scales k = some sc) {q : Q} (hi : Inv k sc q)
    (he : k.enable2pass = true) (plain : Bool) {batches : List (List (List Nat))} (hr : BatchesOk k batches)
    (hp : allPixels k batches.flatten ≠ []) (hl : LongOk k (allPixels k batches.flatten).length) :
    ∃ q1 q2 outs q3 bs cm, startPass k plain true q = .ok q1 ∧ calls k q1 batches = some (q2, outs) ∧
      outs.map List.length = batches.map List.length ∧ (∀ o ∈ outs.flatten, o = []) ∧
      finishPass k q2 = some q3 ∧ q3.colormap = some cm ∧ cm.length = k.desired.toNat ∧
      PaletteOf k sc (allPixels k batches.flatten) bs cm q3.actual ∧ Inv k sc q3 := by
  obtain ⟨sv, hsv, hsl⟩ := hi.sv he
  obtain ⟨hd1, hd2⟩ := hi.range he
  have hrows := hr.flatten
  obtain ⟨q1, hq1⟩ : ∃ q1 : Q, q1 = { q with fn := some .prescan, needsZeroed := false, hist := fun _ => 0 } := ⟨_, rfl⟩
  have hs : startPass k plain true q = .ok q1 := by rw [hq1]; rfl
  have hq := quantize_prescan hk batches.flatten (q := q1) (ps := []) (by rw [hq1]) (by rw [hq1]; exact histOf_nil k) hrows
  rw [List.nil_append] at hq
  obtain ⟨outs, c1, c2, c3⟩ := calls_eq batches q1 _ _ hq
  have hpx : ∀ p ∈ allPixels k batches.flatten, ∀ i, p i ≤ k.max := fun p hp i => allPixels_ok hrows hp i
  have hne : (used (histOf k (allPixels k batches.flatten))).Nonempty := by
    obtain ⟨p, hp⟩ := List.exists_mem_of_ne_nil _ hp
    exact ⟨cellOf k p, (mem_used_hist hk hpx).2 ⟨p, hp, rfl⟩⟩
  obtain ⟨sv', bs, s1, s2, s3, s4, s5⟩ := selectColors_spec hk hsc hne (by omega) hl.total hsl
  have hpal : PaletteOf k sc (allPixels k batches.flatten) bs sv' (bs.length : Int) := ⟨s2, s3, rfl, s5⟩
  refine ⟨q1, _, outs, { q1 with
    hist := histOf k (allPixels k batches.flatten), sv := some sv', colormap := some sv', actual := bs.length, needsZeroed := true }, bs, sv', hs, c1, c3, ?_, ?_, rfl, s4, hpal, hi.range, fun _ => ⟨sv', rfl, s4⟩, ?_, ?_, Or.inl rfl⟩
  · rw [c2]; intro o ho; exact List.eq_of_mem_replicate ho
  · unfold finishPass
    have e1 : q1.fn = some .prescan := by rw [hq1]
    have e2 : q1.sv = some sv := by rw [hq1]; exact hsv
    dsimp only
    rw [e1, e2]
    simp only [Option.bind_eq_bind, Option.bind_some]
    rw [s1]
    rfl
  · rw [hq1]; exact hi.lim
  · intro cm hcm
    injection hcm with hcm
    subst hcm
    exact hpal.palOk hk (by omega) hd2

theorem holds_zero (k : Cfg) (d : Int) : Holds k d (fun _ _ => 0) (List.replicate (k.width + 2) fun _ => 0) := by
  refine ⟨List.length_replicate, fun x hx => ?_⟩
  rw [List.getElem?_replicate, if_pos (by omega)]
  simp

theorem start_output {k : Cfg} {sc : V} {q : Q} (hi : Inv k sc q) {cm : List V} (hcm : q.colormap = some cm) (plain : Bool) :
    ∃ q1, startPass k plain false q = .ok q1 ∧ InPass k sc cm q.actual.toNat plain 0 (fun _ _ => 0) q1 ∧
      q1.actual = q.actual ∧ q1.sv = q.sv ∧ (q1.limiter = none ∨ q1.limiter = some (limiter k)) := by
  have hpal := hi.pal cm hcm
  have h1 := hpal.pos
  have h2 := hpal.le
  have hlim : q.limiter.getD (limiter k) = limiter k := by
    rcases hi.lim with h | h <;> rw [h] <;> rfl
  have hz : ∀ q' : Q, q'.hist = q.hist → q'.needsZeroed = q.needsZeroed → CacheOk k sc cm q.actual.toNat (zeroIfNeeded q').hist := by
    intro q' e1 e2
    unfold zeroIfNeeded
    split
    · intro c _ h0; exact absurd rfl h0
    · rename_i hn
      rw [e1]
      rcases hi.cache with h | h
      · rw [e2, h] at hn; simp at hn
      · exact h cm hcm
  have hk1 : ∀ q' : Q, (zeroIfNeeded q').colormap = q'.colormap ∧ (zeroIfNeeded q').actual = q'.actual ∧
      (zeroIfNeeded q').fn = q'.fn ∧ (zeroIfNeeded q').sv = q'.sv ∧ (zeroIfNeeded q').limiter = q'.limiter ∧
      (zeroIfNeeded q').onOdd = q'.onOdd ∧ (zeroIfNeeded q').fserrors = q'.fserrors := by
    intro q'; unfold zeroIfNeeded; split <;> exact ⟨rfl, rfl, rfl, rfl, rfl, rfl, rfl⟩
  unfold startPass
  rw [if_neg (by simp)]
  dsimp only
  rw [if_neg (by omega), if_neg (by omega)]
  cases plain with
  | true =>
    rw [if_pos rfl]
    obtain ⟨z1, z2, z3, z4, z5, _, _⟩ := hk1 { q with fn := some (if true = true then .plain else .fs) }
    exact ⟨_, rfl, ⟨z1.trans hcm, by rw [z2], hz _ rfl rfl, z3, fun h => by simp at h⟩, z2, z4, by rw [z5]; exact hi.lim⟩
  | false =>
    rw [if_neg (by simp)]
    obtain ⟨z1, z2, z3, z4, z5, z6, z7⟩ := hk1 { q with
      fn := some (if false = true then .plain else .fs), fserrors := some (List.replicate (k.width + 2) fun _ => 0),
      limiter := some (q.limiter.getD (limiter k)), onOdd := false }
    refine ⟨_, rfl, ⟨z1.trans hcm, by rw [z2], hz _ rfl rfl, z3, fun _ => ⟨?_, ?_, ?_, _, z7, ?_⟩⟩, z2, z4, ?_⟩
    · rw [z5, hlim]
    · rw [z6]; rfl
    · intro x i; constructor <;> simp
    · rw [z6]; exact holds_zero k _
    · rw [z5, hlim]; exact Or.inr rfl

theorem output_run {k : Cfg} (hk : k.Bits) {sc : V} (hsc : scales k = some sc) {q : Q} (hi : Inv k sc q)
    {cm : List V} (hcm : q.colormap = some cm) (plain : Bool) {batches : List (List (List Nat))} (hr : BatchesOk k batches) :
    ∃ q1 q2 outs, ∃ (e : Nat → Int → E) (want : Nat → Nat → V), startPass k plain false q = .ok q1 ∧ calls k q1 batches = some (q2, outs) ∧
      outs.map List.length = batches.map List.length ∧ finishPass k q2 = some q2 ∧
      q2.colormap = some cm ∧ q2.actual = q.actual ∧ Inv k sc q2 ∧
      ∀ r, (hr : r < batches.flatten.length) → ∃ out, outs.flatten[r]? = some out ∧ out.length = k.width ∧
        RowShows k sc cm q.actual.toNat plain r batches.flatten[r] (above (fun _ _ => 0) e r) (e r) (want r) out := by
  obtain ⟨q1, s1, s2, s3, s4, s5⟩ := start_output hi hcm plain
  obtain ⟨q2, os, e, want, a1, ⟨b1, b2, b3, b4, b5, b6⟩, a3, a4⟩ := quantize_spec hk hsc (hi.pal cm hcm) batches.flatten s2 hr.flatten
  obtain ⟨outs, c1, c2, c3⟩ := calls_eq batches q1 _ _ a1
  refine ⟨q1, q2, outs, e, want, s1, c1, c3, ?_, b5.trans s2.map, b6.trans s3, ⟨hi.range, ?_, ?_, ?_, ?_⟩, ?_⟩
  · unfold finishPass
    rw [b4, s2.fn]
    cases plain <;> rfl
  · intro he; rw [b2, s4]; exact hi.sv he
  · rw [b3]; exact s5
  · intro cm' h'
    rw [b5, s2.map] at h'
    injection h' with h'; subst h'
    rw [b6, s3]; exact hi.pal cm hcm
  · refine Or.inr fun cm' h' => ?_
    rw [b5, s2.map] at h'
    injection h' with h'; subst h'
    rw [b6, s3]; exact a3
  · intro r hrl
    obtain ⟨out, o1, o2, o3⟩ := a4 r hrl
    rw [Nat.zero_add] at o3
    exact ⟨out, by rw [c2]; exact o1, o2, o3⟩

theorem Reach.inv {k : Cfg} (hk : k.Bits) {sc : V} (hsc : scales k = some sc) {q : Q} (h : Reach k q) : Inv k sc q := by
  induction h with
  | @start plain hist map n q hm h =>
    unfold init at h
    split at h
    · simp at h
    split at h
    · simp at h
    split at h
    · simp at h
    rename_i h1 h2 h3
    injection h with h
    subst h
    refine ⟨fun he => ?_, fun he => ?_, ?_, hm, Or.inl rfl⟩
    · rw [he] at h2 h3; simp at h2 h3; omega
    · refine ⟨_, if_pos he, List.length_replicate⟩
    · dsimp only; cases plain
      · exact Or.inr rfl
      · exact Or.inl rfl
  | @prescan q q1 q2 q3 plain batches outs h he h1 hr hp hl h2 h3 ih =>
    obtain ⟨r1, r2, ro, r3, bs, cm, a1, a2, _, _, a5, _, _, _, a8⟩ := prescan_run hk hsc ih he plain hr hp hl
    rw [a1] at h1; injection h1 with h1; subst h1
    rw [a2] at h2; injection h2 with h2; injection h2 with h2 _; subst h2
    rw [a5] at h3; injection h3 with h3; subst h3
    exact a8
  | @output q q1 q2 q3 plain batches outs h hm h1 hr h2 h3 ih =>
    obtain ⟨cm, hcm⟩ := Option.ne_none_iff_exists'.mp hm
    obtain ⟨r1, r2, ro, e, want, a1, a2, _, a4, _, _, a7, _⟩ := output_run hk hsc ih hcm plain hr
    rw [a1] at h1; injection h1 with h1; subst h1
    rw [a2] at h2; injection h2 with h2; injection h2 with h2 _; subst h2
    rw [a4] at h3; injection h3 with h3; subst h3
    exact a7
  | @map q m n h hp ih =>
    refine ⟨ih.range, ih.sv, ih.lim, ?_, Or.inl rfl⟩
    intro cm hcm
    injection hcm with hcm; subst hcm; exact hp

/-! ## The property -/

/-- **C57, what is accepted.** Only three-component output that is neither RGB565 nor lossless can be quantized; a palette
can be computed for 8 to MAXJSAMPLE+1 colours; anything else is an error. An output pass is accepted for palettes of 1 to
MAXJSAMPLE+1 colours; every dither mode but "none" means Floyd-Steinberg (`plain` is the only thing looked at). -/
theorem C57_init (k : Cfg) (plain : Bool) (hist : Hist) (map : Option (List V)) (n : Int) :
    ((∃ q, init k plain hist map n = .ok q) ↔ k.components = 3 ∧ k.rgb565 = false ∧ k.lossless = false ∧
      (k.enable2pass = true → 8 ≤ k.desired ∧ k.desired ≤ k.max + 1)) ∧
    ∀ q, (∃ q', startPass k plain false q = .ok q') ↔ 1 ≤ q.actual ∧ q.actual ≤ k.max + 1 := by
  constructor
  · unfold init
    constructor
    · rintro ⟨q, h⟩
      split at h
      · simp at h
      split at h
      · simp at h
      split at h
      · simp at h
      rename_i h1 h2 h3
      push Not at h1
      refine ⟨h1.1, by simpa using h1.2.1, by simpa using h1.2.2, fun he => ?_⟩
      rw [he] at h2 h3; simp at h2 h3; omega
    · rintro ⟨h1, h2, h3, h4⟩
      rw [if_neg (by simp [h1, h2, h3]), if_neg (fun h => by have := h4 h.1; omega),
        if_neg (fun h => by have := h4 h.1; omega)]
      exact ⟨_, rfl⟩
  · intro q
    unfold startPass
    rw [if_neg (by simp)]
    dsimp only
    constructor
    · rintro ⟨q', h⟩
      split at h
      · simp at h
      split at h
      · simp at h
      omega
    · rintro ⟨h1, h2⟩
      rw [if_neg (by omega), if_neg (by omega)]
      cases plain
      · exact ⟨_, rfl⟩
      · exact ⟨_, rfl⟩

/-- **C57, the prescan.** In any reachable state, a prescan of any image with at least one pixel, its rows split in any
way over the calls, runs without an access outside an array, writes nothing to the output, and ends with the palette of the
median cut of the image: `PaletteOf` says what that is. -/
theorem C57_prescan {k : Cfg} (hk : k.Bits) {sc : V} (hsc : scales k = some sc) {q : Q} (h : Reach k q)
    (he : k.enable2pass = true) (plain : Bool) {batches : List (List (List Nat))} (hr : BatchesOk k batches)
    (hp : allPixels k batches.flatten ≠ []) (hl : LongOk k (allPixels k batches.flatten).length) :
    ∃ q1 q2 outs q3 bs cm, startPass k plain true q = .ok q1 ∧ calls k q1 batches = some (q2, outs) ∧
      (∀ o ∈ outs.flatten, o = []) ∧ finishPass k q2 = some q3 ∧ Reach k q3 ∧
      q3.colormap = some cm ∧ cm.length = k.desired.toNat ∧
      PaletteOf k sc (allPixels k batches.flatten) bs cm q3.actual := by
  obtain ⟨q1, q2, outs, q3, bs, cm, a1, a2, _, a4, a5, a6, a7, a8, _⟩ := prescan_run hk hsc (h.inv hk hsc) he plain hr hp hl
  exact ⟨q1, q2, outs, q3, bs, cm, a1, a2, a4, a5, .prescan h he a1 hr hp hl a2 a5, a6, a7, a8⟩

/-- **C57, the palette.** The palette of an image has as many colours as are wanted, or as the image has cells if these are
fewer; no colour occurs twice; every pixel's cell is in exactly one box, each box holds at least one pixel, and the colour of
a box lies inside it. -/
theorem C57_palette {k : Cfg} (hk : k.Bits) (hd : 1 ≤ k.desired) {sc : V} {ps : List V} (hp : ∀ p ∈ ps, ∀ i, p i ≤ k.max)
    {bs : List Bx} {cm : List V} {n : Int} (h : PaletteOf k sc ps bs cm n) :
    n = min k.desired (ps.map (cellOf k)).toFinset.card ∧ 1 ≤ n ∧
    (∀ (i j : Nat) (p : V), (i : Int) < n → (j : Int) < n → cm[i]? = some p → cm[j]? = some p → i = j) ∧
    (∀ p ∈ ps, ∃ (i : Nat) (b : Bx), bs[i]? = some b ∧ cellOf k p ∈ b.cells ∧
      ∀ (j : Nat) (b' : Bx), bs[j]? = some b' → cellOf k p ∈ b'.cells → j = i) ∧
    ∀ (i : Nat) (b : Bx), bs[i]? = some b → (∃ p ∈ ps, cellOf k p ∈ b.cells) ∧
      ∃ c, cm[i]? = some c ∧ ∀ j, centre k b.lo j ≤ c j ∧ c j ≤ centre k b.hi j := by
  obtain ⟨t, part, _, l1, _⟩ := h.cuts.facts
  have hlen := h.length hk hd hp
  have hcount := h.count
  have hin : ∀ (i : Nat) (b : Bx), bs[i]? = some b → (∃ p ∈ ps, cellOf k p ∈ b.cells) ∧
      ∃ c, cm[i]? = some c ∧ ∀ j, centre k b.lo j ≤ c j ∧ c j ≤ centre k b.hi j := by
    intro i b hb
    have ht := t b (List.mem_of_getElem? hb)
    constructor
    · obtain ⟨d, d1, _⟩ := Bounds.lo ht 0
      rw [Finset.mem_filter, mem_used_hist hk hp] at d1
      obtain ⟨⟨p, p1, rfl⟩, d2⟩ := d1
      exact ⟨p, p1, d2⟩
    · exact ⟨_, h.color i b hb, fun j => mean_in hk ht.weight_pos j⟩
  refine ⟨by omega, by omega, ?_, ?_, hin⟩
  · intro i j p hi hj h1 h2
    by_contra hij
    have bi : bs[i]? = some bs[i] := List.getElem?_eq_getElem (by omega)
    have bj : bs[j]? = some bs[j] := List.getElem?_eq_getElem (by omega)
    obtain ⟨a, ha⟩ := h.cuts.apart i j _ _ hij bi bj
    obtain ⟨_, c, c1, c2⟩ := hin i _ bi
    obtain ⟨_, d, d1, d2⟩ := hin j _ bj
    rw [h1] at c1; injection c1 with c1; subst c1
    rw [h2] at d1; injection d1 with d1; subst d1
    have := c2 a
    have := d2 a
    rcases ha with ha | ha
    · have := centre_strict hk ha; omega
    · have := centre_strict hk ha; omega
  · intro p hp'
    exact part _ ((mem_used_hist hk hp).2 ⟨p, hp', rfl⟩)

/-- **C57, output passes.** Whatever passes and palettes came before, an output pass runs without an access outside an array,
for any rows split in any way over the calls; as many rows come out as go in. Without dithering every pixel gets the index of
the palette entry nearest to the centre of its cell (the first of several); otherwise the rows are diffused: each pixel plus
the carried, limited error gets such an index, the errors start at zero, and every other row goes right to left. The palette
is left as it was. -/
theorem C57_pass {k : Cfg} (hk : k.Bits) {sc : V} (hsc : scales k = some sc) {q : Q} (h : Reach k q)
    {cm : List V} (hcm : q.colormap = some cm) (plain : Bool) {batches : List (List (List Nat))} (hr : BatchesOk k batches) :
    ∃ q1 q2 outs, ∃ (e : Nat → Int → E) (want : Nat → Nat → V), startPass k plain false q = .ok q1 ∧ calls k q1 batches = some (q2, outs) ∧
      outs.map List.length = batches.map List.length ∧ finishPass k q2 = some q2 ∧
      Reach k q2 ∧ q2.colormap = some cm ∧ q2.actual = q.actual ∧
      ∀ r, (hr : r < batches.flatten.length) → ∃ out, outs.flatten[r]? = some out ∧ out.length = k.width ∧
        RowShows k sc cm q.actual.toNat plain r batches.flatten[r] (above (fun _ _ => 0) e r) (e r) (want r) out := by
  obtain ⟨q1, q2, outs, e, want, a1, a2, a3, a4, a5, a6, _, a8⟩ := output_run hk hsc (h.inv hk hsc) hcm plain hr
  exact ⟨q1, q2, outs, e, want, a1, a2, a3, a4, .output h (by rw [hcm]; simp) a1 hr a2 a4, a5, a6, a8⟩

/-- Every output sample is an index of the palette. -/
theorem RowShows.lt {k : Cfg} {sc : V} {cm : List V} {n : Nat} {plain : Bool} {r : Nat} {inp : List Nat} {prev e : Int → E}
    {want : Nat → V} {out : List Nat} (h : RowShows k sc cm n plain r inp prev e want out) {x : Nat} (hx : x < k.width) :
    out.getD x 0 < n := by
  unfold RowShows at h
  split at h
  · exact (h x hx).2.lt
  · exact (h.shown x hx).lt

theorem clampTo_near {M v : Nat} (hv : v ≤ M) (d : Int) : |(clampTo M ((v : Int) + d) : Int) - v| ≤ |d| := by
  unfold clampTo
  rcases abs_cases d with ⟨e, _⟩ | ⟨e, _⟩ <;> rw [e, abs_le] <;> omega

/-- **C57, errors do not build up.** With Floyd-Steinberg dithering the colour that is looked up differs from the pixel by at
most an eighth of the sample range in each component, however large the image. -/
theorem C57_fs_close {k : Cfg} {sc : V} {cm : List V} {n r : Nat} {inp : List Nat} {prev e : Int → E} {want : Nat → V}
    {out : List Nat} (hi : RowOk k inp) (h : RowShows k sc cm n false r inp prev e want out) {x : Nat} (hx : x < k.width)
    (i : Fin 3) : |(want x i : Int) - pix inp x i| ≤ 2 * ((k.max + 1) / 16 : Nat) := by
  unfold RowShows at h
  rw [if_neg (by simp)] at h
  rw [h.want_eq x hx i]
  refine le_trans (clampTo_near ((hi.pixelAt hx rfl).2 i) _) ?_
  rw [abs_le]
  exact limitErr_le _

/-- **C57, images of few colours.** If the image has no more cells than colours are wanted, the palette consists of the
centres of its cells, and a pass without dithering shows every pixel as the centre of its own cell. -/
theorem C57_few {k : Cfg} (hk : k.Bits) (hd : 1 ≤ k.desired) {sc : V} (hsc : scales k = some sc) {ps : List V}
    (hp : ∀ p ∈ ps, ∀ i, p i ≤ k.max) {bs : List Bx} {cm : List V} {n : Int} (h : PaletteOf k sc ps bs cm n)
    (hfew : ((ps.map (cellOf k)).toFinset.card : Int) ≤ k.desired) :
    (∀ (i : Nat) (c : V), (i : Int) < n → cm[i]? = some c → ∃ p ∈ ps, c = centre k (cellOf k p)) ∧
    ∀ p ∈ ps, ∀ i, IsNearest sc cm n.toNat (centre k (cellOf k p)) i → cm[i]? = some (centre k (cellOf k p)) := by
  obtain ⟨t, part, _, _, _⟩ := h.cuts.facts
  have hlen := h.length hk hd hp
  have hcount := h.count
  have hu := used_card hk hp
  have hs := h.cuts.all_single (by rw [hu]; omega)
  constructor
  · intro i c hi hc
    have bi : bs[i]? = some bs[i] := List.getElem?_eq_getElem (by omega)
    have hm := List.mem_of_getElem? bi
    have ht := t _ hm
    rw [h.color i _ bi, mean_single hk ht (hs _ hm)] at hc
    injection hc with hc
    obtain ⟨d, d1, _⟩ := Bounds.lo ht 0
    rw [Finset.mem_filter, mem_used_hist hk hp, Bx.mem_cells] at d1
    obtain ⟨⟨p, p1, rfl⟩, d2, d3⟩ := d1
    refine ⟨p, p1, ?_⟩
    rw [← hc]
    congr 1
    rw [← hs _ hm] at d3
    exact le_antisymm d2 d3
  · rintro p hp' i ⟨c, i1, i2, i3⟩
    obtain ⟨j, b, j1, j2, _⟩ := part _ ((mem_used_hist hk hp).2 ⟨p, hp', rfl⟩)
    have hm := List.mem_of_getElem? j1
    have hj := (List.getElem?_eq_some_iff.mp j1).1
    rw [Bx.mem_cells] at j2
    have hlo : b.lo = cellOf k p := le_antisymm j2.1 (by rw [hs b hm]; exact j2.2)
    have hcm := h.color j b j1
    rw [mean_single hk (t b hm) (hs b hm), hlo] at hcm
    have h0 := (i3 j _ (by omega) hcm).1
    have hz : dist sc (centre k (cellOf k p)) (centre k (cellOf k p)) = 0 := by rw [dist_eq]; ring
    rw [hz] at h0
    rw [i2]
    congr 1
    have hsq : ∀ a, (((c a : Int) - centre k (cellOf k p) a) * sc a) ^ 2 = 0 := by
      intro a
      have hnn : ∀ a, 0 ≤ (((c a : Int) - centre k (cellOf k p) a) * sc a) ^ 2 := fun a => sq_nonneg _
      have h1 := hnn 0
      have h2 := hnn 1
      have h3 := hnn 2
      rw [dist_eq] at h0
      fin_cases a
      · show (((c 0 : Int) - centre k (cellOf k p) 0) * sc 0) ^ 2 = 0
        omega
      · show (((c 1 : Int) - centre k (cellOf k p) 1) * sc 1) ^ 2 = 0
        omega
      · show (((c 2 : Int) - centre k (cellOf k p) 2) * sc 2) ^ 2 = 0
        omega
    funext a
    have h4 := pow_eq_zero_iff (two_ne_zero) |>.mp (hsq a)
    have h5 := scale_pos hsc a
    rcases Int.mul_eq_zero.mp h4 with h6 | h6 <;> omega

/-- The centre of a pixel's cell is near the pixel. -/
theorem C57_centre_close {k : Cfg} (hk : k.Bits) (p : V) (i : Fin 3) :
    2 * |(centre k (cellOf k p) i : Int) - p i| ≤ size k i := by
  rw [← centre_eq hk, ← cellOf_eq hk]
  unfold cellCentre
  have h1 := Nat.div_add_mod' (p i) (size k i)
  have h2 := Nat.mod_lt (p i) (size_pos hk i)
  have h3 : 2 ∣ size k i := by
    unfold size; rcases hk with h | h <;> rw [h] <;> fin_cases i <;> decide
  generalize p i / size k i * size k i = A at *
  rcases abs_cases (((A + size k i / 2 : Nat) : Int) - p i) with ⟨e, _⟩ | ⟨e, _⟩ <;> rw [e] <;> omega

/-! ## Findings -/

/-- With an output colour space that is not RGB (YCbCr has three components and is accepted) neither the palette nor the
inverse map can be computed: the code indexes its table of scales with -1. -/
theorem C57_ycc_fails {k : Cfg} (h : k.order = none) (hist : Hist) (sv cm : List V) (n : Nat) (c : V) :
    selectColors k hist sv = none ∧ fill k cm n hist c = none := by
  unfold selectColors updateBox fill scales
  rw [h]
  exact ⟨rfl, rfl⟩

/-- White is not kept: the palette entry of an all-white image is the centre of the last cell. -/
theorem C57_white {k : Cfg} (h : k.c = 128) : centre k (cellOf k fun _ => 255) = ![252, 254, 252] := by
  unfold centre cellOf
  rw [h]
  funext i
  fin_cases i <;> rfl

/-- With a 32-bit `long` a box of 8.6 million pixels in bright cells overflows the sums. -/
theorem C57_long32 {k : Cfg} (hk : k.c = 128) (hl : k.longMax = 2 ^ 31 - 1) {h : Hist} {b : Box}
    (h1 : ∀ c ∈ cells b.min b.max, 248 ≤ cellCentre k c 0) (h2 : 8659210 ≤ ((cells b.min b.max).map h).sum) :
    computeColor k h b = none := by
  unfold computeColor
  dsimp only
  rw [if_pos]
  have : ∀ l : List V, (∀ c ∈ l, 248 ≤ cellCentre k c 0) → 248 * (l.map h).sum ≤ (l.map fun c => cellCentre k c 0 * h c).sum := by
    intro l
    induction l with
    | nil => intro _; simp
    | cons x l ih =>
      intro hx
      have a1 := ih fun c hc => hx c (by simp [hc])
      have a2 : 248 * h x ≤ cellCentre k x 0 * h x := Nat.mul_le_mul_right _ (hx x (by simp))
      simp only [List.map_cons, List.sum_cons]; omega
  have := this _ h1
  exact Or.inr (Or.inr (Or.inr ⟨0, by omega⟩))

/-! ## The hypotheses are met -/

/-- An RGB image 2 pixels wide, 8 colours, 64-bit `long`. -/
def exCfg : Cfg := ⟨128, some false, 3, false, false, true, 8, 2, 2 ^ 63 - 1, 7⟩

def exBatches : List (List (List Nat)) := [[[255, 255, 255, 0, 0, 0]], [], [[10, 200, 30, 12, 201, 29], [255, 255, 254, 1, 2, 3]]]

theorem exBatches_ok : BatchesOk exCfg exBatches := by unfold BatchesOk RowOk; decide

theorem exLong (n : Nat) : LongOk exCfg n := by unfold LongOk; left; decide +kernel

theorem exPixels : allPixels exCfg exBatches.flatten ≠ [] := by
  intro h
  have := congrArg List.length h
  revert this
  decide +kernel

/-- A whole history: initialisation, prescan, a plain pass, a new palette, a Floyd-Steinberg pass. -/
example : ∃ q cm, Reach exCfg q ∧ q.colormap = some cm ∧ q.actual = 2 := by
  obtain ⟨q0, h0⟩ := (C57_init exCfg true (fun _ => 3) none 0).1.mpr (by decide)
  have r0 : Reach exCfg q0 := .start (fun m h => by simp at h) h0
  obtain ⟨_, _, _, q1, _, cm, _, _, _, _, r1, m1, _⟩ :=
    C57_prescan (Or.inl rfl) (sc := ![2, 3, 1]) rfl r0 rfl true exBatches_ok exPixels (exLong _)
  obtain ⟨_, q2, _, _, _, _, _, _, _, r2, _⟩ := C57_pass (Or.inl rfl) (sc := ![2, 3, 1]) rfl r1 m1 true exBatches_ok
  have r3 : Reach exCfg (newColormap q2 [![1, 2, 3], ![200, 100, 50]] 2) := .map r2 ⟨by decide, by decide, by decide, by
    intro i p hi hp j
    have : i = 0 ∨ i = 1 := by omega
    rcases this with rfl | rfl <;> simp at hp <;> subst hp <;> revert j <;> decide⟩
  obtain ⟨_, q5, _, _, _, _, _, _, _, r4, m4, a4, _⟩ := C57_pass (Or.inl rfl) (sc := ![2, 3, 1]) rfl r3 rfl false exBatches_ok
  exact ⟨q5, _, r4, m4, a4⟩

/-- The example image has three cells, so `C57_few` applies to it. -/
example : (((allPixels exCfg exBatches.flatten).map (cellOf exCfg)).toFinset.card : Int) ≤ exCfg.desired := by decide +kernel

/-- Cells looked up in a palette of two colours. -/
def exPal : List V := [![0, 0, 0], ![255, 255, 255]]

example : ((lookup exCfg exPal 2 (fun _ => 0) ![13, 27, 14]).map (·.2)) = some 0 := by decide +kernel
example : ((lookup exCfg exPal 2 (fun _ => 0) ![20, 40, 20]).map (·.2)) = some 1 := by decide +kernel
example : IsNearest ![2, 3, 1] exPal 2 ![164, 162, 164] 1 := by
  refine ⟨![255, 255, 255], by decide, rfl, fun j q hj hq => ?_⟩
  have : j = 0 ∨ j = 1 := by omega
  rcases this with rfl | rfl <;> simp [exPal] at hq <;> subst hq <;> decide +kernel

/-- The error limiter: identity up to 16, half slope up to 48, then constant. -/
example : [5, 15, 16, 20, 47, 48, 255, -20].map (limitErr 16) = [5, 15, 16, 18, 31, 32, 32, -18] := by decide

end Verif.Quant2
