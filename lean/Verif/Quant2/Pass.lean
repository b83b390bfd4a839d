import Verif.Quant2.Diffuse
/-
Whole passes of the two-pass quantizer: the prescan of an image and the palette it ends with, output passes in either
dither mode with the rows split in any way over the calls, in any order of passes and palettes.
-/
namespace Verif.Quant2
open Verif.Quant1 (dirOf)

/-! ## Rows in several calls -/

/-- Calls of `_color_quantize`, each with some rows. -/
def calls (k : Cfg) : Q → List (List (List Nat)) → Option (Q × List (List (List Nat)))
  | q, [] => some (q, [])
  | q, b :: bs => do
    let (q, o) ← quantize k q b
    let (q, os) ← calls k q bs
    pure (q, o :: os)

theorem quantize_append {k : Cfg} : ∀ (a b : List (List Nat)) (q : Q), quantize k q (a ++ b) =
    (quantize k q a).bind fun r => (quantize k r.1 b).map fun s => (s.1, r.2 ++ s.2) := by
  intro a
  induction a with
  | nil => intro b q; simp [quantize]
  | cons r rs ih =>
    intro b q
    simp only [List.cons_append, quantize, Option.bind_eq_bind]
    cases hs : rowStep k q r with
    | none => rfl
    | some p =>
      obtain ⟨q1, o⟩ := p
      simp only [Option.bind_some, ih]
      cases h1 : quantize k q1 rs with
      | none => rfl
      | some p2 =>
        obtain ⟨q2, os⟩ := p2
        simp only [Option.bind_some, pure]
        cases quantize k q2 b <;> rfl

theorem quantize_length {k : Cfg} : ∀ (rs : List (List Nat)) (q q' : Q) (os : List (List Nat)),
    quantize k q rs = some (q', os) → os.length = rs.length := by
  intro rs
  induction rs with
  | nil => intro q q' os h; simp only [quantize] at h; injection h with h; injection h with _ h; subst h; rfl
  | cons r rs ih2 =>
    intro q q' os h
    simp only [quantize, Option.bind_eq_bind, Option.bind_eq_some_iff] at h
    obtain ⟨⟨_, _⟩, _, ⟨_, _⟩, h2, h3⟩ := h
    injection h3 with h3; injection h3 with _ h3; subst h3
    simp [ih2 _ _ _ h2]

/-- How the rows are split over the calls does not matter. -/
theorem calls_eq {k : Cfg} : ∀ (bs : List (List (List Nat))) (q : Q), ∀ q' os, quantize k q bs.flatten = some (q', os) →
    ∃ oss, calls k q bs = some (q', oss) ∧ oss.flatten = os ∧ oss.map List.length = bs.map List.length := by
  intro bs
  induction bs with
  | nil => intro q q' os h; simp only [List.flatten_nil, quantize] at h; injection h with h; injection h with h1 h2; subst h1; subst h2; exact ⟨[], rfl, rfl, rfl⟩
  | cons b bs ih =>
    intro q q' os h
    rw [List.flatten_cons, quantize_append, Option.bind_eq_some_iff] at h
    obtain ⟨⟨q1, o1⟩, h1, h2⟩ := h
    rw [Option.map_eq_some_iff] at h2
    obtain ⟨⟨q2, o2⟩, h2, h3⟩ := h2
    injection h3 with h3 h4
    dsimp only at h3 h4
    subst h3
    obtain ⟨oss, i1, i2, i3⟩ := ih q1 q2 o2 h2
    refine ⟨o1 :: oss, ?_, by rw [List.flatten_cons, i2]; exact h4, ?_⟩
    · simp only [calls, h1, Option.bind_eq_bind, Option.bind_some, i1]; rfl
    · simp [quantize_length _ _ _ _ h1, i3]

/-! ## The prescan -/

/-- The pixels of an image. -/
def allPixels (k : Cfg) (rows : List (List Nat)) : List V := rows.flatMap (pixelsOf k)

theorem quantize_prescan {k : Cfg} (hk : k.Bits) : ∀ (rows : List (List Nat)) {q : Q} {ps : List V},
    q.fn = some .prescan → q.hist = histOf k ps → (∀ inp ∈ rows, RowOk k inp) →
    quantize k q rows = some ({ q with hist := histOf k (ps ++ allPixels k rows) }, List.replicate rows.length []) := by
  intro rows
  induction rows with
  | nil =>
    intro q ps hf hh _
    simp only [quantize, allPixels, List.flatMap_nil, List.append_nil, List.length_nil, List.replicate_zero, ← hh]
  | cons r rs ih =>
    intro q ps hf hh hr
    obtain ⟨h', g1, g2⟩ := prescanRow_spec hk ps (hr r (by simp)) (h := q.hist) (fun c => by rw [hh])
    have hs : rowStep k q r = some ({ q with hist := h' }, []) := by
      unfold rowStep
      rw [hf]
      simp only [Option.bind_eq_bind, Option.bind_some]
      rw [g1]; rfl
    have := ih (q := { q with hist := h' }) (ps := ps ++ pixelsOf k r) hf (funext g2) (fun inp hi => hr inp (by simp [hi]))
    simp only [quantize, Option.bind_eq_bind]
    rw [hs]
    simp only [Option.bind_some]
    rw [this]
    simp only [Option.bind_some, allPixels, List.flatMap_cons, List.append_assoc, List.length_cons, List.replicate_succ]
    rfl

theorem histOf_nil (k : Cfg) : (fun _ => 0 : Hist) = histOf k [] := by
  funext c; simp [histOf]

theorem hist_pos {k : Cfg} {ps : List V} {c : V} : histOf k ps c ≠ 0 ↔ ∃ p ∈ ps, cellOf k p = c := by
  unfold histOf
  have : 0 < ps.countP (fun p => decide (cellOf k p = c)) ↔ ∃ p ∈ ps, cellOf k p = c := by
    rw [List.countP_pos_iff]; simp
  rw [← this]; omega

theorem RowOk.pixels {k : Cfg} {inp : List Nat} (h : RowOk k inp) {p : V} (hp : p ∈ pixelsOf k inp) (i : Fin 3) : p i ≤ k.max := by
  rw [pixelsOf_eq, List.mem_map] at hp
  obtain ⟨x, hx, rfl⟩ := hp
  exact (h.pixelAt (List.mem_range.mp hx) rfl).2 i

theorem allPixels_ok {k : Cfg} {rows : List (List Nat)} (h : ∀ inp ∈ rows, RowOk k inp) {p : V} (hp : p ∈ allPixels k rows)
    (i : Fin 3) : p i ≤ k.max := by
  unfold allPixels at hp
  rw [List.mem_flatMap] at hp
  obtain ⟨r, h1, h2⟩ := hp
  exact (h r h1).pixels h2 i

/-- The cells used are those of the pixels. -/
theorem mem_used_hist {k : Cfg} (hk : k.Bits) {ps : List V} (h : ∀ p ∈ ps, ∀ i, p i ≤ k.max) {c : V} :
    c ∈ used (histOf k ps) ↔ ∃ p ∈ ps, cellOf k p = c := by
  rw [mem_used, hist_pos]
  constructor
  · exact fun h => h.2
  · rintro ⟨p, h1, rfl⟩
    exact ⟨cell_ok hk (h p h1), p, h1, rfl⟩

theorem used_card {k : Cfg} (hk : k.Bits) {ps : List V} (h : ∀ p ∈ ps, ∀ i, p i ≤ k.max) :
    used (histOf k ps) = (ps.map (cellOf k)).toFinset := by
  ext c
  rw [mem_used_hist hk h, List.mem_toFinset, List.mem_map]

theorem total_le_length (k : Cfg) (ps : List V) : total (histOf k ps) ≤ ps.length := by
  unfold total
  have h1 : ∑ c ∈ Finset.Icc (fun _ => 0) (fun i => dims i - 1), histOf k ps c ≤
      ∑ c ∈ Finset.Icc (fun _ => 0) (fun i => dims i - 1), ps.countP fun p => cellOf k p = c :=
    Finset.sum_le_sum fun c _ => Nat.min_le_right _ _
  refine le_trans h1 ?_
  have : ∀ (S : Finset V), ∑ c ∈ S, ps.countP (fun p => cellOf k p = c) ≤ ps.length := by
    intro S
    induction ps with
    | nil => simp
    | cons p ps ih =>
      simp only [List.countP_cons, Finset.sum_add_distrib, List.length_cons]
      have : ∑ c ∈ S, (if decide (cellOf k p = c) = true then 1 else 0) ≤ 1 := by
        simp only [decide_eq_true_eq]
        rw [Finset.sum_ite_eq]
        split <;> omega
      have h2 := ih (by
        refine Finset.sum_le_sum fun c _ => ?_
        exact Nat.min_le_right _ _)
      omega
  exact this _

theorem total_le_const (k : Cfg) (ps : List V) : total (histOf k ps) ≤ 65536 * 65535 := by
  have h1 : total (histOf k ps) ≤ (Finset.Icc (fun _ => 0 : V) (fun i => dims i - 1)).card • 65535 :=
    Finset.sum_le_card_nsmul _ _ _ fun c _ => Nat.min_le_left _ _
  have h2 : (Finset.Icc (fun _ => 0 : V) (fun i => dims i - 1)).card = 65536 := by
    rw [Pi.card_Icc, Fin.prod_univ_three]
    simp only [Nat.card_Icc]
    decide +kernel
  rw [h2, smul_eq_mul] at h1
  exact h1

/-- A `long` that does not overflow while the means are computed: 64 bits always do, 32 bits do for small images. -/
def LongOk (k : Cfg) (pixels : Nat) : Prop := 65536 * 65535 * (k.max + 1) ≤ k.longMax ∨ pixels * (k.max + 1) ≤ k.longMax

theorem LongOk.total {k : Cfg} {ps : List V} (h : LongOk k ps.length) : total (histOf k ps) * (k.max + 1) ≤ k.longMax := by
  rcases h with h | h
  · exact le_trans (Nat.mul_le_mul_right _ (total_le_const k ps)) h
  · exact le_trans (Nat.mul_le_mul_right _ (total_le_length k ps)) h

/-- The palette of an image: the colours of its median cut. -/
structure PaletteOf (k : Cfg) (sc : V) (ps : List V) (bs : List Bx) (cm : List V) (n : Int) : Prop where
  cuts : Cuts k sc (histOf k ps) bs
  ended : k.desired ≤ bs.length ∨ ∀ b ∈ bs, b.lo = b.hi
  count : n = bs.length
  color : ∀ (i : Nat) (b : Bx), bs[i]? = some b → cm[i]? = some (b.mean k (histOf k ps))

theorem PaletteOf.length {k : Cfg} {sc : V} {ps : List V} {bs : List Bx} {cm : List V} {n : Int}
    (h : PaletteOf k sc ps bs cm n) (hk : k.Bits) (hd : 1 ≤ k.desired) (hp : ∀ p ∈ ps, ∀ i, p i ≤ k.max) :
    bs.length = min k.desired.toNat (ps.map (cellOf k)).toFinset.card := by
  rw [h.cuts.length hd h.ended, used_card hk hp]

theorem PaletteOf.palOk {k : Cfg} {sc : V} {ps : List V} {bs : List Bx} {cm : List V} {n : Int}
    (h : PaletteOf k sc ps bs cm n) (hk : k.Bits) (hd : 1 ≤ k.desired) (hm : k.desired ≤ k.max + 1) :
    PalOk k cm n.toNat := by
  obtain ⟨t, _, _, l1, l2⟩ := h.cuts.facts
  have hn : n.toNat = bs.length := by rw [h.count]; rfl
  rw [hn]
  refine ⟨l1, by omega, ?_, fun i q hi hq j => ?_⟩
  · obtain ⟨b, hb⟩ : ∃ b, bs[bs.length - 1]? = some b := ⟨bs[bs.length - 1], List.getElem?_eq_getElem (by omega)⟩
    have := h.color _ b hb
    have := (List.getElem?_eq_some_iff.mp this).1
    omega
  · have hb : bs[i]? = some bs[i] := List.getElem?_eq_getElem hi
    have := h.color _ _ hb
    rw [this] at hq
    injection hq with hq
    subst hq
    have ht := t bs[i] (List.getElem_mem hi)
    exact mean_le hk ht.inside ht.weight_pos j

/-! ## Output passes -/

/-- What a row of an output pass has to be: nearest colours, or diffused rows with errors `e` (the row above: `prev`). -/
def RowShows (k : Cfg) (sc : V) (cm : List V) (n : Nat) (plain : Bool) (r : Nat) (inp : List Nat) (prev e : Int → E)
    (want : Nat → V) (out : List Nat) : Prop :=
  if plain then ∀ x, x < k.width → want x = pix inp x ∧ IsNearest sc cm n (centre k (cellOf k (pix inp x))) (out.getD x 0)
  else RowDiffused k sc cm n (dirOf (decide (r % 2 = 1))) (pix inp) prev e want (fun x => out.getD x 0)

/-- The object during an output pass, before row `r` of it. -/
structure InPass (k : Cfg) (sc : V) (cm : List V) (n : Nat) (plain : Bool) (r : Nat) (prev : Int → E) (q : Q) : Prop where
  map : q.colormap = some cm
  actual : q.actual.toNat = n
  cache : CacheOk k sc cm n q.hist
  fn : q.fn = some (if plain then .plain else .fs)
  fs : plain = false → q.limiter = some (limiter k) ∧ q.onOdd = decide (r % 2 = 1) ∧ Small k prev ∧
    ∃ err, q.fserrors = some err ∧ Holds k (dirOf q.onOdd) prev err

/-- The parts of the object that rows of an output pass never change. -/
def Same (q q' : Q) : Prop :=
  q'.needsZeroed = q.needsZeroed ∧ q'.sv = q.sv ∧ q'.limiter = q.limiter ∧ q'.fn = q.fn ∧ q'.colormap = q.colormap ∧
    q'.actual = q.actual

theorem rowStep_spec {k : Cfg} (hk : k.Bits) {sc : V} (hsc : scales k = some sc) {cm : List V} {n : Nat} (hpal : PalOk k cm n)
    {plain : Bool} {r : Nat} {prev : Int → E} {q : Q} (hp : InPass k sc cm n plain r prev q) {inp : List Nat} (hr : RowOk k inp) :
    ∃ q' out e want, rowStep k q inp = some (q', out) ∧ InPass k sc cm n plain (r + 1) e q' ∧ Same q q' ∧
      out.length = k.width ∧ RowShows k sc cm n plain r inp prev e want out := by
  unfold rowStep
  rw [hp.fn]
  cases plain with
  | true =>
    obtain ⟨h', out, g1, g2, g3, g4⟩ := rowPlain_spec hk hsc hpal hp.cache hr
    refine ⟨{ q with hist := h' }, out, fun _ _ => 0, pix inp, ?_, ⟨hp.map, hp.actual, g2, hp.fn, by simp⟩,
      ⟨rfl, rfl, rfl, rfl, rfl, rfl⟩, g3, ?_⟩
    · simp only [if_true, Option.bind_eq_bind, Option.bind_some]
      rw [hp.map, hp.actual]
      simp only [Option.bind_some]
      rw [g1, hp.fn]; rfl
    · unfold RowShows
      rw [if_pos rfl]
      intro x hx
      obtain ⟨i, i1, i2⟩ := g4 x hx
      refine ⟨rfl, ?_⟩
      rw [List.getD_eq_getElem?_getD, i1]
      exact i2
  | false =>
    obtain ⟨f1, f2, f3, err, f4, f5⟩ := hp.fs rfl
    obtain ⟨h', err', out, e, want, g1, g2, g3, g4, g5, g6⟩ := rowFs_spec hk hsc hpal hp.cache hr f3 f5
    refine ⟨{ q with hist := h', fserrors := some err', onOdd := !q.onOdd }, out, e, want, ?_,
      ⟨hp.map, hp.actual, g2, hp.fn, fun _ => ⟨f1, ?_, g3, err', rfl, g4⟩⟩, ⟨rfl, rfl, rfl, rfl, rfl, rfl⟩, g5, ?_⟩
    · simp only [Bool.false_eq_true, if_false, Option.bind_eq_bind, Option.bind_some]
      rw [hp.map, hp.actual, f1, f4]
      simp only [Option.bind_some]
      rw [g1, hp.fn]; rfl
    · dsimp only
      rw [f2]
      rcases Nat.mod_two_eq_zero_or_one r with hm | hm
      · have : (r + 1) % 2 = 1 := by omega
        simp [hm, this]
      · have : (r + 1) % 2 = 0 := by omega
        simp [hm, this]
    · unfold RowShows
      rw [if_neg (by simp), ← f2]
      exact g6

/-- The errors of the row above row `r`. -/
def above (prev : Int → E) (e : Nat → Int → E) (r : Nat) : Int → E :=
  match r with
  | 0 => prev
  | r + 1 => e r

theorem quantize_spec {k : Cfg} (hk : k.Bits) {sc : V} (hsc : scales k = some sc) {cm : List V} {n : Nat} (hpal : PalOk k cm n)
    {plain : Bool} : ∀ (rows : List (List Nat)) {q : Q} {r : Nat} {prev : Int → E},
    InPass k sc cm n plain r prev q → (∀ inp ∈ rows, RowOk k inp) →
    ∃ q' outs, ∃ (e : Nat → Int → E) (want : Nat → Nat → V),
      quantize k q rows = some (q', outs) ∧ Same q q' ∧ CacheOk k sc cm n q'.hist ∧
      ∀ t, (ht : t < rows.length) → ∃ out, outs[t]? = some out ∧ out.length = k.width ∧
        RowShows k sc cm n plain (r + t) rows[t] (above prev e t) (e t) (want t) out := by
  intro rows
  induction rows with
  | nil =>
    intro q r prev hp _
    exact ⟨q, [], fun _ _ _ => 0, fun _ _ _ => 0, rfl, ⟨rfl, rfl, rfl, rfl, rfl, rfl⟩, hp.cache, fun t ht => by simp at ht⟩
  | cons row rows ih =>
    intro q r prev hp hr
    obtain ⟨q1, out, e0, w0, a1, a2, a3, a4, a5⟩ := rowStep_spec hk hsc hpal hp (hr row (by simp))
    obtain ⟨q', outs, e, want, b1, b2, b3, b4⟩ := ih a2 (fun inp hi => hr inp (by simp [hi]))
    refine ⟨q', out :: outs, fun t => match t with | 0 => e0 | t + 1 => e t,
      fun t => match t with | 0 => w0 | t + 1 => want t, ?_, ?_, b3, ?_⟩
    · simp only [quantize, a1, Option.bind_eq_bind, Option.bind_some, b1]; rfl
    · obtain ⟨c1, c2, c3, c4, c5, c6⟩ := a3
      obtain ⟨d1, d2, d3, d4, d5, d6⟩ := b2
      exact ⟨d1.trans c1, d2.trans c2, d3.trans c3, d4.trans c4, d5.trans c5, d6.trans c6⟩
    · intro t ht
      cases t with
      | zero => exact ⟨out, rfl, a4, a5⟩
      | succ t =>
        obtain ⟨o, c1, c2, c3⟩ := b4 t (by simpa using ht)
        refine ⟨o, by simpa using c1, c2, ?_⟩
        have e1 : r + (t + 1) = r + 1 + t := by omega
        rw [e1]
        cases t with
        | zero => exact c3
        | succ t => exact c3

end Verif.Quant2
