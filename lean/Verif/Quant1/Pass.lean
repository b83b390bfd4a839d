import Verif.Quant1.Diffuse
/-
Whole output passes: rows in any split over the calls, dither modes changed between passes.
-/
namespace Verif.Quant1
open Verif.Color (castSample)

/-- The value rounded at each pixel of one row, in each dither mode. `prev` and `e` are the errors of the row above and of
this row, per component (used by Floyd-Steinberg only). -/
def RowWants (k : Cfg) (ns : List Nat) (d : Dither) (r : Nat) (inp : List Nat) (prev e : Nat → Int → Int)
    (want : Nat → Nat → Nat) : Prop :=
  match d with
  | .none => ∀ x i, x < k.width → i < k.nc → want x i = samp k inp x i
  | .ordered => ∀ x i, x < k.width → i < k.nc → want x i = ordWant k ns r inp x i
  | .fs => ∀ i, i < k.nc → RowDiffused k (ns.getD i 1) (dirOf (decide (r % 2 = 1))) (fun x => samp k inp x i)
      (prev i) (e i) (fun x => want x i)
  | .other => False

/-- The object during a pass, before row `r` of it. -/
def InPass (k : Cfg) (d : Dither) (r : Nat) (prev : Nat → Int → Int) (q : Q) : Prop :=
  match d with
  | .none => q.fn = some (if k.nc = 3 then .gen3 else .gen)
  | .ordered => q.fn = some (if k.nc = 3 then .ord3 else .ord) ∧ q.padded = true ∧ (∃ od, q.odither = some od) ∧
      q.rowIndex = r % 16
  | .fs => q.fn = some .fs ∧ q.onOdd = decide (r % 2 = 1) ∧
      ∃ errs, q.fserrors = some errs ∧ errs.length = k.nc ∧
        ∀ i, i < k.nc → Small k (prev i) ∧ ∃ er, errs[i]? = some er ∧ Holds k (dirOf q.onOdd) (prev i) er
  | .other => False

/-- The parts of the object that rows never change. -/
def SameTables (q q' : Q) : Prop :=
  q'.ncolors = q.ncolors ∧ q'.actual = q.actual ∧ q'.colormap = q.colormap ∧ q'.colorindex = q.colorindex ∧
  q'.padded = q.padded ∧ q'.odither = q.odither ∧ q'.fn = q.fn

theorem SameTables.refl (q : Q) : SameTables q q := ⟨rfl, rfl, rfl, rfl, rfl, rfl, rfl⟩

theorem SameTables.trans {a b c : Q} (h1 : SameTables a b) (h2 : SameTables b c) : SameTables a c := by
  obtain ⟨a1, a2, a3, a4, a5, a6, a7⟩ := h1
  obtain ⟨b1, b2, b3, b4, b5, b6, b7⟩ := h2
  exact ⟨b1.trans a1, b2.trans a2, b3.trans a3, b4.trans a4, b5.trans a5, b6.trans a6, b7.trans a7⟩

theorem SameTables.static {k : Cfg} {q q' : Q} (h : SameTables q q') (hs : Static k q) : Static k q' := by
  obtain ⟨a1, a2, a3, a4, a5, a6, _⟩ := h
  exact ⟨hs.c, hs.nc, by rw [a1]; exact hs.len, by rw [a1]; exact hs.two, by rw [a1, a2]; exact hs.prod,
    by rw [a2]; exact hs.fits, by rw [a1, a3]; exact hs.palette, by rw [a1, a4, a5]; exact hs.index,
    by rw [a1, a6]; exact hs.dith⟩

theorem rowStep_same {k : Cfg} {q q' : Q} {inp o : List Nat} (h : rowStep k q inp = some (q', o)) :
    SameTables q q' := by
  unfold rowStep at h
  cases hf : q.fn with
  | none => rw [hf] at h; simp at h
  | some f =>
    rw [hf] at h
    cases f <;> simp only [Option.bind_eq_bind, Option.bind_some, Option.bind_eq_some_iff, pure] at h
    · obtain ⟨_, _, h⟩ := h; injection h with h; injection h with h _; subst h; exact SameTables.refl q
    · obtain ⟨_, _, h⟩ := h; injection h with h; injection h with h _; subst h; exact SameTables.refl q
    · obtain ⟨_, _, h⟩ := h; injection h with h; injection h with h _; subst h
      exact ⟨rfl, rfl, rfl, rfl, rfl, rfl, hf ▸ rfl⟩
    · obtain ⟨_, _, h⟩ := h; injection h with h; injection h with h _; subst h
      exact ⟨rfl, rfl, rfl, rfl, rfl, rfl, hf ▸ rfl⟩
    · obtain ⟨_, _, h⟩ := h; injection h with h; injection h with h _; subst h
      exact ⟨rfl, rfl, rfl, rfl, rfl, rfl, hf ▸ rfl⟩

theorem quantize_same {k : Cfg} : ∀ (rows : List (List Nat)) {q q' : Q} {os : List (List Nat)},
    quantize k q rows = some (q', os) → SameTables q q' := by
  intro rows
  induction rows with
  | nil => intro q q' os h; simp only [quantize] at h; injection h with h; injection h with h _; subst h; exact .refl _
  | cons r rs ih =>
    intro q q' os h
    simp only [quantize, Option.bind_eq_bind, Option.bind_eq_some_iff] at h
    obtain ⟨⟨q1, o⟩, h1, ⟨q2, os'⟩, h2, h3⟩ := h
    injection h3 with h3; injection h3 with h3 _; subst h3
    exact (rowStep_same h1).trans (ih h2)

/-! ## One row -/

theorem rowFs_spec {k : Cfg} {q : Q} (h : Static k q) {inp : List Nat} (hr : RowOk k inp) {prev : Nat → Int → Int}
    {errs : List (List Int)} (hq : q.fserrors = some errs) (hl : errs.length = k.nc)
    (hh : ∀ i, i < k.nc → Small k (prev i) ∧ ∃ er, errs[i]? = some er ∧ Holds k (dirOf q.onOdd) (prev i) er) :
    ∃ errs' out, ∃ (e : Nat → Int → Int) (want : Nat → Nat → Nat), rowFs k q inp = some (errs', out) ∧ errs'.length = k.nc ∧
      (∀ i, i < k.nc → Small k (e i) ∧ ∃ er, errs'[i]? = some er ∧ Holds k (dirOf (!q.onOdd)) (e i) er) ∧
      (∀ i, i < k.nc → RowDiffused k (q.ncolors.getD i 1) (dirOf q.onOdd) (fun x => samp k inp x i) (prev i) (e i)
        (fun x => want x i)) ∧
      (∀ x i, x < k.width → i < k.nc → want x i ≤ k.max) ∧
      Coded k q.ncolors k.nc want out := by
  unfold rowFs
  rw [hq]
  simp only [Option.bind_eq_bind, Option.bind_some]
  obtain ⟨⟨errs', out⟩, e1, e2, e, want, e3, e4, e5⟩ := forN_inv (f := fun ci (s : List (List Int) × List Nat) =>
      (s.1[ci]?).bind fun er => (fsComp k q ci inp er s.2).bind fun r =>
        (pure (s.1.set ci r.1, r.2) : Option (List (List Int) × List Nat)))
    (fun ci (s : List (List Int) × List Nat) => s.1.length = k.nc ∧ ∃ (e : Nat → Int → Int) (want : Nat → Nat → Nat),
      (∀ i, i < ci → (Small k (e i) ∧ ∃ er, s.1[i]? = some er ∧ Holds k (dirOf (!q.onOdd)) (e i) er) ∧
        RowDiffused k (q.ncolors.getD i 1) (dirOf q.onOdd) (fun x => samp k inp x i) (prev i) (e i)
          (fun x => want x i) ∧ ∀ x, x < k.width → want x i ≤ k.max) ∧
      (∀ i, ci ≤ i → s.1[i]? = errs[i]?) ∧
      Coded k q.ncolors ci want s.2) k.nc (errs, List.replicate k.width 0)
    ⟨hl, fun _ _ => 0, fun _ _ => 0, fun i hi => by omega, fun _ _ => rfl, by simp, fun x hx => by simp [hx, codeOf]⟩ (by
      rintro ci ⟨es, o⟩ hci ⟨h1, e, want, h2, h3, h4, h5⟩
      dsimp only at h1 h2 h3 h4 h5 ⊢
      obtain ⟨hs, er, her, hho⟩ := hh ci hci
      -- what is in the output row so far leaves room for this component
      have hfit : ∀ x w, x < k.width → w ≤ k.max →
          codeOf q.ncolors (levels k q.ncolors (want x)) ci + pick k.max (q.ncolors.getD ci 1) w * blk q.ncolors ci ≤ k.max := by
        intro x w hx hw
        have hle := codeOf_lt (f := fun i => levels k q.ncolors (fun i => if i < ci then want x i else w) i) h.two
          (h.lt (fun i hi => by
            split
            · exact (h2 i (by assumption)).2.2 x hx
            · exact hw)) (t := ci + 1) (by rw [h.len]; omega)
        have hco : ∀ t, t ≤ ci → codeOf q.ncolors (fun i => levels k q.ncolors (fun i => if i < ci then want x i else w) i) t =
            codeOf q.ncolors (levels k q.ncolors (want x)) t := by
          intro t
          induction t with
          | zero => intro _; rfl
          | succ t ih =>
            intro ht
            simp only [codeOf]
            rw [ih (by omega)]
            simp only [levels, if_pos (show t < ci by omega)]
        simp only [codeOf] at hle
        rw [hco ci (le_refl _), h.prod] at hle
        simp only [levels, if_neg (Nat.lt_irrefl ci)] at hle
        have hf := h.fits
        have hmx : k.max + 1 = 2 * k.c := by unfold Cfg.max; rcases h.c with hc | hc <;> omega
        omega
      obtain ⟨er', o', e', w', f1, f2, f3, f4, f5, f6, f7⟩ := fsComp_spec h hci hr hs hho h4 h5 hfit
      refine ⟨(es.set ci er', o'), ?_, by simp [h1], fun i => if i = ci then e' else e i,
        fun x i => if i = ci then w' x else want x i, ?_, ?_, f6, ?_⟩
      · rw [h3 ci (le_refl _), her]
        simp only [Option.bind_some]
        rw [f1]; rfl
      · intro i hi
        have hlt : ci < es.length := by omega
        dsimp only
        by_cases he : i = ci
        · subst he
          simp only [if_true]
          exact ⟨⟨f2, er', by rw [get_set hlt, if_pos rfl], f5⟩, f3, f4⟩
        · simp only [if_neg he]
          obtain ⟨⟨a1, er2, a2, a3⟩, a4, a5⟩ := h2 i (by omega)
          exact ⟨⟨a1, er2, by rw [get_set hlt, if_neg he]; exact a2, a3⟩, a4, a5⟩
      · intro i hi
        dsimp only
        rw [get_set (by omega), if_neg (by omega)]
        exact h3 i (by omega)
      · intro x hx
        dsimp only
        rw [f7 x hx]
        simp only [codeOf]
        have hco : ∀ t, t ≤ ci → codeOf q.ncolors (levels k q.ncolors (fun i => if i = ci then w' x else want x i)) t =
            codeOf q.ncolors (levels k q.ncolors (want x)) t := by
          intro t
          induction t with
          | zero => intro _; rfl
          | succ t ih =>
            intro ht
            simp only [codeOf]
            rw [ih (by omega)]
            simp only [levels, if_neg (show ¬ t = ci by omega)]
        rw [hco ci (le_refl _)]
        simp [levels])
  refine ⟨errs', out, e, want, e1, e2, fun i hi => (e3 i hi).1, fun i hi => (e3 i hi).2.1,
    fun x i hx hi => (e3 i hi).2.2 x hx, e5⟩

theorem ordWant_mod (k : Cfg) (ns : List Nat) (r : Nat) (inp : List Nat) (x i : Nat) :
    ordWant k ns (r % 16) inp x i = ordWant k ns r inp x i := by
  unfold ordWant offset; simp

theorem rowStep_spec {k : Cfg} {q : Q} (h : Static k q) {d : Dither} {r : Nat} {prev : Nat → Int → Int}
    (hp : InPass k d r prev q) {inp : List Nat} (hr : RowOk k inp) :
    ∃ q' out, ∃ (e : Nat → Int → Int) (want : Nat → Nat → Nat), rowStep k q inp = some (q', out) ∧ InPass k d (r + 1) e q' ∧
      RowWants k q.ncolors d r inp prev e want ∧ (∀ x i, x < k.width → i < k.nc → want x i ≤ k.max) ∧
      Coded k q.ncolors k.nc want out := by
  unfold rowStep
  cases d with
  | none =>
    simp only [InPass] at hp ⊢
    by_cases h3 : k.nc = 3
    · obtain ⟨out, o1, o2⟩ := rowGen3_spec h h3 hr
      rw [if_pos h3] at hp
      refine ⟨q, out, fun _ _ => 0, samp k inp, ?_, ?_, fun _ _ _ _ => rfl, fun x i hx hi => (hr.get hx hi).2, o2⟩
      · rw [hp]; simp only [Option.bind_eq_bind, Option.bind_some]; rw [o1]; rfl
      · rw [hp, if_pos h3]
    · obtain ⟨out, o1, o2⟩ := rowGen_spec h hr
      rw [if_neg h3] at hp
      refine ⟨q, out, fun _ _ => 0, samp k inp, ?_, ?_, fun _ _ _ _ => rfl, fun x i hx hi => (hr.get hx hi).2, o2⟩
      · rw [hp]; simp only [Option.bind_eq_bind, Option.bind_some]; rw [o1]; rfl
      · rw [hp, if_neg h3]
  | ordered =>
    simp only [InPass] at hp ⊢
    obtain ⟨hf, hpad, ⟨od, ho⟩, hri⟩ := hp
    have hlt : q.rowIndex < 16 := by rw [hri]; exact Nat.mod_lt _ (by omega)
    by_cases h3 : k.nc = 3
    · obtain ⟨out, o1, o2⟩ := rowOrd3_spec h h3 hpad ho hlt hr
      rw [if_pos h3] at hf
      refine ⟨{ q with rowIndex := (q.rowIndex + 1) % 16 }, out, fun _ _ => 0, ordWant k q.ncolors q.rowIndex inp, ?_, ?_,
        fun x i _ _ => by rw [hri]; exact ordWant_mod _ _ _ _ _ _, fun x i _ _ => ordWant_le _ _ _ _ _ _, o2⟩
      · rw [hf]; simp only [Option.bind_eq_bind, Option.bind_some]; rw [o1]; rfl
      · exact ⟨by rw [if_pos h3]; exact hf, hpad, ⟨od, ho⟩, by dsimp only; omega⟩
    · obtain ⟨out, o1, o2⟩ := rowOrd_spec h hpad ho hlt hr
      rw [if_neg h3] at hf
      refine ⟨{ q with rowIndex := (q.rowIndex + 1) % 16 }, out, fun _ _ => 0, ordWant k q.ncolors q.rowIndex inp, ?_, ?_,
        fun x i _ _ => by rw [hri]; exact ordWant_mod _ _ _ _ _ _, fun x i _ _ => ordWant_le _ _ _ _ _ _, o2⟩
      · rw [hf]; simp only [Option.bind_eq_bind, Option.bind_some]; rw [o1]; rfl
      · exact ⟨by rw [if_neg h3]; exact hf, hpad, ⟨od, ho⟩, by dsimp only; omega⟩
  | fs =>
    simp only [InPass] at hp ⊢
    obtain ⟨hf, hodd, errs, he, hl, hh⟩ := hp
    obtain ⟨errs', out, e, want, o1, o2, o3, o4, o5, o6⟩ := rowFs_spec h hr he hl hh
    refine ⟨{ q with fserrors := some errs', onOdd := !q.onOdd }, out, e, want, ?_, ?_, ?_, o5, o6⟩
    · rw [hf]; simp only [Option.bind_eq_bind, Option.bind_some]; rw [o1]; rfl
    · refine ⟨hf, ?_, errs', rfl, o2, o3⟩
      dsimp only
      rw [hodd]
      rcases Nat.mod_two_eq_zero_or_one r with hm | hm
      · have : (r + 1) % 2 = 1 := by omega
        simp [hm, this]
      · have : (r + 1) % 2 = 0 := by omega
        simp [hm, this]
    · intro i hi; rw [← hodd]; exact o4 i hi
  | other => exact hp.elim

/-! ## Rows in several calls -/

/-- Calls of `_color_quantize`, each with some rows. -/
def calls (k : Cfg) : Q → List (List (List Nat)) → Option (Q × List (List (List Nat)))
  | q, [] => some (q, [])
  | q, b :: bs => do
    let (q, o) ← quantize k q b
    let (q, os) ← calls k q bs
    pure (q, o :: os)

theorem quantize_append {k : Cfg} : ∀ (a b : List (List Nat)) (q : Q), quantize k q (a ++ b) =
    (quantize k q a).bind fun r => (quantize k r.1 b).map fun s => (s.1, r.2 ++ s.2) := by
  intro a
  induction a with
  | nil => intro b q; simp [quantize]
  | cons r rs ih =>
    intro b q
    simp only [List.cons_append, quantize, Option.bind_eq_bind]
    cases hs : rowStep k q r with
    | none => rfl
    | some p =>
      obtain ⟨q1, o⟩ := p
      simp only [Option.bind_some, ih]
      cases h1 : quantize k q1 rs with
      | none => rfl
      | some p2 =>
        obtain ⟨q2, os⟩ := p2
        simp only [Option.bind_some, pure]
        cases quantize k q2 b <;> rfl

/-- How the rows are split over the calls does not matter. -/
theorem calls_eq {k : Cfg} : ∀ (bs : List (List (List Nat))) (q : Q), ∀ q' os, quantize k q bs.flatten = some (q', os) →
    ∃ oss, calls k q bs = some (q', oss) ∧ oss.flatten = os ∧ oss.map List.length = bs.map List.length := by
  intro bs
  induction bs with
  | nil => intro q q' os h; simp only [List.flatten_nil, quantize] at h; injection h with h; injection h with h1 h2; subst h1; subst h2; exact ⟨[], rfl, rfl, rfl⟩
  | cons b bs ih =>
    intro q q' os h
    rw [List.flatten_cons, quantize_append, Option.bind_eq_some_iff] at h
    obtain ⟨⟨q1, o1⟩, h1, h2⟩ := h
    rw [Option.map_eq_some_iff] at h2
    obtain ⟨⟨q2, o2⟩, h2, h3⟩ := h2
    injection h3 with h3 h4
    dsimp only at h3 h4
    subst h3
    obtain ⟨oss, i1, i2, i3⟩ := ih q1 q2 o2 h2
    refine ⟨o1 :: oss, ?_, by rw [List.flatten_cons, i2]; exact h4, ?_⟩
    · simp only [calls, h1, Option.bind_eq_bind, Option.bind_some, i1]; rfl
    · have : ∀ (rs : List (List Nat)) (q q' : Q) (os : List (List Nat)), quantize k q rs = some (q', os) →
          os.length = rs.length := by
        intro rs
        induction rs with
        | nil => intro q q' os h; simp only [quantize] at h; injection h with h; injection h with _ h; subst h; rfl
        | cons r rs ih2 =>
          intro q q' os h
          simp only [quantize, Option.bind_eq_bind, Option.bind_eq_some_iff] at h
          obtain ⟨⟨_, _⟩, _, ⟨_, _⟩, h2, h3⟩ := h
          injection h3 with h3; injection h3 with _ h3; subst h3
          simp [ih2 _ _ _ h2]
      simp [this _ _ _ _ h1, i3]

/-- The errors of the row above row `r`. -/
def above (prev : Nat → Int → Int) (e : Nat → Nat → Int → Int) (r : Nat) : Nat → Int → Int :=
  match r with
  | 0 => prev
  | r + 1 => e r

theorem quantize_spec {k : Cfg} {d : Dither} : ∀ (rows : List (List Nat)) {q : Q} {r : Nat} {prev : Nat → Int → Int},
    Static k q → InPass k d r prev q → (∀ inp ∈ rows, RowOk k inp) →
    ∃ q' outs, ∃ (e : Nat → Nat → Int → Int) (want : Nat → Nat → Nat → Nat),
      quantize k q rows = some (q', outs) ∧ outs.length = rows.length ∧
      ∀ t, (ht : t < rows.length) → RowWants k q.ncolors d (r + t) rows[t] (above prev e t) (e t) (want t) ∧
        (∀ x i, x < k.width → i < k.nc → want t x i ≤ k.max) ∧
        ∃ out, outs[t]? = some out ∧ Coded k q.ncolors k.nc (want t) out := by
  intro rows
  induction rows with
  | nil =>
    intro q r prev _ _ _
    exact ⟨q, [], fun _ _ _ => 0, fun _ _ _ => 0, rfl, rfl, fun t ht => by simp at ht⟩
  | cons row rows ih =>
    intro q r prev hs hp hr
    obtain ⟨q1, out, e0, w0, a1, a2, a3, a4, a5⟩ := rowStep_spec hs hp (hr row (by simp))
    have hsame := rowStep_same a1
    obtain ⟨q', outs, e, want, b1, b2, b3⟩ := ih (hsame.static hs) a2 (fun inp hi => hr inp (by simp [hi]))
    refine ⟨q', out :: outs, fun t => match t with | 0 => e0 | t + 1 => e t,
      fun t => match t with | 0 => w0 | t + 1 => want t, ?_, by simp [b2], ?_⟩
    · simp only [quantize, a1, Option.bind_eq_bind, Option.bind_some, b1]; rfl
    · intro t ht
      cases t with
      | zero => exact ⟨a3, a4, out, rfl, a5⟩
      | succ t =>
        obtain ⟨c1, c2, o, c3, c4⟩ := b3 t (by simpa using ht)
        rw [hsame.1] at c1 c4
        refine ⟨?_, c2, o, by simpa using c3, c4⟩
        have e1 : r + (t + 1) = r + 1 + t := by omega
        rw [e1]
        cases t with
        | zero => exact c1
        | succ t => exact c1

end Verif.Quant1
