import Verif.Quant2.Cache
import Verif.Quant1.Diffuse
/-
Floyd-Steinberg dithering with error limiting: the single error array and the running variables compute the textbook
two-dimensional diffusion.
-/
namespace Verif.Quant2
open Verif.Color (castSample)
open Verif.Quant1 (forN rd wr rd_nat wr_nat get_set forN_inv castSample_of_lt castErr castErr_of carried dirOf)

/-! ## The error limiter -/

/-- Errors up to `S` are passed on in full, of what is above only half, and never more than `2 * S`. -/
def limitErr (S : Nat) (t : Int) : Int :=
  let a := t.natAbs
  let m := if a < S then a else if a < 3 * S then (S + a) / 2 else 2 * S
  if t < 0 then -(m : Int) else m

theorem limitOut_eq {S : Nat} (hS : S % 2 = 0) : ∀ n, limitOut S n =
    if n < S then n else if n < 3 * S then (S + n) / 2 else 2 * S
  | 0 => by
    unfold limitOut
    split
    · rfl
    · split <;> omega
  | n + 1 => by
    rw [limitOut, limitOut_eq hS n]
    by_cases h1 : n < S
    · rw [if_pos h1, if_pos h1]
      by_cases h2 : n + 1 < S
      · rw [if_pos h2]
      · rw [if_neg h2]; split <;> omega
    · rw [if_neg h1, if_neg h1, if_neg (show ¬ n + 1 < S by omega)]
      by_cases h2 : n < S * 3
      · rw [if_pos h2, if_pos (show n < 3 * S by omega)]
        by_cases h3 : n + 1 < 3 * S
        · rw [if_pos h3]; split <;> omega
        · rw [if_neg h3]; split <;> omega
      · rw [if_neg h2, if_neg (show ¬ n < 3 * S by omega), if_neg (show ¬ n + 1 < 3 * S by omega)]

theorem limiter_get {k : Cfg} (hk : k.Bits) {t : Int} (h1 : -(k.max : Int) ≤ t) (h2 : t ≤ k.max) :
    (limiter k).get? t = some (limitErr ((k.max + 1) / 16) t) := by
  have hS : ((k.max + 1) / 16) % 2 = 0 := by rw [max_eq hk]; rcases hk with h | h <;> rw [h]
  unfold PTab.get? limiter
  dsimp only
  rw [if_neg (by omega), List.getElem?_map, List.getElem?_range (by omega)]
  simp only [Option.map_some]
  congr 1
  rw [limitOut_eq hS, limitOut_eq hS]
  unfold limitErr
  dsimp only
  by_cases h : t < 0
  · rw [if_pos h, if_pos (by omega), show k.max - (t + (k.max : Int)).toNat = t.natAbs by omega]
  · rw [if_neg h, if_neg (by omega), show (t + (k.max : Int)).toNat - k.max = t.natAbs by omega]

theorem limitErr_le {S : Nat} (t : Int) : -(2 * S : Int) ≤ limitErr S t ∧ limitErr S t ≤ 2 * S := by
  unfold limitErr
  dsimp only
  split <;> split <;> (try split) <;> omega

/-! ## Specification -/

/-- A row diffused: the colour looked for is the pixel plus the carried error (rounded to an integer and limited),
limited to the sample range; it is shown as the colour nearest to the centre of its cell; the error left is what is
missing; nothing comes from outside the image. -/
structure RowDiffused (k : Cfg) (sc : V) (cm : List V) (n : Nat) (d : Int) (v : Nat → V) (prev e : Int → E) (want : Nat → V)
    (out : Nat → Nat) : Prop where
  outside : ∀ x : Int, x < 0 ∨ (k.width : Int) ≤ x → e x = fun _ => 0
  want_eq : ∀ x, x < k.width → ∀ i, want x i =
    clampTo k.max ((v x i : Int) + limitErr ((k.max + 1) / 16) ((carried d (fun x => prev x i) (fun x => e x i) x + 8) / 16))
  shown : ∀ x, x < k.width → IsNearest sc cm n (centre k (cellOf k (want x))) (out x)
  left : ∀ x, x < k.width → ∃ q, cm[out x]? = some q ∧ ∀ i, e x i = (want x i : Int) - q i

/-! ## The column loop, in processing order -/

theorem IsNearest.unique {sc : V} {cm : List V} {n : Nat} {p : V} {i j : Nat} (hi : IsNearest sc cm n p i)
    (hj : IsNearest sc cm n p j) : i = j := by
  obtain ⟨q, a1, a2, a3⟩ := hi
  obtain ⟨r, b1, b2, b3⟩ := hj
  rcases Nat.lt_trichotomy i j with h | h | h
  · have := (b3 i q a1 a2).2 h
    have := (a3 j r b1 b2).1
    omega
  · exact h
  · have := (a3 j r b1 b2).2 h
    have := (b3 i q a1 a2).1
    omega

open Classical in
/-- The index of the colour shown. -/
noncomputable def near (k : Cfg) (sc : V) (cm : List V) (n : Nat) (w : V) : Nat :=
  if h : ∃ i, IsNearest sc cm n (centre k (cellOf k w)) i then h.choose else 0

theorem near_eq {k : Cfg} {sc : V} {cm : List V} {n : Nat} {w : V} {i : Nat}
    (h : IsNearest sc cm n (centre k (cellOf k w)) i) : near k sc cm n w = i := by
  have hex : ∃ i, IsNearest sc cm n (centre k (cellOf k w)) i := ⟨i, h⟩
  unfold near
  rw [dif_pos hex]
  exact hex.choose_spec.unique h

theorem near_spec {k : Cfg} {sc : V} {cm : List V} {n : Nat} (hp : PalOk k cm n) (w : V) :
    IsNearest sc cm n (centre k (cellOf k w)) (near k sc cm n w) := by
  obtain ⟨i, hi⟩ := exists_firstMin hp.pos fun j => dist sc (ent cm j) (centre k (cellOf k w))
  have := hi.nearest hp
  rw [near_eq this]; exact this

/-- The colour looked for, given the previous pixel's error. -/
def wantAt (k : Cfg) (v : Nat → V) (a : Nat → E) (t : Nat) (p : E) : V := fun i =>
  clampTo k.max ((v t i : Int) + limitErr ((k.max + 1) / 16) ((7 * p i + a t i + 8) / 16))

/-- The error left by a colour. -/
noncomputable def errOf (k : Cfg) (sc : V) (cm : List V) (n : Nat) (w : V) : E := fun i =>
  (w i : Int) - ent cm (near k sc cm n w) i

/-- The error left at the `t`-th pixel, shifted by two: `G 0 = G 1 = 0`. -/
noncomputable def gSeq (k : Cfg) (sc : V) (cm : List V) (n : Nat) (v : Nat → V) (a : Nat → E) : Nat → E
  | 0 => fun _ => 0
  | 1 => fun _ => 0
  | t + 2 => errOf k sc cm n (wantAt k v a t (gSeq k sc cm n v a (t + 1)))

/-- The colour looked for at the `t`-th pixel. -/
noncomputable def wSeq (k : Cfg) (sc : V) (cm : List V) (n : Nat) (v : Nat → V) (a : Nat → E) (t : Nat) : V :=
  wantAt k v a t (gSeq k sc cm n v a (t + 1))

theorem wantAt_le (k : Cfg) (v : Nat → V) (a : Nat → E) (t : Nat) (p : E) (i : Fin 3) : wantAt k v a t p i ≤ k.max :=
  clampTo_le _ _

theorem gSeq_bound {k : Cfg} {sc : V} {cm : List V} {n : Nat} (hp : PalOk k cm n) (v : Nat → V) (a : Nat → E) (t : Nat)
    (i : Fin 3) : -(k.max : Int) ≤ gSeq k sc cm n v a t i ∧ gSeq k sc cm n v a t i ≤ k.max := by
  match t with
  | 0 => simp only [gSeq]; omega
  | 1 => simp only [gSeq]; omega
  | t + 2 =>
    rw [gSeq]
    unfold errOf
    have h1 := wantAt_le k v a t (gSeq k sc cm n v a (t + 1)) i
    have h2 := ent_le hp (near_spec (sc := sc) hp (wantAt k v a t (gSeq k sc cm n v a (t + 1)))).lt i
    omega

/-- Where the loop runs: columns and array positions in processing order. -/
structure Path (w : Nat) (dir : Int) (col pos : Nat → Nat) : Prop where
  col_lt : ∀ t, t < w → col t < w
  col_next : ∀ t, t + 1 < w → (col t : Int) + dir = col (t + 1)
  col_inj : ∀ s t, s < w → t < w → col s = col t → s = t
  pos_lt : ∀ t, t ≤ w + 1 → pos t < w + 2
  pos_next : ∀ t, t ≤ w → (pos t : Int) + dir = pos (t + 1)
  pos_inj : ∀ s t, s ≤ w + 1 → t ≤ w + 1 → pos s = pos t → s = t

theorem fsLoop {k : Cfg} (hk : k.Bits) {sc : V} (hsc : scales k = some sc) {cm : List V} {n : Nat} (hpal : PalOk k cm n)
    {h : Hist} (hh : CacheOk k sc cm n h) {inp : List Nat} (hr : RowOk k inp)
    {dir : Int} {col pos : Nat → Nat} (hp : Path k.width dir col pos)
    {err : List E} (hel : err.length = k.width + 2) {a : Nat → E}
    (hea : ∀ s, s < k.width → err[pos (s + 1)]? = some (a s))
    (hab : ∀ s, s < k.width → ∀ i, -(9 * k.max : Int) ≤ a s i ∧ a s i ≤ 9 * k.max)
    {out : List Nat} (hol : out.length = k.width)
    {s0 : FsSt} (hs0 : s0.cur = (fun _ => 0) ∧ s0.below = (fun _ => 0) ∧ s0.bprev = (fun _ => 0) ∧
      (0 < k.width → s0.ip = ((3 * col 0 : Nat) : Int) ∧ s0.op = col 0) ∧ s0.ep = pos 0 ∧
      s0.err = err ∧ s0.out = out ∧ s0.hist = h) :
    ∃ s, forN (fun _ s => fsPixel k cm n (limiter k) dir inp s) k.width s0 = some s ∧
      let v := fun t => pix inp (col t)
      let G := gSeq k sc cm n v a
      (∀ i, s.bprev i = G k.width i + 5 * G (k.width + 1) i) ∧ s.ep = pos k.width ∧ s.err.length = k.width + 2 ∧
      (∀ j, j < k.width → s.err[pos j]? = some fun i => G j i + 5 * G (j + 1) i + 3 * G (j + 2) i) ∧
      s.out.length = k.width ∧
      (∀ j, j < k.width → s.out[col j]? = some (near k sc cm n (wSeq k sc cm n v a j))) ∧ CacheOk k sc cm n s.hist := by
  obtain ⟨v, hv⟩ : ∃ v : Nat → V, v = fun t => pix inp (col t) := ⟨_, rfl⟩
  obtain ⟨G, hG⟩ : ∃ G, G = gSeq k sc cm n v a := ⟨_, rfl⟩
  dsimp only
  rw [← hv, ← hG]
  have hmx : (k.max : Int) + 1 = 2 * k.c := by have := max_eq hk; omega
  have hGb : ∀ t i, -(k.max : Int) ≤ G t i ∧ G t i ≤ k.max := by
    intro t i; rw [hG]; exact gSeq_bound hpal v a t i
  have hG0 : ∀ i, G 0 i = 0 := by intro i; rw [hG]; rfl
  have hG1 : ∀ i, G 1 i = 0 := by intro i; rw [hG]; rfl
  obtain ⟨y, e1, e2, e3, e4, e5, e6, e7, e8, e9, e10, e11, e12⟩ := forN_inv
    (f := fun _ s => fsPixel k cm n (limiter k) dir inp s)
    (fun t (s : FsSt) => (s.cur = fun i => 7 * G (t + 1) i) ∧ s.below = G (t + 1) ∧
      (s.bprev = fun i => G t i + 5 * G (t + 1) i) ∧
      (t < k.width → s.ip = ((3 * col t : Nat) : Int) ∧ s.op = col t) ∧ s.ep = pos t ∧
      s.err.length = k.width + 2 ∧
      (∀ j, j < t → s.err[pos j]? = some fun i => G j i + 5 * G (j + 1) i + 3 * G (j + 2) i) ∧
      (∀ j, t ≤ j → j < k.width → s.err[pos (j + 1)]? = some (a j)) ∧
      s.out.length = k.width ∧
      (∀ j, j < t → s.out[col j]? = some (near k sc cm n (wSeq k sc cm n v a j))) ∧
      CacheOk k sc cm n s.hist) k.width s0 (by
      obtain ⟨c1, c2, c3, c4, c5, c6, c7, c8⟩ := hs0
      refine ⟨by rw [c1]; funext i; rw [hG1]; rfl, by rw [c2]; funext i; rw [hG1],
        by rw [c3]; funext i; rw [hG0, hG1]; rfl, c4, c5, by rw [c6]; exact hel,
        fun j hj => by omega, fun j _ hj => by rw [c6]; exact hea j hj, by rw [c7]; exact hol,
        fun j hj => by omega, by rw [c8]; exact hh⟩) (by
      rintro t s ht ⟨c1, c2, c3, c4, c5, c6, c7, c8, c9, c10, c11⟩
      obtain ⟨c4a, c4b⟩ := c4 ht
      have hcol := hp.col_lt t ht
      obtain ⟨v1, v2⟩ := hr.pixelAt hcol c4a
      have hvt : v t = pix inp (col t) := by rw [hv]
      rw [← hvt] at v1 v2
      obtain ⟨w, hw⟩ : ∃ w, w = wSeq k sc cm n v a t := ⟨_, rfl⟩
      have hwle : ∀ i, w i ≤ k.max := by intro i; rw [hw]; exact clampTo_le _ _
      obtain ⟨h', ix, l1, l2, l3⟩ := lookup_spec hk hsc hpal c11 (cell_ok hk hwle)
      have hix := l3.lt
      have hnear := near_eq l3
      have hGt : ∀ i, G (t + 2) i = (w i : Int) - ent cm ix i := by
        intro i
        rw [hw, hG]
        show errOf k sc cm n (wSeq k sc cm n v a t) i = _
        unfold errOf
        rw [← hw, hnear]
      have hposi := hp.pos_lt t (by omega)
      have hop : col t < s.out.length := by omega
      have hep : pos t < s.err.length := by omega
      refine ⟨⟨fun i => 7 * G (t + 2) i, G (t + 2), fun i => G (t + 1) i + 5 * G (t + 2) i, s.ip + 3 * dir, s.op + dir,
        s.ep + dir, s.err.set (pos t) (fun i => G t i + 5 * G (t + 1) i + 3 * G (t + 2) i), s.out.set (col t) ix, h'⟩,
        ?_, rfl, rfl, rfl, ?_, ?_, ?_, ?_, ?_, ?_, ?_, l2⟩
      · unfold fsPixel
        rw [c5, hp.pos_next t (by omega), rd_nat, c8 t (le_refl _) ht]
        simp only [Option.bind_eq_bind, Option.bind_some]
        have hlim : seq3 (fun i => (limiter k).get? ((s.cur i + a t i + 8) / 16)) =
            some fun i => limitErr ((k.max + 1) / 16) ((7 * G (t + 1) i + a t i + 8) / 16) := by
          refine seq3_some fun i => ?_
          rw [c1]
          have g2 := hGb (t + 1) i
          have ga := hab t ht i
          exact limiter_get hk (by dsimp only; omega) (by dsimp only; omega)
        rw [hlim]
        simp only [Option.bind_some]
        rw [v1]
        simp only [Option.bind_some]
        have hrl : seq3 (fun i => (rangeLimitTable k.c).get?
            (limitErr ((k.max + 1) / 16) ((7 * G (t + 1) i + a t i + 8) / 16) + (v t i : Int))) = some w := by
          refine seq3_some fun i => ?_
          have hb := limitErr_le (S := (k.max + 1) / 16) ((7 * G (t + 1) i + a t i + 8) / 16)
          have := v2 i
          have hS : (((k.max + 1) / 16 : Nat) : Int) * 16 ≤ 2 * k.c := by rw [← hmx]; omega
          rw [rangeLimit_simple k.c _ (by omega) (by omega), hw]
          unfold wSeq wantAt
          rw [← hG, Int.add_comm]
          rfl
        rw [hrl]
        simp only [Option.bind_some]
        rw [cellOf_eq hk, l1]
        simp only [Option.bind_some]
        rw [c4b, castSample_of_lt hk (show ix ≤ 2 * k.c - 1 by have := hpal.le; omega), wr_nat hop]
        simp only [Option.bind_some]
        rw [rd_nat, ent_get hpal hix]
        simp only [Option.bind_some]
        have hce : (fun i => castErr k.c (s.bprev i + ((w i : Int) - ent cm ix i) * 3)) =
            fun i => G t i + 5 * G (t + 1) i + 3 * G (t + 2) i := by
          funext i
          have g1 := hGb t i
          have g2 := hGb (t + 1) i
          have g3 := hGb (t + 2) i
          rw [← hGt i, c3]
          dsimp only
          rw [castErr_of hk (by omega)]; ring
        rw [hce, wr_nat hep]
        simp only [Option.bind_some, ← hGt]
        rw [c2]
        have z1 : (fun i => G (t + 2) i * 7) = fun i => 7 * G (t + 2) i := by funext i; ring
        have z2 : (fun i => G (t + 1) i + G (t + 2) i * 5) = fun i => G (t + 1) i + 5 * G (t + 2) i := by funext i; ring
        have z3 : (fun i => G (t + 2) i) = G (t + 2) := rfl
        rw [z1, z2]
        rfl
      · intro hlt
        have hnx := hp.col_next t hlt
        dsimp only
        refine ⟨?_, ?_⟩
        · rw [c4a]; push_cast; rw [← hnx]; ring
        · rw [c4b]; exact hnx
      · dsimp only; rw [c5]; exact hp.pos_next t (by omega)
      · dsimp only; rw [List.length_set]; exact c6
      · intro j hj
        dsimp only
        rw [get_set hep]
        by_cases he : j = t
        · subst he; rw [if_pos rfl]
        · rw [if_neg (fun e => he (hp.pos_inj j t (by omega) (by omega) e))]; exact c7 j (by omega)
      · intro j h1 h2
        dsimp only
        rw [get_set hep, if_neg (fun e => by have := hp.pos_inj (j + 1) t (by omega) (by omega) e; omega)]
        exact c8 j (by omega) h2
      · dsimp only; rw [List.length_set]; exact c9
      · intro j hj
        dsimp only
        rw [get_set hop]
        by_cases he : j = t
        · subst he; rw [if_pos rfl, ← hw, hnear]
        · rw [if_neg (fun e => he (hp.col_inj j t (by omega) ht e))]; exact c10 j (by omega))
  exact ⟨y, e1, fun i => by rw [e4], e6, e7, e8, e10, e11, e12⟩

/-! ## One row, in column order -/

/-- What the error array holds before a row in direction `d`: for every column, what it gets from the row above. -/
def Holds (k : Cfg) (d : Int) (prev : Int → E) (err : List E) : Prop :=
  err.length = k.width + 2 ∧
  ∀ x, x < k.width → err[x + 1]? =
    some fun i => 3 * prev ((x : Int) - d) i + 5 * prev x i + prev ((x : Int) + d) i

/-- Errors are at most MAXJSAMPLE. -/
def Small (k : Cfg) (e : Int → E) : Prop := ∀ x i, -(k.max : Int) ≤ e x i ∧ e x i ≤ k.max

theorem path_even (w : Nat) : Path w 1 (fun t => t) (fun t => t) :=
  ⟨fun _ h => h, fun t _ => by push_cast; rfl, fun _ _ _ _ h => h, fun t h => by omega,
    fun t _ => by push_cast; rfl, fun _ _ _ _ h => h⟩

theorem path_odd (w : Nat) : Path w (-1) (fun t => w - 1 - t) (fun t => w + 1 - t) :=
  ⟨fun t h => by omega, fun t h => by omega, fun s t h1 h2 h => by omega,
    fun t h => by omega, fun t h => by omega, fun s t h1 h2 h => by omega⟩

/-- The loop result read in columns, given the column of each step. -/
theorem fsRow_aux {k : Cfg} {sc : V} {cm : List V} {n : Nat} (hpal : PalOk k cm n) {odd : Bool} {px : Nat → V}
    {prev : Int → E} (step : Nat → Nat) (hstep : step = if odd then (fun x => k.width - 1 - x) else (fun x => x))
    {v : Nat → V} (hv : ∀ x, x < k.width → v (step x) = px x)
    {a : Nat → E} (ha : ∀ x, x < k.width → a (step x) = fun i =>
      3 * prev ((x : Int) - dirOf odd) i + 5 * prev x i + prev ((x : Int) + dirOf odd) i) :
    ∃ e : Int → E, Small k e ∧
      RowDiffused k sc cm n (dirOf odd) px prev e (fun x => wSeq k sc cm n v a (step x))
        (fun x => near k sc cm n (wSeq k sc cm n v a (step x))) ∧
      ∀ x, x < k.width → ∀ i, 3 * e ((x : Int) + dirOf odd) i + 5 * e x i + e ((x : Int) - dirOf odd) i =
        gSeq k sc cm n v a (step x + 1) i + 5 * gSeq k sc cm n v a (step x + 2) i +
          (if step x + 1 < k.width then 3 * gSeq k sc cm n v a (step x + 3) i else 0) := by
  have hG := fun t i => gSeq_bound (sc := sc) hpal v a t i
  obtain ⟨G, hGd⟩ : ∃ G, G = gSeq k sc cm n v a := ⟨_, rfl⟩
  obtain ⟨e, he⟩ : ∃ e : Int → E, e = fun x : Int => if 0 ≤ x ∧ x < k.width then G (step x.toNat + 2) else fun _ => 0 :=
    ⟨_, rfl⟩
  rw [← hGd] at hG
  rw [← hGd]
  have hin : ∀ x, x < k.width → e (x : Nat) = G (step x + 2) := by
    intro x hx; rw [he]; dsimp only; rw [if_pos (by omega), Int.toNat_natCast]
  have hout : ∀ x : Int, x < 0 ∨ (k.width : Int) ≤ x → e x = fun _ => 0 := by
    intro x hx; rw [he]; dsimp only; rw [if_neg (by omega)]
  have hG1 : G 1 = fun _ => 0 := by rw [hGd]; rfl
  have hbefore : ∀ x, x < k.width → e ((x : Int) - dirOf odd) = G (step x + 1) := by
    intro x hx
    cases odd with
    | false =>
      simp only [dirOf, Bool.false_eq_true, if_false] at hstep ⊢
      subst hstep
      dsimp only at *
      rcases Nat.eq_zero_or_pos x with rfl | h0
      · rw [hout _ (by omega)]; exact hG1.symm
      · have e1 : (x : Int) - 1 = ((x - 1 : Nat) : Int) := by omega
        rw [e1, hin _ (by omega)]
        congr 1; omega
    | true =>
      simp only [dirOf, if_true] at hstep ⊢
      subst hstep
      dsimp only at *
      by_cases h0 : x + 1 = k.width
      · rw [hout _ (by omega)]
        have : k.width - 1 - x + 1 = 1 := by omega
        rw [this]; exact hG1.symm
      · have e1 : (x : Int) - (-1) = ((x + 1 : Nat) : Int) := by omega
        rw [e1, hin _ (by omega)]
        congr 1; omega
  have hafter : ∀ x, x < k.width → e ((x : Int) + dirOf odd) =
      if step x + 1 < k.width then G (step x + 3) else fun _ => 0 := by
    intro x hx
    cases odd with
    | false =>
      simp only [dirOf, Bool.false_eq_true, if_false] at hstep ⊢
      subst hstep
      dsimp only at *
      by_cases h0 : x + 1 < k.width
      · have e1 : (x : Int) + 1 = ((x + 1 : Nat) : Int) := by omega
        rw [e1, hin _ (by omega), if_pos h0]
      · rw [hout _ (by omega), if_neg h0]
    | true =>
      simp only [dirOf, if_true] at hstep ⊢
      subst hstep
      dsimp only at *
      rcases Nat.eq_zero_or_pos x with rfl | h0
      · rw [hout _ (by omega), if_neg (by omega)]
      · have e1 : (x : Int) + (-1) = ((x - 1 : Nat) : Int) := by omega
        rw [e1, hin _ (by omega), if_pos (by omega)]
        congr 1; omega
  refine ⟨e, ?_, ⟨hout, ?_, ?_, ?_⟩, ?_⟩
  · intro x i
    rw [he]; dsimp only
    split
    · exact hG _ _
    · dsimp only; omega
  · intro x hx i
    unfold carried
    dsimp only
    rw [hbefore x hx]
    unfold wSeq wantAt
    rw [hv x hx, ha x hx, hGd]
  · intro x hx
    exact near_spec hpal _
  · intro x hx
    refine ⟨_, ent_get hpal (near_spec hpal _).lt, fun i => ?_⟩
    rw [hin x hx, hGd, gSeq]
    rfl
  · intro x hx i
    rw [hbefore x hx, hafter x hx, hin x hx]
    split <;> ring

theorem rowFs_spec {k : Cfg} (hk : k.Bits) {sc : V} (hsc : scales k = some sc) {cm : List V} {n : Nat} (hpal : PalOk k cm n)
    {h : Hist} (hh : CacheOk k sc cm n h) {inp : List Nat} (hr : RowOk k inp) {odd : Bool}
    {prev : Int → E} (hps : Small k prev) {err : List E} (he : Holds k (dirOf odd) prev err) :
    ∃ h' err' out e want, rowFs k cm n (limiter k) odd h err inp = some (h', err', out) ∧ CacheOk k sc cm n h' ∧
      Small k e ∧ Holds k (dirOf (!odd)) e err' ∧ out.length = k.width ∧
      RowDiffused k sc cm n (dirOf odd) (pix inp) prev e want (fun x => out.getD x 0) := by
  obtain ⟨hel, hea⟩ := he
  have main : ∀ (col pos : Nat → Nat) (s0 : FsSt), Path k.width (dirOf odd) col pos →
      (∀ t, t < k.width → pos (t + 1) = col t + 1) →
      (∀ x, x < k.width → (if odd then (fun x => k.width - 1 - x) else (fun x => x)) x < k.width ∧
        col ((if odd then (fun x => k.width - 1 - x) else (fun x => x)) x) = x) →
      (s0.cur = (fun _ => 0) ∧ s0.below = (fun _ => 0) ∧ s0.bprev = (fun _ => 0) ∧
        (0 < k.width → s0.ip = ((3 * col 0 : Nat) : Int) ∧ s0.op = col 0) ∧ s0.ep = pos 0 ∧
        s0.err = err ∧ s0.out = List.replicate k.width k.junk ∧ s0.hist = h) →
      ∃ s err' e want, forN (fun _ s => fsPixel k cm n (limiter k) (dirOf odd) inp s) k.width s0 = some s ∧
        wr s.err s.ep (fun i => castErr k.c (s.bprev i)) = some err' ∧ CacheOk k sc cm n s.hist ∧ Small k e ∧
        Holds k (dirOf (!odd)) e err' ∧ s.out.length = k.width ∧
        RowDiffused k sc cm n (dirOf odd) (pix inp) prev e want (fun x => s.out.getD x 0) := by
    intro col pos s0 hp hpc hst hs0
    obtain ⟨step, hstep⟩ : ∃ step : Nat → Nat, step = if odd then (fun x => k.width - 1 - x) else (fun x => x) :=
      ⟨_, rfl⟩
    rw [← hstep] at hst
    obtain ⟨a, hadef⟩ : ∃ a : Nat → E, a = fun t i => 3 * prev ((col t : Int) - dirOf odd) i + 5 * prev (col t) i +
      prev ((col t : Int) + dirOf odd) i := ⟨_, rfl⟩
    obtain ⟨s, s1, s2, s3, s4, s5, s6, s7, s8⟩ := fsLoop hk hsc hpal hh hr hp hel (a := a)
      (fun t ht => by rw [hpc t ht, hea _ (hp.col_lt t ht), hadef])
      (fun t ht i => by
        rw [hadef]; dsimp only
        have b1 := hps ((col t : Int) - dirOf odd) i
        have b2 := hps (col t) i
        have b3 := hps ((col t : Int) + dirOf odd) i
        omega) (by simp) hs0
    obtain ⟨v, hv⟩ : ∃ v : Nat → V, v = fun t => pix inp (col t) := ⟨_, rfl⟩
    rw [← hv] at s2 s5 s7
    obtain ⟨e, e1, e2, e3⟩ := fsRow_aux (sc := sc) hpal (odd := odd) (px := pix inp) (prev := prev)
      step hstep (v := v) (fun x hx => by rw [hv]; dsimp only; rw [(hst x hx).2])
      (a := a) (fun x hx => by rw [hadef]; dsimp only; rw [(hst x hx).2])
    have hGb := fun t i => gSeq_bound (sc := sc) hpal v a t i
    have hlen : pos k.width < s.err.length := by rw [s4]; exact hp.pos_lt _ (by omega)
    have hmx := max_eq hk
    have hsh : ∀ x, x < k.width → s.out.getD x 0 = near k sc cm n (wSeq k sc cm n v a (step x)) := by
      intro x hx
      obtain ⟨h1, h2⟩ := hst x hx
      have := s7 (step x) h1
      rw [h2] at this
      rw [List.getD_eq_getElem?_getD, this]
      rfl
    refine ⟨s, s.err.set (pos k.width) s.bprev, e, _, s1, ?_, s8, e1, ⟨?_, ?_⟩, s6,
      ⟨e2.outside, e2.want_eq, fun x hx => ?_, fun x hx => ?_⟩⟩
    · have : (fun i => castErr k.c (s.bprev i)) = s.bprev := by
        funext i
        refine castErr_of hk ?_
        rw [s2]
        have b1 := hGb k.width i
        have b2 := hGb (k.width + 1) i
        omega
      rw [this, s3, wr_nat hlen]
    · rw [List.length_set]; exact s4
    · intro x hx
      obtain ⟨h1, h2⟩ := hst x hx
      have hd : dirOf (!odd) = -dirOf odd := by cases odd <;> rfl
      have e4 := e3 x hx
      have hx1 : x + 1 = pos (step x + 1) := by rw [hpc _ h1, h2]
      have hgoal : (fun i => 3 * e ((x : Int) - dirOf (!odd)) i + 5 * e x i + e ((x : Int) + dirOf (!odd)) i) =
          fun i => gSeq k sc cm n v a (step x + 1) i + 5 * gSeq k sc cm n v a (step x + 2) i +
          (if step x + 1 < k.width then 3 * gSeq k sc cm n v a (step x + 3) i else 0) := by
        funext i
        rw [← e4 i, hd]; simp only [sub_neg_eq_add]; rfl
      rw [hgoal, get_set hlen, hx1]
      by_cases hl : step x + 1 < k.width
      · rw [if_neg (fun he => by have := hp.pos_inj _ _ (by omega) (by omega) he; omega), s5 _ hl]
        simp only [if_pos hl]
      · have hw' : step x + 1 = k.width := by omega
        rw [if_pos (by rw [hw'])]
        congr 1
        funext i
        rw [if_neg hl, s2 i, ← hw']
        ring
    · rw [hsh x hx]; exact e2.shown x hx
    · rw [hsh x hx]; exact e2.left x hx
  unfold rowFs
  simp only [Option.bind_eq_bind]
  cases odd with
  | false =>
    obtain ⟨s, err', e, want, f1, f2, f3, f4, f5, f6, f7⟩ := main (fun t => t) (fun t => t)
      ⟨fun _ => 0, fun _ => 0, fun _ => 0, 0, 0, 0, err, List.replicate k.width k.junk, h⟩ (path_even _)
      (fun t _ => rfl) (fun x hx => ⟨by simpa using hx, by simp⟩)
      ⟨rfl, rfl, rfl, fun _ => ⟨by simp, rfl⟩, rfl, rfl, rfl, rfl⟩
    refine ⟨s.hist, err', s.out, e, want, ?_, f3, f4, f5, f6, f7⟩
    simp only [Bool.false_eq_true, if_false]
    simp only [dirOf, Bool.false_eq_true, if_false] at f1
    rw [f1]
    simp only [Option.bind_some]
    rw [f2]; rfl
  | true =>
    obtain ⟨s, err', e, want, f1, f2, f3, f4, f5, f6, f7⟩ := main (fun t => k.width - 1 - t) (fun t => k.width + 1 - t)
      ⟨fun _ => 0, fun _ => 0, fun _ => 0, ((k.width : Int) - 1) * 3, (k.width : Int) - 1, (k.width : Int) + 1, err,
        List.replicate k.width k.junk, h⟩ (path_odd _)
      (fun t ht => by omega) (fun x hx => by simp only [if_true]; omega)
      ⟨rfl, rfl, rfl, fun hw => ⟨by dsimp only; omega, by dsimp only; omega⟩, by dsimp only; omega, rfl, rfl, rfl⟩
    refine ⟨s.hist, err', s.out, e, want, ?_, f3, f4, f5, f6, f7⟩
    simp only [if_true]
    simp only [dirOf, if_true] at f1
    rw [f1]
    simp only [Option.bind_some]
    rw [f2]; rfl

end Verif.Quant2
