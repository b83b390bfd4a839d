import Mathlib.Tactic.Ring
import Mathlib.Tactic.IntervalCases
import Mathlib.Tactic.Linarith
import Verif.Ppm.Model
/-
No file makes the PPM reader access anything outside its buffers.
-/
namespace Verif.Ppm

/-- The result is no fault, and if it is a value, that satisfies `P`. -/
def Safe {α : Type} (P : α → Prop) : R α → Prop
  | .ok a => P a
  | .error .exit => True
  | .error .fault => False

theorem Safe.bind {α β : Type} {P : α → Prop} {Q : β → Prop} {r : R α} {f : α → R β} (h : Safe P r) (hf : ∀ a, P a → Safe Q (f a)) :
    Safe Q (r >>= f) := by
  cases r with
  | ok a => exact hf a h
  | error e => cases e with
    | exit => trivial
    | fault => exact h

theorem Safe.mono {α : Type} {P Q : α → Prop} {r : R α} (h : Safe P r) (hf : ∀ a, P a → Q a) : Safe Q r := by
  cases r with
  | ok a => exact hf a h
  | error e => cases e with
    | exit => trivial
    | fault => exact h

theorem Safe.not_fault {α : Type} {P : α → Prop} {r : R α} (h : Safe P r) : r ≠ .error .fault := by
  rintro rfl; exact h

/-- Bytes. -/
def Bytes (s : List Nat) : Prop := ∀ b ∈ s, b < 256

theorem pbmGetc_sub {s s' : List Nat} {c : Option Nat} (h : pbmGetc s = (c, s')) : s' ⊆ s := by
  cases s with
  | nil => simp only [pbmGetc, Prod.mk.injEq] at h; rw [← h.2]; simp
  | cons a s =>
    simp only [pbmGetc] at h
    split at h
    · have hl := (List.dropWhile_sublist (· ≠ 10) (l := s)).subset
      split at h
      · simp only [Prod.mk.injEq] at h; rw [← h.2]; simp
      · rename_i b t e
        simp only [Prod.mk.injEq] at h
        rw [← h.2]
        rw [e] at hl
        intro x hx
        exact List.mem_cons_of_mem _ (hl (List.mem_cons_of_mem _ hx))
    · simp only [Prod.mk.injEq] at h
      rw [← h.2]; exact List.subset_cons_self _ _

theorem skipWs_safe : ∀ (n : Nat) (s : List Nat), s.length ≤ n → Safe (fun r => r.2 ⊆ s) (skipWs s) := by
  intro n
  induction n with
  | zero =>
    intro s h
    have : s = [] := List.length_eq_zero_iff.1 (by omega)
    subst this
    unfold skipWs
    split
    · trivial
    · rename_i c s' e; simp [pbmGetc] at e
  | succ n ih =>
    intro s h
    unfold skipWs
    split
    · trivial
    · rename_i c s' e
      have := pbmGetc_lt e
      split
      · exact (ih s' (by omega)).mono (fun a ha => List.Subset.trans ha (pbmGetc_sub e))
      · exact pbmGetc_sub e

theorem digits_safe : ∀ (n maxval v : Nat) (s : List Nat), s.length ≤ n →
    Safe (fun r => r.1 ≤ max v maxval ∧ r.2 ⊆ s) (digits maxval v s) := by
  intro n
  induction n with
  | zero =>
    intro maxval v s h
    have : s = [] := List.length_eq_zero_iff.1 (by omega)
    subst this
    unfold digits
    split
    · rename_i s' e
      exact ⟨Nat.le_max_left _ _, pbmGetc_sub e⟩
    · rename_i c s' e; simp [pbmGetc] at e
  | succ n ih =>
    intro maxval v s h
    unfold digits
    split
    · rename_i s' e
      exact ⟨Nat.le_max_left _ _, pbmGetc_sub e⟩
    · rename_i c s' e
      have := pbmGetc_lt e
      split
      · simp only []
        split
        · trivial
        · exact (ih maxval _ s' (by omega)).mono (fun a ha => ⟨by have := ha.1; omega, List.Subset.trans ha.2 (pbmGetc_sub e)⟩)
      · exact ⟨Nat.le_max_left _ _, pbmGetc_sub e⟩

/-- A number is at most `maxval`, or a single digit. -/
theorem readInt_safe (maxval : Nat) (s : List Nat) : Safe (fun r => r.1 ≤ max 9 maxval ∧ r.2 ⊆ s) (readInt maxval s) := by
  unfold readInt
  refine (skipWs_safe _ s (le_refl _)).bind ?_
  rintro ⟨c, s'⟩ hsub
  simp only [] at hsub ⊢
  split
  · rename_i h
    simp only [isDigit, Bool.and_eq_true, decide_eq_true_eq] at h
    exact (digits_safe _ maxval (c - 48) s' (le_refl _)).mono (fun a ha => ⟨by have := ha.1; omega, List.Subset.trans ha.2 hsub⟩)
  · trivial

theorem rescaleTab_length (mx maxval : Nat) : (rescaleTab mx maxval).length = max maxval 255 + 1 := by simp [rescaleTab]

theorem lookup_safe (mx maxval v : Nat) (h : v ≤ max maxval 255) : Safe (fun x => x ≤ mx) (lookup (rescaleTab mx maxval) v) := by
  unfold lookup
  rw [List.getElem?_eq_getElem (by rw [rescaleTab_length]; omega)]
  show _ ≤ mx
  simp only [rescaleTab, List.getElem_map, List.getElem_range]
  split
  · exact Nat.le_of_lt_succ (Nat.mod_lt _ (by omega))
  · omega

/-- How many bytes of the I/O buffer a sample takes. -/
def Kind.size : Kind → Nat
  | .text => 0
  | .byte => 1
  | .word => 2

/-- The I/O buffer holds enough for `n` samples. -/
def Enough (k : Kind) (n : Nat) (s : List Nat) : Prop := n * k.size ≤ s.length ∧ (k ≠ .text → Bytes s)

theorem sample_safe (k : Kind) (mx maxval : Nat) (direct : Bool) (n : Nat) (s : List Nat) (h : Enough k (n + 1) s) :
    Safe (fun r => r.1 ≤ mx ∧ Enough k n r.2) (sample k mx maxval direct s) := by
  have hsc : ∀ v, v ≤ max maxval 255 →
      Safe (fun x => x ≤ mx) (if direct then .ok (v % (mx + 1)) else lookup (rescaleTab mx maxval) v) := by
    intro v hv
    split
    · exact Nat.le_of_lt_succ (Nat.mod_lt _ (by omega))
    · exact lookup_safe mx maxval v hv
  obtain ⟨hl, hb⟩ := h
  unfold sample
  cases k with
  | text =>
    simp only []
    refine (readInt_safe maxval s).bind ?_
    rintro ⟨v, s'⟩ ⟨hv, -⟩
    simp only [] at hv ⊢
    refine (hsc v (by omega)).bind ?_
    intro x hx
    exact ⟨hx, by simp [Kind.size], fun h => absurd rfl h⟩
  | byte =>
    cases s with
    | nil => simp [Kind.size] at hl
    | cons v s =>
      simp only []
      have hb' := hb (by simp)
      have hv : v < 256 := hb' v (by simp)
      refine (hsc v (by omega)).bind ?_
      intro x hx
      simp only [Kind.size, List.length_cons] at hl
      exact ⟨hx, by simp only [Kind.size]; omega, fun _ b hb => hb' b (by simp [hb])⟩
  | word =>
    match s with
    | [] => simp [Kind.size] at hl
    | [_] => simp [Kind.size] at hl; omega
    | hi :: lo :: s =>
      simp only []
      have hb' := hb (by simp)
      split
      · trivial
      · refine (lookup_safe mx maxval _ (by omega)).bind ?_
        intro x hx
        simp only [Kind.size, List.length_cons] at hl
        exact ⟨hx, by simp only [Kind.size]; omega, fun _ b hb => hb' b (by simp [hb])⟩

/-- Samples in range, and as many as before. -/
def Row (mx n : Nat) (b : List Nat) : Prop := b.length = n ∧ ∀ v ∈ b, v ≤ mx

theorem put_safe (mx n i v : Nat) (b : List Nat) (h : Row mx n b) (hi : i < n) (hv : v ≤ mx) : Safe (Row mx n) (put i v b) := by
  unfold put
  rw [if_pos (by rw [h.1]; exact hi)]
  refine ⟨by simp [h.1], ?_⟩
  intro x hx
  rcases List.mem_or_eq_of_mem_set hx with h' | h'
  · exact h.2 x h'
  · rw [h']; exact hv

theorem cmyOf_le (mx M v : Nat) (h : v ≤ M) : cmyOf mx M v ≤ mx := by
  unfold cmyOf
  split
  · omega
  · rename_i h0
    have h1 : 2 * mx * v ≤ 2 * mx * M := Nat.mul_le_mul_left _ h
    have : (2 * mx * v + M) / (2 * M) < mx + 1 := by
      rw [Nat.div_lt_iff_lt_mul (by omega)]
      have : (mx + 1) * (2 * M) = 2 * mx * M + 2 * M := by ring
      omega
    omega

theorem putCmyk_safe (mx n p r g b : Nat) (buf : List Nat) (h : Row mx n buf) (hp : p + 3 < n) (hr : r ≤ mx) (hg : g ≤ mx) (hb : b ≤ mx) :
    Safe (Row mx n) (putCmyk mx p r g b buf) := by
  unfold putCmyk rgbToCmyk
  simp only []
  refine (put_safe mx n _ _ buf h (by omega) (cmyOf_le _ _ _ (by omega))).bind fun b1 h1 => ?_
  refine (put_safe mx n _ _ b1 h1 (by omega) (cmyOf_le _ _ _ (by omega))).bind fun b2 h2 => ?_
  refine (put_safe mx n _ _ b2 h2 (by omega) (cmyOf_le _ _ _ (by omega))).bind fun b3 h3 => ?_
  exact put_safe mx n _ _ b3 h3 (by omega) (by omega)

/-- Samples per pixel in the file. -/
def Sink.samples : Sink → Nat
  | .rgb => 3
  | .rgbCmyk => 3
  | _ => 1

/-- Samples per pixel in the buffer, and the colour spaces a sink is used for. -/
def SinkOk (sink : Sink) (cs nc : Nat) : Prop := match sink with
  | .gray => cs = 1 ∧ nc = 1
  | .grayCmyk => cs = 4 ∧ nc = 4
  | .rgbCmyk => cs = 4 ∧ nc = 4
  | _ => isExt cs = true ∧ nc = pSize cs

theorem layout (cs : Nat) (h : isExt cs = true) : rIdx cs < pSize cs ∧ gIdx cs < pSize cs ∧ bIdx cs < pSize cs ∧
    ∀ a, aIdx cs = some a → a < pSize cs := by
  have : cs < 16 := by
    simp only [isExt, Bool.or_eq_true, Bool.and_eq_true, decide_eq_true_eq] at h; omega
  interval_cases cs <;> first | (exact absurd h (by decide)) | (refine ⟨by decide, by decide, by decide, ?_⟩; decide)

theorem putAlpha_safe (mx n cs p : Nat) (buf : List Nat) (h : Row mx n buf) (he : isExt cs = true) (hp : p + pSize cs ≤ n) :
    Safe (Row mx n) (putAlpha mx cs p buf) := by
  unfold putAlpha
  have := (layout cs he).2.2.2
  split
  · rename_i a e
    have := this a e
    exact put_safe mx n _ _ buf h (by omega) (le_refl _)
  · exact h

theorem pixel_safe (sink : Sink) (cs nc mx maxval : Nat) (k : Kind) (direct : Bool) (hs : SinkOk sink cs nc) (n len p : Nat) (s buf : List Nat)
    (hp : p + nc ≤ len) (hb : Row mx len buf) (he : Enough k ((n + 1) * sink.samples) s) :
    Safe (fun r => Enough k (n * sink.samples) r.1 ∧ Row mx len r.2) (pixel sink cs mx (sample k mx maxval direct) p s buf) := by
  unfold pixel
  cases sink with
  | gray =>
    simp only [SinkOk] at hs
    simp only [Sink.samples, Nat.mul_one] at he ⊢
    refine (sample_safe k mx maxval direct _ s he).bind ?_
    rintro ⟨v, s1⟩ ⟨h1, h2⟩
    refine (put_safe mx len p v buf hb (by omega) h1).bind fun b1 hb1 => ?_
    exact ⟨h2, hb1⟩
  | grayRgb =>
    obtain ⟨l1, l2, l3, l4⟩ := layout cs hs.1
    have hnc := hs.2
    simp only [Sink.samples, Nat.mul_one] at he ⊢
    refine (sample_safe k mx maxval direct _ s he).bind ?_
    rintro ⟨v, s1⟩ ⟨h1, h2⟩
    refine (put_safe mx len _ v buf hb (by omega) h1).bind fun b1 hb1 => ?_
    refine (put_safe mx len _ v b1 hb1 (by omega) h1).bind fun b2 hb2 => ?_
    refine (put_safe mx len _ v b2 hb2 (by omega) h1).bind fun b3 hb3 => ?_
    refine (putAlpha_safe mx len cs p b3 hb3 hs.1 (by omega)).bind fun b4 hb4 => ?_
    exact ⟨h2, hb4⟩
  | grayCmyk =>
    simp only [SinkOk] at hs
    simp only [Sink.samples, Nat.mul_one] at he ⊢
    refine (sample_safe k mx maxval direct _ s he).bind ?_
    rintro ⟨v, s1⟩ ⟨h1, h2⟩
    refine (putCmyk_safe mx len p v v v buf hb (by omega) h1 h1 h1).bind fun b1 hb1 => ?_
    exact ⟨h2, hb1⟩
  | rgb =>
    obtain ⟨l1, l2, l3, l4⟩ := layout cs hs.1
    have hnc := hs.2
    have e3 : (n + 1) * Sink.rgb.samples = (n * 3 + 2) + 1 := by simp only [Sink.samples]; omega
    rw [e3] at he
    refine (sample_safe k mx maxval direct _ s he).bind ?_
    rintro ⟨v, s1⟩ ⟨h1, he1⟩
    refine (put_safe mx len _ v buf hb (by omega) h1).bind fun b1 hb1 => ?_
    refine (sample_safe k mx maxval direct _ s1 he1).bind ?_
    rintro ⟨v2, s2⟩ ⟨h2, he2⟩
    refine (put_safe mx len _ v2 b1 hb1 (by omega) h2).bind fun b2 hb2 => ?_
    refine (sample_safe k mx maxval direct _ s2 he2).bind ?_
    rintro ⟨v3, s3⟩ ⟨h3, he3⟩
    refine (put_safe mx len _ v3 b2 hb2 (by omega) h3).bind fun b3 hb3 => ?_
    refine (putAlpha_safe mx len cs p b3 hb3 hs.1 (by omega)).bind fun b4 hb4 => ?_
    exact ⟨he3, hb4⟩
  | rgbCmyk =>
    simp only [SinkOk] at hs
    have e3 : (n + 1) * Sink.rgbCmyk.samples = (n * 3 + 2) + 1 := by simp only [Sink.samples]; omega
    rw [e3] at he
    refine (sample_safe k mx maxval direct _ s he).bind ?_
    rintro ⟨v, s1⟩ ⟨h1, he1⟩
    refine (sample_safe k mx maxval direct _ s1 he1).bind ?_
    rintro ⟨v2, s2⟩ ⟨h2, he2⟩
    refine (sample_safe k mx maxval direct _ s2 he2).bind ?_
    rintro ⟨v3, s3⟩ ⟨h3, he3⟩
    refine (putCmyk_safe mx len p v v2 v3 buf hb (by omega) h1 h2 h3).bind fun b1 hb1 => ?_
    exact ⟨he3, hb1⟩

theorem cols_safe (sink : Sink) (cs nc mx maxval : Nat) (k : Kind) (direct : Bool) (hs : SinkOk sink cs nc) (len : Nat) :
    ∀ (n p : Nat) (s buf : List Nat), p + n * nc ≤ len → Row mx len buf → Enough k (n * sink.samples) s →
      Safe (fun r => Row mx len r.2) (cols nc (pixel sink cs mx (sample k mx maxval direct)) n p s buf) := by
  intro n
  induction n with
  | zero => intro p s buf _ hb _; exact hb
  | succ n ih =>
    intro p s buf hp hb he
    have e : (n + 1) * nc = n * nc + nc := by ring
    rw [e] at hp
    unfold cols
    refine (pixel_safe sink cs nc mx maxval k direct hs n len p s buf (by omega) hb he).bind ?_
    rintro ⟨s1, b1⟩ ⟨h1, h2⟩
    exact ih (p + nc) s1 b1 (by omega) h2 h1

/-- What `start` guarantees. -/
structure SrcOk (mx : Nat) (src : Src) : Prop where
  w : 0 < src.w ∧ src.w ≤ 65535
  h : 0 < src.h ∧ src.h ≤ 65535
  m : 0 < src.maxval ∧ src.maxval ≤ 65535
  sink : SinkOk src.sink src.cs src.nc
  bw : src.kind ≠ .text → src.bw = src.w * src.sink.samples * src.kind.size
  raw : src.raw = true → mx = 255 ∧ src.bw = src.w * src.nc

theorem target_ok (color : Bool) (cs : Nat) :
    Safe (fun r => SinkOk r.2.2 r.1 r.2.1 ∧ r.2.2.samples = (if color then 3 else 1) ∧
      (r.2.2 = .rgb → r.1 = 6 ∨ r.1 = 2 → r.2.1 = 3) ∧ (color = true → r.1 = 6 ∨ r.1 = 2 → r.2.1 = 3) ∧ (color = false → r.1 = 1 → r.2.1 = 1))
      (target color cs) := by
  unfold target
  cases color with
  | true =>
    simp only [if_true]
    generalize (if cs = 0 then 6 else cs) = c
    split
    · rename_i h
      refine ⟨⟨h, rfl⟩, rfl, ?_, ?_, by simp⟩
      · rintro - (h | h) <;> (simp only [] at h ⊢; rw [h]; rfl)
      · rintro - (h | h) <;> (simp only [] at h ⊢; rw [h]; rfl)
    · split
      · rename_i h; subst h
        refine ⟨⟨rfl, rfl⟩, rfl, by simp, by simp, by simp⟩
      · trivial
  | false =>
    simp only [Bool.false_eq_true, if_false]
    generalize (if cs = 0 ∨ cs = 2 then 1 else cs) = c
    split
    · rename_i h; subst h; exact ⟨⟨rfl, rfl⟩, rfl, by simp, by simp, by simp⟩
    · rename_i h1
      split
      · rename_i h
        exact ⟨⟨h, rfl⟩, rfl, by simp, by simp, fun _ h => absurd h h1⟩
      · split
        · rename_i h; subst h
          exact ⟨⟨rfl, rfl⟩, rfl, by simp, by simp, by simp⟩
        · trivial

theorem start_safe (mx maxPixels cs : Nat) (s : List Nat) (hs : Bytes s) :
    Safe (fun r => SrcOk mx r.1 ∧ (r.1.raw = true → r.1.kind ≠ .text) ∧ Bytes r.2) (start mx maxPixels cs s) := by
  unfold start
  split
  · split
    · trivial
    · rename_i color text _
      refine (readInt_safe 65535 _).bind ?_
      rintro ⟨w, s1⟩ ⟨hw, hw2⟩
      refine (readInt_safe 65535 _).bind ?_
      rintro ⟨h, s2⟩ ⟨hh, hh2⟩
      refine (readInt_safe 65535 _).bind ?_
      rintro ⟨m, s3⟩ ⟨hm, hm2⟩
      simp only [] at hw hh hm hw2 hh2 hm2 ⊢
      split
      · trivial
      · rename_i h0
        split
        · trivial
        · refine (target_ok color cs).bind ?_
          rintro ⟨c, nc, sink⟩ ⟨t1, t2, -, t4, t5⟩
          simp only [] at t1 t2 t4 t5 ⊢
          refine ⟨⟨⟨by simp only []; omega, by simp only []; omega⟩, ⟨by simp only []; omega, by simp only []; omega⟩,
            ⟨by simp only []; omega, by simp only []; omega⟩, t1, ?_, ?_⟩, ?_, ?_⟩
          · simp only [t2]
            intro hk
            cases text
            · by_cases h255 : m > 255 <;> simp [h255, Kind.size]
            · simp at hk
          · simp only [Bool.and_eq_true, Bool.not_eq_true', decide_eq_true_eq, decide_eq_false_iff_not]
            rintro ⟨⟨⟨⟨-, hw⟩, -⟩, hmx⟩, hc⟩
            refine ⟨hmx, ?_⟩
            rw [if_neg hw]
            cases color
            · simp only [Bool.false_eq_true, if_false, decide_eq_true_eq] at hc ⊢
              rw [t5 rfl hc]; ring
            · simp only [if_true, decide_eq_true_eq] at hc ⊢
              rw [t4 rfl hc]; ring
          · simp only [Bool.and_eq_true, Bool.not_eq_true']
            rintro ⟨⟨⟨⟨ht, -⟩, -⟩, -⟩, -⟩
            rw [ht]
            by_cases h255 : m > 255 <;> simp [h255]
          · intro b hb
            have hb1 := hw2 (hh2 (hm2 hb))
            exact hs b (by simp [hb1])
  · trivial

theorem readRow_safe (mx : Nat) (src : Src) (h : SrcOk mx src) (s buf : List Nat) (hs : src.kind ≠ .text → Bytes s)
    (hraw : src.raw = true → src.kind ≠ .text) (hb : Row mx (src.w * src.nc) buf) :
    Safe (fun r => (src.kind ≠ .text → Bytes r.1) ∧ Row mx (src.w * src.nc) r.2) (readRow mx src s buf) := by
  unfold readRow
  simp only []
  split
  · rename_i hr
    split
    · trivial
    · rename_i hl
      obtain ⟨hm, hw⟩ := h.raw hr
      refine ⟨fun hk b hb => hs hk b (List.mem_of_mem_drop hb), by simp only [List.length_take]; omega, ?_⟩
      intro v hv
      have := hs (hraw hr) v (List.mem_of_mem_take hv)
      omega
  · split
    · rename_i hk
      refine (cols_safe src.sink src.cs src.nc mx src.maxval src.kind src.direct h.sink _ src.w 0 s buf (by omega) hb ?_).mono ?_
      · rw [hk]; exact ⟨by simp [Kind.size], fun h => absurd rfl h⟩
      · intro r hr
        exact ⟨fun h => absurd hk h, hr⟩
    · rename_i hk
      split
      · trivial
      · rename_i hl
        refine (cols_safe src.sink src.cs src.nc mx src.maxval src.kind src.direct h.sink _ src.w 0 (s.take src.bw) buf (by omega) hb ?_).bind ?_
        · have := h.bw hk
          refine ⟨?_, fun _ b hb => hs hk b (List.mem_of_mem_take hb)⟩
          rw [List.length_take, ← this]; omega
        · rintro ⟨s1, b1⟩ hb1
          exact ⟨fun _ b hb => hs hk b (List.mem_of_mem_drop hb), hb1⟩

theorem readRows_safe (mx : Nat) (src : Src) (h : SrcOk mx src) (hraw : src.raw = true → src.kind ≠ .text) :
    ∀ (n : Nat) (s buf : List Nat), (src.kind ≠ .text → Bytes s) → Row mx (src.w * src.nc) buf →
      Safe (fun rows => rows.length = n ∧ ∀ r ∈ rows, Row mx (src.w * src.nc) r) (readRows mx src n s buf) := by
  intro n
  induction n with
  | zero => intro s buf _ _; exact ⟨rfl, by simp⟩
  | succ n ih =>
    intro s buf hs hb
    unfold readRows
    refine (readRow_safe mx src h s buf hs hraw hb).bind ?_
    rintro ⟨s1, b1⟩ ⟨h1, h2⟩
    refine (ih s1 b1 h1 h2).bind ?_
    rintro rows ⟨h3, h4⟩
    exact ⟨by simp [h3], by simpa using ⟨h2, h4⟩⟩

end Verif.Ppm
