import Verif.Arith.Lemmas
/-
The encoder follows the exact intervals, and the bytes written in the end lie in the last one.
-/
namespace Verif.Arith

open Verif.Huff (unstuff segTail stuff stuff_nil stuff_append stuff_cons)

theorem stuff_zeros (n : Nat) : stuff (List.replicate n 0) = List.replicate n 0 := by
  induction n with
  | zero => rfl
  | succ n ih => rw [List.replicate_succ, stuff_cons, ih]; rfl

theorem stuff_single (b : Nat) : stuff [b] = stuffed b := by
  simp [stuff, stuffed]

theorem stuff_ff (n : Nat) : stuff (List.replicate n 255) = (List.replicate n [0xFF, 0]).flatten := by
  induction n with
  | zero => rfl
  | succ n ih => rw [List.replicate_succ, stuff_cons, ih, List.replicate_succ]; rfl

/-- The bytes decided so far, up to a carry; `U` are those already written. -/
def Enc.held (e : Enc) (U : List Nat) : List Nat :=
  U ++ List.replicate e.zc 0 ++ e.buffer.toList ++ List.replicate e.sc 255

/-- The encoder's registers and output against the exact interval `t`. -/
structure EInv (pre U : List Nat) (e : Enc) (t : T) : Prop where
  out : e.out = pre ++ stuff U
  byt : IsBytes U
  ct : e.ct ≤ 11
  n : t.N + e.ct = 8 * (e.held U).length + 11
  low : t.low = val (e.held U) * 2 ^ (27 - e.ct) + e.c
  a : t.a = e.a
  a1 : 1 ≤ e.a
  spare : (e.c + e.a) * 2 ^ e.ct ≤ 2 ^ 27 + 2 ^ 24
  top : t.low + t.a ≤ 2 ^ (16 + t.N)
  buf : ∀ b ∈ e.buffer, b < 255
  fresh : e.buffer = none → U = [] ∧ e.zc = 0
  last : U.getLast? ≠ some 0

theorem EInv.init (pre : List Nat) : EInv pre [] (Enc.init pre) ⟨0, 0x10000, 0⟩ where
  out := by simp [Enc.init]
  byt := by simp
  ct := by simp [Enc.init]
  n := by simp [Enc.init, Enc.held]
  low := by simp [Enc.init, Enc.held, val]
  a := rfl
  a1 := by simp [Enc.init]
  spare := by simp [Enc.init]
  top := by simp
  buf := by simp [Enc.init]
  fresh := by simp [Enc.init]
  last := by simp

theorem EInv.sub {pre U : List Nat} {e : Enc} {t : T} (h : EInv pre U e t) {δ a' : Nat} (ha : 1 ≤ a')
    (hs : δ + a' ≤ e.a) : EInv pre U { e with c := e.c + δ, a := a' } ⟨t.low + δ, a', t.N⟩ where
  out := h.out
  byt := h.byt
  ct := h.ct
  n := h.n
  low := by
    have := h.low
    simp only [Enc.held] at *
    omega
  a := rfl
  a1 := ha
  spare := by
    refine Nat.le_trans (Nat.mul_le_mul_right _ ?_) h.spare
    dsimp only; omega
  top := by
    have := h.top
    have := h.a
    dsimp only; omega
  buf := h.buf
  fresh := h.fresh
  last := h.last

/-- After a carry or without one: the bytes are written or pending zeros. -/
structure Flushed (pre U : List Nat) (e : Enc) (len v : Nat) : Prop where
  out : e.out = pre ++ stuff U
  byt : IsBytes U
  sc : e.sc = 0
  len : (U ++ List.replicate e.zc 0).length = len
  v : val (U ++ List.replicate e.zc 0) = v
  last : U.getLast? ≠ some 0

theorem carry_spec {pre U : List Nat} {e : Enc} {t : T} (h : EInv pre U e t) {b : Nat} (hb : e.buffer = some b) :
    ∃ U', Flushed pre U' (carry e) (e.held U).length (val (e.held U) + 1) := by
  have hb255 := h.buf b (by simp [hb])
  refine ⟨U ++ List.replicate e.zc 0 ++ [b + 1], ?_, ?_, ?_, ?_, ?_, ?_⟩
  · simp [carry, hb, h.out, stuff_zeros, stuff_single]
  · rw [isBytes_append, isBytes_append]
    refine ⟨⟨h.byt, ?_⟩, ?_⟩
    · intro x hx
      rw [List.eq_of_mem_replicate hx]
      omega
    · intro x hx
      simp at hx; omega
  · simp [carry, hb]
  · simp [carry, hb, Enc.held]
  · simp only [carry, hb, Enc.held, val_append, Option.toList, val_single, val_zeros, List.length_replicate, List.length_singleton]
    have := val_ff e.sc
    nlinarith
  · simp

theorem settle_spec {pre U : List Nat} {e : Enc} {t : T} (h : EInv pre U e t) :
    ∃ U', Flushed pre U' (settle e) (e.held U).length (val (e.held U)) := by
  obtain ⟨U₁, e₁, h1, h2, h3, h4, h5, h6⟩ : ∃ U₁ e₁, (match e.buffer with
    | some 0 => { e with zc := e.zc + 1 }
    | some b => { e with out := e.out ++ List.replicate e.zc 0 ++ [b], zc := 0 }
    | none => e) = e₁ ∧ e₁.out = pre ++ stuff U₁ ∧ IsBytes U₁ ∧ e₁.sc = e.sc ∧
      U₁ ++ List.replicate e₁.zc 0 = U ++ List.replicate e.zc 0 ++ e.buffer.toList ∧
      U₁.getLast? ≠ some 0 := by
    cases hb : e.buffer with
    | none => exact ⟨U, e, rfl, h.out, h.byt, rfl, by simp, h.last⟩
    | some b =>
      have hb255 := h.buf b (by simp [hb])
      cases b with
      | zero => exact ⟨U, _, rfl, h.out, h.byt, rfl, by simp [List.replicate_succ'], h.last⟩
      | succ b =>
        refine ⟨U ++ List.replicate e.zc 0 ++ [b + 1], _, rfl, ?_, ?_, rfl, by simp, by simp⟩
        · have : ¬ (b + 1 = 255) := by omega
          simp [h.out, stuff_zeros, stuff_single, stuffed, this]
        · rw [isBytes_append, isBytes_append]
          refine ⟨⟨h.byt, ?_⟩, ?_⟩
          · intro x hx
            rw [List.eq_of_mem_replicate hx]
            omega
          · intro x hx
            simp at hx; omega
  have hset : settle e = if e₁.sc ≠ 0 then
      { e₁ with out := e₁.out ++ List.replicate e₁.zc 0 ++ (List.replicate e₁.sc [0xFF, 0]).flatten, zc := 0, sc := 0 }
    else e₁ := by
    rw [← h1]; rfl
  by_cases hsc : e.sc = 0
  · rw [hset, if_neg (by omega)]
    have : e.held U = U₁ ++ List.replicate e₁.zc 0 := by
      simp only [Enc.held, hsc, List.replicate_zero, List.append_nil, h5]
    rw [this]
    exact ⟨U₁, h2, h3, by omega, rfl, rfl, h6⟩
  · rw [hset, if_pos (by omega)]
    refine ⟨U₁ ++ List.replicate e₁.zc 0 ++ List.replicate e₁.sc 255, ?_, ?_, rfl, ?_, ?_, ?_⟩
    · simp [h2, stuff_zeros, stuff_ff]
    · rw [isBytes_append, isBytes_append]
      refine ⟨⟨h3, ?_⟩, ?_⟩
      · intro x hx
        rw [List.eq_of_mem_replicate hx]
        omega
      · intro x hx
        rw [List.eq_of_mem_replicate hx]
        omega
    · simp only [Enc.held, ← h5, List.replicate_zero, List.append_nil, h4]
    · simp only [Enc.held, ← h5, List.replicate_zero, List.append_nil, h4]
    · obtain ⟨n, hn⟩ : ∃ n, e₁.sc = n + 1 := ⟨e₁.sc - 1, by omega⟩
      rw [hn, List.replicate_succ', ← List.append_assoc]
      simp

/-- No byte can carry out of the first one. -/
theorem no_top_carry {pre U : List Nat} {e : Enc} {t : T} (h : EInv pre U e t) (hc : 2 ^ 27 ≤ e.c * 2 ^ e.ct) :
    ∃ b, e.buffer = some b := by
  cases hb : e.buffer with
  | some b => exact ⟨b, rfl⟩
  | none =>
    exfalso
    obtain ⟨hU, hz⟩ := h.fresh hb
    have hl := h.low
    have hn := h.n
    have ht := h.top
    have ha := h.a
    have ha1 := h.a1
    have hct := h.ct
    simp only [Enc.held, hU, hz, hb, List.replicate_zero, Option.toList, List.nil_append] at hl hn
    rw [List.length_replicate] at hn
    have hv := val_ff e.sc
    have hp : (2 : Nat) ^ (27 - e.ct) * 2 ^ e.ct = 2 ^ 27 := by rw [← pow_add]; congr 1; omega
    have hc' : 2 ^ (27 - e.ct) ≤ e.c := by
      by_contra hx
      have : e.c * 2 ^ e.ct < 2 ^ (27 - e.ct) * 2 ^ e.ct := Nat.mul_lt_mul_of_pos_right (by omega) (by positivity)
      omega
    have hN : (2 : Nat) ^ (16 + t.N) = 256 ^ e.sc * 2 ^ (27 - e.ct) := by
      rw [show (256 : Nat) = 2 ^ 8 from rfl, ← pow_mul, ← pow_add]; congr 1; omega
    rw [hN, ← hv] at ht
    have : (val (List.replicate e.sc 255) + 1) * 2 ^ (27 - e.ct) =
      val (List.replicate e.sc 255) * 2 ^ (27 - e.ct) + 2 ^ (27 - e.ct) := by ring
    omega

theorem byteOut_spec {pre U : List Nat} {e : Enc} {t : T} (h : EInv pre U e t) (hct : e.ct = 0) (ha : e.a ≤ 0x10000) :
    ∃ U', EInv pre U' (byteOut e) t ∧ (byteOut e).a = e.a ∧ (byteOut e).ct = 8 := by
  have hsp := h.spare
  have hlow := h.low
  have hn := h.n
  simp only [hct, Nat.pow_zero, Nat.mul_one, Nat.add_zero, Nat.sub_zero] at hsp hlow hn
  -- what is common to the three cases
  have key : ∀ (e' : Enc) (U' : List Nat), e'.out = pre ++ stuff U' → IsBytes U' → e'.a = e.a → e'.c = e.c → e'.ct = 0 →
      (e'.held U').length = (e.held U).length + 1 → val (e'.held U') = val (e.held U) * 256 + e.c / 2 ^ 19 →
      (∀ b ∈ e'.buffer, b < 255) → (e'.buffer = none → U' = [] ∧ e'.zc = 0) →
      U'.getLast? ≠ some 0 → EInv pre U' { e' with c := e'.c % 2 ^ 19, ct := e'.ct + 8 } t := by
    intro e' U' ho hby hea hec hect hlen hv hbf hfr hla
    refine ⟨ho, hby, ?_, ?_, ?_, ?_, ?_, ?_, h.top, hbf, hfr, hla⟩
    · dsimp only; omega
    · show t.N + (e'.ct + 8) = 8 * (e'.held U').length + 11
      omega
    · show t.low = val (e'.held U') * 2 ^ (27 - (e'.ct + 8)) + e'.c % 2 ^ 19
      rw [hv, hect, hec, hlow]
      have := Nat.div_add_mod e.c (2 ^ 19)
      norm_num at this ⊢
      omega
    · dsimp only; rw [hea]; exact h.a
    · dsimp only; rw [hea]; exact h.a1
    · dsimp only
      rw [hect, hec, hea]
      have := Nat.mod_lt e.c (show 2 ^ 19 > 0 by positivity)
      norm_num at *
      omega
  rw [byteOut]
  by_cases h1 : e.c / 2 ^ 19 > 0xFF
  · have hc27 : 2 ^ 27 ≤ e.c := by norm_num at h1 ⊢; omega
    obtain ⟨b, hb⟩ := no_top_carry h (by simpa [hct] using hc27)
    obtain ⟨U', hf⟩ := carry_spec h hb
    have hfield : (carry e).a = e.a ∧ (carry e).c = e.c ∧ (carry e).ct = e.ct := by simp [carry, hb]
    simp only [if_pos h1]
    refine ⟨U', key { carry e with buffer := some (e.c / 2 ^ 19 % 256) } U' hf.out hf.byt hfield.1 hfield.2.1 ?_ ?_ ?_ ?_ ?_ hf.last,
      hfield.1, ?_⟩
    · show (carry e).ct = 0
      omega
    · have := hf.len
      simp only [Enc.held, hf.sc, List.replicate_zero, List.append_nil, Option.toList, List.length_append,
        List.length_singleton, List.length_replicate] at this ⊢
      omega
    · have := hf.v
      show val (U' ++ List.replicate (carry e).zc 0 ++ [e.c / 2 ^ 19 % 256] ++ List.replicate (carry e).sc 255) = _
      rw [hf.sc, List.replicate_zero, List.append_nil, val_append, this, val_single]
      simp only [List.length_singleton, pow_one]
      norm_num at *
      omega
    · intro b hb
      simp at hb
      norm_num at hsp h1 ⊢
      omega
    · intro hx; simp at hx
    · show (carry e).ct + 8 = 8
      omega
  · by_cases h2 : e.c / 2 ^ 19 = 0xFF
    · simp only [if_neg h1, if_pos h2]
      refine ⟨U, key { e with sc := e.sc + 1 } U h.out h.byt rfl rfl hct ?_ ?_ h.buf h.fresh h.last, by simp, by simp [hct]⟩
      · simp only [Enc.held, List.length_append, List.length_replicate]; omega
      · simp only [Enc.held, List.replicate_succ', ← List.append_assoc]
        rw [val_append, val_single, h2]
        simp
    · simp only [if_neg h1, if_neg h2]
      obtain ⟨U', hf⟩ := settle_spec h
      have hfield : (settle e).a = e.a ∧ (settle e).c = e.c ∧ (settle e).ct = e.ct := by
        unfold settle
        cases hb : e.buffer with
        | none => by_cases hz : e.sc = 0 <;> simp [hz]
        | some b => cases b <;> by_cases hz : e.sc = 0 <;> simp [hz]
      refine ⟨U', key { settle e with buffer := some (e.c / 2 ^ 19 % 256) } U' hf.out hf.byt hfield.1 hfield.2.1 ?_ ?_ ?_ ?_ ?_ hf.last,
        hfield.1, ?_⟩
      · show (settle e).ct = 0
        omega
      · have := hf.len
        simp only [Enc.held, hf.sc, List.replicate_zero, List.append_nil, Option.toList, List.length_append,
          List.length_singleton, List.length_replicate] at this ⊢
        omega
      · have := hf.v
        show val (U' ++ List.replicate (settle e).zc 0 ++ [e.c / 2 ^ 19 % 256] ++ List.replicate (settle e).sc 255) = _
        rw [hf.sc, List.replicate_zero, List.append_nil, val_append, this, val_single]
        simp only [List.length_singleton, pow_one]
        norm_num at *
        omega
      · intro b hb
        simp at hb
        norm_num at hsp h1 h2 ⊢
        omega
      · intro hx; simp at hx
      · show (settle e).ct + 8 = 8
        omega

theorem shiftE_spec {pre U : List Nat} {e : Enc} {t : T} (h : EInv pre U e t) (h1 : 1 ≤ e.ct) (ha : e.a < 0x8000) :
    ∃ U', EInv pre U' (shiftE e) ⟨t.low * 2, t.a * 2, t.N + 1⟩ ∧ (shiftE e).a = e.a * 2 ∧ 1 ≤ (shiftE e).ct := by
  have hd : EInv pre U { e with a := e.a * 2, c := e.c * 2, ct := e.ct - 1 } ⟨t.low * 2, t.a * 2, t.N + 1⟩ := by
    have hct := h.ct
    refine ⟨h.out, h.byt, ?_, ?_, ?_, ?_, ?_, ?_, ?_, h.buf, h.fresh, h.last⟩
    · dsimp only; omega
    · have := h.n
      simp only [Enc.held] at this ⊢
      omega
    · have := h.low
      simp only [Enc.held] at this ⊢
      rw [this, show 27 - (e.ct - 1) = 27 - e.ct + 1 by omega, pow_succ]
      ring
    · dsimp only; rw [h.a]
    · have := h.a1
      dsimp only; omega
    · have := h.spare
      dsimp only
      rw [show e.ct = e.ct - 1 + 1 by omega, pow_succ] at this
      linarith
    · have := h.top
      dsimp only
      rw [show 16 + (t.N + 1) = 16 + t.N + 1 by omega, pow_succ]
      omega
  rw [shiftE]
  dsimp only
  split
  · rename_i h0
    obtain ⟨U', h2, h3, h4⟩ := byteOut_spec hd (by simpa using h0) (by dsimp only; omega)
    exact ⟨U', h2, by rw [h3], by omega⟩
  · rename_i h0
    exact ⟨U, hd, rfl, by dsimp only; omega⟩

theorem renormE_spec (n : Nat) {pre U : List Nat} {e : Enc} {t : T} (h : EInv pre U e t) (h1 : 1 ≤ e.ct) (ha : e.a < 0x8000) :
    ∃ U', EInv pre U' (renormE n e) (t.renorm n) ∧ 1 ≤ (renormE n e).ct := by
  induction n generalizing U e t with
  | zero => exact ⟨U, h, h1⟩
  | succ n ih =>
    obtain ⟨U', h2, h3, h4⟩ := shiftE_spec h h1 ha
    have hta : t.a < 0x8000 := by rw [h.a]; exact ha
    simp only [renormE, T.renorm, if_pos hta]
    split
    · rename_i h5
      exact ih h2 h4 h5
    · rename_i h5
      refine ⟨U', ?_, h4⟩
      cases n with
      | zero => exact h2
      | succ n =>
        rw [T.renorm, if_neg]
        · exact h2
        · dsimp only; rw [h.a]; omega

/-- One decision on the exact intervals. -/
def T.step (t : T) (sv : Nat) (x : Bool) : T :=
  T.renorm 16 ⟨t.low + (part t.a sv x).1, (part t.a sv x).2, t.N⟩

theorem part_ok {a sv : Nat} (hs : Good sv) (ha : 0x8000 ≤ a) (x : Bool) :
    1 ≤ (part a sv x).2 ∧ (part a sv x).1 + (part a sv x).2 ≤ a := by
  have := hs.qe
  unfold part
  split
  · dsimp only; omega
  · dsimp only; omega

theorem T.step_a {t : T} {sv : Nat} (hs : Good sv) (h1 : 0x8000 ≤ t.a) (h2 : t.a ≤ 0x10000) (x : Bool) :
    0x8000 ≤ (t.step sv x).a ∧ (t.step sv x).a ≤ 0x10000 := by
  have := part_ok hs h1 x
  refine T.renorm_a 16 ?_ ?_
  · dsimp only; omega
  · dsimp only; omega

theorem T.renorm_done (n : Nat) {t : T} (h : 0x8000 ≤ t.a) : t.renorm n = t := by
  cases n with
  | zero => rfl
  | succ n => rw [T.renorm, if_neg (by omega)]

theorem Good.next {a sv : Nat} (h : Good sv) (x : Bool) : Good (next a sv x) := by
  unfold Arith.next
  split
  · exact h.lps
  · split
    · exact h
    · exact h.mps

/-- arith_encode takes the decision's part of the interval. -/
theorem encode1_spec {pre U : List Nat} {e : Enc} {t : T} (h : EInv pre U e t) (h1 : 1 ≤ e.ct) (ha : 0x8000 ≤ e.a)
    {sv : Nat} (hs : Good sv) (x : Bool) :
    (∃ U', EInv pre U' (encode1 e sv x).1 (t.step sv x)) ∧ 1 ≤ (encode1 e sv x).1.ct ∧
      (encode1 e sv x).2 = next e.a sv x := by
  have hq := hs.qe
  have hp := part_ok hs ha x
  have hu := h.sub hp.1 hp.2
  have hfin : ∀ (hlt : (part e.a sv x).2 < 0x8000), (∃ U', EInv pre U'
      (renormE 16 { e with c := e.c + (part e.a sv x).1, a := (part e.a sv x).2 }) (t.step sv x)) ∧
      1 ≤ (renormE 16 { e with c := e.c + (part e.a sv x).1, a := (part e.a sv x).2 }).ct := by
    intro hlt
    obtain ⟨U', h2, h3⟩ := renormE_spec 16 hu h1 hlt
    refine ⟨⟨U', ?_⟩, h3⟩
    rw [T.step, h.a]
    exact h2
  by_cases hx : x ≠ mps sv
  · have he : encode1 e sv x = (renormE 16 { e with c := e.c + (part e.a sv x).1, a := (part e.a sv x).2 }, lpsOf sv) := by
      simp only [encode1, if_pos hx]
      by_cases hge : e.a - qeOf sv ≥ qeOf sv
      · simp [part, hx, hge]
      · simp [part, hx, hge]
    have hlt : (part e.a sv x).2 < 0x8000 := by
      by_cases hge : e.a - qeOf sv ≥ qeOf sv
      · simp [part, hx, hge]; omega
      · simp [part, hx, hge]; omega
    rw [he]
    exact ⟨(hfin hlt).1, (hfin hlt).2, by simp [next, hx]⟩
  · by_cases hbig : e.a - qeOf sv ≥ 0x8000
    · have hge : e.a - qeOf sv ≥ qeOf sv := by omega
      have hpe : part e.a sv x = (0, e.a - qeOf sv) := by simp [part, hx, hge]
      rw [hpe] at hu
      have he : encode1 e sv x = ({ e with a := e.a - qeOf sv }, sv) := by
        simp only [encode1, if_neg hx, if_pos hbig]
      rw [he]
      refine ⟨⟨U, ?_⟩, h1, ?_⟩
      · rw [T.step, h.a, hpe, T.renorm_done 16 (by dsimp only; omega)]
        exact hu
      · simp only [next, if_neg hx, if_pos hbig]
    · have he : encode1 e sv x = (renormE 16 { e with c := e.c + (part e.a sv x).1, a := (part e.a sv x).2 }, mpsOf sv) := by
        simp only [encode1, if_neg hx, if_neg hbig]
        by_cases hge : e.a - qeOf sv < qeOf sv
        · simp [part, hx, hge]
        · have : qeOf sv ≤ e.a - qeOf sv := by omega
          simp [part, hx, hge, this]
      have hlt : (part e.a sv x).2 < 0x8000 := by
        by_cases hge : e.a - qeOf sv < qeOf sv
        · have : ¬ qeOf sv ≤ e.a - qeOf sv := by omega
          simp [part, hx, this]; omega
        · have : qeOf sv ≤ e.a - qeOf sv := by omega
          simp [part, hx, this]; omega
      rw [he]
      exact ⟨(hfin hlt).1, (hfin hlt).2, by simp only [next, if_neg hx, if_neg hbig]⟩

theorem digits {v B c hi mid : Nat} (h : v * 2 ^ 27 + (hi * 2 ^ 19 + mid * 2 ^ 11) = B * 2 ^ 27 + c) :
    (v * 256 ^ (0 + 1 + 1) + (hi * 256 + mid)) * 256 * 256 = B * 2 ^ 32 + c * 2 ^ 5 := by
  calc _ = (v * 2 ^ 27 + (hi * 2 ^ 19 + mid * 2 ^ 11)) * 2 ^ 5 := by ring
    _ = _ := by rw [h]; ring

/-- finish_pass: the bytes lie in the last interval. -/
theorem finish_spec {pre U : List Nat} {e : Enc} {t : T} (h : EInv pre U e t) (h1 : 1 ≤ e.ct) (ha : 0x8000 ≤ e.a) :
    ∃ P, finish e = pre ++ stuff P ∧ IsBytes P ∧ In P t ∧ 8 * P.length ≤ t.N + 8 := by
  set top := e.a - 1 + e.c with htop
  set temp := top - top % 2 ^ 16 with htemp
  set code := (if temp < e.c then temp + 0x8000 else temp) with hcode
  have hcd : e.c ≤ code ∧ code < e.c + e.a ∧ 2 ^ 15 ∣ code := by
    have hdm := Nat.div_add_mod top (2 ^ 16)
    have hml := Nat.mod_lt top (show 2 ^ 16 > 0 by positivity)
    have ht2 : temp = 2 ^ 16 * (top / 2 ^ 16) := by omega
    by_cases hlt : temp < e.c
    · rw [hcode, if_pos hlt]
      refine ⟨by norm_num at *; omega, by norm_num at *; omega, ?_⟩
      exact ⟨2 * (top / 2 ^ 16) + 1, by rw [ht2]; ring⟩
    · rw [hcode, if_neg hlt]
      refine ⟨by omega, by omega, ⟨2 * (top / 2 ^ 16), by rw [ht2]; ring⟩⟩
  obtain ⟨hc1, hc2, hc3⟩ := hcd
  set c := code * 2 ^ e.ct with hc
  have hcb : c < 2 ^ 28 := by
    have h3 : code * 2 ^ e.ct < (e.c + e.a) * 2 ^ e.ct := Nat.mul_lt_mul_of_pos_right hc2 (by positivity)
    exact lt_of_lt_of_le (lt_of_lt_of_le h3 h.spare) (by norm_num)
  have hc16 : 2 ^ 16 ∣ c := by
    rw [hc, show (2 : Nat) ^ 16 = 2 ^ 15 * 2 ^ 1 by norm_num]
    exact Nat.mul_dvd_mul hc3 (Nat.pow_dvd_pow 2 h1)
  have hcc : 2 ^ 27 ≤ c → ∃ b, e.buffer = some b := by
    intro hge
    cases hb : e.buffer with
    | some b => exact ⟨b, rfl⟩
    | none =>
      -- as in no_top_carry, with the code in place of the base
      exfalso
      obtain ⟨hU, hz⟩ := h.fresh hb
      have hl := h.low
      have hn := h.n
      have ht := h.top
      have haa := h.a
      have hct := h.ct
      simp only [Enc.held, hU, hz, hb, List.replicate_zero, Option.toList, List.nil_append] at hl hn
      rw [List.length_replicate] at hn
      have hv := val_ff e.sc
      have hp : (2 : Nat) ^ (27 - e.ct) * 2 ^ e.ct = 2 ^ 27 := by rw [← pow_add]; congr 1; omega
      have hc' : 2 ^ (27 - e.ct) ≤ code := by
        by_contra hx
        have : code * 2 ^ e.ct < 2 ^ (27 - e.ct) * 2 ^ e.ct := Nat.mul_lt_mul_of_pos_right (by omega) (by positivity)
        omega
      have hN : (2 : Nat) ^ (16 + t.N) = 256 ^ e.sc * 2 ^ (27 - e.ct) := by
        rw [show (256 : Nat) = 2 ^ 8 from rfl, ← pow_mul, ← pow_add]; congr 1; omega
      rw [hN, ← hv] at ht
      have : (val (List.replicate e.sc 255) + 1) * 2 ^ (27 - e.ct) =
        val (List.replicate e.sc 255) * 2 ^ (27 - e.ct) + 2 ^ (27 - e.ct) := by ring
      omega
  -- the flushed encoder
  obtain ⟨e', U', v, hsel, hf, hv⟩ : ∃ e' U' v, (if c / 2 ^ 27 % 32 ≠ 0 then carry e else settle e) = e' ∧
      Flushed pre U' e' (e.held U).length v ∧ v * 2 ^ 27 + c % 2 ^ 27 = val (e.held U) * 2 ^ 27 + c := by
    by_cases hge : 2 ^ 27 ≤ c
    · obtain ⟨b, hb⟩ := hcc hge
      obtain ⟨U', hf⟩ := carry_spec h hb
      refine ⟨_, U', _, if_pos (by norm_num at *; omega), hf, by norm_num at *; omega⟩
    · obtain ⟨U', hf⟩ := settle_spec h
      refine ⟨_, U', _, if_neg (by norm_num at *; omega), hf, by norm_num at *; omega⟩
  have hdig : c % 2 ^ 27 = (c / 2 ^ 19 % 256) * 2 ^ 19 + (c / 2 ^ 11 % 256) * 2 ^ 11 := by
    obtain ⟨k, hk⟩ := hc16
    norm_num at *; omega
  have hd16 : c / 2 ^ 11 % 2 ^ 16 = (c / 2 ^ 19 % 256) * 256 + c / 2 ^ 11 % 256 := by
    norm_num at *; omega
  obtain ⟨P, hP1, hP2, hP3, hP4⟩ : ∃ P, finish e = pre ++ stuff P ∧ IsBytes P ∧
      (∀ i, P.getD i 0 = (U' ++ List.replicate e'.zc 0 ++ [c / 2 ^ 19 % 256, c / 2 ^ 11 % 256]).getD i 0) ∧
      P.getLast? ≠ some 0 := by
    have hfin : finish e = if c / 2 ^ 11 % 2 ^ 16 ≠ 0 then
        e'.out ++ List.replicate e'.zc 0 ++ stuffed (c / 2 ^ 19 % 256) ++
          (if c / 2 ^ 11 % 256 ≠ 0 then stuffed (c / 2 ^ 11 % 256) else [])
      else e'.out := by
      rw [← hsel]; rfl
    have hz : IsBytes (List.replicate e'.zc 0) := by
      intro x hx; rw [List.eq_of_mem_replicate hx]; omega
    rw [hfin]
    by_cases hne : c / 2 ^ 11 % 2 ^ 16 ≠ 0
    · rw [if_pos hne]
      by_cases hm : c / 2 ^ 11 % 256 ≠ 0
      · rw [if_pos hm]
        refine ⟨U' ++ List.replicate e'.zc 0 ++ [c / 2 ^ 19 % 256, c / 2 ^ 11 % 256], ?_, ?_, fun _ => rfl, by simpa using hm⟩
        · rw [show [c / 2 ^ 19 % 256, c / 2 ^ 11 % 256] = [c / 2 ^ 19 % 256] ++ [c / 2 ^ 11 % 256] from rfl]
          simp only [stuff_append, stuff_zeros, stuff_single, hf.out, List.append_assoc]
        · rw [isBytes_append, isBytes_append]
          refine ⟨⟨hf.byt, hz⟩, ?_⟩
          intro x hx
          simp at hx; omega
      · rw [if_neg hm]
        refine ⟨U' ++ List.replicate e'.zc 0 ++ [c / 2 ^ 19 % 256], ?_, ?_, ?_, by simp; omega⟩
        · simp only [stuff_append, stuff_zeros, stuff_single, hf.out, List.append_assoc, List.append_nil]
        · rw [isBytes_append, isBytes_append]
          refine ⟨⟨hf.byt, hz⟩, ?_⟩
          intro x hx
          simp at hx; omega
        · intro i
          have : c / 2 ^ 11 % 256 = 0 := by omega
          rw [this, show [c / 2 ^ 19 % 256, 0] = [c / 2 ^ 19 % 256] ++ List.replicate 1 0 from rfl, ← List.append_assoc,
            getD_append_zeros]
    · rw [if_neg hne]
      refine ⟨U', hf.out, hf.byt, ?_, hf.last⟩
      intro i
      rw [show c / 2 ^ 19 % 256 = 0 by omega, show c / 2 ^ 11 % 256 = 0 by omega,
        show [0, 0] = List.replicate 2 0 from rfl, getD_append_zeros, getD_append_zeros]
  have hzx : zx P ((e.held U).length + 4) = val (e.held U) * 2 ^ 32 + c * 2 ^ 5 := by
    rw [zx_congr hP3]
    have hlen := hf.len
    rw [zx_zero _ (by simp at hlen ⊢; omega), zx_zero _ (by simp at hlen ⊢; omega)]
    have hl2 : (e.held U).length + 2 = (U' ++ List.replicate e'.zc 0 ++ [c / 2 ^ 19 % 256, c / 2 ^ 11 % 256]).length := by
      simp at hlen ⊢; omega
    rw [hl2, zx_length, val_append, hf.v]
    have hv2 : val [c / 2 ^ 19 % 256, c / 2 ^ 11 % 256] = (c / 2 ^ 19 % 256) * 256 + c / 2 ^ 11 % 256 := by
      simp [val]
    rw [hv2]
    simp only [List.length_cons, List.length_nil]
    rw [hdig] at hv
    exact digits hv
  have hN : 8 * ((e.held U).length + 4) - 16 - t.N = e.ct + 5 := by
    have := h.n
    have := h.ct
    omega
  have hpow : (2 : Nat) ^ (27 - e.ct) * 2 ^ (e.ct + 5) = 2 ^ 32 := by
    rw [← pow_add]; congr 1
    have := h.ct
    omega
  have hlow : t.low * 2 ^ (e.ct + 5) = val (e.held U) * 2 ^ 32 + e.c * 2 ^ e.ct * 2 ^ 5 := by
    rw [h.low, ← hpow, pow_add]; ring
  refine ⟨P, hP1, hP2, ⟨(e.held U).length + 4, ?_, ?_, ?_⟩, ?_⟩
  · have := h.n
    omega
  · rw [hzx, hN, hlow]
    have : e.c * 2 ^ e.ct ≤ code * 2 ^ e.ct := Nat.mul_le_mul_right _ hc1
    rw [hc]
    have := Nat.mul_le_mul_right (2 ^ 5) this
    omega
  · rw [hzx, hN, Nat.add_mul, hlow, h.a]
    have : (code + 1) * 2 ^ e.ct ≤ (e.c + e.a) * 2 ^ e.ct := Nat.mul_le_mul_right _ hc2
    rw [hc, pow_add]
    have hp : 0 < 2 ^ e.ct := by positivity
    nlinarith
  · -- the code has no more than N + 1 significant bits
    by_contra hlong
    have hct := h.ct
    have hn := h.n
    have hdvd : 2 ^ (e.ct + 20) ∣ zx P ((e.held U).length + 4) := by
      rw [hzx, hc]
      refine Nat.dvd_add ?_ ?_
      · exact Nat.dvd_trans (Nat.pow_dvd_pow 2 (by omega)) (Nat.dvd_mul_left _ _)
      · rw [show e.ct + 20 = 15 + e.ct + 5 by omega, pow_add, pow_add]
        exact Nat.mul_dvd_mul (Nat.mul_dvd_mul hc3 (Nat.dvd_refl _)) (Nat.dvd_refl _)
    have hPl : P.length ≤ (e.held U).length + 4 := by
      by_contra hgt
      have hlast := hP3 (P.length - 1)
      have hne : P ≠ [] := by intro hx; rw [hx] at hgt; simp at hgt
      have : (U' ++ List.replicate e'.zc 0 ++ [c / 2 ^ 19 % 256, c / 2 ^ 11 % 256]).getD (P.length - 1) 0 = 0 := by
        have := hf.len
        rw [List.getD_eq_getElem?_getD, List.getElem?_eq_none (by simp at this ⊢; omega)]; rfl
      rw [this, List.getD_eq_getElem?_getD, ← List.getLast?_eq_getElem?, List.getLast?_eq_some_getLast hne] at hlast
      rw [List.getLast?_eq_some_getLast hne] at hP4
      exact hP4 (by simpa using hlast)
    obtain ⟨q, hq⟩ := Nat.exists_eq_add_of_le hPl
    have hzz : ∀ n, zx P (P.length + n) = val P * 256 ^ n := by
      intro n
      induction n with
      | zero => simpa using zx_length P
      | succ n ih => rw [← Nat.add_assoc, zx_zero P (by omega), ih, pow_succ]; ring
    rw [hq, hzz, show (256 : Nat) = 2 ^ 8 from rfl, ← pow_mul] at hdvd
    have hd8 : 2 ^ 8 ∣ val P := by
      have h2 : 2 ^ 8 * 2 ^ (8 * q) ∣ val P * 2 ^ (8 * q) :=
        Nat.dvd_trans (by rw [← pow_add]; exact Nat.pow_dvd_pow 2 (by omega)) hdvd
      exact Nat.dvd_of_mul_dvd_mul_right (by positivity) h2
    have hne : P ≠ [] := by intro hx; rw [hx] at hlong; simp at hlong
    have hsplit := List.dropLast_concat_getLast hne
    rw [← hsplit, val_append, val_single] at hd8
    have hlast : P.getLast hne = 0 := by
      have hb := hP2 _ (List.getLast_mem hne)
      simp only [List.length_singleton, pow_one] at hd8
      have : 2 ^ 8 ∣ P.getLast hne := (Nat.dvd_add_right (Dvd.intro_left _ rfl)).1 hd8
      obtain ⟨z, hz⟩ := this
      norm_num at hz
      omega
    rw [List.getLast?_eq_some_getLast hne, hlast] at hP4
    exact hP4 rfl

end Verif.Arith
