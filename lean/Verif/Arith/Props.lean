import Verif.Arith.Dec
/-
C04: the arithmetic coder transports decisions exactly; its registers stay in their ranges; the decoder takes any bytes.
-/
namespace Verif.Arith

open Verif.Huff (unstuff segTail stuff stuff_nil stuff_append stuff_cons)

theorem isBytes_unstuff {bytes : List Nat} (h : IsBytes bytes) (ff : Bool) : IsBytes (unstuff ff bytes) := by
  induction bytes generalizing ff with
  | nil => simp [unstuff]
  | cons c bs ih =>
    rw [isBytes_cons] at h
    cases ff
    · rw [unstuff]
      split
      · exact ih h.2 _
      · rw [isBytes_cons]; exact ⟨h.1, ih h.2 _⟩
    · rw [unstuff]
      split
      · exact ih h.2 _
      · split
        · rw [isBytes_cons]; exact ⟨by omega, ih h.2 _⟩
        · simp

theorem segTail_ne_zero {bytes : List Nat} {ff : Bool} {m : Nat} {rest : List Nat} (h : segTail ff bytes = some (m, rest)) :
    m ≠ 0 ∧ m ≠ 0xFF := by
  induction bytes generalizing ff with
  | nil => simp [segTail] at h
  | cons c bs ih =>
    cases ff
    · rw [segTail] at h
      split at h <;> exact ih h
    · rw [segTail] at h
      split at h
      · exact ih h
      · split at h
        · exact ih h
        · simp only [Option.some.injEq, Prod.mk.injEq] at h
          omega

/-- The bytes of a coded list of decisions (after whatever was written before). -/
theorem finish_all {β : Type} [DecidableEq β] (pre : List Nat) (σ : β → Nat) (hσ : ∀ b, Good (σ b)) (ds : List (β × Bool)) :
    ∃ P, finish (encodeAll (Enc.init pre) σ ds) = pre ++ stuff P ∧ IsBytes P ∧
      In P (T.all ⟨0, 0x10000, 0⟩ σ ds) ∧ 8 * P.length ≤ (T.all ⟨0, 0x10000, 0⟩ σ ds).N + 8 := by
  obtain ⟨U, h1, h2, h3⟩ := encodeAll_spec ds (EInv.init pre) (σ := σ) (by simp [Enc.init]) (by simp [Enc.init])
    (by simp [Enc.init]) hσ
  exact finish_spec h1 h2 h3

/-- **C04.** Any list of decisions with any bins, from any bin values, after any output: the encoder appends bytes `seg`
such that a decoding procedure that asks for the same bins — each may depend on the decisions before — and reads `seg`
up to the marker `m` that follows gets the same decisions, and so the result `y` it computes from them; it then stands at
the marker, with no data bytes left before it. -/
theorem C04_arith_roundtrip {β α : Type} [DecidableEq β] (rdr : Rdr β α) (ds : List (β × Bool)) (y : α)
    (hrep : rdr.replay ds = some y) (σ : β → Nat) (hσ : ∀ b, Good (σ b)) (pre : List Nat) :
    ∃ seg, finish (encodeAll (Enc.init pre) σ ds) = pre ++ seg ∧
      ∀ m rest, m ≠ 0 → m ≠ 0xFF → ∃ d σ', rdr.run (Dec.init (seg ++ 0xFF :: m :: rest)) σ = some (y, d, σ') ∧
        d.tail = some (m, rest) ∧ d.unread = [] := by
  obtain ⟨P, h1, h2, h3, h4⟩ := finish_all pre σ hσ ds
  refine ⟨stuff P, h1, ?_⟩
  intro m rest hm hm2
  have hfeed : Feed P m rest 0 (stuff P ++ 0xFF :: m :: rest) 0 := by
    refine Or.inl ⟨rfl, ?_, ?_⟩
    · rw [Huff.unstuff_stuff_append]
      simp [unstuff, hm, hm2]
    · rw [Huff.segTail_stuff_append]
      simp [segTail, hm, hm2]
  obtain ⟨d1, j, k, h5, h6⟩ := init_spec hm hfeed
  refine run_spec h2 hm rdr ds y hrep (by simp) (by simp) hσ h5 h6 ⟨0, hfeed, ?_⟩ h3 h4
  cases ds with
  | cons _ _ => exact Or.inr (Or.inl (by simp))
  | nil =>
    right; right
    have he : finish (encodeAll (Enc.init pre) σ ([] : List (β × Bool))) = pre := by
      simp [encodeAll, finish, Enc.init, settle]
    rw [he] at h1
    have : stuff P = [] := by
      have := congrArg List.length h1
      simp only [List.length_append] at this
      exact List.length_eq_zero_iff.1 (by omega)
    cases P with
    | nil => rfl
    | cons x P =>
      rw [stuff_cons] at this
      split at this <;> simp at this

/-- The decoding procedure that asks for the given bins in order. -/
def askAll {β : Type} : List β → Rdr β (List Bool)
  | [] => .ret []
  | b :: bs => .ask b fun x =>
    let rec go : List β → List Bool → Rdr β (List Bool)
      | [], acc => .ret acc
      | b :: bs, acc => .ask b fun x => go bs (acc ++ [x])
    go bs [x]

theorem askAll_go {β : Type} [DecidableEq β] (ds : List (β × Bool)) (acc : List Bool) :
    (askAll.go (ds.map Prod.fst) acc).replay ds = some (acc ++ ds.map Prod.snd) := by
  induction ds generalizing acc with
  | nil => simp [askAll.go, Rdr.replay]
  | cons bx ds ih => simp [askAll.go, Rdr.replay, ih]

theorem askAll_replay {β : Type} [DecidableEq β] (ds : List (β × Bool)) :
    (askAll (ds.map Prod.fst)).replay ds = some (ds.map Prod.snd) := by
  cases ds with
  | nil => simp [askAll, Rdr.replay]
  | cons bx ds => simp [askAll, Rdr.replay, askAll_go]

/-- **C04**, for fixed bins: decoding with the same bins gives the same decisions. -/
theorem C04_arith_decisions {β : Type} [DecidableEq β] (ds : List (β × Bool)) (σ : β → Nat) (hσ : ∀ b, Good (σ b))
    (m : Nat) (rest : List Nat) (hm : m ≠ 0) (hm2 : m ≠ 0xFF) :
    ∃ d σ', (askAll (ds.map Prod.fst)).run
      (Dec.init (finish (encodeAll (Enc.init []) σ ds) ++ 0xFF :: m :: rest)) σ = some (ds.map Prod.snd, d, σ') := by
  obtain ⟨seg, h1, h2⟩ := C04_arith_roundtrip (askAll (ds.map Prod.fst)) ds _ (askAll_replay ds) σ hσ []
  obtain ⟨d, σ', h3, _, _⟩ := h2 m rest hm hm2
  rw [List.nil_append] at h1
  rw [h1]
  exact ⟨d, σ', h3⟩

/-- C04: the encoder's registers.  At every point `a` is in 0x8000..0x10000, `c + a` fits 28 bits with the spacer bits, the
shift counter is in 1..11; so 32-bit registers are enough and the fuel of `renormE` is. -/
theorem C04_encoder_registers {β : Type} [DecidableEq β] (pre : List Nat) (σ : β → Nat) (hσ : ∀ b, Good (σ b))
    (ds : List (β × Bool)) :
    let e := encodeAll (Enc.init pre) σ ds
    0x8000 ≤ e.a ∧ e.a ≤ 0x10000 ∧ 1 ≤ e.ct ∧ e.ct ≤ 11 ∧ (e.c + e.a) * 2 ^ e.ct ≤ 2 ^ 27 + 2 ^ 24 ∧
      (∀ b ∈ e.buffer, b < 255) := by
  obtain ⟨U, h1, h2, h3⟩ := encodeAll_spec ds (EInv.init pre) (σ := σ) (by simp [Enc.init]) (by simp [Enc.init])
    (by simp [Enc.init]) hσ
  refine ⟨h3, ?_, h2, h1.ct, h1.spare, h1.buf⟩
  have : ∀ (ds : List (β × Bool)) (t : T) (σ : β → Nat), (∀ b, Good (σ b)) → 0x8000 ≤ t.a → t.a ≤ 0x10000 →
      (t.all σ ds).a ≤ 0x10000 := by
    intro ds
    induction ds with
    | nil => intro t σ _ _ h; exact h
    | cons bx ds ih =>
      intro t σ hσ ha ha2
      have h5 := T.step_a (hσ bx.1) (x := bx.2) ha ha2
      exact ih _ _ (good_upd hσ _ _ ((hσ bx.1).next bx.2)) h5.1 h5.2
  rw [← h1.a]
  exact this ds _ σ hσ (by simp) (by simp)

/-- The decoder's registers: fresh, or the code lies in the interval. -/
def Dec.Ok (d : Dec) : Prop :=
  (d.c = 0 ∧ d.a = 0 ∧ d.ct = -16) ∨
    (0 ≤ d.ct ∧ d.ct ≤ 7 ∧ 1 ≤ d.a ∧ d.a ≤ 0x10000 ∧ d.c < d.a * 2 ^ d.ct.toNat)

theorem shiftD_ok {P : List Nat} {m : Nat} {rest : List Nat} {j : Nat} {d : Dec} (hP : IsBytes P) (hm : m ≠ 0)
    (hf : Feed P m rest j d.bytes d.marker) (h0 : 0 ≤ d.ct) (h7 : d.ct ≤ 7) (hc : d.c < d.a * 2 ^ d.ct.toNat) :
    ∃ d' j', shiftD d = some d' ∧ Feed P m rest j' d'.bytes d'.marker ∧ 0 ≤ d'.ct ∧ d'.ct ≤ 7 ∧ d'.a = d.a * 2 ∧
      d'.c < d'.a * 2 ^ d'.ct.toNat := by
  by_cases h : d.ct - 1 < 0
  · obtain ⟨b, m', h1, h2⟩ := fetch_spec hm hf
    have hct : d.ct = 0 := by omega
    refine ⟨⟨d.c * 2 ^ 8 + P.getD j 0, d.a * 2, 7, b, m'⟩, j + 1, ?_, h2, by simp, by simp, rfl, ?_⟩
    · rw [shiftD, if_pos h, h1]
      simp [hct]
    · have := getD_lt hP j
      rw [hct] at hc
      simp at hc
      show d.c * 2 ^ 8 + P.getD j 0 < d.a * 2 * 2 ^ 7
      omega
  · refine ⟨⟨d.c, d.a * 2, d.ct - 1, d.bytes, d.marker⟩, j, by rw [shiftD, if_neg h], hf, ?_, ?_, rfl, ?_⟩
    · dsimp only; omega
    · dsimp only; omega
    · dsimp only
      have : d.ct.toNat = (d.ct - 1).toNat + 1 := by omega
      rw [this, pow_succ] at hc
      linarith

theorem renormD_ok (n : Nat) {P : List Nat} {m : Nat} {rest : List Nat} {j : Nat} {d : Dec} (hP : IsBytes P) (hm : m ≠ 0)
    (hf : Feed P m rest j d.bytes d.marker) (h0 : 0 ≤ d.ct) (h7 : d.ct ≤ 7) (hc : d.c < d.a * 2 ^ d.ct.toNat)
    (ha : 0x8000 ≤ d.a * 2 ^ n) (ha2 : d.a ≤ 0x10000) :
    ∃ d' j', renormD n d = some d' ∧ Feed P m rest j' d'.bytes d'.marker ∧ 0 ≤ d'.ct ∧ d'.ct ≤ 7 ∧ 0x8000 ≤ d'.a ∧
      d'.a ≤ 0x10000 ∧ d'.c < d'.a * 2 ^ d'.ct.toNat := by
  induction n generalizing d j with
  | zero => exact ⟨d, j, rfl, hf, h0, h7, by simpa using ha, ha2, hc⟩
  | succ n ih =>
    rw [renormD]
    by_cases h : d.a < 0x8000
    · obtain ⟨d1, j1, h1, h2, h3, h4, h5, h6⟩ := shiftD_ok hP hm hf h0 h7 hc
      rw [if_pos h, h1, Option.bind_some]
      refine ih h2 h3 h4 h6 ?_ ?_
      · rw [h5]; rw [pow_succ'] at ha; linarith
      · omega
    · rw [if_neg h]
      exact ⟨d, j, rfl, hf, h0, h7, by omega, ha2, hc⟩

theorem decide1_ok {d : Dec} {sv : Nat} (hs : Good sv) (h0 : 0 ≤ d.ct) (h7 : d.ct ≤ 7) (ha : 0x8000 ≤ d.a)
    (ha2 : d.a ≤ 0x10000) (hc : d.c < d.a * 2 ^ d.ct.toNat) :
    (decide1 d sv).2.1.Ok ∧ Good (decide1 d sv).2.2 ∧ (decide1 d sv).2.1.bytes = d.bytes ∧
      (decide1 d sv).2.1.marker = d.marker := by
  have hq := hs.qe
  have hsub : (d.a - qeOf sv) * 2 ^ d.ct.toNat + qeOf sv * 2 ^ d.ct.toNat = d.a * 2 ^ d.ct.toNat := by
    rw [← Nat.add_mul]; congr 1; omega
  have up : d.c ≥ (d.a - qeOf sv) * 2 ^ d.ct.toNat →
      Dec.Ok { d with c := d.c - (d.a - qeOf sv) * 2 ^ d.ct.toNat, a := qeOf sv } := by
    intro hge
    refine Or.inr ⟨h0, h7, hq.1, ?_, ?_⟩
    · dsimp only; omega
    · dsimp only; omega
  have down : ¬ d.c ≥ (d.a - qeOf sv) * 2 ^ d.ct.toNat → Dec.Ok { d with a := d.a - qeOf sv } := by
    intro hge
    refine Or.inr ⟨h0, h7, ?_, ?_, ?_⟩
    · dsimp only; omega
    · dsimp only; omega
    · dsimp only; omega
  unfold decide1
  dsimp only
  by_cases hge : d.c ≥ (d.a - qeOf sv) * 2 ^ d.ct.toNat
  · simp only [if_pos hge]
    by_cases hx : d.a - qeOf sv < qeOf sv
    · simp only [if_pos hx]; exact ⟨up hge, hs.mps, trivial, trivial⟩
    · simp only [if_neg hx]; exact ⟨up hge, hs.lps, trivial, trivial⟩
  · simp only [if_neg hge]
    by_cases hx : d.a - qeOf sv < 0x8000
    · simp only [if_pos hx]
      by_cases hy : d.a - qeOf sv < qeOf sv
      · simp only [if_pos hy]; exact ⟨down hge, hs.lps, trivial, trivial⟩
      · simp only [if_neg hy]; exact ⟨down hge, hs.mps, trivial, trivial⟩
    · simp only [if_neg hx]; exact ⟨down hge, hs, trivial, trivial⟩

theorem renorm_any {P : List Nat} {m : Nat} {rest : List Nat} {j : Nat} {d : Dec} (hP : IsBytes P) (hm : m ≠ 0)
    (hf : Feed P m rest j d.bytes d.marker) (hok : d.Ok) :
    ∃ d' j', renormD 16 d = some d' ∧ Feed P m rest j' d'.bytes d'.marker ∧ 0 ≤ d'.ct ∧ d'.ct ≤ 7 ∧ 0x8000 ≤ d'.a ∧
      d'.a ≤ 0x10000 ∧ d'.c < d'.a * 2 ^ d'.ct.toNat := by
  rcases hok with ⟨hc, ha, hct⟩ | ⟨h0, h7, ha1, ha2, hc⟩
  · obtain ⟨b1, m1, h1, h2⟩ := fetch_spec hm hf
    obtain ⟨b2, m2, h3, h4⟩ := fetch_spec hm h2
    refine ⟨⟨P.getD j 0 * 256 + P.getD (j + 1) 0, 0x10000, 0, b2, m2⟩, j + 2, ?_, h4, by simp, by simp, by simp, by simp, ?_⟩
    · have e1 : shiftD d = some ⟨P.getD j 0, 0, -8, b1, m1⟩ := by
        rw [shiftD, if_pos (by rw [hct]; simp), h1]
        simp [hc, ha, hct]
      have e2 : shiftD ⟨P.getD j 0, 0, -8, b1, m1⟩ = some ⟨P.getD j 0 * 256 + P.getD (j + 1) 0, 0x10000, 0, b2, m2⟩ := by
        rw [shiftD, if_pos (by simp)]
        simp only [h3]
        simp
      rw [renormD, if_pos (by rw [ha]; simp), e1, Option.bind_some, renormD, if_pos (by simp), e2, Option.bind_some, renormD,
        if_neg (by simp)]
    · have := getD_lt hP j
      have := getD_lt hP (j + 1)
      show P.getD j 0 * 256 + P.getD (j + 1) 0 < 0x10000 * 2 ^ 0
      omega
  · exact renormD_ok 16 hP hm hf h0 h7 hc (by omega) ha2

/-- C04: on any bytes that end in some marker, valid or not, from any valid bins, every decoding procedure gets all its
decisions (after the data, zeros are supplied), the registers stay in range, the bins valid, and the marker is not passed. -/
theorem C04_decoder_total {β α : Type} [DecidableEq β] (rdr : Rdr β α) (σ : β → Nat) (hσ : ∀ b, Good (σ b))
    (bytes : List Nat) (hb : IsBytes bytes) {m : Nat} {rest : List Nat} (ht : segTail false bytes = some (m, rest)) :
    ∃ y d σ', rdr.run (Dec.init bytes) σ = some (y, d, σ') ∧ d.Ok ∧ (∀ b, Good (σ' b)) ∧ d.tail = some (m, rest) := by
  have hm := (segTail_ne_zero ht).1
  have key : ∀ (rdr : Rdr β α) (σ : β → Nat) (d : Dec) (j : Nat), (∀ b, Good (σ b)) → d.Ok →
      Feed (unstuff false bytes) m rest j d.bytes d.marker →
      ∃ y d' σ', rdr.run d σ = some (y, d', σ') ∧ d'.Ok ∧ (∀ b, Good (σ' b)) ∧ d'.tail = some (m, rest) := by
    intro rdr
    induction rdr with
    | ret x =>
      intro σ d j hσ hok hf
      refine ⟨x, d, σ, rfl, hok, hσ, ?_⟩
      rcases hf with ⟨hk, _, ht⟩ | ⟨hk, _, hb⟩
      · simp [Dec.tail, hk, ht]
      · simp [Dec.tail, hk, hm, hb]
    | ask b f ih =>
      intro σ d j hσ hok hf
      obtain ⟨d1, j1, h1, h2, h3, h4, h5, h6, h7⟩ := renorm_any (isBytes_unstuff hb false) hm hf hok
      obtain ⟨h8, h9, h10, h11⟩ := decide1_ok (hσ b) h3 h4 h5 h6 h7
      rw [Rdr.run, decode1, h1]
      simp only [Option.map_some]
      exact ih _ _ _ j1 (good_upd hσ b _ h9) h8 (by rw [h10, h11]; exact h2)
  exact key rdr σ _ 0 hσ (Or.inl ⟨rfl, rfl, rfl⟩) (Or.inl ⟨rfl, by simp [Dec.init], ht⟩)

/-! ### Examples -/

/-- Seven bins, 40 decisions. -/
def exDs : List (Nat × Bool) := (List.range 40).map fun i => (i * i % 7, i % 3 = 0 || i > 30)

example : ∀ b : Nat, Good ((fun _ => 0) b) := fun _ => ⟨by simp, by simp⟩

/-- Bytes that stand out: the coder writes a nontrivial segment, and it is decoded. -/
example : finish (encodeAll (Enc.init [0xFF, 0xDA]) (fun _ => 0) exDs) = [0xFF, 0xDA] ++ finish (encodeAll (Enc.init []) (fun _ => 0) exDs) ∧
    3 ≤ (finish (encodeAll (Enc.init []) (fun _ => 0) exDs)).length := by decide +kernel

example : ((askAll (exDs.map Prod.fst)).run
    (Dec.init (finish (encodeAll (Enc.init []) (fun _ => 0) exDs) ++ [0xFF, 0xD9])) (fun _ => 0)).map (fun r => (r.1, r.2.1.tail)) =
      some (exDs.map Prod.snd, some (0xD9, [])) := by decide +kernel

/-- A carry over two stacked FF bytes: 12 FF FF becomes 13 00 00. -/
example : (byteOut ⟨2 ^ 27 + 5 * 2 ^ 19, 0x9000, 2, 0, 0, some 0x12, []⟩) =
    ⟨0, 0x9000, 0, 2, 8, some 5, [0x13]⟩ := by decide +kernel

/-- Arbitrary bytes (FF 00 is data, FF FF D9 the marker) are accepted. -/
example : ((askAll (List.replicate 60 0)).run (Dec.init [0x12, 0xFF, 0, 0x80, 0xFF, 0xFF, 0xD9, 7]) (fun _ => 0)).map
    (fun r => (r.1.length, r.2.1.tail)) = some (60, some (0xD9, [7])) := by decide +kernel

end Verif.Arith
