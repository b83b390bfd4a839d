import Verif.Huff.Props
/-
Property theorems C07: Huffman tables.
-/
namespace Verif.Huff

/-- Kraft sum of a DHT count list in units of 2^-16: Σ counts[l] * 2^(16-l), l = 1..16. -/
def kraft16 : Nat → List Nat → Nat
  | _, [] => 0
  | l, c :: cs => c * 2 ^ (16 - l) + kraft16 (l + 1) cs

theorem sumK_mkSizes (l : Nat) (cs : List Nat) : sumK (mkSizes l cs) = kraft16 l cs := by
  induction cs generalizing l with
  | nil => rfl
  | cons c cs ih =>
    simp only [mkSizes, kraft16, sumK_append, ih]
    congr 1
    simp [sumK, K]

theorem K_dvd {s s' : Nat} (h : s ≤ s') (h' : s' ≤ 16) : K s' ∣ K s := ⟨2 ^ (s' - s), by
  rw [K_split h h', Nat.mul_comm]⟩

theorem last_max {l : List Nat} (h : List.Pairwise (· ≤ ·) l) : ∀ s ∈ l, s ≤ l.getLastD 0 := by
  induction l with
  | nil => simp
  | cons a l ih =>
    rw [List.pairwise_cons] at h
    intro s hs
    cases l with
    | nil => simp at hs; simp [hs]
    | cons b l =>
      have e : (a :: b :: l).getLastD 0 = (b :: l).getLastD 0 := by simp
      rw [e]
      rcases List.mem_cons.1 hs with rfl | hs
      · exact Nat.le_trans (h.1 b (by simp)) (ih h.2 b (by simp))
      · exact ih h.2 s hs

theorem dvd_sumK {k : Nat} {l : List Nat} (h : ∀ s ∈ l, k ∣ K s) : k ∣ sumK l := by
  induction l with
  | nil => simp
  | cons a l ih =>
    rw [sumK_cons]
    exact Nat.dvd_add (h a (by simp)) (ih (fun s hs => h s (by simp [hs])))

theorem getLastD_mem {l : List Nat} (h : l ≠ []) : l.getLastD 0 ∈ l := by
  cases l with
  | nil => simp at h
  | cons a l =>
    rw [List.getLastD_cons]
    induction l generalizing a with
    | nil => simp
    | cons b l ih => rw [List.getLastD_cons]; exact List.mem_cons_of_mem _ (ih b (by simp))

/-- **C07a.** A table is accepted (by the shared expansion used by both the encoder and the decoder, and by the
decoder for AC tables outright) exactly when it has at most 256 codes and the Kraft sum is strictly below one:
over-subscribed tables, and tables whose longest code would be all ones, are rejected. -/
theorem table_accepted_iff (t : HuffTbl) (h16 : t.counts.length = 16) :
    (makeDTbl none t).isSome ↔ t.counts.sum ≤ 256 ∧ kraft16 1 t.counts < 2 ^ 16 := by
  have hmk : (makeDTbl none t).isSome ↔ (expand t).isSome := by
    unfold makeDTbl
    cases expand t with
    | none => exact Iff.rfl
    | some x => exact iff_of_true rfl rfl
  rw [hmk]
  constructor
  · intro h
    obtain ⟨⟨sizes, codes⟩, he⟩ := Option.isSome_iff_exists.1 h
    obtain ⟨C, hs⟩ := expand_canon (by omega) he
    refine ⟨?_, ?_⟩
    · have := C.le256
      rw [hs, length_mkSizes] at this
      exact this
    · have := C.total
      rw [hs, sumK_mkSizes] at this
      exact this
  · rintro ⟨h1, h2⟩
    obtain ⟨codes, he⟩ : ∃ codes, expand t = some (mkSizes 1 t.counts, codes) := by
      by_cases hnil : mkSizes 1 t.counts = []
      · refine ⟨[], ?_⟩
        unfold expand
        rw [if_pos ((sizesOk_iff 0 _ (by omega)).2 (by omega))]
        simp [hnil]
      · apply expand_isSome (by omega) h1
        rw [sumK_mkSizes]
        have hsz := sizesFrom_mkSizes (cs := t.counts) (by omega)
        have hm := getLastD_mem hnil
        have hr := hsz.2 _ hm
        have hd : K ((mkSizes 1 t.counts).getLastD 0) ∣ kraft16 1 t.counts := by
          rw [← sumK_mkSizes]
          exact dvd_sumK (fun s hs => K_dvd (last_max hsz.1 s hs) hr.2)
        have hd2 : K ((mkSizes 1 t.counts).getLastD 0) ∣ 2 ^ 16 :=
          ⟨2 ^ ((mkSizes 1 t.counts).getLastD 0), by rw [Nat.mul_comm, K_mul _ hr.2]⟩
        have hpos := K_pos ((mkSizes 1 t.counts).getLastD 0)
        generalize K ((mkSizes 1 t.counts).getLastD 0) = k at *
        obtain ⟨a, ha⟩ := hd
        obtain ⟨b, hb⟩ := hd2
        rw [ha, hb] at h2 ⊢
        have : a < b := Nat.lt_of_mul_lt_mul_left h2
        calc k * a + k = k * (a + 1) := by rw [Nat.mul_add, Nat.mul_one]
          _ ≤ k * b := Nat.mul_le_mul_left _ this
    simp [he]

/-- Both outcomes occur: Annex K is accepted, a complete 1-bit code (all-ones code used) is rejected. -/
example : (makeDTbl none stdAC).isSome = true ∧
    (makeDTbl none ⟨[2, 0, 0, 0, 0, 0, 0, 0, 0, 0, 0, 0, 0, 0, 0, 0], [1, 2]⟩).isSome = false := by
  decide +kernel

/-- fillC never overwrites: distinct positions carry distinct symbols. -/
theorem fillC_keep {maxsym : Nat} {ents : List (Nat × Nat × Nat)} {c0 c : CTbl}
    (hpos : ∀ e ∈ ents, e.2.2 ≠ 0)
    (h : fillC maxsym ents c0 = some c) :
    (∀ s, (c0 s).2 ≠ 0 → c s = c0 s) ∧ (∀ e ∈ ents, c e.1 = e.2) := by
  induction ents generalizing c0 with
  | nil => simp [fillC] at h; subst h; simp
  | cons e ents ih =>
    obtain ⟨v, cc, ss⟩ := e
    simp only [fillC] at h
    split at h
    · simp at h
    · split at h
      · simp at h
      · rename_i hv0
        obtain ⟨h1, h2⟩ := ih (fun e he => hpos e (by simp [he])) h
        refine ⟨?_, ?_⟩
        · intro s hs
          have hne : s ≠ v := by rintro rfl; exact hv0 hs
          rw [h1 s (by simp only [if_neg hne]; exact hs), if_neg hne]
        · intro e he
          rcases List.mem_cons.1 he with rfl | he
          · have := h1 v (by simp only [if_pos rfl]; exact hpos (v, cc, ss) (by simp))
            rw [this]; simp
          · exact h2 e he

/-- **C07b.** Every table the encoder accepts gives a prefix code of at most 16 bits per code, without all-ones
codes; the symbols that get a code are exactly the first `Σ counts` values, each listed once. -/
theorem encoder_table_prefix_code (maxsym : Nat) (t : HuffTbl) (h16 : t.counts.length = 16)
    (c : CTbl) (hc : makeCTbl maxsym t = some c) :
    (∀ s, (c s).2 ≤ 16) ∧
    (∀ s, (c s).2 ≠ 0 → symBits c s ≠ List.replicate (c s).2 true) ∧
    (∀ s s', (c s).2 ≠ 0 → (c s').2 ≠ 0 → symBits c s <+: symBits c s' → s = s') ∧
    (∀ s, (c s).2 ≠ 0 ↔ ∃ p < t.counts.sum, t.vals.getD p 0 = s) ∧
    (∀ p q, p < t.counts.sum → q < t.counts.sum → t.vals.getD p 0 = t.vals.getD q 0 → p = q) := by
  have hwf := makeCTbl_wf h16 hc
  obtain ⟨sizes, codes, he, h1, h2⟩ := makeCTbl_spec hc
  obtain ⟨C, hsz⟩ := expand_canon (by omega) he
  have hlen : sizes.length = t.counts.sum := by rw [hsz, length_mkSizes]
  have hsel : ∀ s, (c s).2 ≠ 0 → ∃ q < sizes.length, t.vals.getD q 0 = s ∧
      codes.getD q 0 = (c s).1 ∧ sizes.getD q 0 = (c s).2 := by
    intro s hs
    rcases h1 s with h | h
    · rw [h] at hs; simp at hs
    · exact h
  have hkeep : ∀ q < sizes.length, c (t.vals.getD q 0) = (codes.getD q 0, sizes.getD q 0) := by
    unfold makeCTbl at hc
    simp only [he] at hc
    obtain ⟨-, h⟩ := fillC_keep (by
      intro e he
      simp only [List.mem_map, List.mem_range] at he
      obtain ⟨q, hq, rfl⟩ := he
      have := C.size_range hq
      dsimp only; omega) hc
    intro q hq
    exact h (t.vals.getD q 0, codes.getD q 0, sizes.getD q 0)
      (by simp only [List.mem_map, List.mem_range]; exact ⟨q, hq, rfl⟩)
  refine ⟨fun s => (hwf s).1, ?_, ?_, ?_, ?_⟩
  · intro s hs hcon
    obtain ⟨q, hq, -, e2, e3⟩ := hsel s hs
    have h := C.not_all_ones hq
    rw [symBits, ← e2, ← e3] at hcon
    have h2 : toBits (sizes.getD q 0) (2 ^ sizes.getD q 0 - 1) =
        List.replicate (sizes.getD q 0) true := by
      generalize sizes.getD q 0 = n
      apply List.ext_getElem (by simp)
      intro i hi1 hi2
      have hi : i < n := by simpa using hi1
      simp only [toBits, List.getElem_map, List.getElem_range, List.getElem_replicate]
      rw [Nat.testBit_two_pow_sub_one]
      simp; omega
    rw [← h2] at hcon
    have hp := Nat.two_pow_pos (sizes.getD q 0)
    have := toBits_inj (C.code_lt hq) (by omega) hcon
    omega
  · rintro s s' hs hs' ⟨rest, hr⟩
    obtain ⟨q, hq, e1, e2, e3⟩ := hsel s hs
    obtain ⟨q', hq', e1', e2', e3'⟩ := hsel s' hs'
    rw [symBits, symBits, ← e2, ← e3, ← e2', ← e3'] at hr
    have := C.prefix_unique hq hq' (a := rest) (b := []) (by rw [hr, List.append_nil])
    subst this
    rw [← e1, ← e1']
  · intro s
    constructor
    · intro hs
      obtain ⟨q, hq, e1, -⟩ := hsel s hs
      exact ⟨q, by omega, e1⟩
    · rintro ⟨p, hp, rfl⟩
      rw [hkeep p (by omega)]
      have := C.size_range (p := p) (by omega)
      dsimp only; omega
  · intro p q hp hq hv
    have h1 := hkeep p (by omega)
    have h2 := hkeep q (by omega)
    rw [hv, h2] at h1
    simp only [Prod.mk.injEq] at h1
    exact (C.prefix_unique (show q < sizes.length by omega) (show p < sizes.length by omega)
      (a := []) (b := []) (by rw [h1.1, h1.2])).symm

example : (makeCTbl 255 stdAC).isSome = true := by decide +kernel

/-- **C07c.** Encoder and decoder agree, and the 8-bit lookahead path equals the bit-by-bit path.  For any
table accepted on both sides and any reader position inside a segment (bits remaining: `r.bits`):
if the remaining bits start with the encoder's code of symbol `s`, both paths return `s` and consume exactly that
code with no warning; if they start with no code at all and 17 bits remain, both paths return 0, consume 17 bits
and warn once. -/
theorem decode_paths_agree (maxsym : Nat) (ms : Option Nat) (t : HuffTbl) (h16 : t.counts.length = 16)
    (hv : IsBytes t.vals) (c : CTbl) (d : DTbl) (hc : makeCTbl maxsym t = some c)
    (hd : makeDTbl ms t = some d) (r : Rd) (hr : r.Ok) (ht : r.tail ≠ none) :
    (∀ s rest, (c s).2 ≠ 0 → r.bits = symBits c s ++ rest →
      ∃ r1 r2, huffDecode d r = some (s, r1) ∧ huffSlow d r 1 = some (s, r2) ∧
        r1.bits = rest ∧ r2.bits = rest ∧ r1.warns = r.warns ∧ r2.warns = r.warns) ∧
    ((∀ s, (c s).2 ≠ 0 → ¬ symBits c s <+: r.bits) → 17 ≤ r.bits.length →
      ∃ r1 r2, huffDecode d r = some (0, r1) ∧ huffSlow d r 1 = some (0, r2) ∧
        r1.bits = r.bits.drop 17 ∧ r2.bits = r.bits.drop 17 ∧ r1.warns = r.warns + 1 ∧
        r2.warns = r.warns + 1) := by
  obtain ⟨-, -, -, hiff, -⟩ := encoder_table_prefix_code maxsym t h16 c hc
  obtain ⟨sizes, codes, he, h1, -⟩ := makeCTbl_spec hc
  obtain ⟨sizes', codes', he', F, -⟩ := makeDTbl_facts h16 hd
  rw [he] at he'
  simp at he'
  obtain ⟨rfl, rfl⟩ := he'
  have C := F.canon
  obtain ⟨-, hsz⟩ := expand_canon (by omega) he
  have hlen : sizes.length = t.counts.sum := by rw [hsz, length_mkSizes]
  constructor
  · intro s rest hs hb
    rcases h1 s with h | ⟨q, hq, e1, e2, e3⟩
    · rw [h] at hs; simp at hs
    · rw [symBits, ← e2, ← e3] at hb
      obtain ⟨r1, a1, b1, c1⟩ := huffDecode_spec F hv hq hr ht hb
      obtain ⟨r2, a2, b2, c2⟩ := huffSlow_spec F hq hr ht (l := 1) (by omega) (C.size_range hq).1
        (above_one F _) hb
      rw [e1] at a1 a2
      exact ⟨r1, r2, a1, a2, c1, c2, b1.warns, b2.warns⟩
  · intro hno h17
    have hN : NoCode sizes codes r.bits := by
      intro q hq rest hb
      have hs : (c (t.vals.getD q 0)).2 ≠ 0 := (hiff _).2 ⟨q, by omega, rfl⟩
      have hkeep : c (t.vals.getD q 0) = (codes.getD q 0, sizes.getD q 0) := by
        unfold makeCTbl at hc
        simp only [he] at hc
        obtain ⟨-, h⟩ := fillC_keep (by
          intro e he
          simp only [List.mem_map, List.mem_range] at he
          obtain ⟨q, hq, rfl⟩ := he
          have := C.size_range hq
          dsimp only; omega) hc
        exact h (t.vals.getD q 0, codes.getD q 0, sizes.getD q 0)
          (by simp only [List.mem_map, List.mem_range]; exact ⟨q, hq, rfl⟩)
      refine hno _ hs ⟨rest, ?_⟩
      rw [hb, symBits, hkeep]
    obtain ⟨r1, a1, b1, c1⟩ := huffDecode_invalid F hr ht h17 hN
    obtain ⟨r2, a2, b2, c2⟩ := huffSlow_invalid F hr ht (l := 1) (by omega) (by omega) (above_one F _)
      h17 hN
    exact ⟨r1, r2, a1, a2, c1, c2, b1.warns, b2.warns⟩

/-- Non-vacuity: a reader holding the two-bit Annex K AC code of symbol 0x01 (00) then other bytes and EOI. -/
example : ∃ c d, makeCTbl 255 stdAC = some c ∧ makeDTbl none stdAC = some d ∧
    (⟨0, 0, [0x12, 0x34, 0xFF, 0xD9], 0, false, 0, 0⟩ : Rd).Ok ∧
    (⟨0, 0, [0x12, 0x34, 0xFF, 0xD9], 0, false, 0, 0⟩ : Rd).tail = some (0xD9, []) ∧
    (c 1).2 = 2 ∧ symBits c 1 <+: (⟨0, 0, [0x12, 0x34, 0xFF, 0xD9], 0, false, 0, 0⟩ : Rd).bits := by
  have h1 : ((makeCTbl 255 stdAC).any (fun c => (c 1).2 == 2 && symBits c 1 == [false, false])) = true := by
    decide +kernel
  have h2 : (makeDTbl none stdAC).isSome = true := by decide +kernel
  obtain ⟨d, hd⟩ := Option.isSome_iff_exists.1 h2
  cases e : makeCTbl 255 stdAC with
  | none => rw [e] at h1; simp at h1
  | some c =>
    rw [e] at h1
    simp at h1
    refine ⟨c, d, rfl, hd, ⟨by decide, by unfold IsBytes; decide⟩, by decide, h1.1, ?_⟩
    rw [h1.2]
    decide

end Verif.Huff
