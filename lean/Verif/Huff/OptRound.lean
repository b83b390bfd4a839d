/-
C39: two-pass (optimize_coding) sequential Huffman compression: the tables made from the statistics of the first
pass always serve the second pass, and decoding returns the coefficients.
-/
import Verif.Huff.OptProps
import Verif.Huff.Props
import Mathlib.Tactic.Tauto

namespace Verif.Huff.Opt

/-- Final counter values of one table: `dc_count_ptrs[n]` / `ac_count_ptrs[n]` (/repo/jchuff.c:205-222, :812-876). -/
def optFreq (evs : List SymEvent) (isDC : Bool) (n s : Nat) : Nat := evs.countP (fun e => e == ⟨isDC, n, s⟩)

/-- `finish_pass_gather` (/repo/jchuff.c:1118-1160): the optimal table for table number n, from its counters.
The statistics model counts per table number, so it does not matter that components share tables.
On error (no table) the model gives an empty table; the theorem below shows there is no error. -/
def optTbl (evs : List SymEvent) (isDC : Bool) (n : Nat) : HuffTbl :=
  match genOptimal (optFreq evs isDC n) with
  | .ok t => t
  | .error _ => ⟨[], []⟩

def SymOk (prec : Nat) (e : SymEvent) : Prop :=
  if e.isDC then e.sym ≤ prec + 3 else e.sym < 256 ∧ e.sym % 16 ≤ prec + 2

theorem gZrl_ok {prec tbl : Nat} : ∀ (r : Nat) (acc : List SymEvent), (∀ e ∈ acc, SymOk prec e) →
    (gZrl tbl r acc).1 ≤ 15 ∧ ∀ e ∈ (gZrl tbl r acc).2, SymOk prec e := by
  intro r
  induction r using Nat.strongRecOn with
  | _ r ih =>
    intro acc h
    unfold gZrl
    by_cases hr : r > 15
    · rw [if_pos hr]
      apply ih (r - 16) (by omega)
      intro e he
      rcases List.mem_append.1 he with he | he
      · exact h e he
      · rw [List.mem_singleton] at he
        subst he
        simp [SymOk]
    · rw [if_neg hr]
      exact ⟨by simp only; omega, h⟩

theorem gAC_ok {prec tbl : Nat} (hp : prec ≤ 12) : ∀ (ts : List Int) (r : Nat) (acc acc' : List SymEvent),
    (∀ e ∈ acc, SymOk prec e) → gAC (prec + 2) tbl ts r acc = some acc' → ∀ e ∈ acc', SymOk prec e := by
  intro ts
  induction ts with
  | nil =>
    intro r acc acc' h hg
    simp only [gAC, Option.some.injEq] at hg
    subst hg
    intro e he
    split at he
    · rcases List.mem_append.1 he with he | he
      · exact h e he
      · rw [List.mem_singleton] at he
        subst he
        simp [SymOk]
    · exact h e he
  | cons t ts ih =>
    intro r acc acc' h hg
    simp only [gAC] at hg
    by_cases h0 : t = 0
    · rw [if_pos h0] at hg
      exact ih _ _ _ h hg
    · rw [if_neg h0] at hg
      obtain ⟨z1, z2⟩ := gZrl_ok (tbl := tbl) r acc h
      by_cases hb : nbitsOf t.natAbs > prec + 2
      · rw [if_pos hb] at hg; simp at hg
      · rw [if_neg hb] at hg
        refine ih _ _ _ ?_ hg
        intro e he
        rcases List.mem_append.1 he with he | he
        · exact z2 e he
        · rw [List.mem_singleton] at he
          subst he
          simp only [SymOk, Bool.false_eq_true, if_false, Nat.shiftLeft_eq]
          omega

theorem gBlock_ok {prec : Nat} (hp : prec ≤ 12) {b : BlkSpec} {last : Int} {blk : List Int}
    {acc acc' : List SymEvent} (h : ∀ e ∈ acc, SymOk prec e) (hg : gBlock prec b last blk acc = some acc') :
    ∀ e ∈ acc', SymOk prec e := by
  simp only [gBlock] at hg
  split at hg
  · simp at hg
  · refine gAC_ok hp _ _ _ _ ?_ hg
    intro e he
    rcases List.mem_append.1 he with he | he
    · exact h e he
    · rw [List.mem_singleton] at he
      subst he
      simp only [SymOk, if_true]
      omega

theorem gBlocks_symok {prec : Nat} (hp : prec ≤ 12) : ∀ (bs : List BlkSpec) (mcu : List (List Int))
    (last : Nat → Int) (acc : List SymEvent) (x : (Nat → Int) × List SymEvent),
    (∀ e ∈ acc, SymOk prec e) → gBlocks prec bs mcu last acc = some x → ∀ e ∈ x.2, SymOk prec e := by
  intro bs
  induction bs with
  | nil => intro mcu last acc x h hg; simp [gBlocks] at hg; subst hg; exact h
  | cons b bs ih =>
    intro mcu last acc x h hg
    cases mcu with
    | nil => simp [gBlocks] at hg; subst hg; exact h
    | cons blk blks =>
      simp only [gBlocks] at hg
      cases e : gBlock prec b (last b.ci) blk acc with
      | none => rw [e] at hg; simp at hg
      | some acc1 =>
        rw [e] at hg
        exact ih _ _ _ _ (gBlock_ok hp h e) hg

theorem gMCUs_symok {prec ri : Nat} (hp : prec ≤ 12) {bs : List BlkSpec} : ∀ (ms : List (List (List Int)))
    (last : Nat → Int) (togo : Nat) (acc evs : List SymEvent),
    (∀ e ∈ acc, SymOk prec e) → gMCUs prec ri bs ms last togo acc = some evs → ∀ e ∈ evs, SymOk prec e := by
  intro ms
  induction ms with
  | nil => intro last togo acc evs h hg; simp [gMCUs] at hg; subst hg; exact h
  | cons m ms ih =>
    intro last togo acc evs h hg
    simp only [gMCUs] at hg
    cases e : gBlocks prec bs m (if ri ≠ 0 ∧ togo = 0 then fun _ => 0 else last) acc with
    | none => rw [e] at hg; simp at hg
    | some x =>
      rw [e] at hg
      exact ih _ _ _ _ (gBlocks_symok hp _ _ _ _ _ h e) hg

theorem freq_pos {evs : List SymEvent} {d : Bool} {n s : Nat} :
    optFreq evs d n s ≠ 0 ↔ (⟨d, n, s⟩ : SymEvent) ∈ evs := by
  unfold optFreq
  rw [← Nat.pos_iff_ne_zero, List.countP_pos_iff]
  constructor
  · rintro ⟨e, he, h⟩
    rw [beq_iff_eq] at h
    rw [← h]; exact he
  · intro h
    exact ⟨_, h, by simp⟩

theorem used_le {freq : Nat → Nat} (P : Nat → Bool) (k : Nat)
    (hk : ((List.range 256).filter P).length = k) (h : ∀ s < 256, freq s ≠ 0 → P s = true) :
    (used freq).length ≤ k := by
  rw [← hk]
  apply List.Sublist.length_le
  unfold used
  have : (List.range 256).filter (fun s => decide (freq s ≠ 0)) =
      ((List.range 256).filter P).filter (fun s => decide (freq s ≠ 0)) := by
    rw [List.filter_filter]
    apply List.filter_congr
    intro x hx
    have := h x (List.mem_range.1 hx)
    by_cases e : freq x = 0
    · simp [e]
    · simp [e, this e]
  rw [this]
  exact List.filter_sublist

theorem fillVals_bytes (cs nz : Nat → Nat) : ∀ (L : List Nat) (hv bp : Nat → Nat), (∀ p, hv p < 256) →
    ∀ p, (fillVals cs nz L (hv, bp)).1 p < 256 := by
  intro L
  induction L with
  | nil => intro hv bp h p; exact h p
  | cons i L ih =>
    intro hv bp h p
    simp only [fillVals]
    apply ih
    intro q
    split
    · exact Nat.mod_lt _ (by omega)
    · exact h q

theorem genOptimal_bytes {freq : Nat → Nat} {t : HuffTbl} (h : genOptimal freq = .ok t) : IsBytes t.vals := by
  unfold genOptimal at h
  simp only at h
  split at h
  · simp at h
  · split at h
    · simp at h
    · split at h
      · simp at h
      · injection h with h
        subst h
        intro v hv
        obtain ⟨p, _, rfl⟩ := List.mem_map.1 hv
        exact fillVals_bytes _ _ _ _ _ (fun _ => by simp) p

/-- For realistic statistics the table is generated and accepted with the given symbol limit. -/
theorem optTbl_ok_few {evs : List SymEvent} {d : Bool} {n maxsym k : Nat} (P : Nat → Bool)
    (hk : ((List.range 256).filter P).length = k) (hk2 : k ≤ 254)
    (hP : ∀ s < 256, P s = true → s ≤ maxsym)
    (h : ∀ s < 256, (⟨d, n, s⟩ : SymEvent) ∈ evs → P s = true)
    (hT : total (optFreq evs d n) < 9227464 ∨ (k ≤ 32 ∧ total (optFreq evs d n) + 1 ≤ LIM)) :
    genOptimal (optFreq evs d n) = .ok (optTbl evs d n) ∧ (optTbl evs d n).counts.length = 16 ∧
      IsBytes (optTbl evs d n).vals ∧
      ∃ c, makeCTbl maxsym (optTbl evs d n) = some c ∧ ∀ s < 256, (⟨d, n, s⟩ : SymEvent) ∈ evs → (c s).2 ≠ 0 := by
  have huk : (used (optFreq evs d n)).length ≤ k := used_le P k hk (fun s hs hne => h s hs (freq_pos.1 hne))
  have hu : (used (optFreq evs d n)).length ≤ 254 := Nat.le_trans huk hk2
  have hTL : total (optFreq evs d n) + 1 ≤ LIM := by unfold LIM at *; omega
  have hs := codeSizes_spec (optFreq evs d n) hTL
  have h32 : ∀ i ≤ (used (optFreq evs d n)).length, codeSizes (optFreq evs d n) i ≤ 32 := by
    intro i hi
    rcases hT with hT | ⟨hT, -⟩
    case inr => have := hs.lt i hi; omega
    by_contra hgt
    have := hs.fibo i hi (by omega)
    have hm : fib 35 ≤ fib (codeSizes (optFreq evs d n) i + 2) := fib_mono (by omega)
    have : fib 35 = 9227465 := by decide +kernel
    omega
  obtain ⟨t, e, T⟩ := genOptimal_tspec _ hu hTL h32
  have et : optTbl evs d n = t := by unfold optTbl; rw [e]
  rw [et]
  obtain ⟨c, hc, hcl⟩ := makeCTbl_ok (maxsym := maxsym) T.len (by have := T.sum; omega) T.kraft
    (by have := T.sum; have := T.vlen; omega) (T.perm.nodup_iff.2 (used_nodup _)) (by
      intro v hv
      have := mem_used.1 (T.perm.mem_iff.1 hv)
      exact hP v this.1 (h v this.1 (freq_pos.1 this.2)))
  refine ⟨e, T.len, genOptimal_bytes e, c, hc, ?_⟩
  intro s hs hev
  have hmem : s ∈ t.vals.take t.counts.sum := T.perm.mem_iff.2 (mem_used.2 ⟨hs, freq_pos.2 hev⟩)
  obtain ⟨p, hp, hps⟩ := List.mem_iff_getElem.1 hmem
  have hp2 := hp
  rw [List.length_take] at hp2
  obtain ⟨-, -, -, p4, -⟩ := encoder_table_prefix_code maxsym t T.len c hc
  apply (p4 s).2
  refine ⟨p, by omega, ?_⟩
  rw [List.getElem_take] at hps
  rw [← hps, List.getD_eq_getElem?_getD, List.getElem?_eq_getElem (by omega)]
  rfl

theorem optTbl_ok {evs : List SymEvent} {d : Bool} {n maxsym k : Nat} (P : Nat → Bool)
    (hk : ((List.range 256).filter P).length = k) (hk2 : k ≤ 254)
    (hP : ∀ s < 256, P s = true → s ≤ maxsym)
    (h : ∀ s < 256, (⟨d, n, s⟩ : SymEvent) ∈ evs → P s = true)
    (hT : total (optFreq evs d n) < 9227464) :
    genOptimal (optFreq evs d n) = .ok (optTbl evs d n) ∧ (optTbl evs d n).counts.length = 16 ∧
      IsBytes (optTbl evs d n).vals ∧
      ∃ c, makeCTbl maxsym (optTbl evs d n) = some c ∧ ∀ s < 256, (⟨d, n, s⟩ : SymEvent) ∈ evs → (c s).2 ≠ 0 :=
  optTbl_ok_few P hk hk2 hP h (.inl hT)

/-- **C39.**  Sequential Huffman compression with optimize_coding.  For every precision up to 12 bits, restart
interval, MCU layout and coefficient data in range (with fewer than 9227464 symbols per table): the statistics
pass succeeds, a Huffman table is generated for every table number in use, the encoder accepts these tables,
the second pass succeeds (no symbol lacks a code), and the decoder, given the same tables, returns exactly the
coefficients and stops at the following marker. -/
theorem optimize_coding_roundtrip (prec ri : Nat) (hprec : prec ≤ 12) (bs : List BlkSpec)
    (mcus : List (List (List Int)))
    (hmcus : ∀ m ∈ mcus, m.length = bs.length ∧ ∀ blk ∈ m, InRange prec blk)
    (hcnt : ∀ evs, gatherScan prec ri bs mcus = some evs → ∀ d n, total (optFreq evs d n) < 9227464)
    (m : Nat) (hm : 0 < m ∧ m < 0xFF) (tail : List Nat) (htail : IsBytes tail) :
    ∃ evs es bytes ds s', gatherScan prec ri bs mcus = some evs ∧
      (∀ d n, genOptimal (optFreq evs d n) = .ok (optTbl evs d n)) ∧
      bs.mapM (encBlk (optTbl evs true) (optTbl evs false)) = some es ∧
      encScan prec ri es mcus = some bytes ∧ IsBytes bytes ∧
      bs.mapM (decBlk (optTbl evs true) (optTbl evs false)) = some ds ∧
      decMCUs ri ds mcus.length (decInit ri (bytes ++ [0xFF, m] ++ tail)) = some (mcus, s') ∧
      s'.rd.warns = 0 ∧ endOfScan s' = some (m, tail, 0) := by
  obtain ⟨evs, hev⟩ := gatherScan_isSome (prec := prec) (ri := ri) (bs := bs) (ms := mcus)
    (fun m hm blk hb => (hmcus m hm).2 blk hb)
  have hok : ∀ e ∈ evs, SymOk prec e := gMCUs_symok hprec _ _ _ _ _ (by simp) hev
  have hDC := fun n => optTbl_ok (evs := evs) (d := true) (n := n) (maxsym := 15) (k := 16)
    (fun s => decide (s < 16)) (by decide +kernel) (by omega) (by simp; omega)
    (by
      intro s hs h
      have := hok _ h
      simp only [SymOk, if_true] at this
      simp; omega) (hcnt evs hev true n)
  have hAC := fun n => optTbl_ok (evs := evs) (d := false) (n := n) (maxsym := 255) (k := 240)
    (fun s => decide (s % 16 < 15)) (by decide +kernel) (by omega) (by intro s hs _; omega)
    (by
      intro s hs h
      have := hok _ h
      simp only [SymOk, Bool.false_eq_true, if_false] at this
      simp; omega) (hcnt evs hev false n)
  have hes : ∃ es, bs.mapM (encBlk (optTbl evs true) (optTbl evs false)) = some es := by
    apply mapM_isSome
    intro b _
    obtain ⟨-, -, -, c1, e1, -⟩ := hDC b.dcNo
    obtain ⟨-, -, -, c2, e2, -⟩ := hAC b.acNo
    unfold encBlk
    rw [e1, e2]
    exact ⟨_, rfl⟩
  obtain ⟨es, hes⟩ := hes
  obtain ⟨bytes, ds, s', h1, h2, h3, h4, h5, h6⟩ := seq_huffman_roundtrip prec ri hprec bs
    (optTbl evs true) (optTbl evs false)
    (by
      intro b _
      exact ⟨(hDC b.dcNo).2.1, (hDC b.dcNo).2.2.1, (hAC b.acNo).2.1, (hAC b.acNo).2.2.1⟩)
    es hes mcus hmcus
    (by
      intro evs' h' e he
      rw [hev] at h'
      injection h' with h'
      subst h'
      have hs := hok e he
      obtain ⟨d, n, s⟩ := e
      cases d with
      | true =>
        simp only [if_true]
        simp only [SymOk, if_true] at hs
        obtain ⟨-, -, -, c, hc, h⟩ := hDC n
        exact ⟨c, hc, h s (by omega) he⟩
      | false =>
        simp only [Bool.false_eq_true, if_false]
        simp only [SymOk, Bool.false_eq_true, if_false] at hs
        obtain ⟨-, -, -, c, hc, h⟩ := hAC n
        exact ⟨c, hc, h s (by omega) he⟩)
    m hm tail htail
  refine ⟨evs, es, bytes, ds, s', hev, ?_, hes, h1, h2, h3, h4, h5, h6⟩
  intro d n
  cases d with
  | true => exact (hDC n).1
  | false => exact (hAC n).1

theorem sum_ind_le (L : List Nat) (hnd : L.Nodup) (x : Nat) : (L.map (fun s => if x = s then 1 else 0)).sum ≤ 1 := by
  induction L with
  | nil => simp
  | cons y L ih =>
    rw [List.nodup_cons] at hnd
    rw [List.map_cons, List.sum_cons]
    by_cases e : x = y
    · subst e
      have : L.map (fun s => if x = s then 1 else 0) = L.map (fun _ => 0) := by
        apply List.map_congr_left
        intro s hs
        rw [if_neg (by rintro rfl; exact hnd.1 hs)]
      rw [this]
      simp
    · rw [if_neg e]
      have := ih hnd.2
      omega

/-- No table has more counts than there are events. -/
theorem total_le (evs : List SymEvent) (d : Bool) (n : Nat) : total (optFreq evs d n) ≤ evs.length := by
  unfold total optFreq
  have hnd : (List.range 256).Nodup := List.nodup_range
  generalize List.range 256 = L at hnd
  have hz : ∀ L : List Nat, (L.map (fun _ => 0)).sum = 0 := by
    intro L
    induction L with
    | nil => rfl
    | cons x L ih => rw [List.map_cons, List.sum_cons, ih]
  induction evs with
  | nil => simp only [List.countP_nil, hz]; omega
  | cons e evs ih =>
    simp only [List.countP_cons, List.length_cons]
    have hadd : ∀ (L : List Nat) (f g : Nat → Nat), (L.map (fun s => f s + g s)).sum = (L.map f).sum + (L.map g).sum := by
      intro L f g
      induction L with
      | nil => rfl
      | cons x L ih => simp only [List.map_cons, List.sum_cons, ih]; omega
    rw [hadd]
    have : (L.map (fun s => if (e == (⟨d, n, s⟩ : SymEvent)) = true then 1 else 0)).sum ≤ 1 := by
      by_cases h : e.isDC = d ∧ e.tbl = n
      · have he : ∀ s, ((e == (⟨d, n, s⟩ : SymEvent)) = true) = (e.sym = s) := by
          intro s
          obtain ⟨a, b, c⟩ := e
          obtain ⟨rfl, rfl⟩ := h
          simp
        simp only [he]
        exact sum_ind_le _ hnd _
      · have he : ∀ s, ((e == (⟨d, n, s⟩ : SymEvent)) = true) = False := by
          intro s
          obtain ⟨a, b, c⟩ := e
          simp only [beq_iff_eq, SymEvent.mk.injEq, eq_iff_iff, iff_false]
          simp only at h
          tauto
        simp only [he, if_false]
        rw [hz]; omega
    omega

/-- The theorem applies to the two-MCU example of C01. -/
example : ∃ evs es bytes ds s', gatherScan 8 1 [⟨0, 0, 0⟩] [[exBlk 5 (-3) 1], [exBlk (-1024) 1023 (-1023)]] = some evs ∧
    encScan 8 1 es [[exBlk 5 (-3) 1], [exBlk (-1024) 1023 (-1023)]] = some bytes ∧
    decMCUs 1 ds 2 (decInit 1 (bytes ++ [0xFF, 0xD9] ++ [1, 2])) =
      some ([[exBlk 5 (-3) 1], [exBlk (-1024) 1023 (-1023)]], s') := by
  obtain ⟨evs, es, bytes, ds, s', h1, -, -, h4, -, -, h7, -⟩ := optimize_coding_roundtrip 8 1 (by omega) [⟨0, 0, 0⟩]
    [[exBlk 5 (-3) 1], [exBlk (-1024) 1023 (-1023)]] (by decide +kernel)
    (by
      intro evs he d n
      rw [exGather] at he
      simp only [Option.some.injEq] at he
      have := total_le evs d n
      have hl : evs.length = 12 := by rw [← he]; rfl
      omega)
    0xD9 (by omega) [1, 2] (by unfold IsBytes; decide)
  exact ⟨evs, es, bytes, ds, s', h1, h4, h7⟩

end Verif.Huff.Opt
