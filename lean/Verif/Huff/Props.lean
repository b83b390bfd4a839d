import Verif.Huff.IntervalLemmas
import Verif.Huff.InvalidLemmas
/-
Property theorems C01, C06, C07.
-/
namespace Verif.Huff

theorem scanTail_head (ri : Nat) (es : List EBlk) (ms : List (List (List Int))) (last : Nat → Int)
    (togo rst : Nat) (hrst : rst < 8) :
    (scanTail ri es ms last togo rst).2 = [] ∨
      ∃ x rest, (scanTail ri es ms last togo rst).2 = 0xFF :: (0xD0 + x) :: rest ∧ x < 8 := by
  induction ms generalizing last togo rst with
  | nil => left; rfl
  | cons m ms ih =>
    simp only [scanTail]
    split
    · right; exact ⟨rst, _, rfl, hrst⟩
    · exact ih _ _ _ hrst

/-- Reading position after at most 7 leftover bits: the marker scan finds the tail without skipping data. -/
theorem endOfScan_aux {r : Rd} {m : Nat} {tail : List Nat} (ht : r.tail = some (m, tail))
    (hb : r.bits.length < 8) (h0 : r.marker = 0) : nextMarker false 0 r.bytes = some (m, tail, 0) := by
  simp only [Rd.tail, h0, if_true] at ht
  refine segTail_unstuff_nil 0 ?_ ht
  simp only [Rd.bits, h0, if_true, List.length_append, length_bitsOfBytes] at hb
  exact List.length_eq_zero_iff.1 (by omega)

/-- The JPEG Annex K luminance tables, used in the non-vacuity examples (jstdhuff.c:40-62, 80-106). -/
def stdDC : HuffTbl :=
  { counts := [0, 1, 5, 1, 1, 1, 1, 1, 1, 0, 0, 0, 0, 0, 0, 0],
    vals := [0, 1, 2, 3, 4, 5, 6, 7, 8, 9, 10, 11] }
def stdAC : HuffTbl :=
  { counts := [0, 2, 1, 3, 3, 2, 4, 3, 5, 5, 4, 4, 0, 0, 1, 0x7d],
    vals := [0x01, 0x02, 0x03, 0x00, 0x04, 0x11, 0x05, 0x12, 0x21, 0x31, 0x41, 0x06, 0x13, 0x51, 0x61, 0x07,
      0x22, 0x71, 0x14, 0x32, 0x81, 0x91, 0xa1, 0x08, 0x23, 0x42, 0xb1, 0xc1, 0x15, 0x52, 0xd1, 0xf0,
      0x24, 0x33, 0x62, 0x72, 0x82, 0x09, 0x0a, 0x16, 0x17, 0x18, 0x19, 0x1a, 0x25, 0x26, 0x27, 0x28,
      0x29, 0x2a, 0x34, 0x35, 0x36, 0x37, 0x38, 0x39, 0x3a, 0x43, 0x44, 0x45, 0x46, 0x47, 0x48, 0x49,
      0x4a, 0x53, 0x54, 0x55, 0x56, 0x57, 0x58, 0x59, 0x5a, 0x63, 0x64, 0x65, 0x66, 0x67, 0x68, 0x69,
      0x6a, 0x73, 0x74, 0x75, 0x76, 0x77, 0x78, 0x79, 0x7a, 0x83, 0x84, 0x85, 0x86, 0x87, 0x88, 0x89,
      0x8a, 0x92, 0x93, 0x94, 0x95, 0x96, 0x97, 0x98, 0x99, 0x9a, 0xa2, 0xa3, 0xa4, 0xa5, 0xa6, 0xa7,
      0xa8, 0xa9, 0xaa, 0xb2, 0xb3, 0xb4, 0xb5, 0xb6, 0xb7, 0xb8, 0xb9, 0xba, 0xc2, 0xc3, 0xc4, 0xc5,
      0xc6, 0xc7, 0xc8, 0xc9, 0xca, 0xd2, 0xd3, 0xd4, 0xd5, 0xd6, 0xd7, 0xd8, 0xd9, 0xda, 0xe1, 0xe2,
      0xe3, 0xe4, 0xe5, 0xe6, 0xe7, 0xe8, 0xe9, 0xea, 0xf1, 0xf2, 0xf3, 0xf4, 0xf5, 0xf6, 0xf7, 0xf8,
      0xf9, 0xfa] }

/-- Where the marker reader will look next after a scan: the pending marker if there is one, else the result
of scanning forward (`read_markers`, jdmarker.c:988-1005); the last component is the number of bytes it will
report as extraneous. -/
def endOfScan (s : DSt) : Option (Nat × List Nat × Nat) :=
  if s.rd.marker ≠ 0 then some (s.rd.marker, s.rd.bytes, s.disc) else nextMarker false s.disc s.rd.bytes

/-- **C01.** Sequential Huffman round trip.  For every data precision up to 12 bits, restart interval, MCU layout
`bs`, Huffman tables accepted by the encoder, MCU data in range all of whose symbols have codes, any following
marker `m` and any following bytes:  encoding succeeds; the decoder accepts the same tables; decoding the bytes
returns exactly the coefficients, no warning is issued, and the decoder is left exactly at the marker with no
extraneous data. -/
theorem seq_huffman_roundtrip
    (prec ri : Nat) (hprec : prec ≤ 12) (bs : List BlkSpec) (dcT acT : Nat → HuffTbl)
    (htab : ∀ b ∈ bs, (dcT b.dcNo).counts.length = 16 ∧ IsBytes (dcT b.dcNo).vals ∧
      (acT b.acNo).counts.length = 16 ∧ IsBytes (acT b.acNo).vals)
    (es : List EBlk) (hes : bs.mapM (encBlk dcT acT) = some es)
    (mcus : List (List (List Int)))
    (hmcus : ∀ m ∈ mcus, m.length = bs.length ∧ ∀ blk ∈ m, InRange prec blk)
    (hsym : ∀ evs, gatherScan prec ri bs mcus = some evs → Covered dcT acT evs)
    (m : Nat) (hm : 0 < m ∧ m < 0xFF) (tail : List Nat) (htail : IsBytes tail) :
    ∃ bytes ds s', encScan prec ri es mcus = some bytes ∧ IsBytes bytes ∧
      bs.mapM (decBlk dcT acT) = some ds ∧
      decMCUs ri ds mcus.length (decInit ri (bytes ++ [0xFF, m] ++ tail)) = some (mcus, s') ∧
      s'.rd.warns = 0 ∧ endOfScan s' = some (m, tail, 0) := by
  have hF := mapM_forall₂ hes
  -- decoder tables exist
  have hdec : ∀ b ∈ bs, ∃ d, decBlk dcT acT b = some d := by
    intro b hb
    obtain ⟨e, he⟩ : ∃ e, encBlk dcT acT b = some e := by
      clear hmcus hsym htab hes
      induction hF with
      | nil => simp at hb
      | cons hd _ ih =>
        rcases List.mem_cons.1 hb with rfl | hb
        · exact ⟨_, hd⟩
        · exact ih hb
    unfold encBlk at he
    split at he
    case h_2 => simp at he
    rename_i d a e1 e2
    obtain ⟨d', h1⟩ := makeD_of_makeC (some 15) (by simp) e1
    obtain ⟨a', h2⟩ := makeD_of_makeC (ms := none) (by simp) e2
    exact ⟨{ ci := b.ci, dc := d', ac := a' }, by simp [decBlk, h1, h2]⟩
  obtain ⟨ds, hds⟩ := mapM_isSome hdec
  have hFd := mapM_forall₂ hds
  have hlink : List.Forall₂ BlkLink es ds := by
    clear hmcus hsym hes hds hdec
    induction hF generalizing ds with
    | nil => cases hFd; exact .nil
    | cons hd tl ih =>
      rename_i b e bs es
      cases hFd with
      | cons hd' tl' =>
        refine .cons ?_ (ih (fun b hb => htab b (by simp [hb])) _ tl')
        obtain ⟨t1, t2, t3, t4⟩ := htab b (by simp)
        unfold encBlk at hd
        split at hd
        case h_2 => simp at hd
        rename_i d a e1 e2
        simp at hd
        unfold decBlk at hd'
        split at hd'
        case h_2 => simp at hd'
        rename_i d' a' e1' e2'
        simp at hd'
        subst hd hd'
        exact ⟨rfl, linked_of_tables t1 t2 e1 e1', linked_of_tables t3 t4 e2 e2', rfl, rfl⟩
  obtain ⟨evs, hevs⟩ := gatherScan_isSome (prec := prec) (ri := ri) (bs := bs)
    (fun m hm => (hmcus m hm).2)
  have hok : ScanOk prec ri es mcus (fun _ => 0) ri :=
    gMCUs_ok hprec hF hmcus hevs (hsym evs hevs)
  obtain ⟨se, he1, he2⟩ := encMCUs_out hprec hlink mcus (s := encInit ri) (encInit_inv ri) hok
  simp only [encInit, List.nil_append] at he2
  refine ⟨(flushBits se.w).out, ds, ?_⟩
  have hisb : ∀ (ms : List (List (List Int))) (last : Nat → Int) (togo rst : Nat), rst < 8 →
      IsBytes (scanTail ri es ms last togo rst).2 := by
    intro ms
    induction ms with
    | nil => intro _ _ _ _; simp [scanTail, IsBytes]
    | cons m ms ih =>
      intro last togo rst hrst
      simp only [scanTail]
      split
      · have h8 : (rst + 1) &&& 7 < 8 := by rw [and7]; omega
        have := ih (lastAfter es m fun _ => 0) (ri - 1) _ h8
        intro b hb
        simp only [List.mem_append, List.mem_cons, List.not_mem_nil, or_false] at hb
        rcases hb with ((rfl | rfl) | hb) | hb
        · omega
        · omega
        · exact isBytes_segment _ b hb
        · exact this b hb
      · exact ih _ _ _ hrst
  set T := scanTail ri es mcus (fun _ => 0) ri 0 with hT
  have hb2 : IsBytes T.2 := hisb _ _ _ _ (by omega)
  have hbytes : IsBytes (flushBits se.w).out := by
    rw [he2]
    intro b hb
    rcases List.mem_append.1 hb with hb | hb
    · exact isBytes_segment _ b hb
    · exact hb2 b hb
  have hpad : ∃ pad, padOnes T.1 = T.1 ++ pad ∧ pad.length < 8 :=
    ⟨_, rfl, by simp; omega⟩
  obtain ⟨pad, hp1, hp2⟩ := hpad
  obtain ⟨x, rest', hx, hx0, hxff⟩ : ∃ x rest', T.2 ++ ([0xFF, m] ++ tail) = 0xFF :: x :: rest' ∧
      x ≠ 0 ∧ x ≠ 0xFF := by
    rcases scanTail_head ri es mcus (fun _ => 0) ri 0 (by omega) with h | ⟨x, rest, h, hx⟩
    · exact ⟨m, tail, by rw [hT, h]; rfl, by omega, by omega⟩
    · exact ⟨0xD0 + x, rest ++ ([0xFF, m] ++ tail), by rw [hT, h]; rfl, by omega, by omega⟩
  have hsplit : segment T.1 ++ T.2 ++ [0xFF, m] ++ tail = segment T.1 ++ 0xFF :: x :: rest' := by
    rw [← hx]; simp only [List.append_assoc]
  obtain ⟨s', d1, d2, d3, d4, d5, d6⟩ := decMCUs_spec hprec hlink (m := m) (tail := tail) (by omega)
    (by omega) (by omega) htail mcus (s := decInit ri ((flushBits se.w).out ++ [0xFF, m] ++ tail))
    (by simpa [decInit] using hok) (by simp [decInit])
    (by
      refine ⟨by simp [decInit], ?_⟩
      · intro b hb
        simp only [decInit, List.mem_append, List.mem_cons, List.not_mem_nil, or_false] at hb
        rcases hb with (hb | rfl | rfl) | hb
        · exact hbytes b hb
        · omega
        · omega
        · exact htail b hb)
    rfl rfl hp2
    (by
      rw [show (decInit ri ((flushBits se.w).out ++ [0xFF, m] ++ tail)).rd.bits =
          bitsOfBytes (unstuff false ((flushBits se.w).out ++ [0xFF, m] ++ tail)) by
        simp [decInit, Rd.bits]]
      rw [he2, hsplit, (unstuff_segment _ _ _ hx0 hxff).1]
      exact hp1)
    (by
      rw [show (decInit ri ((flushBits se.w).out ++ [0xFF, m] ++ tail)).rd.tail =
          segTail false ((flushBits se.w).out ++ [0xFF, m] ++ tail) by
        simp [decInit, Rd.tail]]
      rw [he2, segment]
      simp only [List.append_assoc]
      rw [segTail_stuff_append]
      rfl)
  refine ⟨s', by simp [encScan, he1], hbytes, hds, d1, by simpa [decInit] using d2, ?_⟩
  unfold endOfScan
  split
  · rename_i h
    simp only [Rd.tail, if_neg h] at d5
    simp at d5
    simp [d5, d3]
  · rename_i h
    rw [d3]
    exact endOfScan_aux d5 d6 (by simpa using h)

/-! Non-vacuity of C01: two MCUs, a restart in between, extreme values, zero runs longer than 16. -/

def exBlk (a b c : Int) : List Int := (((List.replicate 64 (0:Int)).set 0 a).set 1 b).set 63 c

theorem gBlock_eq {prec : Nat} {b : BlkSpec} {last : Int} {blk : List Int} {acc : List SymEvent}
    (h1 : nbitsOf (blk.getD 0 0 - last).natAbs ≤ prec + 3)
    (h2 : ∀ t ∈ zz blk, nbitsOf t.natAbs ≤ prec + 2) :
    gBlock prec b last blk acc = some (acc ++ ⟨true, b.dcNo, nbitsOf (blk.getD 0 0 - last).natAbs⟩ ::
      (acSyms (zz blk) 0).map (SymEvent.mk false b.acNo)) := by
  simp only [gBlock, zz_eq]
  rw [if_neg (by omega), gAC_eq _ _ _ _ _ h2]
  simp

theorem exGather : gatherScan 8 1 [⟨0, 0, 0⟩] [[exBlk 5 (-3) 1], [exBlk (-1024) 1023 (-1023)]] =
    some [⟨true, 0, 3⟩, ⟨false, 0, 2⟩, ⟨false, 0, 0xF0⟩, ⟨false, 0, 0xF0⟩, ⟨false, 0, 0xF0⟩,
      ⟨false, 0, 0xD1⟩, ⟨true, 0, 11⟩, ⟨false, 0, 10⟩, ⟨false, 0, 0xF0⟩, ⟨false, 0, 0xF0⟩,
      ⟨false, 0, 0xF0⟩, ⟨false, 0, 0xDA⟩] := by
  simp only [gatherScan, gMCUs, gBlocks]
  rw [gBlock_eq (by decide) (by decide)]
  simp only
  rw [gBlock_eq (by decide) (by decide)]
  decide +kernel

theorem hasCode_of_dec {ms : Nat} {t : HuffTbl} {s : Nat}
    (h : ((makeCTbl ms t).any (fun c => (c s).2 != 0)) = true) : HasCode ms t s := by
  cases e : makeCTbl ms t with
  | none => simp [e] at h
  | some c => exact ⟨c, e, by simpa [e] using h⟩

theorem covered_of_dec {dcT acT : Nat → HuffTbl} {evs : List SymEvent}
    (h : evs.all (fun e => if e.isDC then (makeCTbl 15 (dcT e.tbl)).any (fun c => (c e.sym).2 != 0)
      else (makeCTbl 255 (acT e.tbl)).any (fun c => (c e.sym).2 != 0)) = true) :
    Covered dcT acT evs := by
  intro e he
  have := List.all_eq_true.1 h e he
  split
  · rename_i hd; rw [if_pos hd] at this; exact hasCode_of_dec this
  · rename_i hd; rw [if_neg hd] at this; exact hasCode_of_dec this

instance (prec : Nat) (blk : List Int) : Decidable (InRange prec blk) := by
  unfold InRange
  exact @instDecidableAnd _ _ _ (@instDecidableAnd _ _ (decidable_of_iff
    (∀ k < 64, 1 ≤ k → (blk.getD k 0).natAbs < 2 ^ (prec + 2))
    ⟨fun h k h1 h2 => h k h2 h1, fun h k h1 h2 => h k h2 h1⟩) inferInstance)

theorem exRoundtrip : ∃ es bytes ds s',
    [(⟨0, 0, 0⟩ : BlkSpec)].mapM (encBlk (fun _ => stdDC) (fun _ => stdAC)) = some es ∧
    encScan 8 1 es [[exBlk 5 (-3) 1], [exBlk (-1024) 1023 (-1023)]] = some bytes ∧
    decMCUs 1 ds 2 (decInit 1 (bytes ++ [0xFF, 0xD9] ++ [1, 2])) =
      some ([[exBlk 5 (-3) 1], [exBlk (-1024) 1023 (-1023)]], s') := by
  have hes : ([(⟨0, 0, 0⟩ : BlkSpec)].mapM (encBlk (fun _ => stdDC) (fun _ => stdAC))).isSome = true := by
    decide +kernel
  obtain ⟨es, hes⟩ := Option.isSome_iff_exists.1 hes
  obtain ⟨bytes, ds, s', h1, -, -, h4, -⟩ := seq_huffman_roundtrip 8 1 (by omega) [⟨0, 0, 0⟩]
    (fun _ => stdDC) (fun _ => stdAC)
    (by intro b _; exact ⟨by decide, by unfold IsBytes; decide +kernel, by decide, by unfold IsBytes; decide +kernel⟩)
    es hes [[exBlk 5 (-3) 1], [exBlk (-1024) 1023 (-1023)]] (by decide +kernel)
    (by
      intro evs he
      rw [exGather] at he
      simp only [Option.some.injEq] at he
      subst he
      exact covered_of_dec (by decide +kernel))
    0xD9 (by omega) [1, 2] (by unfold IsBytes; decide)
  exact ⟨es, bytes, ds, s', hes, h1, h4⟩

/-- Every 0xFF byte is immediately followed by a zero byte. -/
def Clean (bs : List Nat) : Prop := ∀ i, bs[i]? = some 0xFF → bs[i + 1]? = some 0

/-- Segments separated by RST markers numbered `n, n+1, ...` modulo 8. -/
def joinRst : Nat → List (List Nat) → List Nat
  | _, [] => []
  | _, [s] => s
  | n, s :: ss => s ++ [0xFF, 0xD0 + n % 8] ++ joinRst (n + 1) ss

theorem clean_stuff (bs : List Nat) : Clean (stuff bs) := by
  induction bs with
  | nil => intro i h; simp at h
  | cons b bs ih =>
    rw [stuff_cons]
    intro i h
    split at h
    · rename_i hb
      rw [if_pos hb]
      match i with
      | 0 => rfl
      | 1 => simp at h
      | i + 2 =>
        have := ih i (by simpa using h)
        simpa using this
    · rename_i hb
      rw [if_neg hb]
      match i with
      | 0 => simp at h; exact absurd h hb
      | i + 1 =>
        have := ih i (by simpa using h)
        simpa using this

theorem joinRst_rstSegs (n : Nat) (s : List Nat) (ss : List (List Nat)) :
    joinRst n (s :: ss) = s ++ rstSegs (n % 8) ss := by
  induction ss generalizing n s with
  | nil => simp [joinRst, rstSegs]
  | cons x xs ih =>
    rw [joinRst]
    · rw [ih]
      simp only [rstSegs, List.append_assoc]
      rw [show (n % 8 + 1) % 8 = (n + 1) % 8 by omega]
    · simp

theorem chunks_flatten {α : Type} (n : Nat) (hn : n ≠ 0) (l : List α) : (chunks n l).flatten = l := by
  generalize h : l.length = k
  induction k using Nat.strongRecOn generalizing l with
  | ind k ih =>
    rw [chunks]
    split
    · rename_i h0
      rcases h0 with h0 | h0
      · omega
      · simp [h0]
    · rename_i h0
      simp only [not_or] at h0
      have : 0 < l.length := List.length_pos_iff.2 h0.2
      rw [List.flatten_cons, ih (l.drop n).length (by simp; omega) _ rfl, List.take_append_drop]

theorem chunks_lengths {α : Type} (n : Nat) (hn : n ≠ 0) (l : List α) :
    (∀ i, i + 1 < (chunks n l).length → ((chunks n l).getD i []).length = n) ∧
    (∀ c ∈ chunks n l, 0 < c.length ∧ c.length ≤ n) := by
  generalize h : l.length = k
  induction k using Nat.strongRecOn generalizing l with
  | ind k ih =>
    rw [chunks]
    split
    · simp
    · rename_i h0
      simp only [not_or] at h0
      have hpos : 0 < l.length := List.length_pos_iff.2 h0.2
      obtain ⟨i1, i2⟩ := ih (l.drop n).length (by simp; omega) _ rfl
      refine ⟨?_, ?_⟩
      · intro i hi
        cases i with
        | zero =>
          simp only [List.length_cons] at hi
          have hne : chunks n (l.drop n) ≠ [] := by
            intro h; rw [h] at hi; simp at hi
          have : l.drop n ≠ [] := by
            intro h; rw [h, chunks_nil] at hne; exact hne rfl
          have := List.length_pos_iff.2 this
          simp at this ⊢
          omega
        | succ i => simpa using i1 i (by simpa using hi)
      · intro c hc
        rcases List.mem_cons.1 hc with rfl | hc
        · simp; omega
        · exact i2 c hc

theorem forall₂_map_right {α β : Type} {R : α → β → Prop} {f : α → β} {l : List α}
    (h : ∀ a ∈ l, R a (f a)) : List.Forall₂ R l (l.map f) := by
  induction l with
  | nil => exact .nil
  | cons a l ih => exact .cons (h a (by simp)) (ih (fun a ha => h a (by simp [ha])))

/-- **C06.** Whenever a sequential scan is written, the MCUs split into consecutive groups `ivs` (one group if
there is no restart interval, else groups of exactly `ri` MCUs, the last possibly shorter); the bytes are the
groups' segments joined by RST0, RST1, ... modulo 8; each segment is exactly what encoding that group alone
produces, and in it every FF is followed by 00. -/
theorem scan_bytes_structure
    (prec ri : Nat) (hprec : prec ≤ 12) (bs : List BlkSpec) (dcT acT : Nat → HuffTbl)
    (htab : ∀ b ∈ bs, (dcT b.dcNo).counts.length = 16 ∧ (acT b.acNo).counts.length = 16)
    (es : List EBlk) (hes : bs.mapM (encBlk dcT acT) = some es)
    (mcus : List (List (List Int))) (bytes : List Nat) (henc : encScan prec ri es mcus = some bytes) :
    ∃ (ivs : List (List (List (List Int)))) (segs : List (List Nat)),
      ivs.flatten = mcus ∧
      (ri = 0 → ivs.length = 1) ∧
      (ri ≠ 0 → (∀ i, i + 1 < ivs.length → (ivs.getD i []).length = ri) ∧
        ∀ c ∈ ivs, c.length ≤ ri ∧ (mcus ≠ [] → 0 < c.length)) ∧
      List.Forall₂ (fun c s => encScan prec 0 es c = some s ∧ Clean s ∧ IsBytes s) ivs segs ∧
      bytes = joinRst 0 segs := by
  have hwf := encBlk_wf htab (mapM_forall₂ hes)
  have hmag : ScanMag prec ri es mcus (fun _ => 0) ri := by
    unfold encScan at henc
    cases e : encMCUs prec ri es (encInit ri) mcus with
    | none => simp [e] at henc
    | some s => exact encMCUs_mag e
  have hout := encScan_sound (by omega) hwf henc
  have hseg : ∀ c, ScanMag prec 0 es c (fun _ => 0) 0 →
      encScan prec 0 es c = some (segment (scanTail 0 es c (fun _ => 0) 0 0).1) ∧
      Clean (segment (scanTail 0 es c (fun _ => 0) 0 0).1) ∧
      IsBytes (segment (scanTail 0 es c (fun _ => 0) 0 0).1) := fun c hc =>
    ⟨encScan_chunk (by omega) hwf hc, clean_stuff _, isBytes_segment _⟩
  by_cases hri : ri = 0
  · subst hri
    refine ⟨[mcus], [segment (scanTail 0 es mcus (fun _ => 0) 0 0).1], by simp, by simp,
      fun h => absurd rfl h, .cons (hseg _ hmag) .nil, ?_⟩
    rw [hout, scanTail_zero_snd]
    simp [joinRst]
  · obtain ⟨c1, c2⟩ := scanMag_chunks hri hmag
    rw [scanTail_chunks hri] at hout
    by_cases hm : mcus = []
    · subst hm
      refine ⟨[[]], [segment (scanTail 0 es [] (fun _ => 0) 0 0).1], by simp, by simp,
        fun _ => ⟨by simp, by simp⟩, .cons (hseg _ trivial) .nil, ?_⟩
      rw [hout]
      simp [joinRst, chunks_nil, rstSegs]
    · have hc : chunks ri mcus = mcus.take ri :: chunks ri (mcus.drop ri) := by
        conv => lhs; rw [chunks]
        rw [dif_neg (by simp [hri, hm])]
      obtain ⟨l1, l2⟩ := chunks_lengths ri hri mcus
      refine ⟨chunks ri mcus, (chunks ri mcus).map
        (fun c => segment (scanTail 0 es c (fun _ => 0) 0 0).1), chunks_flatten _ hri _,
        fun h => absurd h hri, fun _ => ⟨l1, fun c hc => ⟨(l2 c hc).2, fun _ => (l2 c hc).1⟩⟩,
        forall₂_map_right ?_, ?_⟩
      · intro c h
        rw [hc] at h
        rcases List.mem_cons.1 h with rfl | h
        · exact hseg _ c1
        · exact hseg _ (c2 c h)
      · rw [hout, hc, List.map_cons, joinRst_rstSegs]

/-- Non-vacuity of C06: the C01 example is such a scan (two intervals of one MCU). -/
example : ∃ es bytes, [(⟨0, 0, 0⟩ : BlkSpec)].mapM (encBlk (fun _ => stdDC) (fun _ => stdAC)) = some es ∧
    encScan 8 1 es [[exBlk 5 (-3) 1], [exBlk (-1024) 1023 (-1023)]] = some bytes := by
  obtain ⟨es, bytes, -, -, hes, h1, -⟩ := exRoundtrip
  exact ⟨es, bytes, hes, h1⟩

end Verif.Huff
