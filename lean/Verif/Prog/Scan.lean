import Verif.Prog.Shape
import Verif.Geom.Blocks
/-
One progressive scan as a whole: choice of the MCU routine, derived tables, coefficient arrays in the decoder.
Code modelled: jcphuff.c:180-284 (start_pass_phuff, output pass), 1015-1060 (finish_pass_phuff),
jdphuff.c:82-196 (start_pass_phuff_decoder), jdcoefct.c:212-272 (consume_data: the MCU routine works on the blocks of
the coefficient arrays in place).
-/
namespace Verif.Prog
open Verif Verif.Huff
open Verif.Geom (Pos Blk storeMcu)

/-- What the entropy coder sees of a scan: the parameters of the scan header, the restart interval, the
`MCU_membership` of the blocks with the DC table number of their component, the AC table number of the component. -/
structure SPar where
  Ss : Nat
  Se : Nat
  Ah : Nat
  Al : Nat
  ri : Nat
  bs : List DCB
  acNo : Nat
deriving Repr, DecidableEq

inductive Kind
  | dcFirst | acFirst | dcRefine | acRefine
deriving Repr, DecidableEq

/-- Choice of the MCU routine, encoder (jcphuff.c:196-221) and decoder (jdphuff.c:150-160). -/
def SPar.kind (p : SPar) : Kind :=
  if p.Ah = 0 then (if p.Ss = 0 then .dcFirst else .acFirst)
  else if p.Ss = 0 then .dcRefine else .acRefine

/-- The calls made while encoding the MCUs of a scan. -/
def scanToks (prec : Nat) (p : SPar) (ms : List (List Blk)) : Option (List Tok) :=
  match p.kind with
  | .dcFirst => encToks (encDCFirst prec p.Al p.bs) p.ri ms
  | .acFirst => encToks (encACFirst prec p.acNo p.Ss p.Se p.Al) p.ri ms
  | .dcRefine => encToks (encDCRefine p.Al) p.ri ms
  | .acRefine => encToks (encACRefine p.acNo p.Ss p.Se p.Al) p.ri ms

/-- The tables a scan needs (jcphuff.c:229-243). -/
def SPar.tbls (p : SPar) : List Nat :=
  match p.kind with
  | .dcFirst => p.bs.map (·.dcNo)
  | .dcRefine => []
  | _ => [p.acNo]

/-- The current tables of the class the scan uses. -/
def SPar.tab (p : SPar) (dcT acT : Nat → HuffTbl) (t : Nat) : HuffTbl := if p.Ss = 0 then dcT t else acT t

/-- `jpeg_make_c_derived_tbl(cinfo, is_DC_band, tbl, …)` (jcphuff.c:263-266). -/
def SPar.mkC (p : SPar) (dcT acT : Nat → HuffTbl) (t : Nat) : Option CTbl :=
  makeCTbl (if p.Ss = 0 then 15 else 255) (p.tab dcT acT t)

/-- `derived_tbls`; a table that is not there has no codes. -/
def SPar.derived (p : SPar) (dcT acT : Nat → HuffTbl) (t : Nat) : CTbl :=
  if t ∈ p.tbls then (p.mkC dcT acT t).getD (fun _ => (0, 0)) else fun _ => (0, 0)

/-- The entropy-coded bytes of a scan; `none` = error exit. -/
def encPScan (prec : Nat) (dcT acT : Nat → HuffTbl) (p : SPar) (ms : List (List Blk)) : Option (List Nat) :=
  if p.tbls.all (fun t => (p.mkC dcT acT t).isSome) then
    match scanToks prec p ms with
    | none => none
    | some ts => writeScan (p.derived dcT acT) ts
  else none

/-- Counter increments of the statistics pass (emit_symbol, jcphuff.c:375-386). -/
def tokEvents (dc : Bool) (ts : List Tok) : List SymEvent :=
  ts.filterMap (fun t => match t with | .sym t s => some ⟨dc, t, s⟩ | _ => none)

/-- Statistics pass of a scan. -/
def gatherPScan (prec : Nat) (p : SPar) (ms : List (List Blk)) : Option (List SymEvent) :=
  (scanToks prec p ms).map (tokEvents (p.Ss == 0))

/-- Decoding all MCUs in place: `W` gives the addresses of the blocks of each MCU. -/
def decImg {σ : Type} (D : PDec σ (List Blk) (List Blk)) (ri : Nat) :
    List (List Pos) → (Pos → Blk) → PSt σ → Option ((Pos → Blk) × PSt σ)
  | [], img, s => some (img, s)
  | ps :: W, img, s =>
    match decOne D ri s (ps.map img) with
    | none => none
    | some (bs, s) => decImg D ri W (storeMcu img ps bs) s

/-- Decoding a scan (jdphuff.c:150-196 and the MCU routines). -/
def decPScan (dcT acT : Nat → HuffTbl) (p : SPar) (W : List (List Pos)) (bytes : List Nat) (img : Pos → Blk) :
    Option ((Pos → Blk) × DSt) :=
  match p.kind with
  | .dcFirst =>
    match p.bs.mapM (fun b => (makeDTbl (some 15) (dcT b.dcNo)).map (DCD.mk b.ci)) with
    | none => none
    | some ds =>
      (decImg (decDCFirst p.Al ds) p.ri W img (pInit (decDCFirst p.Al ds) p.ri bytes)).map (fun x => (x.1, x.2.base))
  | .dcRefine => (decImg (decDCRefine p.Al) p.ri W img (pInit (decDCRefine p.Al) p.ri bytes)).map (fun x => (x.1, x.2.base))
  | .acFirst =>
    match makeDTbl none (acT p.acNo) with
    | none => none
    | some d => (decImg (decACFirst d p.Ss p.Se p.Al) p.ri W img
        (pInit (decACFirst d p.Ss p.Se p.Al) p.ri bytes)).map (fun x => (x.1, x.2.base))
  | .acRefine =>
    match makeDTbl none (acT p.acNo) with
    | none => none
    | some d => (decImg (decACRefine d p.Ss p.Se p.Al) p.ri W img
        (pInit (decACRefine d p.Ss p.Se p.Al) p.ri bytes)).map (fun x => (x.1, x.2.base))

/-! ### in place = on the blocks as they were before the scan -/

theorem storeMcu_eq (img : Pos → Blk) (ps : List Pos) (g : Pos → Blk) :
    storeMcu img ps (ps.map g) = fun q => if q ∈ ps then g q else img q := by
  funext q
  unfold storeMcu
  have hz : ps.zip (ps.map g) = ps.map (fun p => (p, g p)) := by
    induction ps with
    | nil => rfl
    | cons p ps ih => simp [ih]
  rw [hz, Geom.store_pairs g _ _ (by
    intro x hx
    obtain ⟨p, -, rfl⟩ := List.mem_map.1 hx
    rfl)]
  simp [List.map_map, Function.comp_def]

theorem decImg_of_decGo {σ : Type} (D : PDec σ (List Blk) (List Blk)) (ri : Nat) (W : List (List Pos))
    (hW : W.flatten.Nodup) (cur g : Pos → Blk) {s s' : PSt σ}
    (h : decGo D ri (W.map (fun ps => ps.map cur)) s = some (W.map (fun ps => ps.map g), s')) :
    decImg D ri W cur s = some (fun q => if q ∈ W.flatten then g q else cur q, s') := by
  induction W generalizing cur s with
  | nil =>
    simp only [List.map_nil, decGo, Option.some.injEq, Prod.mk.injEq, true_and] at h
    subst h
    simp [decImg]
  | cons ps W ih =>
    simp only [List.map_cons, decGo] at h
    split at h
    · simp at h
    rename_i o s1 e1
    split at h
    · simp at h
    rename_i os s2 e2
    simp only [Option.some.injEq, Prod.mk.injEq, List.cons.injEq] at h
    obtain ⟨⟨rfl, rfl⟩, rfl⟩ := h
    rw [List.flatten_cons, List.nodup_append] at hW
    obtain ⟨-, h2, h3⟩ := hW
    have hc : W.map (fun ps' => ps'.map (fun q => if q ∈ ps then g q else cur q)) = W.map (fun ps' => ps'.map cur) := by
      apply List.map_congr_left
      intro ps' hps
      apply List.map_congr_left
      intro q hq
      rw [if_neg]
      intro hq'
      exact h3 q hq' q (List.mem_flatten.2 ⟨ps', hps, hq⟩) rfl
    simp only [decImg]
    rw [e1]
    dsimp only
    rw [storeMcu_eq, ih h2 _ (by rw [hc]; exact e2)]
    congr 2
    funext q
    simp only [List.flatten_cons, List.mem_append]
    by_cases h1 : q ∈ W.flatten <;> by_cases h2 : q ∈ ps <;> simp [h1, h2]

theorem zipWith_maps {α β γ δ : Type} (f : β → γ → δ) (a : α → β) (b : α → γ) (l : List α) :
    List.zipWith f (l.map a) (l.map b) = l.map (fun x => f (a x) (b x)) := by
  induction l with
  | nil => rfl
  | cons x l ih => simp [ih]

/-! ### the tables -/

/-- Usable tables: every table the scan needs is accepted by the encoder, and every symbol has a code. -/
structure TabsOk (prec : Nat) (dcT acT : Nat → HuffTbl) (p : SPar) (ms : List (List Blk)) : Prop where
  wf : ∀ t ∈ p.tbls, (p.tab dcT acT t).counts.length = 16 ∧ IsBytes (p.tab dcT acT t).vals
  made : ∀ t ∈ p.tbls, ∃ c, p.mkC dcT acT t = some c
  cov : ∀ evs, gatherPScan prec p ms = some evs → Covered dcT acT evs

theorem derived_wf {dcT acT : Nat → HuffTbl} {p : SPar} (h : ∀ t ∈ p.tbls, (p.tab dcT acT t).counts.length = 16)
    (t : Nat) : CWf (p.derived dcT acT t) := by
  intro s
  unfold SPar.derived
  split
  · rename_i hm
    cases e : p.mkC dcT acT t with
    | none => simp
    | some c => exact makeCTbl_wf (h t hm) e s
  · simp

theorem tokOk_of_tabs {prec : Nat} {dcT acT : Nat → HuffTbl} {p : SPar} {ms : List (List Blk)} {ts : List Tok}
    (hT : TabsOk prec dcT acT p ms) (hts : scanToks prec p ms = some ts) {Q : Nat → Prop}
    (hsh : ∀ y ∈ ts, TokShape p.tbls Q y) : ∀ y ∈ ts, TokOk (p.derived dcT acT) y := by
  intro y hy
  have h := hsh y hy
  cases y with
  | bits c n => exact h
  | rst n => trivial
  | sym t s =>
    have hc := hT.cov (tokEvents (p.Ss == 0) ts) (by rw [gatherPScan, hts]; rfl)
    have hm : (⟨p.Ss == 0, t, s⟩ : SymEvent) ∈ tokEvents (p.Ss == 0) ts := by
      unfold tokEvents
      exact List.mem_filterMap.2 ⟨_, hy, rfl⟩
    have := hc _ hm
    dsimp only at this
    show (p.derived dcT acT t s).2 ≠ 0
    unfold SPar.derived
    rw [if_pos h.1]
    unfold SPar.mkC SPar.tab
    by_cases h0 : p.Ss = 0
    · simp only [h0, beq_self_eq_true, if_true] at this ⊢
      obtain ⟨c, e, hs⟩ := this
      rw [e]; exact hs
    · have hb : (p.Ss == 0) = false := by simpa using h0
      simp only [hb, h0, if_false, Bool.false_eq_true] at this ⊢
      obtain ⟨c, e, hs⟩ := this
      rw [e]; exact hs

/-! ### one scan -/

/-- What a scan makes of a block: `o` = the block in the encoder, `c` = what the decoder had before. -/
def SPar.res (p : SPar) (o c : Blk) : Blk :=
  match p.kind with
  | .dcFirst => c.set 0 (apxDC p.Al (o.getD 0 0))
  | .dcRefine => refDC p.Al o c
  | _ => setAC p.Ss p.Se p.Al o c

/-- The layout of the MCUs fits the scan. -/
def SPar.Fits (p : SPar) (W : List (List Pos)) : Prop :=
  if p.Ss = 0 then ∀ ps ∈ W, ps.length = p.bs.length else ∀ ps ∈ W, ps.length = 1

/-- What must be known of the blocks before an AC scan: nothing for a first scan, exactly the bits above `Al` for a
refinement. -/
def SPar.Ready (p : SPar) (o c : Blk) : Prop :=
  match p.kind with
  | .acFirst => ∀ k, p.Ss ≤ k → k ≤ p.Se → c.getD (natOrder.getD k 0) 0 = 0
  | .acRefine => ∀ k, p.Ss ≤ k → k ≤ p.Se → c.getD (natOrder.getD k 0) 0 = apxAC (p.Al + 1) (o.getD (natOrder.getD k 0) 0)
  | _ => True

theorem coef16_of_inRange {prec : Nat} (hp : prec ≤ 12) {b : Blk} (h : InRange prec b) : ∀ v ∈ b, Coef16 v := by
  intro v hv
  obtain ⟨h1, h2, h3, h4⟩ := h
  obtain ⟨k, hk, rfl⟩ := List.getElem_of_mem hv
  have hpow : (2 ^ (prec + 2) : Nat) ≤ 2 ^ 14 := Nat.pow_le_pow_right (by omega) (by omega)
  have e2 : ((2 ^ (prec + 2) : Nat) : Int) = (2 ^ (prec + 2) : Int) := by push_cast; rfl
  have hg : b.getD k 0 = b[k] := by simp [List.getD_eq_getElem?_getD, List.getElem?_eq_getElem hk]
  unfold Coef16
  by_cases h0 : k = 0
  · subst h0
    rw [← hg]
    omega
  · have := h2 k (by omega) (by omega)
    rw [hg] at this
    omega

theorem coef16_dc {prec : Nat} (hp : prec ≤ 12) {b : Blk} (h : InRange prec b) : Coef16 (b.getD 0 0) := by
  apply coef16_of_inRange hp h
  rw [List.getD_eq_getElem?_getD, List.getElem?_eq_getElem (by rw [h.1]; omega)]
  simp

theorem scan_toks {prec : Nat} (hprec : prec ≤ 12) (p : SPar) (hband : p.Ss ≠ 0 → p.Se < 64) (W : List (List Pos))
    (hfit : p.Fits W) (E : Pos → Blk) (hE : ∀ q ∈ W.flatten, InRange prec (E q)) :
    ∃ ts, scanToks prec p (W.map (fun ps => ps.map E)) = some ts ∧
      ∀ y ∈ ts, TokShape p.tbls (if p.Ss = 0 then (· ≤ 15) else ACSym) y := by
  have hmem : ∀ m ∈ W.map (fun ps => ps.map E), ∀ blk ∈ m, InRange prec blk := by
    intro m hm blk hb
    obtain ⟨ps, hps, rfl⟩ := List.mem_map.1 hm
    obtain ⟨q, hq, rfl⟩ := List.mem_map.1 hb
    exact hE q (List.mem_flatten.2 ⟨ps, hps, hq⟩)
  generalize hms : W.map (fun ps => ps.map E) = ms at *
  unfold scanToks SPar.tbls
  have hk : p.kind = p.kind := rfl
  conv at hk => rhs; unfold SPar.kind
  by_cases h1 : p.Ah = 0 <;> by_cases h2 : p.Ss = 0
  · rw [if_pos h1, if_pos h2] at hk
    rw [hk, if_pos h2]
    dsimp only
    obtain ⟨ts, e⟩ := encGo_total (encDCFirst prec p.Al p.bs) (LastOk prec) (by
      have hz : (0 : Int) < 2 ^ (prec + 2) := by exact_mod_cast Nat.two_pow_pos _
      intro i; simp only [encDCFirst]; omega) (fun s _ => ⟨[], rfl⟩) p.ri ms
      (fun m hm s hs => dcFirst_total p.bs m (hmem m hm) hs) (s := fun _ => 0) (by
        have hz : (0 : Int) < 2 ^ (prec + 2) := by exact_mod_cast Nat.two_pow_pos _
        intro i; dsimp only; omega) p.ri 0
    refine ⟨ts, e, ?_⟩
    refine encGo_all (encDCFirst prec p.Al p.bs) _ (fun n => trivial) ?_ p.ri ms
      (fun m _ s t s' h => dcFirst_shape hprec p.bs m h) e
    intro s t h
    simp only [encDCFirst, Option.some.injEq] at h
    subst h; simp
  · rw [if_pos h1, if_neg h2] at hk
    rw [hk, if_neg h2]
    dsimp only
    unfold SPar.Fits at hfit
    rw [if_neg h2] at hfit
    have hone : ∀ m ∈ ms, InRange prec (m.getD 0 []) := by
      intro m hm
      have := hmem m hm
      rw [← hms] at hm
      obtain ⟨ps, hps, rfl⟩ := List.mem_map.1 hm
      have hl := hfit ps hps
      match ps, hl with
      | [q], _ => exact this _ (by simp)
    obtain ⟨ts, e⟩ := encGo_total (encACFirst prec p.acNo p.Ss p.Se p.Al) RunOk (by simp [encACFirst, RunOk])
      (fun s hs => by
        obtain ⟨t, s', e, -⟩ := emitEob_total (tbl := p.acNo) (s := s) (by unfold RunOk at hs; omega)
        exact ⟨t, by simp [encACFirst, e]⟩) p.ri ms
      (fun m hm s hs => acFirstStep_total hprec hs (by omega) (hband h2) m (hone m hm)) (s := ⟨0, []⟩)
      (by simp [RunOk]) p.ri 0
    refine ⟨ts, e, ?_⟩
    refine encGo_all (encACFirst prec p.acNo p.Ss p.Se p.Al) _ (fun n => trivial) ?_ p.ri ms
      (fun m _ s t s' h => acFirstStep_shape hprec h) e
    intro s t h
    simp only [encACFirst, Option.map_eq_some_iff] at h
    obtain ⟨⟨t', s'⟩, he, rfl⟩ := h
    exact emitEob_shape he
  · rw [if_neg h1, if_pos h2] at hk
    rw [hk, if_pos h2]
    dsimp only
    obtain ⟨ts, e⟩ := encGo_total (encDCRefine p.Al) (fun _ => True) trivial (fun s _ => ⟨[], rfl⟩) p.ri ms
      (fun m hm s hs => ⟨_, _, rfl, trivial⟩) (s := ()) trivial p.ri 0
    refine ⟨ts, e, ?_⟩
    refine encGo_all (encDCRefine p.Al) _ (fun n => trivial) ?_ p.ri ms ?_ e
    · intro s t h
      simp only [encDCRefine, Option.some.injEq] at h
      subst h; simp
    · intro m _ s t s' h y hy
      simp only [encDCRefine, Option.some.injEq, Prod.mk.injEq] at h
      rw [← h.1] at hy
      obtain ⟨b, -, rfl⟩ := List.mem_map.1 hy
      exact ⟨by omega, by omega⟩
  · rw [if_neg h1, if_neg h2] at hk
    rw [hk, if_neg h2]
    dsimp only
    obtain ⟨ts, e⟩ := encGo_total (encACRefine p.acNo p.Ss p.Se p.Al) ACSt.Room (by simp [encACRefine, ACSt.Room])
      (fun s hs => by
        obtain ⟨t, s', e, -⟩ := emitEob_total (tbl := p.acNo) (s := s) (by have := hs.1; omega)
        exact ⟨t, by simp [encACRefine, e]⟩) p.ri ms
      (fun m hm s hs => acRefineStep_total (by omega) (hband h2) hs m) (s := ⟨0, []⟩)
      (by simp [ACSt.Room]) p.ri 0
    refine ⟨ts, e, ?_⟩
    refine encGo_all (encACRefine p.acNo p.Ss p.Se p.Al) _ (fun n => trivial) ?_ p.ri ms
      (fun m _ s t s' h => acRefineStep_shape h) e
    intro s t h
    simp only [encACRefine, Option.map_eq_some_iff] at h
    obtain ⟨⟨t', s'⟩, he, rfl⟩ := h
    exact emitEob_shape he


/-- **One scan.**  Encoding succeeds; decoding into the coefficient arrays `cur` changes exactly the blocks of the
scan, as `res` says, without warning, and leaves the reader at the following marker. -/
theorem scan_roundtrip {prec : Nat} (hprec : prec ≤ 12) (p : SPar) (hSe : p.Ss ≤ p.Se ∧ p.Se < 64) (hAl : p.Al < 15)
    (W : List (List Pos)) (hW : W.flatten.Nodup) (hfit : p.Fits W) (E cur : Pos → Blk)
    (hE : ∀ q ∈ W.flatten, InRange prec (E q)) (hcur : ∀ q ∈ W.flatten, p.Ready (E q) (cur q))
    (dcT acT : Nat → HuffTbl) (hT : TabsOk prec dcT acT p (W.map (fun ps => ps.map E)))
    {m : Nat} (hm : 0 < m ∧ m < 0xFF) {tail : List Nat} (htail : IsBytes tail) :
    ∃ bytes s', encPScan prec dcT acT p (W.map (fun ps => ps.map E)) = some bytes ∧ IsBytes bytes ∧
      decPScan dcT acT p W (bytes ++ [0xFF, m] ++ tail) cur =
        some (fun q => if q ∈ W.flatten then p.res (E q) (cur q) else cur q, s') ∧
      s'.rd.warns = 0 ∧ endOfScan s' = some (m, tail, 0) := by
  obtain ⟨ts, hts, hsh⟩ := scan_toks hprec p (fun _ => hSe.2) W hfit E hE
  have hok := tokOk_of_tabs hT hts hsh
  have hwf := derived_wf (fun t ht => (hT.wf t ht).1)
  have hall : p.tbls.all (fun t => (p.mkC dcT acT t).isSome) = true := by
    rw [List.all_eq_true]
    intro t ht
    obtain ⟨c, e⟩ := hT.made t ht
    rw [e]; rfl
  have hmemE : ∀ ps ∈ W, ∀ q ∈ ps, InRange prec (E q) := fun ps hps q hq => hE q (List.mem_flatten.2 ⟨ps, hps, hq⟩)
  unfold encPScan
  rw [if_pos hall, hts]
  dsimp only
  -- everything but the kind of the scan
  have key : ∀ {τ σ : Type} (En : PEnc τ (List Blk)) (hEn : En.NoRst) (D : PDec σ (List Blk) (List Blk))
      (henc : encToks En p.ri (W.map (fun ps => ps.map E)) = some ts)
      (hruns : ∀ (c : List (List Blk × List Blk × List Blk)) (t : List Tok),
        (∀ x ∈ c, x ∈ W.map (fun ps => (ps.map E, ps.map cur, ps.map (fun q => p.res (E q) (cur q))))) →
        encGo En 0 (c.map Prod.fst) En.init 0 0 = some t → (∀ x ∈ t, TokOk (p.derived dcT acT) x) →
        Runs D (c.map Prod.snd) D.init (tokTail (p.derived dcT acT) t).1),
      ∃ bytes s', writeScan (p.derived dcT acT) ts = some bytes ∧ IsBytes bytes ∧
        (decImg D p.ri W cur (pInit D p.ri (bytes ++ [0xFF, m] ++ tail))).map (fun x => (x.1, x.2.base)) =
          some (fun q => if q ∈ W.flatten then p.res (E q) (cur q) else cur q, s') ∧
        s'.rd.warns = 0 ∧ endOfScan s' = some (m, tail, 0) := by
    intro τ σ En hEn D henc hruns
    obtain ⟨bytes, s', q1, q2, q3, q4, q5⟩ := frame_roundtrip En hEn D hwf p.ri
      (W.map (fun ps => (ps.map E, ps.map cur, ps.map (fun q => p.res (E q) (cur q))))) ts
      (by rw [List.map_map]; exact henc) hok hruns hm htail
    refine ⟨bytes, s'.base, q1, q2, ?_, q4, q5⟩
    rw [List.map_map, List.map_map] at q3
    rw [decImg_of_decGo D p.ri W hW cur (fun q => p.res (E q) (cur q)) q3]
    rfl
  have hk : p.kind = p.kind := rfl
  conv at hk => rhs; unfold SPar.kind
  unfold scanToks at hts
  unfold decPScan
  by_cases h1 : p.Ah = 0 <;> by_cases h2 : p.Ss = 0
  · rw [if_pos h1, if_pos h2] at hk
    rw [hk] at hts ⊢
    dsimp only at hts ⊢
    unfold SPar.Fits at hfit
    rw [if_pos h2] at hfit
    have htb : p.tbls = p.bs.map (·.dcNo) := by unfold SPar.tbls; rw [hk]
    have hbd : ∀ b ∈ p.bs, ∃ d, (makeDTbl (some 15) (dcT b.dcNo)).map (DCD.mk b.ci) = some d := by
      intro b hb
      obtain ⟨c, e⟩ := hT.made b.dcNo (by rw [htb]; exact List.mem_map_of_mem hb)
      unfold SPar.mkC SPar.tab at e
      rw [if_pos h2, if_pos h2] at e
      obtain ⟨d, e'⟩ := makeD_of_makeC (some 15) (by simp) e
      rw [e']
      exact ⟨_, rfl⟩
    obtain ⟨ds, hds⟩ := mapM_isSome hbd
    rw [hds]
    dsimp only
    have hF := mapM_forall₂ hds
    have hL : List.Forall₂ (fun b d => b.ci = d.ci ∧ Linked (p.derived dcT acT b.dcNo) d.dc) p.bs ds := by
      have : ∀ b ∈ p.bs, b.dcNo ∈ p.tbls := by intro b hb; rw [htb]; exact List.mem_map_of_mem hb
      generalize hbs : p.bs = bs at hF this
      clear hbd hds
      clear hbs
      induction hF with
      | nil => exact .nil
      | @cons b d bs ds hbd _ ih =>
        refine .cons ?_ (ih (fun b hb => this b (by simp [hb])))
        have hmem := this b (by simp)
        simp only [Option.map_eq_some_iff] at hbd
        obtain ⟨d', e', rfl⟩ := hbd
        obtain ⟨c, e⟩ := hT.made b.dcNo hmem
        obtain ⟨w1, w2⟩ := hT.wf b.dcNo hmem
        refine ⟨rfl, ?_⟩
        unfold SPar.derived
        rw [if_pos hmem, e]
        unfold SPar.mkC SPar.tab at e
        unfold SPar.tab at w1 w2
        rw [if_pos h2] at e w1 w2
        rw [if_pos h2] at e
        exact linked_of_tables w1 w2 e e'
    apply key _ (encDCFirst_noRst prec p.Al p.bs) _ hts
    intro c t hc henc hok
    apply runs_simple (encDCFirst prec p.Al p.bs) (encDCFirst_noRst prec p.Al p.bs) (fun _ => rfl) _ c _ _ t henc hok
    intro x hx s t s' hst hok r rest hr ht hb
    obtain ⟨ps, hps, rfl⟩ := List.mem_map.1 (hc x hx)
    dsimp only at hst ⊢
    obtain ⟨r', e, hs, hb'⟩ := dcFirst_spec (by omega) (by omega) p.bs ds hL (ps.map E) (ps.map cur)
      (by rw [List.length_map]; exact hfit ps hps) (by rw [List.length_map]; exact hfit ps hps)
      (by
        intro blk hblk
        obtain ⟨q, hq, rfl⟩ := List.mem_map.1 hblk
        exact coef16_dc hprec (hmemE ps hps q hq)) hst hok r rest hr ht hb
    refine ⟨r', ?_, hs, hb'⟩
    simp only [decDCFirst]
    rw [e]
    simp only [setDC, zipWith_maps, SPar.res, hk]
  · rw [if_pos h1, if_neg h2] at hk
    rw [hk] at hts ⊢
    dsimp only at hts ⊢
    unfold SPar.Fits at hfit
    rw [if_neg h2] at hfit
    have htb : p.tbls = [p.acNo] := by unfold SPar.tbls; rw [hk]
    obtain ⟨c, e⟩ := hT.made p.acNo (by rw [htb]; simp)
    obtain ⟨w1, w2⟩ := hT.wf p.acNo (by rw [htb]; simp)
    have hder : p.derived dcT acT p.acNo = c := by
      unfold SPar.derived
      rw [if_pos (by rw [htb]; simp), e]; rfl
    unfold SPar.mkC SPar.tab at e
    unfold SPar.tab at w1 w2
    rw [if_neg h2] at e w1 w2
    rw [if_neg h2] at e
    obtain ⟨d, e'⟩ := makeD_of_makeC none (by simp) e
    have L := linked_of_tables w1 w2 e e'
    rw [e']
    dsimp only
    apply key _ (encACFirst_noRst prec p.acNo p.Ss p.Se p.Al) _ hts
    intro c' t hc henc hok
    refine (runs_ac (T := p.derived dcT acT) (tbl := p.acNo) (encACFirst prec p.acNo p.Ss p.Se p.Al)
      (decACFirst d p.Ss p.Se p.Al) (fun _ => rfl) c' ?_ (s := ⟨0, []⟩) (fun _ => rfl) henc hok).1 rfl
    intro x hx s t s' hw hst
    obtain ⟨ps, hps, rfl⟩ := List.mem_map.1 (hc x hx)
    have hl := hfit ps hps
    match ps, hl, hps, hst with
    | [q], _, hps, hst =>
      have hin := hmemE _ hps q (by simp)
      have hrd := hcur q (List.mem_flatten.2 ⟨_, hps, by simp⟩)
      unfold SPar.Ready at hrd
      rw [hk] at hrd
      have := acFirst_mcu L (T := p.derived dcT acT) hder (prec := prec) (by omega) hSe.1 hSe.2 [E q] [cur q]
        (coef16_of_inRange hprec hin) hrd (by simp) hw hst
      simpa [SPar.res, hk] using this
  · rw [if_neg h1, if_pos h2] at hk
    rw [hk] at hts ⊢
    dsimp only at hts ⊢
    apply key _ (encDCRefine_noRst p.Al) _ hts
    intro c t hc henc hok
    apply runs_simple (encDCRefine p.Al) (encDCRefine_noRst p.Al) (fun _ => rfl) _ c _ _ t henc hok
    intro x hx s t s' hst hok r rest hr ht hb
    obtain ⟨ps, hps, rfl⟩ := List.mem_map.1 (hc x hx)
    dsimp only at hst ⊢
    simp only [encDCRefine, Option.some.injEq, Prod.mk.injEq] at hst
    obtain ⟨rfl, -⟩ := hst
    obtain ⟨r', e, hs, hb'⟩ := dcRefine_spec (ps.map E) (ps.map cur) (by simp) r rest hr ht hb
    refine ⟨r', ?_, hs, hb'⟩
    simp only [decDCRefine]
    rw [e]
    simp only [Option.map_some, zipWith_maps, SPar.res, hk]
  · rw [if_neg h1, if_neg h2] at hk
    rw [hk] at hts ⊢
    dsimp only at hts ⊢
    unfold SPar.Fits at hfit
    rw [if_neg h2] at hfit
    have htb : p.tbls = [p.acNo] := by unfold SPar.tbls; rw [hk]
    obtain ⟨c, e⟩ := hT.made p.acNo (by rw [htb]; simp)
    obtain ⟨w1, w2⟩ := hT.wf p.acNo (by rw [htb]; simp)
    have hder : p.derived dcT acT p.acNo = c := by
      unfold SPar.derived
      rw [if_pos (by rw [htb]; simp), e]; rfl
    unfold SPar.mkC SPar.tab at e
    unfold SPar.tab at w1 w2
    rw [if_neg h2] at e w1 w2
    rw [if_neg h2] at e
    obtain ⟨d, e'⟩ := makeD_of_makeC none (by simp) e
    have L := linked_of_tables w1 w2 e e'
    rw [e']
    dsimp only
    apply key _ (encACRefine_noRst p.acNo p.Ss p.Se p.Al) _ hts
    intro c' t hc henc hok
    refine (runs_ac (T := p.derived dcT acT) (tbl := p.acNo) (encACRefine p.acNo p.Ss p.Se p.Al)
      (decACRefine d p.Ss p.Se p.Al) (fun _ => rfl) c' ?_ (s := ⟨0, []⟩) (fun _ => rfl) henc hok).1 rfl
    intro x hx s t s' hw hst
    obtain ⟨ps, hps, rfl⟩ := List.mem_map.1 (hc x hx)
    have hl := hfit ps hps
    match ps, hl, hps, hst with
    | [q], _, hps, hst =>
      have hin := hmemE _ hps q (by simp)
      have hrd := hcur q (List.mem_flatten.2 ⟨_, hps, by simp⟩)
      unfold SPar.Ready at hrd
      rw [hk] at hrd
      have := acRefine_mcu L hAl hSe.2 (T := p.derived dcT acT) hder hSe.1 [E q] [cur q]
        (coef16_of_inRange hprec hin) hrd hw hst
      simpa [SPar.res, hk] using this

end Verif.Prog
