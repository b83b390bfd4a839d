import Verif.File.Write
import Verif.Prog.Props
/-
C56: the tables made in the statistics pass of a scan, and the application's tables when there is none.
-/
namespace Verif.File
open Verif Verif.Huff Verif.Mark
open Verif.Geom (Pos Blk Frame inImage pad walk dMcu cPerScan cInitialSetup)
open Verif.Prog (compIdx scanPar DecSt gatherPScan SPar TabsOk)
open Verif.Arith (idx_facts)
open Verif.Script (LegalProg LegalSeq)
open Verif.Huff.Opt (optTbl optFreq genOptimal total used codeSizes)

/-! ### which symbols a sequential scan has -/

/-- What a sequential scan with blocks `bs` counts: DC sizes, and the AC symbols EOB, ZRL, and run/size with a size. -/
def SeqSym (prec : Nat) (bs : List BlkSpec) (e : SymEvent) : Prop :=
  if e.isDC then e.sym ≤ prec + 3 ∧ ∃ b ∈ bs, e.tbl = b.dcNo
  else (e.sym = 0 ∨ e.sym = 0xF0 ∨ ∃ r s, r < 16 ∧ 1 ≤ s ∧ s ≤ prec + 2 ∧ e.sym = 16 * r + s) ∧ ∃ b ∈ bs, e.tbl = b.acNo

theorem gZrl_sym {prec : Nat} {bs : List BlkSpec} {b : BlkSpec} (hb : b ∈ bs) : ∀ (r : Nat) (acc : List SymEvent),
    (∀ e ∈ acc, SeqSym prec bs e) → (gZrl b.acNo r acc).1 ≤ 15 ∧ ∀ e ∈ (gZrl b.acNo r acc).2, SeqSym prec bs e := by
  intro r
  induction r using Nat.strongRecOn with
  | _ r ih =>
    intro acc h
    unfold gZrl
    by_cases hr : r > 15
    · rw [if_pos hr]
      apply ih (r - 16) (by omega)
      intro e he
      rcases List.mem_append.1 he with he | he
      · exact h e he
      · rw [List.mem_singleton] at he
        subst he
        unfold SeqSym
        rw [if_neg (by simp)]
        exact ⟨Or.inr (Or.inl rfl), b, hb, rfl⟩
    · rw [if_neg hr]
      exact ⟨by simp only; omega, h⟩

theorem gAC_sym {prec : Nat} {bs : List BlkSpec} {b : BlkSpec} (hb : b ∈ bs) : ∀ (ts : List Int) (r : Nat) (acc acc' : List SymEvent),
    (∀ e ∈ acc, SeqSym prec bs e) → gAC (prec + 2) b.acNo ts r acc = some acc' → ∀ e ∈ acc', SeqSym prec bs e := by
  intro ts
  induction ts with
  | nil =>
    intro r acc acc' h hg
    simp only [gAC, Option.some.injEq] at hg
    subst hg
    intro e he
    split at he
    · rcases List.mem_append.1 he with he | he
      · exact h e he
      · rw [List.mem_singleton] at he
        subst he
        unfold SeqSym
        rw [if_neg (by simp)]
        exact ⟨Or.inl rfl, b, hb, rfl⟩
    · exact h e he
  | cons t ts ih =>
    intro r acc acc' h hg
    simp only [gAC] at hg
    by_cases h0 : t = 0
    · rw [if_pos h0] at hg
      exact ih _ _ _ h hg
    · rw [if_neg h0] at hg
      obtain ⟨z1, z2⟩ := gZrl_sym hb r acc h
      by_cases hb' : nbitsOf t.natAbs > prec + 2
      · rw [if_pos hb'] at hg; simp at hg
      · rw [if_neg hb'] at hg
        refine ih _ _ _ ?_ hg
        intro e he
        rcases List.mem_append.1 he with he | he
        · exact z2 e he
        · rw [List.mem_singleton] at he
          subst he
          unfold SeqSym
          rw [if_neg (by simp)]
          refine ⟨Or.inr (Or.inr ⟨(gZrl b.acNo r acc).1, nbitsOf t.natAbs, by omega, nbitsOf_pos (by omega), by omega, ?_⟩), b, hb, rfl⟩
          simp only [Nat.shiftLeft_eq]
          omega

theorem gBlocks_sym {prec : Nat} {B : List BlkSpec} : ∀ (bs : List BlkSpec) (mcu : List (List Int)) (last : Nat → Int) (acc : List SymEvent)
    (x : (Nat → Int) × List SymEvent), (∀ b ∈ bs, b ∈ B) → (∀ e ∈ acc, SeqSym prec B e) → gBlocks prec bs mcu last acc = some x →
    ∀ e ∈ x.2, SeqSym prec B e := by
  intro bs
  induction bs with
  | nil => intro mcu last acc x _ h hg; simp [gBlocks] at hg; subst hg; exact h
  | cons b bs ih =>
    intro mcu last acc x hB h hg
    cases mcu with
    | nil => simp [gBlocks] at hg; subst hg; exact h
    | cons blk blks =>
      simp only [gBlocks] at hg
      cases e : gBlock prec b (last b.ci) blk acc with
      | none => rw [e] at hg; simp at hg
      | some acc1 =>
        rw [e] at hg
        refine ih _ _ _ _ (fun x hx => hB x (by simp [hx])) ?_ hg
        have hb := hB b (by simp)
        simp only [gBlock] at e
        split at e
        · simp at e
        · refine gAC_sym hb _ _ _ _ ?_ e
          intro y hy
          rcases List.mem_append.1 hy with hy | hy
          · exact h y hy
          · rw [List.mem_singleton] at hy
            subst hy
            unfold SeqSym
            rw [if_pos rfl]
            exact ⟨by simp only; omega, b, hb, rfl⟩

theorem gMCUs_sym {prec ri : Nat} {bs : List BlkSpec} : ∀ (ms : List (List (List Int))) (last : Nat → Int) (togo : Nat) (acc evs : List SymEvent),
    (∀ e ∈ acc, SeqSym prec bs e) → gMCUs prec ri bs ms last togo acc = some evs → ∀ e ∈ evs, SeqSym prec bs e := by
  intro ms
  induction ms with
  | nil => intro last togo acc evs h hg; simp [gMCUs] at hg; subst hg; exact h
  | cons m ms ih =>
    intro last togo acc evs h hg
    simp only [gMCUs] at hg
    cases e : gBlocks prec bs m (if ri ≠ 0 ∧ togo = 0 then fun _ => 0 else last) acc with
    | none => rw [e] at hg; simp at hg
    | some x =>
      rw [e] at hg
      exact ih _ _ _ _ (gBlocks_sym bs m _ _ _ (fun _ h => h) h e) hg

theorem gatherScan_sym {prec ri : Nat} {bs : List BlkSpec} {ms : List (List (List Int))} {evs : List SymEvent}
    (h : gatherScan prec ri bs ms = some evs) : ∀ e ∈ evs, SeqSym prec bs e := gMCUs_sym ms _ _ [] evs (by simp) h

/-- A pair of tables with a code for everything a sequential scan may contain at the given precision. -/
def CodesAll (prec : Nat) (dc ac : HuffTbl) : Prop :=
  (∀ y ≤ prec + 3, HasCode 15 dc y) ∧ HasCode 255 ac 0 ∧ HasCode 255 ac 0xF0 ∧
  ∀ r s, r < 16 → 1 ≤ s → s ≤ prec + 2 → HasCode 255 ac (16 * r + s)

/-! ### optimal tables -/

/-- Symbols that fit the tables made by the compressor. -/
def Shape (e : SymEvent) : Prop := if e.isDC then e.sym ≤ 15 else e.sym < 256 ∧ e.sym % 16 ≤ 14

/-- Few enough symbols for the 32 code lengths of jpeg_gen_optimal_table. -/
def Few (evs : List SymEvent) : Prop := ∀ d n, total (optFreq evs d n) < 9227464

theorem optTbl_sum {evs : List SymEvent} {d : Bool} {n k : Nat} (P : Nat → Bool) (hk : ((List.range 256).filter P).length = k) (hk2 : k ≤ 254)
    (h : ∀ s < 256, (⟨d, n, s⟩ : SymEvent) ∈ evs → P s = true) (hT : total (optFreq evs d n) < 9227464) : (optTbl evs d n).counts.sum ≤ 254 := by
  have huk : (used (optFreq evs d n)).length ≤ k := Opt.used_le P k hk (fun s hs hne => h s hs (Opt.freq_pos.1 hne))
  have hu : (used (optFreq evs d n)).length ≤ 254 := Nat.le_trans huk hk2
  have hTL : total (optFreq evs d n) + 1 ≤ Opt.LIM := by unfold Opt.LIM; omega
  have hs := Opt.codeSizes_spec (optFreq evs d n) hTL
  have h32 : ∀ i ≤ (used (optFreq evs d n)).length, codeSizes (optFreq evs d n) i ≤ 32 := by
    intro i hi
    by_contra hgt
    have := hs.fibo i hi (by omega)
    have hm : Opt.fib 35 ≤ Opt.fib (codeSizes (optFreq evs d n) i + 2) := Opt.fib_mono (by omega)
    have : Opt.fib 35 = 9227465 := by decide +kernel
    omega
  obtain ⟨t, e, T⟩ := Opt.genOptimal_tspec _ hu hTL h32
  have et : optTbl evs d n = t := by unfold optTbl; rw [e]
  rw [et, T.sum]
  exact hu

theorem mem_le_sum {x : Nat} : ∀ {l : List Nat}, x ∈ l → x ≤ l.sum := by
  intro l
  induction l with
  | nil => intro h; cases h
  | cons a l ih =>
    intro h
    rw [List.sum_cons]
    rcases List.mem_cons.1 h with rfl | h
    · omega
    · have := ih h; omega

theorem opt_all {evs : List SymEvent} (hs : ∀ e ∈ evs, Shape e) (hf : Few evs) (d : Bool) (n : Nat) :
    genOptimal (optFreq evs d n) = .ok (optTbl evs d n) ∧ HWf (optTbl evs d n) ∧
      ∃ c, makeCTbl (if d then 15 else 255) (optTbl evs d n) = some c ∧ ∀ s < 256, (⟨d, n, s⟩ : SymEvent) ∈ evs → (c s).2 ≠ 0 := by
  have key : ∀ (P : Nat → Bool) (k mx : Nat), ((List.range 256).filter P).length = k → k ≤ 254 → (∀ s < 256, P s = true → s ≤ mx) →
      (∀ s < 256, (⟨d, n, s⟩ : SymEvent) ∈ evs → P s = true) → genOptimal (optFreq evs d n) = .ok (optTbl evs d n) ∧ HWf (optTbl evs d n) ∧
      ∃ c, makeCTbl mx (optTbl evs d n) = some c ∧ ∀ s < 256, (⟨d, n, s⟩ : SymEvent) ∈ evs → (c s).2 ≠ 0 := by
    intro P k mx h1 h2 h3 h4
    obtain ⟨a1, a2, a3, a4⟩ := Opt.optTbl_ok P h1 h2 h3 h4 (hf d n)
    have a5 := optTbl_sum P h1 h2 h4 (hf d n)
    refine ⟨a1, ⟨a2, ?_, by omega, a3⟩, a4⟩
    intro x hx
    have := mem_le_sum hx
    omega
  cases d with
  | true =>
    refine key (fun s => decide (s ≤ 15)) 16 15 (by decide +kernel) (by omega) (by intro s _ h; simpa using h) ?_
    intro s _ hm
    have := hs _ hm
    unfold Shape at this
    simpa using this
  | false =>
    refine key (fun s => decide (s % 16 ≤ 14)) 240 255 (by decide +kernel) (by omega) (by intro s h _; omega) ?_
    intro s _ hm
    have := hs _ hm
    unfold Shape at this
    simpa using this.2

theorem opt_covered {evs : List SymEvent} (hs : ∀ e ∈ evs, Shape e) (hf : Few evs) : Covered (optTbl evs true) (optTbl evs false) evs := by
  intro e he
  have hsh := hs e he
  obtain ⟨d, n, s⟩ := e
  unfold Shape at hsh
  obtain ⟨-, -, c, h1, h2⟩ := opt_all hs hf d n
  cases d with
  | true =>
    simp only [if_true] at hsh h1 ⊢
    exact ⟨c, h1, h2 s (by omega) he⟩
  | false =>
    simp only [Bool.false_eq_true, if_false] at hsh h1 ⊢
    exact ⟨c, h1, h2 s hsh.1 he⟩

/-! ### one scan -/

section
variable {w ht ic prec : Nat} (hprec : prec ≤ 12) {fs : List (Nat × Nat)} {f : Frame}
  (h : cInitialSetup false w ht ic prec fs = .ok f) {img : Pos → Blk}
  (himg : ∀ p : Pos, inImage f p = true → InRange prec (img p)) {n : Nat} (hn : n = f.comps.length)
  {pre post : List Script.Scan} {s : Script.Scan} {g : Geom.Scan} (hg : cPerScan f (compIdx s) = .ok g)
  {c : CS} (hcp : c.prec = prec) {st : DecSt}
  (L : LegalFor c.prog n prec (pre ++ s :: post)) (I : DInv c.prog f img pre st)
include hprec h himg hn hg hcp L I

/-- The statistics pass works. -/
theorem gather_shape : ∃ evs, gather c s g (mcusOf f g img) = some evs ∧ ∀ e ∈ evs, Shape e := by
  unfold gather LegalFor DInv at *
  cases hp : c.prog with
  | true =>
    rw [hp] at L I
    simp only [if_true] at L I ⊢
    have F := Prog.scan_core (x := (s, eCfg c)) hprec h himg hn L hg I
    obtain ⟨ts, e, hsh⟩ := Prog.scan_toks hprec (scanPar g s (eCfg c)) (fun _ => F.band.2) (walk f g (dMcu f g)) F.fits (pad f img) F.range
    refine ⟨Prog.tokEvents ((scanPar g s (eCfg c)).Ss == 0) ts, ?_, ?_⟩
    · unfold gatherPScan
      rw [hcp]
      unfold mcusOf
      rw [e]
      rfl
    · intro x hx
      obtain ⟨a, b⟩ := Prog.tokEvents_shape hsh hx
      unfold Shape
      by_cases h0 : (scanPar g s (eCfg c)).Ss = 0
      · rw [if_pos h0] at b
        rw [a, if_pos (by simp [h0])]
        exact b
      · rw [if_neg h0] at b
        rw [a, if_neg (by simp [h0])]
        exact b
  | false =>
    rw [hp] at L I
    simp only [Bool.false_eq_true, if_false] at L I ⊢
    obtain ⟨G, -, -⟩ := Geom.good_of_setup h
    obtain ⟨hi, -, -⟩ := idx_facts hn (L.comps s (by simp))
    have hne := Geom.idx_ne hg
    have ew := Geom.dWalk_eq_spec G hi hg
    have hr : ∀ m ∈ mcusOf f g img, ∀ blk ∈ m, InRange prec blk := by
      intro m hm blk hb
      obtain ⟨ps, hps, rfl⟩ := List.mem_map.1 hm
      obtain ⟨p, hp', rfl⟩ := List.mem_map.1 hb
      refine Prog.pad_inRange (prec := prec) G hi (fun p _ h => himg p h) p ?_
      have hq : p ∈ (walk f g (dMcu f g)).flatten := List.mem_flatten.2 ⟨ps, hps, hp'⟩
      rw [ew] at hq
      exact (Geom.spec_padded G hi hne p hq).1
    rw [hcp]
    obtain ⟨evs, e⟩ := gatherScan_isSome (prec := prec) (ri := c.ri) (bs := seqBs g s (eCfg c)) hr
    refine ⟨evs, e, ?_⟩
    intro x hx
    have := Opt.gMCUs_symok hprec _ _ _ _ _ (by simp) e x hx
    unfold Opt.SymOk at this
    unfold Shape
    split at this
    · rename_i hd; rw [if_pos hd]; omega
    · rename_i hd; rw [if_neg hd]; omega

/-- The tables for a scan: made from the statistics, or the application's. -/
theorem retab_ok {opt : Bool} (hopt : opt = false → c.prog = false ∧ ∀ i ∈ compIdx s, ∃ d a, c.huff false (compOf c i).dc = some d ∧
      c.huff true (compOf c i).ac = some a ∧ CodesAll prec d a)
    (hfew : opt = true → ∀ evs, gather c s g (mcusOf f g img) = some evs → Few evs) (hw : HAll c.huff) :
    ∃ c2, retab opt c s g (mcusOf f g img) = some c2 ∧ c2 = { c with huff := c2.huff, hSent := c2.hSent } ∧ (opt = false → c2 = c) ∧
      (∀ a k, c2.hSent a k = true → c.hSent a k = true ∧ c2.huff a k = c.huff a k) ∧ HAll c2.huff ∧
      Usable c2 s g (mcusOf f g img) ∧
      HaveH c2.huff (decide ((cscan s).Ss = 0 ∧ (cscan s).Ah = 0)) (decide ((cscan s).Se ≠ 0)) (scanComps c (cscan s)) ∧
      (opt = true → c.prog = false → ∀ i ∈ compIdx s, c2.hSent false (compOf c i).dc = false) := by
  obtain ⟨G, -, -⟩ := Geom.good_of_setup h
  have hcomps : Script.CompsOK n s := by
    unfold LegalFor at L
    split at L
    · exact L.comps s (by simp)
    · exact L.comps s (by simp)
  obtain ⟨hi, -, -⟩ := idx_facts hn hcomps
  obtain ⟨hm0, hml⟩ := membership_lt G hi hg
  cases hb : opt with
  | false =>
    obtain ⟨hp, hT⟩ := hopt hb
    refine ⟨c, by unfold retab; rw [if_neg (by simp)], rfl, fun _ => rfl, fun a k hk => ⟨hk, rfl⟩, hw, ?_, ?_, by simp⟩
    · refine ⟨(eCfg c).dcT, (eCfg c).acT, ?_⟩
      rw [if_neg (by simp [hp])]
      have get : ∀ b ∈ seqBs g s (eCfg c), ∃ i ∈ compIdx s, b.dcNo = (compOf c i).dc ∧ b.acNo = (compOf c i).ac := by
        intro b hb'
        obtain ⟨k, hk, rfl⟩ := List.mem_map.1 hb'
        exact ⟨_, (hml k hk).2, rfl, rfl⟩
      constructor
      · intro b hb'
        obtain ⟨i, hi', e1, e2⟩ := get b hb'
        obtain ⟨d, a, hd, ha', hc⟩ := hT i hi'
        have f1 : (eCfg c).dcT b.dcNo = d := by
          show (c.huff false b.dcNo).getD _ = d
          rw [e1, hd]; rfl
        have f2 : (eCfg c).acT b.acNo = a := by
          show (c.huff true b.acNo).getD _ = a
          rw [e2, ha']; rfl
        have w1 := hw _ _ _ hd
        have w2 := hw _ _ _ ha'
        rw [f1, f2]
        obtain ⟨c1, q1, -⟩ := hc.1 0 (by omega)
        obtain ⟨c2, q2, -⟩ := hc.2.1
        exact ⟨w1.1, w1.2.2.2, w2.1, w2.2.2.2, rfl, rfl, by rw [q1]; rfl, by rw [q2]; rfl⟩
      · intro evs he e hev
        have hs := gatherScan_sym he e hev
        unfold SeqSym at hs
        by_cases hd : e.isDC = true
        · rw [if_pos hd] at hs
          rw [if_pos hd]
          obtain ⟨s1, b, hb', s2⟩ := hs
          obtain ⟨i, hi', e1, e2⟩ := get b hb'
          obtain ⟨d, a, hd', ha', hc⟩ := hT i hi'
          have f1 : (eCfg c).dcT e.tbl = d := by
            show (c.huff false e.tbl).getD _ = d
            rw [s2, e1, hd']; rfl
          rw [f1]
          exact hc.1 _ (by rw [← hcp]; exact s1)
        · rw [if_neg hd] at hs
          rw [if_neg hd]
          obtain ⟨s1, b, hb', s2⟩ := hs
          obtain ⟨i, hi', e1, e2⟩ := get b hb'
          obtain ⟨d, a, hd', ha', hc⟩ := hT i hi'
          have f1 : (eCfg c).acT e.tbl = a := by
            show (c.huff true e.tbl).getD _ = a
            rw [s2, e2, ha']; rfl
          rw [f1]
          rcases s1 with s1 | s1 | ⟨r, z, r1, r2, r3, r4⟩
          · rw [s1]; exact hc.2.1
          · rw [s1]; exact hc.2.2.1
          · rw [r4]; exact hc.2.2.2 r z r1 r2 (by rw [← hcp]; exact r3)
    · intro k hk
      obtain ⟨i, hi', rfl⟩ := List.mem_map.1 hk
      obtain ⟨d, a, hd, ha', -⟩ := hT i hi'
      exact ⟨fun _ => by rw [show (c.comps.getD i _).dc = (compOf c i).dc from rfl, hd]; rfl,
        fun _ => by rw [show (c.comps.getD i _).ac = (compOf c i).ac from rfl, ha']; rfl⟩
  | true =>
    obtain ⟨evs, he, hsh⟩ := gather_shape hprec h himg hn hg hcp L I
    have hf := hfew hb evs he
    -- usable with any tables that are the optimal ones where the scan makes them
    have use : ∀ c2 : CS, c2 = { c with huff := c2.huff, hSent := c2.hSent } →
        ((c.prog = true → s.Ss.toNat = 0 → s.Ah.toNat = 0) → ∀ a k, makes c s a k = true → c2.huff a k = some (optTbl evs (!a) k)) →
        Usable c2 s g (mcusOf f g img) := by
      intro c2 e2 hmk
      have k1 : c2.prog = c.prog := by rw [e2]
      have k2 : c2.prec = c.prec := by rw [e2]
      have k3 : c2.ri = c.ri := by rw [e2]
      have k4 : c2.comps = c.comps := by rw [e2]
      have kc : ∀ i, compOf c2 i = compOf c i := fun i => by unfold compOf; rw [k4]
      have k5 : scanPar g s (eCfg c2) = scanPar g s (eCfg c) := by
        unfold scanPar eCfg
        simp only [kc, k3]
      have k6 : seqBs g s (eCfg c2) = seqBs g s (eCfg c) := by
        unfold seqBs eCfg
        simp only [kc]
      refine ⟨optTbl evs true, optTbl evs false, ?_⟩
      rw [k1, k2, k3, k5, k6]
      by_cases hp : c.prog = true
      · rw [if_pos hp]
        unfold gather at he
        rw [if_pos hp] at he
        generalize hpp : scanPar g s (eCfg c) = p at *
        have eS : p.Ss = s.Ss.toNat := by rw [← hpp]; rfl
        have eA : p.Ah = s.Ah.toNat := by rw [← hpp]; rfl
        have any : ∀ (d : Bool) t, (p.tab (optTbl evs true) (optTbl evs false) t) = optTbl evs (decide (p.Ss = 0)) t := by
          intro _ t
          unfold SPar.tab
          by_cases h0 : p.Ss = 0 <;> simp [h0]
        refine ⟨⟨?_, ?_, ?_⟩, ?_⟩
        · intro t _
          rw [any true t]
          obtain ⟨-, hW, -⟩ := opt_all hsh hf (decide (p.Ss = 0)) t
          exact ⟨hW.1, hW.2.2.2⟩
        · intro t _
          obtain ⟨-, -, c', e', -⟩ := opt_all hsh hf (decide (p.Ss = 0)) t
          refine ⟨c', ?_⟩
          unfold SPar.mkC
          rw [any true t, ← e']
          by_cases h0 : p.Ss = 0 <;> simp [h0]
        · intro evs' he'
          rw [he, Option.some.injEq] at he'
          rw [← he']
          exact opt_covered hsh hf
        · intro t ht
          unfold SPar.tbls SPar.kind at ht
          unfold SPar.tab
          by_cases h0 : p.Ss = 0
          · rw [if_pos h0, if_pos h0]
            by_cases hA : p.Ah = 0
            · simp only [h0, hA, if_true] at ht
              obtain ⟨b, hb', rfl⟩ := List.mem_map.1 ht
              rw [← hpp] at hb'
              obtain ⟨k, hk, rfl⟩ := List.mem_map.1 hb'
              have := hmk (fun _ _ => by rw [← eA]; exact hA) false ((eCfg c).dcNo ((compIdx s).getD k 0)) (by
                unfold makes makesDc
                rw [if_neg (by simp), ← eS, h0]
                simp only [BEq.rfl, Bool.or_true, Bool.true_and]
                rw [List.any_eq_true]
                exact ⟨_, (hml k hk).2, by simp [eCfg]⟩)
              show _ = (c2.huff false _).getD _
              rw [this]
              rfl
            · simp [h0, hA] at ht
          · rw [if_neg h0, if_neg h0]
            have ht' : t = p.acNo := by
              by_cases hA : p.Ah = 0 <;> simpa [h0, hA] using ht
            have hi0 : (compIdx s).getD 0 0 ∈ compIdx s := by
              have : compIdx s ≠ [] := Geom.idx_ne hg
              obtain ⟨a, l, e⟩ := List.exists_cons_of_ne_nil this
              rw [e]; simp
            have := hmk (fun _ h' => absurd (eS.trans h') h0) true p.acNo (by
                unfold makes makesAc
                rw [if_pos rfl, ← eS]
                have : (p.Ss != 0) = true := by simpa using h0
                rw [this, Bool.or_true, Bool.true_and, List.any_eq_true]
                refine ⟨_, hi0, ?_⟩
                rw [← hpp]
                simp [scanPar, eCfg])
            rw [ht']
            show _ = (c2.huff true _).getD _
            rw [this]
            rfl
      · rw [if_neg hp]
        unfold gather at he
        rw [if_neg hp] at he
        have hp' : c.prog = false := by simpa using hp
        have hmk := hmk (fun h' => absurd h' hp)
        constructor
        · intro b hb'
          obtain ⟨k, hk, rfl⟩ := List.mem_map.1 hb'
          obtain ⟨-, w1, d1, d2, -⟩ := opt_all hsh hf true ((eCfg c).dcNo ((compIdx s).getD k 0))
          obtain ⟨-, w2, a1, a2, -⟩ := opt_all hsh hf false ((eCfg c).acNo ((compIdx s).getD k 0))
          have m1 := hmk false ((eCfg c).dcNo ((compIdx s).getD k 0)) (by
            unfold makes makesDc
            rw [if_neg (by simp), hp']
            simp only [Bool.not_false, Bool.true_or, Bool.true_and]
            rw [List.any_eq_true]
            exact ⟨_, (hml k hk).2, by simp [eCfg]⟩)
          have m2 := hmk true ((eCfg c).acNo ((compIdx s).getD k 0)) (by
            unfold makes makesAc
            rw [if_pos rfl, hp']
            simp only [Bool.not_false, Bool.true_or, Bool.true_and]
            rw [List.any_eq_true]
            exact ⟨_, (hml k hk).2, by simp [eCfg]⟩)
          refine ⟨w1.1, w1.2.2.2, w2.1, w2.2.2.2, ?_, ?_, ?_, ?_⟩
          · show _ = (c2.huff false _).getD _
            rw [m1]; rfl
          · show _ = (c2.huff true _).getD _
            rw [m2]; rfl
          · simp only [if_true] at d2
            dsimp only
            rw [d2]; rfl
          · simp only [Bool.false_eq_true, if_false] at a2
            dsimp only
            rw [a2]; rfl
        · intro evs' he'
          rw [he, Option.some.injEq] at he'
          rw [← he']
          exact opt_covered hsh hf
    have hpar : c.prog = true → s.Ss.toNat = 0 → s.Se.toNat = 0 := by
      intro hp h0
      unfold LegalFor at L
      rw [if_pos hp] at L
      have P := L.params s (by simp)
      unfold Script.ProgParamsOK at P
      dsimp only at P
      have : s.Ss = 0 := by omega
      have := P.2.2.2.2.2.2.2.1 this
      omega
    have hpar2 : s.Ss.toNat ≠ 0 → c.prog = true := by
      intro h0
      by_contra hp
      unfold LegalFor at L
      rw [if_neg hp] at L
      have := (L.params s (by simp)).1
      rw [this] at h0
      exact h0 rfl
    by_cases href : c.prog = true ∧ s.Ss.toNat = 0 ∧ s.Ah.toNat ≠ 0
    · obtain ⟨r1, r2, r3⟩ := href
      refine ⟨c, ?_, rfl, fun h' => by simp at h', fun a k hk => ⟨hk, rfl⟩, hw, use c rfl (fun h' => absurd (h' r1 r2) r3), ?_,
        fun _ h' => by rw [r1] at h'; cases h'⟩
      · unfold retab
        rw [if_neg (by simp [r1, r2, r3])]
      · intro k hk
        refine ⟨fun h' => ?_, fun h' => ?_⟩
        · have := of_decide_eq_true h'
          exact absurd this.2 r3
        · exact absurd (hpar r1 r2) (of_decide_eq_true h')
    · have hcan : ((compIdx s).all fun i => (!makesDc c s || canMake evs false (compOf c i).dc) &&
          (!makesAc c s || canMake evs true (compOf c i).ac)) = true := by
        rw [List.all_eq_true]
        intro i _
        have q1 : canMake evs false (compOf c i).dc = true := by
          unfold canMake
          rw [(opt_all hsh hf (!false) _).1]; rfl
        have q2 : canMake evs true (compOf c i).ac = true := by
          unfold canMake
          rw [(opt_all hsh hf (!true) _).1]; rfl
        rw [q1, q2]; simp
      refine ⟨{ c with
          huff := fun ac n => if makes c s ac n then some (optTbl evs (!ac) n) else c.huff ac n
          hSent := fun ac n => !makes c s ac n && c.hSent ac n }, ?_, rfl, fun h' => by simp at h', ?_, ?_, ?_, ?_, ?_⟩
      · unfold retab
        rw [if_pos ?_, he]
        · simp only [hcan, if_true]
        · by_cases r1 : c.prog = true
          · by_cases r2 : s.Ss.toNat = 0
            · by_cases r3 : s.Ah.toNat = 0
              · simp [r3]
              · exact absurd ⟨r1, r2, r3⟩ href
            · simp [r2]
          · simp [r1]
      · intro a k hk
        dsimp only at hk ⊢
        rw [Bool.and_eq_true, Bool.not_eq_true'] at hk
        exact ⟨hk.2, by rw [hk.1]; rfl⟩
      · intro a k t hk
        dsimp only at hk
        split at hk
        · rw [Option.some.injEq] at hk
          rw [← hk]
          exact (opt_all hsh hf _ _).2.1
        · exact hw a k t hk
      · apply use _ rfl
        intro _ a k hk
        dsimp only
        rw [if_pos hk]
      · intro k hk
        obtain ⟨i, hi', rfl⟩ := List.mem_map.1 hk
        refine ⟨fun h' => ?_, fun h' => ?_⟩
        · have h1 : s.Ss.toNat = 0 ∧ s.Ah.toNat = 0 := of_decide_eq_true h'
          dsimp only
          rw [if_pos]
          · rfl
          · unfold makes makesDc
            rw [if_neg (by simp), h1.1]
            simp only [BEq.rfl, Bool.or_true, Bool.true_and]
            rw [List.any_eq_true]
            exact ⟨i, hi', by simp [compOf, comp0]⟩
        · have h1 : s.Se.toNat ≠ 0 := of_decide_eq_true h'
          dsimp only
          rw [if_pos]
          · rfl
          · unfold makes makesAc
            rw [if_pos rfl]
            have : (!c.prog || s.Ss.toNat != 0) = true := by
              by_cases r1 : c.prog = true
              · by_cases r2 : s.Ss.toNat = 0
                · exact absurd (hpar r1 r2) h1
                · simp [r2]
              · simp [r1]
            rw [this, Bool.true_and, List.any_eq_true]
            exact ⟨i, hi', by simp [compOf, comp0]⟩
      · intro _ hp i hi'
        dsimp only
        rw [Bool.and_eq_false_iff]
        left
        rw [Bool.not_eq_false']
        unfold makes makesDc
        rw [if_neg (by simp), hp]
        simp only [Bool.not_false, Bool.true_or, Bool.true_and]
        rw [List.any_eq_true]
        exact ⟨i, hi', by simp⟩

end

end Verif.File
