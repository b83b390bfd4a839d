import Verif.Mark.RoundDht
/-
C10: SOF, DRI, DAC, SOS.
-/
namespace Verif.Mark
open Verif
open Verif.Huff (natOrder HuffTbl)

/-! ### SOF -/

/-- Assignments of the component loop. -/
def sofCompW : List CComp → Nat → Writes
  | [], _ => []
  | k :: ks, ci => (Slot.cId ci, k.id) :: (.cH ci, k.h) :: (.cV ci, k.v) :: (.cTq ci, k.tq) :: sofCompW ks (ci + 1)

/-- Component parameters fit their fields. -/
def CComp.Fits (k : CComp) : Prop := k.id < 256 ∧ k.h < 16 ∧ k.v < 16 ∧ k.tq < 4

theorem nib (a b : Nat) (ha : a < 16) (hb : b < 16) :
    (((a * 16 + b) % 256) >>> 4) &&& 15 = a ∧ (a * 16 + b) % 256 &&& 15 = b := by
  have e1 : ∀ x : Nat, x &&& 15 = x % 16 := fun x => Nat.and_two_pow_sub_one_eq_mod x 4
  rw [e1, e1, Nat.shiftRight_eq_div_pow]
  omega

theorem reads_sofComps : ∀ (ks : List CComp) (ci : Nat), (∀ k ∈ ks, k.Fits) →
    Reads (sofComps ks.length ci) (ks.flatMap (fun k => [k.id % 256, (k.h * 16 + k.v) % 256, k.tq % 256])) () (sofCompW ks ci) := by
  intro ks
  induction ks with
  | nil => intro ci _; exact Reads.pure _
  | cons k ks ih =>
    intro ci h
    obtain ⟨h1, h2, h3, h4⟩ := h k (by simp)
    obtain ⟨e1, e2⟩ := nib k.h k.v h2 h3
    rw [List.flatMap_cons, List.length_cons]
    unfold sofComps
    show Reads _ (k.id % 256 :: (k.h * 16 + k.v) % 256 :: k.tq % 256 :: _) () _
    rw [Nat.mod_eq_of_lt h1, Nat.mod_eq_of_lt (show k.tq < 256 by omega)]
    apply Reads.byteB
    apply Reads.putB
    apply Reads.byteB
    rw [e1, e2]
    apply Reads.putB
    apply Reads.putB
    apply Reads.byteB
    apply Reads.putB
    exact ih (ci + 1) (fun k hk => h k (by simp [hk]))

/-- Component number of a frame component field. -/
def Slot.compNo : Slot → Option Nat
  | .cId i | .cH i | .cV i | .cTq i => some i
  | _ => none

theorem sofCompW_slots : ∀ (ks : List CComp) (ci : Nat), ∀ x ∈ sofCompW ks ci, ∃ j, x.1.compNo = some j ∧ ci ≤ j := by
  intro ks
  induction ks with
  | nil => intro ci x hx; simp [sofCompW] at hx
  | cons k ks ih =>
    intro ci x hx
    simp only [sofCompW, List.mem_cons] at hx
    rcases hx with rfl | rfl | rfl | rfl | hx
    · exact ⟨ci, rfl, Nat.le_refl _⟩
    · exact ⟨ci, rfl, Nat.le_refl _⟩
    · exact ⟨ci, rfl, Nat.le_refl _⟩
    · exact ⟨ci, rfl, Nat.le_refl _⟩
    · obtain ⟨j, h1, h2⟩ := ih (ci + 1) x hx
      exact ⟨j, h1, by omega⟩

/-- The decoder has the component parameters. -/
def HasComp (m : Mem) (i : Nat) (k : CComp) : Prop := m (.cId i) = k.id ∧ m (.cH i) = k.h ∧ m (.cV i) = k.v ∧ m (.cTq i) = k.tq

theorem apply_sofCompW : ∀ (ks : List CComp) (ci : Nat) (m : Mem) (i : Nat) (h : i < ks.length),
    HasComp (apply (sofCompW ks ci) m) (ci + i) ks[i] := by
  intro ks
  induction ks with
  | nil => intro ci m i h; simp at h
  | cons k ks ih =>
    intro ci m i h
    have e : sofCompW (k :: ks) ci = [(Slot.cId ci, k.id), (.cH ci, k.h), (.cV ci, k.v), (.cTq ci, k.tq)] ++ sofCompW ks (ci + 1) := rfl
    rw [e, apply_append]
    cases i with
    | zero =>
      simp only [Nat.add_zero, List.getElem_cons_zero]
      have hn : ∀ s : Slot, s.compNo = some ci → ∀ m', apply (sofCompW ks (ci + 1)) m' s = m' s := by
        intro s hs m'
        apply apply_notin
        intro x hx ex
        obtain ⟨j, h1, h2⟩ := sofCompW_slots ks (ci + 1) x hx
        rw [ex, hs] at h1
        cases h1; omega
      refine ⟨?_, ?_, ?_, ?_⟩ <;> rw [hn _ rfl] <;> simp [apply]
    | succ i =>
      have := ih (ci + 1) (apply [(Slot.cId ci, k.id), (.cH ci, k.h), (.cV ci, k.v), (.cTq ci, k.tq)] m) i (by simpa using h)
      rw [show ci + 1 + i = ci + (i + 1) by omega] at this
      simpa using this

/-- What the decoder knows of the frame. -/
structure FrameIs (c : CS) (m : Mem) : Prop where
  seen : m .sawSOF ≠ 0
  prog : m .prog = if c.prog then 1 else 0
  lossless : m .lossless = if c.lossless then 1 else 0
  arith : m .arith = if c.arith then 1 else 0
  prec : m .prec = c.prec
  height : m .height = c.height
  width : m .width = c.width
  ncomp : m .ncomp = c.comps.length
  comps : ∀ i (h : i < c.comps.length), HasComp m i c.comps[i]

/-- Fields assigned by get_sof. -/
def Slot.frame : Slot → Prop
  | .sawSOF | .prog | .lossless | .arith | .prec | .height | .width | .ncomp | .cId _ | .cH _ | .cV _ | .cTq _ => True
  | _ => False

def sofW (c : CS) (p l a : Nat) : Writes :=
  (Slot.prog, p) :: (.lossless, l) :: (.arith, a) :: (.prec, c.prec) :: (.height, c.height) :: (.width, c.width) ::
    (.ncomp, c.comps.length) :: (sofCompW c.comps 0 ++ [(.sawSOF, 1)])

theorem sofW_slots (c : CS) (p l a : Nat) : ∀ x ∈ sofW c p l a, x.1.frame := by
  intro x hx
  simp only [sofW, List.mem_cons, List.mem_append, List.not_mem_nil, or_false] at hx
  rcases hx with rfl | rfl | rfl | rfl | rfl | rfl | rfl | hx | rfl <;> try exact trivial
  obtain ⟨j, h, -⟩ := sofCompW_slots _ _ x hx
  revert h
  cases x.1 <;> simp [Slot.compNo, Slot.frame]

theorem apply_sofW {c : CS} {p l a : Nat} (m : Mem) (hp : p = if c.prog then 1 else 0) (hl : l = if c.lossless then 1 else 0)
    (ha : a = if c.arith then 1 else 0) : FrameIs c (apply (sofW c p l a) m) := by
  have e : sofW c p l a = [(Slot.prog, p), (.lossless, l), (.arith, a), (.prec, c.prec), (.height, c.height), (.width, c.width),
    (.ncomp, c.comps.length)] ++ (sofCompW c.comps 0 ++ [(.sawSOF, 1)]) := rfl
  rw [e, apply_append, apply_append]
  have hl1 : ∀ (s : Slot) (m' : Mem), s ≠ .sawSOF → apply [(.sawSOF, 1)] m' s = m' s := by
    intro s m' h
    exact apply_notin (by simp; exact fun e => h e.symm)
  have hn : ∀ s : Slot, s.compNo = none → ∀ m', apply (sofCompW c.comps 0) m' s = m' s := by
    intro s hs m'
    apply apply_notin
    intro x hx ex
    obtain ⟨j, h1, -⟩ := sofCompW_slots _ _ x hx
    rw [ex, hs] at h1; cases h1
  refine ⟨by simp [apply], ?_, ?_, ?_, ?_, ?_, ?_, ?_, ?_⟩
  · rw [hl1 _ _ (by simp), hn _ rfl, ← hp]; simp [apply]
  · rw [hl1 _ _ (by simp), hn _ rfl, ← hl]; simp [apply]
  · rw [hl1 _ _ (by simp), hn _ rfl, ← ha]; simp [apply]
  · rw [hl1 _ _ (by simp), hn _ rfl]; simp [apply]
  · rw [hl1 _ _ (by simp), hn _ rfl]; simp [apply]
  · rw [hl1 _ _ (by simp), hn _ rfl]; simp [apply]
  · rw [hl1 _ _ (by simp), hn _ rfl]; simp [apply]
  · intro i hi
    have := apply_sofCompW c.comps 0 (apply [(Slot.prog, p), (.lossless, l), (.arith, a), (.prec, c.prec), (.height, c.height), (.width, c.width),
      (.ncomp, c.comps.length)] m) i hi
    rw [Nat.zero_add] at this
    unfold HasComp
    rw [hl1 _ _ (by simp), hl1 _ _ (by simp), hl1 _ _ (by simp), hl1 _ _ (by simp)]
    exact this

theorem FrameIs.off {c : CS} {A : Slot → Prop} {m m' : Mem} (h : Off A m m') (hA : ∀ s, A s → ¬ s.frame) (hf : FrameIs c m) : FrameIs c m' := by
  have k : ∀ s : Slot, s.frame → m' s = m s := fun s hs => h s (fun a => hA s a hs)
  refine ⟨?_, ?_, ?_, ?_, ?_, ?_, ?_, ?_, ?_⟩
  · rw [k .sawSOF trivial]; exact hf.seen
  · rw [k .prog trivial]; exact hf.prog
  · rw [k .lossless trivial]; exact hf.lossless
  · rw [k .arith trivial]; exact hf.arith
  · rw [k .prec trivial]; exact hf.prec
  · rw [k .height trivial]; exact hf.height
  · rw [k .width trivial]; exact hf.width
  · rw [k .ncomp trivial]; exact hf.ncomp
  · intro i hi
    have := hf.comps i hi
    unfold HasComp
    rw [k (.cId i) trivial, k (.cH i) trivial, k (.cV i) trivial, k (.cTq i) trivial]
    exact this

/-- Frame parameters in the ranges the compressor accepts (jcmaster.c initial_setup: at least one row, column and
component, at most MAX_COMPONENTS = 10; factors and table numbers). -/
structure CS.Ok (c : CS) : Prop where
  comps : 1 ≤ c.comps.length ∧ c.comps.length ≤ 10
  height : 1 ≤ c.height
  width : 1 ≤ c.width
  prec : c.prec < 256
  fits : ∀ k ∈ c.comps, k.Fits
  mode : c.lossless = true → c.arith = false ∧ c.prog = false
  q : QAll c.q
  h : HAll c.huff

theorem reads_sof {c : CS} (hc : c.Ok) (hh : c.height ≤ 65535) (hw : c.width ≤ 65535) {m : Mem} (hs : m .sawSOF = 0) (p l a : Nat) :
    Reads (getSof m p l a) (be2 (3 * c.comps.length + 2 + 5 + 1) ++ [c.prec % 256] ++ be2 c.height ++ be2 c.width ++
      [c.comps.length % 256] ++ c.comps.flatMap (fun k => [k.id % 256, (k.h * 16 + k.v) % 256, k.tq % 256])) () (sofW c p l a) := by
  unfold getSof sofW
  rw [if_neg (by simp [hs])]
  have h10 := hc.comps
  simp only [List.append_assoc]
  apply Reads.putB
  apply Reads.putB
  apply Reads.putB
  apply Reads.lenB (by omega)
  rw [Nat.mod_eq_of_lt hc.prec, Nat.mod_eq_of_lt (show c.comps.length < 256 by omega)]
  apply Reads.byteB
  apply Reads.putB
  apply Reads.lenB (by omega)
  apply Reads.putB
  apply Reads.lenB (by omega)
  apply Reads.putB
  apply Reads.byteB
  apply Reads.putB
  have := hc.height
  have := hc.width
  rw [if_neg (by omega), if_neg (by omega)]
  have h1 := (reads_sofComps c.comps 0 hc.fits).bind (f := fun _ => Mark.put .sawSOF 1) (Reads.put .sawSOF 1)
  rw [List.append_nil] at h1
  exact h1

theorem seg_sof {proc : Nat → Proc} {c : CS} (hc : c.Ok) {m : Mem} (hr : Ready m) (hs : m .sawSOF = 0) {code : Nat} {b : List Nat}
    (h : emitSof c code = some b)
    (hcode : code = if c.arith then (if c.prog then 0xCA else 0xC9) else if c.prog then 0xC2 else if c.lossless then 0xC3 else code)
    (hb : c.arith = false → c.prog = false → c.lossless = false → code = 0xC0 ∨ code = 0xC1) :
    ∃ m', Seg proc m b m' ∧ FrameIs c m' ∧ Off Slot.frame m m' := by
  unfold emitSof at h
  by_cases hd : c.height > 65535 ∨ c.width > 65535
  · rw [if_pos hd] at h; cases h
  rw [if_neg hd] at h
  cases h
  have hm := hc.mode
  have hs' : (inMk m code) .sawSOF = 0 := by rw [inMk_eq (by simp) (by simp)]; exact hs
  have go : ∀ (p l a : Nat), code ≠ 0 → code ≠ 0xFF → code ≠ 0xD9 → code ≠ 0xDA →
      (∀ s : RS, branch proc code s = s.run (getSof s.mem p l a) (fun _ s => .cont s)) →
      p = (if c.prog then 1 else 0) → l = (if c.lossless then 1 else 0) → a = (if c.arith then 1 else 0) →
      ∃ m', Seg proc m (mark code ++ be2 (3 * c.comps.length + 2 + 5 + 1) ++ [c.prec % 256] ++ be2 c.height ++ be2 c.width ++
        [c.comps.length % 256] ++ c.comps.flatMap (fun k => [k.id % 256, (k.h * 16 + k.v) % 256, k.tq % 256])) m' ∧
        FrameIs c m' ∧ Off Slot.frame m m' := by
    intro p l a h0 h1 h2 h3 hbr hp hl ha
    refine ⟨apply (sofW c p l a) m, ?_, apply_sofW m hp hl ha, Off.apply (sofW_slots c p l a)⟩
    have := Seg.of_reads hr h0 h1 h2 h3 (q := fun m => getSof m p l a) hbr (reads_sof hc (by omega) (by omega) hs' p l a) (by
      intro x hx
      have := sofW_slots c p l a x hx
      constructor
      · intro e; rw [e] at this; exact this
      · intro e; rw [e] at this; exact this)
    simpa only [List.append_assoc] using this
  cases hA : c.arith <;> cases hP : c.prog <;> cases hL : c.lossless <;> simp only [hA, hP, hL, if_true, if_false, Bool.false_eq_true] at hcode go hm hb
  · rcases hb trivial trivial trivial with rfl | rfl
    · exact go 0 0 0 (by decide) (by decide) (by decide) (by decide) (fun s => by unfold branch; simp) rfl rfl rfl
    · exact go 0 0 0 (by decide) (by decide) (by decide) (by decide) (fun s => by unfold branch; simp) rfl rfl rfl
  · subst hcode; exact go 0 1 0 (by decide) (by decide) (by decide) (by decide) (fun s => by unfold branch; simp) rfl rfl rfl
  · subst hcode; exact go 1 0 0 (by decide) (by decide) (by decide) (by decide) (fun s => by unfold branch; simp) rfl rfl rfl
  · simp at hm
  · subst hcode; exact go 0 0 1 (by decide) (by decide) (by decide) (by decide) (fun s => by unfold branch; simp) rfl rfl rfl
  · simp at hm
  · subst hcode; exact go 1 0 1 (by decide) (by decide) (by decide) (by decide) (fun s => by unfold branch; simp) rfl rfl rfl
  · simp at hm

/-! ### DRI -/

theorem seg_dri {proc : Nat → Proc} {c : CS} {m : Mem} (hr : Ready m) (h : c.ri < 65536) :
    Seg proc m (emitDri c) (apply [(.ri, c.ri)] m) := by
  unfold emitDri
  rw [List.append_assoc]
  apply Seg.of_reads hr (q := fun _ => getDri) (by decide) (by decide) (by decide) (by decide) (fun s => by unfold branch; simp)
  · unfold getDri
    apply Reads.lenB (by decide)
    rw [if_neg (by decide)]
    rw [show be2 c.ri = be2 c.ri ++ [] by simp]
    apply Reads.lenB h
    exact Reads.put _ _
  · simp

/-! ### DAC -/

/-- Assignments of one entry. -/
def dacW (e : Nat × Nat) : Writes :=
  if e.1 ≥ 16 then [(Slot.acK (e.1 - 16), e.2 % 256)] else [(.dcL e.1, e.2 &&& 15), (.dcU e.1, (e.2 >>> 4) % 256)]

theorem reads_dacLoop : ∀ (es : List (Nat × Nat)) (k : Nat) (L : Int),
    (∀ e ∈ es, e.1 < 32 ∧ (e.1 < 16 → e.2 &&& 15 ≤ (e.2 >>> 4) % 256)) → L = (2 * es.length : Nat) → es.length < k →
    Reads (dacLoop k L) (es.flatMap (fun e => [e.1, e.2])) () (es.flatMap dacW) := by
  intro es
  induction es with
  | nil =>
    intro k L _ hL hk
    obtain ⟨k, rfl⟩ : ∃ j, k = j + 1 := ⟨k - 1, by simp at hk; omega⟩
    simp only [List.length_nil] at hL
    unfold dacLoop
    rw [if_neg (by omega), if_neg (by omega)]
    exact Reads.pure _
  | cons e es ih =>
    intro k L hv hL hk
    obtain ⟨k, rfl⟩ : ∃ j, k = j + 1 := ⟨k - 1, by simp at hk; omega⟩
    simp only [List.length_cons] at hL hk
    obtain ⟨h1, h2⟩ := hv e (by simp)
    have hrec := ih k (L - 2) (fun e he => hv e (by simp [he])) (by omega) (by omega)
    rw [List.flatMap_cons, List.flatMap_cons]
    unfold dacLoop
    rw [if_pos (by omega)]
    show Reads _ (e.1 :: e.2 :: _) () _
    apply Reads.byteB
    apply Reads.byteB
    dsimp only
    rw [if_neg (by omega)]
    unfold dacW
    by_cases h : e.1 ≥ 16
    · rw [if_pos h, if_pos h]
      exact Reads.putB hrec
    · rw [if_neg h, if_neg h]
      apply Reads.putB
      apply Reads.putB
      have := h2 (by omega)
      rw [if_neg (by omega)]
      exact hrec

/-- The entries of a DAC segment. -/
def dacEs (c : CS) (dcUse acUse : Nat → Bool) : List (Nat × Nat) :=
  (List.range 16).flatMap (fun i => (if dcUse i then [(i, c.dcL i + c.dcU i * 16)] else []) ++ (if acUse i then [(i + 16, c.acK i)] else []))

/-- Legal conditioning parameters (jcparam.c, jcmarker.c: 0 ≤ L ≤ U ≤ 15, K a byte). -/
def CS.ArithOk (c : CS) : Prop := ∀ i, c.dcL i ≤ c.dcU i ∧ c.dcU i < 16 ∧ c.acK i < 256

/-- Arithmetic conditioning fields. -/
def Slot.cond : Slot → Prop
  | .dcL _ | .dcU _ | .acK _ => True
  | _ => False

theorem dacW_slots (e : Nat × Nat) : ∀ x ∈ dacW e, x.1.cond := by
  intro x hx
  unfold dacW at hx
  split at hx <;> simp at hx
  · subst hx; trivial
  · rcases hx with rfl | rfl <;> trivial

theorem dac_bytes {c : CS} (ha : c.ArithOk) (dcUse acUse : Nat → Bool) : ∀ (l : List Nat), (∀ i ∈ l, i < 16) →
    l.flatMap (dacEntry c dcUse acUse) =
    (l.flatMap (fun i => (if dcUse i then [(i, c.dcL i + c.dcU i * 16)] else []) ++ (if acUse i then [(i + 16, c.acK i)] else []))).flatMap
      (fun e => [e.1, e.2]) ∧
    (l.flatMap (fun i => (if dcUse i then [(i, c.dcL i + c.dcU i * 16)] else []) ++ (if acUse i then [(i + 16, c.acK i)] else []))).length =
      (l.map (fun i => (if dcUse i then 1 else 0) + (if acUse i then 1 else 0))).sum := by
  intro l
  induction l with
  | nil => intro _; simp
  | cons i l ih =>
    intro h
    obtain ⟨e1, e2⟩ := ih (fun j hj => h j (by simp [hj]))
    have hi := h i (by simp)
    obtain ⟨a1, a2, a3⟩ := ha i
    rw [List.flatMap_cons, List.flatMap_cons, List.flatMap_append, e1]
    constructor
    · congr 1
      unfold dacEntry
      cases dcUse i <;> cases acUse i <;> simp <;> omega
    · rw [List.length_append, e2, List.map_cons, List.sum_cons]
      congr 1
      cases dcUse i <;> cases acUse i <;> simp

theorem dacEs_mem {c : CS} {dcUse acUse : Nat → Bool} {e : Nat × Nat} : e ∈ dacEs c dcUse acUse ↔
    ∃ i < 16, (dcUse i = true ∧ e = (i, c.dcL i + c.dcU i * 16)) ∨ (acUse i = true ∧ e = (i + 16, c.acK i)) := by
  unfold dacEs
  simp only [List.mem_flatMap, List.mem_range, List.mem_append]
  constructor
  · rintro ⟨i, hi, h | h⟩
    · split at h
      · rename_i h'; exact ⟨i, hi, Or.inl ⟨h', by simpa using h⟩⟩
      · simp at h
    · split at h
      · rename_i h'; exact ⟨i, hi, Or.inr ⟨h', by simpa using h⟩⟩
      · simp at h
  · rintro ⟨i, hi, ⟨h, rfl⟩ | ⟨h, rfl⟩⟩
    · exact ⟨i, hi, Or.inl (by simp [h])⟩
    · exact ⟨i, hi, Or.inr (by simp [h])⟩

theorem seg_dac {proc : Nat → Proc} {c : CS} (ha : c.ArithOk) {m : Mem} (hr : Ready m) (nd na : Bool) (ks : List CComp)
    (hk : ∀ k ∈ ks, k.dc < 16 ∧ k.ac < 16) :
    ∃ m', Seg proc m (emitDac c nd na ks) m' ∧ Off Slot.cond m m' ∧
      ∀ k ∈ ks, (nd = true → m' (.dcL k.dc) = c.dcL k.dc ∧ m' (.dcU k.dc) = c.dcU k.dc) ∧ (na = true → m' (.acK k.ac) = c.acK k.ac) := by
  generalize hdu : (fun i : Nat => nd && ks.any (fun k => decide (k.dc = i))) = dcUse
  generalize hau : (fun i : Nat => na && ks.any (fun k => decide (k.ac = i))) = acUse
  have hdu' : ∀ i, dcUse i = true ↔ nd = true ∧ ∃ k ∈ ks, k.dc = i := by intro i; rw [← hdu]; simp
  have hau' : ∀ i, acUse i = true ↔ na = true ∧ ∃ k ∈ ks, k.ac = i := by intro i; rw [← hau]; simp
  obtain ⟨b1, b2⟩ := dac_bytes ha dcUse acUse (List.range 16) (by simp)
  change (List.range 16).flatMap (dacEntry c dcUse acUse) = (dacEs c dcUse acUse).flatMap (fun e => [e.1, e.2]) at b1
  change (dacEs c dcUse acUse).length = _ at b2
  have he : emitDac c nd na ks = if (dacEs c dcUse acUse).length ≠ 0 then mark 0xCC ++ be2 ((dacEs c dcUse acUse).length * 2 + 2) ++
      (dacEs c dcUse acUse).flatMap (fun e => [e.1, e.2]) else [] := by
    unfold emitDac
    simp only [hdu, hau]
    rw [b2, b1, ← hdu, ← hau]
  rw [he]
  have hmem := @dacEs_mem c dcUse acUse
  have and15 : ∀ x : Nat, x &&& 15 = x % 16 := fun x => Nat.and_two_pow_sub_one_eq_mod x 4
  have hval : ∀ i, (c.dcL i + c.dcU i * 16) &&& 15 = c.dcL i ∧ ((c.dcL i + c.dcU i * 16) >>> 4) % 256 = c.dcU i := by
    intro i
    obtain ⟨a1, a2, a3⟩ := ha i
    rw [and15, Nat.shiftRight_eq_div_pow]
    omega
  have hval2 : ∀ i, c.acK i % 256 = c.acK i := fun i => Nat.mod_eq_of_lt (ha i).2.2
  -- values
  have hv : ∀ k ∈ ks, (nd = true → apply ((dacEs c dcUse acUse).flatMap dacW) m (.dcL k.dc) = c.dcL k.dc ∧
      apply ((dacEs c dcUse acUse).flatMap dacW) m (.dcU k.dc) = c.dcU k.dc) ∧
      (na = true → apply ((dacEs c dcUse acUse).flatMap dacW) m (.acK k.ac) = c.acK k.ac) := by
    intro k hk'
    obtain ⟨k1, k2⟩ := hk k hk'
    have all : ∀ x ∈ (dacEs c dcUse acUse).flatMap dacW,
        (∃ i, x = (Slot.dcL i, c.dcL i)) ∨ (∃ i, x = (Slot.dcU i, c.dcU i)) ∨ (∃ i, x = (Slot.acK i, c.acK i)) := by
      intro x hx
      obtain ⟨e, he, hx⟩ := List.mem_flatMap.1 hx
      obtain ⟨i, hi, ⟨-, rfl⟩ | ⟨-, rfl⟩⟩ := hmem.1 he
      · unfold dacW at hx
        rw [if_neg (by simp; omega)] at hx
        simp only [(hval i).1, (hval i).2, List.mem_cons, List.not_mem_nil, or_false] at hx
        rcases hx with rfl | rfl
        · exact Or.inl ⟨i, rfl⟩
        · exact Or.inr (Or.inl ⟨i, rfl⟩)
      · unfold dacW at hx
        rw [if_pos (by simp)] at hx
        simp only [Nat.add_sub_cancel, hval2 i, List.mem_cons, List.not_mem_nil, or_false] at hx
        exact Or.inr (Or.inr ⟨i, hx⟩)
    constructor
    · intro hnd
      have hin : (k.dc, c.dcL k.dc + c.dcU k.dc * 16) ∈ dacEs c dcUse acUse :=
        hmem.2 ⟨k.dc, k1, Or.inl ⟨(hdu' _).2 ⟨hnd, k, hk', rfl⟩, rfl⟩⟩
      have hw : dacW (k.dc, c.dcL k.dc + c.dcU k.dc * 16) = [(.dcL k.dc, c.dcL k.dc), (.dcU k.dc, c.dcU k.dc)] := by
        unfold dacW
        rw [if_neg (by simp; omega)]
        simp only [(hval k.dc).1, (hval k.dc).2]
      constructor
      · apply apply_const
        · exact List.mem_flatMap.2 ⟨_, hin, by rw [hw]; simp⟩
        · intro x hx ex
          rcases all x hx with ⟨i, rfl⟩ | ⟨i, rfl⟩ | ⟨i, rfl⟩
          · simp only [Slot.dcL.injEq] at ex; subst ex; rfl
          · simp at ex
          · simp at ex
      · apply apply_const
        · exact List.mem_flatMap.2 ⟨_, hin, by rw [hw]; simp⟩
        · intro x hx ex
          rcases all x hx with ⟨i, rfl⟩ | ⟨i, rfl⟩ | ⟨i, rfl⟩
          · simp at ex
          · simp only [Slot.dcU.injEq] at ex; subst ex; rfl
          · simp at ex
    · intro hna
      have hin : (k.ac + 16, c.acK k.ac) ∈ dacEs c dcUse acUse := hmem.2 ⟨k.ac, k2, Or.inr ⟨(hau' _).2 ⟨hna, k, hk', rfl⟩, rfl⟩⟩
      apply apply_const
      · refine List.mem_flatMap.2 ⟨_, hin, ?_⟩
        unfold dacW
        rw [if_pos (by simp)]
        simp [hval2]
      · intro x hx ex
        rcases all x hx with ⟨i, rfl⟩ | ⟨i, rfl⟩ | ⟨i, rfl⟩
        · simp at ex
        · simp at ex
        · simp only [Slot.acK.injEq] at ex; subst ex; rfl
  have hslots : ∀ x ∈ (dacEs c dcUse acUse).flatMap dacW, x.1.cond := by
    intro x hx
    obtain ⟨e, -, hx⟩ := List.mem_flatMap.1 hx
    exact dacW_slots e x hx
  refine ⟨apply ((dacEs c dcUse acUse).flatMap dacW) m, ?_, Off.apply hslots, hv⟩
  by_cases hl : (dacEs c dcUse acUse).length ≠ 0
  · rw [if_pos hl]
    have hle : (dacEs c dcUse acUse).length ≤ 32 := by
      rw [b2]
      have : ((List.range 16).map (fun i => (if dcUse i then 1 else 0) + (if acUse i then 1 else 0))).sum ≤ 2 * (List.range 16).length := by
        apply sum_le_mul
        intro i _
        split <;> split <;> omega
      simpa using this
    rw [List.append_assoc]
    apply Seg.of_reads hr (q := fun _ => getDac) (by decide) (by decide) (by decide) (by decide) (fun s => by unfold branch; simp)
    · unfold getDac
      apply Reads.lenB (by omega)
      apply reads_dacLoop
      · intro e he
        obtain ⟨i, hi, ⟨-, rfl⟩ | ⟨-, rfl⟩⟩ := hmem.1 he
        · refine ⟨by simp; omega, fun _ => ?_⟩
          simp only [(hval i).1, (hval i).2]
          exact (ha i).1
        · refine ⟨by simp; omega, fun h => ?_⟩
          simp at h
      · omega
      · omega
    · intro x hx
      have := hslots x hx
      constructor
      · intro e; rw [e] at this; exact this
      · intro e; rw [e] at this; exact this
  · rw [if_neg hl]
    have : dacEs c dcUse acUse = [] := by simpa using hl
    rw [this]
    exact Seg.nil

end Verif.Mark
