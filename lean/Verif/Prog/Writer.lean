import Verif.Huff.EncLemmas
import Verif.Huff.BlockLemmas
import Verif.Huff.LinkLemmas
/-
Model of the output side of the progressive Huffman encoder: jcphuff.c:284-412 (emit_byte, emit_bits, flush_bits,
emit_symbol, emit_buffered_bits, the byte part of emit_restart).

The MCU routines of jcphuff.c run the same control flow in the statistics pass and in the output pass; only
`emit_symbol`, `emit_bits`, `flush_bits` and `emit_byte` look at `gather_statistics`.  The model therefore lets the
MCU routines produce a list of calls (`Tok`); `runTok` interprets a call in the output pass, `tokEvent` in the
statistics pass.  The transfer of bytes to the destination manager (`dump_buffer`) is not modelled here.
-/
namespace Verif.Prog
open Verif Verif.Huff

/-- One call made by an MCU routine: `emit_symbol(tbl, s)`, `emit_bits(code, size)`, or the
`flush_bits; emit_byte 0xFF; emit_byte RST0+n` of `emit_restart`. -/
inductive Tok
  | sym (tbl s : Nat)
  | bits (code size : Nat)
  | rst (n : Nat)
deriving Repr, DecidableEq

/-- Bit buffer (jcphuff.c:75-76) and bytes written. -/
structure PWr where
  pb : Nat
  nb : Nat
  out : List Nat
deriving Repr, DecidableEq

/-- `while (put_bits >= 8)` in emit_bits (jcphuff.c:346-355); `put_buffer` is a 64-bit `size_t`. -/
def pLoop (pb nb : Nat) (out : List Nat) : PWr :=
  if 8 ≤ nb then
    let c := (pb >>> 16) &&& 0xFF
    pLoop ((pb <<< 8) % W64) (nb - 8) (out ++ (if c = 0xFF then [c, 0] else [c]))
  else { pb := pb, nb := nb, out := out }
termination_by nb

/-- `emit_bits` (jcphuff.c:322-359), output pass. `none` = ERREXIT(JERR_HUFF_MISSING_CODE). -/
def emitBits (w : PWr) (code size : Nat) : Option PWr :=
  if size = 0 then none
  else
    let pb := code &&& (2 ^ size - 1)
    let nb := w.nb + size
    let pb := (pb <<< (24 - nb)) % W64
    let pb := pb ||| w.pb
    some (pLoop pb nb w.out)

/-- `flush_bits` (jcphuff.c:362-368). -/
def flushP (w : PWr) : Option PWr :=
  (emitBits w 0x7F 7).map (fun w => { w with pb := 0, nb := 0 })

/-- One call in the output pass; `emit_symbol` is jcphuff.c:375-386, the restart marker 449-453. -/
def runTok (T : Nat → CTbl) (w : PWr) : Tok → Option PWr
  | .sym t s => emitBits w (T t s).1 (T t s).2
  | .bits c n => emitBits w c n
  | .rst n => (flushP w).map (fun w => { w with out := w.out ++ [0xFF, 0xD0 + n] })

def runToks (T : Nat → CTbl) : PWr → List Tok → Option PWr
  | w, [] => some w
  | w, t :: ts => match runTok T w t with
    | none => none
    | some w => runToks T w ts

/-- The bytes of a scan: bit buffer initially empty (jcphuff.c:277-279), the calls made, then the final
`flush_bits` of finish_pass_phuff (jcphuff.c:1028). -/
def writeScan (T : Nat → CTbl) (ts : List Tok) : Option (List Nat) :=
  match runToks T { pb := 0, nb := 0, out := [] } ts with
  | none => none
  | some w => (flushP w).map PWr.out

/-- Bits of one call. -/
def tokBits (T : Nat → CTbl) : Tok → List Bool
  | .sym t s => symBits (T t) s
  | .bits c n => toBits n c
  | .rst _ => []

/-- Bits still in the current segment, and the bytes after it. -/
def tokTail (T : Nat → CTbl) : List Tok → List Bool × List Nat
  | [] => ([], [])
  | .rst n :: ts => ([], [0xFF, 0xD0 + n] ++ segment (tokTail T ts).1 ++ (tokTail T ts).2)
  | t :: ts => (tokBits T t ++ (tokTail T ts).1, (tokTail T ts).2)

/-- Calls the output pass carries out: 1..16 bits, and symbols that have a code. -/
def TokOk (T : Nat → CTbl) : Tok → Prop
  | .sym t s => (T t s).2 ≠ 0
  | .bits _ n => 1 ≤ n ∧ n ≤ 16
  | .rst _ => True

def PWr.Inv (w : PWr) (pre : List Nat) (bits : List Bool) : Prop :=
  ∃ (fl : List Bool) (v : Nat), fl.length % 8 = 0 ∧ w.out = pre ++ stuff (bytesOfBits fl) ∧
    bits = fl ++ toBits w.nb v ∧ w.nb ≤ 7 ∧ v < 2 ^ w.nb ∧ w.pb % 2 ^ 24 = v * 2 ^ (24 - w.nb)

theorem pLoop_spec (nb : Nat) : ∀ (pb v : Nat) (pre : List Nat) (fl : List Bool) (out : List Nat),
    nb ≤ 24 → fl.length % 8 = 0 → out = pre ++ stuff (bytesOfBits fl) → v < 2 ^ nb →
    pb % 2 ^ 24 = v * 2 ^ (24 - nb) → (pLoop pb nb out).Inv pre (fl ++ toBits nb v) := by
  induction nb using Nat.strongRecOn with
  | ind nb ih =>
    intro pb v pre fl out hn h8 ho hv hpb
    rw [pLoop]
    split
    · rename_i hge
      dsimp only
      have hc : (pb >>> 16) &&& 0xFF = v >>> (nb - 8) := by
        rw [show (0xFF : Nat) = 2 ^ 8 - 1 by rfl, Nat.and_two_pow_sub_one_eq_mod,
          Nat.shiftRight_eq_div_pow, Nat.shiftRight_eq_div_pow]
        have : pb / 2 ^ 16 % 2 ^ 8 = pb % 2 ^ 24 / 2 ^ 16 := by omega
        rw [this, hpb]
        rw [show 2 ^ 16 = 2 ^ (nb - 8) * 2 ^ (24 - nb) by rw [← Nat.pow_add]; congr 1; omega,
          Nat.mul_div_mul_right _ _ (Nat.two_pow_pos _)]
      rw [hc]
      have hlt : v >>> (nb - 8) < 256 := by
        rw [Nat.shiftRight_eq_div_pow]
        apply Nat.div_lt_of_lt_mul
        rw [show 256 = 2 ^ 8 by rfl, ← Nat.pow_add, show nb - 8 + 8 = nb by omega]; exact hv
      have hsplit : toBits nb v = toBits 8 (v >>> (nb - 8)) ++ toBits (nb - 8) (v % 2 ^ (nb - 8)) := by
        rw [toBits_mod _ _ _ (Nat.le_refl _), ← toBits_add]; congr 1; omega
      rw [hsplit, ← List.append_assoc]
      apply ih (nb - 8) (by omega)
      · omega
      · simp; omega
      · rw [bytesOfBits_append8 _ _ h8, stuff_append, ← List.append_assoc, ← ho]
        congr 1
        have := bytesOfBits_cons8 (toBits 8 (v >>> (nb - 8))) [] (by simp)
        rw [List.append_nil, bytesOfBits_nil, ofBits_toBits, Nat.mod_eq_of_lt hlt] at this
        rw [this, stuff_cons, stuff_nil, List.append_nil]
        split
        · rename_i h; rw [h]
        · rfl
      · exact Nat.mod_lt _ (Nat.two_pow_pos _)
      · rw [W64, Nat.mod_mod_of_dvd _ (Nat.pow_dvd_pow 2 (by omega)), Nat.shiftLeft_eq]
        have e1 : pb * 2 ^ 8 % 2 ^ 24 = (pb % 2 ^ 24 * 2 ^ 8) % 2 ^ 24 := by omega
        rw [e1, hpb]
        have hd : v = 2 ^ (nb - 8) * (v / 2 ^ (nb - 8)) + v % 2 ^ (nb - 8) := (Nat.div_add_mod _ _).symm
        have hlo := Nat.mod_lt v (Nat.two_pow_pos (nb - 8))
        generalize v % 2 ^ (nb - 8) = lo at *
        generalize v / 2 ^ (nb - 8) = hi at *
        have e2 : (24 - (nb - 8)) = (24 - nb) + 8 := by omega
        rw [e2, Nat.pow_add, ← Nat.mul_assoc]
        subst hd
        rw [Nat.add_mul, Nat.add_mul]
        have e3 : 2 ^ (nb - 8) * hi * 2 ^ (24 - nb) * 2 ^ 8 = 2 ^ 24 * hi := by
          calc _ = (2 ^ (nb - 8) * 2 ^ (24 - nb) * 2 ^ 8) * hi := by
                simp only [Nat.mul_assoc, Nat.mul_comm, Nat.mul_left_comm]
            _ = _ := by rw [← Nat.pow_add, ← Nat.pow_add]; congr 2; omega
        rw [e3, Nat.mul_add_mod]
        apply Nat.mod_eq_of_lt
        calc lo * 2 ^ (24 - nb) * 2 ^ 8 < 2 ^ (nb - 8) * 2 ^ (24 - nb) * 2 ^ 8 := by
              apply Nat.mul_lt_mul_of_pos_right _ (by decide)
              exact Nat.mul_lt_mul_of_pos_right hlo (Nat.two_pow_pos _)
          _ = 2 ^ 24 := by rw [← Nat.pow_add, ← Nat.pow_add]; congr 1; omega
    · rename_i hlt
      exact ⟨fl, v, h8, ho, rfl, by dsimp only; omega, hv, hpb⟩

theorem emitBits_inv {w : PWr} {pre : List Nat} {bits : List Bool} (h : w.Inv pre bits) (code : Nat)
    {size : Nat} (h1 : 1 ≤ size) (h16 : size ≤ 16) :
    ∃ w', emitBits w code size = some w' ∧ w'.Inv pre (bits ++ toBits size code) := by
  obtain ⟨fl, v, h8, ho, hb, hnb, hv, hpb⟩ := h
  unfold emitBits
  rw [if_neg (by omega)]
  refine ⟨_, rfl, ?_⟩
  have hcm : code % 2 ^ size < 2 ^ size := Nat.mod_lt _ (Nat.two_pow_pos _)
  have e0 : bits ++ toBits size code = fl ++ toBits (w.nb + size) (v * 2 ^ size + code % 2 ^ size) := by
    rw [toBits_concat _ _ _ _ hcm, hb, List.append_assoc, toBits_mod _ _ _ (Nat.le_refl _)]
  rw [e0]
  apply pLoop_spec _ _ _ _ _ _ (by omega) h8 ho
  · calc v * 2 ^ size + code % 2 ^ size < v * 2 ^ size + 2 ^ size := by omega
      _ = (v + 1) * 2 ^ size := by rw [Nat.add_mul]; omega
      _ ≤ 2 ^ w.nb * 2 ^ size := Nat.mul_le_mul_right _ hv
      _ = _ := (Nat.pow_add ..).symm
  · rw [Nat.and_two_pow_sub_one_eq_mod]
    have hsm : code % 2 ^ size * 2 ^ (24 - (w.nb + size)) < 2 ^ (24 - w.nb) := by
      calc _ < 2 ^ size * 2 ^ (24 - (w.nb + size)) := Nat.mul_lt_mul_of_pos_right hcm (Nat.two_pow_pos _)
        _ = _ := by rw [← Nat.pow_add]; congr 1; omega
    have hle : 2 ^ (24 - w.nb) ≤ 2 ^ 24 := Nat.pow_le_pow_right (by omega) (by omega)
    rw [Nat.shiftLeft_eq, W64, Nat.mod_eq_of_lt (show _ < 2 ^ 64 by omega), Nat.or_mod_two_pow, hpb,
      Nat.mod_eq_of_lt (show _ < 2 ^ 24 by omega), Nat.or_comm, ← Nat.shiftLeft_eq v, shl_or_eq hsm,
      Nat.add_mul, Nat.mul_assoc, ← Nat.pow_add]
    congr 3
    omega

theorem flushP_inv {w : PWr} {pre : List Nat} {bits : List Bool} (h : w.Inv pre bits) :
    ∃ w', flushP w = some w' ∧ w'.out = pre ++ segment bits ∧ w'.nb = 0 ∧ w'.pb = 0 := by
  obtain ⟨w', e, fl, v, h8, ho, hb, hnb, -, -⟩ := emitBits_inv h 0x7F (size := 7) (by omega) (by omega)
  refine ⟨_, by rw [flushP, e]; rfl, ?_, rfl, rfl⟩
  dsimp only
  rw [ho]
  congr 2
  rw [show toBits 7 0x7F = List.replicate 7 true by decide] at hb
  -- the padded string is a prefix of bits ++ 1111111
  have hl := congrArg List.length hb
  simp only [List.length_append, List.length_replicate, length_toBits] at hl
  have hpl : (padOnes bits).length = fl.length := by
    simp only [padOnes, List.length_append, List.length_replicate]; omega
  have hk : (8 - bits.length % 8) % 8 ≤ 7 := by omega
  have hp : bits ++ List.replicate 7 true = padOnes bits ++ List.replicate (7 - (8 - bits.length % 8) % 8) true := by
    rw [padOnes, List.append_assoc, List.replicate_append_replicate]
    congr 2; omega
  rw [hp] at hb
  rw [List.append_inj_left hb hpl]

theorem PWr.inv_empty (w : PWr) (h : w.nb = 0) (h2 : w.pb = 0) : w.Inv w.out [] :=
  ⟨[], 0, rfl, by simp [bytesOfBits_nil], by simp [h], by omega, by simp [h], by simp [h2]⟩

theorem runToks_inv {T : Nat → CTbl} (hT : ∀ t, CWf (T t)) (ts : List Tok) {w : PWr} {pre : List Nat}
    {bits : List Bool} (h : w.Inv pre bits) (hok : ∀ t ∈ ts, TokOk T t) :
    ∃ w' w'', runToks T w ts = some w' ∧ flushP w' = some w'' ∧
      w''.out = pre ++ segment (bits ++ (tokTail T ts).1) ++ (tokTail T ts).2 := by
  induction ts generalizing w pre bits with
  | nil =>
    obtain ⟨w', e, ho, -, -⟩ := flushP_inv h
    exact ⟨w, w', rfl, e, by simp [tokTail, ho]⟩
  | cons t ts ih =>
    have hok' : ∀ t ∈ ts, TokOk T t := fun x hx => hok x (by simp [hx])
    have h0 := hok t (by simp)
    cases t with
    | sym tb s =>
      have := hT tb s
      obtain ⟨w1, e1, i1⟩ := emitBits_inv h (T tb s).1 (size := (T tb s).2) (by
        simp only [TokOk] at h0; omega) this.1
      obtain ⟨w', w'', e2, e3, ho⟩ := ih i1 hok'
      exact ⟨w', w'', by simp only [runToks, runTok, e1, e2], e3, by
        rw [ho]; simp [tokTail, tokBits, symBits]⟩
    | bits c n =>
      obtain ⟨w1, e1, i1⟩ := emitBits_inv h c h0.1 h0.2
      obtain ⟨w', w'', e2, e3, ho⟩ := ih i1 hok'
      exact ⟨w', w'', by simp only [runToks, runTok, e1, e2], e3, by
        rw [ho]; simp [tokTail, tokBits]⟩
    | rst n =>
      obtain ⟨w1, e1, o1, n1, p1⟩ := flushP_inv h
      have i1 := PWr.inv_empty { w1 with out := w1.out ++ [0xFF, 0xD0 + n] } n1 p1
      obtain ⟨w', w'', e2, e3, ho⟩ := ih i1 hok'
      exact ⟨w', w'', by simp only [runToks, runTok, e1, Option.map_some, e2], e3, by
        rw [ho]; simp [tokTail, o1]⟩

/-- The bytes written are one segment, then the remaining segments each after its RSTn marker. -/
theorem writeScan_eq {T : Nat → CTbl} (hT : ∀ t, CWf (T t)) (ts : List Tok) (hok : ∀ t ∈ ts, TokOk T t) :
    writeScan T ts = some (segment (tokTail T ts).1 ++ (tokTail T ts).2) := by
  obtain ⟨w', w'', e1, e2, ho⟩ := runToks_inv hT ts
    (w := { pb := 0, nb := 0, out := [] }) (PWr.inv_empty _ rfl rfl) hok
  simp only [writeScan, e1, e2, Option.map_some, ho]
  simp

end Verif.Prog
