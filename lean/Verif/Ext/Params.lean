/-
Property C35: the extension parameter accessors of jcext.c.
-/
namespace Verif.Ext

/-- The extension fields of `jpeg_comp_master` (jpegint.h:102-133) reachable through jcext.c. `boolean` is a C `int`
and is stored as given; floats are kept as opaque 32-bit patterns (they are only copied). -/
structure Master where
  optimizeScans : Int
  trellisQuant : Int
  trellisQuantDc : Int
  trellisEobOpt : Int
  useLambdaWeightTbl : Int
  useScansInTrellis : Int
  trellisQOpt : Int
  overshootDeringing : Int
  lambdaLogScale1 : Nat
  lambdaLogScale2 : Nat
  trellisDeltaDcWeight : Nat
  compressProfile : Int
  trellisFreqSplit : Int
  trellisNumLoops : Int
  quantTblMasterIdx : Int
  dcScanOptMode : Int
deriving DecidableEq, Repr

inductive PErr where | badParam | badParamValue
deriving DecidableEq, Repr

/-- `jpeg_c_bool_param_supported` (jcext.c:18-34); constants from jpeglib.h:322-329. -/
def boolSupported (param : Nat) : Bool :=
  match param with
  | 0x680C061E | 0xC5122033 | 0x339D4C0C | 0xD7F73780 | 0x339DB65F | 0xFD841435 | 0xE12AE269 | 0x3F4BBBF9 => true
  | _ => false

/-- `jpeg_c_set_bool_param` (jcext.c:37-69). -/
def setBool (m : Master) (param : Nat) (value : Int) : Except PErr Master :=
  match param with
  | 0x680C061E => .ok { m with optimizeScans := value }
  | 0xC5122033 => .ok { m with trellisQuant := value }
  | 0x339D4C0C => .ok { m with trellisQuantDc := value }
  | 0xD7F73780 => .ok { m with trellisEobOpt := value }
  | 0x339DB65F => .ok { m with useLambdaWeightTbl := value }
  | 0xFD841435 => .ok { m with useScansInTrellis := value }
  | 0xE12AE269 => .ok { m with trellisQOpt := value }
  | 0x3F4BBBF9 => .ok { m with overshootDeringing := value }
  | _ => .error .badParam

/-- `jpeg_c_get_bool_param` (jcext.c:72-96). -/
def getBool (m : Master) (param : Nat) : Except PErr Int :=
  match param with
  | 0x680C061E => .ok m.optimizeScans
  | 0xC5122033 => .ok m.trellisQuant
  | 0x339D4C0C => .ok m.trellisQuantDc
  | 0xD7F73780 => .ok m.trellisEobOpt
  | 0x339DB65F => .ok m.useLambdaWeightTbl
  | 0xFD841435 => .ok m.useScansInTrellis
  | 0xE12AE269 => .ok m.trellisQOpt
  | 0x3F4BBBF9 => .ok m.overshootDeringing
  | _ => .error .badParam

/-- `jpeg_c_float_param_supported` (jcext.c:99-110). -/
def floatSupported (param : Nat) : Bool :=
  match param with
  | 0x5B61A599 | 0xB9BBAE03 | 0x13775453 => true
  | _ => false

/-- `jpeg_c_set_float_param` (jcext.c:113-129). -/
def setFloat (m : Master) (param : Nat) (value : Nat) : Except PErr Master :=
  match param with
  | 0x5B61A599 => .ok { m with lambdaLogScale1 := value }
  | 0xB9BBAE03 => .ok { m with lambdaLogScale2 := value }
  | 0x13775453 => .ok { m with trellisDeltaDcWeight := value }
  | _ => .error .badParam

/-- `jpeg_c_get_float_param` (jcext.c:132-147). -/
def getFloat (m : Master) (param : Nat) : Except PErr Nat :=
  match param with
  | 0x5B61A599 => .ok m.lambdaLogScale1
  | 0xB9BBAE03 => .ok m.lambdaLogScale2
  | 0x13775453 => .ok m.trellisDeltaDcWeight
  | _ => .error .badParam

/-- `jpeg_c_int_param_supported` (jcext.c:150-163). -/
def intSupported (param : Nat) : Bool :=
  match param with
  | 0xE9918625 | 0x6FAFF127 | 0xB63EBF39 | 0x44492AB1 | 0x0BE7AD3C => true
  | _ => false

/-- `jpeg_c_set_int_param` (jcext.c:166-196); JCP_MAX_COMPRESSION and JCP_FASTEST from jpeglib.h:353-354. A base table
index outside 0..8 is ignored without an error, as in the source. -/
def setInt (m : Master) (param : Nat) (value : Int) : Except PErr Master :=
  match param with
  | 0xE9918625 =>
    if value = 0x5D083AAD ∨ value = 0x2AEA5CB4 then .ok { m with compressProfile := value } else .error .badParamValue
  | 0x6FAFF127 => .ok { m with trellisFreqSplit := value }
  | 0xB63EBF39 => .ok { m with trellisNumLoops := value }
  | 0x44492AB1 => if 0 ≤ value ∧ value ≤ 8 then .ok { m with quantTblMasterIdx := value } else .ok m
  | 0x0BE7AD3C => .ok { m with dcScanOptMode := value }
  | _ => .error .badParam

/-- `jpeg_c_get_int_param` (jcext.c:199-218). -/
def getInt (m : Master) (param : Nat) : Except PErr Int :=
  match param with
  | 0xE9918625 => .ok m.compressProfile
  | 0x6FAFF127 => .ok m.trellisFreqSplit
  | 0xB63EBF39 => .ok m.trellisNumLoops
  | 0x44492AB1 => .ok m.quantTblMasterIdx
  | 0x0BE7AD3C => .ok m.dcScanOptMode
  | _ => .error .badParam

/-! ## Specification -/

/-- A parameter: its family and its 32-bit code. -/
inductive Param where
  | bool (c : Nat) | float (c : Nat) | int (c : Nat)
deriving DecidableEq, Repr

/-- A call of one of the three setters. Values of all families are integers here (float: the bit pattern). -/
structure SetCall where
  param : Param
  value : Int
deriving DecidableEq, Repr

/-- Performing a setter call. -/
def doSet (m : Master) (c : SetCall) : Except PErr Master :=
  match c.param with
  | .bool p => setBool m p c.value
  | .float p => setFloat m p c.value.toNat
  | .int p => setInt m p c.value

/-- Performing a getter call. -/
def doGet (m : Master) (p : Param) : Except PErr Int :=
  match p with
  | .bool p => getBool m p
  | .float p => (getFloat m p).map Int.ofNat
  | .int p => getInt m p

/-- The answer of the `_supported` functions. -/
def isSupported : Param → Bool
  | .bool p => boolSupported p
  | .float p => floatSupported p
  | .int p => intSupported p

/-- The value is one the documentation allows for the parameter: any, except that the compression profile must be one
of the two profiles, a base quantization table index is 0..8, and a float is a bit pattern (nonnegative here). -/
def Legal (c : SetCall) : Prop :=
  match c.param with
  | .int 0xE9918625 => c.value = 0x5D083AAD ∨ c.value = 0x2AEA5CB4
  | .int 0x44492AB1 => 0 ≤ c.value ∧ c.value ≤ 8
  | .float _ => 0 ≤ c.value
  | _ => True

instance : DecidablePred Legal := by
  intro c
  unfold Legal
  split <;> infer_instance

/-- A history of setter calls; a call that raises an error (longjmp to the application) leaves the object as it was. -/
def run (m : Master) : List SetCall → Master
  | [] => m
  | c :: cs => run (match doSet m c with | .ok m' => m' | .error _ => m) cs

/-! ## C35 -/

/-- Getter and setter succeed or fail together with what the `_supported` function says. -/
theorem supported_iff (m : Master) (p : Param) :
    (isSupported p = true ↔ ∃ v, doGet m p = .ok v) ∧
    (isSupported p = false → doGet m p = .error .badParam ∧ ∀ v, doSet m ⟨p, v⟩ = .error .badParam) ∧
    (isSupported p = true → ∀ v, Legal ⟨p, v⟩ → ∃ m', doSet m ⟨p, v⟩ = .ok m') := by
  cases p with
  | bool c =>
    simp only [isSupported, doGet, doSet, boolSupported, getBool, setBool, Legal]
    split <;> simp
  | float c =>
    simp only [isSupported, doGet, doSet, floatSupported, getFloat, setFloat, Legal]
    split <;> simp [Except.map]
  | int c =>
    simp only [isSupported, doGet, doSet, intSupported, getInt, setInt]
    split <;> simp [Legal]
    intro v h1 h2
    rw [if_pos ⟨h1, h2⟩]
    exact ⟨_, rfl⟩

/-- C35, one call: after a successful legal setter call the getter of that parameter returns the value set and the
getter of every other parameter what it returned before; an unsuccessful one (and an out-of-range base table index)
changes nothing. -/
theorem set_get (m : Master) (c : SetCall) :
    (Legal c → isSupported c.param = true → ∃ m', doSet m c = .ok m' ∧ doGet m' c.param = .ok c.value ∧
      ∀ q, q ≠ c.param → doGet m' q = doGet m q) ∧
    (¬ Legal c → (∀ p, c.param ≠ .float p) → ∀ m', doSet m c = .ok m' → m' = m) := by
  obtain ⟨p, v⟩ := c
  refine ⟨?_, ?_⟩
  · intro hl hs
    cases p with
    | bool c =>
      simp only [isSupported, boolSupported] at hs
      split at hs <;> first
        | (simp at hs; done)
        | (refine ⟨_, rfl, rfl, ?_⟩
           intro q hq
           cases q with
           | bool d =>
             simp only [ne_eq, Param.bool.injEq] at hq
             simp only [doGet, getBool]
             split <;> first | rfl | exact absurd rfl hq
           | float d => rfl
           | int d => rfl)
    | float c =>
      simp only [isSupported, floatSupported] at hs
      have hv : 0 ≤ v := hl
      split at hs <;> first
        | (simp at hs; done)
        | (refine ⟨_, rfl, ?_, ?_⟩
           · show (Except.ok (Int.ofNat v.toNat) : Except PErr Int) = .ok v
             rw [show Int.ofNat v.toNat = v from Int.toNat_of_nonneg hv]
           · intro q hq
             cases q with
             | bool d => rfl
             | int d => rfl
             | float d =>
               simp only [ne_eq, Param.float.injEq] at hq
               simp only [doGet, getFloat]
               split <;> first | rfl | exact absurd rfl hq)
    | int c =>
      simp only [isSupported, intSupported] at hs
      split at hs <;> first
        | (simp at hs; done)
        | (simp only [doSet, setInt]
           simp only [Legal] at hl
           first | rw [if_pos hl] | skip
           refine ⟨_, rfl, rfl, ?_⟩
           intro q hq
           cases q with
           | bool d => rfl
           | float d => rfl
           | int d =>
             simp only [ne_eq, Param.int.injEq] at hq
             simp only [doGet, getInt]
             split <;> first | rfl | exact absurd rfl hq)
  · intro hl hf m' h
    cases p with
    | bool c => exact absurd trivial hl
    | float c => exact absurd rfl (hf c)
    | int c =>
      simp only [doSet, setInt] at h
      unfold Legal at hl
      split at hl
      · rename_i he
        simp only [Param.int.injEq] at he
        subst he
        simp only at h hl
        rw [if_neg hl] at h
        cases h
      · rename_i he
        simp only [Param.int.injEq] at he
        subst he
        simp only at h hl
        rw [if_neg hl] at h
        exact (Except.ok.inj h).symm
      · rename_i he; exact absurd he (by simp)
      · exact absurd trivial hl

/-- C35 over histories: after any sequence of setter calls whose float values are bit patterns, a supported parameter
reads as the value of the last legal call that set it, or as initially if there was none. -/
theorem last_set_wins (m : Master) (p : Param) (hp : isSupported p = true) (h : List SetCall)
    (hfl : ∀ c ∈ h, ∀ q, c.param = .float q → 0 ≤ c.value) :
    doGet (run m h) p = match (h.filter (fun c => decide (c.param = p ∧ Legal c))).getLast? with
      | some c => .ok c.value
      | none => doGet m p := by
  induction h generalizing m with
  | nil => rfl
  | cons c cs ih =>
    rw [run, ih _ (fun d hd => hfl d (by simp [hd]))]
    by_cases hc : c.param = p ∧ Legal c
    · rw [List.filter_cons_of_pos (by simpa using hc)]
      obtain ⟨m', h1, h2, -⟩ := (set_get m c).1 hc.2 (hc.1 ▸ hp)
      rw [hc.1] at h2
      rw [h1]
      simp only
      cases hl : (cs.filter (fun c => decide (c.param = p ∧ Legal c))) with
      | nil => simpa using h2
      | cons d ds =>
        rw [List.getLast?_cons_cons]
        cases hd : (d :: ds).getLast? with
        | none => simp at hd
        | some e => rfl
    · rw [List.filter_cons_of_neg (by simpa using hc)]
      have hsame : doGet (match doSet m c with | .ok m' => m' | .error _ => m) p = doGet m p := by
        cases hs : doSet m c with
        | error e => rfl
        | ok m' =>
          simp only
          by_cases hl : Legal c
          · cases hsup : isSupported c.param with
            | true =>
              obtain ⟨m2, h1, -, h3⟩ := (set_get m c).1 hl hsup
              rw [hs, Except.ok.injEq] at h1
              subst h1
              exact h3 p (fun e => hc ⟨e.symm, hl⟩)
            | false =>
              have := ((supported_iff m c.param).2.1 hsup).2 c.value
              rw [show (⟨c.param, c.value⟩ : SetCall) = c from rfl, hs] at this
              cases this
          · have := (set_get m c).2 hl (fun q hq => hl (by
              have := hfl c (by simp) q hq
              unfold Legal; rw [hq]; exact this)) m' hs
            rw [this]
      rw [hsame]

/-- Non-vacuity: a history with a rejected profile, an ignored table index and an overwritten value. -/
example (m : Master) :
    doGet (run m [⟨.int 0x44492AB1, 3⟩, ⟨.int 0xE9918625, 7⟩, ⟨.int 0x44492AB1, 9⟩, ⟨.bool 0xC5122033, 0⟩]) (.int 0x44492AB1)
      = .ok 3 ∧ isSupported (.int 0x44492AB1) = true ∧ Legal ⟨.int 0x44492AB1, 3⟩ ∧ ¬ Legal ⟨.int 0x44492AB1, 9⟩ := by
  refine ⟨rfl, rfl, by decide, by decide⟩

end Verif.Ext
