/-
C29, compression side: the order of API calls.  jcapimin.c, jcapistd.c, jctrans.c, jcparam.c, jcicc.c, jcomapi.c.

What the modules behind the API do is left open: every call carries an arbitrary outcome of the work it starts (`Option Nat` rows taken
or error exit, ...), so that a theorem about all call lists covers all of them.  An error exit (longjmp or exception of the
application's error_exit) leaves the object as it is at that point.
-/
namespace Verif.Api

/-- Outcome of a call: returned (value of the C function, 0 for void), JERR_BAD_STATE, another error exit, or undefined behaviour (a null or
freed pointer is used). -/
inductive Res | ok (n : Nat) | badState | err | crash
  deriving DecidableEq, Repr

/-- A module pointer into the JPOOL_IMAGE pool. -/
inductive Ptr | null | live | dangling
  deriving DecidableEq, Repr

namespace C

/-- The fields of the object set by the application before a start call: image_height, raw_data_in, data_precision, master->lossless,
max_v_samp_factor, optimize_coding (jpeglib.h).  Simplification: they are not changed afterwards. -/
structure Cfg where
  height : Nat
  raw : Bool
  prec : Nat := 8
  lossless : Bool := false
  maxV : Nat := 1
  opt : Bool := false
  deriving DecidableEq, Repr

/-- Outcome of the initialisations in a start call: done, error exit before or after jinit_marker_writer. -/
inductive Work | done | early | late
  deriving DecidableEq, Repr

/-- The API calls (jpeglib.h).  `param`: jpeg_set_defaults, jpeg_set_colorspace, jpeg_add_quant_table, jpeg_simple_progression,
jpeg_search_progression, jpeg_enable_lossless, jpeg_copy_critical_parameters, which all begin with the same test. -/
inductive Call
  | create
  | destroy
  | abort
  | param (ok : Bool)
  | suppressTables
  | start (c : Cfg) (w : Work)
  | writeCoefs (c : Cfg) (w : Work)
  | writeScanlines (prec lines : Nat) (w : Option Nat)
  | writeRaw (prec lines : Nat) (w : Option Bool)
  | writeMarker (ok : Bool)
  | writeMHeader (ok : Bool)
  | writeMByte
  | writeIcc (len : Nat) (ok : Bool)
  | writeTables (ok : Bool)
  | finish (ok : Bool)
  deriving DecidableEq, Repr

/-- The part of jpeg_compress_struct that decides which calls are accepted.  global_state (jpegint.h:46-49): 0 destroyed, 100 CSTATE_START,
101 CSTATE_SCANNING, 102 CSTATE_RAW_OK, 103 CSTATE_WRCOEFS; next_scanline; the application's fields; the marker writer; mem != NULL;
whether the frame and scan headers of the main pass have been written. -/
structure Obj where
  gs : Nat
  next : Nat
  cfg : Cfg
  marker : Ptr
  alive : Bool
  sos : Bool
  deriving DecidableEq, Repr

/-- jpeg_CreateCompress (jcapimin.c:33-111): everything zeroed. -/
def Obj.fresh : Obj := ⟨100, 0, ⟨0, false, 8, false, 1, false⟩, .null, true, false⟩

/-- jpeg_abort (jcomapi.c:31-61): frees JPOOL_IMAGE, where the marker writer lives. -/
def Obj.abort (o : Obj) : Obj :=
  if o.alive then { o with gs := 100, marker := if o.marker = .live then .dangling else o.marker } else o

/-- jpeg_destroy (jcomapi.c:76-85). -/
def Obj.destroy (o : Obj) : Obj := { o with gs := 0, alive := false, marker := if o.marker = .live then .dangling else o.marker }

/-- jpeg_write_m_header (jcapimin.c:261-271); also jpeg_write_marker (jcapimin.c:239-257), which then writes the bytes. -/
def Obj.mHeader (o : Obj) (ok : Bool) : Obj × Res :=
  if o.next ≠ 0 ∨ (o.gs ≠ 101 ∧ o.gs ≠ 102 ∧ o.gs ≠ 103) then (o, .badState)
  else if o.marker ≠ .live then (o, .crash)
  else (o, if ok then .ok 0 else .err)

/-- One call.  Line references at the cases. -/
def step (o : Obj) : Call → Obj × Res
  | .create => (.fresh, .ok 0)
  | .destroy => (o.destroy, .ok 0)
  | .abort => (o.abort, .ok 0)
  | .param ok => -- jcparam.c:44-46, 391-393, 588-590, 743-745, 871-873, 1019-1021; jctrans.c:86-88
    if o.gs ≠ 100 then (o, .badState) else (o, if ok then .ok 0 else .err)
  | .suppressTables => -- jcapimin.c:146-164: goes through the table pointers, which live in JPOOL_PERMANENT
    if o.alive then (o, .ok 0) else (o, .crash)
  | .start c w => -- jcapistd.c:45-73
    if o.gs ≠ 100 then (o, .badState)
    else match w with
      | .early => ({ o with cfg := c }, .err)
      | .late => ({ o with cfg := c, marker := .live }, .err)
      | .done => ({ o with cfg := c, marker := .live, next := 0, gs := if c.raw then 102 else 101, sos := false }, .ok 0)
  | .writeCoefs c w => -- jctrans.c:44-64: master is used before the state is tested
    if ¬ o.alive then (o, .crash)
    else if c.lossless then (o, .err)
    else if o.gs ≠ 100 then (o, .badState)
    else match w with
      | .early => ({ o with cfg := c }, .err)
      | .late => ({ o with cfg := c, marker := .live }, .err)
      | .done => ({ o with cfg := c, marker := .live, next := 0, gs := 103, sos := false }, .ok 0)
  | .writeScanlines prec n w => -- jcapistd.c:90-136
    if prec ≠ o.cfg.prec then (o, .err)
    else if o.gs ≠ 101 then (o, .badState)
    else
      let o := { o with sos := o.sos || !o.cfg.opt }
      match w with
      | none => (o, .err)
      | some k => ({ o with next := o.next + min k (min n (o.cfg.height - o.next)) }, .ok (min k (min n (o.cfg.height - o.next))))
  | .writeRaw prec n w => -- jcapistd.c:145-199: master is used before the state is tested
    if prec ≠ o.cfg.prec then (o, .err)
    else if ¬ o.alive then (o, .crash)
    else if o.cfg.lossless then (o, .err)
    else if o.gs ≠ 102 then (o, .badState)
    else if o.next ≥ o.cfg.height then (o, .ok 0)
    else
      let o := { o with sos := o.sos || !o.cfg.opt }
      if n < o.cfg.maxV * 8 then (o, .err)
      else match w with
        | none => (o, .err)
        | some false => (o, .ok 0)
        | some true => ({ o with next := o.next + o.cfg.maxV * 8 }, .ok (o.cfg.maxV * 8))
  | .writeMarker ok => o.mHeader ok
  | .writeMHeader ok => o.mHeader ok
  | .writeMByte => if o.marker ≠ .live then (o, .crash) else (o, .ok 0) -- jcapimin.c:273-277: no test
  | .writeIcc len ok => -- jcicc.c:47-59, then jpeg_write_m_header for each chunk
    if len = 0 then (o, .err) else if o.gs < 101 then (o, .badState) else o.mHeader ok
  | .writeTables ok => -- jcapimin.c:301-331
    if o.gs ≠ 100 then (o, .badState)
    else ({ o with marker := .live }, if ok then .ok 0 else .err)
  | .finish ok => -- jcapimin.c:175-230
    if o.gs = 101 ∨ o.gs = 102 then
      if o.next < o.cfg.height then (o, .err) else if ok then (o.abort, .ok 0) else (o, .err)
    else if o.gs ≠ 103 then (o, .badState)
    else if ok then (o.abort, .ok 0) else (o, .err)

/-- A call with its result. -/
abbrev Event := Call × Res

/-- A sequence of calls: the object and the history, the latest event first. -/
def run (o : Obj) (h : List Event) : List Call → Obj × List Event
  | [] => (o, h)
  | c :: cs => run (step o c).1 ((c, (step o c).2) :: h) cs

/-- The calls of an application that begins by creating an object. -/
def history (cs : List Call) : Obj × List Event := run .fresh [] cs

/-! ### Specification: in terms of the calls made and what they returned -/

inductive Kind | scanlines | raw | coefs
  deriving DecidableEq, Repr

/-- An image being written: how, its height, the rows taken so far, whether a row-writing call has been made. -/
structure Sess where
  kind : Kind
  height : Nat
  rows : Nat
  tried : Bool
  deriving DecidableEq, Repr

/-- The image being written after a history (latest event first): opened by a successful start call, closed by a successful finish and by
abort, destroy and create. -/
def session : List Event → Option Sess
  | [] => none
  | (.start c _, .ok _) :: _ => some ⟨if c.raw then .raw else .scanlines, c.height, 0, false⟩
  | (.writeCoefs c _, .ok _) :: _ => some ⟨.coefs, c.height, 0, false⟩
  | (.finish _, .ok _) :: _ => none
  | (.abort, _) :: _ => none
  | (.destroy, _) :: _ => none
  | (.create, _) :: _ => none
  | (.writeScanlines _ _ _, .ok n) :: h => (session h).map fun s => { s with rows := s.rows + n, tried := true }
  | (.writeScanlines _ _ _, .err) :: h => (session h).map fun s => { s with tried := true }
  | (.writeRaw _ _ _, .ok n) :: h => (session h).map fun s => { s with rows := s.rows + n, tried := true }
  | (.writeRaw _ _ _, .err) :: h => (session h).map fun s => { s with tried := true }
  | _ :: h => session h

/-- Destroyed and not created again. -/
def gone : List Event → Bool
  | [] => false
  | (.create, _) :: _ => false
  | (.destroy, _) :: _ => true
  | _ :: h => gone h

/-- The documented order (libjpeg.txt, comments of the functions). -/
def Permitted : Option Sess → Call → Prop
  | s, .param _ => s = none
  | s, .start _ _ => s = none
  | s, .writeCoefs _ _ => s = none
  | s, .writeTables _ => s = none
  | s, .writeScanlines _ _ _ => ∃ x, s = some x ∧ x.kind = .scanlines
  | s, .writeRaw _ _ _ => ∃ x, s = some x ∧ x.kind = .raw
  | s, .writeMarker _ => ∃ x, s = some x ∧ x.rows = 0
  | s, .writeMHeader _ => ∃ x, s = some x ∧ x.rows = 0
  | s, .writeIcc _ _ => ∃ x, s = some x ∧ x.rows = 0
  | s, .writeMByte => ∃ x, s = some x ∧ x.rows = 0
  | s, .finish _ => s ≠ none
  | _, .create => True
  | _, .destroy => True
  | _, .abort => True
  | _, .suppressTables => True

/-- Arguments that are rejected before the order is looked at: wrong sample precision, lossless mode, empty profile. -/
def ArgsOk (cfg : Cfg) : Call → Prop
  | .writeCoefs c _ => c.lossless = false
  | .writeScanlines p _ _ => p = cfg.prec
  | .writeRaw p _ _ => p = cfg.prec ∧ cfg.lossless = false
  | .writeIcc len _ => len ≠ 0
  | _ => True

/-! ### Invariant -/

def kindGs : Kind → Nat
  | .scanlines => 101
  | .raw => 102
  | .coefs => 103

/-- What the object knows of the history. -/
structure Inv (o : Obj) (h : List Event) : Prop where
  alive : o.alive = !gone h
  dead : o.alive = false → o.gs = 0 ∧ session h = none
  idle : o.alive = true → session h = none → o.gs = 100
  busy : ∀ s, session h = some s → o.alive = true ∧ o.gs = kindGs s.kind ∧ o.next = s.rows ∧ o.cfg.height = s.height ∧ o.marker = .live ∧
    (o.sos = true → s.tried = true) ∧ (s.kind = .scanlines → s.rows ≤ s.height) ∧ (s.kind = .coefs → s.rows = 0)

theorem Inv.init : Inv .fresh [] := ⟨rfl, by simp [Obj.fresh], by simp [Obj.fresh], by simp [session]⟩

/-- An event that changes neither the session nor the object. -/
theorem Inv.same {o : Obj} {h : List Event} {e : Event} (i : Inv o h) (h1 : session (e :: h) = session h) (h2 : gone (e :: h) = gone h) :
    Inv o (e :: h) := ⟨by rw [h2]; exact i.alive, by rw [h1]; exact i.dead, by rw [h1]; exact i.idle, by rw [h1]; exact i.busy⟩

theorem mHeader_same (o : Obj) (ok : Bool) : (o.mHeader ok).1 = o := by
  unfold Obj.mHeader
  by_cases h1 : o.next ≠ 0 ∨ (o.gs ≠ 101 ∧ o.gs ≠ 102 ∧ o.gs ≠ 103)
  · rw [if_pos h1]
  · rw [if_neg h1]
    by_cases h2 : o.marker ≠ .live
    · rw [if_pos h2]
    · rw [if_neg h2]

theorem kindGs_ne (k : Kind) : kindGs k ≠ 100 ∧ kindGs k ≠ 0 := by cases k <;> decide

theorem Inv.start_none {o : Obj} {h : List Event} (i : Inv o h) (hs : o.gs = 100) : session h = none := by
  cases e : session h with
  | none => rfl
  | some s => exact absurd ((i.busy s e).2.1.symm.trans hs) (kindGs_ne _).1

/-- The object is in its start state, whatever the other fields. -/
theorem Inv.idle_any {o o' : Obj} {h : List Event} {e : Event} (i : Inv o h) (hs : o.gs = 100) (h1 : session (e :: h) = session h)
    (h2 : gone (e :: h) = gone h) (hg : o'.gs = 100) (ha : o'.alive = o.alive) : Inv o' (e :: h) := by
  have hno := i.start_none hs
  refine ⟨by rw [h2, ha]; exact i.alive, ?_, fun _ _ => hg, by rw [h1, hno]; simp⟩
  intro hd
  rw [ha] at hd
  have := (i.dead hd).1
  rw [hs] at this; simp at this

theorem Inv.abort {o : Obj} {h : List Event} {e : Event} (i : Inv o h) (h1 : session (e :: h) = none) (h2 : gone (e :: h) = gone h) :
    Inv o.abort (e :: h) := by
  unfold Obj.abort
  by_cases ha : o.alive = true
  · rw [if_pos ha]
    exact ⟨by rw [h2]; exact i.alive, fun hd => by simp [ha] at hd, fun _ _ => rfl, by rw [h1]; simp⟩
  · rw [if_neg ha]
    have ha' : o.alive = false := by simpa using ha
    exact ⟨by rw [h2]; exact i.alive, fun _ => ⟨(i.dead ha').1, h1⟩, fun hd => absurd hd ha, by rw [h1]; simp⟩

theorem Inv.opened {o : Obj} {h : List Event} {e : Event} (i : Inv o h) (hs : o.gs = 100) (k : Kind) (c : Cfg)
    (h1 : session (e :: h) = some ⟨k, c.height, 0, false⟩) (h2 : gone (e :: h) = gone h) :
    Inv { o with cfg := c, marker := .live, next := 0, gs := kindGs k, sos := false } (e :: h) := by
  have ha : o.alive = true := by
    cases ha : o.alive with
    | true => rfl
    | false => have := (i.dead ha).1; rw [hs] at this; simp at this
  refine ⟨by rw [h2]; exact i.alive, fun hd => by simp [ha] at hd, fun _ hn => by rw [h1] at hn; simp at hn, ?_⟩
  intro s hs'
  rw [h1] at hs'
  obtain rfl := Option.some.inj hs'
  exact ⟨ha, rfl, rfl, rfl, rfl, by simp, fun _ => Nat.zero_le _, fun _ => rfl⟩

theorem busy_of_gs {o : Obj} {h : List Event} (i : Inv o h) (k : Kind) (hg : o.gs = kindGs k) : ∃ s, session h = some s ∧ s.kind = k := by
  cases e : session h with
  | some s =>
    refine ⟨s, rfl, ?_⟩
    have := (i.busy s e).2.1
    rw [hg] at this
    revert this
    cases k <;> cases s.kind <;> decide
  | none =>
    exfalso
    cases ha : o.alive with
    | false => exact (kindGs_ne k).2 (hg.symm.trans (i.dead ha).1)
    | true => exact (kindGs_ne k).1 (hg.symm.trans (i.idle ha e))

/-- A row-writing call that took `n` rows. -/
theorem Inv.rows {o : Obj} {h : List Event} {e : Event} (i : Inv o h) (s : Sess) (hs : session h = some s) (n : Nat)
    (hk : s.kind = .scanlines → s.rows + n ≤ s.height) (hc : s.kind ≠ .coefs) (b : Bool)
    (h1 : session (e :: h) = (session h).map fun s => { s with rows := s.rows + n, tried := true }) (h2 : gone (e :: h) = gone h) :
    Inv { o with next := o.next + n, sos := b } (e :: h) := by
  obtain ⟨h3, h4, h5, h6, h7, -, -, -⟩ := i.busy s hs
  rw [hs] at h1
  refine ⟨by rw [h2]; exact i.alive, fun hd => by simp [h3] at hd, fun _ hn => by rw [h1] at hn; simp at hn, ?_⟩
  intro s' hs'
  rw [h1] at hs'
  obtain rfl := Option.some.inj hs'
  exact ⟨h3, h4, by dsimp only; rw [h5], h6, h7, fun _ => rfl, hk, fun h => absurd h hc⟩

theorem Inv.tried {o : Obj} {h : List Event} {e : Event} (i : Inv o h) (s : Sess) (hs : session h = some s) (b : Bool)
    (h1 : session (e :: h) = (session h).map fun s => { s with tried := true }) (h2 : gone (e :: h) = gone h) :
    Inv { o with sos := b } (e :: h) := by
  obtain ⟨h3, h4, h5, h6, h7, -, h8, h9⟩ := i.busy s hs
  rw [hs] at h1
  refine ⟨by rw [h2]; exact i.alive, fun hd => by simp [h3] at hd, fun _ hn => by rw [h1] at hn; simp at hn, ?_⟩
  intro s' hs'
  rw [h1] at hs'
  obtain rfl := Option.some.inj hs'
  exact ⟨h3, h4, h5, h6, h7, fun _ => rfl, h8, h9⟩

theorem Inv.tried_any {o : Obj} {h : List Event} {e : Event} (i : Inv o h)
    (h1 : session (e :: h) = (session h).map fun s => { s with tried := true }) (h2 : gone (e :: h) = gone h) : Inv o (e :: h) := by
  cases hs : session h with
  | none => exact i.same (by rw [h1, hs]; rfl) h2
  | some s => exact i.tried s hs o.sos h1 h2

theorem step_inv {o : Obj} {h : List Event} (i : Inv o h) (c : Call) : Inv (step o c).1 ((c, (step o c).2) :: h) := by
  have hdead : ∀ {g : Nat}, o.gs = g → g ≠ 0 → o.alive = true := by
    intro g hg hn
    cases ha : o.alive with
    | true => rfl
    | false => exact absurd (hg.symm.trans (i.dead ha).1) hn
  cases c with
  | create => exact ⟨rfl, by simp [step, Obj.fresh], by simp [step, Obj.fresh], by simp [step, session]⟩
  | destroy => exact ⟨rfl, by simp [step, Obj.destroy, session], by simp [step, Obj.destroy], by simp [step, session]⟩
  | abort => exact i.abort rfl rfl
  | param ok =>
    simp only [step]
    by_cases hg : o.gs = 100
    · rw [if_neg (by simp [hg])]
      cases ok <;> exact i.same rfl rfl
    · rw [if_pos hg]; exact i.same rfl rfl
  | suppressTables =>
    simp only [step]
    by_cases ha : o.alive = true
    · rw [if_pos ha]; exact i.same rfl rfl
    · rw [if_neg ha]; exact i.same rfl rfl
  | start c w =>
    simp only [step]
    by_cases hg : o.gs = 100
    · rw [if_neg (by simp [hg])]
      cases w with
      | early => exact i.idle_any hg rfl rfl hg rfl
      | late => exact i.idle_any hg rfl rfl hg rfl
      | done =>
        have := i.opened (e := (.start c .done, .ok 0)) hg (if c.raw then .raw else .scanlines) c rfl rfl
        cases hr : c.raw <;> rw [hr] at this <;> simpa [hr, kindGs] using this
    · rw [if_pos hg]; exact i.same rfl rfl
  | writeCoefs c w =>
    simp only [step]
    by_cases ha : ¬ o.alive = true
    · rw [if_pos ha]; exact i.same rfl rfl
    · rw [if_neg ha]
      by_cases hl : c.lossless = true
      · rw [if_pos hl]; exact i.same rfl rfl
      · rw [if_neg hl]
        by_cases hg : o.gs = 100
        · rw [if_neg (by simp [hg])]
          cases w with
          | early => exact i.idle_any hg rfl rfl hg rfl
          | late => exact i.idle_any hg rfl rfl hg rfl
          | done => exact i.opened hg .coefs c rfl rfl
        · rw [if_pos hg]; exact i.same rfl rfl
  | writeScanlines prec n w =>
    simp only [step]
    by_cases hp : prec ≠ o.cfg.prec
    · rw [if_pos hp]; exact i.tried_any rfl rfl
    · rw [if_neg hp]
      by_cases hg : o.gs = 101
      · rw [if_neg (by simp [hg])]
        obtain ⟨s, hs, hk⟩ := busy_of_gs i .scanlines hg
        obtain ⟨-, -, h5, h6, -, -, h8, -⟩ := i.busy s hs
        cases w with
        | none => exact i.tried s hs _ rfl rfl
        | some k =>
          refine i.rows s hs _ (fun _ => ?_) (by rw [hk]; simp) _ rfl rfl
          have := h8 hk
          rw [h5, h6]
          omega
      · rw [if_pos hg]; exact i.same rfl rfl
  | writeRaw prec n w =>
    simp only [step]
    by_cases hp : prec ≠ o.cfg.prec
    · rw [if_pos hp]; exact i.tried_any rfl rfl
    · rw [if_neg hp]
      by_cases ha : ¬ o.alive = true
      · rw [if_pos ha]; exact i.same rfl rfl
      · rw [if_neg ha]
        by_cases hl : o.cfg.lossless = true
        · rw [if_pos hl]; exact i.tried_any rfl rfl
        · rw [if_neg hl]
          by_cases hg : o.gs = 102
          · rw [if_neg (by simp [hg])]
            obtain ⟨s, hs, hk⟩ := busy_of_gs i .raw hg
            have hr := fun (m : Nat) (e : Event) (b : Bool) => i.rows (e := e) s hs m (fun h => by rw [hk] at h; simp at h) (by rw [hk]; simp) b
            by_cases hn : o.next ≥ o.cfg.height
            · rw [if_pos hn]; exact hr 0 _ o.sos rfl rfl
            · rw [if_neg hn]
              by_cases hm : n < o.cfg.maxV * 8
              · rw [if_pos hm]; exact i.tried s hs _ rfl rfl
              · rw [if_neg hm]
                cases w with
                | none => exact i.tried s hs _ rfl rfl
                | some b =>
                  cases b with
                  | false => exact hr 0 _ _ rfl rfl
                  | true => exact hr (o.cfg.maxV * 8) _ _ rfl rfl
          · rw [if_pos hg]; exact i.same rfl rfl
  | writeMarker ok => simp only [step, mHeader_same]; exact i.same (by cases (o.mHeader ok).2 <;> rfl) rfl
  | writeMHeader ok => simp only [step, mHeader_same]; exact i.same (by cases (o.mHeader ok).2 <;> rfl) rfl
  | writeMByte =>
    simp only [step]
    by_cases hm : o.marker ≠ .live
    · rw [if_pos hm]; exact i.same rfl rfl
    · rw [if_neg hm]; exact i.same rfl rfl
  | writeIcc len ok =>
    simp only [step]
    by_cases hl : len = 0
    · rw [if_pos hl]; exact i.same rfl rfl
    · rw [if_neg hl]
      by_cases hg : o.gs < 101
      · rw [if_pos hg]; exact i.same rfl rfl
      · rw [if_neg hg]
        simp only [mHeader_same]
        exact i.same (by cases (o.mHeader ok).2 <;> rfl) rfl
  | writeTables ok =>
    simp only [step]
    by_cases hg : o.gs = 100
    · rw [if_neg (by simp [hg])]
      exact i.idle_any hg (by cases ok <;> rfl) rfl hg rfl
    · rw [if_pos hg]; exact i.same rfl rfl
  | finish ok =>
    simp only [step]
    have he : ∀ b : Bool, Inv (if b = true then (o.abort, Res.ok 0) else (o, .err)).1
        ((.finish ok, (if b = true then (o.abort, Res.ok 0) else (o, .err)).2) :: h) := by
      intro b
      cases b with
      | true => exact i.abort rfl rfl
      | false => exact i.same rfl rfl
    by_cases hg : o.gs = 101 ∨ o.gs = 102
    · rw [if_pos hg]
      by_cases hn : o.next < o.cfg.height
      · rw [if_pos hn]; exact i.same rfl rfl
      · rw [if_neg hn]; exact he ok
    · rw [if_neg hg]
      by_cases hw : o.gs ≠ 103
      · rw [if_pos hw]; exact i.same rfl rfl
      · rw [if_neg hw]; exact he ok

theorem run_inv {o : Obj} {h : List Event} (i : Inv o h) (cs : List Call) : Inv (run o h cs).1 (run o h cs).2 := by
  induction cs generalizing o h with
  | nil => exact i
  | cons c cs ih => exact ih (step_inv i c)

theorem history_inv (cs : List Call) : Inv (history cs).1 (history cs).2 := run_inv Inv.init cs

end C
end Verif.Api
