import Mathlib.Tactic.Tauto
/-
Virtual arrays (jmemmgr.c:633-1088): a window of rows in memory over an array kept in a backing store.  The same code exists for
sample arrays and for coefficient arrays; `R` is the contents of one row.  A chunk of rows is transferred as a list of rows:
the rows of a chunk are contiguous (C33_rows) and for coefficient arrays a row of the file has the length of a row in memory.
-/
namespace Verif.Virt

/-- struct jvirt_barray_control (jmemmgr.c:172-192) with the contents of the buffer and of the backing store. -/
structure V (R : Type) where
  rowsInArray : Nat
  maxaccess : Nat
  rowsInMem : Nat
  rowsPerChunk : Nat
  curStart : Nat
  firstUndef : Nat
  preZero : Bool
  dirty : Bool
  bsOpen : Bool
  mem : Nat → R
  file : Nat → R

inductive Err where
  | badVirtualAccess
  | virtualBug
  | noBackingStore
deriving DecidableEq, Repr

/-- Copy `n` rows from `src` (starting at `i`) to `dst` (starting at `j`). -/
def copyRows {R : Type} (src dst : Nat → R) (i j n : Nat) : Nat → R := fun x => if j ≤ x ∧ x < j + n then src (i + (x - j)) else dst x

/-- The loop of do_barray_io and do_sarray_io (jmemmgr.c:838-880, 897-921); `off` = file_offset in rows; the first argument bounds
the iterations. -/
def ioLoop {R : Type} (writing : Bool) : Nat → (i off : Nat) → V R → V R
  | 0, _, _, v => v
  | k + 1, i, off, v =>
    if i < v.rowsInMem then
      let rows : Int := min v.rowsPerChunk (v.rowsInMem - i)
      let thisrow := v.curStart + i
      let rows := min rows ((v.firstUndef : Int) - thisrow)
      let rows := min rows ((v.rowsInArray : Int) - thisrow)
      if rows ≤ 0 then v
      else
        let n := rows.toNat
        let v := if writing then { v with file := copyRows v.mem v.file i off n } else { v with mem := copyRows v.file v.mem off i n }
        ioLoop writing k (i + v.rowsPerChunk) (off + n) v
    else v

/-- do_barray_io, do_sarray_io. -/
def doIo {R : Type} (writing : Bool) (v : V R) : V R := ioLoop writing v.rowsInMem 0 v.curStart v

/-- First part of access_virt_*: bring the rows asked for into the window (jmemmgr.c:948-981, 1035-1065). -/
def moveWindow {R : Type} (v : V R) (start endRow : Nat) : Except Err Unit × V R :=
  if start < v.curStart ∨ endRow > v.curStart + v.rowsInMem then
    if v.bsOpen = false then (.error .virtualBug, v)
    else
      let v := if v.dirty then { doIo true v with dirty := false } else v
      let v := if start > v.curStart then { v with curStart := start } else { v with curStart := endRow - v.rowsInMem }
      (.ok (), doIo false v)
  else (.ok (), v)

/-- Second part: make sure the rows are defined; zero them if asked for (jmemmgr.c:982-1009, 1066-1081). -/
def defineRows {R : Type} (zero : R) (v : V R) (start endRow : Nat) (writable : Bool) : Except Err Unit × V R :=
  if v.firstUndef < endRow then
    if v.firstUndef < start ∧ writable = true then (.error .badVirtualAccess, v)
    else
      let undef := if v.firstUndef < start then start else v.firstUndef
      let v := if writable then { v with firstUndef := endRow } else v
      if v.preZero then (.ok (), { v with mem := fun x => if undef - v.curStart ≤ x ∧ x < endRow - v.curStart then zero else v.mem x })
      else if writable = false then (.error .badVirtualAccess, v)
      else (.ok (), v)
  else (.ok (), v)

/-- access_virt_barray, access_virt_sarray (jmemmgr.c:925-1016, 1019-1088).  `zero` = a row of zeros.  Result: the index in the buffer of the first
row asked for. -/
def access {R : Type} (zero : R) (v : V R) (start num : Nat) (writable : Bool) : Except Err Nat × V R :=
  let endRow := (start + num) % 2 ^ 32
  if endRow > v.rowsInArray ∨ num > v.maxaccess then (.error .badVirtualAccess, v)
  else
    match moveWindow v start endRow with
    | (.error e, v) => (.error e, v)
    | (.ok _, v) =>
      match defineRows zero v start endRow writable with
      | (.error e, v) => (.error e, v)
      | (.ok _, v) =>
        let v := if writable then { v with dirty := true } else v
        (.ok (start - v.curStart), v)

/-- The part of realize_virt_arrays for one array (jmemmgr.c:761-786, 788-813); `maxMin` = max_minheights, `mem0`, `file0` the arbitrary initial contents, `rpc` the value
left by alloc_barray.  jpeg_open_backing_store fails in this configuration (jmemnobs.c:88-92) when `nobs` is true. -/
def realize {R : Type} (nobs : Bool) (rowsInArray maxaccess : Nat) (preZero : Bool) (maxMin rpc : Nat) (mem0 file0 : Nat → R) : Except Err (V R) :=
  let minheights := (rowsInArray - 1) / maxaccess + 1
  if minheights ≤ maxMin then
    .ok ⟨rowsInArray, maxaccess, rowsInArray, rpc, 0, 0, preZero, false, false, mem0, file0⟩
  else if nobs then .error .noBackingStore
  else .ok ⟨rowsInArray, maxaccess, maxMin * maxaccess, rpc, 0, 0, preZero, false, true, mem0, file0⟩

/-- One access by the application: `writable`, and then it stores `put x` in row `x` of the accessed part, where it wants to. -/
structure Acc (R : Type) where
  start : Nat
  num : Nat
  writable : Bool
  put : Nat → Option R

/-- The stores of the application in the `num` rows at index `i` of the buffer. -/
def poke {R : Type} (v : V R) (a : Acc R) (i : Nat) : V R :=
  if a.writable then { v with mem := fun x => if i ≤ x ∧ x < i + a.num then (a.put (a.start + (x - i))).getD (v.mem x) else v.mem x } else v

/-- What the application sees in the rows of the accessed part, then its stores.  A read-only access stores nothing. -/
def doAcc {R : Type} (zero : R) (v : V R) (a : Acc R) : Except Err (List R) × V R :=
  match access zero v a.start a.num a.writable with
  | (.error e, v) => (.error e, v)
  | (.ok i, v) => (.ok ((List.range a.num).map (fun j => v.mem (i + j))), poke v a i)

/-- A history of accesses; after an error the application goes on. -/
def history {R : Type} (zero : R) : List (Acc R) → V R → List (Except Err (List R))
  | [], _ => []
  | a :: as, v => (doAcc zero v a).1 :: history zero as (doAcc zero v a).2

/-! ### specification: a plain array -/

/-- A plain array of `rows` rows of which the first `used` have been opened for writing; `none` = contents unspecified. -/
structure Flat (R : Type) where
  used : Nat
  row : Nat → Option R

/-- Is the access allowed?  (Inside the array, not too many rows; writers may not skip rows; readers may not read rows never opened for
writing, unless the array was requested pre-zeroed.) -/
def Flat.Allowed {R : Type} (f : Flat R) (rowsInArray maxaccess : Nat) (preZero : Bool) (a : Acc R) : Prop :=
  a.start + a.num ≤ rowsInArray ∧ a.num ≤ maxaccess ∧
  (f.used < a.start + a.num → if a.writable then a.start ≤ f.used else preZero = true)

/-- What row `x` reads as: what was stored in it; zero if it was never opened for writing and the array is pre-zeroed. -/
def Flat.read {R : Type} (zero : R) (preZero : Bool) (f : Flat R) (x : Nat) : Option R :=
  if x < f.used then f.row x else if preZero then some zero else none

/-- The array after an access. -/
def Flat.store {R : Type} (zero : R) (preZero : Bool) (f : Flat R) (a : Acc R) : Flat R :=
  if a.writable then
    { used := max f.used (a.start + a.num),
      row := fun x => if a.start ≤ x ∧ x < a.start + a.num then (a.put x).or (f.read zero preZero x) else f.row x }
  else f

/-- The results agree with the plain array, access by access: allowed accesses see the array, the others are rejected. -/
inductive Agrees {R : Type} (zero : R) (rowsInArray maxaccess : Nat) (preZero : Bool) : Flat R → List (Acc R) → List (Except Err (List R)) → Prop where
  | nil (f) : Agrees zero rowsInArray maxaccess preZero f [] []
  | seen {f : Flat R} {a : Acc R} {as : List (Acc R)} {rows : List R} {rs} (hok : f.Allowed rowsInArray maxaccess preZero a) (hlen : rows.length = a.num)
      (hrows : ∀ j y, j < a.num → f.read zero preZero (a.start + j) = some y → rows[j]? = some y)
      (h : Agrees zero rowsInArray maxaccess preZero (f.store zero preZero a) as rs) : Agrees zero rowsInArray maxaccess preZero f (a :: as) (.ok rows :: rs)
  | rejected {f : Flat R} {a : Acc R} {as : List (Acc R)} {rs} (hno : ¬ f.Allowed rowsInArray maxaccess preZero a)
      (h : Agrees zero rowsInArray maxaccess preZero f as rs) : Agrees zero rowsInArray maxaccess preZero f (a :: as) (.error .badVirtualAccess :: rs)

/-! ### proof -/

theorem V.mem_same {R : Type} (v : V R) {g : Nat → R} (h : ∀ x, g x = v.mem x) : v = { v with mem := g } := by
  obtain rfl : g = v.mem := funext h
  rfl
theorem V.file_same {R : Type} (v : V R) {g : Nat → R} (h : ∀ x, g x = v.file x) : v = { v with file := g } := by
  obtain rfl : g = v.file := funext h
  rfl

theorem ioLoop_spec {R : Type} (w : Bool) : ∀ (k i off : Nat) (v : V R), v.rowsInMem ≤ i + k → 0 < v.rowsPerChunk →
    (off = v.curStart + i ∨ min (v.curStart + v.rowsInMem) (min v.firstUndef v.rowsInArray) ≤ v.curStart + i) →
    ioLoop w k i off v =
      if w then { v with file := fun x => if v.curStart + i ≤ x ∧ x < min (v.curStart + v.rowsInMem) (min v.firstUndef v.rowsInArray) then v.mem (x - v.curStart) else v.file x }
      else { v with mem := fun x => if i ≤ x ∧ v.curStart + x < min (v.curStart + v.rowsInMem) (min v.firstUndef v.rowsInArray) then v.file (v.curStart + x) else v.mem x } := by
  intro k
  induction k with
  | zero =>
    intro i off v h1 h2 h3
    unfold ioLoop
    cases w
    · simp only [Bool.false_eq_true, if_false]
      exact v.mem_same (fun x => if_neg (by omega))
    · simp only [if_true]
      exact v.file_same (fun x => if_neg (by omega))
  | succ k ih =>
    intro i off v h1 h2 h3
    unfold ioLoop
    by_cases hi : i < v.rowsInMem
    · rw [if_pos hi]
      simp only
      generalize hr : min (min (min (v.rowsPerChunk : Int) ((v.rowsInMem : Int) - i)) ((v.firstUndef : Int) - ((v.curStart + i : Nat) : Int))) ((v.rowsInArray : Int) - ((v.curStart + i : Nat) : Int)) = rows
      by_cases hneg : rows ≤ 0
      · rw [if_pos hneg]
        cases w
        · simp only [Bool.false_eq_true, if_false]
          exact v.mem_same (fun x => if_neg (by omega))
        · simp only [if_true]
          exact v.file_same (fun x => if_neg (by omega))
      · rw [if_neg hneg]
        obtain ⟨n, rfl⟩ : ∃ n : Nat, rows = n := ⟨rows.toNat, by omega⟩
        simp only [Int.toNat_natCast]
        have hoff : off = v.curStart + i := by omega
        subst hoff
        cases w
        · simp only [Bool.false_eq_true, if_false]
          rw [ih _ _ { v with mem := copyRows v.file v.mem (v.curStart + i) i n } (by show v.rowsInMem ≤ i + v.rowsPerChunk + k; omega) h2
            (by show v.curStart + i + n = v.curStart + (i + v.rowsPerChunk) ∨ min (v.curStart + v.rowsInMem) (min v.firstUndef v.rowsInArray) ≤ v.curStart + (i + v.rowsPerChunk); omega)]
          simp only [Bool.false_eq_true, if_false]
          congr 1
          funext x
          unfold copyRows
          by_cases c1 : i + v.rowsPerChunk ≤ x ∧ v.curStart + x < min (v.curStart + v.rowsInMem) (min v.firstUndef v.rowsInArray)
          · rw [if_pos c1, if_pos (by omega)]
          · rw [if_neg c1]
            by_cases c2 : i ≤ x ∧ x < i + n
            · rw [if_pos c2, if_pos (by omega)]
              congr 1; omega
            · rw [if_neg c2, if_neg (by omega)]
        · simp only [if_true]
          rw [ih _ _ { v with file := copyRows v.mem v.file i (v.curStart + i) n } (by show v.rowsInMem ≤ i + v.rowsPerChunk + k; omega) h2
            (by show v.curStart + i + n = v.curStart + (i + v.rowsPerChunk) ∨ min (v.curStart + v.rowsInMem) (min v.firstUndef v.rowsInArray) ≤ v.curStart + (i + v.rowsPerChunk); omega)]
          simp only [if_true]
          congr 1
          funext x
          unfold copyRows
          by_cases c1 : v.curStart + (i + v.rowsPerChunk) ≤ x ∧ x < min (v.curStart + v.rowsInMem) (min v.firstUndef v.rowsInArray)
          · rw [if_pos c1, if_pos (by omega)]
          · rw [if_neg c1]
            by_cases c2 : v.curStart + i ≤ x ∧ x < v.curStart + i + n
            · rw [if_pos c2, if_pos (by omega)]
              congr 1; omega
            · rw [if_neg c2, if_neg (by omega)]
    · rw [if_neg hi]
      cases w
      · simp only [Bool.false_eq_true, if_false]
        exact v.mem_same (fun x => if_neg (by omega))
      · simp only [if_true]
        exact v.file_same (fun x => if_neg (by omega))

/-- The parameters of an array and the window position are consistent. -/
structure Wf {R : Type} (v : V R) : Prop where
  chunk : 0 < v.rowsPerChunk
  used : v.firstUndef ≤ v.rowsInArray
  cover : v.maxaccess ≤ v.rowsInMem ∨ (v.rowsInMem = v.rowsInArray ∧ v.curStart = 0)
  closed : v.bsOpen = false → v.rowsInMem = v.rowsInArray ∧ v.curStart = 0

/-- The window and the backing store together hold the plain array. -/
structure Sim {R : Type} (v : V R) (f : Flat R) : Prop where
  wf : Wf v
  used : f.used = v.firstUndef
  win : ∀ x y, x < f.used → f.row x = some y → v.curStart ≤ x → x < v.curStart + v.rowsInMem → v.mem (x - v.curStart) = y
  out : ∀ x y, x < f.used → f.row x = some y → ¬ (v.curStart ≤ x ∧ x < v.curStart + v.rowsInMem) → v.file x = y
  clean : v.dirty = false → v.bsOpen = true → ∀ x y, x < f.used → f.row x = some y → v.file x = y

theorem moveWindow_sim {R : Type} {v : V R} {f : Flat R} (h : Sim v f) {start num : Nat} (h1 : start + num ≤ v.rowsInArray) (h2 : num ≤ v.maxaccess) :
    (moveWindow v start (start + num)).1 = .ok () ∧ Sim (moveWindow v start (start + num)).2 f ∧
    (moveWindow v start (start + num)).2.curStart ≤ start ∧ start + num ≤ (moveWindow v start (start + num)).2.curStart + (moveWindow v start (start + num)).2.rowsInMem ∧
    (moveWindow v start (start + num)).2.preZero = v.preZero ∧ (moveWindow v start (start + num)).2.rowsInArray = v.rowsInArray ∧ (moveWindow v start (start + num)).2.maxaccess = v.maxaccess := by
  unfold moveWindow
  by_cases hm : start < v.curStart ∨ start + num > v.curStart + v.rowsInMem
  · rw [if_pos hm]
    have hwf := h.wf
    have hu := hwf.used
    have hbs : v.bsOpen = true := by
      cases hb : v.bsOpen with
      | true => rfl
      | false =>
        have := hwf.closed hb
        omega
    rw [if_neg (by rw [hbs]; simp)]
    have hcov : v.maxaccess ≤ v.rowsInMem := by have := hwf.cover; omega
    -- after the flush the file holds everything
    generalize hv1 : (if v.dirty = true then { doIo true v with dirty := false } else v) = v1
    have hflush : (∀ x y, x < f.used → f.row x = some y → v1.file x = y) ∧ v1.curStart = v.curStart ∧ v1.rowsInMem = v.rowsInMem ∧ v1.rowsInArray = v.rowsInArray ∧
        v1.maxaccess = v.maxaccess ∧ v1.rowsPerChunk = v.rowsPerChunk ∧ v1.firstUndef = v.firstUndef ∧ v1.preZero = v.preZero ∧ v1.bsOpen = true ∧ v1.dirty = false := by
      rw [← hv1]
      by_cases hd : v.dirty = true
      · rw [if_pos hd]
        unfold doIo
        rw [ioLoop_spec true v.rowsInMem 0 v.curStart v (by omega) hwf.chunk (Or.inl rfl)]
        simp only [if_true]
        refine ⟨?_, by simp [hbs]⟩
        intro x y hx hy
        show (if _ then _ else _) = y
        have := h.used
        by_cases hin : v.curStart ≤ x ∧ x < v.curStart + v.rowsInMem
        · rw [if_pos (by omega)]
          exact h.win x y hx hy hin.1 hin.2
        · rw [if_neg (by omega)]
          exact h.out x y hx hy hin
      · rw [if_neg hd]
        exact ⟨h.clean (by simpa using hd) hbs, rfl, rfl, rfl, rfl, rfl, rfl, rfl, hbs, by simpa using hd⟩
    obtain ⟨e0, e1, e2, e3, e4, e5, e6, e7, e8, e9⟩ := hflush
    simp only
    generalize hv2 : (if start > v1.curStart then { v1 with curStart := start } else { v1 with curStart := start + num - v1.rowsInMem }) = v2
    have hcur : v2.curStart ≤ start ∧ start + num ≤ v2.curStart + v2.rowsInMem := by
      rw [← hv2]
      split
      · exact ⟨Nat.le_refl _, by show start + num ≤ start + v1.rowsInMem; omega⟩
      · exact ⟨by show start + num - v1.rowsInMem ≤ start; omega, by show start + num ≤ start + num - v1.rowsInMem + v1.rowsInMem; omega⟩
    have hrest : v2.file = v1.file ∧ v2.rowsInMem = v.rowsInMem ∧ v2.rowsInArray = v.rowsInArray ∧
        v2.maxaccess = v.maxaccess ∧ v2.rowsPerChunk = v.rowsPerChunk ∧ v2.firstUndef = v.firstUndef ∧ v2.preZero = v.preZero ∧ v2.bsOpen = true ∧ v2.dirty = false := by
      rw [← hv2]
      split <;> exact ⟨rfl, e2, e3, e4, e5, e6, e7, e8, e9⟩
    obtain ⟨r0, r2, r3, r4, r5, r6, r7, r8, r9⟩ := hrest
    unfold doIo
    rw [ioLoop_spec false v2.rowsInMem 0 v2.curStart v2 (by omega) (by rw [r5]; exact hwf.chunk) (Or.inl rfl)]
    simp only [Bool.false_eq_true, if_false]
    refine ⟨trivial, ⟨⟨by show 0 < v2.rowsPerChunk; rw [r5]; exact hwf.chunk, by show v2.firstUndef ≤ v2.rowsInArray; omega, by show v2.maxaccess ≤ v2.rowsInMem ∨ _; left; omega,
      fun hb => absurd hb (by show ¬ v2.bsOpen = false; rw [r8]; simp)⟩, by rw [h.used]; exact r6.symm, ?_, ?_, ?_⟩, hcur.1, hcur.2, r7, r3, r4⟩
    · intro x y hx hy hx1 hx2
      simp only at hx1 hx2 ⊢
      have := h.used
      rw [if_pos (by omega), show v2.curStart + (x - v2.curStart) = x by omega, r0]
      exact e0 x y hx hy
    · intro x y hx hy _
      show v2.file x = y
      rw [r0]; exact e0 x y hx hy
    · intro _ _ x y hx hy
      show v2.file x = y
      rw [r0]; exact e0 x y hx hy
  · rw [if_neg hm]
    exact ⟨rfl, h, by show v.curStart ≤ start; omega, by show start + num ≤ v.curStart + v.rowsInMem; omega, rfl, rfl, rfl⟩

theorem doAcc_sim {R : Type} (zero : R) {v : V R} {f : Flat R} (h : Sim v f) (a : Acc R) (ha : a.start + a.num < 2 ^ 32) :
    (f.Allowed v.rowsInArray v.maxaccess v.preZero a → ∃ rows, (doAcc zero v a).1 = .ok rows ∧ rows.length = a.num ∧
      (∀ j y, j < a.num → f.read zero v.preZero (a.start + j) = some y → rows[j]? = some y) ∧ Sim (doAcc zero v a).2 (f.store zero v.preZero a)) ∧
    (¬ f.Allowed v.rowsInArray v.maxaccess v.preZero a → (doAcc zero v a).1 = .error .badVirtualAccess ∧ Sim (doAcc zero v a).2 f) ∧
    (doAcc zero v a).2.rowsInArray = v.rowsInArray ∧ (doAcc zero v a).2.maxaccess = v.maxaccess ∧ (doAcc zero v a).2.preZero = v.preZero := by
  have hu := h.used
  unfold doAcc access
  rw [Nat.mod_eq_of_lt ha]
  simp only
  by_cases hb : a.start + a.num > v.rowsInArray ∨ a.num > v.maxaccess
  · rw [if_pos hb]
    exact ⟨fun hal => absurd hal (by unfold Flat.Allowed; omega), fun _ => ⟨rfl, h⟩, rfl, rfl, rfl⟩
  rw [if_neg hb]
  obtain ⟨m0, m1, m2, m3, m4, m5, m6⟩ := moveWindow_sim h (start := a.start) (num := a.num) (by omega) (by omega)
  generalize moveWindow v a.start (a.start + a.num) = mv at *
  obtain ⟨r, w⟩ := mv
  simp only at m0 m1 m2 m3 m4 m5 m6
  subst m0
  simp only
  have hu' := m1.used
  rw [← m4, ← m5, ← m6]
  unfold defineRows
  by_cases hdef : w.firstUndef < a.start + a.num
  · rw [if_pos hdef]
    by_cases hskip : w.firstUndef < a.start ∧ a.writable = true
    · rw [if_pos hskip]
      refine ⟨fun hal => ?_, fun _ => ⟨rfl, m1⟩, rfl, rfl, rfl⟩
      have := hal.2.2 (by omega)
      rw [if_pos hskip.2] at this
      omega
    rw [if_neg hskip]
    simp only
    generalize hund : (if w.firstUndef < a.start then a.start else w.firstUndef) = undef
    have hund1 : a.start ≤ undef ∧ w.firstUndef ≤ undef ∧ (undef = a.start ∨ undef = w.firstUndef) := by rw [← hund]; split <;> omega
    cases hw : a.writable with
    | true =>
      simp only [hw, if_true, Bool.true_eq_false, if_false, and_true] at hskip ⊢
      have hund2 : undef = w.firstUndef := by omega
      have hal : f.Allowed w.rowsInArray w.maxaccess w.preZero a := by
        refine ⟨by omega, by omega, fun _ => ?_⟩
        rw [hw, if_pos rfl]; omega
      cases hz : w.preZero with
      | true =>
        simp only [hz, if_true]
        rw [hz] at hal
        refine ⟨fun _ => ⟨_, rfl, by simp, ?_, ?_⟩, fun hno => absurd hal hno, by simp [poke, hw], by simp [poke, hw], by simp [poke, hw, hz]⟩
        · intro j y hj hy
          simp only [List.getElem?_map, List.getElem?_range hj, Option.map_some, Option.some.injEq]
          unfold Flat.read at hy
          by_cases hc : a.start + j < f.used
          · rw [if_pos hc] at hy
            rw [if_neg (by omega), show a.start - w.curStart + j = a.start + j - w.curStart by omega]
            exact m1.win _ y hc hy (by omega) (by omega)
          · rw [if_neg hc, if_pos rfl] at hy
            cases hy
            rw [if_pos (by omega)]
        · simp only [poke, hw, if_true, Flat.store]
          refine ⟨⟨m1.wf.chunk, ?_, m1.wf.cover, m1.wf.closed⟩, by simp only; omega, ?_, ?_, fun hd => by cases hd⟩
          · show a.start + a.num ≤ w.rowsInArray; omega
          · intro x y hx hy hx1 hx2
            simp only at hx hy hx1 hx2 ⊢
            by_cases hin : a.start ≤ x ∧ x < a.start + a.num
            · rw [if_pos hin] at hy
              rw [if_pos (by omega), show a.start + (x - w.curStart - (a.start - w.curStart)) = x by omega]
              cases hput : a.put x with
              | some z => rw [hput] at hy; simpa using hy
              | none =>
                rw [hput] at hy
                simp only [Option.none_or, Option.getD_none] at hy ⊢
                unfold Flat.read at hy
                by_cases hc : x < f.used
                · rw [if_pos hc] at hy
                  rw [if_neg (by omega)]
                  exact m1.win _ y hc hy (by omega) (by omega)
                · rw [if_neg hc, if_pos rfl] at hy
                  cases hy
                  rw [if_pos (by omega)]
            · rw [if_neg hin] at hy
              rw [if_neg (by omega), if_neg (by omega)]
              exact m1.win _ y (by omega) hy (by omega) (by omega)
          · intro x y hx hy hnot
            simp only at hx hy hnot ⊢
            rw [if_neg (by omega)] at hy
            exact m1.out _ y (by omega) hy hnot
      | false =>
        simp only [hz, Bool.false_eq_true, if_false]
        rw [hz] at hal
        refine ⟨fun _ => ⟨_, rfl, by simp, ?_, ?_⟩, fun hno => absurd hal hno, by simp [poke, hw], by simp [poke, hw], by simp [poke, hw, hz]⟩
        · intro j y hj hy
          simp only [List.getElem?_map, List.getElem?_range hj, Option.map_some, Option.some.injEq]
          unfold Flat.read at hy
          by_cases hc : a.start + j < f.used
          · rw [if_pos hc] at hy
            rw [show a.start - w.curStart + j = a.start + j - w.curStart by omega]
            exact m1.win _ y hc hy (by omega) (by omega)
          · rw [if_neg hc] at hy
            cases hy
        · simp only [poke, hw, if_true, Flat.store]
          refine ⟨⟨m1.wf.chunk, ?_, m1.wf.cover, m1.wf.closed⟩, by simp only; omega, ?_, ?_, fun hd => by cases hd⟩
          · show a.start + a.num ≤ w.rowsInArray; omega
          · intro x y hx hy hx1 hx2
            simp only at hx hy hx1 hx2 ⊢
            by_cases hin : a.start ≤ x ∧ x < a.start + a.num
            · rw [if_pos hin] at hy
              rw [if_pos (by omega), show a.start + (x - w.curStart - (a.start - w.curStart)) = x by omega]
              cases hput : a.put x with
              | some z => rw [hput] at hy; simpa using hy
              | none =>
                rw [hput] at hy
                simp only [Option.none_or, Option.getD_none] at hy ⊢
                unfold Flat.read at hy
                by_cases hc : x < f.used
                · rw [if_pos hc] at hy
                  exact m1.win _ y hc hy (by omega) (by omega)
                · rw [if_neg hc] at hy
                  cases hy
            · rw [if_neg hin] at hy
              rw [if_neg (by omega)]
              exact m1.win _ y (by omega) hy (by omega) (by omega)
          · intro x y hx hy hnot
            simp only at hx hy hnot ⊢
            rw [if_neg (by omega)] at hy
            exact m1.out _ y (by omega) hy hnot
    | false =>
      simp only [hw, Bool.false_eq_true, if_false]
      cases hz : w.preZero with
      | true =>
        simp only [hz, if_true]
        have hal : f.Allowed w.rowsInArray w.maxaccess true a := by
          refine ⟨by omega, by omega, fun _ => ?_⟩
          rw [hw, if_neg (by simp)]
        refine ⟨fun _ => ⟨_, rfl, by simp, ?_, ?_⟩, fun hno => absurd hal hno, by simp [poke, hw], by simp [poke, hw], by simp [poke, hw, hz]⟩
        · intro j y hj hy
          simp only [List.getElem?_map, List.getElem?_range hj, Option.map_some, Option.some.injEq]
          unfold Flat.read at hy
          by_cases hc : a.start + j < f.used
          · rw [if_pos hc] at hy
            rw [if_neg (by omega), show a.start - w.curStart + j = a.start + j - w.curStart by omega]
            exact m1.win _ y hc hy (by omega) (by omega)
          · rw [if_neg hc, if_pos rfl] at hy
            cases hy
            rw [if_pos (by omega)]
        · simp only [poke, hw, Bool.false_eq_true, if_false, Flat.store]
          refine ⟨⟨m1.wf.chunk, m1.wf.used, m1.wf.cover, m1.wf.closed⟩, m1.used, ?_, m1.out, m1.clean⟩
          intro x y hx hy hx1 hx2
          simp only at hx1 hx2 ⊢
          rw [if_neg (by omega)]
          exact m1.win _ y (by omega) hy (by omega) (by omega)
      | false =>
        simp only [hz, Bool.false_eq_true, if_false, if_true]
        refine ⟨fun hal => ?_, fun _ => ⟨trivial, m1⟩, trivial, trivial, trivial⟩
        have := hal.2.2 (by omega)
        rw [hw, if_neg (by simp)] at this
        cases this
  · rw [if_neg hdef]
    simp only
    have hal : f.Allowed w.rowsInArray w.maxaccess w.preZero a := ⟨by omega, by omega, fun hc => absurd hc (by omega)⟩
    have hseen : ∀ j y, j < a.num → f.read zero w.preZero (a.start + j) = some y → w.mem (a.start - w.curStart + j) = y := by
      intro j y hj hy
      unfold Flat.read at hy
      rw [if_pos (by omega)] at hy
      rw [show a.start - w.curStart + j = a.start + j - w.curStart by omega]
      exact m1.win _ y (by omega) hy (by omega) (by omega)
    cases hw : a.writable with
    | true =>
      simp only [if_true]
      refine ⟨fun _ => ⟨_, rfl, by simp, ?_, ?_⟩, fun hno => absurd hal hno, by simp [poke, hw], by simp [poke, hw], by simp [poke, hw]⟩
      · intro j y hj hy
        simp only [List.getElem?_map, List.getElem?_range hj, Option.map_some, Option.some.injEq]
        exact hseen j y hj hy
      · simp only [poke, hw, if_true, Flat.store]
        refine ⟨⟨m1.wf.chunk, m1.wf.used, m1.wf.cover, m1.wf.closed⟩, by simp only; omega, ?_, ?_, fun hd => by cases hd⟩
        · intro x y hx hy hx1 hx2
          simp only at hx hy hx1 hx2 ⊢
          by_cases hin : a.start ≤ x ∧ x < a.start + a.num
          · rw [if_pos hin] at hy
            rw [if_pos (by omega), show a.start + (x - w.curStart - (a.start - w.curStart)) = x by omega]
            cases hput : a.put x with
            | some z => rw [hput] at hy; simpa using hy
            | none =>
              rw [hput] at hy
              simp only [Option.none_or, Option.getD_none] at hy ⊢
              unfold Flat.read at hy
              rw [if_pos (by omega)] at hy
              exact m1.win _ y (by omega) hy (by omega) (by omega)
          · rw [if_neg hin] at hy
            rw [if_neg (by omega)]
            exact m1.win _ y (by omega) hy (by omega) (by omega)
        · intro x y hx hy hnot
          simp only at hx hy hnot ⊢
          rw [if_neg (by omega)] at hy
          exact m1.out _ y (by omega) hy hnot
    | false =>
      simp only [Bool.false_eq_true, if_false]
      refine ⟨fun _ => ⟨_, rfl, by simp, ?_, ?_⟩, fun hno => absurd hal hno, by simp [poke, hw], by simp [poke, hw], by simp [poke, hw]⟩
      · intro j y hj hy
        simp only [List.getElem?_map, List.getElem?_range hj, Option.map_some, Option.some.injEq]
        exact hseen j y hj hy
      · simp only [poke, hw, Bool.false_eq_true, if_false, Flat.store]
        exact m1

theorem history_agrees {R : Type} (zero : R) : ∀ (as : List (Acc R)) (v : V R) (f : Flat R), Sim v f → (∀ a ∈ as, a.start + a.num < 2 ^ 32) →
    Agrees zero v.rowsInArray v.maxaccess v.preZero f as (history zero as v) := by
  intro as
  induction as with
  | nil => intro v f _ _; exact .nil f
  | cons a as ih =>
    intro v f h ha
    obtain ⟨h1, h2, h3, h4, h5⟩ := doAcc_sim zero h a (ha a (List.mem_cons_self ..))
    have ha' : ∀ a ∈ as, a.start + a.num < 2 ^ 32 := fun a h => ha a (List.mem_cons.2 (Or.inr h))
    unfold history
    by_cases hal : f.Allowed v.rowsInArray v.maxaccess v.preZero a
    · obtain ⟨rows, e1, e2, e3, e4⟩ := h1 hal
      rw [e1]
      have := ih _ _ e4 ha'
      rw [h3, h4, h5] at this
      exact .seen hal e2 e3 this
    · obtain ⟨e1, e2⟩ := h2 hal
      rw [e1]
      have := ih _ _ e2 ha'
      rw [h3, h4, h5] at this
      exact .rejected hal this

/-- **C42 (a)** A virtual array behaves like a plain array held in memory, whatever the size of the memory window and of the allocation chunks: for every
history of accesses (reading and writing, in any order, overlapping or not, also continuing after rejected accesses) an access is rejected exactly when the plain array does not allow
it, and otherwise shows in every row what was last stored there, or zeros in rows never opened for writing of a pre-zeroed array. -/
theorem C42_virtual_array {R : Type} (zero : R) (rowsInArray maxaccess : Nat) (preZero : Bool) (maxMin rpc : Nat) (mem0 file0 : Nat → R) (nobs : Bool) (v : V R)
    (hrpc : 0 < rpc) (hmin : 0 < maxMin) (hv : realize nobs rowsInArray maxaccess preZero maxMin rpc mem0 file0 = .ok v)
    (as : List (Acc R)) (ha : ∀ a ∈ as, a.start + a.num < 2 ^ 32) :
    Agrees zero rowsInArray maxaccess preZero ⟨0, fun _ => none⟩ as (history zero as v) := by
  unfold realize at hv
  simp only at hv
  split at hv
  · cases hv
    exact history_agrees zero as ⟨rowsInArray, maxaccess, rowsInArray, rpc, 0, 0, preZero, false, false, mem0, file0⟩ ⟨0, fun _ => none⟩ ⟨⟨hrpc, Nat.zero_le _, Or.inr ⟨rfl, rfl⟩, fun _ => ⟨rfl, rfl⟩⟩, rfl, fun x y hx => absurd hx (by simp), fun x y hx => absurd hx (by simp),
      fun _ _ x y hx => absurd hx (by simp)⟩ ha
  · split at hv
    · cases hv
    · cases hv
      exact history_agrees zero as ⟨rowsInArray, maxaccess, maxMin * maxaccess, rpc, 0, 0, preZero, false, true, mem0, file0⟩ ⟨0, fun _ => none⟩ ⟨⟨hrpc, Nat.zero_le _, Or.inl (Nat.le_mul_of_pos_left _ hmin), fun hb => by cases hb⟩, rfl, fun x y hx => absurd hx (by simp), fun x y hx => absurd hx (by simp),
        fun _ _ x y hx => absurd hx (by simp)⟩ ha

/-- max_minheights of realize_virt_arrays (jmemmgr.c:741-759) with jpeg_mem_available of jmemnobs.c:66-79. -/
def maxMinheights (limit allocated spacePerMin maxSpace : Nat) : Nat :=
  let avail := if limit ≠ 0 then (if limit > allocated then limit - allocated else 0) else maxSpace
  if avail ≥ maxSpace then 1000000000 else (if avail / spacePerMin = 0 then 1 else avail / spacePerMin)

/-- **C42 (b)** Without a memory limit (the default) no backing store is ever needed for arrays up to the largest height; with any limit, an array
either is realized or the request fails, and the window always holds at least one access. -/
theorem C42_no_backing_store {R : Type} (rowsInArray maxaccess : Nat) (preZero : Bool) (rpc : Nat) (mem0 file0 : Nat → R) (allocated spm maxSpace : Nat)
    (h : rowsInArray ≤ 1000000000) : ∃ v, realize true rowsInArray maxaccess preZero (maxMinheights 0 allocated spm maxSpace) rpc mem0 file0 = .ok v := by
  unfold realize maxMinheights
  have : (rowsInArray - 1) / maxaccess + 1 ≤ 1000000000 := by
    have := Nat.div_le_self (rowsInArray - 1) maxaccess
    omega
  simp [this]

theorem C42_window_positive (limit allocated spm maxSpace : Nat) : 0 < maxMinheights limit allocated spm maxSpace := by
  unfold maxMinheights
  simp only
  generalize (if limit ≠ 0 then (if limit > allocated then limit - allocated else 0) else maxSpace) = av
  by_cases h1 : av ≥ maxSpace
  · rw [if_pos h1]; omega
  · rw [if_neg h1]; generalize av / spm = q; split <;> omega

/-! ### example: five rows, a window of two, forward and backward, with a rejected access in between -/
def exAcc : List (Acc Nat) :=
  [⟨0, 2, true, fun x => some (10 + x)⟩, ⟨2, 2, true, fun x => if x = 2 then some 12 else none⟩, ⟨4, 1, true, fun x => some (10 + x)⟩, ⟨4, 2, false, fun _ => none⟩,
   ⟨0, 2, false, fun _ => none⟩, ⟨1, 2, true, fun x => if x = 1 then some 77 else none⟩, ⟨3, 2, false, fun _ => none⟩, ⟨1, 1, false, fun _ => none⟩]

def exRes (nobs : Bool) (maxMin : Nat) : List (Option (List Nat)) := match realize nobs 5 2 true maxMin 1 (fun _ => 99) (fun _ => 98) with
  | .ok v => (history 0 exAcc v).map (fun r => match r with | .ok l => some l | .error _ => none)
  | .error _ => []

example : exRes false 1 = [some [0, 0], some [0, 0], some [0], none, some [10, 11], some [11, 12], some [0, 14], some [77]] ∧ exRes true 3 = exRes false 1 := by decide +kernel

end Verif.Virt
