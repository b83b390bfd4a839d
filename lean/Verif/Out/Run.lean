import Verif.Out.Block
/-
C13: routines above the buffer, for a manager that always makes room and for one that always suspends.
-/
namespace Verif.Out
open Verif.Huff

/-- The manager never suspends and supplies non-empty buffers. -/
def AllTake (S : Nat → Ev) : Prop := ∀ k, ∃ b, S k = .take b ∧ b ≠ []
/-- The manager always suspends; the application supplies non-empty buffers. -/
def AllFull (S : Nat → Ev) : Prop := ∀ k, ∃ b, S k = .full b ∧ b ≠ []

def Live (x : Work) : Prop := x.next < x.mem.length

/-- Sent, and written in the buffer by the routine at work. -/
def wstream (x : Work) : List Nat := x.sent ++ x.mem.take x.next

/-- `bs` written into the current buffer. -/
structure Ext (x x' : Work) (bs : List Nat) : Prop where
  sent : x'.sent = x.sent
  k : x'.k = x.k
  dnext : x'.dnext = x.dnext
  len : x'.mem.length = x.mem.length
  next : x'.next = x.next + bs.length
  data : x'.mem.take x'.next = x.mem.take x.next ++ bs

/-- Only bytes from `next` on have been written. -/
structure Back (x x' : Work) : Prop where
  sent : x'.sent = x.sent
  dnext : x'.dnext = x.dnext
  len : x'.mem.length = x.mem.length
  data : x'.mem.take x.next = x.mem.take x.next

theorem Ext.refl (x : Work) : Ext x x [] := ⟨rfl, rfl, rfl, rfl, by simp, by simp⟩

theorem Ext.trans {a b c : Work} {u v : List Nat} (h : Ext a b u) (g : Ext b c v) : Ext a c (u ++ v) :=
  ⟨g.sent.trans h.sent, g.k.trans h.k, g.dnext.trans h.dnext, g.len.trans h.len, by rw [g.next, h.next, List.length_append]; omega,
    by rw [g.data, h.data, List.append_assoc]⟩

theorem Ext.keep {a b : Work} {u : List Nat} (h : Ext a b u) (ha : a.next ≤ a.mem.length) : b.mem.take a.next = a.mem.take a.next := by
  have h1 := congrArg (List.take a.next) h.data
  rw [List.take_take, h.next] at h1
  rw [show min a.next (a.next + u.length) = a.next by omega] at h1
  rw [h1, List.take_append_of_le_length (by rw [List.length_take]; omega), List.take_take, Nat.min_self]

theorem Ext.back {a b c : Work} {u : List Nat} (h : Ext a b u) (g : Back b c) (ha : a.next ≤ a.mem.length) : Back a c := by
  refine ⟨g.sent.trans h.sent, g.dnext.trans h.dnext, g.len.trans h.len, ?_⟩
  have h1 := congrArg (List.take a.next) g.data
  rw [List.take_take, List.take_take, h.next, show min a.next (a.next + u.length) = a.next by omega] at h1
  rw [h1, h.keep ha]

/-- A routine that writes `bs`, seen with a manager that makes room. -/
def Tk {α : Type} (pr : α → Work) (Q : α → Prop) (x : Work) (bs : List Nat) (r : Ans α) : Prop :=
  ∃ a, r = .ok a ∧ Q a ∧ wstream (pr a) = wstream x ++ bs ∧ Live (pr a)

/-- It suspends, with nothing lost. -/
def Susp {α : Type} (S : Nat → Ev) (x : Work) (r : Ans α) : Prop := ∃ x' b, r = .susp x' b ∧ Back x x' ∧ S x.k = .full b ∧ x'.k = x.k + 1

/-- The same with a manager that suspends. -/
def Fl {α : Type} (S : Nat → Ev) (pr : α → Work) (Q : α → Prop) (x : Work) (bs : List Nat) (r : Ans α) : Prop :=
  (x.next + bs.length < x.mem.length ∧ ∃ a, r = .ok a ∧ Q a ∧ Ext x (pr a) bs) ∨ (x.mem.length ≤ x.next + bs.length ∧ Susp S x r)

structure Run {α : Type} (S : Nat → Ev) (pr : α → Work) (Q : α → Prop) (x : Work) (bs : List Nat) (r : Ans α) : Prop where
  take : AllTake S → Tk pr Q x bs r
  full : AllFull S → Fl S pr Q x bs r

/-- A routine that meets an error. -/
structure RunBad {α : Type} (S : Nat → Ev) (x : Work) (r : Ans α) : Prop where
  take : AllTake S → r = .bad
  full : AllFull S → r = .bad ∨ Susp S x r

theorem Run.pure {α : Type} {S : Nat → Ev} {pr : α → Work} {Q : α → Prop} {x : Work} (hx : Live x) {a : α} (h : pr a = x) (hq : Q a) :
    Run S pr Q x [] (.ok a) := by
  subst h
  exact ⟨fun _ => ⟨a, rfl, hq, by simp, hx⟩, fun _ => Or.inl ⟨by simp only [List.length_nil, Nat.add_zero]; exact hx, a, rfl, hq, Ext.refl _⟩⟩

theorem Run.bind {α β : Type} {S : Nat → Ev} {pr : α → Work} {Q : α → Prop} {pr' : β → Work} {Q' : β → Prop} {x : Work} (hx : Live x)
    {u v : List Nat} {r : Ans α} {f : α → Ans β} (h : Run S pr Q x u r) (g : ∀ a, Q a → Live (pr a) → Run S pr' Q' (pr a) v (f a)) :
    Run S pr' Q' x (u ++ v) (r.bind f) := by
  refine ⟨fun hs => ?_, fun hs => ?_⟩
  · obtain ⟨a, rfl, q, e, l⟩ := h.take hs
    obtain ⟨b, h1, q1, e1, l1⟩ := (g a q l).take hs
    exact ⟨b, h1, q1, by rw [e1, e, List.append_assoc], l1⟩
  · have hx' : x.next ≤ x.mem.length := Nat.le_of_lt hx
    rcases h.full hs with ⟨h1, a, rfl, q, e⟩ | ⟨h1, x', b, rfl, e⟩
    · have l : Live (pr a) := by unfold Live; rw [e.next, e.len]; exact h1
      rcases (g a q l).full hs with ⟨h2, b, h3, q1, e1⟩ | ⟨h2, x', b, h3, e1, e2, e3⟩
      · left
        rw [e.next, e.len] at h2
        exact ⟨by rw [List.length_append]; omega, b, h3, q1, e.trans e1⟩
      · right
        rw [e.next, e.len] at h2
        rw [e.k] at e2 e3
        exact ⟨by rw [List.length_append]; omega, x', b, h3, e.back e1 hx', e2, e3⟩
    · right
      exact ⟨by rw [List.length_append]; omega, x', b, rfl, e⟩

theorem Run.bindBad {α β : Type} {S : Nat → Ev} {pr : α → Work} {Q : α → Prop} {x : Work} (hx : Live x)
    {u : List Nat} {r : Ans α} {f : α → Ans β} (h : Run S pr Q x u r) (g : ∀ a, Q a → Live (pr a) → RunBad S (pr a) (f a)) :
    RunBad S x (r.bind f) := by
  refine ⟨fun hs => ?_, fun hs => ?_⟩
  · obtain ⟨a, rfl, q, e, l⟩ := h.take hs
    exact (g a q l).take hs
  · have hx' : x.next ≤ x.mem.length := Nat.le_of_lt hx
    rcases h.full hs with ⟨h1, a, rfl, q, e⟩ | ⟨h1, x', b, rfl, e⟩
    · have l : Live (pr a) := by unfold Live; rw [e.next, e.len]; exact h1
      rcases (g a q l).full hs with h3 | ⟨x', b, h3, e1, e2, e3⟩
      · exact Or.inl h3
      · rw [e.k] at e2 e3
        exact Or.inr ⟨x', b, h3, e.back e1 hx', e2, e3⟩
    · exact Or.inr ⟨x', b, rfl, e⟩

theorem RunBad.bind {α β : Type} {S : Nat → Ev} {x : Work} {r : Ans α} {f : α → Ans β} (h : RunBad S x r) : RunBad S x (r.bind f) := by
  refine ⟨fun hs => by rw [h.take hs]; rfl, fun hs => ?_⟩
  rcases h.full hs with h | ⟨x', b, h, e⟩
  · exact Or.inl (by rw [h]; rfl)
  · exact Or.inr ⟨x', b, by rw [h]; rfl, e⟩

/-- Bytes in memory, then perhaps a dump: the end of emit_byte and of a round of STORE_BUFFER. -/
theorem step_run {S : Nat → Ev} {x y : Work} {bs : List Nat} (e : Ext x y bs) (hb : bs ≠ []) (hl : x.next + bs.length ≤ x.mem.length) :
    Run S id (fun _ => True) x bs (if y.next = y.mem.length then dump S y else .ok y) := by
  have hbl : 0 < bs.length := List.length_pos_iff.mpr hb
  have hw : wstream y = wstream x ++ bs := by unfold wstream; rw [e.sent, e.data, List.append_assoc]
  by_cases h : y.next = y.mem.length
  · rw [if_pos h]
    unfold dump
    refine ⟨fun hs => ?_, fun hs => ?_⟩
    · obtain ⟨b, h1, h2⟩ := hs y.k
      rw [h1]
      refine ⟨_, rfl, trivial, ?_, List.length_pos_iff.mpr h2⟩
      rw [← hw]
      unfold wstream
      dsimp only [id]
      rw [h, List.take_length]; simp
    · obtain ⟨b, h1, h2⟩ := hs y.k
      rw [h1]
      rw [e.next, e.len] at h
      right
      refine ⟨by omega, _, b, rfl, ⟨e.sent, e.dnext, e.len, e.keep (by omega)⟩, by rw [← e.k]; exact h1, by dsimp only; rw [e.k]⟩
  · rw [if_neg h]
    rw [e.next, e.len] at h
    have hlive : Live y := by unfold Live; rw [e.next, e.len]; omega
    exact ⟨fun _ => ⟨y, rfl, trivial, hw, hlive⟩, fun _ => Or.inl ⟨by omega, y, rfl, trivial, e⟩⟩

theorem emit_run {S : Nat → Ev} {x : Work} (hx : Live x) (v : Nat) : Run S id (fun _ => True) x [v] (emit S x v) := by
  have hx' : x.next < x.mem.length := hx
  unfold emit
  rw [if_pos hx']
  dsimp only
  exact step_run (y := { x with mem := x.mem.set x.next v, next := x.next + 1 })
    ⟨rfl, rfl, rfl, by simp, rfl, take_set_self _ _ _ hx'⟩ (by simp) (by simp; omega)

theorem copyOut_run {S : Nat → Ev} (fuel : Nat) : ∀ {x : Work} (src : List Nat), Live x → src.length < fuel →
    Run S id (fun _ => True) x src (copyOut S fuel x src) := by
  induction fuel with
  | zero => intro x src _ h; omega
  | succ fuel ih =>
    intro x src hx hf
    have hx' : x.next < x.mem.length := hx
    simp only [copyOut]
    by_cases hs : src = []
    · rw [if_pos hs, hs]; exact Run.pure hx rfl trivial
    · rw [if_neg hs]
      have hsl : 0 < src.length := List.length_pos_iff.mpr hs
      have hn : 0 < min src.length (x.mem.length - x.next) := by omega
      have hn2 : min src.length (x.mem.length - x.next) ≤ src.length := by omega
      have hn3 : min src.length (x.mem.length - x.next) ≤ x.mem.length - x.next := by omega
      generalize min src.length (x.mem.length - x.next) = n at hn hn2 hn3
      have e : Ext x { x with mem := x.mem.take x.next ++ src.take n ++ x.mem.drop (x.next + n), next := x.next + n } (src.take n) := by
        refine ⟨rfl, rfl, rfl, ?_, ?_, ?_⟩
        · simp; omega
        · simp; omega
        · dsimp only
          rw [List.take_append_of_le_length (by simp; omega), List.take_of_length_le (by simp; omega)]
      have h1 := step_run (S := S) e (by intro h; have := congrArg List.length h; rw [List.length_take, List.length_nil] at this; omega)
        (by rw [List.length_take]; omega)
      have := Run.bind hx h1 (f := fun x => copyOut S fuel x (src.drop n)) (pr' := id) (Q' := fun _ => True)
        (fun a _ hl => ih (src.drop n) hl (by simp; omega))
      rw [List.take_append_drop] at this
      exact this

/-- What `withBuffer` needs of the routine between LOAD_BUFFER and STORE_BUFFER: it leaves `bs` at the pointer, whatever it points into. -/
def Writes (f : MW → Ans MW) (pb free : Nat) (bs : List Nat) (pb' free' : Nat) : Prop :=
  ∀ m0 p0, p0 + bufSize ≤ m0.length → ∃ w, f ⟨pb, free, m0, p0⟩ = .ok w ∧ w.pb = pb' ∧ w.free = free' ∧ w.m.length = m0.length ∧
    w.pos = p0 + bs.length ∧ w.m.take w.pos = m0.take p0 ++ bs

theorem withBuffer_run {S : Nat → Ev} {junk : List Nat} (hj : junk.length = bufSize) {x : Work} (hx : Live x) {f : MW → Ans MW}
    {pb free pb' free' : Nat} {bs : List Nat} (hf : Writes f pb free bs pb' free') (hl : bs.length < bufSize) :
    Run S (fun r : Nat × Nat × Work => r.2.2) (fun r => r.1 = pb' ∧ r.2.1 = free') x bs (withBuffer S junk pb free x f) := by
  have hx' : x.next < x.mem.length := hx
  unfold withBuffer
  by_cases h : x.mem.length - x.next < bufSize
  · rw [if_pos h]
    obtain ⟨w, e, h1, h2, h3, h4, h5⟩ := hf junk 0 (by omega)
    rw [e]
    simp only [List.take_zero, List.nil_append, Nat.zero_add] at h4 h5
    show Run S _ _ x bs ((copyOut S (w.pos + 1) x (w.m.take w.pos)).bind fun x => .ok (w.pb, w.free, x))
    rw [h5, h4]
    have := Run.bind hx (copyOut_run (S := S) (bs.length + 1) bs hx (by omega)) (v := [])
      (f := fun x => .ok (w.pb, w.free, x)) (pr' := fun r : Nat × Nat × Work => r.2.2) (Q' := fun r => r.1 = pb' ∧ r.2.1 = free')
      (fun a _ hl => Run.pure hl rfl ⟨h1, h2⟩)
    rw [List.append_nil] at this
    exact this
  · rw [if_neg h]
    obtain ⟨w, e, h1, h2, h3, h4, h5⟩ := hf x.mem x.next (by omega)
    rw [e]
    have e : Ext x { x with mem := w.m, next := w.pos } bs := ⟨rfl, rfl, rfl, h3, h4, h5⟩
    refine ⟨fun _ => ⟨_, rfl, ⟨h1, h2⟩, ?_, ?_⟩, fun _ => Or.inl ⟨by omega, _, rfl, ⟨h1, h2⟩, e⟩⟩
    · unfold wstream; dsimp only; rw [h5, List.append_assoc]
    · show w.pos < w.m.length; omega

/-- Codes as jpeg_make_c_derived_tbl makes them: no length above 16. -/
def Short (t : CTbl) : Prop := ∀ i, (t i).2 ≤ 16

theorem block_writes {dc ac : CTbl} (hd : Short dc) (ha : Short ac) {prec : Nat} (hp : prec ≤ 12) (last : Int) (blk : List Int) {w w' : Wr}
    (hw : w.free ≤ 64) (h : encBlock prec dc ac last blk w = some w') :
    w'.free ≤ 64 ∧ ∃ bs, w'.out = w.out ++ bs ∧ bs.length ≤ 496 ∧ Writes (encBlockM prec dc ac last blk) w.pb w.free bs w'.pb w'.free := by
  have base := encBlockM_spec (pre := w.out) (m0 := List.replicate 512 0) (p0 := 0) (by rw [List.length_replicate]; decide) hd ha hp last blk w hw rfl
  rw [h] at base
  obtain ⟨_, -, -, -, hf, -, out, ho, -, -, hb⟩ := base
  unfold maxBits at hb
  refine ⟨hf, out, ho, by omega, ?_⟩
  intro m0 p0 hc
  have := encBlockM_spec (pre := w.out) hc hd ha hp last blk w hw rfl
  rw [h] at this
  obtain ⟨x', e, s1, s2, -, s4, out', o1, o2, o3, -⟩ := this
  have : out' = out := List.append_cancel_left (o1.symm.trans ho)
  subst this
  exact ⟨x', e, s1, s2, s4, o2, o3⟩

theorem block_bad {dc ac : CTbl} (hd : Short dc) (ha : Short ac) {prec : Nat} (hp : prec ≤ 12) (last : Int) (blk : List Int) {w : Wr}
    (hw : w.free ≤ 64) (h : encBlock prec dc ac last blk w = none) {S : Nat → Ev} {junk : List Nat} (hj : junk.length = bufSize) (x : Work) :
    withBuffer S junk w.pb w.free x (encBlockM prec dc ac last blk) = .bad := by
  have base := fun m0 p0 hc => encBlockM_spec (pre := w.out) (m0 := m0) (p0 := p0) hc hd ha hp last blk w hw rfl
  rw [h] at base
  unfold withBuffer
  by_cases hb : x.mem.length - x.next < bufSize
  · rw [if_pos hb, base junk 0 (by omega)]; rfl
  · rw [if_neg hb, base x.mem x.next (by unfold bufSize at *; omega)]; rfl

theorem flush_run {S : Nat → Ev} {junk : List Nat} (hj : junk.length = bufSize) {x : Work} (hx : Live x) (pb free : Nat) :
    Run S id (fun _ => True) x (flushLoop pb (64 - free)) (flushBitsM S junk pb free x) ∧ (flushLoop pb (64 - free)).length ≤ 16 := by
  have hl : (flushLoop pb (64 - free)).length ≤ 16 := by
    obtain ⟨_, -, -, h⟩ := flushLoopM_spec (64 - free) ⟨pb, free, List.replicate 512 0, 0⟩ (by rw [List.length_replicate]; dsimp only; omega)
    dsimp only at h
    omega
  refine ⟨?_, hl⟩
  have hw : Writes (fun w => match flushLoopM w (64 - w.free) with | none => .fault | some w => .ok w) pb free (flushLoop pb (64 - free)) pb free := by
    intro m0 p0 hc
    obtain ⟨x', e, s, -⟩ := flushLoopM_spec (64 - free) ⟨pb, free, m0, p0⟩ (by unfold bufSize at hc; dsimp only; omega)
    refine ⟨x', by dsimp only; rw [e], s.pb, s.free, s.len, s.pos, s.data⟩
  unfold flushBitsM
  have := Run.bind hx (withBuffer_run (S := S) hj hx hw (by unfold bufSize; omega)) (v := [])
    (f := fun r => .ok r.2.2) (pr' := id) (Q' := fun _ => True) (fun a _ hl => Run.pure hl rfl trivial)
  rw [List.append_nil] at this
  exact this

theorem restart_run {S : Nat → Ev} {junk : List Nat} (hj : junk.length = bufSize) {x : Work} (hx : Live x) (pb free rst : Nat) :
    Run S id (fun _ => True) x (flushLoop pb (64 - free) ++ [0xFF, 0xD0 + rst]) (emitRestartM S junk pb free rst x) := by
  unfold emitRestartM
  exact Run.bind hx (flush_run hj hx pb free).1 (v := [0xFF, 0xD0 + rst]) fun a _ hl =>
    Run.bind (u := [0xFF]) (v := [0xD0 + rst]) hl (emit_run hl 0xFF) fun b _ hl' => emit_run hl' _

/-- The tables of the scan. -/
def Tables (bs : List EBlk) : Prop := ∀ b ∈ bs, Short b.dc ∧ Short b.ac

theorem blocks_run {S : Nat → Ev} {junk : List Nat} (hj : junk.length = bufSize) {prec : Nat} (hp : prec ≤ 12) : ∀ (bs : List EBlk) (hb : Tables bs)
    (blks : List (List Int)) (last : Nat → Int) (w : Wr) (hw : w.free ≤ 64) (x : Work) (hx : Live x),
    match encBlocks prec bs blks last w with
    | none => RunBad S x (encBlocksM S junk prec bs blks last w.pb w.free x)
    | some (last', w') => w'.free ≤ 64 ∧ ∃ u, w'.out = w.out ++ u ∧ u.length ≤ 496 * bs.length ∧
        Run S (fun r => r.2.2.2) (fun r => r.1 = last' ∧ r.2.1 = w'.pb ∧ r.2.2.1 = w'.free) x u
          (encBlocksM S junk prec bs blks last w.pb w.free x) := by
  intro bs
  induction bs with
  | nil =>
    intro hb blks last w hw x hx
    simp only [encBlocks, encBlocksM]
    exact ⟨hw, [], by simp, by simp, Run.pure hx rfl ⟨rfl, rfl, rfl⟩⟩
  | cons b bs ih =>
    intro hb blks last w hw x hx
    cases blks with
    | nil =>
      simp only [encBlocks, encBlocksM]
      exact ⟨hw, [], by simp, by simp, Run.pure hx rfl ⟨rfl, rfl, rfl⟩⟩
    | cons blk blks =>
      obtain ⟨hd, ha⟩ := hb b (by simp)
      simp only [encBlocks, encBlocksM]
      cases he : encBlock prec b.dc b.ac (last b.ci) blk w with
      | none =>
        dsimp only
        rw [block_bad hd ha hp _ _ hw he hj]
        exact ⟨fun _ => rfl, fun _ => Or.inl rfl⟩
      | some w1 =>
        dsimp only
        obtain ⟨hf, u, ho, hu, hwr⟩ := block_writes hd ha hp _ _ hw he
        have h1 := withBuffer_run (S := S) hj hx hwr (by unfold bufSize; omega)
        have h2 := fun (x : Work) hx => ih (fun b hb' => hb b (by simp [hb'])) blks (upd last b.ci (blk.getD 0 0)) w1 hf x hx
        generalize hE : encBlocks prec bs blks (upd last b.ci (blk.getD 0 0)) w1 = E at h2
        cases E with
        | none =>
          exact Run.bindBad hx h1 (fun a q hl => by rw [q.1, q.2]; exact h2 _ hl)
        | some p =>
          obtain ⟨last', w'⟩ := p
          obtain ⟨hf', v, ho', hv, -⟩ := h2 x hx
          refine ⟨hf', u ++ v, by rw [ho', ho, List.append_assoc], by simp only [List.length_append, List.length_cons]; omega, ?_⟩
          refine Run.bind hx h1 fun a q hl => ?_
          rw [q.1, q.2]
          obtain ⟨-, v', ho2, -, hr⟩ := h2 _ hl
          have : v' = v := List.append_cancel_left (ho2.symm.trans ho')
          subst this
          exact hr

/-- The saved part of the encoder's state. -/
def Sav.of (e : ESt) : Sav := ⟨e.w.pb, e.w.free, e.last, e.togo, e.rst⟩

/-- The blocks after the prologue, and the update of the saved state. -/
theorem tail_run {S : Nat → Ev} {junk : List Nat} (hj : junk.length = bufSize) {prec : Nat} (hp : prec ≤ 12) {bs : List EBlk} (hb : Tables bs)
    {x : Work} (hx : Live x) (m : List (List Int)) {r0 : Ans (Nat × Nat × (Nat → Int) × Work)} {u0 : List Nat} {last0 : Nat → Int} {w0 : Wr}
    (hw : w0.free ≤ 64)
    (h1 : Run S (fun r : Nat × Nat × (Nat → Int) × Work => r.2.2.2) (fun r => r.1 = w0.pb ∧ r.2.1 = w0.free ∧ r.2.2.1 = last0) x u0 r0)
    (T R : Nat) :
    let res := r0.bind fun r => (encBlocksM S junk prec bs m r.2.2.1 r.1 r.2.1 r.2.2.2).bind fun r =>
      .ok (({ pb := r.2.1, free := r.2.2.1, last := r.1, togo := T, rst := R } : Sav), { r.2.2.2 with dnext := r.2.2.2.next })
    match encBlocks prec bs m last0 w0 with
    | none => RunBad S x res
    | some (last', w') => w'.free ≤ 64 ∧ ∃ v, w'.out = w0.out ++ v ∧ v.length ≤ 496 * bs.length ∧
        (AllTake S → ∃ x', res = .ok (⟨w'.pb, w'.free, last', T, R⟩, x') ∧ x'.stream = wstream x ++ (u0 ++ v) ∧ x'.dnext < x'.mem.length) ∧
        (AllFull S → (x.next + (u0 ++ v).length < x.mem.length ∧ ∃ x', res = .ok (⟨w'.pb, w'.free, last', T, R⟩, x') ∧
            x'.stream = wstream x ++ (u0 ++ v) ∧ x'.dnext < x'.mem.length ∧ x'.k = x.k) ∨
          (x.mem.length ≤ x.next + (u0 ++ v).length ∧ Susp S x res)) := by
  intro res
  have h2 := fun (x : Work) hx => blocks_run (S := S) hj hp bs hb m last0 w0 hw x hx
  generalize hE : encBlocks prec bs m last0 w0 = E at h2
  cases E with
  | none => exact Run.bindBad hx h1 (fun a q hl => by rw [q.1, q.2.1, q.2.2]; exact (h2 _ hl).bind)
  | some p =>
    obtain ⟨last', w'⟩ := p
    obtain ⟨hf', v, ho', hv, -⟩ := h2 x hx
    have hr := Run.bind hx h1 (f := fun r => encBlocksM S junk prec bs m r.2.2.1 r.1 r.2.1 r.2.2.2) (pr' := fun r => r.2.2.2)
      (Q' := fun r => r.1 = last' ∧ r.2.1 = w'.pb ∧ r.2.2.1 = w'.free) (v := v) (fun a q hl => by
        rw [q.1, q.2.1, q.2.2]
        obtain ⟨-, v', ho2, -, hr⟩ := h2 _ hl
        have : v' = v := List.append_cancel_left (ho2.symm.trans ho')
        subst this
        exact hr)
    have hres : res = (r0.bind fun r => encBlocksM S junk prec bs m r.2.2.1 r.1 r.2.1 r.2.2.2).bind fun r =>
      .ok (({ pb := r.2.1, free := r.2.2.1, last := r.1, togo := T, rst := R } : Sav), { r.2.2.2 with dnext := r.2.2.2.next }) := by
      show r0.bind _ = _
      cases r0 <;> rfl
    generalize (r0.bind fun r => encBlocksM S junk prec bs m r.2.2.1 r.1 r.2.1 r.2.2.2) = q at hr hres
    refine ⟨hf', v, ho', hv, fun hs => ?_, fun hs => ?_⟩
    · obtain ⟨a, rfl, ⟨q1, q2, q3⟩, e1, l1⟩ := hr.take hs
      refine ⟨{ a.2.2.2 with dnext := a.2.2.2.next }, ?_, e1, l1⟩
      rw [hres, ← q1, ← q2, ← q3]; rfl
    · rcases hr.full hs with ⟨h3, a, rfl, ⟨q1, q2, q3⟩, e1⟩ | ⟨h3, x', b, rfl, e1⟩
      · refine Or.inl ⟨h3, { a.2.2.2 with dnext := a.2.2.2.next }, ?_, ?_, ?_, e1.k⟩
        · rw [hres, ← q1, ← q2, ← q3]; rfl
        · unfold Work.stream wstream
          dsimp only
          rw [e1.sent, e1.data, List.append_assoc]
        · dsimp only; rw [e1.next, e1.len]; exact h3
      · exact Or.inr ⟨h3, x', b, hres, e1⟩

/-- encode_mcu_huff. -/
theorem mcu_run {S : Nat → Ev} {junk : List Nat} (hj : junk.length = bufSize) {prec : Nat} (hp : prec ≤ 12) (ri : Nat) {bs : List EBlk} (hb : Tables bs)
    (e : ESt) (hw : e.w.free ≤ 64) (x : Work) (hx : Live x) (m : List (List Int)) :
    match encMCU prec ri bs e m with
    | none => RunBad S x (encMcuM S junk prec ri bs (Sav.of e) x m)
    | some e' => e'.w.free ≤ 64 ∧ ∃ u, e'.w.out = e.w.out ++ u ∧ u.length ≤ 496 * bs.length + 18 ∧
        (AllTake S → ∃ x', encMcuM S junk prec ri bs (Sav.of e) x m = .ok (Sav.of e', x') ∧ x'.stream = wstream x ++ u ∧
          x'.dnext < x'.mem.length) ∧
        (AllFull S → (x.next + u.length < x.mem.length ∧ ∃ x', encMcuM S junk prec ri bs (Sav.of e) x m = .ok (Sav.of e', x') ∧
            x'.stream = wstream x ++ u ∧ x'.dnext < x'.mem.length ∧ x'.k = x.k) ∨
          (x.mem.length ≤ x.next + u.length ∧ Susp S x (encMcuM S junk prec ri bs (Sav.of e) x m))) := by
  unfold encMCU encMcuM
  by_cases hdue : ri ≠ 0 ∧ e.togo = 0
  · have hdue' : ri ≠ 0 ∧ (Sav.of e).togo = 0 := hdue
    simp only [if_pos hdue, if_pos hdue']
    have h1 : Run S (fun r : Nat × Nat × (Nat → Int) × Work => r.2.2.2)
        (fun r => r.1 = (emitRestart e.w e.rst).pb ∧ r.2.1 = (emitRestart e.w e.rst).free ∧ r.2.2.1 = fun _ => 0) x
        (flushLoop e.w.pb (64 - e.w.free) ++ [0xFF, 0xD0 + e.rst] ++ []) _ :=
      Run.bind hx (restart_run hj hx e.w.pb e.w.free e.rst) (f := fun x => .ok (0, 64, (fun _ => (0 : Int)), x))
        (fun a _ hl => Run.pure (Q := fun r : Nat × Nat × (Nat → Int) × Work => r.1 = (emitRestart e.w e.rst).pb ∧
          r.2.1 = (emitRestart e.w e.rst).free ∧ r.2.2.1 = fun _ => 0) hl rfl ⟨rfl, rfl, rfl⟩)
    rw [List.append_nil] at h1
    have hfl := (flush_run (S := S) hj hx e.w.pb e.w.free).2
    have h2 := tail_run hj hp hb hx m (by simp [emitRestart, flushBits]) h1 (if ri ≠ 0 then ri - 1 else ri) ((e.rst + 1) &&& 7)
    dsimp only at h2
    generalize encBlocks prec bs m (fun _ => 0) (emitRestart e.w e.rst) = E at h2
    cases E with
    | none => exact h2
    | some p =>
      obtain ⟨last', w'⟩ := p
      obtain ⟨hf', v, ho', hv, g1, g2⟩ := h2
      refine ⟨hf', flushLoop e.w.pb (64 - e.w.free) ++ [0xFF, 0xD0 + e.rst] ++ v, ?_, ?_, g1, g2⟩
      · show w'.out = _
        rw [ho']; simp [emitRestart, flushBits]
      · simp only [List.length_append, List.length_cons, List.length_nil]; omega
  · have hdue' : ¬ (ri ≠ 0 ∧ (Sav.of e).togo = 0) := hdue
    simp only [if_neg hdue, if_neg hdue']
    have h1 : Run S (fun r : Nat × Nat × (Nat → Int) × Work => r.2.2.2) (fun r => r.1 = e.w.pb ∧ r.2.1 = e.w.free ∧ r.2.2.1 = e.last) x []
        (.ok (e.w.pb, e.w.free, e.last, x)) := Run.pure hx rfl ⟨rfl, rfl, rfl⟩
    have h2 := tail_run hj hp hb hx m hw h1 (if ri ≠ 0 then e.togo - 1 else e.togo) e.rst
    dsimp only at h2
    generalize encBlocks prec bs m e.last e.w = E at h2
    cases E with
    | none => exact h2
    | some p =>
      obtain ⟨last', w'⟩ := p
      obtain ⟨hf', v, ho', hv, g1, g2⟩ := h2
      refine ⟨hf', v, ho', by omega, g1, g2⟩

end Verif.Out
