import Verif.Mark.ChunkRead
/-
C09, marker part: read_markers with the input in any number of pieces.
-/
namespace Verif.Mark
open Verif

theorem nextMk_ffs : ∀ (p : List Nat), (∀ x ∈ p, x = 0xFF) → ∀ (q : List Nat), (∀ x ∈ q, x = 0xFF) → ∀ (d : Nat) (b : List Nat),
    nextMk d q (p ++ b) = nextMk d (q ++ p) b := by
  intro p
  induction p with
  | nil => intro _ q _ d b; simp
  | cons x p ih =>
    intro hp q hq d b
    have hx : x = 0xFF := hp x (by simp)
    subst hx
    rw [List.cons_append]
    conv => lhs; unfold nextMk
    have hq' : ∀ y ∈ q ++ [0xFF], y = 0xFF := by
      intro y hy
      rcases List.mem_append.1 hy with h | h
      · exact hq y h
      · simpa using h
    by_cases h0 : q = []
    · subst h0
      rw [if_pos rfl, if_pos rfl, ih (fun y hy => hp y (by simp [hy])) [0xFF] (by simp)]
      rfl
    · rw [if_neg h0, if_pos rfl, ih (fun y hy => hp y (by simp [hy])) _ hq']
      simp

theorem nextMk_cons (d : Nat) (q : List Nat) (c : Nat) (b : List Nat) : nextMk d q (c :: b) =
    if q = [] then
      if c = 0xFF then nextMk d [c] b else nextMk (d + 1) [] b
    else if c = 0xFF then nextMk d (q ++ [c]) b
    else if c = 0 then nextMk (d + 2) [] b
    else .ok (c, b, d) := rfl

theorem nextMk_append : ∀ (b : List Nat) (d : Nat) (q : List Nat) (c : List Nat), (∀ x ∈ q, x = 0xFF) →
    match nextMk d q b with
    | .ok (x, r, d') => nextMk d q (b ++ c) = .ok (x, r ++ c, d')
    | .error (p, d') => (∀ x ∈ p, x = 0xFF) ∧ nextMk d q (b ++ c) = nextMk d' p c := by
  intro b
  induction b with
  | nil => intro d q c hq; exact ⟨hq, rfl⟩
  | cons x b ih =>
    intro d q c hq
    rw [List.cons_append, nextMk_cons, nextMk_cons]
    by_cases h0 : q = []
    · rw [if_pos h0, if_pos h0]
      by_cases hx : x = 0xFF
      · rw [if_pos hx, if_pos hx]; exact ih d [x] c (by simp [hx])
      · rw [if_neg hx, if_neg hx]; exact ih _ [] c (by simp)
    · rw [if_neg h0, if_neg h0]
      by_cases hx : x = 0xFF
      · rw [if_pos hx, if_pos hx]
        refine ih d (q ++ [x]) c ?_
        intro y hy
        rcases List.mem_append.1 hy with h | h
        · exact hq y h
        · simp only [List.mem_singleton] at h; rw [h, hx]
      · rw [if_neg hx, if_neg hx]
        by_cases hz : x = 0
        · rw [if_pos hz, if_pos hz]; exact ih _ [] c (by simp)
        · rw [if_neg hz, if_neg hz]

theorem nextMarker_indep (s : RS) (c : List Nat) : Indep RS.nextMarker s c := by
  unfold Indep RS.nextMarker
  have h := nextMk_append s.src (s.mem .disc) [] (s.more c) (by simp)
  simp only [feed_eq]
  cases hn : nextMk (s.mem .disc) [] s.src with
  | ok x =>
    obtain ⟨x, r, d⟩ := x
    rw [hn] at h
    simp only at h ⊢
    rw [h]
    rfl
  | error x =>
    obtain ⟨p, d⟩ := x
    rw [hn] at h
    obtain ⟨hp, h⟩ := h
    simp only
    have e : apply [(Slot.disc, d)] s.mem .disc = d := rfl
    have ew : apply [(Slot.disc, d)] s.mem .warns = s.mem .warns := rfl
    have em : RS.more { mem := apply [(Slot.disc, d)] s.mem, src := p, skip := s.skip, saved := s.saved, curM := s.curM } c = s.more c := rfl
    rw [e, ew, em, h, nextMk_ffs p hp [] (by simp), List.nil_append]
    have redo : ∀ (w : Writes), (∃ v, (Slot.disc, v) ∈ w) → apply w (apply [(Slot.disc, d)] s.mem) = apply w s.mem := by
      rintro w ⟨v, hv⟩
      funext x
      by_cases hx : ∃ y ∈ w, y.1 = x
      · exact apply_mem_indep hx _ _
      · have hx' : ∀ y ∈ w, y.1 ≠ x := fun y hy e => hx ⟨y, hy, e⟩
        rw [apply_notin hx', apply_notin hx', apply_notin]
        intro y hy
        simp only [List.mem_singleton] at hy
        subst hy
        exact fun e => hx ⟨_, hv, e⟩
    cases nextMk d p (s.more c) with
    | ok x =>
      obtain ⟨x, r, d'⟩ := x
      simp only
      rw [redo]
      by_cases hd : d' ≠ 0
      · rw [if_pos hd]; exact ⟨0, by simp⟩
      · rw [if_neg hd]; exact ⟨d', by simp⟩
    | error x =>
      obtain ⟨p', d'⟩ := x
      simp only
      rw [redo]
      exact ⟨d', by simp⟩

/-- The first half of the loop body of read_markers: get a marker if there is none yet. -/
def RS.got (s : RS) : Step :=
  if s.mem .unread = 0 then
    if s.mem .sawSOI = 0 then s.run firstMarker (fun _ s => .cont s) else s.nextMarker
  else .cont s

theorem firstMarker_susp {b : List Nat} {w : Writes} (h : firstMarker b = .susp w) : w = [] := by
  have : OnlyS (fun _ => False) firstMarker := by
    unfold firstMarker
    exact OnlyS.bind Only.byte (fun _ => OnlyS.bind Only.byte (fun _ => OnlyS.ite (Only.fail _).s OnlyS.put))
  have := this b
  rw [h] at this
  cases w with
  | nil => rfl
  | cons x w => exact (this x (by simp)).elim

theorem got_indep {proc : Nat → Proc} {s : RS} (hI : Inv proc s) (c : List Nat) : Indep RS.got s c := by
  unfold Indep RS.got
  by_cases h0 : s.mem .unread = 0
  · have hf0 : (s.feed c).mem .unread = 0 := h0
    rw [if_pos h0, if_pos hf0]
    by_cases h1 : s.mem .sawSOI = 0
    · have hf1 : (s.feed c).mem .sawSOI = 0 := h1
      rw [if_pos h1, if_pos hf1]
      have := run_indep (fun _ => firstMarker) (fun _ s => s) s c firstMarker_mono (fun _ _ => rfl) (fun _ _ _ _ => rfl)
      unfold Indep at this
      dsimp only at this
      cases hr : s.run firstMarker (fun _ s => .cont s) with
      | err e => rw [hr] at this; exact this
      | cont t => rw [hr] at this; exact this
      | susp t =>
        rw [hr] at this
        have et : t.mem = s.mem := by
          unfold RS.run at hr
          cases hp : firstMarker s.src with
          | ok a w r => rw [hp] at hr; simp at hr
          | err e => rw [hp] at hr; simp at hr
          | susp w =>
            rw [hp] at hr
            simp only [Step.susp.injEq] at hr
            rw [← hr, firstMarker_susp hp]; rfl
        have ht0 : (t.feed c).mem .unread = 0 := by show t.mem .unread = 0; rw [et]; exact h0
        have ht1 : (t.feed c).mem .sawSOI = 0 := by show t.mem .sawSOI = 0; rw [et]; exact h1
        simp only at this ⊢
        rw [if_pos ht0, if_pos ht1]
        exact this
    · have hf1 : ¬ (s.feed c).mem .sawSOI = 0 := h1
      rw [if_neg h1, if_neg hf1]
      have := nextMarker_indep s c
      unfold Indep at this
      cases hr : s.nextMarker with
      | err e => rw [hr] at this; exact this
      | cont t => rw [hr] at this; exact this
      | susp t =>
        rw [hr] at this
        have et : t.mem .unread = s.mem .unread ∧ t.mem .sawSOI = s.mem .sawSOI := by
          unfold RS.nextMarker at hr
          cases hp : nextMk (s.mem .disc) [] s.src with
          | ok x => obtain ⟨a, b, d⟩ := x; rw [hp] at hr; simp at hr
          | error x =>
            obtain ⟨p, d⟩ := x
            rw [hp] at hr
            simp only [Step.susp.injEq] at hr
            rw [← hr]
            exact ⟨rfl, rfl⟩
        have ht0 : (t.feed c).mem .unread = 0 := by show t.mem .unread = 0; rw [et.1]; exact h0
        have ht1 : ¬ (t.feed c).mem .sawSOI = 0 := by show ¬ t.mem .sawSOI = 0; rw [et.2]; exact h1
        simp only at this ⊢
        rw [if_pos ht0, if_neg ht1]
        exact this
  · have hf0 : ¬ (s.feed c).mem .unread = 0 := h0
    rw [if_neg h0, if_neg hf0]

theorem readLoop_succ (proc : Nat → Proc) (k : Nat) (s : RS) : readLoop proc (k + 1) s =
    match s.got with
    | .err e => .err e
    | .susp s => .susp s
    | .cont s =>
      if s.mem .unread = 0xD9 then .eoi s.clear
      else match process proc s with
        | .err e => .err e
        | .susp s => .susp s
        | .cont s' => if s.mem .unread = 0xDA then .sos s'.clear else readLoop proc k s'.clear := rfl

/-- How many iterations are needed at most. -/
def RS.weight (s : RS) : Nat := s.src.length + (if s.mem .unread ≠ 0 then 1 else 0)

theorem got_ok {proc : Nat → Proc} {s : RS} (hI : Inv proc s) :
    match s.got with
    | .err e => e ≠ .bound
    | .susp s' => Inv proc s'
    | .cont s' => Inv proc s' ∧ s'.mem .unread ≠ 0 ∧ s'.src.length < s.weight := by
  unfold RS.got RS.weight
  by_cases h0 : s.mem .unread = 0
  · rw [if_pos h0]
    have : GotOk proc s (if s.mem .sawSOI = 0 then s.run firstMarker (fun _ s => .cont s) else s.nextMarker) := by
      split
      · exact firstMarker_ok hI h0
      · exact nextMarker_ok hI h0
    revert this
    cases (if s.mem .sawSOI = 0 then s.run firstMarker (fun _ s => .cont s) else s.nextMarker) with
    | err e => exact fun h => h
    | susp s' => exact fun h => h
    | cont s' => exact fun h => ⟨h.1, h.2.1, by have := h.2.2; omega⟩
  · rw [if_neg h0]
    exact ⟨hI, h0, by rw [if_pos h0]; omega⟩

theorem after_ok {proc : Nat → Proc} {s : RS} (hI : Inv proc s) {s' : RS} (h : process proc s = .cont s') :
    Inv proc s'.clear ∧ s'.clear.weight ≤ s.src.length := by
  have := process_ok hI
  rw [h] at this
  obtain ⟨g1, g2, g3, g4, ⟨n, -, g5⟩, g6⟩ := this
  refine ⟨clear_ok g1 g4, ?_⟩
  have e : s'.clear.mem .unread = 0 := by simp [RS.clear, apply]
  unfold RS.weight
  rw [if_neg (by simp [e])]
  show s'.src.length + 0 ≤ _
  rw [g5.1, List.length_drop]
  omega

/-- The number of iterations allowed does not matter. -/
theorem readLoop_fuel {proc : Nat → Proc} : ∀ (k k' : Nat) (s : RS), Inv proc s → s.weight < k → s.weight < k' →
    readLoop proc k s = readLoop proc k' s := by
  intro k
  induction k with
  | zero => intro k' s _ h; omega
  | succ k ih =>
    intro k' s hI h h'
    obtain ⟨k', rfl⟩ : ∃ j, k' = j + 1 := ⟨k' - 1, by omega⟩
    rw [readLoop_succ, readLoop_succ]
    have hg := got_ok hI
    cases hgot : s.got with
    | err e => rfl
    | susp t => rfl
    | cont t =>
      rw [hgot] at hg
      obtain ⟨h1, h2, h3⟩ := hg
      simp only
      by_cases hd : t.mem .unread = 0xD9
      · rw [if_pos hd, if_pos hd]
      · rw [if_neg hd, if_neg hd]
        cases hp : process proc t with
        | err e => rfl
        | susp u => rfl
        | cont u =>
          obtain ⟨g1, g2⟩ := after_ok h1 hp
          simp only
          rw [ih k' _ g1 (by omega) (by omega)]

theorem feed_clear (s : RS) (c : List Nat) : (s.feed c).clear = s.clear.feed c := rfl

/-- Result of reading, with more input. -/
def RetIndep (proc : Nat → Proc) (s : RS) (c : List Nat) : Ret → Prop
  | .err e => readMarkers proc (s.feed c) = .err e
  | .sos t => readMarkers proc (s.feed c) = .sos (t.feed c)
  | .eoi t => readMarkers proc (s.feed c) = .eoi (t.feed c)
  | .susp t => readMarkers proc (t.feed c) = readMarkers proc (s.feed c)

theorem readMarkers_eq {proc : Nat → Proc} {s : RS} (hI : Inv proc s) {k : Nat} (h : s.weight < k) :
    readMarkers proc s = readLoop proc k s := by
  apply readLoop_fuel _ _ _ hI _ h
  unfold RS.weight
  split <;> omega

theorem readLoop_indep {proc : Nat → Proc} {c : List Nat} (hc : IsBytes c) : ∀ (k : Nat) (s : RS), Inv proc s → s.weight < k →
    RetIndep proc s c (readLoop proc k s) := by
  intro k
  induction k with
  | zero => intro s _ h; omega
  | succ k ih =>
    intro s hI hk
    have hIf := feed_ok hI hc
    have hg := got_ok hI
    have hi := got_indep hI c
    have hgf := got_ok hIf
    unfold Indep at hi
    have hwf : (s.feed c).weight < (s.feed c).weight + 1 := by omega
    rw [readLoop_succ]
    cases hgot : s.got with
    | err e =>
      rw [hgot] at hi
      simp only at hi ⊢
      show readMarkers _ _ = _
      rw [readMarkers_eq hIf hwf, readLoop_succ, hi]
    | susp t =>
      rw [hgot] at hi hg
      simp only at hi hg ⊢
      have hIt := feed_ok hg hc
      show readMarkers _ _ = readMarkers _ _
      have e1 : (t.feed c).weight < max (t.feed c).weight (s.feed c).weight + 1 := by omega
      have e2 : (s.feed c).weight < max (t.feed c).weight (s.feed c).weight + 1 := by omega
      rw [readMarkers_eq hIt e1, readMarkers_eq hIf e2, readLoop_succ, readLoop_succ, hi]
    | cont t =>
      rw [hgot] at hi hg
      simp only at hi ⊢
      rw [hi] at hgf
      obtain ⟨h1, h2, h3⟩ := hg
      obtain ⟨f1, f2, f3⟩ := hgf
      have hu : (t.feed c).mem .unread = t.mem .unread := rfl
      by_cases hd : t.mem .unread = 0xD9
      · rw [if_pos hd]
        show readMarkers _ _ = _
        rw [readMarkers_eq hIf hwf, readLoop_succ, hi]
        simp only
        rw [hu, if_pos hd]
        rfl
      · rw [if_neg hd]
        have hp := process_indep h1 c
        unfold Indep at hp
        cases hpr : process proc t with
        | err e =>
          rw [hpr] at hp
          simp only at hp ⊢
          show readMarkers _ _ = _
          rw [readMarkers_eq hIf hwf, readLoop_succ, hi]
          simp only
          rw [hu, if_neg hd, hp]
        | susp u =>
          rw [hpr] at hp
          simp only at hp ⊢
          have hok := process_ok h1
          rw [hpr] at hok
          have hIu := feed_ok hok.1 hc
          have huu : (u.feed c).mem .unread = t.mem .unread := hok.2.2
          show readMarkers _ _ = readMarkers _ _
          have e1 : (u.feed c).weight < max (u.feed c).weight (s.feed c).weight + 1 := by omega
          have e2 : (s.feed c).weight < max (u.feed c).weight (s.feed c).weight + 1 := by omega
          rw [readMarkers_eq hIu e1, readMarkers_eq hIf e2, readLoop_succ, readLoop_succ, hi]
          have hgu : (u.feed c).got = .cont (u.feed c) := by
            unfold RS.got
            rw [huu, if_neg h2]
          rw [hgu]
          simp only
          rw [huu, hu, if_neg hd, if_neg hd, hp]
        | cont u =>
          rw [hpr] at hp
          simp only at hp ⊢
          by_cases hda : t.mem .unread = 0xDA
          · rw [if_pos hda]
            show readMarkers _ _ = _
            rw [readMarkers_eq hIf hwf, readLoop_succ, hi]
            simp only
            rw [hu, if_neg hd, hp]
            simp only
            rw [if_pos hda]
            rfl
          · rw [if_neg hda]
            obtain ⟨g1, g2⟩ := after_ok h1 hpr
            obtain ⟨g3, g4⟩ := after_ok f1 hp
            have := ih u.clear g1 (by omega)
            have e : readMarkers proc (s.feed c) = readMarkers proc (u.clear.feed c) := by
              rw [readMarkers_eq hIf hwf, readLoop_succ, hi]
              simp only
              rw [hu, if_neg hd, hp]
              simp only
              rw [if_neg hda]
              have e3 : (u.feed c).clear = u.clear.feed c := rfl
              rw [e3] at g3 g4 ⊢
              rw [← readMarkers_eq g3 (by omega)]
            revert this
            cases readLoop proc k u.clear with
            | err e' => exact fun h => e.trans h
            | sos v => exact fun h => e.trans h
            | eoi v => exact fun h => e.trans h
            | susp v => exact fun h => Eq.trans h e.symm

/-- Feeding pieces as long as the reader suspends; the rest of the pieces stays outside. -/
def readPieces (proc : Nat → Proc) : RS → List (List Nat) → Ret × List (List Nat)
  | s, [] => (readMarkers proc s, [])
  | s, c :: cs =>
    match readMarkers proc s with
    | .susp t => readPieces proc (t.feed c) cs
    | r => (r, c :: cs)

theorem feed_feed {proc : Nat → Proc} {s : RS} (hI : Inv proc s) (a b : List Nat) : (s.feed a).feed b = s.feed (a ++ b) := by
  simp only [feed_eq, RS.more, RS.mk.injEq, true_and, and_true, List.length_append, List.append_assoc]
  constructor
  · congr 1
    rw [List.drop_append]
    by_cases h : s.skip ≤ a.length
    · rw [show min s.skip a.length = s.skip by omega, show min s.skip (a.length + b.length) = s.skip by omega]
      rw [show s.skip - s.skip = 0 by omega, show s.skip - a.length = 0 by omega]
      simp
    · rw [show min s.skip a.length = a.length by omega]
      rw [List.drop_of_length_le (Nat.le_refl _), List.drop_of_length_le (l := a) (by omega)]
      simp only [List.nil_append]
      congr 1
      omega
  · omega

/-- Adding input afterwards to a finished result. -/
def Ret.feed (r : Ret) (c : List Nat) : Ret :=
  match r with
  | .sos t => .sos (t.feed c)
  | .eoi t => .eoi (t.feed c)
  | r => r

/-- **C09**, headers: reading markers from an input that arrives in pieces – the reader suspending and being called again
at every piece – has the same outcome as reading from the whole input at once: the same error, the same header fields, tables,
warnings, saved markers and position (with the unread pieces still to come), and a suspension only if the whole input
suspends, with the same continuation for any further input. -/
theorem C09_markers_chunk_independent (proc : Nat → Proc) (s : RS) (h : Reach proc s) (cs : List (List Nat))
    (hcs : ∀ c ∈ cs, IsBytes c) :
    match readPieces proc s cs with
    | (.susp t, rest) => rest = [] ∧ ∀ more, IsBytes more →
        readMarkers proc (t.feed more) = readMarkers proc (s.feed (cs.flatten ++ more))
    | (r, rest) => readMarkers proc (s.feed cs.flatten) = r.feed rest.flatten := by
  have hI := reach_inv h
  clear h
  induction cs generalizing s with
  | nil =>
    simp only [readPieces]
    have hi := fun (c : List Nat) (hc : IsBytes c) => readLoop_indep hc (s.weight + 1) s hI (by omega)
    have e := readMarkers_eq hI (k := s.weight + 1) (by omega)
    rw [← e] at hi
    cases hr : readMarkers proc s with
    | err e => have := hi [] (by simp [IsBytes]); rw [hr] at this; exact this
    | sos t => have := hi [] (by simp [IsBytes]); rw [hr] at this; exact this
    | eoi t => have := hi [] (by simp [IsBytes]); rw [hr] at this; exact this
    | susp t =>
      refine ⟨rfl, fun more hm => ?_⟩
      have := hi more hm
      rw [hr] at this
      exact this
  | cons c cs ih =>
    have hc := hcs c (by simp)
    have hcs' : ∀ d ∈ cs, IsBytes d := fun d hd => hcs d (by simp [hd])
    have hfl : IsBytes cs.flatten := by
      intro x hx
      obtain ⟨d, hd, hx⟩ := List.mem_flatten.1 hx
      exact hcs' d hd x hx
    have hall : IsBytes (c ++ cs.flatten) := by
      intro x hx
      rcases List.mem_append.1 hx with h | h
      · exact hc x h
      · exact hfl x h
    have hi := fun (c : List Nat) (hc : IsBytes c) => readLoop_indep hc (s.weight + 1) s hI (by omega)
    have e := readMarkers_eq hI (k := s.weight + 1) (by omega)
    rw [← e] at hi
    have hok := readMarkers_ok hI
    simp only [readPieces]
    cases hr : readMarkers proc s with
    | err e =>
      have := hi _ hall
      rw [hr] at this
      simpa [Ret.feed] using (show _ = _ from this)
    | sos t =>
      have := hi _ hall
      rw [hr] at this
      simpa [Ret.feed] using (show _ = _ from this)
    | eoi t =>
      have := hi _ hall
      rw [hr] at this
      simpa [Ret.feed] using (show _ = _ from this)
    | susp t =>
      rw [hr] at hok
      have hIt : Inv proc t := hok
      simp only
      have := ih (t.feed c) hcs' (feed_ok hIt hc)
      revert this
      have key : ∀ more, IsBytes more → readMarkers proc ((t.feed c).feed more) = readMarkers proc (s.feed (c ++ more)) := by
        intro more hm
        rw [feed_feed hIt]
        have := hi (c ++ more) (by
          intro x hx
          rcases List.mem_append.1 hx with h | h
          · exact hc x h
          · exact hm x h)
        rw [hr] at this
        exact this
      rcases readPieces proc (t.feed c) cs with ⟨r, rest⟩
      cases r with
      | susp u =>
        rintro ⟨h1, h2⟩
        refine ⟨h1, fun more hm => ?_⟩
        rw [h2 more hm, key, List.flatten_cons, List.append_assoc]
        intro x hx
        rcases List.mem_append.1 hx with h | h
        · exact hfl x h
        · exact hm x h
      | err e => intro h; rw [key _ hfl] at h; simpa using h
      | sos u => intro h; rw [key _ hfl] at h; simpa using h
      | eoi u => intro h; rw [key _ hfl] at h; simpa using h

/-- A header in five pieces, one cut inside a length word, one inside the comment, one inside the frame header. -/
example : (match readPieces defaultProc (RS.init []) [exHeader.take 5, (exHeader.drop 5).take 2, (exHeader.drop 7).take 12, exHeader.drop 19, [1, 2]],
      readMarkers defaultProc (RS.init exHeader) with
    | (.sos s, rest), .sos t => (s.src == t.src) && (rest == [[1, 2]]) && (s.mem .width == t.mem .width) && (s.mem (.cur 1) == t.mem (.cur 1))
    | _, _ => false) = true := by decide +kernel

end Verif.Mark
