import Verif.Mark.Chunk
/-
C09, marker part: processing a marker, and read_markers, with the input in one piece or in two; then in any number of
pieces.
-/
namespace Verif.Mark
open Verif

/-- The part of new input that is not swallowed by a pending skip. -/
def RS.more (s : RS) (c : List Nat) : List Nat := c.drop (min s.skip c.length)

theorem feed_eq (s : RS) (c : List Nat) :
    s.feed c = ⟨s.mem, s.src ++ s.more c, s.skip - min s.skip c.length, s.saved, s.curM⟩ := rfl

/-- With the input of `s`, or with the input of `s` and `c` together, `F` does the same; and if it suspended, running it
again with `c` makes up for it. -/
def Indep (F : RS → Step) (s : RS) (c : List Nat) : Prop :=
  match F s with
  | .err e => F (s.feed c) = .err e
  | .cont t => F (s.feed c) = .cont (t.feed c)
  | .susp t => F (t.feed c) = F (s.feed c)

theorem run_indep {α : Type} (q : Mem → P α) (k : α → RS → RS) (s : RS) (c : List Nat) (hq : Mono (q s.mem))
    (hre : ∀ w, q s.mem s.src = .susp w → q (apply w s.mem) = q s.mem)
    (hk : ∀ a w r, q s.mem s.src = .ok a w r →
      k a (RS.mk (apply w s.mem) (r ++ s.more c) (s.skip - min s.skip c.length) s.saved s.curM) =
        (k a (RS.mk (apply w s.mem) r s.skip s.saved s.curM)).feed c) :
    Indep (fun s => s.run (q s.mem) (fun a s => .cont (k a s))) s c := by
  unfold Indep RS.run
  have hm := hq s.src (s.more c)
  simp only [feed_eq]
  cases hp : q s.mem s.src with
  | err e => rw [hp] at hm; simp only at hm ⊢; rw [hm]
  | ok a w r =>
    rw [hp] at hm
    simp only at hm ⊢
    rw [hm]
    exact congrArg Step.cont (hk a w r hp)
  | susp w =>
    rw [hp] at hm
    simp only at hm ⊢
    rw [hre w hp]
    have e : RS.more { mem := apply w s.mem, src := s.src, skip := s.skip, saved := s.saved, curM := s.curM } c = s.more c := rfl
    rw [e]
    cases hp2 : q s.mem (s.src ++ s.more c) with
    | err e => rfl
    | ok a w' r =>
      rw [hp2] at hm
      simp only at hm ⊢
      rw [apply_redo hm]
    | susp w' =>
      rw [hp2] at hm
      simp only at hm ⊢
      rw [apply_redo hm]

theorem skipData_feed (s : RS) (n : Nat) (c : List Nat) (h : s.skip = 0 ∨ n = 0) : (s.feed c).skipData n = (s.skipData n).feed c := by
  rcases h with h | rfl
  · unfold RS.skipData RS.feed
    simp only [h, Nat.zero_min, List.drop_zero, List.length_append]
    by_cases h1 : n ≤ s.src.length
    · rw [if_pos h1, if_pos (by omega)]
      simp only [h, Nat.zero_min, List.drop_zero]
      rw [List.drop_append_of_le_length h1]
    · rw [if_neg h1]
      by_cases h2 : n ≤ s.src.length + c.length
      · rw [if_pos h2]
        simp only [RS.mk.injEq, true_and, List.nil_append]
        refine ⟨?_, by omega, trivial⟩
        rw [List.drop_append, List.drop_of_length_le (by omega), List.nil_append]
        congr 1
        omega
      · rw [if_neg h2]
        simp only [RS.mk.injEq, true_and, List.nil_append]
        refine ⟨?_, by omega, trivial⟩
        rw [List.drop_of_length_le (by omega)]
  · simp [RS.skipData, RS.feed]

theorem finishSave_feed (s : RS) (mk : Nat) (cur : Saved) (c : List Nat) (h : s.skip = 0) :
    ∃ t, finishSave s mk cur = .cont t ∧ finishSave (s.feed c) mk cur = .cont (t.feed c) := by
  unfold finishSave
  refine ⟨_, rfl, ?_⟩
  simp only
  exact congrArg Step.cont (skipData_feed (RS.mk (apply (examine s.mem mk cur.data) s.mem) s.src s.skip (s.saved ++ [cur]) none)
    (cur.origLen - cur.data.length) c (Or.inl h))

/-- saveData does not look at cur_marker. -/
theorem saveData_curM (m : Mem) (src : List Nat) (skip : Nat) (saved : List Saved) (x y : Option (Saved × Nat)) (mk : Nat) (cur : Saved)
    (need : Nat) : saveData ⟨m, src, skip, saved, x⟩ mk cur need = saveData ⟨m, src, skip, saved, y⟩ mk cur need := rfl

theorem saveData_indep (s : RS) (mk : Nat) (cur : Saved) (need : Nat) (c : List Nat)
    (hs : s.skip = 0 ∨ cur.data.length < need ∧ s.src = []) :
    match saveData s mk cur need with
    | .err e => saveData (s.feed c) mk cur need = .err e
    | .cont t => saveData (s.feed c) mk cur need = .cont (t.feed c)
    | .susp t => ∃ cur', t.curM = some (cur', need) ∧ t.mem = s.mem ∧ saveData (t.feed c) mk cur' need = saveData (s.feed c) mk cur need := by
  by_cases hfin : cur.data.length + min (need - cur.data.length) s.src.length < need
  · -- suspended: everything there has been taken
    have hk : min (need - cur.data.length) s.src.length = s.src.length := by omega
    have e : saveData s mk cur need =
        .susp ⟨s.mem, [], s.skip, s.saved, some ({ cur with data := cur.data ++ s.src }, need)⟩ := by
      unfold saveData
      simp only
      rw [hk, List.take_of_length_le (Nat.le_refl _), List.drop_of_length_le (Nat.le_refl _), if_pos]
      rw [List.length_append]; omega
    rw [e]
    refine ⟨_, rfl, rfl, ?_⟩
    simp only [feed_eq, RS.more]
    generalize s.skip - min s.skip c.length = sk
    generalize c.drop (min s.skip c.length) = d
    unfold saveData
    simp only [List.nil_append, List.length_append]
    have hk2 : min (need - cur.data.length) (s.src.length + d.length) =
        s.src.length + min (need - (cur.data.length + s.src.length)) d.length := by omega
    rw [hk2]
    generalize hk3 : min (need - (cur.data.length + s.src.length)) d.length = k
    have e1 : (s.src ++ d).take (s.src.length + k) = s.src ++ d.take k := by
      rw [List.take_append, List.take_of_length_le (by omega)]; simp
    have e2 : (s.src ++ d).drop (s.src.length + k) = d.drop k := by
      rw [List.drop_append]; simp
    rw [e1, e2]
    simp only [List.append_assoc, List.length_append, List.length_take, Nat.add_assoc]
    rfl
  · have hs0 : s.skip = 0 := by
      rcases hs with h | ⟨h1, h2⟩
      · exact h
      · rw [h2] at hfin; simp at hfin; omega
    have hmore : s.more c = c := by simp [RS.more, hs0]
    generalize hk : min (need - cur.data.length) s.src.length = k at hfin
    have hkl : k ≤ s.src.length := by omega
    have e : saveData s mk cur need =
        finishSave { s with src := s.src.drop k } mk { cur with data := cur.data ++ s.src.take k } := by
      unfold saveData
      simp only
      rw [hk, if_neg]
      rw [List.length_append, List.length_take]; omega
    have e2 : saveData (s.feed c) mk cur need =
        finishSave (({ s with src := s.src.drop k } : RS).feed c) mk { cur with data := cur.data ++ s.src.take k } := by
      unfold saveData
      simp only [feed_eq, hmore, List.length_append]
      have hk2 : min (need - cur.data.length) (s.src.length + c.length) = k := by omega
      have hm2 : RS.more { mem := s.mem, src := s.src.drop k, skip := s.skip, saved := s.saved, curM := s.curM } c = c := hmore
      rw [hk2, if_neg, hm2, List.take_append_of_le_length hkl, List.drop_append_of_le_length hkl]
      rw [List.length_take, List.length_append]; omega
    obtain ⟨t, h1, h2⟩ := finishSave_feed { s with src := s.src.drop k } mk { cur with data := cur.data ++ s.src.take k } c hs0
    rw [e, h1]
    simp only
    rw [e2, h2]

theorem saveMarker_some {s : RS} {cur : Saved} {need : Nat} (h : s.curM = some (cur, need)) (mk limit : Nat) :
    saveMarker s mk limit = saveData s mk cur need := by
  unfold saveMarker; rw [h]

theorem saveMarker_short {s : RS} (h : s.curM = none) (hs : s.src.length < 2) (mk limit : Nat) :
    saveMarker s mk limit = .susp s := by
  unfold saveMarker; rw [h]
  simp only
  match hsrc : s.src with
  | [] => rfl
  | [x] => rfl
  | hi :: lo :: r => rw [hsrc] at hs; simp at hs; omega

theorem saveMarker_long {s : RS} (h : s.curM = none) {hi lo : Nat} {r : List Nat} (hs : s.src = hi :: lo :: r) (mk limit : Nat) :
    saveMarker s mk limit = if 2 ≤ hi * 256 + lo then saveData ⟨s.mem, r, s.skip, s.saved, none⟩ mk ⟨mk, hi * 256 + lo - 2, []⟩
        (if hi * 256 + lo - 2 < limit then hi * 256 + lo - 2 else limit)
      else .cont ⟨s.mem, r, s.skip, s.saved, none⟩ := by
  unfold saveMarker
  rw [h, hs]
  rfl

theorem saveMarker_indep {proc : Nat → Proc} {s : RS} (hI : Inv proc s) (mk limit : Nat) (c : List Nat) :
    Indep (fun s => saveMarker s mk limit) s c := by
  unfold Indep
  dsimp only
  cases hcur : s.curM with
  | some x =>
    obtain ⟨cur, need⟩ := x
    obtain ⟨h1, h2, h3, h4, h5, h6⟩ := hI.cur cur need hcur
    have hf : (s.feed c).curM = some (cur, need) := hcur
    rw [saveMarker_some hcur, saveMarker_some hf]
    have := saveData_indep s mk cur need c (by
      rcases hI.skip with h | h
      · exact Or.inl h
      · exact Or.inr ⟨h4, h⟩)
    cases hs : saveData s mk cur need with
    | err e => rw [hs] at this; exact this
    | cont t => rw [hs] at this; exact this
    | susp t =>
      rw [hs] at this
      obtain ⟨cur', g1, g2, g3⟩ := this
      have hf2 : (t.feed c).curM = some (cur', need) := g1
      simp only
      rw [saveMarker_some hf2]
      exact g3
  | none =>
    have hf : (s.feed c).curM = none := hcur
    by_cases hlen : s.src.length < 2
    · rw [saveMarker_short hcur hlen]
    · obtain ⟨hi, lo, r, hsrc⟩ : ∃ hi lo r, s.src = hi :: lo :: r := by
        match hsrc : s.src with
        | [] => rw [hsrc] at hlen; simp at hlen
        | [x] => rw [hsrc] at hlen; simp at hlen
        | hi :: lo :: r => exact ⟨hi, lo, r, rfl⟩
      have hs0 : s.skip = 0 := by
        rcases hI.skip with h | h
        · exact h
        · rw [h] at hsrc; simp at hsrc
      have hfs : (s.feed c).src = hi :: lo :: (r ++ c) := by simp [feed_eq, RS.more, hs0, hsrc]
      rw [saveMarker_long hcur hsrc, saveMarker_long hf hfs]
      have hfeed : RS.mk (s.feed c).mem (r ++ c) (s.feed c).skip (s.feed c).saved none =
          (RS.mk s.mem r s.skip s.saved none).feed c := by
        simp [feed_eq, RS.more, hs0]
      rw [hfeed]
      generalize (if hi * 256 + lo - 2 < limit then hi * 256 + lo - 2 else limit) = need
      by_cases h2 : 2 ≤ hi * 256 + lo
      · rw [if_pos h2, if_pos h2]
        have := saveData_indep (RS.mk s.mem r s.skip s.saved none) mk ⟨mk, hi * 256 + lo - 2, []⟩ need c (Or.inl hs0)
        cases hs : saveData (RS.mk s.mem r s.skip s.saved none) mk ⟨mk, hi * 256 + lo - 2, []⟩ need with
        | err e => rw [hs] at this; exact this
        | cont t => rw [hs] at this; exact this
        | susp t =>
          rw [hs] at this
          obtain ⟨cur', g1, g2, g3⟩ := this
          have hf2 : (t.feed c).curM = some (cur', need) := g1
          simp only
          rw [saveMarker_some hf2]
          exact g3
      · rw [if_neg h2, if_neg h2]

theorem Indep.ite {P : Prop} [Decidable P] {F G : RS → Step} {s : RS} {c : List Nat} (h1 : P → Indep F s c) (h2 : ¬ P → Indep G s c) :
    Indep (fun s => if P then F s else G s) s c := by
  by_cases h : P
  · simp only [h, if_true]; exact h1 h
  · simp only [h, if_false]; exact h2 h

/-- `process` with the marker code as a parameter. -/
def branch (proc : Nat → Proc) (mk : Nat) (s : RS) : Step :=
  if mk = 0xD8 then s.run (getSoi s.mem) (fun _ s => .cont s)
  else if mk = 0xC0 ∨ mk = 0xC1 then s.run (getSof s.mem 0 0 0) (fun _ s => .cont s)
  else if mk = 0xC2 then s.run (getSof s.mem 1 0 0) (fun _ s => .cont s)
  else if mk = 0xC3 then s.run (getSof s.mem 0 1 0) (fun _ s => .cont s)
  else if mk = 0xC9 then s.run (getSof s.mem 0 0 1) (fun _ s => .cont s)
  else if mk = 0xCA then s.run (getSof s.mem 1 0 1) (fun _ s => .cont s)
  else if mk = 0xCB then s.run (getSof s.mem 0 1 1) (fun _ s => .cont s)
  else if mk ∈ [0xC5, 0xC6, 0xC7, 0xC8, 0xCD, 0xCE, 0xCF] then .err .sofUnsupported
  else if mk = 0xDA then s.run (getSos s.mem) (fun _ s => .cont s)
  else if mk = 0xCC then s.run getDac (fun _ s => .cont s)
  else if mk = 0xC4 then s.run getDht (fun _ s => .cont s)
  else if mk = 0xDB then s.run getDqt (fun _ s => .cont s)
  else if mk = 0xDD then s.run getDri (fun _ s => .cont s)
  else if (0xE0 ≤ mk ∧ mk ≤ 0xEF) ∨ mk = 0xFE then
    match proc mk with
    | .skip => s.run skipVariable (fun n s => .cont (s.skipData n))
    | .appn => s.run (getAppn s.mem mk) (fun n s => .cont (s.skipData n))
    | .save limit => saveMarker s mk limit
  else if (0xD0 ≤ mk ∧ mk ≤ 0xD7) ∨ mk = 0x01 then .cont s
  else if mk = 0xDC then s.run skipVariable (fun n s => .cont (s.skipData n))
  else .err .unknownMarker

theorem process_branch (proc : Nat → Proc) (s : RS) : process proc s = branch proc (s.mem .unread) s := rfl

theorem done_indep (q : Mem → P Unit) (s : RS) (c : List Nat) (hq : Mono (q s.mem))
    (hre : ∀ w, q s.mem s.src = .susp w → q (apply w s.mem) = q s.mem) :
    Indep (fun s => s.run (q s.mem) (fun _ s => .cont s)) s c :=
  run_indep q (fun _ s => s) s c hq hre (fun _ _ _ _ => rfl)

theorem skip_indep (q : Mem → P Nat) (s : RS) (c : List Nat) (hq : Mono (q s.mem)) (hok : SkipOk (q s.mem)) (hb : IsBytes s.src)
    (hsk : s.skip = 0 ∨ s.src = []) (hre : ∀ w, q s.mem s.src = .susp w → q (apply w s.mem) = q s.mem) :
    Indep (fun s => s.run (q s.mem) (fun n s => .cont (s.skipData n))) s c := by
  refine run_indep q (fun n s => s.skipData n) s c hq hre ?_
  intro a w r h
  have := hok s.src hb
  rw [h] at this
  obtain ⟨hi, lo, u, hsrc, -⟩ := this
  have hs0 : s.skip = 0 := by
    rcases hsk with h | h
    · exact h
    · rw [h] at hsrc; simp at hsrc
  exact skipData_feed (RS.mk (apply w s.mem) r s.skip s.saved s.curM) a c (Or.inl hs0)

theorem sof_indep (p l a : Nat) (s : RS) (hb : IsBytes s.src) (c : List Nat) :
    Indep (fun s => s.run (getSof s.mem p l a) (fun _ s => .cont s)) s c := by
  refine done_indep (fun m => getSof m p l a) s c (getSof_mono _ _ _ _) ?_
  intro w hw
  apply getSof_congr
  have := getSof_ok s.mem p l a s.src hb
  rw [hw] at this
  exact apply_notin (fun x hx => (this x hx).2.2.1)

theorem branch_indep {proc : Nat → Proc} {s : RS} (hI : Inv proc s) (mk : Nat) (c : List Nat) : Indep (branch proc mk) s c := by
  unfold branch
  have sof := fun p l a => sof_indep p l a s hI.bytes c
  refine Indep.ite (fun _ => done_indep getSoi s c (getSoi_mono _) ?_) (fun _ => ?_)
  · intro w hw
    have := getSoi_writes s.mem s.src
    rw [hw] at this
    exact this.elim
  refine Indep.ite (fun _ => sof _ _ _) (fun _ => ?_)
  refine Indep.ite (fun _ => sof _ _ _) (fun _ => ?_)
  refine Indep.ite (fun _ => sof _ _ _) (fun _ => ?_)
  refine Indep.ite (fun _ => sof _ _ _) (fun _ => ?_)
  refine Indep.ite (fun _ => sof _ _ _) (fun _ => ?_)
  refine Indep.ite (fun _ => sof _ _ _) (fun _ => ?_)
  refine Indep.ite (fun _ => rfl) (fun _ => ?_)
  refine Indep.ite (fun _ => done_indep getSos s c (getSos_mono _) ?_) (fun _ => ?_)
  · intro w hw
    apply getSos_congr
    intro x hx
    have := getSos_only s.mem s.src
    rw [hw] at this
    exact apply_notin (fun y hy e => this y hy (by rw [e]; exact hx))
  refine Indep.ite (fun _ => done_indep (fun _ => getDac) s c getDac_mono (fun _ _ => rfl)) (fun _ => ?_)
  refine Indep.ite (fun _ => done_indep (fun _ => getDht) s c getDht_mono (fun _ _ => rfl)) (fun _ => ?_)
  refine Indep.ite (fun _ => done_indep (fun _ => getDqt) s c getDqt_mono (fun _ _ => rfl)) (fun _ => ?_)
  refine Indep.ite (fun _ => done_indep (fun _ => getDri) s c getDri_mono (fun _ _ => rfl)) (fun _ => ?_)
  refine Indep.ite (fun _ => ?_) (fun _ => ?_)
  · cases proc mk with
    | skip => exact skip_indep (fun _ => skipVariable) s c skipVariable_mono skipVariable_ok hI.bytes hI.skip (fun _ _ => rfl)
    | appn =>
      refine skip_indep (fun m => getAppn m mk) s c (getAppn_mono _ _) (getAppn_ok _ _) hI.bytes hI.skip ?_
      intro w hw
      have := getAppn_only s.mem mk s.src
      rw [hw] at this
      have hw0 : w = [] := by
        cases w with
        | nil => rfl
        | cons x w => exact (this x (by simp)).elim
      rw [hw0]; rfl
    | save limit => exact saveMarker_indep hI mk limit c
  refine Indep.ite (fun _ => rfl) (fun _ => ?_)
  refine Indep.ite (fun _ => skip_indep (fun _ => skipVariable) s c skipVariable_mono skipVariable_ok hI.bytes hI.skip (fun _ _ => rfl))
    (fun _ => rfl)

theorem process_indep {proc : Nat → Proc} {s : RS} (hI : Inv proc s) (c : List Nat) : Indep (process proc) s c := by
  have h1 := branch_indep hI (s.mem .unread) c
  have h2 := process_ok hI
  unfold Indep at h1 ⊢
  rw [process_branch] at h2 ⊢
  have e : process proc (s.feed c) = branch proc (s.mem .unread) (s.feed c) := rfl
  rw [e]
  cases hb : branch proc (s.mem .unread) s with
  | err e => rw [hb] at h1; exact h1
  | cont t => rw [hb] at h1; exact h1
  | susp t =>
    rw [hb] at h1 h2
    have e : process proc (t.feed c) = branch proc (s.mem .unread) (t.feed c) := by
      rw [process_branch]
      show branch proc (t.mem .unread) _ = _
      rw [h2.2.2]
    simp only at h1 ⊢
    rw [e]
    exact h1

end Verif.Mark
