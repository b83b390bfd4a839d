import Verif.Mark.RoundSeg
/-
C10: DHT segments as the writer groups them.
-/
namespace Verif.Mark
open Verif
open Verif.Huff (natOrder HuffTbl)

/-- Result of writing Huffman tables: read back, all wanted tables known. -/
structure HDone (proc : Nat → Proc) (q : Bool → Nat → Option HuffTbl) (m : Mem) (b : List Nat) (sent' : Bool → Nat → Bool)
    (want : List (Bool × Nat)) (m' : Mem) : Prop where
  seg : Seg proc m b m'
  off : Off Slot.anyH m m'
  sync : SyncH q sent' m'
  all : ∀ x ∈ want, sent' x.1 x.2 = true

theorem hDone_ready {proc q m b sent' w m'} (h : HDone proc q m b sent' w m') (hr : Ready m) : Ready m' :=
  h.off.ready (fun a => (anyH_not a).2.1 rfl) (fun a => (anyH_not a).2.2.1 rfl) (fun a => (anyH_not a).2.2.2 rfl) hr

/-- The Huffman tables are legal. -/
def HAll (q : Bool → Nat → Option HuffTbl) : Prop := ∀ a n t, q a n = some t → HWf t

theorem setH_mono {sent : Bool → Nat → Bool} {a n} : ∀ b k, sent b k = true → setH sent a n b k = true := by
  intro b k h; unfold setH; split <;> simp [h]

theorem emitDht_done {proc : Nat → Proc} {q : Bool → Nat → Option HuffTbl} {sent : Bool → Nat → Bool} {m : Mem} (hr : Ready m)
    (hq : HAll q) (hs : SyncH q sent m) {ac : Bool} {n : Nat} (hn : n < 4) {b : List Nat} {sent' : Bool → Nat → Bool}
    (h : emitDht q sent ac n = some (b, sent')) :
    (∃ m', HDone proc q m b sent' [(ac, n)] m') ∧ ∀ a k, sent a k = true → sent' a k = true := by
  unfold emitDht at h
  cases e : q ac n with
  | none => rw [e] at h; cases h
  | some v =>
    rw [e] at h
    simp only at h
    by_cases hc : sent ac n = true
    · rw [if_pos hc] at h
      cases h
      exact ⟨⟨m, Seg.nil, Off.refl _, hs, by simpa using hc⟩, fun _ _ h => h⟩
    · rw [if_neg hc] at h
      cases h
      have hv := hq ac n v e
      refine ⟨⟨apply (dhtW ac n v) m, ?_, ?_, ?_, ?_⟩, setH_mono⟩
      · have := seg_dht (proc := proc) hr (ts := [(ac, n, v)]) (L := v.counts.sum + 16 + 1) (by simp [hn, hv]) (by simp)
          (by have := hv.2.2.1; omega)
        simp only [List.flatMap_cons, List.flatMap_nil, List.append_nil] at this
        have e2 : v.counts.sum + 2 + 1 + 16 = v.counts.sum + 16 + 1 + 2 := by omega
        rw [e2]
        exact this
      · exact Off.apply (fun x hx => ⟨_, _, dhtW_slots x hx⟩)
      · have := syncH_apply (sent' := setH sent ac n) [(ac, n, v)] (by simp [e, hv]) hs (by
          intro a k hk
          by_cases h : a = ac ∧ k = n
          · right; simp [h.1, h.2]
          · left; simpa [setH, h] using hk)
        simpa using this
      · simp [setH]

/-- What a scan needs of its components' tables. -/
def wants (dc ac : Bool) (ks : List CComp) : List (Bool × Nat) :=
  ks.flatMap (fun k => (if dc then [(false, k.dc)] else []) ++ (if ac then [(true, k.ac)] else []))

theorem wants_cons {dc ac : Bool} {k : CComp} {ks : List CComp} : wants dc ac (k :: ks) =
    (if dc then [(false, k.dc)] else []) ++ (if ac then [(true, k.ac)] else []) ++ wants dc ac ks := by
  simp [wants]

/-- A conditional emit_dht. -/
theorem optDht_done {proc : Nat → Proc} {q : Bool → Nat → Option HuffTbl} {sent : Bool → Nat → Bool} {m : Mem} (hr : Ready m)
    (hq : HAll q) (hs : SyncH q sent m) {c ac : Bool} {n : Nat} (hn : c = true → n < 4) {b : List Nat} {sent' : Bool → Nat → Bool}
    (h : (if c then emitDht q sent ac n else some ([], sent)) = some (b, sent')) :
    (∃ m', HDone proc q m b sent' (if c then [(ac, n)] else []) m') ∧ ∀ a k, sent a k = true → sent' a k = true := by
  cases c with
  | true => simp only [if_true] at h ⊢; exact emitDht_done hr hq hs (hn rfl) h
  | false =>
    simp only [Bool.false_eq_true, if_false, Option.some.injEq, Prod.mk.injEq] at h ⊢
    obtain ⟨rfl, rfl⟩ := h
    exact ⟨⟨m, Seg.nil, Off.refl _, hs, by simp⟩, fun _ _ h => h⟩

theorem dhtEach_done {proc : Nat → Proc} {q : Bool → Nat → Option HuffTbl} (hq : HAll q) {dc ac : Bool} :
    ∀ (ks : List CComp) (sent : Bool → Nat → Bool) (m : Mem), Ready m → SyncH q sent m →
    (∀ k ∈ ks, (dc = true → k.dc < 4) ∧ (ac = true → k.ac < 4)) → ∀ {b : List Nat} {sent' : Bool → Nat → Bool},
    dhtEach q dc ac ks sent = some (b, sent') →
    (∃ m', HDone proc q m b sent' (wants dc ac ks) m') ∧ ∀ a k, sent a k = true → sent' a k = true := by
  intro ks
  induction ks with
  | nil =>
    intro sent m hr hs _ b sent' h
    simp only [dhtEach, Option.some.injEq, Prod.mk.injEq] at h
    obtain ⟨rfl, rfl⟩ := h
    exact ⟨⟨m, Seg.nil, Off.refl _, hs, by simp [wants]⟩, fun _ _ h => h⟩
  | cons k ks ih =>
    intro sent m hr hs hn b sent' h
    unfold dhtEach at h
    cases e1 : (if dc = true then emitDht q sent false k.dc else some ([], sent)) with
    | none => rw [e1] at h; cases h
    | some r1 =>
      obtain ⟨b1, s1⟩ := r1
      rw [e1] at h
      simp only at h
      cases e2 : (if ac = true then emitDht q s1 true k.ac else some ([], s1)) with
      | none => rw [e2] at h; cases h
      | some r2 =>
        obtain ⟨b2, s2⟩ := r2
        rw [e2] at h
        simp only at h
        cases e3 : dhtEach q dc ac ks s2 with
        | none => rw [e3] at h; cases h
        | some r3 =>
          obtain ⟨b3, s3⟩ := r3
          rw [e3] at h
          cases h
          obtain ⟨⟨m1, d1⟩, k1⟩ := optDht_done (proc := proc) hr hq hs (hn k (by simp)).1 e1
          obtain ⟨⟨m2, d2⟩, k2⟩ := optDht_done (proc := proc) (hDone_ready d1 hr) hq d1.sync (hn k (by simp)).2 e2
          obtain ⟨⟨m3, d3⟩, k3⟩ := ih s2 m2 (hDone_ready d2 (hDone_ready d1 hr)) d2.sync (fun n h => hn n (by simp [h])) e3
          refine ⟨⟨m3, (d1.seg.trans d2.seg).trans d3.seg, (d1.off.trans d2.off).trans d3.off, d3.sync, ?_⟩,
            fun a k h => k3 a k (k2 a k (k1 a k h))⟩
          rw [wants_cons]
          intro x hx
          rcases List.mem_append.1 hx with hx | hx
          · rcases List.mem_append.1 hx with hx | hx
            · exact k3 _ _ (k2 _ _ (d1.all x hx))
            · exact k3 _ _ (d2.all x hx)
          · exact d3.all x hx

/-! ### merged DHT -/

/-- emit_multi_dht is right for this scan: when the DC table of a component is known or has come with an earlier
component of the scan, so is (has) its AC table.  `ds`, `as`: tables already taken. -/
def DhtGood (sent : Bool → Nat → Bool) : List CComp → (ds as : List Nat) → Prop
  | [], _, _ => True
  | k :: ks, ds, as =>
    ((sent false k.dc = true ∨ k.dc ∈ ds) → (sent true k.ac = true ∨ k.ac ∈ as)) ∧ DhtGood sent ks (k.dc :: ds) (k.ac :: as)

/-- The tables of a merged DHT segment. -/
def newH (q : Bool → Nat → Option HuffTbl) : List (Bool × Nat) → (sent : Bool → Nat → Bool) → List (Bool × Nat × HuffTbl)
  | [], _ => []
  | (a, n) :: ns, sent => if sent a n then newH q ns sent else (a, n, (q a n).getD ⟨[], []⟩) :: newH q ns (setH sent a n)

/-- The sent flags after a list of tables. -/
def markH : List (Bool × Nat) → (sent : Bool → Nat → Bool) → (Bool → Nat → Bool)
  | [], sent => sent
  | (a, n) :: ns, sent => if sent a n then markH ns sent else markH ns (setH sent a n)

theorem newH_append (q : Bool → Nat → Option HuffTbl) : ∀ (u v : List (Bool × Nat)) (sent : Bool → Nat → Bool),
    newH q (u ++ v) sent = newH q u sent ++ newH q v (markH u sent) := by
  intro u
  induction u with
  | nil => intros; rfl
  | cons x u ih =>
    intro v sent
    obtain ⟨a, n⟩ := x
    rw [List.cons_append]
    simp only [newH, markH]
    split
    · exact ih v sent
    · rw [ih]; rfl

theorem markH_append : ∀ (u v : List (Bool × Nat)) (sent : Bool → Nat → Bool), markH (u ++ v) sent = markH v (markH u sent) := by
  intro u
  induction u with
  | nil => intros; rfl
  | cons x u ih =>
    intro v sent
    obtain ⟨a, n⟩ := x
    rw [List.cons_append]
    simp only [markH]
    split <;> exact ih _ _

theorem markH_iff : ∀ (u : List (Bool × Nat)) (sent : Bool → Nat → Bool) (a : Bool) (n : Nat),
    markH u sent a n = true ↔ sent a n = true ∨ (a, n) ∈ u := by
  intro u
  induction u with
  | nil => intros; simp [markH]
  | cons x u ih =>
    intro sent a n
    obtain ⟨b, k⟩ := x
    unfold markH
    split
    · rename_i h
      rw [ih, List.mem_cons, Prod.mk.injEq]
      constructor
      · tauto
      · rintro (h' | ⟨rfl, rfl⟩ | h') <;> tauto
    · rw [ih, List.mem_cons, Prod.mk.injEq]
      unfold setH
      by_cases e : a = b ∧ n = k <;> simp [e]

theorem newH_spec (q : Bool → Nat → Option HuffTbl) : ∀ (u : List (Bool × Nat)) (sent : Bool → Nat → Bool),
    (∀ t ∈ newH q u sent, (t.1, t.2.1) ∈ u ∧ t.2.2 = (q t.1 t.2.1).getD ⟨[], []⟩) ∧
    (∀ x ∈ u, sent x.1 x.2 = true ∨ x ∈ (newH q u sent).map (fun t => (t.1, t.2.1))) := by
  intro u
  induction u with
  | nil => intros; simp [newH]
  | cons x u ih =>
    intro sent
    obtain ⟨a, n⟩ := x
    unfold newH
    split
    · rename_i h
      obtain ⟨h1, h2⟩ := ih sent
      refine ⟨fun t ht => ⟨List.mem_cons_of_mem _ (h1 t ht).1, (h1 t ht).2⟩, ?_⟩
      intro x hx
      rcases List.mem_cons.1 hx with rfl | hx
      · exact Or.inl h
      · exact h2 x hx
    · obtain ⟨h1, h2⟩ := ih (setH sent a n)
      constructor
      · intro t ht
        rcases List.mem_cons.1 ht with rfl | ht
        · exact ⟨by simp, rfl⟩
        · exact ⟨List.mem_cons_of_mem _ (h1 t ht).1, (h1 t ht).2⟩
      · intro x hx
        simp only [List.map_cons, List.mem_cons]
        rcases List.mem_cons.1 hx with rfl | hx
        · exact Or.inr (Or.inl rfl)
        · rcases h2 x hx with h' | h'
          · by_cases e : x.1 = a ∧ x.2 = n
            · exact Or.inr (Or.inl (Prod.ext e.1 e.2))
            · left; simpa [setH, e] using h'
          · exact Or.inr (Or.inr h')

/-- The length of a table in the segment. -/
abbrev tlen (t : Bool × Nat × HuffTbl) : Nat := t.2.2.counts.sum + 16 + 1

theorem dhtBodyN_eq (ac : Bool) (n : Nat) (t : HuffTbl) : dhtBodyN ac n t t.counts.sum = dhtBody ac n t := rfl

/-- The seen lists matter only for tables not yet sent. -/
theorem mdhtLens_congr (q : Bool → Nat → Option HuffTbl) (sent : Bool → Nat → Bool) : ∀ (ks : List CComp) (d1 d2 a1 a2 : List Nat), (∀ n, sent false n = true ∨ n ∈ d1 ↔ sent false n = true ∨ n ∈ d2) →
    (∀ n, sent true n = true ∨ n ∈ a1 ↔ sent true n = true ∨ n ∈ a2) →
    mdhtLens q sent true true ks d1 a1 = mdhtLens q sent true true ks d2 a2 := by
  intro ks
  induction ks with
  | nil => intros; rfl
  | cons k ks ih =>
    intro d1 d2 a1 a2 h1 h2
    unfold mdhtLens
    simp only [if_true]
    cases q false k.dc with
    | none => rfl
    | some t =>
      simp only
      have c1 : (sent false k.dc || d1.contains k.dc) = (sent false k.dc || d2.contains k.dc) := by
        have := h1 k.dc
        rw [Bool.eq_iff_iff]; simpa using this
      have c2 : (sent true k.ac || a1.contains k.ac) = (sent true k.ac || a2.contains k.ac) := by
        have := h2 k.ac
        rw [Bool.eq_iff_iff]; simpa using this
      have h1' : ∀ n, sent false n = true ∨ n ∈ k.dc :: d1 ↔ sent false n = true ∨ n ∈ k.dc :: d2 := by
        intro n; have := h1 n; simp only [List.mem_cons]; tauto
      have h2' : ∀ n, sent true n = true ∨ n ∈ k.ac :: a1 ↔ sent true n = true ∨ n ∈ k.ac :: a2 := by
        intro n; have := h2 n; simp only [List.mem_cons]; tauto
      rw [c1]
      by_cases hc : (sent false k.dc || d2.contains k.dc) = true
      · rw [if_pos hc]
        simp only
        rw [ih d1 d2 a1 a2 h1 h2]
      · rw [if_neg hc]
        simp only
        cases q true k.ac with
        | none => rfl
        | some t2 =>
          simp only
          rw [c2]
          split
          · rw [ih _ _ _ _ h1' h2]
          · rw [ih _ _ _ _ h1' h2']

set_option maxHeartbeats 1000000 in
/-- When emit_multi_dht is right, it counts and writes exactly the new tables. -/
theorem mdht_eq (q : Bool → Nat → Option HuffTbl) (sent : Bool → Nat → Bool) (nd na : Bool) : ∀ (ks : List CComp) (ds as : List Nat)
    (cur : Bool → Nat → Bool) (L : Nat) (lens : List (Nat × Nat)),
    (∀ n, cur false n = true ↔ sent false n = true ∨ n ∈ ds) → (∀ n, cur true n = true ↔ sent true n = true ∨ n ∈ as) →
    (nd = true → na = true → DhtGood sent ks ds as) → mdhtLens q sent nd na ks ds as = some (L, lens) →
    L = ((newH q (wants nd na ks) cur).map tlen).sum ∧
    mdhtEmit q nd na (ks.zip lens) cur =
      ((newH q (wants nd na ks) cur).flatMap (fun t => dhtBody t.1 t.2.1 t.2.2), markH (wants nd na ks) cur) ∧
    (∀ x ∈ wants nd na ks, cur x.1 x.2 = true ∨ (q x.1 x.2).isSome) := by
  intro ks
  induction ks with
  | nil =>
    intro ds as cur L lens _ _ _ h
    simp only [mdhtLens, Option.some.injEq, Prod.mk.injEq] at h
    obtain ⟨rfl, rfl⟩ := h
    simp [wants, newH, markH, mdhtEmit]
  | cons k ks ih =>
    intro ds as cur L lens hd ha hg h
    have hcd := hd k.dc
    have hca := ha k.ac
    -- one step for the tables of the component, in terms of what comes after
    have key : ∀ (u : List (Bool × Nat)) (ds' as' : List Nat) (L1 d1 a1 : Nat),
        u = (if nd then [(false, k.dc)] else []) ++ (if na then [(true, k.ac)] else []) →
        (∀ n, markH u cur false n = true ↔ sent false n = true ∨ n ∈ ds') →
        (∀ n, markH u cur true n = true ↔ sent true n = true ∨ n ∈ as') →
        (nd = true → na = true → DhtGood sent ks ds' as') →
        (mdhtLens q sent nd na ks ds' as').map (fun r => (L1 + r.1, (d1, a1) :: r.2)) = some (L, lens) →
        L1 = ((newH q u cur).map tlen).sum →
        (∀ x ∈ u, cur x.1 x.2 = true ∨ (q x.1 x.2).isSome) →
        (∀ rest s', mdhtEmit q nd na ((k, d1, a1) :: rest) cur =
          (let r := mdhtEmit q nd na rest s'; ((newH q u cur).flatMap (fun t => dhtBody t.1 t.2.1 t.2.2) ++ r.1, r.2)) ∨ s' ≠ markH u cur) →
        L = ((newH q (wants nd na (k :: ks)) cur).map tlen).sum ∧
        mdhtEmit q nd na ((k :: ks).zip lens) cur =
          ((newH q (wants nd na (k :: ks)) cur).flatMap (fun t => dhtBody t.1 t.2.1 t.2.2), markH (wants nd na (k :: ks)) cur) ∧
        (∀ x ∈ wants nd na (k :: ks), cur x.1 x.2 = true ∨ (q x.1 x.2).isSome) := by
      intro u ds' as' L1 d1 a1 hu h1 h2 h3 h4 h5 h6 h7
      cases e : mdhtLens q sent nd na ks ds' as' with
      | none => rw [e] at h4; cases h4
      | some r =>
        obtain ⟨L2, lens2⟩ := r
        rw [e] at h4
        simp only [Option.map_some, Option.some.injEq, Prod.mk.injEq] at h4
        obtain ⟨rfl, rfl⟩ := h4
        obtain ⟨i1, i2, i3⟩ := ih ds' as' (markH u cur) L2 lens2 h1 h2 h3 e
        have hw : wants nd na (k :: ks) = u ++ wants nd na ks := by rw [wants_cons, hu]
        rw [hw, newH_append, markH_append]
        refine ⟨?_, ?_, ?_⟩
        · rw [List.map_append, List.sum_append, ← h5, ← i1]
        · rw [List.zip_cons_cons]
          rcases h7 (ks.zip lens2) (markH u cur) with h7 | h7
          · rw [h7, i2, List.flatMap_append]
          · exact absurd rfl h7
        · intro x hx
          rcases List.mem_append.1 hx with hx | hx
          · exact h6 x hx
          · rcases i3 x hx with h | h
            · rcases (markH_iff u cur x.1 x.2).1 h with h | h
              · exact Or.inl h
              · exact h6 x h
            · exact Or.inr h
    unfold mdhtLens at h
    -- the four cases
    cases nd with
    | false =>
      simp only [Bool.false_eq_true, if_false] at h
      cases na with
      | false =>
        simp only [Bool.false_eq_true, if_false] at h
        refine key [] ds as 0 0 0 (by simp) (by simpa [markH] using hd) (by simpa [markH] using ha) (by simp) h (by simp [newH]) (by simp) ?_
        intro rest s'
        by_cases hs' : s' = markH [] cur
        · left; rw [hs']; simp [mdhtEmit, newH, markH]
        · exact Or.inr hs'
      | true =>
        simp only [if_true] at h
        cases e : q true k.ac with
        | none => rw [e] at h; cases h
        | some t =>
          rw [e] at h
          simp only at h
          by_cases hc : (sent true k.ac || as.contains k.ac) = true
          · rw [if_pos hc] at h
            have hcur : cur true k.ac = true := hca.2 (by simpa using hc)
            refine key [(true, k.ac)] ds as 0 0 0 (by simp) (by simpa [markH, hcur] using hd) (by simpa [markH, hcur] using ha) (by simp) h
              (by simp [newH, hcur]) (by simp [hcur]) ?_
            intro rest s'
            by_cases hs' : s' = markH [(true, k.ac)] cur
            · left; rw [hs']; simp [mdhtEmit, newH, markH, hcur]
            · exact Or.inr hs'
          · rw [if_neg hc] at h
            have hcur : ¬ cur true k.ac = true := fun h' => hc (by simpa using hca.1 h')
            refine key [(true, k.ac)] ds (k.ac :: as) (0 + (t.counts.sum + 16 + 1)) 0 t.counts.sum (by simp) ?_ ?_ (by simp) h
              (by simp [newH, hcur, e, tlen]) (by simp [e]) ?_
            · intro n; rw [markH_iff]; simp [hd]
            · intro n; rw [markH_iff]; simp [ha]; tauto
            intro rest s'
            by_cases hs' : s' = markH [(true, k.ac)] cur
            · left; rw [hs']; simp [mdhtEmit, newH, markH, hcur, e, dhtBodyN_eq]
            · exact Or.inr hs'
    | true =>
      simp only [if_true] at h
      cases e0 : q false k.dc with
      | none => rw [e0] at h; cases h
      | some t0 =>
        rw [e0] at h
        simp only at h
        by_cases hc0 : (sent false k.dc || ds.contains k.dc) = true
        · rw [if_pos hc0] at h
          simp only at h
          have hcur0 : cur false k.dc = true := hcd.2 (by simpa using hc0)
          have h' : (mdhtLens q sent true na ks ds as).map (fun r => (0 + r.1, (0, 0) :: r.2)) = some (L, lens) := by
            simpa using h
          cases na with
          | false =>
            refine key [(false, k.dc)] ds as 0 0 0 (by simp) (by simpa [markH, hcur0] using hd) (by simpa [markH, hcur0] using ha) (by simp) h'
              (by simp [newH, hcur0]) (by simp [hcur0]) ?_
            intro rest s'
            by_cases hs' : s' = markH [(false, k.dc)] cur
            · left; rw [hs']; simp [mdhtEmit, newH, markH, hcur0]
            · exact Or.inr hs'
          | true =>
            have g := hg rfl rfl
            have hcur : cur true k.ac = true := hca.2 (g.1 (by simpa using hc0))
            have hd' : ∀ n, cur false n = true ↔ sent false n = true ∨ n ∈ k.dc :: ds := by
              intro n
              rw [hd n, List.mem_cons]
              constructor
              · tauto
              · rintro (h | rfl | h)
                · exact Or.inl h
                · simpa using hc0
                · exact Or.inr h
            have ha' : ∀ n, cur true n = true ↔ sent true n = true ∨ n ∈ k.ac :: as := by
              intro n
              rw [ha n, List.mem_cons]
              constructor
              · tauto
              · rintro (h | rfl | h)
                · exact Or.inl h
                · exact hca.1 hcur
                · exact Or.inr h
            -- the seen lists may differ from those of the length loop, but only by known tables
            rw [mdhtLens_congr q sent ks ds (k.dc :: ds) as (k.ac :: as) (fun n => by rw [← hd n, ← hd' n]) (fun n => by rw [← ha n, ← ha' n])] at h'
            refine key [(false, k.dc), (true, k.ac)] (k.dc :: ds) (k.ac :: as) 0 0 0 (by simp) (by simpa [markH, hcur0, hcur] using hd')
              (by simpa [markH, hcur0, hcur] using ha') (fun _ _ => g.2) h'
              (by simp [newH, hcur0, hcur]) (by simp [hcur0, hcur]) ?_
            intro rest s'
            by_cases hs' : s' = markH [(false, k.dc), (true, k.ac)] cur
            · left; rw [hs']; simp [mdhtEmit, newH, markH, hcur0, hcur]
            · exact Or.inr hs'
        · rw [if_neg hc0] at h
          simp only at h
          have hcur0 : ¬ cur false k.dc = true := fun h' => hc0 (by simpa using hcd.1 h')
          cases na with
          | false =>
            simp only [Bool.false_eq_true, if_false] at h
            refine key [(false, k.dc)] (k.dc :: ds) as (t0.counts.sum + 16 + 1) t0.counts.sum 0 (by simp) ?_ ?_ (by simp) h
              (by simp [newH, hcur0, e0, tlen]) (by simp [e0]) ?_
            · intro n; rw [markH_iff]; simp [hd]; tauto
            · intro n; rw [markH_iff]; simp [ha]
            intro rest s'
            by_cases hs' : s' = markH [(false, k.dc)] cur
            · left; rw [hs']; simp [mdhtEmit, newH, markH, hcur0, e0, dhtBodyN_eq]
            · exact Or.inr hs'
          | true =>
            have g := hg rfl rfl
            simp only [if_true] at h
            have hsd : ¬ (setH cur false k.dc) true k.ac = true ↔ ¬ cur true k.ac = true := by simp [setH]
            cases e : q true k.ac with
            | none => rw [e] at h; cases h
            | some t =>
              rw [e] at h
              simp only at h
              by_cases hc : (sent true k.ac || as.contains k.ac) = true
              · rw [if_pos hc] at h
                have hcur : cur true k.ac = true := hca.2 (by simpa using hc)
                -- the AC table is known: the seen list may get it for free
                have ha' : ∀ n, sent true n = true ∨ n ∈ as ↔ sent true n = true ∨ n ∈ k.ac :: as := by
                  intro n
                  rw [List.mem_cons]
                  constructor
                  · tauto
                  · rintro (h | rfl | h)
                    · exact Or.inl h
                    · simpa using hc
                    · exact Or.inr h
                rw [mdhtLens_congr q sent ks (k.dc :: ds) (k.dc :: ds) as (k.ac :: as) (fun _ => Iff.rfl) ha'] at h
                refine key [(false, k.dc), (true, k.ac)] (k.dc :: ds) (k.ac :: as) (t0.counts.sum + 16 + 1) t0.counts.sum 0 (by simp) ?_ ?_
                  (fun _ _ => g.2) h ?_ (by simp [e0, hcur]) ?_
                · intro n; rw [markH_iff]; simp [hd]; tauto
                · intro n; rw [markH_iff]; simp only [ha, List.mem_cons, Prod.mk.injEq, reduceCtorEq, false_and, true_and, List.not_mem_nil, or_false, false_or]; tauto
                · simp [newH, hcur0, setH, hcur, e0, tlen]
                intro rest s'
                by_cases hs' : s' = markH [(false, k.dc), (true, k.ac)] cur
                · left; rw [hs']; simp [mdhtEmit, newH, markH, hcur0, hcur, e0, dhtBodyN_eq, setH]
                · exact Or.inr hs'
              · rw [if_neg hc] at h
                have hcur : ¬ cur true k.ac = true := fun h' => hc (by simpa using hca.1 h')
                refine key [(false, k.dc), (true, k.ac)] (k.dc :: ds) (k.ac :: as) (t0.counts.sum + 16 + 1 + (t.counts.sum + 16 + 1)) t0.counts.sum
                  t.counts.sum (by simp) ?_ ?_ (fun _ _ => g.2) h ?_ (by simp [e0, e]) ?_
                · intro n; rw [markH_iff]; simp [hd]; tauto
                · intro n; rw [markH_iff]; simp [ha]; tauto
                · simp [newH, hcur0, setH, hcur, e0, e, tlen]
                intro rest s'
                by_cases hs' : s' = markH [(false, k.dc), (true, k.ac)] cur
                · left; rw [hs']; simp [mdhtEmit, newH, markH, hcur0, hcur, e0, e, dhtBodyN_eq, setH]
                · exact Or.inr hs'

theorem multiDht_done {proc : Nat → Proc} {q : Bool → Nat → Option HuffTbl} (hq : HAll q) {ks : List CComp} {fastest nd na : Bool}
    {sent : Bool → Nat → Bool} {m : Mem} (hr : Ready m) (hs : SyncH q sent m)
    (hn : ∀ k ∈ ks, (nd = true → k.dc < 4) ∧ (na = true → k.ac < 4))
    (hg : nd = true → na = true → DhtGood sent ks [] []) {b : List Nat} {sent' : Bool → Nat → Bool}
    (h : multiDht fastest q sent nd na ks = .yes b sent') : ∃ m', HDone proc q m b sent' (wants nd na ks) m' := by
  unfold multiDht at h
  by_cases hf : fastest = true
  · rw [if_pos hf] at h; cases h
  rw [if_neg hf] at h
  cases e : mdhtLens q sent nd na ks [] [] with
  | none => rw [e] at h; cases h
  | some r =>
    obtain ⟨L, lens⟩ := r
    rw [e] at h
    simp only at h
    by_cases hL : L + 2 > 65535
    · rw [if_pos hL] at h; cases h
    rw [if_neg hL] at h
    simp only [MD.yes.injEq] at h
    obtain ⟨rfl, rfl⟩ := h
    obtain ⟨e1, e2, e3⟩ := mdht_eq q sent nd na ks [] [] sent L lens (by simp) (by simp) hg e
    rw [e2]
    simp only
    obtain ⟨s1, s2⟩ := newH_spec q (wants nd na ks) sent
    have hnot : ∀ (u : List (Bool × Nat)) (sent : Bool → Nat → Bool), ∀ t ∈ newH q u sent, ¬ sent t.1 t.2.1 = true := by
      intro u
      induction u with
      | nil => intro sent t ht; simp [newH] at ht
      | cons x u ih =>
        intro sent t ht
        obtain ⟨a, n⟩ := x
        unfold newH at ht
        split at ht
        · exact ih sent t ht
        · rename_i hc
          rcases List.mem_cons.1 ht with rfl | ht
          · exact hc
          · exact fun h => ih _ t ht (setH_mono _ _ h)
    have hsome : ∀ t ∈ newH q (wants nd na ks) sent, q t.1 t.2.1 = some t.2.2 ∧ HWf t.2.2 := by
      intro t ht
      obtain ⟨h1, h2⟩ := s1 t ht
      rcases e3 _ h1 with h | h
      · exact absurd h (hnot _ _ t ht)
      · obtain ⟨v, hv⟩ := Option.isSome_iff_exists.1 h
        simp only at hv
        rw [hv] at h2
        simp only [Option.getD_some] at h2
        rw [h2]
        exact ⟨hv, hq _ _ _ hv⟩
    have hlt : ∀ x ∈ wants nd na ks, x.2 < 4 := by
      intro x hx
      simp only [wants, List.mem_flatMap, List.mem_append] at hx
      obtain ⟨k, hk, hx⟩ := hx
      rcases hx with hx | hx
      · by_cases h : nd = true
        · rw [if_pos h] at hx; simp at hx; subst hx; exact (hn k hk).1 h
        · rw [if_neg h] at hx; simp at hx
      · by_cases h : na = true
        · rw [if_pos h] at hx; simp at hx; subst hx; exact (hn k hk).2 h
        · rw [if_neg h] at hx; simp at hx
    refine ⟨apply ((newH q (wants nd na ks) sent).flatMap (fun t => dhtW t.1 t.2.1 t.2.2)) m, ?_, ?_, ?_, ?_⟩
    · exact seg_dht hr (fun t ht => ⟨hlt _ (s1 t ht).1, (hsome t ht).2⟩) e1 (by omega)
    · exact Off.apply dht_off
    · apply syncH_apply _ hsome hs
      intro a n hn'
      rcases (markH_iff _ _ a n).1 hn' with h | h
      · exact Or.inl h
      · exact s2 _ h
    · intro x h; exact (markH_iff _ _ _ _).2 (Or.inr h)

end Verif.Mark
