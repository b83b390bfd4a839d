import Verif.Mark.Round
/-
C10: one marker segment after the other; DQT and DHT segments as the writer groups them.
-/
namespace Verif.Mark
open Verif
open Verif.Huff (natOrder HuffTbl)

/-- Between two markers of a datastream. -/
def Ready (m : Mem) : Prop := m .unread = 0 ∧ m .disc = 0 ∧ m .sawSOI ≠ 0

/-- A reader state between two markers. -/
def at_ (m : Mem) (src : List Nat) (saved : List Saved) : RS := RS.mk m src 0 saved none

/-- Whatever comes after, read_markers goes over the bytes `bs` and its memory then is `m'`. -/
def Seg (proc : Nat → Proc) (m : Mem) (bs : List Nat) (m' : Mem) : Prop :=
  ∀ rest saved, ∃ j, j ≤ bs.length ∧ ∀ k, readLoop proc (k + j) (at_ m (bs ++ rest) saved) = readLoop proc k (at_ m' rest saved)

theorem Seg.nil {proc : Nat → Proc} {m : Mem} : Seg proc m [] m := fun _ _ => ⟨0, by simp, fun _ => rfl⟩

theorem Seg.trans {proc : Nat → Proc} {m m' m'' : Mem} {b b' : List Nat} (h : Seg proc m b m') (h' : Seg proc m' b' m'') :
    Seg proc m (b ++ b') m'' := by
  intro rest saved
  obtain ⟨j, hj, e⟩ := h (b' ++ rest) saved
  obtain ⟨j', hj', e'⟩ := h' rest saved
  refine ⟨j' + j, by simp; omega, fun k => ?_⟩
  rw [List.append_assoc, ← Nat.add_assoc, e, e']

/-- Memory while a marker is processed. -/
def inMk (m : Mem) (code : Nat) : Mem := apply [(.disc, 0), (.unread, code)] m

theorem inMk_eq {m : Mem} {code : Nat} {s : Slot} (h1 : s ≠ .disc) (h2 : s ≠ .unread) : inMk m code s = m s :=
  apply_notin (by simp; exact ⟨h1.symm, h2.symm⟩)

theorem got_mark {m : Mem} (hr : Ready m) {code : Nat} (h0 : code ≠ 0) (hff : code ≠ 0xFF) (rest : List Nat) (saved : List Saved) :
    (at_ m (0xFF :: code :: rest) saved).got = .cont (at_ (inMk m code) rest saved) := by
  unfold RS.got at_
  rw [if_pos hr.1, if_neg hr.2.2]
  unfold RS.nextMarker
  simp only [hr.2.1]
  have : nextMk 0 [] (0xFF :: code :: rest) = .ok (code, rest, 0) := by
    unfold nextMk
    rw [if_pos rfl, if_pos rfl]
    unfold nextMk
    rw [if_neg (by simp), if_neg hff, if_neg h0]
  rw [this]
  rfl

theorem apply_clear {m : Mem} (hr : Ready m) {code : Nat} {w : Writes} (hw : ∀ x ∈ w, x.1 ≠ .unread ∧ x.1 ≠ .disc) :
    apply [(.unread, 0)] (apply w (inMk m code)) = apply w m := by
  funext s
  by_cases h1 : s = .unread
  · subst h1
    rw [apply_notin (w := w) (fun x hx => (hw x hx).1), hr.1]
    rfl
  · rw [apply_notin (by simp; exact fun e => h1 e.symm)]
    by_cases hs : ∃ x ∈ w, x.1 = s
    · exact apply_mem_indep hs _ _
    · have h' : ∀ x ∈ w, x.1 ≠ s := fun x hx e => hs ⟨x, hx, e⟩
      rw [apply_notin h', apply_notin h']
      by_cases h2 : s = .disc
      · subst h2; rw [hr.2.1]; rfl
      · exact inMk_eq h2 h1

/-- A segment whose routine is run and returns TRUE. -/
theorem Seg.of_reads {proc : Nat → Proc} {m : Mem} (hr : Ready m) {code : Nat} (h0 : code ≠ 0) (hff : code ≠ 0xFF) (h9 : code ≠ 0xD9)
    (hA : code ≠ 0xDA) {q : Mem → P Unit} (hq : ∀ s : RS, branch proc code s = s.run (q s.mem) (fun _ s => .cont s))
    {body : List Nat} {w : Writes} (h : Reads (q (inMk m code)) body () w) (hw : ∀ x ∈ w, x.1 ≠ .unread ∧ x.1 ≠ .disc) :
    Seg proc m (mark code ++ body) (apply w m) := by
  intro rest saved
  refine ⟨1, by simp [mark], fun k => ?_⟩
  rw [readLoop_succ]
  have e : mark code ++ body ++ rest = 0xFF :: code :: (body ++ rest) := rfl
  rw [e, got_mark hr h0 hff]
  have hun : (at_ (inMk m code) (body ++ rest) saved).mem .unread = code := rfl
  simp only [hun, if_neg h9, if_neg hA]
  have hp : process proc (at_ (inMk m code) (body ++ rest) saved) = .cont (at_ (apply w (inMk m code)) rest saved) := by
    rw [process_branch, hun, hq]
    unfold RS.run at_
    simp only
    rw [h rest]
  rw [hp]
  simp only
  have : (at_ (apply w (inMk m code)) rest saved).clear = at_ (apply w m) rest saved := by
    unfold RS.clear at_
    simp only
    rw [apply_clear hr hw]
  rw [this]

/-! ### what is known to the decoder -/

/-- Every table whose sent_table flag is set is known to the decoder. -/
def SyncQ (q : Nat → Option (List Nat)) (sent : Nat → Bool) (m : Mem) : Prop :=
  ∀ n, sent n = true → ∃ v, q n = some v ∧ HasQ m n v
def SyncH (huff : Bool → Nat → Option HuffTbl) (sent : Bool → Nat → Bool) (m : Mem) : Prop :=
  ∀ ac n, sent ac n = true → ∃ t, huff ac n = some t ∧ HasH m ac n t

/-- Memories that agree outside a set of fields. -/
def Off (A : Slot → Prop) (m m' : Mem) : Prop := ∀ s, ¬ A s → m' s = m s

theorem Off.refl {A : Slot → Prop} (m : Mem) : Off A m m := fun _ _ => rfl
theorem Off.trans {A : Slot → Prop} {a b c : Mem} (h : Off A a b) (h' : Off A b c) : Off A a c := fun s hs => (h' s hs).trans (h s hs)
theorem Off.apply {A : Slot → Prop} {m : Mem} {w : Writes} (h : ∀ x ∈ w, A x.1) : Off A m (apply w m) :=
  fun _ hs => apply_notin (fun x hx e => hs (e ▸ h x hx))

/-- Fields of quantization tables / of Huffman tables. -/
def Slot.anyQ (s : Slot) : Prop := ∃ n, s.isQ n
def Slot.anyH (s : Slot) : Prop := ∃ ac n, s.isH ac n

theorem Off.ready {A : Slot → Prop} {m m' : Mem} (h : Off A m m') (h1 : ¬ A .unread) (h2 : ¬ A .disc) (h3 : ¬ A .sawSOI)
    (hr : Ready m) : Ready m' := ⟨by rw [h _ h1]; exact hr.1, by rw [h _ h2]; exact hr.2.1, by rw [h _ h3]; exact hr.2.2⟩

theorem HasQ.off {A : Slot → Prop} {m m' : Mem} (h : Off A m m') {n : Nat} {v : List Nat} (hA : ∀ s, A s → ¬ s.isQ n) (hq : HasQ m n v) :
    HasQ m' n v := by
  have k : ∀ s : Slot, s.isQ n → m' s = m s := fun s hs => h s (fun a => hA s a hs)
  exact ⟨by rw [k (.qDef n) rfl]; exact hq.1, fun i hi => by rw [k (.q n i) rfl]; exact hq.2 i hi⟩

theorem HasH.off {A : Slot → Prop} {m m' : Mem} (h' : Off A m m') {ac : Bool} {n : Nat} {t : HuffTbl} (hA : ∀ s, A s → ¬ s.isH ac n)
    (h : HasH m ac n t) : HasH m' ac n t := by
  have k : ∀ s : Slot, s.isH ac n → m' s = m s := fun s hs => h' s (fun a => hA s a hs)
  exact ⟨by rw [k (.hDef ac n) ⟨rfl, rfl⟩]; exact h.1, by rw [k (.hBits ac n 0) ⟨rfl, rfl⟩]; exact h.2.1,
    fun i hi => by rw [k (.hBits ac n (i + 1)) ⟨rfl, rfl⟩]; exact h.2.2.1 i hi,
    fun i hi => by rw [k (.hVal ac n i) ⟨rfl, rfl⟩]; exact h.2.2.2 i hi⟩

theorem SyncQ.off {A : Slot → Prop} {m m' : Mem} (h : Off A m m') (hA : ∀ s n, A s → ¬ s.isQ n) {q sent} (hq : SyncQ q sent m) :
    SyncQ q sent m' := fun n hn => let ⟨v, e, hv⟩ := hq n hn; ⟨v, e, hv.off h (fun s a => hA s n a)⟩
theorem SyncH.off {A : Slot → Prop} {m m' : Mem} (h : Off A m m') (hA : ∀ s ac n, A s → ¬ s.isH ac n) {q sent} (hq : SyncH q sent m) :
    SyncH q sent m' := fun ac n hn => let ⟨v, e, hv⟩ := hq ac n hn; ⟨v, e, hv.off h (fun s a => hA s ac n a)⟩

theorem anyQ_not {s : Slot} (h : s.anyQ) : ¬ s.anyH ∧ s ≠ .unread ∧ s ≠ .disc ∧ s ≠ .sawSOI := by
  obtain ⟨n, h⟩ := h
  cases s <;> simp [Slot.isQ] at h <;> simp [Slot.anyH, Slot.isH]
theorem anyH_not {s : Slot} (h : s.anyH) : ¬ s.anyQ ∧ s ≠ .unread ∧ s ≠ .disc ∧ s ≠ .sawSOI := by
  obtain ⟨a, n, h⟩ := h
  cases s <;> simp [Slot.isH] at h <;> simp [Slot.anyQ, Slot.isQ]

/-! ### DQT segments -/

theorem isQ_inj {s : Slot} {n k : Nat} (h : s.isQ n) (h' : s.isQ k) : n = k := by
  cases s <;> simp [Slot.isQ] at h h' <;> omega
theorem isH_inj {s : Slot} {a b : Bool} {n k : Nat} (h : s.isH a n) (h' : s.isH b k) : a = b ∧ n = k := by
  cases s <;> simp [Slot.isH] at h h' <;> exact ⟨h.1.symm.trans h'.1, h.2.symm.trans h'.2⟩

/-- Storing the tables `ts` (all current). -/
theorem syncQ_apply {q : Nat → Option (List Nat)} {sent sent' : Nat → Bool} {m : Mem} : ∀ (ts : List (Nat × List Nat)),
    (∀ t ∈ ts, q t.1 = some t.2) → SyncQ q sent m → (∀ n, sent' n = true → sent n = true ∨ n ∈ ts.map (·.1)) →
    SyncQ q sent' (apply (ts.flatMap (fun t => dqtW t.1 t.2)) m) := by
  intro ts
  induction ts generalizing sent m with
  | nil => intro _ hs h n hn; exact hs n ((h n hn).resolve_right (by simp))
  | cons t ts ih =>
    intro hq hs h
    rw [List.flatMap_cons, apply_append]
    apply ih (sent := setB sent t.1) (fun x hx => hq x (by simp [hx]))
    · intro n hn
      by_cases e : n = t.1
      · subst e; exact ⟨t.2, hq t (by simp), apply_dqtW _ _⟩
      · obtain ⟨v, e1, e2⟩ := hs n (by simpa [setB, e] using hn)
        exact ⟨v, e1, e2.keep (fun x hx hc => e (isQ_inj hc (dqtW_slots x hx)))⟩
    · intro n hn
      rcases h n hn with h | h
      · left; unfold setB; split <;> simp [h]
      · rcases List.mem_cons.1 h with rfl | h
        · left; simp [setB]
        · right; exact h

theorem syncH_apply {q : Bool → Nat → Option HuffTbl} {sent sent' : Bool → Nat → Bool} {m : Mem} : ∀ (ts : List (Bool × Nat × HuffTbl)),
    (∀ t ∈ ts, q t.1 t.2.1 = some t.2.2 ∧ HWf t.2.2) → SyncH q sent m →
    (∀ a n, sent' a n = true → sent a n = true ∨ (a, n) ∈ ts.map (fun t => (t.1, t.2.1))) →
    SyncH q sent' (apply (ts.flatMap (fun t => dhtW t.1 t.2.1 t.2.2)) m) := by
  intro ts
  induction ts generalizing sent m with
  | nil => intro _ hs h a n hn; exact hs a n ((h a n hn).resolve_right (by simp))
  | cons t ts ih =>
    intro hq hs h
    rw [List.flatMap_cons, apply_append]
    apply ih (sent := setH sent t.1 t.2.1) (fun x hx => hq x (by simp [hx]))
    · intro a n hn
      by_cases e : a = t.1 ∧ n = t.2.1
      · obtain ⟨rfl, rfl⟩ := e
        exact ⟨t.2.2, (hq t (by simp)).1, apply_dhtW _ _ (hq t (by simp)).2 _⟩
      · obtain ⟨v, e1, e2⟩ := hs a n (by simpa [setH, e] using hn)
        exact ⟨v, e1, e2.keep (fun x hx hc => e (isH_inj hc (dhtW_slots x hx)))⟩
    · intro a n hn
      rcases h a n hn with h | h
      · left; unfold setH; split <;> simp [h]
      · rcases List.mem_cons.1 h with h | h
        · left
          simp only [Prod.mk.injEq] at h
          simp [setH, h.1, h.2]
        · right; exact h

theorem dqt_off {ts : List (Nat × List Nat)} : ∀ x ∈ ts.flatMap (fun t => dqtW t.1 t.2), x.1.anyQ := by
  intro x hx
  obtain ⟨t, -, h⟩ := List.mem_flatMap.1 hx
  exact ⟨_, dqtW_slots x h⟩
theorem dht_off {ts : List (Bool × Nat × HuffTbl)} : ∀ x ∈ ts.flatMap (fun t => dhtW t.1 t.2.1 t.2.2), x.1.anyH := by
  intro x hx
  obtain ⟨t, -, h⟩ := List.mem_flatMap.1 hx
  exact ⟨_, _, dhtW_slots x h⟩

theorem sum_ge_length {α : Type} {f : α → Nat} : ∀ {l : List α}, (∀ x ∈ l, 1 ≤ f x) → l.length ≤ (l.map f).sum := by
  intro l
  induction l with
  | nil => simp
  | cons a l ih =>
    intro h
    have := ih (fun x hx => h x (by simp [hx]))
    have := h a (by simp)
    simp; omega

/-- One DQT segment with the tables `ts`. -/
theorem seg_dqt {proc : Nat → Proc} {m : Mem} (hr : Ready m) {ts : List (Nat × List Nat)} (hts : ∀ t ∈ ts, t.1 < 4 ∧ QWf t.2)
    {L : Nat} (hL : L = (ts.map (fun t => 64 * (dqtPrec t.2 + 1) + 1)).sum) (hlt : L + 2 < 65536) :
    Seg proc m (mark 0xDB ++ be2 (L + 2) ++ ts.flatMap (fun t => dqtBody t.1 t.2)) (apply (ts.flatMap (fun t => dqtW t.1 t.2)) m) := by
  rw [List.append_assoc]
  apply Seg.of_reads hr (q := fun _ => getDqt) (by decide) (by decide) (by decide) (by decide) (fun s => by unfold branch; simp)
  · unfold getDqt
    apply Reads.lenB hlt
    apply reads_dqtLoop ts _ _ hts
    · rw [← hL]; omega
    · have : ts.length ≤ (ts.map (fun t => 64 * (dqtPrec t.2 + 1) + 1)).sum := sum_ge_length (by intros; omega)
      omega
  · intro x hx
    have := anyQ_not (dqt_off x hx)
    exact ⟨this.2.1, this.2.2.1⟩

theorem seg_dht {proc : Nat → Proc} {m : Mem} (hr : Ready m) {ts : List (Bool × Nat × HuffTbl)} (hts : ∀ t ∈ ts, t.2.1 < 4 ∧ HWf t.2.2)
    {L : Nat} (hL : L = (ts.map (fun t => t.2.2.counts.sum + 16 + 1)).sum) (hlt : L + 2 < 65536) :
    Seg proc m (mark 0xC4 ++ be2 (L + 2) ++ ts.flatMap (fun t => dhtBody t.1 t.2.1 t.2.2))
      (apply (ts.flatMap (fun t => dhtW t.1 t.2.1 t.2.2)) m) := by
  rw [List.append_assoc]
  apply Seg.of_reads hr (q := fun _ => getDht) (by decide) (by decide) (by decide) (by decide) (fun s => by unfold branch; simp)
  · unfold getDht
    apply Reads.lenB hlt
    apply reads_dhtLoop ts _ _ hts
    · rw [← hL]; omega
    · have : ts.length ≤ (ts.map (fun t => t.2.2.counts.sum + 16 + 1)).sum := sum_ge_length (by intros; omega)
      omega
  · intro x hx
    have := anyH_not (dht_off x hx)
    exact ⟨this.2.1, this.2.2.1⟩

/-- Result of writing quantization tables: read back, all wanted tables known. -/
structure QDone (proc : Nat → Proc) (q : Nat → Option (List Nat)) (m : Mem) (b : List Nat) (sent' : Nat → Bool) (tqs : List Nat)
    (m' : Mem) : Prop where
  seg : Seg proc m b m'
  off : Off Slot.anyQ m m'
  sync : SyncQ q sent' m'
  all : ∀ n ∈ tqs, sent' n = true

theorem qDone_ready {proc q m b sent' tqs m'} (h : QDone proc q m b sent' tqs m') (hr : Ready m) : Ready m' :=
  h.off.ready (fun a => (anyQ_not a).2.1 rfl) (fun a => (anyQ_not a).2.2.1 rfl) (fun a => (anyQ_not a).2.2.2 rfl) hr

/-- The quantization tables are legal. -/
def QAll (q : Nat → Option (List Nat)) : Prop := ∀ n v, q n = some v → QWf v

theorem emitDqt_done {proc : Nat → Proc} {q : Nat → Option (List Nat)} {sent : Nat → Bool} {m : Mem} (hr : Ready m) (hq : QAll q)
    (hs : SyncQ q sent m) {n : Nat} (hn : n < 4) {p : Nat} {b : List Nat} {sent' : Nat → Bool} (h : emitDqt q sent n = some (p, b, sent')) :
    (∃ m', QDone proc q m b sent' [n] m') ∧ ∀ k, sent k = true → sent' k = true := by
  unfold emitDqt at h
  cases e : q n with
  | none => rw [e] at h; cases h
  | some v =>
    rw [e] at h
    simp only at h
    by_cases hc : sent n = true
    · rw [if_pos hc] at h
      cases h
      exact ⟨⟨m, Seg.nil, Off.refl _, hs, by simpa using hc⟩, fun _ h => h⟩
    · rw [if_neg hc] at h
      cases h
      have hv := hq n v e
      refine ⟨⟨apply (dqtW n v) m, ?_, ?_, ?_, ?_⟩, ?_⟩
      · have hp : dqtPrec v = 0 ∨ dqtPrec v = 1 := by unfold dqtPrec; split <;> simp
        have := seg_dqt (proc := proc) hr (ts := [(n, v)]) (L := 64 * (dqtPrec v + 1) + 1) (by simp [hn, hv]) (by simp) (by omega)
        simp only [List.flatMap_cons, List.flatMap_nil, List.append_nil] at this
        have e2 : (if dqtPrec v ≠ 0 then 64 * 2 + 1 + 2 else 64 + 1 + 2) = 64 * (dqtPrec v + 1) + 1 + 2 := by
          rcases hp with h | h <;> simp [h]
        rw [e2]
        exact this
      · exact Off.apply (fun x hx => ⟨_, dqtW_slots x hx⟩)
      · have := syncQ_apply (sent' := setB sent n) [(n, v)] (by simp [e]) hs (by
          intro k hk
          by_cases h : k = n
          · right; simp [h]
          · left; simpa [setB, h] using hk)
        simpa using this
      · simp [setB]
      · intro k hk; unfold setB; split <;> simp [hk]

theorem dqtEach_done {proc : Nat → Proc} {q : Nat → Option (List Nat)} (hq : QAll q) : ∀ (tqs : List Nat) (sent : Nat → Bool) (m : Mem),
    Ready m → SyncQ q sent m → (∀ n ∈ tqs, n < 4) → ∀ {p : Nat} {b : List Nat} {sent' : Nat → Bool},
    dqtEach q tqs sent = some (p, b, sent') → (∃ m', QDone proc q m b sent' tqs m') ∧ ∀ k, sent k = true → sent' k = true := by
  intro tqs
  induction tqs with
  | nil =>
    intro sent m hr hs _ p b sent' h
    simp only [dqtEach, Option.some.injEq, Prod.mk.injEq] at h
    obtain ⟨-, rfl, rfl⟩ := h
    exact ⟨⟨m, Seg.nil, Off.refl _, hs, by simp⟩, fun _ h => h⟩
  | cons n tqs ih =>
    intro sent m hr hs hn p b sent' h
    unfold dqtEach at h
    cases e1 : emitDqt q sent n with
    | none => rw [e1] at h; cases h
    | some r1 =>
      obtain ⟨p1, b1, s1⟩ := r1
      rw [e1] at h
      simp only at h
      cases e2 : dqtEach q tqs s1 with
      | none => rw [e2] at h; cases h
      | some r2 =>
        obtain ⟨p2, b2, s2⟩ := r2
        rw [e2] at h
        cases h
        obtain ⟨⟨m1, d1⟩, k1⟩ := emitDqt_done (proc := proc) hr hq hs (hn n (by simp)) e1
        obtain ⟨⟨m2, d2⟩, k2⟩ := ih s1 m1 (qDone_ready d1 hr) d1.sync (fun n h => hn n (by simp [h])) e2
        refine ⟨⟨m2, d1.seg.trans d2.seg, d1.off.trans d2.off, d2.sync, ?_⟩, fun k h => k2 k (k1 k h)⟩
        intro k hk
        rcases List.mem_cons.1 hk with rfl | hk
        · exact k2 _ (d1.all _ (by simp))
        · exact d2.all k hk

/-- The tables of a merged DQT segment. -/
def newQ (q : Nat → Option (List Nat)) : List Nat → (sent : Nat → Bool) → List (Nat × List Nat)
  | [], _ => []
  | n :: ns, sent => if sent n then newQ q ns sent else (n, (q n).getD []) :: newQ q ns (setB sent n)

theorem mdqtEmit_eq (q : Nat → Option (List Nat)) : ∀ (tqs : List Nat) (sent : Nat → Bool),
    (mdqtEmit q tqs sent).1 = (newQ q tqs sent).flatMap (fun t => dqtBody t.1 t.2) ∧
    (∀ n, (mdqtEmit q tqs sent).2 n = true ↔ sent n = true ∨ n ∈ tqs) ∧
    (∀ t ∈ newQ q tqs sent, t.1 ∈ tqs ∧ t.2 = (q t.1).getD []) ∧
    (∀ n ∈ tqs, sent n = true ∨ n ∈ (newQ q tqs sent).map (·.1)) := by
  intro tqs
  induction tqs with
  | nil => intro sent; simp [mdqtEmit, newQ]
  | cons n ns ih =>
    intro sent
    unfold mdqtEmit newQ
    by_cases h : sent n = true
    · rw [if_pos h, if_pos h]
      obtain ⟨a, b, c, d⟩ := ih sent
      refine ⟨a, ?_, fun t ht => ⟨List.mem_cons_of_mem _ (c t ht).1, (c t ht).2⟩, ?_⟩
      · intro k
        rw [b k, List.mem_cons]
        constructor
        · tauto
        · rintro (h' | rfl | h') <;> tauto
      · intro k hk
        rcases List.mem_cons.1 hk with rfl | hk
        · exact Or.inl h
        · exact d k hk
    · rw [if_neg h, if_neg h]
      obtain ⟨a, b, c, d⟩ := ih (setB sent n)
      refine ⟨?_, ?_, ?_, ?_⟩
      · simp only [List.flatMap_cons]; rw [a]
      · intro k
        simp only
        rw [b k, List.mem_cons]
        unfold setB
        by_cases e : k = n <;> simp [e]
      · intro t ht
        rcases List.mem_cons.1 ht with rfl | ht
        · exact ⟨by simp, rfl⟩
        · exact ⟨List.mem_cons_of_mem _ (c t ht).1, (c t ht).2⟩
      · intro k hk
        simp only [List.map_cons, List.mem_cons]
        rcases List.mem_cons.1 hk with rfl | hk
        · exact Or.inr (Or.inl rfl)
        · rcases d k hk with h' | h'
          · by_cases e : k = n
            · exact Or.inr (Or.inl e)
            · left; simpa [setB, e] using h'
          · exact Or.inr (Or.inr h')

theorem mdqtSize_eq (q : Nat → Option (List Nat)) : ∀ (tqs : List Nat) (seen sent : Nat → Bool), (∀ n ∈ tqs, seen n = sent n) →
    mdqtSize q tqs seen = ((newQ q tqs sent).map (fun t => 64 * (dqtPrec t.2 + 1) + 1)).sum := by
  intro tqs
  induction tqs with
  | nil => intros; rfl
  | cons n ns ih =>
    intro seen sent h
    unfold mdqtSize newQ
    have hn := h n (by simp)
    by_cases hs : sent n = true
    · rw [if_pos hs, if_pos (by rw [hn]; exact hs), Nat.zero_add]
      apply ih
      intro k hk
      unfold setB
      split
      · rename_i e; subst e; exact hs.symm
      · exact h k (by simp [hk])
    · rw [if_neg hs, if_neg (by rw [hn]; exact hs), List.map_cons, List.sum_cons]
      congr 1
      apply ih
      intro k hk
      unfold setB
      split
      · rfl
      · exact h k (by simp [hk])

theorem newQ_length (q : Nat → Option (List Nat)) : ∀ (tqs : List Nat) (sent : Nat → Bool), (newQ q tqs sent).length ≤ tqs.length := by
  intro tqs
  induction tqs with
  | nil => intro sent; simp [newQ]
  | cons n ns ih =>
    intro sent
    unfold newQ
    split
    · have := ih sent; simp; omega
    · have := ih (setB sent n); simp; omega

theorem sum_le_mul {α : Type} {f : α → Nat} {b : Nat} : ∀ {l : List α}, (∀ x ∈ l, f x ≤ b) → (l.map f).sum ≤ b * l.length := by
  intro l
  induction l with
  | nil => simp
  | cons a l ih =>
    intro h
    have h1 := ih (fun x hx => h x (by simp [hx]))
    have h2 := h a (by simp)
    simp only [List.map_cons, List.sum_cons, List.length_cons, Nat.mul_succ]
    omega

theorem multiDqt_done {proc : Nat → Proc} {q : Nat → Option (List Nat)} (hq : QAll q) {tqs : List Nat} {fastest : Bool} {sent : Nat → Bool}
    {m : Mem} (hr : Ready m) (hs : SyncQ q sent m) (hn : ∀ n ∈ tqs, n < 4) (hl : tqs.length ≤ 10) {p : Nat} {b : List Nat}
    {sent' : Nat → Bool} (h : multiDqt fastest q sent tqs = some (p, b, sent')) : (∃ m', QDone proc q m b sent' tqs m') ∧
      p = (tqs.map (fun n => dqtPrec ((q n).getD []))).sum := by
  unfold multiDqt at h
  by_cases hf : fastest = true
  · rw [if_pos hf] at h; cases h
  rw [if_neg hf] at h
  by_cases ha : tqs.any (fun n => (q n).isNone || sent n) = true
  · rw [if_pos ha] at h; cases h
  rw [if_neg ha] at h
  simp only [Option.some.injEq, Prod.mk.injEq] at h
  obtain ⟨rfl, rfl, rfl⟩ := h
  simp only [List.any_eq_true, Bool.or_eq_true, Option.isNone_iff_eq_none, not_exists, not_and, not_or] at ha
  obtain ⟨e1, e2, e3, e4⟩ := mdqtEmit_eq q tqs sent
  have hsz := mdqtSize_eq q tqs (fun _ => false) sent (fun n h => by have := (ha n h).2; simp at this; simp [this])
  have hsome : ∀ t ∈ newQ q tqs sent, q t.1 = some t.2 := by
    intro t ht
    obtain ⟨h1, h2⟩ := e3 t ht
    cases e : q t.1 with
    | none => exact absurd e (ha t.1 h1).1
    | some v => rw [h2, e]; rfl
  refine ⟨⟨apply ((newQ q tqs sent).flatMap (fun t => dqtW t.1 t.2)) m, ?_, ?_, ?_, ?_⟩, rfl⟩
  · rw [e1]
    apply seg_dqt hr (fun t ht => ⟨hn _ (e3 t ht).1, hq _ _ (hsome t ht)⟩) hsz
    rw [hsz]
    have : ((newQ q tqs sent).map (fun t => 64 * (dqtPrec t.2 + 1) + 1)).sum ≤ 129 * (newQ q tqs sent).length := by
      apply sum_le_mul
      intro t _
      have hp : dqtPrec t.2 = 0 ∨ dqtPrec t.2 = 1 := by unfold dqtPrec; split <;> simp
      omega
    have := newQ_length q tqs sent
    omega
  · exact Off.apply dqt_off
  · apply syncQ_apply _ hsome hs
    intro n hn'
    rcases (e2 n).1 hn' with h | h
    · exact Or.inl h
    · exact e4 n h
  · intro n h; exact (e2 n).2 (Or.inr h)

end Verif.Mark
