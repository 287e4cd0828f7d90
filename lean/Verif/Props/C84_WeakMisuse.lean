import Verif.Lemmas.WeakMisuse
import Verif.Props.C78_WeakSeveral

/-!
# C84: with assertions, appending more than fits is stopped
-/

namespace Vecmem.Props

variable {w : Nat} {I : WImpl w} {m : AMem w} {V : WVec} {tasks : Nat → WTask w} {s : WRun w}

theorem reach_correct (hI : I = posixWeak ∨ I = cudaWeak ∨ I = syclWeak ∨ I = syclBuiltinWeak) {progs : Nat → WProg w} (h : WRun.Reach I m progs s) {e : WEvent w}
    (he : e ∈ s.sys.trace) : e.Correct := by
  obtain ⟨k, hk⟩ := List.getElem?_of_mem he
  obtain ⟨code, hc, hd⟩ := h.sys.values.did k e hk
  exact correct_of_did hI hc hd

theorem oneByOne_single {t : WTask w} (h : t.OneByOne) : t.Calls fun c => c.single = true := by
  induction t with
  | done => trivial
  | access a c next ih => exact fun r => ih r (h r)
  | append c next ih =>
    refine ⟨?_, fun i => ih i (h.2 i)⟩
    rcases h.1 with ⟨x, rfl⟩ | ⟨a, b, rfl⟩ <;> rfl

/-- Where a write to an element comes from, with assertions: a claim by the same thread, which was checked. -/
theorem write_checked (hI : I = posixWeak ∨ I = cudaWeak ∨ I = syclWeak ∨ I = syclBuiltinWeak)
    (h : WRun.Reach I m (fun i => (tasks i).code V) s) (hv : V.Valid w) (hp : ∀ i, (tasks i).Polite V) (hd : V.dbg = true) {Q : WAppend w → Prop} (hq : ∀ i, (tasks i).Calls Q)
    {k u p : Nat} {x : BitVec w} (hw : s.sys.trace.Writes k (V.cell u p) x) :
    ∃ (q : Nat) (e : WEvent w) (c : WAppend w) (j : Nat), q < k ∧ s.sys.trace[q]? = some e ∧ s.sys.trace.By e.thread k ∧ IsClaim V c e ∧ c.Fine ∧ Q c ∧ c.check V.cap e.index = true ∧
      j < c.count ∧ p = (e.index + j) % 2 ^ w := by
  obtain ⟨f, t, hk, ha, hw⟩ := hw
  obtain ⟨pos, hpos⟩ := Appending.position hk
  rcases access_at _ (h.after f.thread) (hp _) (hq _) pos _ hpos with h1 | ⟨c, -, -, h1, -⟩ | ⟨pos₀, y, c, st, h1, h2, h3, h4, h5, h6, h7, h8⟩
  · rw [Appending.wrote_none (reach_correct hI h (List.mem_of_getElem? hk)) (h1 (.inr ⟨_, _, ha⟩))] at hw
    cases hw
  · exact absurd (ha.symm.trans h1.1) (hv.size _ _)
  · have hy := mem_own.1 (List.mem_of_getElem? h2)
    refine ⟨y.2, y.1, c, st.2.1, ?_, hy.1, ⟨f, hk, hy.2.symm⟩, h3, h4, h5, h8 hd, h4.2.2 st h6, (hv.cells _ _ _ _ (ha.symm.trans h7.1)).2⟩
    have hs := List.pairwise_iff_getElem.1 (own_sorted s.sys.trace f.thread)
    obtain ⟨l1, e1⟩ := List.getElem?_eq_some_iff.1 h2
    obtain ⟨l2, e2⟩ := List.getElem?_eq_some_iff.1 hpos
    have := hs pos₀ pos l1 l2 h1
    rwa [e1, e2] at this

/-- C84: with assertions, threads that append elements one by one, however many, write no element outside of the vector. -/
theorem c84_pushes_contained (hI : I = posixWeak ∨ I = cudaWeak ∨ I = syclWeak ∨ I = syclBuiltinWeak)
    (h : WRun.Reach I m (fun i => (tasks i).code V) s) (hv : V.Valid w) (hp : ∀ i, (tasks i).Polite V) (hd : V.dbg = true) (hq : ∀ i, (tasks i).OneByOne)
    (k u p : Nat) (x : BitVec w) (hw : s.sys.trace.Writes k (V.cell u p) x) : p < V.cap := by
  obtain ⟨q, e, c, j, -, -, -, -, h1, h2, h3, h4, rfl⟩ := write_checked hI h hv hp hd (fun i => oneByOne_single (hq i)) hw
  have := WAppend.check_le h3 h1 (.inl h2)
  exact Nat.lt_of_le_of_lt (Nat.mod_le _ _) (by omega)

/-- An access that changes the size is a claim. -/
theorem reach_adds (hI : I = posixWeak ∨ I = cudaWeak ∨ I = syclWeak ∨ I = syclBuiltinWeak)
    (h : WRun.Reach I m (fun i => (tasks i).code V) s) (hv : V.Valid w) (hp : ∀ i, (tasks i).Polite V) : Adds m V.size s.sys.trace := by
  refine ⟨h.sys.values.writes, fun e he => reach_correct hI h he, fun e he ha hw => ?_⟩
  obtain ⟨k, hk⟩ := List.getElem?_of_mem he
  obtain ⟨pos, hpos⟩ := Appending.position hk
  rcases access_at _ (h.after e.thread) (hp _) (WTask.calls_true _) pos _ hpos with h1 | ⟨c, -, -, h1, -⟩ | ⟨_, _, _, st, -, -, -, -, -, -, h1, -⟩
  · rw [Appending.wrote_none (reach_correct hI h he) (h1 (.inl ha))] at hw
    cases hw
  · exact ⟨_, _, h1.2⟩
  · exact absurd (h1.1.symm.trans ha) (hv.size _ _)

/-- The places that a claim claims, if the size does not wrap. -/
theorem claim_place (hI : I = posixWeak ∨ I = cudaWeak ∨ I = syclWeak ∨ I = syclBuiltinWeak)
    (h : WRun.Reach I m (fun i => (tasks i).code V) s) (hv : V.Valid w) (hp : ∀ i, (tasks i).Polite V) (nowrap : (m V.size).toNat + s.sys.trace.claimed V.size < 2 ^ w)
    {q : Nat} {e : WEvent w} (hq : s.sys.trace[q]? = some e) {v n : Nat} (hc : e.Claims V.size v n) :
    v = (m V.size).toNat + WTrace.claimed V.size (s.sys.trace.take q) ∧ v + n = (m V.size).toNat + WTrace.claimed V.size (s.sys.trace.take (q + 1)) := by
  have ha := reach_adds hI h hv hp
  obtain ⟨h1, x, o, t, y, h2, rfl, h3, rfl⟩ := hc
  have hch := ha.fetchAdd_changes (List.mem_of_getElem? hq) h1 h2
  obtain ⟨-, x', o', t', y', h2', h3', -, hn⟩ := ha.spec hq hch
  rw [h2] at h2'
  cases h2'
  have hy := (ha.reads q e t y hq hch h3).2
  have h4 := claimed_take_le (a := V.size) s.sys.trace q
  have e1 : y.toNat = (m V.size).toNat + WTrace.claimed V.size (s.sys.trace.take q) := by
    rw [hy, BitVec.toNat_add, BitVec.toNat_ofNat, Nat.add_mod_mod, Nat.mod_eq_of_lt (by omega)]
  refine ⟨e1, ?_⟩
  rw [claimed_take_succ hq, hn, e1]
  omega

/-- C84, for sizes that do not wrap: with assertions, a write to an element is by a thread that has got its place, which is behind the old elements and within the vector; no two calls get the same
place. -/
theorem c84_contained_partial (hI : I = posixWeak ∨ I = cudaWeak ∨ I = syclWeak ∨ I = syclBuiltinWeak)
    (h : WRun.Reach I m (fun i => (tasks i).code V) s) (hv : V.Valid w) (hp : ∀ i, (tasks i).Polite V) (hd : V.dbg = true)
    (nowrap : (m V.size).toNat + s.sys.trace.claimed V.size < 2 ^ w) :
    (∀ (k u p : Nat) (x : BitVec w), s.sys.trace.Writes k (V.cell u p) x → ∃ (q : Nat) (e : WEvent w) (a n : Nat), q < k ∧ s.sys.trace[q]? = some e ∧ s.sys.trace.By e.thread k ∧
      e.Claims V.size a n ∧ (m V.size).toNat ≤ a ∧ a ≤ p ∧ p < a + n ∧ a + n ≤ V.cap) ∧
    ∀ (q q' : Nat) (e e' : WEvent w) (v n v' n' : Nat), s.sys.trace[q]? = some e → s.sys.trace[q']? = some e' → e.Claims V.size v n → e'.Claims V.size v' n' → q ≠ q' →
      v + n ≤ v' ∨ v' + n' ≤ v := by
  have place := fun {q : Nat} {e : WEvent w} (hq : s.sys.trace[q]? = some e) {v n : Nat} (hc : e.Claims V.size v n) => claim_place hI h hv hp nowrap hq hc
  constructor
  · intro k u p x hw
    obtain ⟨q, e, c, j, h0, h1, h2, h3, h4, -, h5, h6, rfl⟩ := write_checked hI h hv hp hd (fun i => WTask.calls_true (tasks i)) hw
    have hc := h3.claims h4 (reach_correct hI h (List.mem_of_getElem? h1))
    obtain ⟨p1, p2⟩ := place h1 hc
    have p3 := claimed_take_le (a := V.size) s.sys.trace (q + 1)
    rw [Nat.mod_eq_of_lt (by omega)]
    exact ⟨q, e, _, _, h0, h1, h2, hc, by omega, by omega, by omega, WAppend.check_le h5 h4 (.inr (by omega))⟩
  · intro q q' e e' v n v' n' h1 h2 h3 h4 hne
    obtain ⟨p1, p2⟩ := place h1 h3
    obtain ⟨p1', p2'⟩ := place h2 h4
    rcases Nat.lt_or_gt_of_ne hne with hlt | hlt
    · have := claimed_mono (a := V.size) s.sys.trace (Nat.succ_le_of_lt hlt)
      simp only [Nat.succ_eq_add_one] at this
      exact .inl (by omega)
    · have := claimed_mono (a := V.size) s.sys.trace (Nat.succ_le_of_lt hlt)
      simp only [Nat.succ_eq_add_one] at this
      exact .inr (by omega)

/-- C84: with assertions, a call that gets places which are not all within the vector does not return, and its thread makes no more accesses: if it is to append one element, or if the sum of the old size
and its count does not wrap. -/
theorem c84_caught_partial (hI : I = posixWeak ∨ I = cudaWeak ∨ I = syclWeak ∨ I = syclBuiltinWeak)
    (h : WRun.Reach I m (fun i => (tasks i).code V) s) (hv : V.Valid w) (hp : ∀ i, (tasks i).Polite V) (hd : V.dbg = true)
    (q v n : Nat) (e : WEvent w) (hq : s.sys.trace[q]? = some e) (hc : e.Claims V.size v n) (hover : V.cap < v + n) (nowrap : v + n < 2 ^ w ∨ (tasks e.thread).OneByOne) :
    s.prog e.thread = .failed ∧ ∀ q', s.sys.trace.By e.thread q' → q' ≤ q := by
  have hcor := reach_correct hI h (List.mem_of_getElem? hq)
  obtain ⟨pos, hpos⟩ := Appending.position hq
  have key : ∀ {Q : WAppend w → Prop}, (tasks e.thread).Calls Q → (∀ c, Q c → c.single = true ∨ v + n < 2 ^ w) →
      s.prog e.thread = .failed ∧ pos + 1 = (s.sys.trace.own e.thread).length := fun hQ hs => by
    rcases access_at _ (h.after e.thread) (hp _) hQ pos _ hpos with h1 | ⟨c, h1, h2, h3, h4⟩ | ⟨_, _, _, st, -, -, -, -, -, -, h1, -⟩
    · obtain ⟨ha, x, o, t, y, h2, -⟩ := hc
      rcases h1 (.inl ha) with h1 | ⟨o, h1⟩ <;> rw [h2] at h1 <;> cases h1
    · obtain ⟨e1, e2⟩ := Appending.claims_unique hc (h3.claims h1 hcor)
      rcases h4 with h4 | h4 | h4
      · have := WAppend.check_le h4 h1 (by rw [← e1, ← e2]; exact hs c h2)
        change e.index + c.count ≤ V.cap at this
        change v = e.index at e1
        omega
      · rw [hd] at h4; cases h4
      · exact h4
    · exact absurd (h1.1.symm.trans hc.1) (hv.size _ _)
  have hend : s.prog e.thread = .failed ∧ pos + 1 = (s.sys.trace.own e.thread).length := by
    rcases nowrap with hn | hn
    · exact key (WTask.calls_true _) fun _ _ => .inr hn
    · exact key (oneByOne_single hn) fun _ h => .inl h
  refine ⟨hend.1, fun q' ⟨f, hf, hth⟩ => ?_⟩
  obtain ⟨pos', hpos'⟩ := Appending.position hf
  rw [hth] at hpos'
  obtain ⟨l1, e1⟩ := List.getElem?_eq_some_iff.1 hpos
  obtain ⟨l2, e2⟩ := List.getElem?_eq_some_iff.1 hpos'
  rcases Nat.lt_or_ge pos' pos with hlt | hge
  · have := List.pairwise_iff_getElem.1 (own_sorted s.sys.trace e.thread) pos' pos l2 l1 hlt
    rw [e1, e2] at this
    exact Nat.le_of_lt this
  · have : pos' = pos := by omega
    subst this
    rw [e1] at e2
    cases e2
    exact Nat.le_refl _

/-- C84, for sizes that do not wrap: with assertions, a thread is stopped if and only if more was to be appended, by now, than fits. -/
theorem c84_stopped_partial (hI : I = posixWeak ∨ I = cudaWeak ∨ I = syclWeak ∨ I = syclBuiltinWeak)
    (h : WRun.Reach I m (fun i => (tasks i).code V) s) (hv : V.Valid w) (hp : ∀ i, (tasks i).Polite V) (hd : V.dbg = true)
    (nowrap : (m V.size).toNat + s.sys.trace.claimed V.size < 2 ^ w) (start : (m V.size).toNat ≤ V.cap) :
    (∃ i, s.prog i = .failed) ↔ V.cap < (m V.size).toNat + s.sys.trace.claimed V.size := by
  constructor
  · rintro ⟨i, hi⟩
    by_contra hn
    exact (c76_complete hI h hv hp (by omega) i).1 hi
  · intro hover
    -- the call that went beyond the capacity
    obtain ⟨q, h1, h2⟩ : ∃ q, (m V.size).toNat + WTrace.claimed V.size (s.sys.trace.take q) ≤ V.cap ∧ V.cap < (m V.size).toNat + WTrace.claimed V.size (s.sys.trace.take (q + 1)) := by
      by_contra hno
      have : ∀ q, (m V.size).toNat + WTrace.claimed V.size (s.sys.trace.take q) ≤ V.cap := fun q => by
        induction q with
        | zero => simpa [WTrace.claimed] using start
        | succ q ih =>
          by_contra hgt
          exact hno ⟨q, ih, by omega⟩
      have := this s.sys.trace.length
      rw [List.take_length] at this
      omega
    cases he : s.sys.trace[q]? with
    | none => rw [take_of_none he] at h2; omega
    | some e =>
      have ha := reach_adds hI h hv hp
      have hch : e.changes V.size = true := by
        by_contra hn
        simp only [Bool.not_eq_true] at hn
        rw [claimed_take_succ he, ha.claimed_zero (List.mem_of_getElem? he) hn] at h2
        omega
      obtain ⟨g1, x, o, t, y, g2, g3, -, -⟩ := ha.spec he hch
      have hc : e.Claims V.size y.toNat x.toNat := ⟨g1, x, o, t, y, g2, rfl, g3, rfl⟩
      obtain ⟨p1, p2⟩ := claim_place hI h hv hp nowrap he hc
      have p3 := claimed_take_le (a := V.size) s.sys.trace (q + 1)
      exact ⟨_, (c84_caught_partial hI h hv hp hd q _ _ e he hc (by omega) (.inl (by omega))).1⟩

/-- C84, for sizes that do not wrap: with assertions, whatever other threads append, and also if they are stopped, all that a thread that has come to its end was to append is there in the end, and the old
elements are as they were.  (Without assertions, what is written outside of the vector may be another part of it.) -/
theorem c84_others_unharmed_partial (hI : I = posixWeak ∨ I = cudaWeak ∨ I = syclWeak ∨ I = syclBuiltinWeak)
    (h : WRun.Reach I m (fun i => (tasks i).code V) s) (hv : V.Valid w) (hp : ∀ i, (tasks i).Polite V) (_hd : V.dbg = true)
    (nowrap : (m V.size).toNat + s.sys.trace.claimed V.size < 2 ^ w) :
    (∀ i, s.prog i = .done → (tasks i).Left V m (s.sys.trace.Final m) (s.sys.trace.of i)) ∧
    ∀ u p, p < (m V.size).toNat → s.sys.trace.Final m (V.cell u p) (m (V.cell u p)) := by
  have hh := fun i => (hist_of_after V _ (h.after i)).wide
  have ha : Appending (V.wide w) m tasks s.sys.trace fun i => (hh i).choose :=
    ⟨⟨hv.cells, hv.size, Nat.sub_lt (Nat.two_pow_pos w) Nat.one_pos⟩, fun i => (hp i).wide, fun e he => reach_correct hI h he, h.sys.values.writes, fun i => (hh i).choose_spec.1,
      Nat.le_sub_one_of_lt nowrap⟩
  exact ⟨fun i hi => (ha.left (h.sys.ordered (fun _ _ _ h => h.elim) (fun _ _ _ h => h.elim)) ((hh i).choose_spec.2 hi)).of_wide, fun u p hlt => ha.final_old (.inl hlt)⟩

/-! ## several vectors, or rows of a jagged vector -/

section

variable {V : Nat → WVec} {tasks : Nat → MTask w}

theorem several_oneByOne_single {t : MTask w} (h : t.OneByOne) : t.Calls fun c => c.single = true := by
  induction t with
  | done => trivial
  | access a c next ih => exact fun r => ih r (h r)
  | append k c next ih =>
    refine ⟨?_, fun i => ih i (h.2 i)⟩
    rcases h.1 with ⟨x, rfl⟩ | ⟨a, b, rfl⟩ <;> rfl

/-- As `write_checked`. -/
theorem several_write_checked (hI : I = posixWeak ∨ I = cudaWeak ∨ I = syclWeak ∨ I = syclBuiltinWeak)
    (h : WRun.Reach I m (fun i => (tasks i).code V) s) (hv : ∀ k, (V k).Valid w) (ha : Apart V) (hp : ∀ i, (tasks i).Polite V) {r : Nat} (hd : (V r).dbg = true) {Q : WAppend w → Prop}
    (hq : ∀ i, (tasks i).Calls Q) {k u p : Nat} {x : BitVec w} (hw : s.sys.trace.Writes k ((V r).cell u p) x) :
    ∃ (q : Nat) (e : WEvent w) (c : WAppend w) (j : Nat), q < k ∧ s.sys.trace[q]? = some e ∧ s.sys.trace.By e.thread k ∧ IsClaim (V r) c e ∧ c.Fine ∧ Q c ∧
      c.check (V r).cap e.index = true ∧ j < c.count ∧ p = (e.index + j) % 2 ^ w := by
  obtain ⟨f, t, hk, hadr, hw⟩ := hw
  obtain ⟨pos, hpos⟩ := Appending.position hk
  rcases accesses_at _ (h.after f.thread) (hp _) (hq _) pos _ hpos with h1 | ⟨r', c, -, -, h1, -⟩ | ⟨pos₀, y, r', c, st, h1, h2, h3, h4, h5, h6, h7, h8⟩
  · rw [Appending.wrote_none (reach_correct hI h (List.mem_of_getElem? hk)) (h1 r (.inr ⟨_, _, hadr⟩))] at hw
    cases hw
  · by_cases hr : r = r'
    · subst hr
      exact absurd (hadr.symm.trans h1.1) ((hv r).size _ _)
    · exact absurd (.inl h1.1) (ha r r' hr _ (.inr ⟨_, _, hadr⟩))
  · have hr : r = r' := by
      by_contra hr
      exact ha r r' hr _ (.inr ⟨_, _, hadr⟩) (.inr ⟨_, _, h7.1⟩)
    subst hr
    have hy := mem_own.1 (List.mem_of_getElem? h2)
    refine ⟨y.2, y.1, c, st.2.1, ?_, hy.1, ⟨f, hk, hy.2.symm⟩, h3, h4, h5, h8 hd, h4.2.2 st h6, ((hv r).cells _ _ _ _ (hadr.symm.trans h7.1)).2⟩
    have hs := List.pairwise_iff_getElem.1 (own_sorted s.sys.trace f.thread)
    obtain ⟨l1, e1⟩ := List.getElem?_eq_some_iff.1 h2
    obtain ⟨l2, e2⟩ := List.getElem?_eq_some_iff.1 hpos
    have := hs pos₀ pos l1 l2 h1
    rwa [e1, e2] at this

/-- C84: the same for threads that append to several vectors, or to rows of a jagged vector, one by one: no element is written outside of its vector. -/
theorem c84_rows_pushes_contained (hI : I = posixWeak ∨ I = cudaWeak ∨ I = syclWeak ∨ I = syclBuiltinWeak)
    (h : WRun.Reach I m (fun i => (tasks i).code V) s) (hv : ∀ k, (V k).Valid w) (ha : Apart V) (hp : ∀ i, (tasks i).Polite V) (r : Nat) (hd : (V r).dbg = true)
    (hq : ∀ i, (tasks i).OneByOne) (k u p : Nat) (x : BitVec w) (hw : s.sys.trace.Writes k ((V r).cell u p) x) : p < (V r).cap := by
  obtain ⟨q, e, c, j, -, -, -, -, h1, h2, h3, h4, rfl⟩ := several_write_checked hI h hv ha hp hd (fun i => several_oneByOne_single (hq i)) hw
  have := WAppend.check_le h3 h1 (.inl h2)
  exact Nat.lt_of_le_of_lt (Nat.mod_le _ _) (by omega)

/-- As `claim_place`. -/
theorem several_claim_place (hI : I = posixWeak ∨ I = cudaWeak ∨ I = syclWeak ∨ I = syclBuiltinWeak)
    (h : WRun.Reach I m (fun i => (tasks i).code V) s) (hv : ∀ k, (V k).Valid w) (ha : Apart V) (hp : ∀ i, (tasks i).Polite V) {r : Nat}
    (nowrap : (m (V r).size).toNat + s.sys.trace.claimed (V r).size < 2 ^ w) {q : Nat} {e : WEvent w} (hq : s.sys.trace[q]? = some e) {v n : Nat} (hc : e.Claims (V r).size v n) :
    v = (m (V r).size).toNat + WTrace.claimed (V r).size (s.sys.trace.take q) ∧ v + n = (m (V r).size).toNat + WTrace.claimed (V r).size (s.sys.trace.take (q + 1)) := by
  obtain ⟨tasks', prog', h1, h2⟩ := c78_each h ha hp r
  exact claim_place (V := { V r with dbg := false }) hI h2 ⟨(hv r).cells, (hv r).size, (hv r).cap⟩ h1 nowrap hq hc

/-- C84, the same for several vectors: with assertions, a write to an element of a vector whose size does not wrap is by a thread that has got its place, which is behind the old elements and within the
vector; no two calls get the same place. -/
theorem c84_rows_contained_partial (hI : I = posixWeak ∨ I = cudaWeak ∨ I = syclWeak ∨ I = syclBuiltinWeak)
    (h : WRun.Reach I m (fun i => (tasks i).code V) s) (hv : ∀ k, (V k).Valid w) (ha : Apart V) (hp : ∀ i, (tasks i).Polite V) (r : Nat) (hd : (V r).dbg = true)
    (nowrap : (m (V r).size).toNat + s.sys.trace.claimed (V r).size < 2 ^ w) :
    (∀ (k u p : Nat) (x : BitVec w), s.sys.trace.Writes k ((V r).cell u p) x → ∃ (q : Nat) (e : WEvent w) (a n : Nat), q < k ∧ s.sys.trace[q]? = some e ∧ s.sys.trace.By e.thread k ∧
      e.Claims (V r).size a n ∧ (m (V r).size).toNat ≤ a ∧ a ≤ p ∧ p < a + n ∧ a + n ≤ (V r).cap) ∧
    ∀ (q q' : Nat) (e e' : WEvent w) (v n v' n' : Nat), s.sys.trace[q]? = some e → s.sys.trace[q']? = some e' → e.Claims (V r).size v n → e'.Claims (V r).size v' n' → q ≠ q' →
      v + n ≤ v' ∨ v' + n' ≤ v := by
  have place := fun {q : Nat} {e : WEvent w} (hq : s.sys.trace[q]? = some e) {v n : Nat} (hc : e.Claims (V r).size v n) => several_claim_place hI h hv ha hp nowrap hq hc
  constructor
  · intro k u p x hw
    obtain ⟨q, e, c, j, h0, h1, h2, h3, h4, -, h5, h6, rfl⟩ := several_write_checked hI h hv ha hp hd (fun i => MTask.calls_true (tasks i)) hw
    have hc := h3.claims h4 (reach_correct hI h (List.mem_of_getElem? h1))
    obtain ⟨p1, p2⟩ := place h1 hc
    have p3 := claimed_take_le (a := (V r).size) s.sys.trace (q + 1)
    rw [Nat.mod_eq_of_lt (by omega)]
    exact ⟨q, e, _, _, h0, h1, h2, hc, by omega, by omega, by omega, WAppend.check_le h5 h4 (.inr (by omega))⟩
  · intro q q' e e' v n v' n' h1 h2 h3 h4 hne
    obtain ⟨p1, p2⟩ := place h1 h3
    obtain ⟨p1', p2'⟩ := place h2 h4
    rcases Nat.lt_or_gt_of_ne hne with hlt | hlt
    · have := claimed_mono (a := (V r).size) s.sys.trace (Nat.succ_le_of_lt hlt)
      simp only [Nat.succ_eq_add_one] at this
      exact .inl (by omega)
    · have := claimed_mono (a := (V r).size) s.sys.trace (Nat.succ_le_of_lt hlt)
      simp only [Nat.succ_eq_add_one] at this
      exact .inr (by omega)

/-- C84, the same for several vectors: with assertions, a call that gets places which are not all within its vector does not return. -/
theorem c84_rows_caught_partial (hI : I = posixWeak ∨ I = cudaWeak ∨ I = syclWeak ∨ I = syclBuiltinWeak)
    (h : WRun.Reach I m (fun i => (tasks i).code V) s) (hv : ∀ k, (V k).Valid w) (ha : Apart V) (hp : ∀ i, (tasks i).Polite V) (r : Nat) (hd : (V r).dbg = true)
    (q v n : Nat) (e : WEvent w) (hq : s.sys.trace[q]? = some e) (hc : e.Claims (V r).size v n) (hover : (V r).cap < v + n) (nowrap : v + n < 2 ^ w ∨ (tasks e.thread).OneByOne) :
    s.prog e.thread = .failed := by
  have hcor := reach_correct hI h (List.mem_of_getElem? hq)
  obtain ⟨pos, hpos⟩ := Appending.position hq
  have key : ∀ {Q : WAppend w → Prop}, (tasks e.thread).Calls Q → (∀ c, Q c → c.single = true ∨ v + n < 2 ^ w) → s.prog e.thread = .failed := fun hQ hs => by
    rcases accesses_at _ (h.after e.thread) (hp _) hQ pos _ hpos with h1 | ⟨r', c, h1, h2, h3, h4⟩ | ⟨_, _, r', _, st, -, -, -, -, -, -, h1, -⟩
    · obtain ⟨ha, x, o, t, y, h2, -⟩ := hc
      rcases h1 r (.inl ha) with h1 | ⟨o, h1⟩ <;> rw [h2] at h1 <;> cases h1
    · have hr : r = r' := by
        by_contra hr
        exact ha r r' hr _ (.inl hc.1) (.inl h3.1)
      subst hr
      obtain ⟨e1, e2⟩ := Appending.claims_unique hc (h3.claims h1 hcor)
      rcases h4 with h4 | h4 | h4
      · have := WAppend.check_le h4 h1 (by rw [← e1, ← e2]; exact hs c h2)
        change e.index + c.count ≤ (V r).cap at this
        change v = e.index at e1
        omega
      · rw [hd] at h4; cases h4
      · exact h4.1
    · by_cases hr : r = r'
      · subst hr
        exact absurd (h1.1.symm.trans hc.1) ((hv r).size _ _)
      · exact absurd (.inr ⟨_, _, h1.1⟩) (ha r r' hr _ (.inl hc.1))
  rcases nowrap with hn | hn
  · exact key (MTask.calls_true _) fun _ _ => .inr hn
  · exact key (several_oneByOne_single hn) fun _ h => .inl h

end

/-! ## executions -/

theorem examplePushes_polite (V : WVec) (i : Nat) : (WTask.pushAll (examplePushes i)).Polite V := pushAll_polite _ (by decide) _

theorem pushAll_oneByOne : ∀ l : List (BitVec w), (WTask.pushAll l).OneByOne
  | [] => trivial
  | x :: l => ⟨.inl ⟨x, rfl⟩, fun _ => pushAll_oneByOne l⟩

/-- The hypotheses are met with CUDA references: two threads push to a vector with room for one more element; that of thread 0 is written, thread 1 is stopped. -/
example : ∃ s : WRun 8, WRun.Reach cudaWeak (fun a => if a = 0 then 3 else 0) (fun i => (WTask.pushAll (examplePushes i)).code exampleVector) s ∧
    s.sys.trace = [⟨0, 0, .atomic (.fetchAdd 1) none, some (0, 3), some (1, 4)⟩, ⟨1, 0, .atomic (.fetchAdd 1) none, some (1, 4), some (2, 5)⟩,
      ⟨0, 10, .write 7, none, some (1, 7)⟩] ∧
    3 + s.sys.trace.claimed exampleVector.size < 2 ^ 8 ∧ exampleVector.cap < 3 + s.sys.trace.claimed exampleVector.size ∧ s.prog 0 = .done ∧ s.prog 1 = .failed ∧
    (∀ i, (WTask.pushAll (examplePushes i)).Polite exampleVector) ∧ ∀ i, (WTask.pushAll (examplePushes i)).OneByOne := by
  have r := WRun.Reach.start (I := cudaWeak) (m := fun a => if a = 0 then (3 : BitVec 8) else 0)
    (progs := fun i => (WTask.pushAll (examplePushes i)).code exampleVector)
  have r := r.call 0 0 (.atomic (.fetchAdd 1) none) _ rfl rfl rfl
  have r := r.step (.access _ _ _ _ (.update _ 0 0 0 _ _ _ _ _ _ _ 4 rfl rfl (by decide) rfl rfl rfl) rfl rfl)
  have r := r.call 1 0 (.atomic (.fetchAdd 1) none) _ rfl rfl rfl
  have r := r.step (.access _ _ _ _ (.update _ 1 0 1 _ _ _ _ _ _ _ 5 rfl rfl (by decide) rfl rfl rfl) rfl rfl)
  have r := r.call 0 10 (.write 7) _ rfl rfl rfl
  have r := r.step (.access _ _ _ _ (.plainStore _ 0 10 1 (.write 7) _ 7 rfl rfl (by decide) rfl) rfl rfl)
  exact ⟨_, r, rfl, by decide, by decide, rfl, rfl, examplePushes_polite _, fun _ => pushAll_oneByOne _⟩

/-- Thread 0 pushes to vector 1, and then appends five elements to vector 0, which has room for four. -/
def exampleRows : Nat → MTask 32
  | 0 => .append 1 (.push 7) fun _ => .append 0 (.bulk 5 8) fun _ => .done
  | _ => .done

/-- The hypotheses are met for several vectors: the push is done, and the other call is stopped. -/
example : (∀ k, (severalVecs k).Valid 32) ∧ Apart severalVecs ∧ (∀ k, (severalVecs k).dbg = true) ∧ (∀ i, (exampleRows i).Polite severalVecs) ∧
    ∃ s : WRun 32, WRun.Reach cudaWeak (fun _ => 0) (fun i => (exampleRows i).code severalVecs) s ∧
      s.sys.trace = [⟨0, 2, .atomic (.fetchAdd 1) none, some (0, 0), some (1, 1)⟩, ⟨0, 3, .write 7, none, some (1, 7)⟩, ⟨0, 0, .atomic (.fetchAdd 5) none, some (0, 0), some (1, 5)⟩] ∧
      s.sys.trace.Writes 1 ((severalVecs 1).cell 0 0) 7 ∧ (severalVecs 0).cap < s.sys.trace.claimed (severalVecs 0).size ∧ s.sys.trace.claimed (severalVecs 0).size < 2 ^ 32 ∧
      s.prog 0 = .failed := by
  refine ⟨severalVecs_valid, severalVecs_apart, fun _ => rfl, fun i => ?_, ?_⟩
  · match i with
    | 0 =>
      refine ⟨⟨by decide, fun _ => rfl, fun st hst => ?_⟩, fun _ => ⟨⟨by decide, nofun, fun st hst => ?_⟩, fun _ => trivial⟩⟩
      · cases List.mem_singleton.1 hst
        decide
      · obtain ⟨j, hj, rfl⟩ := List.mem_map.1 hst
        exact List.mem_range.1 hj
    | i + 1 => trivial
  have r := WRun.Reach.start (I := cudaWeak) (m := fun _ => (0 : BitVec 32)) (progs := fun i => (exampleRows i).code severalVecs)
  have r := r.call 0 2 (.atomic (.fetchAdd 1) none) _ rfl rfl rfl
  have r := r.step (.access _ _ _ _ (.update _ 0 2 0 _ _ _ _ _ _ _ 1 rfl rfl (by decide) rfl rfl rfl) rfl rfl)
  have r := r.call 0 3 (.write 7) _ rfl rfl rfl
  have r := r.step (.access _ _ _ _ (.plainStore _ 0 3 1 (.write 7) _ 7 rfl rfl (by decide) rfl) rfl rfl)
  have r := r.call 0 0 (.atomic (.fetchAdd 5) none) _ rfl rfl rfl
  have r := r.step (.access _ _ _ _ (.update _ 0 0 0 _ _ _ _ _ _ _ 5 rfl rfl (by decide) rfl rfl rfl) rfl rfl)
  exact ⟨_, r, rfl, ⟨_, _, rfl, rfl, rfl⟩, by decide, by decide, rfl⟩

/-- Thread 0 appends 254 elements at once. -/
def exampleWrap : Nat → WTask 8
  | 0 => .append (.bulk 254 7) fun _ => .done
  | _ => .done

/-- C84: without the condition on the sizes, the claim is false of `bulk_append`: in a vector with room for four elements, which has three, 254 more are appended.  The sum, in the type of the size, is 1,
the assertion holds, and the second element is written outside of the vector.  (The sizes have 8 bits here, and 32 bits in the code.) -/
theorem c84_wrap : exampleVector.dbg = true ∧ exampleVector.Valid 8 ∧ (∀ i, (exampleWrap i).Polite exampleVector) ∧
    ∃ s : WRun 8, WRun.Reach cudaWeak (fun a => if a = 0 then 3 else 0) (fun i => (exampleWrap i).code exampleVector) s ∧
      s.sys.trace.Writes 2 (exampleVector.cell 0 4) 7 ∧ ¬ 4 < exampleVector.cap := by
  refine ⟨rfl, exampleVector_valid, fun i => ?_, ?_⟩
  · match i with
    | 0 => exact (c76_calls exampleVector).2.1 254 7 _ (by decide) fun _ => trivial
    | i + 1 => trivial
  have r := WRun.Reach.start (I := cudaWeak) (m := fun a => if a = 0 then (3 : BitVec 8) else 0) (progs := fun i => (exampleWrap i).code exampleVector)
  have r := r.call 0 0 (.atomic (.fetchAdd 254) none) _ rfl rfl rfl
  have r := r.step (.access _ _ _ _ (.update _ 0 0 0 _ _ _ _ _ _ _ 1 rfl rfl (by decide) rfl rfl rfl) rfl rfl)
  have r := r.call 0 10 (.write 7) _ rfl rfl rfl
  have r := r.step (.access _ _ _ _ (.plainStore _ 0 10 1 (.write 7) _ 7 rfl rfl (by decide) rfl) rfl rfl)
  have r := r.call 0 17 (.write 7) _ rfl rfl rfl
  have r := r.step (.access _ _ _ _ (.plainStore _ 0 17 1 (.write 7) _ 7 rfl rfl (by decide) rfl) rfl rfl)
  exact ⟨_, r, ⟨_, _, rfl, rfl, rfl⟩, by decide⟩

/-- Without assertions, a `push_back` to a full vector writes outside of it. -/
theorem c84_release : ∃ s : WRun 8, WRun.Reach cudaWeak (fun a => if a = 0 then 4 else 0) (fun i => (WTask.pushAll (examplePushes i)).code { exampleVector with dbg := false }) s ∧
    s.sys.trace.Writes 1 (exampleVector.cell 0 4) 7 ∧ ¬ 4 < exampleVector.cap := by
  have r := WRun.Reach.start (I := cudaWeak) (m := fun a => if a = 0 then (4 : BitVec 8) else 0)
    (progs := fun i => (WTask.pushAll (examplePushes i)).code { exampleVector with dbg := false })
  have r := r.call 0 0 (.atomic (.fetchAdd 1) none) _ rfl rfl rfl
  have r := r.step (.access _ _ _ _ (.update _ 0 0 0 _ _ _ _ _ _ _ 5 rfl rfl (by decide) rfl rfl rfl) rfl rfl)
  have r := r.call 0 17 (.write 7) _ rfl rfl rfl
  have r := r.step (.access _ _ _ _ (.plainStore _ 0 17 1 (.write 7) _ 7 rfl rfl (by decide) rfl) rfl rfl)
  exact ⟨_, r, ⟨_, _, rfl, rfl, rfl⟩, by decide⟩

end Vecmem.Props
