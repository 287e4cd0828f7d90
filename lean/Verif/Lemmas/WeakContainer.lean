import Verif.Model.WeakContainer
import Verif.Spec.WeakContainer
import Verif.Lemmas.WeakKernel
import Verif.Lemmas.EdmOrdered

/-! # Lemmas for C81: appending to a container on weak memory -/

namespace Vecmem

variable {α : Type} {w : Nat}

/-! ## the stores of a call -/

theorem mem_newElement {s : DevCont α} {k : Nat} {d : α} : (k, d) ∈ s.newElement ↔ ∃ c f, s.vars[k]? = some (.vector d c f) := by
  simp only [DevCont.newElement, List.mem_filterMap, List.mem_zipIdx_iff_getElem?]
  constructor
  · rintro ⟨⟨x, j⟩, h1, h2⟩
    dsimp only at h1 h2
    cases x with
    | scalar y => cases h2
    | vector d' c f =>
      cases h2
      exact ⟨c, f, h1⟩
  · rintro ⟨c, f, h⟩
    exact ⟨(_, k), h, rfl⟩

theorem record_place {words : α → List (BitVec w)} {l : List (Nat × α)} {st : Nat × Nat × BitVec w} (h : st ∈ recordStores words l) : st.2.1 = 0 := by
  simp only [recordStores, List.mem_flatMap, List.mem_map] at h
  obtain ⟨x, -, y, -, rfl⟩ := h
  rfl

theorem records_polite (V : WVec) (words : α → List (BitVec w)) (new : List (Nat × α)) (hw : 1 < 2 ^ w) (cs : List (DCall α)) : (WTask.records words new cs).Polite V := by
  induction cs with
  | nil => trivial
  | cons c cs ih =>
    refine ⟨⟨hw, fun _ => rfl, ?_⟩, fun _ => ih⟩
    intro st hst
    have := record_place hst
    show st.2.1 < 1
    omega

/-- The last value of a word of a variable. -/
theorem record_leaves {words : α → List (BitVec w)} {k u t : Nat} (hu : u < t) (d : α) : ∀ {l : List (Nat × α)}, (∀ x ∈ l, x.1 = k → (words x.2).length = t) →
    k ∈ l.map (·.1) → ((recordStores words l).reverse.find? fun st => st.1 == Nat.pair k u && st.2.1 == 0).map (·.2.2) = (words (lastAssigned d k l))[u]? := by
  intro l
  induction l using List.reverseRecOn with
  | nil => intro _ h; cases h
  | append_singleton l a ih =>
    intro hl hk
    rw [lastAssigned_concat]
    have hst : recordStores words (l ++ [a]) = recordStores words l ++ (words a.2).zipIdx.map fun y => (Nat.pair a.1 y.2, 0, y.1) := by
      simp [recordStores]
    rw [hst, List.reverse_append, List.find?_append]
    by_cases ha : a.1 = k
    · have hlen : (words a.2).length = t := hl a (by simp) ha
      have hget : (words a.2)[u]? = some ((words a.2)[u]'(by omega)) := List.getElem?_eq_getElem (by omega)
      rw [if_pos ha, find?_unique (x := (Nat.pair k u, 0, (words a.2)[u]'(by omega)))]
      · rw [hget]; rfl
      · rw [List.mem_reverse, List.mem_map]
        exact ⟨((words a.2)[u]'(by omega), u), List.mem_zipIdx_iff_getElem?.2 hget, by rw [ha]⟩
      · simp
      · intro st hm hp
        rw [List.mem_reverse, List.mem_map] at hm
        obtain ⟨y, hy, rfl⟩ := hm
        simp only [Bool.and_eq_true, beq_iff_eq] at hp
        obtain ⟨-, rfl⟩ := Nat.pair_eq_pair.1 hp.1
        rw [List.mem_zipIdx_iff_getElem?, hget] at hy
        rw [ha, Option.some.inj hy]
    · rw [if_neg ha, List.find?_eq_none.2, Option.none_or]
      · refine ih (fun x hx => hl x (List.mem_append_left _ hx)) ?_
        simp only [List.map_append, List.map_cons, List.map_nil, List.mem_append, List.mem_singleton] at hk
        rcases hk with hk | hk
        · exact hk
        · exact absurd hk.symm ha
      · intro st hm hp
        rw [List.mem_reverse, List.mem_map] at hm
        obtain ⟨y, -, rfl⟩ := hm
        simp only [Bool.and_eq_true, beq_iff_eq] at hp
        exact ha (Nat.pair_eq_pair.1 hp.1).1

theorem lastAssigned_append (d : α) (k : Nat) (l l' : List (Nat × α)) : lastAssigned d k (l ++ l') = lastAssigned (lastAssigned d k l) k l' := by
  induction l generalizing d with
  | nil => rfl
  | cons a l ih =>
    obtain ⟨j, x⟩ := a
    simp only [List.cons_append, lastAssigned, ih]

theorem lastAssigned_same {d : α} {k : Nat} {l : List (Nat × α)} (h : ∀ x ∈ l, x.1 = k → x.2 = d) : lastAssigned d k l = d := by
  induction l with
  | nil => rfl
  | cons a l ih =>
    obtain ⟨j, x⟩ := a
    have : (if j = k then x else d) = d := by
      split
      · exact h (j, x) List.mem_cons_self (by assumption)
      · rfl
    rw [lastAssigned, this]
    exact ih fun y hy => h y (List.mem_cons_of_mem _ hy)

/-- What a call leaves in a word of a vector of the container. -/
theorem call_leaves {words : α → List (BitVec w)} {s : DevCont α} {k : Nat} {d : α} {cp : Nat} {f : Nat → Option α} (hk : s.vars[k]? = some (.vector d cp f)) {c : DCall α}
    (hc : ∀ a ∈ c.assigns, a.1 = k → (words a.2).length = (words d).length) {u : Nat} (hu : u < (words d).length) :
    (c.weak words s.newElement).leaves (Nat.pair k u) 0 = (words (lastAssigned d k c.assigns))[u]? := by
  have hnew : ∀ x ∈ s.newElement, x.1 = k → x.2 = d := by
    rintro ⟨k', d'⟩ hx rfl
    obtain ⟨c', f', h1⟩ := mem_newElement.1 hx
    cases hk.symm.trans h1
    rfl
  have := record_leaves (words := words) hu d (l := s.newElement ++ c.assigns) (by
    intro x hx hxk
    rcases List.mem_append.1 hx with hx | hx
    · rw [hnew x hx hxk]
    · exact hc x hx hxk) (by
    rw [List.map_append]
    exact List.mem_append_left _ (List.mem_map.2 ⟨(k, d), mem_newElement.2 ⟨_, _, hk⟩, rfl⟩))
  rw [lastAssigned_append, lastAssigned_same hnew] at this
  exact this

/-! ## how much is claimed -/

theorem hist_claimed_records {V : WVec} (hV : V.Valid w) {words : α → List (BitVec w)} {new : List (Nat × α)} {cs : List (DCall α)} {l : List (WEvent w × Nat)} {p : WProg w}
    (h : Hist V (WTask.records words new cs) l p) : (l.map fun x => x.1.claimed V.size).sum ≤ cs.length := by
  induction cs generalizing l with
  | nil => cases h; simp
  | cons c cs ih =>
    rw [List.length_cons]
    have hc : (c.weak words new).count = 1 := rfl
    cases h with
    | nil => simp
    | failed h1 _ =>
      have := isClaim_claimed h1
      simp only [List.map_cons, List.map_nil, List.sum_cons, List.sum_nil]
      omega
    | part h1 _ h3 =>
      have := isClaim_claimed h1
      rw [List.map_cons, List.sum_cons, stores_claimed hV h3]
      omega
    | full h1 h2 h3 =>
      have := isClaim_claimed h1
      have := ih h3
      rw [List.map_cons, List.sum_cons, List.map_append, List.sum_append, stores_claimed hV h2]
      omega

theorem records_claimed {I : WImpl w} {m : AMem w} {V : WVec} {words : α → List (BitVec w)} {new : List (Nat × α)} {progs : List (List (DCall α))} {s : WRun w} (hV : V.Valid w)
    (h : WRun.Reach I m (fun i => (WTask.records words new (progs[i]?.getD [])).code V) s) : s.sys.trace.claimed V.size ≤ callCount progs := by
  have hh : ∀ i, Hist V (WTask.records words new (progs[i]?.getD [])) (s.sys.trace.own i) (s.prog i) := fun i => hist_of_after V _ (h.after i)
  have hth : ∀ e ∈ s.sys.trace, e.thread < progs.length := by
    intro e he
    by_contra hn
    obtain ⟨k, hk⟩ := List.getElem?_of_mem he
    have hm : (e, k) ∈ s.sys.trace.own e.thread := mem_own.2 ⟨hk, rfl⟩
    have h1 := hh e.thread
    rw [List.getElem?_eq_none (by omega), Option.getD_none] at h1
    simp only [WTask.records] at h1
    generalize s.sys.trace.own e.thread = l at h1 hm
    generalize s.prog e.thread = p at h1
    cases h1
    cases hm
  rw [claimed_split hth, callCount, ← map_range_getD progs [] fun p => p.length]
  exact sum_map_le _ _ _ fun i _ => hist_claimed_records hV (hh i)

/-! ## the order of the calls -/

/-- What is known of a call and its claim. -/
def RecordLeft (V : WVec) (m : AMem w) (final : Nat → BitVec w → Prop) (words : α → List (BitVec w)) (new : List (Nat × α)) (c : DCall α) (v : Nat) (e : WEvent w) : Prop :=
  e.Claims V.size v 1 ∧ ∀ u, final (V.cell u v) (((c.weak words new).leaves u 0).getD (m (V.cell u v)))

theorem records_left {V : WVec} (hV : V.Valid w) {m : AMem w} {final : Nat → BitVec w → Prop} {words : α → List (BitVec w)} {new : List (Nat × α)} {cs : List (DCall α)}
    {l : List (WEvent w)} (h : (WTask.records words new cs).Left V m final l) :
    List.Forall₂ (fun c e => ∃ v, RecordLeft V m final words new c v e) cs (l.filter fun e => decide (e.addr = V.size)) := by
  induction cs generalizing l with
  | nil => cases h; exact .nil
  | cons c cs ih =>
    cases h with
    | @append _ _ e v stores l h1 h2 h3 h4 =>
      have hst : stores.filter (fun e => decide (e.addr = V.size)) = [] := by
        rw [List.filter_eq_nil_iff]
        intro x hx
        simp only [decide_eq_true_eq]
        obtain ⟨n, hn⟩ := List.getElem?_of_mem hx
        obtain ⟨st, -, h5⟩ := forall₂_get h2 hn
        intro h6
        exact hV.size _ _ (h5.1.symm.trans h6)
      rw [List.filter_cons, if_pos (by simp [h1.1]), List.filter_append, hst, List.nil_append]
      exact .cons ⟨v, h1, fun u => h3 u 0 Nat.one_pos⟩ (ih h4)

theorem Chain.index {base : Nat} {o : List (Claim α)} (h : Chain base o) (h1 : ∀ x ∈ o, x.2.1.count = 1) : ∀ (j : Nat) (x : Claim α), o[j]? = some x → x.2.2 = base + j := by
  induction o generalizing base with
  | nil => intro j x hx; cases hx
  | cons y o ih =>
    intro j x hx
    cases j with
    | zero => cases hx; exact h.1
    | succ j =>
      have h2 := h.2
      rw [h1 y List.mem_cons_self] at h2
      rw [ih h2 (fun x hx => h1 x (List.mem_cons_of_mem _ hx)) j x hx]
      omega

/-- The claims of a container, in the order in which they were made, are a schedule of the calls. -/
theorem Appending.records {V : WVec} {m : AMem 32} {tasks : Nat → WTask 32} {tr : WTrace 32} {prog : Nat → WProg 32} {words : α → List (BitVec 32)} {s0 : DevCont α} {n : Nat}
    {progs : List (List (DCall α))} (ha : Appending V m tasks tr prog) (hs : V.ShowsContainer words (fun a x => x = m a) s0) (hr : s0.Ready n)
    (hfit : n + callCount progs ≤ s0.cap) (hargs : ∀ p ∈ progs, ∀ c ∈ p, c.Valid s0) (hw : s0.Worded words progs)
    (hleft : ∀ i, List.Forall₂ (fun c e => ∃ v, RecordLeft V m (tr.Final m) words s0.newElement c v e) (progs[i]?.getD [])
      ((WTrace.claims V.size tr).filter fun e => decide (e.thread = i))) :
    ∃ sched, ((DConc.start s0 progs).run sched).failed = false ∧ ((DConc.start s0 progs).run sched).Finished ∧
      V.ShowsContainer words (tr.Final m) ((DConc.start s0 progs).run sched).cont ∧
      ∀ i, (((DConc.start s0 progs).run sched).results i).map (·.1) = progs[i]?.getD [] ∧
        ReturnedRecords V.size (((DConc.start s0 progs).run sched).results i) (WTrace.claims V.size (tr.of i)) := by
  obtain ⟨y, rfl, hy⟩ := hs.size
  rw [hr.size] at hy
  obtain ⟨o, h1, h2⟩ := merge (R := RecordLeft V m (tr.Final m) words s0.newElement) (·.thread) (WTrace.claims V.size tr) (fun i => progs[i]?.getD []) hleft
  obtain ⟨h3, h4⟩ := ha.chain (α := Unit) (R := fun c v e => e.Claims V.size v c.count) (fun c v e h => h) tr []
    (o.map fun x => (x.1, ACall.bulkImplicit 1, x.2.2)) rfl (List.forall₂_map_left_iff.2 (h1.imp fun x e h => ⟨h.1, h.2.1⟩))
  have h0 : WTrace.claimed V.size ([] : WTrace 32) = 0 := rfl
  rw [h0, hy, Nat.add_zero] at h3
  rw [h0, Nat.zero_add] at h4
  have hlen : o.length = tr.claimed V.size := by
    rw [← h4]
    simp [claimed, ACall.count, Function.comp_def]
  have hidx : ∀ (j : Nat) (x : Nat × DCall α × Nat), o[j]? = some x → x.2.2 = n + j := by
    intro j x hx
    exact h3.index (by
      intro z hz
      obtain ⟨z', -, rfl⟩ := List.mem_map.1 hz
      rfl) j (x.1, ACall.bulkImplicit 1, x.2.2) (by rw [List.getElem?_map, hx]; rfl)
  obtain ⟨sched, g1, g2, g3⟩ := DConc.exists_ordered hr hfit hargs o hidx fun i => ⟨[], by rw [List.append_nil]; exact (h2 i).symm⟩
  generalize hgeq : (DConc.start s0 progs).run sched = g at g1 g2 g3
  refine ⟨sched, ?_⟩
  rw [hgeq]
  have hres : ∀ i, g.results i = (o.filter fun x => decide (x.1 = i)).map (·.2) := by
    intro i
    unfold DConc.results
    cases ht : g.threads[i]? with
    | none =>
      have hi : progs.length ≤ i := by rw [← g1.len]; exact List.getElem?_eq_none_iff.1 ht
      have := h2 i
      rw [List.getElem?_eq_none hi, Option.getD_none] at this
      have := List.map_eq_nil_iff.1 this
      rw [this]; rfl
    | some t => exact (g3 i t ht).2
  have hcell : ∀ (j : Nat) (x : Nat × DCall α × Nat), o[j]? = some x → ∃ t ∈ g.threads, x.2 ∈ t.done := by
    intro j x hx
    have hmem : x ∈ o.filter fun z => decide (z.1 = x.1) := List.mem_filter.2 ⟨List.mem_of_getElem? hx, by simp⟩
    have h5 : x.2 ∈ g.results x.1 := by
      rw [hres]
      exact List.mem_map.2 ⟨x, hmem, rfl⟩
    unfold DConc.results at h5
    cases ht : g.threads[x.1]? with
    | none => rw [ht] at h5; cases h5
    | some t =>
      rw [ht] at h5
      exact ⟨t, List.mem_of_getElem? ht, h5⟩
  refine ⟨g1.ok, ?_, ?_, ?_⟩
  · intro t ht
    obtain ⟨i, hi⟩ := List.getElem?_of_mem ht
    obtain ⟨h5, h6⟩ := g3 i t hi
    refine ⟨?_, h5⟩
    have := g1.prog i t hi
    rw [DThread.calls, DThread.now, h5, List.append_nil, h6, List.map_map, ← h2 i] at this
    exact List.self_eq_append_right.1 this
  · refine ⟨hs.cap.trans g1.cap.symm, ?_, ?_⟩
    · obtain ⟨y, h5, h6⟩ := ha.final_size
      exact ⟨y, h5, by rw [h6, g2, hlen, hy]⟩
    · intro k d cp f' hk p hp
      rw [g1.cap] at hp
      have hk0 : ∃ f, s0.vars[k]? = some (.vector d cp f) := by
        by_cases hc : ∀ (d : α) (c : Nat) (m : Nat → Option α), s0.vars[k]? ≠ some (.vector d c m)
        · have := g1.scalars k hc
          rw [hk] at this
          exact absurd this.symm (hc _ _ _)
        · push Not at hc
          obtain ⟨d1, c1, f1, h5⟩ := hc
          obtain ⟨m1, h6, -⟩ := g1.vectors k d1 c1 f1 h5
          cases hk.symm.trans h6
          exact ⟨f1, h5⟩
      obtain ⟨f0, hk0⟩ := hk0
      obtain ⟨f2, e1, e2, e3⟩ := g1.vectors k d cp f0 hk0
      cases hk.symm.trans e1
      obtain ⟨x, x1, x2⟩ := hs.elems k d cp f0 hk0 p hp
      by_cases hin : n ≤ p ∧ p < n + o.length
      · obtain ⟨j, rfl⟩ : ∃ j, p = n + j := ⟨p - n, by omega⟩
        have hoj := List.getElem?_eq_getElem (show j < o.length by omega)
        obtain ⟨t, ht, hd⟩ := hcell j _ hoj
        have hval := (e3 t ht).done _ hd
        rw [hidx j _ hoj] at hval
        refine ⟨_, hval, fun u b hb => ?_⟩
        obtain ⟨e, h10, h11, h12⟩ := forall₂_get h1.flip hoj
        have h13 := h12.2 (Nat.pair k u)
        rw [hidx j _ hoj] at h13
        have hpr : ∃ q ∈ progs, o[j].2.1 ∈ q := by
          have : o[j].2.1 ∈ progs[o[j].1]?.getD [] := by
            rw [← h2]
            exact List.mem_map.2 ⟨o[j], List.mem_filter.2 ⟨List.mem_of_getElem? hoj, by simp⟩, rfl⟩
          cases hq : progs[o[j].1]? with
          | none => rw [hq] at this; cases this
          | some q =>
            rw [hq] at this
            exact ⟨q, List.mem_of_getElem? hq, this⟩
        obtain ⟨q, hq, hqc⟩ := hpr
        have hall := hw k d cp f0 hk0 q hq _ hqc
        have hlast : (words (lastAssigned d k o[j].2.1.assigns)).length = (words d).length := by
          generalize o[j].2.1.assigns = as at hall
          induction as using List.reverseRecOn with
          | nil => rfl
          | append_singleton as a ih =>
            rw [lastAssigned_concat]
            split
            · exact hall a (by simp) (by assumption)
            · exact ih fun a ha => hall a (List.mem_append_left _ ha)
        have hu : u < (words d).length := by
          rw [← hlast]
          exact (List.getElem?_eq_some_iff.1 hb).1
        rw [call_leaves hk0 hall hu, hb, Option.getD_some] at h13
        exact h13
      · have hold : f' p = f0 p := e2 p (by rw [g2]; omega)
        refine ⟨x, by rw [hold, x1], fun u b hb => ?_⟩
        have := ha.final_old (v := Nat.pair k u) (p := p) (by omega)
        rw [← x2 u b hb] at this
        exact this
  · intro i
    refine ⟨by rw [hres i, List.map_map]; exact h2 i, ?_⟩
    rw [hres i, WTrace.of]
    unfold ReturnedRecords WTrace.claims
    rw [List.filter_comm]
    have := forall₂_filter (p := fun x => decide (x.1 = i)) (q := fun e => decide (e.thread = i)) h1 (fun x e h => by rw [h.1])
    refine List.forall₂_map_left_iff.2 (this.imp fun x e h => h.2.1)

end Vecmem
