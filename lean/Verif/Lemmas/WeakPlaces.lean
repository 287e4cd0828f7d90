import Verif.Lemmas.WeakVector

/-!
# Lemmas: the places of a vector that polite programs append to
-/

namespace Vecmem

variable {w : Nat}

/-- Polite programs have run, and all that they have claimed fits into the vector. -/
structure Appending (V : WVec) (m : AMem w) (tasks : Nat → WTask w) (tr : WTrace w) (prog : Nat → WProg w) : Prop where
  valid : V.Valid w
  polite : ∀ i, (tasks i).Polite V
  correct : ∀ e ∈ tr, e.Correct
  writes : tr.FromWrites m
  hist : ∀ i, Hist V (tasks i) (tr.own i) (prog i)
  fits : (m V.size).toNat + tr.claimed V.size ≤ V.cap

namespace Appending

variable {V : WVec} {m : AMem w} {tasks : Nat → WTask w} {tr : WTrace w} {prog : Nat → WProg w}

theorem wrote_none {e : WEvent w} (hc : e.Correct) (h : e.call = .read ∨ ∃ o, e.call = .atomic .load o) : e.wrote = none := by
  rcases h with h | ⟨o, h⟩ <;> simp only [WEvent.Correct, h] at hc <;> exact hc.2

/-- Where an access stands in the history of its thread. -/
theorem position {k : Nat} {e : WEvent w} (hk : tr[k]? = some e) : ∃ pos : Nat, (tr.own e.thread)[pos]? = some (e, k) :=
  List.getElem?_of_mem (mem_own.2 ⟨hk, rfl⟩)

/-- An access that changes the size is a claim. -/
theorem adds (h : Appending V m tasks tr prog) : Adds m V.size tr := by
  refine ⟨h.writes, h.correct, fun e he ha hw => ?_⟩
  obtain ⟨k, hk⟩ := List.getElem?_of_mem he
  obtain ⟨pos, hpos⟩ := position hk
  rcases (h.hist e.thread).cases_at (h.polite _) pos _ hpos with h1 | ⟨c, -, h1⟩ | ⟨_, _, _, _, st, -, -, -, -, -, h1⟩
  · rw [wrote_none (h.correct e he) (h1 (.inl ha))] at hw; cases hw
  · exact ⟨_, _, h1.2⟩
  · exact absurd (h1.1.symm.trans ha) (h.valid.size _ _)

/-- The places that a claim claims. -/
theorem claim (h : Appending V m tasks tr prog) {q : Nat} {e : WEvent w} (hq : tr[q]? = some e) (ha : e.addr = V.size) {x : BitVec w} {o : Option MemOrder}
    (hx : e.call = .atomic (.fetchAdd x) o) :
    e.Claims V.size ((m V.size).toNat + WTrace.claimed V.size (tr.take q)) x.toNat ∧ e.claimed V.size = x.toNat := by
  have hc := h.adds.fetchAdd_changes (List.mem_of_getElem? hq) ha hx
  obtain ⟨-, x', o', t, v, hx', hr, -, hn⟩ := h.adds.spec hq hc
  rw [hx] at hx'
  cases hx'
  have hv := (h.adds.reads q e t v hq hc hr).2
  refine ⟨⟨ha, x, o, t, v, hx, rfl, hr, ?_⟩, hn⟩
  have h1 := claimed_take_le (a := V.size) tr q
  have h2 := h.fits
  have h3 := h.valid.cap
  rw [hv, BitVec.toNat_add, BitVec.toNat_ofNat, Nat.add_mod_mod, Nat.mod_eq_of_lt (by omega)]

theorem claims_unique {e : WEvent w} {a v n v' n' : Nat} (h : e.Claims a v n) (h' : e.Claims a v' n') : v = v' ∧ n = n' := by
  obtain ⟨-, x, o, t, y, h1, rfl, h2, rfl⟩ := h
  obtain ⟨-, x', o', t', y', h1', rfl, h2', rfl⟩ := h'
  rw [h1] at h1'; cases h1'
  rw [h2] at h2'; cases h2'
  exact ⟨rfl, rfl⟩

/-- The places of a claim in terms of the claims before. -/
theorem place (h : Appending V m tasks tr prog) {q : Nat} {e : WEvent w} (hq : tr[q]? = some e) {v n : Nat} (hc : e.Claims V.size v n) :
    v = (m V.size).toNat + WTrace.claimed V.size (tr.take q) ∧ v + n = (m V.size).toNat + WTrace.claimed V.size (tr.take (q + 1)) := by
  obtain ⟨ha, x, o, t, y, h1, h2, h3, h4⟩ := hc
  obtain ⟨h5, h6⟩ := h.claim hq ha h1
  obtain ⟨h7, h8⟩ := claims_unique ⟨ha, x, o, t, y, h1, h2, h3, h4⟩ h5
  rw [claimed_take_succ hq, h6]
  omega

theorem bounds (h : Appending V m tasks tr prog) {q : Nat} {e : WEvent w} (hq : tr[q]? = some e) {v n : Nat} (hc : e.Claims V.size v n) :
    (m V.size).toNat ≤ v ∧ v + n ≤ (m V.size).toNat + tr.claimed V.size := by
  obtain ⟨h1, h2⟩ := h.place hq hc
  have := claimed_take_le (a := V.size) tr (q + 1)
  omega

theorem disjoint (h : Appending V m tasks tr prog) {q q' : Nat} {e e' : WEvent w} (hq : tr[q]? = some e) (hq' : tr[q']? = some e') {v n v' n' : Nat}
    (hc : e.Claims V.size v n) (hc' : e'.Claims V.size v' n') (hlt : q < q') : v + n ≤ v' := by
  obtain ⟨-, h2⟩ := h.place hq hc
  obtain ⟨h1, -⟩ := h.place hq' hc'
  have := claimed_mono (a := V.size) tr (Nat.succ_le_of_lt hlt)
  simp only [Nat.succ_eq_add_one] at this
  omega

/-- A place is claimed by one access only. -/
theorem same_claim (h : Appending V m tasks tr prog) {q q' : Nat} {e e' : WEvent w} (hq : tr[q]? = some e) (hq' : tr[q']? = some e') {v n v' n' p : Nat}
    (hc : e.Claims V.size v n) (hc' : e'.Claims V.size v' n') (h1 : v ≤ p ∧ p < v + n) (h2 : v' ≤ p ∧ p < v' + n') : q = q' := by
  rcases Nat.lt_trichotomy q q' with hlt | heq | hlt
  · have := h.disjoint hq hq' hc hc' hlt; omega
  · exact heq
  · have := h.disjoint hq' hq hc' hc hlt; omega

theorem claims_of_claimed (h : Appending V m tasks tr prog) {q : Nat} {e : WEvent w} (hq : tr[q]? = some e) (hc : 0 < e.claimed V.size) :
    e.Claims V.size ((m V.size).toNat + WTrace.claimed V.size (tr.take q)) (e.claimed V.size) := by
  unfold WEvent.claimed at hc
  split at hc
  · next ha =>
    split at hc
    · next x o hx =>
      have := h.claim hq ha hx
      rw [this.2]
      exact this.1
    · omega
  · omega

/-- All places between are claimed. -/
theorem covered (h : Appending V m tasks tr prog) {p : Nat} (h1 : (m V.size).toNat ≤ p) :
    ∀ q : Nat, p < (m V.size).toNat + WTrace.claimed V.size (tr.take q) → ∃ (q' : Nat) (e : WEvent w) (v n : Nat), tr[q']? = some e ∧ e.Claims V.size v n ∧ v ≤ p ∧ p < v + n := by
  intro q
  induction q with
  | zero => intro hp; simp [WTrace.claimed] at hp; omega
  | succ q ih =>
    intro hp
    by_cases hlt : p < (m V.size).toNat + WTrace.claimed V.size (tr.take q)
    · exact ih hlt
    · cases he : tr[q]? with
      | none => rw [take_of_none he] at hp; omega
      | some e =>
        rw [claimed_take_succ he] at hp
        exact ⟨q, e, _, _, he, h.claims_of_claimed he (by omega), by omega, by omega⟩

/-- What the calls have claimed, in the history of a thread. -/
theorem hist_claim (h : Appending V m tasks tr prog) {i : Nat} {x : WEvent w × Nat} (hx : x ∈ tr.own i) {c : WAppend w} (hc : IsClaim V c x.1) (hf : c.Fine) :
    x.1.Claims V.size x.1.index c.count ∧ x.1.index + c.count ≤ V.cap := by
  obtain ⟨h1, h2⟩ := mem_own.1 hx
  obtain ⟨h3, -⟩ := h.claim h1 hc.1 hc.2
  rw [BitVec.toNat_ofNat, Nat.mod_eq_of_lt hf.1] at h3
  have h4 := (h.bounds h1 h3).2
  obtain ⟨ha, y, o, t, v, h5, h6, h7, h8⟩ := id h3
  have : x.1.index = (m V.size).toNat + WTrace.claimed V.size (tr.take x.2) := by
    simp only [WEvent.index, h7, Option.map_some, Option.getD_some, h8]
  rw [this]
  exact ⟨h3, Nat.le_trans h4 h.fits⟩

/-- A write to an element comes from a claim of its place by the same thread before. -/
theorem store (h : Appending V m tasks tr prog) {k v p : Nat} {e : WEvent w} (hk : tr[k]? = some e) (ha : e.addr = V.cell v p) (hw : e.wrote.isSome) :
    ∃ q f a n, q < k ∧ tr[q]? = some f ∧ f.thread = e.thread ∧ f.Claims V.size a n ∧ a ≤ p ∧ p < a + n := by
  obtain ⟨pos, hpos⟩ := position hk
  rcases (h.hist e.thread).cases_at (h.polite _) pos _ hpos with h1 | ⟨c, -, h1⟩ | ⟨pos₀, j, y, c, st, h1, h2, h3, h4, h5, h6⟩
  · rw [wrote_none (h.correct e (List.mem_of_getElem? hk)) (h1 (.inr ⟨v, p, ha⟩))] at hw; cases hw
  · exact absurd (ha.symm.trans h1.1) (h.valid.size _ _)
  · obtain ⟨h7, h8⟩ := h.hist_claim (List.mem_of_getElem? h2) h3 h4
    obtain ⟨h9, h10⟩ := mem_own.1 (List.mem_of_getElem? h2)
    have hoff := h4.2.2 st (List.mem_of_getElem? h5)
    have hcap := h.valid.cap
    have hadr := h6.1
    rw [Nat.mod_eq_of_lt (by omega)] at hadr
    obtain ⟨-, rfl⟩ := h.valid.cells _ _ _ _ (ha.symm.trans hadr)
    have hlt : y.2 < k := by
      obtain ⟨hl1, he1⟩ := List.getElem?_eq_some_iff.1 h2
      obtain ⟨hl2, he2⟩ := List.getElem?_eq_some_iff.1 hpos
      have := List.pairwise_iff_getElem.1 (own_sorted tr e.thread) pos₀ pos hl1 hl2 (by omega)
      rw [he1, he2] at this
      exact this
    exact ⟨y.2, y.1, _, _, hlt, h9, h10, h7, by omega, by omega⟩

/-- Two writes to the same place are of the same thread. -/
theorem same_thread (h : Appending V m tasks tr prog) {k k' v v' p : Nat} {e e' : WEvent w} (hk : tr[k]? = some e) (hk' : tr[k']? = some e')
    (ha : e.addr = V.cell v p) (ha' : e'.addr = V.cell v' p) (hw : e.wrote.isSome) (hw' : e'.wrote.isSome) : e.thread = e'.thread := by
  obtain ⟨q, f, a, n, -, h1, h2, h3, h4⟩ := h.store hk ha hw
  obtain ⟨q', f', a', n', -, h1', h2', h3', h4'⟩ := h.store hk' ha' hw'
  have := h.same_claim h1 h1' h3 h3' h4 h4'
  subst this
  cases h1.symm.trans h1'
  exact h2.symm.trans h2'

/-- A read that happens after a write of an element reads what that access or a later one of its thread has written. -/
theorem read (h : Appending V m tasks tr prog) {R A : WEvent w → Prop} (ho : tr.Ordered R A) {k j v p : Nat} {e f : WEvent w} {t t' : Nat} {x y : BitVec w}
    (hk : tr[k]? = some e) (hj : tr[j]? = some f) (ha : e.addr = V.cell v p) (hf : f.addr = V.cell v p) (hw : e.wrote = some (t, x))
    (hr : f.read = some (t', y)) (hb : tr.HappensBefore R A k j) :
    ∃ k' e', k ≤ k' ∧ tr[k']? = some e' ∧ e'.thread = e.thread ∧ e'.addr = V.cell v p ∧ e'.wrote = some (t', y) := by
  have h1 := (ho k j e f hb hk hj (ha.trans hf.symm) t (.inr ⟨x, hw⟩)).1 t' y hr
  have h2 := h.writes.2.1 k e t x hk hw
  rcases h.writes.1 j f t' y hj hr with ⟨h3, -⟩ | ⟨k', e', -, h4, h5, h6⟩
  · omega
  · have hth := h.same_thread h4 hk (h5.trans hf) ha (by rw [h6]; rfl) (by rw [hw]; rfl)
    refine ⟨k', e', ?_, h4, hth, h5.trans hf, h6⟩
    by_contra hlt
    have := (ho k' k e' e (.program ⟨_, _, h4, hk, hth, by omega⟩) h4 hk (h5.trans (hf.trans ha.symm)) t' (.inr ⟨y, h6⟩)).2 t x hw
    omega

/-- Nothing is claimed where nothing is changed. -/
theorem claimed_eq (h : Appending V m tasks tr prog) {p q : Nat} (hpq : p ≤ q) (he : WTrace.changes V.size (tr.take p) = WTrace.changes V.size (tr.take q)) :
    WTrace.claimed V.size (tr.take p) = WTrace.claimed V.size (tr.take q) := by
  obtain ⟨k, rfl⟩ := Nat.le.dest hpq
  clear hpq
  induction k with
  | zero => rfl
  | succ k ih =>
    have h1 := changes_mono (a := V.size) tr (Nat.le_add_right p k)
    have h2 := changes_mono (a := V.size) tr (Nat.le_succ (p + k))
    simp only [Nat.succ_eq_add_one, Nat.add_assoc] at h2 he ⊢
    rw [ih (by omega)]
    cases hg : tr[p + k]? with
    | none => rw [← Nat.add_assoc, take_of_none hg]
    | some g =>
      rw [← Nat.add_assoc, claimed_take_succ hg]
      rw [← Nat.add_assoc, changes_take_succ hg] at he h2
      by_cases hc : g.changes V.size = true
      · rw [if_pos hc] at he h2; omega
      · simp only [Bool.not_eq_true] at hc
        rw [h.adds.claimed_zero (List.mem_of_getElem? hg) hc]; rfl

/-- The size in the end. -/
theorem final_size (h : Appending V m tasks tr prog) : ∃ y, tr.Final m V.size y ∧ y.toNat = (m V.size).toNat + tr.claimed V.size := by
  have hfits := h.fits
  have hcap := h.valid.cap
  have hall : tr.take tr.length = tr := List.take_length
  have hpos : ∀ f ∈ tr, f.addr = V.size → ∀ t y, f.wrote = some (t, y) → f.changes V.size = true ∧ t ≤ WTrace.changes V.size tr := by
    intro f hf ha t y hw
    have hc : f.changes V.size := by simp [WEvent.changes, ha, hw]
    obtain ⟨k, hk⟩ := List.getElem?_of_mem hf
    obtain ⟨-, x, o, t₀, v₀, hx, hr, hw', -⟩ := h.adds.spec hk hc
    rw [hw] at hw'
    cases hw'
    have h1 := (h.adds.reads k f t₀ v₀ hk hc hr).1
    have h2 := changes_take_succ (a := V.size) hk
    rw [if_pos hc] at h2
    have hlt := (List.getElem?_eq_some_iff.1 hk).1
    have h3 := changes_mono (a := V.size) tr (Nat.succ_le_of_lt hlt)
    rw [hall, Nat.succ_eq_add_one] at h3
    exact ⟨hc, by omega⟩
  by_cases hn : WTrace.changes V.size tr = 0
  · refine ⟨m V.size, .inl ⟨rfl, fun e he ha => ?_⟩, ?_⟩
    · cases hw : e.wrote with
      | none => rfl
      | some x =>
        have := (hpos e he ha x.1 x.2 hw).1
        simp only [WTrace.changes, List.countP_eq_zero] at hn
        exact absurd this (hn e he)
    · have := h.claimed_eq (Nat.zero_le tr.length) (by rw [hall, hn]; rfl)
      rw [hall] at this
      rw [← this]
      simp [WTrace.claimed]
  · obtain ⟨i, e, h1, h2, h3, h4⟩ := exists_change tr (a := V.size) (t := WTrace.changes V.size tr - 1) (q := tr.length) (by rw [hall]; omega)
    obtain ⟨hea, x, o, t, v, hx, hr, hw, hx'⟩ := h.adds.spec h2 h3
    obtain ⟨h5, h6⟩ := h.adds.reads i e t v h2 h3 hr
    have h7 := changes_take_succ (a := V.size) h2
    rw [if_pos h3] at h7
    have h8 := h.claimed_eq (Nat.succ_le_of_lt h1) (by rw [hall, Nat.succ_eq_add_one]; omega)
    rw [hall, Nat.succ_eq_add_one, claimed_take_succ h2, hx'] at h8
    refine ⟨v + x, .inr ⟨e, t + 1, List.mem_of_getElem? h2, hea, hw, fun f hf ha t' y hw' => ?_⟩, ?_⟩
    · have := (hpos f hf ha t' y hw').2
      omega
    · rw [h6, BitVec.toNat_add, BitVec.toNat_add, BitVec.toNat_ofNat, Nat.add_mod_mod, Nat.mod_add_mod, Nat.mod_eq_of_lt (by omega)]
      omega

/-- An element in the end: what was written to it last. -/
theorem final_cell (h : Appending V m tasks tr prog) (ho : tr.Ordered (fun _ => False) (fun _ => False)) {k v p : Nat} {x : BitVec w}
    (hk : tr.Writes k (V.cell v p) x) (hlast : ∀ k' y, tr.Writes k' (V.cell v p) y → k' ≤ k) : tr.Final m (V.cell v p) x := by
  obtain ⟨e, t, h1, h2, h3⟩ := hk
  refine .inr ⟨e, t, List.mem_of_getElem? h1, h2, h3, fun f hf ha t' y hw => ?_⟩
  obtain ⟨k', hk'⟩ := List.getElem?_of_mem hf
  have hle := hlast k' y ⟨f, t', hk', ha, hw⟩
  rcases Nat.lt_or_ge k' k with hlt | hge
  · have hth := h.same_thread hk' h1 ha h2 (by rw [hw]; rfl) (by rw [h3]; rfl)
    have := (ho k' k f e (.program ⟨_, _, hk', h1, hth, hlt⟩) hk' h1 (ha.trans h2.symm) t' (.inr ⟨y, hw⟩)).2 t x h3
    omega
  · have : k' = k := by omega
    subst this
    rw [h1] at hk'; cases hk'
    rw [h3] at hw; cases hw
    exact Nat.le_refl _

/-- A place that was not claimed is as it was. -/
theorem final_old (h : Appending V m tasks tr prog) {v p : Nat} (hp : p < (m V.size).toNat ∨ (m V.size).toNat + tr.claimed V.size ≤ p) :
    tr.Final m (V.cell v p) (m (V.cell v p)) := by
  refine .inl ⟨rfl, fun e he ha => ?_⟩
  cases hw : e.wrote with
  | none => rfl
  | some x =>
    obtain ⟨k, hk⟩ := List.getElem?_of_mem he
    obtain ⟨q, f, a, n, -, h1, -, h2, h3, h4⟩ := h.store hk ha (by rw [hw]; rfl)
    have := h.bounds h1 h2
    omega

theorem code_failed (t : WTask w) : t.code V ≠ .failed := by
  cases t <;> simp [WTask.code]

theorem code_done (t : WTask w) (h : t.code V = .done) : t = .done := by
  cases t with
  | done => rfl
  | _ => simp [WTask.code] at h

theorem not_failed (h : Appending V m tasks tr prog) (i : Nat) : prog i ≠ .failed := by
  have hcap := h.valid.cap
  have hk : ∀ x ∈ tr.own i, ∀ c : WAppend w, IsClaim V c x.1 → c.Fine → x.1.index + c.count ≤ V.cap := fun x hx c hc hf => (h.hist_claim hx hc hf).2
  have hp := h.polite i
  have hh := h.hist i
  generalize tr.own i = l at hk hh
  generalize tasks i = t at hp hh
  generalize prog i = p at hh
  induction hh with
  | nil t => exact code_failed t
  | access _ _ _ ih => exact ih (fun x hx => hk x (List.mem_cons_of_mem _ hx)) (hp.2 _)
  | @failed c next x h1 h2 =>
    have h3 := hk x (List.mem_singleton.2 rfl) c h1 hp.1
    simp only [Bool.and_eq_true, Bool.not_eq_true', WAppend.check] at h2
    obtain ⟨-, h2⟩ := h2
    split at h2
    · next hs =>
      have := hp.1.2.1 hs
      simp only [decide_eq_false_iff_not] at h2
      omega
    · simp only [decide_eq_false_iff_not] at h2
      rw [Nat.mod_eq_of_lt (by omega)] at h2
      omega
  | part => exact fun h => nomatch h
  | full _ _ _ ih => exact ih (fun x hx => hk x (List.mem_cons_of_mem _ (List.mem_append_right _ hx))) (hp.2 _)

theorem stores_forall {a n : Nat} {sts : List (Nat × Nat × BitVec w)} {l : List (WEvent w × Nat)} (h : List.Forall₂ (IsStoreOf V a) sts l)
    (hoff : ∀ st ∈ sts, st.2.1 < n) (hn : a + n < 2 ^ w) (hc : ∀ y ∈ l, y.1.Correct) : List.Forall₂ (V.IsStore a) sts (l.map (·.1)) := by
  induction h with
  | nil => exact .nil
  | @cons st y sts l hy _ ih =>
    refine .cons ?_ (ih (fun st hst => hoff st (List.mem_cons_of_mem _ hst)) (fun y hy => hc y (List.mem_cons_of_mem _ hy)))
    have h5 := hoff st List.mem_cons_self
    have h6 := hc y List.mem_cons_self
    obtain ⟨h7, h8⟩ := hy
    rw [Nat.mod_eq_of_lt (by omega)] at h7
    simp only [WEvent.Correct, h8] at h6
    exact ⟨h7, h8, h6.2⟩

theorem ran (h : Appending V m tasks tr prog) {i : Nat} (hd : prog i = .done) : (tasks i).Ran V (tr.of i) := by
  have hcap := h.valid.cap
  have hk : ∀ x ∈ tr.own i, ∀ c : WAppend w, IsClaim V c x.1 → c.Fine → x.1.Claims V.size x.1.index c.count ∧ x.1.index + c.count ≤ V.cap :=
    fun x hx c hc hf => h.hist_claim hx hc hf
  have hcor : ∀ x ∈ tr.own i, x.1.Correct := fun x hx => h.correct _ (List.mem_of_getElem? (mem_own.1 hx).1)
  have hp := h.polite i
  have hh := h.hist i
  rw [← own_map]
  generalize tr.own i = l at hk hh hcor
  generalize tasks i = t at hp hh
  generalize prog i = p at hh hd
  induction hh with
  | nil t => rw [code_done t hd]; exact .done
  | @access a c next x l p h1 h2 _ ih =>
    exact .access h1 h2 (ih (fun x hx => hk x (List.mem_cons_of_mem _ hx)) (fun x hx => hcor x (List.mem_cons_of_mem _ hx)) (hp.2 _) hd)
  | failed => cases hd
  | part => cases hd
  | @full c next x l₁ l₂ p h1 h2 _ ih =>
    obtain ⟨h3, h4⟩ := hk x List.mem_cons_self c h1 hp.1
    rw [List.map_cons, List.map_append]
    refine .append h3 ?_ (ih (fun x hx => hk x (List.mem_cons_of_mem _ (List.mem_append_right _ hx)))
      (fun x hx => hcor x (List.mem_cons_of_mem _ (List.mem_append_right _ hx))) (hp.2 _) hd)
    exact stores_forall h2 hp.1.2.2 (by omega) fun y hy => hcor y (List.mem_cons_of_mem _ (List.mem_append_left _ hy))

theorem left_aux (h : Appending V m tasks tr prog) (ho : tr.Ordered (fun _ => False) (fun _ => False)) {i : Nat} {t : WTask w} {l : List (WEvent w × Nat)} {p : WProg w}
    (hh : Hist V t l p) : t.Polite V → p = .done → ∀ pre, tr.own i = pre ++ l →
      (∀ z ∈ pre, z.1.wrote.isSome → ∀ u q, z.1.addr = V.cell u q → ∃ y ∈ pre, ∃ a n, y.1.Claims V.size a n ∧ a ≤ q ∧ q < a + n) →
      t.Left V m (tr.Final m) (l.map (·.1)) := by
  have hcap := h.valid.cap
  induction hh with
  | nil t => intro _ hd _ _ _; rw [code_done t hd]; exact .done
  | @access a c next x l p h1 h2 _ ih =>
    intro hp hd pre hl hpre
    refine .access h1 h2 (ih (hp.2 _) hd (pre ++ [x]) (by rw [hl, List.append_assoc]; rfl) fun z hz hw u q ha => ?_)
    rcases List.mem_append.1 hz with hz | hz
    · obtain ⟨y, hy, h3⟩ := hpre z hz hw u q ha
      exact ⟨y, List.mem_append_left _ hy, h3⟩
    · obtain rfl := List.mem_singleton.1 hz
      have hm : z ∈ tr.own i := by rw [hl]; exact List.mem_append_right _ List.mem_cons_self
      have := wrote_none (h.correct z.1 (List.mem_of_getElem? (mem_own.1 hm).1)) (by rw [h2]; exact hp.1 (.inr ⟨u, q, h1.symm.trans ha⟩))
      rw [this] at hw; cases hw
  | failed => intro _ hd; cases hd
  | part => intro _ hd; cases hd
  | @full c next x l₁ l₂ p h1 h2 hh ih =>
    intro hp hd pre hl hpre
    have hsort := own_sorted tr i
    rw [hl] at hsort
    have hxm : x ∈ tr.own i := by rw [hl]; exact List.mem_append_right _ List.mem_cons_self
    obtain ⟨hx1, hx2⟩ := mem_own.1 hxm
    obtain ⟨h3, h4⟩ := h.hist_claim hxm h1 hp.1
    have hmem1 : ∀ z ∈ l₁, z ∈ tr.own i := fun z hz => by rw [hl]; exact List.mem_append_right _ (List.mem_cons_of_mem _ (List.mem_append_left _ hz))
    have hmem2 : ∀ z ∈ l₂, z ∈ tr.own i := fun z hz => by rw [hl]; exact List.mem_append_right _ (List.mem_cons_of_mem _ (List.mem_append_right _ hz))
    have hst : ∀ (n : Nat) (z : WEvent w × Nat), l₁[n]? = some z → ∃ st, c.stores[n]? = some st ∧ st.2.1 < c.count ∧
        z.1.addr = V.cell st.1 (x.1.index + st.2.1) ∧ ∃ t, z.1.wrote = some (t, st.2.2) := by
      intro n z hz
      obtain ⟨st, h5, h6⟩ := forall₂_get h2 hz
      have hoff := hp.1.2.2 st (List.mem_of_getElem? h5)
      have hadr := h6.1
      rw [Nat.mod_eq_of_lt (by omega)] at hadr
      have hcor := h.correct z.1 (List.mem_of_getElem? (mem_own.1 (hmem1 z (List.mem_of_getElem? hz))).1)
      simp only [WEvent.Correct, h6.2] at hcor
      obtain ⟨⟨t, y⟩, h11, h12⟩ := Option.map_eq_some_iff.1 hcor.2
      cases h12
      exact ⟨st, h5, hoff, hadr, t, h11⟩
    have key : ∀ (k : Nat) (e : WEvent w) (u j : Nat), j < c.count → tr[k]? = some e → e.addr = V.cell u (x.1.index + j) → e.wrote.isSome → (e, k) ∈ l₁ := by
      intro k e u j hj hk ha hw
      obtain ⟨q, f, a, n, -, h5, h6, h7, h8⟩ := h.store hk ha hw
      have hq := h.same_claim h5 hx1 h7 h3 h8 (by omega)
      subst hq
      rw [hx1] at h5; cases h5
      have hm : (e, k) ∈ tr.own i := mem_own.2 ⟨hk, h6.symm.trans hx2⟩
      rw [hl] at hm
      rw [List.pairwise_append, List.pairwise_cons, List.pairwise_append] at hsort
      rcases List.mem_append.1 hm with hm | hm
      · obtain ⟨y, hy, a', n', h9, h10⟩ := hpre _ hm hw u _ ha
        have hym : y ∈ tr.own i := by rw [hl]; exact List.mem_append_left _ hy
        have := h.same_claim (mem_own.1 hym).1 hx1 h9 h3 h10 (by omega)
        have := hsort.2.2 y hy x List.mem_cons_self
        omega
      · rcases List.mem_cons.1 hm with rfl | hm
        · exact absurd (ha.symm.trans h1.1) (h.valid.size _ _)
        · rcases List.mem_append.1 hm with hm | hm
          · exact hm
          · obtain ⟨pos, hpos⟩ := List.getElem?_of_mem hm
            rcases hh.cases_at (hp.2 _) pos _ hpos with h9 | ⟨c', -, h9⟩ | ⟨pos₀, j', y, c', st, -, h10, h11, h12, h13, h14⟩
            · rw [wrote_none (h.correct e (List.mem_of_getElem? hk)) (h9 (.inr ⟨u, _, ha⟩))] at hw; cases hw
            · exact absurd (ha.symm.trans h9.1) (h.valid.size _ _)
            · have hy := List.mem_of_getElem? h10
              obtain ⟨h15, h16⟩ := h.hist_claim (hmem2 y hy) h11 h12
              have hoff := h12.2.2 st (List.mem_of_getElem? h13)
              have hadr := h14.1
              rw [Nat.mod_eq_of_lt (by omega)] at hadr
              obtain ⟨-, h17⟩ := h.valid.cells _ _ _ _ (ha.symm.trans hadr)
              have := h.same_claim (mem_own.1 (hmem2 y hy)).1 hx1 h15 h3 (p := x.1.index + j) (by omega) (by omega)
              have := hsort.2.1.1 y (List.mem_append_right _ hy)
              omega
    rw [List.map_cons, List.map_append]
    refine .append h3 (stores_forall h2 hp.1.2.2 (by omega) fun y hy => h.correct _ (List.mem_of_getElem? (mem_own.1 (hmem1 y hy)).1)) ?_ (ih (hp.2 _) hd (pre ++ x :: l₁) (by rw [hl, List.append_assoc]; rfl) fun z hz hw u q ha => ?_)
    · intro u j hj
      cases hf : c.stores.reverse.find? (fun st => st.1 == u && st.2.1 == j) with
      | none =>
        simp only [WAppend.leaves, hf, Option.map_none, Option.getD_none]
        refine .inl ⟨rfl, fun e he ha => ?_⟩
        cases hw : e.wrote with
        | none => rfl
        | some y =>
          obtain ⟨k, hk⟩ := List.getElem?_of_mem he
          obtain ⟨n, hn⟩ := List.getElem?_of_mem (key k e u j hj hk ha (by rw [hw]; rfl))
          obtain ⟨st, h5, -, h6, -⟩ := hst n _ hn
          obtain ⟨h7, h8⟩ := h.valid.cells _ _ _ _ (ha.symm.trans h6)
          have := List.find?_eq_none.1 hf st (List.mem_reverse.2 (List.mem_of_getElem? h5))
          simp only [Bool.and_eq_true, beq_iff_eq] at this
          exact absurd ⟨h7.symm, by omega⟩ this
      | some st =>
        simp only [WAppend.leaves, hf, Option.map_some, Option.getD_some]
        obtain ⟨hst1, as, bs, h5, h6⟩ := List.find?_eq_some_iff_append.1 hf
        simp only [Bool.and_eq_true, beq_iff_eq] at hst1
        have h7 : c.stores = bs.reverse ++ st :: as.reverse := by
          have := congrArg List.reverse h5
          rw [List.reverse_reverse] at this
          rw [this]; simp
        have hlen := h2.length_eq
        have hbs : bs.length < l₁.length := by rw [← hlen, h7]; simp
        have hn := List.getElem?_eq_getElem hbs
        obtain ⟨st', h8, h9, h10, t, h11⟩ := hst _ _ hn
        have : st' = st := by rw [h7, List.getElem?_append_right (by simp)] at h8; simpa using h8.symm
        subst this
        obtain ⟨rfl, rfl⟩ := hst1
        refine h.final_cell ho ⟨_, t, (mem_own.1 (hmem1 _ (List.getElem_mem hbs))).1, h10, h11⟩ ?_
        rintro k' y ⟨e, t', hk, ha, hw⟩
        obtain ⟨n, hn'⟩ := List.getElem?_of_mem (key k' e _ _ h9 hk ha (by rw [hw]; rfl))
        obtain ⟨hn1, hn2⟩ := List.getElem?_eq_some_iff.1 hn'
        rcases Nat.lt_trichotomy n bs.length with hlt | heq | hgt
        · rw [List.pairwise_append, List.pairwise_cons, List.pairwise_append] at hsort
          have := List.pairwise_iff_getElem.1 hsort.2.1.2.1 n bs.length hn1 hbs hlt
          rw [hn2] at this
          exact Nat.le_of_lt this
        · subst heq
          rw [hn2]
        · exfalso
          obtain ⟨st'', h12, -, h13, -⟩ := hst n _ hn'
          obtain ⟨h14, h15⟩ := h.valid.cells _ _ _ _ (ha.symm.trans h13)
          rw [h7, List.getElem?_append_right (by simp; omega)] at h12
          obtain ⟨d, hd'⟩ : ∃ d, n - bs.reverse.length = d + 1 := ⟨n - bs.length - 1, by simp; omega⟩
          rw [hd', List.getElem?_cons_succ] at h12
          have := h6 st'' (List.mem_reverse.1 (List.mem_of_getElem? h12))
          simp only [Bool.not_eq_true', Bool.and_eq_false_iff, beq_eq_false_iff_ne] at this
          rcases this with h16 | h16
          · exact h16 h14.symm
          · omega
    · rcases List.mem_append.1 hz with hz | hz
      · obtain ⟨y, hy, h5⟩ := hpre z hz hw u q ha
        exact ⟨y, List.mem_append_left _ hy, h5⟩
      · refine ⟨x, List.mem_append_right _ List.mem_cons_self, _, _, h3, ?_⟩
        rcases List.mem_cons.1 hz with rfl | hz
        · exact absurd (ha.symm.trans h1.1) (h.valid.size _ _)
        · obtain ⟨n, hn⟩ := List.getElem?_of_mem hz
          obtain ⟨st, -, h6, h7, -⟩ := hst n z hn
          obtain ⟨-, h8⟩ := h.valid.cells _ _ _ _ (ha.symm.trans h7)
          omega

/-- What the calls of a thread leave. -/
theorem left (h : Appending V m tasks tr prog) (ho : tr.Ordered (fun _ => False) (fun _ => False)) {i : Nat} (hd : prog i = .done) :
    (tasks i).Left V m (tr.Final m) (tr.of i) := by
  rw [← own_map]
  exact h.left_aux ho (h.hist i) (h.polite i) hd [] rfl fun z hz => by cases hz

/-- A read of the size. -/
theorem size_read (h : Appending V m tasks tr prog) {j : Nat} {f : WEvent w} {t : Nat} {y : BitVec w} (hj : tr[j]? = some f) (ha : f.addr = V.size)
    (hr : f.read = some (t, y)) : ∃ q, y.toNat = (m V.size).toNat + WTrace.claimed V.size (tr.take q) ∧ t = WTrace.changes V.size (tr.take q) := by
  have h2 := h.fits
  have h3 := h.valid.cap
  rcases h.writes.1 j f t y hj hr with ⟨h4, h5⟩ | ⟨i, e, -, h5, h6, h7⟩
  · exact ⟨0, by rw [h5, ha]; simp [WTrace.claimed], by rw [h4]; rfl⟩
  · have hc : e.changes V.size := by simp [WEvent.changes, h6, ha, h7]
    obtain ⟨hea, x, o, t₀, v, hx, hr', hw, hn⟩ := h.adds.spec h5 hc
    obtain ⟨h9, h10⟩ := h.adds.reads i e t₀ v h5 hc hr'
    rw [h7] at hw
    cases hw
    have h11 := claimed_take_le (a := V.size) tr (i + 1)
    refine ⟨i + 1, ?_, by rw [changes_take_succ h5, if_pos hc, h9]⟩
    rw [claimed_take_succ h5] at h11 ⊢
    rw [h10, BitVec.toNat_add, BitVec.toNat_add, BitVec.toNat_ofNat, Nat.add_mod_mod, Nat.mod_add_mod, Nat.mod_eq_of_lt (by omega)]
    omega

/-- A read of the size that happens after a claim. -/
theorem size_after (h : Appending V m tasks tr prog) {R A : WEvent w → Prop} (ho : tr.Ordered R A) {q j : Nat} {e f : WEvent w} {t : Nat} {y : BitVec w}
    (hq : tr[q]? = some e) (hj : tr[j]? = some f) (ha : f.addr = V.size) (hr : f.read = some (t, y)) {v n : Nat} (hc : e.Claims V.size v n)
    (hb : tr.HappensBefore R A q j) : v + n ≤ y.toNat := by
  obtain ⟨q', h1, h2⟩ := h.size_read hj ha hr
  rw [h1, (h.place hq hc).2]
  have hch := h.adds.fetchAdd_changes (List.mem_of_getElem? hq) hc.1 hc.2.choose_spec.choose_spec.choose_spec.choose_spec.1
  obtain ⟨hea, x, o, t₀, v₀, hx, hr', hw, hn⟩ := h.adds.spec hq hch
  have h3 := (h.adds.reads _ e t₀ v₀ hq hch hr').1
  have h4 := (ho _ j e f hb hq hj (hea.trans ha.symm) _ (.inr ⟨_, hw⟩)).1 t y hr
  rcases Nat.lt_or_ge q q' with hlt | hge
  · have := claimed_mono (a := V.size) tr (Nat.succ_le_of_lt hlt)
    simp only [Nat.succ_eq_add_one] at this
    omega
  · have := changes_mono (a := V.size) tr hge
    omega

/-- A read of the size that happens after all claims. -/
theorem size_last (h : Appending V m tasks tr prog) {R A : WEvent w → Prop} (ho : tr.Ordered R A) {j : Nat} {f : WEvent w} {t : Nat} {y : BitVec w}
    (hj : tr[j]? = some f) (ha : f.addr = V.size) (hr : f.read = some (t, y))
    (hb : ∀ (q : Nat) (e : WEvent w) (v n : Nat), tr[q]? = some e → e.Claims V.size v n → tr.HappensBefore R A q j) :
    y.toNat = (m V.size).toNat + WTrace.claimed V.size tr := by
  obtain ⟨q, h1, h2⟩ := h.size_read hj ha hr
  rw [h1]
  have key : ∀ k, WTrace.claimed V.size (tr.take (q + k)) = WTrace.claimed V.size (tr.take q) := by
    intro k
    induction k with
    | zero => rfl
    | succ k ih =>
      rw [← Nat.add_assoc]
      cases he : tr[q + k]? with
      | none => rw [take_of_none he, ih]
      | some e =>
        rw [claimed_take_succ he, ih]
        by_cases hc : e.changes V.size = true
        · exfalso
          obtain ⟨hea, x, o, t₀, v, hx, hr', hw, hn⟩ := h.adds.spec he hc
          have h3 := (h.adds.reads _ e t₀ v he hc hr').1
          have h4 := changes_mono (a := V.size) tr (Nat.le_add_right q k)
          have h5 := (ho _ j e f (hb _ e _ _ he (h.claim he hea hx).1) he hj (hea.trans ha.symm) _ (.inr ⟨_, hw⟩)).1 t y hr
          omega
        · simp only [Bool.not_eq_true] at hc
          rw [h.adds.claimed_zero (List.mem_of_getElem? he) hc]; rfl
  have := key tr.length
  rw [List.take_of_length_le (by omega)] at this
  rw [this]

end Appending

theorem WRun.Reach.appending {I : WImpl w} (hI : I = posixWeak ∨ I = cudaWeak ∨ I = syclWeak ∨ I = syclBuiltinWeak) {m : AMem w} {V : WVec}
    {tasks : Nat → WTask w} {s : WRun w} (h : WRun.Reach I m (fun i => (tasks i).code V) s) (hv : V.Valid w) (hp : ∀ i, (tasks i).Polite V)
    (hf : (m V.size).toNat + s.sys.trace.claimed V.size ≤ V.cap) : Appending V m tasks s.sys.trace s.prog := by
  refine ⟨hv, hp, fun e he => ?_, h.sys.values.writes, fun i => hist_of_after V _ (h.after i), hf⟩
  obtain ⟨k, hk⟩ := List.getElem?_of_mem he
  obtain ⟨code, hc, hd⟩ := h.sys.values.did k e hk
  exact correct_of_did hI hc hd

end Vecmem
