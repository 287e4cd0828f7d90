import Verif.Lemmas.ViewSteps

/-!
# C69: views are values

Programs that make, copy, convert, assign and compare views, and write through them.
-/

namespace Vecmem.Props

open Vecmem

variable {sz : Nat → Nat} {Z : Nat → Prop} {slots : Nat → Nat → Prop} {m0 : Mem} {s s' : ViewVars} {b : Bool} {ops : List ViewOp}

/-- The state in which all variables hold values of their types, which all programs reach. -/
theorem formed_runs (hr : ViewRuns sz ops s s') (hf : s.Formed) (ht : ∀ op ∈ ops, op.Typed) : s'.Formed := by
  induction hr with
  | nil => exact hf
  | cons h _ ih => exact ih (formed_step hf (ht _ (List.mem_cons_self ..)) h) fun op hop => ht op (List.mem_cons_of_mem _ hop)

theorem formed_init (m : Mem) : (⟨m, []⟩ : ViewVars).Formed := fun x a v hv => by cases hv

theorem shows_some (hf : s.Formed) {x : Nat} {a : ViewType} {v : ViewVal} (hx : s.vars.lookup x = some (a, v)) (m : Mem) :
    (s.shows sz m x).isSome := by
  have h := hf x a v hx
  simp only [ViewVars.shows, hx, Option.bind_some]
  cases a <;> cases v <;> first | rfl | cases h

theorem shows_put_self (x : Nat) (a : ViewType) (v : ViewVal) (m : Mem) : (s.put x a v).shows sz m x = v.shows sz m a := by
  simp only [ViewVars.shows, ViewVars.put, lookup_putVar, if_true, Option.bind_some]

/-- **C69** (copies).  In every program: a view that is made from another one, or assigned another one, shows in every memory
what that one shows; nothing else changes. -/
theorem c69_copies (hr : ViewRuns sz ops ⟨m0, []⟩ s) (ht : ∀ op ∈ ops, op.Typed) {x y : Nat} {a : ViewType}
    (he : s.exec sz (.init x a y) = .ok b s' ∨ s.exec sz (.assign x y) = .ok b s') :
    (∀ m, (s'.shows sz m x).isSome ∧ s'.shows sz m x = s.shows sz m y) ∧ (∀ z, z ≠ x → s'.vars.lookup z = s.vars.lookup z) ∧
      s'.mem = s.mem := by
  have hf := formed_runs hr (formed_init m0) ht
  have key : ∀ a c v, s.vars.lookup y = some (c, v) → a.from c = true → s' = s.put x a v →
      (∀ m, (s'.shows sz m x).isSome ∧ s'.shows sz m x = s.shows sz m y) ∧ (∀ z, z ≠ x → s'.vars.lookup z = s.vars.lookup z) ∧
        s'.mem = s.mem := by
    rintro a c v hy hfr rfl
    have h1 : ∀ m, (s.put x a v).shows sz m x = s.shows sz m y := fun m => by
      rw [shows_put_self, from_shows hfr]
      simp only [ViewVars.shows, hy, Option.bind_some]
    refine ⟨fun m => ⟨by rw [h1]; exact shows_some hf hy m, h1 m⟩, fun z hz => ?_, rfl⟩
    simp only [ViewVars.put, lookup_putVar, if_neg hz]
  rcases he with he | he
  · obtain ⟨c, v, hy, hfr, hs⟩ := exec_init he
    exact key a c v hy hfr hs
  · obtain ⟨a, w, c, v, hx, hy, hfr, hs⟩ := exec_assign he
    rw [ViewVal.assign_eq hfr (hf x a w hx) (hf y c v hy)] at hs
    exact key a c v hy hfr hs

/-- **C69** (variables of containers).  A view of a variable that is taken from a view of a container shows in every memory what
the view of the container shows as this variable. -/
theorem c69_variable {x y k : Nat} {a : ViewType} (he : s.exec sz (.get x a y k) = .ok b s') (m : Mem) :
    ∃ capacity vars size payload layout hostLayout l, s.shows sz m y = some (.container capacity vars size payload layout hostLayout) ∧
      vars[k]? = some l ∧ s'.shows sz m x = some (.leaf l) := by
  obtain ⟨vars, e, kind, t, l, hy, hk, hl, hfr, rfl⟩ := exec_get he
  refine ⟨_, _, _, _, _, _, l.shows m (sz t.base), by simp only [ViewVars.shows, hy, Option.bind_some]; rfl, ?_, ?_⟩
  · rw [List.getElem?_zipWith, hk, hl]
  · rw [shows_put_self, from_shows hfr]
    rfl

/-- **C69** (new views).  A view that is made from a pointer, a size, and, if it is resizable, a pointer to a size, shows the elements
there; and a view of a jagged vector shows, on the device, the rows that the views at its pointer show, and on the host those of the
views at its host pointer, or the same ones if it has none. -/
theorem c69_new {x : Nat} {t : QType} (m : Mem) :
    (∀ n p, s.exec sz (.vecFixed x t n p) = .ok b s' → s'.shows sz m x =
      some (.leaf (.vector ⟨n, false, (List.range n).map fun i => bytesAt m (p + i * sz t.base) (sz t.base)⟩))) ∧
    (∀ c z p, z ≠ 0 → s.exec sz (.vecResizable x t c z p) = .ok b s' → s'.shows sz m x =
      some (.leaf (.vector ⟨c, true, (List.range (readLE m z 4)).map fun i => bytesAt m (p + i * sz t.base) (sz t.base)⟩))) ∧
    ∀ n p h, s.exec sz (.jag x t n p h) = .ok b s' → s'.shows sz m x =
      some (.leaf (.jagged ((List.range n).map fun i => (readView m ((if h = 0 then p else h) + 24 * i)).shows m (sz t.base))
        ((List.range n).map fun i => (readView m (p + 24 * i)).shows m (sz t.base)))) := by
  refine ⟨fun n p he => ?_, fun c z p hz he => ?_, fun n p h he => ?_⟩
  · cases he
    rw [shows_put_self]
    rfl
  · cases he
    rw [shows_put_self]
    simp only [ViewVal.shows, LeafView.shows, View.shows, View.ofResizable, View.elems, View.len, hz, if_false, Option.some.injEq,
      Shown.leaf.injEq, ShownLeaf.vector.injEq, ShownRow.mk.injEq, true_and]
    exact ⟨by simp [hz], trivial⟩
  · cases he
    rw [shows_put_self]
    by_cases hh : h = 0
    · subst hh
      rfl
    · simp only [ViewVal.shows, LeafView.shows, JagRef.make, ne_eq, hh, not_false_eq_true, if_true, if_false]
      rfl

/-- The hypothesis of the last part of `c69_new` is met in every state. -/
example (s : ViewVars) (x : Nat) (t : QType) : ∃ s', s.exec sz (.jag x t 3 96 200) = .ok true s' := ⟨_, rfl⟩

/-- **C69** (rows).  A view of a row that is taken from a view of a jagged vector, on the host or on the device, shows what the
view of the jagged vector shows as this row, and so it does after other memory has been changed. -/
theorem c69_row {x y i : Nat} {t : QType} {host : Bool} (he : s.exec sz (.row x t y host i) = .ok b s') (m : Mem)
    (hm : ∀ t j, s.vars.lookup y = some (.leaf .jagged t, .leaf (.jagged j)) → ∀ z, (if host then j.hostPtr else j.ptr) + viewSize * i ≤ z →
      z < (if host then j.hostPtr else j.ptr) + viewSize * i + viewSize → m z = s.mem z) :
    ∃ onHost onDevice r, s.shows sz m y = some (.leaf (.jagged onHost onDevice)) ∧ (if host then onHost else onDevice)[i]? = some r ∧
      s'.shows sz m x = some (.leaf (.vector r)) := by
  obtain ⟨u, j, hy, hfr, hi, rfl⟩ := exec_row he
  refine ⟨_, _, (readView m (j.slot host i)).shows m (sz u.base), by simp only [ViewVars.shows, hy, Option.bind_some]; rfl, ?_, ?_⟩
  · cases host <;> simp [hi, JagRef.slot, JagRef.array]
  · rw [shows_put_self, from_shows hfr, readView_congr (m := s.mem) (p := j.slot host i) (fun z h1 h2 => (hm u j hy z h1 h2).symm)]
    rfl

/-- **C69** (chains).  However a program copies, converts and assigns views, and whatever it writes through them: every view
shows, in every memory, what one of the views at the start shows, and what is read-only in that one is read-only in it. -/
theorem c69_chain {pre : List ViewOp} (hp : ViewRuns sz pre ⟨m0, []⟩ s) (ht : ∀ op ∈ pre, op.Typed) (hr : ViewRuns sz ops s s')
    (ho : ∀ op ∈ ops, op.Passes) (x : Nat) (a : ViewType) (hx : s'.type x = some a) :
    ∃ y c, s.type y = some c ∧ a.NoMoreThan c ∧ ∀ m, s'.shows sz m x = s.shows sz m y := by
  have hf := formed_runs hp (formed_init m0) ht
  clear hp ht
  revert hf
  suffices H : s.Formed → ∀ x a v, s'.vars.lookup x = some (a, v) →
      ∃ y c w, s.vars.lookup y = some (c, w) ∧ a.NoMoreThan c ∧ ∀ m, v.shows sz m a = w.shows sz m c by
    intro hf
    obtain ⟨⟨a', v⟩, hl, rfl⟩ : ∃ e, s'.vars.lookup x = some e ∧ e.1 = a := by
      simp only [ViewVars.type, Option.map_eq_some_iff] at hx
      exact hx
    obtain ⟨y, c, w, hy, hn, hm⟩ := H hf x a' v hl
    refine ⟨y, c, by simp only [ViewVars.type, hy, Option.map_some], hn, fun m => ?_⟩
    simp only [ViewVars.shows, hl, hy, Option.bind_some, hm m]
  clear hx x a
  induction hr with
  | nil => exact fun _ x a v hx => ⟨x, a, v, hx, noMore_refl a, fun _ => rfl⟩
  | @cons op ops s b s1 s2 h _ ih =>
    intro hf x a v hx
    have hpass := ho op (List.mem_cons_self ..)
    have htyped : op.Typed := by cases op <;> first | trivial | cases hpass
    obtain ⟨y, c, w, hy, hn, hm⟩ := ih (fun op hop => ho op (List.mem_cons_of_mem _ hop)) (formed_step hf htyped h) x a v hx
    have key : ∀ x' a' c' y' v', s.vars.lookup y' = some (c', v') → a'.from c' = true → s1 = s.put x' a' v' →
        ∃ y c w, s.vars.lookup y = some (c, w) ∧ a.NoMoreThan c ∧ ∀ m, v.shows sz m a = w.shows sz m c := by
      rintro x' a' c' y' v' hy' hfr rfl
      rw [show (s.put x' a' v').vars = putVar s.vars x' (a', v') from rfl, lookup_putVar] at hy
      split at hy
      · cases hy
        exact ⟨y', c', _, hy', noMore_trans hn (from_noMore hfr), fun m => (hm m).trans (from_shows hfr sz m)⟩
      · exact ⟨y, c, w, hy, hn, hm⟩
    cases op with
    | init x' a' y' =>
      obtain ⟨c', v', hy', hfr, hs⟩ := exec_init h
      exact key x' a' c' y' v' hy' hfr hs
    | assign x' y' =>
      obtain ⟨a', w', c', v', hx', hy', hfr, hs⟩ := exec_assign h
      rw [ViewVal.assign_eq hfr (hf x' a' w' hx') (hf y' c' v' hy')] at hs
      exact key x' a' c' y' v' hy' hfr hs
    | equal x' y' =>
      obtain ⟨rfl, -⟩ := exec_equal h
      exact ⟨y, c, w, hy, hn, hm⟩
    | write x' i e =>
      obtain ⟨m', rfl, -⟩ := exec_writes (.inl ⟨x', i, e, rfl⟩) h
      exact ⟨y, c, w, hy, hn, hm⟩
    | writeSize x' n =>
      obtain ⟨m', rfl, -⟩ := exec_writes (.inr (.inl ⟨x', n, rfl⟩)) h
      exact ⟨y, c, w, hy, hn, hm⟩
    | writePart x' p i e =>
      obtain ⟨m', rfl, -⟩ := exec_writes (.inr (.inr ⟨x', p, i, e, rfl⟩)) h
      exact ⟨y, c, w, hy, hn, hm⟩
    | _ => cases hpass

/-- **C69** (read-only views), partial.  Memory that no view for writing was made of is never written to, in any program that
does not replace rows through a jagged view for reading.  What is missing is shown by `c69_hole`. -/
theorem c69_readonly_partial (hs : SlotsApart Z slots) (h : ViewReach sz Z slots m0 s) (x : Nat) (hx : Z x) : s.mem x = m0 x :=
  (view_inv hs h).same x hx

/-! ## comparing -/

theorem view_eq_iff {v w : View} : v.eq w = true ↔ v = w := by
  obtain ⟨a, b, c⟩ := v
  obtain ⟨d, e, f⟩ := w
  simp [View.eq, and_assoc]

theorem jagRef_eq_iff {v w : JagRef} : v.eq w = true ↔ v = w := by
  obtain ⟨a, b, c⟩ := v
  obtain ⟨d, e, f⟩ := w
  simp [JagRef.eq, and_assoc]

/-- **C69** (comparison).  Views that compare equal show the same in every memory, also if one is for reading only. -/
theorem c69_equal {x y : Nat} (he : s.exec sz (.equal x y) = .ok true s') (m : Mem) : s.shows sz m x = s.shows sz m y := by
  obtain ⟨-, ⟨t, u, v, w, hx, hy, ht, hb⟩ | ⟨t, u, v, w, hx, hy, ht, hb⟩⟩ := exec_equal he
  · rw [view_eq_iff.1 hb.symm] at hx
    simp only [ViewVars.shows, hx, hy, Option.bind_some, ViewVal.shows, ht]
  · rw [jagRef_eq_iff.1 hb.symm] at hx
    simp only [ViewVars.shows, hx, hy, Option.bind_some, ViewVal.shows, ht]

/-- What the comparison of two variables says. -/
def Equal (sz : Nat → Nat) (s : ViewVars) (x y : Nat) (b : Bool) : Prop := ∃ s', s.exec sz (.equal x y) = .ok b s'

theorem equal_iff {x y : Nat} : Equal sz s x y b ↔
    (∃ t u v w, s.vars.lookup x = some (.leaf .vector t, .leaf (.vector v)) ∧
        s.vars.lookup y = some (.leaf .vector u, .leaf (.vector w)) ∧ t.base = u.base ∧ b = v.eq w) ∨
      ∃ t u v w, s.vars.lookup x = some (.leaf .jagged t, .leaf (.jagged v)) ∧
        s.vars.lookup y = some (.leaf .jagged u, .leaf (.jagged w)) ∧ t.base = u.base ∧ b = v.eq w := by
  constructor
  · rintro ⟨s', he⟩
    exact (exec_equal he).2
  · rintro (⟨t, u, v, w, hx, hy, ht, rfl⟩ | ⟨t, u, v, w, hx, hy, ht, rfl⟩)
    · exact ⟨s, by simp only [ViewVars.exec, hx, hy, if_pos ht]⟩
    · exact ⟨s, by simp only [ViewVars.exec, hx, hy, if_pos ht]⟩

/-- **C69** (comparison is an equivalence).  A view of a vector or of a jagged vector is equal to itself; the comparison is symmetric, whatever
it says, and transitive. -/
theorem c69_equivalence (x y z : Nat) :
    (¬ Equal sz s x x false) ∧ (∀ b, Equal sz s x y b → Equal sz s y x b) ∧
      (Equal sz s x y true → Equal sz s y z true → Equal sz s x z true) := by
  refine ⟨fun h => ?_, fun b h => ?_, fun h k => ?_⟩
  · rcases equal_iff.1 h with ⟨t, u, v, w, hx, hy, ht, hb⟩ | ⟨t, u, v, w, hx, hy, ht, hb⟩
    · rw [hx] at hy; cases hy
      rw [view_eq_iff.2 rfl] at hb
      cases hb
    · rw [hx] at hy; cases hy
      rw [jagRef_eq_iff.2 rfl] at hb
      cases hb
  · refine equal_iff.2 ?_
    rcases equal_iff.1 h with ⟨t, u, v, w, hx, hy, ht, hb⟩ | ⟨t, u, v, w, hx, hy, ht, hb⟩
    · exact .inl ⟨u, t, w, v, hy, hx, ht.symm, by rw [hb, Bool.eq_iff_iff, view_eq_iff, view_eq_iff]; exact eq_comm⟩
    · exact .inr ⟨u, t, w, v, hy, hx, ht.symm, by rw [hb, Bool.eq_iff_iff, jagRef_eq_iff, jagRef_eq_iff]; exact eq_comm⟩
  · refine equal_iff.2 ?_
    rcases equal_iff.1 h with ⟨t, u, v, w, hx, hy, ht, hb⟩ | ⟨t, u, v, w, hx, hy, ht, hb⟩
    · rcases equal_iff.1 k with ⟨t', u', v', w', hx', hy', ht', hb'⟩ | ⟨t', u', v', w', hx', hy', ht', hb'⟩
      · rw [hy] at hx'; cases hx'
        rw [view_eq_iff.1 hb'.symm] at hb
        exact .inl ⟨t, u', v, w', hx, hy', ht.trans ht', hb⟩
      · rw [hy] at hx'; cases hx'
    · rcases equal_iff.1 k with ⟨t', u', v', w', hx', hy', ht', hb'⟩ | ⟨t', u', v', w', hx', hy', ht', hb'⟩
      · rw [hy] at hx'; cases hx'
      · rw [hy] at hx'; cases hx'
        rw [jagRef_eq_iff.1 hb'.symm] at hb
        exact .inr ⟨t, u', v, w', hx, hy', ht.trans ht', hb⟩

/-- **C69** (copies are equal).  A view of a vector or of a jagged vector compares equal to the one that it was made from or assigned. -/
theorem c69_copy_equal (hr : ViewRuns sz ops ⟨m0, []⟩ s) (ht : ∀ op ∈ ops, op.Typed) {x y : Nat} {a : ViewType} (hxy : x ≠ y)
    (he : s.exec sz (.init x a y) = .ok b s' ∨ s.exec sz (.assign x y) = .ok b s') {k : VarKind} {u : QType}
    (hy : s.type y = some (.leaf k u)) (hk : k ≠ .scalar) : Equal sz s' x y true := by
  have hf := formed_runs hr (formed_init m0) ht
  have key : ∀ a c v, s.vars.lookup y = some (c, v) → a.from c = true → s' = s.put x a v → Equal sz s' x y true := by
    rintro a c v hl hfr rfl
    simp only [ViewVars.type, hl, Option.map_some, Option.some.injEq] at hy
    subst hy
    have h1 : (s.put x a v).vars.lookup x = some (a, v) := by simp only [ViewVars.put, lookup_putVar, if_true]
    have h2 : (s.put x a v).vars.lookup y = some (.leaf k u, v) := by
      simp only [ViewVars.put, lookup_putVar, if_neg (Ne.symm hxy), hl]
    have hn := from_noMore hfr
    cases a with
    | edm vs => simp [ViewType.from] at hfr
    | leaf l t =>
      obtain ⟨hk1, hk2, -⟩ := hn.2 0 (l, t) (k, u) rfl rfl
      replace hk1 : l = k := hk1
      subst hk1
      have hv := hf y _ v hl
      cases v with
      | edm => cases hv
      | leaf w =>
        have hv : w.kind = l := hv
        cases w with
        | scalar p => exact absurd hv.symm hk
        | vector w =>
          subst hv
          exact equal_iff.2 (.inl ⟨t, u, w, w, h1, h2, hk2, (view_eq_iff.2 rfl).symm⟩)
        | jagged w =>
          subst hv
          exact equal_iff.2 (.inr ⟨t, u, w, w, h1, h2, hk2, (jagRef_eq_iff.2 rfl).symm⟩)
  rcases he with he | he
  · obtain ⟨c, v, hl, hfr, hs⟩ := exec_init he
    exact key a c v hl hfr hs
  · obtain ⟨a, w, c, v, hx, hl, hfr, hs⟩ := exec_assign he
    rw [ViewVal.assign_eq hfr (hf x a w hx) (hf y c v hl)] at hs
    exact key a c v hl hfr hs

/-- **C69** (different views).  Two views of vectors of constant size that are not empty, and that compare different, show
different things in some memory. -/
theorem c69_different {x y : Nat} {t u : QType} {n p k q : Nat} (hx : s.vars.lookup x = some (.leaf .vector t, .leaf (.vector (.ofFixed n p))))
    (hy : s.vars.lookup y = some (.leaf .vector u, .leaf (.vector (.ofFixed k q)))) (hn : 0 < n) (hsz : 0 < sz t.base)
    (he : s.exec sz (.equal x y) = .ok false s') : ∃ m, s.shows sz m x ≠ s.shows sz m y := by
  obtain ⟨-, ⟨t', u', v, w, hx', hy', ht, hb⟩ | ⟨t', u', v, w, hx', hy', ht, hb⟩⟩ := exec_equal he
  · rw [hx] at hx'; rw [hy] at hy'
    cases hx'; cases hy'
    have hne : View.ofFixed n p ≠ View.ofFixed k q := fun hc => by
      rw [view_eq_iff.2 hc] at hb; cases hb
    by_cases hnk : n = k
    · subst hnk
      have hpq : p ≠ q := fun hc => hne (by rw [hc])
      refine ⟨fun z => if z = p then 1 else 0, fun hc => ?_⟩
      simp only [ViewVars.shows, hx, hy, Option.bind_some, ViewVal.shows, LeafView.shows, View.shows, View.ofFixed, Option.some.injEq,
        Shown.leaf.injEq, ShownLeaf.vector.injEq, ShownRow.mk.injEq, View.elems, View.len, if_true, true_and] at hc
      have h0 := congrArg (fun l => ((l[0]?).getD [])[0]?) hc
      simp only [List.getElem?_map, List.getElem?_range hn, Option.map_some, Option.getD_some, bytesAt, List.getElem?_range hsz,
        List.getElem?_range (ht ▸ hsz : 0 < sz u.base), Nat.zero_mul, Nat.add_zero, if_true, if_neg (Ne.symm hpq), Option.some.injEq] at h0
      exact absurd h0 (by decide)
    · refine ⟨fun _ => 0, fun hc => hnk ?_⟩
      simp only [ViewVars.shows, hx, hy, Option.bind_some, ViewVal.shows, LeafView.shows, View.shows, View.ofFixed, Option.some.injEq,
        Shown.leaf.injEq, ShownLeaf.vector.injEq, ShownRow.mk.injEq] at hc
      exact hc.1
  · rw [hx] at hx'; cases hx'

/-! ## examples -/

/-- Run a program. -/
def viewRun (sz : Nat → Nat) : List ViewOp → ViewVars → Option ViewVars
  | [], s => some s
  | op :: ops, s =>
    match s.exec sz op with
    | .ok _ s' => viewRun sz ops s'
    | _ => none

theorem viewRun_runs : ∀ {ops : List ViewOp} {s s' : ViewVars}, viewRun sz ops s = some s' → ViewRuns sz ops s s'
  | [], _, _, h => by cases h; exact .nil _
  | op :: ops, s, s', h => by
    simp only [viewRun] at h
    split at h
    · next b s1 he => exact .cons he (viewRun_runs h)
    · cases h

/-- Whether the compiler accepts the last step of a program. -/
def lastAccepted (sz : Nat → Nat) (ops : List ViewOp) (op : ViewOp) (s : ViewVars) : Option Bool :=
  match viewRun sz ops s with
  | none => none
  | some s' => match s'.exec sz op with
    | .refused => some false
    | .ub => none
    | .ok .. => some true

/-- `int`, and a memory with one view of one `int` at address 96. -/
def tInt : QType := ⟨0, false⟩
@[inherit_doc tInt]
def tConstInt : QType := ⟨0, true⟩
@[inherit_doc tInt]
def demoViewMem : Mem := writeViews (fun _ => 0) 96 [⟨1, 0, 2000⟩]
@[inherit_doc tInt]
def demoZ (x : Nat) : Prop := 1000 ≤ x ∧ x < 1004
@[inherit_doc tInt]
def demoSlots (p b : Nat) : Prop := p = 96 ∧ b = 0

theorem demoSlots_apart : SlotsApart demoZ demoSlots := by
  refine ⟨?_, ?_⟩
  · rintro p q b c ⟨rfl, rfl⟩ ⟨rfl, rfl⟩
    exact .inl ⟨rfl, rfl⟩
  · rintro x ⟨h1, h2⟩ ⟨p, b, ⟨rfl, rfl⟩, h3, h4⟩
    simp only [viewSize] at h4
    omega

theorem demo_jag_good (m : Mem) (hm : readView m 96 = ⟨1, 0, 2000⟩) :
    (LeafView.jagged (.make 1 96 0)).Good (fun _ => 4) demoZ demoSlots m (.jagged, tInt) := by
  refine ⟨rfl, fun v hv => (by cases hv), fun _ host i hi => ?_⟩
  have hi : i < 1 := hi
  obtain rfl : i = 0 := by omega
  have hslot : (JagRef.make 1 96 0).slot host 0 = 96 := by cases host <;> rfl
  rw [hslot, hm]
  refine ⟨⟨rfl, rfl⟩, fun x hx => ?_⟩
  rcases hx with ⟨h1, h2⟩ | ⟨h1, -⟩
  · replace h1 : 2000 ≤ x := h1
    refine ⟨fun hz => ?_, ?_⟩
    · obtain ⟨h3, h4⟩ := hz
      omega
    · rintro ⟨p, b, ⟨rfl, rfl⟩, h3, h4⟩
      simp only [viewSize] at h4
      omega
  · exact absurd rfl h1

theorem demo_readView : readView demoViewMem 96 = ⟨1, 0, 2000⟩ := by decide +kernel

/-- A jagged vector of one row, an `int` that may only be read, and the row replaced through a jagged view for reading. -/
def holeProgram : List ViewOp :=
  [.jag 0 tInt 1 96 0, .vecFixed 1 tConstInt 1 1000, .init 2 (.leaf .jagged tConstInt) 0, .setRow 2 true 0 1, .row 3 tInt 0 true 0,
    .write 3 0 [1, 2, 3, 4]]

/-- **C69** is false for programs that replace a row through a jagged view for reading: the array of views is shared with
the jagged view for writing that it was made from, and what was put into it as a view for reading is taken out of it as a view for writing.  The
program compiles, both views that it makes are good (the only one for writing gives access to the `int` at 2000), and it changes
the `int` at 1000. -/
theorem c69_hole :
    SlotsApart demoZ demoSlots ∧
    (ViewOp.jag 0 tInt 1 96 0).Fits (fun _ => 4) demoZ demoSlots ⟨demoViewMem, []⟩ ∧
    (∀ s, (ViewOp.vecFixed 1 tConstInt 1 1000).Fits (fun _ => 4) demoZ demoSlots s) ∧
    ∃ s, ViewRuns (fun _ => 4) holeProgram ⟨demoViewMem, []⟩ s ∧ demoZ 1000 ∧ s.mem 1000 ≠ demoViewMem 1000 := by
  refine ⟨demoSlots_apart, demo_jag_good _ demo_readView, fun s => ?_, ?_⟩
  · refine ⟨rfl, fun v hv => ?_, fun h => by cases h⟩
    cases hv
    exact ⟨by norm_num, by norm_num, by norm_num⟩
  · have h : (viewRun (fun _ => 4) holeProgram ⟨demoViewMem, []⟩).any (fun s => s.mem 1000 != demoViewMem 1000) = true := by
      decide +kernel
    obtain ⟨s, hs, hne⟩ := (Option.any_eq_true _ _).1 h
    exact ⟨s, viewRun_runs hs, ⟨by norm_num, by norm_num⟩, by simpa using hne⟩

/-- The conditions of `c69_readonly_partial` are met by a program that writes through a row of a jagged view. -/
example : ∃ s, ViewReach (fun _ => 4) demoZ demoSlots demoViewMem s ∧ s.mem 2000 = 1 := by
  have h : (viewRun (fun _ => 4) [.jag 0 tInt 1 96 0, .row 3 tInt 0 true 0, .write 3 0 [1, 2, 3, 4]] ⟨demoViewMem, []⟩).any
      (fun s => s.mem 2000 == 1) = true := by decide +kernel
  obtain ⟨s, hs, hne⟩ := (Option.any_eq_true _ _).1 h
  cases viewRun_runs hs with
  | cons h1 t1 => cases t1 with
    | cons h2 t2 => cases t2 with
      | cons h3 t3 => cases t3 with
        | nil => exact ⟨s, .step (op := .write 3 0 [1, 2, 3, 4]) (.step (op := .row 3 tInt 0 true 0)
          (.step (op := .jag 0 tInt 1 96 0) .init (demo_jag_good _ demo_readView) h1) trivial h2) trivial h3, by simpa using hne⟩

/-- What the compiler accepts: a view for reading can be made from one for writing, not the other way round, for vectors,
jagged vectors and containers; writing through a view for reading is refused; views for reading and for writing can be
compared. -/
example :
    lastAccepted (fun _ => 4) [.vecFixed 0 tInt 1 2000] (.init 1 (.leaf .vector tConstInt) 0) ⟨demoViewMem, []⟩ = some true ∧
    lastAccepted (fun _ => 4) [.vecFixed 0 tConstInt 1 2000] (.init 1 (.leaf .vector tInt) 0) ⟨demoViewMem, []⟩ = some false ∧
    lastAccepted (fun _ => 4) [.jag 0 tConstInt 1 96 0] (.init 1 (.leaf .jagged tInt) 0) ⟨demoViewMem, []⟩ = some false ∧
    lastAccepted (fun _ => 4) [.edm 0 [(.vector, tInt), (.jagged, tInt)] 3 ⟨0, 0, 0⟩]
      (.init 1 (.edm [(.vector, tInt), (.jagged, tConstInt)]) 0) ⟨demoViewMem, []⟩ = some true ∧
    lastAccepted (fun _ => 4) [.edm 0 [(.vector, tInt), (.jagged, tConstInt)] 3 ⟨0, 0, 0⟩]
      (.init 1 (.edm [(.vector, tConstInt), (.jagged, tInt)]) 0) ⟨demoViewMem, []⟩ = some false ∧
    lastAccepted (fun _ => 4) [.vecFixed 0 tConstInt 1 2000] (.write 0 0 [1, 2, 3, 4]) ⟨demoViewMem, []⟩ = some false ∧
    lastAccepted (fun _ => 4) [.vecFixed 0 tConstInt 1 2000, .vecFixed 1 tInt 1 2000] (.equal 0 1) ⟨demoViewMem, []⟩ = some true := by
  decide +kernel

/-- Variables of containers and rows of jagged vectors can be taken, and copies compare equal. -/
example :
    lastAccepted (fun _ => 4)
      [.edmFilled 0 [(.scalar, tInt), (.jagged, tInt)] ⟨1, [.scalar 3000, .jagged (.make 1 96 0)], ⟨0, 0, 0⟩, ⟨0, 0, 0⟩, ⟨0, 0, 0⟩, ⟨0, 0, 0⟩⟩]
      (.get 1 (.leaf .jagged tConstInt) 0 1) ⟨demoViewMem, []⟩ = some true ∧
    lastAccepted (fun _ => 4) [.jag 0 tInt 1 96 0] (.row 1 tConstInt 0 false 0) ⟨demoViewMem, []⟩ = some true ∧
    (viewRun (fun _ => 4) [.jag 0 tInt 1 96 0, .init 1 (.leaf .jagged tConstInt) 0] ⟨demoViewMem, []⟩).any
      (fun s => match s.exec (fun _ => 4) (.equal 0 1) with | .ok b _ => b | _ => false) = true ∧
    (viewRun (fun _ => 4) [.vecFixed 0 tInt 1 96, .vecFixed 1 tInt 1 100] ⟨demoViewMem, []⟩).any
      (fun s => match s.exec (fun _ => 4) (.equal 0 1) with | .ok b _ => !b | _ => false) = true := by
  decide +kernel

/-- A chain of conversions and assignments meets the conditions of `c69_chain`. -/
example : ∃ s s', ViewRuns (fun _ => 4) [.jag 0 tInt 1 96 0, .vecFixed 1 tConstInt 1 1000] ⟨demoViewMem, []⟩ s ∧
    ViewRuns (fun _ => 4) [.init 2 (.leaf .jagged tConstInt) 0, .init 3 (.leaf .jagged tConstInt) 2, .assign 3 0] s s' ∧
    s'.type 3 = some (.leaf .jagged tConstInt) := by
  refine ⟨_, _, .cons rfl (.cons rfl (.nil _)), .cons rfl (.cons rfl (.cons rfl (.nil _))), rfl⟩

/-- Views of nothing at different addresses show the same, but compare different. -/
theorem c69_different_same :
    let s : ViewVars := ⟨demoViewMem, [(0, .leaf .vector tInt, .leaf (.vector (.ofFixed 0 8))), (1, .leaf .vector tInt, .leaf (.vector (.ofFixed 0 16)))]⟩
    Equal (fun _ => 4) s 0 1 false ∧ ∀ m, s.shows (fun _ => 4) m 0 = s.shows (fun _ => 4) m 1 :=
  ⟨⟨_, rfl⟩, fun _ => rfl⟩

end Vecmem.Props
