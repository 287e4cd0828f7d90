import Verif.Lemmas.Jagged
import Verif.Props.C34_Arrays
import Verif.Props.C01_C02_Contiguous

/-!
# C35: jagged views and jagged device vectors
-/

namespace Vecmem
namespace Props

variable {α σ : Type}

/-- **C35**, programs: a jagged device vector that holds a list of lists, with rows that are resizable or not, behaves
like that list of lists under every program of operations on its inner vectors (however they are got at).  No row is
affected by an operation on another. -/
theorem c35_run (k : JKind α) (j : JView) (cap : Nat → Nat) (res : Nat → Prop) (ops : List (JView.Access × DVOp α)) :
    ∀ (m : JMem α) (rows : List (List α)), JHolds k m j rows →
      (∀ i v, i < rows.length → m.views (j.ptr + viewSize * i) = some v → cap i = v.capacity ∧ (res i ↔ v.sizePtr ≠ 0)) →
      RowsFit k.trivialDtor k.dflt cap res rows ops →
      ∃ rows', RowsRun k.dflt cap rows ops (j.run k m ops).1 rows' ∧ JHolds k (j.run k m ops).2 j rows' ∧
        (j.run k m ops).2.views = m.views := by
  induction ops with
  | nil => intro m rows h _ _; exact ⟨rows, .nil rows, h, rfl⟩
  | cons xo ops ih =>
    obtain ⟨x, op⟩ := xo
    intro m rows h hcap hfit
    obtain ⟨hx, hfit⟩ := hfit
    have hl : rows[x.pos rows.length]? = some rows[x.pos rows.length] := List.getElem?_eq_getElem hx
    obtain ⟨h1, h2, h3⟩ := hfit _ hl
    obtain ⟨v, hv, -⟩ := h.row _ _ hl
    obtain ⟨c1, c2⟩ := hcap _ v hx hv
    obtain ⟨r, m', l', e, hs, hh, hviews⟩ := jstep_ok h hl hv (h2.imp id c2.1) (c1 ▸ h1)
    rw [← c1] at hs
    obtain ⟨rows', g1, g2, g3⟩ := ih m' _ hh (by
      intro i v hi hv
      rw [List.length_set] at hi
      rw [hviews] at hv
      exact hcap i v hi hv) (h3 r l' hs)
    refine ⟨rows', ?_, ?_, ?_⟩
    · simp only [JView.run, e]
      exact .cons hl hs g1
    · simp only [JView.run, e]
      exact g2
    · simp only [JView.run, e]
      exact g3.trans hviews

/-- A walk over mapped elements. -/
private theorem jag_range {k : JKind α} {m : JMem α} {j : JView} {rows : List (List α)} (h : JHolds k m j rows) :
    ∃ ds : List (DV α), ds.length = rows.length ∧
      (∀ (i : Nat) (d : DV α) (l : List α), ds[i]? = some d → rows[i]? = some l → d.HoldsAny l) ∧
      (jagIter k m).Range (fun i => (j.ptr + viewSize * i : Nat)) ds := by
  have hview : ∀ i, i < rows.length → ∃ v, m.views (j.ptr + viewSize * i) = some v := by
    intro i hi
    obtain ⟨v, hv, -⟩ := h.row i _ (List.getElem?_eq_getElem hi)
    exact ⟨v, hv⟩
  let vs : List View := (List.range rows.length).map fun i => (m.views (j.ptr + viewSize * i)).getD ⟨0, 0, 0⟩
  have hvl : vs.length = rows.length := by simp [vs]
  have hvs : ∀ i, i < rows.length → m.views (j.ptr + viewSize * i) = vs[i]? := by
    intro i hi
    obtain ⟨v, hv⟩ := hview i hi
    simp [vs, hi, hv]
  have hr := c34_pointers viewSize (by decide) m.views j.ptr vs (fun i hi => hvs i (hvl ▸ hi))
  refine ⟨vs.map (m.row k), by simp [hvl], ?_, ?_⟩
  · intro i d l hd hl
    obtain ⟨hi, -⟩ := List.getElem?_eq_some_iff.1 hl
    obtain ⟨v, hv, hrow⟩ := h.row i l hl
    rw [hvs i hi] at hv
    rw [List.getElem?_map, hv] at hd
    cases hd
    exact hrow
  · refine ⟨?_, ?_, ?_, ?_, ?_, ?_⟩
    · intro i hi; exact hr.inc i (by simpa using hi)
    · intro i hi; exact hr.dec i (by simpa using hi)
    · intro i i' n hi hi' e; exact hr.add i i' n (by simpa using hi) (by simpa using hi') e
    · intro i i' n hi hi' e; exact hr.sub i i' n (by simpa using hi) (by simpa using hi') e
    · intro i hi
      have := hr.deref i (by simpa using hi)
      simp only [jagIter, this, Res.map, List.getElem_map]
    · intro i i' hi hi'; exact hr.eq i i' (by simpa using hi) (by simpa using hi')

/-- **C35**, the number of rows. -/
theorem c35_size (k : JKind α) (m : JMem α) (j : JView) (rows : List (List α)) (h : JHolds k m j rows) :
    j.size = rows.length ∧ (j.empty = true ↔ rows = []) := by
  refine ⟨h.size, ?_⟩
  simp [JView.empty, h.size]

/-- **C35**, iteration: the loop from `begin()` to `end()` meets inner vectors that hold the rows, in order, and the loop
from `rbegin()` to `rend()` meets them in reverse. -/
theorem c35_iterate (k : JKind α) (m : JMem α) (j : JView) (rows : List (List α)) (h : JHolds k m j rows) (fuel : Nat)
    (hf : rows.length ≤ fuel) :
    ∃ ds : List (DV α), ds.length = rows.length ∧
      (∀ (i : Nat) (d : DV α) (l : List α), ds[i]? = some d → rows[i]? = some l → d.HoldsAny l) ∧
      j.iterate k m fuel = .ok ds ∧ j.iterateBack k m fuel = .ok ds.reverse := by
  obtain ⟨ds, h1, h2, h3⟩ := jag_range h
  refine ⟨ds, h1, h2, ?_, ?_⟩
  · have := c34_loop _ _ _ h3 fuel (by omega)
    rw [h1, ← h.size] at this
    simpa [JView.iterate] using this
  · have := c34_reverse_loop _ _ _ h3 fuel (by omega)
    rw [h1, ← h.size] at this
    simpa [JView.iterateBack] using this

/-- The full C35: whenever `get_data` succeeds for a host vector of vectors with the contents `rows`, the view has as
many rows; each row has, through a jagged device vector, the size of the inner host vector, and its elements at all
positions; and the contents of the host vectors are unchanged.
(`small` is what the hypothesis of the partial theorem asks of the host sizes.) -/
def C35Full (small : List (List Nat) → Prop) : Prop :=
  ∀ (σ : Type) (up : MR σ) (u u' : σ) (k : JKind Nat) (m m' : JMem Nat) (vs : List HostVec) (rows : List (List Nat))
    (b : UniqueAlloc) (j : JView), 0 < k.size → HostHolds k m vs rows → rows.length < 2 ^ 64 → small rows →
    getJagged up u m vs = (.ok (b, j), u', m') →
    j.size = rows.length ∧ m'.cells = m.cells ∧
    ∀ (i : Nat) (l : List Nat), rows[i]? = some l →
      (j.step k m' (.at_ i) .size).1 = .ok (.num l.length) ∧ (j.step k m' (.index i) .size).1 = .ok (.num l.length) ∧
      ∀ (q x : Nat), l[q]? = some x →
        (j.step k m' (.at_ i) (.at_ q)).1 = .ok (.val x) ∧ (j.step k m' (.index i) (.index q)).1 = .ok (.val x)

/-- **C35**, partial: it holds if the inner vectors have fewer than `2^32` elements. -/
theorem c35_get_data_partial : C35Full (fun rows => ∀ l ∈ rows, l.length < 2 ^ 32) := by
  intro σ up u u' k m m' vs rows b j hk h hn h32 e
  obtain ⟨hj, hcells, -⟩ := getJagged_holds hk h h32 hn e
  refine ⟨hj.size, hcells, fun i l hl => ?_⟩
  obtain ⟨hi, -⟩ := List.getElem?_eq_some_iff.1 hl
  obtain ⟨v, hv, -⟩ := hj.row i l hl
  have key : ∀ (x : JView.Access) (op : DVOp Nat), x.pos rows.length = i → op.keepsSize = true →
      op.Fits k.trivialDtor v.capacity l →
      ∃ r m'' l', j.step k m' x op = (.ok r, m'') ∧ VecStep k.dflt v.capacity l op r l' := by
    intro x op hx h1 h2
    obtain ⟨r, m'', l', e1, e2, -⟩ := jstep_ok hj (x := x) (op := op) (l := l) (v := v) (hx ▸ hl) (hx ▸ hv) (.inl h1) h2
    exact ⟨r, m'', l', e1, e2⟩
  refine ⟨?_, ?_, fun q x hq => ⟨?_, ?_⟩⟩
  · obtain ⟨r, m'', l', e1, e2⟩ := key (.at_ i) .size rfl rfl True.intro
    cases e2
    rw [e1]
  · obtain ⟨r, m'', l', e1, e2⟩ := key (.index i) .size rfl rfl True.intro
    cases e2
    rw [e1]
  · obtain ⟨r, m'', l', e1, e2⟩ := key (.at_ i) (.at_ q) rfl rfl (List.getElem?_eq_some_iff.1 hq).1
    cases e2 with
    | at_ _ hv => rw [hq] at hv; cases hv; rw [e1]
  · obtain ⟨r, m'', l', e1, e2⟩ := key (.index i) (.index q) rfl rfl (List.getElem?_eq_some_iff.1 hq).1
    cases e2 with
    | index _ hv => rw [hq] at hv; cases hv; rw [e1]

/-- **C35**, the view is live: after every program of reading and writing through the jagged device vector (which behaves
like the list of lists), the host vectors hold what the program left. -/
theorem c35_writes_reach_host_partial (up : MR σ) (u u' : σ) (k : JKind α) (m m' : JMem α) (vs : List HostVec)
    (rows : List (List α)) (b : UniqueAlloc) (j : JView) (hk : 0 < k.size) (h : HostHolds k m vs rows)
    (h32 : ∀ l ∈ rows, l.length < 2 ^ 32) (hn : rows.length < 2 ^ 64)
    (e : getJagged up u m vs = (.ok (b, j), u', m')) (ops : List (JView.Access × DVOp α))
    (hfit : RowsFit k.trivialDtor k.dflt (fun i => ((rows[i]?).getD []).length) (fun _ => False) rows ops) :
    ∃ rows', RowsRun k.dflt (fun i => ((rows[i]?).getD []).length) rows ops (j.run k m' ops).1 rows' ∧
      HostHolds k (j.run k m' ops).2 vs rows' := by
  obtain ⟨hj, hcells, hviews⟩ := getJagged_holds hk h h32 hn e
  have hsz : ∀ (i : Nat) (v : HostVec), vs[i]? = some v → v.size % 2 ^ 32 = v.size ∧ v.size = ((rows[i]?).getD []).length := by
    intro i v hv
    obtain ⟨hi, -⟩ := List.getElem?_eq_some_iff.1 hv
    rw [h.length] at hi
    have hr : rows[i]? = some rows[i] := List.getElem?_eq_getElem hi
    have h1 := (h.elems i v _ hv hr).1
    have h2 := h32 _ (List.getElem_mem hi)
    exact ⟨Nat.mod_eq_of_lt (by omega), by rw [hr]; exact h1⟩
  obtain ⟨rows', g1, g2, g3⟩ := c35_run k j _ (fun _ => False) ops m' rows hj (by
    intro i v hi hv
    have hiv : i < vs.length := by rw [h.length]; exact hi
    rw [hviews i _ (List.getElem?_eq_getElem hiv)] at hv
    cases hv
    obtain ⟨s1, s2⟩ := hsz i _ (List.getElem?_eq_getElem hiv)
    exact ⟨by rw [s1]; exact s2.symm, ⟨fun x => x.elim, fun x => x rfl⟩⟩) hfit
  have hlen : rows'.length = rows.length := by rw [← g2.size, hj.size]
  refine ⟨rows', g1, ⟨h.length.trans hlen.symm, ?_, h.apart⟩⟩
  intro i v l hv hl
  obtain ⟨w, hw, hrow⟩ := g2.row i l hl
  rw [g3, hviews i v hv] at hw
  cases hw
  obtain ⟨s1, s2⟩ := hsz i v hv
  rcases hrow with ⟨_, r2, _, r4⟩ | hbad
  · exact ⟨s1.symm.trans r2, r4⟩
  · have := hbad.resizable
    simp [JMem.row] at this

/-- A host vector of three vectors, one of which is empty. -/
def demoJag : JMem Nat := ⟨fun a => if a = 1000 then some 7 else if a = 1008 then some 8 else if a = 2000 then some 9 else none,
  fun _ => 0, fun _ => none⟩
def demoJagVs : List HostVec := [⟨1000, 2⟩, ⟨0, 0⟩, ⟨2000, 1⟩]
def demoKind : JKind Nat := ⟨true, true, 0, fun _ => 0, 8⟩

theorem demoJag_holds : HostHolds demoKind demoJag demoJagVs [[7, 8], [], [9]] := by
  refine ⟨rfl, ?_, ?_⟩
  · intro i v l hv hl
    match i, hv, hl with
    | 0, hv, hl =>
      cases hv; cases hl
      exact ⟨rfl, fun q hq => by
        match q, hq with
        | 0, _ => rfl
        | 1, _ => rfl⟩
    | 1, hv, hl => cases hv; cases hl; exact ⟨rfl, fun q hq => absurd hq (Nat.not_lt_zero _)⟩
    | 2, hv, hl =>
      cases hv; cases hl
      exact ⟨rfl, fun q hq => by
        match q, hq with
        | 0, _ => rfl⟩
    | i + 3, hv, hl => simp [demoJagVs] at hv
  · intro i i' v w hne hv hw
    match i, i', hv, hw with
    | 0, 0, _, _ => exact absurd rfl hne
    | 0, 1, hv, hw => cases hv; cases hw; decide
    | 0, 2, hv, hw => cases hv; cases hw; decide
    | 1, 0, hv, hw => cases hv; cases hw; decide
    | 1, 1, _, _ => exact absurd rfl hne
    | 1, 2, hv, hw => cases hv; cases hw; decide
    | 2, 0, hv, hw => cases hv; cases hw; decide
    | 2, 1, hv, hw => cases hv; cases hw; decide
    | 2, 2, _, _ => exact absurd rfl hne
    | 0, i' + 3, _, hw => simp [demoJagVs] at hw
    | 1, i' + 3, _, hw => simp [demoJagVs] at hw
    | 2, i' + 3, _, hw => simp [demoJagVs] at hw
    | i + 3, _, hv, _ => simp [demoJagVs] at hv

/-- `get_data` succeeds for it, and a program that reads and writes behaves as described; the last read is of the element
that was written before. -/
example : (match getJagged demoBase demoInit demoJag demoJagVs with
    | (.ok (_, j), _, m) => (j.run demoKind m [(.back, .write true 0 5), (.front, .iterateBack), (.at_ 1, .empty),
        (.index 2, .at_ 0), (.at_ 2, .size)]).1
    | _ => []) = [.ok .unit, .ok (.vals [8, 7]), .ok (.bool true), .ok (.val 5), .ok (.num 1)] := by decide +kernel

/-- The truncation: the row that a host vector of `2^32` elements becomes. -/
theorem c35_truncated (up : MR σ) (u u' : σ) (k : JKind α) (m m' : JMem α) (p : Nat) (b : UniqueAlloc) (j : JView)
    (e : getJagged up u m [⟨p, 2 ^ 32⟩] = (.ok (b, j), u', m')) :
    (j.step k m' (.index 0) .size).1 = .ok (.num 0) := by
  unfold getJagged at e
  cases hr : allocOuter up u [(⟨p, 2 ^ 32⟩ : HostVec)].length with
  | mk r u1 =>
    rw [hr] at e
    cases r with
    | ok b' =>
      simp only [Prod.mk.injEq, Res.ok.injEq] at e
      obtain ⟨⟨rfl, rfl⟩, rfl, rfl⟩ := e
      obtain ⟨-, -, -, f4⟩ := fillViews_ok [⟨p, 2 ^ 32⟩] (initViews m b'.ptr 0 1) b'.ptr 0
      have f := f4 0 _ rfl
      simp only [Nat.zero_add, Nat.mod_self] at f
      simp only [JView.step, JView.access, JView.index, List.length_cons, List.length_nil, Nat.zero_add, f]
      rfl
    | _ => simp [Res.map] at e

/-- **C35** is false: an inner vector of `2^32` elements is presented as empty. -/
theorem c35_false : ¬ C35Full (fun _ => True) := by
  intro h
  obtain ⟨l, hl, hx⟩ : ∃ l : List Nat, l.length = 2 ^ 32 ∧ ∀ x ∈ l, x = 7 :=
    ⟨List.replicate (2 ^ 32) 7, List.length_replicate, fun x hx => List.eq_of_mem_replicate hx⟩
  obtain ⟨b, j, u', m', e⟩ : ∃ b j u' m', getJagged demoBase demoInit
      (⟨fun _ => some 7, fun _ => 0, fun _ => none⟩ : JMem Nat) [⟨1000, 2 ^ 32⟩] = (.ok (b, j), u', m') := by
    obtain ⟨b, u', e⟩ : ∃ b u', allocOuter demoBase demoInit 1 = (.ok b, u') := ⟨_, _, rfl⟩
    refine ⟨b, ⟨1, b.ptr⟩, u', fillViews (initViews ⟨fun _ => some 7, fun _ => 0, fun _ => none⟩ b.ptr 0 1) b.ptr 0 [⟨1000, 2 ^ 32⟩], ?_⟩
    simp only [getJagged, List.length_cons, List.length_nil, Nat.zero_add, e]
  have h1 := (h _ _ _ _ demoKind _ _ _ [l] _ _ (by decide) ⟨rfl, ?_, ?_⟩ (by simp) trivial e).2.2 0 l rfl
  · have h2 := c35_truncated _ _ _ demoKind _ _ _ _ _ e
    rw [h1.2.1, hl] at h2
    simp at h2
  · intro i v l' hv hl'
    obtain ⟨hi, -⟩ := List.getElem?_eq_some_iff.1 hv
    have hi0 : i = 0 := by simpa using hi
    subst hi0
    simp only [List.getElem?_cons_zero, Option.some.injEq] at hv hl'
    subst hv
    subst hl'
    refine ⟨hl.symm, fun q hq => ?_⟩
    rw [List.getElem?_eq_getElem hq, hx _ (List.getElem_mem hq)]
  · intro i i' v w hne hv hw
    obtain ⟨hi, -⟩ := List.getElem?_eq_some_iff.1 hv
    obtain ⟨hi', -⟩ := List.getElem?_eq_some_iff.1 hw
    simp at hi hi'
    omega

end Props
end Vecmem
