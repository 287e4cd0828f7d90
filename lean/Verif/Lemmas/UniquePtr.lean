import Verif.Spec.Lifetime
import Verif.Lemmas.Wrappers
import Verif.Lemmas.Tactics
import Mathlib.Data.List.Perm.Basic

namespace Vecmem

open IntMath

variable {σ ι : Type} {R : Limits} {G : Nat} {ups : ι → MR σ} {u0 : σ} {T : List (ι × Blk)}

/-! ## traces -/

theorem Traced.ctors {tr : List (Ev ι)} {B : List (ι × Blk)} : ∀ (l : List Blk) {O : List Blk} {tr : List (Ev ι)},
    Traced tr B O → (∀ o ∈ l, ∃ e ∈ B, o.Inside e.2) → l.Pairwise Blk.Disjoint →
    (∀ o ∈ l, ∀ x ∈ O, o.Disjoint x) → Traced (tr ++ l.map .ctor) B (l ++ O) := by
  intro l
  induction l with
  | nil => intro O tr h _ _ _; simpa using h
  | cons o l ih =>
    intro O tr h h1 h2 h3
    obtain ⟨h2a, h2b⟩ := List.pairwise_cons.1 h2
    have hc := Traced.ctor o h (h1 o List.mem_cons_self) (h3 o List.mem_cons_self)
    have := ih hc (fun x hx => h1 x (List.mem_cons_of_mem _ hx)) h2b (by
      intro x hx y hy
      rcases List.mem_cons.1 hy with rfl | hy
      · exact (h2a x hx).symm
      · exact h3 x (List.mem_cons_of_mem _ hx) y hy)
    rw [List.append_assoc] at this
    exact .perm this (.refl _) List.perm_middle

theorem Traced.dtors {B : List (ι × Blk)} : ∀ (l : List Blk) {O : List Blk} {tr : List (Ev ι)},
    Traced tr B (l ++ O) → Traced (tr ++ l.map .dtor) B O := by
  intro l
  induction l with
  | nil => intro O tr h; simpa using h
  | cons o l ih =>
    intro O tr h
    have := ih (Traced.dtor h)
    rwa [List.append_assoc] at this

theorem elems_pairwise (t : CType) (p n : Nat) : ((List.range n).map (elemAt t p)).Pairwise Blk.Disjoint := by
  rw [List.pairwise_iff_getElem]
  intro i j hi hj hij
  simp only [List.getElem_map, List.getElem_range]
  left
  simp only [elemAt]
  have : (i + 1) * t.size ≤ j * t.size := Nat.mul_le_mul_right _ hij
  rw [Nat.add_mul, Nat.one_mul] at this
  omega

theorem elems_inside (t : CType) (p n : Nat) (a : Nat) :
    ∀ o ∈ (List.range n).map (elemAt t p), o.Inside ⟨p, n * t.size, a⟩ := by
  intro o ho
  obtain ⟨k, hk, rfl⟩ := List.mem_map.1 ho
  have hk' := List.mem_range.1 hk
  have : (k + 1) * t.size ≤ n * t.size := Nat.mul_le_mul_right _ hk'
  rw [Nat.add_mul, Nat.one_mul] at this
  simp only [elemAt, Blk.Inside]
  omega

/-! ## the invariant -/

/-- A pointer that is null or owns a block which contains its objects. -/
def UPtr.Wf (x : UPtr ι) : Prop :=
  x.ptr ≠ 0 → ∃ i, x.del.mr = some i ∧ x.del.align = 0 ∧ ∀ o ∈ x.objects, o.Inside ⟨x.ptr, x.del.size, maxAlign⟩

/-- The number of destructor calls made by a deleter. -/
def Deleter.count (d : Deleter ι) : Nat :=
  match d.kind with
  | .obj => 1
  | .objArray => d.elems
  | .alloc => 0

theorem UPtr.objects_eq {x : UPtr ι} (h : x.ptr ≠ 0) :
    x.objects = (List.range x.del.count).map (elemAt x.del.elem x.ptr) := by
  unfold UPtr.objects Deleter.count
  rw [if_neg h]
  cases x.del.kind <;> simp [elemAt]

/-- The pointers `P` own disjoint blocks that are live upstream besides `T`, and the trace says the same. -/
structure UInv (R : Limits) (ups : ι → MR σ) (u0 : σ) (T : List (ι × Blk)) (w : Tr ι σ) (P : List (UPtr ι)) : Prop where
  reach : FReach R ups u0 w.u (P.flatMap UPtr.owns ++ T)
  traced : Traced w.trace (P.flatMap UPtr.owns) (P.flatMap UPtr.objects)
  wf : ∀ x ∈ P, x.Wf

theorem perm_flatMap {α β : Type} (f : α → List β) {l l' : List α} (h : l.Perm l') : (l.flatMap f).Perm (l'.flatMap f) := by
  induction h with
  | nil => exact .refl _
  | cons x _ ih => simp only [List.flatMap_cons]; exact ih.append_left _
  | swap x y l =>
    simp only [List.flatMap_cons, ← List.append_assoc]
    exact List.perm_append_comm.append_right _
  | trans _ _ ih1 ih2 => exact ih1.trans ih2

theorem UInv.perm {w : Tr ι σ} {P P' : List (UPtr ι)} (h : UInv R ups u0 T w P) (hp : P.Perm P') :
    UInv R ups u0 T w P' :=
  ⟨.perm h.reach ((perm_flatMap _ hp).append_right _), .perm h.traced (perm_flatMap _ hp) (perm_flatMap _ hp),
    fun x hx => h.wf x (hp.symm.subset hx)⟩

theorem UPtr.null_owns {x : UPtr ι} (h : x.ptr = 0) : x.owns = [] ∧ x.objects = [] := by
  simp [UPtr.owns, UPtr.objects, h]

theorem UInv.null {w : Tr ι σ} {P : List (UPtr ι)} {x : UPtr ι} (h0 : x.ptr = 0) :
    UInv R ups u0 T w (x :: P) ↔ UInv R ups u0 T w P := by
  obtain ⟨h1, h2⟩ := UPtr.null_owns h0
  constructor
  · rintro ⟨a, b, c⟩
    simp only [List.flatMap_cons, h1, h2, List.nil_append] at a b
    exact ⟨a, b, fun y hy => c y (List.mem_cons_of_mem _ hy)⟩
  · rintro ⟨a, b, c⟩
    refine ⟨by simpa [h1] using a, by simpa [h1, h2] using b, ?_⟩
    intro y hy
    rcases List.mem_cons.1 hy with rfl | hy
    · intro h; exact absurd h0 h
    · exact c y hy

/-- Every object owned is inside a block owned. -/
theorem UInv.objects_inside {w : Tr ι σ} {P : List (UPtr ι)} (h : UInv R ups u0 T w P) :
    ∀ o ∈ P.flatMap UPtr.objects, ∃ e ∈ P.flatMap UPtr.owns, o.Inside e.2 := by
  intro o ho
  obtain ⟨x, hx, hox⟩ := List.mem_flatMap.1 ho
  have h0 : x.ptr ≠ 0 := by
    intro h0; rw [(UPtr.null_owns h0).2] at hox; simp at hox
  obtain ⟨i, hi, _, hin⟩ := h.wf x hx h0
  refine ⟨(i, ⟨x.ptr, x.del.size, maxAlign⟩), List.mem_flatMap.2 ⟨x, hx, ?_⟩, hin o hox⟩
  simp [UPtr.owns, h0, hi]

theorem UInv.destroy (h : FamLawful R G ups u0) {w : Tr ι σ} {P : List (UPtr ι)} {x : UPtr ι}
    (hi : UInv R ups u0 T w (x :: P)) (h0 : x.ptr ≠ 0) :
    (x.del.run ups w x.ptr).1 = .ok () ∧ UInv R ups u0 T (x.del.run ups w x.ptr).2 P := by
  obtain ⟨i, hmr, hal, hin⟩ := hi.wf x List.mem_cons_self h0
  have hown : x.owns = [(i, ⟨x.ptr, x.del.size, maxAlign⟩)] := by simp [UPtr.owns, h0, hmr]
  have hre := hi.reach
  have htr := hi.traced
  simp only [List.flatMap_cons, hown, List.cons_append, List.nil_append] at hre htr
  have hd := h.dealloc hre List.mem_cons_self
  have hlive := h.live hre
  have hrun : x.del.run ups w x.ptr =
      Tr.deallocate ups ⟨w.u, w.trace ++ ((List.range x.del.count).map (elemAt x.del.elem x.ptr)).map .dtor⟩ i
        x.ptr x.del.size maxAlign := by
    unfold Deleter.run Deleter.count
    rw [hmr]
    simp only [hal, gt_iff_lt, Nat.lt_irrefl, if_false]
    rfl
  rw [hrun, ← UPtr.objects_eq h0]
  unfold Tr.deallocate
  cases hx : (ups i).deallocate w.u x.ptr x.del.size maxAlign with
  | mk r u' =>
    simp only at hd
    rw [hx] at hd
    simp only at hd
    subst hd
    refine ⟨rfl, ⟨?_, ?_, fun y hy => hi.wf y (List.mem_cons_of_mem _ hy)⟩⟩
    · exact .free hre hx
    · refine Traced.free (b := ⟨x.ptr, x.del.size, maxAlign⟩) (i := i) (Traced.dtors x.objects htr) ?_
      intro o ho
      have hi' : UInv R ups u0 T w (x :: P) := hi
      obtain ⟨y, hy, hoy⟩ := List.mem_flatMap.1 ho
      have hy0 : y.ptr ≠ 0 := by
        intro hz; rw [(UPtr.null_owns hz).2] at hoy; simp at hoy
      obtain ⟨j, hj, _, hinj⟩ := hi.wf y (List.mem_cons_of_mem _ hy) hy0
      have hm : (j, (⟨y.ptr, y.del.size, maxAlign⟩ : Blk)) ∈ P.flatMap UPtr.owns :=
        List.mem_flatMap.2 ⟨y, hy, by simp [UPtr.owns, hy0, hj]⟩
      have hdis := (List.pairwise_cons.1 hlive.2).1 _ (List.mem_append_left _ hm)
      exact (hdis.symm).mono (hinj o hoy) ⟨Nat.le_refl _, Nat.le_refl _⟩

theorem Factory.facts (f : Factory) (i : ι) :
    (f.deleter i).mr = some i ∧ (f.deleter i).align = 0 ∧ (f.deleter i).elem = f.elem ∧
    (f.deleter i).size = f.bytes ∧ (f.deleter i).count = f.constructs ∧ f.request.1 = f.elem ∧
    (f.constructs = 0 ∨ f.constructs = f.request.2) ∧
    (f.request.2 * f.request.1.size < 2 ^ 64 → f.bytes = f.request.2 * f.request.1.size) := by
  cases f <;> refine ⟨rfl, rfl, rfl, rfl, rfl, rfl, ?_, ?_⟩ <;>
    simp only [Factory.constructs, Factory.request, Factory.bytes, Nat.one_mul, true_or, or_true, implies_true] <;>
    exact fun h => Nat.mod_eq_of_lt h

theorem UInv.make (h : FamLawful R G ups u0) {w : Tr ι σ} {P : List (UPtr ι)} (hi : UInv R ups u0 T w P)
    (i : ι) (f : Factory) (hs : 0 < f.request.1.size) (hq : IsReq R (f.request.2 * f.request.1.size) maxAlign) :
    (∃ x w', f.make ups w i none = (.ok x, w') ∧ x.del = f.deleter i ∧ UInv R ups u0 T w' (x :: P) ∧
      (x.ptr = 0 ↔ f.request.2 = 0) ∧ w'.trace.length = w.trace.length + 1 + f.constructs + (if f.copies then 1 else 0)) ∨
    ∃ w', f.make ups w i none = (.badAlloc, w') ∧ w'.trace = w.trace ∧ UInv R ups u0 T w' P := by
  obtain ⟨f1, f2, f3, f4, f5, f6, f7, f8⟩ := f.facts i
  have hb := f8 hq.1.2
  have hcount : ∀ p, (⟨p, f.deleter i⟩ : UPtr ι).objects =
      if p = 0 then [] else (List.range f.constructs).map (elemAt f.elem p) := by
    intro p
    by_cases hp : p = 0
    · rw [if_pos hp, (UPtr.null_owns hp).2]
    · rw [if_neg hp, UPtr.objects_eq hp, f5, f3]
  unfold Factory.make Tr.allocate
  simp only [hb, Option.filter_none]
  by_cases hz : f.request.2 = 0
  · have hc0 : f.constructs = 0 := by rcases f7 with h | h <;> omega
    have hz' : f.request.2 * f.request.1.size = 0 := by rw [hz, Nat.zero_mul]
    rw [hz'] at hq hb ⊢
    have ha := h.zero i hi.reach hq
    cases hx : (ups i).allocate w.u 0 maxAlign with
    | mk r u' =>
      rw [hx] at ha
      rcases ha with ha | ha <;> simp only at ha <;> subst ha
      · left
        refine ⟨⟨0, f.deleter i⟩, _, rfl, rfl, (UInv.null rfl).2 ⟨?_, ?_, hi.wf⟩, by simp [hz], by
          simp only [hc0, List.range_zero, List.map_nil, List.append_nil]
          split <;> simp⟩
        · exact .zero i hi.reach hq hx
        · have h1 := Traced.allocZero i 0 maxAlign hi.traced
          simp only [hc0, List.range_zero, List.map_nil, List.append_nil]
          split
          · exact .copy 0 0 h1 (fun h => absurd rfl h)
          · simpa using h1
      · right
        exact ⟨_, rfl, rfl, .zero i hi.reach hq hx, hi.traced, hi.wf⟩
  · have hn : 0 < f.request.2 * f.request.1.size := Nat.mul_pos (by omega) hs
    have ha := h.alloc i hi.reach hq hn
    cases hx : (ups i).allocate w.u (f.request.2 * f.request.1.size) maxAlign with
    | mk r u' =>
      rw [hx] at ha
      cases r <;> simp only [GoodAnswer] at ha
      · rename_i p
        left
        have hown : (⟨p, f.deleter i⟩ : UPtr ι).owns =
            [(i, ⟨p, f.request.2 * f.request.1.size, maxAlign⟩)] := by
          simp [UPtr.owns, ha.1, f1, f4, hb]
        have hobj : (⟨p, f.deleter i⟩ : UPtr ι).objects = (List.range f.constructs).map (elemAt f.elem p) := by
          rw [hcount, if_neg ha.1]
        have hin : ∀ o ∈ (List.range f.constructs).map (elemAt f.elem p),
            o.Inside ⟨p, f.request.2 * f.request.1.size, maxAlign⟩ := by
          intro o ho
          rcases f7 with h7 | h7
          · rw [h7] at ho; simp at ho
          · rw [h7, ← f6] at ho; exact elems_inside _ _ _ _ o ho
        refine ⟨⟨p, f.deleter i⟩, _, rfl, rfl, ⟨?_, ?_, ?_⟩, by simp [ha.1, hz], by
          simp only [List.length_append, List.length_map, List.length_range, List.length_cons, List.length_nil]
          split <;> simp⟩
        · simp only [List.flatMap_cons, hown, List.cons_append, List.nil_append]
          exact .alloc i hi.reach hq hn hx
        · have h1 := Traced.alloc i p _ maxAlign hi.traced hn
          have h2 := Traced.ctors (tr := []) ((List.range f.constructs).map (elemAt f.elem p)) h1
            (fun o ho => ⟨_, List.mem_cons_self, hin o ho⟩) (elems_pairwise _ _ _) (by
              intro o ho x hxo
              obtain ⟨e, he, hin'⟩ := hi.objects_inside x hxo
              refine (ha.2.2.2 e.2 ?_).mono (hin o ho) hin'
              exact List.mem_map.2 ⟨e, List.mem_append_left _ he, rfl⟩)
          simp only [List.flatMap_cons, hown, hobj, List.cons_append, List.nil_append]
          split
          · exact .copy _ _ h2 (fun _ => ⟨_, List.mem_cons_self, rfl, rfl⟩)
          · simpa using h2
        · intro y hy
          rcases List.mem_cons.1 hy with rfl | hy
          · intro _
            refine ⟨i, f1, f2, ?_⟩
            rw [hobj]
            intro o ho
            have := hin o ho
            simpa only [f4, hb] using this
          · exact hi.wf y hy
      · right
        exact ⟨_, rfl, rfl, .refuse i hi.reach hq hn hx, hi.traced, hi.wf⟩

/-! ## the program variables -/

/-- All pointers of the program. -/
def PWorld.ptrs (w : PWorld ι σ) : List (UPtr ι) := w.slots ++ w.released

theorem slots_split {α : Type} {l : List α} {d : Nat} (hd : d < l.length) (dflt : α) :
    l.Perm (l.getD d dflt :: l.eraseIdx d) ∧ ∀ y, (l.set d y).Perm (y :: l.eraseIdx d) := by
  have hg : l.getD d dflt = l[d] := by simp [List.getD, List.getElem?_eq_getElem hd]
  rw [hg]
  exact ⟨(List.getElem_cons_eraseIdx_perm hd).symm, fun y => List.set_perm_cons_eraseIdx hd y⟩

theorem UInv.resetTo (h : FamLawful R G ups u0) {w : PWorld ι σ} {d : Nat} (hd : d < w.slots.length) (x : UPtr ι)
    (hi : UInv R ups u0 T w.tr (x :: w.ptrs)) :
    ∃ w', w.resetTo ups d x.ptr = (.ok (), w') ∧ w'.slots = w.slots.set d ⟨x.ptr, (w.slots.getD d {}).del⟩ ∧
      w'.released = w.released ∧ UInv R ups u0 T w'.tr (x :: (w.slots.eraseIdx d ++ w.released)) := by
  obtain ⟨s1, _⟩ := slots_split hd ({} : UPtr ι)
  have hp : (x :: w.ptrs).Perm (w.slots.getD d {} :: x :: (w.slots.eraseIdx d ++ w.released)) := by
    have : (x :: w.ptrs).Perm (x :: (w.slots.getD d {} :: (w.slots.eraseIdx d ++ w.released))) :=
      (s1.append_right w.released).cons x
    exact this.trans (.swap _ _ _)
  have hi' := hi.perm hp
  unfold PWorld.resetTo
  simp only
  by_cases h0 : (w.slots.getD d {}).ptr = 0
  · rw [if_pos h0]
    exact ⟨_, rfl, rfl, rfl, (UInv.null h0).1 hi'⟩
  · rw [if_neg h0]
    obtain ⟨r1, r2⟩ := hi'.destroy h h0
    exact ⟨_, Prod.ext r1 rfl, rfl, rfl, r2⟩

theorem UInv.assign (h : FamLawful R G ups u0) {w : PWorld ι σ} {d : Nat} (hd : d < w.slots.length) (x : UPtr ι)
    (hi : UInv R ups u0 T w.tr (x :: w.ptrs)) :
    ∃ w', w.assign ups d x = (.ok (), w') ∧ w'.slots = w.slots.set d x ∧ w'.released = w.released ∧
      UInv R ups u0 T w'.tr w'.ptrs := by
  obtain ⟨w1, h1, h2, h3, h4⟩ := UInv.resetTo h hd x hi
  unfold PWorld.assign
  rw [h1]
  have hs : w1.slots.set d { (w1.slots.getD d {}) with del := x.del } = w.slots.set d x := by
    rw [h2, List.set_set]
    simp [List.getD, hd]
  refine ⟨_, rfl, hs, h3, ?_⟩
  refine h4.perm ?_
  simp only [PWorld.ptrs, hs, h3]
  obtain ⟨_, s2⟩ := slots_split hd ({} : UPtr ι)
  exact ((s2 x).append_right _).symm

theorem UInv.step (h : FamLawful R G ups u0) {w : PWorld ι σ} (hi : UInv R ups u0 T w.tr w.ptrs) (op : POp ι)
    (hv : op.Valid R w.slots.length) :
    ((w.step ups op).1 = .ok () ∨ (∃ d i f b, op = .make d i f b) ∧ (w.step ups op).1 = .badAlloc ∧
      (w.step ups op).2.slots = w.slots ∧ (w.step ups op).2.released = w.released ∧
      (w.step ups op).2.tr.trace = w.tr.trace) ∧
    (w.step ups op).2.slots.length = w.slots.length ∧
    UInv R ups u0 T (w.step ups op).2.tr (w.step ups op).2.ptrs := by
  cases op with
  | make d i f fail =>
    obtain ⟨hd, rfl, hs, hq⟩ := hv
    unfold PWorld.step
    rcases hi.make h i f hs hq with ⟨x, w', h1, h2, h3, _⟩ | ⟨w', h1, h2, h3⟩
    · simp only [h1]
      obtain ⟨w2, k1, k2, k3, k4⟩ := UInv.assign h (w := { w with tr := w' }) hd x h3
      rw [k1]
      exact ⟨Or.inl rfl, by rw [k2]; simp, k4⟩
    · simp only [h1]
      exact ⟨Or.inr ⟨⟨d, i, f, none, rfl⟩, rfl, trivial, trivial, h2⟩, trivial, h3⟩
  | move d s =>
    obtain ⟨hd, hs⟩ := hv
    obtain ⟨s1, s2⟩ := slots_split hs ({} : UPtr ι)
    unfold PWorld.step
    simp only
    have hi' : UInv R ups u0 T w.tr
        (w.slots.getD s {} :: ((w.slots.set s { (w.slots.getD s {}) with ptr := 0 }) ++ w.released)) := by
      have k1 : UInv R ups u0 T w.tr ({ (w.slots.getD s {}) with ptr := 0 } :: w.ptrs) := (UInv.null rfl).2 hi
      refine k1.perm ?_
      refine ((s1.append_right w.released).cons _).trans ?_
      refine (List.Perm.swap _ _ _).trans ?_
      exact (((s2 _).append_right w.released).symm).cons _
    obtain ⟨w2, k1, k2, k3, k4⟩ := UInv.assign h
      (w := { w with slots := w.slots.set s { (w.slots.getD s {}) with ptr := 0 } })
      (d := d) (by simpa using hd) _ hi'
    rw [k1]
    exact ⟨Or.inl rfl, by rw [k2]; simp, k4⟩
  | reset d =>
    obtain ⟨w', h1, h2, h3, h4⟩ := UInv.resetTo h (d := d) hv ⟨0, {}⟩ ((UInv.null rfl).2 hi)
    have hst : w.step ups (.reset d) = (.ok (), w') := h1
    rw [hst]
    refine ⟨Or.inl rfl, by rw [h2]; simp, ?_⟩
    obtain ⟨_, s2⟩ := slots_split hv ({} : UPtr ι)
    have h5 : UInv R ups u0 T w'.tr (⟨0, (w.slots.getD d {}).del⟩ :: (w.slots.eraseIdx d ++ w.released)) :=
      (UInv.null rfl).2 ((UInv.null rfl).1 h4)
    refine h5.perm ?_
    simp only [PWorld.ptrs, h2, h3]
    exact ((s2 _).append_right _).symm
  | release d =>
    obtain ⟨s1, s2⟩ := slots_split hv ({} : UPtr ι)
    unfold PWorld.step
    refine ⟨Or.inl rfl, by simp, ?_⟩
    simp only [PWorld.ptrs]
    have k1 := hi.perm (s1.append_right w.released)
    by_cases h0 : (w.slots.getD d {}).ptr = 0
    · rw [if_pos h0]
      have k2 : UInv R ups u0 T w.tr ({ (w.slots.getD d {}) with ptr := 0 } :: (w.slots.eraseIdx d ++ w.released)) :=
        (UInv.null rfl).2 ((UInv.null h0).1 k1)
      exact k2.perm ((s2 _).append_right _).symm
    · rw [if_neg h0]
      have k2 : UInv R ups u0 T w.tr ({ (w.slots.getD d {}) with ptr := 0 } ::
          (w.slots.getD d {} :: (w.slots.eraseIdx d ++ w.released))) := (UInv.null rfl).2 k1
      refine k2.perm ?_
      refine (List.Perm.cons _ List.perm_middle.symm).trans ?_
      exact ((s2 _).append_right _).symm
  | swap d e =>
    obtain ⟨hd, he⟩ := hv
    unfold PWorld.step
    refine ⟨Or.inl rfl, by simp, ?_⟩
    simp only [PWorld.ptrs]
    refine hi.perm (List.Perm.append_right _ ?_)
    have g1 : w.slots.getD d {} = w.slots[d] := by simp [List.getD, List.getElem?_eq_getElem hd]
    have g2 : w.slots.getD e {} = w.slots[e] := by simp [List.getD, List.getElem?_eq_getElem he]
    rw [g1, g2]
    exact (List.set_set_perm hd he).symm

end Vecmem
