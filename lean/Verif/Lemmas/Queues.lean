import Verif.Lemmas.Streams

/-!
# Lemmas about wrappers of SYCL queues
-/

namespace Vecmem

theorem setAt_setAt {α : Type} (f : Nat → α) (i : Nat) (x y : α) : setAt (setAt f i x) i y = setAt f i y := by
  funext j
  by_cases h : j = i
  · subst h; rw [setAt_self, setAt_self]
  · rw [setAt_ne _ _ h, setAt_ne _ _ h, setAt_ne _ _ h]

/-- Who owns which object; one object may have no owner for the moment. -/
structure QueueMem (s : SyclState) (o : Option Nat) : Prop where
  alive : ∀ w c a, s.wr w = some c → c.managed = some a → s.obj a ≠ none
  orphan : ∀ a, o = some a → s.obj a ≠ none ∧ ∀ w c, s.wr w = some c → c.managed ≠ some a
  inj : ∀ w c v d a, s.wr w = some c → c.managed = some a → s.wr v = some d → d.managed = some a → w = v
  owned : ∀ a, s.obj a ≠ none → o = some a ∨ ∃ w c, s.wr w = some c ∧ c.managed = some a
  deleted : ∀ a, a ∈ s.deleted ↔ a < s.nextObj ∧ s.obj a = none
  bound : ∀ a, s.nextObj ≤ a → s.obj a = none
  once : s.deleted.Nodup
  ptr : ∀ w c a, s.wr w = some c → c.queue = .own a → a < s.nextObj

namespace QueueMem

variable {s : SyclState} {o : Option Nat}

theorem lt (h : QueueMem s o) {a : Nat} (ha : s.obj a ≠ none) : a < s.nextObj := by
  by_contra hc
  exact ha (h.bound a (by omega))

theorem make (h : QueueMem s none) (q : Stream) : QueueMem (s.make q) (some s.nextObj) := by
  have hz := h.bound s.nextObj (Nat.le_refl _)
  have ne : ∀ a, s.obj a ≠ none → a ≠ s.nextObj := by rintro a ha rfl; exact ha hz
  refine ⟨fun w c a hw hc => ?_, ?_, h.inj, fun a ha => ?_, fun a => ?_, fun a ha => ?_, h.once, fun w c a hw hc => ?_⟩
  · have := h.alive w c a hw hc
    show setAt s.obj s.nextObj (some q) a ≠ none
    rw [setAt_ne _ _ (ne a this)]; exact this
  · rintro a ⟨⟩
    refine ⟨?_, fun w c hw hc => h.alive w c _ hw hc hz⟩
    show setAt s.obj s.nextObj (some q) s.nextObj ≠ none
    rw [setAt_self]; simp
  · replace ha : setAt s.obj s.nextObj (some q) a ≠ none := ha
    by_cases e : a = s.nextObj
    · subst e; exact .inl rfl
    · rw [setAt_ne _ _ e] at ha
      rcases h.owned a ha with h' | h'
      · cases h'
      · exact .inr h'
  · show a ∈ s.deleted ↔ a < s.nextObj + 1 ∧ setAt s.obj s.nextObj (some q) a = none
    rw [h.deleted]
    by_cases e : a = s.nextObj
    · subst e; rw [setAt_self]; simp
    · rw [setAt_ne _ _ e]
      constructor
      · rintro ⟨h1, h2⟩; exact ⟨by omega, h2⟩
      · rintro ⟨h1, h2⟩; exact ⟨by omega, h2⟩
  · replace ha : s.nextObj + 1 ≤ a := ha
    show setAt s.obj s.nextObj (some q) a = none
    rw [setAt_ne _ _ (by omega)]; exact h.bound a (by omega)
  · have := h.ptr w c a hw hc
    show a < s.nextObj + 1
    omega

/-- A wrapper takes over the object without an owner, and gives up its own. -/
theorem swap (h : QueueMem s o) (w : Nat) (c : Option SyclWrap) (hc : c.bind (·.managed) = o)
    (hp : ∀ d a, c = some d → d.queue = .own a → a < s.nextObj) :
    QueueMem (s.put w c) ((s.wr w).bind (·.managed)) := by
  subst hc
  have get : ∀ {v d}, (s.put w c).wr v = some d → (v = w ∧ c = some d) ∨ (v ≠ w ∧ s.wr v = some d) := by
    intro v d hv
    replace hv : setAt s.wr w c v = some d := hv
    by_cases e : v = w
    · subst e; rw [setAt_self] at hv; exact .inl ⟨rfl, hv⟩
    · rw [setAt_ne _ _ e] at hv; exact .inr ⟨e, hv⟩
  refine ⟨fun v d a hv hd => ?_, fun a ha => ?_, fun v d v' d' a hv hd hv' hd' => ?_, fun a ha => ?_, h.deleted, h.bound, h.once,
    fun v d a hv hd => ?_⟩
  · rcases get hv with ⟨-, e⟩ | ⟨-, e⟩
    · exact (h.orphan a (by rw [e]; exact hd)).1
    · exact h.alive v d a e hd
  · obtain ⟨old, ho, hm⟩ := Option.bind_eq_some_iff.mp ha
    refine ⟨h.alive w old a ho hm, fun v d hv hd => ?_⟩
    rcases get hv with ⟨-, e⟩ | ⟨hne, e⟩
    · exact (h.orphan a (by rw [e]; exact hd)).2 w old ho hm
    · exact hne (h.inj v d w old a e hd ho hm)
  · rcases get hv with ⟨e1, e⟩ | ⟨hne, e⟩ <;> rcases get hv' with ⟨e1', e'⟩ | ⟨hne', e'⟩
    · rw [e1, e1']
    · exact absurd hd' ((h.orphan a (by rw [e]; exact hd)).2 v' d' e')
    · exact absurd hd ((h.orphan a (by rw [e']; exact hd')).2 v d e)
    · exact h.inj v d v' d' a e hd e' hd'
  · rcases h.owned a ha with h' | ⟨v, d, hv, hd⟩
    · obtain ⟨d, hd, hm⟩ := Option.bind_eq_some_iff.mp h'
      exact .inr ⟨w, d, by show setAt s.wr w c w = some d; rw [setAt_self, hd], hm⟩
    · by_cases e : v = w
      · subst e; exact .inl (by rw [hv]; exact hd)
      · exact .inr ⟨v, d, by show setAt s.wr w c v = some d; rw [setAt_ne _ _ e, hv], hd⟩
  · rcases get hv with ⟨-, e⟩ | ⟨-, e⟩
    · exact hp d a e hd
    · exact h.ptr v d a e hd

theorem delete (h : QueueMem s o) : QueueMem (s.delete o) none := by
  cases o with
  | none => exact h
  | some k =>
    obtain ⟨hk, hno⟩ := h.orphan k rfl
    refine ⟨fun w c a hw hc => ?_, fun a ha => (by cases ha), h.inj, fun a ha => ?_, fun a => ?_, fun a ha => ?_, ?_, h.ptr⟩
    · show setAt s.obj k none a ≠ none
      rw [setAt_ne _ _ (by rintro rfl; exact hno w c hw hc)]
      exact h.alive w c a hw hc
    · replace ha : setAt s.obj k none a ≠ none := ha
      by_cases e : a = k
      · subst e; rw [setAt_self] at ha; exact absurd rfl ha
      · rw [setAt_ne _ _ e] at ha
        rcases h.owned a ha with h' | h'
        · cases h'; exact absurd rfl e
        · exact .inr h'
    · show a ∈ k :: s.deleted ↔ a < s.nextObj ∧ setAt s.obj k none a = none
      rw [List.mem_cons, h.deleted]
      by_cases e : a = k
      · subst e; rw [setAt_self]; simp [h.lt hk]
      · rw [setAt_ne _ _ e]; simp [e]
    · show setAt s.obj k none a = none
      by_cases e : a = k
      · subst e; exact setAt_self ..
      · rw [setAt_ne _ _ e]; exact h.bound a ha
    · refine List.nodup_cons.mpr ⟨fun hc => hk ((h.deleted k).mp hc).2, h.once⟩

end QueueMem

theorem SyclState.put_put (s : SyclState) (w : Nat) (c d : Option SyclWrap) : (s.put w c).put w d = s.put w d := by
  show ({ s with wr := setAt (setAt s.wr w c) w d } : SyclState) = { s with wr := setAt s.wr w d }
  rw [setAt_setAt]

theorem QueueMem.step {s s' : SyclState} (h : QueueMem s none) {op : WrapOp} (hs : s.step op = some s') :
    QueueMem s' none := by
  cases op with
  | create w =>
    simp only [SyclState.step] at hs
    split at hs
    · cases hs
    · rename_i h0
      injection hs with hs
      subst hs
      have h1 : QueueMem { s with next := s.next + 1 } none := ⟨h.alive, h.orphan, h.inj, h.owned, h.deleted, h.bound, h.once, h.ptr⟩
      have h2 := (h1.make (.own s.next)).swap w (some ⟨.own s.nextObj, some s.nextObj⟩) rfl
        (by rintro d a ⟨⟩ ⟨⟩; exact Nat.lt_succ_self _)
      have e : (SyclState.make { s with next := s.next + 1 } (.own s.next)).wr w = none := h0
      rw [e] at h2
      exact h2
  | view w i =>
    simp only [SyclState.step] at hs
    split at hs
    · cases hs
    · rename_i h0
      injection hs with hs
      subst hs
      have h2 := h.swap w (some ⟨.ext i, none⟩) rfl (by rintro d a ⟨⟩ ⟨⟩)
      rw [h0] at h2
      exact h2
  | viewOf w v =>
    simp only [SyclState.step] at hs
    split at hs
    · rename_i c h0 hv
      injection hs with hs
      subst hs
      have h2 := h.swap w (some ⟨c.queue, none⟩) rfl (by rintro d a ⟨⟩ e; exact h.ptr v c a hv e)
      rw [h0] at h2
      exact h2
    · cases hs
  | copy w v =>
    simp only [SyclState.step] at hs
    split at hs
    · rename_i c h0 hv
      split at hs
      · rename_i a ha
        obtain ⟨q, hq, hs⟩ := Option.map_eq_some_iff.mp hs
        subst hs
        have h2 := (h.make q).swap w (some ⟨.own s.nextObj, some s.nextObj⟩) rfl
          (by rintro d a ⟨⟩ ⟨⟩; exact Nat.lt_succ_self _)
        have e : (s.make q).wr w = none := h0
        rw [e] at h2
        exact h2
      · injection hs with hs
        subst hs
        have h2 := h.swap w (some ⟨c.queue, none⟩) rfl (by rintro d a ⟨⟩ e; exact h.ptr v c a hv e)
        rw [h0] at h2
        exact h2
    · cases hs
  | move w v =>
    simp only [SyclState.step] at hs
    split at hs
    · rename_i c h0 hv
      have hne : w ≠ v := by rintro rfl; rw [h0] at hv; cases hv
      have h1 := h.swap v (some ⟨c.queue, none⟩) rfl (by rintro d a ⟨⟩ e; exact h.ptr v c a hv e)
      rw [hv] at h1
      replace h1 : QueueMem _ c.managed := h1
      have e : (s.put v (some ⟨c.queue, none⟩)).wr w = none := by
        show setAt _ _ _ _ = _
        rw [setAt_ne _ _ hne, h0]
      split at hs
      · rename_i a ha
        injection hs with hs
        subst hs
        have h2 := h1.swap w (some ⟨.own a, some a⟩) ha.symm
          (by rintro d b ⟨⟩ ⟨⟩; exact h.lt (h.alive v c a hv ha))
        rw [e] at h2
        exact h2
      · rename_i ha
        injection hs with hs
        subst hs
        have h2 := h1.swap w (some ⟨c.queue, none⟩) ha.symm (by rintro d b ⟨⟩ e; exact h.ptr v c b hv e)
        rw [e] at h2
        exact h2
    · cases hs
  | assign w v =>
    simp only [SyclState.step] at hs
    split at hs
    · rename_i old c ho hv
      split at hs
      · injection hs with hs; subst hs; exact h
      · split at hs
        · rename_i a ha
          obtain ⟨q, hq, hs⟩ := Option.map_eq_some_iff.mp hs
          subst hs
          have h2 := (h.make q).swap w (some ⟨.own s.nextObj, some s.nextObj⟩) rfl
            (by rintro d a ⟨⟩ ⟨⟩; exact Nat.lt_succ_self _)
          have e : (s.make q).wr w = some old := ho
          rw [e] at h2
          exact h2.delete
        · injection hs with hs
          subst hs
          have h1 := h.swap w none rfl (by rintro d a ⟨⟩)
          rw [ho] at h1
          have h2 := h1.swap w (some ⟨c.queue, old.managed⟩) rfl (by rintro d a ⟨⟩ e; exact h.ptr v c a hv e)
          rw [SyclState.put_put] at h2
          have e : (s.put w none).wr w = none := setAt_self ..
          rw [e] at h2
          exact h2
    · cases hs
  | moveAssign w v =>
    simp only [SyclState.step] at hs
    split at hs
    · rename_i old c ho hv
      split at hs
      · injection hs with hs; subst hs; exact h
      · rename_i hne
        have h1 := h.swap v (some ⟨c.queue, none⟩) rfl (by rintro d a ⟨⟩ e; exact h.ptr v c a hv e)
        rw [hv] at h1
        replace h1 : QueueMem _ c.managed := h1
        have e : (s.put v (some ⟨c.queue, none⟩)).wr w = some old := by
          show setAt _ _ _ _ = _
          rw [setAt_ne _ _ hne, ho]
        split at hs
        · rename_i a ha
          injection hs with hs
          subst hs
          have h2 := h1.swap w (some ⟨.own a, some a⟩) ha.symm
            (by rintro d b ⟨⟩ ⟨⟩; exact h.lt (h.alive v c a hv ha))
          rw [e] at h2
          exact h2.delete
        · rename_i ha
          injection hs with hs
          subst hs
          have h2 := h1.swap w (some ⟨c.queue, none⟩) ha.symm (by rintro d b ⟨⟩ e; exact h.ptr v c b hv e)
          rw [e] at h2
          exact h2.delete
    · cases hs
  | destroy w =>
    simp only [SyclState.step] at hs
    split at hs
    · rename_i old ho
      injection hs with hs
      subst hs
      have h1 := h.swap w none rfl (by rintro d a ⟨⟩)
      rw [ho] at h1
      exact h1.delete
    · cases hs

/-- A wrapper does what is expected of it. -/
def WrapOk (s : SyclState) : Option SyclWrap → Option WrapRef → Prop
  | some c, some x =>
    x.owns = c.managed.isSome ∧ (∀ q, s.deref c.queue = some q → q = x.stream) ∧
      (∀ a, c.managed = some a → c.queue = .own a) ∧ ∀ i, x.stream = .ext i → c.queue = .ext i
  | none, none => True
  | _, _ => False

/-- All wrappers do what is expected of them. -/
structure QueueRefs (s : SyclState) (r : WrapSpec) : Prop where
  ok : ∀ w, WrapOk s (s.wr w) (r.refs w)
  next : r.next = s.next

theorem WrapOk.mono {s s' : SyclState} {c : Option SyclWrap} {x : Option WrapRef} (h : WrapOk s c x)
    (hd : ∀ d q, c = some d → s'.deref d.queue = some q → s.deref d.queue = some q) : WrapOk s' c x := by
  cases c with
  | none => cases x <;> exact h
  | some c =>
    cases x with
    | none => exact h
    | some x => exact ⟨h.1, fun q hq => h.2.1 q (hd c q rfl hq), h.2.2⟩

theorem QueueRefs.make {s : SyclState} {r : WrapSpec} (h : QueueRefs s r) (hm : QueueMem s none) (q : Stream) :
    ∀ w, WrapOk (s.make q) ((s.make q).wr w) (r.refs w) := by
  intro w
  refine (h.ok w).mono fun d q' hd hq => ?_
  cases hp : d.queue with
  | ext i => rw [hp] at hq; exact hq
  | own a =>
    rw [hp] at hq
    have := hm.ptr w d a hd hp
    replace hq : setAt s.obj s.nextObj (some q) a = some q' := hq
    rw [setAt_ne _ _ (by omega)] at hq
    exact hq

theorem wrapOk_setAt {s : SyclState} {wr : Nat → Option SyclWrap} {r : Nat → Option WrapRef}
    (h : ∀ w, WrapOk s (wr w) (r w)) (w : Nat) (c : Option SyclWrap) (x : Option WrapRef) (hc : WrapOk s c x) (j : Nat) :
    WrapOk s (setAt wr w c j) (setAt r w x j) := by
  by_cases e : j = w
  · subst e; rw [setAt_self, setAt_self]; exact hc
  · rw [setAt_ne _ _ e, setAt_ne _ _ e]; exact h j

theorem wrapOk_delete {s : SyclState} {c : Option SyclWrap} {x : Option WrapRef} (o : Option Nat) (h : WrapOk s c x) :
    WrapOk (s.delete o) c x := by
  refine h.mono fun d q _ hq => ?_
  cases o with
  | none => exact hq
  | some k =>
    cases hp : d.queue with
    | ext i => rw [hp] at hq; exact hq
    | own a =>
      rw [hp] at hq
      replace hq : setAt s.obj k none a = some q := hq
      by_cases e : a = k
      · subst e; rw [setAt_self] at hq; cases hq
      · rw [setAt_ne _ _ e] at hq; exact hq

theorem wrapOk_some {s : SyclState} {c : SyclWrap} {x : Option WrapRef} (h : WrapOk s (some c) x) :
    ∃ y, x = some y ∧ y.owns = c.managed.isSome ∧ (∀ q, s.deref c.queue = some q → q = y.stream) ∧
      (∀ a, c.managed = some a → c.queue = .own a) ∧ ∀ i, y.stream = .ext i → c.queue = .ext i := by
  cases x with
  | none => exact absurd h id
  | some y => exact ⟨y, rfl, h⟩

theorem wrapOk_none {s : SyclState} {x : Option WrapRef} (h : WrapOk s none x) : x = none := by
  cases x with
  | none => rfl
  | some y => exact absurd h id

/-- A wrapper around what a wrapper designates. -/
theorem wrapOk_view {s : SyclState} {c : SyclWrap} {y : WrapRef} (h : WrapOk s (some c) (some y)) :
    WrapOk s (some ⟨c.queue, none⟩) (some ⟨y.stream, false⟩) :=
  ⟨rfl, h.2.1, by rintro a ⟨⟩, h.2.2.2⟩

theorem delete_wr (s : SyclState) (o : Option Nat) : (s.delete o).wr = s.wr := by cases o <;> rfl
theorem delete_next (s : SyclState) (o : Option Nat) : (s.delete o).next = s.next := by cases o <;> rfl

theorem QueueRefs.step {s s' : SyclState} {r : WrapSpec} (h : QueueRefs s r) (hm : QueueMem s none) {op : WrapOp}
    (hv : ∀ w v, op = .assign w v → ∀ x y, r.refs w = some x → r.refs v = some y → x.owns = true → y.owns = true)
    (hs : s.step op = some s') : QueueRefs s' (r.step op) := by
  -- an owner and its copy
  have owner : ∀ v c a q, s.wr v = some c → c.managed = some a → s.obj a = some q →
      r.refs v = some ⟨q, true⟩ ∧ ∀ i, q ≠ .ext i := by
    intro v c a q hc ha hq
    have h1 := h.ok v
    rw [hc] at h1
    obtain ⟨y, e, ho, hd, hp, hx⟩ := wrapOk_some h1
    have := hd q (by rw [hp a ha]; exact hq)
    refine ⟨?_, fun i hi => ?_⟩
    · rw [e]
      cases y
      simp_all
    · have := hx i (by rw [← this, hi])
      rw [hp a ha] at this
      cases this
  have fresh : ∀ q, (∀ i, q ≠ .ext i) → WrapOk (s.make q) (some ⟨.own s.nextObj, some s.nextObj⟩) (some ⟨q, true⟩) := by
    intro q hx
    refine ⟨rfl, fun q' hq => ?_, by rintro a ⟨⟩; rfl, fun i hi => absurd hi (hx i)⟩
    replace hq : setAt s.obj s.nextObj (some q) s.nextObj = some q' := hq
    rw [setAt_self] at hq
    injection hq with hq
    exact hq.symm
  cases op with
  | create w =>
    simp only [SyclState.step] at hs
    split at hs
    · cases hs
    · injection hs with hs
      subst hs
      refine ⟨fun j => ?_, by show r.next + 1 = s.next + 1; rw [h.next]⟩
      have h1 : QueueRefs { s with next := s.next + 1 } ⟨r.refs, s.next + 1⟩ := ⟨h.ok, rfl⟩
      have h2 : QueueMem { s with next := s.next + 1 } none := ⟨hm.alive, hm.orphan, hm.inj, hm.owned, hm.deleted, hm.bound, hm.once, hm.ptr⟩
      refine wrapOk_setAt (h1.make h2 _) w _ _ ?_ j
      rw [h.next]
      exact fresh _ (by simp)
  | view w i =>
    simp only [SyclState.step] at hs
    split at hs
    · cases hs
    · injection hs with hs
      subst hs
      have h1 : WrapOk s (some ⟨.ext i, none⟩) (some ⟨.ext i, false⟩) :=
        ⟨rfl, fun q hq => (Option.some.inj hq).symm, by rintro a ⟨⟩, by rintro j ⟨⟩; rfl⟩
      exact ⟨fun j => wrapOk_setAt h.ok w _ _ h1 j, h.next⟩
  | viewOf w v =>
    simp only [SyclState.step] at hs
    split at hs
    · rename_i c h0 hc
      injection hs with hs
      subst hs
      have h1 := h.ok v
      rw [hc] at h1
      obtain ⟨y, e, h2⟩ := wrapOk_some h1
      refine ⟨fun j => wrapOk_setAt h.ok w _ _ ?_ j, h.next⟩
      rw [e]
      exact wrapOk_view h2
    · cases hs
  | copy w v =>
    simp only [SyclState.step] at hs
    split at hs
    · rename_i c h0 hc
      split at hs
      · rename_i a ha
        obtain ⟨q, hq, hs⟩ := Option.map_eq_some_iff.mp hs
        subst hs
        refine ⟨fun j => wrapOk_setAt (h.make hm q) w _ _ ?_ j, h.next⟩
        rw [(owner v c a q hc ha hq).1]
        exact fresh q (owner v c a q hc ha hq).2
      · rename_i ha
        injection hs with hs
        subst hs
        refine ⟨fun j => wrapOk_setAt h.ok w _ _ ?_ j, h.next⟩
        have h1 := h.ok v
        rw [hc] at h1
        cases c
        cases ha
        exact h1
    · cases hs
  | move w v =>
    simp only [SyclState.step] at hs
    split at hs
    · rename_i c h0 hc
      have hne : w ≠ v := by rintro rfl; rw [h0] at hc; cases hc
      have h1 := h.ok v
      rw [hc] at h1
      obtain ⟨y, e, h2⟩ := wrapOk_some h1
      have h3 : ∀ j, WrapOk s (setAt s.wr v (some ⟨c.queue, none⟩) j)
          (setAt r.refs v ((r.refs v).map fun r => ⟨r.stream, if w = v then r.owns else false⟩) j) := by
        refine fun j => wrapOk_setAt h.ok v _ _ ?_ j
        rw [e, Option.map_some, if_neg hne]
        exact wrapOk_view h2
      have h4 : s' = (s.put v (some ⟨c.queue, none⟩)).put w (some c) := by
        split at hs
        · rename_i a ha
          injection hs with hs
          rw [← hs]
          have := h2.2.2.1 a ha
          cases c
          simp only at ha this
          rw [ha, this]
        · rename_i ha
          injection hs with hs
          rw [← hs]
          cases c
          simp only at ha
          rw [ha]
      subst h4
      exact ⟨fun j => wrapOk_setAt h3 w _ _ (by rw [e]; exact h2) j, h.next⟩
    · cases hs
  | assign w v =>
    simp only [SyclState.step] at hs
    split at hs
    · rename_i old c ho hc
      split at hs
      · rename_i hwv
        subst hwv
        injection hs with hs
        subst hs
        refine ⟨fun j => ?_, h.next⟩
        show WrapOk s (s.wr j) (setAt r.refs w (r.refs w) j)
        by_cases hj : j = w
        · subst hj; rw [setAt_self]; exact h.ok j
        · rw [setAt_ne _ _ hj]; exact h.ok j
      · split at hs
        · rename_i a ha
          obtain ⟨q, hq, hs⟩ := Option.map_eq_some_iff.mp hs
          subst hs
          refine ⟨fun j => ?_, by rw [delete_next]; exact h.next⟩
          rw [delete_wr]
          refine wrapOk_delete _ (wrapOk_setAt (h.make hm q) w _ _ ?_ j)
          rw [(owner v c a q hc ha hq).1]
          exact fresh q (owner v c a q hc ha hq).2
        · rename_i ha
          injection hs with hs
          subst hs
          refine ⟨fun j => wrapOk_setAt h.ok w _ _ ?_ j, h.next⟩
          have h1 := h.ok v
          rw [hc] at h1
          obtain ⟨y, e, h2⟩ := wrapOk_some h1
          have h3 := h.ok w
          rw [ho] at h3
          obtain ⟨x, ex, h4⟩ := wrapOk_some h3
          have h5 := hv w v rfl x y ex e
          have h6 : old.managed = none := by
            cases hom : old.managed with
            | none => rfl
            | some b =>
              have := h5 (by rw [h4.1, hom]; rfl)
              rw [h2.1, ha] at this
              cases this
          rw [e, h6]
          cases c
          cases ha
          exact h2
    · cases hs
  | moveAssign w v =>
    simp only [SyclState.step] at hs
    split at hs
    · rename_i old c ho hc
      split at hs
      · rename_i hwv
        subst hwv
        injection hs with hs
        subst hs
        refine ⟨fun j => ?_, h.next⟩
        show WrapOk s (s.wr j) (setAt _ w (r.refs w) j)
        by_cases hj : j = w
        · subst hj; rw [setAt_self]; exact h.ok j
        · rw [setAt_ne _ _ hj, setAt_ne _ _ hj]; exact h.ok j
      · rename_i hne
        have h1 := h.ok v
        rw [hc] at h1
        obtain ⟨y, e, h2⟩ := wrapOk_some h1
        have h3 : ∀ j, WrapOk s (setAt s.wr v (some ⟨c.queue, none⟩) j)
            (setAt r.refs v ((r.refs v).map fun r => ⟨r.stream, if w = v then r.owns else false⟩) j) := by
          refine fun j => wrapOk_setAt h.ok v _ _ ?_ j
          rw [e, Option.map_some, if_neg hne]
          exact wrapOk_view h2
        have h4 : s' = ((s.put v (some ⟨c.queue, none⟩)).put w (some c)).delete old.managed := by
          split at hs
          · rename_i a ha
            injection hs with hs
            rw [← hs]
            have := h2.2.2.1 a ha
            cases c
            simp only at ha this
            rw [ha, this]
          · rename_i ha
            injection hs with hs
            rw [← hs]
            cases c
            simp only at ha
            rw [ha]
        subst h4
        refine ⟨fun j => ?_, by rw [delete_next]; exact h.next⟩
        rw [delete_wr]
        exact wrapOk_delete _ (wrapOk_setAt h3 w _ _ (by rw [e]; exact h2) j)
    · cases hs
  | destroy w =>
    simp only [SyclState.step] at hs
    split at hs
    · rename_i old ho
      injection hs with hs
      subst hs
      refine ⟨fun j => ?_, by rw [delete_next]; exact h.next⟩
      rw [delete_wr]
      have h1 : WrapOk s none none := trivial
      exact wrapOk_delete _ (wrapOk_setAt h.ok w _ _ h1 j)
    · cases hs

theorem QueueMem.run (ops : List WrapOp) {s s' : SyclState} (h : QueueMem s none) (hs : s.run ops = some s') :
    QueueMem s' none := by
  induction ops generalizing s with
  | nil => injection hs with hs; subst hs; exact h
  | cons op ops ih =>
    simp only [SyclState.run, Option.bind_eq_some_iff] at hs
    obtain ⟨s1, h1, h2⟩ := hs
    exact ih (h.step h1) h2

theorem QueueRefs.run (ops : List WrapOp) {s s' : SyclState} {r : WrapSpec} (h : QueueRefs s r) (hm : QueueMem s none)
    (hv : r.NoViewToOwner ops) (hs : s.run ops = some s') : QueueRefs s' (r.run ops) := by
  induction ops generalizing s r with
  | nil => injection hs with hs; subst hs; exact h
  | cons op ops ih =>
    simp only [SyclState.run, Option.bind_eq_some_iff] at hs
    obtain ⟨s1, h1, h2⟩ := hs
    obtain ⟨hv1, hv2⟩ := hv
    exact ih (h.step hm (by rintro w v rfl; exact hv1) h1) (hm.step h1) hv2 h2

theorem QueueMem.start : QueueMem .init none := by
  refine ⟨?_, ?_, ?_, ?_, ?_, ?_, List.nodup_nil, ?_⟩ <;> simp [SyclState.init]

theorem QueueRefs.start : QueueRefs .init .init := ⟨fun _ => trivial, rfl⟩

end Vecmem
