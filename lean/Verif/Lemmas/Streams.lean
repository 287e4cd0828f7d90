import Mathlib.Data.List.Dedup
import Verif.Lemmas.Tactics
import Verif.Spec.Streams

/-!
# Lemmas about wrappers of streams and queues
-/

namespace Vecmem

theorem setAt_self {α : Type} (f : Nat → α) (i : Nat) (x : α) : setAt f i x i = x := if_pos rfl

theorem setAt_ne {α : Type} (f : Nat → α) {i j : Nat} (x : α) (h : j ≠ i) : setAt f i x j = f j := if_neg h

/-- Whether a wrapper owns a stream, as a number. -/
def ownsN (c : Option CudaWrap) (m : Nat) : Nat := if (c.bind (·.managed)) = some m then 1 else 0

/-- The number of wrappers that own a stream. -/
def ownersN (ws : List Nat) (wr : Nat → Option CudaWrap) (m : Nat) : Nat := (ws.map fun w => ownsN (wr w) m).sum

theorem ownersN_setAt_notin (ws : List Nat) (wr : Nat → Option CudaWrap) (w : Nat) (c : Option CudaWrap) (m : Nat)
    (hw : w ∉ ws) : ownersN ws (setAt wr w c) m = ownersN ws wr m := by
  unfold ownersN
  congr 1
  refine List.map_congr_left fun a ha => ?_
  rw [setAt_ne _ _ (by rintro rfl; exact hw ha)]

theorem ownersN_setAt (ws : List Nat) (wr : Nat → Option CudaWrap) (w : Nat) (c : Option CudaWrap) (m : Nat)
    (hn : ws.Nodup) (hw : w ∈ ws) :
    ownersN ws (setAt wr w c) m + ownsN (wr w) m = ownersN ws wr m + ownsN c m := by
  induction ws with
  | nil => cases hw
  | cons a l ih =>
    obtain ⟨ha, hl⟩ := List.nodup_cons.mp hn
    have e1 : ∀ g, ownersN (a :: l) g m = ownsN (g a) m + ownersN l g m := fun g => by simp [ownersN]
    rw [e1, e1]
    by_cases h : a = w
    · subst h
      rw [setAt_self, ownersN_setAt_notin _ _ _ _ _ ha]
      omega
    · rw [setAt_ne _ _ h]
      have := ih hl ((List.mem_cons.mp hw).resolve_left fun e => h e.symm)
      omega

theorem ownersN_pos {ws : List Nat} {wr : Nat → Option CudaWrap} {w m : Nat} (hw : w ∈ ws) (h : ownsN (wr w) m = 1) :
    1 ≤ ownersN ws wr m := by
  induction ws with
  | nil => cases hw
  | cons a l ih =>
    have e1 : ownersN (a :: l) wr m = ownsN (wr a) m + ownersN l wr m := by simp [ownersN]
    rcases List.mem_cons.mp hw with rfl | hw
    · omega
    · have := ih hw; omega

theorem ownersN_exists {ws : List Nat} {wr : Nat → Option CudaWrap} {m : Nat} (h : ownersN ws wr m ≠ 0) :
    ∃ w ∈ ws, (wr w).bind (·.managed) = some m := by
  induction ws with
  | nil => exact absurd rfl h
  | cons a l ih =>
    have e1 : ownersN (a :: l) wr m = ownsN (wr a) m + ownersN l wr m := by simp [ownersN]
    by_cases ha : (wr a).bind (·.managed) = some m
    · exact ⟨a, List.mem_cons_self, ha⟩
    · have : ownsN (wr a) m = 0 := if_neg ha
      obtain ⟨w, hw, e⟩ := ih (by omega)
      exact ⟨w, List.mem_cons_of_mem _ hw, e⟩

/-- The use counts are right, up to a difference. -/
structure Balanced (ws : List Nat) (s : CudaState) (e : Nat → Int) : Prop where
  nodup : ws.Nodup
  uses : ∀ m, (s.uses m : Int) = ownersN ws s.wr m + e m
  destroyed : ∀ m, m ∈ s.destroyed ↔ m < s.next ∧ s.uses m = 0
  bound : ∀ m, s.next ≤ m → s.uses m = 0
  once : s.destroyed.Nodup

namespace Balanced

variable {ws : List Nat} {s : CudaState} {e : Nat → Int}

theorem congr (h : Balanced ws s e) {e' : Nat → Int} (he : ∀ m, e m = e' m) : Balanced ws s e' :=
  ⟨h.nodup, fun m => by rw [h.uses, he], h.destroyed, h.bound, h.once⟩

theorem put (h : Balanced ws s e) {w : Nat} (hw : w ∈ ws) (c : Option CudaWrap) :
    Balanced ws (s.put w c) fun m => e m + ownsN (s.wr w) m - ownsN c m := by
  refine ⟨h.nodup, fun m => ?_, h.destroyed, h.bound, h.once⟩
  have h1 := h.uses m
  have h2 := ownersN_setAt ws s.wr w c m h.nodup hw
  show (s.uses m : Int) = (ownersN ws (setAt s.wr w c) m : Int) + _
  omega

theorem retain (h : Balanced ws s e) (o : Option Nat) (ho : ∀ m, o = some m → s.uses m ≠ 0) :
    Balanced ws (s.retain o) fun m => e m + (if o = some m then 1 else 0) := by
  cases o with
  | none => exact h.congr fun m => by simp
  | some k =>
    refine ⟨h.nodup, fun m => ?_, fun m => ?_, fun m hm => ?_, h.once⟩
    · show ((setAt s.uses k (s.uses k + 1) m : Nat) : Int) = (ownersN ws s.wr m : Int) + _
      have := h.uses m
      by_cases hm : m = k
      · subst hm; rw [setAt_self]; simp; omega
      · rw [setAt_ne _ _ hm, if_neg (by rintro ⟨⟩; exact hm rfl)]; omega
    · show m ∈ s.destroyed ↔ m < s.next ∧ setAt s.uses k (s.uses k + 1) m = 0
      rw [h.destroyed]
      by_cases hm : m = k
      · subst hm; rw [setAt_self]
        have := ho m rfl
        omega
      · rw [setAt_ne _ _ hm]
    · show setAt s.uses k (s.uses k + 1) m = 0
      by_cases hk : m = k
      · subst hk; exact absurd (h.bound m hm) (ho m rfl)
      · rw [setAt_ne _ _ hk]; exact h.bound m hm

theorem release (h : Balanced ws s e) (o : Option Nat) (ho : ∀ m, o = some m → 1 ≤ e m) :
    Balanced ws (s.release o) fun m => e m - (if o = some m then 1 else 0) := by
  cases o with
  | none => exact h.congr fun m => by simp
  | some k =>
    have hpos : 1 ≤ s.uses k := by have := h.uses k; have := ho k rfl; omega
    have hk : k < s.next := by
      by_contra hk
      have := h.bound k (by omega)
      omega
    refine ⟨h.nodup, fun m => ?_, fun m => ?_, fun m hm => ?_, ?_⟩
    · show ((setAt s.uses k (s.uses k - 1) m : Nat) : Int) = (ownersN ws s.wr m : Int) + _
      have := h.uses m
      by_cases hm : m = k
      · subst hm; rw [setAt_self]; simp; omega
      · rw [setAt_ne _ _ hm, if_neg (by rintro ⟨⟩; exact hm rfl)]; omega
    · show m ∈ (if s.uses k = 1 then k :: s.destroyed else s.destroyed) ↔
        m < s.next ∧ setAt s.uses k (s.uses k - 1) m = 0
      by_cases hm : m = k
      · subst hm; rw [setAt_self]
        have hd := h.destroyed m
        split
        · simp; omega
        · rw [hd]; omega
      · rw [setAt_ne _ _ hm, ← h.destroyed]
        split
        · simp [hm]
        · rfl
    · show setAt s.uses k (s.uses k - 1) m = 0
      replace hm : s.next ≤ m := hm
      rw [setAt_ne _ _ (by omega)]; exact h.bound m hm
    · show (if s.uses k = 1 then k :: s.destroyed else s.destroyed).Nodup
      split
      · refine List.nodup_cons.mpr ⟨fun hc => ?_, h.once⟩
        have := (h.destroyed k).mp hc
        omega
      · exact h.once

end Balanced

/-- What holds of all wrappers of CUDA streams. -/
structure CudaInv (ws : List Nat) (s : CudaState) (r : WrapSpec) : Prop where
  refs : ∀ w, r.refs w = (s.wr w).map fun c => ⟨c.stream, c.managed.isSome⟩
  next : r.next = s.next
  own : ∀ w c m, s.wr w = some c → c.managed = some m → c.stream = .own m
  bal : Balanced ws s fun _ => 0

/-- The wrappers that an operation touches. -/
def WrapOp.ids : WrapOp → List Nat
  | .create w | .view w _ | .destroy w => [w]
  | .viewOf w v | .copy w v | .move w v | .assign w v | .moveAssign w v => [w, v]

theorem refs_setAt {r : Nat → Option WrapRef} {wr : Nat → Option CudaWrap}
    (h : ∀ w, r w = (wr w).map fun c => ⟨c.stream, c.managed.isSome⟩) (w : Nat) (c : Option CudaWrap)
    (x : Option WrapRef) (hx : x = c.map fun c => ⟨c.stream, c.managed.isSome⟩) (j : Nat) :
    setAt r w x j = (setAt wr w c j).map fun c => ⟨c.stream, c.managed.isSome⟩ := by
  by_cases hj : j = w
  · subst hj; rw [setAt_self, setAt_self, hx]
  · rw [setAt_ne _ _ hj, setAt_ne _ _ hj, h]

theorem own_setAt {wr : Nat → Option CudaWrap}
    (h : ∀ w c m, wr w = some c → c.managed = some m → c.stream = .own m) (w : Nat) (c : Option CudaWrap)
    (hc : ∀ d m, c = some d → d.managed = some m → d.stream = .own m) (j : Nat) (d : CudaWrap) (m : Nat)
    (hj : setAt wr w c j = some d) (hm : d.managed = some m) : d.stream = .own m := by
  by_cases e : j = w
  · subst e; rw [setAt_self] at hj; exact hc d m hj hm
  · rw [setAt_ne _ _ e] at hj; exact h j d m hj hm

theorem release_wr (s : CudaState) (o : Option Nat) : (s.release o).wr = s.wr := by cases o <;> rfl
theorem release_next (s : CudaState) (o : Option Nat) : (s.release o).next = s.next := by cases o <;> rfl
theorem retain_wr (s : CudaState) (o : Option Nat) : (s.retain o).wr = s.wr := by cases o <;> rfl
theorem retain_next (s : CudaState) (o : Option Nat) : (s.retain o).next = s.next := by cases o <;> rfl

theorem ownsN_none (m : Nat) : ownsN none m = 0 := rfl
theorem ownsN_some (c : CudaWrap) (m : Nat) : ownsN (some c) m = if c.managed = some m then 1 else 0 := rfl

theorem CudaInv.step {ws : List Nat} {s s' : CudaState} {r : WrapSpec} (h : CudaInv ws s r) {op : WrapOp}
    (hop : ∀ w ∈ op.ids, w ∈ ws) (hs : s.step op = some s') : CudaInv ws s' (r.step op) := by
  have live : ∀ v c, v ∈ ws → s.wr v = some c → ∀ m, c.managed = some m → s.uses m ≠ 0 := by
    intro v c hv hc m hm
    have h1 := h.bal.uses m
    have h2 : 1 ≤ ownersN ws s.wr m := ownersN_pos hv (by rw [hc, ownsN_some, if_pos hm])
    omega
  cases op with
  | create w =>
    have hw : w ∈ ws := hop w (by simp [WrapOp.ids])
    simp only [CudaState.step] at hs
    split at hs
    · cases hs
    · rename_i h0
      injection hs with hs
      subst hs
      refine ⟨refs_setAt h.refs _ _ _ (by rw [h.next]; rfl), by simp [WrapSpec.step, CudaState.put, h.next],
        own_setAt h.own _ _ (by rintro d m ⟨⟩ ⟨⟩; rfl), ?_⟩
      have h1 : Balanced ws { s with next := s.next + 1, uses := setAt s.uses s.next 1 }
          fun m => if some s.next = some m then 1 else 0 := by
        have hz := h.bal.bound s.next (le_refl _)
        refine ⟨h.bal.nodup, fun m => ?_, fun m => ?_, fun m hm => ?_, h.bal.once⟩
        · show ((setAt s.uses s.next 1 m : Nat) : Int) = (ownersN ws s.wr m : Int) + _
          have := h.bal.uses m
          by_cases hm : m = s.next
          · subst hm; rw [setAt_self, if_pos rfl]; omega
          · rw [setAt_ne _ _ hm, if_neg (by rintro ⟨⟩; exact hm rfl)]; omega
        · show m ∈ s.destroyed ↔ m < s.next + 1 ∧ setAt s.uses s.next 1 m = 0
          rw [h.bal.destroyed]
          by_cases hm : m = s.next
          · subst hm; rw [setAt_self]; omega
          · rw [setAt_ne _ _ hm]; omega
        · show setAt s.uses s.next 1 m = 0
          have hm : s.next + 1 ≤ m := hm
          rw [setAt_ne _ _ (by omega)]; exact h.bal.bound m (by omega)
      refine (h1.put hw _).congr fun m => ?_
      show _ + ((ownsN (s.wr w) m : Nat) : Int) - _ = 0
      rw [h0, ownsN_none, ownsN_some]
      split <;> simp_all
  | view w i =>
    have hw : w ∈ ws := hop w (by simp [WrapOp.ids])
    simp only [CudaState.step] at hs
    split at hs
    · cases hs
    · rename_i h0
      injection hs with hs
      subst hs
      refine ⟨refs_setAt h.refs _ _ _ rfl, h.next, own_setAt h.own _ _ (by rintro d m ⟨⟩ ⟨⟩), ?_⟩
      refine (h.bal.put hw _).congr fun m => ?_
      rw [h0, ownsN_none, ownsN_some]; simp
  | viewOf w v =>
    have hw : w ∈ ws := hop w (by simp [WrapOp.ids])
    simp only [CudaState.step] at hs
    split at hs
    · rename_i c h0 hv
      injection hs with hs
      subst hs
      refine ⟨refs_setAt h.refs _ _ _ (by rw [h.refs, hv]; rfl), h.next, own_setAt h.own _ _ (by rintro d m ⟨⟩ ⟨⟩), ?_⟩
      refine (h.bal.put hw _).congr fun m => ?_
      rw [h0, ownsN_none, ownsN_some]; simp
    · cases hs
  | copy w v =>
    have hw : w ∈ ws := hop w (by simp [WrapOp.ids])
    have hv' : v ∈ ws := hop v (by simp [WrapOp.ids])
    simp only [CudaState.step] at hs
    split at hs
    · rename_i c h0 hv
      injection hs with hs
      subst hs
      refine ⟨?_, ?_, ?_, ?_⟩
      · show ∀ j, setAt r.refs w (r.refs v) j = (setAt (s.retain c.managed).wr w _ j).map _
        rw [retain_wr]
        exact refs_setAt h.refs _ _ _ (by rw [h.refs, hv])
      · show r.next = (s.retain c.managed).next
        rw [retain_next, h.next]
      · show ∀ j d m, setAt (s.retain c.managed).wr w _ j = some d → _
        rw [retain_wr]
        exact own_setAt h.own _ _ (by rintro d m ⟨⟩; exact h.own v c m hv)
      · refine ((h.bal.retain c.managed (live v c hv' hv)).put hw _).congr fun m => ?_
        rw [retain_wr, h0, ownsN_none, ownsN_some]
        split <;> simp
    · cases hs
  | move w v =>
    have hw : w ∈ ws := hop w (by simp [WrapOp.ids])
    have hv' : v ∈ ws := hop v (by simp [WrapOp.ids])
    simp only [CudaState.step] at hs
    split at hs
    · rename_i c h0 hv
      have hne : w ≠ v := by rintro rfl; rw [h0] at hv; cases hv
      injection hs with hs
      subst hs
      refine ⟨?_, h.next, ?_, ?_⟩
      · refine refs_setAt (refs_setAt h.refs _ _ _ ?_) _ _ _ (by rw [h.refs, hv])
        rw [h.refs, hv]; simp [hne]
      · refine own_setAt (own_setAt h.own _ _ (by rintro d m ⟨⟩ ⟨⟩)) _ _ (by rintro d m ⟨⟩; exact h.own v c m hv)
      · refine ((h.bal.put hv' _).put hw _).congr fun m => ?_
        have e : (s.put v (some ⟨c.stream, none⟩)).wr w = none := by
          show setAt _ _ _ _ = _
          rw [setAt_ne _ _ hne, h0]
        rw [e, hv, ownsN_none]
        simp [ownsN_some]
    · cases hs
  | assign w v =>
    have hw : w ∈ ws := hop w (by simp [WrapOp.ids])
    have hv' : v ∈ ws := hop v (by simp [WrapOp.ids])
    simp only [CudaState.step] at hs
    split at hs
    · rename_i old c ho hv
      split at hs
      · rename_i hwv
        subst hwv
        injection hs with hs
        subst hs
        refine ⟨fun j => ?_, h.next, h.own, h.bal⟩
        show setAt r.refs w (r.refs w) j = _
        by_cases hj : j = w
        · subst hj; rw [setAt_self, h.refs]
        · rw [setAt_ne _ _ hj, h.refs]
      · rename_i hwv
        injection hs with hs
        subst hs
        refine ⟨?_, ?_, ?_, ?_⟩
        · rw [release_wr]
          show ∀ j, setAt r.refs w (r.refs v) j = (setAt (s.retain c.managed).wr w _ j).map _
          rw [retain_wr]
          exact refs_setAt h.refs _ _ _ (by rw [h.refs, hv])
        · rw [release_next]
          show r.next = (s.retain c.managed).next
          rw [retain_next, h.next]
        · rw [release_wr]
          show ∀ j d m, setAt (s.retain c.managed).wr w _ j = some d → _
          rw [retain_wr]
          exact own_setAt h.own _ _ (by rintro d m ⟨⟩; exact h.own v c m hv)
        · have h1 := (h.bal.retain c.managed (live v c hv' hv)).put hw (some ⟨c.stream, c.managed⟩)
          rw [retain_wr, ho] at h1
          refine (h1.release old.managed fun m hm => ?_).congr fun m => ?_
          · simp only [ownsN_some, if_pos hm]
            split <;> simp
          · simp only [ownsN_some]
            split <;> split <;> simp
    · cases hs
  | moveAssign w v =>
    have hw : w ∈ ws := hop w (by simp [WrapOp.ids])
    have hv' : v ∈ ws := hop v (by simp [WrapOp.ids])
    simp only [CudaState.step] at hs
    split at hs
    · rename_i old c ho hv
      split at hs
      · rename_i hwv
        subst hwv
        injection hs with hs
        subst hs
        refine ⟨fun j => ?_, h.next, h.own, h.bal⟩
        show setAt _ w (r.refs w) j = _
        by_cases hj : j = w
        · subst hj; rw [setAt_self, h.refs]
        · rw [setAt_ne _ _ hj, setAt_ne _ _ hj, h.refs]
      · rename_i hwv
        injection hs with hs
        subst hs
        have e : (s.put v (some ⟨c.stream, none⟩)).wr w = some old := by
          show setAt _ _ _ _ = _
          rw [setAt_ne _ _ hwv, ho]
        refine ⟨?_, ?_, ?_, ?_⟩
        · rw [release_wr]
          refine refs_setAt (refs_setAt h.refs _ _ _ ?_) _ _ _ (by rw [h.refs, hv])
          rw [h.refs, hv]; simp [hwv]
        · rw [release_next]; exact h.next
        · rw [release_wr]
          refine own_setAt (own_setAt h.own _ _ (by rintro d m ⟨⟩ ⟨⟩)) _ _ (by rintro d m ⟨⟩; exact h.own v c m hv)
        · have h1 := (h.bal.put hv' (some ⟨c.stream, none⟩)).put hw (some ⟨c.stream, c.managed⟩)
          rw [e, hv] at h1
          refine (h1.release old.managed fun m hm => ?_).congr fun m => ?_
          · simp only [ownsN_some, if_pos hm]
            split <;> simp
          · simp [ownsN_some]
    · cases hs
  | destroy w =>
    have hw : w ∈ ws := hop w (by simp [WrapOp.ids])
    simp only [CudaState.step] at hs
    split at hs
    · rename_i old ho
      injection hs with hs
      subst hs
      refine ⟨?_, ?_, ?_, ?_⟩
      · rw [release_wr]; exact refs_setAt h.refs _ _ _ rfl
      · rw [release_next]; exact h.next
      · rw [release_wr]; exact own_setAt h.own _ _ (by rintro d m ⟨⟩)
      · have h1 := h.bal.put hw none
        rw [ho] at h1
        refine (h1.release old.managed fun m hm => ?_).congr fun m => ?_
        · simp only [ownsN_some, ownsN_none, if_pos hm]; simp
        · simp only [ownsN_some, ownsN_none]
          split <;> simp
    · cases hs

theorem CudaInv.run {ws : List Nat} {r : WrapSpec} (ops : List WrapOp) {s s' : CudaState} (h : CudaInv ws s r)
    (hop : ∀ op ∈ ops, ∀ w ∈ op.ids, w ∈ ws) (hs : s.run ops = some s') : CudaInv ws s' (r.run ops) := by
  induction ops generalizing s r with
  | nil => injection hs with hs; subst hs; exact h
  | cons op ops ih =>
    simp only [CudaState.run, Option.bind_eq_some_iff] at hs
    obtain ⟨s1, h1, h2⟩ := hs
    exact ih (h.step (hop op List.mem_cons_self) h1) (fun o ho => hop o (List.mem_cons_of_mem _ ho)) h2

theorem setAt_some {wr : Nat → Option CudaWrap} {w j : Nat} {c : Option CudaWrap} (h : setAt wr w c j ≠ none) :
    j = w ∨ wr j ≠ none := by
  by_cases e : j = w
  · exact .inl e
  · rw [setAt_ne _ _ e] at h; exact .inr h

theorem CudaState.step_wr {s s' : CudaState} {op : WrapOp} (hs : s.step op = some s') (j : Nat) (hj : s'.wr j ≠ none) :
    j ∈ op.ids ∨ s.wr j ≠ none := by
  cases op <;> simp only [CudaState.step] at hs <;> (repeat' split at hs) <;> cases hs <;>
    (try simp only [CudaState.put, release_wr, retain_wr] at hj) <;>
    first
    | exact .inr hj
    | (rcases setAt_some hj with e | e
       · exact .inl (by simp [WrapOp.ids, e])
       · exact .inr e)
    | (rcases setAt_some hj with e | e
       · exact .inl (by simp [WrapOp.ids, e])
       · rcases setAt_some e with e | e
         · exact .inl (by simp [WrapOp.ids, e])
         · exact .inr e)

theorem CudaState.run_wr (ops : List WrapOp) {s s' : CudaState} (hs : s.run ops = some s') (j : Nat) (hj : s'.wr j ≠ none) :
    s.wr j ≠ none ∨ ∃ op ∈ ops, j ∈ op.ids := by
  induction ops generalizing s with
  | nil => injection hs with hs; subst hs; exact .inl hj
  | cons op ops ih =>
    simp only [CudaState.run, Option.bind_eq_some_iff] at hs
    obtain ⟨s1, h1, h2⟩ := hs
    rcases ih h2 with h | ⟨o, ho, hm⟩
    · rcases CudaState.step_wr h1 j h with h | h
      · exact .inr ⟨op, List.mem_cons_self, h⟩
      · exact .inl h
    · exact .inr ⟨o, List.mem_cons_of_mem _ ho, hm⟩

theorem CudaInv.start {ws : List Nat} (hn : ws.Nodup) : CudaInv ws .init .init := by
  refine ⟨fun _ => rfl, rfl, fun _ _ _ h => (by cases h), hn, fun m => ?_, fun m => ?_, fun _ _ => rfl, List.nodup_nil⟩
  · have : ownersN ws CudaState.init.wr m = 0 := by
      unfold ownersN
      induction ws with
      | nil => rfl
      | cons a l ih => rw [List.map_cons, List.sum_cons, ih (List.nodup_cons.mp hn).2]; rfl
    rw [this]; rfl
  · simp [CudaState.init]

/-- A list of all wrappers of a program. -/
theorem exists_ids (ops : List WrapOp) : ∃ ws : List Nat, ws.Nodup ∧ ∀ op ∈ ops, ∀ w ∈ op.ids, w ∈ ws :=
  ⟨(ops.flatMap (·.ids)).dedup, List.nodup_dedup _, fun op ho w hw =>
    List.mem_dedup.mpr (List.mem_flatMap.mpr ⟨op, ho, hw⟩)⟩

end Vecmem
