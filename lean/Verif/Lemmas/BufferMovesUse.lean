import Verif.Lemmas.BufferMoves

/-!
# Lemmas: steps that use buffers look at these buffers only
-/

namespace Vecmem

variable {σ : Type} {c : VarCfg} {ups : Nat → MR σ} {v v' j j' : Nat → Nat} {h h' : Nat → Option Nat} {u : σ} {m : Mem}

/-- The vector buffers that a step uses. -/
def PipeOp.keys : PipeOp → List Nat
  | .create k _ _ | .destroy k | .setup k | .memset k _ | .upload _ _ k | .download k _ => [k]
  | .copy i j => [i, j]
  | .kernel ins k _ _ | .single ins k _ => k :: ins

/-- The vector buffers that a step uses. -/
def JagOp.vecs : JagOp → List Nat
  | .vec op => op.keys
  | .kernel ins _ _ _ _ | .single ins _ _ _ => ins
  | .vecKernel ins _ k _ _ | .vecSingle ins _ k _ => k :: ins
  | _ => []

/-- The jagged buffers that a step uses. -/
def JagOp.jags : JagOp → List Nat
  | .vec _ => []
  | .create k _ _ | .destroy k | .setup k | .memset k _ | .upload _ _ k | .download k _ => [k]
  | .copy i j => [i, j]
  | .kernel _ jins k _ _ | .single _ jins k _ => k :: jins
  | .vecKernel _ jins _ _ _ | .vecSingle _ jins _ _ => jins

theorem Pipe.reads_local {B B' : List (Nat × VecBuffer)} : ∀ ins : List Nat, (∀ k ∈ ins, B.lookup k = B'.lookup k) →
    (Pipe.mk u m B).reads (c.at v j h).vec ins = (Pipe.mk u m B').reads (c.at v' j' h').vec ins := by
  intro ins
  induction ins with
  | nil => exact fun _ => rfl
  | cons i is ih =>
    intro hl
    have h1 : (Pipe.mk u m B).bufs.lookup i = (Pipe.mk u m B').bufs.lookup i := hl i List.mem_cons_self
    simp only [Pipe.reads, h1, ih fun k hk => hl k (List.mem_cons_of_mem _ hk)]
    cases (Pipe.mk u m B').bufs.lookup i <;> rfl

/-- What a step does that uses vector buffers only: the result, and what it does to resources and memory. -/
theorem Pipe.exec_local {B B' : List (Nat × VecBuffer)} {op : PipeOp} (hu : (JagOp.vec op).OnlyUses)
    (hl : ∀ k ∈ op.keys, B.lookup k = B'.lookup k) :
    ((Pipe.mk u m B).exec (c.at v j h).vec ups op).1 = ((Pipe.mk u m B').exec (c.at v' j' h').vec ups op).1 ∧
    ((Pipe.mk u m B).exec (c.at v j h).vec ups op).2 =
      ⟨((Pipe.mk u m B').exec (c.at v' j' h').vec ups op).2.res, ((Pipe.mk u m B').exec (c.at v' j' h').vec ups op).2.mem, B⟩ := by
  cases op with
  | create | destroy => cases hu
  | setup k =>
    have := hl k List.mem_cons_self
    simp only [Pipe.exec, this]
    cases B'.lookup k <;> exact ⟨rfl, rfl⟩
  | memset k value =>
    have := hl k List.mem_cons_self
    simp only [Pipe.exec, this]
    cases B'.lookup k <;> exact ⟨rfl, rfl⟩
  | copy a b =>
    have h1 := hl a (by simp [PipeOp.keys])
    have h2 := hl b (by simp [PipeOp.keys])
    simp only [Pipe.exec, h1, h2]
    cases B'.lookup a <;> cases B'.lookup b <;> exact ⟨rfl, rfl⟩
  | upload at_ l k =>
    have := hl k List.mem_cons_self
    simp only [Pipe.exec, this]
    cases B'.lookup k <;> exact ⟨rfl, rfl⟩
  | download k at_ =>
    have := hl k List.mem_cons_self
    simp only [Pipe.exec, this]
    cases B'.lookup k with
    | none => exact ⟨rfl, rfl⟩
    | some b => dsimp only; cases (getSize b.view).value m <;> exact ⟨rfl, rfl⟩
  | kernel ins k f sched =>
    have h1 := hl k List.mem_cons_self
    have h2 := Pipe.reads_local (c := c) (v := v) (v' := v') (j := j) (j' := j') (h := h) (h' := h') (u := u) (m := m) ins
      fun k hk => hl k (List.mem_cons_of_mem _ hk)
    simp only [Pipe.exec, h1, h2]
    cases B'.lookup k with
    | none => exact ⟨rfl, rfl⟩
    | some b => dsimp only; cases (Pipe.mk u m B').reads (c.at v' j' h').vec ins <;> exact ⟨rfl, rfl⟩
  | single ins k f =>
    have h1 := hl k List.mem_cons_self
    have h2 := Pipe.reads_local (c := c) (v := v) (v' := v') (j := j) (j' := j') (h := h) (h' := h') (u := u) (m := m) ins
      fun k hk => hl k (List.mem_cons_of_mem _ hk)
    simp only [Pipe.exec, h1, h2]
    cases B'.lookup k with
    | none => exact ⟨rfl, rfl⟩
    | some b => dsimp only; cases (Pipe.mk u m B').reads (c.at v' j' h').vec ins <;> exact ⟨rfl, rfl⟩

section
variable {B B' : List (Nat × VecBuffer)} {J J' : List (Nat × JagBuffer)}

theorem JPipe.reads_local : ∀ ins : List Nat, (∀ k ∈ ins, J.lookup k = J'.lookup k) →
    (JPipe.mk ⟨u, m, B⟩ J).reads (c.at v j h) ins = (JPipe.mk ⟨u, m, B'⟩ J').reads (c.at v' j' h') ins := by
  intro ins
  have hrows : ∀ (i : Nat) (vs : List View), readRows (c.at v j h) i m vs = readRows (c.at v' j' h') i m vs := by
    intro i vs
    induction vs with
    | nil => rfl
    | cons w vs ih => simp only [readRows, ih]; rfl
  induction ins with
  | nil => exact fun _ => rfl
  | cons i is ih =>
    intro hl
    have h1 : J.lookup i = J'.lookup i := hl i List.mem_cons_self
    simp only [JPipe.reads, h1, ih fun k hk => hl k (List.mem_cons_of_mem _ hk), hrows]

theorem JPipe.exec_local {op : JagOp} (hu : op.OnlyUses) (hl : ∀ k ∈ op.vecs, B.lookup k = B'.lookup k)
    (hj : ∀ k ∈ op.jags, J.lookup k = J'.lookup k) :
    ((JPipe.mk ⟨u, m, B⟩ J).exec (c.at v j h) ups op).1 = ((JPipe.mk ⟨u, m, B'⟩ J').exec (c.at v' j' h') ups op).1 ∧
    ((JPipe.mk ⟨u, m, B⟩ J).exec (c.at v j h) ups op).2 =
      ⟨⟨((JPipe.mk ⟨u, m, B'⟩ J').exec (c.at v' j' h') ups op).2.vec.res,
        ((JPipe.mk ⟨u, m, B'⟩ J').exec (c.at v' j' h') ups op).2.vec.mem, B⟩, J⟩ := by
  have hvec : ∀ o : PipeOp, (JagOp.vec o).OnlyUses → (∀ k ∈ o.keys, B.lookup k = B'.lookup k) →
      ((JPipe.mk ⟨u, m, B⟩ J).lift ((Pipe.mk u m B).exec (c.at v j h).vec ups o)).1 =
        ((JPipe.mk ⟨u, m, B'⟩ J').lift ((Pipe.mk u m B').exec (c.at v' j' h').vec ups o)).1 ∧
      ((JPipe.mk ⟨u, m, B⟩ J).lift ((Pipe.mk u m B).exec (c.at v j h).vec ups o)).2 =
        ⟨⟨((JPipe.mk ⟨u, m, B'⟩ J').lift ((Pipe.mk u m B').exec (c.at v' j' h').vec ups o)).2.vec.res,
          ((JPipe.mk ⟨u, m, B'⟩ J').lift ((Pipe.mk u m B').exec (c.at v' j' h').vec ups o)).2.vec.mem, B⟩, J⟩ := by
    intro o ho hk
    obtain ⟨e1, e2⟩ := Pipe.exec_local (c := c) (ups := ups) (v := v) (v' := v') (j := j) (j' := j') (h := h) (h' := h')
      (u := u) (m := m) ho hk
    exact ⟨congrArg (Res.map JagOut.vec) e1, congrArg (fun x => JPipe.mk x J) e2⟩
  cases op with
  | create | destroy => cases hu
  | vec o => exact hvec o hu hl
  | setup k =>
    have := hj k List.mem_cons_self
    simp only [JPipe.exec, this]
    cases J'.lookup k <;> exact ⟨rfl, rfl⟩
  | memset k value =>
    have := hj k List.mem_cons_self
    simp only [JPipe.exec, this]
    cases J'.lookup k <;> exact ⟨rfl, rfl⟩
  | copy a b =>
    have h1 := hj a (by simp [JagOp.jags])
    have h2 := hj b (by simp [JagOp.jags])
    simp only [JPipe.exec, h1, h2]
    cases J'.lookup a <;> cases J'.lookup b <;> exact ⟨rfl, rfl⟩
  | upload ats rows k =>
    have := hj k List.mem_cons_self
    simp only [JPipe.exec, this]
    cases J'.lookup k <;> exact ⟨rfl, rfl⟩
  | download k ats =>
    have := hj k List.mem_cons_self
    simp only [JPipe.exec, this]
    cases J'.lookup k with
    | none => exact ⟨rfl, rfl⟩
    | some b => dsimp only; cases (getSizes b.views).value m <;> exact ⟨rfl, rfl⟩
  | kernel ins jins k f sched =>
    have h1 := hj k List.mem_cons_self
    have h2 := Pipe.reads_local (c := c) (v := v) (v' := v') (j := j) (j' := j') (h := h) (h' := h') (u := u) (m := m) ins hl
    have h3 := JPipe.reads_local (c := c) (v := v) (v' := v') (j := j) (j' := j') (h := h) (h' := h') (u := u) (m := m)
      (B := B) (B' := B') jins fun k hk => hj k (List.mem_cons_of_mem _ hk)
    simp only [JPipe.exec, h1, h2, h3]
    cases J'.lookup k with
    | none => exact ⟨rfl, rfl⟩
    | some b =>
      dsimp only
      cases (Pipe.mk u m B').reads (c.at v' j' h').vec ins <;> cases (JPipe.mk ⟨u, m, B'⟩ J').reads (c.at v' j' h') jins <;>
        exact ⟨rfl, rfl⟩
  | single ins jins k f =>
    have h1 := hj k List.mem_cons_self
    have h2 := Pipe.reads_local (c := c) (v := v) (v' := v') (j := j) (j' := j') (h := h) (h' := h') (u := u) (m := m) ins hl
    have h3 := JPipe.reads_local (c := c) (v := v) (v' := v') (j := j) (j' := j') (h := h) (h' := h') (u := u) (m := m)
      (B := B) (B' := B') jins fun k hk => hj k (List.mem_cons_of_mem _ hk)
    simp only [JPipe.exec, h1, h2, h3]
    cases J'.lookup k with
    | none => exact ⟨rfl, rfl⟩
    | some b =>
      dsimp only
      cases (Pipe.mk u m B').reads (c.at v' j' h').vec ins <;> cases (JPipe.mk ⟨u, m, B'⟩ J').reads (c.at v' j' h') jins <;>
        exact ⟨rfl, rfl⟩
  | vecKernel ins jins k f sched =>
    have h3 := JPipe.reads_local (c := c) (v := v) (v' := v') (j := j) (j' := j') (h := h) (h' := h') (u := u) (m := m)
      (B := B) (B' := B') jins hj
    simp only [JPipe.exec, h3]
    cases (JPipe.mk ⟨u, m, B'⟩ J').reads (c.at v' j' h') jins with
    | ok js => exact hvec (.kernel ins k (fun ls => f ls js) sched) trivial hl
    | _ => exact ⟨rfl, rfl⟩
  | vecSingle ins jins k f =>
    have h3 := JPipe.reads_local (c := c) (v := v) (v' := v') (j := j) (j' := j') (h := h) (h' := h') (u := u) (m := m)
      (B := B) (B' := B') jins hj
    simp only [JPipe.exec, h3]
    cases (JPipe.mk ⟨u, m, B'⟩ J').reads (c.at v' j' h') jins with
    | ok js => exact hvec (.single ins k fun ls => f ls js) trivial hl
    | _ => exact ⟨rfl, rfl⟩
end

/-! ## Which buffers a user may use -/

theorem Store.HasAll.get {S : Store} : ∀ {ins : List Nat} {ls : List (List Elem)}, S.HasAll ins ls → ∀ k ∈ ins, S k ≠ none
  | [], [], _, _, hk => by cases hk
  | i :: is, l :: ls, ⟨⟨cap, r, h1⟩, h2⟩, k, hk => by
    rcases List.mem_cons.1 hk with rfl | hk
    · rw [h1]; simp
    · exact Store.HasAll.get h2 k hk

theorem JStore.HasAll.get {S : JStore} : ∀ {ins : List Nat} {ls : List (List (List Elem))}, S.HasAll ins ls → ∀ k ∈ ins, S.jag k ≠ none
  | [], [], _, _, hk => by cases hk
  | i :: is, l :: ls, ⟨⟨cap, r, h1⟩, h2⟩, k, hk => by
    rcases List.mem_cons.1 hk with rfl | hk
    · rw [h1]; simp
    · exact JStore.HasAll.get h2 k hk

theorem PipeOp.Fits.keys {c : PipeCfg} {R : Limits} {out : Nat → Nat → Prop} {S : Store} {op : PipeOp} (hu : (JagOp.vec op).OnlyUses)
    (hf : op.Fits c R out S) : ∀ k ∈ op.keys, S k ≠ none := by
  have key : ∀ {k cap r l}, S.Has k cap r l → S k ≠ none := by intro k cap r l h; rw [h]; simp
  cases op with
  | create | destroy => cases hu
  | setup k | memset k =>
    obtain ⟨b, hb⟩ := hf
    intro i hi
    rw [List.mem_singleton.1 hi, hb]; simp
  | copy a b =>
    obtain ⟨_, _, _, _, _, _, _, _, h1, h2⟩ := hf
    intro i hi
    simp only [PipeOp.keys, List.mem_cons, List.not_mem_nil, or_false] at hi
    rcases hi with rfl | rfl
    · exact key h1
    · exact key h2
  | upload at_ l k =>
    obtain ⟨_, _, _, _, _, _, _, h1⟩ := hf
    intro i hi
    rw [List.mem_singleton.1 hi]; exact key h1
  | download k at_ =>
    obtain ⟨_, _, _, h1, _⟩ := hf
    intro i hi
    rw [List.mem_singleton.1 hi]; exact key h1
  | kernel ins k f sched =>
    obtain ⟨_, _, _, _, h1, h2, _⟩ := hf
    intro i hi
    rcases List.mem_cons.1 hi with rfl | hi
    · exact key h2
    · exact h1.get i hi
  | single ins k f =>
    obtain ⟨_, _, _, _, _, h1, h2, _⟩ := hf
    intro i hi
    rcases List.mem_cons.1 hi with rfl | hi
    · exact key h2
    · exact h1.get i hi

theorem JagOp.Fits.keys {c : JagCfg} {R : Limits} {out : Nat → Nat → Prop} {S : JStore} {op : JagOp} (hu : op.OnlyUses)
    (hf : op.Fits c R out S) : (∀ k ∈ op.vecs, S.vec k ≠ none) ∧ ∀ k ∈ op.jags, S.jag k ≠ none := by
  have key : ∀ {k caps r d l}, S.Has k caps r d l → S.jag k ≠ none := by intro k caps r d l h; rw [h]; simp
  have nil : ∀ P : Nat → Prop, ∀ k ∈ ([] : List Nat), P k := fun _ _ h => by cases h
  cases op with
  | create | destroy => cases hu
  | vec o => exact ⟨PipeOp.Fits.keys hu hf, nil _⟩
  | setup k =>
    obtain ⟨b, hb⟩ := hf
    refine ⟨nil _, fun i hi => ?_⟩
    rw [List.mem_singleton.1 hi, hb]; simp
  | memset k =>
    obtain ⟨b, hb, _⟩ := hf
    refine ⟨nil _, fun i hi => ?_⟩
    rw [List.mem_singleton.1 hi, hb]; simp
  | copy a b =>
    obtain ⟨_, _, _, _, _, _, _, _, _, _, h1, h2⟩ := hf
    refine ⟨nil _, fun i hi => ?_⟩
    simp only [JagOp.jags, List.mem_cons, List.not_mem_nil, or_false] at hi
    rcases hi with rfl | rfl
    · exact key h1
    · exact key h2
  | upload ats rows k =>
    obtain ⟨_, _, _, _, _, _, _, h1⟩ := hf
    refine ⟨nil _, fun i hi => ?_⟩
    rw [List.mem_singleton.1 hi]; exact key h1
  | download k at_ =>
    obtain ⟨_, _, _, _, h1, _⟩ := hf
    refine ⟨nil _, fun i hi => ?_⟩
    rw [List.mem_singleton.1 hi]; exact key h1
  | kernel ins jins k f sched =>
    obtain ⟨_, _, _, _, _, h1, h2, h3, _⟩ := hf
    refine ⟨h1.get, fun i hi => ?_⟩
    rcases List.mem_cons.1 hi with rfl | hi
    · exact key h3
    · exact h2.get i hi
  | single ins jins k f =>
    obtain ⟨_, _, _, _, _, _, h1, h2, h3, _⟩ := hf
    refine ⟨h1.get, fun i hi => ?_⟩
    rcases List.mem_cons.1 hi with rfl | hi
    · exact key h3
    · exact h2.get i hi
  | vecKernel ins jins k f sched =>
    obtain ⟨js, h1, h2⟩ := hf
    exact ⟨PipeOp.Fits.keys (op := .kernel ins k (fun ls => f ls js) sched) trivial h2, h1.get⟩
  | vecSingle ins jins k f =>
    obtain ⟨js, h1, h2⟩ := hf
    exact ⟨PipeOp.Fits.keys (op := .single ins k fun ls => f ls js) trivial h2, h1.get⟩

/-! ## Resources do not matter to the meaning of steps -/

theorem PipeStep.at {S V : Store} {op : PipeOp} {r : Res PipeOut} (hs : PipeStep (c.at v j h).vec S op r V) :
    PipeStep (c.at v' j' h').vec S op r V := by
  cases hs with
  | createFail k cap r hh => exact .createFail k cap r hh
  | createFixed k cap r hh l hl ht => exact .createFixed k cap r hh l hl ht
  | createResizable k cap hh => exact .createResizable k cap hh
  | destroy k => exact .destroy k
  | setup k cap vals hh => exact .setup k cap vals hh
  | setupFixed k cap vals hh => exact .setupFixed k cap vals hh
  | memset k cap r vals value hh => exact .memset k cap r vals value hh
  | copy a b hh hc => exact .copy a b hh hc
  | upload at_ l k hc => exact .upload at_ l k hc
  | download k at_ hh => exact .download k at_ hh
  | kernel ins k f sched hi hh order results l' ho hp hr => exact .kernel ins k f sched hi hh order results l' ho hp hr
  | single ins k f hi hh hr => exact .single ins k f hi hh hr

theorem JagCopyStep.at {S V : JStore} {k : Nat} {new : List (List Elem)} {r : Res JagOut} (hs : JagCopyStep (c.at v j h) S k new r V) :
    JagCopyStep (c.at v' j' h') S k new r V := by
  cases hs with
  | fits hh hn hr => exact .fits hh hn hr
  | nothing hh hn => exact .nothing hh hn
  | refused hh h0 hn => exact .refused hh h0 hn

theorem JagStep.at {S V : JStore} {op : JagOp} {r : Res JagOut} (hs : JagStep (c.at v j h) S op r V)
    (hh : ∀ k caps rz, op = .create k caps rz → (h k).isSome = (h' k).isSome) : JagStep (c.at v' j' h') S op r V := by
  cases hs with
  | vec op hp => exact .vec op hp.at
  | createFail k caps r hc => exact .createFail k caps r hc
  | createFixed k caps r hc rows hl ht =>
    have he : (c.at v j h).hasHost k = (c.at v' j' h').hasHost k := hh k caps r rfl
    rw [he]
    exact .createFixed k caps r hc rows hl ht
  | createResizable k caps hc =>
    have he : (c.at v j h).hasHost k = (c.at v' j' h').hasHost k := hh k caps true rfl
    rw [he]
    exact .createResizable k caps hc
  | destroy k => exact .destroy k
  | setup k caps rows d hc => exact .setup k caps rows d hc
  | setupFixed k caps rows d hc => exact .setupFixed k caps rows d hc
  | memset k caps r rows d value hc => exact .memset k caps r rows d value hc
  | copy a b hc hp => exact .copy a b hc hp.at
  | upload ats rows k hp => exact .upload ats rows k hp.at
  | download k ats hc => exact .download k ats hc
  | kernel ins jins k f sched hi hj hc order results rows' ho hp hr =>
    exact .kernel ins jins k f sched hi hj hc order results rows' ho hp hr
  | single ins jins k f hi hj hc hr => exact .single ins jins k f hi hj hc hr
  | vecKernel ins jins k f sched hj hp => exact .vecKernel ins jins k f sched hj hp.at
  | vecSingle ins jins k f hj hp => exact .vecSingle ins jins k f hj hp.at

theorem JagOp.Fits.at {R : Limits} {out out' : Nat → Nat → Prop} {S : JStore} {op : JagOp} (hf : op.Fits (c.at v j h) R out S)
    (ho : ∀ a n, out a n → out' a n) : op.Fits (c.at v' j' h') R out' S := by
  have hv : ∀ o : PipeOp, o.Fits (c.at v j h).vec R out S.vec → o.Fits (c.at v' j' h').vec R out' S.vec := by
    intro o h1
    cases o with
    | upload at_ l k => exact ⟨h1.1, h1.2.1, ho _ _ h1.2.2.1, h1.2.2.2⟩
    | download k at_ =>
      obtain ⟨cap, r, l, h2, h3⟩ := h1
      exact ⟨cap, r, l, h2, ho _ _ h3⟩
    | _ => exact h1
  have hh : ∀ t ats rows, HostArrays out t ats rows → HostArrays out' t ats rows :=
    fun t ats rows ⟨h1, h2, h3⟩ => ⟨h1, fun i a l x y => ⟨ho _ _ (h2 i a l x y).1, (h2 i a l x y).2⟩, h3⟩
  cases op with
  | vec o => exact hv o hf
  | upload ats rows k => exact ⟨hh _ _ _ hf.1, hf.2⟩
  | download k ats =>
    obtain ⟨caps, r, d, rows, h1, h2⟩ := hf
    exact ⟨caps, r, d, rows, h1, hh _ _ _ h2⟩
  | vecKernel ins jins k f sched =>
    obtain ⟨js, h1, h2⟩ := hf
    exact ⟨js, h1, hv (.kernel ins k (fun ls => f ls js) sched) h2⟩
  | vecSingle ins jins k f =>
    obtain ⟨js, h1, h2⟩ := hf
    exact ⟨js, h1, hv (.single ins k fun ls => f ls js) h2⟩
  | _ => exact hf

end Vecmem
