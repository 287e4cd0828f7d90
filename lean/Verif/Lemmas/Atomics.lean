import Verif.Spec.AtomicSystem
import Verif.Lemmas.EdmDevice

/-!
# The invariant of threads that use atomic operations with one access
-/

namespace Vecmem

variable {w : Nat}

/-- The current operation of a thread, if it has made its access. -/
def AThread.pending {f : AOp w → BitVec w → BitVec w × ARet w} (t : AThread (AImpl.oneAccess f)) : List (ADone w) :=
  match t.now with
  | some (c, .inr r) => [⟨c, r⟩]
  | _ => []

/-- The calls a thread has begun. -/
def AThread.begun {I : AImpl w} (t : AThread I) : List (ACallAt w) :=
  t.done.map (·.call) ++ (t.now.map (·.1)).toList

/-- The invariant: `o` is the order of the accesses. -/
structure LInv (f : AOp w → BitVec w → BitVec w × ARet w) (m0 : AMem w) (progs : List (List (ACallAt w)))
    (g : ASys (AImpl.oneAccess f)) (o : List (Nat × ADone w)) : Prop where
  seq : OneByOne m0 (o.map (·.2)) g.mem
  own : ∀ (i : Nat) (t : AThread (AImpl.oneAccess f)), g.threads[i]? = some t →
    (o.filter (·.1 = i)).map (·.2) = t.done ++ t.pending
  ids : ∀ x ∈ o, x.1 < g.threads.length
  perm : (o.map (·.2)).Perm (g.threads.flatMap fun t => t.done ++ t.pending)
  prog : ∀ (i : Nat) (t : AThread (AImpl.oneAccess f)), g.threads[i]? = some t →
    (progs[i]?).getD [] = t.begun ++ t.todo
  len : g.threads.length = progs.length

variable {f : AOp w → BitVec w → BitVec w × ARet w} {m0 : AMem w} {progs : List (List (ACallAt w))}
  {g : ASys (AImpl.oneAccess f)} {o : List (Nat × ADone w)}

theorem LInv.start (f : AOp w → BitVec w → BitVec w × ARet w) (m0 : AMem w) (progs : List (List (ACallAt w))) :
    LInv f m0 progs (ASys.start (AImpl.oneAccess f) m0 progs) [] where
  seq := .nil _
  own := by
    intro i t ht
    simp only [ASys.start, List.getElem?_map, Option.map_eq_some_iff] at ht
    obtain ⟨p, hp, rfl⟩ := ht
    rfl
  ids := by simp
  perm := by simp [ASys.start, List.flatMap_map, AThread.pending]
  prog := by
    intro i t ht
    simp only [ASys.start, List.getElem?_map, Option.map_eq_some_iff] at ht
    obtain ⟨p, hp, rfl⟩ := ht
    simp [hp, AThread.begun]
  len := by simp [ASys.start]

theorem getElem?_set_cases {β : Type} {L : List β} {i j : Nat} {t t' u : β} (hi : L[i]? = some t)
    (hj : (L.set i t')[j]? = some u) : (i = j ∧ u = t') ∨ (i ≠ j ∧ L[j]? = some u) := by
  rw [List.getElem?_set] at hj
  by_cases hij : i = j
  · rw [if_pos hij, if_pos (List.getElem?_eq_some_iff.1 hi).1] at hj
    exact Or.inl ⟨hij, (Option.some.inj hj).symm⟩
  · rw [if_neg hij] at hj
    exact Or.inr ⟨hij, hj⟩

/-- A step of thread `i` that makes no access. -/
theorem LInv.quiet (h : LInv f m0 progs g o) {i : Nat} {t t' : AThread (AImpl.oneAccess f)} (hi : g.threads[i]? = some t)
    (h1 : t'.done ++ t'.pending = t.done ++ t.pending) (h2 : t'.begun ++ t'.todo = t.begun ++ t.todo) :
    LInv f m0 progs { mem := g.mem, threads := g.threads.set i t' } o where
  seq := h.seq
  own := by
    intro j u hj
    rcases getElem?_set_cases hi hj with ⟨rfl, rfl⟩ | ⟨_, hj⟩
    · rw [h1]; exact h.own i t hi
    · exact h.own j u hj
  ids := by simpa using h.ids
  perm := by
    have := flatMap_set (fun t : AThread (AImpl.oneAccess f) => t.done ++ t.pending) (t' := t') hi (x := [])
      (by simp [h1])
    rw [List.append_nil] at this
    exact h.perm.trans this.symm
  prog := by
    intro j u hj
    rcases getElem?_set_cases hi hj with ⟨rfl, rfl⟩ | ⟨_, hj⟩
    · rw [h2]; exact h.prog i t hi
    · exact h.prog j u hj
  len := by simpa using h.len

/-- The access of thread `i`. -/
theorem LInv.access (h : LInv f m0 progs g o) (hf : ∀ p ∈ progs, ∀ c ∈ p, ∀ v, f c.op v = c.op.spec v) {i : Nat}
    {t : AThread (AImpl.oneAccess f)} (hi : g.threads[i]? = some t) {c : ACallAt w}
    (hn : t.now = some (c, .inl c.op)) :
    LInv f m0 progs
      { mem := fun a => if a = c.addr then (f c.op (g.mem c.addr)).1 else g.mem a,
        threads := g.threads.set i { t with now := some (c, .inr (f c.op (g.mem c.addr)).2) } }
      (o ++ [(i, ⟨c, (c.op.spec (g.mem c.addr)).2⟩)]) := by
  have hil := (List.getElem?_eq_some_iff.1 hi).1
  have hspec : ∀ v, f c.op v = c.op.spec v := by
    have hp := h.prog i t hi
    have hl : i < progs.length := h.len ▸ hil
    rw [List.getElem?_eq_getElem hl] at hp
    refine hf progs[i] (List.getElem_mem hl) c ?_
    simp only [Option.getD_some] at hp
    rw [hp]
    simp [AThread.begun, hn]
  have hpend : t.pending = [] := by simp [AThread.pending, hn]
  have hpend' : AThread.pending (f := f) { t with now := some (c, .inr (f c.op (g.mem c.addr)).2) } =
      [⟨c, (c.op.spec (g.mem c.addr)).2⟩] := by
    simp [AThread.pending, hspec]
  refine ⟨?_, ?_, ?_, ?_, ?_, by simpa using h.len⟩
  · rw [hspec, List.map_append]
    exact .snoc c h.seq
  · intro j u hj
    rw [List.filter_append, List.map_append]
    rcases getElem?_set_cases hi hj with ⟨rfl, rfl⟩ | ⟨hij, hj⟩
    · rw [h.own i t hi, hpend, hpend']
      simp
    · rw [h.own j u hj]
      simp [hij]
  · intro x hx
    simp only [List.length_set]
    rcases List.mem_append.1 hx with hx | hx
    · exact h.ids x hx
    · simp only [List.mem_singleton] at hx
      subst hx
      exact hil
  · have := flatMap_set (fun t : AThread (AImpl.oneAccess f) => t.done ++ t.pending)
      (t' := { t with now := some (c, .inr (f c.op (g.mem c.addr)).2) }) hi
      (x := [⟨c, (c.op.spec (g.mem c.addr)).2⟩]) (by
        show t.done ++ AThread.pending (f := f) { t with now := _ } = _
        rw [hpend', hpend]
        simp)
    rw [List.map_append]
    exact (h.perm.append_right _).trans this.symm
  · intro j u hj
    rcases getElem?_set_cases hi hj with ⟨rfl, rfl⟩ | ⟨_, hj⟩
    · rw [h.prog i t hi]
      simp [AThread.begun, hn]
    · exact h.prog j u hj

/-- The state of an operation before its access is the operation itself. -/
def AThread.Fresh (t : AThread (AImpl.oneAccess f)) : Prop := ∀ c op, t.now = some (c, .inl op) → op = c.op

theorem LInv.step (h : LInv f m0 progs g o) (hf : ∀ p ∈ progs, ∀ c ∈ p, ∀ v, f c.op v = c.op.spec v)
    (hfr : ∀ t ∈ g.threads, t.Fresh) (i : Nat) :
    (∀ t ∈ (g.step i).threads, t.Fresh) ∧ ∃ o', LInv f m0 progs (g.step i) (o ++ o') := by
  unfold ASys.step
  cases hi : g.threads[i]? with
  | none => exact ⟨hfr, [], by simpa using h⟩
  | some t =>
    have hti := List.mem_of_getElem? hi
    have hset : ∀ t' : AThread (AImpl.oneAccess f), t'.Fresh → ∀ u ∈ g.threads.set i t', u.Fresh := by
      intro t' ht' u hu
      rcases List.mem_or_eq_of_mem_set hu with hu | rfl
      · exact hfr u hu
      · exact ht'
    simp only
    unfold ASys.stepThread
    cases hn : t.now with
    | none =>
      cases htd : t.todo with
      | nil =>
        refine ⟨hset t (hfr t hti), [], ?_⟩
        rw [List.append_nil]
        exact h.quiet hi rfl rfl
      | cons c cs =>
        refine ⟨hset _ ?_, [], ?_⟩
        · intro c' op he
          simp only [AImpl.oneAccess, Option.some.injEq, Prod.mk.injEq, Sum.inl.injEq] at he
          rw [← he.1, ← he.2]
        · rw [List.append_nil]
          refine h.quiet hi ?_ ?_
          · simp [AThread.pending, hn, AImpl.oneAccess]
          · simp [AThread.begun, hn, htd]
    | some x =>
      obtain ⟨c, s⟩ := x
      cases s with
      | inl op =>
        have hop := hfr t hti c op hn
        subst hop
        refine ⟨hset _ ?_, _, h.access hf hi hn⟩
        intro c' op he
        simp [AImpl.oneAccess] at he
      | inr r =>
        refine ⟨hset _ ?_, [], ?_⟩
        · intro c' op he
          simp [AImpl.oneAccess] at he
        · rw [List.append_nil]
          refine h.quiet hi ?_ ?_
          · simp [AThread.pending, hn, AImpl.oneAccess]
          · simp [AThread.begun, hn, AImpl.oneAccess]

theorem LInv.run (h : LInv f m0 progs g o) (hf : ∀ p ∈ progs, ∀ c ∈ p, ∀ v, f c.op v = c.op.spec v)
    (hfr : ∀ t ∈ g.threads, t.Fresh) (sched : List Nat) :
    (∀ t ∈ (g.run sched).threads, t.Fresh) ∧ ∃ o', LInv f m0 progs (g.run sched) (o ++ o') := by
  induction sched generalizing g o with
  | nil => exact ⟨hfr, [], by rw [List.append_nil]; exact h⟩
  | cons i sched ih =>
    obtain ⟨h1, o', h2⟩ := h.step hf hfr i
    obtain ⟨h3, o'', h4⟩ := ih h2 h1
    exact ⟨h3, o' ++ o'', by rw [← List.append_assoc]; exact h4⟩

section

variable {w : Nat}

theorem LInv.linearizes {f : AOp w → BitVec w → BitVec w × ARet w} {m0 : AMem w} {progs : List (List (ACallAt w))}
    {g : ASys (AImpl.oneAccess f)} {o : List (Nat × ADone w)} (h : LInv f m0 progs g o) : Linearizes m0 g o := by
  refine ⟨h.seq, h.ids, fun i t ht => ⟨t.pending, h.own i t ht, ?_⟩⟩
  unfold AThread.pending
  split
  · rename_i c r hn
    exact Or.inr ⟨_, _, rfl, hn⟩
  · exact Or.inl rfl

theorem start_fresh (f : AOp w → BitVec w → BitVec w × ARet w) (m : AMem w) (progs : List (List (ACallAt w))) :
    ∀ t ∈ (ASys.start (AImpl.oneAccess f) m progs).threads, t.Fresh := by
  intro t ht
  obtain ⟨p, _, rfl⟩ := List.mem_map.1 ht
  intro c op he
  cases he

theorem oneAccess_linearizable (f : AOp w → BitVec w → BitVec w × ARet w) (m : AMem w) (progs : List (List (ACallAt w)))
    (hf : ∀ p ∈ progs, ∀ c ∈ p, ∀ v, f c.op v = c.op.spec v) (sched₁ sched₂ : List Nat) :
    ∃ o₁ o₂, Linearizes m ((ASys.start (AImpl.oneAccess f) m progs).run sched₁) o₁ ∧
      Linearizes m ((ASys.start (AImpl.oneAccess f) m progs).run (sched₁ ++ sched₂)) (o₁ ++ o₂) := by
  obtain ⟨h1, o₁, h2⟩ := (LInv.start f m progs).run hf (start_fresh f m progs) sched₁
  obtain ⟨_, o₂, h4⟩ := h2.run hf h1 sched₂
  refine ⟨o₁, o₂, ?_, ?_⟩
  · simpa using h2.linearizes
  · have e : (ASys.start (AImpl.oneAccess f) m progs).run (sched₁ ++ sched₂) =
      ((ASys.start (AImpl.oneAccess f) m progs).run sched₁).run sched₂ := by
      simp [ASys.run, List.foldl_append]
    rw [e]
    simpa using h4.linearizes

theorem cudaRef_eq : (cudaRef : AImpl w) = .oneAccess fun op v => op.spec v := by
  unfold cudaRef
  congr 1
  funext op v
  cases op with
  | compareExchange e d =>
    simp only [AOp.spec, atomicCAS]
    split <;> rfl
  | _ => rfl

theorem posixRef_eq : (posixRef : AImpl w) = .oneAccess fun op v => op.spec v := by
  unfold posixRef
  congr 1
  funext op v
  cases op with
  | fetchSub x => simp [AOp.spec, BitVec.sub_eq_add_neg]
  | _ => rfl

theorem syclRef_eq : (syclRef : AImpl w) = .oneAccess fun op v => op.spec v := by
  unfold syclRef
  exact congrArg AImpl.oneAccess (by funext op v; cases op <;> rfl)

theorem atomicSycl_eq : (atomicSycl : AImpl w) = .oneAccess fun op v => op.spec v := by
  unfold atomicSycl
  exact congrArg AImpl.oneAccess (by funext op v; cases op <;> rfl)

theorem oneByOne_adds {m m' : AMem w} {os : List (ADone w)} (h : OneByOne m os m') (a : Nat)
    (hc : ∀ x ∈ os, x.call = ⟨a, .fetchAdd 1⟩) :
    m' a = m a + BitVec.ofNat w os.length ∧
      os = (List.range os.length).map fun k => ⟨⟨a, .fetchAdd 1⟩, .val (m a + BitVec.ofNat w k)⟩ := by
  induction h with
  | nil => simp
  | @snoc m' os c before ih =>
    have hc1 : c = ⟨a, .fetchAdd 1⟩ := hc ⟨c, (c.op.spec (m' c.addr)).2⟩ (by simp)
    obtain ⟨h1, h2⟩ := ih (fun x hx => hc x (by simp [hx]))
    subst hc1
    simp only [AOp.spec, if_true, List.length_append, List.length_cons, List.length_nil, Nat.zero_add]
    refine ⟨?_, ?_⟩
    · rw [h1, BitVec.add_assoc]
      congr 1
      rw [BitVec.ofNat_add]
      rfl
    · rw [List.range_succ, List.map_append, ← h2, h1]
      rfl

/-- The accesses of an operation alone: the value and the state after each of them. -/
inductive Alone (I : AImpl w) : BitVec w → I.State → Nat → BitVec w → ARet w → Prop
  | ret {v s r} (h : I.act s = .ret r) : Alone I v s 0 v r
  | access {v s f n v' r} (h : I.act s = .access f) (rest : Alone I (f v).1 (f v).2 n v' r) : Alone I v s (n + 1) v' r

theorem step_at {I : AImpl w} {g : ASys I} {i : Nat} {t : AThread I} (h : g.threads[i]? = some t) :
    g.step i = ⟨(ASys.stepThread g.mem t).1, g.threads.set i (ASys.stepThread g.mem t).2⟩ := by
  simp [ASys.step, h]

theorem Alone.run {I : AImpl w} {v v' : BitVec w} {s : I.State} {n : Nat} {r : ARet w} (h : Alone I v s n v' r) (g : ASys I)
    (i : Nat) (t : AThread I) (c : ACallAt w) (hi : g.threads[i]? = some t) (hn : t.now = some (c, s))
    (hv : g.mem c.addr = v) :
    g.run (List.replicate (n + 1) i) =
      { mem := fun a => if a = c.addr then v' else g.mem a,
        threads := g.threads.set i { t with now := none, done := t.done ++ [⟨c, r⟩] } } := by
  induction h generalizing g t with
  | @ret v s r h =>
    have hm : g.mem = fun a => if a = c.addr then v else g.mem a := by
      funext a
      split
      · rename_i ha; rw [ha, hv]
      · rfl
    simp only [Nat.zero_add, List.replicate_one, ASys.run, List.foldl_cons, List.foldl_nil]
    rw [step_at hi]
    simp only [ASys.stepThread, hn, h]
    rw [← hm]
  | @access v s f n v' r h rest ih =>
    rw [List.replicate_succ, ASys.run, List.foldl_cons, step_at hi]
    have hil := (List.getElem?_eq_some_iff.1 hi).1
    have e := ih ⟨(ASys.stepThread g.mem t).1, g.threads.set i (ASys.stepThread g.mem t).2⟩
      (ASys.stepThread g.mem t).2 (by simp [hil]) (by simp [ASys.stepThread, hn, h, hv])
      (by simp [ASys.stepThread, hn, h, hv])
    unfold ASys.run at e
    rw [e]
    simp only [ASys.stepThread, hn, h, List.set_set]
    congr 1
    funext a
    by_cases ha : a = c.addr <;> simp [ha]

theorem Alone.works {I : AImpl w} {op : AOp w}
    (h : ∀ v, ∃ n, Alone I v (I.start op) n (op.spec v).1 (op.spec v).2) : AImpl.WorksAlone I op := by
  intro v
  obtain ⟨n, hn⟩ := h v
  refine ⟨n + 2, ?_⟩
  intro g i t c cs hi hnone htodo hop hv
  rw [List.replicate_succ, ASys.run, List.foldl_cons, step_at hi]
  have hil := (List.getElem?_eq_some_iff.1 hi).1
  have h1 : ASys.stepThread g.mem t = (g.mem, { t with todo := cs, now := some (c, I.start c.op) }) := by
    simp [ASys.stepThread, hnone, htodo]
  have e := hn.run ⟨g.mem, g.threads.set i { t with todo := cs, now := some (c, I.start c.op) }⟩ i
    { t with todo := cs, now := some (c, I.start c.op) } c (by simp [hil]) (by simp [hop]) hv
  unfold ASys.run at e
  rw [h1, e]
  simp

end

end Vecmem
