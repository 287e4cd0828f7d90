import Verif.Spec.WeakContainers
import Verif.Lemmas.WeakContainer
import Verif.Lemmas.WeakPipeline
import Verif.Lemmas.EdmPipelineAppend

/-!
# Containers in memory and in the variables of the weak memory (C81)
-/

namespace Vecmem

/-! ## Schedules -/

theorem DConc.step_finished {α : Type} {g : DConc α} (h : g.Finished) (i : Nat) : g.step i = g := by
  unfold DConc.step
  split
  · rfl
  · cases hi : g.threads[i]? with
    | none => rfl
    | some t =>
      obtain ⟨h1, h2⟩ := h t (List.mem_of_getElem? hi)
      have h3 : DConc.stepThread g.cont t = some (g.cont, t) := by
        unfold DConc.stepThread
        rw [h2]
        dsimp only
        rw [h1]
      simp only [h3]
      have h4 : g.threads.set i t = g.threads := by
        apply List.ext_getElem?
        intro j
        rw [List.getElem?_set]
        split
        · next hij =>
          subst hij
          rw [if_pos (List.getElem?_eq_some_iff.1 hi).1, hi]
        · rfl
      rw [h4]

theorem DConc.run_finished {α : Type} {g : DConc α} (h : g.Finished) (sched : List Nat) : g.run sched = g := by
  induction sched with
  | nil => rfl
  | cons i is ih =>
    show (g.step i).run is = g
    rw [DConc.step_finished h i, ih]

/-- A schedule that lets all threads finish is what the kernel does. -/
theorem DConc.kernel_run {s : DevCont Elem} {progs : List (List (DCall Elem))} {sched : List Nat} (h : ((DConc.start s progs).run sched).Finished) :
    DConc.kernel s progs sched = (DConc.start s progs).run sched := by
  have : DConc.kernel s progs sched = ((DConc.start s progs).run sched).run (drainCalls s.vars.length progs) := by
    unfold DConc.kernel DConc.run
    rw [List.foldl_append]
  rw [this, DConc.run_finished h]

theorem records_unique {α : Type} {size : Nat} : ∀ {a b : List (DCall α × Nat)} {l : List (WEvent 32)}, a.map (·.1) = b.map (·.1) → ReturnedRecords size a l → ReturnedRecords size b l → a = b := by
  intro a
  induction a with
  | nil => intro b l h _ _; cases b with | nil => rfl | cons => cases h
  | cons x a ih =>
    intro b l h ha hb
    cases b with
    | nil => cases h
    | cons y b =>
      cases ha with
      | cons h1 h2 =>
        cases hb with
        | cons h3 h4 =>
          simp only [List.map_cons, List.cons.injEq] at h
          rw [ih h.2 h2 h4]
          congr 1
          exact Prod.ext h.1 (Appending.claims_unique h1 h3).1

theorem records_allowed {α : Type} {w : Nat} {I : WImpl w} (words : α → List (BitVec w)) (new : List (Nat × α)) : ∀ l : List (DCall α), (WTask.records words new l).Allowed I
  | [] => trivial
  | _ :: l => fun _ => records_allowed words new l

/-! ## Containers -/

/-- Two memories that have the same values of the variables, and are the same elsewhere. -/
theorem EdmView.InVars.unique {S : Schema} {e : EdmView} {V : WVec} {val : Nat → BitVec 32 → Prop} (hval : ∀ {a x y}, val a x → val a y → x = y) {m1 m2 : Mem}
    (h1 : e.InVars S V val m1) (h2 : e.InVars S V val m2) (h : ∀ a, ¬ e.HasByte S a → m1 a = m2 a) : m1 = m2 := by
  funext a
  by_cases ha : e.HasByte S a
  · rcases ha with ⟨a1, a2⟩ | ⟨k, v, x, hv, hx, a1, a2⟩
    · obtain ⟨y, e1, e2⟩ := h1.size
      obtain ⟨y', e3, e4⟩ := h2.size
      cases hval e1 e3
      have h3 := writeLE_readLE (m := m1) (m' := m1) a1 a2
      rw [← e2, e4, writeLE_readLE a1 a2] at h3
      exact h3.symm
    · have ht : 0 < v.type.size := by
        rcases Nat.eq_zero_or_pos v.type.size with ht | ht
        · rw [ht, Nat.mul_zero] at a2; omega
        · exact ht
      have hq : (a - x.ptr) / v.type.size < x.capacity := by
        rw [Nat.div_lt_iff_lt_mul ht]; omega
      have hu : (a - x.ptr) % v.type.size < v.type.size := Nat.mod_lt _ ht
      have := hval (h1.bytes k v x hv hx _ _ hq hu) (h2.bytes k v x hv hx _ _ hq hu)
      have hx' : x.ptr + (a - x.ptr) / v.type.size * v.type.size + (a - x.ptr) % v.type.size = a := by
        have := Nat.div_add_mod (a - x.ptr) v.type.size
        rw [Nat.mul_comm] at this
        omega
      rw [hx'] at this
      exact byte_inj this
  · exact h a ha

section

variable {c : EdmCfg} {k : Nat} {mem : Mem} {b : EBuffer} {caps : List Nat} {n : Nat} {progs : List (List (DCall Elem))}

/-- The variables of the device container are those of the schema. -/
theorem AppendReady.var_at (ha : AppendReady c k mem b caps n progs) {i cp : Nat} {d : Elem} {f : Nat → Option Elem}
    (h : (b.buf.view.device c.dbg (c.dflt k) (c.schema k) mem).vars[i]? = some (.vector d cp f)) :
    ∃ v w, (c.schema k)[i]? = some v ∧ b.buf.view.vars[i]? = some (.vector w) ∧ d = c.dflt k i ∧ w.capacity = b.buf.view.capacity ∧
      f = fun j => if j < w.capacity then some (bytesAt mem (w.ptr + j * v.type.size) v.type.size) else none := by
  have hlt : i < (c.schema k).length := by rw [← ha.vlen]; exact (List.getElem?_eq_some_iff.1 h).1
  obtain ⟨v, hv⟩ : ∃ v, (c.schema k)[i]? = some v := ⟨_, List.getElem?_eq_getElem hlt⟩
  obtain ⟨x, hx⟩ : ∃ x, b.buf.view.vars[i]? = some x := ⟨_, List.getElem?_eq_getElem (show i < b.buf.view.vars.length by rw [← ha.count]; exact hlt)⟩
  rw [ha.vars i v x hv hx] at h
  rcases ha.kind i v x hv hx with ⟨-, a, rfl⟩ | ⟨-, w, rfl, -, hwc, -⟩
  · cases h
  · cases h
    exact ⟨v, w, hv, hx, rfl, by rw [hwc, ha.cap], rfl⟩

theorem AppendReady.worded (hc : c.Wf) (ha : AppendReady c k mem b caps n progs) : (b.buf.view.device c.dbg (c.dflt k) (c.schema k) mem).Worded byteWords progs := by
  intro i d cp f h pr hpr cl hcl a hac hai
  obtain ⟨v, w, hv, -, rfl, -⟩ := ha.var_at h
  obtain ⟨v', hv', -, hl⟩ := ha.args pr hpr cl hcl a hac
  rw [hai] at hv'
  cases hv.symm.trans hv'
  simp only [byteWords, List.length_map]
  rw [hl, ((hc.2 k).2 i v hv).2.2]

/-- The device container has the values of the bytes. -/
theorem AppendReady.shows (ha : AppendReady c k mem b caps n progs) {V : WVec} {val : Nat → BitVec 32 → Prop} (h : b.buf.view.InVars (c.schema k) V val mem) :
    V.ShowsContainer byteWords val (b.buf.view.device c.dbg (c.dflt k) (c.schema k) mem) := by
  refine ⟨h.cap, ?_, ?_⟩
  · obtain ⟨y, h1, h2⟩ := h.size
    exact ⟨y, h1, by simp [EdmView.device, ha.size, h2]⟩
  · intro i d cp f hd p hp
    obtain ⟨v, w, hv, hx, -, hw, rfl⟩ := ha.var_at hd
    have hp' : p < w.capacity := by rw [hw]; exact hp
    refine ⟨_, if_pos hp', fun u y hy => ?_⟩
    simp only [byteWords, List.getElem?_map, Option.map_eq_some_iff] at hy
    obtain ⟨x, h8, rfl⟩ := hy
    have hu : u < v.type.size := by
      have := (List.getElem?_eq_some_iff.1 h8).1
      rwa [bytesAt_length] at this
    rw [bytesAt_get hu] at h8
    cases h8
    exact h.bytes i v w hv hx p u hp' hu

variable {σ : Type} {R : Limits} {G A : Nat} {hasHost : Bool}

/-- The memory after a kernel has left the container behind has the values of the container. -/
theorem AppendReady.stored (hc : c.Wf) (hb : EdmOk σ R G (c.schema k) A hasHost b) (hj : (c.schema k).hasJagged = false) (ha : AppendReady c k mem b caps n progs) (sched : List Nat)
    {V : WVec} {val : Nat → BitVec 32 → Prop}
    (h : V.ShowsContainer byteWords val (DConc.kernel (b.buf.view.device c.dbg (c.dflt k) (c.schema k) mem) progs sched).cont) (hV : V.cap = b.buf.view.capacity) :
    b.buf.view.InVars (c.schema k) V val
      (b.buf.view.store (c.schema k) mem (DConc.kernel (b.buf.view.device c.dbg (c.dflt k) (c.schema k) mem) progs sched).cont) ∧
    ∀ a, ¬ b.buf.view.HasByte (c.schema k) a →
      b.buf.view.store (c.schema k) mem (DConc.kernel (b.buf.view.device c.dbg (c.dflt k) (c.schema k) mem) progs sched).cont a = mem a := by
  obtain ⟨g1, g2, g3, g4, g5, order, g6, g7, g8, g9⟩ := DConc.kernel_ok ha.ready (progs := progs) ha.room ha.valid sched
  generalize DConc.kernel (b.buf.view.device c.dbg (c.dflt k) (c.schema k) mem) progs sched = g at g1 g2 g3 g4 g5 g6 g9 h
  have hcells := ha.cells hc g5 g6 g8 g9
  obtain ⟨i0, v0, w0, hi0, hx0, hw0, s1⟩ := ha.one
  have hroom := ha.room
  change n + callCount progs ≤ b.buf.view.capacity at hroom
  rw [ha.cap] at hroom
  have hcap32 := ha.cap32
  obtain ⟨w1, w2, w3⟩ := store_spec hb hj hx0 ha.size mem g.cont (by rw [g2]; omega) (g3.trans ha.vlen) (by
    intro i v x d hv hx hd
    rcases ha.kind i v x hv hx with ⟨-, a, rfl⟩ | ⟨-, w, rfl, -⟩
    · have := g4 i _ (ha.vars i v _ hv hx)
      cases hd.symm.trans this
      exact bytesAt_length _ _ _
    · obtain ⟨f', q1, -, -, q4⟩ := hcells i v w hv hx
      cases hd.symm.trans q1
      exact q4)
  generalize b.buf.view.store (c.schema k) mem g.cont = m' at w1 w2 w3 ⊢
  refine ⟨⟨hV, ?_, ?_⟩, ?_⟩
  · obtain ⟨y, y1, y2⟩ := h.size
    refine ⟨y, y1, ?_⟩
    obtain ⟨f', q1, -⟩ := hcells i0 v0 w0 hi0 hx0
    obtain ⟨l1, -⟩ := w2 i0 v0 w0 _ _ _ hi0 hx0 q1
    unfold View.len at l1
    rw [if_neg hw0, s1] at l1
    rw [y2, l1]
  · intro i v w hv hx j u hj hu
    obtain ⟨f', q1, -, -, q4⟩ := hcells i v w hv hx
    obtain ⟨-, l2⟩ := w2 i v w _ _ _ hv hx q1
    have hgc : w.capacity = g.cont.cap := by
      rcases ha.kind i v _ hv hx with ⟨-, a, e⟩ | ⟨-, w', e, -, hwc, -⟩
      · cases e
      · cases e
        rw [hwc, ← ha.cap, ← hV, h.cap]
    obtain ⟨x, x1, x2⟩ := h.elems i _ _ f' q1 j (by rw [← hgc]; exact hj)
    have l3 := l2 j hj
    rw [x1, Option.getD_some] at l3
    refine x2 u _ ?_
    simp only [byteWords, List.getElem?_map]
    rw [← l3, bytesAt_get hu]
    rfl
  · intro a hna
    by_cases hs : ∃ (i : Nat) (v : Var) (p : Nat), (c.schema k)[i]? = some v ∧ b.buf.view.vars[i]? = some (.scalar p) ∧ p ≤ a ∧ a < p + v.type.size
    · obtain ⟨i, v, p, hv, hx, a1, a2⟩ := hs
      have := w3 i v p _ hv hx (g4 i _ (ha.vars i v _ hv hx))
      have h1 := bytesAt_get (m := m') (p := p) (n := v.type.size) (i := a - p) (by omega)
      rw [this, bytesAt_get (by omega), show p + (a - p) = a by omega] at h1
      exact (Option.some.inj h1).symm
    · refine w1 a (fun hc => hna (.inl hc)) fun i v x hv hx w hw hp => ?_
      rcases ha.kind i v x hv hx with ⟨-, p, rfl⟩ | ⟨-, w', rfl, -⟩
      · simp only [VarView.rows, List.mem_singleton] at hw
        subst hw
        unfold View.HasPayload at hp
        exact hs ⟨i, v, p, hv, hx, by simpa using hp⟩
      · simp only [VarView.rows, List.mem_singleton] at hw
        subst hw
        exact hna (.inr ⟨i, v, w, hv, hx, hp⟩)

end

/-- Variables for a container. -/
def contVars (dbg : Bool) (e : EdmView) : WVec := ⟨0, fun u i => Nat.pair u i + 1, e.capacity, dbg⟩

/-- Their values. -/
def contVals (S : Schema) (e : EdmView) (mem : Mem) : AMem 32 := fun a =>
  if a = 0 then BitVec.ofNat 32 (readLE mem e.size.ptr 4) else
  match S[(Nat.unpair (Nat.unpair (a - 1)).1).1]?, e.vars[(Nat.unpair (Nat.unpair (a - 1)).1).1]? with
  | some v, some (.vector w) => BitVec.ofNat 32 (mem (w.ptr + (Nat.unpair (a - 1)).2 * v.type.size + (Nat.unpair (Nat.unpair (a - 1)).1).2)).toNat
  | _, _ => 0

theorem contVars_in (dbg : Bool) (S : Schema) (e : EdmView) (mem : Mem) : e.InVars S (contVars dbg e) (fun a x => x = contVals S e mem a) mem := by
  refine ⟨rfl, ⟨_, rfl, ?_⟩, ?_⟩
  · simp only [contVals, contVars, if_true, BitVec.toNat_ofNat]
    exact Nat.mod_eq_of_lt (by simpa using readLE_lt mem e.size.ptr 4)
  · intro k v x hv hx i u hi hu
    simp [contVals, contVars, hv, hx]

theorem contVars_valid (dbg : Bool) {e : EdmView} (h : e.capacity < 2 ^ 32) : (contVars dbg e).Valid 32 :=
  ⟨fun _ _ _ _ h => Nat.pair_eq_pair.1 (Nat.succ.inj h), fun _ _ => Nat.succ_ne_zero _, h⟩

end Vecmem
