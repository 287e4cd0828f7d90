import Verif.Spec.EdmMoves
import Verif.Lemmas.EdmPipelineRaces
import Verif.Lemmas.BufferMovesSteps
import Verif.Props.C65_EdmPipelines

/-!
# Lemmas: variables with container buffers
-/

namespace Vecmem

variable {σ : Type} {R : Limits} {G : Nat} {ups : Nat → MR σ} {u0 : σ} {c : EdmVarCfg} {s : EdmVars σ} {q : EReady}

/-- The configuration for given resources. -/
def EdmVarCfg.at (c : EdmVarCfg) (res : Nat → Nat) (host : Nat → Option Nat) : EdmCfg :=
  { schema := c.schema, res, host, dflt := c.dflt, align := c.align, dbg := c.dbg }

theorem EdmVarCfg.cfg_eq (c : EdmVarCfg) (res : Nat) (host : Option Nat) : c.cfg res host = c.at (fun _ => res) fun _ => host := rfl

/-! ## Steps that use buffers look at these buffers only -/

section uses

variable {v v' : Nat → Nat} {h h' : Nat → Option Nat} {u : σ} {m : Mem} {B B' : List (Nat × EBuffer)}

/-- The buffers that a step uses. -/
def EdmOp.keys : EdmOp → List Nat
  | .create k _ _ | .destroy k | .setup k | .memset k _ | .upload _ _ k | .download k _ => [k]
  | .copy i j => [i, j]
  | .append ins k _ _ | .rows ins k _ _ _ | .kernel ins k _ _ | .single ins k _ _ => k :: ins

theorem readVars_at (k : Nat) : ∀ (S : Schema) (xs : List VarView) (i : Nat),
    readVars (c.at v h) k m i S xs = readVars (c.at v' h') k m i S xs := by
  intro S
  induction S with
  | nil => intro xs i; rfl
  | cons w S ih =>
    intro xs i
    cases xs with
    | nil => rfl
    | cons x xs => simp only [readVars, ih]; rfl

theorem EPipe.reads_local : ∀ ins : List Nat, (∀ k ∈ ins, B.lookup k = B'.lookup k) →
    (EPipe.mk u m B).reads (c.at v h) ins = (EPipe.mk u m B').reads (c.at v' h') ins := by
  intro ins
  induction ins with
  | nil => exact fun _ => rfl
  | cons i is ih =>
    intro hl
    have h1 : B.lookup i = B'.lookup i := hl i List.mem_cons_self
    simp only [EPipe.reads, h1, ih fun k hk => hl k (List.mem_cons_of_mem _ hk), readVars_at (v := v) (v' := v') (h := h) (h' := h')]
    rfl

theorem EPipe.exec_local {op : EdmOp} (hu : op.OnlyUses) (hl : ∀ k ∈ op.keys, B.lookup k = B'.lookup k) :
    ((EPipe.mk u m B).exec (c.at v h) ups op).1 = ((EPipe.mk u m B').exec (c.at v' h') ups op).1 ∧
    ((EPipe.mk u m B).exec (c.at v h) ups op).2 =
      ⟨((EPipe.mk u m B').exec (c.at v' h') ups op).2.res, ((EPipe.mk u m B').exec (c.at v' h') ups op).2.mem, B⟩ := by
  cases op with
  | create | destroy => cases hu
  | setup k =>
    have := hl k List.mem_cons_self
    simp only [EPipe.exec, this]
    cases B'.lookup k <;> exact ⟨rfl, rfl⟩
  | memset k value =>
    have := hl k List.mem_cons_self
    simp only [EPipe.exec, this]
    cases B'.lookup k <;> exact ⟨rfl, rfl⟩
  | copy a b =>
    have h1 := hl a (by simp [EdmOp.keys])
    have h2 := hl b (by simp [EdmOp.keys])
    simp only [EPipe.exec, h1, h2]
    cases B'.lookup a <;> cases B'.lookup b <;> exact ⟨rfl, rfl⟩
  | upload ats tbl k =>
    have := hl k List.mem_cons_self
    simp only [EPipe.exec, this]
    cases B'.lookup k <;> exact ⟨rfl, rfl⟩
  | download k ats =>
    have := hl k List.mem_cons_self
    simp only [EPipe.exec, this]
    cases B'.lookup k with
    | none => exact ⟨rfl, rfl⟩
    | some b =>
      show _ ∧ _
      simp only [EdmVarCfg.at]
      cases (hostSizes c.dbg (c.schema k) b.buf.view).value m <;> exact ⟨rfl, rfl⟩
  | append ins k f sched =>
    have h1 := hl k List.mem_cons_self
    have h2 := EPipe.reads_local (c := c) (u := u) (m := m) (v := v) (v' := v') (h := h) (h' := h') ins
      fun i hi => hl i (List.mem_cons_of_mem _ hi)
    simp only [EPipe.exec, h1, h2]
    cases B'.lookup k <;> cases (EPipe.mk u m B').reads (c.at v' h') ins <;> exact ⟨rfl, rfl⟩
  | rows ins k w f sched =>
    have h1 := hl k List.mem_cons_self
    have h2 := EPipe.reads_local (c := c) (u := u) (m := m) (v := v) (v' := v') (h := h) (h' := h') ins
      fun i hi => hl i (List.mem_cons_of_mem _ hi)
    simp only [EPipe.exec, h1, h2]
    cases B'.lookup k with
    | none => exact ⟨rfl, rfl⟩
    | some b =>
      cases (EPipe.mk u m B').reads (c.at v' h') ins <;> try exact ⟨rfl, rfl⟩
      simp only [EdmVarCfg.at]
      cases (c.schema k)[w]? <;> cases b.buf.view.vars[w]? <;> exact ⟨rfl, rfl⟩
  | kernel ins k f sched =>
    have h1 := hl k List.mem_cons_self
    have h2 := EPipe.reads_local (c := c) (u := u) (m := m) (v := v) (v' := v') (h := h) (h' := h') ins
      fun i hi => hl i (List.mem_cons_of_mem _ hi)
    simp only [EPipe.exec, h1, h2]
    cases B'.lookup k with
    | none => exact ⟨rfl, rfl⟩
    | some b =>
      cases (EPipe.mk u m B').reads (c.at v' h') ins with
      | ok ls =>
        simp only [EdmVarCfg.at]
        cases execKernel (c.schema k) b.buf.view (f ls) sched m <;> exact ⟨rfl, rfl⟩
      | _ => exact ⟨rfl, rfl⟩
  | single ins k w f =>
    have h1 := hl k List.mem_cons_self
    have h2 := EPipe.reads_local (c := c) (u := u) (m := m) (v := v) (v' := v') (h := h) (h' := h') ins
      fun i hi => hl i (List.mem_cons_of_mem _ hi)
    simp only [EPipe.exec, h1, h2]
    cases B'.lookup k with
    | none => exact ⟨rfl, rfl⟩
    | some b =>
      cases (EPipe.mk u m B').reads (c.at v' h') ins <;> try exact ⟨rfl, rfl⟩
      simp only [EdmVarCfg.at]
      cases (c.schema k)[w]? <;> cases b.buf.view.vars[w]? <;> exact ⟨rfl, rfl⟩

theorem EStore.HasAll.get {S : EStore} : ∀ {ins : List Nat} {ls : List Table}, S.HasAll ins ls → ∀ k ∈ ins, S k ≠ none
  | [], [], _, _, hk => by cases hk
  | i :: is, l :: ls, ⟨⟨cap, r, h1⟩, h2⟩, k, hk => by
    rcases List.mem_cons.1 hk with rfl | hk
    · rw [h1]; simp
    · exact EStore.HasAll.get h2 k hk

theorem EdmOp.Fits.keys {c : EdmCfg} {out : Nat → Nat → Prop} {S : EStore} {op : EdmOp} (hu : op.OnlyUses)
    (hf : op.Fits c R G out S) : ∀ k ∈ op.keys, S k ≠ none := by
  have key : ∀ {k : Nat} {b : EBuf}, S k = some b → S k ≠ none := by intro k b h; rw [h]; simp
  have one : ∀ {k : Nat}, S k ≠ none → ∀ i ∈ [k], S i ≠ none := by
    intro k h i hi; rw [List.mem_singleton.1 hi]; exact h
  have many : ∀ {k : Nat} {ins : List Nat} {ts : List Table}, S.HasAll ins ts → S k ≠ none → ∀ i ∈ k :: ins, S i ≠ none := by
    intro k ins ts h1 h i hi
    rcases List.mem_cons.1 hi with rfl | hi
    · exact h
    · exact h1.get i hi
  cases op with
  | create | destroy => cases hu
  | setup k => obtain ⟨b, hb, -⟩ := hf; exact one (key hb)
  | memset k => obtain ⟨b, hb, -⟩ := hf; exact one (key hb)
  | copy a b =>
    obtain ⟨-, -, caps, caps', r, r', d, d', t, old, h1, h2, -⟩ := hf
    intro i hi
    rcases List.mem_cons.1 hi with rfl | hi
    · exact key h1
    · exact one (key h2) i hi
  | upload ats t k => obtain ⟨-, -, -, caps, r, d, old, h1⟩ := hf; exact one (key h1)
  | download k ats => obtain ⟨caps, r, d, t, h1, -⟩ := hf; exact one (key h1)
  | append ins k => obtain ⟨-, -, ts, caps, t, n, h1, h2, -⟩ := hf; exact many h1 (key h2)
  | rows ins k => obtain ⟨-, ts, caps, t, ty, rows, h1, h2, -⟩ := hf; exact many h1 (key h2)
  | kernel ins k => obtain ⟨-, ts, caps, r, t, h1, h2, -⟩ := hf; exact many h1 (key h2)
  | single ins k => obtain ⟨-, ts, caps, r, t, ty, rows, h1, h2, -⟩ := hf; exact many h1 (key h2)

theorem EdmStep.at {S V : EStore} {op : EdmOp} {r : Res EdmOut} (hs : EdmStep (c.at v h) S op r V)
    (hh : ∀ k caps rz, op = .create k caps rz → (h k).isSome = (h' k).isSome) : EdmStep (c.at v' h') S op r V := by
  cases hs with
  | createFail k caps r => exact .createFail k caps r
  | createFixed k caps t ht =>
    have := hh k caps false rfl
    have e : (c.at v h).hasHost k = (c.at v' h').hasHost k := this
    rw [e]
    exact .createFixed (c := c.at v' h') k caps t ht
  | createResizable k caps =>
    have := hh k caps true rfl
    have e : (c.at v h).hasHost k = (c.at v' h').hasHost k := this
    rw [e]
    exact .createResizable (c := c.at v' h') k caps
  | destroy k => exact .destroy k
  | setup k h1 h2 => exact .setup (c := c.at v' h') k h1 h2
  | memset k value h1 => exact .memset (c := c.at v' h') k value h1
  | copyBlock i j h1 h2 h3 => exact .copyBlock (c := c.at v' h') i j h1 h2 h3
  | copy i j h1 h2 h3 h4 => exact .copy (c := c.at v' h') i j h1 h2 h3 h4
  | copyRefused i j n h1 h2 h3 h4 h5 => exact .copyRefused (c := c.at v' h') i j n h1 h2 h3 h4 h5
  | upload ats t k h1 h2 h3 => exact .upload (c := c.at v' h') ats t k h1 h2 h3
  | uploadRefused ats t k n h1 h2 h3 h4 => exact .uploadRefused (c := c.at v' h') ats t k n h1 h2 h3 h4
  | download k ats h1 => exact .download k ats h1
  | append ins k f sched h1 h2 n h3 order results t' h4 h5 h6 h7 =>
    exact .append (c := c.at v' h') ins k f sched h1 h2 n h3 order results t' h4 h5 h6 h7
  | rows ins k w f sched h1 h2 h3 h4 order results rows' h5 h6 h7 =>
    exact .rows (c := c.at v' h') ins k w f sched h1 h2 h3 h4 order results rows' h5 h6 h7
  | kernel ins k f sched h1 h2 => exact .kernel ins k f sched h1 h2
  | single ins k w f h1 h2 h3 h4 h5 => exact .single (c := c.at v' h') ins k w f h1 h2 h3 h4 h5

theorem HostTable.mono {out out' : Nat → Nat → Prop} {S : Schema} {ats : List (List Nat)} {t : Table} (ht : HostTable out S ats t)
    (ho : ∀ a n, out a n → out' a n) : HostTable out' S ats t :=
  ⟨ht.shape, ht.placed, fun i v rs h1 h2 r hr => ho _ _ (ht.outside i v rs h1 h2 r hr)⟩

theorem EdmOp.Fits.at {out out' : Nat → Nat → Prop} {S : EStore} {op : EdmOp} (hf : op.Fits (c.at v h) R G out S)
    (ho : ∀ a n, out a n → out' a n) : op.Fits (c.at v' h') R G out' S := by
  cases op with
  | upload ats t k => exact ⟨hf.1.mono ho, hf.2⟩
  | download k ats => obtain ⟨caps, r, d, t, h1, h2⟩ := hf; exact ⟨caps, r, d, t, h1, h2.mono ho⟩
  | _ => exact hf

end uses

/-! ## What holds between the steps -/

structure EdmVInv (c : EdmVarCfg) (R : Limits) (G : Nat) (ups : Nat → MR σ) (u0 : σ) (s : EdmVars σ) (q : EReady) : Prop where
  reach : FReach R ups u0 s.res s.owned
  nodup : (s.vars.map (·.1)).Nodup
  dead : ∀ e ∈ s.vars, e.2.mem.mem.ptr = 0 → e.2.hostMem.mem.ptr = 0
  bufs : ∀ e ∈ s.vars, e.2.mem.mem.ptr ≠ 0 → EdmOk σ R G (c.schema e.1) c.align (e.2.hostMem.mem.ptr != 0) e.2.buf
  good : ∀ e ∈ s.vars, e.2.mem.mem.ptr ≠ 0 → EGood s.mem e.2.buf (q.known e.1) (q.dev e.1)

/-- What a step has to do. -/
def EdmVStepOk (c : EdmVarCfg) (R : Limits) (G : Nat) (ups : Nat → MR σ) (u0 : σ) (s : EdmVars σ) (q : EReady) (op : EdmVarOp) : Prop :=
  EdmVInv c R G ups u0 (s.exec c ups op).2 (op.ready q) ∧
  EdmVarStep c (s.store c q) op (s.exec c ups op).1 ((s.exec c ups op).2.store c (op.ready q))

namespace EdmVars

/-- The state with only those variables that hold a buffer. -/
def held (s : EdmVars σ) : EPipe σ := ⟨s.res, s.mem, (s.vars.filter fun e => e.2.mem.mem.ptr != 0).map fun e => (e.1, e.2.buf)⟩

/-- The resources that the buffers in the variables have. -/
def resOf (s : EdmVars σ) (x : Nat) : Nat := ((s.vars.lookup x).map fun v => v.mem.res).getD 0
@[inherit_doc resOf]
def hostOf (s : EdmVars σ) (x : Nat) : Option Nat :=
  (s.vars.lookup x).bind fun v => if v.hostMem.mem.ptr = 0 then none else some v.hostMem.res

end EdmVars

/-- These are the resources of what the variables own. -/
structure EdmAgrees (s : EdmVars σ) (res : Nat → Nat) (host : Nat → Option Nat) : Prop where
  mem : ∀ e ∈ s.vars, e.2.mem.mem.ptr ≠ 0 → res e.1 = e.2.mem.res
  host : ∀ e ∈ s.vars, e.2.mem.mem.ptr ≠ 0 → host e.1 = if e.2.hostMem.mem.ptr = 0 then none else some e.2.hostMem.res

theorem EdmVars.agrees (hn : (s.vars.map (·.1)).Nodup) : EdmAgrees s s.resOf s.hostOf where
  mem := fun ⟨x, v⟩ he _ => by simp [EdmVars.resOf, lookup_of_mem hn he]
  host := fun ⟨x, v⟩ he _ => by simp [EdmVars.hostOf, lookup_of_mem hn he]

theorem mem_heldE {e : Nat × EBuffer} : e ∈ s.held.bufs ↔ ∃ v, (e.1, v) ∈ s.vars ∧ v.mem.mem.ptr ≠ 0 ∧ e.2 = v.buf := by
  simp only [EdmVars.held, List.mem_map, List.mem_filter, bne_iff_ne, ne_eq]
  constructor
  · rintro ⟨⟨x, v⟩, ⟨h1, h2⟩, rfl⟩
    exact ⟨v, h1, h2, rfl⟩
  · rintro ⟨v, h1, h2, h3⟩
    exact ⟨(e.1, v), ⟨h1, h2⟩, by rw [← h3]⟩

theorem held_lookupE (hn : (s.vars.map (·.1)).Nodup) (x : Nat) :
    s.held.bufs.lookup x = (s.vars.lookup x).bind fun v => if v.mem.mem.ptr = 0 then none else some v.buf := by
  simp only [EdmVars.held]
  rw [lookup_map_snd, lookup_filter_snd (fun v => v.mem.mem.ptr != 0) hn]
  cases s.vars.lookup x with
  | none => rfl
  | some v =>
    simp only [Option.bind_some]
    by_cases h0 : v.mem.mem.ptr = 0 <;> simp [h0]

theorem EdmVar.blocks_perm {v : EdmVar} {x : Nat} {res : Nat → Nat} {host : Nat → Option Nat} (h1 : res x = v.mem.res)
    (h2 : host x = if v.hostMem.mem.ptr = 0 then none else some v.hostMem.res) :
    (v.buf.blocks ((c.at res host).source x)).Perm (v.owners.flatMap Owner.blocks) := by
  simp only [EBuffer.blocks, EdmBuffer.owned, EdmVar.buf, EdmVar.owners, List.filter_cons, List.filter_nil, List.flatMap_cons, List.flatMap_nil,
    Owner.blocks, EdmCfg.source, EdmVarCfg.at, h1, h2]
  by_cases z1 : v.hostMem.mem.ptr = 0 <;> by_cases z2 : v.mem.mem.ptr = 0 <;> simp [z1, z2]
  exact List.Perm.swap ..

theorem owned_permE {res : Nat → Nat} {host : Nat → Option Nat} (u : σ) (m : Mem) : ∀ l : List (Nat × EdmVar),
    (∀ e ∈ l, e.2.mem.mem.ptr = 0 → e.2.hostMem.mem.ptr = 0) → (∀ e ∈ l, e.2.mem.mem.ptr ≠ 0 → res e.1 = e.2.mem.res) →
    (∀ e ∈ l, e.2.mem.mem.ptr ≠ 0 → host e.1 = if e.2.hostMem.mem.ptr = 0 then none else some e.2.hostMem.res) →
    ((EdmVars.mk u m l).held.owned (c.at res host)).Perm (l.flatMap fun e => e.2.owners.flatMap Owner.blocks) := by
  intro l
  induction l with
  | nil => exact fun _ _ _ => .refl _
  | cons e l ih =>
    intro h1 h2 h3
    have ih := ih (fun f hf => h1 f (List.mem_cons_of_mem _ hf)) (fun f hf => h2 f (List.mem_cons_of_mem _ hf))
      fun f hf => h3 f (List.mem_cons_of_mem _ hf)
    simp only [EPipe.owned_eq, EdmVars.held, List.filter_cons, List.flatMap_cons] at ih ⊢
    by_cases h0 : e.2.mem.mem.ptr = 0
    · have h4 := h1 e List.mem_cons_self h0
      simp only [h0, bne_self_eq_false, Bool.false_eq_true, if_false]
      have : e.2.owners.flatMap Owner.blocks = [] := by simp [EdmVar.owners, Owner.blocks, h0, h4]
      rw [this]
      exact ih
    · have h4 : (e.2.mem.mem.ptr != 0) = true := by simpa using h0
      rw [if_pos h4, List.map_cons, List.flatMap_cons]
      exact (EdmVar.blocks_perm (h2 e List.mem_cons_self h0) (h3 e List.mem_cons_self h0)).append ih

namespace EdmVInv

theorem owned (h : EdmVInv c R G ups u0 s q) {res : Nat → Nat} {host : Nat → Option Nat} (ha : EdmAgrees s res host) :
    (s.held.owned (c.at res host)).Perm s.owned := owned_permE s.res s.mem s.vars h.dead ha.mem ha.host

theorem hasHost {res : Nat → Nat} {host : Nat → Option Nat} (ha : EdmAgrees s res host) {x : Nat} {v : EdmVar} (hv : (x, v) ∈ s.vars)
    (h0 : v.mem.mem.ptr ≠ 0) : (c.at res host).hasHost x = (v.hostMem.mem.ptr != 0) := by
  have := ha.host _ hv h0
  simp only [EdmCfg.hasHost, EdmVarCfg.at, this]
  by_cases z : v.hostMem.mem.ptr = 0 <;> simp [z]

theorem toInv (h : EdmVInv c R G ups u0 s q) {res : Nat → Nat} {host : Nat → Option Nat} (ha : EdmAgrees s res host) :
    EInv (c.at res host) R G ups u0 s.held q where
  reach := h.reach.perm (h.owned ha).symm
  nodup := by
    simp only [EdmVars.held, List.map_map]
    exact h.nodup.sublist (List.filter_sublist.map _)
  bufs := fun e he => by
    obtain ⟨v, h1, h2, h3⟩ := mem_heldE.1 he
    rw [h3, hasHost ha h1 h2]
    exact h.bufs _ h1 h2
  good := fun e he => by
    obtain ⟨v, h1, h2, h3⟩ := mem_heldE.1 he
    rw [h3]
    exact h.good _ h1 h2

theorem of {res : Nat → Nat} {host : Nat → Option Nat} (ha : EdmAgrees s res host) (h : EInv (c.at res host) R G ups u0 s.held q)
    (hn : (s.vars.map (·.1)).Nodup) (hd : ∀ e ∈ s.vars, e.2.mem.mem.ptr = 0 → e.2.hostMem.mem.ptr = 0) : EdmVInv c R G ups u0 s q where
  reach := h.reach.perm (owned_permE s.res s.mem s.vars hd ha.mem ha.host)
  nodup := hn
  dead := hd
  bufs := fun e he h0 => by
    have := h.bufs _ (mem_heldE.2 ⟨e.2, he, h0, rfl⟩ : (e.1, e.2.buf) ∈ s.held.bufs)
    rwa [hasHost ha he h0] at this
  good := fun e he h0 => h.good _ (mem_heldE.2 ⟨e.2, he, h0, rfl⟩ : (e.1, e.2.buf) ∈ s.held.bufs)

end EdmVInv

theorem held_storeE (hn : (s.vars.map (·.1)).Nodup) {res : Nat → Nat} {host : Nat → Option Nat} (ha : EdmAgrees s res host) (q : EReady) :
    s.held.store (c.at res host) q = (s.store c q).bufs := by
  funext x
  simp only [EPipe.store, EdmVars.store]
  rw [held_lookupE hn]
  cases hv : s.vars.lookup x with
  | none => rfl
  | some v =>
    simp only [Option.bind_some]
    by_cases h0 : v.mem.mem.ptr = 0
    · simp [h0]
    · rw [if_neg h0, if_neg h0, Option.map_some, EdmVInv.hasHost ha (mem_of_lookup hv) h0]
      rfl

theorem EdmVInv.outside (h : EdmVInv c R G ups u0 s q) {res : Nat → Nat} {host : Nat → Option Nat} (ha : EdmAgrees s res host) {a n : Nat}
    (ho : s.Outside a n) : s.held.Outside (c.at res host) a n := fun e he => ho e ((h.owned ha).mem_iff.1 he)

/-! ## Steps -/

theorem evstep_use (hl : FamLawful R G ups u0) (hc : c.Wf) (h : EdmVInv c R G ups u0 s q) {op : EdmOp}
    (hf : (EdmVarOp.use op).Fits c R G s.Outside (s.store c q)) : EdmVStepOk c R G ups u0 s q (.use op) := by
  obtain ⟨hu, hf⟩ := hf
  have ha := s.agrees h.nodup
  generalize s.resOf = res at ha
  generalize s.hostOf = host at ha
  have hse := held_storeE (c := c) h.nodup ha q
  have hf' : op.Fits (c.at res host) R G (s.held.Outside (c.at res host)) (s.held.store (c.at res host) q) := by
    rw [hse]
    exact EdmOp.Fits.at (v := fun _ => 0) (h := fun _ => none) hf fun a n ho => h.outside ha ho
  have hk : ∀ k ∈ op.keys, s.pipe.bufs.lookup k = s.held.bufs.lookup k := by
    intro k hk
    have := EdmOp.Fits.keys hu hf k hk
    rw [held_lookupE h.nodup]
    simp only [EdmVars.pipe]
    rw [lookup_map_snd]
    simp only [EdmVars.store] at this
    cases hv : s.vars.lookup k with
    | none => rfl
    | some v =>
      rw [hv] at this
      simp only [Option.bind_some] at this
      by_cases h0 : v.mem.mem.ptr = 0
      · rw [if_pos h0] at this; exact absurd rfl this
      · simp [h0]
  obtain ⟨j1, j2⟩ := Props.edm_step (p := s.held) hl (c := c.at res host) hc (h.toInv ha) hf'
  obtain ⟨e1, e2⟩ := EPipe.exec_local (c := c) (ups := ups) (v := fun _ => 0) (h := fun _ => none) (v' := res) (h' := host)
    (u := s.res) (m := s.mem) hu hk
  obtain ⟨-, e3⟩ := EPipe.exec_local (c := c) (ups := ups) (v := res) (h := host) (v' := res) (h' := host) (u := s.res) (m := s.mem)
    (B := s.held.bufs) (B' := s.held.bufs) hu fun _ _ => rfl
  have he : s.exec c ups (.use op) = ((s.held.exec (c.at res host) ups op).1,
      { s with res := (s.held.exec (c.at res host) ups op).2.res, mem := (s.held.exec (c.at res host) ups op).2.mem }) := by
    simp only [EdmVars.exec, EdmVarCfg.cfg_eq]
    have e1' : (s.pipe.exec (c.at (fun _ => 0) fun _ => none) ups op).1 = (s.held.exec (c.at res host) ups op).1 := e1
    have e2' : (s.pipe.exec (c.at (fun _ => 0) fun _ => none) ups op).2 =
        ⟨(s.held.exec (c.at res host) ups op).2.res, (s.held.exec (c.at res host) ups op).2.mem, s.pipe.bufs⟩ := e2
    rw [e1', e2']
  have e3' : (s.held.exec (c.at res host) ups op).2 =
      EdmVars.held { s with res := (s.held.exec (c.at res host) ups op).2.res, mem := (s.held.exec (c.at res host) ups op).2.mem } := e3
  unfold EdmVStepOk
  rw [he]
  rw [e3'] at j1
  have ha' : EdmAgrees { s with res := (s.held.exec (c.at res host) ups op).2.res, mem := (s.held.exec (c.at res host) ups op).2.mem }
      res host := ⟨ha.mem, ha.host⟩
  have hinv := EdmVInv.of ha' j1 h.nodup h.dead
  refine ⟨hinv, ?_⟩
  rw [hse] at j2
  have j3 : EdmStep c.cfg (s.store c q).bufs op (s.held.exec (c.at res host) ups op).1
      ((s.held.exec (c.at res host) ups op).2.store (c.at res host) (op.ready q)) :=
    EdmStep.at (v' := fun _ => 0) (h' := fun _ => none) j2 (by rintro k caps rz rfl; cases hu)
  have hb := held_storeE (c := c) (s := { s with res := (s.held.exec (c.at res host) ups op).2.res
                                                 mem := (s.held.exec (c.at res host) ups op).2.mem }) h.nodup ha' (op.ready q)
  rw [← e3'] at hb
  rw [hb] at j3
  exact .use op j3

theorem EdmVarStore.ext_of {A B : EdmVarStore} (h1 : ∀ i, A.bufs i = B.bufs i) (h2 : ∀ i, A.vars i = B.vars i) : A = B := by
  obtain ⟨a1, a2⟩ := A
  obtain ⟨b1, b2⟩ := B
  cases (funext h1 : a1 = b1)
  cases (funext h2 : a2 = b2)
  rfl

theorem store_varsE (s : EdmVars σ) (q : EReady) (x : Nat) : (s.store c q).vars x = (s.vars.lookup x).isSome := rfl

/-- What is in a variable. -/
def EdmVar.val (v : EdmVar) (m : Mem) (S : Schema) (known dev : Bool) : Option EBuf :=
  if v.mem.mem.ptr = 0 then none
  else some ⟨v.caps, v.resizable, if !v.resizable || known then some (tableOf m S v.view.vars) else none,
    !(S.hasJagged && v.hostMem.mem.ptr != 0) || dev⟩

theorem store_bufsE (s : EdmVars σ) (q : EReady) (x : Nat) :
    (s.store c q).bufs x = (s.vars.lookup x).bind fun v => v.val s.mem (c.schema x) (q.known x) (q.dev x) := rfl

theorem exists_varE {x : Nat} : (s.store c q).vars x = true ↔ ∃ v, s.vars.lookup x = some v := Option.isSome_iff_exists
theorem absent_varE {x : Nat} : (s.store c q).vars x = false ↔ s.vars.lookup x = none := Option.isSome_eq_false_iff.trans Option.isNone_iff_eq_none

theorem evstep_empty (h : EdmVInv c R G ups u0 s q) {x : Nat} {view : EdmView}
    (hf : (EdmVarOp.empty x view).Fits c R G s.Outside (s.store c q)) : EdmVStepOk c R G ups u0 s q (.empty x view) := by
  have hx := absent_varE.1 hf
  unfold EdmVStepOk
  simp only [EdmVars.exec, EdmVarOp.ready]
  refine ⟨⟨?_, nodup_putVar h.nodup _ _, ?_, ?_, ?_⟩, ?_⟩
  · have : EdmVars.owned { s with vars := putVar s.vars x { view } } = s.owned := by
      simp [EdmVars.owned, putVar, filter_absent hx, EdmVar.owners, Owner.blocks]
    rw [this]
    exact h.reach
  · intro e he h0
    rcases mem_putVar.1 he with rfl | ⟨he, -⟩
    · rfl
    · exact h.dead e he h0
  · intro e he h0
    rcases mem_putVar.1 he with rfl | ⟨he, -⟩
    · exact absurd rfl h0
    · exact h.bufs e he h0
  · intro e he h0
    rcases mem_putVar.1 he with rfl | ⟨he, -⟩
    · exact absurd rfl h0
    · exact h.good e he h0
  · have : EdmVars.store c { s with vars := putVar s.vars x { view } } q = (s.store c q).put x none := by
      refine EdmVarStore.ext_of (fun i => ?_) fun i => ?_
      · simp only [store_bufsE, EdmVarStore.put, EStore.put, lookup_putVar]
        by_cases hi : i = x
        · rw [if_pos hi, if_pos hi]; rfl
        · rw [if_neg hi, if_neg hi]
      · simp only [store_varsE, EdmVarStore.put, lookup_putVar]
        by_cases hi : i = x
        · subst hi; simp
        · simp [hi, beq_eq_false_iff_ne.2 hi]
    rw [this]
    exact .empty x view

theorem evstep_create (hl : FamLawful R G ups u0) (hc : c.Wf) (h : EdmVInv c R G ups u0 s q) {x res : Nat} {host : Option Nat}
    {caps : List Nat} {r : Bool} (hf : (EdmVarOp.create x res host caps r).Fits c R G s.Outside (s.store c q)) :
    EdmVStepOk c R G ups u0 s q (.create x res host caps r) := by
  obtain ⟨hx, hf⟩ := hf
  have hx := absent_varE.1 hx
  have hne := lookup_ne hx
  have ha0 := s.agrees h.nodup
  -- the resources, with those of the new one
  have ha : EdmAgrees s (fun i => if i = x then res else s.resOf i) (fun i => if i = x then host else s.hostOf i) :=
    ⟨fun e he h0 => by simp only [if_neg (hne e he)]; exact ha0.mem e he h0,
     fun e he h0 => by simp only [if_neg (hne e he)]; exact ha0.host e he h0⟩
  generalize hres : (fun i => if i = x then res else s.resOf i) = res' at ha
  generalize hhost : (fun i => if i = x then host else s.hostOf i) = host' at ha
  have hrx : res' x = res := by rw [← hres]; simp
  have hhx : host' x = host := by rw [← hhost]; simp
  have hse := held_storeE (c := c) h.nodup ha q
  have hf' : (EdmOp.create x caps r).Fits (c.at res' host') R G (s.held.Outside (c.at res' host')) (s.held.store (c.at res' host') q) := by
    rw [hse]; exact hf
  obtain ⟨j1, j2⟩ := estep_create (p := s.held) (c := c.at res' host') hc hl (h.toInv ha) hf'
  rw [hse] at j2
  have hsrc : (fun h => ups ((c.at res' host').source x h)) = fun h => ups (if h then host.getD 0 else res) := by
    funext b
    cases b <;> simp [EdmCfg.source, EdmVarCfg.at, hrx, hhx]
  have hhas : (c.at res' host').hasHost x = host.isSome := by simp [EdmCfg.hasHost, EdmVarCfg.at, hhx]
  unfold EdmVStepOk
  rcases hcr : EdmBuffer.create (fun h => ups (if h then host.getD 0 else res)) s.res (c.schema x) caps host.isSome r with ⟨rr, u⟩
  have hcr' : EdmBuffer.create (fun h => ups ((c.at res' host').source x h)) s.held.res ((c.at res' host').schema x) caps
      ((c.at res' host').hasHost x) r = (rr, u) := by rw [hsrc, hhas]; exact hcr
  by_cases hok : ∃ b, rr = .ok b
  · obtain ⟨b, rfl⟩ := hok
    have e1 : s.held.exec (c.at res' host') ups (.create x caps r) =
        (.ok .unit, ⟨u, writeLayouts s.mem b.view.vars, (x, ⟨b, caps, r⟩) :: s.held.bufs⟩) := by
      simp only [EPipe.exec, hcr']; rfl
    rw [e1] at j1 j2
    have e2 : s.exec c ups (.create x res host caps r) = (.ok .unit,
        { s with res := u, mem := writeLayouts s.mem b.view.vars
                 vars := putVar s.vars x ⟨b.view, ⟨b.mem, res⟩, ⟨b.hostMem, host.getD 0⟩, caps, r⟩ }) := by
      simp only [EdmVars.exec, hcr]
    rw [e2]
    have hbo := j1.bufs (x, ⟨b, caps, r⟩) List.mem_cons_self
    have hb0 : b.mem.ptr ≠ 0 := hbo.nonnull
    have hbh : b.hostMem.ptr ≠ 0 ↔ host.isSome = true := by
      have := hbo.host.1
      simp only [hhas] at this
      exact this
    -- the new variables
    have heq : EdmVars.held { s with res := u, mem := writeLayouts s.mem b.view.vars
                                     vars := putVar s.vars x ⟨b.view, ⟨b.mem, res⟩, ⟨b.hostMem, host.getD 0⟩, caps, r⟩ } =
        ⟨u, writeLayouts s.mem b.view.vars, (x, ⟨b, caps, r⟩) :: s.held.bufs⟩ := by
      simp only [EdmVars.held, putVar, filter_absent hx, List.filter_cons]
      have : (b.mem.ptr != 0) = true := by simpa using hb0
      rw [if_pos this]
      rfl
    have ha' : EdmAgrees { s with res := u, mem := writeLayouts s.mem b.view.vars
                                  vars := putVar s.vars x ⟨b.view, ⟨b.mem, res⟩, ⟨b.hostMem, host.getD 0⟩, caps, r⟩ } res' host' := by
      constructor
      · intro e he h0
        rcases mem_putVar.1 he with rfl | ⟨he, -⟩
        · exact hrx
        · exact ha.mem e he h0
      · intro e he h0
        rcases mem_putVar.1 he with rfl | ⟨he, -⟩
        · simp only [hhx]
          cases host with
          | none =>
            have : b.hostMem.ptr = 0 := Decidable.not_not.1 fun hc => by simpa using hbh.1 hc
            simp [this]
          | some hr =>
            have : b.hostMem.ptr ≠ 0 := hbh.2 rfl
            simp [this]
        · exact ha.host e he h0
    have hn' := nodup_putVar h.nodup x (⟨b.view, ⟨b.mem, res⟩, ⟨b.hostMem, host.getD 0⟩, caps, r⟩ : EdmVar)
    have hd' : ∀ e ∈ putVar s.vars x (⟨b.view, ⟨b.mem, res⟩, ⟨b.hostMem, host.getD 0⟩, caps, r⟩ : EdmVar),
        e.2.mem.mem.ptr = 0 → e.2.hostMem.mem.ptr = 0 := by
      intro e he h0
      rcases mem_putVar.1 he with rfl | ⟨he, -⟩
      · exact absurd h0 hb0
      · exact h.dead e he h0
    rw [← heq] at j1 j2
    refine ⟨EdmVInv.of ha' j1 hn' hd', ?_⟩
    have hb := held_storeE (c := c) hn' ha' ((EdmVarOp.create x res host caps r).ready q)
    have j3 : EdmStep (c.cfg 0 host) (s.store c q).bufs (.create x caps r) (.ok .unit) _ :=
      EdmStep.at (v' := fun _ => 0) (h' := fun _ => host) j2 (by intro k _ _ hk; cases hk; rw [hhx])
    have hst : EdmVars.store c { s with res := u, mem := writeLayouts s.mem b.view.vars
                                        vars := putVar s.vars x ⟨b.view, ⟨b.mem, res⟩, ⟨b.hostMem, host.getD 0⟩, caps, r⟩ }
        ((EdmVarOp.create x res host caps r).ready q) = (s.store c q).put x
          ((EdmVars.store c { s with res := u, mem := writeLayouts s.mem b.view.vars
                                     vars := putVar s.vars x ⟨b.view, ⟨b.mem, res⟩, ⟨b.hostMem, host.getD 0⟩, caps, r⟩ }
            ((EdmVarOp.create x res host caps r).ready q)).bufs x) := by
      refine EdmVarStore.ext_of (fun i => ?_) fun i => ?_
      · simp only [EdmVarStore.put, EStore.put]
        by_cases hi : i = x
        · rw [if_pos hi, hi]
        · rw [if_neg hi]
          -- by the step, nothing else has changed
          have hother : ∀ {V : EStore}, EdmStep (c.cfg 0 host) (s.store c q).bufs (.create x caps r) (.ok .unit) V → V i = (s.store c q).bufs i := by
            intro V hV
            cases hV with
            | createFixed => simp [EStore.put, hi]
            | createResizable => simp [EStore.put, hi]
          have := hother j3
          rw [← this]
          exact (congrFun hb i).symm
      · simp only [store_varsE, EdmVarStore.put, lookup_putVar]
        by_cases hi : i = x
        · subst hi; simp
        · simp [hi, beq_eq_false_iff_ne.2 hi]
    rw [hst, ← hb]
    exact .create x res host caps r j3
  · have e1 : s.held.exec (c.at res' host') ups (.create x caps r) = (rr.map fun _ => .unit, { s.held with res := u }) := by
      simp only [EPipe.exec, hcr']
      cases rr with
      | ok b => exact absurd ⟨b, rfl⟩ hok
      | _ => rfl
    have e2 : s.exec c ups (.create x res host caps r) = (rr.map fun _ => .unit, { s with res := u }) := by
      simp only [EdmVars.exec, hcr]
      cases rr with
      | ok b => exact absurd ⟨b, rfl⟩ hok
      | _ => rfl
    rw [e1] at j1 j2
    rw [e2]
    have ha' : EdmAgrees { s with res := u } res' host' := ⟨ha.mem, ha.host⟩
    refine ⟨EdmVInv.of ha' j1 h.nodup h.dead, ?_⟩
    have hst : EdmVars.store c { s with res := u } ((EdmVarOp.create x res host caps r).ready q) = s.store c q := by
      refine EdmVarStore.ext_of (fun i => ?_) fun i => rfl
      by_cases hi : i = x
      · subst hi
        simp only [store_bufsE, hx, Option.bind_none]
      · simp only [store_bufsE, EdmVarOp.ready, EdmOp.ready]
        rw [show (i != x) = true from by simpa using hi]
        simp
    have : rr = .badAlloc := by
      cases rr with
      | ok b => exact absurd ⟨b, rfl⟩ hok
      | badAlloc => rfl
      | _ => simp only [Res.map] at j2; cases j2
    rw [this, hst]
    exact .createFail x res host caps r

theorem EdmVar.moved_blocks (v : EdmVar) : v.moved.owners.flatMap Owner.blocks = [] := by
  simp [EdmVar.moved, EdmVar.owners, Owner.moved_blocks]

/-- The variables after moving. -/
theorem move_invE (h : EdmVInv c R G ups u0 s q) {u : σ} {x y : Nat} {v : EdmVar} (hx : x ≠ y) (hy : s.vars.lookup y = some v)
    (hty : c.schema x = c.schema y)
    (hr : FReach R ups u0 u (v.owners.flatMap Owner.blocks ++
      ((s.vars.filter fun e => e.1 != y).filter fun e => e.1 != x).flatMap fun e => e.2.owners.flatMap Owner.blocks)) (op : EdmVarOp)
    (hop : op.ready q = ⟨fun i => if i = x then q.known y else q.known i, fun i => if i = x then q.dev y else q.dev i⟩) :
    EdmVInv c R G ups u0 { s with res := u, vars := putVar (putVar s.vars y v.moved) x v } (op.ready q) ∧
    EdmVars.store c { s with res := u, vars := putVar (putVar s.vars y v.moved) x v } (op.ready q) = (s.store c q).move x y := by
  have hm := mem_of_lookup hy
  rw [hop]
  refine ⟨⟨?_, nodup_putVar (nodup_putVar h.nodup _ _) _ _, ?_, ?_, ?_⟩, ?_⟩
  · simp only [EdmVars.owned, putVar_two s.vars hx, List.flatMap_cons, EdmVar.moved_blocks, List.nil_append]
    exact hr
  · intro e he h0
    rcases mem_putVar.1 he with rfl | ⟨he, h1⟩
    · exact h.dead (y, v) hm h0
    · rcases mem_putVar.1 he with rfl | ⟨he, h2⟩
      · rfl
      · exact h.dead e he h0
  · intro e he h0
    rcases mem_putVar.1 he with rfl | ⟨he, h1⟩
    · rw [hty]
      exact h.bufs _ hm h0
    · rcases mem_putVar.1 he with rfl | ⟨he, h2⟩
      · exact absurd rfl h0
      · exact h.bufs e he h0
  · intro e he h0
    rcases mem_putVar.1 he with rfl | ⟨he, h1⟩
    · simp only [if_true]
      exact h.good _ hm h0
    · simp only [if_neg h1]
      rcases mem_putVar.1 he with rfl | ⟨he, h2⟩
      · exact absurd rfl h0
      · exact h.good e he h0
  · unfold EdmVarStore.move
    rw [if_neg hx]
    refine EdmVarStore.ext_of (fun i => ?_) fun i => ?_
    · simp only [store_bufsE, EdmVarStore.put, EStore.put, lookup_putVar]
      by_cases h1 : i = x
      · simp only [if_pos h1, Option.bind_some, hy]
        rw [h1, hty]
      · by_cases h2 : i = y
        · simp only [if_neg h1, if_pos h2, Option.bind_some]
          rfl
        · simp only [if_neg h1, if_neg h2, store_bufsE]
    · simp only [store_varsE, EdmVarStore.put, lookup_putVar]
      by_cases h1 : i = x
      · subst h1; simp
      · by_cases h2 : i = y
        · rw [if_neg h1, if_pos h2, h2]; simp
        · rw [if_neg h1, if_neg h2, beq_eq_false_iff_ne.2 h1, beq_eq_false_iff_ne.2 h2]; simp

theorem evstep_move (h : EdmVInv c R G ups u0 s q) {x y : Nat} (hf : (EdmVarOp.move x y).Fits c R G s.Outside (s.store c q)) :
    EdmVStepOk c R G ups u0 s q (.move x y) := by
  obtain ⟨hx, hy, hty⟩ := hf
  have hx := absent_varE.1 hx
  obtain ⟨v, hv⟩ := exists_varE.1 hy
  have hxy : x ≠ y := by
    rintro rfl
    rw [hx] at hv; cases hv
  have hp := (perm_filter h.nodup (mem_of_lookup hv)).flatMap_right fun e => e.2.owners.flatMap Owner.blocks
  have hr : FReach R ups u0 s.res (v.owners.flatMap Owner.blocks ++
      ((s.vars.filter fun e => e.1 != y).filter fun e => e.1 != x).flatMap fun e => e.2.owners.flatMap Owner.blocks) := by
    rw [filter_absent (l := s.vars.filter fun e => e.1 != y) (by rw [lookup_filter, if_neg hxy]; exact hx)]
    exact h.reach.perm hp
  obtain ⟨k1, k2⟩ := move_invE h hxy hv hty hr (.move x y) rfl
  unfold EdmVStepOk
  simp only [EdmVars.exec, hv]
  refine ⟨k1, ?_⟩
  have k2' : EdmVars.store c { s with vars := putVar (putVar s.vars y v.moved) x v } ((EdmVarOp.move x y).ready q) = (s.store c q).move x y := k2
  rw [k2']
  exact .move x y

theorem evstep_assign (hl : FamLawful R G ups u0) (h : EdmVInv c R G ups u0 s q) {x y : Nat}
    (hf : (EdmVarOp.assign x y).Fits c R G s.Outside (s.store c q)) : EdmVStepOk c R G ups u0 s q (.assign x y) := by
  obtain ⟨hx, hy, hty⟩ := hf
  obtain ⟨w, hw⟩ := exists_varE.1 hx
  obtain ⟨v, hv⟩ := exists_varE.1 hy
  unfold EdmVStepOk
  simp only [EdmVars.exec, hw, hv]
  by_cases hxy : x = y
  · subst hxy
    rw [if_pos rfl]
    have hq : (EdmVarOp.assign x x).ready q = q := by
      obtain ⟨k, d⟩ := q
      simp only [EdmVarOp.ready, EReady.mk.injEq]
      constructor <;> (funext i; by_cases hi : i = x <;> simp [hi])
    rw [hq]
    refine ⟨h, ?_⟩
    have : (s.store c q).move x x = s.store c q := by simp [EdmVarStore.move]
    have h3 := EdmVarStep.assign (c := c) (S := s.store c q) x x
    rwa [this] at h3
  · rw [if_neg hxy]
    have hp := (perm_two h.nodup hw hv hxy).flatMap_right fun e => e.2.owners.flatMap Owner.blocks
    have hr := h.reach.perm hp
    simp only [List.flatMap_cons] at hr
    obtain ⟨u', d1, d2⟩ := Owner.destroyAll_ok hl w.owners s.res hr
    rw [d1]
    obtain ⟨k1, k2⟩ := move_invE h hxy hv hty d2 (.assign x y) rfl
    refine ⟨k1, ?_⟩
    simp only [Res.map]
    rw [k2]
    exact .assign x y

theorem evstep_destroy (hl : FamLawful R G ups u0) (h : EdmVInv c R G ups u0 s q) {x : Nat}
    (hf : (EdmVarOp.destroy x).Fits c R G s.Outside (s.store c q)) : EdmVStepOk c R G ups u0 s q (.destroy x) := by
  obtain ⟨v, hv⟩ := exists_varE.1 hf
  unfold EdmVStepOk
  simp only [EdmVars.exec, EdmVarOp.ready, hv]
  have hp := (perm_filter h.nodup (mem_of_lookup hv)).flatMap_right fun e => e.2.owners.flatMap Owner.blocks
  have hr := h.reach.perm hp
  simp only [List.flatMap_cons] at hr
  have hr2 := hr.perm (((List.reverse_perm v.owners).symm.flatMap_right Owner.blocks).append_right _)
  obtain ⟨u', d1, d2⟩ := Owner.destroyAll_ok hl v.owners.reverse s.res hr2
  rw [d1]
  refine ⟨⟨d2, h.nodup.sublist (List.filter_sublist.map _), ?_, ?_, ?_⟩, ?_⟩
  · exact fun e he => h.dead e (List.mem_filter.1 he).1
  · exact fun e he => h.bufs e (List.mem_filter.1 he).1
  · exact fun e he => h.good e (List.mem_filter.1 he).1
  · have : EdmVars.store c { s with res := u', vars := s.vars.filter fun e => e.1 != x } q = (s.store c q).drop x := by
      refine EdmVarStore.ext_of (fun i => ?_) fun i => ?_
      · simp only [store_bufsE, EdmVarStore.drop, EStore.put, lookup_filter]
        by_cases hi : i = x
        · rw [if_pos hi, if_pos hi]; rfl
        · rw [if_neg hi, if_neg hi]
      · simp only [store_varsE, EdmVarStore.drop, lookup_filter]
        by_cases hi : i = x
        · subst hi; simp
        · simp [hi, bne_iff_ne.2 hi]
    simp only [Res.map]
    rw [this]
    exact .destroy x

end Vecmem
