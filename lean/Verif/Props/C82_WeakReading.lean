import Verif.Lemmas.WeakReading
import Verif.Props.C81_WeakContainers

/-!
# C82: kernels that read their inputs on weak memory

Vocabulary: `Verif/Spec/WeakInputs.lean`, `Verif/Spec/WeakReading.lean`, and that of C81.
-/

namespace Vecmem.Props

open Vecmem

section

variable {w : Nat} {I : WImpl w} {m : AMem w} {progs : Nat → WProg w} {s : WRun w} {ro : Nat → Bool}

/-- C82: let threads access some variables with ordinary reads only.  Then every execution is one of threads that were given the initial values of these variables, and do not
read them: all other accesses are the same, with the same values, and the threads are at the same place of their programs. -/
theorem c82_given (hI : I = posixWeak ∨ I = cudaWeak ∨ I = syclWeak ∨ I = syclBuiltinWeak) (hro : ∀ i, (progs i).OnlyReads ro) (h : WRun.Reach I m progs s) :
    ∃ s', WRun.Reach I m (fun i => (progs i).given ro m) s' ∧ s'.sys.trace = s.sys.trace.elsewhere ro ∧ ∀ i, s'.prog i = (s.prog i).given ro m :=
  ⟨_, (reach_given hI hro h).1, rfl, fun _ => rfl⟩

/-- C82: what is read from these variables is their initial value. -/
theorem c82_reads (hI : I = posixWeak ∨ I = cudaWeak ∨ I = syclWeak ∨ I = syclBuiltinWeak) (hro : ∀ i, (progs i).OnlyReads ro) (h : WRun.Reach I m progs s) :
    ∀ e ∈ s.sys.trace, ro e.addr = true → e.call = .read ∧ e.wrote = none ∧ ∃ t, e.read = some (t, m e.addr) := by
  have hrd := plain_read (w := w) hI
  induction h with
  | start => intro e he; cases he
  | @step s s' hr hs ih =>
    obtain ⟨-, h2, h3⟩ := reach_given hI hro hr
    cases hs with
    | quiet s1 g1 g2 g3 =>
      dsimp only
      rw [g2]
      exact ih
    | access s1 e next g1 g2 g3 =>
      dsimp only
      rw [g2]
      intro f hf ha
      rcases List.mem_append.1 hf with hf | hf
      · exact ih f hf ha
      · cases List.mem_singleton.1 hf
        have hp := h2 e.thread
        rw [g3] at hp
        have hc := hp.1 ha
        have hno : ∀ {i a c code}, s.sys.phase i = .accessing a c code → c = e.call → code = ⟨false, .plainLoad, false⟩ := by
          intro i a c code hph hce
          have := hr.sys.values.code i a c code (.inl hph)
          rw [hce, hc, hrd] at this
          exact (Option.some.inj this).symm
        have nil : ∀ l : WTrace w, l ≠ l ++ [e] := fun l h => by have := congrArg List.length h; simp at this
        cases g1 with
        | call i a c code k1 k2 => exact absurd g2 (nil _)
        | fence i a c code k1 => exact absurd g2 (nil _)
        | leave i k1 => exact absurd g2 (nil _)
        | load i a t c code acq msg k1 k2 k3 k4 =>
          cases List.append_cancel_left g2
          rw [hno k1 rfl] at k2
          cases k2
        | store i a t c code x rel k1 k2 k3 k4 =>
          cases List.append_cancel_left g2
          rw [hno k1 rfl] at k2
          cases k2
        | update i a t c code f acq rel acqF msg x k1 k2 k3 k4 k5 k6 =>
          cases List.append_cancel_left g2
          rw [hno k1 rfl] at k2
          cases k2
        | keep i a t c code f acq rel acqF msg k1 k2 k3 k4 k5 =>
          cases List.append_cancel_left g2
          rw [hno k1 rfl] at k2
          cases k2
        | plainStore i a t c code x k1 k2 k3 k4 =>
          cases List.append_cancel_left g2
          rw [hno k1 rfl] at k2
          cases k2
        | plainLoad i a t c code msg k1 k2 k3 k4 =>
          cases List.append_cancel_left g2
          exact ⟨hc, rfl, t, by rw [(h3 a ha t msg k4).2]⟩

end

section

variable {σ : Type} {I : WImpl 32} {R : Limits} {G : Nat} {ups : Nat → MR σ} {u0 : σ} {c : EdmCfg} {p : EPipe σ} {q : EReady}

open Classical in
/-- The variables of the elements of the inputs. -/
noncomputable def inputs (locs : Nat → Cell → Option (Nat × Nat)) (B : Nat → Nat) (x : Nat) : Bool :=
  decide (∃ k c t a, locs k c = some (t, a) ∧ ∃ u, u < t ∧ x = B (a + u))

theorem inputs_own {locs : Nat → Cell → Option (Nat × Nat)} {mem : Mem} {B : Nat → Nat} {m : AMem 32} {own : Nat → Prop} (h : InputVars locs mem B m own) :
    (∀ a, own a → inputs locs B a = false) ∧
    ∀ k c t a, locs k c = some (t, a) → ∀ u, u < t → inputs locs B (B (a + u)) = true ∧ m (B (a + u)) = BitVec.ofNat 32 (mem (a + u)).toNat := by
  constructor
  · intro a ha
    unfold inputs
    rw [decide_eq_false_iff_not]
    rintro ⟨k, c, t, b, hl, u, hu, rfl⟩
    exact (h k c t b hl u hu).2 ha
  · intro k c t a hl u hu
    refine ⟨?_, (h k c t a hl u hu).1⟩
    unfold inputs
    exact @decide_eq_true _ (Classical.propDecidable _) ⟨k, c, t, a, hl, u, hu, rfl⟩

theorem zipWith_zip {α β : Type} : ∀ {l : List (List α)} {l' : List (List β)}, l'.length = l.length → (∀ i : Nat, (l'[i]?.getD []).length = (l[i]?.getD []).length) →
    (l.zipWith (fun a b => a.zip b) l').map (·.map (·.1)) = l ∧ (l.zipWith (fun a b => a.zip b) l').map (·.map (·.2)) = l'
  | [], [], _, _ => ⟨rfl, rfl⟩
  | [], _ :: _, h, _ => by simp at h
  | _ :: _, [], h, _ => by simp at h
  | a :: l, b :: l', h, hl => by
    have h0 : b.length = a.length := by simpa using hl 0
    obtain ⟨h1, h2⟩ := zipWith_zip (l := l) (l' := l') (by simpa using h) (fun i => by simpa using hl (i + 1))
    rw [List.zipWith_cons_cons, List.map_cons, List.map_cons, h1, h2, List.map_fst_zip (by omega), List.map_snd_zip (by omega)]
    exact ⟨rfl, rfl⟩

/-- C82: a kernel whose threads read elements of inputs on weak memory, and append to a container, is one that has been given the inputs: threads make the calls that they make if they are told the
elements of the inputs, and what is left, and returned, is so in an execution of the kernel with these calls (C81). -/
theorem c82_append (hI : I = posixWeak ∨ I = cudaWeak ∨ I = syclWeak ∨ I = syclBuiltinWeak) (hc : c.Wf) {k : Nat} {b : EBuffer} {caps : List Nat} {n : Nat}
    {locs : Nat → Cell → Option (Nat × Nat)} {ts : List Table} {progs : List (RTask (DCall Elem))} {mem mem' : Mem} {idx : List (List Nat)}
    (hloc : ∀ k d x, (ts[k]?).bind (·.cell d) = some x → ∃ t a, locs k d = some (t, a) ∧ bytesAt mem a t = x) (hv : ∀ t ∈ progs, t.Valid ts)
    (ha : AppendReady c k mem b caps n (progs.map (·.calls ts)))
    (h : ReadingKernel I c.dbg (c.dflt k) (c.schema k) b.buf.view locs progs mem mem' idx) :
    ∃ rets, rets.map (·.map (·.2)) = idx ∧ ContainerKernel I c.dbg (c.dflt k) (c.schema k) b.buf.view (progs.map (·.calls ts)) mem mem' rets := by
  obtain ⟨V, B, m, s, hV, hdbg, h1, h2, h3, h4, h5, h6, h7, h8⟩ := h
  obtain ⟨o1, o2⟩ := inputs_own h2
  obtain ⟨s', g1, g2, g3⟩ := c82_given hI (ro := inputs locs B) (fun i => onlyReads_code (fun x k hk => onlyReads_append o1 _ hk) _) h3
  have hprog : ∀ i : Nat, (RTask.code locs B (fun (d : DCall Elem) (k' : WProg 32) => (d.weak byteWords (b.buf.view.device c.dbg (c.dflt k) (c.schema k) mem).newElement).code V k')
      (progs[i]?.getD .done)).given (inputs locs B) m =
      (WTask.records byteWords (b.buf.view.device c.dbg (c.dflt k) (c.schema k) mem).newElement ((progs.map (·.calls ts))[i]?.getD [])).code V := by
    intro i
    rw [given_code (ts := ts) (mem := mem) (call := fun (d : DCall Elem) (k' : WProg 32) => (d.weak byteWords
      (b.buf.view.device c.dbg (c.dflt k) (c.schema k) mem).newElement).code V k') o2 hloc (fun x k => given_append o1 _ _), records_code]
    · congr 2
      rw [List.getElem?_map]
      cases progs[i]? <;> rfl
    · cases hp : progs[i]? with
      | none => trivial
      | some t => exact hv t (List.mem_of_getElem? hp)
  rw [funext hprog] at g1
  have hdone : ∀ i, s'.prog i = .done := fun i => by rw [g3, h4]; rfl
  obtain ⟨-, h9⟩ := c81_sequential hI hV (ha.shows h1) ha.ready ha.room ha.valid (ha.worded hc) g1
  obtain ⟨sched, e1, e2, e3, e4⟩ := h9 hdone
  have hclaims : ∀ i, WTrace.claims V.size (s'.sys.trace.of i) = WTrace.claims V.size (s.sys.trace.of i) := fun i => by
    rw [g2, elsewhere_claims (o1 _ (.inl rfl))]
  have hlen : ∀ i : Nat, (idx[i]?.getD []).length = ((progs.map (·.calls ts))[i]?.getD []).length := by
    intro i
    rw [(h8 i).length_eq, ← hclaims, ← (e4 i).2.length_eq, ← (e4 i).1, List.length_map]
  have hat : ∀ i : Nat, ((progs.map (·.calls ts)).zipWith (fun cs is => cs.zip is) idx)[i]?.getD [] = ((progs.map (·.calls ts))[i]?.getD []).zip (idx[i]?.getD []) := by
    intro i
    rw [List.getElem?_zipWith]
    cases hp : (progs.map (·.calls ts))[i]? <;> cases hq : idx[i]? <;> simp
  obtain ⟨z1, z2⟩ := zipWith_zip (by rw [h7, List.length_map]) hlen
  refine ⟨(progs.map (·.calls ts)).zipWith (fun cs is => cs.zip is) idx, z2, V, m, s', hV, hdbg, h1, g1, hdone, ?_, h6, z1, fun i => ?_⟩
  · exact h5.change fun a ha x hx => by rw [g2]; exact (elsewhere_final (o1 a ha) x).2 hx
  · rw [hat, hclaims]
    refine List.forall₂_iff_get.2 ⟨?_, fun j hj hj' => ?_⟩
    · rw [← (h8 i).length_eq, List.length_zip]
      have := hlen i
      omega
    · have := (List.forall₂_iff_get.1 (h8 i)).2 j (by rw [(h8 i).length_eq]; exact hj') hj'
      simpa using this

/-- The run of threads that have been given the inputs. -/
theorem given_records (hI : I = posixWeak ∨ I = cudaWeak ∨ I = syclWeak ∨ I = syclBuiltinWeak) {V : WVec} {B : Nat → Nat} {m : AMem 32} {s : WRun 32} {new : List (Nat × Elem)}
    {locs : Nat → Cell → Option (Nat × Nat)} {ts : List Table} {progs : List (RTask (DCall Elem))} {mem : Mem}
    (hloc : ∀ k d x, (ts[k]?).bind (·.cell d) = some x → ∃ t a, locs k d = some (t, a) ∧ bytesAt mem a t = x) (hv : ∀ t ∈ progs, t.Valid ts)
    (h2 : InputVars locs mem B m V.Owns)
    (h3 : WRun.Reach I m (fun i => (progs[i]?.getD .done).code locs B fun c k => (c.weak byteWords new).code V k) s) :
    ∃ s', WRun.Reach I m (fun i => (WTask.records byteWords new ((progs.map (·.calls ts))[i]?.getD [])).code V) s' ∧ s'.sys.trace = s.sys.trace.elsewhere (inputs locs B) ∧
      ∀ i, s'.prog i = (s.prog i).given (inputs locs B) m := by
  obtain ⟨o1, o2⟩ := inputs_own h2
  obtain ⟨s', g1, g2, g3⟩ := c82_given hI (ro := inputs locs B) (fun i => onlyReads_code (fun x k hk => onlyReads_append o1 _ hk) _) h3
  have hprog : ∀ i : Nat, (RTask.code locs B (fun (d : DCall Elem) (k' : WProg 32) => (d.weak byteWords new).code V k') (progs[i]?.getD .done)).given (inputs locs B) m =
      (WTask.records byteWords new ((progs.map (·.calls ts))[i]?.getD [])).code V := by
    intro i
    rw [given_code (ts := ts) (mem := mem) (call := fun (d : DCall Elem) (k' : WProg 32) => (d.weak byteWords new).code V k') o2 hloc (fun x k => given_append o1 _ _), records_code]
    · congr 2
      rw [List.getElem?_map]
      cases progs[i]? <;> rfl
    · cases hp : progs[i]? with
      | none => trivial
      | some t => exact hv t (List.mem_of_getElem? hp)
  rw [funext hprog] at g1
  exact ⟨s', g1, g2, g3⟩

/-- The same for appends to several vectors. -/
theorem given_several (hI : I = posixWeak ∨ I = cudaWeak ∨ I = syclWeak ∨ I = syclBuiltinWeak) {V : Nat → WVec} {B : Nat → Nat} {m : AMem 32} {s : WRun 32} {dflt : Elem}
    {locs : Nat → Cell → Option (Nat × Nat)} {ts : List Table} {progs : List (RTask (Nat × ACall Elem))} {mem : Mem}
    (hloc : ∀ k d x, (ts[k]?).bind (·.cell d) = some x → ∃ t a, locs k d = some (t, a) ∧ bytesAt mem a t = x) (hv : ∀ t ∈ progs, t.Valid ts)
    (h2 : InputVars locs mem B m fun a => ∃ k, (V k).Owns a)
    (h3 : WRun.Reach I m (fun i => (progs[i]?.getD .done).code locs B fun x k => (x.2.weak byteWords dflt).code (V x.1) k) s) :
    ∃ s', WRun.Reach I m (fun i => (MTask.calls (fun _ => byteWords) (fun _ => dflt) ((progs.map (·.calls ts))[i]?.getD [])).code V) s' ∧
      s'.sys.trace = s.sys.trace.elsewhere (inputs locs B) ∧ ∀ i, s'.prog i = (s.prog i).given (inputs locs B) m := by
  obtain ⟨o1, o2⟩ := inputs_own h2
  obtain ⟨s', g1, g2, g3⟩ := c82_given hI (ro := inputs locs B) (fun i => onlyReads_code (fun x k hk => onlyReads_append (fun a ha => o1 a ⟨_, ha⟩) _ hk) _) h3
  have hprog : ∀ i : Nat, (RTask.code locs B (fun (x : Nat × ACall Elem) (k' : WProg 32) => (x.2.weak byteWords dflt).code (V x.1) k') (progs[i]?.getD .done)).given (inputs locs B) m =
      (MTask.calls (fun _ => byteWords) (fun _ => dflt) ((progs.map (·.calls ts))[i]?.getD [])).code V := by
    intro i
    rw [given_code (ts := ts) (mem := mem) (call := fun (x : Nat × ACall Elem) (k' : WProg 32) => (x.2.weak byteWords dflt).code (V x.1) k') o2 hloc
      (fun x k => given_append (fun a ha => o1 a ⟨_, ha⟩) _ _), several_code]
    · congr 2
      rw [List.getElem?_map]
      cases progs[i]? <;> rfl
    · cases hp : progs[i]? with
      | none => trivial
      | some t => exact hv t (List.mem_of_getElem? hp)
  rw [funext hprog] at g1
  exact ⟨s', g1, g2, g3⟩

/-- C82: such kernels can be run. -/
theorem c82_append_runs (hI : I = posixWeak ∨ I = cudaWeak ∨ I = syclWeak ∨ I = syclBuiltinWeak) (hc : c.Wf) {k A : Nat} {hasHost : Bool} {b : EBuffer} {caps : List Nat} {n : Nat}
    {locs : Nat → Cell → Option (Nat × Nat)} {ts : List Table} {progs : List (RTask (DCall Elem))} {mem : Mem}
    (hloc : ∀ k d x, (ts[k]?).bind (·.cell d) = some x → ∃ t a, locs k d = some (t, a) ∧ bytesAt mem a t = x) (hv : ∀ t ∈ progs, t.Valid ts)
    (hb : EdmOk σ R G (c.schema k) A hasHost b) (hj : (c.schema k).hasJagged = false) (ha : AppendReady c k mem b caps n (progs.map (·.calls ts))) :
    ∃ mem' idx, ReadingKernel I c.dbg (c.dflt k) (c.schema k) b.buf.view locs progs mem mem' idx := by
  have hvalid := (contVars_valid c.dbg (e := b.buf.view) (by rw [ha.cap]; exact ha.cap32)).even
  have hin := (contVars_in c.dbg (c.schema k) b.buf.view mem).even
  have hiv := inputVars_odd locs (contVals (c.schema k) b.buf.view mem) mem (own := (contVars c.dbg b.buf.view).even.Owns) fun a h => (owns_even h).imp fun _ h => h.1
  obtain ⟨s, h1, h2⟩ := WRun.Reach.finishAll (I := I) (m := evenVals (contVals (c.schema k) b.buf.view mem) mem)
    (progs := fun i => (progs[i]?.getD .done).code locs (fun a => 2 * a + 1) fun d k' =>
      (d.weak byteWords (b.buf.view.device c.dbg (c.dflt k) (c.schema k) mem).newElement).code (contVars c.dbg b.buf.view).even k')
    .start (fun i => defined_code hI (fun x k hk => defined_append hI _ hk) _) (n := progs.length)
    (fun i hi => by dsimp only; rw [List.getElem?_eq_none hi]; exact .inl rfl)
  have hr := WRun.Reach.steps (.start) h1
  obtain ⟨s', g1, g2, g3⟩ := given_records hI hloc hv hiv hr
  obtain ⟨h3, h4⟩ := c81_sequential hI hvalid (ha.shows hin) ha.ready ha.room ha.valid (ha.worded hc) g1
  have hdone : ∀ i, s.prog i = .done := fun i => (h2 i).resolve_right fun hf => h3 i (by rw [g3, hf]; rfl)
  obtain ⟨sched, e1, e2, e3, e4⟩ := h4 fun i => by rw [g3, hdone]; rfl
  rw [← DConc.kernel_run e2] at e3 e4
  obtain ⟨i1, i2⟩ := ha.stored hc hb hj sched e3 hin.cap
  obtain ⟨-, -, -, -, g5, -⟩ := DConc.kernel_ok ha.ready (progs := progs.map (·.calls ts)) ha.room ha.valid sched
  obtain ⟨o1, -⟩ := inputs_own hiv
  refine ⟨_, ((DConc.kernel (b.buf.view.device c.dbg (c.dflt k) (c.schema k) mem) (progs.map (·.calls ts)) sched).threads.map DThread.done).map (·.map (·.2)), _, _, _, s, hvalid, rfl, hin, hiv,
    hr, hdone, i1.change fun a ha x hx => ?_, i2, ?_, fun i => ?_⟩
  · rw [g2] at hx
    exact (elsewhere_final (o1 a ha) x).1 hx
  · rw [List.length_map]
    have := congrArg List.length g5
    simpa using this
  · have := (e4 i).2
    unfold DConc.results at this
    rw [g2, elsewhere_claims (o1 _ (.inl rfl))] at this
    rw [List.getElem?_map, List.getElem?_map]
    cases ht : (DConc.kernel (b.buf.view.device c.dbg (c.dflt k) (c.schema k) mem) (progs.map (·.calls ts)) sched).threads[i]? with
    | none =>
      rw [ht] at this
      unfold ReturnedRecords at this
      rw [Option.map_none, Option.getD_none, List.forall₂_nil_left_iff] at this
      rw [this]
      exact .nil
    | some th => rw [ht] at this; exact List.forall₂_map_left_iff.2 this

/-- A thread without a program does nothing. -/
theorem idle_nothing {m : AMem 32} {progs : Nat → WProg 32} {s : WRun 32} {i : Nat} (h : WRun.Reach I m progs s) (hi : progs i = .done) : s.sys.trace.of i = [] := by
  have hnone : s.sys.trace.own i = [] := by
    have := h.after i
    rw [hi] at this
    cases htr : s.sys.trace.own i with
    | nil => rfl
    | cons x l => rw [htr] at this; cases this
  rw [WTrace.of, List.filter_eq_nil_iff]
  intro e he hth
  obtain ⟨q, hq⟩ := List.getElem?_of_mem he
  have : (e, q) ∈ s.sys.trace.own i := mem_own.2 ⟨hq, by simpa using hth⟩
  rw [hnone] at this
  cases this

/-- C82: the same for a kernel whose threads append to rows. -/
theorem c82_rows (hI : I = posixWeak ∨ I = cudaWeak ∨ I = syclWeak ∨ I = syclBuiltinWeak) {t : Nat} {vs : List View} {dbg : Bool} {dflt : Elem} {mem mem' : Mem}
    {locs : Nat → Cell → Option (Nat × Nat)} {ts : List Table} {progs : List (RTask (Nat × ACall Elem))} {idx : Nat → Nat → List Nat}
    (hloc : ∀ k d x, (ts[k]?).bind (·.cell d) = some x → ∃ t a, locs k d = some (t, a) ∧ bytesAt mem a t = x) (hvl : ∀ t ∈ progs, t.Valid ts)
    (hv : ∀ v ∈ vs, v.Valid mem t ∧ v.sizePtr ≠ 0) (hp : ∀ q ∈ progs.map (·.calls ts), ∀ x ∈ q, x.1 < vs.length ∧ x.2.Valid true [] ∧ x.2.Sized t)
    (room : ∀ (k : Nat) (v : View), vs[k]? = some v → v.len mem + totalCount (onRow (progs.map (·.calls ts)) k) ≤ v.capacity)
    (h : ReadingRows I dbg dflt t vs locs progs mem mem' idx) :
    ∃ rets, (∀ i k, k < vs.length → ((rets[i]?.getD []).filter fun x => decide (x.1 = k)).map (·.2.2) = idx i k) ∧
      RowsKernel I dbg dflt t vs (progs.map (·.calls ts)) mem mem' rets := by
  obtain ⟨V, B, m, s, hV, hap, h1, h2, h3, h4, h5, h6, h7⟩ := h
  obtain ⟨o1, -⟩ := inputs_own h2
  obtain ⟨s', g1, g2, g3⟩ := given_several hI hloc hvl h2 h3
  have hdone : ∀ i, s'.prog i = .done := fun i => by rw [g3, h4]; rfl
  have hget : ∀ (k : Nat) (s0 : DV Elem), (vs.map fun v => v.device dbg dflt t mem)[k]? = some s0 → ∃ v, vs[k]? = some v ∧ s0 = v.device dbg dflt t mem := by
    intro k s0 hs0
    rw [List.getElem?_map] at hs0
    obtain ⟨v, g1, rfl⟩ := Option.map_eq_some_iff.1 hs0
    exact ⟨v, g1, rfl⟩
  have hlen : ∀ v ∈ vs, v.len mem = (v.device dbg dflt t mem).sizeWord := fun v hvm => by simp [View.len, View.device, (hv v hvm).2]
  obtain ⟨-, h8⟩ := c79_sequential (rows := vs.map fun v => v.device dbg dflt t mem) hI (fun k => (hV k).1) hap
    (fun k s0 hs0 => by
      obtain ⟨v, e1, rfl⟩ := hget k s0 hs0
      exact ⟨(h1 k v e1).shows (hV k).2 (hv v (List.mem_of_getElem? e1)).2, rfl⟩)
    (fun q hq x hx => ⟨by rw [List.length_map]; exact (hp q hq x hx).1, (hp q hq x hx).2.1⟩)
    (fun k s0 hs0 => by
      obtain ⟨v, e1, rfl⟩ := hget k s0 hs0
      rw [← hlen v (List.mem_of_getElem? e1)]
      exact room k v e1) g1
  obtain ⟨sched, e1, e2, e3, e4, e5, e6⟩ := h8 hdone
  generalize (RowConc.start (vs.map fun v => v.device dbg dflt t mem) (progs.map (·.calls ts))).run sched = g at e1 e2 e3 e4 e5 e6
  have hclaims : ∀ i k, WTrace.claims (V k).size (s'.sys.trace.of i) = WTrace.claims (V k).size (s.sys.trace.of i) := fun i k => by
    rw [g2, elsewhere_claims (o1 _ ⟨k, .inl rfl⟩)]
  have hret : ∀ i k, k < vs.length → Returned (V k).size ((((g.threads.map RowThread.done)[i]?.getD []).filter fun x => decide (x.1 = k)).map (·.2))
      (WTrace.claims (V k).size (s'.sys.trace.of i)) := by
    intro i k hk
    rw [List.getElem?_map]
    cases hg : g.threads[i]? with
    | some th => exact (e6 i th hg).2 k (by rw [List.length_map]; exact hk)
    | none =>
      have hi : progs.length ≤ i := by
        have := List.getElem?_eq_none_iff.1 hg
        rw [e4, List.length_map] at this
        exact this
      rw [idle_nothing (i := i) g1 (by rw [List.getElem?_eq_none (by rw [List.length_map]; exact hi)]; rfl)]
      exact .nil
  refine ⟨g.threads.map RowThread.done, fun i k hk => ?_, V, m, s', hV, hap, h1, g1, hdone, fun k v hk => (h5 k v hk).change fun a ha x hx => ?_, h6, ?_, hret⟩
  · have r1 := hret i k hk
    rw [hclaims] at r1
    have r2 := h7 i k hk
    unfold Returned at r1
    rw [List.forall₂_map_left_iff] at r1
    generalize ((g.threads.map RowThread.done)[i]?.getD []).filter (fun x => decide (x.1 = k)) = l at r1 ⊢
    generalize idx i k = l' at r2
    generalize WTrace.claims (V k).size (s.sys.trace.of i) = es at r1 r2
    induction r1 generalizing l' with
    | nil => cases r2; rfl
    | cons a1 _ ih =>
      cases r2 with
      | cons a2 a3 =>
        rw [List.map_cons, ih _ a3]
        congr 1
        obtain ⟨-, x, o, t1, y, k1, -, k3, k4⟩ := a1
        obtain ⟨n, -, x', o', t1', y', k1', -, k3', k4'⟩ := a2
        rw [k3] at k3'
        cases k3'
        omega
  · rw [g2]
    exact (elsewhere_final (o1 a ⟨k, ha⟩) x).2 hx
  · apply List.ext_getElem?
    intro i
    rw [List.getElem?_map, List.getElem?_map]
    by_cases hi : i < progs.length
    · have hl : i < g.threads.length := by rw [e4, List.length_map]; exact hi
      rw [List.getElem?_eq_getElem hl]
      exact (e6 i _ (List.getElem?_eq_getElem hl)).1.symm
    · rw [List.getElem?_eq_none (by rw [e4, List.length_map]; omega), List.getElem?_eq_none (by rw [List.length_map]; omega)]; rfl

/-- C82: such kernels can be run. -/
theorem c82_rows_runs (hI : I = posixWeak ∨ I = cudaWeak ∨ I = syclWeak ∨ I = syclBuiltinWeak) {t : Nat} {vs : List View} {dbg : Bool} {dflt : Elem} {mem : Mem}
    {locs : Nat → Cell → Option (Nat × Nat)} {ts : List Table} {progs : List (RTask (Nat × ACall Elem))}
    (hloc : ∀ k d x, (ts[k]?).bind (·.cell d) = some x → ∃ t a, locs k d = some (t, a) ∧ bytesAt mem a t = x) (hvl : ∀ t ∈ progs, t.Valid ts)
    (hv : ∀ v ∈ vs, v.Valid mem t ∧ v.sizePtr ≠ 0) (hsep : vs.Pairwise (View.Separate t)) (hd : dflt.length = t)
    (hp : ∀ q ∈ progs.map (·.calls ts), ∀ x ∈ q, x.1 < vs.length ∧ x.2.Valid true [] ∧ x.2.Sized t)
    (room : ∀ (k : Nat) (v : View), vs[k]? = some v → v.len mem + totalCount (onRow (progs.map (·.calls ts)) k) ≤ v.capacity) :
    ∃ mem' idx, ReadingRows I dbg dflt t vs locs progs mem mem' idx := by
  have hget : ∀ (k : Nat) (s0 : DV Elem), (vs.map fun v => v.device dbg dflt t mem)[k]? = some s0 → ∃ v, vs[k]? = some v ∧ s0 = v.device dbg dflt t mem := by
    intro k s0 hs0
    rw [List.getElem?_map] at hs0
    obtain ⟨v, g1, rfl⟩ := Option.map_eq_some_iff.1 hs0
    exact ⟨v, g1, rfl⟩
  have hlen : ∀ v ∈ vs, v.len mem = (v.device dbg dflt t mem).sizeWord := fun v hvm => by simp [View.len, View.device, (hv v hvm).2]
  have hvalid := fun k => (rowVars_valid dbg (vs := vs) (fun v hvm => (hv v hvm).1.word32) k).even
  have hap := (rowVars_apart dbg vs).even
  have hiv := inputVars_odd locs (rowVals t vs mem) mem (own := fun a => ∃ k, (rowVars dbg vs k).even.Owns a) fun a ⟨k, h⟩ => (owns_even h).imp fun _ h => h.1
  obtain ⟨s, h1, h2⟩ := WRun.Reach.finishAll (I := I) (m := evenVals (rowVals t vs mem) mem)
    (progs := fun i => (progs[i]?.getD .done).code locs (fun a => 2 * a + 1) fun x k' => (x.2.weak byteWords dflt).code (rowVars dbg vs x.1).even k')
    .start (fun i => defined_code hI (fun x k hk => defined_append hI _ hk) _) (n := progs.length)
    (fun i hi => by dsimp only; rw [List.getElem?_eq_none hi]; exact .inl rfl)
  have hr := WRun.Reach.steps (.start) h1
  obtain ⟨o1, -⟩ := inputs_own hiv
  obtain ⟨s', g1, g2, g3⟩ := given_several (V := fun k => (rowVars dbg vs k).even) hI hloc hvl hiv hr
  obtain ⟨h3, h8⟩ := c79_sequential (rows := vs.map fun v => v.device dbg dflt t mem) hI hvalid hap
    (fun k s0 hs0 => by
      obtain ⟨v, g1, rfl⟩ := hget k s0 hs0
      exact ⟨(rowVars_in dbg g1).even.shows rfl (hv v (List.mem_of_getElem? g1)).2, rfl⟩)
    (fun q hq x hx => ⟨by rw [List.length_map]; exact (hp q hq x hx).1, (hp q hq x hx).2.1⟩)
    (fun k s0 hs0 => by
      obtain ⟨v, g1, rfl⟩ := hget k s0 hs0
      rw [← hlen v (List.mem_of_getElem? g1)]
      exact room k v g1) g1
  have hdone : ∀ i, s.prog i = .done := fun i => (h2 i).resolve_right fun hf => h3 i (by rw [g3, hf]; rfl)
  obtain ⟨sched, e1, e2, e3, e4, e5, e6⟩ := h8 fun i => by rw [g3, hdone]; rfl
  have hall := rows_all hd (fun q hq x hx => (hp q hq x hx).2.2) e1 e3
  generalize (RowConc.start (vs.map fun v => v.device dbg dflt t mem) (progs.map (·.calls ts))).run sched = g at e1 e2 e3 e4 e5 e6 hall
  rw [List.length_map] at e3
  refine ⟨storeRows t mem vs g.rows, fun i k => (((g.threads.map RowThread.done)[i]?.getD []).filter fun x => decide (x.1 = k)).map (·.2.2), _, _, _, s, fun k => ⟨hvalid k, rfl⟩, hap,
    fun k v hk => (rowVars_in dbg hk).even, hiv, hr, hdone, fun k v hk => ?_, fun x hx => storeRows_other fun ⟨v, hv, h⟩ => hx v hv h, fun i k hk => ?_⟩
  · refine (rows_stored hv hsep e3 (fun k v hk => (rowVars_in (t := t) (mem := mem) dbg hk).even.cap) hall e5 k v hk).change fun a ha x hx => ?_
    rw [g2] at hx
    exact (elsewhere_final (o1 a ⟨k, ha⟩) x).1 hx
  · dsimp only
    rw [List.getElem?_map]
    have hret : Returned (rowVars dbg vs k).even.size ((((g.threads[i]?.map RowThread.done).getD []).filter fun x => decide (x.1 = k)).map (·.2))
        (WTrace.claims (rowVars dbg vs k).even.size (s'.sys.trace.of i)) := by
      cases hg : g.threads[i]? with
      | some th => exact (e6 i th hg).2 k (by rw [List.length_map]; exact hk)
      | none =>
        have hi : progs.length ≤ i := by
          have := List.getElem?_eq_none_iff.1 hg
          rw [e4, List.length_map] at this
          exact this
        rw [idle_nothing (i := i) g1 (by rw [List.getElem?_eq_none (by rw [List.length_map]; exact hi)]; rfl)]
        exact .nil
    rw [g2, elsewhere_claims (o1 _ ⟨k, .inl rfl⟩)] at hret
    unfold Returned at hret
    rw [List.forall₂_map_left_iff] at hret ⊢
    exact hret.imp fun _ _ h => ⟨_, h⟩

end

section

variable {σ : Type} {I : WImpl 32} {R : Limits} {G : Nat} {ups : Nat → MR σ} {u0 : σ} {c : EdmCfg} {p : EPipe σ} {q : EReady}

/-- C82: a kernel whose threads load elements of inputs, and load and store elements of another container without races, leaves memory, on weak memory, as threads do that are given
the elements of the inputs, and run one after the other. -/
theorem c82_access (hI : I = posixWeak ∨ I = cudaWeak ∨ I = syclWeak ∨ I = syclBuiltinWeak) {S : Schema} {A : Nat} {hasHost : Bool} {b : EBuffer} {mem mem' : Mem} {t : Table}
    {locs : Nat → Cell → Option (Nat × Nat)} {ts : List Table} {ps : List IProg} (hb : EdmOk σ R G S A hasHost b) (hs : Shows S b mem t) (hi : FarInputs S b locs ts mem)
    (hv : ∀ p ∈ ps.map (·.known S.length ts), p.Valid S t) (hr : NoRaces t (ps.map (·.known S.length ts)))
    (h : InputKernel I (b.buf.view.locate S mem) locs ps mem mem') : execKernel S b.buf.view (ps.map (·.known S.length ts)) [] mem = .ok mem' := by
  obtain ⟨s, h1, h2, h3⟩ := h
  obtain ⟨hf, -⟩ := hs.raceFreeInputs hb hi hv hr
  obtain ⟨m', e1, e2⟩ := hs.soloAllInputs hb hs hi (fun _ => rfl) hv hr
  have : byteVars m' = byteVars mem' := by
    funext a
    have := (c80_one_by_one hI hf h1 h2 (n := ps.length) (fun i hi => inputCode_rest hi) (List.Perm.refl _) a _).1 (h3 a)
    rw [this, oneByOne_inputs, e2]
  cases byteVars_inj this
  exact e1

theorem input_defined (hI : I = posixWeak ∨ I = cudaWeak ∨ I = syclWeak ∨ I = syclBuiltinWeak) (loc : Cell → Option (Nat × Nat)) (locs : Nat → Cell → Option (Nat × Nat)) (p : IProg) :
    (p.code loc locs).Defined I := by
  have hrd : (I .read).isSome := by rcases hI with rfl | rfl | rfl | rfl <;> rfl
  have hwr : ∀ x, (I (.write x)).isSome := by intro x; rcases hI with rfl | rfl | rfl | rfl <;> rfl
  have hR : ∀ (k : Elem → WProg 32), (∀ x, (k x).Defined I) → ∀ (t a : Nat) (l : Elem), (readBytes k t a l).Defined I := by
    intro k hk t
    induction t with
    | zero => exact fun a l => hk l
    | succ t ih => exact fun a l => ⟨hrd, fun r => ih _ _⟩
  have hW : ∀ (k : WProg 32), k.Defined I → ∀ (l : Elem) (a : Nat), (writeBytes k a l).Defined I := by
    intro k hk l
    induction l with
    | nil => exact fun a => hk
    | cons x l ih => exact fun a => ⟨hwr _, fun r => ih _⟩
  induction p with
  | done => trivial
  | input k c next ih =>
    unfold IProg.code
    split
    · exact hR _ ih _ _ _
    · trivial
  | load c next ih =>
    unfold IProg.code
    split
    · exact hR _ ih _ _ _
    · trivial
  | store c x next ih =>
    unfold IProg.code
    split
    · exact hW _ ih _ _
    · trivial

/-- C82: such kernels can be run. -/
theorem c82_access_runs (hI : I = posixWeak ∨ I = cudaWeak ∨ I = syclWeak ∨ I = syclBuiltinWeak) {S : Schema} {A : Nat} {hasHost : Bool} {b : EBuffer} {mem : Mem} {t : Table}
    {locs : Nat → Cell → Option (Nat × Nat)} {ts : List Table} {ps : List IProg} (hb : EdmOk σ R G S A hasHost b) (hs : Shows S b mem t) (hi : FarInputs S b locs ts mem)
    (hv : ∀ p ∈ ps.map (·.known S.length ts), p.Valid S t) (hr : NoRaces t (ps.map (·.known S.length ts))) :
    ∃ mem', InputKernel I (b.buf.view.locate S mem) locs ps mem mem' := by
  obtain ⟨hf, hok⟩ := hs.raceFreeInputs hb hi hv hr
  obtain ⟨m', e1, e2⟩ := hs.soloAllInputs hb hs hi (fun _ => rfl) hv hr
  obtain ⟨s, h1, h2⟩ := c80_ends hI hf .start (fun i => input_defined hI _ _ _) hok (n := ps.length) (fun i hi => inputCode_rest hi)
  have hrch := WRun.Reach.steps (.start) h1
  refine ⟨m', s, hrch, h2, fun a => ?_⟩
  refine (c80_one_by_one hI hf hrch h2 (n := ps.length) (fun i hi => inputCode_rest hi) (List.Perm.refl _) a _).2 ?_
  rw [oneByOne_inputs, e2]

/-- A kernel that reads its inputs on weak memory does, and returns, what one does, and returns, that is given them. -/
theorem c82_step_inv (hI : I = posixWeak ∨ I = cudaWeak ∨ I = syclWeak ∨ I = syclBuiltinWeak) (hl : FamLawful R G ups u0) (hc : c.Wf) (h : EInv c R G ups u0 p q) {op : ROp}
    (hf : (op.given c).Fits c R G (p.Outside c) (p.store c q)) (hr : op.Reads (p.store c q)) (hop : (op.given c).Plain) {out : ROut} {p' : EPipe σ} (hs : RStep I c ups p op out p') :
    ∃ r, out.Of r ∧ WEdmStep I c ups p (op.given c) r p' := by
  cases hs with
  | plain hs => exact ⟨_, rfl, hs⟩
  | @append ins k progs b mem' idx hb hk =>
    obtain ⟨-, hnj, ts, caps, t, n, f1, f2, hn, hfit, hargs⟩ := hf
    obtain ⟨ts', r1, r2⟩ := hr
    have hts := h.reads f1
    cases hts.symm.trans (h.reads r1)
    obtain ⟨b', b1, b2, ha⟩ := h.appendReady hc hnj f2 hn hfit hargs
    cases hb.symm.trans b1
    obtain ⟨rets, g1, g2⟩ := c82_append hI hc (h.locs f1) r2 ha hk
    exact ⟨_, ⟨rets, rfl, g1⟩, .append hb hts g2⟩
  | @rows ins k v progs b ty x mem' idx hb hv hx hk =>
    obtain ⟨-, ts, caps, t, ty', rows, f1, f2, hv', hkd, hrow, f4, f5⟩ := hf
    obtain ⟨ts', r1, r2⟩ := hr
    have hts := h.reads f1
    cases hts.symm.trans (h.reads r1)
    cases hv.symm.trans hv'
    obtain ⟨b', x', b1, b2, b3, b4, b5, b6, b7, b8, b9⟩ := edm_rows_ready h f2 hv hkd hrow (hop ts) f4 f5
    cases hb.symm.trans b1
    cases hx.symm.trans b2
    obtain ⟨rets, g1, g2⟩ := c82_rows hI (h.locs f1) r2 b6 b8 b9 (hk.alike b4 b5)
    refine ⟨_, ⟨rets, rfl, ?_, by rw [b4]; exact g1⟩, .rows hb hts hv hx (g2.alike b4.symm fun i v w h1 h2 => (b5 i w v h2 h1).symm)⟩
    obtain ⟨-, -, -, -, -, -, -, -, -, -, g3, -⟩ := g2
    intro l hl y hy
    rw [b4]
    exact (b8 _ (by beta_reduce; rw [← g3]; exact List.mem_map_of_mem hl) _ (List.mem_map_of_mem hy)).1

  | @kernel ins k progs b mem' hb hk =>
    obtain ⟨hki, ts, caps, rz, t, f1, f2, f3, f4⟩ := hf
    obtain ⟨b', b1, -, b3, b4, b5, b6, b7, b8, b9⟩ := h.has f2
    cases hb.symm.trans b1
    have hsh : Shows (c.schema k) b p.mem t := ⟨b8.symm, b6.sizes b7, fun j hj => b6.described b5 b9.symm j hj⟩
    have e1 := c82_access hI b5 hsh (h.locs_far hl hb f1 hki) f3 f4 hk
    obtain ⟨mem'', hw⟩ := c81_access_runs hI b5 hsh f3 f4
    have e2 := c81_access hI b5 hsh f3 f4 hw
    cases e1.symm.trans e2
    exact ⟨_, rfl, .kernel hb (h.reads f1) hw⟩

/-- Every state that is reached with kernels that read their inputs on weak memory is reached with kernels that are given them: all of C81 holds in it. -/
theorem c82_reach (hI : I = posixWeak ∨ I = cudaWeak ∨ I = syclWeak ∨ I = syclBuiltinWeak) (hl : FamLawful R G ups u0) (hc : c.Wf)
    (h : RReach I c R G ups u0 p q) : WEdmReach I c R G ups u0 p q := by
  induction h with
  | init m => exact .init m
  | @step p q op r p' h hf hr hp hs ih =>
    obtain ⟨r, -, h2⟩ := c82_step_inv hI hl hc (edm_inv hl hc (c81_reach hI hl hc ih)) hf hr hp hs
    exact ih.step hf hp h2

/-- C82: in a program with container buffers and copies (C65) whose kernels run, and read their inputs, on weak memory, every step does to the elements in memory, and returns, what it
may do and return according to `EdmStep`, which speaks about tables only. -/
theorem c82_pipelines (hI : I = posixWeak ∨ I = cudaWeak ∨ I = syclWeak ∨ I = syclBuiltinWeak) (hl : FamLawful R G ups u0) (hc : c.Wf)
    (h : RReach I c R G ups u0 p q) {op : ROp} (hf : (op.given c).Fits c R G (p.Outside c) (p.store c q)) (hr : op.Reads (p.store c q)) (hop : (op.given c).Plain) {out : ROut}
    {p' : EPipe σ} (hs : RStep I c ups p op out p') : ∃ r, out.Of r ∧ EdmStep c (p.store c q) (op.given c) r (p'.store c ((op.given c).ready q)) := by
  have h' := c82_reach hI hl hc h
  obtain ⟨r, h1, h2⟩ := c82_step_inv hI hl hc (edm_inv hl hc (c81_reach hI hl hc h')) hf hr hop hs
  exact ⟨r, h1, c81_pipelines hI hl hc h' hf hop h2⟩

/-- C82: in every state of a program, each step that fits can be made. -/
theorem c82_goes_on (hI : I = posixWeak ∨ I = cudaWeak ∨ I = syclWeak ∨ I = syclBuiltinWeak) (hl : FamLawful R G ups u0) (hc : c.Wf)
    (h : RReach I c R G ups u0 p q) {op : ROp} (hf : (op.given c).Fits c R G (p.Outside c) (p.store c q)) (hr : op.Reads (p.store c q)) (hop : (op.given c).Plain) :
    ∃ out p', RStep I c ups p op out p' := by
  have h' := c82_reach hI hl hc h
  have hinv := edm_inv hl hc (c81_reach hI hl hc h')
  cases op with
  | plain op =>
    obtain ⟨r, p', hs⟩ := c81_goes_on hI hl hc h' hf hop
    exact ⟨_, _, .plain hs⟩
  | append ins k progs =>
    obtain ⟨-, hnj, ts, caps, t, n, f1, f2, hn, hfit, hargs⟩ := hf
    obtain ⟨ts', r1, r2⟩ := hr
    cases (hinv.reads f1).symm.trans (hinv.reads r1)
    obtain ⟨b, b1, b2, ha⟩ := hinv.appendReady hc hnj f2 hn hfit hargs
    obtain ⟨mem', idx, hw⟩ := c82_append_runs hI hc (hinv.locs f1) r2 b2 hnj ha
    exact ⟨_, _, .append b1 hw⟩
  | rows ins k v progs =>
    obtain ⟨-, ts, caps, t, ty, rows, f1, f2, hv, hkd, hrow, f4, f5⟩ := hf
    obtain ⟨ts', r1, r2⟩ := hr
    cases (hinv.reads f1).symm.trans (hinv.reads r1)
    obtain ⟨b, x, b1, b2, b3, b4, b5, b6, b7, b8, b9⟩ := edm_rows_ready hinv f2 hv hkd hrow (hop ts) f4 f5
    obtain ⟨mem', idx, hw⟩ := c82_rows_runs (dbg := c.dbg) hI (hinv.locs f1) r2 b6 b7 ((hc.2 k).2 v ty hv).2.2 b8 b9
    exact ⟨_, _, .rows b1 hv b2 (hw.alike b4.symm fun i v w h1 h2 => (b5 i w v h2 h1).symm)⟩
  | kernel ins k progs =>
    obtain ⟨hki, ts, caps, rz, t, f1, f2, f3, f4⟩ := hf
    obtain ⟨b, b1, -, b3, b4, b5, b6, b7, b8, b9⟩ := hinv.has f2
    obtain ⟨mem', hw⟩ := c82_access_runs hI b5 ⟨b8.symm, b6.sizes b7, fun j hj => b6.described b5 b9.symm j hj⟩ (hinv.locs_far hl b1 f1 hki) f3 f4
    exact ⟨_, _, .kernel b1 hw⟩

/-- C82: what a kernel without races leaves behind that reads inputs on weak memory does not depend on the execution. -/
theorem c82_deterministic (hI : I = posixWeak ∨ I = cudaWeak ∨ I = syclWeak ∨ I = syclBuiltinWeak) (hl : FamLawful R G ups u0) (hc : c.Wf)
    (h : RReach I c R G ups u0 p q) {ins : List Nat} {k : Nat} {progs : List IProg} (hf : ((ROp.kernel ins k progs).given c).Fits c R G (p.Outside c) (p.store c q))
    {out out' : ROut} {p1 p2 : EPipe σ} (h1 : RStep I c ups p (.kernel ins k progs) out p1) (h2 : RStep I c ups p (.kernel ins k progs) out' p2) : out = out' ∧ p1 = p2 := by
  have hinv := edm_inv hl hc (c81_reach hI hl hc (c82_reach hI hl hc h))
  obtain ⟨hki, ts, caps, rz, t, f1, f2, f3, f4⟩ := hf
  obtain ⟨b, b1, -, b3, b4, b5, b6, b7, b8, b9⟩ := hinv.has f2
  have hsh : Shows (c.schema k) b p.mem t := ⟨b8.symm, b6.sizes b7, fun j hj => b6.described b5 b9.symm j hj⟩
  cases h1 with
  | kernel hb hk =>
    cases h2 with
    | kernel hb' hk' =>
      cases b1.symm.trans hb
      cases b1.symm.trans hb'
      cases (c82_access hI b5 hsh (hinv.locs_far hl b1 f1 hki) f3 f4 hk).symm.trans (c82_access hI b5 hsh (hinv.locs_far hl b1 f1 hki) f3 f4 hk')
      exact ⟨rfl, rfl⟩

/-- C82, end to end: in any state of any program, the threads of a kernel read elements of containers and append elements, which depend on what they have read, to a resizable container,
all on weak memory, and the container is then copied to the host.  The host gets the old elements, followed by those that the threads append if the tables are the elements of the
containers read, in some order, which is the same for all variables. -/
theorem c82_elements_stay_together (hI : I = posixWeak ∨ I = cudaWeak ∨ I = syclWeak ∨ I = syclBuiltinWeak) (hl : FamLawful R G ups u0) (hc : c.Wf)
    (h : RReach I c R G ups u0 p q) (ins : List Nat) (k : Nat) (progs : List (RTask (DCall Elem))) (hk : k ∉ ins) (hj : (c.schema k).hasJagged = false)
    (ts : List Table) (hi : (p.store c q).HasAll ins ts) (hv : ∀ t ∈ progs, t.Valid ts) (caps : List Nat) (t : Table) (ht : (p.store c q).Has k caps true true t)
    (n : Nat) (hn : VectorsHave (c.schema k) n t) (hroom : n + callCount (progs.map (·.calls ts)) ≤ caps.length)
    (hargs : ∀ pr ∈ progs, ∀ x ∈ pr.calls ts, ∀ a ∈ x.assigns, ∃ v, (c.schema k)[a.1]? = some v ∧ v.kind = .vector ∧ a.2.length = v.type.size)
    (ats : List (List Nat)) (want : Table) (hw : Appended (c.schema k) (c.dflt k) (progs.map (·.calls ts)).flatten t want)
    (hout : HostTable (p.Outside c) (c.schema k) ats want) {out : ROut} {p' : EPipe σ} (hs : RStep I c ups p (.append ins k progs) out p') :
    ∃ t', (p'.exec c ups (.download k ats)).1 = .ok (.table t') ∧
      ∃ order : List (DCall Elem), order.Perm (progs.map (·.calls ts)).flatten ∧ Appended (c.schema k) (c.dflt k) order t t' := by
  have h' := c82_reach hI hl hc h
  have hargs' : ∀ pr ∈ progs.map (·.calls ts), ∀ x ∈ pr, ∀ a ∈ x.assigns, ∃ v, (c.schema k)[a.1]? = some v ∧ v.kind = .vector ∧ a.2.length = v.type.size := by
    intro pr hpr
    obtain ⟨t, h1, rfl⟩ := List.mem_map.1 hpr
    exact hargs t h1
  obtain ⟨r, -, h2⟩ := c82_step_inv hI hl hc (edm_inv hl hc (c81_reach hI hl hc h')) (op := .append ins k progs)
    ⟨hk, hj, ts, caps, t, n, hi, ht, hn, hroom, hargs'⟩ ⟨ts, hi, hv⟩ trivial hs
  exact (c81_elements_stay_together hI hl hc h' ins k (fun ts => progs.map (fun t => RTask.calls ts t)) [] hk hj ts hi caps t ht n hn hroom hargs' ats want hw hout h2).2

end

/-! ## Instances -/

/-- A thread for each of three elements of the container read: it appends an element with the double of the first value and the same second value, and, if the first value is
greater than 2, another one with the scalar. -/
def demoReading : List (RTask (DCall Elem)) :=
  [0, 1, 2].map fun i => .load 0 ⟨0, 0, i⟩ fun a => .load 0 ⟨1, 0, i⟩ fun b => .call ⟨[(0, [2 * a.getD 0 0]), (1, b)]⟩
    (if 2 < a.getD 0 0 then .load 0 ⟨2, 0, 0⟩ fun s => .call ⟨[(0, s), (1, b)]⟩ .done else .done)

/-- A thread that appends the first value of an element to row 0, and one that appends to both rows. -/
def demoReadingRows : List (RTask (Nat × ACall Elem)) :=
  [.load 0 ⟨0, 0, 2⟩ fun a => .call (0, .push (.val [a.getD 0 0])) .done,
   .load 0 ⟨0, 0, 1⟩ fun a => .call (1, .push (.val [a.getD 0 0])) (.call (0, .push (.val [4])) .done)]

/-- A thread for each of three elements, which adds an element of the container read. -/
def demoInput : List IProg :=
  [0, 1, 2].map fun i => .input 0 ⟨0, 0, 1⟩ fun s => .load ⟨0, 0, i⟩ fun a => .store ⟨0, 0, i⟩ [a.getD 0 0 + s.getD 0 0] .done

theorem demoInput_races : (∀ x ∈ demoInput.map (·.known (demoEdmCfg.schema 0).length [[[[[7], [7]]], [[], []]]]), x.Valid (demoEdmCfg.schema 0) demoTable) ∧
    NoRaces demoTable (demoInput.map (·.known (demoEdmCfg.schema 0).length [[[[[7], [7]]], [[], []]]])) := by
  have e : demoInput.map (·.known (demoEdmCfg.schema 0).length [[[[[7], [7]]], [[], []]]]) =
    [0, 1, 2].map fun i => .load ⟨0, 0, i⟩ fun a => .store ⟨0, 0, i⟩ [a.getD 0 0 + 7] .done := rfl
  rw [e]
  refine ⟨?_, ?_⟩
  · intro x hx
    simp only [List.map_cons, List.map_nil, List.mem_cons, List.not_mem_nil, or_false] at hx
    rcases hx with rfl | rfl | rfl <;> exact ⟨_, rfl, rfl, ⟨_, rfl, rfl⟩, trivial⟩
  · have key : ∀ (i : Nat) (p : KProg), ([0, 1, 2].map fun i => KProg.load ⟨0, 0, i⟩ fun a => .store ⟨0, 0, i⟩ [a.getD 0 0 + 7] .done)[i]? = some p →
        p.accesses demoTable = [(false, ⟨0, 0, i⟩), (true, ⟨0, 0, i⟩)] := by
      intro i p hp
      match i, hp with
      | 0, hp => cases hp; rfl
      | 1, hp => cases hp; rfl
      | 2, hp => cases hp; rfl
    intro i j p q hij hp hq c b hc
    rw [key i p hp] at hc
    rw [key j q hq]
    simp only [List.mem_cons, Prod.mk.injEq, Bool.true_eq_false, false_and, true_and, List.not_mem_nil, or_false, false_or] at hc
    subst hc
    simp only [List.mem_cons, Prod.mk.injEq, Cell.mk.injEq, List.not_mem_nil, or_false]
    omega

set_option maxRecDepth 20000 in
/-- A program reaches a state in which all three kinds of kernels can be run; so the hypotheses of the theorems are met. -/
example : ∃ (p : EPipe _) (q : EReady), RReach cudaWeak demoEdmCfg 64 64 (fun _ => demoBase) demoInit p q ∧
    (∃ out p', RStep cudaWeak demoEdmCfg (fun _ => demoBase) p (.append [0] 2 demoReading) out p') ∧
    (∃ out p', RStep cudaWeak demoEdmCfg (fun _ => demoBase) p (.kernel [1] 0 demoInput) out p') ∧
    ∃ out p', RStep cudaWeak demoEdmCfg (fun _ => demoBase) p (.rows [0] 1 1 demoReadingRows) out p' := by
  have h0 := RReach.init (I := cudaWeak) (c := demoEdmCfg) (R := 64) (G := 64) (ups := fun _ => demoBase) (u0 := demoInit) (fun _ => 7)
  have h1 := h0.step (op := .plain (.create 0 [0, 0, 0] false))
    ⟨rfl, demoEdm_ok 0 [0, 0, 0] (by decide) (by decide) (by decide), ⟨by decide, by decide, 4, rfl⟩, by decide⟩ trivial trivial (.plain (.other id))
  have h2 := h1.step (op := .plain (.upload [[100], [110], [120]] demoTable 0))
    ⟨demoEdm_host (by decide) (by decide) rfl rfl (by unfold EPipe.Outside; decide +kernel), ⟨3, rfl, by decide, by
      intro i v ns hv hns
      match i, hv, hns with
      | 0, hv, hns => cases hv; cases hns; exact ⟨by simp, fun _ => rfl, by simp⟩
      | 1, hv, hns => cases hv; cases hns; exact ⟨by simp, fun _ => rfl, by simp⟩
      | 2, hv, hns => cases hv; cases hns; exact ⟨fun _ => rfl, by simp, by simp⟩⟩, ⟨rfl, by
      intro i v rows hv hr
      match i, hv, hr with
      | 0, hv, hr => cases hv; cases hr; decide
      | 1, hv, hr => cases hv; cases hr; decide
      | 2, hv, hr => cases hv; cases hr; decide⟩,
      [0, 0, 0], false, true, [[[[7], [7], [7]]], [[[7, 7], [7, 7], [7, 7]]], [[[7]]]], by unfold EStore.Has; decide +kernel⟩ trivial trivial (.plain (.other id))
  have h3 := h2.step (op := .plain (.create 2 [0, 0, 0, 0] true))
    ⟨by decide +kernel, demoEdm_ok 2 [0, 0, 0, 0] (by decide) (by decide) (by decide), ⟨by decide, by decide, 4, rfl⟩, by decide⟩ trivial trivial (.plain (.other id))
  have h4 := h3.step (op := .plain (.setup 2)) ⟨⟨[0, 0, 0, 0], true, none, true⟩, by decide +kernel, by decide⟩ trivial trivial (.plain (.other id))
  have h5 := h4.step (op := .plain (.create 1 [2, 1] true))
    ⟨by decide +kernel, demoEdm_ok 1 [2, 1] (by decide) (by decide) (by decide), ⟨by decide, by decide, 4, rfl⟩, by decide⟩ trivial trivial (.plain (.other id))
  have h6 := h5.step (op := .plain (.setup 1)) ⟨⟨[2, 1], true, none, false⟩, by decide +kernel, by decide⟩ trivial trivial (.plain (.other id))
  have hc : (cudaWeak : WImpl 32) = posixWeak ∨ (cudaWeak : WImpl 32) = cudaWeak ∨ (cudaWeak : WImpl 32) = syclWeak ∨ (cudaWeak : WImpl 32) = syclBuiltinWeak := .inr (.inl rfl)
  refine ⟨_, _, h6, c82_goes_on hc (FamLawful.same (demo_lawful 64)) demoEdmCfg_wf h6 ?_ ?_ trivial,
    c82_goes_on hc (FamLawful.same (demo_lawful 64)) demoEdmCfg_wf h6 ?_ trivial trivial, c82_goes_on hc (FamLawful.same (demo_lawful 64)) demoEdmCfg_wf h6 ?_ ?_ ?_⟩
  · refine ⟨by decide, by decide, [demoTable], [0, 0, 0, 0], [[[]], [[]], [[[7]]]], 0,
      ⟨⟨[0, 0, 0], false, by unfold EStore.Has; decide +kernel⟩, trivial⟩, by unfold EStore.Has; decide +kernel, ?_, by decide, ?_⟩
    · intro i v rows hv hk hr
      match i, hv, hr, hk with
      | 0, hv, hr, _ => cases hr; exact ⟨_, rfl, rfl⟩
      | 1, hv, hr, _ => cases hr; exact ⟨_, rfl, rfl⟩
      | 2, hv, hr, hk => cases hv; cases hk
    · have e : demoReading.map (·.calls [demoTable]) =
        [[⟨[(0, [2]), (1, [4, 0])]⟩], [⟨[(0, [4]), (1, [5, 0])]⟩], [⟨[(0, [6]), (1, [6, 0])]⟩, ⟨[(0, [9]), (1, [6, 0])]⟩]] := rfl
      beta_reduce
      rw [e]
      intro pr hpr x hx a ha
      simp only [List.mem_cons, List.not_mem_nil, or_false] at hpr
      rcases hpr with rfl | rfl | rfl <;> simp only [List.mem_cons, List.not_mem_nil, or_false] at hx
      · subst hx
        simp only [List.mem_cons, List.not_mem_nil, or_false] at ha
        rcases ha with rfl | rfl <;> exact ⟨_, rfl, rfl, rfl⟩
      · subst hx
        simp only [List.mem_cons, List.not_mem_nil, or_false] at ha
        rcases ha with rfl | rfl <;> exact ⟨_, rfl, rfl, rfl⟩
      · rcases hx with rfl | rfl <;> simp only [List.mem_cons, List.not_mem_nil, or_false] at ha <;> rcases ha with rfl | rfl <;> exact ⟨_, rfl, rfl, rfl⟩
  · refine ⟨[demoTable], ⟨⟨[0, 0, 0], false, by unfold EStore.Has; decide +kernel⟩, trivial⟩, ?_⟩
    intro t ht
    simp only [demoReading, List.map_cons, List.map_nil, List.mem_cons, List.not_mem_nil, or_false] at ht
    rcases ht with rfl | rfl | rfl
    · exact ⟨_, rfl, _, rfl, trivial⟩
    · exact ⟨_, rfl, _, rfl, trivial⟩
    · exact ⟨_, rfl, _, rfl, _, rfl, trivial⟩
  · exact ⟨by decide, [[[[[7], [7]]], [[], []]]], [0, 0, 0], false, demoTable, ⟨⟨[2, 1], true, by unfold EStore.Has; decide +kernel⟩, trivial⟩,
      by unfold EStore.Has; decide +kernel, demoInput_races⟩
  · refine ⟨by decide, [demoTable], [2, 1], [[[[7], [7]]], [[], []]], ⟨.jagged, ⟨1, 1⟩⟩, [[], []],
      ⟨⟨[0, 0, 0], false, by unfold EStore.Has; decide +kernel⟩, trivial⟩, by unfold EStore.Has; decide +kernel, rfl, rfl, rfl, ?_, ?_⟩
    · intro pr hpr x hx
      have e : demoReadingRows.map (·.calls [demoTable]) = [[(0, .push (.val [3]))], [(1, .push (.val [2])), (0, .push (.val [4]))]] := rfl
      beta_reduce at hpr
      rw [e] at hpr
      simp only [List.mem_cons, List.not_mem_nil, or_false] at hpr
      rcases hpr with rfl | rfl <;> simp only [List.mem_cons, List.not_mem_nil, or_false] at hx
      · subst hx
        exact ⟨[], rfl, rfl, rfl⟩
      · rcases hx with rfl | rfl <;> exact ⟨[], rfl, rfl, rfl⟩
    · intro i l cap h1 h2
      match i, h1, h2 with
      | 0, h1, h2 => cases h1; cases h2; decide
      | 1, h1, h2 => cases h1; cases h2; decide
  · refine ⟨[demoTable], ⟨⟨[0, 0, 0], false, by unfold EStore.Has; decide +kernel⟩, trivial⟩, ?_⟩
    intro t ht
    simp only [demoReadingRows, List.mem_cons, List.not_mem_nil, or_false] at ht
    rcases ht with rfl | rfl <;> exact ⟨_, rfl, trivial⟩
  · intro ts pr hpr x hx
    simp only [demoReadingRows, List.map_cons, List.map_nil, List.mem_cons, List.not_mem_nil, or_false, RTask.calls] at hpr
    rcases hpr with rfl | rfl <;> split at hx <;> simp only [List.mem_cons, List.not_mem_nil, or_false, RTask.calls] at hx
    · subst hx; rfl
    · rcases hx with rfl | rfl <;> rfl

end Vecmem.Props
