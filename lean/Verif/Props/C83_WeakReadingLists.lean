import Verif.Lemmas.WeakReadingLists
import Verif.Props.C82_WeakReading

/-!
# C83: programs with vectors and jagged vectors whose kernels read their inputs on weak memory

Vocabulary: `Verif/Spec/WeakReadingLists.lean`, and that of C79 and C82.
-/

namespace Vecmem.Props

open Vecmem

section

variable {σ : Type} {I : WImpl 32} {R : Limits} {G : Nat} {ups : Nat → MR σ} {u0 : σ} {c : JagCfg} {p : JPipe σ} {q : JReady}

/-- The run of threads that have been given the inputs. -/
theorem given_calls (hI : I = posixWeak ∨ I = cudaWeak ∨ I = syclWeak ∨ I = syclBuiltinWeak) {V : WVec} {B : Nat → Nat} {m : AMem 32} {s : WRun 32} {dflt : Elem}
    {locs : Nat → Cell → Option (Nat × Nat)} {ts : List Table} {progs : List (RTask (ACall Elem))} {mem : Mem}
    (hloc : ∀ k d x, (ts[k]?).bind (·.cell d) = some x → ∃ t a, locs k d = some (t, a) ∧ bytesAt mem a t = x) (hv : ∀ t ∈ progs, t.Valid ts)
    (h2 : InputVars locs mem B m V.Owns)
    (h3 : WRun.Reach I m (fun i => (progs[i]?.getD .done).code locs B fun x k => (x.weak byteWords dflt).code V k) s) :
    ∃ s', WRun.Reach I m (fun i => (WTask.calls byteWords dflt ((progs.map (·.calls ts))[i]?.getD [])).code V) s' ∧ s'.sys.trace = s.sys.trace.elsewhere (inputs locs B) ∧
      ∀ i, s'.prog i = (s.prog i).given (inputs locs B) m := by
  obtain ⟨o1, o2⟩ := inputs_own h2
  obtain ⟨s', g1, g2, g3⟩ := c82_given hI (ro := inputs locs B) (fun i => onlyReads_code (fun x k hk => onlyReads_append o1 _ hk) _) h3
  have hprog : ∀ i : Nat, (RTask.code locs B (fun (x : ACall Elem) (k' : WProg 32) => (x.weak byteWords dflt).code V k') (progs[i]?.getD .done)).given (inputs locs B) m =
      (WTask.calls byteWords dflt ((progs.map (·.calls ts))[i]?.getD [])).code V := by
    intro i
    rw [given_code (ts := ts) (mem := mem) (call := fun (x : ACall Elem) (k' : WProg 32) => (x.weak byteWords dflt).code V k') o2 hloc (fun x k => given_append o1 _ _), calls_code]
    · congr 2
      rw [List.getElem?_map]
      cases progs[i]? <;> rfl
    · cases hp : progs[i]? with
      | none => trivial
      | some t => exact hv t (List.mem_of_getElem? hp)
  rw [funext hprog] at g1
  exact ⟨s', g1, g2, g3⟩

/-- Both lists are what the same claims return. -/
theorem returned_indices {a : Nat} : ∀ {l : List (ACall Elem × Nat)} {l' : List Nat} {es : WTrace 32}, Returned a l es → List.Forall₂ (fun r e => ∃ n, e.Claims a r n) l' es → l.map (·.2) = l'
  | _, _, _, .nil, .nil => rfl
  | _, _, _, .cons a1 h1, .cons a2 h2 => by
    rw [List.map_cons, returned_indices h1 h2]
    congr 1
    obtain ⟨-, x, o, t1, y, k1, -, k3, k4⟩ := a1
    obtain ⟨n, -, x', o', t1', y', k1', -, k3', k4'⟩ := a2
    rw [k3] at k3'
    cases k3'
    omega

/-- C83: a kernel whose threads read elements of inputs on weak memory, and append to a vector, is one that has been given the inputs: threads make the calls that they make if they are told the
elements of the inputs, and what is left, and returned, is so in an execution of the kernel with these calls (C77). -/
theorem c83_append (hI : I = posixWeak ∨ I = cudaWeak ∨ I = syclWeak ∨ I = syclBuiltinWeak) {t : Nat} {v : View} {dbg : Bool} {dflt : Elem} {mem mem' : Mem}
    {locs : Nat → Cell → Option (Nat × Nat)} {ts : List Table} {progs : List (RTask (ACall Elem))} {idx : List (List Nat)}
    (hloc : ∀ k d x, (ts[k]?).bind (·.cell d) = some x → ∃ t a, locs k d = some (t, a) ∧ bytesAt mem a t = x) (hvl : ∀ t ∈ progs, t.Valid ts)
    (hz : v.sizePtr ≠ 0) (hp : ∀ q ∈ progs.map (·.calls ts), ∀ x ∈ q, x.Valid true []) (room : v.len mem + totalCount (progs.map (·.calls ts)) ≤ v.capacity)
    (h : ReadingVector I dbg dflt t v locs progs mem mem' idx) :
    ∃ rets, rets.map (·.map (·.2)) = idx ∧ WeakKernel I dbg dflt t v (progs.map (·.calls ts)) mem mem' rets := by
  obtain ⟨V, B, m, s, hV, hdbg, h1, h2, h3, h4, h5, h6, h7, h8⟩ := h
  obtain ⟨o1, -⟩ := inputs_own h2
  obtain ⟨s', g1, g2, g3⟩ := given_calls hI hloc hvl h2 h3
  have hdone : ∀ i, s'.prog i = .done := fun i => by rw [g3, h4]; rfl
  have hlen : v.len mem = (v.device dbg dflt t mem).sizeWord := by simp [View.len, View.device, hz]
  obtain ⟨-, h9⟩ := c77_sequential hI hV (h1.shows (dbg := dbg) (dflt := dflt) hdbg hz) hp (by rw [← hlen]; exact room) g1
  obtain ⟨sched, e1, e2, e3, e4⟩ := h9 hdone
  have hlenT : ((Conc.start (v.device dbg dflt t mem) (progs.map (·.calls ts))).run sched).threads.length = progs.length := by
    rw [Conc.run_length]
    simp [Conc.start]
  generalize (Conc.start (v.device dbg dflt t mem) (progs.map (·.calls ts))).run sched = g at e1 e2 e3 e4 hlenT
  have hres : ∀ i : Nat, (g.threads.map Thread.done)[i]?.getD [] = g.results i := by
    intro i
    unfold Conc.results
    rw [List.getElem?_map]
  have hclaims : ∀ i, WTrace.claims V.size (s'.sys.trace.of i) = WTrace.claims V.size (s.sys.trace.of i) := fun i => by
    rw [g2, elsewhere_claims (o1 _ (.inl rfl))]
  refine ⟨g.threads.map Thread.done, ?_, V, m, s', hV, hdbg, h1, g1, hdone, ?_, h6, ?_, fun i => ?_⟩
  · apply List.ext_getElem?
    intro i
    by_cases hi : i < progs.length
    · have r1 := (e4 i).2
      rw [hclaims, ← hres] at r1
      have := returned_indices r1 (h8 i)
      rw [List.getElem?_map]
      rw [List.getElem?_eq_getElem (by rw [List.length_map, hlenT]; exact hi), Option.getD_some] at this
      rw [List.getElem?_eq_getElem (by rw [h7]; exact hi), Option.getD_some] at this
      rw [List.getElem?_eq_getElem (by rw [List.length_map, hlenT]; exact hi), List.getElem?_eq_getElem (by rw [h7]; exact hi), Option.map_some, this]
    · rw [List.getElem?_eq_none (by simp; omega), List.getElem?_eq_none (by omega)]
  · exact h5.change fun a ha x hx => by rw [g2]; exact (elsewhere_final (o1 a ha) x).2 hx
  · apply List.ext_getElem?
    intro i
    by_cases hi : i < progs.length
    · have := (e4 i).1
      rw [← hres] at this
      rw [List.getElem?_eq_getElem (by rw [List.length_map, hlenT]; exact hi), Option.getD_some, List.getElem?_eq_getElem (by rw [List.length_map]; exact hi), Option.getD_some] at this
      rw [List.getElem?_map, List.getElem?_eq_getElem (by rw [List.length_map, hlenT]; exact hi), List.getElem?_eq_getElem (by rw [List.length_map]; exact hi), Option.map_some, this]
    · rw [List.getElem?_eq_none (by simp; omega), List.getElem?_eq_none (by rw [List.length_map]; omega)]
  · rw [hres]
    exact (e4 i).2

/-- Variables for a vector. -/
def vecVars (dbg : Bool) (v : View) : WVec := ⟨0, fun u i => Nat.pair u i + 1, v.capacity, dbg⟩

/-- The values that these have. -/
def vecVals (t : Nat) (v : View) (mem : Mem) : AMem 32 := fun a => if a = 0 then BitVec.ofNat 32 (readLE mem v.sizePtr 4) else
  BitVec.ofNat 32 (mem (v.ptr + (Nat.unpair (a - 1)).2 * t + (Nat.unpair (a - 1)).1)).toNat

theorem vecVars_valid (dbg : Bool) {v : View} (h : v.capacity < 2 ^ 32) : (vecVars dbg v).Valid 32 :=
  ⟨fun _ _ _ _ h => Nat.pair_eq_pair.1 (Nat.succ.inj h), fun _ _ => Nat.succ_ne_zero _, h⟩

theorem vecVars_in (dbg : Bool) (t : Nat) (v : View) (mem : Mem) : v.InVars t (vecVars dbg v) (fun a x => x = vecVals t v mem a) mem := by
  refine ⟨rfl, ⟨_, rfl, ?_⟩, fun i u hi hu => ?_⟩
  · simp only [vecVars, vecVals, if_true, BitVec.toNat_ofNat]
    exact Nat.mod_eq_of_lt (by simpa using readLE_lt mem v.sizePtr 4)
  · simp [vecVars, vecVals]

/-- The variables have, in the end, the values of the bytes of the vector that is left behind. -/
theorem vec_stored {t : Nat} {v : View} {mem : Mem} (hv : v.Valid mem t) (hz : v.sizePtr ≠ 0) {V : WVec} (hcap : V.cap = v.capacity) {s : DV Elem} (hall : s.All fun e => e.length = t)
    {val : Nat → BitVec 32 → Prop} (h : V.Shows byteWords val s) : v.InVars t V val (v.storeDevice t mem s) := by
  refine ⟨hcap, ?_, ?_⟩
  · obtain ⟨y, e1, e2⟩ := h.size
    refine ⟨y, e1, e2.trans ?_⟩
    have := storeDevice_len (m := mem) hv.toPlaced (s := s) (fun _ => by rw [← e2]; exact y.isLt)
    rw [if_neg hz] at this
    rw [← this]
    simp [View.len, hz]
  · intro i u hi hu
    obtain ⟨e, e1, e2⟩ := h.elems i (by rw [← h.cap, hcap]; exact hi)
    have e3 := hall.3 _ _ e1
    refine e2 u _ ?_
    have hb := payload_bound hi hu
    simp only [byteWords, List.getElem?_map]
    unfold View.storeDevice
    rw [if_pos ⟨by omega, by omega⟩, show v.ptr + i * t + u - v.ptr = i * t + u by omega, Nat.mul_comm i t, Nat.mul_add_div (by omega),
      Nat.mul_add_mod, Nat.mod_eq_of_lt hu, Nat.div_eq_of_lt hu, Nat.add_zero, e1, Option.getD_some, List.getD_eq_getElem?_getD,
      List.getElem?_eq_getElem (by omega)]
    rfl

/-- C83: such kernels can be run. -/
theorem c83_append_runs (hI : I = posixWeak ∨ I = cudaWeak ∨ I = syclWeak ∨ I = syclBuiltinWeak) {t : Nat} {v : View} {dbg : Bool} {dflt : Elem} {mem : Mem}
    {locs : Nat → Cell → Option (Nat × Nat)} {ts : List Table} {progs : List (RTask (ACall Elem))}
    (hloc : ∀ k d x, (ts[k]?).bind (·.cell d) = some x → ∃ t a, locs k d = some (t, a) ∧ bytesAt mem a t = x) (hvl : ∀ t ∈ progs, t.Valid ts)
    (hv : v.Valid mem t) (hz : v.sizePtr ≠ 0) (hd : dflt.length = t) (hp : ∀ q ∈ progs.map (·.calls ts), ∀ x ∈ q, x.Valid true [] ∧ x.Sized t)
    (room : v.len mem + totalCount (progs.map (·.calls ts)) ≤ v.capacity) :
    ∃ mem' idx, ReadingVector I dbg dflt t v locs progs mem mem' idx := by
  have hvalid := (vecVars_valid dbg hv.word32).even
  have hin := (vecVars_in dbg t v mem).even
  have hiv := inputVars_odd locs (vecVals t v mem) mem (own := (vecVars dbg v).even.Owns) fun a h => (owns_even h).imp fun _ h => h.1
  obtain ⟨s, h1, h2⟩ := WRun.Reach.finishAll (I := I) (m := evenVals (vecVals t v mem) mem)
    (progs := fun i => (progs[i]?.getD .done).code locs (fun a => 2 * a + 1) fun x k' => (x.weak byteWords dflt).code (vecVars dbg v).even k')
    .start (fun i => defined_code hI (fun x k hk => defined_append hI _ hk) _) (n := progs.length)
    (fun i hi => by dsimp only; rw [List.getElem?_eq_none hi]; exact .inl rfl)
  have hr := WRun.Reach.steps (.start) h1
  obtain ⟨o1, -⟩ := inputs_own hiv
  obtain ⟨s', g1, g2, g3⟩ := given_calls hI hloc hvl hiv hr
  have hlen : v.len mem = (v.device dbg dflt t mem).sizeWord := by simp [View.len, View.device, hz]
  obtain ⟨h3, h4⟩ := c77_sequential hI hvalid (hin.shows (dbg := dbg) (dflt := dflt) rfl hz) (fun q hq x hx => (hp q hq x hx).1) (by rw [← hlen]; exact room) g1
  have hdone : ∀ i, s.prog i = .done := fun i => (h2 i).resolve_right fun hf => h3 i (by rw [g3, hf]; rfl)
  obtain ⟨sched, e1, e2, e3, e4⟩ := h4 fun i => by rw [g3, hdone]; rfl
  have hall : ((Conc.start (v.device dbg dflt t mem) (progs.map (·.calls ts))).run sched).vec.All (fun e => e.length = t) := by
    refine Conc.all_run _ (device_all _ hd _ _) (Conc.all_start fun q hq x hx => ?_)
    have := (hp q hq x hx).2
    cases x <;> first | trivial | (rename_i a; cases a <;> exact this)
  have hlenT : ((Conc.start (v.device dbg dflt t mem) (progs.map (·.calls ts))).run sched).threads.length = progs.length := by
    rw [Conc.run_length]
    simp [Conc.start]
  generalize (Conc.start (v.device dbg dflt t mem) (progs.map (·.calls ts))).run sched = g at e1 e2 e3 e4 hall hlenT
  have hin' := vec_stored hv hz hin.cap hall e3
  refine ⟨v.storeDevice t mem g.vec, g.threads.map fun th => th.done.map (·.2), _, _, _, s, hvalid, rfl, hin, hiv, hr, hdone, hin'.change fun a ha x hx => ?_,
    fun x hx => storeDevice_other hx, by rw [List.length_map, hlenT], fun i => ?_⟩
  · rw [g2] at hx
    exact (elsewhere_final (o1 a ha) x).1 hx
  · have := (e4 i).2
    unfold Conc.results at this
    rw [g2, elsewhere_claims (o1 _ (.inl rfl))] at this
    rw [List.getElem?_map]
    cases hg : g.threads[i]? with
    | none =>
      rw [hg] at this
      unfold Returned at this
      rw [Option.map_none, Option.getD_none, List.forall₂_nil_left_iff] at this
      rw [this]
      exact .nil
    | some th =>
      rw [hg] at this
      exact List.forall₂_map_left_iff.2 (List.Forall₂.imp (fun _ _ h => ⟨_, h⟩) this)

/-- A kernel that reads its inputs on weak memory does, and returns, what one does, and returns, that is given them. -/
theorem c83_step_inv (hI : I = posixWeak ∨ I = cudaWeak ∨ I = syclWeak ∨ I = syclBuiltinWeak) (h : JInv c R ups u0 p q) {op : JROp}
    (hf : op.given.Fits c R (p.Outside c) (p.store c q)) (hr : op.Reads (p.store c q)) (hop : op.given.Plain) {out : JROut} {p' : JPipe σ} (hs : JRStep I c ups p op out p') :
    ∃ r, out.Of r ∧ WJagStep I c ups p op.given r p' := by
  cases hs with
  | plain hs => exact ⟨_, rfl, hs⟩
  | @append ins jins k progs b mem' idx hb hk =>
    obtain ⟨js, hj, -, ls, cap, l, f1, f2, f3, f4⟩ := hf
    obtain ⟨ls', js', r1, r2, r3⟩ := hr
    have hls := h.vec.reads f1
    have hjs := h.reads hj
    cases hls.symm.trans (h.vec.reads r1)
    cases hjs.symm.trans (h.reads r2)
    obtain ⟨b', b1, b2, b3, b4, b5, b6, b7, b8⟩ := h.vec.has f2
    cases hb.symm.trans b1
    obtain ⟨rets, g1, g2⟩ := c83_append hI (h.locs r1 r2) r3 (bne_iff_ne.1 b5) (fun q hq x hx => hop ls js q hq x hx) (by rw [b8, b4]; exact f3) hk
    exact ⟨_, ⟨rets, rfl, g1⟩, .vecKernel (r := .ok (.claims rets)) hjs (.kernel hb hls g2)⟩
  | @rows ins jins k progs b mem' idx hb hk =>
    obtain ⟨-, ls, js, caps, rows, f1, f2, f3, f4, f5⟩ := hf
    obtain ⟨ls', js', r1, r2, r3⟩ := hr
    have hls := h.vec.reads f1
    have hjs := h.reads f2
    cases hls.symm.trans (h.vec.reads r1)
    cases hjs.symm.trans (h.reads r2)
    obtain ⟨b', b1, b2, b3, b4, b5, b6, b7, b8⟩ := rows_ready h f3 (hop ls js) f4 f5
    cases hb.symm.trans b1
    obtain ⟨rets, g1, g2⟩ := c82_rows hI (h.locs r1 r2) r3 b5 b7 b8 (hk.alike b3 b4)
    refine ⟨_, ⟨rets, rfl, ?_, by rw [b3]; exact g1⟩, .kernel hb hls hjs (g2.alike b3.symm fun i v w h1 h2 => (b4 i w v h2 h1).symm)⟩
    obtain ⟨-, -, -, -, -, -, -, -, -, -, g3, -⟩ := g2
    intro l hl y hy
    rw [b3]
    exact (b7 _ (by beta_reduce; rw [← g3]; exact List.mem_map_of_mem hl) _ (List.mem_map_of_mem hy)).1

/-- Every state that is reached with kernels that read their inputs on weak memory is reached with kernels that are given them: all of C79 holds in it. -/
theorem c83_reach (hI : I = posixWeak ∨ I = cudaWeak ∨ I = syclWeak ∨ I = syclBuiltinWeak) (hl : FamLawful R G ups u0) (hc : c.Wf)
    (h : JRReach I c R ups u0 p q) : WJagReach I c R ups u0 p q := by
  induction h with
  | init m => exact .init m
  | @step p q op r p' h hf hr hp hs ih =>
    obtain ⟨r, -, h2⟩ := c83_step_inv hI (jag_inv hl hc (c79_reach hI hl hc ih)) hf hr hp hs
    exact ih.step hf hp h2

/-- C83: in a program with vector buffers, jagged buffers and copies (C62) whose kernels run, and read their inputs, on weak memory, every step does to the elements in memory, and returns, what it
may do and return according to `JagStep`, which speaks about lists of elements and lists of rows only. -/
theorem c83_pipelines (hI : I = posixWeak ∨ I = cudaWeak ∨ I = syclWeak ∨ I = syclBuiltinWeak) (hl : FamLawful R G ups u0) (hc : c.Wf)
    (h : JRReach I c R ups u0 p q) {op : JROp} (hf : op.given.Fits c R (p.Outside c) (p.store c q)) (hr : op.Reads (p.store c q)) (hop : op.given.Plain) {out : JROut}
    {p' : JPipe σ} (hs : JRStep I c ups p op out p') : ∃ r, out.Of r ∧ JagStep c (p.store c q) op.given r (p'.store c (op.given.ready q)) := by
  have h' := c83_reach hI hl hc h
  obtain ⟨r, h1, h2⟩ := c83_step_inv hI (jag_inv hl hc (c79_reach hI hl hc h')) hf hr hop hs
  exact ⟨r, h1, c79_pipelines hI hl hc h' hf hop h2⟩

/-- Each step that fits can be made. -/
theorem c83_goes_on_inv (hI : I = posixWeak ∨ I = cudaWeak ∨ I = syclWeak ∨ I = syclBuiltinWeak) (hc : c.Wf)
    (hinv : JInv c R ups u0 p q) {op : JROp} (hf : op.given.Fits c R (p.Outside c) (p.store c q)) (hr : op.Reads (p.store c q)) (hop : op.given.Plain) :
    ∃ out p', JRStep I c ups p op out p' := by
  cases op with
  | plain op =>
    obtain ⟨r, p', hs⟩ := c79_goes_on_inv hI hc hinv hf hop
    exact ⟨_, _, .plain hs⟩
  | append ins jins k progs =>
    obtain ⟨js, hj, -, ls, cap, l, f1, f2, f3, f4⟩ := hf
    obtain ⟨ls', js', r1, r2, r3⟩ := hr
    cases (hinv.vec.reads f1).symm.trans (hinv.vec.reads r1)
    cases (hinv.reads hj).symm.trans (hinv.reads r2)
    obtain ⟨b, b1, b2, b3, b4, b5, b6, b7, b8⟩ := hinv.vec.has f2
    obtain ⟨mem', idx, hw⟩ := c83_append_runs (dbg := c.vec.dbg) hI (hinv.locs r1 r2) r3 b7 (bne_iff_ne.1 b5) (hc.1 k).2 (fun q hq x hx => ⟨hop ls js q hq x hx, (f4 q hq x hx).2⟩)
      (by rw [b8, b4]; exact f3)
    exact ⟨_, _, .append b1 hw⟩
  | rows ins jins k progs =>
    obtain ⟨-, ls, js, caps, rows, f1, f2, f3, f4, f5⟩ := hf
    obtain ⟨ls', js', r1, r2, r3⟩ := hr
    cases (hinv.vec.reads f1).symm.trans (hinv.vec.reads r1)
    cases (hinv.reads f2).symm.trans (hinv.reads r2)
    obtain ⟨b, b1, b2, b3, b4, b5, b6, b7, b8⟩ := rows_ready hinv f3 (hop ls js) f4 f5
    obtain ⟨mem', idx, hw⟩ := c82_rows_runs (dbg := c.vec.dbg) hI (hinv.locs r1 r2) r3 b5 b6 (hc.2 k).2 b7 b8
    exact ⟨_, _, .rows b1 (hw.alike b3.symm fun i v w h1 h2 => (b4 i w v h2 h1).symm)⟩

/-- C83: in every state of a program, each step that fits can be made. -/
theorem c83_goes_on (hI : I = posixWeak ∨ I = cudaWeak ∨ I = syclWeak ∨ I = syclBuiltinWeak) (hl : FamLawful R G ups u0) (hc : c.Wf)
    (h : JRReach I c R ups u0 p q) {op : JROp} (hf : op.given.Fits c R (p.Outside c) (p.store c q)) (hr : op.Reads (p.store c q)) (hop : op.given.Plain) :
    ∃ out p', JRStep I c ups p op out p' :=
  c83_goes_on_inv hI hc (jag_inv hl hc (c79_reach hI hl hc (c83_reach hI hl hc h))) hf hr hop

/-! ## end to end -/

/-- A thread for each of `n` elements of a vector: it loads the element, and appends a value to the row that the element belongs to. -/
def binReading (bin : Elem → Nat) (g : Elem → Elem) (n : Nat) : List (RTask (Nat × ACall Elem)) :=
  (List.range n).map fun i => .load 0 ⟨0, 0, i⟩ fun x => .call (bin x, .push (.val (g x))) .done

theorem binReading_calls (bin : Elem → Nat) (g : Elem → Elem) (xs : List Elem) :
    ((binReading bin g xs.length).map fun t => t.calls (listTables [xs] [])) = binKernel bin g [xs] [] ∧ ∀ t ∈ binReading bin g xs.length, t.Valid (listTables [xs] []) := by
  constructor
  · apply List.ext_getElem
    · simp [binReading, binKernel]
    · intro i h1 h2
      have hi : i < xs.length := by simpa [binReading] using h1
      simp [binReading, binKernel, RTask.calls, listTables, Table.cell, hi]
  · intro t ht
    obtain ⟨i, hi, rfl⟩ := List.mem_map.1 ht
    have hi : i < xs.length := List.mem_range.1 hi
    exact ⟨xs[i], by simp [listTables, Table.cell, hi], trivial⟩

theorem binReading_plain (ins jins : List Nat) (k : Nat) (bin : Elem → Nat) (g : Elem → Elem) (n : Nat) : (JROp.rows ins jins k (binReading bin g n)).given.Plain := by
  intro ls js pr hpr x hx
  obtain ⟨t, ht, rfl⟩ := List.mem_map.1 hpr
  obtain ⟨i, -, rfl⟩ := List.mem_map.1 ht
  unfold RTask.calls at hx
  split at hx
  · simp only [RTask.calls, List.mem_singleton] at hx
    subst hx
    rfl
  · cases hx

theorem binReading_fits {S : JStore} {outside : Nat → Nat → Prop} {i k : Nat} {xs : List Elem} (hi : ∃ cap r, S.vec.Has i cap r xs) {caps : List Nat}
    (hk : S.Has k caps true true (caps.map fun _ => []))
    (bin : Elem → Nat) (hb : ∀ e ∈ xs, bin e < caps.length) (g : Elem → Elem) (hg : ∀ e ∈ xs, (g e).length = (c.ty k).size)
    (hroom : ∀ (j cap : Nat), caps[j]? = some cap → (xs.filter fun e => bin e = j).length ≤ cap) :
    (JROp.rows [i] [] k (binReading bin g xs.length)).given.Fits c R outside S := by
  obtain ⟨e1, -⟩ := binReading_calls bin g xs
  refine ⟨by simp, [xs], [], caps, _, ⟨hi, trivial⟩, trivial, hk, fun pr hpr x hx => ?_, fun j l cap g1 g2 => ?_⟩
  · beta_reduce at hpr
    rw [e1] at hpr
    obtain ⟨e, he, rfl⟩ := List.mem_map.1 hpr
    obtain rfl := List.mem_singleton.1 hx
    exact ⟨[], by rw [List.getElem?_map, List.getElem?_eq_getElem (hb e he)]; rfl, rfl, hg e he⟩
  · beta_reduce
    rw [e1]
    rw [List.getElem?_map, g2] at g1
    cases g1
    rw [binKernel_count, List.length_nil, Nat.zero_add]
    exact hroom j cap g2

/-- C83, end to end: in any state of any program, a kernel with a thread for each element of a vector buffer loads, on weak memory, the element, and appends a value for it to the row of a resizable
jagged buffer (with empty rows, whose capacities are large enough) to which the element belongs.  The host vectors that this buffer is then copied to hold, row by
row, exactly the values of the elements that belong to the row, in some order. -/
theorem c83_parallel_binning (hI : I = posixWeak ∨ I = cudaWeak ∨ I = syclWeak ∨ I = syclBuiltinWeak) (hl : FamLawful R G ups u0) (hc : c.Wf)
    (h : JRReach I c R ups u0 p q) (i k : Nat) (xs : List Elem) (hi : ∃ cap r, (p.store c q).vec.Has i cap r xs) (caps : List Nat)
    (hk : (p.store c q).Has k caps true true (caps.map fun _ => []))
    (bin : Elem → Nat) (hb : ∀ e ∈ xs, bin e < caps.length) (g : Elem → Elem) (hg : ∀ e ∈ xs, (g e).length = (c.ty k).size)
    (hroom : ∀ (j cap : Nat), caps[j]? = some cap → (xs.filter fun e => bin e = j).length ≤ cap) (ats : List Nat)
    (hout : HostArrays (p.Outside c) (c.ty k).size ats ((List.range caps.length).map fun j => (xs.filter fun e => bin e = j).map g))
    {out : JROut} {p' : JPipe σ} (hs : JRStep I c ups p (.rows [i] [] k (binReading bin g xs.length)) out p') :
    ∃ rows, (p'.exec c ups (.download k ats)).1 = .ok (.rows rows) ∧ rows.length = caps.length ∧
      ∀ (j : Nat) (row : List Elem), rows[j]? = some row → row.Perm ((xs.filter fun e => bin e = j).map g) := by
  have h' := c83_reach hI hl hc h
  have hinv := jag_inv hl hc (c79_reach hI hl hc h')
  obtain ⟨e1, e2⟩ := binReading_calls bin g xs
  obtain ⟨r, -, h2⟩ := c83_step_inv hI hinv (binReading_fits hi hk bin hb g hg hroom) ⟨[xs], [], ⟨hi, trivial⟩, trivial, e2⟩ (binReading_plain _ _ _ _ _ _) hs
  cases h2 with
  | @kernel _ _ _ _ _ b ls js mem' rets k1 k2 k3 k4 =>
    cases k2.symm.trans (hinv.vec.reads (ins := [i]) (ls := [xs]) ⟨hi, trivial⟩)
    cases k3.symm.trans (hinv.reads (ins := []) (ls := []) trivial)
    beta_reduce at k4
    rw [e1] at k4
    exact (c79_parallel_binning hI hl hc h' i k xs hi caps hk bin hb g hg hroom ats hout (sched := []) (.kernel k1 k2 k3 k4)).2
  | other hn => exact (hn trivial).elim

/-- What a kernel leaves whose threads append single values. -/
theorem pushes_appended {c : PipeCfg} {S S' : Store} {ins : List Nat} {k : Nat} {f : List (List Elem) → List (List (ACall Elem))} {sched : List Nat} {r : Res PipeOut} {ls : List (List Elem)}
    (h : PipeStep c S (.kernel ins k f sched) r S') (hi : ∀ ls', S.HasAll ins ls' → ls' = ls) {cap : Nat} {l : List Elem} (hk : S.Has k cap true l)
    (hpush : ∀ pr ∈ f ls, ∀ x ∈ pr, ∃ v, x = .push (.val v)) : ∃ l', S'.Has k cap true (l ++ l') ∧ l'.Perm ((f ls).flatMap (·.map pushed)) := by
  cases h with
  | @kernel _ _ _ _ ls' cap' l0 hi' hk' order results l' ho hp hr =>
    cases hi _ hi'
    unfold Store.Has at hk hk'
    rw [hk] at hk'
    simp only [Option.some.injEq, VBuf.mk.injEq] at hk'
    obtain ⟨rfl, -, rfl⟩ := hk'
    have hlen : results.length = (f ls).length := by rw [← hp, List.length_map]
    have hkey : ∀ x ∈ order, x.1 < results.length ∧ x.2.1 ∈ (f ls).getD x.1 [] := by
      intro x hx
      have h3 := ho x.1
      have h4 : x.2 ∈ results.getD x.1 [] := by
        rw [← h3]
        exact List.mem_map.2 ⟨x, List.mem_filter.2 ⟨hx, by simp⟩, rfl⟩
      have hlt : x.1 < results.length := by
        by_contra hcon
        rw [List.getD_eq_getElem?_getD, List.getElem?_eq_none (by omega)] at h4
        cases h4
      refine ⟨hlt, ?_⟩
      rw [← hp]
      rw [List.getD_eq_getElem?_getD, List.getElem?_eq_getElem hlt] at h4
      rw [List.getD_eq_getElem?_getD, List.getElem?_map, List.getElem?_eq_getElem hlt]
      exact List.mem_map.2 ⟨x.2, h4, rfl⟩
    have hval : ∀ x ∈ order, ∃ v, x.2.1 = .push (.val v) := by
      intro x hx
      obtain ⟨h3, h4⟩ := hkey x hx
      rw [List.getD_eq_getElem?_getD, List.getElem?_eq_getElem (hlen ▸ h3)] at h4
      exact hpush _ (List.getElem_mem _) _ h4
    have hl' := vecRun_pushed hval hr
    refine ⟨order.map fun x => pushed x.2.1, ?_, ?_⟩
    · rw [← hl']
      simp [Store.Has, Store.put]
    · have h3 := perm_byKey (fun x : Nat × ACall Elem × Nat => x.1) order results.length
      rw [List.filter_eq_self.2 fun x hx => by simpa using (hkey x hx).1] at h3
      refine (h3.map _).trans (List.Perm.of_eq ?_)
      rw [List.map_flatMap, ← flatMap_getD, ← hlen, List.flatMap_def, List.flatMap_def]
      congr 1
      apply List.map_congr_left
      intro j _
      have h4 : (f ls).getD j [] = (results.getD j []).map (·.1) := by
        rw [← hp]
        simp only [List.getD_eq_getElem?_getD, List.getElem?_map]
        cases results[j]? <;> rfl
      rw [h4, ← ho j, List.map_map, List.map_map]
      rfl

/-- A thread that loads `n` elements of row `r` of a jagged vector, from number `i` on, one after the other, and appends a value for each of them. -/
def rowReading (g : Elem → Elem) (r : Nat) : Nat → Nat → RTask (ACall Elem)
  | _, 0 => .done
  | i, n + 1 => .load 0 ⟨0, r, i⟩ fun x => .call (.push (.val (g x))) (rowReading g r (i + 1) n)

/-- A thread for each row of the jagged vector. -/
def flattenReading (g : Elem → Elem) (rows : List (List Elem)) : List (RTask (ACall Elem)) := rows.mapIdx fun r row => rowReading g r 0 row.length

theorem rowReading_calls (g : Elem → Elem) {rows : List (List Elem)} {r : Nat} {row : List Elem} (hr : rows[r]? = some row) : ∀ (n i : Nat), i + n = row.length →
    (rowReading g r i n).calls (listTables [] [rows]) = (row.drop i).map (fun e => .push (.val (g e))) ∧ (rowReading g r i n).Valid (listTables [] [rows])
  | 0, i, h => by
    rw [List.drop_of_length_le (by omega)]
    exact ⟨rfl, trivial⟩
  | n + 1, i, h => by
    have hi : i < row.length := by omega
    have hx : ((listTables [] [rows])[0]?).bind (·.cell ⟨0, r, i⟩) = some row[i] := by simp [listTables, Table.cell, hr, hi]
    obtain ⟨g1, g2⟩ := rowReading_calls g hr n (i + 1) (by omega)
    refine ⟨?_, row[i], hx, g2⟩
    unfold rowReading RTask.calls
    rw [hx]
    simp only [RTask.calls]
    rw [g1, List.drop_eq_getElem_cons hi, List.map_cons]

theorem flattenReading_calls (g : Elem → Elem) (rows : List (List Elem)) :
    ((flattenReading g rows).map fun t => t.calls (listTables [] [rows])) = rows.map (fun row => row.map fun e => .push (.val (g e))) ∧
      ∀ t ∈ flattenReading g rows, t.Valid (listTables [] [rows]) := by
  constructor
  · apply List.ext_getElem
    · simp [flattenReading]
    · intro i h1 h2
      have hi : i < rows.length := by simpa [flattenReading] using h1
      have := (rowReading_calls g (List.getElem?_eq_getElem hi) _ 0 (Nat.zero_add _)).1
      simpa [flattenReading] using this
  · intro t ht
    unfold flattenReading at ht
    obtain ⟨i, hi, rfl⟩ := List.mem_mapIdx.1 ht
    exact (rowReading_calls g (List.getElem?_eq_getElem hi) _ 0 (Nat.zero_add _)).2

theorem rowReading_plain (g : Elem → Elem) (ts : List Table) (r : Nat) : ∀ (n i : Nat), ∀ x ∈ (rowReading g r i n).calls ts, x.Valid true []
  | 0, _, x, hx => by cases hx
  | n + 1, i, x, hx => by
    unfold rowReading RTask.calls at hx
    split at hx
    · unfold RTask.calls at hx
      rcases List.mem_cons.1 hx with rfl | hx
      · rfl
      · exact rowReading_plain g ts r n (i + 1) x hx
    · cases hx

theorem flattenReading_fits {S : JStore} {outside : Nat → Nat → Prop} {j k : Nat} {rows : List (List Elem)} (hj : ∃ caps r, S.Has j caps r true rows) {cap : Nat} {l : List Elem}
    (hk : S.vec.Has k cap true l) (g : Elem → Elem) (hg : ∀ row ∈ rows, ∀ e ∈ row, (g e).length = (c.vec.ty k).size) (hroom : l.length + rows.flatten.length ≤ cap) :
    (JROp.append [] [j] k (flattenReading g rows)).given.Fits c R outside S := by
  obtain ⟨e1, -⟩ := flattenReading_calls g rows
  have hcount : totalCount (rows.map fun row => row.map fun e => (ACall.push (.val (g e)) : ACall Elem)) = rows.flatten.length := by
    unfold totalCount
    rw [List.map_map, List.length_flatten]
    congr 1
    apply List.map_congr_left
    intro row _
    simp [Function.comp_def, ACall.count]
  refine ⟨[rows], ⟨hj, trivial⟩, by simp, [], cap, l, trivial, hk, ?_, fun pr hpr x hx => ?_⟩
  · beta_reduce
    rw [e1, hcount]
    exact hroom
  · beta_reduce at hpr
    rw [e1] at hpr
    obtain ⟨row, hrow, rfl⟩ := List.mem_map.1 hpr
    obtain ⟨e, he, rfl⟩ := List.mem_map.1 hx
    exact ⟨rfl, hg row hrow e he⟩

theorem flattenReading_plain (ins jins : List Nat) (k : Nat) (g : Elem → Elem) (rows : List (List Elem)) : (JROp.append ins jins k (flattenReading g rows)).given.Plain := by
  intro ls js pr hpr x hx
  obtain ⟨t, ht, rfl⟩ := List.mem_map.1 hpr
  unfold flattenReading at ht
  obtain ⟨i, hi, rfl⟩ := List.mem_mapIdx.1 ht
  exact rowReading_plain g _ _ _ _ x hx

/-- C83, end to end: in any state of any program, a kernel with a thread for each row of a jagged buffer loads, on weak memory, the elements of the row, and appends a value for each of them to a
resizable vector buffer, which has room for them.  This then has the old elements, followed by the values of all elements of all rows, in some order. -/
theorem c83_flatten (hI : I = posixWeak ∨ I = cudaWeak ∨ I = syclWeak ∨ I = syclBuiltinWeak) (hl : FamLawful R G ups u0) (hc : c.Wf)
    (h : JRReach I c R ups u0 p q) (j k : Nat) (rows : List (List Elem)) (hj : ∃ caps r, (p.store c q).Has j caps r true rows) (cap : Nat) (l : List Elem)
    (hk : (p.store c q).vec.Has k cap true l) (g : Elem → Elem) (hg : ∀ row ∈ rows, ∀ e ∈ row, (g e).length = (c.vec.ty k).size) (hroom : l.length + rows.flatten.length ≤ cap)
    {out : JROut} {p' : JPipe σ} (hs : JRStep I c ups p (.append [] [j] k (flattenReading g rows)) out p') :
    ∃ l', (p'.store c q).vec.Has k cap true (l ++ l') ∧ l'.Perm (rows.flatten.map g) := by
  have hinv := jag_inv hl hc (c79_reach hI hl hc (c83_reach hI hl hc h))
  obtain ⟨e1, e2⟩ := flattenReading_calls g rows
  have hvals : (rows.map fun row => row.map fun e => (ACall.push (.val (g e)) : ACall Elem)).flatMap (·.map pushed) = rows.flatten.map g := by
    rw [List.flatMap_map, List.map_flatten, List.flatMap_def]
    congr 1
    apply List.map_congr_left
    intro row _
    simp [Function.comp_def, pushed]
  obtain ⟨r, -, h2⟩ := c83_pipelines hI hl hc h (flattenReading_fits hj hk g hg hroom) ⟨[], [rows], trivial, ⟨hj, trivial⟩, e2⟩ (flattenReading_plain _ _ _ _ _) hs
  change JagStep c (p.store c q) _ r (p'.store c q) at h2
  generalize p'.store c q = S' at h2
  cases h2 with
  | @vecKernel _ _ _ _ _ js r V hjs h3 =>
    cases (hinv.reads hjs).symm.trans (hinv.reads (ins := [j]) (ls := [rows]) ⟨hj, trivial⟩)
    obtain ⟨l', g1, g2⟩ := pushes_appended (ls := []) h3 (fun ls' h => by cases ls' with | nil => rfl | cons _ _ => exact h.elim) hk (by
      beta_reduce
      rw [e1]
      intro pr hpr x hx
      obtain ⟨row, -, rfl⟩ := List.mem_map.1 hpr
      obtain ⟨e, -, rfl⟩ := List.mem_map.1 hx
      exact ⟨_, rfl⟩)
    beta_reduce at g2
    rw [e1, hvals] at g2
    exact ⟨l', g1, g2⟩

/-- Both kernels can be run, one after the other: the second reads what the first has appended. -/
theorem bin_then_flatten (hI : I = posixWeak ∨ I = cudaWeak ∨ I = syclWeak ∨ I = syclBuiltinWeak) (hl : FamLawful R G ups u0) (hc : c.Wf)
    (h : JRReach I c R ups u0 p q) {i k v : Nat} {xs : List Elem} (hi : ∃ cap r, (p.store c q).vec.Has i cap r xs) {caps : List Nat}
    (hk : (p.store c q).Has k caps true true (caps.map fun _ => []))
    (bin : Elem → Nat) (hb : ∀ e ∈ xs, bin e < caps.length) (g : Elem → Elem) (hg : ∀ e ∈ xs, (g e).length = (c.ty k).size)
    (hroom : ∀ (j cap : Nat), caps[j]? = some cap → (xs.filter fun e => bin e = j).length ≤ cap) {cap : Nat} {l : List Elem} (hv : (p.store c q).vec.Has v cap true l)
    (hsize : (c.ty k).size = (c.vec.ty v).size) (hcap : l.length + caps.sum ≤ cap) :
    ∃ out p1, JRStep I c ups p (.rows [i] [] k (binReading bin g xs.length)) out p1 ∧ ∃ rows, (p1.store c q).Has k caps true true rows ∧
      ∃ out' p2, JRStep I c ups p1 (.append [] [k] v (flattenReading (fun e => e) rows)) out' p2 := by
  have hf := binReading_fits (c := c) (R := R) (outside := p.Outside c) hi hk bin hb g hg hroom
  have hr : (JROp.rows [i] [] k (binReading bin g xs.length)).Reads (p.store c q) := ⟨[xs], [], ⟨hi, trivial⟩, trivial, (binReading_calls bin g xs).2⟩
  obtain ⟨out, p1, hs⟩ := c83_goes_on hI hl hc h hf hr (binReading_plain _ _ _ _ _ _)
  obtain ⟨r, -, h2⟩ := c83_pipelines hI hl hc h hf hr (binReading_plain _ _ _ _ _ _) hs
  have h1 := h.step hf hr (binReading_plain _ _ _ _ _ _) hs
  change JRReach I c R ups u0 p1 q at h1
  change JagStep c (p.store c q) _ r (p1.store c q) at h2
  have hinv := jag_inv hl hc (c79_reach hI hl hc (c83_reach hI hl hc h1))
  refine ⟨out, p1, hs, ?_⟩
  generalize hS : p1.store c q = S' at h2
  cases h2 with
  | @kernel _ _ _ _ _ ls js caps' rows _ _ hk' order results rows' _ _ _ =>
    unfold JStore.Has at hk hk'
    rw [hk] at hk'
    simp only [Option.some.injEq, JBuf.mk.injEq] at hk'
    obtain ⟨rfl, -, -⟩ := hk'
    have hk1 : (p1.store c q).Has k caps true true rows' := by rw [hS]; simp [JStore.Has, JStore.put]
    have hv1 : (p1.store c q).vec.Has v cap true l := by rw [hS]; exact hv
    obtain ⟨b, -, -, -, b4, -, -, b7, b8⟩ := hinv.has hk1
    have hlen : rows'.flatten.length ≤ caps.sum := by
      rw [← b7, ← b4, List.length_flatten, List.map_map]
      have : ∀ ws : List View, (∀ w ∈ ws, w ∈ b.views) → (ws.map (List.length ∘ fun w => w.elems p1.vec.mem (c.ty k).size)).sum ≤ (ws.map (·.capacity)).sum := by
        intro ws
        induction ws with
        | nil => exact fun _ => Nat.le_refl _
        | cons w ws ih =>
          intro hw
          have h1 := ih fun x hx => hw x (List.mem_cons_of_mem _ hx)
          have h2 := (b8.inner w (hw w List.mem_cons_self)).len
          rw [List.map_cons, List.map_cons, List.sum_cons, List.sum_cons, Function.comp_apply, elems_length]
          omega
      exact this _ fun _ h => h
    refine ⟨rows', by rw [← hS]; exact hk1, c83_goes_on hI hl hc h1 (flattenReading_fits ⟨caps, true, hk1⟩ hv1 (fun e => e) (fun row hrow e he => ?_) (by omega))
      ⟨[], [rows'], trivial, ⟨⟨caps, true, hk1⟩, trivial⟩, (flattenReading_calls _ _).2⟩ (flattenReading_plain _ _ _ _ _)⟩
    rw [← b7] at hrow
    obtain ⟨w, -, rfl⟩ := List.mem_map.1 hrow
    rw [← hsize]
    exact elems_sized _ _ _ e he

end

/-! ## Instances -/

set_option maxRecDepth 20000 in
/-- A program reaches a state in which both kinds of kernels can be run, one after the other: the second reads what the first has appended; so the hypotheses of the theorems are met. -/
example : ∃ (p : JPipe _) (q : JReady), JRReach cudaWeak demoJagCfg 64 (fun _ => demoBase) demoInit p q ∧
    (p.store demoJagCfg q).vec.HasAll [0] [[[1], [2], [3], [5]]] ∧ (p.store demoJagCfg q).Has 0 [3, 4] true true [[], []] ∧ (p.store demoJagCfg q).vec.Has 1 7 true [] ∧
    ∃ out p1, JRStep cudaWeak demoJagCfg (fun _ => demoBase) p (.rows [0] [] 0 (binReading (fun e => (e.getD 0 0).toNat % 2) (fun e => [2 * e.getD 0 0]) 4)) out p1 ∧
      ∃ rows, (p1.store demoJagCfg q).Has 0 [3, 4] true true rows ∧
        ∃ out' p2, JRStep cudaWeak demoJagCfg (fun _ => demoBase) p1 (.append [] [0] 1 (flattenReading (fun e => e) rows)) out' p2 := by
  have hI : (cudaWeak : WImpl 32) = posixWeak ∨ (cudaWeak : WImpl 32) = cudaWeak ∨ (cudaWeak : WImpl 32) = syclWeak ∨ (cudaWeak : WImpl 32) = syclBuiltinWeak := .inr (.inl rfl)
  have h0 := JRReach.init (I := cudaWeak) (c := demoJagCfg) (R := 64) (ups := fun _ => demoBase) (u0 := demoInit) (fun _ => 7)
  have h1 := h0.step (op := .plain (.vec (.create 0 4 false))) ⟨rfl, by decide, ⟨by decide, by decide, 4, rfl⟩⟩ trivial trivial (.plain (.other id))
  have h2 := h1.step (op := .plain (.vec (.upload 100 [[1], [2], [3], [5]] 0)))
    ⟨by decide, fun _ => ⟨by decide, by decide⟩, by unfold JPipe.Outside Pipe.Outside; decide +kernel, by decide, 4, false, [[7], [7], [7], [7]], by rfl⟩ trivial trivial (.plain (.other id))
  have h3 := h2.step (op := .plain (.create 0 [3, 4] true)) ⟨rfl, by decide, ⟨by decide, by decide, 4, rfl⟩, ⟨by decide, by decide, 4, rfl⟩⟩ trivial trivial (.plain (.other id))
  have h4 := h3.step (op := .plain (.setup 0)) ⟨_, rfl⟩ trivial trivial (.plain (.other id))
  have h5 := h4.step (op := .plain (.vec (.create 1 7 true))) ⟨rfl, by decide, ⟨by decide, by decide, 4, rfl⟩⟩ trivial trivial (.plain (.other id))
  have h6 := h5.step (op := .plain (.vec (.setup 1))) ⟨_, rfl⟩ trivial trivial (.plain (.other id))
  refine ⟨_, _, h6, ⟨⟨4, false, by rfl⟩, trivial⟩, by rfl, by rfl, ?_⟩
  refine bin_then_flatten (xs := [[1], [2], [3], [5]]) hI (FamLawful.same (demo_lawful 64)) demoJagCfg_wf h6 ⟨4, false, by rfl⟩ (caps := [3, 4]) (by rfl) _ (fun e he => ?_) _ (fun e he => ?_)
    (fun j cap hj => ?_) (cap := 7) (l := []) (by rfl) rfl (by decide)
  · exact Nat.mod_lt _ (by decide)
  · rfl
  · match j, hj with
    | 0, hj => cases hj; decide
    | 1, hj => cases hj; decide

end Vecmem.Props
