import Verif.Lemmas.WeakRows
import Verif.Props.C62_JaggedPipelines
import Verif.Props.C78_WeakSeveral

/-!
# C79: programs with jagged buffers, whose kernels run on weak memory

Vocabulary: `Verif/Spec/WeakRows.lean`, and that of C62, C77 and C78.
-/

namespace Vecmem.Props

open Vecmem

section

variable {I : WImpl 32} {m : AMem 32} {V : Nat → WVec} {words : Elem → List (BitVec 32)} {dflt : Elem} {progs : List (List (Nat × ACall Elem))} {s : WRun 32} {rows : List (DV Elem)}

/-- C79: let threads append to rows on a memory in which they may read old values, and let there be room for all.  No assertion fails; and when all have ended, there is one schedule of the
same threads on a memory without old values, with which they end, in which all rows are left with the same sizes and elements, and in which all calls return the
same indices. -/
theorem c79_sequential (hI : I = posixWeak ∨ I = cudaWeak ∨ I = syclWeak ∨ I = syclBuiltinWeak) (hV : ∀ k, (V k).Valid 32) (ha : Apart V)
    (hs : ∀ (k : Nat) (s0 : DV Elem), rows[k]? = some s0 → (V k).Shows words (fun a x => x = m a) s0 ∧ s0.dflt = dflt)
    (hp : ∀ p ∈ progs, ∀ c ∈ p, c.1 < rows.length ∧ c.2.Valid true [])
    (room : ∀ (k : Nat) (s0 : DV Elem), rows[k]? = some s0 → s0.sizeWord + totalCount (onRow progs k) ≤ s0.cap)
    (h : WRun.Reach I m (fun i => (MTask.calls (fun _ => words) (fun _ => dflt) (progs[i]?.getD [])).code V) s) :
    (∀ i, s.prog i ≠ .failed) ∧
    ((∀ i, s.prog i = .done) → ∃ sched, ((RowConc.start rows progs).run sched).failed = false ∧
      (∀ t ∈ ((RowConc.start rows progs).run sched).threads, t.todo = [] ∧ t.phase = .idle) ∧
      ((RowConc.start rows progs).run sched).rows.length = rows.length ∧ ((RowConc.start rows progs).run sched).threads.length = progs.length ∧
      (∀ (k : Nat) (s' : DV Elem), ((RowConc.start rows progs).run sched).rows[k]? = some s' → (V k).Shows words (s.sys.trace.Final m) s') ∧
      ∀ (i : Nat) (t : RowThread), ((RowConc.start rows progs).run sched).threads[i]? = some t →
        progs[i]? = some (t.done.map fun x => (x.1, x.2.1)) ∧
        ∀ k, k < rows.length → Returned (V k).size ((t.done.filter fun x => decide (x.1 = k)).map (·.2)) (WTrace.claims (V k).size (s.sys.trace.of i))) := by
  have hmem : ∀ (i : Nat) (c : Nat × ACall Elem), c ∈ progs[i]?.getD [] → ∃ p ∈ progs, c ∈ p := by
    intro i c hc
    cases hpi : progs[i]? with
    | none => rw [hpi] at hc; cases hc
    | some p =>
      rw [hpi, Option.getD_some] at hc
      exact ⟨p, List.mem_of_getElem? hpi, hc⟩
  have hrow : ∀ k, k < rows.length → ∃ s0, rows[k]? = some s0 := fun k hk => ⟨rows[k], List.getElem?_eq_getElem hk⟩
  have hlt : ∀ (i : Nat) (c : Nat × ACall Elem), c ∈ progs[i]?.getD [] → c.1 < rows.length := by
    intro i c hc
    obtain ⟨p, h1, h2⟩ := hmem i c hc
    exact (hp p h1 c h2).1
  have hval : ∀ (i : Nat) (c : Nat × ACall Elem), c ∈ progs[i]?.getD [] → c.2.Valid true [] ∧ c.2.count < 2 ^ 32 := by
    intro i c hc
    obtain ⟨p, hmem, hc⟩ := hmem i c hc
    obtain ⟨k, c⟩ := c
    obtain ⟨hk, hcv⟩ := hp p hmem _ hc
    refine ⟨hcv, ?_⟩
    obtain ⟨s0, hs0⟩ := hrow k hk
    have hc' : c ∈ callsOn k p := List.mem_map.2 ⟨(k, c), List.mem_filter.2 ⟨hc, by simp⟩, rfl⟩
    have h1 : c.count ≤ ((callsOn k p).map ACall.count).sum := le_sum_mem (List.mem_map_of_mem hc')
    have h2 : ((callsOn k p).map ACall.count).sum ≤ totalCount (onRow progs k) :=
      le_sum_mem (List.mem_map_of_mem (f := fun p => (p.map ACall.count).sum) (List.mem_map_of_mem (f := callsOn k) hmem))
    have := room k s0 hs0
    have := (hV k).cap
    have := (hs k s0 hs0).1.cap
    simp only
    omega
  have hV' := usedOnly_valid (n := rows.length) (m := m) hV
  have ha' := usedOnly_apart (n := rows.length) (m := m) ha
  have hcode : (fun i => (MTask.calls (fun _ => words) (fun _ => dflt) (progs[i]?.getD [])).code V) =
      fun i => (MTask.calls (fun _ => words) (fun _ => dflt) (progs[i]?.getD [])).code (usedOnly rows.length m V) :=
    funext fun i => (usedOnly_code fun c hc => hlt i c hc).symm
  have h' := h
  rw [hcode] at h'
  have fits : ∀ k, (m (usedOnly rows.length m V k).size).toNat + s.sys.trace.claimed (usedOnly rows.length m V k).size ≤ (usedOnly rows.length m V k).cap := by
    intro k
    have hcl := several_claimed hV' ha' h' k
    by_cases hk : k < rows.length
    · obtain ⟨s0, hs0⟩ := hrow k hk
      have hk' : usedOnly rows.length m V k = V k := if_pos hk
      rw [hk'] at hcl ⊢
      obtain ⟨y, rfl, hy⟩ := (hs k s0 hs0).1.size
      have := room k s0 hs0
      change _ + totalCount (progs.map (callsOn k)) ≤ _ at this
      rw [hy, (hs k s0 hs0).1.cap]
      omega
    · have h0 : totalCount (progs.map (callsOn k)) = 0 := by
        unfold totalCount
        rw [List.sum_eq_zero_iff_forall_eq_nat]
        intro x hx
        simp only [List.map_map, List.mem_map, Function.comp_apply] at hx
        obtain ⟨p, hpm, rfl⟩ := hx
        rw [callsOn_nil hk fun c hc => (hp p hpm c hc).1]
        rfl
      have hcap : (usedOnly rows.length m V k).cap = (m (V k).size).toNat := by simp [usedOnly, hk]
      rw [(usedOnly_size rows.length m V k).1] at hcl ⊢
      rw [hcap]
      omega
  have hpol : ∀ i, (MTask.calls (fun _ => words) (fun _ => dflt) (progs[i]?.getD [])).Polite (usedOnly rows.length m V) :=
    fun i => calls_polite_several _ _ _ (hval i)
  have hcomp := c78_complete (tasks := fun i => MTask.calls (fun _ => words) (fun _ => dflt) (progs[i]?.getD [])) hI h' hV' ha' hpol fits
  refine ⟨fun i => (hcomp i).1, fun ended => ?_⟩
  have hleft : ∀ i, List.Forall₂ (fun c e => ∃ v, CallLeft (usedOnly rows.length m V c.1) m (s.sys.trace.Final m) words dflt c.2 v e) (progs[i]?.getD [])
      ((s.sys.trace.filter (anySize (usedOnly rows.length m V) rows.length)).filter fun e => decide (e.thread = i)) := by
    intro i
    have := rows_left hV' ha' (hlt i) ((hcomp i).2 (ended i))
    rw [WTrace.of, List.filter_comm] at this
    exact this
  obtain ⟨o, h1, h2⟩ := merge (R := fun (c : Nat × ACall Elem) v e => CallLeft (usedOnly rows.length m V c.1) m (s.sys.trace.Final m) words dflt c.2 v e)
    (·.thread) (s.sys.trace.filter (anySize (usedOnly rows.length m V) rows.length)) (fun i => progs[i]?.getD []) hleft
  have hov : ∀ x ∈ o, x.2.1.1 < rows.length ∧ x.2.1.2.Valid true [] := by
    intro x hx
    have : x.2.1 ∈ progs[x.1]?.getD [] := by
      rw [← h2 x.1]
      exact List.mem_map_of_mem (f := fun x : Nat × (Nat × ACall Elem) × Nat => x.2.1) (List.mem_filter.2 ⟨hx, by simp⟩)
    exact ⟨hlt _ _ this, (hval _ _ this).1⟩
  obtain ⟨O, hO⟩ : ∃ O : List (Nat × Nat × ACall Elem × Nat), O = o.map fun x => (x.1, x.2.1.1, x.2.1.2, x.2.2) := ⟨_, rfl⟩
  -- the claims of a row
  have hclaims : ∀ k, k < rows.length → List.Forall₂ (fun (x : Claim Elem) e => x.1 = e.thread ∧ CallLeft (V k) m (s.sys.trace.Final m) words dflt x.2.1 x.2.2 e)
      (claimsOn O k) (WTrace.claims (V k).size s.sys.trace) := by
    intro k hk
    have hk' : usedOnly rows.length m V k = V k := if_pos hk
    have := forall₂_filter (p := fun x => decide (x.2.1.1 = k)) (q := fun e => decide (e.addr = (usedOnly rows.length m V k).size)) h1 (fun x e hx => by
      have he : e.addr = (usedOnly rows.length m V x.2.1.1).size := hx.2.1.1
      by_cases hxk : x.2.1.1 = k
      · subst hxk; simp [he]
      · have : ¬ e.addr = (usedOnly rows.length m V k).size := fun hc => hxk (apart_size ha' (he.symm.trans hc))
        simp [hxk, this])
    rw [claims_any hk, hk'] at this
    rw [hO]
    unfold claimsOn
    rw [List.filter_map, List.map_map]
    refine List.forall₂_map_left_iff.2 (List.forall₂_iff_get.2 ?_)
    obtain ⟨g1, g2⟩ := List.forall₂_iff_get.1 this
    refine ⟨g1, fun j hj1 hj2 => ?_⟩
    obtain ⟨g3, g4⟩ := g2 j hj1 hj2
    have hmem := List.get_mem (o.filter fun x : Nat × (Nat × ACall Elem) × Nat => decide (x.2.1.1 = k)) ⟨j, hj1⟩
    have hk2 := of_decide_eq_true (List.mem_filter.1 hmem).2
    refine ⟨g3, ?_⟩
    rw [hk2, hk'] at g4
    exact g4
  have happ : ∀ k, k < rows.length → ∃ prog', Appending { V k with dbg := false } m (fun i => (MTask.calls (fun _ => words) (fun _ => dflt) (progs[i]?.getD [])).proj (usedOnly rows.length m V) k) s.sys.trace prog' := by
    intro k hk
    obtain ⟨prog', h5, -⟩ := several_appending (tasks := fun i => MTask.calls (fun _ => words) (fun _ => dflt) (progs[i]?.getD [])) hI h' hV' ha' hpol (fits k)
    have hk' : quiet (usedOnly rows.length m V) k = { V k with dbg := false } := by
      unfold quiet
      rw [show usedOnly rows.length m V k = V k from if_pos hk]
    rw [← hk']
    exact ⟨prog', h5⟩
  have hfacts : ∀ (k : Nat) (s0 : DV Elem), rows[k]? = some s0 → Chain s0.sizeWord (claimsOn O k) ∧ s0.sizeWord + claimed (claimsOn O k) ≤ s0.cap := by
    intro k s0 hs0
    have hk := (List.getElem?_eq_some_iff.1 hs0).1
    obtain ⟨prog', h5⟩ := happ k hk
    obtain ⟨g1, g2⟩ := hs k s0 hs0
    have h6 := hclaims k hk
    rw [← g2] at h6
    obtain ⟨h7, h8, -⟩ := h5.order g1 h6
    exact ⟨h7, h8⟩
  have hOfil : ∀ i, (O.filter fun x => decide (x.1 = i)).map (fun x => (x.2.1, x.2.2.1)) = progs[i]?.getD [] := by
    intro i
    rw [← h2 i, hO, List.filter_map, List.map_map]
    rfl
  obtain ⟨sched, hg⟩ := RowConc.exists_ordered (rows0 := rows) (progs := progs)
    (fun s0 hs0 => by
      obtain ⟨k, hk⟩ := List.getElem?_of_mem hs0
      obtain ⟨g1, -⟩ := hs k s0 hk
      exact ⟨g1.resizable, by rw [← g1.cap]; exact (hV k).cap⟩)
    O hfacts
    (fun x hx => by
      rw [hO] at hx
      obtain ⟨y, hy, rfl⟩ := List.mem_map.1 hx
      exact hov y hy)
    (fun i => ⟨[], by rw [List.append_nil]; exact (hOfil i).symm⟩)
  generalize hgeq : (RowConc.start rows progs).run sched = g at hg
  refine ⟨sched, ?_⟩
  rw [hgeq]
  have hth : ∀ (i : Nat) (t : RowThread), g.threads[i]? = some t → t.todo = [] ∧ t.phase = .idle ∧ progs[i]? = some (t.done.map fun x => (x.1, x.2.1)) := by
    intro i t hi
    obtain ⟨h5, h6, h7⟩ := hg.threads i t hi
    have := hOfil i
    rw [h7, Option.getD_some, h6, List.map_map] at this
    have htodo := List.self_eq_append_right.1 this
    exact ⟨htodo, h5, by rw [h7, htodo, List.append_nil]⟩
  refine ⟨hg.ok, ?_, hg.rlen, hg.tlen, ?_, ?_⟩
  · intro t ht
    obtain ⟨i, hi⟩ := List.getElem?_of_mem ht
    exact ⟨(hth i t hi).1, (hth i t hi).2.1⟩
  · intro k s' hs'
    have hk : k < rows.length := by rw [← hg.rlen]; exact (List.getElem?_eq_some_iff.1 hs').1
    obtain ⟨s0, hs0⟩ := hrow k hk
    obtain ⟨prog', h5⟩ := happ k hk
    obtain ⟨g1, g2⟩ := hs k s0 hs0
    have h6 := hclaims k hk
    rw [← g2] at h6
    refine h5.shows g1 h6 (fun x hx => ?_) (hg.rows k s0 s' hs0 hs')
    unfold claimsOn at hx
    obtain ⟨y, hy, rfl⟩ := List.mem_map.1 hx
    rw [hO] at hy
    obtain ⟨z, hz, rfl⟩ := List.mem_map.1 (List.mem_of_mem_filter hy)
    exact (hov z hz).2
  · intro i t hi
    refine ⟨(hth i t hi).2.2, fun k hk => ?_⟩
    rw [(hg.threads i t hi).2.1]
    have h3 := forall₂_filter (p := fun x : Claim Elem => decide (x.1 = i)) (q := fun e => decide (e.thread = i)) (hclaims k hk) (fun x e hx => by rw [hx.1])
    have h4 : ((O.filter fun x => decide (x.1 = i)).map (·.2)).filter (fun x => decide (x.1 = k)) = ((claimsOn O k).filter fun x => decide (x.1 = i)).map fun x => (k, x.2) := by
      unfold claimsOn
      rw [List.filter_map, List.filter_map, List.map_map, List.filter_filter, List.filter_filter]
      have : ∀ l : List (Nat × Nat × ACall Elem × Nat), (∀ x ∈ l, x.2.1 = k) → l.map (·.2) = l.map fun x => (k, x.2.2) := by
        intro l hl
        exact List.map_congr_left fun x hx => Prod.ext (hl x hx) rfl
      rw [this _ fun x hx => ?_]
      · congr 1
        congr 1
        funext x
        exact Bool.and_comm _ _
      · have := (List.mem_filter.1 hx).2
        simp only [Function.comp_apply, Bool.and_eq_true, decide_eq_true_eq] at this
        exact this.1
    rw [h4, List.map_map]
    rw [WTrace.of]
    unfold Returned WTrace.claims
    rw [List.filter_comm]
    exact List.forall₂_map_left_iff.2 (h3.imp fun x e hx => hx.2.1)

theorem rows_all {t : Nat} {vs : List View} {dbg : Bool} {mem : Mem} (hd : dflt.length = t) (hp : ∀ q ∈ progs, ∀ x ∈ q, x.2.Sized t) {sched : List Nat}
    (g1 : ((RowConc.start (vs.map fun v => v.device dbg dflt t mem) progs).run sched).failed = false)
    (g3 : ((RowConc.start (vs.map fun v => v.device dbg dflt t mem) progs).run sched).rows.length = (vs.map fun v => v.device dbg dflt t mem).length) :
    ∀ (k : Nat) (s' : DV Elem), ((RowConc.start (vs.map fun v => v.device dbg dflt t mem) progs).run sched).rows[k]? = some s' → s'.All (fun e => e.length = t) := by
  intro k s' hs'
  obtain ⟨-, -, p3⟩ := RowConc.proj_run sched (g := RowConc.start (vs.map fun v => v.device dbg dflt t mem) progs) g1
  have hkl : k < (vs.map fun v => v.device dbg dflt t mem).length := by rw [← g3]; exact (List.getElem?_eq_some_iff.1 hs').1
  obtain ⟨s'', sched', q1, q2⟩ := p3 k _ (List.getElem?_eq_getElem hkl)
  rw [hs'] at q1
  cases q1
  have q3 : (((RowConc.start (vs.map fun v => v.device dbg dflt t mem) progs).proj k ((vs.map fun v => v.device dbg dflt t mem)[k]'hkl)).run sched').vec = s' := by
    rw [← q2]
    rfl
  rw [← q3, RowConc.start_proj]
  refine Conc.all_run _ ?_ (Conc.all_start ?_)
  · change DV.All _ ((vs.map fun v => v.device dbg dflt t mem)[k]'hkl)
    rw [List.getElem_map]; exact device_all _ hd _ _
  · intro q hq c hc
    obtain ⟨q', hq', rfl⟩ := List.mem_map.1 hq
    obtain ⟨x, hx, rfl⟩ := List.mem_map.1 hc
    have := hp q' hq' x (List.mem_filter.1 hx).1
    obtain ⟨r, cl⟩ := x
    cases cl <;> first | trivial | (rename_i a; cases a <;> exact this)

/-- C79: a kernel on weak memory leaves memory as a kernel on the rows does that is scheduled on a memory without stale values, and returns the same. -/
theorem c79_kernel (hI : I = posixWeak ∨ I = cudaWeak ∨ I = syclWeak ∨ I = syclBuiltinWeak) {t : Nat} {vs : List View} {dbg : Bool} {mem mem' : Mem}
    {rets : List (List (Nat × ACall Elem × Nat))} (hv : ∀ v ∈ vs, v.Valid mem t ∧ v.sizePtr ≠ 0) (hsep : vs.Pairwise (View.Separate t)) (hd : dflt.length = t)
    (hp : ∀ q ∈ progs, ∀ x ∈ q, x.1 < vs.length ∧ x.2.Valid true [] ∧ x.2.Sized t)
    (room : ∀ (k : Nat) (v : View), vs[k]? = some v → v.len mem + totalCount (onRow progs k) ≤ v.capacity)
    (h : RowsKernel I dbg dflt t vs progs mem mem' rets) :
    ∃ sched, (RowConc.kernel (vs.map fun v => v.device dbg dflt t mem) progs sched).failed = false ∧
      (RowConc.kernel (vs.map fun v => v.device dbg dflt t mem) progs sched).threads.map RowThread.done = rets ∧
      storeRows t mem vs (RowConc.kernel (vs.map fun v => v.device dbg dflt t mem) progs sched).rows = mem' := by
  obtain ⟨V, m, s, hV, hap, h1, h2, h3, h4, h5, h6, h7⟩ := h
  have hget : ∀ (k : Nat) (s0 : DV Elem), (vs.map fun v => v.device dbg dflt t mem)[k]? = some s0 → ∃ v, vs[k]? = some v ∧ s0 = v.device dbg dflt t mem := by
    intro k s0 hs0
    rw [List.getElem?_map] at hs0
    obtain ⟨v, g1, rfl⟩ := Option.map_eq_some_iff.1 hs0
    exact ⟨v, g1, rfl⟩
  have hlen : ∀ v ∈ vs, v.len mem = (v.device dbg dflt t mem).sizeWord := fun v hvm => by simp [View.len, View.device, (hv v hvm).2]
  obtain ⟨-, h8⟩ := c79_sequential (rows := vs.map fun v => v.device dbg dflt t mem) hI (fun k => (hV k).1) hap
    (fun k s0 hs0 => by
      obtain ⟨v, g1, rfl⟩ := hget k s0 hs0
      exact ⟨(h1 k v g1).shows (hV k).2 (hv v (List.mem_of_getElem? g1)).2, rfl⟩)
    (fun q hq x hx => ⟨by rw [List.length_map]; exact (hp q hq x hx).1, (hp q hq x hx).2.1⟩)
    (fun k s0 hs0 => by
      obtain ⟨v, g1, rfl⟩ := hget k s0 hs0
      rw [← hlen v (List.mem_of_getElem? g1)]
      exact room k v g1) h2
  obtain ⟨sched, g1, g2, g3, g4, g5, g6⟩ := h8 h3
  refine ⟨sched, ?_⟩
  have hk : RowConc.kernel (vs.map fun v => v.device dbg dflt t mem) progs sched = (RowConc.start (vs.map fun v => v.device dbg dflt t mem) progs).run sched := by
    unfold RowConc.kernel
    have : ∀ g : RowConc, ∀ a b, g.run (a ++ b) = (g.run a).run b := fun g a b => List.foldl_append
    rw [this, RowConc.run_finished g2]
  rw [hk]
  have hall := rows_all hd (fun q hq x hx => (hp q hq x hx).2.2) g1 g3
  have hfw := h2.sys.values.writes
  generalize (RowConc.start (vs.map fun v => v.device dbg dflt t mem) progs).run sched = g at g1 g2 g3 g4 g5 g6 hall
  rw [List.length_map] at g3
  refine ⟨g1, ?_, ?_⟩
  · have hl : rets.length = progs.length := by rw [← h6, List.length_map]
    apply List.ext_getElem?
    intro i
    by_cases hi : i < progs.length
    · rw [List.getElem?_map, List.getElem?_eq_getElem (by omega), List.getElem?_eq_getElem (by omega), Option.map_some]
      congr 1
      obtain ⟨e1, e2⟩ := g6 i _ (List.getElem?_eq_getElem (by omega))
      have e3 : (rets.map (·.map fun x => (x.1, x.2.1)))[i]? = some (rets[i].map fun x => (x.1, x.2.1)) := by
        rw [List.getElem?_map, List.getElem?_eq_getElem (by omega)]
        rfl
      rw [h6] at e3
      have e4 := e1.symm.trans e3
      refine results_unique (n := vs.length) (Option.some.inj e4) (fun x hx => ?_) fun k hk => ?_
      · have := List.mem_map_of_mem (f := fun x : Nat × ACall Elem × Nat => (x.1, x.2.1)) hx
        exact (hp _ (List.mem_of_getElem? e1) _ this).1
      · have e5 := h7 i k hk
        rw [List.getElem?_eq_getElem (by omega), Option.getD_some] at e5
        refine returned_unique ?_ (e2 k (by rw [List.length_map]; exact hk)) e5
        have e6 := congrArg (fun l : List (Nat × ACall Elem) => (l.filter fun x => decide (x.1 = k)).map (·.2)) (Option.some.inj e4)
        simp only [List.filter_map, List.map_map] at e6 ⊢
        exact e6
    · rw [List.getElem?_eq_none (by simp; omega), List.getElem?_eq_none (by omega)]
  · funext x
    by_cases hx : ∃ v ∈ vs, v.Has t x
    · obtain ⟨v, hvm, hx⟩ := hx
      obtain ⟨k, hk⟩ := List.getElem?_of_mem hvm
      have hkl := (List.getElem?_eq_some_iff.1 hk).1
      obtain ⟨s', hs'⟩ : ∃ s', g.rows[k]? = some s' := ⟨_, List.getElem?_eq_getElem (by omega)⟩
      rw [storeRows_at hsep hk hs' hx]
      have hsh := g5 k s' hs'
      have hin0 := h1 k v hk
      have hin := h4 k v hk
      rcases hx with hx | hx
      · unfold View.storeDevice
        rw [if_pos (c := v.ptr ≤ x ∧ _) hx]
        obtain ⟨hx1, hx2⟩ := hx
        have ht : 0 < t := by
          rcases Nat.eq_zero_or_pos t with rfl | ht
          · rw [Nat.mul_zero] at hx2; omega
          · exact ht
        have hq : (x - v.ptr) / t < v.capacity := by
          rw [Nat.div_lt_iff_lt_mul ht]; omega
        have hu : (x - v.ptr) % t < t := Nat.mod_lt _ ht
        have hcap : s'.cap = v.capacity := hsh.cap.symm.trans hin0.cap
        obtain ⟨e, e1, e2⟩ := hsh.elems _ (by rw [hcap]; exact hq)
        have e3 := (hall k s' hs').3 _ _ e1
        have e4 := e2 ((x - v.ptr) % t) (BitVec.ofNat 32 (e.getD ((x - v.ptr) % t) 0).toNat) (by
          simp only [byteWords, List.getElem?_map]
          rw [List.getElem?_eq_getElem (by omega), List.getD_eq_getElem?_getD, List.getElem?_eq_getElem (by omega)]
          rfl)
        have e5 := c76_final_unique hfw e4 (hin.bytes _ _ hq hu)
        rw [e1, Option.getD_some]
        have hx' : v.ptr + (x - v.ptr) / t * t + (x - v.ptr) % t = x := by
          have := Nat.div_add_mod (x - v.ptr) t
          rw [Nat.mul_comm] at this
          omega
        rw [hx'] at e5
        exact byte_inj e5
      · unfold View.storeDevice
        rw [if_neg (c := v.ptr ≤ x ∧ _) (fun hp => (hv v hvm).1.apart x ⟨hp, hx⟩), if_neg (hv v hvm).2]
        obtain ⟨y, e1, e2⟩ := hsh.size
        obtain ⟨y', e3, e4⟩ := hin.size
        have := c76_final_unique hfw e1 e3
        subst this
        rw [← e2, e4]
        exact writeLE_readLE hx.2.1 hx.2.2
    · have hx' : ∀ v ∈ vs, ¬ v.Has t x := fun v hv hx1 => hx ⟨v, hv, hx1⟩
      rw [storeRows_other hx, h5 x hx']

/-- The variables that the rows are in. -/
def rowVars (dbg : Bool) (vs : List View) : Nat → WVec := fun k => ⟨Nat.pair k 0, fun u i => Nat.pair k (Nat.pair u i + 1), (vs[k]?.map (·.capacity)).getD 0, dbg⟩

/-- The values of the variables that the rows are in. -/
def rowVals (t : Nat) (vs : List View) (mem : Mem) : AMem 32 := fun a =>
  match vs[(Nat.unpair a).1]? with
  | none => 0
  | some v => if (Nat.unpair a).2 = 0 then BitVec.ofNat 32 (readLE mem v.sizePtr 4) else
    BitVec.ofNat 32 (mem (v.ptr + (Nat.unpair ((Nat.unpair a).2 - 1)).2 * t + (Nat.unpair ((Nat.unpair a).2 - 1)).1)).toNat

theorem rowVars_apart (dbg : Bool) (vs : List View) : Apart (rowVars dbg vs) := by
  intro j k hjk a h1 h2
  apply hjk
  rcases h1 with rfl | ⟨v, i, rfl⟩ <;> rcases h2 with h2 | ⟨v', i', h2⟩ <;> (dsimp only [rowVars] at h2; exact (Nat.pair_eq_pair.1 h2).1)

theorem rowVars_valid (dbg : Bool) {vs : List View} (h : ∀ v ∈ vs, v.capacity < 2 ^ 32) (k : Nat) : (rowVars dbg vs k).Valid 32 := by
  refine ⟨fun v i v' i' (h : Nat.pair k (Nat.pair v i + 1) = Nat.pair k (Nat.pair v' i' + 1)) => Nat.pair_eq_pair.1 (Nat.succ.inj (Nat.pair_eq_pair.1 h).2),
    fun v i (h : Nat.pair k (Nat.pair v i + 1) = Nat.pair k 0) => Nat.succ_ne_zero _ (Nat.pair_eq_pair.1 h).2, ?_⟩
  change (vs[k]?.map (·.capacity)).getD 0 < 2 ^ 32
  cases hk : vs[k]? with
  | none => simp
  | some v => exact h v (List.mem_of_getElem? hk)

theorem rowVars_in (dbg : Bool) {vs : List View} {t : Nat} {mem : Mem} {k : Nat} {v : View} (hk : vs[k]? = some v) :
    v.InVars t (rowVars dbg vs k) (fun a x => x = rowVals t vs mem a) mem := by
  refine ⟨by simp [rowVars, hk], ⟨_, rfl, ?_⟩, fun i u hi hu => ?_⟩
  · simp only [rowVals, rowVars, Nat.unpair_pair, hk, if_true, BitVec.toNat_ofNat]
    exact Nat.mod_eq_of_lt (by simpa using readLE_lt mem v.sizePtr 4)
  · simp [rowVals, rowVars, hk]

/-- The memory that rows are stored in, as variables. -/
theorem rows_stored {t : Nat} {vs : List View} {mem : Mem} (hv : ∀ v ∈ vs, v.Valid mem t ∧ v.sizePtr ≠ 0) (hsep : vs.Pairwise (View.Separate t)) {W : Nat → WVec}
    {val : Nat → BitVec 32 → Prop} {ss : List (DV Elem)} (hl : ss.length = vs.length) (hcap : ∀ (k : Nat) (v : View), vs[k]? = some v → (W k).cap = v.capacity)
    (hall : ∀ (k : Nat) (s' : DV Elem), ss[k]? = some s' → s'.All (fun e => e.length = t)) (hsh : ∀ (k : Nat) (s' : DV Elem), ss[k]? = some s' → (W k).Shows byteWords val s')
    (k : Nat) (v : View) (hk : vs[k]? = some v) : v.InVars t (W k) val (storeRows t mem vs ss) := by
  have hvm := List.mem_of_getElem? hk
  have hz := (hv v hvm).2
  have hkl := (List.getElem?_eq_some_iff.1 hk).1
  obtain ⟨s', hs'⟩ : ∃ s', ss[k]? = some s' := ⟨_, List.getElem?_eq_getElem (by omega)⟩
  have hsh := hsh k s' hs'
  have hcap := hcap k v hk
  refine ⟨hcap, ?_, ?_⟩
  · obtain ⟨y, e1, e2⟩ := hsh.size
    refine ⟨y, e1, e2.trans ?_⟩
    have := storeDevice_len (m := mem) (hv v hvm).1.toPlaced (s := s') (fun _ => by rw [← e2]; exact y.isLt)
    rw [if_neg hz] at this
    rw [← this]
    simp only [View.len, hz, if_false]
    refine readLE_congr fun x hx1 hx2 => ?_
    exact (storeRows_at hsep hk hs' (.inr ⟨hz, hx1, hx2⟩)).symm
  · intro i u hi hu
    obtain ⟨e, e1, e2⟩ := hsh.elems i (by rw [← hsh.cap, hcap]; exact hi)
    have e3 := (hall k s' hs').3 _ _ e1
    refine e2 u _ ?_
    have hb := payload_bound hi hu
    simp only [byteWords, List.getElem?_map]
    rw [storeRows_at hsep hk hs' (.inl ⟨by omega, by omega⟩)]
    unfold View.storeDevice
    rw [if_pos ⟨by omega, by omega⟩, show v.ptr + i * t + u - v.ptr = i * t + u by omega, Nat.mul_comm i t, Nat.mul_add_div (by omega),
      Nat.mul_add_mod, Nat.mod_eq_of_lt hu, Nat.div_eq_of_lt hu, Nat.add_zero, e1, Option.getD_some, List.getD_eq_getElem?_getD,
      List.getElem?_eq_getElem (by omega)]
    rfl

/-- C79: such kernels can be run: there is an execution of it on weak memory from every memory, and it leaves a memory. -/
theorem c79_runs (hI : I = posixWeak ∨ I = cudaWeak ∨ I = syclWeak ∨ I = syclBuiltinWeak) {t : Nat} {vs : List View} {dbg : Bool} {mem : Mem}
    (hv : ∀ v ∈ vs, v.Valid mem t ∧ v.sizePtr ≠ 0) (hsep : vs.Pairwise (View.Separate t)) (hd : dflt.length = t)
    (hp : ∀ q ∈ progs, ∀ x ∈ q, x.1 < vs.length ∧ x.2.Valid true [] ∧ x.2.Sized t)
    (room : ∀ (k : Nat) (v : View), vs[k]? = some v → v.len mem + totalCount (onRow progs k) ≤ v.capacity) :
    ∃ mem' rets, RowsKernel I dbg dflt t vs progs mem mem' rets := by
  have hget : ∀ (k : Nat) (s0 : DV Elem), (vs.map fun v => v.device dbg dflt t mem)[k]? = some s0 → ∃ v, vs[k]? = some v ∧ s0 = v.device dbg dflt t mem := by
    intro k s0 hs0
    rw [List.getElem?_map] at hs0
    obtain ⟨v, g1, rfl⟩ := Option.map_eq_some_iff.1 hs0
    exact ⟨v, g1, rfl⟩
  have hlen : ∀ v ∈ vs, v.len mem = (v.device dbg dflt t mem).sizeWord := fun v hvm => by simp [View.len, View.device, (hv v hvm).2]
  have hvalid := rowVars_valid dbg (vs := vs) fun v hvm => (hv v hvm).1.word32
  have hap := rowVars_apart dbg vs
  obtain ⟨s, h1, h2⟩ := c78_ends (n := progs.length) (tasks := fun i => MTask.calls (fun _ => byteWords) (fun _ => dflt) (progs[i]?.getD [])) (V := rowVars dbg vs)
    (m := rowVals t vs mem) hI .start (fun i => several_calls_allowed _ _ _) (fun i hi => by rw [List.getElem?_eq_none hi]; rfl)
  have hr := WRun.Reach.steps (.start) h1
  obtain ⟨h3, h8⟩ := c79_sequential (rows := vs.map fun v => v.device dbg dflt t mem) hI hvalid hap
    (fun k s0 hs0 => by
      obtain ⟨v, g1, rfl⟩ := hget k s0 hs0
      exact ⟨(rowVars_in dbg g1).shows rfl (hv v (List.mem_of_getElem? g1)).2, rfl⟩)
    (fun q hq x hx => ⟨by rw [List.length_map]; exact (hp q hq x hx).1, (hp q hq x hx).2.1⟩)
    (fun k s0 hs0 => by
      obtain ⟨v, g1, rfl⟩ := hget k s0 hs0
      rw [← hlen v (List.mem_of_getElem? g1)]
      exact room k v g1) hr
  have hdone : ∀ i, s.prog i = .done := fun i => (h2 i).resolve_right (h3 i)
  obtain ⟨sched, g1, g2, g3, g4, g5, g6⟩ := h8 hdone
  have hall := rows_all hd (fun q hq x hx => (hp q hq x hx).2.2) g1 g3
  generalize (RowConc.start (vs.map fun v => v.device dbg dflt t mem) progs).run sched = g at g1 g2 g3 g4 g5 g6 hall
  rw [List.length_map] at g3
  refine ⟨storeRows t mem vs g.rows, g.threads.map RowThread.done, rowVars dbg vs, rowVals t vs mem, s, fun k => ⟨hvalid k, rfl⟩, hap, fun k v hk => rowVars_in dbg hk, hr, hdone,
    fun k v hk => ?_, fun x hx => storeRows_other fun ⟨v, hv, h⟩ => hx v hv h, ?_, ?_⟩
  · exact rows_stored hv hsep g3 (fun k v hk => (rowVars_in (t := t) (mem := mem) dbg hk).cap) hall g5 k v hk
  · apply List.ext_getElem?
    intro i
    rw [List.getElem?_map, List.getElem?_map]
    by_cases hi : i < progs.length
    · rw [List.getElem?_eq_getElem (by omega : i < g.threads.length)]
      exact (g6 i _ (List.getElem?_eq_getElem (by omega))).1.symm
    · rw [List.getElem?_eq_none (by omega), List.getElem?_eq_none (by omega)]; rfl
  · intro i k hk
    rw [List.getElem?_map]
    cases hg : g.threads[i]? with
    | some th => exact (g6 i th hg).2 k (by rw [List.length_map]; exact hk)
    | none =>
      have hi : progs.length ≤ i := by rw [← g4]; exact List.getElem?_eq_none_iff.1 hg
      have hnone : s.sys.trace.own i = [] := by
        have := hr.after i
        rw [List.getElem?_eq_none hi, Option.getD_none] at this
        cases htr : s.sys.trace.own i with
        | nil => rfl
        | cons x l => rw [htr] at this; cases this
      have hof : s.sys.trace.of i = [] := by
        rw [WTrace.of, List.filter_eq_nil_iff]
        intro e he hth
        obtain ⟨q, hq⟩ := List.getElem?_of_mem he
        have : (e, q) ∈ s.sys.trace.own i := mem_own.2 ⟨hq, by simpa using hth⟩
        rw [hnone] at this
        cases this
      rw [hof]
      exact .nil

end

section

variable {σ : Type} {I : WImpl 32} {R : Limits} {G : Nat} {ups : Nat → MR σ} {u0 : σ} {c : JagCfg} {p : JPipe σ} {q : JReady}

/-- The same step, with another schedule. -/
inductive Rescheduled : JagOp → JagOp → Prop
  | same (op) : Rescheduled op op
  | vec (ins k f sched sched') : Rescheduled (.vec (.kernel ins k f sched)) (.vec (.kernel ins k f sched'))
  | kernel (ins jins k f sched sched') : Rescheduled (.kernel ins jins k f sched) (.kernel ins jins k f sched')
  | vecKernel (ins jins k f sched sched') : Rescheduled (.vecKernel ins jins k f sched) (.vecKernel ins jins k f sched')

theorem Rescheduled.fits {op op' : JagOp} (h : Rescheduled op op') {outside : Nat → Nat → Prop} {S : JStore} (hf : op.Fits c R outside S) : op'.Fits c R outside S := by
  cases h <;> exact hf

theorem Rescheduled.ready {op op' : JagOp} (h : Rescheduled op op') (q : JReady) : op'.ready q = op.ready q := by
  cases h <;> rfl

theorem Rescheduled.step {op op' : JagOp} (h : Rescheduled op op') {S S' : JStore} {r : Res JagOut} (hs : JagStep c S op' r S') : JagStep c S op r S' := by
  cases h with
  | same => exact hs
  | vec ins k f sched sched' =>
    cases hs with
    | vec _ hv =>
      refine .vec _ ?_
      cases hv with
      | kernel _ _ _ _ a1 a2 order results l' a3 a4 a5 => exact .kernel ins k f sched a1 a2 order results l' a3 a4 a5
  | kernel ins jins k f sched sched' =>
    cases hs with
    | kernel _ _ _ _ _ hi hj hk order results rows' ho hp hr => exact .kernel ins jins k f sched hi hj hk order results rows' ho hp hr
  | vecKernel ins jins k f sched sched' =>
    cases hs with
    | vecKernel _ _ _ _ _ hj hv =>
      refine .vecKernel _ _ _ _ _ hj ?_
      cases hv with
      | kernel _ _ _ _ a1 a2 order results l' a3 a4 a5 => exact .kernel _ _ _ _ a1 a2 order results l' a3 a4 a5

/-- What is known of a jagged buffer to whose rows a kernel appends. -/
theorem rows_ready (h : JInv c R ups u0 p q) {k : Nat} {caps : List Nat} {rows : List (List Elem)} (f3 : (p.store c q).Has k caps true true rows)
    {progs : List (List (Nat × ACall Elem))} (hpl : ∀ q ∈ progs, ∀ x ∈ q, x.2.Valid true [])
    (f4 : ∀ p ∈ progs, ∀ x ∈ p, ∃ l, rows[x.1]? = some l ∧ x.2.Valid true l ∧ x.2.Sized (c.ty k).size)
    (f5 : ∀ (i : Nat) (l : List Elem) (cap : Nat), rows[i]? = some l → caps[i]? = some cap → l.length + totalCount (onRow progs i) ≤ cap) :
    ∃ b, p.jags.lookup k = some b ∧ p.devices c k b = b.views.map (fun v => v.device c.vec.dbg (c.dflt k) (c.ty k).size p.vec.mem) ∧
      (b.deviceRows p.vec.mem).length = b.views.length ∧
      (∀ (i : Nat) (v w : View), (b.deviceRows p.vec.mem)[i]? = some v → b.views[i]? = some w → v.Alike w) ∧
      (∀ v ∈ b.views, v.Valid p.vec.mem (c.ty k).size ∧ v.sizePtr ≠ 0) ∧ b.views.Pairwise (View.Separate (c.ty k).size) ∧
      (∀ q ∈ progs, ∀ x ∈ q, x.1 < b.views.length ∧ x.2.Valid true [] ∧ x.2.Sized (c.ty k).size) ∧
      ∀ (i : Nat) (v : View), b.views[i]? = some v → v.len p.vec.mem + totalCount (onRow progs i) ≤ v.capacity := by
  obtain ⟨b, b1, b2, b3, b4, b5, b6, b7, b8⟩ := h.has f3
  have hok : JagOk (c.ty k) (c.hasHost k) b := h.bufs _ b2
  have hz : ∀ v ∈ b.views, v.sizePtr ≠ 0 := by
    rcases jag_any hok with ⟨ha, -⟩ | ⟨-, hall⟩
    · rw [ha] at b5; cases b5
    · exact hall
  have hlr : rows.length = b.views.length := by rw [← b7, List.length_map]
  have ha := deviceRows_alike (h.described b2 b6)
  refine ⟨b, b1, devices_views h b2 b6, ha.1, ha.2, fun v hv => ⟨b8.inner v hv, hz v hv⟩, hok.placed.separate, ?_, ?_⟩
  · intro pr hpr x hx
    obtain ⟨l, y1, -, y3⟩ := f4 pr hpr x hx
    exact ⟨by rw [← hlr]; exact (List.getElem?_eq_some_iff.1 y1).1, hpl pr hpr x hx, y3⟩
  · intro i v hv
    have g1 : rows[i]? = some (v.elems p.vec.mem (c.ty k).size) := by rw [← b7, List.getElem?_map, hv]; rfl
    have := f5 i _ v.capacity g1 (by rw [← b4, List.getElem?_map, hv]; rfl)
    rwa [elems_length] at this

/-- A step with a kernel on weak memory is a step with a kernel that is scheduled somehow. -/
theorem c79_step_inv (hI : I = posixWeak ∨ I = cudaWeak ∨ I = syclWeak ∨ I = syclBuiltinWeak) (hc : c.Wf) (h : JInv c R ups u0 p q) {op : JagOp}
    (hf : op.Fits c R (p.Outside c) (p.store c q)) (hop : op.Plain) {r : Res JagOut} {p' : JPipe σ} (hs : WJagStep I c ups p op r p') :
    ∃ op', Rescheduled op op' ∧ p.exec c ups op' = (r, p') := by
  cases hs with
  | other _ => exact ⟨op, .same _, rfl⟩
  | @vec op r v hk hv =>
    rcases weak_step hI hc.1 h.vec hf hop hv with h1 | ⟨ins, k, f, sched, sched', rfl, h1⟩
    · exact ⟨_, .same _, by simp only [JPipe.exec, h1, JPipe.lift]⟩
    · exact ⟨_, .vec ins k f sched sched', by simp only [JPipe.exec, h1, JPipe.lift]⟩
  | @vecKernel ins jins k f sched js r v hj hv =>
    obtain ⟨js', hj', hf⟩ := hf
    have := h.reads hj'
    rw [hj] at this
    cases this
    rcases weak_step hI hc.1 h.vec hf (fun ls => hop ls js) hv with h1 | ⟨ins', k', f', sched', sched'', h0, h1⟩
    · exact ⟨_, .same _, by simp only [JPipe.exec, hj, h1, JPipe.lift]⟩
    · cases h0
      exact ⟨_, .vecKernel ins jins k f sched sched'', by simp only [JPipe.exec, hj, h1, JPipe.lift]⟩
  | @kernel ins jins k f sched b ls js mem' rets hb hi hj hk =>
    obtain ⟨-, ls', js', caps, rows, f1, f2, f3, f4, f5⟩ := hf
    have hls := h.vec.reads f1
    rw [hi] at hls
    cases hls
    have hjs := h.reads f2
    rw [hj] at hjs
    cases hjs
    obtain ⟨b', b1, b2, b3, b4, b5, b6, b7, b8⟩ := rows_ready h f3 (hop ls js) f4 f5
    rw [hb] at b1
    cases b1
    obtain ⟨sched', g1, g2, g3⟩ := c79_kernel hI b5 b6 (hc.2 k).2 b7 b8 (hk.alike b3 b4)
    refine ⟨_, .kernel ins jins k f sched sched', ?_⟩
    simp only [JPipe.exec, hb, hi, hj, b2]
    rw [if_neg (by simp [g1]), g2]
    unfold JPipe.leave
    rw [storeRows_alike _ b3 b4, g3]

/-- Every state that is reached with kernels on weak memory is reached with kernels that are scheduled somehow: all of C62 holds in it. -/
theorem c79_reach (hI : I = posixWeak ∨ I = cudaWeak ∨ I = syclWeak ∨ I = syclBuiltinWeak) (hl : FamLawful R G ups u0) (hc : c.Wf)
    (h : WJagReach I c R ups u0 p q) : JagReach c R ups u0 p q := by
  induction h with
  | init m => exact .init m
  | @step p q op r p' h hf hp hs ih =>
    obtain ⟨op', h1, h2⟩ := c79_step_inv hI hc (jag_inv hl hc ih) hf hp hs
    have := ih.step (h1.fits hf)
    rwa [h2, h1.ready] at this

/-- C79: in a program with vector buffers, jagged buffers and copies (C62) whose kernels run on weak memory, every step does to the elements in memory, and returns, what it may do and return
according to `JagStep`, which speaks about lists of elements and lists of rows only.  In particular, there is one order in which all calls on all rows may have been made. -/
theorem c79_pipelines (hI : I = posixWeak ∨ I = cudaWeak ∨ I = syclWeak ∨ I = syclBuiltinWeak) (hl : FamLawful R G ups u0) (hc : c.Wf)
    (h : WJagReach I c R ups u0 p q) {op : JagOp} (hf : op.Fits c R (p.Outside c) (p.store c q)) (hop : op.Plain) {r : Res JagOut} {p' : JPipe σ}
    (hs : WJagStep I c ups p op r p') : JagStep c (p.store c q) op r (p'.store c (op.ready q)) := by
  have h' := c79_reach hI hl hc h
  obtain ⟨op', h1, h2⟩ := c79_step_inv hI hc (jag_inv hl hc h') hf hop hs
  have := c62_jagged_pipelines_partial hl hc h' op' (h1.fits hf)
  rw [h2, h1.ready] at this
  exact h1.step this

/-- Each step that fits can be made. -/
theorem c79_goes_on_inv (hI : I = posixWeak ∨ I = cudaWeak ∨ I = syclWeak ∨ I = syclBuiltinWeak) (hc : c.Wf)
    (hinv : JInv c R ups u0 p q) {op : JagOp} (hf : op.Fits c R (p.Outside c) (p.store c q)) (hop : op.Plain) : ∃ r p', WJagStep I c ups p op r p' := by
  by_cases hk : op.IsKernel
  · cases op with
    | vec op =>
      obtain ⟨r, v, hv⟩ := weak_goes_on (op := op) hI hc.1 hinv.vec hf hop
      exact ⟨_, _, .vec hk hv⟩
    | vecKernel ins jins k f sched =>
      obtain ⟨js, hj, hf⟩ := hf
      obtain ⟨r, v, hv⟩ := weak_goes_on hI hc.1 hinv.vec hf (fun ls => hop ls js)
      exact ⟨_, _, .vecKernel (hinv.reads hj) hv⟩
    | kernel ins jins k f sched =>
      obtain ⟨-, ls, js, caps, rows, f1, f2, f3, f4, f5⟩ := hf
      obtain ⟨b, b1, b2, b3, b4, b5, b6, b7, b8⟩ := rows_ready hinv f3 (hop ls js) f4 f5
      obtain ⟨mem', rets, hw⟩ := c79_runs (dbg := c.vec.dbg) hI b5 b6 (hc.2 k).2 b7 b8
      exact ⟨_, _, .kernel b1 (hinv.vec.reads f1) (hinv.reads f2) (hw.alike b3.symm fun i v w h1 h2 => (b4 i w v h2 h1).symm)⟩
    | _ => exact hk.elim
  · exact ⟨_, _, .other hk⟩

/-- C79: kernels on weak memory are no less able to run than others: in every state of a program, each step that fits can be made. -/
theorem c79_goes_on (hI : I = posixWeak ∨ I = cudaWeak ∨ I = syclWeak ∨ I = syclBuiltinWeak) (hl : FamLawful R G ups u0) (hc : c.Wf)
    (h : WJagReach I c R ups u0 p q) {op : JagOp} (hf : op.Fits c R (p.Outside c) (p.store c q)) (hop : op.Plain) : ∃ r p', WJagStep I c ups p op r p' :=
  c79_goes_on_inv hI hc (jag_inv hl hc (c79_reach hI hl hc h)) hf hop

theorem binKernel_plain (ins jins : List Nat) (k : Nat) (bin : Elem → Nat) (g : Elem → Elem) (sched : List Nat) : (JagOp.kernel ins jins k (binKernel bin g) sched).Plain := by
  intro ls js pr hpr x hx
  obtain ⟨e, -, rfl⟩ := List.mem_map.1 hpr
  obtain rfl := List.mem_singleton.1 hx
  rfl

/-- C79, end to end: in any state of any program, a kernel with a thread for each element of a vector buffer appends, on weak memory, a value for each element to the row of a resizable
jagged buffer (with empty rows, whose capacities are large enough) to which the element belongs.  The host vectors that this buffer is then copied to hold, row by
row, exactly the values of the elements that belong to the row, in some order. -/
theorem c79_parallel_binning (hI : I = posixWeak ∨ I = cudaWeak ∨ I = syclWeak ∨ I = syclBuiltinWeak) (hl : FamLawful R G ups u0) (hc : c.Wf)
    (h : WJagReach I c R ups u0 p q) (i k : Nat) (xs : List Elem) (hi : ∃ cap r, (p.store c q).vec.Has i cap r xs) (caps : List Nat)
    (hk : (p.store c q).Has k caps true true (caps.map fun _ => []))
    (bin : Elem → Nat) (hb : ∀ e ∈ xs, bin e < caps.length) (g : Elem → Elem) (hg : ∀ e ∈ xs, (g e).length = (c.ty k).size)
    (hroom : ∀ (j cap : Nat), caps[j]? = some cap → (xs.filter fun e => bin e = j).length ≤ cap) (ats : List Nat)
    (hout : HostArrays (p.Outside c) (c.ty k).size ats ((List.range caps.length).map fun j => (xs.filter fun e => bin e = j).map g))
    {sched : List Nat} {r : Res JagOut} {p' : JPipe σ} (hs : WJagStep I c ups p (.kernel [i] [] k (binKernel bin g) sched) r p') :
    (∃ out, r = .ok out) ∧ ∃ rows, (p'.exec c ups (.download k ats)).1 = .ok (.rows rows) ∧ rows.length = caps.length ∧
      ∀ (j : Nat) (row : List Elem), rows[j]? = some row → row.Perm ((xs.filter fun e => bin e = j).map g) := by
  have h' := c79_reach hI hl hc h
  have hf : (JagOp.kernel [i] [] k (binKernel bin g) sched).Fits c R (p.Outside c) (p.store c q) := by
    refine ⟨by simp, [xs], [], caps, _, ⟨hi, trivial⟩, trivial, hk, fun pr hpr x hx => ?_, fun j l cap g1 g2 => ?_⟩
    · obtain ⟨e, he, rfl⟩ := List.mem_map.1 hpr
      obtain rfl := List.mem_singleton.1 hx
      exact ⟨[], by rw [List.getElem?_map, List.getElem?_eq_getElem (hb e he)]; rfl, rfl, hg e he⟩
    · rw [List.getElem?_map, g2] at g1
      cases g1
      rw [binKernel_count, List.length_nil, Nat.zero_add]
      exact hroom j cap g2
  obtain ⟨op', h1, h2⟩ := c79_step_inv hI hc (jag_inv hl hc h') hf (binKernel_plain _ _ _ _ _ _) hs
  obtain ⟨sched', rfl⟩ : ∃ sched', op' = .kernel [i] [] k (binKernel bin g) sched' := by
    cases h1 with
    | same => exact ⟨_, rfl⟩
    | kernel _ _ _ _ _ sched' => exact ⟨sched', rfl⟩
  have := c62_parallel_binning hl hc h' i k xs hi caps hk bin hb g hg hroom sched' ats hout
  rw [h2] at this
  exact this

end

/-! ## Instances -/

set_option maxRecDepth 20000 in
/-- A program reaches the state before a kernel, which can then run on weak memory; so the hypotheses of `c79_pipelines` and `c79_parallel_binning` are met. -/
example : ∃ (p : JPipe _) (q : JReady) (r : Res JagOut) (p' : JPipe _),
    WJagReach cudaWeak demoJagCfg 64 (fun _ => demoBase) demoInit p q ∧
    (p.store demoJagCfg q).vec.HasAll [0] [[[1], [2], [3], [5]]] ∧ (p.store demoJagCfg q).Has 0 [3, 4] true true [[], []] ∧
    WJagStep cudaWeak demoJagCfg (fun _ => demoBase) p (.kernel [0] [] 0 (binKernel (fun e => (e.getD 0 0).toNat % 2) fun e => [2 * e.getD 0 0]) []) r p' := by
  have h0 := WJagReach.init (I := cudaWeak) (c := demoJagCfg) (R := 64) (ups := fun _ => demoBase) (u0 := demoInit) (fun _ => 7)
  have h1 := h0.step (op := .vec (.create 0 4 false)) ⟨rfl, by decide, ⟨by decide, by decide, 4, rfl⟩⟩ trivial (.other id)
  have h2 := h1.step (op := .vec (.upload 100 [[1], [2], [3], [5]] 0))
    ⟨by decide, fun _ => ⟨by decide, by decide⟩, by unfold JPipe.Outside Pipe.Outside; decide +kernel, by decide, 4, false, [[7], [7], [7], [7]], by rfl⟩ trivial (.other id)
  have h3 := h2.step (op := .create 0 [3, 4] true) ⟨rfl, by decide, ⟨by decide, by decide, 4, rfl⟩, ⟨by decide, by decide, 4, rfl⟩⟩ trivial (.other id)
  have h4 := h3.step (op := .setup 0) ⟨_, rfl⟩ trivial (.other id)
  have hk := c79_goes_on (op := .kernel [0] [] 0 (binKernel (fun e => (e.getD 0 0).toNat % 2) fun e => [2 * e.getD 0 0]) []) (.inr (.inl rfl))
    (FamLawful.same (demo_lawful 64)) demoJagCfg_wf h4 ⟨by decide, [[[1], [2], [3], [5]]], [], [3, 4], [[], []], ⟨⟨4, false, by rfl⟩, trivial⟩, trivial, by rfl, by
      intro pr hpr x hx
      obtain ⟨e, he, rfl⟩ := List.mem_map.1 hpr
      simp only [List.headD_cons, List.mem_cons, List.not_mem_nil, or_false] at he
      rcases he with rfl | rfl | rfl | rfl <;> simp at hx <;> subst hx
      all_goals exact ⟨[], by decide, rfl, rfl⟩, by
      intro i l cap h1 h2
      match i, h1, h2 with
      | 0, h1, h2 => cases h1; cases h2; decide
      | 1, h1, h2 => cases h1; cases h2; decide⟩ (binKernel_plain _ _ _ _ _ _)
  obtain ⟨r, p', hs⟩ := hk
  exact ⟨_, _, r, p', h4, ⟨⟨4, false, by rfl⟩, trivial⟩, by rfl, hs⟩

end Vecmem.Props
