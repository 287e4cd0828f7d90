import Verif.Lemmas.JagPipeline
import Verif.Props.C59_Pipelines
import Verif.Props.C38_C40_CopyJagged

/-! # Lemmas for C62: the steps -/

namespace Vecmem

open IntMath Prog

variable {σ : Type} {R : Limits} {G : Nat} {ups : Nat → MR σ} {u0 : σ} {c : JagCfg} {p : JPipe σ} {q : JReady}

/-- What is to be shown of a step. -/
def JStepOk (c : JagCfg) (R : Limits) (ups : Nat → MR σ) (u0 : σ) (p : JPipe σ) (q : JReady) (op : JagOp) : Prop :=
  JInv c R ups u0 (p.exec c ups op).2 (op.ready q) ∧
  JagStep c (p.store c q) op (p.exec c ups op).1 ((p.exec c ups op).2.store c (op.ready q))

theorem jstep_vec (hl : FamLawful R G ups u0) (hc : c.Wf) (h : JInv c R ups u0 p q) {op : PipeOp}
    (hf : (JagOp.vec op).Fits c R (p.Outside c) (p.store c q)) : JStepOk c R ups u0 p q (.vec op) := by
  obtain ⟨s1, s2, s3⟩ := Props.pipe_step hl hc.1 h.vec (op := op) hf
  obtain ⟨f1, f2⟩ := h.frame s1 s3
  refine ⟨f1, ?_⟩
  show JagStep c _ _ _ (JPipe.store c { p with vec := (p.vec.exec c.vec ups op).2 } { q with vec := op.ready q.vec })
  rw [f2]
  exact .vec op s2

/-! ## Reading -/

theorem readRows_ok (k : Nat) (m : Mem) : ∀ {vs ws : List View}, vs.length = ws.length →
    (∀ (i : Nat) (v w : View), vs[i]? = some v → ws[i]? = some w → v.Alike w) → (∀ w ∈ ws, w.Valid m (c.ty k).size) →
    readRows c k m vs = .ok (ws.map fun w => w.elems m (c.ty k).size) := by
  intro vs
  induction vs with
  | nil =>
    intro ws hl _ _
    cases ws with
    | nil => rfl
    | cons => cases hl
  | cons v vs ih =>
    intro ws hl ha hv
    cases ws with
    | nil => cases hl
    | cons w ws =>
      unfold readRows
      rw [(ha 0 v w rfl rfl).device, device_iterate (hv w List.mem_cons_self)]
      simp only
      rw [ih (ws := ws) (by simpa using hl) (fun i v w h1 h2 => ha (i + 1) v w (by simpa using h1) (by simpa using h2))
        (fun w hw => hv w (List.mem_cons_of_mem _ hw))]
      rfl

theorem JInv.reads (h : JInv c R ups u0 p q) : ∀ {ins : List Nat} {ls : List (List (List Elem))}, (p.store c q).HasAll ins ls →
    p.reads c ins = .ok ls := by
  intro ins
  induction ins with
  | nil =>
    intro ls hh
    cases ls with
    | nil => rfl
    | cons l ls => exact hh.elim
  | cons i is ih =>
    intro ls hh
    cases ls with
    | nil => exact hh.elim
    | cons l ls =>
      obtain ⟨⟨caps, r, h1⟩, h2⟩ := hh
      obtain ⟨b, b1, b2, b3, b4, b5, b6, b7, b8⟩ := h.has h1
      have hd := deviceRows_alike (h.described b2 b6)
      unfold JPipe.reads
      rw [b1]
      simp only
      rw [readRows_ok i p.vec.mem hd.1 hd.2 b8.inner, ih h2, b7]
      rfl

theorem jstep_vecKernel (hl : FamLawful R G ups u0) (hc : c.Wf) (h : JInv c R ups u0 p q) {ins jins : List Nat} {k : Nat}
    {f : List (List Elem) → List (List (List Elem)) → List (List (ACall Elem))} {sched : List Nat}
    (hf : (JagOp.vecKernel ins jins k f sched).Fits c R (p.Outside c) (p.store c q)) :
    JStepOk c R ups u0 p q (.vecKernel ins jins k f sched) := by
  obtain ⟨js, hj, hf⟩ := hf
  obtain ⟨s1, s2, s3⟩ := Props.pipe_step hl hc.1 h.vec (op := .kernel ins k (fun ls => f ls js) sched) hf
  obtain ⟨f1, f2⟩ := h.frame s1 s3
  unfold JStepOk
  simp only [JPipe.exec, h.reads hj]
  refine ⟨f1, ?_⟩
  show JagStep c _ _ _ (JPipe.store c { p with vec := (p.vec.exec c.vec ups (.kernel ins k (fun ls => f ls js) sched)).2 }
    { q with vec := (PipeOp.kernel ins k (fun ls => f ls js) sched).ready q.vec })
  rw [f2]
  exact .vecKernel ins jins k f sched hj s2

theorem jstep_vecSingle (hl : FamLawful R G ups u0) (hc : c.Wf) (h : JInv c R ups u0 p q) {ins jins : List Nat} {k : Nat}
    {f : List (List Elem) → List (List (List Elem)) → List (DVOp Elem)}
    (hf : (JagOp.vecSingle ins jins k f).Fits c R (p.Outside c) (p.store c q)) :
    JStepOk c R ups u0 p q (.vecSingle ins jins k f) := by
  obtain ⟨js, hj, hf⟩ := hf
  obtain ⟨s1, s2, s3⟩ := Props.pipe_step hl hc.1 h.vec (op := .single ins k (fun ls => f ls js)) hf
  obtain ⟨f1, f2⟩ := h.frame s1 s3
  unfold JStepOk
  simp only [JPipe.exec, h.reads hj]
  refine ⟨f1, ?_⟩
  show JagStep c _ _ _ (JPipe.store c { p with vec := (p.vec.exec c.vec ups (.single ins k (fun ls => f ls js))).2 }
    { q with vec := (PipeOp.single ins k (fun ls => f ls js)).ready q.vec })
  rw [f2]
  exact .vecSingle ins jins k f hj s2

/-! ## Construction and destruction -/

theorem jag_none {k : Nat} (h : (p.store c q).jag k = none) : p.jags.lookup k = none := by
  cases hb : p.jags.lookup k with
  | none => rfl
  | some b => rw [JPipe.jag_some hb] at h; cases h

theorem owned_cons (k : Nat) (b : JagBuffer) (P : Pipe σ) :
    (JPipe.mk P ((k, b) :: p.jags)).owned c = b.blocks (c.source k) (c.hasHost k) ++ p.owned c := rfl

theorem jstep_create (hl : FamLawful R G ups u0) (hc : c.Wf) (h : JInv c R ups u0 p q) {k : Nat} {caps : List Nat} {r : Bool}
    (hf : (JagOp.create k caps r).Fits c R (p.Outside c) (p.store c q)) : JStepOk c R ups u0 p q (.create k caps r) := by
  obtain ⟨h0, hcap, hqo, hq⟩ := hf
  have hnone := jag_none h0
  have hnk := lookup_none hnone
  have hnk' : ∀ e ∈ p.jags, e.1 ≠ k := fun e he hc => hnk (hc ▸ List.mem_map.2 ⟨e, he, rfl⟩)
  have hro : ∀ i, i ≠ k → ((JagOp.create k caps r).ready q).jag i = q.jag i := fun i hi => by
    simp [JagOp.ready, hi]
  have hrk : ((JagOp.create k caps r).ready q).jag k = false := by simp [JagOp.ready]
  unfold JStepOk
  rcases hl.jagCreate (hasHost := c.hasHost k) h.vec.reach (c.source k) (hc.2 k).1 hcap (resizable := r) hqo hq with
    ⟨b, u', e1, e2, e3, e4, e5⟩ | ⟨u', e1, e2, e3⟩
  · simp only [JPipe.exec, e1]
    have hreach : FReach R ups u0 u' (p.vec.owned c.vec ++ (b.blocks (c.source k) (c.hasHost k) ++ p.owned c)) := by
      refine e5.perm ?_
      rw [← List.append_assoc, ← List.append_assoc]
      exact List.perm_append_comm.append_right _
    have hv0 : PipeInv c.vec R ups u0 (b.blocks (c.source k) (c.hasHost k) ++ p.owned c) { p.vec with res := u' } q.vec :=
      ⟨hreach, h.vec.nodup, h.vec.bufs, h.vec.len, h.vec.fixed⟩
    have hnew : ∀ x, ¬ b.InHost x → writeViews p.vec.mem b.hostPtr b.views x = p.vec.mem x := fun x hx => writeViews_other hx
    have hin : ∀ x, b.InHost x → InBlocks (b.blocks (c.source k) (c.hasHost k)) x := fun x hx => e3.host_in _ hx
    have hold : ∀ e ∈ p.jags, ∀ x, InBlocks (e.2.blocks (c.source e.1) (c.hasHost e.1)) x →
        writeViews p.vec.mem b.hostPtr b.views x = p.vec.mem x := by
      intro e he x hx
      refine hnew x fun hc => ?_
      obtain ⟨f, hf, f1, f2⟩ := hin x hc
      obtain ⟨g, hg, g1, g2⟩ := blocks_sub he hx
      have := (List.pairwise_append.1 (List.pairwise_append.1 (hl.live hreach).2).2.1).2.2 f hf g hg
      unfold Blk.Disjoint at this
      omega
    obtain ⟨v1, v2⟩ := hv0.same (m' := writeViews p.vec.mem b.hostPtr b.views) (fun e he x hx => hnew x fun hc =>
      hv0.frame hl he hx (by obtain ⟨f, hf, f1⟩ := hin x hc; exact ⟨f, List.mem_append_left _ hf, f1⟩))
    have hst : (JPipe.mk ⟨u', writeViews p.vec.mem b.hostPtr b.views, p.vec.bufs⟩ ((k, b) :: p.jags)).store c
        ((JagOp.create k caps r).ready q) = (p.store c q).put k (some ⟨caps, b.views.any fun v => v.sizePtr != 0,
          if (b.views.any fun v => v.sizePtr != 0) then none else
            some (b.views.map fun v => v.elems (writeViews p.vec.mem b.hostPtr b.views) (c.ty k).size),
          b.views.isEmpty || !c.hasHost k⟩) := by
      unfold JStore.put
      simp only [JPipe.store, JStore.mk.injEq]
      refine ⟨v2, ?_⟩
      funext i
      by_cases hik : i = k
      · subst hik
        rw [hrk, if_pos rfl]
        rw [List.lookup_cons, beq_self_eq_true]
        cases hany : b.views.any fun v => v.sizePtr != 0 <;> simp only [Option.map_some, e2, hany, Bool.or_false] <;> rfl
      · rw [if_neg hik, hro i hik, List.lookup_cons, beq_eq_false_iff_ne.2 hik]
        simp only
        cases hbi : p.jags.lookup i with
        | none => rfl
        | some b' =>
          have hbm' := mem_of_lookup hbi
          simp only [Option.map_some, Option.some.injEq, JBuf.mk.injEq, true_and, and_true]
          by_cases hkn : b'.Known (q.jag i)
          · rw [if_pos (known_iff.2 hkn), if_pos (known_iff.2 hkn)]
            congr 1
            apply List.map_congr_left
            intro v hv
            exact elems_congr (h.sizes _ hbm' hkn v hv) fun x hx => hold _ hbm' x ((h.bufs _ hbm').rows_in _ ⟨v, hv, hx⟩)
          · rw [if_neg (fun hc => hkn (known_iff.1 hc)), if_neg (fun hc => hkn (known_iff.1 hc))]
    refine ⟨⟨v1, ?_, ?_, ?_, ?_, ?_⟩, ?_⟩
    · rw [List.map_cons, List.nodup_cons]; exact ⟨hnk, h.nodup⟩
    · intro e he
      rcases List.mem_cons.1 he with rfl | he
      · exact e3
      · exact h.bufs e he
    · intro e he hkn v hv
      rcases List.mem_cons.1 he with rfl | he
      · rcases hkn with hkn | hkn
        · rw [hrk] at hkn; cases hkn
        · simp [View.len, hkn v hv]
      · rw [hro _ (hnk' e he)] at hkn
        show v.len (writeViews p.vec.mem b.hostPtr b.views) ≤ _
        rw [len_of_word (m := p.vec.mem) fun x hx => hold e he x ((h.bufs e he).rows_in _ ⟨v, hv, .inr hx⟩)]
        exact h.sizes e he hkn v hv
    · intro e he
      rcases List.mem_cons.1 he with rfl | he
      · exact writeViews_described e3.small
      · exact described_congr (h.host e he) fun y hy => hold e he _ ((h.bufs e he).host_in _ ⟨by omega, by omega⟩)
    · intro e he hre
      rcases List.mem_cons.1 he with rfl | he
      · rw [hrk] at hre; cases hre
      · rw [hro _ (hnk' e he)] at hre
        exact described_congr (h.dev e he hre) fun y hy => hold e he _ ((h.bufs e he).dev_in _ ⟨by omega, by omega⟩)
    · rw [hst]
      have hemp : b.views.isEmpty = caps.isEmpty := by rw [← e2]; cases b.views <;> rfl
      by_cases hz : r = false ∨ caps = []
      · have hall : ∀ v ∈ b.views, v.sizePtr = 0 := by
          rcases hz with hz | hz
          · exact fun v hv => (e4 v hv).2 hz
          · intro v hv
            rw [hz] at e2
            rw [List.map_eq_nil_iff.1 e2] at hv
            cases hv
        have hany : (b.views.any fun v => v.sizePtr != 0) = false := by
          rw [List.any_eq_false]
          intro v hv
          simp [hall v hv]
        rw [hany, hemp]
        refine .createFixed k caps r hz _ ?_ ?_
        · rw [← e2, List.map_map]
          apply List.map_congr_left
          intro v hv
          simp [elems_length, View.len, hall v hv]
        · intro l hl e he
          obtain ⟨v, -, rfl⟩ := List.mem_map.1 hl
          exact elems_sized _ _ _ e he
      · simp only [not_or, Bool.not_eq_false] at hz
        have hne : b.views ≠ [] := fun hc => hz.2 (by rw [← e2, hc]; rfl)
        have hany : (b.views.any fun v => v.sizePtr != 0) = true := by
          obtain ⟨v, hv⟩ := List.exists_mem_of_ne_nil _ hne
          rw [List.any_eq_true]
          refine ⟨v, hv, bne_iff_ne.2 fun hc => ?_⟩
          have := (e4 v hv).1 hc
          rw [hz.1] at this
          cases this
        rw [hany, show b.views.isEmpty = false by simpa using hne, hz.1]
        exact .createResizable k caps hz.2
  · simp only [JPipe.exec, e1, Res.map]
    have hst : (JPipe.mk ⟨u', p.vec.mem, p.vec.bufs⟩ p.jags).store c ((JagOp.create k caps r).ready q) = p.store c q := by
      simp only [JPipe.store, JStore.mk.injEq]
      refine ⟨rfl, ?_⟩
      funext i
      by_cases hik : i = k
      · subst hik; simp [hnone]
      · rw [hro i hik]
    refine ⟨⟨⟨e3, h.vec.nodup, h.vec.bufs, h.vec.len, h.vec.fixed⟩, h.nodup, h.bufs, ?_, h.host, ?_⟩, ?_⟩
    · intro e he hkn
      rw [hro _ (hnk' e he)] at hkn
      exact h.sizes e he hkn
    · intro e he hre
      rw [hro _ (hnk' e he)] at hre
      exact h.dev e he hre
    · rw [hst]
      exact .createFail k caps r e2

theorem jstep_destroy (hl : FamLawful R G ups u0) (h : JInv c R ups u0 p q) {k : Nat}
    (hf : (JagOp.destroy k).Fits c R (p.Outside c) (p.store c q)) : JStepOk c R ups u0 p q (.destroy k) := by
  obtain ⟨v, hv⟩ := hf
  obtain ⟨b, hb⟩ := JPipe.jag_exists hv
  have hm := mem_of_lookup hb
  have hsub : ∀ e ∈ p.jags.filter (fun e => e.1 != k), e ∈ p.jags := fun e he => (List.mem_filter.1 he).1
  have hperm : (p.owned c).Perm (b.blocks (c.source k) (c.hasHost k) ++
      (JPipe.mk p.vec (p.jags.filter fun e => e.1 != k)).owned c) := by
    rw [← owned_cons (p := JPipe.mk p.vec (p.jags.filter fun e => e.1 != k)) k b p.vec]
    exact (perm_filter h.nodup hm).flatMap_right _
  have hr : FReach R ups u0 p.vec.res (b.blocks (c.source k) (c.hasHost k) ++
      (p.vec.owned c.vec ++ (JPipe.mk p.vec (p.jags.filter fun e => e.1 != k)).owned c)) := by
    refine h.vec.reach.perm ((hperm.append_left _).trans ?_)
    rw [← List.append_assoc, ← List.append_assoc]
    exact List.perm_append_comm.append_right _
  obtain ⟨u', d1, d2⟩ := hl.jagDestroy (c.source k) hr
  unfold JStepOk
  simp only [JPipe.exec, hb, d1]
  refine ⟨⟨⟨d2, h.vec.nodup, h.vec.bufs, h.vec.len, h.vec.fixed⟩, h.nodup.sublist (List.filter_sublist.map _),
    fun e he => h.bufs e (hsub e he), fun e he => h.sizes e (hsub e he), fun e he => h.host e (hsub e he),
    fun e he => h.dev e (hsub e he)⟩, ?_⟩
  have : (JPipe.mk ⟨u', p.vec.mem, p.vec.bufs⟩ (p.jags.filter fun e => e.1 != k)).store c q = (p.store c q).put k none := by
    unfold JStore.put
    simp only [JPipe.store, JStore.mk.injEq]
    refine ⟨rfl, ?_⟩
    funext i
    simp only [lookup_filter]
    by_cases hik : i = k <;> simp [hik]
  show JagStep c _ _ _ ((JPipe.mk ⟨u', p.vec.mem, p.vec.bufs⟩ (p.jags.filter fun e => e.1 != k)).store c q)
  rw [this]
  exact .destroy k

/-! ## Changes of rows -/

/-- The rows of one jagged buffer change. -/
theorem JInv.rowsChange (hl : FamLawful R G ups u0) (h : JInv c R ups u0 p q) {k : Nat} {b : JagBuffer}
    (hb : p.jags.lookup k = some b) {m' : Mem} (hm : ∀ x, ¬ JagHas (c.ty k).size b.views x → m' x = p.vec.mem x)
    (hs : b.Known (q.jag k) → ∀ v ∈ b.views, v.len m' ≤ v.capacity) :
    JInv c R ups u0 { p with vec := { p.vec with mem := m' } } q ∧
    JPipe.store c { p with vec := { p.vec with mem := m' } } q =
      (p.store c q).put k (some ⟨b.views.map (·.capacity), b.views.any fun v => v.sizePtr != 0,
        if !(b.views.any fun v => v.sizePtr != 0) || q.jag k then some (b.views.map fun v => v.elems m' (c.ty k).size) else none,
        b.views.isEmpty || !c.hasHost k || q.jag k⟩) := by
  have hbm := mem_of_lookup hb
  have hok : JagOk (c.ty k) (c.hasHost k) b := h.bufs _ hbm
  have hown := h.own hl hbm
  refine h.change hl hb (m' := m') (fun x hx => hm x fun hc => hx (hok.rows_in _ hc)) (jag' := q.jag) (fun _ _ => rfl) hs ?_ ?_
  · exact described_congr (h.host _ hbm) fun y hy => hm _ fun hc => hok.rows_host hown hc ⟨by omega, by omega⟩
  · intro hq
    exact described_congr (h.dev _ hbm hq) fun y hy => hm _ fun hc => hok.rows_dev hown hc ⟨by omega, by omega⟩

theorem jag_any {t : CType} {hasHost : Bool} {b : JagBuffer} (h : JagOk t hasHost b) :
    ((b.views.any fun v => v.sizePtr != 0) = false ∧ ∀ v ∈ b.views, v.sizePtr = 0) ∨
    ((b.views.any fun v => v.sizePtr != 0) = true ∧ ∀ v ∈ b.views, v.sizePtr ≠ 0) := by
  cases hany : b.views.any fun v => v.sizePtr != 0
  · left
    refine ⟨rfl, fun v hv => ?_⟩
    rw [List.any_eq_false] at hany
    simpa using hany v hv
  · right
    refine ⟨rfl, ?_⟩
    rcases h.uniform with hu | hu
    · obtain ⟨v, hv, h1⟩ := List.any_eq_true.1 hany
      simp [hu v hv] at h1
    · exact hu

theorem jstep_setup (hl : FamLawful R G ups u0) (h : JInv c R ups u0 p q) {k : Nat}
    (hf : (JagOp.setup k).Fits c R (p.Outside c) (p.store c q)) : JStepOk c R ups u0 p q (.setup k) := by
  obtain ⟨v, hv⟩ := hf
  obtain ⟨b, hb⟩ := JPipe.jag_exists hv
  have hm := mem_of_lookup hb
  have hok : JagOk (c.ty k) (c.hasHost k) b := h.bufs _ hm
  have hown := h.own hl hm
  have hro : ∀ i, i ≠ k → ((JagOp.setup k).ready q).jag i = q.jag i := fun i hi => by simp [JagOp.ready, hi]
  have hrk : ((JagOp.setup k).ready q).jag k = true := by simp [JagOp.ready]
  obtain ⟨m', e1, e2, e3, e4, e5, e6⟩ := Props.c40_setup_jagged p.vec.mem (c.ty k).size b.view hok.placed hok.space
    (fun v hv x hx => hok.rows_host hown ⟨v, hv, .inr hx⟩) (fun v hv x hx => hok.rows_dev hown ⟨v, hv, .inr hx⟩)
    (hok.host_dev hown)
  have get : ∀ {m m' : Mem} {a a' n : Nat}, bytesAt m' a' n = bytesAt m a n → ∀ y, y < n → m' (a' + y) = m (a + y) := by
    intro m m' a a' n he y hy
    have h1 := congrArg (fun l => l[y]?) he
    simp only [bytesAt_get hy] at h1
    exact Option.some.inj h1
  obtain ⟨i1, i2⟩ := h.change hl hb (m' := m') (fun x hx => e6 x (fun v hv hw => hx (hok.rows_in _ ⟨v, hv, .inr hw⟩))
    (fun hd => hx (hok.dev_in _ hd))) hro (fun _ => e3.sizes)
    (described_congr (h.host _ hm) fun y hy => get e5 y hy)
    (fun _ => described_congr (h.host _ hm) fun y hy => get e4 y hy)
  unfold JStepOk
  simp only [JPipe.exec, hb, Pipe.onMem, JPipe.lift, e1]
  refine ⟨i1, ?_⟩
  show JagStep c _ _ _ (JPipe.store c { p with vec := { p.vec with mem := m' } } { q with jag := ((JagOp.setup k).ready q).jag })
  rw [i2, hrk]
  have hs := JPipe.jag_some (c := c) (q := q) hb
  simp only [Bool.or_true, if_true]
  rcases jag_any hok with ⟨ha, hall⟩ | ⟨ha, hall⟩
  · rw [ha] at hs ⊢
    have he : (b.views.map fun v => v.elems m' (c.ty k).size) = b.views.map fun v => v.elems p.vec.mem (c.ty k).size := by
      apply List.map_congr_left
      intro v hv
      refine elems_congr (by simp [View.len, hall v hv]) fun x hx => e6 x ?_ ?_
      · exact fun w hw hx => hx.1 (hall w hw)
      · exact hok.rows_dev hown ⟨v, hv, hx⟩
    rw [he]
    exact .setupFixed k _ _ _ hs
  · rw [ha] at hs ⊢
    have he : (b.views.map fun v => v.elems m' (c.ty k).size) = (b.views.map (·.capacity)).map fun _ => [] := by
      rw [List.map_map]
      apply List.map_congr_left
      intro v hv
      simp [View.elems, e2 v hv (hall v hv)]
    rw [he]
    exact .setup k _ _ _ hs

theorem jstep_memset (hl : FamLawful R G ups u0) (hc : c.Wf) (h : JInv c R ups u0 p q) {k : Nat} {value : UInt8}
    (hf : (JagOp.memset k value).Fits c R (p.Outside c) (p.store c q)) : JStepOk c R ups u0 p q (.memset k value) := by
  obtain ⟨v, hv, hne⟩ := hf
  obtain ⟨b, hb⟩ := JPipe.jag_exists hv
  have hm := mem_of_lookup hb
  have hok : JagOk (c.ty k) (c.hasHost k) b := h.bufs _ hm
  have hs := JPipe.jag_some (c := c) (q := q) hb
  have hne' : b.views ≠ [] := by
    rintro hc
    rw [hs] at hv
    cases hv
    exact hne (by rw [hc]; rfl)
  obtain ⟨m', e1, e2⟩ := Props.c40_memset_jagged_partial p.vec.mem (c.ty k).size (hc.2 k).1.1 b.view hok.placed.placed hne' value
  have hword : ∀ v ∈ b.views, ∀ x, v.HasWord x → m' x = p.vec.mem x := by
    intro v hv x hx
    refine (e2 x).2 ?_
    rintro ⟨w, hw, hp⟩
    by_cases hvw : v = w
    · exact (hok.placed.placed v hv).apart x ⟨hvw ▸ hp, hx⟩
    · exact pairwise_mem (r := View.Separate (c.ty k).size) (fun a b hab x hx => hab x hx.symm) hok.placed.separate hv hw hvw x
        ⟨.inr hx, .inl hp⟩
  have hlen : ∀ v ∈ b.views, v.len m' = v.len p.vec.mem := fun v hv => len_of_word (hword v hv)
  obtain ⟨i1, i2⟩ := h.rowsChange hl hb (m' := m') (fun x hx => (e2 x).2 fun ⟨v, hv, hp⟩ => hx ⟨v, hv, .inl hp⟩)
    (fun hk v hv => by rw [hlen v hv]; exact h.sizes _ hm hk v hv)
  unfold JStepOk
  simp only [JPipe.exec, hb, Pipe.onMem, JPipe.lift, e1]
  refine ⟨i1, ?_⟩
  show JagStep c _ _ (.ok (.vec .unit)) (JPipe.store c { p with vec := { p.vec with mem := m' } } q)
  rw [i2]
  have := JagStep.memset (c := c) k _ _ _ _ value hs
  convert this using 4
  by_cases hk : b.Known (q.jag k)
  · rw [if_pos (known_iff.2 hk), if_pos (known_iff.2 hk), Option.map_some]
    congr 1
    rw [List.map_map]
    apply List.map_congr_left
    intro v hv
    have hle := h.sizes _ hm hk v hv
    unfold View.elems
    rw [hlen v hv]
    simp only [Function.comp, List.map_map]
    apply List.map_congr_left
    intro i hi
    have hi := List.mem_range.1 hi
    apply List.ext_getElem?
    intro q
    by_cases hq : q < (c.ty k).size
    · rw [bytesAt_get hq]
      have : (i + 1) * (c.ty k).size ≤ v.capacity * (c.ty k).size := Nat.mul_le_mul_right _ (by omega)
      rw [Nat.succ_mul] at this
      rw [(e2 _).1 ⟨v, hv, by omega, by omega⟩]
      simp [hq]
    · rw [List.getElem?_eq_none (by rw [bytesAt_length]; omega), List.getElem?_eq_none (by simp; omega)]
  · rw [if_neg (fun hc => hk (known_iff.1 hc)), if_neg (fun hc => hk (known_iff.1 hc))]
    rfl

end Vecmem
