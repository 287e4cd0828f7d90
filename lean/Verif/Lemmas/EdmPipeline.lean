import Verif.Lemmas.EdmPipelineBuffer

/-! # Lemmas for C65: the invariant -/

namespace Vecmem

open IntMath Props

variable {σ : Type} {R : Limits} {G : Nat} {ups : Nat → MR σ} {u0 : σ} {c : EdmCfg} {p : EPipe σ} {q : EReady}

/-- What holds of the memory of a buffer. -/
structure EGood (m : Mem) (b : EBuffer) (known dev : Bool) : Prop where
  sizes : (!b.resizable || known) = true → EdmSizes m b.buf.view
  host : ∀ j, VarView.jagged j ∈ b.buf.view.vars → DescribedAt m j.hostPtr j.views
  dev : dev = true → ∀ j, VarView.jagged j ∈ b.buf.view.vars → DescribedAt m j.ptr j.views

/-- What holds between the steps of a program. -/
structure EInv (c : EdmCfg) (R : Limits) (G : Nat) (ups : Nat → MR σ) (u0 : σ) (p : EPipe σ) (q : EReady) : Prop where
  reach : FReach R ups u0 p.res (p.owned c)
  nodup : (p.bufs.map (·.1)).Nodup
  bufs : ∀ e ∈ p.bufs, EdmOk σ R G (c.schema e.1) c.align (c.hasHost e.1) e.2
  good : ∀ e ∈ p.bufs, EGood p.mem e.2 (q.known e.1) (q.dev e.1)

/-- The blocks of a buffer. -/
def EBuffer.blocks (src : Bool → Nat) (b : EBuffer) : List (Nat × Blk) := b.buf.owned.map fun x => (src x.1, x.2)

theorem EPipe.owned_eq (p : EPipe σ) : p.owned c = p.bufs.flatMap fun e => e.2.blocks (c.source e.1) := rfl

theorem EBuffer.owns_iff {b : EBuffer} {src : Bool → Nat} {x : Nat} : b.Owns x ↔ InBlocks (b.blocks src) x := by
  unfold EBuffer.Owns InBlocks EBuffer.blocks
  constructor
  · rintro ⟨e, he, h⟩
    exact ⟨_, List.mem_map.2 ⟨e, he, rfl⟩, h⟩
  · rintro ⟨e, he, h⟩
    obtain ⟨f, hf, rfl⟩ := List.mem_map.1 he
    exact ⟨f, hf, h⟩

/-- What holds of the memory of a buffer depends on that memory only. -/
theorem EGood.congr {S : Schema} {A : Nat} {hasHost : Bool} {b : EBuffer} {m m' : Mem} {known dev : Bool} (ho : EdmOk σ R G S A hasHost b)
    (h : EGood m b known dev) (hm : ∀ x, b.Owns x → m' x = m x) : EGood m' b known dev where
  sizes := fun hk x hx v hv => by
    obtain ⟨i, w, hw, hi, -⟩ := ho.var_at hx
    rw [len_of_word (m := m) fun y hy => hm y (ho.data_in (.inl ⟨i, w, x, hw, hi, .inr ⟨v, hv, hy⟩⟩))]
    exact h.sizes hk x hx v hv
  host := fun j hj => described_congr (h.host j hj) fun y hy => hm _ (ho.host_in ⟨j, hj, by omega, by omega⟩)
  dev := fun hd j hj => described_congr (h.dev hd j hj) fun y hy => hm _ (ho.dev_in ⟨j, hj, by omega, by omega⟩)

theorem tableOf_congr {S : Schema} {A : Nat} {hasHost : Bool} {b : EBuffer} {m m' : Mem} (ho : EdmOk σ R G S A hasHost b)
    (hs : EdmSizes m b.buf.view) (hm : ∀ x, EdmHas S b.buf.view x → m' x = m x) :
    tableOf m' S b.buf.view.vars = tableOf m S b.buf.view.vars := by
  unfold tableOf
  apply List.ext_getElem?
  intro i
  simp only [List.getElem?_zipWith]
  cases hv : S[i]? with
  | none => rfl
  | some v =>
    cases hx : b.buf.view.vars[i]? with
    | none => rfl
    | some x =>
      simp only [Option.some.injEq]
      apply List.map_congr_left
      intro w hw
      refine elems_congr (hs x (List.mem_of_getElem? hx) w hw) fun y hy => hm y (.inl ⟨i, v, x, hv, hx, ?_⟩)
      rcases hy with hy | hy
      · exact .inl ⟨w, hw, hy⟩
      · exact .inr ⟨w, hw, hy⟩

theorem tableOf_get {m : Mem} {S : Schema} {xs : List VarView} {i : Nat} {v : Var} {x : VarView} (hv : S[i]? = some v) (hx : xs[i]? = some x) :
    (tableOf m S xs)[i]? = some (x.rows.map fun r => r.elems m v.type.size) := by
  simp [tableOf, List.getElem?_zipWith, hv, hx]

namespace EInv

theorem pairwise (hl : FamLawful R G ups u0) (h : EInv c R G ups u0 p q) :
    (p.owned c).Pairwise (fun e f => e.2.Disjoint f.2) := (hl.live h.reach).2

/-- Different buffers share no memory. -/
theorem cross (hl : FamLawful R G ups u0) (h : EInv c R G ups u0 p q) {e f : Nat × EBuffer} (he : e ∈ p.bufs) (hf : f ∈ p.bufs)
    (hne : e.1 ≠ f.1) {x : Nat} (h1 : e.2.Owns x) : ¬ f.2.Owns x := by
  rw [EBuffer.owns_iff (src := c.source e.1)] at h1
  rw [EBuffer.owns_iff (src := c.source f.1)]
  rintro ⟨b, hb, b1, b2⟩
  obtain ⟨a, ha, a1, a2⟩ := h1
  have := h.pairwise hl
  rw [EPipe.owned_eq, List.pairwise_flatMap] at this
  have := pairwise_mem (r := fun e f : Nat × EBuffer => ∀ x ∈ e.2.blocks (c.source e.1),
    ∀ y ∈ f.2.blocks (c.source f.1), x.2.Disjoint y.2)
    (fun e f h x hx y hy => (h y hy x hx).symm) this.2 he hf (fun hc => hne (by rw [hc])) a ha b hb
  unfold Blk.Disjoint at this
  omega

theorem uniq (h : EInv c R G ups u0 p q) {k : Nat} {b : EBuffer} (hb : p.bufs.lookup k = some b) :
    ∀ e ∈ p.bufs, e.1 = k → e = (k, b) := by
  intro e he hek
  have h1 := perm_filter h.nodup (mem_of_lookup hb)
  rcases List.mem_cons.1 (h1.mem_iff.1 he) with h2 | h2
  · exact h2
  · have := (List.mem_filter.1 h2).2
    simp [hek] at this

end EInv

theorem EPipe.store_some {k : Nat} {b : EBuffer} (h : p.bufs.lookup k = some b) :
    p.store c q k = some ⟨b.caps, b.resizable, if !b.resizable || q.known k then some (tableOf p.mem (c.schema k) b.buf.view.vars) else none,
      !((c.schema k).hasJagged && c.hasHost k) || q.dev k⟩ := by
  simp [EPipe.store, h]

theorem EPipe.store_exists {k : Nat} {v : EBuf} (h : p.store c q k = some v) : ∃ b, p.bufs.lookup k = some b := by
  simp only [EPipe.store] at h
  cases hb : p.bufs.lookup k with
  | none => rw [hb] at h; cases h
  | some b => exact ⟨b, rfl⟩

theorem EPipe.store_none {k : Nat} (h : p.store c q k = none) : p.bufs.lookup k = none := by
  cases hb : p.bufs.lookup k with
  | none => rfl
  | some b => rw [EPipe.store_some hb] at h; cases h

/-- A buffer that exists. -/
theorem EInv.get (h : EInv c R G ups u0 p q) {k : Nat} {caps : List Nat} {r d : Bool} {t : Option Table}
    (hs : p.store c q k = some ⟨caps, r, t, d⟩) :
    ∃ b, p.bufs.lookup k = some b ∧ (k, b) ∈ p.bufs ∧ b.caps = caps ∧ b.resizable = r ∧
      EdmOk σ R G (c.schema k) c.align (c.hasHost k) b ∧ EGood p.mem b (q.known k) (q.dev k) ∧
      t = (if !b.resizable || q.known k then some (tableOf p.mem (c.schema k) b.buf.view.vars) else none) ∧
      d = (!((c.schema k).hasJagged && c.hasHost k) || q.dev k) := by
  obtain ⟨b, hb⟩ := EPipe.store_exists hs
  rw [EPipe.store_some hb] at hs
  have hm := mem_of_lookup hb
  simp only [Option.some.injEq, EBuf.mk.injEq] at hs
  obtain ⟨h1, h2, h3, h4⟩ := hs
  exact ⟨b, hb, hm, h1, h2, h.bufs _ hm, h.good _ hm, h3.symm, h4.symm⟩

/-- A buffer whose elements are known. -/
theorem EInv.has (h : EInv c R G ups u0 p q) {k : Nat} {caps : List Nat} {r d : Bool} {t : Table}
    (hs : (p.store c q).Has k caps r d t) :
    ∃ b, p.bufs.lookup k = some b ∧ (k, b) ∈ p.bufs ∧ b.caps = caps ∧ b.resizable = r ∧
      EdmOk σ R G (c.schema k) c.align (c.hasHost k) b ∧ EGood p.mem b (q.known k) (q.dev k) ∧
      (!b.resizable || q.known k) = true ∧ t = tableOf p.mem (c.schema k) b.buf.view.vars ∧
      d = (!((c.schema k).hasJagged && c.hasHost k) || q.dev k) := by
  obtain ⟨b, h1, h2, h3, h4, h5, h6, h7, h8⟩ := h.get hs
  split at h7
  · exact ⟨b, h1, h2, h3, h4, h5, h6, by assumption, Option.some.inj h7, h8⟩
  · cases h7

/-- Kernels find the views, if the buffer is on the device. -/
theorem EGood.described {S : Schema} {A : Nat} {hasHost : Bool} {b : EBuffer} {m : Mem} {known dev : Bool} (ho : EdmOk σ R G S A hasHost b)
    (h : EGood m b known dev) (hd : (!(S.hasJagged && hasHost) || dev) = true) :
    ∀ j, VarView.jagged j ∈ b.buf.view.vars → DescribedAt m j.ptr j.views := by
  intro j hj
  simp only [Bool.or_eq_true, Bool.not_eq_true', Bool.and_eq_false_iff] at hd
  rcases hd with (hd | hd) | hd
  · exfalso
    obtain ⟨i, v, hv, hx, hf⟩ := ho.var_at hj
    have hk := (ho.row_facts hv hx).1
    have : S.hasJagged = true := by
      unfold Schema.hasJagged
      rw [List.any_eq_true]
      exact ⟨v, List.mem_of_getElem? hv, by rw [← hk]; rfl⟩
    rw [hd] at this
    cases this
  · by_cases hne : j.views = []
    · rw [hne]
      intro i v hi
      simp at hi
    · have := ((ho.jagged_facts hj).2 hne).2
      rw [hd, if_neg (by simp)] at this
      rw [← this]
      exact h.host j hj
  · exact h.dev hd j hj

/-- A change of memory that touches one buffer only. -/
theorem EInv.change (hl : FamLawful R G ups u0) (h : EInv c R G ups u0 p q) {k : Nat} {b : EBuffer} (hb : p.bufs.lookup k = some b)
    {m' : Mem} (hm : ∀ x, ¬ b.Owns x → m' x = p.mem x) {q' : EReady}
    (hk : ∀ i, i ≠ k → q'.known i = q.known i) (hd : ∀ i, i ≠ k → q'.dev i = q.dev i)
    (hg : EGood m' b (q'.known k) (q'.dev k)) :
    EInv c R G ups u0 { p with mem := m' } q' ∧
    EPipe.store c { p with mem := m' } q' = (p.store c q).put k (some ⟨b.caps, b.resizable,
      if !b.resizable || q'.known k then some (tableOf m' (c.schema k) b.buf.view.vars) else none,
      !((c.schema k).hasJagged && c.hasHost k) || q'.dev k⟩) := by
  have hbm := mem_of_lookup hb
  have hother : ∀ e ∈ p.bufs, e.1 ≠ k → ∀ x, e.2.Owns x → m' x = p.mem x :=
    fun e he hne x hx => hm x (h.cross hl he hbm hne hx)
  refine ⟨⟨h.reach, h.nodup, h.bufs, ?_⟩, ?_⟩
  · intro e he
    by_cases hek : e.1 = k
    · have := h.uniq hb e he hek
      subst this
      exact hg
    · rw [hk _ hek, hd _ hek]
      exact (h.good e he).congr (h.bufs e he) (hother e he hek)
  · funext i
    unfold EStore.put
    by_cases hik : i = k
    · subst hik
      simp [EPipe.store, hb]
    · rw [if_neg hik]
      simp only [EPipe.store, hk i hik, hd i hik]
      cases hbi : p.bufs.lookup i with
      | none => rfl
      | some b' =>
        have hbm' := mem_of_lookup hbi
        simp only [Option.map_some, Option.some.injEq, EBuf.mk.injEq, true_and, and_true]
        split
        · rename_i hkn
          rw [tableOf_congr (h.bufs _ hbm') ((h.good _ hbm').sizes hkn) fun x hx => hother _ hbm' hik x ((h.bufs _ hbm').data_in hx)]
        · rfl

/-- A change of memory outside all buffers. -/
theorem EInv.same (h : EInv c R G ups u0 p q) {m' : Mem} (hm : ∀ x, InBlocks (p.owned c) x → m' x = p.mem x) :
    EInv c R G ups u0 { p with mem := m' } q ∧ EPipe.store c { p with mem := m' } q = p.store c q := by
  have hother : ∀ e ∈ p.bufs, ∀ x, e.2.Owns x → m' x = p.mem x := by
    intro e he x hx
    rw [EBuffer.owns_iff (src := c.source e.1)] at hx
    obtain ⟨f, hf, h1⟩ := hx
    exact hm x ⟨f, by rw [EPipe.owned_eq]; exact List.mem_flatMap.2 ⟨e, he, hf⟩, h1⟩
  refine ⟨⟨h.reach, h.nodup, h.bufs, fun e he => (h.good e he).congr (h.bufs e he) (hother e he)⟩, ?_⟩
  funext i
  simp only [EPipe.store]
  cases hbi : p.bufs.lookup i with
  | none => rfl
  | some b' =>
    have hbm' := mem_of_lookup hbi
    simp only [Option.map_some, Option.some.injEq, EBuf.mk.injEq, true_and, and_true]
    split
    · rename_i hkn
      rw [tableOf_congr (h.bufs _ hbm') ((h.good _ hbm').sizes hkn) fun x hx => hother _ hbm' x ((h.bufs _ hbm').data_in hx)]
    · rfl

/-- A change of the data of one buffer. -/
theorem EInv.changeData (hl : FamLawful R G ups u0) (h : EInv c R G ups u0 p q) {k : Nat} {b : EBuffer} (hb : p.bufs.lookup k = some b)
    {m' : Mem} (hm : ∀ x, ¬ EdmHas (c.schema k) b.buf.view x → m' x = p.mem x) {q' : EReady}
    (hk : ∀ i, i ≠ k → q'.known i = q.known i) (hd : q'.dev = q.dev)
    (hs : (!b.resizable || q'.known k) = true → EdmSizes m' b.buf.view) :
    EInv c R G ups u0 { p with mem := m' } q' ∧
    EPipe.store c { p with mem := m' } q' = (p.store c q).put k (some ⟨b.caps, b.resizable,
      if !b.resizable || q'.known k then some (tableOf m' (c.schema k) b.buf.view.vars) else none,
      !((c.schema k).hasJagged && c.hasHost k) || q.dev k⟩) := by
  have hbm := mem_of_lookup hb
  have ho := h.bufs _ hbm
  have hg := h.good _ hbm
  have := h.change hl hb (m' := m') (fun x hx => hm x fun hc => hx (ho.data_in hc)) (q' := q') hk (fun i _ => by rw [hd])
    ⟨hs, fun j hj => described_congr (hg.host j hj) fun y hy => hm _ (ho.host_apart ⟨j, hj, by omega, by omega⟩),
      fun hdv j hj => described_congr (hg.dev (by rw [← hd]; exact hdv) j hj) fun y hy => hm _ (ho.dev_apart ⟨j, hj, by omega, by omega⟩)⟩
  rw [hd] at this
  exact this

end Vecmem
