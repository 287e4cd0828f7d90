import Verif.Lemmas.JagBuffer

/-! # Lemmas for C62: the invariant -/

namespace Vecmem

open IntMath

variable {σ : Type} {R : Limits} {G : Nat} {ups : Nat → MR σ} {u0 : σ} {c : JagCfg} {p : JPipe σ} {q : JReady}

/-- The sizes of the rows are known. -/
def JagBuffer.Known (b : JagBuffer) (ready : Bool) : Prop := ready = true ∨ ∀ v ∈ b.views, v.sizePtr = 0

/-- What holds between the steps of a program. -/
structure JInv (c : JagCfg) (R : Limits) (ups : Nat → MR σ) (u0 : σ) (p : JPipe σ) (q : JReady) : Prop where
  vec : PipeInv c.vec R ups u0 (p.owned c) p.vec q.vec
  nodup : (p.jags.map (·.1)).Nodup
  bufs : ∀ e ∈ p.jags, JagOk (c.ty e.1) (c.hasHost e.1) e.2
  sizes : ∀ e ∈ p.jags, e.2.Known (q.jag e.1) → ∀ v ∈ e.2.views, v.len p.vec.mem ≤ v.capacity
  host : ∀ e ∈ p.jags, DescribedAt p.vec.mem e.2.hostPtr e.2.views
  dev : ∀ e ∈ p.jags, q.jag e.1 = true → DescribedAt p.vec.mem e.2.ptr e.2.views

theorem JPipe.owned_eq (p : JPipe σ) : p.owned c = p.jags.flatMap fun e => e.2.blocks (c.source e.1) (c.hasHost e.1) := rfl

theorem JInv.pairwise (hl : FamLawful R G ups u0) (h : JInv c R ups u0 p q) :
    (p.owned c).Pairwise (fun e f => e.2.Disjoint f.2) := (List.pairwise_append.1 (hl.live h.vec.reach).2).2.1

theorem JInv.own (hl : FamLawful R G ups u0) (h : JInv c R ups u0 p q) {e : Nat × JagBuffer} (he : e ∈ p.jags) :
    (e.2.blocks (c.source e.1) (c.hasHost e.1)).Pairwise (fun e f => e.2.Disjoint f.2) := by
  have := h.pairwise hl
  rw [JPipe.owned_eq, List.pairwise_flatMap] at this
  exact this.1 e he

theorem blocks_sub {e : Nat × JagBuffer} (he : e ∈ p.jags) {x : Nat} (hx : InBlocks (e.2.blocks (c.source e.1) (c.hasHost e.1)) x) :
    InBlocks (p.owned c) x := by
  obtain ⟨f, hf, h1⟩ := hx
  exact ⟨f, by rw [JPipe.owned_eq]; exact List.mem_flatMap.2 ⟨e, he, hf⟩, h1⟩

/-- Different jagged buffers share no memory. -/
theorem JInv.cross (hl : FamLawful R G ups u0) (h : JInv c R ups u0 p q) {e f : Nat × JagBuffer} (he : e ∈ p.jags) (hf : f ∈ p.jags)
    (hne : e.1 ≠ f.1) {x : Nat} (h1 : InBlocks (e.2.blocks (c.source e.1) (c.hasHost e.1)) x) :
    ¬ InBlocks (f.2.blocks (c.source f.1) (c.hasHost f.1)) x := by
  rintro ⟨b, hb, b1, b2⟩
  obtain ⟨a, ha, a1, a2⟩ := h1
  have := h.pairwise hl
  rw [JPipe.owned_eq, List.pairwise_flatMap] at this
  have := pairwise_mem (r := fun e f : Nat × JagBuffer => ∀ x ∈ e.2.blocks (c.source e.1) (c.hasHost e.1),
    ∀ y ∈ f.2.blocks (c.source f.1) (c.hasHost f.1), x.2.Disjoint y.2)
    (fun e f h x hx y hy => (h y hy x hx).symm) this.2 he hf (fun hc => hne (by rw [hc])) a ha b hb
  unfold Blk.Disjoint at this
  omega

theorem JPipe.jag_some {k : Nat} {b : JagBuffer} (h : p.jags.lookup k = some b) :
    (p.store c q).jag k = some ⟨b.views.map (·.capacity), b.views.any fun v => v.sizePtr != 0,
      if !(b.views.any fun v => v.sizePtr != 0) || q.jag k then some (b.views.map fun v => v.elems p.vec.mem (c.ty k).size) else none,
      b.views.isEmpty || !c.hasHost k || q.jag k⟩ := by
  simp [JPipe.store, h]

theorem JPipe.jag_exists {k : Nat} {v : JBuf} (h : (p.store c q).jag k = some v) : ∃ b, p.jags.lookup k = some b := by
  simp only [JPipe.store] at h
  cases hb : p.jags.lookup k with
  | none => rw [hb] at h; cases h
  | some b => exact ⟨b, rfl⟩

theorem known_iff {b : JagBuffer} {ready : Bool} :
    (!(b.views.any fun v => v.sizePtr != 0) || ready) = true ↔ b.Known ready := by
  unfold JagBuffer.Known
  simp only [Bool.or_eq_true, Bool.not_eq_true', List.any_eq_false, bne_iff_ne, ne_eq, Decidable.not_not]
  exact Or.comm

/-- A jagged buffer whose rows are known. -/
theorem JInv.has (h : JInv c R ups u0 p q) {k : Nat} {caps : List Nat} {r d : Bool} {rows : List (List Elem)}
    (hs : (p.store c q).Has k caps r d rows) :
    ∃ b, p.jags.lookup k = some b ∧ (k, b) ∈ p.jags ∧ b.Known (q.jag k) ∧ b.views.map (·.capacity) = caps ∧
      (b.views.any fun v => v.sizePtr != 0) = r ∧ (b.views.isEmpty || !c.hasHost k || q.jag k) = d ∧
      (b.views.map fun v => v.elems p.vec.mem (c.ty k).size) = rows ∧ JagValid p.vec.mem (c.ty k).size b.views := by
  obtain ⟨b, hb⟩ := JPipe.jag_exists hs
  unfold JStore.Has at hs
  rw [JPipe.jag_some hb] at hs
  have hm := mem_of_lookup hb
  simp only [Option.some.injEq, JBuf.mk.injEq] at hs
  obtain ⟨h1, h2, h3, h4⟩ := hs
  by_cases hk : b.Known (q.jag k)
  · rw [if_pos (known_iff.2 hk)] at h3
    exact ⟨b, hb, hm, hk, h1, h2, h4, Option.some.inj h3, ⟨(h.bufs _ hm).placed, h.sizes _ hm hk⟩⟩
  · rw [if_neg (fun hc => hk (known_iff.1 hc))] at h3
    cases h3

/-- Kernels find the views, if the buffer is on the device. -/
theorem JInv.described (h : JInv c R ups u0 p q) {e : Nat × JagBuffer} (he : e ∈ p.jags)
    (hd : (e.2.views.isEmpty || !c.hasHost e.1 || q.jag e.1) = true) : DescribedAt p.vec.mem e.2.ptr e.2.views := by
  simp only [Bool.or_eq_true, Bool.not_eq_true', List.isEmpty_iff] at hd
  rcases hd with (hd | hd) | hd
  · rw [hd]
    intro i v hi
    simp at hi
  · rw [(h.bufs e he).same hd]
    exact h.host e he
  · exact h.dev e he hd

theorem JInv.uniq (h : JInv c R ups u0 p q) {k : Nat} {b : JagBuffer} (hb : p.jags.lookup k = some b) :
    ∀ e ∈ p.jags, e.1 = k → e = (k, b) := by
  intro e he hek
  have h1 := perm_filter h.nodup (mem_of_lookup hb)
  rcases List.mem_cons.1 (h1.mem_iff.1 he) with h2 | h2
  · exact h2
  · have := (List.mem_filter.1 h2).2
    simp [hek] at this

/-- Nothing that is in a jagged buffer is in a vector buffer. -/
theorem JInv.vec_same (hl : FamLawful R G ups u0) (h : JInv c R ups u0 p q) {m' : Mem}
    (hm : ∀ x, ¬ InBlocks (p.owned c) x → m' x = p.vec.mem x) :
    PipeInv c.vec R ups u0 (p.owned c) { p.vec with mem := m' } q.vec ∧
      Pipe.store c.vec { p.vec with mem := m' } q.vec = p.vec.store c.vec q.vec :=
  h.vec.same fun _ he x hx => hm x (h.vec.frame hl he hx)

/-- A change of memory that touches one jagged buffer only. -/
theorem JInv.change (hl : FamLawful R G ups u0) (h : JInv c R ups u0 p q) {k : Nat} {b : JagBuffer} (hb : p.jags.lookup k = some b)
    {m' : Mem} (hm : ∀ x, ¬ InBlocks (b.blocks (c.source k) (c.hasHost k)) x → m' x = p.vec.mem x) {jag' : Nat → Bool}
    (hr : ∀ i, i ≠ k → jag' i = q.jag i)
    (hs : b.Known (jag' k) → ∀ v ∈ b.views, v.len m' ≤ v.capacity)
    (hh : DescribedAt m' b.hostPtr b.views) (hd : jag' k = true → DescribedAt m' b.ptr b.views) :
    JInv c R ups u0 { p with vec := { p.vec with mem := m' } } { q with jag := jag' } ∧
    JPipe.store c { p with vec := { p.vec with mem := m' } } { q with jag := jag' } =
      (p.store c q).put k (some ⟨b.views.map (·.capacity), b.views.any fun v => v.sizePtr != 0,
        if !(b.views.any fun v => v.sizePtr != 0) || jag' k then some (b.views.map fun v => v.elems m' (c.ty k).size) else none,
        b.views.isEmpty || !c.hasHost k || jag' k⟩) := by
  have hbm := mem_of_lookup hb
  have hother : ∀ e ∈ p.jags, e.1 ≠ k → ∀ x, InBlocks (e.2.blocks (c.source e.1) (c.hasHost e.1)) x → m' x = p.vec.mem x :=
    fun e he hne x hx => hm x (h.cross hl he hbm hne hx)
  obtain ⟨v1, v2⟩ := h.vec_same hl (m' := m') fun x hx => hm x fun hc => hx (blocks_sub (e := (k, b)) hbm hc)
  have hdesc : ∀ e ∈ p.jags, e.1 ≠ k → ∀ a, (∀ y, a ≤ y ∧ y < a + e.2.views.length * viewSize →
      InBlocks (e.2.blocks (c.source e.1) (c.hasHost e.1)) y) → DescribedAt p.vec.mem a e.2.views → DescribedAt m' a e.2.views :=
    fun e he hne a ha hda => described_congr hda fun y hy => hother e he hne _ (ha _ ⟨by omega, by omega⟩)
  refine ⟨⟨v1, h.nodup, h.bufs, ?_, ?_, ?_⟩, ?_⟩
  · intro e he hke v hv
    by_cases hek : e.1 = k
    · have := h.uniq hb e he hek
      subst this
      exact hs hke v hv
    · simp only [hr _ hek] at hke
      show v.len m' ≤ _
      rw [len_of_word (m := p.vec.mem) fun x hx => hother e he hek x ((h.bufs e he).rows_in _ ⟨v, hv, .inr hx⟩)]
      exact h.sizes e he hke v hv
  · intro e he
    by_cases hek : e.1 = k
    · have := h.uniq hb e he hek
      subst this
      exact hh
    · exact hdesc e he hek _ (fun y hy => (h.bufs e he).host_in _ hy) (h.host e he)
  · intro e he hre
    by_cases hek : e.1 = k
    · have := h.uniq hb e he hek
      subst this
      exact hd hre
    · simp only [hr _ hek] at hre
      exact hdesc e he hek _ (fun y hy => (h.bufs e he).dev_in _ hy) (h.dev e he hre)
  · unfold JStore.put
    have hv2 : Pipe.store c.vec { p.vec with mem := m' } q.vec = p.vec.store c.vec q.vec := v2
    simp only [JPipe.store, hv2, JStore.mk.injEq, true_and]
    funext i
    by_cases hik : i = k
    · subst hik
      simp [hb]
    · rw [if_neg hik, hr i hik]
      cases hbi : p.jags.lookup i with
      | none => rfl
      | some b' =>
        have hbm' := mem_of_lookup hbi
        simp only [Option.map_some, Option.some.injEq, JBuf.mk.injEq, true_and, and_true]
        by_cases hkn : b'.Known (q.jag i)
        · rw [if_pos (known_iff.2 hkn), if_pos (known_iff.2 hkn)]
          congr 1
          apply List.map_congr_left
          intro v hv
          exact elems_congr (h.sizes _ hbm' hkn v hv) fun x hx => hother _ hbm' hik x ((h.bufs _ hbm').rows_in _ ⟨v, hv, hx⟩)
        · rw [if_neg (fun hc => hkn (known_iff.1 hc)), if_neg (fun hc => hkn (known_iff.1 hc))]

/-- The resources, the memory and the vector buffers change, but not what is in the jagged buffers. -/
theorem JInv.frame (h : JInv c R ups u0 p q) {P : Pipe σ} {vec' : Nat → Bool}
    (hv : PipeInv c.vec R ups u0 (p.owned c) P vec') (hm : ∀ x, InBlocks (p.owned c) x → P.mem x = p.vec.mem x) :
    JInv c R ups u0 { p with vec := P } { q with vec := vec' } ∧
    JPipe.store c { p with vec := P } { q with vec := vec' } = { (p.store c q) with vec := P.store c.vec vec' } := by
  have hother : ∀ e ∈ p.jags, ∀ x, InBlocks (e.2.blocks (c.source e.1) (c.hasHost e.1)) x → P.mem x = p.vec.mem x :=
    fun e he x hx => hm x (blocks_sub he hx)
  refine ⟨⟨hv, h.nodup, h.bufs, ?_, ?_, ?_⟩, ?_⟩
  · intro e he hke v hv
    show v.len P.mem ≤ _
    rw [len_of_word (m := p.vec.mem) fun x hx => hother e he x ((h.bufs e he).rows_in _ ⟨v, hv, .inr hx⟩)]
    exact h.sizes e he hke v hv
  · intro e he
    exact described_congr (h.host e he) fun y hy => hother e he _ ((h.bufs e he).host_in _ ⟨by omega, by omega⟩)
  · intro e he hre
    exact described_congr (h.dev e he hre) fun y hy => hother e he _ ((h.bufs e he).dev_in _ ⟨by omega, by omega⟩)
  · simp only [JPipe.store, JStore.mk.injEq, true_and]
    funext i
    cases hbi : p.jags.lookup i with
    | none => rfl
    | some b' =>
      have hbm' := mem_of_lookup hbi
      simp only [Option.map_some, Option.some.injEq, JBuf.mk.injEq, true_and, and_true]
      by_cases hkn : b'.Known (q.jag i)
      · rw [if_pos (known_iff.2 hkn), if_pos (known_iff.2 hkn)]
        congr 1
        apply List.map_congr_left
        intro v hv
        exact elems_congr (h.sizes _ hbm' hkn v hv) fun x hx => hother _ hbm' x ((h.bufs _ hbm').rows_in _ ⟨v, hv, hx⟩)
      · rw [if_neg (fun hc => hkn (known_iff.1 hc)), if_neg (fun hc => hkn (known_iff.1 hc))]

/-- A change of memory outside all buffers. -/
theorem JInv.same (h : JInv c R ups u0 p q) {m' : Mem}
    (h1 : ∀ e ∈ p.vec.bufs, ∀ x, e.2.view.Has (c.vec.ty e.1).size x → m' x = p.vec.mem x)
    (h2 : ∀ x, InBlocks (p.owned c) x → m' x = p.vec.mem x) :
    JInv c R ups u0 { p with vec := { p.vec with mem := m' } } q ∧
    JPipe.store c { p with vec := { p.vec with mem := m' } } q = p.store c q := by
  obtain ⟨v1, v2⟩ := h.vec.same h1
  obtain ⟨f1, f2⟩ := h.frame v1 h2
  refine ⟨f1, f2.trans ?_⟩
  rw [v2]
  rfl

end Vecmem
