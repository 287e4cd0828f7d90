import Verif.Spec.World
import Verif.Spec.GpuMemory
import Verif.Lemmas.Serves
import Verif.Lemmas.PoolLawful
import Verif.Lemmas.BinaryPageLawful
import Verif.Lemmas.ArenaReach
import Verif.Lemmas.Contiguous
import Verif.Lemmas.Wrappers
import Verif.Lemmas.Debug

/-!
# Every kind of resource, over upstreams used by others as well
-/

namespace Vecmem

variable {σ ι : Type}

/-- What the relation `I` says about the live blocks of several resources. -/
structure Tidy (P : ι → Port) (I : σ → List (ι × Blk) → Prop) : Prop where
  wf : ∀ {s T}, I s T → ∀ e ∈ T, e.2.Wf (P e.1).R (P e.1).G
  disj : ∀ {s T}, I s T → T.Pairwise (fun e f => e.2.Disjoint f.2)
  gap : ∀ {s T}, I s T → ∀ {i}, (P i).gap = true → ∀ {b c}, (i, b) ∈ T → (i, c) ∈ T →
    b.addr + b.size ≠ c.addr
  perm : ∀ {s T T'}, I s T → T.Perm T' → I s T'

/-- Correct calls to the resource `m` with number `i` keep the relation. -/
structure Member (R : Limits) (m : MR σ) (I : σ → List (ι × Blk) → Prop) (i : ι) : Prop where
  alloc : ∀ {s T n a}, I s T → IsReq R n a → 0 < n →
    (∃ p s', m.allocate s n a = (.ok p, s') ∧ I s' ((i, ⟨p, n, a⟩) :: T)) ∨
    ∃ s', m.allocate s n a = (.badAlloc, s') ∧ I s' T
  zero : ∀ {s T a}, I s T → IsReq R 0 a →
    ∃ r s', m.allocate s 0 a = (r, s') ∧ (r = .ok 0 ∨ r = .badAlloc) ∧ I s' T
  free : ∀ {s T b}, I s ((i, b) :: T) →
    ∃ s', m.deallocate s b.addr b.size b.align = (.ok (), s') ∧ I s' T
  null : ∀ {s T} (n a : Nat), I s T → ∃ s', m.deallocate s 0 n a = (.ok (), s') ∧ I s' T

/-- A family of resources used within `P`. -/
structure FServes (P : ι → Port) (ups : ι → MR σ) (I : σ → List (ι × Blk) → Prop) : Prop where
  tidy : Tidy P I
  mem : ∀ i, Member (P i).R (ups i) I i

/-- Resources of kind `K` work over upstreams used as `P`; `J t L H` relates their data, the live blocks and the
blocks held from upstream. -/
structure KindSpec (K : Kind) (P : K.ι → Port) (Q : Port) (J : K.τ → List Blk → List (K.ι × Blk) → Prop) :
    Prop where
  create : ∀ {σ : Type} {ups : K.ι → MR σ} {I}, FServes P ups I → ∀ {u}, I u [] →
    (∃ t u' H, K.create ups u = (.ok t, u') ∧ J t [] H ∧ I u' H) ∨
    ∃ u', K.create ups u = (.badAlloc, u') ∧ I u' []
  serves : ∀ {σ : Type} {ups : K.ι → MR σ} {I}, FServes P ups I →
    Serves Q.R Q.G (K.mr ups) (fun x L => ∃ H, J x.1 L H ∧ I x.2 H)
  gap : ∀ {σ : Type} {ups : K.ι → MR σ} {I}, FServes P ups I → Q.gap = true → ∀ {t u L H}, J t L H → I u H →
    ∀ {b c}, b ∈ L → c ∈ L → b.addr + b.size ≠ c.addr
  inside : ∀ {σ : Type} {ups : K.ι → MR σ} {I}, FServes P ups I → ∀ {t u L H}, J t L H → I u H →
    ∀ {b}, b ∈ L → ∃ e ∈ H, b.Inside e.2
  destroy : ∀ {σ : Type} {ups : K.ι → MR σ} {I}, FServes P ups I → ∀ {t u H}, J t [] H → I u H →
    ∃ u', K.destroy ups t u = (.ok (), u') ∧ I u' []

/-! ## Upstreams that may throw `runtime_error` -/

/-- The resource itself, or with `bad_alloc` in place of `runtime_error`. -/
def errs (E : Bool) (m : MR σ) : MR σ :=
  match E with
  | false => m
  | true => asBadAlloc m

/-- The same, for answers. -/
def errsR {α : Type} (E : Bool) (r : Res α × σ) : Res α × σ :=
  match E with
  | false => r
  | true => (r.1.runtimeAsBad, r.2)

/-- `KindSpec`, where `E` tells if the upstreams may throw `runtime_error` in place of `bad_alloc`. -/
structure KindSpecE (E : Bool) (K : Kind) (P : K.ι → Port) (Q : Port)
    (J : K.τ → List Blk → List (K.ι × Blk) → Prop) : Prop where
  create : ∀ {σ : Type} {ups : K.ι → MR σ} {I}, FServes P (fun i => errs E (ups i)) I → ∀ {u}, I u [] →
    (∃ t u' H, errsR E (K.create ups u) = (.ok t, u') ∧ J t [] H ∧ I u' H) ∨
    ∃ u', errsR E (K.create ups u) = (.badAlloc, u') ∧ I u' []
  serves : ∀ {σ : Type} {ups : K.ι → MR σ} {I}, FServes P (fun i => errs E (ups i)) I →
    Serves Q.R Q.G (errs E (K.mr ups)) (fun x L => ∃ H, J x.1 L H ∧ I x.2 H)
  gap : ∀ {σ : Type} {ups : K.ι → MR σ} {I}, FServes P (fun i => errs E (ups i)) I → Q.gap = true →
    ∀ {t u L H}, J t L H → I u H → ∀ {b c}, b ∈ L → c ∈ L → b.addr + b.size ≠ c.addr
  inside : ∀ {σ : Type} {ups : K.ι → MR σ} {I}, FServes P (fun i => errs E (ups i)) I → ∀ {t u L H}, J t L H →
    I u H → ∀ {b}, b ∈ L → ∃ e ∈ H, b.Inside e.2
  destroy : ∀ {σ : Type} {ups : K.ι → MR σ} {I}, FServes P (fun i => errs E (ups i)) I → ∀ {t u H}, J t [] H →
    I u H → ∃ u', K.destroy ups t u = (.ok (), u') ∧ I u' []

theorem kindSpecE_false {K : Kind} {P : K.ι → Port} {Q : Port} {J : K.τ → List Blk → List (K.ι × Blk) → Prop} :
    KindSpecE false K P Q J ↔ KindSpec K P Q J :=
  ⟨fun h => ⟨h.create, h.serves, h.gap, h.inside, h.destroy⟩, fun h => ⟨h.create, h.serves, h.gap, h.inside, h.destroy⟩⟩

/-! ## `Serves`, differently -/

/-- Correct calls keep the relation. -/
structure Acts (R : Limits) (m : MR σ) (I : σ → List Blk → Prop) : Prop where
  alloc : ∀ {s L n a}, I s L → IsReq R n a → 0 < n →
    (∃ p s', m.allocate s n a = (.ok p, s') ∧ I s' (⟨p, n, a⟩ :: L)) ∨
    ∃ s', m.allocate s n a = (.badAlloc, s') ∧ I s' L
  zero : ∀ {s L a}, I s L → IsReq R 0 a →
    ∃ r s', m.allocate s 0 a = (r, s') ∧ (r = .ok 0 ∨ r = .badAlloc) ∧ I s' L
  free : ∀ {s L b}, I s (b :: L) → ∃ s', m.deallocate s b.addr b.size b.align = (.ok (), s') ∧ I s' L
  null : ∀ {s L} (n a : Nat), I s L → ∃ s', m.deallocate s 0 n a = (.ok (), s') ∧ I s' L

theorem Serves.acts {R : Limits} {G : Nat} {m : MR σ} {I : σ → List Blk → Prop} (h : Serves R G m I) :
    Acts R m I where
  alloc := fun hI hq hn => by
    rcases h.answer hI hq hn with ⟨p, s', e⟩ | ⟨s', e⟩
    · exact .inl ⟨p, s', e, h.sAlloc hI hq hn e⟩
    · exact .inr ⟨s', e, h.sRefuse hI hq hn e⟩
  zero := fun hI hq => ⟨_, _, rfl, h.zero hI hq, h.sZero hI hq rfl⟩
  free := fun hI => by
    have := h.dealloc hI List.mem_cons_self
    exact ⟨_, Prod.ext this rfl, h.sFree hI (Prod.ext this rfl)⟩
  null := fun n a hI => by
    have := h.null hI (n := n) (a := a)
    exact ⟨_, Prod.ext this rfl, h.sNull hI rfl⟩

theorem Acts.serves {R : Limits} {G : Nat} {m : MR σ} {I : σ → List Blk → Prop} (h : Acts R m I)
    (hl : ∀ {s L}, I s L → Live R G L) (hp : ∀ {s L L'}, I s L → L.Perm L' → I s L') : Serves R G m I := by
  refine Serves.of_inv (fun s L => hl) ?_ ?_ ?_ ?_ (fun s L L' => hp)
  · intro s L n a hI hq hn
    rcases h.alloc hI hq hn with ⟨p, s', e, h'⟩ | ⟨s', e, h'⟩
    · rw [e]
      refine ⟨?_, fun q hq' => by cases hq'; exact h', fun hb => by cases hb⟩
      have := hl h'
      have hw := this.1 _ List.mem_cons_self
      exact ⟨hw.1, hw.2.1, hw.2.2.1, (List.pairwise_cons.1 this.2).1⟩
    · rw [e]; exact ⟨trivial, by simp, fun _ => h'⟩
  · intro s L a hI hq
    obtain ⟨r, s', e, h1, h2⟩ := h.zero hI hq
    rw [e]; exact ⟨h1, h2⟩
  · intro s L b hI
    obtain ⟨s', e, h2⟩ := h.free hI
    rw [e]; exact ⟨rfl, h2⟩
  · intro s L n a hI
    obtain ⟨s', e, h2⟩ := h.null n a hI
    rw [e]; exact ⟨rfl, h2⟩

theorem Serves.congr {R : Limits} {G : Nat} {m : MR σ} {I I' : σ → List Blk → Prop} (h : Serves R G m I)
    (he : ∀ s L, I s L ↔ I' s L) : Serves R G m I' := by
  have : I = I' := by funext s L; exact propext (he s L)
  exact this ▸ h

/-- Fewer requests, less alignment. -/
theorem Serves.weaken {R R' : Limits} {G G' : Nat} {m : MR σ} {I : σ → List Blk → Prop} (h : Serves R G m I)
    (hR : ∀ n a, IsReq R' n a → IsReq R n a) (hG : G' ≤ G) :
    Serves R' G' m (fun s L => I s L ∧ ∀ b ∈ L, IsReq R' b.size b.align) := by
  have ha := h.acts
  refine Acts.serves ⟨?_, ?_, ?_, ?_⟩ ?_ ?_
  · rintro s L n a ⟨hI, hL⟩ hq hn
    rcases ha.alloc hI (hR _ _ hq) hn with ⟨p, s', e, h'⟩ | ⟨s', e, h'⟩
    · exact .inl ⟨p, s', e, h', by simpa using ⟨hq, hL⟩⟩
    · exact .inr ⟨s', e, h', hL⟩
  · rintro s L a ⟨hI, hL⟩ hq
    obtain ⟨r, s', e, h1, h2⟩ := ha.zero hI (hR _ _ hq)
    exact ⟨r, s', e, h1, h2, hL⟩
  · rintro s L b ⟨hI, hL⟩
    obtain ⟨s', e, h2⟩ := ha.free hI
    exact ⟨s', e, h2, fun c hc => hL c (List.mem_cons_of_mem _ hc)⟩
  · rintro s L n a ⟨hI, hL⟩
    obtain ⟨s', e, h2⟩ := ha.null n a hI
    exact ⟨s', e, h2, hL⟩
  · rintro s L ⟨hI, hL⟩
    have := h.live hI
    refine ⟨fun b hb => ?_, this.2⟩
    obtain ⟨w1, w2, w3, w4, _⟩ := this.1 b hb
    exact ⟨w1, w2, fun hle => w3 (Nat.le_trans hle hG), w4, hL b hb⟩
  · rintro s L L' ⟨hI, hL⟩ hp
    exact ⟨h.perm hI hp, fun b hb => hL b (hp.symm.subset hb)⟩

theorem Port.Within.req {p q : Port} (h : p.Within q) {n a : Nat} (hq : IsReq p.R n a) : IsReq q.R n a :=
  ⟨⟨Nat.le_trans hq.1.1 h.size, hq.1.2⟩, Nat.le_trans hq.2.1 h.align, hq.2.2⟩

theorem Tidy.live {P : ι → Port} {I : σ → List (ι × Blk) → Prop} (h : Tidy P I) {q : Port} (hP : ∀ i, P i = q)
    {s T} (hI : I s T) : Live q.R q.G (T.map (·.2)) := by
  refine ⟨?_, List.pairwise_map.2 (h.disj hI)⟩
  intro b hb
  obtain ⟨e, he, rfl⟩ := List.mem_map.1 hb
  have := h.wf hI e he
  rwa [hP] at this

/-- Blocks with the only possible tag. -/
abbrev one (L : List Blk) : List (Unit × Blk) := L.map fun b => ((), b)

theorem one_snd (H : List (Unit × Blk)) : one (H.map (·.2)) = H := by simp [one, List.map_map, Function.comp_def]

theorem FServes.single {q : Port} {ups : Unit → MR σ} {I : σ → List (Unit × Blk) → Prop}
    (h : FServes (fun _ => q) ups I) : Serves q.R q.G (ups ()) (fun s L => I s (one L)) := by
  have hm := h.mem ()
  refine Acts.serves ⟨?_, ?_, ?_, ?_⟩ ?_ ?_
  · intro s L n a hI hq hn
    exact hm.alloc hI hq hn
  · intro s L a hI hq; exact hm.zero hI hq
  · intro s L b hI; exact hm.free hI
  · intro s L n a hI; exact hm.null n a hI
  · intro s L hI
    have := h.tidy.live (fun _ => rfl) hI
    simpa [one, List.map_map, Function.comp_def] using this
  · intro s L L' hI hp; exact h.tidy.perm hI (hp.map _)

/-! ## The kinds -/

/-- Upstreams may offer more. -/
theorem FServes.narrow {P P' : ι → Port} (hP : ∀ i, (P i).Within (P' i)) {ups : ι → MR σ}
    {I : σ → List (ι × Blk) → Prop} (hF : FServes P' ups I) :
    FServes P ups (fun u H => I u H ∧ ∀ e ∈ H, IsReq (P e.1).R e.2.size e.2.align) := by
  refine ⟨⟨?_, ?_, ?_, ?_⟩, ?_⟩
  · rintro s T ⟨hI, hT⟩ e he
    obtain ⟨w1, w2, w3, w4, _⟩ := hF.tidy.wf hI e he
    exact ⟨w1, w2, fun hle => w3 (Nat.le_trans hle (hP _).guar), w4, hT e he⟩
  · rintro s T ⟨hI, hT⟩; exact hF.tidy.disj hI
  · rintro s T ⟨hI, hT⟩ i hi b c hb hc; exact hF.tidy.gap hI ((hP i).gap hi) hb hc
  · rintro s T T' ⟨hI, hT⟩ hp
    exact ⟨hF.tidy.perm hI hp, fun b hb => hT b (hp.symm.subset hb)⟩
  · intro i
    have hm := hF.mem i
    refine ⟨?_, ?_, ?_, ?_⟩
    · rintro s T n a ⟨hI, hT⟩ hq hn
      rcases hm.alloc hI ((hP i).req hq) hn with ⟨p, s', e, h'⟩ | ⟨s', e, h'⟩
      · refine .inl ⟨p, s', e, h', ?_⟩
        intro e he
        rcases List.mem_cons.1 he with rfl | he
        · exact hq
        · exact hT e he
      · exact .inr ⟨s', e, h', hT⟩
    · rintro s T a ⟨hI, hT⟩ hq
      obtain ⟨r, s', e, h1, h2⟩ := hm.zero hI ((hP i).req hq)
      exact ⟨r, s', e, h1, h2, hT⟩
    · rintro s T b ⟨hI, hT⟩
      obtain ⟨s', e, h2⟩ := hm.free hI
      exact ⟨s', e, h2, fun c hc => hT c (List.mem_cons_of_mem _ hc)⟩
    · rintro s T n a ⟨hI, hT⟩
      obtain ⟨s', e, h2⟩ := hm.null n a hI
      exact ⟨s', e, h2, hT⟩

/-- Upstreams may offer more, and clients ask for less. -/
theorem KindSpecE.weaken {E : Bool} {K : Kind} {P P' : K.ι → Port} {q q' : Port}
    {J : K.τ → List Blk → List (K.ι × Blk) → Prop} (h : KindSpecE E K P q J) (hP : ∀ i, (P i).Within (P' i))
    (hq : q'.Within q) :
    KindSpecE E K P' q' (fun t L H => J t L H ∧ (∀ e ∈ H, IsReq (P e.1).R e.2.size e.2.align) ∧
      ∀ b ∈ L, IsReq q'.R b.size b.align) := by
  refine ⟨?_, ?_, ?_, ?_, ?_⟩
  · intro σ ups I hf u hI
    rcases h.create (hf.narrow hP) ⟨hI, by simp⟩ with ⟨t, u', H, e, h1, h2, h3⟩ | ⟨u', e, h2, _⟩
    · exact .inl ⟨t, u', H, e, ⟨h1, h3, by simp⟩, h2⟩
    · exact .inr ⟨u', e, h2⟩
  · intro σ ups I hf
    refine ((h.serves (hf.narrow hP)).weaken (fun n a => hq.req) hq.guar).congr ?_
    intro x L
    constructor
    · rintro ⟨⟨H, h1, h2, h3⟩, h4⟩; exact ⟨H, ⟨h1, h3, h4⟩, h2⟩
    · rintro ⟨H, ⟨h1, h3, h4⟩, h2⟩; exact ⟨⟨H, h1, h2, h3⟩, h4⟩
  · rintro σ ups I hf hg t u L H ⟨h1, h2, _⟩ hI b c
    exact h.gap (hf.narrow hP) (hq.gap hg) h1 ⟨hI, h2⟩
  · rintro σ ups I hf t u L H ⟨h1, h2, _⟩ hI b
    exact h.inside (hf.narrow hP) h1 ⟨hI, h2⟩
  · rintro σ ups I hf t u H ⟨h1, h2, _⟩ hI
    obtain ⟨u', e, h3, _⟩ := h.destroy (hf.narrow hP) h1 ⟨hI, h2⟩
    exact ⟨u', e, h3⟩

theorem KindSpec.weaken {K : Kind} {P P' : K.ι → Port} {q q' : Port}
    {J : K.τ → List Blk → List (K.ι × Blk) → Prop} (h : KindSpec K P q J) (hP : ∀ i, (P i).Within (P' i))
    (hq : q'.Within q) :
    KindSpec K P' q' (fun t L H => J t L H ∧ (∀ e ∈ H, IsReq (P e.1).R e.2.size e.2.align) ∧
      ∀ b ∈ L, IsReq q'.R b.size b.align) :=
  kindSpecE_false.1 ((kindSpecE_false.2 h).weaken hP hq)

/-- Kinds that hold from upstream exactly the blocks of their clients. -/
theorem KindSpecE.of_forward {Z : Bool} {K : Kind} {q : Port} (E : K.τ → List (K.ι × Blk) → Prop) (t0 : K.τ)
    (hE : ∀ {t H H'}, E t H → H.Perm H' → E t H') (hE0 : E t0 [])
    (hgap : q.gap = true → ∀ i j : K.ι, i = j)
    (hcreate : ∀ {σ : Type} (ups : K.ι → MR σ) u, K.create ups u = (.ok t0, u))
    (hdestroy : ∀ {σ : Type} (ups : K.ι → MR σ) t u, K.destroy ups t u = (.ok (), u))
    (halloc : ∀ {σ : Type} {ups : K.ι → MR σ} {I}, FServes (fun _ => q) (fun i => errs Z (ups i)) I → ∀ {t u H n a}, E t H → I u H →
      IsReq q.R n a → 0 < n →
      (∃ i p t' u', (errs Z (K.mr ups)).allocate (t, u) n a = (.ok p, (t', u')) ∧ E t' ((i, ⟨p, n, a⟩) :: H) ∧
        I u' ((i, ⟨p, n, a⟩) :: H)) ∨
      ∃ t' u', (errs Z (K.mr ups)).allocate (t, u) n a = (.badAlloc, (t', u')) ∧ E t' H ∧ I u' H)
    (hzero : ∀ {σ : Type} (ups : K.ι → MR σ) x a, (errs Z (K.mr ups)).allocate x 0 a = (.ok 0, x))
    (hfree : ∀ {σ : Type} {ups : K.ι → MR σ} {I}, FServes (fun _ => q) (fun i => errs Z (ups i)) I → ∀ {t u H i b},
      E t ((i, b) :: H) → I u ((i, b) :: H) →
      ∃ t' u', (errs Z (K.mr ups)).deallocate (t, u) b.addr b.size b.align = (.ok (), (t', u')) ∧ E t' H ∧ I u' H)
    (hnull : ∀ {σ : Type} (ups : K.ι → MR σ) x n a, (errs Z (K.mr ups)).deallocate x 0 n a = (.ok (), x)) :
    KindSpecE Z K (fun _ => q) q (fun t L H => (H.map (·.2)).Perm L ∧ E t H) := by
  refine ⟨?_, ?_, ?_, ?_, ?_⟩
  · intro σ ups I hf u hI
    exact .inl ⟨t0, u, [], by rw [hcreate ups u]; cases Z <;> rfl, ⟨.refl _, hE0⟩, hI⟩
  · intro σ ups I hf
    refine Acts.serves ⟨?_, ?_, ?_, ?_⟩ ?_ ?_
    · rintro ⟨t, u⟩ L n a ⟨H, ⟨h1, h2⟩, h3⟩ hq hn
      rcases halloc hf h2 h3 hq hn with ⟨i, p, t', u', e, e1, e2⟩ | ⟨t', u', e, e1, e2⟩
      · exact .inl ⟨p, _, e, _, ⟨by simpa using h1, e1⟩, e2⟩
      · exact .inr ⟨_, e, H, ⟨h1, e1⟩, e2⟩
    · rintro x L a h hq
      exact ⟨_, _, hzero ups x a, .inl rfl, h⟩
    · rintro ⟨t, u⟩ L b ⟨H, ⟨h1, h2⟩, h3⟩
      have hm : b ∈ H.map (·.2) := h1.symm.subset List.mem_cons_self
      obtain ⟨⟨i, b'⟩, he, rfl⟩ := List.mem_map.1 hm
      obtain ⟨T1, T2, rfl⟩ := List.append_of_mem he
      have hp : (T1 ++ (i, b') :: T2).Perm ((i, b') :: (T1 ++ T2)) := List.perm_middle
      obtain ⟨t', u', e, e1, e2⟩ := hfree hf (hE h2 hp) (hf.tidy.perm h3 hp)
      refine ⟨_, e, _, ⟨?_, e1⟩, e2⟩
      have h4 := (hp.map (·.2)).symm.trans h1
      simp only [List.map_cons] at h4
      exact h4.cons_inv
    · rintro x L n a h
      exact ⟨_, hnull ups x n a, h⟩
    · rintro x L ⟨H, ⟨h1, h2⟩, h3⟩
      exact (hf.tidy.live (fun _ => rfl) h3).perm h1
    · rintro x L L' ⟨H, ⟨h1, h2⟩, h3⟩ hp
      exact ⟨H, ⟨h1.trans hp, h2⟩, h3⟩
  · rintro σ ups I hf hg t u L H ⟨h1, h2⟩ h3 b c hb hc
    obtain ⟨⟨i, b⟩, hb', rfl⟩ := List.mem_map.1 (h1.symm.subset hb)
    obtain ⟨⟨j, c⟩, hc', rfl⟩ := List.mem_map.1 (h1.symm.subset hc)
    obtain rfl := hgap hg i j
    exact hf.tidy.gap h3 hg hb' hc'
  · rintro σ ups I hf t u L H ⟨h1, h2⟩ h3 b hb
    obtain ⟨e, he, rfl⟩ := List.mem_map.1 (h1.symm.subset hb)
    exact ⟨e, he, Nat.le_refl _, Nat.le_refl _⟩
  · rintro σ ups I hf t u H ⟨h1, h2⟩ h3
    have : H = [] := by simpa using h1
    subst this
    exact ⟨u, hdestroy ups t u, h3⟩

theorem KindSpec.of_forward {K : Kind} {q : Port} (E : K.τ → List (K.ι × Blk) → Prop) (t0 : K.τ)
    (hE : ∀ {t H H'}, E t H → H.Perm H' → E t H') (hE0 : E t0 [])
    (hgap : q.gap = true → ∀ i j : K.ι, i = j)
    (hcreate : ∀ {σ : Type} (ups : K.ι → MR σ) u, K.create ups u = (.ok t0, u))
    (hdestroy : ∀ {σ : Type} (ups : K.ι → MR σ) t u, K.destroy ups t u = (.ok (), u))
    (halloc : ∀ {σ : Type} {ups : K.ι → MR σ} {I}, FServes (fun _ => q) ups I → ∀ {t u H n a}, E t H → I u H →
      IsReq q.R n a → 0 < n →
      (∃ i p t' u', (K.mr ups).allocate (t, u) n a = (.ok p, (t', u')) ∧ E t' ((i, ⟨p, n, a⟩) :: H) ∧
        I u' ((i, ⟨p, n, a⟩) :: H)) ∨
      ∃ t' u', (K.mr ups).allocate (t, u) n a = (.badAlloc, (t', u')) ∧ E t' H ∧ I u' H)
    (hzero : ∀ {σ : Type} (ups : K.ι → MR σ) x a, (K.mr ups).allocate x 0 a = (.ok 0, x))
    (hfree : ∀ {σ : Type} {ups : K.ι → MR σ} {I}, FServes (fun _ => q) ups I → ∀ {t u H i b},
      E t ((i, b) :: H) → I u ((i, b) :: H) →
      ∃ t' u', (K.mr ups).deallocate (t, u) b.addr b.size b.align = (.ok (), (t', u')) ∧ E t' H ∧ I u' H)
    (hnull : ∀ {σ : Type} (ups : K.ι → MR σ) x n a, (K.mr ups).deallocate x 0 n a = (.ok (), x)) :
    KindSpec K (fun _ => q) q (fun t L H => (H.map (·.2)).Perm L ∧ E t H) :=
  kindSpecE_false.1 (KindSpecE.of_forward (Z := false) (K := K) E t0 hE hE0 hgap hcreate hdestroy halloc hzero hfree hnull)

theorem Kind.pool_inv {R : Limits} {dbg : Bool} {o : PoolOpts} {p : Pool} {k0 k1 : Nat} (hc : Pool.create o = .ok p)
    (hf : o.Facts k0 k1) (hp : p = ⟨k0, List.replicate (k1 - k0 + 1) {}, [], [], []⟩)
    (hs : o.Sound dbg) (hA : o.alignment ≤ R.align) (hM : o.maxBytes ≤ R.size) (hR : R.align ≤ 2 ^ 61) :
    KindSpec (.pool dbg o) (fun _ => ⟨R, R.align, false⟩) ⟨R, R.align, false⟩
      (fun t L H => Pool.Inv R o k0 k1 (fun (_ : Unit) H' => H = one H') (t, ()) L) := by
  obtain ⟨iA, hiA, _⟩ := hf.align hs.nonEmpty.1
  have key : ∀ {σ : Type} {I : σ → List (Unit × Blk) → Prop} {x : Pool × σ} {L},
      (∃ H, Pool.Inv R o k0 k1 (fun (_ : Unit) H' => H = one H') (x.1, ()) L ∧ I x.2 H) ↔
        Pool.Inv R o k0 k1 (fun u H => I u (one H)) x L := by
    intro σ I x L
    constructor
    · rintro ⟨H, h, hI⟩
      exact { h with reach := h.reach ▸ hI }
    · intro h
      exact ⟨_, { h with reach := rfl }, h.reach⟩
  have hsv : ∀ {σ : Type} {ups : Unit → MR σ} {I}, FServes (fun _ => ⟨R, R.align, false⟩) ups I →
      Serves R R.align (ups ()) (fun s L => I s (one L)) := fun h => h.single
  refine ⟨?_, ?_, ?_, ?_, ?_⟩
  · intro σ ups I h u hI
    left
    obtain ⟨H, h1, h2⟩ := key.2 (hp ▸ Pool.init_inv (R := R) (o := o) (k0 := k0) (k1 := k1)
      (RR := fun u H => I u (one H)) (u0 := u) hI : Pool.Inv R o k0 k1 (fun u H => I u (one H)) (p, u) [])
    exact ⟨p, u, H, congrArg (·, u) hc, h1, h2⟩
  · intro σ ups I h
    exact (Pool.serves (hsv h) hf hs hA hM hR).congr fun x L => key.symm
  · intro σ ups I h hg; simp at hg
  · intro σ ups I h t u L H h1 h2 b hb
    have hI := (key (x := (t, u))).1 ⟨H, h1, h2⟩
    obtain ⟨⟨c, hc, hin⟩, _⟩ := (hI.perm (List.perm_cons_erase hb)).held (hsv h) ⟨iA, hiA⟩ List.mem_cons_self
    have hr : H = one _ := h1.reach
    refine ⟨((), c), ?_, hin⟩
    rw [hr]; exact List.mem_map.2 ⟨c, hc, rfl⟩
  · intro σ ups I h t u H h1 h2
    have hI := (key (x := (t, u))).1 ⟨H, h1, h2⟩
    have := Pool.destroy_ok (hsv h) hI
    exact ⟨_, Prod.ext this.1 rfl, this.2⟩

theorem Kind.pool_spec {R : Limits} {dbg : Bool} {o : PoolOpts} {p : Pool} (hc : Pool.create o = .ok p)
    (hs : o.Sound dbg) (hA : o.alignment ≤ R.align) (hM : o.maxBytes ≤ R.size) (hR : R.align ≤ 2 ^ 61) :
    ∃ J, KindSpec (.pool dbg o) (fun _ => ⟨R, R.align, false⟩) ⟨R, R.align, false⟩ J := by
  obtain ⟨k0, k1, hf, hp⟩ := Pool.create_spec hs.range hc
  exact ⟨_, Kind.pool_inv hc hf hp hs hA hM hR⟩

theorem Kind.binaryPage_inv {R : Limits} {dbg : Bool} (hR : PageLimits R) :
    KindSpec (.binaryPage dbg) (fun _ => ⟨R, maxAlign, false⟩) ⟨R, maxAlign, false⟩
      (fun t L H => BinPage.Inv R (fun (_ : Unit) H' => H = one H') (t, ()) L ∧ Live R maxAlign L) := by
  have key : ∀ {σ : Type} {I : σ → List (Unit × Blk) → Prop} {x : List Superpage × σ} {L},
      (∃ H, (BinPage.Inv R (fun (_ : Unit) H' => H = one H') (x.1, ()) L ∧ Live R maxAlign L) ∧ I x.2 H) ↔
        (BinPage.Inv R (fun u H => I u (one H)) x L ∧ Live R maxAlign L) := by
    intro σ I x L
    constructor
    · rintro ⟨H, ⟨h, hl⟩, hI⟩
      exact ⟨{ h with reach := h.reach ▸ hI }, hl⟩
    · rintro ⟨h, hl⟩
      exact ⟨_, ⟨{ h with reach := rfl }, hl⟩, h.reach⟩
  have hsv : ∀ {σ : Type} {ups : Unit → MR σ} {I}, FServes (fun _ => ⟨R, maxAlign, false⟩) ups I →
      Serves R maxAlign (ups ()) (fun s L => I s (one L)) := fun h => h.single
  refine ⟨?_, ?_, ?_, ?_, ?_⟩
  · intro σ ups I h u hI
    left
    obtain ⟨H, h1, h2⟩ := key.2 ⟨(BinPage.init_inv (R := R)
      (RR := fun u H => I u (one H)) (u0 := u) hI), by simp [Live]⟩
    exact ⟨[], u, H, rfl, h1, h2⟩
  · intro σ ups I h
    exact (BinPage.serves (hsv h) (Nat.le_refl _) hR).congr fun x L => key.symm
  · intro σ ups I h hg; simp at hg
  · intro σ ups I h t u L H h1 h2 b hb
    have hI := (key (x := (t, u))).1 ⟨H, h1, h2⟩
    have hreq := (hI.2.1 b hb).2.2.2.2.2.2
    obtain ⟨_, c, hc, hin⟩ := BinPage.Inv.good (p := b.addr) (n := b.size) (a := b.align) (hsv h) (Nat.le_refl _) hreq
      (hI.1.perm (List.perm_cons_erase hb))
    have hr : H = one _ := h1.1.reach
    refine ⟨((), c), ?_, hin⟩
    rw [hr]; exact List.mem_map.2 ⟨c, hc, rfl⟩
  · intro σ ups I h t u H h1 h2
    have hr : H = one (t.map BinPage.spBlk) := h1.1.reach
    have := BinPage.destroy_ok (hsv h) t [] u (by rw [List.append_nil, ← hr]; exact h2)
    exact ⟨_, Prod.ext this.1 rfl, this.2⟩

theorem Kind.binaryPage_spec {R : Limits} {dbg : Bool} (hR : PageLimits R) :
    ∃ J, KindSpec (.binaryPage dbg) (fun _ => ⟨R, maxAlign, false⟩) ⟨R, maxAlign, false⟩ J :=
  ⟨_, Kind.binaryPage_inv hR⟩

theorem Kind.arena_spec {R R' : Limits} {initial maximum : Nat} (hA : maxAlign ≤ R.align) (h0 : 0 < initial)
    (h1 : initial ≤ R.size) (h2 : initial < 2 ^ 64) (h3 : 2 ^ 18 ≤ R.size)
    (h4 : arenaBytes R'.size ≤ max initial (2 ^ 18)) (h5 : initial % 256 ≠ 0) :
    ∃ J, KindSpec (.arena initial maximum) (fun _ => ⟨R, maxAlign, true⟩) ⟨R', maxAlign, false⟩ J := by
  refine ⟨fun t L H => (∃ H0, Arena.Inv (fun (_ : Unit) H' => H = one H') initial (t, ()) L H0) ∧
    Live R' maxAlign L, ?_⟩
  have key : ∀ {σ : Type} {I : σ → List (Unit × Blk) → Prop} {x : Arena × σ} {L},
      (∃ H, ((∃ H0, Arena.Inv (fun (_ : Unit) H' => H = one H') initial (x.1, ()) L H0) ∧ Live R' maxAlign L) ∧
        I x.2 H) ↔
      ((∃ H0, Arena.Inv (fun u H => I u (one H)) initial x L H0) ∧ Live R' maxAlign L) := by
    intro σ I x L
    constructor
    · rintro ⟨H, ⟨⟨H0, h⟩, hl⟩, hI⟩
      exact ⟨⟨H0, { h with reach := h.reach ▸ hI }⟩, hl⟩
    · rintro ⟨⟨H0, h⟩, hl⟩
      exact ⟨_, ⟨⟨H0, { h with reach := rfl }⟩, hl⟩, h.reach⟩
  have hU : ∀ {σ : Type} {ups : Unit → MR σ} {I}, FServes (fun _ => ⟨R, maxAlign, true⟩) ups I →
      Arena.Up R maxAlign (ups ()) (fun s L => I s (one L)) initial := by
    intro σ ups I h
    refine ⟨h.single, ?_, Nat.le_refl _, hA, h1, h3, h0, h2⟩
    intro u H hI b hb c hc _
    exact h.tidy.gap hI (i := ()) rfl (List.mem_map.2 ⟨b, hb, rfl⟩) (List.mem_map.2 ⟨c, hc, rfl⟩)
  have hlim : ∀ n a, IsReq R' n a → arenaBytes n ≤ max initial Arena.minSuper := by
    intro n a hq
    refine Nat.le_trans ?_ h4
    have := hq.1.1
    unfold arenaBytes; omega
  refine ⟨?_, ?_, ?_, ?_, ?_⟩
  · intro σ ups I h u hI
    rcases Arena.create_ok (hU h) (u0 := u) hI maximum with ⟨e1, e2⟩ | ⟨a, H, e1, e2⟩
    · exact .inr ⟨_, Prod.ext e1 rfl, e2⟩
    · left
      obtain ⟨H, k1, k2⟩ := key.2 ⟨⟨_, e2⟩, by simp [Live]⟩
      exact ⟨a, _, H, Prod.ext e1 rfl, k1, k2⟩
  · intro σ ups I h
    exact (Arena.serves (hU h) h5 hlim).congr fun x L => key.symm
  · intro σ ups I h hg; simp at hg
  · rintro σ ups I h t u L H ⟨⟨H0, k1⟩, _⟩ k2 b hb
    have hr : H = one H0 := k1.reach
    have hI : Arena.Inv (fun u H => I u (one H)) initial (t, u) L H0 := { k1 with reach := hr ▸ k2 }
    obtain ⟨_, _, ⟨c, hc, hin⟩, _⟩ := hI.live_wf (hU h) hb
    exact ⟨((), c), by rw [hr]; exact List.mem_map.2 ⟨c, hc, rfl⟩, hin⟩
  · intro σ ups I h t u H k1 k2
    obtain ⟨⟨H0, hI⟩, _⟩ := (key (x := (t, u))).1 ⟨H, k1, k2⟩
    have := Arena.destroy_ok (hU h) hI (.inr rfl)
    exact ⟨_, Prod.ext this.1 rfl, this.2⟩

theorem Kind.contiguous_spec {R R' : Limits} {G size : Nat} (hreq : IsReq R size maxAlign) (hpos : 0 < size) :
    ∃ J, KindSpec (.contiguous size) (fun _ => ⟨R, G, false⟩) ⟨R', R'.align, false⟩ J := by
  refine ⟨fun t L H => ∃ p, H = one [⟨p, size, maxAlign⟩] ∧ Contig.Inv p size t ∧
    (∀ b ∈ L, p ≤ b.addr ∧ b.addr + b.size ≤ t.next) ∧ Live R' R'.align L, ?_, ?_, ?_, ?_, ?_⟩
  · intro σ ups I h u hI
    rcases (h.mem ()).alloc hI hreq hpos with ⟨p, u', e, h'⟩ | ⟨u', e, h'⟩
    · left
      refine ⟨⟨size, p, p⟩, u', _, ?_, ⟨p, rfl, ⟨rfl, rfl, Nat.le_refl _, Nat.le_add_right _ _⟩, by simp,
        by simp [Live]⟩, h'⟩
      simp only [Kind.contiguous, Contig.create, e, Res.map]
    · right
      refine ⟨u', ?_, h'⟩
      simp only [Kind.contiguous, Contig.create, e, Res.map]
  · intro σ ups I h
    have hs : size < 2 ^ 64 := hreq.1.2
    refine Acts.serves ⟨?_, ?_, ?_, ?_⟩ ?_ ?_
    · rintro ⟨t, u⟩ L n a ⟨H, ⟨p, rfl, hI, hL, hl⟩, hu⟩ hq hn
      have hw := h.tidy.wf hu ((), ⟨p, size, maxAlign⟩) List.mem_cons_self
      replace hI : Contig.Inv p size t := hI
      replace hL : ∀ b ∈ L, p ≤ b.addr ∧ b.addr + b.size ≤ t.next := hL
      obtain ⟨h1, h2, h3, h4⟩ := id hI
      have hge := alignUp_ge a t.next
      have e : ((Kind.contiguous size).mr ups).allocate (t, u) n a =
          ((t.allocate n a).1, ((t.allocate n a).2, u)) := Contig.mr_allocate_pos (t, u) hn a
      rw [e, Contig.allocate_eq hI hs hn]
      have hw1 : p ≠ 0 := hw.1
      have hw2 : p + size ≤ 2 ^ 64 := hw.2.1
      by_cases hc : alignUp a t.next + n ≤ p + size
      · rw [if_pos hc]
        refine .inl ⟨_, _, rfl, _, ⟨p, rfl, ⟨h1, h2, by simp only; omega, hc⟩, ?_, ?_⟩, hu⟩
        · intro b hb
          rcases List.mem_cons.1 hb with rfl | hb
          · simp only; omega
          · have := hL b hb; simp only; omega
        · refine hl.cons hq hn ⟨by omega, by omega, fun _ => alignUp_dvd hq.pos _, ?_⟩
          intro b hb; have := hL b hb; right; simp only; omega
      · rw [if_neg hc]
        exact .inr ⟨_, rfl, _, ⟨p, rfl, hI, hL, hl⟩, hu⟩
    · intro x L a hx hq
      exact ⟨_, _, Contig.mr_allocate_zero x a, .inl rfl, hx⟩
    · rintro x L b ⟨H, ⟨p, rfl, hI, hL, hl⟩, hu⟩
      exact ⟨_, Contig.mr_deallocate x _ _ _, _, ⟨p, rfl, hI, fun c hc => hL c (List.mem_cons_of_mem _ hc), hl.tail⟩,
        hu⟩
    · intro x L n a hx
      exact ⟨_, Contig.mr_deallocate x _ _ _, hx⟩
    · rintro x L ⟨H, ⟨p, rfl, hI, hL, hl⟩, hu⟩; exact hl
    · rintro x L L' ⟨H, ⟨p, rfl, hI, hL, hl⟩, hu⟩ hp
      exact ⟨_, ⟨p, rfl, hI, fun b hb => hL b (hp.symm.subset hb), hl.perm hp⟩, hu⟩
  · intro σ ups I h hg; simp at hg
  · rintro σ ups I h t u L H ⟨p, rfl, hI, hL, hl⟩ hu b hb
    refine ⟨_, List.mem_cons_self, ?_⟩
    have := hL b hb
    have := hI.2.2
    unfold Blk.Inside
    simp only
    omega
  · rintro σ ups I h t u H ⟨p, rfl, hI, _⟩ hu
    obtain ⟨u', e, h'⟩ := (h.mem ()).free (b := ⟨p, size, maxAlign⟩) (T := []) hu
    refine ⟨u', ?_, h'⟩
    simp only [Kind.contiguous, Contig.destroy, hI.1, hI.2.1]
    exact e

theorem Kind.terminal_spec {P : Empty → Port} {q : Port} : ∃ J, KindSpec .terminal P q J := by
  refine ⟨fun _ L H => L = [] ∧ H = [], ?_, ?_, ?_, ?_, ?_⟩
  · intro σ ups I h u hI
    exact .inl ⟨(), u, [], rfl, ⟨rfl, rfl⟩, hI⟩
  · intro σ ups I h
    refine Acts.serves ⟨?_, ?_, ?_, ?_⟩ ?_ ?_
    · intro x L n a hx hq hn; exact .inr ⟨x, rfl, hx⟩
    · intro x L a hx hq; exact ⟨_, x, rfl, .inr rfl, hx⟩
    · rintro x L b ⟨H, ⟨h1, _⟩, _⟩; cases h1
    · intro x L n a hx; exact ⟨x, rfl, hx⟩
    · rintro x L ⟨H, ⟨rfl, _⟩, _⟩; simp [Live]
    · rintro x L L' ⟨H, ⟨rfl, h2⟩, h3⟩ hp
      exact ⟨H, ⟨hp.nil_eq.symm, h2⟩, h3⟩
  · rintro σ ups I h _ t u L H ⟨rfl, _⟩ _ b c hb; simp at hb
  · rintro σ ups I h t u L H ⟨rfl, _⟩ _ b hb; simp at hb
  · rintro σ ups I h t u H ⟨_, rfl⟩ hu; exact ⟨u, rfl, hu⟩

theorem Kind.identity_spec {q : Port} : ∃ J, KindSpec .identity (fun _ => q) q J := by
  refine ⟨_, KindSpec.of_forward (K := .identity) (fun _ _ => True) () (fun _ _ => trivial) trivial
    (fun _ _ _ => rfl) (fun _ _ => rfl) (fun _ _ _ => rfl) ?_ (fun _ _ _ => rfl) ?_ (fun _ _ _ _ => rfl)⟩
  · intro σ ups I h t u H n a _ hI hq hn
    have e : ((Kind.identity).mr ups).allocate (t, u) n a =
        (((ups ()).allocate u n a).1, ((), ((ups ()).allocate u n a).2)) := by
      simp [Kind.identity, MR.via, identityMR, Nat.pos_iff_ne_zero.1 hn]
    rw [e]
    rcases (h.mem ()).alloc hI hq hn with ⟨p, u', e, h'⟩ | ⟨u', e, h'⟩
    · rw [e]; exact .inl ⟨(), p, (), u', rfl, trivial, h'⟩
    · rw [e]; exact .inr ⟨(), u', rfl, trivial, h'⟩
  · intro σ ups I h t u H i b _ hI
    have hb : b.addr ≠ 0 := (h.tidy.wf hI _ List.mem_cons_self).1
    have e : ((Kind.identity).mr ups).deallocate (t, u) b.addr b.size b.align =
        (((ups ()).deallocate u b.addr b.size b.align).1,
          ((), ((ups ()).deallocate u b.addr b.size b.align).2)) := by
      simp [Kind.identity, MR.via, identityMR, hb]
    rw [e]
    obtain ⟨u', e, h'⟩ := (h.mem ()).free hI
    rw [e]; exact ⟨(), u', rfl, trivial, h'⟩

theorem Kind.conditional_spec {π : Type} {pred : π → Nat → Nat → Bool × π} {d : π} {q : Port} :
    ∃ J, KindSpec (.conditional pred d) (fun _ => q) q J := by
  refine ⟨_, KindSpec.of_forward (K := .conditional pred d) (fun _ _ => True) d (fun _ _ => trivial) trivial
    (fun _ _ _ => rfl) (fun _ _ => rfl) (fun _ _ _ => rfl) ?_ (fun _ _ _ => rfl) ?_ (fun _ _ _ _ => rfl)⟩
  · intro σ ups I h t u H n a _ hI hq hn
    have e : ((Kind.conditional pred d).mr ups).allocate (t, u) n a =
        if (pred t n a).1 then (((ups ()).allocate u n a).1, ((pred t n a).2, ((ups ()).allocate u n a).2))
        else (.badAlloc, ((pred t n a).2, u)) := by
      simp [Kind.conditional, conditionalMR, pimpl, Nat.pos_iff_ne_zero.1 hn]
    rw [e]
    split
    · rcases (h.mem ()).alloc hI hq hn with ⟨p, u', e, h'⟩ | ⟨u', e, h'⟩
      · rw [e]; exact .inl ⟨(), p, _, u', rfl, trivial, h'⟩
      · rw [e]; exact .inr ⟨_, u', rfl, trivial, h'⟩
    · exact .inr ⟨_, u, rfl, trivial, hI⟩
  · intro σ ups I h t u H i b _ hI
    have hb : b.addr ≠ 0 := (h.tidy.wf hI _ List.mem_cons_self).1
    have e : ((Kind.conditional pred d).mr ups).deallocate (t, u) b.addr b.size b.align =
        (((ups ()).deallocate u b.addr b.size b.align).1,
          (t, ((ups ()).deallocate u b.addr b.size b.align).2)) := by
      simp [Kind.conditional, conditionalMR, pimpl, hb]
    rw [e]
    obtain ⟨u', e, h'⟩ := (h.mem ()).free hI
    rw [e]; exact ⟨t, u', rfl, trivial, h'⟩

theorem foldl_hooks {σ η α : Type} (F : α → σ × η → σ × η) (hF : ∀ x w, (F x w).1 = w.1) (fs : List α) :
    ∀ w, (fs.foldl (fun w x => F x w) w).1 = w.1 := by
  induction fs with
  | nil => intro w; rfl
  | cons x fs ih => intro w; exact (ih _).trans (hF x w)

theorem Kind.instrumenting_inv {η : Type} {pre : List (η → Nat → Nat → η)}
    {post del : List (η → Nat → Nat → Nat → η)} {h0 : η} {q : Port} :
    KindSpec (.instrumenting pre post del h0) (fun _ => q) q (fun t L H => (H.map (·.2)).Perm L ∧ True) := by
  refine KindSpec.of_forward (K := .instrumenting pre post del h0) (fun _ _ => True) ([], h0)
    (fun _ _ => trivial) trivial
    (fun _ _ _ => rfl) (fun _ _ => rfl) (fun _ _ _ => rfl) ?_ (fun _ _ _ => rfl) ?_ (fun _ _ _ _ => rfl)
  · intro σ ups I h t u H n a _ hI hq hn
    have hn' := Nat.pos_iff_ne_zero.1 hn
    have hpre : ∀ w : σ × η, ((pre.map fun f (w : σ × η) n a => (w.1, f w.2 n a)).foldl
        (fun w f => f w n a) w).1 = w.1 := by
      intro w
      rw [List.foldl_map]
      exact foldl_hooks (fun (f : η → Nat → Nat → η) (w : σ × η) => (w.1, f w.2 n a)) (fun _ _ => rfl) _ w
    have hpost : ∀ (p : Nat) (w : σ × η), ((post.map fun f (w : σ × η) n a p => (w.1, f w.2 n a p)).foldl
        (fun w f => f w n a p) w).1 = w.1 := by
      intro p w
      rw [List.foldl_map]
      exact foldl_hooks (fun (f : η → Nat → Nat → Nat → η) (w : σ × η) => (w.1, f w.2 n a p)) (fun _ _ => rfl) _ w
    simp only [Kind.instrumenting, MR.via, instrumentingMR, pimpl, hn', if_false, Instr.allocate, liftFst, hpre]
    rcases (h.mem ()).alloc hI hq hn with ⟨p, u', e, h'⟩ | ⟨u', e, h'⟩
    · have hp : p ≠ 0 := (h.tidy.wf h' _ List.mem_cons_self).1
      simp only [e, Instr.finish, hp, if_false, hpost]
      exact .inl ⟨(), p, _, u', rfl, trivial, h'⟩
    · simp only [e, Instr.finish, if_true, hpost]
      exact .inr ⟨_, u', rfl, trivial, h'⟩
  · intro σ ups I h t u H i b _ hI
    have hb : b.addr ≠ 0 := (h.tidy.wf hI _ List.mem_cons_self).1
    have hdel : ∀ w : σ × η, ((del.map fun f (w : σ × η) p n a => (w.1, f w.2 p n a)).foldl
        (fun w f => f w b.addr b.size b.align) w).1 = w.1 := by
      intro w
      rw [List.foldl_map]
      exact foldl_hooks (fun (f : η → Nat → Nat → Nat → η) (w : σ × η) => (w.1, f w.2 b.addr b.size b.align)) (fun _ _ => rfl) _ w
    simp only [Kind.instrumenting, MR.via, instrumentingMR, pimpl, hb, if_false, Instr.deallocate, liftFst, hdel]
    obtain ⟨u', e, h'⟩ := (h.mem ()).free hI
    simp only [e]
    exact ⟨_, u', rfl, trivial, h'⟩

theorem Kind.instrumenting_spec {η : Type} {pre : List (η → Nat → Nat → η)}
    {post del : List (η → Nat → Nat → Nat → η)} {h0 : η} {q : Port} :
    ∃ J, KindSpec (.instrumenting pre post del h0) (fun _ => q) q J := ⟨_, Kind.instrumenting_inv⟩

/-- The records of a debugging resource. -/
def DebugRec (t : List (Nat × (Nat × Nat))) (H : List (ι × Blk)) : Prop :=
  ∃ acc : List Blk, acc.Perm (H.map (·.2)) ∧ t = acc.map Debug.enc

theorem Kind.debug_inv {q : Port} :
    KindSpec .debug (fun _ => q) q (fun t L H => (H.map (·.2)).Perm L ∧ DebugRec t H) := by
  refine KindSpec.of_forward (K := .debug) DebugRec []
    ?_ ⟨[], .refl _, rfl⟩
    (fun _ _ _ => rfl) (fun _ _ => rfl) (fun _ _ _ => rfl) ?_ (fun _ _ _ => rfl) ?_ (fun _ _ _ _ => rfl)
  · rintro t H H' ⟨acc, h1, h2⟩ hp; exact ⟨acc, h1.trans (hp.map _), h2⟩
  · rintro σ ups I h t u H n a ⟨acc, h1, rfl⟩ hI hq hn
    have hl := (h.tidy.live (fun _ => rfl) hI).perm h1.symm
    have hD : Debug.Inv (⟨acc.map Debug.enc, u⟩ : Debug σ) acc := ⟨rfl, hl.2, fun b hb => (hl.1 b hb).2.2.2.1⟩
    obtain ⟨d1, d2⟩ := Debug.allocate_eq (up := ups ()) hD hn a
    simp only [Kind.debug, MR.via]
    rcases (h.mem ()).alloc hI hq hn with ⟨p, u', e, h'⟩ | ⟨u', e, h'⟩
    · simp only [e] at d1
      have hdj : ∀ b ∈ acc, Blk.Disjoint ⟨p, n, a⟩ b := by
        intro b hb
        obtain ⟨x, hx, rfl⟩ := List.mem_map.1 (h1.subset hb)
        exact (List.pairwise_cons.1 (h.tidy.disj h')).1 x hx
      rw [(d1 p rfl).2 hdj]
      exact .inl ⟨(), p, _, u', rfl, ⟨⟨p, n, a⟩ :: acc, h1.cons _, rfl⟩, h'⟩
    · simp only [e] at d2
      rw [d2 (by simp)]
      exact .inr ⟨_, u', rfl, ⟨acc, h1, rfl⟩, h'⟩
  · rintro σ ups I h t u H i b ⟨acc, h1, rfl⟩ hI
    have hl := (h.tidy.live (fun _ => rfl) hI).perm h1.symm
    have hD : Debug.Inv (⟨acc.map Debug.enc, u⟩ : Debug σ) acc := ⟨rfl, hl.2, fun b hb => (hl.1 b hb).2.2.2.1⟩
    have hb : b.addr ≠ 0 := (h.tidy.wf hI _ List.mem_cons_self).1
    have hm : b ∈ acc := h1.symm.subset (by simp)
    obtain ⟨e1, e2, e3⟩ := (Debug.deallocate_eq (up := ups ()) hD hb b.size b.align).2 hm
    obtain ⟨u', e, h'⟩ := (h.mem ()).free hI
    simp only [Kind.debug, MR.via]
    rw [e] at e1 e2 e3
    simp only [if_true] at e1 e2 e3
    rw [e1, e2, e3]
    refine ⟨_, u', rfl, ⟨acc.erase b, ?_, Debug.erase_enc hl.2 hD.2.2 hm⟩, h'⟩
    have := h1.erase b
    simpa using this

theorem Kind.debug_spec {q : Port} : ∃ J, KindSpec .debug (fun _ => q) q J := ⟨_, Kind.debug_inv⟩

theorem Kind.choice_inv {ι π : Type} {decision : π → Nat → Nat → ι × π} {d : π} {R : Limits} {G : Nat} :
    KindSpec (.choice decision d) (fun _ => ⟨R, G, false⟩) ⟨R, G, false⟩
      (fun t L H => (H.map (·.2)).Perm L ∧ RecInv t.2 H) := by
  refine KindSpec.of_forward (K := .choice decision d)
    (fun t H => RecInv t.2 H) (d, []) (fun h hp => h.perm hp) ⟨by simp, by simp⟩
    (fun h => by simp at h) (fun _ _ => rfl) (fun _ _ _ => rfl) ?_ (fun _ _ _ => rfl) ?_ (fun _ _ _ _ => rfl)
  · intro σ ups I h t u H n a hE hI hq hn
    simp only [Kind.choice, MR.via, choiceMR, pimpl, Nat.pos_iff_ne_zero.1 hn, if_false, Choice.allocate]
    rcases (h.mem (decision t.1 n a).1).alloc hI hq hn with ⟨p, u', e, h'⟩ | ⟨u', e, h'⟩
    · simp only [e]
      refine .inl ⟨_, p, _, u', rfl, hE.add _ ⟨p, n, a⟩ ?_, h'⟩
      intro x hx
      exact addr_ne_of_disjoint ((List.pairwise_cons.1 (h.tidy.disj h')).1 x hx) hn
        (h.tidy.wf hI x hx).2.2.2.1
    · simp only [e]; exact .inr ⟨_, u', rfl, hE, h'⟩
  · intro σ ups I h t u H i b hE hI
    have hw := h.tidy.wf hI _ List.mem_cons_self
    simp only [Kind.choice, MR.via, choiceMR, pimpl, hw.1, if_false,
      recordedDeallocate_eq hE List.mem_cons_self hw.1]
    obtain ⟨u', e, h'⟩ := (h.mem i).free hI
    simp only [e]
    refine ⟨_, u', rfl, hE.remove ?_, h'⟩
    intro x hx
    exact addr_ne_of_disjoint ((List.pairwise_cons.1 (h.tidy.disj hI)).1 x hx) hw.2.2.2.1
      (h.tidy.wf h' x hx).2.2.2.1

theorem Kind.choice_spec {ι π : Type} {decision : π → Nat → Nat → ι × π} {d : π} {R : Limits} {G : Nat} :
    ∃ J, KindSpec (.choice decision d) (fun _ => ⟨R, G, false⟩) ⟨R, G, false⟩ J := ⟨_, Kind.choice_inv⟩

theorem Kind.coalescing_inv {ι : Type} {order : List ι} {R : Limits} {G : Nat} :
    KindSpec (.coalescing order) (fun _ => ⟨R, G, false⟩) ⟨R, G, false⟩
      (fun t L H => (H.map (·.2)).Perm L ∧ RecInv t H) := by
  refine KindSpec.of_forward (K := .coalescing order)
    (fun t H => RecInv t H) [] (fun h hp => h.perm hp) ⟨by simp, by simp⟩
    (fun h => by simp at h) (fun _ _ => rfl) (fun _ _ _ => rfl) ?_ (fun _ _ _ => rfl) ?_ (fun _ _ _ _ => rfl)
  · intro σ ups I h t u H n a hE hI hq hn
    simp only [Kind.coalescing, MR.via, coalescingMR, pimpl, Nat.pos_iff_ne_zero.1 hn, if_false]
    have key : ∀ (is : List ι) (u : σ), I u H →
        (∃ i p t' u', Coalescing.tryAll ups n a is ⟨t, u⟩ = (.ok p, ⟨t', u'⟩) ∧ RecInv t' ((i, ⟨p, n, a⟩) :: H) ∧
          I u' ((i, ⟨p, n, a⟩) :: H)) ∨
        ∃ u', Coalescing.tryAll ups n a is ⟨t, u⟩ = (.badAlloc, ⟨t, u'⟩) ∧ I u' H := by
      intro is
      induction is with
      | nil => intro u hI; exact .inr ⟨u, rfl, hI⟩
      | cons i is ih =>
        intro u hI
        rcases (h.mem i).alloc hI hq hn with ⟨p, u', e, h'⟩ | ⟨u', e, h'⟩
        · left
          refine ⟨i, p, _, u', ?_, hE.add _ ⟨p, n, a⟩ ?_, h'⟩
          · simp only [Coalescing.tryAll, e]
          · intro x hx
            exact addr_ne_of_disjoint ((List.pairwise_cons.1 (h.tidy.disj h')).1 x hx) hn
              (h.tidy.wf hI x hx).2.2.2.1
        · simp only [Coalescing.tryAll, e]
          exact ih u' h'
    rcases key order u hI with ⟨i, p, t', u', e, h1, h2⟩ | ⟨u', e, h2⟩
    · rw [e]; exact .inl ⟨i, p, t', u', rfl, h1, h2⟩
    · rw [e]; exact .inr ⟨t, u', rfl, hE, h2⟩
  · intro σ ups I h t u H i b hE hI
    have hw := h.tidy.wf hI _ List.mem_cons_self
    simp only [Kind.coalescing, MR.via, coalescingMR, pimpl, hw.1, if_false,
      recordedDeallocate_eq hE List.mem_cons_self hw.1]
    obtain ⟨u', e, h'⟩ := (h.mem i).free hI
    simp only [e]
    refine ⟨_, u', rfl, hE.remove ?_, h'⟩
    intro x hx
    exact addr_ne_of_disjoint ((List.pairwise_cons.1 (h.tidy.disj hI)).1 x hx) hw.2.2.2.1
      (h.tidy.wf h' x hx).2.2.2.1

theorem Kind.coalescing_spec {ι : Type} {order : List ι} {R : Limits} {G : Nat} :
    ∃ J, KindSpec (.coalescing order) (fun _ => ⟨R, G, false⟩) ⟨R, G, false⟩ J := ⟨_, Kind.coalescing_inv⟩

theorem Works.spec {K : Kind} {P : K.ι → Port} {q : Port} (h : Works K P q) : ∃ J, KindSpec K P q J := by
  induction h with
  | pool h1 h2 h3 h4 h5 => exact Kind.pool_spec h1 h2 h3 h4 h5
  | binaryPage h => exact Kind.binaryPage_spec h
  | arena h1 h2 h3 h4 h5 h6 h7 => exact Kind.arena_spec h1 h2 h3 h4 h5 h6 h7
  | contiguous h1 h2 => exact Kind.contiguous_spec h1 h2
  | identity => exact Kind.identity_spec
  | debug => exact Kind.debug_spec
  | conditional => exact Kind.conditional_spec
  | instrumenting => exact Kind.instrumenting_spec
  | choice => exact Kind.choice_spec
  | coalescing => exact Kind.coalescing_spec
  | terminal => exact Kind.terminal_spec
  | weaken _ h1 h2 ih =>
    obtain ⟨J, hJ⟩ := ih
    exact ⟨_, hJ.weaken h1 h2⟩

end Vecmem
