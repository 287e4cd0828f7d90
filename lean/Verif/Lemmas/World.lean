import Verif.Lemmas.Kinds

/-!
# Programs with many resources: the invariant
-/

namespace Vecmem

/-! ## Slots -/

section

variable {τ : Nat → Type}

theorem setLoc_self (f : (k : Nat) → Option (τ k)) (k : Nat) (x : Option (τ k)) : setLoc f k x k = x := by
  simp [setLoc]

theorem setLoc_ne (f : (k : Nat) → Option (τ k)) {k j : Nat} (x : Option (τ k)) (h : j ≠ k) :
    setLoc f k x j = f j := by simp [setLoc, h]

theorem setLoc_setLoc (f : (k : Nat) → Option (τ k)) (k : Nat) (x y : Option (τ k)) :
    setLoc (setLoc f k x) k y = setLoc f k y := by
  funext j
  by_cases h : j = k
  · subst h; rw [setLoc_self, setLoc_self]
  · rw [setLoc_ne _ _ h, setLoc_ne _ _ h, setLoc_ne _ _ h]

theorem setLoc_comm (f : (k : Nat) → Option (τ k)) {k j : Nat} (h : k ≠ j) (x : Option (τ k))
    (y : Option (τ j)) : setLoc (setLoc f k x) j y = setLoc (setLoc f j y) k x := by
  funext i
  by_cases h1 : i = k
  · subst h1; rw [setLoc_self, setLoc_ne _ _ h, setLoc_self]
  · rw [setLoc_ne _ _ h1]
    by_cases h2 : i = j
    · subst h2; rw [setLoc_self, setLoc_self]
    · rw [setLoc_ne _ _ h2, setLoc_ne _ _ h2, setLoc_ne _ _ h1]

theorem setLoc_same (f : (k : Nat) → Option (τ k)) (k : Nat) : setLoc f k (f k) = f := by
  funext i
  by_cases h1 : i = k
  · subst h1; rw [setLoc_self]
  · rw [setLoc_ne _ _ h1]

end

section

variable {β σ : Type} {bases : β → MR σ} {g : (k : Nat) → Decl β k} {P : β ⊕ Nat → Port}
  {I0 : σ → List (β × Blk) → Prop} {J : (k : Nat) → (g k).kind.τ → List Blk → List ((g k).kind.ι × Blk) → Prop}

theorem nodeMR'_eq (n : Nat) : ∀ k, k < n → nodeMR' bases g n k = nodeMR bases g k := by
  induction n using Nat.strongRecOn with
  | _ n ih =>
    intro k hk
    obtain ⟨n, rfl⟩ := Nat.exists_eq_succ_of_ne_zero (by omega : n ≠ 0)
    unfold nodeMR nodeMR'
    congr 2
    funext i
    cases h : (g k).up i with
    | inl b => rfl
    | inr j =>
      have := j.isLt
      simp only
      rw [ih n (by omega) j.val (by omega)]
      rcases Nat.lt_or_ge k n with hkn | hkn
      · rw [ih k (by omega) j.val (by omega)]
      · obtain rfl : n = k := by omega
        rw [ih n (by omega) j.val (by omega)]

theorem nodeMR_eq (k : Nat) : nodeMR bases g k = onSlot k ((g k).kind.mr (upstreams bases g k)) := by
  rw [nodeMR, nodeMR']
  congr 2
  funext i
  unfold upstreams Decl.ref
  cases (g k).up i with
  | inl b => rfl
  | inr j => exact nodeMR'_eq k j.val j.isLt

section
variable {E : Bool}

theorem errs_base (b : β) : errs E (worldMR bases g (.inl b)) = onBase (errs E (bases b)) := by cases E <;> rfl

theorem errs_node (k : Nat) :
    errs E (worldMR bases g (.inr k)) = onSlot k (errs E ((g k).kind.mr (upstreams bases g k))) := by
  have h : worldMR bases g (.inr k) = onSlot k ((g k).kind.mr (upstreams bases g k)) := nodeMR_eq k
  rw [h]
  cases E with
  | false => rfl
  | true =>
    simp only [errs, asBadAlloc, onSlot, MR.mk.injEq, and_true]
    funext w n a
    cases w.loc k <;> rfl

theorem errsR_create (k : Nat) (w : World σ g) : errsR E (createAt bases g k w) =
    match errsR E ((g k).kind.create (upstreams bases g k) w) with
    | (.ok t, w') => (.ok (), w'.set k (some t))
    | (e, w') => (e.map fun _ => (), w') := by
  unfold createAt
  cases E with
  | false => rfl
  | true =>
    generalize (g k).kind.create (upstreams bases g k) w = x
    obtain ⟨r, w'⟩ := x
    cases r <;> rfl

end

def baseTag (L : List (β × Blk)) : List ((β ⊕ Nat) × Blk) := L.map fun e => (.inl e.1, e.2)

def nodeTag (β : Type) (k : Nat) (L : List Blk) : List ((β ⊕ Nat) × Blk) := L.map fun b => (.inr k, b)

def refTag (g : (k : Nat) → Decl β k) (k : Nat) (H : List ((g k).kind.ι × Blk)) : List ((β ⊕ Nat) × Blk) :=
  H.map fun e => ((g k).ref e.1, e.2)

/-- Resource `k` with data `x`, live blocks `L` and upstream blocks `H`. -/
def Layer (J : (k : Nat) → (g k).kind.τ → List Blk → List ((g k).kind.ι × Blk) → Prop) (k : Nat)
    (alive : Bool) : Option (g k).kind.τ → List Blk → List ((g k).kind.ι × Blk) → Prop
  | none, L, H => alive = false ∧ L = [] ∧ H = []
  | some t, L, H => alive = true ∧ J k t L H

/-- The resources below `n` are in order, `A` telling which of them exist; `f` is what the slots from `n` on
contain.  `T` are the live blocks of the resources below `n`, including those held by resources from `n` on. -/
def RR (I0 : σ → List (β × Blk) → Prop)
    (J : (k : Nat) → (g k).kind.τ → List Blk → List ((g k).kind.ι × Blk) → Prop) (A : Nat → Bool) :
    Nat → ((k : Nat) → Option (g k).kind.τ) → World σ g → List ((β ⊕ Nat) × Blk) → Prop
  | 0, f, w, T => w.loc = f ∧ ∃ T0, T.Perm (baseTag T0) ∧ I0 w.base T0
  | n + 1, f, w, T => ∃ x L H T', T.Perm (nodeTag β n L ++ T') ∧ Layer J n (A n) x L H ∧
      RR I0 J A n (setLoc f n x) w (refTag g n H ++ T')

/-- The resource is a base resource, or exists and is below `n`. -/
def Up (A : Nat → Bool) (n : Nat) : β ⊕ Nat → Prop
  | .inl _ => True
  | .inr k => k < n ∧ A k = true

/-- Existing resources have existing upstreams. -/
def Closed (g : (k : Nat) → Decl β k) (A : Nat → Bool) : Prop := ∀ k, A k = true → ∀ i, Up A k ((g k).ref i)

variable {A A' : Nat → Bool} {E : Bool}

theorem RR.perm : ∀ {n : Nat} {f : (k : Nat) → Option (g k).kind.τ} {w : World σ g} {T T'},
    RR I0 J A n f w T → T.Perm T' → RR I0 J A n f w T'
  | 0, f, w, T, T', ⟨h1, T0, h2, h3⟩, hp => ⟨h1, T0, hp.symm.trans h2, h3⟩
  | n + 1, f, w, T, T', ⟨x, L, H, T1, h1, h2, h3⟩, hp => ⟨x, L, H, T1, hp.symm.trans h1, h2, h3⟩

theorem RR.loc : ∀ {n : Nat} {f : (k : Nat) → Option (g k).kind.τ} {w : World σ g} {T},
    RR I0 J A n f w T → ∀ {j}, n ≤ j → w.loc j = f j
  | 0, f, w, T, ⟨h1, _⟩, j, _ => by rw [h1]
  | n + 1, f, w, T, ⟨x, L, H, T1, h1, h2, h3⟩, j, hj => by
    rw [h3.loc (by omega), setLoc_ne _ _ (by omega)]

theorem RR.set : ∀ {n : Nat} {f : (k : Nat) → Option (g k).kind.τ} {w : World σ g} {T},
    RR I0 J A n f w T → ∀ {j} (y : Option (g j).kind.τ), n ≤ j →
    RR I0 J A n (setLoc f j y) (w.set j y) T
  | 0, f, w, T, ⟨h1, T0, h2, h3⟩, j, y, _ => ⟨by rw [← h1]; rfl, T0, h2, h3⟩
  | n + 1, f, w, T, ⟨x, L, H, T1, h1, h2, h3⟩, j, y, hj =>
    ⟨x, L, H, T1, h1, h2, by
      rw [setLoc_comm _ (by omega)]
      exact h3.set y (by omega)⟩

theorem RR.congr : ∀ {n : Nat} {f : (k : Nat) → Option (g k).kind.τ} {w : World σ g} {T},
    RR I0 J A n f w T → (∀ k, k < n → A' k = A k) → RR I0 J A' n f w T
  | 0, f, w, T, h, _ => h
  | n + 1, f, w, T, ⟨x, L, H, T1, h1, h2, h3⟩, he =>
    ⟨x, L, H, T1, h1, by rw [he n (by omega)]; exact h2, h3.congr fun k hk => he k (by omega)⟩

theorem RR.alive : ∀ {n : Nat} {f : (k : Nat) → Option (g k).kind.τ} {w : World σ g} {T},
    RR I0 J A n f w T → ∀ {k}, k < n → (w.loc k).isSome = A k
  | n + 1, f, w, T, ⟨x, L, H, T1, h1, h2, h3⟩, k, hk => by
    by_cases h : k = n
    · subst h
      rw [h3.loc (Nat.le_refl _), setLoc_self]
      cases x
      · exact h2.1.symm
      · exact h2.1.symm
    · exact h3.alive (by omega)

/-- More slots. -/
theorem RR.extend {n m : Nat} {f : (k : Nat) → Option (g k).kind.τ} {w : World σ g} {T} (hm : n ≤ m)
    (h : RR I0 J A n f w T) (hf : ∀ k, n ≤ k → f k = none) (hA : ∀ k, n ≤ k → A k = false) :
    RR I0 J A m f w T := by
  induction m, hm using Nat.le_induction with
  | base => exact h
  | succ m hm ih =>
    refine ⟨none, [], [], T, .refl _, ⟨hA m hm, rfl, rfl⟩, ?_⟩
    have : setLoc f m none = f := by
      have := setLoc_same f m
      rwa [hf m hm] at this
    rw [this]
    exact ih

theorem Up.mono {n m : Nat} {x : β ⊕ Nat} (h : Up A n x) (hm : n ≤ m) : Up A m x := by
  cases x
  · trivial
  · exact ⟨Nat.lt_of_lt_of_le h.1 hm, h.2⟩

/-- The upstreams of resource `n`, with the other blocks `T'` fixed. -/
theorem RR.up {n : Nat} (iT : ∀ f, Tidy P (RR I0 J A n f))
    (iM : ∀ f x, Up A n x → Member (P x).R (errs E (worldMR bases g x)) (RR I0 J A n f) x)
    (hn : ∀ i, Up A n ((g n).ref i)) (f : (k : Nat) → Option (g k).kind.τ) (T' : List ((β ⊕ Nat) × Blk)) :
    FServes (fun i => P ((g n).ref i)) (fun i => errs E (upstreams bases g n i))
      (fun w H => RR I0 J A n f w (refTag g n H ++ T')) := by
  have hT := iT f
  have mem : ∀ {i b H}, (i, b) ∈ H → ((g n).ref i, b) ∈ refTag g n H ++ T' :=
    fun h => List.mem_append_left _ (List.mem_map.2 ⟨_, h, rfl⟩)
  refine ⟨⟨?_, ?_, ?_, ?_⟩, ?_⟩
  · intro w H h e he
    exact hT.wf h _ (mem he)
  · intro w H h
    have := (List.pairwise_append.1 (hT.disj h)).1
    unfold refTag at this
    rw [List.pairwise_map] at this
    exact this
  · intro w H h i hi b c hb hc
    exact hT.gap h hi (mem hb) (mem hc)
  · intro w H H' h hp
    exact h.perm ((hp.map _).append_right _)
  · intro i
    have hm := iM f _ (hn i)
    refine ⟨?_, ?_, ?_, ?_⟩
    · intro w H n a h hq hn
      exact hm.alloc h hq hn
    · intro w H a h hq
      exact hm.zero h hq
    · intro w H b h
      exact hm.free h
    · intro w H n a h
      exact hm.null n a h

/-- Requests are answered correctly in all states described by `RR`. -/
theorem RR.all (hb : FServes (fun b => P (.inl b)) (fun b => errs E (bases b)) I0)
    (hJ : ∀ k, KindSpecE E (g k).kind (fun i => P ((g k).ref i)) (P (.inr k)) (J k)) (hA : Closed g A) :
    ∀ n, (∀ f, Tidy P (RR I0 J A n f)) ∧
      (∀ {f w T}, RR I0 J A n f w T → ∀ e ∈ T, Up A n e.1) ∧
      (∀ f x, Up A n x → Member (P x).R (errs E (worldMR bases g x)) (RR I0 J A n f) x) := by
  intro n
  induction n with
  | zero =>
    refine ⟨?_, ?_, ?_⟩
    · intro f
      refine ⟨?_, ?_, ?_, fun h hp => h.perm hp⟩
      · rintro w T ⟨h1, T0, h2, h3⟩ e he
        obtain ⟨e0, he0, rfl⟩ := List.mem_map.1 (h2.subset he)
        exact hb.tidy.wf h3 e0 he0
      · rintro w T ⟨h1, T0, h2, h3⟩
        refine h2.symm.pairwise ?_ (fun h => h.symm)
        exact List.pairwise_map.2 (hb.tidy.disj h3)
      · rintro w T ⟨h1, T0, h2, h3⟩ i hi b c hm hc
        obtain ⟨⟨j, b0⟩, hb0, e⟩ := List.mem_map.1 (h2.subset hm)
        obtain ⟨rfl, rfl⟩ := Prod.mk.inj e
        obtain ⟨⟨j', c0⟩, hc0, e⟩ := List.mem_map.1 (h2.subset hc)
        obtain ⟨e1, rfl⟩ := Prod.mk.inj e
        obtain rfl := Sum.inl.inj e1
        exact hb.tidy.gap h3 hi hb0 hc0
    · rintro f w T ⟨h1, T0, h2, h3⟩ e he
      obtain ⟨e0, he0, rfl⟩ := List.mem_map.1 (h2.subset he)
      trivial
    · intro f x hx
      cases x with
      | inr k => exact absurd hx.1 (by omega)
      | inl b =>
      have hm := hb.mem b
      refine ⟨?_, ?_, ?_, ?_⟩
      · rintro w T n a ⟨h1, T0, h2, h3⟩ hq hn
        rcases hm.alloc h3 hq hn with ⟨p, s', e, h'⟩ | ⟨s', e, h'⟩
        · exact .inl ⟨p, ⟨s', w.loc⟩, by simp only [errs_base, onBase, e], h1, _, h2.cons _, h'⟩
        · exact .inr ⟨⟨s', w.loc⟩, by simp only [errs_base, onBase, e], h1, _, h2, h'⟩
      · rintro w T a ⟨h1, T0, h2, h3⟩ hq
        obtain ⟨r, s', e, hr, h'⟩ := hm.zero h3 hq
        exact ⟨r, ⟨s', w.loc⟩, by simp only [errs_base, onBase, e], hr, h1, _, h2, h'⟩
      · rintro w T c ⟨h1, T0, h2, h3⟩
        obtain ⟨⟨j, c0⟩, hc0, e⟩ := List.mem_map.1 (h2.subset List.mem_cons_self)
        obtain ⟨e1, rfl⟩ := Prod.mk.inj e
        obtain rfl := Sum.inl.inj e1
        obtain ⟨T1, T2, rfl⟩ := List.append_of_mem hc0
        obtain ⟨s', e, h'⟩ := hm.free (hb.tidy.perm h3 List.perm_middle)
        refine ⟨⟨s', w.loc⟩, by simp only [errs_base, onBase, e], h1, _, ?_, h'⟩
        have := h2.trans (List.Perm.map _ (List.perm_middle))
        exact this.cons_inv
      · rintro w T n a ⟨h1, T0, h2, h3⟩
        obtain ⟨s', e, h'⟩ := hm.null n a h3
        exact ⟨⟨s', w.loc⟩, by simp only [errs_base, onBase, e], h1, _, h2, h'⟩
  | succ n ih =>
    obtain ⟨iT, iU, iM⟩ := ih
    -- the upstreams of resource `n`
    have hF := fun hn => RR.up iT iM (hA n hn)
    have layer : ∀ {w : World σ g} {f : (k : Nat) → Option (g k).kind.τ} {x L H T'}, Layer J n (A n) x L H →
        RR I0 J A n (setLoc f n x) w (refTag g n H ++ T') →
        (∀ b ∈ L, b.Wf (P (.inr n)).R (P (.inr n)).G) ∧ L.Pairwise Blk.Disjoint ∧
        (∀ b ∈ L, ∃ e ∈ H, b.Inside e.2) ∧
        ((P (.inr n)).gap = true → ∀ b ∈ L, ∀ c ∈ L, b.addr + b.size ≠ c.addr) ∧
        (L ≠ [] → A n = true) := by
      intro w f x L H T' hl hr
      cases x with
      | none =>
        obtain ⟨_, rfl, rfl⟩ := hl
        simp
      | some t =>
        have hF' := hF hl.1 (setLoc f n (some t)) T'
        have := ((hJ n).serves hF').live (s := (t, w)) ⟨H, hl.2, hr⟩
        exact ⟨this.1, this.2, fun b hb => (hJ n).inside hF' hl.2 hr hb,
          fun hg b hb c hc => (hJ n).gap hF' hg hl.2 hr hb hc, fun _ => hl.1⟩
    refine ⟨?_, ?_, ?_⟩
    · intro f
      refine ⟨?_, ?_, ?_, fun h hp => h.perm hp⟩
      · rintro w T ⟨x, L, H, T', h1, h2, h3⟩ e he
        rcases List.mem_append.1 (h1.subset he) with he | he
        · obtain ⟨b, hb, rfl⟩ := List.mem_map.1 he
          exact (layer h2 h3).1 b hb
        · exact (iT _).wf h3 e (List.mem_append_right _ he)
      · rintro w T ⟨x, L, H, T', h1, h2, h3⟩
        refine h1.symm.pairwise ?_ (fun h => h.symm)
        obtain ⟨_, l2, l3, _⟩ := layer h2 h3
        have hd := List.pairwise_append.1 ((iT _).disj h3)
        refine List.pairwise_append.2 ⟨List.pairwise_map.2 l2, hd.2.1, ?_⟩
        intro e he c hc
        obtain ⟨b, hb, rfl⟩ := List.mem_map.1 he
        obtain ⟨e, he, hin⟩ := l3 b hb
        exact (hd.2.2 _ (List.mem_map.2 ⟨e, he, rfl⟩) c hc).mono hin ⟨Nat.le_refl _, Nat.le_refl _⟩
      · rintro w T ⟨x, L, H, T', h1, h2, h3⟩ i hi b c hb hc
        obtain ⟨_, _, _, l4, _⟩ := layer h2 h3
        have hT' : ∀ e ∈ T', e.1 ≠ .inr n := by
          intro e he hh
          have := iU h3 e (List.mem_append_right _ he)
          rw [hh] at this
          exact absurd this.1 (by omega)
        rcases List.mem_append.1 (h1.subset hb) with hb | hb <;>
          rcases List.mem_append.1 (h1.subset hc) with hc | hc
        · obtain ⟨b, hb', e⟩ := List.mem_map.1 hb
          obtain ⟨rfl, rfl⟩ := Prod.mk.inj e
          obtain ⟨c, hc', e⟩ := List.mem_map.1 hc
          obtain ⟨_, rfl⟩ := Prod.mk.inj e
          exact l4 hi b hb' c hc'
        · obtain ⟨b, hb, e⟩ := List.mem_map.1 hb
          obtain ⟨rfl, rfl⟩ := Prod.mk.inj e
          exact absurd rfl (hT' _ hc)
        · obtain ⟨c, hc, e⟩ := List.mem_map.1 hc
          obtain ⟨rfl, rfl⟩ := Prod.mk.inj e
          exact absurd rfl (hT' _ hb)
        · exact (iT _).gap h3 hi (List.mem_append_right _ hb) (List.mem_append_right _ hc)
    · rintro f w T ⟨x, L, H, T', h1, h2, h3⟩ e he
      rcases List.mem_append.1 (h1.subset he) with he | he
      · obtain ⟨b, hb, rfl⟩ := List.mem_map.1 he
        exact ⟨by omega, (layer h2 h3).2.2.2.2 (List.ne_nil_of_mem hb)⟩
      · exact (iU h3 e (List.mem_append_right _ he)).mono (by omega)
    · intro f x hx
      by_cases hxn : x = .inr n
      · subst hxn
        have hAn := hx.2
        have enter : ∀ {w : World σ g} {T}, RR I0 J A (n + 1) f w T → ∃ t L H T',
            T.Perm (nodeTag β n L ++ T') ∧ w.loc n = some t ∧
            J n t L H ∧ RR I0 J A n (setLoc f n (some t)) w (refTag g n H ++ T') := by
          rintro w T ⟨x, L, H, T', h1, h2, h3⟩
          cases x with
          | none => exact absurd (h2.1.symm.trans hAn) (by simp)
          | some t =>
            exact ⟨t, L, H, T', h1, (h3.loc (Nat.le_refl _)).trans (setLoc_self _ _ _), h2.2, h3⟩
        have leave : ∀ {w : World σ g} {t t' L H T' T}, T.Perm (nodeTag β n L ++ T') → J n t' L H →
            RR I0 J A n (setLoc f n (some t)) w (refTag g n H ++ T') →
            RR I0 J A (n + 1) f (w.set n (some t')) T := by
          intro w t t' L H T' T h1 h2 h3
          refine ⟨some t', L, H, T', h1, ⟨hAn, h2⟩, ?_⟩
          have := h3.set (some t') (Nat.le_refl n)
          rwa [setLoc_setLoc] at this
        have act : ∀ (t : (g n).kind.τ) (T' : List ((β ⊕ Nat) × Blk)),
            Acts (P (.inr n)).R (errs E ((g n).kind.mr (upstreams bases g n))) (fun x L => ∃ H, J n x.1 L H ∧
              RR I0 J A n (setLoc f n (some t)) x.2 (refTag g n H ++ T')) :=
          fun t T' => ((hJ n).serves (hF hAn _ T')).acts
        refine ⟨?_, ?_, ?_, ?_⟩
        · intro w T N a h hq hn
          obtain ⟨t, L, H, T', h1, h2, h3, h4⟩ := enter h
          rcases (act t T').alloc (s := (t, w)) ⟨H, h3, h4⟩ hq hn with
            ⟨p, ⟨t', w'⟩, e, H', h5, h6⟩ | ⟨⟨t', w'⟩, e, H', h5, h6⟩
          · exact .inl ⟨p, w'.set n (some t'), by simp only [errs_node, onSlot, h2, e],
              leave (h1.cons _) h5 h6⟩
          · exact .inr ⟨w'.set n (some t'), by simp only [errs_node, onSlot, h2, e],
              leave h1 h5 h6⟩
        · intro w T a h hq
          obtain ⟨t, L, H, T', h1, h2, h3, h4⟩ := enter h
          obtain ⟨r, ⟨t', w'⟩, e, hr, H', h5, h6⟩ := (act t T').zero (s := (t, w)) ⟨H, h3, h4⟩ hq
          exact ⟨r, w'.set n (some t'), by simp only [errs_node, onSlot, h2, e], hr, leave h1 h5 h6⟩
        · intro w T b h
          obtain ⟨t, L, H, T', h1, h2, h3, h4⟩ := enter h
          have hbL : b ∈ L := by
            rcases List.mem_append.1 (h1.subset List.mem_cons_self) with hm | hm
            · obtain ⟨b, hb, e⟩ := List.mem_map.1 hm
              obtain ⟨_, rfl⟩ := Prod.mk.inj e
              exact hb
            · have := iU h4 _ (List.mem_append_right _ hm)
              exact absurd this.1 (by omega)
          obtain ⟨L1, L2, rfl⟩ := List.append_of_mem hbL
          obtain ⟨H, h3, h4⟩ := ((hJ n).serves (hF hAn (setLoc f n (some t)) T')).perm (s := (t, w))
            ⟨H, h3, h4⟩ (List.perm_middle)
          obtain ⟨⟨t', w'⟩, e, H', h5, h6⟩ := (act t T').free (s := (t, w)) ⟨H, h3, h4⟩
          refine ⟨w'.set n (some t'), by simp only [errs_node, onSlot, h2, e], leave ?_ h5 h6⟩
          have hp : (nodeTag β n (L1 ++ b :: L2) ++ T').Perm ((.inr n, b) :: (nodeTag β n (L1 ++ L2) ++ T')) :=
            List.Perm.append_right T' (List.Perm.map _ (List.perm_middle))
          exact (h1.trans hp).cons_inv
        · intro w T N a h
          obtain ⟨t, L, H, T', h1, h2, h3, h4⟩ := enter h
          obtain ⟨⟨t', w'⟩, e, H', h5, h6⟩ := (act t T').null (s := (t, w)) N a ⟨H, h3, h4⟩
          exact ⟨w'.set n (some t'), by simp only [errs_node, onSlot, h2, e], leave h1 h5 h6⟩
      · have hxn' : Up A n x := by
          cases x with
          | inl b => trivial
          | inr k => exact ⟨by have := hx.1; have : k ≠ n := fun h => hxn (h ▸ rfl); omega, hx.2⟩
        have sw : ∀ {e : (β ⊕ Nat) × Blk} (X Y : List ((β ⊕ Nat) × Blk)), (e :: (X ++ Y)).Perm (X ++ e :: Y) :=
          fun X Y => List.perm_middle.symm
        refine ⟨?_, ?_, ?_, ?_⟩
        · rintro w T N a ⟨y, L, H, T', h1, h2, h3⟩ hq hn
          rcases (iM _ x hxn').alloc h3 hq hn with ⟨p, w', e, h'⟩ | ⟨w', e, h'⟩
          · exact .inl ⟨p, w', e, y, L, H, _ :: T', (h1.cons _).trans (sw _ _), h2, h'.perm (sw _ _)⟩
          · exact .inr ⟨w', e, y, L, H, T', h1, h2, h'⟩
        · rintro w T a ⟨y, L, H, T', h1, h2, h3⟩ hq
          obtain ⟨r, w', e, hr, h'⟩ := (iM _ x hxn').zero h3 hq
          exact ⟨r, w', e, hr, y, L, H, T', h1, h2, h'⟩
        · rintro w T b ⟨y, L, H, T', h1, h2, h3⟩
          have hm : (x, b) ∈ T' := by
            rcases List.mem_append.1 (h1.subset List.mem_cons_self) with hm | hm
            · obtain ⟨b, hb, e⟩ := List.mem_map.1 hm
              exact absurd (Prod.mk.inj e).1.symm hxn
            · exact hm
          obtain ⟨T1, T2, rfl⟩ := List.append_of_mem hm
          have hp : ∀ X : List ((β ⊕ Nat) × Blk), (X ++ (T1 ++ (x, b) :: T2)).Perm ((x, b) :: (X ++ (T1 ++ T2))) :=
            fun X => (List.Perm.append_left X List.perm_middle).trans List.perm_middle
          obtain ⟨w', e, h'⟩ := (iM _ x hxn').free (h3.perm (hp _))
          exact ⟨w', e, y, L, H, T1 ++ T2, (h1.trans (hp _)).cons_inv, h2, h'⟩
        · rintro w T N a ⟨y, L, H, T', h1, h2, h3⟩
          obtain ⟨w', e, h'⟩ := (iM _ x hxn').null N a h3
          exact ⟨w', e, y, L, H, T', h1, h2, h'⟩

/-- Creating resource `k`. -/
theorem RR.create (hb : FServes (fun b => P (.inl b)) (fun b => errs E (bases b)) I0)
    (hJ : ∀ k, KindSpecE E (g k).kind (fun i => P ((g k).ref i)) (P (.inr k)) (J k)) (hA : Closed g A) {k : Nat}
    (hk : A k = false) (hu : ∀ i, Up A k ((g k).ref i)) :
    ∀ {n : Nat} {f w T}, k < n → RR I0 J A n f w T →
      (∃ w', errsR E (createAt bases g k w) = (.ok (), w') ∧ RR I0 J (fun j => if j = k then true else A j) n f w' T) ∨
      ∃ w', errsR E (createAt bases g k w) = (.badAlloc, w') ∧ RR I0 J A n f w' T := by
  intro n
  induction n with
  | zero => intro f w T h; omega
  | succ n ih =>
    rintro f w T hkn ⟨x, L, H, T', h1, h2, h3⟩
    by_cases h : k = n
    · subst h
      cases x with
      | some t => exact absurd (h2.1.symm.trans hk) (by simp)
      | none =>
        obtain ⟨_, rfl, rfl⟩ := h2
        obtain ⟨iT, _, iM⟩ := RR.all hb hJ hA k
        rcases (hJ k).create (RR.up iT iM hu (setLoc f k none) T') h3 with ⟨t, w', H, e, e1, e2⟩ | ⟨w', e, e2⟩
        · left
          refine ⟨w'.set k (some t), by simp only [errsR_create, e], some t, [], H, T', h1, ⟨by simp, e1⟩, ?_⟩
          have := (e2.set (some t) (Nat.le_refl k)).congr (A' := fun j => if j = k then true else A j)
            (fun j hj => by simp [Nat.ne_of_lt hj])
          rwa [setLoc_setLoc] at this
        · right
          exact ⟨w', by simp only [errsR_create, e, Res.map], none, [], [], T', h1, ⟨hk, rfl, rfl⟩, e2⟩
    · rcases ih (by omega) h3 with ⟨w', e, h'⟩ | ⟨w', e, h'⟩
      · exact .inl ⟨w', e, x, L, H, T', h1, by simp only [if_neg (Ne.symm h)]; exact h2, h'⟩
      · exact .inr ⟨w', e, x, L, H, T', h1, h2, h'⟩

/-- Destroying resource `k`. -/
theorem RR.destroy (hb : FServes (fun b => P (.inl b)) (fun b => errs E (bases b)) I0)
    (hJ : ∀ k, KindSpecE E (g k).kind (fun i => P ((g k).ref i)) (P (.inr k)) (J k)) (hA : Closed g A) {k : Nat}
    (hk : A k = true) (hd : ∀ j, A j = true → ∀ i, (g j).ref i ≠ .inr k) :
    ∀ {n : Nat} {f w T}, k < n → RR I0 J A n f w T → (∀ b, (.inr k, b) ∉ T) →
      ∃ w', destroyAt bases g k w = (.ok (), w') ∧
        RR I0 J (fun j => if j = k then false else A j) n f w' T := by
  intro n
  induction n with
  | zero => intro f w T h; omega
  | succ n ih =>
    rintro f w T hkn ⟨x, L, H, T', h1, h2, h3⟩ hT
    by_cases h : k = n
    · subst h
      cases x with
      | none => exact absurd (h2.1.symm.trans hk) (by simp)
      | some t =>
        obtain ⟨_, h2⟩ := h2
        have hL : L = [] := by
          rw [List.eq_nil_iff_forall_not_mem]
          intro b hb
          exact hT b (h1.symm.subset (List.mem_append_left _ (List.mem_map.2 ⟨b, hb, rfl⟩)))
        subst hL
        obtain ⟨iT, _, iM⟩ := RR.all hb hJ hA k
        obtain ⟨w', e, e2⟩ := (hJ k).destroy (RR.up iT iM (hA k hk) (setLoc f k (some t)) T') h2 h3
        have hl : w.loc k = some t := (h3.loc (Nat.le_refl _)).trans (setLoc_self _ _ _)
        refine ⟨w'.set k none, by simp only [destroyAt, hl, e], none, [], [], T', h1, ⟨by simp, rfl, rfl⟩, ?_⟩
        have := (e2.set none (Nat.le_refl k)).congr (A' := fun j => if j = k then false else A j)
          (fun j hj => by simp [Nat.ne_of_lt hj])
        rwa [setLoc_setLoc] at this
    · obtain ⟨w', e, h'⟩ := ih (by omega) h3 (by
        intro b hb
        rcases List.mem_append.1 hb with hb | hb
        · obtain ⟨e, he, e'⟩ := List.mem_map.1 hb
          have hn : A n = true := by
            cases x with
            | none => rw [h2.2.2] at he; simp at he
            | some t => exact h2.1
          exact hd n hn e.1 (Prod.mk.inj e').1
        · exact hT b (h1.symm.subset (List.mem_append_right _ hb)))
      exact ⟨w', e, x, L, H, T', h1, by simp only [if_neg (Ne.symm h)]; exact h2, h'⟩

/-- The invariant of programs. -/
def ProgInv (I0 : σ → List (β × Blk) → Prop)
    (J : (k : Nat) → (g k).kind.τ → List Blk → List ((g k).kind.ι × Blk) → Prop) (w : World σ g)
    (T : List ((β ⊕ Nat) × Blk)) : Prop :=
  ∃ A N, Closed g A ∧ (∀ k, N ≤ k → A k = false) ∧ RR I0 J A N (fun _ => none) w T

theorem ProgInv.alive {w : World σ g} {T : List ((β ⊕ Nat) × Blk)} {N : Nat} (hN : ∀ k, N ≤ k → A k = false)
    (h : RR I0 J A N (fun _ => none) w T) (k : Nat) : (w.loc k).isSome = A k := by
  by_cases hk : k < N
  · exact h.alive hk
  · rw [h.loc (Nat.le_of_not_lt hk), hN k (Nat.le_of_not_lt hk)]; rfl

theorem ProgInv.above {w : World σ g} {T : List ((β ⊕ Nat) × Blk)} (h : ProgInv I0 J w T) (k : Nat) :
    ∃ A N, Closed g A ∧ (∀ k, N ≤ k → A k = false) ∧ RR I0 J A N (fun _ => none) w T ∧
      (∀ k, (w.loc k).isSome = A k) ∧ k < N := by
  obtain ⟨A, N, h1, h2, h3⟩ := h
  refine ⟨A, max N (k + 1), h1, fun j hj => h2 j (by omega),
    h3.extend (Nat.le_max_left _ _) (fun _ _ => rfl) h2, fun k => ProgInv.alive h2 h3 k, by omega⟩

theorem ProgInv.up {w : World σ g} (hw : ∀ k, (w.loc k).isSome = A k) {x : β ⊕ Nat} {n : Nat}
    (hx : Exists w x) (hn : ∀ k, x = .inr k → k < n) : Up A n x := by
  cases x with
  | inl b => trivial
  | inr k => exact ⟨hn k rfl, (hw k).symm.trans hx⟩

/-- What holds in all states of correct programs. -/
structure ProgSpecE (E : Bool) (bases : β → MR σ) (g : (k : Nat) → Decl β k) (P : β ⊕ Nat → Port)
    (I : World σ g → List ((β ⊕ Nat) × Blk) → Prop) : Prop where
  tidy : Tidy P I
  tags : ∀ {w T}, I w T → ∀ e ∈ T, Exists w e.1
  mem : ∀ {w T}, I w T → ∀ x, Exists w x → ∃ I', I' w T ∧
    (∀ {w' T'}, I' w' T' → I w' T' ∧ ∀ j, (w'.loc j).isSome = (w.loc j).isSome) ∧
    Member (P x).R (errs E (worldMR bases g x)) I' x
  create : ∀ {w T}, I w T → ∀ k, w.loc k = none → (∀ i, Exists w ((g k).ref i)) →
    (∃ w', errsR E (createAt bases g k w) = (.ok (), w') ∧ I w' T ∧
      ∀ j, (w'.loc j).isSome = if j = k then true else (w.loc j).isSome) ∨
    ∃ w', errsR E (createAt bases g k w) = (.badAlloc, w') ∧ I w' T ∧ ∀ j, (w'.loc j).isSome = (w.loc j).isSome
  destroy : ∀ {w T}, I w T → ∀ k, (w.loc k).isSome = true →
    (∀ j, (w.loc j).isSome = true → ∀ i, (g j).ref i ≠ .inr k) → (∀ b, (.inr k, b) ∉ T) →
    ∃ w', destroyAt bases g k w = (.ok (), w') ∧ I w' T ∧
      ∀ j, (w'.loc j).isSome = if j = k then false else (w.loc j).isSome

/-- The same, for base resources that do not throw `runtime_error`. -/
structure ProgSpec (bases : β → MR σ) (g : (k : Nat) → Decl β k) (P : β ⊕ Nat → Port)
    (I : World σ g → List ((β ⊕ Nat) × Blk) → Prop) : Prop where
  tidy : Tidy P I
  tags : ∀ {w T}, I w T → ∀ e ∈ T, Exists w e.1
  mem : ∀ {w T}, I w T → ∀ x, Exists w x → ∃ I', I' w T ∧
    (∀ {w' T'}, I' w' T' → I w' T' ∧ ∀ j, (w'.loc j).isSome = (w.loc j).isSome) ∧
    Member (P x).R (worldMR bases g x) I' x
  create : ∀ {w T}, I w T → ∀ k, w.loc k = none → (∀ i, Exists w ((g k).ref i)) →
    (∃ w', createAt bases g k w = (.ok (), w') ∧ I w' T ∧
      ∀ j, (w'.loc j).isSome = if j = k then true else (w.loc j).isSome) ∨
    ∃ w', createAt bases g k w = (.badAlloc, w') ∧ I w' T ∧ ∀ j, (w'.loc j).isSome = (w.loc j).isSome
  destroy : ∀ {w T}, I w T → ∀ k, (w.loc k).isSome = true →
    (∀ j, (w.loc j).isSome = true → ∀ i, (g j).ref i ≠ .inr k) → (∀ b, (.inr k, b) ∉ T) →
    ∃ w', destroyAt bases g k w = (.ok (), w') ∧ I w' T ∧
      ∀ j, (w'.loc j).isSome = if j = k then false else (w.loc j).isSome

theorem ref_lt {k j : Nat} {i : (g k).kind.ι} (h : (g k).ref i = .inr j) : j < k := by
  unfold Decl.ref at h
  cases hu : (g k).up i with
  | inl b => rw [hu] at h; simp at h
  | inr m =>
    rw [hu] at h
    simp only [Sum.map_inr, Sum.inr.injEq] at h
    have := m.isLt
    omega

theorem progSpecE (hb : FServes (fun b => P (.inl b)) (fun b => errs E (bases b)) I0)
    (hJ : ∀ k, KindSpecE E (g k).kind (fun i => P ((g k).ref i)) (P (.inr k)) (J k)) :
    ProgSpecE E bases g P (ProgInv (g := g) I0 J) := by
  refine ⟨⟨?_, ?_, ?_, ?_⟩, ?_, ?_, ?_, ?_⟩
  · rintro w T ⟨A, N, h1, h2, h3⟩
    exact ((RR.all hb hJ h1 N).1 _).wf h3
  · rintro w T ⟨A, N, h1, h2, h3⟩
    exact ((RR.all hb hJ h1 N).1 _).disj h3
  · rintro w T ⟨A, N, h1, h2, h3⟩
    exact ((RR.all hb hJ h1 N).1 _).gap h3
  · rintro w T T' ⟨A, N, h1, h2, h3⟩ hp
    exact ⟨A, N, h1, h2, h3.perm hp⟩
  · rintro w T ⟨A, N, h1, h2, h3⟩ ⟨x, b⟩ he
    have := (RR.all hb hJ h1 N).2.1 h3 _ he
    cases x with
    | inl b => trivial
    | inr k => exact (ProgInv.alive h2 h3 k).trans this.2
  · intro w T h x hx
    obtain ⟨A, N, h1, h2, h3, h4, h5⟩ := h.above (match x with | .inl _ => 0 | .inr k => k)
    refine ⟨_, h3, fun h => ⟨⟨A, N, h1, h2, h⟩, fun j => by rw [ProgInv.alive h2 h j, h4]⟩, (RR.all hb hJ h1 N).2.2 _ x (ProgInv.up h4 hx ?_)⟩
    rintro k rfl; exact h5
  · intro w T h k hk hu
    obtain ⟨A, N, h1, h2, h3, h4, h5⟩ := h.above k
    have hup : ∀ i, Up A k ((g k).ref i) := fun i => ProgInv.up h4 (hu i) (fun j hj => ref_lt hj)
    have hAk : A k = false := by rw [← h4, hk]; rfl
    rcases RR.create hb hJ h1 hAk hup h5 h3 with
      ⟨w', e, h'⟩ | ⟨w', e, h'⟩
    · have h6 : ∀ j, N ≤ j → (if j = k then true else A j) = false := by
        intro j hj
        rw [if_neg (by omega)]
        exact h2 j hj
      refine .inl ⟨w', e, ⟨_, N, ?_, h6, h'⟩, fun j => by rw [ProgInv.alive h6 h' j, h4]⟩
      · intro j hj i
        have : Up A j ((g j).ref i) := by
          by_cases hjk : j = k
          · subst hjk; exact hup i
          · simp only [if_neg hjk] at hj; exact h1 j hj i
        revert this
        cases (g j).ref i with
        | inl b => exact fun _ => trivial
        | inr m =>
          rintro ⟨m1, m2⟩
          refine ⟨m1, ?_⟩
          show (if m = k then true else A m) = true
          split
          · rfl
          · exact m2
    · exact .inr ⟨w', e, ⟨A, N, h1, h2, h'⟩, fun j => by rw [ProgInv.alive h2 h' j, h4]⟩
  · intro w T h k hk hd hT
    obtain ⟨A, N, h1, h2, h3, h4, h5⟩ := h.above k
    obtain ⟨w', e, h'⟩ := RR.destroy hb hJ h1 (by rw [← h4]; exact hk) (fun j hj => hd j (by rw [h4]; exact hj)) h5 h3 hT
    have h6 : ∀ j, N ≤ j → (if j = k then false else A j) = false := by
      intro j hj
      rw [if_neg (by omega)]
      exact h2 j hj
    refine ⟨w', e, ⟨_, N, ?_, h6, h'⟩, fun j => by rw [ProgInv.alive h6 h' j, h4]⟩
    · intro j hj i
      simp only at hj
      have hjA : A j = true := by
        by_cases hjk : j = k
        · rw [if_pos hjk] at hj; simp at hj
        · rwa [if_neg hjk] at hj
      have := h1 j hjA i
      have hne := hd j (by rw [h4]; exact hjA) i
      revert this hne
      cases (g j).ref i with
      | inl b => exact fun _ _ => trivial
      | inr m =>
        rintro ⟨m1, m2⟩ hne
        refine ⟨m1, ?_⟩
        show (if m = k then false else A m) = true
        rw [if_neg (fun h : m = k => hne (h ▸ rfl))]
        exact m2

theorem progSpec (hb : FServes (fun b => P (.inl b)) bases I0)
    (hJ : ∀ k, KindSpec (g k).kind (fun i => P ((g k).ref i)) (P (.inr k)) (J k)) :
    ProgSpec bases g P (ProgInv (g := g) I0 J) :=
  have h := progSpecE (E := false) hb (fun k => kindSpecE_false.2 (hJ k))
  ⟨h.tidy, h.tags, h.mem, h.create, h.destroy⟩

/-- All states of correct programs satisfy the invariant. -/
theorem ProgReach.inv {I : World σ g → List ((β ⊕ Nat) × Blk) → Prop} {s0 : σ} (hS : ProgSpec bases g P I)
    (h0 : I ⟨s0, fun _ => none⟩ []) {w T} (h : ProgReach bases g P s0 w T) : I w T := by
  induction h with
  | init => exact h0
  | create k _ hk hu he ih =>
    rcases hS.create ih k hk hu with ⟨w', e, h', _⟩ | ⟨w', e, h', _⟩
    · rw [e] at he; obtain ⟨_, rfl⟩ := Prod.mk.inj he; exact h'
    · rw [e] at he; obtain ⟨_, rfl⟩ := Prod.mk.inj he; exact h'
  | destroy k _ hk hd hT he ih =>
    obtain ⟨w', e, h', _⟩ := hS.destroy ih k hk hd hT
    rw [e] at he; obtain ⟨_, rfl⟩ := Prod.mk.inj he; exact h'
  | alloc x _ hx hq hn he ih =>
    obtain ⟨I', i1, i2, i3⟩ := hS.mem ih x hx
    rcases i3.alloc i1 hq hn with ⟨p, w', e, h'⟩ | ⟨w', e, h'⟩
    · rw [e] at he; obtain ⟨e1, rfl⟩ := Prod.mk.inj he; cases e1; exact (i2 h').1
    · rw [e] at he; obtain ⟨e1, rfl⟩ := Prod.mk.inj he; cases e1
  | refuse x _ hx hq hn he ih =>
    obtain ⟨I', i1, i2, i3⟩ := hS.mem ih x hx
    rcases i3.alloc i1 hq hn with ⟨p, w', e, h'⟩ | ⟨w', e, h'⟩
    · rw [e] at he; obtain ⟨e1, rfl⟩ := Prod.mk.inj he; cases e1
    · rw [e] at he; obtain ⟨e1, rfl⟩ := Prod.mk.inj he; exact (i2 h').1
  | zero x _ hx hq he ih =>
    obtain ⟨I', i1, i2, i3⟩ := hS.mem ih x hx
    obtain ⟨r, w', e, _, h'⟩ := i3.zero i1 hq
    rw [e] at he; obtain ⟨e1, rfl⟩ := Prod.mk.inj he; exact (i2 h').1
  | @free w w' T b x _ he ih =>
    obtain ⟨I', i1, i2, i3⟩ := hS.mem ih x (hS.tags ih _ List.mem_cons_self)
    obtain ⟨w', e, h'⟩ := i3.free i1
    rw [e] at he; obtain ⟨e1, rfl⟩ := Prod.mk.inj he; exact (i2 h').1
  | freeNull x _ hx he ih =>
    obtain ⟨I', i1, i2, i3⟩ := hS.mem ih x hx
    obtain ⟨w', e, h'⟩ := i3.null _ _ i1
    rw [e] at he; obtain ⟨e1, rfl⟩ := Prod.mk.inj he; exact (i2 h').1
  | perm _ hp ih => exact hS.tidy.perm ih hp

/-- When no resource is left, the base resources have only the blocks clients hold. -/
theorem ProgInv.end {w : World σ g} {T : List ((β ⊕ Nat) × Blk)} (h : ProgInv I0 J w T)
    (hw : ∀ k, w.loc k = none) : ∃ T0, T.Perm (baseTag T0) ∧ I0 w.base T0 := by
  obtain ⟨A, N, h1, h2, h3⟩ := h
  have h4 := fun k => ProgInv.alive h2 h3 k
  have hA : ∀ k, A k = false := fun k => by rw [← h4, hw]; rfl
  have : ∀ (n : Nat) f T, RR I0 J A n f w T → ∃ T0, T.Perm (baseTag T0) ∧ I0 w.base T0 := by
    intro n
    induction n with
    | zero => rintro f T ⟨_, T0, e1, e2⟩; exact ⟨T0, e1, e2⟩
    | succ n ih =>
      rintro f T ⟨x, L, H, T', e1, e2, e3⟩
      have hx : L = [] ∧ H = [] := by
        cases x with
        | none => exact e2.2
        | some t => have := e2.1; rw [hA] at this; simp at this
      obtain ⟨rfl, rfl⟩ := hx
      obtain ⟨T0, k1, k2⟩ := ih _ _ e3
      exact ⟨T0, e1.trans k1, k2⟩
  exact this N _ T h3

/-- Base resources. -/
theorem GoodBases.serves {R : Limits} {G : Nat} {p : β → Port} {s0 : σ} (h : GoodBases bases R G p s0) :
    FServes p bases (fun s T => FReach R bases s0 s T ∧
      ∀ i, (p i).gap = true → ∀ b c, (i, b) ∈ T → (i, c) ∈ T → b.addr + b.size ≠ c.addr) := by
  have hl := h.lawful
  refine ⟨⟨?_, ?_, ?_, ?_⟩, ?_⟩
  · rintro s T ⟨hr, hg⟩ e he
    rw [(h.limits e.1).1, (h.limits e.1).2]
    exact (hl.live hr).1 e he
  · rintro s T ⟨hr, hg⟩; exact (hl.live hr).2
  · rintro s T ⟨hr, hg⟩ i hi b c; exact hg i hi b c
  · rintro s T T' ⟨hr, hg⟩ hp
    exact ⟨.perm hr hp, fun i hi b c hb hc => hg i hi b c (hp.symm.subset hb) (hp.symm.subset hc)⟩
  · intro i
    refine ⟨?_, ?_, ?_, ?_⟩
    · rintro s T n a ⟨hr, hg⟩ hq hn
      rw [(h.limits i).1] at hq
      have ha := hl.alloc i hr hq hn
      cases hx : (bases i).allocate s n a with
      | mk r s' =>
      rw [hx] at ha
      cases r <;> simp only [GoodAnswer] at ha
      · rename_i p
        refine .inl ⟨p, s', rfl, .alloc i hr hq hn hx, ?_⟩
        intro j hj b c hb hc
        rcases List.mem_cons.1 hb with e | hb'
        · obtain ⟨rfl, rfl⟩ := Prod.mk.inj e
          rcases List.mem_cons.1 hc with e | hc'
          · obtain ⟨_, rfl⟩ := Prod.mk.inj e
            simp only; omega
          · exact (h.gapped j hj s T n a p s' hr hq hn hx c hc').2
        · rcases List.mem_cons.1 hc with e | hc'
          · obtain ⟨rfl, rfl⟩ := Prod.mk.inj e
            exact (h.gapped j hj s T n a p s' hr hq hn hx b hb').1
          · exact hg j hj b c hb' hc'
      · exact .inr ⟨s', rfl, .refuse i hr hq hn hx, hg⟩
    · rintro s T a ⟨hr, hg⟩ hq
      rw [(h.limits i).1] at hq
      exact ⟨_, _, rfl, hl.zero i hr hq, .zero i hr hq rfl, hg⟩
    · rintro s T b ⟨hr, hg⟩
      have := hl.dealloc hr List.mem_cons_self
      exact ⟨_, Prod.ext this rfl, .free hr (Prod.ext this rfl),
        fun j hj b c hb hc => hg j hj b c (List.mem_cons_of_mem _ hb) (List.mem_cons_of_mem _ hc)⟩
    · rintro s T n a ⟨hr, hg⟩
      have := hl.null (n := n) (a := a) i hr
      exact ⟨_, Prod.ext this rfl, .freeNull i hr rfl, hg⟩

end

end Vecmem
