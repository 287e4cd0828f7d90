import Verif.Spec.WeakMisuse
import Verif.Lemmas.WeakSeveral

/-!
# Lemmas: what programs with assertions have done
-/

namespace Vecmem

variable {w : Nat}

/-- An access of a program that appends, the one at `pos` of its history `h`, if `p` is what is left of the program: it changes nothing of the vector; it is a claim, which was checked, or after which
the program has failed; or it is a store of a call that was checked. -/
def AccessAt (V : WVec) (Q : WAppend w → Prop) (h : List (WEvent w × Nat)) (p : WProg w) (pos : Nat) (x : WEvent w × Nat) : Prop :=
  (V.Owns x.1.addr → x.1.call = .read ∨ ∃ o, x.1.call = .atomic .load o) ∨
  (∃ c, c.Fine ∧ Q c ∧ IsClaim V c x.1 ∧ (c.check V.cap x.1.index = true ∨ V.dbg = false ∨ (p = .failed ∧ pos + 1 = h.length))) ∨
  ∃ (pos₀ : Nat) (y : WEvent w × Nat) (c : WAppend w) (st : Nat × Nat × BitVec w), pos₀ < pos ∧ h[pos₀]? = some y ∧ IsClaim V c y.1 ∧ c.Fine ∧ Q c ∧ st ∈ c.stores ∧
    IsStoreOf V y.1.index st x ∧ (V.dbg = true → c.check V.cap y.1.index = true)

theorem AccessAt.later {V : WVec} {Q : WAppend w → Prop} {h h' : List (WEvent w × Nat)} {p : WProg w} {pos : Nat} {x : WEvent w × Nat} (ha : AccessAt V Q h p pos x) :
    AccessAt V Q (h' ++ h) p (h'.length + pos) x := by
  rcases ha with ha | ⟨c, h1, h2, h3, h4⟩ | ⟨pos₀, y, c, st, h1, h2, h3⟩
  · exact .inl ha
  · refine .inr (.inl ⟨c, h1, h2, h3, h4.imp id (Or.imp id fun h => ⟨h.1, ?_⟩)⟩)
    rw [List.length_append]
    omega
  · refine .inr (.inr ⟨h'.length + pos₀, y, c, st, by omega, ?_, h3⟩)
    rw [List.getElem?_append_right (by omega)]
    simpa using h2

theorem access_at {V : WVec} {Q : WAppend w → Prop} (t : WTask w) {h : List (WEvent w × Nat)} {p : WProg w} (hp : (t.code V).after h = some p) (ht : t.Polite V) (hq : t.Calls Q) :
    ∀ pos x, h[pos]? = some x → AccessAt V Q h p pos x := by
  induction t generalizing h with
  | done =>
    intro pos x hx
    cases h with
    | nil => cases hx
    | cons => cases hp
  | access a c next ih =>
    intro pos x hx
    cases h with
    | nil => cases hx
    | cons y h =>
      simp only [WTask.code, WProg.after] at hp
      split at hp
      · next hy =>
        cases pos with
        | zero =>
          simp only [List.getElem?_cons_zero, Option.some.injEq] at hx
          subst hx
          exact .inl (by rw [hy.1, hy.2]; exact ht.1)
        | succ pos =>
          have := (ih _ hp (ht.2 _) (hq _) pos x (by simpa using hx)).later (h' := [y])
          rwa [List.length_singleton, Nat.add_comm] at this
      · cases hp
  | append c next ih =>
    intro pos x hx
    cases h with
    | nil => cases hx
    | cons y h =>
      simp only [WTask.code, WProg.after] at hp
      split at hp
      · next hy =>
        by_cases hc : (V.dbg && !c.check V.cap y.1.index) = true
        · rw [WEvent.index] at hc
          rw [if_pos hc] at hp
          obtain ⟨rfl, rfl⟩ := after_failed hp
          cases pos with
          | zero =>
            simp only [List.getElem?_cons_zero, Option.some.injEq] at hx
            subst hx
            exact .inr (.inl ⟨c, ht.1, hq.1, hy, .inr (.inr ⟨rfl, rfl⟩)⟩)
          | succ pos => simp at hx
        · have hchk : c.check V.cap y.1.index = true ∨ V.dbg = false := by
            cases h1 : V.dbg <;> cases h2 : c.check V.cap y.1.index <;> simp [h1, h2] at hc ⊢
          rw [WEvent.index] at hc
          rw [if_neg hc] at hp
          cases pos with
          | zero =>
            simp only [List.getElem?_cons_zero, Option.some.injEq] at hx
            subst hx
            exact .inr (.inl ⟨c, ht.1, hq.1, hy, hchk.imp id .inl⟩)
          | succ pos =>
            have store : ∀ {l : List (Nat × Nat × BitVec w)} {h₁ : List (WEvent w × Nat)}, List.Forall₂ (IsStoreOf V y.1.index) l h₁ → (∀ st ∈ l, st ∈ c.stores) → h₁[pos]? = some x →
                AccessAt V Q (y :: h) p (pos + 1) x := fun hf hl hx => by
              obtain ⟨st, g1, g2⟩ := forall₂_get hf hx
              exact .inr (.inr ⟨0, y, c, st, by omega, rfl, hy, ht.1, hq.1, hl _ (List.mem_of_getElem? g1), g2, fun hd => hchk.resolve_right (by simp [hd])⟩)
            simp only [List.getElem?_cons_succ] at hx
            rcases after_stores V _ _ _ hp with ⟨l₁, l₂, a, c', next', g1, g2, rfl⟩ | ⟨h₁, h₂, rfl, g2, g3⟩
            · exact store g2 (fun st hst => by rw [g1]; exact List.mem_append_left _ hst) hx
            · rcases Nat.lt_or_ge pos h₁.length with hlt | hge
              · rw [List.getElem?_append_left hlt] at hx
                exact store g2 (fun _ h => h) hx
              · rw [List.getElem?_append_right hge] at hx
                have := (ih _ g3 (ht.2 _) (hq.2 _) _ x hx).later (h' := y :: h₁)
                rw [List.length_cons, show h₁.length + 1 + (pos - h₁.length) = pos + 1 by omega] at this
                exact this
      · cases hp

theorem WTask.calls_true : ∀ t : WTask w, t.Calls fun _ => True
  | .done => trivial
  | .access _ _ next => fun r => (next r).calls_true
  | .append _ next => ⟨trivial, fun i => (next i).calls_true⟩

/-- What a claim has read and added. -/
theorem IsClaim.claims {V : WVec} {c : WAppend w} {e : WEvent w} (h : IsClaim V c e) (hf : c.Fine) (he : e.Correct) : e.Claims V.size e.index c.count := by
  obtain ⟨h1, h2⟩ := h
  simp only [WEvent.Correct, h2, AOp.spec] at he
  obtain ⟨t, v, h3, -⟩ := he
  refine ⟨h1, _, _, t, v, h2, ?_, h3, by simp [WEvent.index, h3]⟩
  rw [BitVec.toNat_ofNat, Nat.mod_eq_of_lt hf.1]

/-- A call that was checked is within the capacity, if it is one of one element, or its count does not wrap. -/
theorem WAppend.check_le {c : WAppend w} {cap index : Nat} (h : c.check cap index = true) (hf : c.Fine) (hw : c.single = true ∨ index + c.count < 2 ^ w) : index + c.count ≤ cap := by
  unfold WAppend.check at h
  split at h
  · next hs =>
    have := hf.2.1 hs
    have := of_decide_eq_true h
    omega
  · next hs =>
    have := of_decide_eq_true h
    rwa [Nat.mod_eq_of_lt (hw.resolve_left hs)] at this

/-- The vector without assertions, and with a capacity that all sizes are within. -/
def WVec.wide (w : Nat) (V : WVec) : WVec := { V with cap := 2 ^ w - 1, dbg := false }

theorem code_done_iff {V : WVec} {t : WTask w} (h : t.code V = .done) : t = .done := by
  cases t with
  | done => rfl
  | access => cases h
  | append => cases h

/-- What a program has done is what it may have done without assertions. -/
theorem Hist.wide {V : WVec} {t : WTask w} {h : List (WEvent w × Nat)} {p : WProg w} (hh : Hist V t h p) : ∃ p', Hist (V.wide w) t h p' ∧ (p = .done → p' = .done) := by
  induction hh with
  | nil t => exact ⟨_, .nil t, fun hd => by rw [code_done_iff hd]; rfl⟩
  | access h1 h2 _ ih => exact ⟨_, .access h1 h2 ih.choose_spec.1, ih.choose_spec.2⟩
  | @failed c next x h1 h2 => exact ⟨.act 0 .read fun _ => .done, .part (l₁ := []) (l₂ := c.stores) h1 rfl .nil, nofun⟩
  | part h1 h2 h3 => exact ⟨.act 0 .read fun _ => .done, .part h1 h2 h3, nofun⟩
  | full h1 h2 _ ih => exact ⟨_, .full h1 h2 ih.choose_spec.1, ih.choose_spec.2⟩

theorem WTask.Left.of_wide {V : WVec} {m : AMem w} {final : Nat → BitVec w → Prop} {t : WTask w} {l : List (WEvent w)} (h : t.Left (V.wide w) m final l) : t.Left V m final l := by
  induction h with
  | done => exact .done
  | access h1 h2 _ ih => exact .access h1 h2 ih
  | append h1 h2 h3 _ ih => exact .append h1 h2 h3 ih

theorem WTask.Polite.wide {V : WVec} : ∀ {t : WTask w}, t.Polite V → t.Polite (V.wide w)
  | .done, _ => trivial
  | .access _ _ _, h => ⟨h.1, fun r => (h.2 r).wide⟩
  | .append _ _, h => ⟨h.1, fun i => (h.2 i).wide⟩

/-- As `AccessAt`, for a program that appends to several vectors: an access, the one at `pos` of its history `h`, if `p` is what is left of the program: it changes nothing of the vector; it is a claim, which was checked, or after which
the program has failed; or it is a store of a call that was checked. -/
def AccessesAt (V : Nat → WVec) (Q : WAppend w → Prop) (h : List (WEvent w × Nat)) (p : WProg w) (pos : Nat) (x : WEvent w × Nat) : Prop :=
  (∀ k, (V k).Owns x.1.addr → x.1.call = .read ∨ ∃ o, x.1.call = .atomic .load o) ∨
  (∃ k c, c.Fine ∧ Q c ∧ IsClaim (V k) c x.1 ∧ (c.check (V k).cap x.1.index = true ∨ (V k).dbg = false ∨ (p = .failed ∧ pos + 1 = h.length))) ∨
  ∃ (pos₀ : Nat) (y : WEvent w × Nat) (k : Nat) (c : WAppend w) (st : Nat × Nat × BitVec w), pos₀ < pos ∧ h[pos₀]? = some y ∧ IsClaim (V k) c y.1 ∧ c.Fine ∧ Q c ∧ st ∈ c.stores ∧
    IsStoreOf (V k) y.1.index st x ∧ ((V k).dbg = true → c.check (V k).cap y.1.index = true)

theorem AccessesAt.later {V : Nat → WVec} {Q : WAppend w → Prop} {h h' : List (WEvent w × Nat)} {p : WProg w} {pos : Nat} {x : WEvent w × Nat} (ha : AccessesAt V Q h p pos x) :
    AccessesAt V Q (h' ++ h) p (h'.length + pos) x := by
  rcases ha with ha | ⟨k, c, h1, h2, h3, h4⟩ | ⟨pos₀, y, k, c, st, h1, h2, h3⟩
  · exact .inl ha
  · refine .inr (.inl ⟨k, c, h1, h2, h3, h4.imp id (Or.imp id fun h => ⟨h.1, ?_⟩)⟩)
    rw [List.length_append]
    omega
  · refine .inr (.inr ⟨h'.length + pos₀, y, k, c, st, by omega, ?_, h3⟩)
    rw [List.getElem?_append_right (by omega)]
    simpa using h2

theorem accesses_at {V : Nat → WVec} {Q : WAppend w → Prop} (t : MTask w) {h : List (WEvent w × Nat)} {p : WProg w} (hp : (t.code V).after h = some p) (ht : t.Polite V) (hq : t.Calls Q) :
    ∀ pos x, h[pos]? = some x → AccessesAt V Q h p pos x := by
  induction t generalizing h with
  | done =>
    intro pos x hx
    cases h with
    | nil => cases hx
    | cons => cases hp
  | access a c next ih =>
    intro pos x hx
    cases h with
    | nil => cases hx
    | cons y h =>
      simp only [MTask.code, WProg.after] at hp
      split at hp
      · next hy =>
        cases pos with
        | zero =>
          simp only [List.getElem?_cons_zero, Option.some.injEq] at hx
          subst hx
          exact .inl (by intro k; rw [hy.1, hy.2]; exact ht.1 k)
        | succ pos =>
          have := (ih _ hp (ht.2 _) (hq _) pos x (by simpa using hx)).later (h' := [y])
          rwa [List.length_singleton, Nat.add_comm] at this
      · cases hp
  | append k c next ih =>
    intro pos x hx
    cases h with
    | nil => cases hx
    | cons y h =>
      simp only [MTask.code, WProg.after] at hp
      split at hp
      · next hy =>
        by_cases hc : ((V k).dbg && !c.check (V k).cap y.1.index) = true
        · rw [WEvent.index] at hc
          rw [if_pos hc] at hp
          obtain ⟨rfl, rfl⟩ := after_failed hp
          cases pos with
          | zero =>
            simp only [List.getElem?_cons_zero, Option.some.injEq] at hx
            subst hx
            exact .inr (.inl ⟨k, c, ht.1, hq.1, hy, .inr (.inr ⟨rfl, rfl⟩)⟩)
          | succ pos => simp at hx
        · have hchk : c.check (V k).cap y.1.index = true ∨ (V k).dbg = false := by
            cases h1 : (V k).dbg <;> cases h2 : c.check (V k).cap y.1.index <;> simp [h1, h2] at hc ⊢
          rw [WEvent.index] at hc
          rw [if_neg hc] at hp
          cases pos with
          | zero =>
            simp only [List.getElem?_cons_zero, Option.some.injEq] at hx
            subst hx
            exact .inr (.inl ⟨k, c, ht.1, hq.1, hy, hchk.imp id .inl⟩)
          | succ pos =>
            have store : ∀ {l : List (Nat × Nat × BitVec w)} {h₁ : List (WEvent w × Nat)}, List.Forall₂ (IsStoreOf (V k) y.1.index) l h₁ → (∀ st ∈ l, st ∈ c.stores) → h₁[pos]? = some x →
                AccessesAt V Q (y :: h) p (pos + 1) x := fun hf hl hx => by
              obtain ⟨st, g1, g2⟩ := forall₂_get hf hx
              exact .inr (.inr ⟨0, y, k, c, st, by omega, rfl, hy, ht.1, hq.1, hl _ (List.mem_of_getElem? g1), g2, fun hd => hchk.resolve_right (by simp [hd])⟩)
            simp only [List.getElem?_cons_succ] at hx
            rcases after_stores (V k) _ _ _ hp with ⟨l₁, l₂, a, c', next', g1, g2, rfl⟩ | ⟨h₁, h₂, rfl, g2, g3⟩
            · exact store g2 (fun st hst => by rw [g1]; exact List.mem_append_left _ hst) hx
            · rcases Nat.lt_or_ge pos h₁.length with hlt | hge
              · rw [List.getElem?_append_left hlt] at hx
                exact store g2 (fun _ h => h) hx
              · rw [List.getElem?_append_right hge] at hx
                have := (ih _ g3 (ht.2 _) (hq.2 _) _ x hx).later (h' := y :: h₁)
                rw [List.length_cons, show h₁.length + 1 + (pos - h₁.length) = pos + 1 by omega] at this
                exact this
      · cases hp

theorem MTask.calls_true : ∀ t : MTask w, t.Calls fun _ => True
  | .done => trivial
  | .access _ _ next => fun r => (next r).calls_true
  | .append _ _ next => ⟨trivial, fun i => (next i).calls_true⟩

end Vecmem
