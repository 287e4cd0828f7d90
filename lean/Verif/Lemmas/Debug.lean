import Verif.Lemmas.Wrappers
import Verif.Lemmas.Tactics

namespace Vecmem

namespace Debug

variable {σ : Type}

/-- How a block is recorded in `m_allocations`. -/
def enc (b : Blk) : Nat × (Nat × Nat) := (b.addr, (b.size, b.align))

/-- The records are the ledger, whose blocks are disjoint and not empty. -/
def Inv (s : Debug σ) (acc : List Blk) : Prop :=
  s.allocations = acc.map enc ∧ acc.Pairwise Blk.Disjoint ∧ ∀ b ∈ acc, 0 < b.size

theorem overlaps_iff {p n : Nat} {b : Blk} (hn : 0 < n) (hb : 0 < b.size) (a : Nat) :
    overlaps p n (enc b) = true ↔ ¬ Blk.Disjoint ⟨p, n, a⟩ b := by
  have : overlaps p n (enc b) = true ↔ p < b.addr + b.size ∧ b.addr < p + n := by
    unfold overlaps
    rw [Bool.and_eq_true, decide_eq_true_iff, decide_eq_true_iff]; rfl
  rw [this]
  simp only [Blk.Disjoint]
  omega

theorem any_overlaps_iff {s : Debug σ} {acc : List Blk} (h : Inv s acc) {p n : Nat} (hn : 0 < n)
    (a : Nat) : s.allocations.any (overlaps p n) = true ↔ ∃ b ∈ acc, ¬ Blk.Disjoint ⟨p, n, a⟩ b := by
  rw [h.1, List.any_map, List.any_eq_true]
  constructor
  · rintro ⟨b, hb, ho⟩; exact ⟨b, hb, (overlaps_iff hn (h.2.2 b hb) a).1 ho⟩
  · rintro ⟨b, hb, ho⟩; exact ⟨b, hb, (overlaps_iff hn (h.2.2 b hb) a).2 ho⟩

theorem lookup_enc : ∀ {acc : List Blk}, acc.Pairwise Blk.Disjoint → (∀ b ∈ acc, 0 < b.size) →
    ∀ {p n a : Nat}, (acc.map enc).lookup p = some (n, a) ↔ (⟨p, n, a⟩ : Blk) ∈ acc := by
  intro acc
  induction acc with
  | nil => simp
  | cons b acc ih =>
    intro hd hpos p n a
    have hd' := List.pairwise_cons.1 hd
    have ih' := ih hd'.2 (fun b hb => hpos b (List.mem_cons_of_mem _ hb)) (p := p) (n := n) (a := a)
    simp only [List.map_cons, enc, List.lookup_cons, List.mem_cons]
    by_cases hp : p = b.addr
    · subst hp
      simp only [beq_self_eq_true, Option.some.injEq, Prod.mk.injEq]
      constructor
      · rintro ⟨rfl, rfl⟩; exact Or.inl rfl
      · rintro (h | h)
        · rw [← h]; exact ⟨rfl, rfl⟩
        · exact (addr_ne_of_disjoint (hd'.1 _ h) (hpos b List.mem_cons_self)
            (hpos _ (List.mem_cons_of_mem _ h)) rfl).elim
    · have : (p == b.addr) = false := by simpa using hp
      simp only [this]
      rw [show (List.map enc acc) = acc.map enc from rfl] at *
      rw [ih']
      constructor
      · exact Or.inr
      · rintro (h | h)
        · rw [← h] at hp; exact absurd rfl hp
        · exact h

theorem erase_enc : ∀ {acc : List Blk}, acc.Pairwise Blk.Disjoint → (∀ b ∈ acc, 0 < b.size) →
    ∀ {x : Blk}, x ∈ acc → PMap.erase (acc.map enc) x.addr = (acc.erase x).map enc := by
  intro acc
  induction acc with
  | nil => simp
  | cons b acc ih =>
    intro hd hpos x hx
    have hd' := List.pairwise_cons.1 hd
    have hpos' := fun b hb => hpos b (List.mem_cons_of_mem _ hb)
    by_cases hbx : b = x
    · subst hbx
      have : ∀ c ∈ acc, (c.addr != b.addr) = true := by
        intro c hc
        have := addr_ne_of_disjoint (hd'.1 c hc) (hpos b List.mem_cons_self) (hpos' c hc)
        simpa [bne_iff_ne] using this.symm
      simp only [PMap.erase, List.map_cons, List.filter_cons, enc, bne_self_eq_false,
        Bool.false_eq_true, if_false, List.erase_cons_head]
      rw [List.filter_eq_self]
      intro e he
      obtain ⟨c, hc, rfl⟩ := List.mem_map.1 he
      exact this c hc
    · have hx' : x ∈ acc := by
        rcases List.mem_cons.1 hx with h | h
        · exact absurd h.symm hbx
        · exact h
      have hne := addr_ne_of_disjoint (hd'.1 x hx') (hpos b List.mem_cons_self) (hpos' x hx')
      have : (b.addr != x.addr) = true := by simpa [bne_iff_ne] using hne
      have hb : (b == x) = false := by simpa using hbx
      rw [List.erase_cons_tail (by simpa using hbx)]
      have ih' := ih hd'.2 hpos' hx'
      simp only [PMap.erase, List.map_cons, List.filter_cons, enc] at ih' ⊢
      rw [if_pos this]
      congr 1

theorem allocate_eq {up : MR σ} {s : Debug σ} {acc : List Blk} (h : Inv s acc) {n : Nat} (hn : 0 < n)
    (a : Nat) :
    (∀ p, (up.allocate s.up n a).1 = .ok p →
      ((∃ b ∈ acc, ¬ Blk.Disjoint ⟨p, n, a⟩ b) →
        (debugMR up).allocate s n a = (.logicError, { s with up := (up.allocate s.up n a).2 })) ∧
      ((∀ b ∈ acc, Blk.Disjoint ⟨p, n, a⟩ b) →
        (debugMR up).allocate s n a =
          (.ok p, ⟨enc ⟨p, n, a⟩ :: s.allocations, (up.allocate s.up n a).2⟩))) ∧
    ((∀ p, (up.allocate s.up n a).1 ≠ .ok p) →
      (debugMR up).allocate s n a =
        ((up.allocate s.up n a).1, { s with up := (up.allocate s.up n a).2 })) := by
  simp only [debugMR, pimpl, Nat.pos_iff_ne_zero.1 hn, if_false, Debug.allocate]
  refine ⟨?_, ?_⟩
  · intro p hp
    rw [hp]
    refine ⟨?_, ?_⟩
    · intro hov
      simp only [(any_overlaps_iff h hn a).2 hov, if_true]
    · intro hdis
      have : ¬ s.allocations.any (overlaps p n) = true := by
        rw [any_overlaps_iff h hn a]; rintro ⟨b, hb, hnd⟩; exact hnd (hdis b hb)
      simp only [this]
      have hnone : s.allocations.lookup p = none := by
        cases hl : s.allocations.lookup p with
        | none => rfl
        | some v =>
          rw [h.1, show v = (v.1, v.2) from rfl, lookup_enc h.2.1 h.2.2] at hl
          exact (addr_ne_of_disjoint (hdis _ hl) hn (h.2.2 _ hl) rfl).elim
      simp [PMap.emplace, hnone, enc]
  · intro hne
    cases hx : (up.allocate s.up n a).1 <;> simp_all

theorem deallocate_eq {up : MR σ} {s : Debug σ} {acc : List Blk} (h : Inv s acc) {p : Nat}
    (hp : p ≠ 0) (n a : Nat) :
    ((⟨p, n, a⟩ : Blk) ∉ acc → (debugMR up).deallocate s p n a = (.logicError, s)) ∧
    ((⟨p, n, a⟩ : Blk) ∈ acc →
      ((debugMR up).deallocate s p n a).1 = (up.deallocate s.up p n a).1 ∧
      ((debugMR up).deallocate s p n a).2.up = (up.deallocate s.up p n a).2 ∧
      ((debugMR up).deallocate s p n a).2.allocations =
        if (up.deallocate s.up p n a).1 = .ok () then PMap.erase s.allocations p
        else s.allocations) := by
  simp only [debugMR, pimpl, hp, if_false, Debug.deallocate]
  have hl := lookup_enc h.2.1 h.2.2 (p := p) (n := n) (a := a)
  rw [← h.1] at hl
  refine ⟨?_, ?_⟩
  · intro hm
    cases hx : s.allocations.lookup p with
    | none => rfl
    | some v =>
      simp only
      rw [if_pos]
      by_contra hc
      simp only [not_or, not_not, ne_eq] at hc
      apply hm
      rw [← hl, hx, ← hc.1, ← hc.2]
  · intro hm
    rw [hl.2 hm]
    simp only [ne_eq, not_true_eq_false, or_self, if_false]
    cases hx : (up.deallocate s.up p n a).1 <;> simp

theorem run_inv (up : MR σ) : ∀ (calls : List Call) (s : Debug σ) (acc : List Blk), Inv s acc →
    Inv ((debugMR up).run s calls).2 (ledger.go acc calls ((debugMR up).run s calls).1) := by
  intro calls
  induction calls with
  | nil => intro s acc h; simpa [MR.run, ledger.go] using h
  | cons c cs ih =>
    intro s acc h
    cases c with
    | alloc n a =>
      simp only [MR.run, MR.call]
      rcases Nat.eq_zero_or_pos n with hz | hz
      · subst hz
        have : (debugMR up).allocate s 0 a = (.ok 0, s) := by simp [debugMR, pimpl]
        rw [this]
        simp only [ledger.go, if_true]
        exact ih s acc h
      · obtain ⟨h1, h2⟩ := allocate_eq (up := up) h hz a
        by_cases hok : ∃ p, (up.allocate s.up n a).1 = .ok p
        · obtain ⟨p, hp⟩ := hok
          by_cases hov : ∃ b ∈ acc, ¬ Blk.Disjoint ⟨p, n, a⟩ b
          · rw [(h1 p hp).1 hov]
            simp only [ledger.go]
            exact ih _ acc h
          · have hdis : ∀ b ∈ acc, Blk.Disjoint ⟨p, n, a⟩ b := by
              intro b hb; by_contra hc; exact hov ⟨b, hb, hc⟩
            rw [(h1 p hp).2 hdis]
            simp only [ledger.go, Nat.pos_iff_ne_zero.1 hz, if_false]
            apply ih
            refine ⟨by simp [h.1, enc], List.pairwise_cons.2 ⟨hdis, h.2.1⟩, ?_⟩
            intro b hb
            rcases List.mem_cons.1 hb with rfl | hb
            · exact hz
            · exact h.2.2 b hb
        · have hne : ∀ p, (up.allocate s.up n a).1 ≠ .ok p := fun p hp => hok ⟨p, hp⟩
          rw [h2 hne]
          have : ledger.go acc (.alloc n a :: cs) (.alloc (up.allocate s.up n a).1 ::
              ((debugMR up).run { s with up := (up.allocate s.up n a).2 } cs).1) =
              ledger.go acc cs ((debugMR up).run { s with up := (up.allocate s.up n a).2 } cs).1 := by
            cases hx : (up.allocate s.up n a).1 <;> first | rfl | exact absurd hx (hne _)
          simp only
          rw [this]
          exact ih _ acc h
    | free p n a =>
      simp only [MR.run, MR.call]
      by_cases hp : p = 0
      · subst hp
        have : (debugMR up).deallocate s 0 n a = (.ok (), s) := by simp [debugMR, pimpl]
        rw [this]
        simp only [ledger.go, if_true]
        exact ih s acc h
      · obtain ⟨h1, h2⟩ := deallocate_eq (up := up) h hp n a
        by_cases hm : (⟨p, n, a⟩ : Blk) ∈ acc
        · obtain ⟨e1, e2, e3⟩ := h2 hm
          rw [e1]
          by_cases hok : (up.deallocate s.up p n a).1 = .ok ()
          · rw [if_pos hok] at e3
            rw [hok]
            simp only [ledger.go, hp, if_false]
            apply ih
            refine ⟨?_, h.2.1.sublist List.erase_sublist, fun b hb => h.2.2 b (List.mem_of_mem_erase hb)⟩
            rw [e3, h.1]
            exact erase_enc h.2.1 h.2.2 hm
          · rw [if_neg hok] at e3
            have : ∀ as, ledger.go acc (.free p n a :: cs)
                (.free (up.deallocate s.up p n a).1 :: as) = ledger.go acc cs as := by
              intro as
              cases hx : (up.deallocate s.up p n a).1 <;> first | rfl | exact absurd hx hok
            rw [this]
            apply ih
            exact ⟨by rw [e3, h.1], h.2⟩
        · rw [h1 hm]
          simp only [ledger.go]
          exact ih s acc h

end Debug

end Vecmem
