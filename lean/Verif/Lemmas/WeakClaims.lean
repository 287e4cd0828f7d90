import Verif.Spec.WeakVector
import Verif.Lemmas.WeakImpls
import Verif.Lemmas.Tactics

/-!
# Lemmas: additions to a variable that is changed in no other way, on weak memory
-/

namespace Vecmem

variable {w : Nat}

/-- The access changes the variable. -/
def WEvent.changes (a : Nat) (e : WEvent w) : Bool := decide (e.addr = a) && e.wrote.isSome

/-- How many accesses have changed the variable. -/
def WTrace.changes (a : Nat) (tr : WTrace w) : Nat := tr.countP (·.changes a)

/-- The variable is changed by additions only. -/
structure Adds (m : AMem w) (a : Nat) (tr : WTrace w) : Prop where
  writes : tr.FromWrites m
  correct : ∀ e ∈ tr, e.Correct
  adds : ∀ e ∈ tr, e.addr = a → e.wrote.isSome → ∃ x o, e.call = .atomic (.fetchAdd x) o

theorem claimed_take_succ {a : Nat} {tr : WTrace w} {q : Nat} {e : WEvent w} (h : tr[q]? = some e) :
    WTrace.claimed a (tr.take (q + 1)) = WTrace.claimed a (tr.take q) + e.claimed a := by
  rw [List.take_add_one, h]
  simp [WTrace.claimed]

theorem changes_take_succ {a : Nat} {tr : WTrace w} {q : Nat} {e : WEvent w} (h : tr[q]? = some e) :
    WTrace.changes a (tr.take (q + 1)) = WTrace.changes a (tr.take q) + if e.changes a then 1 else 0 := by
  rw [List.take_add_one, h]
  simp [WTrace.changes, List.countP_cons]

theorem take_of_none {α : Type} {l : List α} {q : Nat} (h : l[q]? = none) : l.take (q + 1) = l.take q := by
  rw [List.take_add_one, h]
  simp

theorem claimed_mono {a : Nat} (tr : WTrace w) {p q : Nat} (h : p ≤ q) : WTrace.claimed a (tr.take p) ≤ WTrace.claimed a (tr.take q) := by
  induction q with
  | zero => cases Nat.le_zero.1 h; exact Nat.le_refl _
  | succ q ih =>
    rcases Nat.lt_or_ge q p with hp | hp
    · have : p = q + 1 := by omega
      subst this; exact Nat.le_refl _
    · refine Nat.le_trans (ih hp) ?_
      cases he : tr[q]? with
      | none => rw [take_of_none he]
      | some e => rw [claimed_take_succ he]; omega

theorem changes_mono {a : Nat} (tr : WTrace w) {p q : Nat} (h : p ≤ q) : WTrace.changes a (tr.take p) ≤ WTrace.changes a (tr.take q) := by
  induction q with
  | zero => cases Nat.le_zero.1 h; exact Nat.le_refl _
  | succ q ih =>
    rcases Nat.lt_or_ge q p with hp | hp
    · have : p = q + 1 := by omega
      subst this; exact Nat.le_refl _
    · refine Nat.le_trans (ih hp) ?_
      cases he : tr[q]? with
      | none => rw [take_of_none he]
      | some e => rw [changes_take_succ he]; omega

theorem claimed_take_le {a : Nat} (tr : WTrace w) (q : Nat) : WTrace.claimed a (tr.take q) ≤ WTrace.claimed a tr := by
  rcases Nat.le_total q tr.length with h | h
  · have := claimed_mono (a := a) tr h
    rwa [List.take_length] at this
  · rw [List.take_of_length_le h]

/-- Among the first accesses there is the one that made the change number `t`. -/
theorem exists_change {a : Nat} (tr : WTrace w) {t q : Nat} (h : t < WTrace.changes a (tr.take q)) :
    ∃ i e, i < q ∧ tr[i]? = some e ∧ e.changes a ∧ WTrace.changes a (tr.take i) = t := by
  induction q with
  | zero => simp [WTrace.changes] at h
  | succ q ih =>
    cases he : tr[q]? with
    | none =>
      rw [take_of_none he] at h
      obtain ⟨i, e, h1, h2⟩ := ih h
      exact ⟨i, e, by omega, h2⟩
    | some e =>
      rw [changes_take_succ he] at h
      by_cases hq : t < WTrace.changes a (tr.take q)
      · obtain ⟨i, e, h1, h2⟩ := ih hq
        exact ⟨i, e, by omega, h2⟩
      · by_cases hc : e.changes a
        · rw [if_pos hc] at h
          exact ⟨q, e, by omega, he, hc, by omega⟩
        · rw [if_neg hc] at h; omega

namespace Adds

variable {m : AMem w} {a : Nat} {tr : WTrace w}

theorem spec (h : Adds m a tr) {q : Nat} {e : WEvent w} (he : tr[q]? = some e) (hc : e.changes a) :
    e.addr = a ∧ ∃ x o t v, e.call = .atomic (.fetchAdd x) o ∧ e.read = some (t, v) ∧ e.wrote = some (t + 1, v + x) ∧ e.claimed a = x.toNat := by
  have hm := List.mem_of_getElem? he
  simp only [WEvent.changes, Bool.and_eq_true, decide_eq_true_eq] at hc
  obtain ⟨x, o, hx⟩ := h.adds e hm hc.1 hc.2
  have hcor := h.correct e hm
  simp only [WEvent.Correct, hx, AOp.spec] at hcor
  obtain ⟨t, v, h1, h2⟩ := hcor
  exact ⟨hc.1, x, o, t, v, hx, h1, h2, by simp [WEvent.claimed, hc.1, hx]⟩

theorem fetchAdd_changes (h : Adds m a tr) {e : WEvent w} (he : e ∈ tr) (ha : e.addr = a) {x : BitVec w} {o : Option MemOrder}
    (hx : e.call = .atomic (.fetchAdd x) o) : e.changes a := by
  have hcor := h.correct e he
  simp only [WEvent.Correct, hx, AOp.spec] at hcor
  obtain ⟨t, v, h1, h2⟩ := hcor
  simp [WEvent.changes, ha, h2]

/-- The accesses that do not change the variable claim nothing. -/
theorem claimed_zero (h : Adds m a tr) {e : WEvent w} (he : e ∈ tr) (hc : e.changes a = false) : e.claimed a = 0 := by
  unfold WEvent.claimed
  split
  · next ha =>
    split
    · next x o hx => rw [h.fetchAdd_changes he ha hx] at hc; cases hc
    · rfl
  · rfl

/-- The change reads what the one before has written. -/
theorem reads (h : Adds m a tr) (q : Nat) : ∀ (e : WEvent w) (t : Nat) (v : BitVec w), tr[q]? = some e → e.changes a → e.read = some (t, v) →
    t = WTrace.changes a (tr.take q) ∧ v = m a + BitVec.ofNat w (WTrace.claimed a (tr.take q)) := by
  induction q using Nat.strongRecOn with
  | _ q ih =>
    intro e t v he hc hr
    obtain ⟨ha, x, o, t₀, v₀, hx, hr₀, hw₀, -⟩ := h.spec he hc
    rw [hr] at hr₀
    cases hr₀
    have hle : t ≤ WTrace.changes a (tr.take q) → t = WTrace.changes a (tr.take q) := by
      intro hle
      by_contra hne
      obtain ⟨i, f, h1, h2, h3, h4⟩ := exists_change tr (a := a) (t := t) (q := q) (by omega)
      obtain ⟨hfa, x', o', t', v', hx', hr', hw', -⟩ := h.spec h2 h3
      have h5 := (ih i h1 f t' v' h2 h3 hr').1
      have : t' = t := by omega
      subst this
      have := h.writes.2.2 i q f e _ _ _ h2 he (hfa.trans ha.symm) hw' hw₀
      omega
    rcases h.writes.1 q e t v he hr with ⟨h1, h2⟩ | ⟨i, f, h1, h2, h3, h4⟩
    · subst h1
      have h0 := hle (Nat.zero_le _)
      refine ⟨h0, ?_⟩
      have hz : WTrace.claimed a (tr.take q) = 0 := by
        have : ∀ g ∈ tr.take q, g.changes a = false := by
          have := h0.symm
          simp only [WTrace.changes] at this
          intro g hg
          rw [List.countP_eq_zero] at this
          simpa using this g hg
        simp only [WTrace.claimed]
        rw [List.sum_eq_zero_iff_forall_eq_nat]
        intro n hn
        obtain ⟨g, hg, rfl⟩ := List.mem_map.1 hn
        exact h.claimed_zero (List.mem_of_mem_take hg) (this g hg)
      rw [hz, h2, ha]
      simp
    · have hcf : f.changes a := by simp [WEvent.changes, h3, ha, h4]
      obtain ⟨hfa, x', o', t', v', hx', hr', hw', hn⟩ := h.spec h2 hcf
      rw [h4] at hw'
      cases hw'
      obtain ⟨h5, h6⟩ := ih i h1 f t' v' h2 hcf hr'
      have h7 := changes_take_succ (a := a) h2
      rw [if_pos hcf] at h7
      have h8 := changes_mono (a := a) tr (Nat.succ_le_of_lt h1)
      simp only [Nat.succ_eq_add_one] at h8
      have h9 := hle (by omega)
      refine ⟨h9, ?_⟩
      -- nothing is claimed between
      have hz : ∀ k, i + 1 ≤ k → k ≤ q → WTrace.claimed a (tr.take k) = WTrace.claimed a (tr.take (i + 1)) := by
        intro k hk hkq
        induction k with
        | zero => omega
        | succ k ihk =>
          rcases Nat.lt_or_ge k (i + 1) with hlt | hge
          · have : k = i := by omega
            subst this; rfl
          · cases hg : tr[k]? with
            | none => rw [take_of_none hg]; exact ihk hge (by omega)
            | some g =>
              rw [claimed_take_succ hg, ihk hge (by omega)]
              have : g.changes a = false := by
                by_contra hgc
                simp only [Bool.not_eq_false] at hgc
                have e1 := changes_take_succ (a := a) hg
                rw [if_pos hgc] at e1
                have e2 := changes_mono (a := a) tr hge
                have e3 := changes_mono (a := a) tr hkq
                omega
              rw [h.claimed_zero (List.mem_of_getElem? hg) this]
              rfl
      rw [hz q (by omega) (Nat.le_refl _), claimed_take_succ h2, hn, h6, BitVec.add_assoc]
      congr 1
      apply BitVec.eq_of_toNat_eq
      simp

end Adds

end Vecmem
