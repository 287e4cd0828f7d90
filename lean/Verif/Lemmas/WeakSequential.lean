import Verif.Lemmas.WeakKernel

/-!
# Lemmas: the order of the claims is a schedule
-/

namespace Vecmem

variable {α : Type}

/-- The claims of a vector, in the order in which they were made, are a schedule of the calls.  The assertions that were made (`d`) do not matter. -/
theorem Appending.sequential {V : WVec} {d : Bool} {m : AMem 32} {tasks : Nat → WTask 32} {tr : WTrace 32} {prog : Nat → WProg 32} {words : α → List (BitVec 32)} {s0 : DV α}
    {progs : List (List (ACall α))} (ha : Appending { V with dbg := d } m tasks tr prog) (hs : V.Shows words (fun a x => x = m a) s0)
    (hval : ∀ (i : Nat) (c : ACall α), c ∈ progs[i]?.getD [] → c.Valid true [])
    (hleft : ∀ i, List.Forall₂ (fun c e => ∃ v, CallLeft V m (tr.Final m) words s0.dflt c v e) (progs[i]?.getD [])
      ((WTrace.claims V.size tr).filter fun e => decide (e.thread = i))) :
    ∃ sched, ((Conc.start s0 progs).run sched).failed = false ∧ ((Conc.start s0 progs).run sched).Finished ∧
      V.Shows words (tr.Final m) ((Conc.start s0 progs).run sched).vec ∧
      ∀ i, (((Conc.start s0 progs).run sched).results i).map (·.1) = progs[i]?.getD [] ∧
        Returned V.size (((Conc.start s0 progs).run sched).results i) (WTrace.claims V.size (tr.of i)) := by
  obtain ⟨y, rfl, hy⟩ := hs.size
  have hcap : V.cap < 2 ^ 32 := ha.valid.cap
  rw [hs.cap] at hcap
  have hfits : (m V.size).toNat + tr.claimed V.size ≤ V.cap := ha.fits
  rw [hy, hs.cap] at hfits
  obtain ⟨o, h1, h2⟩ := merge (R := CallLeft V m (tr.Final m) words s0.dflt) (·.thread) (WTrace.claims V.size tr) (fun i => progs[i]?.getD []) hleft
  obtain ⟨h3, h4⟩ := ha.chain (R := CallLeft V m (tr.Final m) words s0.dflt) (fun c v e h => h.1) tr [] o rfl h1
  have h0 : WTrace.claimed V.size ([] : WTrace 32) = 0 := rfl
  rw [h0, hy, Nat.add_zero] at h3
  rw [h0, Nat.zero_add] at h4
  change claimed o = tr.claimed V.size at h4
  have hov : ∀ x ∈ o, x.2.1.Valid true [] := by
    intro x hx
    have : x.2.1 ∈ progs[x.1]?.getD [] := by
      rw [← h2 x.1]
      exact List.mem_map_of_mem (f := fun x : Claim α => x.2.1) (List.mem_filter.2 ⟨hx, by simp⟩)
    exact hval _ _ this
  obtain ⟨sched, hg⟩ := Conc.exists_ordered (progs := progs) hs.resizable hcap o h3 (by omega) hov fun i => ⟨[], by rw [List.append_nil]; exact (h2 i).symm⟩
  generalize hgeq : (Conc.start s0 progs).run sched = g at hg
  refine ⟨sched, ?_⟩
  rw [hgeq]
  have hres : ∀ i, g.results i = (o.filter fun x => decide (x.1 = i)).map (·.2) := by
    intro i
    unfold Conc.results
    cases ht : g.threads[i]? with
    | none =>
      have hi : progs.length ≤ i := by rw [← hg.len]; exact List.getElem?_eq_none_iff.1 ht
      have := h2 i
      rw [List.getElem?_eq_none hi, Option.getD_none] at this
      have := List.map_eq_nil_iff.1 this
      rw [this]; rfl
    | some t => exact (hg.threads i t ht).2.1
  refine ⟨hg.ok, ?_, ?_, ?_⟩
  · intro t ht
    obtain ⟨i, hi⟩ := List.getElem?_of_mem ht
    obtain ⟨h5, h6, h7⟩ := hg.threads i t hi
    refine ⟨?_, h5⟩
    have := h2 i
    rw [h7, Option.getD_some, h6, List.map_map] at this
    exact List.self_eq_append_right.1 this
  · obtain ⟨hk1, hk2, hk3, hk4, hk5, hk6⟩ := hg.kind
    refine ⟨hs.cap.trans hk2.symm, hs.dbg.trans hk1.symm, hk3.trans hs.resizable, ?_, ?_⟩
    · obtain ⟨y, h5, h6⟩ := ha.final_size
      exact ⟨y, h5, by rw [h6, hg.size, h4, hy]⟩
    · intro p hpc
      rw [hk2] at hpc
      obtain ⟨x, h5, h6⟩ := hs.elems p hpc
      by_cases hin : s0.sizeWord ≤ p ∧ p < s0.sizeWord + claimed o
      · obtain ⟨z, hz, h7, h8⟩ := h3.covers hin.1 hin.2
        rw [hg.inside z hz p h7 h8]
        refine ⟨_, rfl, fun v b hb => ?_⟩
        obtain ⟨n, hn⟩ := List.getElem?_of_mem hz
        obtain ⟨e, -, -, h9⟩ : ∃ e, (WTrace.claims V.size tr)[n]? = some e ∧ z.1 = e.thread ∧ CallLeft V m (tr.Final m) words s0.dflt z.2.1 z.2.2 e := by
          obtain ⟨e, h10, h11⟩ := forall₂_get h1.flip hn
          exact ⟨e, h10, h11⟩
        have h12 := h9.2 v (p - z.2.2) (by omega)
        rw [weak_leaves (hov z hz) v (by omega), show z.2.2 + (p - z.2.2) = p by omega] at h12
        cases hvv : z.2.1.value s0.dflt [] with
        | none =>
          rw [hvv, Option.getD_none, h5, Option.getD_some] at hb
          rw [hvv, Option.bind_none, Option.getD_none, ← h6 v b hb] at h12
          exact h12
        | some y =>
          rw [hvv, Option.getD_some] at hb
          rw [hvv, Option.bind_some, hb, Option.getD_some] at h12
          exact h12
      · refine ⟨x, by rw [hg.outside p (by omega), h5], fun v b hb => ?_⟩
        have := ha.final_old (v := v) (p := p) (by change p < (m V.size).toNat ∨ (m V.size).toNat + tr.claimed V.size ≤ p; omega)
        rw [← h6 v b hb] at this
        exact this
  · intro i
    refine ⟨by rw [hres i, List.map_map]; exact h2 i, ?_⟩
    rw [hres i, WTrace.of]
    unfold Returned WTrace.claims
    rw [List.filter_comm]
    have := forall₂_filter (p := fun x => decide (x.1 = i)) (q := fun e => decide (e.thread = i)) h1 (fun x e h => by rw [h.1])
    refine List.forall₂_map_left_iff.2 (this.imp fun x e h => h.2.1)

end Vecmem
