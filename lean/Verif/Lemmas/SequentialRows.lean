import Verif.Lemmas.SequentialRun
import Verif.Lemmas.RowConc

/-!
# Lemmas: schedules of kernels on rows that run call after call
-/

namespace Vecmem

section

variable {α : Type}

/-- The vector after the calls in `o` have been made one after the other. -/
structure OrderedVec (s0 : DV α) (o : List (Claim α)) (s : DV α) : Prop where
  kind : s.dbg = s0.dbg ∧ s.cap = s0.cap ∧ s.hasSize = s0.hasSize ∧ s.dflt = s0.dflt ∧ s.junk = s0.junk ∧ s.trivialDtor = s0.trivialDtor
  size : s.sizeWord = s0.sizeWord + claimed o
  outside : ∀ p, (p < s0.sizeWord ∨ s0.sizeWord + claimed o ≤ p) → s.mem p = s0.mem p
  inside : ∀ x ∈ o, ∀ p, x.2.2 ≤ p → p < x.2.2 + x.2.1.count → s.mem p = some ((x.2.1.value s0.dflt []).getD ((s0.mem p).getD (s0.junk p)))

theorem Conc.Ordered.vec {s0 : DV α} {progs : List (List (ACall α))} {o : List (Claim α)} {g : Conc α} (h : Ordered s0 progs o g) : OrderedVec s0 o g.vec :=
  ⟨h.kind, h.size, h.outside, h.inside⟩

theorem OrderedVec.nil (s0 : DV α) : OrderedVec s0 [] s0 := ⟨⟨rfl, rfl, rfl, rfl, rfl, rfl⟩, by simp [claimed], fun _ _ => rfl, by simp⟩

theorem chain_snoc {j idx : Nat} {c : ACall α} : ∀ {o : List (Claim α)} {base : Nat}, Chain base (o ++ [(j, c, idx)]) → Chain base o ∧ idx = base + claimed o
  | [], _, h => ⟨trivial, by simpa [claimed, Chain] using h.1⟩
  | y :: o, base, h => by
    obtain ⟨h1, h2⟩ := chain_snoc (o := o) h.2
    refine ⟨⟨h.1, h1⟩, ?_⟩
    rw [h2]
    simp only [claimed, List.map_cons, List.sum_cons]
    omega

theorem OrderedVec.call {s0 s : DV α} {o : List (Claim α)} {j idx : Nat} {c : ACall α} (h : OrderedVec s0 o s) (hch : Chain s0.sizeWord (o ++ [(j, c, idx)])) :
    idx = s.sizeWord ∧ OrderedVec s0 (o ++ [(j, c, idx)]) (afterCall s c) := by
  obtain ⟨hch', hidx⟩ := chain_snoc hch
  obtain ⟨hk1, hk2, hk3, hk4, hk5, hk6⟩ := h.kind
  refine ⟨by rw [h.size]; exact hidx, ⟨hk1, hk2, hk3, hk4, hk5, hk6⟩, ?_, ?_, ?_⟩
  · simp only [afterCall, h.size, claimed_append]; omega
  · intro p hp
    rw [claimed_append] at hp
    simp only at hp
    simp only [afterCall]
    rw [if_neg (by rw [h.size]; omega)]
    exact h.outside p (by omega)
  · intro x hx p hp1 hp2
    simp only [afterCall]
    rcases List.mem_append.1 hx with hx | hx
    · have hb := hch'.bounds hx
      rw [if_neg (by rw [h.size]; omega)]
      exact h.inside x hx p hp1 hp2
    · obtain rfl := List.mem_singleton.1 hx
      simp only at hp1 hp2 ⊢
      rw [if_pos (by rw [h.size]; omega), hk4, hk5, h.outside p (by omega)]
      cases c.value s0.dflt [] <;> rfl

end

namespace RowConc

theorem run_cons (g : RowConc) (i : Nat) (l : List Nat) : g.run (i :: l) = (g.step i).run l := rfl

theorem step_eq {g : RowConc} {i r : Nat} {t : RowThread} {cs : List (ACall Elem)} {rest : List (Nat × ACall Elem)} {s s' : DV Elem} {u : Thread Elem} (hf : g.failed = false)
    (ht : g.threads[i]? = some t) (hn : t.next = some (r, cs, rest)) (hs : g.rows[r]? = some s) (hst : Conc.stepThread s ⟨cs, t.phase, []⟩ = some (s', u)) :
    g.step i = ⟨g.rows.set r s', g.threads.set i { todo := rest, row := r, phase := u.phase, done := t.done ++ u.done.map fun x => (r, x) }, false⟩ := by
  unfold step
  rw [hf, ht]
  simp only [Bool.false_eq_true, if_false, stepThread, hn, hs, hst]

/-- The constructions of a call. -/
theorem run_writes {c : ACall Elem} {x : Elem} (i r index : Nat) (cs : List (Nat × ACall Elem)) (d : List (Nat × ACall Elem × Nat)) :
    ∀ (n k : Nat) (s : DV Elem) (R : List (DV Elem)) (L : List RowThread), k + n = c.writes → c.arg s.dflt = .val x → index + c.writes ≤ s.cap → s.cap < 2 ^ 32 → r < R.length → i < L.length →
      RowConc.run ⟨R.set r s, L.set i ⟨cs, r, .writing c index k, d⟩, false⟩ (List.replicate (n + 1) i) =
        ⟨R.set r { s with mem := fun p => if index + k ≤ p ∧ p < index + c.writes then some x else s.mem p }, L.set i ⟨cs, r, .idle, d ++ [(r, c, index)]⟩, false⟩ := by
  intro n
  induction n with
  | zero =>
    intro k s R L hk ha hcap hc hR hL
    rw [List.replicate_one, run_cons, step_eq (t := ⟨cs, r, .writing c index k, d⟩) (r := r) (cs := []) (rest := cs) (s := s) (s' := s) (u := ⟨[], .idle, [(c, index)]⟩)
      rfl (by simp [hL]) rfl (by simp [hR]) (by simp only [Conc.stepThread]; rw [if_neg (by omega)]; rfl)]
    simp only [RowConc.run, List.foldl_nil, List.set_set, List.map_cons, List.map_nil, RowConc.mk.injEq, and_true]
    have : s.mem = fun p => if index + k ≤ p ∧ p < index + c.writes then some x else s.mem p := by
      funext p
      rw [if_neg (by omega)]
    rw [← this]
  | succ n ih =>
    intro k s R L hk ha hcap hc hR hL
    have hst : Conc.stepThread s ⟨[], .writing c index k, []⟩ = some (s.put (index + k) (some x), ⟨[], .writing c index (k + 1), []⟩) := by
      simp only [Conc.stepThread]
      rw [if_pos (by omega), ha, Nat.mod_eq_of_lt (by omega)]
      have : decide (index + k < s.cap) = true := by simp; omega
      simp [DV.construct, DV.read, this]
    rw [List.replicate_succ, run_cons, step_eq (t := ⟨cs, r, .writing c index k, d⟩) (r := r) (cs := []) (rest := cs) rfl (by simp [hL]) rfl (by simp [hR]) hst]
    simp only [List.set_set, List.map_nil, List.append_nil]
    rw [ih (k + 1) (s.put (index + k) (some x)) R L (by omega) ha hcap hc hR hL]
    simp only [DV.put, RowConc.mk.injEq, and_true]
    congr 2
    funext p
    by_cases h1 : index + (k + 1) ≤ p ∧ p < index + c.writes
    · rw [if_pos h1, if_pos (by omega)]
    · rw [if_neg h1]
      by_cases h2 : p = index + k
      · rw [if_pos h2, if_pos (by omega)]
      · rw [if_neg h2, if_neg (by omega)]

/-- A call that runs alone. -/
theorem run_call {g : RowConc} {i r row : Nat} {c : ACall Elem} {cs : List (Nat × ACall Elem)} {d : List (Nat × ACall Elem × Nat)} {s : DV Elem} (hf : g.failed = false)
    (ht : g.threads[i]? = some ⟨(r, c) :: cs, row, .idle, d⟩) (hr : g.rows[r]? = some s) (hs : s.hasSize = true) (hv : c.Valid true [])
    (hroom : s.sizeWord + c.count ≤ s.cap) (hc : s.cap < 2 ^ 32) :
    g.run (List.replicate (c.writes + 3) i) = ⟨g.rows.set r (afterCall s c), g.threads.set i ⟨cs, r, .idle, d ++ [(r, c, s.sizeWord)]⟩, false⟩ := by
  obtain ⟨R, L, f⟩ := g
  simp only at hf ht hr ⊢
  subst hf
  have hL := (List.getElem?_eq_some_iff.1 ht).1
  have hR := (List.getElem?_eq_some_iff.1 hr).1
  have h1 : Conc.stepThread s ⟨[c], .idle, []⟩ = some ({ s with sizeWord := s.sizeWord + c.count }, ⟨[], .claimed c s.sizeWord, []⟩) := by
    simp only [Conc.stepThread, hs, DV.fetchAdd, Bool.not_true, Bool.false_eq_true, if_false]
    rw [Nat.mod_eq_of_lt (by omega)]
  have hcheck : c.check s.cap s.sizeWord = true := by
    cases c <;> simp only [ACall.check, ACall.count, decide_eq_true_eq] at hroom ⊢
    · omega
    · omega
    · rw [Nat.mod_eq_of_lt (by omega)]; exact hroom
    · rw [Nat.mod_eq_of_lt (by omega)]; exact hroom
    · rw [Nat.mod_eq_of_lt (by omega)]; exact hroom
  have h2 : Conc.stepThread { s with sizeWord := s.sizeWord + c.count } ⟨[], .claimed c s.sizeWord, []⟩ =
      some (c.implicit { s with sizeWord := s.sizeWord + c.count } s.sizeWord, ⟨[], .writing c s.sizeWord 0, []⟩) := by
    simp [Conc.stepThread, hcheck]
  rw [show c.writes + 3 = (c.writes + 1) + 1 + 1 from rfl, List.replicate_succ, run_cons, step_eq rfl ht rfl hr h1]
  rw [List.replicate_succ, run_cons, step_eq (t := ⟨cs, r, .claimed c s.sizeWord, d⟩) (r := r) (cs := []) (rest := cs) rfl (by simp [hL]) rfl (by simp [hR]) h2]
  simp only [List.set_set, List.map_nil, List.append_nil]
  have hw := ACall.writes_le c
  have hfin : ∀ (x : Elem) (hx : c.arg (c.implicit { s with sizeWord := s.sizeWord + c.count } s.sizeWord).dflt = .val x)
      (hcap : (c.implicit { s with sizeWord := s.sizeWord + c.count } s.sizeWord).cap = s.cap), _ :=
    fun x hx hcap => run_writes (x := x) i r s.sizeWord cs d c.writes 0 (c.implicit { s with sizeWord := s.sizeWord + c.count } s.sizeWord) R L (by omega) hx
      (by rw [hcap]; omega) (by rw [hcap]; exact hc) hR hL
  cases c with
  | push a =>
    cases a with
    | elem => simp [ACall.Valid, Arg.value] at hv
    | val x => rw [hfin x rfl rfl]; rfl
  | emplace a =>
    cases a with
    | elem => simp [ACall.Valid, Arg.value] at hv
    | val x => rw [hfin x rfl rfl]; rfl
  | bulk n => rw [hfin s.dflt rfl rfl]; rfl
  | bulkValue n a =>
    cases a with
    | elem => simp [ACall.Valid, Arg.value] at hv
    | val x => rw [hfin x rfl rfl]; rfl
  | bulkImplicit n =>
    rw [hfin s.dflt rfl rfl]
    simp only [ACall.implicit, DV.implicit, ACall.writes, afterCall, ACall.value, ACall.count, RowConc.mk.injEq, and_true, Nat.add_zero]
    congr 2
    funext p
    simp only [ACall.count] at hroom
    rw [if_neg (by omega)]
    have : (s.sizeWord ≤ p ∧ p < s.sizeWord + n ∧ p < s.cap) ↔ (s.sizeWord ≤ p ∧ p < s.sizeWord + n) := by omega
    simp only [this]
    rfl

/-- What is known after calls have been run one after the other in the order `O`. -/
structure Ordered (rows0 : List (DV Elem)) (progs : List (List (Nat × ACall Elem))) (O : List (Nat × Nat × ACall Elem × Nat)) (g : RowConc) : Prop where
  ok : g.failed = false
  rlen : g.rows.length = rows0.length
  tlen : g.threads.length = progs.length
  rows : ∀ (r : Nat) (s0 s : DV Elem), rows0[r]? = some s0 → g.rows[r]? = some s → OrderedVec s0 (claimsOn O r) s
  threads : ∀ (i : Nat) (t : RowThread), g.threads[i]? = some t → t.phase = .idle ∧ t.done = (O.filter (·.1 = i)).map (·.2) ∧
    progs[i]? = some (t.done.map (fun x => (x.1, x.2.1)) ++ t.todo)

theorem exists_ordered {rows0 : List (DV Elem)} {progs : List (List (Nat × ACall Elem))} (hs : ∀ s ∈ rows0, s.hasSize = true ∧ s.cap < 2 ^ 32)
    (O : List (Nat × Nat × ACall Elem × Nat)) :
    (∀ (r : Nat) (s0 : DV Elem), rows0[r]? = some s0 → Chain s0.sizeWord (claimsOn O r) ∧ s0.sizeWord + claimed (claimsOn O r) ≤ s0.cap) →
    (∀ x ∈ O, x.2.1 < rows0.length ∧ x.2.2.1.Valid true []) →
    (∀ i, ∃ rest, progs[i]?.getD [] = (O.filter (·.1 = i)).map (fun x => (x.2.1, x.2.2.1)) ++ rest) → ∃ sched, Ordered rows0 progs O ((RowConc.start rows0 progs).run sched) := by
  induction O using List.reverseRecOn with
  | nil =>
    intro _ _ _
    refine ⟨[], ⟨rfl, rfl, by simp [RowConc.run, RowConc.start], ?_, ?_⟩⟩
    · intro r s0 s h1 h2
      have : rows0[r]? = some s := h2
      rw [h1] at this; cases this
      exact .nil s0
    · intro i t ht
      simp only [RowConc.run, RowConc.start, List.foldl_nil, List.getElem?_map, Option.map_eq_some_iff] at ht
      obtain ⟨p, h1, rfl⟩ := ht
      exact ⟨rfl, rfl, by simpa using h1⟩
  | append_singleton O x ih =>
    intro hch hval hprog
    obtain ⟨j, r, c, idx⟩ := x
    have hsplit : ∀ r', claimsOn (O ++ [(j, r, c, idx)]) r' = claimsOn O r' ++ if r = r' then [(j, c, idx)] else [] := by
      intro r'
      rw [claimsOn_append]
      congr 1
      by_cases h : r = r' <;> simp [claimsOn, h]
    obtain ⟨sched, h⟩ := ih (fun r' s0 h1 => by
        obtain ⟨h2, h3⟩ := hch r' s0 h1
        rw [hsplit] at h2 h3
        by_cases hr : r = r'
        · rw [if_pos hr] at h2 h3
          rw [claimed_append] at h3
          exact ⟨(chain_snoc h2).1, by omega⟩
        · rw [if_neg hr, List.append_nil] at h2 h3
          exact ⟨h2, h3⟩)
      (fun x hx => hval x (List.mem_append_left _ hx)) (by
      intro i
      obtain ⟨rest, hr⟩ := hprog i
      rw [List.filter_append, List.map_append, List.append_assoc] at hr
      exact ⟨_, hr⟩)
    obtain ⟨hrlt, hcv⟩ := hval (j, r, c, idx) (by simp)
    simp only at hrlt hcv
    obtain ⟨rest, hr⟩ := hprog j
    rw [List.filter_append, List.map_append, List.append_assoc] at hr
    simp only [List.filter_cons, decide_true, if_true, List.filter_nil, List.map_cons, List.map_nil, List.cons_append, List.nil_append] at hr
    have hj : j < progs.length := by
      by_contra hn
      rw [List.getElem?_eq_none (by omega)] at hr
      simp at hr
    generalize hg : (RowConc.start rows0 progs).run sched = g at h
    obtain ⟨t, ht⟩ : ∃ t, g.threads[j]? = some t := ⟨_, List.getElem?_eq_getElem (by rw [h.tlen]; exact hj)⟩
    obtain ⟨h1, h2, h3⟩ := h.threads j t ht
    have htodo : t.todo = (r, c) :: rest := by
      rw [h3, h2, Option.getD_some, List.map_map] at hr
      exact List.append_cancel_left hr
    obtain ⟨s0, hs0⟩ : ∃ s0, rows0[r]? = some s0 := ⟨_, List.getElem?_eq_getElem hrlt⟩
    obtain ⟨s, hsr⟩ : ∃ s, g.rows[r]? = some s := ⟨_, List.getElem?_eq_getElem (by rw [h.rlen]; exact hrlt)⟩
    have hvec := h.rows r s0 s hs0 hsr
    obtain ⟨hc1, hc2⟩ := hch r s0 hs0
    rw [hsplit, if_pos rfl] at hc1 hc2
    rw [claimed_append] at hc2
    simp only at hc2
    obtain ⟨hidx, hvec'⟩ := hvec.call hc1
    obtain ⟨hs1, hs2⟩ := hs s0 (List.mem_of_getElem? hs0)
    obtain ⟨hk1, hk2, hk3, hk4, hk5, hk6⟩ := hvec.kind
    have hcall := run_call (g := g) (i := j) (r := r) (row := t.row) (c := c) (cs := rest) (d := t.done) (s := s) h.ok
      (by rw [ht]; congr 1; obtain ⟨a, b, c', d'⟩ := t; simp only at h1 htodo; subst h1; subst htodo; rfl) hsr (by rw [hk3]; exact hs1) hcv
      (by rw [hvec.size, hk2]; omega) (by rw [hk2]; exact hs2)
    refine ⟨sched ++ List.replicate (c.writes + 3) j, ?_⟩
    have : (RowConc.start rows0 progs).run (sched ++ List.replicate (c.writes + 3) j) = g.run (List.replicate (c.writes + 3) j) := by
      rw [← hg]; exact List.foldl_append
    rw [this, hcall]
    refine ⟨rfl, by simp [h.rlen], by simp [h.tlen], ?_, ?_⟩
    · intro r' s0' s' g1 g2
      rw [hsplit]
      simp only [List.getElem?_set] at g2
      by_cases hr' : r = r'
      · subst hr'
        rw [hs0] at g1; cases g1
        rw [if_pos rfl, if_pos (by rw [h.rlen]; exact hrlt)] at g2
        cases g2
        rw [if_pos rfl]
        exact hvec'
      · rw [if_neg hr'] at g2
        rw [if_neg hr', List.append_nil]
        exact h.rows r' s0' s' g1 g2
    · intro i t' ht'
      have hjl : j < g.threads.length := by rw [h.tlen]; exact hj
      simp only [List.getElem?_set] at ht'
      by_cases hij : j = i
      · subst hij
        simp only [if_true, hjl, Option.some.injEq] at ht'
        subst ht'
        refine ⟨rfl, ?_, ?_⟩
        · simp [h2, hidx]
        · rw [h3, htodo]; simp
      · rw [if_neg hij] at ht'
        obtain ⟨h4, h5, h6⟩ := h.threads i t' ht'
        exact ⟨h4, by simp [h5, hij], h6⟩

/-- When all threads have ended, nothing more is done. -/
theorem run_finished {g : RowConc} (h : ∀ t ∈ g.threads, t.todo = [] ∧ t.phase = .idle) (l : List Nat) : g.run l = g := by
  induction l with
  | nil => rfl
  | cons i l ih =>
    rw [run_cons]
    have : g.step i = g := by
      unfold step
      split
      · rfl
      · split
        · rfl
        · next t ht =>
          obtain ⟨h1, h2⟩ := h t (List.mem_of_getElem? ht)
          have hn : t.next = none := by unfold RowThread.next; rw [h1, h2]
          simp only [stepThread, hn]
          have hl := (List.getElem?_eq_some_iff.1 ht)
          have : g.threads.set i t = g.threads := by
            obtain ⟨hlt, rfl⟩ := hl
            exact List.set_getElem_self hlt
          rw [this]
    rw [this]
    exact ih

end RowConc

end Vecmem
