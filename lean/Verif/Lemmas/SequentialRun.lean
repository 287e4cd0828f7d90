import Verif.Lemmas.DeviceVectorConcurrent
import Verif.Lemmas.Tactics
import Mathlib.Data.List.Induction

/-!
# Lemmas: schedules that run call after call
-/

namespace Vecmem

variable {α : Type}

/-- The vector after a call that has run alone. -/
def afterCall (s : DV α) (c : ACall α) : DV α :=
  { s with
    sizeWord := s.sizeWord + c.count
    mem := fun p =>
      if s.sizeWord ≤ p ∧ p < s.sizeWord + c.count then
        match c.value s.dflt [] with
        | some x => some x
        | none => some ((s.mem p).getD (s.junk p))
      else s.mem p }

namespace Conc

theorem run_cons (g : Conc α) (i : Nat) (l : List Nat) : g.run (i :: l) = (g.step i).run l := rfl

theorem step_eq {g : Conc α} {i : Nat} {t t' : Thread α} {s : DV α} (hf : g.failed = false) (ht : g.threads[i]? = some t)
    (hs : stepThread g.vec t = some (s, t')) : g.step i = ⟨s, g.threads.set i t', false⟩ := by
  unfold step
  rw [hf, ht]
  simp only [Bool.false_eq_true, if_false, hs]

/-- The constructions of a call. -/
theorem run_writes {c : ACall α} {x : α} (i index : Nat) (cs : List (ACall α)) (d : List (ACall α × Nat)) :
    ∀ (n k : Nat) (s : DV α) (L : List (Thread α)), k + n = c.writes → c.arg s.dflt = .val x → index + c.writes ≤ s.cap → s.cap < 2 ^ 32 → i < L.length →
      Conc.run ⟨s, L.set i ⟨cs, .writing c index k, d⟩, false⟩ (List.replicate (n + 1) i) =
        ⟨{ s with mem := fun p => if index + k ≤ p ∧ p < index + c.writes then some x else s.mem p }, L.set i ⟨cs, .idle, d ++ [(c, index)]⟩, false⟩ := by
  intro n
  induction n with
  | zero =>
    intro k s L hk ha hcap hc hL
    rw [List.replicate_one, run_cons, step_eq (t := ⟨cs, .writing c index k, d⟩) rfl (by simp [hL]) (s := s) (t' := ⟨cs, .idle, d ++ [(c, index)]⟩)
      (by simp only [stepThread]; rw [if_neg (by omega)])]
    simp only [Conc.run, List.foldl_nil, List.set_set, Conc.mk.injEq, and_true]
    have : s.mem = fun p => if index + k ≤ p ∧ p < index + c.writes then some x else s.mem p := by
      funext p
      rw [if_neg (by omega)]
    rw [← this]
  | succ n ih =>
    intro k s L hk ha hcap hc hL
    have hst : stepThread s ⟨cs, .writing c index k, d⟩ = some (s.put (index + k) (some x), ⟨cs, .writing c index (k + 1), d⟩) := by
      simp only [stepThread]
      rw [if_pos (by omega), ha, Nat.mod_eq_of_lt (by omega)]
      have : decide (index + k < s.cap) = true := by simp; omega
      simp [DV.construct, DV.read, this]
    rw [List.replicate_succ, run_cons, step_eq (t := ⟨cs, .writing c index k, d⟩) rfl (by simp [hL]) hst]
    simp only [List.set_set]
    rw [ih (k + 1) (s.put (index + k) (some x)) L (by omega) ha hcap hc hL]
    simp only [DV.put, Conc.mk.injEq, and_true]
    congr 1
    funext p
    by_cases h1 : index + (k + 1) ≤ p ∧ p < index + c.writes
    · rw [if_pos h1, if_pos (by omega)]
    · rw [if_neg h1]
      by_cases h2 : p = index + k
      · rw [if_pos h2, if_pos (by omega)]
      · rw [if_neg h2, if_neg (by omega)]

/-- A call that runs alone. -/
theorem run_call {g : Conc α} {i : Nat} {c : ACall α} {cs : List (ACall α)} {d : List (ACall α × Nat)} (hf : g.failed = false)
    (ht : g.threads[i]? = some ⟨c :: cs, .idle, d⟩) (hs : g.vec.hasSize = true) (hv : c.Valid true []) (hr : g.vec.sizeWord + c.count ≤ g.vec.cap)
    (hc : g.vec.cap < 2 ^ 32) :
    g.run (List.replicate (c.writes + 3) i) = ⟨afterCall g.vec c, g.threads.set i ⟨cs, .idle, d ++ [(c, g.vec.sizeWord)]⟩, false⟩ := by
  obtain ⟨s, L, f⟩ := g
  simp only at hf ht hs hr hc ⊢
  subst hf
  have hL := (List.getElem?_eq_some_iff.1 ht).1
  have h1 : stepThread s ⟨c :: cs, .idle, d⟩ = some ({ s with sizeWord := s.sizeWord + c.count }, ⟨cs, .claimed c s.sizeWord, d⟩) := by
    simp only [stepThread, hs, DV.fetchAdd, Bool.not_true, Bool.false_eq_true, if_false]
    rw [Nat.mod_eq_of_lt (by omega)]
  have hcheck : c.check s.cap s.sizeWord = true := by
    cases c <;> simp only [ACall.check, ACall.count, decide_eq_true_eq] at hr ⊢
    · omega
    · omega
    · rw [Nat.mod_eq_of_lt (by omega)]; exact hr
    · rw [Nat.mod_eq_of_lt (by omega)]; exact hr
    · rw [Nat.mod_eq_of_lt (by omega)]; exact hr
  have h2 : stepThread { s with sizeWord := s.sizeWord + c.count } ⟨cs, .claimed c s.sizeWord, d⟩ =
      some (c.implicit { s with sizeWord := s.sizeWord + c.count } s.sizeWord, ⟨cs, .writing c s.sizeWord 0, d⟩) := by
    simp [stepThread, hcheck]
  rw [show c.writes + 3 = (c.writes + 1) + 1 + 1 from rfl, List.replicate_succ, run_cons, step_eq rfl ht h1]
  rw [List.replicate_succ, run_cons, step_eq (t := ⟨cs, .claimed c s.sizeWord, d⟩) rfl (by simp [hL]) h2]
  simp only [List.set_set]
  have hw := ACall.writes_le c
  have hfin : ∀ (x : α) (hx : c.arg (c.implicit { s with sizeWord := s.sizeWord + c.count } s.sizeWord).dflt = .val x)
      (hcap : (c.implicit { s with sizeWord := s.sizeWord + c.count } s.sizeWord).cap = s.cap), _ :=
    fun x hx hcap => run_writes (x := x) i s.sizeWord cs d c.writes 0 (c.implicit { s with sizeWord := s.sizeWord + c.count } s.sizeWord) L (by omega) hx
      (by rw [hcap]; omega) (by rw [hcap]; exact hc) hL
  cases c with
  | push a =>
    cases a with
    | elem => simp [ACall.Valid, Arg.value] at hv
    | val x => rw [hfin x rfl rfl]; rfl
  | emplace a =>
    cases a with
    | elem => simp [ACall.Valid, Arg.value] at hv
    | val x => rw [hfin x rfl rfl]; rfl
  | bulk n => rw [hfin s.dflt rfl rfl]; rfl
  | bulkValue n a =>
    cases a with
    | elem => simp [ACall.Valid, Arg.value] at hv
    | val x => rw [hfin x rfl rfl]; rfl
  | bulkImplicit n =>
    rw [hfin s.dflt rfl rfl]
    simp only [ACall.implicit, DV.implicit, ACall.writes, afterCall, ACall.value, ACall.count, Conc.mk.injEq, and_true, Nat.add_zero]
    congr 1
    funext p
    simp only [ACall.count] at hr
    rw [if_neg (by omega)]
    have : (s.sizeWord ≤ p ∧ p < s.sizeWord + n ∧ p < s.cap) ↔ (s.sizeWord ≤ p ∧ p < s.sizeWord + n) := by omega
    simp only [this]
    rfl

/-- What is known after calls have been run one after the other in the order `o`. -/
structure Ordered (s0 : DV α) (progs : List (List (ACall α))) (o : List (Claim α)) (g : Conc α) : Prop where
  ok : g.failed = false
  kind : g.vec.dbg = s0.dbg ∧ g.vec.cap = s0.cap ∧ g.vec.hasSize = s0.hasSize ∧ g.vec.dflt = s0.dflt ∧ g.vec.junk = s0.junk ∧ g.vec.trivialDtor = s0.trivialDtor
  len : g.threads.length = progs.length
  size : g.vec.sizeWord = s0.sizeWord + claimed o
  threads : ∀ (i : Nat) (t : Thread α), g.threads[i]? = some t → t.phase = .idle ∧ t.done = (o.filter (·.1 = i)).map (·.2) ∧ progs[i]? = some (t.done.map (·.1) ++ t.todo)
  outside : ∀ p, (p < s0.sizeWord ∨ s0.sizeWord + claimed o ≤ p) → g.vec.mem p = s0.mem p
  inside : ∀ x ∈ o, ∀ p, x.2.2 ≤ p → p < x.2.2 + x.2.1.count → g.vec.mem p = some ((x.2.1.value s0.dflt []).getD ((s0.mem p).getD (s0.junk p)))

theorem exists_ordered {s0 : DV α} {progs : List (List (ACall α))} (hs : s0.hasSize = true) (hc : s0.cap < 2 ^ 32) (o : List (Claim α)) :
    Chain s0.sizeWord o → s0.sizeWord + claimed o ≤ s0.cap → (∀ x ∈ o, x.2.1.Valid true []) →
    (∀ i, ∃ rest, progs[i]?.getD [] = (o.filter (·.1 = i)).map (·.2.1) ++ rest) → ∃ sched, Ordered s0 progs o ((Conc.start s0 progs).run sched) := by
  induction o using List.reverseRecOn with
  | nil =>
    intro _ _ _ _
    refine ⟨[], ⟨rfl, ⟨rfl, rfl, rfl, rfl, rfl, rfl⟩, by simp [Conc.run, Conc.start], by simp [Conc.run, Conc.start, claimed], ?_, fun _ _ => rfl, by simp⟩⟩
    intro i t ht
    simp only [Conc.run, Conc.start, List.foldl_nil, List.getElem?_map, Option.map_eq_some_iff] at ht
    obtain ⟨p, h1, rfl⟩ := ht
    exact ⟨rfl, rfl, by simpa using h1⟩
  | append_singleton o x ih =>
    intro hch hroom hval hprog
    obtain ⟨j, c, idx⟩ := x
    rw [claimed_append] at hroom
    have hch' : Chain s0.sizeWord o ∧ idx = s0.sizeWord + claimed o := by
      clear ih hprog hval hroom
      generalize s0.sizeWord = base at hch
      induction o generalizing base with
      | nil => exact ⟨trivial, by simpa [claimed, Chain] using hch.1⟩
      | cons y o ih2 =>
        obtain ⟨h1, h2⟩ := ih2 _ hch.2
        refine ⟨⟨hch.1, h1⟩, ?_⟩
        rw [h2]
        simp only [claimed, List.map_cons, List.sum_cons]
        omega
    obtain ⟨hch', hidx⟩ := hch'
    obtain ⟨sched, h⟩ := ih hch' (by omega) (fun x hx => hval x (List.mem_append_left _ hx)) (by
      intro i
      obtain ⟨rest, hr⟩ := hprog i
      rw [List.filter_append, List.map_append, List.append_assoc] at hr
      exact ⟨_, hr⟩)
    have hcv := hval (j, c, idx) (by simp)
    obtain ⟨rest, hr⟩ := hprog j
    rw [List.filter_append, List.map_append, List.append_assoc] at hr
    simp only [List.filter_cons, decide_true, if_true, List.filter_nil, List.map_cons, List.map_nil, List.cons_append, List.nil_append] at hr
    have hj : j < progs.length := by
      by_contra hn
      rw [List.getElem?_eq_none (by omega)] at hr
      simp at hr
    generalize hg : (Conc.start s0 progs).run sched = g at h
    obtain ⟨t, ht⟩ : ∃ t, g.threads[j]? = some t := ⟨_, List.getElem?_eq_getElem (by rw [h.len]; exact hj)⟩
    obtain ⟨h1, h2, h3⟩ := h.threads j t ht
    have htodo : t.todo = c :: rest := by
      rw [h3, h2, Option.getD_some, List.map_map] at hr
      exact List.append_cancel_left hr
    obtain ⟨hk1, hk2, hk3, hk4, hk5, hk6⟩ := h.kind
    have hcall := run_call (g := g) (i := j) (c := c) (cs := rest) (d := t.done) h.ok
      (by rw [ht]; congr 1; obtain ⟨a, b, c'⟩ := t; simp only at h1 htodo; subst h1; subst htodo; rfl) (by rw [hk3]; exact hs) hcv
      (by rw [h.size, hk2]; simp only at hroom; omega) (by rw [hk2]; exact hc)
    refine ⟨sched ++ List.replicate (c.writes + 3) j, ?_⟩
    have : (Conc.start s0 progs).run (sched ++ List.replicate (c.writes + 3) j) = g.run (List.replicate (c.writes + 3) j) := by
      rw [← hg]; exact List.foldl_append
    rw [this, hcall]
    refine ⟨rfl, ⟨hk1, hk2, hk3, hk4, hk5, hk6⟩, by simp [h.len], ?_, ?_, ?_, ?_⟩
    · simp only [afterCall, h.size, claimed_append]; omega
    · intro i t' ht'
      have hjl : j < g.threads.length := by rw [h.len]; exact hj
      simp only [List.getElem?_set] at ht'
      by_cases hij : j = i
      · subst hij
        simp only [if_true, hjl, Option.some.injEq] at ht'
        subst ht'
        refine ⟨rfl, ?_, ?_⟩
        · simp [h2, h.size, hidx]
        · rw [h3, htodo]; simp
      · rw [if_neg hij] at ht'
        obtain ⟨h4, h5, h6⟩ := h.threads i t' ht'
        exact ⟨h4, by simp [h5, hij], h6⟩
    · intro p hp
      rw [claimed_append] at hp
      simp only at hp
      simp only [afterCall]
      rw [if_neg (by rw [h.size]; omega)]
      exact h.outside p (by omega)
    · intro x hx p hp1 hp2
      simp only [afterCall]
      rcases List.mem_append.1 hx with hx | hx
      · have hb := hch'.bounds hx
        rw [if_neg (by rw [h.size]; omega)]
        exact h.inside x hx p hp1 hp2
      · obtain rfl := List.mem_singleton.1 hx
        simp only at hp1 hp2 ⊢
        rw [if_pos (by rw [h.size]; omega), hk4, hk5, h.outside p (by omega)]
        cases c.value s0.dflt [] <;> rfl

end Conc

end Vecmem
