import Verif.Spec.WeakSeveral
import Verif.Lemmas.WeakSequential
import Verif.Lemmas.WeakProgress

/-!
# Lemmas: appends to several vectors at once
-/

namespace Vecmem

variable {α : Type} {w : Nat}

/-- Without assertions. -/
def quiet (V : Nat → WVec) : Nat → WVec := fun k => { V k with dbg := false }

/-! ## the assertions do not change what is done -/

/-- The second program does what the first one does, until an assertion fails. -/
inductive Sim : WProg w → WProg w → Prop
  | failed (p : WProg w) : Sim .failed p
  | done : Sim .done .done
  | act {a : Nat} {c : WCall w} {next next' : Option (BitVec w) → WProg w} (_ : ∀ r, Sim (next r) (next' r)) : Sim (.act a c next) (.act a c next')

theorem sim_stores (V V' : WVec) (hc : V'.cell = V.cell) (index : Nat) {p p' : WProg w} (h : Sim p p') : ∀ l : List (Nat × Nat × BitVec w), Sim (V.stores index p l) (V'.stores index p' l)
  | [] => h
  | (_, _, _) :: l => by
    simp only [WVec.stores, hc]
    exact .act fun _ => sim_stores V V' hc index h l

theorem sim_code (V : Nat → WVec) (t : MTask w) : Sim (t.code V) (t.code (quiet V)) := by
  induction t with
  | done => exact .done
  | access a c next ih => exact .act fun r => ih r
  | append k c next ih =>
    refine .act fun r => ?_
    split
    · exact .failed _
    · have : ((quiet V k).dbg && !c.check (quiet V k).cap (r.getD 0).toNat) = false := rfl
      rw [this, if_neg Bool.false_ne_true]
      exact sim_stores (V k) (quiet V k) rfl _ (ih _) _

theorem WRun.Reach.sim {I : WImpl w} {m : AMem w} {progs progs' : Nat → WProg w} {s : WRun w} (hp : ∀ i, Sim (progs i) (progs' i)) (h : Reach I m progs s) :
    ∃ prog', Reach I m progs' ⟨s.sys, prog'⟩ ∧ ∀ i, Sim (s.prog i) (prog' i) := by
  induction h with
  | start => exact ⟨progs', .start, hp⟩
  | @step s s' _ hs ih =>
    obtain ⟨prog', h1, h2⟩ := ih
    cases hs with
    | quiet s1 g1 g2 g3 =>
      refine ⟨prog', h1.step (.quiet _ _ g1 g2 fun i a c hd => ?_), h2⟩
      obtain ⟨next, hn⟩ := g3 i a c hd
      have := h2 i
      rw [hn] at this
      generalize hq : prog' i = q at this
      cases this with
      | act _ => exact ⟨_, hq⟩
    | access s1 e next g1 g2 g3 =>
      have := h2 e.thread
      rw [g3] at this
      generalize hq : prog' e.thread = q at this
      cases this with
      | @act _ _ _ next' hsim =>
        refine ⟨_, h1.step (.access _ _ e next' g1 g2 hq), fun i => ?_⟩
        by_cases hi : i = e.thread
        · subst hi
          simp only [WSys.set_same]
          exact hsim _
        · simp only [WSys.set_ne _ _ hi]
          exact h2 i

/-! ## looked at from one vector -/

/-- Stores as accesses. -/
def WVec.storesAs (V : WVec) (index : Nat) (k : WTask w) : List (Nat × Nat × BitVec w) → WTask w
  | [] => k
  | (v, j, x) :: l => .access (V.cell v ((index + j) % 2 ^ w)) (.write x) fun _ => V.storesAs index k l

/-- A program as one that appends to vector `k` only, and does some accesses to other variables. -/
def MTask.proj (V : Nat → WVec) (k : Nat) : MTask w → WTask w
  | .done => .done
  | .access a c next => .access a c fun r => (next r).proj V k
  | .append j c next =>
    if j = k then .append c fun i => (next i).proj V k
    else .access (V j).size (.atomic (.fetchAdd (BitVec.ofNat w c.count)) none) fun r =>
      (V j).storesAs (r.getD 0).toNat ((next (r.getD 0).toNat).proj V k) c.stores

theorem storesAs_code (V V' V'' : WVec) (hc : V''.cell = V.cell) (index : Nat) (t : WTask w) : ∀ l : List (Nat × Nat × BitVec w),
    (V.storesAs index t l).code V' = V''.stores index (t.code V') l
  | [] => rfl
  | (_, _, _) :: l => by simp only [WVec.storesAs, WVec.stores, WTask.code, hc, storesAs_code V V' V'' hc index t l]

theorem proj_code (V : Nat → WVec) (k : Nat) (t : MTask w) : (t.proj V k).code (quiet V k) = t.code (quiet V) := by
  have hd : ∀ (j n : Nat) (c : WAppend w), ((quiet V j).dbg && !c.check (quiet V j).cap n) = false := fun _ _ _ => rfl
  induction t with
  | done => rfl
  | access a c next ih => simp only [MTask.proj, WTask.code, MTask.code, ih]
  | append j c next ih =>
    unfold MTask.proj
    by_cases hj : j = k
    · subst hj
      simp only [if_true, WTask.code, MTask.code, ih]
    · simp only [if_neg hj, WTask.code, MTask.code, hd, Bool.false_eq_true, if_false]
      congr 1
      funext r
      rw [storesAs_code (V j) _ (quiet V j) rfl, ih]

theorem storesAs_polite {V : WVec} {j : WVec} (ha : ∀ v i, ¬ V.Owns (j.cell v i)) (index : Nat) {t : WTask w} (ht : t.Polite V) :
    ∀ l : List (Nat × Nat × BitVec w), (j.storesAs index t l).Polite V
  | [] => ht
  | (_, _, _) :: l => ⟨fun h => (ha _ _ h).elim, fun _ => storesAs_polite ha index ht l⟩

theorem proj_polite {V : Nat → WVec} (ha : Apart V) (k : Nat) {t : MTask w} (ht : t.Polite V) : (t.proj V k).Polite (quiet V k) := by
  induction t with
  | done => trivial
  | access a c next ih => exact ⟨fun h => ht.1 k h, fun r => ih r (ht.2 r)⟩
  | append j c next ih =>
    unfold MTask.proj
    by_cases hj : j = k
    · rw [if_pos hj]
      exact ⟨ht.1, fun i => ih i (ht.2 i)⟩
    · rw [if_neg hj]
      refine ⟨fun h => (ha j k hj _ (.inl rfl) h).elim, fun r => ?_⟩
      exact storesAs_polite (V := quiet V k) (fun v i h => ha j k hj _ (.inr ⟨v, i, rfl⟩) h) _ (ih _ (ht.2 _)) _

section

variable {I : WImpl w} {m : AMem w} {V : Nat → WVec} {tasks : Nat → MTask w} {s : WRun w}

theorem several_project (h : WRun.Reach I m (fun i => (tasks i).code V) s) :
    ∃ prog', (∀ k, WRun.Reach I m (fun i => ((tasks i).proj V k).code (quiet V k)) ⟨s.sys, prog'⟩) ∧ ∀ i, Sim (s.prog i) (prog' i) := by
  obtain ⟨prog', h1, h2⟩ := h.sim (progs' := fun i => (tasks i).code (quiet V)) fun i => sim_code V (tasks i)
  refine ⟨prog', fun k => ?_, h2⟩
  simp only [proj_code]
  exact h1

theorem several_appending (hI : I = posixWeak ∨ I = cudaWeak ∨ I = syclWeak ∨ I = syclBuiltinWeak) (h : WRun.Reach I m (fun i => (tasks i).code V) s)
    (hv : ∀ k, (V k).Valid w) (ha : Apart V) (hp : ∀ i, (tasks i).Polite V) {k : Nat} (hf : (m (V k).size).toNat + s.sys.trace.claimed (V k).size ≤ (V k).cap) :
    ∃ prog', Appending (quiet V k) m (fun i => (tasks i).proj V k) s.sys.trace prog' ∧ ∀ i, Sim (s.prog i) (prog' i) := by
  obtain ⟨prog', h1, h2⟩ := several_project h
  exact ⟨prog', (h1 k).appending hI ⟨(hv k).cells, (hv k).size, (hv k).cap⟩ (fun i => proj_polite ha k (hp i)) hf, h2⟩

end

/-! ## whole programs -/

theorem after_stores_end {V : WVec} {index : Nat} {k q : WProg w} (hq : q = .failed ∨ q = .done) : ∀ {sts : List (Nat × Nat × BitVec w)} {l : List (WEvent w × Nat)},
    (V.stores index k sts).after l = some q → ∃ l₁ l₂, l = l₁ ++ l₂ ∧ List.Forall₂ (IsStoreOf V index) sts l₁ ∧ k.after l₂ = some q := by
  intro sts
  induction sts with
  | nil => intro l h; exact ⟨[], l, rfl, .nil, h⟩
  | cons st sts ih =>
    obtain ⟨v, j, x⟩ := st
    intro l h
    cases l with
    | nil =>
      simp only [WVec.stores, WProg.after, Option.some.injEq] at h
      rcases hq with rfl | rfl <;> cases h
    | cons y l =>
      simp only [WVec.stores, WProg.after] at h
      split at h
      · next hy =>
        obtain ⟨l₁, l₂, rfl, h1, h2⟩ := ih h
        exact ⟨y :: l₁, l₂, rfl, .cons hy h1, h2⟩
      · cases h

theorem several_failed {V : Nat → WVec} {t : MTask w} (hp : t.Polite V) {l : List (WEvent w × Nat)} (h : (t.code V).after l = some .failed) :
    ∃ (k : Nat) (c : WAppend w), ∃ x ∈ l, IsClaim (V k) c x.1 ∧ c.Fine ∧ c.check (V k).cap x.1.index = false := by
  induction t generalizing l with
  | done => cases l <;> simp [MTask.code, WProg.after] at h
  | access a c next ih =>
    cases l with
    | nil => simp [MTask.code, WProg.after] at h
    | cons y l =>
      simp only [MTask.code, WProg.after] at h
      split at h
      · obtain ⟨k, c', x, hx, h1⟩ := ih _ (hp.2 _) h
        exact ⟨k, c', x, List.mem_cons_of_mem _ hx, h1⟩
      · cases h
  | append k c next ih =>
    cases l with
    | nil => simp [MTask.code, WProg.after] at h
    | cons y l =>
      simp only [MTask.code, WProg.after] at h
      split at h
      · next hy =>
        split at h
        · next hc =>
          simp only [Bool.and_eq_true, Bool.not_eq_true'] at hc
          exact ⟨k, c, y, List.mem_cons_self, hy, hp.1, hc.2⟩
        · obtain ⟨l₁, l₂, rfl, -, h2⟩ := after_stores_end (.inl rfl) h
          obtain ⟨k', c', x, hx, h1⟩ := ih _ (hp.2 _) h2
          exact ⟨k', c', x, List.mem_cons_of_mem _ (List.mem_append_right _ hx), h1⟩
      · cases h


theorem storesAs_left {V' V : WVec} {m : AMem w} {final : Nat → BitVec w → Prop} {index : Nat} {t : WTask w} : ∀ {sts : List (Nat × Nat × BitVec w)} {l : List (WEvent w)},
    (V.storesAs index t sts).Left V' m final l →
    ∃ l₁ l₂, l = l₁ ++ l₂ ∧ l₁.length = sts.length ∧ (∀ e ∈ l₁, ∃ v i, e.addr = V.cell v i) ∧ t.Left V' m final l₂ := by
  intro sts
  induction sts with
  | nil => intro l h; exact ⟨[], l, rfl, rfl, (fun _ he => nomatch he), h⟩
  | cons st sts ih =>
    obtain ⟨v, j, x⟩ := st
    intro l h
    cases h with
    | @access _ _ _ e l h1 h2 h3 =>
      obtain ⟨l₁, l₂, rfl, h4, h5, h6⟩ := ih h3
      refine ⟨e :: l₁, l₂, rfl, by simp [h4], fun f hf => ?_, h6⟩
      rcases List.mem_cons.1 hf with rfl | hf
      · exact ⟨_, _, h1⟩
      · exact h5 f hf

theorem storesAs_hist {V' V : WVec} {index : Nat} {t : WTask w} : ∀ {sts : List (Nat × Nat × BitVec w)} {l : List (WEvent w × Nat)} {p : WProg w},
    Hist V' (V.storesAs index t sts) l p →
    (∀ x ∈ l, ∃ v i, x.1.addr = V.cell v i) ∨ ∃ l₁ l₂, l = l₁ ++ l₂ ∧ (∀ x ∈ l₁, ∃ v i, x.1.addr = V.cell v i) ∧ Hist V' t l₂ p := by
  intro sts
  induction sts with
  | nil => intro l p h; exact .inr ⟨[], l, rfl, (fun _ he => nomatch he), h⟩
  | cons st sts ih =>
    obtain ⟨v, j, x⟩ := st
    intro l p h
    cases h with
    | nil => exact .inl fun _ he => nomatch he
    | @access _ _ _ y l p h1 h2 h3 =>
      rcases ih h3 with h4 | ⟨l₁, l₂, rfl, h4, h5⟩
      · refine .inl fun f hf => ?_
        rcases List.mem_cons.1 hf with rfl | hf
        · exact ⟨_, _, h1⟩
        · exact h4 f hf
      · refine .inr ⟨y :: l₁, l₂, rfl, fun f hf => ?_, h5⟩
        rcases List.mem_cons.1 hf with rfl | hf
        · exact ⟨_, _, h1⟩
        · exact h4 f hf

theorem claims_read {a v n : Nat} {e : WEvent w} (h : e.Claims a v n) : ((e.read.map (·.2)).getD (0 : BitVec w)).toNat = v := by
  obtain ⟨-, y, o, t, x, -, -, h7, h8⟩ := h
  rw [h7]
  exact h8

theorem left_of_proj {V : Nat → WVec} {m : AMem w} {final : Nat → BitVec w → Prop} {t : MTask w} {l : List (WEvent w)}
    (h : ∀ k, (t.proj V k).Left (quiet V k) m final l) : t.Left V m final l := by
  induction t generalizing l with
  | done =>
    have := h 0
    cases this
    exact .done
  | access a c next ih =>
    have := h 0
    cases this with
    | access h1 h2 h3 =>
      refine .access h1 h2 (ih _ fun k => ?_)
      have := h k
      cases this with
      | access _ _ h3 => exact h3
  | append j c next ih =>
    have h0 := h j
    unfold MTask.proj at h0
    rw [if_pos rfl] at h0
    cases h0 with
    | @append _ _ e v stores l h1 h2 h3 h4 =>
      refine .append h1 h2 h3 (ih _ fun k => ?_)
      by_cases hk : j = k
      · subst hk; exact h4
      · have h5 := h k
        unfold MTask.proj at h5
        rw [if_neg hk] at h5
        cases h5 with
        | access _ _ h5 =>
          dsimp only at h5
          rw [claims_read h1] at h5
          obtain ⟨l₁, l₂, h6, h7, -, h8⟩ := storesAs_left h5
          have := List.append_inj h6 (h2.length_eq.symm.trans h7.symm)
          rw [this.2]
          exact h8

/-! ## kernels -/

theorem calls_polite_several (V : Nat → WVec) (words : Nat → α → List (BitVec w)) (dflt : Nat → α) {cs : List (Nat × ACall α)}
    (hv : ∀ c ∈ cs, c.2.Valid true [] ∧ c.2.count < 2 ^ w) : (MTask.calls words dflt cs).Polite V := by
  induction cs with
  | nil => trivial
  | cons c cs ih =>
    obtain ⟨k, c⟩ := c
    obtain ⟨h1, h2⟩ := hv _ List.mem_cons_self
    refine ⟨⟨by rw [weak_count]; exact h2, ?_, ?_⟩, fun _ => ih fun c' hc => hv c' (List.mem_cons_of_mem _ hc)⟩
    · cases c <;> simp [ACall.weak]
    · intro st hst
      rw [weak_count]
      exact ((mem_stores h1).1 hst).1

theorem callsOn_same (k : Nat) (c : ACall α) (cs : List (Nat × ACall α)) : callsOn k ((k, c) :: cs) = c :: callsOn k cs := by simp [callsOn]

theorem callsOn_other {j k : Nat} (h : ¬ j = k) (c : ACall α) (cs : List (Nat × ACall α)) : callsOn k ((j, c) :: cs) = callsOn k cs := by simp [callsOn, h]

theorem others_claimed {V : Nat → WVec} (ha : Apart V) {j k : Nat} (hj : ¬ j = k) {l : List (WEvent w × Nat)} (h : ∀ x ∈ l, ∃ v i, x.1.addr = (V j).cell v i) :
    (l.map fun x => x.1.claimed (V k).size).sum = 0 := by
  induction l with
  | nil => rfl
  | cons x l ih =>
    rw [List.map_cons, List.sum_cons, ih fun y hy => h y (List.mem_cons_of_mem _ hy)]
    obtain ⟨v, i, hx⟩ := h x List.mem_cons_self
    have : ¬ x.1.addr = (V k).size := fun h => ha j k hj x.1.addr (.inr ⟨v, i, hx⟩) (.inl h)
    simp [WEvent.claimed, this]

theorem several_hist_claimed {V : Nat → WVec} (hV : ∀ k, (V k).Valid w) (ha : Apart V) (k : Nat) {words : Nat → α → List (BitVec w)} {dflt : Nat → α} {cs : List (Nat × ACall α)}
    {l : List (WEvent w × Nat)} {p : WProg w} (h : Hist (quiet V k) ((MTask.calls words dflt cs).proj V k) l p) :
    (l.map fun x => x.1.claimed (V k).size).sum ≤ ((callsOn k cs).map ACall.count).sum := by
  have hQ : (quiet V k).Valid w := ⟨(hV k).cells, (hV k).size, (hV k).cap⟩
  induction cs generalizing l with
  | nil => cases h; simp
  | cons c cs ih =>
    obtain ⟨j, c⟩ := c
    unfold MTask.calls MTask.proj at h
    by_cases hj : j = k
    · subst hj
      rw [if_pos rfl] at h
      rw [callsOn_same, List.map_cons, List.sum_cons]
      have hc := weak_count (words j) (dflt j) c
      cases h with
      | nil => simp
      | failed h1 _ =>
        have := isClaim_claimed h1
        simp only [List.map_cons, List.map_nil, List.sum_cons, List.sum_nil]
        change WEvent.claimed (V j).size _ ≤ _ at this
        omega
      | part h1 _ h3 =>
        have := isClaim_claimed h1
        change WEvent.claimed (V j).size _ ≤ _ at this
        have h4 := stores_claimed hQ h3
        change (List.map (fun x : WEvent w × Nat => x.1.claimed (V j).size) _).sum = 0 at h4
        rw [List.map_cons, List.sum_cons, h4]
        omega
      | full h1 h2 h3 =>
        have := isClaim_claimed h1
        change WEvent.claimed (V j).size _ ≤ _ at this
        have h4 := stores_claimed hQ h2
        change (List.map (fun x : WEvent w × Nat => x.1.claimed (V j).size) _).sum = 0 at h4
        have := ih h3
        rw [List.map_cons, List.sum_cons, List.map_append, List.sum_append, h4]
        omega
    · rw [if_neg hj] at h
      rw [callsOn_other hj]
      cases h with
      | nil => simp
      | @access _ _ _ x l p h1 h2 h3 =>
        have hx : ¬ x.1.addr = (V k).size := fun h => ha j k hj x.1.addr (.inl h1) (.inl h)
        have hx0 : x.1.claimed (V k).size = 0 := by simp [WEvent.claimed, hx]
        rw [List.map_cons, List.sum_cons, hx0]
        rcases storesAs_hist h3 with h4 | ⟨l₁, l₂, rfl, h4, h5⟩
        · rw [others_claimed ha hj h4]; omega
        · rw [List.map_append, List.sum_append, others_claimed ha hj h4]
          have := ih h5
          omega

theorem callsOn_getD (progs : List (List (Nat × ACall α))) (k i : Nat) : (progs.map (callsOn k))[i]?.getD [] = callsOn k (progs[i]?.getD []) := by
  rw [List.getElem?_map]
  cases progs[i]? <;> rfl

theorem several_claimed {I : WImpl w} {m : AMem w} {V : Nat → WVec} {words : Nat → α → List (BitVec w)} {dflt : Nat → α} {progs : List (List (Nat × ACall α))} {s : WRun w}
    (hV : ∀ k, (V k).Valid w) (ha : Apart V) (h : WRun.Reach I m (fun i => (MTask.calls words dflt (progs[i]?.getD [])).code V) s) (k : Nat) :
    s.sys.trace.claimed (V k).size ≤ totalCount (progs.map (callsOn k)) := by
  obtain ⟨prog', h1, -⟩ := several_project h
  have hh : ∀ i, Hist (quiet V k) ((MTask.calls words dflt (progs[i]?.getD [])).proj V k) (s.sys.trace.own i) (prog' i) := fun i => hist_of_after _ _ ((h1 k).after i)
  have hth : ∀ e ∈ s.sys.trace, e.thread < progs.length := by
    intro e he
    by_contra hn
    obtain ⟨q, hq⟩ := List.getElem?_of_mem he
    have hm : (e, q) ∈ s.sys.trace.own e.thread := mem_own.2 ⟨hq, rfl⟩
    have h1 := hh e.thread
    rw [List.getElem?_eq_none (by omega), Option.getD_none] at h1
    simp only [MTask.calls, MTask.proj] at h1
    generalize s.sys.trace.own e.thread = l at h1 hm
    generalize prog' e.thread = p at h1
    cases h1
    cases hm
  rw [claimed_split hth, totalCount, List.map_map, ← map_range_getD progs [] ((fun p => (p.map ACall.count).sum) ∘ callsOn k)]
  exact sum_map_le _ _ _ fun i _ => several_hist_claimed hV ha k (hh i)

theorem several_left {V : Nat → WVec} (hV : ∀ k, (V k).Valid w) (ha : Apart V) {m : AMem w} {final : Nat → BitVec w → Prop} {words : Nat → α → List (BitVec w)} {dflt : Nat → α}
    (k : Nat) {cs : List (Nat × ACall α)} {l : List (WEvent w)} (h : (MTask.calls words dflt cs).Left V m final l) :
    List.Forall₂ (fun c e => ∃ v, CallLeft (V k) m final (words k) (dflt k) c v e) (callsOn k cs) (l.filter fun e => decide (e.addr = (V k).size)) := by
  induction cs generalizing l with
  | nil => cases h; exact .nil
  | cons c cs ih =>
    obtain ⟨j, c⟩ := c
    cases h with
    | @append _ _ _ e v stores l h1 h2 h3 h4 =>
      have hst : stores.filter (fun e => decide (e.addr = (V k).size)) = [] := by
        rw [List.filter_eq_nil_iff]
        intro x hx
        simp only [decide_eq_true_eq]
        obtain ⟨n, hn⟩ := List.getElem?_of_mem hx
        obtain ⟨st, -, h5⟩ := forall₂_get h2 hn
        intro h6
        by_cases hj : j = k
        · subst hj
          exact (hV j).size _ _ (h5.1.symm.trans h6)
        · exact ha j k hj x.addr (.inr ⟨_, _, h5.1⟩) (.inl h6)
      by_cases hj : j = k
      · subst hj
        rw [List.filter_cons, if_pos (by simp [h1.1]), List.filter_append, hst, List.nil_append, callsOn_same]
        rw [weak_count] at h1 h3
        exact .cons ⟨v, h1, h3⟩ (ih h4)
      · have : ¬ e.addr = (V k).size := fun h => ha j k hj e.addr (.inl h1.1) (.inl h)
        rw [List.filter_cons, if_neg (by simp [this]), List.filter_append, hst, List.nil_append, callsOn_other hj]
        exact ih h4

theorem several_defined {I : WImpl w} (hI : I = posixWeak ∨ I = cudaWeak ∨ I = syclWeak ∨ I = syclBuiltinWeak) (V : Nat → WVec) {t : MTask w} (ht : t.Allowed I) :
    (t.code V).Defined I := by
  have hw : ∀ x, (I (.write x)).isSome := by
    rcases hI with rfl | rfl | rfl | rfl <;> intro x <;> rfl
  have hf : ∀ x, (I (.atomic (.fetchAdd x) none)).isSome := by
    rcases hI with rfl | rfl | rfl | rfl <;> intro x <;> rfl
  induction t with
  | done => trivial
  | access a c next ih => exact ⟨ht.1, fun r => ih r (ht.2 r)⟩
  | append k c next ih =>
    refine ⟨hf _, fun r => ?_⟩
    dsimp only
    split
    · trivial
    · exact stores_defined hw (V k) _ (ih _ (ht _)) _

theorem several_calls_allowed {I : WImpl w} (words : Nat → α → List (BitVec w)) (dflt : Nat → α) : ∀ l : List (Nat × ACall α), (MTask.calls words dflt l).Allowed I
  | [] => trivial
  | (_, _) :: l => fun _ => several_calls_allowed words dflt l

end Vecmem
