import Verif.Model.WeakCounters
import Verif.Spec.WeakInputs
import Verif.Lemmas.WeakClaims
import Verif.Lemmas.WeakVector
import Verif.Lemmas.WeakProgress

/-!
# Lemmas: variables that many threads change by atomic operations
-/

namespace Vecmem

variable {w : Nat} {m : AMem w} {a : Nat} {tr : WTrace w}

theorem changes_length (a : Nat) (tr : WTrace w) : WTrace.changes a tr = (tr.changesOf a).length := by
  unfold WTrace.changes WTrace.changesOf
  rw [List.countP_eq_length_filter]
  rfl

theorem changesOf_prefix (a : Nat) (tr : WTrace w) (q : Nat) : WTrace.changesOf a (tr.take q) <+: tr.changesOf a := (List.take_prefix q tr).filter _

theorem changesOf_eq {q : Nat} (h : WTrace.changes a (tr.take q) = WTrace.changes a tr) : WTrace.changesOf a (tr.take q) = tr.changesOf a := by
  rw [changes_length, changes_length] at h
  exact (changesOf_prefix a tr q).eq_of_length h

theorem changes_le (a : Nat) (tr : WTrace w) (q : Nat) : WTrace.changes a (tr.take q) ≤ WTrace.changes a tr := by
  rw [changes_length, changes_length]
  exact (changesOf_prefix a tr q).length_le

/-- The variable is changed by operations only that read and write it. -/
structure Changed (m : AMem w) (a : Nat) (tr : WTrace w) : Prop where
  writes : tr.FromWrites m
  correct : ∀ e ∈ tr, e.Correct
  noStores : tr.NoStores a

/-- Such a change writes directly after what it reads. -/
theorem Changed.spec (h : Changed m a tr) {e : WEvent w} (he : e ∈ tr) (hc : e.changes a = true) :
    ∃ t v, e.read = some (t, v) ∧ e.wrote = some (t + 1, e.effect v) := by
  simp only [WEvent.changes, Bool.and_eq_true, decide_eq_true_eq] at hc
  obtain ⟨n1, n2⟩ := h.noStores e he hc.1
  have hcor := h.correct e he
  obtain ⟨th, ad, call, rd, wr⟩ := e
  simp only [WEvent.Correct] at hcor n1 n2 hc ⊢
  cases call with
  | read => rw [hcor.2] at hc; exact absurd hc.2 (by simp)
  | write x => exact absurd rfl (n1 x)
  | atomic op o =>
    cases op with
    | load => rw [hcor.2] at hc; exact absurd hc.2 (by simp)
    | store x => exact absurd rfl (n2 x o)
    | compareExchange x d =>
      obtain ⟨t, v, h1, h2⟩ := hcor
      by_cases hv : v = x
      · exact ⟨t, v, h1, by simp [h2, hv, WEvent.effect, AOp.spec]⟩
      · rw [if_neg hv] at h2; rw [h2] at hc; exact absurd hc.2 (by simp)
    | _ => exact hcor
  | compareExchange2 x d su fa =>
    obtain ⟨t, v, h1, h2⟩ := hcor
    by_cases hv : v = x
    · exact ⟨t, v, h1, by simp [h2, hv, WEvent.effect]⟩
    · rw [if_neg hv] at h2; rw [h2] at hc; exact absurd hc.2 (by simp)

theorem result_succ {q : Nat} {e : WEvent w} (he : tr[q]? = some e) (hc : e.changes a = true) (v : BitVec w) :
    WTrace.result a (tr.take (q + 1)) v = e.effect (WTrace.result a (tr.take q) v) := by
  have : (decide (e.addr = a) && e.wrote.isSome) = true := hc
  rw [List.take_add_one, he]
  simp only [WTrace.result, WTrace.changesOf, Option.toList_some, List.filter_append, List.filter_cons, this, if_true, List.filter_nil, List.foldl_append, List.foldl_cons, List.foldl_nil]

/-- A change finds what the ones before have made of the initial value. -/
theorem Changed.reads (h : Changed m a tr) (q : Nat) : ∀ (e : WEvent w) (t : Nat) (v : BitVec w), tr[q]? = some e → e.changes a = true → e.read = some (t, v) →
    t = WTrace.changes a (tr.take q) ∧ v = WTrace.result a (tr.take q) (m a) := by
  induction q using Nat.strongRecOn with
  | _ q ih =>
    intro e t v he hc hr
    have ha : e.addr = a := by simp only [WEvent.changes, Bool.and_eq_true, decide_eq_true_eq] at hc; exact hc.1
    obtain ⟨t₀, v₀, hr₀, hw₀⟩ := h.spec (List.mem_of_getElem? he) hc
    rw [hr] at hr₀
    cases hr₀
    have hle : t ≤ WTrace.changes a (tr.take q) → t = WTrace.changes a (tr.take q) := by
      intro hle
      by_contra hne
      obtain ⟨i, f, h1, h2, h3, h4⟩ := exists_change tr (a := a) (t := t) (q := q) (by omega)
      have hfa : f.addr = a := by simp only [WEvent.changes, Bool.and_eq_true, decide_eq_true_eq] at h3; exact h3.1
      obtain ⟨t', v', hr', hw'⟩ := h.spec (List.mem_of_getElem? h2) h3
      have h5 := (ih i h1 f t' v' h2 h3 hr').1
      have : t' = t := by omega
      subst this
      have := h.writes.2.2 i q f e _ _ _ h2 he (hfa.trans ha.symm) hw' hw₀
      omega
    rcases h.writes.1 q e t v he hr with ⟨h1, h2⟩ | ⟨i, f, h1, h2, h3, h4⟩
    · subst h1
      have h0 := hle (Nat.zero_le _)
      refine ⟨h0, ?_⟩
      rw [changes_length] at h0
      rw [WTrace.result, List.eq_nil_of_length_eq_zero h0.symm, h2, ha]
      rfl
    · have hcf : f.changes a = true := by simp [WEvent.changes, h3, ha, h4]
      obtain ⟨t', v', hr', hw'⟩ := h.spec (List.mem_of_getElem? h2) hcf
      rw [h4] at hw'
      cases hw'
      obtain ⟨h5, h6⟩ := ih i h1 f t' v' h2 hcf hr'
      have h7 := changes_take_succ (a := a) h2
      rw [if_pos hcf] at h7
      have h8 := changes_mono (a := a) tr (Nat.succ_le_of_lt h1)
      simp only [Nat.succ_eq_add_one] at h8
      have h9 := hle (by omega)
      refine ⟨h9, ?_⟩
      rw [h6, ← result_succ h2 hcf]
      have htake : (tr.take q).take (i + 1) = tr.take (i + 1) := by rw [List.take_take, Nat.min_eq_left (by omega)]
      have := changesOf_eq (a := a) (tr := tr.take q) (q := i + 1) (by rw [htake]; omega)
      rw [htake] at this
      rw [WTrace.result, WTrace.result, this]

theorem Changed.final (h : Changed m a tr) : tr.Final m a (tr.result a (m a)) := by
  cases hn : WTrace.changes a tr with
  | zero =>
    rw [changes_length] at hn
    have hnil := List.eq_nil_of_length_eq_zero hn
    refine .inl ⟨by rw [WTrace.result, hnil]; rfl, fun e he hea => ?_⟩
    have := List.filter_eq_nil_iff.1 hnil e he
    simpa [hea] using this
  | succ n =>
    obtain ⟨q, e, h1, h2, h3, h4⟩ := exists_change tr (a := a) (t := n) (q := tr.length) (by rw [List.take_length]; omega)
    have ha : e.addr = a := by simp only [WEvent.changes, Bool.and_eq_true, decide_eq_true_eq] at h3; exact h3.1
    obtain ⟨t, v, hr, hw⟩ := h.spec (List.mem_of_getElem? h2) h3
    obtain ⟨h5, h6⟩ := h.reads q e t v h2 h3 hr
    have h7 := changes_take_succ (a := a) h2
    rw [if_pos h3] at h7
    have h8 := changesOf_eq (a := a) (tr := tr) (q := q + 1) (by omega)
    refine .inr ⟨e, t + 1, List.mem_of_getElem? h2, ha, ?_, fun f hf hfa t' y hfw => ?_⟩
    · rw [hw, h6, ← result_succ h2 h3, WTrace.result, WTrace.result, h8]
    · have hcf : f.changes a = true := by simp [WEvent.changes, hfa, hfw]
      obtain ⟨k, hk⟩ := List.getElem?_of_mem hf
      obtain ⟨t₁, v₁, hr₁, hw₁⟩ := h.spec hf hcf
      have h9 := (h.reads k f t₁ v₁ hk hcf hr₁).1
      rw [hfw] at hw₁
      cases hw₁
      have h10 := changes_take_succ (a := a) hk
      rw [if_pos hcf] at h10
      have h11 := changes_le a tr (k + 1)
      omega

/-- Each access finds what some of the changes before it, from the first one on, have made of the initial value. -/
theorem Changed.seen (h : Changed m a tr) {q t : Nat} {e : WEvent w} {v : BitVec w} (he : tr[q]? = some e) (ha : e.addr = a) (hr : e.read = some (t, v)) :
    ∃ k ≤ q, WTrace.changes a (tr.take k) = t ∧ v = WTrace.result a (tr.take k) (m a) := by
  rcases h.writes.1 q e t v he hr with ⟨h1, h2⟩ | ⟨i, f, h1, h2, h3, h4⟩
  · exact ⟨0, Nat.zero_le _, by simp [h1, WTrace.changes], by simp [h2, ha, WTrace.result, WTrace.changesOf]⟩
  · have hcf : f.changes a = true := by simp [WEvent.changes, h3, ha, h4]
    obtain ⟨t', v', hr', hw'⟩ := h.spec (List.mem_of_getElem? h2) hcf
    rw [h4] at hw'
    cases hw'
    obtain ⟨h5, h6⟩ := h.reads i f t' v' h2 hcf hr'
    have h7 := changes_take_succ (a := a) h2
    rw [if_pos hcf] at h7
    exact ⟨i + 1, h1, by omega, by rw [h6, ← result_succ h2 hcf]⟩

/-! ## Operations that can be made in any order -/

theorem isOf_comm {k : AKind} {p q : AOp w} (hp : p.IsOf k) (hq : q.IsOf k) (v : BitVec w) : (q.spec (p.spec v).1).1 = (p.spec (q.spec v).1).1 := by
  cases k <;> cases p <;> first | exact hp.elim | (cases q <;> first | exact hq.elim | skip)
  all_goals simp only [AOp.spec]
  · rw [BitVec.add_assoc, BitVec.add_comm _ (_ : BitVec w), BitVec.add_comm v]
    ac_rfl
  · rw [BitVec.sub_eq_add_neg, BitVec.sub_eq_add_neg]; ac_rfl
  · rw [BitVec.sub_eq_add_neg, BitVec.sub_eq_add_neg]; ac_rfl
  · simp only [BitVec.sub_eq_add_neg]; ac_rfl
  · rw [BitVec.and_assoc, BitVec.and_assoc]
    congr 1
    exact BitVec.and_comm _ _
  · rw [BitVec.or_assoc, BitVec.or_assoc]
    congr 1
    exact BitVec.or_comm _ _
  · rw [BitVec.xor_assoc, BitVec.xor_assoc]
    congr 1
    exact BitVec.xor_comm _ _

theorem combined_perm {kind : Nat → AKind} {us us' : List (Nat × AOp w)} (hp : us.Perm us') (hk : ∀ u ∈ us, u.2.IsOf (kind u.1)) (v : BitVec w) :
    combined a us v = combined a us' v := by
  unfold combined
  refine (hp.filter _).foldl_eq' (fun x hx y hy z => ?_) v
  simp only [List.mem_filter, decide_eq_true_eq] at hx hy
  exact isOf_comm (hx.2 ▸ hk x hx.1) (hy.2 ▸ hk y hy.1) z

/-! ## The programs -/

/-- The operation of an access. -/
def WEvent.update? (e : WEvent w) : Option (Nat × AOp w) :=
  match e.call with
  | .atomic op _ => some (e.addr, op)
  | _ => none

/-- An access that such programs make. -/
def Counting (input : Nat → Bool) (kind : Nat → AKind) (e : WEvent w) : Prop :=
  (e.call = .read ∧ input e.addr = true) ∨ ∃ op o, e.call = .atomic op o ∧ op.IsOf (kind e.addr) ∧ input e.addr = false

variable {input : Nat → Bool} {kind : Nat → AKind}

theorem code_onlyReads {p : CountProg w} (h : p.Counts input kind) : p.code.OnlyReads input := by
  induction p with
  | done => trivial
  | read a next ih => exact ⟨fun _ => rfl, fun r => ih _ (h.2 _)⟩
  | update a op o next ih => exact ⟨fun hi => absurd (h.1.symm.trans hi) (by decide), fun _ => ih h.2.2⟩

theorem code_counting {p : CountProg w} {h : List (WEvent w × Nat)} {q : WProg w} (hp : p.Counts input kind) (ha : p.code.after h = some q) : ∀ x ∈ h, Counting input kind x.1 := by
  induction p generalizing h with
  | done =>
    cases h with
    | nil => intro x hx; cases hx
    | cons => cases ha
  | read a next ih =>
    cases h with
    | nil => intro x hx; cases hx
    | cons y h =>
      simp only [CountProg.code, WProg.after] at ha
      split at ha
      · next hy =>
        intro x hx
        rcases List.mem_cons.1 hx with rfl | hx
        · exact .inl ⟨hy.2, hy.1 ▸ hp.1⟩
        · exact ih _ (hp.2 _) ha x hx
      · cases ha
  | update a op o next ih =>
    cases h with
    | nil => intro x hx; cases hx
    | cons y h =>
      simp only [CountProg.code, WProg.after] at ha
      split at ha
      · next hy =>
        intro x hx
        rcases List.mem_cons.1 hx with rfl | hx
        · exact .inr ⟨op, o, hy.2, by rw [hy.1]; exact hp.2.1, by rw [hy.1]; exact hp.1⟩
        · exact ih hp.2.2 ha x hx
      · cases ha

theorem code_updates {p : CountProg w} {h : List (WEvent w × Nat)} (hp : p.Counts input kind) (ha : p.code.after h = some .done)
    (hr : ∀ x ∈ h, input x.1.addr = true → ∃ t, x.1.read = some (t, m x.1.addr)) : (h.map (·.1)).filterMap (·.update?) = p.updates m := by
  induction p generalizing h with
  | done =>
    cases h with
    | nil => rfl
    | cons => cases ha
  | read a next ih =>
    cases h with
    | nil => cases ha
    | cons y h =>
      simp only [CountProg.code, WProg.after] at ha
      split at ha
      · next hy =>
        obtain ⟨t, ht⟩ := hr y List.mem_cons_self (hy.1 ▸ hp.1)
        rw [ht, hy.1] at ha
        have := ih _ (hp.2 _) ha fun x hx => hr x (List.mem_cons_of_mem _ hx)
        rw [List.map_cons, List.filterMap_cons_none (by simp [WEvent.update?, hy.2])]
        exact this
      · cases ha
  | update a op o next ih =>
    cases h with
    | nil => cases ha
    | cons y h =>
      simp only [CountProg.code, WProg.after] at ha
      split at ha
      · next hy =>
        have := ih hp.2.2 ha fun x hx => hr x (List.mem_cons_of_mem _ hx)
        rw [List.map_cons, List.filterMap_cons_some (b := (a, op)) (by simp [WEvent.update?, hy.2, hy.1]), this]
        rfl
      · cases ha

theorem code_not_failed {p : CountProg w} {h : List (WEvent w × Nat)} (ha : p.code.after h = some .failed) : False := by
  induction p generalizing h with
  | done =>
    cases h with
    | nil => cases ha
    | cons => cases ha
  | read a next ih =>
    cases h with
    | nil => cases ha
    | cons y h =>
      simp only [CountProg.code, WProg.after] at ha
      split at ha
      · exact ih _ ha
      · cases ha
  | update a op o next ih =>
    cases h with
    | nil => cases ha
    | cons y h =>
      simp only [CountProg.code, WProg.after] at ha
      split at ha
      · exact ih ha
      · cases ha

theorem count_defined {I : WImpl w} (hI : I = posixWeak ∨ I = cudaWeak ∨ I = syclWeak ∨ I = syclBuiltinWeak) {p : CountProg w} (h : p.Counts input kind) : p.code.Defined I := by
  induction p with
  | done => trivial
  | read a next ih => exact ⟨by rcases hI with rfl | rfl | rfl | rfl <;> rfl, fun r => ih _ (h.2 _)⟩
  | update a op o next ih =>
    refine ⟨?_, fun _ => ih h.2.2⟩
    have h2 := h.2.1
    generalize kind a = k at h2
    cases k <;> cases op <;> first | exact h2.elim | (rcases hI with rfl | rfl | rfl | rfl <;> rfl)

/-- Of the accesses of such programs, the operations are the changes. -/
theorem result_combined (hc : ∀ e ∈ tr, e.Correct) (hk : ∀ e ∈ tr, Counting input kind e) (v : BitVec w) :
    tr.result a v = combined a (tr.filterMap (·.update?)) v := by
  induction tr generalizing v with
  | nil => rfl
  | cons e tr ih =>
    have ih := ih (fun f hf => hc f (List.mem_cons_of_mem _ hf)) fun f hf => hk f (List.mem_cons_of_mem _ hf)
    have hcor := hc e List.mem_cons_self
    simp only [WTrace.result, WTrace.changesOf, combined] at ih ⊢
    rcases hk e List.mem_cons_self with ⟨h1, -⟩ | ⟨op, o, h1, h2, -⟩
    · simp only [WEvent.Correct, h1] at hcor
      rw [List.filterMap_cons_none (by simp [WEvent.update?, h1]), List.filter_cons_of_neg (by simp [hcor.2])]
      exact ih v
    · have hw : ∃ t v, e.wrote = some (t, v) := by
        unfold WEvent.Correct at hcor
        rw [h1] at hcor
        generalize kind e.addr = k at h2
        cases k <;> cases op <;> first | exact h2.elim | (obtain ⟨t, v, -, h⟩ := hcor; exact ⟨_, _, h⟩)
      obtain ⟨t, x, hw⟩ := hw
      rw [List.filterMap_cons_some (b := (e.addr, op)) (by simp [WEvent.update?, h1])]
      by_cases ha : e.addr = a
      · rw [List.filter_cons_of_pos (by simp [ha, hw]), List.filter_cons_of_pos (by simp [ha]), List.foldl_cons, List.foldl_cons]
        have : e.effect v = (op.spec v).1 := by simp [WEvent.effect, h1]
        rw [this]
        exact ih _
      · rw [List.filter_cons_of_neg (by simp [ha]), List.filter_cons_of_neg (by simp [ha])]
        exact ih v

/-- The accesses are those of the threads. -/
theorem of_perm {n : Nat} (h : ∀ e ∈ tr, e.thread < n) : ((List.range n).flatMap fun i => tr.of i).Perm tr := by
  have key : ∀ n, ((List.range n).flatMap fun i => tr.of i).Perm (tr.filter fun e => decide (e.thread < n)) := by
    intro n
    induction n with
    | zero => simp
    | succ n ih =>
      rw [List.range_succ, List.flatMap_append]
      refine ((ih.append_right _).trans ?_)
      have h1 := List.filter_append_perm (fun e : WEvent w => decide (e.thread < n)) (tr.filter fun e => decide (e.thread < n + 1))
      rw [List.filter_filter, List.filter_filter] at h1
      refine List.Perm.trans (List.Perm.of_eq ?_) h1
      congr 1
      · apply List.filter_congr
        intro e _
        simp only [← Bool.decide_and, decide_eq_decide]
        omega
      · simp only [List.flatMap_cons, List.flatMap_nil, List.append_nil, WTrace.of]
        apply List.filter_congr
        intro e _
        rw [← decide_not, ← Bool.decide_and, decide_eq_decide]
        omega
  refine (key n).trans (List.Perm.of_eq (List.filter_eq_self.2 fun e he => by simpa using h e he))

end Vecmem
