import Verif.Model.EdmPipeline
import Verif.Lemmas.PipelineKernel
import Verif.Lemmas.JagPipelineCopies
import Verif.Props.C45_EdmDevice

/-! # Lemmas for C65: kernels that append to a container finish, and are as if the calls were made one after the other -/

namespace Vecmem

/-- What thread `i` has left. -/
def DConc.left (g : DConc Elem) (i : Nat) : Nat := ((g.threads[i]?).map (DThread.left g.cont)).getD 0

theorem DConc.step_failed {g : DConc Elem} (i : Nat) (h : (g.step i).failed = false) : g.failed = false := by
  by_contra hc
  have hc : g.failed = true := by simpa using hc
  rw [DConc.step, if_pos hc, hc] at h
  cases h

theorem DConc.run_failed (sched : List Nat) : ∀ {g : DConc Elem}, (g.run sched).failed = false → g.failed = false := by
  induction sched with
  | nil => exact fun h => h
  | cons i is ih => exact fun h => DConc.step_failed i (ih h)

theorem DThread.left_congr {s s' : DevCont Elem} (h : s'.vars.length = s.vars.length) (t : DThread Elem) : t.left s' = t.left s := by
  unfold DThread.left
  rw [h]

theorem DThread.left_zero {s : DevCont Elem} {t : DThread Elem} (h : t.left s = 0) : t.todo = [] ∧ t.phase = .idle := by
  unfold DThread.left at h
  cases hp : t.phase with
  | idle =>
    rw [hp] at h
    cases ht : t.todo with
    | nil => exact ⟨rfl, rfl⟩
    | cons c cs =>
      rw [ht] at h
      simp only [List.map_cons, List.sum_cons] at h
      omega
  | claimed c i => rw [hp] at h; simp only at h; omega
  | constructing c i k => rw [hp] at h; simp only at h; omega
  | assigning c i k => rw [hp] at h; simp only at h; omega

theorem DConc.stepThread_left {s s' : DevCont Elem} {t t' : DThread Elem} (h : DConc.stepThread s t = some (s', t')) :
    s'.vars.length = s.vars.length ∧ t'.left s' ≤ t.left s - 1 := by
  by_cases hunf : t.todo = [] ∧ t.phase = .idle
  · unfold DConc.stepThread at h
    rw [hunf.2] at h
    simp only [hunf.1] at h
    simp only [Option.some.injEq, Prod.mk.injEq] at h
    obtain ⟨rfl, rfl⟩ := h
    refine ⟨rfl, ?_⟩
    unfold DThread.left
    rw [hunf.1, hunf.2]
    simp
  · have := Props.c45_progress s s' t t' h hunf
    omega

theorem DConc.left_step {g : DConc Elem} (i : Nat) (h : (g.step i).failed = false) (j : Nat) :
    (g.step i).left j ≤ if j = i then g.left j - 1 else g.left j := by
  have hf := DConc.step_failed i h
  unfold DConc.step at h ⊢
  rw [if_neg (by simp [hf])] at h ⊢
  cases e : g.threads[i]? with
  | none =>
    simp only [e]
    split
    · rename_i hji
      subst hji
      simp [DConc.left, e]
    · exact Nat.le_refl _
  | some t =>
    simp only [e] at h ⊢
    cases e' : DConc.stepThread g.cont t with
    | none => rw [e'] at h; simp at h
    | some r =>
      obtain ⟨s', t'⟩ := r
      simp only
      have hl := DConc.stepThread_left e'
      have hlt : i < g.threads.length := (List.getElem?_eq_some_iff.1 e).1
      split
      · rename_i hji
        subst hji
        simp only [DConc.left, List.getElem?_set_self hlt, e, Option.map_some, Option.getD_some]
        exact hl.2
      · rename_i hne
        simp only [DConc.left, List.getElem?_set_ne (Ne.symm hne)]
        cases g.threads[j]? with
        | none => exact Nat.le_refl _
        | some u => exact Nat.le_of_eq (DThread.left_congr hl.1 u)

theorem DConc.left_run (sched : List Nat) : ∀ {g : DConc Elem}, (g.run sched).failed = false →
    ∀ j, (g.run sched).left j ≤ g.left j - sched.count j := by
  induction sched with
  | nil => exact fun _ j => Nat.le_refl _
  | cons i is ih =>
    intro g h j
    have h1 := ih (g := g.step i) h j
    have h2 := DConc.left_step i (DConc.run_failed is h) j
    have h3 : (g.run (i :: is)) = ((g.step i).run is) := rfl
    rw [h3, List.count_cons]
    by_cases hij : j = i
    · subst hij
      simp only [if_true, beq_self_eq_true] at h2 ⊢
      omega
    · rw [if_neg hij] at h2
      rw [if_neg (by simpa using fun h => hij h.symm)]
      omega

theorem count_drainCalls (n : Nat) (progs : List (List (DCall Elem))) (j : Nat) :
    (drainCalls n progs).count j = ((progs.getD j []).map fun c => n + c.assigns.length + 4).sum := by
  unfold drainCalls
  rw [count_flatMap_replicate _ _ _ List.nodup_range]
  split
  · rfl
  · rename_i h
    rw [List.mem_range] at h
    rw [List.getD_eq_getElem?_getD, List.getElem?_eq_none (by omega)]
    rfl

theorem DConc.left_start (s : DevCont Elem) (progs : List (List (DCall Elem))) (j : Nat) :
    (DConc.start s progs).left j = ((progs.getD j []).map fun c => s.vars.length + c.assigns.length + 4).sum := by
  unfold DConc.left DConc.start
  simp only [List.getElem?_map, List.getD_eq_getElem?_getD]
  cases progs[j]? <;> simp [DThread.left]

theorem DConc.kernel_finished {s : DevCont Elem} {progs : List (List (DCall Elem))} {sched : List Nat}
    (h : (DConc.kernel s progs sched).failed = false) : (DConc.kernel s progs sched).Finished := by
  intro t ht
  obtain ⟨j, hj⟩ := List.mem_iff_getElem?.1 ht
  apply DThread.left_zero (s := (DConc.kernel s progs sched).cont)
  have h1 := DConc.left_run (sched ++ drainCalls s.vars.length progs) h j
  rw [List.count_append, count_drainCalls, DConc.left_start] at h1
  have h2 : (DConc.kernel s progs sched).left j = t.left (DConc.kernel s progs sched).cont := by simp [DConc.left, hj]
  have h3 : ((DConc.start s progs).run (sched ++ drainCalls s.vars.length progs)).left j = t.left (DConc.kernel s progs sched).cont := h2
  omega

/-! ## The order of the calls -/

/-- A list can be put in any order that a permutation of its images has. -/
theorem perm_lift {β γ : Type} (f : β → γ) : ∀ {L : List γ} {l : List β}, (l.map f).Perm L → ∃ l' : List β, l'.Perm l ∧ l'.map f = L := by
  intro L
  induction L with
  | nil =>
    intro l h
    have := h.length_eq
    rw [List.length_map, List.length_nil, List.length_eq_zero_iff] at this
    subst this
    exact ⟨[], .refl _, rfl⟩
  | cons x L ih =>
    intro l h
    have hx : x ∈ l.map f := h.mem_iff.2 List.mem_cons_self
    obtain ⟨a, ha, rfl⟩ := List.mem_map.1 hx
    obtain ⟨s, t, rfl⟩ := List.append_of_mem ha
    have hp : (s ++ a :: t).Perm (a :: (s ++ t)) := List.perm_middle
    have h2 : ((s ++ t).map f).Perm L := by
      have := (hp.map f).symm.trans h
      rw [List.map_cons] at this
      exact this.cons_inv
    obtain ⟨l', h3, h4⟩ := ih h2
    exact ⟨a :: l', (h3.cons a).trans hp.symm, by rw [List.map_cons, h4]⟩

/-- The elements of lists with the number of the list. -/
def tagged {β : Type} (n : Nat) : List (List β) → List (Nat × β)
  | [] => []
  | l :: ls => l.map (fun x => (n, x)) ++ tagged (n + 1) ls

theorem tagged_map {β γ : Type} (f : β → γ) : ∀ (ls : List (List β)) (n : Nat),
    (tagged n ls).map (fun x => f x.2) = ls.flatMap fun l => l.map f := by
  intro ls
  induction ls with
  | nil => intro n; rfl
  | cons l ls ih =>
    intro n
    simp only [tagged, List.map_append, List.map_map, List.flatMap_cons, ih]
    rfl

theorem tagged_filter_lt {β : Type} : ∀ (ls : List (List β)) {n i : Nat}, i < n → (tagged n ls).filter (fun x => decide (x.1 = i)) = [] := by
  intro ls
  induction ls with
  | nil => intros; rfl
  | cons l ls ih =>
    intro n i h
    simp only [tagged, List.filter_append, ih (show i < n + 1 by omega), List.append_nil]
    rw [List.filter_eq_nil_iff]
    intro x hx
    obtain ⟨y, -, rfl⟩ := List.mem_map.1 hx
    simp only [decide_eq_true_eq]
    omega

theorem tagged_filter {β : Type} : ∀ (ls : List (List β)) (n i : Nat),
    (tagged n ls).filter (fun x => decide (x.1 = n + i)) = (ls.getD i []).map fun x => (n + i, x) := by
  intro ls
  induction ls with
  | nil => intros; rfl
  | cons l ls ih =>
    intro n i
    simp only [tagged, List.filter_append]
    cases i with
    | zero =>
      rw [tagged_filter_lt _ (by omega), List.append_nil]
      simp only [Nat.add_zero, List.getD_cons_zero]
      rw [List.filter_eq_self.2]
      intro x hx
      obtain ⟨y, -, rfl⟩ := List.mem_map.1 hx
      simp
    | succ i =>
      have := ih (n + 1) i
      rw [show n + (i + 1) = n + 1 + i by omega, this, List.getD_cons_succ]
      rw [List.filter_eq_nil_iff.2, List.nil_append]
      intro x hx
      obtain ⟨y, -, rfl⟩ := List.mem_map.1 hx
      simp only [decide_eq_true_eq]
      omega

theorem DConc.kernel_ok {s : DevCont Elem} {n : Nat} (h : s.Ready n) {progs : List (List (DCall Elem))}
    (hfit : n + callCount progs ≤ s.cap) (hargs : ∀ p ∈ progs, ∀ c ∈ p, c.Valid s) (sched : List Nat) :
    (DConc.kernel s progs sched).failed = false ∧ (DConc.kernel s progs sched).cont.sizeWord = n + callCount progs ∧
    (DConc.kernel s progs sched).cont.vars.length = s.vars.length ∧
    (∀ (k : Nat) (x : Elem), s.vars[k]? = some (.scalar x) → (DConc.kernel s progs sched).cont.vars[k]? = some (.scalar x)) ∧
    ((DConc.kernel s progs sched).threads.map DThread.done).map (fun (l : List (DCall Elem × Nat)) => l.map (·.1)) = progs ∧
    ∃ order : List (Nat × DCall Elem × Nat),
      (∀ i, (order.filter (·.1 = i)).map (·.2) = ((DConc.kernel s progs sched).threads.map DThread.done).getD i []) ∧
      order.map (·.2.2) = List.range' n order.length ∧ order.length = callCount progs ∧
      (∀ (k : Nat) (d : Elem) (c : Nat) (m0 : Nat → Option Elem), s.vars[k]? = some (.vector d c m0) →
        ∃ m, (DConc.kernel s progs sched).cont.vars[k]? = some (.vector d c m) ∧
          (∀ j, j < n ∨ n + callCount progs ≤ j → m j = m0 j) ∧
          ∀ (j : Nat) (x : Nat × DCall Elem × Nat), order[j]? = some x → m (n + j) = some (lastAssigned d k x.2.1.assigns)) := by
  have hi := (PInv.start h progs).run h hfit hargs (sched ++ drainCalls s.vars.length progs)
  obtain ⟨-, hc⟩ := Props.c45_push_back_default s n h progs hfit hargs (sched ++ drainCalls s.vars.length progs)
  have hfin := DConc.kernel_finished (s := s) (progs := progs) (sched := sched) hi.ok
  obtain ⟨c1, c2, c3, c4, c5, c6⟩ := hc hfin
  have hk : DConc.kernel s progs sched = (DConc.start s progs).run (sched ++ drainCalls s.vars.length progs) := rfl
  rw [← hk] at hi c1 c2 c3 c4 c5 c6
  generalize DConc.kernel s progs sched = g at hi hfin c1 c2 c3 c4 c5 c6 ⊢
  have hsw : g.cont.sizeWord = n + callCount progs := by
    have := c2
    unfold DevCont.size at this
    rw [hi.hasSize, h.resizable, if_pos rfl] at this
    exact this
  have hres : ∀ i, (g.threads.map DThread.done).getD i [] = g.results i := by
    intro i
    rw [List.getD_eq_getElem?_getD, List.getElem?_map]
    rfl
  refine ⟨hi.ok, hsw, ?_, c5, ?_, ?_⟩
  · -- the same variables
    have key : ∀ k : Nat, g.cont.vars[k]? = none ↔ s.vars[k]? = none := by
      intro k
      by_cases hv : ∃ d c m, s.vars[k]? = some (.vector d c m)
      · obtain ⟨d, c, m, hv⟩ := hv
        obtain ⟨m', hm, -⟩ := hi.vectors k d c m hv
        rw [hm, hv]
        simp
      · rw [hi.scalars k fun d c m hc => hv ⟨d, c, m, hc⟩]
    have k1 := key g.cont.vars.length
    have k2 := key s.vars.length
    rw [List.getElem?_eq_none_iff, List.getElem?_eq_none_iff] at k1 k2
    omega
  · refine list_eq (by rw [List.length_map, List.length_map]; exact hi.len) ?_
    intro i l l' h1 h2
    have := c3 i
    rw [← hres, List.getD_eq_getElem?_getD, h2, Option.getD_some] at this
    rw [List.getElem?_map] at h1
    obtain ⟨l0, hl0, rfl⟩ := Option.map_eq_some_iff.1 h1
    rw [hl0] at this
    exact this
  · have hperm : ((tagged 0 (g.threads.map DThread.done)).map (·.2.2)).Perm (List.range' n (callCount progs)) := by
      rw [tagged_map (f := fun x : DCall Elem × Nat => x.2), List.flatMap_map]
      exact c1
    obtain ⟨order, o1, o2⟩ := perm_lift (fun x : Nat × DCall Elem × Nat => x.2.2) hperm
    have hlen : order.length = callCount progs := by
      have := congrArg List.length o2
      simpa using this
    have hord : order.Pairwise fun a b => a.2.2 < b.2.2 := by
      have := List.pairwise_lt_range' (s := n) (n := callCount progs) (step := 1) (by omega)
      rw [← o2, List.pairwise_map] at this
      exact this
    have hfil : ∀ i, (order.filter (·.1 = i)).map (·.2) = (g.threads.map DThread.done).getD i [] := by
      intro i
      have ht := tagged_filter (g.threads.map DThread.done) 0 i
      rw [Nat.zero_add] at ht
      have hp := o1.filter (fun x => decide (x.1 = i))
      rw [ht] at hp
      have := hp.eq_of_pairwise (le := fun a b => a.2.2 < b.2.2) (fun a b _ _ h1 h2 => by omega)
        (hord.sublist List.filter_sublist) (by
          rw [List.pairwise_map, hres]
          have := c4 i
          rw [List.pairwise_map] at this
          exact this)
      rw [this, List.map_map]
      have : ((fun x : Nat × DCall Elem × Nat => x.2) ∘ fun x => (i, x)) = id := rfl
      rw [this, List.map_id]
    refine ⟨order, hfil, by rw [hlen]; exact o2, hlen, ?_⟩
    intro k d cp m0 hv
    obtain ⟨m, m1, m2, m3⟩ := c6 k d cp m0 hv
    refine ⟨m, m1, m2, ?_⟩
    intro j x hj
    have hx : x.2 ∈ g.results x.1 := by
      rw [← hres, ← hfil]
      exact List.mem_map.2 ⟨x, List.mem_filter.2 ⟨List.mem_of_getElem? hj, by simp⟩, rfl⟩
    have hidx : x.2.2 = n + j := by
      have := congrArg (fun l => l[j]?) o2
      simp only [List.getElem?_map, hj, Option.map_some] at this
      rw [List.getElem?_range' (by rw [← hlen]; exact (List.getElem?_eq_some_iff.1 hj).1)] at this
      simpa using this
    rw [← hidx]
    exact m3 x.1 x.2 hx

end Vecmem
