import Verif.Spec.EdmDevice
import Verif.Lemmas.Tactics
import Mathlib.Data.List.Perm.Basic
import Mathlib.Data.List.Nodup

/-!
# The invariant of concurrent `push_back_default` calls
-/

namespace Vecmem

variable {α : Type}

/-- The current call of a thread. -/
def DThread.now (t : DThread α) : List (DCall α × Nat) :=
  match t.phase with
  | .idle => []
  | .claimed c i | .constructing c i _ | .assigning c i _ => [(c, i)]

/-- The calls of a thread that have an index. -/
def DThread.calls (t : DThread α) : List (DCall α × Nat) := t.done ++ t.now

/-- The indices of a thread. -/
def DThread.claims (t : DThread α) : List Nat := t.calls.map (·.2)

/-- What holds for the cells of variable `k` that belong to a thread. -/
structure DThread.CellsOk (t : DThread α) (k : Nat) (d : α) (m : Nat → Option α) : Prop where
  done : ∀ x ∈ t.done, m x.2 = some (lastAssigned d k x.1.assigns)
  constructing : ∀ c i k', t.phase = .constructing c i k' → k < k' → m i = some d
  assigning : ∀ c i j, t.phase = .assigning c i j → m i = some (lastAssigned d k (c.assigns.take j))

/-- The invariant. -/
structure PInv (s0 : DevCont α) (n : Nat) (progs : List (List (DCall α))) (g : DConc α) : Prop where
  ok : g.failed = false
  dbg : g.cont.dbg = s0.dbg
  hasSize : g.cont.hasSize = s0.hasSize
  cap : g.cont.cap = s0.cap
  scalars : ∀ k : Nat, (∀ (d : α) (c : Nat) (m : Nat → Option α), s0.vars[k]? ≠ some (.vector d c m)) → g.cont.vars[k]? = s0.vars[k]?
  vectors : ∀ (k : Nat) (d : α) (c : Nat) (m0 : Nat → Option α), s0.vars[k]? = some (.vector d c m0) →
    ∃ m, g.cont.vars[k]? = some (.vector d c m) ∧ (∀ j, j < n ∨ g.cont.sizeWord ≤ j → m j = m0 j) ∧
      ∀ t ∈ g.threads, t.CellsOk k d m
  perm : (g.threads.flatMap DThread.claims).Perm (List.range' n (g.cont.sizeWord - n))
  size : n ≤ g.cont.sizeWord
  room : g.cont.sizeWord + (g.threads.map fun t => t.todo.length).sum = n + callCount progs
  len : g.threads.length = progs.length
  prog : ∀ (i : Nat) (t : DThread α), g.threads[i]? = some t →
    (progs[i]?).getD [] = t.calls.map (·.1) ++ t.todo
  sorted : ∀ t ∈ g.threads, t.claims.Pairwise (· < ·)

theorem flatMap_set {β γ : Type} (f : β → List γ) {L : List β} {i : Nat} {t t' : β} (hi : L[i]? = some t)
    {x : List γ} (hf : f t' = f t ++ x) : ((L.set i t').flatMap f).Perm (L.flatMap f ++ x) := by
  induction L generalizing i with
  | nil => simp at hi
  | cons a L ih =>
    cases i with
    | zero =>
      simp only [List.getElem?_cons_zero, Option.some.injEq] at hi
      subst hi
      simp only [List.set_cons_zero, List.flatMap_cons, hf, List.append_assoc]
      exact List.Perm.append_left _ List.perm_append_comm
    | succ i =>
      simp only [List.set_cons_succ, List.flatMap_cons, List.append_assoc]
      exact List.Perm.append_left _ (ih (by simpa using hi))

theorem sum_map_set {β : Type} (f : β → Nat) {L : List β} {i : Nat} {t t' : β} (hi : L[i]? = some t) :
    ((L.set i t').map f).sum + f t = (L.map f).sum + f t' := by
  induction L generalizing i with
  | nil => simp at hi
  | cons a L ih =>
    cases i with
    | zero =>
      simp only [List.getElem?_cons_zero, Option.some.injEq] at hi
      subst hi
      simp only [List.set_cons_zero, List.map_cons, List.sum_cons]
      omega
    | succ i =>
      have := ih (i := i) (by simpa using hi)
      simp only [List.set_cons_succ, List.map_cons, List.sum_cons]
      omega

theorem PInv.start {s : DevCont α} {n : Nat} (h : s.Ready n) (progs : List (List (DCall α))) :
    PInv s n progs (DConc.start s progs) where
  ok := rfl
  dbg := rfl
  hasSize := rfl
  cap := rfl
  scalars := fun _ _ => rfl
  vectors := by
    intro k d c m0 hk
    refine ⟨m0, hk, fun _ _ => rfl, ?_⟩
    intro t ht
    obtain ⟨p, _, rfl⟩ := List.mem_map.1 ht
    exact ⟨by simp, by simp, by simp⟩
  perm := by
    have : (DConc.start s progs).cont.sizeWord - n = 0 := by
      show s.sizeWord - n = 0
      rw [h.size]; omega
    rw [this]
    simp [DConc.start, List.flatMap_map, DThread.claims, DThread.calls, DThread.now]
  size := by
    exact Nat.le_of_eq h.size.symm
  room := by
    simp only [DConc.start, List.map_map, h.size, callCount]
    rfl
  len := by simp [DConc.start]
  prog := by
    intro i t ht
    simp only [DConc.start, List.getElem?_map, Option.map_eq_some_iff] at ht
    obtain ⟨p, hp, rfl⟩ := ht
    simp [hp, DThread.calls, DThread.now]
  sorted := by
    intro t ht
    obtain ⟨p, _, rfl⟩ := List.mem_map.1 ht
    simp [DThread.claims, DThread.calls, DThread.now]

theorem PInv.nodup {s0 : DevCont α} {n progs g} (h : PInv s0 n progs g) : (g.threads.flatMap DThread.claims).Nodup :=
  h.perm.nodup_iff.2 List.nodup_range'

theorem PInv.bounds {s0 : DevCont α} {n progs g} (h : PInv s0 n progs g) {t : DThread α} (ht : t ∈ g.threads) {x : Nat}
    (hx : x ∈ t.claims) : n ≤ x ∧ x < g.cont.sizeWord := by
  have := h.perm.mem_iff.1 (List.mem_flatMap.2 ⟨t, ht, hx⟩)
  have h2 := h.size
  rw [List.mem_range'_1] at this
  omega

/-- The indices of different threads are different. -/
theorem PInv.apart {s0 : DevCont α} {n progs g} (h : PInv s0 n progs g) {i j : Nat} {t u : DThread α}
    (hi : g.threads[i]? = some t) (hj : g.threads[j]? = some u) (hne : i ≠ j) {x : Nat} (hx : x ∈ t.claims) :
    x ∉ u.claims := by
  have h1 := (List.nodup_flatMap.1 h.nodup).2
  rw [List.pairwise_iff_getElem] at h1
  obtain ⟨hi', rfl⟩ := List.getElem?_eq_some_iff.1 hi
  obtain ⟨hj', rfl⟩ := List.getElem?_eq_some_iff.1 hj
  intro hu
  rcases Nat.lt_or_gt_of_ne hne with hlt | hlt
  · exact h1 i j hi' hj' hlt hx hu
  · exact h1 j i hj' hi' hlt hu hx

/-- The current index of a thread is not one it had before. -/
theorem PInv.fresh {s0 : DevCont α} {n progs g} (h : PInv s0 n progs g) {t : DThread α} (ht : t ∈ g.threads)
    {c : DCall α} {x : Nat} (hn : t.now = [(c, x)]) : ∀ y ∈ t.done, y.2 ≠ x := by
  intro y hy
  have h1 := h.sorted t ht
  unfold DThread.claims DThread.calls at h1
  rw [hn, List.map_append, List.pairwise_append] at h1
  exact Nat.ne_of_lt (h1.2.2 y.2 (List.mem_map_of_mem hy) x (by simp))

theorem DThread.CellsOk.congr {t : DThread α} {k : Nat} {d : α} {m m' : Nat → Option α} (h : t.CellsOk k d m)
    (hm : ∀ x ∈ t.claims, m' x = m x) : t.CellsOk k d m' := by
  refine ⟨?_, ?_, ?_⟩
  · intro x hx
    rw [hm x.2 (by simp [DThread.claims, DThread.calls]; exact Or.inl ⟨_, by simpa using hx⟩)]
    exact h.done x hx
  · intro c i k' hp hk
    rw [hm i (by simp [DThread.claims, DThread.calls, DThread.now, hp])]
    exact h.constructing c i k' hp hk
  · intro c i j hp
    rw [hm i (by simp [DThread.claims, DThread.calls, DThread.now, hp])]
    exact h.assigning c i j hp

/-- A step of thread `i` that claims nothing, and writes only cells with its current index. -/
theorem PInv.internal {s0 : DevCont α} {n progs g} (h : PInv s0 n progs g) {i : Nat} {t t' : DThread α}
    (hi : g.threads[i]? = some t) (hcalls : t'.calls = t.calls) (htodo : t'.todo = t.todo) (vars : List (DevVar α))
    (hs : ∀ k : Nat, (∀ (d : α) (c : Nat) (m : Nat → Option α), g.cont.vars[k]? ≠ some (.vector d c m)) →
      vars[k]? = g.cont.vars[k]?)
    (hv : ∀ (k : Nat) (d : α) (c : Nat) (m : Nat → Option α), g.cont.vars[k]? = some (.vector d c m) →
      t.CellsOk k d m → ∃ m', vars[k]? = some (.vector d c m') ∧ (∀ j, j ∉ t.now.map (·.2) → m' j = m j) ∧
        t'.CellsOk k d m') :
    PInv s0 n progs { g with cont := { g.cont with vars := vars }, threads := g.threads.set i t' } where
  ok := h.ok
  dbg := h.dbg
  hasSize := h.hasSize
  cap := h.cap
  scalars := by
    intro k hk
    rw [← h.scalars k hk]
    refine hs k ?_
    rw [h.scalars k hk]
    exact hk
  vectors := by
    intro k d c m0 hk
    obtain ⟨m, h1, h2, h3⟩ := h.vectors k d c m0 hk
    have hti := List.mem_of_getElem? hi
    obtain ⟨m', h4, h5, h6⟩ := hv k d c m h1 (h3 t hti)
    have hcl : ∀ x ∈ t.now.map (·.2), x ∈ t.claims := by
      intro x hx
      simp only [DThread.claims, DThread.calls, List.map_append, List.mem_append]
      exact Or.inr hx
    refine ⟨m', h4, ?_, ?_⟩
    · intro j hj
      rw [← h2 j hj]
      refine h5 j fun hc => ?_
      have := h.bounds hti (hcl j hc)
      simp only at hj
      omega
    · intro u hu
      obtain ⟨j, hj⟩ := List.getElem?_of_mem hu
      simp only [List.getElem?_set] at hj
      by_cases hij : i = j
      · subst hij
        rw [if_pos rfl, if_pos (List.getElem?_eq_some_iff.1 hi).1] at hj
        cases hj
        exact h6
      · rw [if_neg hij] at hj
        refine (h3 u (List.mem_of_getElem? hj)).congr fun x hx => h5 x fun hc => ?_
        exact h.apart hi hj hij (hcl x hc) hx
  perm := by
    have := flatMap_set DThread.claims (t' := t') hi (x := []) (by simp [DThread.claims, hcalls])
    rw [List.append_nil] at this
    exact this.trans h.perm
  size := h.size
  room := by
    have := sum_map_set (fun t : DThread α => t.todo.length) (t' := t') hi
    have := h.room
    simp only [htodo] at *
    omega
  len := by simpa using h.len
  prog := by
    intro j u hj
    simp only [List.getElem?_set] at hj
    by_cases hij : i = j
    · subst hij
      rw [if_pos rfl, if_pos (List.getElem?_eq_some_iff.1 hi).1] at hj
      cases hj
      rw [hcalls, htodo]
      exact h.prog i t hi
    · rw [if_neg hij] at hj
      exact h.prog j u hj
  sorted := by
    intro u hu
    rcases List.mem_or_eq_of_mem_set hu with hu | rfl
    · exact h.sorted u hu
    · have := h.sorted t (List.mem_of_getElem? hi)
      unfold DThread.claims at *
      rw [hcalls]
      exact this

/-- The `fetch_add` of thread `i`. -/
theorem PInv.claim {s0 : DevCont α} {n progs g} (h : PInv s0 n progs g) (hfit : n + callCount progs < 2 ^ 32) {i : Nat}
    {t : DThread α} {c : DCall α} {cs : List (DCall α)}
    (hi : g.threads[i]? = some t) (hp : t.phase = .idle) (htodo : t.todo = c :: cs) :
    PInv s0 n progs { g with
      cont := { g.cont with sizeWord := (g.cont.sizeWord + 1) % 2 ^ 32 },
      threads := g.threads.set i { t with todo := cs, phase := .claimed c g.cont.sizeWord } } := by
  have hti := List.mem_of_getElem? hi
  have hsum : t.todo.length ≤ (g.threads.map fun t => t.todo.length).sum := by
    have := sum_map_set (fun t : DThread α => t.todo.length) (t' := { t with todo := [] }) hi
    simp only [List.length_nil] at this
    omega
  have hroom := h.room
  have hsize := h.size
  rw [htodo] at hsum
  simp only [List.length_cons] at hsum
  have hw : (g.cont.sizeWord + 1) % 2 ^ 32 = g.cont.sizeWord + 1 := Nat.mod_eq_of_lt (by omega)
  rw [hw]
  have hcalls : DThread.calls { t with todo := cs, phase := .claimed c g.cont.sizeWord } =
      t.calls ++ [(c, g.cont.sizeWord)] := by
    simp [DThread.calls, DThread.now, hp]
  refine ⟨h.ok, h.dbg, h.hasSize, h.cap, h.scalars, ?_, ?_, ?_, ?_, by simpa using h.len, ?_, ?_⟩
  · intro k d cap m0 hk
    obtain ⟨m, h1, h2, h3⟩ := h.vectors k d cap m0 hk
    refine ⟨m, h1, fun j hj => h2 j ?_, ?_⟩
    · simp only at hj
      omega
    · intro u hu
      rcases List.mem_or_eq_of_mem_set hu with hu | rfl
      · exact h3 u hu
      · exact ⟨(h3 t hti).done, by simp, by simp⟩
  · have := flatMap_set DThread.claims (t' := { t with todo := cs, phase := .claimed c g.cont.sizeWord }) hi
      (x := [g.cont.sizeWord]) (by simp [DThread.claims, hcalls])
    refine this.trans ?_
    simp only
    have e : g.cont.sizeWord + 1 - n = (g.cont.sizeWord - n) + 1 := by omega
    rw [e, List.range'_concat]
    refine (h.perm.append_right _).trans ?_
    have e2 : n + 1 * (g.cont.sizeWord - n) = g.cont.sizeWord := by omega
    rw [e2]
  · simp only
    omega
  · have := sum_map_set (fun t : DThread α => t.todo.length)
      (t' := { t with todo := cs, phase := .claimed c g.cont.sizeWord }) hi
    simp only [htodo, List.length_cons] at this
    simp only
    omega
  · intro j u hj
    simp only [List.getElem?_set] at hj
    by_cases hij : i = j
    · subst hij
      rw [if_pos rfl, if_pos (List.getElem?_eq_some_iff.1 hi).1] at hj
      cases hj
      rw [hcalls, h.prog i t hi, htodo]
      simp
    · rw [if_neg hij] at hj
      exact h.prog j u hj
  · intro u hu
    rcases List.mem_or_eq_of_mem_set hu with hu | rfl
    · exact h.sorted u hu
    · unfold DThread.claims
      rw [hcalls, List.map_append, List.pairwise_append]
      refine ⟨h.sorted t hti, by simp, ?_⟩
      intro a ha b hb
      simp only [List.map_cons, List.map_nil, List.mem_singleton] at hb
      subst hb
      exact (h.bounds hti ha).2

theorem lastAssigned_concat (d : α) (k : Nat) (as : List (Nat × α)) (a : Nat × α) :
    lastAssigned d k (as ++ [a]) = if a.1 = k then a.2 else lastAssigned d k as := by
  induction as generalizing d with
  | nil => rfl
  | cons b as ih => simp [lastAssigned, ih]

theorem getElem?_modify_put {vars : List (DevVar α)} {k k' i : Nat} {x d : α} {c : Nat} {m : Nat → Option α}
    (h : vars[k']? = some (.vector d c m)) :
    (vars.modify k (·.put i x))[k']? =
      some (.vector d c (if k = k' then fun j => if j = i then some x else m j else m)) := by
  rw [List.getElem?_modify, h]
  by_cases hk : k = k' <;> simp [hk, DevVar.put]

theorem getElem?_modify_put_scalar {vars : List (DevVar α)} {k k' i : Nat} {x : α}
    (h : ∀ (d : α) (c : Nat) (m : Nat → Option α), vars[k']? ≠ some (.vector d c m)) :
    (vars.modify k (·.put i x))[k']? = vars[k']? := by
  rw [List.getElem?_modify]
  cases e : vars[k']? with
  | none => rfl
  | some v =>
    cases v with
    | scalar y => by_cases hk : k = k' <;> simp [hk, DevVar.put]
    | vector d c m => exact absurd e (h d c m)

theorem PInv.step {s0 : DevCont α} {n progs g} (hr : s0.Ready n) (hfit : n + callCount progs ≤ s0.cap)
    (hargs : ∀ p ∈ progs, ∀ c ∈ p, c.Valid s0) (h : PInv s0 n progs g) (i : Nat) : PInv s0 n progs (g.step i) := by
  unfold DConc.step
  rw [if_neg (by simp [h.ok])]
  cases hi : g.threads[i]? with
  | none => exact h
  | some t =>
    have hti := List.mem_of_getElem? hi
    have hcap := hr.cap32
    have hroom := h.room
    have hnow : ∀ c x, t.now = [(c, x)] → x < s0.cap ∧ x < g.cont.sizeWord ∧ c.Valid s0 := by
      intro c x hn
      have h1 := h.bounds hti (x := x) (by simp [DThread.claims, DThread.calls, hn])
      refine ⟨by omega, h1.2, ?_⟩
      have h2 := h.prog i t hi
      have hl : i < progs.length := h.len ▸ (List.getElem?_eq_some_iff.1 hi).1
      rw [List.getElem?_eq_getElem hl] at h2
      refine hargs progs[i] (List.getElem_mem hl) c ?_
      simp only [Option.getD_some] at h2
      rw [h2]
      simp [DThread.calls, hn]
    have hvec : ∀ (k : Nat) (d : α) (c : Nat) (m : Nat → Option α), g.cont.vars[k]? = some (.vector d c m) →
        c = s0.cap := by
      intro k d c m hk
      by_cases hc : ∃ d c m, s0.vars[k]? = some (.vector d c m)
      · obtain ⟨d', c', m', hk'⟩ := hc
        obtain ⟨_, h1, _⟩ := h.vectors k d' c' m' hk'
        rw [hk] at h1
        cases h1
        exact hr.caps k _ _ _ hk'
      · push Not at hc
        rw [h.scalars k hc] at hk
        exact absurd hk (hc _ _ _)
    simp only
    unfold DConc.stepThread
    cases hp : t.phase with
    | idle =>
      simp only
      cases htodo : t.todo with
      | nil =>
        simp only
        have : g.threads.set i t = g.threads := by
          apply List.ext_getElem?
          intro j
          rw [List.getElem?_set]
          split
          · rename_i hij
            subst hij
            rw [if_pos (List.getElem?_eq_some_iff.1 hi).1, hi]
          · rfl
        rw [this]
        exact h
      | cons c cs =>
        simp only
        have hm : g.cont.capacitiesMatch = true := by
          unfold DevCont.capacitiesMatch
          rw [List.all_eq_true]
          intro v hv
          obtain ⟨k, hk⟩ := List.getElem?_of_mem hv
          cases v with
          | scalar x => rfl
          | vector d c m =>
            have := hvec k d c m hk
            simp [DevVar.capacityMatches, this, h.cap]
        have hz : g.cont.hasSize = true := h.hasSize.trans hr.resizable
        rw [if_neg (by simp [hz]), if_neg (by simp [hm])]
        exact h.claim (by omega) hi hp htodo
    | claimed c x =>
      have hn : t.now = [(c, x)] := by simp [DThread.now, hp]
      obtain ⟨h1, h2, h3⟩ := hnow c x hn
      simp only
      rw [h.cap]
      simp only [h1, decide_true, Bool.not_true, Bool.and_false, Bool.false_eq_true, if_false]
      refine h.internal (t' := { t with phase := .constructing c x 0 }) hi (by simp [DThread.calls, DThread.now, hp]) rfl
        g.cont.vars (fun _ _ => rfl) ?_
      intro k d cap m hk hc
      refine ⟨m, hk, fun _ _ => rfl, hc.done, ?_, by simp⟩
      intro c' i' k' hp' hk'
      simp only [DPhase.constructing.injEq] at hp'
      omega
    | constructing c x k =>
      have hn : t.now = [(c, x)] := by simp [DThread.now, hp]
      obtain ⟨h1, h2, h3⟩ := hnow c x hn
      simp only
      cases hk : g.cont.vars[k]? with
      | none =>
        simp only
        refine h.internal (t' := { t with phase := .assigning c x 0 }) hi (by simp [DThread.calls, DThread.now, hp]) rfl
          g.cont.vars (fun _ _ => rfl) ?_
        intro k' d cap m hk' hc
        refine ⟨m, hk', fun _ _ => rfl, hc.done, by simp, ?_⟩
        intro c' i' j' hp'
        simp only [DPhase.assigning.injEq] at hp'
        obtain ⟨rfl, rfl, rfl⟩ := hp'
        refine hc.constructing _ _ _ hp ?_
        have := (List.getElem?_eq_some_iff.1 hk').1
        have := List.getElem?_eq_none_iff.1 hk
        omega
      | some v =>
        cases v with
        | scalar y =>
          simp only
          refine h.internal (t' := { t with phase := .constructing c x (k + 1) }) hi
            (by simp [DThread.calls, DThread.now, hp]) rfl g.cont.vars (fun _ _ => rfl) ?_
          intro k' d cap m hk' hc
          refine ⟨m, hk', fun _ _ => rfl, hc.done, ?_, by simp⟩
          intro c' i' k'' hp' hlt
          simp only [DPhase.constructing.injEq] at hp'
          obtain ⟨rfl, rfl, rfl⟩ := hp'
          refine hc.constructing _ _ _ hp ?_
          have : k' ≠ k := by
            rintro rfl
            rw [hk] at hk'
            cases hk'
          omega
        | vector d cap m =>
          have := hvec k d cap m hk
          subst this
          simp only [h1, decide_true, Bool.not_true, Bool.and_false, Bool.false_eq_true, if_false]
          refine h.internal (t' := { t with phase := .constructing c x (k + 1) }) hi
            (by simp [DThread.calls, DThread.now, hp]) rfl (g.cont.vars.modify k (·.put x d))
            (fun k' hk' => getElem?_modify_put_scalar hk') ?_
          intro k' d' cap' m' hk' hc
          refine ⟨_, getElem?_modify_put hk', ?_, ?_, ?_, by simp⟩
          · intro j hj
            rw [hn] at hj
            simp only [List.map_cons, List.map_nil, List.mem_singleton] at hj
            split
            · exact if_neg hj
            · rfl
          · intro y hy
            have := h.fresh hti hn y hy
            have h5 := hc.done y hy
            split
            · exact (if_neg this).trans h5
            · exact h5
          · intro c' i' k'' hp' hlt
            simp only [DPhase.constructing.injEq] at hp'
            obtain ⟨rfl, rfl, rfl⟩ := hp'
            by_cases hkk : k = k'
            · subst hkk
              rw [hk] at hk'
              cases hk'
              simp
            · rw [if_neg hkk]
              exact hc.constructing _ _ _ hp (by omega)
    | assigning c x j =>
      have hn : t.now = [(c, x)] := by simp [DThread.now, hp]
      obtain ⟨h1, h2, h3⟩ := hnow c x hn
      simp only
      cases hj : c.assigns[j]? with
      | none =>
        simp only
        refine h.internal (t' := { t with phase := .idle, done := t.done ++ [(c, x)] }) hi
          (by simp [DThread.calls, DThread.now, hp]) rfl g.cont.vars (fun _ _ => rfl) ?_
        intro k' d cap m hk' hc
        refine ⟨m, hk', fun _ _ => rfl, ?_, by simp, by simp⟩
        intro y hy
        rcases List.mem_append.1 hy with hy | hy
        · exact hc.done y hy
        · simp only [List.mem_singleton] at hy
          subst hy
          have := hc.assigning _ _ _ hp
          rw [List.take_of_length_le (List.getElem?_eq_none_iff.1 hj)] at this
          exact this
      | some a =>
        obtain ⟨k, y⟩ := a
        obtain ⟨d, cap, m0, h4⟩ := h3 (k, y) (List.mem_of_getElem? hj)
        obtain ⟨m, h5, h6, h7⟩ := h.vectors k d cap m0 h4
        have h8 : g.cont.size = g.cont.sizeWord := by
          unfold DevCont.size
          rw [h.hasSize, hr.resizable]
          rfl
        simp only
        rw [h8]
        simp only [h2, decide_true, Bool.not_true, Bool.and_false, Bool.false_eq_true, if_false]
        simp only [h5]
        have h9 := (h7 t hti).assigning _ _ _ hp
        rw [if_neg (by rw [h9]; simp)]
        refine h.internal (t' := { t with phase := .assigning c x (j + 1) }) hi
          (by simp [DThread.calls, DThread.now, hp]) rfl (g.cont.vars.modify k (·.put x y))
          (fun k' hk' => getElem?_modify_put_scalar hk') ?_
        intro k' d' cap' m' hk' hc
        refine ⟨_, getElem?_modify_put hk', ?_, ?_, by simp, ?_⟩
        · intro j hj
          rw [hn] at hj
          simp only [List.map_cons, List.map_nil, List.mem_singleton] at hj
          split
          · exact if_neg hj
          · rfl
        · intro z hz
          have := h.fresh hti hn z hz
          have h5 := hc.done z hz
          split
          · exact (if_neg this).trans h5
          · exact h5
        · intro c' i' j' hp'
          simp only [DPhase.assigning.injEq] at hp'
          obtain ⟨rfl, rfl, rfl⟩ := hp'
          rw [List.take_add_one, hj]
          simp only [Option.toList_some]
          rw [lastAssigned_concat]
          simp only
          by_cases hkk : k = k'
          · simp [hkk]
          · rw [if_neg hkk, if_neg hkk]
            exact hc.assigning _ _ _ hp

theorem PInv.run {s0 : DevCont α} {n progs g} (hr : s0.Ready n) (hfit : n + callCount progs ≤ s0.cap)
    (hargs : ∀ p ∈ progs, ∀ c ∈ p, c.Valid s0) (h : PInv s0 n progs g) (sched : List Nat) :
    PInv s0 n progs (g.run sched) := by
  induction sched generalizing g with
  | nil => exact h
  | cons i sched ih => exact ih (h.step hr hfit hargs i)

end Vecmem
