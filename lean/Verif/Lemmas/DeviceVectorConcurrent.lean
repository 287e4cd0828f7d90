import Verif.Spec.DeviceVectorConcurrent
import Verif.Lemmas.DeviceVector

/-! # Lemmas about concurrent appends -/

namespace Vecmem

variable {α : Type}

/-- A claim: thread, call, index. -/
abbrev Claim (α : Type) := Nat × ACall α × Nat

/-- The number of claimed elements. -/
def claimed (o : List (Claim α)) : Nat := (o.map fun x => x.2.1.count).sum

/-- Each claim begins where the one before ends. -/
def Chain (base : Nat) : List (Claim α) → Prop
  | [] => True
  | x :: o => x.2.2 = base ∧ Chain (base + x.2.1.count) o

theorem claimed_append (o : List (Claim α)) (x : Claim α) : claimed (o ++ [x]) = claimed o + x.2.1.count := by
  simp [claimed]

theorem Chain.append {base : Nat} {o : List (Claim α)} (h : Chain base o) {x : Claim α}
    (hx : x.2.2 = base + claimed o) : Chain base (o ++ [x]) := by
  induction o generalizing base with
  | nil => simpa [Chain, claimed] using hx
  | cons y o ih =>
    refine ⟨h.1, ih h.2 ?_⟩
    rw [hx]
    simp only [claimed, List.map_cons, List.sum_cons]
    omega

theorem Chain.bounds {base : Nat} {o : List (Claim α)} (h : Chain base o) {x : Claim α} (hx : x ∈ o) :
    base ≤ x.2.2 ∧ x.2.2 + x.2.1.count ≤ base + claimed o := by
  induction o generalizing base with
  | nil => cases hx
  | cons y o ih =>
    obtain ⟨h1, h2⟩ := h
    simp only [claimed, List.map_cons, List.sum_cons]
    rcases List.mem_cons.1 hx with rfl | hx
    · omega
    · have := ih h2 hx
      simp only [claimed] at this
      omega

theorem Chain.pairwise {base : Nat} {o : List (Claim α)} (h : Chain base o) :
    o.Pairwise fun x y => x.2.2 + x.2.1.count ≤ y.2.2 := by
  induction o generalizing base with
  | nil => exact .nil
  | cons y o ih =>
    refine .cons ?_ (ih h.2)
    intro z hz
    have := (h.2.bounds hz).1
    have := h.1
    omega

/-- The calls of a thread that have claimed their range. -/
def Thread.calls (t : Thread α) : List (ACall α × Nat) :=
  t.done ++ match t.phase with
    | .idle => []
    | .claimed c i => [(c, i)]
    | .writing c i _ => [(c, i)]

/-- What is known of a cell of a call. -/
def GoodCell (dflt : α) (l : List α) (c : ACall α) (x : Option α) : Prop :=
  ∃ v, x = some v ∧ ∀ w, c.value dflt l = some w → v = w

/-- The first `k` constructed cells of the call, and those it need not construct, are good. -/
def CellsOk (dflt : α) (l : List α) (mem : Nat → Option α) (c : ACall α) (index k : Nat) : Prop :=
  ∀ j, j < k + (c.count - c.writes) → GoodCell dflt l c (mem (index + j))

theorem ACall.writes_le (c : ACall α) : c.writes ≤ c.count := by
  cases c <;> simp [ACall.writes, ACall.count]

/-- The invariant of a run. -/
structure CInv (s0 : DV α) (l : List α) (f : Nat → Option α) (progs : List (List (ACall α))) (g : Conc α)
    (o : List (Claim α)) : Prop where
  ok : g.failed = false
  kind : s0.SameKind g.vec
  len : g.threads.length = progs.length
  chain : Chain l.length o
  size : g.vec.sizeWord = l.length + claimed o
  prog : ∀ (i : Nat) (t : Thread α), g.threads[i]? = some t → progs[i]? = some (t.calls.map (·.1) ++ t.todo)
  own : ∀ (i : Nat) (t : Thread α), g.threads[i]? = some t → (o.filter (·.1 = i)).map (·.2) = t.calls
  ids : ∀ x ∈ o, x.1 < progs.length
  room : claimed o + (g.threads.map fun t => (t.todo.map ACall.count).sum).sum = totalCount progs
  old : ∀ i, i < l.length → g.vec.mem i = l[i]?
  doneOk : ∀ (i : Nat) (t : Thread α), g.threads[i]? = some t → ∀ c idx, (c, idx) ∈ t.done → CellsOk s0.dflt l g.vec.mem c idx c.writes
  cur : ∀ (i : Nat) (t : Thread α), g.threads[i]? = some t → ∀ c idx k, t.phase = .writing c idx k →
    k ≤ c.writes ∧ CellsOk s0.dflt l g.vec.mem c idx k
  raw : s0.trivialDtor = false → ∀ i, l.length + claimed o ≤ i → i < s0.cap → g.vec.mem i = none
  out : ∀ i, s0.cap ≤ i → g.vec.mem i = f i

theorem getElem?_set_iff {β : Type} {L : List β} {i j : Nat} {t t' u : β} (hi : L[i]? = some t)
    (hj : (L.set i t')[j]? = some u) : (j = i ∧ u = t') ∨ (j ≠ i ∧ L[j]? = some u) := by
  rw [List.getElem?_set] at hj
  have hlt : i < L.length := (List.getElem?_eq_some_iff.1 hi).1
  by_cases h : i = j
  · subst h
    rw [if_pos rfl, if_pos hlt] at hj
    exact Or.inl ⟨rfl, (Option.some.inj hj).symm⟩
  · rw [if_neg h] at hj
    exact Or.inr ⟨fun e => h e.symm, hj⟩

theorem sum_set (F : Thread α → Nat) {L : List (Thread α)} {i : Nat} {t t' : Thread α} (hi : L[i]? = some t) :
    ((L.set i t').map F).sum + F t = (L.map F).sum + F t' := by
  induction L generalizing i with
  | nil => simp at hi
  | cons a L ih =>
    cases i with
    | zero =>
      simp only [List.getElem?_cons_zero, Option.some.injEq] at hi
      subst hi
      simp only [List.set_cons_zero, List.map_cons, List.sum_cons]
      omega
    | succ i =>
      have := ih (i := i) (by simpa using hi)
      simp only [List.set_cons_succ, List.map_cons, List.sum_cons]
      omega

/-- Two claimed calls (of the same thread, the first before the second, or of different threads) have disjoint
ranges. -/
theorem CInv.apart {s0 : DV α} {l f progs g o} (h : CInv s0 l f progs g o) {i j : Nat} {t u : Thread α}
    (hi : g.threads[i]? = some t) (hj : g.threads[j]? = some u) (hij : i ≠ j) {x y : ACall α × Nat}
    (hx : x ∈ t.calls) (hy : y ∈ u.calls) : x.2 + x.1.count ≤ y.2 ∨ y.2 + y.1.count ≤ x.2 := by
  have hx' : (i, x) ∈ o := by
    rw [← h.own i t hi, List.mem_map] at hx
    obtain ⟨z, hz, rfl⟩ := hx
    rw [List.mem_filter] at hz
    have : z.1 = i := by simpa using hz.2
    rw [← this]; exact hz.1
  have hy' : (j, y) ∈ o := by
    rw [← h.own j u hj, List.mem_map] at hy
    obtain ⟨z, hz, rfl⟩ := hy
    rw [List.mem_filter] at hz
    have : z.1 = j := by simpa using hz.2
    rw [← this]; exact hz.1
  have hp := h.chain.pairwise
  have hp' : o.Pairwise fun a b => a ≠ b → (a.2.2 + a.2.1.count ≤ b.2.2 ∨ b.2.2 + b.2.1.count ≤ a.2.2) :=
    hp.imp fun hab _ => Or.inl hab
  have := List.Pairwise.forall_of_forall_of_flip (R := fun a b : Claim α => a ≠ b →
      (a.2.2 + a.2.1.count ≤ b.2.2 ∨ b.2.2 + b.2.1.count ≤ a.2.2))
    (fun a _ hne => absurd rfl hne) hp' (hp.imp fun hab _ => Or.inr hab) hx' hy'
  exact this (fun e => hij (congrArg Prod.fst e))

theorem CInv.ordered {s0 : DV α} {l f progs g o} (h : CInv s0 l f progs g o) {i : Nat} {t : Thread α}
    (hi : g.threads[i]? = some t) : t.calls.Pairwise fun x y => x.2 + x.1.count ≤ y.2 := by
  rw [← h.own i t hi]
  exact List.pairwise_map.2 (h.chain.pairwise.sublist List.filter_sublist)

theorem CInv.bounds {s0 : DV α} {l f progs g o} (h : CInv s0 l f progs g o) {i : Nat} {t : Thread α}
    (hi : g.threads[i]? = some t) {x : ACall α × Nat} (hx : x ∈ t.calls) :
    l.length ≤ x.2 ∧ x.2 + x.1.count ≤ l.length + claimed o := by
  rw [← h.own i t hi, List.mem_map] at hx
  obtain ⟨z, hz, rfl⟩ := hx
  exact h.chain.bounds (List.mem_filter.1 hz).1

theorem CInv.start {s : DV α} {l f} (h : s.Holds l f) (progs : List (List (ACall α))) :
    CInv s l f progs (Conc.start s progs) [] := by
  have hget : ∀ (i : Nat) (t : Thread α), (Conc.start s progs).threads[i]? = some t →
      ∃ p, progs[i]? = some p ∧ t = ⟨p, .idle, []⟩ := by
    intro i t ht
    simp only [Conc.start, List.getElem?_map, Option.map_eq_some_iff] at ht
    obtain ⟨p, h1, h2⟩ := ht
    exact ⟨p, h1, h2.symm⟩
  refine ⟨rfl, ⟨rfl, rfl, rfl, rfl, rfl, rfl⟩, by simp [Conc.start], trivial, ?_, ?_, ?_, by simp, ?_, h.elems,
    ?_, ?_, ?_, h.outside⟩
  · simpa [claimed, Conc.start] using h.size
  · intro i t ht
    obtain ⟨p, h1, rfl⟩ := hget i t ht
    simpa [Thread.calls] using h1
  · intro i t ht
    obtain ⟨p, h1, rfl⟩ := hget i t ht
    simp [Thread.calls]
  · simp only [claimed, List.map_nil, List.sum_nil, Nat.zero_add, Conc.start, List.map_map, totalCount]
    rfl
  · intro i t ht c idx hc
    obtain ⟨p, h1, rfl⟩ := hget i t ht
    cases hc
  · intro i t ht c idx k hc
    obtain ⟨p, h1, rfl⟩ := hget i t ht
    cases hc
  · intro ht i hi hc
    exact h.raw ht i (by simpa [claimed] using hi) hc

theorem ACall.arg_value {c : ACall α} {dflt : α} {l : List α} {triv : Bool} (hv : c.Valid triv l)
    (hw : 0 < c.writes) : ∃ v, (c.arg dflt).value l = some v ∧ c.value dflt l = some v := by
  cases c with
  | push a | emplace a | bulkValue n a =>
    obtain ⟨v, h⟩ := Option.isSome_iff_exists.1 hv
    exact ⟨v, h, h⟩
  | bulk n => exact ⟨dflt, rfl, rfl⟩
  | bulkImplicit n => exact absurd hw (by simp [ACall.writes])

/-- A step that changes only cells of one range keeps what is known of other ranges. -/
theorem CellsOk.frame {dflt : α} {l : List α} {m m' : Nat → Option α} {c : ACall α} {idx k : Nat}
    (h : CellsOk dflt l m c idx k) (hm : ∀ j, j < k + (c.count - c.writes) → m' (idx + j) = m (idx + j)) :
    CellsOk dflt l m' c idx k := by
  intro j hj
  rw [hm j hj]
  exact h j hj

theorem CInv.step {s0 : DV α} {l f progs g o} (hs : s0.Holds l f)
    (hfit : l.length + totalCount progs ≤ s0.cap)
    (hargs : ∀ p ∈ progs, ∀ c ∈ p, c.Valid s0.trivialDtor l) (h : CInv s0 l f progs g o) (i : Nat) :
    ∃ o', o <+: o' ∧ CInv s0 l f progs (g.step i) o' := by
  have hw := hs.word
  rw [Conc.step, h.ok]
  simp only [Bool.false_eq_true, if_false]
  cases hti : g.threads[i]? with
  | none => exact ⟨o, List.prefix_rfl, h⟩
  | some t =>
    simp only
    obtain ⟨k1, k2, k3, k4, k5, k6⟩ := h.kind
    have hprog := h.prog i t hti
    have hilt : i < progs.length := (List.getElem?_eq_some_iff.1 hprog).1
    have hvalid : ∀ c ∈ t.calls.map (·.1) ++ t.todo, c.Valid s0.trivialDtor l :=
      hargs _ (List.mem_of_getElem? hprog)
    cases hph : t.phase with
    | idle =>
      cases htd : t.todo with
      | nil =>
        simp only [Conc.stepThread, hph, htd]
        have : g.threads.set i t = g.threads := by
          apply List.ext_getElem?
          intro j
          rw [List.getElem?_set]
          by_cases hij : i = j
          · subst hij
            rw [if_pos rfl, if_pos (List.getElem?_eq_some_iff.1 hti).1, hti]
          · rw [if_neg hij]
        rw [this]
        have hg : ({ vec := g.vec, threads := g.threads, failed := false } : Conc α) = g := by
          have := h.ok
          cases g
          simp_all
        exact ⟨o, List.prefix_rfl, hg ▸ h⟩
      | cons c cs =>
        have hres : g.vec.hasSize = true := k6.trans hs.resizable
        have hsum := sum_set (fun t : Thread α => (t.todo.map ACall.count).sum) (t' :=
          { t with todo := cs, phase := .claimed c g.vec.sizeWord }) hti
        simp only [htd, List.map_cons, List.sum_cons] at hsum
        have hroom := h.room
        have hcl : claimed (o ++ [(i, c, g.vec.sizeWord)]) = claimed o + c.count := claimed_append _ _
        have hle : claimed o + c.count ≤ totalCount progs := by
          have : c.count + (cs.map ACall.count).sum ≤ (g.threads.map fun t => (t.todo.map ACall.count).sum).sum := by
            have h1 := sum_set (fun t : Thread α => (t.todo.map ACall.count).sum) (t' :=
              { t with todo := [], phase := .claimed c g.vec.sizeWord }) hti
            simp only [htd, List.map_cons, List.sum_cons, List.map_nil, List.sum_nil] at h1
            omega
          omega
        refine ⟨o ++ [(i, c, g.vec.sizeWord)], List.prefix_append .., ?_⟩
        simp only [Conc.stepThread, hph, htd, hres, DV.fetchAdd, Bool.not_true, Bool.false_eq_true, if_false]
        refine ⟨rfl, ⟨k1, k2, k3, k4, k5, hs.resizable.symm⟩, ?_, ?_, ?_, ?_, ?_, ?_, ?_, h.old, ?_, ?_, ?_, h.out⟩
        · simpa using h.len
        · exact h.chain.append h.size
        · rw [hcl]
          show (g.vec.sizeWord + c.count) % 2 ^ 32 = _
          rw [h.size, Nat.mod_eq_of_lt (by omega)]
          omega
        · intro j u hu
          rcases getElem?_set_iff hti hu with ⟨rfl, rfl⟩ | ⟨_, hu⟩
          · rw [hprog]
            simp [Thread.calls, hph, htd]
          · exact h.prog j u hu
        · intro j u hu
          rw [List.filter_append, List.map_append]
          rcases getElem?_set_iff hti hu with ⟨rfl, rfl⟩ | ⟨hne, hu⟩
          · rw [h.own j t hti]
            simp [Thread.calls, hph]
          · rw [h.own j u hu, List.filter_cons_of_neg (by simpa using fun e => hne e.symm)]
            simp
        · intro x hx
          rcases List.mem_append.1 hx with hx | hx
          · exact h.ids x hx
          · rw [List.mem_singleton.1 hx]; exact hilt
        · rw [hcl]
          show _ + ((g.threads.set i { t with todo := cs, phase := .claimed c g.vec.sizeWord }).map _).sum = _
          omega
        · intro j u hu
          rcases getElem?_set_iff hti hu with ⟨rfl, rfl⟩ | ⟨_, hu⟩
          · exact h.doneOk j t hti
          · exact h.doneOk j u hu
        · intro j u hu
          rcases getElem?_set_iff hti hu with ⟨rfl, rfl⟩ | ⟨_, hu⟩
          · intro c' idx k hp
            cases hp
          · exact h.cur j u hu
        · intro ht j hj hc
          rw [hcl] at hj
          exact h.raw ht j (by omega) hc
    | claimed c idx =>
      have hmem : (c, idx) ∈ t.calls := by simp [Thread.calls, hph]
      have hb := h.bounds hti hmem
      simp only at hb
      have hcount : idx + c.count ≤ s0.cap := by
        have := h.room
        omega
      have hcheck : ∀ n, idx + n ≤ s0.cap → (idx + n) % 2 ^ 32 ≤ g.vec.cap := by
        intro n hn
        rw [Nat.mod_eq_of_lt (by omega)]
        omega
      have hchk : c.check g.vec.cap idx = true := by
        cases c with
        | push a | emplace a =>
          simp only [ACall.check, decide_eq_true_eq]
          simp only [ACall.count] at hcount
          omega
        | bulk n | bulkValue n a | bulkImplicit n =>
          simp only [ACall.check, decide_eq_true_eq]
          exact hcheck n hcount
      have hval : c.Valid s0.trivialDtor l := hvalid c (by
        refine List.mem_append_left _ (List.mem_map.2 ⟨(c, idx), hmem, rfl⟩))
      refine ⟨o, List.prefix_rfl, ?_⟩
      simp only [Conc.stepThread, hph, hchk, Bool.not_true, Bool.and_false, Bool.false_eq_true, if_false]
      -- what the implicit creation does
      have hkind : s0.SameKind (c.implicit g.vec idx) := by
        cases c <;> exact ⟨k1, k2, k3, k4, k5, k6⟩
      have hsz : (c.implicit g.vec idx).sizeWord = g.vec.sizeWord := by cases c <;> rfl
      have hout : ∀ j, (j < idx ∨ idx + c.count ≤ j) → (c.implicit g.vec idx).mem j = g.vec.mem j := by
        intro j hj
        cases c with
        | bulkImplicit n =>
          show (if idx ≤ j ∧ j < idx + n ∧ j < g.vec.cap then _ else g.vec.mem j) = _
          simp only [ACall.count] at hj
          rw [if_neg (by omega)]
        | _ => rfl
      have hin : CellsOk s0.dflt l (c.implicit g.vec idx).mem c idx 0 := by
        intro j hj
        cases c with
        | bulkImplicit n =>
          simp only [ACall.count, ACall.writes, Nat.zero_add, Nat.sub_zero] at hj hcount
          refine ⟨_, if_pos (by rw [k5]; omega), ?_⟩
          intro w hw'
          simp [ACall.value] at hw'
        | _ => simp [ACall.writes] at hj
      refine ⟨rfl, hkind, ?_, h.chain, by rw [hsz]; exact h.size, ?_, ?_, h.ids, ?_, ?_, ?_, ?_, ?_, ?_⟩
      · simpa using h.len
      · intro j u hu
        rcases getElem?_set_iff hti hu with ⟨rfl, rfl⟩ | ⟨_, hu⟩
        · rw [hprog]
          simp [Thread.calls, hph]
        · exact h.prog j u hu
      · intro j u hu
        rcases getElem?_set_iff hti hu with ⟨rfl, rfl⟩ | ⟨_, hu⟩
        · rw [h.own j t hti]
          simp [Thread.calls, hph]
        · exact h.own j u hu
      · have hsum := sum_set (fun t : Thread α => (t.todo.map ACall.count).sum) (t' :=
          { t with phase := .writing c idx 0 }) hti
        simp only at hsum
        have := h.room
        show claimed o + ((g.threads.set i { t with phase := .writing c idx 0 }).map _).sum = _
        omega
      · intro j hj
        rw [hout j (by omega)]
        exact h.old j hj
      · intro j u hu c' idx' hc'
        rcases getElem?_set_iff hti hu with ⟨rfl, rfl⟩ | ⟨hne, hu⟩
        · have hc'' : (c', idx') ∈ t.done := hc'
          refine (h.doneOk j t hti c' idx' hc'').frame fun n hn => hout _ ?_
          have ho := h.ordered hti
          simp only [Thread.calls, hph] at ho
          have := (List.pairwise_append.1 ho).2.2 _ hc'' (c, idx) (by simp)
          simp only at this
          have := c'.writes_le
          omega
        · refine (h.doneOk j u hu c' idx' hc').frame fun n hn => hout _ ?_
          have := h.apart hti hu (fun e => hne e.symm) hmem (y := (c', idx')) (by simp [Thread.calls, hc'])
          simp only at this
          have := c'.writes_le
          omega
      · intro j u hu c' idx' k hp
        rcases getElem?_set_iff hti hu with ⟨rfl, rfl⟩ | ⟨hne, hu⟩
        · simp only [Phase.writing.injEq] at hp
          obtain ⟨rfl, rfl, rfl⟩ := hp
          exact ⟨Nat.zero_le _, hin⟩
        · obtain ⟨hk, hok⟩ := h.cur j u hu c' idx' k hp
          refine ⟨hk, hok.frame fun n hn => hout _ ?_⟩
          have := h.apart hti hu (fun e => hne e.symm) hmem (y := (c', idx')) (by simp [Thread.calls, hp])
          simp only at this
          have := c'.writes_le
          omega
      · intro ht j hj hc
        rw [hout j (by omega)]
        exact h.raw ht j hj hc
      · intro j hj
        rw [hout j (by omega)]
        exact h.out j hj
    | writing c idx k =>
      have hmem : (c, idx) ∈ t.calls := by simp [Thread.calls, hph]
      have hb := h.bounds hti hmem
      simp only at hb
      have hcount : idx + c.count ≤ s0.cap := by
        have := h.room
        omega
      have hval : c.Valid s0.trivialDtor l := hvalid c (by
        refine List.mem_append_left _ (List.mem_map.2 ⟨(c, idx), hmem, rfl⟩))
      obtain ⟨hk, hok⟩ := h.cur i t hti c idx k hph
      have hwl := c.writes_le
      refine ⟨o, List.prefix_rfl, ?_⟩
      by_cases hlt : k < c.writes
      · obtain ⟨v, hv, hv'⟩ := ACall.arg_value (dflt := g.vec.dflt) hval (by omega)
        have hread : g.vec.read (c.arg g.vec.dflt) = some v := by
          cases ha : c.arg g.vec.dflt with
          | val w => rw [ha] at hv; exact hv
          | elem n =>
            rw [ha] at hv
            have hn : n < l.length := (List.getElem?_eq_some_iff.1 hv).1
            show g.vec.mem n = some v
            rw [h.old n hn]
            exact hv
        have hcon := DV.construct_ok (s := g.vec) (pos := idx + k) (a := c.arg g.vec.dflt) (by omega) hread
        simp only [Conc.stepThread, hph, hlt, if_true]
        rw [Nat.mod_eq_of_lt (by omega), hcon]
        have hput : ∀ j, j ≠ idx + k → (g.vec.put (idx + k) (some v)).mem j = g.vec.mem j :=
          fun j hj => if_neg hj
        refine ⟨rfl, ⟨k1, k2, k3, k4, k5, k6⟩, ?_, h.chain, h.size, ?_, ?_, h.ids, ?_, ?_, ?_, ?_, ?_, ?_⟩
        · simpa using h.len
        · intro j u hu
          rcases getElem?_set_iff hti hu with ⟨rfl, rfl⟩ | ⟨_, hu⟩
          · rw [hprog]
            simp [Thread.calls, hph]
          · exact h.prog j u hu
        · intro j u hu
          rcases getElem?_set_iff hti hu with ⟨rfl, rfl⟩ | ⟨_, hu⟩
          · rw [h.own j t hti]
            simp [Thread.calls, hph]
          · exact h.own j u hu
        · have hsum := sum_set (fun t : Thread α => (t.todo.map ACall.count).sum) (t' :=
            { t with phase := .writing c idx (k + 1) }) hti
          simp only at hsum
          have := h.room
          show claimed o + ((g.threads.set i { t with phase := .writing c idx (k + 1) }).map _).sum = _
          omega
        · intro j hj
          show (g.vec.put (idx + k) (some v)).mem j = _
          rw [hput j (by omega)]
          exact h.old j hj
        · intro j u hu c' idx' hc'
          rcases getElem?_set_iff hti hu with ⟨rfl, rfl⟩ | ⟨hne, hu⟩
          · have hc'' : (c', idx') ∈ t.done := hc'
            refine (h.doneOk j t hti c' idx' hc'').frame fun n hn => hput _ ?_
            have ho := h.ordered hti
            simp only [Thread.calls, hph] at ho
            have := (List.pairwise_append.1 ho).2.2 _ hc'' (c, idx) (by simp)
            simp only at this
            have := c'.writes_le
            omega
          · refine (h.doneOk j u hu c' idx' hc').frame fun n hn => hput _ ?_
            have := h.apart hti hu (fun e => hne e.symm) hmem (y := (c', idx')) (by simp [Thread.calls, hc'])
            simp only at this
            have := c'.writes_le
            omega
        · intro j u hu c' idx' k' hp
          rcases getElem?_set_iff hti hu with ⟨rfl, rfl⟩ | ⟨hne, hu⟩
          · simp only [Phase.writing.injEq] at hp
            obtain ⟨rfl, rfl, rfl⟩ := hp
            refine ⟨hlt, ?_⟩
            have hcw : c.count - c.writes = 0 := by
              cases c with
              | bulkImplicit n => simp [ACall.writes] at hlt
              | _ => simp [ACall.writes]
            intro n hn
            rw [hcw] at hn
            show GoodCell s0.dflt l c (if idx + n = idx + k then some v else g.vec.mem (idx + n))
            by_cases hnk : n = k
            · rw [if_pos (by omega)]
              refine ⟨v, rfl, ?_⟩
              intro w hw'
              rw [← k3, hv'] at hw'
              exact Option.some.inj hw'
            · rw [if_neg (by omega)]
              exact hok n (by omega)
          · obtain ⟨hk', hok'⟩ := h.cur j u hu c' idx' k' hp
            refine ⟨hk', hok'.frame fun n hn => hput _ ?_⟩
            have := h.apart hti hu (fun e => hne e.symm) hmem (y := (c', idx')) (by simp [Thread.calls, hp])
            simp only at this
            have := c'.writes_le
            omega
        · intro ht j hj hc
          show (g.vec.put (idx + k) (some v)).mem j = _
          rw [hput j (by omega)]
          exact h.raw ht j hj hc
        · intro j hj
          show (g.vec.put (idx + k) (some v)).mem j = _
          rw [hput j (by omega)]
          exact h.out j hj
      · have hkw : k = c.writes := by omega
        simp only [Conc.stepThread, hph, hlt, if_false]
        refine ⟨rfl, ⟨k1, k2, k3, k4, k5, k6⟩, ?_, h.chain, h.size, ?_, ?_, h.ids, ?_, h.old, ?_, ?_, h.raw, h.out⟩
        · simpa using h.len
        · intro j u hu
          rcases getElem?_set_iff hti hu with ⟨rfl, rfl⟩ | ⟨_, hu⟩
          · rw [hprog]
            simp [Thread.calls, hph]
          · exact h.prog j u hu
        · intro j u hu
          rcases getElem?_set_iff hti hu with ⟨rfl, rfl⟩ | ⟨_, hu⟩
          · rw [h.own j t hti]
            simp [Thread.calls, hph]
          · exact h.own j u hu
        · have hsum := sum_set (fun t : Thread α => (t.todo.map ACall.count).sum) (t' :=
            { t with phase := .idle, done := t.done ++ [(c, idx)] }) hti
          simp only at hsum
          have := h.room
          show claimed o + ((g.threads.set i { t with phase := .idle, done := t.done ++ [(c, idx)] }).map _).sum = _
          omega
        · intro j u hu c' idx' hc'
          rcases getElem?_set_iff hti hu with ⟨rfl, rfl⟩ | ⟨hne, hu⟩
          · rcases List.mem_append.1 hc' with hc' | hc'
            · exact h.doneOk j t hti c' idx' hc'
            · simp only [List.mem_singleton, Prod.mk.injEq] at hc'
              obtain ⟨rfl, rfl⟩ := hc'
              rw [← hkw]
              exact hok
          · exact h.doneOk j u hu c' idx' hc'
        · intro j u hu c' idx' k' hp
          rcases getElem?_set_iff hti hu with ⟨rfl, rfl⟩ | ⟨hne, hu⟩
          · cases hp
          · exact h.cur j u hu c' idx' k' hp

theorem CInv.run {s0 : DV α} {l f progs} (hs : s0.Holds l f)
    (hfit : l.length + totalCount progs ≤ s0.cap)
    (hargs : ∀ p ∈ progs, ∀ c ∈ p, c.Valid s0.trivialDtor l) (sched : List Nat) :
    ∀ {g o}, CInv s0 l f progs g o → ∃ o', CInv s0 l f progs (g.run sched) o' := by
  induction sched with
  | nil => intro g o h; exact ⟨o, h⟩
  | cons i sched ih =>
    intro g o h
    obtain ⟨o', -, h'⟩ := h.step hs hfit hargs i
    exact ih h'

/-- A value of an element of the base list is still its value behind additions. -/
theorem Arg.value_append {l l' : List α} {a : Arg α} {v : α} (h : a.value l = some v) :
    a.value (l ++ l') = some v := by
  cases a with
  | val w => exact h
  | elem k =>
    have hk := (List.getElem?_eq_some_iff.1 h).1
    show (l ++ l')[k]? = some v
    rw [List.getElem?_append_left hk]
    exact h

theorem eq_replicate_of_get {m : List α} {n : Nat} {v : α} (hn : m.length = n)
    (h : ∀ j (hj : j < m.length), m[j] = v) : m = List.replicate n v := by
  apply List.ext_getElem (by simpa using hn)
  intro j h1 h2
  rw [h j h1, List.getElem_replicate]

/-- The claims, in order, are a sequential run. -/
theorem Chain.vecRun {dflt : α} {cap : Nat} {l : List α} {triv : Bool} {mem : Nat → Option α} {o : List (Claim α)} :
    ∀ {ext : List α}, Chain (l ++ ext).length o →
    (∀ x ∈ o, x.2.1.Valid triv l) →
    (∀ x ∈ o, ∀ j, j < x.2.1.count → GoodCell dflt l x.2.1 (mem (x.2.2 + j))) →
    (∀ i, i < (l ++ ext).length → mem i = (l ++ ext)[i]?) →
    ∃ ext', VecRun dflt cap (l ++ ext) (o.map (·.2.1.toOp)) (o.map fun x => .ok (.num x.2.2)) (l ++ ext') ∧
      (l ++ ext').length = (l ++ ext).length + claimed o ∧
      ∀ i, i < (l ++ ext').length → mem i = (l ++ ext')[i]? := by
  induction o with
  | nil => intro ext _ _ _ hm; exact ⟨ext, .nil _, by simp [claimed], hm⟩
  | cons x o ih =>
    intro ext hch hval hcell hm
    obtain ⟨i, c, idx⟩ := x
    obtain ⟨hidx, hch⟩ := hch
    simp only at hidx hch
    -- the new elements
    have hc0 := hcell (i, c, idx) (List.mem_cons_self ..)
    simp only at hc0
    obtain ⟨new, hnl, hnew⟩ : ∃ new : List α, new.length = c.count ∧
        ∀ j (hj : j < new.length), mem (idx + j) = some new[j] := by
      refine ⟨(List.range c.count).map fun j => (mem (idx + j)).getD dflt, by simp, ?_⟩
      intro j hj
      obtain ⟨v, hv, -⟩ := hc0 j (by simpa using hj)
      simp [hv]
    have hnewv : ∀ v, c.value dflt l = some v → ∀ j (hj : j < new.length), new[j] = v := by
      intro v hv j hj
      obtain ⟨w, hw, hw'⟩ := hc0 j (by omega)
      have := hnew j hj
      rw [hw] at this
      rw [← hw' v hv]
      exact (Option.some.inj this).symm
    have hstep : VecStep dflt cap (l ++ ext) c.toOp (.num idx) (l ++ ext ++ new) := by
      have hv0 := hval (i, c, idx) (List.mem_cons_self ..)
      rw [hidx]
      cases c with
      | push a =>
        obtain ⟨v, hv⟩ := Option.isSome_iff_exists.1 hv0
        have := eq_replicate_of_get hnl (hnewv v hv)
        rw [this]
        exact .push (Arg.value_append hv)
      | emplace a =>
        obtain ⟨v, hv⟩ := Option.isSome_iff_exists.1 hv0
        have := eq_replicate_of_get hnl (hnewv v hv)
        rw [this]
        exact .emplace (Arg.value_append hv)
      | bulk n =>
        have := eq_replicate_of_get hnl (hnewv dflt rfl)
        rw [this]
        exact .bulk n
      | bulkValue n a =>
        obtain ⟨v, hv⟩ := Option.isSome_iff_exists.1 hv0
        have := eq_replicate_of_get hnl (hnewv v hv)
        rw [this]
        exact .bulkValue n (Arg.value_append hv)
      | bulkImplicit n => exact .bulkImplicit n new hnl
    rw [List.append_assoc] at hstep
    have hlen : (l ++ (ext ++ new)).length = (l ++ ext).length + c.count := by
      simp only [List.length_append, hnl]; omega
    obtain ⟨ext', h1, h2, h3⟩ := ih (ext := ext ++ new) (by rw [hlen]; exact hch)
      (fun x hx => hval x (List.mem_cons_of_mem _ hx)) (fun x hx => hcell x (List.mem_cons_of_mem _ hx)) (by
        intro n hn
        rw [hlen] at hn
        by_cases hlt : n < (l ++ ext).length
        · rw [hm n hlt, ← List.append_assoc, List.getElem?_append_left hlt]
        · have := hnew (n - (l ++ ext).length) (by omega)
          rw [hidx, show (l ++ ext).length + (n - (l ++ ext).length) = n by omega] at this
          rw [this, ← List.append_assoc, List.getElem?_append_right (by omega), List.getElem?_eq_getElem])
    refine ⟨ext', .cons hstep h1, ?_, h3⟩
    rw [h2, hlen]
    simp only [claimed, List.map_cons, List.sum_cons]
    omega

end Vecmem
