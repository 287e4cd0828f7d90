import Verif.Spec.HostData
import Verif.Lemmas.BufferMovesSteps
import Verif.Lemmas.Jagged
import Verif.Props.C43_EdmHost

/-!
# Lemmas: data objects of host containers
-/

namespace Vecmem

variable {α σ : Type} {R : Limits} {G : Nat} {ups : Nat → MR σ} {u0 : σ}

/-! ## Memory that is not written -/

/-- The views in these blocks are the same. -/
def KeepsViews (T : List (Nat × Blk)) (m m' : JMem α) : Prop :=
  ∀ e ∈ T, ∀ a, e.2.addr ≤ a → a < e.2.addr + e.2.size → m'.views a = m.views a

theorem KeepsViews.refl (T : List (Nat × Blk)) (m : JMem α) : KeepsViews T m m := fun _ _ _ _ _ => rfl

theorem KeepsViews.trans {T : List (Nat × Blk)} {m m' m'' : JMem α} (h : KeepsViews T m m') (h' : KeepsViews T m' m'') :
    KeepsViews T m m'' := fun e he a h1 h2 => (h' e he a h1 h2).trans (h e he a h1 h2)

theorem KeepsViews.mono {T T' : List (Nat × Blk)} {m m' : JMem α} (h : KeepsViews T m m') (hs : ∀ e ∈ T', e ∈ T) :
    KeepsViews T' m m' := fun e he => h e (hs e he)

theorem initViews_views (n : Nat) : ∀ (m : JMem α) (p i : Nat),
    (∀ a, (∀ q, q < n → a ≠ p + viewSize * (i + q)) → (initViews m p i n).views a = m.views a) ∧
    ∀ q, q < n → (initViews m p i n).views (p + viewSize * (i + q)) = some ⟨0, 0, 0⟩ := by
  induction n with
  | zero => exact fun m p i => ⟨fun _ _ => rfl, fun q hq => absurd hq (by omega)⟩
  | succ n ih =>
    intro m p i
    obtain ⟨h1, h2⟩ := ih (m.putView (p + viewSize * i) ⟨0, 0, 0⟩) p (i + 1)
    refine ⟨fun a ha => ?_, fun q hq => ?_⟩
    · rw [initViews, h1 a fun q hq => by have := ha (q + 1) (by omega); rwa [show i + (q + 1) = i + 1 + q by omega] at this]
      have := ha 0 (by omega)
      simp only [JMem.putView, Nat.add_zero] at this ⊢
      rw [if_neg this]
    · cases q with
      | zero =>
        rw [initViews, h1]
        · simp [JMem.putView]
        · intro q _
          have : 0 < viewSize := by decide
          have := Nat.mul_lt_mul_of_pos_left (show i + 0 < i + 1 + q by omega) this
          omega
      | succ q => rw [initViews, show i + (q + 1) = i + 1 + q by omega]; exact h2 q (by omega)

/-- Writing views to a new block. -/
theorem keeps_of_new {T : List (Nat × Blk)} {m m' : JMem α} {b : Blk} {n : Nat} (hb : b.size = n * viewSize)
    (hd : ∀ e ∈ T, b.Disjoint e.2) (hw : ∀ a, (∀ q, q < n → a ≠ b.addr + viewSize * q) → m'.views a = m.views a) :
    KeepsViews T m m' := by
  intro e he a h1 h2
  refine hw a fun q hq hc => ?_
  have hd := hd e he
  have h3 : viewSize * q + viewSize ≤ n * viewSize := by
    have := Nat.mul_le_mul_right viewSize (show q + 1 ≤ n by omega)
    rw [Nat.add_mul, Nat.one_mul, Nat.mul_comm q] at this
    exact this
  have h4 : 0 < viewSize := by decide
  unfold Blk.Disjoint at hd
  rw [hb] at hd
  omega

/-! ## Columns -/

/-- A column with its memory. -/
def ColOk (m : JMem α) (res : Nat) (e : DataRef × Owner) (c : ColDesc) : Prop :=
  e.1.Shows m c ∧ e.2.blocks = match e.1 with
    | .jagged j => if j.size = 0 then [] else [(res, ⟨j.ptr, j.size * viewSize, maxAlign⟩)]
    | _ => []

@[inherit_doc ColOk]
def ColsOk (m : JMem α) (res : Nat) : List (DataRef × Owner) → List ColDesc → Prop
  | [], [] => True
  | e :: es, c :: cs => ColOk m res e c ∧ ColsOk m res es cs
  | _, _ => False

theorem ColsOk.append {m : JMem α} {res : Nat} : ∀ {es : List (DataRef × Owner)} {cs : List ColDesc} {e : DataRef × Owner} {c : ColDesc},
    ColsOk m res es cs → ColOk m res e c → ColsOk m res (es ++ [e]) (cs ++ [c])
  | [], [], _, _, _, h => ⟨h, trivial⟩
  | _ :: _, _ :: _, _, _, h, h' => ⟨h.1, ColsOk.append h.2 h'⟩

theorem ColOk.keeps {m m' : JMem α} {res : Nat} {e : DataRef × Owner} {c : ColDesc} (h : ColOk m res e c)
    (hk : KeepsViews e.2.blocks m m') : ColOk m' res e c := by
  obtain ⟨r, o⟩ := e
  obtain ⟨h1, h2⟩ := h
  refine ⟨?_, h2⟩
  cases r <;> cases c <;> try exact h1
  rename_i j rows
  refine ⟨h1.1, fun i v hi => ?_⟩
  have hi' : i < rows.length := by
    rcases Nat.lt_or_ge i rows.length with h | h
    · exact h
    · rw [List.getElem?_eq_none h] at hi; cases hi
  rw [← h1.2 i v hi]
  simp only at h2 hk
  rw [if_neg (by rw [h1.1]; omega)] at h2
  refine hk _ (by rw [h2]; exact List.mem_singleton.2 rfl) _ (by simp) ?_
  show _ < j.ptr + j.size * viewSize
  rw [h1.1]
  have h4 : 0 < viewSize := by decide
  have := Nat.mul_lt_mul_of_pos_left hi' h4
  rw [Nat.mul_comm rows.length]
  omega

theorem ColsOk.keeps {m m' : JMem α} {res : Nat} : ∀ {es : List (DataRef × Owner)} {cs : List ColDesc}, ColsOk m res es cs →
    KeepsViews (es.flatMap fun e => e.2.blocks) m m' → ColsOk m' res es cs
  | [], [], _, _ => trivial
  | _ :: _, _ :: _, h, hk =>
    ⟨h.1.keeps (hk.mono fun e he => by rw [List.flatMap_cons]; exact List.mem_append_left _ he),
      ColsOk.keeps h.2 (hk.mono fun e he => by rw [List.flatMap_cons]; exact List.mem_append_right _ he)⟩

theorem ColsOk.shows {m : JMem α} {res : Nat} : ∀ {es : List (DataRef × Owner)} {cs : List ColDesc}, ColsOk m res es cs →
    es.length = cs.length ∧ ∀ (k : Nat) (r : DataRef) (o : Owner) (c : ColDesc), es[k]? = some (r, o) → cs[k]? = some c → r.Shows m c
  | [], [], _ => ⟨rfl, fun k r o c h => by simp at h⟩
  | e :: es, c :: cs, h => by
    obtain ⟨h1, h2⟩ := ColsOk.shows h.2
    refine ⟨by simp [h1], fun k r o d hk hd => ?_⟩
    cases k with
    | zero =>
      simp only [List.getElem?_cons_zero, Option.some.injEq] at hk hd
      subst hk hd
      exact h.1.1
    | succ k => simp only [List.getElem?_cons_succ] at hk hd; exact h2 k r o d hk hd

theorem ColsOk.bytes {m : JMem α} {res : Nat} : ∀ {es : List (DataRef × Owner)} {cs : List ColDesc} (n : Nat), ColsOk m res es cs →
    (es.flatMap fun e => e.2.blocks).map (·.2.size) = (DataDesc.mk res n cs).bytes ∧ ∀ b ∈ es.flatMap fun e => e.2.blocks, b.1 = res
  | [], [], _, _ => ⟨rfl, by simp⟩
  | (r, o) :: es, c :: cs, n, h => by
    obtain ⟨h1, h2⟩ := ColsOk.bytes n h.2
    obtain ⟨h3, h4⟩ := h.1
    simp only [DataDesc.bytes, List.flatMap_cons, List.map_append, List.mem_append, List.filterMap_cons] at h1 ⊢
    simp only at h4
    rw [h4, h1]
    cases r <;> cases c <;> try cases h3
    · exact ⟨rfl, by simpa using h2⟩
    · exact ⟨rfl, by simpa using h2⟩
    · rename_i j rows h5 h6
      by_cases h0 : rows = []
      · subst h0
        have hz : j.size = 0 := h5
        simp only [hz, if_true]
        exact ⟨rfl, by simpa using h2⟩
      · have : j.size ≠ 0 := by rw [h5]; simpa using h0
        simp only [if_neg this, if_neg h0]
        refine ⟨by simp [h5], ?_⟩
        rintro b (hb | hb)
        · rw [List.mem_singleton.1 hb]
        · exact h2 b hb

/-! ## Making data objects -/

theorem jag_block {b : UniqueAlloc} {res n : Nat} (h0 : n = 0 → b = {}) (h1 : n ≠ 0 → b.ptr ≠ 0 ∧ b.size = n * viewSize) :
    (⟨b, res⟩ : Owner).blocks = if n = 0 then [] else [(res, ⟨b.ptr, n * viewSize, maxAlign⟩)] := by
  by_cases h : n = 0
  · rw [h0 h, if_pos h]; rfl
  · obtain ⟨h2, h3⟩ := h1 h
    simp [Owner.blocks, h2, h3, h]

theorem heldBy_block (b : UniqueAlloc) (res : Nat) : heldBy [(res, b)] = (⟨b, res⟩ : Owner).blocks := by
  rw [heldBy_cons]
  by_cases h : b.ptr = 0 <;> simp [Owner.blocks, h, heldBy, UniqueAlloc.blk]

/-- Allocating an array of views. -/
theorem array_ok (hl : FamLawful R G ups u0) {u : σ} {T : List (Nat × Blk)} (hu : FReach R ups u0 u T) (res : Nat) {n : Nat}
    (hq : IsReq R (n * viewSize) maxAlign) :
    (∃ b u', allocOuter (ups res) u n = (.ok b, u') ∧ FReach R ups u0 u' ((⟨b, res⟩ : Owner).blocks ++ T) ∧
      (⟨b, res⟩ : Owner).blocks = (if n = 0 then [] else [(res, ⟨b.ptr, n * viewSize, maxAlign⟩)]) ∧
      ∀ m m' : JMem α, (∀ a, (∀ q, q < n → a ≠ b.ptr + viewSize * q) → m'.views a = m.views a) → KeepsViews T m m') ∨
    ∃ u', allocOuter (ups res) u n = (.badAlloc, u') ∧ FReach R ups u0 u' T := by
  rcases allocOuter_ok hl hu res hq with ⟨b, u', h1, h2, h3, h4⟩ | ⟨u', h1, h2⟩
  · rw [heldBy_block] at h2
    have hb := jag_block (res := res) h3 (fun h => ⟨(h4 h).1, (h4 h).2.1⟩)
    refine .inl ⟨b, u', h1, h2, hb, fun m m' hw => ?_⟩
    by_cases h0 : n = 0
    · intro e _ a _ _
      exact hw a fun q hq => by omega
    · rw [hb, if_neg h0] at h2
      have hd := (hl.live h2).2
      rw [List.singleton_append, List.pairwise_cons] at hd
      exact keeps_of_new (b := ⟨b.ptr, n * viewSize, maxAlign⟩) rfl hd.1 hw
  · exact .inr ⟨u', h1, h2⟩

theorem perm_append_comm3 {β : Type} (a b c : List β) : (a ++ (b ++ c)).Perm (b ++ (a ++ c)) := by
  rw [← List.append_assoc, ← List.append_assoc]
  exact List.perm_append_comm.append_right c

theorem destroy_cols (hl : FamLawful R G ups u0) {u : σ} {T : List (Nat × Blk)} {os os' : List Owner} (hp : os'.Perm os)
    (hu : FReach R ups u0 u (os.flatMap Owner.blocks ++ T)) :
    ∃ u', Owner.destroyAll ups os' u = (.ok (), u') ∧ FReach R ups u0 u' T :=
  Owner.destroyAll_ok hl os' u (hu.perm ((hp.symm.flatMap_right _).append_right T))

theorem makeCols_ok (hl : FamLawful R G ups u0) (res : Nat) {n : Nat} {T : List (Nat × Blk)} :
    ∀ (ks : List ColKind) (done : List (DataRef × Owner)) (ds : List ColDesc) (u : σ) (m : JMem α),
    (.jagged ∈ ks → IsReq R (n * viewSize) maxAlign) → ColsOk m res done ds →
    FReach R ups u0 u (done.flatMap (fun e => e.2.blocks) ++ T) →
    (∃ cols u' m', makeCols ups res n ks done u m = (.ok cols, u', m') ∧ ColsOk m' res cols (ds ++ ks.map (ColKind.desc n)) ∧
      FReach R ups u0 u' (cols.flatMap (fun e => e.2.blocks) ++ T) ∧ KeepsViews T m m') ∨
    ∃ u' m', makeCols ups res n ks done u m = (.badAlloc, u', m') ∧ FReach R ups u0 u' T ∧ KeepsViews T m m' := by
  intro ks
  induction ks with
  | nil => exact fun done ds u m _ h hu => .inl ⟨done, u, m, rfl, by simpa using h, hu, .refl _ _⟩
  | cons k ks ih =>
    intro done ds u m hq h hu
    have hq' : .jagged ∈ ks → IsReq R (n * viewSize) maxAlign := fun hk => hq (List.mem_cons_of_mem _ hk)
    have other : ∀ (r : DataRef) (c : ColDesc), ColOk m res (r, {}) c →
        FReach R ups u0 u ((done ++ [(r, ({} : Owner))]).flatMap (fun e => e.2.blocks) ++ T) := by
      intro r c _
      rw [List.flatMap_append]
      simpa [Owner.blocks] using hu
    cases k with
    | scalar =>
      have h1 : ColOk m res (.scalar 0, {}) (.scalar 0) := ⟨rfl, rfl⟩
      have := ih (done ++ [(.scalar 0, {})]) (ds ++ [.scalar 0]) u m hq' (h.append h1) (other _ _ h1)
      rw [makeCols]
      simpa [ColKind.desc, List.append_assoc] using this
    | vector =>
      have h1 : ColOk m res (.vector ⟨0, 0, 0⟩, {}) (.vector ⟨0, 0, 0⟩) := ⟨rfl, rfl⟩
      have := ih (done ++ [(.vector ⟨0, 0, 0⟩, {})]) (ds ++ [.vector ⟨0, 0, 0⟩]) u m hq' (h.append h1) (other _ _ h1)
      rw [makeCols]
      simpa [ColKind.desc, List.append_assoc] using this
    | jagged =>
      rcases array_ok (α := α) hl hu res (hq List.mem_cons_self) with ⟨b, u', h1, h2, h3, h4⟩ | ⟨u', h1, h2⟩
      · have hv := initViews_views n m b.ptr 0
        simp only [Nat.zero_add] at hv
        have hk := h4 m (initViews m b.ptr 0 n) hv.1
        have h5 : ColOk (initViews m b.ptr 0 n) res (.jagged ⟨n, b.ptr⟩, ⟨b, res⟩) (.jagged (List.replicate n ⟨0, 0, 0⟩)) := by
          refine ⟨⟨by simp, fun i v hi => ?_⟩, h3⟩
          rw [List.getElem?_replicate] at hi
          split at hi
          · rename_i hi'
            cases hi
            exact hv.2 i hi'
          · cases hi
        have h6 : FReach R ups u0 u' ((done ++ [((.jagged ⟨n, b.ptr⟩ : DataRef), (⟨b, res⟩ : Owner))]).flatMap (fun e => e.2.blocks) ++ T) := by
          refine h2.perm ?_
          rw [List.flatMap_append, List.append_assoc]
          simp only [List.flatMap_cons, List.flatMap_nil, List.append_nil]
          exact perm_append_comm3 _ _ _
        have h7 := h.keeps (hk.mono fun e he => List.mem_append_left _ he)
        have hkT : KeepsViews T m (initViews m b.ptr 0 n) := hk.mono fun e he => List.mem_append_right _ he
        have := ih _ _ u' _ hq' (h7.append h5) h6
        simp only [makeCols, h1]
        rcases this with ⟨cols, u'', m', a1, a2, a3, a4⟩ | ⟨u'', m', a1, a2, a3⟩
        · exact .inl ⟨cols, u'', m', a1, by simpa [ColKind.desc, List.append_assoc] using a2, a3, hkT.trans a4⟩
        · exact .inr ⟨u'', m', a1, a2, hkT.trans a3⟩
      · obtain ⟨u'', d1, d2⟩ := destroy_cols hl (os := done.map (·.2)) (os' := (done.map (·.2)).reverse) (T := T) (List.reverse_perm _)
          (by simpa [List.flatMap_map] using h2)
        refine .inr ⟨u'', m, ?_, d2, .refl _ _⟩
        simp only [makeCols, h1, d1]
        rfl

theorem getJagged_ok (hl : FamLawful R G ups u0) {u : σ} {T : List (Nat × Blk)} (hu : FReach R ups u0 u T) (res : Nat)
    (m : JMem α) {rows : List HostVec} (hq : IsReq R (rows.length * viewSize) maxAlign) :
    (∃ b j u' m', getJagged (ups res) u m rows = (.ok (b, j), u', m') ∧ ColOk m' res (.jagged j, ⟨b, res⟩) (HostCol.jagged rows).desc ∧
      FReach R ups u0 u' ((⟨b, res⟩ : Owner).blocks ++ T) ∧ KeepsViews T m m') ∨
    ∃ u', getJagged (ups res) u m rows = (.badAlloc, u', m) ∧ FReach R ups u0 u' T := by
  rcases array_ok (α := α) hl hu res hq with ⟨b, u', h1, h2, h3, h4⟩ | ⟨u', h1, h2⟩
  · obtain ⟨-, -, f3, f4⟩ := fillViews_ok rows (initViews m b.ptr 0 rows.length) b.ptr 0
    have hv := initViews_views rows.length m b.ptr 0
    simp only [Nat.zero_add] at hv f3 f4
    refine .inl ⟨b, ⟨rows.length, b.ptr⟩, u', fillViews (initViews m b.ptr 0 rows.length) b.ptr 0 rows, ?_, ⟨⟨by simp, ?_⟩, h3⟩, h2, ?_⟩
    · simp only [getJagged, h1]
    · intro i v hi
      rw [List.getElem?_map] at hi
      cases e : rows[i]? with
      | none => rw [e] at hi; cases hi
      | some w => rw [e] at hi; cases hi; exact f4 i w e
    · exact h4 m _ fun a ha => (f3 a ha).trans (hv.1 a ha)
  · refine .inr ⟨u', ?_, h2⟩
    simp only [getJagged, h1]
    rfl

theorem fillCols_ok (hl : FamLawful R G ups u0) (res : Nat) {T : List (Nat × Blk)} :
    ∀ (cs : List (HostCol × DataRef × Owner)) (done : List (DataRef × Owner)) (ds : List ColDesc) (u : σ) (m : JMem α),
    (∀ c ∈ cs, ∀ rows, c.1 = .jagged rows → IsReq R (rows.length * viewSize) maxAlign) →
    (∀ c ∈ cs, c.1.kind ≠ .jagged → c.2.2.blocks = []) → ColsOk m res done ds →
    FReach R ups u0 u (done.flatMap (fun e => e.2.blocks) ++ (cs.flatMap (fun c => c.2.2.blocks) ++ T)) →
    (∃ cols u' m', fillCols ups res cs done u m = (.ok cols, u', m') ∧ ColsOk m' res cols (ds ++ cs.map fun c => c.1.desc) ∧
      FReach R ups u0 u' (cols.flatMap (fun e => e.2.blocks) ++ T) ∧ KeepsViews T m m') ∨
    ∃ u' m', fillCols ups res cs done u m = (.badAlloc, u', m') ∧ FReach R ups u0 u' T ∧ KeepsViews T m m' := by
  intro cs
  induction cs with
  | nil => exact fun done ds u m _ _ h hu => .inl ⟨done, u, m, rfl, by simpa using h, by simpa using hu, .refl _ _⟩
  | cons c cs ih =>
    obtain ⟨c, r, o⟩ := c
    intro done ds u m hq ho h hu
    have hq' : ∀ c ∈ cs, ∀ rows, c.1 = .jagged rows → IsReq R (rows.length * viewSize) maxAlign :=
      fun c hc => hq c (List.mem_cons_of_mem _ hc)
    have ho' : ∀ c ∈ cs, c.1.kind ≠ .jagged → c.2.2.blocks = [] := fun c hc => ho c (List.mem_cons_of_mem _ hc)
    rw [List.flatMap_cons] at hu
    simp only at hu
    have other : ∀ r' : DataRef, o.blocks = [] →
        FReach R ups u0 u ((done ++ [(r', o)]).flatMap (fun e => e.2.blocks) ++ (cs.flatMap (fun c => c.2.2.blocks) ++ T)) := by
      intro r' h0
      rw [List.flatMap_append]
      simpa [h0] using hu
    cases c with
    | scalar p =>
      have h0 : o.blocks = [] := ho _ List.mem_cons_self (by simp [HostCol.kind])
      have h1 : ColOk m res (.scalar p, o) (.scalar p) := ⟨rfl, h0⟩
      have := ih (done ++ [(.scalar p, o)]) (ds ++ [.scalar p]) u m hq' ho' (h.append h1) (other _ h0)
      rw [fillCols]
      simpa [HostCol.desc, List.append_assoc] using this
    | vector v =>
      have h0 : o.blocks = [] := ho _ List.mem_cons_self (by simp [HostCol.kind])
      have h1 : ColOk m res (.vector ⟨v.size % 2 ^ 32, 0, v.data⟩, o) (.vector ⟨v.size % 2 ^ 32, 0, v.data⟩) := ⟨rfl, h0⟩
      have := ih (done ++ [(.vector ⟨v.size % 2 ^ 32, 0, v.data⟩, o)]) (ds ++ [.vector ⟨v.size % 2 ^ 32, 0, v.data⟩]) u m hq' ho'
        (h.append h1) (other _ h0)
      rw [fillCols]
      simpa [HostCol.desc, List.append_assoc] using this
    | jagged rows =>
      rcases getJagged_ok hl hu res m (hq _ List.mem_cons_self rows rfl) with ⟨b, j, u', m', h1, h2, h3, h4⟩ | ⟨u', h1, h2⟩
      · have h5 : FReach R ups u0 u' ([o].flatMap Owner.blocks ++ ((⟨b, res⟩ : Owner).blocks ++ (done.flatMap (fun e => e.2.blocks) ++
            (cs.flatMap (fun c => c.2.2.blocks) ++ T)))) := by
          refine h3.perm ?_
          simp only [List.flatMap_cons, List.flatMap_nil, List.append_nil, List.append_assoc]
          exact ((perm_append_comm3 _ _ _).append_left _).trans (perm_append_comm3 _ _ _)
        obtain ⟨u1, d1, d2⟩ := Owner.destroyAll_ok hl [o] u' h5
        have d3 : o.mem.destroy (ups o.res) u' = (.ok (), u1) := by
          simp only [Owner.destroyAll] at d1
          cases e : o.mem.destroy (ups o.res) u' with
          | mk a b =>
            rw [e] at d1
            cases a <;> simp only [Prod.mk.injEq, reduceCtorEq, false_and] at d1
            rw [d1.2]
        have h6 : FReach R ups u0 u1 ((done ++ [((.jagged j : DataRef), (⟨b, res⟩ : Owner))]).flatMap (fun e => e.2.blocks) ++
            (cs.flatMap (fun c => c.2.2.blocks) ++ T)) := by
          refine d2.perm ?_
          rw [List.flatMap_append, List.append_assoc]
          simp only [List.flatMap_cons, List.flatMap_nil, List.append_nil]
          exact perm_append_comm3 _ _ _
        have hkT : KeepsViews T m m' := h4.mono fun e he =>
          List.mem_append_right _ (List.mem_append_right _ he)
        have := ih _ _ u1 m' hq' ho' ((h.keeps (h4.mono fun e he => List.mem_append_left _ he)).append h2) h6
        simp only [fillCols, h1, d3]
        rcases this with ⟨cols, u'', m'', a1, a2, a3, a4⟩ | ⟨u'', m'', a1, a2, a3⟩
        · exact .inl ⟨cols, u'', m'', a1, by simpa [List.append_assoc] using a2, a3, hkT.trans a4⟩
        · exact .inr ⟨u'', m'', a1, a2, hkT.trans a3⟩
      · obtain ⟨u'', d1, d2⟩ := destroy_cols hl (os := done.map (·.2) ++ o :: cs.map fun c => c.2.2) (T := T) (List.Perm.refl _)
          (by simpa [List.flatMap_map, List.flatMap_append, List.append_assoc] using h2)
        refine .inr ⟨u'', m, ?_, d2, .refl _ _⟩
        simp only [fillCols, h1, d1]
        rfl

theorem zip_cols {m : JMem α} {res n : Nat} : ∀ {cs : List HostCol} {es : List (DataRef × Owner)},
    ColsOk m res es ((cs.map (·.kind)).map (ColKind.desc n)) →
    (∀ c ∈ cs.zip es, c.1.kind ≠ .jagged → c.2.2.blocks = []) ∧ (∀ c ∈ cs.zip es, c.1 ∈ cs) ∧
    ((cs.zip es).flatMap fun c => c.2.2.blocks) = (es.flatMap fun e => e.2.blocks) ∧
    (cs.zip es).map (fun c => c.1.desc) = cs.map HostCol.desc
  | [], [], _ => by simp
  | c :: cs, (r, o) :: es, h => by
    obtain ⟨h1, h2, h3, h4⟩ := zip_cols h.2
    refine ⟨?_, ?_, ?_, ?_⟩
    · rw [List.zip_cons_cons]
      rintro e he hk
      rcases List.mem_cons.1 he with rfl | he
      · obtain ⟨h5, h6⟩ := h.1
        simp only at h6 h5 hk ⊢
        rw [h6]
        cases c <;> cases r <;> first | rfl | (cases h5; done) | exact absurd rfl hk
      · exact h1 e he hk
    · rw [List.zip_cons_cons]
      rintro e he
      rcases List.mem_cons.1 he with rfl | he
      · exact List.mem_cons_self
      · exact List.mem_cons_of_mem _ (h2 e he)
    · rw [List.zip_cons_cons, List.flatMap_cons, List.flatMap_cons, h3]
    · rw [List.zip_cons_cons, List.map_cons, List.map_cons, h4]

theorem hostSizes_filter (cols : List HostCol) : hostSizesOf cols = (cols.map (·.size)).filterMap id := by
  induction cols with
  | nil => rfl
  | cons c cols ih =>
    simp only [hostSizesOf] at ih
    cases c <;> simp [hostSizesOf, HostCol.size, ih]

theorem any_sizes (cols : List HostCol) : (cols.any fun c => c.size.isSome) = true ↔ hostSizesOf cols ≠ [] := by
  induction cols with
  | nil => simp [hostSizesOf]
  | cons c cols ih =>
    cases c with
    | scalar => exact ih
    | _ => exact ⟨fun _ => List.cons_ne_nil _ _, fun _ => rfl⟩

theorem jagged_size {cols : List HostCol} {rows : List HostVec} (h : .jagged rows ∈ cols) : rows.length ∈ hostSizesOf cols :=
  List.mem_filterMap.2 ⟨_, h, rfl⟩

theorem getHostData_ok (hl : FamLawful R G ups u0) (res junk : Nat) {T : List (Nat × Blk)} {u : σ} (m : JMem α) {cols : List HostCol}
    (hq : ∀ rows, .jagged rows ∈ cols → IsReq R (rows.length * viewSize) maxAlign) (hu : FReach R ups u0 u T) :
    ((∃ n ∈ hostSizesOf cols, ∃ n' ∈ hostSizesOf cols, n ≠ n') ∧ getHostData ups res junk cols u m = (.lengthError, u, m)) ∨
    (¬ (∃ n ∈ hostSizesOf cols, ∃ n' ∈ hostSizesOf cols, n ≠ n') ∧
      ((∃ v u' m', getHostData ups res junk cols u m = (.ok v, u', m') ∧
        v.capacity = (match hostSizesOf cols with | [] => junk | n :: _ => n % 2 ^ 32) ∧ ColsOk m' res v.cols (cols.map HostCol.desc) ∧
        FReach R ups u0 u' (v.owners.flatMap Owner.blocks ++ T) ∧ KeepsViews T m m') ∨
      ∃ u' m', getHostData ups res junk cols u m = (.badAlloc, u', m') ∧ FReach R ups u0 u' T ∧ KeepsViews T m m')) := by
  by_cases h0 : hostSizesOf cols = []
  · refine .inr ⟨by simp [h0], ?_⟩
    have h1 : (cols.any fun c => c.size.isSome) = false := by
      cases h : cols.any fun c => c.size.isSome
      · rfl
      · exact absurd h0 ((any_sizes cols).1 h)
    have h2 := fillCols_ok hl res (T := T) (cols.map fun c => (c, (.scalar 0 : DataRef), ({} : Owner))) [] [] u m
      (fun c hc rows hr => by
        obtain ⟨c', hc', rfl⟩ := List.mem_map.1 hc
        exact hq rows (by rw [← hr]; exact hc'))
      (fun c hc _ => by obtain ⟨c', _, rfl⟩ := List.mem_map.1 hc; rfl) trivial
      (by
        have : ((cols.map fun c => (c, (.scalar 0 : DataRef), ({} : Owner))).flatMap fun c => c.2.2.blocks) = [] := by
          simp [List.flatMap_map, Owner.blocks]
        rw [this]; exact hu)
    unfold getHostData
    rw [h1]
    simp only [Bool.false_eq_true, if_false]
    rcases h2 with ⟨cs, u', m', a1, a2, a3, a4⟩ | ⟨u', m', a1, a2, a3⟩
    · rw [a1]
      refine .inl ⟨_, u', m', rfl, by rw [h0], ?_, ?_, a4⟩
      · simpa [Function.comp_def] using a2
      · simpa [DataVar.owners, List.flatMap_map] using a3
    · rw [a1]
      exact .inr ⟨u', m', rfl, a2, a3⟩
  · have h1 := (any_sizes cols).2 h0
    have hs := Props.getHostSize_unknown (cols.map (·.size)) 0 (by rw [← hostSizes_filter]; exact h0)
    rw [← hostSizes_filter] at hs
    unfold getHostData
    rw [if_pos h1, hs]
    cases hc : hostSizesOf cols with
    | nil => exact absurd hc h0
    | cons n ns =>
      simp only
      by_cases hall : ∀ x ∈ ns, x = n
      · refine .inr ⟨?_, ?_⟩
        · rintro ⟨a, ha, b, hb, hab⟩
          have : ∀ x ∈ n :: ns, x = n := fun x hx => by
            rcases List.mem_cons.1 hx with rfl | hx
            · rfl
            · exact hall x hx
          exact hab ((this a ha).trans (this b hb).symm)
        · rw [if_pos hall]
          simp only
          have hreq : .jagged ∈ cols.map (·.kind) → IsReq R (n % 2 ^ 32 * viewSize) maxAlign := by
            intro hj
            obtain ⟨c, hc', hk⟩ := List.mem_map.1 hj
            cases c with
            | scalar => cases hk
            | vector => cases hk
            | jagged rows =>
              have h2 := hq rows hc'
              have h3 : rows.length = n := by
                have := jagged_size hc'
                rw [hc] at this
                rcases List.mem_cons.1 this with h | h
                · exact h
                · exact hall _ h
              rw [h3] at h2
              have : n % 2 ^ 32 * viewSize ≤ n * viewSize := Nat.mul_le_mul_right _ (Nat.mod_le _ _)
              exact ⟨⟨this.trans h2.1.1, lt_of_le_of_lt this h2.1.2⟩, h2.2⟩
          rcases makeCols_ok hl res (T := T) (cols.map (·.kind)) [] [] u m hreq trivial (by simpa using hu) with
            ⟨cs, u1, m1, a1, a2, a3, a4⟩ | ⟨u1, m1, a1, a2, a3⟩
          · simp only [DataVar.make, a1, Res.map]
            obtain ⟨z1, z2, z3, z4⟩ := zip_cols (cs := cols) (by simpa using a2)
            have h2 := fillCols_ok hl res (T := T) (cols.zip cs) [] [] u1 m1
              (fun c hc rows hr => hq rows (by rw [← hr]; exact z2 c hc)) z1 trivial
              (by rw [z3]; simpa using a3)
            rcases h2 with ⟨cs', u', m', b1, b2, b3, b4⟩ | ⟨u', m', b1, b2, b3⟩
            · rw [b1]
              refine .inl ⟨_, u', m', rfl, rfl, ?_, ?_, a4.trans b4⟩
              · rw [z4] at b2; simpa using b2
              · simpa [DataVar.owners, List.flatMap_map] using b3
            · rw [b1]
              exact .inr ⟨u', m', rfl, b2, a4.trans b3⟩
          · simp only [DataVar.make, a1, Res.map]
            exact .inr ⟨u1, m1, rfl, a2, a3⟩
      · rw [if_neg hall]
        have : ∃ x ∈ ns, x ≠ n := by
          by_cases h : ∃ x ∈ ns, x ≠ n
          · exact h
          · exact absurd (fun x hx => Decidable.byContradiction fun hne => h ⟨x, hx, hne⟩) hall
        obtain ⟨x, hx, hne⟩ := this
        exact .inl ⟨⟨x, List.mem_cons_of_mem _ hx, n, List.mem_cons_self, hne⟩, rfl⟩

/-! ## What holds between the steps -/

/-- What a variable holds. -/
def DataVal (m : JMem α) (v : DataVar) : Option DataDesc → Prop
  | .none => v.owners.flatMap Owner.blocks = []
  | some d => v.capacity = d.capacity ∧ ColsOk m d.res v.cols d.cols

structure DataInv (R : Limits) (ups : Nat → MR σ) (u0 : σ) (s : Datas α σ) (S : DataStore) : Prop where
  reach : FReach R ups u0 s.res (s.owned ++ s.other)
  nodup : (s.vars.map (·.1)).Nodup
  vars : ∀ x, S.vars x = (s.vars.lookup x).isSome
  absent : ∀ x, s.vars.lookup x = none → S.vals x = none
  vals : ∀ x v, s.vars.lookup x = some v → DataVal s.mem v (S.vals x)

/-- What a step has to do. -/
def DStepOk (R : Limits) (ups : Nat → MR σ) (u0 : σ) (s : Datas α σ) (S : DataStore) (op : DataOp) : Prop :=
  op.Returns (s.exec ups op).1 ∧ ((s.exec ups op).1 = .ok () → DataInv R ups u0 (s.exec ups op).2 (op.after S)) ∧
  ((s.exec ups op).1 ≠ .ok () → DataInv R ups u0 (s.exec ups op).2 S)

variable {s : Datas α σ} {S : DataStore}

theorem DataVar.owners_blocks (v : DataVar) : v.owners.flatMap Owner.blocks = v.cols.flatMap fun e => e.2.blocks := by
  simp [DataVar.owners, List.flatMap_map]

theorem DataVar.moved_blocks (v : DataVar) : v.moved.owners.flatMap Owner.blocks = [] := by
  rw [DataVar.owners_blocks, DataVar.moved, List.flatMap_map]
  simp [Owner.moved_blocks]

theorem blocks_owned {x : Nat} {v : DataVar} (h : s.vars.lookup x = some v) : ∀ e ∈ v.cols.flatMap fun e => e.2.blocks, e ∈ s.owned := by
  intro e he
  rw [← DataVar.owners_blocks] at he
  exact List.mem_flatMap.2 ⟨(x, v), mem_of_lookup h, he⟩

theorem DataVal.keeps {m : JMem α} {O : List (Nat × Blk)} (hk : KeepsViews (s.owned ++ O) s.mem m) {x : Nat} {v : DataVar}
    (hx : s.vars.lookup x = some v) {d : Option DataDesc}
    (hd : DataVal s.mem v d) : DataVal m v d := by
  cases d with
  | none => exact hd
  | some d =>
    obtain ⟨h1, h2⟩ := hd
    exact ⟨h1, h2.keeps (hk.mono fun e he => List.mem_append_left _ (blocks_owned hx e he))⟩

/-- Memory that is owned has not been written. -/
theorem DataInv.keeps (h : DataInv R ups u0 s S) {u : σ} {m : JMem α} {O : List (Nat × Blk)} (hk : KeepsViews (s.owned ++ s.other) s.mem m)
    (hu : FReach R ups u0 u (s.owned ++ O)) : DataInv R ups u0 ⟨u, m, s.vars, O⟩ S where
  reach := hu
  nodup := h.nodup
  vars := h.vars
  absent := h.absent
  vals := fun x v hx => DataVal.keeps hk hx (h.vals x v hx)

theorem putVar_new {β : Type} {l : List (Nat × β)} {x : Nat} (h : l.lookup x = none) (v : β) : putVar l x v = (x, v) :: l := by
  unfold putVar
  congr 1
  refine List.filter_eq_self.2 fun e he => ?_
  have := lookup_none h
  simp only [bne_iff_ne, ne_eq]
  rintro rfl
  exact this (List.mem_map.2 ⟨e, he, rfl⟩)

/-- A new variable. -/
theorem DataInv.put (h : DataInv R ups u0 s S) {x : Nat} (hx : s.vars.lookup x = none) {v : DataVar} {d : Option DataDesc} {m : JMem α}
    (hk : KeepsViews (s.owned ++ s.other) s.mem m)
    (hd : DataVal m v d) {u : σ}
    (hu : FReach R ups u0 u (v.owners.flatMap Owner.blocks ++ (s.owned ++ s.other))) :
    DataInv R ups u0 ⟨u, m, putVar s.vars x v, s.other⟩ (S.put x d) where
  reach := by
    rw [putVar_new hx]
    simp only [Datas.owned, List.flatMap_cons] at hu ⊢
    rw [List.append_assoc]
    exact hu
  nodup := nodup_putVar h.nodup x v
  vars := fun i => by
    simp only [DataStore.put, lookup_putVar]
    by_cases hi : i = x
    · simp [hi]
    · simp [hi, h.vars i]
  absent := fun i hi => by
    simp only [DataStore.put, lookup_putVar] at hi ⊢
    by_cases hx : i = x
    · rw [if_pos hx] at hi; cases hi
    · rw [if_neg hx] at hi ⊢; exact h.absent i hi
  vals := fun i w hi => by
    simp only [DataStore.put, lookup_putVar] at hi ⊢
    by_cases hx : i = x
    · rw [if_pos hx] at hi ⊢
      cases hi
      exact hd
    · rw [if_neg hx] at hi ⊢
      exact DataVal.keeps hk hi (h.vals i w hi)

theorem DataInv.unused (h : DataInv R ups u0 s S) {x : Nat} (hx : S.vars x = false) : s.vars.lookup x = none := by
  have := h.vars x
  rw [hx] at this
  cases e : s.vars.lookup x with
  | none => rfl
  | some v => rw [e] at this; cases this

theorem DataInv.used (h : DataInv R ups u0 s S) {x : Nat} (hx : S.vars x = true) : ∃ v, s.vars.lookup x = some v := by
  have := h.vars x
  rw [hx] at this
  cases e : s.vars.lookup x with
  | none => rw [e] at this; cases this
  | some v => exact ⟨v, rfl⟩

theorem dstep_empty (h : DataInv R ups u0 s S) {x capacity : Nat} {refs : List DataRef} (hf : (DataOp.empty x capacity refs).Fits R s S) :
    DStepOk R ups u0 s S (.empty x capacity refs) := by
  have h0 : (⟨capacity, refs.map fun r => (r, {})⟩ : DataVar).owners.flatMap Owner.blocks = [] := by
    simp [DataVar.owners_blocks, List.flatMap_map, Owner.blocks]
  refine ⟨rfl, fun _ => ?_, fun hne => absurd rfl hne⟩
  exact h.put (h.unused hf) (.refl _ _) (d := .none) h0 (by rw [h0]; exact h.reach)

theorem dstep_getHost (hl : FamLawful R G ups u0) (h : DataInv R ups u0 s S) {x res junk : Nat} {cols : List HostCol}
    (hf : (DataOp.getHost x res junk cols).Fits R s S) : DStepOk R ups u0 s S (.getHost x res junk cols) := by
  have hx := h.unused hf.1
  rcases getHostData_ok hl res junk s.mem hf.2 h.reach with ⟨h1, h2⟩ | ⟨h1, ⟨v, u, m, h2, h3, h4, h5, h6⟩ | ⟨u, m, h2, h3, h4⟩⟩
  · have e : s.exec ups (.getHost x res junk cols) = (.lengthError, s) := by simp only [Datas.exec, h2]; rfl
    refine ⟨?_, fun hr => ?_, fun _ => ?_⟩
    · rw [e]; simp only [DataOp.Returns, if_pos h1]
    · rw [e] at hr; cases hr
    · rw [e]; exact h
  · have e : s.exec ups (.getHost x res junk cols) = (.ok (), ⟨u, m, putVar s.vars x v, s.other⟩) := by simp only [Datas.exec, h2]
    refine ⟨?_, fun _ => ?_, fun hr => ?_⟩
    · rw [e]; show (if _ then _ else _); rw [if_neg h1]; exact .inl rfl
    · rw [e]
      exact h.put hx h6 (d := some _) ⟨h3, h4⟩ h5
    · rw [e] at hr; exact absurd rfl hr
  · have e : s.exec ups (.getHost x res junk cols) = (.badAlloc, ⟨u, m, s.vars, s.other⟩) := by simp only [Datas.exec, h2]; rfl
    refine ⟨?_, fun hr => ?_, fun _ => ?_⟩
    · rw [e]; show (if _ then _ else _); rw [if_neg h1]; exact .inr rfl
    · rw [e] at hr; cases hr
    · rw [e]; exact h.keeps h4 h3

theorem dstep_make (hl : FamLawful R G ups u0) (h : DataInv R ups u0 s S) {x res n : Nat} {kinds : List ColKind}
    (hf : (DataOp.make x res n kinds).Fits R s S) : DStepOk R ups u0 s S (.make x res n kinds) := by
  have hx := h.unused hf.1
  rcases makeCols_ok hl res (T := s.owned ++ s.other) kinds [] [] s.res s.mem hf.2 trivial (by simpa using h.reach) with
    ⟨cs, u, m, h2, h4, h5, h6⟩ | ⟨u, m, h2, h3, h4⟩
  · have e : s.exec ups (.make x res n kinds) = (.ok (), ⟨u, m, putVar s.vars x ⟨n % 2 ^ 32, cs⟩, s.other⟩) := by
      simp only [Datas.exec, DataVar.make, h2]; rfl
    refine ⟨?_, fun _ => ?_, fun hr => ?_⟩
    · rw [e]; exact .inl rfl
    · rw [e]
      exact h.put hx h6 (d := some _) ⟨rfl, by simpa using h4⟩ (by rw [DataVar.owners_blocks]; exact h5)
    · rw [e] at hr; exact absurd rfl hr
  · have e : s.exec ups (.make x res n kinds) = (.badAlloc, ⟨u, m, s.vars, s.other⟩) := by
      simp only [Datas.exec, DataVar.make, h2]; rfl
    refine ⟨?_, fun hr => ?_, fun _ => ?_⟩
    · rw [e]; exact .inr rfl
    · rw [e] at hr; cases hr
    · rw [e]; exact h.keeps h4 h3

theorem dstep_getJag (hl : FamLawful R G ups u0) (h : DataInv R ups u0 s S) {x res : Nat} {rows : List HostVec}
    (hf : (DataOp.getJag x res rows).Fits R s S) : DStepOk R ups u0 s S (.getJag x res rows) := by
  have hx := h.unused hf.1
  rcases getJagged_ok hl h.reach res s.mem hf.2 with ⟨b, j, u, m, h2, h4, h5, h6⟩ | ⟨u, h2, h3⟩
  · have e : s.exec ups (.getJag x res rows) =
        (.ok (), ⟨u, m, putVar s.vars x ⟨rows.length, [(.jagged j, ⟨b, res⟩)]⟩, s.other⟩) := by simp only [Datas.exec, h2]
    refine ⟨?_, fun _ => ?_, fun hr => ?_⟩
    · rw [e]; exact .inl rfl
    · rw [e]
      have hd : DataVal m ⟨rows.length, [(.jagged j, ⟨b, res⟩)]⟩ (some ⟨res, rows.length, [(HostCol.jagged rows).desc]⟩) :=
        ⟨rfl, h4, trivial⟩
      exact h.put hx h6 hd (by rw [DataVar.owners_blocks]; simpa using h5)
    · rw [e] at hr; exact absurd rfl hr
  · have e : s.exec ups (.getJag x res rows) = (.badAlloc, ⟨u, s.mem, s.vars, s.other⟩) := by simp only [Datas.exec, h2]; rfl
    refine ⟨?_, fun hr => ?_, fun _ => ?_⟩
    · rw [e]; exact .inr rfl
    · rw [e] at hr; cases hr
    · rw [e]; exact h.keeps (.refl _ _) h3

theorem DataStore.vals_put (S : DataStore) (x i : Nat) (d : Option DataDesc) : (S.put x d).vals i = if i = x then d else S.vals i := rfl

/-- What variables hold after `y` was moved to `x`, which had nothing, or what has been given back. -/
theorem moved_vals (h : DataInv R ups u0 s S) {x y : Nat} (hxy : x ≠ y) {v : DataVar} (hy : s.vars.lookup y = some v) (i : Nat) (w : DataVar)
    (hi : (putVar (putVar s.vars y v.moved) x v).lookup i = some w) :
    DataVal s.mem w ((S.move x y).vals i) := by
  simp only [lookup_putVar] at hi
  simp only [DataStore.move, if_neg hxy, DataStore.vals_put]
  by_cases h1 : i = x
  · rw [if_pos h1] at hi ⊢
    cases hi
    exact h.vals y v hy
  · rw [if_neg h1] at hi ⊢
    by_cases h2 : i = y
    · rw [if_pos h2] at hi ⊢
      cases hi
      exact v.moved_blocks
    · rw [if_neg h2] at hi ⊢
      exact h.vals i w hi

theorem moved_none (h : DataInv R ups u0 s S) {x y : Nat} (hxy : x ≠ y) {v : DataVar} (i : Nat)
    (hi : (putVar (putVar s.vars y v.moved) x v).lookup i = none) : (S.move x y).vals i = none := by
  simp only [lookup_putVar] at hi
  simp only [DataStore.move, if_neg hxy, DataStore.vals_put]
  by_cases h1 : i = x
  · rw [if_pos h1] at hi; cases hi
  · rw [if_neg h1] at hi ⊢
    by_cases h2 : i = y
    · rw [if_pos h2] at hi; cases hi
    · rw [if_neg h2] at hi ⊢
      exact h.absent i hi

theorem moved_vars (h : DataInv R ups u0 s S) {x y : Nat} (hxy : x ≠ y) {v : DataVar} (i : Nat) :
    (S.move x y).vars i = ((putVar (putVar s.vars y v.moved) x v).lookup i).isSome := by
  simp only [lookup_putVar, DataStore.move, if_neg hxy, DataStore.put]
  by_cases h1 : i = x
  · simp [h1]
  · by_cases h2 : i = y
    · simp only [if_neg h1, if_pos h2]; simp [h2]
    · simp only [if_neg h1, if_neg h2, beq_false_of_ne h1, beq_false_of_ne h2, Bool.false_or, h.vars i]

theorem dstep_move (h : DataInv R ups u0 s S) {x y : Nat} (hf : (DataOp.move x y).Fits R s S) : DStepOk R ups u0 s S (.move x y) := by
  have hx := h.unused hf.1
  obtain ⟨v, hy⟩ := h.used hf.2
  have hxy : x ≠ y := by rintro rfl; rw [hx] at hy; cases hy
  have e : s.exec ups (.move x y) = (.ok (), { s with vars := putVar (putVar s.vars y v.moved) x v }) := by
    simp only [Datas.exec, hy]
  refine ⟨by rw [e]; rfl, fun _ => ?_, fun hr => by rw [e] at hr; exact absurd rfl hr⟩
  rw [e]
  refine ⟨?_, nodup_putVar (nodup_putVar h.nodup _ _) _ _, fun i => moved_vars h hxy i, fun i => moved_none h hxy i,
    fun i w hi => moved_vals h hxy hy i w hi⟩
  refine h.reach.perm (List.Perm.append_right s.other ?_)
  simp only [Datas.owned, putVar_two s.vars hxy, List.flatMap_cons, DataVar.moved_blocks, List.nil_append]
  have h1 := (perm_filter h.nodup (mem_of_lookup hy)).flatMap_right fun e : Nat × DataVar => e.2.owners.flatMap Owner.blocks
  rw [List.flatMap_cons] at h1
  have h2 : ((s.vars.filter fun e => e.1 != y).filter fun e => e.1 != x) = s.vars.filter fun e => e.1 != y := by
    refine List.filter_eq_self.2 fun f hf => ?_
    have := lookup_none hx
    simp only [bne_iff_ne, ne_eq]
    intro hfx
    exact this (List.mem_map.2 ⟨f, (List.mem_filter.1 hf).1, hfx⟩)
  rw [h2]
  exact h1

theorem dstep_assign (hl : FamLawful R G ups u0) (h : DataInv R ups u0 s S) {x y : Nat} (hf : (DataOp.assign x y).Fits R s S) :
    DStepOk R ups u0 s S (.assign x y) := by
  obtain ⟨w, hx⟩ := h.used hf.1
  obtain ⟨v, hy⟩ := h.used hf.2
  by_cases hxy : x = y
  · have e : s.exec ups (.assign x y) = (.ok (), s) := by simp only [Datas.exec, hx, hy, if_pos hxy]
    refine ⟨by rw [e]; rfl, fun _ => ?_, fun hr => by rw [e] at hr; exact absurd rfl hr⟩
    rw [e]
    simp only [DataOp.after, DataStore.move, if_pos hxy]
    exact h
  · have hp := (perm_two h.nodup hx hy hxy).flatMap_right fun e => e.2.owners.flatMap Owner.blocks
    simp only [List.flatMap_cons] at hp
    have hr : FReach R ups u0 s.res (w.owners.flatMap Owner.blocks ++ ((v.owners.flatMap Owner.blocks ++
        (((s.vars.filter fun e => e.1 != y).filter fun e => e.1 != x).flatMap fun e => e.2.owners.flatMap Owner.blocks)) ++ s.other)) := by
      refine h.reach.perm ?_
      rw [← List.append_assoc]
      exact hp.append_right _
    obtain ⟨u, d1, d2⟩ := Owner.destroyAll_ok hl w.owners s.res hr
    have e : s.exec ups (.assign x y) = (.ok (), { s with res := u, vars := putVar (putVar s.vars y v.moved) x v }) := by
      simp only [Datas.exec, hx, hy, if_neg hxy, d1]
    refine ⟨by rw [e]; rfl, fun _ => ?_, fun hr => by rw [e] at hr; exact absurd rfl hr⟩
    rw [e]
    refine ⟨?_, nodup_putVar (nodup_putVar h.nodup _ _) _ _, fun i => moved_vars h hxy i, fun i => moved_none h hxy i,
      fun i w hi => moved_vals h hxy hy i w hi⟩
    simp only [Datas.owned, putVar_two s.vars hxy, List.flatMap_cons, DataVar.moved_blocks, List.nil_append]
    exact d2

theorem dstep_destroy (hl : FamLawful R G ups u0) (h : DataInv R ups u0 s S) {x : Nat} (hf : (DataOp.destroy x).Fits R s S) :
    DStepOk R ups u0 s S (.destroy x) := by
  obtain ⟨v, hx⟩ := h.used hf
  have hp := (perm_filter h.nodup (mem_of_lookup hx)).flatMap_right fun e => e.2.owners.flatMap Owner.blocks
  rw [List.flatMap_cons] at hp
  obtain ⟨u, d1, d2⟩ := Owner.destroyAll_ok hl v.owners s.res
    (T := ((s.vars.filter fun e => e.1 != x).flatMap fun e => e.2.owners.flatMap Owner.blocks) ++ s.other)
    (h.reach.perm (by rw [← List.append_assoc]; exact hp.append_right _))
  have e : s.exec ups (.destroy x) = (.ok (), { s with res := u, vars := s.vars.filter fun e => e.1 != x }) := by
    simp only [Datas.exec, hx, d1]
  refine ⟨by rw [e]; rfl, fun _ => ?_, fun hr => by rw [e] at hr; exact absurd rfl hr⟩
  rw [e]
  refine ⟨d2, h.nodup.sublist (List.filter_sublist.map _), fun i => ?_, fun i hi => ?_, fun i w hi => ?_⟩
  · simp only [DataOp.after, DataStore.drop, lookup_filter]
    by_cases hi : i = x
    · simp [hi]
    · simp [hi, h.vars i]
  · simp only [DataOp.after, DataStore.drop, lookup_filter] at hi ⊢
    by_cases h1 : i = x
    · rw [if_pos h1]
    · rw [if_neg h1] at hi ⊢; exact h.absent i hi
  · simp only [DataOp.after, DataStore.drop, lookup_filter] at hi ⊢
    by_cases h1 : i = x
    · rw [if_pos h1] at hi; cases hi
    · rw [if_neg h1] at hi ⊢; exact h.vals i w hi

theorem dstep_alloc (hl : FamLawful R G ups u0) (h : DataInv R ups u0 s S) {res n a : Nat} (hf : (DataOp.alloc res n a).Fits R s S) :
    DStepOk R ups u0 s S (.alloc res n a) := by
  have hg := hl.alloc res h.reach hf.1 hf.2
  cases e : (ups res).allocate s.res n a with
  | mk r u =>
    rw [e] at hg
    have key : ∀ r, GoodAnswer G ((s.owned ++ s.other).map (·.2)) n a r → r = .badAlloc ∨ ∃ p, r = .ok p := by
      intro r hr; cases r <;> first | exact .inr ⟨_, rfl⟩ | exact .inl rfl | exact absurd hr id
    rcases key r hg with rfl | ⟨p, rfl⟩
    · have e' : s.exec ups (.alloc res n a) = (.badAlloc, { s with res := u }) := by simp only [Datas.exec, e]; rfl
      have hr : DataOp.Returns (.alloc res n a) (s.exec ups (.alloc res n a)).1 := by rw [e']; exact .inr rfl
      refine ⟨hr, (fun hr => by rw [e'] at hr; cases hr), fun _ => ?_⟩
      rw [e']
      exact h.keeps (.refl _ _) (.refuse res h.reach hf.1 hf.2 e)
    · have e' : s.exec ups (.alloc res n a) = (.ok (), { s with res := u, other := (res, ⟨p, n, a⟩) :: s.other }) := by
        simp only [Datas.exec, e]
      refine ⟨by rw [e']; exact .inl rfl, fun _ => ?_, fun hr => by rw [e'] at hr; exact absurd rfl hr⟩
      rw [e']
      exact h.keeps (.refl _ _) ((FReach.alloc res h.reach hf.1 hf.2 e).perm List.perm_middle.symm)

theorem dstep_free (hl : FamLawful R G ups u0) (h : DataInv R ups u0 s S) {res : Nat} {b : Blk} (hf : (DataOp.free res b).Fits R s S) :
    DStepOk R ups u0 s S (.free res b) := by
  have hd := hl.dealloc h.reach (List.mem_append_right _ hf)
  cases e : (ups res).deallocate s.res b.addr b.size b.align with
  | mk r u =>
    rw [e] at hd
    cases hd
    have e' : s.exec ups (.free res b) = (.ok (), { s with res := u, other := s.other.erase (res, b) }) := by simp only [Datas.exec, e]
    refine ⟨by rw [e']; rfl, fun _ => ?_, fun hr => by rw [e'] at hr; exact absurd rfl hr⟩
    rw [e']
    refine h.keeps (.refl _ _) (FReach.free (i := res) (b := b) (h.reach.perm ?_) e)
    exact ((List.perm_cons_erase hf).append_left _).trans List.perm_middle

theorem dstep_write (h : DataInv R ups u0 s S) {a : Nat} {v : View} (hf : (DataOp.write a v).Fits R s S) :
    DStepOk R ups u0 s S (.write a v) := by
  refine ⟨rfl, fun _ => ?_, fun hr => absurd rfl hr⟩
  have hk : KeepsViews (s.owned ++ []) s.mem (s.mem.putView a v) := by
    rw [List.append_nil]
    intro e he b h1 h2
    have := hf e he
    have h3 : 0 < viewSize := by decide
    simp only [JMem.putView]
    rw [if_neg (by omega)]
  exact ⟨h.reach, h.nodup, h.vars, h.absent, fun x w hx => DataVal.keeps hk hx (h.vals x w hx)⟩

theorem data_step (hl : FamLawful R G ups u0) (h : DataInv R ups u0 s S) {op : DataOp} (hf : op.Fits R s S) : DStepOk R ups u0 s S op := by
  cases op with
  | empty => exact dstep_empty h hf
  | make => exact dstep_make hl h hf
  | getHost => exact dstep_getHost hl h hf
  | getJag => exact dstep_getJag hl h hf
  | move => exact dstep_move h hf
  | assign => exact dstep_assign hl h hf
  | destroy => exact dstep_destroy hl h hf
  | alloc => exact dstep_alloc hl h hf
  | free => exact dstep_free hl h hf
  | write => exact dstep_write h hf

theorem data_inv (hl : FamLawful R G ups u0) (h : DataReach R ups u0 s S) : DataInv R ups u0 s S := by
  induction h with
  | init m => exact ⟨.init, List.nodup_nil, fun _ => rfl, fun _ _ => rfl, fun _ _ hx => by cases hx⟩
  | ok _ hf hr ih => exact (data_step hl ih hf).2.1 hr
  | throw _ hf hr ih => exact (data_step hl ih hf).2.2 hr

end Vecmem
