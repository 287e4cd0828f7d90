import Verif.Lemmas.WeakSeveral
import Verif.Lemmas.WeakPipeline
import Verif.Lemmas.SequentialRows
import Verif.Lemmas.JagBuffer
import Verif.Spec.WeakRows
import Verif.Lemmas.Tactics

/-!
# Lemmas: one order for all rows
-/

namespace Vecmem

section

variable {α : Type} {V : WVec} {d : Bool} {m : AMem 32} {tasks : Nat → WTask 32} {tr : WTrace 32} {prog : Nat → WProg 32} {words : α → List (BitVec 32)} {s0 s : DV α} {o : List (Claim α)}

/-- The claims are a chain. -/
theorem Appending.order (ha : Appending { V with dbg := d } m tasks tr prog) (hs : V.Shows words (fun a x => x = m a) s0)
    (h1 : List.Forall₂ (fun (x : Claim α) e => x.1 = e.thread ∧ CallLeft V m (tr.Final m) words s0.dflt x.2.1 x.2.2 e) o (WTrace.claims V.size tr)) :
    Chain s0.sizeWord o ∧ s0.sizeWord + claimed o ≤ s0.cap ∧ claimed o = tr.claimed V.size := by
  obtain ⟨y, rfl, hy⟩ := hs.size
  have hfits : (m V.size).toNat + tr.claimed V.size ≤ V.cap := ha.fits
  rw [hy, hs.cap] at hfits
  obtain ⟨h3, h4⟩ := ha.chain (R := CallLeft V m (tr.Final m) words s0.dflt) (fun c v e h => h.1) tr [] o rfl h1
  have h0 : WTrace.claimed V.size ([] : WTrace 32) = 0 := rfl
  rw [h0, hy, Nat.add_zero] at h3
  rw [h0, Nat.zero_add] at h4
  change claimed o = tr.claimed V.size at h4
  exact ⟨h3, by omega, h4⟩

/-- The vector after the calls, in the order of their claims, is what is left in the variables. -/
theorem Appending.shows (ha : Appending { V with dbg := d } m tasks tr prog) (hs : V.Shows words (fun a x => x = m a) s0)
    (h1 : List.Forall₂ (fun (x : Claim α) e => x.1 = e.thread ∧ CallLeft V m (tr.Final m) words s0.dflt x.2.1 x.2.2 e) o (WTrace.claims V.size tr))
    (hov : ∀ x ∈ o, x.2.1.Valid true []) (hg : OrderedVec s0 o s) : V.Shows words (tr.Final m) s := by
  obtain ⟨h3, h3', h4⟩ := ha.order hs h1
  obtain ⟨y, rfl, hy⟩ := hs.size
  obtain ⟨hk1, hk2, hk3, hk4, hk5, hk6⟩ := hg.kind
  refine ⟨hs.cap.trans hk2.symm, hs.dbg.trans hk1.symm, hk3.trans hs.resizable, ?_, ?_⟩
  · obtain ⟨y, h5, h6⟩ := ha.final_size
    exact ⟨y, h5, by rw [h6, hg.size, h4, hy]⟩
  · intro p hpc
    rw [hk2] at hpc
    obtain ⟨x, h5, h6⟩ := hs.elems p hpc
    by_cases hin : s0.sizeWord ≤ p ∧ p < s0.sizeWord + claimed o
    · obtain ⟨z, hz, h7, h8⟩ := h3.covers hin.1 hin.2
      rw [hg.inside z hz p h7 h8]
      refine ⟨_, rfl, fun v b hb => ?_⟩
      obtain ⟨n, hn⟩ := List.getElem?_of_mem hz
      obtain ⟨e, -, -, h9⟩ : ∃ e, (WTrace.claims V.size tr)[n]? = some e ∧ z.1 = e.thread ∧ CallLeft V m (tr.Final m) words s0.dflt z.2.1 z.2.2 e := by
        obtain ⟨e, h10, h11⟩ := forall₂_get h1.flip hn
        exact ⟨e, h10, h11⟩
      have h12 := h9.2 v (p - z.2.2) (by omega)
      rw [weak_leaves (hov z hz) v (by omega), show z.2.2 + (p - z.2.2) = p by omega] at h12
      cases hvv : z.2.1.value s0.dflt [] with
      | none =>
        rw [hvv, Option.getD_none, h5, Option.getD_some] at hb
        rw [hvv, Option.bind_none, Option.getD_none, ← h6 v b hb] at h12
        exact h12
      | some y =>
        rw [hvv, Option.getD_some] at hb
        rw [hvv, Option.bind_some, hb, Option.getD_some] at h12
        exact h12
    · refine ⟨x, by rw [hg.outside p (by omega), h5], fun v b hb => ?_⟩
      have := ha.final_old (v := v) (p := p) (by change p < (m V.size).toNat ∨ (m V.size).toNat + tr.claimed V.size ≤ p; omega)
      rw [← h6 v b hb] at this
      exact this

end

/-! ## Vectors that are not used -/

/-- The vectors, where those that are not used have no room. -/
def usedOnly (n : Nat) (m : AMem 32) (V : Nat → WVec) : Nat → WVec := fun k => if k < n then V k else { V k with cap := (m (V k).size).toNat }

theorem usedOnly_size (n : Nat) (m : AMem 32) (V : Nat → WVec) (k : Nat) : (usedOnly n m V k).size = (V k).size ∧ (usedOnly n m V k).cell = (V k).cell := by
  unfold usedOnly
  split <;> exact ⟨rfl, rfl⟩

theorem usedOnly_valid {n : Nat} {m : AMem 32} {V : Nat → WVec} (hV : ∀ k, (V k).Valid 32) (k : Nat) : (usedOnly n m V k).Valid 32 := by
  unfold usedOnly
  split
  · exact hV k
  · exact ⟨(hV k).cells, (hV k).size, (m (V k).size).isLt⟩

theorem usedOnly_apart {n : Nat} {m : AMem 32} {V : Nat → WVec} (ha : Apart V) : Apart (usedOnly n m V) := by
  intro j k hjk a h1 h2
  unfold WVec.Owns at h1 h2
  rw [(usedOnly_size n m V j).1, (usedOnly_size n m V j).2] at h1
  rw [(usedOnly_size n m V k).1, (usedOnly_size n m V k).2] at h2
  exact ha j k hjk a h1 h2

theorem usedOnly_code {n : Nat} {m : AMem 32} {V : Nat → WVec} {words : Nat → Elem → List (BitVec 32)} {dflt : Nat → Elem} : ∀ {cs : List (Nat × ACall Elem)}, (∀ c ∈ cs, c.1 < n) →
    (MTask.calls words dflt cs).code (usedOnly n m V) = (MTask.calls words dflt cs).code V
  | [], _ => rfl
  | (k, c) :: cs, h => by
    have hk : usedOnly n m V k = V k := if_pos (h (k, c) List.mem_cons_self)
    simp only [MTask.calls, MTask.code, hk, usedOnly_code fun c hc => h c (List.mem_cons_of_mem _ hc)]

theorem callsOn_nil {n k : Nat} (hk : ¬ k < n) {cs : List (Nat × ACall Elem)} (h : ∀ c ∈ cs, c.1 < n) : callsOn k cs = [] := by
  unfold callsOn
  rw [List.filter_eq_nil_iff.2, List.map_nil]
  intro x hx
  have := h x hx
  simp only [decide_eq_true_eq]
  omega

/-! ## One order for all rows -/

/-- The accesses to the sizes of the first `n` vectors. -/
def anySize (V : Nat → WVec) (n : Nat) (e : WEvent 32) : Bool := (List.range n).any fun k => decide (e.addr = (V k).size)

theorem anySize_iff {V : Nat → WVec} {n : Nat} {e : WEvent 32} : anySize V n e = true ↔ ∃ k, k < n ∧ e.addr = (V k).size := by
  simp [anySize]

theorem rows_left {V : Nat → WVec} (hV : ∀ k, (V k).Valid 32) (ha : Apart V) {m : AMem 32} {final : Nat → BitVec 32 → Prop} {words : Elem → List (BitVec 32)} {dflt : Elem}
    {n : Nat} {cs : List (Nat × ACall Elem)} (hcs : ∀ c ∈ cs, c.1 < n) {l : List (WEvent 32)} (h : (MTask.calls (fun _ => words) (fun _ => dflt) cs).Left V m final l) :
    List.Forall₂ (fun c e => ∃ v, CallLeft (V c.1) m final words dflt c.2 v e) cs (l.filter (anySize V n)) := by
  induction cs generalizing l with
  | nil => cases h; exact .nil
  | cons c cs ih =>
    obtain ⟨j, c⟩ := c
    have hj := hcs (j, c) List.mem_cons_self
    cases h with
    | @append _ _ _ e v stores l h1 h2 h3 h4 =>
      have hst : stores.filter (anySize V n) = [] := by
        rw [List.filter_eq_nil_iff]
        intro x hx
        rw [anySize_iff]
        rintro ⟨k, -, h6⟩
        obtain ⟨q, hn⟩ := List.getElem?_of_mem hx
        obtain ⟨st, -, h5⟩ := forall₂_get h2 hn
        by_cases hjk : j = k
        · subst hjk
          exact (hV j).size _ _ (h5.1.symm.trans h6)
        · exact ha j k hjk x.addr (.inr ⟨_, _, h5.1⟩) (.inl h6)
      rw [List.filter_cons, if_pos (anySize_iff.2 ⟨j, hj, h1.1⟩), List.filter_append, hst, List.nil_append]
      rw [weak_count] at h1 h3
      exact .cons ⟨v, h1, h3⟩ (ih (fun c hc => hcs c (List.mem_cons_of_mem _ hc)) h4)

theorem claims_any {V : Nat → WVec} {n k : Nat} (hk : k < n) (tr : WTrace 32) :
    (tr.filter (anySize V n)).filter (fun e => decide (e.addr = (V k).size)) = WTrace.claims (V k).size tr := by
  rw [List.filter_filter]
  unfold WTrace.claims
  congr 1
  funext e
  by_cases h : e.addr = (V k).size
  · simp [h, anySize_iff.2 ⟨k, hk, h⟩]
  · simp [h]

theorem apart_size {V : Nat → WVec} (ha : Apart V) {j k : Nat} (h : (V j).size = (V k).size) : j = k := by
  by_contra hn
  exact ha j k hn (V j).size (.inl rfl) (.inl h)

/-- What the calls have returned is known from what was returned on each row. -/
theorem results_unique {n : Nat} : ∀ {a b : List (Nat × ACall Elem × Nat)}, a.map (fun x => (x.1, x.2.1)) = b.map (fun x => (x.1, x.2.1)) → (∀ x ∈ a, x.1 < n) →
    (∀ k, k < n → (a.filter fun x => decide (x.1 = k)).map (·.2) = (b.filter fun x => decide (x.1 = k)).map (·.2)) → a = b := by
  intro a
  induction a with
  | nil => intro b h _ _; cases b with | nil => rfl | cons => cases h
  | cons x a ih =>
    intro b h hn hk
    cases b with
    | nil => cases h
    | cons y b =>
      simp only [List.map_cons, List.cons.injEq, Prod.mk.injEq] at h
      obtain ⟨⟨h1, h2⟩, h3⟩ := h
      have hx := hk x.1 (hn x List.mem_cons_self)
      simp only [List.filter_cons, decide_true, if_true, h1.symm, List.map_cons, List.cons.injEq] at hx
      have hxy : x = y := Prod.ext h1 hx.1
      subst hxy
      rw [ih h3 (fun z hz => hn z (List.mem_cons_of_mem _ hz)) fun k hkn => ?_]
      have := hk k hkn
      by_cases hxk : x.1 = k
      · simpa [List.filter_cons, hxk] using this
      · simpa [List.filter_cons, hxk] using this

/-! ## Memory -/

theorem storeRows_at {t : Nat} : ∀ {vs : List View} {ss : List (DV Elem)} {m : Mem} {k : Nat} {v : View} {s : DV Elem} {x : Nat}, vs.Pairwise (View.Separate t) →
    vs[k]? = some v → ss[k]? = some s → v.Has t x → storeRows t m vs ss x = v.storeDevice t m s x := by
  intro vs
  induction vs with
  | nil => intro ss m k v s x _ h; cases h
  | cons w vs ih =>
    intro ss m k v s x hsep hv hs hx
    cases ss with
    | nil => cases hs
    | cons u ss =>
      obtain ⟨hsep1, hsep2⟩ := List.pairwise_cons.1 hsep
      cases k with
      | zero =>
        simp only [List.getElem?_cons_zero, Option.some.injEq] at hv hs
        subst hv hs
        simp only [storeRows]
        exact storeRows_other fun ⟨w', hw', h⟩ => hsep1 w' hw' x ⟨hx, h⟩
      | succ k =>
        simp only [List.getElem?_cons_succ] at hv hs
        simp only [storeRows]
        rw [ih hsep2 hv hs hx]
        have hw : ¬ w.Has t x := fun h => hsep1 v (List.mem_of_getElem? hv) x ⟨h, hx⟩
        have hm : w.storeDevice t m u x = m x := storeDevice_other hw
        unfold View.storeDevice at hm ⊢
        by_cases h1 : v.ptr ≤ x ∧ x < v.ptr + v.capacity * t
        · rw [if_pos h1, if_pos h1]
        · rw [if_neg h1, if_neg h1]
          rcases hx with hx | hx
          · exact absurd hx h1
          · rw [if_neg hx.1, if_neg hx.1]
            unfold writeLE
            rw [if_pos hx.2, if_pos hx.2]

theorem View.Alike.inVars {v w : View} (h : v.Alike w) {t : Nat} {V : WVec} {val : Nat → BitVec 32 → Prop} {mem : Mem} (hi : v.InVars t V val mem) : w.InVars t V val mem := by
  obtain ⟨h1, h2, h3⟩ := h
  refine ⟨hi.cap.trans h1, ?_, fun i u hw hu => ?_⟩
  · rw [← h2]; exact hi.size
  · rw [← h3 (by omega)]
    exact hi.bytes i u (by omega) hu

theorem View.Alike.symm {v w : View} (h : v.Alike w) : w.Alike v := ⟨h.1.symm, h.2.1.symm, fun h0 => (h.2.2 (by rw [← h.1]; exact h0)).symm⟩

theorem View.Alike.has {v w : View} (h : v.Alike w) {t x : Nat} (hx : v.Has t x) : w.Has t x := by
  obtain ⟨h1, h2, h3⟩ := h
  rcases hx with ⟨h4, h5⟩ | hx
  · have : w.capacity ≠ 0 := by
      intro h0
      rw [h1, h0, Nat.zero_mul] at h5
      omega
    left
    unfold View.HasPayload
    rw [← h1, ← h3 this]
    exact ⟨h4, h5⟩
  · right
    unfold View.HasWord
    rw [← h2]
    exact hx

theorem RowsKernel.alike {I : WImpl 32} {dbg : Bool} {dflt : Elem} {t : Nat} {vs ws : List View} {progs : List (List (Nat × ACall Elem))} {mem mem' : Mem}
    {rets : List (List (Nat × ACall Elem × Nat))} (hl : vs.length = ws.length) (ha : ∀ (i : Nat) (v w : View), vs[i]? = some v → ws[i]? = some w → v.Alike w)
    (h : RowsKernel I dbg dflt t vs progs mem mem' rets) : RowsKernel I dbg dflt t ws progs mem mem' rets := by
  obtain ⟨V, m, s, h1, h2, h3, h4, h5, h6, h7, h8, h9⟩ := h
  have key : ∀ (k : Nat) (w : View), ws[k]? = some w → ∃ v, vs[k]? = some v ∧ v.Alike w := by
    intro k w hw
    have hk : k < vs.length := by rw [hl]; exact (List.getElem?_eq_some_iff.1 hw).1
    exact ⟨vs[k], List.getElem?_eq_getElem hk, ha k _ _ (List.getElem?_eq_getElem hk) hw⟩
  refine ⟨V, m, s, h1, h2, fun k w hw => ?_, h4, h5, fun k w hw => ?_, fun x hx => h7 x fun v hv hvx => ?_, h8, fun i k hk => h9 i k (by rw [hl]; exact hk)⟩
  · obtain ⟨v, g1, g2⟩ := key k w hw
    exact g2.inVars (h3 k v g1)
  · obtain ⟨v, g1, g2⟩ := key k w hw
    exact g2.inVars (h6 k v g1)
  · obtain ⟨k, hk⟩ := List.getElem?_of_mem hv
    have hk' : k < ws.length := by rw [← hl]; exact (List.getElem?_eq_some_iff.1 hk).1
    exact hx ws[k] (List.getElem_mem hk') ((ha k v ws[k] hk (List.getElem?_eq_getElem hk')).has hvx)

end Vecmem
