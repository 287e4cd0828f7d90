import Verif.Model.WeakKernel
import Verif.Spec.WeakKernel
import Verif.Lemmas.WeakRuns
import Verif.Lemmas.SequentialRun

/-!
# Lemmas: kernels that append, on weak memory
-/

namespace Vecmem

variable {α : Type} {w : Nat}

/-! ## single calls -/

theorem weak_count (words : α → List (BitVec w)) (dflt : α) (c : ACall α) : (c.weak words dflt).count = c.count := by cases c <;> rfl

theorem mem_wordStores {j : Nat} {l : List (BitVec w)} {st : Nat × Nat × BitVec w} : st ∈ wordStores j l ↔ st.2.1 = j ∧ l[st.1]? = some st.2.2 := by
  simp only [wordStores, List.mem_map, List.mem_zipIdx_iff_getElem?]
  constructor
  · rintro ⟨x, h1, rfl⟩; exact ⟨rfl, h1⟩
  · rintro ⟨h1, h2⟩
    refine ⟨(st.2.2, st.1), h2, ?_⟩
    rw [← h1]

/-- The stores of a call. -/
theorem mem_stores {words : α → List (BitVec w)} {dflt : α} {c : ACall α} (hv : c.Valid true []) {st : Nat × Nat × BitVec w} :
    st ∈ (c.weak words dflt).stores ↔ st.2.1 < c.count ∧ ∃ x, c.value dflt [] = some x ∧ (words x)[st.1]? = some st.2.2 := by
  have hb : ∀ (n : Nat) (l : List (BitVec w)), st ∈ ((List.range n).flatMap fun j => wordStores j l) ↔ st.2.1 < n ∧ l[st.1]? = some st.2.2 := by
    intro n l
    simp only [List.mem_flatMap, List.mem_range, mem_wordStores]
    constructor
    · rintro ⟨j, h1, h2, h3⟩; exact ⟨by omega, h3⟩
    · rintro ⟨h1, h2⟩; exact ⟨_, h1, rfl, h2⟩
  cases c with
  | push a =>
    cases a with
    | elem => simp [ACall.Valid, Arg.value] at hv
    | val x => simp [ACall.weak, mem_wordStores, ACall.count, ACall.value, Arg.value, Arg.words]
  | emplace a =>
    cases a with
    | elem => simp [ACall.Valid, Arg.value] at hv
    | val x => simp [ACall.weak, mem_wordStores, ACall.count, ACall.value, Arg.value, Arg.words]
  | bulk n => simp only [ACall.weak, hb, ACall.count, ACall.value, Option.some.injEq, exists_eq_left']
  | bulkValue n a =>
    cases a with
    | elem => simp [ACall.Valid, Arg.value] at hv
    | val x => simp only [ACall.weak, hb, ACall.count, ACall.value, Arg.value, Arg.words, Option.some.injEq, exists_eq_left']
  | bulkImplicit n => simp [ACall.weak, ACall.value]

/-- What a call leaves in the words of an element. -/
theorem weak_leaves {words : α → List (BitVec w)} {dflt : α} {c : ACall α} (hv : c.Valid true []) (u : Nat) {j : Nat} (hj : j < c.count) :
    (c.weak words dflt).leaves u j = (c.value dflt []).bind fun x => (words x)[u]? := by
  unfold WAppend.leaves
  cases hb : (c.value dflt []).bind fun x => (words x)[u]? with
  | none =>
    rw [List.find?_eq_none.2]
    · rfl
    · intro st hst hp
      obtain ⟨-, x, h1, h2⟩ := (mem_stores hv).1 (List.mem_reverse.1 hst)
      simp only [Bool.and_eq_true, beq_iff_eq] at hp
      rw [h1, Option.bind_some, ← hp.1, h2] at hb
      cases hb
  | some b =>
    obtain ⟨x, h1, h2⟩ := Option.bind_eq_some_iff.1 hb
    rw [find?_unique (x := (u, j, b)) (List.mem_reverse.2 ((mem_stores hv).2 ⟨hj, x, h1, h2⟩)) (by simp)]
    · rfl
    · rintro ⟨u', j', b'⟩ hst hp
      obtain ⟨-, y, h3, h4⟩ := (mem_stores hv).1 (List.mem_reverse.1 hst)
      simp only [Bool.and_eq_true, beq_iff_eq] at hp
      rw [h1] at h3; cases h3
      obtain ⟨rfl, rfl⟩ := hp
      simp only at h4
      rw [h2] at h4; cases h4
      rfl

theorem calls_polite (V : WVec) (words : α → List (BitVec w)) (dflt : α) {cs : List (ACall α)} (hv : ∀ c ∈ cs, c.Valid true [] ∧ c.count < 2 ^ w) :
    (WTask.calls words dflt cs).Polite V := by
  induction cs with
  | nil => trivial
  | cons c cs ih =>
    obtain ⟨h1, h2⟩ := hv c List.mem_cons_self
    refine ⟨⟨by rw [weak_count]; exact h2, ?_, ?_⟩, fun _ => ih fun c' hc => hv c' (List.mem_cons_of_mem _ hc)⟩
    · cases c <;> simp [ACall.weak]
    · intro st hst
      rw [weak_count]
      exact ((mem_stores h1).1 hst).1

/-! ## how much is claimed -/

theorem stores_claimed {V : WVec} (hV : V.Valid w) {a : Nat} {sts : List (Nat × Nat × BitVec w)} {l : List (WEvent w × Nat)} (h : List.Forall₂ (IsStoreOf V a) sts l) :
    (l.map fun x => x.1.claimed V.size).sum = 0 := by
  induction h with
  | nil => rfl
  | cons hy _ ih =>
    rw [List.map_cons, List.sum_cons, ih]
    have : ¬ (_ : Nat) = V.size := fun h => hV.size _ _ (hy.1.symm.trans h)
    simp [WEvent.claimed, this]

theorem isClaim_claimed {V : WVec} {c : WAppend w} {e : WEvent w} (h : IsClaim V c e) : e.claimed V.size ≤ c.count := by
  simp only [WEvent.claimed, h.1, if_true, h.2, BitVec.toNat_ofNat]
  exact Nat.mod_le _ _

theorem hist_claimed {V : WVec} (hV : V.Valid w) {words : α → List (BitVec w)} {dflt : α} {cs : List (ACall α)} {l : List (WEvent w × Nat)} {p : WProg w}
    (h : Hist V (WTask.calls words dflt cs) l p) : (l.map fun x => x.1.claimed V.size).sum ≤ (cs.map ACall.count).sum := by
  induction cs generalizing l with
  | nil => cases h; simp
  | cons c cs ih =>
    rw [List.map_cons, List.sum_cons]
    have hc := weak_count words dflt c
    cases h with
    | nil => simp
    | failed h1 _ =>
      have := isClaim_claimed h1
      simp only [List.map_cons, List.map_nil, List.sum_cons, List.sum_nil]
      omega
    | part h1 _ h3 =>
      have := isClaim_claimed h1
      rw [List.map_cons, List.sum_cons, stores_claimed hV h3]
      omega
    | full h1 h2 h3 =>
      have := isClaim_claimed h1
      have := ih h3
      rw [List.map_cons, List.sum_cons, List.map_append, List.sum_append, stores_claimed hV h2]
      omega

theorem sum_range_zero (n : Nat) : ((List.range n).map fun _ => 0).sum = 0 := by
  induction n with
  | zero => rfl
  | succ n ih => rw [List.range_succ, List.map_append, List.sum_append, ih]; rfl

theorem sum_range_one (n i : Nat) (x : Nat) (hi : i < n) : ((List.range n).map fun j => if i = j then x else 0).sum = x := by
  induction n with
  | zero => omega
  | succ n ih =>
    rw [List.range_succ, List.map_append, List.sum_append]
    simp only [List.map_cons, List.map_nil, List.sum_cons, List.sum_nil]
    by_cases h : i = n
    · subst h
      rw [if_pos rfl]
      have : ((List.range i).map fun j => if i = j then x else 0) = (List.range i).map fun _ => 0 := by
        apply List.map_congr_left
        intro j hj
        rw [if_neg]
        have := List.mem_range.1 hj
        omega
      rw [this, sum_range_zero]
      omega
    · rw [if_neg h, ih (by omega)]; omega

theorem sum_map_add {β : Type} (l : List β) (f g : β → Nat) : (l.map fun x => f x + g x).sum = (l.map f).sum + (l.map g).sum := by
  induction l with
  | nil => rfl
  | cons x l ih => simp only [List.map_cons, List.sum_cons, ih]; omega

theorem claimed_split {tr : WTrace w} {a n : Nat} (h : ∀ e ∈ tr, e.thread < n) :
    tr.claimed a = ((List.range n).map fun i => ((tr.own i).map fun x => x.1.claimed a).sum).sum := by
  induction tr using List.reverseRecOn with
  | nil => simp [WTrace.claimed, WTrace.own]
  | append_singleton tr e ih =>
    have h1 := ih fun f hf => h f (List.mem_append_left _ hf)
    have h2 := h e (by simp)
    have : WTrace.claimed a (tr ++ [e]) = WTrace.claimed a tr + e.claimed a := by simp [WTrace.claimed]
    rw [this, h1]
    have h3 : ∀ i, ((WTrace.own (tr ++ [e]) i).map fun x => x.1.claimed a).sum = ((WTrace.own tr i).map fun x => x.1.claimed a).sum + if e.thread = i then e.claimed a else 0 := by
      intro i
      rw [own_snoc, List.map_append, List.sum_append]
      congr 1
      by_cases hi : e.thread = i <;> simp [hi]
    simp only [h3, sum_map_add, sum_range_one _ _ _ h2]

theorem le_sum_mem {l : List Nat} {x : Nat} (h : x ∈ l) : x ≤ l.sum := by
  induction l with
  | nil => cases h
  | cons y l ih =>
    rw [List.sum_cons]
    rcases List.mem_cons.1 h with rfl | h
    · omega
    · have := ih h; omega

theorem sum_map_le {β : Type} (l : List β) (f g : β → Nat) (h : ∀ x ∈ l, f x ≤ g x) : (l.map f).sum ≤ (l.map g).sum := by
  induction l with
  | nil => exact Nat.le_refl _
  | cons x l ih =>
    simp only [List.map_cons, List.sum_cons]
    have := ih fun y hy => h y (List.mem_cons_of_mem _ hy)
    have := h x List.mem_cons_self
    omega

theorem map_range_getD {β γ : Type} (l : List β) (d : β) (f : β → γ) : (List.range l.length).map (fun i => f (l[i]?.getD d)) = l.map f := by
  apply List.ext_getElem (by simp)
  intro i h1 h2
  simp only [List.length_map, List.length_range] at h1
  simp [h1]

section

variable {I : WImpl w} {m : AMem w} {V : WVec} {words : α → List (BitVec w)} {dflt : α} {progs : List (List (ACall α))} {s : WRun w}

/-- The programs claim at most what their calls append. -/
theorem kernel_claimed (hV : V.Valid w) (h : WRun.Reach I m (fun i => (WTask.calls words dflt (progs[i]?.getD [])).code V) s) :
    s.sys.trace.claimed V.size ≤ totalCount progs := by
  have hh : ∀ i, Hist V (WTask.calls words dflt (progs[i]?.getD [])) (s.sys.trace.own i) (s.prog i) := fun i => hist_of_after V _ (h.after i)
  have hth : ∀ e ∈ s.sys.trace, e.thread < progs.length := by
    intro e he
    by_contra hn
    obtain ⟨k, hk⟩ := List.getElem?_of_mem he
    have hm : (e, k) ∈ s.sys.trace.own e.thread := mem_own.2 ⟨hk, rfl⟩
    have h1 := hh e.thread
    rw [List.getElem?_eq_none (by omega), Option.getD_none] at h1
    simp only [WTask.calls] at h1
    generalize s.sys.trace.own e.thread = l at h1 hm
    generalize s.prog e.thread = p at h1
    cases h1
    cases hm
  rw [claimed_split hth, totalCount, ← map_range_getD progs [] fun p => (p.map ACall.count).sum]
  exact sum_map_le _ _ _ fun i _ => hist_claimed hV (hh i)

end

/-! ## the order of the calls -/

/-- What is known of a call and its claim. -/
def CallLeft (V : WVec) (m : AMem w) (final : Nat → BitVec w → Prop) (words : α → List (BitVec w)) (dflt : α) (c : ACall α) (v : Nat) (e : WEvent w) : Prop :=
  e.Claims V.size v c.count ∧ ∀ u j, j < c.count → final (V.cell u (v + j)) (((c.weak words dflt).leaves u j).getD (m (V.cell u (v + j))))

theorem calls_left {V : WVec} (hV : V.Valid w) {m : AMem w} {final : Nat → BitVec w → Prop} {words : α → List (BitVec w)} {dflt : α} {cs : List (ACall α)}
    {l : List (WEvent w)} (h : (WTask.calls words dflt cs).Left V m final l) :
    List.Forall₂ (fun c e => ∃ v, CallLeft V m final words dflt c v e) cs (l.filter fun e => decide (e.addr = V.size)) := by
  induction cs generalizing l with
  | nil => cases h; exact .nil
  | cons c cs ih =>
    cases h with
    | @append _ _ e v stores l h1 h2 h3 h4 =>
      have hst : stores.filter (fun e => decide (e.addr = V.size)) = [] := by
        rw [List.filter_eq_nil_iff]
        intro x hx
        simp only [decide_eq_true_eq]
        obtain ⟨n, hn⟩ := List.getElem?_of_mem hx
        obtain ⟨st, -, h5⟩ := forall₂_get h2 hn
        intro h6
        exact hV.size _ _ (h5.1.symm.trans h6)
      rw [List.filter_cons, if_pos (by simp [h1.1]), List.filter_append, hst, List.nil_append]
      rw [weak_count] at h1 h3
      exact .cons ⟨v, h1, h3⟩ (ih h4)

/-- Lists of the threads put together. -/
theorem merge {β γ : Type} {R : γ → Nat → β → Prop} (key : β → Nat) : ∀ (E : List β) (calls : Nat → List γ),
    (∀ i, List.Forall₂ (fun c e => ∃ v, R c v e) (calls i) (E.filter fun e => decide (key e = i))) →
    ∃ o : List (Nat × γ × Nat), List.Forall₂ (fun x e => x.1 = key e ∧ R x.2.1 x.2.2 e) o E ∧ ∀ i, (o.filter fun x => decide (x.1 = i)).map (·.2.1) = calls i := by
  intro E
  induction E with
  | nil =>
    intro calls h
    refine ⟨[], .nil, fun i => ?_⟩
    have := h i
    rw [List.filter_nil] at this
    cases this' : calls i with
    | nil => rfl
    | cons => rw [this'] at this; cases this
  | cons e E ih =>
    intro calls h
    have h0 := h (key e)
    rw [List.filter_cons, if_pos (by simp)] at h0
    generalize hcs : calls (key e) = cs at h0
    cases h0 with
    | @cons c _ cs _ hc h1 =>
      obtain ⟨v, hv⟩ := hc
      obtain ⟨o, h2, h3⟩ := ih (fun i => if i = key e then cs else calls i) (by
        intro i
        by_cases hi : i = key e
        · subst hi; simpa using h1
        · have := h i
          rw [List.filter_cons, if_neg (by simp; exact fun h => hi h.symm)] at this
          simpa [hi] using this)
      refine ⟨(key e, c, v) :: o, .cons ⟨rfl, hv⟩ h2, fun i => ?_⟩
      have := h3 i
      by_cases hi : i = key e
      · subst hi
        simp only [if_true] at this
        simp [this, hcs]
      · simp only [hi, if_false] at this
        rw [List.filter_cons, if_neg (by simp; exact fun h => hi h.symm), this]

theorem Chain.covers {base : Nat} {o : List (Claim α)} (h : Chain base o) {p : Nat} (h1 : base ≤ p) (h2 : p < base + Vecmem.claimed o) :
    ∃ x ∈ o, x.2.2 ≤ p ∧ p < x.2.2 + x.2.1.count := by
  induction o generalizing base with
  | nil => simp [Vecmem.claimed] at h2; omega
  | cons x o ih =>
    obtain ⟨h3, h4⟩ := h
    by_cases hp : p < base + x.2.1.count
    · exact ⟨x, List.mem_cons_self, by omega, by omega⟩
    · simp only [Vecmem.claimed, List.map_cons, List.sum_cons] at h2
      obtain ⟨y, hy, h5⟩ := ih h4 (by omega) (by simp only [Vecmem.claimed]; omega)
      exact ⟨y, List.mem_cons_of_mem _ hy, h5⟩

namespace Appending

variable {V : WVec} {m : AMem w} {tasks : Nat → WTask w} {tr : WTrace w} {prog : Nat → WProg w}

theorem chain (h : Appending V m tasks tr prog) {R : ACall α → Nat → WEvent w → Prop} (hR : ∀ c v e, R c v e → e.Claims V.size v c.count) :
    ∀ (post pre : WTrace w) (o : List (Claim α)), tr = pre ++ post →
      List.Forall₂ (fun (x : Claim α) e => x.1 = e.thread ∧ R x.2.1 x.2.2 e) o (post.filter fun e => decide (e.addr = V.size)) →
      Chain ((m V.size).toNat + pre.claimed V.size) o ∧ pre.claimed V.size + Vecmem.claimed o = tr.claimed V.size := by
  intro post
  induction post with
  | nil =>
    intro pre o htr ho
    cases ho
    refine ⟨trivial, ?_⟩
    rw [htr]; simp [Vecmem.claimed]
  | cons e post ih =>
    intro pre o htr ho
    have htr' : tr = (pre ++ [e]) ++ post := by rw [htr]; simp
    have hcl : WTrace.claimed V.size (pre ++ [e]) = pre.claimed V.size + e.claimed V.size := by simp [WTrace.claimed]
    have hat : tr[pre.length]? = some e := by rw [htr]; simp
    have ht1 : tr.take pre.length = pre := by rw [htr]; simp
    have ht2 : tr.take (pre.length + 1) = pre ++ [e] := by rw [htr', List.take_append_of_le_length (by simp), List.take_of_length_le (by simp)]
    by_cases ha : e.addr = V.size
    · rw [List.filter_cons, if_pos (by simp [ha])] at ho
      cases ho with
      | @cons x _ o _ hx ho =>
        obtain ⟨h1, h2⟩ := ih (pre ++ [e]) o htr' ho
        obtain ⟨h3, h4⟩ := h.place hat (hR _ _ _ hx.2)
        rw [ht1] at h3
        rw [ht2] at h4
        refine ⟨⟨h3, ?_⟩, ?_⟩
        · rw [show (m V.size).toNat + WTrace.claimed V.size pre + x.2.1.count = (m V.size).toNat + WTrace.claimed V.size (pre ++ [e]) by omega]
          exact h1
        · simp only [Vecmem.claimed, List.map_cons, List.sum_cons] at h2 ⊢
          omega
    · rw [List.filter_cons, if_neg (by simp [ha])] at ho
      obtain ⟨h1, h2⟩ := ih (pre ++ [e]) o htr' ho
      have : e.claimed V.size = 0 := by simp [WEvent.claimed, ha]
      rw [hcl, this, Nat.add_zero] at h1 h2
      exact ⟨h1, h2⟩

end Appending

theorem forall₂_filter {β γ : Type} {R : β → γ → Prop} {p : β → Bool} {q : γ → Bool} {l : List β} {l' : List γ} (h : List.Forall₂ R l l') (hpq : ∀ x y, R x y → p x = q y) :
    List.Forall₂ R (l.filter p) (l'.filter q) := by
  induction h with
  | nil => exact .nil
  | @cons x y _ _ hr _ ih =>
    rw [List.filter_cons, List.filter_cons, hpq x y hr]
    split
    · exact .cons hr ih
    · exact ih

end Vecmem
