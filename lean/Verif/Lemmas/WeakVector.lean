import Verif.Spec.WeakTasks
import Verif.Lemmas.WeakClaims
import Mathlib.Data.List.Induction

/-!
# Lemmas: what the programs have done
-/

namespace Vecmem

variable {w : Nat}

/-- The accesses of thread `i`, with their positions. -/
def WTrace.own (tr : WTrace w) (i : Nat) : List (WEvent w × Nat) := tr.zipIdx.filter fun x => decide (x.1.thread = i)

theorem own_snoc (tr : WTrace w) (e : WEvent w) (i : Nat) :
    WTrace.own (tr ++ [e]) i = tr.own i ++ if e.thread = i then [(e, tr.length)] else [] := by
  simp only [WTrace.own, List.zipIdx_append, List.filter_append]
  congr 1
  by_cases h : e.thread = i <;> simp [h]

theorem mem_own {tr : WTrace w} {i : Nat} {x : WEvent w × Nat} : x ∈ tr.own i ↔ tr[x.2]? = some x.1 ∧ x.1.thread = i := by
  simp only [WTrace.own, List.mem_filter, List.mem_zipIdx_iff_getElem?, decide_eq_true_eq]

theorem own_map (tr : WTrace w) (i : Nat) : (tr.own i).map (·.1) = tr.of i := by
  induction tr using List.reverseRecOn with
  | nil => rfl
  | append_singleton tr e ih =>
    rw [own_snoc, List.map_append, ih, WTrace.of, WTrace.of, List.filter_append]
    congr 1
    by_cases h : e.thread = i <;> simp [h]

theorem own_sorted (tr : WTrace w) (i : Nat) : (tr.own i).Pairwise (fun x y => x.2 < y.2) := by
  induction tr using List.reverseRecOn with
  | nil => exact List.Pairwise.nil
  | append_singleton tr e ih =>
    rw [own_snoc, List.pairwise_append]
    refine ⟨ih, ?_, ?_⟩
    · split
      · exact List.pairwise_singleton _ _
      · exact List.Pairwise.nil
    · intro x hx y hy
      split at hy
      · rw [List.mem_singleton] at hy
        subst hy
        have := (mem_own.1 hx).1
        exact (List.getElem?_eq_some_iff.1 this).1
      · cases hy

/-- The rest of a program after some accesses. -/
def WProg.after : WProg w → List (WEvent w × Nat) → Option (WProg w)
  | p, [] => some p
  | .act a c next, x :: h => if x.1.addr = a ∧ x.1.call = c then (next (x.1.read.map (·.2))).after h else none
  | _, _ :: _ => none

theorem after_snoc {p : WProg w} {h : List (WEvent w × Nat)} {a : Nat} {c : WCall w} {next : Option (BitVec w) → WProg w} {x : WEvent w × Nat}
    (hp : p.after h = some (.act a c next)) (ha : x.1.addr = a) (hc : x.1.call = c) : p.after (h ++ [x]) = some (next (x.1.read.map (·.2))) := by
  induction h generalizing p with
  | nil =>
    simp only [WProg.after, Option.some.injEq] at hp
    subst hp
    simp [WProg.after, ha, hc]
  | cons y h ih =>
    cases p with
    | done => cases hp
    | failed => cases hp
    | act a' c' next' =>
      simp only [WProg.after] at hp
      simp only [List.cons_append, WProg.after]
      split at hp
      · next hy => rw [if_pos hy]; exact ih hp
      · cases hp

namespace WRun.Reach

variable {I : WImpl w} {m : AMem w} {progs : Nat → WProg w} {s : WRun w}

theorem sys (h : Reach I m progs s) : WSys.Reach I m s.sys := by
  induction h with
  | start => exact .start
  | step _ hs ih =>
    cases hs with
    | quiet _ h1 _ _ => exact ih.step h1
    | access _ _ _ h1 _ _ => exact ih.step h1

theorem after (h : Reach I m progs s) (i : Nat) : (progs i).after (s.sys.trace.own i) = some (s.prog i) := by
  induction h with
  | start => simp [WTrace.own, WSys.start, WProg.after]
  | step _ hs ih =>
    cases hs with
    | quiet _ h1 h2 _ => simpa only [h2] using ih
    | access _ e next h1 h2 h3 =>
      simp only [h2, own_snoc]
      by_cases hi : e.thread = i
      · subst hi
        rw [if_pos rfl]
        rw [h3] at ih
        simpa [WSys.set] using after_snoc ih (x := (e, _)) rfl rfl
      · have hi' : ¬ i = e.thread := fun h => hi h.symm
        rw [if_neg hi, List.append_nil, ih]
        simp [WSys.set, hi']

end WRun.Reach

/-- The index that the `fetch_add` has returned. -/
def WEvent.index (e : WEvent w) : Nat := ((e.read.map fun (x : Nat × BitVec w) => x.2).getD (0 : BitVec w)).toNat

/-- The access is the `fetch_add` of the call. -/
def IsClaim (V : WVec) (c : WAppend w) (e : WEvent w) : Prop :=
  e.addr = V.size ∧ e.call = .atomic (.fetchAdd (BitVec.ofNat w c.count)) none

/-- The access is the store that is given. -/
def IsStoreOf (V : WVec) (index : Nat) (st : Nat × Nat × BitVec w) (x : WEvent w × Nat) : Prop :=
  x.1.addr = V.cell st.1 ((index + st.2.1) % 2 ^ w) ∧ x.1.call = .write st.2.2

/-- What a program has done, and what is left of it. -/
inductive Hist (V : WVec) : WTask w → List (WEvent w × Nat) → WProg w → Prop
  | nil (t : WTask w) : Hist V t [] (t.code V)
  | access {a c next x h p} (_ : x.1.addr = a) (_ : x.1.call = c) (_ : Hist V (next (x.1.read.map (·.2))) h p) :
      Hist V (.access a c next) (x :: h) p
  | failed {c next x} (_ : IsClaim V c x.1) (_ : (V.dbg && !c.check V.cap x.1.index) = true) : Hist V (.append c next) [x] .failed
  | part {c next x h l₁ l₂ a cl k} (_ : IsClaim V c x.1) (_ : c.stores = l₁ ++ l₂) (_ : List.Forall₂ (IsStoreOf V x.1.index) l₁ h) :
      Hist V (.append c next) (x :: h) (.act a cl k)
  | full {c next x h₁ h₂ p} (_ : IsClaim V c x.1) (_ : List.Forall₂ (IsStoreOf V x.1.index) c.stores h₁) (_ : Hist V (next x.1.index) h₂ p) :
      Hist V (.append c next) (x :: (h₁ ++ h₂)) p

theorem after_failed {h : List (WEvent w × Nat)} {p : WProg w} (hp : WProg.failed.after h = some p) : h = [] ∧ p = .failed := by
  cases h with
  | nil => exact ⟨rfl, by simpa [WProg.after] using hp.symm⟩
  | cons => cases hp

theorem after_stores (V : WVec) (index : Nat) (k : WProg w) (l : List (Nat × Nat × BitVec w)) {h : List (WEvent w × Nat)} {p : WProg w}
    (hp : (V.stores index k l).after h = some p) :
    (∃ l₁ l₂ a c next, l = l₁ ++ l₂ ∧ List.Forall₂ (IsStoreOf V index) l₁ h ∧ p = .act a c next) ∨
    ∃ h₁ h₂, h = h₁ ++ h₂ ∧ List.Forall₂ (IsStoreOf V index) l h₁ ∧ k.after h₂ = some p := by
  induction l generalizing h with
  | nil => exact .inr ⟨[], h, rfl, .nil, hp⟩
  | cons st l ih =>
    obtain ⟨v, j, x⟩ := st
    cases h with
    | nil =>
      simp only [WProg.after, WVec.stores, Option.some.injEq] at hp
      exact .inl ⟨[], _, _, _, _, rfl, .nil, hp.symm⟩
    | cons y h =>
      simp only [WVec.stores, WProg.after] at hp
      split at hp
      · next hy =>
        rcases ih hp with ⟨l₁, l₂, a, c, next, h1, h2, h3⟩ | ⟨h₁, h₂, h1, h2, h3⟩
        · exact .inl ⟨(v, j, x) :: l₁, l₂, a, c, next, by rw [h1]; rfl, .cons hy h2, h3⟩
        · exact .inr ⟨y :: h₁, h₂, by rw [h1]; rfl, .cons hy h2, h3⟩
      · cases hp

theorem hist_of_after (V : WVec) (t : WTask w) {h : List (WEvent w × Nat)} {p : WProg w} (hp : (t.code V).after h = some p) : Hist V t h p := by
  induction t generalizing h with
  | done =>
    cases h with
    | nil =>
      simp only [WProg.after, Option.some.injEq] at hp
      subst hp
      exact .nil _
    | cons => cases hp
  | access a c next ih =>
    cases h with
    | nil =>
      simp only [WProg.after, Option.some.injEq] at hp
      subst hp
      exact .nil _
    | cons x h =>
      simp only [WTask.code, WProg.after] at hp
      split at hp
      · next hx => exact .access hx.1 hx.2 (ih _ hp)
      · cases hp
  | append c next ih =>
    cases h with
    | nil =>
      simp only [WProg.after, Option.some.injEq] at hp
      subst hp
      exact .nil _
    | cons x h =>
      simp only [WTask.code, WProg.after] at hp
      split at hp
      · next hx =>
        by_cases hc : (V.dbg && !c.check V.cap x.1.index) = true
        · rw [WEvent.index] at hc
          rw [if_pos hc] at hp
          obtain ⟨rfl, rfl⟩ := after_failed hp
          exact .failed hx hc
        · rw [WEvent.index] at hc
          rw [if_neg hc] at hp
          rcases after_stores V _ _ _ hp with ⟨l₁, l₂, a, c', next', h1, h2, rfl⟩ | ⟨h₁, h₂, rfl, h2, h3⟩
          · exact .part hx h1 h2
          · exact .full hx h2 (ih _ h3)
      · cases hp

/-- The call is as the programs should make it. -/
def WAppend.Fine (c : WAppend w) : Prop := c.count < 2 ^ w ∧ (c.single = true → c.count = 1) ∧ ∀ st ∈ c.stores, st.2.1 < c.count

/-- A store of the history: which claim it comes from. -/
def StoreAt (V : WVec) (h : List (WEvent w × Nat)) (pos : Nat) (x : WEvent w × Nat) : Prop :=
  ∃ pos₀ j y c st, pos = pos₀ + 1 + j ∧ h[pos₀]? = some y ∧ IsClaim V c y.1 ∧ c.Fine ∧ c.stores[j]? = some st ∧ IsStoreOf V y.1.index st x

theorem forall₂_get {α β : Type} {R : α → β → Prop} {l : List α} {l' : List β} (h : List.Forall₂ R l l') {j : Nat} {y : β} (hy : l'[j]? = some y) :
    ∃ x, l[j]? = some x ∧ R x y := by
  induction h generalizing j with
  | nil => cases hy
  | cons hr _ ih =>
    cases j with
    | zero => simp only [List.getElem?_cons_zero, Option.some.injEq] at hy ⊢; subst hy; exact ⟨_, rfl, hr⟩
    | succ j => simpa using ih (by simpa using hy)

/-- Every access of a polite program is an access that changes nothing of the vector, a claim, or a store at a claimed place. -/
theorem Hist.cases_at {V : WVec} {t : WTask w} {h : List (WEvent w × Nat)} {p : WProg w} (hh : Hist V t h p) (hp : t.Polite V) :
    ∀ pos x, h[pos]? = some x → (V.Owns x.1.addr → x.1.call = .read ∨ ∃ o, x.1.call = .atomic .load o) ∨
      (∃ c, c.Fine ∧ IsClaim V c x.1) ∨ StoreAt V h pos x := by
  induction hh with
  | nil => intro pos x hx; cases hx
  | @access a c next y h p h1 h2 _ ih =>
    intro pos x hx
    cases pos with
    | zero =>
      simp only [List.getElem?_cons_zero, Option.some.injEq] at hx
      subst hx
      exact .inl (by rw [h1, h2]; exact hp.1)
    | succ pos =>
      rcases ih (hp.2 _) pos x (by simpa using hx) with h3 | h3 | ⟨pos₀, j, z, c', st, h4, h5, h6⟩
      · exact .inl h3
      · exact .inr (.inl h3)
      · exact .inr (.inr ⟨pos₀ + 1, j, z, c', st, by omega, by simpa using h5, h6⟩)
  | @failed c next y h1 h2 =>
    intro pos x hx
    cases pos with
    | zero =>
      simp only [List.getElem?_cons_zero, Option.some.injEq] at hx
      subst hx
      exact .inr (.inl ⟨c, hp.1, h1⟩)
    | succ pos => simp at hx
  | @part c next y h l₁ l₂ a cl k h1 h2 h3 =>
    intro pos x hx
    cases pos with
    | zero =>
      simp only [List.getElem?_cons_zero, Option.some.injEq] at hx
      subst hx
      exact .inr (.inl ⟨c, hp.1, h1⟩)
    | succ pos =>
      obtain ⟨st, h4, h5⟩ := forall₂_get h3 (by simpa using hx)
      have h6 := (List.getElem?_eq_some_iff.1 h4).1
      exact .inr (.inr ⟨0, pos, y, c, st, by omega, rfl, h1, hp.1, by rw [h2, List.getElem?_append_left h6]; exact h4, h5⟩)
  | @full c next y h₁ h₂ p h1 h2 _ ih =>
    intro pos x hx
    cases pos with
    | zero =>
      simp only [List.getElem?_cons_zero, Option.some.injEq] at hx
      subst hx
      exact .inr (.inl ⟨c, hp.1, h1⟩)
    | succ pos =>
      simp only [List.getElem?_cons_succ] at hx
      rcases Nat.lt_or_ge pos h₁.length with hlt | hge
      · rw [List.getElem?_append_left hlt] at hx
        obtain ⟨st, h4, h5⟩ := forall₂_get h2 hx
        exact .inr (.inr ⟨0, pos, y, c, st, by omega, rfl, h1, hp.1, h4, h5⟩)
      · rw [List.getElem?_append_right hge] at hx
        rcases ih (hp.2 _) _ x hx with h3 | h3 | ⟨pos₀, j, z, c', st, h4, h5, h6⟩
        · exact .inl h3
        · exact .inr (.inl h3)
        · refine .inr (.inr ⟨pos₀ + h₁.length + 1, j, z, c', st, by omega, ?_, h6⟩)
          rw [List.getElem?_cons_succ, List.getElem?_append_right (by omega)]
          rw [show pos₀ + h₁.length - h₁.length = pos₀ by omega]
          exact h5

end Vecmem
