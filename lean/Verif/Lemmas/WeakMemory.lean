import Verif.Model.WeakMemory
import Verif.Lemmas.Tactics

/-!
# Lemmas: weak memory
-/

namespace Vecmem

variable {w : Nat}

namespace Front

/-- Nothing is later. -/
def le (f g : Front) : Prop := ∀ a, f a ≤ g a

theorem le_refl (f : Front) : f.le f := fun _ => Nat.le_refl _

theorem le_trans {f g h : Front} (a : f.le g) (b : g.le h) : f.le h := fun x => Nat.le_trans (a x) (b x)

theorem le_join_left (f g : Front) : f.le (f.join g) := fun _ => Nat.le_max_left _ _

theorem le_join_right (f g : Front) : g.le (f.join g) := fun _ => Nat.le_max_right _ _

theorem join_le {f g h : Front} (a : f.le h) (b : g.le h) : (f.join g).le h := fun x => Nat.max_le.2 ⟨a x, b x⟩

theorem one_le {a t : Nat} {f : Front} (h : t ≤ f a) : (one a t).le f := by
  intro b
  unfold one
  split
  · next e => subst e; exact h
  · exact Nat.zero_le _

theorem le_one (a t : Nat) : t ≤ one a t a := by simp [one]

theorem le_joinIf (b : Bool) (f g : Front) : f.le (joinIf b f g) := by
  unfold joinIf
  split
  · exact le_join_left _ _
  · exact le_refl _

theorem joinIf_le {b : Bool} {f g h : Front} (a : f.le h) (c : g.le h) : (joinIf b f g).le h := by
  unfold joinIf
  split
  · exact join_le a c
  · exact a

end Front

local infixl:70 " ≫ " => Front.le_trans

namespace WSys

/-- By its instructions, an access releases. -/
def CodeReleases (I : WImpl w) (e : WEvent w) : Prop :=
  ∃ code, I e.call = some code ∧ e.wrote.isSome ∧ match code.acc with
    | .store _ rel => rel = true ∨ code.before = true
    | .update _ _ rel _ => rel = true ∨ code.before = true
    | _ => False

/-- By its instructions, an access acquires. -/
def CodeAcquires (I : WImpl w) (e : WEvent w) : Prop :=
  ∃ code, I e.call = some code ∧ e.read.isSome ∧ match code.acc with
    | .load acq => acq = true ∨ code.after = true
    | .update _ acq _ acqF => (if e.wrote.isSome then acq = true else acqF = true) ∨ code.after = true
    | _ => False

/-- What thread `i` will know at its next access. -/
def avail (s : WSys w) (i : Nat) : Front :=
  match s.phase i with
  | .fencing _ _ _ | .leaving => s.acq i
  | _ => s.cur i

/-- A step that makes an access. -/
structure Access (I : WImpl w) (s s' : WSys w) (i a : Nat) (c : WCall w) (code : WCode w) (e : WEvent w) (K L V : Front) : Prop where
  phase : s.phase i = .accessing a c code
  thread : e.thread = i
  addr : e.addr = a
  call : e.call = c
  trace : s'.trace = s.trace ++ [e]
  phase' : s'.phase = set s.phase i (next code)
  cur' : s'.cur = set s.cur i K
  acq' : s'.acq = set s.acq i L
  rel' : s'.rel = s.rel
  sc' : s'.sc = s.sc
  grow : (s.cur i).le K
  curAcq : K.le L
  known : (s.cur i).le V
  later : V.le (if code.after then L else K)
  read : ∀ t v, e.read = some (t, v) → s.cur i a ≤ t ∧ t ≤ V a ∧
    ∃ m, s.mem a t = some m ∧ m.val = v ∧ (CodeAcquires I e → m.front.le V)
  wrote : ∀ t x, e.wrote = some (t, x) → s.cur i a < t ∧ t ≤ V a ∧ s.mem a t = none ∧
    ∃ fr, s'.mem = put s.mem a t ⟨x, fr⟩ ∧ ((code.before = true → (s.cur i).le (s.rel i)) → CodeReleases I e → V.le fr) ∧
      ∀ t' v m, e.read = some (t', v) → s.mem a t' = some m → t = t' + 1 ∧ m.front.le fr
  kept : e.wrote = none → s'.mem = s.mem

/-- Every step is a call, a fence or an access. -/
theorem Step.cases {I : WImpl w} {s s' : WSys w} (h : Step I s s') :
    (∃ i a c code, s.phase i = .idle ∧ I c = some code ∧
      s' = { s with phase := set s.phase i (if code.before then .fencing a c code else .accessing a c code) }) ∨
    (∃ i a c code, s.phase i = .fencing a c code ∧ s' = s.fence i (.accessing a c code)) ∨
    (∃ i, s.phase i = .leaving ∧ s' = s.fence i .idle) ∨
    ((∀ i, (s.cur i).le (s.acq i)) → (∀ i a c code, s.phase i = .accessing a c code → I c = some code) →
      ∃ i a c code e K L V, Access I s s' i a c code e K L V) := by
  cases h with
  | call i a c code h₁ h₂ => exact .inl ⟨i, a, c, code, h₁, h₂, rfl⟩
  | fence i a c code h => exact .inr (.inl ⟨i, a, c, code, h, rfl⟩)
  | leave i h => exact .inr (.inr (.inl ⟨i, h, rfl⟩))
  | load i a t c code acq m hp hc ht hm =>
    refine .inr (.inr (.inr fun hca hco => ⟨i, a, c, code, _, _, _,
      Front.joinIf (acq || code.after) ((s.cur i).join (Front.one a t)) m.front, ⟨hp, rfl, rfl, rfl, rfl, rfl, rfl, rfl, rfl, rfl,
        ?_, ?_, ?_, ?_, ?_, ?_, ?_⟩⟩))
    · exact (Front.le_join_left _ _) ≫ (Front.le_joinIf _ _ _)
    · refine Front.joinIf_le ?_ (Front.le_join_right _ _)
      exact Front.join_le (((hca i) ≫ (Front.le_join_left _ _)) ≫ (Front.le_join_left _ _))
        ((Front.le_join_right _ _) ≫ (Front.le_join_left _ _))
    · exact (Front.le_join_left _ _) ≫ (Front.le_joinIf _ _ _)
    · cases hca' : code.after with
      | true =>
        refine Front.joinIf_le ?_ (Front.le_join_right _ _)
        exact Front.join_le (((hca i) ≫ (Front.le_join_left _ _)) ≫ (Front.le_join_left _ _))
          ((Front.le_join_right _ _) ≫ (Front.le_join_left _ _))
      | false => simp only [Bool.or_false]; exact Front.le_refl _
    · intro t' v hr
      obtain ⟨rfl, rfl⟩ : t = t' ∧ m.val = v := by simpa using hr
      refine ⟨ht, ?_, m, hm, rfl, ?_⟩
      · exact Nat.le_trans (Front.le_one a t) (((Front.le_join_right _ _) ≫ (Front.le_joinIf _ _ _)) a)
      · rintro ⟨code', h1, -, h2⟩
        have : code' = code := Option.some.inj (h1.symm.trans (hco _ _ _ _ hp))
        subst this
        rw [hc] at h2
        have : (acq || code'.after) = true := by simpa using h2
        rw [this]
        exact Front.le_join_right _ _
    · intro t' x h; exact absurd h (by simp)
    · intro _; rfl
  | store i a t c code x rel hp hc ht hm =>
    refine .inr (.inr (.inr fun hca hco => ⟨i, a, c, code, _, _, _,
      (s.cur i).join (Front.one a t), ⟨hp, rfl, rfl, rfl, rfl, rfl, rfl, rfl, rfl, rfl, ?_, ?_, ?_, ?_, ?_, ?_, ?_⟩⟩))
    · exact Front.le_join_left _ _
    · exact Front.join_le ((hca i) ≫ (Front.le_join_left _ _)) (Front.le_join_right _ _)
    · exact Front.le_join_left _ _
    · split
      · exact Front.join_le ((hca i) ≫ (Front.le_join_left _ _)) (Front.le_join_right _ _)
      · exact Front.le_refl _
    · intro t' v hr; exact absurd hr (by simp)
    · intro t' x' h
      obtain ⟨rfl, rfl⟩ : t = t' ∧ x = x' := by simpa using h
      refine ⟨ht, Nat.le_trans (Front.le_one a t) (Front.le_join_right _ _ a), hm, _, rfl, ?_, ?_⟩
      · rintro hb ⟨code', h1, -, h2⟩
        have : code' = code := Option.some.inj (h1.symm.trans (hco _ _ _ _ hp))
        subst this
        rw [hc] at h2
        refine Front.join_le ?_ (Front.le_join_right _ _)
        refine Front.le_trans ?_ (Front.le_join_left _ _)
        cases rel with
        | true => exact Front.le_refl _
        | false => exact hb (by simpa using h2)
      · intro t' v m hr; exact absurd hr (by simp)
    · intro h; exact absurd h (by simp)
  | update i a t c code f acq rel acqF m x hp hc ht hm hf hn =>
    refine .inr (.inr (.inr fun hca hco => ⟨i, a, c, code, _, _, _,
      (Front.joinIf (acq || code.after) (s.cur i) m.front).join (Front.one a (t + 1)),
        ⟨hp, rfl, rfl, rfl, rfl, rfl, rfl, rfl, rfl, rfl, ?_, ?_, ?_, ?_, ?_, ?_, ?_⟩⟩))
    · exact (Front.le_joinIf _ _ _) ≫ (Front.le_join_left _ _)
    · refine Front.join_le (Front.joinIf_le ?_ (Front.le_join_right _ _)) ((Front.le_join_right _ _) ≫ (Front.le_join_left _ _))
      exact ((hca i) ≫ (Front.le_join_left _ _)) ≫ (Front.le_join_left _ _)
    · exact (Front.le_joinIf _ _ _) ≫ (Front.le_join_left _ _)
    · cases hca' : code.after with
      | true =>
        refine Front.join_le (Front.joinIf_le ?_ (Front.le_join_right _ _))
          ((Front.le_join_right _ _) ≫ (Front.le_join_left _ _))
        exact ((hca i) ≫ (Front.le_join_left _ _)) ≫ (Front.le_join_left _ _)
      | false => simp only [Bool.or_false]; exact Front.le_refl _
    · intro t' v hr
      obtain ⟨rfl, rfl⟩ : t = t' ∧ m.val = v := by simpa using hr
      refine ⟨ht, ?_, m, hm, rfl, ?_⟩
      · exact Nat.le_trans (Nat.le_trans (Nat.le_succ t) (Front.le_one a (t + 1))) (Front.le_join_right _ _ a)
      · rintro ⟨code', h1, -, h2⟩
        have : code' = code := Option.some.inj (h1.symm.trans (hco _ _ _ _ hp))
        subst this
        rw [hc] at h2
        have : (acq || code'.after) = true := by simpa using h2
        rw [this]
        exact (Front.le_join_right _ _) ≫ (Front.le_join_left _ _)
    · intro t' x' h
      obtain ⟨rfl, rfl⟩ : t + 1 = t' ∧ x = x' := by simpa using h
      refine ⟨by omega, Nat.le_trans (Front.le_one a (t + 1)) (Front.le_join_right _ _ a), hn, _, rfl, ?_, ?_⟩
      · rintro hb ⟨code', h1, -, h2⟩
        have : code' = code := Option.some.inj (h1.symm.trans (hco _ _ _ _ hp))
        subst this
        rw [hc] at h2
        refine Front.join_le (Front.joinIf_le ?_ (Front.le_join_right _ _))
          ((Front.le_join_right _ _) ≫ (Front.le_join_left _ _))
        refine Front.le_trans ?_ ((Front.le_join_left _ _) ≫ (Front.le_join_left _ _))
        cases rel with
        | true => exact (Front.le_joinIf _ _ _) ≫ (Front.le_join_left _ _)
        | false => exact hb (by simpa using h2)
      · intro t' v m' hr hm'
        obtain ⟨rfl, rfl⟩ : t = t' ∧ m.val = v := by simpa using hr
        have : m = m' := Option.some.inj (hm.symm.trans hm')
        subst this
        exact ⟨rfl, Front.le_join_right _ _⟩
    · intro h; exact absurd h (by simp)
  | keep i a t c code f acq rel acqF m hp hc ht hm hf =>
    refine .inr (.inr (.inr fun hca hco => ⟨i, a, c, code, _, _, _,
      Front.joinIf (acqF || code.after) ((s.cur i).join (Front.one a t)) m.front, ⟨hp, rfl, rfl, rfl, rfl, rfl, rfl, rfl, rfl, rfl,
        ?_, ?_, ?_, ?_, ?_, ?_, ?_⟩⟩))
    · exact (Front.le_join_left _ _) ≫ (Front.le_joinIf _ _ _)
    · refine Front.joinIf_le ?_ (Front.le_join_right _ _)
      exact Front.join_le (((hca i) ≫ (Front.le_join_left _ _)) ≫ (Front.le_join_left _ _))
        ((Front.le_join_right _ _) ≫ (Front.le_join_left _ _))
    · exact (Front.le_join_left _ _) ≫ (Front.le_joinIf _ _ _)
    · cases hca' : code.after with
      | true =>
        refine Front.joinIf_le ?_ (Front.le_join_right _ _)
        exact Front.join_le (((hca i) ≫ (Front.le_join_left _ _)) ≫ (Front.le_join_left _ _))
          ((Front.le_join_right _ _) ≫ (Front.le_join_left _ _))
      | false => simp only [Bool.or_false]; exact Front.le_refl _
    · intro t' v hr
      obtain ⟨rfl, rfl⟩ : t = t' ∧ m.val = v := by simpa using hr
      refine ⟨ht, ?_, m, hm, rfl, ?_⟩
      · exact Nat.le_trans (Front.le_one a t) (((Front.le_join_right _ _) ≫ (Front.le_joinIf _ _ _)) a)
      · rintro ⟨code', h1, -, h2⟩
        have : code' = code := Option.some.inj (h1.symm.trans (hco _ _ _ _ hp))
        subst this
        rw [hc] at h2
        have : (acqF || code'.after) = true := by simpa using h2
        rw [this]
        exact Front.le_join_right _ _
    · intro t' x h; exact absurd h (by simp)
    · intro _; rfl
  | plainLoad i a t c code m hp hc ht hm =>
    refine .inr (.inr (.inr fun hca hco => ⟨i, a, c, code, _, _, _,
      (s.cur i).join (Front.one a t), ⟨hp, rfl, rfl, rfl, rfl, rfl, rfl, rfl, rfl, rfl, ?_, ?_, ?_, ?_, ?_, ?_, ?_⟩⟩))
    · exact Front.le_join_left _ _
    · exact Front.join_le ((hca i) ≫ (Front.le_join_left _ _)) (Front.le_join_right _ _)
    · exact Front.le_join_left _ _
    · split
      · exact Front.join_le ((hca i) ≫ (Front.le_join_left _ _)) (Front.le_join_right _ _)
      · exact Front.le_refl _
    · intro t' v hr
      obtain ⟨rfl, rfl⟩ : t = t' ∧ m.val = v := by simpa using hr
      refine ⟨ht, Nat.le_trans (Front.le_one a t) (Front.le_join_right _ _ a), m, hm, rfl, ?_⟩
      rintro ⟨code', h1, -, h2⟩
      have : code' = code := Option.some.inj (h1.symm.trans (hco _ _ _ _ hp))
      subst this
      rw [hc] at h2
      exact h2.elim
    · intro t' x h; exact absurd h (by simp)
    · intro _; rfl
  | plainStore i a t c code x hp hc ht hm =>
    refine .inr (.inr (.inr fun hca hco => ⟨i, a, c, code, _, _, _,
      (s.cur i).join (Front.one a t), ⟨hp, rfl, rfl, rfl, rfl, rfl, rfl, rfl, rfl, rfl, ?_, ?_, ?_, ?_, ?_, ?_, ?_⟩⟩))
    · exact Front.le_join_left _ _
    · exact Front.join_le ((hca i) ≫ (Front.le_join_left _ _)) (Front.le_join_right _ _)
    · exact Front.le_join_left _ _
    · split
      · exact Front.join_le ((hca i) ≫ (Front.le_join_left _ _)) (Front.le_join_right _ _)
      · exact Front.le_refl _
    · intro t' v hr; exact absurd hr (by simp)
    · intro t' x' h
      obtain ⟨rfl, rfl⟩ : t = t' ∧ x = x' := by simpa using h
      refine ⟨ht, Nat.le_trans (Front.le_one a t) (Front.le_join_right _ _ a), hm, _, rfl, ?_, ?_⟩
      · rintro hb ⟨code', h1, -, h2⟩
        have : code' = code := Option.some.inj (h1.symm.trans (hco _ _ _ _ hp))
        subst this
        rw [hc] at h2
        exact h2.elim
      · intro t' v m hr; exact absurd hr (by simp)
    · intro h; exact absurd h (by simp)

theorem set_same {α : Type} (f : Nat → α) (i : Nat) (x : α) : set f i x i = x := by simp [set]

theorem set_ne {α : Type} (f : Nat → α) {i j : Nat} (x : α) (h : j ≠ i) : set f i x j = f j := by simp [set, h]

theorem getElem?_snoc {α : Type} {l : List α} {x y : α} {k : Nat} (h : (l ++ [x])[k]? = some y) :
    (k < l.length ∧ l[k]? = some y) ∨ (k = l.length ∧ y = x) := by
  rw [List.getElem?_append] at h
  split at h
  · next hk => exact .inl ⟨hk, h⟩
  · next hk =>
    right
    have hk' : k - l.length = 0 := by
      by_contra hne
      rw [List.getElem?_eq_none (by simp; omega)] at h
      exact absurd h (by simp)
    rw [hk'] at h
    exact ⟨by omega, by simpa using h.symm⟩

/-- What holds in all executions.  `V k` is what the thread of access `k` knew after it, `F k` what it knew at its last fence, and `Snap` are the
points of knowledge of the fences. -/
structure Inv (I : WImpl w) (s : WSys w) (V F : Nat → Front) (Snap : Front → Prop) : Prop where
  curAcq : ∀ i, (s.cur i).le (s.acq i)
  relCur : ∀ i, (s.rel i).le (s.cur i)
  code : ∀ i a c code, (s.phase i = .accessing a c code ∨ s.phase i = .fencing a c code) → I c = some code
  fenced : ∀ i a c code, s.phase i = .accessing a c code → code.before = true → (s.cur i).le (s.rel i)
  sees : ∀ (k : Nat) (e : WEvent w), s.trace[k]? = some e → (V k).le (s.avail e.thread)
  read : ∀ (k : Nat) (e : WEvent w) t v, s.trace[k]? = some e → e.read = some (t, v) → t ≤ V k e.addr ∧
    ∃ m, s.mem e.addr t = some m ∧ m.val = v ∧ (CodeAcquires I e → m.front.le (V k))
  wrote : ∀ (k : Nat) (e : WEvent w) t v, s.trace[k]? = some e → e.wrote = some (t, v) → t ≤ V k e.addr ∧
    ∃ m, s.mem e.addr t = some m ∧ m.val = v ∧ (CodeReleases I e → (V k).le m.front)
  update : ∀ (k : Nat) (e : WEvent w) t v t' v', s.trace[k]? = some e → e.read = some (t, v) → e.wrote = some (t', v') → t' = t + 1 ∧
    ∀ m m', s.mem e.addr t = some m → s.mem e.addr t' = some m' → m.front.le m'.front
  program : ∀ (k j : Nat) (e f : WEvent w), k < j → s.trace[k]? = some e → s.trace[j]? = some f → e.thread = f.thread →
    (V k).le (V j) ∧ (∀ t v, f.read = some (t, v) → V k f.addr ≤ t) ∧ ∀ t v, f.wrote = some (t, v) → V k f.addr < t
  fence : ∀ (k : Nat) (e : WEvent w) code, s.trace[k]? = some e → I e.call = some code → code.before = true →
    Snap (F k) ∧ (∀ (j : Nat) (f : WEvent w), j < k → s.trace[j]? = some f → f.thread = e.thread → (V j).le (F k)) ∧
      ∀ t v, e.read = some (t, v) → F k e.addr ≤ t
  snap : ∀ i, Snap (s.rel i)
  chain : ∀ f g, Snap f → Snap g → f.le g ∨ g.le f
  top : ∀ f, Snap f → f.le s.sc

theorem inv_start (I : WImpl w) (m : AMem w) : Inv I (start m) (fun _ _ => 0) (fun _ _ => 0) (fun f => f = fun _ => 0) where
  curAcq _ _ := Nat.le_refl _
  relCur _ _ := Nat.le_refl _
  code i a c code h := by rcases h with h | h <;> exact absurd h (by simp [start])
  fenced i a c code h := absurd h (by simp [start])
  sees k e h := absurd h (by simp [start])
  read k e t v h := absurd h (by simp [start])
  wrote k e t v h := absurd h (by simp [start])
  update k e t v t' v' h := absurd h (by simp [start])
  program k j e f _ h := absurd h (by simp [start])
  fence k e code h := absurd h (by simp [start])
  snap _ := rfl
  chain f g hf hg := by subst hf; subst hg; exact .inl (Front.le_refl _)
  top f hf := by subst hf; exact Front.le_refl _

theorem avail_congr {s s' : WSys w} {i : Nat} (h₁ : s'.phase i = s.phase i) (h₂ : s'.cur i = s.cur i) (h₃ : s'.acq i = s.acq i) :
    (s.avail i).le (s'.avail i) := by
  unfold avail
  rw [h₁, h₂, h₃]
  exact Front.le_refl _

theorem Inv.avail_le {I : WImpl w} {s : WSys w} {V F : Nat → Front} {Snap : Front → Prop} (h : Inv I s V F Snap) (i : Nat) :
    (s.avail i).le (s.acq i) := by
  unfold avail
  split
  · exact Front.le_refl _
  · exact Front.le_refl _
  · exact h.curAcq i

theorem Inv.call {I : WImpl w} {s : WSys w} {V F : Nat → Front} {Snap : Front → Prop} (h : Inv I s V F Snap) {i a : Nat}
    {c : WCall w} {code : WCode w} (hi : s.phase i = .idle) (hc : I c = some code) :
    Inv I { s with phase := set s.phase i (if code.before then .fencing a c code else .accessing a c code) } V F Snap where
  curAcq := h.curAcq
  relCur := h.relCur
  code j b d code' hj := by
    by_cases hij : j = i
    · subst hij
      simp only [set_same] at hj
      split at hj
      · rcases hj with hj | hj
        · exact absurd hj (by simp)
        · cases hj; exact hc
      · rcases hj with hj | hj
        · cases hj; exact hc
        · exact absurd hj (by simp)
    · simp only [set_ne _ _ hij] at hj
      exact h.code j b d code' hj
  fenced j b d code' hj hb := by
    by_cases hij : j = i
    · subst hij
      simp only [set_same] at hj
      split at hj
      · exact absurd hj (by simp)
      · next hn => cases hj; exact absurd hb hn
    · simp only [set_ne _ _ hij] at hj
      exact h.fenced j b d code' hj hb
  sees k e hk := by
    refine (h.sees k e hk) ≫ ?_
    by_cases hij : e.thread = i
    · have : s.avail e.thread = s.cur e.thread := by unfold avail; rw [hij, hi]
      rw [this]
      unfold avail
      simp only [hij, set_same]
      split
      · exact h.curAcq i
      · exact h.curAcq i
      · exact Front.le_refl _
    · exact avail_congr (set_ne _ _ hij) rfl rfl
  read := h.read
  wrote := h.wrote
  update := h.update
  program := h.program
  fence := h.fence
  snap := h.snap
  chain := h.chain
  top := h.top

theorem Inv.fences {I : WImpl w} {s : WSys w} {V F : Nat → Front} {Snap : Front → Prop} (h : Inv I s V F Snap) {i : Nat}
    {p : WPhase w} (hp : ∀ a c code, p = .accessing a c code → I c = some code) (hq : p = .idle ∨ ∃ a c code, p = .accessing a c code) :
    Inv I (s.fence i p) V F (fun f => Snap f ∨ f = s.sc.join (s.acq i)) where
  curAcq j := by
    by_cases hij : j = i
    · subst hij; simp only [WSys.fence, set_same]; exact Front.le_refl _
    · simp only [WSys.fence, set_ne _ _ hij]; exact h.curAcq j
  relCur j := by
    by_cases hij : j = i
    · subst hij; simp only [WSys.fence, set_same]; exact Front.le_refl _
    · simp only [WSys.fence, set_ne _ _ hij]; exact h.relCur j
  code j b d code' hj := by
    by_cases hij : j = i
    · subst hij
      simp only [WSys.fence, set_same] at hj
      rcases hj with hj | hj
      · exact hp _ _ _ hj
      · rcases hq with rfl | ⟨_, _, _, rfl⟩ <;> exact absurd hj (by simp)
    · simp only [WSys.fence, set_ne _ _ hij] at hj
      exact h.code j b d code' hj
  fenced j b d code' hj hb := by
    by_cases hij : j = i
    · subst hij; simp only [WSys.fence, set_same]; exact Front.le_refl _
    · simp only [WSys.fence, set_ne _ _ hij] at hj ⊢
      exact h.fenced j b d code' hj hb
  sees k e hk := by
    refine (h.sees k e hk) ≫ ?_
    by_cases hij : e.thread = i
    · refine (h.avail_le _) ≫ ?_
      have : (s.fence i p).avail e.thread = s.sc.join (s.acq i) := by
        unfold avail
        simp only [WSys.fence, hij, set_same]
        rcases hq with rfl | ⟨_, _, _, rfl⟩ <;> rfl
      rw [this, hij]
      exact Front.le_join_right _ _
    · exact avail_congr (set_ne _ _ hij) (set_ne _ _ hij) (set_ne _ _ hij)
  read := h.read
  wrote := h.wrote
  update := h.update
  program := h.program
  fence k e code hk hc hb := by
    obtain ⟨h1, h2, h3⟩ := h.fence k e code hk hc hb
    exact ⟨.inl h1, h2, h3⟩
  snap j := by
    by_cases hij : j = i
    · subst hij; right; simp only [WSys.fence, set_same]
    · simp only [WSys.fence, set_ne _ _ hij]; exact .inl (h.snap j)
  chain f g hf hg := by
    rcases hf with hf | rfl <;> rcases hg with hg | rfl
    · exact h.chain f g hf hg
    · exact .inl ((h.top f hf) ≫ (Front.le_join_left _ _))
    · exact .inr ((h.top g hg) ≫ (Front.le_join_left _ _))
    · exact .inl (Front.le_refl _)
  top f hf := by
    rcases hf with hf | rfl
    · exact (h.top f hf) ≫ (Front.le_join_left _ _)
    · exact Front.le_refl _

/-- An access leaves the memory as it was, except where it writes, where there was nothing. -/
theorem Access.mem {I : WImpl w} {s s' : WSys w} {i a : Nat} {c : WCall w} {code : WCode w} {e : WEvent w} {K L X : Front}
    (h : Access I s s' i a c code e K L X) {b t : Nat} {m : WMsg w} (hm : s.mem b t = some m) : s'.mem b t = some m := by
  cases hw : e.wrote with
  | none => rw [h.kept hw]; exact hm
  | some p =>
    obtain ⟨t', x⟩ := p
    obtain ⟨-, -, hn, fr, hs, -⟩ := h.wrote t' x hw
    rw [hs]
    unfold put
    rw [if_neg]
    · exact hm
    · rintro ⟨rfl, rfl⟩
      rw [hn] at hm
      exact absurd hm (by simp)

theorem Inv.access {I : WImpl w} {s s' : WSys w} {V F : Nat → Front} {Snap : Front → Prop} (h : Inv I s V F Snap) {i a : Nat}
    {c : WCall w} {code : WCode w} {e : WEvent w} {K L X : Front} (ha : Access I s s' i a c code e K L X) :
    Inv I s' (set V s.trace.length X) (set F s.trace.length (s.rel i)) Snap where
  curAcq j := by
    rw [ha.cur', ha.acq']
    by_cases hij : j = i
    · subst hij; simp only [set_same]; exact ha.curAcq
    · simp only [set_ne _ _ hij]; exact h.curAcq j
  relCur j := by
    rw [ha.cur', ha.rel']
    by_cases hij : j = i
    · subst hij; simp only [set_same]; exact (h.relCur j) ≫ ha.grow
    · simp only [set_ne _ _ hij]; exact h.relCur j
  code j b d code' hj := by
    rw [ha.phase'] at hj
    by_cases hij : j = i
    · subst hij
      simp only [set_same, next] at hj
      split at hj <;> rcases hj with hj | hj <;> exact absurd hj (by simp)
    · simp only [set_ne _ _ hij] at hj
      exact h.code j b d code' hj
  fenced j b d code' hj hb := by
    rw [ha.phase'] at hj
    rw [ha.cur', ha.rel']
    by_cases hij : j = i
    · subst hij
      simp only [set_same, next] at hj
      split at hj <;> exact absurd hj (by simp)
    · simp only [set_ne _ _ hij] at hj ⊢
      exact h.fenced j b d code' hj hb
  sees k f hk := by
    have hav : s'.avail i = if code.after then L else K := by
      unfold avail
      rw [ha.phase', ha.cur', ha.acq']
      simp only [set_same, next]
      cases code.after <;> rfl
    have hold : s.avail i = s.cur i := by unfold avail; rw [ha.phase]
    rw [ha.trace] at hk
    rcases getElem?_snoc hk with ⟨hlt, hk⟩ | ⟨rfl, rfl⟩
    · rw [set_ne _ _ (by omega)]
      refine (h.sees k f hk) ≫ ?_
      by_cases hij : f.thread = i
      · rw [hij, hav, hold]
        exact ha.known ≫ ha.later
      · exact avail_congr (by rw [ha.phase', set_ne _ _ hij]) (by rw [ha.cur', set_ne _ _ hij])
          (by rw [ha.acq', set_ne _ _ hij])
    · rw [set_same, ha.thread, hav]
      exact ha.later
  read k f t v hk hr := by
    rw [ha.trace] at hk
    rcases getElem?_snoc hk with ⟨hlt, hk⟩ | ⟨rfl, rfl⟩
    · rw [set_ne _ _ (by omega)]
      obtain ⟨h1, m, h2, h3, h4⟩ := h.read k f t v hk hr
      exact ⟨h1, m, ha.mem h2, h3, h4⟩
    · rw [set_same, ha.addr]
      obtain ⟨-, h1, m, h2, h3, h4⟩ := ha.read t v hr
      exact ⟨h1, m, ha.mem h2, h3, h4⟩
  wrote k f t v hk hr := by
    rw [ha.trace] at hk
    rcases getElem?_snoc hk with ⟨hlt, hk⟩ | ⟨rfl, rfl⟩
    · rw [set_ne _ _ (by omega)]
      obtain ⟨h1, m, h2, h3, h4⟩ := h.wrote k f t v hk hr
      exact ⟨h1, m, ha.mem h2, h3, h4⟩
    · rw [set_same, ha.addr]
      obtain ⟨-, h1, -, fr, h2, h3, -⟩ := ha.wrote t v hr
      refine ⟨h1, ⟨v, fr⟩, ?_, rfl, h3 (h.fenced i a c code ha.phase)⟩
      rw [h2]
      simp [put]
  update k f t v t' v' hk hr hw := by
    rw [ha.trace] at hk
    rcases getElem?_snoc hk with ⟨hlt, hk⟩ | ⟨rfl, rfl⟩
    · obtain ⟨h1, h2⟩ := h.update k f t v t' v' hk hr hw
      refine ⟨h1, fun m m' hm hm' => ?_⟩
      obtain ⟨-, n, hn, -⟩ := h.read k f t v hk hr
      obtain ⟨-, n', hn', -⟩ := h.wrote k f t' v' hk hw
      have e1 : n = m := Option.some.inj ((ha.mem hn).symm.trans hm)
      have e2 : n' = m' := Option.some.inj ((ha.mem hn').symm.trans hm')
      subst e1; subst e2
      exact h2 n n' hn hn'
    · obtain ⟨-, -, n, hn, -⟩ := ha.read t v hr
      obtain ⟨-, -, -, fr, h2, -, h3⟩ := ha.wrote t' v' hw
      obtain ⟨h4, h5⟩ := h3 t v n hr hn
      refine ⟨h4, fun m m' hm hm' => ?_⟩
      rw [ha.addr] at hm hm'
      have e1 : n = m := Option.some.inj ((ha.mem hn).symm.trans hm)
      subst e1
      rw [h2] at hm'
      simp only [put, and_self, if_true] at hm'
      cases hm'
      exact h5
  program k j f g hkj hk hj hth := by
    rw [ha.trace] at hk hj
    rcases getElem?_snoc hj with ⟨hlt, hj⟩ | ⟨rfl, rfl⟩
    · rcases getElem?_snoc hk with ⟨hlt', hk⟩ | ⟨rfl, rfl⟩
      · rw [set_ne _ _ (by omega), set_ne _ _ (by omega)]
        exact h.program k j f g hkj hk hj hth
      · omega
    · rcases getElem?_snoc hk with ⟨hlt', hk⟩ | ⟨rfl, rfl⟩
      · rw [set_ne _ _ (by omega), set_same]
        have hs := h.sees k f hk
        rw [hth, ha.thread] at hs
        have hold : s.avail i = s.cur i := by unfold avail; rw [ha.phase]
        rw [hold] at hs
        refine ⟨hs ≫ ha.known, fun t v hr => ?_, fun t v hw => ?_⟩
        · rw [ha.addr]
          exact Nat.le_trans (hs a) (ha.read t v hr).1
        · rw [ha.addr]
          exact Nat.lt_of_le_of_lt (hs a) (ha.wrote t v hw).1
      · omega
  fence k f code' hk hc hb := by
    rw [ha.trace] at hk
    rcases getElem?_snoc hk with ⟨hlt, hk⟩ | ⟨rfl, rfl⟩
    · rw [set_ne _ _ (by omega)]
      obtain ⟨h1, h2, h3⟩ := h.fence k f code' hk hc hb
      refine ⟨h1, fun j g hj hjt hth => ?_, h3⟩
      rw [ha.trace] at hjt
      rw [set_ne _ _ (by omega)]
      rcases getElem?_snoc hjt with ⟨hlt', hjt⟩ | ⟨rfl, rfl⟩
      · exact h2 j g hj hjt hth
      · omega
    · rw [set_same]
      have : code' = code := by
        rw [ha.call] at hc
        exact Option.some.inj (hc.symm.trans (h.code i a c code (.inl ha.phase)))
      subst this
      refine ⟨h.snap i, fun j g hj hjt hth => ?_, fun t v hr => ?_⟩
      · rw [ha.trace] at hjt
        rw [set_ne _ _ (by omega)]
        rcases getElem?_snoc hjt with ⟨hlt', hjt⟩ | ⟨rfl, rfl⟩
        · have hs := h.sees j g hjt
          rw [hth, ha.thread] at hs
          have hold : s.avail i = s.cur i := by unfold avail; rw [ha.phase]
          rw [hold] at hs
          exact hs ≫ (h.fenced i a c code' ha.phase hb)
        · omega
      · rw [ha.addr]
        exact Nat.le_trans (h.relCur i a) (ha.read t v hr).1
  snap j := by rw [ha.rel']; exact h.snap j
  chain := h.chain
  top := by rw [ha.sc']; exact h.top

theorem Reach.inv {I : WImpl w} {m : AMem w} {s : WSys w} (h : Reach I m s) : ∃ V F Snap, Inv I s V F Snap := by
  induction h with
  | start => exact ⟨_, _, _, inv_start I m⟩
  | step _ hs ih =>
    obtain ⟨V, F, Snap, ih⟩ := ih
    rcases hs.cases with ⟨i, a, c, code, h1, h2, rfl⟩ | ⟨i, a, c, code, h1, rfl⟩ | ⟨i, h1, rfl⟩ | ha
    · exact ⟨_, _, _, ih.call h1 h2⟩
    · exact ⟨_, _, _, ih.fences (fun a' c' code' he => by cases he; exact ih.code _ _ _ _ (.inr h1)) (.inr ⟨a, c, code, rfl⟩)⟩
    · exact ⟨_, _, _, ih.fences (fun a' c' code' he => by cases he) (.inl rfl)⟩
    · obtain ⟨i, a, c, code, e, K, L, X, ha⟩ := ha ih.curAcq (fun i a c code hp => ih.code i a c code (.inl hp))
      exact ⟨_, _, _, ih.access ha⟩

/-! ## from the instructions to the promises -/

theorem releaseSequence_front {I : WImpl w} {s : WSys w} {V F : Nat → Front} {Snap : Front → Prop} (h : Inv I s V F Snap)
    {i k : Nat} {e : WEvent w} {t : Nat} {v : BitVec w} (hi : s.trace[i]? = some e) (hw : e.wrote = some (t, v))
    (hr : CodeReleases I e) (hs : s.trace.ReleaseSequence i k) :
    ∃ f t' v' m, s.trace[k]? = some f ∧ f.addr = e.addr ∧ f.wrote = some (t', v') ∧ t ≤ t' ∧ s.mem f.addr t' = some m ∧
      (V i).le m.front := by
  induction hs with
  | head =>
    obtain ⟨-, m, h1, -, h2⟩ := h.wrote i e t v hi hw
    exact ⟨e, t, v, m, hi, rfl, hw, Nat.le_refl _, h1, h2 hr⟩
  | @next j k f _ hrf hk hsome ih =>
    obtain ⟨g, t', v', m, h1, h2, h3, h4, h5, h6⟩ := ih
    obtain ⟨g', f', u, x, r1, r2, r3, r4, r5⟩ := hrf
    cases h1.symm.trans r1
    cases hk.symm.trans r2
    cases h3.symm.trans r4
    obtain ⟨⟨t'', v''⟩, hf⟩ := Option.isSome_iff_exists.1 hsome
    obtain ⟨u1, u2⟩ := h.update k f t' v' t'' v'' hk r5 hf
    obtain ⟨-, m', w1, -⟩ := h.wrote k f t'' v'' hk hf
    refine ⟨f, t'', v'', m', hk, by rw [← r3, h2], hf, by omega, w1, h6 ≫ (u2 m m' (by rw [← r3]; exact h5) w1)⟩

/-- One step of the order: in a program, or by a publication. -/
def Edge (R A : WEvent w → Prop) (tr : WTrace w) (i j : Nat) : Prop := tr.Before i j ∨ tr.Synchronizes R A i j

theorem happensBefore_edges {R A : WEvent w → Prop} {tr : WTrace w} {i j : Nat} (h : tr.HappensBefore R A i j) :
    Relation.TransGen (Edge R A tr) i j := by
  induction h with
  | program h => exact .single (.inl h)
  | publish h => exact .single (.inr h)
  | trans _ _ ih₁ ih₂ => exact ih₁.trans ih₂

/-- Accesses that happen after another one know what it knew. -/
theorem happensBefore_known {I : WImpl w} {s : WSys w} {V F : Nat → Front} {Snap : Front → Prop} (h : Inv I s V F Snap) {i j : Nat}
    (hb : Relation.TransGen (Edge (CodeReleases I) (CodeAcquires I) s.trace) i j) :
    (V i).le (V j) ∧ ∀ (e f : WEvent w), s.trace[i]? = some e → s.trace[j]? = some f → e.addr = f.addr → ∀ t, e.At t →
      (∀ t' v, f.read = some (t', v) → t ≤ t') ∧ ∀ t' v, f.wrote = some (t', v) → t < t' := by
  have hat : ∀ (k : Nat) (e : WEvent w) t, s.trace[k]? = some e → e.At t → t ≤ V k e.addr := by
    intro k e t hk ht
    rcases ht with ⟨v, ht⟩ | ⟨v, ht⟩
    · exact (h.read k e t v hk ht).1
    · exact (h.wrote k e t v hk ht).1
  have hpub : ∀ {i' j : Nat}, s.trace.Synchronizes (CodeReleases I) (CodeAcquires I) i' j → (V i').le (V j) ∧
      ∀ (f : WEvent w), s.trace[j]? = some f → ∃ e t v t' v', s.trace[i']? = some e ∧ e.addr = f.addr ∧ e.wrote = some (t, v) ∧
        f.read = some (t', v') ∧ t ≤ t' := by
    rintro i' j ⟨e, f, k, he, hr, hf, ha, hrs, hrf⟩
    obtain ⟨code, hc, hsome, -⟩ := id hr
    obtain ⟨⟨t, v⟩, hw⟩ := Option.isSome_iff_exists.1 hsome
    obtain ⟨g, t', v', m, g1, g2, g3, g4, g5, g6⟩ := releaseSequence_front h he hw hr hrs
    obtain ⟨g', f', u, x, r1, r2, r3, r4, r5⟩ := hrf
    cases g1.symm.trans r1
    cases hf.symm.trans r2
    cases g3.symm.trans r4
    obtain ⟨-, m', m1, -, m2⟩ := h.read j f t' v' hf r5
    rw [r3] at g5
    cases g5.symm.trans m1
    refine ⟨g6 ≫ (m2 ha), fun f' hf' => ?_⟩
    cases hf.symm.trans hf'
    exact ⟨e, t, v, t', v', he, by rw [← g2, r3], hw, r5, g4⟩
  induction hb with
  | @single j hb =>
    rcases hb with ⟨e, f, he, hf, hth, hij⟩ | hb
    · obtain ⟨h1, h2, h3⟩ := h.program i j e f hij he hf hth
      refine ⟨h1, fun e' f' he' hf' hadr t ht => ?_⟩
      cases he.symm.trans he'
      cases hf.symm.trans hf'
      have := hat i e t he ht
      rw [hadr] at this
      exact ⟨fun t' v hr => Nat.le_trans this (h2 t' v hr), fun t' v hw => Nat.lt_of_le_of_lt this (h3 t' v hw)⟩
    · obtain ⟨h1, h2⟩ := hpub hb
      refine ⟨h1, fun e f he hf hadr t ht => ?_⟩
      obtain ⟨e', t₀, v₀, t₁, v₁, p1, p2, p3, p4, p5⟩ := h2 f hf
      cases he.symm.trans p1
      have hle : t ≤ t₀ := by
        rcases ht with ⟨v, ht⟩ | ⟨v, ht⟩
        · have := (h.update i e t v t₀ v₀ he ht p3).1; omega
        · rw [p3] at ht; cases ht; exact Nat.le_refl _
      refine ⟨fun t' v hr => ?_, fun t' v hw => ?_⟩
      · rw [p4] at hr; cases hr; omega
      · have := (h.update j f t₁ v₁ t' v hf p4 hw).1; omega
  | @tail k j _ hb ih =>
    obtain ⟨ih1, ih2⟩ := ih
    rcases hb with ⟨g, f, hg, hf, hth, hij⟩ | hb
    · obtain ⟨h1, h2, h3⟩ := h.program k j g f hij hg hf hth
      refine ⟨ih1 ≫ h1, fun e f' he hf' hadr t ht => ?_⟩
      cases hf.symm.trans hf'
      have := hat i e t he ht
      rw [hadr] at this
      have := Nat.le_trans this (ih1 f.addr)
      exact ⟨fun t' v hr => Nat.le_trans this (h2 t' v hr), fun t' v hw => Nat.lt_of_le_of_lt this (h3 t' v hw)⟩
    · obtain ⟨h1, h2⟩ := hpub hb
      refine ⟨ih1 ≫ h1, fun e f he hf hadr t ht => ?_⟩
      obtain ⟨g, t₀, v₀, t₁, v₁, p1, p2, p3, p4, p5⟩ := h2 f hf
      have := (ih2 e g he p1 (by rw [hadr, p2]) t ht).2 t₀ v₀ p3
      refine ⟨fun t' v hr => ?_, fun t' v hw => ?_⟩
      · rw [p4] at hr; cases hr; omega
      · have := (h.update j f t₁ v₁ t' v hf p4 hw).1; omega

theorem happensBefore_mono {R R' A A' : WEvent w → Prop} {tr : WTrace w} {i j : Nat}
    (hR : ∀ (k : Nat) e, tr[k]? = some e → R e → R' e) (hA : ∀ (k : Nat) e, tr[k]? = some e → A e → A' e)
    (h : tr.HappensBefore R A i j) : tr.HappensBefore R' A' i j := by
  induction h with
  | program h => exact .program h
  | publish h =>
    obtain ⟨e, f, k, h1, h2, h3, h4, h5, h6⟩ := h
    exact .publish ⟨e, f, k, h1, hR _ e h1 h2, h3, hA _ f h3 h4, h5, h6⟩
  | trans _ _ ih₁ ih₂ => exact .trans ih₁ ih₂

/-- The accesses are ordered as the instructions promise. -/
theorem Reach.ordered {I : WImpl w} {m : AMem w} {s : WSys w} (h : Reach I m s) {R A : WEvent w → Prop}
    (hR : ∀ (k : Nat) e, s.trace[k]? = some e → R e → CodeReleases I e) (hA : ∀ (k : Nat) e, s.trace[k]? = some e → A e → CodeAcquires I e) :
    s.trace.Ordered R A := by
  obtain ⟨V, F, Snap, hi⟩ := h.inv
  intro i j e f hb he hf hadr t ht
  exact (happensBefore_known hi (happensBefore_edges (happensBefore_mono hR hA hb))).2 e f he hf hadr t ht

/-- Two accesses with fences before them: one of them sees what was done before the other. -/
theorem Reach.fences_ordered {I : WImpl w} {m : AMem w} {s : WSys w} (h : Reach I m s) {i i' j j' : Nat} {e e' f f' : WEvent w}
    {ce cf : WCode w} (hi : s.trace[i]? = some e) (hi' : s.trace[i']? = some e') (hj : s.trace[j]? = some f)
    (hj' : s.trace[j']? = some f') (he : s.trace.Before i i') (hf : s.trace.Before j j')
    (hce : I e'.call = some ce) (hcf : I f'.call = some cf) (hbe : ce.before = true) (hbf : cf.before = true)
    {x y : Nat} (hx : e.At x) (hy : f.At y) (h₁ : e.addr = f'.addr) (h₂ : f.addr = e'.addr) {p q : Nat} {v u : BitVec w}
    (hp : e'.read = some (p, v)) (hq : f'.read = some (q, u)) : y ≤ p ∨ x ≤ q := by
  obtain ⟨V, F, Snap, inv⟩ := h.inv
  have hat : ∀ (k : Nat) (e : WEvent w) t, s.trace[k]? = some e → e.At t → t ≤ V k e.addr := by
    intro k e t hk ht
    rcases ht with ⟨v, ht⟩ | ⟨v, ht⟩
    · exact (inv.read k e t v hk ht).1
    · exact (inv.wrote k e t v hk ht).1
  obtain ⟨e₁, e₂, a1, a2, a3, a4⟩ := he
  obtain ⟨f₁, f₂, b1, b2, b3, b4⟩ := hf
  cases hi.symm.trans a1
  cases hi'.symm.trans a2
  cases hj.symm.trans b1
  cases hj'.symm.trans b2
  obtain ⟨s1, s2, s3⟩ := inv.fence i' e' ce hi' hce hbe
  obtain ⟨t1, t2, t3⟩ := inv.fence j' f' cf hj' hcf hbf
  have k1 := Nat.le_trans (hat i e x hi hx) (s2 i e a4 hi a3 e.addr)
  have k2 := Nat.le_trans (hat j f y hj hy) (t2 j f b4 hj b3 f.addr)
  have k3 := s3 p v hp
  have k4 := t3 q u hq
  rcases inv.chain _ _ s1 t1 with hc | hc
  · right
    have := hc e.addr
    rw [h₁] at this k1
    omega
  · left
    have := hc f.addr
    rw [h₂] at this k2
    omega

/-! ## values -/

/-- What an access has done, by its instruction. -/
def Did : WAcc w → Option (Nat × BitVec w) → Option (Nat × BitVec w) → Prop
  | .load _, r, wr => r.isSome ∧ wr = none
  | .store x _, r, wr => r = none ∧ wr.map (·.2) = some x
  | .update f _ _ _, r, wr => ∃ t v, r = some (t, v) ∧ wr = (f v).map (fun x => (t + 1, x))
  | .plainLoad, r, wr => r.isSome ∧ wr = none
  | .plainStore x, r, wr => r = none ∧ wr.map (·.2) = some x

/-- The values in the memory are those that were written. -/
structure Values (I : WImpl w) (m : AMem w) (s : WSys w) : Prop where
  code : ∀ i a c code, (s.phase i = .accessing a c code ∨ s.phase i = .fencing a c code) → I c = some code
  did : ∀ (k : Nat) (e : WEvent w), s.trace[k]? = some e → ∃ code, I e.call = some code ∧ Did code.acc e.read e.wrote
  zero : ∀ a, (s.mem a 0).isSome
  mem : ∀ a t x, s.mem a t = some x → (t = 0 ∧ x.val = m a) ∨
    ∃ (i : Nat) (e : WEvent w), s.trace[i]? = some e ∧ e.addr = a ∧ e.wrote = some (t, x.val)
  there : ∀ (k : Nat) (e : WEvent w) t v, s.trace[k]? = some e → e.wrote = some (t, v) → (s.mem e.addr t).isSome
  writes : s.trace.FromWrites m

theorem values_start (I : WImpl w) (m : AMem w) : Values I m (start m) where
  code i a c code h := by rcases h with h | h <;> exact absurd h (by simp [start])
  did k e h := absurd h (by simp [start])
  zero a := by simp [start]
  mem a t x h := by
    simp only [start] at h
    split at h
    · next ht => cases h; exact .inl ⟨ht, rfl⟩
    · exact absurd h (by simp)
  there k e t v h := absurd h (by simp [start])
  writes := by
    refine ⟨?_, ?_, ?_⟩
    · intro j f t v h; exact absurd h (by simp [start])
    · intro j f t v h; exact absurd h (by simp [start])
    · intro i j e f t v v' h; exact absurd h (by simp [start])

/-- A step without an access. -/
theorem Values.quiet {I : WImpl w} {m : AMem w} {s s' : WSys w} (h : Values I m s) (hm : s'.mem = s.mem) (ht : s'.trace = s.trace)
    (hc : ∀ i a c code, (s'.phase i = .accessing a c code ∨ s'.phase i = .fencing a c code) → I c = some code) : Values I m s' where
  code := hc
  did := by rw [ht]; exact h.did
  zero := by rw [hm]; exact h.zero
  mem := by rw [hm, ht]; exact h.mem
  there := by rw [hm, ht]; exact h.there
  writes := by rw [ht]; exact h.writes

/-- A step with an access. -/
theorem Values.access {I : WImpl w} {m : AMem w} {s s' : WSys w} (h : Values I m s) {i a : Nat} {c : WCall w} {code : WCode w}
    {r wr : Option (Nat × BitVec w)} (hp : s.phase i = .accessing a c code) (ht : s'.trace = s.trace ++ [⟨i, a, c, r, wr⟩])
    (hph : s'.phase = set s.phase i (next code)) (hd : Did code.acc r wr)
    (hr : ∀ t v, r = some (t, v) → ∃ x, s.mem a t = some x ∧ x.val = v)
    (hw : ∀ t v, wr = some (t, v) → s.mem a t = none ∧ ∃ fr, s'.mem = put s.mem a t ⟨v, fr⟩) (hk : wr = none → s'.mem = s.mem) :
    Values I m s' := by
  have hmem : ∀ b t x, s.mem b t = some x → s'.mem b t = some x := by
    intro b t x hx
    cases hwr : wr with
    | none => rw [hk hwr]; exact hx
    | some p =>
      obtain ⟨t', v⟩ := p
      obtain ⟨h1, fr, h2⟩ := hw t' v hwr
      rw [h2]
      unfold put
      rw [if_neg]
      · exact hx
      · rintro ⟨rfl, rfl⟩
        rw [h1] at hx
        exact absurd hx (by simp)
  have hold : ∀ (k : Nat) (e : WEvent w), s.trace[k]? = some e → s'.trace[k]? = some e := by
    intro k e hk
    rw [ht, List.getElem?_append_left]
    · exact hk
    · exact (List.getElem?_eq_some_iff.1 hk).1
  have hlast : s'.trace[s.trace.length]? = some ⟨i, a, c, r, wr⟩ := by rw [ht]; simp
  refine ⟨?_, ?_, ?_, ?_, ?_, ?_, ?_, ?_⟩
  · intro j b d code' hj
    rw [hph] at hj
    by_cases hij : j = i
    · subst hij
      simp only [set_same, next] at hj
      split at hj <;> rcases hj with hj | hj <;> exact absurd hj (by simp)
    · simp only [set_ne _ _ hij] at hj
      exact h.code j b d code' hj
  · intro k e hke
    rw [ht] at hke
    rcases getElem?_snoc hke with ⟨-, hke⟩ | ⟨rfl, rfl⟩
    · exact h.did k e hke
    · exact ⟨code, h.code i a c code (.inl hp), hd⟩
  · intro b
    obtain ⟨x, hx⟩ := Option.isSome_iff_exists.1 (h.zero b)
    rw [hmem b 0 x hx]
    rfl
  · intro b t x hx
    have hcase : s.mem b t = some x ∨ (b = a ∧ ∃ v, wr = some (t, v) ∧ x.val = v) := by
      cases hwr : wr with
      | none => rw [hk hwr] at hx; exact .inl hx
      | some p =>
        obtain ⟨t', v⟩ := p
        obtain ⟨h1, fr, h2⟩ := hw t' v hwr
        rw [h2] at hx
        unfold put at hx
        split at hx
        · next hc => cases hx; exact .inr ⟨hc.1, v, by rw [hc.2], rfl⟩
        · exact .inl hx
    rcases hcase with hx | ⟨rfl, v, h1, h2⟩
    · rcases h.mem b t x hx with h1 | ⟨k, e, h1, h2, h3⟩
      · exact .inl h1
      · exact .inr ⟨k, e, hold k e h1, h2, h3⟩
    · exact .inr ⟨_, _, hlast, rfl, by rw [h2]; exact h1⟩
  · intro k e t v hke hwr
    rw [ht] at hke
    rcases getElem?_snoc hke with ⟨-, hke⟩ | ⟨rfl, rfl⟩
    · obtain ⟨x, hx⟩ := Option.isSome_iff_exists.1 (h.there k e t v hke hwr)
      rw [hmem _ _ x hx]
      rfl
    · obtain ⟨-, fr, h2⟩ := hw t v hwr
      rw [h2]
      simp [put]
  · intro j f t v hj hrd
    rw [ht] at hj
    rcases getElem?_snoc hj with ⟨hlt, hj⟩ | ⟨rfl, rfl⟩
    · rcases h.writes.1 j f t v hj hrd with h1 | ⟨k, e, h0, h1, h2, h3⟩
      · exact .inl h1
      · exact .inr ⟨k, e, h0, hold k e h1, h2, h3⟩
    · obtain ⟨x, h1, h2⟩ := hr t v hrd
      rcases h.mem a t x h1 with h3 | ⟨k, e, h3, h4, h5⟩
      · exact .inl ⟨h3.1, by rw [← h2]; exact h3.2⟩
      · exact .inr ⟨k, e, (List.getElem?_eq_some_iff.1 h3).1, hold k e h3, h4, by rw [← h2]; exact h5⟩
  · intro k e t v hke hwr
    rw [ht] at hke
    rcases getElem?_snoc hke with ⟨-, hke⟩ | ⟨rfl, rfl⟩
    · exact h.writes.2.1 k e t v hke hwr
    · rintro rfl
      have := (hw 0 v hwr).1
      have hz := h.zero a
      rw [this] at hz
      exact absurd hz (by simp)
  · intro k j e f t v v' hke hjf hadr hwe hwf
    rw [ht] at hke hjf
    rcases getElem?_snoc hke with ⟨-, hke⟩ | ⟨rfl, rfl⟩ <;> rcases getElem?_snoc hjf with ⟨-, hjf⟩ | ⟨rfl, rfl⟩
    · exact h.writes.2.2 k j e f t v v' hke hjf hadr hwe hwf
    · have h1 := h.there k e t v hke hwe
      rw [hadr] at h1
      rw [(hw t v' hwf).1] at h1
      exact absurd h1 (by simp)
    · have h1 := h.there j f t v' hjf hwf
      rw [← hadr] at h1
      rw [(hw t v hwe).1] at h1
      exact absurd h1 (by simp)
    · rfl

theorem Reach.values {I : WImpl w} {m : AMem w} {s : WSys w} (h : Reach I m s) : Values I m s := by
  induction h with
  | start => exact values_start I m
  | step _ hs ih =>
    cases hs with
    | call i a c code h₁ h₂ =>
      refine ih.quiet rfl rfl fun j b d code' hj => ?_
      by_cases hij : j = i
      · subst hij
        simp only [set_same] at hj
        split at hj
        · rcases hj with hj | hj
          · exact absurd hj (by simp)
          · cases hj; exact h₂
        · rcases hj with hj | hj
          · cases hj; exact h₂
          · exact absurd hj (by simp)
      · simp only [set_ne _ _ hij] at hj
        exact ih.code j b d code' hj
    | fence i a c code h =>
      refine ih.quiet rfl rfl fun j b d code' hj => ?_
      by_cases hij : j = i
      · subst hij
        simp only [WSys.fence, set_same] at hj
        rcases hj with hj | hj
        · cases hj; exact ih.code _ _ _ _ (.inr h)
        · exact absurd hj (by simp)
      · simp only [WSys.fence, set_ne _ _ hij] at hj
        exact ih.code j b d code' hj
    | leave i h =>
      refine ih.quiet rfl rfl fun j b d code' hj => ?_
      by_cases hij : j = i
      · subst hij
        simp only [WSys.fence, set_same] at hj
        rcases hj with hj | hj <;> exact absurd hj (by simp)
      · simp only [WSys.fence, set_ne _ _ hij] at hj
        exact ih.code j b d code' hj
    | load i a t c code acq m hp hc ht hm =>
      refine ih.access hp rfl rfl (by rw [hc]; exact ⟨rfl, rfl⟩) ?_ (by intro t v h; exact absurd h (by simp)) fun _ => rfl
      intro t' v h; cases h; exact ⟨m, hm, rfl⟩
    | store i a t c code x rel hp hc ht hm =>
      refine ih.access hp rfl rfl (by rw [hc]; exact ⟨rfl, rfl⟩) (by intro t v h; exact absurd h (by simp)) ?_
        (by intro h; exact absurd h (by simp))
      intro t' v h; cases h; exact ⟨hm, _, rfl⟩
    | update i a t c code f acq rel acqF m x hp hc ht hm hf hn =>
      refine ih.access hp rfl rfl (by rw [hc]; exact ⟨t, m.val, rfl, by rw [hf]; rfl⟩) ?_ ?_
        (by intro h; exact absurd h (by simp))
      · intro t' v h; cases h; exact ⟨m, hm, rfl⟩
      · intro t' v h; cases h; exact ⟨hn, _, rfl⟩
    | keep i a t c code f acq rel acqF m hp hc ht hm hf =>
      refine ih.access hp rfl rfl (by rw [hc]; exact ⟨t, m.val, rfl, by rw [hf]; rfl⟩) ?_
        (by intro t v h; exact absurd h (by simp)) fun _ => rfl
      intro t' v h; cases h; exact ⟨m, hm, rfl⟩
    | plainLoad i a t c code m hp hc ht hm =>
      refine ih.access hp rfl rfl (by rw [hc]; exact ⟨rfl, rfl⟩) ?_ (by intro t v h; exact absurd h (by simp)) fun _ => rfl
      intro t' v h; cases h; exact ⟨m, hm, rfl⟩
    | plainStore i a t c code x hp hc ht hm =>
      refine ih.access hp rfl rfl (by rw [hc]; exact ⟨rfl, rfl⟩) (by intro t v h; exact absurd h (by simp)) ?_
        (by intro h; exact absurd h (by simp))
      intro t' v h; cases h; exact ⟨hm, _, rfl⟩

end WSys

end Vecmem
