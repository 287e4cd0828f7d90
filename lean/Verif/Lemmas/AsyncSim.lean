import Verif.Lemmas.AsyncFoot
import Verif.Model.EdmToHost

/-! # What programs do does not depend on the numbers of events -/

namespace Vecmem

open Prog IntMath

variable {β γ : Type}

/-- The same outcome, up to `V`. -/
def Res.Alike (V : β → β → Prop) (r r' : Res β) : Prop :=
  (∃ b b', r = .ok b ∧ r' = .ok b' ∧ V b b') ∨ (r = r' ∧ ∀ b, r ≠ .ok b)

theorem Res.Alike.refl {V : β → β → Prop} (h : ∀ b, V b b) (r : Res β) : r.Alike V r := by
  cases r with
  | ok b => exact .inl ⟨b, b, rfl, rfl, h b⟩
  | _ => exact .inr ⟨rfl, by simp⟩

theorem Res.Alike.ok {V : β → β → Prop} {b b' : β} (h : V b b') : Res.Alike V (.ok b) (.ok b') := .inl ⟨b, b', rfl, rfl, h⟩

/-- Programs that differ only in the numbers of events. -/
inductive Same : (β → β → Prop) → Prog β → Prog β → Prop
  | ret {V : β → β → Prop} {r r' : Res β} (h : r.Alike V r') : Same V (.ret r) (.ret r')
  | issue {V : β → β → Prop} {op k k'} (h : Same V k k') : Same V (.issue op k) (.issue op k')
  | event {V : β → β → Prop} {k k'} (h : ∀ e e', Same V (k e) (k' e')) : Same V (.event k) (.event k')
  | wait {V : β → β → Prop} {e e' k k'} (h : Same V k k') : Same V (.wait e k) (.wait e' k')
  | new {V : β → β → Prop} {l k k'} (h : ∀ i, Same V (k i) (k' i)) : Same V (.new l k) (.new l k')
  | read {V : β → β → Prop} {i k k'} (h : ∀ b, Same V (k b) (k' b)) : Same V (.read i k) (.read i k')
  | drop {V : β → β → Prop} {k k'} (h : Same V k k') : Same V (.drop k) (.drop k')
  | load {V : β → β → Prop} {p n k k'} (h : ∀ b, Same V (k b) (k' b)) : Same V (.load p n k) (.load p n k')
  | poke {V : β → β → Prop} {p n b k k'} (h : Same V k k') : Same V (.poke p n b k) (.poke p n b k')

namespace Same

theorem bind {V : β → β → Prop} {U : γ → γ → Prop} {p p' : Prog β} {f f' : β → Prog γ} (h : Same V p p')
    (hf : ∀ b b', V b b' → Same U (f b) (f' b')) : Same U (p.bind f) (p'.bind f') := by
  induction h with
  | ret h =>
    rcases h with ⟨b, b', rfl, rfl, hv⟩ | ⟨rfl, hne⟩
    · exact hf b b' hv
    · rename_i r
      cases r with
      | ok b => exact absurd rfl (hne b)
      | _ => exact .ret (.inr ⟨rfl, by simp⟩)
  | issue _ ih => exact .issue ih
  | event _ ih => exact .event ih
  | wait _ ih => exact .wait ih
  | new _ ih => exact .new ih
  | read _ ih => exact .read ih
  | drop _ ih => exact .drop ih
  | load _ ih => exact .load ih
  | poke _ ih => exact .poke ih

theorem thenDrop {V : β → β → Prop} {p p' : Prog β} (h : Same V p p') : Same V p.thenDrop p'.thenDrop := by
  induction h with
  | ret h => exact .drop (.ret h)
  | issue _ ih => exact .issue ih
  | event _ ih => exact .event ih
  | wait _ ih => exact .wait ih
  | new _ ih => exact .new ih
  | read _ ih => exact .read ih
  | drop _ ih => exact .drop ih
  | load _ ih => exact .load ih
  | poke _ ih => exact .poke ih

theorem scope {V : β → β → Prop} {l : Local} {p p' : Nat → Prog β} (h : ∀ i, Same V (p i) (p' i)) :
    Same V (Prog.scope l p) (Prog.scope l p') := .new fun i => (h i).thenDrop

theorem sync {V : β → β → Prop} {p p' : Prog β} (h : Same V p p') : Same V (Prog.sync p) (Prog.sync p') := .event fun _ _ => .wait h

theorem ret_refl {r : Res β} : Same Eq (.ret r) (.ret r) := .ret (.refl (fun _ => rfl) r)

theorem mono {V U : β → β → Prop} {p p' : Prog β} (h : Same V p p') (hv : ∀ b b', V b b' → U b b') : Same U p p' := by
  induction h with
  | ret h => exact .ret (h.elim (fun ⟨b, b', h1, h2, h3⟩ => .inl ⟨b, b', h1, h2, hv _ _ h3⟩) .inr)
  | issue _ ih => exact .issue ih
  | event _ ih => exact .event ih
  | wait _ ih => exact .wait ih
  | new _ ih => exact .new ih
  | read _ ih => exact .read ih
  | drop _ ih => exact .drop ih
  | load _ ih => exact .load ih
  | poke _ ih => exact .poke ih

theorem exec_alike (op : COp) (m : Mem) (L : List Local) (d d' : Nat) :
    (op.exec ⟨m, L, d⟩ = none ∧ op.exec ⟨m, L, d'⟩ = none) ∨
      ∃ m' L' n n', op.exec ⟨m, L, d⟩ = some ⟨m', L', n⟩ ∧ op.exec ⟨m, L, d'⟩ = some ⟨m', L', n'⟩ := by
  cases op with
  | copy n src dst =>
    simp only [COp.exec]
    split
    · exact .inl ⟨rfl, rfl⟩
    · exact .inr ⟨_, _, _, _, rfl, rfl⟩
  | memset n dst v => exact .inr ⟨_, _, _, _, rfl, rfl⟩
  | fetch slot off n src =>
    simp only [COp.exec]
    split
    · split
      · exact .inr ⟨_, _, _, _, rfl, rfl⟩
      · exact .inl ⟨rfl, rfl⟩
    · exact .inl ⟨rfl, rfl⟩
  | store slot off n dst =>
    simp only [COp.exec]
    split
    · split
      · exact .inr ⟨_, _, _, _, rfl, rfl⟩
      · exact .inl ⟨rfl, rfl⟩
    · exact .inl ⟨rfl, rfl⟩
  | kernel rd wr f =>
    simp only [COp.exec]
    cases f (kernelMem m rd wr) with
    | none => exact .inl ⟨rfl, rfl⟩
    | some mk => exact .inr ⟨_, _, _, _, rfl, rfl⟩

theorem run {V : β → β → Prop} {p p' : Prog β} (h : Same V p p') (m : Mem) (L : List Local) (d d' : Nat) :
    (p.run ⟨m, L, d⟩).1.Alike V (p'.run ⟨m, L, d'⟩).1 ∧ (p.run ⟨m, L, d⟩).2.mem = (p'.run ⟨m, L, d'⟩).2.mem ∧
      (p.run ⟨m, L, d⟩).2.locals = (p'.run ⟨m, L, d'⟩).2.locals := by
  induction h generalizing m L d d' with
  | ret h => exact ⟨h, rfl, rfl⟩
  | @issue op _ _ _ ih =>
    simp only [Prog.run]
    rcases exec_alike op m L d d' with ⟨e1, e2⟩ | ⟨m', L', n, n', e1, e2⟩
    · rw [e1, e2]
      exact ⟨.inr ⟨rfl, by simp⟩, rfl, rfl⟩
    · rw [e1, e2]
      exact ih m' L' n n'
  | event _ ih => exact ih d d' m L d d'
  | wait _ ih => exact ih m L d d'
  | new _ ih => exact ih L.length m _ d d'
  | @read i _ _ _ ih =>
    simp only [Prog.run]
    cases L[i]? with
    | none => exact ⟨.inr ⟨rfl, by simp⟩, rfl, rfl⟩
    | some l => exact ih _ m L d d'
  | drop _ ih => exact ih m _ d d'
  | load _ ih => exact ih _ m L d d'
  | poke _ ih => exact ih _ L d d'

end Same

/-- Any events are alike. -/
abbrev AnyNumber : Nat → Nat → Prop := fun _ _ => True

theorem same_retEvent : Same AnyNumber retEvent retEvent := .event fun _ _ => .ret (.ok trivial)

theorem same_retNoEvent : Same AnyNumber retNoEvent retNoEvent := .ret (.ok trivial)

theorem same_getSize (v : View) : Same Eq (getSize v) (getSize v) := by
  unfold getSize
  split
  · exact .ret_refl
  · exact .scope fun i => .issue (.sync (.read fun b => .ret_refl))

theorem same_putSize (n : Nat) (v : View) : Same Eq (putSize n v) (putSize n v) := by
  unfold putSize
  split
  · exact .ret_refl
  · exact .scope fun i => .issue (.sync .ret_refl)

theorem same_copyView (t : Nat) (v w : View) : Same Eq (copyView t v w) (copyView t v w) := by
  unfold copyView
  refine (same_getSize v).bind ?_
  rintro n _ rfl
  split
  · exact .ret_refl
  · split
    · exact .ret_refl
    · exact (same_putSize n w).bind fun _ _ _ => .issue .ret_refl

theorem same_memsetVec (t : Nat) (v : View) (x : UInt8) : Same AnyNumber (memsetVec t v x) (memsetVec t v x) := by
  unfold memsetVec
  split
  · exact same_retNoEvent
  · exact .issue same_retEvent

theorem same_memsetFirst (n : Nat) (x : UInt8) (vs : List View) : Same AnyNumber (memsetFirst n x vs) (memsetFirst n x vs) := by
  induction vs with
  | nil => exact same_retNoEvent
  | cons v vs ih =>
    unfold memsetFirst
    split
    · exact .issue same_retEvent
    · exact ih

theorem same_memsetEach (t : Nat) (x : UInt8) (vs : List View) : Same AnyNumber (memsetEach t x vs) (memsetEach t x vs) := by
  induction vs with
  | nil => exact same_retEvent
  | cons v vs ih => exact .issue ih

theorem same_memsetJag (t : Nat) (j : JagView) (x : UInt8) : Same AnyNumber (memsetJag t j x) (memsetJag t j x) := by
  unfold memsetJag
  split
  · exact .ret (.inr ⟨rfl, by simp⟩)
  · split
    · exact same_memsetFirst _ _ _
    · exact same_memsetEach _ _ _

theorem same_getSizes (vs : List View) : Same Eq (getSizes vs) (getSizes vs) := by
  unfold getSizes
  apply Same.scope
  intro i
  split
  · exact .issue (.sync (.read fun b => .ret_refl))
  · exact .ret_refl

theorem same_setSizes (slot : Nat) (ns : List Nat) (vs : List View) : Same AnyNumber (setSizes slot ns vs) (setSizes slot ns vs) := by
  unfold setSizes
  split
  · exact same_retNoEvent
  · split
    · exact .ret (.inr ⟨rfl, by simp⟩)
    · refine (Same.ret_refl (r := checkSizes true vs ns)).bind ?_
      rintro b _ rfl
      split
      · exact .issue same_retEvent
      · exact same_retNoEvent

theorem same_setSizesAndWait (ns : List Nat) (vs : List View) : Same Eq (setSizesAndWait ns vs) (setSizesAndWait ns vs) :=
  .scope fun i => (same_setSizes i ns vs).bind fun _ _ _ => .wait .ret_refl

theorem same_copyViews (dbg : Bool) (t : Nat) : ∀ (ns : List Nat) (vs ws : List View),
    Same Eq (copyViews dbg t ns vs ws) (copyViews dbg t ns vs ws) := by
  intro ns
  induction ns with
  | nil => intro vs ws; exact .ret_refl
  | cons n ns ih =>
    intro vs ws
    cases vs with
    | nil => exact .ret_refl
    | cons v vs =>
      cases ws with
      | nil => exact .ret_refl
      | cons w ws =>
        unfold copyViews
        split
        · exact ih vs ws
        · split
          · exact .ret_refl
          · exact .issue (ih vs ws)

theorem same_copyFirst (dbg : Bool) (total : Nat) : ∀ (ns : List Nat) (vs ws : List View),
    Same Eq (copyFirst dbg total ns vs ws) (copyFirst dbg total ns vs ws) := by
  intro ns
  induction ns with
  | nil => intro vs ws; exact .ret_refl
  | cons n ns ih =>
    intro vs ws
    cases vs with
    | nil => exact .ret_refl
    | cons v vs =>
      cases ws with
      | nil => exact .ret_refl
      | cons w ws =>
        unfold copyFirst
        split
        · exact ih vs ws
        · split
          · exact .ret_refl
          · exact .issue .ret_refl

theorem same_copyViewJag (dbg : Bool) (t : Nat) (v w : JagView) : Same Eq (copyViewJag dbg t v w) (copyViewJag dbg t v w) := by
  unfold copyViewJag
  simp only
  split
  · exact .ret_refl
  · split
    · exact .ret_refl
    · refine (same_getSizes _).bind ?_
      rintro ns _ rfl
      refine .scope fun i => (same_setSizes i ns _).bind fun e e' _ => ?_
      refine Same.bind (V := Eq) ?_ fun _ _ _ => .wait .ret_refl
      split
      · exact same_copyFirst _ _ _ _ _
      · exact same_copyViews _ _ _ _ _

/-! ## Containers -/

theorem same_assertion {U : γ → γ → Prop} {dbg c : Bool} {k k' : Prog γ} (h : Same U k k') :
    Same U (assertion dbg c k) (assertion dbg c k') := by
  unfold assertion
  split
  · exact .ret (.inr ⟨rfl, by simp⟩)
  · exact h

theorem same_discard (e e' : Nat) : Same Eq (discard false e) (discard false e') := .wait .ret_refl

theorem same_setupEdm (dbg : Bool) (e : EdmView) : Same AnyNumber (setupEdm dbg e) (setupEdm dbg e) := by
  unfold setupEdm
  split
  · exact same_retNoEvent
  · refine Same.bind (V := Eq) ?_ fun _ _ _ => Same.bind (V := Eq) ?_ fun _ _ _ => same_retEvent
    · unfold setupLayout
      split
      · refine same_assertion ((same_copyView _ _ _).bind ?_)
        rintro b _ rfl
        exact same_assertion .ret_refl
      · exact .ret_refl
    · unfold setupSizes
      split
      · exact same_assertion (.issue .ret_refl)
      · exact .ret_refl

theorem same_memsetVars (value : UInt8) : ∀ (S : Schema) (xs : List VarView),
    Same Eq (memsetVars value S xs) (memsetVars value S xs) := by
  intro S
  induction S with
  | nil => intro xs; unfold memsetVars; exact .ret_refl
  | cons v S ih =>
    intro xs
    cases xs with
    | nil => unfold memsetVars; exact .ret_refl
    | cons x xs =>
      unfold memsetVars
      refine Same.bind (V := Eq) ?_ fun _ _ _ => ih xs
      cases x with
      | scalar p => exact .issue .ret_refl
      | vector v => exact (same_memsetVec _ _ _).bind fun e e' _ => same_discard e e'
      | jagged j => exact (same_memsetJag _ _ _).bind fun e e' _ => same_discard e e'

theorem same_memsetEdm (S : Schema) (e : EdmView) (value : UInt8) : Same AnyNumber (memsetEdm S e value) (memsetEdm S e value) := by
  unfold memsetEdm
  refine Same.bind (V := Eq) ?_ fun _ _ _ => same_retEvent
  split
  · exact (same_memsetVec _ _ _).bind fun e e' _ => same_discard e e'
  · exact same_memsetVars _ _ _

theorem same_copyVar (dbg : Bool) (t : Nat) (x y : VarView) : Same Eq (copyVar dbg t x y) (copyVar dbg t x y) := by
  cases x <;> cases y <;> simp only [copyVar]
  · exact .issue .ret_refl
  · exact .ret_refl
  · exact .ret_refl
  · exact .ret_refl
  · exact (same_copyView _ _ _).bind fun _ _ _ => .ret_refl
  · exact .ret_refl
  · exact .ret_refl
  · exact .ret_refl
  · exact (same_copyViewJag _ _ _ _).bind fun _ _ _ => .ret_refl

theorem same_copyVars (dbg : Bool) : ∀ (S : Schema) (xs ys : List VarView), Same Eq (copyVars dbg S xs ys) (copyVars dbg S xs ys) := by
  intro S
  induction S with
  | nil => intro xs ys; unfold copyVars; exact .ret_refl
  | cons v S ih =>
    intro xs ys
    cases xs with
    | nil => unfold copyVars; exact .ret_refl
    | cons x xs =>
      cases ys with
      | nil => unfold copyVars; exact .ret_refl
      | cons y ys =>
        unfold copyVars
        exact (same_copyVar _ _ _ _).bind fun _ _ _ => ih xs ys

theorem same_copyJagSizes : ∀ (xs ys : List VarView), Same Eq (copyJagSizes xs ys) (copyJagSizes xs ys) := by
  intro xs
  induction xs with
  | nil => intro ys; unfold copyJagSizes; exact .ret_refl
  | cons x xs ih =>
    intro ys
    cases ys with
    | nil => unfold copyJagSizes; exact .ret_refl
    | cons y ys =>
      unfold copyJagSizes
      refine Same.bind (V := Eq) ?_ fun _ _ _ => ih ys
      split
      · refine (same_getSizes _).bind ?_
        rintro ns _ rfl
        exact same_setSizesAndWait _ _
      · exact .ret_refl

theorem same_copyEdmSizes (S : Schema) (src dst : EdmView) : Same Eq (copyEdmSizes S src dst) (copyEdmSizes S src dst) := by
  unfold copyEdmSizes
  split
  · split
    · split
      · exact .ret_refl
      · exact (same_copyView _ _ _).bind fun _ _ _ => .ret_refl
    · unfold copySizes
      split
      · exact same_copyJagSizes _ _
      · exact .scope fun i => .issue (.sync .ret_refl)
  · exact .ret_refl

theorem same_copyEdm (dbg : Bool) (S : Schema) (src dst : EdmView) : Same AnyNumber (copyEdm dbg S src dst) (copyEdm dbg S src dst) := by
  unfold copyEdm
  split
  · split
    · exact same_retNoEvent
    · exact (same_copyView _ _ _).bind fun _ _ _ => (same_copyEdmSizes _ _ _).bind fun _ _ _ => same_retEvent
  · exact (same_copyVars _ _ _ _).bind fun _ _ _ => same_retEvent

theorem same_copyEdmFromHost (dbg : Bool) (S : Schema) (sizes addrs : List (List Nat)) (dst : EdmView) :
    Same AnyNumber (copyEdmFromHost dbg S sizes addrs dst) (copyEdmFromHost dbg S sizes addrs dst) := by
  unfold copyEdmFromHost
  refine (Same.ret_refl (r := hostData S sizes addrs)).bind ?_
  rintro e _ rfl
  exact same_copyEdm _ _ _ _

theorem same_hostSizesVars : ∀ (xs : List VarView), Same Eq (hostSizesVars xs) (hostSizesVars xs) := by
  intro xs
  induction xs with
  | nil => exact .ret_refl
  | cons x xs ih =>
    unfold hostSizesVars
    refine Same.bind (V := Eq) ?_ ?_
    · cases x with
      | scalar p => exact .ret_refl
      | vector v =>
        refine (same_getSize v).bind ?_
        rintro n _ rfl
        exact .ret_refl
      | jagged j => exact same_getSizes _
    · rintro n _ rfl
      refine ih.bind ?_
      rintro ns _ rfl
      exact .ret_refl

theorem same_hostSizes (dbg : Bool) (S : Schema) (src : EdmView) : Same Eq (hostSizes dbg S src) (hostSizes dbg S src) := by
  unfold hostSizes
  split
  · exact same_hostSizesVars _
  · refine Same.bind (V := Eq) ?_ ?_
    · unfold getSizeEdm
      split
      · exact .ret_refl
      · split
        · exact .ret_refl
        · exact same_assertion (.scope fun i => .issue (.sync (.read fun b => .ret_refl)))
    · rintro n _ rfl
      exact .ret_refl

theorem same_copyEdmToHost (dbg : Bool) (S : Schema) (src : EdmView) (place : List (List Nat) → List (List Nat)) :
    Same AnyNumber (copyEdmToHost dbg S src place) (copyEdmToHost dbg S src place) := by
  unfold copyEdmToHost
  refine (same_hostSizes _ _ _).bind ?_
  rintro ns _ rfl
  refine (Same.ret_refl (r := hostData S ns (place ns))).bind ?_
  rintro e _ rfl
  exact same_copyEdm _ _ _ _

/-! ## No errors -/

theorem lib_assertion {T : γ → DState → Prop} {dbg c : Bool} {k : Prog γ} (h : Lib k T) : Lib (assertion dbg c k) T := by
  unfold assertion
  split
  · exact Lib.ret fun _ h => nomatch h
  · exact h

theorem lib_bind {p : Prog β} {f : β → Prog γ} {T : β → DState → Prop} {U : γ → DState → Prop} (h : Lib p T)
    (hf : ∀ b, Lib (f b) U) : Lib (p.bind f) U := h.bind fun b s P _ hs hr => hf b s P hs hr

theorem lib_unit : Lib (.ret (.ok ()) : Prog Unit) fun _ _ => True := Lib.ret fun _ _ _ => trivial

theorem lib_discard {p : Prog Nat} (h : Lib p EventOk) : Lib (p.bind (discard false)) fun _ _ => True := by
  refine h.bind fun e s P he hs hr => ?_
  exact ⟨he, by simp, hs.drop, rfl, fun _ _ => trivial⟩

theorem lib_setupEdm (dbg : Bool) (e : EdmView) : Lib (setupEdm dbg e) EventOk := by
  unfold setupEdm
  split
  · exact Lib.retNoEvent
  · refine lib_bind (T := fun _ _ => True) ?_ fun _ => lib_bind (T := fun _ _ => True) ?_ fun _ => Lib.retEvent
    · unfold setupLayout
      split
      · exact lib_assertion (lib_bind (lib_copyView _ _ _) fun _ => lib_assertion lib_unit)
      · exact lib_unit
    · unfold setupSizes
      split
      · exact lib_assertion (Lib.issue (fun _ h => h) lib_unit)
      · exact lib_unit

theorem lib_memsetVars (value : UInt8) : ∀ (S : Schema) (xs : List VarView), Lib (memsetVars value S xs) fun _ _ => True := by
  intro S
  induction S with
  | nil => intro xs; unfold memsetVars; exact lib_unit
  | cons v S ih =>
    intro xs
    cases xs with
    | nil => unfold memsetVars; exact lib_unit
    | cons x xs =>
      unfold memsetVars
      refine lib_bind (T := fun _ _ => True) ?_ fun _ => ih xs
      cases x with
      | scalar p => exact Lib.issue (fun _ h => h) lib_unit
      | vector v => exact lib_discard (lib_memsetVec _ _ _)
      | jagged j => exact lib_discard (lib_memsetJag _ _ _)

theorem lib_memsetEdm (S : Schema) (e : EdmView) (value : UInt8) : Lib (memsetEdm S e value) EventOk := by
  unfold memsetEdm
  refine lib_bind (T := fun _ _ => True) ?_ fun _ => Lib.retEvent
  split
  · exact lib_discard (lib_memsetVec _ _ _)
  · exact lib_memsetVars _ _ _

theorem lib_copyVar (dbg : Bool) (t : Nat) (x y : VarView) : Lib (copyVar dbg t x y) fun _ _ => True := by
  cases x <;> cases y <;> simp only [copyVar]
  · exact Lib.issue (fun _ h => h) lib_unit
  · exact Lib.ret fun _ h => nomatch h
  · exact Lib.ret fun _ h => nomatch h
  · exact Lib.ret fun _ h => nomatch h
  · exact lib_bind (lib_copyView _ _ _) fun _ => lib_unit
  · exact Lib.ret fun _ h => nomatch h
  · exact Lib.ret fun _ h => nomatch h
  · exact Lib.ret fun _ h => nomatch h
  · exact lib_bind (lib_copyViewJag _ _ _ _) fun _ => lib_unit

theorem lib_copyVars (dbg : Bool) : ∀ (S : Schema) (xs ys : List VarView), Lib (copyVars dbg S xs ys) fun _ _ => True := by
  intro S
  induction S with
  | nil => intro xs ys; unfold copyVars; exact lib_unit
  | cons v S ih =>
    intro xs ys
    cases xs with
    | nil => unfold copyVars; exact lib_unit
    | cons x xs =>
      cases ys with
      | nil => unfold copyVars; exact lib_unit
      | cons y ys =>
        unfold copyVars
        exact lib_bind (lib_copyVar _ _ _ _) fun _ => ih xs ys

theorem lib_copyJagSizes : ∀ (xs ys : List VarView), Lib (copyJagSizes xs ys) fun _ _ => True := by
  intro xs
  induction xs with
  | nil => intro ys; unfold copyJagSizes; exact lib_unit
  | cons x xs ih =>
    intro ys
    cases ys with
    | nil => unfold copyJagSizes; exact lib_unit
    | cons y ys =>
      unfold copyJagSizes
      refine lib_bind (T := fun _ _ => True) ?_ fun _ => ih ys
      split
      · exact lib_bind (lib_getSizes _) fun _ => lib_setSizesAndWait _ _
      · exact lib_unit

theorem lib_copyEdmSizes (S : Schema) (src dst : EdmView) : Lib (copyEdmSizes S src dst) fun _ _ => True := by
  unfold copyEdmSizes
  split
  · split
    · split
      · exact Lib.ret fun _ h => nomatch h
      · exact lib_bind (lib_copyView _ _ _) fun _ => lib_unit
    · unfold copySizes
      split
      · exact lib_copyJagSizes _ _
      · have h := lib_putSize src.capacity ⟨0, dst.size.ptr, 0⟩
        unfold putSize at h
        by_cases h0 : dst.size.ptr = 0
        · rename_i h1 _ _
          exact absurd h0 h1
        · simpa only [h0, if_false] using h
  · exact lib_unit

theorem lib_copyEdm (dbg : Bool) (S : Schema) (src dst : EdmView) : Lib (copyEdm dbg S src dst) EventOk := by
  unfold copyEdm
  split
  · split
    · exact Lib.retNoEvent
    · exact lib_bind (lib_copyView _ _ _) fun _ => lib_bind (lib_copyEdmSizes _ _ _) fun _ => Lib.retEvent
  · exact lib_bind (lib_copyVars _ _ _ _) fun _ => Lib.retEvent

theorem lib_ret_bind {r : Res β} {f : β → Prog γ} {U : γ → DState → Prop} (hf : ∀ b, Lib (f b) U) : Lib ((Prog.ret r).bind f) U :=
  lib_bind (T := fun _ _ => True) (Lib.ret fun _ _ _ => trivial) hf

theorem lib_copyEdmFromHost (dbg : Bool) (S : Schema) (sizes addrs : List (List Nat)) (dst : EdmView) :
    Lib (copyEdmFromHost dbg S sizes addrs dst) EventOk := lib_ret_bind fun _ => lib_copyEdm _ _ _ _

theorem lib_hostSizesVars : ∀ (xs : List VarView), Lib (hostSizesVars xs) fun _ _ => True := by
  intro xs
  induction xs with
  | nil => exact Lib.ret fun _ _ _ => trivial
  | cons x xs ih =>
    unfold hostSizesVars
    refine lib_bind (T := fun _ _ => True) ?_ fun _ => lib_bind ih fun _ => Lib.ret fun _ _ _ => trivial
    cases x with
    | scalar p => exact Lib.ret fun _ _ _ => trivial
    | vector v => exact lib_bind (lib_getSize v) fun _ => Lib.ret fun _ _ _ => trivial
    | jagged j => exact lib_getSizes _

theorem lib_hostSizes (dbg : Bool) (S : Schema) (src : EdmView) : Lib (hostSizes dbg S src) fun _ _ => True := by
  unfold hostSizes
  split
  · exact lib_hostSizesVars _
  · refine lib_bind (T := fun _ _ => True) ?_ fun _ => Lib.ret fun _ _ _ => trivial
    unfold getSizeEdm
    split
    · exact Lib.ret fun _ _ _ => trivial
    · split
      · exact Lib.ret fun _ _ _ => trivial
      · apply lib_assertion
        apply Lib.scope
        intro s L P hL hP hr
        obtain ⟨t, h1, h2⟩ := exec_of_run hr
        have hl := (exec_done h1).2
        rw [hL] at hl
        simp only [List.length_append, List.length_singleton] at hl
        refine ⟨t, h1, safe_sync ?_⟩
        have hi : L.length < t.locals.length := by omega
        exact ⟨t.locals[L.length], List.getElem?_eq_getElem hi, by simp, by simp, Slotted.nil, hl, fun _ _ => trivial⟩

theorem lib_copyEdmToHost (dbg : Bool) (S : Schema) (src : EdmView) (place : List (List Nat) → List (List Nat)) :
    Lib (copyEdmToHost dbg S src place) EventOk :=
  lib_bind (lib_hostSizes _ _ _) fun _ => lib_ret_bind fun _ => lib_copyEdm _ _ _ _

end Vecmem
