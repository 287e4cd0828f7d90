import Verif.Spec.RaceFree
import Verif.Lemmas.WeakVector
import Verif.Lemmas.WeakProgress

/-!
# Lemmas for C80: programs that do not race
-/

namespace Vecmem

variable {w : Nat}

/-- Running alone, `p` makes the accesses `l`, after which `q` is left and the memory is `σ`. -/
inductive SoloTo : WProg w → AMem w → List (SoloAccess w) → AMem w → WProg w → Prop
  | nil (p m) : SoloTo p m [] m p
  | cons {a c next m l σ q} (_ : SoloTo (next (c.solo (m a)).1) (fun b => if b = a then (c.solo (m a)).2.getD (m a) else m b) l σ q) :
      SoloTo (.act a c next) m (⟨a, (c.solo (m a)).1, (c.solo (m a)).2⟩ :: l) σ q

theorem SoloTo.snoc {p : WProg w} {m : AMem w} {l : List (SoloAccess w)} {σ : AMem w} {a : Nat} {c : WCall w} {next : Option (BitVec w) → WProg w}
    (h : SoloTo p m l σ (.act a c next)) :
    SoloTo p m (l ++ [⟨a, (c.solo (σ a)).1, (c.solo (σ a)).2⟩]) (fun b => if b = a then (c.solo (σ a)).2.getD (σ a) else σ b) (next (c.solo (σ a)).1) := by
  generalize hq : WProg.act a c next = q at h
  induction h with
  | nil p m => subst hq; exact .cons (.nil _ _)
  | cons _ ih => exact .cons (ih hq)

theorem SoloTo.total {p q : WProg w} {m σ : AMem w} {l : List (SoloAccess w)} (h : SoloTo p m l σ q) : p.solo m = (l ++ (q.solo σ).1, (q.solo σ).2) := by
  induction h with
  | nil p m => rfl
  | cons _ ih => simp only [WProg.solo, ih, List.cons_append]

theorem solo_unwritten {p : WProg w} {m : AMem w} {a : Nat} (h : ∀ x ∈ (p.solo m).1, x.addr = a → x.wrote = none) : (p.solo m).2.1 a = m a := by
  induction p generalizing m with
  | done => rfl
  | failed => rfl
  | act b c next ih =>
    simp only [WProg.solo, List.mem_cons] at h ⊢
    rw [ih _ (fun x hx => h x (.inr hx))]
    split
    · next hb =>
      subst hb
      have := h _ (.inl rfl) rfl
      dsimp only at this
      rw [this, Option.getD_none]
    · rfl

/-- A program that runs on a memory with other values elsewhere. -/
theorem solo_congr {p : WProg w} {m m' : AMem w} (h : ∀ x ∈ (p.solo m).1, m' x.addr = m x.addr) :
    (p.solo m').1 = (p.solo m).1 ∧ (p.solo m').2.2 = (p.solo m).2.2 ∧
    (∀ x ∈ (p.solo m).1, x.wrote.isSome → (p.solo m').2.1 x.addr = (p.solo m).2.1 x.addr) ∧
    ∀ a, (∀ x ∈ (p.solo m).1, x.addr = a → x.wrote = none) → (p.solo m').2.1 a = m' a := by
  have key : (p.solo m').1 = (p.solo m).1 ∧ (p.solo m').2.2 = (p.solo m).2.2 ∧
      ∀ a, m' a = m a → (p.solo m').2.1 a = (p.solo m).2.1 a := by
    induction p generalizing m m' with
    | done => exact ⟨rfl, rfl, fun _ h => h⟩
    | failed => exact ⟨rfl, rfl, fun _ h => h⟩
    | act b c next ih =>
      simp only [WProg.solo, List.mem_cons] at h ⊢
      have hb : m' b = m b := h _ (.inl rfl)
      rw [hb]
      obtain ⟨i1, i2, i3⟩ := ih (c.solo (m b)).1 (m := fun d => if d = b then (c.solo (m b)).2.getD (m b) else m d)
        (m' := fun d => if d = b then (c.solo (m b)).2.getD (m b) else m' d) (fun x hx => by
          split
          · rfl
          · exact h x (.inr hx))
      refine ⟨by rw [i1], i2, fun a ha => i3 a ?_⟩
      split
      · rfl
      · exact ha
  refine ⟨key.1, key.2.1, fun x hx _ => key.2.2 _ (h x hx), fun a ha => ?_⟩
  exact solo_unwritten (by rw [key.1]; exact ha)

/-- An access does to the value of the variable what its call is specified to do. -/
theorem solo_of_correct {e : WEvent w} (h : e.Correct) {v : BitVec w} (hv : ∀ t y, e.read = some (t, y) → y = v) :
    e.solo = ⟨e.addr, (e.call.solo v).1, (e.call.solo v).2⟩ := by
  obtain ⟨i, a, c, r, wr⟩ := e
  dsimp only at hv
  have hr : r.isSome → r.map (·.2) = some v := by
    intro hr
    obtain ⟨⟨t, y⟩, rfl⟩ := Option.isSome_iff_exists.1 hr
    rw [hv t y rfl]
    rfl
  unfold WEvent.Correct at h
  unfold WEvent.solo WCall.solo
  dsimp only at h ⊢
  split at h
  · simp only [hr h.1, h.2, Option.map_none]
  · simp only [h.1, h.2, Option.map_none]
  · simp only [hr h.1, h.2, Option.map_none]
  · simp only [h.1, h.2, Option.map_none]
  · obtain ⟨t, y, rfl, h2⟩ := h
    cases hv t y rfl
    simp only [h2, Option.map_some]
    split <;> rfl
  · obtain ⟨t, y, rfl, h2⟩ := h
    cases hv t y rfl
    simp only [h2, Option.map_some]
    split <;> rfl
  · rename_i op o h1 h2 h3 _
    obtain ⟨t, y, rfl, h4⟩ := h
    cases hv t y rfl
    cases op <;> simp_all

/-- What a thread reads from a variable that no other thread writes is what it has written itself last. -/
theorem read_own {tr : WTrace w} {m : AMem w} {e : WEvent w} {y : BitVec w} (ho : WTrace.Ordered (fun _ => False) (fun _ => False) (tr ++ [e]))
    (hw : WTrace.FromWrites m (tr ++ [e])) (only : ∀ f ∈ tr, f.addr = e.addr → f.wrote.isSome → f.thread = e.thread)
    (hf : WTrace.Final (tr.of e.thread) m e.addr y) {t : Nat} {v : BitVec w} (hr : e.read = some (t, v)) : v = y := by
  have hlast : (tr ++ [e])[tr.length]? = some e := by simp
  have hin : ∀ f ∈ tr, ∃ k : Nat, k < tr.length ∧ (tr ++ [e])[k]? = some f := by
    intro f hf
    obtain ⟨k, hk⟩ := List.getElem?_of_mem hf
    have hlt := (List.getElem?_eq_some_iff.1 hk).1
    exact ⟨k, hlt, by rw [List.getElem?_append_left hlt]; exact hk⟩
  obtain ⟨h1, h2, h3⟩ := hw
  have hfrom : (t = 0 ∧ v = m e.addr) ∨ ∃ f ∈ tr, f.addr = e.addr ∧ f.wrote = some (t, v) := by
    rcases h1 _ e t v hlast hr with h | ⟨i, f, hi, hf, ha, hwr⟩
    · exact .inl h
    · rw [List.getElem?_append_left hi] at hf
      exact .inr ⟨f, List.mem_of_getElem? hf, ha, hwr⟩
  rcases hf with ⟨rfl, hno⟩ | ⟨g, t', hg, hga, hgw, hmax⟩
  · rcases hfrom with h | ⟨f, hf, ha, hwr⟩
    · exact h.2
    · have := hno f (List.mem_filter.2 ⟨hf, by simpa using only f hf ha (by rw [hwr]; rfl)⟩) ha
      rw [hwr] at this
      cases this
  · obtain ⟨hgm, hgt⟩ := List.mem_filter.1 hg
    obtain ⟨k, hk, hgk⟩ := hin g hgm
    have hle : t' ≤ t := (ho k tr.length g e (.program ⟨g, e, hgk, hlast, by simpa using hgt, hk⟩) hgk hlast hga t' (.inr ⟨_, hgw⟩)).1 t v hr
    rcases hfrom with h | ⟨f, hf, ha, hwr⟩
    · have := h2 k g t' y hgk hgw
      omega
    · have hge := hmax f (List.mem_filter.2 ⟨hf, by simpa using only f hf ha (by rw [hwr]; rfl)⟩) ha t v hwr
      obtain rfl : t = t' := by omega
      obtain ⟨k', hk', hfk⟩ := hin f hf
      have := h3 k k' g f t y v hgk hfk (hga.trans ha.symm) hgw hwr
      subst this
      cases hgk.symm.trans hfk
      rw [hgw] at hwr
      cases hwr
      rfl

/-- The newest value of a thread's own, after another access of it. -/
theorem final_snoc {tr : WTrace w} {m : AMem w} {e : WEvent w} {a : Nat} {y : BitVec w} (ho : WTrace.Ordered (fun _ => False) (fun _ => False) (tr ++ [e]))
    (hf : WTrace.Final (tr.of e.thread) m a y) :
    WTrace.Final (WTrace.of (tr ++ [e]) e.thread) m a (if a = e.addr then ((e.wrote.map (·.2)).getD y) else y) := by
  have hof : WTrace.of (tr ++ [e]) e.thread = tr.of e.thread ++ [e] := by simp [WTrace.of, List.filter_append]
  have hlast : (tr ++ [e])[tr.length]? = some e := by simp
  rw [hof]
  by_cases ha : a = e.addr ∧ e.wrote.isSome
  · obtain ⟨rfl, hs⟩ := ha
    obtain ⟨⟨t, x⟩, hx⟩ := Option.isSome_iff_exists.1 hs
    rw [if_pos rfl, hx]
    refine .inr ⟨e, t, by simp, rfl, by rw [hx]; rfl, fun f hf' hfa t' y' hfw => ?_⟩
    rcases List.mem_append.1 hf' with hf' | hf'
    · obtain ⟨hfm, hft⟩ := List.mem_filter.1 hf'
      obtain ⟨k, hk⟩ := List.getElem?_of_mem hfm
      have hlt := (List.getElem?_eq_some_iff.1 hk).1
      have hk' : (tr ++ [e])[k]? = some f := by rw [List.getElem?_append_left hlt]; exact hk
      exact Nat.le_of_lt ((ho k tr.length f e (.program ⟨f, e, hk', hlast, by simpa using hft, hlt⟩) hk' hlast hfa t' (.inr ⟨_, hfw⟩)).2 t x hx)
    · cases List.mem_singleton.1 hf'
      rw [hx] at hfw
      cases hfw
      exact Nat.le_refl _
  · have hy : (if a = e.addr then ((e.wrote.map (·.2)).getD y) else y) = y := by
      split
      · next h =>
        have : e.wrote = none := by
          cases hw : e.wrote with
          | none => rfl
          | some x => exact absurd ⟨h, by rw [hw]; rfl⟩ ha
        rw [this]; rfl
      · rfl
    rw [hy]
    have hno : e.addr = a → e.wrote = none := by
      intro h
      cases hw : e.wrote with
      | none => rfl
      | some x => exact absurd ⟨h.symm, by rw [hw]; rfl⟩ ha
    rcases hf with ⟨h1, h2⟩ | ⟨g, t, g1, g2, g3, g4⟩
    · refine .inl ⟨h1, fun f hf hfa => ?_⟩
      rcases List.mem_append.1 hf with hf | hf
      · exact h2 f hf hfa
      · cases List.mem_singleton.1 hf
        exact hno hfa
    · refine .inr ⟨g, t, List.mem_append_left _ g1, g2, g3, fun f hf hfa t' y' hfw => ?_⟩
      rcases List.mem_append.1 hf with hf | hf
      · exact g4 f hf hfa t' y' hfw
      · cases List.mem_singleton.1 hf
        rw [hno hfa] at hfw
        cases hfw

/-- What is known about threads that do not race, at any time. -/
theorem solo_inv {I : WImpl w} (hI : I = posixWeak ∨ I = cudaWeak ∨ I = syclWeak ∨ I = syclBuiltinWeak) {m : AMem w} {progs : Nat → WProg w} {s : WRun w}
    (hr : RaceFree m progs) (h : WRun.Reach I m progs s) (i : Nat) :
    ∃ σ, SoloTo (progs i) m ((s.sys.trace.of i).map WEvent.solo) σ (s.prog i) ∧ ∀ a, WTrace.Final (s.sys.trace.of i) m a (σ a) := by
  induction h generalizing i with
  | start => exact ⟨m, .nil _ _, fun a => .inl ⟨rfl, fun e he => by simp [WTrace.of, WSys.start] at he⟩⟩
  | @step s s' h hs ih =>
    have h' := h.step hs
    cases hs with
    | quiet _ h1 h2 h3 => dsimp only; rw [h2]; exact ih i
    | access s1 e next h1 h2 h3 =>
      have hord := h'.sys.ordered (R := fun _ => False) (A := fun _ => False) (fun _ _ _ => False.elim) (fun _ _ _ => False.elim)
      have hval := h'.sys.values
      dsimp only at hord hval ⊢
      rw [h2] at hord ⊢
      by_cases hi : i = e.thread
      · subst hi
        obtain ⟨σ, hσ, hfin⟩ := ih e.thread
        rw [h3] at hσ
        have hmem : ∃ x ∈ ((progs e.thread).solo m).1, x.addr = e.addr := by
          rw [hσ.total]
          exact ⟨_, List.mem_append_right _ List.mem_cons_self, rfl⟩
        have only : ∀ f ∈ s.sys.trace, f.addr = e.addr → f.wrote.isSome → f.thread = e.thread := by
          intro f hf hfa hfw
          by_contra hne
          obtain ⟨σ', hσ', -⟩ := ih f.thread
          have hfm : f.solo ∈ ((progs f.thread).solo m).1 := by
            rw [hσ'.total]
            exact List.mem_append_left _ (List.mem_map_of_mem (List.mem_filter.2 ⟨hf, by simp⟩))
          obtain ⟨x, hx, hxa⟩ := hmem
          exact hr f.thread e.thread hne f.solo hfm (by simpa [WEvent.solo] using hfw) x hx (hxa.trans hfa.symm)
        have hfw := hval.writes
        rw [h2] at hfw
        have hcor : e.Correct := by
          obtain ⟨code, hc, hd⟩ := hval.did s.sys.trace.length e (by rw [h2]; simp)
          exact correct_of_did hI hc hd
        have hsolo := solo_of_correct hcor (v := σ e.addr) fun t y hy => read_own hord hfw only (hfin e.addr) hy
        have e1 : e.read.map (·.2) = (e.call.solo (σ e.addr)).1 := congrArg SoloAccess.read hsolo
        have e2 : e.wrote.map (·.2) = (e.call.solo (σ e.addr)).2 := congrArg SoloAccess.wrote hsolo
        refine ⟨fun b => if b = e.addr then (e.call.solo (σ e.addr)).2.getD (σ e.addr) else σ b, ?_, fun a => ?_⟩
        · have hof : WTrace.of (s.sys.trace ++ [e]) e.thread = s.sys.trace.of e.thread ++ [e] := by simp [WTrace.of, List.filter_append]
          rw [hof, List.map_append, List.map_singleton, hsolo, WSys.set_same, e1]
          exact hσ.snoc
        · have := final_snoc hord (hfin a)
          rw [e2] at this
          by_cases ha : a = e.addr
          · subst ha
            simpa using this
          · simpa [ha] using this
      · have hof : WTrace.of (s.sys.trace ++ [e]) i = s.sys.trace.of i := by
          simp [WTrace.of, List.filter_append, Ne.symm hi]
        rw [hof, WSys.set_ne _ _ hi]
        exact ih i

end Vecmem
