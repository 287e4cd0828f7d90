import Verif.Lemmas.HostData
import Verif.Props.C68_BufferMoves

/-!
# C72: the data objects of host containers

Vocabulary: `Verif/Spec/HostData.lean` (`DataVar.Shows`: what a data object says; `DataOp.after`, `DataOp.Returns`: what steps do and
return; `DataOp.Fits`: what a user may do).
-/

namespace Vecmem
namespace Props

variable {α σ : Type} {R : Limits} {G : Nat} {ups : Nat → MR σ} {u0 : σ} {s : Datas α σ} {S : DataStore}

/-- **C72**: whatever a program has done with any number of data objects, made from host containers with any variables or from jagged vectors,
with any resources, default-constructed, moved from and moved to, with the same resources in use by others: every object that should
describe a container describes it.  Its arrays of views are in memory of its own, one array for each jagged vector that is not
empty, as large as the views, from the resource that was asked for.

Missing: objects that have been moved from, which describe what they did before, in memory of others
(`c72_moved_view`, `c72_dangling`); those for containers with scalars only have an indeterminate capacity (`c72_indeterminate`); and vectors
of 2^32 elements or more are described modulo 2^32 (`HostCol.desc`, `c72_truncated`). -/
theorem c72_describes_partial (hl : FamLawful R G ups u0) (h : DataReach R ups u0 s S) (x : Nat) (d : DataDesc) (hx : S.vals x = some d) :
    ∃ v, s.vars.lookup x = some v ∧ v.Shows s.mem d ∧ (v.owners.flatMap Owner.blocks).map (·.2.size) = d.bytes ∧
      ∀ b ∈ v.owners.flatMap Owner.blocks, b.1 = d.res := by
  have hi := data_inv hl h
  cases e : s.vars.lookup x with
  | none => rw [hi.absent x e] at hx; cases hx
  | some v =>
    have hv := hi.vals x v e
    rw [hx] at hv
    obtain ⟨h1, h2⟩ := hv
    have hb := h2.bytes d.capacity
    rw [← DataVar.owners_blocks] at hb
    exact ⟨v, rfl, ⟨h1, h2.shows.1, h2.shows.2⟩, hb.1, hb.2⟩

/-- **C72**, what steps return: no step of such a program is undefined; those that allocate may throw `bad_alloc`, and `get_data` throws
`length_error` if, and only if, the vectors of the container differ in size. After an exception all other variables say what they
said before (`DataReach.throw`). -/
theorem c72_returns (hl : FamLawful R G ups u0) (h : DataReach R ups u0 s S) (op : DataOp) (hf : op.Fits R s S) :
    op.Returns (s.exec ups op).1 :=
  (data_step hl (data_inv hl h) hf).1

/-- **C72**, memory: at any point of any program, the memory in use is what the data objects own, each block to be given back to the resource
that it is from, and what others have got; no block is owned twice; and the objects own nothing if none describes a container: then
everything has been given back, also what was got by steps that threw an exception. -/
theorem c72_memory (hl : FamLawful R G ups u0) (h : DataReach R ups u0 s S) :
    FReach R ups u0 s.res (s.owned ++ s.other) ∧ (s.owned ++ s.other).Pairwise (fun e f => e.2.Disjoint f.2) ∧
    ((∀ x, S.vals x = none) → s.owned = []) := by
  have hi := data_inv hl h
  refine ⟨hi.reach, (hl.live hi.reach).2, fun h1 => ?_⟩
  rw [Datas.owned, List.flatMap_eq_nil_iff]
  intro e he
  have := hi.vals e.1 e.2 (lookup_of_mem hi.nodup (k := e.1) (b := e.2) he)
  rw [h1 e.1] at this
  exact this

/-- **C72**, in full for `get_data` of a container whose vectors have one size: it returns, unless it throws `bad_alloc`; the object has the
size of the container as capacity; the address of each scalar; address and size of each vector; and for each jagged vector an array
with address and size of every row (all sizes modulo 2^32). -/
theorem c72_host (hl : FamLawful R G ups u0) (h : DataReach R ups u0 s S) (x res junk : Nat) (cols : List HostCol)
    (hf : (DataOp.getHost x res junk cols).Fits R s S) (hsame : ∀ n ∈ hostSizesOf cols, ∀ n' ∈ hostSizesOf cols, n = n')
    (hb : (s.exec ups (.getHost x res junk cols)).1 ≠ .badAlloc) :
    ∃ v, (s.exec ups (.getHost x res junk cols)).2.vars.lookup x = some v ∧ (s.exec ups (.getHost x res junk cols)).1 = .ok () ∧
      v.cols.length = cols.length ∧ (∀ n ∈ hostSizesOf cols, v.capacity = n % 2 ^ 32) ∧
      ∀ (k : Nat) (r : DataRef) (o : Owner) (c : HostCol), v.cols[k]? = some (r, o) → cols[k]? = some c →
        match c, r with
        | .scalar p, .scalar q => q = p
        | .vector w, .vector y => y.capacity = w.size % 2 ^ 32 ∧ y.sizePtr = 0 ∧ y.ptr = w.data
        | .jagged rows, .jagged j => j.size = rows.length ∧ ∀ (i : Nat) (w : HostVec), rows[i]? = some w →
            (s.exec ups (.getHost x res junk cols)).2.mem.views (j.ptr + viewSize * i) = some ⟨w.size % 2 ^ 32, 0, w.data⟩
        | _, _ => False := by
  have hr := c72_returns hl h _ hf
  have hok : (s.exec ups (.getHost x res junk cols)).1 = .ok () := by
    have h1 : ¬ ∃ n ∈ hostSizesOf cols, ∃ n' ∈ hostSizesOf cols, n ≠ n' := by
      rintro ⟨n, hn, n', hn', hne⟩; exact hne (hsame n hn n' hn')
    have h2 : (s.exec ups (.getHost x res junk cols)).1 = .ok () ∨ (s.exec ups (.getHost x res junk cols)).1 = .badAlloc := by
      have h3 : (if _ then _ else _) := hr
      rw [if_neg h1] at h3; exact h3
    exact h2.resolve_right hb
  obtain ⟨v, h1, h2, -, -⟩ := c72_describes_partial hl (.ok h hf hok) x _ (if_pos rfl)
  refine ⟨v, h1, hok, by rw [h2.length]; simp, fun n hn => ?_, fun k r o c hk hc => ?_⟩
  · rw [h2.capacity]
    cases e : hostSizesOf cols with
    | nil => rw [e] at hn; cases hn
    | cons n' l =>
      show n' % 2 ^ 32 = n % 2 ^ 32
      rw [hsame n hn n' (by rw [e]; exact List.mem_cons_self)]
  · have h3 := h2.cols k r o c.desc hk (by simp [hc])
    cases c <;> cases r <;> try cases h3
    · rfl
    · exact ⟨rfl, rfl, rfl⟩
    · rename_i h3 h4
      refine ⟨by simpa using h3, fun i w hw => h4 i _ ?_⟩
      simp [hw]

/-- **C72**, nothing moves in memory: moving an object to a new variable neither allocates nor gives back memory, nor does it change a view;
the new variable has the views that the old one had, so that views that were made from it stay valid; and the old one
owns nothing. -/
theorem c72_moved_view (x y : Nat) (hxy : x ≠ y) (v : DataVar) (hv : s.vars.lookup y = some v) :
    (s.exec ups (.move x y)).1 = .ok () ∧ (s.exec ups (.move x y)).2.res = s.res ∧ (s.exec ups (.move x y)).2.mem = s.mem ∧
    (s.exec ups (.move x y)).2.vars.lookup x = some v ∧
    ∃ w, (s.exec ups (.move x y)).2.vars.lookup y = some w ∧ w.capacity = v.capacity ∧ w.cols.map (·.1) = v.cols.map (·.1) ∧
      ∀ o ∈ w.owners, o.mem.ptr = 0 := by
  refine ⟨?_, ?_, ?_, ?_, v.moved, ?_, rfl, ?_, ?_⟩
  · simp only [Datas.exec, hv]
  · simp only [Datas.exec, hv]
  · simp only [Datas.exec, hv]
  · simp only [Datas.exec, hv, lookup_putVar, if_true]
  · simp only [Datas.exec, hv, lookup_putVar, if_neg hxy.symm, if_true]
  · simp [DataVar.moved, List.map_map, Function.comp_def]
  · intro o ho
    simp only [DataVar.owners, DataVar.moved, List.map_map, List.mem_map, Function.comp_def] at ho
    obtain ⟨e, -, rfl⟩ := ho
    rfl

/-! ## Programs -/

/-- Run a program. -/
def dataRun (ups : Nat → MR σ) (s : Datas α σ) : List DataOp → List (Res Unit) × Datas α σ
  | [] => ([], s)
  | op :: ops =>
    let r := s.exec ups op
    let t := dataRun ups r.2 ops
    (r.1 :: t.1, t.2)

/-- What the data objects should say after a program. -/
def dataAfter (ups : Nat → MR σ) (s : Datas α σ) (S : DataStore) : List DataOp → DataStore
  | [] => S
  | op :: ops => dataAfter ups (s.exec ups op).2 (if (s.exec ups op).1 = .ok () then op.after S else S) ops

/-- A program only does what it may. -/
def dataFits (R : Limits) (ups : Nat → MR σ) (s : Datas α σ) (S : DataStore) : List DataOp → Prop
  | [] => True
  | op :: ops => op.Fits R s S ∧ dataFits R ups (s.exec ups op).2 (if (s.exec ups op).1 = .ok () then op.after S else S) ops

theorem data_runs : ∀ (ops : List DataOp) (s : Datas α σ) (S : DataStore), DataReach R ups u0 s S → dataFits R ups s S ops →
    DataReach R ups u0 (dataRun ups s ops).2 (dataAfter ups s S ops)
  | [], _, _, h, _ => h
  | op :: ops, s, S, h, hf => by
    simp only [dataRun, dataAfter]
    refine data_runs ops _ _ ?_ hf.2
    by_cases hr : (s.exec ups op).1 = .ok ()
    · rw [if_pos hr]; exact .ok h hf.1 hr
    · rw [if_neg hr]; exact .throw h hf.1 hr

/-! ## Examples -/

/-- A container with a scalar, a vector of two elements, a jagged vector with rows of three elements and none, and one with rows of one and
four elements. -/
def demoHostCols : List HostCol :=
  [.scalar 900, .vector ⟨1000, 2⟩, .jagged [⟨1100, 3⟩, ⟨0, 0⟩], .jagged [⟨1200, 1⟩, ⟨1300, 4⟩]]

/-- The memory at the start. -/
def demoJMem : JMem Unit := ⟨fun _ => none, fun _ => 0, fun _ => none⟩

/-- A program: data objects are made for a container and for a jagged vector, something else allocates memory between that; the first
one is moved to a new variable, then to a default-constructed one, and the variables it was in are destroyed; something else writes to its
memory; an object with empty rows is made, and the one for the jagged vector assigned to it; a container with vectors of different size is
refused. -/
def demoDataProgram : List DataOp :=
  [.getHost 0 0 0 demoHostCols, .alloc 0 40 8, .getJag 1 0 [⟨2000, 5⟩], .move 2 0, .destroy 0, .empty 3 77 [.vector ⟨9, 9, 9⟩], .assign 3 2,
    .destroy 2, .write 8000 ⟨1, 2, 3⟩, .make 4 0 3 [.jagged, .vector], .assign 4 1, .destroy 1,
    .getHost 5 0 0 [.vector ⟨1000, 2⟩, .jagged [⟨1100, 3⟩]]]

/-- What it returns. -/
example : (dataRun (fun _ => demoBase) ⟨demoInit, demoJMem, [], []⟩ demoDataProgram).1 =
    List.replicate 12 (.ok ()) ++ [.lengthError] := by decide +kernel

/-- The hypotheses of all theorems are met by the program. -/
theorem demo_data_fits : FamLawful 64 64 (fun _ : Nat => demoBase) demoInit ∧
    dataFits 64 (fun _ => demoBase) ⟨demoInit, demoJMem, [], []⟩ ⟨fun _ => none, fun _ => false⟩ demoDataProgram := by
  have req : ∀ n, n < 5 → IsReq 64 (n * viewSize) maxAlign := by
    intro n hn
    refine ⟨⟨?_, ?_⟩, by decide, 4, rfl⟩
    · show n * 24 ≤ 2 ^ 64 - 1
      omega
    · show n * 24 < 2 ^ 64
      omega
  refine ⟨.same (demo_lawful 64), ⟨rfl, ?_⟩, ⟨⟨by decide, by decide, 3, rfl⟩, by decide⟩, ⟨by decide +kernel, req 1 (by decide)⟩,
    ⟨by decide +kernel, by decide +kernel⟩, by unfold DataOp.Fits; decide +kernel, by unfold DataOp.Fits; decide +kernel,
    ⟨by decide +kernel, by decide +kernel⟩, by unfold DataOp.Fits; decide +kernel, ?_, ⟨by decide +kernel, fun _ => req 3 (by decide)⟩,
    ⟨by decide +kernel, by decide +kernel⟩, by unfold DataOp.Fits; decide +kernel, ⟨by decide +kernel, ?_⟩, trivial⟩
  · intro rows hr
    simp only [demoHostCols, List.mem_cons, List.not_mem_nil, or_false, reduceCtorEq, HostCol.jagged.injEq, false_or] at hr
    rcases hr with rfl | rfl <;> exact req 2 (by decide)
  · unfold DataOp.Fits
    decide +kernel
  · intro rows hr
    simp only [List.mem_cons, List.not_mem_nil, or_false, reduceCtorEq, HostCol.jagged.injEq, false_or] at hr
    subst hr
    exact req 1 (by decide)

/-- The program leaves the descriptions of the container in variable 3, and of the jagged vector in variable 4. -/
example : (dataAfter (fun _ => demoBase) ⟨demoInit, demoJMem, [], []⟩ ⟨fun _ => none, fun _ => false⟩ demoDataProgram).vals 3 =
      some ⟨0, 2, [.scalar 900, .vector ⟨2, 0, 1000⟩, .jagged [⟨3, 0, 1100⟩, ⟨0, 0, 0⟩], .jagged [⟨1, 0, 1200⟩, ⟨4, 0, 1300⟩]]⟩ ∧
    (dataAfter (fun _ => demoBase) ⟨demoInit, demoJMem, [], []⟩ ⟨fun _ => none, fun _ => false⟩ demoDataProgram).vals 4 =
      some ⟨0, 1, [.jagged [⟨5, 0, 2000⟩]]⟩ := by
  decide +kernel

/-- And so say the variables. -/
example : let s := (dataRun (fun _ => demoBase) ⟨demoInit, demoJMem, [], []⟩ demoDataProgram).2
    s.vars.map (·.1) = [4, 3] ∧ s.owned.length = 3 ∧ s.other.length = 1 ∧
    (s.vars.lookup 3).map (fun v => v.cols.map (·.1)) =
      some [.scalar 900, .vector ⟨2, 0, 1000⟩, .jagged ⟨2, 4192⟩, .jagged ⟨2, 4240⟩] ∧
    [4192, 4216, 4240, 4264].map s.mem.views = [some ⟨3, 0, 1100⟩, some ⟨0, 0, 0⟩, some ⟨1, 0, 1200⟩, some ⟨4, 0, 1300⟩] := by
  decide +kernel

/-! ## What is not guaranteed -/

/-- The program of `c72_dangling`: a data object is made in variable 0 and moved to variable 1, which is then destroyed. -/
def dataDanglingProgram : List DataOp := [.getJag 0 0 [⟨1000, 2⟩, ⟨1100, 3⟩], .move 1 0, .destroy 1]

/-- **C72** would be false of objects that have been moved from: this one still says that there are two rows, with the views at an address
where no variable owns memory. -/
theorem c72_dangling :
    (dataRun (fun _ => demoBase) ⟨demoInit, demoJMem, [], []⟩ dataDanglingProgram).1 = [.ok (), .ok (), .ok ()] ∧
    (dataRun (fun _ => demoBase) ⟨demoInit, demoJMem, [], []⟩ dataDanglingProgram).2.owned = [] ∧
    ((dataRun (fun _ => demoBase) ⟨demoInit, demoJMem, [], []⟩ dataDanglingProgram).2.vars.lookup 0).map (fun v => v.cols.map (·.1)) =
      some [.jagged ⟨2, 4096⟩] := by
  decide +kernel

/-- **C72** would be false of the capacity of objects for containers with scalars only: it can be anything (`edm::host::get_data` starts
from a default-constructed object, whose view is not initialised, and does not set it). -/
theorem c72_indeterminate (ptr junk : Nat) (u : σ) (m : JMem α) (res : Nat) :
    ∃ v, getHostData ups res junk [.scalar ptr] u m = (.ok v, u, m) ∧ v.capacity = junk :=
  ⟨⟨junk, [(.scalar ptr, {})]⟩, rfl, rfl⟩

/-- **C72** would be false of vectors with 2^32 elements or more, if the sizes were to be as they are: such a vector is described as
empty, and so is the container. -/
theorem c72_truncated (data : Nat) (u : σ) (m : JMem α) (res junk : Nat) :
    ∃ v, getHostData ups res junk [.vector ⟨data, 2 ^ 32⟩] u m = (.ok v, u, m) ∧ v.capacity = 0 ∧
      v.cols.map (·.1) = [.vector ⟨0, 0, data⟩] := by
  refine ⟨⟨0, [(.vector ⟨0, 0, data⟩, {})]⟩, ?_, rfl, rfl⟩
  simp [getHostData, HostCol.size, getHostSize, DataVar.make, HostCol.kind, makeCols, fillCols, Res.map]

end Props
end Vecmem
