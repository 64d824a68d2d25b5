import Mathlib.Data.List.Basic

/-
Model of `Package::garbageCollect` (src/dd/Package.cpp:95-158) and `Package::clearComputeTables`
(src/dd/Package.cpp:605-623): which compute tables are invalidated when nodes are reclaimed.

A unique table (or the table of real numbers) is the list of its stored addresses with reference
counts; its own collection is modelled in detail in `Verif.Memory.UniqueTable` and is used here through
its effect: nothing, or exactly the entries with count 0 are reclaimed (theorem `c11_garbageCollect`).
A compute table is the list of its valid entries, an entry the list of the nodes and table numbers that
its key and its result mention.
-/
namespace MQT.PGC

set_option autoImplicit false

/-- Nodes of vectors, matrices, density matrices, and numbers of the real-number table. -/
inductive Kind where
  | v | m | d | c
  deriving DecidableEq, Repr

/-- The compute tables of a package, Package.hpp:676-702, 942-989, 1264, 1361-1363, 1496-1498, 1680-1682. -/
inductive Tbl where
  | vectorAdd | matrixAdd | densityAdd
  | vectorAddMagnitudes | matrixAddMagnitudes
  | conjugateVector | conjugateMatrixTranspose
  | matrixVectorMultiplication | matrixMatrixMultiplication | densityDensityMultiplication
  | vectorInnerProduct | vectorKronecker | matrixKronecker
  | densityTrace | matrixTrace
  | stochasticNoiseOperationCache | densityNoise
  deriving DecidableEq, Repr

/-- What an entry of each table can mention, by its C++ type: `CachedEdge`s hold their weight as a
plain complex value, only `mEdge`/`dEdge` (last two tables) point to table numbers. -/
def Tbl.kinds : Tbl → List Kind
  | .vectorAdd | .vectorAddMagnitudes | .conjugateVector | .vectorInnerProduct | .vectorKronecker => [.v]
  | .matrixAdd | .matrixAddMagnitudes | .conjugateMatrixTranspose | .matrixMatrixMultiplication
  | .matrixKronecker | .matrixTrace => [.m]
  | .matrixVectorMultiplication => [.m, .v]
  | .densityAdd | .densityDensityMultiplication | .densityTrace => [.d]
  | .stochasticNoiseOperationCache => [.m, .c]
  | .densityNoise => [.d, .c]

/-- State relevant for garbage collection. -/
structure P where
  stored : Kind → List Nat
  ref : Kind → Nat → Nat
  gcLimit : Kind → Nat
  cache : Tbl → List (List (Kind × Nat))

/-- UniqueTable.cpp:60-64, RealNumberUniqueTable.cpp:144-146: `possiblyNeedsCollection`. -/
def P.needs (s : P) (k : Kind) : Bool := decide ((s.stored k).length ≥ s.gcLimit k)

/-- UniqueTable.cpp:66-112 and RealNumberUniqueTable.cpp:148-193, effect of `garbageCollect`: the new
state and the number of reclaimed entries (update of the limit omitted). -/
def P.collect (s : P) (k : Kind) (force : Bool) : P × Nat :=
  let minimal := match k with | .c => decide ((s.stored k).length ≤ 1) | _ => decide ((s.stored k).length = 0)
  if (!force && !s.needs k) || minimal then (s, 0)
  else
    let keep := (s.stored k).filter fun a => s.ref k a ≠ 0
    ({ s with stored := fun k' => if k' = k then keep else s.stored k' },
      (s.stored k).length - keep.length)

/-- `clear` of one compute table. -/
def P.clear (s : P) (t : Tbl) : P := { s with cache := fun t' => if t' = t then [] else s.cache t' }

def P.clearAll (s : P) (ts : List Tbl) : P := ts.foldl P.clear s

/-- Package.cpp:95-158: `garbageCollect`. -/
def P.garbageCollect (s : P) (force : Bool) : P × Bool :=
  if !force && !s.needs .v && !s.needs .m && !s.needs .d && !s.needs .c then (s, false)
  else
    let (s, cCollect) := s.collect .c force
    let force := if cCollect > 0 then true else force
    let (s, vCollect) := s.collect .v force
    let (s, mCollect) := s.collect .m force
    let (s, dCollect) := s.collect .d force
    let s := if vCollect > 0 then s.clearAll [.vectorAdd, .vectorInnerProduct, .vectorKronecker,
      .matrixVectorMultiplication] else s
    let s := if mCollect > 0 then s.clearAll [.matrixAdd, .conjugateMatrixTranspose, .matrixKronecker,
      .matrixTrace, .matrixVectorMultiplication, .matrixMatrixMultiplication,
      .stochasticNoiseOperationCache] else s
    let s := if dCollect > 0 then s.clearAll [.densityAdd, .densityDensityMultiplication, .densityNoise,
      .densityTrace] else s
    let s := if cCollect > 0 then s.clearAll [.matrixVectorMultiplication, .matrixMatrixMultiplication,
      .conjugateMatrixTranspose, .vectorInnerProduct, .vectorKronecker, .matrixKronecker, .matrixTrace,
      .stochasticNoiseOperationCache, .densityAdd, .densityDensityMultiplication, .densityNoise,
      .densityTrace] else s
    (s, vCollect > 0 || mCollect > 0 || cCollect > 0)

/-- Package.cpp:605-623: `clearComputeTables`. -/
def P.clearComputeTables (s : P) : P :=
  s.clearAll [.vectorAdd, .matrixAdd, .vectorAddMagnitudes, .matrixAddMagnitudes, .conjugateVector,
    .conjugateMatrixTranspose, .matrixMatrixMultiplication, .matrixVectorMultiplication,
    .vectorInnerProduct, .vectorKronecker, .matrixKronecker, .matrixTrace,
    .stochasticNoiseOperationCache, .densityAdd, .densityDensityMultiplication, .densityNoise,
    .densityTrace]

/-! ### Lemmas -/

theorem clearAll_stored (ts : List Tbl) : ∀ s : P, (s.clearAll ts).stored = s.stored := by
  induction ts with
  | nil => intro s; rfl
  | cons t ts ih => intro s; exact ih (s.clear t)

theorem clearAll_cache (ts : List Tbl) : ∀ (s : P) (t : Tbl),
    (s.clearAll ts).cache t = if t ∈ ts then [] else s.cache t := by
  induction ts with
  | nil => intro s t; simp [P.clearAll]
  | cons u ts ih =>
    intro s t
    have := ih (s.clear u) t
    simp only [P.clearAll, List.foldl_cons] at this ⊢
    rw [this]
    by_cases h : t = u
    · subst h; simp [P.clear]
    · simp [P.clear, h]

theorem collect_cache (s : P) (k : Kind) (f : Bool) : (s.collect k f).1.cache = s.cache := by
  simp only [P.collect]; split <;> split <;> rfl

theorem collect_other (s : P) (k k' : Kind) (f : Bool) (h : k' ≠ k) :
    (s.collect k f).1.stored k' = s.stored k' := by
  simp only [P.collect]; split <;> split <;> simp [h]

/-- A collection that reports 0 reclaimed nothing. -/
theorem collect_zero (s : P) (k : Kind) (f : Bool) (h : ¬ (s.collect k f).2 > 0) :
    (s.collect k f).1.stored k = s.stored k := by
  have key : ∀ l : List Nat, ∀ p : Nat → Bool, ¬ l.length - (l.filter p).length > 0 → l.filter p = l := by
    intro l p hl
    apply List.filter_eq_self.mpr
    have h1 := List.length_filter_le p l
    exact List.length_filter_eq_length_iff.mp (by omega)
  simp only [P.collect] at h ⊢
  split <;> split
  · rfl
  · rename_i hc
    simp only [hc, Bool.false_eq_true, if_false] at h
    simp only [if_true]
    exact key _ _ h
  · rfl
  · rename_i hc
    simp only [hc, Bool.false_eq_true, if_false] at h
    simp only [if_true]
    exact key _ _ h

end MQT.PGC
