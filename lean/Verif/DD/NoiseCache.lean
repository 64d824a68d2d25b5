/-
The cache of the operations of stochastic noise.

Models `StochasticNoiseOperationTable` (`include/mqt-core/dd/StochasticNoiseOperationTable.hpp` 28-92: constructor, `resize`, `insert`,
`lookup`, `clear`) and `StochasticNoiseFunctionality::stackOperation` (`src/dd/NoiseFunctionality.cpp` 141-152) up to the product with the
operation stacked on.

Edges are any type, an entry whose weight is a null pointer is `none`; `mk` is `makeGateDD`, a function of the matrix and the target.  The
assertions are those of a release build: none.  Of the statistics only the number of entries is kept, as `clear` reads it.
-/
import Mathlib.Logic.Basic
import Mathlib.Tactic.Common

set_option autoImplicit false

namespace MQT.DD.NoiseCache

variable {E M : Type*}

/-! ### Model -/

/-- The numbers of qubits and of operations, the entries (by target and kind), and the number of insertions since the last `clear`. -/
structure Cache (E : Type*) where
  nv : ℕ
  nops : ℕ
  tab : ℕ → ℕ → Option E
  entries : ℕ

/-- The constructor (StochasticNoiseOperationTable.hpp 30-37). -/
def new (nv nops : ℕ) : Cache E := ⟨nv, nops, fun _ _ => none, 0⟩

/-- `resize` (StochasticNoiseOperationTable.hpp 45-48). -/
def resize (s : Cache E) (nq : ℕ) : Cache E :=
  { s with nv := nq, tab := fun t k => if t < s.nv ∧ t < nq then s.tab t k else none }

/-- `insert` (StochasticNoiseOperationTable.hpp 50-57); `none`: `at` throws. -/
def insert (s : Cache E) (k t : ℕ) (r : E) : Option (Cache E) :=
  if t < s.nv ∧ k < s.nops then
    some { s with tab := fun t' k' => if t' = t ∧ k' = k then some r else s.tab t' k', entries := s.entries + 1 }
  else none

/-- `lookup` (StochasticNoiseOperationTable.hpp 59-71); `none`: `at` throws. -/
def lookup (s : Cache E) (k t : ℕ) : Option (Option E) :=
  if t < s.nv ∧ k < s.nops then some (s.tab t k) else none

/-- `clear` (StochasticNoiseOperationTable.hpp 73-80). -/
def clear (s : Cache E) : Cache E :=
  if 0 < s.entries then { s with tab := fun _ _ => none, entries := 0 } else s

/-- `stackOperation` (NoiseFunctionality.cpp 141-152): the gate that is multiplied. -/
def stack (mk : M → ℕ → E) (s : Cache E) (k t : ℕ) (m : M) : Option (E × Cache E) :=
  match lookup s k t with
  | none => none
  | some (some e) => some (e, s)
  | some none => (insert s k t (mk m t)).map fun s' => (mk m t, s')

/-! ### Specification -/

/-- The caches a noise model whose matrix for a kind of noise is `mat` leaves, with garbage collection and resizing in between. -/
inductive Reach (mk : M → ℕ → E) (mat : ℕ → M) : Cache E → Prop
  | new (nv nops : ℕ) : Reach mk mat (new nv nops)
  | resize {s : Cache E} (nq : ℕ) : Reach mk mat s → Reach mk mat (resize s nq)
  | clear {s : Cache E} : Reach mk mat s → Reach mk mat (clear s)
  | stack {s s' : Cache E} {k t : ℕ} {e : E} : Reach mk mat s → stack mk s k t (mat k) = some (e, s') → Reach mk mat s'

/-! ### Lemmas -/

/-- The entries are what they should be, and there are none if none are counted. -/
structure Inv (mk : M → ℕ → E) (mat : ℕ → M) (s : Cache E) : Prop where
  val : ∀ t k e, s.tab t k = some e → e = mk (mat k) t
  zero : s.entries = 0 → ∀ t k, s.tab t k = none

theorem stack_cases {mk : M → ℕ → E} {s : Cache E} {k t : ℕ} {m : M} (h : t < s.nv ∧ k < s.nops) :
    (∃ e, s.tab t k = some e ∧ stack mk s k t m = some (e, s)) ∨
    s.tab t k = none ∧ stack mk s k t m = some (mk m t,
      { s with tab := fun t' k' => if t' = t ∧ k' = k then some (mk m t) else s.tab t' k', entries := s.entries + 1 }) := by
  unfold stack lookup insert
  rw [if_pos h]
  cases e : s.tab t k with
  | none =>
    refine Or.inr ⟨rfl, ?_⟩
    simp only [if_pos h, Option.map_some]
  | some e' => exact Or.inl ⟨e', rfl, rfl⟩

theorem stack_none {mk : M → ℕ → E} {s : Cache E} {k t : ℕ} {m : M} (h : ¬ (t < s.nv ∧ k < s.nops)) : stack mk s k t m = none := by
  unfold stack lookup
  rw [if_neg h]

theorem reach_inv {mk : M → ℕ → E} {mat : ℕ → M} {s : Cache E} (h : Reach mk mat s) : Inv mk mat s := by
  induction h with
  | new nv nops => exact ⟨fun t k e h => absurd h (by simp [new]), fun _ _ _ => rfl⟩
  | @resize s nq _ ih =>
    refine ⟨fun t k e h => ?_, fun h t k => ?_⟩
    · by_cases h1 : t < s.nv ∧ t < nq
      · simp only [resize, if_pos h1] at h
        exact ih.val t k e h
      · simp only [resize, if_neg h1] at h
        exact absurd h (by simp)
    · have := ih.zero h t k
      simp [resize, this]
  | @clear s _ ih =>
    unfold clear
    by_cases h1 : 0 < s.entries
    · rw [if_pos h1]
      exact ⟨fun t k e h => absurd h (by simp), fun _ _ _ => rfl⟩
    · rw [if_neg h1]
      exact ih
  | @stack s s' k t e _ h ih =>
    by_cases h1 : t < s.nv ∧ k < s.nops
    · rcases stack_cases (mk := mk) (m := mat k) h1 with ⟨e', -, h2⟩ | ⟨-, h2⟩
      · rw [h2] at h
        obtain ⟨-, rfl⟩ := Prod.mk.inj (Option.some.inj h)
        exact ih
      · rw [h2] at h
        obtain ⟨-, rfl⟩ := Prod.mk.inj (Option.some.inj h)
        refine ⟨fun t' k' e' h3 => ?_, fun h3 => absurd h3 (Nat.succ_ne_zero _)⟩
        by_cases h4 : t' = t ∧ k' = k
        · simp only [if_pos h4] at h3
          rw [h4.1, h4.2]
          exact (Option.some.inj h3).symm
        · simp only [if_neg h4] at h3
          exact ih.val t' k' e' h3
    · rw [stack_none h1] at h
      exact absurd h (by simp)

end MQT.DD.NoiseCache
