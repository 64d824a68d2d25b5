/-
Nested environments (`include/mqt-core/qasm3/NestedEnvironment.hpp`).

`std::map` is trusted: a scope is the function from keys to the values stored.
-/
import Mathlib.Logic.Function.Basic

set_option autoImplicit false

open Function (update)

namespace MQT.QASM

variable {K T : Type} [DecidableEq K]

/-- One `std::map<std::string, T>`. -/
abbrev Scope (K T : Type) := K → Option T

/-- `std::map::emplace`: no effect if the key is there already. -/
def Scope.emplace (m : Scope K T) (k : K) (t : T) : Scope K T := if m k = none then update m k (some t) else m

/-- The scopes, innermost first (the back of the vector). -/
abbrev Env (K T : Type) := List (Scope K T)

namespace Env

/-- The constructor (NestedEnvironment.hpp 23). -/
def new : Env K T := [fun _ => none]

/-- NestedEnvironment.hpp 25. -/
def push (e : Env K T) : Env K T := (fun _ => none) :: e

/-- NestedEnvironment.hpp 27; undefined behaviour on an empty vector. -/
def pop : Env K T → Option (Env K T)
  | [] => none
  | _ :: e => some e

/-- NestedEnvironment.hpp 29-37. -/
def find (k : K) : Env K T → Option T
  | [] => none
  | m :: e =>
    match m k with
    | some t => some t
    | none => find k e

/-- NestedEnvironment.hpp 39; undefined behaviour on an empty vector. -/
def emplace (k : K) (t : T) : Env K T → Option (Env K T)
  | [] => none
  | m :: e => some (Scope.emplace m k t :: e)

end Env

/-- A call of the class. -/
inductive EnvOp (K T : Type)
  | push
  | pop
  | emplace (k : K) (t : T)
  | find (k : K)

/-- A history of calls, with the results of the `find`s. -/
def Env.run : List (EnvOp K T) → Env K T → Option (Env K T × List (Option T))
  | [], e => some (e, [])
  | .push :: r, e => Env.run r e.push
  | .pop :: r, e => e.pop.bind (Env.run r)
  | .emplace k t :: r, e => (e.emplace k t).bind (Env.run r)
  | .find k :: r, e => (Env.run r e).map fun p => (p.1, e.find k :: p.2)

/-! ### Specification -/

/-- Programs with nested blocks. -/
inductive Block (K T : Type)
  | declare (k : K) (t : T)
  | use (k : K)
  | scope (body : List (Block K T))

/-- The bindings visible and the names declared in the block so far. -/
structure Visible (K T : Type) where
  val : K → Option T
  here : K → Prop

open Classical in
/-- The declaration of a name in a block hides those of enclosing blocks; a second one in the same block has no effect. -/
noncomputable def Visible.declare (ρ : Visible K T) (k : K) (t : T) : Visible K T :=
  if ρ.here k then ρ else ⟨update ρ.val k (some t), fun k' => k' = k ∨ ρ.here k'⟩

mutual
/-- Lexical scoping: what the uses in a program see, and the bindings at its end. -/
noncomputable def Block.meaning : List (Block K T) → Visible K T → Visible K T × List (Option T)
  | [], ρ => (ρ, [])
  | b :: r, ρ =>
    let p := Block.meaning1 b ρ
    let q := Block.meaning r p.1
    (q.1, p.2 ++ q.2)
noncomputable def Block.meaning1 : Block K T → Visible K T → Visible K T × List (Option T)
  | .declare k t, ρ => (ρ.declare k t, [])
  | .use k, ρ => (ρ, [ρ.val k])
  | .scope body, ρ => (ρ, (Block.meaning body ⟨ρ.val, fun _ => False⟩).2)
end

mutual
/-- The calls for a program. -/
def Block.calls : List (Block K T) → List (EnvOp K T)
  | [] => []
  | b :: r => Block.calls1 b ++ Block.calls r
def Block.calls1 : Block K T → List (EnvOp K T)
  | .declare k t => [.emplace k t]
  | .use k => [.find k]
  | .scope body => .push :: Block.calls body ++ [.pop]
end

/-! ### Lemmas -/

theorem Env.run_append (l r : List (EnvOp K T)) (e : Env K T) :
    Env.run (l ++ r) e = (Env.run l e).bind fun p => (Env.run r p.1).map fun q => (q.1, p.2 ++ q.2) := by
  induction l generalizing e with
  | nil => simp [Env.run]
  | cons o l ih =>
    cases o with
    | push => simpa [Env.run] using ih _
    | pop =>
      simp only [List.cons_append, Env.run]
      cases e.pop with
      | none => rfl
      | some e' => simpa using ih e'
    | emplace k t =>
      simp only [List.cons_append, Env.run]
      cases e.emplace k t with
      | none => rfl
      | some e' => simpa using ih e'
    | find k =>
      simp only [List.cons_append, Env.run, ih]
      cases Env.run l e with
      | none => rfl
      | some p =>
        simp only [Option.bind_some, Option.map_some]
        cases Env.run r p.1 <;> rfl

/-- An environment has the bindings `ρ`. -/
def Env.Shows (e : Env K T) (ρ : Visible K T) : Prop :=
  ∃ m r, e = m :: r ∧ (∀ k, e.find k = ρ.val k) ∧ ∀ k, ρ.here k ↔ m k ≠ none

theorem Env.Shows.emplace {e : Env K T} {ρ : Visible K T} (h : e.Shows ρ) (k : K) (t : T) :
    ∃ m m' r, e = m :: r ∧ e.emplace k t = some (m' :: r) ∧ Env.Shows (m' :: r) (ρ.declare k t) := by
  obtain ⟨m, r, rfl, hf, hh⟩ := h
  refine ⟨m, Scope.emplace m k t, r, rfl, rfl, Scope.emplace m k t, r, rfl, ?_, ?_⟩
  · intro k'
    unfold Visible.declare Scope.emplace
    by_cases hk : m k = none
    · rw [if_pos hk, if_neg (by rw [hh]; exact not_not.2 hk)]
      simp only [Env.find]
      by_cases hkk : k' = k
      · subst hkk; simp
      · rw [Function.update_of_ne hkk, Function.update_of_ne hkk, ← hf]
        rfl
    · rw [if_neg hk, if_pos ((hh k).2 hk)]
      exact hf k'
  · intro k'
    unfold Visible.declare Scope.emplace
    by_cases hk : m k = none
    · rw [if_pos hk, if_neg (by rw [hh]; exact not_not.2 hk)]
      by_cases hkk : k' = k
      · subst hkk; simp
      · simp only [hkk, false_or, Function.update_of_ne hkk]; exact hh k'
    · rw [if_neg hk, if_pos ((hh k).2 hk)]
      exact hh k'

mutual
theorem Block.run_calls (p : List (Block K T)) : ∀ (m : Scope K T) (r : Env K T) (ρ : Visible K T), Env.Shows (m :: r) ρ →
    ∃ m', Env.run (Block.calls p) (m :: r) = some (m' :: r, (Block.meaning p ρ).2) ∧ Env.Shows (m' :: r) (Block.meaning p ρ).1 :=
  match p with
  | [] => fun m r ρ h => ⟨m, by simp [Block.calls, Env.run, Block.meaning], by simpa [Block.meaning] using h⟩
  | b :: p => fun m r ρ h => by
    obtain ⟨m1, e1, h1⟩ := Block.run_calls1 b m r ρ h
    obtain ⟨m2, e2, h2⟩ := Block.run_calls p m1 r _ h1
    refine ⟨m2, ?_, ?_⟩
    · rw [Block.calls, Env.run_append, e1]
      simp only [Option.bind_some]
      rw [e2]
      simp [Block.meaning]
    · simpa [Block.meaning] using h2
theorem Block.run_calls1 (b : Block K T) : ∀ (m : Scope K T) (r : Env K T) (ρ : Visible K T), Env.Shows (m :: r) ρ →
    ∃ m', Env.run (Block.calls1 b) (m :: r) = some (m' :: r, (Block.meaning1 b ρ).2) ∧ Env.Shows (m' :: r) (Block.meaning1 b ρ).1 :=
  match b with
  | .declare k t => fun m r ρ h => by
    obtain ⟨m0, m', r0, he, hs, h'⟩ := h.emplace k t
    obtain ⟨rfl, rfl⟩ := List.cons.inj he
    refine ⟨m', ?_, ?_⟩
    · simp only [Block.calls1, Env.run]
      rw [hs]
      simp [Block.meaning1]
    · simpa [Block.meaning1] using h'
  | .use k => fun m r ρ h => by
    refine ⟨m, ?_, by simpa [Block.meaning1] using h⟩
    obtain ⟨_, _, _, hf, _⟩ := h
    simp [Block.calls1, Env.run, Block.meaning1, hf]
  | .scope body => fun m r ρ h => by
    have hs : Env.Shows (Env.push (m :: r)) ⟨ρ.val, fun _ => False⟩ := by
      refine ⟨_, _, rfl, ?_, by simp⟩
      obtain ⟨_, _, _, hf, _⟩ := h
      intro k
      rw [← hf k]
      rfl
    obtain ⟨m', e', _⟩ := Block.run_calls body _ _ _ hs
    refine ⟨m, ?_, by simpa [Block.meaning1] using h⟩
    simp only [Block.calls1, List.cons_append, Env.run]
    rw [Env.run_append]
    unfold Env.push
    rw [e']
    simp [Env.run, Env.pop, Block.meaning1]
end

end MQT.QASM
