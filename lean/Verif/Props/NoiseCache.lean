/-
Property C126: the cache of the operations of stochastic noise is transparent.
-/
import Verif.DD.NoiseCache

set_option autoImplicit false

namespace MQT.DD.NoiseCache

variable {E M : Type*}

/-- **C126.** The gate that is applied is that of the matrix of the noise and the target, whatever the cache holds.

Missing from C126: two noise models with the same package, for which it fails, see `c126_two_models`. -/
theorem c126_transparent_partial {mk : M → ℕ → E} {mat : ℕ → M} {s s' : Cache E} (hs : Reach mk mat s) {k t : ℕ} {e : E}
    (h : stack mk s k t (mat k) = some (e, s')) : e = mk (mat k) t := by
  by_cases h1 : t < s.nv ∧ k < s.nops
  · rcases stack_cases (mk := mk) (m := mat k) h1 with ⟨e', h2, h3⟩ | ⟨-, h3⟩
    · rw [h3] at h
      obtain ⟨rfl, -⟩ := Prod.mk.inj (Option.some.inj h)
      exact (reach_inv hs).val t k _ h2
    · rw [h3] at h
      exact (Prod.mk.inj (Option.some.inj h)).1.symm
  · rw [stack_none h1] at h
    exact absurd h (by simp)

/-- **C126.** No exception is thrown exactly if the target and the kind of noise are below the sizes of the table. -/
theorem c126_defined (mk : M → ℕ → E) (s : Cache E) (k t : ℕ) (m : M) : (stack mk s k t m).isSome = true ↔ t < s.nv ∧ k < s.nops := by
  by_cases h1 : t < s.nv ∧ k < s.nops
  · refine ⟨fun _ => h1, fun _ => ?_⟩
    rcases stack_cases (mk := mk) (m := m) h1 with ⟨e', -, h3⟩ | ⟨-, h3⟩ <;> rw [h3] <;> rfl
  · rw [stack_none h1]
    exact ⟨fun h => absurd h (by simp), fun h => absurd h h1⟩

/-- **C126.** An operation that was applied is found again, and the other entries and the sizes are unchanged. -/
theorem c126_found {mk : M → ℕ → E} {s s' : Cache E} {k t : ℕ} {m : M} {e : E} (h : stack mk s k t m = some (e, s')) :
    lookup s' k t = some (some e) ∧ s'.nv = s.nv ∧ s'.nops = s.nops ∧ ∀ t' k', ¬ (t' = t ∧ k' = k) → lookup s' k' t' = lookup s k' t' := by
  by_cases h1 : t < s.nv ∧ k < s.nops
  · rcases stack_cases (mk := mk) (m := m) h1 with ⟨e', h2, h3⟩ | ⟨-, h3⟩
    · rw [h3] at h
      obtain ⟨rfl, rfl⟩ := Prod.mk.inj (Option.some.inj h)
      exact ⟨by simp [lookup, h1, h2], rfl, rfl, fun _ _ _ => rfl⟩
    · rw [h3] at h
      obtain ⟨rfl, rfl⟩ := Prod.mk.inj (Option.some.inj h)
      refine ⟨by simp [lookup, h1], rfl, rfl, fun t' k' h4 => ?_⟩
      simp only [lookup, if_neg h4]
  · rw [stack_none h1] at h
    exact absurd h (by simp)

/-- **C126.** After `clear`, which garbage collection calls, nothing is found, though it does nothing if no entries are counted. -/
theorem c126_clear {mk : M → ℕ → E} {mat : ℕ → M} {s : Cache E} (hs : Reach mk mat s) (k t : ℕ) :
    lookup (clear s) k t = if t < s.nv ∧ k < s.nops then some none else none := by
  unfold clear
  by_cases h1 : 0 < s.entries
  · rw [if_pos h1]
    rfl
  · rw [if_neg h1]
    unfold lookup
    rw [(reach_inv hs).zero (by omega) t k]

/-- **C126.** After `resize`, the entries of the qubits there were are kept, those of new qubits are empty, even if there were such qubits
before. -/
theorem c126_resize (s : Cache E) (nq k t : ℕ) : lookup (resize s nq) k t =
    if t < nq ∧ k < s.nops then if t < s.nv then lookup s k t else some none else none := by
  unfold lookup resize
  by_cases h1 : t < nq <;> by_cases h2 : k < s.nops <;> by_cases h3 : t < s.nv <;> simp [h1, h2, h3]

/-- **C126 fails.** A second noise model with the same package and another matrix for the same kind of noise, as amplitude damping with
another probability, gets the operation of the first. -/
theorem c126_two_models (mk : M → ℕ → E) (nv nops k t : ℕ) (m1 m2 : M) (h : t < nv ∧ k < nops) :
    ∃ s, stack mk (new nv nops) k t m1 = some (mk m1 t, s) ∧ stack mk s k t m2 = some (mk m1 t, s) := by
  rcases stack_cases (mk := mk) (m := m1) (s := new nv nops) h with ⟨e, h1, -⟩ | ⟨-, h1⟩
  · exact absurd h1 (by simp [new])
  · refine ⟨_, h1, ?_⟩
    rcases stack_cases (mk := mk) (m := m2) (k := k) (t := t) (s := { (new nv nops : Cache E) with
      tab := fun t' k' => if t' = t ∧ k' = k then some (mk m1 t) else (new nv nops : Cache E).tab t' k'
      entries := (new nv nops : Cache E).entries + 1 }) h with ⟨e, h2, h3⟩ | ⟨h2, -⟩
    · simp only [and_self, if_true] at h2
      rw [h3, ← Option.some.inj h2]
    · simp at h2

/-- **C126 fails.** In a package with the default configuration the table has one kind of operation: noise of any other kind throws. -/
theorem c126_default (mk : M → ℕ → E) (nv k t : ℕ) (m : M) (h : k ≠ 0) : stack mk (new nv 1) k t m = none :=
  stack_none fun h1 => h (Nat.lt_one_iff.1 h1.2)

/-- The second time, the gate is found: the number of entries stays. -/
example : ((stack (fun m t => m + t) (new 2 3) 2 1 5).bind fun r => stack (fun m t => m + t) r.2 2 1 5).map
    (fun r => (r.1, r.2.entries)) = some (6, 1) := by
  rfl

end MQT.DD.NoiseCache
