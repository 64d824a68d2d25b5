/-
Property C94: dynamic circuits.
-/
import Verif.Opt.Dynamic
import Verif.Props.Opt

set_option autoImplicit false

namespace MQT.Opt.Dynamic

open MQT.IR

variable {P : Type}

/-- A reset, a classically controlled operation, or a standard operation on a qubit measured before, with all compound operations
taken apart. -/
def IsDynamic (ops : List (Op P)) : Prop :=
  (∃ qs, Op.reset qs ∈ flatL ops) ∨ (∃ p o, Op.classic p o ∈ flatL ops) ∨
    ∃ A qs cs B s C q, flatL ops = A ++ .measure qs cs :: B ++ .std s :: C ∧ q ∈ qs ∧ q ∈ s.used

theorem mem_measured {l : List (Op P)} {q : ℕ} :
    q ∈ measured l ↔ ∃ A qs cs B, l = A ++ .measure qs cs :: B ∧ q ∈ qs := by
  induction l with
  | nil => simp [measured]
  | cons o l ih =>
    constructor
    · intro h
      have tail : q ∈ measured l → ∃ A qs cs B, o :: l = A ++ .measure qs cs :: B ∧ q ∈ qs := fun h => by
        obtain ⟨A, qs, cs, B, rfl, hq⟩ := ih.1 h
        exact ⟨o :: A, qs, cs, B, rfl, hq⟩
      cases o with
      | measure qs cs =>
        rcases Finset.mem_union.1 h with h | h
        · exact ⟨[], qs, cs, l, rfl, by simpa using h⟩
        · exact tail h
      | _ => exact tail h
    · rintro ⟨A, qs, cs, B, e, hq⟩
      rw [e, measured_append]
      refine Finset.mem_union_right _ ?_
      rw [measured]
      exact Finset.mem_union_left _ (by simpa using hq)

theorem isDynamic_iff (ops : List (Op P)) : IsDynamic ops ↔ Dyn ∅ (flatL ops) := by
  constructor
  · rintro (⟨qs, h⟩ | ⟨p, o, h⟩ | ⟨A, qs, cs, B, s, C, q, e, h1, h2⟩)
    · obtain ⟨A, B, e⟩ := List.append_of_mem h
      exact ⟨A, _, B, e, trivial⟩
    · obtain ⟨A, B, e⟩ := List.append_of_mem h
      exact ⟨A, _, B, e, trivial⟩
    · refine ⟨A ++ .measure qs cs :: B, .std s, C, e, q, h2, Finset.mem_union_right _ ?_⟩
      exact mem_measured.2 ⟨A, qs, cs, B, rfl, h1⟩
  · rintro ⟨A, o, C, e, h⟩
    cases o with
    | reset qs => exact Or.inl ⟨qs, by rw [e]; simp⟩
    | classic p o => exact Or.inr (Or.inl ⟨p, o, by rw [e]; simp⟩)
    | std s =>
      obtain ⟨q, h1, h2⟩ := h
      rw [Finset.empty_union] at h2
      obtain ⟨A', qs, cs, B, rfl, hq⟩ := mem_measured.1 h2
      exact Or.inr (Or.inr ⟨A', qs, cs, B, s, C, q, e, hq, h1⟩)
    | measure qs cs => exact h.elim
    | compound ops b => exact h.elim

/-- **C94.** `isDynamic` tells whether the circuit has a reset, a classically controlled operation or a standard operation on a qubit
measured before, at any depth. -/
theorem c94_decides {n : ℕ} {ops : List (Op P)} (h : ∀ q ∈ Op.actsL ops, q < n) :
    ∃ b, isDynamic n ops = .ok b ∧ (b = true ↔ IsDynamic ops) := by
  have key := dynL_spec n ∅ ops h
  rw [isDynamic]
  revert key
  rcases dynL n ∅ ops with _ | _ | ⟨_ | _, M⟩
  · exact False.elim
  · exact False.elim
  · exact fun h => ⟨false, rfl, by rw [isDynamic_iff]; simp [h.1]⟩
  · exact fun h => ⟨true, rfl, by rw [isDynamic_iff]; exact ⟨fun _ => h, fun _ => rfl⟩⟩

/-- **C94.** If a circuit is not dynamic, it has the meaning of its gates followed by its measurements, in their old order. -/
theorem c94_measure_last {n : ℕ} {ops : List (Op ℝ)} (h : ∀ q ∈ Op.actsL ops, q < n) (hd : isDynamic n ops = .ok false) :
    run ops = run ((flatL ops).filter (fun o => !isMeas o) ++ (flatL ops).filter isMeas) ∧
      ∀ o ∈ (flatL ops).filter fun o => !isMeas o, ∃ s, o = .std s := by
  obtain ⟨b, e, hb⟩ := c94_decides h
  cases hd.symm.trans e
  have hn : ¬ Dyn ∅ (flatL ops) := by
    rw [← isDynamic_iff]; exact fun h => absurd (hb.2 h) (by simp)
  refine ⟨?_, fun o ho => ?_⟩
  · have := run_sorted [] (flatL ops) (by simp) (by simpa [measured] using hn) (flatL_no_compound ops)
    rw [List.nil_append, List.nil_append, run_flat] at this
    exact this
  · obtain ⟨h1, h2⟩ := List.mem_filter.1 ho
    cases o with
    | std s => exact ⟨s, rfl⟩
    | reset qs => exact absurd ((isDynamic_iff ops).1 (Or.inl ⟨qs, h1⟩)) hn
    | classic p o => exact absurd ((isDynamic_iff ops).1 (Or.inr (Or.inl ⟨p, o, h1⟩))) hn
    | measure qs cs => simp [isMeas] at h2
    | compound l b => exact absurd rfl (flatL_no_compound ops _ h1 l b)

/-- A measurement in between that no later gate depends on, and a qubit measured twice. -/
example : isDynamic 3 [gate (P := Unit) .h [0], .measure [0] [0], .compound [gate .x [1], .measure [0, 1] [1, 2]] false, gate .x [2]] = .ok false := by
  decide +kernel

/-- A gate on a qubit measured within a compound operation. -/
example : isDynamic 2 [.compound [gate (P := Unit) .x [1], .measure [0] [0]] false, cxOp 1 0] = .ok true := by decide +kernel

/-- A reset without measurements. -/
example : isDynamic 2 [gate (P := Unit) .x [1], .reset [0]] = .ok true := by decide +kernel

/-- **C94.** A barrier on a measured qubit makes a circuit dynamic, though it means nothing. -/
theorem c94_barrier : isDynamic (P := ℝ) 1 [.measure [0] [0], gate .barrier [0]] = .ok true ∧
    run [.measure [0] [0], gate .barrier [0]] = run [.measure [0] [0]] := by
  refine ⟨by decide +kernel, ?_⟩
  have h : ∀ c, exec (gate .barrier [0]) c = some c := by
    intro c
    rfl
  funext c
  rw [run_cons, run_cons]
  cases exec (.measure [0] [0]) c with
  | none => rfl
  | some c' => show run [gate .barrier [0]] c' = run [] c'; rw [run_singleton, h, run_nil]

end MQT.Opt.Dynamic
