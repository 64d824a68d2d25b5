/-
Sums over the assignments of the lowest `n` qubits, used to state what matrix
products, inner products and traces of decision diagrams are.
-/
import Verif.DD.Basic

set_option autoImplicit false

noncomputable section

open Classical
open Function (update)

namespace MQT.DD

open MQT.IR (Bits State)

/-- Sum of `f` over all assignments of qubits `0 … n-1`, the others as in `s`. -/
def sumB {α : Type} [AddCommMonoid α] : ℕ → (Bits → α) → Bits → α
  | 0, f, s => f s
  | n + 1, f, s => sumB n f (update s n false) + sumB n f (update s n true)

/-- The assignment with qubits below `n` from `t` and the others from `s`. -/
def fill {n : ℕ} (t : Fin n → Bool) (s : Bits) : Bits :=
  fun q => if h : q < n then t ⟨q, h⟩ else s q

/-- `sumB` is the sum over all bit strings of length `n`. -/
theorem sumB_eq {α : Type} [AddCommMonoid α] (n : ℕ) (f : Bits → α) (s : Bits) :
    sumB n f s = ∑ t : Fin n → Bool, f (fill t s) := by
  induction n generalizing s with
  | zero =>
    rw [Fintype.sum_eq_single (fun i => i.elim0)]
    · rw [sumB]; congr 1
    · intro t ht; exact absurd (funext fun i => i.elim0) ht
  | succ n ih =>
    rw [sumB, ih, ih]
    have e : ∑ t : Fin (n + 1) → Bool, f (fill t s)
        = ∑ p : Bool × (Fin n → Bool), f (fill (Fin.snoc (α := fun _ => Bool) p.2 p.1) s) :=
      (Fintype.sum_equiv (Fin.snocEquiv (fun _ : Fin (n + 1) => Bool)) _ _ (fun p => rfl)).symm
    rw [e, Fintype.sum_prod_type, Fintype.sum_bool, add_comm]
    have key : ∀ (b : Bool) (t : Fin n → Bool),
        fill t (update s n b) = fill (Fin.snoc (α := fun _ => Bool) t b) s := by
      intro b t
      funext q
      unfold fill
      by_cases h : q < n
      · rw [dif_pos h, dif_pos (by omega)]
        simp [Fin.snoc, h]
      · by_cases hq : q = n
        · subst hq
          rw [dif_neg h, dif_pos (by omega), Function.update_self]
          simp [Fin.snoc]
        · rw [dif_neg h, dif_neg (by omega), Function.update_of_ne hq]
    simp only [key]

section

variable {α : Type} [AddCommMonoid α]

theorem sumB_congr {n : ℕ} {f g : Bits → α} {s : Bits}
    (h : ∀ z, (∀ q, n ≤ q → z q = s q) → f z = g z) : sumB n f s = sumB n g s := by
  induction n generalizing s with
  | zero => exact h s (fun _ _ => rfl)
  | succ n ih =>
    rw [sumB, sumB]
    congr 1 <;>
    · apply ih
      intro z hz
      apply h
      intro q hq
      rw [hz q (by omega), Function.update_of_ne (by omega)]

theorem sumB_add (n : ℕ) (f g : Bits → α) (s : Bits) :
    sumB n (fun z => f z + g z) s = sumB n f s + sumB n g s := by
  induction n generalizing s with
  | zero => rfl
  | succ n ih => rw [sumB, sumB, sumB, ih, ih]; exact add_add_add_comm _ _ _ _

theorem sumB_zero (n : ℕ) (s : Bits) : sumB n (fun _ => (0 : α)) s = 0 := by
  induction n generalizing s with
  | zero => rfl
  | succ n ih => rw [sumB, ih, ih, add_zero]

/-- The value of the top qubit is known inside the two halves. -/
theorem sumB_succ (n : ℕ) (f : Bits → α) (s : Bits) :
    sumB (n + 1) f s = sumB n (fun z => f (update z n false)) s
      + sumB n (fun z => f (update z n true)) s := by
  rw [sumB]
  have : ∀ b, sumB n f (update s n b) = sumB n (fun z => f (update z n b)) s := by
    intro b
    have e : ∀ (m : ℕ) (s : Bits), m ≤ n →
        sumB m f (update s n b) = sumB m (fun z => f (update z n b)) s := by
      intro m
      induction m with
      | zero => intro s _; rfl
      | succ m ih =>
        intro s hm
        rw [sumB, sumB, Function.update_comm (by omega), ih _ (by omega),
          Function.update_comm (by omega), ih _ (by omega)]
    exact e n s le_rfl
  rw [this, this]

/-- The assignment that follows `a` below `n` and `s` otherwise. -/
def low (n : ℕ) (a s : Bits) : Bits := fun q => if q < n then a q else s q

theorem low_succ (n : ℕ) (a s : Bits) : low n a (update s n (a n)) = low (n + 1) a s := by
  funext q
  unfold low
  by_cases h : q < n
  · rw [if_pos h, if_pos (by omega)]
  · by_cases hq : q = n
    · subst hq; rw [if_neg h, if_pos (by omega), Function.update_self]
    · rw [if_neg h, if_neg (by omega), Function.update_of_ne hq]

theorem sumB_pick (n : ℕ) (a : Bits) (g : Bits → α) (s : Bits) :
    sumB n (fun z => if ∀ q < n, a q = z q then g z else 0) s = g (low n a s) := by
  induction n generalizing s with
  | zero =>
    rw [sumB, if_pos (by simp)]
    rfl
  | succ n ih =>
    have key : ∀ b, sumB n (fun z => if ∀ q < n + 1, a q = z q then g z else 0) (update s n b)
        = if a n = b then g (low n a (update s n b)) else 0 := by
      intro b
      by_cases hb : a n = b
      · rw [if_pos hb, ← ih]
        apply sumB_congr
        intro z hz
        have hzn : z n = b := by rw [hz n le_rfl, Function.update_self]
        congr 1
        apply propext
        constructor
        · intro h q hq; exact h q (by omega)
        · intro h q hq
          rcases Nat.lt_succ_iff_lt_or_eq.1 hq with h1 | rfl
          · exact h q h1
          · rw [hb, hzn]
      · rw [if_neg hb]
        refine Eq.trans (sumB_congr (g := fun _ => 0) ?_) (sumB_zero n _)
        intro z hz
        have hzn : z n = b := by rw [hz n le_rfl, Function.update_self]
        rw [if_neg]
        intro h
        exact hb (by rw [h n (Nat.lt_succ_self n), hzn])
    rw [sumB, key, key]
    cases ha : a n
    · simp [← low_succ, ha]
    · simp [← low_succ, ha]

/-- Fixing the upper qubits of a larger sum. -/
theorem sumB_pick_high (n k : ℕ) (a : Bits) (g : Bits → α) (s : Bits) :
    sumB (n + k) (fun z => if ∀ q, n ≤ q → q < n + k → a q = z q then g z else 0) s
      = sumB n g (fun q => if n ≤ q ∧ q < n + k then a q else s q) := by
  induction k generalizing s with
  | zero =>
    have : (fun q => if n ≤ q ∧ q < n + 0 then a q else s q) = s := by
      funext q; rw [if_neg (by omega)]
    rw [this]
    apply sumB_congr
    intro z _
    rw [if_pos]
    intro q h1 h2; omega
  | succ k ih =>
    have key : ∀ b, sumB (n + k)
        (fun z => if ∀ q, n ≤ q → q < n + k + 1 → a q = z q then g z else 0) (update s (n + k) b)
        = if a (n + k) = b then sumB n g (fun q => if n ≤ q ∧ q < n + k then a q
            else update s (n + k) b q) else 0 := by
      intro b
      by_cases hb : a (n + k) = b
      · rw [if_pos hb, ← ih]
        apply sumB_congr
        intro z hz
        have hzn : z (n + k) = b := by rw [hz _ le_rfl, Function.update_self]
        congr 1
        apply propext
        constructor
        · intro h q h1 h2; exact h q h1 (by omega)
        · intro h q h1 h2
          rcases Nat.lt_succ_iff_lt_or_eq.1 h2 with h3 | rfl
          · exact h q h1 h3
          · rw [hb, hzn]
      · rw [if_neg hb]
        refine Eq.trans (sumB_congr (g := fun _ => 0) ?_) (sumB_zero (n + k) _)
        intro z hz
        have hzn : z (n + k) = b := by rw [hz _ le_rfl, Function.update_self]
        rw [if_neg]
        intro h
        exact hb (by rw [h (n + k) (by omega) (by omega), hzn])
    have e2 : (fun q => if n ≤ q ∧ q < n + k then a q else update s (n + k) (a (n + k)) q)
        = fun q => if n ≤ q ∧ q < n + k + 1 then a q else s q := by
      funext q
      by_cases h : q = n + k
      · subst h; simp
      · rw [Function.update_of_ne h]
        congr 1
        apply propext
        omega
    rw [← Nat.add_assoc, sumB, key, key, ← e2]
    cases ha : a (n + k) <;> simp

end

theorem sumB_mul_left (n : ℕ) (f : Bits → ℂ) (c : ℂ) (s : Bits) :
    sumB n (fun z => c * f z) s = c * sumB n f s := by
  induction n generalizing s with
  | zero => rfl
  | succ n ih => rw [sumB, sumB, ih, ih, mul_add]

/-- If `f` only looks at the qubits below `n` the base assignment is irrelevant. -/
theorem sumB_base {α : Type} [AddCommMonoid α] {n : ℕ} {f : Bits → α}
    (h : ∀ x y : Bits, (∀ q < n, x q = y q) → f x = f y)
    (s s' : Bits) : sumB n f s = sumB n f s' := by
  rw [sumB_eq, sumB_eq]
  apply Finset.sum_congr rfl
  intro t _
  apply h
  intro q hq
  simp [fill, hq]

end MQT.DD
