import Verif.DataStructures.SymmetricMatrix

set_option autoImplicit false

/-! C06: symmetric matrix reads are symmetric and read-your-writes. -/

namespace MQT.SymMat

variable {T : Type}

/-- Specification: the last value written to an unordered pair, or the initial value. -/
def lastWrite (value : T) : List (Nat × Nat × T) → Sym2 Nat → T
  | [], _ => value
  | ws@(_ :: _), p =>
    match ws.reverse.find? (fun w => decide (s(w.1, w.2.1) = p)) with
    | some w => w.2.2
    | none => value

theorem lastWrite_eq (value : T) (ws : List (Nat × Nat × T)) (p : Sym2 Nat) :
    lastWrite value ws p =
      match ws.reverse.find? (fun w => decide (s(w.1, w.2.1) = p)) with
      | some w => w.2.2
      | none => value := by
  cases ws <;> rfl

theorem run_spec (n : Nat) (ws : List (Nat × Nat × T)) : ∀ (m : M T), Tri m n →
    (∀ w ∈ ws, w.1 < n ∧ w.2.1 < n) →
    ∃ m', run m ws = some m' ∧ Tri m' n ∧ ∀ a b, a < n → b < n →
      get m' a b = match ws.reverse.find? (fun w => decide (s(w.1, w.2.1) = s(a, b))) with
        | some w => some w.2.2
        | none => get m a b := by
  induction ws with
  | nil => intro m h _; exact ⟨m, rfl, h, by simp⟩
  | cons w ws ih =>
    intro m h hw
    obtain ⟨i, j, x⟩ := w
    obtain ⟨hi, hj⟩ := hw (i, j, x) (by simp)
    obtain ⟨m1, e1, t1, g1⟩ := set_tri h hi hj x
    obtain ⟨m2, e2, t2, g2⟩ := ih m1 t1 (fun w hm => hw w (by simp [hm]))
    refine ⟨m2, by simp [run, e1, e2], t2, ?_⟩
    intro a b ha hb
    rw [g2 a b ha hb, List.reverse_cons, List.find?_append]
    cases ws.reverse.find? (fun w => decide (s(w.1, w.2.1) = s(a, b))) with
    | some w => simp
    | none =>
      simp only [Option.none_or, List.find?_cons, List.find?_nil]
      rw [g1 a b ha hb]
      by_cases e : s(a, b) = s(i, j)
      · simp [e]
      · have : ¬ s(i, j) = s(a, b) := fun h => e h.symm
        simp [e, this]

/-- **C06.** For every size and every in-range sequence of writes: no access is out of range, and
every read `m(a,b)` returns the last value written to the unordered pair `{a,b}` (or the initial
value). In particular `m(a,b)` and `m(b,a)` are the same cell, and a write to one unordered pair is
invisible at every other pair. -/
theorem c06_symmetricMatrix (n : Nat) (value : T) (ws : List (Nat × Nat × T))
    (hw : ∀ w ∈ ws, w.1 < n ∧ w.2.1 < n) :
    ∃ m, run (mk n value) ws = some m ∧ size m = n ∧
      ∀ a b, a < n → b < n →
        get m a b = some (lastWrite value ws s(a, b)) ∧ get m a b = get m b a := by
  have h0 : Tri (mk n value) n := ⟨rfl, fun i _ => rfl⟩
  obtain ⟨m, e, t, g⟩ := run_spec n ws (mk n value) h0 hw
  refine ⟨m, e, t.1, ?_⟩
  have key : ∀ a b, a < n → b < n → get m a b = some (lastWrite value ws s(a, b)) := by
    intro a b ha hb
    rw [g a b ha hb, lastWrite_eq]
    cases ws.reverse.find? (fun w => decide (s(w.1, w.2.1) = s(a, b))) with
    | some w => rfl
    | none => simp only; rw [get_tri h0 ha hb]; simp [mk, Vec.fill]
  intro a b ha hb
  exact ⟨key a b ha hb, by rw [key a b ha hb, key b a hb ha, Sym2.eq_swap]⟩

/-- Out of range stays visible: reading row 3 of a 3×3 matrix is undefined behaviour. -/
example : get (mk 3 'x') 1 3 = none := by decide

/-- Concrete case with overlapping writes through both orientations. -/
example : (run (mk 3 0) [(0, 2, 7), (1, 1, 5), (2, 0, 9)]).bind (fun m => get m 0 2) = some 9 := by decide

example : ∀ w ∈ [(0, 2, 7), (1, 1, 5), (2, 0, 9)], w.1 < 3 ∧ w.2.1 < 3 := by decide

end MQT.SymMat
