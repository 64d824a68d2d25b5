import Verif.Common.Vec
import Mathlib.Data.Sym.Sym2

set_option autoImplicit false

/-
Model of `qc::SymmetricMatrix` (include/mqt-core/datastructures/SymmetricMatrix.hpp:21-55).
-/
namespace MQT.SymMat

variable {T : Type}

/-- SymmetricMatrix.hpp:22: `data`, a vector of rows. -/
abbrev M (T : Type) := Vec (Vec T)

/-- SymmetricMatrix.hpp:34-39: constructor with a value; row `i` has length `i + 1`. -/
def mk (size : Nat) (value : T) : M T := ⟨size, fun i => Vec.fill (i + 1) value⟩

/-- SymmetricMatrix.hpp:41-46: `operator() const`; `none` is an out-of-range access. -/
def get (m : M T) (row col : Nat) : Option T :=
  if row < col then (m.get? col).bind (·.get? row) else (m.get? row).bind (·.get? col)

/-- Write through a reference `data[r][c] = x`. -/
def write (m : M T) (r c : Nat) (x : T) : Option (M T) :=
  (m.get? r).bind fun l => (l.set? c x).bind fun l => m.set? r l

/-- SymmetricMatrix.hpp:48-53: assignment through the mutable `operator()`. -/
def set (m : M T) (row col : Nat) (x : T) : Option (M T) :=
  if row < col then write m col row x else write m row col x

/-- SymmetricMatrix.hpp:55. -/
def size (m : M T) : Nat := m.size

/-- A sequence of writes `(i, j, x)`. -/
def run (m : M T) : List (Nat × Nat × T) → Option (M T)
  | [] => some m
  | (i, j, x) :: ws => (set m i j x).bind fun m => run m ws

def Tri (m : M T) (n : Nat) : Prop := m.size = n ∧ ∀ i < n, (m.at' i).size = i + 1

theorem get_tri {m : M T} {n i j : Nat} (h : Tri m n) (hi : i < n) (hj : j < n) :
    get m i j = some (if i < j then (m.at' j).at' i else (m.at' i).at' j) := by
  unfold get
  split
  · have : i < j + 1 := by omega
    simp [Vec.get?, h.1, hj, h.2 j hj, this]
  · have : j < i + 1 := by omega
    simp [Vec.get?, h.1, hi, h.2 i hi, this]

theorem set_tri {m : M T} {n i j : Nat} (h : Tri m n) (hi : i < n) (hj : j < n) (x : T) :
    ∃ m', set m i j x = some m' ∧ Tri m' n ∧
      ∀ a b, a < n → b < n → get m' a b = if s(a, b) = s(i, j) then some x else get m a b := by
  have key : ∀ r c, r < n → c ≤ r → ∃ m', write m r c x = some m' ∧ Tri m' n ∧
      ∀ a b, a < n → b < n → get m' a b = if s(a, b) = s(r, c) then some x else get m a b := by
    intro r c hr hc
    have hc' : c < r + 1 := by omega
    refine ⟨⟨m.size, fun k => if k = r then ⟨(m.at' r).size, fun l => if l = c then x else (m.at' r).at' l⟩
      else m.at' k⟩, ?_, ?_, ?_⟩
    · simp [write, Vec.get?, Vec.set?, h.1, hr, h.2 r hr, hc']
    · refine ⟨h.1, fun k hk => ?_⟩
      simp only
      split
      · subst k; exact h.2 r hr
      · exact h.2 k hk
    · have ht : Tri (⟨m.size, fun k => if k = r then ⟨(m.at' r).size, fun l => if l = c then x else (m.at' r).at' l⟩
          else m.at' k⟩ : M T) n := by
        refine ⟨h.1, fun k hk => ?_⟩
        simp only
        split
        · subst k; exact h.2 r hr
        · exact h.2 k hk
      intro a b ha hb
      rw [get_tri ht ha hb, get_tri h ha hb]
      simp only [Sym2.eq_iff]
      by_cases hab : a < b
      · simp only [hab, if_true]
        by_cases e1 : b = r
        · subst e1
          by_cases e2 : a = c
          · subst e2; simp
          · have : ¬ (a = b ∧ b = c) := by omega
            simp [e2, this]
        · have : ¬ (a = r ∧ b = c) := by omega
          simp [e1, this]
      · simp only [hab, if_false]
        by_cases e1 : a = r
        · subst e1
          by_cases e2 : b = c
          · subst e2; simp
          · have : ¬ (a = c ∧ b = a) := by omega
            simp [e2, this]
        · have : ¬ (a = c ∧ b = r) := by omega
          simp [e1, this]
  unfold set
  split
  · obtain ⟨m', e, t, g⟩ := key j i hj (by omega)
    exact ⟨m', e, t, fun a b ha hb => by rw [g a b ha hb, Sym2.eq_swap (a := j)]⟩
  · exact key i j hi (by omega)

end MQT.SymMat
