/-
Canonicity of decision diagrams (C34): every diagram that the modelled operations of the package
build has the shape invariant, and diagrams with the shape invariant are determined by what they
represent.
-/
import Verif.Props.DDArith
import Verif.Props.DDBuild
import Verif.Props.DDKron
import Verif.Props.DDMeasure
import Verif.DD.Ancilla

set_option autoImplicit false

noncomputable section

open Classical
open Function (update)
open Complex (normSq)

namespace MQT.DD

open MQT.IR

/-- The diagrams over `n` qubits that can be built with the operations of the package: state
construction, gates, matrices, addition, multiplication, conjugation, Kronecker products,
measurement, reduction of ancillaries, and multiplication with a non-zero number. -/
inductive Built : ℕ → VEdge ⊕ MEdge → Prop
  | zeroState {nq n : ℕ} {e : VEdge} : makeZeroState nq n 0 = .ok e → Built n (.inl e)
  | basisState {nq n : ℕ} {s : List Bool} {e : VEdge} :
      makeBasisState nq n s 0 = .ok e → Built n (.inl e)
  | productState {nq n : ℕ} {s : List BasisState} {e : VEdge} :
      makeBasisState6 nq n s 0 = .ok e → Built n (.inl e)
  | ghz {nq n : ℕ} {e : VEdge} : makeGHZState nq n = .ok e → Built n (.inl e)
  | wState {nq n : ℕ} {e : VEdge} : makeWState nq n = .ok e → Built n (.inl e)
  | fromVector {n : ℕ} {l : List ℂ} {e : VEdge} : l.length = 2 ^ n →
      makeStateFromVector l = .ok e → Built n (.inl e)
  | vadd {n : ℕ} {x y e : VEdge} : Built n (.inl x) → Built n (.inl y) → vadd x y = some e →
      Built n (.inl e)
  | mvmul {n : ℕ} {x : MEdge} {y e : VEdge} : Built n (.inr x) → Built n (.inl y) →
      mvmul x y = some e → Built n (.inl e)
  | conjugate {n : ℕ} {x : VEdge} : Built n (.inl x) → Built n (.inl (conjugate x))
  | kronV {n m : ℕ} {x y : VEdge} : Built n (.inl x) → Built m (.inl y) →
      Built (n + m) (.inl (kronV x y))
  | measure {nq n idx : ℕ} {x e : VEdge} {b : Bool} {draw : ℝ} : Built n (.inl x) →
      normSq x.w = 1 → idx < n → n ≤ nq → draw ∈ Set.Ico (0 : ℝ) 1 →
      measureOne nq x idx 0 draw = .ok (b, e) → Built n (.inl e)
  | vscale {n : ℕ} {x : VEdge} {z : ℂ} : Built n (.inl x) → z ≠ 0 → Built n (.inl ⟨x.p, x.w * z⟩)
  | ident {n : ℕ} : Built n (.inr .one)
  | gate {n : ℕ} {M : Mat1} {l : List Ctrl} {t : ℕ} {e : MEdge} :
      l.Pairwise (fun c d => c.1 < d.1) → (∀ c ∈ l, c.1 < n) → t < n → (∀ c ∈ l, c.1 ≠ t) →
      makeGateDD n M l t = some e → Built n (.inr e)
  | gate2 {n : ℕ} {M : Mat2} {l : List Ctrl} {t0 t1 : ℕ} {e : MEdge} :
      l.Pairwise (fun c d => c.1 < d.1) → (∀ c ∈ l, c.1 < n) → t0 < n → t1 < n → t0 ≠ t1 →
      (∀ c ∈ l, c.1 ≠ t0) → (∀ c ∈ l, c.1 ≠ t1) →
      makeTwoQubitGateDD n M l t0 t1 = some e → Built n (.inr e)
  | fromMatrix {n : ℕ} {m : List (List ℂ)} {e : MEdge} : m.length = 2 ^ n →
      (∀ row ∈ m, row.length = 2 ^ n) → makeDDFromMatrix m = .ok e → Built n (.inr e)
  | madd {n : ℕ} {x y e : MEdge} : Built n (.inr x) → Built n (.inr y) → madd x y = some e →
      Built n (.inr e)
  | mmul {n : ℕ} {x y e : MEdge} : Built n (.inr x) → Built n (.inr y) → mmul x y = some e →
      Built n (.inr e)
  | conjTranspose {n : ℕ} {x : MEdge} : Built n (.inr x) → Built n (.inr (conjTranspose x))
  | kronM {n m : ℕ} {x y : MEdge} : Built n (.inr x) → Built m (.inr y) →
      (∀ v w c, y.p = .node v w c → v + 1 = m) → Built (n + m) (.inr (kronM x y m))
  | ancillae {n : ℕ} {x e : MEdge} {anc : List Bool} {reg : Bool} : Built n (.inr x) →
      anc.length = n → reduceAncillae x anc reg = some e → Built n (.inr e)
  | mscale {n : ℕ} {x : MEdge} {z : ℂ} : Built n (.inr x) → z ≠ 0 → Built n (.inr ⟨x.p, x.w * z⟩)

/-- The shape invariant of either kind. -/
def Shape (n : ℕ) : VEdge ⊕ MEdge → Prop
  | .inl e => VECan n e
  | .inr e => MECan n e

theorem one_vecan : VECan 0 (.one : VEdge) := ⟨fun h => absurd h one_ne_zero, fun _ => rfl⟩

theorem ok_inj {α : Type} {a b : α} (h : (Res.ok a : Res α) = .ok b) : a = b := by
  cases h; rfl

theorem basisLoop_len (s : List Bool) : ∀ (l : List ℕ) (f e : VEdge), basisLoop s l f = .ok e →
    ∀ q ∈ l, q < s.length := by
  intro l
  induction l with
  | nil => intro f e _ q hq; simp at hq
  | cons p ps ih =>
    intro f e h q hq
    rw [basisLoop] at h
    cases hp : s[p]? with
    | none => rw [hp] at h; cases h
    | some b =>
      rw [hp] at h
      have hlt : p < s.length := by
        by_contra hge
        rw [List.getElem?_eq_none (by omega)] at hp
        cases hp
      rcases List.mem_cons.1 hq with rfl | hq
      · exact hlt
      · cases b
        · exact ih _ _ h q hq
        · exact ih _ _ h q hq

theorem basisLoop6_len (s : List BasisState) : ∀ (l : List ℕ) (f e : VEdge),
    basisLoop6 s l f = .ok e → ∀ q ∈ l, q < s.length := by
  intro l
  induction l with
  | nil => intro f e _ q hq; simp at hq
  | cons p ps ih =>
    intro f e h q hq
    rw [basisLoop6] at h
    cases hp : s[p]? with
    | none => rw [hp] at h; cases h
    | some b =>
      rw [hp] at h
      have hlt : p < s.length := by
        by_contra hge
        rw [List.getElem?_eq_none (by omega)] at hp
        cases hp
      rcases List.mem_cons.1 hq with rfl | hq
      · exact hlt
      · exact ih _ _ h q hq

theorem len_of_range {n k : ℕ} (h : ∀ q ∈ List.range' 0 n, q < k) : n ≤ k := by
  by_contra hlt
  have := h (n - 1) (by rw [List.mem_range']; exact ⟨n - 1, by omega, by omega⟩)
  omega

/-- **C34.** Every diagram the package builds has the shape invariant.
Missing from C34: Kronecker products with an identity on top of the right factor and partial traces (C39, C40) are not among the ways to build. -/
theorem c34_shape_partial {n : ℕ} {e : VEdge ⊕ MEdge} (h : Built n e) : Shape n e := by
  induction h with
  | zeroState h =>
    rename_i nq n e
    by_cases hn : n + 0 ≤ nq
    · obtain ⟨e', h1, h2, _⟩ := c42_zero_state nq n 0 hn
      rw [h] at h1; obtain rfl := ok_inj h1; exact h2 rfl
    · unfold makeZeroState at h
      rw [if_pos (by omega)] at h; cases h
  | basisState h =>
    rename_i nq n s e
    by_cases hn : n + 0 ≤ nq
    · have hs : n ≤ s.length := by
        unfold makeBasisState at h
        rw [if_neg (by omega)] at h
        exact len_of_range (basisLoop_len s _ _ _ h)
      obtain ⟨e', h1, h2, _⟩ := c42_basis_state nq n 0 s hn hs
      rw [h] at h1; obtain rfl := ok_inj h1; exact h2 rfl
    · unfold makeBasisState at h
      rw [if_pos (by omega)] at h; cases h
  | productState h =>
    rename_i nq n s e
    by_cases hn : n + 0 ≤ nq
    · have hs : n ≤ s.length := by
        unfold makeBasisState6 at h
        rw [if_neg (by omega)] at h
        split_ifs at h
        exact len_of_range (basisLoop6_len s _ _ _ h)
      obtain ⟨e', h1, h2, _⟩ := c42_product_state nq n 0 s hn hs
      rw [h] at h1; obtain rfl := ok_inj h1; exact h2 rfl
    · unfold makeBasisState6 at h
      rw [if_pos (by omega)] at h; cases h
  | ghz h =>
    rename_i nq n e
    by_cases hn : n ≤ nq
    · by_cases h0 : n = 0
      · subst h0
        unfold makeGHZState at h
        rw [if_neg (by omega), if_pos rfl] at h
        obtain rfl := ok_inj h
        exact one_vecan
      · obtain ⟨e', h1, h2, _⟩ := c42_ghz_state nq n (by omega) hn
        rw [h] at h1; obtain rfl := ok_inj h1; exact h2
    · unfold makeGHZState at h
      rw [if_pos (by omega)] at h; cases h
  | wState h =>
    rename_i nq n e
    by_cases hn : n ≤ nq
    · by_cases h0 : n = 0
      · subst h0
        unfold makeWState at h
        rw [if_neg (by omega), if_pos rfl] at h
        obtain rfl := ok_inj h
        exact one_vecan
      · obtain ⟨e', h1, h2, _⟩ := c42_w_state nq n (by omega) hn
        rw [h] at h1; obtain rfl := ok_inj h1; exact h2
    · unfold makeWState at h
      rw [if_pos (by omega)] at h; cases h
  | fromVector hl h =>
    obtain ⟨e', h1, h2, _⟩ := c42_from_vector _ _ hl
    rw [h] at h1; obtain rfl := ok_inj h1; exact h2
  | vadd _ _ h ihx ihy =>
    obtain ⟨r, h1, h2, _⟩ := c35_vector ihx ihy
    rw [h] at h1; obtain rfl := Option.some.inj h1; exact h2
  | mvmul _ _ h ihx ihy =>
    obtain ⟨r, h1, h2, _⟩ := c36_matrix_vector ihx ihy
    rw [h] at h1; obtain rfl := Option.some.inj h1; exact h2
  | conjugate _ ih => exact (c37_conjugate ih).1
  | kronV _ _ ihx ihy => exact (c39_vector ihx ihy).1
  | measure _ hn hi hq hd h ih =>
    obtain ⟨b, r, h1, _, _, h2, _⟩ := c44_measure_one ih hn hi hq le_rfl hd
    rw [h] at h1
    have := ok_inj h1
    rw [Prod.mk.injEq] at this
    obtain ⟨_, rfl⟩ := this
    exact h2
  | vscale _ hz ih =>
    rename_i n x z _
    have ih' : VECan n x := ih
    exact ⟨fun h => ih'.1 ((mul_eq_zero.1 h).resolve_right hz), fun h => ih'.2 (left_ne_zero_of_mul h)⟩
  | ident => exact one_mecan _
  | gate hs hn ht hl h =>
    obtain ⟨r, h1, h2, _⟩ := c41_gate_matrix _ _ _ _ hs hn ht hl
    rw [h] at h1; obtain rfl := Option.some.inj h1; exact h2
  | gate2 hs hn ht0 ht1 h01 hl0 hl1 h =>
    obtain ⟨r, h1, h2, _⟩ := c41_two_qubit_matrix _ _ _ _ _ hs hn ht0 ht1 h01 hl0 hl1
    rw [h] at h1; obtain rfl := Option.some.inj h1; exact h2
  | fromMatrix hl hrow h =>
    obtain ⟨e', h1, h2, _⟩ := c68_from_matrix _ _ hl hrow
    rw [h] at h1; obtain rfl := ok_inj h1; exact h2
  | madd _ _ h ihx ihy =>
    obtain ⟨r, h1, h2, _⟩ := c35_matrix ihx ihy
    rw [h] at h1; obtain rfl := Option.some.inj h1; exact h2
  | mmul _ _ h ihx ihy =>
    obtain ⟨r, h1, h2, _⟩ := c36_matrix_matrix ihx ihy
    rw [h] at h1; obtain rfl := Option.some.inj h1; exact h2
  | conjTranspose _ ih => exact (c37_conjugate_transpose ih).1
  | kronM _ _ hr ihx ihy => exact (c39_matrix_partial ihx ihy hr).1
  | ancillae _ ha h ih =>
    rename_i reg _
    obtain ⟨r, h1, h2, _⟩ := reduceAncillae_spec ih ha reg
    rw [h] at h1; obtain rfl := Option.some.inj h1; exact h2
  | mscale _ hz ih =>
    rename_i n x z _
    have ih' : MECan n x := ih
    exact ⟨fun h => ih'.1 ((mul_eq_zero.1 h).resolve_right hz), fun h => ih'.2 (left_ne_zero_of_mul h)⟩

/-- **C34.** Two vector diagrams that the package builds over `n` qubits and that represent the
same vector are the same diagram, including the root weight. -/
theorem c34_vector {n : ℕ} {e f : VEdge} (he : Built n (.inl e)) (hf : Built n (.inl f))
    (h : ∀ x, e.vec x = f.vec x) : e = f :=
  vecan_inj (c34_shape_partial he) (c34_shape_partial hf) h

/-- **C34.** The same for matrices. -/
theorem c34_matrix {n : ℕ} {e f : MEdge} (he : Built n (.inr e)) (hf : Built n (.inr f))
    (h : ∀ x y, e.mat n x y = f.mat n x y) : e = f :=
  mecan_inj (c34_shape_partial he) (c34_shape_partial hf) h

/-- **C34.** Canonicity up to a factor: if one vector is a non-zero multiple of the other, the
diagrams share their root node. -/
theorem c34_vector_multiple {n : ℕ} {e f : VEdge} (he : Built n (.inl e)) (hf : Built n (.inl f))
    {z : ℂ} (hz : z ≠ 0) (h : ∀ x, e.vec x = z * f.vec x) : e.p = f.p ∧ e.w = f.w * z := by
  have := c34_vector he (Built.vscale hf hz) (fun x => by
    rw [h x]; simp only [Edge.vec]; ring)
  rw [this]
  exact ⟨rfl, rfl⟩

/-- The GHZ state built directly and from its vector. -/
example : ∃ e, makeGHZState 2 2 = .ok e ∧
    makeStateFromVector [(r2 : ℂ), 0, 0, (r2 : ℂ)] = .ok e := by
  obtain ⟨e, h1, h2, h3⟩ := c42_ghz_state 2 2 (by omega) le_rfl
  obtain ⟨f, k1, k2, k3⟩ := c42_from_vector 2 [(r2 : ℂ), 0, 0, (r2 : ℂ)] rfl
  refine ⟨e, h1, ?_⟩
  rw [k1]
  congr 1
  apply c34_vector (n := 2) (.fromVector (l := [(r2 : ℂ), 0, 0, (r2 : ℂ)]) rfl k1) (.ghz h1)
  intro x
  obtain ⟨i, hi, hx⟩ := exists_index 2 x
  have hi' : i < 4 := hi
  have q0 := hx 0 (by omega)
  have q1 := hx 1 (by omega)
  have hfor : ∀ b : Bool, (∀ q < 2, x q = b) ↔ x 0 = b ∧ x 1 = b := fun b =>
    ⟨fun h => ⟨h 0 (by omega), h 1 (by omega)⟩, fun h q hq => by
      obtain rfl | rfl : q = 0 ∨ q = 1 := by omega
      exacts [h.1, h.2]⟩
  rw [← vec_congr k2.ok hx, k3 i hi, h3 x]
  simp only [hfor, ← q0, ← q1]
  interval_cases i <;> simp [bitsOf, Nat.testBit]

end MQT.DD
