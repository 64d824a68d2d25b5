/-
Property C116: random Clifford circuits (`createRandomCliffordCircuit`).
-/
import Verif.Alg.RandomClifford

set_option autoImplicit false

namespace MQT.Alg.Clifford

open MQT.IR
open Function (update)

variable {c t : ℕ}

/-- The operators `X` and `Z` on the two qubits. -/
def X0 : Pauli := ⟨0, true, false, false, false⟩
def Z0 : Pauli := ⟨0, false, true, false, false⟩
def X1 : Pauli := ⟨0, false, false, true, false⟩
def Z1 : Pauli := ⟨0, false, false, false, true⟩

/-- **C116.** Every index gives a Clifford operation: it has a meaning and turns Pauli operators into Pauli operators. -/
theorem c116_clifford (h : c ≠ t) (idx : ℕ) :
    (∃ f, denoteSeq (ops (one idx) c t) = some f ∧ ∀ p : Pauli, ∃ q : Pauli, ∀ ψ, f (p.app c t ψ) = q.app c t (f ψ)) ∧
    ∃ f, denoteSeq (ops (two idx) c t) = some f ∧ ∀ p : Pauli, ∃ q : Pauli, ∀ ψ, f (p.app c t ψ) = q.app c t (f ψ) := by
  obtain ⟨f, hf, h1⟩ := ops_pauli h (one idx)
  obtain ⟨g, hg, h2⟩ := ops_pauli h (two idx)
  exact ⟨⟨f, hf, fun p => ⟨_, h1 p⟩⟩, g, hg, fun p => ⟨_, h2 p⟩⟩

/-- **C116.** The 24 indices for one qubit give operations that differ by more than a factor. -/
theorem c116_one (h : c ≠ t) {i j : ℕ} (hi : i < 24) (hj : j < 24) {f g : State → State} (hf : denoteSeq (ops (one i) c t) = some f)
    (hg : denoteSeq (ops (one j) c t) = some g) (hs : Same f g) : i = j := by
  have key : ∀ i < 24, ∀ j < 24, image (one i) X0 = image (one j) X0 → image (one i) Z0 = image (one j) Z0 → i = j := by decide +kernel
  exact key i hi j hj (hs.image h hf hg _) (hs.image h hf hg _)

/-- A Pauli operator on the first qubit that is its own inverse and not a number. -/
def Pauli.Proper (p : Pauli) : Prop := p.x1 = false ∧ p.z1 = false ∧ (p.x0 || p.z0) = true ∧ (p.k.val % 2 = 1 ↔ (p.x0 && p.z0) = true)

instance (p : Pauli) : Decidable p.Proper := by unfold Pauli.Proper; infer_instance

/-- **C116.** For one qubit every Clifford operation is among them: any two anticommuting operators among `±X`, `±Y`, `±Z` are what one of
the indices makes of `X` and `Z`. -/
theorem c116_one_complete (p q : Pauli) (hp : p.Proper) (hq : q.Proper) (ha : (p.x0, p.z0) ≠ (q.x0, q.z0)) :
    ∃ i < 24, image (one i) X0 = p ∧ image (one i) Z0 = q := by
  have key : ∀ k l : Fin 4, ∀ a b c d : Bool, (⟨k, a, b, false, false⟩ : Pauli).Proper → (⟨l, c, d, false, false⟩ : Pauli).Proper →
      (a, b) ≠ (c, d) → ∃ i < 24, image (one i) X0 = ⟨k, a, b, false, false⟩ ∧ image (one i) Z0 = ⟨l, c, d, false, false⟩ := by decide +kernel
  obtain ⟨k, a, b, a', b'⟩ := p
  obtain ⟨l, d, e, d', e'⟩ := q
  obtain ⟨h1, h2, -⟩ := id hp
  obtain ⟨h3, h4, -⟩ := id hq
  simp only at h1 h2 h3 h4
  subst h1 h2 h3 h4
  exact key k l a b d e hp hq ha

/-- The Pauli operator without its factor, as a number. -/
def Pauli.code (p : Pauli) : ℕ := p.x0.toNat + 2 * p.z0.toNat + 4 * p.x1.toNat + 8 * p.z1.toNat

/-- What a circuit makes of `X` and `Z` on the two qubits, without factors. -/
def code (l : List Cl) : ℕ :=
  (image l X0).code + 16 * (image l Z0).code + 256 * (image l X1).code + 4096 * (image l Z1).code

theorem image_append (l m : List Cl) (p : Pauli) : image (l ++ m) p = image m (image l p) := List.foldl_append

theorem pau_code (i : ℕ) (b : Bool) (p : Pauli) : (image (pau i b) p).code = p.code := by
  unfold pau
  cases b <;> split_ifs <;> rfl

theorem two_code (i : ℕ) : code (two i) = code (entangler (i % 11520 / 16)) := by
  unfold code two
  simp only [image_append, pau_code]

theorem Same.code (h : c ≠ t) {l m : List Cl} {f g : State → State} (hf : denoteSeq (ops l c t) = some f)
    (hg : denoteSeq (ops m c t) = some g) (hs : Same f g) : code l = Clifford.code m := by
  unfold Clifford.code
  simp only [hs.image h hf hg]

/-- What a circuit makes of `X` and `Z` on the two qubits. -/
def tableau (l : List Cl) : List Pauli := [image l X0, image l Z0, image l X1, image l Z1]

theorem codes_nodup : ((List.range 360).map fun d => code (entangler d)).Nodup := by decide +kernel

theorem signs_differ : ∀ d < 360, ∀ a < 16, ∀ b < a, tableau (two (16 * d + a)) ≠ tableau (two (16 * d + b)) := by decide +kernel

/-- **C116.** The indices for two qubits below 5760, that is with at most one CNOT, give operations that differ by more than a factor.

Missing from C116: the indices from 5760 on, for which it fails; see below. -/
theorem c116_two_partial (h : c ≠ t) {i j : ℕ} (hi : i < 5760) (hj : j < 5760) {f g : State → State}
    (hf : denoteSeq (ops (two i) c t) = some f) (hg : denoteSeq (ops (two j) c t) = some g) (hs : Same f g) : i = j := by
  have e := hs.code h hf hg
  rw [two_code, two_code, Nat.mod_eq_of_lt (by omega), Nat.mod_eq_of_lt (by omega)] at e
  have hd : i / 16 = j / 16 := List.inj_on_of_nodup_map codes_nodup (List.mem_range.2 (by omega)) (List.mem_range.2 (by omega)) e
  have he : tableau (two i) = tableau (two j) := by
    unfold tableau
    simp only [hs.image h hf hg]
  obtain ⟨a, ha, hi'⟩ : ∃ a < 16, i = 16 * (i / 16) + a := ⟨i % 16, by omega, by omega⟩
  obtain ⟨b, hb, hj'⟩ : ∃ b < 16, j = 16 * (i / 16) + b := ⟨j % 16, by omega, by omega⟩
  generalize i / 16 = d at hi' hj' hd
  subst hi' hj'
  have hd' : d < 360 := by omega
  rcases lt_trichotomy a b with hlt | heq | hlt
  · exact absurd he.symm (signs_differ d hd' b hb a hlt)
  · rw [heq]
  · exact absurd he (signs_differ d hd' a ha b hlt)

/-- **C116 fails.** No index gives the Clifford operation `cx t,c; cx c,t`, not even up to a factor: with two CNOTs the rotation of the
second qubit is missing. -/
theorem c116_missing (h : c ≠ t) (idx : ℕ) {f g : State → State} (hf : denoteSeq (ops (two idx) c t) = some f)
    (hg : denoteSeq (ops [.cx true, .cx false] c t) = some g) : ¬ Same f g := by
  have key : ∀ d < 720, code (entangler d) ≠ code [.cx true, .cx false] := by decide +kernel
  intro hs
  have e := hs.code h hf hg
  rw [two_code] at e
  exact key _ (by omega) e

/-- **C116 fails.** Different indices give the same circuit: those with a SWAP ignore `id / 3 % 3`. -/
theorem c116_repeated : two (684 * 16) = two (687 * 16) ∧ two (360 * 16) = two (387 * 16) := by decide +kernel

/-- **C116 fails.** The indices are drawn from 0 to 11520 inclusively, and the last gives the same circuit as the first. -/
theorem c116_inclusive : two 11520 = two 0 ∧ one 11520 = one 0 := by decide +kernel

def Cl.Local (b : Bool) (g : Cl) : Prop := g.onSecond = b ∧ ∀ d, g ≠ .cx d

theorem had_local (i : ℕ) (b : Bool) : ∀ g ∈ had i b, g.Local b := by
  unfold had
  split_ifs <;> simp [Cl.Local, Cl.onSecond]

theorem rot_local (i : ℕ) (b : Bool) : ∀ g ∈ rot i b, g.Local b := by
  unfold rot
  split_ifs <;> simp [Cl.Local, Cl.onSecond]

theorem pau_local (i : ℕ) (b : Bool) : ∀ g ∈ pau i b, g.Local b := by
  unfold pau
  split_ifs <;> simp [Cl.Local, Cl.onSecond]

theorem one_first (i : ℕ) : ∀ g ∈ one i, g.Local false := by
  intro g hg
  rcases List.mem_append.1 hg with hg | hg
  · rcases List.mem_append.1 hg with hg | hg
    · exact had_local _ _ g hg
    · exact rot_local _ _ g hg
  · exact pau_local _ _ g hg

theorem ops_used (l : List Cl) (c t : ℕ) : ∀ o ∈ ops l c t, o.used ⊆ {c, t} := by
  intro o ho
  obtain ⟨g, -, rfl⟩ := List.mem_map.1 ho
  cases g with
  | cx b => cases b <;> (intro q; simp [Cl.op, StdOp.used, ctrlQubits] <;> tauto)
  | _ b => cases b <;> (intro q; simp [Cl.op, StdOp.used, ctrlQubits]; tauto)

theorem brick_used (nq : ℕ) (rnd : ℕ → ℕ) (i : ℕ) : ∀ o ∈ brick nq rnd i, ∀ q ∈ o.used, q < nq := by
  induction i using brick.induct nq with
  | case1 i hi ih =>
    intro o ho q hq
    rw [brick, if_pos hi] at ho
    rcases List.mem_append.1 ho with ho | ho
    · have := ops_used _ _ _ o ho hq
      simp only [Finset.mem_insert, Finset.mem_singleton] at this
      omega
    · exact ih o ho q hq
  | case2 i hi =>
    intro o ho
    rw [brick, if_neg hi] at ho
    cases ho

/-- **C116.** The operations of a random circuit act on its qubits only. -/
theorem c116_qubits {nq : ℕ} (_hn : 0 < nq) (depth : ℕ) (rnd : ℕ → ℕ → ℕ) : ∀ o ∈ circuit nq depth rnd, ∀ q ∈ o.used, q < nq := by
  intro o ho q hq
  obtain ⟨l, -, ho⟩ := List.mem_flatMap.1 ho
  split_ifs at ho with h1 h2
  · obtain ⟨g, hg, rfl⟩ := List.mem_map.1 ho
    obtain ⟨hb, hc⟩ := one_first _ g hg
    cases g with
    | cx b => exact absurd rfl (hc b)
    | _ b =>
      simp only [Cl.onSecond] at hb
      subst hb
      simp [Cl.op, StdOp.used, ctrlQubits] at hq
      omega
  · have := ops_used _ _ _ o ho hq
    simp only [Finset.mem_insert, Finset.mem_singleton] at this
    omega
  · exact brick_used _ _ _ o ho q hq

/-- An index for one qubit, an index for two qubits with one CNOT, and what they make of `X` on the first qubit. -/
example : one 21 = [.h false, .sdg false, .h false, .z false] ∧ image (one 21) X0 = ⟨2, true, false, false, false⟩ ∧
    two (16 * 36 + 6) = [.cx false, .x false, .z true] ∧ image (two (16 * 36 + 6)) X0 = ⟨2, true, false, true, false⟩ := by decide +kernel

/-- The two layers of a circuit with three qubits. -/
example : circuit 3 2 (fun _ _ => 16 * 36) = [Cl.op 0 1 (.cx false), Cl.op 1 2 (.cx false)] := by
  have h : two (16 * 36) = [.cx false] := by decide +kernel
  simp [circuit, brick, ops, h, List.range_succ]

end MQT.Alg.Clifford
