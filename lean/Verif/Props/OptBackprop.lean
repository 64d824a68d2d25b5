/-
Property C85: propagating the output permutation back to an initial layout.
-/
import Verif.Opt.Backprop
import Verif.Props.Opt

set_option autoImplicit false

noncomputable section

open Classical

namespace MQT.Opt

open MQT.IR
open Function (update)

namespace Backprop

variable {P : Type}

/-- **C85.** Whatever elements `begin()` of the set returns, there is no undefined behaviour, the new initial layout is a
bijection of the qubits, and the SWAPs of the circuit take it to a layout that has all entries of the output permutation.
Missing from C85: physical qubits that are not numbered 0 to n-1 (`c85_gaps`). -/
theorem c85_layout_partial {n : ℕ} {pick : Finset ℕ → ℕ} (hpick : ∀ m : Finset ℕ, m.Nonempty → pick m ∈ m) {out : PMap}
    (ho : Partial n out) {ops : List (Op P)} (hw : WithinL n ops) :
    ∃ L, backpropagate pick n out ops = .ok L ∧ (∃ σ, Ext L σ) ∧ (∀ i, L i ≠ none ↔ i < n) ∧ (∀ i v, L i = some v → v < n) ∧
    Extends out (forwardOps ops L) := by
  obtain ⟨L, e, hp, ht, hx⟩ := backpropagate_spec hpick ho hw
  have hdom : ∀ i, L i ≠ none ↔ i < n := fun i => ⟨fun hi => by
    obtain ⟨v, hv⟩ := Option.ne_none_iff_exists'.1 hi
    exact hp.dom i v hv, ht i⟩
  refine ⟨L, e, ?_, hdom, hp.img, hx⟩
  have hlt : ∀ p < n, (L p).getD p < n := by
    intro p hpn
    obtain ⟨v, hv⟩ := Option.ne_none_iff_exists'.1 (ht p hpn)
    rw [hv]
    exact hp.img p v hv
  have hge : ∀ p, ¬ p < n → (L p).getD p = p := by
    intro p hpn
    have : L p = none := by by_contra hc; exact hpn ((hdom p).1 hc)
    rw [this]
    rfl
  have hi : ∀ p < n, ∀ p' < n, (L p).getD p = (L p').getD p' → p = p' := by
    intro p h1 p' h2 he
    obtain ⟨v, hv⟩ := Option.ne_none_iff_exists'.1 (ht p h1)
    obtain ⟨v', hv'⟩ := Option.ne_none_iff_exists'.1 (ht p' h2)
    rw [hv, hv'] at he
    simp only [Option.getD_some] at he
    subst he
    exact hp.inj p p' v hv hv'
  have inj : Function.Injective fun p => (L p).getD p := by
    intro p p' he
    simp only at he
    by_cases h1 : p < n <;> by_cases h2 : p' < n
    · exact hi p h1 p' h2 he
    · rw [hge p' h2] at he; have := hlt p h1; omega
    · rw [hge p h1] at he; have := hlt p' h2; omega
    · rwa [hge p h1, hge p' h2] at he
  have surj : Function.Surjective fun p => (L p).getD p := by
    intro v
    by_cases hv : v < n
    · have hs := (Finite.injective_iff_surjective (f := fun p : Fin n => (⟨(L p).getD p, hlt p p.2⟩ : Fin n))).1 (by
        intro a b hab
        exact Fin.ext (hi a a.2 b b.2 (congrArg Fin.val hab)))
      obtain ⟨p, hp⟩ := hs ⟨v, hv⟩
      exact ⟨p, congrArg Fin.val hp⟩
    · exact ⟨v, hge v hv⟩
  have bij : Function.Bijective fun p => (L p).getD p := ⟨inj, surj⟩
  exact ⟨Equiv.ofBijective _ bij, fun q r hq => by rw [Equiv.ofBijective_apply, hq]; rfl⟩

/-- **C85.** If `elidePermutations` is done next, the output permutation becomes the identity.
Missing from C85: as for `c85_layout_partial`. -/
theorem c85_elide_partial {n : ℕ} {pick : Finset ℕ → ℕ} (hpick : ∀ m : Finset ℕ, m.Nonempty → pick m ∈ m) {out : PMap}
    (ho : Partial n out) {qc qc' : LQC P} (hw : WithinL n qc.ops) (h0 : qc.ops ≠ [])
    (hi : backpropagate pick n out qc.ops = .ok (lay qc.initial)) (hout : ∀ r ∈ qc.output, out r.1 = some r.2)
    (h : elidePermutations qc = some qc') : ∀ r ∈ qc'.output, r.1 = r.2 := by
  obtain ⟨L, e, -, -, hx⟩ := backpropagate_spec hpick ho hw
  rw [hi] at e
  injection e with e
  unfold elidePermutations at h
  rw [if_neg (by simpa using h0)] at h
  split at h
  · cases h
  · rename_i m ops' he
    split_ifs at h with hm
    injection h with h
    subst h
    intro r hr
    simp only [List.mem_map] at hr
    obtain ⟨r0, h1, rfl⟩ := hr
    have h2 := hx _ _ (hout r0 h1)
    rw [← e, ← elideOps_forward he] at h2
    simp only
    rw [h2]
    rfl

/-- **C85.** The circuit without its SWAPs takes the qubits of the new initial layout to those of the output permutation.
Missing from C85: as for `c85_layout_partial`; classically controlled compound operations. -/
theorem c85_meaning_partial {n : ℕ} {pick : Finset ℕ → ℕ} (hpick : ∀ m : Finset ℕ, m.Nonempty → pick m ∈ m) {out L : PMap}
    (ho : Partial n out) {ops : List (Op ℝ)} (hw : WithinL n ops) (hp : Op.plainL ops = true) (hv : Op.ValidL ops)
    (hL : backpropagate pick n out ops = .ok L) {m : PMap} {ops' : List (Op ℝ)} (he : elideOps L ops = some (m, ops')) :
    ∃ σ τ, Ext L σ ∧ Ext out τ ∧ ∀ c, run ops' (c.mapSt (ren σ)) = (run ops c).map (Cfg.mapSt (ren τ)) := by
  obtain ⟨L', e, ⟨σ, hσ⟩, -, -, hx⟩ := c85_layout_partial hpick ho hw
  rw [hL] at e
  injection e with e
  subst e
  obtain ⟨τ, h1, h2⟩ := elideOps_correct hσ ops hp hv he
  refine ⟨σ, τ, hσ, fun q r hq => h1 q r ?_, h2⟩
  rw [elideOps_forward he]
  exact hx q r hq

/-- **C85 fails for physical qubits with gaps:** two qubits 0 and 2 of which only the latter is in the output permutation.  The
loop looks for an entry of qubit 1 and takes an element of an empty set. -/
theorem c85_gaps (pick : Finset ℕ → ℕ) : backpropagate pick 2 (update (fun _ => none) 2 (some 1)) ([] : List (Op P)) = .ub := by
  have hu : unused 2 (update (fun _ => none) 2 (some 1)) = {0} := by
    ext l
    simp only [unused, Finset.mem_filter, Finset.mem_range, Finset.mem_singleton]
    constructor
    · rintro ⟨h1, h2⟩
      have := h2 2
      rw [Function.update_self] at this
      have : l ≠ 1 := by rintro rfl; exact this rfl
      omega
    · rintro rfl
      refine ⟨by omega, fun p => ?_⟩
      rw [Function.update_apply]
      split_ifs <;> simp
  have hs : {p | update (fun _ => none) 2 (some 1) p ≠ (none : Option ℕ)} = {2} := by
    ext p
    simp only [Set.mem_ofPred_eq, Set.mem_singleton_iff, Function.update_apply]
    split_ifs with h <;> simp [h]
  unfold backpropagate
  rw [backOps, hu]
  simp only [MQT.Res.bind]
  rw [hs, Set.ncard_singleton, if_neg (by decide)]
  simp [fill, take, MQT.Res.bind]

/-! ### An example -/

/-- A SWAP of qubits 0 and 1 inside a compound operation, and a SWAP of 1 and 2 after it. -/
def twoSwaps : List (Op P) := [.compound [gate .swap [0, 1]] false, gate .h [0], gate .swap [1, 2]]

/-- The last logical qubit is wanted at physical qubit 0, the other two qubits are garbage. -/
def want : PMap := update (fun _ => none) 0 (some 2)

theorem want_partial : Partial 3 want := by
  have key : ∀ p v, want p = some v → p = 0 ∧ v = 2 := by
    intro p v h
    unfold want at h
    rw [Function.update_apply] at h
    split_ifs at h with h0
    injection h with h
    exact ⟨h0, h.symm⟩
  refine ⟨fun p p' v h1 h2 => ?_, fun p v h => ?_, fun p v h => ?_⟩
  · rw [(key p v h1).1, (key p' v h2).1]
  · rw [(key p v h).1]; decide
  · rw [(key p v h).2]; decide

example (pick : Finset ℕ → ℕ) (hpick : ∀ m : Finset ℕ, m.Nonempty → pick m ∈ m) :
    ∃ L, backpropagate pick 3 want (twoSwaps (P := P)) = .ok L ∧ L 1 = some 2 ∧
    (L 0 = some 0 ∧ L 2 = some 1 ∨ L 0 = some 1 ∧ L 2 = some 0) := by
  obtain ⟨L, e, ⟨σ, hσ⟩, hd, hb, hx⟩ := c85_layout_partial hpick want_partial (ops := twoSwaps (P := P))
    (by simp [twoSwaps, WithinL, Within, gate])
  have h1 := hx 0 2 (by simp [want])
  simp [twoSwaps, forwardOps, forwardOp, gate, Equiv.swap_apply_def] at h1
  refine ⟨L, e, h1, ?_⟩
  obtain ⟨v, hv⟩ := Option.ne_none_iff_exists'.1 ((hd 2).2 (by decide))
  obtain ⟨w, hw⟩ := Option.ne_none_iff_exists'.1 ((hd 0).2 (by decide))
  have h3 := hb 2 v hv
  have h4 := hb 0 w hw
  have h5 := hσ _ _ hv
  have h6 := hσ _ _ hw
  have h7 := hσ _ _ h1
  have h8 := σ.injective.ne (show (2 : ℕ) ≠ 1 by decide)
  have h9 := σ.injective.ne (show (2 : ℕ) ≠ 0 by decide)
  have h10 := σ.injective.ne (show (0 : ℕ) ≠ 1 by decide)
  rw [hv, hw]
  simp only [Option.some.injEq]
  omega

end Backprop

end MQT.Opt
