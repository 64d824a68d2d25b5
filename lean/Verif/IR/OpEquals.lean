/-
Soundness of `Operation::equals` (`src/ir/operations/Operation.cpp` 112-161) with respect to the
reference semantics.
-/
import Verif.IR.Circuit
import Mathlib.Data.Finset.Card

set_option autoImplicit false
set_option linter.unusedSectionVars false

namespace MQT.IR.StdOp

open Real OpType

variable {P : Type}

theorem ctrlQubits_relabel (f : ℕ → ℕ) (o : StdOp P) :
    ctrlQubits (o.relabel f).controls = (ctrlQubits o.controls).image f := by
  simp only [ctrlQubits, relabel, Finset.image_image]
  rfl

theorem used_relabel (f : ℕ → ℕ) (o : StdOp P) : (o.relabel f).used = o.usedPermuted f := by
  rw [used, ctrlQubits_relabel]; rfl

theorem relabel_wf {f : ℕ → ℕ} {o : StdOp P} (h : Set.InjOn f o.used) (w : o.WF) :
    (o.relabel f).WF := by
  constructor
  · refine List.Nodup.map_on ?_ w.nodup
    intro a ha b hb hab
    exact h (by simp [used, ha]) (by simp [used, hb]) hab
  · intro q hq
    rw [ctrlQubits_relabel, Finset.mem_image]
    simp only [relabel, List.mem_map] at hq
    obtain ⟨a, ha, rfl⟩ := hq
    rintro ⟨b, hb, hab⟩
    have : b = a := h (by simp [used, hb]) (by simp [used, ha]) hab
    subst this
    exact w.disj b ha hb

theorem card_relabel {f : ℕ → ℕ} {o : StdOp P} (h : Set.InjOn f o.used) :
    (o.relabel f).controls.card = o.controls.card := by
  apply Finset.card_image_of_injOn
  rintro ⟨a, x⟩ ha ⟨b, y⟩ hb hab
  simp only [Prod.mk.injEq] at hab
  have ha' : a ∈ ctrlQubits o.controls := Finset.mem_image_of_mem Prod.fst ha
  have hb' : b ∈ ctrlQubits o.controls := Finset.mem_image_of_mem Prod.fst hb
  have : a = b := h (by simp [used, ha']) (by simp [used, hb']) hab.1
  rw [this, hab.2]

/-- Control qubits of one polarity. -/
def polQubits (b : Bool) (cs : Finset Ctrl) : Finset ℕ := (cs.filter fun c => c.2 = b).image Prod.fst

theorem mem_polQubits {b : Bool} {cs : Finset Ctrl} {q : ℕ} : q ∈ polQubits b cs ↔ (q, b) ∈ cs := by
  simp only [polQubits, Finset.mem_image, Finset.mem_filter, Prod.exists, exists_and_right,
    exists_eq_right]

theorem negControls_relabel (f : ℕ → ℕ) (o : StdOp P) :
    polQubits false (o.relabel f).controls = o.negControls f := by
  ext q
  rw [mem_polQubits]
  simp only [relabel, negControls, Finset.mem_image, Finset.mem_filter, Prod.mk.injEq]
  constructor
  · rintro ⟨c, h1, h2, h3⟩; exact ⟨c, ⟨h1, h3⟩, h2⟩
  · rintro ⟨c, ⟨h1, h3⟩, h2⟩; exact ⟨c, h1, h2, h3⟩

theorem ctrlQubits_eq (cs : Finset Ctrl) : ctrlQubits cs = polQubits true cs ∪ polQubits false cs := by
  ext q
  simp only [Finset.mem_union, mem_polQubits, ctrlQubits, Finset.mem_image, Prod.exists,
    exists_and_right, exists_eq_right]
  constructor
  · rintro ⟨b, h⟩; cases b
    · exact Or.inr h
    · exact Or.inl h
  · rintro (h | h)
    · exact ⟨_, h⟩
    · exact ⟨_, h⟩

theorem card_controls (cs : Finset Ctrl) :
    cs.card = (polQubits true cs).card + (polQubits false cs).card := by
  have inj : ∀ b, Set.InjOn Prod.fst (↑(cs.filter fun c => c.2 = b) : Set Ctrl) := by
    rintro b ⟨x, y⟩ h1 ⟨x', y'⟩ h2 rfl
    simp at h1 h2
    rw [h1.2, h2.2]
  rw [polQubits, polQubits, Finset.card_image_of_injOn (inj _), Finset.card_image_of_injOn (inj _)]
  have : (cs.filter fun c => c.2 = false) = cs.filter fun c => ¬ c.2 = true := by
    congr 1; funext c; simp
  rw [this]
  exact (Finset.card_filter_add_card_filter_not _).symm

theorem sat_iff (cs : Finset Ctrl) (x : Bits) :
    Sat cs x ↔ (∀ q ∈ polQubits true cs, x q = true) ∧ ∀ q ∈ polQubits false cs, x q = false := by
  constructor
  · intro h
    exact ⟨fun q hq => h _ (mem_polQubits.1 hq), fun q hq => h _ (mem_polQubits.1 hq)⟩
  · rintro ⟨h1, h2⟩ ⟨q, b⟩ hc
    cases b
    · exact h2 q (mem_polQubits.2 hc)
    · exact h1 q (mem_polQubits.2 hc)

/-- Positive controls and target of a phase gate are interchangeable. -/
theorem phase_condition {cs cs' : Finset Ctrl} {q q' : ℕ} (hq : q ∉ ctrlQubits cs)
    (hq' : q' ∉ ctrlQubits cs') (hcard : cs.card = cs'.card)
    (hused : insert q (ctrlQubits cs) = insert q' (ctrlQubits cs'))
    (hneg : polQubits false cs = polQubits false cs') (x : Bits) :
    (Sat cs x ∧ x q = true) ↔ (Sat cs' x ∧ x q' = true) := by
  have c1 := Finset.card_insert_of_notMem hq
  have c2 := Finset.card_insert_of_notMem hq'
  rw [hused, c2] at c1
  rw [ctrlQubits_eq] at hused c1 hq
  rw [ctrlQubits_eq] at hused c1 hq'
  have k1 := card_controls cs
  have k2 := card_controls cs'
  rw [sat_iff, sat_iff]
  rw [hneg] at hused c1 hq k1 ⊢
  generalize polQubits true cs = A at *
  generalize polQubits true cs' = B at *
  generalize polQubits false cs' = N at *
  have e1 := Finset.card_union_add_card_inter A N
  have e2 := Finset.card_union_add_card_inter B N
  have hi : (A ∩ N).card = (B ∩ N).card := by omega
  by_cases hA : (A ∩ N) = ∅
  · have hB : B ∩ N = ∅ := by
      rw [← Finset.card_eq_zero, ← hi, hA]; rfl
    have mA : ∀ a, a ∈ A → a ∉ N := fun a h1 h2 => by
      have : a ∈ A ∩ N := Finset.mem_inter.2 ⟨h1, h2⟩
      rw [hA] at this; simp at this
    have mB : ∀ a, a ∈ B → a ∉ N := fun a h1 h2 => by
      have : a ∈ B ∩ N := Finset.mem_inter.2 ⟨h1, h2⟩
      rw [hB] at this; simp at this
    simp only [Finset.mem_union, not_or] at hq hq'
    have key : ∀ a, (a ∈ A ∨ a = q) ↔ (a ∈ B ∨ a = q') := by
      intro a
      have h := Finset.ext_iff.1 hused a
      simp only [Finset.mem_insert, Finset.mem_union] at h
      have h1 := mA a
      have h2 := mB a
      constructor
      · rintro (h3 | rfl)
        · rcases h.1 (Or.inr (Or.inl h3)) with h4 | h4 | h4
          · exact Or.inr h4
          · exact Or.inl h4
          · exact absurd h4 (h1 h3)
        · rcases h.1 (Or.inl rfl) with h4 | h4 | h4
          · exact Or.inr h4
          · exact Or.inl h4
          · exact absurd h4 hq.2
      · rintro (h3 | rfl)
        · rcases h.2 (Or.inr (Or.inl h3)) with h4 | h4 | h4
          · exact Or.inr h4
          · exact Or.inl h4
          · exact absurd h4 (h2 h3)
        · rcases h.2 (Or.inl rfl) with h4 | h4 | h4
          · exact Or.inr h4
          · exact Or.inl h4
          · exact absurd h4 hq'.2
    constructor
    · rintro ⟨⟨h1, h2⟩, h3⟩
      have h4 : ∀ a, (a ∈ B ∨ a = q') → x a = true := by
        intro a ha
        rcases (key a).2 ha with h | rfl
        · exact h1 a h
        · exact h3
      exact ⟨⟨fun a ha => h4 a (Or.inl ha), h2⟩, h4 q' (Or.inr rfl)⟩
    · rintro ⟨⟨h1, h2⟩, h3⟩
      have h4 : ∀ a, (a ∈ A ∨ a = q) → x a = true := by
        intro a ha
        rcases (key a).1 ha with h | rfl
        · exact h1 a h
        · exact h3
      exact ⟨⟨fun a ha => h4 a (Or.inl ha), h2⟩, h4 q (Or.inr rfl)⟩
  · have hB : (B ∩ N) ≠ ∅ := by
      intro hB
      rw [hB, Finset.card_empty, Finset.card_eq_zero] at hi
      exact hA hi
    obtain ⟨a, ha⟩ := Finset.nonempty_iff_ne_empty.2 hA
    obtain ⟨b, hb⟩ := Finset.nonempty_iff_ne_empty.2 hB
    rw [Finset.mem_inter] at ha hb
    constructor
    · rintro ⟨⟨h1, h2⟩, -⟩
      have := h1 a ha.1; rw [h2 a ha.2] at this; cases this
    · rintro ⟨⟨h1, h2⟩, -⟩
      have := h1 b hb.1; rw [h2 b hb.2] at this; cases this

theorem ctl_phaseGate (cs : Finset Ctrl) (q : ℕ) (w : ℂ) (ψ : State) (x : Bits) :
    ctl cs (app1 (mat1 1 0 0 w) q) ψ x = if Sat cs x ∧ x q = true then w * ψ x else ψ x := by
  unfold ctl app1
  rw [Fintype.sum_bool]
  by_cases h : Sat cs x
  · cases hx : x q
    · have e : Function.update x q false = x := by rw [← hx]; exact Function.update_eq_self q x
      simp [h, mat1, e]
    · have e : Function.update x q true = x := by rw [← hx]; exact Function.update_eq_self q x
      simp [h, mat1, e]
  · simp [h]

/-- The gates for which target and positive controls may be exchanged. -/
theorem gate1_phase {ty : OpType} (hty : ty ∈ [i, z, s, sdg, t, tdg, p]) {ps : List ℝ} {M : Mat1}
    (hM : gate1 ty ps = some M) : ∃ w, M = mat1 1 0 0 w := by
  simp only [List.mem_cons, List.not_mem_nil, or_false] at hty
  rcases hty with rfl | rfl | rfl | rfl | rfl | rfl | rfl <;>
    simp only [gate1, Option.some.injEq, Option.map_eq_some_iff] at hM
  all_goals first | exact ⟨_, hM.symm⟩ | (obtain ⟨a, -, rfl⟩ := hM; exact ⟨_, rfl⟩)

theorem rzzMat_symm (a : ℝ) : (rzzMat a).submatrix Prod.swap Prod.swap = rzzMat a := by
  ext ⟨r0, r1⟩ ⟨c0, c1⟩
  cases r0 <;> cases r1 <;> cases c0 <;> cases c1 <;> rfl

/-- What `equals` has checked, in terms of the relabelled operations. -/
theorem equals_facts [DecidableEq P] {f1 f2 : ℕ → ℕ} {o1 o2 : StdOp P}
    (h : equals f1 f2 o1 o2 = true) :
    o1.type = o2.type ∧ o1.controls.card = o2.controls.card ∧ o1.params = o2.params ∧
    ((o1.type.isDiagonal = true ∧ (o1.relabel f1).used = (o2.relabel f2).used ∧
        polQubits false (o1.relabel f1).controls = polQubits false (o2.relabel f2).controls) ∨
      o1.relabel f1 = o2.relabel f2) := by
  unfold equals at h
  split_ifs at h with a b c d e g
  · refine ⟨not_not.1 a, not_not.1 b, not_not.1 c, Or.inl ⟨d, ?_, ?_⟩⟩
    · rw [used_relabel, used_relabel]; exact not_not.1 e
    · rw [negControls_relabel, negControls_relabel]; exact of_decide_eq_true h
  · refine ⟨not_not.1 a, not_not.1 b, not_not.1 c, Or.inr ?_⟩
    have hc : (o1.relabel f1).controls = (o2.relabel f2).controls := by
      by_cases hz : o1.controls.card = 0
      · have h1 : o1.controls = ∅ := Finset.card_eq_zero.1 hz
        have h2 : o2.controls = ∅ := Finset.card_eq_zero.1 (by rw [← not_not.1 b]; exact hz)
        simp [relabel, h1, h2]
      · by_contra hne; exact g ⟨hz, hne⟩
    have ht : (o1.relabel f1).targets = (o2.relabel f2).targets := of_decide_eq_true h
    have hty : (o1.relabel f1).type = (o2.relabel f2).type := not_not.1 a
    have hps : (o1.relabel f1).params = (o2.relabel f2).params := not_not.1 c
    cases h1 : o1.relabel f1; cases h2 : o2.relabel f2
    rw [h1, h2] at hc ht hty hps
    simp only at hc ht hty hps
    subst hc ht hty hps
    rfl

theorem insert_pair_cases {a b c d : ℕ} (h : ({a, b} : Finset ℕ) = {c, d}) :
    (a = c ∧ b = d) ∨ (a = d ∧ b = c) := by
  have h1 := Finset.ext_iff.1 h a
  have h2 := Finset.ext_iff.1 h b
  have h3 := Finset.ext_iff.1 h c
  have h4 := Finset.ext_iff.1 h d
  simp at h1 h2 h3 h4
  omega

theorem equals_sound {f1 f2 : ℕ → ℕ} {o1 o2 : StdOp ℝ} (w1 : o1.WF) (w2 : o2.WF)
    (i1 : Set.InjOn f1 o1.used) (i2 : Set.InjOn f2 o2.used)
    (he : @equals ℝ (Classical.decEq ℝ) f1 f2 o1 o2 = true)
    (hx : (o1.type = rz ∨ o1.type = rzz) → o1.controls = ∅) {f g : State → State}
    (hf : (o1.relabel f1).denote = some f) (hg : (o2.relabel f2).denote = some g) : f = g := by
  obtain ⟨hty, hcard, hps, h⟩ := @equals_facts ℝ (Classical.decEq ℝ) f1 f2 o1 o2 he
  rcases h with ⟨hd, hused, hneg⟩ | h
  swap
  · rw [h, hg] at hf; exact (Option.some.inj hf).symm
  have r1 := relabel_wf i1 w1
  have r2 := relabel_wf i2 w2
  rw [← card_relabel i1, ← card_relabel i2] at hcard
  have hty' : (o1.relabel f1).type = (o2.relabel f2).type := hty
  have hps' : (o1.relabel f1).params = (o2.relabel f2).params := hps
  have hd' : (o1.relabel f1).type.isDiagonal = true := hd
  have hx' : ((o1.relabel f1).type = rz ∨ (o1.relabel f1).type = rzz) →
      (o1.relabel f1).controls = ∅ := by
    intro h; have := hx h; simp [relabel, this]
  generalize o1.relabel f1 = a at *
  generalize o2.relabel f2 = b at *
  clear hd hx hty hps i1 i2 w1 w2 he
  by_cases hb : a.type = barrier
  · rw [denote_barrier hb] at hf
    rw [denote_barrier (hty' ▸ hb)] at hg
    exact (Option.some.inj hf).symm.trans (Option.some.inj hg)
  by_cases hgp : a.type = gphase
  · rw [hgp] at hd'; exact absurd hd' (by decide)
  obtain ⟨A, rfl, -, cA⟩ := denote_core hf hb hgp
  obtain ⟨B, rfl, -, cB⟩ := denote_core hg (hty' ▸ hb) (hty' ▸ hgp)
  have nsw : ¬ (a.type.isSingleQubitGate = true ∧ a.type.isTwoQubitGate = true) := by
    cases a.type <;> decide
  have ucase : ∀ {o : StdOp ℝ} {q : ℕ}, o.targets = [q] → o.used = insert q (ctrlQubits o.controls) := by
    intro o q h; rw [used, h, Finset.insert_eq]; simp
  rcases cA with ⟨q, M, e1, rfl, m1, s1⟩ | ⟨q0, q1, M, e1, rfl, m1, s1⟩ <;>
  rcases cB with ⟨r, N, e2, rfl, m2, s2⟩ | ⟨r0, r1', N, e2, rfl, m2, s2⟩
  · rw [← hty', ← hps', m1] at m2
    injection m2 with m2; subst m2
    rw [ucase e1, ucase e2] at hused
    have hq : q ∉ ctrlQubits a.controls := r1.disj q (by rw [e1]; simp)
    have hr : r ∉ ctrlQubits b.controls := r2.disj r (by rw [e2]; simp)
    by_cases hrz : a.type = rz
    · have ha := hx' (Or.inl hrz)
      have hb' : b.controls = ∅ := Finset.card_eq_zero.1 (by rw [← hcard, ha]; rfl)
      rw [ha, hb'] at hused
      have hqr : q = r := by simpa [ctrlQubits] using hused
      rw [ha, hb', hqr]
    · obtain ⟨w, rfl⟩ : ∃ w, M = mat1 1 0 0 w := by
        refine gate1_phase ?_ m1
        revert hd' s1 hrz
        cases a.type <;> simp (config := { decide := true })
      funext ψ x
      rw [ctl_phaseGate, ctl_phaseGate]
      simp only [phase_condition hq hr hcard hused hneg x]
  · exact absurd ⟨s1, hty' ▸ s2⟩ nsw
  · exact absurd ⟨hty' ▸ s2, s1⟩ nsw
  · rw [← hty', ← hps', m1] at m2
    injection m2 with m2; subst m2
    have hrzz : a.type = rzz := by
      revert hd' s1
      cases a.type <;> simp (config := { decide := true })
    have ha := hx' (Or.inr hrzz)
    have hb' : b.controls = ∅ := Finset.card_eq_zero.1 (by rw [← hcard, ha]; rfl)
    have hne : q0 ≠ q1 := by
      have := r1.nodup; rw [e1] at this; simp at this; exact this
    simp only [used, e1, e2, ha, hb', ctrlQubits, Finset.image_empty, Finset.union_empty,
      List.toFinset_cons, List.toFinset_nil, insert_empty_eq] at hused
    rw [ha, hb']
    rcases insert_pair_cases hused with ⟨rfl, rfl⟩ | ⟨rfl, rfl⟩
    · rfl
    · rw [hrzz] at m1
      simp only [gate2, Option.map_eq_some_iff] at m1
      obtain ⟨c, -, rfl⟩ := m1
      funext ψ
      rw [ctl_empty, ctl_empty, app2_swap _ hne, rzzMat_symm]

end MQT.IR.StdOp
