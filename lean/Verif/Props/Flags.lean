/-
Property C121: the ancillary and garbage flags of a circuit agree with its numbers of qubits.
-/
import Verif.IR.Flags

set_option autoImplicit false

namespace MQT.IR.Flags

open Function MQT.Opt

/-- The numbers of qubits and the flags of the qubits, as given. -/
def After (s : FS) (nq na : ℕ) (anc garb : ℕ → Bool) : Prop :=
  s.nq = nq ∧ s.na = na ∧ ∀ i < nq + na, s.anc i = anc i ∧ s.garb i = garb i

/-- **C121.** The empty circuit is in order. -/
theorem c121_empty : Good empty := ⟨le_refl _, fun _ _ h => absurd h (Nat.not_lt_zero _), fun _ _ h => absurd h (Nat.not_lt_zero _), rfl⟩

/-- **C121.** A new register adds qubits without flags; there is one entry per qubit then. -/
theorem c121_addReg {s : FS} (h : Good s) {k : ℕ} (hk : 0 < k) (ha : s.na = 0) : ∃ s', addReg s k = .ok s' ∧ Good s' ∧ s'.size = s'.n ∧
    After s' (s.nq + k) 0 (fun i => if i < s.nq + s.na then s.anc i else false) (fun i => if i < s.nq + s.na then s.garb i else false) := by
  refine ⟨_, by unfold addReg; rw [if_neg (by omega), if_neg (by simp [ha])], ?_, rfl, ?_⟩
  · refine ⟨le_refl _, fun i h1 h2 => ?_, fun i h1 h2 => ?_, ?_⟩
    · simp only [FS.resize, FS.n] at h1 h2; omega
    · simp only [FS.resize, FS.n] at h1 h2; omega
    · simp only [FS.resize]
      refine Eq.trans (congrArg Finset.card (?_ : _ = s.ancillae)) h.count
      ext i
      rw [mem_ancillae, mem_ancillae]
      simp only [FS.n, h.anc_resized]
      by_cases h1 : i < s.nq + s.na
      · rw [if_pos h1]
        constructor
        · exact fun x => ⟨h1, x.2⟩
        · exact fun x => ⟨by omega, x.2⟩
      · rw [if_neg h1]
        simp [h1]
  · exact ⟨rfl, ha, fun i _ => ⟨h.anc_resized i, h.garb_resized i⟩⟩

/-- **C121.** Registers of size 0 are refused, and registers of qubits after ancillary qubits. -/
theorem c121_refused (s : FS) (k : ℕ) : (addReg s k = .throws ↔ k = 0 ∨ s.na ≠ 0) ∧ (addAncReg s k = .throws ↔ k = 0) ∧
    ∀ l, addQubit s l = .throws ↔ s.nq < l := by
  refine ⟨?_, ?_, fun l => ?_⟩
  · unfold addReg
    by_cases h1 : k = 0
    · simp [h1]
    · by_cases h2 : s.na = 0 <;> simp [h1, h2]
  · unfold addAncReg
    by_cases h1 : k = 0 <;> simp [h1]
  · unfold addQubit
    by_cases h1 : s.nq < l <;> simp [h1]

/-- **C121.** A new ancillary register adds ancillary qubits at the end. -/
theorem c121_addAncReg {s : FS} (h : Good s) {k : ℕ} (hk : 0 < k) : ∃ s', addAncReg s k = .ok s' ∧ Good s' ∧ s'.size = s'.n ∧
    After s' s.nq (s.na + k) (fun i => if i < s.nq + s.na then s.anc i else true) (fun i => if i < s.nq + s.na then s.garb i else false) := by
  refine ⟨_, by unfold addAncReg; rw [if_neg (by omega)], ?_, ?_, ?_⟩
  · refine ⟨?_, fun i h1 h2 => ?_, fun i h1 h2 => ?_, ?_⟩
    · simp only [FS.resize, FS.n]; omega
    · simp only [FS.resize, FS.n] at h1 h2; omega
    · simp only [FS.resize, FS.n] at h1 h2; omega
    · simp only [FS.resize]
      refine Eq.trans (congrArg Finset.card (?_ : _ = s.ancillae ∪ Finset.Ico s.n (s.n + k))) ?_
      · ext i
        rw [mem_ancillae, Finset.mem_union, mem_ancillae, Finset.mem_Ico]
        simp only [FS.n, setFrom_eq, h.anc_resized]
        by_cases h1 : i < s.nq + s.na
        · rw [if_neg (by omega), if_pos h1]
          constructor
          · exact fun x => Or.inl ⟨h1, x.2⟩
          · rintro (x | x)
            · exact ⟨by omega, x.2⟩
            · omega
        · by_cases h2 : i < s.nq + s.na + k
          · rw [if_pos (by omega)]
            simp only [and_true]
            omega
          · rw [if_neg (by omega), if_neg h1]
            simp only [Bool.false_eq_true, and_false, false_iff]
            omega
      · rw [Finset.card_union_of_disjoint, h.count, Nat.card_Ico, Nat.add_sub_cancel_left]
        rw [Finset.disjoint_left]
        intro i hi hj
        rw [mem_ancillae] at hi
        rw [Finset.mem_Ico] at hj
        omega
  · simp only [FS.resize, FS.n]; omega
  · refine ⟨rfl, rfl, fun i hi => ⟨?_, ?_⟩⟩
    · simp only [setFrom_eq, FS.resize, h.anc_resized]
      by_cases h1 : i < s.nq + s.na
      · rw [if_neg (by omega), if_pos h1, if_pos h1]
      · rw [if_pos (by omega), if_neg h1]
    · exact h.garb_resized i

/-- **C121.** A new ancillary qubit is the last one, and garbage if it has no output. -/
theorem c121_addAnc {s : FS} (h : Good s) (output : Bool) : ∃ s', addAnc s output = .ok s' ∧ Good s' ∧ s'.size = s'.n ∧
    After s' s.nq (s.na + 1) (fun i => if i < s.nq + s.na then s.anc i else true) (fun i => if i < s.nq + s.na then s.garb i else !output) := by
  refine ⟨_, rfl, ?_, ?_, ?_⟩
  · refine ⟨?_, fun i h1 h2 => ?_, fun i h1 h2 => ?_, ?_⟩
    · simp only [FS.resize, FS.n]; omega
    · simp only [FS.resize, FS.n] at h1 h2; omega
    · simp only [FS.resize, FS.n] at h1 h2; omega
    · simp only [FS.resize]
      have hn : s.n ∉ s.ancillae := fun x => absurd (mem_ancillae.1 x).1 (lt_irrefl _)
      refine Eq.trans (congrArg Finset.card (?_ : _ = insert s.n s.ancillae)) (by rw [Finset.card_insert_of_notMem hn, h.count])
      ext i
      rw [mem_ancillae, Finset.mem_insert, mem_ancillae]
      simp only [FS.n]
      by_cases h0 : i = s.nq + s.na
      · subst h0
        rw [update_self]
        simp only [and_true, true_or, iff_true]
        omega
      · rw [update_of_ne h0, h.anc_resized]
        by_cases h1 : i < s.nq + s.na
        · rw [if_pos h1]
          constructor
          · exact fun x => Or.inr ⟨h1, x.2⟩
          · rintro (x | x)
            · exact absurd x h0
            · exact ⟨by omega, x.2⟩
        · rw [if_neg h1]
          simp [h1, h0]
  · simp only [FS.resize, FS.n]; omega
  · refine ⟨rfl, rfl, fun i hi => ?_⟩
    by_cases h0 : i = s.nq + s.na
    · subst h0
      refine ⟨by simp, ?_⟩
      cases output
      · simp
      · simpa [FS.resize] using h.garb_resized (s.nq + s.na)
    · simp only [FS.resize]
      refine ⟨by rw [update_of_ne h0]; rw [h.anc_resized, if_pos (by omega), if_pos (by omega)], ?_⟩
      have := h.garb_resized i
      cases output
      · rw [if_neg (by simp), update_of_ne h0, this, if_pos (by omega), if_pos (by omega)]
      · rw [if_pos rfl, this, if_pos (by omega), if_pos (by omega)]

/-- **C121.** A new qubit moves the flags of the qubits behind it and has none itself. -/
theorem c121_addQubit {s : FS} (h : Good s) {l : ℕ} (hl : l ≤ s.nq) : ∃ s', addQubit s l = .ok s' ∧ Good s' ∧ s'.size = s'.n ∧
    After s' (s.nq + 1) s.na (inserted s.anc l) (inserted s.garb l) := by
  have view : ∀ f g : ℕ → Bool, (∀ i, f i = if i < s.nq + s.na then g i else false) → ∀ i < s.nq + 1 + s.na,
      update (shiftUp l (s.nq + 1 + s.na - 1) f) l false i = inserted g l i := by
    intro f g hf i hi
    unfold inserted
    by_cases h0 : i = l
    · subst h0
      rw [update_self, if_neg (lt_irrefl _), if_pos rfl]
    · rw [update_of_ne h0, shiftUp_eq]
      by_cases h1 : i < l
      · rw [if_neg (by omega), if_pos h1, hf, if_pos (by omega)]
      · rw [if_pos (by omega), if_neg h1, if_neg h0, hf, if_pos (by omega)]
  have va := view _ _ h.anc_resized
  have vg := view _ _ h.garb_resized
  refine ⟨⟨s.nq + 1, s.na, s.nq + 1 + s.na, update (shiftUp l (s.nq + 1 + s.na - 1) (resized s.anc s.size)) l false,
    update (shiftUp l (s.nq + 1 + s.na - 1) (resized s.garb s.size)) l false⟩, by unfold addQubit; rw [if_neg (by omega)]; rfl, ?_, rfl,
    rfl, rfl, fun i hi => ⟨va i hi, vg i hi⟩⟩
  refine ⟨le_refl _, fun i h1 h2 => ?_, fun i h1 h2 => ?_, ?_⟩
  · simp only [FS.n] at h1 h2; omega
  · simp only [FS.n] at h1 h2; omega
  · have inj : Injective fun i : ℕ => if i < l then i else i + 1 := by
      intro i j hij
      simp only at hij
      split_ifs at hij <;> omega
    refine Eq.trans (congrArg Finset.card (?_ : _ = s.ancillae.image _)) ((Finset.card_image_of_injective s.ancillae inj).trans h.count)
    ext i
    rw [mem_ancillae, Finset.mem_image]
    simp only [FS.n]
    constructor
    · rintro ⟨h1, h2⟩
      have e := va i h1
      rw [e] at h2
      unfold inserted at h2
      by_cases h3 : i < l
      · rw [if_pos h3] at h2
        exact ⟨i, mem_ancillae.2 ⟨by simp only [FS.n]; omega, h2⟩, if_pos h3⟩
      · by_cases h4 : i = l
        · rw [if_neg h3, if_pos h4] at h2
          exact absurd h2 (by simp)
        · rw [if_neg h3, if_neg h4] at h2
          exact ⟨i - 1, mem_ancillae.2 ⟨by simp only [FS.n]; omega, h2⟩, by rw [if_neg (by omega)]; omega⟩
    · rintro ⟨j, hj, rfl⟩
      rw [mem_ancillae] at hj
      obtain ⟨h1, h2⟩ := hj
      simp only [FS.n] at h1
      by_cases h3 : j < l
      · rw [if_pos h3]
        refine ⟨by omega, ?_⟩
        rw [va j (by omega)]
        unfold inserted
        rw [if_pos h3, h2]
      · rw [if_neg h3]
        refine ⟨by omega, ?_⟩
        rw [va (j + 1) (by omega)]
        unfold inserted
        rw [if_neg (by omega), if_neg (by omega), Nat.add_sub_cancel, h2]

/-- **C121.** Removing a qubit moves the flags of the qubits behind it.

Missing from C121: that there is one entry per qubit; an entry is left over, see below. -/
theorem c121_remove_partial {s : FS} (h : Good s) {l : ℕ} (hl : l < s.n) (inReg : Bool) (hr : inReg = true → s.anc l = true) :
    ∃ s', remove s l inReg = .ok s' ∧ Good s' ∧ s'.size = s.size ∧
      After s' (if s.anc l then s.nq else s.nq - 1) (if s.anc l then s.na - 1 else s.na) (dropped s.anc l) (dropped s.garb l) ∧
      s'.n + 1 = s.n := by
  have hs := h.size
  have hb : (inReg || s.anc l) = s.anc l := by
    cases inReg
    · rfl
    · rw [hr rfl]; rfl
  have card : (s.ancillae.erase l).card = if s.anc l then s.na - 1 else s.na := by
    by_cases ha : s.anc l = true
    · rw [if_pos ha, Finset.card_erase_of_mem (mem_ancillae.2 ⟨hl, ha⟩), h.count]
    · rw [if_neg ha, Finset.erase_eq_of_notMem (fun x => ha (mem_ancillae.1 x).2), h.count]
  have hpos : (if s.anc l then s.na else s.nq) ≠ 0 := by
    by_cases ha : s.anc l = true
    · rw [if_pos ha, ← h.count]
      exact Finset.card_ne_zero_of_mem (mem_ancillae.2 ⟨hl, ha⟩)
    · rw [if_neg ha]
      intro hq
      have hsub : s.ancillae ⊆ (Finset.range s.n).erase l := fun i hi =>
        Finset.mem_erase.2 ⟨fun e => ha (e ▸ (mem_ancillae.1 hi).2), Finset.mem_range.2 (mem_ancillae.1 hi).1⟩
      have := Finset.card_le_card hsub
      rw [h.count, Finset.card_erase_of_mem (Finset.mem_range.2 hl), Finset.card_range] at this
      simp only [FS.n] at this hl
      omega
  obtain ⟨total, ht⟩ : ∃ t, t = (if s.anc l then s.nq else s.nq - 1) + (if s.anc l then s.na - 1 else s.na) := ⟨_, rfl⟩
  have ht' : total + 1 = s.n := by
    rw [ht]
    simp only [FS.n]
    by_cases ha : s.anc l = true
    · rw [if_pos ha] at hpos ⊢
      rw [if_pos ha]
      omega
    · rw [if_neg ha] at hpos ⊢
      rw [if_neg ha]
      omega
  have view : ∀ f : ℕ → Bool, ∀ i < total, update (shiftDown l (total - l) f) total false i = dropped f l i := by
    intro f i hi
    unfold dropped
    rw [update_of_ne (by omega), shiftDown_eq]
    by_cases h1 : i < l
    · rw [if_neg (by omega), if_pos h1]
    · rw [if_pos (by omega), if_neg h1]
  have past : ∀ f : ℕ → Bool, (∀ i, s.n ≤ i → i < s.size → f i = false) → ∀ i, total ≤ i → i < s.size →
      update (shiftDown l (total - l) f) total false i = false := by
    intro f hf i h1 h2
    by_cases h0 : i = total
    · rw [h0, update_self]
    · rw [update_of_ne h0, shiftDown_eq, if_neg (by omega), hf i (by omega) h2]
  refine ⟨⟨if s.anc l then s.nq else s.nq - 1, if s.anc l then s.na - 1 else s.na, s.size,
    update (shiftDown l (total - l) s.anc) total false, update (shiftDown l (total - l) s.garb) total false⟩, ?_, ?_, rfl, ?_, ?_⟩
  · unfold remove
    rw [if_neg (fun x => by omega)]
    simp only [hb]
    rw [if_neg hpos]
    by_cases ha : s.anc l = true
    · simp only [if_pos ha] at ht ⊢
      rw [if_neg (by omega), ← ht]
    · simp only [if_neg ha] at ht ⊢
      rw [if_neg (by omega), ← ht]
  · refine ⟨?_, ?_, ?_, ?_⟩
    · simp only [FS.n]; rw [← ht]; omega
    · simp only [FS.n]; rw [← ht]; exact past _ h.anc
    · simp only [FS.n]; rw [← ht]; exact past _ h.garb
    · refine Eq.trans (congrArg Finset.card (?_ : _ = (s.ancillae.erase l).image fun i => if i < l then i else i - 1))
        (Eq.trans (Finset.card_image_of_injOn ?_) card)
      · ext i
        rw [mem_ancillae, Finset.mem_image]
        simp only [FS.n]
        rw [← ht]
        constructor
        · rintro ⟨h1, h2⟩
          rw [view _ i h1] at h2
          unfold dropped at h2
          by_cases h3 : i < l
          · rw [if_pos h3] at h2
            exact ⟨i, Finset.mem_erase.2 ⟨by omega, mem_ancillae.2 ⟨by omega, h2⟩⟩, if_pos h3⟩
          · rw [if_neg h3] at h2
            exact ⟨i + 1, Finset.mem_erase.2 ⟨by omega, mem_ancillae.2 ⟨by omega, h2⟩⟩, by rw [if_neg (by omega)]; rfl⟩
        · rintro ⟨j, hj, rfl⟩
          rw [Finset.mem_erase, mem_ancillae] at hj
          obtain ⟨h0, h1, h2⟩ := hj
          by_cases h3 : j < l
          · rw [if_pos h3]
            refine ⟨by omega, ?_⟩
            rw [view _ j (by omega)]
            unfold dropped
            rw [if_pos h3, h2]
          · rw [if_neg h3]
            refine ⟨by omega, ?_⟩
            rw [view _ (j - 1) (by omega)]
            unfold dropped
            rw [if_neg (by omega), Nat.sub_add_cancel (by omega), h2]
      · intro i hi j hj hij
        have h1 := (Finset.mem_erase.1 (Finset.mem_coe.1 hi)).1
        have h2 := (Finset.mem_erase.1 (Finset.mem_coe.1 hj)).1
        simp only at hij
        split_ifs at hij <;> omega
  · exact ⟨rfl, rfl, fun i hi => ⟨view _ i (by omega), view _ i (by omega)⟩⟩
  · simp only [FS.n]
    rw [← ht]
    exact ht'

/-- **C121.** Marking a qubit as ancillary changes its flag, and the numbers if it was not ancillary before. -/
theorem c121_setAnc {s : FS} (h : Good s) {l : ℕ} (hl : l < s.n) : ∃ s', setAnc s l = .ok s' ∧ Good s' ∧ s'.n = s.n ∧ s'.size = s.size ∧
    After s' (if s.anc l then s.nq else s.nq - 1) (if s.anc l then s.na else s.na + 1) (update s.anc l true) s.garb := by
  have hs := h.size
  by_cases ha : s.anc l = true
  · refine ⟨s, by unfold setAnc; rw [if_neg (by omega), if_pos ha], h, rfl, rfl, (if_pos ha).symm, (if_pos ha).symm, fun i _ => ⟨?_, rfl⟩⟩
    by_cases h0 : i = l
    · rw [h0, update_self, ha]
    · rw [update_of_ne h0]
  · have hq : s.nq ≠ 0 := by
      intro hq
      have hsub : s.ancillae ⊆ (Finset.range s.n).erase l := fun i hi =>
        Finset.mem_erase.2 ⟨fun e => ha (e ▸ (mem_ancillae.1 hi).2), Finset.mem_range.2 (mem_ancillae.1 hi).1⟩
      have := Finset.card_le_card hsub
      rw [h.count, Finset.card_erase_of_mem (Finset.mem_range.2 hl), Finset.card_range] at this
      simp only [FS.n] at this hl
      omega
    have hn : s.nq - 1 + (s.na + 1) = s.nq + s.na := by omega
    refine ⟨{ s with nq := s.nq - 1, na := s.na + 1, anc := update s.anc l true }, by
      unfold setAnc; rw [if_neg (by omega), if_neg ha, if_neg hq], ⟨?_, ?_, ?_, ?_⟩, hn, rfl, (if_neg ha).symm,
      (if_neg ha).symm, fun i _ => ⟨rfl, rfl⟩⟩
    · simp only [FS.n]; rw [hn]; exact hs
    · simp only [FS.n]; rw [hn]
      intro i h1 h2
      rw [update_of_ne (by simp only [FS.n] at hl; omega), h.anc i h1 h2]
    · simp only [FS.n]; rw [hn]
      exact h.garb
    · have hm : l ∉ s.ancillae := fun x => ha (mem_ancillae.1 x).2
      simp only
      refine Eq.trans (congrArg Finset.card (?_ : _ = insert l s.ancillae)) (by rw [Finset.card_insert_of_notMem hm, h.count])
      ext i
      rw [mem_ancillae, Finset.mem_insert, mem_ancillae]
      simp only [FS.n]
      rw [hn]
      simp only [FS.n] at hl
      by_cases h0 : i = l
      · subst h0
        simp [hl]
      · rw [update_of_ne h0]
        simp [h0]

/-- **C121.** Marking a qubit as garbage changes its flag only. -/
theorem c121_setGarb {s : FS} (h : Good s) {l : ℕ} (hl : l < s.n) :
    ∃ s', setGarb s l = .ok s' ∧ Good s' ∧ s'.size = s.size ∧ After s' s.nq s.na s.anc (update s.garb l true) := by
  have hs := h.size
  refine ⟨{ s with garb := update s.garb l true }, by unfold setGarb; rw [if_neg (by omega)], ⟨hs, h.anc, fun i h1 h2 => ?_, h.count⟩, rfl, rfl, rfl, fun i _ => ⟨rfl, rfl⟩⟩
  have h1' : s.n ≤ i := h1
  simp only
  rw [update_of_ne (by omega), h.garb i h1' h2]

/-- **C121.** Marking a range of qubits as ancillary marks these and no others. -/
theorem c121_setAncs {s : FS} (h : Good s) {lo hi : ℕ} (hh : hi < s.n) : ∃ s', setAncs s lo hi = .ok s' ∧ Good s' ∧ s'.n = s.n ∧
    s'.garb = s.garb ∧ ∀ i < s.n, s'.anc i = (s.anc i || decide (lo ≤ i ∧ i ≤ hi)) := by
  have key : ∀ (k l : ℕ) (s : FS), Good s → l + k ≤ s.n → ∃ s', range setAnc l k s = .ok s' ∧ Good s' ∧ s'.n = s.n ∧ s'.garb = s.garb ∧
      ∀ i < s.n, s'.anc i = (s.anc i || decide (l ≤ i ∧ i < l + k)) := by
    intro k
    induction k with
    | zero => exact fun l s h _ => ⟨s, rfl, h, rfl, rfl, fun i _ => by rw [decide_eq_false (by omega), Bool.or_false]⟩
    | succ k ih =>
      intro l s h hk
      obtain ⟨s1, e1, g1, n1, -, a1, a2, f1⟩ := c121_setAnc h (l := l) (by omega)
      obtain ⟨s2, e2, g2, n2, b2, f2⟩ := ih (l + 1) s1 g1 (by omega)
      have b1 : s1.garb = s.garb := by
        unfold setAnc at e1
        split_ifs at e1 <;> (cases e1; rfl)
      refine ⟨s2, by rw [range, e1]; exact e2, g2, n2.trans n1, b2.trans b1, fun i hi => ?_⟩
      have hn : s1.n = s1.nq + s1.na := rfl
      rw [f2 i (by omega), (f1 i (by omega)).1]
      by_cases h0 : i = l
      · subst h0
        rw [update_self, decide_eq_true (p := i ≤ i ∧ i < i + (k + 1)) (by omega)]
        simp
      · rw [update_of_ne h0]
        congr 1
        exact decide_eq_decide.2 (by omega)
  by_cases hle : lo ≤ hi
  · obtain ⟨s', e, g, n, b, f⟩ := key (hi + 1 - lo) lo s h (by omega)
    refine ⟨s', e, g, n, b, fun i hi' => ?_⟩
    rw [f i hi']
    congr 1
    exact decide_eq_decide.2 (by omega)
  · refine ⟨s, by unfold setAncs; rw [Nat.sub_eq_zero_of_le (by omega)]; rfl, h, rfl, rfl, fun i _ => ?_⟩
    rw [decide_eq_false (by omega), Bool.or_false]

/-- **C121.** Marking a range of qubits as garbage marks these and no others. -/
theorem c121_setGarbs {s : FS} (h : Good s) {lo hi : ℕ} (hh : hi < s.n) : ∃ s', setGarbs s lo hi = .ok s' ∧ Good s' ∧ s'.nq = s.nq ∧
    s'.na = s.na ∧ s'.anc = s.anc ∧ ∀ i, s'.garb i = (s.garb i || decide (lo ≤ i ∧ i ≤ hi)) := by
  have key : ∀ (k l : ℕ) (s : FS), Good s → l + k ≤ s.n → ∃ s', range setGarb l k s = .ok s' ∧ Good s' ∧ s'.nq = s.nq ∧ s'.na = s.na ∧
      s'.anc = s.anc ∧ ∀ i, s'.garb i = (s.garb i || decide (l ≤ i ∧ i < l + k)) := by
    intro k
    induction k with
    | zero => exact fun l s h _ => ⟨s, rfl, h, rfl, rfl, rfl, fun i => by rw [decide_eq_false (by omega), Bool.or_false]⟩
    | succ k ih =>
      intro l s h hk
      have hs := h.size
      obtain ⟨s1, e1, g1, -⟩ := c121_setGarb h (l := l) (by omega)
      have e1' : s1 = { s with garb := update s.garb l true } := by
        unfold setGarb at e1
        rw [if_neg (by omega)] at e1
        cases e1
        rfl
      obtain ⟨s2, e2, g2, n2, m2, b2, f2⟩ := ih (l + 1) s1 g1 (by rw [e1']; simp only [FS.n] at hk ⊢; omega)
      subst e1'
      refine ⟨s2, by rw [range, e1]; exact e2, g2, n2, m2, b2, fun i => ?_⟩
      rw [f2 i]
      by_cases h0 : i = l
      · subst h0
        simp only
        rw [update_self, decide_eq_true (p := i ≤ i ∧ i < i + (k + 1)) (by omega)]
        simp
      · simp only
        rw [update_of_ne h0]
        congr 1
        exact decide_eq_decide.2 (by omega)
  by_cases hle : lo ≤ hi
  · obtain ⟨s', e, g, n, m, b, f⟩ := key (hi + 1 - lo) lo s h (by omega)
    refine ⟨s', e, g, n, m, b, fun i => ?_⟩
    rw [f i]
    congr 1
    exact decide_eq_decide.2 (by omega)
  · refine ⟨s, by unfold setGarbs; rw [Nat.sub_eq_zero_of_le (by omega)]; rfl, h, rfl, rfl, rfl, fun i => ?_⟩
    rw [decide_eq_false (by omega), Bool.or_false]

/-- **C121.** Without ancillary qubits `unifyQuantumRegisters` changes nothing here. -/
theorem c121_unify_none {s : FS} (ha : s.na = 0) : unify s = s := by
  cases s
  simp only at ha
  subst ha
  rfl

/-- **C121.** Through every history, of operations on qubits that there are and without `unifyQuantumRegisters` for circuits with ancillary
qubits and without `reset`, the circuit stays in order; no operation is undefined behaviour.

Missing from C121: `unifyQuantumRegisters` with ancillary qubits and `reset`, after which it fails, see below. -/
theorem c121_history_partial : ∀ (l : List Op) (s : FS), Good s → AllowedAll s l → ∃ s', exec s l = .ok s' ∧ Good s'
  | [], s, h, _ => ⟨s, rfl, h⟩
  | o :: l, s, h, ha => by
    have key : ∃ s', step s o = .ok s' ∧ Good s' ∨ step s o = .throws := by
      cases o with
      | addReg k =>
        by_cases hk : k = 0 ∨ s.na ≠ 0
        · exact ⟨s, Or.inr ((c121_refused s k).1.2 hk)⟩
        · obtain ⟨s', e, g, -⟩ := c121_addReg h (k := k) (by omega) (by omega)
          exact ⟨s', Or.inl ⟨e, g⟩⟩
      | addAncReg k =>
        by_cases hk : k = 0
        · exact ⟨s, Or.inr ((c121_refused s k).2.1.2 hk)⟩
        · obtain ⟨s', e, g, -⟩ := c121_addAncReg h (k := k) (by omega)
          exact ⟨s', Or.inl ⟨e, g⟩⟩
      | addAnc b =>
        obtain ⟨s', e, g, -⟩ := c121_addAnc h b
        exact ⟨s', Or.inl ⟨e, g⟩⟩
      | addQubit q =>
        by_cases hk : s.nq < q
        · exact ⟨s, Or.inr (((c121_refused s 0).2.2 q).2 hk)⟩
        · obtain ⟨s', e, g, -⟩ := c121_addQubit h (l := q) (by omega)
          exact ⟨s', Or.inl ⟨e, g⟩⟩
      | remove q r =>
        obtain ⟨s', e, g, -⟩ := c121_remove_partial h (l := q) ha.1.1 r ha.1.2
        exact ⟨s', Or.inl ⟨e, g⟩⟩
      | setAnc q =>
        obtain ⟨s', e, g, -⟩ := c121_setAnc h (l := q) ha.1
        exact ⟨s', Or.inl ⟨e, g⟩⟩
      | setGarb q =>
        obtain ⟨s', e, g, -⟩ := c121_setGarb h (l := q) ha.1
        exact ⟨s', Or.inl ⟨e, g⟩⟩
      | unify => exact ⟨s, Or.inl ⟨congrArg Res.ok (c121_unify_none ha.1), h⟩⟩
      | reset => exact absurd ha.1 id
    obtain ⟨s', ⟨e, g⟩ | e⟩ := key
    · have := ha.2
      unfold exec
      rw [e] at this ⊢
      exact c121_history_partial l s' g this
    · have := ha.2
      unfold exec
      rw [e] at this ⊢
      exact c121_history_partial l s h this

/-- **C121 fails.** After the removal of a qubit there is an entry without a qubit. -/
theorem c121_remove_size : ∃ s t : FS, addReg empty 2 = .ok s ∧ remove s 0 false = .ok t ∧ t.n = 1 ∧ t.size = 2 :=
  ⟨_, _, rfl, rfl, rfl, rfl⟩

/-- **C121 fails.** `unifyQuantumRegisters` sets the number of ancillary qubits to 0 and keeps their flags: with ancillary qubits the
numbers and the flags disagree afterwards. -/
theorem c121_unify {s : FS} (h : Good s) (ha : s.na ≠ 0) : (unify s).na = 0 ∧ (unify s).ancillae = s.ancillae ∧ ¬ Good (unify s) := by
  have e : (unify s).ancillae = s.ancillae := by
    ext i
    rw [mem_ancillae, mem_ancillae]
    rfl
  exact ⟨rfl, e, fun g => ha (by rw [← h.count, ← e]; exact g.count)⟩

/-- **C121 fails.** `reset` keeps the flags: a register added to a circuit that was reset has ancillary qubits (and garbage) although
the number of ancillary qubits is 0. -/
theorem c121_reset : ∃ s t u : FS, addAncReg empty 2 = .ok s ∧ setGarb s 1 = .ok t ∧ addReg (reset t) 2 = .ok u ∧
    u.nq = 2 ∧ u.na = 0 ∧ u.anc 0 = true ∧ u.anc 1 = true ∧ u.garb 1 = true :=
  ⟨_, _, _, rfl, rfl, rfl, rfl, rfl, rfl, rfl, rfl⟩

/-- **C121.** A circuit without flags is in order after `reset`. -/
theorem c121_reset_none {s : FS} (ha : ∀ i < s.size, s.anc i = false ∧ s.garb i = false) : Good (reset s) :=
  ⟨Nat.zero_le _, fun i _ h => (ha i h).1, fun i _ h => (ha i h).2, rfl⟩

/-- Two qubits and an ancillary qubit; a qubit is inserted at 1, and the flag of the ancillary qubit moves from 2 to 3. -/
example : ∃ s t u : FS, addReg empty 2 = .ok s ∧ addAnc s false = .ok t ∧ addQubit t 1 = .ok u ∧
    t.ancillae = {2} ∧ u.ancillae = {3} ∧ u.garb 3 = true ∧ u.garb 2 = false :=
  ⟨_, _, _, rfl, rfl, rfl, by decide, by decide, rfl, rfl⟩

end MQT.IR.Flags
