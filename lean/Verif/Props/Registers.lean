/-
Property C122: every qubit lies in one register when qubits are added and removed.
-/
import Verif.IR.Registers

set_option autoImplicit false

namespace MQT.IR.Registers

variable {ord : Regs → Regs} {l : Regs}

/-- **C122.** The empty map is in order. -/
theorem c122_empty : Good [] := ⟨by simp, by simp, by simp, by simp⟩

/-- A register is replaced by one with the same name. -/
theorem change_good (g : Good l) {r r' : Reg} (hr : r ∈ l) (hn : r'.name = r.name) (hp : 0 < r'.size)
    (hd : ∀ s ∈ l, ∀ q, s.name ≠ r.name → r'.has q → ¬ s.has q) : Good (change r.name r' l) ∧
      ∀ q, Covered (change r.name r' l) q ↔ r'.has q ∨ ∃ s ∈ l, s.name ≠ r.name ∧ s.has q := by
  have hm : ∀ s, s ∈ change r.name r' l ↔ (s ∈ l ∧ s.name ≠ r.name) ∨ s = r' := by
    intro s
    rw [mem_change]
    exact or_congr_right (and_iff_left ⟨r, hr, rfl⟩)
  refine ⟨⟨?_, ?_, ?_, ?_⟩, ?_⟩
  · intro x hx y hy e
    rcases (hm x).1 hx with ⟨h1, h2⟩ | rfl <;> rcases (hm y).1 hy with ⟨h3, h4⟩ | rfl
    · exact g.inj x h1 y h3 e
    · exact absurd (e.trans hn) h2
    · exact absurd (e.symm.trans hn) h4
    · rfl
  · intro x hx
    rcases (hm x).1 hx with ⟨h1, h2⟩ | rfl
    · exact g.pos x h1
    · exact hp
  · intro x hx y hy q hq hq'
    rcases (hm x).1 hx with ⟨h1, h2⟩ | rfl <;> rcases (hm y).1 hy with ⟨h3, h4⟩ | rfl
    · exact g.disj x h1 y h3 q hq hq'
    · exact absurd hq (hd x h1 q h2 hq')
    · exact absurd hq' (hd y h3 q h4 hq)
    · rfl
  · intro x hx y hy
    rcases (hm x).1 hx with ⟨h1, h2⟩ | rfl <;> rcases (hm y).1 hy with ⟨h3, h4⟩ | rfl
    · exact g.anti x h1 y h3
    · rw [hn]; exact g.anti x h1 r hr
    · rw [hn]; exact g.anti r hr y h3
    · exact Below.irrefl
  · intro q
    constructor
    · rintro ⟨s, hs, hq⟩
      rcases (hm s).1 hs with ⟨h1, h2⟩ | rfl
      · exact Or.inr ⟨s, h1, h2, hq⟩
      · exact Or.inl hq
    · rintro (hq | ⟨s, h1, h2, hq⟩)
      · exact ⟨r', (hm r').2 (Or.inr rfl), hq⟩
      · exact ⟨s, (hm s).2 (Or.inl ⟨h1, h2⟩), hq⟩

/-- **C122.** A qubit is removed from its register, which is made smaller, split in two or deleted: exactly this qubit no longer lies in
a register. -/
theorem c122_remove (g : Good l) {r : Reg} (hr : r ∈ l) {idx : ℕ} (hi : idx < r.size) : Good (remove l r idx) ∧
    ∀ q, Covered (remove l r idx) q ↔ Covered l q ∧ q ≠ r.start + idx := by
  have cov : ∀ q, Covered l q ↔ r.has q ∨ ∃ s ∈ l, s.name ≠ r.name ∧ s.has q := by
    intro q
    constructor
    · rintro ⟨s, hs, hq⟩
      by_cases e : s.name = r.name
      · exact Or.inl (g.inj s hs r hr e ▸ hq)
      · exact Or.inr ⟨s, hs, e, hq⟩
    · rintro (hq | ⟨s, h1, -, hq⟩)
      · exact ⟨r, hr, hq⟩
      · exact ⟨s, h1, hq⟩
  have out : ∀ s ∈ l, ∀ q, s.name ≠ r.name → r.has q → ¬ s.has q := fun s hs q hn hq hq' =>
    hn (congrArg Reg.name (g.disj s hs r hr q hq' hq))
  have away : ∀ s ∈ l, ∀ q, s.name ≠ r.name → s.has q → q ≠ r.start + idx := by
    rintro s hs q hn hq rfl
    exact out s hs _ hn ⟨by omega, by omega⟩ hq
  unfold remove
  by_cases h0 : idx = 0
  · rw [if_pos h0]
    by_cases h1 : r.size = 1
    · rw [if_pos h1]
      refine ⟨⟨?_, ?_, ?_, ?_⟩, fun q => ?_⟩
      · exact fun x hx y hy => g.inj x (mem_erase.1 hx).1 y (mem_erase.1 hy).1
      · exact fun x hx => g.pos x (mem_erase.1 hx).1
      · exact fun x hx y hy => g.disj x (mem_erase.1 hx).1 y (mem_erase.1 hy).1
      · exact fun x hx y hy => g.anti x (mem_erase.1 hx).1 y (mem_erase.1 hy).1
      · rw [cov]
        constructor
        · rintro ⟨s, hs, hq⟩
          obtain ⟨h2, h3⟩ := mem_erase.1 hs
          exact ⟨Or.inr ⟨s, h2, h3, hq⟩, away s h2 q h3 hq⟩
        · rintro ⟨hq | ⟨s, h2, h3, hq⟩, hne⟩
          · obtain ⟨h4, h5⟩ := hq
            omega
          · exact ⟨s, mem_erase.2 ⟨h2, h3⟩, hq⟩
    · rw [if_neg h1]
      obtain ⟨g', c'⟩ := change_good g hr (r' := { r with start := r.start + 1, size := r.size - 1 }) rfl (by simp only; omega)
        (fun s hs q hn hq => out s hs q hn ⟨by have := hq.1; simp only at this; omega, by have := hq.2; simp only at this; omega⟩)
      refine ⟨g', fun q => ?_⟩
      rw [c', cov]
      constructor
      · rintro (⟨h2, h3⟩ | ⟨s, h2, h3, hq⟩)
        · simp only at h2 h3
          exact ⟨Or.inl ⟨by omega, by omega⟩, by omega⟩
        · exact ⟨Or.inr ⟨s, h2, h3, hq⟩, away s h2 q h3 hq⟩
      · rintro ⟨⟨h2, h3⟩ | h2, hne⟩
        · exact Or.inl ⟨by simp only; omega, by simp only; omega⟩
        · exact Or.inr h2
  rw [if_neg h0]
  by_cases h1 : idx = r.size - 1
  · rw [if_pos h1]
    obtain ⟨g', c'⟩ := change_good g hr (r' := { r with size := r.size - 1 }) rfl (by simp only; omega)
      (fun s hs q hn hq => out s hs q hn ⟨hq.1, by have := hq.2; simp only at this; omega⟩)
    refine ⟨g', fun q => ?_⟩
    rw [c', cov]
    constructor
    · rintro (⟨h2, h3⟩ | ⟨s, h2, h3, hq⟩)
      · simp only at h2 h3
        exact ⟨Or.inl ⟨by omega, by omega⟩, by omega⟩
      · exact ⟨Or.inr ⟨s, h2, h3, hq⟩, away s h2 q h3 hq⟩
    · rintro ⟨⟨h2, h3⟩ | h2, hne⟩
      · exact Or.inl ⟨h2, by simp only; omega⟩
      · exact Or.inr h2
  rw [if_neg h1]
  obtain ⟨a, ha⟩ : ∃ a : Reg, a = ⟨r.name ++ lo, r.start, idx⟩ := ⟨_, rfl⟩
  obtain ⟨b, hb⟩ : ∃ b : Reg, b = ⟨r.name ++ Registers.hi, r.start + idx + 1, r.size - idx - 1⟩ := ⟨_, rfl⟩
  rw [← ha, ← hb]
  have an : a.name = r.name ++ lo := by rw [ha]
  have bn : b.name = r.name ++ Registers.hi := by rw [hb]
  have e1 : ∀ x ∈ erase r.name l, x.name ≠ a.name := fun x hx e => by
    rw [an] at e
    exact g.anti r hr x (mem_erase.1 hx).1 (e ▸ Below.low)
  have e2 : ∀ x ∈ emplace a (erase r.name l), x.name ≠ b.name := fun x hx e => by
    rw [bn] at e
    rcases (mem_emplace e1).1 hx with h | rfl
    · exact g.anti r hr x (mem_erase.1 h).1 (e ▸ Below.high)
    · exact lo_ne_hi _ _ (an.symm.trans e)
  have hm : ∀ x, x ∈ emplace b (emplace a (erase r.name l)) ↔ (x ∈ l ∧ x.name ≠ r.name) ∨ x = a ∨ x = b := by
    intro x
    rw [mem_emplace e2, mem_emplace e1, mem_erase, or_assoc]
  have hal : ∀ q, a.has q ↔ r.start ≤ q ∧ q < r.start + idx := by intro q; rw [ha]; rfl
  have hbl : ∀ q, b.has q ↔ r.start + idx + 1 ≤ q ∧ q < r.start + r.size := by
    intro q
    rw [hb]
    simp only [Reg.has]
    omega
  have hrl : ∀ q, r.has q ↔ r.start ≤ q ∧ q < r.start + r.size := fun q => Iff.rfl
  have oa : ∀ s ∈ l, ∀ q, s.name ≠ r.name → s.has q → ¬ a.has q := fun s hs q hn h h' =>
    out s hs q hn ((hrl q).2 (by have := (hal q).1 h'; omega)) h
  have ob : ∀ s ∈ l, ∀ q, s.name ≠ r.name → s.has q → ¬ b.has q := fun s hs q hn h h' =>
    out s hs q hn ((hrl q).2 (by have := (hbl q).1 h'; omega)) h
  have oab : ∀ q, a.has q → ¬ b.has q := fun q h h' => by
    have := (hal q).1 h
    have := (hbl q).1 h'
    omega
  refine ⟨⟨?_, ?_, ?_, ?_⟩, ?_⟩
  · intro x hx y hy e
    rcases (hm x).1 hx with ⟨h2, h3⟩ | rfl | rfl <;> rcases (hm y).1 hy with ⟨h4, h5⟩ | rfl | rfl
    · exact g.inj x h2 y h4 e
    · exact absurd e (e1 x (mem_erase.2 ⟨h2, h3⟩))
    · exact absurd e (e2 x ((mem_emplace e1).2 (Or.inl (mem_erase.2 ⟨h2, h3⟩))))
    · exact absurd e.symm (e1 y (mem_erase.2 ⟨h4, h5⟩))
    · rfl
    · exact absurd e (e2 _ ((mem_emplace e1).2 (Or.inr rfl)))
    · exact absurd e.symm (e2 y ((mem_emplace e1).2 (Or.inl (mem_erase.2 ⟨h4, h5⟩))))
    · exact absurd e.symm (e2 _ ((mem_emplace e1).2 (Or.inr rfl)))
    · rfl
  · intro x hx
    rcases (hm x).1 hx with ⟨h2, h3⟩ | rfl | rfl
    · exact g.pos x h2
    · rw [ha]; simp only; omega
    · rw [hb]; simp only; omega
  · intro x hx y hy q hq hq'
    rcases (hm x).1 hx with ⟨h2, h3⟩ | rfl | rfl <;> rcases (hm y).1 hy with ⟨h4, h5⟩ | rfl | rfl
    · exact g.disj x h2 y h4 q hq hq'
    · exact absurd hq' (oa x h2 q h3 hq)
    · exact absurd hq' (ob x h2 q h3 hq)
    · exact absurd hq (oa y h4 q h5 hq')
    · rfl
    · exact absurd hq' (oab q hq)
    · exact absurd hq (ob y h4 q h5 hq')
    · exact absurd hq (oab q hq')
    · rfl
  · intro x hx y hy hB
    rcases (hm x).1 hx with ⟨h2, h3⟩ | rfl | rfl <;> rcases (hm y).1 hy with ⟨h4, h5⟩ | rfl | rfl
    · exact g.anti x h2 y h4 hB
    · rw [an] at hB
      exact (below_low hB).elim h3 (g.anti x h2 r hr)
    · rw [bn] at hB
      exact (below_high hB).elim h3 (g.anti x h2 r hr)
    · rw [an] at hB
      exact g.anti r hr y h4 hB.of_low
    · exact Below.irrefl hB
    · rw [an, bn] at hB
      have := hB.length
      simp [lo, Registers.hi] at this
    · rw [bn] at hB
      exact g.anti r hr y h4 hB.of_high
    · rw [an, bn] at hB
      have := hB.length
      simp [lo, Registers.hi] at this
    · exact Below.irrefl hB
  · intro q
    rw [cov]
    constructor
    · rintro ⟨s, hs, hq⟩
      rcases (hm s).1 hs with ⟨h2, h3⟩ | rfl | rfl
      · exact ⟨Or.inr ⟨s, h2, h3, hq⟩, away s h2 q h3 hq⟩
      · have := (hal q).1 hq
        exact ⟨Or.inl ((hrl q).2 (by omega)), by omega⟩
      · have := (hbl q).1 hq
        exact ⟨Or.inl ((hrl q).2 (by omega)), by omega⟩
    · rintro ⟨hq | ⟨s, h2, h3, hq⟩, hne⟩
      · have := (hrl q).1 hq
        by_cases hlt : q < r.start + idx
        · exact ⟨a, (hm a).2 (Or.inr (Or.inl rfl)), (hal q).2 (by omega)⟩
        · exact ⟨b, (hm b).2 (Or.inr (Or.inr rfl)), (hbl q).2 (by omega)⟩
      · exact ⟨s, (hm s).2 (Or.inl ⟨h2, h3⟩), hq⟩

/-- A round of the loop keeps everything in order. -/
theorem fuse_good (ho : ∀ l r, r ∈ ord l ↔ r ∈ l) (g : Good l) {l' : Regs} (h : fuse ord l = some l') :
    Good l' ∧ (∀ q, Covered l' q ↔ Covered l q) ∧ ∀ nm, Fresh nm l → Fresh nm l' := by
  obtain ⟨r, hr, s, hs, b, e1, e2, he, rfl⟩ := fuse_some ho h
  obtain ⟨t, ht⟩ : ∃ t : Reg, t = ⟨b, r.start, r.size + s.size⟩ := ⟨_, rfl⟩
  rw [← ht, e1]
  have tn : t.name = b := by rw [ht]
  have nb : ∀ x ∈ l, x.name ≠ b := fun x hx e => g.anti x hx r hr (by rw [e1, e]; exact .low)
  have hf : ∀ x ∈ erase (b ++ hi) (erase (b ++ lo) l), x.name ≠ t.name := fun x hx => by
    rw [tn]
    exact nb x (mem_erase.1 (mem_erase.1 hx).1).1
  have hm : ∀ x, x ∈ emplace t (erase (b ++ hi) (erase (b ++ lo) l)) ↔ (x ∈ l ∧ x.name ≠ b ++ lo ∧ x.name ≠ b ++ hi) ∨ x = t := by
    intro x
    rw [mem_emplace hf, mem_erase, mem_erase, and_assoc]
  have htl : ∀ q, t.has q ↔ r.has q ∨ s.has q := by
    intro q
    rw [ht]
    simp only [Reg.has]
    omega
  have ot : ∀ x ∈ l, x.name ≠ b ++ lo → x.name ≠ b ++ hi → ∀ q, x.has q → ¬ t.has q := by
    intro x hx h1 h2 q hq hq'
    rcases (htl q).1 hq' with h3 | h3
    · exact h1 ((congrArg Reg.name (g.disj x hx r hr q hq h3)).trans e1)
    · exact h2 ((congrArg Reg.name (g.disj x hx s hs q hq h3)).trans e2)
  refine ⟨⟨?_, ?_, ?_, ?_⟩, ?_, ?_⟩
  · intro x hx y hy e
    rcases (hm x).1 hx with ⟨h1, -⟩ | rfl <;> rcases (hm y).1 hy with ⟨h3, -⟩ | rfl
    · exact g.inj x h1 y h3 e
    · exact absurd (e.trans tn) (nb x h1)
    · exact absurd (e.symm.trans tn) (nb y h3)
    · rfl
  · intro x hx
    rcases (hm x).1 hx with ⟨h1, -⟩ | rfl
    · exact g.pos x h1
    · have := g.pos r hr
      rw [ht]
      simp only
      omega
  · intro x hx y hy q hq hq'
    rcases (hm x).1 hx with ⟨h1, h2, h3⟩ | rfl <;> rcases (hm y).1 hy with ⟨h4, h5, h6⟩ | rfl
    · exact g.disj x h1 y h4 q hq hq'
    · exact absurd hq' (ot x h1 h2 h3 q hq)
    · exact absurd hq (ot y h4 h5 h6 q hq')
    · rfl
  · intro x hx y hy hB
    rcases (hm x).1 hx with ⟨h1, h2, h3⟩ | rfl <;> rcases (hm y).1 hy with ⟨h4, h5, h6⟩ | rfl
    · exact g.anti x h1 y h4 hB
    · rw [tn] at hB
      exact g.anti x h1 r hr (by rw [e1]; exact .stepLow hB)
    · rw [tn] at hB
      rcases hB.split with h | h | h | h
      · exact h5 h
      · exact h6 h
      · exact g.anti r hr y h4 (by rw [e1]; exact h)
      · exact g.anti s hs y h4 (by rw [e2]; exact h)
    · exact Below.irrefl hB
  · intro q
    constructor
    · rintro ⟨x, hx, hq⟩
      rcases (hm x).1 hx with ⟨h1, -⟩ | rfl
      · exact ⟨x, h1, hq⟩
      · rcases (htl q).1 hq with h | h
        · exact ⟨r, hr, h⟩
        · exact ⟨s, hs, h⟩
    · rintro ⟨x, hx, hq⟩
      by_cases h1 : x.name = b ++ lo
      · exact ⟨t, (hm t).2 (Or.inr rfl), (htl q).2 (Or.inl (g.inj x hx r hr (h1.trans e1.symm) ▸ hq))⟩
      · by_cases h2 : x.name = b ++ hi
        · exact ⟨t, (hm t).2 (Or.inr rfl), (htl q).2 (Or.inr (g.inj x hx s hs (h2.trans e2.symm) ▸ hq))⟩
        · exact ⟨x, (hm x).2 (Or.inl ⟨hx, h1, h2⟩), hq⟩
  · intro nm hnm x hx
    rcases (hm x).1 hx with ⟨h1, -⟩ | rfl
    · exact hnm x h1
    · rw [tn]
      refine ⟨?_, fun hB => (hnm r hr).2 (by rw [e1]; exact .stepLow hB)⟩
      rintro rfl
      exact (hnm r hr).2 (by rw [e1]; exact .low)

/-- **C122.** Joining the parts of registers ends, after at most as many rounds as there are registers, and changes nothing about which
qubits lie in registers; whatever the order of traversal. -/
theorem c122_consolidate (ho : ∀ l r, r ∈ ord l ↔ r ∈ l) : ∀ (k : ℕ) (l : Regs), Good l → l.length ≤ k →
    Good (consolidate ord k l) ∧ (∀ q, Covered (consolidate ord k l) q ↔ Covered l q) ∧ fuse ord (consolidate ord k l) = none ∧
      ∀ nm, Fresh nm l → Fresh nm (consolidate ord k l)
  | 0, l, g, hk => by
    have : l = [] := List.length_eq_zero_iff.1 (Nat.le_zero.1 hk)
    subst this
    refine ⟨g, fun _ => Iff.rfl, ?_, fun _ h => h⟩
    cases h : fuse ord (consolidate ord 0 []) with
    | none => rfl
    | some l' => exact absurd (fuse_length ho h) (Nat.not_lt_zero _)
  | k + 1, l, g, hk => by
    unfold consolidate
    cases h : fuse ord l with
    | none => exact ⟨g, fun _ => Iff.rfl, h, fun _ h => h⟩
    | some l' =>
      obtain ⟨g', c', f'⟩ := fuse_good ho g h
      have := fuse_length ho h
      obtain ⟨g2, c2, n2, f2⟩ := c122_consolidate ho k l' g' (by omega)
      exact ⟨g2, fun q => (c2 q).trans (c' q), n2, fun nm hn => f2 nm (f' nm hn)⟩

/-- A register of one qubit is added. -/
theorem emplace_good (g : Good l) {nm : Name} {p : ℕ} (hf : Fresh nm l) (hnm : ∀ a, ¬ Below a nm) (hp : ¬ Covered l p) :
    Good (emplace ⟨nm, p, 1⟩ l) ∧ ∀ q, Covered (emplace ⟨nm, p, 1⟩ l) q ↔ Covered l q ∨ q = p := by
  have hm : ∀ x, x ∈ emplace ⟨nm, p, 1⟩ l ↔ x ∈ l ∨ x = ⟨nm, p, 1⟩ := fun x => mem_emplace (fun y hy => (hf y hy).1)
  have hh : ∀ q, (⟨nm, p, 1⟩ : Reg).has q ↔ q = p := by
    intro q
    simp only [Reg.has]
    omega
  refine ⟨⟨?_, ?_, ?_, ?_⟩, ?_⟩
  · intro x hx y hy e
    rcases (hm x).1 hx with h1 | rfl <;> rcases (hm y).1 hy with h2 | rfl
    · exact g.inj x h1 y h2 e
    · exact absurd e (hf x h1).1
    · exact absurd e.symm (hf y h2).1
    · rfl
  · intro x hx
    rcases (hm x).1 hx with h1 | rfl
    · exact g.pos x h1
    · exact Nat.one_pos
  · intro x hx y hy q hq hq'
    rcases (hm x).1 hx with h1 | rfl <;> rcases (hm y).1 hy with h2 | rfl
    · exact g.disj x h1 y h2 q hq hq'
    · exact absurd ⟨x, h1, (hh q).1 hq' ▸ hq⟩ hp
    · exact absurd ⟨y, h2, (hh q).1 hq ▸ hq'⟩ hp
    · rfl
  · intro x hx y hy hB
    rcases (hm x).1 hx with h1 | rfl <;> rcases (hm y).1 hy with h2 | rfl
    · exact g.anti x h1 y h2 hB
    · exact hnm _ hB
    · exact (hf y h2).2 hB
    · exact Below.irrefl hB
  · intro q
    constructor
    · rintro ⟨x, hx, hq⟩
      rcases (hm x).1 hx with h1 | rfl
      · exact Or.inl ⟨x, h1, hq⟩
      · exact Or.inr ((hh q).1 hq)
    · rintro (⟨x, h1, hq⟩ | rfl)
      · exact ⟨x, (hm x).2 (Or.inl h1), hq⟩
      · exact ⟨_, (hm _).2 (Or.inr rfl), (hh q).2 rfl⟩

/-- **C122.** An added qubit lies in a register afterwards, and for the other qubits nothing changes.

Missing from C122: that this holds without the assumption that no register has the name of the new one, or of a part of it; without it
it fails, see below. -/
theorem c122_add_partial (ho : ∀ l r, r ∈ ord l ↔ r ∈ l) (g : Good l) {p : ℕ} (hp : ¬ Covered l p) {default nm : Name}
    (hf : Fresh nm l) (hnm : ∀ a, ¬ Below a nm) (hd : ∀ a, ¬ Below a default) : Good (add ord l p default nm) ∧
      ∀ q, Covered (add ord l p default nm) q ↔ Covered l q ∨ q = p := by
  unfold add
  cases h : (ord l).find? (fun r => (grown r p).isSome) with
  | none =>
    simp only [Option.isNone_none, if_true]
    obtain ⟨g2, c2, -, f2⟩ := c122_consolidate ho l.length l g le_rfl
    have hp2 : ¬ Covered (consolidate ord l.length l) p := fun x => hp ((c2 p).1 x)
    by_cases he : consolidate ord l.length l = []
    · rw [if_pos he]
      obtain ⟨g3, c3⟩ := emplace_good g2 (nm := default) (p := p) (by rw [he]; intro r hr; cases hr) hd hp2
      exact ⟨g3, fun q => by rw [c3, c2]⟩
    · rw [if_neg he]
      obtain ⟨g3, c3⟩ := emplace_good g2 (f2 nm hf) hnm hp2
      exact ⟨g3, fun q => by rw [c3, c2]⟩
  | some r =>
    have hr : r ∈ l := (ho _ _).1 (List.mem_of_find?_eq_some h)
    have hg := List.find?_some h
    obtain ⟨r', hr'⟩ := Option.isSome_iff_exists.1 hg
    simp only [hr', Option.isNone_some, Bool.false_eq_true, if_false]
    have key : r'.name = r.name ∧ 0 < r'.size ∧ ∀ q, r'.has q ↔ r.has q ∨ q = p := by
      unfold grown at hr'
      split_ifs at hr' with h1 h2
      · cases hr'
        refine ⟨rfl, Nat.succ_pos _, fun q => ?_⟩
        simp only [Reg.has]
        omega
      · cases hr'
        refine ⟨rfl, Nat.succ_pos _, fun q => ?_⟩
        simp only [Reg.has]
        omega
    obtain ⟨g1, c1⟩ := change_good g hr key.1 key.2.1 (fun s hs q hn hq hq' => by
      rcases (key.2.2 q).1 hq with h3 | rfl
      · exact hn (congrArg Reg.name (g.disj s hs r hr q hq' h3))
      · exact hp ⟨s, hs, hq'⟩)
    obtain ⟨g2, c2, -, -⟩ := c122_consolidate ho (change r.name r' l).length _ g1 le_rfl
    have cov : ∀ q, Covered (consolidate ord (change r.name r' l).length (change r.name r' l)) q ↔ Covered l q ∨ q = p := by
      intro q
      rw [c2, c1, key.2.2]
      constructor
      · rintro ((h3 | h3) | ⟨s, h3, -, h5⟩)
        · exact Or.inl ⟨r, hr, h3⟩
        · exact Or.inr h3
        · exact Or.inl ⟨s, h3, h5⟩
      · rintro (⟨s, hs, hq⟩ | h3)
        · by_cases e : s.name = r.name
          · exact Or.inl (Or.inl (g.inj s hs r hr e ▸ hq))
          · exact Or.inr ⟨s, hs, e, hq⟩
        · exact Or.inl (Or.inr h3)
    rw [if_neg (fun he => ?_)]
    · exact ⟨g2, cov⟩
    · have := (cov p).2 (Or.inr rfl)
      rw [he] at this
      obtain ⟨x, hx, -⟩ := this
      cases hx

/-- **C122 fails.** After the qubits 0, 5, 6 and 7 were added and 5 and 6 removed, the register `q_5` consists of qubit 7; qubit 5, when it
is added again, is to be put in a new register of the same name and ends up in none. -/
theorem c122_lost : let q : Name := ['q']; let q5 : Name := ['q', '_', '5']; let q6 : Name := ['q', '_', '6']; let q7 : Name := ['q', '_', '7']
    let l := add id (add id (add id (add id [] 0 q q) 5 q q5) 6 q q6) 7 q q7
    let l' := remove (remove l ⟨q5, 5, 3⟩ 0) ⟨q5, 6, 2⟩ 0
    l = [⟨q, 0, 1⟩, ⟨q5, 5, 3⟩] ∧ l' = [⟨q, 0, 1⟩, ⟨q5, 7, 1⟩] ∧ add id l' 5 q q5 = l' := by
  decide +kernel

/-- **C122 fails.** With registers named `q_l`, `q_h` and `q`, the addition of a qubit loses the qubits of the first two. -/
theorem c122_names : add id [⟨['q', '_', 'l'], 0, 1⟩, ⟨['q', '_', 'h'], 1, 1⟩, ⟨['q'], 2, 1⟩] 3 ['q'] ['q', '_', '3'] = [⟨['q'], 2, 2⟩] := by
  decide +kernel

/-- **C122.** Lower parts of registers are recognised by their names: a name that is not empty followed by `_l`. -/
theorem c122_parts {nm b : Name} : lowBase nm = some b ↔ b ≠ [] ∧ nm = b ++ lo := by
  constructor
  · intro h
    refine ⟨?_, lowBase_eq h⟩
    rintro rfl
    have e := lowBase_eq h
    subst e
    exact absurd h (by decide)
  · rintro ⟨h, rfl⟩
    have h1 : 0 < b.length := List.length_pos_iff.2 h
    have h2 : (b ++ lo).length - 2 = b.length := by simp [lo]
    unfold lowBase
    rw [if_pos, h2, List.take_left]
    refine ⟨by simp [lo]; omega, ?_⟩
    rw [h2, List.drop_left]

/-- A qubit is removed from the middle of a register and added again: the parts are joined again. -/
example : remove [⟨['q'], 0, 5⟩] ⟨['q'], 0, 5⟩ 2 = [⟨['q', '_', 'l'], 0, 2⟩, ⟨['q', '_', 'h'], 3, 2⟩] ∧
    add id (remove [⟨['q'], 0, 5⟩] ⟨['q'], 0, 5⟩ 2) 2 ['q'] ['q', '_', '2'] = [⟨['q'], 0, 5⟩] := by
  decide +kernel

end MQT.IR.Registers
