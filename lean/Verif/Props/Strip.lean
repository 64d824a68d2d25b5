/-
Property C93: stripping idle qubits.
-/
import Verif.Opt.StripProof
import Verif.Props.IOMap

set_option autoImplicit false

namespace MQT.Opt.Strip

open MQT.IR MQT.Opt.IOMap

variable {P : Type}

/-- No operation acts on the physical qubit, and, unless forced, it is no output and neither is its logical qubit. -/
def Goes (force : Bool) (ops : List (Op P)) (s : SS) (p l : ℕ) : Prop :=
  (p, l) ∈ s.init ∧ (∀ o ∈ ops, p ∉ o.acts) ∧ (force = true ∨ (∀ x, (p, x) ∉ s.out) ∧ ∀ k, (k, l) ∉ s.out)

/-- The flags of the kept qubits move along with their numbers; the places at the end that become free are unset. -/
def FlagsMoved (n : ℕ) (R : Finset ℕ) (f f' : ℕ → Bool) : Prop :=
  (∀ x < n, x ∉ R → f' (rank R x) = f x) ∧ (∀ i, n - R.card ≤ i → i < n → f' i = false) ∧ ∀ i, n ≤ i → f' i = f i

/-- The qubits that go have been removed, and those kept have been numbered anew in their old order. -/
structure Stripped (force : Bool) (ops : List (Op P)) (s s' : SS) : Prop where
  spec : ∃ R : Finset ℕ, (∀ l, l ∈ R ↔ ∃ p, Goes force ops s p l) ∧ s'.n = s.n - R.card ∧ R.card ≤ s.n ∧
    (∀ p l, (p, l) ∈ s'.init ↔ ∃ x, (p, x) ∈ s.init ∧ ¬ Goes force ops s p x ∧ l = rank R x) ∧
    (∀ p l, (p, l) ∈ s'.out ↔ ∃ x, (p, x) ∈ s.out ∧ (∀ y, ¬ Goes force ops s p y) ∧ l = rank R x) ∧
    FlagsMoved s.n R s.anc s'.anc ∧ FlagsMoved s.n R s.garb s'.garb

theorem goes_iff {force : Bool} {ops : List (Op P)} {s : SS} {p l : ℕ} :
    Goes force ops s p l ↔ (p, l) ∈ s.init ∧ goes force ops s (p, l) = true := by
  rw [Goes, goes, Bool.and_eq_true, Bool.or_eq_true, Bool.and_eq_true, decide_eq_true_eq, decide_eq_true_eq]
  have h1 : idle ops p = true ↔ ∀ o ∈ ops, p ∉ o.acts := by simp [idle]
  have h2 : p ∉ s.out.map Prod.fst ↔ ∀ x, (p, x) ∉ s.out := by simp [List.mem_map]
  have h3 : l ∉ s.out.map Prod.snd ↔ ∀ k, (k, l) ∉ s.out := by simp [List.mem_map]
  rw [h1, h2, h3]

/-- All that go. -/
theorem mem_allK {force : Bool} {ops : List (Op P)} {s : SS} {p : ℕ} :
    p ∈ goneK force ops s (s.init.map Prod.fst) ↔ ∃ l, Goes force ops s p l := by
  rw [mem_goneK]
  refine exists_congr fun l => ?_
  rw [goes_iff]
  exact ⟨fun h => ⟨h.1, h.2.1⟩, fun h => ⟨h.1, h.2, List.mem_map.2 ⟨_, h.1, rfl⟩⟩⟩

theorem mem_allR {force : Bool} {ops : List (Op P)} {s : SS} {l : ℕ} :
    l ∈ goneR force ops s (s.init.map Prod.fst) ↔ ∃ p, Goes force ops s p l := by
  rw [mem_goneR]
  refine exists_congr fun p => ?_
  rw [goes_iff]
  exact ⟨fun h => ⟨h.1, h.2.1⟩, fun h => ⟨h.1, h.2, List.mem_map.2 ⟨_, h.1, rfl⟩⟩⟩

theorem key_unique {m : List (ℕ × ℕ)} (h : Sorted m) {p x y : ℕ} (hx : (p, x) ∈ m) (hy : (p, y) ∈ m) : x = y := by
  have h1 := (lookup_iff h p x).2 hx
  have h2 := (lookup_iff h p y).2 hy
  rw [h1] at h2; injection h2

theorem strip_all {force : Bool} {ops : List (Op P)} {s : SS} (hok : s.Ok) (hown : Own force ops s) :
    ∃ s', strip force ops s = .ok s' ∧ s'.Ok ∧ Stripped force ops s s' := by
  obtain ⟨s', e, hn, hlen, hinit, hout, hanc, hgarb⟩ := strip_inv hok hown
  set R := goneR force ops s (s.init.map Prod.fst) with hR
  have hRn : ∀ x ∈ R, x < s.n := fun x hx => by
    obtain ⟨p, hp⟩ := mem_allR.1 hx
    exact hok.lt _ hp.1
  have hi : ∀ p l, (p, l) ∈ s'.init ↔ ∃ x, (p, x) ∈ s.init ∧ ¬ Goes force ops s p x ∧ l = rank R x := by
    intro p l
    rw [hinit, mem_renum]
    refine exists_congr fun x => and_congr_right fun hx => and_congr ?_ eq_comm
    rw [mem_allK, not_iff_not]
    refine ⟨fun ⟨y, hy⟩ => ?_, fun h => ⟨x, h⟩⟩
    rw [key_unique hok.sorted hx hy.1]
    exact hy
  have ho : ∀ p l, (p, l) ∈ s'.out ↔ ∃ x, (p, x) ∈ s.out ∧ (∀ y, ¬ Goes force ops s p y) ∧ l = rank R x := by
    intro p l
    rw [hout, mem_renum]
    refine exists_congr fun x => and_congr_right fun hx => and_congr ?_ eq_comm
    rw [mem_allK, not_exists]
  have hileft : ∀ p x, (p, x) ∈ s.init → ¬ Goes force ops s p x → x ∉ R := by
    intro p x hx hg hR
    obtain ⟨k, hk⟩ := mem_allR.1 hR
    rw [hok.inj k p x hk.1 hx] at hk
    exact hg hk
  have holeft : ∀ p x, (p, x) ∈ s.out → (∀ y, ¬ Goes force ops s p y) → x ∉ R := by
    intro p x hx hg hR
    obtain ⟨k, hk⟩ := mem_allR.1 hR
    have := own_goes hown hk.1 (goes_iff.1 hk).2 hx
    subst this
    exact hg x hk
  refine ⟨s', e, ⟨?_, ?_, ?_, ?_, ?_, ?_⟩, ⟨R, fun l => mem_allR, hn, card_le hRn, hi, ho, ?_, ?_⟩⟩
  · rw [hinit]; exact renum_sorted hok.sorted
  · rw [hout]; exact renum_sorted hok.osorted
  · rintro ⟨p, l⟩ he
    obtain ⟨x, h1, h2, rfl⟩ := (hi p l).1 he
    rw [hn, ← rank_top hRn]
    exact rank_lt (hileft p x h1 h2) (hok.lt _ h1)
  · rintro ⟨p, l⟩ he
    obtain ⟨x, h1, h2, rfl⟩ := (ho p l).1 he
    rw [hn, ← rank_top hRn]
    exact rank_lt (holeft p x h1 h2) (hok.olt _ h1)
  · intro p p' l h h'
    obtain ⟨x, h1, h2, h3⟩ := (hi p l).1 h
    obtain ⟨x', h1', h2', h3'⟩ := (hi p' l).1 h'
    have := rank_inj (hileft p x h1 h2) (hileft p' x' h1' h2') (h3.symm.trans h3')
    subst this
    exact hok.inj p p' x h1 h1'
  · rw [hn, hlen]; have := hok.len; omega
  · exact ⟨hanc.kept, hanc.free, hanc.rest⟩
  · exact ⟨hgarb.kept, hgarb.free, hgarb.rest⟩

/-- **C93.** Without force, exactly the physical qubits are stripped that are idle, are no output and hold no output; the others keep their
places. The logical qubits that are left are numbered from zero in their old order, in both layouts, and their flags move along. -/
theorem c93_strip {ops : List (Op P)} {s : SS} (hok : s.Ok) :
    ∃ s', strip false ops s = .ok s' ∧ s'.Ok ∧ Stripped false ops s s' :=
  strip_all hok fun h => absurd h (by simp)

/-- **C93.** With force, all idle qubits are stripped, and the same holds for the others.
Missing from C93: idle qubits whose logical qubit is put out on another physical qubit (`c93_force_collides`). -/
theorem c93_force_partial {ops : List (Op P)} {s : SS} (hok : s.Ok)
    (hown : ∀ p l k, (p, l) ∈ s.init → (∀ o ∈ ops, p ∉ o.acts) → (k, l) ∈ s.out → k = p) :
    ∃ s', strip true ops s = .ok s' ∧ s'.Ok ∧ Stripped true ops s s' :=
  strip_all hok fun _ p l k h1 h2 h3 => hown p l k h1 (by simpa [idle] using h2) h3

/-- **C93.** If the logical qubits were `0, …, n - 1` before, they are `0, …, n' - 1` afterwards, and no output is lost without force. -/
theorem c93_dense {ops : List (Op P)} {s s' : SS} (hok : s.Ok) (h : strip false ops s = .ok s')
    (hd : ∀ l < s.n, ∃ p, (p, l) ∈ s.init) :
    (∀ l < s'.n, ∃ p, (p, l) ∈ s'.init) ∧ s'.out.map Prod.fst = s.out.map Prod.fst := by
  obtain ⟨s1, e, hn, hlen, hinit, hout, -, -⟩ := strip_inv (force := false) (ops := ops) hok fun h => absurd h (by simp)
  cases h.symm.trans e
  obtain ⟨s1, e, hok', ⟨R, hR, hn, hle, hi, ho, -, -⟩⟩ := c93_strip (ops := ops) hok
  cases h.symm.trans e
  refine ⟨?_, ?_⟩
  · -- the kept numbers below n are as many as there are numbers below n'
    have hRn : ∀ x ∈ R, x < s.n := fun x hx => by
      obtain ⟨p, hp⟩ := (hR x).1 hx
      exact hok.lt _ hp.1
    have himg : (Finset.range s.n \ R).image (rank R) = Finset.range s'.n := by
      refine Finset.eq_of_subset_of_card_le (fun y hy => ?_) ?_
      · obtain ⟨x, hx, rfl⟩ := Finset.mem_image.1 hy
        obtain ⟨h1, h2⟩ := Finset.mem_sdiff.1 hx
        rw [Finset.mem_range, hn, ← rank_top hRn]
        exact rank_lt h2 (Finset.mem_range.1 h1)
      · rw [Finset.card_range, Finset.card_image_of_injOn, hn, ← rank_top hRn]
        · exact le_of_eq rfl
        · intro x hx y hy e
          exact rank_inj (Finset.mem_sdiff.1 hx).2 (Finset.mem_sdiff.1 hy).2 e
    intro l hl
    have : l ∈ (Finset.range s.n \ R).image (rank R) := by rw [himg]; exact Finset.mem_range.2 hl
    obtain ⟨x, hx, rfl⟩ := Finset.mem_image.1 this
    obtain ⟨h1, h2⟩ := Finset.mem_sdiff.1 hx
    obtain ⟨p, hp⟩ := hd x (Finset.mem_range.1 h1)
    exact ⟨p, (hi p _).2 ⟨x, hp, fun hg => h2 ((hR x).2 ⟨p, hg⟩), rfl⟩⟩
  · rw [hout, renum, List.map_map, List.filter_eq_self.2]
    · rfl
    · rintro ⟨p, x⟩ he
      rw [decide_eq_true_eq, mem_allK]
      rintro ⟨l, -, -, h | h⟩
      · cases h
      · exact h.1 x he

/-- **C93.** Stripping a second time changes nothing. -/
theorem c93_twice {ops : List (Op P)} {s s' : SS} (hok : s.Ok) (h : strip false ops s = .ok s') :
    strip false ops s' = .ok s' := by
  obtain ⟨s1, e, hok', ⟨R, hR, hn, hle, hi, ho, -, -⟩⟩ := c93_strip (ops := ops) hok
  cases h.symm.trans e
  have none : ∀ p l, ¬ Goes false ops s' p l := by
    rintro p l ⟨h1, h2, h3 | h3⟩
    · cases h3
    obtain ⟨x, h4, h5, rfl⟩ := (hi p l).1 h1
    refine h5 ⟨h4, h2, Or.inr ⟨fun y hy => ?_, fun k hk => ?_⟩⟩
    · refine h3.1 (rank R y) ((ho p _).2 ⟨y, hy, fun z hz => ?_, rfl⟩)
      rcases hz with ⟨_, _, hz | hz⟩
      · cases hz
      · exact hz.1 y hy
    · refine h3.2 k ((ho k _).2 ⟨x, hk, fun z hz => ?_, rfl⟩)
      rcases hz with ⟨_, _, hz | hz⟩
      · cases hz
      · exact hz.1 x hk
  obtain ⟨s2, e2, hn2, hlen2, hinit2, hout2, hanc2, hgarb2⟩ :=
    strip_inv (force := false) (ops := ops) hok' fun h => absurd h (by simp)
  have eK : goneK false ops s' (s'.init.map Prod.fst) = ∅ := by
    ext p; rw [mem_allK]; simp [none]
  have eR : goneR false ops s' (s'.init.map Prod.fst) = ∅ := by
    ext l; rw [mem_allR]; simp [none]
  rw [eR] at hn2 hanc2 hgarb2
  rw [eK, eR, renum_empty] at hinit2 hout2
  have flag : ∀ f f' : ℕ → Bool, FInv s'.n ∅ f f' → f' = f := by
    intro f f' hf
    funext i
    by_cases hin : i < s'.n
    · have := hf.kept i hin (by simp)
      rwa [rank_empty] at this
    · exact hf.rest i (by omega)
  rw [e2]
  obtain ⟨n2, len2, init2, out2, anc2, garb2⟩ := s2
  obtain ⟨n1, len1, init1, out1, anc1, garb1⟩ := s'
  have := flag _ _ hanc2
  have := flag _ _ hgarb2
  simp only [Finset.card_empty, Nat.sub_zero] at hn2 hlen2 hinit2 hout2
  simp_all

/-- Four qubits; the outputs are on 1 and 3, and logical qubit 2 is garbage. -/
def four : SS :=
  { n := 4, len := 4, init := ident 4, out := [(1, 3), (3, 1)], anc := fun _ => false, garb := fun i => decide (i = 2) }

theorem four_ok : four.Ok := by
  refine ⟨by simp [four, ident, Sorted, List.range_succ], by simp [four, Sorted], by simp [four, ident], by simp [four], ?_, le_refl _⟩
  intro p p' l h h'
  simp only [four, ident, List.mem_map, List.mem_range, Prod.mk.injEq] at h h'
  omega

/-- Qubit 0 is stripped although it comes first; 3 is kept although nothing acts on it. -/
example : ∃ s, strip false [gate (P := Unit) .x [1], gate .h [2]] four = .ok s ∧ s.n = 3 ∧ s.init = [(1, 0), (2, 1), (3, 2)] ∧
    s.out = [(1, 2), (3, 0)] ∧ s.garb 1 = true ∧ s.garb 2 = false := ⟨_, rfl, rfl, rfl, rfl, rfl, rfl⟩

/-- **C93.** With force, 3 goes as well; its logical qubit stays an output of qubit 1, with a number the circuit of two qubits does not have. -/
theorem c93_force_dangling : ∃ s, strip true [gate (P := Unit) .x [1], gate .h [2]] four = .ok s ∧ s.n = 2 ∧ s.init = [(1, 0), (2, 1)] ∧
    s.out = [(1, 2)] := ⟨_, rfl, rfl, rfl, rfl⟩

/-- Three qubits of which the first one is not used; the outputs are on the other two. -/
def shifted : SS :=
  { n := 3, len := 3, init := ident 3, out := [(1, 0), (2, 1)], anc := fun _ => false, garb := fun i => decide (i = 2) }

theorem shifted_ok : shifted.Ok := by
  refine ⟨by simp [shifted, ident, Sorted, List.range_succ], by simp [shifted, Sorted], by simp [shifted, ident], by simp [shifted], ?_, le_refl _⟩
  intro p p' l h h'
  simp only [shifted, ident, List.mem_map, List.mem_range, Prod.mk.injEq] at h h'
  omega

/-- **C93.** With force, if the logical qubit of an idle qubit is put out elsewhere, the entry stays, and the renumbering moves another one onto it:
two qubits have the same output afterwards. -/
theorem c93_force_collides :
    ∃ s, strip true [gate (P := Unit) .x [1], gate .h [2]] shifted = .ok s ∧ s.n = 2 ∧ s.out = [(1, 0), (2, 0)] :=
  ⟨_, rfl, rfl, rfl⟩

/-- Without force it is kept. -/
example : ∃ s, strip false [gate (P := Unit) .x [1], gate .h [2]] shifted = .ok s ∧ s.n = 3 ∧ s.init = ident 3 := ⟨_, rfl, rfl, rfl⟩

end MQT.Opt.Strip
