/-
What `stripIdleQubits` computes: the lemmas. Model in Verif/Opt/Strip.lean.
-/
import Verif.Opt.Strip
import Verif.Opt.IOMapProof
import Mathlib.Data.Finset.Card
import Mathlib.Data.Finset.Range
import Mathlib.Data.Finset.Basic
import Mathlib.Order.Interval.Finset.Nat

set_option autoImplicit false

namespace MQT.Opt.Strip

open MQT.IR MQT.Opt.IOMap
open Function (update)

variable {P : Type}

/-- The number of logical qubits below `x` that are kept, `R` being removed: the new number of `x`. -/
def rank (R : Finset ℕ) (x : ℕ) : ℕ := (Finset.range x \ R).card

theorem rank_empty (x : ℕ) : rank ∅ x = x := by simp [rank]

theorem rank_mono (R : Finset ℕ) {x y : ℕ} (h : x ≤ y) : rank R x ≤ rank R y :=
  Finset.card_le_card (Finset.sdiff_subset_sdiff (Finset.range_mono h) subset_rfl)

theorem rank_lt {R : Finset ℕ} {x y : ℕ} (hx : x ∉ R) (h : x < y) : rank R x < rank R y := by
  refine Finset.card_lt_card ⟨Finset.sdiff_subset_sdiff (Finset.range_mono h.le) subset_rfl, fun hs => ?_⟩
  have : x ∈ Finset.range x \ R := hs (by simp [h, hx])
  simp at this

theorem rank_inj {R : Finset ℕ} {x y : ℕ} (hx : x ∉ R) (hy : y ∉ R) (h : rank R x = rank R y) : x = y := by
  rcases lt_trichotomy x y with e | e | e
  · have := rank_lt hx e; omega
  · exact e
  · have := rank_lt hy e; omega

theorem rank_insert {R : Finset ℕ} {l : ℕ} (hl : l ∉ R) (x : ℕ) :
    rank (insert l R) x = if l < x then rank R x - 1 else rank R x := by
  rw [rank, rank]
  have e : Finset.range x \ insert l R = (Finset.range x \ R).erase l := by
    ext y; simp only [Finset.mem_sdiff, Finset.mem_range, Finset.mem_insert, Finset.mem_erase]; tauto
  rw [e]
  split_ifs with h
  · exact Finset.card_erase_of_mem (by simp [h, hl])
  · rw [Finset.erase_eq_of_notMem (by simp [h])]

theorem rank_top {R : Finset ℕ} {n : ℕ} (h : ∀ x ∈ R, x < n) : rank R n = n - R.card := by
  rw [rank, Finset.card_sdiff_of_subset fun x hx => Finset.mem_range.2 (h x hx), Finset.card_range]

theorem card_le {R : Finset ℕ} {n : ℕ} (h : ∀ x ∈ R, x < n) : R.card ≤ n := by
  have := Finset.card_le_card (s := R) (t := Finset.range n) fun x hx => Finset.mem_range.2 (h x hx)
  simpa using this

/-! ### Flags -/

theorem shift_apply (k l : ℕ) (f : ℕ → Bool) (i : ℕ) :
    shift f l k i = if l ≤ i ∧ i < l + k then f (i + 1) else f i := by
  induction k generalizing l f with
  | zero => rw [shift, if_neg (by omega)]
  | succ k ih =>
    rw [shift, ih]
    by_cases h : l + 1 ≤ i ∧ i < l + 1 + k
    · rw [if_pos h, if_pos (by omega), Function.update_of_ne (by omega)]
    · rw [if_neg h]
      by_cases hi : i = l
      · subst hi; rw [Function.update_self, if_pos (by omega)]
      · rw [Function.update_of_ne hi, if_neg (by omega)]

/-- The flags of the kept qubits have moved along; the places that became free are unset. -/
structure FInv (n : ℕ) (R : Finset ℕ) (f0 f : ℕ → Bool) : Prop where
  kept : ∀ x < n, x ∉ R → f (rank R x) = f0 x
  free : ∀ i, n - R.card ≤ i → i < n → f i = false
  rest : ∀ i, n ≤ i → f i = f0 i

theorem FInv.start (n : ℕ) (f : ℕ → Bool) : FInv n ∅ f f :=
  ⟨fun x _ _ => by rw [rank_empty], fun i h1 h2 => by simp at h1; omega, fun _ _ => rfl⟩

theorem FInv.step {n l : ℕ} {R : Finset ℕ} {f0 f : ℕ → Bool} (h : FInv n R f0 f) (hR : ∀ x ∈ R, x < n) (hl : l < n)
    (hlR : l ∉ R) :
    FInv n (insert l R) f0 (update (shift f (rank R l) (n - R.card - 1 - rank R l)) (n - R.card - 1) false) := by
  have htop := rank_top hR
  have hltop : rank R l < n - R.card := htop ▸ rank_lt hlR hl
  have hcard : (insert l R).card = R.card + 1 := Finset.card_insert_of_notMem hlR
  refine ⟨fun x hx hxR => ?_, fun i h1 h2 => ?_, fun i hi => ?_⟩
  · have hxl : x ≠ l := fun e => hxR (by simp [e])
    have hxR' : x ∉ R := fun e => hxR (by simp [e])
    have hxtop : rank R x < n - R.card := htop ▸ rank_lt hxR' hx
    rw [rank_insert hlR]
    by_cases hlx : l < x
    · have := rank_lt hlR hlx
      rw [if_pos hlx, Function.update_of_ne (by omega), shift_apply, if_pos (by omega), Nat.sub_add_cancel (by omega)]
      exact h.kept x hx hxR'
    · have := rank_lt hxR' (show x < l by omega)
      rw [if_neg hlx, Function.update_of_ne (by omega), shift_apply, if_neg (by omega)]
      exact h.kept x hx hxR'
  · rw [hcard] at h1
    by_cases hi : i = n - R.card - 1
    · rw [hi, Function.update_self]
    · rw [Function.update_of_ne hi, shift_apply, if_neg (by omega)]
      exact h.free i (by omega) h2
  · rw [Function.update_of_ne (by omega), shift_apply, if_neg (by omega)]
    exact h.rest i hi

/-! ### Layouts -/

/-- The entries whose physical qubits are kept, with the new numbers of their logical qubits. -/
def renum (K R : Finset ℕ) (m : List (ℕ × ℕ)) : List (ℕ × ℕ) :=
  (m.filter fun e => decide (e.1 ∉ K)).map fun e => (e.1, rank R e.2)

theorem renum_empty (m : List (ℕ × ℕ)) : renum ∅ ∅ m = m := by
  simp [renum, rank_empty]

theorem mem_renum {K R : Finset ℕ} {m : List (ℕ × ℕ)} {p l : ℕ} :
    (p, l) ∈ renum K R m ↔ ∃ x, (p, x) ∈ m ∧ p ∉ K ∧ rank R x = l := by
  rw [renum, List.mem_map]
  constructor
  · rintro ⟨⟨k, x⟩, h, e⟩
    obtain ⟨h1, h2⟩ := List.mem_filter.1 h
    cases e
    exact ⟨x, h1, by simpa using h2, rfl⟩
  · rintro ⟨x, h1, h2, rfl⟩
    exact ⟨(p, x), List.mem_filter.2 ⟨h1, by simpa using h2⟩, rfl⟩

theorem renum_sorted {K R : Finset ℕ} {m : List (ℕ × ℕ)} (h : Sorted m) : Sorted (renum K R m) := by
  have : (renum K R m).map Prod.fst = (m.filter fun e => decide (e.1 ∉ K)).map Prod.fst := by
    rw [renum, List.map_map]; rfl
  rw [Sorted, this]
  exact h.filter _

/-- Removing `p` with logical qubit `l` and renumbering. -/
theorem renum_step {K R : Finset ℕ} {m : List (ℕ × ℕ)} {p l : ℕ} (hl : l ∉ R)
    (hm : ∀ e ∈ m, e.1 ∉ K → e.2 ∉ R) (hp : ∀ k, (k, l) ∈ m → k ∉ K → k = p) :
    dec (rank R l) (eraseKey p (renum K R m)) = renum (insert p K) (insert l R) m := by
  rw [dec, eraseKey, renum, renum, List.filter_map, List.map_map, List.filter_filter]
  have hf : (m.filter fun e => ((fun e : ℕ × ℕ => decide (e.1 ≠ p)) ∘ fun e : ℕ × ℕ => (e.1, rank R e.2)) e && decide (e.1 ∉ K)) =
      m.filter fun e => decide (e.1 ∉ insert p K) := by
    refine List.filter_congr fun e _ => ?_
    simp [Finset.mem_insert]
  rw [hf]
  refine List.map_congr_left fun e he => ?_
  obtain ⟨h1, h2⟩ := List.mem_filter.1 he
  simp only [decide_eq_true_eq, Finset.mem_insert, not_or] at h2
  obtain ⟨k, x⟩ := e
  have hxR : x ∉ R := hm _ h1 h2.2
  have hxl : x ≠ l := by
    rintro rfl
    exact h2.1 (hp k h1 h2.2)
  simp only [Function.comp, rank_insert hl]
  by_cases hlx : l < x
  · rw [if_pos (show rank R x > rank R l from rank_lt hl hlx), if_pos hlx]
  · have := rank_lt hxR (show x < l by omega)
    rw [if_neg (by omega), if_neg hlx]

theorem dec_id {l : ℕ} {m : List (ℕ × ℕ)} (h : ∀ e ∈ m, e.2 ≤ l) : dec l m = m := by
  rw [dec]
  conv_rhs => rw [← List.map_id m]
  refine List.map_congr_left fun e he => ?_
  have := h e he
  rw [if_neg (by omega)]; rfl

/-! ### The loop -/

/-- A state as kept by the other operations: maps without repeated keys, numbers below `n`, every logical qubit at one place, and flags for
every qubit. -/
structure SS.Ok (s : SS) : Prop where
  sorted : Sorted s.init
  osorted : Sorted s.out
  lt : ∀ e ∈ s.init, e.2 < s.n
  olt : ∀ e ∈ s.out, e.2 < s.n
  inj : ∀ p p' l, (p, l) ∈ s.init → (p', l) ∈ s.init → p = p'
  len : s.n ≤ s.len

/-- The qubit is to be stripped. -/
def goes (force : Bool) (ops : List (Op P)) (s : SS) (e : ℕ × ℕ) : Bool :=
  idle ops e.1 && (force || (decide (e.1 ∉ s.out.map Prod.fst) && decide (e.2 ∉ s.out.map Prod.snd)))

/-- Physical and logical qubits among `ps` that go. -/
def goneK (force : Bool) (ops : List (Op P)) (s : SS) (ps : List ℕ) : Finset ℕ :=
  ((s.init.filter fun e => goes force ops s e && decide (e.1 ∈ ps)).map Prod.fst).toFinset
def goneR (force : Bool) (ops : List (Op P)) (s : SS) (ps : List ℕ) : Finset ℕ :=
  ((s.init.filter fun e => goes force ops s e && decide (e.1 ∈ ps)).map Prod.snd).toFinset

theorem mem_goneK {force : Bool} {ops : List (Op P)} {s : SS} {ps : List ℕ} {p : ℕ} :
    p ∈ goneK force ops s ps ↔ ∃ l, (p, l) ∈ s.init ∧ goes force ops s (p, l) = true ∧ p ∈ ps := by
  simp only [goneK, List.mem_toFinset, List.mem_map, List.mem_filter, Bool.and_eq_true, decide_eq_true_eq]
  constructor
  · rintro ⟨⟨k, l⟩, ⟨h1, h2, h3⟩, rfl⟩; exact ⟨l, h1, h2, h3⟩
  · rintro ⟨l, h1, h2, h3⟩; exact ⟨(p, l), ⟨h1, h2, h3⟩, rfl⟩

theorem mem_goneR {force : Bool} {ops : List (Op P)} {s : SS} {ps : List ℕ} {l : ℕ} :
    l ∈ goneR force ops s ps ↔ ∃ p, (p, l) ∈ s.init ∧ goes force ops s (p, l) = true ∧ p ∈ ps := by
  simp only [goneR, List.mem_toFinset, List.mem_map, List.mem_filter, Bool.and_eq_true, decide_eq_true_eq]
  constructor
  · rintro ⟨⟨k, x⟩, ⟨h1, h2, h3⟩, rfl⟩; exact ⟨k, h1, h2, h3⟩
  · rintro ⟨p, h1, h2, h3⟩; exact ⟨(p, l), ⟨h1, h2, h3⟩, rfl⟩

/-- After the physical qubits `ps`. -/
structure SInv (force : Bool) (ops : List (Op P)) (s0 : SS) (ps : List ℕ) (s : SS) : Prop where
  n : s.n = s0.n - (goneR force ops s0 ps).card
  len : s.len = s0.len
  init : s.init = renum (goneK force ops s0 ps) (goneR force ops s0 ps) s0.init
  out : s.out = renum (goneK force ops s0 ps) (goneR force ops s0 ps) s0.out
  anc : FInv s0.n (goneR force ops s0 ps) s0.anc s.anc
  garb : FInv s0.n (goneR force ops s0 ps) s0.garb s.garb

/-- A stripped logical qubit is an output of its own physical qubit at most. -/
def Own (force : Bool) (ops : List (Op P)) (s : SS) : Prop :=
  force = true → ∀ p l k, (p, l) ∈ s.init → idle ops p = true → (k, l) ∈ s.out → k = p

theorem own_goes {force : Bool} {ops : List (Op P)} {s : SS} (h : Own force ops s) {p l k : ℕ} (hi : (p, l) ∈ s.init)
    (hg : goes force ops s (p, l) = true) (hk : (k, l) ∈ s.out) : k = p := by
  rw [goes, Bool.and_eq_true, Bool.or_eq_true, Bool.and_eq_true, decide_eq_true_eq, decide_eq_true_eq] at hg
  rcases hg with ⟨hid, hf | ⟨-, hv⟩⟩
  · exact h hf p l k hi hid hk
  · exact absurd (List.mem_map.2 ⟨(k, l), hk, rfl⟩) hv

theorem visit_inv {force : Bool} {ops : List (Op P)} {s0 s : SS} {ps : List ℕ} {p : ℕ} (hok : s0.Ok) (hown : Own force ops s0)
    (hp : p ∈ s0.init.map Prod.fst) (hps : p ∉ ps) (h : SInv force ops s0 ps s) :
    ∃ s', visit force ops s p = .ok s' ∧ SInv force ops s0 (p :: ps) s' := by
  obtain ⟨l, hpl⟩ : ∃ l, (p, l) ∈ s0.init := by
    obtain ⟨⟨k, l⟩, hpl, rfl⟩ := List.mem_map.1 hp
    exact ⟨l, hpl⟩
  obtain ⟨hn, hlen, hinit, hout, hanc, hgarb⟩ := h
  set K := goneK force ops s0 ps with hK
  set R := goneR force ops s0 ps with hR
  have huniq : ∀ x, (p, x) ∈ s0.init → x = l := by
    intro x hx
    have h1 := (lookup_iff hok.sorted p x).2 hx
    have h2 := (lookup_iff hok.sorted p l).2 hpl
    rw [h1] at h2; injection h2
  have hpK : p ∉ K := fun e => by
    obtain ⟨_, _, _, h⟩ := mem_goneK.1 e
    exact hps h
  have hlR : l ∉ R := fun e => by
    obtain ⟨k, h1, _, h⟩ := mem_goneR.1 e
    rw [hok.inj k p l h1 hpl] at h
    exact hps h
  have hRn : ∀ x ∈ R, x < s0.n := fun x hx => by
    obtain ⟨k, h1, _, _⟩ := mem_goneR.1 hx
    exact hok.lt _ h1
  -- entries left have a number that is left
  have hleft : ∀ e ∈ s0.init, e.1 ∉ K → e.2 ∉ R := by
    rintro ⟨k, x⟩ he hk hx
    obtain ⟨k', h1, h2, h3⟩ := mem_goneR.1 hx
    have := hok.inj k k' x he h1
    subst this
    exact hk (mem_goneK.2 ⟨x, h1, h2, h3⟩)
  have holeft : ∀ e ∈ s0.out, e.1 ∉ K → e.2 ∉ R := by
    rintro ⟨k, x⟩ he hk hx
    obtain ⟨k', h1, h2, h3⟩ := mem_goneR.1 hx
    have := own_goes hown h1 h2 he
    subst this
    exact hk (mem_goneK.2 ⟨x, h1, h2, h3⟩)
  have hlook : s.init.lookup p = some (rank R l) := by
    rw [hinit, lookup_iff (renum_sorted hok.sorted)]
    exact mem_renum.2 ⟨l, hpl, hpK, rfl⟩
  have hokey : (s.out.lookup p).isSome = decide (p ∈ s0.out.map Prod.fst) := by
    rw [Bool.eq_iff_iff, lookup_isSome, decide_eq_true_eq, hout, List.mem_map, List.mem_map]
    constructor
    · rintro ⟨⟨k, x⟩, he, rfl⟩
      obtain ⟨y, h1, _, _⟩ := mem_renum.1 he
      exact ⟨_, h1, rfl⟩
    · rintro ⟨⟨k, x⟩, he, rfl⟩
      exact ⟨(k, rank R x), mem_renum.2 ⟨x, he, hpK, rfl⟩, rfl⟩
  have hoval : force = false → (s.out.any fun e => decide (e.2 = rank R l)) = decide (l ∈ s0.out.map Prod.snd) := by
    intro hf
    rw [Bool.eq_iff_iff, decide_eq_true_eq, List.any_eq_true, hout, List.mem_map]
    constructor
    · rintro ⟨⟨k, x⟩, he, e⟩
      obtain ⟨y, h1, h2, h3⟩ := mem_renum.1 he
      have e : x = rank R l := by simpa using e
      exact ⟨(k, y), h1, rank_inj (holeft _ h1 h2) hlR (h3.trans e)⟩
    · rintro ⟨⟨k, x⟩, he, rfl⟩
      refine ⟨(k, rank R x), mem_renum.2 ⟨x, he, fun hk => ?_, rfl⟩, by simp⟩
      obtain ⟨y, _, h2, _⟩ := mem_goneK.1 hk
      rw [goes, hf, Bool.false_or, Bool.and_eq_true, Bool.and_eq_true, decide_eq_true_eq] at h2
      exact h2.2.1 (List.mem_map.2 ⟨_, he, rfl⟩)
  -- what goes with `p`
  have hKs : goneK force ops s0 (p :: ps) = if goes force ops s0 (p, l) then insert p K else K := by
    ext x
    rw [mem_goneK]
    constructor
    · rintro ⟨y, h1, h2, h3⟩
      rcases List.mem_cons.1 h3 with rfl | h3
      · rw [huniq y h1] at h2; rw [if_pos h2]; simp
      · have : x ∈ K := mem_goneK.2 ⟨y, h1, h2, h3⟩
        split_ifs
        · simp [this]
        · exact this
    · intro hx
      have old : x ∈ K → ∃ l, (x, l) ∈ s0.init ∧ goes force ops s0 (x, l) = true ∧ x ∈ p :: ps := fun hx => by
        obtain ⟨y, h1, h2, h3⟩ := mem_goneK.1 hx
        exact ⟨y, h1, h2, List.mem_cons_of_mem _ h3⟩
      split_ifs at hx with hg
      · rcases Finset.mem_insert.1 hx with rfl | hx
        · exact ⟨l, hpl, hg, List.mem_cons_self⟩
        · exact old hx
      · exact old hx
  have hRs : goneR force ops s0 (p :: ps) = if goes force ops s0 (p, l) then insert l R else R := by
    ext x
    rw [mem_goneR]
    constructor
    · rintro ⟨k, h1, h2, h3⟩
      rcases List.mem_cons.1 h3 with rfl | h3
      · have := huniq x h1
        subst this
        rw [if_pos h2]; simp
      · have : x ∈ R := mem_goneR.2 ⟨k, h1, h2, h3⟩
        split_ifs
        · simp [this]
        · exact this
    · intro hx
      have old : x ∈ R → ∃ k, (k, x) ∈ s0.init ∧ goes force ops s0 (k, x) = true ∧ k ∈ p :: ps := fun hx => by
        obtain ⟨y, h1, h2, h3⟩ := mem_goneR.1 hx
        exact ⟨y, h1, h2, List.mem_cons_of_mem _ h3⟩
      split_ifs at hx with hg
      · rcases Finset.mem_insert.1 hx with rfl | hx
        · exact ⟨p, hpl, hg, List.mem_cons_self⟩
        · exact old hx
      · exact old hx
  cases hg : goes force ops s0 (p, l) with
  | false =>
    refine ⟨s, ?_, ?_⟩
    · rw [visit]
      by_cases hid : idle ops p = true
      · rw [if_pos hid]
        rw [goes, hid, Bool.true_and, Bool.or_eq_false_iff] at hg
        obtain ⟨hf, hg⟩ := hg
        rw [hokey, hf]
        by_cases h1 : p ∈ s0.out.map Prod.fst
        · rw [if_pos (by simpa using h1)]
        · rw [if_neg (by simpa using h1), hlook]
          simp only
          have h2 : l ∈ s0.out.map Prod.snd := by
            by_contra h2
            simp only [h1, h2, not_false_eq_true, decide_true, Bool.and_true] at hg
            cases hg
          rw [hoval hf, if_pos (by simpa using h2)]
      · rw [if_neg hid]
    · rw [hg] at hKs hRs
      simp only [Bool.false_eq_true, if_false] at hKs hRs
      exact ⟨by rw [hRs]; exact hn, hlen, by rw [hKs, hRs]; exact hinit, by rw [hKs, hRs]; exact hout,
        by rw [hRs]; exact hanc, by rw [hRs]; exact hgarb⟩
  | true =>
    rw [hg, if_pos rfl] at hKs hRs
    have hcard : (insert l R).card = R.card + 1 := Finset.card_insert_of_notMem hlR
    have hcn : R.card + 1 ≤ s0.n := by
      rw [← hcard]
      refine card_le fun x hx => ?_
      rcases Finset.mem_insert.1 hx with rfl | hx
      · exact hok.lt _ hpl
      · exact hRn x hx
    have hlt : rank R l < s0.n - R.card := rank_top hRn ▸ rank_lt hlR (hok.lt _ hpl)
    have hfind : s.init.find? (fun e => decide (e.2 = rank R l)) = some (p, rank R l) := by
      have hin : (p, rank R l) ∈ s.init := by rw [hinit]; exact mem_renum.2 ⟨l, hpl, hpK, rfl⟩
      cases hf : s.init.find? fun e => decide (e.2 = rank R l) with
      | none => exact absurd (List.find?_eq_none.1 hf _ hin) (by simp)
      | some e =>
        obtain ⟨k, x⟩ := e
        have h1 : x = rank R l := by simpa using List.find?_some hf
        have h2 := List.mem_of_find?_eq_some hf
        rw [hinit] at h2
        obtain ⟨y, h3, h4, h5⟩ := mem_renum.1 h2
        have h6 := rank_inj (hleft _ h3 h4) hlR (h5.trans h1)
        simp only at h6
        subst h6
        rw [hok.inj k p y h3 hpl, h1]
    have hi' : dec (rank R l) (eraseKey p s.init) = renum (insert p K) (insert l R) s0.init := by
      rw [hinit]
      exact renum_step hlR hleft fun k hk _ => hok.inj k p l hk hpl
    have ho' : dec (rank R l) (eraseKey p s.out) = renum (insert p K) (insert l R) s0.out := by
      rw [hout]
      exact renum_step hlR holeft fun k hk _ => own_goes hown hpl hg hk
    have hbound : ∀ (m0 : List (ℕ × ℕ)), (∀ e ∈ m0, e.1 ∉ K → e.2 ∉ R) → (∀ e ∈ m0, e.2 < s0.n) →
        ∀ e ∈ eraseKey p (renum K R m0), e.2 < s0.n - R.card := by
      rintro m0 hm0 hb ⟨k, x⟩ he
      obtain ⟨y, h1, h2, h3⟩ := mem_renum.1 (List.mem_filter.1 he).1
      show x < _
      rw [← h3, ← rank_top hRn]
      exact rank_lt (hm0 _ h1 h2) (hb _ h1)
    have hvisit : visit force ops s p = (removeQubit s (rank R l)).bind fun s =>
        .ok (if rank R l < s.n then { s with init := dec (rank R l) s.init, out := dec (rank R l) s.out } else s) := by
      rw [goes, Bool.and_eq_true] at hg
      rw [visit, if_pos hg.1, hokey, hlook]
      cases hf : force with
      | true => simp
      | false =>
        have hg := hg.2
        rw [hf, Bool.false_or, Bool.and_eq_true, decide_eq_true_eq, decide_eq_true_eq] at hg
        simp only
        rw [if_neg (by simpa using hg.1), hoval hf, if_neg (by simpa using hg.2)]
    rw [hvisit, removeQubit, hfind]
    simp only
    rw [if_neg (by have := hok.len; omega)]
    simp only [MQT.Res.bind]
    refine ⟨_, rfl, ?_⟩
    have hn1 : s.n - 1 = s0.n - R.card - 1 := by rw [hn]
    by_cases hlast : rank R l < s.n - 1
    · rw [if_pos hlast]
      refine ⟨?_, hlen, ?_, ?_, ?_, ?_⟩
      · rw [hRs, hcard]; show s.n - 1 = _; omega
      · rw [hKs, hRs]; exact hi'
      · rw [hKs, hRs]; exact ho'
      · rw [hRs]; simp only [hn1]; exact hanc.step hRn (hok.lt _ hpl) hlR
      · rw [hRs]; simp only [hn1]; exact hgarb.step hRn (hok.lt _ hpl) hlR
    · rw [if_neg hlast]
      refine ⟨?_, hlen, ?_, ?_, ?_, ?_⟩
      · rw [hRs, hcard]; show s.n - 1 = _; omega
      · rw [hKs, hRs, ← hi', dec_id]
        intro e he
        rw [hinit] at he
        have := hbound _ hleft hok.lt e he
        omega
      · rw [hKs, hRs, ← ho', dec_id]
        intro e he
        rw [hout] at he
        have := hbound _ holeft hok.olt e he
        omega
      · rw [hRs]; simp only [hn1]; exact hanc.step hRn (hok.lt _ hpl) hlR
      · rw [hRs]; simp only [hn1]; exact hgarb.step hRn (hok.lt _ hpl) hlR

theorem SInv.congr {force : Bool} {ops : List (Op P)} {s0 s : SS} {ps ps' : List ℕ} (h : SInv force ops s0 ps s)
    (e : ∀ x, x ∈ ps ↔ x ∈ ps') : SInv force ops s0 ps' s := by
  have h1 : goneK force ops s0 ps' = goneK force ops s0 ps := by ext x; rw [mem_goneK, mem_goneK, e]
  have h2 : goneR force ops s0 ps' = goneR force ops s0 ps := by
    ext x; rw [mem_goneR, mem_goneR]; simp only [e]
  obtain ⟨a, b, c, d, f, g⟩ := h
  exact ⟨by rw [h2]; exact a, b, by rw [h1, h2]; exact c, by rw [h1, h2]; exact d, by rw [h2]; exact f, by rw [h2]; exact g⟩

theorem visitAll_inv {force : Bool} {ops : List (Op P)} {s0 : SS} (hok : s0.Ok) (hown : Own force ops s0) (qs ps : List ℕ) (s : SS)
    (hq : ∀ p ∈ qs, p ∈ s0.init.map Prod.fst) (hnd : qs.Nodup) (hd : ∀ p ∈ qs, p ∉ ps) (h : SInv force ops s0 ps s) :
    ∃ s', visitAll force ops qs s = .ok s' ∧ SInv force ops s0 (qs ++ ps) s' := by
  induction qs generalizing ps s with
  | nil => exact ⟨s, by rw [visitAll], h⟩
  | cons p qs ih =>
    obtain ⟨s1, e1, h1⟩ := visit_inv hok hown (hq p List.mem_cons_self) (hd p List.mem_cons_self) h
    have hnd' := List.nodup_cons.1 hnd
    obtain ⟨s2, e2, h2⟩ := ih (p :: ps) s1 (fun x hx => hq x (List.mem_cons_of_mem _ hx)) hnd'.2
      (fun x hx hx' => by
        rcases List.mem_cons.1 hx' with rfl | hx'
        · exact hnd'.1 hx
        · exact hd x (List.mem_cons_of_mem _ hx) hx') h1
    refine ⟨s2, by rw [visitAll, e1]; exact e2, h2.congr fun x => ?_⟩
    simp only [List.mem_append, List.mem_cons]; tauto

theorem strip_inv {force : Bool} {ops : List (Op P)} {s : SS} (hok : s.Ok) (hown : Own force ops s) :
    ∃ s', strip force ops s = .ok s' ∧ SInv force ops s (s.init.map Prod.fst) s' := by
  have h0 : SInv force ops s [] s := by
    have e1 : goneK force ops s [] = ∅ := by ext x; simp [mem_goneK]
    have e2 : goneR force ops s [] = ∅ := by ext x; simp [mem_goneR]
    refine ⟨?_, rfl, ?_, ?_, ?_, ?_⟩
    · rw [e2]; simp
    · rw [e1, e2, renum_empty]
    · rw [e1, e2, renum_empty]
    · rw [e2]; exact FInv.start _ _
    · rw [e2]; exact FInv.start _ _
  obtain ⟨s', e, h⟩ := visitAll_inv hok hown (s.init.map Prod.fst).reverse [] s (fun p hp => List.mem_reverse.1 hp)
    (List.nodup_reverse.2 (hok.sorted.imp fun h => Nat.ne_of_lt h)) (by simp) h0
  exact ⟨s', e, h.congr fun x => by simp⟩

end MQT.Opt.Strip
