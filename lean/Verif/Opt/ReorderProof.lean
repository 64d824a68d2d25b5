/-
Reordering ends, keeps every operation on a qubit and the order on every qubit.
-/
import Mathlib.Data.List.Sort
import Verif.Opt.Reorder

set_option autoImplicit false

namespace MQT.Opt.Reorder

open MQT.IR

variable {P : Type}

/-- `getUsedQubits` of the operation at a position. -/
def used (ops : List (Op P)) (i : ℕ) : Finset ℕ :=
  match ops[i]? with
  | none => ∅
  | some o => o.usedQ

theorem used_of {ops : List (Op P)} {i : ℕ} {o : Op P} (h : ops[i]? = some o) : used ops i = o.usedQ := by
  rw [used, h]

theorem used_ge {ops : List (Op P)} {i : ℕ} (h : ops.length ≤ i) : used ops i = ∅ := by
  rw [used, List.getElem?_eq_none h]

theorem fill_spec (n : ℕ) : ∀ (l : List (Op P)) (ops : List (Op P)) (i : ℕ) (dag : ℕ → List ℕ), ops.drop i = l →
    (∀ o ∈ l, ∀ q ∈ o.usedQ, q < n) → i ≤ ops.length → (∀ q, dag q = (List.range i).filter fun j => q ∈ used ops j) →
    ∃ dag', fill n i l dag = .ok dag' ∧ ∀ q, dag' q = (List.range ops.length).filter fun j => q ∈ used ops j
  | [], ops, i, dag, hl, _, hi, hd => by
    have : ops.length ≤ i := List.drop_eq_nil_iff.1 hl
    have e : i = ops.length := by omega
    exact ⟨dag, rfl, e ▸ hd⟩
  | o :: l, ops, i, dag, hl, hq, hi, hd => by
    have hi' : i < ops.length := by
      by_contra h
      rw [List.drop_eq_nil_iff.2 (by omega)] at hl
      cases hl
    have ho : ops[i]? = some o := by
      have := congrArg (fun x : List (Op P) => x[0]?) hl
      simpa [List.getElem?_drop] using this
    rw [fill, if_pos (hq o (by simp))]
    refine fill_spec n l ops (i + 1) _ ?_ (fun o' h' => hq o' (by simp [h'])) (by omega) fun q => ?_
    · rw [← List.drop_drop, hl, List.drop_one, List.tail_cons]
    · rw [List.range_succ, List.filter_append, hd]
      by_cases h : q ∈ o.usedQ
      · simp [h, used_of ho]
      · simp [h, used_of ho]

/-- A filtered range starts with the smallest element. -/
theorem head_filter {m : ℕ} {p : ℕ → Bool} {i : ℕ} {t : List ℕ} (h : (List.range m).filter p = i :: t) :
    (i < m ∧ p i = true) ∧ (∀ j < m, p j = true → i ≤ j) ∧ t = (List.range m).filter fun j => p j && decide (j ≠ i) := by
  have hm : ∀ j, j ∈ i :: t ↔ j < m ∧ p j = true := fun j => by rw [← h]; simp
  have hs : (i :: t).Pairwise (· < ·) := by rw [← h]; exact List.pairwise_lt_range.filter _
  refine ⟨(hm i).1 (by simp), fun j hj hp => ?_, ?_⟩
  · rcases List.mem_cons.1 ((hm j).2 ⟨hj, hp⟩) with e | e
    · omega
    · exact le_of_lt (List.rel_of_pairwise_cons hs e)
  · have e : (List.range m).filter (fun j => p j && decide (j ≠ i)) = ((List.range m).filter p).filter fun j => decide (j ≠ i) := by
      rw [List.filter_filter]
      congr 1
      funext j
      rw [Bool.and_comm]
    rw [e, h, List.filter_cons_of_neg (by simp)]
    symm
    rw [List.filter_eq_self]
    intro j hj
    have := List.rel_of_pairwise_cons hs hj
    simp; omega

/-- What holds between the rounds. -/
structure Inv (m : ℕ) (U : ℕ → Finset ℕ) (S : St) : Prop where
  rem : ∀ q, S.rem q = (List.range m).filter fun i => decide (i ∉ S.out) && decide (q ∈ U i)
  nodup : S.out.Nodup
  lt : ∀ i ∈ S.out, i < m
  ne : ∀ i ∈ S.out, (U i).Nonempty
  closed : ∀ j ∈ S.out, ∀ i < j, ¬ Disjoint (U i) (U j) → i ∈ S.out
  ord : S.out.Pairwise fun i j => Disjoint (U i) (U j) ∨ i < j

theorem Inv.init {m : ℕ} {U : ℕ → Finset ℕ} {dag : ℕ → List ℕ} (h : ∀ q, dag q = (List.range m).filter fun i => decide (q ∈ U i)) :
    Inv m U { rem := dag } where
  rem q := by simp [h]
  nodup := List.nodup_nil
  lt := by simp
  ne := by simp
  closed := by simp
  ord := List.Pairwise.nil

theorem ready_spec {act : ℕ → Bool} {rem : ℕ → List ℕ} {q i : ℕ} : ∀ k, (∀ r < k, act r = true → rem r ≠ []) →
    ∃ b, ready act rem q i k = .ok b ∧ (b = true ↔ ∀ r < k, r ≠ q → act r = true → (rem r).head? = some i)
  | 0, _ => ⟨true, rfl, by simp⟩
  | k + 1, h => by
    obtain ⟨b, e, hb⟩ := ready_spec k fun r hr => h r (by omega)
    rw [ready]
    by_cases h1 : k ≠ q ∧ act k = true
    · rw [if_pos h1]
      cases hr : rem k with
      | nil => exact absurd hr (h k (by omega) h1.2)
      | cons j t =>
        simp only
        by_cases hj : j = i
        · subst hj
          rw [if_neg (by simp)]
          refine ⟨b, e, hb.trans ⟨fun g r hr' => ?_, fun g r hr' => g r (by omega)⟩⟩
          rcases Nat.lt_succ_iff_lt_or_eq.1 hr' with h' | h'
          · exact g r h'
          · subst h'; intro _ _; rw [hr]; rfl
        · rw [if_pos hj]
          refine ⟨false, rfl, ⟨fun g => (by cases g), fun g => ?_⟩⟩
          have := g k (by omega) h1.1 h1.2
          rw [hr] at this
          simp at this
          exact absurd this hj
    · rw [if_neg h1]
      refine ⟨b, e, hb.trans ⟨fun g r hr' => ?_, fun g r hr' => g r (by omega)⟩⟩
      rcases Nat.lt_succ_iff_lt_or_eq.1 hr' with h' | h'
      · exact g r h'
      · subst h'; intro a1 a2; exact absurd ⟨a1, a2⟩ h1

/-- The hypotheses on the circuit. -/
structure Fits (n : ℕ) (ops : List (Op P)) : Prop where
  acts : ∀ i q, actsOn ops i q = true ↔ q ∈ used ops i
  lt : ∀ i, ∀ q ∈ used ops i, q < n

/-- One look at a qubit: nothing changes, or an operation is executed. -/
theorem visit_spec {n : ℕ} {ops : List (Op P)} (hf : Fits n ops) {S : St} (h : Inv ops.length (used ops) S) (q : ℕ) (hq : q < n) :
    ∃ S' b, visit n ops S q = .ok (S', b) ∧ Inv ops.length (used ops) S' ∧ (b = false ↔ S.rem q = []) ∧
      ((S' = S ∧ (∀ i t, S.rem q = i :: t → ∃ r ∈ used ops i, (S.rem r).head? ≠ some i)) ∨ (b = true ∧ ∃ i, S'.out = S.out ++ [i])) := by
  rw [visit]
  cases hr : S.rem q with
  | nil => exact ⟨S, false, rfl, h, by simp, Or.inl ⟨rfl, fun i t e => by cases e⟩⟩
  | cons i t =>
    simp only
    have hr' := hr
    rw [h.rem] at hr'
    obtain ⟨⟨hi, hp⟩, hmin, -⟩ := head_filter hr'
    simp only [Bool.and_eq_true, decide_eq_true_eq] at hp hmin
    rw [if_neg hp.1]
    have hmem : ∀ r, r ∈ used ops i → i ∈ S.rem r := fun r hr => by
      rw [h.rem]
      simp [hi, hp.1, hr]
    obtain ⟨b, e, hb⟩ := ready_spec (act := actsOn ops i) (rem := S.rem) (q := q) (i := i) n fun r _ ha hn => by
      have := hmem r ((hf.acts i r).1 ha)
      rw [hn] at this
      cases this
    rw [e]
    have hb' : b = true ↔ ∀ r ∈ used ops i, (S.rem r).head? = some i := by
      rw [hb]
      refine ⟨fun g r hr1 => ?_, fun g r _ _ ha => g r ((hf.acts i r).1 ha)⟩
      by_cases hrq : r = q
      · rw [hrq, hr]; rfl
      · exact g r (hf.lt i r hr1) hrq ((hf.acts i r).2 hr1)
    cases b with
    | false =>
      refine ⟨S, true, rfl, h, by simp, Or.inl ⟨rfl, fun i' t' e' => ?_⟩⟩
      cases e'
      by_contra hc
      push Not at hc
      exact absurd (hb'.2 hc) (by simp)
    | true =>
      have hall := hb'.1 rfl
      refine ⟨_, true, rfl, ?_, by simp, Or.inr ⟨rfl, i, rfl⟩⟩
      have hmin' : ∀ r ∈ used ops i, ∀ j < ops.length, j ∉ S.out → r ∈ used ops j → i ≤ j := by
        intro r hr1 j hj hjo hrj
        have h1 := hall r hr1
        cases h2 : S.rem r with
        | nil => rw [h2] at h1; simp at h1
        | cons i' t' =>
          rw [h2] at h1
          simp only [List.head?_cons, Option.some.injEq] at h1
          subst h1
          rw [h.rem] at h2
          exact (head_filter h2).2.1 j hj (by simp [hjo, hrj])
      constructor
      · intro r
        simp only
        have hc : (r < n ∧ (r = q ∨ actsOn ops i r = true)) ↔ r ∈ used ops i := by
          rw [hf.acts]
          constructor
          · rintro ⟨-, rfl | h1⟩
            · exact hp.2
            · exact h1
          · exact fun h1 => ⟨hf.lt i r h1, Or.inr h1⟩
        by_cases hru : r ∈ used ops i
        · rw [if_pos (hc.2 hru)]
          have h1 := hall r hru
          cases h2 : S.rem r with
          | nil => rw [h2] at h1; simp at h1
          | cons i' t' =>
            rw [h2] at h1
            simp only [List.head?_cons, Option.some.injEq] at h1
            subst h1
            rw [h.rem] at h2
            rw [List.tail_cons, (head_filter h2).2.2]
            refine List.filter_congr fun j _ => ?_
            rw [Bool.eq_iff_iff]
            simp only [Bool.and_eq_true, decide_eq_true_eq, List.mem_append, List.mem_singleton]
            tauto
        · rw [if_neg (fun g => hru (hc.1 g)), h.rem]
          refine List.filter_congr fun j _ => ?_
          rw [Bool.eq_iff_iff]
          simp only [Bool.and_eq_true, decide_eq_true_eq, List.mem_append, List.mem_singleton, not_or]
          refine ⟨fun g => ⟨⟨g.1, fun e => hru (e ▸ g.2)⟩, g.2⟩, fun g => ⟨g.1.1, g.2⟩⟩
      · simp only
        rw [List.nodup_append]
        refine ⟨h.nodup, by simp, fun a ha b hb => ?_⟩
        rw [List.mem_singleton] at hb
        subst hb
        rintro rfl
        exact hp.1 ha
      · intro j hj
        rcases List.mem_append.1 hj with h1 | h1
        · exact h.lt j h1
        · rw [List.mem_singleton] at h1; subst h1; exact hi
      · intro j hj
        rcases List.mem_append.1 hj with h1 | h1
        · exact h.ne j h1
        · rw [List.mem_singleton] at h1; subst h1; exact ⟨q, hp.2⟩
      · intro j hj k hk hd
        rcases List.mem_append.1 hj with h1 | h1
        · exact List.mem_append_left _ (h.closed j h1 k hk hd)
        · rw [List.mem_singleton] at h1
          subst h1
          rw [Finset.not_disjoint_iff] at hd
          obtain ⟨r, hr1, hr2⟩ := hd
          by_contra hko
          have := hmin' r hr2 k (by omega) (fun g => hko (List.mem_append_left _ g)) hr1
          omega
      · simp only
        rw [List.pairwise_append]
        refine ⟨h.ord, by simp, fun a ha b hb => ?_⟩
        rw [List.mem_singleton] at hb
        subst hb
        by_cases hd : Disjoint (used ops a) (used ops b)
        · exact Or.inl hd
        · right
          by_contra hlt
          rcases Nat.lt_or_ge b a with h1 | h1
          · exact hp.1 (h.closed a ha b h1 fun g => hd g.symm)
          · have : a = b := by omega
            exact hp.1 (this ▸ ha)

/-- A round of the inner loop. -/
theorem sweep_spec {n : ℕ} {ops : List (Op P)} (hf : Fits n ops) : ∀ (k : ℕ) (S : St) (busy : Bool), k ≤ n →
    Inv ops.length (used ops) S → ∃ S' b, sweep n ops k S busy = .ok (S', b) ∧ Inv ops.length (used ops) S' ∧ S.out.length ≤ S'.out.length ∧
      (b = false → busy = false ∧ S' = S ∧ ∀ q < k, S.rem q = []) ∧
      (S'.out.length = S.out.length → S' = S ∧ ∀ q < k, ∀ i t, S.rem q = i :: t → ∃ r ∈ used ops i, (S.rem r).head? ≠ some i)
  | 0, S, busy, _, h => ⟨S, busy, rfl, h, le_refl _, fun e => ⟨e, rfl, by simp⟩, fun _ => ⟨rfl, by simp⟩⟩
  | k + 1, S, busy, hk, h => by
    obtain ⟨S1, b1, e1, h1, z1, c1⟩ := visit_spec hf h k (by omega)
    obtain ⟨S2, b2, e2, h2, l2, z2, c2⟩ := sweep_spec hf k S1 (busy || b1) (by omega) h1
    refine ⟨S2, b2, by rw [sweep, e1]; exact e2, h2, ?_, fun hb => ?_, fun hl => ?_⟩
    · rcases c1 with ⟨e, -⟩ | ⟨-, i, e⟩
      · rw [← e]; exact l2
      · rw [e] at l2; simp at l2; omega
    · obtain ⟨y1, y2, y3⟩ := z2 hb
      rw [Bool.or_eq_false_iff] at y1
      rcases c1 with ⟨e, -⟩ | ⟨e, -⟩
      · subst e
        refine ⟨y1.1, y2, fun q hq => ?_⟩
        rcases Nat.lt_succ_iff_lt_or_eq.1 hq with h' | h'
        · exact y3 q h'
        · subst h'; exact z1.1 y1.2
      · rw [e] at y1; exact absurd y1.2 (by simp)
    · rcases c1 with ⟨e, c⟩ | ⟨-, i, e⟩
      · subst e
        obtain ⟨y1, y2⟩ := c2 hl
        refine ⟨y1, fun q hq => ?_⟩
        rcases Nat.lt_succ_iff_lt_or_eq.1 hq with h' | h'
        · exact y2 q h'
        · subst h'; exact c
      · rw [e] at l2; simp at l2; omega

/-- As long as operations are left, a round executes at least one. -/
theorem progress {n : ℕ} {ops : List (Op P)} (hf : Fits n ops) {S : St} (h : Inv ops.length (used ops) S) {i : ℕ} (hi : i < ops.length)
    (ho : i ∉ S.out) (hu : (used ops i).Nonempty) :
    ∃ q < n, ∃ i t, S.rem q = i :: t ∧ ∀ r ∈ used ops i, (S.rem r).head? = some i := by
  have hex : ∃ i, i < ops.length ∧ i ∉ S.out ∧ (used ops i).Nonempty := ⟨i, hi, ho, hu⟩
  obtain ⟨h1, h2, q, h3⟩ := Nat.find_spec hex
  set j := Nat.find hex with hj
  have hmin : ∀ r ∈ used ops j, (S.rem r).head? = some j := by
    intro r hr
    have hm : j ∈ S.rem r := by rw [h.rem]; simp [h1, h2, hr]
    cases hs : S.rem r with
    | nil => rw [hs] at hm; cases hm
    | cons k t =>
      have hs' := hs
      rw [h.rem] at hs'
      obtain ⟨⟨a1, a2⟩, a3, -⟩ := head_filter hs'
      simp only [Bool.and_eq_true, decide_eq_true_eq] at a2 a3
      have b1 := a3 j h1 ⟨h2, hr⟩
      have b2 : j ≤ k := Nat.find_min' hex ⟨a1, a2.1, r, a2.2⟩
      have : k = j := by omega
      rw [this]; rfl
  have hq := hmin q h3
  cases hs : S.rem q with
  | nil => rw [hs] at hq; simp at hq
  | cons k t =>
    rw [hs] at hq
    simp only [List.head?_cons, Option.some.injEq] at hq
    subst hq
    exact ⟨q, hf.lt _ q h3, _, t, hs, hmin⟩

theorem length_le {m : ℕ} {U : ℕ → Finset ℕ} {S : St} (h : Inv m U S) : S.out.length ≤ m := by
  have := List.Nodup.length_le_card (α := Fin m) (l := S.out.pmap (fun i hi => ⟨i, hi⟩) h.lt)
    (h.nodup.pmap fun a _ b _ e => by injection e)
  simpa using this

theorem loop_spec {n : ℕ} {ops : List (Op P)} (hf : Fits n ops) : ∀ (f : ℕ) (S : St), Inv ops.length (used ops) S →
    ops.length < f + S.out.length → ∃ S', loop n ops f S = some (.ok S'.out) ∧ Inv ops.length (used ops) S' ∧ ∀ q < n, S'.rem q = []
  | 0, S, h, hl => by have := length_le h; omega
  | f + 1, S, h, hl => by
    obtain ⟨S', b, e, h', l', z, c⟩ := sweep_spec hf n S false (le_refl n) h
    rw [loop, e]
    simp only
    cases b with
    | false =>
      obtain ⟨-, rfl, y⟩ := z rfl
      exact ⟨S', rfl, h', y⟩
    | true =>
      by_cases hlen : S'.out.length = S.out.length
      · obtain ⟨rfl, y⟩ := c hlen
        by_cases hleft : ∃ i, i < ops.length ∧ i ∉ S'.out ∧ (used ops i).Nonempty
        · obtain ⟨i, i1, i2, i3⟩ := hleft
          obtain ⟨q, hq, j, t, hj, hall⟩ := progress hf h i1 i2 i3
          obtain ⟨r, hr, hne⟩ := y q hq j t hj
          exact absurd (hall r hr) hne
        · push Not at hleft
          exfalso
          -- nothing is left, so the round was not busy
          have hall : ∀ q, S'.rem q = [] := by
            intro q
            rw [h.rem, List.filter_eq_nil_iff]
            intro i hi
            simp only [Bool.and_eq_true, decide_eq_true_eq, not_and]
            intro ho hq
            have := hleft i (List.mem_range.1 hi) ho
            rw [this] at hq
            exact absurd hq (Finset.notMem_empty q)
          have hidle : ∀ k, sweep n ops k S' false = .ok (S', false) := by
            intro k
            induction k with
            | zero => rfl
            | succ k ih => rw [sweep, visit, hall k]; exact ih
          rw [hidle] at e
          injection e with e
          injection e with _ e
          cases e
      · exact loop_spec hf f S' h' (by omega)

/-- All of it: the positions in the new order. -/
theorem reorder_spec {f n : ℕ} {ops : List (Op P)} (hfuel : ops.length < f) (hp : ∀ o ∈ ops, o.plain = true)
    (hn : ∀ o ∈ ops, ∀ q ∈ o.usedQ, q < n) :
    ∃ l : List ℕ, reorder f n ops = some (.ok (pick ops l)) ∧ l.Nodup ∧ (∀ i, i ∈ l ↔ i < ops.length ∧ (used ops i).Nonempty) ∧
      l.Pairwise fun i j => Disjoint (used ops i) (used ops j) ∨ i < j := by
  have hf : Fits n ops := by
    constructor
    · intro i q
      rw [actsOn, used]
      cases h : ops[i]? with
      | none => simp
      | some o => simp [Op.usedQ_plain o (hp o (List.mem_of_getElem? h))]
    · intro i q hq
      rw [used] at hq
      cases h : ops[i]? with
      | none => rw [h] at hq; exact absurd hq (Finset.notMem_empty q)
      | some o => rw [h] at hq; exact hn o (List.mem_of_getElem? h) q hq
  obtain ⟨dag, e1, hd⟩ := fill_spec n ops ops 0 (fun _ => []) rfl hn (Nat.zero_le _) (fun q => rfl)
  obtain ⟨S, e2, hi, hr⟩ := loop_spec hf f { rem := dag } (Inv.init hd) (by simpa using hfuel)
  refine ⟨S.out, by rw [reorder, e1]; simp only; rw [e2]; rfl, hi.nodup, fun i => ⟨fun h => ⟨hi.lt i h, hi.ne i h⟩, ?_⟩, hi.ord⟩
  rintro ⟨h1, q, h2⟩
  by_contra h3
  have := hr q (hf.lt i q h2)
  rw [hi.rem, List.filter_eq_nil_iff] at this
  exact this i (List.mem_range.2 h1) (by simp [h3, h2])

end MQT.Opt.Reorder
