/-
The disjoint sets of `collectBlocks`: an invariant and what the operations do under it.
-/
import Verif.Opt.Blocks

set_option autoImplicit false

namespace MQT.Opt.Blocks

open MQT.IR
open Function (update)

variable {P : Type}

/-! ### The forest -/

/-- `ρ` is the root of every node; paths are shorter than the size of the block. -/
def Forest (p : ℕ → ℕ) (ρ : ℕ → ℕ) (size : ℕ → ℕ) : Prop :=
  ∃ d : ℕ → ℕ, (∀ q, p q ≠ q → d (p q) < d q ∧ ρ (p q) = ρ q) ∧ (∀ q, p q = q → ρ q = q) ∧ ∀ q, d q < size (ρ q)

theorem forest_root {p ρ d : ℕ → ℕ} (h1 : ∀ q, p q ≠ q → d (p q) < d q ∧ ρ (p q) = ρ q) (h2 : ∀ q, p q = q → ρ q = q) :
    ∀ k q, d q ≤ k → p (ρ q) = ρ q ∧ (p q ≠ q → d (ρ q) < d q) ∧ (p q ≠ q → ρ q ≠ q) := by
  intro k
  induction k with
  | zero =>
    intro q hq
    by_cases h : p q = q
    · rw [h2 q h]; exact ⟨h, fun h' => absurd h h', fun h' => absurd h h'⟩
    · have := (h1 q h).1; omega
  | succ k ih =>
    intro q hq
    by_cases h : p q = q
    · rw [h2 q h]; exact ⟨h, fun h' => absurd h h', fun h' => absurd h h'⟩
    · obtain ⟨a, b⟩ := h1 q h
      obtain ⟨i1, i2, i3⟩ := ih (p q) (by omega)
      rw [b] at i1 i2 i3
      have hd : d (ρ q) < d q := by
        by_cases h' : p (p q) = p q
        · rw [← b, h2 _ h']; exact a
        · exact lt_trans (i2 h') a
      exact ⟨i1, fun _ => hd, fun _ e => by rw [e] at hd; omega⟩

theorem Forest.root_iff {p ρ size : ℕ → ℕ} (h : Forest p ρ size) (q : ℕ) : p q = q ↔ ρ q = q := by
  obtain ⟨d, h1, h2, -⟩ := h
  refine ⟨h2 q, fun h => ?_⟩
  by_contra h'
  exact (forest_root h1 h2 (d q) q le_rfl).2.2 h' h

theorem Forest.idem {p ρ size : ℕ → ℕ} (h : Forest p ρ size) (q : ℕ) : ρ (ρ q) = ρ q := by
  obtain ⟨d, h1, h2, -⟩ := h
  exact h2 _ (forest_root h1 h2 (d q) q le_rfl).1

theorem Forest.pos {p ρ size : ℕ → ℕ} (h : Forest p ρ size) (q : ℕ) : 0 < size (ρ q) := by
  obtain ⟨d, -, -, h3⟩ := h
  have := h3 q
  omega

/-- `findBlock` returns the root and keeps the roots. -/
theorem findP_spec {ρ : ℕ → ℕ} (d : ℕ → ℕ) : ∀ (f : ℕ) (p : ℕ → ℕ) (q : ℕ),
    (∀ q, p q ≠ q → d (p q) < d q ∧ ρ (p q) = ρ q) → (∀ q, p q = q → ρ q = q) → d q < f →
    ∃ p', findP f p q = some (ρ q, p') ∧ (∀ q, p' q ≠ q → d (p' q) < d q ∧ ρ (p' q) = ρ q) ∧ (∀ q, p' q = q → ρ q = q) := by
  intro f
  induction f with
  | zero => intro p q _ _ h; omega
  | succ f ih =>
    intro p q h1 h2 hf
    rw [findP]
    by_cases h : p q = q
    · rw [if_pos h, h2 q h]
      exact ⟨p, rfl, h1, h2⟩
    · rw [if_neg h]
      obtain ⟨a, b⟩ := h1 q h
      obtain ⟨p', e, i1, i2⟩ := ih p (p q) h1 h2 (by omega)
      rw [e, b]
      obtain ⟨r1, r2, r3⟩ := forest_root h1 h2 (d q) q le_rfl
      refine ⟨_, rfl, ?_, ?_⟩
      · intro x hx
        by_cases hxq : x = q
        · subst hxq
          simp only [Function.update_self] at hx ⊢
          exact ⟨r2 h, h2 _ r1⟩
        · simp only [Function.update_of_ne hxq] at hx ⊢
          exact i1 x hx
      · intro x hx
        by_cases hxq : x = q
        · subst hxq
          simp only [Function.update_self] at hx
          exact absurd hx (r3 h)
        · simp only [Function.update_of_ne hxq] at hx
          exact i2 x hx

/-! ### The invariant -/

/-- The blocks: `ρ q` is the block of qubit `q`, `M` the largest size, `K` the qubits that have been seen. -/
structure Inv (K : ℕ → Prop) (M : ℕ) (S : St P) (ρ : ℕ → ℕ) : Prop where
  forest : Forest S.parent ρ fun r => (S.bits r).length
  nodup : ∀ r, ρ r = r → (S.bits r).Nodup
  mem : ∀ r, ρ r = r → ∀ q, q ∈ S.bits r ↔ ρ q = r
  dead : ∀ r, ρ r ≠ r → S.cur r = none ∧ S.ops r = []
  slot : ∀ r i, S.cur r = some i → S.slots[i]? = some none
  inj : ∀ r r' i, S.cur r = some i → S.cur r' = some i → r = r'
  owner : ∀ i, S.slots[i]? = some none → ∃ r, S.cur r = some i
  empty : ∀ r, S.cur r = none ↔ S.ops r = []
  use : ∀ r, ∀ o ∈ S.ops r, isUnitary o = true ∧ ∀ q ∈ o.usedQ, ρ q = r
  size : ∀ r, ρ r = r → (S.bits r).length ≤ M
  key : ∀ q, ρ q ≠ q → K q ∧ K (ρ q)
  live : ∀ r, S.cur r ≠ none → K r

theorem Inv.lt {K : ℕ → Prop} {M : ℕ} {S : St P} {ρ : ℕ → ℕ} (h : Inv K M S ρ) {r i : ℕ} (hr : S.cur r = some i) : i < S.slots.length :=
  (List.getElem?_eq_some_iff.1 (h.slot r i hr)).1

theorem Inv.root {K : ℕ → Prop} {M : ℕ} {S : St P} {ρ : ℕ → ℕ} (h : Inv K M S ρ) {r i : ℕ} (hr : S.cur r = some i) : ρ r = r := by
  by_contra hn
  rw [(h.dead r hn).1] at hr
  cases hr

/-- With no operations. -/
theorem inv_init {K : ℕ → Prop} {M : ℕ} (hM : 1 ≤ M) : Inv K M ({} : St P) id where
  forest := ⟨fun _ => 0, fun q h => absurd rfl h, fun _ _ => rfl, fun _ => by simp⟩
  nodup := fun _ _ => by simp
  mem := fun r _ q => by simp
  dead := fun r h => absurd rfl h
  slot := fun r i h => by cases h
  inj := fun r r' i h => by cases h
  owner := fun i h => by simp at h
  empty := fun _ => by simp
  use := fun r o h => by simp at h
  size := fun _ _ => by simpa using hM
  key := fun q h => absurd rfl h
  live := fun r h => absurd rfl h

/-- `findBlock`. -/
theorem find_spec {K : ℕ → Prop} {M f : ℕ} (hf : M ≤ f) {S : St P} {ρ : ℕ → ℕ} (h : Inv K M S ρ) (q : ℕ) :
    ∃ p', find f S q = some (ρ q, { S with parent := p' }) ∧ Inv K M { S with parent := p' } ρ := by
  obtain ⟨d, h1, h2, h3⟩ := h.forest
  have hd : d q < f := lt_of_lt_of_le (h3 q) ((h.size _ (h.forest.idem q)).trans hf)
  obtain ⟨p', e, i1, i2⟩ := findP_spec d f S.parent q h1 h2 hd
  refine ⟨p', ?_, ⟨⟨d, i1, i2, h3⟩, h.nodup, h.mem, h.dead, h.slot, h.inj, h.owner, h.empty, h.use, h.size, h.key, h.live⟩⟩
  rw [find, e]
  rfl

/-! ### Merging -/

/-- The roots after merging block `b` into block `a`. -/
def relabel (ρ : ℕ → ℕ) (a b : ℕ) : ℕ → ℕ := fun q => if ρ q = b then a else ρ q

theorem getElem?_set_none {l : List (Option (Op P))} {i k : ℕ} {o : Op P} (h : (l.set i (some o))[k]? = some none) :
    l[k]? = some none ∧ k ≠ i := by
  rw [List.getElem?_set] at h
  split_ifs at h with h1 h2
  · cases h
  · exact ⟨h, fun e => h1 e.symm⟩

theorem merge_inv {K : ℕ → Prop} {M : ℕ} {S : St P} {ρ : ℕ → ℕ} (h : Inv K M S ρ) {a b : ℕ} (ha : ρ a = a) (hb : ρ b = b) (hab : a ≠ b) (hk : K a ∧ K b)
    (hsz : (S.bits a).length + (S.bits b).length ≤ M) (hcur : S.cur a = none → S.cur b = none) : Inv K M (merge S a b) (relabel ρ a b) := by
  have hroot : ∀ r, relabel ρ a b r = r ↔ ρ r = r ∧ r ≠ b := by
    intro r
    unfold relabel
    split_ifs with h1
    · constructor
      · rintro rfl; rw [ha] at h1; exact absurd h1 hab
      · rintro ⟨h2, h3⟩; rw [h1] at h2; exact absurd h2.symm h3
    · constructor
      · intro h2; exact ⟨h2, fun e => h1 (by rw [h2, e])⟩
      · exact fun h2 => h2.1
  obtain ⟨d, f1, f2, f3⟩ := h.forest
  simp only at f3
  have bit : ∀ r, r ≠ a → r ≠ b → (merge S a b).bits r = S.bits r := by
    intro r h1 h2; simp [merge, Function.update_of_ne h2, Function.update_of_ne h1]
  have bita : (merge S a b).bits a = S.bits a ++ S.bits b := by
    simp [merge, Function.update_of_ne hab]
  have cura : (merge S a b).cur a = S.cur a := by simp [merge, Function.update_of_ne hab]
  have curb : (merge S a b).cur b = none := by simp [merge]
  have cur : ∀ r, r ≠ b → (merge S a b).cur r = S.cur r := by
    intro r h1; simp [merge, Function.update_of_ne h1]
  have opa : (merge S a b).ops a = S.ops a ++ S.ops b := by simp [merge, Function.update_of_ne hab]
  have opb : (merge S a b).ops b = [] := by simp [merge]
  have op : ∀ r, r ≠ a → r ≠ b → (merge S a b).ops r = S.ops r := by
    intro r h1 h2; simp [merge, Function.update_of_ne h2, Function.update_of_ne h1]
  have hslot : ∀ i, i ∉ S.cur b → (merge S a b).slots[i]? = S.slots[i]? := by
    intro i hi
    simp only [merge]
    cases hc : S.cur b with
    | none => rfl
    | some j =>
      rw [hc] at hi
      simp only
      rw [List.getElem?_set_ne]
      rintro rfl; exact hi rfl
  refine ⟨⟨fun q => if ρ q = b then d q + (S.bits a).length else d q, ?_, ?_, ?_⟩, ?_, ?_, ?_, ?_, ?_, ?_, ?_, ?_, ?_, ?_, ?_⟩
  · intro q hq
    simp only [merge] at hq ⊢
    by_cases hqb : q = b
    · subst hqb
      simp only [Function.update_self, relabel]
      have := f3 a
      rw [ha] at this
      rw [ha, if_neg hab, if_neg hab, if_pos hb, if_pos hb]
      exact ⟨by omega, rfl⟩
    · simp only [Function.update_of_ne hqb, relabel] at hq ⊢
      obtain ⟨k1, k2⟩ := f1 q hq
      rw [k2]
      split_ifs
      · exact ⟨by omega, rfl⟩
      · exact ⟨k1, rfl⟩
  · intro q hq
    simp only [merge] at hq
    by_cases hqb : q = b
    · subst hqb
      simp only [Function.update_self] at hq
      exact absurd hq hab
    · simp only [Function.update_of_ne hqb] at hq
      exact (hroot q).2 ⟨f2 q hq, hqb⟩
  · intro q
    have := f3 q
    simp only [relabel]
    split_ifs with h1
    · rw [bita, List.length_append]
      rw [h1] at this
      omega
    · by_cases h2 : ρ q = a
      · rw [h2, bita, List.length_append]
        rw [h2] at this
        omega
      · rw [bit _ h2 h1]; exact this
  · intro r hr
    obtain ⟨k1, k2⟩ := (hroot r).1 hr
    by_cases hra : r = a
    · subst hra
      rw [bita]
      refine List.nodup_append.2 ⟨h.nodup _ ha, h.nodup _ hb, ?_⟩
      rintro x hx y hy rfl
      rw [h.mem _ ha] at hx
      rw [h.mem _ hb] at hy
      exact hab (hx.symm.trans hy)
    · rw [bit r hra k2]; exact h.nodup r k1
  · intro r hr q
    obtain ⟨k1, k2⟩ := (hroot r).1 hr
    by_cases hra : r = a
    · subst hra
      rw [bita, List.mem_append, h.mem _ ha, h.mem _ hb]
      unfold relabel
      split_ifs with h1
      · simp [h1]
      · simp [h1]
    · rw [bit r hra k2, h.mem r k1]
      unfold relabel
      split_ifs with h1
      · rw [h1]; exact ⟨fun e => absurd e.symm k2, fun e => absurd e.symm hra⟩
      · rfl
  · intro r hr
    by_cases hrb : r = b
    · subst hrb; exact ⟨curb, opb⟩
    · have k1 : ρ r ≠ r := fun e => hr ((hroot r).2 ⟨e, hrb⟩)
      have hra : r ≠ a := by rintro rfl; exact k1 ha
      rw [cur r hrb, op r hra hrb]
      exact h.dead r k1
  · intro r i hr
    have hrb : r ≠ b := by rintro rfl; rw [curb] at hr; cases hr
    rw [cur r hrb] at hr
    rw [hslot i fun e => hrb (h.inj _ _ _ hr e)]
    exact h.slot r i hr
  · intro r r' i hr hr'
    have hrb : r ≠ b := by rintro rfl; rw [curb] at hr; cases hr
    have hrb' : r' ≠ b := by rintro rfl; rw [curb] at hr'; cases hr'
    rw [cur r hrb] at hr
    rw [cur r' hrb'] at hr'
    exact h.inj _ _ _ hr hr'
  · intro i hi
    have hi' : S.slots[i]? = some none ∧ i ∉ S.cur b := by
      simp only [merge] at hi
      cases hc : S.cur b with
      | none => rw [hc] at hi; exact ⟨hi, by simp⟩
      | some j =>
        rw [hc] at hi
        obtain ⟨k1, k2⟩ := getElem?_set_none hi
        exact ⟨k1, by simpa using fun e => k2 e.symm⟩
    obtain ⟨r, hr⟩ := h.owner i hi'.1
    have hrb : r ≠ b := by rintro rfl; exact hi'.2 hr
    exact ⟨r, by rw [cur r hrb]; exact hr⟩
  · intro r
    by_cases hrb : r = b
    · subst hrb; rw [curb, opb]; simp
    · rw [cur r hrb]
      by_cases hra : r = a
      · subst hra
        rw [opa, h.empty r]
        constructor
        · intro h1
          rw [h1, (h.empty b).1 (hcur ((h.empty r).2 h1))]
          rfl
        · intro h1; exact (List.append_eq_nil_iff.1 h1).1
      · rw [op r hra hrb]; exact h.empty r
  · intro r o ho
    by_cases hrb : r = b
    · subst hrb; rw [opb] at ho; simp at ho
    · by_cases hra : r = a
      · subst hra
        rw [opa] at ho
        unfold relabel
        rcases List.mem_append.1 ho with ho | ho
        · refine ⟨(h.use _ o ho).1, fun q hq => ?_⟩
          rw [(h.use _ o ho).2 q hq, if_neg hab]
        · refine ⟨(h.use _ o ho).1, fun q hq => ?_⟩
          rw [if_pos ((h.use _ o ho).2 q hq)]
      · rw [op r hra hrb] at ho
        refine ⟨(h.use _ o ho).1, fun q hq => ?_⟩
        unfold relabel
        rw [(h.use _ o ho).2 q hq, if_neg hrb]
  · intro r hr
    obtain ⟨k1, k2⟩ := (hroot r).1 hr
    by_cases hra : r = a
    · subst hra; rw [bita, List.length_append]; exact hsz
    · rw [bit r hra k2]; exact h.size r k1
  · intro q hq
    unfold relabel at hq ⊢
    split_ifs at hq ⊢ with h1
    · refine ⟨?_, hk.1⟩
      by_cases h2 : ρ q = q
      · rw [← h2, h1]; exact hk.2
      · exact (h.key q h2).1
    · exact h.key q hq
  · intro r hr
    have hrb : r ≠ b := by rintro rfl; exact hr curb
    rw [cur r hrb] at hr
    exact h.live r hr

/-! ### Releasing -/

/-- The roots after releasing block `r`. -/
def free (ρ : ℕ → ℕ) (r : ℕ) : ℕ → ℕ := fun q => if ρ q = r then q else ρ q

theorem release_eq (l : List ℕ) : ∀ S : St P, release S l =
    { S with parent := fun q => if q ∈ l then q else S.parent q, bits := fun q => if q ∈ l then [q] else S.bits q,
             cur := fun q => if q ∈ l then none else S.cur q, ops := fun q => if q ∈ l then [] else S.ops q } := by
  induction l with
  | nil => intro S; simp [release]
  | cons i l ih =>
    intro S
    rw [release, ih]
    congr 1
    · funext q
      by_cases h1 : q = i
      · subst h1; simp
      · by_cases h2 : q ∈ l <;> simp [h1, h2]
    · funext q
      by_cases h1 : q = i
      · subst h1; simp
      · by_cases h2 : q ∈ l <;> simp [h1, h2]
    · funext q
      by_cases h1 : q = i
      · subst h1; simp
      · by_cases h2 : q ∈ l <;> simp [h1, h2]
    · funext q
      by_cases h1 : q = i
      · subst h1; simp
      · by_cases h2 : q ∈ l <;> simp [h1, h2]

/-- The state after the block `r` at slot `i` has been finalised. -/
def closed (S : St P) (r i : ℕ) : St P := release { S with slots := S.slots.set i (some (close (S.ops r))) } (S.bits r)

theorem closed_inv {K : ℕ → Prop} {M : ℕ} (hM : 1 ≤ M) {S : St P} {ρ : ℕ → ℕ} (h : Inv K M S ρ) {r i : ℕ} (hr : S.cur r = some i) :
    Inv K M (closed S r i) (free ρ r) := by
  have hrr := h.root hr
  have hm := h.mem r hrr
  unfold closed
  rw [release_eq]
  simp only [hm]
  have hid := h.forest.idem
  obtain ⟨d, f1, f2, f3⟩ := h.forest
  simp only at f3
  have fr : ∀ q, ρ q ≠ r → free ρ r q = ρ q := fun q h => if_neg h
  have fr' : ∀ q, ρ q = r → free ρ r q = q := fun q h => if_pos h
  refine ⟨⟨fun q => if ρ q = r then 0 else d q, ?_, ?_, ?_⟩, ?_, ?_, ?_, ?_, ?_, ?_, ?_, ?_, ?_, ?_, ?_⟩
  · intro q hq
    by_cases hqr : ρ q = r
    · simp [hqr] at hq
    · simp only [hqr, if_false] at hq ⊢
      obtain ⟨k1, k2⟩ := f1 q hq
      rw [k2, if_neg hqr, fr q hqr, fr _ (by rwa [k2])]
      exact ⟨k1, k2⟩
  · intro q hq
    by_cases hqr : ρ q = r
    · exact fr' q hqr
    · simp only [hqr, if_false] at hq
      rw [fr q hqr]; exact f2 q hq
  · intro q
    by_cases hqr : ρ q = r
    · simp only [fr' q hqr, hqr, if_true]; simp
    · simp only [fr q hqr, hid, hqr, if_false]; exact f3 q
  · intro x hx
    by_cases hxr : ρ x = r
    · simp [hxr]
    · rw [fr x hxr] at hx
      simp only [hxr, if_false]
      exact h.nodup x hx
  · intro x hx q
    by_cases hxr : ρ x = r
    · simp only [hxr, if_true, List.mem_singleton]
      by_cases hqr : ρ q = r
      · rw [fr' q hqr]
      · rw [fr q hqr]
        constructor
        · rintro rfl; exact absurd hxr hqr
        · intro e; rw [← e, hid] at hxr; exact absurd hxr hqr
    · rw [fr x hxr] at hx
      simp only [hxr, if_false]
      rw [h.mem x hx]
      by_cases hqr : ρ q = r
      · rw [fr' q hqr]
        constructor
        · intro e; rw [← e, hid] at hxr; exact absurd hqr hxr
        · rintro rfl; exact absurd hqr hxr
      · rw [fr q hqr]
  · intro x hx
    by_cases hxr : ρ x = r
    · simp [hxr]
    · rw [fr x hxr] at hx
      simp only [hxr, if_false]
      exact h.dead x hx
  · intro x j hj
    by_cases hxr : ρ x = r
    · simp [hxr] at hj
    · simp only [hxr, if_false] at hj
      have : i ≠ j := by
        rintro rfl
        have := h.inj _ _ _ hj hr
        rw [this] at hxr
        exact hxr hrr
      simp only
      rw [List.getElem?_set_ne this]
      exact h.slot x j hj
  · intro x y j hx hy
    by_cases hxr : ρ x = r
    · simp [hxr] at hx
    · by_cases hyr : ρ y = r
      · simp [hyr] at hy
      · simp only [hxr, hyr, if_false] at hx hy
        exact h.inj _ _ _ hx hy
  · intro j hj
    obtain ⟨k1, k2⟩ := getElem?_set_none hj
    obtain ⟨x, hx⟩ := h.owner j k1
    have hxr : ρ x ≠ r := by
      intro e
      rw [h.root hx] at e
      rw [e, hr] at hx
      exact k2 (Option.some.inj hx).symm
    exact ⟨x, by simp only [hxr, if_false]; exact hx⟩
  · intro x
    by_cases hxr : ρ x = r
    · simp [hxr]
    · simp only [hxr, if_false]; exact h.empty x
  · intro x o ho
    by_cases hxr : ρ x = r
    · simp [hxr] at ho
    · simp only [hxr, if_false] at ho
      obtain ⟨k1, k2⟩ := h.use x o ho
      refine ⟨k1, fun q hq => ?_⟩
      have := k2 q hq
      rw [fr q, this]
      rw [this]
      rintro rfl
      exact hxr hrr
  · intro x hx
    by_cases hxr : ρ x = r
    · simp only [hxr, if_true, List.length_singleton]; exact hM
    · rw [fr x hxr] at hx
      simp only [hxr, if_false]
      exact h.size x hx
  · intro q hq
    by_cases hqr : ρ q = r
    · exact absurd (fr' q hqr) hq
    · rw [fr q hqr] at hq ⊢
      exact h.key q hq
  · intro x hx
    by_cases hxr : ρ x = r
    · simp [hxr] at hx
    · simp only [hxr, if_false] at hx
      exact h.live x hx

/-! ### Transitions -/

/-- What happens to the blocks between operations. -/
inductive Tr (K : ℕ → Prop) (M : ℕ) : St P → (ℕ → ℕ) → St P → (ℕ → ℕ) → Prop
  | refl (S : St P) (ρ : ℕ → ℕ) : Tr K M S ρ S ρ
  | path {S : St P} {ρ p' : ℕ → ℕ} (h : Inv K M { S with parent := p' } ρ) : Tr K M S ρ { S with parent := p' } ρ
  | merge {S : St P} {ρ : ℕ → ℕ} {a b : ℕ} (ha : ρ a = a) (hb : ρ b = b) (hab : a ≠ b) (hk : K a ∧ K b)
      (hsz : (S.bits a).length + (S.bits b).length ≤ M) (hcur : S.cur a = none → S.cur b = none) :
      Tr K M S ρ (merge S a b) (relabel ρ a b)
  | close {S : St P} {ρ : ℕ → ℕ} {r i : ℕ} (hr : S.cur r = some i) : Tr K M S ρ (closed S r i) (free ρ r)
  | trans {S S' S'' : St P} {ρ ρ' ρ'' : ℕ → ℕ} (h : Tr K M S ρ S' ρ') (h' : Tr K M S' ρ' S'' ρ'') : Tr K M S ρ S'' ρ''

theorem Tr.inv {K : ℕ → Prop} {M : ℕ} (hM : 1 ≤ M) {S S' : St P} {ρ ρ' : ℕ → ℕ} (h : Tr K M S ρ S' ρ') (hi : Inv K M S ρ) : Inv K M S' ρ' := by
  induction h with
  | refl => exact hi
  | path h => exact h
  | merge ha hb hab hk hsz hcur => exact merge_inv hi ha hb hab hk hsz hcur
  | close hr => exact closed_inv hM hi hr
  | trans _ _ ih ih' => exact ih' (ih hi)

/-- A property that the transitions keep. -/
theorem Tr.keep {K : ℕ → Prop} {M : ℕ} (hM : 1 ≤ M) {X : St P → (ℕ → ℕ) → Prop}
    (hp : ∀ S ρ p', X S ρ → X { S with parent := p' } ρ)
    (hm : ∀ S ρ a b, Inv K M S ρ → ρ a = a → ρ b = b → a ≠ b → (S.cur a = none → S.cur b = none) → X S ρ →
      X (Blocks.merge S a b) (relabel ρ a b))
    (hc : ∀ S ρ r i, Inv K M S ρ → S.cur r = some i → X S ρ → X (closed S r i) (free ρ r))
    {S S' : St P} {ρ ρ' : ℕ → ℕ} (h : Tr K M S ρ S' ρ') (hi : Inv K M S ρ) (hx : X S ρ) : X S' ρ' := by
  induction h with
  | refl => exact hx
  | path h => exact hp _ _ _ hx
  | merge ha hb hab hk hsz hcur => exact hm _ _ _ _ hi ha hb hab hcur hx
  | close hr => exact hc _ _ _ _ hi hr hx
  | trans h _ ih ih' => exact ih' (h.inv hM hi) (ih hi hx)

/-! ### `unionBlock` and `finalizeBlock` -/

/-- Every empty block except that of `x` has one qubit. -/
def Alone (S : St P) (ρ : ℕ → ℕ) (x : Option ℕ) : Prop :=
  ∀ r, ρ r = r → S.cur r = none → (∀ q ∈ x, r ≠ ρ q) → S.bits r = [r]

/-- No block has become stale, and only identities stand for themselves. -/
def Calm (S : St P) : Prop := S.stale = false ∧ ∀ (i : ℕ) o, S.slots[i]? = some (some o) → o.type = .i

theorem Calm.merge {S : St P} (h : Calm S) (a b : ℕ) : Calm (Blocks.merge S a b) := by
  refine ⟨?_, fun i o ho => ?_⟩
  · have : behind S a b = false := by
      unfold behind
      cases S.cur a with
      | none => rfl
      | some i =>
        simp only [List.any_eq_false]
        intro s hs
        cases s with
        | none => simp
        | some o =>
          obtain ⟨k, hk⟩ := List.mem_iff_getElem?.1 (List.mem_of_mem_drop hs)
          simp [h.2 k o hk]
    simp [Blocks.merge, h.1, this]
  · simp only [Blocks.merge] at ho
    cases hc : S.cur b with
    | none => rw [hc] at ho; exact h.2 i o ho
    | some j =>
      rw [hc] at ho
      simp only at ho
      rw [List.getElem?_set] at ho
      split_ifs at ho
      · cases ho; rfl
      · exact h.2 i o ho

/-- What `unionBlock` does to the blocks: `k` is the root of the new block. -/
structure Joined (S S' : St P) (ρ ρ' : ℕ → ℕ) (a b k : ℕ) : Prop where
  root : ∀ q, ρ' q = if ρ q = ρ a ∨ ρ q = ρ b then k else ρ q
  here : k = ρ a ∨ k = ρ b
  cur : ∀ r, r ≠ ρ a → r ≠ ρ b → S'.cur r = S.cur r
  bits : ∀ r, r ≠ ρ a → r ≠ ρ b → S'.bits r = S.bits r
  size : (S'.bits k).length = if ρ a = ρ b then (S.bits (ρ a)).length else (S.bits (ρ a)).length + (S.bits (ρ b)).length
  open_ : S'.cur k = none ↔ S.cur (ρ a) = none ∧ S.cur (ρ b) = none
  calm : Calm S → Calm S'

theorem union_spec {K : ℕ → Prop} {M f : ℕ} (hf : M ≤ f) {S : St P} {ρ : ℕ → ℕ} (h : Inv K M S ρ) (a b : ℕ) (hka : K (ρ a)) (hkb : K (ρ b))
    (hsz : ρ a ≠ ρ b → (S.bits (ρ a)).length + (S.bits (ρ b)).length ≤ M) :
    ∃ S' ρ' k, union f S a b = some S' ∧ Tr K M S ρ S' ρ' ∧ Joined S S' ρ ρ' a b k := by
  obtain ⟨p1, e1, i1⟩ := find_spec hf h a
  obtain ⟨p2, e2, i2⟩ := find_spec hf i1 b
  have hid := h.forest.idem
  have ht : Tr K M S ρ { S with parent := p2 } ρ := .path i2
  rw [union, e1, Option.bind_some, e2, Option.map_some]
  by_cases hab : ρ a = ρ b
  · simp only [hab, if_true]
    refine ⟨_, ρ, ρ b, rfl, ht, ⟨fun q => ?_, Or.inr rfl, fun _ _ _ => rfl, fun _ _ _ => rfl, ?_, ?_, id⟩⟩
    · split_ifs with h1
      · rcases h1 with h1 | h1
        · rw [h1, hab]
        · exact h1
      · rfl
    · simp [hab]
    · simp [hab]
  · simp only [hab, if_false]
    have key : ∀ x y, ρ x = x → ρ y = y → x ≠ y → K x ∧ K y → (S.cur x = none → S.cur y = none) → (S.bits x).length + (S.bits y).length ≤ M →
        ((x = ρ a ∧ y = ρ b) ∨ (x = ρ b ∧ y = ρ a)) →
        ∃ S' ρ' k, merge { S with parent := p2 } x y = S' ∧ Tr K M S ρ S' ρ' ∧ Joined S S' ρ ρ' a b k := by
      intro x y hx hy hxy hk hc hs hor
      refine ⟨_, relabel ρ x y, x, rfl, ht.trans (.merge hx hy hxy hk hs hc), ?_⟩
      refine ⟨fun q => ?_, ?_, fun r h1 h2 => ?_, fun r h1 h2 => ?_, ?_, ?_, fun h => Calm.merge (S := { S with parent := p2 }) h x y⟩
      · unfold relabel
        rcases hor with ⟨rfl, rfl⟩ | ⟨rfl, rfl⟩
        · by_cases k1 : ρ q = ρ b
          · simp [k1]
          · by_cases k2 : ρ q = ρ a
            · simp [k2, hab]
            · simp [k1, k2]
        · by_cases k1 : ρ q = ρ a
          · simp [k1]
          · by_cases k2 : ρ q = ρ b
            · simp [k2, Ne.symm hab]
            · simp [k1, k2]
      · rcases hor with ⟨rfl, rfl⟩ | ⟨rfl, rfl⟩
        · exact Or.inl rfl
        · exact Or.inr rfl
      · have : r ≠ y := by rcases hor with ⟨rfl, rfl⟩ | ⟨rfl, rfl⟩ <;> assumption
        simp [merge, Function.update_of_ne this]
      · have k1 : r ≠ y := by rcases hor with ⟨rfl, rfl⟩ | ⟨rfl, rfl⟩ <;> assumption
        have k2 : r ≠ x := by rcases hor with ⟨rfl, rfl⟩ | ⟨rfl, rfl⟩ <;> assumption
        simp [merge, Function.update_of_ne k1, Function.update_of_ne k2]
      · rw [if_neg hab]
        simp only [merge, Function.update_of_ne hxy, Function.update_self, List.length_append]
        rcases hor with ⟨rfl, rfl⟩ | ⟨rfl, rfl⟩
        · rfl
        · exact Nat.add_comm _ _
      · simp only [merge, Function.update_of_ne hxy]
        rcases hor with ⟨rfl, rfl⟩ | ⟨rfl, rfl⟩
        · exact ⟨fun h => ⟨h, hc h⟩, fun h => h.1⟩
        · exact ⟨fun h => ⟨hc h, h⟩, fun h => h.2⟩
    split_ifs with hl
    · obtain ⟨S', ρ', k, e, t, j⟩ := key (ρ b) (ρ a) (hid b) (hid a) (Ne.symm hab) ⟨hkb, hka⟩
        (fun hc => by rw [(h.empty _).1 hc] at hl; simp at hl)
        (by have := hsz hab; omega) (Or.inr ⟨rfl, rfl⟩)
      exact ⟨S', ρ', k, by rw [e], t, j⟩
    · obtain ⟨S', ρ', k, e, t, j⟩ := key (ρ a) (ρ b) (hid a) (hid b) hab ⟨hka, hkb⟩
        (fun hc => by
          rw [h.empty]
          have := (h.empty _).1 hc
          simp only [this, List.length_nil, Nat.not_lt, Nat.le_zero, List.length_eq_zero_iff] at hl
          exact hl)
        (hsz hab) (Or.inl ⟨rfl, rfl⟩)
      exact ⟨S', ρ', k, by rw [e], t, j⟩

/-- What `finalizeBlock` does to the blocks. -/
structure Freed (S S' : St P) (ρ ρ' : ℕ → ℕ) (q : ℕ) : Prop where
  root : ∀ x, ρ' x = if ρ x = ρ q ∧ S.cur (ρ q) ≠ none then x else ρ x
  cur : ∀ r, S'.cur r = if ρ r = ρ q then none else S.cur r
  bits : ∀ r, S'.bits r = if ρ r = ρ q ∧ S.cur (ρ q) ≠ none then [r] else S.bits r

theorem finalize_spec {K : ℕ → Prop} {M f : ℕ} (hf : M ≤ f) {S : St P} {ρ : ℕ → ℕ} (h : Inv K M S ρ) (q : ℕ) :
    ∃ S' ρ', finalize f S q = some S' ∧ Tr K M S ρ S' ρ' ∧ Freed S S' ρ ρ' q := by
  obtain ⟨p1, e1, i1⟩ := find_spec hf h q
  rw [finalize, e1, Option.map_some]
  cases hc : S.cur (ρ q) with
  | none =>
    refine ⟨_, ρ, rfl, .path i1, ⟨fun x => by simp [hc], fun r => ?_, fun r => by simp [hc]⟩⟩
    split_ifs with h1
    · by_cases h2 : ρ r = r
      · rw [← h2, h1]; exact hc
      · exact (h.dead r h2).1
    · rfl
  | some i =>
    refine ⟨closed { S with parent := p1 } (ρ q) i, free ρ (ρ q), rfl,
      .trans (.path i1) (.close (S := { S with parent := p1 }) hc), ?_⟩
    have hm := h.mem (ρ q) (h.forest.idem q)
    unfold closed
    rw [release_eq]
    simp only [hm]
    refine ⟨fun x => ?_, fun r => rfl, fun r => ?_⟩
    · simp [free, hc]
    · simp [hc]

end MQT.Opt.Blocks
