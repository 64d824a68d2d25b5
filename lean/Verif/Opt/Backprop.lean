/-
`backpropagateOutputPermutation` (CircuitOptimizer.cpp 1199-1311).

Simplifications: a permutation is a partial map; `std::unordered_set` is a finite set, and `*missingLogicalQubits.begin()`
is the value of an arbitrary function `pick`.  `begin()` of an empty set is undefined.
-/
import Verif.Opt.Elide
import Verif.Common.Res
import Mathlib.Data.Set.Card

set_option autoImplicit false

noncomputable section

open Classical

namespace MQT.Opt

open MQT.IR
open Function (update)

namespace Backprop

variable {P : Type}

/-- `permutation` and `missingLogicalQubits`. -/
structure St where
  perm : PMap
  missing : Finset ℕ

/-- The logical qubit for the physical one `q` (1222-1230, 1242-1250, 1299-1306). -/
def take (pick : Finset ℕ → ℕ) (m : Finset ℕ) (q : ℕ) : MQT.Res (ℕ × Finset ℕ) :=
  if q ∈ m then .ok (q, m.erase q)
  else if m = ∅ then .ub
  else .ok (pick m, m.erase (pick m))

/-- A SWAP of `a` and `b` (1215-1262). -/
def swapBack (pick : Finset ℕ → ℕ) (a b : ℕ) (s : St) : MQT.Res St :=
  match s.perm a, s.perm b with
  | some x, some y => .ok { s with perm := update (update s.perm a (some y)) b (some x) }
  | some x, none => MQT.Res.bind (take pick s.missing a) fun r => .ok ⟨update (update s.perm b (some x)) a (some r.1), r.2⟩
  | none, some y => MQT.Res.bind (take pick s.missing b) fun r => .ok ⟨update (update s.perm a (some y)) b (some r.1), r.2⟩
  | none, none => .ok s

mutual
/-- The function in the anonymous namespace (1201-1266), for one operation. -/
def backOp (pick : Finset ℕ → ℕ) : Op P → St → MQT.Res St
  | .compound ops _, s => backOps pick ops s
  | .std o, s =>
    if o.type = .swap ∧ o.controls = ∅ then
      match o.targets with
      | [a, b] => swapBack pick a b s
      | _ => .ok s
    else .ok s
  | .measure _ _, s => .ok s
  | .reset _, s => .ok s
  | .classic _ _, s => .ok s
/-- From the last operation to the first. -/
def backOps (pick : Finset ℕ → ℕ) : List (Op P) → St → MQT.Res St
  | [], s => .ok s
  | o :: l, s => MQT.Res.bind (backOps pick l s) (backOp pick o)
end

/-- Entries for the physical qubits without one (1296-1307). -/
def fill (pick : Finset ℕ → ℕ) : ℕ → St → MQT.Res St
  | 0, s => .ok s
  | i + 1, s => MQT.Res.bind (fill pick i s) fun s =>
    if s.perm i = none then MQT.Res.bind (take pick s.missing i) fun r => .ok ⟨update s.perm i (some r.1), r.2⟩ else .ok s

/-- Logical qubits not in the output permutation (1272-1281). -/
def unused (n : ℕ) (out : PMap) : Finset ℕ := (Finset.range n).filter fun l => ∀ p, out p ≠ some l

/-- `backpropagateOutputPermutation` (1268-1310): the new initial layout of a circuit with `n` qubits. -/
def backpropagate (pick : Finset ℕ → ℕ) (n : ℕ) (out : PMap) (ops : List (Op P)) : MQT.Res PMap :=
  MQT.Res.bind (backOps pick ops ⟨out, unused n out⟩) fun s =>
  if {p | s.perm p ≠ none}.ncard = n then .ok s.perm
  else MQT.Res.bind (fill pick n s) fun s => .ok s.perm

/-! ### Specification -/

mutual
/-- Where the SWAPs of an operation take the qubits: the layout after it. -/
def forwardOp : Op P → PMap → PMap
  | .compound ops _, m => forwardOps ops m
  | .std o, m =>
    if o.type = .swap ∧ o.controls = ∅ then
      match o.targets with
      | [a, b] => m ∘ Equiv.swap a b
      | _ => m
    else m
  | .measure _ _, m => m
  | .reset _, m => m
  | .classic _ _, m => m
def forwardOps : List (Op P) → PMap → PMap
  | [], m => m
  | o :: l, m => forwardOps l (forwardOp o m)
end

mutual
/-- SWAPs are on qubits below `n`. -/
def Within (n : ℕ) : Op P → Prop
  | .compound ops _ => WithinL n ops
  | .std o => o.type = .swap → ∀ q ∈ o.targets, q < n
  | .measure _ _ => True
  | .reset _ => True
  | .classic _ _ => True
def WithinL (n : ℕ) : List (Op P) → Prop
  | [] => True
  | o :: l => Within n o ∧ WithinL n l
end

/-- `m'` has the entries of `m`. -/
def Extends (m m' : PMap) : Prop := ∀ p v, m p = some v → m' p = some v

/-- A partial map of qubits below `n`. -/
structure Partial (n : ℕ) (m : PMap) : Prop where
  inj : ∀ p p' v, m p = some v → m p' = some v → p = p'
  dom : ∀ p v, m p = some v → p < n
  img : ∀ p v, m p = some v → v < n

/-! ### Proof -/

structure Inv (n : ℕ) (s : St) : Prop extends Partial n s.perm where
  miss : ∀ l, l ∈ s.missing ↔ l < n ∧ ∀ p, s.perm p ≠ some l

theorem inv_start {n : ℕ} {out : PMap} (h : Partial n out) : Inv n ⟨out, unused n out⟩ :=
  ⟨h, fun l => by simp [unused]⟩

/-- If there is no logical qubit left, all physical qubits have one. -/
theorem Inv.full {n : ℕ} {s : St} (h : Inv n s) (he : s.missing = ∅) {q : ℕ} (hq : q < n) : s.perm q ≠ none := by
  intro hn
  have h1 : ∀ l : Fin n, ∃ p : Fin n, s.perm p = some l.1 := by
    intro l
    by_contra hc
    have : l.1 ∈ s.missing := (h.miss l).2 ⟨l.2, fun p hp => hc ⟨⟨p, h.dom p _ hp⟩, hp⟩⟩
    rw [he] at this
    simp at this
  choose f hf using h1
  have hi : Function.Injective f := by
    intro a b hab
    have h2 := hf a
    rw [hab, hf b] at h2
    injection h2 with h2
    exact Fin.ext h2.symm
  obtain ⟨l, hl⟩ := (Finite.injective_iff_surjective.1 hi) ⟨q, hq⟩
  have := hf l
  rw [hl, hn] at this
  cases this

theorem take_ok {n : ℕ} {pick : Finset ℕ → ℕ} (hpick : ∀ m : Finset ℕ, m.Nonempty → pick m ∈ m) {s : St} (h : Inv n s) {q r : ℕ}
    (hr : r < n) (hrn : s.perm r = none) : ∃ v, take pick s.missing q = .ok (v, s.missing.erase v) ∧ v ∈ s.missing := by
  unfold take
  by_cases h1 : q ∈ s.missing
  · rw [if_pos h1]; exact ⟨q, rfl, h1⟩
  · rw [if_neg h1]
    have h2 : s.missing ≠ ∅ := fun he => h.full he hr hrn
    rw [if_neg h2]
    exact ⟨_, rfl, hpick _ (Finset.nonempty_iff_ne_empty.2 h2)⟩

/-- An entry that is moved, and a new one. -/
theorem inv_move {n : ℕ} {s : St} (h : Inv n s) {a b x v : ℕ} (hb : b < n) (ea : s.perm a = some x) (eb : s.perm b = none)
    (hv : v ∈ s.missing) : Inv n ⟨update (update s.perm b (some x)) a (some v), s.missing.erase v⟩ := by
  have hab : a ≠ b := by rintro rfl; rw [ea] at eb; cases eb
  obtain ⟨hv1, hv2⟩ := (h.miss v).1 hv
  have hx := h.img _ _ ea
  have ha := h.dom _ _ ea
  have key : ∀ p w, update (update s.perm b (some x)) a (some v) p = some w →
      (p = a ∧ w = v) ∨ (p = b ∧ w = x) ∨ (p ≠ a ∧ p ≠ b ∧ s.perm p = some w) := by
    intro p w hp
    simp only [Function.update_apply] at hp
    split_ifs at hp <;> grind
  refine ⟨⟨?_, ?_, ?_⟩, ?_⟩
  · intro p p' w h1 h2
    have := key p w h1
    have := key p' w h2
    have := h.inj a p w
    have := h.inj a p' w
    have := h.inj p p' w
    grind
  · intro p w h1
    have := key p w h1
    have := h.dom p w
    grind
  · intro p w h1
    have := key p w h1
    have := h.img p w
    grind
  · intro l
    rw [Finset.mem_erase, h.miss]
    constructor
    · rintro ⟨h1, h2, h3⟩
      refine ⟨h2, fun p hp => ?_⟩
      have := key p l hp
      have := h3 a
      have := h3 p
      grind
    · rintro ⟨h1, h2⟩
      simp only at h2
      refine ⟨?_, h1, fun p hp => ?_⟩
      · rintro rfl
        exact h2 a (by rw [Function.update_self])
      · by_cases hpa : p = a
        · subst hpa
          rw [ea] at hp
          exact h2 b (by rw [Function.update_of_ne hab.symm, Function.update_self]; exact hp)
        · refine h2 p ?_
          have hpb : p ≠ b := by rintro rfl; rw [eb] at hp; cases hp
          rw [Function.update_of_ne hpa, Function.update_of_ne hpb]
          exact hp

theorem inv_exchange {n : ℕ} {s : St} (h : Inv n s) {a b x y : ℕ} (ea : s.perm a = some x) (eb : s.perm b = some y) :
    Inv n { s with perm := update (update s.perm a (some y)) b (some x) } := by
  have e : update (update s.perm a (some y)) b (some x) = s.perm ∘ Equiv.swap a b := by
    funext p
    simp only [Function.update_apply, Function.comp, Equiv.swap_apply_def]
    grind
  rw [e]
  refine ⟨⟨?_, ?_, ?_⟩, ?_⟩
  · intro p p' w h1 h2
    exact (Equiv.swap a b).injective (h.inj _ _ _ h1 h2)
  · intro p w h1
    have h2 := h.dom _ _ h1
    have := h.dom _ _ ea
    have := h.dom _ _ eb
    rw [Equiv.swap_apply_def] at h2
    grind
  · intro p w h1
    exact h.img _ _ h1
  · intro l
    rw [h.miss]
    constructor
    · rintro ⟨h1, h2⟩; exact ⟨h1, fun p => h2 _⟩
    · rintro ⟨h1, h2⟩
      refine ⟨h1, fun p hp => h2 (Equiv.swap a b p) ?_⟩
      simp [hp]

/-- What holds of a step: it returns, and a layout that has the entries after it is taken to one that has those before. -/
def Step (n : ℕ) (s : St) (r : MQT.Res St) (f : PMap → PMap) : Prop :=
  ∃ s', r = .ok s' ∧ Inv n s' ∧ ∀ L, Extends s'.perm L → Extends s.perm (f L)

theorem swapBack_step {n : ℕ} {pick : Finset ℕ → ℕ} (hpick : ∀ m : Finset ℕ, m.Nonempty → pick m ∈ m) {s : St} (h : Inv n s)
    {a b : ℕ} (ha : a < n) (hb : b < n) : Step n s (swapBack pick a b s) (· ∘ Equiv.swap a b) := by
  unfold swapBack
  cases ea : s.perm a with
  | some x =>
    cases eb : s.perm b with
    | some y =>
      refine ⟨_, rfl, inv_exchange h ea eb, fun L hL p v hp => hL _ _ ?_⟩
      simp only [Function.update_apply, Equiv.swap_apply_def]
      grind
    | none =>
      obtain ⟨v, e, hv⟩ := take_ok hpick h (q := a) hb eb
      rw [e]
      refine ⟨_, rfl, inv_move h hb ea eb hv, fun L hL p w hp => hL _ _ ?_⟩
      simp only [Function.update_apply, Equiv.swap_apply_def]
      grind
  | none =>
    cases eb : s.perm b with
    | some y =>
      obtain ⟨v, e, hv⟩ := take_ok hpick h (q := b) ha ea
      rw [e]
      refine ⟨_, rfl, inv_move h ha eb ea hv, fun L hL p w hp => hL _ _ ?_⟩
      simp only [Function.update_apply, Equiv.swap_apply_def]
      grind
    | none =>
      refine ⟨_, rfl, h, fun L hL p v hp => hL _ _ ?_⟩
      simp only [Equiv.swap_apply_def]
      grind

mutual
theorem backOp_step {n : ℕ} {pick : Finset ℕ → ℕ} (hpick : ∀ m : Finset ℕ, m.Nonempty → pick m ∈ m) (o : Op P) (hw : Within n o)
    {s : St} (h : Inv n s) : Step n s (backOp pick o s) (forwardOp o) := by
  have id : Step n s (.ok s) fun m => m := ⟨s, rfl, h, fun L hL => hL⟩
  match o with
  | .compound ops _ =>
    rw [backOp]
    have := backOps_step hpick ops (by rw [Within] at hw; exact hw) h
    have e : (forwardOp (.compound ops ‹_›) : PMap → PMap) = forwardOps ops := by funext m; rw [forwardOp]
    rw [e]
    exact this
  | .std o =>
    rw [backOp]
    have e : (forwardOp (.std o) : PMap → PMap) = fun m => if o.type = .swap ∧ o.controls = ∅ then
      match o.targets with
      | [a, b] => m ∘ Equiv.swap a b
      | _ => m
      else m := by funext m; rw [forwardOp]
    rw [e]
    rw [Within] at hw
    by_cases hs : o.type = .swap ∧ o.controls = ∅
    · simp only [if_pos hs]
      have hw := hw hs.1
      match ht : o.targets with
      | [a, b] =>
        rw [ht] at hw
        exact swapBack_step hpick h (hw a (by simp)) (hw b (by simp))
      | [] => exact id
      | [_] => exact id
      | _ :: _ :: _ :: _ => exact id
    · simp only [if_neg hs]
      exact id
  | .measure _ _ => rw [backOp]; exact ⟨s, rfl, h, fun L hL => by rw [forwardOp]; exact hL⟩
  | .reset _ => rw [backOp]; exact ⟨s, rfl, h, fun L hL => by rw [forwardOp]; exact hL⟩
  | .classic _ _ => rw [backOp]; exact ⟨s, rfl, h, fun L hL => by rw [forwardOp]; exact hL⟩
theorem backOps_step {n : ℕ} {pick : Finset ℕ → ℕ} (hpick : ∀ m : Finset ℕ, m.Nonempty → pick m ∈ m) (l : List (Op P))
    (hw : WithinL n l) {s : St} (h : Inv n s) : Step n s (backOps pick l s) (forwardOps l) := by
  match l with
  | [] => rw [backOps]; exact ⟨s, rfl, h, fun L hL => by rw [forwardOps]; exact hL⟩
  | o :: l =>
    rw [WithinL] at hw
    obtain ⟨s1, e1, i1, h1⟩ := backOps_step hpick l hw.2 h
    obtain ⟨s2, e2, i2, h2⟩ := backOp_step hpick o hw.1 i1
    refine ⟨s2, by rw [backOps, e1]; exact e2, i2, fun L hL => ?_⟩
    rw [forwardOps]
    exact h1 _ (h2 L hL)
end

theorem fill_step {n : ℕ} {pick : Finset ℕ → ℕ} (hpick : ∀ m : Finset ℕ, m.Nonempty → pick m ∈ m) {s : St} (h : Inv n s) :
    ∀ k ≤ n, ∃ s', fill pick k s = .ok s' ∧ Inv n s' ∧ Extends s.perm s'.perm ∧ ∀ i < k, s'.perm i ≠ none := by
  intro k
  induction k with
  | zero => exact fun _ => ⟨s, rfl, h, fun _ _ h => h, fun i hi => absurd hi (by omega)⟩
  | succ k ih =>
    intro hk
    obtain ⟨s1, e1, i1, x1, f1⟩ := ih (by omega)
    rw [fill, e1]
    simp only [MQT.Res.bind]
    by_cases hn : s1.perm k = none
    · rw [if_pos hn]
      obtain ⟨v, e, hv⟩ := take_ok hpick i1 (q := k) (r := k) (by omega) hn
      rw [e]
      obtain ⟨hv1, hv2⟩ := (i1.miss v).1 hv
      have key : ∀ p w, update s1.perm k (some v) p = some w → (p = k ∧ w = v) ∨ (p ≠ k ∧ s1.perm p = some w) := by
        intro p w hp
        simp only [Function.update_apply] at hp
        split_ifs at hp <;> grind
      refine ⟨_, rfl, ⟨⟨?_, ?_, ?_⟩, ?_⟩, ?_, ?_⟩
      · intro p p' w h1 h2
        have := key p w h1
        have := key p' w h2
        have := i1.inj p p' w
        have := hv2 p
        have := hv2 p'
        grind
      · intro p w h1
        have := key p w h1
        have := i1.dom p w
        grind
      · intro p w h1
        have := key p w h1
        have := i1.img p w
        grind
      · intro l
        rw [Finset.mem_erase, i1.miss]
        constructor
        · rintro ⟨h1, h2, h3⟩
          refine ⟨h2, fun p hp => ?_⟩
          have := key p l hp
          have := h3 p
          grind
        · rintro ⟨h1, h2⟩
          simp only at h2
          refine ⟨?_, h1, fun p hp => ?_⟩
          · rintro rfl
            exact h2 k (by rw [Function.update_self])
          · have hpk : p ≠ k := by rintro rfl; rw [hn] at hp; cases hp
            exact h2 p (by rw [Function.update_of_ne hpk]; exact hp)
      · intro p w hp
        have := x1 p w hp
        have hpk : p ≠ k := by rintro rfl; rw [hn] at this; cases this
        simp only
        rw [Function.update_of_ne hpk]
        exact this
      · intro i hi
        simp only [Function.update_apply]
        split_ifs with hik
        · simp
        · exact f1 i (by omega)
    · rw [if_neg hn]
      refine ⟨s1, rfl, i1, x1, fun i hi => ?_⟩
      by_cases hik : i = k
      · subst hik; exact hn
      · exact f1 i (by omega)

/-- A partial map with `n` entries is total. -/
theorem Partial.total {n : ℕ} {m : PMap} (h : Partial n m) (hc : {p | m p ≠ none}.ncard = n) {i : ℕ} (hi : i < n) : m i ≠ none := by
  have hs : {p | m p ≠ none} ⊆ (Finset.range n : Set ℕ) := by
    intro p hp
    obtain ⟨v, hv⟩ := Option.ne_none_iff_exists'.1 hp
    simpa using h.dom p v hv
  have := Set.eq_of_subset_of_ncard_le hs (by rw [hc, Set.ncard_coe_finset]; simp) (Finset.finite_toSet _)
  have hm : i ∈ (Finset.range n : Set ℕ) := by simpa using hi
  rw [← this] at hm
  exact hm

theorem backpropagate_spec {n : ℕ} {pick : Finset ℕ → ℕ} (hpick : ∀ m : Finset ℕ, m.Nonempty → pick m ∈ m) {out : PMap}
    (ho : Partial n out) {ops : List (Op P)} (hw : WithinL n ops) :
    ∃ L, backpropagate pick n out ops = .ok L ∧ Partial n L ∧ (∀ i < n, L i ≠ none) ∧ Extends out (forwardOps ops L) := by
  obtain ⟨s, e, i, h⟩ := backOps_step hpick ops hw (inv_start ho)
  unfold backpropagate
  rw [e]
  simp only [MQT.Res.bind]
  by_cases hc : {p | s.perm p ≠ none}.ncard = n
  · rw [if_pos hc]
    exact ⟨_, rfl, i.toPartial, fun j hj => i.toPartial.total hc hj, h _ fun _ _ h => h⟩
  · rw [if_neg hc]
    obtain ⟨s', e', i', x, t⟩ := fill_step hpick i n le_rfl
    rw [e']
    exact ⟨_, rfl, i'.toPartial, t, h _ x⟩

/-! ### Eliding the SWAPs -/

mutual
theorem elideOp_forward {m m' : PMap} {o : Op P} {r : List (Op P)} (h : elideOp m o = some (m', r)) : m' = forwardOp o m := by
  have line : ∀ e : Op P, (applyLine m e).map (fun e => (m, [e])) = some (m', r) → m' = m := by
    intro e h
    rw [Option.map_eq_some_iff] at h
    obtain ⟨e', -, h2⟩ := h
    injection h2 with h2 _
    exact h2.symm
  match o with
  | .compound ops b =>
    rw [elideOp, Option.map_eq_some_iff] at h
    obtain ⟨⟨m1, r1⟩, h1, h2⟩ := h
    injection h2 with h2 _
    subst h2
    rw [forwardOp]
    exact elideOps_forward h1
  | .std o =>
    rw [elideOp] at h
    rw [forwardOp]
    by_cases hs : o.type = .swap ∧ o.controls.card = 0
    · rw [if_pos hs] at h
      rw [if_pos ⟨hs.1, Finset.card_eq_zero.1 hs.2⟩]
      split at h
      · rename_i a b hab
        split_ifs at h with hd
        injection h with h
        injection h with h2 _
        subst h2
        rw [hab]
        funext p
        simp only [PMap.swap, Function.update_apply, Function.comp, Equiv.swap_apply_def]
        grind
      · cases h
    · rw [if_neg hs] at h
      rw [if_neg (fun hn => hs ⟨hn.1, Finset.card_eq_zero.2 hn.2⟩)]
      exact line _ h
  | .measure qs cs => rw [elideOp] at h; rw [forwardOp]; exact line _ h
  | .reset qs => rw [elideOp] at h; rw [forwardOp]; exact line _ h
  | .classic p e => rw [elideOp] at h; rw [forwardOp]; exact line _ h
theorem elideOps_forward {m m' : PMap} {l r : List (Op P)} (h : elideOps m l = some (m', r)) : m' = forwardOps l m := by
  match l with
  | [] =>
    rw [elideOps] at h
    injection h with h
    injection h with h _
    rw [forwardOps, h]
  | e :: l =>
    rw [elideOps] at h
    split at h
    · rename_i m1 r1 h1
      split at h
      · rename_i m2 r2 h2
        injection h with h
        injection h with h _
        rw [forwardOps, ← elideOp_forward h1, ← elideOps_forward h2, h]
      · cases h
    · cases h
end

end Backprop

end MQT.Opt
