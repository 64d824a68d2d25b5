/-
What `collectBlocks` does to the operations and to the meaning of a circuit.
-/
import Verif.Opt.BlocksFlow
import Verif.Opt.Defer

set_option autoImplicit false

namespace MQT.Opt.Blocks

open MQT.IR
open MQT.Opt.Defer (unitary unitaryL)
open Function (update)

variable {P : Type}

/-! ### The operations in the slots -/

/-- `L` has the operations of every slot; the slot of an open block has the operations of the block. -/
structure Rep (S : St P) (L : List (List (Op P))) : Prop where
  len : L.length = S.slots.length
  shut : ∀ (i : ℕ) o, S.slots[i]? = some (some o) → L[i]? = some [o]
  here : ∀ r i, S.cur r = some i → L[i]? = some (S.ops r)

theorem rep_init : Rep ({} : St P) [] := ⟨rfl, fun i o h => by simp at h, fun r i h => by cases h⟩

theorem Rep.merge_none {K : ℕ → Prop} {M : ℕ} {S : St P} {ρ : ℕ → ℕ} {L : List (List (Op P))} (hi : Inv K M S ρ) (h : Rep S L) {a b : ℕ}
    (hb : S.cur b = none) : Rep (Blocks.merge S a b) L := by
  have ob := (hi.empty b).1 hb
  refine ⟨by simp [Blocks.merge, hb, h.len], fun i o ho => ?_, fun r i hr => ?_⟩
  · simp only [Blocks.merge, hb] at ho; exact h.shut i o ho
  · simp only [Blocks.merge] at hr ⊢
    by_cases hrb : r = b
    · subst hrb; simp at hr
    · rw [Function.update_of_ne hrb] at hr ⊢
      by_cases hra : r = a
      · subst hra; rw [Function.update_self, ob, List.append_nil]; exact h.here r i hr
      · rw [Function.update_of_ne hra]; exact h.here r i hr

theorem Rep.merge_some {K : ℕ → Prop} {M : ℕ} {S : St P} {ρ : ℕ → ℕ} {L : List (List (Op P))} (hi : Inv K M S ρ) (h : Rep S L) {a b i j : ℕ}
    (hab : a ≠ b) (ha : S.cur a = some i) (hb : S.cur b = some j) :
    Rep (Blocks.merge S a b) ((L.set i (S.ops a ++ S.ops b)).set j [ident]) := by
  have hij : i ≠ j := by rintro rfl; exact hab (hi.inj _ _ _ ha hb)
  have hil := hi.lt ha
  have hjl := hi.lt hb
  refine ⟨by simp [Blocks.merge, hb, h.len], fun k o ho => ?_, fun r k hr => ?_⟩
  · simp only [Blocks.merge, hb] at ho
    by_cases hkj : j = k
    · subst hkj
      rw [List.getElem?_set_self (by simpa using hjl)] at ho
      rw [List.getElem?_set_self (by simpa [h.len] using hjl)]
      cases ho
      rfl
    · rw [List.getElem?_set_ne hkj] at ho ⊢
      have hki : i ≠ k := by rintro rfl; rw [hi.slot _ _ ha] at ho; cases ho
      rw [List.getElem?_set_ne hki]
      exact h.shut k o ho
  · simp only [Blocks.merge] at hr ⊢
    by_cases hrb : r = b
    · subst hrb; simp at hr
    · rw [Function.update_of_ne hrb] at hr ⊢
      have hjk : j ≠ k := by rintro rfl; exact hrb (hi.inj _ _ _ hr hb)
      rw [List.getElem?_set_ne hjk]
      by_cases hra : r = a
      · subst hra
        rw [ha] at hr
        cases hr
        rw [Function.update_self, List.getElem?_set_self (by rw [h.len]; exact hil)]
      · have hik : i ≠ k := by rintro rfl; exact hra (hi.inj _ _ _ hr ha)
        rw [Function.update_of_ne hra, List.getElem?_set_ne hik]
        exact h.here r k hr

theorem Rep.close {K : ℕ → Prop} {M : ℕ} {S : St P} {ρ : ℕ → ℕ} {L : List (List (Op P))} (hi : Inv K M S ρ) (h : Rep S L) {r i : ℕ}
    (hr : S.cur r = some i) : Rep (closed S r i) (L.set i [Blocks.close (S.ops r)]) := by
  have hil := hi.lt hr
  have hrr := hi.root hr
  unfold closed
  rw [release_eq]
  simp only [hi.mem r hrr]
  refine ⟨by simp [h.len], fun k o ho => ?_, fun x k hx => ?_⟩
  · by_cases hk : i = k
    · subst hk
      simp only [List.getElem?_set_self hil] at ho
      rw [List.getElem?_set_self (by rw [h.len]; exact hil)]
      cases ho
      rfl
    · simp only [List.getElem?_set_ne hk] at ho ⊢
      exact h.shut k o ho
  · by_cases h1 : ρ x = r
    · simp [h1] at hx
    · simp only [h1, if_false] at hx ⊢
      have hik : i ≠ k := by
        rintro rfl
        have := hi.inj _ _ _ hx hr
        rw [this] at h1
        exact h1 hrr
      rw [List.getElem?_set_ne hik]
      exact h.here x k hx

theorem Rep.app {K : ℕ → Prop} {M : ℕ} {S : St P} {ρ : ℕ → ℕ} {L : List (List (Op P))} (hi : Inv K M S ρ) (h : Rep S L) (o : Op P) :
    Rep (Blocks.app S o) (L ++ [[o]]) := by
  refine ⟨by simp [Blocks.app, h.len], fun k o' ho => ?_, fun x k hx => ?_⟩
  · simp only [Blocks.app] at ho
    by_cases hk : k < S.slots.length
    · rw [List.getElem?_append_left hk] at ho
      rw [List.getElem?_append_left (by rw [h.len]; exact hk)]
      exact h.shut k o' ho
    · have := (List.getElem?_eq_some_iff.1 ho).1
      rw [List.length_append, List.length_singleton] at this
      have : k = S.slots.length := by omega
      subst this
      rw [← h.len, List.getElem?_concat_length]
      rw [List.getElem?_concat_length] at ho
      cases ho
      rfl
  · have hk := hi.lt (S := S) hx
    rw [List.getElem?_append_left (by rw [h.len]; exact hk)]
    exact h.here x k hx

theorem Rep.put_none {K : ℕ → Prop} {M : ℕ} {S : St P} {ρ : ℕ → ℕ} {L : List (List (Op P))} (hi : Inv K M S ρ) (h : Rep S L) {r : ℕ}
    (hr : S.cur r = none) (o : Op P) : Rep (put S r o) (L ++ [[o]]) := by
  unfold put
  rw [hr]
  simp only
  refine ⟨by simp [h.len], fun k o' ho => ?_, fun x k hx => ?_⟩
  · by_cases hk : k < S.slots.length
    · simp only [List.getElem?_append_left hk] at ho
      rw [List.getElem?_append_left (by rw [h.len]; exact hk)]
      exact h.shut k o' ho
    · have := (List.getElem?_eq_some_iff.1 ho).1
      rw [List.length_append, List.length_singleton] at this
      have : k = S.slots.length := by omega
      subst this
      simp at ho
  · by_cases hxr : x = r
    · subst hxr
      simp only [Function.update_self, Option.some.injEq] at hx
      subst hx
      simp only [Function.update_self]
      rw [(hi.empty x).1 hr, ← h.len]
      simp
    · simp only [Function.update_of_ne hxr] at hx ⊢
      have hk := hi.lt hx
      rw [List.getElem?_append_left (by rw [h.len]; exact hk)]
      exact h.here x k hx

theorem Rep.put_some {K : ℕ → Prop} {M : ℕ} {S : St P} {ρ : ℕ → ℕ} {L : List (List (Op P))} (hi : Inv K M S ρ) (h : Rep S L) {r i : ℕ}
    (hr : S.cur r = some i) (o : Op P) : Rep (put S r o) (L.set i (S.ops r ++ [o])) := by
  unfold put
  rw [hr]
  simp only
  have hil := hi.lt hr
  refine ⟨by simp [h.len], fun k o' ho => ?_, fun x k hx => ?_⟩
  · have hik : i ≠ k := by rintro rfl; simp only [hi.slot _ _ hr] at ho; cases ho
    rw [List.getElem?_set_ne hik]
    exact h.shut k o' ho
  · by_cases hxr : x = r
    · subst hxr
      simp only at hx
      rw [hr] at hx
      cases hx
      simp only [Function.update_self]
      rw [List.getElem?_set_self (by rw [h.len]; exact hil)]
    · simp only [Function.update_of_ne hxr] at hx ⊢
      have hik : i ≠ k := by rintro rfl; exact hxr (hi.inj _ _ _ hx hr)
      rw [List.getElem?_set_ne hik]
      exact h.here x k hx

/-! ### Nothing is lost -/

mutual
/-- The operations inside that are neither compound operations nor identities. -/
def leaves : Op P → List (Op P)
  | .std s => if s.type = .i then [] else [.std s]
  | .compound l _ => leavesL l
  | .measure qs cs => [.measure qs cs]
  | .reset qs => [.reset qs]
  | .classic p o => [.classic p o]
def leavesL : List (Op P) → List (Op P)
  | [] => []
  | o :: l => leaves o ++ leavesL l
end

theorem leavesL_append (l l' : List (Op P)) : leavesL (l ++ l') = leavesL l ++ leavesL l' := by
  induction l with
  | nil => rfl
  | cons o l ih => rw [List.cons_append, leavesL, leavesL, ih, List.append_assoc]

theorem leaves_ident : leaves (ident : Op P) = [] := by simp [ident, leaves]

theorem leavesL_perm {l l' : List (Op P)} (h : l.Perm l') : (leavesL l).Perm (leavesL l') := by
  induction h with
  | nil => exact .nil
  | cons x _ ih => rw [leavesL, leavesL]; exact ih.append_left _
  | swap x y l =>
    simp only [leavesL]
    rw [← List.append_assoc, ← List.append_assoc]
    exact List.perm_append_comm.append_right _
  | trans _ _ ih ih' => exact ih.trans ih'

theorem single_ind {X : List (Op P) → Op P → Prop} (h1 : ∀ o, X [o] o) (h2 : ∀ l b o, X l o → X [.compound l b] o) :
    ∀ (l : List (Op P)) o, single l = some o → X l o
  | [], o, h => by simp [single] at h
  | [.compound l b], o, h => by
    rw [single, singleOp] at h
    exact h2 l b o (single_ind h1 h2 l o h)
  | [.std s], o, h => by simp only [single, singleOp, Option.some.injEq] at h; rw [← h]; exact h1 _
  | [.measure _ _], o, h => by simp only [single, singleOp, Option.some.injEq] at h; rw [← h]; exact h1 _
  | [.reset _], o, h => by simp only [single, singleOp, Option.some.injEq] at h; rw [← h]; exact h1 _
  | [.classic _ _], o, h => by simp only [single, singleOp, Option.some.injEq] at h; rw [← h]; exact h1 _
  | _ :: _ :: _, o, h => by simp [single] at h

theorem close_ind {X : List (Op P) → Op P → Prop} (h1 : ∀ o, X [o] o) (h2 : ∀ l b o, X l o → X [.compound l b] o)
    (h3 : ∀ l b, X l (.compound l b)) (l : List (Op P)) : X l (close l) := by
  unfold close
  cases h : single l with
  | none => exact h3 _ _
  | some o => exact single_ind h1 h2 l o h

theorem leaves_close (l : List (Op P)) : leaves (close l) = leavesL l :=
  close_ind (X := fun l o => leaves o = leavesL l) (fun o => by simp [leavesL]) (fun l b o h => by simpa [leavesL, leaves] using h)
    (fun l b => by rw [leaves]) l

theorem acts_close (l : List (Op P)) : (close l).acts = Op.actsL l :=
  close_ind (X := fun l o => o.acts = Op.actsL l) (fun o => by simp [Op.actsL]) (fun l b o h => by simpa [Op.actsL, Op.acts] using h)
    (fun l b => by rw [Op.acts]) l

theorem exec_close (l : List (Op ℝ)) : exec (close l) = run l :=
  close_ind (X := fun l o => exec o = run l) (fun o => (run_singleton o).symm)
    (fun l b o h => by rw [run_singleton, run_compound]; exact h) (fun l b => run_compound l b) l

theorem valid_close (l : List (Op ℝ)) : (close l).Valid ↔ Op.ValidL l :=
  close_ind (X := fun l o => o.Valid ↔ Op.ValidL l) (fun o => by simp [Op.ValidL]) (fun l b o h => by simpa [Op.ValidL, Op.Valid] using h)
    (fun l b => by rw [Op.Valid]) l

theorem actsL_mem (l : List (Op P)) (q : ℕ) : q ∈ Op.actsL l ↔ ∃ o ∈ l, q ∈ o.acts := by
  induction l with
  | nil => simp [Op.actsL]
  | cons o l ih => rw [Op.actsL, Finset.mem_union, ih]; simp

theorem leaves_of_type {o : Op P} (h : o.type = .i) : leaves o = [] := by
  cases o with
  | std s => rw [leaves]; exact if_pos h
  | _ => cases h

theorem leavesL_strip (l : List (Op P)) : leavesL (strip l) = leavesL l := by
  induction l with
  | nil => rfl
  | cons o l ih =>
    by_cases h : o.type = .i
    · rw [strip, List.filter_cons_of_neg (by simp [h]), leavesL, leaves_of_type h]
      exact ih
    · rw [strip, List.filter_cons_of_pos (by simp [h]), leavesL, leavesL]
      congr 1

theorem leaves_removeIdentities1 (o : Op P) : leavesL (removeIdentities1 o) = leaves o := by
  have key : ∀ o : Op P, (∀ l b, o ≠ .compound l b) → removeIdentities1 o = (if o.type = .i then [] else [o]) → leavesL (removeIdentities1 o) = leaves o := by
    intro o _ e
    rw [e]
    split_ifs with h
    · rw [leaves_of_type h]; rfl
    · simp [leavesL]
  match o with
  | .compound l b =>
    rw [leaves, ← leavesL_strip l, removeIdentities1]
    change leavesL (regroup b (strip l)) = leavesL (strip l)
    generalize strip l = l'
    match l' with
    | [] => rfl
    | [o] => rfl
    | x :: y :: l => rw [regroup, leavesL, leaves, leavesL, List.append_nil]
  | .std s => exact key _ (by simp) rfl
  | .measure _ _ => exact key _ (by simp) rfl
  | .reset _ => exact key _ (by simp) rfl
  | .classic _ _ => exact key _ (by simp) rfl

theorem leaves_removeIdentities (l : List (Op P)) : leavesL (removeIdentities l) = leavesL l := by
  induction l with
  | nil => rfl
  | cons o l ih =>
    have e : removeIdentities (o :: l) = removeIdentities1 o ++ removeIdentities l := rfl
    rw [e, leavesL_append, leaves_removeIdentities1, ih, leavesL]

/-! ### Lists of lists -/

theorem split_at {α : Type} {L : List α} {i : ℕ} {A : α} (h : L[i]? = some A) :
    ∃ L1 L2, L = L1 ++ A :: L2 ∧ L1.length = i ∧ (∀ X, L.set i X = L1 ++ X :: L2) ∧ (∀ k : ℕ, L2[k]? = L[i + 1 + k]?) ∧
      ∀ k < i, L1[k]? = L[k]? := by
  obtain ⟨hi, rfl⟩ := List.getElem?_eq_some_iff.1 h
  refine ⟨L.take i, L.drop (i + 1), ?_, ?_, fun X => ?_, fun k => ?_, fun k hk => ?_⟩
  · rw [List.getElem_cons_drop, List.take_append_drop]
  · simp; omega
  · rw [List.set_eq_take_append_cons_drop, if_pos hi]
  · rw [List.getElem?_drop]
  · rw [List.getElem?_take_of_lt hk]

/-- What merging does to the list of lists. -/
theorem shape {α : Type} {L : List (List α)} {i j : ℕ} {A B I : List α} (hij : i ≠ j) (hA : L[i]? = some A) (hB : L[j]? = some B) :
    (i < j ∧ ∃ L1 L2 L3, L = L1 ++ A :: (L2 ++ B :: L3) ∧ (L.set i (A ++ B)).set j I = L1 ++ (A ++ B) :: (L2 ++ I :: L3) ∧
      ∀ C ∈ L2, ∃ k, i < k ∧ k < j ∧ L[k]? = some C) ∨
    (j < i ∧ ∃ L1 L2 L3, L = L1 ++ B :: (L2 ++ A :: L3) ∧ (L.set i (A ++ B)).set j I = L1 ++ I :: (L2 ++ (A ++ B) :: L3) ∧
      ∀ C ∈ L2, ∃ k, j < k ∧ k < i ∧ L[k]? = some C) := by
  obtain ⟨L1, L2, e1, n1, s1, g1, g1'⟩ := split_at hA
  rw [s1]
  rcases lt_or_gt_of_ne hij with hlt | hlt
  · left
    have hB' : L2[j - i - 1]? = some B := by rw [g1, ← hB]; congr 1; omega
    obtain ⟨L3, L4, e2, n2, s2, -, g2⟩ := split_at hB'
    refine ⟨hlt, L1, L3, L4, by rw [e1, e2], ?_, fun C hC => ?_⟩
    · rw [List.set_append_right _ _ (by omega), n1]
      have : j - i = (j - i - 1) + 1 := by omega
      rw [this, List.set_cons_succ, s2]
    · obtain ⟨k, hk, rfl⟩ := List.mem_iff_getElem.1 hC
      have h1 := g2 k (by omega)
      rw [g1, List.getElem?_eq_getElem hk] at h1
      exact ⟨i + 1 + k, by omega, by omega, h1.symm⟩
  · right
    have hB' : L1[j]? = some B := by rw [g1' j hlt, hB]
    obtain ⟨L3, L4, e2, n2, s2, g2, -⟩ := split_at hB'
    refine ⟨hlt, L3, L4, L2, by rw [e1, e2]; simp, ?_, fun C hC => ?_⟩
    · rw [List.set_append_left _ _ (by omega), s2]; simp
    · obtain ⟨k, hk, rfl⟩ := List.mem_iff_getElem.1 hC
      have h1 := g2 k
      have : L1.length = L3.length + 1 + L4.length := by rw [e2]; simp; omega
      rw [g1' _ (by omega), List.getElem?_eq_getElem hk] at h1
      exact ⟨j + 1 + k, by omega, by omega, h1.symm⟩

theorem Tr.perm {K : ℕ → Prop} {M : ℕ} (hM : 1 ≤ M) (D : List (Op P)) {S S' : St P} {ρ ρ' : ℕ → ℕ} (h : Tr K M S ρ S' ρ') (hi : Inv K M S ρ)
    (hx : ∃ L, Rep S L ∧ (leavesL L.flatten).Perm D) : ∃ L, Rep S' L ∧ (leavesL L.flatten).Perm D := by
  refine h.keep hM (X := fun S _ => ∃ L, Rep S L ∧ (leavesL L.flatten).Perm D) ?_ ?_ ?_ hi hx
  · rintro S ρ p' ⟨L, h1, h2⟩
    exact ⟨L, ⟨h1.len, h1.shut, h1.here⟩, h2⟩
  · rintro S ρ a b hi ha hb hab hc ⟨L, h1, h2⟩
    cases hcb : S.cur b with
    | none => exact ⟨L, h1.merge_none hi hcb, h2⟩
    | some j =>
      cases hca : S.cur a with
      | none => rw [hc hca] at hcb; cases hcb
      | some i =>
        refine ⟨_, h1.merge_some hi hab hca hcb, List.Perm.trans ?_ h2⟩
        have hij : i ≠ j := by rintro rfl; exact hab (hi.inj _ _ _ hca hcb)
        rcases shape (I := [ident]) hij (h1.here a i hca) (h1.here b j hcb) with ⟨-, L1, L2, L3, e, e', -⟩ | ⟨-, L1, L2, L3, e, e', -⟩
        · rw [e', e]
          simp only [List.flatten_append, List.flatten_cons, leavesL_append, leavesL, leaves_ident, List.nil_append, List.append_assoc]
          refine List.Perm.append_left _ (List.Perm.append_left _ ?_)
          rw [← List.append_assoc, ← List.append_assoc]
          exact List.perm_append_comm.append_right _
        · rw [e', e]
          simp only [List.flatten_append, List.flatten_cons, leavesL_append, leavesL, leaves_ident, List.nil_append, List.append_assoc]
          refine List.Perm.append_left _ ?_
          simp only [← List.append_assoc]
          refine List.Perm.append_right _ ?_
          rw [List.append_assoc (leavesL (S.ops b))]
          exact List.perm_append_comm
  · rintro S ρ r i hi hr ⟨L, h1, h2⟩
    refine ⟨_, h1.close hi hr, ?_⟩
    obtain ⟨L1, L2, e1, n1, s1, -, -⟩ := split_at (h1.here r i hr)
    rw [s1]
    rw [e1] at h2
    simpa [leavesL_append, leavesL, leaves_close] using h2

theorem Step.perm {K : ℕ → Prop} {M max : ℕ} (hM : 1 ≤ M) {D : List (Op P)} {S S' : St P} {ρ ρ' : ℕ → ℕ} {o : Op P}
    (h : Step K M max S ρ o S' ρ') (hi : Inv K M S ρ) (hx : ∃ L, Rep S L ∧ (leavesL L.flatten).Perm (leavesL D)) :
    ∃ L, Rep S' L ∧ (leavesL L.flatten).Perm (leavesL (D ++ [o])) := by
  cases h with
  | block S1 r t u hl hr hk hu e =>
    subst e
    obtain ⟨L, h1, h2⟩ := t.perm hM _ hi hx
    have i1 := t.inv hM hi
    cases hc : S1.cur r with
    | none =>
      refine ⟨_, h1.put_none i1 hc o, ?_⟩
      rw [List.flatten_append, leavesL_append, leavesL_append]
      simpa [leavesL] using h2.append_right _
    | some i =>
      refine ⟨_, h1.put_some i1 hc o, ?_⟩
      obtain ⟨L1, L2, e1, n1, s1, -, -⟩ := split_at (h1.here r i hc)
      rw [s1, leavesL_append]
      refine List.Perm.trans ?_ (h2.append_right _)
      rw [e1]
      simp only [List.flatten_append, List.flatten_cons, leavesL_append, leavesL, List.append_assoc]
      refine List.Perm.append_left _ (List.Perm.append_left _ ?_)
      rw [List.append_nil]
      exact List.perm_append_comm
  | own S1 t u hu e =>
    subst e
    obtain ⟨L, h1, h2⟩ := t.perm hM _ hi hx
    refine ⟨_, h1.app (t.inv hM hi) o, ?_⟩
    rw [List.flatten_append, leavesL_append, leavesL_append]
    simpa [leavesL] using h2.append_right _

/-! ### Sizes -/

/-- The operations in the blocks satisfy `Q`. -/
def AllOps (Q : Op P → Prop) (S : St P) : Prop := ∀ r, ∀ o ∈ S.ops r, Q o

theorem AllOps.merge {Q : Op P → Prop} {S : St P} (h : AllOps Q S) (a b : ℕ) : AllOps Q (Blocks.merge S a b) := by
  intro r o ho
  simp only [Blocks.merge] at ho
  by_cases h1 : r = b
  · subst h1; simp at ho
  · rw [Function.update_of_ne h1] at ho
    by_cases h2 : r = a
    · subst h2
      rw [Function.update_self] at ho
      rcases List.mem_append.1 ho with ho | ho
      · exact h _ o ho
      · exact h _ o ho
    · rw [Function.update_of_ne h2] at ho
      exact h _ o ho

theorem AllOps.closed {Q : Op P → Prop} {S : St P} (h : AllOps Q S) (r i : ℕ) : AllOps Q (Blocks.closed S r i) := by
  intro x o ho
  unfold Blocks.closed at ho
  rw [release_eq] at ho
  simp only at ho
  split_ifs at ho with h1
  · simp at ho
  · exact h _ o ho

theorem AllOps.put {Q : Op P → Prop} {S : St P} (h : AllOps Q S) (r : ℕ) {o : Op P} (hq : Q o) : AllOps Q (Blocks.put S r o) := by
  have key : ∀ x, ∀ o' ∈ update S.ops r (S.ops r ++ [o]) x, Q o' := by
    intro x o' ho
    by_cases hx : x = r
    · subst hx
      rw [Function.update_self] at ho
      rcases List.mem_append.1 ho with ho | ho
      · exact h _ _ ho
      · rw [List.mem_singleton] at ho; rw [ho]; exact hq
    · rw [Function.update_of_ne hx] at ho
      exact h _ _ ho
  intro x o' ho
  unfold Blocks.put at ho
  cases hc : S.cur r with
  | none => rw [hc] at ho; exact key x o' ho
  | some i => rw [hc] at ho; exact key x o' ho

theorem Tr.allOps {K : ℕ → Prop} {M : ℕ} {Q : Op P → Prop} {S S' : St P} {ρ ρ' : ℕ → ℕ} (h : Tr K M S ρ S' ρ') (hx : AllOps Q S) :
    AllOps Q S' := by
  induction h with
  | refl => exact hx
  | path _ => exact hx
  | merge _ _ _ _ _ _ => exact hx.merge _ _
  | close _ => exact hx.closed _ _
  | trans _ _ ih ih' => exact ih' (ih hx)

/-- Every operation in a slot satisfies `Q`. -/
def AllSlots (Q : Op P → Prop) (S : St P) : Prop := ∀ (i : ℕ) o, S.slots[i]? = some (some o) → Q o

theorem AllSlots.set {Q : Op P → Prop} {S : St P} (h : AllSlots Q S) {j : ℕ} {o' : Op P} (hq : Q o') :
    ∀ (i : ℕ) o, (S.slots.set j (some o'))[i]? = some (some o) → Q o := by
  intro i o ho
  rw [List.getElem?_set] at ho
  split_ifs at ho
  · cases ho; exact hq
  · exact h i o ho

theorem AllSlots.snoc {Q : Op P → Prop} {S : St P} (h : AllSlots Q S) {x : Option (Op P)} (hq : ∀ o ∈ x, Q o) :
    ∀ (i : ℕ) o, (S.slots ++ [x])[i]? = some (some o) → Q o := by
  intro i o ho
  rcases List.mem_append.1 (List.mem_of_getElem? ho) with h1 | h1
  · obtain ⟨k, hk⟩ := List.mem_iff_getElem?.1 h1
    exact h k o hk
  · rw [List.mem_singleton] at h1
    exact hq o h1.symm

theorem Tr.allSlots {K : ℕ → Prop} {M : ℕ} (hM : 1 ≤ M) {Q : Op P → Prop} {S S' : St P} {ρ ρ' : ℕ → ℕ} (h : Tr K M S ρ S' ρ') (hi : Inv K M S ρ)
    {R : Op P → Prop} (hid : Q ident)
    (hq : ∀ l : List (Op P), (∀ o ∈ l, R o) → (∃ s : Finset ℕ, s.card ≤ M ∧ ∀ o ∈ l, o.usedQ ⊆ s) → Q (Blocks.close l))
    (hR : AllOps R S) (hx : AllSlots Q S) : AllSlots Q S' := by
  refine (h.keep hM (X := fun S _ => AllOps R S ∧ AllSlots Q S) ?_ ?_ ?_ hi ⟨hR, hx⟩).2
  · rintro S ρ p' ⟨h1, h2⟩; exact ⟨h1, h2⟩
  · rintro S ρ a b hi ha hb hab hc ⟨h1, h2⟩
    refine ⟨h1.merge a b, ?_⟩
    intro i o ho
    simp only [Blocks.merge] at ho
    cases hcb : S.cur b with
    | none => rw [hcb] at ho; exact h2 i o ho
    | some j => rw [hcb] at ho; exact h2.set hid i o ho
  · rintro S ρ r i hi hr ⟨h1, h2⟩
    refine ⟨h1.closed r i, ?_⟩
    intro k o ho
    unfold Blocks.closed at ho
    rw [release_eq] at ho
    refine h2.set (hq _ (h1 r) ⟨(S.bits r).toFinset, (List.toFinset_card_le _).trans (hi.size r (hi.root hr)), fun o ho q hqo => ?_⟩) k o ho
    rw [List.mem_toFinset, hi.mem r (hi.root hr)]
    exact (hi.use r o ho).2 q hqo

/-! ### Moving operations -/

mutual
/-- A unitary operation acts on the state, and it passes operations on other qubits. -/
theorem unitary_fun (e : Op ℝ) (hu : unitary e = true) (hv : e.Valid) :
    ∃ f : State → State, (∀ c, exec e c = some (c.mapSt f)) ∧ ∀ b : Op ℝ, Disjoint e.acts b.acts → Passes f (exec b) := by
  match e with
  | .std o =>
    obtain ⟨-, f, hf⟩ := hv
    exact ⟨f, fun c => by rw [exec, hf]; rfl, fun b hb => passes_exec hf b hb⟩
  | .compound l cu =>
    rw [Defer.unitary] at hu
    rw [Op.Valid] at hv
    obtain ⟨f, h1, h2⟩ := unitary_funL l hu hv
    exact ⟨f, fun c => by rw [exec]; exact h1 c, fun b hb => h2 b (by rwa [Op.acts] at hb)⟩
  | .measure _ _ => exact absurd hu (by simp [Defer.unitary])
  | .reset _ => exact absurd hu (by simp [Defer.unitary])
  | .classic _ _ => exact absurd hu (by simp [Defer.unitary])
theorem unitary_funL (l : List (Op ℝ)) (hu : unitaryL l = true) (hv : Op.ValidL l) :
    ∃ f : State → State, (∀ c, run l c = some (c.mapSt f)) ∧ ∀ b : Op ℝ, Disjoint (Op.actsL l) b.acts → Passes f (exec b) := by
  match l with
  | [] => exact ⟨id, fun c => by rw [run]; rfl, fun b _ c => by
      have : Cfg.mapSt id = id := by funext c; rfl
      rw [this, Option.map_id]
      rfl⟩
  | e :: l =>
    rw [unitaryL, Bool.and_eq_true] at hu
    rw [Op.ValidL] at hv
    obtain ⟨f, h1, h2⟩ := unitary_fun e hu.1 hv.1
    obtain ⟨g, h3, h4⟩ := unitary_funL l hu.2 hv.2
    refine ⟨g ∘ f, fun c => ?_, fun b hb c => ?_⟩
    · rw [run, h1, Option.bind_some, h3]
      rfl
    · rw [Op.actsL, Finset.disjoint_union_left] at hb
      have e : ∀ c : Cfg, c.mapSt (g ∘ f) = (c.mapSt f).mapSt g := fun _ => rfl
      rw [e, h4 b hb.2, h2 b hb.1, Option.map_map]
      rfl
end

theorem unitaryL_iff (l : List (Op P)) : unitaryL l = true ↔ ∀ o ∈ l, unitary o = true := by
  induction l with
  | nil => simp [unitaryL]
  | cons o l ih => rw [unitaryL, Bool.and_eq_true, ih]; simp

/-- Unitary operations may change places with operations that do nothing or act on other qubits. -/
theorem run_swap {A B : List (Op ℝ)} (hu : ∀ o ∈ A, unitary o = true) (hv : ∀ o ∈ A, o.Valid)
    (h : ∀ b ∈ B, (b.type = .i ∧ b.Valid) ∨ Disjoint (Op.actsL A) b.acts) : run (A ++ B) = run (B ++ A) := by
  obtain ⟨f, h1, h2⟩ := unitary_funL A ((unitaryL_iff A).2 hu) ((Op.validL_iff A).2 hv)
  have hp : Passes f (run B) := by
    clear hu hv h1
    induction B with
    | nil => intro c; rw [run, run]; rfl
    | cons b B ih =>
      have hb : Passes f (exec b) := by
        rcases h b (by simp) with ⟨h3, h4⟩ | h3
        · intro c; rw [exec_identity h4 h3, exec_identity h4 h3]; rfl
        · exact h2 b h3
      intro c
      rw [run, run, hb]
      cases exec b c with
      | none => rfl
      | some d => exact ih (fun b' hb' => h b' (by simp [hb'])) d
  funext c
  rw [run_append, run_append, h1, Option.bind_some, hp]
  cases run B c with
  | none => rfl
  | some d => rw [Option.bind_some, h1]; rfl

/-! ### The meaning -/

/-- No operation behind a block acts on its qubits. -/
def Fresh (S : St P) : Prop :=
  ∀ r i, S.cur r = some i → ∀ (j : ℕ) o, i < j → S.slots[j]? = some (some o) → o.type ≠ .i → ∀ q ∈ S.bits r, q ∉ o.acts

theorem behind_false {S : St P} {a b i : ℕ} (ha : S.cur a = some i) (h : behind S a b = false) :
    ∀ (j : ℕ) o, i < j → S.slots[j]? = some (some o) → o.type ≠ .i → ∀ q ∈ S.bits b, q ∉ o.acts := by
  intro j o hij ho ht q hq hqo
  rw [behind, ha] at h
  simp only [List.any_eq_false] at h
  have hm : some o ∈ S.slots.drop (i + 1) := by
    refine List.mem_of_getElem? (i := j - (i + 1)) ?_
    rw [List.getElem?_drop, ← ho]
    congr 1
    omega
  refine h _ hm ?_
  simp only [Bool.and_eq_true, decide_eq_true_eq, List.any_eq_true]
  exact ⟨ht, q, hq, hqo⟩

/-- What is asked of the operations. -/
def Fit (o : Op ℝ) : Prop := o.Valid ∧ o.plain = true ∧ (isUnitary o = true → unitary o = true)

/-- The meaning of the circuit so far is that of `D`, unless a block is stale. -/
structure Mean (S : St ℝ) (D : List (Op ℝ)) : Prop where
  fit : AllOps Fit S
  ok : AllSlots Op.Valid S
  sem : S.stale = false → Fresh S ∧ ∃ L, Rep S L ∧ run L.flatten = run D

theorem mean_init : Mean ({} : St ℝ) [] :=
  ⟨fun r o h => by simp at h, fun i o h => by simp at h, fun _ => ⟨fun r i h => (by cases h), [], rep_init, rfl⟩⟩

theorem Inv.acts {K : ℕ → Prop} {M : ℕ} {S : St ℝ} {ρ : ℕ → ℕ} (hi : Inv K M S ρ) (hf : AllOps Fit S) {r : ℕ} {o : Op ℝ} (ho : o ∈ S.ops r) :
    ∀ q ∈ o.acts, ρ q = r := by
  have h1 := Op.usedQ_plain o (hf r o ho).2.1
  rw [← h1]
  exact (hi.use r o ho).2

/-- Operations in other slots can be passed. -/
theorem pass_slot {K : ℕ → Prop} {M : ℕ} {S : St ℝ} {ρ : ℕ → ℕ} {L : List (List (Op ℝ))} (hi : Inv K M S ρ) (hf : AllOps Fit S) (hv : AllSlots Op.Valid S)
    (hL : Rep S L) {b k : ℕ} (hrb : ρ b = b) {C : List (Op ℝ)} (hC : L[k]? = some C) (hb : S.cur b ≠ some k)
    (h : ∀ o, S.slots[k]? = some (some o) → o.type ≠ .i → ∀ q ∈ S.bits b, q ∉ o.acts) {o : Op ℝ} (ho : o ∈ C) :
    (o.type = .i ∧ o.Valid) ∨ ∀ q ∈ o.acts, ρ q ≠ b := by
  have hk : k < S.slots.length := by rw [← hL.len]; exact (List.getElem?_eq_some_iff.1 hC).1
  cases hs : S.slots[k] with
  | none =>
    right
    have hs' : S.slots[k]? = some none := by rw [List.getElem?_eq_getElem hk, hs]
    obtain ⟨r, hr⟩ := hi.owner k hs'
    rw [hL.here r k hr] at hC
    cases hC
    intro q hq e
    rw [hi.acts hf ho q hq] at e
    subst e
    exact hb hr
  | some o' =>
    have hs' : S.slots[k]? = some (some o') := by rw [List.getElem?_eq_getElem hk, hs]
    rw [hL.shut k o' hs'] at hC
    cases hC
    rw [List.mem_singleton] at ho
    subst ho
    by_cases ht : o.type = .i
    · exact Or.inl ⟨ht, hv k o hs'⟩
    · right
      intro q hq e
      exact h o hs' ht q ((hi.mem b hrb q).2 e) hq

theorem disjoint_block {K : ℕ → Prop} {M : ℕ} {S : St ℝ} {ρ : ℕ → ℕ} (hi : Inv K M S ρ) (hf : AllOps Fit S) {b : ℕ} {o : Op ℝ}
    (h : ∀ q ∈ o.acts, ρ q ≠ b) : Disjoint (Op.actsL (S.ops b)) o.acts := by
  rw [Finset.disjoint_left]
  intro q hq hqo
  obtain ⟨x, hx, hqx⟩ := (actsL_mem _ _).1 hq
  exact h q hqo (hi.acts hf hx q hqx)

theorem ident_valid : (ident : Op ℝ).Valid := by
  refine ⟨⟨by simp, by simp [ctrlQubits]⟩, _, StdOp.denote_single_of (q := 0) rfl rfl rfl⟩

theorem Mean.merge {K : ℕ → Prop} {M : ℕ} {S : St ℝ} {ρ : ℕ → ℕ} {D : List (Op ℝ)} (hi : Inv K M S ρ) {a b : ℕ} (ha : ρ a = a) (hb : ρ b = b)
    (hab : a ≠ b) (hc : S.cur a = none → S.cur b = none) (h : Mean S D) : Mean (Blocks.merge S a b) D := by
  refine ⟨h.fit.merge a b, ?_, fun hst => ?_⟩
  · intro i o ho
    simp only [Blocks.merge] at ho
    cases hcb : S.cur b with
    | none => rw [hcb] at ho; exact h.ok i o ho
    | some j => rw [hcb] at ho; exact h.ok.set ident_valid i o ho
  · obtain ⟨hs1, hs2⟩ : S.stale = false ∧ behind S a b = false := by simpa [Blocks.merge] using hst
    obtain ⟨hF, L, hL, hr⟩ := h.sem hs1
    constructor
    · intro r i hr j o hij ho ht q hq
      simp only [Blocks.merge] at hr ho hq
      have ho' : S.slots[j]? = some (some o) := by
        cases hcb : S.cur b with
        | none => rw [hcb] at ho; exact ho
        | some k =>
          rw [hcb] at ho
          simp only at ho
          rw [List.getElem?_set] at ho
          split_ifs at ho
          · cases ho; exact absurd rfl ht
          · exact ho
      by_cases h1 : r = b
      · subst h1; simp at hr
      · rw [Function.update_of_ne h1] at hr hq
        by_cases h2 : r = a
        · subst h2
          rw [Function.update_self] at hq
          rcases List.mem_append.1 hq with hq | hq
          · exact hF _ i hr j o hij ho' ht q hq
          · exact behind_false hr hs2 j o hij ho' ht q hq
        · rw [Function.update_of_ne h2] at hq
          exact hF r i hr j o hij ho' ht q hq
    · cases hcb : S.cur b with
      | none => exact ⟨L, hL.merge_none hi hcb, hr⟩
      | some j =>
        cases hca : S.cur a with
        | none => rw [hc hca] at hcb; cases hcb
        | some i =>
          refine ⟨_, hL.merge_some hi hab hca hcb, Eq.trans ?_ hr⟩
          have hij : i ≠ j := by rintro rfl; exact hab (hi.inj _ _ _ hca hcb)
          have hub : ∀ o ∈ S.ops b, unitary o = true := fun o ho => (h.fit b o ho).2.2 (hi.use b o ho).1
          have hvb : ∀ o ∈ S.ops b, o.Valid := fun o ho => (h.fit b o ho).1
          have hid : run [(ident : Op ℝ)] = run [] := by
            rw [run_singleton]; funext c; rw [exec_identity ident_valid rfl, run_nil]
          rcases shape (I := [ident]) hij (hL.here a i hca) (hL.here b j hcb) with
            ⟨hlt, L1, L2, L3, e, e', g⟩ | ⟨hlt, L1, L2, L3, e, e', g⟩
          · rw [e', e]
            simp only [List.flatten_append, List.flatten_cons, List.append_assoc]
            refine run_append_congr rfl (run_append_congr rfl ?_)
            have hsw : run (S.ops b ++ L2.flatten) = run (L2.flatten ++ S.ops b) := by
              refine run_swap hub hvb fun x hx => ?_
              obtain ⟨C, hC, hxC⟩ := List.mem_flatten.1 hx
              obtain ⟨k, k1, k2, k3⟩ := g C hC
              refine (pass_slot hi h.fit h.ok hL hb k3 (by rw [hcb]; intro e; cases e; omega) (fun o ho ht => ?_) hxC).imp_right
                (disjoint_block hi h.fit)
              exact behind_false hca hs2 k o k1 ho ht
            rw [← List.append_assoc, ← List.append_assoc L2.flatten]
            refine run_append_congr hsw ?_
            exact run_append_congr hid rfl
          · rw [e', e]
            simp only [List.flatten_append, List.flatten_cons, List.append_assoc]
            refine run_append_congr rfl ?_
            have hsw : run (S.ops b ++ (L2.flatten ++ S.ops a)) = run ((L2.flatten ++ S.ops a) ++ S.ops b) := by
              refine run_swap hub hvb fun x hx => ?_
              rcases List.mem_append.1 hx with hx | hx
              · obtain ⟨C, hC, hxC⟩ := List.mem_flatten.1 hx
                obtain ⟨k, k1, k2, k3⟩ := g C hC
                refine (pass_slot hi h.fit h.ok hL hb k3 (by rw [hcb]; intro e; cases e; omega) (fun o ho ht => ?_) hxC).imp_right
                  (disjoint_block hi h.fit)
                exact hF b j hcb k o k1 ho ht
              · right
                refine disjoint_block hi h.fit fun q hq e => ?_
                rw [hi.acts h.fit hx q hq] at e
                exact hab e
            have e1 : [ident] ++ (L2.flatten ++ (S.ops a ++ (S.ops b ++ L3.flatten))) =
                [ident] ++ (((L2.flatten ++ S.ops a) ++ S.ops b) ++ L3.flatten) := by simp
            have e2 : S.ops b ++ (L2.flatten ++ (S.ops a ++ L3.flatten)) = [] ++ ((S.ops b ++ (L2.flatten ++ S.ops a)) ++ L3.flatten) := by simp
            rw [e1, e2]
            exact run_append_congr hid (run_append_congr hsw.symm rfl)

theorem Mean.closed {K : ℕ → Prop} {M : ℕ} {S : St ℝ} {ρ : ℕ → ℕ} {D : List (Op ℝ)} (hi : Inv K M S ρ) {r i : ℕ} (hr : S.cur r = some i)
    (h : Mean S D) : Mean (Blocks.closed S r i) D := by
  have hrr := hi.root hr
  refine ⟨h.fit.closed r i, ?_, fun hst => ?_⟩
  · intro k o ho
    unfold Blocks.closed at ho
    rw [release_eq] at ho
    exact h.ok.set ((valid_close _).2 ((Op.validL_iff _).2 fun o ho => (h.fit r o ho).1)) k o ho
  · have hst' : S.stale = false := by
      unfold Blocks.closed at hst
      rw [release_eq] at hst
      exact hst
    obtain ⟨hF, L, hL, hrun⟩ := h.sem hst'
    constructor
    · unfold Blocks.closed
      rw [release_eq]
      intro x k hx j o hkj ho ht q hq
      simp only [hi.mem r hrr] at hx ho hq
      split_ifs at hx hq with h1
      rw [List.getElem?_set] at ho
      split_ifs at ho with h2
      · cases ho
        rw [acts_close]
        intro hqa
        obtain ⟨y, hy, hqy⟩ := (actsL_mem _ _).1 hqa
        have e1 := hi.acts h.fit hy q hqy
        have e2 := (hi.mem x (hi.root hx) q).1 hq
        rw [e1] at e2
        subst e2
        exact h1 hrr
      · exact hF x k hx j o hkj ho ht q hq
    · refine ⟨_, hL.close hi hr, ?_⟩
      obtain ⟨L1, L2, e1, n1, s1, -, -⟩ := split_at (hL.here r i hr)
      rw [s1, ← hrun, e1]
      simp only [List.flatten_append, List.flatten_cons]
      refine run_append_congr rfl (run_append_congr ?_ rfl)
      rw [run_singleton, exec_close]

theorem Tr.mean {K : ℕ → Prop} {M : ℕ} (hM : 1 ≤ M) {D : List (Op ℝ)} {S S' : St ℝ} {ρ ρ' : ℕ → ℕ} (h : Tr K M S ρ S' ρ') (hi : Inv K M S ρ)
    (hx : Mean S D) : Mean S' D := by
  refine h.keep hM (X := fun S _ => Mean S D) ?_ ?_ ?_ hi hx
  · rintro S ρ p' h1
    exact ⟨h1.fit, h1.ok, fun h2 => ⟨(h1.sem h2).1, (h1.sem h2).2.imp fun L h3 => ⟨⟨h3.1.len, h3.1.shut, h3.1.here⟩, h3.2⟩⟩⟩
  · intro S ρ a b hi ha hb hab hc h1
    exact h1.merge hi ha hb hab hc
  · intro S ρ r i hi hr h1
    exact h1.closed hi hr

theorem Step.mean {K : ℕ → Prop} {M max : ℕ} (hM : 1 ≤ M) {D : List (Op ℝ)} {S S' : St ℝ} {ρ ρ' : ℕ → ℕ} {o : Op ℝ} (hfit : Fit o)
    (h : Step K M max S ρ o S' ρ') (hi : Inv K M S ρ) (hx : Mean S D) : Mean S' (D ++ [o]) := by
  cases h with
  | block S1 r t u hl hr hk hu e =>
    subst e
    have hm := t.mean hM hi hx
    have i1 := t.inv hM hi
    have hst : (put S1 r o).stale = S1.stale := by unfold put; cases S1.cur r <;> rfl
    refine ⟨hm.fit.put r hfit, ?_, fun h2 => ?_⟩
    · intro i o' ho
      unfold put at ho
      cases hc : S1.cur r with
      | none => rw [hc] at ho; exact hm.ok.snoc (by simp) i o' ho
      | some k => rw [hc] at ho; exact hm.ok i o' ho
    · rw [hst] at h2
      obtain ⟨hF, L, hL, hrun⟩ := hm.sem h2
      cases hc : S1.cur r with
      | none =>
        refine ⟨?_, _, hL.put_none i1 hc o, ?_⟩
        · intro x i hx j o' hij ho ht q hq
          rw [put_bits] at hq
          unfold put at hx ho
          rw [hc] at hx ho
          simp only at hx ho
          have hj : j < S1.slots.length := by
            by_contra hn
            have := (List.getElem?_eq_some_iff.1 ho).1
            rw [List.length_append, List.length_singleton] at this
            have : j = S1.slots.length := by omega
            subst this
            simp at ho
          rw [List.getElem?_append_left hj] at ho
          by_cases hxr : x = r
          · subst hxr
            simp only [Function.update_self, Option.some.injEq] at hx
            omega
          · rw [Function.update_of_ne hxr] at hx
            exact hF x i hx j o' hij ho ht q hq
        · rw [List.flatten_append]
          exact run_append_congr hrun (by simp)
      | some i =>
        refine ⟨?_, _, hL.put_some i1 hc o, ?_⟩
        · intro x i hx j o' hij ho ht q hq
          rw [put_bits] at hq
          unfold put at hx ho
          rw [hc] at hx ho
          exact hF x i hx j o' hij ho ht q hq
        · obtain ⟨L1, L2, e1, n1, s1, g1, -⟩ := split_at (hL.here r i hc)
          rw [s1]
          have e2 : run (D ++ [o]) = run (L.flatten ++ [o]) := run_append_congr hrun.symm rfl
          rw [e2, e1]
          simp only [List.flatten_append, List.flatten_cons, List.append_assoc]
          refine run_append_congr rfl (run_append_congr rfl ?_)
          have ha : o.acts = o.usedQ := (Op.usedQ_plain o hfit.2.1).symm
          refine run_swap (by simpa using hfit.2.2 u) (by simpa using hfit.1) fun x hx => ?_
          obtain ⟨C, hC, hxC⟩ := List.mem_flatten.1 hx
          obtain ⟨k, hk⟩ := List.mem_iff_getElem?.1 hC
          rw [g1] at hk
          refine (pass_slot i1 hm.fit hm.ok hL hr hk (by rw [hc]; intro e; injection e; omega)
            (fun o' ho ht => hF r i hc _ o' (by omega) ho ht) hxC).imp_right fun h3 => ?_
          rw [Finset.disjoint_left]
          intro q hq hqx
          simp only [Op.actsL, Finset.union_empty, ha] at hq
          exact h3 q hqx (hu q hq)
  | own S1 t u hu e =>
    subst e
    have hm := t.mean hM hi hx
    have i1 := t.inv hM hi
    refine ⟨hm.fit, hm.ok.snoc (by simpa using hfit.1), fun h2 => ?_⟩
    obtain ⟨hF, L, hL, hrun⟩ := hm.sem h2
    refine ⟨?_, _, hL.app i1 o, ?_⟩
    · intro x i hx j o' hij ho ht q hq
      simp only [app] at hx ho hq
      by_cases hj : j < S1.slots.length
      · rw [List.getElem?_append_left hj] at ho
        exact hF x i hx j o' hij ho ht q hq
      · have := (List.getElem?_eq_some_iff.1 ho).1
        rw [List.length_append, List.length_singleton] at this
        have : j = S1.slots.length := by omega
        subst this
        rw [List.getElem?_concat_length] at ho
        cases ho
        intro hqo
        rw [← Op.usedQ_plain o hfit.2.1] at hqo
        have h3 := hu q hqo
        rw [(i1.mem x (i1.root hx) q).1 hq, hx] at h3
        cases h3
    · rw [List.flatten_append]
      exact run_append_congr hrun (by simp)

/-! ### Everything -/

/-- `keys` has the qubits of the circuit. -/
def Keys (keys : List ℕ) (ops : List (Op P)) : Prop :=
  ∀ o ∈ ops, (∀ q ∈ o.usedQ, q ∈ keys) ∧ (isUnitary o = true → o.usedQ = ∅ → noQubit ∈ keys)

theorem collect_spec {f max : ℕ} (hf : Nat.max 1 max ≤ f) {srt : Sorter} (hsrt : ∀ l, (srt l).Perm l) {keys : List ℕ} {ops : List (Op P)}
    (hk : Keys keys ops) (h2 : 2 ≤ ops.length) {X : List (Op P) → St P → (ℕ → ℕ) → Prop} (h0 : X [] {} id)
    (hx : ∀ D S ρ o S' ρ', o ∈ ops → Inv (· ∈ keys) (Nat.max 1 max) S ρ → X D S ρ → Step (· ∈ keys) (Nat.max 1 max) max S ρ o S' ρ' → X (D ++ [o]) S' ρ')
    (ht : ∀ S ρ S' ρ', Inv (· ∈ keys) (Nat.max 1 max) S ρ → X ops S ρ → Tr (· ∈ keys) (Nat.max 1 max) S ρ S' ρ' → X ops S' ρ') :
    ∃ l S1 S ρ, collectBlocks f max srt keys ops = some (removeIdentities l, S.stale) ∧ loop f max srt {} ops = some S1 ∧
      finish f S1 keys = some S ∧ S.slots = l.map some ∧ X ops S ρ := by
  have hM : 1 ≤ Nat.max 1 max := Nat.le_max_left 1 max
  have hm : max ≤ Nat.max 1 max := Nat.le_max_right 1 max
  obtain ⟨S1, ρ1, e1, i1, x1⟩ := loop_spec (K := (· ∈ keys)) hM hm hf hsrt
    (X := fun D S ρ => (∀ o ∈ D, o ∈ ops) → X D S ρ)
    (fun D S ρ o S' ρ' hi h hs hD => hx D S ρ o S' ρ' (hD o (by simp)) hi (h fun o ho => hD o (by simp [ho])) hs) ops []
    (fun o ho => hk o ho) (inv_init hM) (fun r _ _ _ => rfl) fun _ => h0
  obtain ⟨S2, ρ2, e2, t2, c2⟩ := finish_spec hM hf keys i1 fun r hr => i1.live r hr
  have i2 := t2.inv hM i1
  obtain ⟨l, e3, h3⟩ := unslot_spec S2.slots fun i hi => by
    obtain ⟨r, hr⟩ := i2.owner i hi
    rw [c2 r] at hr
    cases hr
  refine ⟨l, S1, S2, ρ2, ?_, e1, e2, h3, ht _ _ _ _ i1 (by simpa using x1 (by simp)) t2⟩
  rw [collectBlocks, if_neg (by omega), e1, Option.bind_some, e2, Option.bind_some, e3]
  rfl

theorem rep_done {S : St P} {L : List (List (Op P))} {l : List (Op P)} (h : Rep S L) (hl : S.slots = l.map some) : L.flatten = l := by
  have : L = l.map fun o => [o] := by
    refine List.ext_getElem? fun i => ?_
    by_cases hi : i < l.length
    · rw [List.getElem?_map, List.getElem?_eq_getElem hi]
      exact h.shut i _ (by rw [hl, List.getElem?_map, List.getElem?_eq_getElem hi]; rfl)
    · rw [List.getElem?_eq_none, List.getElem?_eq_none]
      · simpa using hi
      · rw [h.len, hl]; simpa using hi
  rw [this]
  clear this hl
  induction l with
  | nil => rfl
  | cons o l ih => simp [ih]

theorem Valid.parts {o : Op ℝ} (h : o.Valid) : PartsValid o := by
  match o with
  | .compound l b => exact h
  | .std _ => trivial
  | .measure _ _ => trivial
  | .reset _ => trivial
  | .classic _ _ => trivial

/-- The number of qubits of what `removeIdentities` makes of an operation. -/
theorem usedQ_removeIdentities1 (o : Op P) : ∀ o' ∈ removeIdentities1 o, o'.usedQ ⊆ o.usedQ := by
  have key : ∀ o : Op P, removeIdentities1 o = (if o.type = .i then [] else [o]) → ∀ o' ∈ removeIdentities1 o, o'.usedQ ⊆ o.usedQ := by
    intro o e o' ho
    rw [e] at ho
    split_ifs at ho
    · simp at ho
    · rw [List.mem_singleton] at ho; rw [ho]
  have sub : ∀ (l l' : List (Op P)), (∀ o ∈ l, o ∈ l') → Op.usedQL l ⊆ Op.usedQL l' := by
    have hm : ∀ (l : List (Op P)) q, q ∈ Op.usedQL l ↔ ∃ o ∈ l, q ∈ o.usedQ := by
      intro l q
      induction l with
      | nil => simp [Op.usedQL]
      | cons o l ih => rw [Op.usedQL, Finset.mem_union, ih]; simp
    intro l l' h q hq
    rw [hm] at hq ⊢
    obtain ⟨o, ho, hq⟩ := hq
    exact ⟨o, h o ho, hq⟩
  match o with
  | .compound l b =>
    rw [removeIdentities1, Op.usedQ]
    intro o' ho
    have hs : ∀ o ∈ l.filter fun o => o.type ≠ .i, o ∈ l := fun o ho => (List.mem_filter.1 ho).1
    generalize l.filter (fun o => o.type ≠ .i) = l' at ho hs
    match l' with
    | [] => simp [regroup] at ho
    | [x] =>
      simp only [regroup, List.mem_singleton] at ho
      subst ho
      have := sub [o'] l hs
      simpa [Op.usedQL] using this
    | x :: y :: l' =>
      rw [regroup, List.mem_singleton] at ho
      rw [ho, Op.usedQ]
      exact sub _ l hs
  | .std s => exact key _ rfl
  | .measure _ _ => exact key _ rfl
  | .reset _ => exact key _ rfl
  | .classic _ _ => exact key _ rfl

theorem usedQ_close (l : List (Op P)) : (close l).usedQ = Op.usedQL l :=
  close_ind (X := fun l o => o.usedQ = Op.usedQL l) (fun o => by simp [Op.usedQL]) (fun l b o h => by simpa [Op.usedQL, Op.usedQ] using h)
    (fun l b => by rw [Op.usedQ]) l

theorem usedQL_subset (l : List (Op P)) (s : Finset ℕ) (h : ∀ o ∈ l, o.usedQ ⊆ s) : Op.usedQL l ⊆ s := by
  induction l with
  | nil => simp [Op.usedQL]
  | cons o l ih =>
    rw [Op.usedQL]
    exact Finset.union_subset (h o (by simp)) (ih fun o' ho => h o' (by simp [ho]))

/-- With blocks of one qubit nothing is merged. -/
theorem Tr.still {K : ℕ → Prop} {S S' : St P} {ρ ρ' : ℕ → ℕ} (h : Tr K 1 S ρ S' ρ') (hi : Inv K 1 S ρ) : S'.stale = S.stale := by
  induction h with
  | refl => rfl
  | path _ => rfl
  | @merge S ρ a b ha hb hab hk hsz hcur =>
    have h1 := hi.forest.pos a
    have h2 := hi.forest.pos b
    rw [ha] at h1
    rw [hb] at h2
    omega
  | close _ => unfold Blocks.closed; rw [release_eq]
  | trans h _ ih ih' => rw [ih' (h.inv le_rfl hi), ih hi]

theorem put_stale (S : St P) (r : ℕ) (o : Op P) : (put S r o).stale = S.stale := by
  unfold put
  cases S.cur r <;> rfl

theorem finalize_stale {f : ℕ} {S S' : St P} {q : ℕ} (h : finalize f S q = some S') : S'.stale = S.stale := by
  rw [finalize] at h
  cases hf : find f S q with
  | none => rw [hf] at h; cases h
  | some x =>
    have hx : x.2.stale = S.stale := by
      rw [find] at hf
      cases hp : findP f S.parent q with
      | none => rw [hp] at hf; cases hf
      | some y => rw [hp] at hf; cases hf; rfl
    rw [hf, Option.map_some] at h
    cases h
    split
    · exact hx
    · rw [release_eq]; exact hx

theorem finish_stale {f : ℕ} (keys : List ℕ) : ∀ {S S' : St P}, finish f S keys = some S' → S'.stale = S.stale := by
  induction keys with
  | nil => intro S S' h; cases h; rfl
  | cons q keys ih =>
    intro S S' h
    rw [finish] at h
    split_ifs at h
    · cases hf : finalize f S q with
      | none => rw [hf] at h; cases h
      | some S1 => rw [hf] at h; rw [ih h, finalize_stale hf]
    · exact ih h

end MQT.Opt.Blocks
