/-
What `initializeIOMapping` computes: the lemmas. Model in Verif/Opt/IOMap.lean.
-/
import Verif.Opt.IOMap
import Mathlib.Data.List.Basic

set_option autoImplicit false

namespace MQT.Opt.IOMap

open MQT.IR

variable {P : Type}

/-! ### Maps -/

/-- The keys are strictly ascending, as in a `std::map`. -/
def Sorted (m : List (ℕ × ℕ)) : Prop := (m.map Prod.fst).Pairwise (· < ·)

theorem lookup_cons (q k v : ℕ) (m : List (ℕ × ℕ)) :
    ((k, v) :: m).lookup q = if q = k then some v else m.lookup q := by
  rw [List.lookup_cons]
  by_cases h : q = k
  · subst h; simp
  · have : (q == k) = false := by simpa using h
    simp [this, h]

theorem lookup_mem {m : List (ℕ × ℕ)} {q v : ℕ} (h : m.lookup q = some v) : (q, v) ∈ m := by
  induction m with
  | nil => simp at h
  | cons e m ih =>
    obtain ⟨k, w⟩ := e
    rw [lookup_cons] at h
    by_cases hk : q = k
    · rw [if_pos hk] at h; cases h; subst hk; exact List.mem_cons_self
    · rw [if_neg hk] at h; exact List.mem_cons_of_mem _ (ih h)

theorem lookup_iff {m : List (ℕ × ℕ)} (hs : Sorted m) (q v : ℕ) : m.lookup q = some v ↔ (q, v) ∈ m := by
  refine ⟨lookup_mem, ?_⟩
  induction m with
  | nil => simp
  | cons e m ih =>
    obtain ⟨k, w⟩ := e
    have hs' := List.pairwise_cons.1 hs
    intro h
    rw [lookup_cons]
    rcases List.mem_cons.1 h with h | h
    · cases h; simp
    · have hlt : k < q := hs'.1 q (List.mem_map.2 ⟨(q, v), h, rfl⟩)
      rw [if_neg (by omega)]
      exact ih hs'.2 h

theorem lookup_append (A B : List (ℕ × ℕ)) (q : ℕ) :
    (A ++ B).lookup q = (A.lookup q).or (B.lookup q) := by
  induction A with
  | nil => simp
  | cons e A ih =>
    obtain ⟨k, w⟩ := e
    rw [List.cons_append, lookup_cons, lookup_cons, ih]
    by_cases h : q = k <;> simp [h]

theorem lookup_mput (k v q : ℕ) (m : List (ℕ × ℕ)) :
    (mput k v m).lookup q = if q = k then some v else m.lookup q := by
  induction m with
  | nil => rw [mput, lookup_cons]
  | cons e m ih =>
    obtain ⟨k', v'⟩ := e
    rw [mput]
    by_cases h1 : k < k'
    · rw [if_pos h1, lookup_cons]
    · rw [if_neg h1]
      by_cases h2 : k = k'
      · rw [if_pos h2, lookup_cons, lookup_cons]
        subst h2
        by_cases h : q = k <;> simp [h]
      · rw [if_neg h2, lookup_cons, lookup_cons, ih]
        by_cases h : q = k'
        · rw [if_pos h, if_pos h, if_neg (by omega)]
        · rw [if_neg h, if_neg h]

theorem mput_keys (k v : ℕ) (m : List (ℕ × ℕ)) (x : ℕ) :
    x ∈ (mput k v m).map Prod.fst ↔ x = k ∨ x ∈ m.map Prod.fst := by
  induction m with
  | nil => simp [mput]
  | cons e m ih =>
    obtain ⟨k', v'⟩ := e
    rw [mput]
    split_ifs with h1 h2
    · simp
    · subst h2; simp
    · rw [List.map_cons, List.mem_cons, ih, List.map_cons, List.mem_cons]; tauto

theorem Sorted.mput {m : List (ℕ × ℕ)} (h : Sorted m) (k v : ℕ) : Sorted (IOMap.mput k v m) := by
  induction m with
  | nil => simp [IOMap.mput, Sorted]
  | cons e m ih =>
    obtain ⟨k', v'⟩ := e
    have h' := List.pairwise_cons.1 h
    rw [IOMap.mput]
    split_ifs with h1 h2
    · refine List.pairwise_cons.2 ⟨fun x hx => ?_, h⟩
      rcases List.mem_cons.1 hx with rfl | hx
      · exact h1
      · exact lt_trans h1 (h'.1 x hx)
    · subst h2; exact List.pairwise_cons.2 ⟨h'.1, h'.2⟩
    · refine List.pairwise_cons.2 ⟨fun x hx => ?_, ih h'.2⟩
      rcases (mput_keys k v m x).1 hx with rfl | hx
      · show k' < x; omega
      · exact h'.1 x hx

theorem displace_keys (b cur : ℕ) (m : List (ℕ × ℕ)) : (displace b cur m).map Prod.fst = m.map Prod.fst := by
  induction m with
  | nil => rfl
  | cons e m ih =>
    obtain ⟨k, v⟩ := e
    rw [displace]
    split_ifs
    · rfl
    · simp only [List.map_cons, ih]

theorem assign_keys (k v : ℕ) (m : List (ℕ × ℕ)) : (assign k v m).map Prod.fst = m.map Prod.fst := by
  rw [assign, List.map_map]
  refine List.map_congr_left fun e _ => ?_
  simp only [Function.comp]
  split_ifs with h
  · exact h.symm
  · rfl

theorem lookup_isSome {m : List (ℕ × ℕ)} {q : ℕ} : (m.lookup q).isSome ↔ q ∈ m.map Prod.fst := by
  induction m with
  | nil => simp
  | cons e m ih =>
    obtain ⟨k, v⟩ := e
    rw [lookup_cons, List.map_cons, List.mem_cons]
    by_cases h : q = k
    · simp [h]
    · rw [if_neg h, ih]; simp [h]

theorem lookup_displace {b cur q v : ℕ} {m : List (ℕ × ℕ)} (h : m.lookup q = some v) (hv : v ≠ b) :
    (displace b cur m).lookup q = some v := by
  induction m with
  | nil => simp at h
  | cons e m ih =>
    obtain ⟨k, w⟩ := e
    rw [lookup_cons] at h
    rw [displace]
    by_cases hk : q = k
    · rw [if_pos hk] at h
      cases h
      rw [if_neg hv, lookup_cons, if_pos hk]
    · rw [if_neg hk] at h
      split_ifs
      · rw [lookup_cons, if_neg hk, h]
      · rw [lookup_cons, if_neg hk, ih h]

theorem lookup_assign (k v q : ℕ) (m : List (ℕ × ℕ)) :
    (assign k v m).lookup q = if q = k then (m.lookup q).map fun _ => v else m.lookup q := by
  induction m with
  | nil => simp [assign]
  | cons e m ih =>
    obtain ⟨k', w⟩ := e
    have : assign k v ((k', w) :: m) = (if k' = k then (k, v) else (k', w)) :: assign k v m := rfl
    rw [this, lookup_cons]
    by_cases h1 : k' = k
    · subst h1
      rw [if_pos rfl, lookup_cons, ih]
      by_cases h : q = k' <;> simp [h]
    · rw [if_neg h1, lookup_cons, ih]
      by_cases h : q = k'
      · rw [if_pos h, if_pos h, if_neg (by omega)]
      · rw [if_neg h, if_neg h]

theorem lookup_filter (S : List ℕ) (q : ℕ) (m : List (ℕ × ℕ)) :
    (m.filter fun e => decide (e.1 ∈ S)).lookup q = if q ∈ S then m.lookup q else none := by
  induction m with
  | nil => simp
  | cons e m ih =>
    obtain ⟨k, v⟩ := e
    rw [List.filter_cons]
    by_cases hk : k ∈ S
    · simp only [hk, decide_true, if_true]
      rw [lookup_cons, lookup_cons, ih]
      by_cases h : q = k
      · subst h; simp [hk]
      · simp [h]
    · simp only [hk, decide_false]
      rw [if_neg (by simp), ih, lookup_cons]
      by_cases h : q = k
      · subst h; simp [hk]
      · simp [h]

theorem Sorted.filter {m : List (ℕ × ℕ)} (h : Sorted m) (p : ℕ × ℕ → Bool) : Sorted (m.filter p) :=
  h.sublist (List.Sublist.map _ List.filter_sublist)

/-! ### The loop over the measurements -/

/-- Whether, among the targets of a measurement, those measured before come last. -/
def tidyM : List ℕ → List ℕ → Bool
  | _, [] => true
  | meas, q :: qs => if q ∈ meas then qs.all fun x => decide (x ∈ meas) else tidyM (q :: meas) qs

/-- The same for every measurement of a circuit, and as many bits as qubits. -/
def tidy : List ℕ → List (Op P) → Bool
  | _, [] => true
  | meas, .measure qs cs :: l => decide (qs.length = cs.length) && tidyM meas qs && tidy (qs ++ meas) l
  | meas, _ :: l => tidy meas l

/-- All measurements of qubits, with the bits written, in order. -/
def pairs : List (Op P) → List (ℕ × ℕ)
  | [] => []
  | .measure qs cs :: l => qs.zip cs ++ pairs l
  | _ :: l => pairs l

/-- The map built so far describes the measurements `D` seen so far. -/
structure Inv (found : Bool) (prior D : List (ℕ × ℕ)) (s : St) : Prop where
  sorted : Sorted s.out
  meas : ∀ q, q ∈ s.meas ↔ (D.lookup q).isSome
  val : ∀ q ∈ s.meas, s.out.lookup q = D.lookup q
  keys : found = true → s.out.map Prod.fst = prior.map Prod.fst
  fresh : found = false → ∀ q, q ∉ s.meas → s.out.lookup q = none

/-- No two qubits are first measured into the same bit. -/
def Distinct (T : List (ℕ × ℕ)) : Prop := ∀ q q' b, T.lookup q = some b → T.lookup q' = some b → q = q'

theorem scanM_seen (found : Bool) {q : ℕ} (qs cs : List ℕ) {s : St} (h : q ∈ s.meas) :
    scanM found (q :: qs) cs s = scanM found qs cs s := by
  cases cs <;> rw [scanM, if_pos h]

theorem scanM_old (found : Bool) (qs cs : List ℕ) (s : St) (h : ∀ q ∈ qs, q ∈ s.meas) :
    scanM found qs cs s = .ok s := by
  induction qs with
  | nil => rw [scanM]
  | cons q qs ih =>
    rw [scanM_seen found qs cs (h q List.mem_cons_self)]
    exact ih fun x hx => h x (List.mem_cons_of_mem _ hx)

theorem lookup_zip_old {D : List (ℕ × ℕ)} {qs cs : List ℕ} (h : ∀ q ∈ qs, (D.lookup q).isSome) (q : ℕ) :
    (D ++ qs.zip cs).lookup q = D.lookup q := by
  rw [lookup_append]
  cases hD : D.lookup q with
  | some v => rfl
  | none =>
    have : q ∉ qs := fun hq => by have := h q hq; rw [hD] at this; simp at this
    cases hz : (qs.zip cs).lookup q with
    | none => rfl
    | some v => exact absurd (List.of_mem_zip (lookup_mem hz)).1 this

theorem Inv.congr {found : Bool} {prior D D' : List (ℕ × ℕ)} {s : St} (h : Inv found prior D s)
    (e : ∀ q, D'.lookup q = D.lookup q) : Inv found prior D' s :=
  ⟨h.sorted, fun q => by rw [e]; exact h.meas q, fun q hq => by rw [e]; exact h.val q hq, h.keys, h.fresh⟩

theorem record_inv {found : Bool} {prior D R : List (ℕ × ℕ)} {s : St} {q b : ℕ}
    (h : Inv found prior D s) (hq : q ∉ s.meas) (hk : found = true → q ∈ prior.map Prod.fst)
    (hd : found = true → Distinct (D ++ (q, b) :: R)) :
    ∃ out, record found s.out q b = .ok out ∧
      Inv found prior (D ++ [(q, b)]) { out := out, meas := q :: s.meas } := by
  have hDq : D.lookup q = none := by
    cases hD : D.lookup q with
    | none => rfl
    | some v => exact absurd ((h.meas q).2 (by rw [hD]; rfl)) hq
  have hDb : ∀ x, (D ++ [(q, b)]).lookup x = if x = q then some b else D.lookup x := by
    intro x
    rw [lookup_append, lookup_cons]
    by_cases hx : x = q
    · subst hx; rw [hDq]; simp
    · simp [hx]
  have hm : ∀ x, x ∈ q :: s.meas ↔ ((D ++ [(q, b)]).lookup x).isSome := by
    intro x
    rw [hDb, List.mem_cons, h.meas]
    by_cases hx : x = q <;> simp [hx]
  cases found with
  | false =>
    refine ⟨mput q b s.out, rfl, h.sorted.mput q b, hm, ?_, by simp, ?_⟩
    · intro x hx
      show (mput q b s.out).lookup x = _
      rw [lookup_mput, hDb]
      by_cases hxq : x = q
      · rw [if_pos hxq, if_pos hxq]
      · rw [if_neg hxq, if_neg hxq]
        exact h.val x ((List.mem_cons.1 hx).resolve_left hxq)
    · intro _ x hx
      show (mput q b s.out).lookup x = _
      have hx := List.mem_cons.not.1 hx
      rw [lookup_mput, if_neg fun e => hx (Or.inl e)]
      exact h.fresh rfl x fun e => hx (Or.inr e)
  | true =>
    have hin : (s.out.lookup q).isSome := lookup_isSome.2 (by rw [h.keys rfl]; exact hk rfl)
    obtain ⟨cur, hcur⟩ := Option.isSome_iff_exists.1 hin
    refine ⟨if cur ≠ b then assign q b (displace b cur s.out) else s.out, by rw [record, if_pos rfl, hcur], ?_⟩
    by_cases hc : cur = b
    · rw [if_neg (by simpa using hc)]
      refine ⟨h.sorted, hm, ?_, h.keys, by simp⟩
      intro x hx
      show s.out.lookup x = _
      rw [hDb]
      by_cases hxq : x = q
      · rw [if_pos hxq, hxq, hcur, hc]
      · rw [if_neg hxq]
        exact h.val x ((List.mem_cons.1 hx).resolve_left hxq)
    · rw [if_pos hc]
      have hkeys : (assign q b (displace b cur s.out)).map Prod.fst = s.out.map Prod.fst := by
        rw [assign_keys, displace_keys]
      refine ⟨?_, hm, ?_, fun _ => hkeys.trans (h.keys rfl), by simp⟩
      · show ((assign q b (displace b cur s.out)).map Prod.fst).Pairwise (· < ·)
        rw [hkeys]; exact h.sorted
      · intro x hx
        show (assign q b (displace b cur s.out)).lookup x = _
        rw [lookup_assign, hDb]
        by_cases hxq : x = q
        · rw [if_pos hxq, if_pos hxq, hxq, lookup_displace hcur hc]
          rfl
        · rw [if_neg hxq, if_neg hxq]
          have hxm := (List.mem_cons.1 hx).resolve_left hxq
          have hval := h.val x hxm
          obtain ⟨v, hv⟩ := Option.isSome_iff_exists.1 ((h.meas x).1 hxm)
          rw [hv] at hval ⊢
          refine lookup_displace hval ?_
          rintro rfl
          refine hxq (hd rfl x q v ?_ ?_)
          · rw [lookup_append, hv]; rfl
          · rw [lookup_append, hDq, lookup_cons, if_pos rfl]; rfl

theorem scanM_inv {found : Bool} {prior R : List (ℕ × ℕ)} (qs cs : List ℕ) (D : List (ℕ × ℕ)) (s : St)
    (hl : qs.length = cs.length) (ht : tidyM s.meas qs = true) (h : Inv found prior D s)
    (hk : found = true → ∀ q ∈ qs, q ∈ prior.map Prod.fst)
    (hd : found = true → Distinct (D ++ (qs.zip cs ++ R))) :
    ∃ s', scanM found qs cs s = .ok s' ∧ Inv found prior (D ++ qs.zip cs) s' ∧
      ∀ x, x ∈ s'.meas ↔ x ∈ qs ++ s.meas := by
  induction qs generalizing cs D s with
  | nil => exact ⟨s, by rw [scanM], by simpa using h, by simp⟩
  | cons q qs ih =>
    by_cases hq : q ∈ s.meas
    · have hall : ∀ x ∈ q :: qs, x ∈ s.meas := by
        rw [tidyM, if_pos hq] at ht
        intro x hx
        rcases List.mem_cons.1 hx with rfl | hx
        · exact hq
        · simpa using List.all_eq_true.1 ht x hx
      refine ⟨s, scanM_old found _ cs s hall, ?_, ?_⟩
      · exact h.congr (lookup_zip_old fun x hx => (h.meas x).1 (hall x hx))
      · intro x
        rw [List.mem_append]
        exact ⟨Or.inr, fun hx => hx.elim (hall x) id⟩
    · cases cs with
      | nil => simp at hl
      | cons b cs =>
        obtain ⟨out, ho, hi⟩ := record_inv (b := b) (R := qs.zip cs ++ R) h hq
          (fun e => hk e q List.mem_cons_self) (fun e => by simpa using hd e)
        rw [tidyM, if_neg hq] at ht
        obtain ⟨s', hs', hi', hm'⟩ := ih cs (D ++ [(q, b)]) { out := out, meas := q :: s.meas }
          (by simpa using hl) ht hi (fun e x hx => hk e x (List.mem_cons_of_mem _ hx))
          (fun e => by simpa using hd e)
        refine ⟨s', ?_, by simpa using hi', fun x => ?_⟩
        · rw [scanM, if_neg hq, ho]
          exact hs'
        · rw [hm']; simp only [List.mem_append, List.mem_cons]; tauto

theorem tidyM_congr {m m' : List ℕ} (e : ∀ x, x ∈ m ↔ x ∈ m') (qs : List ℕ) : tidyM m qs = tidyM m' qs := by
  induction qs generalizing m m' with
  | nil => rw [tidyM, tidyM]
  | cons q qs ih =>
    rw [tidyM, tidyM, ih (m := q :: m) (m' := q :: m') fun x => by simp [e]]
    simp only [e]

theorem tidy_congr {m m' : List ℕ} (e : ∀ x, x ∈ m ↔ x ∈ m') (l : List (Op P)) : tidy m l = tidy m' l := by
  induction l generalizing m m' with
  | nil => rw [tidy, tidy]
  | cons o l ih =>
    cases o with
    | measure qs cs =>
      rw [tidy, tidy, tidyM_congr e, ih (m := qs ++ m) (m' := qs ++ m') fun x => by simp [e]]
    | _ => simp only [tidy]; exact ih e

theorem scan_inv {found : Bool} {prior : List (ℕ × ℕ)} (l : List (Op P)) (D : List (ℕ × ℕ)) (s : St)
    (ht : tidy s.meas l = true) (h : Inv found prior D s)
    (hk : found = true → ∀ e ∈ pairs l, e.1 ∈ prior.map Prod.fst)
    (hd : found = true → Distinct (D ++ pairs l)) :
    ∃ s', scan found l s = .ok s' ∧ Inv found prior (D ++ pairs l) s' := by
  induction l generalizing D s with
  | nil => exact ⟨s, by rw [scan], by simpa [pairs] using h⟩
  | cons o l ih =>
    cases o with
    | measure qs cs =>
      rw [tidy, Bool.and_eq_true, Bool.and_eq_true, decide_eq_true_eq] at ht
      obtain ⟨⟨hl, hm⟩, hr⟩ := ht
      rw [pairs] at hk hd ⊢
      obtain ⟨s', hs', hi', hm'⟩ := scanM_inv (R := pairs l) qs cs D s hl hm h
        (fun e q hq => by
          obtain ⟨i, hi, rfl⟩ := List.getElem_of_mem hq
          refine hk e (qs[i], cs[i]) (List.mem_append_left _ ?_)
          rw [← List.getElem_zip (h := by simp; omega)]
          exact List.getElem_mem _) hd
      obtain ⟨s2, hs2, hi2⟩ := ih (D ++ qs.zip cs) s' (by rw [tidy_congr hm']; exact hr) hi'
        (fun e x hx => hk e x (List.mem_append_right _ hx)) (fun e => by simpa using hd e)
      exact ⟨s2, by rw [scan, hs']; exact hs2, by simpa using hi2⟩
    | _ => simp only [tidy, pairs, scan] at *; exact ih D s ht h hk hd

theorem scan_none (found : Bool) (l : List (Op P)) (s : St) (h : measures l = false) : scan found l s = .ok s := by
  induction l with
  | nil => rw [scan]
  | cons o l ih =>
    cases o with
    | measure qs cs => simp [measures] at h
    | _ => simp only [measures, scan] at *; exact ih h

/-! ### Exceptions -/

/-- With a permutation given, the loop keeps its keys; it throws or every measured qubit is a key. -/
def Kept (K : List ℕ) (D : List (ℕ × ℕ)) (meas : List ℕ) : MQT.Res St → Prop
  | .ub => False
  | .throw => ∃ e ∈ D, e.1 ∉ K
  | .ok s => s.out.map Prod.fst = K ∧ (∀ x, x ∈ s.meas ↔ x ∈ D.map Prod.fst ∨ x ∈ meas) ∧ ∀ e ∈ D, e.1 ∈ K ∨ e.1 ∈ meas

theorem scanM_kept (K qs cs : List ℕ) (s : St) (hl : qs.length = cs.length) (ht : tidyM s.meas qs = true)
    (hk : s.out.map Prod.fst = K) (hm : ∀ x ∈ s.meas, x ∈ K) : Kept K (qs.zip cs) s.meas (scanM true qs cs s) := by
  induction qs generalizing cs s with
  | nil => rw [scanM]; exact ⟨hk, by simp, by simp⟩
  | cons q qs ih =>
    by_cases hq : q ∈ s.meas
    · have hall : ∀ x ∈ q :: qs, x ∈ s.meas := by
        rw [tidyM, if_pos hq] at ht
        intro x hx
        rcases List.mem_cons.1 hx with rfl | hx
        · exact hq
        · simpa using List.all_eq_true.1 ht x hx
      rw [scanM_old true _ cs s hall]
      refine ⟨hk, fun x => ⟨Or.inr, ?_⟩, fun e he => Or.inr (hall _ (List.of_mem_zip he).1)⟩
      rintro (hx | hx)
      · obtain ⟨e, he, rfl⟩ := List.mem_map.1 hx
        exact hall _ (List.of_mem_zip he).1
      · exact hx
    · cases cs with
      | nil => simp at hl
      | cons b cs =>
        rw [tidyM, if_neg hq] at ht
        rw [scanM, if_neg hq, record, if_pos rfl]
        cases hc : s.out.lookup q with
        | none =>
          refine ⟨(q, b), List.mem_cons_self, fun hqK => ?_⟩
          rw [← hk, ← lookup_isSome, hc] at hqK
          simp at hqK
        | some cur =>
          have hqK : q ∈ K := by rw [← hk, ← lookup_isSome, hc]; rfl
          simp only [MQT.Res.bind]
          have hk' : (if cur ≠ b then assign q b (displace b cur s.out) else s.out).map Prod.fst = K := by
            split_ifs
            · rw [assign_keys, displace_keys, hk]
            · exact hk
          have key := ih cs { out := if cur ≠ b then assign q b (displace b cur s.out) else s.out, meas := q :: s.meas }
            (by simpa using hl) ht hk' (fun x hx => by
              rcases List.mem_cons.1 hx with rfl | hx
              · exact hqK
              · exact hm x hx)
          revert key
          cases scanM true qs cs
            { out := if cur ≠ b then assign q b (displace b cur s.out) else s.out, meas := q :: s.meas } with
          | ub => exact id
          | throw => exact fun ⟨e, he, hn⟩ => ⟨e, List.mem_cons_of_mem _ he, hn⟩
          | ok s' =>
            rintro ⟨h1, h2, h3⟩
            refine ⟨h1, fun x => ?_, fun e he => ?_⟩
            · rw [h2]; simp only [List.zip_cons_cons, List.map_cons, List.mem_cons]; tauto
            · rcases List.mem_cons.1 he with rfl | he
              · exact Or.inl hqK
              · rcases h3 e he with h | h
                · exact Or.inl h
                · rcases List.mem_cons.1 h with h | h
                  · exact Or.inl (h ▸ hqK)
                  · exact Or.inr h

theorem scan_kept (K : List ℕ) (l : List (Op P)) (s : St) (ht : tidy s.meas l = true)
    (hk : s.out.map Prod.fst = K) (hm : ∀ x ∈ s.meas, x ∈ K) : Kept K (pairs l) s.meas (scan true l s) := by
  induction l generalizing s with
  | nil => rw [scan]; exact ⟨hk, by simp [pairs], by simp [pairs]⟩
  | cons o l ih =>
    cases o with
    | measure qs cs =>
      rw [tidy, Bool.and_eq_true, Bool.and_eq_true, decide_eq_true_eq] at ht
      obtain ⟨⟨hl, htm⟩, hr⟩ := ht
      have key := scanM_kept K qs cs s hl htm hk hm
      rw [pairs, scan]
      revert key
      cases scanM true qs cs s with
      | ub => exact False.elim
      | throw => exact fun ⟨e, he, hn⟩ => ⟨e, List.mem_append_left _ he, hn⟩
      | ok s' =>
        rintro ⟨h1, h2, h3⟩
        have hzip : (qs.zip cs).map Prod.fst = qs := List.map_fst_zip (by omega)
        rw [hzip] at h2
        have hm' : ∀ x ∈ s'.meas, x ∈ K := by
          intro x hx
          rcases (h2 x).1 hx with h | h
          · rw [← hzip] at h
            obtain ⟨e, he, rfl⟩ := List.mem_map.1 h
            exact (h3 e he).elim id (hm _)
          · exact hm x h
        have key := ih s' (by rw [tidy_congr (m' := qs ++ s.meas) fun x => by rw [h2, List.mem_append]]; exact hr) h1 hm'
        simp only [MQT.Res.bind]
        revert key
        cases scan true l s' with
        | ub => exact False.elim
        | throw => exact fun ⟨e, he, hn⟩ => ⟨e, List.mem_append_right _ he, hn⟩
        | ok s2 =>
          rintro ⟨g1, g2, g3⟩
          refine ⟨g1, fun x => ?_, fun e he => ?_⟩
          · rw [g2, h2, List.map_append, List.mem_append, hzip]; tauto
          · rcases List.mem_append.1 he with he | he
            · exact h3 e he
            · exact Or.inl ((g3 e he).elim id (hm' _))
    | _ => simp only [tidy, pairs, scan] at *; exact ih s ht hk hm

/-! ### Garbage -/

theorem eraseVal_eq {m : List (ℕ × ℕ)} (h : (m.map Prod.snd).Nodup) (l : ℕ) :
    eraseVal l m = m.filter fun e => decide (e.2 ≠ l) := by
  induction m with
  | nil => rfl
  | cons e m ih =>
    obtain ⟨k, v⟩ := e
    have h' := List.nodup_cons.1 h
    rw [eraseVal, List.filter_cons]
    by_cases hv : v = l
    · subst hv
      rw [if_pos rfl, if_neg (by simp), eq_comm, List.filter_eq_self]
      intro e he
      have : e.2 ≠ v := fun e' => h'.1 (List.mem_map.2 ⟨e, he, e'⟩)
      simpa using this
    · rw [if_neg hv, if_pos (by simpa using hv), ih h'.2]

/-- The logical qubit is ancillary and one of the physical qubits holding it is idle. -/
def spare (ops : List (Op P)) (anc : List Bool) (E : List (ℕ × ℕ)) (l : ℕ) : Bool :=
  E.any fun e => decide (e.2 = l) && (anc[l]? == some true) && idle ops e.1

/-- After the entries `E` of the initial layout: the flags and the permutation, for outputs `T`. -/
structure GInv (ops : List (Op P)) (anc : List Bool) (n : ℕ) (T E : List (ℕ × ℕ)) (s : GSt) : Prop where
  len : s.garbage.length = n
  flag : ∀ l < n, s.garbage[l]? = some true ↔
    (∃ p, (p, l) ∈ E) ∧ (l ∉ T.map Prod.snd ∨ spare ops anc E l = true)
  out : s.out = T.filter fun e => !spare ops anc E e.2

theorem spare_snoc (ops : List (Op P)) (anc : List Bool) (E : List (ℕ × ℕ)) (p l x : ℕ) :
    spare ops anc (E ++ [(p, l)]) x =
      (spare ops anc E x || (decide (l = x) && (anc[x]? == some true) && idle ops p)) := by
  simp [spare, List.any_append]

theorem spare_mem {ops : List (Op P)} {anc : List Bool} {E : List (ℕ × ℕ)} {l : ℕ}
    (h : spare ops anc E l = true) : ∃ p, (p, l) ∈ E := by
  obtain ⟨e, he, h⟩ := List.any_eq_true.1 h
  rw [Bool.and_eq_true, Bool.and_eq_true, decide_eq_true_eq] at h
  exact ⟨e.1, by rw [← h.1.1]; exact he⟩

theorem get_set_true {g : List Bool} {l x : ℕ} (hl : l < g.length) :
    (g.set l true)[x]? = some true ↔ x = l ∨ g[x]? = some true := by
  rw [List.getElem?_set]
  by_cases h : l = x
  · subst h; simp [hl]
  · rw [if_neg h]; exact ⟨Or.inr, fun e => e.resolve_left fun e => h e.symm⟩

theorem mark_inv {ops : List (Op P)} {anc : List Bool} {n : ℕ} {T E : List (ℕ × ℕ)} {s : GSt} {p l : ℕ}
    (hT : (T.map Prod.snd).Nodup) (ha : n ≤ anc.length) (hl : l < n) (h : GInv ops anc n T E s) :
    ∃ s', mark ops anc s p l = .ok s' ∧ GInv ops anc n T (E ++ [(p, l)]) s' := by
  obtain ⟨hlen, hflag, hout⟩ := h
  have hnd : (s.out.map Prod.snd).Nodup := by
    rw [hout]; exact hT.sublist (List.Sublist.map _ List.filter_sublist)
  obtain ⟨a, haa⟩ : ∃ a, anc[l]? = some a := ⟨anc[l], List.getElem?_eq_getElem (by omega)⟩
  have hany : (s.out.any fun e => decide (e.2 = l)) = true ↔ l ∈ s.out.map Prod.snd := by
    simp [List.any_eq_true, List.mem_map]
  have hoT : l ∈ s.out.map Prod.snd ↔ l ∈ T.map Prod.snd ∧ spare ops anc E l = false := by
    rw [hout, List.mem_map, List.mem_map]
    constructor
    · rintro ⟨e, he, rfl⟩
      obtain ⟨h1, h2⟩ := List.mem_filter.1 he
      exact ⟨⟨e, h1, rfl⟩, by simpa using h2⟩
    · rintro ⟨⟨e, he, rfl⟩, h2⟩
      exact ⟨e, List.mem_filter.2 ⟨he, by simpa using h2⟩, rfl⟩
  -- the first half
  obtain ⟨s1, hs1, hlen1, hout1, hflag1⟩ : ∃ s1,
      (if s.out.any fun e => decide (e.2 = l) then MQT.Res.ok s else setGarbage s l) = .ok s1 ∧
      s1.garbage.length = n ∧ s1.out = s.out ∧
      ∀ x, s1.garbage[x]? = some true ↔ (x = l ∧ l ∉ s.out.map Prod.snd) ∨ s.garbage[x]? = some true := by
    by_cases hv : l ∈ s.out.map Prod.snd
    · exact ⟨s, if_pos (hany.2 hv), hlen, rfl, fun x => by simp [hv]⟩
    · refine ⟨⟨eraseVal l s.out, s.garbage.set l true⟩, ?_, by simpa using hlen, ?_, fun x => ?_⟩
      · rw [if_neg (hany.not.2 hv), setGarbage, if_pos (by omega)]
      · show eraseVal l s.out = s.out
        rw [eraseVal_eq hnd, List.filter_eq_self]
        intro e he
        have : e.2 ≠ l := fun e' => hv (e' ▸ List.mem_map_of_mem (f := Prod.snd) he)
        simpa using this
      · show (s.garbage.set l true)[x]? = _ ↔ _
        rw [get_set_true (by omega)]; simp only [hv, not_false_eq_true, and_true]
  have hgoal : ∀ (c : Bool), (a && idle ops p) = c → ∀ x,
      spare ops anc (E ++ [(p, l)]) x = (spare ops anc E x || (decide (l = x) && c)) := by
    intro c hc x
    rw [spare_snoc]
    by_cases hx : l = x
    · subst hx; rw [haa, ← hc]; cases a <;> simp
    · simp [hx]
  have hmem : ∀ x, (∃ p', (p', x) ∈ E ++ [(p, l)]) ↔ (∃ p', (p', x) ∈ E) ∨ x = l := by
    intro x
    simp only [List.mem_append, List.mem_singleton, Prod.mk.injEq]
    constructor
    · rintro ⟨p', h | h⟩
      · exact Or.inl ⟨p', h⟩
      · exact Or.inr h.2
    · rintro (⟨p', h⟩ | rfl)
      · exact ⟨p', Or.inl h⟩
      · exact ⟨p, Or.inr ⟨rfl, rfl⟩⟩
  have hmark : mark ops anc s p l = if a && idle ops p then setGarbage s1 l else .ok s1 := by
    rw [mark, hs1]; simp only [MQT.Res.bind, haa]
  rw [hmark]
  cases hc : (a && idle ops p) with
  | false =>
    have hg := hgoal false hc
    simp only [Bool.and_false, Bool.or_false] at hg
    refine ⟨s1, rfl, hlen1, fun x hx => ?_, by rw [hout1, hout]; simp only [hg]⟩
    rw [hflag1, hflag x hx, hg, hmem]
    by_cases hxl : x = l
    · subst hxl
      rw [hoT]
      cases hsp : spare ops anc E x with
      | false => simp
      | true => simp
    · simp [hxl]
  | true =>
    have hg := hgoal true hc
    simp only [Bool.and_true] at hg
    refine ⟨⟨eraseVal l s1.out, s1.garbage.set l true⟩, ?_, by simpa using hlen1, fun x hx => ?_, ?_⟩
    · rw [if_pos rfl, setGarbage, if_pos (by omega)]
    · show (s1.garbage.set l true)[x]? = _ ↔ _
      rw [get_set_true (by omega), hflag1, hflag x hx, hg, hmem]
      by_cases hxl : x = l
      · simp [hxl]
      · have : ¬ l = x := fun e => hxl e.symm
        simp [hxl, this]
    · show eraseVal l s1.out = _
      rw [hout1, eraseVal_eq hnd, hout, List.filter_filter]
      refine List.filter_congr fun e _ => ?_
      rw [hg]
      by_cases hx : l = e.2
      · simp [hx]
      · have : e.2 ≠ l := fun e' => hx e'.symm
        simp [hx, this]

theorem markAll_inv {ops : List (Op P)} {anc : List Bool} {n : ℕ} {T : List (ℕ × ℕ)}
    (hT : (T.map Prod.snd).Nodup) (ha : n ≤ anc.length) (m E : List (ℕ × ℕ)) (s : GSt)
    (hm : ∀ e ∈ m, e.2 < n) (h : GInv ops anc n T E s) :
    ∃ s', markAll ops anc m s = .ok s' ∧ GInv ops anc n T (E ++ m) s' := by
  induction m generalizing E s with
  | nil => exact ⟨s, by rw [markAll], by simpa using h⟩
  | cons e m ih =>
    obtain ⟨p, l⟩ := e
    obtain ⟨s1, hs1, hi1⟩ := mark_inv (p := p) hT ha (hm (p, l) List.mem_cons_self) h
    obtain ⟨s2, hs2, hi2⟩ := ih (E ++ [(p, l)]) s1 (fun e he => hm e (List.mem_cons_of_mem _ he)) hi1
    exact ⟨s2, by rw [markAll, hs1]; exact hs2, by simpa using hi2⟩

theorem ginv_init (ops : List (Op P)) (anc : List Bool) (n : ℕ) (T : List (ℕ × ℕ)) :
    GInv ops anc n T [] ⟨T, List.replicate n false⟩ := by
  refine ⟨by simp, fun l hl => ?_, ?_⟩
  · simp [hl]
  · simp [spare]

theorem nodup_vals {T : List (ℕ × ℕ)} (hs : Sorted T) (hd : Distinct T) : (T.map Prod.snd).Nodup := by
  have hnd : T.Nodup := List.Nodup.of_map Prod.fst (hs.imp fun h => Nat.ne_of_lt h)
  refine (List.nodup_map_iff_inj_on hnd).2 fun x hx y hy e => ?_
  obtain ⟨q, b⟩ := x
  obtain ⟨q', b'⟩ := y
  cases (show b = b' from e)
  have := hd q q' b ((lookup_iff hs q b).2 hx) ((lookup_iff hs q' b).2 hy)
  rw [this]

end MQT.Opt.IOMap
