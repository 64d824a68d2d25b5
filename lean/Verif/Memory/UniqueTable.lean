import Verif.Memory.MemoryManager
import Mathlib.Algebra.BigOperators.Group.Finset.Basic
import Mathlib.Algebra.BigOperators.Ring.Finset
import Mathlib.Data.Nat.Bitwise

set_option autoImplicit false

/-
Model of `dd::UniqueTable` (include/mqt-core/dd/UniqueTable.hpp:78-128, 245-266,
src/dd/UniqueTable.cpp:24-112) on top of the model of its memory manager.

The buckets are intrusive linked lists over the `next_` fields that the memory manager also uses for
its list of available entries. A node is its level `v` and its edges `e`, an element of an arbitrary
type with decidable equality (for density matrices the flags belong to `e`, UniqueTable.hpp:91-97).
The hash function of the edges is an arbitrary function. `none` is undefined behaviour (out-of-range
access) or non-termination (the loops over buckets carry fuel `numUsed + 1`).
Not modelled: hit/collision/active counters, the terminal node (never stored).
-/
namespace MQT.UT

set_option linter.unusedSectionVars false

open MQT.Mem

variable {E : Type} [DecidableEq E]

/-- UniqueTable.hpp:205-232: members, together with the memory of the nodes: `cont` holds level and
edges, `ref` the reference count. `rows v` is `tables[v].size()`, `bucket v k` is `tables[v][k]`. -/
structure T (E : Type) where
  mm : MM
  cont : Addr → Nat × E
  ref : Addr → Nat
  nVars : Nat
  rows : Nat → Nat
  bucket : Nat → Nat → Option Addr
  numEntries : Nat → Nat
  gcLimit : Nat

/-- UniqueTable.hpp:59-61, configuration. -/
structure Cfg (E : Type) where
  nBuckets : Nat
  initialGCLimit : Nat
  hash : E → Nat
  grow : Nat → Nat

/-- UniqueTable.cpp:24-32: constructor; note that the tables of the initial variables get no buckets. -/
def T.create (c : Cfg E) (mm : MM) (cont : Addr → Nat × E) (ref : Addr → Nat) (nVars : Nat) : T E where
  mm := mm
  cont := cont
  ref := ref
  nVars := nVars
  rows := fun _ => 0
  bucket := fun _ _ => none
  numEntries := fun _ => 0
  gcLimit := c.initialGCLimit

/-- UniqueTable.cpp:34-44: `resize` to `n` variables: existing tables are kept, new ones are empty
with `nBuckets` buckets. -/
def T.resize (c : Cfg E) (s : T E) (n : Nat) : T E :=
  { s with nVars := n,
           rows := fun v => if v < s.nVars then s.rows v else c.nBuckets,
           bucket := fun v k => if v < s.nVars then s.bucket v k else none,
           numEntries := fun v => if v < s.nVars then s.numEntries v else 0 }

/-- UniqueTable.hpp:78-88: `hash & (nBuckets - 1)`. -/
def key (c : Cfg E) (e : E) : Nat := c.hash e &&& (c.nBuckets - 1)

/-- UniqueTable.hpp:245-266: the loop of `searchTable`. -/
def search (s : T E) (e : E) : Nat → Option Addr → Option (Option Addr)
  | 0, _ => none
  | _ + 1, none => some none
  | f + 1, some a => if (s.cont a).2 = e then some (some a) else search s e f (s.mm.next a)

/-- UniqueTable.hpp:103-128: `lookup`. -/
def T.lookup (c : Cfg E) (s : T E) (p : Addr) : Option (T E × Addr) :=
  let v := (s.cont p).1
  let k := key c (s.cont p).2
  if v < s.nVars ∧ k < s.rows v then
    match search s (s.cont p).2 (s.mm.numUsed + 1) (s.bucket v k) with
    | none => none
    | some (some q) =>
      if p ≠ q then some ({ s with mm := s.mm.returnEntry p }, q) else some (s, q)
    | some none =>
      some ({ s with
        mm := s.mm.setNext p (s.bucket v k)
        bucket := fun v' k' => if v' = v ∧ k' = k then some p else s.bucket v' k'
        numEntries := fun v' => if v' = v then s.numEntries v + 1 else s.numEntries v' }, p)
  else none

/-- UniqueTable.cpp:78-96: the `while` loop over one bucket; `lastp` is the previous survivor, the
last component collects the addresses given back. -/
def gcBucket (v k : Nat) : Nat → T E → Option Addr → Option Addr → Option (T E × List Addr)
  | 0, _, _, _ => none
  | _ + 1, s, _, none => some (s, [])
  | f + 1, s, lastp, some p =>
    if s.ref p = 0 then
      let next := s.mm.next p
      let s := match lastp with
        | none => { s with bucket := fun v' k' => if v' = v ∧ k' = k then next else s.bucket v' k' }
        | some q => { s with mm := s.mm.setNext q next }
      let s := { s with mm := s.mm.returnEntry p
                        numEntries := fun v' => if v' = v then s.numEntries v - 1 else s.numEntries v' }
      (gcBucket v k f s lastp next).map fun r => (r.1, p :: r.2)
    else gcBucket v k f s (some p) (s.mm.next p)

/-- UniqueTable.cpp:73-101: the loops over all buckets of all variables. -/
def gcSweep : List (Nat × Nat) → T E → Option (T E × List Addr)
  | [], s => some (s, [])
  | (v, k) :: l, s =>
    (gcBucket v k (s.mm.numUsed + 1) s none (s.bucket v k)).bind fun r =>
      (gcSweep l r.1).map fun r' => (r'.1, r.2 ++ r'.2)

/-- All buckets in iteration order. -/
def T.cells (s : T E) : List (Nat × Nat) :=
  (List.range s.nVars).flatMap fun v => (List.range (s.rows v)).map fun k => (v, k)

/-- UniqueTable.cpp:172-178: `getNumEntries`. -/
def T.getNumEntries (s : T E) : Nat := ((List.range s.nVars).map s.numEntries).sum

/-- UniqueTable.cpp:66-112: `garbageCollect`. The result is the new state, the reclaimed addresses
(not an observable of the C++ function) and the returned count. -/
def T.garbageCollect (c : Cfg E) (s : T E) (force : Bool) : Option (T E × List Addr × Nat) :=
  let before := s.getNumEntries
  if (!force && decide (before < s.gcLimit)) || decide (before = 0) then some (s, [], 0)
  else (gcSweep s.cells s).map fun r =>
    let after := r.1.getNumEntries
    let s := if after > r.1.gcLimit / 10 * 9 then { r.1 with gcLimit := after + c.initialGCLimit }
      else r.1
    (s, r.2, before - after)

/-- UniqueTable.cpp:114-125: `clear`. -/
def T.clear (c : Cfg E) (s : T E) : T E :=
  { s with bucket := fun _ _ => none, numEntries := fun _ => 0, gcLimit := c.initialGCLimit }

/-! ### Invariant -/

/-- The bucket `(v,k)` exists. -/
def T.cell (s : T E) (v k : Nat) : Prop := v < s.nVars ∧ k < s.rows v

structure Inv (c : Cfg E) (s : T E) (live : Finset Addr) (avail : List Addr) (L : Nat → Nat → List Addr) :
    Prop where
  mm : Mem.Inv s.mm live avail
  rows : ∀ v < s.nVars, s.rows v = c.nBuckets
  chain : ∀ v k, s.cell v k → Chain s.mm.next (s.bucket v k) (L v k)
  nodup : ∀ v k, (L v k).Nodup
  live : ∀ v k, ∀ a ∈ L v k, a ∈ live
  home : ∀ v k, ∀ a ∈ L v k, s.cell v k ∧ (s.cont a).1 = v ∧ key c (s.cont a).2 = k
  uniq : ∀ v k, ∀ a ∈ L v k, ∀ b ∈ L v k, (s.cont a).2 = (s.cont b).2 → a = b
  cnt : ∀ v < s.nVars, s.numEntries v = ∑ k ∈ Finset.range (s.rows v), (L v k).length

theorem key_lt (c : Cfg E) (hb : 0 < c.nBuckets) (e : E) : key c e < c.nBuckets := by
  have : key c e ≤ c.nBuckets - 1 := Nat.and_le_right
  omega

theorem Inv.length_le {c : Cfg E} {s : T E} {live : Finset Addr} {avail : List Addr}
    {L : Nat → Nat → List Addr} (h : Inv c s live avail L) (v k : Nat) :
    (L v k).length ≤ s.mm.numUsed := by
  rw [h.mm.used, ← List.toFinset_card_of_nodup (h.nodup v k)]
  apply Finset.card_le_card
  intro a ha
  exact h.live v k a (by simpa using ha)

theorem search_spec {s : T E} {e : E} : ∀ {l : List Addr} {o : Option Addr} {f : Nat},
    Chain s.mm.next o l → l.length < f →
    (∃ a ∈ l, (s.cont a).2 = e ∧ search s e f o = some (some a)) ∨
    ((∀ a ∈ l, (s.cont a).2 ≠ e) ∧ search s e f o = some none) := by
  intro l
  induction l with
  | nil =>
    intro o f hc hf
    obtain ⟨f, rfl⟩ : ∃ g, f = g + 1 := ⟨f - 1, by simp at hf; omega⟩
    cases hc
    right; exact ⟨by simp, rfl⟩
  | cons a l ih =>
    intro o f hc hf
    obtain ⟨f, rfl⟩ : ∃ g, f = g + 1 := ⟨f - 1, by simp at hf; omega⟩
    obtain ⟨rfl, hc⟩ := hc
    simp only [search]
    by_cases he : (s.cont a).2 = e
    · left; exact ⟨a, by simp, he, by simp [he]⟩
    · simp only [he, if_false]
      rcases ih (f := f) hc (by simp at hf; omega) with ⟨b, hb, hb2, hb3⟩ | ⟨h1, h2⟩
      · left; exact ⟨b, by simp [hb], hb2, hb3⟩
      · right
        refine ⟨?_, h2⟩
        intro b hb
        rcases List.mem_cons.mp hb with rfl | hb
        · exact he
        · exact h1 b hb

/-- Relinking the predecessor of `a`. -/
theorem Chain.relink {next : Addr → Option Addr} {q a : Addr} : ∀ {pre l : List Addr} {o : Option Addr},
    (pre ++ q :: a :: l).Nodup → Chain next o (pre ++ q :: a :: l) →
    Chain (fun x => if x = q then next a else next x) o (pre ++ q :: l) := by
  intro pre
  induction pre with
  | nil =>
    intro l o hn hc
    obtain ⟨h1, h2, h3⟩ := hc
    refine ⟨h1, ?_⟩
    simp only [if_true]
    refine h3.congr ?_
    intro x hx
    have : x ≠ q := by
      rintro rfl
      simp only [List.nil_append, List.nodup_cons, List.mem_cons, not_or] at hn
      exact hn.1.2 hx
    simp [this]
  | cons b pre ih =>
    intro l o hn hc
    obtain ⟨h1, h2⟩ := hc
    simp only [List.cons_append, List.nodup_cons] at hn
    refine ⟨h1, ?_⟩
    have : b ≠ q := by rintro rfl; exact hn.1 (by simp)
    simp only [this, if_false]
    exact ih hn.2 h2

theorem Inv.notin {c : Cfg E} {s : T E} {live : Finset Addr} {avail : List Addr}
    {L : Nat → Nat → List Addr} (h : Inv c s live avail L) {v k v' k' : Nat} {a : Addr}
    (ha : a ∈ L v k) (hne : ¬ (v' = v ∧ k' = k)) : a ∉ L v' k' := by
  intro ha'
  have h1 := h.home _ _ a ha
  have h2 := h.home _ _ a ha'
  exact hne ⟨h2.2.1.symm.trans h1.2.1, h2.2.2.symm.trans h1.2.2⟩

/-- Update of one bucket list. -/
def updL (L : Nat → Nat → List Addr) (v k : Nat) (l : List Addr) : Nat → Nat → List Addr :=
  fun v' k' => if v' = v ∧ k' = k then l else L v' k'

theorem updL_same (L : Nat → Nat → List Addr) (v k : Nat) (l : List Addr) : updL L v k l v k = l := by
  simp [updL]

theorem updL_ne (L : Nat → Nat → List Addr) {v k v' k' : Nat} (l : List Addr) (h : ¬ (v' = v ∧ k' = k)) :
    updL L v k l v' k' = L v' k' := by simp only [updL, h, if_false]

theorem updL_self (L : Nat → Nat → List Addr) (v k : Nat) : updL L v k (L v k) = L := by
  funext v' k'; unfold updL; split
  · rename_i h; rw [h.1, h.2]
  · rfl

theorem updL_updL (L : Nat → Nat → List Addr) (v k : Nat) (l l' : List Addr) :
    updL (updL L v k l) v k l' = updL L v k l' := by
  funext v' k'; unfold updL; split <;> rfl

theorem sum_updL (L : Nat → Nat → List Addr) (v k n : Nat) (l : List Addr) (hk : k < n) :
    ∑ j ∈ Finset.range n, (updL L v k l v j).length + (L v k).length =
      ∑ j ∈ Finset.range n, (L v j).length + l.length := by
  have hm : k ∈ Finset.range n := by simpa using hk
  rw [← Finset.add_sum_erase _ _ hm, ← Finset.add_sum_erase (Finset.range n) (fun j => (L v j).length) hm]
  have : ∑ j ∈ (Finset.range n).erase k, (updL L v k l v j).length =
      ∑ j ∈ (Finset.range n).erase k, (L v j).length := by
    apply Finset.sum_congr rfl
    intro j hj
    have : j ≠ k := (Finset.mem_erase.mp hj).1
    rw [updL_ne]; simp [this]
  rw [this, updL_same]; omega

/-- Removing one dead node `a` from a bucket, as one iteration of the loop of `garbageCollect`. -/
def gcRemove (v k : Nat) (s : T E) (lastp : Option Addr) (p : Addr) : T E :=
  let next := s.mm.next p
  let s := match lastp with
    | none => { s with bucket := fun v' k' => if v' = v ∧ k' = k then next else s.bucket v' k' }
    | some q => { s with mm := s.mm.setNext q next }
  { s with mm := s.mm.returnEntry p
           numEntries := fun v' => if v' = v then s.numEntries v - 1 else s.numEntries v' }

theorem gcBucket_dead (v k f : Nat) (s : T E) (lastp : Option Addr) (p : Addr) (h : s.ref p = 0) :
    gcBucket v k (f + 1) s lastp (some p) =
      (gcBucket v k f (gcRemove v k s lastp p) lastp (s.mm.next p)).map fun r => (r.1, p :: r.2) := by
  simp only [gcBucket, h, if_true]; rfl

theorem gcBucket_alive (v k f : Nat) (s : T E) (lastp : Option Addr) (p : Addr) (h : s.ref p ≠ 0) :
    gcBucket v k (f + 1) s lastp (some p) = gcBucket v k f s (some p) (s.mm.next p) := by
  simp only [gcBucket, h, if_false]

theorem gcRemove_frame (v k : Nat) (s : T E) (lastp : Option Addr) (p : Addr) :
    (gcRemove v k s lastp p).cont = s.cont ∧ (gcRemove v k s lastp p).ref = s.ref ∧
    (gcRemove v k s lastp p).nVars = s.nVars ∧ (gcRemove v k s lastp p).rows = s.rows ∧
    (gcRemove v k s lastp p).gcLimit = s.gcLimit ∧
    (gcRemove v k s lastp p).numEntries = (fun v' => if v' = v then s.numEntries v - 1 else s.numEntries v') := by
  cases lastp <;> exact ⟨rfl, rfl, rfl, rfl, rfl, rfl⟩

theorem Inv.gcRemove {c : Cfg E} {s : T E} {live : Finset Addr} {avail : List Addr}
    {L : Nat → Nat → List Addr} (h : Inv c s live avail L) {v k : Nat} (hcell : s.cell v k)
    {pre l : List Addr} {a : Addr} (hL : L v k = pre ++ a :: l) :
    Inv c (gcRemove v k s pre.getLast? a) (live.erase a) (a :: avail) (updL L v k (pre ++ l)) := by
  obtain ⟨f1, f2, f3, f4, f5, f6⟩ := gcRemove_frame v k s pre.getLast? a
  have ha : a ∈ L v k := by rw [hL]; simp
  have halive := h.live v k a ha
  have hnd := h.nodup v k
  rw [hL] at hnd
  have hapl : a ∉ pre ++ l := by
    rw [List.nodup_middle] at hnd; exact (List.nodup_cons.mp hnd).1
  have hsub : ∀ x ∈ pre ++ l, x ∈ L v k := by
    intro x hx; rw [hL]
    rcases List.mem_append.mp hx with hx | hx <;> simp [hx]
  have hcellEq : ∀ v' k', (UT.gcRemove v k s pre.getLast? a).cell v' k' ↔ s.cell v' k' := by
    intro v' k'; unfold T.cell; rw [f3, f4]
  have hmem : ∀ v' k' x, x ∈ updL L v k (pre ++ l) v' k' → x ∈ L v' k' ∧ x ≠ a := by
    intro v' k' x hx
    by_cases e : v' = v ∧ k' = k
    · obtain ⟨rfl, rfl⟩ := e
      rw [updL_same] at hx
      exact ⟨hsub x hx, by rintro rfl; exact hapl hx⟩
    · rw [updL_ne _ _ e] at hx
      exact ⟨hx, by rintro rfl; exact h.notin ha e hx⟩
  constructor
  · -- memory manager
    unfold UT.gcRemove
    cases hp : pre.getLast? with
    | none => exact h.mm.returnEntry halive
    | some q =>
      have hq : q ∈ live := h.live v k q (hsub q (by simp [List.mem_of_getLast? hp]))
      exact (h.mm.setNext hq _).returnEntry halive
  · intro v' hv'; rw [f3] at hv'; rw [f4]; exact h.rows v' hv'
  · -- chains
    intro v' k' hc'
    rw [hcellEq] at hc'
    have hch := h.chain v' k' hc'
    by_cases e : v' = v ∧ k' = k
    · obtain ⟨rfl, rfl⟩ := e
      rw [updL_same]
      rw [hL] at hch
      rcases List.eq_nil_or_concat pre with hp | ⟨pre', q, hp⟩
      · subst hp
        obtain ⟨h1, h2⟩ := hch
        simp only [List.nil_append, List.getLast?_nil]
        show Chain (fun x => if x = a then _ else s.mm.next x) (if v' = v' ∧ k' = k' then s.mm.next a else _) l
        simp only [and_self, if_true]
        refine h2.congr ?_
        intro x hx
        have : x ≠ a := by rintro rfl; exact hapl (by simp [hx])
        simp [this]
      · rw [List.concat_eq_append] at hp
        subst hp
        have e1 : (pre' ++ [q] ++ a :: l) = pre' ++ q :: a :: l := by simp
        have e2 : (pre' ++ [q] ++ l) = pre' ++ q :: l := by simp
        rw [e1] at hch hnd
        rw [e2] at hapl
        have hr := Chain.relink hnd hch
        simp only [List.getLast?_append, List.getLast?_singleton, Option.some_or]
        rw [e2]
        show Chain (fun x => if x = a then _ else if x = q then s.mm.next a else s.mm.next x) (s.bucket v' k') _
        refine hr.congr ?_
        intro x hx
        have : x ≠ a := by rintro rfl; exact hapl hx
        simp [this]
    · rw [updL_ne _ _ e]
      have hb : (UT.gcRemove v k s pre.getLast? a).bucket v' k' = s.bucket v' k' := by
        unfold UT.gcRemove
        cases pre.getLast? with
        | none => simp only [e, if_false]
        | some q => rfl
      rw [hb]
      refine hch.congr ?_
      intro x hx
      have hxa : x ≠ a := by rintro rfl; exact h.notin ha e hx
      unfold UT.gcRemove
      cases hp : pre.getLast? with
      | none => simp [MM.returnEntry, MM.trackReturnedEntry, hxa]
      | some q =>
        have hq : q ∈ L v k := hsub q (by simp [List.mem_of_getLast? hp])
        have hxq : x ≠ q := by rintro rfl; exact h.notin hq e hx
        simp [MM.returnEntry, MM.trackReturnedEntry, MM.setNext, hxa, hxq]
  · intro v' k'
    by_cases e : v' = v ∧ k' = k
    · obtain ⟨rfl, rfl⟩ := e
      rw [updL_same]
      rw [List.nodup_middle] at hnd; exact (List.nodup_cons.mp hnd).2
    · rw [updL_ne _ _ e]; exact h.nodup v' k'
  · intro v' k' x hx
    obtain ⟨h1, h2⟩ := hmem _ _ _ hx
    exact Finset.mem_erase.mpr ⟨h2, h.live _ _ x h1⟩
  · intro v' k' x hx
    rw [hcellEq, f1]; exact h.home _ _ x (hmem _ _ _ hx).1
  · intro v' k' x hx y hy hxy
    rw [f1] at hxy
    exact h.uniq _ _ x (hmem _ _ _ hx).1 y (hmem _ _ _ hy).1 hxy
  · intro v' hv'
    rw [f3] at hv'
    rw [f4, f6]
    simp only
    by_cases e : v' = v
    · subst e
      have := sum_updL L v' k (s.rows v') (pre ++ l) hcell.2
      have h2 := h.cnt v' hv'
      rw [hL] at this
      simp only [List.length_append, List.length_cons, if_true] at this ⊢
      omega
    · simp only [e, if_false]
      rw [h.cnt v' hv']
      apply Finset.sum_congr rfl
      intro j _
      rw [updL_ne]; simp [e]

/-- Frame conditions of a garbage collection. -/
structure Frame (s s' : T E) : Prop where
  cont : s'.cont = s.cont
  ref : s'.ref = s.ref
  nVars : s'.nVars = s.nVars
  rows : s'.rows = s.rows
  gcLimit : s'.gcLimit = s.gcLimit

theorem Frame.rfl' (s : T E) : Frame s s := ⟨rfl, rfl, rfl, rfl, rfl⟩
theorem Frame.trans {s s' s'' : T E} (h : Frame s s') (h' : Frame s' s'') : Frame s s'' :=
  ⟨h'.cont.trans h.cont, h'.ref.trans h.ref, h'.nVars.trans h.nVars, h'.rows.trans h.rows,
    h'.gcLimit.trans h.gcLimit⟩

theorem gcBucket_spec {c : Cfg E} {v k : Nat} : ∀ (l : List Addr) {s : T E} {live : Finset Addr}
    {avail : List Addr} {L : Nat → Nat → List Addr} {pre : List Addr} {o : Option Addr} {f : Nat},
    Inv c s live avail L → s.cell v k → L v k = pre ++ l → Chain s.mm.next o l → l.length < f →
    ∃ s' R live' avail', gcBucket v k f s pre.getLast? o = some (s', R) ∧
      R = l.filter (fun a => s.ref a = 0) ∧
      Inv c s' live' avail' (updL L v k (pre ++ l.filter (fun a => s.ref a ≠ 0))) ∧ Frame s s' ∧
      (∀ x, x ∈ live' ↔ x ∈ live ∧ x ∉ R) := by
  intro l
  induction l with
  | nil =>
    intro s live avail L pre o f h hcell hL hc hf
    obtain ⟨f, rfl⟩ : ∃ g, f = g + 1 := ⟨f - 1, by simp at hf; omega⟩
    cases hc
    refine ⟨s, [], live, avail, rfl, rfl, ?_, Frame.rfl' s, by simp⟩
    rw [List.filter_nil, ← hL, updL_self]; exact h
  | cons a l ih =>
    intro s live avail L pre o f h hcell hL hc hf
    obtain ⟨f, rfl⟩ : ∃ g, f = g + 1 := ⟨f - 1, by simp at hf; omega⟩
    obtain ⟨rfl, hc⟩ := hc
    by_cases hr : s.ref a = 0
    · have h' := h.gcRemove hcell hL
      obtain ⟨f1, f2, f3, f4, f5, f6⟩ := gcRemove_frame v k s pre.getLast? a
      have hnd := h.nodup v k
      rw [hL, List.nodup_middle] at hnd
      have hapl := (List.nodup_cons.mp hnd).1
      have hc' : Chain (gcRemove v k s pre.getLast? a).mm.next (s.mm.next a) l := by
        refine hc.congr ?_
        intro x hx
        have hxa : x ≠ a := by rintro rfl; exact hapl (by simp [hx])
        unfold gcRemove
        cases hp : pre.getLast? with
        | none => simp [MM.returnEntry, MM.trackReturnedEntry, hxa]
        | some q =>
          have hq := List.mem_of_getLast? hp
          have hxq : x ≠ q := by
            rintro rfl
            have := List.nodup_append.mp (List.nodup_cons.mp hnd).2
            exact this.2.2 x hq x hx rfl
          simp [MM.returnEntry, MM.trackReturnedEntry, MM.setNext, hxa, hxq]
      obtain ⟨s', R, live', avail', e1, e2, e3, e4, e5⟩ := ih (pre := pre) (f := f) h'
        (by unfold T.cell; rw [f3, f4]; exact hcell) (updL_same _ _ _ _) hc' (by simp at hf; omega)
      refine ⟨s', a :: R, live', avail', ?_, ?_, ?_, ?_, ?_⟩
      · rw [gcBucket_dead v k f s _ a hr, e1]; rfl
      · rw [f2] at e2; simp [hr, e2]
      · rw [f2, updL_updL] at e3
        simpa [hr] using e3
      · exact Frame.trans ⟨f1, f2, f3, f4, f5⟩ e4
      · intro x
        rw [e5]
        simp only [Finset.mem_erase, List.mem_cons, not_or]
        tauto
    · have hL' : L v k = (pre ++ [a]) ++ l := by simp [hL]
      obtain ⟨s', R, live', avail', e1, e2, e3, e4, e5⟩ := ih (pre := pre ++ [a]) (f := f) h hcell hL' hc
        (by simp at hf; omega)
      have hlast : (pre ++ [a]).getLast? = some a := by simp
      rw [hlast] at e1
      refine ⟨s', R, live', avail', ?_, ?_, ?_, e4, e5⟩
      · rw [gcBucket_alive v k f s _ a hr, e1]
      · simp [hr, e2]
      · simpa [hr] using e3

/-- Lists after sweeping the cells `cs`. -/
def swept (ref : Addr → Nat) (cs : List (Nat × Nat)) (L : Nat → Nat → List Addr) : Nat → Nat → List Addr :=
  fun v k => if (v, k) ∈ cs then (L v k).filter (fun a => ref a ≠ 0) else L v k

theorem gcSweep_spec {c : Cfg E} : ∀ (cs : List (Nat × Nat)) {s : T E} {live : Finset Addr}
    {avail : List Addr} {L : Nat → Nat → List Addr}, Inv c s live avail L →
    (∀ p ∈ cs, s.cell p.1 p.2) → cs.Nodup →
    ∃ s' R live' avail', gcSweep cs s = some (s', R) ∧
      Inv c s' live' avail' (swept s.ref cs L) ∧ Frame s s' ∧
      R.Nodup ∧
      (∀ x, x ∈ R ↔ s.ref x = 0 ∧ ∃ p ∈ cs, x ∈ L p.1 p.2) ∧
      (∀ x, x ∈ live' ↔ x ∈ live ∧ x ∉ R) := by
  intro cs
  induction cs with
  | nil =>
    intro s live avail L h _ _
    refine ⟨s, [], live, avail, rfl, ?_, Frame.rfl' s, List.nodup_nil, by simp, by simp⟩
    have : swept s.ref [] L = L := by funext v k; simp [swept]
    rw [this]; exact h
  | cons p cs ih =>
    intro s live avail L h hcs hnd
    obtain ⟨v, k⟩ := p
    have hcell : s.cell v k := hcs (v, k) (by simp)
    have hlen := h.length_le v k
    obtain ⟨s1, R1, live1, avail1, e1, e2, e3, e4, e5⟩ :=
      gcBucket_spec (L v k) (pre := []) (f := s.mm.numUsed + 1) h hcell (by simp) (h.chain v k hcell)
        (by omega)
    have hnd' := List.nodup_cons.mp hnd
    obtain ⟨s2, R2, live2, avail2, g1, g2, g3, g4, g5, g6⟩ := ih e3
      (by intro p hp; unfold T.cell; rw [e4.nVars, e4.rows]; exact hcs p (by simp [hp])) hnd'.2
    simp only [List.nil_append, List.getLast?_nil] at e1 e3 g2 g5
    have hcs_ne : ∀ p ∈ cs, ¬ (p.1 = v ∧ p.2 = k) := by
      rintro ⟨v', k'⟩ hp ⟨rfl, rfl⟩; exact hnd'.1 hp
    rw [e4.ref] at g5 g2
    have hR2 : ∀ x, x ∈ R2 ↔ s.ref x = 0 ∧ ∃ p ∈ cs, x ∈ L p.1 p.2 := by
      intro x
      rw [g5]
      constructor
      · rintro ⟨h1, p, hp, hx⟩
        rw [updL_ne _ _ (hcs_ne p hp)] at hx
        exact ⟨h1, p, hp, hx⟩
      · rintro ⟨h1, p, hp, hx⟩
        refine ⟨h1, p, hp, ?_⟩
        rw [updL_ne _ _ (hcs_ne p hp)]; exact hx
    refine ⟨s2, R1 ++ R2, live2, avail2, ?_, ?_, e4.trans g3, ?_, ?_, ?_⟩
    · simp only [gcSweep, e1, Option.bind_some, g1, Option.map_some]
    · have : swept s.ref ((v, k) :: cs) L =
          swept s.ref cs (updL L v k ((L v k).filter (fun a => s.ref a ≠ 0))) := by
        funext v' k'
        unfold swept
        by_cases e : v' = v ∧ k' = k
        · obtain ⟨rfl, rfl⟩ := e
          simp only [List.mem_cons, true_or, if_true, hnd'.1, if_false, updL_same]
        · have e' : (v', k') ≠ (v, k) := by intro h; exact e (by simpa using h)
          simp only [List.mem_cons, e', false_or, updL_ne _ _ e]
      rw [this]; exact g2
    · rw [List.nodup_append]
      refine ⟨?_, g4, ?_⟩
      · rw [e2]; exact (h.nodup v k).filter _
      · intro x hx y hy
        rintro rfl
        rw [e2] at hx
        obtain ⟨_, p, hp, hy⟩ := (hR2 x).mp hy
        exact h.notin (List.mem_of_mem_filter hx) (hcs_ne p hp) hy
    · intro x
      rw [List.mem_append, hR2, e2, List.mem_filter]
      simp only [List.mem_cons, exists_eq_or_imp, decide_eq_true_eq]
      tauto
    · intro x
      rw [g6, e5, List.mem_append]
      tauto

theorem mem_cells {s : T E} {v k : Nat} : (v, k) ∈ s.cells ↔ s.cell v k := by
  simp only [T.cells, T.cell, List.mem_flatMap, List.mem_range, List.mem_map, Prod.mk.injEq]
  constructor
  · rintro ⟨v', hv', k', hk', rfl, rfl⟩; exact ⟨hv', hk'⟩
  · rintro ⟨h1, h2⟩; exact ⟨v, h1, k, h2, rfl, rfl⟩

theorem nodup_cells (s : T E) : s.cells.Nodup := by
  unfold T.cells
  rw [List.nodup_flatMap]
  constructor
  · intro v _
    exact List.Nodup.map (fun a b h => by simpa using h) List.nodup_range
  · refine List.Pairwise.imp (R := (· ≠ ·)) ?_ List.nodup_range
    intro a b hab x hx hx'
    obtain ⟨_, _, rfl⟩ := List.mem_map.mp hx
    obtain ⟨_, _, h⟩ := List.mem_map.mp hx'
    simp only [Prod.mk.injEq] at h
    exact hab h.1.symm

theorem le_sum_of_mem' {x : Nat} : ∀ {l : List Nat}, x ∈ l → x ≤ l.sum := by
  intro l
  induction l with
  | nil => intro h; cases h
  | cons a l ih =>
    intro h
    rw [List.sum_cons]
    rcases List.mem_cons.mp h with rfl | h
    · omega
    · have := ih h; omega

/-- Everything stored in the table. -/
def Stored (L : Nat → Nat → List Addr) (a : Addr) : Prop := ∃ v k, a ∈ L v k

theorem Inv.notStored_empty {c : Cfg E} {s : T E} {live : Finset Addr} {avail : List Addr}
    {L : Nat → Nat → List Addr} (h : Inv c s live avail L) {v k : Nat} (hn : ¬ s.cell v k) : L v k = [] := by
  rw [List.eq_nil_iff_forall_not_mem]
  intro a ha; exact hn (h.home v k a ha).1

theorem Inv.numEntries_eq {c : Cfg E} {s : T E} {live : Finset Addr} {avail : List Addr}
    {L : Nat → Nat → List Addr} (h : Inv c s live avail L) :
    s.getNumEntries = (s.cells.map (fun p => (L p.1 p.2).length)).sum := by
  unfold T.getNumEntries T.cells
  rw [List.map_flatMap, List.flatMap_def, List.sum_flatten, List.map_map]
  congr 1
  apply List.map_congr_left
  intro v hv
  simp only [Function.comp]
  rw [h.cnt v (by simpa using hv), List.map_map]
  rfl

/-- The number of entries is the number of stored nodes. -/
theorem Inv.numEntries_card {c : Cfg E} {s : T E} {live : Finset Addr} {avail : List Addr}
    {L : Nat → Nat → List Addr} (h : Inv c s live avail L) (S : Finset Addr)
    (hS : ∀ x, x ∈ S ↔ Stored L x) : s.getNumEntries = S.card := by
  rw [h.numEntries_eq]
  have hnd : (s.cells.flatMap (fun p => L p.1 p.2)).Nodup := by
    rw [List.nodup_flatMap]
    refine ⟨fun p _ => h.nodup _ _, ?_⟩
    refine List.Pairwise.imp (R := (· ≠ ·)) ?_ (nodup_cells s)
    intro p q hpq x hx hx'
    refine h.notin hx ?_ hx'
    rintro ⟨h1, h2⟩; exact hpq (Prod.ext h1.symm h2.symm)
  have hs : (s.cells.flatMap (fun p => L p.1 p.2)).toFinset = S := by
    ext x
    rw [List.mem_toFinset, hS, List.mem_flatMap]
    constructor
    · rintro ⟨p, _, hx⟩; exact ⟨_, _, hx⟩
    · rintro ⟨v, k, hx⟩
      exact ⟨(v, k), mem_cells.mpr (h.home v k x hx).1, hx⟩
  rw [← hs, List.toFinset_card_of_nodup hnd, List.length_flatMap]

theorem garbageCollect_spec {c : Cfg E} {s : T E} {live : Finset Addr} {avail : List Addr}
    {L : Nat → Nat → List Addr} (h : Inv c s live avail L) (force : Bool) :
    ∃ s' R n live' avail' L', s.garbageCollect c force = some (s', R, n) ∧ Inv c s' live' avail' L' ∧
      s'.cont = s.cont ∧ s'.ref = s.ref ∧ s'.nVars = s.nVars ∧
      (∀ x, x ∈ live' ↔ x ∈ live ∧ x ∉ R) ∧
      (∀ x, Stored L' x ↔ Stored L x ∧ x ∉ R) ∧
      (∀ x ∈ R, Stored L x ∧ s.ref x = 0) ∧
      R.Nodup ∧ n = R.length ∧
      ((force = true ∨ s.gcLimit ≤ s.getNumEntries) → ∀ x, Stored L x → s.ref x = 0 → x ∈ R) := by
  unfold T.garbageCollect
  simp only
  split
  · rename_i hc
    refine ⟨s, [], 0, live, avail, L, rfl, h, rfl, rfl, rfl, by simp, by simp, by simp, List.nodup_nil,
      rfl, ?_⟩
    intro hf x ⟨v, k, hx⟩
    exfalso
    have hz : s.getNumEntries = 0 := by
      rcases Bool.or_eq_true _ _ ▸ hc with hc | hc
      · simp only [Bool.and_eq_true, Bool.not_eq_true', decide_eq_true_eq] at hc
        rcases hf with hf | hf
        · rw [hf] at hc; cases hc.1
        · omega
      · simpa using hc
    rw [h.numEntries_eq] at hz
    have h1 := le_sum_of_mem' (List.mem_map.mpr ⟨(v, k), mem_cells.mpr (h.home v k x hx).1, rfl⟩ :
      (L v k).length ∈ s.cells.map (fun p => (L p.1 p.2).length))
    have := List.length_pos_of_mem hx
    omega
  · obtain ⟨s', R, live', avail', e1, e2, e3, e4, e5, e6⟩ :=
      gcSweep_spec s.cells h (fun p hp => mem_cells.mp hp) (nodup_cells s)
    rw [e1]
    simp only [Option.map_some]
    have hR : ∀ x, x ∈ R ↔ s.ref x = 0 ∧ Stored L x := by
      intro x
      rw [e5]
      constructor
      · rintro ⟨h1, p, _, hx⟩; exact ⟨h1, _, _, hx⟩
      · rintro ⟨h1, v, k, hx⟩
        exact ⟨h1, (v, k), mem_cells.mpr (h.home v k x hx).1, hx⟩
    have hSt : ∀ x, Stored (swept s.ref s.cells L) x ↔ Stored L x ∧ x ∉ R := by
      intro x
      rw [hR]
      constructor
      · rintro ⟨v, k, hx⟩
        unfold swept at hx
        by_cases hm : (v, k) ∈ s.cells
        · rw [if_pos hm, List.mem_filter] at hx
          exact ⟨⟨v, k, hx.1⟩, fun hh => by simp [hh.1] at hx⟩
        · rw [if_neg hm, h.notStored_empty (fun hh => hm (mem_cells.mpr hh))] at hx
          cases hx
      · rintro ⟨⟨v, k, hx⟩, hn⟩
        refine ⟨v, k, ?_⟩
        unfold swept
        rw [if_pos (mem_cells.mpr (h.home v k x hx).1), List.mem_filter]
        refine ⟨hx, ?_⟩
        simp only [ne_eq, decide_not, Bool.not_eq_true', decide_eq_false_iff_not]
        intro hz; exact hn ⟨hz, v, k, hx⟩
    -- count
    have hfin : ∃ S : Finset Addr, ∀ x, x ∈ S ↔ Stored L x := by
      refine ⟨(s.cells.flatMap (fun p => L p.1 p.2)).toFinset, ?_⟩
      intro x
      rw [List.mem_toFinset, List.mem_flatMap]
      constructor
      · rintro ⟨p, _, hx⟩; exact ⟨_, _, hx⟩
      · rintro ⟨v, k, hx⟩
        exact ⟨(v, k), mem_cells.mpr (h.home v k x hx).1, hx⟩
    obtain ⟨S, hS⟩ := hfin
    have hRS : R.toFinset ⊆ S := by
      intro x hx
      rw [List.mem_toFinset, hR] at hx
      exact (hS x).mpr hx.2
    have hcount : s.getNumEntries - s'.getNumEntries = R.length := by
      rw [h.numEntries_card S hS, e2.numEntries_card (S \ R.toFinset) ?_,
        ← List.toFinset_card_of_nodup e4]
      · rw [Finset.card_sdiff_of_subset hRS]
        have := Finset.card_le_card hRS
        omega
      · intro x; rw [Finset.mem_sdiff, hS, hSt, List.mem_toFinset]
    refine ⟨_, R, _, live', avail', swept s.ref s.cells L, rfl, ?_, ?_, ?_, ?_, e6, hSt,
      fun x hx => ?_, e4, hcount, fun _ x hx hz => (hR x).mpr ⟨hz, hx⟩⟩
    · split
      · exact { e2 with }
      · exact e2
    · split <;> exact e3.cont
    · split <;> exact e3.ref
    · split <;> exact e3.nVars
    · have := (hR x).mp hx; exact ⟨this.2, this.1⟩

theorem lookup_spec {c : Cfg E} (hb : 0 < c.nBuckets) {s : T E} {live : Finset Addr} {avail : List Addr}
    {L : Nat → Nat → List Addr} (h : Inv c s live avail L) {p : Addr} (hp : p ∈ live)
    (hv : (s.cont p).1 < s.nVars) :
    ∃ s' q live' avail' L', s.lookup c p = some (s', q) ∧ Inv c s' live' avail' L' ∧
      s'.cont = s.cont ∧ s'.ref = s.ref ∧ s'.nVars = s.nVars ∧ s'.cont q = s.cont p ∧
      (∀ x, Stored L' x ↔ Stored L x ∨ x = q) ∧
      (∀ x, x ∈ live' ↔ x ∈ live ∧ (x = p → q = p ∨ Stored L p)) := by
  have hk : key c (s.cont p).2 < s.rows (s.cont p).1 := by rw [h.rows _ hv]; exact key_lt c hb _
  have hcell : s.cell (s.cont p).1 (key c (s.cont p).2) := ⟨hv, hk⟩
  have hlen := h.length_le (s.cont p).1 (key c (s.cont p).2)
  unfold T.lookup
  simp only [hv, hk, and_self, if_true]
  rcases search_spec (s := s) (e := (s.cont p).2) (f := s.mm.numUsed + 1) (h.chain _ _ hcell) (by omega) with
    ⟨q, hq, hqe, hs⟩ | ⟨hno, hs⟩
  · rw [hs]
    have hcont : s.cont q = s.cont p := Prod.ext (h.home _ _ q hq).2.1 hqe
    simp only
    by_cases hpq : p = q
    · subst hpq
      refine ⟨s, p, live, avail, L, by simp, h, rfl, rfl, rfl, rfl, ?_, by simp⟩
      intro x
      constructor
      · exact Or.inl
      · rintro (hx | rfl)
        · exact hx
        · exact ⟨_, _, hq⟩
    · have hpn : ¬ Stored L p := by
        rintro ⟨v, k, hx⟩
        have h1 := h.home _ _ p hx
        obtain ⟨h1a, h1b, h1c⟩ := h1
        subst h1b h1c
        exact hpq (h.uniq _ _ p hx q hq hqe.symm)
      refine ⟨{ s with mm := s.mm.returnEntry p }, q, live.erase p, p :: avail, L, by simp [hpq], ?_, rfl,
        rfl, rfl, hcont, ?_, ?_⟩
      · exact
        { h with
          mm := h.mm.returnEntry hp
          chain := by
            intro v k hc
            refine (h.chain v k hc).congr ?_
            intro x hx
            have : x ≠ p := by rintro rfl; exact hpn ⟨v, k, hx⟩
            simp [MM.returnEntry, MM.trackReturnedEntry, this]
          live := by
            intro v k x hx
            refine Finset.mem_erase.mpr ⟨?_, h.live v k x hx⟩
            rintro rfl; exact hpn ⟨v, k, hx⟩ }
      · intro x
        constructor
        · exact Or.inl
        · rintro (hx | rfl)
          · exact hx
          · exact ⟨_, _, hq⟩
      · intro x
        rw [Finset.mem_erase]
        constructor
        · rintro ⟨h1, h2⟩; exact ⟨h2, fun hh => absurd hh h1⟩
        · rintro ⟨h1, h2⟩
          refine ⟨?_, h1⟩
          rintro rfl
          rcases h2 rfl with hh | hh
          · exact hpq hh.symm
          · exact hpn hh
  · rw [hs]
    simp only
    have hpn : ¬ Stored L p := by
      rintro ⟨v, k, hx⟩
      obtain ⟨_, h1b, h1c⟩ := h.home _ _ p hx
      subst h1b h1c
      exact hno p hx rfl
    have hmem : ∀ v' k' x, x ∈ updL L (s.cont p).1 (key c (s.cont p).2)
        (p :: L (s.cont p).1 (key c (s.cont p).2)) v' k' →
        (x = p ∧ v' = (s.cont p).1 ∧ k' = key c (s.cont p).2) ∨ x ∈ L v' k' := by
      intro v' k' x hx
      by_cases e : v' = (s.cont p).1 ∧ k' = key c (s.cont p).2
      · obtain ⟨rfl, rfl⟩ := e
        rw [updL_same] at hx
        rcases List.mem_cons.mp hx with hx | hx
        · exact Or.inl ⟨hx, rfl, rfl⟩
        · exact Or.inr hx
      · rw [updL_ne _ _ e] at hx; exact Or.inr hx
    refine ⟨_, p, live, avail, updL L (s.cont p).1 (key c (s.cont p).2)
      (p :: L (s.cont p).1 (key c (s.cont p).2)), rfl, ?_, rfl, rfl, rfl, rfl, ?_, by simp⟩
    · constructor
      · exact h.mm.setNext hp _
      · exact h.rows
      · intro v' k' hc'
        by_cases e : v' = (s.cont p).1 ∧ k' = key c (s.cont p).2
        · obtain ⟨rfl, rfl⟩ := e
          rw [updL_same]
          refine ⟨by simp, ?_⟩
          show Chain (fun x => if x = p then _ else s.mm.next x) (if p = p then _ else _) _
          simp only [if_true]
          refine (h.chain _ _ hcell).congr ?_
          intro x hx
          have : x ≠ p := by rintro rfl; exact hpn ⟨_, _, hx⟩
          simp [this]
        · rw [updL_ne _ _ e]
          simp only [e, if_false]
          refine (h.chain v' k' hc').congr ?_
          intro x hx
          have : x ≠ p := by rintro rfl; exact hpn ⟨_, _, hx⟩
          simp [MM.setNext, this]
      · intro v' k'
        by_cases e : v' = (s.cont p).1 ∧ k' = key c (s.cont p).2
        · obtain ⟨rfl, rfl⟩ := e
          rw [updL_same]
          exact List.nodup_cons.mpr ⟨fun hx => hpn ⟨_, _, hx⟩, h.nodup _ _⟩
        · rw [updL_ne _ _ e]; exact h.nodup v' k'
      · intro v' k' x hx
        rcases hmem _ _ _ hx with ⟨rfl, _⟩ | hx
        · exact hp
        · exact h.live _ _ x hx
      · intro v' k' x hx
        rcases hmem _ _ _ hx with ⟨rfl, rfl, rfl⟩ | hx
        · exact ⟨hcell, rfl, rfl⟩
        · exact h.home _ _ x hx
      · intro v' k' x hx y hy hxy
        rcases hmem _ _ _ hx with ⟨rfl, rfl, rfl⟩ | hx
        · rcases hmem _ _ _ hy with ⟨rfl, _⟩ | hy
          · rfl
          · exact absurd hxy.symm (hno y hy)
        · rcases hmem _ _ _ hy with ⟨hy1, hy2, hy3⟩ | hy
          · rw [hy1] at hxy; rw [hy2, hy3] at hx; exact absurd hxy (hno x hx)
          · exact h.uniq _ _ x hx y hy hxy
      · intro v' hv'
        simp only
        by_cases e : v' = (s.cont p).1
        · subst e
          have := sum_updL L (s.cont p).1 (key c (s.cont p).2) (s.rows (s.cont p).1)
            (p :: L (s.cont p).1 (key c (s.cont p).2)) hk
          have h2 := h.cnt _ hv
          simp only [List.length_cons, if_true] at this ⊢
          omega
        · simp only [e, if_false]
          rw [h.cnt v' hv']
          apply Finset.sum_congr rfl
          intro j _
          rw [updL_ne]; simp [e]
    · intro x
      constructor
      · rintro ⟨v, k, hx⟩
        rcases hmem _ _ _ hx with ⟨rfl, _⟩ | hx
        · exact Or.inr rfl
        · exact Or.inl ⟨v, k, hx⟩
      · rintro (⟨v, k, hx⟩ | rfl)
        · refine ⟨v, k, ?_⟩
          by_cases e : v = (s.cont p).1 ∧ k = key c (s.cont p).2
          · obtain ⟨rfl, rfl⟩ := e
            rw [updL_same]; simp [hx]
          · rw [updL_ne _ _ e]; exact hx
        · exact ⟨_, _, by rw [updL_same]; simp⟩

end MQT.UT
