import Verif.DataStructures.Dag
import Mathlib.Order.WellFounded
import Mathlib.Data.Fintype.Card
import Mathlib.Data.Finset.Range
import Mathlib.Order.Preorder.Finite

set_option autoImplicit false

/-! Correctness of `orderTopologically` (lemmas for C04). -/

namespace MQT.DAG

set_option linter.unusedSectionVars false

open MQT.DG (G Op)

variable {V : Type} [DecidableEq V] [Inhabited V]

/-- Indices of predecessors. -/
def preds (g : G V) (k : Nat) : Finset Nat :=
  (Finset.range g.nVertices).filter (fun u => (g.adj.at' u).at' k = true)

theorem mem_preds {g : G V} {k u : Nat} :
    u ∈ preds g k ↔ u < g.nVertices ∧ (g.adj.at' u).at' k = true := by simp [preds]

theorem inDeg_eq_preds {g : G V} {Vs : Finset V} {E : Finset (V × V)} (h : DG.Inv g Vs E) {k : Nat}
    (hk : k < g.nVertices) : g.inDegrees.at' k = (preds g k).card := by
  rw [h.inDeg k hk]
  symm
  apply Finset.card_bij (fun u _ => (g.invMapping.at' u, g.invMapping.at' k))
  · intro u hu
    rw [mem_preds] at hu
    rw [Finset.mem_filter]
    exact ⟨(h.adjIff u hu.1 k hk).mp hu.2, rfl⟩
  · intro a ha b hb e
    rw [mem_preds] at ha hb
    have e := (Prod.mk.inj e).1
    have h1 := h.mapInv a ha.1
    rw [e, h.mapInv b hb.1] at h1
    exact (Option.some.inj h1).symm
  · rintro ⟨x, y⟩ he
    rw [Finset.mem_filter] at he
    obtain ⟨he, hy⟩ := he
    have hx := (h.ends _ he).1
    rw [h.verts] at hx
    obtain ⟨i, hi⟩ := Option.ne_none_iff_exists'.mp hx
    obtain ⟨hi1, hi2⟩ := h.mapLt _ i hi
    refine ⟨i, ?_, ?_⟩
    · rw [mem_preds]
      refine ⟨hi1, (h.adjIff i hi1 k hk).mpr ?_⟩
      simp only at hy hi2
      rw [hi2, ← hy]; exact he
    · simp only at hy hi2
      simp [hi2, hy]

/-- Invariant of the search. `cur` is the source whose out-edges are being processed; targets below
`m` have been processed. -/
structure TI (g : G V) (s : TState) (res res' : List Nat) (m : Nat) : Prop where
  visSize : s.visited.size = g.nVertices
  vinSize : s.vin.size = g.nVertices
  nodup : (res' ++ s.stack).Nodup
  vis : ∀ k < g.nVertices, (s.visited.at' k = true ↔ k ∈ res' ++ s.stack)
  lt : ∀ k ∈ res' ++ s.stack, k < g.nVertices
  cnt : ∀ k < g.nVertices, s.visited.at' k = false →
    s.vin.at' k = ((preds g k).filter (fun u => u ∈ (if k < m then res' else res))).card ∧
    s.vin.at' k < (preds g k).card
  done : ∀ k < g.nVertices, s.visited.at' k = true → ∀ u ∈ preds g k, u ∈ res'

theorem foldlM_range_succ {σ : Type} (f : σ → Nat → Option σ) (s : σ) (m : Nat) :
    (List.range (m + 1)).foldlM f s = ((List.range m).foldlM f s).bind (fun s => f s m) := by
  rw [List.range_succ, List.foldlM_append]
  cases (List.range m).foldlM f s <;> simp

theorem topoBody_spec {g : G V} {Vs : Finset V} {E : Finset (V × V)} (h : DG.Inv g Vs E)
    {s : TState} {res : List Nat} {u m : Nat} (hu : u < g.nVertices) (hm : m < g.nVertices)
    (hur : u ∉ res) (ti : TI g s res (res ++ [u]) m) :
    ∃ s', topoBody g u s m = some s' ∧ TI g s' res (res ++ [u]) (m + 1) := by
  have ga : get2 g.adj u m = some ((g.adj.at' u).at' m) := by
    simp [get2, Vec.get?, h.adjSize, hu, h.rowSize u hu, hm]
  have gv : s.visited.get? m = some (s.visited.at' m) := by simp [Vec.get?, ti.visSize, hm]
  have gc : s.vin.get? m = some (s.vin.at' m) := by simp [Vec.get?, ti.vinSize, hm]
  have gd : g.inDegrees.get? m = some (preds g m).card := by
    simp [Vec.get?, h.inSize, hm, inDeg_eq_preds h hm]
  have ltm : ∀ k, k ≠ m → (k < m + 1 ↔ k < m) := by intro k; omega
  cases ha : (g.adj.at' u).at' m with
  | false =>
    refine ⟨s, by simp [topoBody, ga, ha], { ti with cnt := ?_ }⟩
    intro k hk hv
    by_cases e : k = m
    · subst e
      have := ti.cnt k hk hv
      simp only [Nat.lt_irrefl, if_false] at this
      refine ⟨?_, this.2⟩
      rw [this.1]
      congr 1
      apply Finset.filter_congr
      intro w hw
      simp only [Nat.lt_succ_self, if_true, List.mem_append, List.mem_singleton]
      constructor
      · exact Or.inl
      · rintro (h | rfl)
        · exact h
        · rw [mem_preds, ha] at hw; cases hw.2
    · simp only [ltm k e]; exact ti.cnt k hk hv
  | true =>
    cases hv : s.visited.at' m with
    | true =>
      refine ⟨s, by simp [topoBody, ga, ha, gv, hv], { ti with cnt := ?_ }⟩
      intro k hk hvk
      have e : k ≠ m := by rintro rfl; rw [hv] at hvk; cases hvk
      simp only [ltm k e]; exact ti.cnt k hk hvk
    | false =>
      obtain ⟨c1, c2⟩ := ti.cnt m hm hv
      simp only [Nat.lt_irrefl, if_false] at c1
      have hup : u ∈ preds g m := mem_preds.mpr ⟨hu, ha⟩
      have cnt' : s.vin.at' m + 1 = ((preds g m).filter (fun w => w ∈ res ++ [u])).card := by
        rw [c1]
        have : (preds g m).filter (fun w => w ∈ res ++ [u]) =
            insert u ((preds g m).filter (fun w => w ∈ res)) := by
          ext w
          simp only [Finset.mem_filter, Finset.mem_insert, List.mem_append, List.mem_singleton]
          constructor
          · rintro ⟨h1, h2 | h2⟩
            · exact Or.inr ⟨h1, h2⟩
            · exact Or.inl h2
          · rintro (rfl | ⟨h1, h2⟩)
            · exact ⟨hup, Or.inr rfl⟩
            · exact ⟨h1, Or.inl h2⟩
        rw [this, Finset.card_insert_of_notMem (by simp [hur])]
      have setc : s.vin.set? m (s.vin.at' m + 1) =
          some ⟨s.vin.size, fun k => if k = m then s.vin.at' m + 1 else s.vin.at' k⟩ := by
        simp [Vec.set?, ti.vinSize, hm]
      have setv : s.visited.set? m true =
          some ⟨s.visited.size, fun k => if k = m then true else s.visited.at' k⟩ := by
        simp [Vec.set?, ti.visSize, hm]
      have hmn : m ∉ res ++ [u] ++ s.stack := by
        intro hmem; rw [(ti.vis m hm).mpr hmem] at hv; cases hv
      by_cases hfull : s.vin.at' m + 1 = (preds g m).card
      · refine ⟨⟨m :: s.stack, ⟨s.visited.size, fun k => if k = m then true else s.visited.at' k⟩,
          ⟨s.vin.size, fun k => if k = m then s.vin.at' m + 1 else s.vin.at' k⟩⟩, ?_, ?_⟩
        · have setc' := setc
          rw [hfull] at setc'
          simp [topoBody, ga, ha, gv, hv, gc, setc', gd, hfull, setv]
        · constructor
          · exact ti.visSize
          · exact ti.vinSize
          · have hnd := ti.nodup
            rw [List.nodup_append] at hnd ⊢
            refine ⟨hnd.1, ?_, ?_⟩
            · rw [List.nodup_cons]
              exact ⟨fun hm' => hmn (List.mem_append_right _ hm'), hnd.2.1⟩
            · intro a ha' b hb
              rcases List.mem_cons.mp hb with e | hb
              · subst e; rintro rfl; exact hmn (List.mem_append_left _ ha')
              · exact hnd.2.2 a ha' b hb
          · intro k hk
            by_cases e : k = m
            · subst e; simp
            · simp only [if_neg e]
              rw [ti.vis k hk]
              simp [e]
          · intro k hk
            rcases List.mem_append.mp hk with hk | hk
            · exact ti.lt k (List.mem_append_left _ hk)
            · rcases List.mem_cons.mp hk with e | hk
              · subst e; exact hm
              · exact ti.lt k (List.mem_append_right _ hk)
          · intro k hk hvk
            have e : k ≠ m := by rintro rfl; simp at hvk
            simp only [if_neg e] at hvk ⊢
            simp only [ltm k e]; exact ti.cnt k hk hvk
          · intro k hk hvk w hw
            by_cases e : k = m
            · subst e
              have hsub : (preds g k).filter (fun w => w ∈ res ++ [u]) = preds g k := by
                apply Finset.eq_of_subset_of_card_le (Finset.filter_subset _ _)
                omega
              rw [← hsub] at hw
              exact (Finset.mem_filter.mp hw).2
            · simp only [if_neg e] at hvk
              exact ti.done k hk hvk w hw
      · refine ⟨{ s with vin := ⟨s.vin.size, fun k => if k = m then s.vin.at' m + 1 else s.vin.at' k⟩ },
          ?_, { ti with cnt := ?_, vinSize := ti.vinSize }⟩
        · simp [topoBody, ga, ha, gv, hv, gc, setc, gd, hfull]
        · intro k hk hvk
          by_cases e : k = m
          · subst e
            simp only [if_true, Nat.lt_succ_self]
            exact ⟨cnt', by omega⟩
          · simp only [if_neg e, ltm k e]
            exact ti.cnt k hk hvk

theorem topoInner_spec {g : G V} {Vs : Finset V} {E : Finset (V × V)} (h : DG.Inv g Vs E)
    {s : TState} {res : List Nat} {u : Nat} (hu : u < g.nVertices) (hur : u ∉ res)
    (ti : TI g s res (res ++ [u]) 0) : ∀ m ≤ g.nVertices,
    ∃ s', (List.range m).foldlM (topoBody g u) s = some s' ∧ TI g s' res (res ++ [u]) m := by
  intro m
  induction m with
  | zero => intro _; exact ⟨s, by simp, ti⟩
  | succ m ih =>
    intro hm
    obtain ⟨s1, e1, t1⟩ := ih (by omega)
    obtain ⟨s2, e2, t2⟩ := topoBody_spec h hu (by omega) hur t1
    exact ⟨s2, by rw [foldlM_range_succ, e1]; exact e2, t2⟩

/-- Every prefix of the result is closed under predecessors. -/
def Ordered (g : G V) (res : List Nat) : Prop :=
  ∀ r1 k r2, res = r1 ++ k :: r2 → ∀ u ∈ preds g k, u ∈ r1

theorem topoLoop_spec {g : G V} {Vs : Finset V} {E : Finset (V × V)} (h : DG.Inv g Vs E) :
    ∀ (f : Nat) (s : TState) (res : List Nat), TI g s res res g.nVertices → Ordered g res →
      g.nVertices < f + res.length →
      ∃ out s', topoLoop g f s res = some out ∧ s'.stack = [] ∧ TI g s' out out g.nVertices ∧
        Ordered g out := by
  intro f
  induction f with
  | zero =>
    intro s res ti _ hf
    have : res.length ≤ g.nVertices := by
      have hnd := (List.nodup_append.mp ti.nodup).1
      have hsub : res.toFinset ⊆ Finset.range g.nVertices := by
        intro k hk
        rw [Finset.mem_range]
        exact ti.lt k (List.mem_append_left _ (List.mem_toFinset.mp hk))
      have := Finset.card_le_card hsub
      rwa [List.toFinset_card_of_nodup hnd, Finset.card_range] at this
    omega
  | succ f ih =>
    intro s res ti hord hf
    cases hst : s.stack with
    | nil => exact ⟨res, s, by simp [topoLoop, hst], hst, ti, hord⟩
    | cons u st =>
      have hu : u < g.nVertices := ti.lt u (by simp [hst])
      have hur : u ∉ res := by
        have hnd := ti.nodup
        rw [hst, List.nodup_append] at hnd
        intro hm; exact hnd.2.2 u hm u (by simp) rfl
      have ti0 : TI g { s with stack := st } res (res ++ [u]) 0 := by
        refine ⟨ti.visSize, ti.vinSize, ?_, ?_, ?_, ?_, ?_⟩
        · have := ti.nodup; rw [hst] at this; simpa using this
        · intro k hk; have := ti.vis k hk; rw [hst] at this; simpa using this
        · intro k hk; apply ti.lt k; rw [hst]; simpa using hk
        · intro k hk hv
          have := ti.cnt k hk hv
          simp only [ite_self] at this
          simpa using this
        · intro k hk hv w hw
          exact List.mem_append_left _ (ti.done k hk hv w hw)
      obtain ⟨s1, e1, t1⟩ := topoInner_spec h hu hur ti0 g.nVertices (Nat.le_refl _)
      have t1' : TI g s1 (res ++ [u]) (res ++ [u]) g.nVertices := by
        refine { t1 with cnt := ?_ }
        intro k hk hv
        have := t1.cnt k hk hv
        simp only [hk, if_true] at this
        simpa only [ite_self] using this
      have hord' : Ordered g (res ++ [u]) := by
        intro r1 k r2 e w hw
        rcases List.eq_nil_or_concat r2 with hr | ⟨r2', x, hr⟩
        · subst hr
          have e := List.append_inj' e rfl
          obtain ⟨e1, e2⟩ := e
          have e2 : u = k := by simpa using e2
          subst e1 e2
          refine ti.done u hu ((ti.vis u hu).mpr (by simp [hst])) w hw
        · subst hr
          have e' : res ++ [u] = (r1 ++ k :: r2') ++ [x] := by simpa using e
          have e := (List.append_inj' e' rfl).1
          exact hord r1 k r2' e w hw
      obtain ⟨out, s', e2, r⟩ := ih s1 (res ++ [u]) t1' hord' (by simp; omega)
      refine ⟨out, s', ?_, r⟩
      simp [topoLoop, hst, e1, e2]

theorem pushInit_spec {g : G V} {Vs : Finset V} {E : Finset (V × V)} (h : DG.Inv g Vs E) :
    ∃ s, pushInit g g.nVertices = some s ∧ TI g s [] [] g.nVertices := by
  have key : ∀ m ≤ g.nVertices, ∃ s, (List.range m).foldlM (fun (s : TState) k => do
      let d ← g.inDegrees.get? k
      if d = 0 then
        let vis ← s.visited.set? k true
        some { s with stack := k :: s.stack, visited := vis }
      else some s) ⟨[], Vec.fill g.nVertices false, Vec.fill g.nVertices 0⟩ = some s ∧
      s.visited.size = g.nVertices ∧ s.vin.size = g.nVertices ∧ s.stack.Nodup ∧
      (∀ k < g.nVertices, (s.visited.at' k = true ↔ k ∈ s.stack)) ∧
      (∀ k ∈ s.stack, k < m ∧ (preds g k).card = 0) ∧ (∀ k, s.vin.at' k = 0) ∧
      (∀ k < m, (preds g k).card = 0 → k ∈ s.stack) := by
    intro m
    induction m with
    | zero =>
      intro _
      exact ⟨_, by simp; rfl, rfl, rfl, by simp, by simp [Vec.fill], by simp, by simp [Vec.fill], by simp⟩
    | succ m ih =>
      intro hm
      obtain ⟨s, e, p1, p2, p3, p4, p5, p6, p7⟩ := ih (by omega)
      have gd : g.inDegrees.get? m = some (preds g m).card := by
        simp [Vec.get?, h.inSize, inDeg_eq_preds h (by omega : m < g.nVertices)]; omega
      rw [foldlM_range_succ, e]
      by_cases hz : (preds g m).card = 0
      · refine ⟨⟨m :: s.stack,
            ⟨s.visited.size, fun k => if k = m then true else s.visited.at' k⟩, s.vin⟩, ?_, ?_⟩
        · have hmn : m < g.nVertices := by omega
          simp [gd, hz, Vec.set?, p1, hmn]
        · refine ⟨p1, p2, ?_, ?_, ?_, p6, ?_⟩
          · rw [List.nodup_cons]
            exact ⟨fun hm' => by have := (p5 m hm').1; omega, p3⟩
          · intro k hk
            by_cases e : k = m
            · simp [e]
            · simp [e, p4 k hk]
          · intro k hk
            rcases List.mem_cons.mp hk with e | hk
            · subst e; exact ⟨by omega, hz⟩
            · exact ⟨by have := (p5 k hk).1; omega, (p5 k hk).2⟩
          · intro k hk h0
            by_cases e : k = m
            · simp [e]
            · simp [p7 k (by omega) h0]
      · refine ⟨s, by simp [gd, hz], p1, p2, p3, p4, ?_, p6, ?_⟩
        · intro k hk
          exact ⟨by have := (p5 k hk).1; omega, (p5 k hk).2⟩
        · intro k hk h0
          by_cases e : k = m
          · subst e; exact absurd h0 hz
          · exact p7 k (by omega) h0
  obtain ⟨s, e, p1, p2, p3, p4, p5, p6, p7⟩ := key g.nVertices (Nat.le_refl _)
  refine ⟨s, e, ⟨p1, p2, by simpa using p3, by simpa using p4, ?_, ?_, ?_⟩⟩
  · intro k hk; exact (p5 k (by simpa using hk)).1
  · intro k hk hv
    refine ⟨by simp [p6], ?_⟩
    rw [p6]
    rcases Nat.eq_zero_or_pos (preds g k).card with h0 | h0
    · have := (p4 k hk).mpr (p7 k hk h0); rw [hv] at this; cases this
    · exact h0
  · intro k hk hv w hw
    have := (p5 k ((p4 k hk).mp hv)).2
    rw [Finset.card_eq_zero] at this
    rw [this] at hw; cases hw

/-- Specification: no directed cycle. -/
def Acyclic (E : Finset (V × V)) : Prop := ∀ v, ¬ Relation.TransGen (fun a b => (a, b) ∈ E) v v

theorem all_visited {g : G V} {Vs : Finset V} {E : Finset (V × V)} (h : DG.Inv g Vs E)
    (hac : Acyclic E) {s : TState} {out : List Nat} (hs : s.stack = [])
    (ti : TI g s out out g.nVertices) : ∀ k < g.nVertices, k ∈ out := by
  let r : Fin g.nVertices → Fin g.nVertices → Prop :=
    Relation.TransGen (fun a b => (g.adj.at' a.1).at' b.1 = true)
  have hirr : ∀ a, ¬ r a a := by
    intro a ha
    apply hac (g.invMapping.at' a.1)
    refine Relation.TransGen.lift (fun x : Fin g.nVertices => g.invMapping.at' x.1) ?_ _ _ ha
    intro x y hxy
    exact (h.adjIff x.1 x.2 y.1 y.2).mp hxy
  have : IsTrans (Fin g.nVertices) r := ⟨fun _ _ _ h1 h2 => Relation.TransGen.trans h1 h2⟩
  have : Std.Irrefl r := ⟨hirr⟩
  have wf : WellFounded r := Finite.wellFounded_of_trans_of_irrefl r
  intro k hk
  suffices ∀ x : Fin g.nVertices, x.1 ∈ out from this ⟨k, hk⟩
  intro x
  induction x using wf.induction with
  | _ x ih =>
    by_contra hx
    have hv : s.visited.at' x.1 = false := by
      cases hv : s.visited.at' x.1 with
      | false => rfl
      | true => have := (ti.vis x.1 x.2).mp hv; rw [hs] at this; exact absurd (by simpa using this) hx
    obtain ⟨c1, c2⟩ := ti.cnt x.1 x.2 hv
    simp only [ite_self] at c1
    have : (preds g x.1).filter (fun u => u ∈ out) = preds g x.1 := by
      apply Finset.filter_true_of_mem
      intro u hu
      rw [mem_preds] at hu
      exact ih ⟨u, hu.1⟩ (.single hu.2)
    rw [this] at c1; omega

theorem mapM_get {β : Type} (v : Vec β) (l : List Nat) (hl : ∀ k ∈ l, k < v.size) :
    l.mapM v.get? = some (l.map v.at') := by
  induction l with
  | nil => rfl
  | cons a l ih =>
    have h1 : v.get? a = some (v.at' a) := by simp [Vec.get?, hl a (by simp)]
    simp [List.mapM_cons, h1, ih (fun k hk => hl k (by simp [hk]))]

theorem orderTopologically_spec {d : D V} {Vs : Finset V} {E : Finset (V × V)}
    (h : DG.Inv d.g Vs E) (hac : Acyclic E) :
    ∃ l, d.orderTopologically = .ok l ∧ l.Nodup ∧ (∀ v, v ∈ l ↔ v ∈ Vs) ∧
      ∀ u v, (u, v) ∈ E → ∀ l1 l2, l = l1 ++ v :: l2 → u ∈ l1 := by
  obtain ⟨s, e1, t1⟩ := pushInit_spec h
  obtain ⟨out, s', e2, hs, t2, ho⟩ := topoLoop_spec h (d.g.nVertices + 1) s [] t1
    (by intro r1 k r2 e; simp at e) (by simp)
  have hall := all_visited h hac hs t2
  have hnd : out.Nodup := (List.nodup_append.mp t2.nodup).1
  have hlt : ∀ k ∈ out, k < d.g.nVertices := fun k hk => t2.lt k (List.mem_append_left _ hk)
  have hlen : out.length = d.g.nVertices := by
    rw [← List.toFinset_card_of_nodup hnd]
    have : out.toFinset = Finset.range d.g.nVertices := by
      ext k; simp only [List.mem_toFinset, Finset.mem_range]
      exact ⟨hlt k, hall k⟩
    rw [this, Finset.card_range]
  have hinj : ∀ x y, x < d.g.nVertices → y < d.g.nVertices →
      d.g.invMapping.at' x = d.g.invMapping.at' y → x = y := by
    intro x y hx hy e
    have h1 := h.mapInv x hx
    rw [e, h.mapInv y hy] at h1
    exact (Option.some.inj h1).symm
  refine ⟨out.map d.g.invMapping.at', ?_, ?_, ?_, ?_⟩
  · simp [D.orderTopologically, e1, e2, hlen,
      mapM_get d.g.invMapping out (by rw [h.invSize]; exact hlt)]
  · exact List.Nodup.map_on (fun x hx y hy e => hinj x y (hlt x hx) (hlt y hy) e) hnd
  · intro v
    rw [List.mem_map, h.verts]
    constructor
    · rintro ⟨k, hk, rfl⟩; rw [h.mapInv k (hlt k hk)]; simp
    · intro hv
      obtain ⟨i, hi⟩ := Option.ne_none_iff_exists'.mp hv
      obtain ⟨hi1, hi2⟩ := h.mapLt v i hi
      exact ⟨i, hall i hi1, hi2⟩
  · intro u v huv l1 l2 e
    obtain ⟨o1, o2', eo, em1, em2⟩ := List.map_eq_append_iff.mp e
    obtain ⟨k, o2, ek, em3, em4⟩ := List.map_eq_cons_iff.mp em2
    subst ek
    have hk : k < d.g.nVertices := hlt k (by simp [eo])
    have hu := (h.ends _ huv).1
    rw [h.verts] at hu
    obtain ⟨i, hi⟩ := Option.ne_none_iff_exists'.mp hu
    obtain ⟨hi1, hi2⟩ := h.mapLt _ i hi
    have : i ∈ preds d.g k := by
      rw [mem_preds]
      refine ⟨hi1, (h.adjIff i hi1 k hk).mpr ?_⟩
      rw [hi2, em3]; exact huv
    have := ho o1 k o2 eo i this
    rw [← em1, List.mem_map]
    exact ⟨i, this, hi2⟩

end MQT.DAG
