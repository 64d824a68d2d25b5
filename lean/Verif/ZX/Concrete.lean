/-
Concrete diagrams, for examples and counterexamples.
-/
import Verif.ZX.Gadget
import Verif.ZX.Simplify

set_option autoImplicit false

noncomputable section

open Classical

open Function (update)

namespace MQT.ZX

open Diagram

namespace Diagram

/-- The diagram with given types, phases and lists of edges. -/
def ofLists (ts : List VType) (ps : ℕ → Phase) (es : List (List Edge)) (ins outs : List ℕ) : Diagram :=
  ⟨ts.length, fun v => ts[v]?.map fun t => ⟨0, ps v, t⟩, fun v => es.getD v [], [], ins, outs, ts.length,
    (((List.range ts.length).map fun v => (es.getD v []).length).sum / 2 : ℕ), Phase.zero⟩

section
variable {ts : List VType} {ps : ℕ → Phase} {es : List (List Edge)} {ins outs : List ℕ}

theorem ofLists_alive {v : ℕ} : (ofLists ts ps es ins outs).Alive v ↔ v < ts.length := by
  unfold Alive ofLists
  simp only
  constructor
  · rintro ⟨d, hd⟩
    by_contra hc
    rw [List.getElem?_eq_none (not_lt.1 hc)] at hd
    simp at hd
  · intro h
    rw [List.getElem?_eq_getElem h]
    exact ⟨_, rfl⟩

theorem ofLists_verts : (ofLists ts ps es ins outs).verts = Finset.range ts.length := by
  unfold verts
  ext v
  rw [Finset.mem_filter, ofLists_alive, Finset.mem_range, Finset.mem_range]
  exact ⟨fun h => h.2, fun h => ⟨h, h⟩⟩

theorem ofLists_ty (v : ℕ) : (graph (ofLists ts ps es ins outs)).ty v = ts.getD v .boundary := by
  unfold Graph.ty graph ofLists
  simp only
  rw [List.getD_eq_getElem?_getD]
  cases ts[v]? <;> rfl

end

end Diagram

/-- What can be checked by computation. -/
def bookkeeping (ts : List VType) (es : List (List Edge)) : Bool :=
  let n := ts.length
  ((List.range n).map fun v => (es.getD v []).length).sum % 2 = 0 &&
  (List.range n).all fun u =>
    ((es.getD u []).all fun e => decide (e.tgt < n) && decide (e.tgt ≠ u)) &&
    (List.range n).all fun v => [EType.simple, EType.hadamard].all fun t => (es.getD u []).count ⟨v, t⟩ == (es.getD v []).count ⟨u, t⟩

/-- No parallel edges, and at most one edge at the boundary. -/
def simpleLists (ts : List VType) (es : List (List Edge)) : Bool :=
  let n := ts.length
  (List.range n).all fun u =>
    (match ts.getD u .boundary with | .boundary => decide ((es.getD u []).length ≤ 1) | _ => true) &&
    (List.range n).all fun v => decide ((es.getD u []).countP (fun e => e.tgt == v) ≤ 1)

namespace Diagram

section
variable {ts : List VType} {ps : ℕ → Phase} {es : List (List Edge)} {ins outs : List ℕ}

theorem ofLists_inv (h : bookkeeping ts es = true) : (ofLists ts ps es ins outs).Inv := by
  unfold bookkeeping at h
  simp only [Bool.and_eq_true, decide_eq_true_eq, List.all_eq_true, List.mem_range, beq_iff_eq] at h
  obtain ⟨h1, h2⟩ := h
  refine ⟨?_, ?_, List.nodup_nil, ?_, ?_, ?_, ?_⟩
  · intro u hu
    show ts[u]?.map _ = none
    rw [List.getElem?_eq_none (show ts.length ≤ u from hu)]
    rfl
  · intro u
    constructor
    · intro hu
      exact absurd hu List.not_mem_nil
    · rintro ⟨hu, hn⟩
      have := ofLists_alive (ps := ps) (es := es) (ins := ins) (outs := outs) |>.2 (show u < ts.length from hu)
      obtain ⟨d, hd⟩ := this
      rw [hn] at hd
      simp at hd
  · rw [ofLists_verts, Finset.card_range]
    rfl
  · rw [ofLists_verts]
    show 2 * ((((List.range ts.length).map fun v => (es.getD v []).length).sum / 2 : ℕ) : ℤ) = ∑ u ∈ Finset.range ts.length, ((es.getD u []).length : ℤ)
    have : (∑ u ∈ Finset.range ts.length, ((es.getD u []).length : ℤ)) =
        (((List.range ts.length).map fun v => (es.getD v []).length).sum : ℕ) := by
      rw [← Nat.cast_sum]
      congr 1
    rw [this]
    omega
  · intro u v t hu hv
    rw [ofLists_alive] at hu hv
    have := (h2 u hu).2 v hv t (by cases t <;> simp)
    exact this
  · intro u hu e he
    rw [ofLists_alive] at hu
    have := (h2 u hu).1 e he
    rw [ofLists_alive]
    exact this

theorem ofLists_good (h : bookkeeping ts es = true) (hs : simpleLists ts es = true) (hr : ∀ v, (ps v).const.InRange) :
    (ofLists ts ps es ins outs).Good := by
  have inv := ofLists_inv (ps := ps) (ins := ins) (outs := outs) h
  unfold simpleLists at hs
  simp only [Bool.and_eq_true, decide_eq_true_eq, List.all_eq_true, List.mem_range] at hs
  refine ⟨inv, ?_, ?_, ?_⟩
  · intro u v
    by_contra hc
    obtain ⟨hu, hv⟩ := total_pos (show 0 < (graph (ofLists ts ps es ins outs)).total u v by omega)
    rw [graph_total hu hv] at hc
    rw [ofLists_alive] at hu hv
    have := (hs u hu).2 v hv
    apply hc
    refine le_trans (le_of_eq ?_) this
    unfold conn
    apply List.countP_congr
    intro e _
    simp
  · intro b u w hb hu hw
    obtain ⟨eu, mu, rfl⟩ := mem_of_total hu
    obtain ⟨ew, mw, rfl⟩ := mem_of_total hw
    obtain ⟨ab, _⟩ := total_pos hu
    rw [ofLists_alive] at ab
    have := (hs b ab).1
    rw [ofLists_ty] at hb
    rw [hb] at this
    simp only [decide_eq_true_eq] at this
    have mu' : eu ∈ es.getD b [] := mu
    have mw' : ew ∈ es.getD b [] := mw
    match hl : es.getD b [] with
    | [] => rw [hl] at mu'; simp at mu'
    | [a] =>
      rw [hl] at mu' mw'
      rw [List.mem_singleton.1 mu', List.mem_singleton.1 mw']
    | a :: b :: r => rw [hl] at this; simp at this
  · intro v d hd
    unfold ofLists at hd
    simp only at hd
    cases hx : ts[v]? with
    | none => rw [hx] at hd; simp at hd
    | some t =>
      rw [hx] at hd
      simp only [Option.map_some, Option.some.injEq] at hd
      rw [← hd]
      exact hr v

end

/-- The weight of the part with the vertices of a list. -/
def listW (D : Diagram) (ρ : ℕ → ℝ) (x : ℕ → Bool) : List ℕ → ℂ
  | [] => 1
  | v :: r => (graph D).vf ρ x v *
      ((D.adj v).map fun e => if e.tgt ∈ r then ew e.type ((graph D).ty v) ((graph D).ty e.tgt) (x v) (x e.tgt) else 1).prod *
      listW D ρ x r

theorem W_list {D : Diagram} (h : D.Inv) (ρ : ℕ → ℝ) (x : ℕ → Bool) : ∀ l : List ℕ, l.Nodup → (∀ v ∈ l, D.Alive v) →
    (graph D).W ρ l.toFinset x = listW D ρ x l
  | [], _, _ => by unfold listW Graph.W; simp
  | v :: r, hn, ha => by
    obtain ⟨h1, h2⟩ := List.nodup_cons.1 hn
    have hv : v ∈ (v :: r).toFinset := by simp
    have he : (v :: r).toFinset.erase v = r.toFinset := by
      rw [List.toFinset_cons, Finset.erase_insert (by simpa using h1)]
    rw [Graph.W_erase ρ (graph_symm h) x hv, he, W_list h ρ x r h2 fun w hw => ha w (List.mem_cons_of_mem _ hw),
      prod_pf h (fun w hw => h.mem_verts.2 (ha w (List.mem_cons_of_mem _ (List.mem_toFinset.1 hw)))) x (ha v List.mem_cons_self)]
    simp only [List.mem_toFinset, listW]

/-- Sums over the bits of a list of vertices. -/
def listSum : List ℕ → ((ℕ → Bool) → ℂ) → (ℕ → Bool) → ℂ
  | [], f, b => f b
  | v :: r, f, b => listSum r (fun x => f (update x v false) + f (update x v true)) b

theorem sumOver_list : ∀ (l : List ℕ), l.Nodup → ∀ (f : (ℕ → Bool) → ℂ) b, sumOver l.toFinset f b = listSum l f b
  | [], _, f, b => sumOver_empty f b
  | v :: r, hn, f, b => by
    obtain ⟨h1, h2⟩ := List.nodup_cons.1 hn
    rw [List.toFinset_cons, sumOver_insert (by simpa using h1), sumOver_list r h2]
    rfl

theorem val_list {D : Diagram} (h : D.Inv) (ρ : ℕ → ℝ) (b : ℕ → Bool) {lv li : List ℕ} (nv : lv.Nodup) (ni : li.Nodup)
    (hv : ∀ v, D.Alive v ↔ v ∈ lv) (hi : ∀ v, (graph D).ty v ≠ .boundary ↔ v ∈ li) :
    val ρ D b = D.globalPhase.u ρ * listSum li (fun x => listW D ρ x lv) b := by
  have e1 : D.verts = lv.toFinset := by
    ext v; rw [h.mem_verts, hv, List.mem_toFinset]
  have e2 : D.inner = li.toFinset := by
    ext v; rw [mem_inner h, hi, List.mem_toFinset]
  unfold val
  rw [e1, e2, sumOver_list li ni]
  congr 2
  funext x
  exact W_list h ρ x lv nv fun v hm => (hv v).2 hm

end Diagram

end MQT.ZX
