/-
The simplification loops (`include/mqt-core/zx/Simplify.hpp`, `src/zx/Simplify.cpp`).

A loop is run for a given number of iterations (`k` below); if it has not ended by then, the outcome is `more`, with
the diagram so far.
-/
import Verif.ZX.GadgetProof

set_option autoImplicit false

noncomputable section

open Classical

namespace MQT.ZX

open Diagram

namespace Diagram

/-! ### Model -/

/-- `getVertices` (ZXDiagram.cpp 180-185): the indices in order, skipping deleted ones. -/
def getVertices (D : Diagram) : List ℕ := (List.range D.size).filter fun v => D.Alive v

/-- `getEdges` (ZXDiagram.cpp 187-191) with the iterator of Utils.cpp 63-147: the edges of the vertices in order,
skipping those to a vertex of smaller index.  The constructor of the iterator reads the first list of edges, which
an empty diagram does not have. -/
def getEdges (D : Diagram) : Option (List (ℕ × ℕ)) :=
  if D.size = 0 then none
  else some ((D.getVertices).flatMap fun v => ((D.adj v).filter fun e => ¬ e.tgt < v).map fun e => (v, e.tgt))

/-- One iteration of `simplifyVertices` (Simplify.hpp 41-47), also how many matches it found.  Checks look at the
data of the vertex, which is undefined behaviour for a deleted one. -/
def vertexPass (check : Diagram → ℕ → Prop) (rule : Diagram → ℕ → Option Diagram) : List ℕ → Diagram → Option (Diagram × ℕ)
  | [], D => some (D, 0)
  | v :: r, D =>
    if D.Alive v then
      if check D v then do
        let D1 ← rule D v
        let (D2, n) ← vertexPass check rule r D1
        some (D2, n + 1)
      else vertexPass check rule r D
    else none

/-- One iteration of `simplifyEdges` (Simplify.hpp 72-80). -/
def edgePass (check : Diagram → ℕ → ℕ → Prop) (rule : Diagram → ℕ → ℕ → Option Diagram) :
    List (ℕ × ℕ) → Diagram → Option (Diagram × ℕ)
  | [], D => some (D, 0)
  | (v0, v1) :: r, D =>
    if ¬ D.Alive v0 ∨ ¬ D.Alive v1 ∨ ¬ check D v0 v1 then edgePass check rule r D
    else do
      let D1 ← rule D v0 v1
      let (D2, n) ← edgePass check rule r D1
      some (D2, n + 1)

inductive Out
  | ub
  | more (D : Diagram)
  | done (D : Diagram) (n : ℕ)

def Out.bind : Out → (Diagram → ℕ → Out) → Out
  | .ub, _ => .ub
  | .more D, _ => .more D
  | .done D n, f => f D n

/-- The loop of `simplifyVertices` and `simplifyEdges`. -/
def simplify (pass : Diagram → Option (Diagram × ℕ)) : ℕ → Diagram → Out
  | 0, D => .more D
  | k + 1, D =>
    match pass D with
    | none => .ub
    | some (D1, 0) => .done D1 0
    | some (D1, n + 1) => (simplify pass k D1).bind fun D2 m => .done D2 (n + 1 + m)

def simplifyVertices (check : Diagram → ℕ → Prop) (rule : Diagram → ℕ → Option Diagram) : ℕ → Diagram → Out :=
  simplify fun D => vertexPass check rule D.getVertices D

def simplifyEdges (check : Diagram → ℕ → ℕ → Prop) (rule : Diagram → ℕ → ℕ → Option Diagram) : ℕ → Diagram → Out :=
  simplify fun D => D.getEdges.bind fun l => edgePass check rule l D

/-! Simplify.cpp 40-58, 95-97. -/

def idSimp : ℕ → Diagram → Out := simplifyVertices checkIdSimp removeId
def spiderSimp : ℕ → Diagram → Out := simplifyEdges checkSpiderFusion fuseSpiders
def localCompSimp : ℕ → Diagram → Out := simplifyVertices checkLocalComp localComp
def pivotSimp : ℕ → Diagram → Out := simplifyEdges checkPivot pivot
def pivotPauliSimp : ℕ → Diagram → Out := simplifyEdges checkPivotPauli pivotPauli
def pivotgadgetSimp : ℕ → Diagram → Out := simplifyEdges checkPivotGadget pivotGadget

/-- `while (newMatches)` over a body that reports a number of simplifications; counts the iterations that had some. -/
def repeatWhile (body : Diagram → Out) : ℕ → Diagram → Out
  | 0, D => .more D
  | k + 1, D => (body D).bind fun D1 n =>
    if n ≠ 0 then (repeatWhile body k D1).bind fun D2 m => .done D2 (m + 1) else .done D1 0

/-- The body of the loop of `interiorCliffordSimp` (Simplify.cpp 67-71). -/
def interiorRound (k : ℕ) (D : Diagram) : Out :=
  (idSimp k D).bind fun D1 nId => (spiderSimp k D1).bind fun D2 nSpider => (pivotPauliSimp k D2).bind fun D3 nPivot =>
    (localCompSimp k D3).bind fun D4 nLocalComp => .done D4 (nId + nSpider + nPivot + nLocalComp)

/-- Simplify.cpp 60-79. -/
def interiorCliffordSimp (k : ℕ) (D : Diagram) : Out :=
  (spiderSimp k D).bind fun D1 _ => repeatWhile (interiorRound k) k D1

/-- The body of the loop of `cliffordSimp` (Simplify.cpp 85-87). -/
def cliffordRound (k : ℕ) (D : Diagram) : Out :=
  (interiorCliffordSimp k D).bind fun D1 nClifford => (pivotSimp k D1).bind fun D2 nPivot => .done D2 (nClifford + nPivot)

/-- Simplify.cpp 81-94. -/
def cliffordSimp (k : ℕ) (D : Diagram) : Out := repeatWhile (cliffordRound k) k D

/-! ### Specification -/

/-- What the loops need of a diagram. -/
def Ready (D : Diagram) : Prop := D.Good ∧ 0 < D.size

/-- The outcome is no undefined behaviour and has the same linear map. -/
def Out.Sound (D : Diagram) : Out → Prop
  | .ub => False
  | .more D' => D'.Ready ∧ D.Same D'
  | .done D' _ => D'.Ready ∧ D.Same D'

/-- No rule of `interiorCliffordSimp` applies any more. -/
structure InteriorClifford (D : Diagram) : Prop where
  id : ∀ v, D.Alive v → ¬ D.checkIdSimp v
  localComp : ∀ v, D.Alive v → ¬ D.checkLocalComp v
  spider : ∀ u v, D.Alive u → D.Alive v → ¬ D.checkSpiderFusion u v
  pivot : ∀ u v, D.Alive u → D.Alive v → ¬ D.checkPivotPauli u v

/-! ### Lemmas -/

theorem mem_getVertices {D : Diagram} (h : D.Inv) {v : ℕ} : v ∈ D.getVertices ↔ D.Alive v := by
  unfold getVertices
  rw [List.mem_filter, List.mem_range]
  simp only [decide_eq_true_eq]
  exact ⟨fun h => h.2, fun hv => ⟨h.lt hv, hv⟩⟩

theorem Out.Sound.bind {D : Diagram} {o : Out} (h : o.Sound D) {f : Diagram → ℕ → Out}
    (hf : ∀ D' n, o = .done D' n → D'.Ready → D.Same D' → (f D' n).Sound D) : (o.bind f).Sound D := by
  cases o with
  | ub => exact h
  | more D' => exact h
  | done D' n => exact hf D' n rfl h.1 h.2

theorem Out.Sound.trans {D D₁ : Diagram} {o : Out} (h : o.Sound D₁) (s : D.Same D₁) : o.Sound D := by
  cases o with
  | ub => exact h
  | more D' => exact ⟨h.1, s.trans h.2⟩
  | done D' n => exact ⟨h.1, s.trans h.2⟩

/-- A pass does what it should. -/
def PassOk (pass : Diagram → Option (Diagram × ℕ)) : Prop :=
  ∀ D, D.Ready → ∃ D1 n, pass D = some (D1, n) ∧ D1.Ready ∧ D.Same D1 ∧ (n = 0 → D1 = D)

/-- Each match removes `c` vertices. -/
def Shrinks (c : ℕ) (pass : Diagram → Option (Diagram × ℕ)) : Prop :=
  ∀ D, D.Ready → ∀ D1 n, pass D = some (D1, n) → D1.verts.card + c * n = D.verts.card

theorem simplify_sound {pass : Diagram → Option (Diagram × ℕ)} (hp : PassOk pass) :
    ∀ k D, D.Ready → (simplify pass k D).Sound D := by
  intro k
  induction k with
  | zero => exact fun D h => ⟨h, .refl D⟩
  | succ k ih =>
    intro D h
    obtain ⟨D1, n, h1, r1, s1, _⟩ := hp D h
    unfold simplify
    rw [h1]
    cases n with
    | zero => exact ⟨r1, s1⟩
    | succ n => exact ((ih D1 r1).trans s1).bind fun D' m _ r s => ⟨r, s⟩

/-- A loop that shrinks the diagram ends, and then there are no matches. -/
theorem simplify_total {pass : Diagram → Option (Diagram × ℕ)} (hp : PassOk pass) {c : ℕ} (hc : 0 < c) (hs : Shrinks c pass) :
    ∀ k D, D.Ready → D.verts.card < k → ∃ D' n, simplify pass k D = .done D' n ∧ D'.Ready ∧ D.Same D' ∧
      D'.verts.card + c * n = D.verts.card ∧ pass D' = some (D', 0) ∧ (n = 0 → D' = D) := by
  intro k
  induction k with
  | zero => intro D _ h; omega
  | succ k ih =>
    intro D h hk
    obtain ⟨D1, n, h1, r1, s1, z1⟩ := hp D h
    have hcard := hs D h D1 n h1
    unfold simplify
    rw [h1]
    cases n with
    | zero =>
      have := z1 rfl
      subst this
      exact ⟨D1, 0, rfl, r1, s1, by simp, h1, fun _ => rfl⟩
    | succ n =>
      have : c * (n + 1) = c * n + c := by ring
      obtain ⟨D', m, h2, r2, s2, c2, p2, _⟩ := ih D1 r1 (by omega)
      simp only
      rw [h2]
      refine ⟨D', n + 1 + m, rfl, r2, s1.trans s2, ?_, p2, fun h => by omega⟩
      have : c * (n + 1 + m) = c * (n + 1) + c * m := by ring
      omega

/-! Passes over vertices. -/

theorem vertexPass_ok {check : Diagram → ℕ → Prop} {rule : Diagram → ℕ → Option Diagram}
    (hr : ∀ D v, D.Good → check D v → ∃ D', rule D v = some D' ∧ D'.Good ∧ D.Same D' ∧ D'.verts = D.verts.erase v ∧ D'.size = D.size)
    (hck : ∀ D v, D.Good → check D v → D.Alive v) :
    ∀ (l : List ℕ) (D : Diagram), D.Ready → l.Nodup → (∀ v ∈ l, D.Alive v) →
      ∃ D1 n, vertexPass check rule l D = some (D1, n) ∧ D1.Ready ∧ D.Same D1 ∧ (n = 0 → D1 = D) ∧
        D1.verts.card + n = D.verts.card ∧ (n = 0 → ∀ v ∈ l, ¬ check D v) := by
  intro l
  induction l with
  | nil => exact fun D h _ _ => ⟨D, 0, rfl, h, .refl D, fun _ => rfl, rfl, fun _ v hv => absurd hv (by simp)⟩
  | cons v r ih =>
    intro D h hnd hal
    rw [List.nodup_cons] at hnd
    unfold vertexPass
    rw [if_pos (hal v List.mem_cons_self)]
    by_cases hc : check D v
    · rw [if_pos hc]
      obtain ⟨D', h1, g1, s1, v1, z1⟩ := hr D v h.1 hc
      have hav : v ∈ D.verts := h.1.inv.mem_verts.2 (hck D v h.1 hc)
      obtain ⟨D1, n, h2, r2, s2, _, c2, _⟩ := ih D' ⟨g1, by rw [z1]; exact h.2⟩ hnd.2 (by
        intro w hw
        rw [← g1.inv.mem_verts, v1, Finset.mem_erase, h.1.inv.mem_verts]
        exact ⟨by rintro rfl; exact hnd.1 hw, hal w (List.mem_cons_of_mem _ hw)⟩)
      refine ⟨D1, n + 1, ?_, r2, s1.trans s2, fun h => by omega, ?_, fun h => by omega⟩
      · rw [h1]
        simp only [Option.bind_eq_bind, Option.bind_some]
        rw [h2]
        rfl
      · rw [v1, Finset.card_erase_of_mem hav] at c2
        have := Finset.card_pos.2 ⟨v, hav⟩
        omega
    · rw [if_neg hc]
      obtain ⟨D1, n, h2, r2, s2, z2, c2, e2⟩ := ih D h hnd.2 fun w hw => hal w (List.mem_cons_of_mem _ hw)
      refine ⟨D1, n, h2, r2, s2, z2, c2, fun hn w hw => ?_⟩
      rcases List.mem_cons.1 hw with rfl | hw
      · exact hc
      · exact e2 hn w hw

theorem getVertices_nodup (D : Diagram) : D.getVertices.Nodup := List.nodup_range.filter _

/-! Passes over edges. -/

theorem edgePass_ok {check : Diagram → ℕ → ℕ → Prop} {rule : Diagram → ℕ → ℕ → Option Diagram}
    (hr : ∀ D u v, D.Good → D.Alive u → check D u v → ∃ D', rule D u v = some D' ∧ D'.Good ∧ D.Same D' ∧ D.size ≤ D'.size) :
    ∀ (l : List (ℕ × ℕ)) (D : Diagram), D.Ready →
      ∃ D1 n, edgePass check rule l D = some (D1, n) ∧ D1.Ready ∧ D.Same D1 ∧ (n = 0 → D1 = D) ∧
        (n = 0 → ∀ u v, (u, v) ∈ l → D.Alive u → D.Alive v → ¬ check D u v) := by
  intro l
  induction l with
  | nil => exact fun D h => ⟨D, 0, rfl, h, .refl D, fun _ => rfl, fun _ u v hv => absurd hv (by simp)⟩
  | cons e r ih =>
    intro D h
    obtain ⟨u, v⟩ := e
    unfold edgePass
    by_cases hc : ¬ D.Alive u ∨ ¬ D.Alive v ∨ ¬ check D u v
    · rw [if_pos hc]
      obtain ⟨D1, n, h2, r2, s2, z2, e2⟩ := ih D h
      refine ⟨D1, n, h2, r2, s2, z2, fun hn a b hab ha hb => ?_⟩
      rcases List.mem_cons.1 hab with hh | hh
      · simp only [Prod.mk.injEq] at hh
        obtain ⟨rfl, rfl⟩ := hh
        tauto
      · exact e2 hn a b hh ha hb
    · rw [if_neg hc]
      push Not at hc
      obtain ⟨D', h1, g1, s1, z1⟩ := hr D u v h.1 hc.1 hc.2.2
      obtain ⟨D1, n, h2, r2, s2, _⟩ := ih D' ⟨g1, lt_of_lt_of_le h.2 z1⟩
      refine ⟨D1, n + 1, ?_, r2, s1.trans s2, fun h => by omega, fun h => by omega⟩
      rw [h1]
      simp only [Option.bind_eq_bind, Option.bind_some]
      rw [h2]
      rfl

theorem edgePass_card {check : Diagram → ℕ → ℕ → Prop} {rule : Diagram → ℕ → ℕ → Option Diagram} (c : ℕ)
    (hr : ∀ D u v, D.Ready → D.Alive u → check D u v → ∃ D', rule D u v = some D' ∧ D'.Ready ∧ D'.verts.card + c = D.verts.card) :
    ∀ (l : List (ℕ × ℕ)) (D : Diagram), D.Ready → ∀ D1 n, edgePass check rule l D = some (D1, n) →
      D1.verts.card + c * n = D.verts.card := by
  intro l
  induction l with
  | nil =>
    intro D _ D1 n h
    unfold edgePass at h
    simp only [Option.some.injEq, Prod.mk.injEq] at h
    rw [← h.1, ← h.2]
    simp
  | cons e r ih =>
    intro D h D1 n hx
    obtain ⟨u, v⟩ := e
    unfold edgePass at hx
    by_cases hc : ¬ D.Alive u ∨ ¬ D.Alive v ∨ ¬ check D u v
    · rw [if_pos hc] at hx
      exact ih D h D1 n hx
    · rw [if_neg hc] at hx
      push Not at hc
      obtain ⟨D', h1, r1, c1⟩ := hr D u v h hc.1 hc.2.2
      rw [h1] at hx
      simp only [Option.bind_eq_bind, Option.bind_some] at hx
      cases hy : edgePass check rule r D' with
      | none => rw [hy] at hx; simp at hx
      | some p =>
        obtain ⟨D2, m⟩ := p
        rw [hy] at hx
        simp only [Option.bind_some, Option.some.injEq, Prod.mk.injEq] at hx
        have := ih D' r1 D2 m hy
        rw [← hx.1, ← hx.2]
        have : c * (m + 1) = c * m + c := by ring
        omega

theorem getEdges_eq {D : Diagram} (h : D.Ready) : ∃ l, D.getEdges = some l ∧
    ∀ u v, D.Alive u → u ≤ v → (∃ e ∈ D.adj u, e.tgt = v) → (u, v) ∈ l := by
  refine ⟨_, if_neg h.2.ne', ?_⟩
  rintro u v hu huv ⟨e, he, rfl⟩
  rw [List.mem_flatMap]
  refine ⟨u, (mem_getVertices h.1.inv).2 hu, ?_⟩
  rw [List.mem_map]
  refine ⟨e, ?_, rfl⟩
  rw [List.mem_filter]
  exact ⟨he, by simpa using huv⟩

/-! The rules. -/

theorem alive_of_id {D : Diagram} {v : ℕ} (h : D.Good) (hc : D.checkIdSimp v) : D.Alive v := by
  obtain ⟨_, _, t, ht, _⟩ := hc
  exact ((type_eq_iff h.inv).1 ht).1

theorem alive_of_localComp {D : Diagram} {v : ℕ} (h : D.Good) (hc : D.checkLocalComp v) : D.Alive v :=
  ((type_eq_iff h.inv).1 hc.1).1

abbrev VertexOk (check : Diagram → ℕ → Prop) (rule : Diagram → ℕ → Option Diagram) : Prop :=
  PassOk (fun D => vertexPass check rule D.getVertices D) ∧ Shrinks 1 (fun D => vertexPass check rule D.getVertices D) ∧
  ∀ D, D.Ready → vertexPass check rule D.getVertices D = some (D, 0) → ∀ v, D.Alive v → ¬ check D v

abbrev EdgeOk (check : Diagram → ℕ → ℕ → Prop) (rule : Diagram → ℕ → ℕ → Option Diagram) : Prop :=
  PassOk (fun D => D.getEdges.bind fun l => edgePass check rule l D) ∧
  ∀ D, D.Ready → (D.getEdges.bind fun l => edgePass check rule l D) = some (D, 0) →
    ∀ u v, D.Alive u → D.Alive v → u ≤ v → ¬ check D u v

theorem vertexPasses {check : Diagram → ℕ → Prop} {rule : Diagram → ℕ → Option Diagram}
    (hr : ∀ D v, D.Good → check D v → ∃ D', rule D v = some D' ∧ D'.Good ∧ D.Same D' ∧ D'.verts = D.verts.erase v ∧ D'.size = D.size)
    (hck : ∀ D v, D.Good → check D v → D.Alive v) :
    VertexOk check rule := by
  have main := fun D (h : D.Ready) => vertexPass_ok hr hck D.getVertices D h D.getVertices_nodup fun v hv => (mem_getVertices h.1.inv).1 hv
  refine ⟨?_, ?_, ?_⟩
  · intro D h
    obtain ⟨D1, n, h1, h2, h3, h4, _⟩ := main D h
    exact ⟨D1, n, h1, h2, h3, h4⟩
  · intro D h D1 n hx
    obtain ⟨D1', n', h1, _, _, _, h5, _⟩ := main D h
    simp only at hx
    rw [h1] at hx
    simp only [Option.some.injEq, Prod.mk.injEq] at hx
    rw [← hx.1, ← hx.2, one_mul]
    exact h5
  · intro D h hx v hv
    obtain ⟨D1', n', h1, _, _, _, _, h6⟩ := main D h
    rw [h1] at hx
    simp only [Option.some.injEq, Prod.mk.injEq] at hx
    exact h6 hx.2 v ((mem_getVertices h.1.inv).2 hv)

theorem edgePasses {check : Diagram → ℕ → ℕ → Prop} {rule : Diagram → ℕ → ℕ → Option Diagram}
    (hr : ∀ D u v, D.Good → D.Alive u → check D u v → ∃ D', rule D u v = some D' ∧ D'.Good ∧ D.Same D' ∧ D.size ≤ D'.size)
    (hck : ∀ D u v, D.Good → D.Alive u → check D u v → ∃ e ∈ D.adj u, e.tgt = v) :
    EdgeOk check rule := by
  constructor
  · intro D h
    obtain ⟨l, hl, _⟩ := getEdges_eq h
    obtain ⟨D1, n, h1, h2, h3, h4, _⟩ := edgePass_ok hr l D h
    refine ⟨D1, n, ?_, h2, h3, h4⟩
    simp only
    rw [hl, Option.bind_some, h1]
  · intro D h hx u v hu hv huv hc
    obtain ⟨l, hl, hm⟩ := getEdges_eq h
    obtain ⟨D1, n, h1, _, _, _, h5⟩ := edgePass_ok hr l D h
    rw [hl, Option.bind_some, h1] at hx
    simp only [Option.some.injEq, Prod.mk.injEq] at hx
    exact h5 hx.2 u v (hm u v hu huv (hck D u v h.1 hu hc)) hu hv hc

theorem edgeShrinks {check : Diagram → ℕ → ℕ → Prop} {rule : Diagram → ℕ → ℕ → Option Diagram} (c : ℕ)
    (hr : ∀ D u v, D.Ready → D.Alive u → check D u v → ∃ D', rule D u v = some D' ∧ D'.Ready ∧ D'.verts.card + c = D.verts.card) :
    Shrinks c (fun D => D.getEdges.bind fun l => edgePass check rule l D) := by
  intro D h D1 n hx
  obtain ⟨l, hl, _⟩ := getEdges_eq h
  simp only at hx
  rw [hl, Option.bind_some] at hx
  exact edgePass_card c hr l D h D1 n hx

theorem id_passes : VertexOk checkIdSimp removeId := vertexPasses (check := checkIdSimp) (rule := removeId) (fun _ _ h hc => removeId_sound h hc) (fun _ _ h hc => alive_of_id h hc)

theorem localComp_passes : VertexOk checkLocalComp localComp := vertexPasses (check := checkLocalComp) (rule := localComp) (fun _ _ h hc => localComp_sound h hc)
  (fun _ _ h hc => alive_of_localComp h hc)

theorem spider_passes : EdgeOk checkSpiderFusion fuseSpiders := edgePasses (check := checkSpiderFusion) (rule := fuseSpiders)
  (fun _ _ _ h ha hc => by
    obtain ⟨D', h1, h2, h3, _, h5⟩ := fuseSpiders_sound h ha hc
    exact ⟨D', h1, h2, h3, h5.ge⟩)
  (fun _ _ _ h ha hc => by
    obtain ⟨_, _, hf, _⟩ := hc
    obtain ⟨_, _, _, _, _, _, k⟩ := edge_type h ha hf
    exact k)

theorem pivotPauli_passes : EdgeOk checkPivotPauli pivotPauli := edgePasses (check := checkPivotPauli) (rule := pivotPauli)
  (fun _ _ _ h _ hc => by
    obtain ⟨D', h1, h2, h3, _, h5⟩ := pivotPauli_sound h hc
    exact ⟨D', h1, h2, h3, h5.ge⟩)
  (fun _ _ _ h ha hc => by
    obtain ⟨_, _, _, hf, _⟩ := hc
    obtain ⟨_, _, _, _, _, _, k⟩ := edge_type h ha hf
    exact k)

theorem pivot_passes : EdgeOk checkPivot pivot := edgePasses (check := checkPivot) (rule := pivot)
  (fun _ _ _ h _ hc => by
    obtain ⟨D', h1, h2, h3, _, _, h5⟩ := pivot_sound h hc
    exact ⟨D', h1, h2, h3, h5⟩)
  (fun _ _ _ h ha hc => by
    obtain ⟨_, _, _, hf, _⟩ := hc
    obtain ⟨_, _, _, _, _, _, k⟩ := edge_type h ha hf
    exact k)

theorem pivotGadget_passes : EdgeOk checkPivotGadget pivotGadget := edgePasses (check := checkPivotGadget) (rule := pivotGadget)
  (fun _ _ _ h _ hc => by
    obtain ⟨D', h1, h2, h3, _, _, h5⟩ := pivotGadget_sound h hc
    exact ⟨D', h1, h2, h3, h5⟩)
  (fun _ _ _ h ha hc => by
    obtain ⟨_, _, _, _, _, _, hf, _⟩ := hc
    obtain ⟨_, _, _, _, _, _, k⟩ := edge_type h ha hf
    exact k)

theorem spider_shrinks : Shrinks 1 (fun D => D.getEdges.bind fun l => edgePass checkSpiderFusion fuseSpiders l D) :=
  edgeShrinks 1 fun D u v h ha hc => by
    obtain ⟨D', h1, h2, _, h4, h5⟩ := fuseSpiders_sound h.1 ha hc
    have hv : v ∈ D.verts := by
      obtain ⟨_, _, hf, _⟩ := hc
      exact h.1.inv.mem_verts.2 (edge_type h.1 ha hf).1
    refine ⟨D', h1, ⟨h2, by rw [h5]; exact h.2⟩, ?_⟩
    rw [h4, Finset.card_erase_of_mem hv]
    have := Finset.card_pos.2 ⟨v, hv⟩
    omega

theorem pivotPauli_shrinks : Shrinks 2 (fun D => D.getEdges.bind fun l => edgePass checkPivotPauli pivotPauli l D) :=
  edgeShrinks 2 fun D u v h ha hc => by
    obtain ⟨D', h1, h2, _, h4, h5⟩ := pivotPauli_sound h.1 hc
    obtain ⟨_, _, _, hf, _⟩ := hc
    obtain ⟨hv, hne, _⟩ := edge_type h.1 ha hf
    have hu : u ∈ D.verts := h.1.inv.mem_verts.2 ha
    have hv' : v ∈ D.verts.erase u := Finset.mem_erase.2 ⟨hne.symm, h.1.inv.mem_verts.2 hv⟩
    refine ⟨D', h1, ⟨h2, by rw [h5]; exact h.2⟩, ?_⟩
    rw [h4, Finset.card_erase_of_mem hv', Finset.card_erase_of_mem hu]
    have h1 := Finset.card_pos.2 ⟨v, hv'⟩
    rw [Finset.card_erase_of_mem hu] at h1
    omega

/-! The composed loops. -/

theorem repeatWhile_sound {body : Diagram → Out} (hb : ∀ D, D.Ready → (body D).Sound D) :
    ∀ k D, D.Ready → (repeatWhile body k D).Sound D := by
  intro k
  induction k with
  | zero => exact fun D h => ⟨h, .refl D⟩
  | succ k ih =>
    intro D h
    unfold repeatWhile
    refine (hb D h).bind fun D1 n _ r1 s1 => ?_
    split_ifs with hn
    · exact ((ih D1 r1).trans s1).bind fun D2 m _ r2 s2 => ⟨r2, s2⟩
    · exact ⟨r1, s1⟩

theorem idSimp_sound (k : ℕ) {D : Diagram} (h : D.Ready) : (idSimp k D).Sound D := simplify_sound id_passes.1 k D h
theorem spiderSimp_sound (k : ℕ) {D : Diagram} (h : D.Ready) : (spiderSimp k D).Sound D := simplify_sound spider_passes.1 k D h
theorem localCompSimp_sound (k : ℕ) {D : Diagram} (h : D.Ready) : (localCompSimp k D).Sound D :=
  simplify_sound localComp_passes.1 k D h
theorem pivotPauliSimp_sound (k : ℕ) {D : Diagram} (h : D.Ready) : (pivotPauliSimp k D).Sound D :=
  simplify_sound pivotPauli_passes.1 k D h
theorem pivotSimp_sound (k : ℕ) {D : Diagram} (h : D.Ready) : (pivotSimp k D).Sound D := simplify_sound pivot_passes.1 k D h
theorem pivotgadgetSimp_sound (k : ℕ) {D : Diagram} (h : D.Ready) : (pivotgadgetSimp k D).Sound D :=
  simplify_sound pivotGadget_passes.1 k D h

theorem interiorRound_sound (k : ℕ) {D : Diagram} (h : D.Ready) : (interiorRound k D).Sound D := by
  unfold interiorRound
  refine (idSimp_sound k h).bind fun D1 _ _ r1 s1 => ?_
  refine ((spiderSimp_sound k r1).trans s1).bind fun D2 _ _ r2 s2 => ?_
  refine ((pivotPauliSimp_sound k r2).trans s2).bind fun D3 _ _ r3 s3 => ?_
  exact ((localCompSimp_sound k r3).trans s3).bind fun D4 _ _ r4 s4 => ⟨r4, s4⟩

theorem interiorCliffordSimp_sound (k : ℕ) {D : Diagram} (h : D.Ready) : (interiorCliffordSimp k D).Sound D := by
  unfold interiorCliffordSimp
  refine (spiderSimp_sound k h).bind fun D1 _ _ r1 s1 => ?_
  exact (repeatWhile_sound (fun D h => interiorRound_sound k h) k D1 r1).trans s1

theorem cliffordSimp_sound (k : ℕ) {D : Diagram} (h : D.Ready) : (cliffordSimp k D).Sound D := by
  refine repeatWhile_sound (fun D h => ?_) k D h
  unfold cliffordRound
  refine (interiorCliffordSimp_sound k h).bind fun D1 _ _ r1 s1 => ?_
  exact ((pivotSimp_sound k r1).trans s1).bind fun D2 _ _ r2 s2 => ⟨r2, s2⟩

theorem findEdge_symm {D : Diagram} (h : D.Good) {u v : ℕ} (hu : D.Alive u) {t : EType}
    (hf : (findEdge (D.adj u) v).map Edge.type = some t) : (findEdge (D.adj v) u).map Edge.type = some t := by
  obtain ⟨_, _, _, h1, _, ⟨e, he, hx⟩, _⟩ := edge_type h hu hf
  cases hf' : findEdge (D.adj v) u with
  | none => exact absurd hx ((conn_zero_iff D v u).1 (findEdge_none.1 hf') e he)
  | some e' =>
    obtain ⟨m, ht⟩ := findEdge_some hf'
    rw [Option.map_some, h1 e' m ht]

theorem checkSpiderFusion_symm {D : Diagram} (h : D.Good) {u v : ℕ} (hu : D.Alive u) (hc : D.checkSpiderFusion u v) :
    D.checkSpiderFusion v u :=
  ⟨hc.1.symm, hc.2.1.symm, findEdge_symm h hu hc.2.2.1, by rw [← hc.2.1]; exact hc.2.2.2⟩

theorem checkPivotPauli_symm {D : Diagram} (h : D.Good) {u v : ℕ} (hu : D.Alive u) (hc : D.checkPivotPauli u v) :
    D.checkPivotPauli v u := by
  obtain ⟨_, p0, p1, hf, l0, l1⟩ := hc
  obtain ⟨_, _, _, _, _, _, e, he, hx⟩ := edge_type h hu hf
  exact ⟨hx ▸ (l0 e he).1, p1, p0, findEdge_symm h hu hf, l1, l0⟩

theorem interiorRound_total {k : ℕ} {D : Diagram} (h : D.Ready) (hk : D.verts.card < k) :
    ∃ D' n, interiorRound k D = .done D' n ∧ D'.Ready ∧ D.Same D' ∧ D'.verts.card + n ≤ D.verts.card ∧
      (n = 0 → D' = D ∧ D.InteriorClifford) := by
  obtain ⟨D1, n1, h1, r1, s1, c1, p1, z1⟩ := simplify_total id_passes.1 one_pos id_passes.2.1 k D h hk
  obtain ⟨D2, n2, h2, r2, s2, c2, p2, z2⟩ := simplify_total spider_passes.1 one_pos spider_shrinks k D1 r1 (by omega)
  obtain ⟨D3, n3, h3, r3, s3, c3, p3, z3⟩ := simplify_total pivotPauli_passes.1 two_pos pivotPauli_shrinks k D2 r2 (by omega)
  obtain ⟨D4, n4, h4, r4, s4, c4, p4, z4⟩ := simplify_total localComp_passes.1 one_pos localComp_passes.2.1 k D3 r3 (by omega)
  refine ⟨D4, n1 + n2 + n3 + n4, ?_, r4, s1.trans (s2.trans (s3.trans s4)), by omega, fun hn => ?_⟩
  · unfold interiorRound idSimp spiderSimp pivotPauliSimp localCompSimp simplifyVertices simplifyEdges
    rw [h1]
    simp only [Out.bind]
    rw [h2]
    simp only
    rw [h3]
    simp only
    rw [h4]
  · have e1 := z1 (by omega)
    have e2 := z2 (by omega)
    have e3 := z3 (by omega)
    have e4 := z4 (by omega)
    subst e1 e2 e3 e4
    refine ⟨rfl, id_passes.2.2 _ h p1, localComp_passes.2.2 _ h p4, fun u v hu hv hc => ?_, fun u v hu hv hc => ?_⟩
    · rcases le_total u v with huv | huv
      · exact spider_passes.2 _ h p2 u v hu hv huv hc
      · exact spider_passes.2 _ h p2 v u hv hu huv (checkSpiderFusion_symm h.1 hu hc)
    · rcases le_total u v with huv | huv
      · exact pivotPauli_passes.2 _ h p3 u v hu hv huv hc
      · exact pivotPauli_passes.2 _ h p3 v u hv hu huv (checkPivotPauli_symm h.1 hu hc)

theorem interiorLoop_total {k : ℕ} : ∀ (j : ℕ) {D : Diagram}, D.Ready → D.verts.card < k → D.verts.card < j →
    ∃ D' n, repeatWhile (interiorRound k) j D = .done D' n ∧ D'.Ready ∧ D.Same D' ∧ D'.InteriorClifford ∧ D'.verts.card ≤ D.verts.card := by
  intro j
  induction j with
  | zero => intro D _ _ h; omega
  | succ j ih =>
    intro D h hk hj
    obtain ⟨D1, n, h1, r1, s1, c1, z1⟩ := interiorRound_total h hk
    unfold repeatWhile
    rw [h1]
    simp only [Out.bind]
    by_cases hn : n = 0
    · rw [if_neg (not_not.2 hn)]
      obtain ⟨e, hi⟩ := z1 hn
      subst e
      exact ⟨D1, 0, rfl, r1, s1, hi, le_rfl⟩
    · rw [if_pos hn]
      obtain ⟨D', m, h2, r2, s2, i2, c2⟩ := ih r1 (by omega) (by omega)
      rw [h2]
      exact ⟨D', m + 1, rfl, r2, s1.trans s2, i2, by omega⟩

theorem interiorCliffordSimp_total {k : ℕ} {D : Diagram} (h : D.Ready) (hk : D.verts.card < k) :
    ∃ D' n, interiorCliffordSimp k D = .done D' n ∧ D'.Ready ∧ D.Same D' ∧ D'.InteriorClifford ∧ D'.verts.card ≤ D.verts.card := by
  obtain ⟨D1, n1, h1, r1, s1, c1, p1, z1⟩ := simplify_total spider_passes.1 one_pos spider_shrinks k D h hk
  obtain ⟨D', n, h2, r2, s2, i2, c2⟩ := interiorLoop_total (k := k) k r1 (by omega) (by omega)
  refine ⟨D', n, ?_, r2, s1.trans s2, i2, by omega⟩
  unfold interiorCliffordSimp spiderSimp simplifyEdges
  rw [h1]
  exact h2

end Diagram

end MQT.ZX
