/-
Concatenation of diagrams (`concat`): the model, and its steps.
-/
import Verif.ZX.Adjoint
import Verif.ZX.BuildSem
import Verif.ZX.Concrete

set_option autoImplicit false

noncomputable section

open Classical

open Function (update)

namespace MQT.ZX

open Diagram

namespace Diagram

/-! ### Model -/

/-- The first loop of `concat` (ZXDiagram.cpp 244-255): copies of the vertices of `R` other than its inputs, and their
indices (`newVs`; 0 for a missing key). -/
def copyVerts (R : Diagram) : List ℕ → Diagram → (ℕ → ℕ) → Diagram × (ℕ → ℕ)
  | [], D, nw => (D, nw)
  | i :: l, D, nw =>
    match R.vert i with
    | some d =>
      if i ∈ R.inputs then copyVerts R l D nw else copyVerts R l (D.addVertex d).1 (update nw i (D.addVertex d).2)
    | none => copyVerts R l D nw

/-- The loop over the edges of an output (ZXDiagram.cpp 268-276). -/
def redirect (w : ℕ) (t : EType) : List Edge → Diagram → Option Diagram
  | [], D => some D
  | e :: l, D => (D.addEdge e.tgt w (if e.type = t then .simple else .hadamard)).bind (redirect w t l)

/-- The body of the loop over the edges of `R` (ZXDiagram.cpp 262-277).  Undefined if the list of edges of the output changes
while it is iterated over, or if there is no such output. -/
def copyEdge (R : Diagram) (nw : ℕ → ℕ) (i : ℕ) (D : Diagram) (e : Edge) : Option Diagram :=
  if e.tgt ∈ R.inputs then
    match R.vert e.tgt with
    | some d =>
      match (if 0 ≤ d.qubit then D.outputs[d.qubit.toNat]? else none) with
      | some o =>
        if o < D.size ∧ nw i ≠ o ∧ ∀ a ∈ D.adj o, a.tgt ≠ o then redirect (nw i) e.type (D.adj o) D else none
      | none => none
    | none => none
  else if i < e.tgt then D.addEdge (nw i) (nw e.tgt) e.type
  else some D

/-- The body of the second loop (ZXDiagram.cpp 257-278). -/
def copyEdges (R : Diagram) (nw : ℕ → ℕ) (D : Diagram) (i : ℕ) : Option Diagram :=
  match R.vert i with
  | some _ => if i ∈ R.inputs then some D else (R.adj i).foldlM (copyEdge R nw i) D
  | none => some D

/-- The body of the third loop (ZXDiagram.cpp 282-283). -/
def moveOutput (R : Diagram) (nw : ℕ → ℕ) (D : Diagram) (k : ℕ) : Option Diagram :=
  match D.outputs[k]?, R.outputs[k]? with
  | some o, some r => (D.removeVertex o).bind fun D1 => some { D1 with outputs := D1.outputs.set k (nw r) }
  | _, _ => none

/-- `concat` (ZXDiagram.cpp 238-288), for two different objects; no result if the exception is thrown. -/
def concat (D R : Diagram) : Option Diagram :=
  if R.inputs.length ≠ D.inputs.length then none
  else
    let c := copyVerts R (List.range R.size) D fun _ => 0
    ((List.range R.size).foldlM (copyEdges R c.2) c.1).bind fun D2 =>
    ((List.range D2.outputs.length).foldlM (moveOutput R c.2) D2).bind fun D3 =>
    some (D3.addGlobalPhase R.globalPhase.neg)

/-! ### Specification -/

/-- The only edge of a vertex. -/
def end1 (D : Diagram) (p : ℕ) : Edge := (D.adj p).headD ⟨0, .simple⟩

/-- Different boundary vertices, each with one edge, to a vertex that is not one of them. -/
structure Ends (D : Diagram) (ps : List ℕ) : Prop where
  nodup : ps.Nodup
  alive : ∀ p ∈ ps, D.Alive p
  ty : ∀ p ∈ ps, (graph D).ty p = .boundary
  one : ∀ p ∈ ps, D.adj p = [D.end1 p]
  ne : ∀ p ∈ ps, (D.end1 p).tgt ∉ ps

/-- Diagrams that can be concatenated. -/
structure Joins (n : ℕ) (D R : Diagram) : Prop where
  invD : D.Inv
  invR : R.Inv
  inD : D.inputs.length = n
  outD : D.outputs.length = n
  inR : R.inputs.length = n
  outR : R.outputs.length = n
  endsD : D.Ends D.outputs
  endsR : R.Ends R.inputs
  alD : ∀ v ∈ D.inputs, D.Alive v ∧ v ∉ D.outputs
  alR : ∀ v ∈ R.outputs, R.Alive v ∧ v ∉ R.inputs
  qubit : ∀ (k v : ℕ), R.inputs[k]? = some v → (R.vert v).map VData.qubit = some (k : ℤ)

/-! ### Sums -/

/-- The weight without the vertices in `O`, and a factor. -/
def linOn (O : Finset ℕ) (ρ : ℕ → ℝ) (D : Diagram) (f : (ℕ → Bool) → ℂ) (β : ℕ → Bool) : ℂ :=
  sumOver D.inner (fun x => (graph D).W ρ (D.verts \ O) x * f x) β

theorem W_ends {D : Diagram} (h : D.Inv) {ps : List ℕ} (hp : D.Ends ps) (ρ : ℕ → ℝ) (x : ℕ → Bool) :
    ∀ l : List ℕ, l.Nodup → (∀ p ∈ l, p ∈ ps) → (graph D).W ρ D.verts x = (graph D).W ρ (D.verts \ l.toFinset) x *
      (l.map fun p => ew (D.end1 p).type .boundary ((graph D).ty (D.end1 p).tgt) (x p) (x (D.end1 p).tgt)).prod
  | [], _, _ => by simp
  | p :: l, hn, hs => by
    obtain ⟨h1, h2⟩ := List.nodup_cons.1 hn
    have hps := hs p List.mem_cons_self
    have hpa := hp.alive p hps
    rw [W_ends h hp ρ x l h2 fun q hq => hs q (List.mem_cons_of_mem _ hq)]
    have hmem : p ∈ D.verts \ l.toFinset := by
      rw [Finset.mem_sdiff, h.mem_verts, List.mem_toFinset]
      exact ⟨hpa, h1⟩
    have her : (D.verts \ l.toFinset).erase p = D.verts \ (p :: l).toFinset := by
      ext w
      simp only [Finset.mem_erase, Finset.mem_sdiff, List.mem_toFinset, List.mem_cons]
      tauto
    rw [Graph.W_erase ρ (graph_symm h) x hmem, her, prod_pf h (Finset.sdiff_subset) x hpa, hp.one p hps]
    have hvf : (graph D).vf ρ x p = 1 := by
      obtain ⟨d, hd⟩ := hpa
      have ht := hp.ty p hps
      rw [ty_of_vert hd] at ht
      unfold Graph.vf
      have : (graph D).vert p = some d := hd
      rw [this]
      simp [ht]
    have htm : (D.end1 p).tgt ∈ D.verts \ (p :: l).toFinset := by
      have hnb := h.nb p hpa (D.end1 p) (by rw [hp.one p hps]; exact List.mem_singleton.2 rfl)
      rw [Finset.mem_sdiff, h.mem_verts, List.mem_toFinset]
      exact ⟨hnb.1, fun hc => hp.ne p hps (hs _ hc)⟩
    rw [hvf, hp.ty p hps]
    simp only [List.map_cons, List.map_nil, List.prod_cons, List.prod_nil]
    rw [if_pos htm]
    ring

/-- Summing over the bit of a new vertex. -/
def vstep (ρ : ℕ → ℝ) (d : Option VData) (w : ℕ) (f : (ℕ → Bool) → ℂ) : (ℕ → Bool) → ℂ :=
  match d with
  | some d => if d.type = .boundary then f else fun x => f (update x w false) + d.phase.u ρ * f (update x w true)
  | none => f

theorem linOn_addV {D D1 : Diagram} {w : ℕ} {d : VData} (s : AddV D D1 w d) (h : D.Inv) {O : Finset ℕ} (hO : ∀ o ∈ O, D.Alive o)
    (ρ : ℕ → ℝ) (f : (ℕ → Bool) → ℂ) (β : ℕ → Bool) :
    linOn O ρ D1 f β = linOn O ρ D (vstep ρ (some d) w f) β := by
  have hwv : w ∉ D.verts := fun hm => s.new (h.mem_verts.1 hm)
  have hwi : w ∉ D.inner := fun hm => hwv (Finset.mem_filter.1 hm).1
  have hwO : w ∉ O := fun hm => s.new (hO w hm)
  have hfi : (D.verts.filter fun v => (graph D1).ty v ≠ .boundary) = D.inner := by
    unfold inner
    apply Finset.filter_congr
    intro v hv
    rw [s.ty_old (s.ne_of_alive (h.mem_verts.1 hv))]
  have hset : D1.verts \ O = insert w (D.verts \ O) := by
    rw [s.verts, Finset.insert_sdiff_of_notMem _ hwO]
  have hws : w ∉ D.verts \ O := fun hm => hwv (Finset.mem_sdiff.1 hm).1
  have hW : ∀ x, (graph D1).W ρ (D1.verts \ O) x =
      (if d.type ≠ .boundary ∧ x w = true then d.phase.u ρ else 1) * (graph D).W ρ (D.verts \ O) x := by
    intro x
    rw [Graph.W_erase ρ (graph_symm s.inv) x (v := w) (by rw [hset]; exact Finset.mem_insert_self _ _)]
    rw [hset, Finset.erase_insert hws]
    have hv : (graph D1).vf ρ x w = if d.type ≠ .boundary ∧ x w = true then d.phase.u ρ else 1 := by
      unfold Graph.vf
      have : (graph D1).vert w = some d := by
        show D1.vert w = _
        rw [s.vert, Function.update_self]
      rw [this]
    have hp : ∀ a ∈ D.verts \ O, (graph D1).pf x w a = 1 := by
      intro a _
      unfold Graph.pf
      rw [s.m, s.m, s.dead, s.dead, pow_zero, pow_zero, one_mul]
    rw [hv, Finset.prod_congr rfl hp, Finset.prod_const_one, mul_one]
    congr 1
    apply Graph.W_congr
    · intro v hv
      show D1.vert v = D.vert v
      rw [s.vert, Function.update_of_ne (s.ne_of_alive (h.mem_verts.1 (Finset.mem_sdiff.1 hv).1))]
    · intro a _ b _ t
      exact s.m a b t
    · intro v _
      rfl
  have hWo : ∀ x p, (graph D).W ρ (D.verts \ O) (update x w p) = (graph D).W ρ (D.verts \ O) x := by
    intro x p
    apply Graph.W_congr
    · intro v _; rfl
    · intro _ _ _ _ _; rfl
    · intro v hv
      have hne : v ≠ w := by rintro rfl; exact hws hv
      rw [Function.update_of_ne hne]
  unfold linOn vstep
  simp only
  by_cases hd : d.type = .boundary
  · have hin : D1.inner = D.inner := by
      unfold inner
      rw [s.verts, Finset.filter_insert, if_neg (by rw [s.ty_new]; exact fun hc => hc hd)]
      exact hfi
    rw [if_pos hd, hin]
    apply sumOver_congr
    intro x
    rw [hW, if_neg (fun hc => hc.1 hd), one_mul]
  · have hin : D1.inner = insert w D.inner := by
      unfold inner
      rw [s.verts, Finset.filter_insert, if_pos (by rw [s.ty_new]; exact hd)]
      congr 1
    rw [if_neg hd, hin, sumOver_insert hwi]
    apply sumOver_congr
    intro x
    rw [hW, hW, hWo, hWo, Function.update_self, Function.update_self, if_neg (by simp), if_pos ⟨hd, rfl⟩]
    ring

theorem linOn_addE {D D1 : Diagram} {u v : ℕ} {t : EType} (s : AddE D D1 u v t) (h : D.Inv) (hu : D.Alive u) (hv : D.Alive v)
    (huv : u ≠ v) {O : Finset ℕ} (huO : u ∉ O) (hvO : v ∉ O) (ρ : ℕ → ℝ) (f : (ℕ → Bool) → ℂ) (β : ℕ → Bool) :
    linOn O ρ D1 f β = linOn O ρ D (fun x => ew t ((graph D).ty u) ((graph D).ty v) (x u) (x v) * f x) β := by
  have hverts : D1.verts = D.verts := by
    unfold verts
    rw [s.size]
    apply Finset.filter_congr
    intro w _
    exact s.alive w
  have hin : D1.inner = D.inner := by
    unfold inner
    rw [hverts]
    simp only [s.ty]
  have mu : u ∈ D.verts \ O := Finset.mem_sdiff.2 ⟨h.mem_verts.2 hu, huO⟩
  have mv : v ∈ D.verts \ O := Finset.mem_sdiff.2 ⟨h.mem_verts.2 hv, hvO⟩
  unfold linOn
  rw [hin, hverts]
  apply sumOver_congr
  intro x
  rw [s.gr, Graph.W_setM ρ _ x mu mv huv, Graph.W_eq_setM ρ (graph_symm h) x mu mv huv]
  unfold Graph.pf
  cases t
  · simp only [reduceCtorEq, if_true, if_false, pow_succ]; ring
  · simp only [reduceCtorEq, if_true, if_false, pow_succ]; ring

/-! ### Copying the vertices -/

/-- The vertices of `R` that are copied. -/
def Kept (R : Diagram) (i : ℕ) : Prop := R.Alive i ∧ i ∉ R.inputs

def vsum (R : Diagram) (nw : ℕ → ℕ) (ρ : ℕ → ℝ) (l : List ℕ) (f : (ℕ → Bool) → ℂ) : (ℕ → Bool) → ℂ :=
  l.foldr (fun i g => vstep ρ (R.vert i) (nw i) g) f

theorem vsum_congr {R : Diagram} {nw nw' : ℕ → ℕ} (ρ : ℕ → ℝ) : ∀ {l : List ℕ} (f : (ℕ → Bool) → ℂ), (∀ i ∈ l, nw i = nw' i) →
    vsum R nw ρ l f = vsum R nw' ρ l f
  | [], _, _ => rfl
  | i :: l, f, h => by
    unfold vsum
    rw [List.foldr_cons, List.foldr_cons, h i List.mem_cons_self]
    have := vsum_congr (R := R) ρ (l := l) f fun j hj => h j (List.mem_cons_of_mem _ hj)
    unfold vsum at this
    rw [this]

/-- What holds after the vertices in `l` have been copied. -/
structure Copied (O : Finset ℕ) (D R : Diagram) (l : List ℕ) (D1 : Diagram) (nw : ℕ → ℕ) : Prop where
  inv : D1.Inv
  old : ∀ v, D.Alive v → D1.vert v = D.vert v ∧ D1.adj v = D.adj v
  new : ∀ i ∈ l, ¬ D.Alive (nw i) ∧ D1.vert (nw i) = R.vert i
  inj : ∀ i ∈ l, ∀ j ∈ l, nw i = nw j → i = j
  kept : ∀ i ∈ l, R.Kept i
  gp : D1.globalPhase = D.globalPhase
  inputs : D1.inputs = D.inputs
  outputs : D1.outputs = D.outputs
  lin : ∀ ρ f β, linOn O ρ D1 f β = linOn O ρ D (vsum R nw ρ l f) β

theorem copyVerts_spec {O : Finset ℕ} {D R : Diagram} (hO : ∀ o ∈ O, D.Alive o) : ∀ (l done : List ℕ) (D1 : Diagram) (nw : ℕ → ℕ),
    Copied O D R done D1 nw → (done ++ l).Nodup →
    Copied O D R (done ++ l.filter fun i => R.Kept i) (copyVerts R l D1 nw).1 (copyVerts R l D1 nw).2
  | [], done, D1, nw, h, _ => by
    simpa [copyVerts] using h
  | i :: l, done, D1, nw, h, hn => by
    have hn' : (done ++ l).Nodup := by
      rw [List.nodup_append] at hn ⊢
      exact ⟨hn.1, (List.nodup_cons.1 hn.2.1).2, fun a ha b hb => hn.2.2 a ha b (List.mem_cons_of_mem _ hb)⟩
    unfold copyVerts
    cases hd : R.vert i with
    | none =>
      have : ¬ R.Kept i := by
        rintro ⟨⟨d, e⟩, _⟩
        rw [hd] at e; cases e
      simp only
      rw [List.filter_cons_of_neg (by simpa using this)]
      exact copyVerts_spec hO l done D1 nw h hn'
    | some d =>
      simp only
      by_cases hi : i ∈ R.inputs
      · have : ¬ R.Kept i := fun hk => hk.2 hi
        rw [if_pos hi, List.filter_cons_of_neg (by simpa using this)]
        exact copyVerts_spec hO l done D1 nw h hn'
      · have hk : R.Kept i := ⟨⟨d, hd⟩, hi⟩
        rw [if_neg hi, List.filter_cons_of_pos (by simpa using hk)]
        have hid : i ∉ done := by
          rw [List.nodup_append] at hn
          exact fun hc => hn.2.2 i hc i List.mem_cons_self rfl
        have s := addVertex_addV h.inv d
        obtain ⟨_, _, _, hadj, _⟩ := addVertex_inv h.inv d
        have halD : ∀ v, D.Alive v → D1.Alive v := by
          rintro v ⟨e, he⟩
          exact ⟨e, by rw [(h.old v ⟨e, he⟩).1, he]⟩
        have hnd : ∀ j ∈ done, nw j ≠ (D1.addVertex d).2 := by
          intro j hj hc
          apply s.new
          obtain ⟨⟨e, he⟩, _⟩ := h.kept j hj
          exact ⟨e, by rw [← hc, (h.new j hj).2, he]⟩
        have hupd : ∀ j ∈ done, update nw i (D1.addVertex d).2 j = nw j := by
          intro j hj
          rw [Function.update_of_ne]
          rintro rfl
          exact hid hj
        have key := copyVerts_spec (R := R) hO l (done ++ [i]) (D1.addVertex d).1 (update nw i (D1.addVertex d).2) ?_ (by
          rw [List.append_assoc]; exact hn)
        · rw [List.append_assoc] at key
          exact key
        refine ⟨s.inv, ?_, ?_, ?_, ?_, ?_, ?_, ?_, ?_⟩
        · intro v hv
          have hne : v ≠ (D1.addVertex d).2 := s.ne_of_alive (halD v hv)
          rw [s.vert, hadj, Function.update_of_ne hne, Function.update_of_ne hne]
          exact h.old v hv
        · intro j hj
          rcases List.mem_append.1 hj with hj | hj
          · rw [hupd j hj]
            refine ⟨(h.new j hj).1, ?_⟩
            rw [s.vert, Function.update_of_ne (hnd j hj)]
            exact (h.new j hj).2
          · rw [List.mem_singleton.1 hj, Function.update_self]
            refine ⟨fun hc => s.new (halD _ hc), ?_⟩
            rw [s.vert, Function.update_self, hd]
        · intro j hj j' hj' e
          rcases List.mem_append.1 hj with hj | hj <;> rcases List.mem_append.1 hj' with hj' | hj'
          · rw [hupd j hj, hupd j' hj'] at e
            exact h.inj j hj j' hj' e
          · rw [hupd j hj, List.mem_singleton.1 hj', Function.update_self] at e
            exact absurd e (hnd j hj)
          · rw [hupd j' hj', List.mem_singleton.1 hj, Function.update_self] at e
            exact absurd e.symm (hnd j' hj')
          · rw [List.mem_singleton.1 hj, List.mem_singleton.1 hj']
        · intro j hj
          rcases List.mem_append.1 hj with hj | hj
          · exact h.kept j hj
          · rw [List.mem_singleton.1 hj]; exact hk
        · rw [s.gp, h.gp]
        · rw [s.inputs, h.inputs]
        · rw [s.outputs, h.outputs]
        · intro ρ f β
          rw [linOn_addV s h.inv (fun o ho => halD o (hO o ho)), h.lin]
          congr 1
          have e1 : vsum R (update nw i (D1.addVertex d).2) ρ (done ++ [i]) f =
              vsum R (update nw i (D1.addVertex d).2) ρ done (vstep ρ (some d) (D1.addVertex d).2 f) := by
            unfold vsum
            rw [List.foldr_append]
            simp only [List.foldr_cons, List.foldr_nil]
            rw [Function.update_self, hd]
          rw [e1]
          exact vsum_congr ρ _ fun j hj => (hupd j hj).symm

/-! ### Copying the edges -/

/-- What holds after edges have been added: the weight is multiplied by `E`. -/
structure Edged (O : Finset ℕ) (D D' : Diagram) (E : (ℕ → Bool) → ℂ) : Prop where
  inv : D'.Inv
  vert : D'.vert = D.vert
  size : D'.size = D.size
  gp : D'.globalPhase = D.globalPhase
  inputs : D'.inputs = D.inputs
  outputs : D'.outputs = D.outputs
  adj : ∀ o ∈ O, D'.adj o = D.adj o
  lin : ∀ ρ f β, linOn O ρ D' f β = linOn O ρ D (fun x => E x * f x) β

namespace Edged

variable {O : Finset ℕ} {D D' D'' : Diagram} {E E' : (ℕ → Bool) → ℂ}

theorem refl (h : D.Inv) : Edged O D D fun _ => 1 :=
  ⟨h, rfl, rfl, rfl, rfl, rfl, fun _ _ => rfl, fun ρ f β => by simp only [one_mul]⟩

theorem trans (s : Edged O D D' E) (s' : Edged O D' D'' E') : Edged O D D'' fun x => E x * E' x :=
  ⟨s'.inv, s'.vert.trans s.vert, s'.size.trans s.size, s'.gp.trans s.gp, s'.inputs.trans s.inputs, s'.outputs.trans s.outputs,
    fun o ho => (s'.adj o ho).trans (s.adj o ho), fun ρ f β => by rw [s'.lin, s.lin]; simp only [mul_assoc]⟩

theorem congr (s : Edged O D D' E) (h : ∀ x, E x = E' x) : Edged O D D' E' := by
  rw [← show E = E' from funext h]
  exact s

theorem alive (s : Edged O D D' E) (v : ℕ) : D'.Alive v ↔ D.Alive v := by unfold Alive; rw [s.vert]

theorem ty (s : Edged O D D' E) (v : ℕ) : (graph D').ty v = (graph D).ty v := by
  unfold Graph.ty graph
  simp only
  rw [s.vert]

end Edged

theorem addEdge_edged {O : Finset ℕ} {D : Diagram} (h : D.Inv) {u v : ℕ} (hu : D.Alive u) (hv : D.Alive v) (huv : u ≠ v) (huO : u ∉ O)
    (hvO : v ∉ O) (t : EType) :
    ∃ D', D.addEdge u v t = some D' ∧ Edged O D D' fun x => ew t ((graph D).ty u) ((graph D).ty v) (x u) (x v) := by
  obtain ⟨D', h1, h2, h3⟩ := addEdge_inv h hu hv huv t
  have s := addEdge_addE h hu hv huv h1
  refine ⟨D', h1, s.inv, s.vert, s.size, s.gp, s.inputs, s.outputs, ?_, fun ρ f β => linOn_addE s h hu hv huv huO hvO ρ f β⟩
  intro o ho
  rw [h3]
  simp only
  have h4 : o ≠ v := by rintro rfl; exact hvO ho
  have h5 : o ≠ u := by rintro rfl; exact huO ho
  rw [Function.update_of_ne h4, Function.update_of_ne h5]

/-- The product of the factors of a list of steps. -/
theorem edged_fold {α : Type} {O : Finset ℕ} {f : Diagram → α → Option Diagram} {E : α → (ℕ → Bool) → ℂ} {D0 : Diagram} :
    ∀ (l : List α) (D : Diagram) (F : (ℕ → Bool) → ℂ), Edged O D0 D F →
    (∀ a ∈ l, ∀ D F, Edged O D0 D F → ∃ D', f D a = some D' ∧ Edged O D D' (E a)) →
    ∃ D', l.foldlM f D = some D' ∧ Edged O D0 D' fun x => F x * (l.map fun a => E a x).prod
  | [], D, F, h, _ => ⟨D, rfl, h.congr fun x => by simp⟩
  | a :: l, D, F, h, hs => by
    obtain ⟨D1, e1, s1⟩ := hs a List.mem_cons_self D F h
    obtain ⟨D2, e2, s2⟩ := edged_fold l D1 _ (h.trans s1) fun b hb => hs b (List.mem_cons_of_mem _ hb)
    refine ⟨D2, ?_, s2.congr fun x => ?_⟩
    · rw [List.foldlM_cons, e1]
      exact e2
    · rw [List.map_cons, List.prod_cons, mul_assoc]

end Diagram

end MQT.ZX
