/-
C88: layers of executable operations.
-/
import Verif.DataStructures.LayerCircuit
import Verif.Props.StdOps

set_option autoImplicit false

namespace MQT.Layer

open MQT.IR OpType

/-- What is assumed of a circuit on `nq` qubits: its operations have a meaning and act on its qubits. -/
def Fits (nq : ℕ) (c : List (StdOp ℝ)) : Prop :=
  ∀ o ∈ c, o.WF ∧ (∃ f, o.denote = some f) ∧ ∀ q ∈ o.used, q < nq

/-- No operation is followed, on one of its qubits, by its inverse. -/
def Irreducible (c : List (StdOp ℝ)) : Prop :=
  ∀ (q i j : ℕ) (a b : StdOp ℝ), i < j → c[i]? = some a → c[j]? = some b → q ∈ a.used → q ∈ b.used →
    (∀ (k : ℕ) (o : StdOp ℝ), i < k → k < j → c[k]? = some o → q ∉ o.used) →
    ∀ b', b.invert = some b' → @StdOp.equals ℝ (Classical.decEq ℝ) id id a b' = false

/-- No operation occurs twice on a qubit. -/
def Distinct (c : List (StdOp ℝ)) : Prop :=
  ∀ (q i j : ℕ) (a b : StdOp ℝ), i < j → c[i]? = some a → c[j]? = some b → q ∈ a.used → q ∈ b.used →
    @StdOp.equals ℝ (Classical.decEq ℝ) id id a b = false

/-- Operation `v` has to wait for operation `u`: they share a qubit on which not all operations after `u` up to `v` commute
with `u`, or on which commutation is not considered. -/
def Waits (c : List (StdOp ℝ)) (commutable : Bool) (u v : ℕ) : Prop :=
  ∃ (w q : ℕ) (a d b : StdOp ℝ), u < w ∧ w ≤ v ∧ c[u]? = some a ∧ c[w]? = some d ∧ c[v]? = some b ∧
    q ∈ a.used ∧ q ∈ d.used ∧ q ∈ b.used ∧ (commutable = false ∨ @StdOp.commutesAt ℝ (Classical.decEq ℝ) a d q = false)

theorem layer_spec (nq : ℕ) (c : List (StdOp ℝ)) (hf : Fits nq c) (ha : Arity c) (hi : Irreducible c) (commutable : Bool) :
    ∃ g, layer nq (c.map .std) commutable = .ok g ∧ GInv g ∧ g.n = c.length ∧ (∀ v, g.done v = false) ∧
      (∀ (i j q : ℕ) (a b : StdOp ℝ), i < j → c[i]? = some a → c[j]? = some b → q ∈ a.used → q ∈ b.used →
        (commutable = true ∧ @StdOp.commutesAt ℝ (Classical.decEq ℝ) a b q = true) ∨ Reach g.en i j) ∧
      (∀ u v, Waits c commutable u v → Reach g.en u v) ∧
      (commutable = false ∨ Distinct c → ∀ u v, v ∈ g.en u → Waits c commutable u v) := by
  let _ := Classical.decEq ℝ
  have get : ∀ {i}, i < c.length → ∃ o, c[i]? = some o := fun h => ⟨_, List.getElem?_eq_getElem h⟩
  obtain ⟨g, e, h1, h2, h3, h4, h5, h6⟩ := construct_spec (nq := nq) (tables_commOK StdOp.invert c ha) (fun q i j hij hj hqi hqj hb => by
      obtain ⟨a, ea⟩ := get (show i < c.length by omega)
      obtain ⟨b, eb⟩ := get hj
      rw [tables_used _ c ea] at hqi
      rw [tables_used _ c eb] at hqj
      obtain ⟨w, ⟨f, hf'⟩, -⟩ := hf b (List.mem_of_getElem? eb)
      obtain ⟨b', -, e', -⟩ := c19_invert_undoes b w f hf'
      have := hi q i j a b hij ea eb hqi hqj (fun k o h1 h2 ho hq => hb k h1 h2 ((tables_used _ c ho).2 hq)) b' e'
      simp only [tables, List.getElem?_map, ea, eb, Option.map_some, LOp.isInverseOf, e', LOp.equals]
      rw [this]) commutable (fun k hk => by
      obtain ⟨o, eo⟩ := get hk
      refine ⟨fun q hq => ?_, ?_⟩
      · rw [tables_used _ c eo] at hq
        exact (hf o (List.mem_of_getElem? eo)).2.2 q hq
      · simp only [tables, List.getElem?_map, eo, Option.map_some]
        exact ascending_nodup _)
  refine ⟨g, ?_, h1, h2, h3, fun i j q a b hij ea eb hqa hqb => ?_, ?_, fun hS u v huv => ?_⟩
  · unfold layer; rw [List.length_map]; exact e
  · have hj : j < c.length := (List.getElem?_eq_some_iff.1 eb).1
    rcases h4 i j q hij hj ((tables_used _ c ea).2 hqa) ((tables_used _ c eb).2 hqb) with H | H
    · rw [tables_comm _ c ea eb] at H; exact Or.inl H
    · exact Or.inr H
  · rintro u v ⟨w, q, a, d, b, huw, hwv, ea, ed, eb, qa, qd, qb, hs⟩
    refine h5 u w v q huw hwv (List.getElem?_eq_some_iff.1 eb).1 ((tables_used _ c ea).2 qa) ((tables_used _ c ed).2 qd)
      ((tables_used _ c eb).2 qb) ?_
    rintro (H | ⟨H1, H2⟩)
    · omega
    · rw [tables_comm _ c ea ed] at H2
      rcases hs with hs | hs
      · rw [H1] at hs; cases hs
      · rw [H2] at hs; cases hs
  · obtain ⟨q, w, qu, qv, qw, huw, hwv, hfr⟩ := h6 (hS.imp_right fun hD i j q hij hj qi qj => by
        obtain ⟨a, ea⟩ := get (show i < c.length by omega)
        obtain ⟨b, eb⟩ := get hj
        have := hD q i j a b hij ea eb ((tables_used _ c ea).1 qi) ((tables_used _ c eb).1 qj)
        simp only [tables, List.getElem?_map, ea, eb, Option.map_some, LOp.equals]
        exact this) u v huv
    have hv := (h1.edge u v huv).2
    rw [h2] at hv
    obtain ⟨a, ea⟩ := get (show u < c.length by omega)
    obtain ⟨b, eb⟩ := get hv
    obtain ⟨d, ed⟩ := get (show w < c.length by omega)
    refine ⟨w, q, a, d, b, huw, hwv, ea, ed, eb, (tables_used _ c ea).1 qu, (tables_used _ c ed).1 qw,
      (tables_used _ c eb).1 qv, ?_⟩
    by_contra hn
    push Not at hn
    refine hfr (Or.inr ⟨by simpa using hn.1, ?_⟩)
    rw [tables_comm _ c ea ed]
    simpa using hn.2

/-- **C88.** For a circuit of standard operations in which no operation is followed on one of its qubits by its inverse, the
construction succeeds; whatever is executed, nothing is executed twice, executable operations can be executed, something is
executable until everything has been executed, and then the operations have been executed in an order with the meaning of
the circuit.
Missing from C88: circuits with neighbouring inverse operations, measurements, compound operations. -/
theorem c88_execute_partial (nq : ℕ) (c : List (StdOp ℝ)) (hf : Fits nq c) (ha : Arity c) (hi : Irreducible c)
    (commutable : Bool) :
    ∃ g, layer nq (c.map .std) commutable = .ok g ∧ ∀ l g', (∀ v ∈ l, v < c.length) → executeAll g l = .ok g' →
      l.Nodup ∧ (∀ v ∈ g'.exec, v < c.length ∧ v ∉ l ∧ ∃ g'', g'.execute v = .ok g'') ∧
      (l.length < c.length → ∃ v, v ∈ g'.exec) ∧
      (l.length = c.length → denoteSeq (inOrder c l) = denoteSeq c) := by
  let _ := Classical.decEq ℝ
  obtain ⟨g, e, h1, h2, h3, h4, -, -⟩ := layer_spec nq c hf ha hi commutable
  refine ⟨g, e, fun l g' hl he => ?_⟩
  obtain ⟨k1, k2, k3, k4, k5, k6, k7⟩ := executeAll_spec l h1 (fun v hv => by rw [h2]; exact hl v hv) he
  have hd : ∀ v, g'.done v = true ↔ v ∈ l := fun v => by rw [k4, h3]; simp
  have sub : l ⊆ List.range c.length := fun v hv => List.mem_range.2 (hl v hv)
  refine ⟨k5, fun v hv => ?_, fun hlen => ?_, fun hlen => ?_⟩
  · have := (mem_exec k1 v).1 hv
    refine ⟨by rw [← h2, ← k2]; exact this.1, fun hm => ?_, execute_ok k1 hv⟩
    rw [(hd v).2 hm] at this; cases this.2.1
  · obtain ⟨v, hv, hvl⟩ : ∃ v, v < c.length ∧ v ∉ l := by
      by_contra hn
      push Not at hn
      have := (List.subperm_of_subset List.nodup_range fun v hv => hn v (List.mem_range.1 hv)).length_le
      rw [List.length_range] at this; omega
    exact exec_nonempty k1 (v := v) (by rw [k2, h2]; exact hv) (by
      rcases hb : g'.done v with _ | _
      · rfl
      · exact absurd ((hd v).1 hb) hvl)
  · have hp : l.Perm (List.range c.length) :=
      (List.subperm_of_subset k5 sub).perm_of_length_le (by rw [List.length_range, hlen])
    have hden : ∀ o ∈ c, ∃ f, o.denote = some f := fun o ho => (hf o ho).2.1
    have e1 := denoteSeq_inOrder c hden l
    have e2 := denoteSeq_inOrder c hden (List.range c.length)
    rw [inOrder_range] at e2
    rw [e1, e2]
    congr 1; funext s
    refine runs_perm (meaning c) c.length l hp (fun a j b eab i hib hij s => ?_) s
    have hj : j < c.length := hl j (by rw [eab]; simp)
    have ei : c[i]? = some (c[i]'(by omega)) := List.getElem?_eq_getElem (by omega)
    have ej : c[j]? = some (c[j]'hj) := List.getElem?_eq_getElem hj
    obtain ⟨wi, ⟨f, hfi⟩, -⟩ := hf _ (List.mem_of_getElem? ei)
    obtain ⟨wj, ⟨f', hfj⟩, -⟩ := hf _ (List.mem_of_getElem? ej)
    have mi : meaning c i = f := by simp only [meaning, ei, Option.bind_some, hfi, Option.getD_some]
    have mj : meaning c j = f' := by simp only [meaning, ej, Option.bind_some, hfj, Option.getD_some]
    rw [mi, mj]
    refine (StdOp.commutes_sound wi wj hfi hfj (fun q hqi hqj => ?_) s).symm
    rcases h4 i j q _ _ hij ei ej hqi hqj with H | H
    · exact H.2
    · -- `i` would have to come before `j`
      have hia := reach_before (l := l) (fun a v b eab u hu => by
        rcases k7 a v b eab u hu with hh | hh
        · rw [h3] at hh; cases hh
        · exact hh) H eab
      rw [eab, List.nodup_append] at k5
      exact absurd rfl (k5.2.2 i hia i (List.mem_cons_of_mem _ hib))

/-- **C88.** Which operations are executable: those that have not been executed and for which every operation they have to
wait for has been executed. With commutation, no operation may occur twice on a qubit (equal operations are kept apart).
Missing from C88: as above. -/
theorem c88_exec_partial (nq : ℕ) (c : List (StdOp ℝ)) (hf : Fits nq c) (ha : Arity c) (hi : Irreducible c)
    (commutable : Bool) (hd : commutable = false ∨ Distinct c) :
    ∃ g, layer nq (c.map .std) commutable = .ok g ∧ ∀ l g', (∀ v ∈ l, v < c.length) → executeAll g l = .ok g' →
      ∀ v, v ∈ g'.exec ↔ v < c.length ∧ v ∉ l ∧ ∀ u, Waits c commutable u v → u ∈ l := by
  obtain ⟨g, e, h1, h2, h3, -, h5, h6⟩ := layer_spec nq c hf ha hi commutable
  refine ⟨g, e, fun l g' hl he v => ?_⟩
  obtain ⟨k1, k2, k3, k4, k5, k6, k7⟩ := executeAll_spec l h1 (fun v hv => by rw [h2]; exact hl v hv) he
  have hdn : ∀ v, g'.done v = true ↔ v ∈ l := fun v => by rw [k4, h3]; simp
  have hdn' : g'.done v = false ↔ v ∉ l := by rw [← hdn, Bool.not_eq_true]
  rw [mem_exec k1, k2, h2, k3, hdn']
  refine and_congr_right fun _ => and_congr_right fun _ => ⟨fun H u hw => ?_, fun H u hu => (hdn u).2 (H u (h6 hd u v hu))⟩
  -- everything before `v` has been executed
  have down : ∀ {x y}, Reach g.en x y → y ∈ l → x ∈ l := fun {x y} hr hy => by
    obtain ⟨a, b, eab⟩ := List.append_of_mem hy
    have := reach_before (l := l) (fun a v b eab u hu => by
        rcases k7 a v b eab u hu with hh | hh
        · rw [h3] at hh; cases hh
        · exact hh) hr eab
    rw [eab]; exact List.mem_append_left _ this
  have hr := h5 u v hw
  rcases Relation.TransGen.tail'_iff.1 hr with ⟨x, hux, hxv⟩
  have hx : x ∈ l := (hdn x).1 (H x hxv)
  rcases Relation.reflTransGen_iff_eq_or_transGen.1 hux with e | e
  · rw [← e]; exact hx
  · exact down e hx

/-- **C88.** Without commutation (`commutable = false`) the operations of each qubit are executed in the order of the
circuit.
Missing from C88: as above. -/
theorem c88_order_partial (nq : ℕ) (c : List (StdOp ℝ)) (hf : Fits nq c) (ha : Arity c) (hi : Irreducible c) :
    ∃ g, layer nq (c.map .std) false = .ok g ∧ ∀ l g', (∀ v ∈ l, v < c.length) → executeAll g l = .ok g' →
      ∀ x j y, l = x ++ j :: y → 
        ∀ (i : ℕ) (a b : StdOp ℝ) (q : ℕ), i < j → c[i]? = some a → c[j]? = some b → q ∈ a.used → q ∈ b.used → i ∈ x := by
  let _ := Classical.decEq ℝ
  obtain ⟨g, e, h1, h2, h3, h4, -, -⟩ := layer_spec nq c hf ha hi false
  refine ⟨g, e, fun l g' hl he x j y exy i a b q hij ei ej hqi hqj => ?_⟩
  obtain ⟨k1, k2, k3, k4, k5, k6, k7⟩ := executeAll_spec l h1 (fun v hv => by rw [h2]; exact hl v hv) he
  rcases h4 i j q a b hij ei ej hqi hqj with H | H
  · cases H.1
  · exact reach_before (l := l) (fun a v b eab u hu => by
        rcases k7 a v b eab u hu with hh | hh
        · rw [h3] at hh; cases hh
        · exact hh) H exy

/-! ### Evaluating the construction on circuits without parameters -/

/-- An operation without parameters. -/
def lift (o : StdOp ℕ) : StdOp ℝ := ⟨o.type, [], o.controls, o.targets⟩

/-- `StdOp.invert` on operations without parameters. -/
def inv0 (o : StdOp ℕ) : Option (StdOp ℕ) :=
  match o.type with
  | i | x | y | z | h | swap | ecr => some o
  | s => some { o with type := sdg }
  | sdg => some { o with type := s }
  | t => some { o with type := tdg }
  | tdg => some { o with type := t }
  | _ => none

/-- The operations of the examples. -/
def Plain (o : StdOp ℕ) : Bool := o.params.isEmpty && (inv0 o).isSome

def liftL : LOp ℕ → LOp ℝ
  | .std o => .std (lift o)
  | .meas qs cs => .meas qs cs

def PlainL : LOp ℕ → Bool
  | .std o => Plain o
  | .meas _ _ => true

theorem lift_inv {o : StdOp ℕ} (h : Plain o = true) : (lift o).invert = (inv0 o).map lift := by
  obtain ⟨ty, ps, cs, ts⟩ := o
  simp only [Plain, Bool.and_eq_true] at h
  have h2 := h.2
  cases ty <;> first | rfl | (simp [inv0] at h2)

theorem plain_inv {o o' : StdOp ℕ} (h : Plain o = true) (e : inv0 o = some o') : o'.params = [] := by
  obtain ⟨ty, ps, cs, ts⟩ := o
  simp only [Plain, Bool.and_eq_true, List.isEmpty_iff] at h
  have h1 := h.1
  cases ty <;> simp only [inv0, Option.some.injEq, reduceCtorEq] at e <;> subst e <;> exact h1

theorem lift_comm {a b : StdOp ℕ} (ha : a.params = []) (hb : b.params = []) (q : ℕ) :
    @StdOp.commutesAt ℝ (Classical.decEq ℝ) (lift a) (lift b) q = a.commutesAt b q := by
  unfold StdOp.commutesAt
  simp only [StdOp.actsOn, StdOp.controlledOn, lift, ha, hb]
  rfl

theorem lift_equals {a b : StdOp ℕ} (ha : a.params = []) (hb : b.params = []) :
    @StdOp.equals ℝ (Classical.decEq ℝ) id id (lift a) (lift b) = StdOp.equals id id a b := by
  unfold StdOp.equals
  simp only [StdOp.relabel, StdOp.usedPermuted, StdOp.negControls, lift, ha, hb, ne_eq, not_true_eq_false, if_false]
  rfl

theorem plain_params {o : StdOp ℕ} (h : Plain o = true) : o.params = [] := by
  simp only [Plain, Bool.and_eq_true, List.isEmpty_iff] at h; exact h.1

theorem tables_lift (c : List (LOp ℕ)) (hc : ∀ o ∈ c, PlainL o = true) :
    @tables ℝ (Classical.decEq ℝ) StdOp.invert (c.map liftL) = tables inv0 c := by
  let _ := Classical.decEq ℝ
  have pl : ∀ i o, c[i]? = some o → PlainL o = true := fun i o h => hc o (List.mem_of_getElem? h)
  have e1 : ∀ i, (tables StdOp.invert (c.map liftL)).used i = (tables inv0 c).used i := fun i => by
    simp only [tables, List.getElem?_map]
    rcases c[i]? with _ | (a | ⟨a, a'⟩) <;> rfl
  have e2 : ∀ i j q, (tables StdOp.invert (c.map liftL)).comm i j q = (tables inv0 c).comm i j q := fun i j q => by
    simp only [tables, List.getElem?_map]
    rcases hi : c[i]? with _ | (a | ⟨a, a'⟩) <;> rcases hj : c[j]? with _ | (b | ⟨b, b'⟩) <;> try rfl
    exact lift_comm (plain_params (pl i _ hi)) (plain_params (pl j _ hj)) q
  have e3 : ∀ i j, (tables StdOp.invert (c.map liftL)).inv i j = (tables inv0 c).inv i j := fun i j => by
    simp only [tables, List.getElem?_map]
    rcases hi : c[i]? with _ | (a | ⟨a, a'⟩) <;> rcases hj : c[j]? with _ | (b | ⟨b, b'⟩) <;> try rfl
    · show (StdOp.invert (lift b)).map _ = (inv0 b).map _
      rw [lift_inv (pl j _ hj)]
      rcases hb : inv0 b with _ | b'
      · rfl
      · exact congrArg some (lift_equals (plain_params (pl i _ hi)) (plain_inv (pl j _ hj) hb))
    · show (StdOp.invert (lift b)).map _ = (inv0 b).map _
      rw [lift_inv (pl j _ hj)]
      rcases inv0 b with _ | b' <;> rfl
  have e4 : ∀ i j, (tables StdOp.invert (c.map liftL)).eq i j = (tables inv0 c).eq i j := fun i j => by
    simp only [tables, List.getElem?_map]
    rcases hi : c[i]? with _ | (a | ⟨a, a'⟩) <;> rcases hj : c[j]? with _ | (b | ⟨b, b'⟩) <;> try rfl
    exact lift_equals (plain_params (pl i _ hi)) (plain_params (pl j _ hj))
  cases ht : tables StdOp.invert (c.map liftL)
  cases ht' : tables inv0 c
  rw [ht, ht'] at e1 e2 e3 e4
  simp only at e1 e2 e3 e4
  congr
  · exact funext e1
  · exact funext fun i => funext fun j => funext fun q => e2 i j q
  · exact funext fun i => funext fun j => e3 i j
  · exact funext fun i => funext fun j => e4 i j

/-- The layer of a circuit without parameters, in computable form. -/
def layer0 (nq : ℕ) (c : List (LOp ℕ)) (commutable : Bool) : MQT.Res Graph := construct (tables inv0 c) nq c.length commutable

theorem layer_lift (nq : ℕ) (c : List (LOp ℕ)) (hc : ∀ o ∈ c, PlainL o = true) (commutable : Bool) :
    layer nq (c.map liftL) commutable = layer0 nq c commutable := by
  unfold layer layer0
  rw [tables_lift c hc, List.length_map]

/-- What is executable after executing `l`. -/
def execAfter (r : MQT.Res Graph) (l : List ℕ) : MQT.Res (Finset ℕ) :=
  (r.bind fun g => executeAll g l).bind fun g => .ok g.exec

/-! ### Circuits with neighbouring inverse operations -/

def gx : StdOp ℕ := ⟨x, [], ∅, [0]⟩
def gs : StdOp ℕ := ⟨s, [], ∅, [0]⟩
def gsdg : StdOp ℕ := ⟨sdg, [], ∅, [0]⟩
def gcx (a b : ℕ) : StdOp ℕ := ⟨x, [], {(a, true)}, [b]⟩

/-- `x 0; x 0; s 0; sdg 0`, the identity. -/
def pairs : List (StdOp ℕ) := [gx, gx, gs, gsdg]

/-- `cx 2→0; cx 0→1; cx 1→2; cx 0→1`. -/
def ring : List (StdOp ℕ) := [gcx 2 0, gcx 0 1, gcx 1 2, gcx 0 1]

/-- What is executable after executing `l`, for circuits of standard operations. -/
noncomputable def layerAfter (nq : ℕ) (c : List (StdOp ℕ)) (commutable : Bool) (l : List ℕ) : MQT.Res (Finset ℕ) :=
  execAfter (layer nq ((c.map lift).map .std) commutable) l

theorem layerAfter_eq (nq : ℕ) (c : List (StdOp ℕ)) (hc : ∀ o ∈ c, Plain o = true) (commutable : Bool) (l : List ℕ) :
    layerAfter nq c commutable l = execAfter (layer0 nq (c.map .std) commutable) l := by
  unfold layerAfter
  rw [← layer_lift nq (c.map .std) (by simpa [PlainL] using hc)]
  simp only [List.map_map]
  rfl

instance : DecidableEq (MQT.Res (Finset ℕ))
  | .ok a, .ok b => decidable_of_iff (a = b) ⟨fun h => by rw [h], fun h => by injection h⟩
  | .throw, .throw => isTrue rfl
  | .ub, .ub => isTrue rfl
  | .ok _, .throw => isFalse (by simp)
  | .ok _, .ub => isFalse (by simp)
  | .throw, .ok _ => isFalse (by simp)
  | .throw, .ub => isFalse (by simp)
  | .ub, .ok _ => isFalse (by simp)
  | .ub, .throw => isFalse (by simp)

theorem denote_plain (ty : OpType) (M : Mat1) (h : ty.isSingleQubitGate = true) (hM : gate1 ty [] = some M) :
    (⟨ty, [], ∅, [0]⟩ : StdOp ℝ).denote = some (app1 M 0) := by
  rw [StdOp.denote_single_of h rfl hM, ctl_empty]

theorem dnil : denoteSeq [] = some fun ψ => ψ := rfl
theorem dx : (lift gx).denote = some (app1 (mat1 0 1 1 0) 0) := denote_plain x _ rfl rfl
theorem ds : (lift gs).denote = some (app1 (mat1 1 0 0 ⟨0, 1⟩) 0) := denote_plain s _ rfl rfl
theorem dsdg : (lift gsdg).denote = some (app1 (mat1 1 0 0 ⟨0, -1⟩) 0) := denote_plain sdg _ rfl rfl

/-- **C88**, where the code disagrees: the four operations of `pairs` can be executed in the order `x; s; x; sdg`, which is
not the identity, not even up to a global phase. -/
theorem c88_pairs : layerAfter 1 pairs true [0, 2, 1, 3] = .ok ∅ ∧
    denoteSeq (pairs.map lift) = some (fun ψ => ψ) ∧
    ∃ f, denoteSeq (inOrder (pairs.map lift) [0, 2, 1, 3]) = some f ∧ ¬ ∃ z : ℂ, ∀ ψ y, f ψ y = z * ψ y := by
  refine ⟨?_, ?_, ?_⟩
  · rw [layerAfter_eq _ _ (by decide)]; decide +kernel
  · have e := denoteSeq_cons_of dx (denoteSeq_cons_of dx (denoteSeq_cons_of ds (denoteSeq_cons_of dsdg dnil)))
    refine e.trans (congrArg some (funext fun ψ => ?_))
    rw [app1_mul, app1_mul, app1_mul, mat1_mul, mat1_mul, mat1_mul]
    refine Eq.trans ?_ (app1_one 0 ψ)
    rw [one_eq_mat1]
    congr 1
    apply mat1_ext <;> simp [mat1, Complex.ext_iff]
  · have e := denoteSeq_cons_of dx (denoteSeq_cons_of ds (denoteSeq_cons_of dx (denoteSeq_cons_of dsdg dnil)))
    refine ⟨_, e, fun ⟨w, hz⟩ => ?_⟩
    simp only [app1_mul, mat1_mul] at hz
    have h0 := hz (fun _ => 1) (fun _ => false)
    have h1 := hz (fun _ => 1) (fun _ => true)
    simp [app1, mat1] at h0 h1
    rw [← h0] at h1
    simp [Complex.ext_iff] at h1
    norm_num at h1

/-- **C88**, where the code disagrees: after executing the second operation of `ring`, nothing is executable although three
operations have not been executed. -/
theorem c88_stuck : layerAfter 3 ring true [1] = .ok ∅ := by
  rw [layerAfter_eq _ _ (by decide)]; decide +kernel

/-- **C88**, where the code disagrees: constructing the layers of a circuit with a gate followed by a measurement throws. -/
theorem c88_measure : layer 1 [.std (lift ⟨h, [], ∅, [0]⟩), .meas [0] [0]] true = .throw := by
  have := layer_lift 1 [.std ⟨h, [], ∅, [0]⟩, .meas [0] [0]] (by decide) true
  rw [show layer0 1 [.std ⟨h, [], ∅, [0]⟩, .meas [0] [0]] true = .throw from rfl] at this
  exact this

/-! ### Examples -/

def gcz (a b : ℕ) : StdOp ℕ := ⟨z, [], {(a, true)}, [b]⟩

/-- `cz 0,1; cz 1,2; h 1; cz 0,2; s 1`: all `cz` gates can be executed first when commutation is used; `h` waits for
the two `cz` gates on its qubit. -/
example : let c := [gcz 0 1, gcz 1 2, ⟨h, [], ∅, [1]⟩, gcz 0 2, ⟨s, [], ∅, [1]⟩]
    layerAfter 3 c true [] = .ok {0, 1, 3} ∧ layerAfter 3 c true [3, 1] = .ok {0} ∧
    layerAfter 3 c true [3, 1, 0] = .ok {2} ∧ layerAfter 3 c true [3, 1, 0, 2] = .ok {4} ∧
    layerAfter 3 c false [] = .ok {0} ∧ layerAfter 3 c false [0, 1] = .ok {2, 3} ∧
    layerAfter 3 c false [1] = .throw := by
  refine ⟨?_, ?_, ?_, ?_, ?_, ?_, ?_⟩ <;> rw [layerAfter_eq _ _ (by decide)] <;> decide +kernel

/-- `h 0; cx 0→1; t 1; cx 1→2; s 0`. -/
def bell : List (StdOp ℕ) := [⟨h, [], ∅, [0]⟩, gcx 0 1, ⟨t, [], ∅, [1]⟩, gcx 1 2, ⟨s, [], ∅, [0]⟩]

theorem irreducible_lift (c : List (StdOp ℕ)) (hc : ∀ o ∈ c, Plain o = true)
    (h : c.Pairwise fun a b => ((inv0 b).all fun b' => !StdOp.equals id id a b' || decide (a.used ∩ b.used = ∅)) = true) :
    Irreducible (c.map lift) := by
  intro q i j a b hij ea eb qa qb _ b' hb'
  rw [List.getElem?_map, Option.map_eq_some_iff] at ea eb
  obtain ⟨a0, ha0, rfl⟩ := ea
  obtain ⟨b0, hb0, rfl⟩ := eb
  have ma := List.mem_of_getElem? ha0
  have mb := List.mem_of_getElem? hb0
  rw [lift_inv (hc b0 mb), Option.map_eq_some_iff] at hb'
  obtain ⟨b1, hb1, rfl⟩ := hb'
  obtain ⟨hi, ei⟩ := List.getElem?_eq_some_iff.1 ha0
  obtain ⟨hj, ej⟩ := List.getElem?_eq_some_iff.1 hb0
  have := List.pairwise_iff_getElem.1 h i j hi hj hij
  rw [ei, ej] at this
  rw [hb1] at this
  simp only [Option.all_some, Bool.or_eq_true, Bool.not_eq_true', decide_eq_true_eq] at this
  rw [lift_equals (plain_params (hc a0 ma)) (plain_inv (hc b0 mb) hb1)]
  rcases this with H | H
  · exact H
  · have : q ∈ a0.used ∩ b0.used := Finset.mem_inter.2 ⟨qa, qb⟩
    rw [H] at this; simp at this

theorem distinct_lift (c : List (StdOp ℕ)) (hc : ∀ o ∈ c, Plain o = true)
    (h : c.Pairwise fun a b => StdOp.equals id id a b = false) : Distinct (c.map lift) := by
  intro q i j a b hij ea eb _ _
  rw [List.getElem?_map, Option.map_eq_some_iff] at ea eb
  obtain ⟨a0, ha0, rfl⟩ := ea
  obtain ⟨b0, hb0, rfl⟩ := eb
  obtain ⟨hi, ei⟩ := List.getElem?_eq_some_iff.1 ha0
  obtain ⟨hj, ej⟩ := List.getElem?_eq_some_iff.1 hb0
  have := List.pairwise_iff_getElem.1 h i j hi hj hij
  rw [ei, ej] at this
  rw [lift_equals (plain_params (hc a0 (List.mem_of_getElem? ha0))) (plain_params (hc b0 (List.mem_of_getElem? hb0)))]
  exact this

/-- The assumptions of C88 hold for `bell`, whose last operation commutes with the control of the second. -/
example : Irreducible (bell.map lift) ∧ Arity (bell.map lift) ∧ Distinct (bell.map lift) ∧
    layerAfter 3 bell true [0] = .ok {1, 4} ∧ layerAfter 3 bell false [0] = .ok {1} := by
  refine ⟨irreducible_lift _ (by decide) (by decide), fun a ha b hb _ => ?_, distinct_lift _ (by decide) (by decide), ?_, ?_⟩
  · simp only [List.mem_map] at ha hb
    obtain ⟨_, _, rfl⟩ := ha
    obtain ⟨_, _, rfl⟩ := hb
    rfl
  · rw [layerAfter_eq _ _ (by decide)]; decide +kernel
  · rw [layerAfter_eq _ _ (by decide)]; decide +kernel

end MQT.Layer
