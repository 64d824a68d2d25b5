/-
The control flow of `collectBlocks`: room is made for every operation, and every operation ends up in a
block or in a slot of its own.
-/
import Verif.Opt.BlocksInv

set_option autoImplicit false

namespace MQT.Opt.Blocks

open MQT.IR
open Function (update)

variable {P : Type}

theorem Inv.seen {K : ℕ → Prop} {M : ℕ} {S : St P} {ρ : ℕ → ℕ} (h : Inv K M S ρ) {q : ℕ} (hq : K q) : K (ρ q) := by
  by_cases h1 : ρ q = q
  · rwa [h1]
  · exact (h.key q h1).2

/-! ### Empty blocks -/

theorem Alone.join {S S' : St P} {ρ ρ' : ℕ → ℕ} {a b k : ℕ} (j : Joined S S' ρ ρ' a b k) (x : Option ℕ)
    (hx : ∀ q ∈ x, q = a) (h : Alone S ρ x) : Alone S' ρ' (some b) := by
  intro r hr hc hn
  have e := j.root r
  have hk : ρ' b = k := by rw [j.root b]; simp
  have hrk : r ≠ k := by rw [← hk]; exact hn b rfl
  by_cases h1 : ρ r = ρ a ∨ ρ r = ρ b
  · rw [if_pos h1, hr] at e; exact absurd e hrk
  · rw [if_neg h1, hr] at e
    rw [← e] at h1
    have h2 : r ≠ ρ a := fun e => h1 (Or.inl e)
    have h3 : r ≠ ρ b := fun e => h1 (Or.inr e)
    rw [j.bits r h2 h3]
    rw [j.cur r h2 h3] at hc
    refine h r e.symm hc fun q hq => ?_
    rw [hx q hq]; exact h2

theorem Alone.fill {S : St P} {ρ : ℕ → ℕ} {q : ℕ} (h : Alone S ρ (some q)) (hc : S.cur (ρ q) ≠ none) : Alone S ρ none := by
  intro r hr hn _
  refine h r hr hn fun x hx => ?_
  cases hx
  rintro rfl
  exact hc hn

theorem Alone.freed {S S' : St P} {ρ ρ' : ℕ → ℕ} {q : ℕ} (j : Freed S S' ρ ρ' q) (h : Alone S ρ none) : Alone S' ρ' none := by
  intro r hr hc _
  have e1 := j.root r
  have e2 := j.cur r
  have e3 := j.bits r
  by_cases h1 : ρ r = ρ q ∧ S.cur (ρ q) ≠ none
  · rw [if_pos h1] at e3; exact e3
  · rw [if_neg h1] at e1 e3
    rw [hr] at e1
    rw [e3]
    refine h r e1.symm ?_ (by simp)
    by_cases h2 : ρ r = ρ q
    · by_contra h3
      refine h1 ⟨h2, ?_⟩
      rwa [← h2, ← e1]
    · rw [if_neg h2] at e2
      rw [← e2]; exact hc

theorem Alone.path {S : St P} {ρ : ℕ → ℕ} {x : Option ℕ} (h : Alone S ρ x) (p' : ℕ → ℕ) : Alone { S with parent := p' } ρ x := h

/-! ### The qubits in the blocks of an operation -/

/-- All qubits of the blocks of `U`. -/
def reach (S : St P) (ρ : ℕ → ℕ) (U : List ℕ) : Finset ℕ := U.toFinset.biUnion fun q => (S.bits (ρ q)).toFinset

theorem mem_reach {K : ℕ → Prop} {M : ℕ} {S : St P} {ρ : ℕ → ℕ} (h : Inv K M S ρ) (U : List ℕ) (x : ℕ) :
    x ∈ reach S ρ U ↔ ∃ q ∈ U, ρ x = ρ q := by
  simp only [reach, Finset.mem_biUnion, List.mem_toFinset]
  constructor
  · rintro ⟨q, hq, hx⟩; exact ⟨q, hq, (h.mem _ (h.forest.idem q) x).1 hx⟩
  · rintro ⟨q, hq, hx⟩; exact ⟨q, hq, (h.mem _ (h.forest.idem q) x).2 hx⟩

theorem card_reach_le (S : St P) (ρ : ℕ → ℕ) (U L : List ℕ) (h : ∀ q ∈ U, ρ q ∈ L) : (reach S ρ U).card ≤ total S L := by
  have hs : reach S ρ U ⊆ (L.flatMap S.bits).toFinset := by
    intro x hx
    simp only [reach, Finset.mem_biUnion, List.mem_toFinset] at hx
    obtain ⟨q, hq, hx⟩ := hx
    rw [List.mem_toFinset, List.mem_flatMap]
    exact ⟨ρ q, h q hq, hx⟩
  refine (Finset.card_le_card hs).trans ((List.toFinset_card_le _).trans ?_)
  rw [List.length_flatMap, total]

theorem le_card_reach {K : ℕ → Prop} {M : ℕ} {S : St P} {ρ : ℕ → ℕ} (h : Inv K M S ρ) {U : List ℕ} (hU : U.Nodup) :
    U.length ≤ (reach S ρ U).card := by
  rw [← List.toFinset_card_of_nodup hU]
  refine Finset.card_le_card fun x hx => ?_
  rw [mem_reach h]
  exact ⟨x, by simpa using hx, rfl⟩

theorem roots_spec {K : ℕ → Prop} {M f : ℕ} (hf : M ≤ f) {ρ : ℕ → ℕ} (U : List ℕ) : ∀ {S : St P} (acc : List ℕ), Inv K M S ρ →
    ∃ L p', roots f S U acc = some (L, { S with parent := p' }) ∧ Inv K M { S with parent := p' } ρ ∧
      (∀ r ∈ acc, r ∈ L) ∧ (∀ q ∈ U, ρ q ∈ L) ∧ (∀ r ∈ L, r ∈ acc ∨ ∃ q ∈ U, r = ρ q) ∧ (acc.Nodup → L.Nodup) := by
  induction U with
  | nil => intro S acc h; exact ⟨acc, S.parent, rfl, h, fun _ h => h, by simp, fun _ h => Or.inl h, id⟩
  | cons q U ih =>
    intro S acc h
    obtain ⟨p1, e1, i1⟩ := find_spec hf h q
    rw [roots, e1, Option.bind_some]
    obtain ⟨L, p2, e2, i2, k1, k2, k3, k4⟩ := ih (if ρ q ∈ acc then acc else acc ++ [ρ q]) i1
    refine ⟨L, p2, e2, i2, fun r hr => k1 r (by split_ifs <;> simp [hr]), fun x hx => ?_, fun r hr => ?_, fun hn => k4 ?_⟩
    · rcases List.mem_cons.1 hx with rfl | hx
      · refine k1 _ ?_
        split_ifs with h1
        · exact h1
        · simp
      · exact k2 x hx
    · rcases k3 r hr with h1 | ⟨x, hx, h1⟩
      · split_ifs at h1 with h2
        · exact Or.inl h1
        · rcases List.mem_append.1 h1 with h1 | h1
          · exact Or.inl h1
          · exact Or.inr ⟨q, by simp, by simpa using h1⟩
      · exact Or.inr ⟨x, by simp [hx], h1⟩
    · split_ifs with h2
      · exact hn
      · refine List.nodup_append.2 ⟨hn, by simp, ?_⟩
        rintro x hx y hy rfl
        rw [List.mem_singleton] at hy
        rw [hy] at hx
        exact h2 hx

theorem total_le {K : ℕ → Prop} {M : ℕ} {S : St P} {ρ : ℕ → ℕ} (h : Inv K M S ρ) {U L : List ℕ} (hL : ∀ r ∈ L, ∃ q ∈ U, r = ρ q) (hn : L.Nodup) :
    total S L ≤ (reach S ρ U).card := by
  have hroot : ∀ r ∈ L, ρ r = r := by
    intro r hr
    obtain ⟨q, -, rfl⟩ := hL r hr
    exact h.forest.idem q
  have hnd : (L.flatMap S.bits).Nodup := by
    rw [List.nodup_flatMap]
    refine ⟨fun r hr => h.nodup r (hroot r hr), hn.imp_of_mem fun {a b} ha hb hab => ?_⟩
    intro x hx hy
    exact hab (((h.mem a (hroot a ha) x).1 hx).symm.trans ((h.mem b (hroot b hb) x).1 hy))
  have e : total S L = (L.flatMap S.bits).toFinset.card := by
    rw [List.toFinset_card_of_nodup hnd, List.length_flatMap, total]
  rw [e]
  refine Finset.card_le_card fun x hx => ?_
  rw [List.mem_toFinset, List.mem_flatMap] at hx
  obtain ⟨r, hr, hx⟩ := hx
  obtain ⟨q, hq, rfl⟩ := hL r hr
  rw [mem_reach h]
  exact ⟨q, hq, (h.mem _ (hroot _ hr) x).1 hx⟩

/-- The blocks of qubits that have been seen have no other qubits. -/
theorem reach_seen {K : ℕ → Prop} {M : ℕ} {S : St P} {ρ : ℕ → ℕ} (h : Inv K M S ρ) {U : List ℕ} (hU : ∀ q ∈ U, K q) :
    ∀ x ∈ reach S ρ U, K x := by
  intro x hx
  rw [mem_reach h] at hx
  obtain ⟨q, hq, hx⟩ := hx
  by_cases h1 : ρ x = x
  · rw [h1] at hx
    rw [hx]
    exact h.seen (hU q hq)
  · exact (h.key x h1).1

/-! ### Filling up blocks -/

/-- A list of non-empty blocks and their sizes that contains every non-empty block of `U`. -/
structure Good (K : ℕ → Prop) (M : ℕ) (S : St P) (ρ : ℕ → ℕ) (U : List ℕ) (L : List (ℕ × ℕ)) : Prop where
  inv : Inv K M S ρ
  alone : Alone S ρ none
  sep : L.Pairwise fun x y => ρ x.1 ≠ ρ y.1
  ent : ∀ e ∈ L, S.cur (ρ e.1) ≠ none ∧ e.2 = (S.bits (ρ e.1)).length
  cov : ∀ q ∈ U, S.cur (ρ q) = none ∨ ∃ e ∈ L, ρ e.1 = ρ q

theorem Good.perm {K : ℕ → Prop} {M : ℕ} {S : St P} {ρ : ℕ → ℕ} {U : List ℕ} {L L' : List (ℕ × ℕ)} (h : Good K M S ρ U L)
    (hp : L'.Perm L) : Good K M S ρ U L' :=
  ⟨h.inv, h.alone, (hp.pairwise_iff fun h => Ne.symm h).2 h.sep, fun e he => h.ent e (hp.mem_iff.1 he),
    fun q hq => (h.cov q hq).imp id fun ⟨e, he, hr⟩ => ⟨e, hp.mem_iff.2 he, hr⟩⟩

theorem occupied_spec {K : ℕ → Prop} {M f : ℕ} (hf : M ≤ f) {ρ : ℕ → ℕ} (U : List ℕ) :
    ∀ {S : St P} (V : List ℕ) (acc : List (ℕ × ℕ)), Good K M S ρ V acc → (∀ e ∈ acc, ρ e.1 = e.1) →
    ∃ L p', occupied f S U acc = some (L, { S with parent := p' }) ∧ Good K M { S with parent := p' } ρ (V ++ U) L := by
  induction U with
  | nil => intro S V acc h _; exact ⟨acc, S.parent, rfl, by simpa using h⟩
  | cons q U ih =>
    intro S V acc h hr
    obtain ⟨p1, e1, i1⟩ := find_spec hf h.inv q
    obtain ⟨p2, e2, i2⟩ := find_spec hf i1 (ρ q)
    have hid := h.inv.forest.idem q
    rw [occupied, e1, Option.bind_some, e2, Option.bind_some]
    simp only [hid]
    have key : ∀ A, Good K M { S with parent := p2 } ρ (V ++ [q]) A → (∀ e ∈ A, ρ e.1 = e.1) →
        ∃ L p', occupied f { S with parent := p2 } U A = some (L, { S with parent := p' }) ∧
          Good K M { S with parent := p' } ρ (V ++ q :: U) L := by
      intro A hA hAr
      obtain ⟨L, p3, e3, i3⟩ := ih (V ++ [q]) A hA hAr
      exact ⟨L, p3, e3, by simpa using i3⟩
    split_ifs with h1
    · refine key acc ⟨i2, h.alone, h.sep, h.ent, fun x hx => ?_⟩ hr
      rcases List.mem_append.1 hx with hx | hx
      · exact h.cov x hx
      · rw [List.mem_singleton] at hx
        subst hx
        rcases h1 with h1 | h1
        · exact Or.inl h1
        · obtain ⟨e, he, h2⟩ := List.mem_map.1 h1
          exact Or.inr ⟨e, he, by rw [h2, hid]⟩
    · push Not at h1
      refine key _ ⟨i2, h.alone, ?_, ?_, fun x hx => ?_⟩ ?_
      · refine List.pairwise_append.2 ⟨h.sep, by simp, ?_⟩
        intro e he y hy
        rw [List.mem_singleton] at hy
        subst hy
        rw [hr e he, hid]
        intro h2
        exact h1.2 (List.mem_map.2 ⟨e, he, h2⟩)
      · intro e he
        rcases List.mem_append.1 he with he | he
        · exact h.ent e he
        · rw [List.mem_singleton] at he
          subst he
          rw [hid]
          exact ⟨h1.1, rfl⟩
      · rcases List.mem_append.1 hx with hx | hx
        · rcases h.cov x hx with h2 | ⟨e, he, h2⟩
          · exact Or.inl h2
          · exact Or.inr ⟨e, List.mem_append_left _ he, h2⟩
        · rw [List.mem_singleton] at hx
          subst hx
          exact Or.inr ⟨(ρ x, _), List.mem_append_right _ (List.mem_singleton.2 rfl), hid⟩
      · intro e he
        rcases List.mem_append.1 he with he | he
        · exact hr e he
        · rw [List.mem_singleton] at he
          subst he
          exact hid

theorem Good.union {K : ℕ → Prop} {M f : ℕ} (hM : 1 ≤ M) (hf : M ≤ f) {S : St P} {ρ : ℕ → ℕ} {U : List ℕ} {b size c k : ℕ} {L : List (ℕ × ℕ)}
    (h : Good K M S ρ U ((b, size) :: (c, k) :: L)) (hs : size + k ≤ M) :
    ∃ S' ρ', Blocks.union f S b c = some S' ∧ Tr K M S ρ S' ρ' ∧ Good K M S' ρ' U ((b, size + k) :: L) := by
  obtain ⟨s1, s2⟩ := List.pairwise_cons.1 h.sep
  obtain ⟨s2, s3⟩ := List.pairwise_cons.1 s2
  have hbc : ρ b ≠ ρ c := s1 (c, k) (by simp)
  obtain ⟨c1, z1⟩ := h.ent (b, size) (by simp)
  obtain ⟨c2, z2⟩ := h.ent (c, k) (by simp)
  simp only at c1 z1 c2 z2
  obtain ⟨S', ρ', x, e, t, j⟩ := union_spec hf h.inv b c (h.inv.live _ c1) (h.inv.live _ c2) fun _ => by rw [← z1, ← z2]; exact hs
  refine ⟨S', ρ', e, t, ?_⟩
  have hb : ρ' b = x := by rw [j.root b]; simp
  have hc : ρ' c = x := by rw [j.root c]; simp
  have hx : S'.cur x ≠ none := fun h1 => c1 (j.open_.1 h1).1
  have oth : ∀ q, ρ q ≠ ρ b → ρ q ≠ ρ c → ρ' q = ρ q := by
    intro q h1 h2; rw [j.root q, if_neg (by tauto)]
  have hxr : x = ρ b ∨ x = ρ c := j.here
  have rest : ∀ e ∈ L, ρ' e.1 = ρ e.1 ∧ ρ e.1 ≠ ρ b ∧ ρ e.1 ≠ ρ c := by
    intro e he
    have h1 := s1 e (by simp [he])
    have h2 := s2 e he
    exact ⟨oth _ (Ne.symm h1) (Ne.symm h2), Ne.symm h1, Ne.symm h2⟩
  refine ⟨t.inv hM h.inv, (Alone.join j none (by simp) h.alone).fill (by rwa [hc]), ?_, ?_, ?_⟩
  · refine List.pairwise_cons.2 ⟨fun e he => ?_, ?_⟩
    · obtain ⟨r1, r2, r3⟩ := rest e he
      simp only [hb, r1]
      rcases hxr with h1 | h1
      · rw [h1]; exact Ne.symm r2
      · rw [h1]; exact Ne.symm r3
    · refine s3.imp_of_mem fun {a b} ha hb hn => ?_
      rw [(rest a ha).1, (rest b hb).1]
      exact hn
  · intro e he
    rcases List.mem_cons.1 he with rfl | he
    · simp only [hb]
      refine ⟨hx, ?_⟩
      rw [j.size, if_neg hbc, z1, z2]
    · obtain ⟨r1, r2, r3⟩ := rest e he
      rw [r1, j.cur _ r2 r3, j.bits _ r2 r3]
      exact h.ent e (by simp [he])
  · intro q hq
    by_cases h1 : ρ q = ρ b ∨ ρ q = ρ c
    · refine Or.inr ⟨(b, size + k), by simp, ?_⟩
      rw [j.root q, if_pos h1]; exact hb
    · push Not at h1
      rw [oth q h1.1 h1.2, j.cur _ h1.1 h1.2]
      rcases h.cov q hq with h2 | ⟨e, he, h2⟩
      · exact Or.inl h2
      · rcases List.mem_cons.1 he with rfl | he
        · exact absurd h2.symm h1.1
        rcases List.mem_cons.1 he with rfl | he
        · exact absurd h2.symm h1.2
        exact Or.inr ⟨e, by simp [he], by rw [(rest e he).1]; exact h2⟩

theorem Good.finalize {K : ℕ → Prop} {M f : ℕ} (hM : 1 ≤ M) (hf : M ≤ f) {S : St P} {ρ : ℕ → ℕ} {U : List ℕ} {b size : ℕ} {L : List (ℕ × ℕ)}
    (h : Good K M S ρ U ((b, size) :: L)) :
    ∃ S' ρ', Blocks.finalize f S b = some S' ∧ Tr K M S ρ S' ρ' ∧ Good K M S' ρ' U L := by
  obtain ⟨S', ρ', e, t, j⟩ := finalize_spec hf h.inv b
  obtain ⟨s1, s2⟩ := List.pairwise_cons.1 h.sep
  have oth : ∀ q, ρ q ≠ ρ b → ρ' q = ρ q ∧ S'.cur (ρ q) = S.cur (ρ q) ∧ S'.bits (ρ q) = S.bits (ρ q) := by
    intro q h1
    have hid := h.inv.forest.idem q
    refine ⟨?_, ?_, ?_⟩
    · rw [j.root q, if_neg fun h => h1 h.1]
    · rw [j.cur, hid, if_neg h1]
    · rw [j.bits, hid, if_neg fun h => h1 h.1]
  refine ⟨S', ρ', e, t, t.inv hM h.inv, h.alone.freed j, ?_, ?_, ?_⟩
  · refine s2.imp_of_mem fun {x y} hx hy hn => ?_
    rw [(oth x.1 (Ne.symm (s1 x hx))).1, (oth y.1 (Ne.symm (s1 y hy))).1]
    exact hn
  · intro e he
    obtain ⟨r1, r2, r3⟩ := oth e.1 (Ne.symm (s1 e he))
    rw [r1, r2, r3]
    exact h.ent e (by simp [he])
  · intro q hq
    by_cases h1 : ρ q = ρ b
    · left
      rw [j.cur]
      by_cases h2 : S.cur (ρ b) = none
      · have : ρ' q = ρ q := by rw [j.root q, if_neg fun h => h.2 h2]
        rw [this, h.inv.forest.idem, if_pos h1]
      · have : ρ' q = q := by rw [j.root q, if_pos ⟨h1, h2⟩]
        rw [this, if_pos h1]
    · obtain ⟨r1, r2, -⟩ := oth q h1
      rw [r1, r2]
      rcases h.cov q hq with h2 | ⟨e, he, h2⟩
      · exact Or.inl h2
      · rcases List.mem_cons.1 he with rfl | he
        · exact absurd h2.symm h1
        · exact Or.inr ⟨e, he, by rw [(oth e.1 (Ne.symm (s1 e he))).1]; exact h2⟩

theorem pack_spec {K : ℕ → Prop} {M f max : ℕ} (hM : 1 ≤ M) (hm : max ≤ M) (hf : M ≤ f) {U : List ℕ} {b : ℕ} (l : List (ℕ × ℕ)) :
    ∀ {S : St P} {ρ : ℕ → ℕ} (A : List (ℕ × ℕ)) (size : ℕ), Good K M S ρ U ((b, size) :: (A ++ l)) →
    ∃ L size' S' ρ', pack f max b size l S = some (L, S') ∧ Tr K M S ρ S' ρ' ∧ Good K M S' ρ' U ((b, size') :: (A ++ L)) := by
  induction l with
  | nil => intro S ρ A size h; exact ⟨[], size, S, ρ, rfl, .refl _ _, h⟩
  | cons x l ih =>
    intro S ρ A size h
    obtain ⟨c, k⟩ := x
    rw [pack]
    split_ifs with h1 h2
    · have hp : Good K M S ρ U ((b, size) :: (c, k) :: (A ++ l)) := h.perm (List.Perm.cons _ List.perm_middle.symm)
      obtain ⟨S', ρ', e, t, g⟩ := hp.union hM hf (h2.trans hm)
      rw [e, Option.bind_some]
      obtain ⟨L, size', S'', ρ'', e', t', g'⟩ := ih A _ g
      exact ⟨L, size', S'', ρ'', e', t.trans t', g'⟩
    · obtain ⟨L, size', S'', ρ'', e', t', g'⟩ := ih (A ++ [(c, k)]) size (by simpa using h)
      rw [e', Option.map_some]
      exact ⟨_, size', S'', ρ'', rfl, t', by simpa using g'⟩
    · exact ⟨_, size, S, ρ, rfl, .refl _ _, h⟩

theorem packAll_spec {K : ℕ → Prop} {M f max : ℕ} (hM : 1 ≤ M) (hm : max ≤ M) (hf : M ≤ f) {U : List ℕ} : ∀ (n : ℕ) (l : List (ℕ × ℕ)),
    l.length ≤ n → ∀ {S : St P} {ρ : ℕ → ℕ}, Good K M S ρ U l →
    ∃ S' ρ', packAll f max S l = some S' ∧ Tr K M S ρ S' ρ' ∧ Good K M S' ρ' U [] := by
  intro n
  induction n with
  | zero =>
    intro l hl S ρ h
    have : l = [] := by simpa using hl
    subst this
    rw [packAll]
    exact ⟨S, ρ, rfl, .refl _ _, h⟩
  | succ n ih =>
    intro l hl S ρ h
    cases l with
    | nil => rw [packAll]; exact ⟨S, ρ, rfl, .refl _ _, h⟩
    | cons x l =>
      obtain ⟨b, size⟩ := x
      simp only [List.length_cons] at hl
      rw [packAll]
      split_ifs with h1
      · obtain ⟨S', ρ', e, t, g⟩ := h.finalize hM hf
        rw [e, Option.bind_some]
        obtain ⟨S'', ρ'', e', t', g'⟩ := ih l (by omega) g
        exact ⟨S'', ρ'', e', t.trans t', g'⟩
      · obtain ⟨L, size', S', ρ', e, t, g⟩ := pack_spec hM hm hf l [] size h
        have hL := pack_length f max b l size S _ e
        split
        · rename_i h2
          rw [e] at h2; cases h2
        · rename_i r h2
          rw [e] at h2
          cases h2
          obtain ⟨S2, ρ2, e2, t2, g2⟩ := g.finalize hM hf
          simp only [e2, Option.bind_some]
          obtain ⟨S'', ρ'', e', t', g'⟩ := ih L (by simp only at hL; omega) g2
          exact ⟨S'', ρ'', e', (t.trans t2).trans t', g'⟩

/-! ### Saving space -/

/-- The number of elements of `U` in the block `r`. -/
def count (ρ : ℕ → ℕ) (U : List ℕ) (r : ℕ) : ℕ := (U.filter fun q => ρ q = r).length

/-- A list of the blocks of `U` and of the space that they save. -/
structure Sav (K : ℕ → Prop) (M : ℕ) (S : St P) (ρ : ℕ → ℕ) (U : List ℕ) (L : List (ℕ × ℕ)) : Prop where
  inv : Inv K M S ρ
  sep : L.Pairwise fun x y => ρ x.1 ≠ ρ y.1
  ent : ∀ e ∈ L, (∃ q ∈ U, ρ q = ρ e.1) ∧ e.2 + count ρ U (ρ e.1) = (S.bits (ρ e.1)).length

theorem Sav.perm {K : ℕ → Prop} {M : ℕ} {S : St P} {ρ : ℕ → ℕ} {U : List ℕ} {L L' : List (ℕ × ℕ)} (h : Sav K M S ρ U L)
    (hp : L'.Perm L) : Sav K M S ρ U L' :=
  ⟨h.inv, (hp.pairwise_iff fun h => Ne.symm h).2 h.sep, fun e he => h.ent e (hp.mem_iff.1 he)⟩

theorem count_append (ρ : ℕ → ℕ) (U : List ℕ) (q r : ℕ) : count ρ (U ++ [q]) r = count ρ U r + if ρ q = r then 1 else 0 := by
  unfold count
  rw [List.filter_append, List.length_append]
  split_ifs with h <;> simp [h]

theorem count_le {K : ℕ → Prop} {M : ℕ} {S : St P} {ρ : ℕ → ℕ} (h : Inv K M S ρ) {U : List ℕ} (hU : U.Nodup) {r : ℕ} (hr : ρ r = r) :
    count ρ U r ≤ (S.bits r).length := by
  refine List.Subperm.length_le (List.subperm_of_subset (hU.filter _) fun x hx => ?_)
  rw [h.mem r hr]
  simpa using (List.mem_filter.1 hx).2

theorem savings_spec {K : ℕ → Prop} {M f : ℕ} (hf : M ≤ f) {ρ : ℕ → ℕ} (U : List ℕ) :
    ∀ {S : St P} (V : List ℕ) (acc : List (ℕ × ℕ)) (t : ℕ), Sav K M S ρ V acc → (∀ e ∈ acc, ρ e.1 = e.1) →
    (∀ q ∈ V, ∃ e ∈ acc, e.1 = ρ q) → t = total S (acc.map Prod.fst) → (V ++ U).Nodup →
    ∃ L t' p', savings f S U acc t = some ((L, t'), { S with parent := p' }) ∧ Sav K M { S with parent := p' } ρ (V ++ U) L ∧
      (∀ e ∈ L, ρ e.1 = e.1) ∧ (∀ q ∈ V ++ U, ∃ e ∈ L, e.1 = ρ q) ∧ t' = total S (L.map Prod.fst) := by
  induction U with
  | nil => intro S V acc t h h1 h2 h3 _; exact ⟨acc, t, S.parent, rfl, by simpa using h, h1, by simpa using h2, h3⟩
  | cons q U ih =>
    intro S V acc t h h1 h2 h3 hnd
    obtain ⟨p1, e1, i1⟩ := find_spec hf h.inv q
    have hid := h.inv.forest.idem q
    have hnd' : ((V ++ [q]) ++ U).Nodup := by simpa using hnd
    have hV : (V ++ [q]).Nodup := (List.nodup_append.1 hnd').1
    rw [savings, e1, Option.bind_some]
    simp only
    split_ifs with hm
    · have key := ih (S := { S with parent := p1 }) (V ++ [q])
        (acc.map fun e => if e.1 = ρ q then (e.1, e.2 - 1) else e) t ?_ ?_ ?_ ?_ hnd'
      · obtain ⟨L, t', p', e, s, k1, k2, k3⟩ := key
        exact ⟨L, t', p', e, by simpa using s, k1, by simpa using k2, k3⟩
      · refine ⟨i1, ?_, ?_⟩
        · rw [List.pairwise_map]
          refine h.sep.imp fun {x y} hn => ?_
          split_ifs <;> exact hn
        · intro e he
          obtain ⟨e0, he0, rfl⟩ := List.mem_map.1 he
          obtain ⟨⟨x, hx, hxe⟩, hc⟩ := h.ent e0 he0
          have hfst : (if e0.1 = ρ q then (e0.1, e0.2 - 1) else e0).1 = e0.1 := by split_ifs <;> rfl
          rw [hfst]
          refine ⟨⟨x, by simp [hx], hxe⟩, ?_⟩
          have hle := count_le h.inv hV (h.inv.forest.idem e0.1)
          rw [count_append] at hle ⊢
          rw [h1 e0 he0] at hle hc ⊢
          simp only
          by_cases h4 : e0.1 = ρ q
          · rw [if_pos h4]
            rw [if_pos h4.symm] at hle ⊢
            simp only
            omega
          · rw [if_neg h4]
            rw [if_neg (Ne.symm h4)] at hle ⊢
            omega
      · intro e he
        obtain ⟨e0, he0, rfl⟩ := List.mem_map.1 he
        split_ifs <;> exact h1 e0 he0
      · intro x hx
        have : ∃ e ∈ acc, e.1 = ρ x := by
          rcases List.mem_append.1 hx with hx | hx
          · exact h2 x hx
          · rw [List.mem_singleton] at hx
            subst hx
            obtain ⟨e, he, hr⟩ := List.mem_map.1 hm
            exact ⟨e, he, hr⟩
        obtain ⟨e, he, hr⟩ := this
        refine ⟨_, List.mem_map_of_mem he, ?_⟩
        split_ifs <;> exact hr
      · rw [h3, List.map_map]
        change total S _ = total S _
        congr 1
        refine List.map_congr_left fun e _ => ?_
        simp only [Function.comp]
        split_ifs <;> rfl
    · have key := ih (S := { S with parent := p1 }) (V ++ [q])
        (acc ++ [(ρ q, (S.bits (ρ q)).length - 1)]) (t + (S.bits (ρ q)).length) ?_ ?_ ?_ ?_ hnd'
      · obtain ⟨L, t', p', e, s, k1, k2, k3⟩ := key
        exact ⟨L, t', p', e, by simpa using s, k1, by simpa using k2, k3⟩
      · refine ⟨i1, ?_, ?_⟩
        · refine List.pairwise_append.2 ⟨h.sep, by simp, ?_⟩
          intro e he y hy
          rw [List.mem_singleton] at hy
          subst hy
          rw [h1 e he, hid]
          intro h4
          exact hm (List.mem_map.2 ⟨e, he, h4⟩)
        · intro e he
          rcases List.mem_append.1 he with he | he
          · obtain ⟨⟨x, hx, hxe⟩, hc⟩ := h.ent e he
            refine ⟨⟨x, by simp [hx], hxe⟩, ?_⟩
            rw [count_append, h1 e he, if_neg, Nat.add_zero]
            · rw [h1 e he] at hc; exact hc
            · intro h4
              exact hm (List.mem_map.2 ⟨e, he, h4.symm⟩)
          · rw [List.mem_singleton] at he
            subst he
            simp only [hid]
            refine ⟨⟨q, by simp, rfl⟩, ?_⟩
            have : count ρ V (ρ q) = 0 := by
              unfold count
              rw [List.length_eq_zero_iff, List.filter_eq_nil_iff]
              intro x hx
              obtain ⟨e, he, hr⟩ := h2 x hx
              simp only [decide_eq_true_eq]
              intro h4
              exact hm (List.mem_map.2 ⟨e, he, hr.trans h4⟩)
            rw [count_append, this, if_pos rfl]
            have : 0 < (S.bits (ρ q)).length := h.inv.forest.pos q
            omega
      · intro e he
        rcases List.mem_append.1 he with he | he
        · exact h1 e he
        · rw [List.mem_singleton] at he
          subst he
          exact hid
      · intro x hx
        rcases List.mem_append.1 hx with hx | hx
        · obtain ⟨e, he, hr⟩ := h2 x hx
          exact ⟨e, List.mem_append_left _ he, hr⟩
        · rw [List.mem_singleton] at hx
          subst hx
          exact ⟨_, List.mem_append_right _ (List.mem_singleton.2 rfl), rfl⟩
      · rw [h3]
        simp [total]

theorem save_spec {K : ℕ → Prop} {M f max : ℕ} (hM : 1 ≤ M) (hf : M ≤ f) {U : List ℕ} (hU : U.length ≤ max) (l : List (ℕ × ℕ)) :
    ∀ {S : St P} {ρ : ℕ → ℕ} (need : ℤ), Sav K M S ρ U l → Alone S ρ none →
    (reach S ρ U).card - (max : ℤ) ≤ need →
    (0 < need → ∀ q ∈ U, (∃ e ∈ l, ρ e.1 = ρ q) ∨ ∀ x, ρ x = ρ q → x ∈ U) →
    ∃ S' ρ', save f S need l = some S' ∧ Tr K M S ρ S' ρ' ∧ Alone S' ρ' none ∧ (reach S' ρ' U).card ≤ max := by
  induction l with
  | nil =>
    intro S ρ need h ha hn hd
    refine ⟨S, ρ, rfl, .refl _ _, ha, ?_⟩
    by_cases h1 : 0 < need
    · refine le_trans ?_ hU
      refine le_trans (Finset.card_le_card (t := U.toFinset) fun x hx => ?_) (List.toFinset_card_le U)
      rw [mem_reach h.inv] at hx
      obtain ⟨q, hq, hx⟩ := hx
      rcases hd h1 q hq with ⟨e, he, -⟩ | h2
      · simp at he
      · simpa using h2 x hx
    · omega
  | cons x l ih =>
    intro S ρ need h ha hn hd
    obtain ⟨b, s⟩ := x
    obtain ⟨s1, s2⟩ := List.pairwise_cons.1 h.sep
    rw [save]
    split_ifs with h1
    · obtain ⟨S1, ρ1, e, t, j⟩ := finalize_spec hf h.inv b
      obtain ⟨⟨y, hy, hyb⟩, hc⟩ := h.ent (b, s) (by simp)
      simp only at hyb hc
      have hid := h.inv.forest.idem
      have oth : ∀ q, ρ q ≠ ρ b → ρ1 q = ρ q ∧ S1.bits (ρ q) = S.bits (ρ q) := by
        intro q h1
        refine ⟨?_, ?_⟩
        · rw [j.root q, if_neg fun h => h1 h.1]
        · rw [j.bits, hid, if_neg fun h => h1 h.1]
      have hi1 := t.inv hM h.inv
      have hcnt : ∀ r, ρ r = r → r ≠ ρ b → count ρ1 U r = count ρ U r := by
        intro r hr hrb
        unfold count
        congr 1
        refine List.filter_congr fun q hq => ?_
        congr 1
        by_cases h4 : ρ q = ρ b
        · by_cases h5 : S.cur (ρ b) = none
          · rw [j.root q, if_neg fun h => h.2 h5]
          · rw [j.root q, if_pos ⟨h4, h5⟩]
            refine propext ⟨?_, ?_⟩
            · rintro rfl; exact absurd (hr.symm.trans h4) hrb
            · intro h6; exact absurd (h6.symm.trans h4) hrb
        · rw [(oth q h4).1]
      have hsav : Sav K M S1 ρ1 U l := by
        refine ⟨hi1, ?_, ?_⟩
        · refine s2.imp_of_mem fun {x y} hx hy hn => ?_
          rw [(oth x.1 (Ne.symm (s1 x hx))).1, (oth y.1 (Ne.symm (s1 y hy))).1]
          exact hn
        · intro e he
          have hne := Ne.symm (s1 e he)
          simp only at hne
          obtain ⟨⟨z, hz, hze⟩, hce⟩ := h.ent e (by simp [he])
          obtain ⟨r1, r2⟩ := oth e.1 hne
          refine ⟨⟨z, hz, ?_⟩, ?_⟩
          · rw [(oth z (by rw [hze]; exact hne)).1, r1, hze]
          · rw [r1, r2, hcnt _ (hid _) hne]; exact hce
      have hcard : ((reach S1 ρ1 U).card : ℤ) ≤ (reach S ρ U).card - s := by
        by_cases h5 : S.cur (ρ b) = none
        · have hb := ha _ (hid b) h5 (by simp)
          have hy' : y = ρ b := by
            have := (h.inv.mem _ (hid b) y).2 hyb
            rw [hb] at this
            simpa using this
          have h6 : 1 ≤ count ρ U (ρ b) := by
            unfold count
            refine List.length_pos_of_mem (a := y) (List.mem_filter.2 ⟨hy, by simpa using hyb⟩)
          rw [hb] at hc
          simp only [List.length_singleton] at hc
          have hr : reach S1 ρ1 U = reach S ρ U := by
            ext x
            rw [mem_reach hi1, mem_reach h.inv]
            have : ∀ z, ρ1 z = ρ z := fun z => by rw [j.root z, if_neg fun h => h.2 h5]
            simp only [this]
          rw [hr]
          omega
        · have hB : (S.bits (ρ b)).toFinset ⊆ reach S ρ U := by
            intro x hx
            rw [mem_reach h.inv]
            exact ⟨y, hy, ((h.inv.mem _ (hid b) x).1 (by simpa using hx)).trans hyb.symm⟩
          have hBc : (S.bits (ρ b)).toFinset.card = (S.bits (ρ b)).length :=
            List.toFinset_card_of_nodup (h.inv.nodup _ (hid b))
          have hle : reach S1 ρ1 U ⊆ (reach S ρ U \ (S.bits (ρ b)).toFinset) ∪ (U.filter fun q => ρ q = ρ b).toFinset := by
            intro x hx
            rw [mem_reach hi1] at hx
            obtain ⟨q, hq, hx⟩ := hx
            simp only [Finset.mem_union, Finset.mem_sdiff, List.mem_toFinset, h.inv.mem _ (hid b), List.mem_filter, decide_eq_true_eq]
            rw [mem_reach h.inv]
            by_cases h6 : ρ x = ρ b
            · right
              rw [j.root x, if_pos ⟨h6, h5⟩] at hx
              by_cases h7 : ρ q = ρ b
              · rw [j.root q, if_pos ⟨h7, h5⟩] at hx
                rw [hx]; exact ⟨hq, h7⟩
              · rw [(oth q h7).1] at hx
                rw [hx, hid] at h6
                exact absurd h6 h7
            · left
              rw [(oth x h6).1] at hx
              by_cases h7 : ρ q = ρ b
              · rw [j.root q, if_pos ⟨h7, h5⟩] at hx
                rw [← hx, hid] at h7
                exact absurd h7 h6
              · rw [(oth q h7).1] at hx
                exact ⟨⟨q, hq, hx⟩, h6⟩
          have k1 := Finset.card_le_card hle
          have k2 := Finset.card_union_le (reach S ρ U \ (S.bits (ρ b)).toFinset) (U.filter fun q => ρ q = ρ b).toFinset
          have k3 := Finset.card_sdiff_add_card_eq_card hB
          have k4 := List.toFinset_card_le (U.filter fun q => ρ q = ρ b)
          unfold count at hc
          omega
      rw [e, Option.bind_some]
      have key := ih (need - s) hsav (ha.freed j) (by omega) ?_
      · obtain ⟨S2, ρ2, e2, t2, a2, c2⟩ := key
        exact ⟨S2, ρ2, e2, t.trans t2, a2, c2⟩
      · intro _ q hq
        by_cases h4 : ρ q = ρ b
        · right
          intro x hx
          by_cases h5 : S.cur (ρ b) = none
          · have hb := ha _ (hid b) h5 (by simp)
            have same : ∀ z, ρ1 z = ρ z := fun z => by rw [j.root z, if_neg fun h => h.2 h5]
            rw [same, same] at hx
            have k1 := (h.inv.mem _ (hid b) q).2 h4
            have k2 := (h.inv.mem _ (hid b) x).2 (hx.trans h4)
            rw [hb, List.mem_singleton] at k1 k2
            rw [k2, ← k1]; exact hq
          · rw [j.root q, if_pos ⟨h4, h5⟩] at hx
            by_cases h6 : ρ x = ρ b
            · rw [j.root x, if_pos ⟨h6, h5⟩] at hx
              rw [hx]; exact hq
            · rw [(oth x h6).1] at hx
              rw [← hx, hid] at h4
              exact absurd h4 h6
        · rcases hd h1 q hq with ⟨e, he, h5⟩ | h5
          · rcases List.mem_cons.1 he with rfl | he
            · exact absurd h5.symm h4
            · exact Or.inl ⟨e, he, by rw [(oth q h4).1, (oth e.1 (Ne.symm (s1 e he))).1]; exact h5⟩
          · right
            intro x hx
            refine h5 x ?_
            rw [(oth q h4).1] at hx
            by_cases h6 : ρ x = ρ b
            · by_cases h7 : S.cur (ρ b) = none
              · rwa [j.root x, if_neg fun h => h.2 h7] at hx
              · rw [j.root x, if_pos ⟨h6, h7⟩] at hx
                rw [hx, hid]
            · rwa [(oth x h6).1] at hx
    · obtain ⟨S2, ρ2, e2, t2, a2, c2⟩ := ih need ⟨h.inv, s2, fun e he => h.ent e (by simp [he])⟩ ha hn fun h2 => absurd h2 h1
      exact ⟨S2, ρ2, e2, t2, a2, c2⟩

/-! ### One operation -/

/-- Put an operation into the block `r`. -/
def put (S : St P) (r : ℕ) (o : Op P) : St P :=
  match S.cur r with
  | none => { S with cur := update S.cur r (some S.slots.length), ops := update S.ops r (S.ops r ++ [o]), slots := S.slots ++ [none] }
  | some _ => { S with ops := update S.ops r (S.ops r ++ [o]) }

/-- Append an operation to the circuit. -/
def app (S : St P) (o : Op P) : St P := { S with slots := S.slots ++ [some o] }

theorem reach_joined {K : ℕ → Prop} {M : ℕ} {S S' : St P} {ρ ρ' : ℕ → ℕ} {a b k : ℕ} (h : Inv K M S ρ) (h' : Inv K M S' ρ')
    (j : Joined S S' ρ ρ' a b k) {U : List ℕ} (ha : a ∈ U) (hb : b ∈ U) : reach S' ρ' U = reach S ρ U := by
  ext x
  rw [mem_reach h, mem_reach h']
  have hk : ∀ q, (ρ q = ρ a ∨ ρ q = ρ b) → ρ' q = k := fun q h1 => by rw [j.root q, if_pos h1]
  have oth : ∀ q, ¬(ρ q = ρ a ∨ ρ q = ρ b) → ρ' q = ρ q := fun q h1 => by rw [j.root q, if_neg h1]
  have nk : ∀ q, ¬(ρ q = ρ a ∨ ρ q = ρ b) → ρ q ≠ k := by
    intro q h1 e
    rcases j.here with h2 | h2
    · exact h1 (Or.inl (e.trans h2))
    · exact h1 (Or.inr (e.trans h2))
  constructor
  · rintro ⟨q, hq, hx⟩
    by_cases h1 : ρ x = ρ a ∨ ρ x = ρ b
    · rcases h1 with h1 | h1
      · exact ⟨a, ha, h1⟩
      · exact ⟨b, hb, h1⟩
    · by_cases h2 : ρ q = ρ a ∨ ρ q = ρ b
      · rw [oth x h1, hk q h2] at hx
        exact absurd hx (nk x h1)
      · rw [oth x h1, oth q h2] at hx
        exact ⟨q, hq, hx⟩
  · rintro ⟨q, hq, hx⟩
    refine ⟨q, hq, ?_⟩
    rw [j.root x, j.root q, hx]

theorem join_spec {K : ℕ → Prop} {M f : ℕ} (hM : 1 ≤ M) (hf : M ≤ f) {U : List ℕ} (hK : ∀ q ∈ U, K q) (l : List ℕ) :
    ∀ {S : St P} {ρ : ℕ → ℕ} (prev : Option ℕ), (∀ q ∈ l, q ∈ U) → (∀ q ∈ prev, q ∈ U) → Inv K M S ρ → Alone S ρ prev →
    (reach S ρ U).card ≤ M →
    ∃ S' ρ' last, join f S prev l = some (last, S') ∧ Tr K M S ρ S' ρ' ∧ Alone S' ρ' last ∧ (∀ q ∈ l, ∃ z ∈ last, ρ' q = ρ' z) ∧
      (∀ x y, ρ x = ρ y → ρ' x = ρ' y) ∧ (∀ q ∈ prev, ∃ z ∈ last, ρ' q = ρ' z) ∧ (∀ z ∈ last, z ∈ U) ∧ (Calm S → Calm S') := by
  induction l with
  | nil =>
    intro S ρ prev _ hp h ha _
    refine ⟨S, ρ, prev, ?_, .refl _ _, ha, by simp, fun _ _ h => h, fun q hq => ⟨q, hq, rfl⟩, hp, id⟩
    cases prev <;> rfl
  | cons q l ih =>
    intro S ρ prev hl hp h ha hc
    cases prev with
    | none =>
      rw [join]
      obtain ⟨S', ρ', last, e, t, a, k1, k2, k3, k4, k5⟩ := ih (some q) (fun x hx => hl x (by simp [hx]))
        (by simpa using hl q (by simp)) h (fun r hr hc _ => ha r hr hc (by simp)) hc
      refine ⟨S', ρ', last, e, t, a, fun x hx => ?_, k2, by simp, k4, k5⟩
      rcases List.mem_cons.1 hx with rfl | hx
      · exact k3 x rfl
      · exact k1 x hx
    | some p =>
      rw [join]
      have hpU : p ∈ U := hp p rfl
      have hqU : q ∈ U := hl q (by simp)
      obtain ⟨S1, ρ1, k, e1, t1, j1⟩ := union_spec hf h p q (h.seen (hK p hpU)) (h.seen (hK q hqU)) fun hne => by
        have hid := h.forest.idem
        have hs : (S.bits (ρ p)).toFinset ∪ (S.bits (ρ q)).toFinset ⊆ reach S ρ U := by
          intro x hx
          rw [mem_reach h]
          simp only [Finset.mem_union, List.mem_toFinset, h.mem _ (hid _)] at hx
          rcases hx with hx | hx
          · exact ⟨p, hpU, hx⟩
          · exact ⟨q, hqU, hx⟩
        have hd : Disjoint (S.bits (ρ p)).toFinset (S.bits (ρ q)).toFinset := by
          rw [Finset.disjoint_left]
          intro x hx hy
          simp only [List.mem_toFinset, h.mem _ (hid _)] at hx hy
          exact hne (hx.symm.trans hy)
        have := (Finset.card_le_card hs).trans hc
        rw [Finset.card_union_of_disjoint hd, List.toFinset_card_of_nodup (h.nodup _ (hid _)),
          List.toFinset_card_of_nodup (h.nodup _ (hid _))] at this
        exact this
      have i1 := t1.inv hM h
      rw [e1, Option.bind_some]
      obtain ⟨S', ρ', last, e, t, a, k1, k2, k3, k4, k5⟩ := ih (some q) (fun x hx => hl x (by simp [hx]))
        (by simpa using hqU) i1 (Alone.join j1 (some p) (by simp) ha) (by rwa [reach_joined h i1 j1 hpU hqU])
      refine ⟨S', ρ', last, e, t1.trans t, a, fun x hx => ?_, fun x y hxy => k2 x y ?_, fun x hx => ?_, k4, fun h => k5 (j1.calm h)⟩
      · rcases List.mem_cons.1 hx with rfl | hx
        · exact k3 x rfl
        · exact k1 x hx
      · rw [j1.root x, j1.root y, hxy]
      · cases hx
        obtain ⟨z, hz, hqz⟩ := k3 q rfl
        refine ⟨z, hz, ?_⟩
        rw [← hqz]
        refine k2 _ _ ?_
        rw [j1.root, j1.root]
        simp

theorem sorted_mem (s : Finset ℕ) (q : ℕ) : q ∈ sorted s ↔ q ∈ s := by
  unfold sorted
  rw [List.mem_filter, List.mem_range]
  simp only [decide_eq_true_eq, and_iff_right_iff_imp]
  intro h
  exact Nat.lt_succ_of_le (Finset.le_sup (f := id) h)

theorem sorted_nodup (s : Finset ℕ) : (sorted s).Nodup := List.nodup_range.filter _

/-- What happens to an operation. -/
inductive Step (K : ℕ → Prop) (M max : ℕ) (S : St P) (ρ : ℕ → ℕ) (o : Op P) (S' : St P) (ρ' : ℕ → ℕ) : Prop
  | block (S1 : St P) (r : ℕ) (t : Tr K M S ρ S1 ρ') (u : isUnitary o = true) (hl : o.usedQ.card ≤ max) (hr : ρ' r = r)
      (hk : K r) (hu : ∀ q ∈ o.usedQ, ρ' q = r) (e : S' = put S1 r o)
  | own (S1 : St P) (t : Tr K M S ρ S1 ρ') (u : isUnitary o = true → max < o.usedQ.card)
      (hu : ∀ q ∈ o.usedQ, S1.cur (ρ' q) = none) (e : S' = app S1 o)

theorem put_inv {K : ℕ → Prop} {M : ℕ} {S : St P} {ρ : ℕ → ℕ} (h : Inv K M S ρ) {r : ℕ} {o : Op P} (hr : ρ r = r) (hk : K r)
    (u : isUnitary o = true) (hu : ∀ q ∈ o.usedQ, ρ q = r) : Inv K M (put S r o) ρ := by
  have use' : ∀ x, ∀ o' ∈ update S.ops r (S.ops r ++ [o]) x, isUnitary o' = true ∧ ∀ q ∈ o'.usedQ, ρ q = x := by
    intro x o' ho
    by_cases hx : x = r
    · subst hx
      rw [Function.update_self] at ho
      rcases List.mem_append.1 ho with ho | ho
      · exact h.use x o' ho
      · rw [List.mem_singleton] at ho
        subst ho
        exact ⟨u, hu⟩
    · rw [Function.update_of_ne hx] at ho
      exact h.use x o' ho
  unfold put
  cases hc : S.cur r with
  | none =>
    simp only
    refine ⟨h.forest, h.nodup, h.mem, fun x hx => ?_, fun x i hx => ?_, fun x y i hx hy => ?_, fun i hi => ?_, fun x => ?_, use', h.size,
      h.key, fun x hx => ?_⟩
    · have : x ≠ r := by rintro rfl; exact hx hr
      simp only [Function.update_of_ne this]
      exact h.dead x hx
    · by_cases hxr : x = r
      · subst hxr
        simp only [Function.update_self, Option.some.injEq] at hx
        subst hx
        simp
      · simp only [Function.update_of_ne hxr] at hx
        have := h.lt hx
        simp only
        rw [List.getElem?_append_left this]
        exact h.slot x i hx
    · by_cases hxr : x = r
      · by_cases hyr : y = r
        · rw [hxr, hyr]
        · subst hxr
          simp only [Function.update_self, Function.update_of_ne hyr, Option.some.injEq] at hx hy
          have := h.lt hy
          omega
      · by_cases hyr : y = r
        · subst hyr
          simp only [Function.update_self, Function.update_of_ne hxr, Option.some.injEq] at hx hy
          have := h.lt hx
          omega
        · simp only [Function.update_of_ne hyr, Function.update_of_ne hxr] at hx hy
          exact h.inj _ _ _ hx hy
    · by_cases hil : i < S.slots.length
      · simp only [List.getElem?_append_left hil] at hi
        obtain ⟨x, hx⟩ := h.owner i hi
        have : x ≠ r := by rintro rfl; rw [hc] at hx; cases hx
        exact ⟨x, by simp only [Function.update_of_ne this]; exact hx⟩
      · have : i = S.slots.length := by
          have := (List.getElem?_eq_some_iff.1 hi).1
          simp at this
          omega
        exact ⟨r, by simp [this]⟩
    · by_cases hxr : x = r
      · subst hxr; simp
      · simp only [Function.update_of_ne hxr]; exact h.empty x
    · by_cases hxr : x = r
      · rw [hxr]; exact hk
      · simp only [Function.update_of_ne hxr] at hx; exact h.live x hx
  | some i =>
    simp only
    refine ⟨h.forest, h.nodup, h.mem, fun x hx => ?_, h.slot, h.inj, h.owner, fun x => ?_, use', h.size, h.key, h.live⟩
    · have : x ≠ r := by rintro rfl; exact hx hr
      simp only [Function.update_of_ne this]
      exact h.dead x hx
    · by_cases hxr : x = r
      · subst hxr; simp [hc]
      · simp only [Function.update_of_ne hxr]; exact h.empty x

theorem put_cur (S : St P) (r : ℕ) (o : Op P) : (put S r o).cur r ≠ none ∧ ∀ x, x ≠ r → (put S r o).cur x = S.cur x := by
  unfold put
  cases hc : S.cur r with
  | none => exact ⟨by simp, fun x hx => by simp [Function.update_of_ne hx]⟩
  | some i => exact ⟨by simp [hc], fun x _ => rfl⟩

theorem put_bits (S : St P) (r : ℕ) (o : Op P) : (put S r o).bits = S.bits := by
  unfold put
  cases S.cur r <;> rfl

theorem Calm.put {S : St P} (h : Calm S) (r : ℕ) (o : Op P) : Calm (put S r o) := by
  unfold Blocks.put
  cases S.cur r with
  | none =>
    refine ⟨h.1, fun i o' ho => ?_⟩
    simp only at ho
    by_cases hi : i < S.slots.length
    · rw [List.getElem?_append_left hi] at ho
      exact h.2 i o' ho
    · have := (List.getElem?_eq_some_iff.1 ho).1
      rw [List.length_append, List.length_singleton] at this
      have : i = S.slots.length := by omega
      subst this
      simp at ho
  | some _ => exact h

theorem app_inv {K : ℕ → Prop} {M : ℕ} {S : St P} {ρ : ℕ → ℕ} (h : Inv K M S ρ) (o : Op P) : Inv K M (app S o) ρ := by
  refine ⟨h.forest, h.nodup, h.mem, h.dead, fun x i hx => ?_, h.inj, fun i hi => ?_, h.empty, h.use, h.size, h.key, h.live⟩
  · simp only [app]
    rw [List.getElem?_append_left (h.lt hx)]
    exact h.slot x i hx
  · by_cases hil : i < S.slots.length
    · simp only [app, List.getElem?_append_left hil] at hi
      exact h.owner i hi
    · have hi' := (List.getElem?_eq_some_iff.1 hi).1
      simp only [app, List.length_append, List.length_singleton] at hi'
      have : i = S.slots.length := by omega
      subst this
      simp [app] at hi

theorem Step.inv {K : ℕ → Prop} {M max : ℕ} (hM : 1 ≤ M) {S S' : St P} {ρ ρ' : ℕ → ℕ} {o : Op P} (h : Step K M max S ρ o S' ρ')
    (hi : Inv K M S ρ) : Inv K M S' ρ' := by
  cases h with
  | block S1 r t u hl hr hk hu e => subst e; exact put_inv (t.inv hM hi) hr hk u hu
  | own S1 t u hu e => subst e; exact app_inv (t.inv hM hi) o

theorem finalizeAll_spec {K : ℕ → Prop} {M f : ℕ} (hM : 1 ≤ M) (hf : M ≤ f) (l : List ℕ) : ∀ {S : St P} {ρ : ℕ → ℕ} (V : List ℕ),
    Inv K M S ρ → Alone S ρ none → (∀ q ∈ V, S.cur (ρ q) = none) →
    ∃ S' ρ', finalizeAll f S l = some S' ∧ Tr K M S ρ S' ρ' ∧ Alone S' ρ' none ∧ ∀ q ∈ V ++ l, S'.cur (ρ' q) = none := by
  induction l with
  | nil => intro S ρ V h ha hv; exact ⟨S, ρ, rfl, .refl _ _, ha, by simpa using hv⟩
  | cons q l ih =>
    intro S ρ V h ha hv
    obtain ⟨S1, ρ1, e, t, j⟩ := finalize_spec hf h q
    rw [finalizeAll, e, Option.bind_some]
    have key := ih (V ++ [q]) (t.inv hM h) (ha.freed j) ?_
    · obtain ⟨S2, ρ2, e2, t2, a2, c2⟩ := key
      exact ⟨S2, ρ2, e2, t.trans t2, a2, by simpa using c2⟩
    · intro x hx
      rw [j.cur]
      have hx' : S.cur (ρ x) = none ∨ ρ x = ρ q := by
        rcases List.mem_append.1 hx with hx | hx
        · exact Or.inl (hv x hx)
        · rw [List.mem_singleton] at hx; rw [hx]; exact Or.inr rfl
      split_ifs with h1
      · rfl
      · by_cases h2 : ρ x = ρ q ∧ S.cur (ρ q) ≠ none
        · rw [j.root x, if_pos h2] at h1
          exact absurd h2.1 h1
        · rw [j.root x, if_neg h2]
          rcases hx' with h3 | h3
          · exact h3
          · by_contra h4
            rw [h3] at h4
            exact h2 ⟨h3, h4⟩

theorem insert_spec {K : ℕ → Prop} {M f max : ℕ} (hM : 1 ≤ M) (hm : max ≤ M) (hf : M ≤ f) {S : St P} {ρ : ℕ → ℕ} {o : Op P}
    (hK : ∀ q ∈ o.usedQ, K q) (hK0 : o.usedQ = ∅ → K noQubit) (h : Inv K M S ρ) (ha : Alone S ρ none)
    (hc : (reach S ρ (sorted o.usedQ)).card ≤ max) (u : isUnitary o = true) (hl : o.usedQ.card ≤ max) :
    ∃ S' ρ', insert f S o (sorted o.usedQ) = some S' ∧ Step K M max S ρ o S' ρ' ∧ Alone S' ρ' none ∧ (Calm S → Calm S') := by
  have hK' : ∀ q ∈ sorted o.usedQ, K q := fun q hq => hK q ((sorted_mem _ _).1 hq)
  obtain ⟨S1, ρ1, last, e1, t1, a1, k1, -, -, k4, k5⟩ := join_spec hM hf hK' (sorted o.usedQ) none (fun _ h => h) (by simp) h ha
    (hc.trans hm)
  have i1 := t1.inv hM h
  obtain ⟨p2, e2, i2⟩ := find_spec hf i1 (last.getD noQubit)
  have hk : K (last.getD noQubit) := by
    cases last with
    | none =>
      refine hK0 (Finset.eq_empty_of_forall_notMem fun q hq => ?_)
      obtain ⟨z, hz, -⟩ := k1 q ((sorted_mem _ _).2 hq)
      cases hz
    | some z => exact hK' z (k4 z rfl)
  refine ⟨put { S1 with parent := p2 } (ρ1 (last.getD noQubit)) o, ρ1, ?_, ?_, ?_, fun h => Calm.put (S := { S1 with parent := p2 }) (k5 h) _ _⟩
  · rw [insert, e1, Option.bind_some, e2, Option.map_some]
    rfl
  · refine .block _ _ (t1.trans (.path i2)) u hl (i1.forest.idem _) (i1.seen hk) (fun q hq => ?_) rfl
    obtain ⟨z, hz, h1⟩ := k1 q ((sorted_mem _ _).2 hq)
    cases hz
    exact h1
  · obtain ⟨c1, c2⟩ := put_cur { S1 with parent := p2 } (ρ1 (last.getD noQubit)) o
    intro r hr hn _
    rw [put_bits]
    have hne : r ≠ ρ1 (last.getD noQubit) := by rintro rfl; exact c1 hn
    rw [c2 r hne] at hn
    refine a1 r hr hn fun q hq => ?_
    cases hq
    exact hne

theorem step_spec {K : ℕ → Prop} {M f max : ℕ} (hM : 1 ≤ M) (hm : max ≤ M) (hf : M ≤ f) {srt : Sorter} (hsrt : ∀ l, (srt l).Perm l)
    {S : St P} {ρ : ℕ → ℕ} {o : Op P} (hK : ∀ q ∈ o.usedQ, K q) (hK0 : isUnitary o = true → o.usedQ = ∅ → K noQubit)
    (h : Inv K M S ρ) (ha : Alone S ρ none) :
    ∃ S' ρ', step f max srt S o = some S' ∧ Step K M max S ρ o S' ρ' ∧ Alone S' ρ' none ∧
      (isUnitary o = true → (reach S ρ (sorted o.usedQ)).card ≤ max → Calm S → Calm S') := by
  have hlen : (sorted o.usedQ).length = o.usedQ.card := by
    rw [← List.toFinset_card_of_nodup (sorted_nodup _)]
    congr 1
    ext q
    rw [List.mem_toFinset, sorted_mem]
  rw [step]
  by_cases u : isUnitary o = true
  · simp only [u, if_true]
    obtain ⟨L, p1, e1, i1, -, k1, kr, kn⟩ := roots_spec hf (sorted o.usedQ) [] h
    rw [e1, Option.bind_some]
    have hle := card_reach_le { S with parent := p1 } ρ _ _ k1
    have hge := le_card_reach i1 (sorted_nodup o.usedQ)
    have htot : total { S with parent := p1 } L ≤ (reach S ρ (sorted o.usedQ)).card :=
      total_le i1 (fun r hr => (kr r hr).resolve_left (by simp)) (kn .nil)
    have t1 : Tr K M S ρ { S with parent := p1 } ρ := .path i1
    have ins : ∀ {S2 : St P} {ρ2 : ℕ → ℕ}, Tr K M S ρ S2 ρ2 → Alone S2 ρ2 none → (reach S2 ρ2 (sorted o.usedQ)).card ≤ max →
        ∃ S' ρ', (if max < (sorted o.usedQ).length then some { S2 with slots := S2.slots ++ [some o] } else insert f S2 o (sorted o.usedQ))
          = some S' ∧ Step K M max S ρ o S' ρ' ∧ Alone S' ρ' none ∧ (Calm S2 → Calm S') := by
      intro S2 ρ2 t2 a2 c2
      have i2 := t2.inv hM h
      have hg := le_card_reach i2 (sorted_nodup o.usedQ)
      rw [if_neg (by omega)]
      obtain ⟨S', ρ', e, st, a, cm⟩ := insert_spec hM hm hf hK (hK0 u) i2 a2 c2 u (by omega)
      refine ⟨S', ρ', e, ?_, a, cm⟩
      cases st with
      | block S3 r t u hl hr hk hu e => exact .block S3 r (t2.trans t) u hl hr hk hu e
      | own S3 t u hu e => exact .own S3 (t2.trans t) u hu e
    by_cases h1 : max < total { S with parent := p1 } L
    · simp only [h1, if_true]
      rw [makeRoom]
      by_cases h2 : max < (sorted o.usedQ).length
      · simp only [h2, if_true]
        obtain ⟨A, p2, e2, g2⟩ := occupied_spec hf (sorted o.usedQ) [] [] (S := { S with parent := p1 })
          ⟨i1, ha, .nil, by simp, by simp⟩ (by simp)
        simp only [e2, Option.bind_some]
        obtain ⟨S3, ρ3, e3, t3, g3⟩ := packAll_spec hM hm hf _ _ le_rfl (g2.perm (hsrt A))
        rw [e3, Option.bind_some]
        refine ⟨_, ρ3, rfl, .own S3 (t1.trans ((Tr.path g2.inv).trans t3)) (fun _ => by omega) (fun q hq => ?_) rfl, ?_,
          fun _ hr => absurd hr (by omega)⟩
        · rcases g3.cov q (by simpa using (sorted_mem _ _).2 hq) with h3 | ⟨e, he, -⟩
          · exact h3
          · simp at he
        · exact g3.alone
      · simp only [h2, if_false]
        obtain ⟨A, t, p2, e2, s2, k2, k3, k4⟩ := savings_spec hf (sorted o.usedQ) [] [] 0 (S := { S with parent := p1 })
          ⟨i1, .nil, by simp⟩ (by simp) (by simp) rfl (by simpa using sorted_nodup _)
        simp only [List.nil_append] at s2 k3
        rw [e2, Option.bind_some]
        have hb : (reach { S with parent := p2 } ρ (sorted o.usedQ)).card ≤ t := by
          rw [k4]
          refine card_reach_le { S with parent := p2 } ρ _ _ fun q hq => ?_
          obtain ⟨e, he, hr⟩ := k3 q hq
          exact List.mem_map.2 ⟨e, he, hr⟩
        obtain ⟨S3, ρ3, e3, t3, a3, c3⟩ := save_spec (max := max) hM hf (by omega) (srt A) (t - max : ℤ) (s2.perm (hsrt A)) ha (by omega)
          (fun _ q hq => by
            obtain ⟨e, he, hr⟩ := k3 q hq
            exact Or.inl ⟨e, (hsrt A).mem_iff.2 he, by rw [k2 e he, hr]⟩)
        simp only [e3, Option.bind_some]
        obtain ⟨S', ρ', r1, r2, r3, -⟩ := ins ((Tr.path s2.inv).trans t3) a3 c3
        rw [if_neg h2] at r1
        exact ⟨S', ρ', r1, r2, r3, fun _ hr => absurd hr (by omega)⟩
    · simp only [h1, if_false, Option.bind_some]
      obtain ⟨S', ρ', r1, r2, r3, r4⟩ := ins t1 ha (by omega)
      exact ⟨S', ρ', r1, r2, r3, fun _ _ h => r4 h⟩
  · simp only [u]
    obtain ⟨S1, ρ1, e, t, a, c⟩ := finalizeAll_spec hM hf (sorted o.usedQ) [] h ha (by simp)
    rw [if_neg (by simp), e, Option.map_some]
    exact ⟨_, ρ1, rfl, .own S1 t (fun h => absurd h u) (fun q hq => c q (by simpa using (sorted_mem _ _).2 hq)) rfl, a,
      fun h => absurd h (by simp)⟩

/-! ### The whole circuit -/

theorem loop_spec {K : ℕ → Prop} {M f max : ℕ} (hM : 1 ≤ M) (hm : max ≤ M) (hf : M ≤ f) {srt : Sorter} (hsrt : ∀ l, (srt l).Perm l)
    {X : List (Op P) → St P → (ℕ → ℕ) → Prop}
    (hx : ∀ D S ρ o S' ρ', Inv K M S ρ → X D S ρ → Step K M max S ρ o S' ρ' → X (D ++ [o]) S' ρ') (ops : List (Op P)) :
    ∀ (D : List (Op P)) {S : St P} {ρ : ℕ → ℕ}, (∀ o ∈ ops, (∀ q ∈ o.usedQ, K q) ∧ (isUnitary o = true → o.usedQ = ∅ → K noQubit)) →
    Inv K M S ρ → Alone S ρ none → X D S ρ →
    ∃ S' ρ', loop f max srt S ops = some S' ∧ Inv K M S' ρ' ∧ X (D ++ ops) S' ρ' := by
  induction ops with
  | nil => intro D S ρ _ h _ hX; exact ⟨S, ρ, rfl, h, by simpa using hX⟩
  | cons o ops ih =>
    intro D S ρ hK h ha hX
    obtain ⟨k1, k2⟩ := hK o (by simp)
    obtain ⟨S1, ρ1, e1, s1, a1, -⟩ := step_spec hM hm hf hsrt k1 k2 h ha
    rw [loop, e1, Option.bind_some]
    obtain ⟨S2, ρ2, e2, i2, x2⟩ := ih (D ++ [o]) (fun x hx => hK x (by simp [hx])) (s1.inv hM h) a1 (hx _ _ _ _ _ _ h hX s1)
    exact ⟨S2, ρ2, e2, i2, by simpa using x2⟩

theorem loop_calm {K : ℕ → Prop} {M f max : ℕ} (hM : 1 ≤ M) (hm : max ≤ M) (hf : M ≤ f) {srt : Sorter} (hsrt : ∀ l, (srt l).Perm l)
    (hK : ∃ s : Finset ℕ, s.card ≤ max ∧ ∀ q, K q → q ∈ s) (ops : List (Op P)) :
    ∀ {S : St P} {ρ : ℕ → ℕ}, (∀ o ∈ ops, (∀ q ∈ o.usedQ, K q) ∧ isUnitary o = true ∧ o.usedQ ≠ ∅) →
    Inv K M S ρ → Alone S ρ none → Calm S → ∀ S', loop f max srt S ops = some S' → Calm S' := by
  induction ops with
  | nil => intro S ρ _ _ _ hc S' e; cases e; exact hc
  | cons o ops ih =>
    intro S ρ hops h ha hc S' e
    obtain ⟨k1, k2, k3⟩ := hops o (by simp)
    obtain ⟨S1, ρ1, e1, s1, a1, c1⟩ := step_spec hM hm hf hsrt k1 (fun _ h => absurd h k3) h ha
    rw [loop, e1, Option.bind_some] at e
    refine ih (fun x hx => hops x (by simp [hx])) (s1.inv hM h) a1 (c1 k2 ?_ hc) S' e
    obtain ⟨s, hs, hs'⟩ := hK
    refine le_trans (Finset.card_le_card fun x hx => hs' x (reach_seen h (fun q hq => k1 q ((sorted_mem _ _).1 hq)) x hx)) hs

theorem finish_spec {K : ℕ → Prop} {M f : ℕ} (hM : 1 ≤ M) (hf : M ≤ f) (keys : List ℕ) : ∀ {S : St P} {ρ : ℕ → ℕ}, Inv K M S ρ →
    (∀ r, S.cur r ≠ none → r ∈ keys) →
    ∃ S' ρ', finish f S keys = some S' ∧ Tr K M S ρ S' ρ' ∧ ∀ r, S'.cur r = none := by
  induction keys with
  | nil =>
    intro S ρ h hk
    refine ⟨S, ρ, rfl, .refl _ _, fun r => ?_⟩
    by_contra h1
    simpa using hk r h1
  | cons q keys ih =>
    intro S ρ h hk
    rw [finish]
    split_ifs with h1
    · obtain ⟨S1, ρ1, e, t, j⟩ := finalize_spec hf h q
      rw [e, Option.bind_some]
      have key := ih (t.inv hM h) ?_
      · obtain ⟨S2, ρ2, e2, t2, c2⟩ := key
        exact ⟨S2, ρ2, e2, t.trans t2, c2⟩
      · intro r hr
        rw [j.cur] at hr
        split_ifs at hr with h2
        · exact absurd rfl hr
        · rcases List.mem_cons.1 (hk r hr) with rfl | h3
          · exact absurd rfl h2
          · exact h3
    · refine ih h fun r hr => ?_
      rcases List.mem_cons.1 (hk r hr) with rfl | h3
      · exact absurd (h.dead r fun e => h1 ((h.forest.root_iff r).2 e)).1 hr
      · exact h3

theorem unslot_spec (l : List (Option (Op P))) (h : ∀ i : ℕ, l[i]? ≠ some none) : ∃ r, unslot l = some r ∧ l = r.map some := by
  induction l with
  | nil => exact ⟨[], rfl, rfl⟩
  | cons x l ih =>
    obtain ⟨r, e, hr⟩ := ih fun i => by simpa using h (i + 1)
    cases x with
    | none => exact absurd rfl (h 0)
    | some o => exact ⟨o :: r, by rw [unslot, e]; rfl, by rw [hr]; rfl⟩

end MQT.Opt.Blocks
