import Verif.Lemmas.FillIn
import Verif.Lemmas.Greedy

/-!
# C11-C14, C46: symbolic analysis (clique order, supernodes, separators)

All theorems are about `pickCliqueOrder`, the model of `PickCliqueOrder` in
conex/clique_ordering.cc, for an arbitrary list `cs` of index sets, each strictly increasing (the
caller sorts them; that they are duplicate free is C03).
-/

namespace Verif.Clique

open Spec

/-- **C11.** The computation returns exactly when the root is not too large and the first index set
is present and non-empty, and throws otherwise (it never loops or leaves a vector). The order it
returns lists every constraint exactly once and ends with the requested root. -/
theorem C11_elimination_order (cs : List (List Nat)) (hs : Increasing cs)
    (vl : Option (Nat → Bool)) (root : Int) :
    ((root < cs.length ∧ ∃ c, cs[0]? = some c ∧ c ≠ []) →
      ∃ S, pickCliqueOrder cs vl root = .ok S ∧ S.order.Perm (List.range cs.length) ∧
        (root ≠ -1 → S.order.getLast? = some root.toNat)) ∧
    (¬ (root < cs.length ∧ ∃ c, cs[0]? = some c ∧ c ≠ []) →
      pickCliqueOrder cs vl root = .throws) := by
  constructor
  · rintro ⟨hr, c, hc, hne⟩
    obtain ⟨S, own, ht, r, rt, e, h1, h2, h3⟩ := pickCliqueOrder_spec hs vl root hr
      (by rw [(cliqueAt_of_getElem? hc).1]; exact hne)
    exact ⟨S, e, h3.perm, fun h => by rw [h3.last, h2 h]⟩
  · intro h
    have hmax : (root < cs.length) → getMax cs = .throws := by
      intro hr
      cases cs with
      | nil => rfl
      | cons c cs =>
        cases c with
        | nil => rfl
        | cons x c => exact absurd ⟨hr, x :: c, rfl, by simp⟩ h
    by_cases hr : root < cs.length
    · unfold pickCliqueOrder
      rw [hmax hr]
      by_cases hn : 0 < cs.length
      · obtain ⟨s, r, rt, e, _⟩ := getCliqueEliminationOrder_spec hs vl root hn hr
        rw [e]; rfl
      · have : cs = [] := by
          apply List.eq_nil_of_length_eq_zero; omega
        subst this
        unfold getCliqueEliminationOrder
        rw [if_neg (by simp)]
        simp [pickHelper, pickLoop, pickInit, Outcome.bind]
        by_cases h1 : root = -1 <;> simp [h1]
    · unfold pickCliqueOrder getCliqueEliminationOrder
      by_cases hn : cs.length = 0
      · have : cs = [] := List.eq_nil_of_length_eq_zero hn
        subst this
        rw [if_neg (by simp)]
        simp [pickHelper, pickLoop, pickInit]
        by_cases h1 : root = -1 <;> simp [h1, Outcome.bind, getMax]
      · rw [if_pos ⟨hn, by omega⟩]
        rfl

/-- A clique family with a cycle, for the examples below. -/
def exampleCliques : List (List Nat) := [[0, 3], [0, 1], [1, 2], [2, 3], [7, 9]]

example : Increasing exampleCliques ∧ ((2 : Int) < exampleCliques.length) ∧
    exampleCliques[0]? = some [0, 3] := by
  refine ⟨by decide, by decide, rfl⟩

example : ((pickCliqueOrder exampleCliques none 2).toOption.map (·.order)) =
    some [4, 0, 3, 1, 2] := by decide +kernel

/-- **C12.** The supernodes are duplicate free, belong to existing constraints, are pairwise
disjoint, and together contain exactly the unknowns that occur in some constraint. -/
theorem C12_supernodes_partition (cs : List (List Nat)) (hs : Increasing cs)
    (vl : Option (Nat → Bool)) (root : Int) (S : Symbolic)
    (h : pickCliqueOrder cs vl root = .ok S) :
    (∀ e, (S.supernodes e).Pairwise (· < ·)) ∧
    (∀ e e' v, v ∈ S.supernodes e → v ∈ S.supernodes e' → e = e') ∧
    (∀ v, (∃ c ∈ cs, v ∈ c) ↔ ∃ e, e < cs.length ∧ v ∈ S.supernodes e) ∧
    (∀ e, cs.length ≤ e → S.supernodes e = []) := by
  obtain ⟨_, _, own, ht, r, rt, _, _, H⟩ := pick_inversion hs h
  refine ⟨H.sn_sorted, ?_, ?_, ?_⟩
  · intro e e' v h1 h2
    rw [← ((H.mem_sn e v).1 h1).1, ← ((H.mem_sn e' v).1 h2).1]
  · intro v
    constructor
    · rintro ⟨c, hc, hv⟩
      obtain ⟨i, hi, rfl⟩ := List.getElem_of_mem hc
      have hc' := cliqueAt_of_getElem? (List.getElem?_eq_getElem hi)
      rw [← hc'.1] at hv
      exact ⟨own v, H.own_lt i hi v hv, (H.mem_sn _ v).2 ⟨rfl, i, hi, hv⟩⟩
    · rintro ⟨e, _, hv⟩
      obtain ⟨_, i, hi, hv⟩ := (H.mem_sn e v).1 hv
      exact ⟨cliqueAt cs i, List.mem_of_getElem? (getElem?_of_cliqueAt hi), hv⟩
  · intro e he
    rw [List.eq_nil_iff_forall_not_mem]
    intro v hv
    obtain ⟨h1, i, hi, hv⟩ := (H.mem_sn e v).1 hv
    have := H.own_lt i hi v hv
    omega

example : ((pickCliqueOrder exampleCliques none 2).toOption.map
    (fun S => (List.range 5).map S.supernodes)) = some [[], [], [0, 1, 2], [3], [7, 9]] := by
  decide +kernel

/-- **C13.** The index set of every constraint is contained in the union of the supernode and the
separator of its block, and supernode and separator are disjoint and duplicate free. -/
theorem C13_front_contains_clique (cs : List (List Nat)) (hs : Increasing cs)
    (vl : Option (Nat → Bool)) (root : Int) (S : Symbolic)
    (h : pickCliqueOrder cs vl root = .ok S) :
    (∀ i c, cs[i]? = some c → ∀ v ∈ c, v ∈ S.supernodes i ∨ v ∈ S.separators i) ∧
    (∀ e v, v ∈ S.supernodes e → v ∉ S.separators e) ∧
    (∀ e, (S.separators e).Pairwise (· < ·)) := by
  obtain ⟨_, _, own, ht, r, rt, _, _, H⟩ := pick_inversion hs h
  refine ⟨?_, ?_, H.sep_sorted⟩
  · intro i c hc v hv
    obtain ⟨hc1, hi⟩ := cliqueAt_of_getElem? hc
    rw [← hc1] at hv
    by_cases ho : own v = i
    · exact .inl ((H.mem_sn i v).2 ⟨ho, i, hi, hv⟩)
    · exact .inr ((H.mem_sep i v).2 ⟨i, hi, hv, Anc.refl _ _, H.own_anc i hi v hv,
        fun e => ho e.symm⟩)
  · intro e v h1 h2
    obtain ⟨c, _, _, _, _, hne⟩ := (H.mem_sep e v).1 h2
    exact hne ((H.mem_sn e v).1 h1).1.symm

example : ((pickCliqueOrder exampleCliques none 2).toOption.map
    (fun S => (List.range 5).map S.separators)) = some [[0, 3], [0, 1], [], [0, 2], []] := by
  decide +kernel

/-- **C14.** There is a parent map (the clique tree) such that every separator unknown of block `e`
occurs in the supernode or the separator of the parent, which is eliminated strictly later; and the
block whose supernode holds the unknown is also eliminated strictly later. -/
theorem C14_running_intersection (cs : List (List Nat)) (hs : Increasing cs)
    (vl : Option (Nat → Bool)) (root : Int) (S : Symbolic)
    (h : pickCliqueOrder cs vl root = .ok S) :
    (∃ par : Nat → Nat, ∀ e v, v ∈ S.separators e →
      Before S.order e (par e) ∧ (v ∈ S.supernodes (par e) ∨ v ∈ S.separators (par e))) ∧
    (∀ e v, v ∈ S.separators e → ∃ o, v ∈ S.supernodes o ∧ Before S.order e o) := by
  obtain ⟨_, _, own, ht, r, rt, _, _, H⟩ := pick_inversion hs h
  have hnd : S.order.Nodup := H.perm.nodup_iff.2 List.nodup_range
  have key : ∀ e v, v ∈ S.separators e → Before S.order e (S.parent e) ∧
      (v ∈ S.supernodes (S.parent e) ∨ v ∈ S.separators (S.parent e)) := by
    intro e v hv
    obtain ⟨c, hc, hvc, h1, h2, h3⟩ := (H.mem_sep e v).1 hv
    have he : e < cs.length := H.forest.anc_lt hc h1
    have hpe : S.parent e ≠ e := by
      intro hp
      obtain ⟨k, hk⟩ := h2
      rw [Function.iterate_fixed hp] at hk
      exact h3 hk
    refine ⟨before_reverse (H.before e he hpe), ?_⟩
    have h2' : Anc S.parent (own v) (S.parent e) := by
      obtain ⟨k, hk⟩ := h2
      cases k with
      | zero => exact absurd hk h3
      | succ k => exact ⟨k, hk⟩
    by_cases ho : own v = S.parent e
    · exact .inl ((H.mem_sn _ v).2 ⟨ho, c, hc, hvc⟩)
    · refine .inr ((H.mem_sep _ v).2 ⟨c, hc, hvc, ?_, h2', fun e => ho e.symm⟩)
      obtain ⟨k, hk⟩ := h1
      exact ⟨k + 1, by rw [Function.iterate_succ_apply', hk]⟩
  refine ⟨⟨S.parent, key⟩, ?_⟩
  intro e v hv
  obtain ⟨k, hk⟩ : Anc S.parent (own v) e := ((H.mem_sep e v).1 hv).choose_spec.2.2.2.1
  induction k generalizing e with
  | zero =>
    exfalso
    obtain ⟨_, _, _, _, _, h3⟩ := (H.mem_sep e v).1 hv
    exact h3 hk
  | succ k ih =>
    obtain ⟨hb, hp⟩ := key e v hv
    rcases hp with hp | hp
    · exact ⟨_, hp, hb⟩
    · obtain ⟨o, h1, h2⟩ := ih (S.parent e) hp (by simpa using hk)
      exact ⟨o, h1, before_trans hnd hb h2⟩

/-- **C14, converse.** Fill-in is as small as the tree allows: for the parent map reported by the
analysis (whose proper edges go to strictly later blocks), an unknown is in the separator of `e`
only if a constraint at or below `e` mentions it and `e` lies strictly below the unknown's
supernode; and the supernode is the lowest block above every constraint that mentions it. -/
theorem C14_fill_in_minimal (cs : List (List Nat)) (hs : Increasing cs)
    (vl : Option (Nat → Bool)) (root : Int) (S : Symbolic)
    (h : pickCliqueOrder cs vl root = .ok S) :
    (∀ e, e < cs.length → S.parent e < cs.length ∧
      (S.parent e ≠ e → Before S.order e (S.parent e))) ∧
    (∀ e v, v ∈ S.separators e ↔ ∃ i c o, cs[i]? = some c ∧ v ∈ c ∧ v ∈ S.supernodes o ∧
      Anc S.parent e i ∧ Anc S.parent o e ∧ e ≠ o) ∧
    (∀ o v, v ∈ S.supernodes o →
      (∀ i c, cs[i]? = some c → v ∈ c → Anc S.parent o i) ∧
      (∀ a, (∀ i c, cs[i]? = some c → v ∈ c → Anc S.parent a i) → Anc S.parent a o)) := by
  obtain ⟨_, _, own, ht, r, rt, _, _, H⟩ := pick_inversion hs h
  refine ⟨fun e he => ⟨H.forest.par_lt e he, fun hp => before_reverse (H.before e he hp)⟩, ?_, ?_⟩
  · intro e v
    rw [H.mem_sep]
    constructor
    · rintro ⟨c, hc, hv, h1, h2, h3⟩
      exact ⟨c, _, own v, getElem?_of_cliqueAt hc, hv, (H.mem_sn _ v).2 ⟨rfl, c, hc, hv⟩, h1, h2, h3⟩
    · rintro ⟨i, c, o, hi, hv, ho, h1, h2, h3⟩
      obtain ⟨rfl, hi'⟩ := cliqueAt_of_getElem? hi
      obtain ⟨rfl, _⟩ := (H.mem_sn o v).1 ho
      exact ⟨i, hi', hv, h1, h2, h3⟩
  · intro o v ho
    obtain ⟨rfl, c, hc, hv⟩ := (H.mem_sn o v).1 ho
    refine ⟨?_, ?_⟩
    · intro i d hi hd
      obtain ⟨rfl, hi'⟩ := cliqueAt_of_getElem? hi
      exact H.own_anc i hi' v hd
    · intro a ha
      exact H.own_low v a (H.own_lt c hc v hv)
        (fun c hc hv => ha c _ (getElem?_of_cliqueAt hc) hv)

example : ((pickCliqueOrder exampleCliques none 2).toOption.map
    (fun S => (List.range 5).map S.parent)) = some [3, 2, 2, 2, 4] := by
  decide +kernel

/-- **C46.** The clique tree is greedy: a block hangs below a block that it shares an unknown with
(or one of the two carries multipliers), and among the blocks eliminated before it none had a larger
affinity with that parent. -/
theorem C46_greedy_tree (cs : List (List Nat)) (hs : Increasing cs)
    (vl : Option (Nat → Bool)) (root : Int) (S : Symbolic)
    (h : pickCliqueOrder cs vl root = .ok S) (e : Nat) (he : e < cs.length)
    (hp : S.parent e ≠ e) :
    1 ≤ affinity cs vl (S.parent e) e ∧
    ∀ i, Before S.order i e → affinity cs vl (S.parent e) i ≤ affinity cs vl (S.parent e) e := by
  obtain ⟨_, _, own, ht, r, rt, _, _, H⟩ := pick_inversion hs h
  obtain ⟨s, _, hs', h1, h2⟩ := pickCliqueOrder_helper h
  have g := pickHelper_greedy hs'
  simp only [← getWeight_eq_affinity hs, h2]
  rw [h2] at hp
  have hmem : ∀ i, i < cs.length ↔ i ∈ s.order := by
    intro i
    have := H.perm.mem_iff (a := i)
    rw [h1] at this
    simpa using this.symm
  obtain ⟨g1, g2⟩ := g.greedy e ((hmem e).1 he) hp
  refine ⟨g1, fun i hi => g2 i ?_ (.inr ?_)⟩
  · rw [h1] at hi
    exact (hmem i).2 (by simpa using hi.mem_left)
  · rw [h1] at hi
    exact before_reverse hi

/-- Three cliques around clique 0; clique 2 carries multipliers (it is no valid leaf) and is
attached before clique 1, which shares more unknowns with the root; clique 1 then hangs below clique 2
although they share nothing. -/
example : ((pickCliqueOrder [[0, 1, 2], [0, 1, 3], [2, 4]] (some (fun i => i != 2)) 0).toOption.map
    (fun S => (S.order, (List.range 3).map S.parent))) = some ([1, 2, 0], [0, 2, 0]) ∧
    affinity [[0, 1, 2], [0, 1, 3], [2, 4]] (some (fun i => i != 2)) 0 2 = 10001 ∧
    affinity [[0, 1, 2], [0, 1, 3], [2, 4]] (some (fun i => i != 2)) 0 1 = 2 := by
  decide +kernel

end Verif.Clique
