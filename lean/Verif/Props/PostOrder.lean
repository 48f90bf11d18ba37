import Verif.Lemmas.PostOrder
import Verif.Props.CliqueOrdering

/-!
# C102: the post order of `PickCliqueOrder`

The optional output of `PickCliqueOrder` lists, for every clique, separators that its supernode
takes over.
-/

namespace Verif.Clique

open Spec

/-- **C102 (partial).** Let the symbolic analysis succeed. If the caller's vector has an entry for
every clique, the post order is computed, keeps the entries that were there, and appends to the list
of clique `k` exactly the non-empty separators that are contained in the supernode of `k`, each once
and in the order of the cliques; such a separator belongs to a clique eliminated before `k`. If the
vector is too short for one of these separators an exception is thrown. The full claim, that every
non-empty separator is listed, fails: `C102_post_order_violated`. -/
theorem C102_post_order_partial (cs : List (List Nat)) (hs : Increasing cs)
    (vl : Option (Nat → Bool)) (root : Int) (S : Symbolic)
    (h : pickCliqueOrder cs vl root = .ok S) (post : List (List (List Nat))) :
    ((cs.length ≤ post.length) → ∃ p, pickCliqueOrderPost cs vl root post = .ok (S, p) ∧
      p.length = post.length ∧ ∀ k l, post[k]? = some l → p[k]? = some (l ++
        ((List.range cs.length).filter fun e =>
          decide (S.separators e ≠ [] ∧ ∀ v ∈ S.separators e, v ∈ S.supernodes k)).map
            S.separators)) ∧
    (∀ e k, S.separators e ≠ [] → (∀ v ∈ S.separators e, v ∈ S.supernodes k) →
      Before S.order e k) ∧
    ((∃ e k, e < cs.length ∧ S.separators e ≠ [] ∧ (∀ v ∈ S.separators e, v ∈ S.supernodes k) ∧
      post.length ≤ k) → pickCliqueOrderPost cs vl root post = .throws) := by
  obtain ⟨g1, g2, _, g4⟩ := C12_supernodes_partition cs hs vl root S h
  obtain ⟨_, _, g5⟩ := C13_front_contains_clique cs hs vl root S h
  obtain ⟨_, g6⟩ := C14_running_intersection cs hs vl root S h
  obtain ⟨h1, h2, h3⟩ := postLoop_spec g1 g2 g4 g5 (List.range cs.length) post
  refine ⟨fun hle => ?_, ?_, ?_⟩
  · obtain ⟨p, hp, hpl⟩ := h2 (fun e _ k hk => by
      by_contra hlt
      obtain ⟨v, hv⟩ := List.exists_mem_of_ne_nil _ hk.1
      have := hk.2 v hv
      rw [g4 k (by omega)] at this
      simp at this)
    refine ⟨p, ?_, hpl, fun k l hk => ?_⟩
    · unfold pickCliqueOrderPost
      rw [h]
      change (postLoop _ post _).bind _ = _
      rw [hp]
      rfl
    · rw [h1 p hp k, hk]
      rfl
  · intro e k he hk
    obtain ⟨v, hv⟩ := List.exists_mem_of_ne_nil _ he
    obtain ⟨o, ho, hb⟩ := g6 e v hv
    rw [g2 k o v (hk v hv) ho]
    exact hb
  · rintro ⟨e, k, he, hne, hk, hle⟩
    unfold pickCliqueOrderPost
    rw [h]
    change (postLoop _ post _).bind _ = _
    rw [h3 e (List.mem_range.2 he) k ⟨hne, hk⟩ hle]
    rfl

/-- The call of the unit test `CliqueOrdering, Nonmaximal` (test/clique_ordering_test.cc 126-143):
both separators are listed at the root. -/
example : Increasing [[0, 1], [0, 1, 2], [0, 1, 2, 3, 4]] ∧
    ((pickCliqueOrderPost [[0, 1], [0, 1, 2], [0, 1, 2, 3, 4]] none 2
      [[], [], [], [], []]).toOption.map (fun r => (r.1.order, r.2))) =
      some ([0, 1, 2], [[], [], [[0, 1], [0, 1, 2]], [], []]) := by
  refine ⟨by decide, by decide +kernel⟩

/-- A vector without an entry for the root makes the same call throw. -/
example : pickCliqueOrderPost [[0, 1], [0, 1, 2], [0, 1, 2, 3, 4]] none 2 [[], []] = .throws := by
  have h : ((match pickCliqueOrderPost [[0, 1], [0, 1, 2], [0, 1, 2, 3, 4]] none 2 [[], []] with
    | .throws => true | _ => false) = true) := by decide +kernel
  split at h <;> simp_all

/-- **C102 is violated.** A separator that is spread over two supernodes is listed nowhere: on the
cycle of cliques above with root 2, the separator `[0, 3]` of clique 0 is non-empty, and the whole
post order does not mention it. -/
theorem C102_post_order_violated :
    ∃ (cs : List (List Nat)) (root : Int) (S : Symbolic) (p : List (List (List Nat))),
      Increasing cs ∧
      pickCliqueOrderPost cs none root (List.replicate cs.length []) = .ok (S, p) ∧
      S.separators 0 ≠ [] ∧ ∀ l ∈ p, S.separators 0 ∉ l := by
  have h : ((pickCliqueOrderPost exampleCliques none 2 (List.replicate 5 [])).toOption.map
      (fun r => decide (r.1.separators 0 ≠ [] ∧ ∀ l ∈ r.2, r.1.separators 0 ∉ l))) =
      some true := by decide +kernel
  cases hr : pickCliqueOrderPost exampleCliques none 2 (List.replicate 5 []) with
  | ok r =>
    rw [hr] at h
    simp only [Outcome.toOption, Option.map_some, Option.some.injEq, decide_eq_true_eq] at h
    exact ⟨exampleCliques, 2, r.1, r.2, by decide, hr, h⟩
  | throws => rw [hr] at h; simp [Outcome.toOption] at h
  | ub => rw [hr] at h; simp [Outcome.toOption] at h
  | diverges => rw [hr] at h; simp [Outcome.toOption] at h

end Verif.Clique
