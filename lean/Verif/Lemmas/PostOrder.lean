import Verif.Model.PostOrder
import Mathlib.Data.List.Perm.Subperm
import Verif.Lemmas.SortedSets

/-!
# Lemmas about the post order
-/

namespace Verif.Clique

/-- The intersection has the size of the first set exactly when it is the first set. -/
theorem setInter_full {a b : List Nat} (ha : SSorted a) (hb : SSorted b) :
    ((setInter a b).length = a.length ↔ ∀ v ∈ a, v ∈ b) ∧
    ((setInter a b).length = a.length → setInter a b = a) := by
  have h2 : (setInter a b).length = a.length → setInter a b = a :=
    fun h => (setInter_sublist a b).eq_of_length h
  refine ⟨⟨fun h v hv => ?_, fun h => ?_⟩, h2⟩
  · rw [← h2 h] at hv
    exact ((mem_setInter ha hb v).1 hv).2
  · apply Nat.le_antisymm (setInter_sublist a b).length_le
    have hn : a.Nodup := ha.imp (fun h => Nat.ne_of_lt h)
    exact (List.subperm_of_subset hn
      (fun v hv => (mem_setInter ha hb v).2 ⟨hv, h v hv⟩)).length_le

/-- What the search returns: the first supernode that contains the separator. -/
theorem findFrom_spec {s : List Nat} (hs : SSorted s) :
    ∀ (sns : List (List Nat)) (k : Nat), (∀ b ∈ sns, SSorted b) →
      (findFrom s k sns = none → ∀ b ∈ sns, ¬ ∀ v ∈ s, v ∈ b) ∧
      (∀ j x, findFrom s k sns = some (j, x) →
        x = s ∧ k ≤ j ∧ ∃ b, sns[j - k]? = some b ∧ ∀ v ∈ s, v ∈ b)
  | [], k, _ => by simp [findFrom]
  | b :: sns, k, hb => by
    have h0 := setInter_full hs (hb b (by simp))
    have ih := findFrom_spec hs sns (k + 1) (fun b' h' => hb b' (by simp [h']))
    unfold findFrom
    by_cases hc : (setInter s b).length = s.length
    · rw [if_pos hc]
      refine ⟨by simp, ?_⟩
      rintro j x h
      simp only [Option.some.injEq, Prod.mk.injEq] at h
      obtain ⟨rfl, rfl⟩ := h
      exact ⟨h0.2 hc, le_refl _, b, by simp, h0.1.1 hc⟩
    · rw [if_neg hc]
      refine ⟨fun h b' hb' => ?_, fun j x h => ?_⟩
      · rcases List.mem_cons.1 hb' with rfl | hb'
        · exact fun h => hc (h0.1.2 h)
        · exact ih.1 h b' hb'
      · obtain ⟨h1, h2, b', h3, h4⟩ := ih.2 j x h
        refine ⟨h1, by omega, b', ?_, h4⟩
        rw [show j - k = (j - (k + 1)) + 1 from by omega]
        simpa using h3

/-- One pass of the loop, for disjoint supernodes. -/
theorem postStep_spec {n : Nat} {sn : Nat → List Nat} (hsn : ∀ e, SSorted (sn e))
    (hdis : ∀ e e' v, v ∈ sn e → v ∈ sn e' → e = e') (hbig : ∀ e, n ≤ e → sn e = [])
    {s : List Nat} (hs : SSorted s) (post : List (List (List Nat))) :
    (∀ p, postStep ((List.range n).map sn) post s = .ok p → ∀ k, p[k]? = (post[k]?).map
      (· ++ if s ≠ [] ∧ ∀ v ∈ s, v ∈ sn k then [s] else [])) ∧
    ((∀ k, (s ≠ [] ∧ ∀ v ∈ s, v ∈ sn k) → k < post.length) →
      ∃ p, postStep ((List.range n).map sn) post s = .ok p ∧ p.length = post.length) ∧
    (∀ k, (s ≠ [] ∧ ∀ v ∈ s, v ∈ sn k) → post.length ≤ k →
      postStep ((List.range n).map sn) post s = .throws) := by
  unfold postStep findSupernode
  by_cases h0 : s = []
  · subst h0
    simp
  have hl : ¬ s.length = 0 := fun h => h0 (List.eq_nil_of_length_eq_zero h)
  rw [if_neg hl]
  have hF := findFrom_spec hs ((List.range n).map sn) 0 (by
    intro b hb
    obtain ⟨e, _, rfl⟩ := List.mem_map.1 hb
    exact hsn e)
  obtain ⟨v0, hv0⟩ := List.exists_mem_of_ne_nil s h0
  cases hf : findFrom s 0 ((List.range n).map sn) with
  | none =>
    have hno : ∀ k, ¬ ∀ v ∈ s, v ∈ sn k := by
      intro k hk
      by_cases hkn : k < n
      · exact hF.1 hf (sn k) (List.mem_map.2 ⟨k, List.mem_range.2 hkn, rfl⟩) hk
      · have := hk v0 hv0
        rw [hbig k (by omega)] at this
        simp at this
    refine ⟨?_, fun _ => ⟨post, rfl, rfl⟩, fun k hk => absurd hk.2 (hno k)⟩
    intro p hp k
    simp only [Outcome.ok.injEq] at hp
    subst hp
    rw [if_neg (fun h => hno k h.2)]
    simp
  | some r =>
    obtain ⟨j, x⟩ := r
    obtain ⟨rfl, _, b, hb, hsub⟩ := hF.2 j x hf
    have hjn : j < n := by
      by_contra hjn
      rw [List.getElem?_eq_none (by simp; omega)] at hb
      simp at hb
    have hbj : b = sn j := by
      simp only [Nat.sub_zero, List.getElem?_map, List.getElem?_range hjn, Option.map_some,
        Option.some.injEq] at hb
      exact hb.symm
    subst hbj
    have huniq : ∀ k, (∀ v ∈ x, v ∈ sn k) → k = j :=
      fun k hk => hdis k j v0 (hk v0 hv0) (hsub v0 hv0)
    refine ⟨?_, ?_, ?_⟩
    · intro p hp k
      cases hpj : post[j]? with
      | none => simp [hpj] at hp
      | some l =>
        simp only [hpj, Outcome.ok.injEq] at hp
        subst hp
        by_cases hk : k = j
        · subst hk
          have hlt : k < post.length := (List.getElem?_eq_some_iff.1 hpj).1
          rw [if_pos ⟨h0, hsub⟩, hpj, List.getElem?_set_self hlt]
          rfl
        · rw [if_neg (fun h => hk (huniq k h.2)), List.getElem?_set_ne (fun h => hk h.symm)]
          simp
    · intro hlt
      have := hlt j ⟨h0, hsub⟩
      simp only [List.getElem?_eq_getElem this]
      exact ⟨_, rfl, by simp⟩
    · intro k hk hle
      rw [huniq k hk.2] at hle
      simp only [List.getElem?_eq_none hle]

/-- The whole loop. -/
theorem postLoop_spec {n : Nat} {sn sep : Nat → List Nat} (hsn : ∀ e, SSorted (sn e))
    (hdis : ∀ e e' v, v ∈ sn e → v ∈ sn e' → e = e') (hbig : ∀ e, n ≤ e → sn e = [])
    (hs : ∀ e, SSorted (sep e)) :
    ∀ (es : List Nat) (post : List (List (List Nat))),
    (∀ p, postLoop ((List.range n).map sn) post (es.map sep) = .ok p → ∀ k, p[k]? =
      (post[k]?).map (· ++ (es.filter fun e =>
        decide (sep e ≠ [] ∧ ∀ v ∈ sep e, v ∈ sn k)).map sep)) ∧
    ((∀ e ∈ es, ∀ k, (sep e ≠ [] ∧ ∀ v ∈ sep e, v ∈ sn k) → k < post.length) →
      ∃ p, postLoop ((List.range n).map sn) post (es.map sep) = .ok p ∧ p.length = post.length) ∧
    (∀ e ∈ es, ∀ k, (sep e ≠ [] ∧ ∀ v ∈ sep e, v ∈ sn k) → post.length ≤ k →
      postLoop ((List.range n).map sn) post (es.map sep) = .throws)
  | [], post => by simp [postLoop]
  | e :: es, post => by
    obtain ⟨h1, h2, h3⟩ := postStep_spec hsn hdis hbig (hs e) post
    have ih := postLoop_spec hsn hdis hbig hs es
    rw [List.map_cons]
    unfold postLoop
    refine ⟨?_, ?_, ?_⟩
    · intro p hp k
      cases hq : postStep ((List.range n).map sn) post (sep e) with
      | ok q =>
        rw [hq] at hp
        rw [(ih q).1 p hp k, h1 q hq k, List.filter_cons]
        cases post[k]? with
        | none => rfl
        | some l =>
          by_cases hc : sep e ≠ [] ∧ ∀ v ∈ sep e, v ∈ sn k
          · rw [if_pos hc, if_pos (by simpa using hc)]
            simp
          · rw [if_neg hc, if_neg (by simpa using hc)]
            simp
      | throws => rw [hq] at hp; simp [Outcome.bind] at hp
      | ub => rw [hq] at hp; simp [Outcome.bind] at hp
      | diverges => rw [hq] at hp; simp [Outcome.bind] at hp
    · intro hlt
      obtain ⟨q, hq, hql⟩ := h2 (hlt e (by simp))
      rw [hq]
      obtain ⟨p, hp, hpl⟩ := (ih q).2.1 (fun e' he' k hk => by
        rw [hql]; exact hlt e' (by simp [he']) k hk)
      exact ⟨p, hp, hpl.trans hql⟩
    · intro e' he' k hk hle
      by_cases hthis : ∀ k, (sep e ≠ [] ∧ ∀ v ∈ sep e, v ∈ sn k) → k < post.length
      · obtain ⟨q, hq, hql⟩ := h2 hthis
        rw [hq]
        rcases List.mem_cons.1 he' with rfl | he'
        · exact absurd (hthis k hk) (by omega)
        · exact (ih q).2.2 e' he' k hk (by omega)
      · push Not at hthis
        obtain ⟨k', hk', hle'⟩ := hthis
        rw [h3 k' hk' hle']
        rfl

end Verif.Clique
