import Verif.Lemmas.MatlabGraph

/-!
# Lemmas on the mask of the MATLAB interface
-/

namespace Verif.Matlab

/-! ### Completion of one block -/

/-- The cliques `cl` of a block of order `n`. -/
structure Cliques (n : Nat) (cl : List (List Nat)) : Prop where
  nodup : cl.flatten.Nodup
  lt : ∀ c ∈ cl, ∀ i ∈ c, i < n
  ne : ∀ c ∈ cl, c ≠ []

theorem unique_of_flatten : ∀ {cl : List (List Nat)}, cl.flatten.Nodup →
    ∀ c ∈ cl, ∀ c' ∈ cl, ∀ i, i ∈ c → i ∈ c' → c = c' := by
  intro cl
  induction cl with
  | nil => intro _ c hc; simp at hc
  | cons a cl ih =>
    intro h c hc c' hc' i hi hi'
    rw [List.flatten_cons, List.nodup_append] at h
    rcases List.mem_cons.1 hc with rfl | hc1
    · rcases List.mem_cons.1 hc' with rfl | hc'
      · rfl
      · exact absurd rfl (h.2.2 i hi i (List.mem_flatten.2 ⟨c', hc', hi'⟩))
    · rcases List.mem_cons.1 hc' with rfl | hc'
      · exact absurd rfl (h.2.2 i hi' i (List.mem_flatten.2 ⟨c, hc1, hi⟩))
      · exact ih h.2.1 c hc1 c' hc' i hi hi'

/-- Paths along the entries of a matrix of order `n`. -/
def Path (n : Nat) (B : Nat → Nat → Bool) : Nat → Nat → Prop :=
  Relation.ReflTransGen fun i j => i < n ∧ j < n ∧ B i j = true

theorem completion_ok (n : Nat) (B : Nat → Nat → Bool) (hB : ∀ i j, i < n → j < n → B i j = B j i) :
    ∃ T cl, completion n B = .ok (T, cl) ∧ Cliques n cl ∧
      (∀ i j, i < n → j < n → (T i j = true ↔ ∃ c ∈ cl, i ∈ c ∧ j ∈ c)) ∧
      (∀ i j, i < n → j < n → B i j = true → ∃ c ∈ cl, i ∈ c ∧ j ∈ c) ∧
      (∀ c ∈ cl, ∀ i ∈ c, ∃ j, j < n ∧ B i j = true) ∧
      ∀ c ∈ cl, ∀ i ∈ c, ∀ j ∈ c, Path n B i j := by
  set r := (List.range n).filter fun i => (List.range n).any fun j => B i j with hr
  have hmem : ∀ i, i ∈ r ↔ i < n ∧ ∃ j, j < n ∧ B i j = true := by
    intro i
    simp [hr, List.mem_filter]
  have hnd : r.Nodup := List.nodup_range.filter _
  by_cases h0 : r = []
  · have hz : ∀ i j, i < n → j < n → B i j = true → False := by
      intro i j hi hj hij
      have : i ∈ r := (hmem i).2 ⟨hi, j, hj, hij⟩
      rw [h0] at this
      simp at this
    refine ⟨B, [], ?_, ⟨by simp, by simp, by simp⟩, ?_, ?_, by simp, by simp⟩
    · simp only [completion, ← hr, h0, if_true]
    · intro i j hi hj
      simp only [List.not_mem_nil, false_and, exists_false, iff_false]
      exact hz i j hi hj
    · intro i j hi hj hij
      exact (hz i j hi hj hij).elim
  · obtain ⟨cs, h1, h2, h3, h4, h5, h6⟩ := conncomp_ok r.length fun a b => B (r.getD a 0) (r.getD b 0)
    set g : Nat → Nat := fun a => r.getD a 0 with hg
    have hgm : ∀ a, a < r.length → g a ∈ r := by
      intro a ha
      simp only [hg, List.getD_eq_getElem?_getD, List.getElem?_eq_getElem ha, Option.getD_some]
      exact List.getElem_mem ha
    have hginj : ∀ a b, a < r.length → b < r.length → g a = g b → a = b := by
      intro a b ha hb hab
      simp only [hg, List.getD_eq_getElem?_getD, List.getElem?_eq_getElem ha,
        List.getElem?_eq_getElem hb, Option.getD_some] at hab
      exact (hnd.getElem_inj_iff).1 hab
    have hgs : ∀ i ∈ r, ∃ a, a < r.length ∧ g a = i := by
      intro i hi
      obtain ⟨a, ha, rfl⟩ := List.mem_iff_getElem.1 hi
      exact ⟨a, ha, by simp only [hg, List.getD_eq_getElem?_getD, List.getElem?_eq_getElem ha,
        Option.getD_some]⟩
    set cl := cs.map fun c => c.map g with hcl
    have hcm : ∀ c ∈ cl, ∃ d ∈ cs, d.map g = c := by
      intro c hc
      simpa [hcl] using hc
    have hC : Cliques n cl := by
      refine ⟨?_, ?_, ?_⟩
      · rw [hcl, ← List.map_flatten]
        refine List.Nodup.map_on (fun a ha b hb hab => ?_) h2
        obtain ⟨d, hd, had⟩ := List.mem_flatten.1 ha
        obtain ⟨e, he, hbe⟩ := List.mem_flatten.1 hb
        exact hginj a b (h3 d hd a had) (h3 e he b hbe) hab
      · intro c hc i hi
        obtain ⟨d, hd, rfl⟩ := hcm c hc
        obtain ⟨a, ha, rfl⟩ := List.mem_map.1 hi
        exact ((hmem _).1 (hgm a (h3 d hd a ha))).1
      · intro c hc
        obtain ⟨d, hd, rfl⟩ := hcm c hc
        simpa using h5 d hd
    have hedge : ∀ i j, i < n → j < n → B i j = true → ∃ c ∈ cl, i ∈ c ∧ j ∈ c := by
      intro i j hi hj hij
      obtain ⟨a, ha, rfl⟩ := hgs i ((hmem i).2 ⟨hi, j, hj, hij⟩)
      obtain ⟨b, hb, rfl⟩ := hgs j ((hmem j).2 ⟨hj, g a, hi, by rw [← hB _ _ hi hj]; exact hij⟩)
      obtain ⟨d, hd, had⟩ := h4 a ha
      refine ⟨d.map g, List.mem_map.2 ⟨d, hd, rfl⟩, List.mem_map.2 ⟨a, had, rfl⟩, List.mem_map.2 ⟨b, ?_, rfl⟩⟩
      by_cases hab : a = b
      · rw [← hab]; exact had
      · refine (h6 d hd a had b).2 (Relation.ReflTransGen.single ⟨ha, hb, ?_⟩)
        have : B (r.getD a 0) (r.getD b 0) = true := hij
        simp only [Bool.and_eq_true, Bool.or_eq_true, bne_iff_ne]
        exact ⟨Ne.symm hab, .inr this⟩
    refine ⟨fun i j => B i j || cl.any fun c => c.contains i && c.contains j, cl, ?_, hC, ?_, hedge, ?_,
      ?_⟩
    · simp only [completion, ← hr, if_neg h0, h1, Outcome.bind_ok]
      rfl
    · intro i j hi hj
      rw [Bool.or_eq_true, List.any_eq_true]
      simp only [Bool.and_eq_true, List.contains_iff_mem]
      constructor
      · rintro (h | h)
        · exact hedge i j hi hj h
        · exact h
      · exact .inr
    · intro c hc i hi
      obtain ⟨d, hd, rfl⟩ := hcm c hc
      obtain ⟨a, ha, rfl⟩ := List.mem_map.1 hi
      exact ((hmem _).1 (hgm a (h3 d hd a ha))).2
    · intro c hc i hi j hj
      obtain ⟨d, hd, rfl⟩ := hcm c hc
      obtain ⟨a, ha, rfl⟩ := List.mem_map.1 hi
      obtain ⟨b, hb, rfl⟩ := List.mem_map.1 hj
      have hab := (h6 d hd a ha b).1 hb
      clear hb hj hi
      induction hab with
      | refl => exact Relation.ReflTransGen.refl
      | tail _ hbc ih =>
        obtain ⟨h7, h8, h9⟩ := hbc
        refine ih.tail ?_
        have l1 := ((hmem _).1 (hgm _ h7)).1
        have l2 := ((hmem _).1 (hgm _ h8)).1
        refine ⟨l1, l2, ?_⟩
        simp only [Bool.and_eq_true, Bool.or_eq_true] at h9
        rcases h9.2 with h | h
        · rw [hB _ _ l1 l2]; exact h
        · exact h

theorem completion_mono {n : Nat} {B B' : Nat → Nat → Bool}
    (hle : ∀ i j, i < n → j < n → B i j = true → B' i j = true) {cl cl' : List (List Nat)}
    (hc' : Cliques n cl')
    (hlt : ∀ c ∈ cl, ∀ i ∈ c, i < n)
    (hedge : ∀ i j, i < n → j < n → B' i j = true → ∃ c ∈ cl', i ∈ c ∧ j ∈ c)
    (hsup : ∀ c ∈ cl, ∀ i ∈ c, ∃ j, j < n ∧ B i j = true)
    (hpath : ∀ c ∈ cl, ∀ i ∈ c, ∀ j ∈ c, Path n B i j) :
    ∀ c ∈ cl, ∀ i ∈ c, ∀ j ∈ c, ∃ c' ∈ cl', i ∈ c' ∧ j ∈ c' := by
  intro c hc i hi j hj
  have hp := hpath c hc i hi j hj
  obtain ⟨k, hk, hik⟩ := hsup c hc i hi
  obtain ⟨d, hd, hid, -⟩ := hedge i k (hlt c hc i hi) hk (hle i k (hlt c hc i hi) hk hik)
  refine ⟨d, hd, hid, ?_⟩
  clear hj
  induction hp with
  | refl => exact hid
  | tail _ hbc ih =>
    obtain ⟨h1, h2, h3⟩ := hbc
    obtain ⟨e, he, h4, h5⟩ := hedge _ _ h1 h2 (hle _ _ h1 h2 h3)
    rwa [unique_of_flatten hc'.nodup d hd e he _ ih h4]

/-! ### Completion of all blocks -/

theorem pos_bounds {off n i j : Nat} (hi : i < n) (hj : j < n) :
    off ≤ pos off n i j ∧ pos off n i j < off + n * n := by
  unfold pos
  have : n * (j + 1) ≤ n * n := Nat.mul_le_mul_left n hj
  rw [Nat.mul_succ] at this
  omega

theorem pos_of {off n k : Nat} (h1 : off ≤ k) (h2 : k < off + n * n) :
    (k - off) % n < n ∧ (k - off) / n < n ∧ pos off n ((k - off) % n) ((k - off) / n) = k := by
  have hn : 0 < n := by
    rcases Nat.eq_zero_or_pos n with rfl | h
    · omega
    · exact h
  refine ⟨Nat.mod_lt _ hn, (Nat.div_lt_iff_lt_mul hn).2 (by omega), ?_⟩
  unfold pos
  rw [Nat.mod_add_div]
  omega

theorem pos_mod {off n i j : Nat} (hi : i < n) : (pos off n i j - off) % n = i := by
  unfold pos
  rw [Nat.add_sub_cancel_left, Nat.add_mul_mod_self_left, Nat.mod_eq_of_lt hi]

theorem pos_div {off n i j : Nat} (hi : i < n) : (pos off n i j - off) / n = j := by
  unfold pos
  rw [Nat.add_sub_cancel_left, Nat.add_mul_div_left _ _ (by omega), Nat.div_eq_of_lt hi, Nat.zero_add]

/-- The blocks of the mask are symmetric. -/
def SymBlocks : List Nat → Nat → (Nat → Bool) → Prop
  | [], _, _ => True
  | n :: ns, off, M => (∀ i j, i < n → j < n → M (pos off n i j) = M (pos off n j i)) ∧
    SymBlocks ns (off + n * n) M

/-- The cliques are those of the mask `M`. -/
def Comp : List Nat → Nat → (Nat → Bool) → List (List (List Nat)) → Prop
  | [], _, _, [] => True
  | n :: ns, off, M, cl :: cls => (Cliques n cl ∧
    (∀ i j, i < n → j < n → M (pos off n i j) = true → ∃ c ∈ cl, i ∈ c ∧ j ∈ c) ∧
    (∀ c ∈ cl, ∀ i ∈ c, ∃ j, j < n ∧ M (pos off n i j) = true) ∧
    ∀ c ∈ cl, ∀ i ∈ c, ∀ j ∈ c, Path n (fun i j => M (pos off n i j)) i j) ∧
    Comp ns (off + n * n) M cls
  | _, _, _, _ => False

/-- The mask `M` consists of the squares of the cliques. -/
def Masked : List Nat → Nat → (Nat → Bool) → List (List (List Nat)) → Prop
  | [], _, _, [] => True
  | n :: ns, off, M, cl :: cls => (Cliques n cl ∧
    ∀ i j, i < n → j < n → (M (pos off n i j) = true ↔ ∃ c ∈ cl, i ∈ c ∧ j ∈ c)) ∧
    Masked ns (off + n * n) M cls
  | _, _, _, _ => False

theorem SymBlocks.congr : ∀ {s : List Nat} {off : Nat} {M M' : Nat → Bool},
    (∀ k, off ≤ k → k < off + numVar s → M' k = M k) → SymBlocks s off M → SymBlocks s off M' := by
  intro s
  induction s with
  | nil => exact fun _ _ => trivial
  | cons n ns ih =>
    intro off M M' h hM
    simp only [numVar] at h
    refine ⟨fun i j hi hj => ?_, ih (fun k h1 h2 => h k (by omega) (by omega)) hM.2⟩
    have h1 := pos_bounds (off := off) hi hj
    have h2 := pos_bounds (off := off) hj hi
    rw [h _ h1.1 (by omega), h _ h2.1 (by omega)]
    exact hM.1 i j hi hj

theorem Comp.congr : ∀ {s : List Nat} {off : Nat} {M M' : Nat → Bool} {cls : List (List (List Nat))},
    (∀ k, off ≤ k → k < off + numVar s → M' k = M k) → Comp s off M cls → Comp s off M' cls := by
  intro s
  induction s with
  | nil =>
    intro off M M' cls _ h
    cases cls with
    | nil => trivial
    | cons _ _ => exact h.elim
  | cons n ns ih =>
    intro off M M' cls h hM
    cases cls with
    | nil => exact hM.elim
    | cons cl cls =>
      simp only [numVar] at h
      obtain ⟨⟨h1, h2, h3, h4⟩, h5⟩ := hM
      have hp : ∀ i j, i < n → j < n → M' (pos off n i j) = M (pos off n i j) := by
        intro i j hi hj
        have := pos_bounds (off := off) hi hj
        exact h _ this.1 (by omega)
      refine ⟨⟨h1, fun i j hi hj hm => h2 i j hi hj (by rw [← hp i j hi hj]; exact hm), ?_, ?_⟩,
        ih (fun k k1 k2 => h k (by omega) (by omega)) h5⟩
      · intro c hc i hi
        obtain ⟨j, hj, hm⟩ := h3 c hc i hi
        exact ⟨j, hj, by rw [hp i j (h1.lt c hc i hi) hj]; exact hm⟩
      · intro c hc i hi j hj
        refine Relation.ReflTransGen.mono (fun a b hab => ?_) _ _ (h4 c hc i hi j hj)
        exact ⟨hab.1, hab.2.1, (hp a b hab.1 hab.2.1).trans hab.2.2⟩

theorem completeBlocks_ok : ∀ (s : List Nat) (off : Nat) (M : Nat → Bool), SymBlocks s off M →
    ∃ M' cls, completeBlocks s off M = .ok (M', cls) ∧ Masked s off M' cls ∧ Comp s off M cls ∧
      (∀ k, M k = true → M' k = true) ∧ ∀ k, k < off ∨ off + numVar s ≤ k → M' k = M k := by
  intro s
  induction s with
  | nil => exact fun off M _ => ⟨M, [], rfl, trivial, trivial, fun _ h => h, fun _ _ => rfl⟩
  | cons n ns ih =>
    intro off M hM
    obtain ⟨T, cl, h1, h2, h3, h4, h5, h6⟩ := completion_ok n (fun i j => M (pos off n i j)) hM.1
    set M1 : Nat → Bool := fun k =>
      if off ≤ k ∧ k < off + n * n then T ((k - off) % n) ((k - off) / n) else M k with hM1
    have hout : ∀ k, k < off ∨ off + n * n ≤ k → M1 k = M k := by
      intro k hk
      simp only [hM1]
      rw [if_neg (by omega)]
    have hin : ∀ i j, i < n → j < n → M1 (pos off n i j) = T i j := by
      intro i j hi hj
      simp only [hM1]
      rw [if_pos (pos_bounds hi hj), pos_mod hi, pos_div hi]
    obtain ⟨M2, cls, g1, g2, g3, g4, g5⟩ := ih (off + n * n) M1
      (hM.2.congr fun k h1 _ => hout k (.inr h1))
    have hM2 : ∀ i j, i < n → j < n → M2 (pos off n i j) = T i j := by
      intro i j hi hj
      rw [g5 _ (.inl (pos_bounds hi hj).2), hin i j hi hj]
    refine ⟨M2, cl :: cls, ?_, ⟨⟨h2, fun i j hi hj => ?_⟩, g2⟩,
      ⟨⟨h2, h4, h5, h6⟩, g3.congr fun k h1 _ => (hout k (.inr h1)).symm⟩, ?_, ?_⟩
    · simp only [completeBlocks, h1, Outcome.bind_ok]
      rw [← hM1, g1]
      rfl
    · rw [hM2 i j hi hj]
      exact h3 i j hi hj
    · intro k hk
      apply g4
      by_cases hr : off ≤ k ∧ k < off + n * n
      · obtain ⟨e1, e2, e3⟩ := pos_of hr.1 hr.2
        rw [← e3, hin _ _ e1 e2, h3 _ _ e1 e2]
        refine h4 _ _ e1 e2 ?_
        rw [e3]
        exact hk
      · rw [hout k (by omega)]
        exact hk
    · intro k hk
      simp only [numVar] at hk
      rw [g5 k (by omega), hout k (by omega)]

theorem Comp.mono : ∀ {s : List Nat} {off : Nat} {M L M' L' : Nat → Bool}
    {cls cls' : List (List (List Nat))}, Comp s off M cls → Comp s off L cls' → Masked s off M' cls →
    Masked s off L' cls' → (∀ k, off ≤ k → k < off + numVar s → M k = true → L k = true) →
    ∀ k, off ≤ k → k < off + numVar s → M' k = true → L' k = true := by
  intro s
  induction s with
  | nil =>
    intro off M L M' L' cls cls' _ _ _ _ _ k h1 h2
    simp only [numVar] at h2
    omega
  | cons n ns ih =>
    intro off M L M' L' cls cls' hM hL hM' hL' hle k hk1 hk2 hk
    simp only [numVar] at hle hk2
    cases cls with
    | nil => exact hM.elim
    | cons cl cls =>
      cases cls' with
      | nil => exact hL.elim
      | cons cl' cls' =>
        obtain ⟨⟨a1, a2, a3, a4⟩, a5⟩ := hM
        obtain ⟨⟨b1, b2, b3, b4⟩, b5⟩ := hL
        by_cases hr : k < off + n * n
        · obtain ⟨e1, e2, e3⟩ := pos_of hk1 hr
          rw [← e3] at hk ⊢
          obtain ⟨c, hc, hi, hj⟩ := (hM'.1.2 _ _ e1 e2).1 hk
          refine (hL'.1.2 _ _ e1 e2).2 (completion_mono (B := fun i j => M (pos off n i j))
            (B' := fun i j => L (pos off n i j)) ?_ b1 a1.lt b2 a3 a4 c hc _ hi _ hj)
          intro i j hi hj hm
          have := pos_bounds (off := off) hi hj
          exact hle _ this.1 (by omega) hm
        · exact ih a5 b5 hM'.2 hL'.2 (fun k h1 h2 => hle k (by omega) (by omega)) k (by omega)
            (by omega) hk

end Verif.Matlab
