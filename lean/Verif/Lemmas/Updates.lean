import Verif.Spec.Updates

/-!
# Lemmas on coefficient updates
-/

namespace Verif.Updates

open Spec HermLmi.Spec

variable {R : Type} [Field R] [DecidableEq R] {d n : Nat}

theorem hermitianOperator_ok {o o' : HermLmi.Con d n R} {val : R} {var r c dim : Int}
    (h : hermitianOperator o val var r c dim = .ok (0, o')) :
    hermitianRejects d n val r c dim = false ∧ (0 ≤ var ∧ 0 ≤ dim ∧ 0 ≤ r ∧ 0 ≤ c) ∧
      { o with
        mats := (o.mats ++ List.replicate (var + 1 - o.mats.length).toNat (Hyper.zero d)).set
          var.toNat (write ((o.mats ++ List.replicate (var + 1 - o.mats.length).toNat
            (Hyper.zero d)).getD var.toNat (Hyper.zero d)) dim.toNat r.toNat c.toNat val) } = o' := by
  unfold hermitianOperator at h
  split_ifs at h with h1 h2 h3 h4 <;>
    simp only [Outcome.ok.injEq, Prod.mk.injEq, one_ne_zero, false_and, true_and, reduceCtorEq] at h
  refine ⟨by simpa using h1, by omega, h⟩

theorem hermitianAffine_ok {o o' : HermLmi.Con d n R} {val : R} {r c dim : Int}
    (h : hermitianAffine o val r c dim = .ok (0, o')) :
    hermitianRejects d n val r c dim = false ∧ (0 ≤ dim ∧ 0 ≤ r ∧ 0 ≤ c) ∧
      { o with affine := some (write (o.affine.getD (Hyper.zero d)) dim.toNat r.toNat c.toNat val) } =
        o' := by
  unfold hermitianAffine at h
  split_ifs at h with h1 h2 h3 <;>
    simp only [Outcome.ok.injEq, Prod.mk.injEq, one_ne_zero, false_and, true_and, reduceCtorEq] at h
  refine ⟨by simpa using h1, by omega, h⟩

theorem not_rejects {val : R} {r c dim : Int} (h : hermitianRejects d n val r c dim = false) :
    dim < d ∧ r < n ∧ c < n ∧ (val = 0 ∨ r ≠ c ∨ dim ≤ 0) := by
  unfold hermitianRejects at h
  simp only [Bool.or_eq_false_iff, Bool.not_eq_false', decide_eq_true_eq, decide_eq_false_iff_not] at h
  obtain ⟨⟨h1, h2⟩, h3⟩ := h
  refine ⟨h1, h2.1, h2.2, ?_⟩
  by_contra hc
  push Not at hc
  exact h3 ⟨hc.1, hc.2.1, hc.2.2⟩

theorem write_apply {val : R} {r c dim : Int} (h : hermitianRejects d n val r c dim = false)
    (h0 : 0 ≤ dim ∧ 0 ≤ r ∧ 0 ≤ c) {M : HermLmi.HMat d n R} (k : Fin d) (i j : Fin n) :
    write M dim.toNat r.toNat c.toNat val k i j =
      if (k : Int) = dim ∧ (i : Int) = r ∧ (j : Int) = c then val
      else if (k : Int) = dim ∧ (i : Int) = c ∧ (j : Int) = r then (if dim = 0 then val else -val)
      else M k i j := by
  obtain ⟨h1, h2, h3, h4⟩ := not_rejects h
  obtain ⟨dim, rfl⟩ := Int.eq_ofNat_of_zero_le h0.1
  obtain ⟨r, rfl⟩ := Int.eq_ofNat_of_zero_le h0.2.1
  obtain ⟨c, rfl⟩ := Int.eq_ofNat_of_zero_le h0.2.2
  simp only [write, Int.toNat_natCast, Nat.cast_inj, Int.natCast_eq_zero]
  by_cases hk : k.1 = dim
  · by_cases ha : i.1 = r ∧ j.1 = c
    · by_cases hb : i.1 = c ∧ j.1 = r
      · have hrc : r = c := by omega
        rcases h4 with rfl | h4 | h4
        · simp [hk, ha, hb]
        · exact absurd (by rw [hrc]) h4
        · have : dim = 0 := by omega
          simp [hk, ha, this]
      · rw [if_pos hk, if_neg hb, if_pos ha, if_pos ⟨hk, ha⟩]
    · simp only [hk, if_true, ha, if_false, true_and]
  · simp [hk]

theorem opCoeff_set (o : HermLmi.Con d n R) {var : Int} (hv : 0 ≤ var) (v : Nat) (k : Fin d)
    (i j : Fin n) {f : HermLmi.HMat d n R → HermLmi.HMat d n R} :
    opCoeff ({ o with
        mats := (o.mats ++ List.replicate (var + 1 - o.mats.length).toNat (Hyper.zero d)).set
          var.toNat (f ((o.mats ++ List.replicate (var + 1 - o.mats.length).toNat
            (Hyper.zero d)).getD var.toNat (Hyper.zero d))) } : HermLmi.Con d n R) v k i j =
      if (v : Int) = var then f (fun k i j => opCoeff o v k i j) k i j else opCoeff o v k i j := by
  obtain ⟨var, rfl⟩ := Int.eq_ofNat_of_zero_le hv
  have hpad : ∀ u : Nat, (o.mats ++ List.replicate ((var : Int) + 1 - o.mats.length).toNat
      (Hyper.zero d)).getD u (Hyper.zero d) = fun k i j => opCoeff o u k i j := by
    intro u
    rw [List.getD_eq_getElem?_getD]
    funext k i j
    unfold opCoeff
    by_cases hu : u < o.mats.length
    · rw [List.getElem?_append_left hu, List.getElem?_eq_getElem hu]
      rfl
    · rw [List.getElem?_append_right (not_lt.1 hu), List.getElem?_eq_none (not_lt.1 hu),
        List.getElem?_replicate]
      split_ifs <;> rfl
  have hlen : var < (o.mats ++ List.replicate ((var : Int) + 1 - o.mats.length).toNat
      (Hyper.zero d : HermLmi.HMat d n R)).length := by
    rw [List.length_append, List.length_replicate]
    omega
  have key : ∀ (L : List (HermLmi.HMat d n R)) (a : Option (HermLmi.HMat d n R)),
      opCoeff ⟨L, a⟩ v k i j = L.getD v (Hyper.zero d) k i j := by
    intro L a
    unfold opCoeff
    rw [List.getD_eq_getElem?_getD]
    simp only
    cases L[v]? <;> rfl
  rw [key, List.getD_eq_getElem?_getD, Int.toNat_natCast, List.getElem?_set]
  by_cases hvv : v = var
  · subst hvv
    simp only [if_true, hlen, Option.getD_some]
    rw [hpad]
  · have h2 : ¬ var = v := fun h => hvv h.symm
    have h3 : ¬ (v : Int) = var := by omega
    rw [if_neg h2, if_neg h3, ← List.getD_eq_getElem?_getD, hpad]

theorem hermitian_write {val : R} {r c dim : Int} (h : hermitianRejects d n val r c dim = false)
    (h0 : 0 ≤ dim ∧ 0 ≤ r ∧ 0 ≤ c) {M : HermLmi.HMat d n R} (hM : Hyper.Spec.Hermitian M) :
    Hyper.Spec.Hermitian (write M dim.toNat r.toNat c.toNat val) := by
  intro k i j
  have hm := hM k i j
  rw [write_apply h h0, write_apply h h0]
  obtain ⟨h1, h2, h3, h4⟩ := not_rejects h
  by_cases hk : (k : Int) = dim
  · by_cases hz : k.1 = 0
    · have hd : dim = 0 := by omega
      rw [if_pos hz] at hm ⊢
      simp only [hk, true_and, if_pos hd]
      by_cases ha : (i : Int) = r ∧ (j : Int) = c
      · have hb : (j : Int) = c ∧ (i : Int) = r := ⟨ha.2, ha.1⟩
        rw [if_pos ha, if_pos hb]
        split_ifs <;> rfl
      · by_cases hb : (i : Int) = c ∧ (j : Int) = r
        · have hb' : (j : Int) = r ∧ (i : Int) = c := ⟨hb.2, hb.1⟩
          rw [if_neg ha, if_pos hb, if_pos hb']
        · have ha' : ¬ ((j : Int) = c ∧ (i : Int) = r) := fun h => ha ⟨h.2, h.1⟩
          have hb' : ¬ ((j : Int) = r ∧ (i : Int) = c) := fun h => hb ⟨h.2, h.1⟩
          rw [if_neg ha, if_neg hb, if_neg ha', if_neg hb', hm]
    · have hd : dim ≠ 0 := by omega
      rw [if_neg hz] at hm ⊢
      simp only [hk, true_and, if_neg hd]
      by_cases ha : (i : Int) = r ∧ (j : Int) = c
      · by_cases hb : (j : Int) = r ∧ (i : Int) = c
        · have hv : val = 0 := by
            rcases h4 with h4 | h4 | h4
            · exact h4
            · omega
            · omega
          rw [if_pos ha, if_pos hb, hv, neg_zero]
        · rw [if_pos ha, if_neg hb, if_pos ⟨ha.2, ha.1⟩, neg_neg]
      · by_cases hb : (i : Int) = c ∧ (j : Int) = r
        · rw [if_neg ha, if_pos hb, if_pos ⟨hb.2, hb.1⟩]
        · have ha' : ¬ ((j : Int) = c ∧ (i : Int) = r) := fun h => ha ⟨h.2, h.1⟩
          have hb' : ¬ ((j : Int) = r ∧ (i : Int) = c) := fun h => hb ⟨h.2, h.1⟩
          rw [if_neg ha, if_neg hb, if_neg ha', if_neg hb', hm]
  · simp only [hk, false_and, if_false]
    exact hm

theorem hermitian_zero : Hyper.Spec.Hermitian (Hyper.zero d : HermLmi.HMat d n R) := by
  intro k i j
  simp [Hyper.zero]

theorem hermitianOperator_hermitian {o o' : HermLmi.Con d n R} {val : R} {var r c dim : Int}
    (ho : HermitianData o) (h : hermitianOperator o val var r c dim = .ok (0, o')) :
    HermitianData o' := by
  obtain ⟨hrej, h0, rfl⟩ := hermitianOperator_ok h
  refine ⟨?_, ho.2⟩
  have hall : ∀ A ∈ o.mats ++ List.replicate (var + 1 - o.mats.length).toNat (Hyper.zero d),
      Hyper.Spec.Hermitian A := by
    intro A hA
    rcases List.mem_append.1 hA with hA | hA
    · exact ho.1 A hA
    · rw [List.eq_of_mem_replicate hA]
      exact hermitian_zero
  intro A hA
  rcases List.mem_or_eq_of_mem_set hA with hA | rfl
  · exact hall A hA
  · refine hermitian_write hrej h0.2 ?_
    rw [List.getD_eq_getElem?_getD]
    cases hg : (o.mats ++ List.replicate (var + 1 - o.mats.length).toNat
        (Hyper.zero d))[var.toNat]? with
    | none => exact hermitian_zero
    | some A => exact hall A (List.mem_of_getElem? hg)

theorem hermitianAffine_hermitian {o o' : HermLmi.Con d n R} {val : R} {r c dim : Int}
    (ho : HermitianData o) (h : hermitianAffine o val r c dim = .ok (0, o')) :
    HermitianData o' := by
  obtain ⟨hrej, h0, rfl⟩ := hermitianAffine_ok h
  refine ⟨ho.1, fun C hC => ?_⟩
  obtain rfl := Option.mem_some.1 hC
  refine hermitian_write hrej h0 ?_
  cases hc : o.affine with
  | none => exact hermitian_zero
  | some C => exact ho.2 C hc

/-- Status 1 comes with no change. -/
theorem hermitianOperator_status {o o' : HermLmi.Con d n R} {val : R} {var r c dim s : Int}
    (h : hermitianOperator o val var r c dim = .ok (s, o')) : s = 0 ∨ (s = 1 ∧ o' = o) := by
  unfold hermitianOperator at h
  split_ifs at h <;> simp only [Outcome.ok.injEq, Prod.mk.injEq, reduceCtorEq] at h
  · exact .inr ⟨h.1.symm, h.2.symm⟩
  · exact .inl h.1.symm

theorem hermitianAffine_status {o o' : HermLmi.Con d n R} {val : R} {r c dim s : Int}
    (h : hermitianAffine o val r c dim = .ok (s, o')) : s = 0 ∨ (s = 1 ∧ o' = o) := by
  unfold hermitianAffine at h
  split_ifs at h <;> simp only [Outcome.ok.injEq, Prod.mk.injEq, reduceCtorEq] at h
  · exact .inr ⟨h.1.symm, h.2.symm⟩
  · exact .inl h.1.symm

omit [Field R] [DecidableEq R] in
theorem linearOperator_status {o o' : Linear.Con R} {val : R} {var r c dim s : Int}
    (h : linearOperator o val var r c dim = .ok (s, o')) : s = 0 ∨ (s = 1 ∧ o' = o) := by
  unfold linearOperator at h
  split_ifs at h <;> simp only [Outcome.ok.injEq, Prod.mk.injEq, reduceCtorEq] at h <;>
    first
    | exact .inr ⟨h.1.symm, h.2.symm⟩
    | exact .inl h.1.symm

omit [Field R] [DecidableEq R] in
theorem linearAffine_status {o o' : Linear.Con R} {val : R} {r c dim s : Int}
    (h : linearAffine o val r c dim = .ok (s, o')) : s = 0 ∨ (s = 1 ∧ o' = o) := by
  unfold linearAffine at h
  split_ifs at h <;> simp only [Outcome.ok.injEq, Prod.mk.injEq, reduceCtorEq] at h <;>
    first
    | exact .inr ⟨h.1.symm, h.2.symm⟩
    | exact .inl h.1.symm

omit [DecidableEq R] in
theorem socOperator_status {o o' : Soc.Con R} {val : R} {var r c dim s : Int}
    (h : socOperator o val var r c dim = .ok (s, o')) : s = 0 ∨ (s = 1 ∧ o' = o) := by
  unfold socOperator at h
  cases ho : o.order with
  | none =>
    simp only [ho] at h
    split_ifs at h <;> simp only [Outcome.ok.injEq, Prod.mk.injEq, reduceCtorEq] at h <;>
      exact .inr ⟨h.1.symm, h.2.symm⟩
  | some n =>
    simp only [ho] at h
    split_ifs at h <;> simp only [Outcome.ok.injEq, Prod.mk.injEq, reduceCtorEq] at h <;>
      first
      | exact .inr ⟨h.1.symm, h.2.symm⟩
      | exact .inl h.1.symm

omit [DecidableEq R] in
theorem socAffine_status {o o' : Soc.Con R} {val : R} {r c dim s : Int}
    (h : socAffine o val r c dim = .ok (s, o')) : s = 0 ∨ (s = 1 ∧ o' = o) := by
  unfold socAffine at h
  cases ho : o.order with
  | none =>
    simp only [ho] at h
    split_ifs at h <;> simp only [Outcome.ok.injEq, Prod.mk.injEq, reduceCtorEq] at h <;>
      exact .inr ⟨h.1.symm, h.2.symm⟩
  | some n =>
    simp only [ho] at h
    split_ifs at h <;> simp only [Outcome.ok.injEq, Prod.mk.injEq, reduceCtorEq] at h <;>
      first
      | exact .inr ⟨h.1.symm, h.2.symm⟩
      | exact .inl h.1.symm

omit [Field R] [DecidableEq R] in
theorem costAffine_status {n : Nat} {Q Q' : Nat → Nat → R} {val : R} {r c dim s : Int}
    (h : costAffine n Q val r c dim = .ok (s, Q')) : s = 0 ∨ (s = 1 ∧ Q' = Q) := by
  unfold costAffine at h
  split_ifs at h <;> simp only [Outcome.ok.injEq, Prod.mk.injEq, reduceCtorEq] at h <;>
    first
    | exact .inr ⟨h.1.symm, h.2.symm⟩
    | exact .inl h.1.symm

omit [Field R] [DecidableEq R] in
theorem lift_ok {α : Type} {x : Outcome (Int × α)} {f : α → Any R} {s : Int} {a' : Any R}
    (h : (do let q ← x; .ok (q.1, f q.2)) = Outcome.ok (s, a')) :
    ∃ o', x = .ok (s, o') ∧ a' = f o' := by
  cases x with
  | ok q =>
    simp only [Outcome.bind_ok, Outcome.ok.injEq, Prod.mk.injEq] at h
    exact ⟨q.2, by rw [← h.1], h.2.symm⟩
  | throws => simp at h
  | ub => simp at h
  | diverges => simp at h

theorem anyOperator_status {a a' : Any R} {val : R} {var r c dim s : Int}
    (h : anyOperator a val var r c dim = .ok (s, a')) : s = 0 ∨ (s = 1 ∧ a' = a) := by
  cases a with
  | hermitian d n o =>
    obtain ⟨o', h1, rfl⟩ := lift_ok h
    exact (hermitianOperator_status h1).imp id fun q => ⟨q.1, by rw [q.2]⟩
  | linear o =>
    obtain ⟨o', h1, rfl⟩ := lift_ok h
    exact (linearOperator_status h1).imp id fun q => ⟨q.1, by rw [q.2]⟩
  | soc o =>
    obtain ⟨o', h1, rfl⟩ := lift_ok h
    exact (socOperator_status h1).imp id fun q => ⟨q.1, by rw [q.2]⟩
  | cost n Q =>
    simp only [anyOperator, Outcome.ok.injEq, Prod.mk.injEq] at h
    exact .inr ⟨h.1.symm, h.2.symm⟩
  | other =>
    simp only [anyOperator, Outcome.ok.injEq, Prod.mk.injEq] at h
    exact .inr ⟨h.1.symm, h.2.symm⟩

theorem anyAffine_status {a a' : Any R} {val : R} {r c dim s : Int}
    (h : anyAffine a val r c dim = .ok (s, a')) : s = 0 ∨ (s = 1 ∧ a' = a) := by
  cases a with
  | hermitian d n o =>
    obtain ⟨o', h1, rfl⟩ := lift_ok h
    exact (hermitianAffine_status h1).imp id fun q => ⟨q.1, by rw [q.2]⟩
  | linear o =>
    obtain ⟨o', h1, rfl⟩ := lift_ok h
    exact (linearAffine_status h1).imp id fun q => ⟨q.1, by rw [q.2]⟩
  | soc o =>
    obtain ⟨o', h1, rfl⟩ := lift_ok h
    exact (socAffine_status h1).imp id fun q => ⟨q.1, by rw [q.2]⟩
  | cost n Q =>
    obtain ⟨o', h1, rfl⟩ := lift_ok (f := Any.cost n) h
    exact (costAffine_status h1).imp id fun q => ⟨q.1, by rw [q.2]⟩
  | other =>
    simp only [anyAffine, Outcome.ok.injEq, Prod.mk.injEq] at h
    exact .inr ⟨h.1.symm, h.2.symm⟩

omit [Field R] [DecidableEq R] in
theorem dispatch_ok {f : Any R → Outcome (Int × Any R)}
    (hf : ∀ a s a', f a = .ok (s, a') → s = 0 ∨ (s = 1 ∧ a' = a)) {i : Int} :
    ∀ {p : List (Any R)} {cnt s : Int} {p' : List (Any R)}, dispatch f i cnt p = .ok (s, p') →
      (s = 1 ∧ p' = p) ∨ (s = 0 ∧ ∃ l a a' q, p = l ++ a :: q ∧ p' = l ++ a' :: q ∧
        cnt + (l.length : Int) = i ∧ f a = .ok (0, a')) := by
  intro p
  induction p with
  | nil =>
    intro cnt s p' h
    simp only [dispatch, Outcome.ok.injEq, Prod.mk.injEq] at h
    exact .inl ⟨h.1.symm, h.2.symm⟩
  | cons a p ih =>
    intro cnt s p' h
    rw [dispatch] at h
    split_ifs at h with hc
    · cases hfa : f a with
      | throws => simp [hfa] at h
      | ub => simp [hfa] at h
      | diverges => simp [hfa] at h
      | ok q =>
        simp only [hfa, Outcome.bind_ok, Outcome.ok.injEq, Prod.mk.injEq] at h
        obtain ⟨rfl, rfl⟩ := h
        rcases hf a q.1 q.2 hfa with h0 | ⟨h1, h2⟩
        · exact .inr ⟨h0, [], a, q.2, p, rfl, rfl, by simpa using hc, by rw [hfa, ← h0]⟩
        · exact .inl ⟨h1, by rw [h2]⟩
    · cases hfa : dispatch f i (cnt + 1) p with
      | throws => simp [hfa] at h
      | ub => simp [hfa] at h
      | diverges => simp [hfa] at h
      | ok q =>
        simp only [hfa, Outcome.bind_ok, Outcome.ok.injEq, Prod.mk.injEq] at h
        obtain ⟨rfl, rfl⟩ := h
        rcases ih (s := q.1) (p' := q.2) hfa with ⟨h1, h2⟩ | ⟨h0, l, b, b', t, e1, e2, e3, e4⟩
        · exact .inl ⟨h1, by rw [h2]⟩
        · refine .inr ⟨h0, a :: l, b, b', t, by rw [e1]; rfl, by rw [e2]; rfl, ?_, e4⟩
          simp only [List.length_cons]
          push_cast
          omega

theorem allHermitian_replace {l q : List (Any R)} {a a' : Any R} (hp : AllHermitian (l ++ a :: q))
    (h : ∀ d n o, a' = .hermitian d n o → ∃ o₀, a = .hermitian d n o₀ ∧
      (HermitianData o₀ → HermitianData o)) : AllHermitian (l ++ a' :: q) := by
  intro d n o ho
  rcases List.mem_append.1 ho with ho | ho
  · exact hp d n o (List.mem_append.2 (.inl ho))
  · rcases List.mem_cons.1 ho with ho | ho
    · obtain ⟨o₀, rfl, h2⟩ := h d n o ho.symm
      exact h2 (hp d n o₀ (List.mem_append.2 (.inr (List.mem_cons_self))))
    · exact hp d n o (List.mem_append.2 (.inr (List.mem_cons_of_mem _ ho)))

theorem anyOperator_hermitian {a a' : Any R} {val : R} {var r c dim : Int}
    (h : anyOperator a val var r c dim = .ok (0, a')) : ∀ d n o, a' = .hermitian d n o →
      ∃ o₀, a = .hermitian d n o₀ ∧ (HermitianData o₀ → HermitianData o) := by
  cases a with
  | hermitian d n o =>
    obtain ⟨o', h1, rfl⟩ := lift_ok h
    intro d' n' o'' he
    simp only [Any.hermitian.injEq] at he
    obtain ⟨rfl, rfl, he⟩ := he
    obtain rfl := eq_of_heq he
    exact ⟨o, rfl, fun ho => hermitianOperator_hermitian ho h1⟩
  | linear o =>
    obtain ⟨o', h1, rfl⟩ := lift_ok h
    intro _ _ _ he
    cases he
  | soc o =>
    obtain ⟨o', h1, rfl⟩ := lift_ok h
    intro _ _ _ he
    cases he
  | cost n Q => simp [anyOperator] at h
  | other => simp [anyOperator] at h

theorem anyAffine_hermitian {a a' : Any R} {val : R} {r c dim : Int}
    (h : anyAffine a val r c dim = .ok (0, a')) : ∀ d n o, a' = .hermitian d n o →
      ∃ o₀, a = .hermitian d n o₀ ∧ (HermitianData o₀ → HermitianData o) := by
  cases a with
  | hermitian d n o =>
    obtain ⟨o', h1, rfl⟩ := lift_ok h
    intro d' n' o'' he
    simp only [Any.hermitian.injEq] at he
    obtain ⟨rfl, rfl, he⟩ := he
    obtain rfl := eq_of_heq he
    exact ⟨o, rfl, fun ho => hermitianAffine_hermitian ho h1⟩
  | linear o =>
    obtain ⟨o', h1, rfl⟩ := lift_ok h
    intro _ _ _ he
    cases he
  | soc o =>
    obtain ⟨o', h1, rfl⟩ := lift_ok h
    intro _ _ _ he
    cases he
  | cost n Q =>
    obtain ⟨o', h1, rfl⟩ := lift_ok (f := Any.cost n) h
    intro _ _ _ he
    cases he
  | other => simp [anyAffine] at h

theorem run_hermitian {p : List (Any R)} (hp : AllHermitian p) {c : Call R} {q : Int × List (Any R)}
    (h : c.run p = .ok q) : AllHermitian q.2 := by
  have key : ∀ (f : Any R → Outcome (Int × Any R)) (i : Int),
      (∀ a s a', f a = .ok (s, a') → s = 0 ∨ (s = 1 ∧ a' = a)) →
      (∀ a a', f a = .ok (0, a') → ∀ d n o, a' = .hermitian d n o →
        ∃ o₀, a = .hermitian d n o₀ ∧ (HermitianData o₀ → HermitianData o)) →
      (if ¬ i < p.length then .ok (1, p) else dispatch f i 0 p) = .ok q → AllHermitian q.2 := by
    intro f i hf hh h
    by_cases hi : ¬ i < p.length
    · rw [if_pos hi] at h
      simp only [Outcome.ok.injEq] at h
      exact h ▸ hp
    · rw [if_neg hi] at h
      obtain ⟨-, h2⟩ | ⟨-, l, a, a', t, rfl, e2, -, e4⟩ :=
        dispatch_ok (s := q.1) (p' := q.2) hf h
      · rw [h2]
        exact hp
      · rw [e2]
        exact allHermitian_replace hp (hh a a' e4)
  cases c with
  | operator i val var r c dim =>
    exact key _ i (fun _ _ _ h => anyOperator_status h) (fun _ _ h => anyOperator_hermitian h) h
  | affine i val r c dim =>
    exact key _ i (fun _ _ _ h => anyAffine_status h) (fun _ _ h => anyAffine_hermitian h) h
  | cost i val r c =>
    exact key _ i (fun _ _ _ h => anyAffine_status h) (fun _ _ h => anyAffine_hermitian h) h

theorem rejects_iff {val : R} {r c dim : Int} : hermitianRejects d n val r c dim = true ↔
    ¬ (dim < d ∧ (r < n ∧ c < n) ∧ ¬ (val ≠ 0 ∧ r = c ∧ 0 < dim)) := by
  unfold hermitianRejects
  simp only [Bool.or_eq_true, Bool.not_eq_true', decide_eq_true_eq, decide_eq_false_iff_not]
  tauto

omit [Field R] [DecidableEq R] in
theorem dispatch_none {f : Any R → Outcome (Int × Any R)} {i : Int} :
    ∀ {p : List (Any R)} {cnt : Int}, i < cnt ∨ cnt + p.length ≤ i → dispatch f i cnt p = .ok (1, p) := by
  intro p
  induction p with
  | nil => intros; rfl
  | cons a p ih =>
    intro cnt h
    simp only [List.length_cons] at h
    push_cast at h
    rw [dispatch, if_neg (by omega : ¬ cnt = i), ih (by omega)]
    rfl

omit [Field R] [DecidableEq R] in
theorem dispatch_some {f : Any R → Outcome (Int × Any R)} {i : Int} :
    ∀ {l q : List (Any R)} {a : Any R} {cnt : Int}, cnt + l.length = i →
      dispatch f i cnt (l ++ a :: q) = (do let x ← f a; .ok (x.1, l ++ x.2 :: q)) := by
  intro l
  induction l with
  | nil =>
    intro q a cnt h
    rw [List.nil_append, dispatch, if_pos (by simpa using h)]
    rfl
  | cons b l ih =>
    intro q a cnt h
    simp only [List.length_cons] at h
    push_cast at h
    rw [List.cons_append, dispatch, if_neg (by omega : ¬ cnt = i), ih (by omega)]
    cases f a <;> rfl

theorem anyOperator_table (a : Any R) (val : R) (var r c dim : Int) (hv : 0 ≤ var) (hr : 0 ≤ r)
    (hc : 0 ≤ c) (hd : 0 ≤ dim) (h1 : ∀ o, a = .linear o → var < o.m)
    (h2 : ∀ o, a = .soc o → SocOk o) : ∃ s a', anyOperator a val var r c dim = .ok (s, a') ∧
      (s = 0 ∨ s = 1) ∧ (s = 0 ↔ Inside a val var r c dim) := by
  cases a with
  | hermitian d n o =>
    by_cases hrej : hermitianRejects d n val r c dim = true
    · refine ⟨1, _, by simp only [anyOperator, hermitianOperator, hrej, if_true]; rfl, .inr rfl, ?_⟩
      rw [rejects_iff] at hrej
      simp only [one_ne_zero, false_iff, Inside]
      rintro ⟨-, ⟨-, k1⟩, ⟨-, k2⟩, ⟨-, k3⟩, k4⟩
      exact hrej ⟨k3, ⟨k1, k2⟩, fun ⟨q1, q2, q3⟩ => q1 (k4 q2 (by omega))⟩
    · refine ⟨0, _, by
        simp only [anyOperator, hermitianOperator, hrej, Bool.false_eq_true, if_false, not_lt.2 hv,
          not_lt.2 hd, not_lt.2 hr, not_lt.2 hc, or_self]; rfl, .inl rfl, ?_⟩
      rw [rejects_iff, not_not] at hrej
      simp only [true_iff, Inside]
      refine ⟨hv, ⟨hr, hrej.2.1.1⟩, ⟨hc, hrej.2.1.2⟩, ⟨hd, hrej.1⟩, fun q1 q2 => ?_⟩
      by_contra hz
      exact hrej.2.2 ⟨hz, q1, by omega⟩
  | linear o =>
    have h1 := h1 o rfl
    simp only [anyOperator, linearOperator, Inside]
    by_cases e1 : dim ≠ 0
    · exact ⟨1, _, by rw [if_pos e1]; rfl, .inr rfl, by simp only [one_ne_zero, false_iff]; omega⟩
    by_cases e2 : c ≠ 0
    · exact ⟨1, _, by rw [if_neg e1, if_pos e2]; rfl, .inr rfl, by
        simp only [one_ne_zero, false_iff]; omega⟩
    by_cases e3 : ¬ r < o.n
    · exact ⟨1, _, by rw [if_neg e1, if_neg e2, if_pos e3]; rfl, .inr rfl, by
        simp only [one_ne_zero, false_iff]; omega⟩
    refine ⟨0, _, by
      rw [if_neg e1, if_neg e2, if_neg e3, if_neg (by omega : ¬ ¬ (0 ≤ var ∧ 0 ≤ r)),
        if_neg (by omega : ¬ (o.m : Int) ≤ var)]; rfl, .inl rfl, by simp only [true_iff]; omega⟩
  | soc o =>
    obtain ⟨k1, k2, -⟩ := h2 o rfl
    simp only [anyOperator, socOperator, Inside, k1]
    by_cases e1 : dim ≠ 0
    · exact ⟨1, _, by rw [if_pos e1]; rfl, .inr rfl, by simp only [one_ne_zero, false_iff]; omega⟩
    by_cases e2 : c ≠ 0
    · exact ⟨1, _, by rw [if_neg e1, if_pos e2]; rfl, .inr rfl, by
        simp only [one_ne_zero, false_iff]; omega⟩
    by_cases e3 : ¬ r ≤ o.n
    · exact ⟨1, _, by rw [if_neg e1, if_neg e2, if_pos e3]; rfl, .inr rfl, by
        simp only [one_ne_zero, false_iff]; omega⟩
    rw [if_neg e1, if_neg e2, if_neg e3, if_neg (by omega : ¬ ¬ (0 ≤ var ∧ 0 ≤ r))]
    by_cases e4 : (o.m : Int) ≤ var
    · refine ⟨0, _, by
        rw [if_pos e4, if_neg (by push_cast; omega : ¬ ((o.n + 1 : Nat) : Int) ≤ r)]; rfl, .inl rfl, by
          simp only [true_iff]; omega⟩
    · refine ⟨0, _, by
        rw [if_neg e4, if_neg (by omega : ¬ (o.rowsA : Int) ≤ r)]; rfl, .inl rfl, by
          simp only [true_iff]; omega⟩
  | cost n Q => exact ⟨1, _, rfl, .inr rfl, by simp [Inside]⟩
  | other => exact ⟨1, _, rfl, .inr rfl, by simp [Inside]⟩

theorem anyAffine_table (a : Any R) (val : R) (r c dim : Int) (hr : 0 ≤ r)
    (hc : 0 ≤ c) (hd : 0 ≤ dim)
    (h2 : ∀ o, a = .soc o → SocOk o) : ∃ s a', anyAffine a val r c dim = .ok (s, a') ∧
      (s = 0 ∨ s = 1) ∧ (s = 0 ↔ InsideAffine a val r c dim) := by
  cases a with
  | hermitian d n o =>
    by_cases hrej : hermitianRejects d n val r c dim = true
    · refine ⟨1, _, by simp only [anyAffine, hermitianAffine, hrej, if_true]; rfl, .inr rfl, ?_⟩
      rw [rejects_iff] at hrej
      simp only [one_ne_zero, false_iff, InsideAffine]
      rintro ⟨⟨-, k1⟩, ⟨-, k2⟩, ⟨-, k3⟩, k4⟩
      exact hrej ⟨k3, ⟨k1, k2⟩, fun ⟨q1, q2, q3⟩ => q1 (k4 q2 (by omega))⟩
    · refine ⟨0, _, by
        simp only [anyAffine, hermitianAffine, hrej, Bool.false_eq_true, if_false,
          not_lt.2 hd, not_lt.2 hr, not_lt.2 hc, or_self]; rfl, .inl rfl, ?_⟩
      rw [rejects_iff, not_not] at hrej
      simp only [true_iff, InsideAffine]
      refine ⟨⟨hr, hrej.2.1.1⟩, ⟨hc, hrej.2.1.2⟩, ⟨hd, hrej.1⟩, fun q1 q2 => ?_⟩
      by_contra hz
      exact hrej.2.2 ⟨hz, q1, by omega⟩
  | linear o =>
    simp only [anyAffine, linearAffine, InsideAffine]
    by_cases e1 : dim ≠ 0
    · exact ⟨1, _, by rw [if_pos e1]; rfl, .inr rfl, by simp only [one_ne_zero, false_iff]; omega⟩
    by_cases e2 : c ≠ 0
    · exact ⟨1, _, by rw [if_neg e1, if_pos e2]; rfl, .inr rfl, by
        simp only [one_ne_zero, false_iff]; omega⟩
    by_cases e3 : ¬ r < o.n
    · exact ⟨1, _, by rw [if_neg e1, if_neg e2, if_pos e3]; rfl, .inr rfl, by
        simp only [one_ne_zero, false_iff]; omega⟩
    refine ⟨0, _, by
      rw [if_neg e1, if_neg e2, if_neg e3, if_neg (by omega : ¬ ¬ 0 ≤ r)]; rfl, .inl rfl, by
        simp only [true_iff]; omega⟩
  | soc o =>
    obtain ⟨k1, -, k2⟩ := h2 o rfl
    simp only [anyAffine, socAffine, InsideAffine, k1]
    by_cases e1 : dim ≠ 0
    · exact ⟨1, _, by rw [if_pos e1]; rfl, .inr rfl, by simp only [one_ne_zero, false_iff]; omega⟩
    by_cases e2 : c ≠ 0
    · exact ⟨1, _, by rw [if_neg e1, if_pos e2]; rfl, .inr rfl, by
        simp only [one_ne_zero, false_iff]; omega⟩
    by_cases e3 : ¬ r ≤ o.n
    · exact ⟨1, _, by rw [if_neg e1, if_neg e2, if_pos e3]; rfl, .inr rfl, by
        simp only [one_ne_zero, false_iff]; omega⟩
    rw [if_neg e1, if_neg e2, if_neg e3, if_neg (by omega : ¬ ¬ 0 ≤ r)]
    by_cases e4 : o.rowsC = 0
    · refine ⟨0, _, by
        rw [if_pos e4, if_neg (by push_cast; omega : ¬ ((o.n + 1 : Nat) : Int) ≤ r)]; rfl, .inl rfl, by
          simp only [true_iff]; omega⟩
    · refine ⟨0, _, by
        rw [if_neg e4, if_neg (by omega : ¬ (o.rowsC : Int) ≤ r)]; rfl, .inl rfl, by
          simp only [true_iff]; omega⟩
  | cost n Q =>
    simp only [anyAffine, costAffine, InsideAffine]
    by_cases e1 : dim ≠ 0
    · exact ⟨1, _, by rw [if_pos e1]; rfl, .inr rfl, by simp only [one_ne_zero, false_iff]; omega⟩
    by_cases e2 : ¬ (r < n ∧ c < n)
    · exact ⟨1, _, by rw [if_neg e1, if_pos e2]; rfl, .inr rfl, by
        simp only [one_ne_zero, false_iff]; omega⟩
    refine ⟨0, _, by
      rw [if_neg e1, if_neg e2, if_neg (by omega : ¬ (r < 0 ∨ c < 0))]; rfl, .inl rfl, by
        simp only [true_iff]; omega⟩
  | other => exact ⟨1, _, rfl, .inr rfl, by simp [InsideAffine]⟩

/-- The table of a program from the table of its constraints. -/
theorem program_table {f : Any R → Outcome (Int × Any R)} {P : Any R → Prop} {p : List (Any R)} (i : Int)
    (h : ∀ a ∈ p, ∃ s a', f a = .ok (s, a') ∧ (s = 0 ∨ s = 1) ∧ (s = 0 ↔ P a)) :
    ∃ s p', (if ¬ i < p.length then .ok (1, p) else dispatch f i 0 p) = .ok (s, p') ∧
      (s = 0 ∨ s = 1) ∧ (s = 0 ↔ ∃ a, 0 ≤ i ∧ p[i.toNat]? = some a ∧ P a) := by
  by_cases h1 : ¬ i < p.length
  · refine ⟨1, p, by rw [if_pos h1], .inr rfl, ?_⟩
    simp only [one_ne_zero, false_iff]
    rintro ⟨a, h0, h2, -⟩
    have := (List.getElem?_eq_some_iff.1 h2).1
    omega
  · rw [if_neg h1]
    by_cases h0 : 0 ≤ i
    · have hl : i.toNat < p.length := by omega
      obtain ⟨s, a', e1, e2, e3⟩ := h p[i.toNat] (List.getElem_mem hl)
      have hp : p = p.take i.toNat ++ p[i.toNat] :: p.drop (i.toNat + 1) := by
        rw [← List.drop_eq_getElem_cons hl, List.take_append_drop]
      refine ⟨s, p.take i.toNat ++ a' :: p.drop (i.toNat + 1), ?_, e2, ?_⟩
      · have hd := dispatch_some (f := f) (l := p.take i.toNat) (q := p.drop (i.toNat + 1))
          (a := p[i.toNat]) (cnt := 0) (i := i) (by rw [List.length_take]; omega)
        rw [← hp] at hd
        rw [hd, e1]
        rfl
      · rw [e3, List.getElem?_eq_getElem hl]
        simp only [Option.some.injEq]
        exact ⟨fun q => ⟨_, h0, rfl, q⟩, fun ⟨a, _, e, q⟩ => e ▸ q⟩
    · refine ⟨1, p, dispatch_none (by omega), .inr rfl, ?_⟩
      simp only [one_ne_zero, false_iff]
      rintro ⟨a, h2, -⟩
      exact h0 h2

end Verif.Updates
